import Verif.Proofs.Slots
/-
Property C43: `member_if` among other members.
-/
namespace Wjson
open Spec

section
variable {τ : Type}

/-- C43. An object with any number of `member_if`s among any number of members round-trips. Of every `member_if` the
alternative that is written is restored and the other one gets what `null` gives; `v'` is any structure with these values.
Whatever is not a member of the list is left as it was. -/
theorem C43_round_trip_among_others (c : Cfg) (strict : Bool) (dflt : τ) {L : List (Slot τ)} (hf : Fields (L.flatMap Slot.refs))
    (hs : ∀ x ∈ L, SameNames x) (v v' : τ) (hn : ∀ x ∈ L, c%'"' ∉ (x.live v).name) {ts : List Bytes} (h : All2 (SlotText v v') L ts) :
    WritesBack (objectSer c strict dflt (L.map Slot.toMember)).emit v (objectText (L.map fun x => (x.live v).name) ts) ∧
    ∀ v0, ∃ v1, ReadsAt (objectSer c strict dflt (L.map Slot.toMember)).de v0 (objectText (L.map fun x => (x.live v).name) ts) v1 ∧
      (∀ m ∈ L.flatMap Slot.refs, m.get v1 = m.get v') ∧
      ∀ (β : Type) (g : τ → β), (∀ m ∈ L.flatMap Slot.refs, ∀ x t, g (m.set x t) = g t) → g v1 = g v0 :=
  have ⟨h1, h2⟩ := object_slots c strict dflt hf hs v v' hn h
  ⟨h1, fun v0 => ⟨_, h2 v0, setRefs_get hf v0, fun _ _ hg => setRefs_other hg v0⟩⟩

/-- C43. The same for an `object_array`, where the alternatives need not have the same name. -/
theorem C43_round_trip_in_array (dflt : τ) {L : List (Slot τ)} (hf : Fields (L.flatMap Slot.refs)) (v v' : τ) {ts : List Bytes}
    (h : All2 (SlotText v v') L ts) :
    WritesBack (objectArraySer dflt (L.map Slot.toAMember)).emit v (arrayText ts) ∧
    ∀ v0, ∃ v1, ReadsAt (objectArraySer dflt (L.map Slot.toAMember)).de v0 (arrayText ts) v1 ∧
      (∀ m ∈ L.flatMap Slot.refs, m.get v1 = m.get v') ∧
      ∀ (β : Type) (g : τ → β), (∀ m ∈ L.flatMap Slot.refs, ∀ x t, g (m.set x t) = g t) → g v1 = g v0 :=
  have ⟨h1, h2⟩ := objectArray_slots dflt hf v v' h
  ⟨h1, fun v0 => ⟨_, h2 v0, setRefs_get hf v0, fun _ _ hg => setRefs_other hg v0⟩⟩

end

/-- The member `s` and a `member_if` of an integer and a boolean. -/
def demoSlots (RU : Bool) : List (Slot Demo) :=
  [.one (.mem demoS), .alt ⟨b!"v", (·.a), fun x t => { t with a := x }, intSer .strict .int⟩
    ⟨b!"v", (·.b), fun x t => { t with b := x }, boolSer⟩ (fun x => decide (x = 0)) RU]

theorem demoSlots_fields (RU : Bool) : Fields ((demoSlots RU).flatMap Slot.refs) := by
  constructor
  · intro m hm
    simp [demoSlots, Slot.refs, Entry.ref] at hm
    rcases hm with rfl | rfl | rfl <;> intros <;> rfl
  · intro m hm
    simp [demoSlots, Slot.refs, Entry.ref] at hm
    rcases hm with rfl | rfl | rfl <;> intros <;> rfl
  · simp [demoSlots, Slot.refs, Entry.ref, demoS]

/-- The integer is 12 and the boolean set: the integer is written, and the boolean comes back as false. -/
example (RU : Bool) : All2 (SlotText (⟨12, true, b!"x", 9⟩ : Demo) ⟨12, false, b!"x", 9⟩) (demoSlots RU) [b!"\"x\"", b!"12"] := by
  have h : StrOk b!"x" := by
    refine ⟨?_, by decide, by decide⟩
    rintro ⟨u, hu, _, h5⟩
    have := hu.length_le
    simp only [List.length_cons, List.length_nil] at this
    omega
  have h1 := (strSer_rt h).back
  rw [show c%'"' :: strBody false b!"x" ++ b!"\"" = b!"\"x\"" by decide +kernel] at h1
  have h2 := (intSer_rt .strict (ty := .int) (.inr (.inr (.inl rfl))) (v := 12) (by decide) (.inl (by decide))).back
  rw [show intText 12 = b!"12" by decide +kernel] at h2
  refine .cons ⟨⟨h1.writes, h1.start, h1.reads⟩, fun o ho => (by cases ho), fun o ho => (by cases ho)⟩
    (.cons ⟨⟨h2.writes, h2.start, h2.reads⟩, fun o ho => ?_, fun o ho _ => ?_⟩ .nil)
  · cases ho
    exact C32_null_bool
  · cases ho
    exact fun _ _ _ => ⟨false, [], .obj ⟨.InvalidBool, none, _⟩, rfl, rfl⟩

/-- The integer has its default 0: the boolean is written. With the default order reading tries the integer first, which
reports an error for `true`. -/
example (RU : Bool) : All2 (SlotText (⟨0, true, b!"x", 9⟩ : Demo) ⟨0, true, b!"x", 9⟩) ((demoSlots RU).drop 1) [b!"true"] := by
  have h1 := (boolSer_rt true).back
  refine .cons ⟨⟨h1.writes, h1.start, h1.reads⟩, fun o ho => ?_, fun o ho _ => ?_⟩ .nil
  · cases ho
    exact C32_null_integer _ _
  · cases ho
    show Rejects (intSer .strict .int).de b!"true"
    intro v0 rest e
    exact ⟨_, _, _, rfl, rfl⟩

example (RU : Bool) : (objectSer .strict false ⟨0, false, [], 0⟩ ((demoSlots RU).map Slot.toMember)).emit ⟨12, true, b!"x", 9⟩ ⟨[], .back⟩ =
    .ok ⟨b!"{\"s\":\"x\",\"v\":12}", .back⟩ := by
  cases RU <;> decide +kernel

end Wjson
