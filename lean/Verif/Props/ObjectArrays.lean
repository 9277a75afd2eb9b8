import Verif.Proofs.ObjectArray
import Verif.Props.Objects
/-
Property C33: positional objects (`object_array`).

The definitions used in the statements are in Spec/Serial.lean (layouts of
arrays, `RT`) and Spec/Fields.lean (`Fields`).
-/
namespace Wjson
open Spec

section
variable {τ : Type}

/-- The text written for members with the given value texts. -/
def arrayText (ts : List Bytes) : Bytes := c%'[' :: joinComma ts ++ b!"]"

theorem areads_all {L : List (Entry τ)} {vs : List Bytes} {fs : List (τ → τ)}
    (h : All2 (fun en (x : Bytes × (τ → τ)) => ∃ y, Reads en.ref.ser.de x.1 y ∧ x.2 = en.ref.set y) L (vs.zip fs)) :
    All2 AReads (L.map Entry.toAMember) (vs.zip fs) := by
  generalize vs.zip fs = xs at h
  induction h with
  | nil => exact .nil
  | @cons en x L xs h1 _ ih =>
    obtain ⟨y, h2, h3⟩ := h1
    obtain ⟨v, f⟩ := x
    simp only at h2 h3
    subst h3
    exact .cons (Entry.areads h2) ih

/-- What elements do to the leading members: the texts `ts` are read as values
of the members `L`, one by one, and stored. -/
inductive Stores : List (Entry τ) → List Bytes → τ → τ → Prop
  | nil {t} : Stores [] [] t t
  | cons {en : Entry τ} {L v ts x t t'} : Reads en.ref.ser.de v x → Stores L ts (en.ref.set x t) t' →
      Stores (en :: L) (v :: ts) t t'

theorem Stores.all {L : List (Entry τ)} {ts : List Bytes} {t t' : τ} (h : Stores L ts t t') :
    ∃ xs : List (Bytes × (τ → τ)), All2 AReads (L.map Entry.toAMember) xs ∧ xs.map Prod.fst = ts ∧ applyAll (xs.map Prod.snd) t = t' := by
  induction h with
  | nil => exact ⟨[], .nil, rfl, rfl⟩
  | @cons en L v ts x t t' h1 _ ih =>
    obtain ⟨xs, h2, h3, h4⟩ := ih
    exact ⟨(v, en.ref.set x) :: xs, .cons (Entry.areads h1) h2, by simp [h3], by simp [applyAll_cons, h4]⟩

theorem Stores.of_rt {L : List (Entry τ)} (v : τ) {ts : List Bytes}
    (h : All2 (fun en t => RT en.ref.ser (en.ref.get v) t) L ts) (v0 : τ) :
    Stores L ts v0 (applyAll (L.map fun en => en.ref.set (en.ref.get v)) v0) := by
  induction h generalizing v0 with
  | nil => exact .nil
  | @cons en t L ts h1 _ ih => exact .cons h1.reads (ih _)

/-- Every member that got an element holds the value read, everything else is as before. -/
theorem Stores.keeps {β : Type} {L : List (Entry τ)} {ts : List Bytes} {t t' : τ} (h : Stores L ts t t') (g : τ → β)
    (hg : ∀ en ∈ L, ∀ x t, g (en.ref.set x t) = g t) : g t' = g t := by
  induction h with
  | nil => rfl
  | @cons en L v ts x t t' _ _ ih => rw [ih fun en hen => hg en (by simp [hen]), hg en (by simp)]

/-- C33. A positional object is written as a JSON array of its members in order.
Reading that text into any object restores every member, reports no error, stops
after the text, and changes nothing but the members. -/
theorem C33_round_trip (dflt : τ) {L : List (Entry τ)} (hf : Fields (L.map Entry.ref)) (v : τ) {ts : List Bytes}
    (h : All2 (fun en t => RT en.ref.ser (en.ref.get v) t) L ts) :
    Writes (objectArraySer dflt (L.map Entry.toAMember)).emit v (arrayText ts) ∧
    ∀ v0, ∃ v', ReadsAt (objectArraySer dflt (L.map Entry.toAMember)).de v0 (arrayText ts) v' ∧
      (∀ en ∈ L, en.ref.get v' = en.ref.get v) ∧
      ∀ {β : Type} (g : τ → β), (∀ en ∈ L, ∀ x t, g (en.ref.set x t) = g t) → g v' = g v0 := by
  refine ⟨?_, fun v0 => ⟨applyAll (L.map fun en => en.ref.set (en.ref.get v)) v0, ?_, restored hf v v0,
    fun g hg => (Stores.of_rt v h v0).keeps g hg⟩⟩
  · refine emitObjectArray_writes ?_
    clear hf
    induction h with
    | nil => exact .nil
    | @cons en t L ts h1 _ ih =>
      refine .cons ?_ ih
      intro k
      cases en with
      | mem m => exact h1.writes k
      | prop m => exact h1.writes k
  · cases h with
    | nil => exact deObjectArray_empty dflt v0 .nil
    | @cons en t L ts h1 h2 =>
      obtain ⟨xs, h3, h4, h5⟩ := (Stores.of_rt v (.cons h1 h2) v0).all
      rw [← h5]
      have hst : ∀ x ∈ t :: ts, Start x := by
        have : ∀ {L : List (Entry τ)} {ts : List Bytes}, All2 (fun en t => RT en.ref.ser (en.ref.get v) t) L ts →
            ∀ t ∈ ts, Start t := by
          intro L ts h
          induction h with
          | nil => simp
          | cons h1 _ ih =>
            intro t ht
            rcases List.mem_cons.mp ht with rfl | ht
            · exact h1.start
            · exact ih t ht
        exact this (.cons h1 h2)
      have hi : Items1 (fun v t => v = t) c%']' (xs.map Prod.fst) (joinComma (t :: ts) ++ b!"]") := by
        rw [h4]
        clear h1 h2 h3 h4 h5 hf
        induction ts generalizing t with
        | nil =>
          have := Items1.last (item := fun v t => v = t) (R := c%']') (g1 := []) (g2 := []) .nil (hst t (by simp)) rfl .nil
          simpa [joinComma] using this
        | cons u ts ih =>
          have := Items1.more (item := fun v t => v = t) (R := c%']') (g1 := []) (g2 := []) .nil (hst t (by simp)) rfl .nil
            (ih (t := u) (fun x hx => hst x (by simp [hx])))
          simpa [joinComma] using this
      have := deObjectArray_items h3 hi [] dflt v0
      rwa [List.append_nil] at this

/-- C33. If the members make up the whole structure, the object round-trips. -/
theorem C33_whole_round_trip (dflt : τ) {L : List (Entry τ)} (hf : Fields (L.map Entry.ref))
    (hall : ∀ a b, (∀ en ∈ L, en.ref.get a = en.ref.get b) → a = b) (v : τ) {ts : List Bytes}
    (h : All2 (fun en t => RT en.ref.ser (en.ref.get v) t) L ts) :
    RT (objectArraySer dflt (L.map Entry.toAMember)) v (arrayText ts) where
  writes := (C33_round_trip dflt hf v h).1
  start := ⟨c%'[', _, rfl, by decide⟩
  reads := by
    intro v0
    obtain ⟨v', h1, h2, _⟩ := (C33_round_trip dflt hf v h).2 v0
    rwa [hall v' v h2] at h1

/-- C33. An array with at most as many elements as there are members, in any
layout: the leading members `L1` get the values of the elements, in order. -/
theorem C33_elements (dflt : τ) {L1 L2 : List (Entry τ)} {ts : List Bytes} {v0 v' : τ} (h : Stores L1 ts v0 v') {r : Bytes}
    (hs : Items1 (fun v t => v = t) c%']' ts r) :
    ReadsAt (objectArraySer dflt ((L1 ++ L2).map Entry.toAMember)).de v0 (c%'[' :: r) v' := by
  obtain ⟨xs, h3, h4, h5⟩ := h.all
  subst h4 h5
  rw [List.map_append]
  exact deObjectArray_items h3 hs _ dflt v0

/-- C33. With fewer elements than members, only the leading members change: the
others, and whatever the leading ones do not cover, keep their values. -/
theorem C33_fewer_elements (dflt : τ) {L1 L2 : List (Entry τ)} (hf : Fields ((L1 ++ L2).map Entry.ref)) {ts : List Bytes}
    {v0 v' : τ} (h : Stores L1 ts v0 v') {r : Bytes} (hs : Items1 (fun v t => v = t) c%']' ts r) :
    ReadsAt (objectArraySer dflt ((L1 ++ L2).map Entry.toAMember)).de v0 (c%'[' :: r) v' ∧
    (∀ en ∈ L2, en.ref.get v' = en.ref.get v0) ∧
    ∀ {β : Type} (g : τ → β), (∀ en ∈ L1, ∀ x t, g (en.ref.set x t) = g t) → g v' = g v0 := by
  refine ⟨C33_elements dflt h hs, fun en hen => h.keeps en.ref.get ?_, fun g hg => h.keeps g hg⟩
  intro en1 hen1 x t
  have := hf.apart
  rw [List.map_append, List.pairwise_append] at this
  exact (this.2.2 en1.ref (List.mem_map_of_mem hen1) en.ref (List.mem_map_of_mem hen)).2.1 x t

/-- C33. The empty array changes nothing. -/
theorem C33_no_elements (dflt : τ) (L : List (Entry τ)) (v0 : τ) {g : Bytes} (hg : Gap g) :
    ReadsAt (objectArraySer dflt (L.map Entry.toAMember)).de v0 (c%'[' :: (g ++ b!"]")) v0 :=
  deObjectArray_empty dflt v0 hg

/-- C33. `null` gives the default object. -/
theorem C33_null (dflt : τ) (L : List (Entry τ)) : Reads (objectArraySer dflt (L.map Entry.toAMember)).de b!"null" dflt := by
  intro v0 rest e _ _
  have h1 : isNull (b!"null" ++ rest) = true := rfl
  simp only [objectArraySer, deObjectArray, h1, if_true, parseNull_ok]

/-- C33. If every member has got its element and, after a comma, another one
starts, an error is reported. -/
theorem C33_more_elements (dflt : τ) {L : List (Entry τ)} {ts : List Bytes} {v0 v' : τ} (h : Stores L ts v0 v')
    {r g w : Bytes} (hs : ItemsComma (fun v t => v = t) ts r) (hg : Gap g) (hw : Start w) {e : EPtr} (he : e.Clean) :
    ∃ t e', (objectArraySer dflt (L.map Entry.toAMember)).de v0 (c%'[' :: (r ++ g ++ w)) e = .ok (t, [], e') ∧
      e'.failed = true := by
  obtain ⟨xs, h3, h4, h5⟩ := h.all
  subst h4 h5
  obtain ⟨e', h6, h7⟩ := deObjectArray_too_many h3 hs dflt v0 hg hw he
  rw [← List.append_assoc] at h6
  exact ⟨_, e', h6, h7⟩

/-- C33, `member_if` as an element: whichever alternative reads the element (if
it is the second one, the first must reject it) is stored, the other one becomes
what `null` reads as. -/
theorem C33_alternative {a b : MRef τ} {da : a.α} {db : b.α} (hda : Reads a.ser.de b!"null" da) (hdb : Reads b.ser.de b!"null" db)
    (hss : ∀ x y t, a.set x (a.set y t) = a.set x t) (v : Bytes) (v0 : τ) :
    (∀ x, Reads a.ser.de v x → ReadsAt (deAMemberIf a b) v0 v (b.set db (a.set x v0))) ∧
    (∀ x, Rejects a.ser.de v → Reads b.ser.de v x → ReadsAt (deAMemberIf a b) v0 v (b.set x (a.set da v0))) :=
  ⟨fun _ hx => deAMemberIf_first hx hdb (fun _ k => .ok k) v0,
    fun _ hr hx => deAMemberIf_second hr hx hda hss (fun _ k => .ok k) v0⟩

end

/-! ### Concrete cases -/

def demoArr : Ser Demo := objectArraySer ⟨0, false, [], 0⟩ (demoList.map Entry.toAMember)

example : Stores demoList [b!"-5", b!"true", b!"\"x\""] ⟨1, false, b!"old", 7⟩ ⟨-5, true, b!"x", 7⟩ := by
  have hi : intText (-5) = b!"-5" := by decide +kernel
  have h1 := (intSer_rt .strict (ty := .int) (.inr (.inr (.inl rfl))) (v := -5) (by decide) (.inl (by decide))).reads
  rw [hi] at h1
  have h : StrOk b!"x" := by
    refine ⟨?_, by decide, by decide⟩
    rintro ⟨u, hu, _, h5⟩
    have := hu.length_le
    simp only [List.length_cons, List.length_nil] at this
    omega
  have hb : c%'"' :: strBody false b!"x" ++ b!"\"" = b!"\"x\"" := by decide +kernel
  have h3 := (strSer_rt h).reads
  rw [hb] at h3
  exact .cons (en := .mem demoA) h1 (.cons (en := .prop demoB) (x := true) (boolSer_rt true).reads
    (.cons (en := .mem demoS) h3 .nil))

example : demoArr.emit ⟨-5, true, b!"x", 9⟩ ⟨[], .back⟩ = .ok ⟨b!"[-5,true,\"x\"]", .back⟩ := by decide +kernel
example : demoArr.de ⟨1, false, b!"old", 7⟩ b!"[-5,true,\"x\"]" .fresh = .ok (⟨-5, true, b!"x", 7⟩, [], .fresh) := by
  decide +kernel
example : demoArr.de ⟨1, false, b!"old", 7⟩ b!"[ -5 , true ]" .fresh = .ok (⟨-5, true, b!"old", 7⟩, [], .fresh) := by
  decide +kernel
example : demoArr.de ⟨1, false, b!"old", 7⟩ b!"[-5,true,\"x\", 9]" .fresh =
    .ok (⟨-5, true, b!"x", 7⟩, [], .obj ⟨.ExpectedOf, some b!"]", 2⟩) := by decide +kernel

/-- A trailing comma is accepted after the last member, and only there. -/
theorem C33_trailing_comma :
    demoArr.de ⟨1, false, b!"old", 7⟩ b!"[-5,true,\"x\",]" .fresh = .ok (⟨-5, true, b!"x", 7⟩, [], .fresh) ∧
    demoArr.de ⟨1, false, b!"old", 7⟩ b!"[-5,]" .fresh =
      .ok (⟨-5, false, b!"old", 7⟩, [], .obj ⟨.InvalidBool, none, 1⟩) := by decide +kernel

example (RU : Bool) : (objectArraySer (⟨0, false, [], 0⟩ : Demo) [amemberIf demoA demoB (fun (x : Int) => decide (x = 0)) RU, amember demoS]).de
    ⟨3, false, [], 0⟩ b!"[true,\"x\"]" .fresh = .ok (⟨0, true, b!"x", 0⟩, [], .fresh) := by
  cases RU <;> decide +kernel

end Wjson
