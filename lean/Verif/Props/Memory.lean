import Verif.Proofs.Memory
import Verif.Props.Slots
/-
Property C79: what is read takes memory at most linear in the text.
-/
namespace Wjson
open Spec

/-- C79. Whatever the text, right or wrong, what is in the variable after reading is at most what was in it before, a
constant of the description and a constant times the number of bytes consumed. -/
theorem C79_memory {c : Cfg} {α : Type} {S : Ser α} {f : α → Nat} {A k : Nat} (h : Sized c S f A k) {v0 v : α} {s p : Bytes}
    {e e' : EPtr} (hr : S.de v0 s e = .ok (v, p, e')) :
    p.length ≤ s.length ∧ f v ≤ f v0 + A + k * (s.length - p.length) := by
  obtain ⟨⟨h1, h2⟩, _⟩ := h.fits v0 s e _ hr
  simp only at h1 h2
  refine ⟨h1, ?_⟩
  rw [Nat.mul_sub]
  have := Nat.mul_le_mul_left k h1
  omega

/-- C79. In particular for a variable of the description that is new: a constant and a constant times the length of the text. -/
theorem C79_memory_fresh {c : Cfg} {α : Type} {S : Ser α} {f : α → Nat} {A k : Nat} (h : Sized c S f A k) {v : α} {s p : Bytes}
    {e e' : EPtr} (hr : S.de S.dflt s e = .ok (v, p, e')) : f v ≤ f S.dflt + A + k * s.length := by
  obtain ⟨h1, h2⟩ := C79_memory h hr
  have := Nat.mul_le_mul_left k (Nat.sub_le s.length p.length)
  omega

/-- C79. A string is not longer than the text it is read from, with all escapes and all errors. -/
theorem C79_string {v0 v s p : Bytes} {e e' : EPtr} (hr : strSer.de v0 s e = .ok (v, p, e')) : v.length + p.length ≤ s.length :=
  deStr_size (v := v0) hr

/-- C79. The number of elements of any container of values and the number of their bytes together: at most `k` times the
number of bytes consumed, for everything that costs at most `k`. What was in the container before does not matter. -/
theorem C79_container {c : Cfg} {α C : Type} {K : Coll α C} (hK : AddsOne K) {S : Ser α} {f : α → Nat} {A k : Nat} (h : Sized c S f A k)
    (hk : 1 + f S.dflt + A ≤ k) {v0 v : C} {s p : Bytes} {e e' : EPtr} (hr : (arraySer K S).de v0 s e = .ok (v, p, e')) :
    (K.elems v).length + ((K.elems v).map f).sum ≤ k * s.length := by
  rw [← sumSize_eq]
  have hf : (arraySer K S).de K.clear s e = .ok (v, p, e') := hr
  have h2 := (C79_memory (.array hK h hk) hf).2
  simp only [hK.clear, sumSize] at h2
  have := Nat.mul_le_mul_left k (Nat.sub_le s.length p.length)
  omega

/-- C79. The strings of a `vector<string>`, a `set<string>` and so on: their number and all their bytes together are not more
than the bytes of the text. -/
theorem C79_strings {C : Type} {K : Coll Bytes C} (hK : AddsOne K) {v0 v : C} {s p : Bytes} {e e' : EPtr}
    (hr : (arraySer K strSer).de v0 s e = .ok (v, p, e')) :
    (K.elems v).length + ((K.elems v).map List.length).sum ≤ s.length := by
  have := C79_container (c := .strict) hK .str (by simp [strSer]) hr
  omega

/-- C79. Keys and values of a dictionary of strings. -/
theorem C79_dictionary {C : Type} {K : Coll (Bytes × Bytes) C} (hK : AddsOne K) {v0 v : C} {s p : Bytes} {e e' : EPtr}
    (hr : (dictSer K strSer strSer).de v0 s e = .ok (v, p, e')) :
    (K.elems v).length + ((K.elems v).map fun x => x.1.length + x.2.length).sum ≤ s.length := by
  rw [← sumSize_eq (fun x : Bytes × Bytes => x.1.length + x.2.length)]
  have hf : (dictSer K strSer strSer).de K.clear s e = .ok (v, p, e') := hr
  have h2 := (C79_memory (c := .strict) (.dict hK .str .str (by simp [strSer])) hf).2
  simp only [hK.clear, sumSize] at h2
  omega

/-- C79. The containers: everything that keeps all elements, everything that keeps one for each key, and an ordered set or map
with any comparison. -/
theorem C79_containers {α C κ : Type} {K : Coll α C} {key : α → κ} : (BagColl K → AddsOne K) ∧ (UniqueColl key K → AddsOne K) ∧
    (∀ lt : α → α → Bool, AddsOne (setColl α lt)) :=
  ⟨BagColl.addsOne, UniqueColl.addsOne, fun lt => ⟨rfl, fun c x _ => setInsert_adds lt c x⟩⟩

/-- C79. The constants cannot be dropped. Every element of a C array reads the same text if it begins like `null`: ten raw
values take ten times the bytes of the text. -/
theorem C79_repeated : ∃ v : Vector Bytes 10, ∃ e',
    (fixVecSer .cArray 10 (rawSer .strict)).de (.replicate 10 []) b!"null" .fresh = .ok (v, [], e') ∧
    sumSize' List.length v.toList = 10 * (b!"null").length := by
  refine ⟨.replicate 10 b!"null", .fresh, ?_, ?_⟩ <;> decide +kernel

/-! ### Examples -/

/-- A list of dictionaries of strings. -/
example (c : Cfg) : Sized c (arraySer (seqColl _) (dictSer (mapColl Bytes Bytes fun a b => decide (a < b)) strSer strSer))
    (fun v => sumSize (fun d => sumSize (fun x => x.1.length + x.2.length) d) v) 0 1 :=
  .array (seqColl_bag.addsOne)
    (.dict ⟨rfl, fun c x _ => setInsert_adds _ c x⟩ .str .str (by simp [strSer])) (by decide)

/-- A list of pointers to numbers costs two for each element. -/
example (c : Cfg) : Sized c (arraySer (seqColl _) (pointerSer (intSer c .int))) (fun v => sumSize (ptrSize fun _ => 0) v) 0 2 :=
  .array (seqColl_bag.addsOne) (.mono (.pointer (.int .int)) (Nat.le_refl _) (by omega)) (by simp [pointerSer, ptrSize])

/-- The sizes of the parts of `Demo`: a string and numbers. -/
def demoPart (m : MRef Demo) (x : m.α) : Nat := (m.set x ⟨0, false, [], 0⟩).s.length

/-- A structure with a string and a `member_if`: not more bytes than the text has. -/
theorem demo_sized (strict RU : Bool) (dflt : Demo) (hd : dflt.s = []) :
    Sized .strict (objectSer .strict strict dflt ((demoSlots RU).map Slot.toMember)) (fun t => t.s.length) 0 1 := by
  have h := Sized.object (c := .strict) (L := demoSlots RU) (F := fun t => t.s.length) (k := 1) strict dflt demoPart (fun _ => 0)
    ?_ ?_ ?_ ?_
  · rw [show dflt.s.length = 0 by simp [hd]] at h
    exact h
  · intro x hx m hm
    simp [demoSlots] at hx
    rcases hx with rfl | rfl
    · simp [Slot.refs, Entry.ref] at hm
      subst hm
      exact .str
    · simp [Slot.refs] at hm
      rcases hm with rfl | rfl
      · exact .mono (.int .int) (Nat.le_refl _) (by omega)
      · exact .mono .bool (Nat.le_refl _) (by omega)
  · intro x hx m hm y t
    simp [demoSlots] at hx
    rcases hx with rfl | rfl
    · simp [Slot.refs, Entry.ref] at hm
      subst hm
      exact Nat.le_of_eq (Nat.add_comm _ _)
    · simp [Slot.refs] at hm
      rcases hm with rfl | rfl <;> exact Nat.le_refl _
  · intro x hx m hm
    simp [demoSlots] at hx
    rcases hx with rfl | rfl
    · simp [Slot.refs, Entry.ref] at hm
      subst hm
      exact Nat.zero_le _
    · simp [Slot.refs] at hm
      rcases hm with rfl | rfl <;> exact Nat.zero_le _
  · intro x hx ha m hm
    simp [demoSlots] at hx
    rcases hx with rfl | rfl
    · cases ha
    · simp [Slot.refs] at hm
      rcases hm with rfl | rfl
      · exact ⟨fun _ _ => rfl, fun _ _ _ => rfl⟩
      · exact ⟨fun _ _ => rfl, fun _ _ _ => rfl⟩

/-- A broken text. -/
example : (arraySer (seqColl Bytes) (rawSer .strict)).de [] b!"[12,\"ab" .fresh =
    .ok ([b!"12", b!"\"ab"], [], .obj ⟨.UnexpectedEndFragment, none, 0⟩) := by decide +kernel

end Wjson
