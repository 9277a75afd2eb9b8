import Verif.Proofs.AlternativesJson
import Verif.Props.Exact
import Verif.Props.Slots
/-
C87: what is read with alternatives. What a description with `member_if` anywhere
inside reads without error is a text of its denotation (`Spec/Alternatives.lean`),
with the value the denotation gives it.
-/
namespace Wjson
open Spec

/-- C87. If the reader stores `v`, reports no error and stops before `p`, then what
it has consumed is a text that stands for `v`. The conditions are those of C53. -/
theorem C87_sound {c : Cfg} {full : Bool} {α : Type} {S : Ser α} {D : Den α} (h : AltMeaning c full S D) {v0 v : α} {s p : Bytes}
    {e : EPtr} (he : e.Clean) (hs : s.length ≤ intMax) (hp : Delim p) (hfull : full = true ∨ p ≠ [])
    (hr : S.de v0 s e = .ok (v, p, e)) : ∃ t, s = t ++ p ∧ D v0 v t :=
  h.sounds.sound he hs hp hfull hr

/-- C87. The whole text. -/
theorem C87_whole {c : Cfg} {α : Type} {S : Ser α} {D : Den α} (h : AltMeaning c true S D) {v0 v : α} {s : Bytes} {e : EPtr}
    (he : e.Clean) (hs : s.length ≤ intMax) (hr : S.de v0 s e = .ok (v, [], e)) : D v0 v s := by
  obtain ⟨t, rfl, ht⟩ := C87_sound h he hs (by intro b hb; cases hb) (.inl rfl) hr
  simpa using ht

/-- C87. A text that stands for no value is not read silently: unless the behaviour
is undefined, an error is reported or a part of the text is left. -/
theorem C87_rejected {c : Cfg} {α : Type} {S : Ser α} {D : Den α} (h : AltMeaning c true S D) {v0 : α} {s : Bytes} {e : EPtr}
    (he : e.Clean) (hs : s.length ≤ intMax) (hd : ∀ v, ¬ D v0 v s) :
    S.de v0 s e = .ub ∨ ∃ v p e', S.de v0 s e = .ok (v, p, e') ∧ p <:+ s ∧ (e'.failed = true ∨ p ≠ []) := by
  rcases h.sounds.safe v0 s e with ⟨h1, _⟩ | ⟨v, p, e', h1, h2, h3⟩
  · exact .inl h1
  · refine .inr ⟨v, p, e', h1, h2, ?_⟩
    cases hf : e'.failed with
    | true => exact .inl rfl
    | false =>
      refine .inr ?_
      rintro rfl
      rcases h3.clean he with he' | he'
      · subst he'
        exact hd v (C87_whole h he hs h1)
      · rw [hf] at he'
        cases he'

/-- C87. With string keys what is read from a plain text is a value of the dialect:
C54 with alternatives. -/
theorem C87_dialect {c : Cfg} {α : Type} {S : Ser α} {D : Den α} {raw : Bool} (h : AltJson c raw S D) {v0 v : α} {s p : Bytes} {e : EPtr}
    (he : e.Clean) (hs : s.length ≤ intMax) (hp : Delim p) (hplain : PlainText s) (hws : ∀ b, s.head? = some b → ¬ WsByte b)
    (hr : S.de v0 s e = .ok (v, p, e)) : ∃ t, s = t ++ p ∧ XValue t := by
  obtain ⟨t, rfl, hd⟩ := C87_sound h.means he hs hp (.inl rfl) hr
  refine ⟨t, rfl, h.value hd (hplain.sub (List.prefix_append _ _).isInfix) ?_⟩
  obtain ⟨b, u, rfl, _⟩ := h.means.sounds.head hd
  intro b' hb
  exact hws b' (by cases hb; rfl)

/-- C87. `parse` accepts the same text and stops at the same place, on every
platform and whatever the error argument. -/
theorem C87_parse {c : Cfg} {α : Type} {S : Ser α} {D : Den α} {raw : Bool} (h : AltJson c raw S D) {v0 v : α} {s p : Bytes} {e : EPtr}
    (he : e.Clean) (hs : s.length ≤ intMax) (hp : Delim p) (hplain : PlainText s) (hws : ∀ b, s.head? = some b → ¬ WsByte b)
    (hr : S.de v0 s e = .ok (v, p, e)) (c' : Cfg) (e' : EPtr) : parse c' s e' = .ok (p, e') := by
  obtain ⟨t, rfl, ht⟩ := C87_dialect h he hs hp hplain hws hr
  exact parse_accept_iff.mpr ⟨t, rfl, ht, fun _ => hp.numFollow _⟩ e'

/-! ### A structure with alternatives, in a list, in a structure -/

/-- The members `s`, and `v` that is an integer or a boolean. -/
def altDemo (RU : Bool) : List (DSlot Demo) :=
  [.one ⟨.mem demoS, StrDen⟩, .alt ⟨b!"v", (·.a), fun x t => { t with a := x }, intSer .strict .int⟩
    ⟨b!"v", (·.b), fun x t => { t with b := x }, boolSer⟩ (fun x => decide (x = 0)) RU (IntDen .strict .int) BoolDen true]

def altDemoSer (RU : Bool) : Ser Demo := objectSer .strict false ⟨0, false, [], 0⟩ ((altDemo RU).map fun d => d.slot.toMember)

/-- The list of slots of the examples of C43. -/
example (RU : Bool) : (altDemo RU).map DSlot.slot = demoSlots RU := rfl

theorem altDemo_json (RU : Bool) : AltJson .strict false (altDemoSer RU) (SlotObjDen false ⟨0, false, [], 0⟩ (altDemo RU)) := by
  have hi : IntTy.int.Std := by unfold IntTy.Std; decide
  refine .object ?_ ?_ ?_ ?_ ?_ ?_
  · intro d hd
    simp only [altDemo, List.mem_cons, List.not_mem_nil, or_false] at hd
    rcases hd with rfl | rfl
    · exact ⟨by show PlainName b!"s"; unfold PlainName; decide, trivial⟩
    · exact ⟨by show PlainName b!"v"; unfold PlainName; decide, rfl⟩
  · intro d hd
    simp only [altDemo, List.mem_cons, List.not_mem_nil, or_false, DSlot.one.injEq, reduceCtorEq] at hd
    subst hd
    exact .base (.key .str)
  · intro l r i RU' Dl Dr ex hd
    simp only [altDemo, List.mem_cons, List.not_mem_nil, or_false, reduceCtorEq, false_or] at hd
    cases hd
    exact .base (.int hi)
  · intro l r i RU' Dl Dr ex hd
    simp only [altDemo, List.mem_cons, List.not_mem_nil, or_false, reduceCtorEq, false_or] at hd
    cases hd
    exact .base .bool
  · intro l r i Dl Dr hd
    simp only [altDemo, List.mem_cons, List.not_mem_nil, or_false, reduceCtorEq, false_or] at hd
    cases hd
    exact ⟨true, .int hi⟩
  · intro l r i Dl Dr hd
    simp only [altDemo, List.mem_cons, List.not_mem_nil, or_false, reduceCtorEq, false_or] at hd
    cases hd
    exact ⟨true, .bool⟩

/-- A `member_if` of an integer and a list of such structures, in an `object_array`. -/
def altPair : List (DSlot (Int × List Demo)) :=
  [.alt ⟨b!"n", Prod.fst, fun x t => (x, t.2), intSer .strict .int⟩
    ⟨b!"l", Prod.snd, fun x t => (t.1, x), arraySer (seqColl Demo) (altDemoSer false)⟩ (fun x => decide (x = 0)) true
    (IntDen .strict .int)
    (SeqDen (C := List Demo) [] (fun c v => c ++ [v]) ⟨0, false, [], 0⟩ c%'[' c%']' (SlotObjDen false ⟨0, false, [], 0⟩ (altDemo false)))
    false]

def altPairSer : Ser (Int × List Demo) := objectArraySer (0, []) (altPair.map fun d => d.slot.toAMember)

theorem altPair_json : AltJson .strict false altPairSer (SlotArrDen (0, []) altPair) := by
  have hi : IntTy.int.Std := by unfold IntTy.Std; decide
  refine .objectArray ?_ ?_ ?_ ?_ ?_
  · intro d hd
    simp [altPair] at hd
  · intro l r i RU' Dl Dr ex hd
    simp only [altPair, List.mem_cons, List.not_mem_nil, or_false] at hd
    cases hd
    exact .base (.int hi)
  · intro l r i RU' Dl Dr ex hd
    simp only [altPair, List.mem_cons, List.not_mem_nil, or_false] at hd
    cases hd
    exact .array (K := seqColl Demo) (altDemo_json false)
  · intro l r i Dl Dr hd
    simp [altPair] at hd
  · intro l r i Dl Dr hd
    simp [altPair] at hd

/-- The list is tried first and read; the integer, 9 before, is reset. -/
example : altPairSer.de (9, []) b!"[[{\"v\":true, \"s\":\"x\"} ,{\"s\":\"\",\"v\":12}] ]" .fresh =
    .ok ((0, [⟨0, true, b!"x", 0⟩, ⟨12, false, [], 0⟩]), [], .fresh) := by decide +kernel
example : altPairSer.de (9, []) b!"[12]" .fresh = .ok ((12, []), [], .fresh) := by decide +kernel

/-- The denotation is not the whole world: what is read is a text of it, and only
with this value. -/
example : SlotObjDen false ⟨0, false, [], 0⟩ (altDemo false) ⟨5, false, [], 7⟩ ⟨0, true, b!"x", 7⟩ b!"{\"s\":\"x\",\"v\":true}" :=
  C87_whole (altDemo_json false).means EPtr.fresh_clean (by decide +kernel) (by decide +kernel)

/-- A place with the integer first: what `12` does to it, and nothing else. -/
example (t : Demo) : AltStores (a := (⟨b!"v", (·.a), fun x t => { t with a := x }, intSer .strict .int⟩ : MRef Demo))
    ⟨b!"v", (·.b), fun x t => { t with b := x }, boolSer⟩ (IntDen .strict .int) BoolDen true ⟨3, true, b!"x", 4⟩ t b!"12" →
    t = ⟨12, false, b!"x", 4⟩ := by
  have h12 : IntDen .strict .int 3 12 b!"12" :=
    (C53_whole (.int (by unfold IntTy.Std; decide)) EPtr.fresh_clean (by decide) (S := intSer .strict .int)).mp (by decide +kernel)
  rintro (⟨x, hx, y, rfl, hy⟩ | ⟨_, _, _, hno, _⟩)
  · have : x = 12 := C53_one_value (.int (by unfold IntTy.Std; decide) : Meaning .strict true (intSer .strict .int) _) (by decide) hx h12
    subst this
    have : y = false := hy false ((C53_whole (.bool (c := .strict)) EPtr.fresh_clean (by decide)).mp (by decide +kernel))
    subst this
    rfl
  · exact absurd h12 (hno rfl 12)

/-! ### Where it is not C53 -/

/-- C87, only one direction holds: `1.5` is no integer, and the text is a text of
the second alternative, but the integer reader stops after the `1` without an error,
so the second alternative is not tried and the object is refused. -/
theorem C87_not_complete : ∃ (RU : Bool) (m : Member (Int × Bytes)),
    m = memberIf ⟨b!"v", Prod.fst, fun x t => (x, t.2), intSer .strict .int⟩ ⟨b!"v", Prod.snd, fun x t => (t.1, x), rawSer .strict⟩
      (fun x => decide (x = 0)) RU ∧
    (intSer .strict .int).de 0 b!"1.5}" .fresh = .ok (1, b!".5}", .fresh) ∧
    (rawSer .strict).de [] b!"1.5}" .fresh = .ok (b!"1.5", b!"}", .fresh) ∧
    ∃ v p e, (objectSer .strict false (0, []) [m]).de (0, []) b!"{\"v\":1.5}" .fresh = .ok (v, p, e) ∧ e.failed = true :=
  ⟨false, _, rfl, by decide +kernel, by decide +kernel, (1, b!"null"), [], .obj ⟨.ExpectedOf, some b!"}", 3⟩, by decide +kernel, rfl⟩

/-- C87, the reset on passing a place (`DSlot.passed`) is part of what is read: the
boolean has been read from this text and is lost when a later key is searched. -/
theorem C87_passed : ∃ m : Member Demo, m = member ⟨b!"o", (·.other), fun x t => { t with other := x }, intSer .strict .int⟩ ∧
    (objectSer .strict false ⟨0, false, [], 0⟩ ((altDemo false).map (fun d => d.slot.toMember) ++ [m])).de ⟨0, false, [], 0⟩
      b!"{\"v\":true,\"s\":\"\"}" .fresh = .ok (⟨0, true, [], 0⟩, [], .fresh) ∧
    (objectSer .strict false ⟨0, false, [], 0⟩ ((altDemo false).map (fun d => d.slot.toMember) ++ [m])).de ⟨0, false, [], 0⟩
      b!"{\"v\":true,\"s\":\"\",\"o\":1}" .fresh = .ok (⟨0, false, [], 1⟩, [], .fresh) :=
  ⟨_, rfl, by decide +kernel, by decide +kernel⟩

end Wjson
