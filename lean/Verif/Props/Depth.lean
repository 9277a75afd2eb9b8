import Verif.Proofs.Depth
/-
Property C69: the stack the validator needs.
Specification: Verif/Spec/Depth.lean (`Nested`, `opens`, `brackets`).
`valueD c k` (Verif/Model/Depth.lean) is the validator when at most `k` calls of
`parse_value` can be open at the same time; it answers `.fuel` when the stack
overflows. `parse` is the validator on an unbounded stack.
-/
namespace Wjson
open Spec

/-- C69. A bounded stack makes no difference but for the overflow: whatever the
text, the validator overflows or does what it does on an unbounded stack. -/
theorem C69_same_result (c : Cfg) (k : Nat) (s : Bytes) (e : EPtr) :
    valueD c k s e = .fuel ∨ valueD c k s e = parse c s e := by
  by_cases h : valueD c k s e = .fuel
  · exact .inl h
  · exact .inr (valueD_le k s e h).symm

/-- C69. The number of frames is exactly the nesting of the text plus one: with
fewer the stack overflows, with as many the text is accepted. The length of the
text and the number of elements do not matter. -/
theorem C69_exact (c : Cfg) {t : Bytes} {d : Nat} (h : Nested .value t d) (k : Nat) {rest : Bytes}
    (hf : RNumber t → NumFollow t rest) (e : EPtr) :
    (d < k → valueD c k (t ++ rest) e = .ok (rest, e)) ∧ (k ≤ d → valueD c k (t ++ rest) e = .fuel) := by
  have := nested_frames (c := c) h k rest e hf
  rw [upto] at this
  constructor
  · intro hk; rw [this, if_pos hk]
  · intro hk; rw [this, if_neg (by omega)]

/-- C69. Every accepted text has a nesting, and only one. -/
theorem C69_nesting {t : Bytes} : XValue t ↔ ∃ d, Nested .value t d ∧ ∀ d', Nested .value t d' → d' = d := by
  constructor
  · intro h
    obtain ⟨d, hd⟩ := XG.nested h
    refine ⟨d, hd, fun d' hd' => ?_⟩
    have hf : RNumber t → NumFollow t [] := fun _ => by intro b hb; simp at hb
    rcases Nat.lt_trichotomy d' d with h | h | h
    · have h1 := (C69_exact .nul hd' (d' + 1) hf .null).1 (by omega)
      have h2 := (C69_exact .nul hd (d' + 1) hf .null).2 (by omega)
      rw [h1] at h2; cases h2
    · exact h
    · have h1 := (C69_exact .nul hd (d + 1) hf .null).1 (by omega)
      have h2 := (C69_exact .nul hd' (d + 1) hf .null).2 (by omega)
      rw [h1] at h2; cases h2
  · rintro ⟨d, hd, _⟩
    exact hd.x

/-- C69. Whatever the text, valid or not, one frame more than it has opening
brackets and braces is enough. -/
theorem C69_any_text (c : Cfg) (s : Bytes) (e : EPtr) {k : Nat} (hk : opens s < k) : valueD c k s e = parse c s e :=
  (valueD_le k s e (valueD_enough k s e hk)).symm

/-- C69, exception: there is no limit on the nesting, so no stack is large
enough: for every number of frames there is a short RFC 8259 text that is valid
and overflows the stack. -/
theorem C69_no_stack_is_enough (c : Cfg) (k : Nat) (e : EPtr) :
    ∃ t, RValue t ∧ t.length = 2 * k + 2 ∧ parse c t e = .ok ([], e) ∧ valueD c k t e = .fuel := by
  obtain ⟨h1, h2⟩ := brackets_rfc k
  have hf : RNumber (brackets (k + 1)) → NumFollow (brackets (k + 1)) [] := fun _ => by intro b hb; simp at hb
  have h3 := (C69_exact c h2 k hf e).2 (Nat.le_refl _)
  have h4 := (C69_exact c h2 (k + 1) hf e).1 (by omega)
  have h5 := valueD_le (c := c) (k + 1) (brackets (k + 1) ++ []) e (by rw [h4]; simp)
  rw [List.append_nil] at h3 h4 h5
  refine ⟨_, h1, ?_, ?_, h3⟩
  · simp [brackets]; omega
  · show parseValue c _ e = _
    rw [h5, h4]

/-- C69, exception: the text need not be valid. One opening bracket per frame and
one more overflow the stack before any error is found. -/
theorem C69_unclosed (c : Cfg) (k : Nat) (rest : Bytes) (e : EPtr) : valueD c k (List.replicate k c%'[' ++ c%'[' :: rest) e = .fuel := by
  induction k with
  | zero => rfl
  | succ k ih =>
    have h1 : ∃ u, List.replicate k c%'[' ++ c%'[' :: rest = c%'[' :: u := by cases k <;> exact ⟨_, rfl⟩
    obtain ⟨u, hu⟩ := h1
    rw [hu] at ih
    rw [List.replicate_succ, List.cons_append, hu]
    have h2 : ∀ e, parseSpace (c%'[' :: u) e = (c%'[' :: u, e) := fun e =>
      by simpa using parseSpace_of_gap (t := u) Gap.nil (b := c%'[') (by decide) (by decide) e
    have h3 : isObject (c%'[' :: c%'[' :: u) = false := by simp [isObject, h2]
    rw [valueD_bracket, h3]
    simp only [Bool.false_eq_true, if_false, arrayD, isArray, List.head?_cons, beq_self_eq_true, Bool.not_true, List.tail_cons]
    rw [itemLoopD, if_neg (by simp), h2]
    simp [deref, ih]

/-! ### The hypotheses are met -/

example : Nested .value b!"[1, [2, {\"a\": []}], 3,]" 3 := by
  have ws : Gap [c%' '] := .ws (by unfold WsByte; decide) .nil
  have num : ∀ d : Byte, Digit19 d → Nested .value [d] 0 := fun d hd =>
    .num ⟨[], [d], [], [], by simp, .inl rfl, .inr ⟨d, [], rfl, hd, by simp⟩, .inl rfl, .inl rfl⟩
  have a : XString b!"\"a\"" := ⟨b!"a", .cons (c := b!"a") (.raw ⟨c%'a', 0, [], rfl, .inl ⟨by decide, rfl⟩, rfl, by simp⟩
    (by decide) (by decide)) .nil, rfl⟩
  have m : Nested .members b!"\"a\": []" 0 := .memb (g0 := []) (g1 := []) (g3 := []) .nil a .nil ws (.arr0 (g := []) .nil) .nil
  have o : Nested .elems b!" {\"a\": []}" 1 := .elem (g2 := []) ws (.obj m) .nil
  have i : Nested .elems b!"2, {\"a\": []}" 1 := .elemMore (g1 := []) (g2 := []) .nil (num c%'2' (by unfold Digit19; decide)) .nil o
  have j : Nested .elems b!" [2, {\"a\": []}], 3," 2 :=
    .elemMore (g2 := []) (d := 2) (d' := 0) ws (.arr i) .nil (.elemTrail (g2 := []) (g3 := []) ws (num c%'3' (by unfold Digit19; decide)) .nil .nil)
  exact .arr (.elemMore (g1 := []) (g2 := []) (d := 0) (d' := 2) .nil (num c%'1' (by unfold Digit19; decide)) .nil j)

example : valueD .strict 3 b!"[1, [2, {\"a\": []}], 3,]" .fresh = .fuel ∧
    valueD .strict 4 b!"[1, [2, {\"a\": []}], 3,]" .fresh = .ok ([], .fresh) := by decide +kernel
/-- The length does not matter. -/
example : valueD .strict 2 b!"[1,2,3,4,5,6,7,8,9,10,11,12,13,14,15,16]" .fresh = .ok ([], .fresh) := by decide +kernel
/-- Brackets inside strings and comments do not count. -/
example : valueD .strict 2 b!"[\"[[[[\" /* [[[ */]" .fresh = .ok ([], .fresh) := by decide +kernel
example : opens b!"[[}{" = 3 ∧ valueD .strict 4 b!"[[}{" .fresh = .ok ([], .obj ⟨.InvalidJSON, none, 2⟩) := by decide +kernel

end Wjson
