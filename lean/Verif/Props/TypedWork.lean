import Verif.Proofs.TypedWork4
/-
Property C78: the work of reading a value by a description is linear in the
length of the text.

The counted readers are in Model/TypedWork.lean: one for every call of a
function, one for every pass through a loop and one for every byte stored.
-/
namespace Wjson
open Spec

/-- C78. Counting changes nothing: the results are those of the reader. -/
theorem C78_same_result (c : Cfg) {α : Type} {S : Ser α} {W : DeW α} (h : Counted c S W) (v : α) (s : Bytes) (e : EPtr) :
    (W v s e >>= fun r => .ok r.1) = S.de v s e := by
  obtain ⟨A, B, h⟩ := counted_lin c h
  have := h v s e
  generalize W v s e = w at this ⊢
  generalize S.de v s e = o at this ⊢
  cases this <;> rfl

/-- C78. For every description there are two numbers such that the work on a text, good or bad,
is at most the one for every byte consumed (all bytes, if the text is not accepted) and the
other once. -/
theorem C78_linear (c : Cfg) {α : Type} {S : Ser α} {W : DeW α} (h : Counted c S W) :
    ∃ A B, ∀ v s e v' p e' k, W v s e = .ok ((v', p, e'), k) → k + A * p.length ≤ A * s.length + B := by
  obtain ⟨A, B, h⟩ := counted_lin c h
  refine ⟨A, B, fun v s e v' p e' k hk => ?_⟩
  have := h v s e
  rw [hk] at this
  generalize S.de v s e = o at this
  cases this with
  | ok h => exact h.1.2

/-- C78. The numbers for the scalars. -/
theorem C78_linear_scalars (c : Cfg) (s : Bytes) (e : EPtr) :
    (∀ ty v v' p e' k, deIntW c ty v s e = .ok ((v', p, e'), k) → k + p.length ≤ s.length + 4) ∧
    (∀ v v' p e' k, deBoolW v s e = .ok ((v', p, e'), k) → k + p.length ≤ s.length + 3) ∧
    (∀ v v' p e' k, deStrW v s e = .ok ((v', p, e'), k) → k + 18 * p.length ≤ 18 * s.length + 4) ∧
    (∀ ty fr v v' p e' k, deTimeW c ty fr v s e = .ok ((v', p, e'), k) → k + 6 * p.length ≤ 6 * s.length + 9) ∧
    (∀ v v' p e' k, deRawW c v s e = .ok ((v', p, e'), k) → k + 21 * p.length ≤ 21 * s.length + 9) := by
  have key : ∀ {α : Type} {A B : Nat} {W : DeW α} {D : De α}, Lin A B W D → ∀ v v' p e' k,
      W v s e = .ok ((v', p, e'), k) → k + A * p.length ≤ A * s.length + B := by
    intro α A B W D h v v' p e' k hk
    have := h v s e
    rw [hk] at this
    generalize D v s e = o at this
    cases this with
    | ok h => exact h.1.2
  refine ⟨fun ty v v' p e' k h => ?_, fun v v' p e' k h => ?_, key deStrW_lin, fun ty fr => key (deTimeW_lin c ty fr), key (deRawW_lin c)⟩
  · have := key (deIntW_lin c ty) v v' p e' k h
    omega
  · have := key deBoolW_lin v v' p e' k h
    omega

/-- A structure with an array of integers and a Boolean. -/
def workPair : List (WEntry (List Int × Bool)) :=
  [⟨.mem ⟨b!"xs", (·.1), fun v t => (v, t.2), arraySer (seqColl Int) (intSer .strict .int)⟩,
      deSeqW (seqColl Int) (intSer .strict .int) (deIntW .strict .int) c%'[' c%']'⟩,
   ⟨.prop ⟨b!"ok", (·.2), fun v t => (t.1, v), boolSer⟩, deBoolW⟩]

theorem workPair_counted : Counted .strict (objectSer .strict false ([], false) (workPair.map fun x => x.entry.toMember))
    (deObjectW .strict false ([], false) (workPair.map WEntry.de)) := by
  refine .object false _ fun x hx => ?_
  simp only [workPair, List.mem_cons, List.not_mem_nil, or_false] at hx
  rcases hx with rfl | rfl
  · exact .array _ (.int _)
  · exact .bool

/-! Members in the order of the description cost less than in another order. -/

example : deObjectW .strict false ([], false) (workPair.map WEntry.de) ([], false) b!"{\"xs\":[1,22],\"ok\":true}" .fresh =
    .ok (((([1, 22], true) : List Int × Bool), [], .fresh), 64) := by decide +kernel

example : deObjectW .strict false ([], false) (workPair.map WEntry.de) ([], false) b!"{\"ok\":true,\"xs\":[1,22]}" .fresh =
    .ok (((([1, 22], true) : List Int × Bool), [], .fresh), 72) := by decide +kernel

/-! ### Alternatives -/

/-- C78. `multi_deserializer` reads the text at most once for every description and once more to
check it: linear again, and counting changes nothing. -/
theorem C78_linear_multi (c : Cfg) {τ : Type} {L : List (WArg τ)} (hL : ∀ x ∈ L, Counted c x.arg.ser x.work) :
    (∀ t s e, (multiDeW c L t s e >>= fun r => .ok r.1) = multiDe c (L.map (·.arg)) t s e) ∧
    ∃ A B, ∀ t s e r k, multiDeW c L t s e = .ok (r, k) → k ≤ A * s.length + B := by
  obtain ⟨A, B, h⟩ := multiDeW_cost c fun x hx => counted_lin c (hL x hx)
  refine ⟨fun t s e => ?_, A, B, fun t s e r k hk => ?_⟩
  · have := h t s e
    generalize multiDeW c L t s e = w at this ⊢
    generalize multiDe c (L.map (·.arg)) t s e = o at this ⊢
    cases this <;> rfl
  · have := h t s e
    rw [hk] at this
    generalize multiDe c (L.map (·.arg)) t s e = o at this
    cases this with
    | ok h => exact h

/-- The text is neither an integer nor a Boolean, but an array. -/
example : multiDeW (τ := Int × Bool × List Int) .strict
    [⟨⟨(·.1), fun v t => (v, t.2), intSer .strict .int⟩, deIntW .strict .int⟩,
     ⟨⟨(·.2.1), fun v t => (t.1, v, t.2.2), boolSer⟩, deBoolW⟩,
     ⟨⟨(·.2.2), fun v t => (t.1, t.2.1, v), arraySer (seqColl Int) (intSer .strict .int)⟩,
       deSeqW (seqColl Int) (intSer .strict .int) (deIntW .strict .int) c%'[' c%']'⟩]
    (7, true, []) b!"[1,2]" .fresh = .ok ((2, (0, false, [1, 2]), .fresh), 32) := by rfl

/-- C78. Counting changes nothing for a `member_if` either. -/
theorem C78_same_result_member_if (c : Cfg) {τ : Type} (a b : MRef τ) {Wa : DeW a.α} {Wb : DeW b.α} (ha : Counted c a.ser Wa)
    (hb : Counted c b.ser Wb) (t : τ) (s : Bytes) (e : EPtr) :
    (deAMemberIfW a b Wa Wb t s e >>= fun r => .ok r.1) = deAMemberIf a b t s e := by
  obtain ⟨A, B, ha⟩ := counted_lin c ha
  obtain ⟨A', B', hb⟩ := counted_lin c hb
  have := deAMemberIfW_cost a b ha hb t s e
  generalize deAMemberIfW a b Wa Wb t s e = w at this ⊢
  generalize deAMemberIf a b t s e = o at this ⊢
  cases this <;> rfl

/-- C78. With `member_if` the work is not linear: `[["/*"],["/*"],…,["/*"]]` is read without error as
`n + 1` strings, and the work is more than three times the square of `n`. The flags, which are tried
first, take the bytes in the string for the start of a comment and look for its end in the rest of the
document. -/
theorem C78_member_if_quadratic (n : Nat) :
    (pathsText n).length = 7 * n + 8 ∧
    (arraySer (seqColl (BitVec 8 × Bytes)) pathsSer).de [] (pathsText n) .fresh =
      .ok (List.replicate (n + 1) (0, b!"/*"), [], .fresh) ∧
    ∃ k, deSeqW (seqColl (BitVec 8 × Bytes)) pathsSer pathsW c%'[' c%']' [] (pathsText n) .fresh =
        .ok ((List.replicate (n + 1) (0, b!"/*"), [], .fresh), k) ∧
      7 * (n * (n + 1)) ≤ 2 * k := by
  have hl := pathsTail_length n
  obtain ⟨k, h, hk⟩ := pathsLoop n ((pathsTail n).length + 1) [] (by omega)
  refine ⟨by simp only [pathsText, List.length_cons, hl]; omega, ?_, k + 2, ?_, by omega⟩
  · show seqLoopF (seqColl (BitVec 8 × Bytes)) pathsSer c%']' ((pathsTail n).length + 1) [] (pathsTail n) .fresh = _
    rw [pathsSer_loop n _ [] (by omega)]
    rfl
  · show (seqLoopW (seqColl (BitVec 8 × Bytes)) pathsSer pathsW c%']' ((pathsTail n).length + 1) [] (pathsTail n) .fresh >>= _) = _
    rw [h]
    rfl

/-- C78. So no two numbers bound the work of this description, even on the texts it accepts. -/
theorem C78_member_if_not_linear (A B : Nat) : ∃ s v k,
    deSeqW (seqColl (BitVec 8 × Bytes)) pathsSer pathsW c%'[' c%']' [] s .fresh = .ok ((v, [], .fresh), k) ∧ A * s.length + B < k := by
  obtain ⟨h1, _, k, h2, h3⟩ := C78_member_if_quadratic (8 * A + B + 8)
  refine ⟨_, _, k, h2, ?_⟩
  rw [h1]
  generalize hn : 8 * A + B + 8 = n at h3 ⊢
  have : n * (n + 1) = 8 * (A * (n + 1)) + B * (n + 1) + 8 * (n + 1) := by
    rw [show n * (n + 1) = (8 * A + B + 8) * (n + 1) by rw [hn], Nat.add_mul, Nat.add_mul, Nat.mul_assoc]
  have hA : A * (7 * n + 8) ≤ A * (8 * (n + 1)) := Nat.mul_le_mul_left _ (by omega)
  have hA' : A * (8 * (n + 1)) = 8 * (A * (n + 1)) := by rw [Nat.mul_left_comm]
  have hB : B ≤ B * (n + 1) := Nat.le_mul_of_pos_right _ (by omega)
  omega

end Wjson
