import Verif.Proofs.ExactMore
import Verif.Proofs.Exact
/-
Property C22, strings that are longer than the array.
-/
namespace Wjson

open Spec

/-- C22. A string longer than the array is reported as an error, or everything
that does not fit belongs to an escape of a control character (the six bytes
`\u00XX`, kept as they are) which is the last character of the string. Then the
array is filled with the beginning of the string, without a terminating zero.
`l` lists the characters of the token with the bytes they stand for. -/
theorem C22_char_array_longer {N : Nat} {l : List (Bytes × Bytes)} (hl : ∀ x ∈ l, DUnit x.1 x.2 ∧ RChar x.1)
    (hN : N < (l.flatMap (·.2)).length) (v0 rest : Bytes) {e : EPtr} (he : e.Clean) :
    (∃ v p e', (charArraySer N).de v0 (quoted (l.flatMap (·.1)) ++ rest) e = .ok (v, p, e') ∧ e'.failed = true) ∨
    ∃ l' x, l = l' ++ [x] ∧ x.1 = x.2 ∧ x.2.length = 6 ∧ (l'.flatMap (·.2)).length < N ∧
      (charArraySer N).de v0 (quoted (l.flatMap (·.1)) ++ rest) e = .ok ((l.flatMap (·.2)).take N, rest, e) := by
  have hq : quoted (l.flatMap (·.1)) ++ rest = c%'"' :: (l.flatMap (·.1) ++ c%'"' :: rest) := by simp [quoted]
  rw [hq]
  obtain ⟨w, p, e', h1, _, _, _, h5⟩ := deCharArray_eq N v0 (c%'"' :: (l.flatMap (·.1) ++ c%'"' :: rest)) e
  obtain ⟨h6, h7, h8⟩ := h5 _ rfl
  rcases strDec_long_cut hl hN rest he with hf | ⟨l', x, g1, g2, g3, g4, g5⟩
  · exact .inl ⟨_, p, e', h1, by rw [h8]; exact hf⟩
  · refine .inr ⟨l', x, g1, g2, g3, g4, ?_⟩
    rw [g5] at h6 h7 h8
    subst h6 h7 h8
    rw [show (charArraySer N).de = deCharArray N from rfl, h1, List.length_take, Nat.min_eq_left (by omega), Nat.sub_self]
    simp

/-- Both happen: `"abc"` does not fit two bytes, `"ab\u0001"` fills four. -/
example : (charArraySer 2).de [] b!"\"abc\"" .fresh = .ok (b!"ab", [], .obj ⟨.ExpectedOf, some b!"\"", 2⟩) ∧
    (charArraySer 4).de [] b!"\"ab\\u0001\"" .fresh = .ok (b!"ab\\u", [], .fresh) :=
  by decide +kernel

example : ∀ x ∈ [(b!"a", b!"a"), (b!"\\u0001", b!"\\u0001")], DUnit x.1 x.2 ∧ RChar x.1 := by
  intro x hx
  simp only [List.mem_cons, List.not_mem_nil, or_false] at hx
  rcases hx with rfl | rfl
  · exact ⟨.ascii (by decide) (by decide) (by decide), .ascii (by decide) (by decide) (by decide) (by decide)⟩
  · exact ⟨.ctl (by decide) (by decide) (by decide) (by decide) (by decide) (by decide),
      .uni (by decide) (by decide) (by decide) (by decide)⟩

end Wjson
