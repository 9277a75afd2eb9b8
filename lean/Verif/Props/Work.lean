import Verif.Proofs.Work
import Verif.Proofs.Despace
/-
Property C72: the work of the validator is linear in the length of the text.

The counted functions are in Model/Work.lean: one for every call of a function
and one for every pass through a loop.
-/
namespace Wjson

/-- C72. Counting changes nothing: the results are those of the validator. -/
theorem C72_same_result (c : Cfg) (s : Bytes) (e : EPtr) :
    (parseValueW c (fuelFor s) s e >>= fun r => .ok r.1) = parse c s e := by
  have := (rec_paid c (fuelFor s)).1 s e
  unfold parse parseValue
  generalize parseValueW c (fuelFor s) s e = w at this ⊢
  generalize parseValueF c (fuelFor s) s e = o at this ⊢
  cases this <;> rfl

/-- C72. The work on a value, accepted or not: at most twenty per byte consumed
(all bytes, if it is not accepted) and eight more. -/
theorem C72_linear (c : Cfg) {s p : Bytes} {e e' : EPtr} {k : Nat} (h : parseValueW c (fuelFor s) s e = .ok ((p, e'), k)) :
    k + 20 * p.length ≤ 20 * s.length + 8 := by
  have := (rec_paid c (fuelFor s)).1 s e
  rw [h] at this
  generalize parseValueF c (fuelFor s) s e = o at this
  cases this with
  | ok hp =>
    simp only at hp
    have h1 := hp.1
    have h2 := hp.2
    omega

/-- C72. The same for a member of an object. -/
theorem C72_linear_member (c : Cfg) {s p : Bytes} {e e' : EPtr} {k : Nat} (h : parseMemberW c (fuelFor s) s e = .ok ((p, e'), k)) :
    parseMember c s e = .ok (p, e') ∧ k + 20 * p.length ≤ 20 * s.length + 8 := by
  have := (rec_paid c (fuelFor s)).2.1 s e
  unfold parseMember
  rw [h] at this
  generalize parseMemberF c (fuelFor s) s e = o at this ⊢
  cases this with
  | ok hp =>
    simp only at hp
    have h1 := hp.1
    have h2 := hp.2
    exact ⟨rfl, by omega⟩

/-- C72. Strings: three per byte; numbers, literals and white space: one per
byte. The results are those of the functions without a count. -/
theorem C72_linear_leaves (s : Bytes) (e : EPtr) :
    ((parseStringW s e).1 = parseString s e ∧ (parseStringW s e).2 + 3 * (parseString s e).1.length ≤ 3 * s.length + 1) ∧
    ((parseNumberW s e).1 = parseNumber s e ∧ (parseNumberW s e).2 + (parseNumber s e).1.length ≤ s.length + 8) ∧
    ((parseNullW s e).1 = parseNull s e ∧ (parseNullW s e).2 + (parseNull s e).1.length ≤ s.length + 1) ∧
    ((parseBoolW s e).1 = parseBool s e ∧ (parseBoolW s e).2 + (parseBool s e).1.length ≤ s.length + 1) ∧
    ((parseSpaceW s e).1 = parseSpace s e ∧ (parseSpaceW s e).2 + (parseSpace s e).1.length = s.length + 2) := by
  obtain ⟨k1, h1, h1'⟩ := parseStringW_eq s e
  obtain ⟨k2, h2, h2'⟩ := parseNumberW_eq s e
  obtain ⟨k3, h3, h3'⟩ := parseNullW_eq s e
  obtain ⟨k4, h4, h4'⟩ := parseBoolW_eq s e
  obtain ⟨k5, h5, h5'⟩ := parseSpaceW_eq s e
  rw [h1, h2, h3, h4, h5]
  exact ⟨⟨rfl, h1'⟩, ⟨rfl, h2'⟩, ⟨rfl, h3'⟩, ⟨rfl, h4'⟩, ⟨rfl, h5'⟩⟩

/-- C72. `despace`: the same result, and the work is linear too. -/
theorem C72_linear_despace (s : Bytes) (e : EPtr) :
    ∃ r k, despace s e = .ok r ∧ despaceW (s.length + 1) s e = .ok (r, k) ∧ k ≤ 20 * s.length + 1 := by
  rcases despaceW_eq (s.length + 1) s e with ⟨h, _⟩ | h
  · obtain ⟨_, _, hr⟩ := despace_shape s
    obtain ⟨_, hr, _⟩ := hr e
    rw [despace] at hr
    rw [hr] at h
    cases h
  · exact h

/-! White space after an opening bracket is looked at twice, not once per level. -/

example : parseValueW .strict (fuelFor b!"[1,[ [ -2.5e1]],{ },null]") b!"[1,[ [ -2.5e1]],{ },null]" .fresh =
    .ok (([], .fresh), 113) := by decide +kernel

example : parseValueW .nul (fuelFor b!"[  [  [  [  [") b!"[  [  [  [  [" .null = .ok (([], .null), 92) := by decide +kernel

end Wjson
