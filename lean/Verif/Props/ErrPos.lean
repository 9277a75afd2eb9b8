import Verif.Proofs.ErrPosValue
import Verif.Model.Strerror
import Verif.Spec.Viable
/-
C61: the position of an error of the validating parser.
-/
namespace Wjson
open Spec

private theorem viable_prefix {u v : Bytes} (h : Viable (u ++ v)) : Viable u := by
  obtain ⟨w, hw⟩ := h
  exact ⟨v ++ w, by simpa using hw⟩

theorem parse_told {c : Cfg} {s p : Bytes} {e : EPtr} {x : JError} (he : e.Clean)
    (h : parse c s e = .ok (p, .obj x)) (hx : x.status = true) :
    ∃ u r, s = u ++ r ∧ (Reported x u r ∧ Diag x Viable u) ∧ Viable u ∧ ∀ b r', r = b :: r' → ¬ Viable (u ++ [b]) := by
  have herr : ErrO (parseValue c s) x := by
    rcases parseValue_scan c s with ⟨q, ev, h1, h2⟩ | ⟨h1, _⟩
    · have h3 := (h1 e).symm.trans h
      simp only [Out.ok.injEq, Prod.mk.injEq] at h3
      cases ev with
      | none =>
        have h4 := he.not_failed
        rw [← applyErr_none e, h3.2] at h4
        simp [EPtr.failed, hx] at h4
      | some y =>
        obtain ⟨hy, hq, _⟩ := h2.err y rfl
        have hyx : y = x := by
          obtain ⟨z, rfl, hz⟩ := he
          have h4 := h3.2
          simp only [applyErr, createError, hz] at h4
          cases y
          simpa using h4
        subst hyx
        exact ⟨hy, fun e => by rw [← hq]; exact h1 e⟩
    · have := (h1 e).symm.trans h
      cases this
  obtain ⟨u, r, h1, h2, hfit, h3⟩ := value_blame c _ s x (Nat.le_refl _) herr
  have hV : ∀ z, Fits (parseValue c) z → Viable z := by
    rintro z ⟨w, hw⟩
    have := hw [] (by intro b hb; simp at hb)
    obtain ⟨t, ht, hX, _⟩ := parseValue_acc_iff.mp this
    simp at ht
    exact ⟨w, by rw [ht]; exact hX⟩
  refine ⟨u, r, h1, ⟨h2.1, h2.2.mono (pre := []) hV⟩, hV u hfit, ?_⟩
  · rintro b r' rfl ⟨v, hv⟩
    refine h3 b r' rfl v [] (parseValue_acc_iff.mpr ⟨_, (List.append_nil _).symm, ?_, ?_⟩)
    · simpa using hv
    · intro _ b hb; simp at hb

private theorem parse_blame {c : Cfg} {s p : Bytes} {e : EPtr} {x : JError} (he : e.Clean)
    (h : parse c s e = .ok (p, .obj x)) (hx : x.status = true) :
    ∃ u r, s = u ++ r ∧ Reported x u r ∧ Viable u ∧ ∀ b r', r = b :: r' → ¬ Viable (u ++ [b]) := by
  obtain ⟨u, r, h1, h2, h3⟩ := parse_told he h hx
  exact ⟨u, r, h1, h2.1, h3⟩

private theorem take_viable {s u r : Bytes} (hs : s = u ++ r) (h1 : Viable u)
    (h2 : ∀ b r', r = b :: r' → ¬ Viable (u ++ [b])) {k : Nat} (hk : k ≤ s.length) :
    Viable (s.take k) ↔ k ≤ u.length := by
  subst hs
  constructor
  · intro h
    apply Decidable.byContradiction
    intro hn
    cases r with
    | nil => simp at hk; exact hn hk
    | cons b r =>
      refine h2 b r rfl ?_
      have : (u ++ b :: r).take k = (u ++ [b]) ++ (r.take (k - u.length - 1)) := by
        rw [List.take_append]
        have hku : k - u.length = (k - u.length - 1) + 1 := by omega
        rw [List.take_of_length_le (by omega), hku, List.take_succ_cons]
        simp
      rw [this] at h
      exact viable_prefix h
  · intro h
    rw [List.take_append_of_le_length h]
    have : Viable (u.take k ++ u.drop k) := by rwa [List.take_append_drop]
    exact viable_prefix this

private theorem not_viable {s u r : Bytes} (hs : s = u ++ r)
    (h2 : ∀ b r', r = b :: r' → ¬ Viable (u ++ [b])) (hr : r ≠ []) : ¬ Viable s := by
  cases r with
  | nil => exact absurd rfl hr
  | cons b r =>
    intro hv
    rw [hs, show u ++ b :: r = (u ++ [b]) ++ r by simp] at hv
    exact h2 b r rfl (viable_prefix hv)

private theorem where_eq {x : JError} {s : Bytes} (hx : x.status = true) {n : Nat} (h : x.tailOf = (n : Int))
    (hn : n ≤ s.length) : whereIs x s = s.length - n := by
  unfold whereIs
  rw [if_neg (by simp [hx]), if_neg (by omega)]
  omega

/-- C61. When `parse` reports an error on the text `s` into a clean `json_error`,
then for every error but a bad number, a misspelt literal and a missing colon,
`strerror::where` is the length of the longest beginning of `s` that can be
continued to a document: everything before the position is fine and the byte at
the position (if there is one) is what cannot stand there. -/
theorem C61_position {c : Cfg} {s p : Bytes} {e : EPtr} {x : JError} (he : e.Clean)
    (h : parse c s e = .ok (p, .obj x)) (hx : x.status = true)
    (hnum : x.code ≠ .InvalidNumber)
    (hlit : ∀ m, x.expectedOf = some m → m ∉ [b!"null", b!"true", b!"false", b!":"]) :
    ∀ k, k ≤ s.length → (Viable (s.take k) ↔ k ≤ whereIs x s) := by
  obtain ⟨u, r, h1, h2, h3, h4⟩ := parse_blame he h hx
  intro k hk
  rw [take_viable h1 h3 h4 hk]
  have ht : x.tailOf = (r.length : Int) := by
    rcases h2 with h2 | ⟨_, h2, _⟩ | ⟨_, h2, _⟩ | h2
    · exact absurd h2.1 hnum
    · rcases h2 with h2 | h2 | h2 <;> exact absurd (by simp) (hlit _ h2)
    · exact absurd (by simp) (hlit _ h2)
    · exact h2.2.2.1
  rw [where_eq hx ht (by simp [h1]), h1]
  simp

/-- C61. For a missing colon the reported position is exactly one byte behind
the byte that cannot stand there. -/
theorem C61_colon {c : Cfg} {s p : Bytes} {e : EPtr} {x : JError} (he : e.Clean)
    (h : parse c s e = .ok (p, .obj x)) (hx : x.status = true) (hcolon : x.expectedOf = some b!":") :
    ∀ k, k ≤ s.length → (Viable (s.take k) ↔ k < whereIs x s) := by
  obtain ⟨u, r, h1, h2, h3, h4⟩ := parse_blame he h hx
  intro k hk
  rw [take_viable h1 h3 h4 hk]
  have hr : r ≠ [] ∧ x.tailOf + 1 = (r.length : Int) := by
    rcases h2 with h2 | ⟨_, h2, _⟩ | h2 | h2
    · rw [h2.2.1] at hcolon; cases hcolon
    · exfalso
      rw [hcolon] at h2
      rcases h2 with h2 | h2 | h2 <;> exact absurd h2 (by decide)
    · exact ⟨h2.2.2.1, h2.2.2.2⟩
    · exact absurd (by simp) (h2.2.1 _ hcolon)
  have hl : 0 < r.length := List.length_pos_iff.mpr hr.1
  rw [where_eq (n := r.length - 1) hx (by omega) (by rw [h1]; simp; omega), h1]
  simp; omega

/-- C61. A bad number is always reported at the end of the text, although the
text cannot be continued. -/
theorem C61_number {c : Cfg} {s p : Bytes} {e : EPtr} {x : JError} (he : e.Clean)
    (h : parse c s e = .ok (p, .obj x)) (hx : x.status = true) (hc : x.code = .InvalidNumber) :
    whereIs x s = s.length ∧ ¬ Viable s := by
  obtain ⟨u, r, h1, h2, h3, h4⟩ := parse_blame he h hx
  have hr : x.tailOf = 0 ∧ r ≠ [] := by
    rcases h2 with h2 | h2 | h2 | h2
    · exact h2.2.2
    · rw [hc] at h2; exact absurd h2.1 (by decide)
    · rw [hc] at h2; exact absurd h2.1 (by decide)
    · exact absurd hc h2.1
  exact ⟨by rw [where_eq (n := 0) hx hr.1 (by simp)]; simp, not_viable h1 h4 hr.2⟩

/-- C61. A misspelt literal: the longest beginning `u` of the text that can be
continued ends with the letters of the literal that are right. Their number `k`
is taken for the distance from the end of the text: `where` is `k` bytes before
the end, wherever the literal is. -/
theorem C61_literal {c : Cfg} {s p : Bytes} {e : EPtr} {x : JError} (he : e.Clean)
    (h : parse c s e = .ok (p, .obj x)) (hx : x.status = true)
    {lit : Bytes} (hm : x.expectedOf = some lit) (hlit : lit = b!"null" ∨ lit = b!"true" ∨ lit = b!"false") :
    ∃ (u r : Bytes) (k : Nat), s = u ++ r ∧ r ≠ [] ∧ (∀ j, j ≤ s.length → (Viable (s.take j) ↔ j ≤ u.length)) ∧
      lit.take k <:+ u ∧ 1 ≤ k ∧ k < lit.length ∧ whereIs x s = s.length - k := by
  obtain ⟨u, r, h1, h2, h3, h4⟩ := parse_blame he h hx
  rcases h2 with h2 | ⟨_, _, hr, lit', k, h5, h6, h7, h8, h9⟩ | h2 | h2
  · rw [hm] at h2; simp at h2
  · rw [hm] at h5
    cases h5
    refine ⟨u, r, k, h1, hr, fun j hj => take_viable h1 h3 h4 hj, h9, h7, h8, ?_⟩
    have := h9.length_le
    rw [List.length_take] at this
    exact where_eq hx h6 (by rw [h1, List.length_append]; omega)
  · rw [hm] at h2
    rcases hlit with rfl | rfl | rfl <;> exact absurd h2.2.1 (by decide)
  · rcases hlit with rfl | rfl | rfl <;> exact absurd (by simp) (h2.2.1 _ hm)

/-- C61. Telling an incomplete text from a wrong one: the text can be continued
to a document exactly when the error is reported at the end of the text and is
neither a bad number nor a misspelt literal nor a missing colon. -/
theorem C61_incomplete {c : Cfg} {s p : Bytes} {e : EPtr} {x : JError} (he : e.Clean)
    (h : parse c s e = .ok (p, .obj x)) (hx : x.status = true) :
    Viable s ↔ x.tailOf = 0 ∧ x.code ≠ .InvalidNumber ∧
      ∀ m, x.expectedOf = some m → m ∉ [b!"null", b!"true", b!"false", b!":"] := by
  obtain ⟨u, r, h1, h2, h3, h4⟩ := parse_blame he h hx
  rcases h2 with h2 | h2 | h2 | h2
  · exact ⟨fun hv => absurd hv (not_viable h1 h4 h2.2.2.2), fun hv => absurd h2.1 hv.2.1⟩
  · refine ⟨fun hv => absurd hv (not_viable h1 h4 h2.2.2.1), fun hv => ?_⟩
    rcases h2.2.1 with hl | hl | hl <;> exact absurd (by simp) (hv.2.2 _ hl)
  · exact ⟨fun hv => absurd hv (not_viable h1 h4 h2.2.2.1), fun hv => absurd (by simp) (hv.2.2 _ h2.2.1)⟩
  · constructor
    · intro hv
      cases r with
      | nil => exact ⟨by simpa using h2.2.2.1, h2.1, h2.2.1⟩
      | cons b r => exact absurd hv (not_viable h1 h4 (by simp))
    · intro hv
      have : r = [] := by
        have := h2.2.2.1
        rw [hv.1] at this
        exact List.length_eq_zero_iff.mp (by omega)
      rw [h1, this, List.append_nil]; exact h3

/-- C61. `UnexpectedEndFragment` is reported for incomplete texts only, at their end. -/
theorem C61_end {c : Cfg} {s p : Bytes} {e : EPtr} {x : JError} (he : e.Clean)
    (h : parse c s e = .ok (p, .obj x)) (hc : x.code = .UnexpectedEndFragment) :
    Viable s ∧ whereIs x s = s.length := by
  have hx : x.status = true := by simp [JError.status, hc]
  obtain ⟨u, r, h1, h2, h3, h4⟩ := parse_blame he h hx
  rcases h2 with h2 | h2 | h2 | h2
  · rw [hc] at h2; exact absurd h2.1 (by decide)
  · rw [hc] at h2; exact absurd h2.1 (by decide)
  · rw [hc] at h2; exact absurd h2.1 (by decide)
  · have hr := h2.2.2.2 hc
    subst hr
    refine ⟨by rw [h1, List.append_nil]; exact h3, ?_⟩
    rw [where_eq (n := 0) hx (by simpa using h2.2.2.1) (by simp)]; simp

/-! ### Deviations -/

/-- C61, deviation: the position of a misspelt literal depends on the end of the
text (`C61_literal`), not on the place of the error. In `[nulx, 1]` the first byte that cannot stand there
has the index 4, reported is 6; in `nulx` it is 3, reported is 1. -/
theorem C61_literal_position :
    (parse Cfg.strict b!"[nulx, 1]" .fresh = .ok ([], .obj ⟨.ExpectedOf, some b!"null", 3⟩) ∧
      whereIs ⟨.ExpectedOf, some b!"null", 3⟩ b!"[nulx, 1]" = 6) ∧
    (parse Cfg.strict b!"nulx" .fresh = .ok ([], .obj ⟨.ExpectedOf, some b!"null", 3⟩) ∧
      whereIs ⟨.ExpectedOf, some b!"null", 3⟩ b!"nulx" = 1) := by decide +kernel

/-- C61, deviation: a bad number at the beginning is reported at the end. -/
theorem C61_number_position :
    parse Cfg.strict b!"[-x, 1, 2]" .fresh = .ok ([], .obj ⟨.InvalidNumber, none, 0⟩) ∧
    whereIs ⟨.InvalidNumber, none, 0⟩ b!"[-x, 1, 2]" = 10 := by decide +kernel

/-- C61, deviation: the byte that is not a colon has the index 4, reported is 5. -/
theorem C61_colon_position :
    parse Cfg.strict b!"{\"a\"=1}" .fresh = .ok ([], .obj ⟨.ExpectedOf, some b!":", 2⟩) ∧
    whereIs ⟨.ExpectedOf, some b!":", 2⟩ b!"{\"a\"=1}" = 5 := by decide +kernel

/-! ### The hypotheses are met -/

/-- An error in the middle: `where` is 12, the index of the `;`. -/
example : parse Cfg.strict b!"{\"a\":[1,2], ;}" .fresh = .ok ([], .obj ⟨.InvalidMember, none, 2⟩) ∧
    whereIs ⟨.InvalidMember, none, 2⟩ b!"{\"a\":[1,2], ;}" = 12 := by decide +kernel

example : parse Cfg.strict b!"[\"a\\u00g0\"]" .fresh = .ok ([], .obj ⟨.InvalidString, none, 4⟩) := by decide +kernel

example : parse Cfg.nul b!"[1, 2, /* comm" .fresh =
    .ok ([], .obj ⟨.UnexpectedEndFragment, some b!"Unterminated comment", 0⟩) := by decide +kernel

example : parse Cfg.strict b!"[1 2]" .fresh = .ok ([], .obj ⟨.ExpectedOf, some b!"]", 2⟩) := by decide +kernel

/-- `[1, 2` is incomplete: the theorem says so. -/
example : Viable b!"[1, 2" :=
  (C61_incomplete (c := Cfg.strict) (p := []) (x := ⟨.ExpectedOf, some b!"]", 0⟩) EPtr.fresh_clean
    (by decide +kernel) (by decide)).mpr (by decide)

/-- `[1 2` is wrong. -/
example : ¬ Viable b!"[1 2" := fun h =>
  absurd ((C61_incomplete (c := Cfg.strict) (p := []) (x := ⟨.ExpectedOf, some b!"]", 1⟩) EPtr.fresh_clean
    (by decide +kernel) (by decide)).mp h).1 (by decide)

end Wjson
