import Verif.Spec.Reuse
import Verif.Proofs.Exact
import Verif.Model.Object
/-
C57: what the variable holds before the read.
-/
namespace Wjson
open Spec

/-! ### C57 -/

/-- C57. For values, containers, dictionaries and pointers neither the value nor
the position nor the error depends on what the variable held before, whether the
text is valid or not. -/
theorem C57_any_text {c : Cfg} {α : Type} {S : Ser α} (h : Overwrites c S) (v0 v1 : α) {s : Bytes} (hs : s ≠ []) (e : EPtr) :
    S.de v0 s e = S.de v1 s e := by
  cases s with
  | nil => exact absurd rfl hs
  | cons b t => cases h <;> rfl

/-- C57. A text that is read without an error gives the same value whatever the
variable held before. -/
theorem C57_success {c : Cfg} {α : Type} {S : Ser α} (h : Replaces c S) {v0 v : α} {s p : Bytes} {e e' : EPtr} (he : e.Clean)
    (hr : S.de v0 s e = .ok (v, p, e')) (hok : e'.failed = false) (v1 : α) : S.de v1 s e = .ok (v, p, e') := by
  have bad : ∀ {e : EPtr}, e.Clean → ∀ {code : Code} {m : Option Bytes} {t : Int} {A : Prop}, code ≠ .ValidJSON →
      (createError code e m t).failed = false → A := by
    intro e he code m t A hc hf
    rw [he.create hc m t] at hf
    cases hf
  induction h generalizing s p e e' with
  | base h =>
    cases s with
    | cons b t => rw [← hr]; exact C57_any_text h _ _ (by simp) e
    | nil =>
      cases h
      case int => cases hr; exact bad he (by decide) hok
      case bool => cases hr; exact bad he (by decide) hok
      case time => cases hr; exact bad he (by decide) hok
      case size => cases hr; exact bad he (by decide) hok
      all_goals exact hr
  | @float α F R hF =>
    cases s with
    | nil => cases hr; exact bad he (by decide) hok
    | cons b t =>
      simp only [floatSer, deFloat] at hr ⊢
      split
      · next h1 => rw [if_pos h1] at hr; exact hr
      · next h1 =>
        rw [if_neg h1] at hr
        split
        · next h2 =>
          rw [if_pos h2] at hr
          cases hr
          exact bad he (by decide) hok
        · next h2 =>
          rw [if_neg h2] at hr
          rw [hF _ _ v0]
          exact hr
  | @rawQuoted serQ reqQ =>
    cases s with
    | nil => cases hr; exact bad he (by decide) hok
    | cons b t =>
      simp only [rawQuotedSer, deRawQuoted] at hr ⊢
      by_cases h1 : (reqQ && decide (b ≠ c%'"')) = true
      · rw [if_pos h1] at hr
        cases hr
        exact bad he (by decide) hok
      · rw [if_neg h1] at hr ⊢
        exact hr
  | @quoted α S serQ reqQ hS ih =>
    have str : deQuotedStr S v0 s e = .ok (v, p, e') → deQuotedStr S v1 s e = .ok (v, p, e') := by
      intro hr'
      simp only [deQuotedStr] at hr' ⊢
      obtain ⟨⟨w, q, e1⟩, h1, k1⟩ := Out.bind_eq_ok.mp hr'
      rw [h1, Out.bind_ok]
      simp only at k1 ⊢
      have hc := (SafeOut.step (deStr_safe [] s e) h1).2
      by_cases hf : e1.failed = true
      · rw [if_pos hf] at k1
        cases k1
        rw [hf] at hok
        cases hok
      · rw [if_neg hf] at k1 ⊢
        obtain ⟨⟨x, q2, e2⟩, h2, k2⟩ := Out.bind_eq_ok.mp k1
        have he1 : e1 = e := by
          obtain ⟨_, hc⟩ := hc
          rcases hc.clean he with h | h
          · exact h
          · exact absurd h hf
        subst he1
        have hne : e1 ≠ .null := by
          obtain ⟨y, rfl, _⟩ := he
          simp
        have h2f : e2.failed = false := by
          cases e2 with
          | null => rfl
          | obj y =>
            simp only at k2
            split at k2
            · next h3 =>
              obtain ⟨z, rfl, _⟩ := he
              simp only [Out.ok.injEq, Prod.mk.injEq, EPtr.assign] at k2
              rw [← k2.2.2] at hok
              simp only [Bool.and_eq_true] at h3
              have : JError.status ⟨y.code, none, (q.length : Int) + y.tailOf + 1⟩ = y.status := rfl
              simp only [EPtr.failed, this] at hok
              rw [hok] at h3
              exact absurd h3.1 (by simp)
            · next h3 =>
              simp only [Bool.and_eq_true, not_and, decide_eq_true_eq] at h3
              simp only [EPtr.failed]
              cases hy : y.status with
              | false => rfl
              | true => exact absurd hne (h3 hy)
        rw [ih EPtr.fresh_clean h2 h2f v1, Out.bind_ok]
        exact k2
    simp only [quotedSer, deQuoted] at hr ⊢
    split
    · next h1 => rw [if_pos h1] at hr; exact str hr
    · next h1 =>
      rw [if_neg h1] at hr
      split
      · next h2 => rw [if_pos h2] at hr; exact str hr
      · next h2 => rw [if_neg h2] at hr; exact ih he hr hok v1

example : Replaces .strict (quotedSer (arraySer (seqColl Int) (intSer .strict .int)) true true) := .quoted (.base .array)

example : (quotedSer (arraySer (seqColl Int) (intSer .strict .int)) true true).de [7, 8] b!"\"[1,2]\"" .fresh = .ok ([1, 2], [], .fresh) := by
  decide +kernel

/-! #### Where it fails -/

/-- A quoted value that cannot be read leaves the variable alone. -/
theorem C57_quoted_keeps : ∃ e, (quotedSer (intSer .strict .int) true true).de 7 b!"1" .fresh = .ok (7, [], e) ∧ e.failed = true :=
  ⟨_, rfl, rfl⟩

/-- Fixed-size arrays keep the elements that the text does not have. -/
theorem C57_fixed_keeps : (fixSer .stdArray 3 (intSer .strict .int)).de [7, 8, 9] b!"[1]" .fresh = .ok ([1, 8, 9], [], .fresh) := by
  decide +kernel

/-- Structures keep the members that the text does not have. -/
theorem C57_object_keeps {τ : Type} (c : Cfg) (strict : Bool) (dflt : τ) (L : List (Member τ)) (t : τ) :
    (objectSer c strict dflt L).de t b!"[]" .fresh = .ok (t, [], .fresh) := by
  cases c
  rfl

end Wjson
