import Verif.Model.Misc
import Verif.Proofs.Object
import Verif.Proofs.Containers
/-
Raw values, pointers, quoted values, member values, multi_deserializer.
-/
namespace Wjson
open Spec

theorem consumed_append (v p : Bytes) : consumed (v ++ p) p = v := by simp [consumed]

theorem consumed_suffix {s p : Bytes} (h : p <:+ s) : consumed s p ++ p = s := by
  obtain ⟨v, rfl⟩ := h
  rw [consumed_append]

theorem parseValue_safe (c : Cfg) (s : Bytes) (e : EPtr) :
    (parseValue c s e = .ub ∧ c.past = none) ∨ ∃ p e', parseValue c s e = .ok (p, e') ∧ p <:+ s ∧ EStep s.length e e' := by
  rcases parseValue_scan c s with ⟨p, ev, h1, h2⟩ | ⟨h1, h2⟩
  · exact .inr ⟨p, _, h1 e, h2.suffix, ev, rfl, fun x hx => ⟨(h2.err x hx).1, (h2.err x hx).2.2⟩⟩
  · exact .inl ⟨h1 e, h2⟩

theorem deRaw_safe (c : Cfg) : Safe (c.past = none) (deRaw c) := by
  intro v s e
  rcases parseValue_safe c s e with ⟨h, hu⟩ | ⟨p, e', h, h1, h2⟩
  · exact .inl ⟨by simp [deRaw, h], hu⟩
  · exact .inr ⟨_, p, e', by simp only [deRaw, h, Out.bind_ok]; rfl, h1, h2⟩

theorem dePointer_safe {α : Type} {U : Prop} {S : Ser α} (h : Safe U S.de) : Safe U (dePointer S) := by
  intro v s e
  cases s with
  | nil => exact .ok (List.nil_suffix) (.refl _ _)
  | cons b t =>
    simp only [dePointer]
    refine .ite (fun _ => ?_) fun _ => .ok (List.drop_suffix _ _) (.refl _ _)
    rcases h S.dflt (b :: t) e with ⟨h, hu⟩ | ⟨v', p, e', h, h1, h2⟩
    · exact .inl ⟨by simp [h], hu⟩
    · exact .inr ⟨some v', p, e', by simp only [h, Out.bind_ok], h1, h2⟩

theorem deRawQuoted_safe (c : Cfg) (reqQ : Bool) : Safe (c.past = none) (deRawQuoted c reqQ) := by
  intro v s e
  cases s with
  | nil => exact .err (by decide) (by omega) (by simp)
  | cons b t =>
    simp only [deRawQuoted]
    refine .ite (fun _ => .err (by decide) (by omega) (by omega)) fun _ => ?_
    have hs : (if reqQ then t else b :: t) <:+ b :: t := by
      cases reqQ
      · exact List.suffix_refl _
      · exact suffix_cons b t
    generalize (if reqQ then t else b :: t) = s' at hs ⊢
    refine .mono id hs (.refl _ _) ?_
    rcases parseValue_safe c s' e with ⟨h, hu⟩ | ⟨p, e', h, h1, h2⟩
    · exact .inl ⟨by simp [h], hu⟩
    · simp only [h, Out.bind_ok]
      refine .ite (fun _ => .ok h1 h2) fun _ => .ite (fun _ => ?_) fun _ => .ok h1 h2
      cases p with
      | nil => exact .ok List.nil_suffix (h2.trans (.create (by decide) _ _ (by omega) (by omega)))
      | cons d q =>
        simp only
        have := h1.length_le
        refine .ite (fun _ => .ok ((suffix_cons d q).trans h1) h2) fun _ =>
          .ok List.nil_suffix (h2.trans (.create (by decide) _ _ (by omega) (by omega)))

/-- A string read without error is no longer than its text. -/
theorem deStr_lengths {v0 s v p : Bytes} {e e' : EPtr} (he : e' ≠ .null) (h : deStr v0 s e = .ok (v, p, e')) (hf : e'.failed = false) :
    v.length + p.length + 1 ≤ s.length := by
  have hcr : ∀ (e : EPtr) (c : Code) m t, c ≠ .ValidJSON → createError c e m t = e' → False := by
    intro e c m t hc hh
    cases e with
    | null => exact he hh.symm
    | obj x =>
      subst hh
      simp only [createError] at hf
      by_cases hx : x.status = true
      · simp [hx, EPtr.failed] at hf
      · rw [if_neg hx] at hf
        simp [EPtr.failed, JError.status, hc] at hf
  unfold deStr at h
  split at h
  · next hn =>
    simp only [Out.ok.injEq, Prod.mk.injEq] at h
    obtain ⟨rfl, h1, h2⟩ := h
    cases s with
    | nil => simp [isNull] at hn
    | cons b t =>
      have hp : p.length ≤ t.length := by
        subst h1
        simp only [parseNull]
        split
        · exact litRest_length _ _ _ _ _
        · simp
      simp only [List.length_nil, List.length_cons]
      omega
  · unfold unserializeStr at h
    cases s with
    | nil =>
      simp only [Out.bind_ok, Out.ok.injEq, Prod.mk.injEq] at h
      exact (hcr _ _ _ _ (by decide) h.2.2).elim
    | cons b t =>
      simp only at h
      split at h
      · simp only [Out.bind_ok, Out.ok.injEq, Prod.mk.injEq] at h
        exact (hcr _ _ _ _ (by decide) h.2.2).elim
      · rw [Sink.puts_back] at h
        simp only [Out.bind_ok, Out.ok.injEq, Prod.mk.injEq] at h
        have := (strDec_ok t intMax e).2.2.2
        obtain ⟨rfl, h2⟩ := h
        rw [h2] at this
        simp only [List.nil_append, List.length_cons] at this ⊢
        omega

theorem deQuotedStr_safe {α : Type} {U : Prop} {S : Ser α} (h : Safe U S.de) : Safe U (deQuotedStr S) := by
  intro v s e
  simp only [deQuotedStr]
  rcases deStr_safe [] s e with ⟨_, hu⟩ | ⟨b, p, e', h1, h2, h3⟩
  · exact hu.elim
  · simp only [strSer, h1, Out.bind_ok]
    by_cases hf : e'.failed = true
    · simp only [hf, if_true]
      exact .ok List.nil_suffix h3
    · rw [if_neg hf]
      rcases h v b .fresh with ⟨h4, hu⟩ | ⟨v', p', e2, h4, h5, h6⟩
      · exact .inl ⟨by simp [h4], hu⟩
      · simp only [h4, Out.bind_ok]
        cases e2 with
        | null => exact .ok h2 h3
        | obj x =>
          simp only
          by_cases hx : (x.status && decide (e' ≠ .null)) = true
          · rw [if_pos hx]
            simp only [Bool.and_eq_true, decide_eq_true_eq] at hx
            have hl := deStr_lengths hx.2 h1 (by simpa using hf)
            obtain ⟨ev, k1, k2⟩ := h6
            cases ev with
            | none => simp only [applyErr, EPtr.fresh, EPtr.obj.injEq] at k1; rw [k1] at hx; simp [JError.status] at hx
            | some y =>
              have k3 := k2 y rfl
              have : x = y := by
                simpa [applyErr, EPtr.fresh, createError, JError.status] using k1
              subst this
              cases e with
              | null => exact absurd h3.null hx.2
              | obj z =>
                cases hz : z.status with
                | true =>
                  have := h3.failed_mono (by simpa [EPtr.failed] using hz)
                  exact absurd this hf
                | false =>
                  cases e' with
                  | null => exact absurd rfl hx.2
                  | obj w =>
                    refine .ok List.nil_suffix ⟨some ⟨x.code, none, p.length + x.tailOf + 1⟩, ?_, ?_⟩
                    · simp [EPtr.assign, applyErr, createError, hz]
                    · intro y hy
                      cases hy
                      refine ⟨k3.1, ?_, ?_⟩
                      · simp only; omega
                      · simp only; omega
          · rw [if_neg hx]
            exact .ok h2 h3

theorem deQuoted_safe {α : Type} {U : Prop} {S : Ser α} (h : Safe U S.de) (reqQ : Bool) : Safe U (deQuoted S reqQ) := by
  intro v s e
  simp only [deQuoted]
  exact .ite (fun _ => deQuotedStr_safe h v s e) fun _ => .ite (fun _ => deQuotedStr_safe h v s e) fun _ => h v s e

theorem memberValue_safe {τ α : Type} {U : Prop} {S : Ser α} (h : Safe U S.de) (d : τ) (get : τ → α) (set : α → τ → τ) :
    Safe U (memberValueSer d get set S).de := by
  intro t s e
  simp only [memberValueSer]
  rcases h (get t) s e with ⟨h, hu⟩ | ⟨v', p, e', h, h1, h2⟩
  · exact .inl ⟨by simp [h], hu⟩
  · exact .inr ⟨set v' t, p, e', by simp only [h, Out.bind_ok], h1, h2⟩

theorem Sink.preput_ptr (m0 m2 : Bytes) (b x y : Byte) :
    (Sink.mk (m0 ++ b :: x :: m2) (.ptr m0.length)).preput y = .ok ⟨(m0 ++ [b]) ++ y :: m2, .ptr (m0 ++ [b]).length⟩ := by
  simp [Sink.preput, List.set_append]

end Wjson
