import Verif.Spec.Uninit
import Verif.Props.Reuse
import Verif.Spec.Serial
/-
Lemmas for C80.
-/
namespace Wjson
open Spec

theorem Ser.ext' {α : Type} {S S' : Ser α} (h1 : S.dflt = S'.dflt) (h2 : S.emit = S'.emit) (h3 : S.de = S'.de) : S = S' := by
  cases S; cases S'; simp only at h1 h2 h3; subst h1 h2 h3; rfl

section
variable {α C : Type} {K : Coll α C} {R : Byte}

theorem seqLoopF_start {S : Ser α} (u : Bytes → α) (h : ∀ v0 v1 s e, s ≠ [] → S.de v0 s e = S.de v1 s e) (n : Nat) (t : C)
    (s : Bytes) (e : EPtr) : seqLoopF K (S.startingFrom u) R n t s e = seqLoopF K S R n t s e := by
  induction n generalizing t s e with
  | zero => rfl
  | succ n ih =>
    cases s with
    | nil => rfl
    | cons b0 s0 =>
      unfold seqLoopF
      cases hp : parseSpace (b0 :: s0) e with
      | mk p e1 =>
      cases p with
      | nil => rfl
      | cons b q =>
        simp only [Ser.startingFrom]
        split
        · rfl
        · rw [h (u (b :: q)) S.dflt _ _ (by simp)]
          have ih := fun t s e => ih t s e
          simp only [Ser.startingFrom] at ih
          simp only [ih]

theorem emitElems_start (S : Ser α) (u : Bytes → α) (l : List α) (k : Sink) :
    emitElems (S.startingFrom u) l k = emitElems S l k := by
  induction l generalizing k with
  | nil => rfl
  | cons v l ih =>
    cases l with
    | nil => rfl
    | cons w l => simp only [emitElems, ih]; rfl

theorem arraySer_start {S : Ser α} (u : Bytes → α) (h : ∀ v0 v1 s e, s ≠ [] → S.de v0 s e = S.de v1 s e) :
    arraySer K (S.startingFrom u) = arraySer K S := by
  refine Ser.ext' rfl (funext fun v => funext fun k => ?_) ?_
  · simp only [arraySer, seqSer, emitSeq, emitElems_start]
  funext v s e
  simp only [arraySer, seqSer, deSeq]
  split
  · rfl
  · split
    · rfl
    · split
      · rfl
      · exact seqLoopF_start u h _ _ _ _

theorem fixLoop_start {S : Ser α} (u : Bytes → α) (h : ∀ v0 v1 s e, s ≠ [] → S.de v0 s e = S.de v1 s e) (t : List α)
    (s : Bytes) (e : EPtr) : fixLoop .stdArray (S.startingFrom u) R t s e = fixLoop .stdArray S R t s e := by
  induction t generalizing s e with
  | nil => rfl
  | cons v vs ih =>
    cases s with
    | nil => rfl
    | cons b0 s0 =>
      unfold fixLoop
      cases hp : parseSpace (b0 :: s0) e with
      | mk p e1 =>
      cases p with
      | nil => rfl
      | cons b q =>
        simp only [FixKind.start]
        split
        · rfl
        · simp only [Ser.startingFrom] at ih ⊢
          rw [h (u (b :: q)) S.dflt _ _ (by simp)]
          simp only [ih]

theorem fixVecSer_start {N : Nat} {S : Ser α} (u : Bytes → α) (h : ∀ v0 v1 s e, s ≠ [] → S.de v0 s e = S.de v1 s e) :
    (fun (t : Vector α N) s e => if isNull s then deFixVec .stdArray S t s e else deFixVec .stdArray (S.startingFrom u) t s e) =
      deFixVec .stdArray S := by
  funext t s e
  split
  · rfl
  · next hn =>
    simp only [deFixVec, deFix, if_neg hn]
    cases s with
    | nil => rfl
    | cons b p => simp only [fixLoop_start u h]

end

mutual

theorem Spec.AnyStart.eq {c : Cfg} : ∀ {α : Type} {S S' : Ser α}, AnyStart c S S' → S' = S
  | _, _, _, .same S => rfl
  | _, _, _, .array u h1 h2 => by
    rw [h2.eq]
    exact arraySer_start u fun v0 v1 s e hs => C57_any_text h1 v0 v1 hs e
  | _, _, _, .stdArray u h1 h2 => by
    rw [h2.eq]
    exact Ser.ext' rfl rfl (fixVecSer_start u fun v0 v1 s e hs => C57_any_text h1 v0 v1 hs e)
  | _, _, _, .cArray h => by rw [h.eq]
  | _, _, _, .dict h1 h2 => by rw [h1.eq, h2.eq]
  | _, _, _, .pointer h => by rw [h.eq]
  | _, _, _, .quoted h => by rw [h.eq]
  | _, _, _, .memberValue h => by rw [h.eq]
  | _, _, _, .object is F F' h => by rw [List.map_congr_left fun i hi => (h i hi).eq]
  | _, _, _, .objectArray is F F' h => by rw [List.map_congr_left fun i hi => (h i hi).eq]

theorem Spec.AnyStartM.eq {c : Cfg} : ∀ {τ : Type} {m m' : Member τ}, AnyStartM c m m' → m' = m
  | _, _, _, .member m h => by rw [h.eq]
  | _, _, _, .memberP m h => by rw [h.eq]
  | _, _, _, .memberIf l r isDflt RU h1 h2 => by rw [h1.eq, h2.eq]

theorem Spec.AnyStartA.eq {c : Cfg} : ∀ {τ : Type} {m m' : AMember τ}, AnyStartA c m m' → m' = m
  | _, _, _, .member m h => by rw [h.eq]
  | _, _, _, .memberP m h => by rw [h.eq]
  | _, _, _, .memberIf l r isDflt RU h1 h2 => by rw [h1.eq, h2.eq]

end

/-! ### Reads without an error -/

/-- What `D` reads without an error `D'` reads too, from any start. -/
def Follows {α : Type} (D D' : De α) : Prop :=
  ∀ {e : EPtr}, e.Clean → ∀ {v0 v : α} {s p : Bytes}, D v0 s e = .ok (v, p, e) → ∀ v1, D' v1 s e = .ok (v, p, e)

section
variable {α C : Type} {K : Coll α C} {R : Byte}

theorem seqLoopF_follows {U : Prop} {S S' : Ser α} (hS : Safe U S.de) (h : Follows S.de S'.de) {e : EPtr} (he : e.Clean) (n : Nat) :
    ∀ (t : C) (s : Bytes) {v : C} {p : Bytes}, s.length < n → seqLoopF K S R n t s e = .ok (v, p, e) →
      seqLoopF K S' R n t s e = .ok (v, p, e) := by
  induction n with
  | zero => intro t s v p hn; omega
  | succ n ih =>
    intro t s v p hn hr
    cases s with
    | nil => exact hr
    | cons b0 s0 =>
      unfold seqLoopF at hr ⊢
      cases hp1 : parseSpace (b0 :: s0) e with
      | mk p1 e1 =>
      have s1 := Steps.space hp1
      rw [hp1] at hr
      have l1 := ((parseSpace_scan (b0 :: s0)).suffix e).length_le
      rw [hp1] at l1
      cases p1 with
      | nil => exact hr
      | cons b q =>
        simp only at hr ⊢
        split
        · next hb => rw [if_pos hb] at hr; exact hr
        · next hb =>
          rw [if_neg hb] at hr
          obtain ⟨⟨x, p2, e2⟩, hd, hr⟩ := Out.bind_eq_ok.mp hr
          obtain ⟨suf2, s2⟩ := hS.step hd
          have l2 := suf2.length_le
          simp only at hr
          cases hp3 : parseSpace p2 e2 with
          | mk p3 e3 =>
          have s3 := Steps.space hp3
          have l3 := ((parseSpace_scan p2).suffix e2).length_le
          rw [hp3] at hr l3
          have s4 : Steps e3 e ∧ (p3 ≠ []) := by
            cases p3 with
            | nil =>
              simp only [Out.ok.injEq, Prod.mk.injEq] at hr
              exact (he.absurd (s1.trans (s2.trans s3)) (by decide) hr.2.2).elim
            | cons b3 q3 =>
              refine ⟨?_, by simp⟩
              simp only at hr
              split at hr
              · simp only [Out.ok.injEq, Prod.mk.injEq] at hr
                rw [hr.2.2]; exact .refl _
              · split at hr
                · simp only [Out.ok.injEq, Prod.mk.injEq] at hr
                  exact (he.absurd (s1.trans (s2.trans s3)) (by decide) hr.2.2).elim
                · simp only [List.length_cons] at l1 l2 l3 hn
                  exact (SafeOut.step (seqLoopF_safe hS n _ q3 e3 (by omega)) hr).2
          have h3 := he.back (s1.trans (s2.trans s3)) s4.1
          subst h3
          have h2 := he.back (s1.trans s2) s3
          subst h2
          have h1 := he.back s1 s2
          subst h1
          rw [h he hd S'.dflt, Out.bind_ok]
          simp only [hp3]
          cases p3 with
          | nil => exact absurd rfl s4.2
          | cons b3 q3 =>
            simp only at hr ⊢
            split
            · next hb3 => rw [if_pos hb3] at hr; exact hr
            · next hb3 =>
              rw [if_neg hb3] at hr
              split
              · next hb4 => rw [if_pos hb4] at hr; exact hr
              · next hb4 =>
                rw [if_neg hb4] at hr
                simp only [List.length_cons] at l1 l2 l3 hn
                exact ih _ q3 (by omega) hr

theorem deSeq_follows {U : Prop} {S S' : Ser α} {L : Byte} (hS : Safe U S.de) (h : Follows S.de S'.de) :
    Follows (deSeq K S L R) (deSeq K S' L R) := by
  intro e he v0 v s p hr v1
  unfold deSeq at hr ⊢
  split
  · next h1 => rw [if_pos h1] at hr; exact hr
  · next h1 =>
    rw [if_neg h1] at hr
    cases s with
    | nil => exact hr
    | cons b t =>
      simp only at hr ⊢
      split
      · next h2 => rw [if_pos h2] at hr; exact hr
      · next h2 =>
        rw [if_neg h2] at hr
        exact seqLoopF_follows hS h he _ _ _ (by omega) hr

end

theorem deField_follows {U : Prop} {κ ν : Type} {SK SK' : Ser κ} {SV SV' : Ser ν} (uK : Safe U SK.de) (uV : Safe U SV.de)
    (hK : Follows SK.de SK'.de) (hV : Follows SV.de SV'.de) : Follows (deField SK SV) (deField SK' SV') := by
  intro e he v0 v s p hr v1
  unfold deField at hr ⊢
  obtain ⟨⟨x, p1, e1⟩, h1, hr⟩ := Out.bind_eq_ok.mp hr
  have s1 := (uK.step h1).2
  simp only at hr
  cases hp2 : parseSpace p1 e1 with
  | mk p2 e2 =>
  have s2 := Steps.space hp2
  rw [hp2] at hr
  cases p2 with
  | nil =>
    simp only [Out.ok.injEq, Prod.mk.injEq] at hr
    exact (he.absurd (s1.trans s2) (by decide) hr.2.2).elim
  | cons b q =>
    simp only at hr
    split at hr
    · simp only [Out.ok.injEq, Prod.mk.injEq] at hr
      exact (he.absurd (s1.trans s2) (by decide) hr.2.2).elim
    · next hb =>
      cases hp3 : parseSpace q e2 with
      | mk p3 e3 =>
      have s3 := Steps.space hp3
      rw [hp3] at hr
      cases p3 with
      | nil =>
        simp only [Out.ok.injEq, Prod.mk.injEq] at hr
        exact (he.absurd (s1.trans (s2.trans s3)) (by decide) hr.2.2).elim
      | cons b3 q3 =>
        simp only at hr
        obtain ⟨⟨y, p4, e4⟩, h4, hr⟩ := Out.bind_eq_ok.mp hr
        have s4 := (uV.step h4).2
        simp only [Out.ok.injEq, Prod.mk.injEq] at hr
        obtain ⟨k1, k2, k3⟩ := hr
        subst k3
        have e3 := he.back (s1.trans (s2.trans s3)) s4
        subst e3
        have e2 := he.back (s1.trans s2) s3
        subst e2
        have e1 := he.back s1 s2
        subst e1
        rw [hK he h1 v1.1, Out.bind_ok]
        simp only [hp2, hp3, if_neg hb]
        rw [hV he h4 v1.2, Out.bind_ok]
        simp only [k1, k2]

theorem dePointer_follows {α : Type} {S S' : Ser α} (h : Follows S.de S'.de) : Follows (dePointer S) (dePointer S') := by
  intro e he v0 v s p hr v1
  cases s with
  | nil => exact hr
  | cons b t =>
    simp only [dePointer] at hr ⊢
    split
    · next hb =>
      rw [if_pos hb] at hr
      obtain ⟨⟨x, p1, e1⟩, h1, hr⟩ := Out.bind_eq_ok.mp hr
      simp only [Out.ok.injEq, Prod.mk.injEq] at hr
      obtain ⟨k1, k2, k3⟩ := hr
      subst k3
      rw [h he h1 S'.dflt, Out.bind_ok, ← k1, ← k2]
    · next hb => rw [if_neg hb] at hr; exact hr

theorem Safe.startingFrom {α : Type} {U : Prop} {S : Ser α} (h : Safe U S.de) (u : Bytes → α) : Safe U (S.startingFrom u).de :=
  fun _ s e => h (u s) s e

theorem Spec.FullStart.both {c : Cfg} {f : Features} {α : Type} {S S' : Ser α} (h : FullStart c f S S') :
    Safe (Hazard c f) S.de ∧ Safe (Hazard c f) S'.de ∧ Follows S.de S'.de ∧ Follows S'.de S.de := by
  induction h with
  | @same α S h1 h2 =>
    have : Follows S.de S.de := fun he _ _ _ _ hr v1 => C57_success h1 he hr he.not_failed v1
    exact ⟨h2.safe, h2.safe, this, this⟩
  | array u _ ih =>
    obtain ⟨h1, h2, h3, h4⟩ := ih
    refine ⟨deSeq_safe h1, deSeq_safe (h2.startingFrom u), deSeq_follows h1 ?_, deSeq_follows (h2.startingFrom u) ?_⟩
    · exact fun he _ _ s _ hr v1 => h3 he hr (u s)
    · exact fun he _ _ s _ hr v1 => h4 he hr v1
  | dict _ _ ih1 ih2 =>
    obtain ⟨h1, h2, h3, h4⟩ := ih1
    obtain ⟨k1, k2, k3, k4⟩ := ih2
    exact ⟨deSeq_safe (deField_safe h1 k1), deSeq_safe (deField_safe h2 k2),
      deSeq_follows (deField_safe h1 k1) (deField_follows h1 k1 h3 k3),
      deSeq_follows (deField_safe h2 k2) (deField_follows h2 k2 h4 k4)⟩
  | pointer _ ih =>
    obtain ⟨h1, h2, h3, h4⟩ := ih
    exact ⟨dePointer_safe h1, dePointer_safe h2, dePointer_follows h3, dePointer_follows h4⟩

theorem writesBack_unique {α : Type} {em : Emit α} {v : α} {t t' : Bytes} (h : WritesBack em v t) (h' : WritesBack em v t') :
    t = t' := by
  have h1 := h []
  rw [h' []] at h1
  simpa using h1.symm

end Wjson
