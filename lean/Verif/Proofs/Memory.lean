import Verif.Spec.Memory
import Verif.Proofs.TypedWork3
import Verif.Proofs.UpTo
import Verif.Proofs.Slots
/-
Lemmas for C79: the size of what is read is paid for by the bytes consumed. The size takes the place
of the count in `Pays`.
-/
namespace Wjson
open Spec

/-- Every result satisfies `P`. -/
def Sat {ρ : Type} (P : ρ → Prop) (o : Out ρ) : Prop := ∀ r, o = .ok r → P r

theorem Sat.ok {ρ : Type} {P : ρ → Prop} {r : ρ} (h : P r) : Sat P (.ok r) := by
  intro r' h'
  cases h'
  exact h

theorem Sat.ub {ρ : Type} {P : ρ → Prop} : Sat P (.ub : Out ρ) := by
  intro r h
  cases h

theorem Sat.fuel {ρ : Type} {P : ρ → Prop} : Sat P (.fuel : Out ρ) := by
  intro r h
  cases h

theorem Sat.bind {ρ σ : Type} {P : ρ → Prop} {Q : σ → Prop} {o : Out ρ} {g : ρ → Out σ} (h : Sat P o)
    (hg : ∀ r, P r → Sat Q (g r)) : Sat Q (o >>= g) := by
  cases o with
  | ok r => exact hg r (h r rfl)
  | ub => exact .ub
  | fuel => exact .fuel

theorem Sat.mono {ρ : Type} {P Q : ρ → Prop} {o : Out ρ} (h : Sat P o) (hq : ∀ r, P r → Q r) : Sat Q o :=
  fun r hr => hq r (h r hr)

/-- From a counted reader. -/
theorem Cost.sat {ρ : Type} {P : ρ → Nat → Prop} {w : Out (ρ × Nat)} {o : Out ρ} (h : Cost P w o) : Sat (fun r => ∃ k, P r k) o := by
  cases h with
  | ok h => exact .ok ⟨_, h⟩
  | ub => exact .ub
  | fuel => exact .fuel

/-- A result, its size against the size before. -/
def FitsPost {α : Type} (f : α → Nat) (k m : Nat) (s : Bytes) (r : α × Bytes × EPtr) : Prop := LinPost k m s r (f r.1)

/-- The size of what the reader gives is bounded. -/
def FitsIn {α : Type} (f : α → Nat) (A k : Nat) (D : De α) : Prop := ∀ v s e, Sat (FitsPost f k (f v + A) s) (D v s e)

/-- As `FitsIn`, without the clause for texts that begin like `null`. -/
def Fits0 {α : Type} (f : α → Nat) (A k : Nat) (D : De α) : Prop :=
  ∀ v s e, Sat (fun r => Pays k (f v + A) s r.2.1 (f r.1)) (D v s e)

theorem FitsIn.fits0 {α : Type} {f : α → Nat} {A k : Nat} {D : De α} (h : FitsIn f A k D) : Fits0 f A k D :=
  fun v s e => (h v s e).mono fun _ h => h.1

theorem FitsIn.mono {α : Type} {f : α → Nat} {A A' k k' : Nat} {D : De α} (h : FitsIn f A k D) (hA : A ≤ A') (hk : k ≤ k') :
    FitsIn f A' k' D := fun v s e => (h v s e).mono fun _ h => LinPost.mono h hk (by omega)

/-- A reader of values without a size. -/
theorem Lin.fits {α : Type} {A B : Nat} {W : DeW α} {D : De α} (h : Lin A B W D) : FitsIn (fun _ => 0) 0 0 D :=
  fun v s e => (h v s e).sat.mono fun _ ⟨_, h⟩ => ⟨.zero _ h.1.1 (by simp), .zero _ (by simp)⟩

theorem Sat.notNull {α : Type} {f : α → Nat} {k m : Nat} {s : Bytes} {o : Out (α × Bytes × EPtr)}
    (h : Sat (fun r => Pays k m s r.2.1 (f r.1)) o) (hn : ¬isNull s = true) : Sat (FitsPost f k m s) o :=
  h.mono fun _ h => ⟨h, .of_ne (by simpa using hn)⟩

/-! ### Strings -/

theorem hexN_exact {k acc : Nat} {s : Bytes} {e e' : EPtr} {h : Nat} {p : Bytes}
    (hh : hexN k acc s e = (some (h, p), e')) : p.length + k = s.length := by
  induction k generalizing acc s e with
  | zero => simp [hexN] at hh; simp [hh.1.2]
  | succ k ih =>
    cases s with
    | nil => simp [hexN] at hh
    | cons b t =>
      have := ih hh
      simp only [List.length_cons]
      omega

theorem utf8Copy_size (i : Nat) (s : Bytes) (n : Nat) (e : EPtr) :
    (utf8Copy i s n e).1.length + (utf8Copy i s n e).2.1.length ≤ s.length := by
  induction i generalizing s n with
  | zero => simp [utf8Copy]
  | succ i ih =>
    cases n with
    | zero => simp [utf8Copy]
    | succ n =>
      cases s with
      | nil => simp [utf8Copy]
      | cons b t => have := ih t n; simp only [utf8Copy, List.length_cons]; omega

theorem uhexStep_size (s : Bytes) (n : Nat) (e : EPtr) :
    (uhexStep s n e).1.length + (uhexStep s n e).2.1.length ≤ s.length + 2 := by
  unfold uhexStep
  split
  · simp
  · split
    · simp
    · next hh =>
      have := hexN_exact hh
      repeat' split
      all_goals simp
      all_goals omega

theorem xhexStep_size (s : Bytes) (n : Nat) (e : EPtr) : (xhexStep s n e).1.length + (xhexStep s n e).2.1.length ≤ s.length + 1 := by
  unfold xhexStep
  split
  · simp
  · next hh =>
    have := hexN_length hh
    simp
    omega

/-- A step writes no more bytes than it consumes. -/
theorem strStep_size (b : Byte) (t : Bytes) (n : Nat) (e : EPtr) :
    (strStep b t n e).1.length + (strStep b t n e).2.1.length ≤ (b :: t).length := by
  unfold strStep
  split
  · split
    · simp
    · next x t' =>
      split
      · simp only [List.length_cons, List.length_nil]; omega
      · split
        · have := uhexStep_size t' n e
          simp only [List.length_cons]; omega
        · split
          · have := xhexStep_size t' n e
            simp only [List.length_cons]; omega
          · simp
  · unfold utf8Step
    repeat' split
    · simp only [List.length_cons, List.length_nil]; omega
    · exact utf8Copy_size 2 (b :: t) n e
    · exact utf8Copy_size 3 (b :: t) n e
    · exact utf8Copy_size 4 (b :: t) n e
    · simp

theorem strDec_size (m : Nat) : ∀ (s : Bytes) (n : Nat) (e : EPtr), s.length < m →
    (strDec s n e).1.length + (strDec s n e).2.1.length ≤ s.length := by
  induction m with
  | zero => intro s n e h; omega
  | succ m ih =>
    intro s n e h
    unfold strDec
    cases s with
    | nil => simp
    | cons b t =>
      simp only
      split
      · simp
      · split
        · simp
        · next hn =>
          have h1 := strStep_length b t e hn
          have h2 := ih (strStep b t n e).2.1 (strStep b t n e).2.2.1 (strStep b t n e).2.2.2 (by omega)
          have h3 := strStep_size b t n e
          simp only [List.length_append]
          omega

/-- The text that a string stands for is not longer than the string. -/
theorem deStr_size {v : Bytes} {s : Bytes} {e : EPtr} {r : Bytes × Bytes × EPtr} (h : deStr v s e = .ok r) :
    r.1.length + r.2.1.length ≤ s.length := by
  unfold deStr at h
  split at h
  · cases h
    have := parseNull_length s e
    simpa using this
  · unfold unserializeStr at h
    cases s with
    | nil => cases h; simp
    | cons b t =>
      simp only at h
      split at h
      · cases h; simp
      · rw [Sink.puts_back] at h
        cases h
        have := strDec_size (t.length + 1) t intMax e (by omega)
        simp only [List.nil_append, List.length_cons]
        omega

theorem deStr_fits : FitsIn List.length 0 1 deStr := by
  intro v s e r h
  have hs := deStr_size h
  refine ⟨⟨by omega, by omega⟩, fun hn => ?_⟩
  unfold deStr at h
  rw [if_pos hn] at h
  cases h
  have := parseNull_length s .null
  simp only [List.length_nil]
  omega

/-! ### Raw values, pointers, quoted values -/

theorem parseValue_sat (c : Cfg) (s : Bytes) (e : EPtr) : Sat (fun r => r.1.length ≤ s.length) (parseValue c s e) :=
  (parseValueW_cost c s e).sat.mono fun _ ⟨_, h⟩ => h.1

theorem deRaw_fits (c : Cfg) : FitsIn List.length 0 1 (deRaw c) := by
  intro v s e
  unfold deRaw
  by_cases hn : isNull s = true
  · rw [parseValue_null c hn]
    have h1 := consumed_length s (parseNull s e).1
    have h2 := parseNull_length s e
    refine .ok ⟨⟨h2, by simp only; omega⟩, fun _ => ?_⟩
    rw [parseNull_bytes s .null e]
    simp only
    omega
  · refine Sat.notNull ((parseValue_sat c s e).bind fun r hr => .ok ?_) hn
    have h1 := consumed_length s r.1
    exact ⟨hr, by simp only; omega⟩

theorem deRawQuoted_fits (c : Cfg) (reqQ : Bool) : FitsIn List.length 0 1 (deRawQuoted c reqQ) := by
  intro v s e
  unfold deRawQuoted
  cases s with
  | nil => exact .ok ⟨.zero _ (by simp) (by simp), .zero _ (by simp)⟩
  | cons b t =>
    simp only
    split
    · exact .ok ⟨.zero _ (by simp) (by simp), .zero _ (by simp)⟩
    · next hq =>
      by_cases hn : isNull (b :: t) = true
      · cases reqQ with
        | true =>
          obtain rfl : b = c%'n' := by simpa [isNull] using hn
          exact absurd rfl hq
        | false =>
          simp only [Bool.false_eq_true, if_false]
          rw [parseValue_null c hn]
          have h1 := consumed_length (b :: t) (parseNull (b :: t) e).1
          have h2 := parseNull_length (b :: t) e
          simp only [Out.bind_ok]
          have hp : Pays 1 (v.length + 0) (b :: t) (parseNull (b :: t) e).1 (consumed (b :: t) (parseNull (b :: t) e).1).length :=
            ⟨h2, by omega⟩
          split
          · exact .ok ⟨.zero _ h2 (by simp), .zero _ (by simp)⟩
          · exact .ok ⟨hp, fun _ => by rw [parseNull_bytes _ .null e]; exact hp.2⟩
      · refine Sat.notNull ?_ hn
        have hl : (if reqQ = true then t else b :: t).length ≤ (b :: t).length := by split <;> simp
        generalize (if reqQ = true then t else b :: t) = u at hl ⊢
        refine (parseValue_sat c u e).bind fun ⟨p, e'⟩ h => ?_
        have h3 := consumed_length u p
        have hp : Pays 1 (v.length + 0) (b :: t) p (consumed u p).length :=
          Pays.before (r := u) ⟨h, by simp only at h; omega⟩ hl
        simp only
        split
        · exact .ok (.zero _ hp.1 (by simp))
        · split
          · cases p with
            | nil => exact .ok hp
            | cons d q =>
              simp only
              split
              · exact .ok (hp.drop (by simp))
              · exact .ok hp.nil
          · exact .ok hp

theorem dePointer_fits {α : Type} {S : Ser α} {f : α → Nat} {A k : Nat} (h : FitsIn f A k S.de) :
    FitsIn (ptrSize f) (1 + f S.dflt + A) k (dePointer S) := by
  intro v s e
  unfold dePointer
  cases s with
  | nil => exact .ok ⟨.zero _ (by simp) (by simp [ptrSize]), .zero _ (by simp [ptrSize])⟩
  | cons b t =>
    simp only
    split
    · refine (h S.dflt (b :: t) e).bind fun r hr => .ok ?_
      exact LinPost.mono (r := (some r.1, r.2)) hr (Nat.le_refl _) (by simp only [ptrSize]; omega)
    · exact .ok ⟨.zero _ (by simp <;> omega) (by simp [ptrSize]), .zero _ (by simp [ptrSize])⟩

theorem deQuotedStr_fits {α : Type} {S : Ser α} {f : α → Nat} {A k : Nat} (h : FitsIn f A k S.de) : FitsIn f A k (deQuotedStr S) := by
  intro v s e
  unfold deQuotedStr
  have hd : strSer.de [] s e = deStr [] s e := rfl
  rw [hd]
  have hb : Sat (fun r => r.1.length + r.2.1.length ≤ s.length ∧ (isNull s = true → r.2.1 = (parseNull s .null).1)) (deStr [] s e) := by
    intro r hr
    refine ⟨deStr_size hr, fun hn => ?_⟩
    unfold deStr at hr
    rw [if_pos hn] at hr
    cases hr
    exact parseNull_bytes s e .null
  refine hb.bind fun r hr => ?_
  split
  · exact .ok ⟨.zero _ (by simp) (by simp only; omega), .zero _ (by simp only; omega)⟩
  · refine (h v r.1 .fresh).bind fun r2 h2 => ?_
    have h3 : f r2.1 ≤ k * r.1.length + (f v + A) := by have := h2.1.2; omega
    have h4 := Nat.mul_le_mul_left k hr.1
    rw [Nat.mul_add] at h4
    have hp : Pays k (f v + A) s r.2.1 (f r2.1) := ⟨by omega, by omega⟩
    have hz : NullPays k (f v + A) s (f r2.1) := fun hn => by
      rw [← hr.2 hn]
      exact hp.2
    obtain ⟨v2, p2, e2⟩ := r2
    cases e2 with
    | null => exact .ok ⟨hp, hz⟩
    | obj z =>
      simp only
      split
      · exact .ok ⟨hp.nil, hz⟩
      · exact .ok ⟨hp, hz⟩

theorem deQuoted_fits {α : Type} {S : Ser α} {f : α → Nat} {A k : Nat} (h : FitsIn f A k S.de) (reqQ : Bool) :
    FitsIn f A k (deQuoted S reqQ) := by
  intro v s e
  unfold deQuoted
  split
  · exact deQuotedStr_fits h v s e
  · split
    · exact deQuotedStr_fits h v s e
    · exact h v s e

theorem memberValue_fits {τ α : Type} {S : Ser α} {f : α → Nat} {A k : Nat} {F : τ → Nat} {get : τ → α} {set : α → τ → τ} (dflt : τ)
    (h : FitsIn f A k S.de) (hp : PartOf F f get set) : FitsIn F A k (memberValueSer dflt get set S).de := by
  intro t s e
  refine (h (get t) s e).bind fun r hr => .ok ?_
  have := hp r.1 t
  exact LinPost.mono (r := (set r.1 t, r.2)) hr (Nat.le_refl _) (by simp only; omega)

/-! ### Containers -/

theorem sumSize_eq {α : Type} (f : α → Nat) (l : List α) : sumSize f l = l.length + (l.map f).sum := by
  induction l with
  | nil => rfl
  | cons x l ih => simp only [sumSize, ih, List.length_cons, List.map_cons, List.sum_cons]; omega

theorem sumSize_append {α : Type} (f : α → Nat) (a b : List α) : sumSize f (a ++ b) = sumSize f a + sumSize f b := by
  induction a with
  | nil => simp [sumSize]
  | cons x a ih => simp only [List.cons_append, sumSize, ih]; omega

theorem sumSize_perm {α : Type} (f : α → Nat) {a b : List α} (h : a.Perm b) : sumSize f a = sumSize f b := by
  induction h with
  | nil => rfl
  | cons x _ ih => simp only [sumSize, ih]
  | swap x y l => simp only [sumSize]; omega
  | trans _ _ h1 h2 => exact h1.trans h2

theorem sumSize_sublist {α : Type} (f : α → Nat) {a b : List α} (h : a.Sublist b) : sumSize f a ≤ sumSize f b := by
  induction h with
  | slnil => exact Nat.le_refl _
  | cons x _ ih => simp only [sumSize]; omega
  | cons_cons x _ ih => simp only [sumSize]; omega

theorem Spec.AddsOne.size {α C : Type} {K : Coll α C} (hK : AddsOne K) (f : α → Nat) {c : C} (hc : Filled K c) (x : α) :
    sumSize f (K.elems (K.insert c x)) ≤ sumSize f (K.elems c) + (1 + f x) := by
  obtain ⟨l, h1, h2⟩ := hK.insert c x hc
  have := sumSize_perm f h1
  have := sumSize_sublist f h2
  simp only [sumSize] at this
  omega

theorem Pays.sp {A B : Nat} {s p : Bytes} {k : Nat} (h : Pays A B s p k) (e : EPtr) : Pays A B s (parseSpace p e).1 k :=
  h.drop (parseSpace_length p e)

theorem seqLoop_fits {α C : Type} {K : Coll α C} (hK : AddsOne K) {S : Ser α} {f : α → Nat} {A k : Nat} (h : Fits0 f A k S.de)
    (hk : 1 + f S.dflt + A ≤ k) (R : Byte) (n : Nat) : ∀ (t : C) (s : Bytes) (e : EPtr), Filled K t →
      Sat (fun r => Pays k (sumSize f (K.elems t) + k) s r.2.1 (sumSize f (K.elems r.1))) (seqLoopF K S R n t s e) := by
  induction n with
  | zero => intro t s e _; exact .fuel
  | succ n ih =>
    intro t s e ht
    unfold seqLoopF
    cases s with
    | nil => exact .ok (.zero _ (by simp) (by simp only; omega))
    | cons b0 s0 =>
      simp only
      generalize b0 :: s0 = s
      have p1 : Pays k (sumSize f (K.elems t)) s (parseSpace s e).1 (sumSize f (K.elems t)) :=
        .zero _ (parseSpace_length s e) (Nat.le_refl _)
      generalize parseSpace s e = r at p1 ⊢
      obtain ⟨r, e1⟩ := r
      cases r with
      | nil => exact .ok (p1.mono (Nat.le_refl _) (by simp only; omega))
      | cons b p =>
        simp only
        split
        · exact .ok ((p1.mono (Nat.le_refl _) (by simp only; omega)).drop (by simp))
        · refine (h S.dflt (b :: p) e1).bind fun d p2 => ?_
          obtain ⟨v, d, e2⟩ := d
          have hi := hK.size f ht v
          simp only at p2 ⊢
          have q : Pays k (sumSize f (K.elems t) + k) s (parseSpace d e2).1 (sumSize f (K.elems (K.insert t v))) :=
            (p1.trans p2 (by omega)).sp e2
          generalize parseSpace d e2 = r at q ⊢
          obtain ⟨r, e3⟩ := r
          cases r with
          | nil => exact .ok q
          | cons b q' =>
            simp only
            split
            · exact .ok (q.drop (by simp))
            · split
              · exact .ok q.nil
              · refine (ih _ q' e3 (.insert v ht)).mono fun y hy => ?_
                have h1 : Pays k (sumSize f (K.elems t)) s q' (sumSize f (K.elems (K.insert t v))) := by
                  have := q.1
                  have := q.2
                  simp only [List.length_cons, Nat.mul_add] at *
                  exact ⟨by omega, by omega⟩
                exact h1.trans hy (by omega)

theorem deSeq_fits {α C : Type} {K : Coll α C} (hK : AddsOne K) {S : Ser α} {f : α → Nat} {A k : Nat} (h : Fits0 f A k S.de)
    (hk : 1 + f S.dflt + A ≤ k) (L R : Byte) : FitsIn (fun v => sumSize f (K.elems v)) 0 k (deSeq K S L R) := by
  intro v s e
  have hc : sumSize f (K.elems K.clear) = 0 := by rw [hK.clear]; rfl
  unfold deSeq
  split
  · exact .ok ⟨.zero _ (parseNull_length s e) (by simp only [hc]; omega), .zero _ (by simp only [hc]; omega)⟩
  · next hn =>
    refine Sat.notNull ?_ hn
    cases s with
    | nil => exact .ok (.zero _ (by simp) (by simp only [hc]; omega))
    | cons b t =>
      simp only
      split
      · exact .ok (.zero _ (by simp) (by simp only [hc]; omega))
      · refine (seqLoop_fits hK h hk R _ _ t e .empty).mono fun r hr => ?_
        rw [hc] at hr
        have := hr.1
        have := hr.2
        exact ⟨by simp only [List.length_cons]; omega, by simp only [List.length_cons, Nat.mul_add]; omega⟩

theorem deField_fits {κ ν : Type} {SK : Ser κ} {SV : Ser ν} {f : κ → Nat} {g : ν → Nat} {A B k : Nat} (hK : Fits0 f A k SK.de)
    (hV : Fits0 g B k SV.de) : Fits0 (fun x => f x.1 + g x.2) (A + B) k (deField SK SV) := by
  intro t s e
  unfold deField
  refine (hK t.1 s e).bind fun d p1 => ?_
  obtain ⟨v, d, e1⟩ := d
  simp only at p1 ⊢
  have q : Pays k (f t.1 + g t.2 + (A + B)) s (parseSpace d e1).1 (f v + g t.2) := (p1.mono (Nat.le_refl _) (by omega)).sp e1
  have q0 := p1.sp e1
  generalize parseSpace d e1 = r at q q0 ⊢
  obtain ⟨r, e2⟩ := r
  cases r with
  | nil => exact .ok q
  | cons b p =>
    simp only
    split
    · exact .ok q.nil
    · have q2 := (q.drop (q := p) (by simp)).sp e2
      have q3 := (q0.drop (q := p) (by simp)).sp e2
      generalize parseSpace p e2 = r at q2 q3 ⊢
      obtain ⟨r, e3⟩ := r
      cases r with
      | nil => exact .ok q2
      | cons b p' =>
        refine (hV t.2 (b :: p') e3).bind fun x p4 => .ok ?_
        exact q3.trans p4 (by simp only; omega)

/-! ### Arrays -/

theorem fixNull_fits {α : Type} {S : Ser α} {f : α → Nat} {A k : Nat} (h : FitsIn f A k S.de) (s : Bytes) (hn : isNull s = true)
    (vs : List α) : ∀ e, Sat (fun r => sumSize' f r.1 + vs.length * k * (parseNull s .null).1.length
      ≤ vs.length * k * s.length + (sumSize' f vs + vs.length * A)) (fixNull S s vs e) := by
  induction vs with
  | nil => intro e; exact .ok (by simp [sumSize'])
  | cons v vs ih =>
    intro e
    refine (h v s e).bind fun d hd => (ih d.2.2).bind fun r hr => .ok ?_
    have := hd.2 hn
    simp only [List.length_cons, Nat.add_mul, Nat.one_mul, sumSize'] at *
    omega

theorem fixClose_sat {α : Type} {f : α → Nat} {k m : Nat} {R : Byte} {t : List α} {s0 s : Bytes} {e : EPtr}
    (h : Pays k m s0 s (sumSize' f t)) : Sat (fun r => Pays k m s0 r.2.1 (sumSize' f r.1)) (fixClose R t s e) := by
  cases s with
  | nil => exact .ok h
  | cons b p =>
    simp only [fixClose]
    split
    · exact .ok h.nil
    · exact .ok (h.drop (by simp))

theorem fixLoop_fits {α : Type} (kd : FixKind) {S : Ser α} {f : α → Nat} {A k : Nat} (h : Fits0 f A k S.de)
    (hk : f S.dflt + A ≤ k) (R : Byte) (vs : List α) : ∀ (s : Bytes) (e : EPtr),
      Sat (fun r => Pays k (sumSize' f vs + k) s r.2.1 (sumSize' f r.1)) (fixLoop kd S R vs s e) := by
  induction vs with
  | nil => intro s e; exact fixClose_sat (.zero _ (Nat.le_refl _) (by simp [sumSize']))
  | cons v vs ih =>
    intro s e
    unfold fixLoop
    cases s with
    | nil => exact fixClose_sat (.zero _ (Nat.le_refl _) (by omega))
    | cons b0 s0 =>
      simp only
      generalize b0 :: s0 = s
      have p1 : Pays k (sumSize' f (v :: vs)) s (parseSpace s e).1 (sumSize' f (v :: vs)) :=
        .zero _ (parseSpace_length s e) (Nat.le_refl _)
      generalize parseSpace s e = r at p1 ⊢
      obtain ⟨r, e1⟩ := r
      cases r with
      | nil => exact .ok (p1.mono (Nat.le_refl _) (by simp only; omega))
      | cons b p =>
        simp only
        split
        · exact fixClose_sat (p1.mono (Nat.le_refl _) (by omega))
        · refine (h (kd.start S v) (b :: p) e1).bind fun d p2 => ?_
          obtain ⟨v', d, e2⟩ := d
          have hst : f (kd.start S v) ≤ f v + f S.dflt := by cases kd <;> simp [FixKind.start]
          simp only at p2 ⊢
          have q : Pays k (sumSize' f (v :: vs) + k) s (parseSpace d e2).1 (sumSize' f (v' :: vs)) :=
            (p1.trans p2 (by simp only [sumSize']; omega)).sp e2
          generalize parseSpace d e2 = r at q ⊢
          obtain ⟨r, e3⟩ := r
          cases r with
          | nil => exact .ok q
          | cons b q' =>
            simp only
            split
            · exact fixClose_sat q
            · split
              · exact .ok q.nil
              · refine (ih q' e3).bind fun y hy => .ok ?_
                have h1 : Pays k (sumSize' f (v :: vs)) s q' (sumSize' f (v' :: vs)) := by
                  have := q.1
                  have := q.2
                  simp only [List.length_cons, Nat.mul_add] at *
                  exact ⟨by omega, by omega⟩
                exact h1.trans hy (by simp only [sumSize']; omega)

theorem deFixVec_fits {α : Type} {N : Nat} (kd : FixKind) {S : Ser α} {f : α → Nat} {A k k' : Nat} (h : FitsIn f A k S.de) (h1 : k ≤ k')
    (h2 : N * k ≤ k') (h3 : f S.dflt + A ≤ k') :
    FitsIn (fun v : Vector α N => sumSize' f v.toList) (N * A) k' (deFixVec kd S) := by
  intro v s e
  unfold deFixVec
  have hN : v.toList.length = N := by simp
  have key : Sat (FitsPost (sumSize' f) k' (sumSize' f v.toList + N * A) s) (deFix kd S c%'[' c%']' v.toList s e) := by
    unfold deFix
    split
    · next hn =>
      refine (fixNull_fits h s hn v.toList e).bind fun x hx => .ok ?_
      rw [hN] at hx
      have hb := parseNull_bytes s .null x.2
      have hl := parseNull_length s x.2
      rw [hb] at hx
      have hp : Pays k' (sumSize' f v.toList + N * A) s (parseNull s x.2).1 (sumSize' f x.1) :=
        Pays.mono (A := N * k) ⟨hl, hx⟩ h2 (by omega)
      exact ⟨hp, fun _ => by rw [hb]; exact hp.2⟩
    · next hn =>
      refine Sat.notNull ?_ hn
      cases s with
      | nil => exact .ok (.zero _ (by simp) (by simp only; omega))
      | cons b t =>
        simp only
        split
        · exact .ok (.zero _ (by simp) (by simp only; omega))
        · refine (fixLoop_fits kd (h.mono (Nat.le_refl _) h1).fits0 h3 c%']' v.toList t e).mono fun r hr => ?_
          have := hr.1
          have := hr.2
          exact ⟨by simp only [List.length_cons]; omega, by simp only [List.length_cons, Nat.mul_add]; omega⟩
  refine key.bind fun r hr => ?_
  split
  · refine .ok ?_
    exact hr
  · exact .ub

/-! ### Structures -/

theorem nameLoop_length (n s : Bytes) : (nameLoop n s).2.length ≤ s.length := by
  obtain ⟨_, _, _, h⟩ := nameLoopW_eq n s
  exact h

theorem memberName_length (name s : Bytes) (e : EPtr) (u : Bool) : (memberName name s e u).1.length ≤ s.length := by
  obtain ⟨_, _, h⟩ := memberNameW_eq name s e u
  exact h.1

/-- A name that matches is consumed. -/
theorem memberName_shorter {name s : Bytes} {e : EPtr} {u : Bool} (h : (memberName name s e u).2.2 = true) (hu : u = true → s ≠ []) :
    (memberName name s e u).1.length + 1 ≤ s.length := by
  unfold memberName at h ⊢
  cases s with
  | nil => exact absurd rfl (hu h)
  | cons b t =>
    simp only at h ⊢
    split at h
    · next hb => rw [if_pos hb]; simp
    · next hb =>
      rw [if_neg hb]
      have h1 := nameLoop_length name t
      generalize nameLoop name t = l at h h1 ⊢
      obtain ⟨l1, l2⟩ := l
      cases l2 with
      | nil => simp
      | cons b' p =>
        simp only at h h1 ⊢
        split at h
        · cases h
        · next hb' =>
          rw [if_neg hb']
          have h2 := parseSpace_length p e
          generalize parseSpace p e = r at h2 ⊢
          obtain ⟨r, e1⟩ := r
          cases r with
          | nil => simp
          | cons b2 q =>
            simp only
            split
            · simp
            · have h3 := parseSpace_length q e1
              generalize parseSpace q e1 = r at h3 ⊢
              obtain ⟨r, e2⟩ := r
              cases r with
              | nil => simp
              | cons b3 q' =>
                simp only [List.length_cons] at *
                omega

/-- A member pays for its value with the bytes of its name. -/
def MFits {τ : Type} (F : τ → Nat) (k : Nat) (m : Member τ) : Prop :=
  ∀ t s e, Sat (fun r => Pays k (F t) s r.2.1 (F r.1)) (m.de t s e false)

/-- A reference pays for its value. -/
structure RefFits {τ : Type} (F : τ → Nat) (k : Nat) (m : MRef τ) (f : m.α → Nat) (A : Nat) : Prop where
  fits : Fits0 f A k m.ser.de
  part : PartOf F f m.get m.set
  le : f m.ser.dflt + A ≤ k

/-- `member` and `member_p`, with what reading starts from. -/
theorem deMember_sat {τ : Type} {F : τ → Nat} {k A : Nat} {m : MRef τ} {f : m.α → Nat} (h : RefFits F k m f A) {x : m.α} {t : τ}
    (hx : f x ≤ f (m.get t) + f m.ser.dflt) (s : Bytes) (e : EPtr) (u : Bool) (hu : u = true → s ≠ []) :
    Sat (fun r => Pays k (F t) s r.2.1 (F r.1) ∧ (r.2.2.2 = true → s ≠ []))
      (let r := memberName m.name s e u
      if !r.2.2 then .ok (t, r)
      else m.ser.de x r.1 r.2.1 >>= fun d => .ok (m.set d.1 t, d.2.1, d.2.2, true)) := by
  simp only
  split
  · next hf => exact .ok ⟨.zero _ (memberName_length _ _ _ _) (Nat.le_refl _), fun h => by
    simp only at h
    simp [h] at hf⟩
  · next hf =>
    have hs := memberName_shorter (name := m.name) (s := s) (e := e) (u := u) (by simpa using hf) hu
    refine (h.fits x _ _).bind fun d hd => .ok ⟨?_, fun _ hn => by simp [hn] at hs⟩
    have h1 := h.part d.1 t
    have h2 := hd.1
    have h3 := hd.2
    have h4 := Nat.mul_le_mul_left k hs
    have h5 := h.le
    rw [Nat.mul_add] at h4
    exact ⟨by simp only; omega, by simp only; omega⟩

/-- After a first attempt `null` is read into the alternative, whatever is in it. -/
theorem readNull_sat {τ : Type} {F : τ → Nat} {m : MRef τ} {f : m.α → Nat} (hp : PartOf F f m.get m.set) (he : Emptied m f) (t : τ) :
    Sat (fun t' => F t' + f (m.get t) ≤ F t) (readNull m t) := by
  unfold readNull
  refine Sat.bind (P := fun r => f r.1 = 0) (fun r hr => he.null _ r hr) fun d hd => .ok ?_
  have := hp d.1 t
  omega

theorem deMemberIf_fits {τ : Type} {F : τ → Nat} {k A B : Nat} {a b : MRef τ} {f : a.α → Nat} {g : b.α → Nat} (ha : RefFits F k a f A)
    (hb : RefFits F k b g B) (ea : Emptied a f) (eb : Emptied b g) (t : τ) (s : Bytes) (e : EPtr) :
    Sat (fun r => Pays k (F t) s r.2.1 (F r.1)) (deMemberIf a b t s e false) := by
  unfold deMemberIf
  -- what the first attempt leaves in the structure
  have h1 : Sat (fun r => (Pays k (F t) s r.2.1 (F r.1) ∧ (r.2.2.2 = true → s ≠ [])) ∧ F r.1 ≤ F t + f (a.get r.1)) (deMember a t s .fresh false) := by
    intro r hr
    refine ⟨deMember_sat ha (x := a.get t) (by omega) s .fresh false (by simp) r hr, ?_⟩
    unfold deMember at hr
    simp only at hr
    split at hr
    · cases hr; simp only; omega
    · rw [Out.bind_eq_ok] at hr
      obtain ⟨d, _, hd⟩ := hr
      cases hd
      have := ha.part d.1 t
      simp only [ea.stored]
      omega
  refine h1.bind fun d hd => ?_
  split
  · refine (readNull_sat hb.part eb d.1).bind fun t' ht' => .ok ?_
    exact hd.1.1.mono (Nat.le_refl _) (by simp only; omega)
  · refine (readNull_sat ha.part ea d.1).bind fun t' ht' => ?_
    refine (deMember_sat hb (x := b.get t') (by omega) s e d.2.2.2 hd.1.2).mono fun r hr => ?_
    have := hd.2
    exact hr.1.mono (Nat.le_refl _) (by omega)

theorem slot_fits {τ : Type} {x : Slot τ} {F : τ → Nat} {f : ∀ m : MRef τ, m.α → Nat} {A : MRef τ → Nat} {k : Nat}
    (h : ∀ m ∈ x.refs, RefFits F k m (f m) (A m)) (he : x.isAlt → ∀ m ∈ x.refs, Emptied m (f m)) : MFits F k x.toMember := by
  intro t s e
  cases x with
  | one en =>
    have h1 := h en.ref (by simp [Slot.refs])
    cases en with
    | mem m => exact (deMember_sat h1 (x := m.get t) (by simp only [Entry.ref]; omega) s e false (by simp)).mono fun _ h => h.1
    | prop m => exact (deMember_sat h1 (x := m.ser.dflt) (by simp only [Entry.ref]; omega) s e false (by simp)).mono fun _ h => h.1
  | alt l r d RU =>
    have hl := h l (by simp [Slot.refs])
    have hr := h r (by simp [Slot.refs])
    have el := he trivial l (by simp [Slot.refs])
    have er := he trivial r (by simp [Slot.refs])
    cases RU with
    | true => exact deMemberIf_fits hr hl er el t s e
    | false => exact deMemberIf_fits hl hr el er t s e

section
variable {τ : Type} {F : τ → Nat} {k : Nat} {L : List (Member τ)}

theorem searchMembers_fits (c : Cfg) (strict : Bool) (L : List (Member τ)) (h : ∀ m ∈ L, MFits F k m) : ∀ (t : τ) (s : Bytes) (e : EPtr),
    Sat (fun r => Pays k (F t) s r.2.1 (F r.1)) (searchMembers c strict L t s e) := by
  induction L with
  | nil =>
    intro t s e
    unfold searchMembers
    split
    · refine (parseMemberW_cost c s e).sat.bind fun r ⟨_, hr⟩ => .ok ?_
      exact .zero _ (Nat.le_trans (parseSpace_length _ _) hr.1) (Nat.le_refl _)
    · cases s with
      | nil => exact .ok (.zero _ (by simp) (Nat.le_refl _))
      | cons b p =>
        simp only
        split
        · exact .ok (.zero _ (by simp) (Nat.le_refl _))
        · exact .ok (.zero _ (by simp) (Nat.le_refl _))
  | cons m L ih =>
    intro t s e
    unfold searchMembers
    refine (h m (by simp) t s e).bind fun d hd => ?_
    split
    · exact .ok hd
    · exact (ih (fun m' hm' => h m' (by simp [hm'])) _ _ _).mono fun r hr => hd.trans hr (by omega)

theorem skipMembers_sat (c : Cfg) (strict : Bool) (s : Bytes) (e : EPtr) : Sat (fun r => r.1.length ≤ s.length) (skipMembers c strict s e) :=
  (skipMembersW_cost c strict s e).sat.mono fun _ ⟨_, h⟩ => h.1

theorem membersEnd_sat {m : Nat} {t : τ} {s0 s : Bytes} {e : EPtr} (h : Pays k m s0 s (F t)) :
    Sat (fun r => Pays k m s0 r.2.1 (F r.1)) (membersEnd t s e) := by
  cases s with
  | nil => exact .ok h
  | cons b p =>
    simp only [membersEnd]
    split
    · exact .ok h.nil
    · exact .ok h

theorem objectEnd_sat {m : Nat} {t : τ} {s0 s : Bytes} {e : EPtr} (h : Pays k m s0 s (F t)) :
    Sat (fun r => Pays k m s0 r.2.1 (F r.1)) (objectEnd t s e) := by
  cases s with
  | nil => exact .ok h
  | cons b p =>
    simp only [objectEnd]
    split
    · exact .ok h.nil
    · exact .ok (h.drop (by simp))

theorem members_fits (c : Cfg) (strict : Bool) (h : ∀ m ∈ L, MFits F k m) (n : Nat) :
    ∀ (l : List (Member τ)) (t : τ) (s : Bytes) (e : EPtr), (∀ m ∈ l, m ∈ L) →
      Sat (fun r => Pays k (F t) s r.2.1 (F r.1)) (membersF c strict L n l t s e) := by
  induction n with
  | zero => intro l t s e _; exact .fuel
  | succ n ih =>
    intro l t s e hl
    cases l with
    | nil =>
      simp only [membersF]
      exact (skipMembers_sat c strict s e).bind fun r hr => .ok (.zero _ hr (Nat.le_refl _))
    | cons m l =>
      simp only [membersF]
      refine (h m (hl m (by simp)) t s e).bind fun d p1 => ?_
      have hs : Sat (fun r => Pays k (F t) s r.2.1 (F r.1))
          (if d.2.2.2 then .ok (d.1, d.2.1, d.2.2.1) else searchMembers c strict L d.1 d.2.1 d.2.2.1) := by
        split
        · exact .ok p1
        · exact (searchMembers_fits c strict L h _ _ _).mono fun r hr => p1.trans hr (by omega)
      refine hs.bind fun x p2 => ?_
      obtain ⟨t1, x, e1⟩ := x
      have q := p2.sp e1
      simp only at q ⊢
      generalize parseSpace x e1 = r at q ⊢
      obtain ⟨r, e2⟩ := r
      cases r with
      | nil => exact .ok q
      | cons b p =>
        simp only
        split
        · have q2 := (q.drop (q := p) (by simp)).sp e2
          refine (ih _ t1 _ _ ?_).bind fun z p5 => membersEnd_sat (q2.trans p5 (by omega))
          intro z hz
          split at hz
          · exact hl z (by simp [hz])
          · exact hl z hz
        · exact membersEnd_sat q

theorem objectBody_fits (c : Cfg) (strict : Bool) (h : ∀ m ∈ L, MFits F k m) (t : τ) (s : Bytes) (e : EPtr) :
    Sat (fun r => Pays k (F t) s r.2.1 (F r.1)) (objectBody c strict L t s e) := by
  unfold objectBody
  have p1 : Pays k (F t) s (parseSpace s e).1 (F t) := .zero _ (parseSpace_length s e) (Nat.le_refl _)
  generalize parseSpace s e = r at p1 ⊢
  obtain ⟨r, e1⟩ := r
  cases r with
  | nil => exact .ok p1
  | cons b q =>
    simp only
    split
    · refine (members_fits c strict h _ L t _ _ fun _ h => h).bind fun x p2 => ?_
      obtain ⟨t1, x, e2⟩ := x
      have p3 : Pays k (F t) s x (F t1) := p1.trans p2 (by simp only; omega)
      cases x with
      | nil => exact .ok p3
      | cons b q =>
        simp only
        have p5 := p3.sp e2
        generalize parseSpace (b :: q) e2 = r at p5 ⊢
        obtain ⟨r, e3⟩ := r
        cases r with
        | nil => exact .ok p5
        | cons b q => exact objectEnd_sat p5
    · exact objectEnd_sat p1

theorem deObject_fits (c : Cfg) (strict : Bool) (dflt : τ) (h : ∀ m ∈ L, MFits F k m) : FitsIn F (F dflt) k (deObject c strict dflt L) := by
  intro t s e
  unfold deObject
  split
  · exact .ok ⟨.zero _ (parseNull_length s e) (by simp only; omega), .zero _ (by simp only; omega)⟩
  · next hn =>
    refine Sat.notNull ?_ hn
    cases s with
    | nil => exact .ok (.zero _ (by simp) (by simp only; omega))
    | cons b p =>
      simp only
      split
      · split
        · have h1 := parseSpace_length p e
          generalize parseSpace p e = r at h1 ⊢
          obtain ⟨r, e1⟩ := r
          refine Sat.bind (P := fun _ => True) (fun _ _ => trivial) fun x _ => ?_
          split
          · exact .ok (.zero _ (by simp) (by simp only; omega))
          · cases r with
            | nil => exact .ub
            | cons d q => exact .ok (.zero _ (by simp only [List.length_cons] at *; omega) (by simp only; omega))
        · exact .ok (.zero _ (by simp) (by simp only; omega))
      · exact (objectBody_fits c strict h t p e).mono fun r hr => (hr.before (s := b :: p) (by simp)).mono (Nat.le_refl _) (by omega)

end

/-! ### Array structures -/

theorem amember_sat {τ : Type} {F : τ → Nat} {k A : Nat} {m : MRef τ} {f : m.α → Nat} (h : RefFits F k m f A) {x : m.α} {t : τ}
    (hx : f x ≤ f (m.get t) + f m.ser.dflt) (s : Bytes) (e : EPtr) :
    Sat (fun r => Pays k (F t + k) s r.2.1 (F r.1)) (m.ser.de x s e >>= fun d => .ok (m.set d.1 t, d.2)) := by
  refine (h.fits x s e).bind fun d hd => .ok ?_
  have := h.part d.1 t
  have := h.le
  exact hd.mono (Nat.le_refl _) (by simp only; omega)

theorem deAMemberIf_fits {τ : Type} {F : τ → Nat} {k A B : Nat} {a b : MRef τ} {f : a.α → Nat} {g : b.α → Nat} (ha : RefFits F k a f A)
    (hb : RefFits F k b g B) (ea : Emptied a f) (eb : Emptied b g) : Fits0 F k k (deAMemberIf a b) := by
  intro t s e
  unfold deAMemberIf
  have h1 : Sat (fun r => Pays k (F t + k) s r.2.1 (F r.1) ∧ F r.1 ≤ F t + f (a.get r.1)) ((amember a).de t s .fresh) := by
    intro r hr
    refine ⟨amember_sat ha (x := a.get t) (by omega) s .fresh r hr, ?_⟩
    simp only [amember] at hr
    rw [Out.bind_eq_ok] at hr
    obtain ⟨d, _, hd⟩ := hr
    cases hd
    have := ha.part d.1 t
    simp only [ea.stored]
    omega
  refine h1.bind fun d hd => ?_
  split
  · refine (readNull_sat hb.part eb d.1).bind fun t' ht' => .ok ?_
    exact hd.1.mono (Nat.le_refl _) (by simp only; omega)
  · refine (readNull_sat ha.part ea d.1).bind fun t' ht' => ?_
    refine (amember_sat hb (x := b.get t') (by omega) s e).mono fun r hr => ?_
    have := hd.2
    exact hr.mono (Nat.le_refl _) (by omega)

theorem aslot_fits {τ : Type} {x : Slot τ} {F : τ → Nat} {f : ∀ m : MRef τ, m.α → Nat} {A : MRef τ → Nat} {k : Nat}
    (h : ∀ m ∈ x.refs, RefFits F k m (f m) (A m)) (he : x.isAlt → ∀ m ∈ x.refs, Emptied m (f m)) : Fits0 F k k x.toAMember.de := by
  cases x with
  | one en =>
    have h1 := h en.ref (by simp [Slot.refs])
    intro t s e
    cases en with
    | mem m => exact amember_sat h1 (x := m.get t) (by simp only [Entry.ref]; omega) s e
    | prop m => exact amember_sat h1 (x := m.ser.dflt) (by simp only [Entry.ref]; omega) s e
  | alt l r d RU =>
    have hl := h l (by simp [Slot.refs])
    have hr := h r (by simp [Slot.refs])
    have el := he trivial l (by simp [Slot.refs])
    have er := he trivial r (by simp [Slot.refs])
    cases RU with
    | true => exact deAMemberIf_fits hr hl er el
    | false => exact deAMemberIf_fits hl hr el er

section
variable {τ : Type} {F : τ → Nat} {k : Nat}

theorem amembersEnd_sat {m : Nat} {t : τ} {s0 s : Bytes} {e : EPtr} (h : Pays k m s0 s (F t)) :
    Sat (fun r => Pays k m s0 r.2.1 (F r.1)) (amembersEnd t s e) := by
  cases s with
  | nil => exact .ok h
  | cons b p =>
    simp only [amembersEnd]
    split
    · exact .ok h.nil
    · exact .ok h

theorem objectArrayEnd_sat {m : Nat} {t : τ} {s0 s : Bytes} {e : EPtr} (h : Pays k m s0 s (F t)) :
    Sat (fun r => Pays k m s0 r.2.1 (F r.1)) (objectArrayEnd t s e) := by
  cases s with
  | nil => exact .ok h
  | cons b p =>
    simp only [objectArrayEnd]
    split
    · exact .ok h.nil
    · exact .ok (h.drop (by simp))

theorem deAMembers_fits (L : List (AMember τ)) (h : ∀ m ∈ L, Fits0 F k k m.de) : ∀ (t : τ) (s : Bytes) (e : EPtr),
    Sat (fun r => Pays k (F t + k) s r.2.1 (F r.1)) (deAMembers L t s e) := by
  induction L with
  | nil => intro t s e; exact .ok (.zero _ (Nat.le_refl _) (by simp only; omega))
  | cons m L ih =>
    intro t s e
    unfold deAMembers
    refine (h m (by simp) t s e).bind fun d p1 => ?_
    obtain ⟨t1, d, e1⟩ := d
    have q := p1.sp e1
    simp only at q ⊢
    generalize parseSpace d e1 = r at q ⊢
    obtain ⟨r, e2⟩ := r
    cases r with
    | nil => exact .ok q
    | cons b p =>
      simp only
      split
      · have q1 : Pays k (F t) s p (F t1) := by
          have := q.1
          have := q.2
          simp only [List.length_cons, Nat.mul_add] at *
          exact ⟨by omega, by omega⟩
        refine (ih (fun y hy => h y (by simp [hy])) t1 _ _).bind fun z p5 => amembersEnd_sat ?_
        exact (q1.sp e2).trans p5 (by omega)
      · exact amembersEnd_sat q

theorem deObjectArray_fits (dflt : τ) (L : List (AMember τ)) (h : ∀ m ∈ L, Fits0 F k k m.de) :
    FitsIn F (F dflt) k (deObjectArray dflt L) := by
  intro t s e
  unfold deObjectArray
  split
  · exact .ok ⟨.zero _ (parseNull_length s e) (by simp only; omega), .zero _ (by simp only; omega)⟩
  · next hn =>
    refine Sat.notNull ?_ hn
    cases s with
    | nil => exact .ok (.zero _ (by simp) (by simp only; omega))
    | cons b p =>
      simp only
      split
      · exact .ok (.zero _ (by simp) (by simp only; omega))
      · refine Sat.mono (P := fun r => Pays k (F t + k) p r.2.1 (F r.1)) ?_ fun r hr => ?_
        · unfold objectArrayBody
          have p1 : Pays k (F t) p (parseSpace p e).1 (F t) := .zero _ (parseSpace_length p e) (Nat.le_refl _)
          generalize parseSpace p e = r at p1 ⊢
          obtain ⟨r, e1⟩ := r
          cases r with
          | nil => exact .ok (p1.mono (Nat.le_refl _) (by simp only; omega))
          | cons b q =>
            simp only
            split
            · refine (deAMembers_fits L h t _ _).bind fun x p2 => ?_
              obtain ⟨t1, x, e2⟩ := x
              have p3 : Pays k (F t + k) p x (F t1) := p1.trans p2 (by simp only; omega)
              cases x with
              | nil => exact .ok p3
              | cons b q =>
                simp only
                have p5 := p3.sp e2
                generalize parseSpace (b :: q) e2 = r at p5 ⊢
                obtain ⟨r, e3⟩ := r
                cases r with
                | nil => exact .ok p5
                | cons b q => exact objectArrayEnd_sat p5
            · exact objectArrayEnd_sat (p1.mono (Nat.le_refl _) (by omega))
        · have := hr.1
          have := hr.2
          exact ⟨by simp only [List.length_cons]; omega, by simp only [List.length_cons, Nat.mul_add]; omega⟩

end

/-! ### Whole descriptions -/

theorem Spec.Sized.fits {c : Cfg} {α : Type} {S : Ser α} {f : α → Nat} {A k : Nat} (h : Sized c S f A k) : FitsIn f A k S.de := by
  induction h with
  | int ty => exact (deIntW_lin c ty).fits
  | bool => exact deBoolW_lin.fits
  | float F R => exact (deFloatW_lin F R).fits
  | chars N => exact (deCharArrayW_lin N).fits
  | enum strict dflt L => exact (deEnumW_lin c strict dflt L).fits
  | flags G => exact (deFlagsW_lin c G).fits
  | time ty fr => exact (deTimeW_lin c ty fr).fits
  | size ty metric => exact (deSizeW_lin c ty metric).fits
  | str => exact deStr_fits
  | raw => exact deRaw_fits c
  | rawQuoted serQ reqQ => exact deRawQuoted_fits c reqQ
  | quoted serQ reqQ _ ih => exact deQuoted_fits ih reqQ
  | pointer _ ih => exact dePointer_fits ih
  | memberValue dflt _ hp ih => exact memberValue_fits dflt ih hp
  | array hK _ hk ih => exact deSeq_fits hK ih.fits0 hk _ _
  | dict hK _ _ hk ihK ihV =>
    exact deSeq_fits hK (S := fieldSer _ _) (deField_fits ihK.fits0 ihV.fits0) (by simp only [fieldSer]; omega) _ _
  | fixed kind N _ h1 h2 h3 ih => exact deFixVec_fits kind ih h1 h2 h3
  | object strict dflt f A _ hp hk he ih =>
    refine deObject_fits c strict dflt fun m hm => ?_
    obtain ⟨x, hx, rfl⟩ := List.mem_map.mp hm
    exact slot_fits (fun m hm => ⟨(ih x hx m hm).fits0, hp x hx m hm, hk x hx m hm⟩) (he x hx)
  | objectArray dflt f A _ hp hk he ih =>
    refine deObjectArray_fits dflt _ fun m hm => ?_
    obtain ⟨x, hx, rfl⟩ := List.mem_map.mp hm
    exact aslot_fits (fun m hm => ⟨(ih x hx m hm).fits0, hp x hx m hm, hk x hx m hm⟩) (he x hx)
  | mono _ hA hk ih => exact ih.mono hA hk

/-! ### The containers -/

theorem BagColl.addsOne {α C : Type} {K : Coll α C} (h : BagColl K) : AddsOne K :=
  ⟨h.clear, fun c x hc => ⟨_, h.insert c x hc, .refl _⟩⟩

theorem UniqueColl.addsOne {α C κ : Type} {key : α → κ} {K : Coll α C} (h : UniqueColl key K) : AddsOne K := by
  refine ⟨h.clear, fun c x hc => ?_⟩
  by_cases hx : ∃ y ∈ K.elems c, key y = key x
  · obtain ⟨y, hy, hk⟩ := hx
    exact ⟨_, h.insert_old c x y hc hy hk, .cons _ (.refl _)⟩
  · exact ⟨_, h.insert_new c x hc fun y hy hk => hx ⟨y, hy, hk⟩, .refl _⟩

theorem setInsert_adds {α : Type} (lt : α → α → Bool) (c : List α) (x : α) :
    ∃ l, (setInsert lt c x).Perm l ∧ l.Sublist (x :: c) := by
  induction c with
  | nil => exact ⟨_, .refl _, .refl _⟩
  | cons y c ih =>
    unfold setInsert
    split
    · exact ⟨_, .refl _, .refl _⟩
    · split
      · obtain ⟨l, h1, h2⟩ := ih
        cases h2 with
        | cons _ h2 => exact ⟨y :: l, h1.cons y, .cons _ (.cons_cons _ h2)⟩
        | cons_cons _ h2 => exact ⟨_, (h1.cons y).trans (.swap x y _), .cons_cons _ (.cons_cons _ h2)⟩
      · exact ⟨_, .refl _, .cons _ (.refl _)⟩

end Wjson
