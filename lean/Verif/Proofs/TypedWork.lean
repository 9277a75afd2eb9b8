import Verif.Model.TypedWork
import Verif.Proofs.Work
import Verif.Proofs.ScanRec
import Verif.Proofs.Sink
/-
Lemmas for C78: the counted readers give the same results, and the count is
bounded by the number of bytes consumed. Scalars, strings and quoted values.
-/
namespace Wjson

/-- The counted outcome is the outcome with a count that `P` allows. -/
inductive Cost {ρ : Type} (P : ρ → Nat → Prop) : Out (ρ × Nat) → Out ρ → Prop
  | ok {r k} : P r k → Cost P (.ok (r, k)) (.ok r)
  | ub : Cost P .ub .ub
  | fuel : Cost P .fuel .fuel

theorem Cost.bind {ρ σ : Type} {P : ρ → Nat → Prop} {Q : σ → Nat → Prop} {w : Out (ρ × Nat)} {o : Out ρ} (h : Cost P w o)
    {f : ρ × Nat → Out (σ × Nat)} {g : ρ → Out σ} (hf : ∀ r k, P r k → Cost Q (f (r, k)) (g r)) : Cost Q (w >>= f) (o >>= g) := by
  cases h with
  | ok hb => exact hf _ _ hb
  | ub => exact .ub
  | fuel => exact .fuel

theorem Cost.count {ρ : Type} {P Q : ρ → Nat → Prop} {w : Out (ρ × Nat)} {o : Out ρ} (h : Cost P w o)
    {f : Nat → Nat} (hf : ∀ r k, P r k → Q r (f k)) : Cost Q (w >>= fun r => .ok (r.1, f r.2)) o := by
  cases h with
  | ok hb => exact .ok (hf _ _ hb)
  | ub => exact .ub
  | fuel => exact .fuel

/-- A step that is not counted. -/
theorem Cost.same {ρ σ : Type} {Q : σ → Nat → Prop} {o : Out ρ} {f : ρ → Out (σ × Nat)} {g : ρ → Out σ}
    (hf : ∀ r, o = .ok r → Cost Q (f r) (g r)) : Cost Q (o >>= f) (o >>= g) := by
  cases o with
  | ok r => exact hf r rfl
  | ub => exact .ub
  | fuel => exact .fuel

/-- A last step that is not counted. -/
theorem Cost.free {ρ : Type} {Q : ρ → Nat → Prop} {o : Out ρ} {k : Nat} (hf : ∀ r, o = .ok r → Q r k) :
    Cost Q (o >>= fun r => .ok (r, k)) o := by
  cases o with
  | ok r => exact .ok (hf r rfl)
  | ub => exact .ub
  | fuel => exact .fuel

theorem Cost.mono {ρ : Type} {P Q : ρ → Nat → Prop} {w : Out (ρ × Nat)} {o : Out ρ} (h : Cost P w o)
    (hf : ∀ r k, P r k → Q r k) : Cost Q w o := by
  cases h with
  | ok hb => exact .ok (hf _ _ hb)
  | ub => exact .ub
  | fuel => exact .fuel

/-- The count is at most `A` for every byte consumed and `B` more. -/
def Pays (A B : Nat) (s p : Bytes) (k : Nat) : Prop := p.length ≤ s.length ∧ k + A * p.length ≤ A * s.length + B

theorem Pays.mono {A A' B B' : Nat} {s p : Bytes} {k k' : Nat} (h : Pays A B s p k) (hA : A ≤ A') (hB : B + k' ≤ B' + k) :
    Pays A' B' s p k' := by
  obtain ⟨d, rfl⟩ := Nat.exists_eq_add_of_le hA
  have := Nat.mul_le_mul_left d h.1
  refine ⟨h.1, ?_⟩
  have := h.2
  simp only [Nat.add_mul]
  omega

theorem Pays.trans {A B B' B'' : Nat} {s p q : Bytes} {k k' k'' : Nat} (h : Pays A B s p k) (h' : Pays A B' p q k')
    (hB : k'' + B + B' ≤ B'' + k + k') : Pays A B'' s q k'' :=
  ⟨Nat.le_trans h'.1 h.1, by have := h.2; have := h'.2; omega⟩

/-- A byte that is consumed pays for what is left. -/
theorem Pays.comma {A B A' B' : Nat} {s q : Bytes} {b : Byte} {k k' : Nat} (h : Pays A B s (b :: q) k) (hA : A + B ≤ A')
    (hB : k' ≤ B' + k) : Pays A' B' s q k' := by
  obtain ⟨d, rfl⟩ := Nat.exists_eq_add_of_le hA
  have h1 := h.1
  have h2 := h.2
  simp only [List.length_cons] at h1 h2
  have h3 := Nat.mul_le_mul_left B h1
  have h4 : d * q.length ≤ d * s.length := Nat.mul_le_mul_left d (by omega)
  refine ⟨by omega, ?_⟩
  simp only [Nat.add_mul, Nat.mul_add, Nat.mul_one] at *
  omega

theorem Pays.nil {A B : Nat} {s p : Bytes} {k : Nat} (h : Pays A B s p k) : Pays A B s [] k :=
  ⟨by simp, by have := h.2; simp only [List.length_nil, Nat.mul_zero]; omega⟩

theorem Pays.drop {A B : Nat} {s p q : Bytes} {k : Nat} (h : Pays A B s p k) (hq : q.length ≤ p.length) : Pays A B s q k :=
  ⟨Nat.le_trans hq h.1, by have := h.2; have := Nat.mul_le_mul_left A hq; omega⟩

theorem Pays.zero (A : Nat) {B : Nat} {s p : Bytes} {k : Nat} (hp : p.length ≤ s.length) (h : k ≤ B) : Pays A B s p k :=
  ⟨hp, by have := Nat.mul_le_mul_left A hp; omega⟩

/-- Some bytes are consumed without work. -/
theorem Pays.before {A B : Nat} {s r p : Bytes} {k : Nat} (h : Pays A B r p k) (hr : r.length ≤ s.length) : Pays A B s p k :=
  ⟨Nat.le_trans h.1 hr, by have := h.2; have := Nat.mul_le_mul_left A hr; omega⟩

/-- The count on a text that begins like `null`. -/
def NullPays (A B : Nat) (s : Bytes) (k : Nat) : Prop :=
  isNull s = true → k + A * (parseNull s .null).1.length ≤ A * s.length + B

theorem parseNull_bytes (s : Bytes) (e e' : EPtr) : (parseNull s e).1 = (parseNull s e').1 := by
  obtain ⟨p, x, h1, _⟩ := parseNull_scan s
  exact (congrArg Prod.fst (h1 e)).trans (congrArg Prod.fst (h1 e')).symm

theorem parseNull_length (s : Bytes) (e : EPtr) : (parseNull s e).1.length ≤ s.length := by
  cases s with
  | nil => simp [parseNull]
  | cons b t => exact Nat.le_of_lt (parseNull_length_lt (by simp) e)

/-- A reader and its count: the bounds. -/
def LinPost {α : Type} (A B : Nat) (s : Bytes) (r : α × Bytes × EPtr) (k : Nat) : Prop :=
  Pays A B s r.2.1 k ∧ NullPays A B s k

/-- The counted reader `W` gives the results of `D` in linear time. -/
def Lin {α : Type} (A B : Nat) (W : DeW α) (D : De α) : Prop := ∀ v s e, Cost (LinPost A B s) (W v s e) (D v s e)

theorem NullPays.mono {A A' B B' : Nat} {s : Bytes} {k k' : Nat} (h : NullPays A B s k) (hA : A ≤ A') (hB : B + k' ≤ B' + k) :
    NullPays A' B' s k' := fun hn =>
  (Pays.mono (p := (parseNull s .null).1) ⟨parseNull_length s .null, h hn⟩ hA hB).2

theorem NullPays.of_ne {A B : Nat} {s : Bytes} {k : Nat} (h : isNull s = false) : NullPays A B s k := fun hn => by
  rw [h] at hn
  cases hn

theorem NullPays.zero (A : Nat) {B : Nat} {s : Bytes} {k : Nat} (h : k ≤ B) : NullPays A B s k := fun _ =>
  (Pays.zero A (parseNull_length s .null) h).2

theorem LinPost.mono {α : Type} {A A' B B' : Nat} {s : Bytes} {r : α × Bytes × EPtr} {k k' : Nat} (h : LinPost A B s r k)
    (hA : A ≤ A') (hB : B + k' ≤ B' + k) : LinPost A' B' s r k' := ⟨h.1.mono hA hB, h.2.mono hA hB⟩

theorem Lin.mono {α : Type} {A A' B B' : Nat} {W : DeW α} {D : De α} (h : Lin A B W D) (hA : A ≤ A') (hB : B ≤ B') :
    Lin A' B' W D := fun v s e => (h v s e).mono fun _ _ h => h.mono hA (by omega)

theorem parseSpaceW_pays (s : Bytes) (e : EPtr) : ∃ k, parseSpaceW s e = (parseSpace s e, k) ∧ Pays 1 2 s (parseSpace s e).1 k := by
  obtain ⟨k, h1, h2⟩ := parseSpaceW_eq s e
  exact ⟨k, h1, parseSpace_length s e, by omega⟩

theorem parseNullW_post {α : Type} (v : α) (s : Bytes) (e : EPtr) :
    ∃ k, parseNullW s e = (parseNull s e, k) ∧ LinPost 1 1 s (v, (parseNull s e).1, (parseNull s e).2) k := by
  obtain ⟨k, h1, h2⟩ := parseNullW_eq s e
  refine ⟨k, h1, ⟨parseNull_length s e, by simp only; omega⟩, fun _ => ?_⟩
  rw [parseNull_bytes s .null e]
  omega

/-! ### Integers, Booleans, floating point -/

theorem accIntW_cost (c : Cfg) (ty : IntTy) (v : Int) (s : Bytes) :
    Cost (fun r k => Pays 1 1 s r.2 k) (accIntW c ty v s) (accInt c ty v s) := by
  induction s generalizing v with
  | nil => exact .ok (.zero 1 (by simp) (by omega))
  | cons b t ih =>
    simp only [accIntW, accInt]
    split
    · refine .same fun _ _ => .same fun w _ => ?_
      exact (ih w).count fun r k h => ⟨Nat.le_succ_of_le h.1, by have := h.2; simp only [List.length_cons]; omega⟩
    · exact .ok (.zero 1 (by simp) (by omega))

theorem unserializeIntegerW_cost (c : Cfg) (ty : IntTy) (v : Int) (s : Bytes) (e : EPtr) :
    Cost (fun r k => Pays 1 2 s r.2.1 k) (unserializeIntegerW c ty v s e) (unserializeInteger c ty v s e) := by
  unfold unserializeIntegerW unserializeInteger
  cases s with
  | nil => exact .ok (.zero 1 (by simp) (by omega))
  | cons b t =>
    simp only
    have hl : (if b = c%'-' then t else b :: t).length ≤ (b :: t).length := by split <;> simp
    generalize (if b = c%'-' then t else b :: t) = s at hl ⊢
    cases s with
    | nil => exact .ok (.zero 1 (by simp) (by omega))
    | cons d u =>
      simp only
      split
      · exact .ok (.zero 1 (by simp) (by omega))
      · split
        · exact .ok (.zero 1 (by simp only [List.length_cons] at hl ⊢; omega) (by omega))
        · refine (accIntW_cost c ty 0 (d :: u)).bind fun r k h => .same fun w _ => .ok ?_
          exact (h.before hl).mono (Nat.le_refl _) (by omega)

theorem deIntW_lin (c : Cfg) (ty : IntTy) : Lin 1 4 (deIntW c ty) (deInt c ty) := by
  intro v s e
  simp only [deIntW, deInt]
  split
  · obtain ⟨k, h, hp⟩ := parseNullW_post (0 : Int) s e
    rw [h]
    exact .ok (hp.mono (Nat.le_refl _) (by omega))
  · next hn =>
    refine (unserializeIntegerW_cost c ty v s e).count (f := (· + 2)) fun r k h => ?_
    exact ⟨h.mono (Nat.le_refl _) (by omega), .of_ne (by simpa using hn)⟩

theorem parseBool_length (s : Bytes) (e : EPtr) : (parseBool s e).1.length ≤ s.length := by
  obtain ⟨p, x, h1, h2⟩ := parseBool_scan s
  rw [show parseBool s e = _ from h1 e]
  exact h2.suffix.length_le

theorem deBoolW_lin : Lin 1 3 deBoolW deBool := by
  intro v s e
  unfold deBoolW deBool
  cases s with
  | nil => exact .ok ⟨.zero 1 (by simp) (by omega), .of_ne rfl⟩
  | cons b t =>
    simp only
    split
    · obtain ⟨k, h, hp⟩ := parseNullW_post false (b :: t) e
      rw [h]
      exact .ok (hp.mono (Nat.le_refl _) (by omega))
    · next hn =>
      have hn : isNull (b :: t) = false := by simpa using hn
      obtain ⟨k, h, hp⟩ := parseBoolW_eq (b :: t) e
      rw [h]
      split
      · exact .ok ⟨⟨parseBool_length _ e, by simp only; omega⟩, .of_ne hn⟩
      · split
        · exact .ok ⟨⟨parseBool_length _ e, by simp only; omega⟩, .of_ne hn⟩
        · exact .ok ⟨.zero 1 (by simp) (by omega), .of_ne hn⟩

theorem parseNumber_length (s : Bytes) (e : EPtr) : (parseNumber s e).1.length ≤ s.length := by
  obtain ⟨p, x, h1, h2⟩ := parseNumber_scan s
  rw [show parseNumber s e = _ from h1 e]
  exact h2.suffix.length_le

theorem deFloatW_lin {α : Type} (F : FloatTy α) (R : Int) : Lin 1 (floatBuf R + 11) (deFloatW F R) (deFloat F R) := by
  intro v s e
  unfold deFloatW deFloat
  cases s with
  | nil => exact .ok ⟨.zero 1 (by simp) (by omega), .of_ne rfl⟩
  | cons b t =>
    simp only
    split
    · obtain ⟨k, h, hp⟩ := parseNullW_post F.dflt (b :: t) e
      rw [h]
      exact .ok (hp.mono (Nat.le_refl _) (by omega))
    · next hn =>
      have hn : isNull (b :: t) = false := by simpa using hn
      split
      · exact .ok ⟨.zero 1 (by simp) (by omega), .of_ne hn⟩
      · obtain ⟨k, h, hp⟩ := parseNumberW_eq (b :: t) e
        rw [h]
        have : ((b :: t).take (floatBuf R)).length ≤ floatBuf R := by rw [List.length_take]; omega
        exact .ok ⟨⟨parseNumber_length _ e, by simp only; omega⟩, .of_ne hn⟩

/-! ### Strings -/

theorem hexNC_le (k : Nat) (s : Bytes) : hexNC k s ≤ 2 * k + 1 := by
  induction k generalizing s with
  | zero => simp [hexNC]
  | succ k ih =>
    cases s with
    | nil => simp [hexNC]
    | cons b t => have := ih t; simp only [hexNC]; omega

theorem utf8CopyC_le (i : Nat) (s : Bytes) (n : Nat) : utf8CopyC i s n ≤ 2 * i + 1 := by
  induction i generalizing s n with
  | zero => simp [utf8CopyC]
  | succ i ih =>
    cases n with
    | zero => simp [utf8CopyC]
    | succ n =>
      cases s with
      | nil => simp [utf8CopyC]
      | cons b t => have := ih t n; simp only [utf8CopyC]; omega

theorem utf8Copy_written (i : Nat) (s : Bytes) (n : Nat) (e : EPtr) : (utf8Copy i s n e).1.length ≤ i := by
  induction i generalizing s n with
  | zero => simp [utf8Copy]
  | succ i ih =>
    cases n with
    | zero => simp [utf8Copy]
    | succ n =>
      cases s with
      | nil => simp [utf8Copy]
      | cons b t => have := ih t n; simp only [utf8Copy, List.length_cons]; omega

theorem uhexStep_written (s : Bytes) (n : Nat) (e : EPtr) : (uhexStep s n e).1.length ≤ 6 := by
  unfold uhexStep
  split
  · simp
  · split
    · simp
    · repeat' split
      all_goals simp
      all_goals omega

theorem xhexStep_written (s : Bytes) (n : Nat) (e : EPtr) : (xhexStep s n e).1.length ≤ 1 := by
  unfold xhexStep
  split <;> simp

theorem strStep_written (b : Byte) (t : Bytes) (n : Nat) (e : EPtr) : (strStep b t n e).1.length ≤ 6 := by
  unfold strStep
  split
  · split
    · simp
    · next x t' =>
      split
      · simp
      · split
        · exact uhexStep_written t' n e
        · split
          · exact Nat.le_trans (xhexStep_written t' n e) (by omega)
          · simp
  · unfold utf8Step
    repeat' split
    · simp
    · exact Nat.le_trans (utf8Copy_written _ _ _ _) (by omega)
    · exact Nat.le_trans (utf8Copy_written _ _ _ _) (by omega)
    · exact Nat.le_trans (utf8Copy_written _ _ _ _) (by omega)
    · simp

theorem strStepC_le (b : Byte) (t : Bytes) (n : Nat) (e : EPtr) : strStepC b t n e ≤ 17 := by
  unfold strStepC
  split
  · split
    · omega
    · next x t' =>
      split
      · omega
      · split
        · have := hexNC_le 4 t'
          have := uhexStep_written t' n e
          omega
        · split
          · have := hexNC_le 2 t'
            have := xhexStep_written t' n e
            omega
          · omega
  · repeat' split
    · omega
    · have := utf8CopyC_le 2 (b :: t) n; omega
    · have := utf8CopyC_le 3 (b :: t) n; omega
    · have := utf8CopyC_le 4 (b :: t) n; omega
    · omega

theorem strDecW_eq (m : Nat) : ∀ (s : Bytes) (n : Nat) (e : EPtr), s.length < m →
    (strDecW s n e).1 = strDec s n e ∧ Pays 18 1 s (strDec s n e).2.1 (strDecW s n e).2 ∧
      Pays 6 0 s (strDec s n e).2.1 (strDec s n e).1.length := by
  induction m with
  | zero => intro s n e h; omega
  | succ m ih =>
    intro s n e h
    unfold strDecW strDec
    cases s with
    | nil => exact ⟨rfl, .zero _ (by simp) (by simp), .zero _ (by simp) (by simp)⟩
    | cons b t =>
      simp only
      split
      · exact ⟨rfl, .zero _ (by simp) (by simp), .zero _ (by simp) (by simp)⟩
      · split
        · exact ⟨rfl, .zero _ (by simp) (by simp), .zero _ (by simp) (by simp)⟩
        · next hn =>
          have h1 := strStep_length b t e hn
          have h2 := ih (strStep b t n e).2.1 (strStep b t n e).2.2.1 (strStep b t n e).2.2.2 (by omega)
          obtain ⟨h3, ⟨h4, h5⟩, h6, h7⟩ := h2
          have h8 := strStepC_le b t n e
          have h9 := strStep_written b t n e
          rw [h3]
          refine ⟨rfl, ⟨?_, ?_⟩, ?_, ?_⟩
          · simp only; omega
          · simp only; omega
          · simp only; omega
          · simp only [List.length_append]; omega

/-- The string is decoded into memory: a back inserter. -/
theorem unserializeStrW_cost (s : Bytes) (k : Sink) (n : Nat) (e : EPtr) :
    Cost (fun r j => Pays 18 2 s r.2.1 j) (unserializeStrW s k n e) (unserializeStr s k n e) := by
  unfold unserializeStrW unserializeStr
  cases s with
  | nil => exact .ok (.zero _ (by simp) (by omega))
  | cons b t =>
    simp only
    split
    · exact .ok (.zero _ (by simp) (by omega))
    · obtain ⟨h1, h2, _⟩ := strDecW_eq (t.length + 1) t n e (by omega)
      rw [h1]
      exact .same fun _ _ => .ok (h2.before (by simp) |>.mono (Nat.le_refl _) (by omega))

theorem deStrW_lin : Lin 18 4 deStrW deStr := by
  intro v s e
  simp only [deStrW, deStr]
  split
  · obtain ⟨k, h, hp⟩ := parseNullW_post ([] : Bytes) s e
    rw [h]
    exact .ok (hp.mono (by omega) (by omega))
  · next hn =>
    exact (unserializeStrW_cost s _ _ e).bind fun r k h =>
      .ok ⟨h.mono (Nat.le_refl _) (by omega), .of_ne (by simpa using hn)⟩

/-- The text that a string stands for is at most six times as long. -/
theorem deStr_written {v : Bytes} {s : Bytes} {e : EPtr} {r : Bytes × Bytes × EPtr} (h : deStr v s e = .ok r) :
    Pays 6 0 s r.2.1 r.1.length := by
  unfold deStr at h
  split at h
  · cases h
    exact .zero _ (parseNull_length s e) (by simp)
  · unfold unserializeStr at h
    cases s with
    | nil =>
      cases h
      exact .zero _ (by simp) (by simp)
    | cons b t =>
      simp only at h
      split at h
      · cases h
        exact .zero _ (by simp) (by simp)
      · rw [Sink.puts_back] at h
        cases h
        obtain ⟨_, _, h2⟩ := strDecW_eq (t.length + 1) t intMax e (by omega)
        exact h2.before (by simp)

theorem deCharArrayW_lin (N : Nat) : Lin 18 (N + 4) (deCharArrayW N) (deCharArray N) := by
  intro v s e
  simp only [deCharArrayW, deCharArray]
  split
  · obtain ⟨k, h, hp⟩ := parseNullW_post (List.replicate N 0 : Bytes) s e
    rw [h]
    exact .ok (hp.mono (by omega) (by omega))
  · next hn =>
    exact (unserializeStrW_cost s _ _ e).bind fun r k h =>
      .ok ⟨h.mono (Nat.le_refl _) (by omega), .of_ne (by simpa using hn)⟩

/-! ### Raw values, pointers, quoted values -/

theorem consumed_length (s p : Bytes) : (consumed s p).length ≤ s.length - p.length := by
  unfold consumed
  rw [List.length_take]
  omega

theorem parseValueW_cost (c : Cfg) (s : Bytes) (e : EPtr) :
    Cost (fun r k => Pays 20 8 s r.1 k) (parseValueW c (fuelFor s) s e) (parseValue c s e) := by
  have h := (rec_paid c (fuelFor s)).1 s e
  unfold parseValue
  generalize parseValueW c (fuelFor s) s e = w at h ⊢
  generalize parseValueF c (fuelFor s) s e = o at h ⊢
  cases h with
  | ok h =>
    obtain ⟨h1, h2⟩ := h
    exact .ok ⟨by omega, by omega⟩
  | ub => exact .ub
  | fuel => exact .fuel

theorem parseMemberW_cost (c : Cfg) (s : Bytes) (e : EPtr) :
    Cost (fun r k => Pays 20 8 s r.1 k) (parseMemberW c (fuelFor s) s e) (parseMember c s e) := by
  have h := (rec_paid c (fuelFor s)).2.1 s e
  unfold parseMember
  generalize parseMemberW c (fuelFor s) s e = w at h ⊢
  generalize parseMemberF c (fuelFor s) s e = o at h ⊢
  cases h with
  | ok h =>
    obtain ⟨h1, h2⟩ := h
    exact .ok ⟨by omega, by omega⟩
  | ub => exact .ub
  | fuel => exact .fuel

theorem parseValue_null (c : Cfg) {s : Bytes} (h : isNull s = true) (e : EPtr) : parseValue c s e = .ok (parseNull s e) := by
  show parseValueF c (3 * s.length + 3 + 1) s e = _
  rw [parseValueF, if_pos h]

theorem deRawW_lin (c : Cfg) : Lin 21 9 (deRawW c) (deRaw c) := by
  intro v s e
  unfold deRawW deRaw
  by_cases hn : isNull s = true
  · have hc := parseValueW_cost c s e
    rw [parseValue_null c hn] at hc ⊢
    generalize parseValueW c (fuelFor s) s e = w at hc ⊢
    cases hc with
    | ok h =>
      have h3 := consumed_length s (parseNull s e).1
      refine .ok ⟨⟨h.1, ?_⟩, fun _ => ?_⟩
      · have := h.1; have := h.2; simp only; omega
      · rw [parseNull_bytes s .null e]
        have := h.1; have := h.2; simp only; omega
  · refine (parseValueW_cost c s e).bind fun r k h => .ok ⟨⟨h.1, ?_⟩, .of_ne (by simpa using hn)⟩
    have h3 := consumed_length s r.1
    have := h.1; have := h.2; simp only; omega

theorem dePointerW_lin {α : Type} {S : Ser α} {W : DeW α} {A B : Nat} (h : Lin A B W S.de) :
    Lin A (B + 5) (dePointerW S W) (dePointer S) := by
  intro v s e
  unfold dePointerW dePointer
  cases s with
  | nil => exact .ok ⟨.zero _ (by simp) (by omega), .of_ne rfl⟩
  | cons b t =>
    simp only
    split
    · exact (h S.dflt (b :: t) e).bind fun r k hr => .ok (hr.mono (r := (some r.1, r.2)) (Nat.le_refl _) (by omega))
    · exact .ok ⟨.zero _ (by simp <;> omega) (by omega), .zero _ (by omega)⟩

theorem deRawQuotedW_cost (c : Cfg) (reqQ : Bool) (v : Bytes) (s : Bytes) (e : EPtr) :
    Cost (fun r k => Pays 21 9 s r.2.1 k) (deRawQuotedW c reqQ v s e) (deRawQuoted c reqQ v s e) := by
  unfold deRawQuotedW deRawQuoted
  cases s with
  | nil => exact .ok (.zero _ (by simp) (by omega))
  | cons b t =>
    simp only
    split
    · exact .ok (.zero _ (by simp) (by omega))
    · have hl : (if reqQ = true then t else b :: t).length ≤ (b :: t).length := by split <;> simp
      generalize (if reqQ = true then t else b :: t) = u at hl ⊢
      refine (parseValueW_cost c u e).bind fun ⟨p, e'⟩ k h => ?_
      have h3 := consumed_length u p
      have hp : Pays 21 9 (b :: t) p (k + (consumed u p).length + 1) :=
        Pays.before (r := u) ⟨h.1, by have := h.1; have := h.2; simp only at *; omega⟩ hl
      simp only
      split
      · exact .ok hp
      · split
        · cases p with
          | nil => exact .ok hp
          | cons d q =>
            simp only
            split
            · exact .ok (hp.drop (by simp))
            · exact .ok hp.nil
        · exact .ok hp

theorem deRawQuotedW_lin (c : Cfg) (reqQ : Bool) : Lin 21 9 (deRawQuotedW c reqQ) (deRawQuoted c reqQ) := by
  intro v s e
  have h := deRawQuotedW_cost c reqQ v s e
  by_cases hn : isNull s = true
  · cases s with
    | nil => cases hn
    | cons b t =>
      cases reqQ with
      | true =>
        obtain rfl : b = c%'n' := by simpa [isNull] using hn
        exact .ok ⟨.zero _ (by simp) (by omega), .zero _ (by omega)⟩
      | false =>
        unfold deRawQuotedW deRawQuoted at h ⊢
        simp only [Bool.false_and, Bool.false_eq_true, if_false] at h ⊢
        have hc := parseValueW_cost c (b :: t) e
        rw [parseValue_null c hn] at hc ⊢
        generalize parseValueW c (fuelFor (b :: t)) (b :: t) e = w at hc ⊢
        cases hc with
        | @ok r k hp =>
          have h3 := consumed_length (b :: t) (parseNull (b :: t) e).1
          have hp : Pays 21 9 (b :: t) (parseNull (b :: t) e).1 (k + (consumed (b :: t) (parseNull (b :: t) e).1).length + 1) :=
            ⟨hp.1, by have := hp.1; have := hp.2; omega⟩
          have hz : NullPays 21 9 (b :: t) (k + (consumed (b :: t) (parseNull (b :: t) e).1).length + 1) := fun _ => by
            rw [parseNull_bytes (b :: t) .null e]
            exact hp.2
          simp only [Out.bind_ok]
          split
          · exact .ok ⟨hp, hz⟩
          · exact .ok ⟨hp, hz⟩
  · exact h.mono fun r k hr => ⟨hr, .of_ne (by simpa using hn)⟩

theorem deQuotedStrW_lin {α : Type} {S : Ser α} {W : DeW α} {A B : Nat} (h : Lin A B W S.de) :
    Lin (6 * A + 18) (B + 5) (deQuotedStrW W) (deQuotedStr S) := by
  intro v s e
  unfold deQuotedStrW deQuotedStr
  have hs := deStrW_lin [] s e
  have hd : strSer.de [] s e = deStr [] s e := rfl
  rw [hd]
  generalize deStrW [] s e = w at hs ⊢
  cases ho : deStr [] s e with
  | ub => rw [ho] at hs; cases hs; exact .ub
  | fuel => rw [ho] at hs; cases hs; exact .fuel
  | ok r =>
    rw [ho] at hs
    cases hs with
    | @ok _ k hk =>
      have hw := deStr_written ho
      simp only [Out.bind_ok]
      have hk' : LinPost (6 * A + 18) (B + 5) s r (k + 1) := hk.mono (by omega) (by omega)
      split
      · exact .ok ⟨hk'.1.nil, hk'.2⟩
      · refine (h v r.1 .fresh).bind fun r2 j hj => ?_
        have hj1 : j ≤ A * r.1.length + B := by have := hj.1.2; omega
        have hw2 := Nat.mul_le_mul_left A hw.2
        have hl := hw.1
        have hp : Pays (6 * A + 18) (B + 5) s r.2.1 (k + j + 1) := by
          refine ⟨hl, ?_⟩
          have := hk.1.2
          simp only [Nat.add_mul, Nat.mul_add, Nat.add_zero, Nat.mul_assoc, Nat.mul_left_comm A 6] at *
          omega
        have hz : NullPays (6 * A + 18) (B + 5) s (k + j + 1) := by
          intro hn
          have hr : r.2.1 = (parseNull s e).1 := by
            unfold deStr at ho
            rw [if_pos hn] at ho
            cases ho
            rfl
          rw [parseNull_bytes s .null e, ← hr]
          exact hp.2
        obtain ⟨v2, p2, e2⟩ := r2
        cases e2 with
        | null => exact .ok ⟨hp, hz⟩
        | obj z =>
          simp only
          split
          · exact .ok ⟨hp.nil, hz⟩
          · exact .ok ⟨hp, hz⟩

theorem deQuotedW_lin {α : Type} {S : Ser α} {W : DeW α} {A B : Nat} (h : Lin A B W S.de) (reqQ : Bool) :
    Lin (6 * A + 18) (B + 7) (deQuotedW W reqQ) (deQuoted S reqQ) := by
  intro v s e
  unfold deQuotedW deQuoted
  split
  · exact (deQuotedStrW_lin h v s e).count (f := (· + 1)) fun r k h => h.mono (by omega) (by omega)
  · split
    · exact (deQuotedStrW_lin h v s e).count (f := (· + 2)) fun r k h => h.mono (by omega) (by omega)
    · exact (h v s e).count (f := (· + 2)) fun r k h => h.mono (by omega) (by omega)

theorem deMemberValueW_lin {τ α : Type} {S : Ser α} {W : DeW α} {A B : Nat} (h : Lin A B W S.de) (dflt : τ) (get : τ → α)
    (set : α → τ → τ) : Lin A (B + 1) (deMemberValueW get set W) (memberValueSer dflt get set S).de := by
  intro v s e
  exact (h (get v) s e).bind fun r k h => .ok (h.mono (r := (set r.1 v, r.2)) (Nat.le_refl _) (by omega))

end Wjson
