import Verif.Model.Integer
import Verif.Spec.IntTypes
import Verif.Proofs.Sink
import Verif.Proofs.Number
/-
Facts about integer serialization.
-/
namespace Wjson
open Spec

/-! ### Writing -/

/-- Decimal digits, least significant first. -/
def revDigits (n : Nat) : Bytes :=
  if h : n = 0 then [] else UInt8.ofNat (48 + n % 10) :: revDigits (n / 10)
termination_by n
decreasing_by exact Nat.div_lt_self (Nat.pos_of_ne_zero h) (by decide)

theorem revDigits_zero : revDigits 0 = [] := by rw [revDigits]; simp

theorem revDigits_pos {n : Nat} (h : n ≠ 0) : revDigits n = UInt8.ofNat (48 + n % 10) :: revDigits (n / 10) := by
  rw [revDigits]; simp [h]

theorem ofInt_natCast (n : Nat) : UInt8.ofInt (n : Int) = UInt8.ofNat n := by
  have h : ((n : Int) % 256).toNat = n % 256 := by omega
  apply UInt8.toNat_inj.mp
  simp [UInt8.ofInt, h]

theorem intDigits_eq (cap : Nat) (neg : Bool) (n : Nat) (buf : Bytes) :
    intDigits cap neg (if neg then -(n : Int) else n) buf =
      if n = 0 ∨ buf.length + (revDigits n).length ≤ cap then .ok (buf ++ revDigits n) else .ub := by
  induction n using Nat.strongRecOn generalizing buf with
  | ind n ih =>
    by_cases hn : n = 0
    · subst hn
      rw [intDigits]
      cases neg <;> simp [revDigits_zero]
    · have hv : (if neg = true then -(n : Int) else n) ≠ 0 := by
        cases neg <;> simp <;> omega
      rw [intDigits, dif_neg hv]
      have hd : UInt8.ofInt (if neg = true then 48 - (if neg = true then -(n : Int) else n).tmod 10
          else 48 + (if neg = true then -(n : Int) else n).tmod 10) = UInt8.ofNat (48 + n % 10) := by
        cases neg
        · simp only [Bool.false_eq_true, if_false]
          rw [Int.tmod_eq_emod_of_nonneg (by omega), ← ofInt_natCast]
          congr 1
        · simp only [if_true]
          rw [Int.neg_tmod, Int.tmod_eq_emod_of_nonneg (by omega), ← ofInt_natCast]
          congr 1
          omega
      have hq : (if neg = true then -(n : Int) else n).tdiv 10 = if neg = true then -((n / 10 : Nat) : Int) else ((n / 10 : Nat) : Int) := by
        cases neg
        · simp only [Bool.false_eq_true, if_false]
          rw [Int.tdiv_eq_ediv_of_nonneg (by omega)]
          omega
        · simp only [if_true]
          rw [Int.neg_tdiv, Int.tdiv_eq_ediv_of_nonneg (by omega)]
          omega
      simp only [hd, hq]
      rw [ih (n / 10) (Nat.div_lt_self (Nat.pos_of_ne_zero hn) (by decide))]
      rw [revDigits_pos hn]
      simp only [hn, false_or, List.length_cons, List.length_append, List.length_nil, List.append_assoc,
        List.singleton_append]
      by_cases h10 : n / 10 = 0
      · simp only [h10, revDigits_zero, true_or, if_true, List.length_nil]
        by_cases hl : buf.length < cap
        · rw [if_pos hl, if_pos (by omega)]
        · rw [if_neg hl, if_neg (by omega)]
      · simp only [h10, false_or]
        have hpos : 0 < (revDigits (n / 10)).length := by rw [revDigits_pos h10]; simp
        by_cases hl : buf.length < cap
        · rw [if_pos hl]
          by_cases hl2 : buf.length + (0 + 1) + (revDigits (n / 10)).length ≤ cap
          · rw [if_pos hl2, if_pos (by omega)]
          · rw [if_neg hl2, if_neg (by omega)]
        · rw [if_neg hl, if_neg (by omega)]

theorem revDigits_length {n k : Nat} (h : n < 10 ^ k) : (revDigits n).length ≤ k := by
  induction k generalizing n with
  | zero =>
    have : n = 0 := by simp at h; exact h
    simp [this, revDigits_zero]
  | succ k ih =>
    by_cases hn : n = 0
    · simp [hn, revDigits_zero]
    · rw [revDigits_pos hn]
      have : n / 10 < 10 ^ k := by
        rw [Nat.pow_succ] at h
        exact Nat.div_lt_of_lt_mul (by omega)
      have := ih this
      simp
      exact this

theorem decVal_concat (t : Bytes) (d : Byte) : decVal (t ++ [d]) = decVal t * 10 + (d.toNat - 48) := by
  simp [decVal]

theorem digit_byte {d : Nat} (h : d < 10) : Digit (UInt8.ofNat (48 + d)) ∧ (UInt8.ofNat (48 + d)).toNat - 48 = d ∧
    (0 < d → Digit19 (UInt8.ofNat (48 + d))) := by
  have : d = 0 ∨ d = 1 ∨ d = 2 ∨ d = 3 ∨ d = 4 ∨ d = 5 ∨ d = 6 ∨ d = 7 ∨ d = 8 ∨ d = 9 := by omega
  rcases this with rfl | rfl | rfl | rfl | rfl | rfl | rfl | rfl | rfl | rfl <;> decide

theorem decVal_revDigits (n : Nat) : decVal (revDigits n).reverse = n := by
  induction n using Nat.strongRecOn with
  | ind n ih =>
    by_cases hn : n = 0
    · simp [hn, revDigits_zero, decVal]
    · rw [revDigits_pos hn, List.reverse_cons, decVal_concat,
        ih _ (Nat.div_lt_self (Nat.pos_of_ne_zero hn) (by decide)), (digit_byte (Nat.mod_lt n (by decide))).2.1]
      omega

theorem revDigits_shape {n : Nat} (h : n ≠ 0) :
    ∃ d ds, (revDigits n).reverse = d :: ds ∧ Digit19 d ∧ ∀ b ∈ ds, Digit b := by
  induction n using Nat.strongRecOn with
  | ind n ih =>
    rw [revDigits_pos h, List.reverse_cons]
    by_cases h10 : n / 10 = 0
    · rw [h10, revDigits_zero]
      exact ⟨_, [], rfl, (digit_byte (Nat.mod_lt n (by decide))).2.2 (by omega), by simp⟩
    · obtain ⟨d, ds, h1, h2, h3⟩ := ih (n / 10) (Nat.div_lt_self (Nat.pos_of_ne_zero h) (by decide)) h10
      refine ⟨d, ds ++ [_], by rw [h1]; rfl, h2, ?_⟩
      intro b hb
      rcases List.mem_append.mp hb with hb | hb
      · exact h3 b hb
      · rw [List.mem_singleton] at hb
        subst hb
        exact (digit_byte (Nat.mod_lt n (by decide))).1

/-- The canonical decimal text. -/
def intText (v : Int) : Bytes :=
  if v = 0 then b!"0" else if v < 0 then c%'-' :: (revDigits v.natAbs).reverse else (revDigits v.natAbs).reverse

theorem intText_decimal (v : Int) : Decimal v (intText v) := by
  unfold intText
  by_cases h0 : v = 0
  · rw [if_pos h0, h0]
    exact ⟨b!"0", .inl rfl, .inl ⟨by omega, rfl, rfl⟩⟩
  · rw [if_neg h0]
    obtain ⟨d, ds, h1, h2, h3⟩ := revDigits_shape (n := v.natAbs) (by omega)
    refine ⟨(revDigits v.natAbs).reverse, .inr ⟨d, ds, h1, h2, h3⟩, ?_⟩
    rw [decVal_revDigits]
    by_cases hn : v < 0
    · rw [if_pos hn]; exact .inr ⟨hn, rfl, by omega⟩
    · rw [if_neg hn]; exact .inl ⟨by omega, rfl, by omega⟩

theorem emitInt_writes {ty : IntTy} (hs : ty.Std) {v : Int} (hv : ty.InRange v) : Writes (emitInt ty) v (intText v) := by
  intro k
  unfold emitInt intText
  by_cases h0 : v = 0
  · simp [h0]
  · rw [if_neg h0, if_neg h0]
    have hbound : (v.natAbs < 10 ^ (if v < 0 then intBufSize ty - 1 else intBufSize ty)) ∧ 0 < intBufSize ty ∧
        (v < 0 → ty.signed = true) := by
      obtain ⟨bits, sg⟩ := ty
      simp only [IntTy.InRange, IntTy.min, IntTy.max] at hv
      simp only [IntTy.Std] at hs
      rcases hs with rfl | rfl | rfl | rfl <;> cases sg <;>
        simp [intBufSize] at hv ⊢ <;> split <;> omega
    have hr := revDigits_length hbound.1
    by_cases hn : v < 0
    · rw [if_pos hn] at hr
      have := intDigits_eq (intBufSize ty) true v.natAbs []
      simp only [if_true, List.length_nil, Nat.zero_add, List.nil_append] at this
      rw [if_pos ⟨hbound.2.2 hn, hn⟩, if_pos hn]
      have hv' : v = -((v.natAbs : Nat) : Int) := by omega
      rw [← hv'] at this
      rw [this, if_pos (by right; omega), Out.bind_ok, if_pos (by omega), Out.bind_ok]
      simp
    · rw [if_neg hn] at hr
      have := intDigits_eq (intBufSize ty) false v.natAbs []
      simp only [Bool.false_eq_true, if_false, List.length_nil, Nat.zero_add, List.nil_append] at this
      rw [if_neg (by simp [hn]), if_neg hn]
      have hv' : v = ((v.natAbs : Nat) : Int) := by omega
      rw [← hv'] at this
      rw [this, if_pos (by right; omega), Out.bind_ok]

/-! ### Reading -/

theorem IntTy.wrap_of_inRange {ty : IntTy} (hs : ty.Std) {v : Int} (h : ty.InRange v) : ty.wrap v = v := by
  obtain ⟨bits, sg⟩ := ty
  simp only [IntTy.InRange, IntTy.min, IntTy.max] at h
  simp only [IntTy.Std] at hs
  rcases hs with rfl | rfl | rfl | rfl <;> cases sg <;> simp [IntTy.wrap] at h ⊢ <;> omega

theorem IntTy.wrap_inRange {ty : IntTy} (hs : ty.Std) (v : Int) : ty.InRange (ty.wrap v) := by
  obtain ⟨bits, sg⟩ := ty
  simp only [IntTy.Std] at hs
  simp only [IntTy.InRange, IntTy.min, IntTy.max]
  rcases hs with rfl | rfl | rfl | rfl <;> cases sg <;> simp [IntTy.wrap] <;> omega

/-- `wrap` is determined by the residue. -/
theorem IntTy.wrap_step {ty : IntTy} (hs : ty.Std) (a d : Int) :
    ty.wrap (ty.wrap (ty.wrap a * 10) + d) = ty.wrap (a * 10 + d) := by
  obtain ⟨bits, sg⟩ := ty
  simp only [IntTy.Std] at hs
  rcases hs with rfl | rfl | rfl | rfl <;> cases sg <;> simp [IntTy.wrap] <;> omega

theorem IntTy.wrap_neg {ty : IntTy} (hs : ty.Std) (a : Int) : ty.wrap (-ty.wrap a) = ty.wrap (-a) := by
  obtain ⟨bits, sg⟩ := ty
  simp only [IntTy.Std] at hs
  rcases hs with rfl | rfl | rfl | rfl <;> cases sg <;> simp [IntTy.wrap] <;> omega

theorem IntTy.arith_inRange {ty : IntTy} (hs : ty.Std) (c : Cfg) {v : Int} (h : ty.InRange v) : ty.arith c v = .ok v := by
  simp only [IntTy.arith, h, if_true, IntTy.wrap_of_inRange hs h, ite_self]

theorem IntTy.arith_modular {ty : IntTy} (hs : ty.Std) {c : Cfg} (hm : ty.Modular c) (v : Int) :
    ty.arith c v = .ok (ty.wrap v) := by
  unfold IntTy.arith
  by_cases h1 : ty.bits < 32 ∨ ty.signed = false
  · rw [if_pos h1]
  · rw [if_neg h1]
    by_cases h2 : ty.InRange v
    · rw [if_pos h2, IntTy.wrap_of_inRange hs h2]
    · rw [if_neg h2]
      have : c.wrapv = true := by
        rcases hm with h | h | h
        · exact absurd (.inl h) h1
        · exact absurd (.inr h) h1
        · exact h
      rw [if_pos this]

/-- Horner evaluation from a start value. -/
def decFrom (v : Int) (t : Bytes) : Int := t.foldl (fun a d => a * 10 + (d.toNat - 48 : Int)) v

theorem decFrom_cons (v : Int) (d : Byte) (t : Bytes) : decFrom v (d :: t) = decFrom (v * 10 + (d.toNat - 48 : Int)) t := rfl

theorem digit_toNat {b : Byte} (h : Digit b) : 48 ≤ b.toNat ∧ b.toNat ≤ 57 := by
  revert h; revert b; apply forall_byte; decide +kernel

theorem decFrom_zero {t : Bytes} (h : ∀ b ∈ t, Digit b) : decFrom 0 t = decVal t := by
  have key : ∀ (t : Bytes) (a : Nat), (∀ b ∈ t, Digit b) →
      t.foldl (fun a d => a * 10 + (d.toNat - 48 : Int)) (a : Int) =
        ((t.foldl (fun a d => a * 10 + (d.toNat - 48)) a : Nat) : Int) := by
    intro t
    induction t with
    | nil => intro a _; rfl
    | cons d t ih =>
      intro a h
      have hd := digit_toNat (h d (by simp))
      simp only [List.foldl_cons]
      rw [← ih _ (fun b hb => h b (by simp [hb]))]
      congr 1
      omega
  exact key t 0 h

theorem decFrom_ge {t : Bytes} (h : ∀ b ∈ t, Digit b) {v : Int} (hv : 0 ≤ v) : v ≤ decFrom v t := by
  induction t generalizing v with
  | nil => exact Int.le_refl _
  | cons d t ih =>
    have hd := digit_toNat (h d (by simp))
    rw [decFrom_cons]
    have := ih (fun b hb => h b (by simp [hb])) (v := v * 10 + (d.toNat - 48 : Int)) (by omega)
    omega

theorem accInt_stop (c : Cfg) (ty : IntTy) (v : Int) {rest : Bytes} (h : NoDigitNext rest) :
    accInt c ty v rest = .ok (v, rest) := by
  cases rest with
  | nil => rfl
  | cons b t =>
    have : isDigit b = false := by
      cases hd : isDigit b with
      | false => rfl
      | true => exact absurd (isDigit_iff.mp hd) (h b rfl)
    simp [accInt, this]

theorem IntTy.inRange_of_le {ty : IntTy} (hs : ty.Std) {v w : Int} (h0 : 0 ≤ v) (h : v ≤ w) (hw : ty.InRange w) :
    ty.InRange v := by
  obtain ⟨bits, sg⟩ := ty
  simp only [IntTy.Std] at hs
  simp only [IntTy.InRange, IntTy.min, IntTy.max] at *
  rcases hs with rfl | rfl | rfl | rfl <;> cases sg <;> simp at hw ⊢ <;> omega

theorem accInt_exact (c : Cfg) {ty : IntTy} (hs : ty.Std) {ds rest : Bytes} (hd : ∀ b ∈ ds, Digit b)
    (hr : NoDigitNext rest) {v : Int} (h0 : 0 ≤ v) (hv : ty.InRange (decFrom v ds)) :
    accInt c ty v (ds ++ rest) = .ok (decFrom v ds, rest) := by
  induction ds generalizing v with
  | nil => exact accInt_stop c ty v hr
  | cons d ds ih =>
    have hdd := hd d (by simp)
    have hdn := digit_toNat hdd
    have hds : ∀ b ∈ ds, Digit b := fun b hb => hd b (by simp [hb])
    rw [decFrom_cons] at hv ⊢
    have hge := decFrom_ge hds (v := v * 10 + (d.toNat - 48 : Int)) (by omega)
    have r2 : ty.InRange (v * 10 + (d.toNat - 48 : Int)) := IntTy.inRange_of_le hs (by omega) hge hv
    have r1 : ty.InRange (v * 10) := IntTy.inRange_of_le hs (by omega) (by omega) r2
    rw [List.cons_append, accInt, if_pos (isDigit_iff.mpr hdd), IntTy.arith_inRange hs c r1, Out.bind_ok,
      IntTy.arith_inRange hs c r2, Out.bind_ok]
    exact ih hds (by omega) hv

theorem accInt_modular {c : Cfg} {ty : IntTy} (hs : ty.Std) (hm : ty.Modular c) {ds rest : Bytes}
    (hd : ∀ b ∈ ds, Digit b) (hr : NoDigitNext rest) (v : Int) :
    accInt c ty (ty.wrap v) (ds ++ rest) = .ok (ty.wrap (decFrom v ds), rest) := by
  induction ds generalizing v with
  | nil => exact accInt_stop c ty _ hr
  | cons d ds ih =>
    have hdd := hd d (by simp)
    have hds : ∀ b ∈ ds, Digit b := fun b hb => hd b (by simp [hb])
    rw [List.cons_append, accInt, if_pos (isDigit_iff.mpr hdd), IntTy.arith_modular hs hm, Out.bind_ok,
      IntTy.arith_modular hs hm, Out.bind_ok, IntTy.wrap_step hs, decFrom_cons]
    exact ih hds _

theorem accInt_overflow {c : Cfg} {ty : IntTy} (hs : ty.Std) (hm : ¬ ty.Modular c) {ds rest : Bytes}
    (hd : ∀ b ∈ ds, Digit b) {v : Int} (h0 : 0 ≤ v) (hv0 : ty.InRange v)
    (hv : ¬ ty.InRange (decFrom v ds)) : accInt c ty v (ds ++ rest) = .ub := by
  induction ds generalizing v with
  | nil => exact absurd hv0 hv
  | cons d ds ih =>
    have hdd := hd d (by simp)
    have hdn := digit_toNat hdd
    have hds : ∀ b ∈ ds, Digit b := fun b hb => hd b (by simp [hb])
    have har : ∀ w, ¬ ty.InRange w → ty.arith c w = .ub := by
      intro w hw
      simp only [IntTy.Modular, not_or] at hm
      unfold IntTy.arith
      rw [if_neg (fun h => h.elim hm.1 hm.2.1), if_neg hw, if_neg hm.2.2]
    rw [List.cons_append, accInt, if_pos (isDigit_iff.mpr hdd)]
    by_cases r1 : ty.InRange (v * 10)
    · rw [IntTy.arith_inRange hs c r1, Out.bind_ok]
      by_cases r2 : ty.InRange (v * 10 + (d.toNat - 48 : Int))
      · rw [IntTy.arith_inRange hs c r2, Out.bind_ok]
        exact ih hds (by omega) r2 hv
      · rw [har _ r2]; rfl
    · rw [har _ r1]; rfl

/-- Shape of the literal as the reader sees it. -/
theorem unser_split (c : Cfg) (ty : IntTy) {m i rest : Bytes} (hm : RMinus m) (hi : RInt i) (hr : NoDigitNext rest)
    (v0 : Int) (e : EPtr) :
    deInt c ty v0 (m ++ i ++ rest) e =
      if i = b!"0" then .ok (0, rest, e) else
        accInt c ty 0 (i ++ rest) >>= fun r =>
        (if m ≠ [] then ty.arith c (-r.1) else .ok r.1) >>= fun v => .ok (v, r.2, e) := by
  rcases hi with rfl | ⟨d, ds, rfl, hd, hds⟩
  · rcases hm with rfl | rfl
    · simp [deInt, isNull, unserializeInteger, isDigit]
    · simp [deInt, isNull, unserializeInteger, isDigit]
  · have hd0 : d ≠ c%'0' ∧ d ≠ c%'n' ∧ d ≠ c%'-' ∧ isDigit d = true := by
      revert hd; clear hds hr hm; revert d; apply forall_byte; decide +kernel
    have hne : (d :: ds : Bytes) ≠ b!"0" := by
      intro h; simp at h; exact hd0.1 h.1
    rw [if_neg hne]
    rcases hm with rfl | rfl
    · simp [deInt, isNull, unserializeInteger, hd0.1, hd0.2.1, hd0.2.2.1, hd0.2.2.2]
    · simp [deInt, isNull, unserializeInteger, hd0.1, hd0.2.2.2]

theorem rint_digits {i : Bytes} (h : RInt i) : ∀ b ∈ i, Digit b := by
  rcases h with rfl | ⟨d, ds, rfl, hd, hds⟩
  · decide
  · intro b hb
    simp at hb
    rcases hb with rfl | hb
    · exact digit_of_19 hd
    · exact hds b hb

theorem decVal_b0 : decVal b!"0" = 0 := rfl

theorem Std.zero_inRange {ty : IntTy} (hs : ty.Std) : ty.InRange 0 := by
  obtain ⟨bits, sg⟩ := ty
  simp only [IntTy.Std] at hs
  simp only [IntTy.InRange, IntTy.min, IntTy.max]
  rcases hs with rfl | rfl | rfl | rfl <;> cases sg <;> simp

/-- Reading a literal whose magnitude fits. -/
theorem deInt_exact (c : Cfg) {ty : IntTy} (hs : ty.Std) {m i rest : Bytes} (hm : RMinus m) (hi : RInt i)
    (hr : NoDigitNext rest) (h1 : ty.InRange (decVal i))
    (h2 : m ≠ [] → ty.InRange (-(decVal i : Int))) (v0 : Int) (e : EPtr) :
    deInt c ty v0 (m ++ i ++ rest) e = .ok (if m = [] then (decVal i : Int) else -(decVal i : Int), rest, e) := by
  rw [unser_split c ty hm hi hr]
  by_cases h0 : i = b!"0"
  · rw [if_pos h0, h0, decVal_b0]; simp
  · rw [if_neg h0]
    have hd := rint_digits hi
    rw [accInt_exact c hs hd hr (Int.le_refl 0) (by rwa [decFrom_zero hd]), Out.bind_ok, decFrom_zero hd]
    by_cases hm0 : m = []
    · simp [hm0]
    · rw [if_pos hm0, IntTy.arith_inRange hs c (h2 hm0), Out.bind_ok, if_neg hm0]

/-- Reading any literal with modular arithmetic. -/
theorem deInt_modular {c : Cfg} {ty : IntTy} (hs : ty.Std) (hmod : ty.Modular c) {m i rest : Bytes} (hm : RMinus m)
    (hi : RInt i) (hr : NoDigitNext rest) (v0 : Int) (e : EPtr) :
    deInt c ty v0 (m ++ i ++ rest) e =
      .ok (ty.wrap (if m = [] then (decVal i : Int) else -(decVal i : Int)), rest, e) := by
  rw [unser_split c ty hm hi hr]
  have hw0 := IntTy.wrap_of_inRange hs (Std.zero_inRange hs)
  by_cases h0 : i = b!"0"
  · rw [if_pos h0, h0, decVal_b0]; simp [hw0]
  · rw [if_neg h0]
    have hd := rint_digits hi
    have := accInt_modular hs hmod hd hr 0
    rw [hw0] at this
    rw [this, Out.bind_ok, decFrom_zero hd]
    by_cases hm0 : m = []
    · simp [hm0]
    · rw [if_pos hm0, IntTy.arith_modular hs hmod, Out.bind_ok, if_neg hm0, IntTy.wrap_neg hs]

theorem deInt_overflow {c : Cfg} {ty : IntTy} (hs : ty.Std) (hmod : ¬ ty.Modular c) {m i rest : Bytes} (hm : RMinus m)
    (hi : RInt i) (hr : NoDigitNext rest) (h : ¬ ty.InRange (decVal i)) (v0 : Int) (e : EPtr) :
    deInt c ty v0 (m ++ i ++ rest) e = .ub := by
  rw [unser_split c ty hm hi hr]
  by_cases h0 : i = b!"0"
  · rw [h0, decVal_b0] at h
    exact absurd (Std.zero_inRange hs) h
  · rw [if_neg h0]
    have hd := rint_digits hi
    rw [accInt_overflow hs hmod hd (Int.le_refl 0) (Std.zero_inRange hs) (by rwa [decFrom_zero hd])]
    rfl

end Wjson
