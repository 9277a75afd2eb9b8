import Verif.Proofs.RoundBin
import Verif.Proofs.Integer
import Verif.Proofs.Number
/-
Decimal texts of floating point numbers, for C82.
-/
namespace Wjson
open Spec

theorem dec_byte (r : Nat) (h : r < 10) : Digit (UInt8.ofNat (48 + r)) ∧ (UInt8.ofNat (48 + r)).toNat - 48 = r :=
  ⟨(digit_byte h).1, (digit_byte h).2.1⟩

theorem digit_not_sign {d : Byte} (h : Digit d) : d ≠ c%'-' ∧ d ≠ c%'+' := by
  unfold Digit at h
  constructor <;> rintro rfl <;> revert h <;> decide

theorem decVal_append (a b : Bytes) : decVal (a ++ b) = decVal a * 10 ^ b.length + decVal b := by
  induction b using List.reverseRecOn with
  | nil => simp [decVal]
  | append_singleton b d ih =>
    rw [← List.append_assoc, decVal_concat, decVal_concat, ih]
    simp only [List.length_append, List.length_singleton, pow_succ]
    ring

theorem padDigits_length (w m : Nat) : (padDigits w m).length = w := by
  induction w generalizing m with
  | zero => rfl
  | succ w ih => simp [padDigits, ih]

theorem padDigits_digit (w m : Nat) : ∀ b ∈ padDigits w m, Digit b := by
  induction w generalizing m with
  | zero => intro b hb; simp [padDigits] at hb
  | succ w ih =>
    intro b hb
    simp only [padDigits, List.mem_append, List.mem_singleton] at hb
    rcases hb with hb | rfl
    · exact ih _ b hb
    · exact (dec_byte _ (Nat.mod_lt _ (by decide))).1

theorem padDigits_val (w m : Nat) : decVal (padDigits w m) = m % 10 ^ w := by
  induction w generalizing m with
  | zero => simp [padDigits, decVal, Nat.mod_one]
  | succ w ih =>
    rw [padDigits, decVal_concat, ih, (dec_byte _ (Nat.mod_lt _ (by decide))).2, pow_succ, Nat.mul_comm (10 ^ w), Nat.mod_mul]
    omega

theorem padDigits_head {w m : Nat} (h1 : 10 ^ w ≤ m) (h2 : m < 10 ^ (w + 1)) :
    ∃ b t, padDigits (w + 1) m = b :: t ∧ Digit19 b ∧ ∀ x ∈ t, Digit x := by
  induction w generalizing m with
  | zero =>
    refine ⟨_, [], rfl, ?_, by simp⟩
    have : ∀ r : Fin 10, 1 ≤ r.val → Digit19 (UInt8.ofNat (48 + r.val)) := by unfold Digit19; decide
    have hm : m % 10 = m := by omega
    have := this ⟨m % 10, Nat.mod_lt _ (by decide)⟩ (by simp only; omega)
    exact this
  | succ w ih =>
    have h3 : 10 ^ w ≤ m / 10 := by rw [Nat.le_div_iff_mul_le (by decide), ← pow_succ]; exact h1
    have h4 : m / 10 < 10 ^ (w + 1) := by rw [Nat.div_lt_iff_lt_mul (by decide), ← pow_succ]; exact h2
    obtain ⟨b, t, h5, h6, h7⟩ := ih h3 h4
    refine ⟨b, t ++ [UInt8.ofNat (48 + m % 10)], ?_, h6, ?_⟩
    · rw [padDigits, h5]; rfl
    · intro x hx
      rcases List.mem_append.mp hx with hx | hx
      · exact h7 x hx
      · rw [List.mem_singleton.mp hx]
        exact (dec_byte _ (Nat.mod_lt _ (by decide))).1

theorem natText_spec (m : Nat) : RInt (natText m) ∧ decVal (natText m) = m := by
  unfold natText
  by_cases h : m = 0
  · subst h
    exact ⟨.inl (by decide), by decide⟩
  · obtain ⟨h1, h2⟩ := ilog_log2 10 (by decide) m (by omega)
    refine ⟨.inr ?_, ?_⟩
    · exact padDigits_head h1 h2
    · rw [padDigits_val, Nat.mod_eq_of_lt h2]

theorem natText_length {m w : Nat} (h : m < 10 ^ w) (hw : 1 ≤ w) : (natText m).length ≤ w := by
  unfold natText
  rw [padDigits_length]
  by_cases hm : m = 0
  · subst hm; simpa [ilog, Nat.log2] using hw
  · obtain ⟨h1, h2⟩ := ilog_log2 10 (by decide) m (by omega)
    have := (Nat.pow_lt_pow_iff_right (show 1 < 10 by decide)).mp (lt_of_le_of_lt h1 h)
    omega

theorem RInt.digit {t : Bytes} (h : RInt t) : t ≠ [] ∧ ∀ b ∈ t, Digit b := by
  rcases h with rfl | ⟨d, ds, rfl, h1, h2⟩
  · refine ⟨by decide, ?_⟩
    intro b hb
    have : b = c%'0' := by simpa using hb
    subst this
    unfold Digit; decide
  · refine ⟨by simp, ?_⟩
    intro b hb
    rcases List.mem_cons.mp hb with rfl | hb
    · have := h1
      unfold Digit19 at this
      unfold Digit
      exact ⟨UInt8.le_trans (show (0x30 : Byte) ≤ 0x31 by decide) this.1, this.2⟩
    · exact h2 b hb

theorem NumIs.rnumber {t : Bytes} {x : ℚ} (h : NumIs t x) : RNumber t := by
  obtain ⟨m, i, f, ds, ex, n, rfl, hm, hi, hf, hx, _⟩ := h
  refine ⟨m, i, f, ex, rfl, hm, hi, ?_, ?_⟩
  · rcases hf with ⟨rfl, _⟩ | ⟨rfl, h⟩
    · exact .inl rfl
    · exact .inr ⟨_, rfl, h⟩
  · rcases hx with ⟨rfl, _⟩ | ⟨x, sg, ds, rfl, h1, h2, h3⟩
    · exact .inl rfl
    · refine .inr ⟨x, sg, ds, rfl, h1, ?_, h2⟩
      rcases h3 with ⟨h | h, _⟩ | ⟨h, _⟩
      · exact .inl h
      · exact .inr (.inl h)
      · exact .inr (.inr h)

theorem signText_spec (neg : Bool) : RMinus (signText neg) ∧ (signText neg = [] ↔ neg = false) ∧ (signText neg).length ≤ 1 := by
  cases neg
  · exact ⟨.inl rfl, by simp [signText], by simp [signText]⟩
  · exact ⟨.inr rfl, by simp [signText], by simp [signText]⟩

theorem signText_neg (neg : Bool) : decide (signText neg ≠ []) = neg := by cases neg <;> rfl

/-- The JSON number `t` has the sign `neg` and the absolute value `a`. -/
def NumAbs (neg : Bool) (t : Bytes) (a : ℚ) : Prop :=
  ∃ m i f ds ex n, t = m ++ i ++ f ++ ex ∧ RMinus m ∧ RInt i ∧ FracIs f ds ∧ ExpIs ex n ∧ neg = decide (m ≠ []) ∧
    a = decVal (i ++ ds) * (10 : ℚ) ^ (n - ds.length)

theorem fixText_is (neg : Bool) (R k : Nat) :
    NumAbs neg (signText neg ++ fixText R k) (k * (10 : ℚ) ^ (-(R : Int))) := by
  obtain ⟨h1, h2⟩ := natText_spec (k / 10 ^ R)
  refine ⟨signText neg, natText (k / 10 ^ R), if R = 0 then [] else c%'.' :: padDigits R k, padDigits R k, [], 0, ?_,
    (signText_spec neg).1, h1, ?_, .inl ⟨rfl, rfl⟩, (signText_neg neg).symm, ?_⟩
  · simp [fixText]
  · by_cases hR : R = 0
    · subst hR; exact .inl ⟨rfl, rfl⟩
    · rw [if_neg hR]
      refine .inr ⟨rfl, ?_, padDigits_digit _ _⟩
      intro h
      have := padDigits_length R k
      rw [h] at this
      exact hR this.symm
  · rw [decVal_append, h2, padDigits_val, padDigits_length, Nat.div_add_mod', zero_sub]

theorem expText_is (x : Int) :
    ExpIs (c%'e' :: (if x < 0 then b!"-" else b!"+") ++ (if x.natAbs < 10 then padDigits 2 x.natAbs else natText x.natAbs)) x := by
  refine .inr ⟨c%'e', (if x < 0 then b!"-" else b!"+"), (if x.natAbs < 10 then padDigits 2 x.natAbs else natText x.natAbs),
    rfl, .inl rfl, ?_, ?_⟩
  · split
    · refine ⟨?_, padDigits_digit _ _⟩
      intro h
      have := padDigits_length 2 x.natAbs
      rw [h] at this
      cases this
    · exact RInt.digit (natText_spec _).1
  · have hv : decVal (if x.natAbs < 10 then padDigits 2 x.natAbs else natText x.natAbs) = x.natAbs := by
      split
      · rw [padDigits_val, Nat.mod_eq_of_lt (by omega)]
      · exact (natText_spec _).2
    rw [hv]
    by_cases hx : x < 0
    · rw [if_pos hx]; right; exact ⟨rfl, by omega⟩
    · rw [if_neg hx]; left; exact ⟨.inr rfl, by omega⟩

theorem sciText_is (neg : Bool) {k : Nat} (hk : k < 10 ^ 7) (q : Int) :
    NumAbs neg (signText neg ++ sciText k q) (k * (10 : ℚ) ^ q) := by
  have h1 : k / 10 ^ 6 < 10 := by omega
  refine ⟨signText neg, padDigits 1 (k / 10 ^ 6), c%'.' :: padDigits 6 k, padDigits 6 k, _, q + 6, ?_,
    (signText_spec neg).1, ?_, ?_, expText_is (q + 6), (signText_neg neg).symm, ?_⟩
  · simp [sciText]
  · by_cases h0 : k / 10 ^ 6 = 0
    · rw [h0]; exact .inl (by decide)
    · exact .inr (padDigits_head (w := 0) (by omega) (by omega))
  · refine .inr ⟨rfl, ?_, padDigits_digit _ _⟩
    intro h
    have := padDigits_length 6 k
    rw [h] at this
    cases this
  · rw [decVal_append, padDigits_val, padDigits_val, padDigits_length, pow_one, Nat.mod_eq_of_lt h1, Nat.div_add_mod']
    congr 2
    push_cast
    ring

theorem sciText_length (neg : Bool) (k : Nat) {q : Int} (hq : (q + 6).natAbs < 10 ^ 9) : (signText neg ++ sciText k q).length ≤ 20 := by
  have h1 := (signText_spec neg).2.2
  have h2 : (if (q + 6).natAbs < 10 then padDigits 2 (q + 6).natAbs else natText (q + 6).natAbs).length ≤ 9 := by
    split
    · rw [padDigits_length]; decide
    · exact natText_length hq (by decide)
  have h3 : (if q + 6 < 0 then b!"-" else b!"+").length = 1 := by split <;> rfl
  simp only [sciText, List.length_append, List.length_cons, padDigits_length, h3]
  omega

theorem fixText_length (neg : Bool) {R k : Nat} (hk : k < 10 ^ 18 * 10 ^ R) : (signText neg ++ fixText R k).length ≤ 20 + R := by
  have h1 := (signText_spec neg).2.2
  have h2 : (natText (k / 10 ^ R)).length ≤ 18 := natText_length ((Nat.div_lt_iff_lt_mul (Nat.pow_pos (by decide))).mpr hk) (by decide)
  have h3 : (if R = 0 then [] else c%'.' :: padDigits R k).length ≤ 1 + R := by
    split
    · simp
    · simp [padDigits_length]; omega
  simp only [fixText, List.length_append]
  omega

/-! ### Reading -/

theorem spanDigits_append {i t : Bytes} (hi : ∀ b ∈ i, Digit b) (ht : ∀ b, t.head? = some b → ¬ Digit b) : spanDigits (i ++ t) = (i, t) := by
  unfold spanDigits
  have h : ∀ b ∈ i, isDigit b = true := fun b hb => isDigit_iff.mpr (hi b hb)
  rw [List.takeWhile_append_of_pos h, List.dropWhile_append_of_pos h]
  cases t with
  | nil => simp
  | cons b u =>
    have : isDigit b = false := by
      have := ht b rfl
      rw [← isDigit_iff] at this
      simpa using this
    simp [this]

theorem expIs_head {ex rest : Bytes} {n : Int} (h : ExpIs ex n) (hr : Delim rest) :
    ∀ b, (ex ++ rest).head? = some b → ¬ Digit b ∧ b ≠ c%'.' := by
  intro b hb
  rcases h with ⟨rfl, _⟩ | ⟨x, sg, ds, rfl, hx, _⟩
  · have := hr b hb
    exact ⟨this.1, this.2.1⟩
  · have : b = x := by simpa using hb.symm
    subst this
    rcases hx with rfl | rfl <;> unfold Digit <;> decide

theorem takeExp_is {ex rest : Bytes} {n : Int} (h : ExpIs ex n) (hr : Delim rest) : takeExp (ex ++ rest) = some n := by
  rcases h with ⟨rfl, rfl⟩ | ⟨x, sg, ds, rfl, hx, hd, hn⟩
  · cases rest with
    | nil => rfl
    | cons b u =>
      have := hr b rfl
      simp [takeExp, this.2.2.1, this.2.2.2]
  · have hs : takeSign (sg ++ ds ++ rest) = (decide (sg = b!"-"), ds ++ rest) := by
      have hds : sg = [] → takeSign (ds ++ rest) = (false, ds ++ rest) := by
        intro _
        cases ds with
        | nil => exact absurd rfl hd.1
        | cons d ds =>
          have h1 := digit_not_sign (hd.2 d (by simp))
          simp [takeSign, h1]
      rcases hn with ⟨rfl | rfl, _⟩ | ⟨rfl, _⟩
      · simpa using hds rfl
      · simp [takeSign]
      · simp [takeSign]
    rw [List.cons_append]
    simp only [takeExp, hx, if_true, hs]
    rw [spanDigits_append hd.2 (fun b hb => (hr b hb).1), if_neg hd.1]
    rcases hn with ⟨rfl | rfl, rfl⟩ | ⟨rfl, rfl⟩ <;> rfl

theorem flConv_num (F : BinFmt) {m i f ds ex rest : Bytes} {n : Int} (hm : RMinus m) (hi : RInt i) (hf : FracIs f ds) (hx : ExpIs ex n)
    (hr : Delim rest) :
    flConv F (m ++ i ++ f ++ ex ++ rest) = decBin F (decide (m ≠ [])) (i ++ ds) (n - ds.length) := by
  have hid := RInt.digit hi
  have hs : takeSign (m ++ i ++ f ++ ex ++ rest) = (decide (m ≠ []), i ++ (f ++ (ex ++ rest))) := by
    rcases hm with rfl | rfl
    · cases i with
      | nil => exact absurd rfl hid.1
      | cons d i =>
        have h1 := digit_not_sign (hid.2 d (by simp))
        simp [takeSign, h1]
    · simp [takeSign]
  have hif : ∀ b, (f ++ (ex ++ rest)).head? = some b → ¬ Digit b := by
    intro b hb
    rcases hf with ⟨rfl, _⟩ | ⟨rfl, _⟩
    · exact (expIs_head hx hr b hb).1
    · have : b = c%'.' := by simpa using hb.symm
      subst this
      unfold Digit; decide
  have hfr : takeFrac (f ++ (ex ++ rest)) = (ds, ex ++ rest) := by
    rcases hf with ⟨rfl, rfl⟩ | ⟨rfl, hd⟩
    · cases hh : ex ++ rest with
      | nil => simp [takeFrac]
      | cons b u =>
        have := (expIs_head hx hr b (by rw [hh]; rfl)).2
        simp [takeFrac, this]
    · simp only [List.cons_append, takeFrac, if_true]
      exact spanDigits_append hd.2 fun b hb => (expIs_head hx hr b hb).1
  unfold flConv
  simp only [hs]
  rw [spanDigits_append hid.2 hif]
  simp only [hfr]
  rw [if_neg (by simp [hid.1]), takeExp_is hx hr]

/-- The positive number with the digits `ds` and the exponent `x` as a fraction. -/
theorem decBin_frac (F : BinFmt) (neg : Bool) (ds : Bytes) (x : Int) (h : decVal ds ≠ 0) :
    ∃ n d, 0 < n ∧ 0 < d ∧ decBin F neg ds x = toBin F neg n d ∧ frac n d = decVal ds * (10 : ℚ) ^ x := by
  have hv : digitsVal ds = decVal ds := rfl
  unfold decBin
  simp only [hv, h, if_false]
  by_cases hx : 0 ≤ x
  · rw [if_pos hx]
    obtain ⟨k, rfl⟩ := Int.eq_ofNat_of_zero_le hx
    refine ⟨_, _, Nat.mul_pos (by omega) (Nat.pow_pos (by decide)), by decide, rfl, ?_⟩
    simp [frac]
  · rw [if_neg hx]
    obtain ⟨k, hk⟩ := Int.eq_ofNat_of_zero_le (show 0 ≤ -x by omega)
    have hx' : x = -(k : Int) := by omega
    refine ⟨_, _, by omega, Nat.pow_pos (by decide), rfl, ?_⟩
    rw [hk, hx']
    simp [frac, div_eq_mul_inv]

/-! ### The result depends on sign and value only -/

theorem rne_congr {n d n' d' : Nat} (hd : 0 < d) (hd' : 0 < d') (h : n * d' = n' * d) : rne n d = rne n' d' := by
  have h1 : d * (n / d) + n % d = n := Nat.div_add_mod n d
  have h1' : d' * (n' / d') + n' % d' = n' := Nat.div_add_mod n' d'
  have hq : n / d = n' / d' := by
    rw [← Nat.mul_div_mul_right n d hd', h, Nat.mul_comm d d', Nat.mul_div_mul_right _ _ hd]
  have hr : n % d * d' = n' % d' * d := by
    have e1 : n * d' = d * (n / d) * d' + n % d * d' := by rw [← Nat.add_mul, h1]
    have e2 : n' * d = d' * (n' / d') * d + n' % d' * d := by rw [← Nat.add_mul, h1']
    have e3 : d * (n / d) * d' = d' * (n' / d') * d := by rw [hq]; ring
    omega
  have c1 : 2 * (n % d) < d ↔ 2 * (n' % d') < d' := by
    rw [← Nat.mul_lt_mul_right hd', ← Nat.mul_lt_mul_right (a := d) (b := 2 * (n' % d')) hd, Nat.mul_assoc, Nat.mul_assoc, hr, Nat.mul_comm d d']
  have c2 : d < 2 * (n % d) ↔ d' < 2 * (n' % d') := by
    rw [← Nat.mul_lt_mul_right hd', ← Nat.mul_lt_mul_right (a := d) (c := 2 * (n' % d')) hd, Nat.mul_assoc, Nat.mul_assoc, hr, Nat.mul_comm d d']
  unfold rne
  simp only [c1, c2, hq]

theorem cross_of_frac {n d n' d' : Nat} (hd : 0 < d) (hd' : 0 < d') (h : frac n d = frac n' d') : n * d' = n' * d := by
  have h1 : (d : ℚ) ≠ 0 := by exact_mod_cast hd.ne'
  have h2 : (d' : ℚ) ≠ 0 := by exact_mod_cast hd'.ne'
  have := (div_eq_div_iff h1 h2).mp h
  exact_mod_cast this

theorem roundAt_congr (b : Nat) (hb : 0 < b) (q : Int) {n d n' d' : Nat} (hd : 0 < d) (hd' : 0 < d') (h : frac n d = frac n' d') :
    roundAt b q n d = roundAt b q n' d' := by
  obtain ⟨a, c, h1, h2, h3⟩ := scaled b hb q n d hd
  obtain ⟨a', c', h1', h2', h3'⟩ := scaled b hb q n' d' hd'
  rw [h2, h2']
  exact rne_congr h1 h1' (cross_of_frac h1 h1' (by rw [h3, h3', h]))

theorem flog_unique (b : Nat) (hb : 2 ≤ b) {n d : Nat} (hn : 0 < n) (hd : 0 < d) {l : Int} (h1 : (b : ℚ) ^ l ≤ frac n d)
    (h2 : frac n d < (b : ℚ) ^ (l + 1)) : flog b n d = l := by
  obtain ⟨l1, l2⟩ := flog_spec b hb n d hn hd
  have hb' : (1 : ℚ) < b := by exact_mod_cast (show 1 < b by omega)
  have e1 := (zpow_lt_zpow_iff_right₀ hb').mp (lt_of_le_of_lt h1 l2)
  have e2 := (zpow_lt_zpow_iff_right₀ hb').mp (lt_of_le_of_lt l1 h2)
  omega

theorem toBin_congr (F : BinFmt) (neg : Bool) {n d n' d' : Nat} (hn : 0 < n) (hn' : 0 < n') (hd : 0 < d) (hd' : 0 < d')
    (h : frac n d = frac n' d') : toBin F neg n d = toBin F neg n' d' := by
  obtain ⟨l1, l2⟩ := flog_spec 2 (by decide) n' d' hn' hd'
  rw [← h] at l1 l2
  have hl := flog_unique 2 (by decide) hn hd l1 l2
  unfold toBin
  simp only [hl]
  rw [roundAt_congr 2 (by decide) _ hd hd' h]

theorem numIs_abs {t : Bytes} {x : ℚ} (h : NumIs t x) : ∃ neg a, NumAbs neg t a ∧ x = (if neg then -1 else 1) * a := by
  obtain ⟨m, i, f, ds, ex, n, h1, hm, hi, hf, hx, rfl⟩ := h
  refine ⟨_, _, ⟨m, i, f, ds, ex, n, h1, hm, hi, hf, hx, rfl, rfl⟩, ?_⟩
  by_cases h : m = [] <;> simp [h]

theorem NumAbs.is {neg : Bool} {t : Bytes} {a : ℚ} (h : NumAbs neg t a) : NumIs t ((if neg then -1 else 1) * a) := by
  obtain ⟨m, i, f, ds, ex, n, h1, hm, hi, hf, hx, rfl, rfl⟩ := h
  refine ⟨m, i, f, ds, ex, n, h1, hm, hi, hf, hx, ?_⟩
  by_cases h : m = [] <;> simp [h]

theorem NumAbs.nonneg {neg : Bool} {t : Bytes} {a : ℚ} (h : NumAbs neg t a) : 0 ≤ a := by
  obtain ⟨m, i, f, ds, ex, n, h1, hm, hi, hf, hx, rfl, rfl⟩ := h
  positivity

theorem NumAbs.rnumber {neg : Bool} {t : Bytes} {a : ℚ} (h : NumAbs neg t a) : RNumber t := NumIs.rnumber h.is

theorem flConv_zero (F : BinFmt) {neg : Bool} {t rest : Bytes} {a : ℚ} (h : NumAbs neg t a) (h0 : a = 0) (hr : Delim rest) :
    flConv F (t ++ rest) = .fin neg 0 F.qmin := by
  obtain ⟨m, i, f, ds, ex, n, rfl, hm, hi, hf, hx, rfl, rfl⟩ := h
  have h0 : decVal (i ++ ds) = 0 := by
    rcases mul_eq_zero.mp h0 with h | h
    · exact_mod_cast h
    · exact absurd h (zpow_ne_zero _ (by norm_num))
  rw [flConv_num F hm hi hf hx hr]
  have hv : digitsVal (i ++ ds) = decVal (i ++ ds) := rfl
  simp [decBin, hv, h0]

theorem flConv_pos (F : BinFmt) {neg : Bool} {t : Bytes} {a : ℚ} (h : NumAbs neg t a) (h0 : a ≠ 0) :
    ∃ n d, 0 < n ∧ 0 < d ∧ frac n d = a ∧ ∀ rest, Delim rest → flConv F (t ++ rest) = toBin F neg n d := by
  obtain ⟨m, i, f, ds, ex, n, rfl, hm, hi, hf, hx, rfl, rfl⟩ := h
  have h0 : decVal (i ++ ds) ≠ 0 := by
    intro h
    exact h0 (by simp [h])
  obtain ⟨N, D, h1, h2, h3, h4⟩ := decBin_frac F (decide (m ≠ [])) (i ++ ds) (n - ds.length) h0
  exact ⟨N, D, h1, h2, h4, fun rest hr => by rw [flConv_num F hm hi hf hx hr, h3]⟩

theorem flConv_same (F : BinFmt) {neg : Bool} {t t' rest rest' : Bytes} {a : ℚ} (h : NumAbs neg t a) (h' : NumAbs neg t' a)
    (hr : Delim rest) (hr' : Delim rest') : flConv F (t ++ rest) = flConv F (t' ++ rest') := by
  by_cases h0 : a = 0
  · rw [flConv_zero F h h0 hr, flConv_zero F h' h0 hr']
  · obtain ⟨n, d, a1, a2, a3, a4⟩ := flConv_pos F h h0
    obtain ⟨n', d', b1, b2, b3, b4⟩ := flConv_pos F h' h0
    rw [a4 rest hr, b4 rest' hr']
    exact toBin_congr F neg a1 b1 a2 b2 (by rw [a3, b3])

end Wjson
