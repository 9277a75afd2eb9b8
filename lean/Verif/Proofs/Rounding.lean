import Verif.Spec.Decimal
import Mathlib.Tactic.Linarith
import Mathlib.Tactic.Positivity
import Mathlib.Tactic.FieldSimp
import Mathlib.Tactic.Ring
/-
Rounding of fractions, for C82.
-/
namespace Wjson
open Spec

/-- The fraction `n / d`. -/
abbrev frac (n d : Nat) : ℚ := (n : ℚ) / d

theorem rne_nat (n d : Nat) (hd : 0 < d) : (2 * n : Int) ≤ (2 * rne n d + 1) * d ∧ ((2 * rne n d : Int) - 1) * d ≤ 2 * n := by
  have h1 : d * (n / d) + n % d = n := Nat.div_add_mod n d
  have h2 : n % d < d := Nat.mod_lt n hd
  have h3 : (n : Int) = d * (n / d : Nat) + (n % d : Nat) := by exact_mod_cast h1.symm
  have key : ∀ k : Nat, (k = n / d ∧ 2 * (n % d) ≤ d) ∨ (k = n / d + 1 ∧ d ≤ 2 * (n % d)) →
      (2 * n : Int) ≤ (2 * k + 1) * d ∧ ((2 * k : Int) - 1) * d ≤ 2 * n := by
    intro k hk
    generalize hq : n / d = Q at *
    generalize hr : n % d = r at *
    rw [h3]
    rcases hk with ⟨rfl, h⟩ | ⟨rfl, h⟩
    · have : (2 * r : Int) ≤ d := by exact_mod_cast h
      constructor <;> push_cast <;> nlinarith
    · have : (d : Int) ≤ 2 * r := by exact_mod_cast h
      have : (r : Int) < d := by exact_mod_cast h2
      constructor <;> push_cast <;> nlinarith
  apply key
  unfold rne
  split
  · left; exact ⟨rfl, by omega⟩
  · split
    · right; exact ⟨rfl, by omega⟩
    · split
      · left; exact ⟨rfl, by omega⟩
      · right; exact ⟨rfl, by omega⟩

theorem rne_close (n d : Nat) (hd : 0 < d) : |frac n d - rne n d| ≤ 1 / 2 := by
  obtain ⟨h1, h2⟩ := rne_nat n d hd
  have hd' : (0 : ℚ) < d := by exact_mod_cast hd
  have h1 : (2 * n : ℚ) ≤ (2 * rne n d + 1) * d := by exact_mod_cast h1
  have h2 : ((2 * rne n d : ℚ) - 1) * d ≤ 2 * n := by exact_mod_cast h2
  rw [abs_le]
  constructor
  · have : (rne n d : ℚ) - 1 / 2 ≤ n / d := by rw [le_div_iff₀ hd']; linarith
    linarith
  · have : (n : ℚ) / d ≤ rne n d + 1 / 2 := by rw [div_le_iff₀ hd']; linarith
    linarith

theorem nat_of_close {a k : Nat} (h : |(a : ℚ) - k| < 1) : a = k := by
  have h1 : |((a : Int) - k)| < 1 := by exact_mod_cast h
  have := Int.abs_lt_one_iff.mp h1
  omega

/-- The fraction divided by a power of `b`. -/
theorem scaled (b : Nat) (hb : 0 < b) (q : Int) (n d : Nat) (hd : 0 < d) :
    ∃ n' d', 0 < d' ∧ roundAt b q n d = rne n' d' ∧ frac n' d' = frac n d / (b : ℚ) ^ q := by
  have hb' : (b : ℚ) ≠ 0 := by exact_mod_cast hb.ne'
  have hd' : (d : ℚ) ≠ 0 := by exact_mod_cast hd.ne'
  unfold roundAt
  by_cases h : 0 ≤ q
  · rw [if_pos h]
    obtain ⟨k, rfl⟩ := Int.eq_ofNat_of_zero_le h
    refine ⟨_, _, Nat.mul_pos hd (Nat.pow_pos hb), rfl, ?_⟩
    simp only [frac, Int.toNat_natCast, zpow_natCast]
    push_cast
    field_simp
  · rw [if_neg h]
    obtain ⟨k, hk⟩ := Int.eq_ofNat_of_zero_le (show 0 ≤ -q by omega)
    have hq : q = -(k : Int) := by omega
    refine ⟨_, _, hd, rfl, ?_⟩
    rw [hk, hq]
    simp only [frac, Int.toNat_natCast, zpow_neg, zpow_natCast]
    push_cast
    field_simp

theorem roundAt_close (b : Nat) (hb : 0 < b) (q : Int) (n d : Nat) (hd : 0 < d) :
    |frac n d - roundAt b q n d * (b : ℚ) ^ q| ≤ (b : ℚ) ^ q / 2 := by
  obtain ⟨n', d', h1, h2, h3⟩ := scaled b hb q n d hd
  have hp : (0 : ℚ) < (b : ℚ) ^ q := zpow_pos (by exact_mod_cast hb) q
  have h4 := rne_close n' d' h1
  rw [h3, ← h2] at h4
  have : frac n d - roundAt b q n d * (b : ℚ) ^ q = (frac n d / (b : ℚ) ^ q - roundAt b q n d) * (b : ℚ) ^ q := by field_simp
  rw [this, abs_mul, abs_of_pos hp]
  nlinarith

theorem roundAt_unique (b : Nat) (hb : 0 < b) (q : Int) (n d : Nat) (hd : 0 < d) (k : Nat)
    (h : |frac n d - k * (b : ℚ) ^ q| < (b : ℚ) ^ q / 2) : roundAt b q n d = k := by
  have hp : (0 : ℚ) < (b : ℚ) ^ q := zpow_pos (by exact_mod_cast hb) q
  have h1 := roundAt_close b hb q n d hd
  refine nat_of_close ?_
  have h2 : |(roundAt b q n d * (b : ℚ) ^ q) - k * (b : ℚ) ^ q| < (b : ℚ) ^ q := by
    have := abs_sub_le (roundAt b q n d * (b : ℚ) ^ q) (frac n d) (k * (b : ℚ) ^ q)
    rw [abs_sub_comm] at h1
    linarith
  rw [← sub_mul, abs_mul, abs_of_pos hp] at h2
  by_contra hc
  push Not at hc
  nlinarith

/-- No other multiple of `b ^ q` is closer. -/
theorem roundAt_nearest (b : Nat) (hb : 0 < b) (q : Int) (n d : Nat) (hd : 0 < d) (k : Int) :
    |frac n d - roundAt b q n d * (b : ℚ) ^ q| ≤ |frac n d - k * (b : ℚ) ^ q| := by
  have hp : (0 : ℚ) < (b : ℚ) ^ q := zpow_pos (by exact_mod_cast hb) q
  have h1 := roundAt_close b hb q n d hd
  by_cases hk : (roundAt b q n d : Int) = k
  · rw [← hk]; push_cast; exact le_refl _
  · have h2 : 1 ≤ |((roundAt b q n d : Int) - k)| := by
      exact Int.one_le_abs (sub_ne_zero.mpr hk)
    have h2 : (1 : ℚ) ≤ |((roundAt b q n d : ℚ) - k)| := by exact_mod_cast h2
    have h3 : (b : ℚ) ^ q ≤ |roundAt b q n d * (b : ℚ) ^ q - k * (b : ℚ) ^ q| := by
      rw [← sub_mul, abs_mul, abs_of_pos hp]
      nlinarith
    have := abs_sub_le (roundAt b q n d * (b : ℚ) ^ q) (frac n d) (k * (b : ℚ) ^ q)
    rw [abs_sub_comm (roundAt b q n d * (b : ℚ) ^ q) (frac n d)] at this
    linarith

/-! ### Logarithms -/

theorem ilog_spec (b : Nat) (hb : 2 ≤ b) (f : Nat) : ∀ n, 0 < n → n < 2 ^ (f + 1) → b ^ ilog b f n ≤ n ∧ n < b ^ (ilog b f n + 1) := by
  induction f with
  | zero =>
    intro n hn h
    simp only [ilog, pow_zero, zero_add, pow_one] at h ⊢
    omega
  | succ f ih =>
    intro n hn h
    unfold ilog
    split
    · simp; omega
    · have h1 : n / b < 2 ^ (f + 1) := by
        rw [Nat.div_lt_iff_lt_mul (by omega)]
        have : 2 ^ (f + 1 + 1) = 2 ^ (f + 1) * 2 := pow_succ _ _
        have : 2 ^ (f + 1) * 2 ≤ 2 ^ (f + 1) * b := Nat.mul_le_mul_left _ hb
        omega
      obtain ⟨h2, h3⟩ := ih (n / b) (Nat.div_pos (by omega) (by omega)) h1
      constructor
      · rw [pow_succ]
        exact (Nat.le_div_iff_mul_le (by omega)).mp h2
      · rw [pow_succ]
        exact (Nat.div_lt_iff_lt_mul (by omega)).mp h3

theorem ilog_log2 (b : Nat) (hb : 2 ≤ b) (n : Nat) (hn : 0 < n) : b ^ ilog b n.log2 n ≤ n ∧ n < b ^ (ilog b n.log2 n + 1) :=
  ilog_spec b hb _ n hn Nat.lt_log2_self

theorem leScaled_iff (b : Nat) (hb : 0 < b) (l : Int) (n d : Nat) (hd : 0 < d) :
    (if 0 ≤ l then d * b ^ l.toNat ≤ n else d ≤ n * b ^ (-l).toNat) ↔ (b : ℚ) ^ l ≤ frac n d := by
  have hd' : (0 : ℚ) < d := by exact_mod_cast hd
  have hb' : (0 : ℚ) < b := by exact_mod_cast hb
  rw [le_div_iff₀ hd']
  by_cases h : 0 ≤ l
  · rw [if_pos h]
    obtain ⟨k, rfl⟩ := Int.eq_ofNat_of_zero_le h
    simp only [Int.toNat_natCast, zpow_natCast]
    rw [mul_comm]
    exact_mod_cast Iff.rfl
  · rw [if_neg h]
    obtain ⟨k, hk⟩ := Int.eq_ofNat_of_zero_le (show 0 ≤ -l by omega)
    have hl : l = -(k : Int) := by omega
    rw [hk, hl]
    simp only [Int.toNat_natCast, zpow_neg, zpow_natCast]
    have hp : (0 : ℚ) < (b : ℚ) ^ k := by positivity
    rw [inv_mul_le_iff₀ hp, mul_comm ((b : ℚ) ^ k)]
    exact_mod_cast Iff.rfl

theorem flog_spec (b : Nat) (hb : 2 ≤ b) (n d : Nat) (hn : 0 < n) (hd : 0 < d) :
    (b : ℚ) ^ flog b n d ≤ frac n d ∧ frac n d < (b : ℚ) ^ (flog b n d + 1) := by
  obtain ⟨n1, n2⟩ := ilog_log2 b hb n hn
  obtain ⟨d1, d2⟩ := ilog_log2 b hb d hd
  have hd' : (0 : ℚ) < d := by exact_mod_cast hd
  have hn' : (0 : ℚ) < n := by exact_mod_cast hn
  have hb' : (0 : ℚ) < b := by exact_mod_cast (show 0 < b by omega)
  have n1 : (b : ℚ) ^ ilog b n.log2 n ≤ n := by exact_mod_cast n1
  have n2 : (n : ℚ) < (b : ℚ) ^ (ilog b n.log2 n + 1) := by exact_mod_cast n2
  have d1 : (b : ℚ) ^ ilog b d.log2 d ≤ d := by exact_mod_cast d1
  have d2 : (d : ℚ) < (b : ℚ) ^ (ilog b d.log2 d + 1) := by exact_mod_cast d2
  unfold flog
  generalize ilog b n.log2 n = i at *
  generalize ilog b d.log2 d = j at *
  have hlow : (b : ℚ) ^ ((i : Int) - j - 1) ≤ frac n d := by
    rw [le_div_iff₀ hd']
    have h1 : (b : ℚ) ^ ((i : Int) - j - 1) * (b : ℚ) ^ (j + 1) = (b : ℚ) ^ i := by
      rw [← zpow_natCast, ← zpow_natCast, ← zpow_add₀ hb'.ne']
      congr 1; push_cast; ring
    have h2 : (0 : ℚ) < (b : ℚ) ^ ((i : Int) - j - 1) := zpow_pos hb' _
    have := mul_le_mul_of_nonneg_left d2.le h2.le
    linarith
  have hup : frac n d < (b : ℚ) ^ ((i : Int) - j + 1) := by
    rw [div_lt_iff₀ hd']
    have h1 : (b : ℚ) ^ ((i : Int) - j + 1) * (b : ℚ) ^ j = (b : ℚ) ^ (i + 1) := by
      rw [← zpow_natCast, ← zpow_natCast, ← zpow_add₀ hb'.ne']
      congr 1; push_cast; ring
    have h2 : (0 : ℚ) < (b : ℚ) ^ ((i : Int) - j + 1) := zpow_pos hb' _
    have := mul_le_mul_of_nonneg_left d1 h2.le
    linarith
  have := leScaled_iff b (by omega) ((i : Int) - j) n d hd
  by_cases h : (if 0 ≤ (i : Int) - j then d * b ^ ((i : Int) - j).toNat ≤ n else d ≤ n * b ^ (-((i : Int) - j)).toNat)
  · simp only [h, if_true]
    exact ⟨this.mp h, hup⟩
  · simp only [h, if_false]
    refine ⟨hlow, ?_⟩
    rw [sub_add_cancel]
    exact not_le.mp fun hc => h (this.mpr hc)

end Wjson
