import Verif.Proofs.Rounding
/-
Rounding to a binary format, for C82.
-/
namespace Wjson
open Spec

theorem two_zpow_add (q : Int) (k : Nat) : (2 : ℚ) ^ (q + k) = 2 ^ q * 2 ^ k := by
  rw [zpow_add₀ (by norm_num), zpow_natCast]

theorem two_pow_pred {p : Nat} (hp : 1 ≤ p) : (2 : ℚ) ^ p = 2 * 2 ^ (p - 1) := by
  obtain ⟨k, rfl⟩ : ∃ k, p = k + 1 := ⟨p - 1, by omega⟩
  rw [pow_succ]; simp only [Nat.add_sub_cancel]; ring

theorem toBin_spec {F : BinFmt} (hp : 1 ≤ F.p) (hq : F.qmin ≤ F.qmax) (neg : Bool) {n d : Nat} (hn : 0 < n) (hd : 0 < d)
    (hx : frac n d ≤ maxVal F) :
    ∃ m q, toBin F neg n d = .fin neg m q ∧ m < 2 ^ F.p ∧ F.qmin ≤ q ∧ q ≤ F.qmax ∧ (2 ^ (F.p - 1) ≤ m ∨ q = F.qmin) ∧
      (∀ (w : Int) (q' : Int), |w| < 2 ^ F.p → F.qmin ≤ q' → |frac n d - m * (2 : ℚ) ^ q| ≤ |frac n d - w * (2 : ℚ) ^ q'|) ∧
      (minNormal F ≤ frac n d → |frac n d - m * (2 : ℚ) ^ q| ≤ frac n d / 2 ^ F.p) ∧
      (frac n d < (2 : ℚ) ^ F.qmin * 2 ^ F.p → |frac n d - m * (2 : ℚ) ^ q| ≤ (2 : ℚ) ^ F.qmin / 2) := by
  obtain ⟨l1, l2⟩ := flog_spec 2 (by decide) n d hn hd
  push_cast at l1 l2
  obtain ⟨q0, hq0⟩ : ∃ q0, q0 = max F.qmin (flog 2 n d - (F.p - 1 : Nat)) := ⟨_, rfl⟩
  obtain ⟨m0, hm0⟩ : ∃ m0, m0 = roundAt 2 q0 n d := ⟨_, rfl⟩
  have hc := roundAt_close 2 (by decide) q0 n d hd
  have hnear := roundAt_nearest 2 (by decide) q0 n d hd
  rw [← hm0] at hc hnear
  push_cast at hc hnear
  have hpos : (0 : ℚ) < 2 ^ q0 := zpow_pos (by norm_num) _
  have hP := two_pow_pred hp
  have hP1 : (1 : ℚ) ≤ 2 ^ (F.p - 1) := one_le_pow₀ (by norm_num)
  have hup : frac n d < 2 ^ q0 * 2 ^ F.p := by
    rw [← two_zpow_add]
    refine lt_of_lt_of_le l2 (zpow_le_zpow_right₀ (by norm_num) ?_)
    omega
  have hlow : F.qmin < q0 → (2 : ℚ) ^ q0 * 2 ^ (F.p - 1) ≤ frac n d := by
    intro h
    rw [← two_zpow_add]
    refine le_trans (zpow_le_zpow_right₀ (by norm_num) ?_) l1
    omega
  have habs := abs_le.mp hc
  have hm_le : m0 ≤ 2 ^ F.p := by
    by_contra hcon
    have h1 : (2 : ℚ) ^ F.p + 1 ≤ m0 := by exact_mod_cast (show 2 ^ F.p + 1 ≤ m0 by omega)
    have : (2 ^ F.p + 1) * (2 : ℚ) ^ q0 ≤ m0 * 2 ^ q0 := mul_le_mul_of_nonneg_right h1 hpos.le
    nlinarith [habs.1]
  have hm_ge : F.qmin < q0 → 2 ^ (F.p - 1) ≤ m0 := by
    intro h
    by_contra hcon
    have h1 : (m0 : ℚ) + 1 ≤ 2 ^ (F.p - 1) := by exact_mod_cast (show m0 + 1 ≤ 2 ^ (F.p - 1) by omega)
    have : ((m0 : ℚ) + 1) * (2 : ℚ) ^ q0 ≤ 2 ^ (F.p - 1) * 2 ^ q0 := mul_le_mul_of_nonneg_right h1 hpos.le
    nlinarith [habs.2, hlow h]
  have hnearest : ∀ (w : Int) (q' : Int), |w| < 2 ^ F.p → F.qmin ≤ q' → |frac n d - m0 * (2 : ℚ) ^ q0| ≤ |frac n d - w * (2 : ℚ) ^ q'| := by
    intro w q' hw hq'
    by_cases h : q0 ≤ q'
    · obtain ⟨k, hk⟩ := Int.eq_ofNat_of_zero_le (show 0 ≤ q' - q0 by omega)
      have hk : q' = q0 + (k : Int) := by omega
      have := hnear (w * 2 ^ k)
      rw [hk, two_zpow_add]
      push_cast at this
      rwa [mul_assoc, mul_comm ((2 : ℚ) ^ k)] at this
    · have hq1 : F.qmin < q0 := by omega
      have h1 := hlow hq1
      have h2 : (w : ℚ) * 2 ^ q' ≤ 2 ^ q0 * 2 ^ (F.p - 1) := by
        have hw' : (w : ℚ) ≤ 2 ^ F.p := by exact_mod_cast (le_of_lt (lt_of_le_of_lt (le_abs_self w) hw))
        have hq2 : (2 : ℚ) ^ q' * 2 ≤ 2 ^ q0 := by
          have : (2 : ℚ) ^ q' * 2 = 2 ^ (q' + 1) := by rw [zpow_add₀ (by norm_num), zpow_one]
          rw [this]
          exact zpow_le_zpow_right₀ (by norm_num) (by omega)
        have hq3 : (0 : ℚ) < 2 ^ q' := zpow_pos (by norm_num) _
        have h3 : (w : ℚ) * 2 ^ q' ≤ 2 ^ F.p * 2 ^ q' := mul_le_mul_of_nonneg_right hw' hq3.le
        rw [hP] at h3
        have h4 : (2 : ℚ) ^ q' * 2 * 2 ^ (F.p - 1) ≤ 2 ^ q0 * 2 ^ (F.p - 1) := mul_le_mul_of_nonneg_right hq2 (by positivity)
        linarith
      have h5 := hnear (2 ^ (F.p - 1))
      push_cast at h5
      refine le_trans h5 ?_
      rw [abs_of_nonneg (by linarith), abs_of_nonneg (by linarith)]
      linarith
  have hrel : minNormal F ≤ frac n d → |frac n d - m0 * (2 : ℚ) ^ q0| ≤ frac n d / 2 ^ F.p := by
    intro h
    have h1 : F.qmin + (F.p - 1 : Nat) < flog 2 n d + 1 := by
      have := lt_of_le_of_lt h l2
      unfold minNormal at this
      exact (zpow_lt_zpow_iff_right₀ (by norm_num)).mp this
    have h2 : flog 2 n d = q0 + (F.p - 1 : Nat) := by omega
    rw [h2, two_zpow_add] at l1
    refine le_trans hc ?_
    rw [le_div_iff₀ (by positivity), hP]
    linarith
  have hsub : frac n d < (2 : ℚ) ^ F.qmin * 2 ^ F.p → |frac n d - m0 * (2 : ℚ) ^ q0| ≤ (2 : ℚ) ^ F.qmin / 2 := by
    intro h
    have h1 : q0 = F.qmin := by
      by_contra hcon
      have h2 : F.qmin < q0 := by omega
      have h3 := hlow h2
      have h4 : (2 : ℚ) ^ F.qmin * 2 ≤ 2 ^ q0 := by
        have : (2 : ℚ) ^ F.qmin * 2 = 2 ^ (F.qmin + 1) := by rw [zpow_add₀ (by norm_num), zpow_one]
        rw [this]
        exact zpow_le_zpow_right₀ (by norm_num) (by omega)
      rw [hP] at h
      nlinarith
    rw [h1] at hc ⊢
    exact hc
  have hov : (if m0 = 2 ^ F.p then (2 ^ (F.p - 1), q0 + 1) else (m0, q0) : Nat × Int).2 ≤ F.qmax := by
    have hb : q0 ≤ F.qmax := by
      by_contra hcon
      have h1 : F.qmin < q0 := by omega
      have h2 := hlow h1
      have h3 : (2 : ℚ) ^ F.qmax * 2 ≤ 2 ^ q0 := by
        have : (2 : ℚ) ^ F.qmax * 2 = 2 ^ (F.qmax + 1) := by rw [zpow_add₀ (by norm_num), zpow_one]
        rw [this]
        exact zpow_le_zpow_right₀ (by norm_num) (by omega)
      have h4 : (0 : ℚ) < 2 ^ F.qmax := zpow_pos (by norm_num) _
      unfold maxVal at hx
      rw [hP] at hx
      nlinarith
    split
    · next hm =>
      by_contra hcon
      have h1 : q0 = F.qmax := by simp only at hcon; omega
      have h2 : (m0 : ℚ) = 2 ^ F.p := by exact_mod_cast hm
      rw [h2, h1] at habs
      rw [h1] at hpos
      unfold maxVal at hx
      nlinarith [habs.1]
    · exact hb
  have hval : ((if m0 = 2 ^ F.p then (2 ^ (F.p - 1), q0 + 1) else (m0, q0) : Nat × Int).1 : ℚ) *
      2 ^ (if m0 = 2 ^ F.p then (2 ^ (F.p - 1), q0 + 1) else (m0, q0) : Nat × Int).2 = m0 * 2 ^ q0 := by
    split
    · next hm =>
      rw [hm]
      push_cast
      rw [zpow_add₀ (by norm_num), zpow_one, hP]
      ring
    · rfl
  refine ⟨(if m0 = 2 ^ F.p then (2 ^ (F.p - 1), q0 + 1) else (m0, q0) : Nat × Int).1,
    (if m0 = 2 ^ F.p then (2 ^ (F.p - 1), q0 + 1) else (m0, q0) : Nat × Int).2, ?_, ?_, ?_, hov, ?_, ?_, ?_, ?_⟩
  · unfold toBin
    simp only [← hq0, ← hm0]
    rw [if_neg (by omega)]
  · split
    · exact Nat.pow_lt_pow_right (by decide) (by omega)
    · simp only; omega
  · split <;> simp only <;> omega
  · split
    · exact .inl (le_refl _)
    · by_cases h : F.qmin < q0
      · exact .inl (hm_ge h)
      · right; simp only; omega
  · rw [hval]; exact hnearest
  · rw [hval]; exact hrel
  · rw [hval]; exact hsub

/-- Numbers out of range. -/
theorem toBin_over {F : BinFmt} (hp : 1 ≤ F.p) (neg : Bool) {n d : Nat} (hn : 0 < n) (hd : 0 < d)
    (hq : F.qmin ≤ F.qmax) (hx : (2 : ℚ) ^ F.p * 2 ^ F.qmax ≤ frac n d) : toBin F neg n d = .fin neg (2 ^ F.p - 1) F.qmax := by
  obtain ⟨l1, l2⟩ := flog_spec 2 (by decide) n d hn hd
  push_cast at l1 l2
  have h1 : F.qmax + F.p < flog 2 n d + 1 := by
    have := lt_of_le_of_lt hx l2
    rw [mul_comm, ← two_zpow_add] at this
    exact (zpow_lt_zpow_iff_right₀ (by norm_num)).mp this
  unfold toBin
  simp only
  rw [if_pos]
  split <;> simp only <;> omega

end Wjson
