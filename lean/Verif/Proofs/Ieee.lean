import Verif.Proofs.Decimal
import Verif.Proofs.Float
import Verif.Spec.Serial
import Verif.Spec.Nested
/-
Floating point numbers that are written and read, for C82.
-/
namespace Wjson
open Spec

theorem ten_zpow_add (q : Int) (k : Nat) : (10 : ℚ) ^ (q + k) = 10 ^ q * 10 ^ k := by
  rw [zpow_add₀ (by norm_num), zpow_natCast]

theorem sevenDigits_spec {n d : Nat} (hn : 0 < n) (hd : 0 < d) :
    ∃ k j, sevenDigits n d = (k, j) ∧ 10 ^ 6 ≤ k ∧ k < 10 ^ 7 ∧ |frac n d - k * (10 : ℚ) ^ j| ≤ frac n d / (2 * 10 ^ 6) ∧
      (k : ℚ) * 10 ^ j = roundAt 10 (flog 10 n d - 6) n d * 10 ^ (flog 10 n d - 6) ∧
      flog 10 n d ≤ j + 6 ∧ j + 6 ≤ flog 10 n d + 1 := by
  obtain ⟨l1, l2⟩ := flog_spec 10 (by decide) n d hn hd
  have hc := roundAt_close 10 (by decide) (flog 10 n d - 6) n d hd
  push_cast at l1 l2 hc
  generalize hl : flog 10 n d = l at *
  generalize hk : roundAt 10 (l - 6) n d = k0 at *
  have hpos : (0 : ℚ) < 10 ^ (l - 6) := zpow_pos (by norm_num) _
  have e1 : (10 : ℚ) ^ l = 10 ^ (l - 6) * 10 ^ 6 := by
    rw [← ten_zpow_add]; congr 1; push_cast; ring
  have e2 : (10 : ℚ) ^ (l + 1) = 10 ^ (l - 6) * 10 ^ 7 := by
    rw [← ten_zpow_add]; congr 1; push_cast; ring
  rw [e1] at l1
  rw [e2] at l2
  have habs := abs_le.mp hc
  have h1 : 10 ^ 6 ≤ k0 := by
    by_contra hcon
    have : (k0 : ℚ) + 1 ≤ 10 ^ 6 := by exact_mod_cast (show k0 + 1 ≤ 10 ^ 6 by omega)
    nlinarith [habs.2]
  have h2 : k0 ≤ 10 ^ 7 := by
    by_contra hcon
    have : (10 : ℚ) ^ 7 + 1 ≤ k0 := by exact_mod_cast (show 10 ^ 7 + 1 ≤ k0 by omega)
    nlinarith [habs.1]
  have hrel : |frac n d - k0 * (10 : ℚ) ^ (l - 6)| ≤ frac n d / (2 * 10 ^ 6) := by
    refine le_trans hc ?_
    rw [le_div_iff₀ (by norm_num)]
    linarith
  unfold sevenDigits
  simp only [hl, hk]
  by_cases h : k0 = 10 ^ 7
  · have hv : (((10 ^ 6 : Nat) : ℚ)) * 10 ^ (l - 6 + 1) = k0 * 10 ^ (l - 6) := by
      rw [h, zpow_add₀ (by norm_num)]
      push_cast
      ring
    refine ⟨10 ^ 6, l - 6 + 1, ?_, le_refl _, by norm_num, ?_, hv, by omega, by omega⟩
    · rw [if_pos h]
    · rw [hv]; exact hrel
  · refine ⟨k0, l - 6, ?_, h1, by omega, hrel, rfl, by omega, by omega⟩
    rw [if_neg h]

/-- A number close to one with at most seven digits is rounded to that one. -/
theorem sevenDigits_exact {n d : Nat} (hn : 0 < n) (hd : 0 < d) {K : Nat} {J : Int} (hK : K < 10 ^ 7)
    (h : |frac n d - K * (10 : ℚ) ^ J| ≤ K * (10 : ℚ) ^ J / 2 ^ 25) :
    ∃ k j, sevenDigits n d = (k, j) ∧ (k : ℚ) * 10 ^ j = K * 10 ^ J := by
  obtain ⟨k, j, h1, _, _, _, h5, _⟩ := sevenDigits_spec hn hd
  refine ⟨k, j, h1, ?_⟩
  rw [h5]
  obtain ⟨l1, l2⟩ := flog_spec 10 (by decide) n d hn hd
  push_cast at l1 l2
  generalize hl : flog 10 n d = l at *
  have hpos : (0 : ℚ) < 10 ^ (l - 6) := zpow_pos (by norm_num) _
  have hJ : (0 : ℚ) < 10 ^ J := zpow_pos (by norm_num) _
  have e1 : (10 : ℚ) ^ l = 10 ^ (l - 6) * 10 ^ 6 := by
    rw [← ten_zpow_add]; congr 1; push_cast; ring
  have e2 : (10 : ℚ) ^ (l + 1) = 10 ^ (l - 6) * 10 ^ 7 := by
    rw [← ten_zpow_add]; congr 1; push_cast; ring
  rw [e1] at l1
  rw [e2] at l2
  have habs := abs_le.mp h
  have hK' : (K : ℚ) + 1 ≤ 10 ^ 7 := by exact_mod_cast (show K + 1 ≤ 10 ^ 7 by omega)
  have hK0 : (0 : ℚ) ≤ K := by positivity
  by_cases hq : l - 6 ≤ J
  · obtain ⟨i, hi⟩ := Int.eq_ofNat_of_zero_le (show 0 ≤ J - (l - 6) by omega)
    have hi : J = (l - 6) + (i : Int) := by omega
    have hv : (K : ℚ) * 10 ^ J = ((K * 10 ^ i : Nat) : ℚ) * 10 ^ (l - 6) := by
      rw [hi, ten_zpow_add]; push_cast; ring
    rw [hv] at habs h ⊢
    rw [roundAt_unique 10 (by decide) (l - 6) n d hd (K * 10 ^ i)]
    push_cast at habs h ⊢
    generalize ((K : ℚ) * 10 ^ i) * 10 ^ (l - 6) = x at *
    refine lt_of_le_of_lt h ?_
    have : x * (1 - 1 / 2 ^ 25) ≤ 10 ^ (l - 6) * 10 ^ 7 := by nlinarith [habs.1]
    nlinarith
  · exfalso
    have h7 : (10 : ℚ) ^ J * 10 ^ 7 ≤ 10 ^ (l - 6) * 10 ^ 6 := by
      rw [← ten_zpow_add, ← ten_zpow_add]
      exact zpow_le_zpow_right₀ (by norm_num) (by omega)
    have h8 : (K : ℚ) * 10 ^ J + 10 ^ J ≤ 10 ^ J * 10 ^ 7 := by nlinarith
    have h9 : (K : ℚ) * 10 ^ J ≤ 10 ^ J * 10 ^ 7 := by nlinarith
    have := habs.2
    nlinarith

theorem asFrac_spec (m : Nat) (q : Int) : 0 < (asFrac m q).2 ∧ (0 < m → 0 < (asFrac m q).1) ∧
    frac (asFrac m q).1 (asFrac m q).2 = m * (2 : ℚ) ^ q := by
  unfold asFrac
  by_cases h : 0 ≤ q
  · rw [if_pos h]
    obtain ⟨k, rfl⟩ := Int.eq_ofNat_of_zero_le h
    refine ⟨Nat.one_pos, fun hm => Nat.mul_pos hm (Nat.pow_pos (by decide)), ?_⟩
    simp [frac]
  · rw [if_neg h]
    obtain ⟨k, hk⟩ := Int.eq_ofNat_of_zero_le (show 0 ≤ -q by omega)
    have hq' : q = -(k : Int) := by omega
    refine ⟨Nat.pow_pos (by decide), id, ?_⟩
    rw [hk, hq']
    simp [frac, div_eq_mul_inv]

/-- The decimal exponent of a number that is neither too large nor too small. -/
theorem flog10_bound {n d : Nat} (hn : 0 < n) (hd : 0 < d) {A B : Nat} (h1 : (2 : ℚ) ^ (-(A : Int)) ≤ frac n d) (h2 : frac n d < 2 ^ B) :
    -(A : Int) - 1 ≤ flog 10 n d ∧ flog 10 n d ≤ B := by
  obtain ⟨l1, l2⟩ := flog_spec 10 (by decide) n d hn hd
  push_cast at l1 l2
  have ha : (10 : ℚ) ^ (-(A : Int)) ≤ 2 ^ (-(A : Int)) := by
    rw [zpow_neg, zpow_neg, zpow_natCast, zpow_natCast]
    exact inv_anti₀ (by positivity) (pow_le_pow_left₀ (by norm_num) (by norm_num) _)
  have hb : (2 : ℚ) ^ B ≤ 10 ^ (B : Int) := by
    rw [zpow_natCast]
    exact pow_le_pow_left₀ (by norm_num) (by norm_num) _
  constructor
  · have := lt_of_le_of_lt (le_trans ha h1) l2
    have := (zpow_lt_zpow_iff_right₀ (by norm_num)).mp this
    omega
  · have := lt_of_le_of_lt l1 (lt_of_lt_of_le h2 hb)
    have := (zpow_lt_zpow_iff_right₀ (by norm_num)).mp this
    omega

theorem fl_bounds {F : BinFmt} (hF : UsualFmt F) {m : Nat} {q : Int} (h0 : 0 < m) (hm : m < 2 ^ F.p) (h1 : F.qmin ≤ q) (h2 : q ≤ F.qmax) :
    (2 : ℚ) ^ (-(17000 : Nat) : Int) ≤ m * (2 : ℚ) ^ q ∧ (m : ℚ) * (2 : ℚ) ^ q < 2 ^ 18000 := by
  obtain ⟨p1, p2, p3, p4, p5⟩ := hF
  have hm1 : (1 : ℚ) ≤ m := by exact_mod_cast h0
  have hm2 : (m : ℚ) < 2 ^ F.p := by exact_mod_cast hm
  have hq : (0 : ℚ) < 2 ^ q := zpow_pos (by norm_num) _
  constructor
  · calc (2 : ℚ) ^ (-(17000 : Nat) : Int) ≤ 2 ^ q := zpow_le_zpow_right₀ (by norm_num) (by push_cast; omega)
      _ ≤ m * 2 ^ q := by nlinarith
  · calc (m : ℚ) * 2 ^ q < 2 ^ F.p * 2 ^ q := by nlinarith
      _ = 2 ^ (q + (F.p : Int)) := by rw [two_zpow_add]; ring
      _ ≤ 2 ^ ((18000 : Nat) : Int) := zpow_le_zpow_right₀ (by norm_num) (by push_cast; omega)
      _ = 2 ^ 18000 := zpow_natCast _ _

/-- The text of a finite value in the notation with an exponent. -/
theorem flText_sci {F : BinFmt} (hF : UsualFmt F) {neg : Bool} {m : Nat} {q : Int} (hm : m < 2 ^ F.p) (h1 : F.qmin ≤ q) (h2 : q ≤ F.qmax) :
    ∃ k j, flText (-1) (.fin neg m q) = signText neg ++ sciText k j ∧ k < 10 ^ 7 ∧
      (signText neg ++ sciText k j).length ≤ 20 ∧
      |(k : ℚ) * 10 ^ j - m * (2 : ℚ) ^ q| ≤ m * (2 : ℚ) ^ q / (2 * 10 ^ 6) ∧
      ((m = 0 ∧ k = 0 ∧ j = -6) ∨ (0 < m ∧ 10 ^ 6 ≤ k ∧ sevenDigits (asFrac m q).1 (asFrac m q).2 = (k, j))) := by
  by_cases h0 : m = 0
  · subst h0
    refine ⟨0, -6, by simp [flText], by decide, sciText_length _ _ (by decide), by simp, .inl ⟨rfl, rfl, rfl⟩⟩
  · have hpos : 0 < m := Nat.pos_of_ne_zero h0
    obtain ⟨a1, a2, a3⟩ := asFrac_spec m q
    obtain ⟨k, j, e1, e2, e3, e4, _, e6, e7⟩ := sevenDigits_spec (a2 hpos) a1
    obtain ⟨b1, b2⟩ := fl_bounds hF hpos hm h1 h2
    rw [← a3] at b1 b2
    obtain ⟨c1, c2⟩ := flog10_bound (a2 hpos) a1 b1 b2
    rw [a3, abs_sub_comm] at e4
    refine ⟨k, j, ?_, e3, sciText_length _ _ ?_, e4, .inr ⟨hpos, e2, e1⟩⟩
    · simp [flText, h0, e1]
    · push_cast at c1 c2; omega

/-- The text of a finite value in the notation without an exponent. -/
theorem flText_fix (neg : Bool) (m : Nat) (q : Int) (R : Nat) :
    ∃ k, flText R (.fin neg m q) = signText neg ++ fixText R k ∧ k = roundAt 10 (-R) (asFrac m q).1 (asFrac m q).2 ∧
      |(k : ℚ) * 10 ^ (-(R : Int)) - m * (2 : ℚ) ^ q| ≤ 10 ^ (-(R : Int)) / 2 := by
  obtain ⟨a1, a2, a3⟩ := asFrac_spec m q
  have hc := roundAt_close 10 (by decide) (-(R : Int)) (asFrac m q).1 _ a1
  rw [a3, abs_sub_comm] at hc
  push_cast at hc
  refine ⟨_, ?_, rfl, hc⟩
  have hR : ¬ ((R : Int) = -1) := by omega
  simp [flText, hR]

theorem digit_nz {b : Byte} (h : Digit b) : b ≠ 0 := by
  rintro rfl
  revert h
  unfold Digit
  decide

theorem rnumber_nz {t : Bytes} (h : RNumber t) : ∀ b ∈ t, b ≠ 0 := by
  obtain ⟨m, i, f, x, rfl, hm, hi, hf, hx⟩ := h
  intro b hb
  simp only [List.mem_append] at hb
  rcases hb with ((hb | hb) | hb) | hb
  · rcases hm with rfl | rfl
    · cases hb
    · rw [List.mem_singleton.mp hb]; decide
  · exact digit_nz ((RInt.digit hi).2 b hb)
  · rcases hf with rfl | ⟨ds, rfl, hd⟩
    · cases hb
    · rcases List.mem_cons.mp hb with rfl | hb
      · decide
      · exact digit_nz (hd.2 b hb)
  · rcases hx with rfl | ⟨x, sg, ds, rfl, h1, h2, h3⟩
    · cases hb
    · rcases List.mem_cons.mp hb with rfl | hb
      · rcases h1 with rfl | rfl <;> decide
      · rcases List.mem_append.mp hb with hb | hb
        · rcases h2 with rfl | rfl | rfl
          · cases hb
          · rw [List.mem_singleton.mp hb]; decide
          · rw [List.mem_singleton.mp hb]; decide
        · exact digit_nz (h3.2 b hb)

theorem rnumber_start {t : Bytes} (h : RNumber t) : Start t := by
  obtain ⟨m, i, f, x, rfl, hm, hi, hf, hx⟩ := h
  have key : ∀ b u, (b = c%'-' ∨ Digit b) → Start (b :: u) := by
    intro b u hb
    refine ⟨b, u, rfl, ?_⟩
    have : ∀ b : Byte, (b = c%'-' ∨ Digit b) → ¬ WsByte b ∧ b ≠ c%'/' ∧ b ≠ c%']' ∧ b ≠ c%'}' ∧ b ≠ c%',' ∧ b ≠ c%':' ∧ b ≠ c%'*' := by
      unfold Digit WsByte
      apply forall_byte
      decide +kernel
    exact this b hb
  rcases hm with rfl | rfl
  · have := RInt.digit hi
    cases i with
    | nil => exact absurd rfl this.1
    | cons d i => exact key d _ (.inr (this.2 d (by simp)))
  · exact key _ _ (.inl rfl)

/-- A number that fits the buffer is converted as a whole. -/
theorem float_reads {α : Type} (F : FloatTy α) (R : Int) {v : α} {t : Bytes} (ht : RNumber t) (hl : t.length ≤ floatBuf R)
    (hconv : ∀ rest v0, Delim rest → F.conv (t ++ rest) v0 = v) : Reads (floatSer F R).de t v := by
  have h0 := rnumber_nz ht
  intro v0 rest e _ hd
  have h1 := deFloat_number F R ht (hd.numFollow _) v0 e
  refine h1.trans ?_
  have hh : (t ++ rest).take (floatBuf R) = t ++ rest.take (floatBuf R - t.length) := by
    rw [List.take_append, List.take_of_length_le hl]
  show Out.ok (F.conv (((t ++ rest).take (floatBuf R)).takeWhile (· ≠ 0)) v0, rest, e) = _
  rw [hh, List.takeWhile_append_of_pos (by simpa using h0), hconv]
  intro b hb
  apply hd
  cases rest with
  | nil => simp at hb
  | cons x y =>
    cases hk : floatBuf R - t.length with
    | zero => rw [hk] at hb; simp at hb
    | succ k =>
      rw [hk, List.take_succ_cons, List.takeWhile_cons] at hb
      by_cases hx : x = 0
      · simp [hx] at hb
      · simpa [hx] using hb

theorem float_writes {α : Type} (F : FloatTy α) (R : Int) {v : α} (ht : RNumber (F.fmt v)) (hl : (F.fmt v).length ≤ floatBuf R) :
    Writes (floatSer F R).emit v (F.fmt v) := by
  intro k
  simp only [floatSer, emitFloat]
  rw [List.take_of_length_le hl]
  congr 1
  have := List.takeWhile_append_of_pos (l₁ := F.fmt v) (l₂ := []) (p := fun x : Byte => decide (x ≠ 0)) (by simpa using rnumber_nz ht)
  simpa using this

/-- Every JSON number stands for a number. -/
theorem rnumber_is {t : Bytes} (h : RNumber t) : ∃ x, NumIs t x := by
  obtain ⟨m, i, f, ex, rfl, hm, hi, hf, hx⟩ := h
  obtain ⟨ds, hf⟩ : ∃ ds, FracIs f ds := by
    rcases hf with rfl | ⟨ds, rfl, h⟩
    · exact ⟨[], .inl ⟨rfl, rfl⟩⟩
    · exact ⟨ds, .inr ⟨rfl, h⟩⟩
  obtain ⟨n, hx⟩ : ∃ n, ExpIs ex n := by
    rcases hx with rfl | ⟨x, sg, ds, rfl, h1, h2, h3⟩
    · exact ⟨0, .inl ⟨rfl, rfl⟩⟩
    · rcases h2 with h | h | h
      · exact ⟨_, .inr ⟨x, sg, ds, rfl, h1, h3, .inl ⟨.inl h, rfl⟩⟩⟩
      · exact ⟨_, .inr ⟨x, sg, ds, rfl, h1, h3, .inl ⟨.inr h, rfl⟩⟩⟩
      · exact ⟨_, .inr ⟨x, sg, ds, rfl, h1, h3, .inr ⟨h, rfl⟩⟩⟩
  exact ⟨_, m, i, f, ds, ex, n, rfl, hm, hi, hf, hx, rfl⟩

theorem delim_nil : Delim [] := by intro b hb; cases hb

/-- What C82 says of a text that is written again. -/
theorem kept_all {F : BinFmt} {R : Int} {neg : Bool} {t t' : Bytes} {a : ℚ} (ha : NumAbs neg t a) (ht : NumAbs neg t' a)
    (h : flText R (flConv F t) = t') (hl : t'.length ≤ floatBuf R) :
    RT (floatSer (F.ty R) R) (flConv F t) t' ∧ ∀ c, GoodValue c (floatSer (F.ty R) R) (flConv F t) := by
  subst h
  have hc : ∀ rest, Delim rest → flConv F (flText R (flConv F t) ++ rest) = flConv F t := fun rest hr => by
    have := flConv_same F ht ha hr delim_nil
    rwa [List.append_nil] at this
  exact ⟨⟨float_writes (F.ty R) R (v := flConv F t) ht.rnumber hl, rnumber_start ht.rnumber,
    float_reads (F.ty R) R ht.rnumber hl fun rest _ hr => hc rest hr⟩,
    fun c => .float (F := F.ty R) ht.rnumber hl fun rest _ hr => hc rest hr⟩

/-- A number that is read. -/
theorem kept_reads {F : BinFmt} {R : Int} {neg : Bool} {t : Bytes} {a : ℚ} (ha : NumAbs neg t a) (hl : t.length ≤ floatBuf R) :
    Reads (floatSer (F.ty R) R).de t (flConv F t) :=
  float_reads (F.ty R) R ha.rnumber hl fun rest _ hr => by
    have := flConv_same F ha ha hr delim_nil
    rwa [List.append_nil] at this

/-- Reading a number in range: its relative error. -/
theorem conv_close {F : BinFmt} (hF : UsualFmt F) {neg : Bool} {t : Bytes} {a : ℚ} (ha : NumAbs neg t a) (h0 : a ≠ 0)
    (hx : minNormal F ≤ a ∧ a ≤ maxVal F) :
    ∃ m q, flConv F t = .fin neg m q ∧ 0 < m ∧ m < 2 ^ F.p ∧ F.qmin ≤ q ∧ q ≤ F.qmax ∧ |a - m * (2 : ℚ) ^ q| ≤ a / 2 ^ F.p := by
  obtain ⟨p1, p2, p3, p4, p5⟩ := hF
  obtain ⟨n, d, a1, a2, a3, a4⟩ := flConv_pos F ha h0
  obtain ⟨m, q, b1, b2, b3, b4, b5, _, b7, _⟩ := toBin_spec p1 p4 neg a1 a2 (by rw [a3]; exact hx.2)
  rw [a3] at b7
  have b7 := b7 hx.1
  have hap : 0 < a := lt_of_le_of_ne ha.nonneg (Ne.symm h0)
  have hc := (a4 [] delim_nil).trans b1
  rw [List.append_nil] at hc
  refine ⟨m, q, hc, ?_, b2, b3, b4, b7⟩
  rcases Nat.eq_zero_or_pos m with rfl | h
  · exfalso
    simp only [Nat.cast_zero, zero_mul, sub_zero, abs_of_pos hap] at b7
    have : (2 : ℚ) ^ 1 ≤ 2 ^ F.p := pow_le_pow_right₀ (by norm_num) p1
    rw [le_div_iff₀ (by positivity)] at b7
    nlinarith
  · exact h

/-- Seven digits are kept. -/
theorem kept_sci {F : BinFmt} (hF : UsualFmt F) (hp : 25 ≤ F.p) {neg : Bool} {t : Bytes} {a : ℚ} (ha : NumAbs neg t a) {K : Nat} {J : Int}
    (hK : a = K * 10 ^ J) (hK7 : K < 10 ^ 7) (hx : a = 0 ∨ minNormal F ≤ a ∧ a ≤ maxVal F) :
    ∃ (k : Nat) (j : Int), k < 10 ^ 7 ∧ (a ≠ 0 → 10 ^ 6 ≤ k) ∧ (k : ℚ) * 10 ^ j = a ∧ flText (-1) (flConv F t) = signText neg ++ sciText k j ∧
      (signText neg ++ sciText k j).length ≤ 20 := by
  by_cases h0 : a = 0
  · have hz := flConv_zero F ha h0 delim_nil
    rw [List.append_nil] at hz
    refine ⟨0, -6, by decide, fun h => absurd h0 h, by simp [h0], ?_, sciText_length _ _ (by decide)⟩
    rw [hz]
    simp [flText]
  · obtain ⟨m, q, b1, hm, b2, b3, b4, b7⟩ := conv_close hF ha h0 (hx.resolve_left h0)
    have hp25 : (2 : ℚ) ^ 25 ≤ 2 ^ F.p := pow_le_pow_right₀ (by norm_num) hp
    have b8 : |a - m * (2 : ℚ) ^ q| ≤ a / 2 ^ 25 := le_trans b7 (div_le_div_of_nonneg_left ha.nonneg (by norm_num) hp25)
    obtain ⟨k, j, e1, e2, e3, _, e5⟩ := flText_sci hF (neg := neg) b2 b3 b4
    obtain ⟨c1, c2, c3⟩ := asFrac_spec m q
    rw [abs_sub_comm, ← c3, hK] at b8
    obtain ⟨k', j', f1, f2⟩ := sevenDigits_exact (c2 hm) c1 hK7 b8
    rcases e5 with ⟨rfl, _⟩ | ⟨_, e7, e6⟩
    · omega
    · rw [f1] at e6
      cases e6
      exact ⟨_, _, e2, fun _ => e7, by rw [f2, hK], by rw [b1, e1], e3⟩

/-- Digits behind the point are kept. -/
theorem kept_fix {F : BinFmt} (hF : UsualFmt F) (R : Nat) {neg : Bool} {t : Bytes} {a : ℚ} (ha : NumAbs neg t a) {K : Nat}
    (hK : a = K * 10 ^ (-(R : Int))) (hK2 : K < 2 ^ (F.p - 1)) (hx : a = 0 ∨ minNormal F ≤ a ∧ a ≤ maxVal F) :
    flText R (flConv F t) = signText neg ++ fixText R K := by
  have hR : (0 : ℚ) < 10 ^ (-(R : Int)) := zpow_pos (by norm_num) _
  by_cases h0 : a = 0
  · have hz := flConv_zero F ha h0 delim_nil
    rw [List.append_nil] at hz
    obtain ⟨k, e1, e2, _⟩ := flText_fix neg 0 F.qmin R
    rw [hz, e1]
    congr 2
    have hK0 : K = 0 := by
      rw [h0] at hK
      rcases mul_eq_zero.mp hK.symm with h | h
      · exact_mod_cast h
      · exact absurd h (ne_of_gt hR)
    obtain ⟨c1, _, c3⟩ := asFrac_spec 0 F.qmin
    rw [hK0, e2]
    exact roundAt_unique 10 (by decide) _ _ _ c1 0 (by rw [c3]; simp)
  · obtain ⟨m, q, b1, hm, b2, b3, b4, b7⟩ := conv_close hF ha h0 (hx.resolve_left h0)
    obtain ⟨k, e1, e2, _⟩ := flText_fix neg m q R
    rw [b1, e1]
    congr 2
    obtain ⟨c1, _, c3⟩ := asFrac_spec m q
    rw [e2]
    refine roundAt_unique 10 (by decide) _ _ _ c1 K ?_
    rw [c3, abs_sub_comm]
    push_cast
    rw [← hK]
    refine lt_of_le_of_lt b7 ?_
    have hp2 : (2 : ℚ) ^ F.p = 2 ^ (F.p - 1) * 2 := by rw [← pow_succ]; congr 1; have := hF.1; omega
    have hK3 : (K : ℚ) < 2 ^ (F.p - 1) := by exact_mod_cast hK2
    rw [div_lt_div_iff₀ (by positivity) (by norm_num), hp2, hK]
    nlinarith

/-- A number with seven digits is written in one way. -/
theorem seven_unique {k k' : Nat} {j j' : Int} (h1 : 10 ^ 6 ≤ k) (h2 : k < 10 ^ 7) (h3 : 10 ^ 6 ≤ k') (h4 : k' < 10 ^ 7)
    (h : (k : ℚ) * 10 ^ j = k' * 10 ^ j') : k = k' ∧ j = j' := by
  have key : ∀ {k k' : Nat} {j j' : Int}, k < 10 ^ 7 → 10 ^ 6 ≤ k' → (k : ℚ) * 10 ^ j = k' * 10 ^ j' → j' ≤ j := by
    intro k k' j j' h2 h3 h
    by_contra hj
    obtain ⟨d, rfl⟩ : ∃ d : Nat, j' = j + (d + 1 : Nat) := ⟨(j' - j - 1).toNat, by omega⟩
    rw [ten_zpow_add, ← mul_assoc, mul_right_comm] at h
    have hj : (10 : ℚ) ^ j ≠ 0 := ne_of_gt (zpow_pos (by norm_num) _)
    have h := mul_right_cancel₀ hj h
    have h : k = k' * 10 ^ (d + 1) := by exact_mod_cast h
    have : 1 ≤ 10 ^ d := Nat.one_le_pow _ _ (by decide)
    rw [pow_succ] at h
    nlinarith
  have hj : j = j' := le_antisymm (key h4 h1 h.symm) (key h2 h3 h)
  subst hj
  exact ⟨by exact_mod_cast mul_right_cancel₀ (ne_of_gt (zpow_pos (show (0 : ℚ) < 10 by norm_num) _)) h, rfl⟩

end Wjson
