import Verif.Proofs.Ieee
import Verif.Spec.Denotes
import Verif.Spec.Nested
/-
Property C82: floating point numbers.
Specification: Verif/Spec/Decimal.lean (`NumIs`: the rational number a JSON number stands for; `FlIs`, `FlOf`:
the rational numbers a floating point format has; `ShortDecimal`: few digits).
`F.ty R` (Verif/Model/Ieee.lean) is what the streams of the standard library do for a binary floating point
format `F` when `value<T, R>` uses them.
-/
namespace Wjson
open Spec

/-- C82. A JSON number that fits the buffer (20 bytes, or 20 + R) and the range of the type is read as a nearest value of
the type. -/
theorem C82_reads_nearest {F : BinFmt} (hF : UsualFmt F) (R : Int) {t : Bytes} {x : ℚ} (h : NumIs t x)
    (hl : t.length ≤ (if R = -1 then 20 else 20 + R).toNat) (hx : |x| ≤ maxVal F) :
    ∃ v y, Reads (floatSer (F.ty R) R).de t v ∧ FlOf F v ∧ FlIs v y ∧ ∀ w z, FlOf F w → FlIs w z → |y - x| ≤ |z - x| := by
  obtain ⟨neg, a, ha, rfl⟩ := numIs_abs h
  have ha0 := ha.nonneg
  have hs : |(if neg then (-1 : ℚ) else 1) * a| = a := by cases neg <;> simp [abs_of_nonneg ha0]
  rw [hs] at hx
  have hr : ∀ v, (∀ rest, Delim rest → flConv F (t ++ rest) = v) → Reads (floatSer (F.ty R) R).de t v := fun v hv =>
    float_reads (F.ty R) R ha.rnumber hl fun rest _ hr => hv rest hr
  obtain ⟨p1, p2, p3, p4, p5⟩ := hF
  by_cases h0 : a = 0
  · refine ⟨.fin neg 0 F.qmin, 0, hr _ fun rest hr => flConv_zero F ha h0 hr, ⟨neg, 0, F.qmin, rfl, Nat.pow_pos (by decide), le_refl _, p4, .inr rfl⟩,
      ⟨neg, 0, F.qmin, rfl, by simp⟩, fun w z _ _ => ?_⟩
    simp [h0]
  · obtain ⟨n, d, a1, a2, a3, a4⟩ := flConv_pos F ha h0
    obtain ⟨m, q, b1, b2, b3, b4, b5, b6, _⟩ := toBin_spec p1 p4 neg a1 a2 (by rw [a3]; exact hx)
    refine ⟨.fin neg m q, _, hr _ fun rest hr => (a4 rest hr).trans b1, ⟨neg, m, q, rfl, b2, b3, b4, b5⟩, ⟨neg, m, q, rfl, rfl⟩, ?_⟩
    rintro w z ⟨neg', m', q', rfl, c1, c2, c3, c4⟩ ⟨_, _, _, e, rfl⟩
    cases e
    rw [a3] at b6
    have key : ∀ w : Int, |w| < 2 ^ F.p → |a - m * (2 : ℚ) ^ q| ≤ |a - w * (2 : ℚ) ^ q'| := fun w hw => b6 w q' hw c2
    have hm' : |(m' : Int)| < 2 ^ F.p := by rw [abs_of_nonneg (by omega)]; exact_mod_cast c1
    have k1 := key m' hm'
    have k2 := key (-m') (by rw [abs_neg]; exact hm')
    push_cast at k1 k2
    have e : ∀ u v : ℚ, |(-u) - (-v)| = |v - u| := fun u v => by congr 1; ring
    have e' : ∀ u v : ℚ, |u - v| = |v - u| := fun u v => abs_sub_comm _ _
    cases neg <;> cases neg' <;> simp only [Bool.false_eq_true, if_true, if_false, one_mul, neg_mul] at k1 k2 ⊢
    · rw [e', e' _ a]; exact k1
    · rw [e', e' _ a]; exact k2
    · rw [e, e' _ (-a)]
      refine le_trans k2 (le_of_eq ?_)
      rw [← abs_neg]; congr 1; ring
    · rw [e, e]; exact k1

/-- C82. A number out of range is read as the largest value of the type, without an error. -/
theorem C82_reads_overflow {F : BinFmt} (hF : UsualFmt F) (R : Int) {t : Bytes} {x : ℚ} (h : NumIs t x)
    (hl : t.length ≤ (if R = -1 then 20 else 20 + R).toNat) (hx : (2 : ℚ) ^ F.p * 2 ^ F.qmax ≤ |x|) :
    ∃ v, Reads (floatSer (F.ty R) R).de t v ∧ FlIs v (if 0 ≤ x then maxVal F else -maxVal F) := by
  obtain ⟨neg, a, ha, rfl⟩ := numIs_abs h
  have ha0 := ha.nonneg
  have hs : |(if neg then (-1 : ℚ) else 1) * a| = a := by cases neg <;> simp [abs_of_nonneg ha0]
  rw [hs] at hx
  have hpos : (0 : ℚ) < 2 ^ F.p * 2 ^ F.qmax := mul_pos (by positivity) (zpow_pos (by norm_num) _)
  have h0 : a ≠ 0 := by linarith [hpos] |> ne_of_gt
  obtain ⟨p1, p2, p3, p4, p5⟩ := hF
  obtain ⟨n, d, a1, a2, a3, a4⟩ := flConv_pos F ha h0
  have hb := toBin_over p1 neg a1 a2 p4 (by rw [a3]; exact hx)
  refine ⟨_, float_reads (F.ty R) R ha.rnumber hl fun rest _ hr => (a4 rest hr).trans hb, neg, _, _, rfl, ?_⟩
  have hc : ((2 ^ F.p - 1 : Nat) : ℚ) = 2 ^ F.p - 1 := by
    rw [Nat.cast_sub Nat.one_le_two_pow]; push_cast; rfl
  have hap : 0 < a := lt_of_le_of_ne ha0 (Ne.symm h0)
  rw [hc, maxVal]
  cases neg
  · simp [ha0]
  · simp only [not_le.mpr hap, Left.nonneg_neg_iff, if_true, if_false, neg_mul, one_mul]

/-- C82. Without a number of digits (`R = -1`) every finite value is written as a JSON number with seven digits, with a relative error
of at most 1 to 2 000 000. -/
theorem C82_written_close {F : BinFmt} (hF : UsualFmt F) {v : Fl} {y : ℚ} (hv : FlOf F v) (hy : FlIs v y) :
    ∃ t x, Writes (floatSer (F.ty (-1)) (-1)).emit v t ∧ NumIs t x ∧ ShortDecimal 7 x ∧ |x - y| ≤ |y| / 2000000 := by
  obtain ⟨neg, m, q, rfl, h1, h2, h3, _⟩ := hv
  obtain ⟨_, _, _, e, rfl⟩ := hy
  cases e
  obtain ⟨k, j, e1, e2, e3, e4, _⟩ := flText_sci hF (neg := neg) h1 h2 h3
  have ht := sciText_is neg e2 j
  refine ⟨_, _, ?_, ht.is, ⟨if neg then -k else k, j, ?_, ?_⟩, ?_⟩
  · rw [← e1]
    exact float_writes (F.ty (-1)) (-1) (v := .fin neg m q) (by show RNumber (flText (-1) (.fin neg m q)); rw [e1]; exact ht.rnumber)
      (by show (flText (-1) (.fin neg m q)).length ≤ 20; rw [e1]; exact e3)
  · cases neg <;> simp
  · have : (k : Int) < 10 ^ 7 := by exact_mod_cast e2
    cases neg <;> simp <;> omega
  · have hpos : (0 : ℚ) ≤ m * 2 ^ q := mul_nonneg (by positivity) (zpow_nonneg (by norm_num) _)
    have hs : |(if neg then (-1 : ℚ) else 1) * m * 2 ^ q| = m * 2 ^ q := by
      cases neg <;> simp [abs_mul, abs_of_nonneg (zpow_nonneg (show (0 : ℚ) ≤ 2 by norm_num) q)]
    rw [hs]
    have he : |(if neg then (-1 : ℚ) else 1) * (k * 10 ^ j) - (if neg then (-1 : ℚ) else 1) * m * 2 ^ q| = |(k : ℚ) * 10 ^ j - m * 2 ^ q| := by
      rw [mul_assoc, ← mul_sub, abs_mul]
      cases neg <;> simp
    rw [he]
    calc _ ≤ _ := e4
      _ = _ := by norm_num

/-- C82. With `R` digits behind the point a value below 10 ^ 18 is written as a JSON number with `R` digits behind the
point that differs by at most half a unit of the last digit. -/
theorem C82_written_fixed_close {F : BinFmt} (R : Nat) {v : Fl} {y : ℚ} (hy : FlIs v y) (h18 : |y| ≤ 10 ^ 18 - 1) :
    ∃ t x, Writes (floatSer (F.ty R) R).emit v t ∧ NumIs t x ∧ (∃ k : ℤ, x = k * (10 : ℚ) ^ (-(R : ℤ))) ∧
      |x - y| ≤ (10 : ℚ) ^ (-(R : ℤ)) / 2 := by
  obtain ⟨neg, m, q, rfl, rfl⟩ := hy
  have hs : |(if neg then (-1 : ℚ) else 1) * m * 2 ^ q| = m * 2 ^ q := by
    cases neg <;> simp [abs_mul, abs_of_nonneg (zpow_nonneg (show (0 : ℚ) ≤ 2 by norm_num) q)]
  rw [hs] at h18
  obtain ⟨k, e1, _, e3⟩ := flText_fix neg m q R
  have ht := fixText_is neg R k
  have hR : (0 : ℚ) < 10 ^ (-(R : Int)) := zpow_pos (by norm_num) _
  have hR1 : (10 : ℚ) ^ (-(R : Int)) ≤ 1 := by
    rw [zpow_neg, zpow_natCast]
    exact inv_le_one_of_one_le₀ (one_le_pow₀ (by norm_num))
  have hk : k < 10 ^ 18 * 10 ^ R := by
    have h1 : (k : ℚ) * 10 ^ (-(R : Int)) < 10 ^ 18 := by
      have := (abs_le.mp e3).2
      linarith
    have h2 : (k : ℚ) < 10 ^ 18 * 10 ^ R := by
      rw [zpow_neg, zpow_natCast, ← div_eq_mul_inv, div_lt_iff₀ (by positivity)] at h1
      exact h1
    exact_mod_cast h2
  have hlen : (20 + R : Nat) = floatBuf R := by unfold floatBuf; rw [if_neg (by omega)]; omega
  refine ⟨_, _, ?_, ht.is, ⟨if neg then -k else k, ?_⟩, ?_⟩
  · rw [← e1]
    exact float_writes (F.ty R) R (v := .fin neg m q) (by show RNumber (flText R (.fin neg m q)); rw [e1]; exact ht.rnumber)
      (by show (flText R (.fin neg m q)).length ≤ _; rw [e1, ← hlen]; exact fixText_length neg hk)
  · cases neg <;> simp
  · have he : |(if neg then (-1 : ℚ) else 1) * (k * 10 ^ (-(R : Int))) - (if neg then (-1 : ℚ) else 1) * m * 2 ^ q| =
        |(k : ℚ) * 10 ^ (-(R : Int)) - m * 2 ^ q| := by
      rw [mul_assoc, ← mul_sub, abs_mul]
      cases neg <;> simp
    rw [he]
    exact e3

/-- C82. Without a number of digits: a JSON number with at most seven significant digits, in the range where the type (`double`,
`long double`) has full precision, is kept: it is read as a value that is written as the same number, and this text is read as the
same value. -/
theorem C82_kept {F : BinFmt} (hF : UsualFmt F) (hp : 25 ≤ F.p) {t : Bytes} {x : ℚ} (h : NumIs t x) (hs : ShortDecimal 7 x)
    (hl : t.length ≤ 20) (hx : x = 0 ∨ minNormal F ≤ |x| ∧ |x| ≤ maxVal F) :
    ∃ v t', Reads (floatSer (F.ty (-1)) (-1)).de t v ∧ NumIs t' x ∧ RT (floatSer (F.ty (-1)) (-1)) v t' ∧
      ∀ c, GoodValue c (floatSer (F.ty (-1)) (-1)) v := by
  obtain ⟨neg, a, ha, rfl⟩ := numIs_abs h
  obtain ⟨K, J, hK, hK7⟩ := hs
  have ha0 := ha.nonneg
  have hsg : |(if neg then (-1 : ℚ) else 1) * a| = a := by cases neg <;> simp [abs_of_nonneg ha0]
  have haK : a = (K.natAbs : ℚ) * 10 ^ J := by
    have h1 : |(if neg then (-1 : ℚ) else 1) * a| = |(K : ℚ) * 10 ^ J| := by rw [hK]
    rw [hsg, abs_mul, abs_of_pos (zpow_pos (show (0 : ℚ) < 10 by norm_num) J)] at h1
    rw [h1, Nat.cast_natAbs, Int.cast_abs]
  have hKn : K.natAbs < 10 ^ 7 := by
    have : (K.natAbs : Int) < 10 ^ 7 := by rw [Int.natCast_natAbs]; exact hK7
    exact_mod_cast this
  rw [hsg] at hx
  obtain ⟨k, j, h1, _, h2, h3, h4⟩ := kept_sci hF hp ha haK hKn (hx.imp_left fun hx => by cases neg <;> simpa using hx)
  have ht := sciText_is neg h1 j
  rw [h2] at ht
  obtain ⟨r1, r2⟩ := kept_all ha ht h3 h4
  exact ⟨_, _, kept_reads ha hl, ht.is, r1, r2⟩

/-- C82. With `R` digits behind the point: a JSON number with at most `R` digits behind the point, below 10 ^ 18 and short enough for the type
(for `double`: less than 4 503 599 627 370 496 without the point), is kept. -/
theorem C82_kept_fixed {F : BinFmt} (hF : UsualFmt F) (R : Nat) {t : Bytes} {x : ℚ} (h : NumIs t x) {k : ℤ}
    (hk : x = k * (10 : ℚ) ^ (-(R : ℤ))) (hk2 : |k| < 2 ^ (F.p - 1)) (h18 : |x| < 10 ^ 18) (hl : t.length ≤ 20 + R)
    (hx : x = 0 ∨ minNormal F ≤ |x| ∧ |x| ≤ maxVal F) :
    ∃ v t', Reads (floatSer (F.ty R) R).de t v ∧ NumIs t' x ∧ RT (floatSer (F.ty R) R) v t' ∧ ∀ c, GoodValue c (floatSer (F.ty R) R) v := by
  obtain ⟨neg, a, ha, rfl⟩ := numIs_abs h
  have ha0 := ha.nonneg
  have hsg : |(if neg then (-1 : ℚ) else 1) * a| = a := by cases neg <;> simp [abs_of_nonneg ha0]
  have haK : a = (k.natAbs : ℚ) * 10 ^ (-(R : ℤ)) := by
    have h1 : |(if neg then (-1 : ℚ) else 1) * a| = |(k : ℚ) * 10 ^ (-(R : ℤ))| := by rw [hk]
    rw [hsg, abs_mul, abs_of_pos (zpow_pos (show (0 : ℚ) < 10 by norm_num) _)] at h1
    rw [h1, Nat.cast_natAbs, Int.cast_abs]
  have hKn : k.natAbs < 2 ^ (F.p - 1) := by
    have : (k.natAbs : Int) < 2 ^ (F.p - 1) := by rw [Int.natCast_natAbs]; exact hk2
    exact_mod_cast this
  rw [hsg] at hx h18
  have h3 := kept_fix hF R ha haK hKn (hx.imp_left fun hx => by cases neg <;> simpa using hx)
  have ht := fixText_is neg R k.natAbs
  rw [← haK] at ht
  have hlen : (20 + R : Nat) = floatBuf R := by unfold floatBuf; rw [if_neg (by omega)]; omega
  have hk18 : k.natAbs < 10 ^ 18 * 10 ^ R := by
    rw [haK, zpow_neg, zpow_natCast, ← div_eq_mul_inv, div_lt_iff₀ (by positivity)] at h18
    exact_mod_cast h18
  obtain ⟨r1, r2⟩ := kept_all ha ht h3 (by rw [← hlen]; exact fixText_length neg hk18)
  exact ⟨_, _, kept_reads ha (by rw [← hlen]; exact hl), ht.is, r1, r2⟩

/-- C82. Without a number of digits: the text written for a value that is zero or not close to the ends of the range is read as a value
for which the same text is written, and from then on nothing changes. -/
theorem C82_same_text_again {F : BinFmt} (hF : UsualFmt F) (hp : 25 ≤ F.p) {v : Fl} {y : ℚ} (hv : FlOf F v) (hy : FlIs v y)
    (hr : y = 0 ∨ 2 * minNormal F ≤ |y| ∧ |y| ≤ maxVal F / 2) :
    ∃ t v', Writes (floatSer (F.ty (-1)) (-1)).emit v t ∧ RT (floatSer (F.ty (-1)) (-1)) v' t := by
  obtain ⟨neg, m, q, rfl, h1, h2, h3, _⟩ := hv
  obtain ⟨_, _, _, e, rfl⟩ := hy
  cases e
  obtain ⟨k, j, e1, e2, e3, e4, e5⟩ := flText_sci hF (neg := neg) h1 h2 h3
  have ht := sciText_is neg e2 j
  have hw : Writes (floatSer (F.ty (-1)) (-1)).emit (.fin neg m q) (signText neg ++ sciText k j) := by
    rw [← e1]
    exact float_writes (F.ty (-1)) (-1) (v := .fin neg m q) (by show RNumber (flText (-1) (.fin neg m q)); rw [e1]; exact ht.rnumber)
      (by show (flText (-1) (.fin neg m q)).length ≤ 20; rw [e1]; exact e3)
  have hs : |(if neg then (-1 : ℚ) else 1) * m * 2 ^ q| = m * 2 ^ q := by
    cases neg <;> simp [abs_mul, abs_of_nonneg (zpow_nonneg (show (0 : ℚ) ≤ 2 by norm_num) q)]
  rw [hs] at hr
  have hq : (0 : ℚ) < 2 ^ q := zpow_pos (by norm_num) _
  have hmn : (0 : ℚ) < minNormal F := zpow_pos (by norm_num) _
  have hx : (k : ℚ) * 10 ^ j = 0 ∨ minNormal F ≤ k * 10 ^ j ∧ (k : ℚ) * 10 ^ j ≤ maxVal F := by
    rcases e5 with ⟨_, rfl, _⟩ | ⟨hm, _, _⟩
    · exact .inl (by simp)
    · right
      have hm' : (0 : ℚ) < m := by exact_mod_cast hm
      have hy0 : (0 : ℚ) < m * 2 ^ q := mul_pos hm' hq
      have hr := hr.resolve_left (by
        cases neg <;> simp [ne_of_gt hm', ne_of_gt hq])
      have e6 := abs_le.mp e4
      have : (m : ℚ) * 2 ^ q / (2 * 10 ^ 6) ≤ m * 2 ^ q / 2 := div_le_div_of_nonneg_left hy0.le (by norm_num) (by norm_num)
      constructor <;> linarith [e6.1, e6.2, hr.1, hr.2]
  obtain ⟨k', j', f1, f2, f3, f4, f5⟩ := kept_sci hF hp ht rfl e2 hx
  have ht' := sciText_is neg f1 j'
  rw [f3] at ht'
  have heq : signText neg ++ sciText k' j' = signText neg ++ sciText k j := by
    rcases e5 with ⟨_, rfl, rfl⟩ | ⟨hm, hk, _⟩
    · have hz := flConv_zero F ht (by simp) delim_nil
      rw [List.append_nil] at hz
      rw [← f4, hz]
      simp [flText]
    · have hk0 : (k : ℚ) * 10 ^ j ≠ 0 := by
        have : (0 : ℚ) < k := by exact_mod_cast (show 0 < k by omega)
        exact ne_of_gt (mul_pos this (zpow_pos (by norm_num) _))
      obtain ⟨rfl, rfl⟩ := seven_unique (f2 hk0) f1 hk e2 f3
      rfl
  rw [heq] at f4 f5 ht'
  exact ⟨_, _, hw, (kept_all ht ht f4 f5).1⟩

/-- C82. With `R` digits behind the point: the text written for a value that is small enough for the type is read as a value for which the same
text is written, and from then on nothing changes. -/
theorem C82_same_text_again_fixed {F : BinFmt} (hF : UsualFmt F) (R : Nat) {v : Fl} {y : ℚ} (hy : FlIs v y)
    (hr : (|y| + 1) * 10 ^ R ≤ 2 ^ (F.p - 1)) (h18 : |y| + 1 ≤ 10 ^ 18) (hmax : |y| + 1 ≤ maxVal F) (hmin : minNormal F * 10 ^ R ≤ 1) :
    ∃ t v', Writes (floatSer (F.ty R) R).emit v t ∧ RT (floatSer (F.ty R) R) v' t := by
  obtain ⟨neg, m, q, rfl, rfl⟩ := hy
  have hs : |(if neg then (-1 : ℚ) else 1) * m * 2 ^ q| = m * 2 ^ q := by
    cases neg <;> simp [abs_mul, abs_of_nonneg (zpow_nonneg (show (0 : ℚ) ≤ 2 by norm_num) q)]
  rw [hs] at hr h18 hmax
  obtain ⟨k, e1, _, e3⟩ := flText_fix neg m q R
  have ht := fixText_is neg R k
  have hR : (0 : ℚ) < 10 ^ (-(R : Int)) := zpow_pos (by norm_num) _
  have hRR : (10 : ℚ) ^ (-(R : Int)) * 10 ^ R = 1 := by rw [zpow_neg, zpow_natCast]; exact inv_mul_cancel₀ (by positivity)
  have hR1 : (10 : ℚ) ^ (-(R : Int)) ≤ 1 := by
    rw [zpow_neg, zpow_natCast]
    exact inv_le_one_of_one_le₀ (one_le_pow₀ (by norm_num))
  have hup : (k : ℚ) * 10 ^ (-(R : Int)) < m * 2 ^ q + 1 := by
    have := (abs_le.mp e3).2
    linarith
  have hk1 : (k : ℚ) < (m * 2 ^ q + 1) * 10 ^ R := by
    rw [zpow_neg, zpow_natCast, ← div_eq_mul_inv, div_lt_iff₀ (by positivity)] at hup
    exact hup
  have hk2 : k < 2 ^ (F.p - 1) := by exact_mod_cast lt_of_lt_of_le hk1 hr
  have hk : k < 10 ^ 18 * 10 ^ R := by
    have : (k : ℚ) < 10 ^ 18 * 10 ^ R := lt_of_lt_of_le hk1 (by gcongr)
    exact_mod_cast this
  have hlen : (20 + R : Nat) = floatBuf R := by unfold floatBuf; rw [if_neg (by omega)]; omega
  have hl : (signText neg ++ fixText R k).length ≤ floatBuf R := by rw [← hlen]; exact fixText_length neg hk
  refine ⟨signText neg ++ fixText R k, flConv F (signText neg ++ fixText R k), ?_, (kept_all ht ht (kept_fix hF R ht rfl hk2 ?_) hl).1⟩
  · rw [← e1] at hl ht ⊢
    exact float_writes (F.ty R) R (v := .fin neg m q) ht.rnumber hl
  · rcases Nat.eq_zero_or_pos k with rfl | h0
    · exact .inl (by simp)
    · refine .inr ⟨?_, by linarith⟩
      have h1 : (1 : ℚ) ≤ k := by exact_mod_cast h0
      have h2 : minNormal F ≤ 10 ^ (-(R : Int)) := by
        calc minNormal F = minNormal F * 10 ^ R * 10 ^ (-(R : Int)) := by rw [mul_assoc, mul_comm ((10 : ℚ) ^ R), hRR, mul_one]
          _ ≤ 1 * 10 ^ (-(R : Int)) := by gcongr
          _ = _ := one_mul _
      nlinarith

/-- C82. The conversions see no more than the number, as C53 and C54 ask for. -/
theorem C82_local (F : BinFmt) (R : Int) : (F.ty R).Local := by
  intro t rest v ht hr
  obtain ⟨x, hx⟩ := rnumber_is ht
  obtain ⟨neg, a, ha, -⟩ := numIs_abs hx
  have := flConv_same F ha ha hr delim_nil
  rwa [List.append_nil] at this

/-! ### Concrete cases -/

example : UsualFmt .float ∧ UsualFmt .double ∧ UsualFmt .longDouble := by unfold UsualFmt; decide

example : 25 ≤ BinFmt.double.p ∧ 25 ≤ BinFmt.longDouble.p := by decide

/-- `-1.5e3` is -1500 -/
example : NumIs b!"-1.5e3" (-1500) :=
  ⟨b!"-", b!"1", b!".5", b!"5", b!"e3", 3, rfl, .inr rfl, .inr ⟨c%'1', [], rfl, by decide, by decide⟩, .inr ⟨rfl, by unfold Digits; decide⟩,
    .inr ⟨c%'e', [], b!"3", rfl, .inl rfl, by unfold Digits; decide, .inl ⟨.inl rfl, rfl⟩⟩, by simp [decVal]; norm_num⟩

theorem numIs_tenth : NumIs b!"10.1" (101 / 10) :=
  ⟨[], b!"10", b!".1", b!"1", [], 0, rfl, .inl rfl, .inr ⟨c%'1', b!"0", rfl, by decide, by decide⟩, .inr ⟨rfl, by unfold Digits; decide⟩, .inl ⟨rfl, rfl⟩,
    by simp [decVal]; norm_num⟩

theorem minNormal_double : minNormal .double ≤ 1 := by
  show (2 : ℚ) ^ (-1022 : Int) ≤ 1
  exact zpow_le_one_of_nonpos₀ (by norm_num) (by decide)

theorem maxVal_double : (1000 : ℚ) ≤ maxVal .double := by
  show (1000 : ℚ) ≤ (2 ^ 53 - 1) * (2 : ℚ) ^ (971 : Int)
  have : (1 : ℚ) ≤ (2 : ℚ) ^ (971 : Int) := one_le_zpow₀ (by norm_num) (by decide)
  calc (1000 : ℚ) ≤ (2 ^ 53 - 1) * 1 := by norm_num
    _ ≤ _ := mul_le_mul_of_nonneg_left this (by norm_num)

/-- `10.1` is kept by `value<double>` -/
example : ∃ v t', Reads (floatSer (BinFmt.double.ty (-1)) (-1)).de b!"10.1" v ∧ NumIs t' (101 / 10) ∧
    RT (floatSer (BinFmt.double.ty (-1)) (-1)) v t' ∧ ∀ c, GoodValue c (floatSer (BinFmt.double.ty (-1)) (-1)) v :=
  C82_kept (by unfold UsualFmt; decide) (by decide) numIs_tenth ⟨101, -1, by norm_num, by decide⟩ (by decide)
    (.inr ⟨by rw [abs_of_pos (by norm_num)]; linarith [minNormal_double], by rw [abs_of_pos (by norm_num)]; linarith [maxVal_double]⟩)

/-- and by `value<double, 2>` -/
example : ∃ v t', Reads (floatSer (BinFmt.double.ty (2 : Nat)) (2 : Nat)).de b!"10.1" v ∧ NumIs t' (101 / 10) ∧
    RT (floatSer (BinFmt.double.ty (2 : Nat)) (2 : Nat)) v t' ∧ ∀ c, GoodValue c (floatSer (BinFmt.double.ty (2 : Nat)) (2 : Nat)) v :=
  C82_kept_fixed (by unfold UsualFmt; decide) 2 numIs_tenth (k := 1010) (by norm_num) (by decide) (by rw [abs_of_pos (by norm_num)]; norm_num) (by decide)
    (.inr ⟨by rw [abs_of_pos (by norm_num)]; linarith [minNormal_double], by rw [abs_of_pos (by norm_num)]; linarith [maxVal_double]⟩)

/-- The value 10.1 of the type `double`. -/
def tenthD : Fl := .fin false 5685794529555251 (-49)

example : FlOf .double tenthD := ⟨false, 5685794529555251, -49, rfl, by decide, by decide, by decide, by decide⟩

example : (floatSer (BinFmt.double.ty (-1)) (-1)).de (.nan false) b!"10.1" .fresh = .ok (tenthD, [], .fresh) := by decide +kernel
example : (floatSer (BinFmt.double.ty (-1)) (-1)).emit tenthD ⟨[], .back⟩ = .ok ⟨b!"1.010000e+01", .back⟩ := by decide +kernel
example : (floatSer (BinFmt.double.ty 2) 2).emit tenthD ⟨[], .back⟩ = .ok ⟨b!"10.10", .back⟩ := by decide +kernel

/-! ### Where numbers are not kept -/

/-- Whether reading stops with an error. -/
def failsOn (S : Ser Fl) (t : Bytes) : Bool :=
  match S.de (.fin false 0 0) t .fresh with
  | .ok (_, _, e) => e.failed
  | _ => false

/-- Exception: infinities and NaN are written as words that are no JSON and are rejected when read. -/
theorem C82_inf_nan : ∀ neg ∈ [false, true], ∀ w ∈ [(Fl.inf neg, b!"inf"), (Fl.nan neg, b!"nan")],
    (floatSer (BinFmt.double.ty (-1)) (-1)).emit w.1 ⟨[], .back⟩ = .ok ⟨signText neg ++ w.2, .back⟩ ∧
    failsOn (floatSer (BinFmt.double.ty (-1)) (-1)) (signText neg ++ w.2) = true := by decide +kernel

/-- Exception: `value<double>` does not keep a `double` in general: 1/3 is written as `3.333333e-01`, which is read as another value. -/
theorem C82_double_lost : ∃ v, FlOf .double v ∧
    (floatSer (BinFmt.double.ty (-1)) (-1)).emit v ⟨[], .back⟩ = .ok ⟨b!"3.333333e-01", .back⟩ ∧
    ∀ v0, (floatSer (BinFmt.double.ty (-1)) (-1)).de v0 b!"3.333333e-01" .fresh ≠ .ok (v, [], .fresh) := by
  refine ⟨.fin false 6004799503160661 (-54), ⟨false, 6004799503160661, -54, rfl, by decide, by decide, by decide, by decide⟩, by decide +kernel,
    fun v0 h => ?_⟩
  have h1 : (floatSer (BinFmt.double.ty (-1)) (-1)).de v0 b!"3.333333e-01" .fresh =
      (floatSer (BinFmt.double.ty (-1)) (-1)).de (.nan false) b!"3.333333e-01" .fresh := rfl
  rw [h1] at h
  revert h
  decide +kernel

/-- Exception: `value<float>` does not keep every number with seven digits (C82_kept asks for 25 bits). -/
theorem C82_float_lost : ∃ v,
    (floatSer (BinFmt.float.ty (-1)) (-1)).de (.nan false) b!"8.589973e+09" .fresh = .ok (v, [], .fresh) ∧
    (floatSer (BinFmt.float.ty (-1)) (-1)).emit v ⟨[], .back⟩ = .ok ⟨b!"8.589974e+09", .back⟩ :=
  ⟨flConv .float b!"8.589973e+09", by decide +kernel⟩

/-- Exception: a number that is too large is read as the largest value, without an error. -/
theorem C82_largest : (floatSer (BinFmt.double.ty (-1)) (-1)).de (.nan false) b!"-1e400" .fresh =
    .ok (.fin true 9007199254740991 971, [], .fresh) := by decide +kernel

/-- Exception: a number longer than 20 bytes is cut when it is read, and may lose its exponent: without an error
`1.00000000000000000000e5` is read as 1. -/
theorem C82_long_cut : (floatSer (BinFmt.double.ty (-1)) (-1)).de (.nan false) b!"1.00000000000000000000e5" .fresh =
    (floatSer (BinFmt.double.ty (-1)) (-1)).de (.nan false) b!"1" .fresh := by decide +kernel

/-- Exception: a large number written with digits behind the point is cut to `20 + R` bytes: 1e25 (as `double`) is written
with the first 22 digits only, and is read as a number 10 000 times smaller. -/
theorem C82_fixed_cut : ∃ v,
    (floatSer (BinFmt.double.ty 2) 2).de (.nan false) b!"1e25" .fresh = .ok (v, [], .fresh) ∧
    (floatSer (BinFmt.double.ty 2) 2).emit v ⟨[], .back⟩ = .ok ⟨b!"1000000000000000090596", .back⟩ :=
  ⟨flConv .double b!"1e25", by decide +kernel⟩

/-- Exception: small numbers written with digits behind the point disappear. -/
theorem C82_fixed_small : ∃ v, v ≠ .fin false 0 BinFmt.double.qmin ∧
    (floatSer (BinFmt.double.ty 2) 2).de (.nan false) b!"1e-3" .fresh = .ok (v, [], .fresh) ∧
    (floatSer (BinFmt.double.ty 2) 2).emit v ⟨[], .back⟩ = .ok ⟨b!"0.00", .back⟩ :=
  ⟨flConv .double b!"1e-3", by decide +kernel⟩

end Wjson
