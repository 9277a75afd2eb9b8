import Verif.Proofs.Size
/-
C36-C39: time intervals and sizes.
-/
namespace Wjson
open Spec

/-! ## C36 -/

/-- C36. Every value of a time interval is read back as it was written (through
a back inserter): every non-negative one, and every negative one without a part
below a second. `fr` is the number of ticks in a second: `_s` works for every
integer type, `_mks` for every type of at least 32 bits, `_ms` for the signed
64-bit type (`time_t`, the default); see the counterexamples below for the other
types. -/
theorem C36_round_trip (c : Cfg) {ty : IntTy} (hs : ty.Std) {fr : Int}
    (hok : fr = 1 ∨ (fr = 1000 ∧ ty = .long) ∨ (fr = 1000000 ∧ 32 ≤ ty.bits)) {v : Int} (hv : ty.InRange v)
    (hneg : 0 ≤ v ∨ v % fr = 0) :
    ∃ t, (∀ m, (timeSer c ty fr).emit v ⟨m, .back⟩ = .ok ⟨m ++ t, .back⟩) ∧ Reads (timeSer c ty fr).de t v := by
  rcases Int.le_total 0 v with h | h
  · obtain ⟨t, h1, _, h3⟩ := emitTime_text c hs (σ := 1) hok (.inl rfl) h (by simpa using hv)
    simp only [Int.one_mul] at h1 h3
    exact ⟨_, fun m => by simpa [timeSer] using h1 m, h3⟩
  · have hd : -v % fr = 0 := by
      rcases hneg with h' | h'
      · rw [show v = 0 by omega]; simp
      · exact Int.emod_eq_zero_of_dvd (Int.dvd_neg.mpr (Int.dvd_of_emod_eq_zero h'))
    obtain ⟨t, h1, _, h3⟩ := emitTime_text c hs (σ := -1) (w := -v) hok (.inr ⟨rfl, hd⟩) (by omega) (by simpa using hv)
    rw [show (-1 : Int) * -v = v by omega] at h1 h3
    exact ⟨_, fun m => by simpa [timeSer] using h1 m, h3⟩

/-- C36. What is written: in quotes, the days, hours, minutes, seconds,
milliseconds and microseconds, leaving out the zero parts. -/
theorem C36_text (c : Cfg) {ty : IntTy} (hs : ty.Std) {fr : Int}
    (hok : fr = 1 ∨ (fr = 1000 ∧ ty = .long) ∨ (fr = 1000000 ∧ 32 ≤ ty.bits)) {v : Int} (hv : ty.InRange v) (h0 : 0 ≤ v) :
    ∃ t, TimeText (timeParts fr v) t ∧
      ∀ m, (timeSer c ty fr).emit v ⟨m, .back⟩ = .ok ⟨m ++ (c%'"' :: t ++ b!"\""), .back⟩ := by
  obtain ⟨t, h1, h2, _⟩ := emitTime_text c hs (σ := 1) hok (.inl rfl) h0 (by simpa using hv)
  refine ⟨t, by simpa using h2, fun m => ?_⟩
  have := h1 m
  simpa [timeSer] using this

/-- C36. A negative number of whole seconds: the same parts with a minus before each of them. -/
theorem C36_text_negative (c : Cfg) {ty : IntTy} (hs : ty.Std) {fr : Int}
    (hok : fr = 1 ∨ (fr = 1000 ∧ ty = .long) ∨ (fr = 1000000 ∧ 32 ≤ ty.bits)) {v : Int} (hv : ty.InRange v) (h0 : v < 0)
    (hd : v % fr = 0) :
    ∃ t, TimeText (timePartsNeg fr v) t ∧
      ∀ m, (timeSer c ty fr).emit v ⟨m, .back⟩ = .ok ⟨m ++ (c%'"' :: t ++ b!"\""), .back⟩ := by
  have hd' : -v % fr = 0 := Int.emod_eq_zero_of_dvd (Int.dvd_neg.mpr (Int.dvd_of_emod_eq_zero hd))
  obtain ⟨t, h1, h2, _⟩ := emitTime_text c hs (σ := -1) (w := -v) hok (.inr ⟨rfl, hd'⟩) (by omega) (by simpa using hv)
  rw [show (-1 : Int) * -v = v by omega] at h1
  refine ⟨t, by simpa [timePartsNeg, Int.neg_one_mul] using h2, fun m => ?_⟩
  have := h1 m
  simpa [timeSer] using this

/-- C36. Every sequence of numbers with units is read as the sum of the parts, in
any order and with repetitions, as long as everything fits the type. -/
theorem C36_reads (c : Cfg) {ty : IntTy} (hs : ty.Std) {fr : Int} (hf : 1 ≤ fr) {l : List (Int × TimeUnit)} {t : Bytes}
    (h : TimeText l t) (hl : ∀ p ∈ l, 0 ≤ p.1 ∧ p.1 * p.2.scale * fr ≤ ty.max) (ht : timeTotal fr l ≤ ty.max) :
    Reads (timeSer c ty fr).de (c%'"' :: t ++ b!"\"") (timeTotal fr l) :=
  deTime_reads c hs hf h (timeFits_nonneg hs hf (Int.le_refl 0) hl (by omega))

/-- C36. A plain number and `null` are accepted too. -/
theorem C36_number (c : Cfg) {ty : IntTy} (hs : ty.Std) (fr : Int) {v : Int} (hv : ty.InRange v) (h0 : 0 ≤ v)
    {t : Bytes} (ht : Decimal v t) : Reads (timeSer c ty fr).de t v := by
  intro v0 rest e _ hd
  have hint := deInt_decimal c hs hv (by
    by_cases hsg : ty.signed = true
    · left
      have := hs.bounds
      simp only [IntTy.min, IntTy.max, hsg, if_true] at this ⊢
      omega
    · right; exact .inr (.inl (by simpa using hsg))) ht (Delim.noDigitNext hd) 0 e
  obtain ⟨i, hi, h⟩ := ht
  rcases h with ⟨_, rfl, _⟩ | ⟨h, _⟩
  · have hb : ∃ b w, t = b :: w ∧ Digit b := by
      rcases hi with rfl | ⟨d, ds, rfl, hd, _⟩
      · exact ⟨_, _, rfl, by unfold Digit; decide⟩
      · exact ⟨_, _, rfl, digit_of_19 hd⟩
    obtain ⟨b, w, rfl, hb⟩ := hb
    have key : ∀ b : Byte, Digit b → b ≠ c%'n' ∧ isDigit b = true := by
      unfold Digit isDigit; apply forall_byte; decide +kernel
    have hfacts := key b hb
    simp only [List.cons_append] at hint ⊢
    have hnull : isNull (b :: (w ++ rest)) = false := by simp [isNull, hfacts.1]
    have hnum : isNumber (b :: (w ++ rest)) = true := by simp [isNumber, hfacts.2]
    simp only [timeSer, deTime, hnull, hnum, if_true, Bool.false_eq_true, if_false, hint]
  · omega

example : (timeSer .strict .long 1000).emit 93784005 ⟨[], .back⟩ = .ok ⟨b!"\"1d2h3m4s5ms\"", .back⟩ := by decide +kernel
example : (timeSer .strict .long 1000).de 7 b!"\"1d2h3m4s5ms\"," .fresh = .ok (93784005, b!",", .fresh) := by decide +kernel
example : (timeSer .strict .long 1000000).emit 1002003 ⟨[], .back⟩ = .ok ⟨b!"\"1s2ms3mks\"", .back⟩ := by decide +kernel
example : (timeSer .strict .long 1).emit (-90061) ⟨[], .back⟩ = .ok ⟨b!"\"-1d-1h-1m-1s\"", .back⟩ := by decide +kernel
example : (timeSer .strict .long 1).emit 0 ⟨[], .back⟩ = .ok ⟨b!"\"\"", .back⟩ := by decide +kernel
example : timeParts 1000 93784005 = [(1, .d), (2, .h), (3, .m), (4, .s), (5, .ms)] := by decide
example : timePartsNeg 1 (-90061) = [(-1, .d), (-1, .h), (-1, .m), (-1, .s)] := by decide
example : TimeText [(5, .m), (3, .s)] b!"5m3s" :=
  .cons (t := b!"5") (u := .m) (r := b!"3s") ⟨b!"5", .inr ⟨_, _, rfl, by unfold Digit19; decide, by simp⟩, .inl ⟨by decide, rfl, rfl⟩⟩
    (.cons (t := b!"3") (u := .s) (r := []) ⟨b!"3", .inr ⟨_, _, rfl, by unfold Digit19; decide, by simp⟩, .inl ⟨by decide, rfl, rfl⟩⟩
      .nil)

/-- C36, exception: a negative value with a part below a second is written and
read back as something else. -/
theorem C36_negative_fraction :
    (timeSer .strict .long 1000).emit (-1500) ⟨[], .back⟩ = .ok ⟨b!"\"-1s499500000mks\"", .back⟩ ∧
    (timeSer .strict .long 1000).de 0 b!"\"-1s499500000mks\"" .fresh = .ok (498500, [], .fresh) := by decide +kernel

/-- C36, exception: `time_interval_ms<int>` overflows `int` when it writes a value
with at least three milliseconds, and `time_interval_ms<short>` too. -/
theorem C36_ms_int_undefined : (timeSer .strict .int 1000).emit 3 ⟨[], .back⟩ = .ub ∧
    (timeSer .strict .short 1000).emit 3 ⟨[], .back⟩ = .ub := by decide +kernel

/-- C36, exception: with wrapping arithmetic `time_interval_ms<int>` writes and
reads back something else. -/
theorem C36_ms_int_wraps : (timeSer { wrapv := true } .int 1000).emit 3 ⟨[], .back⟩ = .ok ⟨b!"\"3ms1297967mks\"", .back⟩ ∧
    (timeSer { wrapv := true } .int 1000).de 0 b!"\"3ms1297967mks\"" .fresh = .ok (1300, [], .fresh) := by
  decide +kernel

/-- C36, exception: `time_interval_ms` of an unsigned type writes and reads back
something else. -/
theorem C36_ms_unsigned : ∃ t v, (timeSer .strict .ulong 1000).emit 5 ⟨[], .back⟩ = .ok ⟨t, .back⟩ ∧
    (timeSer .strict .ulong 1000).de 0 t .fresh = .ok (v, [], .fresh) ∧ v ≠ 5 :=
  ⟨b!"\"5ms18446744068714551mks\"", 18446744068719, by decide +kernel, by decide +kernel, by decide⟩

/-- C36, exception: the fraction of a second is a divisor; a description with
fraction 0 cannot write any value. -/
theorem C36_zero_fraction (c : Cfg) (ty : IntTy) (v : Int) (k : Sink) : (timeSer c ty 0).emit v k = .ub := by
  simp [timeSer, emitTime, cdiv]

/-! ## C37 -/

/-- C37. Reading a time interval stays inside the text, ends, and reports errors
as the other readers do, for every text that does not end in `mk` (with wrapping
arithmetic; without it a signed overflow is undefined). -/
theorem C37_in_bounds {c : Cfg} (hw : c.wrapv = true) (ty : IntTy) (fr v : Int) {s : Bytes} (hmk : ¬ b!"mk" <:+ s)
    (e : EPtr) : ∃ v' p e', (timeSer c ty fr).de v s e = .ok (v', p, e') ∧ p <:+ s := by
  rcases deTime_safe c ty fr v s e with ⟨_, h⟩ | ⟨v', p, e', h, hp, _⟩
  · simp [hw, hmk] at h
  · exact ⟨v', p, e', h, hp⟩

/-- C37. The only other undefined behaviour is a signed overflow. -/
theorem C37_only_overflow (c : Cfg) (ty : IntTy) (fr v : Int) {s : Bytes} (hmk : ¬ b!"mk" <:+ s) (e : EPtr) :
    (∃ v' p e', (timeSer c ty fr).de v s e = .ok (v', p, e') ∧ p <:+ s) ∨
    ((timeSer c ty fr).de v s e = .ub ∧ c.wrapv = false) := by
  rcases deTime_safe c ty fr v s e with ⟨h1, h⟩ | ⟨v', p, e', h, hp, _⟩
  · simp only [hmk, or_false] at h
    exact .inr ⟨h1, h⟩
  · exact .inl ⟨v', p, e', h, hp⟩

/-- C37, exception: an unterminated string that ends in a number and `mk` makes
the reader step past the end, on every platform. -/
theorem C37_overrun (c : Cfg) {ty : IntTy} (hs : ty.Std) (fr : Int) {k : Int} {t : Bytes} (hk : Decimal k t)
    (hv : ty.InRange k) (hmin : k ≠ ty.min) {e : EPtr} (he : e.failed = false) (v : Int) :
    (timeSer c ty fr).de v (c%'"' :: t ++ b!"mk") e = .ub := by
  have := timeLoopF_overrun c hs fr hk hv (.inl hmin) he (t ++ b!"mk").length 0
  simp only [timeSer, deTime]
  simpa [isNull, isNumber, isString, show isDigit c%'"' = false by decide] using this

example : (timeSer .nul .long 1000000).de 0 b!"\"5mk" .fresh = .ub := by decide +kernel
example : (timeSer .strict .long 1000000).de 0 b!"\"5mks" .fresh =
    .ok (5, [], .obj ⟨.UnexpectedEndFragment, none, 0⟩) := by decide +kernel
example : ¬ b!"mk" <:+ b!"\"5mks\"" := by decide
/-- Unknown units are skipped without an error. -/
example : (timeSer .strict .long 1).de 0 b!"\"5x3s\"" .fresh = .ok (3, [], .fresh) := by decide +kernel

/-! ## C38 -/

/-- C38. Every size whose number of bytes fits `int64_t` is read back as it was
written (through a back inserter). The last condition excludes the most negative
value of a signed type where negating it overflows. -/
theorem C38_round_trip (c : Cfg) {ty : IntTy} (hs : ty.Std) {metric v : Int} (hm : 1 ≤ metric)
    (hm' : IntTy.long.InRange metric) (hv : ty.InRange v) (hb : IntTy.long.InRange (v * metric))
    (hmin : v ≠ ty.min ∨ ty.Modular c) :
    ∃ t, (∀ m, (sizeSer c ty metric).emit v ⟨m, .back⟩ = .ok ⟨m ++ t, .back⟩) ∧ Reads (sizeSer c ty metric).de t v :=
  emitSize_reads c hs hm hm' hv hb hmin

/-- C38. What is written: the plain number when the number of bytes is not a
multiple of 1000 or 1024, else a quoted number with a unit, and the product is
the number of bytes. -/
theorem C38_text (c : Cfg) {ty : IntTy} (hs : ty.Std) (hbits : 16 ≤ ty.bits) {metric v : Int} (hm : 1 ≤ metric)
    (hm' : IntTy.long.InRange metric) (hv : ty.InRange v) (h0 : v ≠ 0) (hb : IntTy.long.InRange (v * metric)) :
    (¬ 1000 ∣ v * metric ∧ ¬ 1024 ∣ v * metric ∧ ∃ t, Decimal v t ∧
      ∀ m, (sizeSer c ty metric).emit v ⟨m, .back⟩ = .ok ⟨m ++ t, .back⟩) ∨
    ∃ (n : Int) (u : SizeUnit) (t s : Bytes), u.Text s ∧ n * u.bytes = v * metric ∧ 1000 ≤ u.bytes ∧ Decimal n t ∧
      ∀ m, (sizeSer c ty metric).emit v ⟨m, .back⟩ = .ok ⟨m ++ (c%'"' :: t ++ s ++ b!"\""), .back⟩ := by
  rcases emitSize_text c hs hm hm' hv hb with ⟨h, hd⟩ | ⟨n, u, s, hu, hn, hk, _, h⟩
  · exact .inl ⟨(hd h0 hbits).1, (hd h0 hbits).2, _, intText_decimal v, h⟩
  · exact .inr ⟨n, u, _, s, hu, hn, hk, intText_decimal n, h⟩

/-- C38. Which unit is written: of the units up to half the bytes of the type (none, K, M or T for types of 1, 2, 4 and 8
bytes) that divide the number of bytes, one with the highest power; and of two of these, the decimal one if the metric is
1 or a multiple of 10, else the binary one. -/
theorem C38_unit (c : Cfg) {ty : IntTy} {metric v : Int} (hm : 1 ≤ metric) (hm' : IntTy.long.InRange metric) (hv : ty.InRange v)
    (h0 : v ≠ 0) (hb : IntTy.long.InRange (v * metric)) {u : SizeUnit} {s : Bytes} (hu : u.Text s) (h1 : 1 ≤ u.exp)
    (hfit : u.exp ≤ ty.bits / 8 / 2) (hd : u.bytes ∣ v * metric)
    (hbest : ∀ (w : SizeUnit) (s' : Bytes), w.Text s' → 1 ≤ w.exp → w.exp ≤ ty.bits / 8 / 2 → w.bytes ∣ v * metric →
      w.exp < u.exp ∨ w = u ∨ (w.exp = u.exp ∧ (u.binary = false ↔ (10 ∣ metric ∨ metric = 1)))) :
    ∃ t, Decimal (v * metric / u.bytes) t ∧ ∀ m, (sizeSer c ty metric).emit v ⟨m, .back⟩ = .ok ⟨m ++ (c%'"' :: t ++ s ++ b!"\""), .back⟩ :=
  ⟨_, intText_decimal _, emitSize_unit c hm hm' hv h0 hb hu h1 hfit hd hbest⟩

/-- C38. The plain number is written if none of these units divides the number of bytes. -/
theorem C38_plain (c : Cfg) {ty : IntTy} (hs : ty.Std) {metric v : Int} (hm : 1 ≤ metric) (hm' : IntTy.long.InRange metric)
    (hv : ty.InRange v) (h0 : v ≠ 0) (hb : IntTy.long.InRange (v * metric))
    (hno : ∀ (w : SizeUnit) (s' : Bytes), w.Text s' → 1 ≤ w.exp → w.exp ≤ ty.bits / 8 / 2 → ¬ w.bytes ∣ v * metric) :
    ∃ t, Decimal v t ∧ ∀ m, (sizeSer c ty metric).emit v ⟨m, .back⟩ = .ok ⟨m ++ t, .back⟩ :=
  ⟨_, intText_decimal _, emitSize_plain c hs hm hm' hv h0 hb hno⟩

/-- C38. Nothing is written with the unit that is the metric, or as the plain number if the metric is none of the units. -/
theorem C38_zero (c : Cfg) {ty : IntTy} (hs : ty.Std) {metric : Int} (m : Bytes) :
    (∀ (u : SizeUnit) (s : Bytes), u.Text s → 1 ≤ u.exp → u.exp ≤ ty.bits / 8 / 2 → metric = u.bytes →
      (sizeSer c ty metric).emit 0 ⟨m, .back⟩ = .ok ⟨m ++ (b!"\"0" ++ s ++ b!"\""), .back⟩) ∧
    ((∀ (u : SizeUnit) (s : Bytes), u.Text s → 1 ≤ u.exp → u.exp ≤ ty.bits / 8 / 2 → metric ≠ u.bytes) →
      (sizeSer c ty metric).emit 0 ⟨m, .back⟩ = .ok ⟨m ++ b!"0", .back⟩) :=
  ⟨fun _ _ hu h1 hfit hm => emitSize_zero c ty hu h1 hfit hm m, fun hno => emitSize_zero_plain c hs hno m⟩

/-- 24000 KB: the highest power that divides is 2, and only the decimal unit does. -/
example : ∃ t, Decimal (24000 * 1000 / 1000000) t ∧
    ∀ m, (sizeSer .strict .ulong 1000).emit 24000 ⟨m, .back⟩ = .ok ⟨m ++ (c%'"' :: t ++ b!"MB" ++ b!"\""), .back⟩ := by
  have hb : IntTy.long.InRange (24000 * 1000) := by unfold IntTy.InRange; decide
  refine C38_unit .strict (u := ⟨false, 2⟩) (by decide) (by unfold IntTy.InRange; decide) (by unfold IntTy.InRange; decide) (by decide)
    hb .m (by decide) (by decide) (by decide) fun w s' hw h1 _ hd => ?_
  cases hw
  case b => simp at h1
  case t => exact absurd hd (by decide)
  case ti => exact absurd hd (by decide)
  case g => exact absurd hd (by decide)
  case gi => exact absurd hd (by decide)
  case m => exact .inr (.inl rfl)
  case mi => exact absurd hd (by decide)
  case k => exact .inl (by decide)
  case ki => exact .inl (by decide)

example : (sizeSer .strict .ulong 1000).emit 1024 ⟨[], .back⟩ = .ok ⟨b!"\"1024KB\"", .back⟩ := by decide +kernel
example : (sizeSer .strict .ulong 1024).emit 1000 ⟨[], .back⟩ = .ok ⟨b!"\"1000KiB\"", .back⟩ := by decide +kernel
example : (sizeSer .strict .ulong 1024).emit 0 ⟨[], .back⟩ = .ok ⟨b!"\"0KiB\"", .back⟩ := by decide +kernel

/-- C38. A quoted number with a unit is read as the number of bytes divided by the
metric, rounded towards zero. -/
theorem C38_reads (c : Cfg) {ty : IntTy} (hs : ty.Std) {metric : Int} (hm : 1 ≤ metric) (hm' : IntTy.long.InRange metric)
    {n : Int} (h0 : 0 ≤ n) {t : Bytes} (hn : Decimal n t) (hl : t.length ≤ 28) {u : SizeUnit} {s : Bytes} (hu : u.Text s)
    (hb : n * u.bytes ≤ IntTy.long.max) (hv : ty.InRange (n * u.bytes / metric)) :
    Reads (sizeSer c ty metric).de (c%'"' :: t ++ s ++ b!"\"") (n * u.bytes / metric) := by
  have hu1 : 1 ≤ u.bytes := by
    cases hu with
    | @b i => cases i <;> decide
    | _ => decide
  have hmul := mul_between n hu1
  have hnn : 0 ≤ n * u.bytes := Int.mul_nonneg h0 (Int.le_trans (by decide) hu1)
  have hmn : IntTy.long.min < 0 := by decide
  have := deSize_reads c ty hm hm' hn hu hl ⟨by omega, by omega⟩ (.inl (by omega)) ⟨by omega, hb⟩
  rw [Int.tdiv_eq_ediv_of_nonneg hnn, IntTy.wrap_of_inRange hs hv] at this
  exact this

/-- C38, remark: a quoted number without a unit is not divided by the metric,
unlike the same number with the unit `B`. -/
theorem C38_quoted_number (c : Cfg) {ty : IntTy} (hs : ty.Std) (metric : Int) {n : Int} {t : Bytes} (hn : Decimal n t)
    (hl : t.length < 32) (hr : IntTy.long.InRange n) (hmin : n ≠ IntTy.long.min) (hv : ty.InRange n) :
    Reads (sizeSer c ty metric).de (c%'"' :: t ++ b!"\"") n := by
  have := deSize_plain c ty metric hn hl hr (.inl hmin)
  rwa [IntTy.wrap_of_inRange hs hv] at this

example : (sizeSer .strict .ulong 1).emit 3072 ⟨[], .back⟩ = .ok ⟨b!"\"3KiB\"", .back⟩ := by decide +kernel
example : (sizeSer .strict .ulong 1).emit 3000 ⟨[], .back⟩ = .ok ⟨b!"\"3KB\"", .back⟩ := by decide +kernel
example : (sizeSer .strict .ulong 1024).emit 3000 ⟨[], .back⟩ = .ok ⟨b!"\"3000KiB\"", .back⟩ := by decide +kernel
example : (sizeSer .strict .ulong 1).emit 1001 ⟨[], .back⟩ = .ok ⟨b!"1001", .back⟩ := by decide +kernel
example : (sizeSer .strict .ulong 1024).de 0 b!"\"2MiB\"" .fresh = .ok (2048, [], .fresh) := by decide +kernel
example : (sizeSer .strict .ulong 1024).de 0 b!"\"2048\"" .fresh = .ok (2048, [], .fresh) ∧
    (sizeSer .strict .ulong 1024).de 0 b!"\"2048B\"" .fresh = .ok (2, [], .fresh) := by decide +kernel
example : (sizeSer .strict .ulong 1).de 0 b!"\"2QB\"" .fresh = .ok (0, [], .obj ⟨.InvalidNumber, none, 0⟩) := by
  decide +kernel

/-! ## C39 -/

/-- C39. Reading a size from a string that stands for fewer than 32 bytes stays
inside the buffer and the text. -/
theorem C39_in_bounds {c : Cfg} (hw : c.wrapv = true) (ty : IntTy) {metric : Int} (hm : IntTy.long.wrap metric ≠ 0)
    {u w : Bytes} (hu : Decodes u w) (hl : w.length < 32) (v : Int) (rest : Bytes) (e : EPtr) :
    ∃ v' p e', (sizeSer c ty metric).de v (c%'"' :: u ++ c%'"' :: rest) e = .ok (v', p, e') ∧
      p <:+ c%'"' :: u ++ c%'"' :: rest := by
  rcases deSize_safe c ty metric v (c%'"' :: u ++ c%'"' :: rest) e with ⟨_, h⟩ | ⟨v', p, e', h, hp, _⟩
  · rcases h with h | h | ⟨w', p, e', h, _, h0⟩
    · rw [hw] at h; exact absurd h (by decide)
    · exact absurd h hm
    · obtain ⟨w1, p1, e1, h1, _, _, _, h5⟩ := deCharArray_eq 32 [] (c%'"' :: u ++ c%'"' :: rest) e
      have := h5 _ rfl
      rw [show List.append u (c%'"' :: rest) = u ++ c%'"' :: rest from rfl, strDec_decodes hu (Nat.le_of_lt hl)] at this
      obtain ⟨rfl, _, _⟩ := this
      simp only [charArraySer] at h
      rw [h1] at h
      simp only [Out.ok.injEq, Prod.mk.injEq] at h
      rw [← h.1] at h0
      simp at h0
      omega
  · exact ⟨v', p, e', h, hp⟩

/-- C39. For an arbitrary text the only undefined behaviours are signed overflow
and a string that fills the buffer of 32 bytes without a NUL. -/
theorem C39_only_full_buffer {c : Cfg} (hw : c.wrapv = true) (ty : IntTy) {metric : Int}
    (hm : IntTy.long.wrap metric ≠ 0) (v : Int) (s : Bytes) (e : EPtr) :
    (∃ v' p e', (sizeSer c ty metric).de v s e = .ok (v', p, e') ∧ p <:+ s) ∨
    ((sizeSer c ty metric).de v s e = .ub ∧
      ∃ w p e', (charArraySer 32).de [] s e = .ok (w, p, e') ∧ e'.failed = false ∧ (0 : Byte) ∉ w) := by
  rcases deSize_safe c ty metric v s e with ⟨h1, h⟩ | ⟨v', p, e', h, hp, _⟩
  · refine .inr ⟨h1, ?_⟩
    simpa [hw, hm] using h
  · exact .inl ⟨v', p, e', h, hp⟩

/-- C39, exception: a string that stands for exactly 32 bytes, none of them NUL,
leaves no terminator for `strlen`. -/
theorem C39_overrun (c : Cfg) (ty : IntTy) (metric : Int) {u w : Bytes} (hu : Decodes u w) (hl : w.length = 32)
    (h0 : ∀ b ∈ w, b ≠ 0) (v : Int) (rest : Bytes) {e : EPtr} (he : e.failed = false) :
    (sizeSer c ty metric).de v (c%'"' :: u ++ c%'"' :: rest) e = .ub := by
  obtain ⟨w1, p1, e1, h1, _, _, _, h5⟩ := deCharArray_eq 32 (List.replicate 32 0) (c%'"' :: u ++ c%'"' :: rest) e
  have := h5 _ rfl
  rw [show List.append u (c%'"' :: rest) = u ++ c%'"' :: rest from rfl, strDec_decodes hu (Nat.le_of_eq hl)] at this
  obtain ⟨rfl, rfl, rfl⟩ := this
  simp only [sizeSer, deSize, List.cons_append, isNull, isNumber, isString, charArraySer] at h1 ⊢
  rw [h1]
  simp only [Out.bind_ok, he, show isDigit c%'"' = false by decide, hl]
  have : cstr (w1 ++ List.replicate (32 - 32) 0) = .ub := by
    rw [cstr_eq, if_neg]
    simp only [Nat.sub_self, List.replicate_zero, List.append_nil]
    exact fun h => h0 0 h rfl
  rw [this]
  simp

/-- C39, exception: without an error object a longer string is not noticed
either. -/
theorem C39_overrun_without_error_object :
    (sizeSer .nul .ulong 1).de 0 b!"\"1000000000000000000000000000000000 KB\"" .null = .ub ∧
    (sizeSer .nul .ulong 1).de 0 b!"\"1000000000000000000000000000000000 KB\"" .fresh =
      .ok (0, [], .obj ⟨.ExpectedOf, some b!"\"", 6⟩) := by decide +kernel

example : (sizeSer .nul .ulong 1).de 0 b!"\"1234567890KB                    \"" .fresh = .ub := by decide +kernel
example : Decodes b!"1234567890KB                    " b!"1234567890KB                    " := decodes_ascii (by decide)

end Wjson
