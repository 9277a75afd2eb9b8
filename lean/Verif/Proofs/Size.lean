import Verif.Proofs.Time
/-
Reading and writing of sizes.
-/
namespace Wjson
open Spec

theorem cstr_eq : ∀ l : Bytes, cstr l = if (0 : Byte) ∈ l then .ok (l.takeWhile (· ≠ 0)) else .ub
  | [] => rfl
  | b :: t => by
    have ih := cstr_eq t
    simp only [cstr]
    by_cases h : b = 0
    · simp [h]
    · rw [if_neg h, ih]
      by_cases h' : (0 : Byte) ∈ t
      · simp [h, h']
      · simp [h', show ¬ (0 : Byte) = b from fun x => h x.symm]

theorem cstr_padded {w : Bytes} (hw : ∀ b ∈ w, b ≠ 0) {n : Nat} (hn : w.length < n) :
    cstr (w ++ List.replicate (n - w.length) 0) = .ok w := by
  obtain ⟨k, hk⟩ : ∃ k, n - w.length = k + 1 := ⟨n - w.length - 1, by omega⟩
  rw [cstr_eq, hk, if_pos (by simp), List.takeWhile_append_of_pos (by simpa using hw)]
  simp [List.replicate_succ]

theorem intText_length {v : Int} (h : IntTy.long.InRange v) : (intText v).length ≤ 20 := by
  have h' : v.natAbs < 10 ^ 19 := by
    simp [IntTy.InRange, IntTy.min, IntTy.max, IntTy.long] at h
    omega
  have := revDigits_length h'
  unfold intText
  repeat' split
  all_goals simp
  all_goals omega

theorem decimal_bytes {v : Int} {t : Bytes} (h : Decimal v t) : ∀ b ∈ t, Digit b ∨ b = c%'-' := by
  obtain ⟨i, hi, h⟩ := h
  intro b hb
  rcases h with ⟨_, rfl, _⟩ | ⟨_, rfl, _⟩
  · exact .inl (rint_digits hi b hb)
  · simp at hb
    rcases hb with rfl | hb
    · exact .inr rfl
    · exact .inl (rint_digits hi b hb)

/-- Plain ASCII text without quotes and backslashes stands for itself. -/
theorem decodes_ascii : ∀ {u : Bytes}, (∀ b ∈ u, b < 0x80 ∧ b ≠ c%'"' ∧ b ≠ c%'\\') → Decodes u u
  | [], _ => .nil
  | b :: t, h => by
    have hb := h b (by simp)
    exact Decodes.cons (u := [b]) (v := [b]) (.ascii hb.1 hb.2.1 hb.2.2) (decodes_ascii fun x hx => h x (by simp [hx]))

theorem deSize_string (c : Cfg) (ty : IntTy) (metric : Int) {u : Bytes}
    (hu : ∀ b ∈ u, b < 0x80 ∧ b ≠ c%'"' ∧ b ≠ c%'\\' ∧ b ≠ 0) (hl : u.length < 32) (v0 : Int) (rest : Bytes) {e : EPtr}
    (he : e.failed = false) :
    deSize c ty metric v0 (c%'"' :: u ++ c%'"' :: rest) e =
        (deInt c .long 0 u e >>= sizeApply c ty metric rest) := by
  obtain ⟨w, p, e', h1, _, _, _, h5⟩ := deCharArray_eq 32 (List.replicate 32 0) (c%'"' :: u ++ c%'"' :: rest) e
  have := h5 _ rfl
  rw [show List.append u (c%'"' :: rest) = u ++ c%'"' :: rest from rfl,
    strDec_decodes (decodes_ascii fun b hb => ⟨(hu b hb).1, (hu b hb).2.1, (hu b hb).2.2.1⟩) (Nat.le_of_lt hl)] at this
  obtain ⟨rfl, rfl, rfl⟩ := this
  simp only [deSize, List.cons_append, isNull, isNumber, isString, charArraySer] at h1 ⊢
  rw [h1]
  simp only [Out.bind_ok, he, show isDigit c%'"' = false by decide]
  rw [cstr_padded (fun b hb => (hu b hb).2.2.2) hl]
  simp

theorem SizeUnit.Text.mult {u : SizeUnit} {s : Bytes} (h : u.Text s) :
    ∃ ch1 r, s = ch1 :: r ∧ sizeMult ch1 (r.headD 0) = some u.bytes := by
  cases h with
  | @b i => cases i <;> exact ⟨_, _, rfl, by decide⟩
  | _ => exact ⟨_, _, rfl, by decide⟩

theorem SizeUnit.Text.chars {u : SizeUnit} {s : Bytes} (h : u.Text s) :
    s.length ≤ 3 ∧ (∀ r, NoDigitNext (s ++ r)) ∧ ∀ b ∈ s, b < 0x80 ∧ b ≠ c%'"' ∧ b ≠ c%'\\' ∧ b ≠ 0 := by
  cases h <;> refine ⟨by decide, fun r b hb => ?_, by decide⟩ <;> simp at hb <;> subst hb <;> unfold Digit <;> decide

theorem decimal_chars {v : Int} {t : Bytes} (h : Decimal v t) : ∀ b ∈ t, b < 0x80 ∧ b ≠ c%'"' ∧ b ≠ c%'\\' ∧ b ≠ 0 := by
  intro b hb
  have := decimal_bytes h b hb
  clear hb h
  revert this; revert b; unfold Digit; apply forall_byte; decide +kernel

/-- A size with a unit. -/
theorem deSize_reads (c : Cfg) (ty : IntTy) {metric : Int} (hm : 1 ≤ metric) (hm' : IntTy.long.InRange metric)
    {n : Int} {t : Bytes} (hn : Decimal n t) {u : SizeUnit} {s : Bytes} (hu : u.Text s) (hl : t.length ≤ 28)
    (hr : IntTy.long.InRange n) (hmin : n ≠ IntTy.long.min ∨ IntTy.long.Modular c)
    (hb : IntTy.long.InRange (n * u.bytes)) :
    Reads (deSize c ty metric) (c%'"' :: t ++ s ++ b!"\"") (ty.wrap ((n * u.bytes).tdiv metric)) := by
  intro v0 rest e he _
  obtain ⟨hsl, hnd, hsc⟩ := SizeUnit.Text.chars hu
  obtain ⟨ch1, r, hs, hmult⟩ := SizeUnit.Text.mult hu
  have hlong : IntTy.long.Std := .inr (.inr (.inr rfl))
  have h := deSize_string c ty metric (u := t ++ s) (by
    intro b hb
    rcases List.mem_append.mp hb with hb | hb
    · exact decimal_chars hn b hb
    · exact hsc b hb) (by simp; omega) v0 rest he
  have hint := deInt_decimal c hlong hr hmin hn (rest := s) (by simpa using hnd []) 0 e
  rw [show c%'"' :: t ++ s ++ b!"\"" ++ rest = c%'"' :: (t ++ s) ++ c%'"' :: rest by simp, h, hint, Out.bind_ok]
  subst hs
  simp only [sizeApply, he, Bool.false_eq_true, if_false, hmult]
  rw [IntTy.arith_inRange hlong c hb, Out.bind_ok, IntTy.wrap_of_inRange hlong hm', if_neg (by omega),
    IntTy.arith_inRange hlong c (IntTy.inRange_between hlong hb (tdiv_between _ (by omega)))]
  simp

/-- A number in quotes without a unit. -/
theorem deSize_plain (c : Cfg) (ty : IntTy) (metric : Int) {n : Int} {t : Bytes} (hn : Decimal n t) (hl : t.length < 32)
    (hr : IntTy.long.InRange n) (hmin : n ≠ IntTy.long.min ∨ IntTy.long.Modular c) :
    Reads (deSize c ty metric) (c%'"' :: t ++ b!"\"") (ty.wrap n) := by
  intro v0 rest e he _
  have hlong : IntTy.long.Std := .inr (.inr (.inr rfl))
  have h := deSize_string c ty metric (u := t) (decimal_chars hn) hl v0 rest he
  have hint := deInt_decimal c hlong hr hmin hn (rest := []) (by intro b hb; simp at hb) 0 e
  rw [List.append_nil] at hint
  rw [show c%'"' :: t ++ b!"\"" ++ rest = c%'"' :: t ++ c%'"' :: rest by simp, h, hint, Out.bind_ok]
  simp [sizeApply, he]

/-! ### Writing through a back inserter -/

theorem mixTy_wrap {ty : IntTy} {x : Int} (h : IntTy.long.InRange x) (h0 : ty.signed = false → 0 ≤ x) :
    (mixTy ty).wrap x = x := by
  unfold mixTy
  split
  · next hty =>
    subst hty
    have := h0 rfl
    simp [IntTy.InRange, IntTy.long, IntTy.max, IntTy.min] at h
    simp [IntTy.wrap, IntTy.ulong]; omega
  · exact IntTy.wrap_of_inRange (.inr (.inr (.inr rfl))) h

theorem sizeWriteIf_back (ty : IntTy) (metric : Int) {base exp : Nat} (hb : 0 < base) (suffix : Bytes) {bytes : Int}
    (h : IntTy.long.InRange bytes) (h0 : ty.signed = false → 0 ≤ bytes) :
    ((∀ k, sizeWriteIf ty metric base exp suffix bytes k = .ok none) ∧
      (exp ≤ ty.bits / 8 / 2 → bytes ≠ 0 → ¬ ((base ^ exp : Nat) : Int) ∣ bytes)) ∨
    ∃ n : Int, n * ((base ^ exp : Nat) : Int) = bytes ∧ IntTy.long.InRange n ∧
      ∀ m, sizeWriteIf ty metric base exp suffix bytes ⟨m, .back⟩ =
        .ok (some ⟨m ++ (c%'"' :: intText n ++ suffix ++ b!"\""), .back⟩) := by
  have hlong : IntTy.long.Std := .inr (.inr (.inr rfl))
  have hp : (0 : Int) < ((base ^ exp : Nat) : Int) := by
    have := Nat.pow_pos (n := exp) hb
    omega
  unfold sizeWriteIf
  by_cases he : ty.bits / 8 / 2 ≥ exp
  · simp only [if_pos he, mixTy_wrap h h0]
    generalize ((base ^ exp : Nat) : Int) = pow at *
    by_cases hr : (if bytes ≠ 0 then decide (bytes.tmod pow = 0) else decide (metric = pow)) = true
    · right
      have hdiv : bytes.tdiv pow * pow = bytes := by
        by_cases hz : bytes = 0
        · simp [hz]
        · rw [if_pos hz] at hr
          have h1 := Int.mul_tdiv_add_tmod bytes pow
          have h2 : bytes.tmod pow = 0 := by simpa using hr
          rw [h2, Int.mul_comm] at h1
          omega
      have hin : IntTy.long.InRange (bytes.tdiv pow) := IntTy.inRange_between hlong h (tdiv_between _ hp)
      refine ⟨bytes.tdiv pow, hdiv, hin, fun m => ?_⟩
      rw [if_pos hr]
      simp only [Sink.put, Out.bind_ok, IntTy.wrap_of_inRange hlong hin]
      rw [emitInt_writes hlong hin, Sink.puts_back, Out.bind_ok, Sink.puts_back, Out.bind_ok]
      simp
    · left
      refine ⟨fun k => by rw [if_neg hr], fun _ hz hd => hr ?_⟩
      rw [if_pos hz]
      simpa using Int.tmod_eq_zero_of_dvd hd
  · left
    exact ⟨fun k => by rw [if_neg he], fun hh => absurd hh he⟩

theorem sizeTry_back (ty : IntTy) (metric : Int) {bytes : Int} (h : IntTy.long.InRange bytes)
    (h0 : ty.signed = false → 0 ≤ bytes) : ∀ us : List (Nat × Nat × Bytes), (∀ x ∈ us, 0 < x.1) →
    ((∀ k, sizeTry ty metric bytes us k = .ok none) ∧
      ∀ x ∈ us, x.2.1 ≤ ty.bits / 8 / 2 → bytes ≠ 0 → ¬ ((x.1 ^ x.2.1 : Nat) : Int) ∣ bytes) ∨
    ∃ x ∈ us, ∃ n : Int, n * ((x.1 ^ x.2.1 : Nat) : Int) = bytes ∧ IntTy.long.InRange n ∧
      ∀ m, sizeTry ty metric bytes us ⟨m, .back⟩ =
        .ok (some ⟨m ++ (c%'"' :: intText n ++ x.2.2 ++ b!"\""), .back⟩)
  | [], _ => .inl ⟨fun _ => rfl, by simp⟩
  | (base, exp, suffix) :: us, hus => by
    rcases sizeWriteIf_back ty metric (hus (base, exp, suffix) (by simp)) (exp := exp) suffix h h0 with ⟨hw, hd⟩ | ⟨n, hn, hin, hw⟩
    · rcases sizeTry_back ty metric h h0 us (fun x hx => hus x (by simp [hx])) with ⟨ht, hd'⟩ | ⟨x, hx, n, hn, hin, ht⟩
      · left
        refine ⟨fun k => by simp [sizeTry, hw, ht], fun x hx => ?_⟩
        rcases List.mem_cons.mp hx with rfl | hx
        · exact hd
        · exact hd' x hx
      · right
        exact ⟨x, by simp [hx], n, hn, hin, fun m => by simp only [sizeTry, hw, Out.bind_ok, ht]⟩
    · right
      exact ⟨_, by simp, n, hn, hin, fun m => by simp only [sizeTry, hw, Out.bind_ok]⟩

theorem sizeUnits_text (metric : Int) : ∀ x ∈ sizeUnits metric, 0 < x.1 ∧ ∃ u : SizeUnit, u.Text x.2.2 ∧
    u.bytes = ((x.1 ^ x.2.1 : Nat) : Int) ∧ 1000 ≤ u.bytes := by
  have key : ∀ x ∈ ([(1000, 4, b!"TB"), (1024, 4, b!"TiB"), (1000, 3, b!"GB"), (1024, 3, b!"GiB"),
     (1000, 2, b!"MB"), (1024, 2, b!"MiB"), (1000, 1, b!"KB"), (1024, 1, b!"KiB")] : List (Nat × Nat × Bytes)),
      0 < x.1 ∧ ∃ u : SizeUnit, u.Text x.2.2 ∧ u.bytes = ((x.1 ^ x.2.1 : Nat) : Int) ∧ 1000 ≤ u.bytes := by
    intro x hx
    simp only [List.mem_cons, List.not_mem_nil, or_false] at hx
    rcases hx with rfl | rfl | rfl | rfl | rfl | rfl | rfl | rfl
    · exact ⟨by decide, ⟨false, 4⟩, .t, by decide, by decide⟩
    · exact ⟨by decide, ⟨true, 4⟩, .ti, by decide, by decide⟩
    · exact ⟨by decide, ⟨false, 3⟩, .g, by decide, by decide⟩
    · exact ⟨by decide, ⟨true, 3⟩, .gi, by decide, by decide⟩
    · exact ⟨by decide, ⟨false, 2⟩, .m, by decide, by decide⟩
    · exact ⟨by decide, ⟨true, 2⟩, .mi, by decide, by decide⟩
    · exact ⟨by decide, ⟨false, 1⟩, .k, by decide, by decide⟩
    · exact ⟨by decide, ⟨true, 1⟩, .ki, by decide, by decide⟩
  intro x hx
  apply key
  unfold sizeUnits at hx
  simp only [List.mem_cons, List.not_mem_nil, or_false] at hx ⊢
  split at hx
  · simpa using hx
  · simp at hx
    rcases hx with rfl | rfl | rfl | rfl | rfl | rfl | rfl | rfl <;> simp

/-- What is written for a size: the plain number, or a number and a unit that
multiply to the number of bytes. -/
theorem emitSize_text (c : Cfg) {ty : IntTy} (hs : ty.Std) {metric v : Int} (hm : 1 ≤ metric)
    (hm' : IntTy.long.InRange metric) (hv : ty.InRange v) (hb : IntTy.long.InRange (v * metric)) :
    ((∀ m, emitSize c ty metric v ⟨m, .back⟩ = .ok ⟨m ++ intText v, .back⟩) ∧
      (v ≠ 0 → 16 ≤ ty.bits → ¬ 1000 ∣ v * metric ∧ ¬ 1024 ∣ v * metric)) ∨
    ∃ (n : Int) (u : SizeUnit) (s : Bytes), u.Text s ∧ n * u.bytes = v * metric ∧ 1000 ≤ u.bytes ∧ IntTy.long.InRange n ∧
      ∀ m, emitSize c ty metric v ⟨m, .back⟩ = .ok ⟨m ++ (c%'"' :: intText n ++ s ++ b!"\""), .back⟩ := by
  have hlong : IntTy.long.Std := .inr (.inr (.inr rfl))
  have h0 : ty.signed = false → 0 ≤ v * metric := by
    intro h
    have : 0 ≤ v := by
      have := hv.1
      simpa [IntTy.min, h] using this
    exact Int.mul_nonneg this (by omega)
  have hvl : IntTy.long.wrap v = v :=
    IntTy.wrap_of_inRange hlong (IntTy.inRange_between hlong hb (mul_between v hm))
  unfold emitSize
  simp only [hvl, IntTy.wrap_of_inRange hlong hm', IntTy.arith_inRange hlong c hb, Out.bind_ok]
  rcases sizeTry_back ty metric hb h0 (sizeUnits metric) (fun x hx => (sizeUnits_text metric x hx).1) with
    ⟨ht, hd⟩ | ⟨x, hx, n, hn, hin, ht⟩
  · left
    refine ⟨fun m => ?_, fun hv0 hbits => ?_⟩
    · rw [ht, Out.bind_ok]
      simp only
      rw [emitInt_writes hs hv, Sink.puts_back]
    · have hne : v * metric ≠ 0 := by
        intro h
        rcases Int.mul_eq_zero.mp h with h | h <;> omega
      have h1 : (1000, 1, b!"KB") ∈ sizeUnits metric := by unfold sizeUnits; split <;> simp
      have h2 : (1024, 1, b!"KiB") ∈ sizeUnits metric := by unfold sizeUnits; split <;> simp
      have e1 := hd _ h1 (by simp only; omega) hne
      have e2 := hd _ h2 (by simp only; omega) hne
      simpa using ⟨e1, e2⟩
  · right
    obtain ⟨_, u, hu, hub, hk⟩ := sizeUnits_text metric x hx
    exact ⟨n, u, x.2.2, hu, by rw [hub, hn], hk, hin, fun m => by rw [ht, Out.bind_ok]⟩

/-- A size is read back as written. -/
theorem emitSize_reads (c : Cfg) {ty : IntTy} (hs : ty.Std) {metric v : Int} (hm : 1 ≤ metric)
    (hm' : IntTy.long.InRange metric) (hv : ty.InRange v) (hb : IntTy.long.InRange (v * metric))
    (hmin : v ≠ ty.min ∨ ty.Modular c) :
    ∃ t, (∀ m, emitSize c ty metric v ⟨m, .back⟩ = .ok ⟨m ++ t, .back⟩) ∧ Reads (deSize c ty metric) t v := by
  rcases emitSize_text c hs hm hm' hv hb with ⟨h, _⟩ | ⟨n, u, s, hu, hn, hk, hin, h⟩
  · refine ⟨_, h, fun v0 rest e he hd => ?_⟩
    have hint := deInt_decimal c hs hv hmin (intText_decimal v) (Delim.noDigitNext hd) 0 e
    have hstart : ∃ b w, intText v = b :: w ∧ (Digit b ∨ b = c%'-') := by
      rcases TimeText.head (TimeText.cons (u := .s) (intText_decimal v) .nil) with h | ⟨b, w, h, hb⟩
      · simp [TimeUnit.text] at h
      · cases hi : intText v with
        | nil =>
          obtain ⟨i, hi', h⟩ := intText_decimal v
          rw [hi] at h
          rcases h with ⟨_, rfl, _⟩ | ⟨_, h, _⟩
          · rcases hi' with h | ⟨_, _, h, _⟩ <;> simp at h
          · simp at h
        | cons x y =>
          rw [hi] at h
          simp at h
          exact ⟨x, y, rfl, by rw [h.1]; exact hb⟩
    obtain ⟨b, w, hbw, hb'⟩ := hstart
    have hfacts : b ≠ c%'n' ∧ (isDigit b = true ∨ b = c%'-') := by
      clear hbw hint
      revert hb'; revert b; unfold Digit isDigit; apply forall_byte; decide +kernel
    rw [hbw] at hint ⊢
    simp only [List.cons_append] at hint ⊢
    have hnull : isNull (b :: (w ++ rest)) = false := by simp [isNull, hfacts.1]
    have hnum : isNumber (b :: (w ++ rest)) = true := by
      rcases hfacts.2 with h | h <;> simp [isNumber, h]
    simp only [deSize, hnull, hnum, if_true, Bool.false_eq_true, if_false, hint]
  · refine ⟨_, h, ?_⟩
    have hnmin : n ≠ IntTy.long.min := by
      rintro rfl
      rw [← hn] at hb
      simp only [IntTy.InRange, IntTy.long, IntTy.min, IntTy.max, if_true] at hb
      omega
    have := deSize_reads c ty hm hm' (intText_decimal n) hu (by have := intText_length hin; omega) hin (.inl hnmin)
      (by rw [hn]; exact hb)
    rw [hn, Int.mul_tdiv_cancel v (by omega), IntTy.wrap_of_inRange hs hv] at this
    exact this

/-! ### Safety -/

/-- Reading a size is undefined only by signed overflow, when a string fills the
buffer of 32 bytes without a NUL, or with a metric of zero. -/
theorem deSize_safe (c : Cfg) (ty : IntTy) (metric : Int) (v : Int) (s : Bytes) (e : EPtr) :
    SafeOut (c.wrapv = false ∨ IntTy.long.wrap metric = 0 ∨
      ∃ w p e', (charArraySer 32).de [] s e = .ok (w, p, e') ∧ e'.failed = false ∧ (0 : Byte) ∉ w) s e
      (deSize c ty metric v s e) := by
  unfold deSize
  cases s with
  | nil => exact .err (by decide) (by omega) (by omega)
  | cons b t =>
    simp only
    refine .ite (fun _ => SafeOut.scan (parseNull_scan _) 0) (fun _ => ?_)
    refine .ite (fun _ => ?_) (fun _ => ?_)
    · exact (deInt_safe c ty 0 (b :: t) e).mono .inl (List.suffix_refl _) (.refl _ e)
    · refine .ite (fun _ => .err (by decide) (by omega) (by omega)) (fun hstr => ?_)
      have hb : b = c%'"' := by simpa [isString] using hstr
      obtain ⟨w, p, e', h, _, hp, he, hdec⟩ := deCharArray_eq 32 (List.replicate 32 0) (b :: t) e
      have h' : (charArraySer 32).de (List.replicate 32 0) (b :: t) e =
        .ok (w ++ List.replicate (32 - w.length) 0, p, e') := h
      have h'' : (charArraySer 32).de [] (b :: t) e = .ok (w ++ List.replicate (32 - w.length) 0, p, e') := h
      rw [h', Out.bind_ok]
      have hwl : w.length ≤ t.length := by
        have h1 := (hdec t (by rw [hb])).1
        have h2 := (strDec_ok t 32 e).2.2.2
        rw [h1]
        omega
      have htw : ((w ++ List.replicate (32 - w.length) 0).takeWhile (· ≠ 0)).length ≤ (b :: t).length := by
        have : ∀ (x : Bytes) (n : Nat), ((x ++ List.replicate n 0).takeWhile (· ≠ 0)).length ≤ x.length := by
          intro x n
          induction x with
          | nil => cases n <;> simp [List.replicate_succ]
          | cons a x ih =>
            by_cases ha : a = 0
            · simp [ha]
            · simpa [ha] using ih
        have := this w (32 - w.length)
        simp only [List.length_cons]
        omega
      simp only
      generalize w ++ List.replicate (32 - w.length) 0 = w at *
      refine .ite (fun _ => .ok hp he) (fun hf => ?_)
      rw [cstr_eq]
      by_cases h0 : (0 : Byte) ∈ w
      · rw [if_pos h0, Out.bind_ok]
        rcases deInt_safe c .long 0 (w.takeWhile (· ≠ 0)) e' with ⟨h, hw⟩ | ⟨val, q, e2, h, _, he2⟩
        · rw [h]; exact .inl ⟨rfl, .inl hw⟩
        · rw [h, Out.bind_ok]
          have he' : EStep (b :: t).length e e2 := he.trans (he2.mono htw)
          unfold sizeApply
          simp only
          refine .ite (fun _ => .ok hp he') (fun _ => ?_)
          cases q with
          | nil => exact .ok hp he'
          | cons ch1 u =>
            simp only
            cases sizeMult ch1 (u.headD 0) with
            | none => exact .ok List.nil_suffix (he'.trans (.create (by decide) _ _ (by omega) (by omega)))
            | some mult =>
              have har : ∀ x, (IntTy.long.arith c x = .ub ∧ c.wrapv = false) ∨ ∃ y, IntTy.long.arith c x = .ok y := by
                intro x
                unfold IntTy.arith
                split
                · exact .inr ⟨_, rfl⟩
                · split
                  · exact .inr ⟨_, rfl⟩
                  · split
                    · exact .inr ⟨_, rfl⟩
                    · next h => exact .inl ⟨rfl, by simpa using h⟩
              simp only
              rcases har (val * mult) with ⟨h, hw⟩ | ⟨x, h⟩
              · rw [h]; exact .inl ⟨rfl, .inl hw⟩
              · rw [h, Out.bind_ok]
                by_cases hm : IntTy.long.wrap metric = 0
                · rw [if_pos hm]; exact .inl ⟨rfl, .inr (.inl hm)⟩
                · rw [if_neg hm]
                  rcases har (x.tdiv (IntTy.long.wrap metric)) with ⟨h, hw⟩ | ⟨y, h⟩
                  · rw [h]; exact .inl ⟨rfl, .inl hw⟩
                  · rw [h, Out.bind_ok]; exact .ok hp he'
      · rw [if_neg h0]
        exact .inl ⟨rfl, .inr (.inr ⟨w, p, e', h'', by simpa using hf, h0⟩)⟩

/-- The first unit of the list that is small enough for the type and divides the number of bytes. -/
theorem sizeTry_first (ty : IntTy) (metric : Int) {bytes : Int} (h : IntTy.long.InRange bytes)
    (h0 : ty.signed = false → 0 ≤ bytes) (hz : bytes ≠ 0) : ∀ us : List (Nat × Nat × Bytes), (∀ x ∈ us, 0 < x.1) →
    (∀ x ∈ us, ¬ (x.2.1 ≤ ty.bits / 8 / 2 ∧ ((x.1 ^ x.2.1 : Nat) : Int) ∣ bytes)) ∨
    ∃ us1 x us2, us = us1 ++ x :: us2 ∧ x.2.1 ≤ ty.bits / 8 / 2 ∧
      (∀ y ∈ us1, ¬ (y.2.1 ≤ ty.bits / 8 / 2 ∧ ((y.1 ^ y.2.1 : Nat) : Int) ∣ bytes)) ∧
      ∃ n : Int, n * ((x.1 ^ x.2.1 : Nat) : Int) = bytes ∧
      ∀ m, sizeTry ty metric bytes us ⟨m, .back⟩ =
        .ok (some ⟨m ++ (c%'"' :: intText n ++ x.2.2 ++ b!"\""), .back⟩)
  | [], _ => .inl (by simp)
  | (base, exp, suffix) :: us, hus => by
    rcases sizeWriteIf_back ty metric (hus (base, exp, suffix) (by simp)) (exp := exp) suffix h h0 with ⟨hw, hd⟩ | ⟨n, hn, hin, hw⟩
    · have hd0 : ¬ (exp ≤ ty.bits / 8 / 2 ∧ ((base ^ exp : Nat) : Int) ∣ bytes) := fun hh => hd hh.1 hz hh.2
      rcases sizeTry_first ty metric h h0 hz us (fun x hx => hus x (by simp [hx])) with hd' | ⟨us1, x, us2, rfl, hx, h1, n, hn, ht⟩
      · left
        intro x hx
        rcases List.mem_cons.mp hx with rfl | hx
        · exact hd0
        · exact hd' x hx
      · right
        refine ⟨(base, exp, suffix) :: us1, x, us2, rfl, hx, fun y hy => ?_, n, hn, fun m => by simp only [sizeTry, hw, Out.bind_ok, ht]⟩
        rcases List.mem_cons.mp hy with rfl | hy
        · exact hd0
        · exact h1 y hy
    · right
      refine ⟨[], _, us, rfl, ?_, by simp, n, hn, fun m => by simp only [sizeTry, hw, Out.bind_ok]⟩
      by_cases he : exp ≤ ty.bits / 8 / 2
      · exact he
      · have := hw []
        unfold sizeWriteIf at this
        rw [if_neg he] at this
        cases this

/-- The place of a unit in the order in which they are tried. -/
def sizeRank (metric : Int) (x : Nat × Nat × Bytes) : Nat :=
  2 * x.2.1 + if (x.1 = 1000 ↔ (metric.tmod 10 = 0 ∨ metric = 1)) then 1 else 0

theorem sizeRank_le (metric : Int) (x : Nat × Nat × Bytes) : 2 * x.2.1 ≤ sizeRank metric x ∧ sizeRank metric x ≤ 2 * x.2.1 + 1 := by
  unfold sizeRank
  split <;> omega

theorem sizeUnits_sorted (metric : Int) : (sizeUnits metric).Pairwise fun x y => sizeRank metric y < sizeRank metric x := by
  unfold sizeUnits
  by_cases h : metric.tmod 10 = 0 ∨ metric = 1 <;> simp [h, sizeRank]

theorem sizeUnits_entry (metric : Int) {u : SizeUnit} {s : Bytes} (hu : u.Text s) (h : 1 ≤ u.exp) :
    ((if u.binary then 1024 else 1000), u.exp, s) ∈ sizeUnits metric := by
  unfold sizeUnits
  cases hu
  case b => exact absurd h (by simp)
  all_goals split <;> simp

theorem sizeUnits_unit (metric : Int) {x : Nat × Nat × Bytes} (hx : x ∈ sizeUnits metric) :
    ∃ u : SizeUnit, x = ((if u.binary then 1024 else 1000), u.exp, x.2.2) ∧ u.Text x.2.2 ∧ 1 ≤ u.exp := by
  unfold sizeUnits at hx
  split at hx <;> simp only [List.mem_cons, List.not_mem_nil, or_false] at hx <;>
    rcases hx with rfl | rfl | rfl | rfl | rfl | rfl | rfl | rfl <;>
    first
      | exact ⟨⟨false, 4⟩, rfl, .t, by decide⟩
      | exact ⟨⟨true, 4⟩, rfl, .ti, by decide⟩
      | exact ⟨⟨false, 3⟩, rfl, .g, by decide⟩
      | exact ⟨⟨true, 3⟩, rfl, .gi, by decide⟩
      | exact ⟨⟨false, 2⟩, rfl, .m, by decide⟩
      | exact ⟨⟨true, 2⟩, rfl, .mi, by decide⟩
      | exact ⟨⟨false, 1⟩, rfl, .k, by decide⟩
      | exact ⟨⟨true, 1⟩, rfl, .ki, by decide⟩

theorem sizeText_unique {u : SizeUnit} {s s' : Bytes} (h : u.Text s) (h' : u.Text s') (h1 : 1 ≤ u.exp) : s = s' := by
  cases h <;> first | (exact absurd h1 (by decide)) | (cases h'; rfl)

/-- The best unit is the one that is written. -/
theorem emitSize_unit (c : Cfg) {ty : IntTy} {metric v : Int} (hm : 1 ≤ metric)
    (hm' : IntTy.long.InRange metric) (hv : ty.InRange v) (hv0 : v ≠ 0) (hb : IntTy.long.InRange (v * metric)) {u : SizeUnit} {s : Bytes}
    (hu : u.Text s) (h1 : 1 ≤ u.exp) (hfit : u.exp ≤ ty.bits / 8 / 2) (hd : u.bytes ∣ v * metric)
    (hbest : ∀ (w : SizeUnit) (s' : Bytes), w.Text s' → 1 ≤ w.exp → w.exp ≤ ty.bits / 8 / 2 → w.bytes ∣ v * metric →
      w.exp < u.exp ∨ w = u ∨ (w.exp = u.exp ∧ (u.binary = false ↔ (10 ∣ metric ∨ metric = 1)))) (m : Bytes) :
    emitSize c ty metric v ⟨m, .back⟩ = .ok ⟨m ++ (c%'"' :: intText (v * metric / u.bytes) ++ s ++ b!"\""), .back⟩ := by
  have hlong : IntTy.long.Std := .inr (.inr (.inr rfl))
  have h0 : ty.signed = false → 0 ≤ v * metric := by
    intro h
    have : 0 ≤ v := by
      have := hv.1
      simpa [IntTy.min, h] using this
    exact Int.mul_nonneg this (by omega)
  have hvl : IntTy.long.wrap v = v :=
    IntTy.wrap_of_inRange hlong (IntTy.inRange_between hlong hb (mul_between v hm))
  have hne : v * metric ≠ 0 := by
    intro h
    rcases Int.mul_eq_zero.mp h with h | h <;> omega
  unfold emitSize
  simp only [hvl, IntTy.wrap_of_inRange hlong hm', IntTy.arith_inRange hlong c hb, Out.bind_ok]
  have hent := sizeUnits_entry metric hu h1
  have hbytes : ∀ (w : SizeUnit), w.bytes = (((if w.binary then 1024 else 1000) ^ w.exp : Nat) : Int) := fun _ => rfl
  rcases sizeTry_first ty metric hb h0 hne (sizeUnits metric) (fun x hx => (sizeUnits_text metric x hx).1) with
    hd' | ⟨us1, x, us2, hus, hx, hno, n, hn, ht⟩
  · exact absurd ⟨hfit, by rw [hbytes] at hd; exact hd⟩ (hd' _ hent)
  · rw [ht, Out.bind_ok]
    dsimp only
    obtain ⟨w, hw, hws, hw1⟩ := sizeUnits_unit metric (x := x) (by rw [hus]; simp)
    have hwd : w.bytes ∣ v * metric := ⟨n, by rw [← hn, hbytes, Int.mul_comm]; rw [hw]⟩
    have hwu : w = u := by
      rw [hus] at hent
      rcases List.mem_append.mp hent with h | h
      · exact absurd ⟨hfit, by rw [hbytes] at hd; exact hd⟩ (hno _ h)
      · rcases List.mem_cons.mp h with h | h
        · rw [hw] at h
          simp only [Prod.mk.injEq] at h
          obtain ⟨b, e⟩ := w
          obtain ⟨b', e'⟩ := u
          simp only at h
          obtain ⟨hb1, rfl, _⟩ := h
          cases b <;> cases b' <;> first | rfl | (simp at hb1)
        · have hs := sizeUnits_sorted metric
          rw [hus, List.pairwise_append] at hs
          have hlt := (List.pairwise_cons.mp hs.2.1).1 _ h
          rw [hw] at hx
          rcases hbest w _ hws hw1 hx hwd with hlt' | rfl | ⟨heq, hpref⟩
          · have r1 := (sizeRank_le metric x).2
            have r2 := (sizeRank_le metric ((if u.binary then 1024 else 1000), u.exp, s)).1
            have r3 : x.2.1 = w.exp := by rw [hw]
            dsimp only at r2
            omega
          · rfl
          · have r1 := (sizeRank_le metric x).2
            have r3 : x.2.1 = w.exp := by rw [hw]
            have h10 : metric.tmod 10 = 0 ↔ 10 ∣ metric := ⟨Int.dvd_of_tmod_eq_zero, Int.tmod_eq_zero_of_dvd⟩
            have : ((if u.binary = true then 1024 else 1000) = 1000 ↔ (metric.tmod 10 = 0 ∨ metric = 1)) := by
              rw [h10, ← hpref]
              cases u.binary <;> simp
            have r2 : sizeRank metric ((if u.binary then 1024 else 1000), u.exp, s) = 2 * u.exp + 1 := by
              unfold sizeRank
              rw [if_pos this]
            omega
    subst hwu
    have : x.2.2 = s := sizeText_unique hws hu h1
    rw [this]
    have hn' : v * metric / w.bytes = n := by
      rw [← hn, hw, hbytes]
      refine Int.mul_ediv_cancel _ ?_
      have : 0 < (if w.binary = true then 1024 else 1000) ^ w.exp := Nat.pow_pos (by cases w.binary <;> decide)
      dsimp only
      omega
    rw [hn']

/-- Nothing to abbreviate: the plain number. -/
theorem emitSize_plain (c : Cfg) {ty : IntTy} (hs : ty.Std) {metric v : Int} (hm : 1 ≤ metric)
    (hm' : IntTy.long.InRange metric) (hv : ty.InRange v) (hv0 : v ≠ 0) (hb : IntTy.long.InRange (v * metric))
    (hno : ∀ (w : SizeUnit) (s' : Bytes), w.Text s' → 1 ≤ w.exp → w.exp ≤ ty.bits / 8 / 2 → ¬ w.bytes ∣ v * metric) (m : Bytes) :
    emitSize c ty metric v ⟨m, .back⟩ = .ok ⟨m ++ intText v, .back⟩ := by
  have hlong : IntTy.long.Std := .inr (.inr (.inr rfl))
  have h0 : ty.signed = false → 0 ≤ v * metric := by
    intro h
    have : 0 ≤ v := by
      have := hv.1
      simpa [IntTy.min, h] using this
    exact Int.mul_nonneg this (by omega)
  have hvl : IntTy.long.wrap v = v :=
    IntTy.wrap_of_inRange hlong (IntTy.inRange_between hlong hb (mul_between v hm))
  have hne : v * metric ≠ 0 := by
    intro h
    rcases Int.mul_eq_zero.mp h with h | h <;> omega
  unfold emitSize
  simp only [hvl, IntTy.wrap_of_inRange hlong hm', IntTy.arith_inRange hlong c hb, Out.bind_ok]
  rcases sizeTry_first ty metric hb h0 hne (sizeUnits metric) (fun x hx => (sizeUnits_text metric x hx).1) with
    hd' | ⟨us1, x, us2, hus, hx, _, n, hn, ht⟩
  · rcases sizeTry_back ty metric hb h0 (sizeUnits metric) (fun x hx => (sizeUnits_text metric x hx).1) with
      ⟨ht, _⟩ | ⟨x, hx, n, hn, hin, ht⟩
    · rw [ht, Out.bind_ok]
      dsimp only
      rw [emitInt_writes hs hv, Sink.puts_back]
    · obtain ⟨w, hw, hws, hw1⟩ := sizeUnits_unit metric hx
      by_cases hfit : x.2.1 ≤ ty.bits / 8 / 2
      · exact absurd ⟨hfit, ⟨n, by rw [← hn, Int.mul_comm]⟩⟩ (hd' x hx)
      · exfalso
        rcases sizeTry_first ty metric hb h0 hne (sizeUnits metric) (fun x hx => (sizeUnits_text metric x hx).1) with
          _ | ⟨us1, y, us2, hus, hy, _, n', hn', _⟩
        · have hnone : ∀ us : List (Nat × Nat × Bytes), (∀ x ∈ us, 0 < x.1) →
              (∀ x ∈ us, ¬ (x.2.1 ≤ ty.bits / 8 / 2 ∧ ((x.1 ^ x.2.1 : Nat) : Int) ∣ v * metric)) →
              ∀ k, sizeTry ty metric (v * metric) us ⟨k, .back⟩ = .ok none := by
            intro us
            induction us with
            | nil => intro _ _ k; rfl
            | cons y us ih =>
              obtain ⟨base, exp, suffix⟩ := y
              intro hpos hno k
              have hw : sizeWriteIf ty metric base exp suffix (v * metric) ⟨k, .back⟩ = .ok none := by
                rcases sizeWriteIf_back ty metric (hpos (base, exp, suffix) (by simp)) (exp := exp) suffix hb h0 with ⟨hw, _⟩ | ⟨n, hn, _, _⟩
                · exact hw _
                · have hfit' : ¬ exp ≤ ty.bits / 8 / 2 := fun hf =>
                    hno (base, exp, suffix) (by simp) ⟨hf, ⟨n, by rw [← hn, Int.mul_comm]⟩⟩
                  unfold sizeWriteIf
                  rw [if_neg hfit']
              simp only [sizeTry, hw, Out.bind_ok]
              exact ih (fun x hx => hpos x (by simp [hx])) (fun x hx => hno x (by simp [hx])) k
          have := hnone _ (fun x hx => (sizeUnits_text metric x hx).1) hd' []
          rw [ht] at this
          cases this
        · exact hd' y (by rw [hus]; simp) ⟨hy, ⟨n', by rw [← hn', Int.mul_comm]⟩⟩
  · obtain ⟨w, hw, hws, hw1⟩ := sizeUnits_unit metric (x := x) (by rw [hus]; simp)
    refine absurd ⟨n, ?_⟩ (hno w _ hws hw1 (by rw [hw] at hx; exact hx))
    rw [← hn, Int.mul_comm]
    show _ = (((if w.binary then 1024 else 1000) ^ w.exp : Nat) : Int) * n
    rw [hw]

/-! Nothing: written with the unit of the metric, if there is one. -/

theorem sizeWriteIf_zero (ty : IntTy) (metric : Int) (base exp : Nat) (suffix m : Bytes) :
    sizeWriteIf ty metric base exp suffix 0 ⟨m, .back⟩ =
      .ok (if exp ≤ ty.bits / 8 / 2 ∧ metric = ((base ^ exp : Nat) : Int) then some ⟨m ++ (b!"\"0" ++ suffix ++ b!"\""), .back⟩ else none) := by
  have hlong : IntTy.long.Std := .inr (.inr (.inr rfl))
  have hw : (mixTy ty).wrap 0 = 0 := by unfold mixTy; split <;> decide
  have h0 : IntTy.long.InRange 0 := by unfold IntTy.InRange; decide
  unfold sizeWriteIf
  by_cases he : exp ≤ ty.bits / 8 / 2
  · simp only [ge_iff_le, if_pos he, ne_eq, not_true, if_false, hw, Int.zero_tdiv, decide_eq_true_eq]
    by_cases hm : metric = ((base ^ exp : Nat) : Int)
    · rw [if_pos hm, if_pos ⟨he, hm⟩]
      simp only [Sink.put, Out.bind_ok, IntTy.wrap_of_inRange hlong h0]
      rw [emitInt_writes hlong h0, Sink.puts_back, Out.bind_ok, Sink.puts_back, Out.bind_ok]
      have : intText 0 = b!"0" := by decide
      simp [this]
    · rw [if_neg hm, if_neg fun h => hm h.2]
  · rw [if_neg he, if_neg fun h => he h.1]

theorem sizeTry_zero (ty : IntTy) (metric : Int) (us : List (Nat × Nat × Bytes)) (m : Bytes) :
    sizeTry ty metric 0 us ⟨m, .back⟩ =
      .ok ((us.find? fun x => decide (x.2.1 ≤ ty.bits / 8 / 2 ∧ metric = ((x.1 ^ x.2.1 : Nat) : Int))).map fun x =>
        ⟨m ++ (b!"\"0" ++ x.2.2 ++ b!"\""), .back⟩) := by
  induction us with
  | nil => rfl
  | cons x us ih =>
    obtain ⟨base, exp, suffix⟩ := x
    rw [sizeTry, sizeWriteIf_zero, Out.bind_ok, List.find?_cons]
    by_cases h : exp ≤ ty.bits / 8 / 2 ∧ metric = ((base ^ exp : Nat) : Int)
    · rw [if_pos h]
      simp only [decide_eq_true h]
      rfl
    · rw [if_neg h]
      simp only [decide_eq_false h]
      exact ih

theorem emitSize_zero (c : Cfg) (ty : IntTy) {metric : Int} {u : SizeUnit} {s : Bytes} (hu : u.Text s)
    (h1 : 1 ≤ u.exp) (hfit : u.exp ≤ ty.bits / 8 / 2) (hm : metric = u.bytes) (m : Bytes) :
    emitSize c ty metric 0 ⟨m, .back⟩ = .ok ⟨m ++ (b!"\"0" ++ s ++ b!"\""), .back⟩ := by
  have hlong : IntTy.long.Std := .inr (.inr (.inr rfl))
  have h0 : IntTy.long.InRange 0 := by unfold IntTy.InRange; decide
  have hw : IntTy.long.wrap 0 = 0 := by decide
  unfold emitSize
  simp only [hw, Int.zero_mul, IntTy.arith_inRange hlong c h0, Out.bind_ok]
  rw [sizeTry_zero, Out.bind_ok]
  have key : ((sizeUnits metric).find? fun x => decide (x.2.1 ≤ ty.bits / 8 / 2 ∧ metric = ((x.1 ^ x.2.1 : Nat) : Int))) =
      some ((if u.binary then 1024 else 1000), u.exp, s) := by
    subst hm
    cases hu
    case b => exact absurd h1 (by simp)
    all_goals
      dsimp only at hfit
      simp [sizeUnits, SizeUnit.bytes, hfit, List.find?]
  rw [key]
  rfl

theorem emitSize_zero_plain (c : Cfg) {ty : IntTy} (hs : ty.Std) {metric : Int}
    (hno : ∀ (u : SizeUnit) (s : Bytes), u.Text s → 1 ≤ u.exp → u.exp ≤ ty.bits / 8 / 2 → metric ≠ u.bytes) (m : Bytes) :
    emitSize c ty metric 0 ⟨m, .back⟩ = .ok ⟨m ++ b!"0", .back⟩ := by
  have hlong : IntTy.long.Std := .inr (.inr (.inr rfl))
  have h0 : IntTy.long.InRange 0 := by unfold IntTy.InRange; decide
  have hw : IntTy.long.wrap 0 = 0 := by decide
  unfold emitSize
  simp only [hw, Int.zero_mul, IntTy.arith_inRange hlong c h0, Out.bind_ok]
  rw [sizeTry_zero, Out.bind_ok]
  have key : ((sizeUnits metric).find? fun x => decide (x.2.1 ≤ ty.bits / 8 / 2 ∧ metric = ((x.1 ^ x.2.1 : Nat) : Int))) = none := by
    rw [List.find?_eq_none]
    intro x hx h
    obtain ⟨w, hw, hws, hw1⟩ := sizeUnits_unit metric hx
    have h := of_decide_eq_true h
    refine hno w _ hws hw1 (by rw [hw] at h; exact h.1) ?_
    rw [h.2]
    show _ = (((if w.binary then 1024 else 1000) ^ w.exp : Nat) : Int)
    rw [hw]
  rw [key]
  show emitInt ty 0 _ = _
  rw [emitInt_writes hs (by rcases hs with h | h | h | h <;> simp only [IntTy.InRange, IntTy.min, IntTy.max, h] <;> split <;> simp), Sink.puts_back]
  rfl

end Wjson
