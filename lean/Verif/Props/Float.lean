import Verif.Proofs.Float
/-
C24: floating point numbers. Formatting and conversion by the standard library
are arbitrary functions `F.fmt` and `F.conv`.
-/
namespace Wjson
open Spec

/-- C24. Every JSON number is accepted and the iterator stops right after it;
the stored number is what the standard library makes of the first `20` (or
`20+R`) bytes of the text. -/
theorem C24_accepts {α : Type} (F : FloatTy α) (R : Int) {t rest : Bytes} (ht : RNumber t) (hf : NumFollow t rest)
    (v0 : α) (e : EPtr) :
    (floatSer F R).de v0 (t ++ rest) e =
      .ok (F.conv (((t ++ rest).take (if R = -1 then 20 else 20 + R).toNat).takeWhile (· ≠ 0)) v0, rest, e) :=
  deFloat_number F R ht hf v0 e

/-- C24. For every text that begins with a digit or a minus, right or wrong, the
position and the error are those of `parse_number`. -/
theorem C24_as_parse_number {α : Type} (F : FloatTy α) (R : Int) {b : Byte} {t : Bytes} (hb : Digit b ∨ b = c%'-') (v0 : α) (e : EPtr) :
    ∃ v, (floatSer F R).de v0 (b :: t) e = .ok (v, parseNumber (b :: t) e) := by
  have h1 : isNull (b :: t) = false := by
    rcases hb with hb | rfl
    · have : b ≠ c%'n' := by
        rintro rfl
        exact absurd hb (by unfold Digit; decide)
      simp [isNull, this]
    · rfl
  have h2 : isNumber (b :: t) = true := by
    rcases hb with hb | rfl
    · simp [isNumber, isDigit_iff.mpr hb]
    · rfl
  exact ⟨_, by simp only [floatSer, deFloat, h1, h2]; rfl⟩

/-- C24. Nothing else is accepted: a call without error has read a JSON number or
`null`. -/
theorem C24_accepted_is_number {α : Type} (F : FloatTy α) (R : Int) {v0 v : α} {s p : Bytes} {e e' : EPtr} (he : e.Clean)
    (h : (floatSer F R).de v0 s e = .ok (v, p, e')) (hok : e'.failed = false) :
    (∃ t, s = t ++ p ∧ RNumber t ∧ NumFollow t p) ∨ (s = b!"null" ++ p ∧ v = F.dflt) := by
  simp only [floatSer, deFloat] at h
  cases s with
  | nil =>
    simp only [Out.ok.injEq, Prod.mk.injEq] at h
    rw [← h.2.2, he.create (by decide)] at hok
    cases hok
  | cons b t =>
    simp only at h
    by_cases hn : isNull (b :: t) = true
    · rw [if_pos hn] at h
      simp only [Out.ok.injEq, Prod.mk.injEq] at h
      obtain ⟨h1, h2, h3⟩ := h
      have := Acc.of_clean (parseNull_scan (b :: t)) he (p := p) (e' := e') (by rw [← h2, ← h3]) hok
      exact .inr ⟨parseNull_acc_iff.mp this, h1.symm⟩
    · rw [if_neg hn] at h
      by_cases hnum : isNumber (b :: t) = true
      · rw [hnum] at h
        simp only [Bool.not_true, Bool.false_eq_true, if_false, Out.ok.injEq, Prod.mk.injEq] at h
        obtain ⟨_, h2, h3⟩ := h
        have := Acc.of_clean (parseNumber_scan (b :: t)) he (p := p) (e' := e') (by rw [← h2, ← h3]) hok
        exact .inl (parseNumber_acc_iff.mp this)
      · simp only [Bool.not_eq_true] at hnum
        rw [hnum] at h
        simp only [Bool.not_false, if_true, Out.ok.injEq, Prod.mk.injEq] at h
        rw [← h.2.2, he.create (by decide)] at hok
        cases hok

/-- C24. Two texts with the same first `20` (`20+R`) bytes give the same number,
however the literals go on. -/
theorem C24_only_prefix_matters {α : Type} (F : FloatTy α) (R : Int) {t rest t' rest' : Bytes} (ht : RNumber t)
    (hf : NumFollow t rest) (ht' : RNumber t') (hf' : NumFollow t' rest')
    (h : (t ++ rest).take (if R = -1 then 20 else 20 + R).toNat = (t' ++ rest').take (if R = -1 then 20 else 20 + R).toNat)
    (v0 : α) (e : EPtr) :
    ∃ v, (floatSer F R).de v0 (t ++ rest) e = .ok (v, rest, e) ∧ (floatSer F R).de v0 (t' ++ rest') e = .ok (v, rest', e) :=
  ⟨_, C24_accepts F R ht hf v0 e, by rw [C24_accepts F R ht' hf' v0 e, h]⟩

/-- C24. A text that starts with neither a digit, nor a minus, nor `n` is an
error at its first byte and leaves the variable alone. -/
theorem C24_not_a_number {α : Type} (F : FloatTy α) (R : Int) {b : Byte} {t : Bytes} (h1 : b ≠ c%'-') (h2 : ¬ Digit b)
    (h3 : b ≠ c%'n') (v0 : α) :
    (floatSer F R).de v0 (b :: t) .fresh = .ok (v0, [], .obj ⟨.InvalidNumber, none, ((b :: t).length : Nat)⟩) := by
  have hn : isNumber (b :: t) = false := by
    cases h : isNumber (b :: t) with
    | false => rfl
    | true => exact absurd ((isNumber_iff b t).mp h) (by simp [h1, h2])
  have hnull : isNull (b :: t) = false := by simp [isNull, h3]
  simp only [floatSer, deFloat, hn, hnull, Bool.false_eq_true, if_false, Bool.not_false, if_true]
  rfl

/-- C24. Writing and reading restore `v` when the library restores it from its
text, whatever follows, and the text is a JSON number that fits the buffer. -/
theorem C24_round_trip {α : Type} (F : FloatTy α) (R : Int) {v : α} (ht : RNumber (F.fmt v)) (h0 : ∀ b ∈ F.fmt v, b ≠ 0)
    (hl : (F.fmt v).length ≤ (if R = -1 then 20 else 20 + R).toNat)
    (hconv : ∀ rest v0, Delim rest → F.conv (F.fmt v ++ rest) v0 = v) :
    (∀ k, (floatSer F R).emit v k = k.puts (F.fmt v)) ∧ Reads (floatSer F R).de (F.fmt v) v := by
  refine ⟨fun k => ?_, fun v0 rest e _ hd => ?_⟩
  · simp only [floatSer, emitFloat, floatBuf]
    rw [List.take_of_length_le hl]
    congr 1
    have := List.takeWhile_append_of_pos (l₁ := F.fmt v) (l₂ := []) (p := fun x : Byte => decide (x ≠ 0)) (by simpa using h0)
    simpa using this
  · rw [C24_accepts F R ht (hd.numFollow _)]
    have hh : (F.fmt v ++ rest).take (if R = -1 then 20 else 20 + R).toNat =
        F.fmt v ++ rest.take ((if R = -1 then 20 else 20 + R).toNat - (F.fmt v).length) := by
      rw [List.take_append, List.take_of_length_le hl]
    rw [hh, List.takeWhile_append_of_pos (by simpa using h0), hconv]
    intro b hb
    apply hd
    cases rest with
    | nil => simp at hb
    | cons x y =>
      cases hk : (if R = -1 then 20 else 20 + R).toNat - (F.fmt v).length with
      | zero => rw [hk] at hb; simp at hb
      | succ k =>
        rw [hk, List.take_succ_cons, List.takeWhile_cons] at hb
        by_cases hx : x = 0
        · simp [hx] at hb
        · simpa [hx] using hb

/-- A number type for the examples: naturals with decimal text. -/
def natFloat : FloatTy Nat where
  dflt := 0
  fmt v := if v = 10 ^ 22 then b!"10000000000000000000000.00" else b!"7"
  conv t _ := decVal (t.takeWhile isDigit)

example : (floatSer natFloat (-1)).de 0 b!"123," .fresh = .ok (123, b!",", .fresh) := by decide +kernel
example : (floatSer natFloat (-1)).de 5 b!"x" .fresh = .ok (5, [], .obj ⟨.InvalidNumber, none, 1⟩) := by decide +kernel
example : ∀ rest v0, Delim rest → natFloat.conv (natFloat.fmt 7 ++ rest) v0 = 7 := by
  intro rest v0 h
  have h7 : natFloat.fmt 7 = b!"7" := rfl
  rw [h7]
  cases rest with
  | nil => rfl
  | cons b t =>
    have hb : isDigit b = false := by
      have := (h b rfl).1
      revert this; clear h; revert b; unfold Digit isDigit; apply forall_byte; decide +kernel
    have h2 : isDigit c%'7' = true := by decide
    simp [natFloat, hb, h2, decVal]

/-- C24, exception: a literal longer than the buffer loses its last digits before
the conversion, without an error. -/
theorem C24_long_literal_truncated :
    (floatSer natFloat (-1)).de 0 b!"1000000000000000000000" .fresh = .ok (10000000000000000000, [], .fresh) := by
  decide +kernel

/-- C24, exception: a number whose text does not fit the buffer is written
without its last digits. -/
theorem C24_long_text_truncated :
    (floatSer natFloat 2).emit (10 ^ 22) ⟨[], .back⟩ = .ok ⟨b!"1000000000000000000000", .back⟩ := by decide +kernel

end Wjson
