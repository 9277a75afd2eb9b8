import Verif.Props.Units
/-
Lengths of decimal texts and of the texts of time intervals and sizes.
-/
namespace Wjson
open Spec

theorem decVal_fold_ge (l : Bytes) (a : Nat) : a * 10 ^ l.length ≤ l.foldl (fun a d => a * 10 + (d.toNat - 48)) a := by
  induction l generalizing a with
  | nil => simp
  | cons d l ih =>
    have := ih (a * 10 + (d.toNat - 48))
    rw [List.foldl_cons, List.length_cons, Nat.pow_succ]
    refine Nat.le_trans ?_ this
    rw [Nat.mul_comm (10 ^ l.length), ← Nat.mul_assoc]
    exact Nat.mul_le_mul_right _ (Nat.le_add_right _ _)

theorem rint_length {i : Bytes} (h : RInt i) {k : Nat} (hk : decVal i < 10 ^ (k + 1)) : i.length ≤ k + 1 := by
  rcases h with rfl | ⟨d, ds, rfl, hd, _⟩
  · simp
  · have h1 := decVal_fold_ge ds (0 * 10 + (d.toNat - 48))
    have h2 : 1 ≤ d.toNat - 48 := by
      obtain ⟨h, _⟩ := hd
      have : (0x31 : Byte).toNat ≤ d.toNat := UInt8.le_iff_toNat_le.mp h
      have e : (0x31 : Byte).toNat = 49 := rfl
      omega
    have h3 : 10 ^ ds.length ≤ decVal (d :: ds) := by
      refine Nat.le_trans ?_ h1
      rw [Nat.zero_mul, Nat.zero_add]
      exact Nat.le_mul_of_pos_left _ h2
    have := (Nat.pow_lt_pow_iff_right (a := 10) (by decide)).mp (Nat.lt_of_le_of_lt h3 hk)
    rw [List.length_cons]
    omega

theorem decimal_length {v : Int} {t : Bytes} (h : Decimal v t) {k : Nat} (hk : v.natAbs < 10 ^ (k + 1)) :
    t.length ≤ k + 1 + (if v < 0 then 1 else 0) := by
  obtain ⟨i, hi, ⟨h0, rfl, h1⟩ | ⟨h0, rfl, h1⟩⟩ := h
  · have := rint_length hi (k := k) (by omega)
    omega
  · have := rint_length hi (k := k) (by omega)
    rw [if_pos h0, List.length_cons]
    omega

theorem timeText_length {L : List (Int × TimeUnit)} {t : Bytes} (h : TimeText L t) (B : TimeUnit → Nat)
    (hB : ∀ n u, (n, u) ∈ L → ∀ t, Decimal n t → t.length + u.text.length ≤ B u) : t.length ≤ (L.map fun p => B p.2).sum := by
  induction h with
  | nil => simp
  | @cons n u l t r hd _ ih =>
    have h1 := hB n u (by simp) t hd
    have h2 := ih fun n u hm => hB n u (by simp [hm])
    simp only [List.length_append, List.map_cons, List.sum_cons]
    omega

theorem sum_filter_le {β : Type} (l : List β) (p : β → Bool) (f : β → Nat) : ((l.filter p).map f).sum ≤ (l.map f).sum := by
  induction l with
  | nil => simp
  | cons x l ih =>
    rw [List.filter_cons]
    split <;> simp only [List.map_cons, List.sum_cons] <;> omega

/-- The text of a time interval has at most 32 bytes, quotes included, for the types and values of C36. -/
theorem timeSer_room (c : Cfg) {ty : IntTy} (hs : ty.Std) {fr : Int}
    (hok : fr = 1 ∨ (fr = 1000 ∧ ty = .long) ∨ (fr = 1000000 ∧ 32 ≤ ty.bits)) {v : Int} (hv : ty.InRange v)
    (hw : 0 ≤ v ∨ v % fr = 0) :
    ∃ t : Bytes, t.length ≤ 32 ∧ ∀ m, (timeSer c ty fr).emit v ⟨m, .back⟩ = .ok ⟨m ++ t, .back⟩ := by
  have hlo : -9223372036854775808 ≤ v ∧ v ≤ 18446744073709551615 ∧ (ty = .long → v ≤ 9223372036854775807) := by
    obtain ⟨b, sg⟩ := ty
    simp only [IntTy.Std] at hs
    unfold IntTy.InRange at hv
    rcases hs with rfl | rfl | rfl | rfl <;> cases sg <;> simp [IntTy.min, IntTy.max, IntTy.long] at hv ⊢ <;> omega
  by_cases h0 : 0 ≤ v
  · obtain ⟨t, h1, h2⟩ := C36_text c hs hok hv h0
    refine ⟨_, ?_, h2⟩
    have key : ∀ B : TimeUnit → Nat, (∀ n u, (n, u) ∈ timeParts fr v → ∀ t, Decimal n t → t.length + u.text.length ≤ B u) →
        B .d + (B .h + (B .m + (B .s + (B .ms + B .mks)))) ≤ 30 → (c%'"' :: t ++ b!"\"").length ≤ 32 := by
      intro B hB hsum
      have h3 := timeText_length h1 B hB
      have h4 := Nat.le_trans h3 (sum_filter_le _ _ _)
      simp only [List.map_cons, List.map_nil, List.sum_cons, List.sum_nil] at h4
      simp only [List.length_append, List.length_cons, List.length_nil]
      omega
    have hmem : ∀ n u, (n, u) ∈ timeParts fr v → n ≠ 0 ∧ 0 ≤ n ∧ ((u = .d ∧ n = v / fr / 86400) ∨ (u = .h ∧ n < 24) ∨ (u = .m ∧ n < 60) ∨
        (u = .s ∧ n < 60) ∨ (u = .ms ∧ n = v % fr * 1000 / fr) ∨ (u = .mks ∧ n = v % fr * 1000000 / fr % 1000)) := by
      intro n u hm
      simp only [timeParts, List.mem_filter, List.mem_cons, Prod.mk.injEq, List.not_mem_nil, or_false, ne_eq, decide_not, Bool.not_eq_eq_eq_not,
        Bool.not_true, decide_eq_false_iff_not] at hm
      refine ⟨hm.2, ?_⟩
      rcases hok with rfl | ⟨rfl, _⟩ | ⟨rfl, _⟩ <;> rcases hm with ⟨⟨rfl, rfl⟩ | ⟨rfl, rfl⟩ | ⟨rfl, rfl⟩ | ⟨rfl, rfl⟩ | ⟨rfl, rfl⟩ | ⟨rfl, rfl⟩, hne⟩ <;>
        simp <;> omega
    have hlen : ∀ {n : Int} {t : Bytes} (k : Nat), 0 ≤ n → n < 10 ^ (k + 1) → Decimal n t → t.length ≤ k + 1 := by
      intro n t k h0 hk hd
      have hk' : n.natAbs < 10 ^ (k + 1) := by
        have e : ((n.natAbs : Nat) : Int) = n := Int.natAbs_of_nonneg h0
        refine Int.ofNat_lt.mp ?_
        rw [e]
        simpa using hk
      have := decimal_length hd hk'
      rw [if_neg (by omega)] at this
      exact this
    rcases hok with rfl | ⟨rfl, hl⟩ | ⟨rfl, _⟩
    · refine key (fun u => match u with | .d => 16 | .h => 3 | .m => 3 | .s => 3 | .ms => 0 | .mks => 0) ?_ (by decide)
      intro n u hm t ht
      obtain ⟨hne, hn, ⟨rfl, h⟩ | ⟨rfl, h⟩ | ⟨rfl, h⟩ | ⟨rfl, h⟩ | ⟨rfl, h⟩ | ⟨rfl, h⟩⟩ := hmem n u hm
      · have := hlen 14 hn (by omega) ht; simp [TimeUnit.text]; omega
      · have := hlen 1 hn (by omega) ht; simp [TimeUnit.text]; omega
      · have := hlen 1 hn (by omega) ht; simp [TimeUnit.text]; omega
      · have := hlen 1 hn (by omega) ht; simp [TimeUnit.text]; omega
      · omega
      · omega
    · refine key (fun u => match u with | .d => 13 | .h => 3 | .m => 3 | .s => 3 | .ms => 5 | .mks => 0) ?_ (by decide)
      intro n u hm t ht
      have := hlo.2.2 hl
      obtain ⟨hne, hn, ⟨rfl, h⟩ | ⟨rfl, h⟩ | ⟨rfl, h⟩ | ⟨rfl, h⟩ | ⟨rfl, h⟩ | ⟨rfl, h⟩⟩ := hmem n u hm
      · have := hlen 11 hn (by omega) ht; simp [TimeUnit.text]; omega
      · have := hlen 1 hn (by omega) ht; simp [TimeUnit.text]; omega
      · have := hlen 1 hn (by omega) ht; simp [TimeUnit.text]; omega
      · have := hlen 1 hn (by omega) ht; simp [TimeUnit.text]; omega
      · have := hlen 2 hn (by omega) ht; simp [TimeUnit.text]; omega
      · omega
    · refine key (fun u => match u with | .d => 10 | .h => 3 | .m => 3 | .s => 3 | .ms => 5 | .mks => 6) ?_ (by decide)
      intro n u hm t ht
      obtain ⟨hne, hn, ⟨rfl, h⟩ | ⟨rfl, h⟩ | ⟨rfl, h⟩ | ⟨rfl, h⟩ | ⟨rfl, h⟩ | ⟨rfl, h⟩⟩ := hmem n u hm
      · have := hlen 8 hn (by omega) ht; simp [TimeUnit.text]; omega
      · have := hlen 1 hn (by omega) ht; simp [TimeUnit.text]; omega
      · have := hlen 1 hn (by omega) ht; simp [TimeUnit.text]; omega
      · have := hlen 1 hn (by omega) ht; simp [TimeUnit.text]; omega
      · have := hlen 2 hn (by omega) ht; simp [TimeUnit.text]; omega
      · have := hlen 2 hn (by omega) ht; simp [TimeUnit.text]; omega
  · obtain ⟨t, h1, h2⟩ := C36_text_negative c hs hok hv (by omega) (hw.resolve_left h0)
    refine ⟨_, ?_, h2⟩
    have hd := hw.resolve_left h0
    have h3 := timeText_length h1 (fun u => match u with | .d => 17 | .h => 4 | .m => 4 | .s => 4 | .ms => 0 | .mks => 0) ?_
    · have h4 : ((timePartsNeg fr v).map fun p => (match p.2 with | .d => 17 | .h => 4 | .m => 4 | .s => 4 | .ms => 0 | .mks => 0 : Nat)).sum ≤ 29 := by
        unfold timePartsNeg
        rw [List.map_map]
        exact Nat.le_trans (sum_filter_le _ _ _) (by simp)
      simp only [List.length_append, List.length_cons, List.length_nil]
      omega
    · intro n u hm t ht
      have hmem : n ≠ 0 ∧ ((u = .d ∧ -n = -v / fr / 86400) ∨ (u = .h ∧ -n < 24 ∧ 0 ≤ -n) ∨ (u = .m ∧ -n < 60 ∧ 0 ≤ -n) ∨
          (u = .s ∧ -n < 60 ∧ 0 ≤ -n)) := by
        simp only [timePartsNeg, timeParts, List.mem_map, List.mem_filter, List.mem_cons, Prod.mk.injEq, List.not_mem_nil, or_false, ne_eq, decide_not,
          Bool.not_eq_eq_eq_not, Bool.not_true, decide_eq_false_iff_not] at hm
        obtain ⟨⟨k, w⟩, ⟨hm, hk⟩, rfl, rfl⟩ := hm
        simp only at hk hm ⊢
        refine ⟨by omega, ?_⟩
        rcases hok with rfl | ⟨rfl, _⟩ | ⟨rfl, _⟩ <;> rcases hm with ⟨rfl, rfl⟩ | ⟨rfl, rfl⟩ | ⟨rfl, rfl⟩ | ⟨rfl, rfl⟩ | ⟨rfl, rfl⟩ | ⟨rfl, rfl⟩ <;>
          simp <;> omega
      have hf : 1 ≤ fr := by rcases hok with rfl | ⟨rfl, _⟩ | ⟨rfl, _⟩ <;> decide
      obtain ⟨hne, ⟨rfl, h⟩ | ⟨rfl, h⟩ | ⟨rfl, h⟩ | ⟨rfl, h⟩⟩ := hmem
      · have hn : n.natAbs < 10 ^ (14 + 1) := by
          rcases hok with rfl | ⟨rfl, _⟩ | ⟨rfl, _⟩ <;> omega
        have := decimal_length ht hn
        split at this <;> simp [TimeUnit.text] <;> omega
      · have := decimal_length ht (k := 1) (by omega)
        split at this <;> simp [TimeUnit.text] <;> omega
      · have := decimal_length ht (k := 1) (by omega)
        split at this <;> simp [TimeUnit.text] <;> omega
      · have := decimal_length ht (k := 1) (by omega)
        split at this <;> simp [TimeUnit.text] <;> omega

/-- The text of a size has at most 22 bytes, quotes included, if the number of bytes fits into 64 bits. -/
theorem sizeSer_room (c : Cfg) {ty : IntTy} (hs : ty.Std) {metric v : Int} (hm : 1 ≤ metric) (hm' : IntTy.long.InRange metric) (hv : ty.InRange v)
    (hb : IntTy.long.InRange (v * metric)) : ∃ t : Bytes, t.length ≤ 22 ∧ ∀ m, (sizeSer c ty metric).emit v ⟨m, .back⟩ = .ok ⟨m ++ t, .back⟩ := by
  rcases emitSize_text c hs hm hm' hv hb with ⟨h, _⟩ | ⟨n, u, s, hu, hn, hk, hin, h⟩
  · refine ⟨_, ?_, h⟩
    have h1 := decimal_length (intText_decimal v) (k := 19) (by
      obtain ⟨b, sg⟩ := ty
      simp only [IntTy.Std] at hs
      unfold IntTy.InRange at hv
      rcases hs with rfl | rfl | rfl | rfl <;> cases sg <;> simp [IntTy.min, IntTy.max] at hv ⊢ <;> omega)
    split at h1 <;> omega
  · refine ⟨_, ?_, h⟩
    have h1 := decimal_length (intText_decimal n) (k := 15) (by
      have h1 : n.natAbs * u.bytes.natAbs ≤ 9223372036854775808 := by
        rw [← Int.natAbs_mul, hn]
        simp [IntTy.InRange, IntTy.min, IntTy.max, IntTy.long] at hb
        omega
      have h2 : n.natAbs * 1000 ≤ n.natAbs * u.bytes.natAbs := Nat.mul_le_mul_left _ (by omega)
      omega)
    have h2 : s.length ≤ 3 := by cases hu <;> simp
    simp only [List.length_append, List.length_cons, List.length_nil]
    split at h1 <;> omega

end Wjson
