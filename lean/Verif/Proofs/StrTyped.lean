import Verif.Model.Str
import Verif.Spec.Strings
import Verif.Proofs.Typed
/-
Facts about the string and bool serializers.
-/
namespace Wjson
open Spec

/-! ### Hexadecimal digits -/

theorem hexVal_hex {b : Byte} (h : HexDigit b) (e : EPtr) : hexVal b e = (hexValue b, e) := by
  have h1 : (hexVal b .null).1 = hexValue b := by
    revert h; revert b; apply forall_byte; unfold hexVal hexValue; decide +kernel
  have h2 : hexVal b e = ((hexVal b .null).1, e) := by
    unfold hexVal
    unfold HexDigit at h
    split
    · rfl
    · split
      · rfl
      · split
        · rfl
        · next a b c => exact absurd h (by rintro (h | h | h); exact a h; exact c h; exact b h)
  rw [h2, h1]

theorem hexVal_bad {b : Byte} (h : ¬ HexDigit b) (e : EPtr) : hexVal b e = (0, createError .InvalidString e) := by
  unfold hexVal
  unfold HexDigit at h
  rw [if_neg (fun x => h (.inl x)), if_neg (fun x => h (.inr (.inr x))), if_neg (fun x => h (.inr (.inl x)))]

theorem hexValue_lt {b : Byte} (h : HexDigit b) : hexValue b < 16 := by
  revert h; revert b; apply forall_byte; unfold hexValue; decide +kernel

theorem hexVal_lt (b : Byte) (e : EPtr) : (hexVal b e).1 < 16 := by
  by_cases h : HexDigit b
  · rw [hexVal_hex h]; exact hexValue_lt h
  · rw [hexVal_bad h]; exact (by decide : 0 < 16)

theorem hexVal_estep (b : Byte) (e : EPtr) (n : Nat) : EStep n e (hexVal b e).2 := by
  by_cases h : HexDigit b
  · rw [hexVal_hex h]; exact .refl n e
  · rw [hexVal_bad h]; exact .create (by decide) e none (by omega) (by omega)

theorem hexN_estep (k acc : Nat) (s : Bytes) (e : EPtr) (n : Nat) : EStep n e (hexN k acc s e).2 := by
  induction k generalizing acc s e with
  | zero => exact .refl n e
  | succ k ih =>
    cases s with
    | nil => exact .create (by decide) e none (by omega) (by omega)
    | cons b t => exact (hexVal_estep b e n).trans (ih _ t _)

theorem hexN_suffix {k acc : Nat} {s : Bytes} {e e' : EPtr} {h : Nat} {p : Bytes}
    (hh : hexN k acc s e = (some (h, p), e')) : p <:+ s := by
  induction k generalizing acc s e with
  | zero => simp [hexN] at hh; simp [hh.1.2]
  | succ k ih =>
    cases s with
    | nil => simp [hexN] at hh
    | cons b t => exact (ih hh).trans (suffix_cons b t)

/-- Reading hex digits without an error. -/
theorem hexN_ok {ds : Bytes} (hd : ∀ b ∈ ds, HexDigit b) (acc : Nat) (p : Bytes) (e : EPtr) :
    hexN ds.length acc (ds ++ p) e = (some (ds.foldl (fun a d => a * 16 + hexValue d) acc, p), e) := by
  induction ds generalizing acc with
  | nil => rfl
  | cons d ds ih =>
    simp only [List.length_cons, List.cons_append, hexN, hexVal_hex (hd d (by simp)), List.foldl_cons]
    exact ih (fun b hb => hd b (by simp [hb])) _

/-- Inversion of `hexN` for a clean error. -/
theorem hexN_inv {k acc : Nat} {s : Bytes} {e e' : EPtr} {h : Nat} {p : Bytes} (he : e.Clean)
    (hh : hexN k acc s e = (some (h, p), e')) :
    e'.failed = true ∨ ∃ ds, ds.length = k ∧ s = ds ++ p ∧ (∀ b ∈ ds, HexDigit b) ∧ e' = e ∧
      h = ds.foldl (fun a d => a * 16 + hexValue d) acc := by
  induction k generalizing acc s e with
  | zero =>
    simp [hexN] at hh
    exact .inr ⟨[], rfl, hh.1.2, by simp, hh.2.symm, hh.1.1.symm⟩
  | succ k ih =>
    cases s with
    | nil => simp [hexN] at hh
    | cons b t =>
      simp only [hexN] at hh
      by_cases hb : HexDigit b
      · simp only [hexVal_hex hb] at hh
        rcases ih he hh with h1 | ⟨ds, h1, h2, h3, h4, h5⟩
        · exact .inl h1
        · refine .inr ⟨b :: ds, by simp [h1], by simp [h2], ?_, h4, h5⟩
          intro x hx
          simp at hx
          rcases hx with rfl | hx
          · exact hb
          · exact h3 x hx
      · simp only [hexVal_bad hb] at hh
        left
        have hf : (createError .InvalidString e).failed = true := by
          rw [applyErr_createError]; exact he.applyErr_failed (by simp)
        have := hexN_estep k (acc * 16 + 0) t (createError .InvalidString e) 0
        rw [hh] at this
        exact this.failed_mono hf

/-- A bad digit among the first `k` is reported. -/
theorem hexN_bad {k acc : Nat} {ds : Bytes} {b : Byte} {t : Bytes} {e : EPtr} (he : e.Clean)
    (hl : ds.length < k) (hb : ¬ HexDigit b) (hd : ∀ b ∈ ds, HexDigit b) : (hexN k acc (ds ++ b :: t) e).2.failed = true := by
  induction ds generalizing k acc with
  | nil =>
    cases k with
    | zero => simp at hl
    | succ k =>
      simp only [List.nil_append, hexN, hexVal_bad hb]
      have hf : (createError .InvalidString e).failed = true := by
        rw [applyErr_createError]; exact he.applyErr_failed (by simp)
      exact (hexN_estep k _ t _ 0).failed_mono hf
  | cons d ds ih =>
    cases k with
    | zero => simp at hl
    | succ k =>
      simp only [List.cons_append, hexN, hexVal_hex (hd d (by simp))]
      exact ih (by simpa using hl) (fun b hb => hd b (by simp [hb]))

/-! ### Safety of one step -/

/-- A decoding step stays in the input, writes no more than the capacity and no
more bytes than it consumes, and changes the error by one step. -/
structure StepOk (s : Bytes) (n : Nat) (e : EPtr) (r : StrStep) : Prop where
  suffix : r.2.1 <:+ s
  cap : r.1.length + r.2.2.1 = n
  err : EStep s.length e r.2.2.2
  shrink : r.1.length + r.2.1.length ≤ s.length

theorem StepOk.mono {s s' : Bytes} {n : Nat} {e : EPtr} {r : StrStep} (h : StepOk s' n e r) (hs : s' <:+ s) :
    StepOk s n e r :=
  ⟨h.suffix.trans hs, h.cap, h.err.mono hs.length_le, Nat.le_trans h.shrink hs.length_le⟩

theorem utf8Copy_ok (i : Nat) (s : Bytes) (n : Nat) (e : EPtr) : StepOk s n e (utf8Copy i s n e) := by
  induction i generalizing s n with
  | zero => exact ⟨List.suffix_refl s, by simp [utf8Copy], .refl _ e, by simp [utf8Copy]⟩
  | succ i ih =>
    cases n with
    | zero => exact ⟨List.suffix_refl s, by simp [utf8Copy], .refl _ e, by simp [utf8Copy]⟩
    | succ n =>
      cases s with
      | nil => exact ⟨List.suffix_refl _, by simp [utf8Copy], .create (by decide) e none (by omega) (by omega),
          by simp [utf8Copy]⟩
      | cons b t =>
        have := ih t n
        refine ⟨this.suffix.trans (suffix_cons b t), ?_, this.err.mono (by simp), ?_⟩
        · have := this.cap; simp only [utf8Copy, List.length_cons]; omega
        · have := this.shrink; simp only [utf8Copy, List.length_cons]; omega

theorem uhexStep_ok (s : Bytes) {n : Nat} (hn : n ≠ 0) (e : EPtr) :
    StepOk (c%'\\' :: c%'u' :: s) n e (uhexStep s n e) := by
  unfold uhexStep
  rw [if_neg hn]
  have hes := hexN_estep 4 0 s e (s.length + 2)
  cases hh : hexN 4 0 s e with
  | mk o e1 =>
    rw [hh] at hes
    cases o with
    | none => exact ⟨List.nil_suffix, by simp, hes, by simp⟩
    | some q =>
      obtain ⟨hex, p⟩ := q
      have hsf := hexN_suffix hh
      have hsf2 : p <:+ c%'\\' :: c%'u' :: s := hsf.trans ((suffix_cons _ s).trans (suffix_cons _ _))
      have hl : p.length + 4 ≤ s.length := by
        match s, hh with
        | a :: b :: c :: d :: s', hh =>
          simp only [hexN] at hh
          simp only [Prod.mk.injEq, Option.some.injEq] at hh
          rw [← hh.1.2]; simp
        | [], hh => simp [hexN] at hh
        | [_], hh => simp [hexN] at hh
        | [_, _], hh => simp [hexN] at hh
        | [_, _, _], hh => simp [hexN] at hh
      have herr : EStep (s.length + 2) e (createError .InvalidString e1 none (p.length : Nat)) :=
        hes.trans (.create (by decide) e1 none (by omega) (by omega))
      simp only
      repeat' split
      all_goals first
        | exact ⟨hsf2, by simp only [List.length_cons, List.length_nil]; omega, hes, by
            simp only [List.length_cons, List.length_nil]; omega⟩
        | exact ⟨hsf2, by simp only [List.length_cons, List.length_nil, List.length_take]; omega, hes, by
            simp only [List.length_cons, List.length_nil, List.length_take]; omega⟩
        | exact ⟨List.nil_suffix, by simp only [List.length_cons, List.length_nil]; omega, herr, by
            simp only [List.length_cons, List.length_nil]; omega⟩

theorem xhexStep_ok (s : Bytes) {n : Nat} (hn : n ≠ 0) (e : EPtr) :
    StepOk (c%'\\' :: c%'x' :: s) n e (xhexStep s n e) := by
  unfold xhexStep
  have hes := hexN_estep 2 0 s e (s.length + 2)
  cases hh : hexN 2 0 s e with
  | mk o e1 =>
    rw [hh] at hes
    cases o with
    | none => exact ⟨List.nil_suffix, by simp, hes, by simp⟩
    | some q =>
      obtain ⟨hex, p⟩ := q
      have hsf := hexN_suffix hh
      have := hsf.length_le
      exact ⟨hsf.trans ((suffix_cons _ s).trans (suffix_cons _ _)), by simp only [List.length_cons, List.length_nil]; omega,
        hes, by simp only [List.length_cons, List.length_nil]; omega⟩

theorem strStep_ok (b : Byte) (t : Bytes) {n : Nat} (hn : n ≠ 0) (e : EPtr) :
    StepOk (b :: t) n e (strStep b t n e) := by
  unfold strStep
  by_cases hb : b = c%'\\'
  · rw [if_pos hb]
    subst hb
    cases t with
    | nil => exact ⟨List.nil_suffix, by simp, .create (by decide) e none (by omega) (by omega), by simp⟩
    | cons x t' =>
      simp only
      cases hx : simpleEsc x with
      | some y =>
        exact ⟨(suffix_cons _ t').trans (suffix_cons _ _), by simp only [List.length_cons, List.length_nil]; omega,
          .refl _ e, by simp only [List.length_cons, List.length_nil]; omega⟩
      | none =>
        simp only
        split
        · next hu => subst hu; exact uhexStep_ok t' hn e
        · split
          · next hu => subst hu; exact xhexStep_ok t' hn e
          · exact ⟨List.nil_suffix, by simp, .create (by decide) e none (by omega)
              (by simp only [List.length_cons]; omega), by simp⟩
  · rw [if_neg hb]
    unfold utf8Step
    repeat' split
    · exact ⟨suffix_cons b t, by simp only [List.length_cons, List.length_nil]; omega, .refl _ e,
        by simp only [List.length_cons, List.length_nil]; omega⟩
    · exact utf8Copy_ok 2 (b :: t) n e
    · exact utf8Copy_ok 3 (b :: t) n e
    · exact utf8Copy_ok 4 (b :: t) n e
    · exact ⟨List.nil_suffix, by simp, .create (by decide) e none (by omega) (by omega), by simp⟩

/-- The whole decoding loop. -/
theorem strDec_ok (s : Bytes) (n : Nat) (e : EPtr) :
    (strDec s n e).2.1 <:+ s ∧ (strDec s n e).1.length ≤ n ∧ EStep s.length e (strDec s n e).2.2 ∧
      (strDec s n e).1.length + (strDec s n e).2.1.length ≤ s.length := by
  induction hl : s.length using Nat.strongRecOn generalizing s n e with
  | ind m ih =>
    subst hl
    rw [strDec.eq_def]
    cases s with
    | nil => exact ⟨List.nil_suffix, by simp, .create (by decide) e none (by omega) (by omega), by simp⟩
    | cons b t =>
      simp only
      split
      · exact ⟨suffix_cons b t, by simp, .refl _ e, by simp⟩
      · split
        · exact ⟨List.nil_suffix, by simp, .create (by decide) e _ (by omega) (by omega), by simp⟩
        · next hn =>
          have h := strStep_ok b t hn e
          have h2 := ih _ (strStep_length b t e hn) (strStep b t n e).2.1 (strStep b t n e).2.2.1
            (strStep b t n e).2.2.2 rfl
          have hc := h.cap
          have hs := h.shrink
          have hle := h.suffix.length_le
          refine ⟨h2.1.trans h.suffix, ?_, h.err.trans (h2.2.2.1.mono hle), ?_⟩
          · simp only [List.length_append]; omega
          · simp only [List.length_append]; omega

theorem deStr_safe : Safe False deStr := by
  intro v s e
  unfold deStr
  split
  · exact SafeOut.scan (parseNull_scan s) []
  · unfold unserializeStr
    cases s with
    | nil => exact .err (by decide) (by omega) (by omega)
    | cons b t =>
      simp only
      split
      · exact .err (by decide) (by omega) (by omega)
      · have := strDec_ok t intMax e
        rw [Sink.puts_back]
        exact .ok (this.1.trans (suffix_cons b t)) (this.2.2.1.mono (by simp))

/-! ### Decoding -/

theorem simpleEsc_iff {x y : Byte} : simpleEsc x = some y ↔ ShortEsc x y := by
  constructor
  · intro h
    unfold simpleEsc at h
    split at h
    · next hx =>
      cases h
      rcases hx with rfl | rfl | rfl
      · exact .quote
      · exact .backslash
      · exact .slash
    all_goals (repeat' split at h)
    all_goals first
      | (cases h; next hx => subst hx; constructor)
      | cases h
  · rintro (_ | _) <;> rfl

theorem utf8Copy_ok_run {i : Nat} {u : Bytes} (hu : u.length = i) (rest : Bytes) {n : Nat} (hn : i ≤ n) (e : EPtr) :
    utf8Copy i (u ++ rest) n e = (u, rest, n - i, e) := by
  induction i generalizing u n with
  | zero =>
    have : u = [] := by simpa using hu
    subst this; rfl
  | succ i ih =>
    cases u with
    | nil => simp at hu
    | cons b u =>
      cases n with
      | zero => omega
      | succ n =>
        have := ih (u := u) (by simpa using hu) (n := n) (by omega)
        simp only [List.cons_append, utf8Copy, this]
        simp

theorem hex4_fold (a b c d : Byte) : [a, b, c, d].foldl (fun a d => a * 16 + hexValue d) 0 = hex4 a b c d := by
  simp only [List.foldl_cons, List.foldl_nil, hex4]; omega

theorem hex4_lt {a b c d : Byte} (ha : HexDigit a) (hb : HexDigit b) (hc : HexDigit c) (hd : HexDigit d) :
    hex4 a b c d < 65536 := by
  have := hexValue_lt ha; have := hexValue_lt hb; have := hexValue_lt hc; have := hexValue_lt hd
  unfold hex4; omega

theorem or_lead2 (h : Nat) (h2 : h < 0x800) : (192 : UInt8) ||| UInt8.ofNat (h >>> 6) = UInt8.ofNat (0xC0 + h / 64) := by
  have e : h >>> 6 = h / 64 := by rw [Nat.shiftRight_eq_div_pow]
  rw [e]
  have : ∀ i : Fin 32, (192 : UInt8) ||| UInt8.ofNat i = UInt8.ofNat (0xC0 + i) := by decide +kernel
  exact this ⟨h / 64, by omega⟩

theorem or_lead3 (h : Nat) (h2 : h < 0x10000) : (224 : UInt8) ||| UInt8.ofNat (h >>> 12) = UInt8.ofNat (0xE0 + h / 4096) := by
  have e : h >>> 12 = h / 4096 := by rw [Nat.shiftRight_eq_div_pow]
  rw [e]
  have : ∀ i : Fin 16, (224 : UInt8) ||| UInt8.ofNat i = UInt8.ofNat (0xE0 + i) := by decide +kernel
  exact this ⟨h / 4096, by omega⟩

theorem or_cont (h : Nat) : (128 : UInt8) ||| (UInt8.ofNat h &&& (63 : UInt8)) = UInt8.ofNat (0x80 + h % 64) := by
  have e : UInt8.ofNat h &&& (63 : UInt8) = UInt8.ofNat (h % 64) := by
    have h1 : ∀ i : Fin 256, UInt8.ofNat i &&& (63 : UInt8) = UInt8.ofNat (i % 64) := by decide +kernel
    have h2 := h1 ⟨h % 256, by omega⟩
    have h3 : UInt8.ofNat (h % 256) = UInt8.ofNat h := by
      apply UInt8.toNat_inj.mp; simp
    simp only at h2
    rw [h3] at h2
    rw [h2]
    congr 1
    omega
  rw [e]
  have : ∀ i : Fin 64, (128 : UInt8) ||| UInt8.ofNat i = UInt8.ofNat (0x80 + i) := by decide +kernel
  exact this ⟨h % 64, by omega⟩

theorem uhexStep_uni {a b c d : Byte} (ha : HexDigit a) (hb : HexDigit b) (hc : HexDigit c) (hd : HexDigit d)
    (hr : 0x20 ≤ hex4 a b c d ∨ ShortCtl (hex4 a b c d)) {n : Nat} (hn : (utf8Enc (hex4 a b c d)).length ≤ n)
    (rest : Bytes) (e : EPtr) :
    uhexStep (a :: b :: c :: d :: rest) n e =
      (utf8Enc (hex4 a b c d), rest, n - (utf8Enc (hex4 a b c d)).length, e) := by
  have h4 := hexN_ok (ds := [a, b, c, d]) (by simp [ha, hb, hc, hd]) 0 rest e
  rw [hex4_fold] at h4
  have hlt := hex4_lt ha hb hc hd
  generalize hex4 a b c d = h at *
  have hn0 : n ≠ 0 := by
    intro h0
    subst h0
    unfold utf8Enc at hn
    repeat' split at hn
    all_goals simp at hn
  unfold uhexStep
  rw [if_neg hn0]
  simp only [List.length_cons, List.length_nil, List.cons_append, List.nil_append, Nat.reduceAdd] at h4
  simp only [h4]
  unfold utf8Enc at hn ⊢
  by_cases h1 : h < 32
  · rw [if_pos h1]
    have hs : h = 9 ∨ h = 13 ∨ h = 10 ∨ h = 8 ∨ h = 12 := by
      unfold ShortCtl at hr; omega
    rw [if_pos hs, if_pos (by omega)]
    rfl
  · rw [if_neg h1]
    by_cases h2 : h ≤ 0x7F
    · rw [if_pos h2, if_pos (by omega)]; rfl
    · rw [if_neg h2]
      rw [if_neg (by omega)] at hn
      rw [if_neg (by omega : ¬ h < 0x80)]
      by_cases h3 : h ≤ 0x7FF
      · rw [if_pos (by omega)] at hn
        simp only [List.length_cons, List.length_nil] at hn
        rw [if_pos h3, if_pos (by omega : h < 0x800), or_lead2 h (by omega), or_cont h, if_neg (by omega)]
        rfl
      · rw [if_neg (by omega)] at hn
        simp only [List.length_cons, List.length_nil] at hn
        rw [if_neg h3, if_neg (by omega : ¬ h < 0x800), or_lead3 h (by omega), or_cont, or_cont h, if_neg (by omega), if_neg (by omega),
          Nat.shiftRight_eq_div_pow]
        rfl

theorem uhexStep_ctl {a b c d : Byte} (ha : HexDigit a) (hb : HexDigit b) (hc : HexDigit c) (hd : HexDigit d)
    (hr : hex4 a b c d < 0x20) (hr2 : ¬ ShortCtl (hex4 a b c d)) {n : Nat} (hn : n ≠ 0)
    (rest : Bytes) (e : EPtr) :
    uhexStep (a :: b :: c :: d :: rest) n e =
      ([c%'\\', c%'u', a, b, c, d].take n, rest, n - ([c%'\\', c%'u', a, b, c, d].take n).length, e) := by
  have h4 := hexN_ok (ds := [a, b, c, d]) (by simp [ha, hb, hc, hd]) 0 rest e
  rw [hex4_fold] at h4
  unfold uhexStep
  rw [if_neg hn]
  simp only [List.length_cons, List.length_nil, List.cons_append, List.nil_append, Nat.reduceAdd] at h4
  simp only [h4]
  rw [if_pos hr, if_neg (by unfold ShortCtl at hr2; omega)]
  rfl

theorem ShortEsc.ne {x y : Byte} (h : ShortEsc x y) : x ≠ c%'u' ∧ x ≠ c%'x' := by
  cases h <;> decide

theorem leadLen_copy {b : Byte} {n : Nat} (h : LeadLen b n) (h1 : 1 ≤ n) (h3 : n ≤ 3) (t : Bytes) (m : Nat) (e : EPtr) :
    utf8Step b t m e = utf8Copy (n + 1) (b :: t) m e := by
  have key : ∀ n : Fin 4, LeadLen b n → 1 ≤ n.1 →
      b &&& 128 ≠ 0 ∧ (n.1 = 1 → b &&& 224 = 192) ∧ (n.1 ≠ 1 → b &&& 224 ≠ 192) ∧
      (n.1 = 2 → b &&& 240 = 224) ∧ (n.1 = 3 → b &&& 240 ≠ 224 ∧ b &&& 248 = 240) := by
    clear h; revert b; apply forall_byte; unfold LeadLen; decide +kernel
  have k := key ⟨n, by omega⟩ h h1
  unfold utf8Step
  rw [if_neg k.1]
  have : n = 1 ∨ n = 2 ∨ n = 3 := by omega
  rcases this with rfl | rfl | rfl
  · rw [if_pos (k.2.1 rfl)]
  · rw [if_neg (k.2.2.1 (by simp)), if_pos (k.2.2.2.1 rfl)]
  · rw [if_neg (k.2.2.1 (by simp)), if_neg (k.2.2.2.2 rfl).1, if_pos (k.2.2.2.2 rfl).2]

theorem dunit_ne {u w : Bytes} (h : DUnit u w) : 1 ≤ w.length ∧ ∃ b t, u = b :: t ∧ b ≠ c%'"' := by
  cases h with
  | ascii h1 h2 h3 => exact ⟨by simp, _, _, rfl, h2⟩
  | @multi b n ts h1 h2 h3 h4 =>
    refine ⟨by simp, _, _, rfl, ?_⟩
    rintro rfl
    unfold LeadLen at h1
    have : (n = 0) := by
      rcases h1 with h | h | h | h | h | h
      · exact h.2
      all_goals exact absurd h.1 (by decide)
    omega
  | short h => exact ⟨by simp, _, _, rfl, by decide⟩
  | @uni a b c d h1 h2 h3 h4 h5 =>
    refine ⟨?_, _, _, rfl, by decide⟩
    unfold utf8Enc
    repeat' split
    all_goals simp
  | ctl h1 h2 h3 h4 h5 => exact ⟨by simp, _, _, rfl, by decide⟩
  | hex h1 h2 => exact ⟨by simp, _, _, rfl, by decide⟩

/-- A unit of the token is decoded in one step. -/
theorem strStep_unit {u w : Bytes} (h : DUnit u w) {n : Nat} (hn : w.length ≤ n) (rest : Bytes) (e : EPtr) {b : Byte}
    {t : Bytes} (hu : u = b :: t) : strStep b (t ++ rest) n e = (w, rest, n - w.length, e) := by
  cases h with
  | @ascii x h1 h2 h3 =>
    simp at hu
    obtain ⟨rfl, rfl⟩ := hu
    unfold strStep
    rw [if_neg h3]
    have : x &&& 128 = 0 := by
      clear h2 h3 hn; revert h1; revert x; apply forall_byte; decide +kernel
    simp [utf8Step, this]
  | @multi x k ts h1 h2 h3 h4 =>
    simp at hu
    obtain ⟨rfl, rfl⟩ := hu
    have hb : x ≠ c%'\\' := by
      rintro rfl
      unfold LeadLen at h1
      rcases h1 with h | h | h | h | h | h
      · omega
      all_goals exact absurd h.1 (by decide)
    unfold strStep
    rw [if_neg hb, leadLen_copy h1 h2 h3]
    have := utf8Copy_ok_run (u := x :: ts) (i := k + 1) (by simp [h4]) rest (n := n) (by simp at hn; omega) e
    simp only [List.cons_append] at this
    rw [this]
    simp [h4]
  | @short x y h =>
    simp at hu
    obtain ⟨rfl, rfl⟩ := hu
    unfold strStep
    rw [if_pos rfl]
    simp [simpleEsc_iff.mpr h]
  | @uni a b c d h1 h2 h3 h4 h5 =>
    simp at hu
    obtain ⟨rfl, rfl⟩ := hu
    unfold strStep
    rw [if_pos rfl]
    have : simpleEsc c%'u' = none := by decide
    simp only [List.cons_append, List.nil_append, this, if_true]
    exact uhexStep_uni h1 h2 h3 h4 h5 hn rest e
  | @ctl a b c d h1 h2 h3 h4 h5 h6 =>
    simp at hu
    obtain ⟨rfl, rfl⟩ := hu
    unfold strStep
    rw [if_pos rfl]
    have : simpleEsc c%'u' = none := by decide
    simp only [List.cons_append, List.nil_append, this, if_true]
    simp at hn
    rw [uhexStep_ctl h1 h2 h3 h4 h5 h6 (by omega) rest e]
    rw [List.take_of_length_le (by simpa using hn)]
  | @hex a b h1 h2 =>
    simp at hu
    obtain ⟨rfl, rfl⟩ := hu
    unfold strStep
    rw [if_pos rfl]
    have : simpleEsc c%'x' = none := by decide
    simp only [List.cons_append, List.nil_append, this, if_neg (by decide : ¬ (c%'x' = c%'u')), if_true]
    have h := hexN_ok (ds := [a, b]) (by simp [h1, h2]) 0 rest e
    simp only [List.length_cons, List.length_nil, List.cons_append, List.nil_append, Nat.reduceAdd, List.foldl_cons,
      List.foldl_nil, Nat.zero_mul, Nat.zero_add] at h
    simp [xhexStep, h]

theorem strDec_unit {u w : Bytes} (h : DUnit u w) {n : Nat} (hn : w.length ≤ n) (rest : Bytes) (e : EPtr) :
    strDec (u ++ rest) n e = (w ++ (strDec rest (n - w.length) e).1, (strDec rest (n - w.length) e).2) := by
  obtain ⟨hw, b, t, rfl, hb⟩ := dunit_ne h
  rw [strDec.eq_def]
  have hn0 : n ≠ 0 := by omega
  simp only [List.cons_append]
  rw [if_neg hb, dif_neg hn0, strStep_unit h hn rest e rfl]

/-- Decoding a whole body. -/
theorem strDec_decodes {u v : Bytes} (h : Decodes u v) {n : Nat} (hn : v.length ≤ n) (rest : Bytes) (e : EPtr) :
    strDec (u ++ c%'"' :: rest) n e = (v, rest, e) := by
  induction h generalizing n with
  | nil => rw [strDec.eq_def]; simp
  | @cons u v us vs h1 h2 ih =>
    simp only [List.length_append] at hn
    rw [List.append_assoc, strDec_unit h1 (by omega), ih (by omega)]

theorem deStr_decodes {u v : Bytes} (h : Decodes u v) (hn : v.length ≤ intMax) (v0 rest : Bytes) (e : EPtr) :
    deStr v0 (c%'"' :: u ++ c%'"' :: rest) e = .ok (v, rest, e) := by
  unfold deStr
  have : isNull (c%'"' :: u ++ c%'"' :: rest) = false := rfl
  simp only [this, Bool.false_eq_true, if_false, unserializeStr, List.cons_append, ne_eq, not_true]
  rw [strDec_decodes h hn, Sink.puts_back]
  rfl

end Wjson
