import Verif.Proofs.StrTyped
/-
Facts about the writing side of the string serializer.
-/
namespace Wjson
open Spec

theorem isUtf8_iff_lead {b : Byte} {t : Bytes} : isUtf8 (b :: t) = true ↔ (utf8Lead b).isSome = true := by
  show (b &&& 128 == 0 || b &&& 224 == 192 || b &&& 240 == 224 || b &&& 248 == 240
      || b &&& 252 == 248 || b &&& 254 == 252) = true ↔ _
  revert b; apply forall_byte; decide +kernel

theorem utf8Shape_prefix_unique {u u' r r' : Bytes} (h : Utf8Shape u) (h' : Utf8Shape u') (he : u ++ r = u' ++ r') :
    u = u' ∧ r = r' := by
  obtain ⟨b, n, ts, rfl, h1, h2, h3⟩ := h
  have a1 : Acc (parseUtf8Ne b (ts ++ r)) r := parseUtf8Ne_acc_iff.mpr ⟨_, rfl, b, n, ts, rfl, h1, h2, h3⟩
  have a2 : Acc (parseUtf8Ne b (ts ++ r)) r' := parseUtf8Ne_acc_iff.mpr ⟨u', he, h'⟩
  have := a1.unique a2
  subst this
  exact ⟨List.append_cancel_right he, rfl⟩

/-- How the writer treats a byte of 127 or more. -/
theorem strBody_high {nt : Bool} {b : Byte} (t : Bytes) (hb : ¬ b < 127) :
    (∃ u r, b :: t = u ++ r ∧ Utf8Shape u ∧ strBody nt (b :: t) = u ++ strBody nt r) ∨
    (128 ≤ b ∧ (¬ ∃ u r, b :: t = u ++ r ∧ Utf8Shape u) ∧ strBody nt (b :: t) = hexEsc b ++ strBody nt t) := by
  have hb0 : (nt && b == 0) = false := by
    have : b ≠ 0 := by rintro rfl; exact hb (by decide)
    simp [this]
  have hb1 : ¬ (b < 32 ∨ b = c%'"' ∨ b = c%'\\' ∨ b = c%'/') := by
    revert hb; clear hb0; revert b; apply forall_byte; decide +kernel
  have hunf : strBody nt (b :: t) = if isUtf8 (b :: t) then
      (if (parseUtf8Ne b t .fresh).2.failed then hexEsc b ++ strBody nt t
      else (b :: t).take ((b :: t).length - (parseUtf8Ne b t .fresh).1.length) ++ strBody nt (parseUtf8Ne b t .fresh).1)
      else hexEsc b ++ strBody nt t := by
    rw [strBody.eq_def]
    simp only [hb0, Bool.false_eq_true, if_false, hb1, hb]
  have hns : (¬ ∃ u r, b :: t = u ++ r ∧ Utf8Shape u) → 128 ≤ b := by
    intro h
    by_cases h7 : b = 127
    · exact absurd ⟨[b], t, rfl, b, 0, [], rfl, by subst h7; unfold LeadLen; decide, rfl, by simp⟩ h
    · revert h7; clear h hb0 hb1 hunf; revert hb; revert b; apply forall_byte; decide +kernel
  by_cases hu : isUtf8 (b :: t) = true
  · rw [if_pos hu] at hunf
    cases hf : (parseUtf8Ne b t .fresh).2.failed with
    | true =>
      have hno : ¬ ∃ u r, b :: t = u ++ r ∧ Utf8Shape u := by
        rintro ⟨u, r, h1, h2⟩
        have := parseUtf8Ne_acc_iff.mpr ⟨u, h1, h2⟩ .fresh
        rw [this] at hf
        simp [EPtr.failed, EPtr.fresh, JError.status] at hf
      rw [hf, if_pos rfl] at hunf
      exact .inr ⟨hns hno, hno, hunf⟩
    | false =>
      have ha := Acc.of_clean (parseUtf8Ne_scan b t) EPtr.fresh_clean (p := (parseUtf8Ne b t .fresh).1) rfl hf
      obtain ⟨u, h1, h2⟩ := parseUtf8Ne_acc_iff.mp ha
      rw [hf] at hunf
      simp only [Bool.false_eq_true, if_false] at hunf
      refine .inl ⟨u, _, h1, h2, ?_⟩
      rw [hunf]
      congr 1
      rw [h1]
      simp
  · rw [if_neg hu] at hunf
    have hno : ¬ ∃ u r, b :: t = u ++ r ∧ Utf8Shape u := by
      rintro ⟨u, r, h1, b', n, ts, rfl, h2, _⟩
      simp at h1
      rw [← h1.1] at h2
      exact hu (isUtf8_iff_lead.mpr (by rw [utf8Lead_iff.mpr h2]; rfl))
    exact .inr ⟨hns hno, hno, hunf⟩

theorem strBody_nil (nt : Bool) : strBody nt [] = [] := by rw [strBody.eq_def]

theorem strBody_esc {nt : Bool} {b : Byte} (t : Bytes) (h0 : (nt && b == 0) = false)
    (hb : b < 32 ∨ b = c%'"' ∨ b = c%'\\' ∨ b = c%'/') : strBody nt (b :: t) = escByte b ++ strBody nt t := by
  rw [strBody.eq_def]
  simp only [h0, Bool.false_eq_true, if_false, hb, if_true]

theorem strBody_plain {nt : Bool} {b : Byte} (t : Bytes)
    (hb : ¬ (b < 32 ∨ b = c%'"' ∨ b = c%'\\' ∨ b = c%'/')) (h1 : b < 127) :
    strBody nt (b :: t) = b :: strBody nt t := by
  have h0 : (nt && b == 0) = false := by
    have : b ≠ 0 := by rintro rfl; exact hb (by decide)
    simp [this]
  rw [strBody.eq_def]
  simp only [h0, Bool.false_eq_true, if_false, hb, h1, if_true]

/-- Induction over the steps of the writer. -/
theorem strBody_ind {P : Bytes → Bytes → Prop} (hnil : P [] [])
    (hesc : ∀ b t, (b < 32 ∨ b = c%'"' ∨ b = c%'\\' ∨ b = c%'/') → P t (strBody false t) →
      P (b :: t) (escByte b ++ strBody false t))
    (hplain : ∀ b t, ¬ (b < 32 ∨ b = c%'"' ∨ b = c%'\\' ∨ b = c%'/') → b < 127 → P t (strBody false t) →
      P (b :: t) (b :: strBody false t))
    (hshape : ∀ b us r, ¬ b < 127 → Utf8Shape (b :: us) → P r (strBody false r) →
      P (b :: us ++ r) (b :: us ++ strBody false r))
    (hhex : ∀ b t, 128 ≤ b → (¬ ∃ u r, b :: t = u ++ r ∧ Utf8Shape u) → P t (strBody false t) →
      P (b :: t) (hexEsc b ++ strBody false t))
    (v : Bytes) : P v (strBody false v) := by
  induction hl : v.length using Nat.strongRecOn generalizing v with
  | ind m ih =>
    subst hl
    cases v with
    | nil => rw [strBody_nil]; exact hnil
    | cons b t =>
      have iht := ih t.length (by simp) t rfl
      by_cases hb : b < 32 ∨ b = c%'"' ∨ b = c%'\\' ∨ b = c%'/'
      · rw [strBody_esc t (by simp) hb]; exact hesc b t hb iht
      · by_cases h1 : b < 127
        · rw [strBody_plain t hb h1]; exact hplain b t hb h1 iht
        · rcases strBody_high (nt := false) t h1 with ⟨u, r, h2, h3, h4⟩ | ⟨h2, h3, h4⟩
          · rw [h4]
            obtain ⟨b', ts, rfl, _⟩ := utf8Shape_head h3
            simp only [List.cons_append, List.cons.injEq] at h2
            obtain ⟨rfl, rfl⟩ := h2
            exact hshape b ts r h1 h3 (ih r.length (by simp only [List.length_cons, List.length_append]; omega) r rfl)
          · rw [h4]; exact hhex b t h2 h3 iht

theorem cont_expand {x : Byte} (h : Cont x) : expandByte x = [x] := by
  have : ¬ x < 0x20 := by revert h; revert x; apply forall_byte; unfold Cont; decide +kernel
  simp [expandByte, this]

theorem high_expand {x : Byte} (h : ¬ x < 127) : expandByte x = [x] := by
  have : ¬ x < 0x20 := by revert h; revert x; apply forall_byte; decide +kernel
  simp [expandByte, this]

theorem expand_append (a b : Bytes) : expand (a ++ b) = expand a ++ expand b := by simp [expand]

theorem expand_cons (a : Byte) (b : Bytes) : expand (a :: b) = expandByte a ++ expand b := by simp [expand]

theorem shape_expand {b : Byte} {us : Bytes} (hb : ¬ b < 127) (h : Utf8Shape (b :: us)) : expand (b :: us) = b :: us := by
  obtain ⟨b', n, ts, he, _, _, h3⟩ := h
  simp at he
  obtain ⟨rfl, rfl⟩ := he
  rw [expand_cons, high_expand hb]
  have : ∀ ts : Bytes, (∀ x ∈ ts, Cont x) → expand ts = ts := by
    intro ts
    induction ts with
    | nil => intro _; rfl
    | cons x ts ih =>
      intro h
      rw [expand_cons, cont_expand (h x (by simp)), ih (fun y hy => h y (by simp [hy]))]
      rfl
  rw [this us h3]
  rfl

/-- Four hex digits of an escape written by the library. -/
theorem hexChar_digit {n : Nat} (h : n < 16) : HexDigit (hexChar n) ∧ hexValue (hexChar n) = n := by
  have : ∀ n : Fin 16, HexDigit (hexChar n) ∧ hexValue (hexChar n) = n := by decide +kernel
  exact this ⟨n, h⟩

theorem hexEsc_high_dunit {b : Byte} (h : 128 ≤ b) : DUnit (hexEsc b) [b] := by
  have hlt : ¬ b < 128 := by revert h; revert b; apply forall_byte; decide +kernel
  have h1 := hexChar_digit (n := b.toNat / 16) (by have := b.toNat_lt; omega)
  have h2 := hexChar_digit (n := b.toNat % 16) (by omega)
  unfold hexEsc
  rw [if_neg hlt]
  have := DUnit.hex h1.1 h2.1
  rw [h1.2, h2.2] at this
  have e : UInt8.ofNat (b.toNat / 16 * 16 + b.toNat % 16) = b := by
    apply UInt8.toNat_inj.mp
    have := b.toNat_lt
    simp
    omega
  rwa [e] at this

/-- One escaped byte is decoded to its expansion. -/
theorem escByte_dunit {b : Byte} (h : b < 32 ∨ b = c%'"' ∨ b = c%'\\' ∨ b = c%'/') : DUnit (escByte b) (expandByte b) := by
  have hs : ∀ {x y : Byte}, ShortEsc x y → escByte y = [c%'\\', x] → expandByte y = [y] → DUnit (escByte y) (expandByte y) := by
    intro x y h1 h2 h3; rw [h2, h3]; exact .short h1
  by_cases h1 : b = c%'"'
  · subst h1; exact hs .quote (by decide) (by decide)
  by_cases h2 : b = c%'\\'
  · subst h2; exact hs .backslash (by decide) (by decide)
  by_cases h3 : b = c%'/'
  · subst h3; exact hs .slash (by decide) (by decide)
  by_cases h4 : b = 9
  · subst h4; exact hs .t (by decide) (by decide)
  by_cases h5 : b = 8
  · subst h5; exact hs .b (by decide) (by decide)
  by_cases h6 : b = 13
  · subst h6; exact hs .r (by decide) (by decide)
  by_cases h7 : b = 10
  · subst h7; exact hs .n (by decide) (by decide)
  by_cases h8 : b = 12
  · subst h8; exact hs .f (by decide) (by decide)
  have hb : b < 32 := by
    rcases h with h | h | h | h
    · exact h
    · exact absurd h h1
    · exact absurd h h2
    · exact absurd h h3
  have key : ∀ b : Byte, b < 32 → b ≠ 9 → b ≠ 8 → b ≠ 13 → b ≠ 10 → b ≠ 12 →
      escByte b = [c%'\\', c%'u', c%'0', c%'0', hexChar (b.toNat / 16), hexChar (b.toNat % 16)] ∧
      expandByte b = escByte b ∧ hex4 c%'0' c%'0' (hexChar (b.toNat / 16)) (hexChar (b.toNat % 16)) < 0x20 ∧
      ¬ ShortCtl (hex4 c%'0' c%'0' (hexChar (b.toNat / 16)) (hexChar (b.toNat % 16))) := by
    apply forall_byte; decide +kernel
  have k := key b hb h4 h5 h6 h7 h8
  have d1 := hexChar_digit (n := b.toNat / 16) (by have := b.toNat_lt; omega)
  have d2 := hexChar_digit (n := b.toNat % 16) (by omega)
  rw [k.2.1, k.1]
  exact .ctl (by decide) (by decide) d1.1 d2.1 k.2.2.1 k.2.2.2

theorem longSeq_mono {a b : Bytes} (h : a <:+: b) (ha : HasLongSeq a) : HasLongSeq b := by
  obtain ⟨u, h1, h2⟩ := ha
  exact ⟨u, h1.trans h, h2⟩

/-- Reading back what was written gives the expansion. -/
theorem strBody_decodes (v : Bytes) (hv : ¬ HasLongSeq v) : Decodes (strBody false v) (expand v) := by
  refine strBody_ind (P := fun v w => ¬ HasLongSeq v → Decodes w (expand v)) ?_ ?_ ?_ ?_ ?_ v hv
  · intro _; exact .nil
  · intro b t hb ih h
    rw [expand_cons]
    exact .cons (escByte_dunit hb) (ih fun h' => h (longSeq_mono (suffix_cons b t).isInfix h'))
  · intro b t hb h1 ih h
    rw [expand_cons]
    have he : expandByte b = [b] := by
      have : ¬ b < 0x20 := fun x => hb (.inl x)
      simp [expandByte, this]
    rw [he]
    refine Decodes.cons (u := [b]) (.ascii ?_ ?_ ?_) (ih fun h' => h (longSeq_mono (suffix_cons b t).isInfix h'))
    · clear ih h hb he; revert h1; revert b; apply forall_byte; decide +kernel
    · rintro rfl; exact hb (by decide)
    · rintro rfl; exact hb (by decide)
  · intro b us r hb hs ih h
    have hr : ¬ HasLongSeq r := fun h' => h (longSeq_mono (List.suffix_append _ _).isInfix h')
    rw [expand_append, shape_expand hb hs]
    refine .cons ?_ (ih hr)
    have hlen : ¬ 5 ≤ (b :: us).length := fun h5 => h ⟨b :: us, (List.prefix_append _ _).isInfix, hs, h5⟩
    obtain ⟨b', n, ts, he, h1, h2, h3⟩ := hs
    simp at he
    obtain ⟨rfl, rfl⟩ := he
    simp only [List.length_cons] at hlen
    by_cases hn : n = 0
    · subst hn
      rw [List.length_eq_zero_iff.mp h2]
      refine .ascii ?_ ?_ ?_
      · rcases h1 with h | h | h | h | h | h
        · exact h.1
        all_goals omega
      · rintro rfl; exact hb (by decide)
      · rintro rfl; exact hb (by decide)
    · exact .multi h1 (by omega) (by omega) h2
  · intro b t hb hns ih h
    rw [expand_cons, high_expand (by revert hb; clear hns ih h; revert b; apply forall_byte; decide +kernel)]
    exact .cons (hexEsc_high_dunit hb) (ih fun h' => h (longSeq_mono (suffix_cons b t).isInfix h'))

theorem escByte_cases {b : Byte} (hb : b < 32 ∨ b = c%'"' ∨ b = c%'\\' ∨ b = c%'/') :
    (∃ x, escByte b = [c%'\\', x] ∧ ShortEscape x) ∨
      escByte b = [c%'\\', c%'u', c%'0', c%'0', hexChar (b.toNat / 16), hexChar (b.toNat % 16)] := by
  have key : ∀ b : Byte, (b < 32 ∨ b = c%'"' ∨ b = c%'\\' ∨ b = c%'/') →
      (∃ x : Fin 256, escByte b = [c%'\\', UInt8.ofFin x] ∧ ShortEscape (UInt8.ofFin x)) ∨
      escByte b = [c%'\\', c%'u', c%'0', c%'0', hexChar (b.toNat / 16), hexChar (b.toNat % 16)] := by
    apply forall_byte; unfold ShortEscape; decide +kernel
  rcases key b hb with ⟨x, h⟩ | h
  · exact .inl ⟨_, h⟩
  · exact .inr h

theorem cont_high {x : Byte} : Cont x → ¬ x < 127 := by
  revert x; apply forall_byte; unfold Cont; decide +kernel

theorem ge128_not_lt {x : Byte} : 128 ≤ x → ¬ x < 128 := by
  revert x; apply forall_byte; decide +kernel

theorem lt128_le127 {x : Byte} : x < 0x80 → x ≤ 0x7F := by
  revert x; apply forall_byte; decide +kernel

/-- The output is clean. -/
theorem strBody_clean (v : Bytes) : CleanBody (strBody false v) := by
  have hx : ∀ {u t : Bytes}, CleanUnit u → CleanBody t → CleanBody (u ++ t) := fun h1 h2 => .cons h1 h2
  have hraw : ∀ b : Byte, ¬ b < 127 → CleanUnit [b] := by
    intro b hb
    refine .raw ?_ ?_ ?_
    · revert hb; revert b; apply forall_byte; decide +kernel
    · rintro rfl; exact hb (by decide)
    · rintro rfl; exact hb (by decide)
  refine strBody_ind (P := fun _ w => CleanBody w) .nil ?_ ?_ ?_ ?_ v
  · intro b t hb ih
    refine hx ?_ ih
    rcases escByte_cases hb with ⟨x, h1, h2⟩ | h
    · rw [h1]; exact .short h2
    · rw [h]
      exact .uni (by decide) (by decide) (hexChar_digit (by have := b.toNat_lt; omega)).1 (hexChar_digit (by omega)).1
  · intro b t hb h1 ih
    refine hx (u := [b]) (.raw ?_ ?_ ?_) ih
    · clear ih h1; revert hb; revert b; apply forall_byte; decide +kernel
    · rintro rfl; exact hb (by decide)
    · rintro rfl; exact hb (by decide)
  · intro b us r hb hs ih
    refine hx (u := [b]) (hraw b hb) ?_
    obtain ⟨b', n, ts, he, _, _, h3⟩ := hs
    simp at he
    obtain ⟨rfl, rfl⟩ := he
    have hall : ∀ us : Bytes, (∀ x ∈ us, Cont x) → CleanBody (us ++ strBody false r) := by
      intro us
      induction us with
      | nil => intro _; exact ih
      | cons x us ih2 =>
        intro h
        exact hx (u := [x]) (hraw x (cont_high (h x (by simp)))) (ih2 fun y hy => h y (by simp [hy]))
    exact hall us h3
  · intro b t hb _ ih
    refine hx ?_ ih
    have hlt := ge128_not_lt hb
    unfold hexEsc
    rw [if_neg hlt]
    exact .hex (hexChar_digit (by have := b.toNat_lt; omega)).1 (hexChar_digit (by omega)).1

theorem utf8Shapes_cons_inv {b : Byte} {t : Bytes} (h : Utf8Shapes (b :: t)) :
    ∃ u r, b :: t = u ++ r ∧ Utf8Shape u ∧ Utf8Shapes r := by
  generalize hw : b :: t = w at h
  cases h with
  | nil => cases hw
  | @cons c t' h1 h2 => exact ⟨c, t', rfl, h1, h2⟩

theorem utf8Shapes_low {b : Byte} {t : Bytes} (hb : b < 127) (h : Utf8Shapes (b :: t)) : Utf8Shapes t := by
  obtain ⟨u, r, h1, h2, h3⟩ := utf8Shapes_cons_inv h
  have hs : Utf8Shape [b] := ⟨b, 0, [], rfl, .inl ⟨by clear h h1; revert hb; revert b; apply forall_byte; decide +kernel, rfl⟩,
    rfl, by simp⟩
  have := utf8Shape_prefix_unique hs h2 (r := t) h1
  rw [this.2]; exact h3

theorem escByte_xchar {b : Byte} (hb : b < 32 ∨ b = c%'"' ∨ b = c%'\\' ∨ b = c%'/') : RChar (escByte b) := by
  rcases escByte_cases hb with ⟨x, h1, h2⟩ | h
  · rw [h1]; exact .short h2
  · rw [h]
    exact .uni (by decide) (by decide) (hexChar_digit (by have := b.toNat_lt; omega)).1 (hexChar_digit (by omega)).1

/-- Text that is UTF-8-shaped is written as a string the parser accepts. -/
theorem strBody_xchars (v : Bytes) (hv : Utf8Shapes v) : XChars (strBody false v) := by
  refine strBody_ind (P := fun v w => Utf8Shapes v → XChars w) (fun _ => .nil) ?_ ?_ ?_ ?_ v hv
  · intro b t hb ih h
    refine .cons (RChar.x (escByte_xchar hb)) (ih (utf8Shapes_low ?_ h))
    clear ih h; revert hb; revert b; apply forall_byte; decide +kernel
  · intro b t hb h1 ih h
    refine XChars.cons (c := [b]) (.raw ?_ ?_ ?_) (ih (utf8Shapes_low h1 h))
    · exact ⟨b, 0, [], rfl, .inl ⟨by clear h ih hb; revert h1; revert b; apply forall_byte; decide +kernel, rfl⟩,
        rfl, by simp⟩
    · intro hh; simp at hh; exact hb (.inr (.inl hh))
    · intro hh; simp at hh; exact hb (.inr (.inr (.inl hh)))
  · intro b us r hb hs ih h
    obtain ⟨u, r', h1, h2, h3⟩ := utf8Shapes_cons_inv h
    have := utf8Shape_prefix_unique hs h2 (r := r) h1
    refine .cons (.raw hs ?_ ?_) (ih (this.2 ▸ h3))
    · intro hh; simp at hh; rw [hh.1] at hb; exact hb (by decide)
    · intro hh; simp at hh; rw [hh.1] at hb; exact hb (by decide)
  · intro b t hb hns ih h
    obtain ⟨u, r', h1, h2, h3⟩ := utf8Shapes_cons_inv h
    exact absurd ⟨u, r', h1, h2⟩ hns

theorem utf8Text_shapes {v : Bytes} (h : Utf8Text v) : Utf8Shapes v := by
  induction h with
  | nil => exact .nil
  | @ascii b t h1 _ ih => exact Utf8Shapes.cons (c := [b]) ⟨b, 0, [], rfl, .inl ⟨h1, rfl⟩, rfl, by simp⟩ ih
  | multi h1 _ ih => exact .cons (utf8Multi_shape h1) ih

theorem utf8Text_cons_inv {b : Byte} {t : Bytes} (h : Utf8Text (b :: t)) :
    (b < 0x80 ∧ Utf8Text t) ∨ ∃ u r, b :: t = u ++ r ∧ Utf8Multi u ∧ Utf8Text r := by
  generalize hw : b :: t = w at h
  cases h with
  | nil => cases hw
  | ascii h1 h2 => cases hw; exact .inl ⟨h1, h2⟩
  | multi h1 h2 => exact .inr ⟨_, _, rfl, h1, h2⟩

theorem utf8Multi_head {u : Bytes} (h : Utf8Multi u) : ∃ b t, u = b :: t ∧ 0x80 ≤ b := by
  have a : ∀ b : Byte, 0xC2 ≤ b → 0x80 ≤ b := by apply forall_byte; decide +kernel
  have a' : ∀ b : Byte, (0xE1 ≤ b ∧ b ≤ 0xEC) ∨ (0xEE ≤ b ∧ b ≤ 0xEF) → 0x80 ≤ b := by apply forall_byte; decide +kernel
  have a'' : ∀ b : Byte, 0xF1 ≤ b → 0x80 ≤ b := by apply forall_byte; decide +kernel
  cases h with
  | two h1 => exact ⟨_, _, rfl, a _ h1⟩
  | threeE0 => exact ⟨_, _, rfl, by decide⟩
  | three h1 => exact ⟨_, _, rfl, a' _ h1⟩
  | threeED => exact ⟨_, _, rfl, by decide⟩
  | fourF0 => exact ⟨_, _, rfl, by decide⟩
  | four h1 => exact ⟨_, _, rfl, a'' _ h1⟩
  | fourF4 => exact ⟨_, _, rfl, by decide⟩

theorem utf8Text_low {b : Byte} {t : Bytes} (hb : b < 127) (h : Utf8Text (b :: t)) : Utf8Text t := by
  rcases utf8Text_cons_inv h with h | ⟨u, r, h1, h2, _⟩
  · exact h.2
  · obtain ⟨b', t', rfl, h3⟩ := utf8Multi_head h2
    simp at h1
    rw [← h1.1] at h3
    exfalso
    clear h1 h; revert h3; revert hb; revert b; apply forall_byte; decide +kernel

/-- Well-formed UTF-8 text is written as an RFC 8259 string. -/
theorem strBody_rchars (v : Bytes) (hv : Utf8Text v) : RChars (strBody false v) := by
  refine strBody_ind (P := fun v w => Utf8Text v → RChars w) (fun _ => .nil) ?_ ?_ ?_ ?_ v hv
  · intro b t hb ih h
    refine .cons (escByte_xchar hb) (ih (utf8Text_low ?_ h))
    clear ih h; revert hb; revert b; apply forall_byte; decide +kernel
  · intro b t hb h1 ih h
    refine RChars.cons (c := [b]) (.ascii ?_ ?_ ?_ ?_) (ih (utf8Text_low h1 h))
    · clear ih h h1; revert hb; revert b; apply forall_byte; decide +kernel
    · clear ih h hb; revert h1; revert b; apply forall_byte; decide +kernel
    · rintro rfl; exact hb (by decide)
    · rintro rfl; exact hb (by decide)
  · intro b us r hb hs ih h
    rcases utf8Text_cons_inv h with h1 | ⟨u, r', h1, h2, h3⟩
    · have hs1 : Utf8Shape [b] := ⟨b, 0, [], rfl, .inl ⟨h1.1, rfl⟩, rfl, by simp⟩
      have := utf8Shape_prefix_unique hs1 hs (r := us ++ r) (r' := r) rfl
      have hus : us = [] := by simpa using this.1
      subst hus
      refine RChars.cons (c := [b]) (.ascii ?_ ?_ ?_ ?_) (ih h1.2)
      · clear ih h h1 hs hs1 this; revert hb; revert b; apply forall_byte; decide +kernel
      · exact lt128_le127 h1.1
      · rintro rfl; exact hb (by decide)
      · rintro rfl; exact hb (by decide)
    · have := utf8Shape_prefix_unique hs (utf8Multi_shape h2) (r := r) h1
      exact .cons (.multi (this.1 ▸ h2)) (ih (this.2 ▸ h3))
  · intro b t hb hns ih h
    obtain ⟨u, r', h1, h2, h3⟩ := utf8Shapes_cons_inv (utf8Text_shapes h)
    exact absurd ⟨u, r', h1, h2⟩ hns

/-- The writer for NUL-terminated arrays writes the bytes before the first NUL. -/
theorem strBody_nt (v : Bytes) : strBody true v = strBody false (v.takeWhile (· ≠ 0)) := by
  induction hl : v.length using Nat.strongRecOn generalizing v with
  | ind m ih =>
    subst hl
    cases v with
    | nil => simp [strBody_nil]
    | cons b t =>
      by_cases h0 : b = 0
      · subst h0
        have : List.takeWhile (fun x : UInt8 => decide (x ≠ 0)) (0 :: t) = [] := by simp
        rw [this, strBody_nil, strBody.eq_def]
        simp
      · have iht := ih t.length (by simp) t rfl
        have htw : List.takeWhile (fun x : UInt8 => decide (x ≠ 0)) (b :: t) = b :: t.takeWhile (· ≠ 0) := by
          simp [h0]
        rw [htw]
        by_cases hb : b < 32 ∨ b = c%'"' ∨ b = c%'\\' ∨ b = c%'/'
        · rw [strBody_esc t (by simp [h0]) hb, strBody_esc _ (by simp) hb, iht]
        · by_cases h1 : b < 127
          · rw [strBody_plain t hb h1, strBody_plain _ hb h1, iht]
          · have hcut : ∀ (us r : Bytes), (∀ x ∈ us, Cont x) →
                (us ++ r).takeWhile (· ≠ 0) = us ++ r.takeWhile (· ≠ 0) := by
              intro us
              induction us with
              | nil => intro r _; rfl
              | cons x us ihu =>
                intro r hx
                have hx0 : x ≠ 0 := by
                  rintro rfl
                  exact absurd (hx 0 (by simp)) (by decide)
                have := ihu r (fun y hy => hx y (by simp [hy]))
                simp only [List.cons_append, List.takeWhile_cons, this]
                simp [hx0]
            rcases strBody_high (nt := true) t h1 with ⟨u, r, h2, h3, h4⟩ | ⟨h2, h3, h4⟩
            · have h3' := h3
              obtain ⟨b', n, ts, rfl, hl, hn, hc⟩ := h3
              simp only [List.cons_append, List.cons.injEq] at h2
              obtain ⟨rfl, rfl⟩ := h2
              rw [h4, ih r.length (by simp only [List.length_cons, List.length_append]; omega) r rfl, hcut ts r hc]
              rcases strBody_high (nt := false) (ts ++ r.takeWhile (· ≠ 0)) h1 with ⟨u, r', g2, g3, g4⟩ | ⟨g2, g3, g4⟩
              · have := utf8Shape_prefix_unique h3' g3 (r := r.takeWhile (· ≠ 0)) g2
                rw [g4, ← this.1, ← this.2]
              · exact absurd ⟨_, _, rfl, h3'⟩ g3
            · rw [h4, iht]
              rcases strBody_high (nt := false) (t.takeWhile (· ≠ 0)) h1 with ⟨u, r', g2, g3, g4⟩ | ⟨g2, g3, g4⟩
              · exfalso
                apply h3
                refine ⟨u, r' ++ t.dropWhile (· ≠ 0), ?_, g3⟩
                rw [← List.append_assoc, ← g2]
                simp [List.takeWhile_append_dropWhile]
              · exact g4.symm

end Wjson
