import Verif.Proofs.Number
/-
Exact characterisation of `parse_string`.
-/
namespace Wjson
open Spec

theorem parseHexN_acc_iff {n : Nat} {s p : Bytes} :
    Acc (parseHexN n s) p ↔ ∃ h, s = h ++ p ∧ h.length = n ∧ ∀ b ∈ h, HexDigit b := by
  induction n generalizing s with
  | zero =>
    constructor
    · intro h
      have := acc_pure (q := s) (p := p) (fun e => by simpa [parseHexN] using h e)
      exact ⟨[], by simp [this], rfl, by simp⟩
    · rintro ⟨h, rfl, h1, _⟩ e
      have : h = [] := List.length_eq_zero_iff.mp h1
      subst this; rfl
  | succ n ih =>
    cases s with
    | nil =>
      constructor
      · intro h; exact absurd h (not_acc_err (c := .UnexpectedEndFragment) (by decide))
      · rintro ⟨h, h1, h2, _⟩
        simp at h1
        rw [h1.1] at h2; simp at h2
    | cons b t =>
      by_cases hb : isHex b = true
      · have : parseHexN (n+1) (b :: t) = parseHexN n t := by funext e; simp [parseHexN, hb]
        rw [this, ih]
        constructor
        · rintro ⟨h, rfl, h1, h2⟩
          refine ⟨b :: h, rfl, by simp [h1], ?_⟩
          intro x hx
          rcases List.mem_cons.mp hx with rfl | hx
          · exact isHex_iff.mp hb
          · exact h2 x hx
        · rintro ⟨h, h1, h2, h3⟩
          cases h with
          | nil => simp at h2
          | cons x h =>
            simp at h1 h2
            exact ⟨h, h1.2, h2, fun y hy => h3 y (by simp [hy])⟩
      · have : parseHexN (n+1) (b :: t) = fun e => ([], createError .InvalidString e none ((b :: t).length : Nat)) := by
          funext e; simp [parseHexN, hb]
        rw [this]
        constructor
        · intro h; exact absurd h (not_acc_err (by decide))
        · rintro ⟨h, h1, h2, h3⟩
          cases h with
          | nil => simp at h2
          | cons x h =>
            simp at h1
            have := h3 x (by simp)
            rw [← h1.1] at this
            exact absurd (isHex_iff.mpr this) hb

theorem parseHex_acc_iff {s p : Bytes} :
    Acc (parseHex s) p ↔ ∃ a b c d, s = a :: b :: c :: d :: p ∧ HexDigit a ∧ HexDigit b ∧ HexDigit c ∧ HexDigit d := by
  have : parseHex s = parseHexN 4 s := rfl
  rw [this, parseHexN_acc_iff]
  constructor
  · rintro ⟨h, rfl, h1, h2⟩
    match h, h1 with
    | [a, b, c, d], _ =>
      exact ⟨a, b, c, d, rfl, h2 a (by simp), h2 b (by simp), h2 c (by simp), h2 d (by simp)⟩
  · rintro ⟨a, b, c, d, rfl, h1, h2, h3, h4⟩
    refine ⟨[a, b, c, d], rfl, rfl, ?_⟩
    intro x hx
    simp at hx
    rcases hx with rfl | rfl | rfl | rfl <;> assumption

theorem cont_iff {b : Byte} : ¬ (b &&& 192 ≠ 128) ↔ Cont b := by
  revert b; apply forall_byte; unfold Cont; decide +kernel

theorem parseUtf8Part_acc_iff {n : Nat} {s p : Bytes} :
    Acc (parseUtf8Part n s) p ↔ ∃ h, s = h ++ p ∧ h.length = n ∧ ∀ b ∈ h, Cont b := by
  induction n generalizing s with
  | zero =>
    constructor
    · intro h
      have := acc_pure (q := s) (p := p) (fun e => by simpa [parseUtf8Part] using h e)
      exact ⟨[], by simp [this], rfl, by simp⟩
    · rintro ⟨h, rfl, h1, _⟩ e
      have : h = [] := List.length_eq_zero_iff.mp h1
      subst this; rfl
  | succ n ih =>
    cases s with
    | nil =>
      constructor
      · intro h; exact absurd h (not_acc_err (c := .UnexpectedEndFragment) (by decide))
      · rintro ⟨h, h1, h2, _⟩
        simp at h1
        rw [h1.1] at h2; simp at h2
    | cons b t =>
      by_cases hb : b &&& 192 ≠ 128
      · have : parseUtf8Part (n+1) (b :: t) =
            fun e => ([], createError .InvalidString e none ((b :: t).length : Nat)) := by
          funext e; rw [parseUtf8Part, if_pos hb]
        rw [this]
        constructor
        · intro h; exact absurd h (not_acc_err (by decide))
        · rintro ⟨h, h1, h2, h3⟩
          cases h with
          | nil => simp at h2
          | cons x h =>
            simp at h1
            have := h3 x (by simp)
            rw [← h1.1] at this
            exact absurd hb (cont_iff.mpr this)
      · have : parseUtf8Part (n+1) (b :: t) = parseUtf8Part n t := by
          funext e; rw [parseUtf8Part, if_neg hb]
        rw [this, ih]
        constructor
        · rintro ⟨h, rfl, h1, h2⟩
          refine ⟨b :: h, rfl, by simp [h1], ?_⟩
          intro x hx
          rcases List.mem_cons.mp hx with rfl | hx
          · exact cont_iff.mp hb
          · exact h2 x hx
        · rintro ⟨h, h1, h2, h3⟩
          cases h with
          | nil => simp at h2
          | cons x h =>
            simp at h1 h2
            exact ⟨h, h1.2, h2, fun y hy => h3 y (by simp [hy])⟩

theorem utf8Lead_iff {b : Byte} {n : Nat} : utf8Lead b = some n ↔ LeadLen b n := by
  have key : ∀ b : Byte, ∀ m : Fin 6, utf8Lead b = some m.val ↔ LeadLen b m.val := by
    apply forall_byte; unfold LeadLen; decide +kernel
  have hlt : LeadLen b n → n < 6 := by
    intro h
    rcases h with h | h | h | h | h | h <;> omega
  have hlt' : utf8Lead b = some n → n < 6 := by
    unfold utf8Lead
    repeat' split
    all_goals intro h; cases h
    all_goals omega
  constructor
  · intro h; exact (key b ⟨n, hlt' h⟩).mp h
  · intro h; exact (key b ⟨n, hlt h⟩).mpr h

theorem parseUtf8Ne_acc_iff {b : Byte} {t p : Bytes} :
    Acc (parseUtf8Ne b t) p ↔ ∃ u, b :: t = u ++ p ∧ Utf8Shape u := by
  constructor
  · intro h
    cases hl : utf8Lead b with
    | none =>
      have : parseUtf8Ne b t = fun e => ([], createError .InvalidString e none ((b :: t).length : Nat)) := by
        funext e; simp [parseUtf8Ne, hl]
      rw [this] at h
      exact absurd h (not_acc_err (by decide))
    | some n =>
      have : parseUtf8Ne b t = parseUtf8Part n t := by funext e; simp [parseUtf8Ne, hl]
      rw [this, parseUtf8Part_acc_iff] at h
      obtain ⟨u, rfl, h1, h2⟩ := h
      exact ⟨b :: u, rfl, b, n, u, rfl, utf8Lead_iff.mp hl, h1, h2⟩
  · rintro ⟨u, h1, b', n, ts, rfl, h2, h3, h4⟩
    simp at h1
    obtain ⟨rfl, rfl⟩ := h1
    have hl := utf8Lead_iff.mpr h2
    have : parseUtf8Ne b (ts ++ p) = parseUtf8Part n (ts ++ p) := by funext e; simp [parseUtf8Ne, hl]
    rw [this, parseUtf8Part_acc_iff]
    exact ⟨ts, rfl, h3, h4⟩

theorem isEsc_iff {b : Byte} : isEsc b = true ↔ (ShortEscape b ∨ b = c%'u') := by
  revert b; apply forall_byte; unfold ShortEscape; decide +kernel

theorem utf8Shape_head {u : Bytes} (h : Utf8Shape u) : ∃ b ts, u = b :: ts ∧
    (b = c%'"' → u = b!"\"") ∧ (b = c%'\\' → u = b!"\\") := by
  obtain ⟨b, n, ts, rfl, h1, h2, _⟩ := h
  refine ⟨b, ts, rfl, ?_, ?_⟩
  · rintro rfl
    have : n = 0 := by
      have := (utf8Lead_iff.mpr h1).symm.trans (show utf8Lead c%'"' = some 0 from rfl)
      simpa using this
    subst this
    rw [List.length_eq_zero_iff.mp h2]
  · rintro rfl
    have : n = 0 := by
      have := (utf8Lead_iff.mpr h1).symm.trans (show utf8Lead c%'\\' = some 0 from rfl)
      simpa using this
    subst this
    rw [List.length_eq_zero_iff.mp h2]

theorem strLoop_acc_iff {s p : Bytes} :
    Acc (strLoop s) p ↔ ∃ u, s = u ++ c%'"' :: p ∧ XChars u := by
  constructor
  · intro h
    induction hn : s.length using Nat.strongRecOn generalizing s with
    | ind n ih =>
      subst hn
      have hnil : ScanAt [] (strLoop []) := strLoop_scan []
      cases s with
      | nil =>
        have : strLoop [] = fun e => ([], createError .UnexpectedEndFragment e) := by
          funext e; rw [strLoop_nil]
        rw [this] at h
        exact absurd h (not_acc_err (by decide))
      | cons b t =>
        by_cases hq : b = c%'"'
        · subst hq
          have : strLoop (c%'"' :: t) = fun e => (t, e) := by funext e; rw [strLoop_quote]
          rw [this] at h
          have := acc_pure h
          subst this
          exact ⟨[], rfl, .nil⟩
        · by_cases hs : b = c%'\\'
          · subst hs
            cases t with
            | nil =>
              have : strLoop [c%'\\'] = fun e => ([], createError .UnexpectedEndFragment e) := by
                funext e; rw [strLoop_esc_nil]
              rw [this] at h
              exact absurd h (not_acc_err (by decide))
            | cons x t =>
              cases he : isEsc x with
              | false =>
                have : strLoop (c%'\\' :: x :: t) =
                    fun e => ([], createError .InvalidString e none ((x :: t).length : Nat)) := by
                  funext e; rw [strLoop_esc_bad he]
                rw [this] at h
                exact absurd h (not_acc_err (by decide))
              | true =>
                by_cases hu : x = c%'u'
                · subst hu
                  have : strLoop (c%'\\' :: c%'u' :: t) = fun e => strLoop (parseHex t e).1 (parseHex t e).2 := by
                    funext e; rw [strLoop_esc_u]
                  rw [this] at h
                  obtain ⟨q, h1, h2⟩ := Acc.bind_inv (parseHex_scan t) hnil h
                  obtain ⟨a, b, c, d, rfl, ha, hb, hc, hd⟩ := parseHex_acc_iff.mp h1
                  obtain ⟨u, rfl, hx⟩ := ih q.length (by simp; omega) h2 rfl
                  exact ⟨[c%'\\', c%'u', a, b, c, d] ++ u, by simp, .cons (.uni ha hb hc hd) hx⟩
                · have : strLoop (c%'\\' :: x :: t) = strLoop t := by
                    funext e; rw [strLoop_esc he hu]
                  rw [this] at h
                  obtain ⟨u, rfl, hx⟩ := ih t.length (by simp; omega) h rfl
                  have hsh : ShortEscape x := by
                    rcases isEsc_iff.mp he with h | h
                    · exact h
                    · exact absurd h hu
                  exact ⟨[c%'\\', x] ++ u, by simp, .cons (.short hsh) hx⟩
          · have : strLoop (b :: t) = fun e => strLoop (parseUtf8Ne b t e).1 (parseUtf8Ne b t e).2 := by
              funext e; rw [strLoop_utf8 hq hs]
            rw [this] at h
            obtain ⟨q, h1, h2⟩ := Acc.bind_inv (parseUtf8Ne_scan b t) hnil h
            obtain ⟨v, hv, hsh⟩ := parseUtf8Ne_acc_iff.mp h1
            obtain ⟨b', ts, rfl, hh1, hh2⟩ := utf8Shape_head hsh
            simp at hv
            obtain ⟨rfl, rfl⟩ := hv
            obtain ⟨u, rfl, hx⟩ := ih q.length (by simp; omega) h2 rfl
            refine ⟨b :: ts ++ u, by simp, .cons (.raw hsh ?_ ?_) hx⟩
            · intro h; simp at h; exact hq h.1
            · intro h; simp at h; exact hs h.1
  · rintro ⟨u, rfl, hx⟩
    induction hx with
    | nil => intro e; exact strLoop_quote _ _
    | @cons ch t hc ht ih =>
      rw [List.append_assoc]
      cases hc with
      | raw h1 h2 h3 =>
        obtain ⟨b, ts, rfl, hh1, hh2⟩ := utf8Shape_head h1
        have hq : b ≠ c%'"' := fun h => h2 (hh1 h)
        have hs : b ≠ c%'\\' := fun h => h3 (hh2 h)
        have h4 : Acc (parseUtf8Ne b (ts ++ (t ++ c%'"' :: p))) (t ++ c%'"' :: p) :=
          parseUtf8Ne_acc_iff.mpr ⟨b :: ts, rfl, h1⟩
        intro e
        rw [List.cons_append, strLoop_utf8 hq hs]
        exact (Acc.bind h4 ih) e
      | @short b h1 =>
        intro e
        have hu : b ≠ c%'u' := by rintro rfl; revert h1; unfold ShortEscape; decide
        rw [List.cons_append, List.cons_append, List.nil_append, strLoop_esc (isEsc_iff.mpr (.inl h1)) hu]
        exact ih e
      | uni ha hb hc hd =>
        intro e
        rw [List.cons_append, List.cons_append, strLoop_esc_u]
        exact (Acc.bind (parseHex_acc_iff.mpr ⟨_, _, _, _, rfl, ha, hb, hc, hd⟩) ih) e

theorem parseString_acc_iff {s p : Bytes} :
    Acc (parseString s) p ↔ ∃ t, s = t ++ p ∧ XString t := by
  cases s with
  | nil =>
    constructor
    · intro h; exact absurd h (not_acc_err (c := .UnexpectedEndFragment) (by decide))
    · rintro ⟨t, h, u, _, rfl⟩; simp at h
  | cons b t =>
    by_cases hb : b = c%'"'
    · subst hb
      have : parseString (c%'"' :: t) = strLoop t := by funext e; simp [parseString]
      rw [this, strLoop_acc_iff]
      constructor
      · rintro ⟨u, rfl, hx⟩
        exact ⟨_, by simp, u, hx, rfl⟩
      · rintro ⟨_, h, u, hx, rfl⟩
        refine ⟨u, by simpa using h, hx⟩
    · have : parseString (b :: t) =
          fun e => ([], createError .ExpectedOf e (some b!"\"") ((b :: t).length : Nat)) := by
        funext e; simp [parseString, hb]
      rw [this]
      constructor
      · intro h; exact absurd h (not_acc_err (by decide))
      · rintro ⟨_, h, u, hx, rfl⟩
        simp at h; exact absurd h.1 hb

/-! ### Uniqueness of the split -/

theorem XString.prefix_unique {t t' p p' : Bytes} (h : XString t) (h' : XString t') (he : t ++ p = t' ++ p') :
    t = t' ∧ p = p' := by
  have h1 : Acc (parseString (t ++ p)) p := parseString_acc_iff.mpr ⟨t, rfl, h⟩
  have h2 : Acc (parseString (t ++ p)) p' := parseString_acc_iff.mpr ⟨t', he, h'⟩
  have := h1.unique h2
  subst this
  exact ⟨List.append_cancel_right he, rfl⟩

/-! ### RFC strings are wjson strings -/

theorem utf8Multi_shape {t : Bytes} (h : Utf8Multi t) : Utf8Shape t := by
  have c0 : ∀ {b : Byte}, 0xA0 ≤ b → b ≤ 0xBF → Cont b := by
    intro b; revert b; apply forall_byte; unfold Cont; decide +kernel
  have c1 : ∀ {b : Byte}, 0x80 ≤ b → b ≤ 0x9F → Cont b := by
    intro b; revert b; apply forall_byte; unfold Cont; decide +kernel
  have c2 : ∀ {b : Byte}, 0x90 ≤ b → b ≤ 0xBF → Cont b := by
    intro b; revert b; apply forall_byte; unfold Cont; decide +kernel
  have c3 : ∀ {b : Byte}, 0x80 ≤ b → b ≤ 0x8F → Cont b := by
    intro b; revert b; apply forall_byte; unfold Cont; decide +kernel
  have l1 : ∀ {b : Byte}, 0xC2 ≤ b → b ≤ 0xDF → LeadLen b 1 := by
    intro b; revert b; apply forall_byte; unfold LeadLen; decide +kernel
  have l2 : ∀ {b : Byte}, (0xE1 ≤ b ∧ b ≤ 0xEC) ∨ (0xEE ≤ b ∧ b ≤ 0xEF) → LeadLen b 2 := by
    intro b; revert b; apply forall_byte; unfold LeadLen; decide +kernel
  have l3 : ∀ {b : Byte}, 0xF1 ≤ b → b ≤ 0xF3 → LeadLen b 3 := by
    intro b; revert b; apply forall_byte; unfold LeadLen; decide +kernel
  cases h with
  | two h1 h2 h3 => exact ⟨_, 1, _, rfl, l1 h1 h2, rfl, by simp [h3]⟩
  | threeE0 h1 h2 h3 => exact ⟨_, 2, _, rfl, by unfold LeadLen; decide, rfl, by simp [h3, c0 h1 h2]⟩
  | three h1 h2 h3 => exact ⟨_, 2, _, rfl, l2 h1, rfl, by simp [h2, h3]⟩
  | threeED h1 h2 h3 => exact ⟨_, 2, _, rfl, by unfold LeadLen; decide, rfl, by simp [h3, c1 h1 h2]⟩
  | fourF0 h1 h2 h3 h4 => exact ⟨_, 3, _, rfl, by unfold LeadLen; decide, rfl, by simp [h3, h4, c2 h1 h2]⟩
  | four h1 h2 h3 h4 h5 => exact ⟨_, 3, _, rfl, l3 h1 h2, rfl, by simp [h3, h4, h5]⟩
  | fourF4 h1 h2 h3 h4 => exact ⟨_, 3, _, rfl, by unfold LeadLen; decide, rfl, by simp [h3, h4, c3 h1 h2]⟩

theorem utf8Multi_length {t : Bytes} (h : Utf8Multi t) : 2 ≤ t.length := by
  cases h <;> simp

theorem RChar.x {t : Bytes} (h : RChar t) : XChar t := by
  cases h with
  | @ascii b h1 h2 h3 h4 =>
    refine .raw ⟨b, 0, [], rfl, ?_, rfl, by simp⟩ (by simpa using h3) (by simpa using h4)
    revert h2; revert h1; clear h3 h4; revert b; apply forall_byte; unfold LeadLen; decide +kernel
  | multi h =>
    have := utf8Multi_length h
    refine .raw (utf8Multi_shape h) ?_ ?_ <;> rintro rfl <;> simp at this
  | short h => exact .short h
  | uni h1 h2 h3 h4 => exact .uni h1 h2 h3 h4

theorem RChars.x {t : Bytes} (h : RChars t) : XChars t := by
  induction h with
  | nil => exact .nil
  | cons h1 _ ih => exact .cons (RChar.x h1) ih

theorem RString.x {t : Bytes} (h : RString t) : XString t := by
  obtain ⟨u, h1, rfl⟩ := h
  exact ⟨u, RChars.x h1, rfl⟩

theorem Ws.gap {t : Bytes} (h : Ws t) : Gap t := by
  induction t with
  | nil => exact .nil
  | cons b t ih => exact .ws (h b (by simp)) (ih fun x hx => h x (by simp [hx]))

end Wjson
