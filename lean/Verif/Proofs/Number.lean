import Verif.Proofs.Accept
/-
Exact characterisation of `parse_number`.
-/
namespace Wjson
open Spec

instance (b : Byte) : Decidable (Digit b) := inferInstanceAs (Decidable (_ ∧ _))
instance (b : Byte) : Decidable (Digit19 b) := inferInstanceAs (Decidable (_ ∧ _))
instance (b : Byte) : Decidable (HexDigit b) := inferInstanceAs (Decidable (_ ∨ _))
instance (b : Byte) : Decidable (WsByte b) := inferInstanceAs (Decidable (_ ∨ _))
instance (b : Byte) : Decidable (Cont b) := inferInstanceAs (Decidable (_ ∧ _))

theorem isDigit_iff {b : Byte} : isDigit b = true ↔ Digit b := by simp [isDigit, Digit]
theorem isDigit19_iff {b : Byte} : isDigit19 b = true ↔ Digit19 b := by simp [isDigit19, Digit19]
theorem isHex_iff {b : Byte} : isHex b = true ↔ HexDigit b := by simp [isHex, HexDigit, or_assoc]

theorem digit_of_19 {b : Byte} (h : Digit19 b) : Digit b :=
  isDigit_iff.mp (isDigit_of_isDigit19 (isDigit19_iff.mpr h))

/-- `p` does not start with a digit. -/
def NoDigit (p : Bytes) : Prop := ∀ b, p.head? = some b → ¬ Digit b

theorem parseDigit_append {ds p : Bytes} (h : ∀ b ∈ ds, Digit b) (hp : NoDigit p) : parseDigit (ds ++ p) = p := by
  induction ds with
  | nil =>
    cases p with
    | nil => rfl
    | cons b t =>
      have : ¬ isDigit b = true := fun h => hp b rfl (isDigit_iff.mp h)
      simp [parseDigit, this]
  | cons b t ih =>
    have : isDigit b = true := isDigit_iff.mpr (h b (by simp))
    simp only [List.cons_append, parseDigit, this, if_true]
    exact ih (fun x hx => h x (by simp [hx]))

theorem parseDigit_split (s : Bytes) :
    ∃ ds, s = ds ++ parseDigit s ∧ (∀ b ∈ ds, Digit b) ∧ NoDigit (parseDigit s) := by
  induction s with
  | nil => exact ⟨[], by simp [parseDigit], by simp, by simp [NoDigit, parseDigit]⟩
  | cons b t ih =>
    by_cases h : isDigit b = true
    · obtain ⟨ds, h1, h2, h3⟩ := ih
      refine ⟨b :: ds, ?_, ?_, ?_⟩
      · simp only [parseDigit, h, if_true, List.cons_append]; rw [← h1]
      · intro x hx
        rcases List.mem_cons.mp hx with rfl | hx
        · exact isDigit_iff.mp h
        · exact h2 x hx
      · simpa only [parseDigit, h, if_true] using h3
    · refine ⟨[], by simp [parseDigit, h], by simp, ?_⟩
      intro x hx
      simp [parseDigit, h] at hx
      subst hx
      exact fun hd => h (isDigit_iff.mpr hd)

theorem acc_pure {p q : Bytes} (h : Acc (fun e => (q, e)) p) : q = p := by
  have := h .null; simpa using this

theorem parseIntegerAbs_acc_iff {s p : Bytes} :
    Acc (parseIntegerAbs s) p ↔ ∃ i, s = i ++ p ∧ RInt i ∧ (i = b!"0" ∨ NoDigit p) := by
  cases s with
  | nil =>
    constructor
    · intro h; exact absurd h (not_acc_err (c := .UnexpectedEndFragment) (by decide))
    · rintro ⟨i, h1, h2, _⟩
      have : i = [] := by simp at h1; exact h1.1
      subst this
      rcases h2 with h | ⟨d, ds, h, _⟩ <;> simp at h
  | cons b t =>
    by_cases hb : b = c%'0'
    · subst hb
      have : parseIntegerAbs (c%'0' :: t) = fun e => (t, e) := by funext e; simp [parseIntegerAbs]
      rw [this]
      constructor
      · intro h
        have := acc_pure h
        subst this
        exact ⟨b!"0", rfl, .inl rfl, .inl rfl⟩
      · rintro ⟨i, h1, h2, _⟩ e
        rcases h2 with rfl | ⟨d, ds, rfl, h, _⟩
        · simp at h1; simp [h1]
        · simp at h1
          rw [← h1.1] at h
          exact absurd h (by decide)
    · by_cases hd : isDigit19 b = true
      · have : parseIntegerAbs (b :: t) = fun e => (parseDigit (b :: t), e) := by
          funext e; simp [parseIntegerAbs, hb, hd]
        rw [this]
        constructor
        · intro h
          have := acc_pure h
          obtain ⟨ds, h1, h2, h3⟩ := parseDigit_split (b :: t)
          rw [this] at h1 h3
          refine ⟨ds, h1, .inr ?_, .inr h3⟩
          cases ds with
          | nil =>
            exfalso
            simp at h1
            have := h3 b (by rw [← h1]; rfl)
            exact this (digit_of_19 (isDigit19_iff.mp hd))
          | cons d ds =>
            simp at h1
            refine ⟨d, ds, rfl, ?_, fun x hx => h2 x (by simp [hx])⟩
            rw [← h1.1]; exact isDigit19_iff.mp hd
        · rintro ⟨i, h1, h2, h3⟩ e
          rcases h2 with rfl | ⟨d, ds, rfl, h4, h5⟩
          · simp at h1; exact absurd h1.1 hb
          · have hnd : NoDigit p := by
              rcases h3 with h3 | h3
              · simp at h3; rw [h3.1] at h4; exact absurd h4 (by decide)
              · exact h3
            rw [h1]
            have : parseDigit (d :: ds ++ p) = p := parseDigit_append (by
              intro x hx
              rcases List.mem_cons.mp hx with rfl | hx
              · exact digit_of_19 h4
              · exact h5 x hx) hnd
            simp only [this]
      · have : parseIntegerAbs (b :: t) = fun e => ([], createError .InvalidNumber e) := by
          funext e; simp [parseIntegerAbs, hb, hd]
        rw [this]
        constructor
        · intro h; exact absurd h (not_acc_err (by decide))
        · rintro ⟨i, h1, h2, _⟩
          rcases h2 with rfl | ⟨d, ds, rfl, h4, _⟩
          · simp at h1; exact absurd h1.1 hb
          · simp at h1
            rw [← h1.1] at h4
            exact absurd (isDigit19_iff.mpr h4) hd

theorem parseInteger_acc_iff {s p : Bytes} :
    Acc (parseInteger s) p ↔
      ∃ m i, s = m ++ i ++ p ∧ RMinus m ∧ RInt i ∧ (i = b!"0" ∨ NoDigit p) := by
  cases s with
  | nil =>
    constructor
    · intro h; exact absurd h (not_acc_err (c := .UnexpectedEndFragment) (by decide))
    · rintro ⟨m, i, h1, h2, h3, _⟩
      have : i = [] := by simp at h1; exact h1.2.1
      subst this
      rcases h3 with h | ⟨d, ds, h, _⟩ <;> simp at h
  | cons b t =>
    by_cases hb : b = c%'-'
    · subst hb
      have : parseInteger (c%'-' :: t) = parseIntegerAbs t := by funext e; simp [parseInteger]
      rw [this, parseIntegerAbs_acc_iff]
      constructor
      · rintro ⟨i, rfl, h2, h3⟩
        exact ⟨b!"-", i, by simp, .inr rfl, h2, h3⟩
      · rintro ⟨m, i, h1, h2, h3, h4⟩
        rcases h2 with rfl | rfl
        · exfalso
          rcases h3 with rfl | ⟨d, ds, rfl, h5, _⟩
          · simp at h1
          · simp at h1; rw [← h1.1] at h5; exact absurd h5 (by decide)
        · simp at h1
          exact ⟨i, h1, h3, h4⟩
    · have : parseInteger (b :: t) = parseIntegerAbs (b :: t) := by funext e; simp [parseInteger, hb]
      rw [this, parseIntegerAbs_acc_iff]
      constructor
      · rintro ⟨i, h1, h2, h3⟩
        exact ⟨[], i, by simpa using h1, .inl rfl, h2, h3⟩
      · rintro ⟨m, i, h1, h2, h3, h4⟩
        rcases h2 with rfl | rfl
        · exact ⟨i, by simpa using h1, h3, h4⟩
        · simp at h1; exact absurd h1.1 hb

theorem parseExpDigits_acc_iff {s p : Bytes} :
    Acc (parseExpDigits s) p ↔ ∃ ds, s = ds ++ p ∧ Digits ds ∧ NoDigit p := by
  cases s with
  | nil =>
    constructor
    · intro h; exact absurd h (not_acc_err (c := .UnexpectedEndFragment) (by decide))
    · rintro ⟨ds, h1, h2, _⟩
      simp at h1
      exact absurd h1.1 h2.1
  | cons b t =>
    by_cases hd : isDigit b = true
    · have : parseExpDigits (b :: t) = fun e => (parseDigit (b :: t), e) := by
        funext e; simp [parseExpDigits, hd]
      rw [this]
      constructor
      · intro h
        have := acc_pure h
        obtain ⟨ds, h1, h2, h3⟩ := parseDigit_split (b :: t)
        rw [this] at h1 h3
        refine ⟨ds, h1, ⟨?_, h2⟩, h3⟩
        rintro rfl
        simp at h1
        exact h3 b (by rw [← h1]; rfl) (isDigit_iff.mp hd)
      · rintro ⟨ds, h1, h2, h3⟩ e
        rw [h1]
        simp only [parseDigit_append h2.2 h3]
    · have : parseExpDigits (b :: t) = fun e => ([], createError .InvalidNumber e) := by
        funext e; simp [parseExpDigits, hd]
      rw [this]
      constructor
      · intro h; exact absurd h (not_acc_err (by decide))
      · rintro ⟨ds, h1, h2, _⟩
        cases ds with
        | nil => exact absurd rfl h2.1
        | cons d ds =>
          simp at h1
          have := h2.2 d (by simp)
          rw [← h1.1] at this
          exact absurd (isDigit_iff.mpr this) hd

/-- `p` starts with an exponent letter. -/
def StartsExp (p : Bytes) : Prop := p.head? = some c%'e' ∨ p.head? = some c%'E'

theorem parseExp_acc_iff {s p : Bytes} :
    Acc (parseExp s) p ↔
      ∃ x, s = x ++ p ∧ RExp x ∧ (x = [] → ¬ StartsExp p) ∧ (x ≠ [] → NoDigit p) := by
  cases s with
  | nil =>
    constructor
    · intro h
      have : p = [] := (acc_pure (q := []) h).symm
      subst this
      exact ⟨[], rfl, .inl rfl, by simp [StartsExp], by simp⟩
    · rintro ⟨x, h1, h2, _⟩ e
      simp at h1
      simp [parseExp, h1.2]
  | cons b t =>
    by_cases hb : b = c%'e' ∨ b = c%'E'
    · have key : ∀ q, Acc (parseExp (b :: t)) q ↔
          (∃ u, (t = u ∨ t = c%'-' :: u ∨ t = c%'+' :: u) ∧ u.head? ≠ some c%'-' ∧ u.head? ≠ some c%'+' ∧
            Acc (parseExpDigits u) q) := by
        intro q
        cases t with
        | nil =>
          constructor
          · intro h
            have : parseExp [b] = fun e => ([], createError .UnexpectedEndFragment e) := by
              funext e; simp [parseExp, hb]
            rw [this] at h
            exact absurd h (not_acc_err (by decide))
          · rintro ⟨u, h1, h2, h3, h4⟩
            have : u = [] := by simpa using h1.symm
            subst this
            exact absurd h4 (not_acc_err (c := .UnexpectedEndFragment) (by decide))
        | cons x t =>
          by_cases hx : x = c%'-' ∨ x = c%'+'
          · have : parseExp (b :: x :: t) = parseExpDigits t := by
              funext e; simp [parseExp, hb, hx]
            rw [this]
            constructor
            · intro h
              refine ⟨t, ?_, ?_, ?_, h⟩
              · rcases hx with rfl | rfl <;> simp
              · intro hh
                obtain ⟨ds, h1, h2, _⟩ := parseExpDigits_acc_iff.mp h
                cases ds with
                | nil => exact absurd rfl h2.1
                | cons d ds =>
                  have := h2.2 d (by simp)
                  rw [h1] at hh; simp at hh; rw [hh] at this
                  exact absurd this (by decide)
              · intro hh
                obtain ⟨ds, h1, h2, _⟩ := parseExpDigits_acc_iff.mp h
                cases ds with
                | nil => exact absurd rfl h2.1
                | cons d ds =>
                  have := h2.2 d (by simp)
                  rw [h1] at hh; simp at hh; rw [hh] at this
                  exact absurd this (by decide)
            · rintro ⟨u, h1, h2, h3, h4⟩
              rcases h1 with rfl | h1 | h1
              · simp at h2 h3
                rcases hx with rfl | rfl
                · exact absurd rfl h2
                · exact absurd rfl h3
              · simp at h1; rw [h1.2]; exact h4
              · simp at h1; rw [h1.2]; exact h4
          · have : parseExp (b :: x :: t) = parseExpDigits (x :: t) := by
              funext e; simp [parseExp, hb, hx]
            rw [this]
            simp only [not_or] at hx
            constructor
            · intro h
              exact ⟨x :: t, .inl rfl, by simpa using hx.1, by simpa using hx.2, h⟩
            · rintro ⟨u, h1, h2, h3, h4⟩
              rcases h1 with rfl | h1 | h1
              · exact h4
              · simp at h1; exact absurd h1.1 hx.1
              · simp at h1; exact absurd h1.1 hx.2
      rw [key]
      constructor
      · rintro ⟨u, h1, h2, h3, h4⟩
        obtain ⟨ds, rfl, h5, h6⟩ := parseExpDigits_acc_iff.mp h4
        rcases h1 with rfl | rfl | rfl
        · exact ⟨b :: ([] ++ ds), by simp, .inr ⟨b, [], ds, rfl, hb, .inl rfl, h5⟩, by simp, fun _ => h6⟩
        · exact ⟨b :: (b!"-" ++ ds), by simp, .inr ⟨b, _, ds, rfl, hb, .inr (.inr rfl), h5⟩, by simp, fun _ => h6⟩
        · exact ⟨b :: (b!"+" ++ ds), by simp, .inr ⟨b, _, ds, rfl, hb, .inr (.inl rfl), h5⟩, by simp, fun _ => h6⟩
      · rintro ⟨x, h1, h2, h3, h4⟩
        rcases h2 with rfl | ⟨y, sg, ds, rfl, h5, h6, h7⟩
        · exfalso
          simp at h1
          refine h3 rfl ?_
          rw [← h1]
          rcases hb with rfl | rfl
          · exact .inl rfl
          · exact .inr rfl
        · simp at h1
          have hacc : Acc (parseExpDigits (ds ++ p)) p := parseExpDigits_acc_iff.mpr ⟨ds, rfl, h7, h4 (by simp)⟩
          have hne : ∀ z : Byte, ¬ Digit z → (ds ++ p).head? ≠ some z := by
            intro z hz
            cases ds with
            | nil => exact absurd rfl h7.1
            | cons d ds =>
              intro hh; simp at hh
              exact hz (hh ▸ h7.2 d (by simp))
          refine ⟨ds ++ p, ?_, hne _ (by decide), hne _ (by decide), hacc⟩
          rcases h6 with rfl | rfl | rfl
          · left; simpa using h1.2
          · right; right; simpa using h1.2
          · right; left; simpa using h1.2
    · have : parseExp (b :: t) = fun e => (b :: t, e) := by funext e; simp [parseExp, hb]
      rw [this]
      constructor
      · intro h
        have := acc_pure h
        subst this
        refine ⟨[], rfl, .inl rfl, ?_, by simp⟩
        intro _ hs
        simp only [not_or] at hb
        rcases hs with h | h <;> simp at h
        · exact hb.1 h
        · exact hb.2 h
      · rintro ⟨x, h1, h2, _⟩ e
        rcases h2 with rfl | ⟨y, sg, ds, rfl, h5, _⟩
        · simp at h1; simp [h1]
        · simp at h1; rw [← h1.1] at h5; exact absurd h5 hb

/-- Fraction and exponent part of `parse_number`. -/
def fracExp (s : Bytes) (e : EPtr) : Bytes × EPtr :=
  if (parseFrac s e).2.2 then parseExp (parseFrac s e).1 (parseFrac s e).2.1
  else ((parseFrac s e).1, (parseFrac s e).2.1)

theorem fracExp_scan (s : Bytes) : ScanAt s (fun e => fracExp s e) := parseFracExp_scan s

theorem parseNumber_eq (s : Bytes) (e : EPtr) :
    parseNumber s e = fracExp (parseInteger s e).1 (parseInteger s e).2 := rfl

theorem fracExp_acc_iff {s p : Bytes} :
    Acc (fracExp s) p ↔
      ∃ f q, s = f ++ q ∧ RFrac f ∧ Acc (parseExp q) p ∧ (f = [] → q.head? ≠ some c%'.') ∧ (f ≠ [] → NoDigit q) := by
  cases s with
  | nil =>
    have : fracExp [] = parseExp [] := by funext e; simp [fracExp, parseFrac]
    rw [this]
    constructor
    · intro h; exact ⟨[], [], rfl, .inl rfl, h, by simp, by simp⟩
    · rintro ⟨f, q, h1, _, h3, _⟩
      simp at h1
      rwa [h1.2] at h3
  | cons b t =>
    by_cases hb : b = c%'.'
    · subst hb
      cases t with
      | nil =>
        have : fracExp [c%'.'] = fun e => ([], createError .UnexpectedEndFragment e) := by
          funext e; simp [fracExp, parseFrac]
        rw [this]
        constructor
        · intro h; exact absurd h (not_acc_err (by decide))
        · rintro ⟨f, q, h1, h2, h3, h4, h5⟩
          rcases h2 with rfl | ⟨ds, rfl, h6⟩
          · simp at h1
            exact absurd (by simp [← h1]) (h4 rfl)
          · simp at h1
            exact absurd h1.1 h6.1
      | cons d t =>
        by_cases hd : isDigit d = true
        · have : fracExp (c%'.' :: d :: t) = parseExp (parseDigit (d :: t)) := by
            funext e; simp [fracExp, parseFrac, hd]
          rw [this]
          constructor
          · intro h
            obtain ⟨ds, h1, h2, h3⟩ := parseDigit_split (d :: t)
            refine ⟨c%'.' :: ds, parseDigit (d :: t), by rw [List.cons_append, ← h1], .inr ⟨ds, rfl, ?_, h2⟩, h,
              by simp, fun _ => h3⟩
            rintro rfl
            simp at h1
            exact h3 d (by rw [← h1]; rfl) (isDigit_iff.mp hd)
          · rintro ⟨f, q, h1, h2, h3, h4, h5⟩
            rcases h2 with rfl | ⟨ds, rfl, h6⟩
            · simp at h1
              exact absurd (by simp [← h1]) (h4 rfl)
            · simp only [List.cons_append, List.cons.injEq, true_and] at h1
              rw [h1, parseDigit_append h6.2 (h5 (by simp))]
              exact h3
        · have : fracExp (c%'.' :: d :: t) = fun e => ([], createError .InvalidNumber e) := by
            funext e; simp [fracExp, parseFrac, hd]
          rw [this]
          constructor
          · intro h; exact absurd h (not_acc_err (by decide))
          · rintro ⟨f, q, h1, h2, h3, h4, h5⟩
            rcases h2 with rfl | ⟨ds, rfl, h6⟩
            · simp at h1
              exact absurd (by simp [← h1]) (h4 rfl)
            · simp only [List.cons_append, List.cons.injEq, true_and] at h1
              cases ds with
              | nil => exact absurd rfl h6.1
              | cons x ds =>
                simp at h1
                have := h6.2 x (by simp)
                rw [← h1.1] at this
                exact absurd (isDigit_iff.mpr this) hd
    · have : fracExp (b :: t) = parseExp (b :: t) := by
        funext e; simp [fracExp, parseFrac, hb]
      rw [this]
      constructor
      · intro h; exact ⟨[], b :: t, rfl, .inl rfl, h, by simpa using hb, by simp⟩
      · rintro ⟨f, q, h1, h2, h3, h4, h5⟩
        rcases h2 with rfl | ⟨ds, rfl, h6⟩
        · simp at h1; rwa [← h1] at h3
        · simp at h1; exact absurd h1.1 hb

/-! ### Assembly -/

theorem rint_mem {i : Bytes} (h : RInt i) : ∀ b ∈ i, Digit b := by
  rcases h with rfl | ⟨d, ds, rfl, h1, h2⟩
  · intro b hb; simp at hb; subst hb; decide
  · intro b hb
    rcases List.mem_cons.mp hb with rfl | hb
    · exact digit_of_19 h1
    · exact h2 b hb

theorem rint_ne {i : Bytes} (h : RInt i) : i ≠ [] := by
  rcases h with rfl | ⟨d, ds, rfl, _⟩ <;> simp

theorem rminus_mem {m : Bytes} (h : RMinus m) : ∀ b ∈ m, b = c%'-' := by
  rcases h with rfl | rfl <;> simp

theorem rfrac_mem {f : Bytes} (h : RFrac f) : ∀ b ∈ f, b = c%'.' ∨ Digit b := by
  rcases h with rfl | ⟨ds, rfl, h⟩
  · simp
  · intro b hb
    rcases List.mem_cons.mp hb with rfl | hb
    · exact .inl rfl
    · exact .inr (h.2 b hb)

theorem parseNumber_acc_iff {s p : Bytes} :
    Acc (parseNumber s) p ↔ ∃ t, s = t ++ p ∧ RNumber t ∧ NumFollow t p := by
  constructor
  · intro h
    obtain ⟨q, h1, h2⟩ := Acc.bind_inv (g := parseInteger s) (k := fracExp) (parseInteger_scan s)
      (fracExp_scan []) h
    obtain ⟨m, i, rfl, hm, hi, hA⟩ := parseInteger_acc_iff.mp h1
    obtain ⟨f, r, rfl, hf, h3, hB1, hB2⟩ := fracExp_acc_iff.mp h2
    obtain ⟨x, rfl, hx, hC1, hC2⟩ := parseExp_acc_iff.mp h3
    refine ⟨m ++ i ++ f ++ x, by simp, ⟨m, i, f, x, rfl, hm, hi, hf, hx⟩, ?_⟩
    intro b hb
    refine ⟨fun hd => ?_, fun hd => ?_, fun hd => ?_⟩
    · have hx0 : x = [] := Decidable.byContradiction fun hne => hC2 hne b hb hd
      subst hx0
      have hf0 : f = [] := Decidable.byContradiction fun hne => hB2 hne b (by simpa using hb) hd
      subst hf0
      have hi0 : i = b!"0" := by
        rcases hA with h | h
        · exact h
        · exact absurd hd (h b (by simpa using hb))
      subst hi0
      rcases hm with rfl | rfl
      · left; rfl
      · right; rfl
    · subst hd
      rcases hf with rfl | ⟨ds, rfl, hds⟩
      · rcases hx with rfl | ⟨y, sg, ds, rfl, hy, _⟩
        · exact absurd hb (by simpa using hB1 rfl)
        · rcases hy with rfl | rfl
          · right; left; simp
          · right; right; simp
      · left; simp
    · rcases hx with rfl | ⟨y, sg, ds, rfl, hy, _⟩
      · exfalso
        refine hC1 rfl ?_
        rcases hd with rfl | rfl
        · exact .inl hb
        · exact .inr hb
      · rcases hy with rfl | rfl
        · left; simp
        · right; simp
  · rintro ⟨t, rfl, ⟨m, i, f, x, rfl, hm, hi, hf, hx⟩, hfol⟩
    have hmi : ∀ b ∈ m ++ i, b = c%'-' ∨ Digit b := by
      intro b hb
      rcases List.mem_append.mp hb with hb | hb
      · exact .inl (rminus_mem hm b hb)
      · exact .inr (rint_mem hi b hb)
    have hdot : ∀ z ∈ f, z ≠ c%'e' ∧ z ≠ c%'E' := by
      intro z hz
      rcases rfrac_mem hf z hz with rfl | h
      · decide
      · refine ⟨?_, ?_⟩ <;> rintro rfl <;> exact absurd h (by decide)
    have hmi2 : ∀ z ∈ m ++ i, z ≠ c%'e' ∧ z ≠ c%'E' ∧ z ≠ c%'.' := by
      intro z hz
      rcases hmi z hz with rfl | h
      · decide
      · refine ⟨?_, ?_, ?_⟩ <;> rintro rfl <;> exact absurd h (by decide)
    have hi_mem : ∀ z, z ∈ b!"0" ∨ z ∈ b!"-0" → z ≠ c%'.' ∧ z ≠ c%'e' ∧ z ≠ c%'E' := by
      intro z hz
      have : z = c%'0' ∨ z = c%'-' := by
        simp only [List.mem_cons, List.not_mem_nil, or_false] at hz
        rcases hz with h | h | h <;> simp [h]
      rcases this with rfl | rfl <;> decide
    have hC1 : x = [] → ¬ StartsExp p := by
      rintro rfl hs
      have hz : ∀ z, z = c%'e' ∨ z = c%'E' → z ∉ m ++ i ++ f ++ [] := by
        intro z hz hmem
        simp only [List.append_nil] at hmem
        rcases List.mem_append.mp hmem with hmem | hmem
        · rcases hz with rfl | rfl
          · exact (hmi2 _ hmem).1 rfl
          · exact (hmi2 _ hmem).2.1 rfl
        · rcases hz with rfl | rfl
          · exact (hdot _ hmem).1 rfl
          · exact (hdot _ hmem).2 rfl
      have hb : ∃ b, p.head? = some b ∧ (b = c%'e' ∨ b = c%'E') := by
        rcases hs with h | h
        · exact ⟨_, h, .inl rfl⟩
        · exact ⟨_, h, .inr rfl⟩
      obtain ⟨b, hb1, hb2⟩ := hb
      rcases (hfol b hb1).2.2 hb2 with h | h
      · exact hz _ (.inl rfl) h
      · exact hz _ (.inr rfl) h
    have hC2 : x ≠ [] → NoDigit p := by
      intro hne b hb hd
      rcases hx with rfl | ⟨y, sg, ds, rfl, hy, _⟩
      · exact hne rfl
      · have h0 := (hfol b hb).1 hd
        have : y ∈ b!"0" ∨ y ∈ b!"-0" := by
          rcases h0 with h | h
          · left; rw [← h]; simp
          · right; rw [← h]; simp
        have := hi_mem y this
        rcases hy with rfl | rfl
        · exact this.2.1 rfl
        · exact this.2.2 rfl
    have hexp : Acc (parseExp (x ++ p)) p := parseExp_acc_iff.mpr ⟨x, rfl, hx, hC1, hC2⟩
    have hB1 : f = [] → (x ++ p).head? ≠ some c%'.' := by
      rintro rfl hh
      rcases hx with rfl | ⟨y, sg, ds, rfl, hy, _⟩
      · simp only [List.nil_append] at hh
        have := (hfol _ hh).2.1 rfl
        simp only [List.append_nil] at this
        rcases this with h | h | h
        · exact (hmi2 _ h).2.2 rfl
        · exact (hmi2 _ h).1 rfl
        · exact (hmi2 _ h).2.1 rfl
      · simp at hh
        subst hh
        revert hy; decide
    have hB2 : f ≠ [] → NoDigit (x ++ p) := by
      intro hne b hb hd
      rcases hx with rfl | ⟨y, sg, ds, rfl, hy, _⟩
      · simp only [List.nil_append] at hb
        rcases hf with rfl | ⟨ds, rfl, hds⟩
        · exact hne rfl
        · have h0 := (hfol b hb).1 hd
          have : c%'.' ∈ b!"0" ∨ c%'.' ∈ b!"-0" := by
            rcases h0 with h | h
            · left; rw [← h]; simp
            · right; rw [← h]; simp
          exact (hi_mem _ this).1 rfl
      · simp at hb
        subst hb
        rcases hy with rfl | rfl <;> exact absurd hd (by decide)
    have hfe : Acc (fracExp (f ++ (x ++ p))) p :=
      fracExp_acc_iff.mpr ⟨f, x ++ p, rfl, hf, hexp, hB1, hB2⟩
    have hA : i = b!"0" ∨ NoDigit (f ++ (x ++ p)) := by
      by_cases h0 : i = b!"0"
      · exact .inl h0
      · right
        intro b hb hd
        rcases hf with rfl | ⟨ds, rfl, hds⟩
        · rcases hx with rfl | ⟨y, sg, ds, rfl, hy, _⟩
          · simp only [List.nil_append] at hb
            have := (hfol b hb).1 hd
            simp only [List.append_nil] at this
            rcases hm with rfl | rfl
            · rcases this with h | h
              · exact h0 (by simpa using h)
              · have := rint_mem hi c%'-' (by rw [show i = b!"-0" by simpa using h]; simp)
                exact absurd this (by decide)
            · rcases this with h | h
              · simp at h
              · exact h0 (by simpa using h)
          · simp at hb
            subst hb
            rcases hy with rfl | rfl <;> exact absurd hd (by decide)
        · simp at hb
          subst hb
          exact absurd hd (by decide)
    have hint : Acc (parseInteger (m ++ i ++ (f ++ (x ++ p)))) (f ++ (x ++ p)) :=
      parseInteger_acc_iff.mpr ⟨m, i, rfl, hm, hi, hA⟩
    have : m ++ i ++ f ++ x ++ p = m ++ i ++ (f ++ (x ++ p)) := by simp
    rw [this]
    exact Acc.bind (g := parseInteger _) (k := fracExp) hint hfe

/-- A delimiter can follow every number. -/
theorem Spec.Delim.numFollow {rest : Bytes} (h : Delim rest) (t : Bytes) : NumFollow t rest := by
  intro b hb
  obtain ⟨h1, h2, h3, h4⟩ := h b hb
  refine ⟨fun hd => absurd hd h1, fun hd => absurd hd h2, fun hd => ?_⟩
  rcases hd with hd | hd
  · exact absurd hd h3
  · exact absurd hd h4

/-- The first byte of a number. -/
theorem rnumber_head {t : Bytes} (h : RNumber t) : ∃ b u, t = b :: u ∧ (b = c%'-' ∨ Digit b) := by
  obtain ⟨m, i, f, x, rfl, hm, hi, _, _⟩ := h
  rcases hm with rfl | rfl
  · cases i with
    | nil => exact absurd rfl (rint_ne hi)
    | cons d ds => exact ⟨d, ds ++ (f ++ x), by simp, .inr (rint_mem hi d (by simp))⟩
  · exact ⟨c%'-', i ++ (f ++ x), by simp, .inl rfl⟩

end Wjson
