import Verif.Model.Parser
import Verif.Model.Despace
/-
Common shape of all parser functions: the returned position does not depend on
the error argument, and the error argument changes only by `create_error`.
-/
namespace Wjson

@[simp] theorem createError_null (c : Code) (m : Option Bytes) (t : Int) :
    createError c .null m t = .null := rfl

theorem createError_of_failed {c : Code} {m : Option Bytes} {t : Int} {e : EPtr} (h : e.failed = true) :
    createError c e m t = e := by
  cases e with
  | null => rfl
  | obj x => simp [EPtr.failed] at h; simp [createError, h]

/-- Apply an optional error event to an error pointer. -/
def applyErr (e : EPtr) : Option JError → EPtr
  | none => e
  | some x => createError x.code e x.expectedOf x.tailOf

@[simp] theorem applyErr_none (e : EPtr) : applyErr e none = e := rfl

theorem applyErr_createError (c : Code) (e : EPtr) (m : Option Bytes) (t : Int) :
    createError c e m t = applyErr e (some ⟨c, m, t⟩) := rfl

theorem status_mk {c : Code} (hc : c ≠ .ValidJSON) (m : Option Bytes) (t : Int) :
    (JError.mk c m t).status = true := by simp [JError.status, hc]

theorem applyErr_applyErr (e : EPtr) (x : JError) (hx : x.code ≠ .ValidJSON) (y : Option JError) :
    applyErr (applyErr e (some x)) y = applyErr e (some x) := by
  cases y with
  | none => rfl
  | some y =>
    cases e with
    | null => rfl
    | obj z =>
      by_cases hz : z.status = true
      · simp [applyErr, createError, hz]
      · have hs : (JError.mk x.code x.expectedOf x.tailOf).status = true := status_mk hx _ _
        simp [applyErr, createError, hz, hs]

/-- What is known about the outcome (position `p`, event `ev`) of a scan of `s`. -/
structure Good (s p : Bytes) (ev : Option JError) : Prop where
  suffix : p <:+ s
  err : ∀ x, ev = some x → x.code ≠ .ValidJSON ∧ p = [] ∧ 0 ≤ x.tailOf ∧ x.tailOf ≤ (s.length : Int)

/-- The scan `g` of the text `s` (as a function of the error argument) has one
position and one error event. -/
def ScanAt (s : Bytes) (g : EPtr → Bytes × EPtr) : Prop :=
  ∃ p ev, (∀ e, g e = (p, applyErr e ev)) ∧ Good s p ev

theorem ScanAt.ok (s p : Bytes) (h : p <:+ s) : ScanAt s (fun e => (p, e)) :=
  ⟨p, none, fun _ => rfl, h, by simp⟩

theorem ScanAt.err (s : Bytes) (c : Code) (m : Option Bytes) (t : Int) (hc : c ≠ .ValidJSON)
    (h0 : 0 ≤ t) (h1 : t ≤ (s.length : Int)) : ScanAt s (fun e => ([], createError c e m t)) :=
  ⟨[], some ⟨c, m, t⟩, fun _ => rfl, List.nil_suffix, by
    intro x hx; cases hx; exact ⟨hc, rfl, h0, h1⟩⟩

theorem Good.trans {s p q : Bytes} {ev : Option JError} (h : p <:+ s) (hg : Good p q ev) : Good s q ev :=
  ⟨hg.suffix.trans h, fun x hx => by
    have := hg.err x hx
    have hl := h.length_le
    refine ⟨this.1, this.2.1, this.2.2.1, ?_⟩
    omega⟩

theorem ScanAt.mono {s p : Bytes} {g : EPtr → Bytes × EPtr} (h : p <:+ s) (hg : ScanAt p g) : ScanAt s g := by
  obtain ⟨q, ev, h1, h2⟩ := hg
  exact ⟨q, ev, h1, h2.trans h⟩

/-- Sequential composition. -/
theorem ScanAt.bind' {s : Bytes} {g : EPtr → Bytes × EPtr} {k : Bytes → EPtr → Bytes × EPtr}
    (hg : ScanAt s g) (hk : ∀ e, ScanAt (g e).1 (k (g e).1)) :
    ScanAt s (fun e => k (g e).1 (g e).2) := by
  obtain ⟨p, ev, h1, h2⟩ := hg
  have hk' := hk .null
  rw [h1] at hk'
  obtain ⟨q, ev', h3, h4⟩ := hk'
  simp only at h3 h4
  cases ev with
  | none =>
    refine ⟨q, ev', fun e => ?_, h4.trans h2.suffix⟩
    simp [h1, h3]
  | some x =>
    have hx := h2.err x rfl
    have hp : p = [] := hx.2.1
    subst hp
    have hq : q = [] := by simpa using h4.suffix
    refine ⟨q, some x, fun e => ?_, List.nil_suffix.trans h2.suffix |> fun h => ⟨hq ▸ h, ?_⟩⟩
    · simp only [h1, h3]
      rw [applyErr_applyErr _ _ hx.1]
    · intro y hy; cases hy; exact ⟨hx.1, hq, hx.2.2⟩

theorem ScanAt.bind {s : Bytes} {g : EPtr → Bytes × EPtr} {k : Bytes → EPtr → Bytes × EPtr}
    (hg : ScanAt s g) (hk : ∀ p, p <:+ s → ScanAt p (k p)) :
    ScanAt s (fun e => k (g e).1 (g e).2) := by
  refine hg.bind' (fun e => hk _ ?_)
  obtain ⟨p, ev, h1, h2⟩ := hg
  rw [h1]; exact h2.suffix

theorem ScanAt.suffix {s : Bytes} {g : EPtr → Bytes × EPtr} (h : ScanAt s g) (e : EPtr) : (g e).1 <:+ s := by
  obtain ⟨p, ev, h1, h2⟩ := h
  rw [h1]; exact h2.suffix

theorem ScanAt.ite {s : Bytes} {P : Prop} [Decidable P] {g1 g2 : EPtr → Bytes × EPtr}
    (h1 : P → ScanAt s g1) (h2 : ¬P → ScanAt s g2) : ScanAt s (fun e => if P then g1 e else g2 e) := by
  by_cases h : P
  · simpa [h] using h1 h
  · simpa [h] using h2 h

theorem suffix_cons (b : Byte) (t : Bytes) : t <:+ b :: t := List.suffix_cons b t

theorem suffix_of_cons {b : Byte} {t s : Bytes} (h : b :: t <:+ s) : t <:+ s :=
  (suffix_cons b t).trans h

/-! ### Scanners -/

theorem spaceLoop_scan (st : Bool) (s : Bytes) : ScanAt s (fun e => spaceLoop st s e) := by
  induction s generalizing st with
  | nil =>
    cases st
    · exact ScanAt.ok [] [] (List.suffix_refl _)
    · exact ScanAt.err [] _ _ _ (by decide) (by simp <;> omega) (by simp <;> omega)
  | cons b t ih =>
    have hs := suffix_cons b t
    cases st
    · simp only [spaceLoop]
      refine ScanAt.ite (fun _ => ?_) (fun _ => ?_)
      · exact (ih _).mono hs
      · refine ScanAt.ite (fun _ => ?_) (fun _ => ?_)
        · refine ScanAt.ite (fun _ => ?_) (fun _ => ?_) <;> exact (ih _).mono hs
        · exact ScanAt.ok _ _ (List.suffix_refl _)
    · simp only [spaceLoop]
      refine ScanAt.ite (fun _ => ?_) (fun _ => ?_)
      · refine ScanAt.ite (fun _ => ?_) (fun _ => ?_) <;> exact (ih _).mono hs
      · exact (ih _).mono hs

theorem parseSpace_scan (s : Bytes) : ScanAt s (parseSpace s) := spaceLoop_scan false s

theorem litRest_scan (lit xs : Bytes) (p : Nat) (s0 s : Bytes) (h : s.length + p ≤ s0.length)
    (hs : s <:+ s0) : ScanAt s0 (fun e => litRest lit xs p s e) := by
  induction xs generalizing p s with
  | nil => simp only [litRest]; exact ScanAt.ok _ _ hs
  | cons x xs ih =>
    cases s with
    | nil => simp only [litRest]; exact ScanAt.err _ _ _ _ (by decide) (by simp <;> omega) (by simp <;> omega)
    | cons b t =>
      simp only [litRest]
      refine ScanAt.ite (fun _ => ?_) (fun _ => ?_)
      · exact ih _ _ (by simp at h; omega) (suffix_of_cons hs)
      · exact ScanAt.err _ _ _ _ (by decide) (by omega) (by omega)

theorem parseNull_scan (s : Bytes) : ScanAt s (fun e => parseNull s e) := by
  cases s with
  | nil => exact ScanAt.err _ _ _ _ (by decide) (by simp <;> omega) (by simp <;> omega)
  | cons b t =>
    simp only [parseNull]
    refine ScanAt.ite (fun _ => ?_) (fun _ => ?_)
    · exact litRest_scan _ _ _ _ _ (by simp) (suffix_cons _ _)
    · exact ScanAt.err _ _ _ _ (by decide) (by omega) (by omega)

theorem parseBool_scan (s : Bytes) : ScanAt s (fun e => parseBool s e) := by
  cases s with
  | nil => exact ScanAt.err _ _ _ _ (by decide) (by simp <;> omega) (by simp <;> omega)
  | cons b t =>
    simp only [parseBool]
    refine ScanAt.ite (fun _ => ?_) (fun _ => ?_)
    · exact litRest_scan _ _ _ _ _ (by simp) (suffix_cons _ _)
    · refine ScanAt.ite (fun _ => ?_) (fun _ => ?_)
      · exact litRest_scan _ _ _ _ _ (by simp) (suffix_cons _ _)
      · exact ScanAt.err _ _ _ _ (by decide) (by omega) (by omega)

theorem parseDigit_suffix (s : Bytes) : parseDigit s <:+ s := by
  induction s with
  | nil => simp [parseDigit]
  | cons b t ih =>
    simp only [parseDigit]
    split
    · exact ih.trans (suffix_cons _ _)
    · exact List.suffix_refl _

theorem parseIntegerAbs_scan (s : Bytes) : ScanAt s (fun e => parseIntegerAbs s e) := by
  cases s with
  | nil => exact ScanAt.err _ _ _ _ (by decide) (by simp <;> omega) (by simp <;> omega)
  | cons b t =>
    simp only [parseIntegerAbs]
    refine ScanAt.ite (fun _ => ?_) (fun _ => ?_)
    · exact ScanAt.ok _ _ (suffix_cons _ _)
    · refine ScanAt.ite (fun _ => ?_) (fun _ => ?_)
      · exact ScanAt.ok _ _ (parseDigit_suffix _)
      · exact ScanAt.err _ _ _ _ (by decide) (by omega) (by omega)

theorem parseInteger_scan (s : Bytes) : ScanAt s (fun e => parseInteger s e) := by
  cases s with
  | nil => exact ScanAt.err _ _ _ _ (by decide) (by simp <;> omega) (by simp <;> omega)
  | cons b t =>
    simp only [parseInteger]
    refine ScanAt.ite (fun _ => ?_) (fun _ => ?_)
    · exact (parseIntegerAbs_scan t).mono (suffix_cons _ _)
    · exact parseIntegerAbs_scan _

theorem parseExpDigits_scan (s : Bytes) : ScanAt s (fun e => parseExpDigits s e) := by
  cases s with
  | nil => exact ScanAt.err _ _ _ _ (by decide) (by simp <;> omega) (by simp <;> omega)
  | cons b t =>
    simp only [parseExpDigits]
    refine ScanAt.ite (fun _ => ?_) (fun _ => ?_)
    · exact ScanAt.ok _ _ (parseDigit_suffix _)
    · exact ScanAt.err _ _ _ _ (by decide) (by omega) (by omega)

theorem parseExp_scan (s : Bytes) : ScanAt s (fun e => parseExp s e) := by
  cases s with
  | nil => exact ScanAt.ok _ _ (List.suffix_refl _)
  | cons b t =>
    cases t with
    | nil =>
      simp only [parseExp]
      refine ScanAt.ite (fun _ => ?_) (fun _ => ?_)
      · exact ScanAt.err _ _ _ _ (by decide) (by omega) (by omega)
      · exact ScanAt.ok _ _ (List.suffix_refl _)
    | cons x t =>
      have h1 := suffix_cons b (x :: t)
      simp only [parseExp]
      refine ScanAt.ite (fun _ => ?_) (fun _ => ?_)
      · refine ScanAt.ite (fun _ => ?_) (fun _ => ?_)
        · exact (parseExpDigits_scan t).mono (suffix_of_cons h1)
        · exact (parseExpDigits_scan _).mono h1
      · exact ScanAt.ok _ _ (List.suffix_refl _)

/-- Fraction followed by exponent. -/
theorem parseFracExp_scan (s : Bytes) : ScanAt s (fun e =>
    if (parseFrac s e).2.2 then parseExp (parseFrac s e).1 (parseFrac s e).2.1
    else ((parseFrac s e).1, (parseFrac s e).2.1)) := by
  cases s with
  | nil => simp only [parseFrac, ite_true]; exact parseExp_scan []
  | cons b t =>
    by_cases hb : b = c%'.'
    · cases t with
      | nil =>
        simp only [parseFrac, hb, ite_true]
        exact ScanAt.err _ _ _ _ (by decide) (by simp <;> omega) (by simp <;> omega)
      | cons d t =>
        have h1 := suffix_cons b (d :: t)
        by_cases hd : isDigit d = true
        · simp only [parseFrac, hb, hd, ite_true]
          rw [hb] at h1
          exact (parseExp_scan _).mono ((parseDigit_suffix _).trans h1)
        · simp only [parseFrac, hb, hd, ite_true]
          exact ScanAt.err _ _ _ _ (by decide) (by omega) (by omega)
    · simp only [parseFrac, hb, ite_true, ite_false]
      exact parseExp_scan _

theorem parseNumber_scan (s : Bytes) : ScanAt s (parseNumber s) :=
  ScanAt.bind (g := parseInteger s) (k := fun s e =>
    if (parseFrac s e).2.2 then parseExp (parseFrac s e).1 (parseFrac s e).2.1
    else ((parseFrac s e).1, (parseFrac s e).2.1))
    (parseInteger_scan s) (fun p _ => parseFracExp_scan p)

theorem parseHexN_scan (n : Nat) (s : Bytes) : ScanAt s (fun e => parseHexN n s e) := by
  induction n generalizing s with
  | zero => simp only [parseHexN]; exact ScanAt.ok _ _ (List.suffix_refl _)
  | succ n ih =>
    cases s with
    | nil => exact ScanAt.err _ _ _ _ (by decide) (by simp <;> omega) (by simp <;> omega)
    | cons b t =>
      simp only [parseHexN]
      refine ScanAt.ite (fun _ => ?_) (fun _ => ?_)
      · exact (ih t).mono (suffix_cons _ _)
      · exact ScanAt.err _ _ _ _ (by decide) (by simp <;> omega) (by simp <;> omega)

theorem parseHex_scan (s : Bytes) : ScanAt s (parseHex s) := parseHexN_scan 4 s

theorem parseUtf8Part_scan (n : Nat) (s : Bytes) : ScanAt s (fun e => parseUtf8Part n s e) := by
  induction n generalizing s with
  | zero => simp only [parseUtf8Part]; exact ScanAt.ok _ _ (List.suffix_refl _)
  | succ n ih =>
    cases s with
    | nil => exact ScanAt.err _ _ _ _ (by decide) (by simp <;> omega) (by simp <;> omega)
    | cons b t =>
      simp only [parseUtf8Part]
      refine ScanAt.ite (fun _ => ?_) (fun _ => ?_)
      · exact ScanAt.err _ _ _ _ (by decide) (by simp <;> omega) (by simp <;> omega)
      · exact (ih t).mono (suffix_cons _ _)

theorem parseUtf8Ne_scan (b : Byte) (t : Bytes) : ScanAt (b :: t) (fun e => parseUtf8Ne b t e) := by
  simp only [parseUtf8Ne]
  split
  · exact (parseUtf8Part_scan _ t).mono (suffix_cons _ _)
  · exact ScanAt.err _ _ _ _ (by decide) (by simp <;> omega) (by simp <;> omega)

theorem parseUtf8Ne_pos_suffix (b : Byte) (t : Bytes) (e : EPtr) : (parseUtf8Ne b t e).1 <:+ t := by
  simp only [parseUtf8Ne]
  split
  · exact (parseUtf8Part_scan _ t).suffix e
  · exact List.nil_suffix

theorem strLoop_nil (e : EPtr) : strLoop [] e = ([], createError .UnexpectedEndFragment e) := by
  rw [strLoop.eq_def]

theorem strLoop_quote (t : Bytes) (e : EPtr) : strLoop (c%'"' :: t) e = (t, e) := by
  rw [strLoop.eq_def]; simp

theorem strLoop_esc_nil (e : EPtr) : strLoop [c%'\\'] e = ([], createError .UnexpectedEndFragment e) := by
  rw [strLoop.eq_def]; simp

theorem strLoop_esc_bad {x : Byte} (h : isEsc x = false) (t : Bytes) (e : EPtr) :
    strLoop (c%'\\' :: x :: t) e = ([], createError .InvalidString e none ((x :: t).length : Nat)) := by
  rw [strLoop.eq_def]; simp [h]

theorem strLoop_esc_u (t : Bytes) (e : EPtr) :
    strLoop (c%'\\' :: c%'u' :: t) e = strLoop (parseHex t e).1 (parseHex t e).2 := by
  rw [strLoop.eq_def]; simp [isEsc]

theorem strLoop_esc {x : Byte} (h : isEsc x = true) (hu : x ≠ c%'u') (t : Bytes) (e : EPtr) :
    strLoop (c%'\\' :: x :: t) e = strLoop t e := by
  rw [strLoop.eq_def]; simp [h, hu]

theorem strLoop_utf8 {b : Byte} (h1 : b ≠ c%'"') (h2 : b ≠ c%'\\') (t : Bytes) (e : EPtr) :
    strLoop (b :: t) e = strLoop (parseUtf8Ne b t e).1 (parseUtf8Ne b t e).2 := by
  rw [strLoop.eq_def]; simp [h1, h2]

theorem strLoop_scan (s : Bytes) : ScanAt s (fun e => strLoop s e) := by
  induction h : s.length using Nat.strongRecOn generalizing s with
  | ind n ih =>
    subst h
    cases s with
    | nil =>
      simp only [strLoop_nil]
      exact ScanAt.err _ _ _ _ (by decide) (by simp) (by simp)
    | cons b t =>
      have hs := suffix_cons b t
      by_cases hq : b = c%'"'
      · subst hq
        simp only [strLoop_quote]
        exact ScanAt.ok _ _ hs
      · by_cases hb : b = c%'\\'
        · subst hb
          cases t with
          | nil =>
            simp only [strLoop_esc_nil]
            exact ScanAt.err _ _ _ _ (by decide) (by simp) (by simp)
          | cons x t =>
            by_cases hx : isEsc x = true
            · by_cases hu : x = c%'u'
              · subst hu
                simp only [strLoop_esc_u]
                have hst : t <:+ c%'\\' :: c%'u' :: t := suffix_of_cons hs
                refine ScanAt.bind' (g := parseHex t) (k := strLoop) ((parseHex_scan t).mono hst) ?_
                intro e
                refine ih _ ?_ _ rfl
                have := parseHexN_length 4 t e
                simp only [parseHex, List.length_cons]; omega
              · simp only [strLoop_esc hx hu]
                exact (ih _ (by simp; omega) _ rfl).mono (suffix_of_cons hs)
            · simp only [strLoop_esc_bad (by simpa using hx)]
              exact ScanAt.err _ _ _ _ (by decide) (by omega) (by simp; omega)
        · simp only [strLoop_utf8 hq hb]
          refine ScanAt.bind' (g := parseUtf8Ne b t) (k := strLoop) (parseUtf8Ne_scan b t) ?_
          intro e
          refine ih _ ?_ _ rfl
          have := parseUtf8Ne_length b t e
          simp only [List.length_cons]; omega

theorem parseString_scan (s : Bytes) : ScanAt s (fun e => parseString s e) := by
  cases s with
  | nil => exact ScanAt.err _ _ _ _ (by decide) (by simp <;> omega) (by simp <;> omega)
  | cons b t =>
    simp only [parseString]
    refine ScanAt.ite (fun _ => ?_) (fun _ => ?_)
    · exact ScanAt.err _ _ _ _ (by decide) (by simp <;> omega) (by simp <;> omega)
    · exact (strLoop_scan t).mono (suffix_cons _ _)

theorem closeWith_scan (cl : Byte) (s : Bytes) : ScanAt s (fun e => closeWith cl s e) := by
  cases s with
  | nil => exact ScanAt.err _ _ _ _ (by decide) (by simp <;> omega) (by simp <;> omega)
  | cons b t =>
    simp only [closeWith]
    refine ScanAt.ite (fun _ => ?_) (fun _ => ?_)
    · exact ScanAt.err _ _ _ _ (by decide) (by simp <;> omega) (by simp <;> omega)
    · exact ScanAt.ok _ _ (suffix_cons _ _)

theorem despaceTok_scan (s : Bytes) : ScanAt s (fun e => despaceTok s e) := by
  simp only [despaceTok]
  refine ScanAt.ite (fun _ => ?_) (fun _ => ?_)
  · exact parseString_scan s
  · refine ScanAt.ite (fun _ => ?_) (fun _ => ?_)
    · exact parseNumber_scan s
    · refine ScanAt.ite (fun _ => ?_) (fun _ => ?_)
      · exact parseBool_scan s
      · refine ScanAt.ite (fun _ => ?_) (fun _ => ?_)
        · exact parseNull_scan s
        · exact ScanAt.ok _ _ (List.tail_suffix s)

end Wjson
