import Verif.Proofs.Composite
import Verif.Proofs.ExactFlags
/-
Helper lemmas for C76: flags.
-/
namespace Wjson
open Spec

variable {w : Nat} {L : List (Bytes × BitVec w)} {strict : Bool} {sep : Byte} {c : Cfg}

theorem Spec.Skips.unique {s a b : Bytes} (h : Skips s a) (h' : Skips s b) : a = b := by
  have := (h.run .fresh).symm.trans (h'.run .fresh)
  simpa using this

theorem Spec.Skips.stop {s a : Bytes} (h : Skips s a) : NoGap a := by
  obtain ⟨g, _, _, h⟩ := h
  exact h

theorem Spec.Skips.of_stop {s : Bytes} (h : NoGap s) : Skips s s := ⟨[], rfl, ⟨.nil, by simp⟩, h⟩

theorem Spec.Skips.idem {s a : Bytes} (h : Skips s a) : Skips a a := .of_stop h.stop

theorem Spec.Skips.suffix {s a : Bytes} (h : Skips s a) : a <:+ s := by
  obtain ⟨g, rfl, _⟩ := h
  exact List.suffix_append _ _

theorem Spec.Skips.not_open {s a : Bytes} (h : Skips s a) (ho : OpenComment s) : False := by
  have := (h.run .fresh).symm.trans (ho.run .fresh)
  simp [createError, EPtr.fresh, JError.status] at this

theorem Spec.Cut.of_skips {s a : Bytes} {x : JError} (h : Skips s a) : Cut s x ↔ Cut a x := by
  constructor
  · intro hc
    cases hc with
    | fin h' => rw [h.unique h']; exact .fin (.of_stop (by intro b hb; simp at hb))
    | comment h' => exact (h.not_open h').elim
  · intro hc
    cases hc with
    | fin h' => rw [h.idem.unique h'] at h; exact .fin h
    | comment h' => exact (h.idem.not_open h').elim

theorem cut_nil {x : JError} : Cut [] x ↔ x = endErr := by
  have h : Skips [] [] := .of_stop (by intro b hb; simp at hb)
  constructor
  · intro hc
    cases hc with
    | fin _ => rfl
    | comment h' => exact (h.not_open h').elim
  · rintro rfl
    exact .fin h

theorem cut_open {s : Bytes} {x : JError} (h : OpenComment s) : Cut s x ↔ x = commentErr := by
  constructor
  · intro hc
    cases hc with
    | fin h' => exact (h'.not_open h).elim
    | comment _ => rfl
  · rintro rfl
    exact .comment h

theorem not_cut {b : Byte} {p : Bytes} {x : JError} (h : NoGap (b :: p)) : ¬ Cut (b :: p) x := by
  intro hc
  have hs := Skips.of_stop h
  cases hc with
  | fin h' => exact absurd (hs.unique h') (by simp)
  | comment h' => exact hs.not_open h'

/-- A table that begins with white space. -/
structure SpaceTable (T : Bytes → JError → Prop) : Prop where
  skip : ∀ {s s' : Bytes}, Skips s s' → ∀ x, T s x ↔ T s' x
  comment : ∀ {s : Bytes}, OpenComment s → ∀ x, T s x ↔ x = commentErr
  fin : ∀ x, T [] x ↔ x = endErr

theorem space_told {T : Bytes → JError → Prop} (hT : SpaceTable T) {q q1 : Bytes} {e1 : EPtr} (h : parseSpace q .fresh = (q1, e1)) :
    (e1 = .fresh ∧ Skips q q1 ∧ ∀ x, T q x ↔ T q1 x) ∨ (e1 = .obj commentErr ∧ q1 = [] ∧ ∀ x, T q x ↔ x = commentErr) := by
  rcases space_cases q with ⟨s', hs⟩ | ho
  · rw [hs.run] at h
    cases h
    exact .inl ⟨rfl, hs, hT.skip hs⟩
  · rw [ho.run] at h
    cases h
    exact .inr ⟨rfl, rfl, hT.comment ho⟩

/-- What a pass over the list of names tells. -/
def FlagTold (T : Bytes → JError → Prop) (s : Bytes) (ready : Bool) (p : Bytes) (e : EPtr) : Prop :=
  (e = .fresh ∧ (∀ x, T s x ↔ T p x) ∧ p <:+ s ∧ (ready = false → p.length = s.length → ∀ x, T s x ↔ x = errAt .InvalidEnum s)) ∨
  ∃ x : JError, x.code ≠ .ValidJSON ∧ e = .obj x ∧ ∀ x', T s x' ↔ x' = x

/-- Going on from a shorter text with the same errors. -/
theorem FlagTold.from {T : Bytes → JError → Prop} {s s1 p : Bytes} {ready ready' : Bool} {e : EPtr} (h : FlagTold T s1 ready' p e)
    (hs : ∀ x, T s x ↔ T s1 x) (hsuf : s1 <:+ s) (hlt : s1.length < s.length) : FlagTold T s ready p e := by
  rcases h with ⟨rfl, h1, h2, h3⟩ | ⟨x, h1, rfl, h2⟩
  · refine .inl ⟨rfl, fun x => (hs x).trans (h1 x), h2.trans hsuf, fun _ hl => ?_⟩
    have := h2.length_le
    omega
  · exact .inr ⟨x, h1, rfl, fun x' => (hs x').trans (h2 x')⟩

theorem commentErr_code : commentErr.code ≠ .ValidJSON := by simp [commentErr]

/-! ### The loop -/

theorem flagLoopF_kept {F : Flags w} {arr : Bool} {n : Nat} {v v1 : BitVec w} {s p : Bytes} {e e1 : EPtr} (hn : s.length < n)
    (he : e.failed = true) (h : flagLoopF c F arr n v s e = .ok (v1, p, e1)) : e1 = e := by
  obtain ⟨_, m, h2⟩ := SafeOut.step (flagLoopF_safe c F arr n v s e hn) h
  exact h2.of_failed he

theorem flagLoop_told {F : Flags w} {arr : Bool} {T : Bytes → JError → Prop} (hnil : ∀ x, T [] x ↔ x = endErr)
    (hclose : ∀ p x, ¬ T ((if arr then c%']' else c%'"') :: p) x)
    (hone : ∀ {v v1 : BitVec w} {s p : Bytes} {e : EPtr}, s ≠ [] → s.head? ≠ some (if arr then c%']' else c%'"') →
      flagOne c F arr v s .fresh = .ok (v1, p, e) → FlagTold T s false p e)
    {n : Nat} {v v1 : BitVec w} {s p : Bytes} {e : EPtr} (hn : s.length < n)
    (h : flagLoopF c F arr n v s .fresh = .ok (v1, p, e)) :
    (e = .fresh ∧ s = [] ∧ p = []) ∨ (e = .fresh ∧ (∀ x, ¬ T s x) ∧ ∃ q, p = (if arr then c%']' else c%'"') :: q) ∨
      ∃ x : JError, x.code ≠ .ValidJSON ∧ e = .obj x ∧ ∀ x', T s x' ↔ x' = x := by
  induction n generalizing v s with
  | zero => omega
  | succ n ih =>
    simp only [flagLoopF] at h
    cases s with
    | nil => cases h; exact .inl ⟨rfl, rfl, rfl⟩
    | cons b q =>
      simp only at h
      by_cases hb : b = (if arr then c%']' else c%'"')
      · rw [if_pos hb] at h
        cases h
        exact .inr (.inl ⟨rfl, by rw [hb]; exact hclose q, q, by rw [hb]⟩)
      · rw [if_neg hb] at h
        obtain ⟨⟨v2, p2, e2⟩, ho, h⟩ := Out.bind_eq_ok.mp h
        simp only at h
        have hsuf := (SafeOut.step (flagOne_safe c F arr v (b :: q) .fresh) ho).1
        have hle := hsuf.length_le
        rcases hone (by simp) (by simpa using hb) ho with ⟨rfl, h1, h2, h3⟩ | ⟨x, h1, rfl, h2⟩
        · by_cases hl : p2.length = (b :: q).length
          · rw [if_pos hl] at h
            cases h
            exact .inr (.inr ⟨errAt .InvalidEnum (b :: q), by simp [errAt], by simp [createError, errAt, EPtr.fresh, JError.status, hl], h3 rfl hl⟩)
          · rw [if_neg hl] at h
            by_cases hp2 : p2 = []
            · subst hp2
              rw [if_pos rfl] at h
              cases h
              exact .inr (.inr ⟨endErr, by simp [endErr], rfl, fun x => (h1 x).trans (hnil x)⟩)
            · rw [if_neg hp2] at h
              rcases ih (by omega) h with ⟨_, h4, _⟩ | ⟨rfl, h4, h5⟩ | ⟨x, h4, rfl, h5⟩
              · exact absurd h4 hp2
              · exact .inr (.inl ⟨rfl, fun x hx => h4 x ((h1 x).mp hx), h5⟩)
              · exact .inr (.inr ⟨x, h4, rfl, fun x' => (h1 x').trans (h5 x')⟩)
        · have hf := obj_failed h1
          refine .inr (.inr ⟨x, h1, ?_, h2⟩)
          split at h
          · cases h; exact createError_failed hf _ _ _
          · split at h
            · cases h; exact createError_failed hf _ _ _
            · exact flagLoopF_kept (by omega) hf h

/-! ### The array form -/

theorem Spec.FlagElem.unique (hq : ∀ y ∈ L, c%'"' ∉ y.1) {s a b : Bytes} (h : FlagElem L strict s a) (h' : FlagElem L strict s b) :
    a = b := by
  cases h with
  | @listed n u q h1 =>
    generalize hs : c%'"' :: (n ++ c%'"' :: a) = s' at h'
    cases h' with
    | @listed n' u' q' h2 =>
      simp only [List.cons.injEq, true_and] at hs
      exact (noquote_split (hq _ h1) (hq _ h2) hs).2
    | @other p q' h2 h3 h4 =>
      simp only [List.cons.injEq, true_and] at hs
      exact absurd ⟨a, by rw [← hs]; simp⟩ (h3 _ h1)
  | @other p q h1 h2 h3 =>
    generalize hs : c%'"' :: p = s' at h'
    cases h' with
    | @listed n' u' q' h4 =>
      simp only [List.cons.injEq, true_and] at hs
      exact absurd ⟨b, by rw [hs]; simp⟩ (h2 _ h4)
    | @other p' q' _ _ h4 =>
      simp only [List.cons.injEq, true_and] at hs
      subst hs
      have := h3.symm.trans h4
      simpa using this

theorem Spec.FlagElem.not_fault (hq : ∀ y ∈ L, c%'"' ∉ y.1) {p q : Bytes} {x : JError} (h : FlagElem L strict (c%'"' :: p) q)
    (hu : UnlistedName L p) (hs : StringPassFault (c%'"' :: p) x) : False := by
  generalize hs' : c%'"' :: p = s' at h
  cases h with
  | @listed n u q h1 =>
    simp only [List.cons.injEq, true_and] at hs'
    exact absurd ⟨q, by rw [hs']; simp⟩ (hu _ h1)
  | @other p' q' _ _ h4 =>
    simp only [List.cons.injEq, true_and] at hs'
    subst hs'
    obtain ⟨hc, p1, h5⟩ := hs
    have := h4.symm.trans h5
    simp [EPtr.fresh] at this
    rw [← this.2] at hc
    exact hc rfl

theorem Spec.FlagElem.unlisted {p q : Bytes} (h : FlagElem L strict (c%'"' :: p) q) (hu : UnlistedName L p) : strict = false := by
  generalize hs' : c%'"' :: p = s' at h
  cases h with
  | @listed n u q h1 =>
    simp only [List.cons.injEq, true_and] at hs'
    exact absurd ⟨q, by rw [hs']; simp⟩ (hu _ h1)
  | other h1 => exact h1

theorem arrTable : SpaceTable (FlagArrFault L strict) := by
  constructor
  · intro s s' h x
    constructor
    · intro hx
      cases hx with
      | cut h1 => exact .cut ((Cut.of_skips h).mp h1)
      | kind h1 h2 h3 => obtain rfl := h.unique h1; exact .kind h.idem h2 h3
      | name h0 h1 h2 => obtain rfl := h.unique h1; exact .name h0 h.idem h2
      | string h0 h1 h2 h3 => obtain rfl := h.unique h1; exact .string h0 h.idem h2 h3
      | after h1 h2 h3 => obtain rfl := h.unique h1; exact .after h.idem h2 h3
      | more h1 h2 h3 h4 => obtain rfl := h.unique h1; exact .more h.idem h2 h3 h4
    · intro hx
      cases hx with
      | cut h1 => exact .cut ((Cut.of_skips h).mpr h1)
      | kind h1 h2 h3 => obtain rfl := h.idem.unique h1; exact .kind h h2 h3
      | name h0 h1 h2 => obtain rfl := h.idem.unique h1; exact .name h0 h h2
      | string h0 h1 h2 h3 => obtain rfl := h.idem.unique h1; exact .string h0 h h2 h3
      | after h1 h2 h3 => obtain rfl := h.idem.unique h1; exact .after h h2 h3
      | more h1 h2 h3 h4 => obtain rfl := h.idem.unique h1; exact .more h h2 h3 h4
  · intro s h x
    constructor
    · intro hx
      cases hx with
      | cut h1 => exact (cut_open h).mp h1
      | kind h1 | name _ h1 | string _ h1 | after h1 | more h1 => exact (h1.not_open h).elim
    · rintro rfl
      exact .cut (.comment h)
  · intro x
    constructor
    · intro hx
      have hn : Skips [] [] := .of_stop (by intro b hb; simp at hb)
      cases hx with
      | cut h1 => exact cut_nil.mp h1
      | kind h1 | name _ h1 | string _ h1 | after h1 | more h1 => exact absurd (hn.unique h1) (by simp)
    · rintro rfl
      exact .cut (cut_nil.mpr rfl)

theorem arr_close (p : Bytes) (x : JError) : ¬ FlagArrFault L strict (c%']' :: p) x := by
  have hn : NoGap (c%']' :: p) := by intro b hb; simp at hb; subst hb; exact ⟨by unfold WsByte; decide, by decide⟩
  have hs := Skips.of_stop hn
  intro hx
  cases hx with
  | cut h1 => exact not_cut hn h1
  | kind h1 h2 h3 =>
    have := hs.unique h1
    simp only [List.cons.injEq] at this
    exact h2 this.1.symm
  | name _ h1 | string _ h1 | after h1 | more h1 => exact absurd (hs.unique h1) (by simp)

theorem arr_kind {b : Byte} {p : Bytes} (hn : NoGap (b :: p)) (h1 : b ≠ c%']') (h2 : b ≠ c%'"') (x : JError) :
    FlagArrFault L strict (b :: p) x ↔ x = expectAt b!"\"" (b :: p) := by
  have hs := Skips.of_stop hn
  constructor
  · intro hx
    cases hx with
    | cut h => exact (not_cut hn h).elim
    | kind h => rw [hs.unique h]
    | name _ h | string _ h | after h | more h =>
      have := hs.unique h
      simp only [List.cons.injEq] at this
      exact absurd this.1 h2
  · rintro rfl
    exact .kind hs h1 h2

theorem arr_elem (hq : ∀ y ∈ L, c%'"' ∉ y.1) {p q : Bytes} (he : FlagElem L strict (c%'"' :: p) q) (x : JError) :
    FlagArrFault L strict (c%'"' :: p) x ↔ (Cut q x ∨ ∃ d r, Skips q (d :: r) ∧ FlagArrFault L strict (dropByte c%',' (d :: r)) x) := by
  have hs : Skips (c%'"' :: p) (c%'"' :: p) := .of_stop noGap_quote
  constructor
  · intro hx
    cases hx with
    | cut h => exact (not_cut noGap_quote h).elim
    | kind h _ h2 =>
      have := hs.unique h
      simp only [List.cons.injEq] at this
      exact absurd this.1.symm h2
    | name h0 h h2 =>
      have := hs.unique h
      simp only [List.cons.injEq, true_and] at this
      subst this
      rw [he.unlisted h2] at h0
      cases h0
    | string h0 h h2 h3 =>
      have := hs.unique h
      simp only [List.cons.injEq, true_and] at this
      subst this
      exact (he.not_fault hq h2 h3).elim
    | after h h2 h3 =>
      have := hs.unique h
      simp only [List.cons.injEq, true_and] at this
      subst this
      rw [he.unique hq h2]
      exact .inl h3
    | more h h2 h3 h4 =>
      have := hs.unique h
      simp only [List.cons.injEq, true_and] at this
      subst this
      rw [he.unique hq h2]
      exact .inr ⟨_, _, h3, h4⟩
  · rintro (h | ⟨d, r, h1, h2⟩)
    · exact .after hs he h
    · exact .more hs he h1 h2

theorem arr_unlisted_strict {p : Bytes} (hu : UnlistedName L p) (x : JError) :
    FlagArrFault L true (c%'"' :: p) x ↔ x = errAt .InvalidEnum (c%'"' :: p) := by
  have hs : Skips (c%'"' :: p) (c%'"' :: p) := .of_stop noGap_quote
  constructor
  · intro hx
    cases hx with
    | cut h => exact (not_cut noGap_quote h).elim
    | kind h _ h2 =>
      have := hs.unique h
      simp only [List.cons.injEq] at this
      exact absurd this.1.symm h2
    | name h0 h h2 => rw [hs.unique h]
    | string h0 => cases h0
    | after h h2 h3 =>
      have := hs.unique h
      simp only [List.cons.injEq, true_and] at this
      subst this
      exact absurd (h2.unlisted hu) (by simp)
    | more h h2 h3 h4 =>
      have := hs.unique h
      simp only [List.cons.injEq, true_and] at this
      subst this
      exact absurd (h2.unlisted hu) (by simp)
  · rintro rfl
    exact .name rfl hs hu

theorem arr_string (hq : ∀ y ∈ L, c%'"' ∉ y.1) {p : Bytes} (hu : UnlistedName L p) {y : JError} (hy : StringPassFault (c%'"' :: p) y)
    (x : JError) : FlagArrFault L false (c%'"' :: p) x ↔ x = y := by
  have hs : Skips (c%'"' :: p) (c%'"' :: p) := .of_stop noGap_quote
  constructor
  · intro hx
    cases hx with
    | cut h => exact (not_cut noGap_quote h).elim
    | kind h _ h2 =>
      have := hs.unique h
      simp only [List.cons.injEq] at this
      exact absurd this.1.symm h2
    | name h0 => cases h0
    | string h0 h h2 h3 =>
      have := hs.unique h
      simp only [List.cons.injEq, true_and] at this
      subst this
      obtain ⟨_, _, h4⟩ := h3
      obtain ⟨_, _, h5⟩ := hy
      have := h4.symm.trans h5
      simp only [Prod.mk.injEq, EPtr.obj.injEq] at this
      exact this.2
    | after h h2 h3 =>
      have := hs.unique h
      simp only [List.cons.injEq, true_and] at this
      subst this
      exact (h2.not_fault hq hu hy).elim
    | more h h2 h3 h4 =>
      have := hs.unique h
      simp only [List.cons.injEq, true_and] at this
      subst this
      exact (h2.not_fault hq hu hy).elim
  · rintro rfl
    exact .string rfl hs hu hy

theorem string_cases (s : Bytes) : (∃ q, PassesString s q) ∨ ∃ x q, parseString s .fresh = (q, .obj x) ∧ StringPassFault s x := by
  cases h : parseString s .fresh with
  | mk q e =>
  have := EStep.of_scan (parseString_scan s) .fresh
  rw [h] at this
  rcases this.clean EPtr.fresh_clean with h1 | hf
  · simp only at h1
    subst h1
    exact .inl ⟨q, h⟩
  · cases e with
    | null => cases hf
    | obj x => exact .inr ⟨x, q, rfl, by simpa [EPtr.failed, JError.status] using hf, q, h⟩

theorem flagOneArr_kept {M : List (Bytes × BitVec w)} {v v1 : BitVec w} {s p : Bytes} {e e1 : EPtr} {ready : Bool} (he : e.failed = true)
    (h : flagOneArr c strict M v s e ready = .ok (v1, p, e1)) : e1 = e := by
  obtain ⟨_, m, h2⟩ := SafeOut.step (flagOneArr_safe c strict M v ready (List.suffix_refl s) (.refl _ e)) h
  exact h2.of_failed he

/-- Behind an element: white space, a comma, white space. -/
theorem arr_behind (hq : ∀ y ∈ L, c%'"' ∉ y.1) {p q : Bytes} (he : FlagElem L strict (c%'"' :: p) q) (hsuf : q <:+ p) :
    (∃ x : JError, x.code ≠ .ValidJSON ∧ parseSpace q .fresh = ([], .obj x) ∧ ∀ x', FlagArrFault L strict (c%'"' :: p) x' ↔ x' = x) ∨
    (parseSpace q .fresh = ([], .fresh) ∧ ∀ x, FlagArrFault L strict (c%'"' :: p) x ↔ FlagArrFault L strict [] x) ∨
    ∃ d r, parseSpace q .fresh = (d :: r, .fresh) ∧ (d :: r) <:+ p ∧
      ∀ x, FlagArrFault L strict (c%'"' :: p) x ↔ FlagArrFault L strict (dropByte c%',' (d :: r)) x := by
  have hel := arr_elem hq he
  rcases space_cases q with ⟨s', hs⟩ | ho
  · cases s' with
    | nil =>
      refine .inr (.inl ⟨hs.run _, fun x => ?_⟩)
      rw [hel, arrTable.fin, Cut.of_skips hs, cut_nil]
      constructor
      · rintro (h | ⟨d, r, h, _⟩)
        · exact h
        · exact absurd (hs.unique h) (by simp)
      · exact .inl
    | cons d r =>
      refine .inr (.inr ⟨d, r, hs.run _, hs.suffix.trans hsuf, fun x => ?_⟩)
      rw [hel, Cut.of_skips hs]
      constructor
      · rintro (h | ⟨d', r', h, h'⟩)
        · exact (not_cut hs.stop h).elim
        · rw [hs.unique h]; exact h'
      · exact fun h => .inr ⟨d, r, hs, h⟩
  · refine .inl ⟨commentErr, commentErr_code, ho.run _, fun x => ?_⟩
    rw [hel, cut_open ho]
    constructor
    · rintro (h | ⟨d, r, h, _⟩)
      · exact h
      · exact (h.not_open ho).elim
    · exact .inl

theorem scan_suffix {s : Bytes} {g : EPtr → Bytes × EPtr} (h : ScanAt s g) (e : EPtr) : (g e).1 <:+ s := by
  obtain ⟨p, ev, h1, h2, _⟩ := h
  rw [h1]
  exact h2

theorem dropByte_suffix (b : Byte) (s : Bytes) : dropByte b s <:+ s := by
  cases s with
  | nil => exact List.suffix_refl _
  | cons d r =>
    simp only [dropByte]
    split
    · exact suffix_cons d r
    · exact List.suffix_refl _

theorem flagOneArr_told (hq : ∀ y ∈ L, c%'"' ∉ y.1) (hne : L ≠ []) {P M : List (Bytes × BitVec w)} (hL : L = P ++ M) {v v1 : BitVec w}
    {s p : Bytes} {e : EPtr} {ready : Bool}
    (hs : ready = false → s ≠ [] ∧ s.head? ≠ some c%']') (hP : ready = false → P ≠ [] → ∃ t, s = c%'"' :: t ∧ UnlistedName P t)
    (h : flagOneArr c strict M v s .fresh ready = .ok (v1, p, e)) : FlagTold (FlagArrFault L strict) s ready p e := by
  induction M generalizing P v s ready with
  | nil =>
    rw [List.append_nil] at hL
    subst hL
    simp only [flagOneArr] at h
    cases ready with
    | true =>
      simp at h
      obtain ⟨_, rfl, rfl⟩ := h
      exact .inl ⟨rfl, fun _ => Iff.rfl, List.suffix_refl _, by simp⟩
    | false =>
      obtain ⟨t, rfl, hu⟩ := hP rfl hne
      cases strict with
      | true =>
        simp at h
        obtain ⟨_, rfl, rfl⟩ := h
        exact .inl ⟨rfl, fun _ => Iff.rfl, List.suffix_refl _, fun _ _ => arr_unlisted_strict hu⟩
      | false =>
        simp only [Bool.or_self, Bool.false_eq_true, if_false, parseSpace_stop noGap_quote] at h
        rw [show deref c (c%'"' :: t) = .ok c%'"' from rfl, Out.bind_ok, if_neg (by decide)] at h
        rcases string_cases (c%'"' :: t) with ⟨q, hqs⟩ | ⟨x, q, hx, hxf⟩
        · have hel : FlagElem L false (c%'"' :: t) q := .other rfl hu hqs
          have hlt := parseString_length_lt (s := c%'"' :: t) (by simp) .fresh
          have hsuf := scan_suffix (parseString_scan (c%'"' :: t)) .fresh
          rw [show parseString (c%'"' :: t) .fresh = (q, .fresh) from hqs] at h hlt hsuf
          have hsuf : q <:+ t := by
            rcases List.suffix_cons_iff.mp hsuf with h | h
            · rw [h] at hlt; simp at hlt
            · exact h
          simp only at h
          rcases arr_behind hq hel hsuf with ⟨x, h1, h2, h3⟩ | ⟨h2, h3⟩ | ⟨d, r, h2, h4, h3⟩
          · rw [h2] at h
            cases h
            exact .inr ⟨x, h1, rfl, h3⟩
          · rw [h2] at h
            cases h
            exact .inl ⟨rfl, h3, List.nil_suffix, by simp⟩
          · rw [h2] at h
            simp only at h
            have h5 : (if d = c%',' then r else d :: r) = dropByte c%',' (d :: r) := rfl
            rw [h5] at h
            have h6 := dropByte_suffix c%',' (d :: r)
            cases hp : parseSpace (dropByte c%',' (d :: r)) .fresh with
            | mk q1 e1 =>
            rw [hp] at h
            cases h
            rcases space_told arrTable hp with ⟨rfl, h7, h8⟩ | ⟨rfl, rfl, h8⟩
            · have h9 := h7.suffix.trans (h6.trans h4)
              refine .inl ⟨rfl, fun x => (h3 x).trans (h8 x), h9.trans (suffix_cons _ _), fun _ hl => ?_⟩
              have := h9.length_le
              simp at hl
              omega
            · exact .inr ⟨commentErr, commentErr_code, rfl, fun x => (h3 x).trans (h8 x)⟩
        · rw [hx] at h
          have hf := obj_failed hxf.1
          refine .inr ⟨x, hxf.1, ?_, arr_string hq hu hxf⟩
          simp only at h
          obtain ⟨q1, hq1⟩ := space_kept hf q
          rw [hq1] at h
          cases q1 with
          | nil => cases h; rfl
          | cons d r =>
            simp only at h
            obtain ⟨q2, hq2⟩ := space_kept hf (if d = c%',' then r else d :: r)
            rw [hq2] at h
            cases h; rfl
  | cons y M ih =>
    have hL' : L = (P ++ [y]) ++ M := by rw [hL]; simp
    simp only [flagOneArr] at h
    cases hp : parseSpace s .fresh with
    | mk s1 e1 =>
    rw [hp] at h
    rcases space_told arrTable hp with ⟨rfl, h1, h2⟩ | ⟨rfl, rfl, h2⟩
    · have hsuf := h1.suffix
      cases s1 with
      | nil =>
        cases h
        refine .inl ⟨rfl, h2, hsuf, fun h3 h4 => ?_⟩
        exact absurd (List.eq_nil_of_length_eq_zero h4.symm) (hs h3).1
      | cons b t =>
        simp only at h
        by_cases hb : b = c%']'
        · rw [if_pos hb] at h
          cases h
          refine .inl ⟨rfl, h2, hsuf, fun h3 h4 => ?_⟩
          have := (hs h3).2
          rw [← hsuf.eq_of_length h4, hb] at this
          simp at this
        · rw [if_neg hb] at h
          by_cases hb2 : b = c%'"'
          · subst hb2
            rw [if_neg (by simp)] at h
            have next : ¬ (y.1 ++ [c%'"']) <+: t → flagOneArr c strict M v (c%'"' :: t) .fresh ready = .ok (v1, p, e) →
                FlagTold (FlagArrFault L strict) s ready p e := by
              intro hy h
              have hP' : ready = false → P ++ [y] ≠ [] → ∃ t', c%'"' :: t = c%'"' :: t' ∧ UnlistedName (P ++ [y]) t' := by
                intro hr _
                refine ⟨t, rfl, fun z hz => ?_⟩
                rcases List.mem_append.mp hz with hz | hz
                · obtain ⟨t', rfl, ht⟩ := hP hr (List.ne_nil_of_mem hz)
                  have := h1.unique (.of_stop noGap_quote)
                  simp only [List.cons.injEq, true_and] at this
                  rw [this]
                  exact ht z hz
                · simp at hz
                  rw [hz]
                  exact hy
              have hi := ih hL' (fun _ => ⟨by simp, by simp⟩) hP' h
              by_cases hl : (c%'"' :: t).length < s.length
              · exact hi.from h2 hsuf hl
              · have : c%'"' :: t = s := hsuf.eq_of_length (by have := hsuf.length_le; omega)
                rw [← this]
                exact hi
            cases hm : matchName y.1 t with
            | mk m1 m2 =>
            rw [hm] at h
            have hno : m1 ≠ [] ∨ m2.head? ≠ some c%'"' → ¬ (y.1 ++ [c%'"']) <+: t := by
              rintro hm2 ⟨z, rfl⟩
              rw [List.append_assoc, matchName_self] at hm
              cases hm
              simp at hm2
            cases m1 with
            | cons _ _ => exact next (hno (by simp)) h
            | nil =>
              cases m2 with
              | nil => exact next (hno (by simp)) h
              | cons d q =>
                simp only at h
                by_cases hd : d = c%'"'
                · subst hd
                  rw [if_pos rfl] at h
                  obtain rfl := matchName_iff.mp hm
                  have hel : FlagElem L strict (c%'"' :: (y.1 ++ c%'"' :: q)) q := .listed (u := y.2) (by rw [hL]; simp)
                  have hsq : q <:+ y.1 ++ c%'"' :: q := ⟨y.1 ++ [c%'"'], by simp⟩
                  rcases arr_behind hq hel hsq with ⟨x, h3, h4, h5⟩ | ⟨h4, h5⟩ | ⟨d, r, h4, h6, h5⟩
                  · rw [h4] at h
                    cases h
                    exact .inr ⟨x, h3, rfl, fun x => (h2 x).trans (h5 x)⟩
                  · rw [h4] at h
                    cases h
                    refine .inl ⟨rfl, fun x => (h2 x).trans (h5 x), List.nil_suffix, fun h7 h8 => ?_⟩
                    exact absurd (List.eq_nil_of_length_eq_zero h8.symm) (hs h7).1
                  · rw [h4] at h
                    have h7 : (d :: r).length < s.length := by
                      have := h6.length_le
                      have := hsuf.length_le
                      simp only [List.length_cons] at this ⊢
                      simp only [List.length_cons] at *
                      omega
                    have h8 : d :: r <:+ s := h6.trans ((suffix_cons _ _).trans hsuf)
                    simp only at h
                    by_cases hd : d = c%','
                    · subst hd
                      rw [if_neg (by simp)] at h
                      simp only [dropByte, if_true] at h5
                      cases hp2 : parseSpace r .fresh with
                      | mk q1 e1 =>
                      rw [hp2] at h
                      simp only at h
                      rcases space_told arrTable hp2 with ⟨rfl, h9, h10⟩ | ⟨rfl, rfl, h10⟩
                      · have hi := ih hL' (by simp) (by simp) h
                        have h11 := h9.suffix
                        refine hi.from (fun x => ((h2 x).trans (h5 x)).trans (h10 x)) (h11.trans ((suffix_cons _ _).trans h8)) ?_
                        have := h11.length_le
                        simp only [List.length_cons] at h7
                        omega
                      · have := flagOneArr_kept (obj_failed commentErr_code) h
                        exact .inr ⟨commentErr, commentErr_code, this, fun x => ((h2 x).trans (h5 x)).trans (h10 x)⟩
                    · rw [if_pos hd] at h
                      cases h
                      simp only [dropByte, if_neg hd] at h5
                      refine .inl ⟨rfl, fun x => (h2 x).trans (h5 x), h8, fun _ h9 => ?_⟩
                      omega
                · rw [if_neg hd] at h
                  exact next (hno (by simpa using hd)) h
          · rw [if_pos hb2] at h
            cases h
            refine .inr ⟨expectAt b!"\"" (b :: t), by simp [expectAt], rfl, fun x => (h2 x).trans (arr_kind h1.stop hb hb2 x)⟩
    · cases h
      exact .inr ⟨commentErr, commentErr_code, rfl, h2⟩

/-! ### The string form -/

theorem toSep_takes {a q : Bytes} (ha : ∀ b ∈ a, b ≠ sep ∧ b ≠ c%'"') (hq : q = [] ∨ q.head? = some sep ∨ q.head? = some c%'"') :
    toSep sep (a ++ q) = q := by
  cases q with
  | nil =>
    induction a with
    | nil => rfl
    | cons b a ih =>
      rw [List.cons_append, toSep, if_pos (ha b (by simp))]
      exact ih fun d hd => ha d (by simp [hd])
  | cons d q => exact toSep_eq ha (by simpa using hq) q

theorem toSep_parts (s : Bytes) : ∃ a, s = a ++ toSep sep s ∧ (∀ b ∈ a, b ≠ sep ∧ b ≠ c%'"') ∧
    (toSep sep s = [] ∨ (toSep sep s).head? = some sep ∨ (toSep sep s).head? = some c%'"') := by
  obtain ⟨u, h1, h2, h3⟩ := toSep_split sep s
  refine ⟨u, h1, h2, ?_⟩
  rcases h3 with h | ⟨d, q, h, h'⟩
  · exact .inl h
  · rw [h]; simp [h']

theorem Spec.FlagWordTakes.unique (hw : ∀ y ∈ L, FlagWord sep y.1) {s a b : Bytes} (h : FlagWordTakes L strict sep s a)
    (h' : FlagWordTakes L strict sep s b) : a = b := by
  cases h with
  | @listed n u q h1 h2 =>
    generalize hs : n ++ a = s' at h'
    cases h' with
    | @listed n' u' q' h3 h4 =>
      by_cases hn : n = n'
      · subst hn
        exact List.append_cancel_left hs
      · exact absurd h4 (notAt_word (hw _ h3) (hw _ h1) hn h2 _ hs)
    | @other a' q' h3 h4 => exact absurd h2 (h4 n (List.mem_map.mpr ⟨_, h1, rfl⟩) _ hs.symm)
  | @other a' q h1 h2 h3 h4 =>
    generalize hs : a' ++ a = s' at h'
    cases h' with
    | @listed n' u' q' h5 h6 => exact absurd h6 (h2 n' (List.mem_map.mpr ⟨_, h5, rfl⟩) _ hs)
    | @other a'' q' _ _ h5 h6 =>
      have := toSep_takes h3 h4
      rw [hs, toSep_takes h5 h6] at this
      exact this.symm

theorem Spec.FlagWordTakes.unlisted {s q : Bytes} (h : FlagWordTakes L strict sep s q) (hu : Unlisted L sep s) : strict = false := by
  cases h with
  | @listed n u q h1 h2 => exact absurd h2 (hu n (List.mem_map.mpr ⟨_, h1, rfl⟩) _ rfl)
  | other h1 => exact h1

theorem strTable : SpaceTable (FlagStrFault L strict sep) := by
  constructor
  · intro s s' h x
    constructor
    · intro hx
      cases hx with
      | cut h1 => exact .cut ((Cut.of_skips h).mp h1)
      | name h0 h1 h2 h3 => obtain rfl := h.unique h1; exact .name h0 h.idem h2 h3
      | after h1 h2 h3 h4 => obtain rfl := h.unique h1; exact .after h.idem h2 h3 h4
      | more h1 h2 h3 h4 h5 => obtain rfl := h.unique h1; exact .more h.idem h2 h3 h4 h5
    · intro hx
      cases hx with
      | cut h1 => exact .cut ((Cut.of_skips h).mpr h1)
      | name h0 h1 h2 h3 => obtain rfl := h.idem.unique h1; exact .name h0 h h2 h3
      | after h1 h2 h3 h4 => obtain rfl := h.idem.unique h1; exact .after h h2 h3 h4
      | more h1 h2 h3 h4 h5 => obtain rfl := h.idem.unique h1; exact .more h h2 h3 h4 h5
  · intro s h x
    constructor
    · intro hx
      cases hx with
      | cut h1 => exact (cut_open h).mp h1
      | name _ h1 | after h1 | more h1 => exact (h1.not_open h).elim
    · rintro rfl
      exact .cut (.comment h)
  · intro x
    constructor
    · intro hx
      have hn : Skips [] [] := .of_stop (by intro b hb; simp at hb)
      cases hx with
      | cut h1 => exact cut_nil.mp h1
      | name _ h1 | after h1 | more h1 => exact absurd (hn.unique h1) (by simp)
    · rintro rfl
      exact .cut (cut_nil.mpr rfl)

theorem str_close (p : Bytes) (x : JError) : ¬ FlagStrFault L strict sep (c%'"' :: p) x := by
  have hs : Skips (c%'"' :: p) (c%'"' :: p) := .of_stop noGap_quote
  intro hx
  cases hx with
  | cut h1 => exact not_cut noGap_quote h1
  | name _ h1 h2 | after h1 h2 | more h1 h2 =>
    have := hs.unique h1
    simp only [List.cons.injEq] at this
    exact h2 this.1.symm

theorem str_elem (hw : ∀ y ∈ L, FlagWord sep y.1) {b : Byte} {p q : Bytes} (hn : NoGap (b :: p)) (hb : b ≠ c%'"')
    (he : FlagWordTakes L strict sep (b :: p) q) (x : JError) :
    FlagStrFault L strict sep (b :: p) x ↔ (Cut q x ∨ ∃ d r, Skips q (d :: r) ∧ FlagStrFault L strict sep (dropByte sep (d :: r)) x) := by
  have hs : Skips (b :: p) (b :: p) := .of_stop hn
  constructor
  · intro hx
    cases hx with
    | cut h => exact (not_cut hn h).elim
    | name h0 h h2 h3 =>
      rw [← hs.unique h] at h3
      rw [he.unlisted h3] at h0
      cases h0
    | after h _ h2 h3 =>
      rw [← hs.unique h] at h2
      rw [he.unique hw h2]
      exact .inl h3
    | more h _ h2 h3 h4 =>
      rw [← hs.unique h] at h2
      rw [he.unique hw h2]
      exact .inr ⟨_, _, h3, h4⟩
  · rintro (h | ⟨d, r, h1, h2⟩)
    · exact .after hs hb he h
    · exact .more hs hb he h1 h2

theorem str_unlisted_strict {b : Byte} {p : Bytes} (hn : NoGap (b :: p)) (hb : b ≠ c%'"') (hu : Unlisted L sep (b :: p)) (x : JError) :
    FlagStrFault L true sep (b :: p) x ↔ x = errAt .InvalidEnum (b :: p) := by
  have hs : Skips (b :: p) (b :: p) := .of_stop hn
  constructor
  · intro hx
    cases hx with
    | cut h => exact (not_cut hn h).elim
    | name h0 h h2 => rw [hs.unique h]
    | after h _ h2 =>
      rw [← hs.unique h] at h2
      exact absurd (h2.unlisted hu) (by simp)
    | more h _ h2 =>
      rw [← hs.unique h] at h2
      exact absurd (h2.unlisted hu) (by simp)
  · rintro rfl
    exact .name rfl hs hb hu

theorem flagOneStr_kept {M : List (Bytes × BitVec w)} {v v1 : BitVec w} {s p : Bytes} {e e1 : EPtr} {ready : Bool} (he : e.failed = true)
    (h : flagOneStr sep strict M v s e ready = (v1, p, e1)) : e1 = e := by
  obtain ⟨m, h2⟩ := flagOneStr_steps h
  exact h2.of_failed he

/-- Behind a word: white space and a separator. -/
theorem str_behind (hw : ∀ y ∈ L, FlagWord sep y.1) {b : Byte} {p q : Bytes} (hn : NoGap (b :: p)) (hb : b ≠ c%'"')
    (he : FlagWordTakes L strict sep (b :: p) q) (hsuf : q <:+ b :: p) :
    (∃ x : JError, x.code ≠ .ValidJSON ∧ parseSpace q .fresh = ([], .obj x) ∧ ∀ x', FlagStrFault L strict sep (b :: p) x' ↔ x' = x) ∨
    (parseSpace q .fresh = ([], .fresh) ∧ ∀ x, FlagStrFault L strict sep (b :: p) x ↔ FlagStrFault L strict sep [] x) ∨
    ∃ d r, parseSpace q .fresh = (d :: r, .fresh) ∧ (d :: r) <:+ q ∧
      ∀ x, FlagStrFault L strict sep (b :: p) x ↔ FlagStrFault L strict sep (dropByte sep (d :: r)) x := by
  have hel := str_elem hw hn hb he
  rcases space_cases q with ⟨s', hs⟩ | ho
  · cases s' with
    | nil =>
      refine .inr (.inl ⟨hs.run _, fun x => ?_⟩)
      rw [hel, strTable.fin, Cut.of_skips hs, cut_nil]
      constructor
      · rintro (h | ⟨d, r, h, _⟩)
        · exact h
        · exact absurd (hs.unique h) (by simp)
      · exact .inl
    | cons d r =>
      refine .inr (.inr ⟨d, r, hs.run _, hs.suffix, fun x => ?_⟩)
      rw [hel, Cut.of_skips hs]
      constructor
      · rintro (h | ⟨d', r', h, h'⟩)
        · exact (not_cut hs.stop h).elim
        · rw [hs.unique h]; exact h'
      · exact fun h => .inr ⟨d, r, hs, h⟩
  · refine .inl ⟨commentErr, commentErr_code, ho.run _, fun x => ?_⟩
    rw [hel, cut_open ho]
    constructor
    · rintro (h | ⟨d, r, h, _⟩)
      · exact h
      · exact (h.not_open ho).elim
    · exact .inl

theorem flagOneStr_told (hsep : GoodSep sep) (hsp : sep ≠ c%' ') (hw : ∀ y ∈ L, FlagWord sep y.1) (hne : L ≠ [])
    {P M : List (Bytes × BitVec w)} (hL : L = P ++ M) {v v1 : BitVec w} {s p : Bytes} {e : EPtr} {ready : Bool}
    (hs : ready = false → s ≠ [] ∧ s.head? ≠ some c%'"') (hP : ready = false → P ≠ [] → NoGap s ∧ ∀ y ∈ P, NotAt sep y.1 s)
    (h : flagOneStr sep strict M v s .fresh ready = (v1, p, e)) : FlagTold (FlagStrFault L strict sep) s ready p e := by
  induction M generalizing P v s ready with
  | nil =>
    rw [List.append_nil] at hL
    subst hL
    simp only [flagOneStr] at h
    cases ready with
    | true =>
      simp at h
      obtain ⟨_, rfl, rfl⟩ := h
      exact .inl ⟨rfl, fun _ => Iff.rfl, List.suffix_refl _, by simp⟩
    | false =>
      obtain ⟨hn, hu⟩ := hP rfl hne
      obtain ⟨hs1, hs2⟩ := hs rfl
      cases s with
      | nil => exact absurd rfl hs1
      | cons b t =>
      have hb : b ≠ c%'"' := by simpa using hs2
      have hu' : Unlisted L sep (b :: t) := by
        intro n hn z hz
        obtain ⟨y, hy, rfl⟩ := List.mem_map.mp hn
        exact hu y hy z hz
      cases strict with
      | true =>
        simp at h
        obtain ⟨_, rfl, rfl⟩ := h
        exact .inl ⟨rfl, fun _ => Iff.rfl, List.suffix_refl _, fun _ _ => str_unlisted_strict hn hb hu'⟩
      | false =>
        simp only [Bool.or_self, Bool.false_eq_true, if_false, parseSpace_stop hn] at h
        obtain ⟨a, h1, h2, h3⟩ := toSep_parts (sep := sep) (b :: t)
        generalize hq : toSep sep (b :: t) = q at h h1 h3
        have hel : FlagWordTakes L false sep (b :: t) q := by rw [h1] at hu' ⊢; exact .other rfl hu' h2 h3
        have hsuf : q <:+ b :: t := ⟨a, h1.symm⟩
        rcases str_behind hw hn hb hel hsuf with ⟨x, h4, h5, h6⟩ | ⟨h5, h6⟩ | ⟨d, r, h5, h7, h6⟩
        · rw [h5] at h
          cases h
          exact .inr ⟨x, h4, rfl, h6⟩
        · rw [h5] at h
          cases h
          exact .inl ⟨rfl, h6, List.nil_suffix, by simp⟩
        · rw [h5] at h
          simp only at h
          have h8 : (if d = sep then r else d :: r) = dropByte sep (d :: r) := rfl
          rw [h8] at h
          have h9 := dropByte_suffix sep (d :: r)
          cases hp : parseSpace (dropByte sep (d :: r)) .fresh with
          | mk q1 e1 =>
          rw [hp] at h
          cases h
          rcases space_told strTable hp with ⟨rfl, h10, h11⟩ | ⟨rfl, rfl, h11⟩
          · refine .inl ⟨rfl, fun x => (h6 x).trans (h11 x), h10.suffix.trans (h9.trans (h7.trans hsuf)), fun _ hl => ?_⟩
            exfalso
            have l1 := h10.suffix.length_le
            have l2 := h9.length_le
            have l3 := h7.length_le
            cases a with
            | cons a0 a =>
              rw [h1] at hl
              simp at hl
              omega
            | nil =>
              simp only [List.nil_append] at h1
              subst h1
              have hd : d = b ∧ r = t := by
                rw [parseSpace_stop hn] at h5
                simpa [eq_comm] using h5
              obtain ⟨rfl, rfl⟩ := hd
              have hd : d = sep := by
                rcases h3 with h3 | h3 | h3
                · simp at h3
                · simpa using h3
                · exact absurd (by simpa using h3) hb
              rw [dropByte, if_pos hd] at l1
              simp at hl
              omega
          · exact .inr ⟨commentErr, commentErr_code, rfl, fun x => (h6 x).trans (h11 x)⟩
  | cons y M ih =>
    have hL' : L = (P ++ [y]) ++ M := by rw [hL]; simp
    rw [flagOneStr] at h
    by_cases hs0 : s = []
    · rw [if_pos hs0] at h
      cases h
      exact .inl ⟨rfl, fun _ => Iff.rfl, List.suffix_refl _, fun hr => absurd hs0 (hs hr).1⟩
    rw [if_neg hs0] at h
    simp only [ne_eq, hsp, not_false_eq_true, if_true, true_and] at h
    cases hp : parseSpace s .fresh with
    | mk s1 e1 =>
    rw [hp] at h
    rcases space_told strTable hp with ⟨rfl, h1, h2⟩ | ⟨rfl, rfl, h2⟩
    · have hsuf := h1.suffix
      cases s1 with
      | nil =>
        cases h
        exact .inl ⟨rfl, h2, hsuf, fun h3 h4 => absurd (List.eq_nil_of_length_eq_zero h4.symm) hs0⟩
      | cons b t =>
        simp only at h
        by_cases hb : b = c%'"'
        · rw [if_pos hb] at h
          cases h
          refine .inl ⟨rfl, h2, hsuf, fun h3 h4 => ?_⟩
          have := (hs h3).2
          rw [← hsuf.eq_of_length h4, hb] at this
          simp at this
        · rw [if_neg hb] at h
          have next : NotAt sep y.1 (b :: t) → flagOneStr sep strict M v (b :: t) .fresh ready = (v1, p, e) →
              FlagTold (FlagStrFault L strict sep) s ready p e := by
            intro hy h
            have hP' : ready = false → P ++ [y] ≠ [] → NoGap (b :: t) ∧ ∀ z ∈ P ++ [y], NotAt sep z.1 (b :: t) := by
              intro hr _
              refine ⟨h1.stop, fun z hz => ?_⟩
              rcases List.mem_append.mp hz with hz | hz
              · obtain ⟨h3, h4⟩ := hP hr (List.ne_nil_of_mem hz)
                rw [h1.unique (.of_stop h3)]
                exact h4 z hz
              · simp at hz
                rw [hz]
                exact hy
            have hi := ih hL' (fun _ => ⟨by simp, by simpa using hb⟩) hP' h
            by_cases hl : (b :: t).length < s.length
            · exact hi.from h2 hsuf hl
            · have : b :: t = s := hsuf.eq_of_length (by have := hsuf.length_le; omega)
              rw [← this]
              exact hi
          cases hm : matchName y.1 (b :: t) with
          | mk m1 m2 =>
          rw [hm] at h
          have hno : m1 ≠ [] ∨ ¬ WordStop sep m2 → NotAt sep y.1 (b :: t) := by
            intro hm2 z hz
            rw [hz, matchName_self] at hm
            cases hm
            simpa using hm2
          cases m1 with
          | cons _ _ => exact next (hno (by simp)) h
          | nil =>
            cases m2 with
            | nil => exact next (hno (.inr not_wordStop_nil)) h
            | cons d q =>
              simp only at h
              have hst : (isSpace (d :: q) = true ∨ d = sep ∨ d = c%'"') ↔ WordStop sep (d :: q) := by
                rw [wordStop_cons]
                simp [hsp]
              by_cases hd : WordStop sep (d :: q)
              · rw [if_pos (hst.mpr hd)] at h
                have hbt := matchName_iff.mp hm
                have hel : FlagWordTakes L strict sep (b :: t) (d :: q) := by
                  rw [hbt]
                  exact .listed (u := y.2) (by rw [hL]; simp) hd
                have hsq : d :: q <:+ b :: t := ⟨y.1, hbt.symm⟩
                have hlt : (d :: q).length < (b :: t).length := by
                  have hy := (hw y (by rw [hL]; simp)).nonempty
                  rw [hbt]
                  have := List.length_pos_iff.mpr hy
                  simp only [List.length_append]
                  omega
                have hle := hsuf.length_le
                rcases str_behind hw h1.stop hb hel hsq with ⟨x, h3, h4, h5⟩ | ⟨h4, h5⟩ | ⟨d', r, h4, h6, h5⟩
                · rw [h4] at h
                  cases h
                  exact .inr ⟨x, h3, rfl, fun x => (h2 x).trans (h5 x)⟩
                · rw [h4] at h
                  cases h
                  exact .inl ⟨rfl, fun x => (h2 x).trans (h5 x), List.nil_suffix,
                    fun h7 h8 => absurd (List.eq_nil_of_length_eq_zero h8.symm) hs0⟩
                · rw [h4] at h
                  simp only at h
                  have h8 := h6.trans (hsq.trans hsuf)
                  have h9 := h6.length_le
                  by_cases hd' : d' = c%'"'
                  · subst hd'
                    rw [if_pos rfl] at h
                    cases h
                    rw [dropByte, if_neg (fun h => goodSep_ne_quote hsep h.symm)] at h5
                    refine .inl ⟨rfl, fun x => (h2 x).trans (h5 x), h8, fun _ h9 => ?_⟩
                    omega
                  · rw [if_neg hd'] at h
                    have h10 : (if d' = sep then r else d' :: r) = dropByte sep (d' :: r) := rfl
                    rw [h10] at h
                    have hi := ih hL' (by simp) (by simp) h
                    have h11 := dropByte_suffix sep (d' :: r)
                    have h12 := h11.length_le
                    refine hi.from (fun x => (h2 x).trans (h5 x)) (h11.trans h8) ?_
                    omega
              · rw [if_neg (fun h => hd (hst.mp h))] at h
                exact next (hno (.inr hd)) h
    · cases h
      exact .inr ⟨commentErr, commentErr_code, rfl, h2⟩

/-! ### The string form with spaces -/

theorem wordStop_space {z : Bytes} : WordStop c%' ' z ↔ z.head? = some c%' ' ∨ z.head? = some c%'"' := by
  simp [WordStop, or_comm]

theorem unlisted_not {n z : Bytes} {u : BitVec w} (h : (n, u) ∈ L) (hz : WordStop sep z) : ¬ Unlisted L sep (n ++ z) :=
  fun hu => hu n (List.mem_map.mpr ⟨_, h, rfl⟩) _ rfl hz

theorem spaced_nil (x : JError) : FlagSpacedFault L strict [] x ↔ x = endErr := by
  constructor
  · intro hx
    generalize hs : ([] : Bytes) = s at hx
    cases hx with
    | none => rfl
    | listed => simp at hs
    | name | cut | after | more => cases hs
  · rintro rfl
    exact .none

theorem spaced_close (hw : ∀ y ∈ L, FlagWord c%' ' y.1) (p : Bytes) (x : JError) : ¬ FlagSpacedFault L strict (c%'"' :: p) x := by
  intro hx
  generalize hs : c%'"' :: p = s at hx
  cases hx with
  | none => cases hs
  | @listed n u r x h1 =>
    obtain ⟨b, n', hn, _, hq, _⟩ := (hw _ h1).cons
    simp only at hn
    rw [hn] at hs
    simp at hs
    exact hq hs.1.symm
  | name _ hb | cut _ hb | after _ hb | more _ hb =>
    simp only [List.cons.injEq] at hs
    exact hb hs.1.symm

theorem spaced_listed (hw : ∀ y ∈ L, FlagWord c%' ' y.1) {n : Bytes} {u : BitVec w} (h : (n, u) ∈ L) {z : Bytes}
    (hz : WordStop c%' ' z) (x : JError) : FlagSpacedFault L strict (n ++ z) x ↔ ∃ r, z = c%' ' :: r ∧ FlagSpacedFault L strict r x := by
  constructor
  · intro hx
    have hn := unlisted_not h hz
    generalize hs : n ++ z = s at hx hn
    cases hx with
    | none => exact absurd hs (by have := (hw _ h).nonempty; simp [this])
    | @listed n' u' r x h1 h2 =>
      have hz' : WordStop c%' ' (c%' ' :: r) := wordStop_space.mpr (by simp)
      by_cases hnn : n = n'
      · subst hnn
        exact ⟨r, List.append_cancel_left hs, h2⟩
      · exact absurd hz' (notAt_word (hw _ h1) (hw _ h) hnn hz _ hs)
    | name _ _ h3 | cut _ _ h3 | after _ _ h3 | more _ _ h3 => exact absurd h3 hn
  · rintro ⟨r, rfl, h2⟩
    exact .listed h h2

theorem spaced_strict {b : Byte} {p : Bytes} (hb : b ≠ c%'"') (hu : Unlisted L c%' ' (b :: p)) (x : JError) :
    FlagSpacedFault L true (b :: p) x ↔ x = errAt .InvalidEnum (b :: p) := by
  constructor
  · intro hx
    generalize hs : b :: p = s at hx hu ⊢
    cases hx with
    | none => cases hs
    | listed h1 => exact absurd hu (unlisted_not h1 (wordStop_space.mpr (by simp)))
    | name => rfl
    | cut h | after h | more h => cases h
  · rintro rfl
    exact .name rfl hb hu

theorem spaced_other {b : Byte} {p : Bytes} (hb : b ≠ c%'"') (hu : Unlisted L c%' ' (b :: p)) (x : JError) :
    FlagSpacedFault L false (b :: p) x ↔ (Cut (b :: p) x ∨ ∃ s, Skips (b :: p) s ∧ s ≠ [] ∧
      (Cut (toSep c%' ' s) x ∨ ∃ r, Skips (toSep c%' ' s) r ∧ r ≠ [] ∧ FlagSpacedFault L false r x)) := by
  constructor
  · intro hx
    generalize hs : b :: p = s at hx hu ⊢
    cases hx with
    | none => cases hs
    | listed h1 => exact absurd hu (unlisted_not h1 (wordStop_space.mpr (by simp)))
    | name h => cases h
    | cut _ _ _ h => exact .inl h
    | after _ _ _ h1 h2 h3 h4 h5 =>
      refine .inr ⟨_, h1, h4, .inl ?_⟩
      rw [toSep_takes h2 h3]
      exact h5
    | more _ _ _ h1 h2 h3 h4 h5 h6 =>
      refine .inr ⟨_, h1, ?_, .inr ⟨_, ?_, h5, h6⟩⟩
      · intro h
        rw [(List.append_eq_nil_iff.mp h).2] at h3
        simp at h3
      · rw [toSep_takes h2 (.inr h3)]
        exact h4
  · rintro (h | ⟨s, h1, h2, h⟩)
    · exact .cut rfl hb hu h
    · obtain ⟨a, h3, h4, h5⟩ := toSep_parts (sep := c%' ') s
      generalize toSep c%' ' s = q at h h3 h5
      subst h3
      rcases h with h | ⟨r, h6, h7, h8⟩
      · exact .after rfl hb hu h1 h4 h5 h2 h
      · rcases h5 with rfl | h5
        · exact absurd (h6.unique (.of_stop (by intro b hb; simp at hb))) h7
        · exact .more rfl hb hu h1 h4 h5 h6 h7 h8

theorem flagOneSpaced_told (hw : ∀ y ∈ L, FlagWord c%' ' y.1) (hne : L ≠ [])
    {P M : List (Bytes × BitVec w)} (hL : L = P ++ M) {v v1 : BitVec w} {s p : Bytes} {e : EPtr} {ready : Bool}
    (hs : ready = false → s ≠ [] ∧ s.head? ≠ some c%'"') (hP : ready = false → P ≠ [] → ∀ y ∈ P, NotAt c%' ' y.1 s)
    (h : flagOneStr c%' ' strict M v s .fresh ready = (v1, p, e)) : FlagTold (FlagSpacedFault L strict) s ready p e := by
  induction M generalizing P v s ready with
  | nil =>
    rw [List.append_nil] at hL
    subst hL
    simp only [flagOneStr] at h
    cases ready with
    | true =>
      simp at h
      obtain ⟨_, rfl, rfl⟩ := h
      exact .inl ⟨rfl, fun _ => Iff.rfl, List.suffix_refl _, by simp⟩
    | false =>
      have hu := hP rfl hne
      obtain ⟨hs1, hs2⟩ := hs rfl
      cases s with
      | nil => exact absurd rfl hs1
      | cons b t =>
      have hb : b ≠ c%'"' := by simpa using hs2
      have hu' : Unlisted L c%' ' (b :: t) := by
        intro n hn z hz
        obtain ⟨y, hy, rfl⟩ := List.mem_map.mp hn
        exact hu y hy z hz
      cases strict with
      | true =>
        simp at h
        obtain ⟨_, rfl, rfl⟩ := h
        exact .inl ⟨rfl, fun _ => Iff.rfl, List.suffix_refl _, fun _ _ => spaced_strict hb hu'⟩
      | false =>
        simp only [Bool.or_self, Bool.false_eq_true, if_false] at h
        have hT := spaced_other hb hu'
        rcases space_cases (b :: t) with ⟨s1, h1⟩ | ho
        · rw [h1.run] at h
          simp only at h
          obtain ⟨a, h2, h3, h4⟩ := toSep_parts (sep := c%' ') s1
          have hT1 : ∀ x, FlagSpacedFault L false (b :: t) x ↔ (Cut (toSep c%' ' s1) x ∨
              ∃ r, Skips (toSep c%' ' s1) r ∧ r ≠ [] ∧ FlagSpacedFault L false r x) := by
            intro x
            rw [hT, Cut.of_skips h1]
            cases s1 with
            | nil =>
              rw [show toSep c%' ' [] = [] from rfl]
              have hnil : Skips [] [] := .of_stop (by intro b hb; simp at hb)
              constructor
              · rintro (h | ⟨s, h5, h6, _⟩)
                · exact .inl h
                · exact absurd (h5.unique h1) h6
              · rintro (h | ⟨r, h5, h6, _⟩)
                · exact .inl h
                · exact absurd (h5.unique hnil) h6
            | cons d s1 =>
              constructor
              · rintro (h | ⟨s, h5, _, h6⟩)
                · exact (not_cut h1.stop h).elim
                · rw [h1.unique h5]; exact h6
              · exact fun h => .inr ⟨_, h1, by simp, h⟩
          have hsuf : toSep c%' ' s1 <:+ b :: t := (show toSep c%' ' s1 <:+ s1 from ⟨a, h2.symm⟩).trans h1.suffix
          generalize hq : toSep c%' ' s1 = q at h h2 h4 hT1 hsuf
          rcases space_cases q with ⟨s2, h5⟩ | ho
          · rw [h5.run] at h
            cases s2 with
            | nil =>
              cases h
              refine .inl ⟨rfl, fun x => ?_, List.nil_suffix, by simp⟩
              rw [hT1, Cut.of_skips h5, cut_nil, spaced_nil]
              constructor
              · rintro (h | ⟨r, h6, h7, _⟩)
                · exact h
                · exact absurd (h6.unique h5) h7
              · exact .inl
            | cons d r =>
              simp only at h
              have hd : d ≠ c%' ' := by
                intro hd
                exact (h5.stop d rfl).1 (by rw [hd]; simp [WsByte])
              rw [if_neg hd, h5.idem.run] at h
              cases h
              refine .inl ⟨rfl, fun x => ?_, h5.suffix.trans hsuf, fun _ hl => ?_⟩
              · rw [hT1, Cut.of_skips h5]
                constructor
                · rintro (h | ⟨r', h6, _, h8⟩)
                  · exact (not_cut h5.stop h).elim
                  · rw [h5.unique h6]; exact h8
                · exact fun h => .inr ⟨_, h5, by simp, h⟩
              · exfalso
                have l1 := h5.suffix.length_le
                have l2 := hsuf.length_le
                have l3 := h1.suffix.length_le
                have hqs : q = b :: t := hsuf.eq_of_length (by omega)
                have hqd : b :: t = d :: r := (h5.suffix.eq_of_length (by omega)).symm ▸ hqs.symm
                rcases h4 with h4 | h4 | h4
                · rw [hqs] at h4; cases h4
                · rw [hqs, hqd] at h4; exact hd (by simpa using h4)
                · rw [hqs] at h4; exact hb (by simpa using h4)
          · rw [ho.run] at h
            cases h
            refine .inr ⟨commentErr, commentErr_code, rfl, fun x => ?_⟩
            rw [hT1, cut_open ho]
            constructor
            · rintro (h | ⟨r, h6, _⟩)
              · exact h
              · exact (h6.not_open ho).elim
            · exact .inl
        · rw [ho.run] at h
          have hcf : createError .UnexpectedEndFragment .fresh (some b!"Unterminated comment") = .obj commentErr := rfl
          rw [hcf] at h
          cases h
          refine .inr ⟨commentErr, commentErr_code, rfl, fun x => ?_⟩
          rw [hT, cut_open ho]
          constructor
          · rintro (h | ⟨r, h6, _⟩)
            · exact h
            · exact (h6.not_open ho).elim
          · exact .inl
  | cons y M ih =>
    have hL' : L = (P ++ [y]) ++ M := by rw [hL]; simp
    rw [flagOneStr] at h
    by_cases hs0 : s = []
    · rw [if_pos hs0] at h
      cases h
      exact .inl ⟨rfl, fun _ => Iff.rfl, List.suffix_refl _, fun hr => absurd hs0 (hs hr).1⟩
    rw [if_neg hs0] at h
    simp only [ne_eq, not_true, if_false, false_and, false_or] at h
    cases s with
    | nil => exact absurd rfl hs0
    | cons b t =>
      simp only at h
      by_cases hb : b = c%'"'
      · rw [if_pos hb] at h
        cases h
        refine .inl ⟨rfl, fun _ => Iff.rfl, List.suffix_refl _, fun h3 _ => ?_⟩
        exact absurd (by simp [hb]) (hs h3).2
      · rw [if_neg hb] at h
        have next : NotAt c%' ' y.1 (b :: t) → flagOneStr c%' ' strict M v (b :: t) .fresh ready = (v1, p, e) →
            FlagTold (FlagSpacedFault L strict) (b :: t) ready p e := by
          intro hy h
          refine ih hL' (fun _ => ⟨by simp, by simpa using hb⟩) (fun hr _ z hz => ?_) h
          rcases List.mem_append.mp hz with hz | hz
          · exact hP hr (List.ne_nil_of_mem hz) z hz
          · simp at hz
            rw [hz]
            exact hy
        cases hm : matchName y.1 (b :: t) with
        | mk m1 m2 =>
        rw [hm] at h
        have hno : m1 ≠ [] ∨ ¬ WordStop c%' ' m2 → NotAt c%' ' y.1 (b :: t) := by
          intro hm2 z hz
          rw [hz, matchName_self] at hm
          cases hm
          simpa using hm2
        cases m1 with
        | cons _ _ => exact next (hno (by simp)) h
        | nil =>
          cases m2 with
          | nil => exact next (hno (.inr not_wordStop_nil)) h
          | cons d q =>
            simp only at h
            have hst : (d = c%' ' ∨ d = c%'"') ↔ WordStop c%' ' (d :: q) := by
              rw [wordStop_space]
              simp
            by_cases hd : WordStop c%' ' (d :: q)
            · rw [if_pos (hst.mpr hd)] at h
              have hbt := matchName_iff.mp hm
              have hT := spaced_listed (strict := strict) hw (n := y.1) (u := y.2) (by rw [hL]; simp) hd
              rw [← hbt] at hT
              have hlt : (d :: q).length < (b :: t).length := by
                have hy := (hw y (by rw [hL]; simp)).nonempty
                rw [hbt]
                have := List.length_pos_iff.mpr hy
                simp only [List.length_append]
                omega
              have hsq : d :: q <:+ b :: t := ⟨y.1, hbt.symm⟩
              by_cases hd' : d = c%'"'
              · subst hd'
                rw [if_pos rfl] at h
                cases h
                refine .inl ⟨rfl, fun x => ?_, hsq, fun _ h9 => by omega⟩
                rw [hT]
                constructor
                · rintro ⟨r, h, _⟩; simp at h
                · exact fun h => absurd h (spaced_close hw _ _)
              · have hd2 : d = c%' ' := (hst.mpr hd).resolve_right hd'
                subst hd2
                rw [if_neg hd'] at h
                simp only [if_true] at h
                have hi := ih hL' (by simp) (by simp) h
                refine hi.from (fun x => ?_) ((suffix_cons _ _).trans hsq) (by simp only [List.length_cons] at hlt ⊢; omega)
                rw [hT]
                simp
            · rw [if_neg (fun h => hd (hst.mp h))] at h
              exact next (hno (.inr hd)) h

/-! ### Flags -/

theorem flags_diagnosed {G : Flags w} (hne : G.list ≠ []) (hsep : GoodSep G.sep) (hw : ∀ y ∈ G.list, FlagWord G.sep y.1) (v0 : BitVec w) :
    Diagnosed (deFlags c G) v0 (FlagsFault G) := by
  intro s v p e h
  cases s with
  | nil =>
    cases h
    refine .inr ⟨endErr, by simp [endErr], rfl, fun x => ⟨fun h => ?_, ?_⟩⟩
    · cases h; rfl
    · rintro rfl; exact .none
  | cons b t =>
    simp only [deFlags] at h
    by_cases hb : b ≠ c%'[' ∧ b ≠ c%'"'
    · rw [if_pos hb] at h
      cases h
      refine .inr ⟨expectAt b!"\"" (b :: t), by simp [expectAt], rfl, fun x => ⟨fun h => ?_, ?_⟩⟩
      · cases h with
        | kind => rfl
        | array => exact absurd rfl hb.1
        | string | spaced => exact absurd rfl hb.2
      · rintro rfl; exact .kind hb.1 hb.2
    · rw [if_neg hb] at h
      obtain ⟨⟨v1, p1, e1⟩, h1, h2⟩ := Out.bind_eq_ok.mp h
      simp only at h2
      have fin : ∀ T : Bytes → JError → Prop, (∀ x, FlagsFault G (b :: t) x ↔ T t x) → (∀ x, T [] x ↔ x = endErr) →
          ((e1 = .fresh ∧ t = [] ∧ p1 = []) ∨
            (e1 = .fresh ∧ (∀ x, ¬ T t x) ∧ ∃ q, p1 = (if decide (b = c%'[') = true then c%']' else c%'"') :: q) ∨
            ∃ x : JError, x.code ≠ .ValidJSON ∧ e1 = .obj x ∧ ∀ x', T t x' ↔ x' = x) →
          (e = .fresh ∧ ∀ x, ¬ FlagsFault G (b :: t) x) ∨
            ∃ x : JError, x.code ≠ .ValidJSON ∧ e = .obj x ∧ ∀ x', FlagsFault G (b :: t) x' ↔ x' = x := by
        rintro T hT hnil (⟨rfl, rfl, rfl⟩ | ⟨rfl, h3, q, rfl⟩ | ⟨x, h3, rfl, h4⟩)
        · cases h2
          exact .inr ⟨endErr, by simp [endErr], rfl, fun x => (hT x).trans (hnil x)⟩
        · have : ¬ ((if decide (b = c%'[') = true then c%']' else c%'"') ≠ c%']' ∧ (if decide (b = c%'[') = true then c%']' else c%'"') ≠ c%'"') := by
            split <;> simp
          simp only [flagsEnd] at h2
          rw [if_neg this] at h2
          cases h2
          exact .inl ⟨rfl, fun x hx => h3 x ((hT x).mp hx)⟩
        · refine .inr ⟨x, h3, ?_, fun x' => (hT x').trans (h4 x')⟩
          have hf := obj_failed h3
          cases p1 with
          | nil => cases h2; exact createError_failed hf _ _ _
          | cons d q =>
            simp only [flagsEnd] at h2
            split at h2
            · cases h2; exact createError_failed hf _ _ _
            · cases h2; rfl
      by_cases hbr : b = c%'['
      · subst hbr
        refine fin (FlagArrFault G.list G.strict) (fun x => ⟨fun h => ?_, .array⟩) arrTable.fin ?_
        · cases h with
          | kind h => exact absurd rfl h
          | array h => exact h
        · refine flagLoop_told arrTable.fin (arr_close) ?_ (by omega) h1
          intro v v1 s p e hs0 hs1 ho
          simp only [flagOne, decide_true, if_true] at ho hs1
          exact flagOneArr_told (fun y hy => noquote_word (hw y hy)) hne (P := []) rfl (fun _ => ⟨hs0, hs1⟩) (fun _ h => absurd rfl h) ho
      · have hbq : b = c%'"' := by
          by_cases h : b = c%'"'
          · exact h
          · exact absurd ⟨hbr, h⟩ hb
        subst hbq
        by_cases hsp : G.sep = c%' '
        · have hw' : ∀ y ∈ G.list, FlagWord c%' ' y.1 := by rw [← hsp]; exact hw
          refine fin (FlagSpacedFault G.list G.strict) (fun x => ⟨fun h => ?_, .spaced hsp⟩) spaced_nil ?_
          · cases h with
            | kind _ h => exact absurd rfl h
            | string h => exact absurd hsp h
            | spaced _ h => exact h
          · refine flagLoop_told spaced_nil (spaced_close hw') ?_ (by omega) h1
            intro v v1 s p e hs0 hs1 ho
            simp only [flagOne, hsp] at ho
            exact flagOneSpaced_told hw' hne (P := []) rfl (fun _ => ⟨hs0, hs1⟩) (fun _ h => absurd rfl h) (by simpa using ho)
        · refine fin (FlagStrFault G.list G.strict G.sep) (fun x => ⟨fun h => ?_, .string hsp⟩) strTable.fin ?_
          · cases h with
            | kind _ h => exact absurd rfl h
            | string _ h => exact h
            | spaced h => exact absurd h hsp
          · refine flagLoop_told strTable.fin (str_close) ?_ (by omega) h1
            intro v v1 s p e hs0 hs1 ho
            simp only [flagOne] at ho
            exact flagOneStr_told hsep hsp hw hne (P := []) rfl (fun _ => ⟨hs0, hs1⟩) (fun _ h => absurd rfl h) (by simpa using ho)

end Wjson
