import Verif.Spec.Ends
import Verif.Proofs.Described
/-
The invariant behind C65: whenever an error is set, the position is `end`.
-/
namespace Wjson
open Spec

theorem BadEscape.mono {s p : Bytes} (h : p <:+ s) (hb : BadEscape p) : BadEscape s := by
  obtain ⟨t, ⟨h1, h2⟩ | ⟨h1, h2⟩⟩ := hb
  · exact ⟨t, .inl ⟨h1.trans h, h2⟩⟩
  · exact ⟨t, .inr ⟨h1.trans h, h2⟩⟩

/-- A text without backslashes has no escapes. -/
theorem not_badEscape {s : Bytes} (h : c%'\\' ∉ s) : ¬ BadEscape s := by
  rintro ⟨t, ⟨h1, _⟩ | ⟨h1, _⟩⟩ <;> exact h (h1.subset (by simp))

/-- The position `p` in `s0` and the error argument `e` agree. -/
structure Co (s0 p : Bytes) (e : EPtr) : Prop where
  suffix : p <:+ s0
  err : e.failed = true → p = [] ∨ (BadEscape s0 ∧ e = .obj badEscapeError)

/-- Every defined outcome agrees. -/
def OutCo {α : Type} (s0 : Bytes) (o : Out (α × Bytes × EPtr)) : Prop := ∀ v p e, o = .ok (v, p, e) → Co s0 p e

/-- The reader keeps position and error argument in agreement. -/
def Ends {α : Type} (de : De α) : Prop := ∀ s0 v s e, Co s0 s e → OutCo s0 (de v s e)

theorem Co.start {s : Bytes} {e : EPtr} (he : e.failed = false) : Co s s e :=
  ⟨List.suffix_refl s, fun h => by simp [he] at h⟩

theorem Co.nil (s0 : Bytes) (e : EPtr) : Co s0 [] e := ⟨List.nil_suffix, fun _ => .inl rfl⟩

theorem Co.mono {s s0 p : Bytes} {e : EPtr} (hs : s <:+ s0) (h : Co s p e) : Co s0 p e :=
  ⟨h.suffix.trans hs, fun hf => (h.err hf).imp id fun h => ⟨h.1.mono hs, h.2⟩⟩

theorem Co.sub {s0 s p : Bytes} {e : EPtr} (h : Co s0 s e) (hp : p <:+ s) : Co s0 p e :=
  ⟨hp.trans h.suffix, fun hf => (h.err hf).imp (fun h => by subst h; exact List.suffix_nil.mp hp) id⟩

theorem Co.tail {s0 p : Bytes} {b : Byte} {e : EPtr} (h : Co s0 (b :: p) e) : Co s0 p e := h.sub (suffix_cons b p)

/-- One step of a failed reader. -/
theorem Co.failed {s0 s p : Bytes} {e e' : EPtr} {n : Nat} (h : Co s0 s e) (hf : e.failed = true) (hp : p <:+ s)
    (he : EStep n e e') : Co s0 p e' := by
  rw [he.of_failed hf]; exact h.sub hp

theorem Co.scan {s0 s : Bytes} {e : EPtr} {g : EPtr → Bytes × EPtr} (h : Co s0 s e) (hg : ScanAt s g) :
    Co s0 (g e).1 (g e).2 := by
  obtain ⟨p, ev, h1, h2⟩ := hg
  rw [h1 e]
  cases ev with
  | none => exact h.sub h2.suffix
  | some x => rw [(h2.err x rfl).2.1]; exact .nil _ _

theorem Co.space {s0 s : Bytes} {e : EPtr} (h : Co s0 s e) : Co s0 (parseSpace s e).1 (parseSpace s e).2 :=
  h.scan (parseSpace_scan s)

theorem OutCo.ok {α : Type} {s0 p : Bytes} {e : EPtr} {v : α} (h : Co s0 p e) : OutCo s0 (.ok (v, p, e)) := by
  intro v' p' e' h'; cases h'; exact h

theorem OutCo.nil {α : Type} {s0 : Bytes} {e : EPtr} {v : α} : OutCo s0 (.ok (v, [], e)) := .ok (.nil _ _)

theorem OutCo.ub {α : Type} {s0 : Bytes} : OutCo s0 (.ub : Out (α × Bytes × EPtr)) := by intro v p e h; cases h

theorem OutCo.fuel {α : Type} {s0 : Bytes} : OutCo s0 (.fuel : Out (α × Bytes × EPtr)) := by intro v p e h; cases h

theorem OutCo.mono {α : Type} {s s0 : Bytes} {o : Out (α × Bytes × EPtr)} (hs : s <:+ s0) (h : OutCo s o) :
    OutCo s0 o := fun v p e ho => (h v p e ho).mono hs

theorem OutCo.bind {α β : Type} {s0 : Bytes} {o : Out (α × Bytes × EPtr)} {f : α × Bytes × EPtr → Out (β × Bytes × EPtr)}
    (h : OutCo s0 o) (hf : ∀ v p e, Co s0 p e → OutCo s0 (f (v, p, e))) : OutCo s0 (o >>= f) := by
  cases o with
  | ok x => obtain ⟨v, p, e⟩ := x; exact hf v p e (h v p e rfl)
  | ub => exact .ub
  | fuel => exact .fuel

/-- A step that does not touch position and error. -/
theorem OutCo.skip {α β : Type} {s0 : Bytes} {o : Out α} {f : α → Out (β × Bytes × EPtr)}
    (hf : ∀ v, OutCo s0 (f v)) : OutCo s0 (o >>= f) := by
  cases o with
  | ok x => exact hf x
  | ub => exact .ub
  | fuel => exact .fuel

theorem OutCo.ite {α : Type} {s0 : Bytes} {q : Prop} [Decidable q] {a b : Out (α × Bytes × EPtr)} (ha : q → OutCo s0 a)
    (hb : ¬ q → OutCo s0 b) : OutCo s0 (if q then a else b) := by
  split
  · next h => exact ha h
  · next h => exact hb h

theorem OutCo.scanO {α : Type} {c : Cfg} {s0 s : Bytes} {e : EPtr} {g : EPtr → Out (Bytes × EPtr)}
    {f : Bytes × EPtr → Out (α × Bytes × EPtr)} (h : Co s0 s e) (hg : ScanO c s g)
    (hf : ∀ p e', p <:+ s → Co s0 p e' → OutCo s0 (f (p, e'))) : OutCo s0 (g e >>= f) := by
  rcases hg with ⟨p, ev, h1, h2⟩ | ⟨h1, _⟩
  · rw [h1 e]
    refine hf p _ h2.suffix ?_
    cases ev with
    | none => exact h.sub h2.suffix
    | some x => rw [(h2.err x rfl).2.1]; exact .nil _ _
  · rw [h1 e]; exact .ub

/-! ### Leaves -/

theorem parseNull_ends {α : Type} {s0 s : Bytes} {e : EPtr} (v : α) (h : Co s0 s e) :
    OutCo s0 (.ok (v, (parseNull s e).1, (parseNull s e).2)) := .ok (h.scan (parseNull_scan s))

theorem deInt_ends (c : Cfg) (ty : IntTy) : Ends (deInt c ty) := by
  intro s0 v s e h
  unfold deInt
  refine .ite (fun _ => parseNull_ends _ h) fun _ => ?_
  unfold unserializeInteger
  cases s with
  | nil => exact .nil
  | cons b t =>
    simp only
    have hs : Co s0 (if b = c%'-' then t else b :: t) e := by
      split
      · exact h.tail
      · exact h
    generalize (if b = c%'-' then t else b :: t) = s at hs ⊢
    cases s with
    | nil => exact .nil
    | cons b' t' =>
      simp only
      refine .ite (fun _ => .nil) fun _ => .ite (fun _ => .ok hs.tail) fun _ => ?_
      rcases accInt_safe c ty 0 (b' :: t') with ⟨h1, _⟩ | ⟨w, p, h1, h2⟩
      · rw [h1]; exact .ub
      · rw [h1]
        exact OutCo.skip (f := fun v => Out.ok (v, p, e)) fun _ => .ok (hs.sub h2)

theorem deBool_ends : Ends deBool := by
  intro s0 v s e h
  unfold deBool
  cases s with
  | nil => exact .nil
  | cons b t =>
    simp only
    refine .ite (fun _ => parseNull_ends _ h) fun _ => .ite (fun _ => .ok (h.scan (parseBool_scan _))) fun _ =>
      .ite (fun _ => .ok (h.scan (parseBool_scan _))) fun _ => .nil

theorem deFloat_ends {α : Type} (F : FloatTy α) (R : Int) : Ends (deFloat F R) := by
  intro s0 v s e h
  unfold deFloat
  cases s with
  | nil => exact .nil
  | cons b t =>
    simp only
    exact .ite (fun _ => parseNull_ends _ h) fun _ => .ite (fun _ => .nil) fun _ => .ok (h.scan (parseNumber_scan _))

theorem deRaw_ends (c : Cfg) : Ends (deRaw c) := fun _ _ s _ h =>
  .scanO h (parseValue_scan c s) fun _ _ _ h => .ok h

theorem deRawQuoted_ends (c : Cfg) (reqQ : Bool) : Ends (deRawQuoted c reqQ) := by
  intro s0 v s e h
  unfold deRawQuoted
  cases s with
  | nil => exact .nil
  | cons b t =>
    simp only
    refine .ite (fun _ => .nil) fun _ => ?_
    have hs : Co s0 (if reqQ then t else b :: t) e := by
      split
      · exact h.tail
      · exact h
    generalize (if reqQ then t else b :: t) = s at hs ⊢
    refine .scanO hs (parseValue_scan c s) fun p e' _ hp => ?_
    refine .ite (fun _ => .ok hp) fun _ => .ite (fun _ => ?_) fun _ => .ok hp
    cases p with
    | nil => exact .nil
    | cons d q => exact .ite (fun _ => .ok hp.tail) fun _ => .nil

theorem skipLow_suffix' (c : Cfg) (s : Bytes) : skipLow c s <:+ s := by
  induction s with
  | nil => exact List.suffix_refl _
  | cons b s ih =>
    simp only [skipLow]
    split
    · exact ih.trans (suffix_cons b s)
    · exact List.suffix_refl _

theorem toQuote_suffix' (s : Bytes) : (toQuote s).2 <:+ s := by
  induction s with
  | nil => exact List.suffix_refl _
  | cons b s ih =>
    simp only [toQuote]
    split
    · exact List.suffix_refl _
    · exact ih.trans (suffix_cons b s)

theorem deEnum_ends {α : Type} (c : Cfg) (strict : Bool) (dflt : α) (L : List (Bytes × α)) : Ends (deEnum c strict dflt L) := by
  intro s0 v s e h
  unfold deEnum
  have h1 := h.sub (skipLow_suffix' c s)
  generalize skipLow c s = s at h1 ⊢
  cases s with
  | nil => exact .nil
  | cons b p =>
    simp only
    refine .ite (fun _ => .nil) fun _ => ?_
    cases p with
    | nil => exact .nil
    | cons b p =>
      simp only
      have h2 := h1.tail.sub (toQuote_suffix' (b :: p))
      generalize (toQuote (b :: p)).2 = q at h2 ⊢
      cases q with
      | nil => exact .nil
      | cons d q =>
        simp only
        cases enumFind L (toQuote (b :: p)).1 with
        | some v => exact .ok h2.tail
        | none => exact .ite (fun _ => .nil) fun _ => .ok h2.tail

/-! ### Flags -/

theorem toSep_suffix' (sep : Byte) (s : Bytes) : toSep sep s <:+ s := by
  induction s with
  | nil => exact List.suffix_refl _
  | cons b s ih =>
    simp only [toSep]
    split
    · exact ih.trans (suffix_cons b s)
    · exact List.suffix_refl _

theorem matchName_suffix' (n s : Bytes) : (matchName n s).2 <:+ s := by
  induction n generalizing s with
  | nil => simp [matchName]
  | cons a n ih =>
    cases s with
    | nil => simp [matchName]
    | cons b s =>
      simp only [matchName]
      split
      · exact (ih s).trans (suffix_cons b s)
      · exact List.suffix_refl _

theorem Co.step {s0 p : Bytes} {b sep : Byte} {e : EPtr} (h : Co s0 (b :: p) e) : Co s0 (if b = sep then p else b :: p) e := by
  split
  · exact h.tail
  · exact h

theorem Co.spaceIf {q : Prop} [Decidable q] {s0 s : Bytes} {e : EPtr} (h : Co s0 s e) :
    Co s0 (if q then parseSpace s e else (s, e)).1 (if q then parseSpace s e else (s, e)).2 := by
  split
  · exact h.space
  · exact h

theorem flagOneStr_co {w : Nat} (sep : Byte) (strict : Bool) {s0 : Bytes} (L : List (Bytes × BitVec w)) (v : BitVec w) (s : Bytes)
    (e : EPtr) (ready : Bool) (h : Co s0 s e) :
    Co s0 (flagOneStr sep strict L v s e ready).2.1 (flagOneStr sep strict L v s e ready).2.2 := by
  induction L generalizing v s e ready with
  | nil =>
    unfold flagOneStr
    split
    · exact h
    · simp only
      have h1 := (h.space.sub (toSep_suffix' sep _)).space
      generalize parseSpace (toSep sep (parseSpace s e).1) (parseSpace s e).2 = r at h1 ⊢
      obtain ⟨p, e'⟩ := r
      cases p with
      | nil => exact .nil _ _
      | cons b p => exact (Co.step h1).space
  | cons x L ih =>
    unfold flagOneStr
    split
    · exact h
    · simp only
      have h1 := h.spaceIf (q := sep ≠ c%' ')
      generalize (if sep ≠ c%' ' then parseSpace s e else (s, e)) = r at h1 ⊢
      obtain ⟨p, e1⟩ := r
      simp only at h1 ⊢
      cases p with
      | nil => exact .nil _ _
      | cons b p =>
        simp only
        split
        · exact h1
        · have h2 := h1.sub (matchName_suffix' x.1 (b :: p))
          generalize matchName x.1 (b :: p) = m at h2 ⊢
          obtain ⟨m1, m2⟩ := m
          simp only at h2
          cases m1 with
          | cons _ _ => exact ih _ _ _ _ h1
          | nil =>
            cases m2 with
            | nil => exact ih _ _ _ _ h1
            | cons d q =>
              simp only
              split
              · have h3 := h2.spaceIf (q := sep ≠ c%' ')
                generalize (if sep ≠ c%' ' then parseSpace (d :: q) e1 else (d :: q, e1)) = r at h3 ⊢
                obtain ⟨p3, e3⟩ := r
                simp only at h3 ⊢
                cases p3 with
                | nil => exact .nil _ _
                | cons d q =>
                  simp only
                  split
                  · exact h3
                  · exact ih _ _ _ _ (Co.step h3)
              · exact ih _ _ _ _ h1

theorem flagOneArr_ends {w : Nat} (c : Cfg) (strict : Bool) {s0 : Bytes} (L : List (Bytes × BitVec w)) (v : BitVec w) (s : Bytes)
    (e : EPtr) (ready : Bool) (h : Co s0 s e) : OutCo s0 (flagOneArr c strict L v s e ready) := by
  induction L generalizing v s e ready with
  | nil =>
    unfold flagOneArr
    refine .ite (fun _ => .ok h) fun _ => .skip fun b => .ite (fun _ => .ok h.space) fun _ => ?_
    simp only
    have h1 := (h.space.scan (parseString_scan _)).space
    generalize parseSpace (parseString (parseSpace s e).1 (parseSpace s e).2).1
      (parseString (parseSpace s e).1 (parseSpace s e).2).2 = r at h1 ⊢
    obtain ⟨p, e'⟩ := r
    cases p with
    | nil => exact .nil
    | cons b p => exact .ok (Co.step h1).space
  | cons x L ih =>
    unfold flagOneArr
    simp only
    have h1 := h.space
    generalize parseSpace s e = r at h1 ⊢
    obtain ⟨p, e1⟩ := r
    simp only at h1 ⊢
    cases p with
    | nil => exact .nil
    | cons b p =>
      refine .ite (fun _ => .ok h1) fun _ => .ite (fun _ => .nil) fun _ => ?_
      have h2 := h1.tail.sub (matchName_suffix' x.1 p)
      generalize matchName x.1 p = m at h2 ⊢
      obtain ⟨m1, m2⟩ := m
      simp only at h2
      cases m1 with
      | cons _ _ => exact ih _ _ _ _ h1
      | nil =>
        cases m2 with
        | nil => exact ih _ _ _ _ h1
        | cons d q =>
          refine .ite (fun _ => ?_) fun _ => ih _ _ _ _ h1
          have h3 := h2.tail.space
          generalize parseSpace q e1 = r at h3 ⊢
          obtain ⟨p3, e3⟩ := r
          simp only at h3 ⊢
          cases p3 with
          | nil => exact .nil
          | cons d q => exact .ite (fun _ => .ok h3) fun _ => ih _ _ _ _ h3.tail.space

theorem flagLoopF_ends {w : Nat} (c : Cfg) (F : Flags w) (arr : Bool) {s0 : Bytes} (n : Nat) (v : BitVec w) (s : Bytes) (e : EPtr)
    (h : Co s0 s e) : OutCo s0 (flagLoopF c F arr n v s e) := by
  induction n generalizing v s e with
  | zero => exact .fuel
  | succ n ih =>
    unfold flagLoopF
    cases s with
    | nil => exact .nil
    | cons b p =>
      refine .ite (fun _ => .ok h) fun _ => .bind ?_ fun v p e h => ?_
      · unfold flagOne
        exact .ite (fun _ => flagOneArr_ends c _ _ _ _ _ _ h) fun _ => .ok (flagOneStr_co _ _ _ _ _ _ _ h)
      · exact .ite (fun _ => .nil) fun _ => .ite (fun _ => .nil) fun _ => ih _ _ _ h

theorem deFlags_ends {w : Nat} (c : Cfg) (F : Flags w) : Ends (deFlags c F) := by
  intro s0 v s e h
  unfold deFlags
  cases s with
  | nil => exact .nil
  | cons b p =>
    refine .ite (fun _ => .nil) fun _ => .bind (flagLoopF_ends c F _ _ _ _ _ h.tail) fun v p e h => ?_
    unfold flagsEnd
    cases p with
    | nil => exact .nil
    | cons b p => exact .ite (fun _ => .nil) fun _ => .ok h.tail

/-! ### Time intervals -/

theorem timeLoopF_ends (c : Cfg) (ty : IntTy) (fr : Int) {s0 : Bytes} (n : Nat) (v : Int) (s : Bytes) (e : EPtr)
    (h : Co s0 s e) : OutCo s0 (timeLoopF c ty fr n v s e) := by
  induction n generalizing v s e with
  | zero => exact .fuel
  | succ n ih =>
    cases s with
    | nil => exact .nil
    | cons b t =>
      unfold timeLoopF
      refine .ite (fun _ => .ok h.tail) fun _ => .bind (deInt_ends c ty _ _ _ _ h) fun v p e h => ?_
      refine .ite (fun _ => .ok h) fun _ => ?_
      cases p with
      | nil => exact .nil
      | cons u t =>
        simp only
        refine .ite (fun _ => .skip fun _ => ih _ _ _ h.tail) fun _ => .ite (fun _ => .skip fun _ => ih _ _ _ h.tail)
          fun _ => .ite (fun _ => ?_) fun _ => .ite (fun _ => .skip fun _ => ih _ _ _ h.tail) fun _ => ih _ _ _ h.tail
        cases t with
        | nil => exact .skip fun _ => ih _ _ _ h.tail
        | cons w t =>
          refine .ite (fun _ => .skip fun _ => ih _ _ _ h.tail.tail) fun _ => .ite (fun _ => .skip fun _ => ?_)
            fun _ => .skip fun _ => ih _ _ _ h.tail
          cases t with
          | nil => exact .ub
          | cons x t => exact ih _ _ _ h.tail.tail.tail

theorem deTime_ends (c : Cfg) (ty : IntTy) (fr : Int) : Ends (deTime c ty fr) := by
  intro s0 v s e h
  unfold deTime
  cases s with
  | nil => exact .nil
  | cons b t =>
    exact .ite (fun _ => parseNull_ends _ h) fun _ => .ite (fun _ => deInt_ends c ty _ _ _ _ h) fun _ =>
      .ite (fun _ => .nil) fun _ => timeLoopF_ends c ty fr _ _ _ _ h.tail

/-! ### Strings -/

theorem hexVal_badOr (b : Byte) (e : EPtr) : (hexVal b e).2 = e ∨ (¬ HexDigit b ∧ (hexVal b e).2 = createError .InvalidString e) := by
  by_cases h : HexDigit b
  · exact .inl (by rw [hexVal_hex h])
  · exact .inr ⟨h, by rw [hexVal_bad h]⟩

theorem hexN_badOr {k acc : Nat} {s : Bytes} {e : EPtr} (he : e.failed = false) {h : Nat} {p : Bytes} {e' : EPtr}
    (hh : hexN k acc s e = (some (h, p), e')) :
    e'.failed = false ∨ (e' = .obj badEscapeError ∧ ∃ d ∈ s.take k, ¬ HexDigit d) := by
  induction k generalizing acc s e with
  | zero => simp only [hexN, Prod.mk.injEq] at hh; exact .inl (hh.2 ▸ he)
  | succ k ih =>
    cases s with
    | nil => simp [hexN] at hh
    | cons b t =>
      simp only [hexN] at hh
      rcases hexVal_badOr b e with h1 | ⟨hb, h1⟩
      · rw [h1] at hh
        rcases ih he hh with h | ⟨h, d, hd, hn⟩
        · exact .inl h
        · exact .inr ⟨h, d, by simp [hd], hn⟩
      · rw [h1] at hh
        cases e with
        | null =>
          rcases ih rfl hh with h | ⟨h, d, hd, hn⟩
          · exact .inl h
          · exact .inr ⟨h, d, by simp [hd], hn⟩
        | obj x =>
          have hx : x.status = false := he
          have h2 : createError .InvalidString (.obj x) = .obj badEscapeError := by
            simp [createError, hx, badEscapeError]
          rw [h2] at hh
          refine .inr ⟨?_, b, by simp, hb⟩
          have h3 := hexN_estep k (acc * 16 + (hexVal b (.obj x)).1) t (.obj badEscapeError) 0
          rw [hh] at h3
          exact h3.of_failed rfl

theorem utf8Copy_co {s0 : Bytes} (i : Nat) (s : Bytes) (n : Nat) (e : EPtr) (h : Co s0 s e) :
    Co s0 (utf8Copy i s n e).2.1 (utf8Copy i s n e).2.2.2 := by
  induction i generalizing s n with
  | zero => exact h
  | succ i ih =>
    cases n with
    | zero => exact h
    | succ n =>
      cases s with
      | nil => exact .nil _ _
      | cons b t => exact ih t n h.tail

theorem uhexStep_co {s0 s : Bytes} {n : Nat} {e : EPtr} (he : e.failed = false) (h : c%'\\' :: c%'u' :: s <:+ s0) :
    Co s0 (uhexStep s n e).2.1 (uhexStep s n e).2.2.2 := by
  have hs : s <:+ s0 := ((suffix_cons _ s).trans (suffix_cons _ _)).trans h
  have h0 : Co s0 s e := (Co.start he).mono hs
  unfold uhexStep
  split
  · exact h0
  · split
    · exact .nil _ _
    · next hex p e' hh =>
      have h1 : Co s0 p e' := by
        refine ⟨(hexN_suffix hh).trans hs, fun hf => ?_⟩
        rcases hexN_badOr he hh with h2 | ⟨h2, h3⟩
        · simp [hf] at h2
        · exact .inr ⟨⟨s, .inl ⟨h, h3⟩⟩, h2⟩
      simp only
      repeat' split
      all_goals first | exact h1 | exact .nil _ _

theorem xhexStep_co {s0 s : Bytes} {n : Nat} {e : EPtr} (he : e.failed = false) (h : c%'\\' :: c%'x' :: s <:+ s0) :
    Co s0 (xhexStep s n e).2.1 (xhexStep s n e).2.2.2 := by
  have hs : s <:+ s0 := ((suffix_cons _ s).trans (suffix_cons _ _)).trans h
  unfold xhexStep
  split
  · exact .nil _ _
  · next hex p e' hh =>
    refine ⟨(hexN_suffix hh).trans hs, fun hf => ?_⟩
    rcases hexN_badOr he hh with h2 | ⟨h2, h3⟩
    · simp [hf] at h2
    · exact .inr ⟨⟨s, .inr ⟨h, h3⟩⟩, h2⟩

theorem strStep_co {s0 : Bytes} (b : Byte) (t : Bytes) {n : Nat} (hn : n ≠ 0) (e : EPtr) (h : Co s0 (b :: t) e) :
    Co s0 (strStep b t n e).2.1 (strStep b t n e).2.2.2 := by
  cases he : e.failed with
  | true => exact h.failed he (strStep_ok b t hn e).suffix (strStep_ok b t hn e).err
  | false =>
    unfold strStep
    split
    · next hb =>
      subst hb
      cases t with
      | nil => exact .nil _ _
      | cons x t' =>
        simp only
        split
        · exact h.tail.tail
        · split
          · next hx => subst hx; exact uhexStep_co he h.suffix
          · split
            · next hx => subst hx; exact xhexStep_co he h.suffix
            · exact .nil _ _
    · unfold utf8Step
      repeat' split
      · exact h.tail
      · exact utf8Copy_co _ _ _ _ h
      · exact utf8Copy_co _ _ _ _ h
      · exact utf8Copy_co _ _ _ _ h
      · exact .nil _ _

theorem strDec_co {s0 : Bytes} (s : Bytes) (n : Nat) (e : EPtr) (h : Co s0 s e) :
    Co s0 (strDec s n e).2.1 (strDec s n e).2.2 := by
  induction hl : s.length using Nat.strongRecOn generalizing s n e with
  | ind m ih =>
    subst hl
    rw [strDec.eq_def]
    cases s with
    | nil => exact .nil _ _
    | cons b t =>
      simp only
      split
      · exact h.tail
      · split
        · exact .nil _ _
        · next hn => exact ih _ (strStep_length b t e hn) _ _ _ (strStep_co b t hn e h) rfl

theorem unserializeStr_ends {α : Type} {s0 s : Bytes} {k : Sink} {n : Nat} {e : EPtr} (f : Sink → α) (h : Co s0 s e) :
    OutCo s0 (unserializeStr s k n e >>= fun r => .ok (f r.1, r.2)) := by
  unfold unserializeStr
  cases s with
  | nil => exact .nil
  | cons b t =>
    simp only
    split
    · exact .nil
    · cases k.puts (strDec t n e).1 with
      | ok k' => exact .ok (strDec_co _ _ _ h.tail)
      | ub => exact .ub
      | fuel => exact .fuel

theorem deStr_ends : Ends deStr := by
  intro s0 v s e h
  unfold deStr
  exact .ite (fun _ => parseNull_ends _ h) fun _ => unserializeStr_ends _ h

theorem deCharArray_ends (N : Nat) : Ends (deCharArray N) := by
  intro s0 v s e h
  unfold deCharArray
  exact .ite (fun _ => parseNull_ends _ h) fun _ => unserializeStr_ends _ h

/-! ### Wrappers -/

theorem dePointer_ends {α : Type} {S : Ser α} (hS : Ends S.de) : Ends (dePointer S) := by
  intro s0 v s e h
  unfold dePointer
  cases s with
  | nil => exact .nil
  | cons b t =>
    exact .ite (fun _ => .bind (hS _ _ _ _ h) fun _ _ _ h => .ok h) fun _ => .ok (h.sub (List.drop_suffix _ _))

theorem deQuotedStr_ends {α : Type} (S : Ser α) : Ends (deQuotedStr S) := by
  intro s0 v s e h
  unfold deQuotedStr
  refine .bind (deStr_ends s0 [] s e h) fun w p e h => .ite (fun _ => .nil) fun _ => .skip fun r => ?_
  cases r.2.2 with
  | null => exact .ok h
  | obj x => exact .ite (fun _ => .nil) fun _ => .ok h

theorem deQuoted_ends {α : Type} {S : Ser α} (reqQ : Bool) (hS : reqQ = false → Ends S.de) : Ends (deQuoted S reqQ) := by
  intro s0 v s e h
  unfold deQuoted
  refine .ite (fun _ => deQuotedStr_ends S _ _ _ _ h) fun hq => .ite (fun _ => deQuotedStr_ends S _ _ _ _ h) fun _ =>
    hS (by simpa using hq) _ _ _ _ h

theorem memberValue_ends {τ α : Type} {S : Ser α} (d : τ) (get : τ → α) (set : α → τ → τ) (hS : Ends S.de) :
    Ends (memberValueSer d get set S).de :=
  fun _ _ _ _ h => .bind (hS _ _ _ _ h) fun _ _ _ h => .ok h

/-! ### Sequences -/

theorem seqLoopF_ends {α C : Type} (K : Coll α C) {S : Ser α} (R : Byte) (hS : Ends S.de) {s0 : Bytes} (n : Nat) (t : C) (s : Bytes)
    (e : EPtr) (h : Co s0 s e) : OutCo s0 (seqLoopF K S R n t s e) := by
  induction n generalizing t s e with
  | zero => exact .fuel
  | succ n ih =>
    unfold seqLoopF
    cases s with
    | nil => exact .nil
    | cons b p =>
      simp only
      have h1 := h.space
      generalize parseSpace (b :: p) e = r at h1 ⊢
      obtain ⟨p, e1⟩ := r
      simp only at h1 ⊢
      cases p with
      | nil => exact .nil
      | cons b p =>
        refine .ite (fun _ => .ok h1.tail) fun _ => .bind (hS _ _ _ _ h1) fun v p e h => ?_
        simp only
        have h1 := h.space
        generalize parseSpace p e = r at h1 ⊢
        obtain ⟨p, e1⟩ := r
        simp only at h1 ⊢
        cases p with
        | nil => exact .nil
        | cons b p => exact .ite (fun _ => .ok h1.tail) fun _ => .ite (fun _ => .nil) fun _ => ih _ _ _ h1.tail

theorem deSeq_ends {α C : Type} (K : Coll α C) {S : Ser α} (L R : Byte) (hS : Ends S.de) : Ends (deSeq K S L R) := by
  intro s0 v s e h
  unfold deSeq
  refine .ite (fun _ => parseNull_ends _ h) fun _ => ?_
  cases s with
  | nil => exact .nil
  | cons b t => exact .ite (fun _ => .nil) fun _ => seqLoopF_ends K R hS _ _ _ _ h.tail

theorem deField_ends {κ ν : Type} {SK : Ser κ} {SV : Ser ν} (hK : Ends SK.de) (hV : Ends SV.de) : Ends (deField SK SV) := by
  intro s0 v s e h
  unfold deField
  refine .bind (hK _ _ _ _ h) fun w p e h => ?_
  simp only
  have h1 := h.space
  generalize parseSpace p e = r at h1 ⊢
  obtain ⟨p, e1⟩ := r
  simp only at h1 ⊢
  cases p with
  | nil => exact .nil
  | cons b p =>
    refine .ite (fun _ => .nil) fun _ => ?_
    have h2 := h1.tail.space
    generalize parseSpace p e1 = r at h2 ⊢
    obtain ⟨p, e2⟩ := r
    simp only at h2 ⊢
    cases p with
    | nil => exact .nil
    | cons b p => exact .bind (hV _ _ _ _ h2) fun _ _ _ h => .ok h

/-! ### Fixed-size arrays -/

theorem fixNull_takes {α : Type} {S : Ser α} (hN : TakesNull S) (rest : Bytes) (vs : List α) (e : EPtr) :
    ∃ vs', fixNull S (b!"null" ++ rest) vs e = .ok (vs', e) := by
  induction vs with
  | nil => exact ⟨[], rfl⟩
  | cons v vs ih =>
    obtain ⟨v', hv⟩ := hN v rest e
    obtain ⟨vs', hvs⟩ := ih
    exact ⟨v' :: vs', by simp only [fixNull, hv, Out.bind_ok, hvs]⟩

theorem fixClose_ends {α : Type} {s0 : Bytes} (R : Byte) (t : List α) {s : Bytes} {e : EPtr} (h : Co s0 s e) :
    OutCo s0 (fixClose R t s e) := by
  unfold fixClose
  cases s with
  | nil => exact .nil
  | cons b p => exact .ite (fun _ => .nil) fun _ => .ok h.tail

theorem fixLoop_ends {α : Type} (k : FixKind) {S : Ser α} (R : Byte) (hS : Ends S.de) {s0 : Bytes} (vs : List α) (s : Bytes)
    (e : EPtr) (h : Co s0 s e) : OutCo s0 (fixLoop k S R vs s e) := by
  induction vs generalizing s e with
  | nil => exact fixClose_ends R _ h
  | cons v vs ih =>
    unfold fixLoop
    cases s with
    | nil => exact fixClose_ends R _ h
    | cons b p =>
      simp only
      have h1 := h.space
      generalize parseSpace (b :: p) e = r at h1 ⊢
      obtain ⟨p, e1⟩ := r
      simp only at h1 ⊢
      cases p with
      | nil => exact .nil
      | cons b p =>
        refine .ite (fun _ => fixClose_ends R _ h1) fun _ => .bind (hS _ _ _ _ h1) fun v p e h => ?_
        simp only
        have h1 := h.space
        generalize parseSpace p e = r at h1 ⊢
        obtain ⟨p, e1⟩ := r
        simp only at h1 ⊢
        cases p with
        | nil => exact .nil
        | cons b p =>
          exact .ite (fun _ => fixClose_ends R _ h1) fun _ => .ite (fun _ => .nil) fun _ =>
            .bind (ih _ _ h1.tail) fun _ _ _ h => .ok h

theorem deFix_ends {α : Type} (k : FixKind) {S : Ser α} (L R : Byte) (hN : TakesNull S) (hS : Ends S.de) :
    Ends (deFix k S L R) := by
  intro s0 v s e h
  unfold deFix
  refine .ite (fun _ => ?_) fun _ => ?_
  · obtain ⟨p, ev, h1, h2⟩ := parseNull_scan s
    simp only at h1
    cases ev with
    | some x =>
      refine .skip fun x => ?_
      rw [h1, (h2.err _ rfl).2.1]
      exact .nil
    | none =>
      have hs : s = b!"null" ++ p := parseNull_acc_iff.mp h1
      subst hs
      obtain ⟨vs', hv⟩ := fixNull_takes hN p v e
      rw [hv]
      show OutCo s0 (.ok (vs', (parseNull (b!"null" ++ p) e).1, (parseNull (b!"null" ++ p) e).2))
      rw [parseNull_ok]
      exact .ok (h.sub (List.suffix_append _ _))
  · cases s with
    | nil => exact .nil
    | cons b t => exact .ite (fun _ => .nil) fun _ => fixLoop_ends k R hS _ _ _ h.tail

/-! ### Objects -/

/-- Like `Ends` for an entry of the member list. -/
def MEnds {τ : Type} (m : Member τ) : Prop :=
  ∀ s0 t s e u, Co s0 s e → ∀ t' p e' u', m.de t s e u = .ok (t', p, e', u') → Co s0 p e'

theorem memberName_co {s0 : Bytes} (name s : Bytes) (e : EPtr) (u : Bool) (h : Co s0 s e) :
    Co s0 (memberName name s e u).1 (memberName name s e u).2.1 := by
  unfold memberName
  cases s with
  | nil => exact .nil _ _
  | cons b t =>
    simp only
    split
    · exact .nil _ _
    · have h1 := h.tail.sub (nameLoop_suffix name t)
      generalize nameLoop name t = r at h1 ⊢
      obtain ⟨r1, p⟩ := r
      simp only at h1 ⊢
      cases p with
      | nil => exact .nil _ _
      | cons b' p =>
        simp only
        split
        · exact h
        · have h2 := h1.tail.space
          generalize parseSpace p e = r at h2 ⊢
          obtain ⟨p, e2⟩ := r
          simp only at h2 ⊢
          cases p with
          | nil => exact .nil _ _
          | cons b p =>
            simp only
            split
            · exact .nil _ _
            · have h3 := h2.tail.space
              generalize parseSpace p e2 = r at h3 ⊢
              obtain ⟨p, e3⟩ := r
              simp only at h3 ⊢
              cases p with
              | nil => exact .nil _ _
              | cons b p => exact h3

theorem member_co {τ α : Type} {name : Bytes} {t : τ} {v : α} {set : α → τ} {S : Ser α} (hS : Ends S.de) {s0 s : Bytes} {e : EPtr} {u : Bool}
    (h : Co s0 s e) {t' : τ} {p : Bytes} {e' : EPtr} {u' : Bool}
    (hr : (if !(memberName name s e u).2.2 then Out.ok (t, memberName name s e u)
      else S.de v (memberName name s e u).1 (memberName name s e u).2.1 >>= fun d => .ok (set d.1, d.2.1, d.2.2, true)) =
      .ok (t', p, e', u')) : Co s0 p e' := by
  have h1 := memberName_co name s e u h
  generalize memberName name s e u = r at h1 hr
  obtain ⟨p1, e1, u1⟩ := r
  simp only at h1 hr
  split at hr
  · cases hr; exact h1
  · have h2 := hS s0 v p1 e1 h1
    cases hd : S.de v p1 e1 with
    | ok x =>
      obtain ⟨w, q, e2⟩ := x
      rw [hd] at hr
      simp only [Out.bind_ok, Out.ok.injEq, Prod.mk.injEq] at hr
      obtain ⟨_, rfl, rfl, _⟩ := hr
      exact h2 _ _ _ hd
    | ub => rw [hd] at hr; cases hr
    | fuel => rw [hd] at hr; cases hr

theorem deMember_ends {τ : Type} {m : MRef τ} (hS : Ends m.ser.de) : MEnds (member m) :=
  fun _ t _ _ _ h _ _ _ _ hr => member_co (set := fun a => m.set a t) hS h hr

theorem deMemberP_ends {τ : Type} {m : MRef τ} (hS : Ends m.ser.de) : MEnds (memberP m) :=
  fun _ t _ _ _ h _ _ _ _ hr => member_co (set := fun a => m.set a t) hS h hr

theorem deMemberIf_ends {τ : Type} {a b : MRef τ} (ha : Ends a.ser.de) (hb : Ends b.ser.de) :
    ∀ s0 t s e u, Co s0 s e → ∀ t' p e' u', deMemberIf a b t s e u = .ok (t', p, e', u') → Co s0 p e' := by
  intro s0 t s e u h t' p e' u' hr
  unfold deMemberIf at hr
  cases hd : deMember a t s .fresh u with
  | ok x =>
    obtain ⟨w, q, e2, u2⟩ := x
    rw [hd] at hr
    have h1 := (deMember_ends ha s t s .fresh u (.start rfl) _ _ _ _ hd).suffix
    simp only [Out.bind_ok] at hr
    split at hr
    · cases hn : readNull b w with
      | ok y =>
        rw [hn] at hr
        simp only [Out.bind_ok, Out.ok.injEq, Prod.mk.injEq] at hr
        obtain ⟨_, rfl, rfl, _⟩ := hr
        exact h.sub h1
      | ub => rw [hn] at hr; cases hr
      | fuel => rw [hn] at hr; cases hr
    · cases hn : readNull a w with
      | ok y =>
        rw [hn] at hr
        exact deMember_ends hb _ _ _ _ _ h _ _ _ _ hr
      | ub => rw [hn] at hr; cases hr
      | fuel => rw [hn] at hr; cases hr
  | ub => rw [hd] at hr; cases hr
  | fuel => rw [hd] at hr; cases hr

theorem memberIf_ends {τ : Type} {l r : MRef τ} (hl : Ends l.ser.de) (hr : Ends r.ser.de) (isDflt : l.α → Bool) (RU : Bool) :
    MEnds (memberIf l r isDflt RU) := by
  cases RU with
  | true => exact deMemberIf_ends hr hl
  | false => exact deMemberIf_ends hl hr

theorem MEnds.bind {τ β : Type} {m : Member τ} (hm : MEnds m) {s0 s : Bytes} {e : EPtr} {t : τ} {u : Bool}
    {f : τ × Bytes × EPtr × Bool → Out (β × Bytes × EPtr)} (h : Co s0 s e)
    (hf : ∀ t p e u, Co s0 p e → OutCo s0 (f (t, p, e, u))) : OutCo s0 (m.de t s e u >>= f) := by
  cases hd : m.de t s e u with
  | ok x => obtain ⟨w, q, e2, u2⟩ := x; exact hf _ _ _ _ (hm _ _ _ _ _ h _ _ _ _ hd)
  | ub => exact .ub
  | fuel => exact .fuel

theorem searchMembers_ends {τ : Type} (c : Cfg) (strict : Bool) {s0 : Bytes} (l : List (Member τ)) (hl : ∀ m ∈ l, MEnds m) (t : τ)
    (s : Bytes) (e : EPtr) (h : Co s0 s e) : OutCo s0 (searchMembers c strict l t s e) := by
  induction l generalizing t s e with
  | nil =>
    unfold searchMembers
    refine .ite (fun _ => .scanO h (parseMember_scan c s) fun p e' _ h => .ok h.space) fun _ => ?_
    cases s with
    | nil => exact .nil
    | cons b p => exact .ite (fun _ => .ok h) fun _ => .nil
  | cons m l ih =>
    unfold searchMembers
    exact MEnds.bind (hl m (by simp)) h fun t p e u h => .ite (fun _ => .ok h) fun _ => ih (fun m hm => hl m (by simp [hm])) _ _ _ h

theorem skipLoopF_ends {τ : Type} (c : Cfg) (strict : Bool) {s0 : Bytes} (n : Nat) (t : τ) (s : Bytes) (e : EPtr) (h : Co s0 s e) :
    OutCo s0 (skipLoopF c strict n s e >>= fun r => .ok (t, r.1, r.2)) := by
  induction n generalizing s e with
  | zero => exact .fuel
  | succ n ih =>
    unfold skipLoopF
    rw [Out.bind_assoc]
    refine .scanO h (parseMember_scan c s) fun p e' _ h => ?_
    simp only
    have h1 := h.space
    generalize parseSpace p e' = r at h1 ⊢
    obtain ⟨p, e1⟩ := r
    simp only at h1 ⊢
    cases p with
    | nil => exact .nil
    | cons b p =>
      simp only
      split
      · split
        · exact .ok h1
        · exact .nil
      · split
        · exact .nil
        · exact ih _ _ h1.tail.space

theorem skipMembers_ends {τ : Type} (c : Cfg) (strict : Bool) {s0 : Bytes} (t : τ) (s : Bytes) (e : EPtr) (h : Co s0 s e) :
    OutCo s0 (skipMembers c strict s e >>= fun r => .ok (t, r.1, r.2)) := by
  unfold skipMembers
  simp only
  have h1 := h.space
  generalize parseSpace s e = r at h1 ⊢
  obtain ⟨p, e1⟩ := r
  simp only at h1 ⊢
  cases p with
  | nil => exact .nil
  | cons b p =>
    simp only
    split
    · exact .ok h1
    · exact skipLoopF_ends c strict _ _ _ _ h1

theorem membersEnd_ends {τ : Type} {s0 : Bytes} (t : τ) {s : Bytes} {e : EPtr} (h : Co s0 s e) : OutCo s0 (membersEnd t s e) := by
  unfold membersEnd
  cases s with
  | nil => exact .nil
  | cons b p => exact .ite (fun _ => .nil) fun _ => .ok h

theorem objectEnd_ends {τ : Type} {s0 : Bytes} (t : τ) {s : Bytes} {e : EPtr} (h : Co s0 s e) : OutCo s0 (objectEnd t s e) := by
  unfold objectEnd
  cases s with
  | nil => exact .nil
  | cons b p => exact .ite (fun _ => .nil) fun _ => .ok h.tail

theorem membersF_ends {τ : Type} (c : Cfg) (strict : Bool) {s0 : Bytes} {L : List (Member τ)} (hL : ∀ m ∈ L, MEnds m) (n : Nat)
    (l : List (Member τ)) (hl : ∀ m ∈ l, MEnds m) (t : τ) (s : Bytes) (e : EPtr) (h : Co s0 s e) :
    OutCo s0 (membersF c strict L n l t s e) := by
  induction n generalizing l t s e with
  | zero => exact .fuel
  | succ n ih =>
    cases l with
    | nil => exact skipMembers_ends c strict t s e h
    | cons m l =>
      unfold membersF
      refine MEnds.bind (hl m (by simp)) h fun t p e u h => .bind ?_ fun v p e h => ?_
      · exact .ite (fun _ => .ok h) fun _ => searchMembers_ends c strict L hL _ _ _ h
      · simp only
        have h1 := h.space
        generalize parseSpace p e = r at h1 ⊢
        obtain ⟨p, e1⟩ := r
        simp only at h1 ⊢
        cases p with
        | nil => exact .nil
        | cons b p =>
          refine .ite (fun _ => .bind (ih _ ?_ _ _ _ h1.tail.space) fun _ _ _ h => membersEnd_ends _ h) fun _ => membersEnd_ends _ h1
          intro m' hm'
          split at hm'
          · exact hl m' (by simp [hm'])
          · exact hl m' hm'

theorem deObject_ends {τ : Type} (c : Cfg) (strict : Bool) (dflt : τ) {L : List (Member τ)} (hL : ∀ m ∈ L, MEnds m) :
    Ends (deObject c strict dflt L) := by
  intro s0 v s e h
  unfold deObject
  refine .ite (fun _ => parseNull_ends _ h) fun _ => ?_
  cases s with
  | nil => exact .nil
  | cons b p =>
    refine .ite (fun _ => .ite (fun _ => .skip fun x => .ite (fun _ => .nil) fun _ => ?_) fun _ => .nil) fun _ => ?_
    · have h1 := h.tail.space
      generalize parseSpace p e = r at h1 ⊢
      obtain ⟨p, e1⟩ := r
      simp only at h1 ⊢
      cases p with
      | nil => exact .ub
      | cons b p => exact .ok h1.tail
    · unfold objectBody
      simp only
      have h1 := h.tail.space
      generalize parseSpace p e = r at h1 ⊢
      obtain ⟨p, e1⟩ := r
      simp only at h1 ⊢
      cases p with
      | nil => exact .nil
      | cons b q =>
        refine .ite (fun _ => .bind (membersF_ends c strict hL _ _ hL _ _ _ h1) fun v p e h => ?_) fun _ => objectEnd_ends _ h1
        simp only
        cases p with
        | nil => exact .nil
        | cons b q =>
          simp only
          have h1 := h.space
          generalize parseSpace (b :: q) e = r at h1 ⊢
          obtain ⟨p, e1⟩ := r
          simp only at h1 ⊢
          cases p with
          | nil => exact .nil
          | cons b q => exact objectEnd_ends _ h1

/-! ### Objects as arrays -/

theorem amember_ends {τ : Type} {m : MRef τ} (hS : Ends m.ser.de) : Ends (amember m).de :=
  fun _ _ _ _ h => .bind (hS _ _ _ _ h) fun _ _ _ h => .ok h

theorem amemberP_ends {τ : Type} {m : MRef τ} (hS : Ends m.ser.de) : Ends (amemberP m).de :=
  fun _ _ _ _ h => .bind (hS _ _ _ _ h) fun _ _ _ h => .ok h

theorem deAMemberIf_ends {τ : Type} {a b : MRef τ} (ha : Ends a.ser.de) (hb : Ends b.ser.de) : Ends (deAMemberIf a b) := by
  intro s0 t s e h
  unfold deAMemberIf
  have h1 := amember_ends ha s t s .fresh (.start rfl)
  cases hd : (amember a).de t s .fresh with
  | ok x =>
    obtain ⟨w, q, e2⟩ := x
    have h2 := (h1 _ _ _ hd).suffix
    exact .ite (fun _ => .skip fun _ => .ok (h.sub h2)) fun _ => .skip fun _ => amember_ends hb _ _ _ _ h
  | ub => exact .ub
  | fuel => exact .fuel

theorem amemberIf_ends {τ : Type} {l r : MRef τ} (hl : Ends l.ser.de) (hr : Ends r.ser.de) (isDflt : l.α → Bool) (RU : Bool) :
    Ends (amemberIf l r isDflt RU).de := by
  cases RU with
  | true => exact deAMemberIf_ends hr hl
  | false => exact deAMemberIf_ends hl hr

theorem amembersEnd_ends {τ : Type} {s0 : Bytes} (t : τ) {s : Bytes} {e : EPtr} (h : Co s0 s e) : OutCo s0 (amembersEnd t s e) := by
  unfold amembersEnd
  cases s with
  | nil => exact .nil
  | cons b p => exact .ite (fun _ => .nil) fun _ => .ok h

theorem objectArrayEnd_ends {τ : Type} {s0 : Bytes} (t : τ) {s : Bytes} {e : EPtr} (h : Co s0 s e) :
    OutCo s0 (objectArrayEnd t s e) := by
  unfold objectArrayEnd
  cases s with
  | nil => exact .nil
  | cons b p => exact .ite (fun _ => .nil) fun _ => .ok h.tail

theorem deAMembers_ends {τ : Type} (L : List (AMember τ)) (hL : ∀ m ∈ L, Ends m.de) : Ends (deAMembers L) := by
  induction L with
  | nil => exact fun _ _ _ _ h => .ok h
  | cons m l ih =>
    intro s0 t s e h
    unfold deAMembers
    refine .bind (hL m (by simp) _ _ _ _ h) fun v p e h => ?_
    simp only
    have h1 := h.space
    generalize parseSpace p e = r at h1 ⊢
    obtain ⟨p, e1⟩ := r
    simp only at h1 ⊢
    cases p with
    | nil => exact .nil
    | cons b p =>
      exact .ite (fun _ => .bind (ih (fun m hm => hL m (by simp [hm])) _ _ _ _ h1.tail.space) fun _ _ _ h => amembersEnd_ends _ h)
        fun _ => amembersEnd_ends _ h1

theorem deObjectArray_ends {τ : Type} (dflt : τ) {L : List (AMember τ)} (hL : ∀ m ∈ L, Ends m.de) : Ends (deObjectArray dflt L) := by
  intro s0 v s e h
  unfold deObjectArray
  refine .ite (fun _ => parseNull_ends _ h) fun _ => ?_
  cases s with
  | nil => exact .nil
  | cons b p =>
    refine .ite (fun _ => .nil) fun _ => ?_
    unfold objectArrayBody
    simp only
    have h1 := h.tail.space
    generalize parseSpace p e = r at h1 ⊢
    obtain ⟨p, e1⟩ := r
    simp only at h1 ⊢
    cases p with
    | nil => exact .nil
    | cons b q =>
      refine .ite (fun _ => .bind (deAMembers_ends L hL _ _ _ _ h1) fun v p e h => ?_) fun _ => objectArrayEnd_ends _ h1
      simp only
      cases p with
      | nil => exact .nil
      | cons b q =>
        simp only
        have h1 := h.space
        generalize parseSpace (b :: q) e = r at h1 ⊢
        obtain ⟨p, e1⟩ := r
        simp only at h1 ⊢
        cases p with
        | nil => exact .nil
        | cons b q => exact objectArrayEnd_ends _ h1

/-! ### All descriptions -/

mutual

theorem Ending.ends {c : Cfg} : ∀ {α : Type} {S : Ser α}, Ending c S → Ends S.de
  | _, _, .int ty => deInt_ends c ty
  | _, _, .bool => deBool_ends
  | _, _, .str => deStr_ends
  | _, _, .chars N => deCharArray_ends N
  | _, _, .float F R => deFloat_ends F R
  | _, _, @Ending.enum _ _ _ strict dflt L => deEnum_ends c strict dflt L
  | _, _, .flags F => deFlags_ends c F
  | _, _, .time ty fr => deTime_ends c ty fr
  | _, _, .raw => deRaw_ends c
  | _, _, .rawQuoted _ reqQ => deRawQuoted_ends c reqQ
  | _, _, .quoted _ reqQ h => deQuoted_ends reqQ fun _ => h.ends
  | _, _, .quotedReq _ => deQuoted_ends true fun h => by cases h
  | _, _, .pointer h => dePointer_ends h.ends
  | _, _, .memberValue d g s h => memberValue_ends d g s h.ends
  | _, _, .array K h => deSeq_ends K _ _ h.ends
  | _, _, .fixed k N hN h => deFix_ends k _ _ hN h.ends
  | _, _, .field h h' => deField_ends h.ends h'.ends
  | _, _, .dict K h h' => deSeq_ends K (S := fieldSer _ _) _ _ (deField_ends h.ends h'.ends)
  | _, _, .object strict dflt L h => deObject_ends c strict dflt fun m hm => (h m hm).ends
  | _, _, .objectArray dflt L h => deObjectArray_ends dflt fun m hm => (h m hm).ends

theorem EndingM.ends {c : Cfg} : ∀ {τ : Type} {m : Member τ}, EndingM c m → MEnds m
  | _, _, .member m h => deMember_ends h.ends
  | _, _, .memberP m h => deMemberP_ends h.ends
  | _, _, .memberIf l r i RU h h' => memberIf_ends h.ends h'.ends i RU

theorem EndingA.ends {c : Cfg} : ∀ {τ : Type} {m : AMember τ}, EndingA c m → Ends m.de
  | _, _, .member m h => amember_ends h.ends
  | _, _, .memberP m h => amemberP_ends h.ends
  | _, _, .memberIf l r i RU h h' => amemberIf_ends h.ends h'.ends i RU

end

end Wjson
