import Verif.Proofs.CompositePos
import Verif.Proofs.Time
import Verif.Proofs.Size
/-
Helper lemmas for C76: time intervals and sizes.
-/
namespace Wjson
open Spec

theorem int_diagnosed (c : Cfg) (ty : IntTy) (v : Int) : Diagnosed (intSer c ty).de v IntFault :=
  diagnosed_of (deInt_safe c ty) (fun _ _ h => (int_sound c ty v h).tells) (int_dich c ty v)

theorem Spec.UnitEnds.unique {q a b : Bytes} (h : UnitEnds q a) (h' : UnitEnds q b) : a = b := by
  cases h with
  | ms =>
    cases h' with
    | ms => rfl
    | one h => simp at h
  | mks =>
    cases h' with
    | mks => rfl
    | one h => simp at h
  | one h =>
    cases h' with
    | ms => simp at h
    | mks => simp at h
    | one _ => rfl

theorem timeBody_int {c : Cfg} {ty : IntTy} {b : Byte} {t : Bytes} {x : JError} (hb : b ≠ c%'"') (hx : IntFault (b :: t) x) (x' : JError) 
    {v : Int} {p : Bytes} {e : EPtr} (hr : (intSer c ty).de 0 (b :: t) .fresh = .ok (v, p, e)) :
    TimeBodyFault c ty (b :: t) x' ↔ x' = x := by
  obtain ⟨h1, h2⟩ := (int_diagnosed c ty 0).sound hr hx
  constructor
  · intro h
    cases h with
    | number _ h =>
      have := ((int_diagnosed c ty 0).sound hr h).1
      rw [h1] at this
      cases this
      rfl
    | more _ h3 =>
      rw [Takes, hr, h1] at h3
      cases h3
      exact absurd rfl h2
  · rintro rfl
    exact .number hb hx

theorem timeBody_more {c : Cfg} {ty : IntTy} {b : Byte} {t : Bytes} (hb : b ≠ c%'"') {v : Int} {q r : Bytes}
    (hr : Takes (intSer c ty).de 0 (b :: t) v q) (hu : UnitEnds q r) (x : JError) :
    TimeBodyFault c ty (b :: t) x ↔ TimeBodyFault c ty r x := by
  constructor
  · intro h
    cases h with
    | number _ h =>
      obtain ⟨h1, h2⟩ := (int_diagnosed c ty 0).sound hr h
      cases h1
      exact absurd rfl h2
    | more _ h3 h4 h5 =>
      rw [Takes] at hr
      rw [Takes, hr] at h3
      cases h3
      rw [hu.unique h4]
      exact h5
  · exact fun h => .more hb hr hu h

theorem timeBody_cut {c : Cfg} {ty : IntTy} {b : Byte} {t : Bytes} {v : Int} {q : Bytes}
    (hr : Takes (intSer c ty).de 0 (b :: t) v q) (hq : ∀ r, ¬ UnitEnds q r) (x : JError) :
    ¬ TimeBodyFault c ty (b :: t) x := by
  intro h
  cases h with
  | number _ h =>
    obtain ⟨h1, h2⟩ := (int_diagnosed c ty 0).sound hr h
    cases h1
    exact absurd rfl h2
  | more _ h3 h4 =>
    rw [Takes] at hr
    rw [Takes, hr] at h3
    cases h3
    exact hq _ h4

theorem timeLoopF_told (c : Cfg) (ty : IntTy) (fr : Int) (n : Nat) (v : Int) (s : Bytes) {v' : Int} {p : Bytes} {e : EPtr}
    (h : timeLoopF c ty fr n v s .fresh = .ok (v', p, e)) :
    (e = .fresh ∧ ∀ x, ¬ TimeBodyFault c ty s x) ∨ ∃ x : JError, x.code ≠ .ValidJSON ∧ e = .obj x ∧ ∀ x', TimeBodyFault c ty s x' ↔ x' = x := by
  induction n generalizing v s with
  | zero => cases h
  | succ n ih =>
    cases s with
    | nil =>
      cases h
      refine .inr ⟨endErr, by simp [endErr], rfl, fun x => ⟨fun h => ?_, ?_⟩⟩
      · cases h; rfl
      · rintro rfl; exact .none
    | cons b t =>
      rw [timeLoopF] at h
      by_cases hb : b = c%'"'
      · rw [if_pos hb] at h
        cases h
        refine .inl ⟨rfl, fun x h => ?_⟩
        cases h with
        | number h | more h => exact h hb
      · rw [if_neg hb] at h
        obtain ⟨⟨cur, q, e1⟩, h1, h⟩ := Out.bind_eq_ok.mp h
        simp only at h
        have h1' : (intSer c ty).de 0 (b :: t) .fresh = .ok (cur, q, e1) := h1
        rcases (int_diagnosed c ty 0).cases h1' with ⟨rfl, hT⟩ | ⟨x, hx, rfl, hf⟩
        · rw [if_neg (show ¬ EPtr.fresh.failed = true by decide)] at h
          have go : ∀ {r}, UnitEnds q r → ∀ (o : Out Int), (o >>= fun v => timeLoopF c ty fr n v r .fresh) = .ok (v', p, e) →
              (e = .fresh ∧ ∀ x, ¬ TimeBodyFault c ty (b :: t) x) ∨
              ∃ x : JError, x.code ≠ .ValidJSON ∧ e = .obj x ∧ ∀ x', TimeBodyFault c ty (b :: t) x' ↔ x' = x := by
            intro r hu o h
            obtain ⟨v1, _, h⟩ := Out.bind_eq_ok.mp h
            have hm := timeBody_more hb hT hu
            rcases ih v1 r h with ⟨h2, h3⟩ | ⟨x, h2, h3, h4⟩
            · exact .inl ⟨h2, fun x hx => h3 x ((hm x).mp hx)⟩
            · exact .inr ⟨x, h2, h3, fun x' => (hm x').trans (h4 x')⟩
          cases q with
          | nil =>
            cases h
            exact .inl ⟨rfl, timeBody_cut hT (by intro r h; cases h)⟩
          | cons u q =>
            simp only at h
            split at h
            · next hu => subst hu; exact go (.one (.inl (by decide))) _ h
            split at h
            · next hu => subst hu; exact go (.one (.inl (by decide))) _ h
            split at h
            · next hu =>
              subst hu
              cases q with
              | nil => exact go (.one (.inr (by simp))) _ h
              | cons w q =>
                simp only at h
                split at h
                · next hw => subst hw; exact go .ms _ h
                split at h
                · next hw =>
                  subst hw
                  cases q with
                  | nil =>
                    obtain ⟨_, _, h⟩ := Out.bind_eq_ok.mp h
                    cases h
                  | cons d q => exact go .mks _ h
                · next hw1 hw2 => exact go (.one (.inr (by simp [hw1, hw2]))) _ h
            · next hu =>
              split at h
              · exact go (.one (.inl hu)) _ h
              · exact go (.one (.inl hu)) (.ok v) h
        · rw [if_pos hf] at h
          cases h
          obtain ⟨_, h2⟩ := (int_diagnosed c ty 0).sound h1' hx
          exact .inr ⟨x, h2, rfl, fun x' => timeBody_int hb hx x' h1'⟩

theorem unit_first (b : Byte) (t : Bytes) :
    (b = c%'n' ∧ isNull (b :: t) = true) ∨ (b ≠ c%'n' ∧ (b = c%'-' ∨ Digit b) ∧ isNull (b :: t) = false ∧ isNumber (b :: t) = true) ∨
    (UnitKind b ∧ isNull (b :: t) = false ∧ isNumber (b :: t) = false ∧ isString (b :: t) = false) ∨
    (b = c%'"' ∧ isNull (b :: t) = false ∧ isNumber (b :: t) = false ∧ isString (b :: t) = true) := by
  by_cases h1 : b = c%'n'
  · exact .inl ⟨h1, by rw [isNull_cons]; simpa using h1⟩
  have hn : isNull (b :: t) = false := by
    rw [← Bool.not_eq_true, isNull_cons]
    exact h1
  by_cases h2 : b = c%'-' ∨ Digit b
  · refine .inr (.inl ⟨h1, h2, hn, ?_⟩)
    rcases h2 with rfl | h2
    · rfl
    · simp [isNumber, isDigit_iff.mpr h2]
  have hd : isNumber (b :: t) = false := by
    simp only [not_or] at h2
    have := h2.2
    rw [← isDigit_iff] at this
    simp [isNumber, this, h2.1]
  by_cases h3 : b = c%'"'
  · exact .inr (.inr (.inr ⟨h3, hn, hd, by simp [isString, h3]⟩))
  · simp only [not_or] at h2
    exact .inr (.inr (.inl ⟨⟨h1, h2.1, h2.2, h3⟩, hn, hd, by simp [isString, h3]⟩))

theorem chars_diagnosed (N : Nat) (v : Bytes) : Diagnosed (charArraySer N).de v (StrFault N) :=
  diagnosed_of (deCharArray_safe N) (fun _ _ => chars_sound N v) (chars_dich N v)

theorem unitKind_not {b : Byte} {t : Bytes} (h : UnitKind b) : ¬ (b = c%'n' ∨ b = c%'-' ∨ Digit b) ∧ b ≠ c%'"' :=
  ⟨fun h1 => h1.elim h.1 fun h1 => h1.elim h.2.1 h.2.2.1, h.2.2.2⟩

/-- The rows for `null`, numbers and other kinds; `F` is the table, `T` the part of it
for strings. -/
theorem unit_told {F : Bytes → JError → Prop} {T : Bytes → JError → Prop} {c : Cfg} {ty : IntTy} {f : De Int} {v0 : Int}
    (hF : ∀ s x, F s x ↔ (s = [] ∧ x = endErr) ∨ (∃ b t, s = b :: t ∧ (b = c%'n' ∨ b = c%'-' ∨ Digit b) ∧ IntFault s x) ∨
      (∃ b t, s = b :: t ∧ UnitKind b ∧ x = ⟨.InvalidString, none, 0⟩) ∨ ∃ t, s = c%'"' :: t ∧ T t x)
    (hnil : f v0 [] .fresh = .ok (v0, [], .obj endErr))
    (hnull : ∀ t, f v0 (c%'n' :: t) .fresh = .ok (0, parseNull (c%'n' :: t) .fresh))
    (hnum : ∀ b t, b ≠ c%'n' → b = c%'-' ∨ Digit b → f v0 (b :: t) .fresh = (intSer c ty).de 0 (b :: t) .fresh)
    (hkind : ∀ b t, UnitKind b → f v0 (b :: t) .fresh = .ok (0, [], .obj ⟨.InvalidString, none, 0⟩))
    (hstr : ∀ t v p e, f v0 (c%'"' :: t) .fresh = .ok (v, p, e) →
      (e = .fresh ∧ ∀ x, ¬ T t x) ∨ ∃ x : JError, x.code ≠ .ValidJSON ∧ e = .obj x ∧ ∀ x', T t x' ↔ x' = x) :
    Diagnosed f v0 F := by
  intro s v p e hr
  cases s with
  | nil =>
    rw [hnil] at hr
    cases hr
    exact .inr ⟨endErr, by simp [endErr], rfl, fun x => by rw [hF]; simp⟩
  | cons b t =>
    have hint : (b = c%'n' ∨ b = c%'-' ∨ Digit b) → ∀ x, F (b :: t) x ↔ IntFault (b :: t) x := by
      intro hb x
      have h1 : ¬ UnitKind b := fun h => (unitKind_not (t := t) h).1 hb
      have h2 : b ≠ c%'"' := by
        rintro rfl
        revert hb
        unfold Digit
        decide
      rw [hF]
      simp [h1, h2, hb]
    have fin : ∀ {v1 : Int}, (b = c%'n' ∨ b = c%'-' ∨ Digit b) → (intSer c ty).de 0 (b :: t) .fresh = .ok (v1, p, e) →
        (e = .fresh ∧ ∀ x, ¬ F (b :: t) x) ∨ ∃ x : JError, x.code ≠ .ValidJSON ∧ e = .obj x ∧ ∀ x', F (b :: t) x' ↔ x' = x := by
      intro v1 hb hr
      rcases int_diagnosed c ty 0 _ _ _ _ hr with ⟨h1, h2⟩ | ⟨x, h1, h2, h3⟩
      · exact .inl ⟨h1, fun x hx => h2 x ((hint hb x).mp hx)⟩
      · exact .inr ⟨x, h1, h2, fun x' => (hint hb x').trans (h3 x')⟩
    rcases unit_first b t with ⟨rfl, h1⟩ | ⟨h1, h2, _⟩ | ⟨h1, _⟩ | ⟨rfl, _⟩
    · rw [hnull] at hr
      refine fin (.inl rfl) (v1 := 0) ?_
      simp only [Out.ok.injEq, Prod.mk.injEq] at hr
      simp only [intSer, deInt, if_pos h1, hr.2]
    · rw [hnum b t h1 h2] at hr
      exact fin (.inr h2) hr
    · rw [hkind b t h1] at hr
      cases hr
      refine .inr ⟨⟨.InvalidString, none, 0⟩, by simp, rfl, fun x => ?_⟩
      have := unitKind_not (t := t) h1
      rw [hF]
      simp [h1, this]
    · have hq : ∀ x, F (c%'"' :: t) x ↔ T t x := by
        intro x
        have h1 : ¬ UnitKind c%'"' := fun h => h.2.2.2 rfl
        have h2 : ¬ (c%'"' = c%'n' ∨ c%'"' = c%'-' ∨ Digit c%'"') := by unfold Digit; decide
        rw [hF]
        constructor
        · rintro (⟨h, _⟩ | ⟨b, t', h, h3, _⟩ | ⟨b, t', h, h3, _⟩ | ⟨t', h, h3⟩)
          · cases h
          · cases h; exact absurd h3 h2
          · cases h; exact absurd h3 h1
          · cases h; exact h3
        · exact fun h => .inr (.inr (.inr ⟨t, rfl, h⟩))
      rcases hstr t v p e hr with ⟨h1, h2⟩ | ⟨x, h1, h2, h3⟩
      · exact .inl ⟨h1, fun x hx => h2 x ((hq x).mp hx)⟩
      · exact .inr ⟨x, h1, h2, fun x' => (hq x').trans (h3 x')⟩

theorem time_diagnosed (c : Cfg) (ty : IntTy) (fr v0 : Int) : Diagnosed (deTime c ty fr) v0 (TimeFault c ty) := by
  refine unit_told (T := TimeBodyFault c ty) (c := c) (ty := ty) (fun s x => ?_) rfl (fun t => rfl) (fun b t h1 h2 => ?_)
    (fun b t h1 => ?_) (fun t v p e h => ?_)
  · constructor
    · intro h
      cases h with
      | none => exact .inl ⟨rfl, rfl⟩
      | number h1 h2 => exact .inr (.inl ⟨_, _, rfl, h1, h2⟩)
      | kind h => exact .inr (.inr (.inl ⟨_, _, rfl, h, rfl⟩))
      | string h => exact .inr (.inr (.inr ⟨_, rfl, h⟩))
    · rintro (⟨rfl, rfl⟩ | ⟨b, t, rfl, h1, h2⟩ | ⟨b, t, rfl, h1, rfl⟩ | ⟨t, rfl, h1⟩)
      · exact .none
      · exact .number h1 h2
      · exact .kind h1
      · exact .string h1
  · have hn : isNumber (b :: t) = true := (isNumber_iff b t).mpr h2
    have h0 : ¬ isNull (b :: t) = true := by rw [isNull_cons]; exact h1
    simp only [deTime, if_neg h0, if_pos hn]
    rfl
  · have hn : ¬ isNumber (b :: t) = true := by rw [isNumber_iff]; exact fun h => h.elim h1.2.1 h1.2.2.1
    have h0 : ¬ isNull (b :: t) = true := by rw [isNull_cons]; exact h1.1
    have hs : isString (b :: t) = false := by simp [isString, h1.2.2.2]
    simp only [deTime, if_neg h0, if_neg hn, hs]
    rfl
  · exact timeLoopF_told c ty fr _ 0 t h

theorem cstr_parts {w u : Bytes} (h : cstr w = .ok u) : ∃ z, w = u ++ 0 :: z ∧ 0 ∉ u := by
  induction w generalizing u with
  | nil => cases h
  | cons b t ih =>
    rw [cstr] at h
    split at h
    · next hb => cases h; exact ⟨t, by rw [hb]; rfl, by simp⟩
    · next hb =>
      obtain ⟨r, h1, h2⟩ := Out.bind_eq_ok.mp h
      cases h2
      obtain ⟨z, rfl, h3⟩ := ih h1
      refine ⟨z, rfl, ?_⟩
      simp only [List.mem_cons, not_or]
      exact ⟨fun h => hb h.symm, h3⟩

theorem zero_split {a b y z : Bytes} (ha : 0 ∉ a) (hb : 0 ∉ b) (h : a ++ 0 :: y = b ++ 0 :: z) : a = b := by
  induction a generalizing b with
  | nil =>
    cases b with
    | nil => rfl
    | cons d b => simp at h hb; exact absurd h.1 hb.1
  | cons d a ih =>
    cases b with
    | nil => simp at h ha; exact absurd h.1.symm ha.1
    | cons d' b =>
      simp at h ha hb
      rw [h.1, ih ha.2 hb.2 h.2]

theorem sizeMult_none {u w : Byte} : sizeMult u w = none ↔ u ∉ b!"TGMKB" := by
  simp only [sizeMult, List.mem_cons, List.not_mem_nil, or_false, not_or]
  constructor
  · intro h
    split at h; · cases h
    split at h; · cases h
    split at h; · cases h
    split at h; · cases h
    split at h; · cases h
    next h1 h2 h3 h4 h5 => exact ⟨h1, h2, h3, h4, h5⟩
  · rintro ⟨h1, h2, h3, h4, h5⟩
    rw [if_neg h1, if_neg h2, if_neg h3, if_neg h4, if_neg h5]

/-- The rows of `SizeFault` for strings. -/
inductive SizeStrFault (c : Cfg) : Bytes → JError → Prop
  | string {s x} : StrFault 32 (c%'"' :: s) x → SizeStrFault c s x
  | inner {s w z p x} : Takes (charArraySer 32).de (charArraySer 32).dflt (c%'"' :: s) (w ++ 0 :: z) p → 0 ∉ w → IntFault w x →
      SizeStrFault c s x
  | unit {s w z p v u r} : Takes (charArraySer 32).de (charArraySer 32).dflt (c%'"' :: s) (w ++ 0 :: z) p → 0 ∉ w →
      Takes (intSer c .long).de 0 w v (u :: r) → u ∉ b!"TGMKB" → SizeStrFault c s ⟨.InvalidNumber, none, 0⟩

theorem sizeStr_told {c : Cfg} {t w z p : Bytes} (hT : Takes (charArraySer 32).de (charArraySer 32).dflt (c%'"' :: t) (w ++ 0 :: z) p)
    (hw : 0 ∉ w) (x : JError) : SizeStrFault c t x ↔
      IntFault w x ∨ (∃ v u r, Takes (intSer c .long).de 0 w v (u :: r) ∧ u ∉ b!"TGMKB" ∧ x = ⟨.InvalidNumber, none, 0⟩) := by
  have same : ∀ {w' z' p'}, Takes (charArraySer 32).de (charArraySer 32).dflt (c%'"' :: t) (w' ++ 0 :: z') p' → 0 ∉ w' → w' = w := by
    intro w' z' p' h1 h2
    rw [Takes] at h1 hT
    rw [hT] at h1
    simp only [Out.ok.injEq, Prod.mk.injEq] at h1
    exact (zero_split hw h2 h1.1).symm
  constructor
  · intro h
    cases h with
    | string h =>
      obtain ⟨h1, h2⟩ := (chars_diagnosed 32 _).sound hT h
      cases h1
      exact absurd rfl h2
    | inner h1 h2 h3 => rw [same h1 h2] at h3; exact .inl h3
    | unit h1 h2 h3 h4 => rw [same h1 h2] at h3; exact .inr ⟨_, _, _, h3, h4, rfl⟩
  · rintro (h | ⟨v, u, r, h1, h2, rfl⟩)
    · exact .inner hT hw h
    · exact .unit hT hw h1 h2

theorem size_diagnosed (c : Cfg) (ty : IntTy) (metric v0 : Int) : Diagnosed (deSize c ty metric) v0 (SizeFault c) := by
  refine unit_told (T := SizeStrFault c) (c := c) (ty := ty) (fun s x => ?_) rfl (fun t => rfl) (fun b t h1 h2 => ?_)
    (fun b t h1 => ?_) (fun t v p e h => ?_)
  · constructor
    · intro h
      cases h with
      | none => exact .inl ⟨rfl, rfl⟩
      | number h1 h2 => exact .inr (.inl ⟨_, _, rfl, h1, h2⟩)
      | kind h => exact .inr (.inr (.inl ⟨_, _, rfl, h, rfl⟩))
      | string h => exact .inr (.inr (.inr ⟨_, rfl, .string h⟩))
      | inner h1 h2 h3 => exact .inr (.inr (.inr ⟨_, rfl, .inner h1 h2 h3⟩))
      | unit h1 h2 h3 h4 => exact .inr (.inr (.inr ⟨_, rfl, .unit h1 h2 h3 h4⟩))
    · rintro (⟨rfl, rfl⟩ | ⟨b, t, rfl, h1, h2⟩ | ⟨b, t, rfl, h1, rfl⟩ | ⟨t, rfl, h⟩)
      · exact .none
      · exact .number h1 h2
      · exact .kind h1
      · cases h with
        | string h => exact .string h
        | inner h1 h2 h3 => exact .inner h1 h2 h3
        | unit h1 h2 h3 h4 => exact .unit h1 h2 h3 h4
  · have hn : isNumber (b :: t) = true := (isNumber_iff b t).mpr h2
    have h0 : ¬ isNull (b :: t) = true := by rw [isNull_cons]; exact h1
    simp only [deSize, if_neg h0, if_pos hn]
    rfl
  · have hn : ¬ isNumber (b :: t) = true := by rw [isNumber_iff]; exact fun h => h.elim h1.2.1 h1.2.2.1
    have h0 : ¬ isNull (b :: t) = true := by rw [isNull_cons]; exact h1.1
    have hs : isString (b :: t) = false := by simp [isString, h1.2.2.2]
    simp only [deSize, if_neg h0, if_neg hn, hs]
    rfl
  · have h0 : ¬ isNull (c%'"' :: t) = true := by rw [isNull_cons]; decide
    have hn : ¬ isNumber (c%'"' :: t) = true := by rw [isNumber_iff]; unfold Digit; decide
    simp only [deSize, if_neg h0, if_neg hn] at h
    rw [if_neg (by simp [isString])] at h
    obtain ⟨⟨w0, q, e1⟩, h1, h⟩ := Out.bind_eq_ok.mp h
    simp only at h
    rcases (chars_diagnosed 32 _).cases h1 with ⟨rfl, hT⟩ | ⟨x, hx, rfl, hf⟩
    · rw [if_neg (show ¬ EPtr.fresh.failed = true by decide)] at h
      obtain ⟨w, h2, h'⟩ := Out.bind_eq_ok.mp h
      obtain ⟨z, rfl, hw⟩ := cstr_parts h2
      clear h
      obtain ⟨y, h3, h⟩ := Out.bind_eq_ok.mp h'
      obtain ⟨val, q2, e2⟩ := y
      have h3' : (intSer c .long).de 0 w .fresh = .ok (val, q2, e2) := h3
      have told := sizeStr_told (c := c) hT hw
      simp only [sizeApply] at h
      rcases (int_diagnosed c .long 0).cases h3' with ⟨rfl, hT2⟩ | ⟨x, hx, rfl, hf⟩
      · rw [if_neg (show ¬ EPtr.fresh.failed = true by decide)] at h
        have hni : ∀ x, ¬ IntFault w x := by
          intro x hx
          obtain ⟨h4, h5⟩ := (int_diagnosed c .long 0).sound h3' hx
          cases h4
          exact absurd rfl h5
        have hsame : ∀ {v u r}, Takes (intSer c .long).de 0 w v (u :: r) → q2 = u :: r := by
          intro v u r h4
          rw [Takes, h3'] at h4
          cases h4
          rfl
        cases q2 with
        | nil =>
          cases h
          refine .inl ⟨rfl, fun x hx => ?_⟩
          rcases (told x).mp hx with h | ⟨v, u, r, h4, _⟩
          · exact hni x h
          · exact absurd (hsame h4) (by simp)
        | cons u r =>
          simp only at h
          cases hm : sizeMult u (r.headD 0) with
          | none =>
            rw [hm] at h
            cases h
            refine .inr ⟨⟨.InvalidNumber, none, 0⟩, by simp, rfl, fun x => ?_⟩
            rw [told]
            constructor
            · rintro (h | ⟨v, u, r, _, _, rfl⟩)
              · exact absurd h (hni x)
              · rfl
            · rintro rfl
              exact .inr ⟨_, _, _, hT2, sizeMult_none.mp hm, rfl⟩
          | some m =>
            rw [hm] at h
            simp only at h
            obtain ⟨_, _, h⟩ := Out.bind_eq_ok.mp h
            obtain ⟨_, _, h⟩ := Out.bind_eq_ok.mp h
            cases h
            refine .inl ⟨rfl, fun x hx => ?_⟩
            rcases (told x).mp hx with h | ⟨v, u, r, h4, h5, _⟩
            · exact hni x h
            · have := hsame h4
              simp only [List.cons.injEq] at this
              rw [← this.1, ← sizeMult_none (w := (_ : Bytes).headD 0), hm] at h5
              cases h5
      · rw [if_pos hf] at h
        cases h
        obtain ⟨_, hc⟩ := (int_diagnosed c .long 0).sound h3' hx
        refine .inr ⟨x, hc, rfl, fun x' => ?_⟩
        rw [told]
        constructor
        · rintro (h | ⟨v, u, r, h4, _⟩)
          · have := ((int_diagnosed c .long 0).sound h3' h).1
            cases this
            rfl
          · rw [Takes, h3'] at h4
            cases h4
            exact absurd rfl hc
        · rintro rfl
          exact .inl hx
    · rw [if_pos hf] at h
      cases h
      obtain ⟨_, hc⟩ := (chars_diagnosed 32 _).sound h1 hx
      refine .inr ⟨x, hc, rfl, fun x' => ⟨fun h => ?_, ?_⟩⟩
      · cases h with
        | string h =>
          have := ((chars_diagnosed 32 _).sound h1 h).1
          cases this
          rfl
        | inner h2 | unit h2 =>
          rw [Takes] at h2
          have := h1.symm.trans h2
          cases this
          exact absurd rfl hc
      · rintro rfl
        exact .string hx

end Wjson
