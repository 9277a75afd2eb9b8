import Verif.Proofs.Str
/-
Exact characterisation of `parse_value` by the wjson dialect of the grammar.
-/
namespace Wjson
open Spec

/-! ### Gaps -/

theorem gap_head {g : Bytes} (h : Gap g) {b : Byte} (hb : g.head? = some b) : WsByte b ∨ b = c%'/' := by
  cases h with
  | nil => simp at hb
  | ws h _ => simp at hb; subst hb; exact .inl h
  | slash => simp at hb; exact .inr hb.symm
  | comment => simp at hb; exact .inr hb.symm

theorem gap_head_star {g : Bytes} (h : Gap g) : g.head? ≠ some c%'*' := by
  intro hb
  rcases gap_head h hb with h | h
  · revert h; decide
  · revert h; decide

theorem Spec.Gap.append {g g' : Bytes} (h : Gap g) (h' : Gap g') : Gap (g ++ g') := by
  induction h with
  | nil => exact h'
  | ws hb _ ih => exact .ws hb ih
  | @slash t ht _ ih =>
    refine .slash ?_ ih
    cases t with
    | nil => exact gap_head_star h'
    | cons x y => simpa using ht
  | @comment body t h1 h2 h3 _ ih =>
    have : c%'/' :: (body ++ c%'/' :: t) ++ g' = c%'/' :: (body ++ c%'/' :: (t ++ g')) := by simp
    rw [this]
    exact .comment h1 h2 h3 ih

theorem Delim.of_head {p : Bytes} {b : Byte} {t : Bytes} (hp : p = b :: t)
    (h : ¬ Digit b ∧ b ≠ c%'.' ∧ b ≠ c%'e' ∧ b ≠ c%'E') : Delim p := by
  intro x hx
  subst hp
  simp at hx; subst hx; exact h

theorem gap_delim {g m : Bytes} (h : Gap g) (hm : Delim m) : Delim (g ++ m) := by
  cases g with
  | nil => exact hm
  | cons b t =>
    refine Delim.of_head rfl ?_
    rcases gap_head h rfl with h | rfl
    · revert h; clear hm h; revert b; apply forall_byte; decide +kernel
    · decide

/-! ### First byte of a value -/

theorem xvalue_head {t : Bytes} (h : XValue t) : ∃ b u, t = b :: u ∧
    (b = c%'n' ∨ b = c%'t' ∨ b = c%'f' ∨ b = c%'-' ∨ Digit b ∨ b = c%'"' ∨ b = c%'[' ∨ b = c%'{') := by
  cases h with
  | null => exact ⟨_, _, rfl, by simp⟩
  | true => exact ⟨_, _, rfl, by simp⟩
  | false => exact ⟨_, _, rfl, by simp⟩
  | num hr =>
    obtain ⟨b, u, he, h⟩ := rnumber_head hr
    refine ⟨b, u, he, ?_⟩
    rcases h with rfl | h
    · exact .inr (.inr (.inr (.inl rfl)))
    · exact .inr (.inr (.inr (.inr (.inl h))))
  | str h => obtain ⟨u, _, rfl⟩ := h; exact ⟨_, _, rfl, by simp⟩
  | arr0 => exact ⟨_, _, rfl, by simp⟩
  | arr => exact ⟨_, _, rfl, by simp⟩
  | obj0 => exact ⟨_, _, rfl, by simp⟩
  | objBracket => exact ⟨_, _, rfl, by simp⟩
  | obj => exact ⟨_, _, rfl, by simp⟩

/-- Bytes that start a value are not skipped as white space. -/
theorem valueStart_stop {b : Byte}
    (h : b = c%'n' ∨ b = c%'t' ∨ b = c%'f' ∨ b = c%'-' ∨ Digit b ∨ b = c%'"' ∨ b = c%'[' ∨ b = c%'{') :
    (¬ WsByte b ∧ b ≠ c%'/') ∧ b ≠ c%'*' ∧ b ≠ c%']' ∧ b ≠ c%'}' ∧ b ≠ c%',' := by
  revert h; revert b; apply forall_byte; decide +kernel

theorem SpaceStop.cons {b : Byte} {t : Bytes} (h : ¬ WsByte b ∧ b ≠ c%'/') : SpaceStop (b :: t) := by
  intro x hx; simp at hx; subst hx; exact h

theorem parseSpace_of_gap {g : Bytes} {b : Byte} {t : Bytes} (hg : Gap g) (h : ¬ WsByte b ∧ b ≠ c%'/')
    (hs : b ≠ c%'*') : Acc (parseSpace (g ++ b :: t)) (b :: t) :=
  parseSpace_acc_iff.mpr ⟨g, rfl, hg, .cons h, fun _ => by simpa using hs⟩

/-! ### The loops of `parse_array` and `parse_object` -/

/-- Code after an item. -/
def loopA (cl : Byte) (L : Bytes → EPtr → Out (Bytes × EPtr)) : Bytes → EPtr → Out (Bytes × EPtr)
  | [], e => .ok ([], createError .ExpectedOf e (some [cl]) 0)
  | b :: t, e =>
    if b ≠ c%',' ∧ b ≠ cl then .ok ([], createError .ExpectedOf e (some [cl]) ((b :: t).length : Nat))
    else if b = c%',' then L t e
    else L (b :: t) e

def loopB (cl : Byte) (L : Bytes → EPtr → Out (Bytes × EPtr)) (p : Bytes) (e : EPtr) : Out (Bytes × EPtr) :=
  loopA cl L (parseSpace p e).1 (parseSpace p e).2

def loopC (c : Cfg) (cl : Byte) (item L : Bytes → EPtr → Out (Bytes × EPtr)) (q : Bytes) (e : EPtr) :
    Out (Bytes × EPtr) :=
  deref c q >>= fun x =>
    if x = cl then .ok (closeWith cl q e)
    else item q e >>= fun r => loopB cl L r.1 r.2

/-- The shape shared by both loops. -/
structure IsLoop (c : Cfg) (cl : Byte) (item L : Bytes → EPtr → Out (Bytes × EPtr)) : Prop where
  eqn : ∀ s e, L s e =
    if s = [] ∨ s.head? = some cl then .ok (closeWith cl s e)
    else loopC c cl item L (parseSpace s e).1 (parseSpace s e).2
  item_nil : ∃ x : JError, x.code ≠ .ValidJSON ∧ x.tailOf = 0 ∧ ∀ e, item [] e = .ok ([], applyErr e (some x))
  item_scan : ∀ s, ScanO c s (item s)
  stop : (¬ WsByte cl ∧ cl ≠ c%'/') ∧ cl ≠ c%'*' ∧ cl ≠ c%','

theorem not_accO_err {code : Code} {m : Option Bytes} {t : Int} {p q : Bytes} (hc : code ≠ .ValidJSON) :
    ¬ AccO (fun e => .ok (q, createError code e m t)) p := by
  intro h
  have := h .fresh
  simp only [Out.ok.injEq, Prod.mk.injEq] at this
  exact applyErr_ne (x := ⟨code, m, t⟩) EPtr.fresh_clean hc this.2

theorem accO_ok {g : EPtr → Bytes × EPtr} {p : Bytes} : AccO (fun e => .ok (g e)) p ↔ Acc g p := by
  constructor
  · intro h e; have := h e; simpa using this
  · intro h e; simp [h e]

theorem closeWith_acc_iff {cl : Byte} {s p : Bytes} : Acc (closeWith cl s) p ↔ s = cl :: p := by
  cases s with
  | nil =>
    constructor
    · intro h; exact absurd h (not_acc_err (c := .ExpectedOf) (by decide))
    · intro h; simp at h
  | cons b t =>
    by_cases hb : b = cl
    · subst hb
      have : closeWith b (b :: t) = fun e => (t, e) := by funext e; simp [closeWith]
      rw [this]
      constructor
      · intro h; rw [acc_pure h]
      · intro h; simp at h; subst h; intro e; rfl
    · have : closeWith cl (b :: t) = fun e => ([], createError .ExpectedOf e (some [cl]) ((b :: t).length : Nat)) := by
        funext e; simp [closeWith, hb]
      rw [this]
      constructor
      · intro h; exact absurd h (not_acc_err (by decide))
      · intro h; simp at h; exact absurd h.1 hb

variable {c : Cfg} {cl : Byte} {item L : Bytes → EPtr → Out (Bytes × EPtr)}

theorem loopB_nil_scan : ScanO c [] (loopB cl L []) :=
  ScanO.err c [] .ExpectedOf (some [cl]) 0 (by decide) (by decide) (by simp)

theorem loopC_nil_scan (h : IsLoop c cl item L) : ScanO c [] (loopC c cl item L []) := by
  obtain ⟨x, hx, hx0, hi⟩ := h.item_nil
  unfold loopC
  refine ScanO.deref fun y => ?_
  refine ScanO.ite (fun _ => ?_) (fun _ => ?_)
  · exact (closeWith_scan cl []).toO
  · refine ScanO.bind (h.item_scan []) (fun e r hr => ?_)
    rw [hi] at hr
    cases hr
    exact loopB_nil_scan

theorem loopC_nil_not_acc (h : IsLoop c cl item L) {p : Bytes} : ¬ AccO (loopC c cl item L []) p := by
  obtain ⟨x, hx, _, hi⟩ := h.item_nil
  intro ha
  have h0 := ha .fresh
  unfold loopC deref at h0
  cases hp : c.past with
  | none => simp [hp] at h0
  | some y =>
    simp only [hp, Out.bind_ok] at h0
    split at h0
    · have h1 := congrArg (fun o => match o with | Out.ok r => r.2.failed | _ => false) h0
      revert h1; simp [closeWith, createError, EPtr.fresh, EPtr.failed, JError.status]
    · simp only [hi, Out.bind_ok, loopB, parseSpace, spaceLoop, loopA] at h0
      simp only [applyErr_createError, applyErr_applyErr _ _ hx, Out.ok.injEq, Prod.mk.injEq] at h0
      exact applyErr_ne EPtr.fresh_clean hx h0.2

theorem loopC_cons_cl {t : Bytes} : loopC c cl item L (cl :: t) = fun e => .ok (t, e) := by
  funext e; simp [loopC, deref, closeWith]

theorem loopC_cons {b : Byte} {t : Bytes} (hb : b ≠ cl) :
    loopC c cl item L (b :: t) = fun e => item (b :: t) e >>= fun r => loopB cl L r.1 r.2 := by
  funext e; simp [loopC, deref, hb]

theorem loop_cl (h : IsLoop c cl item L) {t : Bytes} : L (cl :: t) = fun e => .ok (t, e) := by
  funext e; rw [h.eqn]; simp [closeWith]

theorem loop_acc_iff (h : IsLoop c cl item L) {s p : Bytes} :
    AccO (L s) p ↔
      (∃ g, Gap g ∧ s = g ++ cl :: p) ∨
      (∃ g1 b t g2 m, Gap g1 ∧ s = g1 ++ b :: t ∧ (¬ WsByte b ∧ b ≠ c%'/') ∧ b ≠ cl ∧
        (g1.getLast? = some c%'/' → b ≠ c%'*') ∧
        AccO (item (b :: t)) (g2 ++ m) ∧ Gap g2 ∧
        (m = cl :: p ∨ ∃ r, m = c%',' :: r ∧ AccO (L r) p)) := by
  constructor
  · intro ha
    by_cases hs : s = [] ∨ s.head? = some cl
    · left
      have : L s = fun e => .ok (closeWith cl s e) := by funext e; rw [h.eqn, if_pos hs]
      rw [this, accO_ok, closeWith_acc_iff] at ha
      exact ⟨[], .nil, ha⟩
    · have : L s = fun e => loopC c cl item L (parseSpace s e).1 (parseSpace s e).2 := by
        funext e; rw [h.eqn, if_neg hs]
      rw [this] at ha
      obtain ⟨q, hq, ha1⟩ := AccO.bindAt_inv (parseSpace_scan s) (loopC_nil_scan h) ha
      clear ha this
      obtain ⟨g1, rfl, hg1, hst, hstar⟩ := parseSpace_acc_iff.mp hq
      cases q with
      | nil => exact absurd ha1 (loopC_nil_not_acc h)
      | cons b t =>
        by_cases hb : b = cl
        · subst hb
          rw [loopC_cons_cl] at ha1
          have := acc_pure (accO_ok.mp ha1)
          subst this
          exact .inl ⟨g1, hg1, rfl⟩
        · rw [loopC_cons hb] at ha1
          obtain ⟨q2, hq2, ha2⟩ := AccO.bind_inv (h.item_scan (b :: t)) loopB_nil_scan ha1
          obtain ⟨m, hm, ha⟩ := AccO.bindAt_inv (c := c) (parseSpace_scan q2)
            (ScanO.err c [] .ExpectedOf (some [cl]) 0 (by decide) (by decide) (by simp)) ha2
          clear ha1 ha2
          obtain ⟨g2, rfl, hg2, hst2, hstar2⟩ := parseSpace_acc_iff.mp hm
          refine .inr ⟨g1, b, t, g2, m, hg1, rfl, hst b rfl, hb, fun hl => by simpa using hstar hl, hq2, hg2, ?_⟩
          cases m with
          | nil => exact absurd ha (not_accO_err (code := .ExpectedOf) (by decide))
          | cons x m =>
            by_cases hx : x ≠ c%',' ∧ x ≠ cl
            · have : loopA cl L (x :: m) =
                  fun e => .ok ([], createError .ExpectedOf e (some [cl]) ((x :: m).length : Nat)) := by
                funext e; rw [loopA, if_pos hx]
              rw [this] at ha
              exact absurd ha (not_accO_err (by decide))
            · by_cases hc : x = c%','
              · have : loopA cl L (x :: m) = L m := by
                  funext e; rw [loopA, if_neg hx, if_pos hc]
                rw [this] at ha
                exact .inr ⟨m, by rw [hc], ha⟩
              · have hxl : x = cl := by
                  apply Decidable.byContradiction; intro hn; exact hx ⟨hc, hn⟩
                have : loopA cl L (x :: m) = L (x :: m) := by
                  funext e; rw [loopA, if_neg hx, if_neg hc]
                rw [this, hxl, loop_cl h] at ha
                have := acc_pure (accO_ok.mp ha)
                subst this
                exact .inl (by rw [hxl])
  · intro hd
    rcases hd with ⟨g, hg, rfl⟩ | ⟨g1, b, t, g2, m, hg1, rfl, hst, hb, hstar, hi, hg2, hm⟩
    · cases g with
      | nil => intro e; rw [List.nil_append, loop_cl h]
      | cons x g =>
        have hs : ¬ ((x :: g ++ cl :: p) = [] ∨ (x :: g ++ cl :: p).head? = some cl) := by
          simp
          rintro rfl
          rcases gap_head hg rfl with h1 | h1
          · exact h.stop.1.1 h1
          · exact h.stop.1.2 h1
        have : L (x :: g ++ cl :: p) = fun e => loopC c cl item L (parseSpace (x :: g ++ cl :: p) e).1
            (parseSpace (x :: g ++ cl :: p) e).2 := by
          funext e; rw [h.eqn, if_neg hs]
        rw [this]
        refine Acc.bindO (parseSpace_of_gap hg h.stop.1 h.stop.2.1) ?_
        rw [loopC_cons_cl]
        intro e; rfl
    · have hs : ¬ ((g1 ++ b :: t) = [] ∨ (g1 ++ b :: t).head? = some cl) := by
        cases g1 with
        | nil => simpa using hb
        | cons x g =>
          simp
          rintro rfl
          rcases gap_head hg1 rfl with h1 | h1
          · exact h.stop.1.1 h1
          · exact h.stop.1.2 h1
      have : L (g1 ++ b :: t) = fun e => loopC c cl item L (parseSpace (g1 ++ b :: t) e).1
          (parseSpace (g1 ++ b :: t) e).2 := by
        funext e; rw [h.eqn, if_neg hs]
      rw [this]
      refine Acc.bindO (parseSpace_acc_iff.mpr ⟨g1, rfl, hg1, .cons hst, fun hl => by simpa using hstar hl⟩) ?_
      rw [loopC_cons hb]
      intro e
      simp only [hi e, Out.bind_ok]
      have hB : AccO (loopB cl L (g2 ++ m)) p := by
        rcases hm with rfl | ⟨r, rfl, hr⟩
        · refine Acc.bindO (k := loopA cl L) (parseSpace_of_gap hg2 h.stop.1 h.stop.2.1) ?_
          intro e
          rw [loopA, if_neg (by simp), if_neg h.stop.2.2, loop_cl h]
        · refine Acc.bindO (k := loopA cl L) (parseSpace_of_gap hg2 (by decide) (by decide)) ?_
          intro e
          rw [loopA, if_neg (by simp), if_pos rfl]
          exact hr e
      exact hB e

/-! ### `parse_member` -/

def memA (c : Cfg) : Bytes → EPtr → Out (Bytes × EPtr)
  | [], e => .ok ([], createError .UnexpectedEndFragment e)
  | b :: t, e => parseValue c (b :: t) e

def memB (c : Cfg) : Bytes → EPtr → Out (Bytes × EPtr)
  | [], e => .ok ([], createError .UnexpectedEndFragment e)
  | b :: t, e => memA c (parseSpace (b :: t) e).1 (parseSpace (b :: t) e).2

def memC (c : Cfg) : Bytes → EPtr → Out (Bytes × EPtr)
  | [], e => .ok ([], createError .UnexpectedEndFragment e)
  | b :: t, e => if b ≠ c%':' then .ok ([], createError .ExpectedOf e (some b!":") (t.length : Nat)) else memB c t e

def memD (c : Cfg) : Bytes → EPtr → Out (Bytes × EPtr)
  | [], e => .ok ([], createError .UnexpectedEndFragment e)
  | b :: t, e => memC c (parseSpace (b :: t) e).1 (parseSpace (b :: t) e).2

theorem parseMember_eq' (c : Cfg) {s : Bytes} (hs : isString s = true) (e : EPtr) :
    parseMember c s e = memD c (parseString s e).1 (parseString s e).2 := by
  rw [parseMember_eq]
  simp only [hs, Bool.not_true, Bool.false_eq_true, if_false]
  generalize parseString s e = p
  obtain ⟨p, e1⟩ := p
  cases p with
  | nil => rfl
  | cons b t =>
    simp only [memD]
    generalize parseSpace (b :: t) e1 = p
    obtain ⟨p, e2⟩ := p
    cases p with
    | nil => rfl
    | cons b' t' =>
      simp only [memC]
      refine ite_congr rfl (fun _ => rfl) fun _ => ?_
      cases t' with
      | nil => rfl
      | cons b2 t2 =>
        simp only [memB]
        generalize parseSpace (b2 :: t2) e2 = p
        obtain ⟨p, e3⟩ := p
        cases p with
        | nil => rfl
        | cons b3 t3 => rfl

private theorem ueScan : ScanO c [] (fun e => .ok ([], createError .UnexpectedEndFragment e)) :=
  ScanO.err c [] .UnexpectedEndFragment none 0 (by decide) (by decide) (by simp)

private theorem not_ue {p : Bytes} : ¬ AccO (fun e => .ok ([], createError .UnexpectedEndFragment e)) p :=
  not_accO_err (by decide)

theorem parseMember_acc_iff {s p : Bytes} :
    AccO (parseMember c s) p ↔
      ∃ k g1 g2 b t, XString k ∧ Gap g1 ∧ Gap g2 ∧ s = k ++ (g1 ++ c%':' :: (g2 ++ b :: t)) ∧
        (¬ WsByte b ∧ b ≠ c%'/') ∧ (g2.getLast? = some c%'/' → b ≠ c%'*') ∧ AccO (parseValue c (b :: t)) p := by
  cases hs : isString s with
  | false =>
    have : parseMember c s = fun e => .ok ([], createError .InvalidMember e none (s.length : Nat)) := by
      funext e; rw [parseMember_eq]; simp [hs]
    rw [this]
    constructor
    · intro h; exact absurd h (not_accO_err (by decide))
    · rintro ⟨k, g1, g2, b, t, ⟨u, _, rfl⟩, _, _, rfl, _⟩
      simp [isString] at hs
  | true =>
    have hfun : parseMember c s = fun e => memD c (parseString s e).1 (parseString s e).2 :=
      funext (parseMember_eq' c hs)
    rw [hfun]
    constructor
    · intro h
      obtain ⟨q1, h1, h'⟩ := AccO.bindAt_inv (c := c) (parseString_scan s) ueScan h
      clear h hfun
      have h := h'
      clear h'
      obtain ⟨k, rfl, hk⟩ := parseString_acc_iff.mp h1
      cases q1 with
      | nil => exact absurd h not_ue
      | cons b1 t1 =>
        obtain ⟨q2, h2, h⟩ := AccO.bindAt_inv (c := c) (k := memC c) (parseSpace_scan (b1 :: t1)) ueScan h
        obtain ⟨g1, e1, hg1, _, _⟩ := parseSpace_acc_iff.mp h2
        cases q2 with
        | nil => exact absurd h not_ue
        | cons b2 t2 =>
          by_cases hb2 : b2 = c%':'
          · subst hb2
            have : memC c (c%':' :: t2) = memB c t2 := by funext e; simp [memC]
            rw [this] at h
            cases t2 with
            | nil => exact absurd h not_ue
            | cons b3 t3 =>
              obtain ⟨q3, h3, h⟩ := AccO.bindAt_inv (c := c) (k := memA c) (parseSpace_scan (b3 :: t3)) ueScan h
              obtain ⟨g2, e2, hg2, hst, hstar⟩ := parseSpace_acc_iff.mp h3
              cases q3 with
              | nil => exact absurd h not_ue
              | cons b t =>
                refine ⟨k, g1, g2, b, t, hk, hg1, hg2, by rw [e1, e2], hst b rfl, fun hl => by simpa using hstar hl, h⟩
          · have : memC c (b2 :: t2) = fun e => .ok ([], createError .ExpectedOf e (some b!":") (t2.length : Nat)) := by
              funext e; simp [memC, hb2]
            rw [this] at h
            exact absurd h (not_accO_err (by decide))
    · rintro ⟨k, g1, g2, b, t, hk, hg1, hg2, rfl, hst, hstar, hv⟩
      refine Acc.bindO (k := memD c) (parseString_acc_iff.mpr ⟨k, rfl, hk⟩) ?_
      have hC : AccO (memC c (c%':' :: (g2 ++ b :: t))) p := by
        have : memC c (c%':' :: (g2 ++ b :: t)) = memB c (g2 ++ b :: t) := by funext e; simp [memC]
        rw [this]
        have hA : Acc (parseSpace (g2 ++ b :: t)) (b :: t) :=
          parseSpace_acc_iff.mpr ⟨g2, rfl, hg2, .cons hst, fun hl => by simpa using hstar hl⟩
        have : memB c (g2 ++ b :: t) = fun e =>
            memA c (parseSpace (g2 ++ b :: t) e).1 (parseSpace (g2 ++ b :: t) e).2 := by
          cases g2 <;> rfl
        rw [this]
        exact Acc.bindO hA hv
      have hA : Acc (parseSpace (g1 ++ c%':' :: (g2 ++ b :: t))) (c%':' :: (g2 ++ b :: t)) :=
        parseSpace_of_gap hg1 (by decide) (by decide)
      have : memD c (g1 ++ c%':' :: (g2 ++ b :: t)) = fun e =>
          memC c (parseSpace (g1 ++ c%':' :: (g2 ++ b :: t)) e).1
            (parseSpace (g1 ++ c%':' :: (g2 ++ b :: t)) e).2 := by
        cases g1 <;> rfl
      rw [this]
      exact Acc.bindO hA hC

/-! ### The two loops -/

theorem parseValue_nil (e : EPtr) : parseValue c [] e = .ok ([], createError .InvalidJSON e none 0) := by
  rw [parseValue_eq]; rfl

theorem parseMember_nil (e : EPtr) : parseMember c [] e = .ok ([], createError .InvalidMember e none 0) := by
  rw [parseMember_eq]; rfl

theorem arrayLoop_isLoop : IsLoop c c%']' (parseValue c) (arrayLoop c) where
  eqn s e := by
    rw [arrayLoop_eq]
    refine ite_congr rfl (fun _ => rfl) fun _ => ?_
    refine Out.bind_congr fun x _ => ?_
    refine ite_congr rfl (fun _ => rfl) fun _ => ?_
    refine Out.bind_congr fun r _ => ?_
    simp only [loopB]
    generalize parseSpace r.1 r.2 = p
    obtain ⟨p, e2⟩ := p
    cases p <;> rfl
  item_nil := ⟨⟨.InvalidJSON, none, 0⟩, by decide, rfl, fun e => parseValue_nil e⟩
  item_scan s := parseValue_scan c s
  stop := by decide

theorem objectLoop_isLoop : IsLoop c c%'}' (parseMember c) (objectLoop c) where
  eqn s e := by
    rw [objectLoop_eq]
    refine ite_congr rfl (fun _ => rfl) fun _ => ?_
    refine Out.bind_congr fun x _ => ?_
    refine ite_congr rfl (fun _ => rfl) fun _ => ?_
    refine Out.bind_congr fun r _ => ?_
    simp only [loopB]
    generalize parseSpace r.1 r.2 = p
    obtain ⟨p, e2⟩ := p
    cases p <;> rfl
  item_nil := ⟨⟨.InvalidMember, none, 0⟩, by decide, rfl, fun e => parseMember_nil e⟩
  item_scan s := parseMember_scan c s
  stop := by decide

/-! ### Objects and arrays -/

theorem isObject_brace (t : Bytes) : isObject (c%'{' :: t) = true := rfl

theorem isObject_bracket {t : Bytes} :
    isObject (c%'[' :: t) = true ↔ ∃ g p, Gap g ∧ t = g ++ c%']' :: p := by
  have : isObject (c%'[' :: t) = ((parseSpace t .null).1.head? == some c%']') := by simp [isObject]
  rw [this, beq_iff_eq]
  constructor
  · intro h
    rcases (parseSpace_scan t).cases with ⟨q, hq, _⟩ | ⟨x, _, hr⟩
    · rw [hq] at h
      obtain ⟨g, rfl, hg, _, _⟩ := parseSpace_acc_iff.mp hq
      cases q with
      | nil => simp at h
      | cons b q => simp at h; subst h; exact ⟨g, q, hg, rfl⟩
    · rw [hr] at h; simp at h
  · rintro ⟨g, p, hg, rfl⟩
    rw [parseSpace_of_gap hg (by decide) (by decide) .null]
    rfl

def objK (c : Cfg) (q : Bytes) (e : EPtr) : Out (Bytes × EPtr) :=
  if q.head? = some c%']' then .ok (q.tail, e) else objectLoop c q e

theorem parseObject_acc_iff {b : Byte} {t p : Bytes} (ho : isObject (b :: t) = true) :
    AccO (parseObject c (b :: t)) p ↔
      (∃ g, Gap g ∧ t = g ++ c%']' :: p) ∨
      (∃ g q, Gap g ∧ t = g ++ q ∧ q.head? ≠ some c%']' ∧ SpaceStop q ∧
        (g.getLast? = some c%'/' → q.head? ≠ some c%'*') ∧ AccO (objectLoop c q) p) := by
  have hfun : parseObject c (b :: t) = fun e => objK c (parseSpace t e).1 (parseSpace t e).2 := by
    funext e; rw [parseObject_eq]; rw [ho, if_neg (by simp)]; rfl
  have hk : ScanO c [] (objK c []) := objectLoop_scan c []
  rw [hfun]
  constructor
  · intro h
    obtain ⟨q, hq, h'⟩ := AccO.bindAt_inv (parseSpace_scan t) hk h
    clear h hfun
    have h := h'
    clear h'
    obtain ⟨g, rfl, hg, hst, hstar⟩ := parseSpace_acc_iff.mp hq
    by_cases hh : q.head? = some c%']'
    · left
      have := h .null
      rw [objK, if_pos hh] at this
      simp at this
      cases q with
      | nil => simp at hh
      | cons x q => simp at hh this; exact ⟨g, hg, by rw [hh, this]⟩
    · right
      refine ⟨g, q, hg, rfl, hh, hst, hstar, fun e => ?_⟩
      have := h e
      rwa [objK, if_neg hh] at this
  · rintro (⟨g, hg, rfl⟩ | ⟨g, q, hg, rfl, hh, hst, hstar, hl⟩)
    · refine Acc.bindO (k := objK c) (parseSpace_of_gap hg (by decide) (by decide)) ?_
      intro e; simp [objK]
    · refine Acc.bindO (k := objK c) (parseSpace_acc_iff.mpr ⟨g, rfl, hg, hst, hstar⟩) ?_
      intro e
      rw [objK, if_neg hh]; exact hl e

theorem parseArray_acc_iff {t p : Bytes} : AccO (parseArray c (c%'[' :: t)) p ↔ AccO (arrayLoop c t) p := by
  have : parseArray c (c%'[' :: t) = arrayLoop c t := by
    funext e; rw [parseArray_eq]; simp [isArray]
  rw [this]

/-! ### Dispatch -/

theorem parseValue_n {t : Bytes} : parseValue c (c%'n' :: t) = fun e => .ok (parseNull (c%'n' :: t) e) := by
  funext e; rw [parseValue_eq]; simp [isNull]

theorem parseValue_tf {b : Byte} {t : Bytes} (h : b = c%'t' ∨ b = c%'f') :
    parseValue c (b :: t) = fun e => .ok (parseBool (b :: t) e) := by
  funext e; rw [parseValue_eq]
  rcases h with rfl | rfl <;> simp [isNull, isBool]

theorem digit_ne {b : Byte} (h : b = c%'-' ∨ Digit b) : b ≠ c%'n' ∧ b ≠ c%'t' ∧ b ≠ c%'f' := by
  revert h; revert b; apply forall_byte; decide +kernel

theorem parseValue_num {b : Byte} {t : Bytes} (h : b = c%'-' ∨ Digit b) :
    parseValue c (b :: t) = fun e => .ok (parseNumber (b :: t) e) := by
  funext e; rw [parseValue_eq]
  obtain ⟨h1, h2, h3⟩ := digit_ne h
  have : isNumber (b :: t) = true := by
    rcases h with rfl | h
    · rfl
    · simp [isNumber, isDigit_iff.mpr h]
  simp [isNull, isBool, h1, h2, h3, this]

theorem parseValue_quote {t : Bytes} : parseValue c (c%'"' :: t) = fun e => .ok (parseString (c%'"' :: t) e) := by
  funext e; rw [parseValue_eq]; simp [isNull, isBool, isNumber, isDigit, isString]

theorem parseValue_brace {t : Bytes} : parseValue c (c%'{' :: t) = parseObject c (c%'{' :: t) := by
  funext e; rw [parseValue_eq]; simp [isNull, isBool, isNumber, isDigit, isString, isObject]

theorem parseValue_bracket {t : Bytes} : parseValue c (c%'[' :: t) =
    if isObject (c%'[' :: t) then parseObject c (c%'[' :: t) else parseArray c (c%'[' :: t) := by
  funext e; rw [parseValue_eq]
  simp only [isNull, isBool, isNumber, isDigit, isString, isArray, List.head?_cons]
  cases isObject (c%'[' :: t) <;> simp

theorem parseValue_other {b : Byte} {t : Bytes}
    (h : ¬ (b = c%'n' ∨ b = c%'t' ∨ b = c%'f' ∨ b = c%'-' ∨ Digit b ∨ b = c%'"' ∨ b = c%'[' ∨ b = c%'{')) :
    parseValue c (b :: t) = fun e => .ok ([], createError .InvalidJSON e none ((b :: t).length : Nat)) := by
  funext e; rw [parseValue_eq]
  simp only [not_or] at h
  obtain ⟨h1, h2, h3, h4, h5, h6, h7, h8⟩ := h
  have h5' : isDigit b = false := by
    cases hd : isDigit b with
    | false => rfl
    | true => exact absurd (isDigit_iff.mp hd) h5
  simp [isNull, isBool, isNumber, isString, isObject, isArray, h1, h2, h3, h4, h5', h6, h7, h8]

/-! ### Soundness -/

theorem members_gap {g t : Bytes} (hg : Gap g) (h : XG .members t) : XG .members (g ++ t) := by
  generalize hk : Kind.members = k at h
  cases h with
  | memb h0 h1 h2 h3 h4 h5 => simpa using XG.memb (hg.append h0) h1 h2 h3 h4 h5
  | membTrail h0 h1 h2 h3 h4 h5 h6 => simpa using XG.membTrail (hg.append h0) h1 h2 h3 h4 h5 h6
  | membMore h0 h1 h2 h3 h4 h5 h6 => simpa using XG.membMore (hg.append h0) h1 h2 h3 h4 h5 h6
  | _ => cases hk

theorem value_sound (c : Cfg) (n : Nat) :
    (∀ s p, s.length ≤ n → AccO (parseValue c s) p →
      ∃ t, s = t ++ p ∧ XValue t ∧ (RNumber t → NumFollow t p)) ∧
    (∀ s p, s.length ≤ n → AccO (arrayLoop c s) p →
      ∃ t, s = t ++ c%']' :: p ∧ (Gap t ∨ XG .elems t)) ∧
    (∀ s p, s.length ≤ n → AccO (objectLoop c s) p →
      ∃ t, s = t ++ c%'}' :: p ∧ (Gap t ∨ XG .members t)) := by
  induction n with
  | zero =>
    have nil : ∀ {s : Bytes}, s.length ≤ 0 → s = [] := fun h => List.length_eq_zero_iff.mp (Nat.le_zero.mp h)
    refine ⟨fun s p hs h => ?_, fun s p hs h => ?_, fun s p hs h => ?_⟩ <;> have := nil hs <;> subst this
    · have := funext (fun e => parseValue_nil (c := c) e)
      rw [this] at h
      exact absurd h (not_accO_err (by decide))
    · rcases (loop_acc_iff arrayLoop_isLoop).mp h with ⟨g, _, h⟩ | ⟨g, b, t, _, _, _, h, _⟩ <;> simp at h
    · rcases (loop_acc_iff objectLoop_isLoop).mp h with ⟨g, _, h⟩ | ⟨g, b, t, _, _, _, h, _⟩ <;> simp at h
  | succ n ih =>
    obtain ⟨ihv, iha, iho⟩ := ih
    have nonum : ∀ {b : Byte} {t : Bytes}, ¬ (b = c%'-' ∨ Digit b) → ¬ RNumber (b :: t) := by
      intro b t hb hr
      obtain ⟨b', u, h1, h2⟩ := rnumber_head hr
      simp at h1
      exact hb (h1.1 ▸ h2)
    have hval : ∀ s p, s.length ≤ n + 1 → AccO (parseValue c s) p →
        ∃ t, s = t ++ p ∧ XValue t ∧ (RNumber t → NumFollow t p) := by
      intro s p hs h
      cases s with
      | nil =>
        have := funext (fun e => parseValue_nil (c := c) e)
        rw [this] at h
        exact absurd h (not_accO_err (by decide))
      | cons b t =>
        by_cases hb : b = c%'n' ∨ b = c%'t' ∨ b = c%'f' ∨ b = c%'-' ∨ Digit b ∨ b = c%'"' ∨ b = c%'[' ∨ b = c%'{'
        · have objcase : ∀ {b : Byte}, (b = c%'{' ∨ b = c%'[') → isObject (b :: t) = true →
              AccO (parseObject c (b :: t)) p → (b :: t).length ≤ n + 1 →
              ∃ u, b :: t = u ++ p ∧ XValue u ∧ (RNumber u → NumFollow u p) := by
            intro b hb ho h hs
            have hnn : ∀ {t : Bytes}, ¬ RNumber (b :: t) := by
              intro t; apply nonum; rcases hb with rfl | rfl <;> decide
            rcases (parseObject_acc_iff ho).mp h with ⟨g, hg, rfl⟩ | ⟨g, q, hg, rfl, hh, hst, hstar, hl⟩
            · refine ⟨b :: g ++ b!"]", by simp, ?_, fun hr => absurd hr hnn⟩
              rcases hb with rfl | rfl
              · exact .objBracket hg
              · exact .arr0 hg
            · have hb' : b = c%'{' := by
                rcases hb with rfl | rfl
                · rfl
                · exfalso
                  obtain ⟨g', p', hg', he⟩ := isObject_bracket.mp ho
                  have h1 : Acc (parseSpace (g ++ q)) q := parseSpace_acc_iff.mpr ⟨g, rfl, hg, hst, hstar⟩
                  have h2 : Acc (parseSpace (g ++ q)) (c%']' :: p') := by
                    rw [he]; exact parseSpace_of_gap hg' (by decide) (by decide)
                  have := h1.unique h2
                  rw [this] at hh; simp at hh
              subst hb'
              obtain ⟨t', rfl, ht'⟩ := iho q p (by simp at hs; omega) hl
              refine ⟨c%'{' :: (g ++ t') ++ b!"}", by simp, ?_, fun hr => absurd hr hnn⟩
              rcases ht' with ht' | ht'
              · exact .obj0 (hg.append ht')
              · exact .obj (members_gap hg ht')
          rcases hb with rfl | hb
          · rw [parseValue_n, accO_ok, parseNull_acc_iff] at h
            exact ⟨b!"null", h, .null, fun hr => absurd hr (nonum (by decide))⟩
          rw [← or_assoc] at hb
          rcases hb with hb | hb
          · rw [parseValue_tf hb, accO_ok, parseBool_acc_iff] at h
            rcases h with h | h
            · exact ⟨b!"true", h, .true, fun hr => absurd hr (nonum (by decide))⟩
            · exact ⟨b!"false", h, .false, fun hr => absurd hr (nonum (by decide))⟩
          rw [← or_assoc] at hb
          rcases hb with hb | hb
          · rw [parseValue_num hb, accO_ok, parseNumber_acc_iff] at h
            obtain ⟨t', h1, h2, h3⟩ := h
            exact ⟨t', h1, .num h2, fun _ => h3⟩
          rcases hb with rfl | rfl | rfl
          · rw [parseValue_quote, accO_ok, parseString_acc_iff] at h
            obtain ⟨t', h1, h2⟩ := h
            refine ⟨t', h1, .str h2, fun hr => ?_⟩
            obtain ⟨u, _, rfl⟩ := h2
            exact absurd hr (nonum (by decide))
          · rw [parseValue_bracket] at h
            cases ho : isObject (c%'[' :: t) with
            | true =>
              rw [ho, if_pos rfl] at h
              exact objcase (.inr rfl) ho h hs
            | false =>
              rw [ho, if_neg (by simp), parseArray_acc_iff] at h
              obtain ⟨t', rfl, ht'⟩ := iha t p (by simp at hs; omega) h
              refine ⟨c%'[' :: t' ++ b!"]", by simp, ?_, fun hr => absurd hr (nonum (by decide))⟩
              rcases ht' with ht' | ht'
              · exact .arr0 ht'
              · exact .arr ht'
          · rw [parseValue_brace] at h
            exact objcase (.inl rfl) rfl h hs
        · rw [parseValue_other hb] at h
          exact absurd h (not_accO_err (by decide))
    refine ⟨hval, ?_, ?_⟩
    · intro s p hs h
      rcases (loop_acc_iff arrayLoop_isLoop).mp h with ⟨g, hg, rfl⟩ | ⟨g1, b, t, g2, m, hg1, rfl, hst, hb, hstar, hi, hg2, hm⟩
      · exact ⟨g, rfl, .inl hg⟩
      · obtain ⟨v, hv, hx, _⟩ := hval _ _ (by simp at hs ⊢; omega) hi
        have hlen := congrArg List.length hv
        rw [hv]
        obtain ⟨bv, uv, rfl, _⟩ := xvalue_head hx
        rcases hm with rfl | ⟨r, rfl, hr⟩
        · exact ⟨g1 ++ (bv :: uv) ++ g2, by simp, .inr (.elem hg1 hx hg2)⟩
        · obtain ⟨t', rfl, ht'⟩ := iha r p (by simp at hs hlen; omega) hr
          refine ⟨g1 ++ (bv :: uv) ++ g2 ++ c%',' :: t', by simp, .inr ?_⟩
          rcases ht' with ht' | ht'
          · exact .elemTrail hg1 hx hg2 ht'
          · exact .elemMore hg1 hx hg2 ht'
    · intro s p hs h
      rcases (loop_acc_iff objectLoop_isLoop).mp h with ⟨g, hg, rfl⟩ | ⟨g0, b, t, g3, m, hg0, rfl, hst, hb, hstar, hi, hg3, hm⟩
      · exact ⟨g, rfl, .inl hg⟩
      · obtain ⟨k, g1, g2, b', t', hk, hg1, hg2, hs', hst', hstar', hv'⟩ := parseMember_acc_iff.mp hi
        have hlen := congrArg List.length hs'
        obtain ⟨v, hv, hx, _⟩ := hval _ _ (by simp at hs hlen ⊢; omega) hv'
        have hlen2 := congrArg List.length hv
        rw [hs', hv]
        rcases hm with rfl | ⟨r, rfl, hr⟩
        · exact ⟨g0 ++ k ++ g1 ++ c%':' :: (g2 ++ v ++ g3), by simp, .inr (.memb hg0 hk hg1 hg2 hx hg3)⟩
        · obtain ⟨t', rfl, ht'⟩ := iho r p (by simp at hs hlen hlen2; omega) hr
          refine ⟨g0 ++ k ++ g1 ++ c%':' :: (g2 ++ v ++ g3 ++ c%',' :: t'), by simp, .inr ?_⟩
          rcases ht' with ht' | ht'
          · exact .membTrail hg0 hk hg1 hg2 hx hg3 ht'
          · exact .membMore hg0 hk hg1 hg2 hx hg3 ht'

/-! ### Completeness -/

/-- What acceptance of a text of the given category means. -/
def Compl (c : Cfg) : Kind → Bytes → Prop
  | .value, t => ∀ p, (RNumber t → NumFollow t p) → AccO (parseValue c (t ++ p)) p
  | .elems, t => ∀ p, AccO (arrayLoop c (t ++ c%']' :: p)) p
  | .members, t => ∀ p, AccO (objectLoop c (t ++ c%'}' :: p)) p

theorem elems_head {t : Bytes} (h : XG .elems t) : ∃ g b u, t = g ++ b :: u ∧ Gap g ∧
    (b = c%'n' ∨ b = c%'t' ∨ b = c%'f' ∨ b = c%'-' ∨ Digit b ∨ b = c%'"' ∨ b = c%'[' ∨ b = c%'{') := by
  generalize hk : Kind.elems = k at h
  cases h with
  | elem h0 h1 h2 =>
    obtain ⟨b, u, rfl, hb⟩ := xvalue_head h1
    exact ⟨_, b, _, by simp; rfl, h0, hb⟩
  | elemTrail h0 h1 h2 =>
    obtain ⟨b, u, rfl, hb⟩ := xvalue_head h1
    exact ⟨_, b, _, by simp; rfl, h0, hb⟩
  | elemMore h0 h1 h2 =>
    obtain ⟨b, u, rfl, hb⟩ := xvalue_head h1
    exact ⟨_, b, _, by simp; rfl, h0, hb⟩
  | _ => cases hk

theorem members_head {t : Bytes} (h : XG .members t) : ∃ g u, t = g ++ c%'"' :: u ∧ Gap g := by
  generalize hk : Kind.members = k at h
  cases h with
  | memb h0 h1 =>
    obtain ⟨u, _, rfl⟩ := h1
    exact ⟨_, _, by simp; rfl, h0⟩
  | membTrail h0 h1 =>
    obtain ⟨u, _, rfl⟩ := h1
    exact ⟨_, _, by simp; rfl, h0⟩
  | membMore h0 h1 =>
    obtain ⟨u, _, rfl⟩ := h1
    exact ⟨_, _, by simp; rfl, h0⟩
  | _ => cases hk

private theorem delim_close {b : Byte} {t : Bytes} (h : b = c%']' ∨ b = c%'}' ∨ b = c%',') : Delim (b :: t) :=
  Delim.of_head rfl (by revert h; revert b; apply forall_byte; decide +kernel)

private theorem elem_case {g1 v g2 p m : Bytes} (h1 : Gap g1) (hx : XValue v) (hv : Compl c .value v) (h2 : Gap g2)
    (hm : m = c%']' :: p ∨ ∃ r, m = c%',' :: r ∧ AccO (arrayLoop c r) p) :
    AccO (arrayLoop c (g1 ++ v ++ g2 ++ m)) p := by
  obtain ⟨b, u, rfl, hb⟩ := xvalue_head hx
  obtain ⟨hs1, hs2, hs3, hs4, hs5⟩ := valueStart_stop hb
  refine (loop_acc_iff arrayLoop_isLoop).mpr (.inr ⟨g1, b, u ++ (g2 ++ m), g2, m, h1, by simp, hs1, hs3,
    fun _ => hs2, ?_, h2, hm⟩)
  have : Delim (g2 ++ m) := by
    apply gap_delim h2
    rcases hm with rfl | ⟨r, rfl, _⟩ <;> exact delim_close (by simp)
  exact hv (g2 ++ m) (fun _ => this.numFollow _)

private theorem memb_case {g0 k g1 g2 v g3 p m : Bytes} (h0 : Gap g0) (hk : XString k) (h1 : Gap g1) (h2 : Gap g2)
    (hx : XValue v) (hv : Compl c .value v) (h3 : Gap g3)
    (hm : m = c%'}' :: p ∨ ∃ r, m = c%',' :: r ∧ AccO (objectLoop c r) p) :
    AccO (objectLoop c (g0 ++ k ++ g1 ++ c%':' :: (g2 ++ v ++ g3 ++ m))) p := by
  obtain ⟨b, u, rfl, hb⟩ := xvalue_head hx
  obtain ⟨hs1, hs2, hs3, hs4, hs5⟩ := valueStart_stop hb
  have hk' := hk
  obtain ⟨ku, _, rfl⟩ := hk'
  refine (loop_acc_iff objectLoop_isLoop).mpr (.inr ⟨g0, c%'"', ku ++ b!"\"" ++ (g1 ++ c%':' :: (g2 ++ b :: u ++ (g3 ++ m))),
    g3, m, h0, by simp, by decide, by decide, fun _ => by decide, ?_, h3, hm⟩)
  refine parseMember_acc_iff.mpr ⟨_, g1, g2, b, u ++ (g3 ++ m), hk, h1, h2, by simp, hs1, fun _ => hs2, ?_⟩
  have : Delim (g3 ++ m) := by
    apply gap_delim h3
    rcases hm with rfl | ⟨r, rfl, _⟩ <;> exact delim_close (by simp)
  exact hv (g3 ++ m) (fun _ => this.numFollow _)

theorem value_complete (c : Cfg) {k : Kind} {t : Bytes} (h : XG k t) : Compl c k t := by
  induction h with
  | null => intro p _; rw [List.cons_append, parseValue_n, accO_ok, parseNull_acc_iff]; rfl
  | true => intro p _; rw [List.cons_append, parseValue_tf (by simp), accO_ok, parseBool_acc_iff]; exact .inl rfl
  | false => intro p _; rw [List.cons_append, parseValue_tf (by simp), accO_ok, parseBool_acc_iff]; exact .inr rfl
  | num h =>
    intro p hf
    have hr := h
    obtain ⟨b, u, rfl, hb⟩ := rnumber_head h
    rw [List.cons_append, parseValue_num hb, accO_ok, parseNumber_acc_iff]
    exact ⟨_, rfl, hr, hf hr⟩
  | str h =>
    intro p _
    have hr := h
    obtain ⟨u, _, rfl⟩ := h
    rw [List.cons_append, List.cons_append, parseValue_quote, accO_ok, parseString_acc_iff]
    exact ⟨_, rfl, hr⟩
  | @arr0 g hg =>
    intro p _
    have : c%'[' :: g ++ b!"]" ++ p = c%'[' :: (g ++ c%']' :: p) := by simp
    have ho : isObject (c%'[' :: (g ++ c%']' :: p)) = true := isObject_bracket.mpr ⟨g, p, hg, rfl⟩
    rw [this, parseValue_bracket, ho, if_pos rfl, parseObject_acc_iff ho]
    exact .inl ⟨g, hg, rfl⟩
  | @arr t ht ih =>
    intro p _
    have : c%'[' :: t ++ b!"]" ++ p = c%'[' :: (t ++ c%']' :: p) := by simp
    have ho : isObject (c%'[' :: (t ++ c%']' :: p)) = false := by
      cases ho : isObject (c%'[' :: (t ++ c%']' :: p)) with
      | false => rfl
      | true =>
        exfalso
        obtain ⟨g', p', hg', he⟩ := isObject_bracket.mp ho
        obtain ⟨g, b, u, rfl, hg, hb⟩ := elems_head ht
        obtain ⟨hs1, hs2, hs3, _⟩ := valueStart_stop hb
        have h1 : Acc (parseSpace (g' ++ c%']' :: p')) (c%']' :: p') := parseSpace_of_gap hg' (by decide) (by decide)
        have h2 : Acc (parseSpace (g ++ b :: (u ++ c%']' :: p))) (b :: (u ++ c%']' :: p)) :=
          parseSpace_of_gap hg hs1 hs2
        rw [← he] at h1
        simp only [List.append_assoc, List.cons_append] at h1
        have := h1.unique h2
        simp at this
        exact hs3 this.1.symm
    rw [this, parseValue_bracket, ho, if_neg (by simp), parseArray_acc_iff]
    exact ih p
  | @obj0 g hg =>
    intro p _
    have : c%'{' :: g ++ b!"}" ++ p = c%'{' :: (g ++ c%'}' :: p) := by simp
    rw [this, parseValue_brace, parseObject_acc_iff (isObject_brace _)]
    refine .inr ⟨g, c%'}' :: p, hg, rfl, by simp, .cons (by decide), fun _ => by simp, ?_⟩
    exact (loop_acc_iff objectLoop_isLoop).mpr (.inl ⟨[], .nil, rfl⟩)
  | @objBracket g hg =>
    intro p _
    have : c%'{' :: g ++ b!"]" ++ p = c%'{' :: (g ++ c%']' :: p) := by simp
    rw [this, parseValue_brace, parseObject_acc_iff (isObject_brace _)]
    exact .inl ⟨g, hg, rfl⟩
  | @obj t ht ih =>
    intro p _
    have : c%'{' :: t ++ b!"}" ++ p = c%'{' :: (t ++ c%'}' :: p) := by simp
    rw [this, parseValue_brace, parseObject_acc_iff (isObject_brace _)]
    have h := ih p
    obtain ⟨g, u, rfl, hg⟩ := members_head ht
    right
    refine ⟨g, c%'"' :: (u ++ c%'}' :: p), hg, by simp, by simp, .cons (by decide), fun _ => by simp, ?_⟩
    -- the loop skips the leading gap itself, so acceptance of the whole is acceptance after the gap
    rcases (loop_acc_iff objectLoop_isLoop).mp h with ⟨g', hg', he⟩ | ⟨g0, b, t', g3, m, hg0, he, hst, hb, hstar, hi, hg3, hm⟩
    · exfalso
      have h1 : Acc (parseSpace (g' ++ c%'}' :: p)) (c%'}' :: p) := parseSpace_of_gap hg' (by decide) (by decide)
      have h2 : Acc (parseSpace (g ++ c%'"' :: (u ++ c%'}' :: p))) (c%'"' :: (u ++ c%'}' :: p)) :=
        parseSpace_of_gap hg (by decide) (by decide)
      rw [← he] at h1
      simp only [List.append_assoc, List.cons_append] at h1
      have := h1.unique h2
      simp at this
    · have h1 : Acc (parseSpace (g0 ++ b :: t')) (b :: t') :=
        parseSpace_acc_iff.mpr ⟨g0, rfl, hg0, .cons hst, fun hl => by simpa using hstar hl⟩
      have h2 : Acc (parseSpace (g ++ c%'"' :: (u ++ c%'}' :: p))) (c%'"' :: (u ++ c%'}' :: p)) :=
        parseSpace_of_gap hg (by decide) (by decide)
      rw [← he] at h1
      simp only [List.append_assoc, List.cons_append] at h1
      have := h1.unique h2
      rw [← this]
      exact (loop_acc_iff objectLoop_isLoop).mpr (.inr ⟨[], b, t', g3, m, .nil, rfl, hst, hb, by simp, hi, hg3, hm⟩)
  | elem h1 hx h2 ih =>
    intro p
    exact elem_case h1 hx ih h2 (.inl rfl)
  | elemTrail h1 hx h2 h3 ih =>
    intro p
    have := elem_case (m := c%',' :: (_ ++ c%']' :: p)) h1 hx ih h2
      (.inr ⟨_, rfl, (loop_acc_iff (c := c) arrayLoop_isLoop).mpr (.inl ⟨_, h3, rfl⟩)⟩)
    simpa using this
  | elemMore h1 hx h2 hr ih ihr =>
    intro p
    have := elem_case (m := c%',' :: (_ ++ c%']' :: p)) h1 hx ih h2 (.inr ⟨_, rfl, ihr p⟩)
    simpa using this
  | memb h0 hk h1 h2 hx h3 ih =>
    intro p
    have := memb_case (m := c%'}' :: p) h0 hk h1 h2 hx ih h3 (.inl rfl)
    simpa using this
  | membTrail h0 hk h1 h2 hx h3 h4 ih =>
    intro p
    have := memb_case (m := c%',' :: (_ ++ c%'}' :: p)) h0 hk h1 h2 hx ih h3
      (.inr ⟨_, rfl, (loop_acc_iff (c := c) objectLoop_isLoop).mpr (.inl ⟨_, h4, rfl⟩)⟩)
    simpa using this
  | membMore h0 hk h1 h2 hx h3 hr ih ihr =>
    intro p
    have := memb_case (m := c%',' :: (_ ++ c%'}' :: p)) h0 hk h1 h2 hx ih h3 (.inr ⟨_, rfl, ihr p⟩)
    simpa using this

/-- `parse_value` succeeds exactly on the texts of the dialect. -/
theorem parseValue_acc_iff {s p : Bytes} :
    AccO (parseValue c s) p ↔ ∃ t, s = t ++ p ∧ XValue t ∧ (RNumber t → NumFollow t p) := by
  constructor
  · exact (value_sound c s.length).1 s p (Nat.le_refl _)
  · rintro ⟨t, rfl, hx, hf⟩
    exact value_complete c hx p hf

/-! ### RFC values are dialect values -/

theorem RG.x {k : Kind} {t : Bytes} (h : RG k t) : XG k t := by
  induction h with
  | null => exact .null
  | true => exact .true
  | false => exact .false
  | num h => exact .num h
  | str h => exact .str (RString.x h)
  | arr0 h => exact .arr0 (Ws.gap h)
  | arr _ ih => exact .arr ih
  | obj0 h => exact .obj0 (Ws.gap h)
  | obj _ ih => exact .obj ih
  | elem h1 _ h2 ih => exact .elem (Ws.gap h1) ih (Ws.gap h2)
  | elemMore h1 _ h2 _ ih ih2 => exact .elemMore (Ws.gap h1) ih (Ws.gap h2) ih2
  | memb h0 hk h1 h2 _ h3 ih => exact .memb (Ws.gap h0) (RString.x hk) (Ws.gap h1) (Ws.gap h2) ih (Ws.gap h3)
  | membMore h0 hk h1 h2 _ h3 _ ih ih2 =>
    exact .membMore (Ws.gap h0) (RString.x hk) (Ws.gap h1) (Ws.gap h2) ih (Ws.gap h3) ih2

end Wjson
