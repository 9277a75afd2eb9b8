import Verif.Proofs.Fuel
import Verif.Spec.Grammar
/-
Acceptance without mention of the error argument, and exact characterisation of
the scanners (white space, literals, numbers, strings) by the grammar.
-/
namespace Wjson
open Spec

/-- The scan `g` succeeds and stops at `p`. -/
def Acc (g : EPtr → Bytes × EPtr) (p : Bytes) : Prop := ∀ e, g e = (p, e)

/-- The scan `g` fails. -/
def Rej (g : EPtr → Bytes × EPtr) : Prop :=
  ∃ x : JError, x.code ≠ .ValidJSON ∧ ∀ e, g e = ([], applyErr e (some x))

/-- An error pointer that would record an error. -/
def EPtr.Clean (e : EPtr) : Prop := ∃ x, e = .obj x ∧ x.status = false

theorem EPtr.fresh_clean : EPtr.fresh.Clean := ⟨_, rfl, rfl⟩

theorem EPtr.Clean.not_failed {e : EPtr} (h : e.Clean) : e.failed = false := by
  obtain ⟨x, rfl, hx⟩ := h; exact hx

theorem EPtr.Clean.applyErr_failed {e : EPtr} (h : e.Clean) {x : JError} (hx : x.code ≠ .ValidJSON) :
    (applyErr e (some x)).failed = true := by
  obtain ⟨y, rfl, hy⟩ := h
  have : createError x.code (.obj y) x.expectedOf x.tailOf = .obj ⟨x.code, x.expectedOf, x.tailOf⟩ := by
    simp [createError, hy]
  simp [applyErr, this, EPtr.failed, JError.status, hx]

theorem applyErr_ne {e : EPtr} (h : e.Clean) {x : JError} (hx : x.code ≠ .ValidJSON) :
    applyErr e (some x) ≠ e := by
  intro h'
  have h1 := h.applyErr_failed hx
  rw [h', h.not_failed] at h1
  cases h1

theorem ScanAt.cases {s : Bytes} {g : EPtr → Bytes × EPtr} (h : ScanAt s g) :
    (∃ p, Acc g p ∧ p <:+ s) ∨ Rej g := by
  obtain ⟨p, ev, h1, h2⟩ := h
  cases ev with
  | none => exact .inl ⟨p, h1, h2.suffix⟩
  | some x =>
    have := h2.err x rfl
    refine .inr ⟨x, this.1, fun e => ?_⟩
    rw [h1, this.2.1]

theorem Acc.unique {g : EPtr → Bytes × EPtr} {p q : Bytes} (h : Acc g p) (h' : Acc g q) : p = q := by
  have := (h .null).symm.trans (h' .null)
  simpa using this

theorem Rej.not_acc {g : EPtr → Bytes × EPtr} {p : Bytes} (h : Rej g) : ¬ Acc g p := by
  intro ha
  obtain ⟨x, hx, h⟩ := h
  have := (ha .fresh).symm.trans (h .fresh)
  simp only [Prod.mk.injEq] at this
  exact applyErr_ne EPtr.fresh_clean hx this.2.symm

theorem Acc.of_clean {s : Bytes} {g : EPtr → Bytes × EPtr} (hs : ScanAt s g) {e e' : EPtr} (he : e.Clean)
    {p : Bytes} (h : g e = (p, e')) (he' : e'.failed = false) : Acc g p := by
  rcases hs.cases with ⟨q, hq, _⟩ | ⟨x, hx, hr⟩
  · have := (hq e).symm.trans h
    simp only [Prod.mk.injEq] at this
    rw [← this.1]; exact hq
  · have := (hr e).symm.trans h
    simp only [Prod.mk.injEq] at this
    have h1 := he.applyErr_failed hx
    rw [this.2, he'] at h1
    cases h1

theorem ScanAt.acc_suffix {s : Bytes} {g : EPtr → Bytes × EPtr} (h : ScanAt s g) {p : Bytes} (hp : Acc g p) :
    p <:+ s := by
  have := h.suffix .null
  rwa [hp] at this

theorem Acc.bind {g : EPtr → Bytes × EPtr} {k : Bytes → EPtr → Bytes × EPtr} {q p : Bytes}
    (h1 : Acc g q) (h2 : Acc (k q) p) : Acc (fun e => k (g e).1 (g e).2) p := by
  intro e
  simp only [h1 e]
  exact h2 e

theorem Acc.bind_inv {s : Bytes} {g : EPtr → Bytes × EPtr} {k : Bytes → EPtr → Bytes × EPtr} {p : Bytes}
    (hg : ScanAt s g) (hk : ScanAt [] (k [])) (h : Acc (fun e => k (g e).1 (g e).2) p) :
    ∃ q, Acc g q ∧ Acc (k q) p := by
  rcases hg.cases with ⟨q, hq, _⟩ | ⟨x, hx, hr⟩
  · refine ⟨q, hq, fun e => ?_⟩
    have := h e
    simpa only [hq e] using this
  · exfalso
    have h1 := h .fresh
    simp only [hr .fresh] at h1
    obtain ⟨q, ev, h3, h4⟩ := hk
    rw [h3, applyErr_applyErr _ _ hx] at h1
    simp only [Prod.mk.injEq] at h1
    exact applyErr_ne EPtr.fresh_clean hx h1.2

/-! ### Outcomes -/

def AccO (g : EPtr → Out (Bytes × EPtr)) (p : Bytes) : Prop := ∀ e, g e = .ok (p, e)

theorem AccO.unique {g : EPtr → Out (Bytes × EPtr)} {p q : Bytes} (h : AccO g p) (h' : AccO g q) : p = q := by
  have := (h .null).symm.trans (h' .null)
  simpa using this

theorem AccO.of_clean {c : Cfg} {s : Bytes} {g : EPtr → Out (Bytes × EPtr)} (hs : ScanO c s g) {e e' : EPtr}
    (he : e.Clean) {p : Bytes} (h : g e = .ok (p, e')) (he' : e'.failed = false) : AccO g p := by
  rcases hs with ⟨q, ev, h1, h2⟩ | ⟨h1, _⟩
  · have hq : q = p := by
      rw [h1] at h; cases h; rfl
    subst hq
    cases ev with
    | none => exact h1
    | some x =>
      exfalso
      have hx := (h2.err x rfl).1
      rw [h1] at h
      cases h
      rw [he.applyErr_failed hx] at he'
      cases he'
  · rw [h1] at h; cases h

theorem AccO.bindAt_inv {c : Cfg} {s : Bytes} {g : EPtr → Bytes × EPtr} {k : Bytes → EPtr → Out (Bytes × EPtr)}
    {p : Bytes} (hg : ScanAt s g) (hk : ScanO c [] (k [])) (h : AccO (fun e => k (g e).1 (g e).2) p) :
    ∃ q, Acc g q ∧ AccO (k q) p := by
  rcases hg.cases with ⟨q, hq, _⟩ | ⟨x, hx, hr⟩
  · refine ⟨q, hq, fun e => ?_⟩
    have := h e
    simpa only [hq e] using this
  · exfalso
    have h1 := h .fresh
    simp only [hr .fresh] at h1
    rcases hk with ⟨q, ev, h3, h4⟩ | ⟨h3, _⟩
    · rw [h3, applyErr_applyErr _ _ hx] at h1
      simp only [Out.ok.injEq, Prod.mk.injEq] at h1
      exact applyErr_ne EPtr.fresh_clean hx h1.2
    · rw [h3] at h1; cases h1

theorem AccO.bind_inv {c : Cfg} {s : Bytes} {g : EPtr → Out (Bytes × EPtr)} {k : Bytes → EPtr → Out (Bytes × EPtr)}
    {p : Bytes} (hg : ScanO c s g) (hk : ScanO c [] (k [])) (h : AccO (fun e => g e >>= fun r => k r.1 r.2) p) :
    ∃ q, AccO g q ∧ AccO (k q) p := by
  rcases hg with ⟨q, ev, h1, h2⟩ | ⟨h1, _⟩
  · have := AccO.bindAt_inv (c := c) (g := fun e => (q, applyErr e ev)) (k := k) ⟨q, ev, fun _ => rfl, h2⟩ hk
      (p := p) (fun e => by have := h e; simpa [h1] using this)
    obtain ⟨q', h3, h4⟩ := this
    refine ⟨q', fun e => ?_, h4⟩
    have := h3 e
    rw [h1, ← this]
  · have := h .null
    simp [h1] at this

theorem Acc.bindO {g : EPtr → Bytes × EPtr} {k : Bytes → EPtr → Out (Bytes × EPtr)} {q p : Bytes}
    (h1 : Acc g q) (h2 : AccO (k q) p) : AccO (fun e => k (g e).1 (g e).2) p := by
  intro e
  simp only [h1 e]
  exact h2 e

/-! ### White space -/

theorem isWs_iff {b : Byte} : isWs b = true ↔ WsByte b := by
  revert b; apply forall_byte; unfold WsByte; decide +kernel

theorem spaceLoop_true_append (body t : Bytes) (e : EPtr) (h1 : body.getLast? = some c%'*')
    (h2 : ¬ b!"*/" <:+: body) :
    spaceLoop true (body ++ c%'/' :: t) e = spaceLoop false (c%'/' :: t) e := by
  induction body with
  | nil => simp at h1
  | cons b u ih =>
    cases u with
    | nil =>
      simp at h1; subst h1
      simp [spaceLoop]
    | cons b' u =>
      have hu : ¬ b!"*/" <:+: (b' :: u) := fun h => h2 (h.trans (List.suffix_cons _ _).isInfix)
      have hl : (b' :: u).getLast? = some c%'*' := by simpa [List.getLast?_cons_cons] using h1
      have := ih hl hu
      by_cases hb : b = c%'*'
      · have hb' : b' ≠ c%'/' := by
          intro h; subst h hb
          exact h2 ⟨[], u, by simp⟩
        simp only [List.cons_append] at *
        rw [spaceLoop]
        simp only [hb, if_true, List.head?_cons, Option.some.injEq, hb', if_false]
        exact this
      · simp only [List.cons_append] at *
        rw [spaceLoop]
        simp only [hb, if_false]
        exact this

theorem not_acc_err {c : Code} {m : Option Bytes} {t : Int} {p q : Bytes} (hc : c ≠ .ValidJSON) :
    ¬ Acc (fun e => (q, createError c e m t)) p := by
  intro h
  have := h .fresh
  simp only [Prod.mk.injEq] at this
  exact applyErr_ne (x := ⟨c, m, t⟩) EPtr.fresh_clean hc this.2

theorem spaceLoop_true_acc {s p : Bytes} (h : Acc (spaceLoop true s) p) :
    ∃ body t, s = body ++ c%'/' :: t ∧ body.getLast? = some c%'*' ∧ ¬ b!"*/" <:+: body ∧
      Acc (spaceLoop false (c%'/' :: t)) p := by
  induction s with
  | nil =>
    exfalso
    exact not_acc_err (c := .UnexpectedEndFragment) (m := some b!"Unterminated comment") (t := 0) (q := [])
      (by decide) h
  | cons b u ih =>
    by_cases hc : b = c%'*' ∧ u.head? = some c%'/'
    · obtain ⟨rfl, hu⟩ := hc
      cases u with
      | nil => simp at hu
      | cons x t =>
        simp only [List.head?_cons, Option.some.injEq] at hu
        subst hu
        refine ⟨b!"*", t, rfl, rfl, by decide, fun e => ?_⟩
        have := h e
        rw [spaceLoop] at this
        simpa using this
    · have h' : Acc (spaceLoop true u) p := by
        intro e
        have := h e
        rw [spaceLoop] at this
        by_cases hb : b = c%'*'
        · have hu : u.head? ≠ some c%'/' := fun h => hc ⟨hb, h⟩
          simpa [hb, hu] using this
        · simpa [hb] using this
      obtain ⟨body, t, h1, h2, h3, h4⟩ := ih h'
      refine ⟨b :: body, t, by simp [h1], ?_, ?_, h4⟩
      · cases body with
        | nil => simp at h2
        | cons x y => simpa [List.getLast?_cons_cons] using h2
      · intro hi
        rcases List.infix_cons_iff.mp hi with hpre | hinf
        · cases body with
          | nil => simp at h2
          | cons x y =>
            simp only [List.cons_prefix_cons] at hpre
            exact hc ⟨hpre.1.symm, by simp [h1, hpre.2.1]⟩
        · exact h3 hinf

/-- `p` is where white space stops: at the end or at a byte that is neither
white space nor a slash. -/
def SpaceStop (p : Bytes) : Prop := ∀ b, p.head? = some b → ¬ WsByte b ∧ b ≠ c%'/'

theorem spaceLoop_false_stop {p : Bytes} (h : SpaceStop p) (e : EPtr) : spaceLoop false p e = (p, e) := by
  cases p with
  | nil => rfl
  | cons b t =>
    obtain ⟨h1, h2⟩ := h b rfl
    rw [← isWs_iff] at h1
    simp [spaceLoop, h1, h2]

theorem gap_acc {g p : Bytes} (hg : Gap g) (hp : SpaceStop p)
    (hs : g.getLast? = some c%'/' → p.head? ≠ some c%'*') : Acc (spaceLoop false (g ++ p)) p := by
  induction hg with
  | nil => intro e; exact spaceLoop_false_stop hp e
  | @ws b t hb ht ih =>
    intro e
    have : isWs b = true := isWs_iff.mpr hb
    rw [List.cons_append, spaceLoop, if_pos this]
    refine ih ?_ e
    intro hl
    refine hs ?_
    cases t with
    | nil => simp at hl
    | cons x y => simpa [List.getLast?_cons_cons] using hl
  | @slash t hst ht ih =>
    intro e
    have hnw : isWs c%'/' = false := rfl
    have hh : (t ++ p).head? ≠ some c%'*' := by
      cases t with
      | nil => simpa using hs (by simp)
      | cons x y => simpa using hst
    rw [List.cons_append, spaceLoop]
    simp only [hnw, if_true, hh, if_false, Bool.false_eq_true]
    refine ih ?_ e
    intro hl
    refine hs ?_
    cases t with
    | nil => simp at hl
    | cons x y => simpa [List.getLast?_cons_cons] using hl
  | @comment body t h1 h2 h3 ht ih =>
    intro e
    have hnw : isWs c%'/' = false := rfl
    have hh : (body ++ (c%'/' :: t ++ p)).head? = some c%'*' := by
      cases body with
      | nil => simp at h1
      | cons x y => simpa using h1
    rw [List.cons_append, List.append_assoc, spaceLoop]
    simp only [hnw, if_true, Bool.false_eq_true, if_false]
    rw [if_pos hh, List.cons_append, spaceLoop_true_append _ _ _ h2 h3]
    refine ih ?_ e
    intro hl
    refine hs ?_
    rw [List.getLast?_cons, List.getLast?_append]
    rw [hl]; rfl

theorem acc_gap {s p : Bytes} (h : Acc (spaceLoop false s) p) :
    ∃ g, s = g ++ p ∧ Gap g ∧ SpaceStop p ∧ (g.getLast? = some c%'/' → p.head? ≠ some c%'*') := by
  induction hn : s.length using Nat.strongRecOn generalizing s with
  | ind n ih =>
    subst hn
    cases s with
    | nil =>
      have := h .null
      simp [spaceLoop] at this
      subst this
      exact ⟨[], rfl, .nil, by simp [SpaceStop], by simp⟩
    | cons b t =>
      by_cases hw : isWs b = true
      · have h' : Acc (spaceLoop false t) p := fun e => by
          have := h e
          rwa [spaceLoop, if_pos hw] at this
        obtain ⟨g, h1, h2, h3, h4⟩ := ih t.length (by simp) h' rfl
        refine ⟨b :: g, by simp [h1], .ws (isWs_iff.mp hw) h2, h3, ?_⟩
        intro hl
        cases g with
        | nil =>
          simp at hl; subst hl; exact absurd hw (by decide)
        | cons x y => exact h4 (by simpa [List.getLast?_cons_cons] using hl)
      · by_cases hb : b = c%'/'
        · subst hb
          by_cases hh : t.head? = some c%'*'
          · have h' : Acc (spaceLoop true t) p := fun e => by
              have := h e
              rw [spaceLoop] at this
              simpa [hw, hh] using this
            obtain ⟨body, u, h1, h2, h3, h4⟩ := spaceLoop_true_acc h'
            have hbody : body ≠ [] := by intro hb; simp [hb] at h2
            have hlen : (c%'/' :: u).length < (c%'/' :: t).length := by
              have : 0 < body.length := List.length_pos_iff.mpr hbody
              simp [h1]; omega
            obtain ⟨g, h5, h6, h7, h8⟩ := ih _ hlen h4 rfl
            cases g with
            | nil =>
              exfalso
              simp only [List.nil_append] at h5
              exact (h7 c%'/' (by rw [← h5]; rfl)).2 rfl
            | cons x g =>
              simp only [List.cons_append, List.cons.injEq] at h5
              obtain ⟨rfl, rfl⟩ := h5
              refine ⟨c%'/' :: (body ++ c%'/' :: g), ?_, .comment ?_ h2 h3 h6, h7, ?_⟩
              · simp [h1]
              · cases body with
                | nil => exact absurd rfl hbody
                | cons x y => simpa [h1] using hh
              · intro hl
                apply h8
                rw [List.getLast?_cons, List.getLast?_append] at hl
                cases hg : (c%'/' :: g).getLast? with
                | none => simp [List.getLast?_eq_none_iff] at hg
                | some z => rw [hg] at hl; simpa using hl
          · have h' : Acc (spaceLoop false t) p := fun e => by
              have := h e
              rw [spaceLoop] at this
              simpa [hw, hh] using this
            obtain ⟨g, h1, h2, h3, h4⟩ := ih t.length (by simp) h' rfl
            refine ⟨c%'/' :: g, by simp [h1], .slash ?_ h2, h3, ?_⟩
            · cases g with
              | nil => simp
              | cons x y => simpa [h1] using hh
            · intro hl
              cases g with
              | nil => simpa [h1] using hh
              | cons x y => exact h4 (by simpa [List.getLast?_cons_cons] using hl)
        · have : p = b :: t := by
            have := h .null
            rw [spaceLoop, if_neg hw, if_neg hb] at this
            simpa using this.symm
          subst this
          refine ⟨[], rfl, .nil, ?_, by simp⟩
          intro b' hb'
          simp at hb'; subst hb'
          exact ⟨fun h => hw (isWs_iff.mpr h), hb⟩

theorem parseSpace_acc_iff {s p : Bytes} :
    Acc (parseSpace s) p ↔
      ∃ g, s = g ++ p ∧ Gap g ∧ SpaceStop p ∧ (g.getLast? = some c%'/' → p.head? ≠ some c%'*') := by
  constructor
  · exact acc_gap
  · rintro ⟨g, rfl, h1, h2, h3⟩
    exact gap_acc h1 h2 h3

/-! ### Literals -/

theorem litRest_acc_iff {lit xs : Bytes} {k : Nat} {s p : Bytes} :
    Acc (litRest lit xs k s) p ↔ s = xs ++ p := by
  induction xs generalizing k s with
  | nil =>
    constructor
    · intro h; have := h .null; simpa [litRest] using this
    · rintro rfl; intro e; rfl
  | cons x xs ih =>
    cases s with
    | nil =>
      constructor
      · intro h
        exact absurd h (not_acc_err (c := .UnexpectedEndFragment) (by decide))
      · intro h; simp at h
    | cons b t =>
      by_cases hb : b = x
      · subst hb
        have : litRest lit (b :: xs) k (b :: t) = litRest lit xs (k+1) t := by
          funext e; rw [litRest, if_pos rfl]
        rw [this, ih]
        simp
      · have : litRest lit (x :: xs) k (b :: t) = fun e => ([], createError .ExpectedOf e (some lit) k) := by
          funext e; rw [litRest, if_neg hb]
        rw [this]
        constructor
        · intro h; exact absurd h (not_acc_err (by decide))
        · intro h; simp at h; exact absurd h.1 hb

theorem parseNull_acc_iff {s p : Bytes} : Acc (parseNull s) p ↔ s = b!"null" ++ p := by
  cases s with
  | nil =>
    constructor
    · intro h; exact absurd h (not_acc_err (c := .UnexpectedEndFragment) (by decide))
    · intro h; simp at h
  | cons b t =>
    by_cases hb : b = c%'n'
    · subst hb
      have : parseNull (c%'n' :: t) = litRest b!"null" b!"ull" 1 t := by
        funext e; simp [parseNull]
      rw [this, litRest_acc_iff]; simp
    · have : parseNull (b :: t) = fun e => ([], createError .InvalidNull e none 0) := by
        funext e; rw [parseNull, if_neg hb]
      rw [this]
      constructor
      · intro h; exact absurd h (not_acc_err (by decide))
      · intro h; simp at h; exact absurd h.1 hb

theorem parseBool_acc_iff {s p : Bytes} :
    Acc (parseBool s) p ↔ s = b!"true" ++ p ∨ s = b!"false" ++ p := by
  cases s with
  | nil =>
    constructor
    · intro h; exact absurd h (not_acc_err (c := .UnexpectedEndFragment) (by decide))
    · intro h; simp at h
  | cons b t =>
    by_cases hb : b = c%'t'
    · subst hb
      have : parseBool (c%'t' :: t) = litRest b!"true" b!"rue" 1 t := by
        funext e; simp [parseBool]
      rw [this, litRest_acc_iff]; simp
    · by_cases hb2 : b = c%'f'
      · subst hb2
        have : parseBool (c%'f' :: t) = litRest b!"false" b!"alse" 1 t := by
          funext e; simp [parseBool]
        rw [this, litRest_acc_iff]; simp
      · have : parseBool (b :: t) = fun e => ([], createError .InvalidBool e none 0) := by
          funext e; rw [parseBool, if_neg hb, if_neg hb2]
        rw [this]
        constructor
        · intro h; exact absurd h (not_acc_err (by decide))
        · intro h; simp at h
          rcases h with h | h
          · exact absurd h.1 hb
          · exact absurd h.1 hb2

end Wjson
