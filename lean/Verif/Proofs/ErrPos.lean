import Verif.Proofs.Value
import Verif.Spec.Diagnosis
/-
Positions of the errors of the validating parser: the scanners.
-/
namespace Wjson
open Spec

/-! ### Failing scans -/

/-- The scan `g` fails with the error `x`. -/
def Err (g : EPtr → Bytes × EPtr) (x : JError) : Prop :=
  x.code ≠ .ValidJSON ∧ ∀ e, g e = ([], applyErr e (some x))

def ErrO (g : EPtr → Out (Bytes × EPtr)) (x : JError) : Prop :=
  x.code ≠ .ValidJSON ∧ ∀ e, g e = .ok ([], applyErr e (some x))

theorem errO_ok {g : EPtr → Bytes × EPtr} {x : JError} : ErrO (fun e => .ok (g e)) x ↔ Err g x := by
  unfold Err ErrO; simp

theorem applyErr_fresh {x : JError} : applyErr .fresh (some x) = .obj x := by
  cases x; rfl

theorem Err.unique {g : EPtr → Bytes × EPtr} {x y : JError} (h : Err g x) (h' : Err g y) : x = y := by
  have := (h.2 .fresh).symm.trans (h'.2 .fresh)
  simpa [applyErr_fresh] using this

theorem ErrO.unique {g : EPtr → Out (Bytes × EPtr)} {x y : JError} (h : ErrO g x) (h' : ErrO g y) : x = y := by
  have := (h.2 .fresh).symm.trans (h'.2 .fresh)
  simpa [applyErr_fresh] using this

theorem Err.not_acc {g : EPtr → Bytes × EPtr} {x : JError} (h : Err g x) {p : Bytes} : ¬ Acc g p :=
  Rej.not_acc ⟨x, h⟩

theorem ErrO.not_acc {g : EPtr → Out (Bytes × EPtr)} {x : JError} (h : ErrO g x) {p : Bytes} : ¬ AccO g p := by
  intro ha
  have := (ha .fresh).symm.trans (h.2 .fresh)
  simp only [Out.ok.injEq, Prod.mk.injEq] at this
  exact applyErr_ne EPtr.fresh_clean h.1 this.2.symm

theorem Err.mk' {code : Code} {m : Option Bytes} {t : Int} (hc : code ≠ .ValidJSON) :
    Err (fun e => ([], createError code e m t)) ⟨code, m, t⟩ := ⟨hc, fun _ => rfl⟩

theorem ErrO.mk' {code : Code} {m : Option Bytes} {t : Int} (hc : code ≠ .ValidJSON) :
    ErrO (fun e => .ok ([], createError code e m t)) ⟨code, m, t⟩ := ⟨hc, fun _ => rfl⟩

theorem Err.bind_inv {s : Bytes} {g : EPtr → Bytes × EPtr} {k : Bytes → EPtr → Bytes × EPtr} {x : JError}
    (hg : ScanAt s g) (hk : ScanAt [] (k [])) (h : Err (fun e => k (g e).1 (g e).2) x) :
    Err g x ∨ ∃ q, Acc g q ∧ Err (k q) x := by
  rcases hg.cases with ⟨q, hq, _⟩ | ⟨y, hy⟩
  · refine .inr ⟨q, hq, h.1, fun e => ?_⟩
    have := h.2 e
    simpa only [hq e] using this
  · left
    obtain ⟨q, ev, h3, h4⟩ := hk
    have hq : q = [] := by simpa using h4.suffix
    have : Err (fun e => k (g e).1 (g e).2) y := by
      refine ⟨hy.1, fun e => ?_⟩
      simp only [hy.2 e, h3, hq, applyErr_applyErr _ _ hy.1]
    rw [h.unique this]; exact hy

theorem ErrO.bindAt_inv {c : Cfg} {s : Bytes} {g : EPtr → Bytes × EPtr} {k : Bytes → EPtr → Out (Bytes × EPtr)}
    {x : JError} (hg : ScanAt s g) (hk : ScanO c [] (k [])) (h : ErrO (fun e => k (g e).1 (g e).2) x) :
    Err g x ∨ ∃ q, Acc g q ∧ ErrO (k q) x := by
  rcases hg.cases with ⟨q, hq, _⟩ | ⟨y, hy⟩
  · refine .inr ⟨q, hq, h.1, fun e => ?_⟩
    have := h.2 e
    simpa only [hq e] using this
  · left
    rcases hk with ⟨q, ev, h3, h4⟩ | ⟨h3, _⟩
    · have hq : q = [] := by simpa using h4.suffix
      have : ErrO (fun e => k (g e).1 (g e).2) y := by
        refine ⟨hy.1, fun e => ?_⟩
        simp only [hy.2 e, h3, hq, applyErr_applyErr _ _ hy.1]
      rw [h.unique this]; exact hy
    · have := h.2 .fresh
      simp [hy.2, h3] at this

theorem ErrO.bind_inv {c : Cfg} {s : Bytes} {g : EPtr → Out (Bytes × EPtr)} {k : Bytes → EPtr → Out (Bytes × EPtr)}
    {x : JError} (hg : ScanO c s g) (hk : ScanO c [] (k [])) (h : ErrO (fun e => g e >>= fun r => k r.1 r.2) x) :
    ErrO g x ∨ ∃ q, AccO g q ∧ ErrO (k q) x := by
  rcases hg with ⟨q, ev, h1, h2⟩ | ⟨h1, _⟩
  · have := ErrO.bindAt_inv (c := c) (g := fun e => (q, applyErr e ev)) (k := k) ⟨q, ev, fun _ => rfl, h2⟩ hk
      (x := x) ⟨h.1, fun e => by have := h.2 e; simpa [h1] using this⟩
    rcases this with h3 | ⟨q', h3, h4⟩
    · refine .inl ⟨h3.1, fun e => ?_⟩
      rw [h1, ← h3.2 e]
    · refine .inr ⟨q', fun e => ?_, h4⟩
      rw [h1, ← h3 e]
  · have := h.2 .null
    simp [h1] at this

/-! ### Blame -/

/-- How the recorded position is related to the longest prefix `u` that can be
continued and to the rest `r` of the text behind it. -/
def Reported (x : JError) (u r : Bytes) : Prop :=
  (x.code = .InvalidNumber ∧ x.expectedOf = none ∧ x.tailOf = 0 ∧ r ≠ []) ∨
  (x.code = .ExpectedOf ∧ (x.expectedOf = some b!"null" ∨ x.expectedOf = some b!"true" ∨
    x.expectedOf = some b!"false") ∧ r ≠ [] ∧ ∃ lit k, x.expectedOf = some lit ∧ x.tailOf = (k : Nat) ∧ 1 ≤ k ∧
    k < lit.length ∧ lit.take k <:+ u) ∨
  (x.code = .ExpectedOf ∧ x.expectedOf = some b!":" ∧ r ≠ [] ∧ x.tailOf + 1 = (r.length : Int)) ∨
  (x.code ≠ .InvalidNumber ∧ (∀ m, x.expectedOf = some m → m ∉ [b!"null", b!"true", b!"false", b!":"]) ∧
    x.tailOf = (r.length : Int) ∧ (x.code = .UnexpectedEndFragment → r = []))

theorem Reported.exact {code : Code} {m : Option Bytes} {t : Int} {u r : Bytes} (h1 : code ≠ .InvalidNumber)
    (h2 : m.getD [] ∉ [b!"null", b!"true", b!"false", b!":"]) (h3 : t = (r.length : Int))
    (h4 : code = .UnexpectedEndFragment → r = [] := by first | exact fun _ => rfl | exact fun h => nomatch h) :
    Reported ⟨code, m, t⟩ u r := by
  refine .inr (.inr (.inr ⟨h1, ?_, h3, h4⟩))
  rintro y rfl
  exact h2

theorem Reported.mono {x : JError} {pre u r : Bytes} (h : Reported x u r) : Reported x (pre ++ u) r := by
  rcases h with h | ⟨h1, h2, h3, lit, k, h4, h5, h6, h7, h8⟩ | h
  · exact .inl h
  · exact .inr (.inl ⟨h1, h2, h3, lit, k, h4, h5, h6, h7, h8.trans (List.suffix_append ..)⟩)
  · exact .inr (.inr h)

/-- The scanner `f` fails on `s` with `x`: `u` is the longest prefix of `s` that
can be continued to a text `f` accepts. -/
def BlameA (f : Bytes → EPtr → Bytes × EPtr) (s : Bytes) (x : JError) : Prop :=
  ∃ u r, s = u ++ r ∧ Reported x u r ∧ (∃ w, ∀ y, Delim y → Acc (f (u ++ (w ++ y))) y) ∧
    ∀ b r', r = b :: r' → ∀ v p, ¬ Acc (f (u ++ b :: v)) p

/-- `z` can be continued to a text `f` accepts. -/
def Fits (f : Bytes → EPtr → Out (Bytes × EPtr)) (z : Bytes) : Prop :=
  ∃ w, ∀ y, Delim y → AccO (f (z ++ (w ++ y))) y

/-- What the error says about the longest prefix `u` that can be continued; `V`
are the texts that can be continued. -/
inductive Diag (x : JError) (V : Bytes → Prop) : Bytes → Prop
  | value {u} : x.code = .InvalidJSON → (∀ v, XValue v → V (u ++ v)) → Diag x V u
  | member {u} : x.code = .InvalidMember → (∀ k, XString k → V (u ++ k)) → Diag x V u
  | token {u m} : x.code = .ExpectedOf → x.expectedOf = some m → m = b!":" ∨ m = b!"]" ∨ m = b!"}" → V (u ++ m) → Diag x V u
  | word {a n lit} : x.code = .ExpectedOf → x.expectedOf = some lit → lit = b!"null" ∨ lit = b!"true" ∨ lit = b!"false" →
      InWord lit n → (∀ v, XValue v → V (a ++ v)) → Diag x V (a ++ n)
  | number {a n} : x.code = .InvalidNumber → DigitMissing n → (∀ v, XValue v → V (a ++ v)) → Diag x V (a ++ n)
  | string {a n} : x.code = .InvalidString → InString n → (∀ k, XString k → V (a ++ k)) → Diag x V (a ++ n)
  | fin {u} : x.code = .UnexpectedEndFragment → Diag x V u

theorem Diag.mono {x : JError} {V V' : Bytes → Prop} {pre u : Bytes} (h : Diag x V u)
    (hv : ∀ z, V z → V' (pre ++ z)) : Diag x V' (pre ++ u) := by
  cases h with
  | value h1 h2 => exact .value h1 fun v hx => by rw [List.append_assoc]; exact hv _ (h2 v hx)
  | member h1 h2 => exact .member h1 fun v hx => by rw [List.append_assoc]; exact hv _ (h2 v hx)
  | token h1 h2 h3 h4 => exact .token h1 h2 h3 (by rw [List.append_assoc]; exact hv _ h4)
  | word h1 h2 h3 h4 h5 =>
    rw [← List.append_assoc]
    exact .word h1 h2 h3 h4 fun v hx => by rw [List.append_assoc]; exact hv _ (h5 v hx)
  | number h1 h2 h3 =>
    rw [← List.append_assoc]
    exact .number h1 h2 fun v hx => by rw [List.append_assoc]; exact hv _ (h3 v hx)
  | string h1 h2 h3 =>
    rw [← List.append_assoc]
    exact .string h1 h2 fun v hx => by rw [List.append_assoc]; exact hv _ (h3 v hx)
  | fin h1 => exact .fin h1

/-- Position and meaning of the error. -/
def Told (f : Bytes → EPtr → Out (Bytes × EPtr)) (x : JError) (u r : Bytes) : Prop :=
  Reported x u r ∧ Diag x (Fits f) u

def Blame (f : Bytes → EPtr → Out (Bytes × EPtr)) (s : Bytes) (x : JError) : Prop :=
  ∃ u r, s = u ++ r ∧ Told f x u r ∧ (∃ w, ∀ y, Delim y → AccO (f (u ++ (w ++ y))) y) ∧
    ∀ b r', r = b :: r' → ∀ v p, ¬ AccO (f (u ++ b :: v)) p

theorem BlameA.lift {f f' : Bytes → EPtr → Bytes × EPtr} {pre s : Bytes} {x : JError} (h : BlameA f s x)
    (hv : ∀ u r w, s = u ++ r → (∀ y, Delim y → Acc (f (u ++ (w ++ y))) y) →
      ∃ w', ∀ y, Delim y → Acc (f' (pre ++ (u ++ (w' ++ y)))) y)
    (hn : ∀ u b r' v p, s = u ++ b :: r' → Acc (f' (pre ++ (u ++ b :: v))) p → ∃ p', Acc (f (u ++ b :: v)) p') :
    BlameA f' (pre ++ s) x := by
  obtain ⟨u, r, rfl, h1, ⟨w, h2⟩, h3⟩ := h
  refine ⟨pre ++ u, r, by simp, h1.mono, ?_, ?_⟩
  · obtain ⟨w', h4⟩ := hv u r w rfl h2
    exact ⟨w', fun y hy => by simpa using h4 y hy⟩
  · rintro b r' rfl v p hp
    obtain ⟨p', hp'⟩ := hn u b r' v p rfl (by simpa using hp)
    exact h3 b r' rfl v p' hp'

theorem BlameA.lift_eq {f f' : Bytes → EPtr → Bytes × EPtr} {pre s : Bytes} {x : JError}
    (heq : ∀ y, f' (pre ++ y) = f y) (h : BlameA f s x) : BlameA f' (pre ++ s) x :=
  h.lift (fun u r w _ h => ⟨w, fun y hy => by rw [heq]; exact h y hy⟩)
    (fun u b r' v p _ h => ⟨p, by rwa [heq] at h⟩)

theorem Blame.lift {f f' : Bytes → EPtr → Out (Bytes × EPtr)} {pre s : Bytes} {x : JError} (h : Blame f s x)
    (hv : ∀ u w, (∀ y, Delim y → AccO (f (u ++ (w ++ y))) y) →
      ∃ w', ∀ y, Delim y → AccO (f' (pre ++ (u ++ (w' ++ y)))) y)
    (hn : ∀ u b r' v p, s = u ++ b :: r' → AccO (f' (pre ++ (u ++ b :: v))) p → ∃ p', AccO (f (u ++ b :: v)) p') :
    Blame f' (pre ++ s) x := by
  have hm : ∀ z, Fits f z → Fits f' (pre ++ z) := by
    rintro z ⟨w, hw⟩
    obtain ⟨w', h4⟩ := hv z w hw
    exact ⟨w', fun y hy => by simpa using h4 y hy⟩
  obtain ⟨u, r, rfl, h1, h2, h3⟩ := h
  refine ⟨pre ++ u, r, by simp, ⟨h1.1.mono, h1.2.mono hm⟩, hm u h2, ?_⟩
  rintro b r' rfl v p hp
  obtain ⟨p', hp'⟩ := hn u b r' v p rfl (by simpa using hp)
  exact h3 b r' rfl v p' hp'

theorem Blame.lift_eq {f f' : Bytes → EPtr → Out (Bytes × EPtr)} {pre s : Bytes} {x : JError}
    (heq : ∀ y, f' (pre ++ y) = f y) (h : Blame f s x) : Blame f' (pre ++ s) x :=
  h.lift (fun u w h => ⟨w, fun y hy => by rw [heq]; exact h y hy⟩)
    (fun u b r' v p _ h => ⟨p, by rwa [heq] at h⟩)

/-- Failure at the end of the text. -/
theorem BlameA.of_end {f : Bytes → EPtr → Bytes × EPtr} {s : Bytes} {x : JError} (hx : Reported x s [])
    (w : Bytes) (h : ∀ y, Delim y → Acc (f (s ++ (w ++ y))) y) : BlameA f s x :=
  ⟨s, [], by simp, hx, ⟨w, h⟩, fun b r' hr => by simp at hr⟩

theorem Blame.of_end {f : Bytes → EPtr → Out (Bytes × EPtr)} {s : Bytes} {x : JError} (hx : Told f x s [])
    (w : Bytes) (h : ∀ y, Delim y → AccO (f (s ++ (w ++ y))) y) : Blame f s x :=
  ⟨s, [], by simp, hx, ⟨w, h⟩, fun b r' hr => by simp at hr⟩

theorem reported_ue {u : Bytes} : Reported ⟨.UnexpectedEndFragment, none, 0⟩ u [] := .exact (by decide) (by decide) rfl

theorem told_ue {f : Bytes → EPtr → Out (Bytes × EPtr)} {u : Bytes} : Told f ⟨.UnexpectedEndFragment, none, 0⟩ u [] :=
  ⟨reported_ue, .fin rfl⟩

/-! ### Strings -/

theorem parseHexN_blame {n : Nat} {s : Bytes} {x : JError} (h : Err (parseHexN n s) x) :
    BlameA (parseHexN n) s x := by
  induction n generalizing s with
  | zero => exact absurd (show Acc (parseHexN 0 s) s from fun e => rfl) h.not_acc
  | succ n ih =>
    cases s with
    | nil =>
      rw [h.unique (Err.mk' (code := .UnexpectedEndFragment) (by decide))]
      refine .of_end reported_ue (List.replicate (n + 1) c%'0') fun y _ => ?_
      refine parseHexN_acc_iff.mpr ⟨List.replicate (n + 1) c%'0', by simp, by simp, ?_⟩
      intro b hb
      rw [List.eq_of_mem_replicate hb]; decide
    | cons b t =>
      cases hb : isHex b with
      | true =>
        have heq : ∀ y, parseHexN (n + 1) ([b] ++ y) = parseHexN n y := by
          intro y; funext e; simp [parseHexN, hb]
        have := heq t
        simp only [List.singleton_append] at this
        rw [this] at h
        exact (ih h).lift_eq heq
      | false =>
        have heq : ∀ y, parseHexN (n + 1) (b :: y) =
            fun e => ([], createError .InvalidString e none ((b :: y).length : Nat)) := by
          intro y; funext e; simp [parseHexN, hb]
        rw [heq] at h
        rw [h.unique (Err.mk' (by decide))]
        refine ⟨[], b :: t, rfl, .exact (by decide) (by decide) rfl, ⟨List.replicate (n + 1) c%'0', fun y _ => ?_⟩, ?_⟩
        · refine parseHexN_acc_iff.mpr ⟨List.replicate (n + 1) c%'0', by simp, by simp, ?_⟩
          intro b hb
          rw [List.eq_of_mem_replicate hb]; decide
        · rintro b' r' hr v p hp
          cases hr
          rw [List.nil_append, heq] at hp
          exact not_acc_err (by decide) hp

theorem parseUtf8Part_blame {n : Nat} {s : Bytes} {x : JError} (h : Err (parseUtf8Part n s) x) :
    BlameA (parseUtf8Part n) s x := by
  induction n generalizing s with
  | zero => exact absurd (show Acc (parseUtf8Part 0 s) s from fun e => rfl) h.not_acc
  | succ n ih =>
    have hv : ∀ y : Bytes, Acc (parseUtf8Part (n + 1) (List.replicate (n + 1) 0x80 ++ y)) y := by
      intro y
      refine parseUtf8Part_acc_iff.mpr ⟨List.replicate (n + 1) 0x80, by simp, by simp, ?_⟩
      intro b hb
      rw [List.eq_of_mem_replicate hb]; decide
    cases s with
    | nil =>
      rw [h.unique (Err.mk' (code := .UnexpectedEndFragment) (by decide))]
      exact .of_end reported_ue (List.replicate (n + 1) 0x80) fun y _ => hv y
    | cons b t =>
      by_cases hb : b &&& 192 ≠ 128
      · have heq : ∀ y, parseUtf8Part (n + 1) (b :: y) =
            fun e => ([], createError .InvalidString e none ((b :: y).length : Nat)) := by
          intro y; funext e; rw [parseUtf8Part, if_pos hb]
        rw [heq] at h
        rw [h.unique (Err.mk' (by decide))]
        refine ⟨[], b :: t, rfl, .exact (by decide) (by decide) rfl, ⟨List.replicate (n + 1) 0x80, fun y _ => hv y⟩, ?_⟩
        rintro b' r' hr v p hp
        cases hr
        rw [List.nil_append, heq] at hp
        exact not_acc_err (by decide) hp
      · have heq : ∀ y, parseUtf8Part (n + 1) ([b] ++ y) = parseUtf8Part n y := by
          intro y; funext e; rw [List.singleton_append, parseUtf8Part, if_neg hb]
        have := heq t
        simp only [List.singleton_append] at this
        rw [this] at h
        exact (ih h).lift_eq heq

theorem strLoop_blame {s : Bytes} {x : JError} (h : Err (strLoop s) x) : BlameA strLoop s x := by
  induction hn : s.length using Nat.strongRecOn generalizing s with
  | ind n ih =>
    subst hn
    have hnil : ScanAt [] (strLoop []) := strLoop_scan []
    have hq : ∀ y : Bytes, Acc (strLoop (c%'"' :: y)) y := fun y e => strLoop_quote y e
    cases s with
    | nil =>
      have : strLoop [] = fun e => ([], createError .UnexpectedEndFragment e) := by
        funext e; rw [strLoop_nil]
      rw [this] at h
      rw [h.unique (Err.mk' (by decide))]
      exact .of_end reported_ue b!"\"" fun y _ => hq y
    | cons b t =>
      by_cases hbq : b = c%'"'
      · subst hbq; exact absurd (hq t) h.not_acc
      by_cases hs : b = c%'\\'
      · subst hs
        have hesc : ∀ y : Bytes, Acc (strLoop (c%'\\' :: c%'"' :: c%'"' :: y)) y := fun y e => by
          rw [strLoop_esc (by decide) (by decide)]; exact strLoop_quote y e
        cases t with
        | nil =>
          have : strLoop [c%'\\'] = fun e => ([], createError .UnexpectedEndFragment e) := by
            funext e; rw [strLoop_esc_nil]
          rw [this] at h
          rw [h.unique (Err.mk' (by decide))]
          exact .of_end reported_ue b!"\"\"" fun y _ => hesc y
        | cons z t =>
          cases he : isEsc z with
          | false =>
            have heq : ∀ y, strLoop (c%'\\' :: z :: y) =
                fun e => ([], createError .InvalidString e none ((z :: y).length : Nat)) := by
              intro y; funext e; rw [strLoop_esc_bad he]
            rw [heq] at h
            rw [h.unique (Err.mk' (by decide))]
            refine ⟨b!"\\", z :: t, rfl, .exact (by decide) (by decide) rfl, ⟨b!"\"\"", fun y _ => hesc y⟩, ?_⟩
            rintro b' r' hr v p hp
            cases hr
            have : b!"\\" ++ z :: v = c%'\\' :: z :: v := rfl
            rw [this, heq] at hp
            exact not_acc_err (by decide) hp
          | true =>
            by_cases hu : z = c%'u'
            · subst hu
              have heq : ∀ y, strLoop (c%'\\' :: c%'u' :: y) =
                  fun e => strLoop (parseHex y e).1 (parseHex y e).2 := by
                intro y; funext e; rw [strLoop_esc_u]
              rw [heq] at h
              rcases Err.bind_inv (parseHex_scan t) hnil h with h1 | ⟨q, h1, h2⟩
              · have := parseHexN_blame (n := 4) h1
                refine this.lift (f' := strLoop) (pre := b!"\\u") ?_ ?_
                · intro u r w _ hw
                  refine ⟨w ++ b!"\"", fun y hy => ?_⟩
                  have h3 := hw (c%'"' :: y) (Delim.of_head rfl (by decide))
                  have : b!"\\u" ++ (u ++ (w ++ b!"\"" ++ y)) = c%'\\' :: c%'u' :: (u ++ (w ++ c%'"' :: y)) := by simp
                  rw [this, heq]
                  exact Acc.bind (g := parseHex _) (k := strLoop) h3 (hq y)
                · intro u b r' v p _ hp
                  have : b!"\\u" ++ (u ++ b :: v) = c%'\\' :: c%'u' :: (u ++ b :: v) := rfl
                  rw [this, heq] at hp
                  obtain ⟨q, h3, _⟩ := Acc.bind_inv (parseHex_scan _) hnil hp
                  exact ⟨q, h3⟩
              · obtain ⟨a, b, c, d, rfl, ha, hb, hc, hd⟩ := parseHex_acc_iff.mp h1
                refine (ih q.length (by simp; omega) h2 rfl).lift_eq (pre := [c%'\\', c%'u', a, b, c, d]) ?_
                intro y
                have h3 : Acc (parseHex (a :: b :: c :: d :: y)) y := parseHex_acc_iff.mpr ⟨a, b, c, d, rfl, ha, hb, hc, hd⟩
                funext e
                have : [c%'\\', c%'u', a, b, c, d] ++ y = c%'\\' :: c%'u' :: (a :: b :: c :: d :: y) := rfl
                rw [this, heq]
                simp only [h3 e]
            · have heq : ∀ y, strLoop ([c%'\\', z] ++ y) = strLoop y := by
                intro y; funext e
                have : [c%'\\', z] ++ y = c%'\\' :: z :: y := rfl
                rw [this, strLoop_esc he hu]
              have h0 : strLoop (c%'\\' :: z :: t) = strLoop t := heq t
              rw [h0] at h
              exact (ih t.length (by simp; omega) h rfl).lift_eq heq
      · have heq : ∀ y, strLoop (b :: y) = fun e => strLoop (parseUtf8Ne b y e).1 (parseUtf8Ne b y e).2 := by
          intro y; funext e; rw [strLoop_utf8 hbq hs]
        cases hl : utf8Lead b with
        | none =>
          have hbad : ∀ y, Err (strLoop (b :: y)) ⟨.InvalidString, none, ((b :: y).length : Nat)⟩ := by
            intro y
            rw [heq]
            refine ⟨by simp, fun e => ?_⟩
            simp only [parseUtf8Ne, hl, strLoop_nil]
            exact congrArg (Prod.mk []) (applyErr_applyErr e ⟨.InvalidString, none, _⟩ (by simp) (some ⟨.UnexpectedEndFragment, none, 0⟩))
          rw [h.unique (hbad t)]
          refine ⟨[], b :: t, rfl, .exact (by decide) (by decide) rfl, ⟨b!"\"", fun y _ => hq y⟩, ?_⟩
          rintro b' r' hr v p hp
          cases hr
          exact (hbad v).not_acc hp
        | some n =>
          have hpart : ∀ y, parseUtf8Ne b y = parseUtf8Part n y := by
            intro y; funext e; simp [parseUtf8Ne, hl]
          have hsc : ∀ y, ScanAt y (parseUtf8Part n y) := fun y => parseUtf8Part_scan n y
          simp only [hpart] at heq
          rw [heq] at h
          rcases Err.bind_inv (hsc t) hnil h with h1 | ⟨q, h1, h2⟩
          · refine (parseUtf8Part_blame h1).lift (f' := strLoop) (pre := [b]) ?_ ?_
            · intro u r w _ hw
              refine ⟨w ++ b!"\"", fun y hy => ?_⟩
              have h3 := hw (c%'"' :: y) (Delim.of_head rfl (by decide))
              have : [b] ++ (u ++ (w ++ b!"\"" ++ y)) = b :: (u ++ (w ++ c%'"' :: y)) := by simp
              rw [this, heq]
              exact Acc.bind (g := parseUtf8Part n _) (k := strLoop) h3 (hq y)
            · intro u b' r' v p _ hp
              have : [b] ++ (u ++ b' :: v) = b :: (u ++ b' :: v) := rfl
              rw [this, heq] at hp
              obtain ⟨q, h3, _⟩ := Acc.bind_inv (hsc _) hnil hp
              exact ⟨q, h3⟩
          · obtain ⟨ts, rfl, h3, h4⟩ := parseUtf8Part_acc_iff.mp h1
            have := (ih q.length (by simp; omega) h2 rfl).lift_eq (f' := strLoop) (pre := b :: ts) (by
              intro y
              have h5 : Acc (parseUtf8Part n (ts ++ y)) y := parseUtf8Part_acc_iff.mpr ⟨ts, rfl, h3, h4⟩
              funext e
              rw [List.cons_append, heq]
              simp only [h5 e])
            simpa using this

/-- The codes of the errors a scanner can report. -/
def Codes (S : List Code) (e e' : EPtr) : Prop := e' = e ∨ ∃ x : JError, x.code ∈ S ∧ e' = applyErr e (some x)

theorem Codes.trans {S : List Code} (hS : .ValidJSON ∉ S) {e e' e'' : EPtr} (h : Codes S e e') (h' : Codes S e' e'') :
    Codes S e e'' := by
  rcases h with rfl | ⟨x, hx, rfl⟩
  · exact h'
  · rcases h' with rfl | ⟨y, _, rfl⟩
    · exact .inr ⟨x, hx, rfl⟩
    · exact .inr ⟨x, hx, applyErr_applyErr e x (fun h => hS (h ▸ hx)) (some y)⟩

theorem Codes.err {S : List Code} {g : EPtr → Bytes × EPtr} {x : JError} (h : Err g x) (hc : ∀ e, Codes S e (g e).2) :
    x.code ∈ S := by
  rcases hc .fresh with h1 | ⟨y, h1, h2⟩
  · rw [h.2] at h1
    exact absurd h1 (applyErr_ne EPtr.fresh_clean h.1)
  · rw [h.2, applyErr_fresh, applyErr_fresh] at h2
    cases h2; exact h1

abbrev strCodes : List Code := [.InvalidString, .UnexpectedEndFragment]

theorem parseHexN_codes (n : Nat) (s : Bytes) (e : EPtr) : Codes strCodes e (parseHexN n s e).2 := by
  induction n generalizing s with
  | zero => exact .inl rfl
  | succ n ih =>
    cases s with
    | nil => exact .inr ⟨⟨.UnexpectedEndFragment, none, 0⟩, by simp, rfl⟩
    | cons b t =>
      rw [parseHexN]
      split
      · exact ih t
      · exact .inr ⟨⟨.InvalidString, none, _⟩, by simp, rfl⟩

theorem parseUtf8Part_codes (n : Nat) (s : Bytes) (e : EPtr) : Codes strCodes e (parseUtf8Part n s e).2 := by
  induction n generalizing s with
  | zero => exact .inl rfl
  | succ n ih =>
    cases s with
    | nil => exact .inr ⟨⟨.UnexpectedEndFragment, none, 0⟩, by simp, rfl⟩
    | cons b t =>
      rw [parseUtf8Part]
      split
      · exact .inr ⟨⟨.InvalidString, none, _⟩, by simp, rfl⟩
      · exact ih t

theorem strLoop_codes (s : Bytes) (e : EPtr) : Codes strCodes e (strLoop s e).2 := by
  fun_induction strLoop s e with
  | case1 e => exact .inr ⟨⟨.UnexpectedEndFragment, none, 0⟩, by simp, rfl⟩
  | case2 => exact .inl rfl
  | case3 e => exact .inr ⟨⟨.UnexpectedEndFragment, none, 0⟩, by simp, rfl⟩
  | case4 => exact .inr ⟨⟨.InvalidString, none, _⟩, by simp, rfl⟩
  | case5 => exact (parseHexN_codes 4 _ _).trans (by simp) ‹_›
  | case6 => assumption
  | case7 e b t _ _ ih =>
    refine Codes.trans (by simp) ?_ ih
    unfold parseUtf8Ne
    split
    · exact parseUtf8Part_codes _ _ _
    · exact .inr ⟨⟨.InvalidString, none, _⟩, by simp, rfl⟩

theorem parseString_codes {t : Bytes} {x : JError} (h : Err (parseString (c%'"' :: t)) x) :
    x.code = .InvalidString ∨ x.code = .UnexpectedEndFragment := by
  have := Codes.err h (S := strCodes) fun e => by
    simp only [parseString, ne_eq, not_true, if_false]; exact strLoop_codes t e
  simpa using this

theorem parseString_blame {t : Bytes} {x : JError} (h : Err (parseString (c%'"' :: t)) x) :
    BlameA parseString (c%'"' :: t) x := by
  have heq : ∀ y, parseString ([c%'"'] ++ y) = strLoop y := by
    intro y; funext e; simp [parseString]
  have h0 : parseString (c%'"' :: t) = strLoop t := heq t
  rw [h0] at h
  exact (strLoop_blame h).lift_eq heq

/-- What `parseString_blame` means for the text read so far. -/
theorem inString_of {t u r w : Bytes} {x : JError} (h : Err (parseString (c%'"' :: t)) x) (hu : c%'"' :: t = u ++ r)
    (hw : ∀ y, Delim y → Acc (parseString (u ++ (w ++ y))) y)
    (hn : ∀ b r', r = b :: r' → ∀ v p, ¬ Acc (parseString (u ++ b :: v)) p) : InString u := by
  have h1 := hw [] (by intro b hb; simp at hb)
  obtain ⟨k, h2, hk⟩ := parseString_acc_iff.mp h1
  simp only [List.append_nil] at h2
  subst h2
  refine ⟨?_, w, ?_, hk⟩
  · rintro rfl
    exact hn c%'"' t hu.symm b!"\"" [] (parseString_acc_iff.mpr ⟨b!"\"\"", rfl, [], .nil, rfl⟩)
  · rintro rfl
    rw [hu] at h
    exact h.not_acc (parseString_acc_iff.mpr ⟨u, rfl, by simpa using hk⟩)

/-! ### Literals -/

theorem litRest_blame {lit pre xs : Bytes} {s : Bytes} {x : JError}
    (hlit : lit = b!"null" ∨ lit = b!"true" ∨ lit = b!"false") (hpre : pre ≠ []) (heq : lit = pre ++ xs)
    (h : Err (litRest lit xs pre.length s) x) :
    ∃ u r, s = u ++ r ∧ Reported x (pre ++ u) r ∧ (∃ w, ∀ y, Delim y → Acc (litRest lit xs pre.length (u ++ (w ++ y))) y) ∧
      ∀ b r', r = b :: r' → ∀ v p, ¬ Acc (litRest lit xs pre.length (u ++ b :: v)) p := by
  induction xs generalizing pre s with
  | nil => exact absurd (show Acc (litRest lit [] pre.length s) s from fun e => rfl) h.not_acc
  | cons z xs ih =>
    have hv : ∀ y : Bytes, Acc (litRest lit (z :: xs) pre.length (z :: xs ++ y)) y := fun y => litRest_acc_iff.mpr rfl
    cases s with
    | nil =>
      rw [h.unique (Err.mk' (code := .UnexpectedEndFragment) (by decide))]
      exact ⟨[], [], rfl, reported_ue, ⟨z :: xs, fun y _ => hv y⟩, by simp⟩
    | cons b t =>
      by_cases hb : b = z
      · subst hb
        have hst : ∀ y, litRest lit (b :: xs) pre.length (b :: y) = litRest lit xs (pre ++ [b]).length y := by
          intro y; funext e; simp [litRest]
        rw [hst] at h
        obtain ⟨u, r, rfl, h1, ⟨w, h2⟩, h3⟩ := ih (by simp) (by simpa using heq) h
        refine ⟨b :: u, r, rfl, by simpa using h1, ⟨w, fun y hy => ?_⟩, fun b' r' hr v p hp => h3 b' r' hr v p ?_⟩
        · rw [List.cons_append, hst]; exact h2 y hy
        · rwa [List.cons_append, hst] at hp
      · have hst : ∀ y, litRest lit (z :: xs) pre.length (b :: y) =
            fun e => ([], createError .ExpectedOf e (some lit) pre.length) := by
          intro y; funext e; rw [litRest, if_neg hb]
        rw [hst] at h
        rw [h.unique (Err.mk' (by decide))]
        refine ⟨[], b :: t, rfl, .inr (.inl ⟨rfl, ?_, by simp, lit, pre.length, rfl, rfl, ?_, ?_, ?_⟩), ⟨z :: xs, fun y _ => hv y⟩, ?_⟩
        · rcases hlit with rfl | rfl | rfl <;> simp
        · exact List.length_pos_iff.mpr hpre
        · rw [heq]; simp
        · rw [heq]; simp
        · rintro b' r' hr v p hp
          cases hr
          rw [List.nil_append, hst] at hp
          exact not_acc_err (by decide) hp

theorem lit_blame {f : Bytes → EPtr → Bytes × EPtr} {z : Byte} {lit xs : Bytes} {t : Bytes} {x : JError}
    (hlit : lit = b!"null" ∨ lit = b!"true" ∨ lit = b!"false") (heq : lit = z :: xs)
    (hf : ∀ y, f (z :: y) = litRest lit xs 1 y) (h : Err (f (z :: t)) x) : BlameA f (z :: t) x := by
  rw [hf] at h
  obtain ⟨u, r, rfl, h1, ⟨w, h2⟩, h3⟩ := litRest_blame (pre := [z]) hlit (by simp) heq h
  refine ⟨z :: u, r, rfl, h1, ⟨w, fun y hy => ?_⟩, fun b r' hr v p hp => h3 b r' hr v p ?_⟩
  · rw [List.cons_append, hf]; exact h2 y hy
  · rwa [List.cons_append, hf] at hp

theorem litRest_codes {lit xs : Bytes} {p : Nat} {s : Bytes} {x : JError} (h : Err (litRest lit xs p s) x) :
    x.code = .UnexpectedEndFragment ∨ x.code = .ExpectedOf ∧ x.expectedOf = some lit := by
  induction xs generalizing p s with
  | nil => exact absurd (show Acc (litRest lit [] p s) s from fun e => rfl) h.not_acc
  | cons z xs ih =>
    cases s with
    | nil => rw [h.unique (Err.mk' (code := .UnexpectedEndFragment) (by decide))]; exact .inl rfl
    | cons b t =>
      by_cases hb : b = z
      · have : litRest lit (z :: xs) p (b :: t) = litRest lit xs (p + 1) t := by funext e; simp [litRest, hb]
        rw [this] at h
        exact ih h
      · have : litRest lit (z :: xs) p (b :: t) = fun e => ([], createError .ExpectedOf e (some lit) p) := by
          funext e; rw [litRest, if_neg hb]
        rw [this] at h
        rw [h.unique (Err.mk' (by decide))]
        exact .inr ⟨rfl, rfl⟩

theorem parseNull_blame {t : Bytes} {x : JError} (h : Err (parseNull (c%'n' :: t)) x) :
    BlameA parseNull (c%'n' :: t) x :=
  lit_blame (lit := b!"null") (xs := b!"ull") (by simp) rfl (fun y => by funext e; simp [parseNull]) h

theorem parseBool_blame {b : Byte} {t : Bytes} {x : JError} (hb : b = c%'t' ∨ b = c%'f')
    (h : Err (parseBool (b :: t)) x) : BlameA parseBool (b :: t) x := by
  rcases hb with rfl | rfl
  · exact lit_blame (lit := b!"true") (xs := b!"rue") (by simp) rfl (fun y => by funext e; simp [parseBool]) h
  · exact lit_blame (lit := b!"false") (xs := b!"alse") (by simp) rfl (fun y => by funext e; simp [parseBool]) h

/-! ### Numbers -/

theorem parseNumber_viable {t : Bytes} (h : RNumber t) {y : Bytes} (hy : Delim y) : Acc (parseNumber (t ++ y)) y :=
  parseNumber_acc_iff.mpr ⟨t, rfl, h, hy.numFollow _⟩

theorem reported_num {u r : Bytes} (hr : r ≠ []) : Reported ⟨.InvalidNumber, none, 0⟩ u r := .inl ⟨rfl, rfl, rfl, hr⟩

theorem parseIntegerAbs_err {s : Bytes} {x : JError} (h : Err (parseIntegerAbs s) x) :
    (s = [] ∧ x = ⟨.UnexpectedEndFragment, none, 0⟩) ∨
    (∃ b t, s = b :: t ∧ x = ⟨.InvalidNumber, none, 0⟩ ∧ ∀ v, Err (parseIntegerAbs (b :: v)) x) := by
  cases s with
  | nil => exact .inl ⟨rfl, h.unique (Err.mk' (by decide))⟩
  | cons b t =>
    by_cases h0 : b = c%'0'
    · exact absurd (show Acc (parseIntegerAbs (b :: t)) t from fun e => by simp [parseIntegerAbs, h0]) h.not_acc
    · by_cases h1 : isDigit19 b = true
      · exact absurd (show Acc (parseIntegerAbs (b :: t)) (parseDigit (b :: t)) from
          fun e => by simp [parseIntegerAbs, h0, h1]) h.not_acc
      · have heq : ∀ y, Err (parseIntegerAbs (b :: y)) ⟨.InvalidNumber, none, 0⟩ := by
          intro y
          refine ⟨by decide, fun e => ?_⟩
          simp [parseIntegerAbs, h0, h1, applyErr]
        have := h.unique (heq t)
        subst this
        exact .inr ⟨b, t, rfl, rfl, heq⟩

theorem fracExp_skip {f q : Bytes} (hf : RFrac f) (h1 : f = [] → q.head? ≠ some c%'.') (h2 : f ≠ [] → NoDigit q) :
    fracExp (f ++ q) = parseExp q := by
  funext e
  rcases hf with rfl | ⟨ds, rfl, h6⟩
  · cases q with
    | nil => simp [fracExp, parseFrac]
    | cons b t =>
      have : b ≠ c%'.' := by simpa using h1 rfl
      simp [fracExp, parseFrac, this]
  · cases ds with
    | nil => exact absurd rfl h6.1
    | cons d ds =>
      have hd : isDigit d = true := isDigit_iff.mpr (h6.2 d (by simp))
      have : parseDigit (d :: (ds ++ q)) = q := parseDigit_append (ds := d :: ds) h6.2 (h2 (by simp))
      simp [fracExp, parseFrac, hd, this]

theorem fracExp_cases (s : Bytes) :
    (s = b!"." ∧ Err (fracExp s) ⟨.UnexpectedEndFragment, none, 0⟩) ∨
    (∃ d t, s = c%'.' :: d :: t ∧ ∀ v, Err (fracExp (c%'.' :: d :: v)) ⟨.InvalidNumber, none, 0⟩) ∨
    (∃ f q, s = f ++ q ∧ RFrac f ∧ (f = [] → q.head? ≠ some c%'.') ∧ (f ≠ [] → NoDigit q)) := by
  cases s with
  | nil => exact .inr (.inr ⟨[], [], rfl, .inl rfl, by simp, by simp⟩)
  | cons b t =>
    by_cases hb : b = c%'.'
    · subst hb
      cases t with
      | nil => exact .inl ⟨rfl, by decide, fun e => by simp [fracExp, parseFrac, applyErr]⟩
      | cons d t =>
        by_cases hd : isDigit d = true
        · obtain ⟨ds, h1, h2, h3⟩ := parseDigit_split (d :: t)
          refine .inr (.inr ⟨c%'.' :: ds, parseDigit (d :: t), by rw [List.cons_append, ← h1],
            .inr ⟨ds, rfl, ?_, h2⟩, by simp, fun _ => h3⟩)
          rintro rfl
          simp at h1
          exact h3 d (by rw [← h1]; rfl) (isDigit_iff.mp hd)
        · exact .inr (.inl ⟨d, t, rfl, fun v => ⟨by decide, fun e => by simp [fracExp, parseFrac, hd, applyErr]⟩⟩)
    · exact .inr (.inr ⟨[], b :: t, rfl, .inl rfl, by simpa using hb, by simp⟩)

theorem parseExpDigits_err {s : Bytes} {x : JError} (h : Err (parseExpDigits s) x) :
    (s = [] ∧ x = ⟨.UnexpectedEndFragment, none, 0⟩) ∨
    (∃ b t, s = b :: t ∧ x = ⟨.InvalidNumber, none, 0⟩ ∧ ∀ v, Err (parseExpDigits (b :: v)) x) := by
  cases s with
  | nil => exact .inl ⟨rfl, h.unique (Err.mk' (by decide))⟩
  | cons b t =>
    by_cases h1 : isDigit b = true
    · exact absurd (show Acc (parseExpDigits (b :: t)) (parseDigit (b :: t)) from
        fun e => by simp [parseExpDigits, h1]) h.not_acc
    · have heq : ∀ y, Err (parseExpDigits (b :: y)) ⟨.InvalidNumber, none, 0⟩ := by
        intro y
        refine ⟨by decide, fun e => ?_⟩
        simp [parseExpDigits, h1, applyErr]
      have := h.unique (heq t)
      subst this
      exact .inr ⟨b, t, rfl, rfl, heq⟩

theorem parseExp_err {s : Bytes} {x : JError} (h : Err (parseExp s) x) :
    ∃ z sg r, (z = c%'e' ∨ z = c%'E') ∧ (sg = [] ∨ sg = b!"+" ∨ sg = b!"-") ∧ s = z :: (sg ++ r) ∧
      (x = ⟨.UnexpectedEndFragment, none, 0⟩ ∧ r = [] ∨ x = ⟨.InvalidNumber, none, 0⟩ ∧ r ≠ []) ∧
      ∀ b r', r = b :: r' → ∀ v, Err (parseExp (z :: (sg ++ b :: v))) x := by
  cases s with
  | nil => exact absurd (show Acc (parseExp []) [] from fun e => rfl) h.not_acc
  | cons z t =>
    by_cases hz : z = c%'e' ∨ z = c%'E'
    · cases t with
      | nil =>
        have : Err (parseExp [z]) ⟨.UnexpectedEndFragment, none, 0⟩ :=
          ⟨by decide, fun e => by simp [parseExp, hz, applyErr]⟩
        rw [h.unique this]
        exact ⟨z, [], [], hz, .inl rfl, rfl, Or.inl ⟨rfl, rfl⟩, by simp⟩
      | cons y t =>
        by_cases hy : y = c%'-' ∨ y = c%'+'
        · have heq : ∀ v, parseExp (z :: ([y] ++ v)) = parseExpDigits v := by
            intro v; funext e; simp [parseExp, hz, hy]
          have h0 : parseExp (z :: y :: t) = parseExpDigits t := heq t
          rw [h0] at h
          have hsg : [y] = [] ∨ [y] = b!"+" ∨ [y] = b!"-" := by
            rcases hy with rfl | rfl <;> simp
          rcases parseExpDigits_err h with ⟨rfl, rfl⟩ | ⟨b, r, rfl, rfl, hb⟩
          · exact ⟨z, [y], [], hz, hsg, rfl, Or.inl ⟨rfl, rfl⟩, by simp⟩
          · refine ⟨z, [y], b :: r, hz, hsg, rfl, Or.inr ⟨rfl, by simp⟩, ?_⟩
            rintro b' r' hr v
            cases hr
            rw [heq]; exact hb v
        · have heq : ∀ v, parseExp (z :: y :: v) = parseExpDigits (y :: v) := by
            intro v; funext e; simp [parseExp, hz, hy]
          rw [heq] at h
          rcases parseExpDigits_err h with ⟨h1, _⟩ | ⟨b, r, h1, rfl, hb⟩
          · simp at h1
          · cases h1
            refine ⟨z, [], y :: t, hz, .inl rfl, rfl, Or.inr ⟨rfl, by simp⟩, ?_⟩
            rintro b' r' hr v
            cases hr
            rw [List.nil_append, heq]; exact hb v
    · exact absurd (show Acc (parseExp (z :: t)) (z :: t) from fun e => by simp [parseExp, hz]) h.not_acc

/-- A number that is wrong: a digit is missing. -/
def NumBlame (s : Bytes) (x : JError) : Prop :=
  ∃ u r, s = u ++ r ∧ (x = ⟨.UnexpectedEndFragment, none, 0⟩ ∧ r = [] ∨ x = ⟨.InvalidNumber, none, 0⟩ ∧ r ≠ []) ∧
    (u ≠ [] → ∃ z, u.getLast? = some z ∧ z ∈ b!"-.eE+") ∧ (∀ d, Digit d → RNumber (u ++ [d])) ∧
    ∀ b r', r = b :: r' → ∀ v p, ¬ Acc (parseNumber (u ++ b :: v)) p

theorem NumBlame.blame {s : Bytes} {x : JError} (h : NumBlame s x) : BlameA parseNumber s x := by
  obtain ⟨u, r, h1, h2, _, h3, h4⟩ := h
  refine ⟨u, r, h1, ?_, ⟨b!"0", fun y hy => ?_⟩, h4⟩
  · rcases h2 with ⟨rfl, rfl⟩ | ⟨rfl, h2⟩
    · exact reported_ue
    · exact reported_num h2
  · have := parseNumber_viable (h3 c%'0' (by decide)) hy
    simpa using this

theorem digits_one {d : Byte} (h : Digit d) : Digits [d] := ⟨by simp, by intro b hb; simp at hb; subst hb; exact h⟩

theorem rint_digit {b : Byte} (hb : Digit b) : RInt [b] := by
  have key : ∀ b : Byte, Digit b → b = c%'0' ∨ Digit19 b := by
    apply forall_byte; unfold Digit19; decide +kernel
  rcases key b hb with rfl | h
  · exact .inl rfl
  · exact .inr ⟨b, [], rfl, h, by simp⟩

theorem parseNumber_blame {s : Bytes} {x : JError} (h : Err (parseNumber s) x) : NumBlame s x := by
  have hk : ScanAt [] (fracExp []) := fracExp_scan []
  have hbind : ∀ s, parseNumber s = fun e => fracExp (parseInteger s e).1 (parseInteger s e).2 := fun s => rfl
  rw [hbind] at h
  rcases Err.bind_inv (parseInteger_scan s) hk h with h1 | ⟨q, h1, h2⟩
  · -- the integer part is wrong
    have abs : ∀ {m s' : Bytes}, RMinus m → s = m ++ s' → (∀ v, s'.head? = v.head? → v ≠ [] → parseInteger (m ++ v) = parseIntegerAbs v) →
        Err (parseIntegerAbs s') x → NumBlame s x := by
      intro m s' hm hs heq h3
      have hv : ∀ d, Digit d → RNumber (m ++ [d]) := fun d hd =>
        ⟨m, [d], [], [], by simp, hm, rint_digit hd, .inl rfl, .inl rfl⟩
      have hl : m ≠ [] → ∃ z, m.getLast? = some z ∧ z ∈ b!"-.eE+" := by
        rcases hm with rfl | rfl
        · exact fun h => absurd rfl h
        · exact fun _ => ⟨c%'-', rfl, by decide⟩
      rcases parseIntegerAbs_err h3 with ⟨rfl, rfl⟩ | ⟨b, t, rfl, rfl, hb⟩
      · exact ⟨m, [], hs, .inl ⟨rfl, rfl⟩, hl, hv, by simp⟩
      · refine ⟨m, b :: t, hs, .inr ⟨rfl, by simp⟩, hl, hv, ?_⟩
        rintro b' r' hr v p hp
        cases hr
        rw [hbind] at hp
        obtain ⟨q, h4, _⟩ := Acc.bind_inv (parseInteger_scan _) hk hp
        rw [heq (b :: v) rfl (by simp)] at h4
        exact (hb v).not_acc h4
    cases s with
    | nil =>
      rw [h1.unique (Err.mk' (code := .UnexpectedEndFragment) (by decide))]
      exact ⟨[], [], rfl, .inl ⟨rfl, rfl⟩, by simp, fun d hd => ⟨[], [d], [], [], by simp, .inl rfl, rint_digit hd, .inl rfl, .inl rfl⟩, by simp⟩
    | cons b t =>
      by_cases hb : b = c%'-'
      · subst hb
        refine abs (m := b!"-") (s' := t) (.inr rfl) rfl ?_ ?_
        · intro v _ _; funext e; simp [parseInteger]
        · have : parseInteger (c%'-' :: t) = parseIntegerAbs t := by funext e; simp [parseInteger]
          rwa [this] at h1
      · refine abs (m := []) (s' := b :: t) (.inl rfl) rfl ?_ ?_
        · intro v hv hne
          cases v with
          | nil => exact absurd rfl hne
          | cons b' v => simp at hv; subst hv; funext e; simp [parseInteger, hb]
        · have : parseInteger (b :: t) = parseIntegerAbs (b :: t) := by funext e; simp [parseInteger, hb]
          rwa [this] at h1
  · obtain ⟨m, i, rfl, hm, hi, hA⟩ := parseInteger_acc_iff.mp h1
    rcases fracExp_cases q with ⟨rfl, h3⟩ | ⟨d, t, rfl, h3⟩ | ⟨f, r, rfl, hf, hB1, hB2⟩
    · rw [h2.unique h3]
      exact ⟨m ++ i ++ b!".", [], by simp, .inl ⟨rfl, rfl⟩, fun _ => ⟨c%'.', by simp, by decide⟩,
        fun d hd => ⟨m, i, [c%'.', d], [], by simp, hm, hi, .inr ⟨_, rfl, digits_one hd⟩, .inl rfl⟩, by simp⟩
    · rw [h2.unique (h3 t)]
      refine ⟨m ++ i ++ b!".", d :: t, by simp, .inr ⟨rfl, by simp⟩, fun _ => ⟨c%'.', by simp, by decide⟩,
        fun d hd => ⟨m, i, [c%'.', d], [], by simp, hm, hi, .inr ⟨_, rfl, digits_one hd⟩, .inl rfl⟩, ?_⟩
      rintro b' r' hr v p hp
      cases hr
      have h5 : Acc (parseInteger (m ++ i ++ (c%'.' :: d :: v))) (c%'.' :: d :: v) :=
        parseInteger_acc_iff.mpr ⟨m, i, rfl, hm, hi, .inr (by intro b hb; simp at hb; subst hb; decide)⟩
      have h6 : m ++ i ++ b!"." ++ d :: v = m ++ i ++ (c%'.' :: d :: v) := by simp
      rw [h6, hbind] at hp
      obtain ⟨q, h7, h8⟩ := Acc.bind_inv (parseInteger_scan _) hk hp
      have := h5.unique h7
      subst this
      exact (h3 v).not_acc h8
    · rw [fracExp_skip hf hB1 hB2] at h2
      obtain ⟨z, sg, r', hz, hsg, rfl, hrep, hbad⟩ := parseExp_err h2
      refine ⟨m ++ i ++ f ++ z :: sg, r', by simp, hrep, fun _ => ?_, fun d hd => ?_, ?_⟩
      · have hlast : (m ++ i ++ f ++ z :: sg).getLast? = (z :: sg).getLast? := by
          rw [List.getLast?_append, List.getLast?_cons]; rfl
        rw [hlast]
        rcases hsg with rfl | rfl | rfl
        · exact ⟨z, rfl, by rcases hz with rfl | rfl <;> decide⟩
        · exact ⟨c%'+', by simp, by decide⟩
        · exact ⟨c%'-', by simp, by decide⟩
      · exact ⟨m, i, f, z :: (sg ++ [d]), by simp, hm, hi, hf, .inr ⟨z, sg, [d], rfl, hz, hsg, digits_one hd⟩⟩
      · rintro b r'' rfl v p hp
        have hzn : ¬ Digit z ∧ z ≠ c%'.' := by rcases hz with rfl | rfl <;> decide
        have h5 : Acc (parseInteger (m ++ i ++ (f ++ z :: (sg ++ b :: v)))) (f ++ z :: (sg ++ b :: v)) := by
          refine parseInteger_acc_iff.mpr ⟨m, i, rfl, hm, hi, ?_⟩
          rcases hA with h | h
          · exact .inl h
          · right
            intro c hc
            cases f with
            | nil => simp at hc; subst hc; exact hzn.1
            | cons a f => simp at hc; subst hc; exact h _ rfl
        have h6 : m ++ i ++ f ++ z :: sg ++ b :: v = m ++ i ++ (f ++ z :: (sg ++ b :: v)) := by simp
        rw [h6, hbind] at hp
        obtain ⟨q, h7, h8⟩ := Acc.bind_inv (parseInteger_scan _) hk hp
        have := h5.unique h7
        subst this
        rw [fracExp_skip hf (fun _ => by simpa using hzn.2)
          (fun _ => by intro c hc; simp at hc; subst hc; exact hzn.1)] at h8
        exact (hbad b r'' rfl v).not_acc h8

/-! ### White space -/

theorem spaceLoop_slash (t : Bytes) (e : EPtr) : spaceLoop false (c%'/' :: t) e =
    if t.head? = some c%'*' then spaceLoop true t e else spaceLoop false t e := by
  rw [spaceLoop.eq_def]; rfl

theorem parseSpace_uncomment {s : Bytes} {x : JError} (h : Err (parseSpace s) x) {b : Byte} {t : Bytes}
    (hb : ¬ WsByte b ∧ b ≠ c%'/') (hs : b ≠ c%'*') : Acc (parseSpace (s ++ (b!"*/" ++ b :: t))) (b :: t) := by
  have hend : Acc (spaceLoop false (c%'/' :: b :: t)) (b :: t) := by
    intro e
    have := spaceLoop_false_stop (p := b :: t) (.cons hb) e
    simp [spaceLoop, isWs, hs] at this ⊢
    exact this
  have key : ∀ (n : Nat) (st : Bool) (s : Bytes), s.length ≤ n → Err (spaceLoop st s) x →
      Acc (spaceLoop st (s ++ (b!"*/" ++ b :: t))) (b :: t) := by
    intro n
    induction n with
    | zero =>
      intro st s hs h
      have : s = [] := List.length_eq_zero_iff.mp (Nat.le_zero.mp hs)
      subst this
      cases st with
      | false => exact absurd (show Acc (spaceLoop false []) [] from fun e => rfl) h.not_acc
      | true =>
        intro e
        have := hend e
        simpa [spaceLoop] using this
    | succ n ih =>
      intro st s hs h
      cases s with
      | nil => exact ih st [] (by simp) h
      | cons a s =>
        have hl : s.length ≤ n := by simpa using hs
        have hh : ∀ z : Byte, z ≠ c%'*' → ((s ++ (b!"*/" ++ b :: t)).head? = some z ↔ s.head? = some z) := by
          intro z hz
          cases s with
          | nil => simp; exact fun h => hz h.symm
          | cons d s => simp
        cases st with
        | true =>
          by_cases ha : a = c%'*'
          · by_cases h1 : s.head? = some c%'/'
            · have e1 : spaceLoop true (a :: s) = spaceLoop false s := by funext e; simp [spaceLoop, ha, h1]
              rw [e1] at h
              have e2 : spaceLoop true (a :: s ++ (b!"*/" ++ b :: t)) = spaceLoop false (s ++ (b!"*/" ++ b :: t)) := by
                funext e
                rw [List.cons_append, spaceLoop, if_pos ha, if_pos ((hh _ (by decide)).mpr h1)]
              rw [e2]; exact ih false s hl h
            · have e1 : spaceLoop true (a :: s) = spaceLoop true s := by funext e; simp [spaceLoop, ha, h1]
              rw [e1] at h
              have e2 : spaceLoop true (a :: s ++ (b!"*/" ++ b :: t)) = spaceLoop true (s ++ (b!"*/" ++ b :: t)) := by
                funext e
                rw [List.cons_append, spaceLoop, if_pos ha, if_neg (fun h => h1 ((hh _ (by decide)).mp h))]
              rw [e2]; exact ih true s hl h
          · have e1 : spaceLoop true (a :: s) = spaceLoop true s := by funext e; simp [spaceLoop, ha]
            rw [e1] at h
            have e2 : spaceLoop true (a :: s ++ (b!"*/" ++ b :: t)) = spaceLoop true (s ++ (b!"*/" ++ b :: t)) := by
              funext e
              rw [List.cons_append, spaceLoop, if_neg ha]
            rw [e2]; exact ih true s hl h
        | false =>
          by_cases ha : isWs a = true
          · have e1 : spaceLoop false (a :: s) = spaceLoop false s := by funext e; simp [spaceLoop, ha]
            rw [e1] at h
            have e2 : spaceLoop false (a :: s ++ (b!"*/" ++ b :: t)) = spaceLoop false (s ++ (b!"*/" ++ b :: t)) := by
              funext e
              rw [List.cons_append, spaceLoop, if_pos ha]
            rw [e2]; exact ih false s hl h
          · by_cases hsl : a = c%'/'
            · subst hsl
              cases s with
              | nil =>
                exact absurd (show Acc (spaceLoop false [c%'/']) [] from fun e => by simp [spaceLoop, isWs]) h.not_acc
              | cons d s =>
                by_cases hd : d = c%'*'
                · have e1 : spaceLoop false (c%'/' :: d :: s) = spaceLoop true (d :: s) := by
                    funext e; rw [spaceLoop_slash, if_pos (by simp [hd])]
                  rw [e1] at h
                  have e2 : spaceLoop false (c%'/' :: d :: s ++ (b!"*/" ++ b :: t)) =
                      spaceLoop true (d :: s ++ (b!"*/" ++ b :: t)) := by
                    funext e
                    rw [List.cons_append, spaceLoop_slash, if_pos (by simp [hd])]
                  rw [e2]; exact ih true _ hl h
                · have e1 : spaceLoop false (c%'/' :: d :: s) = spaceLoop false (d :: s) := by
                    funext e; rw [spaceLoop_slash, if_neg (by simp [hd])]
                  rw [e1] at h
                  have e2 : spaceLoop false (c%'/' :: d :: s ++ (b!"*/" ++ b :: t)) =
                      spaceLoop false (d :: s ++ (b!"*/" ++ b :: t)) := by
                    funext e
                    rw [List.cons_append, spaceLoop_slash, if_neg (by simp [hd])]
                  rw [e2]; exact ih false _ hl h
            · exact absurd (show Acc (spaceLoop false (a :: s)) (a :: s) from
                fun e => by simp [spaceLoop, ha, hsl]) h.not_acc
  exact key s.length false s (Nat.le_refl _) h

theorem parseSpace_err {s : Bytes} {x : JError} (h : Err (parseSpace s) x) :
    (∀ u f, Told f x u []) ∧ s ≠ [] := by
  have key : ∀ (s : Bytes) (st : Bool), Err (spaceLoop st s) x → ∀ u f, Told f x u [] := by
    intro s
    induction s with
    | nil =>
      intro st h
      cases st with
      | false => exact absurd (show Acc (spaceLoop false []) [] from fun e => rfl) h.not_acc
      | true =>
        rw [h.unique (Err.mk' (code := .UnexpectedEndFragment) (m := some b!"Unterminated comment") (t := 0) (by decide))]
        exact fun _ _ => ⟨.exact (by decide) (by decide) rfl, .fin rfl⟩
    | cons a s ih =>
      intro st h
      have : (∃ st', spaceLoop st (a :: s) = spaceLoop st' s) ∨ Acc (spaceLoop st (a :: s)) (a :: s) := by
        cases st with
        | true =>
          left
          by_cases ha : a = c%'*'
          · by_cases h1 : s.head? = some c%'/'
            · exact ⟨false, by funext e; simp [spaceLoop, ha, h1]⟩
            · exact ⟨true, by funext e; simp [spaceLoop, ha, h1]⟩
          · exact ⟨true, by funext e; simp [spaceLoop, ha]⟩
        | false =>
          by_cases ha : isWs a = true
          · exact .inl ⟨false, by funext e; simp [spaceLoop, ha]⟩
          · by_cases hsl : a = c%'/'
            · left
              subst hsl
              by_cases h1 : s.head? = some c%'*'
              · exact ⟨true, by funext e; rw [spaceLoop_slash, if_pos h1]⟩
              · exact ⟨false, by funext e; rw [spaceLoop_slash, if_neg h1]⟩
            · exact .inr fun e => by simp [spaceLoop, ha, hsl]
      rcases this with ⟨st', h1⟩ | h1
      · exact ih st' (h1 ▸ h)
      · exact absurd h1 h.not_acc
  refine ⟨key s false h, ?_⟩
  rintro rfl
  exact h.not_acc (p := []) fun e => rfl

end Wjson
