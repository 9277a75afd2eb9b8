import Verif.Spec.View
import Verif.Props.Reuse
/-
Lemmas for C88.
-/
namespace Wjson
open Spec

/-- Both results are of the same kind, and `R` holds for the values. -/
inductive OutRel {α β : Type} (R : α → β → Prop) : Out α → Out β → Prop
  | ok {a : α} {b : β} : R a b → OutRel R (.ok a) (.ok b)
  | ub : OutRel R .ub .ub
  | fuel : OutRel R .fuel .fuel

/-- `R` holds for the values, and the rest is the same. -/
def Beside {α γ : Type} (R : α → α → Prop) (a b : α × γ) : Prop := R a.1 b.1 ∧ a.2 = b.2

/-- The reader keeps the relation and takes the same course. -/
def Resp {α : Type} (R : α → α → Prop) (de : De α) : Prop :=
  ∀ v0 v1, R v0 v1 → ∀ s e, OutRel (Beside R) (de v0 s e) (de v1 s e)

def RespM {τ : Type} (R : τ → τ → Prop) (m : Member τ) : Prop :=
  ∀ t0 t1, R t0 t1 → ∀ s e u, OutRel (Beside R) (m.de t0 s e u) (m.de t1 s e u)

theorem OutRel.bind {α β α' β' : Type} {R : α → β → Prop} {Q : α' → β' → Prop} {a : Out α} {b : Out β} {f : α → Out α'} {g : β → Out β'}
    (h : OutRel R a b) (hf : ∀ x y, R x y → OutRel Q (f x) (g y)) : OutRel Q (a >>= f) (b >>= g) := by
  cases h with
  | ok h => exact hf _ _ h
  | ub => exact .ub
  | fuel => exact .fuel

theorem OutRel.skip {γ α β : Type} {Q : α → β → Prop} {o : Out γ} {f : γ → Out α} {g : γ → Out β}
    (hf : ∀ x, OutRel Q (f x) (g x)) : OutRel Q (o >>= f) (o >>= g) := by
  cases o with
  | ok x => exact hf x
  | ub => exact .ub
  | fuel => exact .fuel

theorem OutRel.ite {α β : Type} {Q : α → β → Prop} {q : Prop} [Decidable q] {a a' : Out α} {b b' : Out β}
    (h : q → OutRel Q a b) (h' : ¬ q → OutRel Q a' b') : OutRel Q (if q then a else a') (if q then b else b') := by
  by_cases hq : q
  · rw [if_pos hq, if_pos hq]; exact h hq
  · rw [if_neg hq, if_neg hq]; exact h' hq

theorem OutRel.rfl' {α : Type} {R : α → α → Prop} (hR : ∀ x, R x x) (a : Out α) : OutRel R a a := by
  cases a with
  | ok x => exact .ok (hR x)
  | ub => exact .ub
  | fuel => exact .fuel

theorem OutRel.at {α γ : Type} {R : α → α → Prop} {a b : α} {r : γ} (h : R a b) : OutRel (Beside R) (.ok (a, r)) (.ok (b, r)) :=
  .ok ⟨h, rfl⟩

theorem Beside.refl {α γ : Type} {R : α → α → Prop} (hR : ∀ x, R x x) (a : α × γ) : Beside R a a := ⟨hR _, rfl⟩

/-! ### Values, quoted values, fields -/

theorem overwrites_resp {c : Cfg} {α : Type} {S : Ser α} (h : Overwrites c S) {R : α → α → Prop} (hR : ∀ x, R x x) : Resp R S.de := by
  intro v0 v1 h01 s e
  cases s with
  | cons b t => rw [C57_any_text h v0 v1 (by simp) e]; exact .rfl' (Beside.refl hR) _
  | nil =>
    cases h
    case int => exact .at h01
    case bool => exact .at h01
    case time => exact .at h01
    case size => exact .at h01
    all_goals exact .rfl' (Beside.refl hR) _

theorem float_resp {α : Type} (F : FloatTy α) (R : Int) : Resp (fun _ _ => True) (floatSer F R).de := by
  intro v0 v1 _ s e
  show OutRel _ (deFloat F R v0 s e) (deFloat F R v1 s e)
  cases s with
  | nil => exact .at trivial
  | cons b t => exact .ite (fun _ => .at trivial) fun _ => .ite (fun _ => .at trivial) fun _ => .at trivial

theorem rawQuoted_resp (c : Cfg) (serQ reqQ : Bool) : Resp (fun _ _ => True) (rawQuotedSer c serQ reqQ).de := by
  intro v0 v1 _ s e
  show OutRel _ (deRawQuoted c reqQ v0 s e) (deRawQuoted c reqQ v1 s e)
  cases s with
  | nil => exact .at trivial
  | cons b t => exact .ite (fun _ => .at trivial) fun _ => .rfl' (Beside.refl fun _ => trivial) _

theorem quoted_resp {α : Type} {S : Ser α} {serQ reqQ : Bool} {R : α → α → Prop} (h : Resp R S.de) :
    Resp R (quotedSer S serQ reqQ).de := by
  intro v0 v1 h01 s e
  have str : OutRel (Beside R) (deQuotedStr S v0 s e) (deQuotedStr S v1 s e) := by
    unfold deQuotedStr
    refine .skip fun r => .ite (fun _ => .at h01) fun _ => ?_
    refine (h v0 v1 h01 r.1 .fresh).bind ?_
    rintro ⟨x, p, e1⟩ ⟨y, q, e2⟩ ⟨hxy, heq⟩
    cases heq
    cases e1 with
    | null => exact .at hxy
    | obj z => exact .ite (fun _ => .at hxy) fun _ => .at hxy
  show OutRel _ (deQuoted S reqQ v0 s e) (deQuoted S reqQ v1 s e)
  exact .ite (fun _ => str) fun _ => .ite (fun _ => str) fun _ => h v0 v1 h01 s e

theorem memberValue_resp {τ α : Type} {dflt : τ} {get : τ → α} {set : α → τ → τ} {S : Ser α} {R : τ → τ → Prop} {Q : α → α → Prop}
    (h : Resp Q S.de) (hg : ∀ t0 t1, R t0 t1 → Q (get t0) (get t1)) (hs : ∀ x0 x1 t0 t1, Q x0 x1 → R t0 t1 → R (set x0 t0) (set x1 t1)) :
    Resp R (memberValueSer dflt get set S).de := by
  intro t0 t1 h01 s e
  refine (h _ _ (hg _ _ h01) s e).bind ?_
  rintro ⟨x, r⟩ ⟨y, r'⟩ ⟨hxy, heq⟩
  cases heq
  exact .at (hs _ _ _ _ hxy h01)

theorem field_resp {κ ν : Type} {SK : Ser κ} {SV : Ser ν} {Q : κ → κ → Prop} {Q' : ν → ν → Prop} (h : Resp Q SK.de) (h' : Resp Q' SV.de) :
    Resp (fun a b => Q a.1 b.1 ∧ Q' a.2 b.2) (fieldSer SK SV).de := by
  intro t0 t1 h01 s e
  show OutRel _ (deField SK SV t0 s e) (deField SK SV t1 s e)
  unfold deField
  refine (h _ _ h01.1 s e).bind ?_
  rintro ⟨x, r⟩ ⟨y, r'⟩ ⟨hxy, heq⟩
  cases heq
  dsimp only
  cases (parseSpace r.1 r.2).1 with
  | nil => exact .at ⟨hxy, h01.2⟩
  | cons b p =>
    refine .ite (fun _ => .at ⟨hxy, h01.2⟩) fun _ => ?_
    cases (parseSpace p (parseSpace r.1 r.2).2).1 with
    | nil => exact .at ⟨hxy, h01.2⟩
    | cons b p =>
      refine (h' _ _ h01.2 _ _).bind ?_
      rintro ⟨x', r1⟩ ⟨y', r2⟩ ⟨hxy', heq⟩
      cases heq
      exact .at ⟨hxy, hxy'⟩

/-! ### Fixed-size arrays -/

/-- Lists of the same length with related elements; the relation may depend on the place. -/
def Along {α : Type} (Q : Nat → α → α → Prop) : List α → List α → Prop
  | [], [] => True
  | a :: l, b :: l' => Q 0 a b ∧ Along (fun i => Q (i + 1)) l l'
  | _, _ => False

theorem fixNull_resp {α : Type} {S : Ser α} {s : Bytes} {Q : Nat → α → α → Prop} (h : ∀ i, Resp (Q i) S.de) (l l' : List α)
    (hl : Along Q l l') (e : EPtr) : OutRel (Beside (Along Q)) (fixNull S s l e) (fixNull S s l' e) := by
  induction l generalizing Q l' e with
  | nil =>
    cases l' with
    | nil => exact .at trivial
    | cons _ _ => cases hl
  | cons a l ih =>
    cases l' with
    | nil => cases hl
    | cons b l' =>
      refine (h 0 a b hl.1 s e).bind ?_
      rintro ⟨x, r⟩ ⟨y, r'⟩ ⟨hxy, heq⟩
      cases heq
      refine (ih (fun i => h (i + 1)) l' hl.2 _).bind ?_
      rintro ⟨x', r1⟩ ⟨y', r2⟩ ⟨hxy', heq⟩
      cases heq
      exact .at ⟨hxy, hxy'⟩

theorem fixClose_resp {α : Type} {R : Byte} {Q : List α → List α → Prop} {l l' : List α} (hl : Q l l') (s : Bytes) (e : EPtr) :
    OutRel (Beside Q) (fixClose R l s e) (fixClose R l' s e) := by
  cases s with
  | nil => exact .at hl
  | cons b p => exact .ite (fun _ => .at hl) fun _ => .at hl

theorem fixLoop_resp {α : Type} {k : FixKind} {S : Ser α} {R : Byte} {Q : Nat → α → α → Prop} (hQ : ∀ i x, Q i x x)
    (h : ∀ i, Resp (Q i) S.de) (l l' : List α) (hl : Along Q l l') (s : Bytes) (e : EPtr) :
    OutRel (Beside (Along Q)) (fixLoop k S R l s e) (fixLoop k S R l' s e) := by
  induction l generalizing Q l' s e with
  | nil =>
    cases l' with
    | nil => exact fixClose_resp trivial s e
    | cons _ _ => cases hl
  | cons a l ih =>
    cases l' with
    | nil => cases hl
    | cons b l' =>
      unfold fixLoop
      cases s with
      | nil => exact fixClose_resp hl [] e
      | cons b0 s0 =>
        dsimp only
        cases (parseSpace (b0 :: s0) e).1 with
        | nil => exact .at hl
        | cons b1 p =>
          refine .ite (fun _ => fixClose_resp hl _ _) fun _ => ?_
          have hst : Q 0 (k.start S a) (k.start S b) := by
            cases k with
            | stdArray => exact hQ _ _
            | cArray => exact hl.1
          refine (h 0 _ _ hst _ _).bind ?_
          rintro ⟨x, r⟩ ⟨y, r'⟩ ⟨hxy, heq⟩
          cases heq
          have hrel : Along Q (x :: l) (y :: l') := ⟨hxy, hl.2⟩
          dsimp only
          cases (parseSpace r.1 r.2).1 with
          | nil => exact .at hrel
          | cons b2 q =>
            refine .ite (fun _ => fixClose_resp hrel _ _) fun _ => .ite (fun _ => .at hrel) fun _ => ?_
            refine (ih (fun i => hQ (i + 1)) (fun i => h (i + 1)) l' hl.2 _ _).bind ?_
            rintro ⟨x', r1⟩ ⟨y', r2⟩ ⟨hxy', heq⟩
            cases heq
            exact .at ⟨hxy, hxy'⟩

theorem deFix_resp {α : Type} {k : FixKind} {S : Ser α} {L R : Byte} {Q : Nat → α → α → Prop} (hQ : ∀ i x, Q i x x)
    (h : ∀ i, Resp (Q i) S.de) : Resp (Along Q) (deFix k S L R) := by
  intro l l' hl s e
  refine .ite (fun _ => ?_) fun _ => ?_
  · refine (fixNull_resp h l l' hl e).bind ?_
    rintro ⟨x, r⟩ ⟨y, r'⟩ ⟨hxy, heq⟩
    cases heq
    exact .at hxy
  · cases s with
    | nil => exact .at hl
    | cons b p => exact .ite (fun _ => .at hl) fun _ => fixLoop_resp hQ h l l' hl _ _

theorem along_iff {α : Type} {Q : Nat → α → α → Prop} (l l' : List α) :
    Along Q l l' ↔ l.length = l'.length ∧ ∀ i (h : i < l.length) (h' : i < l'.length), Q i l[i] l'[i] := by
  induction l generalizing Q l' with
  | nil => cases l' <;> simp [Along]
  | cons a l ih =>
    cases l' with
    | nil => simp [Along]
    | cons b l' =>
      simp only [Along, ih, List.length_cons, Nat.add_right_cancel_iff]
      constructor
      · rintro ⟨h0, hl, h⟩
        refine ⟨hl, fun i hi hi' => ?_⟩
        cases i with
        | zero => exact h0
        | succ i => exact h i (by omega) (by omega)
      · rintro ⟨hl, h⟩
        exact ⟨h 0 (by omega) (by omega), hl, fun i hi hi' => h (i + 1) (by omega) (by omega)⟩

theorem fixed_resp {α : Type} {k : FixKind} {N : Nat} {S : Ser α} {Q : Nat → α → α → Prop} (hQ : ∀ i x, Q i x x)
    (h : ∀ i, Resp (Q i) S.de) : Resp (fun v w : Vector α N => ∀ i : Fin N, Q i v[i] w[i]) (fixVecSer k N S).de := by
  intro v w hvw s e
  show OutRel _ (deFixVec k S v s e) (deFixVec k S w s e)
  unfold deFixVec
  refine (deFix_resp hQ h v.toList w.toList ((along_iff _ _).mpr ⟨by simp, fun i h1 h2 => ?_⟩) s e).bind ?_
  · have := hvw ⟨i, by simpa using h1⟩
    simpa using this
  · rintro ⟨x, r⟩ ⟨y, r'⟩ ⟨hxy, heq⟩
    cases heq
    obtain ⟨hl, hq⟩ := (along_iff _ _).mp hxy
    dsimp only at hl hq ⊢
    by_cases hN : x.length = N
    · rw [dif_pos hN, dif_pos (hl ▸ hN)]
      refine .at fun i => ?_
      have := hq i (by omega) (by omega)
      simpa using this
    · rw [dif_neg hN, dif_neg (hl ▸ hN)]
      exact .ub

/-! ### Structures -/

section
variable {τ : Type} {R : τ → τ → Prop}

theorem searchMembers_resp {c : Cfg} {strict : Bool} {L : List (Member τ)} (h : ∀ m ∈ L, RespM R m) : Resp R (searchMembers c strict L) := by
  induction L with
  | nil =>
    intro t0 t1 h01 s e
    unfold searchMembers
    refine .ite (fun _ => .skip fun r => .at h01) fun _ => ?_
    cases s with
    | nil => exact .at h01
    | cons b p => exact .ite (fun _ => .at h01) fun _ => .at h01
  | cons m l ih =>
    intro t0 t1 h01 s e
    unfold searchMembers
    refine (h m (by simp) t0 t1 h01 s e false).bind ?_
    rintro ⟨x, r⟩ ⟨y, r'⟩ ⟨hxy, heq⟩
    cases heq
    exact .ite (fun _ => .at hxy) fun _ => ih (fun m hm => h m (by simp [hm])) x y hxy _ _

theorem membersEnd_resp {t0 t1 : τ} (h : R t0 t1) (s : Bytes) (e : EPtr) : OutRel (Beside R) (membersEnd t0 s e) (membersEnd t1 s e) := by
  cases s with
  | nil => exact .at h
  | cons b p => exact .ite (fun _ => .at h) fun _ => .at h

theorem objectEnd_resp {t0 t1 : τ} (h : R t0 t1) (s : Bytes) (e : EPtr) : OutRel (Beside R) (objectEnd t0 s e) (objectEnd t1 s e) := by
  cases s with
  | nil => exact .at h
  | cons b p => exact .ite (fun _ => .at h) fun _ => .at h

theorem membersF_resp {c : Cfg} {strict : Bool} {L : List (Member τ)} (h : ∀ m ∈ L, RespM R m) (n : Nat) (l : List (Member τ))
    (hl : ∀ m ∈ l, RespM R m) : Resp R (membersF c strict L n l) := by
  induction n generalizing l with
  | zero => intro t0 t1 _ s e; unfold membersF; exact .fuel
  | succ n ih =>
    intro t0 t1 h01 s e
    cases l with
    | nil => unfold membersF; exact .skip fun r => .at h01
    | cons m l =>
      unfold membersF
      refine (hl m (by simp) t0 t1 h01 s e false).bind ?_
      rintro ⟨x, r⟩ ⟨y, r'⟩ ⟨hxy, heq⟩
      cases heq
      dsimp only
      refine OutRel.bind (.ite (fun _ => .at hxy) fun _ => searchMembers_resp h x y hxy _ _) ?_
      rintro ⟨x', q⟩ ⟨y', q'⟩ ⟨hxy', heq⟩
      cases heq
      dsimp only
      cases (parseSpace q.1 q.2).1 with
      | nil => exact .at hxy'
      | cons b p =>
        refine .ite (fun _ => ?_) fun _ => membersEnd_resp hxy' _ _
        refine (ih (if r.2.2 then l else m :: l) (fun m' hm' => ?_) x' y' hxy' _ _).bind ?_
        · split at hm'
          · exact hl m' (by simp [hm'])
          · exact hl m' hm'
        · rintro ⟨x1, q1⟩ ⟨y1, q2⟩ ⟨h1, heq⟩
          cases heq
          exact membersEnd_resp h1 _ _

theorem object_resp {c : Cfg} {strict : Bool} {dflt : τ} {L : List (Member τ)} (hR : ∀ t, R t t) (h : ∀ m ∈ L, RespM R m) :
    Resp R (objectSer c strict dflt L).de := by
  intro t0 t1 h01 s e
  refine .ite (fun _ => .at (hR _)) fun _ => ?_
  cases s with
  | nil => exact .at h01
  | cons b p =>
    refine .ite (fun _ => .ite (fun _ => .skip fun x => .ite (fun _ => .at h01) fun _ => ?_) fun _ => .at h01) fun _ => ?_
    · cases (parseSpace p e).1 with
      | nil => exact .ub
      | cons _ q => exact .at h01
    · unfold objectBody
      dsimp only
      cases (parseSpace p e).1 with
      | nil => exact .at h01
      | cons b q =>
        refine .ite (fun _ => ?_) fun _ => objectEnd_resp h01 _ _
        refine (membersF_resp h _ L h t0 t1 h01 _ _).bind ?_
        rintro ⟨x, p, e1⟩ ⟨y, p', e2⟩ ⟨hxy, heq⟩
        cases heq
        cases p with
        | nil => exact .at hxy
        | cons b' q' =>
          dsimp only
          cases (parseSpace (b' :: q') e1).1 with
          | nil => exact .at hxy
          | cons _ _ => exact objectEnd_resp hxy _ _

theorem amembersEnd_resp {t0 t1 : τ} (h : R t0 t1) (s : Bytes) (e : EPtr) : OutRel (Beside R) (amembersEnd t0 s e) (amembersEnd t1 s e) := by
  cases s with
  | nil => exact .at h
  | cons b p => exact .ite (fun _ => .at h) fun _ => .at h

theorem objectArrayEnd_resp {t0 t1 : τ} (h : R t0 t1) (s : Bytes) (e : EPtr) :
    OutRel (Beside R) (objectArrayEnd t0 s e) (objectArrayEnd t1 s e) := by
  cases s with
  | nil => exact .at h
  | cons b p => exact .ite (fun _ => .at h) fun _ => .at h

theorem deAMembers_resp {L : List (AMember τ)} (h : ∀ m ∈ L, Resp R m.de) : Resp R (deAMembers L) := by
  induction L with
  | nil => intro t0 t1 h01 s e; unfold deAMembers; exact .at h01
  | cons m l ih =>
    intro t0 t1 h01 s e
    unfold deAMembers
    refine (h m (by simp) t0 t1 h01 s e).bind ?_
    rintro ⟨x, r⟩ ⟨y, r'⟩ ⟨hxy, heq⟩
    cases heq
    dsimp only
    cases (parseSpace r.1 r.2).1 with
    | nil => exact .at hxy
    | cons b p =>
      refine .ite (fun _ => ?_) fun _ => amembersEnd_resp hxy _ _
      refine (ih (fun m hm => h m (by simp [hm])) x y hxy _ _).bind ?_
      rintro ⟨x1, q1⟩ ⟨y1, q2⟩ ⟨h1, heq⟩
      cases heq
      exact amembersEnd_resp h1 _ _

theorem objectArray_resp {dflt : τ} {L : List (AMember τ)} (hR : ∀ t, R t t) (h : ∀ m ∈ L, Resp R m.de) :
    Resp R (objectArraySer dflt L).de := by
  intro t0 t1 h01 s e
  refine .ite (fun _ => .at (hR _)) fun _ => ?_
  cases s with
  | nil => exact .at h01
  | cons b p =>
    refine .ite (fun _ => .at h01) fun _ => ?_
    unfold objectArrayBody
    dsimp only
    cases (parseSpace p e).1 with
    | nil => exact .at h01
    | cons b q =>
      refine .ite (fun _ => ?_) fun _ => objectArrayEnd_resp h01 _ _
      refine (deAMembers_resp h t0 t1 h01 _ _).bind ?_
      rintro ⟨x, p, e1⟩ ⟨y, p', e2⟩ ⟨hxy, heq⟩
      cases heq
      cases p with
      | nil => exact .at hxy
      | cons b' q' =>
        dsimp only
        cases (parseSpace (b' :: q') e1).1 with
        | nil => exact .at hxy
        | cons _ _ => exact objectArrayEnd_resp hxy _ _

/-- Reading the member keeps the relation. -/
structure RefResp (R : τ → τ → Prop) (m : MRef τ) (Q : m.α → m.α → Prop) : Prop where
  refl : ∀ x, Q x x
  resp : Resp Q m.ser.de
  get : ∀ t0 t1, R t0 t1 → Q (m.get t0) (m.get t1)
  set : ∀ x0 x1 t0 t1, Q x0 x1 → R t0 t1 → R (m.set x0 t0) (m.set x1 t1)

theorem deMember_resp {m : MRef τ} {Q : m.α → m.α → Prop} (h : RefResp R m Q) : RespM R (member m) := by
  intro t0 t1 h01 s e u
  refine .ite (fun _ => .at h01) fun _ => ?_
  refine (h.resp _ _ (h.get _ _ h01) _ _).bind ?_
  rintro ⟨x, r⟩ ⟨y, r'⟩ ⟨hxy, heq⟩
  cases heq
  exact .at (h.set _ _ _ _ hxy h01)

theorem deMemberP_resp {m : MRef τ} (h : ∀ x t0 t1, R t0 t1 → R (m.set x t0) (m.set x t1)) : RespM R (memberP m) := by
  intro t0 t1 h01 s e u
  exact .ite (fun _ => .at h01) fun _ => .skip fun d => .at (h _ _ _ h01)

theorem readNull_resp {m : MRef τ} {Q : m.α → m.α → Prop} (h : RefResp R m Q) {t0 t1 : τ} (h01 : R t0 t1) :
    OutRel R (readNull m t0) (readNull m t1) := by
  refine (h.resp _ _ (h.get _ _ h01) _ _).bind ?_
  rintro ⟨x, r⟩ ⟨y, r'⟩ ⟨hxy, _⟩
  exact .ok (h.set _ _ _ _ hxy h01)

theorem deMemberIf_resp {a b : MRef τ} {Q : a.α → a.α → Prop} {Q' : b.α → b.α → Prop} (ha : RefResp R a Q) (hb : RefResp R b Q')
    {t0 t1 : τ} (h01 : R t0 t1) (s : Bytes) (e : EPtr) (u : Bool) :
    OutRel (Beside R) (deMemberIf a b t0 s e u) (deMemberIf a b t1 s e u) := by
  unfold deMemberIf
  refine (deMember_resp ha t0 t1 h01 s .fresh u).bind ?_
  rintro ⟨x, r⟩ ⟨y, r'⟩ ⟨hxy, heq⟩
  cases heq
  refine .ite (fun _ => (readNull_resp hb hxy).bind fun _ _ h => .at h) fun _ => ?_
  exact (readNull_resp ha hxy).bind fun _ _ h => deMember_resp hb _ _ h _ _ _

theorem memberIf_resp {l r : MRef τ} {isDflt : l.α → Bool} {RU : Bool} {Q : l.α → l.α → Prop} {Q' : r.α → r.α → Prop}
    (hl : RefResp R l Q) (hr : RefResp R r Q') : RespM R (memberIf l r isDflt RU) := by
  intro t0 t1 h01 s e u
  cases RU with
  | true => exact deMemberIf_resp hr hl h01 s e u
  | false => exact deMemberIf_resp hl hr h01 s e u

theorem deAMember_resp {m : MRef τ} {Q : m.α → m.α → Prop} (h : RefResp R m Q) : Resp R (amember m).de := by
  intro t0 t1 h01 s e
  refine (h.resp _ _ (h.get _ _ h01) _ _).bind ?_
  rintro ⟨x, r⟩ ⟨y, r'⟩ ⟨hxy, heq⟩
  cases heq
  exact .at (h.set _ _ _ _ hxy h01)

theorem deAMemberP_resp {m : MRef τ} (h : ∀ x t0 t1, R t0 t1 → R (m.set x t0) (m.set x t1)) : Resp R (amemberP m).de := by
  intro t0 t1 h01 s e
  exact .skip fun d => .at (h _ _ _ h01)

theorem deAMemberIf_resp {a b : MRef τ} {Q : a.α → a.α → Prop} {Q' : b.α → b.α → Prop} (ha : RefResp R a Q) (hb : RefResp R b Q') :
    Resp R (deAMemberIf a b) := by
  intro t0 t1 h01 s e
  unfold deAMemberIf
  refine (deAMember_resp ha t0 t1 h01 s .fresh).bind ?_
  rintro ⟨x, r⟩ ⟨y, r'⟩ ⟨hxy, heq⟩
  cases heq
  refine .ite (fun _ => (readNull_resp hb hxy).bind fun _ _ h => .at h) fun _ => ?_
  exact (readNull_resp ha hxy).bind fun _ _ h => deAMember_resp hb _ _ h _ _

theorem amemberIf_resp {l r : MRef τ} {isDflt : l.α → Bool} {RU : Bool} {Q : l.α → l.α → Prop} {Q' : r.α → r.α → Prop}
    (hl : RefResp R l Q) (hr : RefResp R r Q') : Resp R (amemberIf l r isDflt RU).de := by
  cases RU with
  | true => exact deAMemberIf_resp hr hl
  | false => exact deAMemberIf_resp hl hr

end

/-! ### The course -/

theorem Spec.Desc.resp {c : Cfg} {α : Type} {S : Ser α} (h : Desc c S) : Resp (fun _ _ => True) S.de := by
  refine Desc.rec (motive_1 := fun {α} S _ => Resp (fun _ _ => True) S.de) (motive_2 := fun {τ} m _ => RespM (fun _ _ => True) m)
    (motive_3 := fun {τ} m _ => Resp (fun _ _ => True) m.de) ?_ ?_ ?_ ?_ ?_ ?_ ?_ ?_ ?_ ?_ ?_ ?_ ?_ ?_ ?_ h
  · intro α S h; exact overwrites_resp h fun _ => trivial
  · intro α F R; exact float_resp F R
  · intro serQ reqQ; exact rawQuoted_resp c serQ reqQ
  · intro α S serQ reqQ _ ih; exact quoted_resp ih
  · intro τ α dflt get set S _ ih
    exact memberValue_resp ih (fun _ _ _ => trivial) fun _ _ _ _ _ _ => trivial
  · intro α k N S _ ih
    intro v w _ s e
    have := fixed_resp (N := N) (k := k) (Q := fun _ _ _ => True) (fun _ _ => trivial) (fun _ => ih) v w (fun _ => trivial) s e
    revert this
    generalize (fixVecSer k N S).de v s e = a
    generalize (fixVecSer k N S).de w s e = b
    intro this
    cases this with
    | ok h => exact .ok ⟨trivial, h.2⟩
    | ub => exact .ub
    | fuel => exact .fuel
  · intro κ ν SK SV _ _ ih ih'
    intro v w _ s e
    have := field_resp ih ih' v w ⟨trivial, trivial⟩ s e
    revert this
    generalize (fieldSer SK SV).de v s e = a
    generalize (fieldSer SK SV).de w s e = b
    intro this
    cases this with
    | ok h => exact .ok ⟨trivial, h.2⟩
    | ub => exact .ub
    | fuel => exact .fuel
  · intro τ strict dflt L _ ih; exact object_resp (fun _ => trivial) ih
  · intro τ dflt L _ ih; exact objectArray_resp (fun _ => trivial) ih
  · intro τ m _ ih
    exact deMember_resp (Q := fun _ _ => True) ⟨fun _ => trivial, ih, fun _ _ _ => trivial, fun _ _ _ _ _ _ => trivial⟩
  · intro τ m; exact deMemberP_resp fun _ _ _ _ => trivial
  · intro τ l r isDflt RU _ _ ih ih'
    exact memberIf_resp (Q := fun _ _ => True) (Q' := fun _ _ => True)
      ⟨fun _ => trivial, ih, fun _ _ _ => trivial, fun _ _ _ _ _ _ => trivial⟩
      ⟨fun _ => trivial, ih', fun _ _ _ => trivial, fun _ _ _ _ _ _ => trivial⟩
  · intro τ m _ ih
    exact deAMember_resp (Q := fun _ _ => True) ⟨fun _ => trivial, ih, fun _ _ _ => trivial, fun _ _ _ _ _ _ => trivial⟩
  · intro τ m; exact deAMemberP_resp fun _ _ _ _ => trivial
  · intro τ l r isDflt RU _ _ ih ih'
    exact amemberIf_resp (Q := fun _ _ => True) (Q' := fun _ _ => True)
      ⟨fun _ => trivial, ih, fun _ _ _ => trivial, fun _ _ _ _ _ _ => trivial⟩
      ⟨fun _ => trivial, ih', fun _ _ _ => trivial, fun _ _ _ _ _ _ => trivial⟩

/-! ### The parts -/

/-- A member of the list, and the part `π` of the member `m`. -/
theorem refResp_of {c : Cfg} {τ β : Type} {l : List (MRef τ)} (hf : Fields l) (hu : ∀ x ∈ l, Desc c x.ser) {m : MRef τ} (hm : m ∈ l)
    {π : m.α → β} (hπ : Resp (fun a b => π a = π b) m.ser.de) {x : MRef τ} (hx : x ∈ l) :
    ∃ Q, RefResp (fun t0 t1 => π (m.get t0) = π (m.get t1)) x Q := by
  by_cases h : x = m
  · subst h
    refine ⟨fun a b => π a = π b, fun _ => rfl, hπ, fun _ _ h => h, fun x0 x1 t0 t1 h _ => ?_⟩
    rw [hf.get_set x hm, hf.get_set x hm]
    exact h
  · have hap : ∀ y t, m.get (x.set y t) = m.get t := by
      have hs := hf.apart
      clear hf hu hπ
      induction l with
      | nil => cases hm
      | cons a l ih =>
        rw [List.pairwise_cons] at hs
        rcases List.mem_cons.mp hm with rfl | hm'
        · rcases List.mem_cons.mp hx with rfl | hx'
          · exact absurd rfl h
          · exact (hs.1 x hx').1
        · rcases List.mem_cons.mp hx with rfl | hx'
          · exact (hs.1 m hm').2.1
          · exact ih hm' hx' hs.2
    refine ⟨fun _ _ => True, fun _ => trivial, (hu x hx).resp, fun _ _ _ => trivial, fun x0 x1 t0 t1 _ h => ?_⟩
    rw [hap, hap]
    exact h

theorem slot_resp {τ : Type} {R : τ → τ → Prop} {x : Slot τ} (h : ∀ m ∈ x.refs, ∃ Q, RefResp R m Q) : RespM R x.toMember := by
  cases x with
  | one en =>
    cases en with
    | mem m =>
      obtain ⟨Q, hQ⟩ := h m (by simp [Slot.refs, Entry.ref])
      exact deMember_resp hQ
    | prop m =>
      obtain ⟨Q, hQ⟩ := h m (by simp [Slot.refs, Entry.ref])
      exact deMemberP_resp fun x t0 t1 h => hQ.set x x t0 t1 (hQ.refl x) h
  | alt l r d RU =>
    obtain ⟨Q, hQ⟩ := h l (by simp [Slot.refs])
    obtain ⟨Q', hQ'⟩ := h r (by simp [Slot.refs])
    exact memberIf_resp hQ hQ'

theorem slot_aresp {τ : Type} {R : τ → τ → Prop} {x : Slot τ} (h : ∀ m ∈ x.refs, ∃ Q, RefResp R m Q) : Resp R x.toAMember.de := by
  cases x with
  | one en =>
    cases en with
    | mem m =>
      obtain ⟨Q, hQ⟩ := h m (by simp [Slot.refs, Entry.ref])
      exact deAMember_resp hQ
    | prop m =>
      obtain ⟨Q, hQ⟩ := h m (by simp [Slot.refs, Entry.ref])
      exact deAMemberP_resp fun x t0 t1 h => hQ.set x x t0 t1 (hQ.refl x) h
  | alt l r d RU =>
    obtain ⟨Q, hQ⟩ := h l (by simp [Slot.refs])
    obtain ⟨Q', hQ'⟩ := h r (by simp [Slot.refs])
    exact amemberIf_resp hQ hQ'

theorem OutRel.mono {α β : Type} {R Q : α → β → Prop} {a : Out α} {b : Out β} (h : OutRel R a b) (hq : ∀ x y, R x y → Q x y) : OutRel Q a b := by
  cases h with
  | ok h => exact .ok (hq _ _ h)
  | ub => exact .ub
  | fuel => exact .fuel

theorem Spec.View.resp {c : Cfg} {α β : Type} {S : Ser α} {π : α → β} (h : View c S π) : Resp (fun a b => π a = π b) S.de := by
  induction h with
  | whole =>
    intro v0 v1 h s e
    cases h
    exact .rfl' (fun _ => ⟨rfl, rfl⟩) _
  | quoted _ ih => exact quoted_resp ih
  | memberValue hgs _ ih => exact memberValue_resp ih (fun _ _ h => h) fun _ _ _ _ h _ => by dsimp only; rw [hgs, hgs]; exact h
  | @element α β k N S π i hu _ ih =>
    intro v w h s e
    have := fixed_resp (N := N) (k := k) (S := S) (Q := fun j a b => j = i → π a = π b) (fun _ _ _ => rfl) (fun j => ?_) v w
      (fun j hj => by
        have : j = i := Fin.ext hj
        subst this; exact h) s e
    · exact this.mono fun x y hxy => ⟨hxy.1 i rfl, hxy.2⟩
    · by_cases hj : j = i
      · intro a b hab s e
        exact (ih a b (hab hj) s e).mono fun x y hxy => ⟨fun _ => hxy.1, hxy.2⟩
      · intro a b hab s e
        exact (hu.resp a b trivial s e).mono fun x y hxy => ⟨fun h => absurd h hj, hxy.2⟩
  | key hu _ ih =>
    intro v w h s e
    exact (field_resp ih hu.resp v w ⟨h, trivial⟩ s e).mono fun x y hxy => ⟨hxy.1.1, hxy.2⟩
  | value hu _ ih =>
    intro v w h s e
    exact (field_resp hu.resp ih v w ⟨trivial, h⟩ s e).mono fun x y hxy => ⟨hxy.1.2, hxy.2⟩
  | member hf hu hm _ ih =>
    refine object_resp (fun _ => rfl) fun m' hm' => ?_
    obtain ⟨x, hx, rfl⟩ := List.mem_map.mp hm'
    exact slot_resp fun m'' h'' => refResp_of hf hu hm ih (List.mem_flatMap.mpr ⟨x, hx, h''⟩)
  | amember hf hu hm _ ih =>
    refine objectArray_resp (fun _ => rfl) fun m' hm' => ?_
    obtain ⟨x, hx, rfl⟩ := List.mem_map.mp hm'
    exact slot_aresp fun m'' h'' => refResp_of hf hu hm ih (List.mem_flatMap.mpr ⟨x, hx, h''⟩)

end Wjson
