import Verif.Model.Object
import Verif.Spec.Fields
import Verif.Proofs.Array
/-
Objects: safety, reading, writing.
-/
namespace Wjson
open Spec

section
variable {τ : Type} {c : Cfg} {strict : Bool}

/-! ### Safety -/

/-- Like `SafeOut` for `unserialize_member`. -/
def MSafe (U : Prop) (m : Member τ) : Prop :=
  ∀ t s e u, (m.de t s e u = .ub ∧ U) ∨
    ∃ t' p e' u', m.de t s e u = .ok (t', p, e', u') ∧ p <:+ s ∧ EStep s.length e e'

theorem nameLoop_suffix (n s : Bytes) : (nameLoop n s).2 <:+ s := by
  induction n generalizing s with
  | nil => exact List.suffix_refl _
  | cons x n ih =>
    cases s with
    | nil => exact List.suffix_refl _
    | cons b s =>
      simp only [nameLoop]
      split
      · exact (ih s).trans (suffix_cons b s)
      · exact List.suffix_refl _

theorem memberName_safe (name s : Bytes) (e : EPtr) (u : Bool) :
    (memberName name s e u).1 <:+ s ∧ EStep s.length e (memberName name s e u).2.1 := by
  unfold memberName
  cases s with
  | nil => exact ⟨List.suffix_refl _, .create (by decide) e _ (by omega) (by simp)⟩
  | cons b t =>
    simp only
    split
    · exact ⟨List.nil_suffix, .create (by decide) e _ (by omega) (by omega)⟩
    · have hp := (nameLoop_suffix name t).trans (suffix_cons b t)
      generalize nameLoop name t = r at hp ⊢
      obtain ⟨r1, p⟩ := r
      simp only at hp ⊢
      cases p with
      | nil => exact ⟨List.nil_suffix, .create (by decide) e _ (by omega) (by omega)⟩
      | cons b' p =>
        simp only
        split
        · exact ⟨List.suffix_refl _, .refl _ e⟩
        · have hp' := suffix_of_cons hp
          have hp2 := ((parseSpace_scan p).suffix e).trans hp'
          have he2 := (EStep.of_scan (parseSpace_scan p) e).mono hp'.length_le
          generalize parseSpace p e = r2 at hp2 he2 ⊢
          obtain ⟨p2, e2⟩ := r2
          simp only at hp2 he2 ⊢
          cases p2 with
          | nil => exact ⟨List.nil_suffix, he2.trans (.create (by decide) e2 _ (by omega) (by omega))⟩
          | cons b2 p2 =>
            have hl := hp2.length_le
            simp only
            split
            · exact ⟨List.nil_suffix, he2.trans (.create (by decide) e2 _ (by omega) (by omega))⟩
            · have hp3 := suffix_of_cons hp2
              have hp4 := ((parseSpace_scan p2).suffix e2).trans hp3
              have he4 := he2.trans ((EStep.of_scan (parseSpace_scan p2) e2).mono hp3.length_le)
              generalize parseSpace p2 e2 = r3 at hp4 he4 ⊢
              obtain ⟨p4, e4⟩ := r3
              simp only at hp4 he4 ⊢
              cases p4 with
              | nil => exact ⟨List.nil_suffix, he4.trans (.create (by decide) e4 _ (by omega) (by omega))⟩
              | cons b4 p4 => exact ⟨hp4, he4⟩

theorem deMember_safe {U : Prop} {m : MRef τ} (h : Safe U m.ser.de) : MSafe U (member m) := by
  intro t s e u
  show (deMember m t s e u = _ ∧ _) ∨ ∃ t' p e' u', deMember m t s e u = _ ∧ _
  unfold deMember
  have hn := memberName_safe m.name s e u
  generalize memberName m.name s e u = r at hn ⊢
  obtain ⟨p, e1, u1⟩ := r
  cases u1 with
  | false => exact .inr ⟨t, p, e1, false, rfl, hn.1, hn.2⟩
  | true =>
    simp only [Bool.not_true, Bool.false_eq_true, if_false]
    rcases h (m.get t) p e1 with ⟨h1, hu⟩ | ⟨v, q, e2, h1, h2, h3⟩
    · exact .inl ⟨by rw [h1]; rfl, hu⟩
    · exact .inr ⟨_, _, _, _, by rw [h1]; rfl, h2.trans hn.1, hn.2.trans (h3.mono hn.1.length_le)⟩

theorem deMemberP_safe {U : Prop} {m : MRef τ} (h : Safe U m.ser.de) : MSafe U (memberP m) := by
  intro t s e u
  show (deMemberP m t s e u = _ ∧ _) ∨ ∃ t' p e' u', deMemberP m t s e u = _ ∧ _
  unfold deMemberP
  have hn := memberName_safe m.name s e u
  generalize memberName m.name s e u = r at hn ⊢
  obtain ⟨p, e1, u1⟩ := r
  cases u1 with
  | false => exact .inr ⟨t, p, e1, false, rfl, hn.1, hn.2⟩
  | true =>
    simp only [Bool.not_true, Bool.false_eq_true, if_false]
    rcases h m.ser.dflt p e1 with ⟨h1, hu⟩ | ⟨v, q, e2, h1, h2, h3⟩
    · exact .inl ⟨by rw [h1]; rfl, hu⟩
    · exact .inr ⟨_, _, _, _, by rw [h1]; rfl, h2.trans hn.1, hn.2.trans (h3.mono hn.1.length_le)⟩

theorem Entry.safe {U : Prop} {en : Entry τ} (h : Safe U en.ref.ser.de) : MSafe U en.toMember := by
  cases en with
  | mem m => exact deMember_safe h
  | prop m => exact deMemberP_safe h

theorem readNull_safe {U : Prop} {m : MRef τ} (h : Safe U m.ser.de) (t : τ) :
    (readNull m t = .ub ∧ U) ∨ ∃ t', readNull m t = .ok t' := by
  unfold readNull
  rcases h (m.get t) b!"null" .null with ⟨h1, hu⟩ | ⟨v, q, e2, h1, _⟩
  · exact .inl ⟨by rw [h1]; rfl, hu⟩
  · exact .inr ⟨_, by rw [h1]; rfl⟩

theorem deMemberIf_safe {U : Prop} {a b : MRef τ} (ha : Safe U a.ser.de) (hb : Safe U b.ser.de) (t : τ) (s : Bytes)
    (e : EPtr) (u : Bool) :
    (deMemberIf a b t s e u = .ub ∧ U) ∨
      ∃ t' p e' u', deMemberIf a b t s e u = .ok (t', p, e', u') ∧ p <:+ s ∧ EStep s.length e e' := by
  unfold deMemberIf
  rcases deMember_safe ha t s .fresh u with ⟨h1, hu⟩ | ⟨t1, p, e1, u1, h1, h2, h3⟩
  · replace h1 : deMember a t s .fresh u = .ub := h1
    exact .inl ⟨by rw [h1]; rfl, hu⟩
  · replace h1 : deMember a t s .fresh u = .ok (t1, p, e1, u1) := h1
    rw [h1, Out.bind_ok]
    simp only
    split
    · rcases readNull_safe hb t1 with ⟨h4, hu⟩ | ⟨t2, h4⟩
      · exact .inl ⟨by rw [h4]; rfl, hu⟩
      · exact .inr ⟨_, _, _, _, by rw [h4]; rfl, h2, .refl _ e⟩
    · rcases readNull_safe ha t1 with ⟨h4, hu⟩ | ⟨t2, h4⟩
      · exact .inl ⟨by rw [h4]; rfl, hu⟩
      · rw [h4, Out.bind_ok]
        exact deMember_safe hb t2 s e u1

theorem memberIf_safe {U : Prop} {l r : MRef τ} (hl : Safe U l.ser.de) (hr : Safe U r.ser.de) (isDflt : l.α → Bool)
    (RU : Bool) : MSafe U (memberIf l r isDflt RU) := by
  intro t s e u
  cases RU with
  | true => exact deMemberIf_safe hr hl t s e u
  | false => exact deMemberIf_safe hl hr t s e u

theorem parseMember_safe (s : Bytes) (e : EPtr) :
    (parseMember c s e = .ub ∧ c.past = none) ∨ ∃ p e', parseMember c s e = .ok (p, e') ∧ p <:+ s ∧ EStep s.length e e' := by
  rcases parseMember_scan c s with ⟨p, ev, h1, h2⟩ | ⟨h1, h2⟩
  · exact .inr ⟨p, _, h1 e, h2.suffix, ev, rfl, fun x hx => ⟨(h2.err x hx).1, (h2.err x hx).2.2⟩⟩
  · exact .inl ⟨h1 e, h2⟩

theorem searchMembers_safe {U : Prop} (hc : c.past = none → U) {l : List (Member τ)} (hl : ∀ m ∈ l, MSafe U m) (t : τ)
    (s : Bytes) (e : EPtr) : SafeOut U s e (searchMembers c strict l t s e) := by
  induction l generalizing t s e with
  | nil =>
    simp only [searchMembers]
    split
    · rcases parseMember_safe (c := c) s e with ⟨h1, hu⟩ | ⟨p, e', h1, h2, h3⟩
      · exact .inl ⟨by rw [h1]; rfl, hc hu⟩
      · rw [h1, Out.bind_ok]
        exact .ok (((parseSpace_scan p).suffix e').trans h2)
          (h3.trans ((EStep.of_scan (parseSpace_scan p) e').mono h2.length_le))
    · cases s with
      | nil => exact .err (by decide) (by omega) (by simp)
      | cons b p =>
        simp only
        exact .ite (fun _ => .ok (List.suffix_refl _) (.refl _ e)) (fun _ => .err (by decide) (by omega) (by omega))
  | cons m l ih =>
    simp only [searchMembers]
    rcases hl m (by simp) t s e false with ⟨h1, hu⟩ | ⟨t1, p, e1, u1, h1, h2, h3⟩
    · exact .inl ⟨by rw [h1]; rfl, hu⟩
    · rw [h1, Out.bind_ok]
      simp only
      exact .ite (fun _ => .ok h2 h3) (fun _ => SafeOut.mono id h2 h3 (ih (fun m hm => hl m (by simp [hm])) _ _ _))

theorem skipLoopF_safe (n : Nat) (s : Bytes) (e : EPtr) (hn : s.length < n) :
    (skipLoopF c strict n s e = .ub ∧ c.past = none) ∨
      ∃ p e', skipLoopF c strict n s e = .ok (p, e') ∧ p <:+ s ∧ EStep s.length e e' := by
  induction n generalizing s e with
  | zero => omega
  | succ n ih =>
    simp only [skipLoopF]
    rcases parseMember_safe (c := c) s e with ⟨h1, hu⟩ | ⟨p, e', h1, h2, h3⟩
    · exact .inl ⟨by rw [h1]; rfl, hu⟩
    · rw [h1, Out.bind_ok]
      simp only
      have hp2 := ((parseSpace_scan p).suffix e').trans h2
      have he2 := h3.trans ((EStep.of_scan (parseSpace_scan p) e').mono h2.length_le)
      generalize parseSpace p e' = r2 at hp2 he2 ⊢
      obtain ⟨p2, e2⟩ := r2
      simp only at hp2 he2 ⊢
      cases p2 with
      | nil => exact .inr ⟨_, _, rfl, List.nil_suffix, he2.trans (.create (by decide) e2 _ (by omega) (by omega))⟩
      | cons b p2 =>
        have hl := hp2.length_le
        simp only
        split
        · split
          · exact .inr ⟨_, _, rfl, hp2, he2⟩
          · exact .inr ⟨_, _, rfl, List.nil_suffix, he2.trans (.create (by decide) e2 _ (by omega) (by omega))⟩
        · split
          · exact .inr ⟨_, _, rfl, List.nil_suffix, he2.trans (.create (by decide) e2 _ (by omega) (by omega))⟩
          · have hp3 := suffix_of_cons hp2
            have hp4 := ((parseSpace_scan p2).suffix e2).trans hp3
            have hs4 := ((parseSpace_scan p2).suffix e2).length_le
            have he4 := he2.trans ((EStep.of_scan (parseSpace_scan p2) e2).mono hp3.length_le)
            simp only [List.length_cons] at hl
            rcases ih (parseSpace p2 e2).1 (parseSpace p2 e2).2 (by omega) with ⟨h5, hu⟩ | ⟨p5, e5, h5, h6, h7⟩
            · exact .inl ⟨h5, hu⟩
            · exact .inr ⟨p5, e5, h5, h6.trans hp4, he4.trans (h7.mono hp4.length_le)⟩

theorem skipMembers_safe (s : Bytes) (e : EPtr) :
    (skipMembers c strict s e = .ub ∧ c.past = none) ∨
      ∃ p e', skipMembers c strict s e = .ok (p, e') ∧ p <:+ s ∧ EStep s.length e e' := by
  unfold skipMembers
  have hp := (parseSpace_scan s).suffix e
  have he := EStep.of_scan (parseSpace_scan s) e
  generalize parseSpace s e = r at hp he ⊢
  obtain ⟨p, e1⟩ := r
  simp only at hp he ⊢
  cases p with
  | nil => exact .inr ⟨_, _, rfl, List.nil_suffix, he.trans (.create (by decide) e1 _ (by omega) (by omega))⟩
  | cons b p =>
    simp only
    split
    · exact .inr ⟨_, _, rfl, hp, he⟩
    · rcases skipLoopF_safe (c := c) (strict := strict) (p.length + 2) (b :: p) e1 (by simp) with
        ⟨h5, hu⟩ | ⟨p5, e5, h5, h6, h7⟩
      · exact .inl ⟨h5, hu⟩
      · exact .inr ⟨p5, e5, h5, h6.trans hp, he.trans (h7.mono hp.length_le)⟩

theorem membersEnd_safe {U : Prop} (t : τ) (s : Bytes) (e : EPtr) : SafeOut U s e (membersEnd t s e) := by
  unfold membersEnd
  cases s with
  | nil => exact .err (by decide) (by omega) (by simp)
  | cons b p =>
    exact .ite (fun _ => .err (by decide) (by omega) (by omega)) (fun _ => .ok (List.suffix_refl _) (.refl _ e))

theorem objectEnd_safe {U : Prop} (t : τ) (s : Bytes) (e : EPtr) : SafeOut U s e (objectEnd t s e) := by
  unfold objectEnd
  cases s with
  | nil => exact .err (by decide) (by omega) (by simp)
  | cons b p =>
    exact .ite (fun _ => .err (by decide) (by omega) (by omega)) (fun _ => .ok (suffix_cons b p) (.refl _ e))

theorem membersF_safe {U : Prop} (hc : c.past = none → U) {L : List (Member τ)} (hL : ∀ m ∈ L, MSafe U m) (n : Nat)
    {l : List (Member τ)} (hl : ∀ m ∈ l, MSafe U m) (t : τ) (s : Bytes) (e : EPtr) (hn : s.length < n) :
    SafeOut U s e (membersF c strict L n l t s e) := by
  induction n generalizing l t s e with
  | zero => omega
  | succ n ih =>
    cases l with
    | nil =>
      simp only [membersF]
      rcases skipMembers_safe (c := c) (strict := strict) s e with ⟨h1, hu⟩ | ⟨p, e', h1, h2, h3⟩
      · exact .inl ⟨by rw [h1]; rfl, hc hu⟩
      · rw [h1, Out.bind_ok]
        exact .ok h2 h3
    | cons m l =>
      simp only [membersF]
      rcases hl m (by simp) t s e false with ⟨h1, hu⟩ | ⟨t1, p, e1, u1, h1, h2, h3⟩
      · exact .inl ⟨by rw [h1]; rfl, hu⟩
      · rw [h1, Out.bind_ok]
        simp only
        have hx : SafeOut U s e (if u1 = true then .ok (t1, p, e1) else searchMembers c strict L t1 p e1) :=
          .ite (fun _ => .ok h2 h3) (fun _ => SafeOut.mono id h2 h3 (searchMembers_safe hc hL t1 p e1))
        refine SafeOut.bind hx ?_
        intro t2 p2 e2 _ hp2 he2
        simp only
        have hp3 := ((parseSpace_scan p2).suffix e2).trans hp2
        have he3 := he2.trans ((EStep.of_scan (parseSpace_scan p2) e2).mono hp2.length_le)
        generalize parseSpace p2 e2 = r3 at hp3 he3 ⊢
        obtain ⟨p3, e3⟩ := r3
        simp only at hp3 he3 ⊢
        cases p3 with
        | nil => exact .err' he3 (by decide) (by omega) (by omega)
        | cons b p3 =>
          have hlen := hp3.length_le
          simp only [List.length_cons] at hlen
          simp only
          refine .ite (fun _ => ?_) (fun _ => SafeOut.mono id hp3 he3 (membersEnd_safe _ _ _))
          have hp4 := suffix_of_cons hp3
          have hp5 := ((parseSpace_scan p3).suffix e3).trans hp4
          have hl5 := ((parseSpace_scan p3).suffix e3).length_le
          have he5 := he3.trans ((EStep.of_scan (parseSpace_scan p3) e3).mono hp4.length_le)
          refine SafeOut.bind (SafeOut.mono id hp5 he5 (ih ?_ _ _ _ (by omega))) ?_
          · intro m' hm'
            cases u1 with
            | true => exact hl m' (by simp only [if_true] at hm'; simp [hm'])
            | false => exact hl m' (by simpa using hm')
          · intro t6 p6 e6 _ hp6 he6
            exact SafeOut.mono id hp6 he6 (membersEnd_safe _ _ _)

theorem objectBody_safe {U : Prop} (hc : c.past = none → U) {L : List (Member τ)} (hL : ∀ m ∈ L, MSafe U m) (t : τ)
    (s : Bytes) (e : EPtr) : SafeOut U s e (objectBody c strict L t s e) := by
  unfold objectBody
  have hp := (parseSpace_scan s).suffix e
  have he := EStep.of_scan (parseSpace_scan s) e
  generalize parseSpace s e = r at hp he ⊢
  obtain ⟨p, e1⟩ := r
  simp only at hp he ⊢
  cases p with
  | nil => exact .err' he (by decide) (by omega) (by omega)
  | cons b q =>
    simp only
    refine .ite (fun _ => ?_) (fun _ => SafeOut.mono id hp he (objectEnd_safe _ _ _))
    refine SafeOut.bind (SafeOut.mono id hp he (membersF_safe hc hL _ hL _ _ _ (by simp))) ?_
    intro t2 p2 e2 _ hp2 he2
    simp only
    cases p2 with
    | nil => exact .err' he2 (by decide) (by omega) (by omega)
    | cons b2 p2 =>
      simp only
      have hp3 := ((parseSpace_scan (b2 :: p2)).suffix e2).trans hp2
      have he3 := he2.trans ((EStep.of_scan (parseSpace_scan (b2 :: p2)) e2).mono hp2.length_le)
      generalize parseSpace (b2 :: p2) e2 = r3 at hp3 he3 ⊢
      obtain ⟨p3, e3⟩ := r3
      simp only at hp3 he3 ⊢
      cases p3 with
      | nil => exact .err' he3 (by decide) (by omega) (by omega)
      | cons b3 p3 => exact SafeOut.mono id hp3 he3 (objectEnd_safe _ _ _)

/-- Reading an object: undefined only when the byte after the text is not
readable, or is a closing bracket. -/
theorem deObject_safe {U : Prop} (hc : c.past = none ∨ c.past = some c%']' → U) {dflt : τ} {L : List (Member τ)}
    (hL : ∀ m ∈ L, MSafe U m) : Safe U (deObject c strict dflt L) := by
  intro t s e
  unfold deObject
  refine .ite (fun _ => .scan (parseNull_scan s) _) (fun _ => ?_)
  cases s with
  | nil => exact .err (by decide) (by omega) (by simp)
  | cons b p =>
    refine .ite (fun _ => ?_) (fun _ => ?_)
    · refine .ite (fun _ => ?_) (fun _ => .err (by decide) (by omega) (by omega))
      simp only
      have hp := ((parseSpace_scan p).suffix e).trans (suffix_cons b p)
      have he := (EStep.of_scan (parseSpace_scan p) e).mono (suffix_cons b p).length_le
      generalize parseSpace p e = r at hp he ⊢
      obtain ⟨q, e1⟩ := r
      simp only at hp he ⊢
      cases q with
      | nil =>
        unfold deref
        cases hpast : c.past with
        | none => exact .inl ⟨rfl, hc (.inl hpast)⟩
        | some z =>
          simp only [Out.bind_ok]
          refine .ite (fun _ => .err' he (by decide) (by omega) (by simp; omega)) (fun hz => ?_)
          have hz : z = c%']' := Classical.byContradiction hz
          exact .inl ⟨rfl, hc (.inr (by rw [hpast, hz]))⟩
      | cons b2 q =>
        have := hp.length_le
        simp only [deref_cons, Out.bind_ok]
        exact .ite (fun _ => .err' he (by decide) (by omega) (by omega)) (fun _ => .ok (suffix_of_cons hp) he)
    · exact SafeOut.mono id (suffix_cons b p) (.refl _ e) (objectBody_safe (fun h => hc (.inl h)) hL _ _ _)


theorem EPtr.Clean.create {e : EPtr} (h : e.Clean) {c : Code} (hc : c ≠ .ValidJSON) (m : Option Bytes) (t : Int) :
    (createError c e m t).failed = true := h.applyErr_failed (x := ⟨c, m, t⟩) hc

/-! ### Names -/

theorem nameLoop_match {n : Bytes} (hn : c%'"' ∉ n) (rest : Bytes) :
    nameLoop n (n ++ c%'"' :: rest) = ([], c%'"' :: rest) := by
  induction n with
  | nil => rfl
  | cons x n ih =>
    have hx : x ≠ c%'"' := fun h => hn (by simp [h])
    simp only [List.cons_append, nameLoop]
    rw [if_pos ⟨trivial, hx⟩]
    exact ih fun h => hn (by simp [h])

/-- The loop stops inside the text and does not report a match when the part of
the text before its first quote is not the name. -/
theorem nameLoop_differ {n k : Bytes} (hk : c%'"' ∉ k) (hne : n ≠ k) (rest : Bytes) :
    ∃ b p, (nameLoop n (k ++ c%'"' :: rest)).2 = b :: p ∧ (b ≠ c%'"' ∨ (nameLoop n (k ++ c%'"' :: rest)).1 ≠ []) := by
  induction n generalizing k with
  | nil =>
    cases k with
    | nil => exact absurd rfl hne
    | cons y k => exact ⟨y, _, rfl, .inl fun h => hk (by simp [h])⟩
  | cons x n ih =>
    cases k with
    | nil =>
      refine ⟨c%'"', rest, ?_, .inr ?_⟩ <;> simp [nameLoop]
    | cons y k =>
      simp only [List.cons_append, nameLoop]
      split
      · rename_i h
        exact ih (fun h' => hk (by simp [h'])) (fun h' => hne (by rw [h', h.1]))
      · exact ⟨_, _, rfl, .inr (by simp)⟩

theorem memberName_match {n g1 g2 v : Bytes} (hn : c%'"' ∉ n) (h1 : Gap g1) (h2 : Gap g2) (hv : Start v) (rest : Bytes)
    (e : EPtr) (u : Bool) :
    memberName n (quoted n ++ (g1 ++ c%':' :: (g2 ++ (v ++ rest)))) e u = (v ++ rest, e, true) := by
  unfold memberName quoted
  simp only [List.cons_append, List.append_assoc, List.nil_append, ne_eq, not_true, if_false]
  rw [nameLoop_match hn]
  simp only [ne_eq, not_true, or_self, if_false]
  rw [parseSpace_byte h1 (by decide)]
  simp only [ne_eq, not_true, if_false]
  rw [parseSpace_start h2 hv]
  obtain ⟨b, u', rfl, _⟩ := hv
  rfl

/-- A key is different from a name for the reader: the part of the key before
its first quote is not the name. -/
def KeyDiffers (n k : Bytes) : Prop := k.takeWhile (· ≠ c%'"') ≠ n

theorem takeWhile_quote (k rest : Bytes) :
    ∃ r, k ++ c%'"' :: rest = k.takeWhile (· ≠ c%'"') ++ c%'"' :: r ∧ c%'"' ∉ k.takeWhile (· ≠ c%'"') := by
  induction k with
  | nil => exact ⟨rest, rfl, by simp⟩
  | cons x k ih =>
    by_cases hx : x = c%'"'
    · subst hx
      exact ⟨k ++ c%'"' :: rest, by simp, by simp⟩
    · obtain ⟨r, h1, h2⟩ := ih
      refine ⟨r, ?_, ?_⟩
      · simp only [List.cons_append, h1, List.takeWhile_cons, decide_eq_true hx, if_true]
      · simp only [List.takeWhile_cons, decide_eq_true hx, if_true, List.mem_cons, not_or]
        exact ⟨fun h => hx h.symm, h2⟩

theorem memberName_differ {n k : Bytes} (hne : KeyDiffers n k) (rest : Bytes) (e : EPtr) (u : Bool) :
    memberName n (quoted k ++ rest) e u = (quoted k ++ rest, e, false) := by
  unfold memberName quoted
  simp only [List.cons_append, List.append_assoc, List.nil_append, ne_eq, not_true, if_false]
  obtain ⟨r, h1, h2⟩ := takeWhile_quote k rest
  rw [h1]
  obtain ⟨b, p, h3, h4⟩ := nameLoop_differ (n := n) h2 (fun h => hne h.symm) r
  generalize nameLoop n (k.takeWhile (· ≠ c%'"') ++ c%'"' :: r) = x at h3 h4 ⊢
  obtain ⟨x1, x2⟩ := x
  simp only at h3 h4 ⊢
  subst h3
  simp only
  rw [if_pos h4]

theorem xchar_cases {u : Bytes} (h : XChar u) : u = b!"\\\"" ∨ c%'"' ∉ u := by
  have hx : ∀ b : Byte, HexDigit b → b ≠ c%'"' := by unfold HexDigit; apply forall_byte; decide +kernel
  have hc : ∀ b : Byte, Cont b → b ≠ c%'"' := by unfold Cont; apply forall_byte; decide +kernel
  cases h with
  | raw h1 h2 h3 =>
    right
    obtain ⟨b, n, ts, rfl, hl, hn, ht⟩ := h1
    intro hm
    rcases List.mem_cons.mp hm with h | h
    · subst h
      have : n = 0 := by
        rcases hl with h | h | h | h | h | h
        · exact h.2
        all_goals exact absurd h.1 (by decide)
      subst this
      exact h2 (by rw [List.eq_nil_of_length_eq_zero hn])
    · exact hc _ (ht _ h) rfl
  | short h =>
    rename_i b
    by_cases hb : b = c%'"'
    · exact .inl (by rw [hb])
    · right
      simp only [List.mem_cons, List.not_mem_nil, or_false, not_or]
      exact ⟨by decide, fun h => hb h.symm⟩
  | uni h1 h2 h3 h4 =>
    right
    simp only [List.mem_cons, List.not_mem_nil, or_false, not_or]
    exact ⟨by decide, by decide, fun h => hx _ h1 h.symm, fun h => hx _ h2 h.symm, fun h => hx _ h3 h.symm,
      fun h => hx _ h4 h.symm⟩

/-- In a well-formed key a quote is preceded by a backslash. -/
theorem xchars_takeWhile {k : Bytes} (h : XChars k) :
    k.takeWhile (· ≠ c%'"') = k ∨ c%'\\' ∈ k.takeWhile (· ≠ c%'"') := by
  induction h with
  | nil => exact .inl rfl
  | @cons u t hu _ ih =>
    rcases xchar_cases hu with rfl | hq
    · right
      simp
    · have happ : (u ++ t).takeWhile (· ≠ c%'"') = u ++ t.takeWhile (· ≠ c%'"') := by
        rw [List.takeWhile_append_of_pos]
        intro a ha
        simp only [ne_eq, decide_eq_true_eq]
        rintro rfl
        exact hq ha
      rw [happ]
      rcases ih with ih | ih
      · exact .inl (by rw [ih])
      · exact .inr (by simp only [List.mem_append]; exact .inr ih)

theorem keyDiffers_of_plain {n k : Bytes} (hn : PlainName n) (hk : XChars k) (hne : k ≠ n) : KeyDiffers n k := by
  unfold KeyDiffers
  rcases xchars_takeWhile hk with h | h
  · rwa [h]
  · intro heq
    rw [heq] at h
    exact hn.2 h

theorem keyDiffers_of_noquote {n k : Bytes} (hk : c%'"' ∉ k) (hne : k ≠ n) : KeyDiffers n k := by
  unfold KeyDiffers
  have : k.takeWhile (· ≠ c%'"') = k := by
    rw [← List.append_nil k, List.takeWhile_append_of_pos]
    · simp
    · intro a ha
      simp only [ne_eq, decide_eq_true_eq]
      rintro rfl
      exact hk ha
  rwa [this]

/-! ### Reading members -/

/-- The entry `m` reads the member with key `k` and value text `v`; the change
of the target is `f`. -/
def MReads (m : Member τ) (k v : Bytes) (f : τ → τ) : Prop :=
  ∀ t g1 g2 rest e u, Gap g1 → Gap g2 → e.failed = false → Delim rest →
    m.de t (quoted k ++ (g1 ++ c%':' :: (g2 ++ (v ++ rest)))) e u = .ok (f t, rest, e, true)

/-- The same for one target: `t` becomes `t'`. -/
def MReadsAt (m : Member τ) (k v : Bytes) (t t' : τ) : Prop :=
  ∀ g1 g2 rest e u, Gap g1 → Gap g2 → e.failed = false → Delim rest →
    m.de t (quoted k ++ (g1 ++ c%':' :: (g2 ++ (v ++ rest)))) e u = .ok (t', rest, e, true)

/-- The entry `m` does not take the member with key `k`. -/
def MSkips (m : Member τ) (k : Bytes) : Prop :=
  ∀ t rest e u, m.de t (quoted k ++ rest) e u = .ok (t, quoted k ++ rest, e, false)

/-- An error at the end of the text, or the text goes on with something that is
neither white space nor a comma nor a brace. -/
def AfterBad (p : Bytes) (e e' : EPtr) : Prop :=
  (p = [] ∧ e'.failed = true) ∨ (e' = e ∧ parseSpace p e = (p, e) ∧ p.head? ≠ some c%',' ∧ p.head? ≠ some c%'}')

/-- The entry `m` takes the member with key `k` and cannot read its value: it
reports an error, or it stops where neither a comma nor a brace can follow. -/
def MBad (m : Member τ) (k v : Bytes) (t : τ) : Prop :=
  ∀ g1 g2 rest e u, Gap g1 → Gap g2 → e.Clean → Delim rest →
    ∃ t' p e', m.de t (quoted k ++ (g1 ++ c%':' :: (g2 ++ (v ++ rest)))) e u = .ok (t', p, e', true) ∧
      AfterBad p e e'

theorem Entry.reads {en : Entry τ} (hn : c%'"' ∉ en.ref.name) {v : Bytes} (hs : Start v) {x : en.ref.α}
    (hr : Reads en.ref.ser.de v x) : MReads en.toMember en.ref.name v (en.ref.set x) := by
  intro t g1 g2 rest e u h1 h2 he hd
  cases en with
  | mem m =>
    simp only [Entry.toMember, member, Entry.ref, deMember] at hr hn ⊢
    rw [memberName_match hn h1 h2 hs]
    simp only [Bool.not_true, Bool.false_eq_true, if_false]
    rw [hr (m.get t) rest e he hd]
    rfl
  | prop m =>
    simp only [Entry.toMember, memberP, Entry.ref, deMemberP] at hr hn ⊢
    rw [memberName_match hn h1 h2 hs]
    simp only [Bool.not_true, Bool.false_eq_true, if_false]
    rw [hr m.ser.dflt rest e he hd]
    rfl

theorem Entry.skips {en : Entry τ} {k : Bytes} (h : KeyDiffers en.ref.name k) : MSkips en.toMember k := by
  intro t rest e u
  cases en with
  | mem m =>
    simp only [Entry.toMember, member, Entry.ref, deMember] at h ⊢
    rw [memberName_differ h]
    rfl
  | prop m =>
    simp only [Entry.toMember, memberP, Entry.ref, deMemberP] at h ⊢
    rw [memberName_differ h]
    rfl

theorem parseMember_skip {k v g1 g2 rest : Bytes} (h : Skippable (k, v)) (h1 : Gap g1) (h2 : Gap g2) (hd : Delim rest)
    (e : EPtr) : parseMember c (quoted k ++ (g1 ++ c%':' :: (g2 ++ (v ++ rest)))) e = .ok (rest, e) := by
  obtain ⟨b, u, hv, hb⟩ := xvalue_head h.2
  have hst := valueStart_stop hb
  simp only at hv
  refine parseMember_acc_iff.mpr ⟨quoted k, g1, g2, b, u ++ rest, ⟨k, h.1, rfl⟩, h1, h2, ?_, hst.1, fun _ => hst.2.1, ?_⟩ e
  · simp [hv]
  · have := parseValue_acc_iff (c := c) (s := v ++ rest) (p := rest)
    have := this.mpr ⟨v, rfl, h.2, fun _ => hd.numFollow _⟩
    rw [hv] at this
    exact this

/-- How a list of members is read, seen from the cursor `l`; `none`: an error. -/
inductive Chain (strict : Bool) (L : List (Member τ)) : List (Member τ) → List (Bytes × Bytes) → τ → Option τ → Prop
  | done {l t} : Chain strict L l [] t (some t)
  | cur {m l k v t' items t r} : MReadsAt m k v t t' → Chain strict L l items t' r →
      Chain strict L (m :: l) ((k, v) :: items) t r
  | search {m l k v t' items t r pre m' post} : MSkips m k → L = pre ++ m' :: post → (∀ x ∈ pre, MSkips x k) →
      MReadsAt m' k v t t' → Chain strict L (m :: l) items t' r → Chain strict L (m :: l) ((k, v) :: items) t r
  | unknown {m l k v items t r} : strict = false → MSkips m k → (∀ x ∈ L, MSkips x k) → Skippable (k, v) →
      Chain strict L (m :: l) items t r → Chain strict L (m :: l) ((k, v) :: items) t r
  | unknownStrict {m l k v items t} : strict = true → MSkips m k → (∀ x ∈ L, MSkips x k) →
      Chain strict L (m :: l) ((k, v) :: items) t none
  | curBad {m l k v items t} : MBad m k v t → Chain strict L (m :: l) ((k, v) :: items) t none
  | searchBad {m l k v items t pre m' post} : MSkips m k → L = pre ++ m' :: post → (∀ x ∈ pre, MSkips x k) → MBad m' k v t →
      Chain strict L (m :: l) ((k, v) :: items) t none
  | past {items t} : strict = false → items ≠ [] → (∀ x ∈ items, Skippable x) → Chain strict L [] items t (some t)
  | pastStrict {items t} : strict = true → items ≠ [] → (∀ x ∈ items, Skippable x) → Chain strict L [] items t none

theorem searchMembers_found {pre post : List (Member τ)} {m : Member τ} {k v : Bytes} {t t' : τ}
    (hpre : ∀ x ∈ pre, MSkips x k) (hm : MReadsAt m k v t t') {g1 g2 rest : Bytes} {e : EPtr} (h1 : Gap g1) (h2 : Gap g2)
    (he : e.failed = false) (hd : Delim rest) :
    searchMembers c strict (pre ++ m :: post) t (quoted k ++ (g1 ++ c%':' :: (g2 ++ (v ++ rest)))) e = .ok (t', rest, e) := by
  induction pre with
  | nil =>
    simp only [List.nil_append, searchMembers]
    rw [hm g1 g2 rest e false h1 h2 he hd]
    rfl
  | cons x pre ih =>
    simp only [List.cons_append, searchMembers]
    rw [hpre x (by simp) t _ e false]
    simpa using ih fun y hy => hpre y (by simp [hy])

theorem searchMembers_missing {L : List (Member τ)} {k : Bytes} (hL : ∀ x ∈ L, MSkips x k) (t : τ) (rest : Bytes) (e : EPtr) :
    searchMembers c strict L t (quoted k ++ rest) e = searchMembers c strict [] t (quoted k ++ rest) e := by
  induction L with
  | nil => rfl
  | cons x L ih =>
    rw [searchMembers, hL x (by simp) t _ e false]
    simpa using ih fun y hy => hL y (by simp [hy])

/-- The text after a value: a gap and a brace or comma. -/
theorem parseSpace_close {g rest : Bytes} (hg : Gap g) (e : EPtr) :
    parseSpace (g ++ c%'}' :: rest) e = (c%'}' :: rest, e) := parseSpace_byte hg (by decide) rest e

theorem parseSpace_comma {g rest : Bytes} (hg : Gap g) (e : EPtr) :
    parseSpace (g ++ c%',' :: rest) e = (c%',' :: rest, e) := parseSpace_byte hg (by decide) rest e

theorem items_head {items : List (Bytes × Bytes)} {r : Bytes} (h : ItemsFrom items r) : ∃ u, r = c%'"' :: u := by
  cases h <;> exact ⟨_, rfl⟩

theorem parseSpace_items {items : List (Bytes × Bytes)} {g r rest : Bytes} (hg : Gap g) (h : ItemsFrom items r) (e : EPtr) :
    parseSpace (g ++ (r ++ rest)) e = (r ++ rest, e) := by
  obtain ⟨u, rfl⟩ := items_head h
  exact parseSpace_byte hg (by decide) _ e

theorem skipLoopF_items {items : List (Bytes × Bytes)} {r : Bytes} (h : ItemsFrom items r)
    (hs : ∀ x ∈ items, Skippable x) (rest : Bytes) (e : EPtr) (n : Nat) (hn : r.length < n) :
    (strict = false → skipLoopF c strict n (r ++ rest) e = .ok (c%'}' :: rest, e)) ∧
    (strict = true → e.Clean → ∃ p e', skipLoopF c strict n (r ++ rest) e = .ok (p, e') ∧ e'.failed = true) := by
  induction h generalizing n with
  | @one k g1 g2 v g3 h1 h2 hv h3 =>
    cases n with
    | zero => omega
    | succ n =>
      have hd : Delim (g3 ++ c%'}' :: rest) := delim_gap h3 (by decide) rest
      have hp := parseMember_skip (c := c) (hs (k, v) (by simp)) h1 h2 hd e
      have heq : quoted k ++ (g1 ++ c%':' :: (g2 ++ (v ++ (g3 ++ b!"}")))) ++ rest =
          quoted k ++ (g1 ++ c%':' :: (g2 ++ (v ++ (g3 ++ c%'}' :: rest)))) := by simp
      simp only [skipLoopF]
      rw [heq, hp, Out.bind_ok]
      simp only
      rw [parseSpace_close h3]
      simp only [if_true]
      constructor
      · intro hst; simp [hst]
      · intro hst hc
        simp only [hst, Bool.not_true, Bool.false_eq_true, if_false]
        exact ⟨_, _, rfl, hc.create (by decide) _ _⟩
  | @more k g1 g2 v g3 g4 items r h1 h2 hv h3 h4 hi ih =>
    cases n with
    | zero => omega
    | succ n =>
      have hd : Delim (g3 ++ c%',' :: (g4 ++ (r ++ rest))) := delim_gap h3 (by decide) _
      have hp := parseMember_skip (c := c) (hs (k, v) (by simp)) h1 h2 hd e
      have heq : quoted k ++ (g1 ++ c%':' :: (g2 ++ (v ++ (g3 ++ c%',' :: (g4 ++ r))))) ++ rest =
          quoted k ++ (g1 ++ c%':' :: (g2 ++ (v ++ (g3 ++ c%',' :: (g4 ++ (r ++ rest)))))) := by simp
      simp only [skipLoopF]
      rw [heq, hp, Out.bind_ok]
      simp only
      rw [parseSpace_comma h3]
      have hcc : ¬ (c%',' = c%'}') := by decide
      simp only [hcc, if_false, ne_eq, not_true]
      rw [parseSpace_items h4 hi]
      simp only [List.length_append, List.length_cons, quoted] at hn
      exact ih (fun x hx => hs x (by simp [hx])) n (by omega)

theorem skipMembers_items {items : List (Bytes × Bytes)} {r : Bytes} (h : ItemsFrom items r)
    (hs : ∀ x ∈ items, Skippable x) (rest : Bytes) (e : EPtr) :
    (strict = false → skipMembers c strict (r ++ rest) e = .ok (c%'}' :: rest, e)) ∧
    (strict = true → e.Clean → ∃ p e', skipMembers c strict (r ++ rest) e = .ok (p, e') ∧ e'.failed = true) := by
  have hsp := parseSpace_items (rest := rest) .nil h e
  simp only [List.nil_append] at hsp
  unfold skipMembers
  rw [hsp]
  obtain ⟨u, hu⟩ := items_head h
  have hcc : ¬ (c%'"' = c%'}') := by decide
  have := skipLoopF_items (c := c) (strict := strict) h hs rest e ((u ++ rest).length + 2) (by simp [hu]; omega)
  subst hu
  simp only [List.cons_append, hcc, if_false]
  exact this

theorem searchMembers_bad {pre post : List (Member τ)} {m : Member τ} {k : Bytes} {t : τ} {u : Bytes} {e : EPtr}
    {x : τ × Bytes × EPtr} (hpre : ∀ y ∈ pre, MSkips y k) (hm : m.de t (quoted k ++ u) e false = .ok (x.1, x.2.1, x.2.2, true)) :
    searchMembers c strict (pre ++ m :: post) t (quoted k ++ u) e = .ok x := by
  induction pre with
  | nil =>
    simp only [List.nil_append, searchMembers]
    rw [hm]
    rfl
  | cons y pre ih =>
    simp only [List.cons_append, searchMembers]
    rw [hpre y (by simp) t _ e false]
    simpa using ih fun y hy => hpre y (by simp [hy])

/-- After a value that cannot be read there is an error. -/
theorem after_bad {p : Bytes} {e e' : EPtr} (he : e.Clean) (h : AfterBad p e e') (t : τ)
    (F : Bytes → EPtr → Out (τ × Bytes × EPtr)) : ∃ t2 p2 e2,
      (match (parseSpace p e').1 with
        | [] => Out.ok (t, [], createError .UnexpectedEndFragment (parseSpace p e').2)
        | b :: q => if b = c%',' then F q (parseSpace p e').2 else membersEnd t (b :: q) (parseSpace p e').2) = .ok (t2, p2, e2) ∧
      e2.failed = true := by
  rcases h with ⟨rfl, hf⟩ | ⟨rfl, hsp, hcomma, hclose⟩
  · simp only [parseSpace, spaceLoop]
    refine ⟨_, _, _, rfl, ?_⟩
    exact (EStep.create (n := 0) (c := .UnexpectedEndFragment) (by decide) _ none (by omega) (by omega)).failed_mono hf
  · rw [hsp]
    cases p with
    | nil => exact ⟨_, _, _, rfl, he.create (c := .UnexpectedEndFragment) (by decide) _ _⟩
    | cons b q =>
      simp only
      rw [if_neg (by simpa using hcomma)]
      simp only [membersEnd]
      rw [if_pos (by simpa using hclose)]
      exact ⟨_, _, _, rfl, he.create (c := .ExpectedOf) (by decide) _ _⟩

/-- One item: what the entry at the cursor or the search does. -/
theorem membersF_items {L l : List (Member τ)} {items : List (Bytes × Bytes)} {r : Bytes} {t : τ} {res : Option τ}
    (h : ItemsFrom items r) (hch : Chain strict L l items t res) (rest : Bytes) {e : EPtr} (he : e.failed = false) (n : Nat)
    (hn : r.length < n) :
    (∀ t', res = some t' → membersF c strict L n l t (r ++ rest) e = .ok (t', c%'}' :: rest, e)) ∧
    (res = none → e.Clean → ∃ t' p e', membersF c strict L n l t (r ++ rest) e = .ok (t', p, e') ∧ e'.failed = true) := by
  induction h generalizing l t n with
  | @one k g1 g2 v g3 h1 h2 hv h3 =>
    cases n with
    | zero => omega
    | succ n =>
      have hd : Delim (g3 ++ c%'}' :: rest) := delim_gap h3 (by decide) rest
      have hit : ItemsFrom [(k, v)] (quoted k ++ (g1 ++ c%':' :: (g2 ++ (v ++ (g3 ++ b!"}"))))) := .one h1 h2 hv h3
      have heq : quoted k ++ (g1 ++ c%':' :: (g2 ++ (v ++ (g3 ++ b!"}")))) ++ rest =
          quoted k ++ (g1 ++ c%':' :: (g2 ++ (v ++ (g3 ++ c%'}' :: rest)))) := by simp
      have hcc : ¬ (c%'}' = c%',') := by decide
      cases hch with
      | @cur m l _ _ t1 _ _ _ hm hrest =>
        have hres : res = some t1 := by
          cases hrest with
          | done => rfl
          | past _ h _ => exact absurd rfl h
          | pastStrict _ h _ => exact absurd rfl h
        subst hres
        refine ⟨?_, by simp⟩
        rintro t' ⟨⟩
        simp only [membersF]
        rw [heq, hm g1 g2 _ e false h1 h2 he hd]
        simp only [Out.bind_ok, if_true]
        rw [parseSpace_close h3]
        simp [membersEnd]
      | @search m l _ _ t1 _ _ _ pre m' post hsk hL hpre hm hrest =>
        have hres : res = some t1 := by
          cases hrest with
          | done => rfl
        subst hres
        refine ⟨?_, by simp⟩
        rintro t' ⟨⟩
        simp only [membersF]
        rw [heq, hsk t _ e false]
        simp only [Out.bind_ok, Bool.false_eq_true, if_false]
        rw [hL, searchMembers_found hpre hm h1 h2 he hd]
        simp only [Out.bind_ok]
        rw [parseSpace_close h3]
        simp [membersEnd]
      | @unknown m l _ _ _ _ _ hst hsk hL hskip hrest =>
        have hres : res = some t := by
          cases hrest with
          | done => rfl
        subst hres
        refine ⟨?_, by simp⟩
        rintro t' ⟨⟩
        simp only [membersF]
        rw [heq, hsk t _ e false]
        simp only [Out.bind_ok, Bool.false_eq_true, if_false]
        rw [searchMembers_missing hL]
        simp only [searchMembers, hst, Bool.not_false, if_true]
        rw [parseMember_skip hskip h1 h2 hd]
        simp only [Out.bind_ok]
        rw [parseSpace_close h3]
        have := parseSpace_close (rest := rest) .nil e
        simp only [List.nil_append] at this
        rw [this]
        simp [membersEnd]
      | @unknownStrict m l _ _ _ _ hst hsk hL =>
        refine ⟨by simp, fun _ hc => ?_⟩
        simp only [membersF]
        rw [heq, hsk t _ e false]
        simp only [Out.bind_ok, Bool.false_eq_true, if_false]
        rw [searchMembers_missing hL]
        have hq : ¬ (c%'"' = c%'}') := by decide
        simp only [searchMembers, hst, Bool.not_true, Bool.false_eq_true, if_false, quoted, List.cons_append, hq, Out.bind_ok]
        have hf := hc.create (c := .InvalidMember) (by decide) none
        simp only [parseSpace, spaceLoop]
        refine ⟨_, _, _, rfl, ?_⟩
        exact (EStep.create (n := 0) (c := .UnexpectedEndFragment) (by decide) _ none (by omega) (by omega)).failed_mono (hf _)
      | @curBad m l _ _ _ _ hm =>
        refine ⟨by simp, fun _ hc => ?_⟩
        simp only [membersF]
        obtain ⟨t', p, e', h5, h6⟩ := hm g1 g2 _ e false h1 h2 hc hd
        rw [heq, h5]
        simp only [Out.bind_ok, if_true]
        exact after_bad hc h6 t' fun q e => _
      | @searchBad m l _ _ _ _ pre m' post hsk hL hpre hm =>
        refine ⟨by simp, fun _ hc => ?_⟩
        simp only [membersF]
        obtain ⟨t', p, e', h5, h6⟩ := hm g1 g2 _ e false h1 h2 hc hd
        rw [heq, hsk t _ e false]
        simp only [Out.bind_ok, Bool.false_eq_true, if_false]
        have hse := searchMembers_bad (c := c) (strict := strict) (post := post) (x := (t', p, e')) hpre h5
        rw [← hL] at hse
        rw [hse]
        simp only [Out.bind_ok]
        exact after_bad hc h6 t' fun q e => _
      | past hst hne hs =>
        have := (skipMembers_items (c := c) (strict := strict) hit hs rest e).1 hst
        refine ⟨?_, by simp⟩
        rintro t' ⟨⟩
        simp only [membersF, this, Out.bind_ok]
      | pastStrict hst hne hs =>
        refine ⟨by simp, fun _ hc => ?_⟩
        obtain ⟨p, e', h5, h6⟩ := (skipMembers_items (c := c) (strict := strict) hit hs rest e).2 hst hc
        simp only [membersF, h5, Out.bind_ok]
        exact ⟨_, _, _, rfl, h6⟩
  | @more k g1 g2 v g3 g4 items r h1 h2 hv h3 h4 hi ih =>
    cases n with
    | zero => omega
    | succ n =>
      have hd : Delim (g3 ++ c%',' :: (g4 ++ (r ++ rest))) := delim_gap h3 (by decide) _
      have hit : ItemsFrom ((k, v) :: items) (quoted k ++ (g1 ++ c%':' :: (g2 ++ (v ++ (g3 ++ c%',' :: (g4 ++ r)))))) :=
        .more h1 h2 hv h3 h4 hi
      have heq : quoted k ++ (g1 ++ c%':' :: (g2 ++ (v ++ (g3 ++ c%',' :: (g4 ++ r))))) ++ rest =
          quoted k ++ (g1 ++ c%':' :: (g2 ++ (v ++ (g3 ++ c%',' :: (g4 ++ (r ++ rest)))))) := by simp
      have hn' : r.length < n := by
        simp only [List.length_append, List.length_cons, quoted] at hn
        omega
      -- what happens after the first item
      have hnext : ∀ (l' : List (Member τ)) (t1 : τ), Chain strict L l' items t1 res →
          (∀ t', res = some t' → (membersF c strict L n l' t1 (r ++ rest) e >>= fun y => membersEnd y.1 y.2.1 y.2.2) =
            .ok (t', c%'}' :: rest, e)) ∧
          (res = none → e.Clean → ∃ t' p e', (membersF c strict L n l' t1 (r ++ rest) e >>= fun y =>
            membersEnd y.1 y.2.1 y.2.2) = .ok (t', p, e') ∧ e'.failed = true) := by
        intro l' t1 hc1
        have ih' := ih hc1 n hn'
        refine ⟨fun t' ht' => ?_, fun hnone hc => ?_⟩
        · rw [ih'.1 t' ht', Out.bind_ok]
          simp [membersEnd]
        · obtain ⟨t2, p2, e2, h5, h6⟩ := ih'.2 hnone hc
          rw [h5, Out.bind_ok]
          rcases membersEnd_safe (U := False) t2 p2 e2 with ⟨_, h⟩ | ⟨t3, p3, e3, h7, _, h8⟩
          · exact h.elim
          · exact ⟨t3, p3, e3, h7, h8.failed_mono h6⟩
      cases hch with
      | @cur m l _ _ t1 _ _ _ hm hrest =>
        have := hnext l t1 hrest
        simp only [membersF]
        rw [heq, hm g1 g2 _ e false h1 h2 he hd]
        simp only [Out.bind_ok, if_true]
        rw [parseSpace_comma h3]
        simp only [if_true]
        rw [parseSpace_items h4 hi]
        exact this
      | @search m l _ _ t1 _ _ _ pre m' post hsk hL hpre hm hrest =>
        have := hnext (m :: l) t1 hrest
        simp only [membersF]
        rw [heq, hsk t _ e false]
        simp only [Out.bind_ok, Bool.false_eq_true, if_false]
        rw [hL, searchMembers_found hpre hm h1 h2 he hd, ← hL]
        simp only [Out.bind_ok]
        rw [parseSpace_comma h3]
        simp only [if_true]
        rw [parseSpace_items h4 hi]
        exact this
      | @unknown m l _ _ _ _ _ hst hsk hL hskip hrest =>
        have := hnext (m :: l) t hrest
        simp only [membersF]
        rw [heq, hsk t _ e false]
        simp only [Out.bind_ok, Bool.false_eq_true, if_false]
        rw [searchMembers_missing hL]
        simp only [searchMembers, hst, Bool.not_false, if_true]
        rw [parseMember_skip hskip h1 h2 hd]
        simp only [Out.bind_ok]
        rw [parseSpace_comma h3]
        have hco := parseSpace_comma (rest := g4 ++ (r ++ rest)) .nil e
        simp only [List.nil_append] at hco
        rw [hco]
        simp only [if_true]
        rw [parseSpace_items h4 hi]
        rw [hst] at this
        exact this
      | @unknownStrict m l _ _ _ _ hst hsk hL =>
        refine ⟨by simp, fun _ hc => ?_⟩
        simp only [membersF]
        rw [heq, hsk t _ e false]
        simp only [Out.bind_ok, Bool.false_eq_true, if_false]
        rw [searchMembers_missing hL]
        have hq : ¬ (c%'"' = c%'}') := by decide
        simp only [searchMembers, hst, Bool.not_true, Bool.false_eq_true, if_false, quoted, List.cons_append, hq, Out.bind_ok]
        have hf := hc.create (c := .InvalidMember) (by decide) none
        simp only [parseSpace, spaceLoop]
        refine ⟨_, _, _, rfl, ?_⟩
        exact (EStep.create (n := 0) (c := .UnexpectedEndFragment) (by decide) _ none (by omega) (by omega)).failed_mono (hf _)
      | @curBad m l _ _ _ _ hm =>
        refine ⟨by simp, fun _ hc => ?_⟩
        simp only [membersF]
        obtain ⟨t', p, e', h5, h6⟩ := hm g1 g2 _ e false h1 h2 hc hd
        rw [heq, h5]
        simp only [Out.bind_ok, if_true]
        exact after_bad hc h6 t' fun q e => _
      | @searchBad m l _ _ _ _ pre m' post hsk hL hpre hm =>
        refine ⟨by simp, fun _ hc => ?_⟩
        simp only [membersF]
        obtain ⟨t', p, e', h5, h6⟩ := hm g1 g2 _ e false h1 h2 hc hd
        rw [heq, hsk t _ e false]
        simp only [Out.bind_ok, Bool.false_eq_true, if_false]
        have hse := searchMembers_bad (c := c) (strict := strict) (post := post) (x := (t', p, e')) hpre h5
        rw [← hL] at hse
        rw [hse]
        simp only [Out.bind_ok]
        exact after_bad hc h6 t' fun q e => _
      | past hst hne hs =>
        have := (skipMembers_items (c := c) (strict := strict) hit hs rest e).1 hst
        refine ⟨?_, by simp⟩
        rintro t' ⟨⟩
        simp only [membersF, this, Out.bind_ok]
      | pastStrict hst hne hs =>
        refine ⟨by simp, fun _ hc => ?_⟩
        obtain ⟨p, e', h5, h6⟩ := (skipMembers_items (c := c) (strict := strict) hit hs rest e).2 hst hc
        simp only [membersF, h5, Out.bind_ok]
        exact ⟨_, _, _, rfl, h6⟩

/-- Reading a JSON object, item by item. -/
theorem deObject_items {L : List (Member τ)} {items : List (Bytes × Bytes)} {s : Bytes} {t : τ} {res : Option τ} {dflt : τ}
    (h : ObjText items s) (hch : Chain strict L L items t res) (rest : Bytes) {e : EPtr} (he : e.failed = false) :
    (∀ t', res = some t' → deObject c strict dflt L t (s ++ rest) e = .ok (t', rest, e)) ∧
    (res = none → e.Clean → ∃ t' p e', deObject c strict dflt L t (s ++ rest) e = .ok (t', p, e') ∧ e'.failed = true) := by
  have hnull : ∀ x, isNull (c%'{' :: x) = false := fun x => rfl
  have hopen : ∀ x, deObject c strict dflt L t (c%'{' :: x) e = objectBody c strict L t x e := by
    intro x; unfold deObject; rw [hnull]; simp
  cases h with
  | @empty g hg =>
    cases hch with
    | done =>
      refine ⟨?_, by simp⟩
      rintro t' ⟨⟩
      have heq : c%'{' :: (g ++ b!"}") ++ rest = c%'{' :: (g ++ c%'}' :: rest) := by simp
      rw [heq, hopen]
      unfold objectBody
      rw [parseSpace_close hg]
      simp [objectEnd]
    | past _ h _ => exact absurd rfl h
    | pastStrict _ h _ => exact absurd rfl h
  | @items g _ r hg hi =>
    have heq : c%'{' :: (g ++ r) ++ rest = c%'{' :: (g ++ (r ++ rest)) := by simp
    rw [heq, hopen]
    unfold objectBody
    rw [parseSpace_items hg hi]
    obtain ⟨u, hu⟩ := items_head hi
    have hm := membersF_items (c := c) hi hch rest he ((u ++ rest).length + 2) (by simp [hu]; omega)
    subst hu
    have hq : (c%'"' : Byte) ≠ c%'}' := by decide
    simp only [List.cons_append] at hm ⊢
    rw [if_pos hq]
    refine ⟨fun t' ht' => ?_, fun hnone hc => ?_⟩
    · rw [hm.1 t' ht', Out.bind_ok]
      have := parseSpace_close (rest := rest) .nil e
      simp only [List.nil_append] at this
      simp only [this]
      simp [objectEnd]
    · obtain ⟨t2, p2, e2, h5, h6⟩ := hm.2 hnone hc
      rw [h5, Out.bind_ok]
      simp only
      cases p2 with
      | nil =>
        exact ⟨_, _, _, rfl, (EStep.create (n := 0) (c := .UnexpectedEndFragment) (by decide) _ none (by omega)
          (by omega)).failed_mono h6⟩
      | cons b2 p2 =>
        simp only
        have he3 := EStep.of_scan (parseSpace_scan (b2 :: p2)) e2
        generalize parseSpace (b2 :: p2) e2 = r3 at he3 ⊢
        obtain ⟨p3, e3⟩ := r3
        simp only at he3 ⊢
        cases p3 with
        | nil =>
          exact ⟨_, _, _, rfl, (EStep.create (n := 0) (c := .UnexpectedEndFragment) (by decide) _ none (by omega)
            (by omega)).failed_mono (he3.failed_mono h6)⟩
        | cons b3 p3 =>
          rcases objectEnd_safe (U := False) t2 (b3 :: p3) e3 with ⟨_, h⟩ | ⟨t4, p4, e4, h7, _, h8⟩
          · exact h.elim
          · exact ⟨t4, p4, e4, h7, h8.failed_mono (he3.failed_mono h6)⟩

/-! ### Writing -/

theorem emitName_writes (n : Bytes) (k : Sink) : emitName n k = k.puts (quoted n ++ b!":") := by
  unfold emitName quoted
  simp only [List.cons_append, List.append_assoc, List.nil_append]
  rw [Sink.puts_cons]
  congr 1
  funext k1
  rw [Sink.puts_append]
  congr 1
  funext k2
  rw [Sink.puts_cons]
  congr 1
  funext k3
  exact Sink.put_eq k3 _

theorem emitMember_writes {m : MRef τ} {t : τ} {v : Bytes} (h : Writes m.ser.emit (m.get t) v) (k : Sink) :
    emitMember m t k = k.puts (quoted m.name ++ c%':' :: v) := by
  unfold emitMember
  rw [emitName_writes, Sink.puts_bind _ _ _ v (fun k => h k)]
  simp

theorem emitMembers_writes {L : List (Member τ)} {t : τ} {ts : List Bytes} (h : All2 (fun m s => ∀ k, m.emit t k = k.puts s) L ts)
    (k : Sink) : emitMembers L t k = k.puts (joinComma ts) := by
  induction h generalizing k with
  | nil => rfl
  | @cons m s L ts hm hL ih =>
    cases hL with
    | nil => exact hm k
    | @cons m' s' L ts hm' hL =>
      simp only [emitMembers, joinComma]
      rw [hm k, Sink.puts_append]
      congr 1
      funext k1
      rw [Sink.puts_cons]
      congr 1
      funext k2
      exact ih k2

theorem emitObject_writes {L : List (Member τ)} {t : τ} {ts : List Bytes} (h : All2 (fun m s => ∀ k, m.emit t k = k.puts s) L ts) :
    Writes (emitObject L) t (c%'{' :: joinComma ts ++ b!"}") := by
  intro k
  unfold emitObject
  simp only [List.cons_append]
  rw [Sink.puts_cons]
  congr 1
  funext k1
  rw [emitMembers_writes h, Sink.puts_append]
  congr 1
  funext k2
  exact Sink.put_eq k2 _

end

end Wjson
