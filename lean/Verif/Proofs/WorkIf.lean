import Verif.Spec.WorkIf
import Verif.Proofs.TypedWork4
/-
Lemmas for C86: the work on texts of at most `N` bytes, and containers and structures whose brackets and commas pay for what is
between them.
-/
namespace Wjson

/-- On texts of at most `N` bytes the counted reader `W` gives the results of `D`, with work at most `A` for every byte consumed
and `B` more. -/
def Within {α : Type} (N A B : Nat) (W : DeW α) (D : De α) : Prop :=
  ∀ v s e, s.length ≤ N → Cost (fun r k => Pays A B s r.2.1 k) (W v s e) (D v s e)

theorem Within.mono {α : Type} {N A A' B B' : Nat} {W : DeW α} {D : De α} (h : Within N A B W D) (hA : A ≤ A') (hB : B ≤ B') :
    Within N A' B' W D := fun v s e hs => (h v s e hs).mono fun _ _ h => h.mono hA (by omega)

theorem Lin.within {α : Type} {A B : Nat} {W : DeW α} {D : De α} (h : Lin A B W D) (N : Nat) : Within N A B W D :=
  fun v s e _ => (h v s e).mono fun _ _ h => h.1

/-- A comma pays for the element before it. -/
theorem Pays.paid {A B : Nat} {s q : Bytes} {b : Byte} {k x : Nat} (h : Pays A B s (b :: q) k) (hx : B + x ≤ A) : Pays A 0 s q (k + x) := by
  have h1 := h.1
  have h2 := h.2
  simp only [List.length_cons, Nat.mul_add, Nat.mul_one] at h1 h2
  exact ⟨by omega, by omega⟩

/-- An opening bracket pays for the first element. -/
theorem Pays.behind {A B B' : Nat} {s p : Bytes} {b : Byte} {k x : Nat} (h : Pays A B s p k) (hx : B + x ≤ A + B') :
    Pays A B' (b :: s) p (k + x) := by
  have h1 := h.1
  have h2 := h.2
  refine ⟨by simp only [List.length_cons]; omega, ?_⟩
  simp only [List.length_cons, Nat.mul_add, Nat.mul_one]
  omega

theorem parseNullW_pays (s : Bytes) (e : EPtr) : ∃ k, parseNullW s e = (parseNull s e, k) ∧ Pays 1 1 s (parseNull s e).1 k := by
  obtain ⟨k, h, hp⟩ := parseNullW_post () s e
  exact ⟨k, h, hp.1⟩

/-! ### Containers -/

section
variable {α : Type} {S : Ser α} {W : DeW α} {N A B : Nat}

theorem seqLoopW_within {C : Type} (K : Coll α C) (h : Within N A B W S.de) (hA : B + 6 ≤ A) (R : Byte) (n : Nat) :
    ∀ (t : C) (s : Bytes) (e : EPtr), s.length ≤ N →
      Cost (fun r k => Pays A (B + 6) s r.2.1 k) (seqLoopW K S W R n t s e) (seqLoopF K S R n t s e) := by
  induction n with
  | zero => intro t s e _; exact .fuel
  | succ n ih =>
    intro t s e hs
    unfold seqLoopW seqLoopF
    cases s with
    | nil => exact .ok (.zero _ (Nat.le_refl _) (by omega))
    | cons b0 s0 =>
      simp only
      generalize b0 :: s0 = s at hs ⊢
      obtain ⟨k1, h1, p1⟩ := parseSpaceW_pays s e
      rw [h1]
      generalize parseSpace s e = r at p1 ⊢
      obtain ⟨r, e1⟩ := r
      cases r with
      | nil => exact .ok (p1.mono (by omega) (by omega))
      | cons b p =>
        simp only
        split
        · exact .ok ((p1.mono (by omega) (by omega)).drop (by simp))
        · refine (h S.dflt (b :: p) e1 (Nat.le_trans p1.1 hs)).bind fun d k2 p2 => ?_
          obtain ⟨v, d, e2⟩ := d
          obtain ⟨k3, h3, p3⟩ := parseSpaceW_pays d e2
          simp only
          rw [h3]
          have q : Pays A (B + 6) s (parseSpace d e2).1 (k1 + k2 + k3 + 2) :=
            ((p1.mono (A' := A) (by omega) (Nat.le_refl (2 + k1))).trans p2
              (k'' := k1 + k2) (B'' := B + 2) (by omega)).trans (p3.mono (A' := A) (by omega) (Nat.le_refl (2 + k3))) (by omega)
          generalize parseSpace d e2 = r at q ⊢
          obtain ⟨r, e3⟩ := r
          cases r with
          | nil => exact .ok q
          | cons b q' =>
            simp only
            split
            · exact .ok (q.drop (by simp))
            · split
              · exact .ok q.nil
              · have q2 := q.paid (x := 0) hA
                exact (ih _ q' e3 (Nat.le_trans q2.1 hs)).count (f := (· + k1 + k2 + k3 + 2)) fun y j hj => q2.trans hj (by omega)

theorem deSeqW_within {C : Type} (K : Coll α C) (h : Within N A B W S.de) (hA : B + 6 ≤ A) (L R : Byte) :
    Within N A 3 (deSeqW K S W L R) (deSeq K S L R) := by
  intro v s e hs
  unfold deSeqW deSeq
  split
  · obtain ⟨k, h, hp⟩ := parseNullW_pays s e
    simp only [h]
    exact .ok (hp.mono (by omega) (by omega))
  · cases s with
    | nil => exact .ok (.zero _ (Nat.le_refl _) (by omega))
    | cons b t =>
      simp only
      split
      · exact .ok (.zero _ (by simp) (by omega))
      · simp only [List.length_cons] at hs
        exact (seqLoopW_within K h hA R _ _ t e (by omega)).count (f := (· + 2)) fun r k h => h.behind (by omega)

theorem fixLoopW_within (kd : FixKind) (h : Within N A B W S.de) (hA : B + 6 ≤ A) (R : Byte) (vs : List α) :
    ∀ (s : Bytes) (e : EPtr), s.length ≤ N →
      Cost (fun r k => Pays A (B + 6) s r.2.1 k) (fixLoopW kd S W R vs s e) (fixLoop kd S R vs s e) := by
  induction vs with
  | nil => intro s e _; exact .free fun r hr => .zero _ (fixClose_shorter hr) (by omega)
  | cons v vs ih =>
    intro s e hs
    unfold fixLoopW fixLoop
    cases s with
    | nil => exact .free fun r hr => .zero _ (fixClose_shorter hr) (by omega)
    | cons b0 s0 =>
      simp only
      generalize b0 :: s0 = s at hs ⊢
      obtain ⟨k1, h1, p1⟩ := parseSpaceW_pays s e
      rw [h1]
      generalize parseSpace s e = r at p1 ⊢
      obtain ⟨r, e1⟩ := r
      cases r with
      | nil => exact .ok (p1.mono (by omega) (by omega))
      | cons b p =>
        simp only
        split
        · exact .free fun r hr => (p1.mono (by omega) (by omega)).drop (fixClose_shorter hr)
        · refine (h (kd.start S v) (b :: p) e1 (Nat.le_trans p1.1 hs)).bind fun d k2 p2 => ?_
          obtain ⟨v', d, e2⟩ := d
          obtain ⟨k3, h3, p3⟩ := parseSpaceW_pays d e2
          simp only
          rw [h3]
          have q : Pays A (B + 6) s (parseSpace d e2).1 (k1 + k2 + k3 + 1) :=
            ((p1.mono (A' := A) (by omega) (Nat.le_refl (2 + k1))).trans p2
              (k'' := k1 + k2) (B'' := B + 2) (by omega)).trans (p3.mono (A' := A) (by omega) (Nat.le_refl (2 + k3))) (by omega)
          generalize parseSpace d e2 = r at q ⊢
          obtain ⟨r, e3⟩ := r
          cases r with
          | nil => exact .ok q
          | cons b q' =>
            simp only
            split
            · exact .free fun r hr => q.drop (fixClose_shorter hr)
            · split
              · exact .ok q.nil
              · have q2 := q.paid (x := 0) hA
                exact (ih q' e3 (Nat.le_trans q2.1 hs)).bind fun y j hj => .ok (q2.trans hj (by omega))

/-- `null` for a fixed-size array, when every element takes at most `Z` for it. -/
theorem fixNullW_const {Z : Nat} (s : Bytes) (hn : ∀ v e, Cost (fun _ k => k ≤ Z) (W v s e) (S.de v s e)) (vs : List α) :
    ∀ e, Cost (fun _ k => k ≤ vs.length * (Z + 1) + 1) (fixNullW W s vs e) (fixNull S s vs e) := by
  induction vs with
  | nil => intro e; exact .ok (by simp)
  | cons v vs ih =>
    intro e
    refine (hn v e).bind fun d k hk => (ih d.2.2).bind fun r j hj => .ok ?_
    simp only [List.length_cons, Nat.add_mul, Nat.one_mul] at *
    omega

theorem deFixVecW_within {Z M : Nat} (kd : FixKind) (h : Within N A B W S.de) (hA : B + 6 ≤ A)
    (hn : ∀ v s e, isNull s = true → Cost (fun _ k => k ≤ Z) (W v s e) (S.de v s e)) :
    Within N A (M * (Z + 1) + 4) (deFixVecW (N := M) kd S W) (deFixVec kd S) := by
  intro v s e hs
  have hl : v.toList.length = M := by simp
  have hc : Cost (fun r k => Pays A (M * (Z + 1) + 4) s r.2.1 k) (deFixW kd S W c%'[' c%']' v.toList s e) (deFix kd S c%'[' c%']' v.toList s e) := by
    unfold deFixW deFix
    split
    · next hs' =>
      refine (fixNullW_const s (fun v e => hn v s e hs') v.toList e).bind fun x k hk => ?_
      obtain ⟨j, h1, h2⟩ := parseNullW_pays s x.2
      rw [h1]
      rw [hl] at hk
      exact .ok (h2.mono (by omega) (by omega))
    · cases s with
      | nil => exact .ok (.zero _ (Nat.le_refl _) (by omega))
      | cons b t =>
        simp only
        split
        · exact .ok (.zero _ (by simp) (by omega))
        · simp only [List.length_cons] at hs
          exact (fixLoopW_within kd h hA c%']' v.toList t e (by omega)).count (f := (· + 2)) fun r k h => h.behind (by omega)
  refine hc.bind fun r k hr => ?_
  simp only
  split
  · exact .ok hr
  · exact .ub

theorem deFieldW_within {κ ν : Type} {SK : Ser κ} {SV : Ser ν} {WK : DeW κ} {WV : DeW ν} {B' : Nat} (hA : 1 ≤ A) (hK : Within N A B WK SK.de)
    (hV : Within N A B' WV SV.de) : Within N A (B + B' + 5) (deFieldW WK WV) (deField SK SV) := by
  intro t s e hs
  unfold deFieldW deField
  refine (hK t.1 s e hs).bind fun d k1 p1 => ?_
  obtain ⟨v, d, e1⟩ := d
  obtain ⟨k2, h2, p2⟩ := parseSpaceW_pays d e1
  simp only
  rw [h2]
  have q : Pays A (B + 2) s (parseSpace d e1).1 (k1 + k2) := p1.trans (p2.mono (A' := A) hA (Nat.le_refl (2 + k2))) (by omega)
  generalize parseSpace d e1 = r at q ⊢
  obtain ⟨r, e2⟩ := r
  cases r with
  | nil => exact .ok (q.mono (Nat.le_refl _) (by omega))
  | cons b p =>
    simp only
    split
    · exact .ok (q.mono (Nat.le_refl _) (by omega)).nil
    · obtain ⟨k3, h3, p3⟩ := parseSpaceW_pays p e2
      rw [h3]
      have q2 : Pays A (B + 4) s (parseSpace p e2).1 (k1 + k2 + k3) :=
        (q.drop (q := p) (by simp)).trans (p3.mono (A' := A) hA (Nat.le_refl (2 + k3))) (by omega)
      generalize parseSpace p e2 = r at q2 ⊢
      obtain ⟨r, e3⟩ := r
      cases r with
      | nil => exact .ok (q2.mono (Nat.le_refl _) (by omega))
      | cons b p' => exact (hV t.2 (b :: p') e3 (Nat.le_trans q2.1 hs)).bind fun x k4 p4 => .ok (q2.trans p4 (by omega))

theorem dePointerW_within (h : Within N A B W S.de) : Within N A (B + 5) (dePointerW S W) (dePointer S) := by
  intro v s e hs
  unfold dePointerW dePointer
  cases s with
  | nil => exact .ok (.zero _ (by simp) (by omega))
  | cons b t =>
    simp only
    split
    · exact (h S.dflt (b :: t) e hs).bind fun r k hr => .ok (hr.mono (Nat.le_refl _) (by omega))
    · exact .ok (.zero _ (by simp <;> omega) (by omega))

/-- A pointer does not look at its target for `null`. -/
theorem dePointerW_null (W : DeW α) (v : Option α) (s : Bytes) (e : EPtr) (hn : isNull s = true) :
    Cost (fun _ k => k ≤ 5) (dePointerW S W v s e) (dePointer S v s e) := by
  cases s with
  | nil => cases hn
  | cons b t =>
    obtain rfl : b = c%'n' := by simpa [isNull] using hn
    exact .ok (Nat.le_refl _)

theorem deMemberValueW_within {τ : Type} (h : Within N A B W S.de) (dflt : τ) (get : τ → α) (set : α → τ → τ) :
    Within N A (B + 1) (deMemberValueW get set W) (memberValueSer dflt get set S).de := fun v s e hs =>
  (h (get v) s e hs).bind fun _ _ h => .ok (h.mono (Nat.le_refl _) (by omega))

end

/-! ### Structures -/

/-- As `Within` for an entry of the list of `object`. -/
def MemberWithin {τ : Type} (N A B : Nat) (w : MemberW τ) (m : Member τ) : Prop :=
  ∀ t s e u, s.length ≤ N → Cost (fun r k => Pays A B s r.2.1 k) (w t s e u) (m.de t s e u)

theorem MemberWithin.mono {τ : Type} {N A A' B B' : Nat} {W : MemberW τ} {m : Member τ} (h : MemberWithin N A B W m) (hA : A ≤ A') (hB : B ≤ B') :
    MemberWithin N A' B' W m := fun t s e u hs => (h t s e u hs).mono fun _ _ h => h.mono hA (by omega)

theorem deMemberW_within {τ : Type} {N A B : Nat} (m : MRef τ) {W : DeW m.α} (start : τ → m.α) (hA : 1 ≤ A) (h : Within N A B W m.ser.de)
    (t : τ) (s : Bytes) (e : EPtr) (u : Bool) (hs : s.length ≤ N) :
    Cost (fun r k => Pays A (B + m.name.length + 7) s r.2.1 k) (deMemberW m start W t s e u)
      (let r := memberName m.name s e u
      if !r.2.2 then .ok (t, r)
      else m.ser.de (start t) r.1 r.2.1 >>= fun d => .ok (m.set d.1 t, d.2.1, d.2.2, true)) := by
  unfold deMemberW
  obtain ⟨k1, h1, p1⟩ := memberNameW_eq m.name s e u
  replace p1 := p1.mono (A' := A) hA (Nat.le_refl (m.name.length + 6 + k1))
  rw [h1]
  simp only
  split
  · exact .ok (p1.mono (by omega) (by omega))
  · exact (h (start t) _ _ (Nat.le_trans p1.1 hs)).bind fun d k2 p2 => .ok (p1.trans p2 (by omega))

theorem entry_within {τ : Type} {x : WEntry τ} {N A B : Nat} (hA : 1 ≤ A) (h : Within N A B x.work x.entry.ref.ser.de) :
    MemberWithin N A (B + x.entry.ref.name.length + 7) x.de x.entry.toMember := by
  intro t s e u hs
  obtain ⟨en, W⟩ := x
  cases en with
  | mem m => exact deMemberW_within m m.get hA h t s e u hs
  | prop m => exact deMemberW_within m (fun _ => m.ser.dflt) hA h t s e u hs

section
variable {τ : Type} {ι : Type _} {f : ι → MemberW τ} {g : ι → Member τ} {N A B : Nat}

theorem searchMembersW_within (c : Cfg) (strict : Bool) (hA : 20 ≤ A) (X : List ι) (h : ∀ x ∈ X, MemberWithin N A B (f x) (g x)) :
    ∀ (t : τ) (s : Bytes) (e : EPtr), s.length ≤ N → Cost (fun r k => Pays A (X.length * (B + 1) + 11) s r.2.1 k)
      (searchMembersW c strict (X.map f) t s e) (searchMembers c strict (X.map g) t s e) := by
  induction X with
  | nil =>
    intro t s e _
    exact searchMembersW_cost (f := f) (g := g) (B := B) c strict hA [] (by simp) t s e
  | cons x X ih =>
    intro t s e hs
    simp only [List.map_cons, searchMembersW, searchMembers]
    refine (h x (by simp) t s e false hs).bind fun d k p1 => ?_
    simp only [List.length_cons, Nat.add_mul, Nat.one_mul] at *
    split
    · exact .ok (p1.mono (by omega) (by omega))
    · exact (ih (fun y hy => h y (by simp [hy])) d.1 d.2.1 d.2.2.1 (Nat.le_trans p1.1 hs)).count (f := (· + k + 1)) fun y j hj => p1.trans hj (by omega)

/-- What one member of the text costs besides the bytes consumed. -/
def memberFee (B n : Nat) : Nat := B + n * (B + 1) + 14

theorem membersW_within (c : Cfg) (strict : Bool) (hA : 33 ≤ A) (X : List ι) (h : ∀ x ∈ X, MemberWithin N A B (f x) (g x))
    (hB : memberFee B X.length + 2 ≤ A) (n : Nat) :
    ∀ (Y : List ι) (t : τ) (s : Bytes) (e : EPtr), (∀ y ∈ Y, y ∈ X) → s.length ≤ N →
      Cost (fun r k => Pays A (memberFee B X.length) s r.2.1 k)
        (membersW c strict (X.map f) n (Y.map f) t s e) (membersF c strict (X.map g) n (Y.map g) t s e) := by
  have hF : memberFee B X.length = B + X.length * (B + 1) + 14 := rfl
  induction n with
  | zero => intro Y t s e _ _; exact .fuel
  | succ n ih =>
    intro Y t s e hY hs
    cases Y with
    | nil =>
      simp only [List.map_nil, membersW, membersF]
      exact (skipMembersW_cost c strict s e).bind fun r k hr => .ok (hr.mono (by omega) (by omega))
    | cons y Y =>
      simp only [List.map_cons, membersW, membersF]
      refine (h y (hY y (by simp)) t s e false hs).bind fun d k1 p1 => ?_
      simp only
      have hs' : Cost (fun r k => Pays A (X.length * (B + 1) + 11) d.2.1 r.2.1 k)
          (if d.2.2.2 then .ok ((d.1, d.2.1, d.2.2.1), 0) else searchMembersW c strict (X.map f) d.1 d.2.1 d.2.2.1)
          (if d.2.2.2 then .ok (d.1, d.2.1, d.2.2.1) else searchMembers c strict (X.map g) d.1 d.2.1 d.2.2.1) := by
        split
        · exact .ok (.zero _ (Nat.le_refl _) (by omega))
        · exact searchMembersW_within c strict (by omega) X h _ _ _ (Nat.le_trans p1.1 hs)
      refine hs'.bind fun x k2 p2 => ?_
      obtain ⟨t1, x, e1⟩ := x
      obtain ⟨k3, h3, p3⟩ := parseSpaceW_pays x e1
      simp only
      rw [h3]
      have q : Pays A (memberFee B X.length) s (parseSpace x e1).1 (k1 + k2 + k3 + 1) :=
        (p1.trans p2 (k'' := k1 + k2) (B'' := B + X.length * (B + 1) + 11) (by omega)).trans
          (p3.mono (A' := A) (by omega) (Nat.le_refl (2 + k3))) (by omega)
      generalize parseSpace x e1 = r at q ⊢
      obtain ⟨r, e2⟩ := r
      cases r with
      | nil => exact .ok q
      | cons b p =>
        simp only
        split
        · obtain ⟨k4, h4, p4⟩ := parseSpaceW_pays p e2
          rw [h4]
          have q2 := q.paid hB
          have q3 : Pays A 0 s (parseSpace p e2).1 (k1 + k2 + k3 + 1 + k4) :=
            q2.trans (p4.mono (A' := A) (by omega) (Nat.le_refl (2 + k4))) (by omega)
          have hsel : (if d.2.2.2 = true then Y.map f else f y :: Y.map f) = (if d.2.2.2 = true then Y else y :: Y).map f := by split <;> simp
          have hsel' : (if d.2.2.2 = true then Y.map g else g y :: Y.map g) = (if d.2.2.2 = true then Y else y :: Y).map g := by split <;> simp
          rw [hsel, hsel']
          refine (ih _ t1 _ _ ?_ (Nat.le_trans q3.1 hs)).bind fun z k5 p5 => .free fun w hw => ?_
          · intro z hz
            split at hz
            · exact hY z (by simp [hz])
            · exact hY z hz
          · exact (q3.trans p5 (by omega)).drop (membersEnd_length hw)
        · exact .free fun w hw => q.drop (membersEnd_length hw)

theorem objectBodyW_within (c : Cfg) (strict : Bool) (hA : 33 ≤ A) (X : List ι) (h : ∀ x ∈ X, MemberWithin N A B (f x) (g x))
    (hB : memberFee B X.length + 2 ≤ A) (t : τ) (s : Bytes) (e : EPtr) (hs : s.length ≤ N) :
    Cost (fun r k => Pays A (memberFee B X.length + 4) s r.2.1 k)
      (objectBodyW c strict (X.map f) t s e) (objectBody c strict (X.map g) t s e) := by
  unfold objectBodyW objectBody
  obtain ⟨k1, h1, p1⟩ := parseSpaceW_pays s e
  replace p1 := p1.mono (A' := A) (by omega) (Nat.le_refl (2 + k1))
  rw [h1]
  generalize parseSpace s e = r at p1 ⊢
  obtain ⟨r, e1⟩ := r
  cases r with
  | nil => exact .ok (p1.mono (Nat.le_refl _) (by omega))
  | cons b q =>
    simp only
    split
    · refine (membersW_within c strict hA X h hB _ X t _ _ (fun _ h => h) (Nat.le_trans p1.1 hs)).bind fun x k2 p2 => ?_
      obtain ⟨t1, x, e2⟩ := x
      have p3 := p1.trans p2 (k'' := k1 + k2) (B'' := memberFee B X.length + 2) (by omega)
      cases x with
      | nil => exact .ok (p3.mono (Nat.le_refl _) (by omega))
      | cons b q =>
        simp only at p3 ⊢
        obtain ⟨k4, h4, p4⟩ := parseSpaceW_pays (b :: q) e2
        rw [h4]
        have p5 := p3.trans (p4.mono (A' := A) (by omega) (Nat.le_refl (2 + k4)))
          (k'' := k1 + k2 + k4) (B'' := memberFee B X.length + 4) (by omega)
        generalize parseSpace (b :: q) e2 = r at p5 ⊢
        obtain ⟨r, e3⟩ := r
        cases r with
        | nil => exact .ok p5
        | cons b q => exact .free fun w hw => p5.drop (objectEnd_length hw)
    · exact .free fun w hw => (p1.mono (Nat.le_refl _) (by omega)).drop (objectEnd_length hw)

theorem deObjectW_within (c : Cfg) (strict : Bool) (dflt : τ) (hA : 33 ≤ A) (X : List ι) (h : ∀ x ∈ X, MemberWithin N A B (f x) (g x))
    (hB : memberFee B X.length + 2 ≤ A) :
    Within N A 4 (deObjectW c strict dflt (X.map f)) (deObject c strict dflt (X.map g)) := by
  intro t s e hs
  unfold deObjectW deObject
  split
  · obtain ⟨k, h, hp⟩ := parseNullW_pays s e
    simp only [h]
    exact .ok (hp.mono (by omega) (by omega))
  · cases s with
    | nil => exact .ok (.zero _ (Nat.le_refl _) (by omega))
    | cons b p =>
      simp only
      split
      · split
        · obtain ⟨k1, h1, p1⟩ := parseSpaceW_pays p e
          rw [h1]
          replace p1 := (p1.before (s := b :: p) (by simp)).mono (A' := A) (by omega) (Nat.le_refl (2 + k1))
          generalize parseSpace p e = r at p1 ⊢
          obtain ⟨r, e1⟩ := r
          refine .same fun x _ => ?_
          split
          · exact .ok (p1.mono (by omega) (by omega)).nil
          · cases r with
            | nil => exact .ub
            | cons d q => exact .ok ((p1.mono (by omega) (by omega)).drop (by simp))
        · exact .ok (.zero _ (by simp) (by omega))
      · simp only [List.length_cons] at hs
        exact (objectBodyW_within c strict hA X h hB t p e (by omega)).count (f := (· + 2)) fun r k h => h.behind (by omega)

end

/-! ### Array structures -/

theorem aentry_within {τ : Type} {x : WEntry τ} {N A B : Nat} (h : Within N A B x.work x.entry.ref.ser.de) :
    Within N A (B + 1) x.deA x.entry.toAMember.de := by
  intro t s e hs
  obtain ⟨en, W⟩ := x
  cases en with
  | mem m => exact (h (m.get t) s e hs).bind fun d k hd => .ok (hd.mono (Nat.le_refl _) (by omega))
  | prop m => exact (h m.ser.dflt s e hs).bind fun d k hd => .ok (hd.mono (Nat.le_refl _) (by omega))

section
variable {τ : Type} {ι : Type _} {f : ι → DeW τ} {g : ι → AMember τ} {N A B : Nat}

theorem deAMembersW_within (hA : 1 ≤ A) (X : List ι) (h : ∀ x ∈ X, Within N A B (f x) (g x).de) : ∀ (t : τ) (s : Bytes) (e : EPtr), s.length ≤ N →
    Cost (fun r k => Pays A (X.length * (B + 5) + 1) s r.2.1 k) (deAMembersW (X.map f) t s e) (deAMembers (X.map g) t s e) := by
  induction X with
  | nil => intro t s e _; exact .ok (.zero _ (Nat.le_refl _) (by omega))
  | cons x X ih =>
    intro t s e hs
    simp only [List.map_cons, deAMembersW, deAMembers]
    refine (h x (by simp) t s e hs).bind fun d k1 p1 => ?_
    obtain ⟨t1, d, e1⟩ := d
    obtain ⟨k2, h2, p2⟩ := parseSpaceW_pays d e1
    simp only
    rw [h2]
    have q : Pays A (B + 3) s (parseSpace d e1).1 (k1 + k2 + 1) := p1.trans (p2.mono (A' := A) hA (Nat.le_refl (2 + k2))) (by omega)
    simp only [List.length_cons, Nat.add_mul, Nat.one_mul] at *
    generalize parseSpace d e1 = r at q ⊢
    obtain ⟨r, e2⟩ := r
    cases r with
    | nil => exact .ok (q.mono (by omega) (by omega))
    | cons b p =>
      simp only
      split
      · obtain ⟨k3, h3, p3⟩ := parseSpaceW_pays p e2
        rw [h3]
        have q2 := (q.drop (q := p) (by simp)).trans (p3.mono (A' := A) hA (Nat.le_refl (2 + k3))) (k'' := k1 + k2 + 1 + k3) (B'' := B + 5) (by omega)
        refine (ih (fun y hy => h y (by simp [hy])) t1 _ _ (Nat.le_trans q2.1 hs)).bind fun z k5 p5 => .free fun w hw => ?_
        exact (q2.trans p5 (by omega)).drop (amembersEnd_length hw)
      · exact .free fun w hw => (q.mono (by omega) (by omega)).drop (amembersEnd_length hw)

theorem objectArrayBodyW_within (hA : 1 ≤ A) (X : List ι) (h : ∀ x ∈ X, Within N A B (f x) (g x).de) (t : τ) (s : Bytes) (e : EPtr)
    (hs : s.length ≤ N) :
    Cost (fun r k => Pays A (X.length * (B + 5) + 5) s r.2.1 k) (objectArrayBodyW (X.map f) t s e) (objectArrayBody (X.map g) t s e) := by
  unfold objectArrayBodyW objectArrayBody
  obtain ⟨k1, h1, p1⟩ := parseSpaceW_pays s e
  replace p1 := p1.mono (A' := A) hA (Nat.le_refl (2 + k1))
  rw [h1]
  generalize parseSpace s e = r at p1 ⊢
  obtain ⟨r, e1⟩ := r
  cases r with
  | nil => exact .ok (p1.mono (Nat.le_refl _) (by omega))
  | cons b q =>
    simp only
    split
    · refine (deAMembersW_within hA X h t _ _ (Nat.le_trans p1.1 hs)).bind fun x k2 p2 => ?_
      obtain ⟨t1, x, e2⟩ := x
      have p3 := p1.trans p2 (k'' := k1 + k2) (B'' := X.length * (B + 5) + 3) (by omega)
      cases x with
      | nil => exact .ok (p3.mono (Nat.le_refl _) (by omega))
      | cons b q =>
        simp only at p3 ⊢
        obtain ⟨k4, h4, p4⟩ := parseSpaceW_pays (b :: q) e2
        rw [h4]
        have p5 := p3.trans (p4.mono (A' := A) hA (Nat.le_refl (2 + k4))) (k'' := k1 + k2 + k4) (B'' := X.length * (B + 5) + 5) (by omega)
        generalize parseSpace (b :: q) e2 = r at p5 ⊢
        obtain ⟨r, e3⟩ := r
        cases r with
        | nil => exact .ok p5
        | cons b q => exact .free fun w hw => p5.drop (objectArrayEnd_length hw)
    · exact .free fun w hw => (p1.mono (Nat.le_refl _) (by omega)).drop (objectArrayEnd_length hw)

theorem deObjectArrayW_within (dflt : τ) (X : List ι) (h : ∀ x ∈ X, Within N A B (f x) (g x).de) (hB : X.length * (B + 5) + 5 ≤ A) :
    Within N A 3 (deObjectArrayW dflt (X.map f)) (deObjectArray dflt (X.map g)) := by
  intro t s e hs
  unfold deObjectArrayW deObjectArray
  split
  · obtain ⟨k, h, hp⟩ := parseNullW_pays s e
    simp only [h]
    exact .ok (hp.mono (by omega) (by omega))
  · cases s with
    | nil => exact .ok (.zero _ (Nat.le_refl _) (by omega))
    | cons b p =>
      simp only
      split
      · exact .ok (.zero _ (by simp) (by omega))
      · simp only [List.length_cons] at hs
        exact (objectArrayBodyW_within (by omega) X h t p e (by omega)).count (f := (· + 2)) fun r k h => h.behind (by omega)

end

end Wjson
