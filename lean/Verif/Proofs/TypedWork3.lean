import Verif.Spec.TypedWork
import Verif.Proofs.TypedWork2
/-
Lemmas for C78: containers and structures.
-/
namespace Wjson

/-- As `Lin`, without the clause for texts that begin like `null`. -/
def Lin0 {α : Type} (A B : Nat) (W : DeW α) (D : De α) : Prop := ∀ v s e, Cost (fun r k => Pays A B s r.2.1 k) (W v s e) (D v s e)

theorem Lin.lin0 {α : Type} {A B : Nat} {W : DeW α} {D : De α} (h : Lin A B W D) : Lin0 A B W D :=
  fun v s e => (h v s e).mono fun _ _ h => h.1

/-- From a reader that handles `null` first. -/
theorem Cost.lin {α : Type} {A B : Nat} {s : Bytes} {w : Out ((α × Bytes × EPtr) × Nat)} {o : Out (α × Bytes × EPtr)}
    (h : Cost (fun r k => Pays A B s r.2.1 k) w o) (hn : ¬isNull s = true) : Cost (LinPost A B s) w o :=
  h.mono fun _ _ h => ⟨h, .of_ne (by simpa using hn)⟩

/-! ### Containers -/

theorem seqLoopW_cost {α C : Type} (K : Coll α C) {S : Ser α} {W : DeW α} {A B : Nat} (h : Lin0 A B W S.de) (R : Byte) (n : Nat) :
    ∀ (t : C) (s : Bytes) (e : EPtr),
      Cost (fun r k => Pays (A + B + 7) (B + 6) s r.2.1 k) (seqLoopW K S W R n t s e) (seqLoopF K S R n t s e) := by
  induction n with
  | zero => intro t s e; exact .fuel
  | succ n ih =>
    intro t s e
    unfold seqLoopW seqLoopF
    cases s with
    | nil => exact .ok (.zero _ (Nat.le_refl _) (by omega))
    | cons b0 s0 =>
      simp only
      generalize b0 :: s0 = s
      obtain ⟨k1, h1, p1⟩ := parseSpaceW_pays s e
      rw [h1]
      generalize parseSpace s e = r at p1 ⊢
      obtain ⟨r, e1⟩ := r
      cases r with
      | nil => exact .ok (p1.mono (by omega) (by omega))
      | cons b p =>
        simp only
        split
        · exact .ok ((p1.mono (by omega) (by omega)).drop (by simp))
        · refine (h S.dflt (b :: p) e1).bind fun d k2 p2 => ?_
          obtain ⟨v, d, e2⟩ := d
          obtain ⟨k3, h3, p3⟩ := parseSpaceW_pays d e2
          simp only
          rw [h3]
          have q : Pays (A + 1) (B + 6) s (parseSpace d e2).1 (k1 + k2 + k3 + 2) :=
            ((p1.mono (A' := A + 1) (by omega) (Nat.le_refl (2 + k1))).trans (p2.mono (A' := A + 1) (by omega) (Nat.le_refl (B + k2)))
              (k'' := k1 + k2) (B'' := B + 2) (by omega)).trans (p3.mono (A' := A + 1) (by omega) (Nat.le_refl (2 + k3))) (by omega)
          generalize parseSpace d e2 = r at q ⊢
          obtain ⟨r, e3⟩ := r
          cases r with
          | nil => exact .ok (q.mono (by omega) (by omega))
          | cons b q' =>
            simp only
            split
            · exact .ok ((q.mono (by omega) (by omega)).drop (by simp))
            · split
              · exact .ok (q.mono (by omega) (by omega)).nil
              · exact (ih _ q' e3).count (f := (· + k1 + k2 + k3 + 2)) fun y j hj =>
                  (q.comma (A' := A + B + 7) (B' := 0) (k' := k1 + k2 + k3 + 2) (by omega) (by omega)).trans hj (by omega)

theorem deSeqW_lin {α C : Type} (K : Coll α C) {S : Ser α} {W : DeW α} {A B : Nat} (h : Lin0 A B W S.de) (L R : Byte) :
    Lin (A + B + 7) (B + 8) (deSeqW K S W L R) (deSeq K S L R) := by
  intro v s e
  unfold deSeqW deSeq
  split
  · obtain ⟨k, h, hp⟩ := parseNullW_post K.clear s e
    simp only [h]
    exact .ok (hp.mono (by omega) (by omega))
  · next hn =>
    refine Cost.lin ?_ hn
    cases s with
    | nil => exact .ok (.zero _ (Nat.le_refl _) (by omega))
    | cons b t =>
      simp only
      split
      · exact .ok (.zero _ (by simp) (by omega))
      · exact (seqLoopW_cost K h R _ _ t e).count (f := (· + 2)) fun r k h =>
          (h.before (s := b :: t) (by simp)).mono (Nat.le_refl _) (by omega)

theorem fixClose_shorter {α : Type} {R : Byte} {t : List α} {s : Bytes} {e : EPtr} {r : List α × Bytes × EPtr}
    (h : fixClose R t s e = .ok r) : r.2.1.length ≤ s.length := by
  cases s with
  | nil => cases h; simp
  | cons b p =>
    simp only [fixClose] at h
    split at h <;> cases h <;> simp

theorem fixNullW_cost {α : Type} {S : Ser α} {W : DeW α} {A B : Nat} (h : Lin A B W S.de) (s : Bytes) (hn : isNull s = true)
    (vs : List α) : ∀ e, Cost (fun _ k => k + vs.length * A * (parseNull s .null).1.length ≤ vs.length * A * s.length + vs.length * (B + 1) + 1)
      (fixNullW W s vs e) (fixNull S s vs e) := by
  induction vs with
  | nil => intro e; exact .ok (by simp)
  | cons v vs ih =>
    intro e
    refine (h v s e).bind fun d k hk => (ih d.2.2).bind fun r j hj => .ok ?_
    have := hk.2 hn
    simp only [List.length_cons, Nat.add_mul, Nat.one_mul] at *
    omega

theorem fixLoopW_cost {α : Type} (kd : FixKind) {S : Ser α} {W : DeW α} {A B : Nat} (h : Lin0 A B W S.de) (R : Byte) (vs : List α) :
    ∀ (s : Bytes) (e : EPtr),
      Cost (fun r k => Pays (A + B + 7) (B + 6) s r.2.1 k) (fixLoopW kd S W R vs s e) (fixLoop kd S R vs s e) := by
  induction vs with
  | nil => intro s e; exact .free fun r hr => .zero _ (fixClose_shorter hr) (by omega)
  | cons v vs ih =>
    intro s e
    unfold fixLoopW fixLoop
    cases s with
    | nil => exact .free fun r hr => .zero _ (fixClose_shorter hr) (by omega)
    | cons b0 s0 =>
      simp only
      generalize b0 :: s0 = s
      obtain ⟨k1, h1, p1⟩ := parseSpaceW_pays s e
      rw [h1]
      generalize parseSpace s e = r at p1 ⊢
      obtain ⟨r, e1⟩ := r
      cases r with
      | nil => exact .ok (p1.mono (by omega) (by omega))
      | cons b p =>
        simp only
        split
        · exact .free fun r hr => (p1.mono (by omega) (by omega)).drop (fixClose_shorter hr)
        · refine (h (kd.start S v) (b :: p) e1).bind fun d k2 p2 => ?_
          obtain ⟨v', d, e2⟩ := d
          obtain ⟨k3, h3, p3⟩ := parseSpaceW_pays d e2
          simp only
          rw [h3]
          have q : Pays (A + 1) (B + 6) s (parseSpace d e2).1 (k1 + k2 + k3 + 2) :=
            ((p1.mono (A' := A + 1) (by omega) (Nat.le_refl (2 + k1))).trans (p2.mono (A' := A + 1) (by omega) (Nat.le_refl (B + k2)))
              (k'' := k1 + k2) (B'' := B + 2) (by omega)).trans (p3.mono (A' := A + 1) (by omega) (Nat.le_refl (2 + k3))) (by omega)
          generalize parseSpace d e2 = r at q ⊢
          obtain ⟨r, e3⟩ := r
          cases r with
          | nil => exact .ok (q.mono (by omega) (by omega))
          | cons b q' =>
            simp only
            split
            · exact .free fun r hr => (q.mono (by omega) (by omega)).drop (fixClose_shorter hr)
            · split
              · exact .ok (q.mono (by omega) (by omega)).nil
              · refine (ih q' e3).bind fun y j hj => .ok ?_
                exact (q.comma (A' := A + B + 7) (B' := 0) (k' := k1 + k2 + k3 + 2) (by omega) (by omega)).trans hj (by omega)

theorem deFixW_cost {α : Type} (kd : FixKind) {S : Ser α} {W : DeW α} {A B : Nat} (h : Lin A B W S.de) (L R : Byte) (vs : List α)
    (s : Bytes) (e : EPtr) :
    Cost (LinPost (vs.length * A + A + B + 7) (vs.length * (B + 1) + B + 8) s) (deFixW kd S W L R vs s e) (deFix kd S L R vs s e) := by
  unfold deFixW deFix
  split
  · next hn =>
    refine (fixNullW_cost h s hn vs e).bind fun x k hk => ?_
    obtain ⟨j, h1, h2⟩ := parseNullW_eq s x.2
    rw [h1]
    have hb := parseNull_bytes s .null x.2
    have hl := parseNull_length s x.2
    have hp : Pays (vs.length * A + A + B + 7) (vs.length * (B + 1) + B + 8) s (parseNull s x.2).1 (k + j + 2) := by
      refine Pays.mono (A := vs.length * A + 1) (B := vs.length * (B + 1) + 2) (k := k + j) ⟨hl, ?_⟩ (by omega) (by omega)
      rw [hb] at hk
      simp only [Nat.add_mul, Nat.one_mul]
      omega
    exact .ok ⟨hp, fun _ => by rw [hb]; exact hp.2⟩
  · next hn =>
    refine Cost.lin ?_ hn
    cases s with
    | nil => exact .ok (.zero _ (Nat.le_refl _) (by omega))
    | cons b t =>
      simp only
      split
      · exact .ok (.zero _ (by simp) (by omega))
      · exact (fixLoopW_cost kd h.lin0 R vs t e).count (f := (· + 2)) fun r k h =>
          (h.before (s := b :: t) (by simp)).mono (by omega) (by omega)

theorem deFixVecW_lin {α : Type} {N : Nat} (kd : FixKind) {S : Ser α} {W : DeW α} {A B : Nat} (h : Lin A B W S.de) :
    Lin (N * A + A + B + 7) (N * (B + 1) + B + 8) (deFixVecW (N := N) kd S W) (deFixVec kd S) := by
  intro v s e
  have hc := deFixW_cost kd h c%'[' c%']' v.toList s e
  rw [show v.toList.length = N by simp] at hc
  refine hc.bind fun r k hr => ?_
  simp only
  split
  · exact .ok hr
  · exact .ub

theorem deFieldW_lin0 {κ ν : Type} {SK : Ser κ} {SV : Ser ν} {WK : DeW κ} {WV : DeW ν} {A B A' B' : Nat} (hK : Lin0 A B WK SK.de)
    (hV : Lin0 A' B' WV SV.de) : Lin0 (A + A' + 1) (B + B' + 5) (deFieldW WK WV) (deField SK SV) := by
  intro t s e
  unfold deFieldW deField
  refine (hK t.1 s e).bind fun d k1 p1 => ?_
  obtain ⟨v, d, e1⟩ := d
  obtain ⟨k2, h2, p2⟩ := parseSpaceW_pays d e1
  simp only
  rw [h2]
  have q : Pays (A + A' + 1) (B + 2) s (parseSpace d e1).1 (k1 + k2) :=
    (p1.mono (A' := A + A' + 1) (by omega) (Nat.le_refl (B + k1))).trans (p2.mono (A' := A + A' + 1) (by omega) (Nat.le_refl (2 + k2))) (by omega)
  generalize parseSpace d e1 = r at q ⊢
  obtain ⟨r, e2⟩ := r
  cases r with
  | nil => exact .ok (q.mono (Nat.le_refl _) (by omega))
  | cons b p =>
    simp only
    split
    · exact .ok (q.mono (Nat.le_refl _) (by omega)).nil
    · obtain ⟨k3, h3, p3⟩ := parseSpaceW_pays p e2
      rw [h3]
      have q2 : Pays (A + A' + 1) (B + 4) s (parseSpace p e2).1 (k1 + k2 + k3) :=
        (q.drop (q := p) (by simp)).trans (p3.mono (A' := A + A' + 1) (by omega) (Nat.le_refl (2 + k3))) (by omega)
      generalize parseSpace p e2 = r at q2 ⊢
      obtain ⟨r, e3⟩ := r
      cases r with
      | nil => exact .ok (q2.mono (Nat.le_refl _) (by omega))
      | cons b p' =>
        refine (hV t.2 (b :: p') e3).bind fun x k4 p4 => .ok ?_
        exact q2.trans (p4.mono (A' := A + A' + 1) (by omega) (Nat.le_refl (B' + k4))) (by omega)

/-! ### Structures -/

theorem nameLoopW_eq (n s : Bytes) : ∃ k, nameLoopW n s = (nameLoop n s, k) ∧ k ≤ n.length + 1 ∧ (nameLoop n s).2.length ≤ s.length := by
  induction n generalizing s with
  | nil => exact ⟨1, by simp [nameLoopW, nameLoop], by simp, by simp [nameLoop]⟩
  | cons a n ih =>
    cases s with
    | nil => exact ⟨1, by simp [nameLoopW, nameLoop], by simp, by simp [nameLoop]⟩
    | cons b s =>
      simp only [nameLoopW, nameLoop]
      split
      · obtain ⟨k, h1, h2, h3⟩ := ih s
        exact ⟨k + 1, by rw [h1], by simp only [List.length_cons]; omega, by simp only [List.length_cons]; omega⟩
      · exact ⟨1, rfl, by omega, by simp⟩

theorem memberNameW_eq (name s : Bytes) (e : EPtr) (u : Bool) :
    ∃ k, memberNameW name s e u = (memberName name s e u, k) ∧ Pays 1 (name.length + 6) s (memberName name s e u).1 k := by
  unfold memberNameW memberName
  cases s with
  | nil => exact ⟨1, rfl, .zero _ (by simp) (by omega)⟩
  | cons b t =>
    simp only
    split
    · exact ⟨1, rfl, .zero _ (by simp) (by omega)⟩
    · obtain ⟨k1, h1, h2, h3⟩ := nameLoopW_eq name t
      rw [h1]
      generalize nameLoop name t = l at h3 ⊢
      obtain ⟨l1, l2⟩ := l
      cases l2 with
      | nil => exact ⟨_, rfl, .zero _ (by simp) (by omega)⟩
      | cons b' p =>
        simp only
        split
        · exact ⟨_, rfl, .zero _ (by simp) (by omega)⟩
        · obtain ⟨k2, h4, p2⟩ := parseSpaceW_pays p e
          rw [h4]
          replace p2 := p2.before (s := b :: t) (by simp only [List.length_cons] at h3 ⊢; omega)
          generalize parseSpace p e = r at p2 ⊢
          obtain ⟨r, e2⟩ := r
          cases r with
          | nil => exact ⟨_, rfl, p2.mono (by omega) (by omega)⟩
          | cons b' p =>
            simp only
            split
            · exact ⟨_, rfl, (p2.mono (by omega) (by omega)).nil⟩
            · obtain ⟨k3, h5, p3⟩ := parseSpaceW_pays p e2
              rw [h5]
              have q := (p2.drop (q := p) (by simp)).trans p3 (k'' := k2 + k3) (B'' := 4) (by omega)
              generalize parseSpace p e2 = r at q ⊢
              obtain ⟨r, e3⟩ := r
              cases r with
              | nil => exact ⟨_, rfl, q.mono (by omega) (by omega)⟩
              | cons b' p => exact ⟨_, rfl, q.mono (by omega) (by omega)⟩

/-- An entry of the list of `object` and its count. -/
def MemberLin {τ : Type} (A B : Nat) (w : MemberW τ) (m : Member τ) : Prop :=
  ∀ t s e u, Cost (fun r k => Pays A B s r.2.1 k) (w t s e u) (m.de t s e u)

theorem entry_lin {τ : Type} {x : WEntry τ} {A B : Nat} (h : Lin0 A B x.work x.entry.ref.ser.de) :
    MemberLin (A + 1) (B + x.entry.ref.name.length + 7) x.de x.entry.toMember := by
  intro t s e u
  obtain ⟨en, W⟩ := x
  have key : ∀ (m : MRef τ) (W : DeW m.α) (start : τ → m.α), Lin0 A B W m.ser.de →
      Cost (fun r k => Pays (A + 1) (B + m.name.length + 7) s r.2.1 k) (deMemberW m start W t s e u)
        (let r := memberName m.name s e u
        if !r.2.2 then .ok (t, r)
        else m.ser.de (start t) r.1 r.2.1 >>= fun d => .ok (m.set d.1 t, d.2.1, d.2.2, true)) := by
    intro m W start h
    unfold deMemberW
    obtain ⟨k1, h1, p1⟩ := memberNameW_eq m.name s e u
    replace p1 := p1.mono (A' := A + 1) (by omega) (Nat.le_refl (m.name.length + 6 + k1))
    rw [h1]
    simp only
    split
    · exact .ok (p1.mono (by omega) (by omega))
    · refine (h (start t) _ _).bind fun d k2 p2 => .ok ?_
      exact p1.trans (p2.mono (A' := A + 1) (by omega) (Nat.le_refl (B + k2))) (by omega)
  cases en with
  | mem m => exact key m W m.get h
  | prop m => exact key m W (fun _ => m.ser.dflt) h

section
variable {τ : Type} {ι : Type _} {f : ι → MemberW τ} {g : ι → Member τ} {A B : Nat}

theorem searchMembersW_cost (c : Cfg) (strict : Bool) (hA : 20 ≤ A) (X : List ι) (h : ∀ x ∈ X, MemberLin A B (f x) (g x)) :
    ∀ (t : τ) (s : Bytes) (e : EPtr), Cost (fun r k => Pays A (X.length * (B + 1) + 11) s r.2.1 k)
      (searchMembersW c strict (X.map f) t s e) (searchMembers c strict (X.map g) t s e) := by
  induction X with
  | nil =>
    intro t s e
    simp only [List.map_nil, searchMembersW, searchMembers]
    split
    · refine (parseMemberW_cost c s e).bind fun r k p1 => ?_
      obtain ⟨r, e1⟩ := r
      obtain ⟨k2, h2, p2⟩ := parseSpaceW_pays r e1
      simp only
      rw [h2]
      exact .ok ((p1.mono (A' := A) (by omega) (Nat.le_refl (8 + k))).trans (p2.mono (A' := A) (by omega) (Nat.le_refl (2 + k2))) (by omega))
    · cases s with
      | nil => exact .ok (.zero _ (by simp) (by omega))
      | cons b p =>
        simp only
        split
        · exact .ok (.zero _ (by simp) (by omega))
        · exact .ok (.zero _ (by simp) (by omega))
  | cons x X ih =>
    intro t s e
    simp only [List.map_cons, searchMembersW, searchMembers]
    refine (h x (by simp) t s e false).bind fun d k p1 => ?_
    simp only [List.length_cons, Nat.add_mul, Nat.one_mul] at *
    split
    · exact .ok (p1.mono (by omega) (by omega))
    · exact (ih (fun y hy => h y (by simp [hy])) d.1 d.2.1 d.2.2.1).count (f := (· + k + 1)) fun y j hj => p1.trans hj (by omega)

theorem skipLoopW_cost (c : Cfg) (strict : Bool) (n : Nat) : ∀ (s : Bytes) (e : EPtr),
    Cost (fun r k => Pays 33 11 s r.1 k) (skipLoopW c strict n s e) (skipLoopF c strict n s e) := by
  induction n with
  | zero => intro s e; exact .fuel
  | succ n ih =>
    intro s e
    unfold skipLoopW skipLoopF
    refine (parseMemberW_cost c s e).bind fun r k1 p1 => ?_
    obtain ⟨r, e1⟩ := r
    obtain ⟨k2, h2, p2⟩ := parseSpaceW_pays r e1
    simp only
    rw [h2]
    have q : Pays 20 11 s (parseSpace r e1).1 (k1 + k2 + 1) := p1.trans (p2.mono (A' := 20) (by omega) (Nat.le_refl (2 + k2))) (by omega)
    generalize parseSpace r e1 = r at q ⊢
    obtain ⟨r, e2⟩ := r
    cases r with
    | nil => exact .ok (q.mono (by omega) (by omega))
    | cons b p =>
      simp only
      split
      · split
        · exact .ok (q.mono (by omega) (by omega))
        · exact .ok (q.mono (by omega) (by omega)).nil
      · split
        · exact .ok (q.mono (by omega) (by omega)).nil
        · obtain ⟨k3, h3, p3⟩ := parseSpaceW_pays p e2
          rw [h3]
          have q2 : Pays 33 0 s p (k1 + k2 + 1 + 2) :=
            (q.mono (A' := 20) (B' := 13) (k' := k1 + k2 + 1 + 2) (by omega) (by omega)).comma (by omega) (by omega)
          have q3 : Pays 33 0 s (parseSpace p e2).1 (k1 + k2 + 1 + k3) := q2.trans (p3.mono (A' := 33) (by omega) (Nat.le_refl (2 + k3))) (by omega)
          exact (ih _ _).count (f := (· + k1 + k2 + k3 + 1)) fun y j hj => q3.trans hj (by omega)

theorem skipMembersW_cost (c : Cfg) (strict : Bool) (s : Bytes) (e : EPtr) :
    Cost (fun r k => Pays 33 14 s r.1 k) (skipMembersW c strict s e) (skipMembers c strict s e) := by
  unfold skipMembersW skipMembers
  obtain ⟨k1, h1, p1⟩ := parseSpaceW_pays s e
  replace p1 := p1.mono (A' := 33) (by omega) (Nat.le_refl (2 + k1))
  rw [h1]
  generalize parseSpace s e = r at p1 ⊢
  obtain ⟨r, e1⟩ := r
  cases r with
  | nil => exact .ok (p1.mono (by omega) (by omega))
  | cons b p =>
    simp only
    split
    · exact .ok (p1.mono (by omega) (by omega))
    · exact (skipLoopW_cost c strict _ _ _).count (f := (· + k1 + 1)) fun y j hj => p1.trans hj (by omega)

theorem membersEnd_length {t : τ} {s : Bytes} {e : EPtr} {r : τ × Bytes × EPtr} (h : membersEnd t s e = .ok r) : r.2.1.length ≤ s.length := by
  unfold membersEnd at h
  cases s with
  | nil => cases h; simp
  | cons b p =>
    simp only at h
    split at h <;> cases h <;> simp

theorem membersW_cost (c : Cfg) (strict : Bool) (hA : 33 ≤ A) (X : List ι) (h : ∀ x ∈ X, MemberLin A B (f x) (g x)) (n : Nat) :
    ∀ (Y : List ι) (t : τ) (s : Bytes) (e : EPtr), (∀ y ∈ Y, y ∈ X) →
      Cost (fun r k => Pays (A + B + X.length * (B + 1) + 16) (B + X.length * (B + 1) + 14) s r.2.1 k)
        (membersW c strict (X.map f) n (Y.map f) t s e) (membersF c strict (X.map g) n (Y.map g) t s e) := by
  induction n with
  | zero => intro Y t s e _; exact .fuel
  | succ n ih =>
    intro Y t s e hY
    cases Y with
    | nil =>
      simp only [List.map_nil, membersW, membersF]
      exact (skipMembersW_cost c strict s e).bind fun r k hr => .ok (hr.mono (by omega) (by omega))
    | cons y Y =>
      simp only [List.map_cons, membersW, membersF]
      refine (h y (hY y (by simp)) t s e false).bind fun d k1 p1 => ?_
      simp only
      have hs : Cost (fun r k => Pays A (X.length * (B + 1) + 11) d.2.1 r.2.1 k)
          (if d.2.2.2 then .ok ((d.1, d.2.1, d.2.2.1), 0) else searchMembersW c strict (X.map f) d.1 d.2.1 d.2.2.1)
          (if d.2.2.2 then .ok (d.1, d.2.1, d.2.2.1) else searchMembers c strict (X.map g) d.1 d.2.1 d.2.2.1) := by
        split
        · exact .ok (.zero _ (Nat.le_refl _) (by omega))
        · exact searchMembersW_cost c strict (by omega) X h _ _ _
      refine hs.bind fun x k2 p2 => ?_
      obtain ⟨t1, x, e1⟩ := x
      obtain ⟨k3, h3, p3⟩ := parseSpaceW_pays x e1
      simp only
      rw [h3]
      have q : Pays A (B + X.length * (B + 1) + 14) s (parseSpace x e1).1 (k1 + k2 + k3 + 1) :=
        (p1.trans p2 (k'' := k1 + k2) (B'' := B + X.length * (B + 1) + 11) (by omega)).trans
          (p3.mono (A' := A) (by omega) (Nat.le_refl (2 + k3))) (by omega)
      generalize parseSpace x e1 = r at q ⊢
      obtain ⟨r, e2⟩ := r
      cases r with
      | nil => exact .ok (q.mono (by omega) (by omega))
      | cons b p =>
        simp only
        split
        · obtain ⟨k4, h4, p4⟩ := parseSpaceW_pays p e2
          rw [h4]
          have q2 : Pays (A + B + X.length * (B + 1) + 16) 0 s p (k1 + k2 + k3 + 1 + 2) :=
            (q.mono (A' := A) (B' := B + X.length * (B + 1) + 16) (k' := k1 + k2 + k3 + 1 + 2) (by omega) (by omega)).comma (by omega) (by omega)
          have q3 : Pays (A + B + X.length * (B + 1) + 16) 0 s (parseSpace p e2).1 (k1 + k2 + k3 + 1 + k4) :=
            q2.trans (p4.mono (A' := A + B + X.length * (B + 1) + 16) (by omega) (Nat.le_refl (2 + k4))) (by omega)
          have hsel : (if d.2.2.2 = true then Y.map f else f y :: Y.map f) = (if d.2.2.2 = true then Y else y :: Y).map f := by split <;> simp
          have hsel' : (if d.2.2.2 = true then Y.map g else g y :: Y.map g) = (if d.2.2.2 = true then Y else y :: Y).map g := by split <;> simp
          rw [hsel, hsel']
          refine (ih _ t1 _ _ ?_).bind fun z k5 p5 => .free fun w hw => ?_
          · intro z hz
            split at hz
            · exact hY z (by simp [hz])
            · exact hY z hz
          · exact (q3.trans p5 (by omega)).drop (membersEnd_length hw)
        · exact .free fun w hw => (q.mono (by omega) (by omega)).drop (membersEnd_length hw)

theorem objectEnd_length {t : τ} {s : Bytes} {e : EPtr} {r : τ × Bytes × EPtr} (h : objectEnd t s e = .ok r) : r.2.1.length ≤ s.length := by
  unfold objectEnd at h
  cases s with
  | nil => cases h; simp
  | cons b p =>
    simp only at h
    split at h <;> cases h <;> simp

theorem objectBodyW_cost (c : Cfg) (strict : Bool) (hA : 33 ≤ A) (X : List ι) (h : ∀ x ∈ X, MemberLin A B (f x) (g x))
    (t : τ) (s : Bytes) (e : EPtr) :
    Cost (fun r k => Pays (A + B + X.length * (B + 1) + 16) (B + X.length * (B + 1) + 18) s r.2.1 k)
      (objectBodyW c strict (X.map f) t s e) (objectBody c strict (X.map g) t s e) := by
  unfold objectBodyW objectBody
  obtain ⟨k1, h1, p1⟩ := parseSpaceW_pays s e
  replace p1 := p1.mono (A' := A + B + X.length * (B + 1) + 16) (by omega) (Nat.le_refl (2 + k1))
  rw [h1]
  generalize parseSpace s e = r at p1 ⊢
  obtain ⟨r, e1⟩ := r
  cases r with
  | nil => exact .ok (p1.mono (Nat.le_refl _) (by omega))
  | cons b q =>
    simp only
    split
    · refine (membersW_cost c strict hA X h _ X t _ _ fun _ h => h).bind fun x k2 p2 => ?_
      obtain ⟨t1, x, e2⟩ := x
      have p3 := p1.trans p2 (k'' := k1 + k2) (B'' := B + X.length * (B + 1) + 16) (by omega)
      cases x with
      | nil => exact .ok (p3.mono (Nat.le_refl _) (by omega))
      | cons b q =>
        simp only at p3 ⊢
        obtain ⟨k4, h4, p4⟩ := parseSpaceW_pays (b :: q) e2
        rw [h4]
        have p5 := p3.trans (p4.mono (A' := A + B + X.length * (B + 1) + 16) (by omega) (Nat.le_refl (2 + k4)))
          (k'' := k1 + k2 + k4) (B'' := B + X.length * (B + 1) + 18) (by omega)
        generalize parseSpace (b :: q) e2 = r at p5 ⊢
        obtain ⟨r, e3⟩ := r
        cases r with
        | nil => exact .ok p5
        | cons b q => exact .free fun w hw => p5.drop (objectEnd_length hw)
    · exact .free fun w hw => (p1.mono (Nat.le_refl _) (by omega)).drop (objectEnd_length hw)

theorem deObjectW_lin (c : Cfg) (strict : Bool) (dflt : τ) (hA : 33 ≤ A) (X : List ι) (h : ∀ x ∈ X, MemberLin A B (f x) (g x)) :
    Lin (A + B + X.length * (B + 1) + 16) (B + X.length * (B + 1) + 20) (deObjectW c strict dflt (X.map f)) (deObject c strict dflt (X.map g)) := by
  intro t s e
  unfold deObjectW deObject
  split
  · obtain ⟨k, h, hp⟩ := parseNullW_post dflt s e
    simp only [h]
    exact .ok (hp.mono (by omega) (by omega))
  · next hn =>
    refine Cost.lin ?_ hn
    cases s with
    | nil => exact .ok (.zero _ (Nat.le_refl _) (by omega))
    | cons b p =>
      simp only
      split
      · split
        · obtain ⟨k1, h1, p1⟩ := parseSpaceW_pays p e
          rw [h1]
          replace p1 := (p1.before (s := b :: p) (by simp)).mono (A' := A + B + X.length * (B + 1) + 16) (by omega) (Nat.le_refl (2 + k1))
          generalize parseSpace p e = r at p1 ⊢
          obtain ⟨r, e1⟩ := r
          refine .same fun x _ => ?_
          split
          · exact .ok (p1.mono (by omega) (by omega)).nil
          · cases r with
            | nil => exact .ub
            | cons d q => exact .ok ((p1.mono (by omega) (by omega)).drop (by simp))
        · exact .ok (.zero _ (by simp) (by omega))
      · exact (objectBodyW_cost c strict hA X h t p e).count (f := (· + 2)) fun r k h =>
          (h.before (s := b :: p) (by simp)).mono (Nat.le_refl _) (by omega)

end

/-! ### Array structures -/

section
variable {τ : Type} {ι : Type _} {f : ι → DeW τ} {g : ι → AMember τ} {A B : Nat}

theorem aentry_lin {τ : Type} {x : WEntry τ} {A B : Nat} (h : Lin0 A B x.work x.entry.ref.ser.de) :
    Lin0 A (B + 1) x.deA x.entry.toAMember.de := by
  intro t s e
  obtain ⟨en, W⟩ := x
  cases en with
  | mem m => exact (h (m.get t) s e).bind fun d k hd => .ok (hd.mono (Nat.le_refl _) (by omega))
  | prop m => exact (h m.ser.dflt s e).bind fun d k hd => .ok (hd.mono (Nat.le_refl _) (by omega))

theorem amembersEnd_length {t : τ} {s : Bytes} {e : EPtr} {r : τ × Bytes × EPtr} (h : amembersEnd t s e = .ok r) : r.2.1.length ≤ s.length := by
  unfold amembersEnd at h
  cases s with
  | nil => cases h; simp
  | cons b p =>
    simp only at h
    split at h <;> cases h <;> simp

theorem objectArrayEnd_length {t : τ} {s : Bytes} {e : EPtr} {r : τ × Bytes × EPtr} (h : objectArrayEnd t s e = .ok r) :
    r.2.1.length ≤ s.length := by
  unfold objectArrayEnd at h
  cases s with
  | nil => cases h; simp
  | cons b p =>
    simp only at h
    split at h <;> cases h <;> simp

theorem deAMembersW_cost (hA : 1 ≤ A) (X : List ι) (h : ∀ x ∈ X, Lin0 A B (f x) (g x).de) : ∀ (t : τ) (s : Bytes) (e : EPtr),
    Cost (fun r k => Pays A (X.length * (B + 5) + 1) s r.2.1 k) (deAMembersW (X.map f) t s e) (deAMembers (X.map g) t s e) := by
  induction X with
  | nil => intro t s e; exact .ok (.zero _ (Nat.le_refl _) (by omega))
  | cons x X ih =>
    intro t s e
    simp only [List.map_cons, deAMembersW, deAMembers]
    refine (h x (by simp) t s e).bind fun d k1 p1 => ?_
    obtain ⟨t1, d, e1⟩ := d
    obtain ⟨k2, h2, p2⟩ := parseSpaceW_pays d e1
    simp only
    rw [h2]
    have q : Pays A (B + 3) s (parseSpace d e1).1 (k1 + k2 + 1) := p1.trans (p2.mono (A' := A) hA (Nat.le_refl (2 + k2))) (by omega)
    simp only [List.length_cons, Nat.add_mul, Nat.one_mul] at *
    generalize parseSpace d e1 = r at q ⊢
    obtain ⟨r, e2⟩ := r
    cases r with
    | nil => exact .ok (q.mono (by omega) (by omega))
    | cons b p =>
      simp only
      split
      · obtain ⟨k3, h3, p3⟩ := parseSpaceW_pays p e2
        rw [h3]
        have q2 := (q.drop (q := p) (by simp)).trans (p3.mono (A' := A) hA (Nat.le_refl (2 + k3))) (k'' := k1 + k2 + 1 + k3) (B'' := B + 5) (by omega)
        refine (ih (fun y hy => h y (by simp [hy])) t1 _ _).bind fun z k5 p5 => .free fun w hw => ?_
        exact (q2.trans p5 (by omega)).drop (amembersEnd_length hw)
      · exact .free fun w hw => (q.mono (by omega) (by omega)).drop (amembersEnd_length hw)

theorem objectArrayBodyW_cost (hA : 1 ≤ A) (X : List ι) (h : ∀ x ∈ X, Lin0 A B (f x) (g x).de) (t : τ) (s : Bytes) (e : EPtr) :
    Cost (fun r k => Pays A (X.length * (B + 5) + 5) s r.2.1 k) (objectArrayBodyW (X.map f) t s e) (objectArrayBody (X.map g) t s e) := by
  unfold objectArrayBodyW objectArrayBody
  obtain ⟨k1, h1, p1⟩ := parseSpaceW_pays s e
  replace p1 := p1.mono (A' := A) hA (Nat.le_refl (2 + k1))
  rw [h1]
  generalize parseSpace s e = r at p1 ⊢
  obtain ⟨r, e1⟩ := r
  cases r with
  | nil => exact .ok (p1.mono (Nat.le_refl _) (by omega))
  | cons b q =>
    simp only
    split
    · refine (deAMembersW_cost hA X h t _ _).bind fun x k2 p2 => ?_
      obtain ⟨t1, x, e2⟩ := x
      have p3 := p1.trans p2 (k'' := k1 + k2) (B'' := X.length * (B + 5) + 3) (by omega)
      cases x with
      | nil => exact .ok (p3.mono (Nat.le_refl _) (by omega))
      | cons b q =>
        simp only at p3 ⊢
        obtain ⟨k4, h4, p4⟩ := parseSpaceW_pays (b :: q) e2
        rw [h4]
        have p5 := p3.trans (p4.mono (A' := A) hA (Nat.le_refl (2 + k4))) (k'' := k1 + k2 + k4) (B'' := X.length * (B + 5) + 5) (by omega)
        generalize parseSpace (b :: q) e2 = r at p5 ⊢
        obtain ⟨r, e3⟩ := r
        cases r with
        | nil => exact .ok p5
        | cons b q => exact .free fun w hw => p5.drop (objectArrayEnd_length hw)
    · exact .free fun w hw => (p1.mono (Nat.le_refl _) (by omega)).drop (objectArrayEnd_length hw)

theorem deObjectArrayW_lin (dflt : τ) (hA : 1 ≤ A) (X : List ι) (h : ∀ x ∈ X, Lin0 A B (f x) (g x).de) :
    Lin A (X.length * (B + 5) + 7) (deObjectArrayW dflt (X.map f)) (deObjectArray dflt (X.map g)) := by
  intro t s e
  unfold deObjectArrayW deObjectArray
  split
  · obtain ⟨k, h, hp⟩ := parseNullW_post dflt s e
    simp only [h]
    exact .ok (hp.mono (by omega) (by omega))
  · next hn =>
    refine Cost.lin ?_ hn
    cases s with
    | nil => exact .ok (.zero _ (Nat.le_refl _) (by omega))
    | cons b p =>
      simp only
      split
      · exact .ok (.zero _ (by simp) (by omega))
      · exact (objectArrayBodyW_cost hA X h t p e).count (f := (· + 2)) fun r k h =>
          (h.before (s := b :: p) (by simp)).mono (Nat.le_refl _) (by omega)

end

/-! ### Whole descriptions -/

open Spec

/-- Bounds that hold for every entry of a list. -/
theorem bound_all {ι : Type _} {P : ι → Nat → Nat → Prop} (X : List ι) (hm : ∀ x A A' B B', P x A B → A ≤ A' → B ≤ B' → P x A' B')
    (h : ∀ x ∈ X, ∃ A B, P x A B) : ∃ A B, ∀ x ∈ X, P x A B := by
  induction X with
  | nil => exact ⟨0, 0, by simp⟩
  | cons x X ih =>
    obtain ⟨A, B, h1⟩ := h x (by simp)
    obtain ⟨A', B', h2⟩ := ih fun y hy => h y (by simp [hy])
    refine ⟨A + A', B + B', fun y hy => ?_⟩
    rcases List.mem_cons.mp hy with rfl | hy
    · exact hm _ _ _ _ _ h1 (by omega) (by omega)
    · exact hm _ _ _ _ _ (h2 y hy) (by omega) (by omega)

theorem Lin0.mono {α : Type} {A A' B B' : Nat} {W : DeW α} {D : De α} (h : Lin0 A B W D) (hA : A ≤ A') (hB : B ≤ B') :
    Lin0 A' B' W D := fun v s e => (h v s e).mono fun _ _ h => h.mono hA (by omega)

theorem MemberLin.mono {τ : Type} {A A' B B' : Nat} {W : MemberW τ} {m : Member τ} (h : MemberLin A B W m) (hA : A ≤ A') (hB : B ≤ B') :
    MemberLin A' B' W m := fun t s e u => (h t s e u).mono fun _ _ h => h.mono hA (by omega)

theorem counted_lin (c : Cfg) {α : Type} {S : Ser α} {W : DeW α} (h : Counted c S W) : ∃ A B, Lin A B W S.de := by
  induction h with
  | int ty => exact ⟨_, _, deIntW_lin c ty⟩
  | bool => exact ⟨_, _, deBoolW_lin⟩
  | float F R => exact ⟨_, _, deFloatW_lin F R⟩
  | str => exact ⟨_, _, deStrW_lin⟩
  | chars N => exact ⟨_, _, deCharArrayW_lin N⟩
  | enum strict dflt L => exact ⟨_, _, deEnumW_lin c strict dflt L⟩
  | flags G => exact ⟨_, _, deFlagsW_lin c G⟩
  | time ty fr => exact ⟨_, _, deTimeW_lin c ty fr⟩
  | size ty metric => exact ⟨_, _, deSizeW_lin c ty metric⟩
  | raw => exact ⟨_, _, deRawW_lin c⟩
  | rawQuoted serQ reqQ => exact ⟨_, _, deRawQuotedW_lin c reqQ⟩
  | quoted serQ reqQ _ ih =>
    obtain ⟨A, B, h⟩ := ih
    exact ⟨_, _, deQuotedW_lin h reqQ⟩
  | pointer _ ih =>
    obtain ⟨A, B, h⟩ := ih
    exact ⟨_, _, dePointerW_lin h⟩
  | memberValue dflt get set _ ih =>
    obtain ⟨A, B, h⟩ := ih
    exact ⟨_, _, deMemberValueW_lin h dflt get set⟩
  | array K _ ih =>
    obtain ⟨A, B, h⟩ := ih
    exact ⟨_, _, deSeqW_lin K h.lin0 _ _⟩
  | dict K _ _ ihK ihV =>
    obtain ⟨A, B, h⟩ := ihK
    obtain ⟨A', B', h'⟩ := ihV
    exact ⟨_, _, deSeqW_lin K (S := fieldSer _ _) (deFieldW_lin0 h.lin0 h'.lin0) _ _⟩
  | fixed k N _ ih =>
    obtain ⟨A, B, h⟩ := ih
    exact ⟨_, _, deFixVecW_lin k h⟩
  | @object τ L strict dflt _ ih =>
    obtain ⟨A, B, h⟩ := bound_all (P := fun x A B => MemberLin A B x.de x.entry.toMember) L
      (by intro _ _ _ _ _ h hA hB; exact h.mono hA hB) fun x hx => by
        obtain ⟨A, B, h⟩ := ih x hx
        exact ⟨_, _, entry_lin h.lin0⟩
    exact ⟨_, _, deObjectW_lin (A := A + 33) (B := B) c strict dflt (by omega) L fun x hx => (h x hx).mono (by omega) (by omega)⟩
  | @objectArray τ L dflt _ ih =>
    obtain ⟨A, B, h⟩ := bound_all (P := fun x A B => Lin0 A B x.deA x.entry.toAMember.de) L
      (by intro _ _ _ _ _ h hA hB; exact h.mono hA hB) fun x hx => by
        obtain ⟨A, B, h⟩ := ih x hx
        exact ⟨_, _, aentry_lin h.lin0⟩
    exact ⟨_, _, deObjectArrayW_lin (A := A + 1) (B := B) dflt (by omega) L fun x hx => (h x hx).mono (by omega) (by omega)⟩

end Wjson
