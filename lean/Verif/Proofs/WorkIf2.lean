import Verif.Proofs.WorkIf
/-
Lemmas for C86: descriptions that mention themselves, without alternatives; alternatives, without recursion.
-/
namespace Wjson
open Spec

/-! ### Recursion -/

section
variable {c : Cfg} {α : Type}

/-- The work `m * B + b` beside the bytes consumed, if it is `B` in the place. -/
def RecPays {β : Type} (F : Ser α → Ser β) (FW : Ser α → DeW α → DeW β) (m b : Nat) (i : Bool) : Prop :=
  ∀ N A B S W, m * B + b ≤ A → Within N A B W S.de → Within N A (if i then b else m * B + b) (FW S W) (F S).de

theorem RecPays.mono {β : Type} {F : Ser α → Ser β} {FW : Ser α → DeW α → DeW β} {m b m' b' : Nat} {i : Bool} (h : RecPays F FW m b i)
    (hm : m ≤ m') (hb : b ≤ b') : RecPays F FW m' b' i := by
  intro N A B S W hA hW
  have := Nat.mul_le_mul_right B hm
  refine (h N A B S W (by omega) hW).mono (Nat.le_refl _) ?_
  cases i
  · simp only [Bool.false_eq_true, if_false]; omega
  · exact hb

theorem rec_member {τ : Type} {x : RecEntry α τ} {m b N A B : Nat} {S : Ser α} {W : DeW α} (h : RecPays x.F x.FW m b false)
    (hA : m * B + b + 1 ≤ A) (hW : Within N A B W S.de) :
    MemberWithin N A (m * B + (b + x.name.length + 7)) (x.wentry S W).de (x.entry S).toMember := by
  obtain ⟨p, name, get, set, F, FW⟩ := x
  have hw := h N A B S W (by omega) hW
  simp only [Bool.false_eq_true, if_false] at hw
  cases p with
  | true => exact (entry_within (x := ⟨.prop ⟨name, get, set, F S⟩, FW S W⟩) (by omega) hw).mono (Nat.le_refl _) (by simp only [Entry.ref]; omega)
  | false => exact (entry_within (x := ⟨.mem ⟨name, get, set, F S⟩, FW S W⟩) (by omega) hw).mono (Nat.le_refl _) (by simp only [Entry.ref]; omega)

theorem rec_amember {τ : Type} {x : RecEntry α τ} {m b N A B : Nat} {S : Ser α} {W : DeW α} (h : RecPays x.F x.FW m b false)
    (hA : m * B + b ≤ A) (hW : Within N A B W S.de) :
    Within N A (m * B + b + 1) (x.wentry S W).deA (x.entry S).toAMember.de := by
  obtain ⟨p, name, get, set, F, FW⟩ := x
  have hw := h N A B S W hA hW
  simp only [Bool.false_eq_true, if_false] at hw
  cases p with
  | true => exact aentry_within (x := ⟨.prop ⟨name, get, set, F S⟩, FW S W⟩) hw
  | false => exact aentry_within (x := ⟨.mem ⟨name, get, set, F S⟩, FW S W⟩) hw

theorem countedRec_pays {i : Bool} {β : Type} {F : Ser α → Ser β} {FW : Ser α → DeW α → DeW β} (h : CountedRec c α i F FW) :
    ∃ m b, RecPays F FW m b i := by
  induction h with
  | here => exact ⟨1, 0, fun N A B S W hA hW => by simpa using hW⟩
  | other h =>
    obtain ⟨A0, B0, h⟩ := counted_lin c h
    exact ⟨0, A0 + B0, fun N A B S W hA hW => (h.within N).mono (by omega) (by simp)⟩
  | weaken _ ih =>
    obtain ⟨m, b, h⟩ := ih
    exact ⟨m, b, fun N A B S W hA hW => (h N A B S W hA hW).mono (Nat.le_refl _) (by simp)⟩
  | @pointer i _ _ _ _ ih =>
    obtain ⟨m, b, h⟩ := ih
    refine ⟨m, b + 5, fun N A B S W hA hW => (dePointerW_within (h N A B S W (by omega) hW)).mono (Nat.le_refl _) ?_⟩
    cases i
    · simp only [Bool.false_eq_true, if_false]; omega
    · exact Nat.le_refl _
  | @memberValue i _ _ _ _ dflt get set _ ih =>
    obtain ⟨m, b, h⟩ := ih
    refine ⟨m, b + 1, fun N A B S W hA hW => (deMemberValueW_within (h N A B S W (by omega) hW) dflt get set).mono (Nat.le_refl _) ?_⟩
    cases i
    · simp only [Bool.false_eq_true, if_false]; omega
    · exact Nat.le_refl _
  | array K _ ih =>
    obtain ⟨m, b, h⟩ := ih
    refine ⟨m, b + 6, fun N A B S W hA hW => ?_⟩
    have hw := h N A B S W (by omega) hW
    simp only [Bool.false_eq_true, if_false] at hw
    exact (deSeqW_within K hw (by omega) _ _).mono (Nat.le_refl _) (by simp only [if_true]; omega)
  | dict K _ _ ihK ihV =>
    obtain ⟨m, b, h⟩ := ihK
    obtain ⟨m', b', h'⟩ := ihV
    refine ⟨m + m', b + b' + 11, fun N A B S W hA hW => ?_⟩
    rw [Nat.add_mul] at hA
    have hk := h N A B S W (by omega) hW
    have hv := h' N A B S W (by omega) hW
    simp only [Bool.false_eq_true, if_false] at hk hv
    exact (deSeqW_within K (S := fieldSer _ _) (deFieldW_within (by omega) hk hv) (by omega) _ _).mono (Nat.le_refl _) (by simp only [if_true]; omega)
  | fixed k M _ ih =>
    obtain ⟨m, b, h⟩ := ih
    refine ⟨m, b + M * 6 + 11, fun N A B S W hA hW => ?_⟩
    have hw := h N A B S W (by omega) hW
    simp only [Bool.false_eq_true, if_false] at hw
    exact (deFixVecW_within (S := pointerSer _) k (dePointerW_within hw) (by omega) fun v s e hn => dePointerW_null _ v s e hn).mono (Nat.le_refl _)
      (by simp only [if_true]; omega)
  | @object τ L strict dflt _ ih =>
    obtain ⟨m, b, h⟩ := bound_all (P := fun (x : RecEntry α τ) m b => RecPays x.F x.FW m b false ∧ x.name.length ≤ b) L
      (by intro _ _ _ _ _ h hA hB; exact ⟨h.1.mono hA hB, Nat.le_trans h.2 hB⟩) fun x hx => by
        obtain ⟨m, b, h⟩ := ih x hx
        exact ⟨m, b + x.name.length, h.mono (Nat.le_refl _) (by omega), by omega⟩
    refine ⟨m + L.length * m, (b + b + 7) + L.length * (b + b + 8) + 33, fun N A B S W hA hW => ?_⟩
    have e1 : L.length * (m * B + (b + b + 7) + 1) = L.length * m * B + L.length * (b + b + 8) := by
      rw [Nat.add_assoc, Nat.mul_add, Nat.mul_assoc]
    rw [Nat.add_mul] at hA
    refine (deObjectW_within (B := m * B + (b + b + 7)) c strict dflt (by omega) L (fun x hx =>
      (rec_member (h x hx).1 (by omega) hW).mono (Nat.le_refl _) (by have := (h x hx).2; omega)) ?_).mono (Nat.le_refl _) (by simp only [if_true]; omega)
    unfold memberFee
    omega
  | @objectArray τ L dflt _ ih =>
    obtain ⟨m, b, h⟩ := bound_all (P := fun (x : RecEntry α τ) m b => RecPays x.F x.FW m b false) L
      (by intro _ _ _ _ _ h hA hB; exact h.mono hA hB) ih
    refine ⟨m + L.length * m, b + L.length * (b + 6) + 5, fun N A B S W hA hW => ?_⟩
    have e1 : L.length * (m * B + b + 1 + 5) = L.length * m * B + L.length * (b + 6) := by
      rw [Nat.add_assoc, Nat.add_assoc, Nat.mul_add, Nat.mul_assoc]
    rw [Nat.add_mul] at hA
    exact (deObjectArrayW_within (B := m * B + b + 1) dflt L (fun x hx =>
      rec_amember (h x hx) (by omega) hW) (by omega)).mono (Nat.le_refl _) (by simp only [if_true]; omega)

/-- The numbers are the same for any number of levels. -/
theorem levelsW_within {F : Ser α → Ser α} {FW : Ser α → DeW α → DeW α} (h : CountedRec c α true F FW) :
    ∃ A B, ∀ d n N, Within N A B (levelsW F FW (unfinished d) (fun _ _ _ => .fuel) n) (levels F (unfinished d) n).de := by
  obtain ⟨m, b, h⟩ := countedRec_pays h
  refine ⟨m * b + b, b, fun d n => ?_⟩
  induction n with
  | zero => exact fun N v s e _ => .fuel
  | succ n ih => exact fun N => h N _ _ _ _ (Nat.le_refl _) (ih N)

end

/-! ### Alternatives -/

/-- As `Lin` on texts of at most `N` bytes. -/
def LinN {α : Type} (N A B : Nat) (W : DeW α) (D : De α) : Prop := ∀ v s e, s.length ≤ N → Cost (LinPost A B s) (W v s e) (D v s e)

section
variable {α : Type} {S : Ser α} {W : DeW α} {N A B : Nat}

theorem LinN.within {D : De α} (h : LinN N A B W D) : Within N A B W D := fun v s e hs => (h v s e hs).mono fun _ _ h => h.1

theorem LinN.mono {D : De α} {A' B' : Nat} (h : LinN N A B W D) (hA : A ≤ A') (hB : B ≤ B') : LinN N A' B' W D :=
  fun v s e hs => (h v s e hs).mono fun _ _ h => h.mono hA (by omega)

theorem Lin.linN {D : De α} (h : Lin A B W D) (N : Nat) : LinN N A B W D := fun v s e _ => h v s e

/-- A reader that handles `null` first. -/
theorem Within.linN {D : De α} (h : Within N A B W D) (hn : ∀ v s e, isNull s = true → Cost (LinPost A B s) (W v s e) (D v s e)) : LinN N A B W D := by
  intro v s e hs
  by_cases h' : isNull s = true
  · exact hn v s e h'
  · exact (h v s e hs).lin h'

theorem deSeqW_linN {C : Type} (K : Coll α C) (h : Within N A B W S.de) (hA : B + 6 ≤ A) (L R : Byte) :
    LinN N A 3 (deSeqW K S W L R) (deSeq K S L R) := by
  refine (deSeqW_within K h hA L R).linN fun v s e hn => ?_
  unfold deSeqW deSeq
  rw [if_pos hn, if_pos hn]
  obtain ⟨k, h, hp⟩ := parseNullW_post K.clear s e
  simp only [h]
  exact .ok (hp.mono (by omega) (by omega))

theorem dePointerW_linN (h : LinN N A B W S.de) : LinN N A (B + 5) (dePointerW S W) (dePointer S) := by
  refine (dePointerW_within h.within).linN fun v s e hn => ?_
  cases s with
  | nil => cases hn
  | cons b t =>
    obtain rfl : b = c%'n' := by simpa [isNull] using hn
    exact .ok ⟨.zero _ (by simp <;> omega) (by omega), .zero _ (by omega)⟩

theorem deMemberValueW_linN {τ : Type} (h : LinN N A B W S.de) (dflt : τ) (get : τ → α) (set : α → τ → τ) :
    LinN N A (B + 1) (deMemberValueW get set W) (memberValueSer dflt get set S).de := fun v s e hs =>
  (h (get v) s e hs).bind fun r _ h => .ok (h.mono (r := (set r.1 v, r.2)) (Nat.le_refl _) (by omega))

theorem fixNullW_linN (h : LinN N A B W S.de) (s : Bytes) (hs : s.length ≤ N) (hn : isNull s = true)
    (vs : List α) : ∀ e, Cost (fun _ k => k + vs.length * A * (parseNull s .null).1.length ≤ vs.length * A * s.length + vs.length * (B + 1) + 1)
      (fixNullW W s vs e) (fixNull S s vs e) := by
  induction vs with
  | nil => intro e; exact .ok (by simp)
  | cons v vs ih =>
    intro e
    refine (h v s e hs).bind fun d k hk => (ih d.2.2).bind fun r j hj => .ok ?_
    have := hk.2 hn
    simp only [List.length_cons, Nat.add_mul, Nat.one_mul] at *
    omega

theorem deFixVecW_linN {M : Nat} (kd : FixKind) (h : LinN N A B W S.de) :
    LinN N (M * A + A + B + 6) (M * (B + 1) + 4) (deFixVecW (N := M) kd S W) (deFixVec kd S) := by
  intro v s e hs
  have hl : v.toList.length = M := by simp
  have hc : Cost (LinPost (M * A + A + B + 6) (M * (B + 1) + 4) s) (deFixW kd S W c%'[' c%']' v.toList s e) (deFix kd S c%'[' c%']' v.toList s e) := by
    unfold deFixW deFix
    split
    · next hn =>
      refine (fixNullW_linN h s hs hn v.toList e).bind fun x k hk => ?_
      obtain ⟨j, h1, h2⟩ := parseNullW_eq s x.2
      rw [h1]
      rw [hl] at hk
      have hb := parseNull_bytes s .null x.2
      have hl := parseNull_length s x.2
      have hp : Pays (M * A + A + B + 6) (M * (B + 1) + 4) s (parseNull s x.2).1 (k + j + 2) := by
        refine Pays.mono (A := M * A + 1) (B := M * (B + 1) + 2) (k := k + j) ⟨hl, ?_⟩ (by omega) (by omega)
        rw [hb] at hk
        simp only [Nat.add_mul, Nat.one_mul]
        omega
      exact .ok ⟨hp, fun _ => by rw [hb]; exact hp.2⟩
    · next hn =>
      refine Cost.lin ?_ hn
      cases s with
      | nil => exact .ok (.zero _ (Nat.le_refl _) (by omega))
      | cons b t =>
        simp only
        split
        · exact .ok (.zero _ (by simp) (by omega))
        · simp only [List.length_cons] at hs
          exact (fixLoopW_within kd (h.within.mono (A' := M * A + A + B + 6) (by omega) (Nat.le_refl B)) (by omega) c%']' v.toList t e (by omega)).count
            (f := (· + 2)) fun r k h => h.behind (by omega)
  refine hc.bind fun r k hr => ?_
  simp only
  split
  · exact .ok hr
  · exact .ub

theorem deQuotedStrW_linN (h : LinN (6 * N) A B W S.de) : LinN N (6 * A + 18) (B + 5) (deQuotedStrW W) (deQuotedStr S) := by
  intro v s e hs
  unfold deQuotedStrW deQuotedStr
  have hsp := deStrW_lin [] s e
  have hd : strSer.de [] s e = deStr [] s e := rfl
  rw [hd]
  generalize deStrW [] s e = w at hsp ⊢
  cases ho : deStr [] s e with
  | ub => rw [ho] at hsp; cases hsp; exact .ub
  | fuel => rw [ho] at hsp; cases hsp; exact .fuel
  | ok r =>
    rw [ho] at hsp
    cases hsp with
    | @ok _ k hk =>
      have hw := deStr_written ho
      simp only [Out.bind_ok]
      have hk' : LinPost (6 * A + 18) (B + 5) s r (k + 1) := hk.mono (by omega) (by omega)
      split
      · exact .ok ⟨hk'.1.nil, hk'.2⟩
      · refine (h v r.1 .fresh (by have := hw.2; omega)).bind fun r2 j hj => ?_
        have hj1 : j ≤ A * r.1.length + B := by have := hj.1.2; omega
        have hw2 := Nat.mul_le_mul_left A hw.2
        have hl := hw.1
        have hp : Pays (6 * A + 18) (B + 5) s r.2.1 (k + j + 1) := by
          refine ⟨hl, ?_⟩
          have := hk.1.2
          simp only [Nat.add_mul, Nat.mul_add, Nat.add_zero, Nat.mul_assoc, Nat.mul_left_comm A 6] at *
          omega
        have hz : NullPays (6 * A + 18) (B + 5) s (k + j + 1) := by
          intro hn
          have hr : r.2.1 = (parseNull s e).1 := by
            unfold deStr at ho
            rw [if_pos hn] at ho
            cases ho
            rfl
          rw [parseNull_bytes s .null e, ← hr]
          exact hp.2
        obtain ⟨v2, p2, e2⟩ := r2
        cases e2 with
        | null => exact .ok ⟨hp, hz⟩
        | obj z =>
          simp only
          split
          · exact .ok ⟨hp.nil, hz⟩
          · exact .ok ⟨hp, hz⟩

theorem deQuotedW_linN (h : LinN (6 * N) A B W S.de) (reqQ : Bool) : LinN N (6 * A + 18) (B + 7) (deQuotedW W reqQ) (deQuoted S reqQ) := by
  intro v s e hs
  unfold deQuotedW deQuoted
  split
  · exact (deQuotedStrW_linN h v s e hs).count (f := (· + 1)) fun r k h => h.mono (by omega) (by omega)
  · split
    · exact (deQuotedStrW_linN h v s e hs).count (f := (· + 2)) fun r k h => h.mono (by omega) (by omega)
    · exact (h v s e (by omega)).count (f := (· + 2)) fun r k h => h.mono (by omega) (by omega)

end

section
variable {τ : Type} {N A B : Nat}

theorem deObjectW_linN {ι : Type _} {f : ι → MemberW τ} {g : ι → Member τ} (c : Cfg) (strict : Bool) (dflt : τ) (hA : 33 ≤ A) (X : List ι)
    (h : ∀ x ∈ X, MemberWithin N A B (f x) (g x)) (hB : memberFee B X.length + 2 ≤ A) :
    LinN N A 4 (deObjectW c strict dflt (X.map f)) (deObject c strict dflt (X.map g)) := by
  refine (deObjectW_within c strict dflt hA X h hB).linN fun v s e hn => ?_
  unfold deObjectW deObject
  rw [if_pos hn, if_pos hn]
  obtain ⟨k, h, hp⟩ := parseNullW_post dflt s e
  simp only [h]
  exact .ok (hp.mono (by omega) (by omega))

theorem deObjectArrayW_linN {ι : Type _} {f : ι → DeW τ} {g : ι → AMember τ} (dflt : τ) (X : List ι)
    (h : ∀ x ∈ X, Within N A B (f x) (g x).de) (hB : X.length * (B + 5) + 5 ≤ A) :
    LinN N A 3 (deObjectArrayW dflt (X.map f)) (deObjectArray dflt (X.map g)) := by
  refine (deObjectArrayW_within dflt X h hB).linN fun v s e hn => ?_
  unfold deObjectArrayW deObjectArray
  rw [if_pos hn, if_pos hn]
  obtain ⟨k, h, hp⟩ := parseNullW_post dflt s e
  simp only [h]
  exact .ok (hp.mono (by omega) (by omega))

theorem readNullW_within (m : MRef τ) {W : DeW m.α} (h : Within N A B W m.ser.de) (hN : 4 ≤ N) (t : τ) :
    Cost (fun _ k => k ≤ 4 * A + B) (readNullW m W t) (readNull m t) :=
  (h _ _ _ (by simpa using hN)).bind fun r k hk => .ok (by
    have := hk.2
    have hl : (b!"null" : Bytes).length = 4 := rfl
    rw [hl] at this
    simp only
    omega)

/-- What a `member_if` costs besides the bytes consumed: the alternative that is tried first may scan all of the text. -/
def altFee (N A B n : Nat) : Nat := A * N + 4 * A + 3 * B + n + 16

theorem deMemberIfW_within (a b : MRef τ) {Wa : DeW a.α} {Wb : DeW b.α} (hA : 1 ≤ A) (hN : 4 ≤ N) (ha : Within N A B Wa a.ser.de)
    (hb : Within N A B Wb b.ser.de) (t : τ) (s : Bytes) (e : EPtr) (u : Bool) (hs : s.length ≤ N) :
    Cost (fun r k => Pays A (altFee N A B (a.name.length + b.name.length)) s r.2.1 k) (deMemberIfW a b Wa Wb t s e u) (deMemberIf a b t s e u) := by
  unfold deMemberIfW deMemberIf altFee
  refine (deMemberW_within a a.get hA ha t s .fresh u hs).bind fun d k p1 => ?_
  have hAN := Nat.mul_le_mul_left A hs
  simp only
  split
  · exact (readNullW_within b hb hN d.1).bind fun x j hj => .ok (p1.mono (Nat.le_refl _) (by omega))
  · refine (readNullW_within a ha hN d.1).bind fun x j hj => ?_
    refine (deMemberW_within b b.get hA hb x s e d.2.2.2 hs).count (f := (k + j + · + 1)) fun r i p2 => p2.mono (Nat.le_refl _) ?_
    have := p1.2
    omega

theorem deAMemberIfW_within (a b : MRef τ) {Wa : DeW a.α} {Wb : DeW b.α} (hN : 4 ≤ N) (ha : Within N A B Wa a.ser.de)
    (hb : Within N A B Wb b.ser.de) : Within N A (altFee N A B 0) (deAMemberIfW a b Wa Wb) (deAMemberIf a b) := by
  intro t s e hs
  unfold deAMemberIfW deAMemberIf altFee
  refine (aentry_within (x := ⟨.mem a, Wa⟩) ha t s .fresh hs).bind fun d k p1 => ?_
  have hAN := Nat.mul_le_mul_left A hs
  simp only
  split
  · exact (readNullW_within b hb hN d.1).bind fun x j hj => .ok (p1.mono (Nat.le_refl _) (by omega))
  · refine (readNullW_within a ha hN d.1).bind fun x j hj => ?_
    refine (aentry_within (x := ⟨.mem b, Wb⟩) hb x s e hs).count (f := (k + j + · + 1)) fun r i p2 => p2.mono (Nat.le_refl _) ?_
    have := p1.2
    omega

end

end Wjson
