import Verif.Proofs.WorkIf2
/-
Lemmas for C86: the degree of the work with alternatives inside each other.
-/
namespace Wjson
open Spec

/-- On texts of at most `N` bytes, `K * N ^ m` for every byte and once more. -/
def LinPoly {α : Type} (m : Nat) (W : DeW α) (D : De α) : Prop := ∃ K, ∀ N, 4 ≤ N → LinN N (K * N ^ m) (K * N ^ m) W D

/-- A fixed number is at most that number times `N ^ m`. -/
theorem le_mul_pow (k m : Nat) {N : Nat} (hN : 4 ≤ N) : k ≤ k * N ^ m :=
  Nat.le_mul_of_pos_right _ (Nat.pow_pos (by omega))

section
variable {α : Type} {S : Ser α} {W : DeW α} {m : Nat}

theorem Lin.poly {D : De α} {A B : Nat} (h : Lin A B W D) (m : Nat) : LinPoly m W D :=
  ⟨A + B, fun N hN => (h.linN N).mono (by have := le_mul_pow (A + B) m hN; omega) (by have := le_mul_pow (A + B) m hN; omega)⟩

theorem quoted_poly (serQ reqQ : Bool) (h : LinPoly m W S.de) : LinPoly m (deQuotedW W reqQ) (quotedSer S serQ reqQ).de := by
  obtain ⟨K, h⟩ := h
  refine ⟨6 * (K * 6 ^ m) + 18, fun N hN => ?_⟩
  have h1 := h (6 * N) (by omega)
  rw [Nat.mul_pow, ← Nat.mul_assoc] at h1
  have := le_mul_pow 18 m hN
  exact (deQuotedW_linN h1 reqQ).mono (by rw [Nat.add_mul, Nat.mul_assoc 6 (K * 6 ^ m)]; omega)
    (by rw [Nat.add_mul, Nat.mul_assoc 6 (K * 6 ^ m)]; omega)

theorem pointer_poly (h : LinPoly m W S.de) : LinPoly m (dePointerW S W) (pointerSer S).de := by
  obtain ⟨K, h⟩ := h
  refine ⟨K + 5, fun N hN => ?_⟩
  have := le_mul_pow 5 m hN
  exact (dePointerW_linN (h N hN)).mono (by rw [Nat.add_mul]; omega) (by rw [Nat.add_mul]; omega)

theorem memberValue_poly {τ : Type} (dflt : τ) (get : τ → α) (set : α → τ → τ) (h : LinPoly m W S.de) :
    LinPoly m (deMemberValueW get set W) (memberValueSer dflt get set S).de := by
  obtain ⟨K, h⟩ := h
  refine ⟨K + 1, fun N hN => ?_⟩
  have := le_mul_pow 1 m hN
  exact (deMemberValueW_linN (h N hN) dflt get set).mono (by rw [Nat.add_mul]; omega) (by rw [Nat.add_mul]; omega)

theorem array_poly {C : Type} (K : Coll α C) (h : LinPoly m W S.de) : LinPoly m (deSeqW K S W c%'[' c%']') (arraySer K S).de := by
  obtain ⟨k, h⟩ := h
  refine ⟨k + 6, fun N hN => ?_⟩
  have := le_mul_pow 6 m hN
  rw [Nat.add_mul]
  exact (deSeqW_linN K ((h N hN).within.mono (by omega) (Nat.le_refl _)) (by omega) _ _).mono (Nat.le_refl _) (by omega)

theorem dict_poly {κ ν C : Type} {SK : Ser κ} {SV : Ser ν} {WK : DeW κ} {WV : DeW ν} (K : Coll (κ × ν) C) (hK : LinPoly m WK SK.de)
    (hV : LinPoly m WV SV.de) : LinPoly m (deSeqW K (fieldSer SK SV) (deFieldW WK WV) c%'{' c%'}') (dictSer K SK SV).de := by
  obtain ⟨k, hK⟩ := hK
  obtain ⟨k', hV⟩ := hV
  refine ⟨k + k' + 11, fun N hN => ?_⟩
  have := le_mul_pow 11 m hN
  rw [Nat.add_mul, Nat.add_mul]
  exact (deSeqW_linN (S := fieldSer SK SV) K (deFieldW_within (by omega) ((hK N hN).within.mono (by omega) (Nat.le_refl _))
    ((hV N hN).within.mono (by omega) (Nat.le_refl _))) (by omega) _ _).mono (Nat.le_refl _) (by omega)

theorem fixed_poly (kd : FixKind) (M : Nat) (h : LinPoly m W S.de) : LinPoly m (deFixVecW (N := M) kd S W) (fixVecSer kd M S).de := by
  obtain ⟨k, h⟩ := h
  refine ⟨M * k + k + k + M + 6, fun N hN => ?_⟩
  have h1 := le_mul_pow 6 m hN
  have h2 := le_mul_pow M m hN
  simp only [Nat.add_mul, Nat.mul_assoc M k]
  exact (deFixVecW_linN kd (h N hN)).mono (by omega) (by rw [Nat.mul_add]; omega)

end

section
variable {τ : Type}

/-- As `LinPoly` for a place of the list of `object`. -/
def MemberPoly (m K : Nat) (w : MemberW τ) (x : Member τ) : Prop := ∀ N, 4 ≤ N → MemberWithin N (K * N ^ m) (K * N ^ m) w x

/-- As `LinPoly` for a place of the list of `object_array`. -/
def AMemberPoly (m K : Nat) (w : DeW τ) (x : AMember τ) : Prop := ∀ N, 4 ≤ N → Within N (K * N ^ m) (K * N ^ m) w x.de

/-- An alternative inside costs one degree more. -/
theorem altFee_le {n m K K' N : Nat} (hn : n < m) (hN : 4 ≤ N) (x : Nat) : altFee N (K * N ^ n) (K' * N ^ n) x ≤ (5 * K + 3 * K' + x + 16) * N ^ m := by
  have h1 : K * N ^ n * N ≤ K * N ^ m := by
    rw [Nat.mul_assoc, ← Nat.pow_succ]
    exact Nat.mul_le_mul_left K (Nat.pow_le_pow_right (by omega) hn)
  have h2 : K * N ^ n ≤ K * N ^ m := Nat.mul_le_mul_left K (Nat.pow_le_pow_right (by omega) (by omega))
  have h3 : K' * N ^ n ≤ K' * N ^ m := Nat.mul_le_mul_left K' (Nat.pow_le_pow_right (by omega) (by omega))
  have h4 := le_mul_pow x m hN
  have h5 := le_mul_pow 16 m hN
  unfold altFee
  simp only [Nat.add_mul, Nat.mul_assoc]
  simp only [Nat.mul_assoc] at h1
  omega

theorem slot_poly {n m : Nat} {x : WSlot τ} (h1 : ∀ y ∈ x.ones, LinPoly m y.work y.entry.ref.ser.de) (hn : ∀ y ∈ x.alts, n < m)
    (h2 : ∀ y ∈ x.alts, LinPoly n y.work y.entry.ref.ser.de) : ∃ K, MemberPoly m K x.de x.slot.toMember := by
  cases x with
  | one y =>
    obtain ⟨K, h⟩ := h1 y (by simp [WSlot.ones])
    refine ⟨K + y.entry.ref.name.length + 7 + 1, fun N hN => ?_⟩
    have e1 := le_mul_pow 1 m hN
    have e2 := le_mul_pow 7 m hN
    have e3 := le_mul_pow y.entry.ref.name.length m hN
    simp only [Nat.add_mul]
    exact (entry_within (x := y) (A := K * N ^ m + 1) (by omega) ((h N hN).within.mono (by omega) (Nat.le_refl _))).mono (by omega) (by omega)
  | alt l r d RU Wl Wr =>
    have hnm := hn ⟨.mem l, Wl⟩ (by simp [WSlot.alts])
    obtain ⟨K, hl⟩ := h2 ⟨.mem l, Wl⟩ (by simp [WSlot.alts])
    obtain ⟨K', hr⟩ := h2 ⟨.mem r, Wr⟩ (by simp [WSlot.alts])
    refine ⟨5 * (K + K' + 1) + 3 * (K + K' + 1) + (l.name.length + r.name.length) + 16, fun N hN => ?_⟩
    have hA : K * N ^ n ≤ (K + K' + 1) * N ^ n := Nat.mul_le_mul_right _ (by omega)
    have hA' : K' * N ^ n ≤ (K + K' + 1) * N ^ n := Nat.mul_le_mul_right _ (by omega)
    have hK1 : 1 ≤ (K + K' + 1) * N ^ n := Nat.le_trans (by omega) (le_mul_pow (K + K' + 1) n hN)
    have hl := (hl N hN).within.mono hA hA
    have hr := (hr N hN).within.mono hA' hA'
    have hf := altFee_le (K := K + K' + 1) (K' := K + K' + 1) hnm hN (l.name.length + r.name.length)
    have hp : (K + K' + 1) * N ^ n ≤ (5 * (K + K' + 1) + 3 * (K + K' + 1) + (l.name.length + r.name.length) + 16) * N ^ m :=
      Nat.mul_le_mul (by omega) (Nat.pow_le_pow_right (by omega) (by omega))
    cases RU with
    | false => exact fun t s e u hs => (deMemberIfW_within l r hK1 hN hl hr t s e u hs).mono fun _ _ h => h.mono hp (by omega)
    | true => exact fun t s e u hs => (deMemberIfW_within r l hK1 hN hr hl t s e u hs).mono fun _ _ h => h.mono hp (by rw [Nat.add_comm r.name.length]; omega)

theorem aslot_poly {n m : Nat} {x : WSlot τ} (h1 : ∀ y ∈ x.ones, LinPoly m y.work y.entry.ref.ser.de) (hn : ∀ y ∈ x.alts, n < m)
    (h2 : ∀ y ∈ x.alts, LinPoly n y.work y.entry.ref.ser.de) : ∃ K, AMemberPoly m K x.deA x.slot.toAMember := by
  cases x with
  | one y =>
    obtain ⟨K, h⟩ := h1 y (by simp [WSlot.ones])
    refine ⟨K + 1, fun N hN => ?_⟩
    have e1 := le_mul_pow 1 m hN
    simp only [Nat.add_mul]
    exact (aentry_within (x := y) (h N hN).within).mono (by omega) (by omega)
  | alt l r d RU Wl Wr =>
    have hnm := hn ⟨.mem l, Wl⟩ (by simp [WSlot.alts])
    obtain ⟨K, hl⟩ := h2 ⟨.mem l, Wl⟩ (by simp [WSlot.alts])
    obtain ⟨K', hr⟩ := h2 ⟨.mem r, Wr⟩ (by simp [WSlot.alts])
    refine ⟨5 * (K + K' + 1) + 3 * (K + K' + 1) + 0 + 16, fun N hN => ?_⟩
    have hA : K * N ^ n ≤ (K + K' + 1) * N ^ n := Nat.mul_le_mul_right _ (by omega)
    have hA' : K' * N ^ n ≤ (K + K' + 1) * N ^ n := Nat.mul_le_mul_right _ (by omega)
    have hl := (hl N hN).within.mono hA hA
    have hr := (hr N hN).within.mono hA' hA'
    have hf := altFee_le (K := K + K' + 1) (K' := K + K' + 1) hnm hN 0
    have hp : (K + K' + 1) * N ^ n ≤ (5 * (K + K' + 1) + 3 * (K + K' + 1) + 0 + 16) * N ^ m :=
      Nat.mul_le_mul (by omega) (Nat.pow_le_pow_right (by omega) (by omega))
    cases RU with
    | false => exact (deAMemberIfW_within l r hN hl hr).mono hp hf
    | true => exact (deAMemberIfW_within r l hN hr hl).mono hp hf

theorem object_poly {m : Nat} (c : Cfg) (strict : Bool) (dflt : τ) {L : List (WSlot τ)} (h : ∀ x ∈ L, ∃ K, MemberPoly m K x.de x.slot.toMember) :
    LinPoly m (deObjectW c strict dflt (L.map WSlot.de)) (objectSer c strict dflt (L.map fun x => x.slot.toMember)).de := by
  obtain ⟨_, K, h⟩ := bound_all (P := fun (x : WSlot τ) (_ : Nat) K => MemberPoly m K x.de x.slot.toMember) L
    (by intro x _ _ K K' h _ hK N hN; exact (h N hN).mono (Nat.mul_le_mul_right _ hK) (Nat.mul_le_mul_right _ hK)) fun x hx => ⟨0, h x hx⟩
  refine ⟨K + K + L.length * (K + 1) + 49, fun N hN => ?_⟩
  have e1 := le_mul_pow 49 m hN
  have e2 := Nat.mul_le_mul_left L.length (show K * N ^ m + 1 ≤ K * N ^ m + N ^ m by have := le_mul_pow 1 m hN; omega)
  simp only [Nat.add_mul, Nat.mul_add, Nat.mul_one, Nat.mul_assoc] at e2 ⊢
  refine (deObjectW_linN (B := K * N ^ m) c strict dflt (by omega) L (fun x hx => (h x hx N hN).mono (by omega) (Nat.le_refl _)) ?_).mono
    (Nat.le_refl _) (by omega)
  unfold memberFee
  simp only [Nat.mul_add, Nat.mul_one]
  omega

theorem objectArray_poly {m : Nat} (dflt : τ) {L : List (WSlot τ)} (h : ∀ x ∈ L, ∃ K, AMemberPoly m K x.deA x.slot.toAMember) :
    LinPoly m (deObjectArrayW dflt (L.map WSlot.deA)) (objectArraySer dflt (L.map fun x => x.slot.toAMember)).de := by
  obtain ⟨_, K, h⟩ := bound_all (P := fun (x : WSlot τ) (_ : Nat) K => AMemberPoly m K x.deA x.slot.toAMember) L
    (by intro x _ _ K K' h _ hK N hN; exact (h N hN).mono (Nat.mul_le_mul_right _ hK) (Nat.mul_le_mul_right _ hK)) fun x hx => ⟨0, h x hx⟩
  refine ⟨K + L.length * (K + 5) + 5, fun N hN => ?_⟩
  have e1 := le_mul_pow 5 m hN
  have e2 := Nat.mul_le_mul_left L.length (show K * N ^ m + 5 ≤ K * N ^ m + 5 * N ^ m by omega)
  simp only [Nat.add_mul, Nat.mul_add, Nat.mul_assoc] at e2 ⊢
  refine (deObjectArrayW_linN (B := K * N ^ m) dflt L (fun x hx => (h x hx N hN).mono (by omega) (Nat.le_refl _)) ?_).mono
    (Nat.le_refl _) (by omega)
  simp only [Nat.mul_add]
  omega

end

theorem countedIf_poly (c : Cfg) {m : Nat} {α : Type} {S : Ser α} {W : DeW α} (h : CountedIf c m S W) : LinPoly m W S.de := by
  induction h with
  | plain m h =>
    obtain ⟨A, B, h⟩ := counted_lin c h
    exact h.poly m
  | quoted serQ reqQ _ ih => exact quoted_poly serQ reqQ ih
  | pointer _ ih => exact pointer_poly ih
  | memberValue dflt get set _ ih => exact memberValue_poly dflt get set ih
  | array K _ ih => exact array_poly K ih
  | dict K _ _ ihK ihV => exact dict_poly K ihK ihV
  | fixed k N _ ih => exact fixed_poly k N ih
  | object strict dflt _ hn _ ih1 ih2 => exact object_poly c strict dflt fun x hx => slot_poly (ih1 x hx) (hn x hx) (ih2 x hx)
  | objectArray dflt _ hn _ ih1 ih2 => exact objectArray_poly dflt fun x hx => aslot_poly (ih1 x hx) (hn x hx) (ih2 x hx)

end Wjson
