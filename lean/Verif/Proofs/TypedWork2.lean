import Verif.Proofs.TypedWork
import Verif.Proofs.Ends
/-
Lemmas for C78: enumerations, flags, units, containers and structures.
-/
namespace Wjson

theorem Pays.space {A B B' : Nat} {s p : Bytes} {k k' : Nat} (h : Pays A B s p k) (hA : 1 ≤ A) (e : EPtr)
    (hB : B + 2 + k' ≤ B' + k + (parseSpaceW p e).2) : Pays A B' s (parseSpace p e).1 k' := by
  obtain ⟨j, h1, h2⟩ := parseSpaceW_pays p e
  rw [h1] at hB
  exact h.trans (h2.mono hA (Nat.le_refl (2 + j))) (by simp only at hB; omega)

theorem Pays.step {A B A' B' : Nat} {s q : Bytes} {k k' : Nat} (h : Pays A B s q k) (hq : q.length < s.length) (hA : A + B ≤ A')
    (hB : k' ≤ B' + k) : Pays A' B' s q k' := by
  obtain ⟨d, rfl⟩ := Nat.exists_eq_add_of_le hA
  have h2 := h.2
  have h3 := Nat.mul_le_mul_left B (show q.length + 1 ≤ s.length from hq)
  have h4 : d * q.length ≤ d * s.length := Nat.mul_le_mul_left d h.1
  refine ⟨h.1, ?_⟩
  simp only [Nat.add_mul, Nat.mul_add, Nat.mul_one] at *
  omega

/-! ### Enumerations -/

theorem matchNameW_eq (n s : Bytes) : ∃ k, matchNameW n s = (matchName n s, k) ∧ k ≤ n.length + 1 := by
  induction n generalizing s with
  | nil => exact ⟨1, by simp [matchNameW, matchName], by simp⟩
  | cons a n ih =>
    cases s with
    | nil => exact ⟨1, by simp [matchNameW, matchName], by simp⟩
    | cons b s =>
      simp only [matchNameW, matchName]
      split
      · obtain ⟨k, h1, h2⟩ := ih s
        exact ⟨k + 1, by rw [h1], by simp only [List.length_cons]; omega⟩
      · exact ⟨1, rfl, by omega⟩

theorem skipLowW_eq (c : Cfg) (s : Bytes) : ∃ k, skipLowW c s = (skipLow c s, k) ∧ Pays 1 1 s (skipLow c s) k := by
  induction s with
  | nil => exact ⟨1, rfl, .zero _ (by simp [skipLow]) (by omega)⟩
  | cons b t ih =>
    simp only [skipLowW, skipLow]
    split
    · obtain ⟨k, h1, h2⟩ := ih
      refine ⟨k + 1, by rw [h1], ?_, ?_⟩
      · have := h2.1; simp only [List.length_cons]; omega
      · have := h2.2; simp only [List.length_cons]; omega
    · exact ⟨1, rfl, .zero _ (by simp) (by omega)⟩

theorem toQuoteW_eq (s : Bytes) : ∃ k, toQuoteW s = (toQuote s, k) ∧ Pays 1 1 s (toQuote s).2 k := by
  induction s with
  | nil => exact ⟨1, rfl, .zero _ (by simp [toQuote]) (by omega)⟩
  | cons b t ih =>
    simp only [toQuoteW, toQuote]
    split
    · exact ⟨1, rfl, .zero _ (by simp) (by omega)⟩
    · obtain ⟨k, h1, h2⟩ := ih
      refine ⟨k + 1, by rw [h1], ?_, ?_⟩
      · have := h2.1; simp only [List.length_cons]; omega
      · have := h2.2; simp only [List.length_cons]; omega

/-- What the names of a list cost. -/
def namesCost {α : Type} (d : Nat) : List (Bytes × α) → Nat
  | [] => d
  | x :: L => namesCost d L + x.1.length + d

theorem enumFindW_eq {α : Type} (L : List (Bytes × α)) (s : Bytes) :
    ∃ k, enumFindW L s = (enumFind L s, k) ∧ k ≤ namesCost 2 L := by
  induction L with
  | nil => exact ⟨1, rfl, by simp [namesCost]⟩
  | cons x L ih =>
    obtain ⟨k, h1, h2⟩ := matchNameW_eq x.1 s
    obtain ⟨j, h3, h4⟩ := ih
    simp only [enumFindW, enumFind, h1, h3, namesCost]
    split
    · exact ⟨k + 1, rfl, by omega⟩
    · exact ⟨j + k + 1, rfl, by omega⟩

theorem deEnumW_lin {α : Type} (c : Cfg) (strict : Bool) (dflt : α) (L : List (Bytes × α)) :
    Lin 1 (namesCost 2 L + 3) (deEnumW c strict dflt L) (deEnum c strict dflt L) := by
  intro v s e
  unfold deEnumW deEnum
  obtain ⟨k, h1, h2⟩ := skipLowW_eq c s
  have hz : isNull s = true → skipLow c s = s ∧ k = 1 := by
    intro hn
    cases s with
    | nil => cases hn
    | cons b t =>
      obtain rfl : b = c%'n' := by simpa [isNull] using hn
      have hl : leSpace c c%'n' = false := by simp [leSpace]
      simp only [skipLowW, skipLow, hl] at h1 ⊢
      cases h1
      exact ⟨rfl, rfl⟩
  rw [h1]
  have hq : 1 ≤ namesCost 2 L := by cases L <;> simp [namesCost] <;> omega
  generalize hp : skipLow c s = p at h2 hz ⊢
  cases p with
  | nil => exact .ok ⟨(h2.mono (Nat.le_refl _) (by omega)).nil, fun hn => by
      have := hz hn
      exact (Pays.zero _ (parseNull_length s .null) (by omega)).2⟩
  | cons b p =>
    simp only
    split
    · exact .ok ⟨(h2.mono (Nat.le_refl _) (by omega)).nil, fun hn => by
        have := hz hn
        exact (Pays.zero _ (parseNull_length s .null) (by omega)).2⟩
    · next hb =>
      have hb : b = c%'"' := by simpa using hb
      have hn : isNull s = false := by
        cases hn : isNull s with
        | false => rfl
        | true =>
          obtain ⟨h3, _⟩ := hz hn
          rw [← h3, hb] at hn
          cases hn
      cases p with
      | nil => exact .ok ⟨(h2.mono (Nat.le_refl _) (by omega)).nil, .of_ne hn⟩
      | cons d p =>
        simp only
        obtain ⟨j, h3, h4⟩ := toQuoteW_eq (d :: p)
        have h5 : Pays 1 2 s (toQuote (d :: p)).2 (k + j) := (h2.drop (q := d :: p) (by simp)).trans h4 (by omega)
        rw [h3]
        generalize hw : toQuote (d :: p) = w at h5 ⊢
        obtain ⟨w, u⟩ := w
        cases u with
        | nil => exact .ok ⟨h5.mono (Nat.le_refl _) (by omega), .of_ne hn⟩
        | cons x q =>
          obtain ⟨i, h6, h7⟩ := enumFindW_eq L w
          have h8 : Pays 1 (namesCost 2 L + 3) s q (k + j + i + 1) := (h5.mono (Nat.le_refl _) (by omega)).drop (by simp)
          simp only
          rw [h6]
          generalize enumFind L w = f
          cases f with
          | some y => exact .ok ⟨h8, .of_ne hn⟩
          | none =>
            simp only
            split
            · exact .ok ⟨h8.nil, .of_ne hn⟩
            · exact .ok ⟨h8, .of_ne hn⟩

/-! ### Flags -/

theorem toSepW_eq (sep : Byte) (s : Bytes) : ∃ k, toSepW sep s = (toSep sep s, k) ∧ Pays 1 1 s (toSep sep s) k := by
  induction s with
  | nil => exact ⟨1, rfl, .zero _ (by simp [toSep]) (by omega)⟩
  | cons b t ih =>
    simp only [toSepW, toSep]
    split
    · obtain ⟨k, h1, h2⟩ := ih
      refine ⟨k + 1, by rw [h1], ?_, ?_⟩
      · have := h2.1; simp only [List.length_cons]; omega
      · have := h2.2; simp only [List.length_cons]; omega
    · exact ⟨1, rfl, .zero _ (by simp) (by omega)⟩

theorem optSpaceW_pays (sep : Byte) (s : Bytes) (e : EPtr) :
    ∃ k, (if sep ≠ c%' ' then parseSpaceW s e else ((s, e), 0)) = (if sep ≠ c%' ' then parseSpace s e else (s, e), k) ∧
      Pays 1 2 s (if sep ≠ c%' ' then parseSpace s e else (s, e)).1 k := by
  split
  · exact parseSpaceW_pays s e
  · exact ⟨0, rfl, .zero _ (Nat.le_refl _) (by omega)⟩

theorem flagOneStrW_eq {w : Nat} (sep : Byte) (strict : Bool) (L : List (Bytes × BitVec w)) : ∀ (v : BitVec w) (s : Bytes) (e : EPtr) (ready : Bool),
    ∃ k, flagOneStrW sep strict L v s e ready = (flagOneStr sep strict L v s e ready, k) ∧
      Pays 1 (namesCost 8 L) s (flagOneStr sep strict L v s e ready).2.1 k := by
  induction L with
  | nil =>
    intro v s e ready
    simp only [flagOneStrW, flagOneStr, namesCost]
    split
    · exact ⟨1, rfl, .zero _ (Nat.le_refl _) (by omega)⟩
    · obtain ⟨k1, h1, p1⟩ := parseSpaceW_pays s e
      rw [h1]
      obtain ⟨k2, h2, p2⟩ := toSepW_eq sep (parseSpace s e).1
      simp only
      rw [h2]
      obtain ⟨k3, h3, p3⟩ := parseSpaceW_pays (toSep sep (parseSpace s e).1) (parseSpace s e).2
      simp only
      rw [h3]
      have p := (p1.trans p2 (k'' := k1 + k2) (B'' := 3) (by omega)).trans p3 (k'' := k1 + k2 + k3) (B'' := 5) (by omega)
      generalize parseSpace (toSep sep (parseSpace s e).1) (parseSpace s e).2 = r at p ⊢
      obtain ⟨r, e'⟩ := r
      cases r with
      | nil => exact ⟨_, rfl, p.mono (Nat.le_refl _) (by omega)⟩
      | cons b q =>
        simp only
        have hl : (if b = sep then q else b :: q).length ≤ (b :: q).length := by split <;> simp
        generalize (if b = sep then q else b :: q) = u at hl ⊢
        obtain ⟨k4, h4, p4⟩ := parseSpaceW_pays u e'
        rw [h4]
        exact ⟨_, rfl, (p.drop hl).trans p4 (by omega)⟩
  | cons x L ih =>
    intro v s e ready
    simp only [flagOneStrW, flagOneStr, namesCost]
    have hq : 1 ≤ namesCost 8 L := by cases L <;> simp [namesCost] <;> omega
    split
    · exact ⟨1, rfl, .zero _ (Nat.le_refl _) (by omega)⟩
    · obtain ⟨k1, h1, p1⟩ := optSpaceW_pays sep s e
      rw [h1]
      generalize (if sep ≠ c%' ' then parseSpace s e else (s, e)) = r at p1 ⊢
      obtain ⟨r, e1⟩ := r
      cases r with
      | nil => exact ⟨_, rfl, p1.mono (Nat.le_refl _) (by omega)⟩
      | cons b p =>
        simp only
        split
        · exact ⟨_, rfl, p1.mono (Nat.le_refl _) (by omega)⟩
        · obtain ⟨k2, h2, p2⟩ := matchNameW_eq x.1 (b :: p)
          have hm := (matchName_suffix' x.1 (b :: p)).length_le
          rw [h2]
          have other : ∃ k, ((flagOneStrW sep strict L v (b :: p) e1 ready).1, (flagOneStrW sep strict L v (b :: p) e1 ready).2 + k1 + k2 + 2) =
              (flagOneStr sep strict L v (b :: p) e1 ready, k) ∧
              Pays 1 (namesCost 8 L + x.1.length + 8) s (flagOneStr sep strict L v (b :: p) e1 ready).2.1 k := by
            obtain ⟨k3, h3, p3⟩ := ih v (b :: p) e1 ready
            rw [h3]
            exact ⟨_, rfl, p1.trans p3 (by omega)⟩
          generalize matchName x.1 (b :: p) = m at hm ⊢
          obtain ⟨m1, m2⟩ := m
          cases m1 with
          | cons _ _ => exact other
          | nil =>
            cases m2 with
            | nil => exact other
            | cons d q =>
              simp only
              split
              · have p3 := p1.drop hm
                obtain ⟨k4, h4, p4⟩ := optSpaceW_pays sep (d :: q) e1
                rw [h4]
                have p5 := p3.trans p4 (k'' := k1 + k4) (B'' := 4) (by omega)
                generalize (if sep ≠ c%' ' then parseSpace (d :: q) e1 else (d :: q, e1)) = r at p5 ⊢
                obtain ⟨r, e2⟩ := r
                cases r with
                | nil => exact ⟨_, rfl, p5.mono (Nat.le_refl _) (by omega)⟩
                | cons d q =>
                  simp only
                  split
                  · exact ⟨_, rfl, p5.mono (Nat.le_refl _) (by omega)⟩
                  · have hl : (if d = sep then q else d :: q).length ≤ (d :: q).length := by split <;> simp
                    generalize (if d = sep then q else d :: q) = u at hl ⊢
                    obtain ⟨k6, h6, p6⟩ := ih (v ||| x.2) u e2 true
                    rw [h6]
                    exact ⟨_, rfl, (p5.drop hl).trans p6 (by omega)⟩
              · exact other

theorem parseStringW_pays (s : Bytes) (e : EPtr) : ∃ k, parseStringW s e = (parseString s e, k) ∧ Pays 3 1 s (parseString s e).1 k := by
  obtain ⟨k, h1, h2⟩ := parseStringW_eq s e
  refine ⟨k, h1, ?_, h2⟩
  cases s with
  | nil => simp [parseString]
  | cons b t => exact Nat.le_of_lt (parseString_length_lt (by simp) e)

theorem flagOneArrW_cost {w : Nat} (c : Cfg) (strict : Bool) (L : List (Bytes × BitVec w)) : ∀ (v : BitVec w) (s : Bytes) (e : EPtr) (ready : Bool),
    Cost (fun r k => Pays 3 (namesCost 8 L) s r.2.1 k) (flagOneArrW c strict L v s e ready) (flagOneArr c strict L v s e ready) := by
  induction L with
  | nil =>
    intro v s e ready
    simp only [flagOneArrW, flagOneArr, namesCost]
    split
    · exact .ok (.zero _ (Nat.le_refl _) (by omega))
    · obtain ⟨k1, h1, p1⟩ := parseSpaceW_pays s e
      rw [h1]
      refine .same fun b hb => ?_
      generalize parseSpace s e = r at p1 ⊢
      obtain ⟨r, e1⟩ := r
      simp only
      split
      · exact .ok (p1.mono (by omega) (by omega))
      · obtain ⟨k2, h2, p2⟩ := parseStringW_pays r e1
        rw [h2]
        obtain ⟨k3, h3, p3⟩ := parseSpaceW_pays (parseString r e1).1 (parseString r e1).2
        simp only
        rw [h3]
        have p := ((p1.mono (A' := 3) (by omega) (Nat.le_refl (2 + k1))).trans p2 (k'' := k1 + k2) (B'' := 3) (by omega)).trans
          (p3.mono (A' := 3) (by omega) (Nat.le_refl (2 + k3))) (k'' := k1 + k2 + k3) (B'' := 5) (by omega)
        generalize parseSpace (parseString r e1).1 (parseString r e1).2 = r at p ⊢
        obtain ⟨r, e'⟩ := r
        cases r with
        | nil => exact .ok (p.mono (Nat.le_refl _) (by omega))
        | cons b q =>
          simp only
          have hl : (if b = c%',' then q else b :: q).length ≤ (b :: q).length := by split <;> simp
          generalize (if b = c%',' then q else b :: q) = u at hl ⊢
          obtain ⟨k4, h4, p4⟩ := parseSpaceW_pays u e'
          rw [h4]
          exact .ok ((p.drop hl).trans (p4.mono (A' := 3) (by omega) (Nat.le_refl (2 + k4))) (by omega))
  | cons x L ih =>
    intro v s e ready
    simp only [flagOneArrW, flagOneArr, namesCost]
    obtain ⟨k1, h1, p1⟩ := parseSpaceW_pays s e
    replace p1 := p1.mono (A' := 3) (by omega) (Nat.le_refl (2 + k1))
    rw [h1]
    generalize parseSpace s e = r at p1 ⊢
    obtain ⟨r, e1⟩ := r
    cases r with
    | nil => exact .ok (p1.mono (Nat.le_refl _) (by omega))
    | cons b p =>
      simp only
      split
      · exact .ok (p1.mono (Nat.le_refl _) (by omega))
      · split
        · exact .ok (p1.mono (Nat.le_refl _) (by omega)).nil
        · obtain ⟨k2, h2, p2⟩ := matchNameW_eq x.1 p
          have hm := (matchName_suffix' x.1 p).length_le
          rw [h2]
          have other : Cost (fun r k => Pays 3 (namesCost 8 L + x.1.length + 8) s r.2.1 k)
              (flagOneArrW c strict L v (b :: p) e1 ready >>= fun y => .ok (y.1, y.2 + k1 + k2 + 1))
              (flagOneArr c strict L v (b :: p) e1 ready) :=
            (ih v (b :: p) e1 ready).count (f := (· + k1 + k2 + 1)) fun r k h => p1.trans h (by omega)
          generalize matchName x.1 p = m at hm ⊢
          obtain ⟨m1, m2⟩ := m
          cases m1 with
          | cons _ _ => exact other
          | nil =>
            cases m2 with
            | nil => exact other
            | cons d q =>
              simp only
              split
              · have p3 := p1.drop (q := q) (by simp only [List.length_cons] at hm ⊢; omega)
                obtain ⟨k4, h4, p4⟩ := parseSpaceW_pays q e1
                rw [h4]
                have p5 := p3.trans (p4.mono (A' := 3) (by omega) (Nat.le_refl (2 + k4))) (k'' := k1 + k4) (B'' := 4) (by omega)
                generalize parseSpace q e1 = r at p5 ⊢
                obtain ⟨r, e2⟩ := r
                cases r with
                | nil => exact .ok (p5.mono (Nat.le_refl _) (by omega))
                | cons d q =>
                  simp only
                  split
                  · exact .ok (p5.mono (Nat.le_refl _) (by omega))
                  · obtain ⟨k6, h6, p6⟩ := parseSpaceW_pays q e2
                    rw [h6]
                    have p7 := (p5.drop (q := q) (by simp)).trans (p6.mono (A' := 3) (by omega) (Nat.le_refl (2 + k6)))
                      (k'' := k1 + k4 + k6) (B'' := 6) (by omega)
                    exact (ih (v ||| x.2) _ _ true).count (f := (· + k1 + k2 + k4 + k6 + 1)) fun r k h => p7.trans h (by omega)
              · exact other

theorem flagOneW_cost {w : Nat} (c : Cfg) (F : Flags w) (arr : Bool) (v : BitVec w) (s : Bytes) (e : EPtr) :
    Cost (fun r k => Pays 3 (namesCost 8 F.list) s r.2.1 k) (flagOneW c F arr v s e) (flagOne c F arr v s e) := by
  unfold flagOneW flagOne
  split
  · exact flagOneArrW_cost c F.strict F.list v s e false
  · obtain ⟨k, h, p⟩ := flagOneStrW_eq F.sep F.strict F.list v s e false
    rw [h]
    exact .ok (p.mono (by omega) (Nat.le_refl _))

theorem flagLoopW_cost {w : Nat} (c : Cfg) (F : Flags w) (arr : Bool) (n : Nat) : ∀ (v : BitVec w) (s : Bytes) (e : EPtr),
    Cost (fun r k => Pays (namesCost 8 F.list + 4) (namesCost 8 F.list + 1) s r.2.1 k) (flagLoopW c F arr n v s e) (flagLoopF c F arr n v s e) := by
  induction n with
  | zero => intro v s e; exact .fuel
  | succ n ih =>
    intro v s e
    unfold flagLoopW flagLoopF
    cases s with
    | nil => exact .ok (.zero _ (Nat.le_refl _) (by omega))
    | cons b p =>
      simp only
      generalize (if arr = true then c%']' else c%'"') = cl
      split
      · exact .ok (.zero _ (Nat.le_refl _) (by omega))
      · refine (flagOneW_cost c F arr v (b :: p) e).bind fun r k h => ?_
        have h' : Pays 3 (namesCost 8 F.list + 1) (b :: p) r.2.1 (k + 1) := h.mono (Nat.le_refl _) (by omega)
        split
        · exact .ok (h'.mono (by omega) (by omega)).nil
        · split
          · exact .ok (h'.mono (by omega) (by omega)).nil
          · next hne _ =>
            have h1 := h.1
            replace hne : r.2.1.length ≠ (b :: p).length := hne
            exact (ih r.1 r.2.1 r.2.2).count (f := (· + k + 1)) fun y j hj =>
              (h'.step (A' := namesCost 8 F.list + 4) (B' := 0) (k' := k + 1) (by omega) (by omega) (by omega)).trans hj (by omega)

theorem flagsEnd_length {w : Nat} {v : BitVec w} {s : Bytes} {e : EPtr} {r : BitVec w × Bytes × EPtr} (h : flagsEnd v s e = .ok r) :
    r.2.1.length ≤ s.length := by
  unfold flagsEnd at h
  cases s with
  | nil => cases h; simp
  | cons b p =>
    simp only at h
    split at h <;> cases h <;> simp

theorem deFlagsW_lin {w : Nat} (c : Cfg) (F : Flags w) :
    Lin (namesCost 8 F.list + 4) (namesCost 8 F.list + 3) (deFlagsW c F) (deFlags c F) := by
  intro v s e
  unfold deFlagsW deFlags
  cases s with
  | nil => exact .ok ⟨.zero _ (Nat.le_refl _) (by omega), .of_ne rfl⟩
  | cons b p =>
    simp only
    split
    · exact .ok ⟨.zero _ (by simp) (by omega), .zero _ (by omega)⟩
    · next hb =>
      have hn : isNull (b :: p) = false := by
        cases hn : isNull (b :: p) with
        | false => rfl
        | true =>
          obtain rfl : b = c%'n' := by simpa [isNull] using hn
          exact absurd ⟨by decide, by decide⟩ hb
      refine (flagLoopW_cost c F _ (p.length + 1) 0 p e).bind fun r k h => .free fun y hy => ?_
      refine ⟨?_, .of_ne hn⟩
      exact ((h.drop (flagsEnd_length hy)).before (s := b :: p) (by simp)).mono (Nat.le_refl _) (by omega)

/-! ### Units -/

theorem timeLoopW_cost (c : Cfg) (ty : IntTy) (fr : Int) (n : Nat) : ∀ (v : Int) (s : Bytes) (e : EPtr),
    Cost (fun r k => Pays 6 5 s r.2.1 k) (timeLoopW c ty fr n v s e) (timeLoopF c ty fr n v s e) := by
  induction n with
  | zero => intro v s e; exact .fuel
  | succ n ih =>
    intro v s e
    cases s with
    | nil => exact .ok (.zero _ (Nat.le_refl _) (by omega))
    | cons b t =>
      unfold timeLoopW timeLoopF
      split
      · exact .ok (.zero _ (by simp) (by omega))
      · refine (deIntW_lin c ty 0 (b :: t) e).bind fun r k h => ?_
        obtain ⟨cur, rest, e1⟩ := r
        have h' : Pays 1 5 (b :: t) rest (k + 1) := h.1.mono (Nat.le_refl _) (by omega)
        simp only
        split
        · exact .ok (h'.mono (by omega) (by omega))
        · cases rest with
          | nil => exact .ok (h'.mono (by omega) (by omega))
          | cons u t' =>
            have hp : Pays 6 0 (b :: t) t' (k + 1) := h'.comma (by omega) (by omega)
            have next : ∀ (w : Int) (q : Bytes), q.length ≤ t'.length →
                Cost (fun r k => Pays 6 5 (b :: t) r.2.1 k) (timeLoopW c ty fr n w q e1 >>= fun y => .ok (y.1, y.2 + k + 1))
                  (timeLoopF c ty fr n w q e1) := fun w q hq =>
              (ih w q e1).count (f := (· + k + 1)) fun y j hj => (hp.drop hq).trans hj (by omega)
            simp only
            split
            · exact .same fun w _ => next w t' (Nat.le_refl _)
            · split
              · exact .same fun w _ => next w t' (Nat.le_refl _)
              · split
                · cases t' with
                  | nil => exact .same fun w _ => next w [] (Nat.le_refl _)
                  | cons x t' =>
                    simp only
                    split
                    · exact .same fun w _ => next w t' (by simp)
                    · split
                      · refine .same fun w _ => ?_
                        cases t' with
                        | nil => exact .ub
                        | cons y t' => exact next w t' (by simp <;> omega)
                      · exact .same fun w _ => next w (x :: t') (Nat.le_refl _)
                · split
                  · exact .same fun w _ => next w t' (Nat.le_refl _)
                  · exact next v t' (Nat.le_refl _)

theorem deTimeW_lin (c : Cfg) (ty : IntTy) (fr : Int) : Lin 6 9 (deTimeW c ty fr) (deTime c ty fr) := by
  intro v s e
  unfold deTimeW deTime
  cases s with
  | nil => exact .ok ⟨.zero _ (by simp) (by omega), .of_ne rfl⟩
  | cons b t =>
    simp only
    split
    · obtain ⟨k, h, hp⟩ := parseNullW_post (0 : Int) (b :: t) e
      rw [h]
      exact .ok (hp.mono (by omega) (by omega))
    · next hn =>
      have hn : isNull (b :: t) = false := by simpa using hn
      split
      · exact (deIntW_lin c ty 0 (b :: t) e).count (f := (· + 3)) fun r k h => h.mono (by omega) (by omega)
      · split
        · exact .ok ⟨.zero _ (by simp) (by omega), .of_ne hn⟩
        · exact (timeLoopW_cost c ty fr (t.length + 1) 0 t e).count (f := (· + 4)) fun r k h =>
            ⟨(h.before (s := b :: t) (by simp)).mono (Nat.le_refl _) (by omega), .of_ne hn⟩

theorem cstrW_cost (s : Bytes) : Cost (fun r k => r.length ≤ s.length ∧ k ≤ s.length) (cstrW s) (cstr s) := by
  induction s with
  | nil => exact .ub
  | cons b t ih =>
    simp only [cstrW, cstr]
    split
    · exact .ok ⟨by simp, by simp⟩
    · exact ih.bind fun r k h => .ok ⟨by simp only [List.length_cons]; omega, by simp only [List.length_cons]; omega⟩

theorem Sink.puts_length {k k' : Sink} {t : Bytes} (h : k.puts t = .ok k') {i : Nat} (hi : k.it = .ptr i) :
    k'.mem.length = k.mem.length := by
  induction t generalizing k i with
  | nil => cases h; rfl
  | cons b t ih =>
    rw [Sink.puts_cons] at h
    obtain ⟨k1, h1, h2⟩ := Out.bind_eq_ok.mp h
    unfold Sink.put at h1
    rw [hi] at h1
    simp only at h1
    split at h1
    · cases h1
      have := ih h2 rfl
      simpa using this
    · cases h1

theorem deCharArray_length {N : Nat} {v s : Bytes} {e : EPtr} {r : Bytes × Bytes × EPtr} (h : deCharArray N v s e = .ok r) :
    r.1.length = N := by
  simp only [deCharArray] at h
  split at h
  · cases h; simp
  · obtain ⟨x, h1, h2⟩ := Out.bind_eq_ok.mp h
    cases h2
    unfold unserializeStr at h1
    cases s with
    | nil => cases h1; simp
    | cons b t =>
      simp only at h1
      split at h1
      · cases h1; simp
      · obtain ⟨k, h3, h4⟩ := Out.bind_eq_ok.mp h1
        cases h4
        have := Sink.puts_length h3 rfl
        simpa using this

theorem sizeApply_length {c : Cfg} {ty : IntTy} {metric : Int} {beg : Bytes} {q r : Int × Bytes × EPtr}
    (h : sizeApply c ty metric beg q = .ok r) : r.2.1.length ≤ beg.length := by
  simp only [sizeApply] at h
  split at h
  · cases h; simp
  · obtain ⟨val, q, e⟩ := q
    cases q with
    | nil => cases h; simp
    | cons ch1 u =>
      simp only at h
      cases hm : sizeMult ch1 (u.headD 0) with
      | none => rw [hm] at h; cases h; simp
      | some m =>
        rw [hm] at h
        obtain ⟨x, h1, h2⟩ := Out.bind_eq_ok.mp h
        obtain ⟨y, h3, h4⟩ := Out.bind_eq_ok.mp h2
        cases h4
        simp

theorem deSizeW_lin (c : Cfg) (ty : IntTy) (metric : Int) : Lin 18 108 (deSizeW c ty metric) (deSize c ty metric) := by
  intro v s e
  unfold deSizeW deSize
  cases s with
  | nil => exact .ok ⟨.zero _ (by simp) (by omega), .of_ne rfl⟩
  | cons b t =>
    simp only
    split
    · obtain ⟨k, h, hp⟩ := parseNullW_post (0 : Int) (b :: t) e
      rw [h]
      exact .ok (hp.mono (by omega) (by omega))
    · next hn =>
      have hn : isNull (b :: t) = false := by simpa using hn
      split
      · exact (deIntW_lin c ty 0 (b :: t) e).count (f := (· + 3)) fun r k h => h.mono (by omega) (by omega)
      · split
        · exact .ok ⟨.zero _ (by simp) (by omega), .of_ne hn⟩
        · have hs := deCharArrayW_lin 32 (List.replicate 32 0) (b :: t) e
          rw [show (charArraySer 32).de = deCharArray 32 from rfl]
          generalize deCharArrayW 32 (List.replicate 32 0) (b :: t) e = w at hs ⊢
          cases ho : deCharArray 32 (List.replicate 32 0) (b :: t) e with
          | ub => rw [ho] at hs; cases hs; exact .ub
          | fuel => rw [ho] at hs; cases hs; exact .fuel
          | ok r =>
            rw [ho] at hs
            cases hs with
            | @ok _ k hk =>
              have hl := deCharArray_length ho
              simp only [Out.bind_ok]
              split
              · exact .ok ⟨hk.1.mono (by omega) (by omega), .of_ne hn⟩
              · refine (cstrW_cost r.1).bind fun buf j hj => ?_
                refine (deIntW_lin c .long 0 buf r.2.2).bind fun q i hi => .free fun y hy => ?_
                have h1 := hi.1.2
                refine ⟨(hk.1.mono (Nat.le_refl _) ?_).drop (sizeApply_length hy), .of_ne hn⟩
                omega

end Wjson
