import Verif.Proofs.Exact
import Verif.Proofs.Flags
import Verif.Spec.Denotes
/-
The reader of flags accepts exactly the texts of the denotation.
-/
namespace Wjson
open Spec

section
variable {w : Nat} {c : Cfg} {strict : Bool} {L : List (Bytes × BitVec w)}

/-! ### The array form -/

theorem FlagArr.gap {v : BitVec w} {g r : Bytes} (hg : Gap g) (h : FlagArr L strict v r) : FlagArr L strict v (g ++ r) := by
  cases h with
  | close h1 => rw [← List.append_assoc]; exact .close (hg.append h1)
  | item h1 h2 h3 h4 h5 =>
    have := FlagArr.item (hg.append h1) h2 h3 h4 h5
    simpa only [List.append_assoc] using this

/-- The text is a quoted name and what follows. -/
theorem quoted_split {n p : Bytes} {d : Byte} {q : Bytes} (hd : d = c%'"') (h : p = n ++ d :: q) : c%'"' :: p = quoted n ++ q := by
  rw [h, hd]; simp [quoted]

theorem flagOneArr_inv {P M : List (Bytes × BitVec w)} (hL : L = P ++ M) {v v1 v2 : BitVec w}
    {s tail p : Bytes} {e : EPtr} (he : e.Clean) {ready : Bool}
    (hP : ready = false → ∀ y ∈ P, ∀ g q, Gap g → s ≠ g ++ quoted y.1 ++ q)
    (h : flagOneArr c strict M v s e ready = .ok (v1, tail ++ p, e)) (ht : FlagArr L strict v2 tail) :
    ∃ u t, v1 = v ||| u ∧ s = t ++ p ∧ FlagArr L strict (u ||| v2) t := by
  have hne : tail ++ p ≠ [] := by
    cases ht <;> simp [quoted]
  have trivial' : ∀ {g}, Gap g → s = g ++ (tail ++ p) → v1 = v → ∃ u t, v1 = v ||| u ∧ s = t ++ p ∧ FlagArr L strict (u ||| v2) t := by
    intro g hg h1 h2
    refine ⟨0, g ++ tail, by simp [h2], by rw [h1]; simp, ?_⟩
    simpa using ht.gap hg
  induction M generalizing P v s ready with
  | nil =>
    simp only [flagOneArr] at h
    by_cases hr : (ready || strict) = true
    · rw [if_pos hr] at h
      simp only [Out.ok.injEq, Prod.mk.injEq] at h
      exact trivial' .nil h.2.1 h.1.symm
    · rw [if_neg hr] at h
      simp only [Bool.or_eq_true, not_or, Bool.not_eq_true] at hr
      cases hp1 : parseSpace s e with
      | mk p1 e1 =>
      have s1 := Steps.space hp1
      rw [hp1] at h
      obtain ⟨b, hb, h⟩ := Out.bind_eq_ok.mp h
      by_cases hbr : b = c%']'
      · rw [if_pos hbr] at h
        simp only [Out.ok.injEq, Prod.mk.injEq] at h
        obtain ⟨h1, h2, h3⟩ := h
        subst h3 h2
        obtain ⟨g, h4, h5, _⟩ := space_inv he hp1
        exact trivial' h5 h4 h1.symm
      · rw [if_neg hbr] at h
        simp only at h
        cases hp2 : parseString p1 e1 with
        | mk p2 e2 =>
        have s2 : Steps e1 e2 := by
          have := EStep.of_scan (parseString_scan p1) e1
          rw [hp2] at this
          exact ⟨_, this⟩
        rw [hp2] at h
        simp only at h
        cases hp3 : parseSpace p2 e2 with
        | mk p3 e3 =>
        have s3 := Steps.space hp3
        rw [hp3] at h
        cases p3 with
        | nil =>
          simp only [Out.ok.injEq, Prod.mk.injEq] at h
          exact absurd h.2.1.symm hne
        | cons d q =>
          simp only [Out.ok.injEq, Prod.mk.injEq] at h
          obtain ⟨h1, h2⟩ := h
          have s4 := Steps.space h2
          have k3 := he.back (s1.trans (s2.trans s3)) s4
          subst k3
          have k2 := he.back (s1.trans s2) s3
          subst k2
          have k1 := he.back s1 s2
          subst k1
          obtain ⟨g, h4, h5, _⟩ := space_inv he hp1
          obtain ⟨g2, h6, h7, _⟩ := space_inv he hp3
          obtain ⟨g3, h8, h9, _⟩ := space_inv he h2
          obtain ⟨t, h10, n, hn, rfl⟩ := parseString_acc_iff.mp (Acc.of_clean (parseString_scan p1) he hp2 he.not_failed)
          have hk : ∃ k, (k = [] ∨ k = b!",") ∧ d :: q = k ++ (g3 ++ (tail ++ p)) := by
            by_cases hd : d = c%','
            · rw [if_pos hd] at h8
              exact ⟨b!",", .inr rfl, by rw [hd, h8]; rfl⟩
            · rw [if_neg hd] at h8
              exact ⟨[], .inl rfl, h8⟩
          obtain ⟨k, hk, hk2⟩ := hk
          refine ⟨0, g ++ quoted n ++ g2 ++ k ++ (g3 ++ tail), by simp [h1], ?_, .item h5 (.other hr.2 ?_ hn) h7 hk (ht.gap h9)⟩
          · rw [h4, h10, h6, hk2]
            simp [quoted]
          · intro hmem
            obtain ⟨y, hy, rfl⟩ := List.mem_map.mp hmem
            rw [hL, List.append_nil] at hy
            refine hP hr.1 y hy g p2 h5 ?_
            rw [h4, h10]
            simp [quoted]
  | cons x M ih =>
    have hL' : L = (P ++ [x]) ++ M := by rw [hL]; simp
    simp only [flagOneArr] at h
    cases hp1 : parseSpace s e with
    | mk p1 e1 =>
    have s1 := Steps.space hp1
    rw [hp1] at h
    have stay : ∀ {b q r'}, p1 = b :: q → flagOneArr c strict M v p1 e1 r' = .ok (v1, tail ++ p, e) → Steps e1 e := by
      intro b q r' _ hh
      exact (SafeOut.step (flagOneArr_safe c strict M v (s0 := p1) (e0 := e1) _ (List.suffix_refl _) (.refl _ e1)) hh).2
    cases p1 with
    | nil =>
      simp only [Out.ok.injEq, Prod.mk.injEq] at h
      exact absurd h.2.1.symm hne
    | cons b q =>
      simp only at h
      by_cases hbr : b = c%']'
      · rw [if_pos hbr] at h
        simp only [Out.ok.injEq, Prod.mk.injEq] at h
        obtain ⟨h1, h2, h3⟩ := h
        subst h3
        rw [h2] at hp1
        obtain ⟨g, h4, h5, _⟩ := space_inv he hp1
        exact trivial' h5 h4 h1.symm
      rw [if_neg hbr] at h
      by_cases hbq : b = c%'"'
      · subst hbq
        rw [if_neg (by simp)] at h
        -- not this entry
        have next : (∀ q', q ≠ x.1 ++ c%'"' :: q') → flagOneArr c strict M v (c%'"' :: q) e1 ready = .ok (v1, tail ++ p, e) →
            ∃ u t, v1 = v ||| u ∧ s = t ++ p ∧ FlagArr L strict (u ||| v2) t := by
          intro hx hh
          have k1 := he.back s1 (stay rfl hh)
          subst k1
          obtain ⟨g, h4, h5, _⟩ := space_inv he hp1
          have hP' : ready = false → ∀ y ∈ P ++ [x], ∀ g q', Gap g → c%'"' :: q ≠ g ++ quoted y.1 ++ q' := by
            intro hr y hy g' q' hg' heq
            rcases List.mem_append.mp hy with hy | hy
            · refine hP hr y hy (g ++ g') q' (h5.append hg') ?_
              rw [h4, heq]
              simp
            · simp only [List.mem_singleton] at hy
              subst hy
              cases g' with
              | nil =>
                simp [quoted] at heq
                exact hx q' heq
              | cons b' g' =>
                simp only [List.cons_append, List.cons.injEq] at heq
                rcases gap_head hg' rfl with hh | hh <;> rw [← heq.1] at hh <;> revert hh
                · unfold WsByte; decide
                · decide
          obtain ⟨u, t, h6, h7, h8⟩ := ih hL' (s := c%'"' :: q) (ready := ready) hP' hh (by
            intro g' hg' h1 h2
            refine ⟨0, g' ++ tail, by simp [h2], by rw [h1]; simp, ?_⟩
            simpa using ht.gap hg')
          exact ⟨u, g ++ t, h6, by rw [h4, h7]; simp, h8.gap h5⟩
        cases hm : matchName x.1 q with
        | mk m1 m2 =>
        rw [hm] at h
        cases m1 with
        | cons z zs =>
          refine next ?_ h
          intro q' hq'
          rw [hq', matchName_self] at hm
          cases hm
        | nil =>
          cases m2 with
          | nil =>
            refine next ?_ h
            intro q' hq'
            rw [hq', matchName_self] at hm
            cases hm
          | cons d q2 =>
            have hq := matchName_iff.mp hm
            simp only at h
            by_cases hd : d = c%'"'
            · rw [if_pos hd] at h
              have hqs := quoted_split hd hq
              cases hp2 : parseSpace q2 e1 with
              | mk p2 e2 =>
              have s2 := Steps.space hp2
              rw [hp2] at h
              have hxi : FlagItem L strict (x.1, x.2) := .listed (by rw [hL]; simp)
              cases p2 with
              | nil =>
                simp only [Out.ok.injEq, Prod.mk.injEq] at h
                exact absurd h.2.1.symm hne
              | cons d2 q3 =>
                simp only at h
                by_cases hd2 : d2 = c%','
                · rw [if_neg (by simp [hd2])] at h
                  cases hp3 : parseSpace q3 e2 with
                  | mk p3 e3 =>
                  have s3 := Steps.space hp3
                  rw [hp3] at h
                  simp only at h
                  have s4 : Steps e3 e :=
                    (SafeOut.step (flagOneArr_safe c strict M _ (s0 := p3) (e0 := e3) _ (List.suffix_refl _) (.refl _ e3)) h).2
                  have k3 := he.back (s1.trans (s2.trans s3)) s4
                  subst k3
                  have k2 := he.back (s1.trans s2) s3
                  subst k2
                  have k1 := he.back s1 s2
                  subst k1
                  obtain ⟨g, h4, h5, _⟩ := space_inv he hp1
                  obtain ⟨g2, h6, h7, _⟩ := space_inv he hp2
                  obtain ⟨g3, h8, h9, _⟩ := space_inv he hp3
                  obtain ⟨u, t, h10, h11, h12⟩ := ih hL' (s := p3) (v := v ||| x.2) (ready := true) (by simp) h (by
                    intro g' hg' h1 h2
                    refine ⟨0, g' ++ tail, by simp [h2], by rw [h1]; simp, ?_⟩
                    simpa using ht.gap hg')
                  refine ⟨x.2 ||| u, g ++ quoted x.1 ++ g2 ++ b!"," ++ (g3 ++ t), by rw [h10, BitVec.or_assoc], ?_, ?_⟩
                  · rw [h4, hqs, h6, hd2, h8, h11]
                    simp
                  · rw [BitVec.or_assoc]
                    exact .item h5 hxi h7 (.inr rfl) (h12.gap h9)
                · rw [if_pos hd2] at h
                  simp only [Out.ok.injEq, Prod.mk.injEq] at h
                  obtain ⟨h1, h2, h3⟩ := h
                  subst h3
                  have k1 := he.back s1 s2
                  subst k1
                  obtain ⟨g, h4, h5, _⟩ := space_inv he hp1
                  obtain ⟨g2, h6, h7, _⟩ := space_inv he hp2
                  refine ⟨x.2, g ++ quoted x.1 ++ g2 ++ [] ++ tail, h1.symm, ?_, .item h5 hxi h7 (.inl rfl) ht⟩
                  rw [h4, hqs, h6, h2]
                  simp
            · rw [if_neg hd] at h
              refine next ?_ h
              intro q' hq'
              rw [hq', matchName_self] at hm
              simp only [Prod.mk.injEq, List.cons.injEq, true_and] at hm
              exact hd hm.1.symm
      · rw [if_pos hbq] at h
        simp only [Out.ok.injEq, Prod.mk.injEq] at h
        exact absurd h.2.1.symm hne

theorem farr_rest {z rest : Bytes} {ns : List Bytes} {x : Bytes} (h : FArr z ns x) : FArr (z ++ rest) ns (x ++ rest) := by
  induction h with
  | stop => exact .stop
  | @tight n _ _ _ hg _ ih =>
    have := FArr.tight (n := n) hg ih
    simpa only [List.append_assoc] using this
  | @comma n _ _ _ _ hg hg' _ ih =>
    have := FArr.comma (n := n) hg hg' ih
    simpa only [List.append_assoc, List.cons_append] using this

theorem FlagArr.farr {v : BitVec w} {t : Bytes} (h : FlagArr L strict v t) :
    ∃ g x, ∃ xs : List (Bytes × BitVec w), t = g ++ x ∧ Gap g ∧ FArr b!"]" (xs.map Prod.fst) x ∧ (∀ y ∈ xs, FlagItem L strict y) ∧ v = orAll (xs.map Prod.snd) := by
  induction h with
  | @close g hg => exact ⟨g, b!"]", [], rfl, hg, .stop, by simp, rfl⟩
  | @item g n u g' k v r hg hi hg' hk _ ih =>
    obtain ⟨g2, x, xs, rfl, h2, h3, h4, rfl⟩ := ih
    rcases hk with rfl | rfl
    · exact ⟨g, quoted n ++ (g' ++ g2) ++ x, (n, u) :: xs, by simp, hg, .tight (hg'.append h2) h3, List.forall_mem_cons.mpr ⟨hi, h4⟩, rfl⟩
    · exact ⟨g, quoted n ++ g' ++ c%',' :: (g2 ++ x), (n, u) :: xs, by simp, hg, .comma hg' h2 h3, List.forall_mem_cons.mpr ⟨hi, h4⟩, rfl⟩

theorem deFlags_arr_complete {F : Flags w} (hne : F.list ≠ []) (hnd : (F.list.map Prod.fst).Nodup)
    (hpl : ∀ y ∈ F.list, PlainName y.1) {v : BitVec w} {t : Bytes} (h : FlagArr F.list F.strict v t) (v0 : BitVec w) (rest : Bytes)
    (e : EPtr) : deFlags c F v0 (c%'[' :: t ++ rest) e = .ok (v, rest, e) := by
  obtain ⟨g, x, xs, rfl, h2, h3, hx, rfl⟩ := h.farr
  have h3 : FArr (c%']' :: rest) (xs.map Prod.fst) (x ++ rest) := farr_rest (rest := rest) h3
  simp only [List.cons_append, deFlags]
  rw [if_neg (by simp), List.append_assoc]
  have := flagLoopF_arr_gap (c := c) (e := e) (R := fun v => .ok (v, c%']' :: rest, e)) hne hnd hpl (.inl rfl)
    (fun M _ v e ready => flagOneArr_close rest M v e ready)
    (fun v m hm => by
      cases m with
      | zero => omega
      | succ m => simp [flagLoopF]) hx h2 h3 0 ((g ++ (x ++ rest)).length + 1) (by omega)
  simp only [decide_true, this, Out.bind_ok]
  simp [flagsEnd]

/-! ### The loop -/

theorem flagLoopF_inv {F : Flags w} {arr : Bool} {T : BitVec w → Bytes → Prop}
    (hclose : T 0 [if arr then c%']' else c%'"'])
    {e : EPtr} (he : e.Clean)
    (hone : ∀ {v v1 v2 : BitVec w} {s tail p : Bytes}, s ≠ [] → s.head? ≠ some (if arr then c%']' else c%'"') →
      flagOne c F arr v s e = .ok (v1, tail ++ p, e) → T v2 tail → ∃ u t, v1 = v ||| u ∧ s = t ++ p ∧ T (u ||| v2) t)
    {n : Nat} {v v' : BitVec w} {s : Bytes} {b : Byte} {p : Bytes}
    (h : flagLoopF c F arr n v s e = .ok (v', b :: p, e)) : ∃ u t, v' = v ||| u ∧ s = t ++ p ∧ T u t := by
  induction n generalizing v s with
  | zero => simp [flagLoopF] at h
  | succ n ih =>
    simp only [flagLoopF] at h
    cases s with
    | nil => simp at h
    | cons d q =>
      simp only at h
      by_cases hd : d = (if arr then c%']' else c%'"')
      · rw [if_pos hd] at h
        simp only [Out.ok.injEq, Prod.mk.injEq, List.cons.injEq] at h
        obtain ⟨rfl, ⟨rfl, rfl⟩, _⟩ := h
        exact ⟨0, [d], by simp, rfl, by rw [hd]; exact hclose⟩
      · rw [if_neg hd] at h
        obtain ⟨⟨v1, p1, e1⟩, h1, h⟩ := Out.bind_eq_ok.mp h
        have s1 : Steps e e1 := (SafeOut.step (flagOne_safe c F arr v (d :: q) e) h1).2
        simp only at h
        split at h
        · simp at h
        · split at h
          · simp at h
          · rename_i hl hne
            have suf : p1 <:+ d :: q := (SafeOut.step (flagOne_safe c F arr v (d :: q) e) h1).1
            have s2 : Steps e1 e := by
              have : ∀ (n : Nat) (v : BitVec w) (s : Bytes) (e e' : EPtr) v' p', flagLoopF c F arr n v s e = .ok (v', p', e') → Steps e e' := by
                intro n
                induction n with
                | zero => intro v s e e' v' p' h; simp [flagLoopF] at h
                | succ n ih =>
                  intro v s e e' v' p' h
                  simp only [flagLoopF] at h
                  cases s with
                  | nil => simp at h; rw [h.2.2]; exact .refl _
                  | cons d q =>
                    simp only at h
                    by_cases hd : d = (if arr then c%']' else c%'"')
                    · rw [if_pos hd] at h; simp at h; rw [h.2.2]; exact .refl _
                    · rw [if_neg hd] at h
                      obtain ⟨⟨v1, p1, e1⟩, h1, h⟩ := Out.bind_eq_ok.mp h
                      obtain ⟨suf, s1⟩ := SafeOut.step (flagOne_safe c F arr v (d :: q) e) h1
                      simp only at h
                      split at h
                      · simp only [Out.ok.injEq, Prod.mk.injEq] at h
                        rw [← h.2.2]
                        exact s1.trans ⟨p1.length, .create (by decide) _ _ (by omega) (by omega)⟩
                      · split at h
                        · simp only [Out.ok.injEq, Prod.mk.injEq] at h
                          rw [← h.2.2]
                          exact s1.trans ⟨0, .create (by decide) _ _ (by omega) (by omega)⟩
                        · exact s1.trans (ih _ _ _ _ _ _ h)
              exact this _ _ _ _ _ _ _ h
            have k1 := he.back s1 s2
            subst k1
            obtain ⟨u, t, h2, h3, h4⟩ := ih h
            rw [h3] at h1
            obtain ⟨u', t', h5, h6, h7⟩ := hone (by simp) (by simpa using hd) h1 h4
            exact ⟨u' ||| u, t', by rw [h2, h5, BitVec.or_assoc], h6, h7⟩

/-- What the two forms have to show. -/
theorem deFlags_inv {F : Flags w} {e : EPtr} (he : e.Clean) {v0 v : BitVec w} {s p : Bytes} (h : deFlags c F v0 s e = .ok (v, p, e)) :
    ∃ b q d, s = b :: q ∧ (b = c%'[' ∨ b = c%'"') ∧
      flagLoopF c F (b = c%'[') (q.length + 1) 0 q e = .ok (v, d :: p, e) := by
  simp only [deFlags] at h
  cases s with
  | nil =>
    simp only [Out.ok.injEq, Prod.mk.injEq] at h
    exact (he.no_error (by decide) h.2.2).elim
  | cons b q =>
    simp only at h
    by_cases hb : b ≠ c%'[' ∧ b ≠ c%'"'
    · rw [if_pos hb] at h
      simp only [Out.ok.injEq, Prod.mk.injEq] at h
      exact (he.no_error (by decide) h.2.2).elim
    · rw [if_neg hb] at h
      obtain ⟨⟨v1, p1, e1⟩, h1, h⟩ := Out.bind_eq_ok.mp h
      have s1 : Steps e e1 := (SafeOut.step (flagLoopF_safe c F _ _ 0 q e (by omega)) h1).2
      simp only [flagsEnd] at h
      cases p1 with
      | nil =>
        simp only [Out.ok.injEq, Prod.mk.injEq] at h
        exact (he.absurd s1 (by decide) h.2.2).elim
      | cons d p1 =>
        simp only at h
        split at h
        · simp only [Out.ok.injEq, Prod.mk.injEq] at h
          exact (he.absurd s1 (by decide) h.2.2).elim
        · simp only [Out.ok.injEq, Prod.mk.injEq] at h
          obtain ⟨rfl, rfl, rfl⟩ := h
          refine ⟨b, q, d, rfl, ?_, h1⟩
          by_cases hb1 : b = c%'['
          · exact .inl hb1
          · exact .inr (Classical.not_not.mp fun hb2 => hb ⟨hb1, hb2⟩)

theorem flagLoopF_complete {F : Flags w} {arr : Bool} {T : BitVec w → Bytes → Prop} {e : EPtr} {rest : Bytes}
    (hhead : ∀ {v t}, T v t → ∃ b q, t = b :: q ∧ (b = (if arr then c%']' else c%'"') → q = [] ∧ v = 0))
    (hone : ∀ {v v' : BitVec w} {t : Bytes}, T v' t → t.head? ≠ some (if arr then c%']' else c%'"') →
      ∃ vn v1 t1, flagOne c F arr v (t ++ rest) e = .ok (vn, t1 ++ rest, e) ∧ vn ||| v1 = v ||| v' ∧ T v1 t1 ∧ t1.length < t.length)
    {n : Nat} {v v' : BitVec w} {t : Bytes} (ht : T v' t) (hn : (t ++ rest).length < n) :
    flagLoopF c F arr n v (t ++ rest) e = .ok (v ||| v', (if arr then c%']' else c%'"') :: rest, e) := by
  induction n generalizing v v' t with
  | zero => omega
  | succ n ih =>
    obtain ⟨b, q, hbq, hb⟩ := hhead ht
    by_cases hd : b = (if arr then c%']' else c%'"')
    · obtain ⟨hq, hv⟩ := hb hd
      subst hq hv hbq
      simp only [flagLoopF, List.cons_append, List.nil_append]
      rw [if_pos hd, hd]
      simp
    · obtain ⟨vn, v1, t1, h1, h2, h3, h4⟩ := hone (v := v) ht (by rw [hbq]; simpa using hd)
      have hne : t1 ++ rest ≠ [] := by
        obtain ⟨b', q', h5, _⟩ := hhead h3
        rw [h5]; simp
      have ih := ih (v := vn) h3 (by simp only [List.length_append] at hn ⊢; omega)
      subst hbq
      simp only [flagLoopF, List.cons_append]
      rw [if_neg hd]
      simp only [List.cons_append] at h1
      rw [h1, Out.bind_ok]
      simp only
      rw [if_neg (by simp only [List.length_append, List.length_cons] at h4 ⊢; omega), if_neg hne, ih, h2]

/-! ### The string form: words -/

variable {sep : Byte}

/-- The word `y` is not at the start. -/
def NotAt (sep : Byte) (y s : Bytes) : Prop := ∀ z, s = y ++ z → ¬ WordStop sep z

theorem isSpace_iff {r : Bytes} : isSpace r = true ↔ (∃ b, r.head? = some b ∧ WsByte b) ∨ b!"/*" <+: r := by
  cases r with
  | nil => simp [isSpace]
  | cons b t =>
    simp only [isSpace, List.head?_cons, Option.some.injEq, exists_eq_left', ← isWs_iff]
    by_cases hb : isWs b = true
    · simp [hb]
    · simp only [hb, Bool.false_eq_true, if_false, false_or, List.cons_prefix_cons]
      by_cases hs : b = c%'/'
      · simp only [hs, if_true, beq_iff_eq, true_and]
        cases t with
        | nil => simp
        | cons x t => simp [List.cons_prefix_cons, eq_comm]
      · simp [hs, eq_comm]

theorem wordStop_cons {d : Byte} {q : Bytes} :
    WordStop sep (d :: q) ↔ (sep ≠ c%' ' ∧ isSpace (d :: q) = true) ∨ d = sep ∨ d = c%'"' := by
  simp only [WordStop, List.head?_cons, Option.some.injEq, isSpace_iff]
  constructor
  · rintro (h | h | h)
    · exact .inr (.inr h)
    · exact .inr (.inl h)
    · exact .inl h
  · rintro (h | h | h)
    · exact .inr (.inr h)
    · exact .inr (.inl h)
    · exact .inl h

theorem not_wordStop_nil : ¬ WordStop sep [] := by simp [WordStop]

/-- Only the text up to a closing quote matters. -/
theorem wordStop_append {x : Bytes} (hx : x.getLast? = some c%'"') (p : Bytes) : WordStop sep (x ++ p) ↔ WordStop sep x := by
  cases x with
  | nil => simp at hx
  | cons b x =>
    simp only [WordStop, List.cons_append, List.head?_cons]
    have : b!"/*" <+: b :: (x ++ p) ↔ b!"/*" <+: b :: x := by
      simp only [List.cons_prefix_cons]
      cases x with
      | nil =>
        have hb : b = c%'"' := by simpa using hx
        subst hb
        simp
      | cons y x => simp [List.cons_prefix_cons]
    rw [this]

theorem notAt_append {x y : Bytes} (hx : x.getLast? = some c%'"') (hy : c%'"' ∉ y) (p : Bytes) :
    NotAt sep y (x ++ p) ↔ NotAt sep y x := by
  have hlast : ∀ {z}, x = y ++ z → z.getLast? = some c%'"' := by
    intro z h
    rw [h, List.getLast?_append] at hx
    cases hz : z.getLast? with
    | none =>
      rw [hz] at hx
      simp only [Option.none_or] at hx
      exact absurd (List.mem_of_getLast? hx) hy
    | some b => rw [hz] at hx; simpa using hx
  constructor
  · intro h z hz hs
    exact h (z ++ p) (by rw [hz]; simp) ((wordStop_append (hlast hz) p).mpr hs)
  · intro h z hz hs
    rcases List.append_eq_append_iff.mp hz with ⟨a, h1, h2⟩ | ⟨a, h1, h2⟩
    · -- the name is longer
      cases a with
      | nil =>
        simp only [List.append_nil] at h1
        rw [← h1] at hx
        exact absurd (List.mem_of_getLast? (by rw [h1] at hx ⊢; exact hx)) hy
      | cons b a =>
        have : c%'"' ∈ y := by rw [h1]; exact List.mem_append_left _ (List.mem_of_getLast? hx)
        exact absurd this hy
    · rw [h2] at hs
      exact h a h1 ((wordStop_append (hlast h1) p).mp hs)

theorem FlagStr.last {v : BitVec w} {t : Bytes} (h : FlagStr L strict sep v t) : t.getLast? = some c%'"' := by
  induction h with
  | close _ => simp
  | listed _ _ _ _ _ _ ih => rw [List.getLast?_append, ih]; rfl
  | other _ _ _ _ _ _ _ ih => rw [List.getLast?_append, ih]; rfl

theorem FlagSpaced.last' {v : BitVec w} {t : Bytes} (h : FlagSpaced L strict v t) : t.getLast? = some c%'"' := by
  induction h with
  | close => rfl
  | last _ => simp
  | more _ _ ih => rw [List.getLast?_append, List.getLast?_cons, ih]; rfl
  | other _ _ _ _ _ _ _ _ _ _ ih => rw [List.getLast?_append, ih]; rfl

theorem ne_nil_of_last {t : Bytes} (h : t.getLast? = some c%'"') : t ≠ [] := by rintro rfl; simp at h

theorem GapBefore.mk' {g r : Bytes} (h : Gap g) (hr : r.head? ≠ some c%'*') : GapBefore g r := ⟨h, fun _ => hr⟩

theorem GapBefore.append {g g' r : Bytes} (h : GapBefore g (g' ++ r)) (h' : GapBefore g' r) : GapBefore (g ++ g') r := by
  refine ⟨h.1.append h'.1, fun hl => ?_⟩
  rw [List.getLast?_append] at hl
  cases hg : g'.getLast? with
  | none =>
    rw [hg] at hl
    have : g' = [] := by simpa using hg
    subst this
    exact h.2 (by simpa using hl)
  | some b =>
    rw [hg] at hl
    exact h'.2 (by rw [hg]; simpa using hl)

theorem GapBefore.of_append {g t p : Bytes} (ht : t ≠ []) : GapBefore g (t ++ p) ↔ GapBefore g t := by
  cases t with
  | nil => exact absurd rfl ht
  | cons b t => simp [GapBefore]

theorem noGap_append {t p : Bytes} (ht : t ≠ []) : NoGap (t ++ p) ↔ NoGap t := by
  cases t with
  | nil => exact absurd rfl ht
  | cons b t => simp [NoGap]

theorem head_append_ne {t p : Bytes} (ht : t ≠ []) : (t ++ p).head? = t.head? := by
  cases t with
  | nil => exact absurd rfl ht
  | cons b t => simp

/-- White space that has been skipped without an error. -/
theorem space_before {s p : Bytes} {e : EPtr} (he : e.Clean) (h : parseSpace s e = (p, e)) : ∃ g, s = g ++ p ∧ GapBefore g p ∧ NoGap p := by
  obtain ⟨g, h1, h2, h3, h4⟩ := parseSpace_acc_iff.mp (Acc.of_clean (parseSpace_scan s) he h he.not_failed)
  exact ⟨g, h1, ⟨h2, h4⟩, h3⟩

theorem parseSpace_before {g p : Bytes} (hg : GapBefore g p) (hp : NoGap p) (e : EPtr) : parseSpace (g ++ p) e = (p, e) :=
  (parseSpace_acc_iff.mpr ⟨g, rfl, hg.1, hp, hg.2⟩) e

theorem parseSpace_stop {p : Bytes} (hp : NoGap p) (e : EPtr) : parseSpace p e = (p, e) := spaceLoop_false_stop hp e

theorem noGap_quote {q : Bytes} : NoGap (c%'"' :: q) := by
  intro b hb
  simp at hb; subst hb
  exact ⟨by unfold WsByte; decide, by decide⟩

theorem noGap_sep (hsep : GoodSep sep) (hs : sep ≠ c%' ') {q : Bytes} : NoGap (sep :: q) := by
  intro b hb
  simp at hb; subst hb
  have := hsep.resolve_left hs
  exact ⟨this.1, this.2.1⟩

theorem gap_noGap {g p : Bytes} (hg : Gap g) (h : NoGap (g ++ p)) : g = [] := by
  cases g with
  | nil => rfl
  | cons b g =>
    have := h b (by simp)
    rcases gap_head hg rfl with h1 | h1
    · exact absurd h1 this.1
    · exact absurd h1 this.2

theorem toSep_split (sep : Byte) (s : Bytes) :
    ∃ u, s = u ++ toSep sep s ∧ (∀ b ∈ u, b ≠ sep ∧ b ≠ c%'"') ∧
      (toSep sep s = [] ∨ ∃ d q, toSep sep s = d :: q ∧ (d = sep ∨ d = c%'"')) := by
  induction s with
  | nil => exact ⟨[], rfl, by simp, .inl rfl⟩
  | cons b s ih =>
    by_cases hb : b ≠ sep ∧ b ≠ c%'"'
    · obtain ⟨u, h1, h2, h3⟩ := ih
      refine ⟨b :: u, ?_, by simpa using ⟨hb, h2⟩, ?_⟩
      · simp only [toSep, if_pos hb, List.cons_append, ← h1]
      · simp only [toSep, if_pos hb]; exact h3
    · refine ⟨[], ?_, by simp, .inr ⟨b, s, ?_, ?_⟩⟩
      · simp only [toSep, if_neg hb]; rfl
      · simp only [toSep, if_neg hb]
      · by_cases h1 : b = sep
        · exact .inl h1
        · exact .inr (Classical.not_not.mp fun h2 => hb ⟨h1, h2⟩)

theorem toSep_eq {u : Bytes} (hu : ∀ b ∈ u, b ≠ sep ∧ b ≠ c%'"') {d : Byte} (hd : d = sep ∨ d = c%'"') (q : Bytes) :
    toSep sep (u ++ d :: q) = d :: q := by
  induction u with
  | nil =>
    simp only [List.nil_append, toSep]
    rw [if_neg]
    rintro ⟨h1, h2⟩
    exact hd.elim h1 h2
  | cons b u ih =>
    simp only [List.cons_append, toSep]
    rw [if_pos (hu b (by simp)), ih fun b hb => hu b (by simp [hb])]

theorem FlagStr.gap {v : BitVec w} {g r : Bytes} (hg : GapBefore g r) (h : FlagStr L strict sep v r) : FlagStr L strict sep v (g ++ r) := by
  cases h with
  | close h1 => rw [← List.append_assoc]; exact .close (hg.1.append h1)
  | listed h1 h2 h3 h4 h5 h6 =>
    have := FlagStr.listed (hg.1.append h1) h2 h3 h4 h5 h6
    simpa only [List.append_assoc] using this
  | @other g1 u k v r h1 h2 h3 h4 h5 h6 h7 =>
    have h2' := GapBefore.append (g' := g1) (r := u ++ k ++ r) (by simpa only [List.append_assoc] using hg) h2
    have := FlagStr.other h1 h2' h3 h4 h5 h6 h7
    simpa only [List.append_assoc] using this

/-- A step of the reader over its entries keeps the error argument. -/
theorem flagOneStr_steps {M : List (Bytes × BitVec w)} {v v1 : BitVec w} {s p : Bytes} {e e1 : EPtr} {ready : Bool}
    (h : flagOneStr sep strict M v s e ready = (v1, p, e1)) : Steps e e1 := by
  have := (flagOneStr_safe sep strict M v (s0 := s) (e0 := e) ready (List.suffix_refl _) (.refl _ e)).2
  rw [h] at this
  exact ⟨_, this⟩

/-! ### The string form: separators other than the space -/

theorem flags_zero_or (v : BitVec w) : 0 ||| v = v := by simp

theorem flagOneStr_inv (hsep : GoodSep sep) (hs : sep ≠ c%' ') (hw : ∀ y ∈ L, FlagWord sep y.1) {P M : List (Bytes × BitVec w)}
    (hL : L = P ++ M) {v v1 v2 : BitVec w} {s tail p : Bytes} {e : EPtr} (he : e.Clean) {ready : Bool}
    (hP : ready = false → ∀ y ∈ P, ∀ g r, s = g ++ r → Gap g → NotAt sep y.1 r)
    (h : flagOneStr sep strict M v s e ready = (v1, tail ++ p, e)) (ht : FlagStr L strict sep v2 tail) :
    ∃ u t, v1 = v ||| u ∧ s = t ++ p ∧ FlagStr L strict sep (u ||| v2) t := by
  have hlast := ht.last
  have htne := ne_nil_of_last hlast
  have hne : tail ++ p ≠ [] := by simp [htne]
  have stay : ∀ {g s : Bytes} {v : BitVec w}, GapBefore g (tail ++ p) → s = g ++ (tail ++ p) → v1 = v →
      ∃ u t, v1 = v ||| u ∧ s = t ++ p ∧ FlagStr L strict sep (u ||| v2) t := by
    intro g s v hg h1 h2
    refine ⟨0, g ++ tail, by simp [h2], by rw [h1]; simp, ?_⟩
    simpa using ht.gap ((GapBefore.of_append htne).mp hg)
  have nogap : ∀ r, GapBefore [] r := fun r => ⟨.nil, by simp⟩
  induction M generalizing P v s ready with
  | nil =>
    simp only [flagOneStr] at h
    by_cases hr : (ready || strict) = true
    · rw [if_pos hr] at h
      simp only [Prod.mk.injEq] at h
      exact stay (g := []) (nogap _) h.2.1 h.1.symm
    · rw [if_neg hr] at h
      simp only [Bool.or_eq_true, not_or, Bool.not_eq_true] at hr
      cases hp1 : parseSpace s e with
      | mk p1 e1 =>
      have s1 := Steps.space hp1
      rw [hp1] at h
      simp only at h
      cases hp2 : parseSpace (toSep sep p1) e1 with
      | mk p2 e2 =>
      have s2 := Steps.space hp2
      rw [hp2] at h
      cases p2 with
      | nil =>
        simp only [Prod.mk.injEq] at h
        exact absurd h.2.1.symm hne
      | cons b q =>
        simp only [Prod.mk.injEq] at h
        obtain ⟨h1, h2⟩ := h
        have s3 := Steps.space h2
        have k2 := he.back (s1.trans s2) s3
        subst k2
        have k1 := he.back s1 s2
        subst k1
        obtain ⟨g, h3, h4, h5⟩ := space_before he hp1
        obtain ⟨u, h6, h7, h8⟩ := toSep_split sep p1
        obtain ⟨g3, h9, h10, h11⟩ := space_before he h2
        have hun : ∀ {x}, p1 = x ++ p → x.getLast? = some c%'"' → Unlisted L sep x := by
          intro x hx hxl n hn
          obtain ⟨y, hy, rfl⟩ := List.mem_map.mp hn
          have hyP : y ∈ P := by rw [hL, List.append_nil] at hy; exact hy
          have := hP hr.1 y hyP g p1 h3 h4.1
          rw [hx] at this
          exact (notAt_append hxl (fun hq => ((hw y hy).clean _ hq).2.2.1 rfl) p).mp this
        rcases h8 with h8 | ⟨d, q', h8, hd⟩
        · rw [h8] at hp2
          cases hp2
        · rw [h8] at hp2 h6
          have hstop : NoGap (d :: q') := by
            rcases hd with rfl | rfl
            · exact noGap_sep hsep hs
            · exact noGap_quote
          rw [parseSpace_stop hstop] at hp2
          simp only [Prod.mk.injEq, List.cons.injEq, and_true] at hp2
          obtain ⟨rfl, rfl⟩ := hp2
          by_cases hds : d = sep
          · subst hds
            rw [if_pos rfl] at h9
            have hp1x : p1 = (u ++ [d] ++ (g3 ++ tail)) ++ p := by rw [h6, h9]; simp
            have hxl : (u ++ [d] ++ (g3 ++ tail)).getLast? = some c%'"' := by
              rw [List.getLast?_append, List.getLast?_append, hlast]; rfl
            refine ⟨0, g ++ u ++ [d] ++ (g3 ++ tail), by simp [h1], by rw [h3, hp1x]; simp, ?_⟩
            rw [flags_zero_or]
            have hnn := ne_nil_of_last hxl
            rw [hp1x] at h4 h5
            exact .other hr.2 ((GapBefore.of_append hnn).mp h4) ((noGap_append hnn).mp h5) h7 (hun hp1x hxl) (.inr rfl)
              (ht.gap ((GapBefore.of_append htne).mp h10))
          · have hdq := hd.resolve_left hds
            rw [if_neg hds] at h9
            have hg3 : g3 = [] := gap_noGap h10.1 (h9 ▸ hstop)
            subst hg3
            simp only [List.nil_append] at h9
            have hp1x : p1 = (u ++ [] ++ tail) ++ p := by rw [h6, h9]; simp
            have hxl : (u ++ [] ++ tail).getLast? = some c%'"' := by simp [List.getLast?_append, hlast]
            refine ⟨0, g ++ u ++ [] ++ tail, by simp [h1], by rw [h3, hp1x]; simp, ?_⟩
            rw [flags_zero_or]
            have hnn := ne_nil_of_last hxl
            rw [hp1x] at h4 h5
            refine .other hr.2 ((GapBefore.of_append hnn).mp h4) ((noGap_append hnn).mp h5) h7 (hun hp1x hxl) (.inl ⟨rfl, ?_⟩) ht
            rw [← head_append_ne (p := p) htne, ← h9, hdq]
            rfl
  | cons x M ih =>
    have hL' : L = (P ++ [x]) ++ M := by rw [hL]; simp
    have hxL : x ∈ L := by rw [hL]; simp
    simp only [flagOneStr, ne_eq, hs, not_false_eq_true, if_true, true_and] at h
    split at h
    · rename_i hs0
      simp only [Prod.mk.injEq] at h
      rw [← h.2.1] at hne
      exact absurd hs0 hne
    cases hp1 : parseSpace s e with
    | mk p1 e1 =>
    have s1 := Steps.space hp1
    rw [hp1] at h
    cases p1 with
    | nil =>
      simp only [Prod.mk.injEq] at h
      exact absurd h.2.1.symm hne
    | cons b q =>
      simp only at h
      by_cases hbq : b = c%'"'
      · rw [if_pos hbq] at h
        simp only [Prod.mk.injEq] at h
        obtain ⟨h1, h2, h3⟩ := h
        subst h3
        rw [h2] at hp1
        obtain ⟨g, h4, h5, _⟩ := space_before he hp1
        exact stay h5 h4 h1.symm
      rw [if_neg hbq] at h
      -- not this entry
      have next : NotAt sep x.1 (b :: q) → flagOneStr sep strict M v (b :: q) e1 ready = (v1, tail ++ p, e) →
          ∃ u t, v1 = v ||| u ∧ s = t ++ p ∧ FlagStr L strict sep (u ||| v2) t := by
        intro hx hh
        have k1 := he.back s1 (flagOneStr_steps hh)
        subst k1
        obtain ⟨g, h4, h5, h5'⟩ := space_before he hp1
        have hP' : ready = false → ∀ y ∈ P ++ [x], ∀ g r, b :: q = g ++ r → Gap g → NotAt sep y.1 r := by
          intro hr y hy g' r heq hg'
          have hg0 : g' = [] := gap_noGap hg' (heq ▸ h5')
          subst hg0
          simp only [List.nil_append] at heq
          rcases List.mem_append.mp hy with hy | hy
          · exact hP hr y hy g r (by rw [h4, heq]) h5.1
          · simp only [List.mem_singleton] at hy
            subst hy
            exact heq ▸ hx
        obtain ⟨u, t, h6, h7, h8⟩ := ih hL' hP' hh
        refine ⟨u, g ++ t, h6, by rw [h4, h7]; simp, h8.gap ?_⟩
        rw [h7] at h5
        exact (GapBefore.of_append (ne_nil_of_last h8.last)).mp h5
      cases hm : matchName x.1 (b :: q) with
      | mk m1 m2 =>
      rw [hm] at h
      have nomatch' : (∀ d q', (m1, m2) ≠ ([], d :: q')) → NotAt sep x.1 (b :: q) := by
        intro hh z hz hst
        rw [matchName_iff.mpr hz] at hm
        cases z with
        | nil => exact not_wordStop_nil hst
        | cons d q' => exact hh d q' hm.symm
      cases m1 with
      | cons z zs => exact next (nomatch' (by simp)) h
      | nil =>
        cases m2 with
        | nil => exact next (nomatch' (by simp)) h
        | cons d q2 =>
          have hq := matchName_iff.mp hm
          simp only at h
          have hst := wordStop_cons (sep := sep) (d := d) (q := q2)
          simp only [ne_eq, hs, not_false_eq_true, true_and] at hst
          by_cases hd : isSpace (d :: q2) = true ∨ d = sep ∨ d = c%'"'
          · rw [if_pos hd] at h
            have hst := hst.mpr hd
            cases hp2 : parseSpace (d :: q2) e1 with
            | mk p2 e2 =>
            have s2 := Steps.space hp2
            rw [hp2] at h
            cases p2 with
            | nil =>
              simp only [Prod.mk.injEq] at h
              exact absurd h.2.1.symm hne
            | cons d2 q3 =>
              simp only at h
              by_cases hd2 : d2 = c%'"'
              · rw [if_pos hd2] at h
                simp only [Prod.mk.injEq] at h
                obtain ⟨h1, h2, h3⟩ := h
                subst h3
                have k1 := he.back s1 s2
                subst k1
                obtain ⟨g, h4, h5, _⟩ := space_before he hp1
                obtain ⟨g2, h6, h7, _⟩ := space_before he hp2
                rw [h2] at h6 h7
                refine ⟨x.2, g ++ x.1 ++ g2 ++ [] ++ tail, h1.symm, by rw [h4, hq, h6]; simp, ?_⟩
                refine .listed h5.1 hxL ?_ ((GapBefore.of_append htne).mp h7) (.inl rfl) ht
                rw [h6, ← List.append_assoc, wordStop_append (by simp [List.getLast?_append, hlast])] at hst
                simpa using hst
              · rw [if_neg hd2] at h
                have s3 := flagOneStr_steps h
                have k2 := he.back (s1.trans s2) s3
                subst k2
                have k1 := he.back s1 s2
                subst k1
                obtain ⟨g, h4, h5, _⟩ := space_before he hp1
                obtain ⟨g2, h6, h7, _⟩ := space_before he hp2
                obtain ⟨u, t, h10, h11, h12⟩ := ih hL' (ready := true) (by simp) h
                have hk : ∃ k, (k = [] ∨ k = [sep]) ∧ d2 :: q3 = k ++ t ++ p := by
                  by_cases hd3 : d2 = sep
                  · rw [if_pos hd3] at h11
                    exact ⟨[sep], .inr rfl, by rw [hd3, h11]; simp⟩
                  · rw [if_neg hd3] at h11
                    exact ⟨[], .inl rfl, by rw [h11]; simp⟩
                obtain ⟨k, hk, hk2⟩ := hk
                have hkl : (k ++ t).getLast? = some c%'"' := by simp [List.getLast?_append, h12.last]
                refine ⟨x.2 ||| u, g ++ x.1 ++ g2 ++ k ++ t, by rw [h10, BitVec.or_assoc], by rw [h4, hq, h6, hk2]; simp, ?_⟩
                rw [BitVec.or_assoc]
                rw [hk2] at h6 h7
                refine .listed h5.1 hxL ?_ ((GapBefore.of_append (ne_nil_of_last hkl)).mp h7) hk h12
                rw [h6, ← List.append_assoc, wordStop_append (by simp [List.getLast?_append, h12.last])] at hst
                simpa only [List.append_assoc] using hst
          · rw [if_neg hd] at h
            refine next ?_ h
            intro z hz hst'
            rw [matchName_iff.mpr hz] at hm
            simp only [Prod.mk.injEq, true_and] at hm
            rw [hm] at hst'
            exact hd (hst.mp hst')

theorem noGap_word {n r : Bytes} (hn : FlagWord sep n) : NoGap (n ++ r) := by
  obtain ⟨b, u, rfl, hb, _⟩ := hn.cons
  intro x hx
  simp at hx; subst hx
  exact ⟨hb.1, hb.2.1⟩

/-- The text without the gap in front. -/
theorem FlagStr.strip (hw : ∀ y ∈ L, FlagWord sep y.1) {v : BitVec w} {t : Bytes} (h : FlagStr L strict sep v t) :
    ∃ g t', t = g ++ t' ∧ GapBefore g t' ∧ NoGap t' ∧ FlagStr L strict sep v t' := by
  cases h with
  | @close g h1 => exact ⟨g, b!"\"", rfl, .mk' h1 (by decide), noGap_quote, .close (g := []) .nil⟩
  | @listed g n u g' k v r h1 h2 h3 h4 h5 h6 =>
    have hn := hw _ h2
    refine ⟨g, n ++ (g' ++ k ++ r), by simp, .mk' h1 ?_, noGap_word hn, ?_⟩
    · obtain ⟨b, u, h7, hb, _⟩ := hn.cons
      simp only at h7
      rw [h7]
      simpa using hb.2.2
    · have := FlagStr.listed (g := []) .nil h2 h3 h4 h5 h6
      simpa only [List.nil_append, List.append_assoc] using this
  | @other g s k v r h1 h2 h3 h4 h5 h6 h7 =>
    refine ⟨g, s ++ k ++ r, by simp, h2, h3, ?_⟩
    have := FlagStr.other (g := []) h1 ⟨.nil, by simp⟩ h3 h4 h5 h6 h7
    simpa only [List.nil_append, List.append_assoc] using this

theorem wordStop_end {d : Byte} {q : Bytes} (h : WordStop sep (d :: q)) : WordEnd sep d := by
  rcases wordStop_cons.mp h with h | h | h
  · exact isSpace_end h.2
  · exact .inr (.inr (.inl h))
  · exact .inr (.inr (.inr h))

/-- An entry whose word is not there is passed over. -/
theorem flagOneStr_pass (x : Bytes × BitVec w) (M : List (Bytes × BitVec w)) (v : BitVec w) {s : Bytes} (hne : s ≠ [])
    (hq : s.head? ≠ some c%'"') (hg : sep ≠ c%' ' → NoGap s) (hx : NotAt sep x.1 s) (e : EPtr) (ready : Bool) :
    flagOneStr sep strict (x :: M) v s e ready = flagOneStr sep strict M v s e ready := by
  rw [flagOneStr, if_neg hne]
  have h1 : (if sep ≠ c%' ' then parseSpace s e else (s, e)) = (s, e) := by
    split
    · rename_i h; exact parseSpace_stop (hg h) e
    · rfl
  rw [h1]
  cases s with
  | nil => exact absurd rfl hne
  | cons b q =>
    simp only
    rw [if_neg (by simpa using hq)]
    cases hm : matchName x.1 (b :: q) with
    | mk m1 m2 =>
    cases m1 with
    | cons _ _ => rfl
    | nil =>
      cases m2 with
      | nil => rfl
      | cons d q2 =>
        simp only
        rw [if_neg]
        intro h
        exact hx _ (matchName_iff.mp hm) (wordStop_cons.mpr h)

theorem noquote_word {n : Bytes} (hn : FlagWord sep n) : c%'"' ∉ n := fun h => (hn.clean _ h).2.2.1 rfl

/-- Two words at the same place are the same. -/
theorem notAt_word {y n : Bytes} (hy : FlagWord sep y) (hn : FlagWord sep n) (hne : n ≠ y) {r : Bytes} (hr : WordStop sep r) :
    NotAt sep y (n ++ r) := by
  intro z hz hst
  cases r with
  | nil => exact not_wordStop_nil hr
  | cons d q =>
    cases z with
    | nil => exact not_wordStop_nil hst
    | cons d' q' => exact hne (word_split hn hy (wordStop_end hr) (wordStop_end hst) hz)

theorem flag_unique (hnd : (L.map Prod.fst).Nodup) {n : Bytes} {u u' : BitVec w} (h : (n, u) ∈ L) (h' : (n, u') ∈ L) : u = u' := by
  have h2 := enumFind_of_mem hnd h
  rw [enumFind_of_mem hnd h'] at h2
  simpa using h2.symm

theorem flagOneStr_step (hsep : GoodSep sep) (hs : sep ≠ c%' ') (hnd : (L.map Prod.fst).Nodup)
    (hw : ∀ y ∈ L, FlagWord sep y.1) {P M : List (Bytes × BitVec w)} (hL : L = P ++ M) {v v' : BitVec w} {t rest : Bytes} {e : EPtr}
    {ready : Bool} (ht : FlagStr L strict sep v' t) (hg : ready = false → NoGap t)
    (hP : ready = false → ∀ y ∈ P, NotAt sep y.1 t) :
    ∃ vn v1 t1, flagOneStr sep strict M v (t ++ rest) e ready = (vn, t1 ++ rest, e) ∧ vn ||| v1 = v ||| v' ∧
      FlagStr L strict sep v1 t1 ∧ t1.length ≤ t.length ∧ (ready = false → t.head? ≠ some c%'"' → t1.length < t.length) := by
  induction M generalizing P v v' t ready with
  | nil =>
    by_cases hr : ready = true
    · exact ⟨v, v', t, by simp [flagOneStr, hr], rfl, ht, Nat.le_refl _, by simp [hr]⟩
    simp only [Bool.not_eq_true] at hr
    replace hg := hg hr
    replace hP := hP hr
    rw [List.append_nil] at hL
    subst hr hL
    simp only [flagOneStr, Bool.false_or]
    have hp1 := parseSpace_stop ((noGap_append (p := rest) (ne_nil_of_last ht.last)).mpr hg) e
    cases ht with
    | @close g h1 =>
      have := gap_noGap h1 hg
      subst this
      refine ⟨v, 0, b!"\"", ?_, rfl, .close .nil, Nat.le_refl _, by simp⟩
      split
      · rfl
      · simp only [List.nil_append, List.cons_append] at hp1 ⊢
        have h2 : toSep sep (c%'"' :: rest) = c%'"' :: rest := toSep_eq (u := []) (by simp) (.inr rfl) rest
        rw [hp1, h2]
        simp only [hp1]
        rw [if_neg (fun h => (hsep.resolve_left hs).2.2.2 h.symm), hp1]
    | @listed g n u g' k v' r h1 h2 h3 h4 h5 h6 =>
      have := gap_noGap h1 (by simpa only [List.append_assoc] using hg)
      subst this
      exact absurd h3 (hP _ h2 _ (by simp only [List.nil_append, List.append_assoc]))
    | @other g s k v' r h1 h2 h3 h4 h5 h6 h7 =>
      have := gap_noGap h2.1 (by simpa only [List.append_assoc] using hg)
      subst this h1
      rw [if_neg (by simp), hp1]
      simp only [List.nil_append]
      rcases h6 with ⟨rfl, h6⟩ | rfl
      · cases r with
        | nil => simp at h6
        | cons b r =>
          simp only [List.head?_cons, Option.some.injEq] at h6
          subst h6
          refine ⟨v, v', c%'"' :: r, ?_, rfl, h7, by simp, ?_⟩
          · simp only [List.append_nil, List.append_assoc, List.cons_append]
            rw [toSep_eq h4 (.inr rfl), parseSpace_stop noGap_quote]
            simp only
            rw [if_neg (fun h => (hsep.resolve_left hs).2.2.2 h.symm), parseSpace_stop noGap_quote]
          · intro _ hq
            cases s with
            | nil => simp at hq
            | cons a s => simp; omega
      · obtain ⟨g3, t3, rfl, h8, h9, h10⟩ := h7.strip hw
        refine ⟨v, v', t3, ?_, rfl, h10, by simp; omega, by simp; omega⟩
        simp only [List.append_assoc, List.cons_append, List.nil_append]
        rw [toSep_eq h4 (.inl rfl), parseSpace_stop (noGap_sep hsep hs)]
        simp only [if_true]
        have hne := ne_nil_of_last h10.last
        rw [parseSpace_before ((GapBefore.of_append hne).mpr h8) ((noGap_append hne).mpr h9)]
  | cons x M ih =>
    have hL' : L = (P ++ [x]) ++ M := by rw [hL]; simp
    have hxL : x ∈ L := by rw [hL]; simp
    have hwx := hw x hxL
    obtain ⟨g, t', hgt, hg1, hg2, ht'⟩ := ht.strip hw
    have htne' := ne_nil_of_last ht'.last
    -- without the gap
    have red : flagOneStr sep strict (x :: M) v (t ++ rest) e ready = flagOneStr sep strict (x :: M) v (t' ++ rest) e ready := by
      have h1 := parseSpace_before ((GapBefore.of_append (p := rest) htne').mpr hg1) ((noGap_append htne').mpr hg2) e
      have h2 := parseSpace_stop ((noGap_append (p := rest) htne').mpr hg2) e
      have n1 : t ++ rest ≠ [] := by simp [ne_nil_of_last ht.last]
      have n2 : t' ++ rest ≠ [] := by simp [htne']
      simp only [flagOneStr, if_neg n1, if_neg n2, ne_eq, hs, not_false_eq_true, if_true]
      rw [hgt, List.append_assoc, h1, h2]
    have hsame : ready = false → t' = t := by
      intro hr
      have := gap_noGap hg1.1 (hgt ▸ hg hr)
      rw [hgt, this]; rfl
    have hlen : t'.length ≤ t.length := by rw [hgt]; simp
    suffices hsuff : ∃ vn v1 t1, flagOneStr sep strict (x :: M) v (t' ++ rest) e ready = (vn, t1 ++ rest, e) ∧ vn ||| v1 = v ||| v' ∧
        FlagStr L strict sep v1 t1 ∧ t1.length ≤ t'.length ∧ (ready = false → t'.head? ≠ some c%'"' → t1.length < t'.length) by
      obtain ⟨vn, v1, t1, k1, k2, k3, k4, k5⟩ := hsuff
      refine ⟨vn, v1, t1, by rw [red, k1], k2, k3, by omega, ?_⟩
      intro hr
      rw [← hsame hr]
      exact k5 hr
    have hP' : ready = false → ∀ y ∈ P, NotAt sep y.1 t' := fun hr => by rw [hsame hr]; exact hP hr
    clear red hgt hg1 hlen hsame ht hP hg
    -- the next entry
    have next : NotAt sep x.1 t' → t'.head? ≠ some c%'"' →
        ∃ vn v1 t1, flagOneStr sep strict (x :: M) v (t' ++ rest) e ready = (vn, t1 ++ rest, e) ∧ vn ||| v1 = v ||| v' ∧
        FlagStr L strict sep v1 t1 ∧ t1.length ≤ t'.length ∧ (ready = false → t'.head? ≠ some c%'"' → t1.length < t'.length) := by
      intro hx hq
      rw [flagOneStr_pass x M v (by simp [htne']) (by rw [head_append_ne htne']; exact hq) (fun _ => (noGap_append htne').mpr hg2)
        ((notAt_append ht'.last (noquote_word hwx) rest).mpr hx)]
      refine ih hL' ht' (fun _ => hg2) ?_
      intro hr y hy
      rcases List.mem_append.mp hy with hy | hy
      · exact hP' hr y hy
      · simp only [List.mem_singleton] at hy
        subst hy
        exact hx
    cases hct : ht' with
    | @close g h1 =>
      have := gap_noGap h1 hg2
      subst this
      refine ⟨v, 0, b!"\"", ?_, rfl, .close .nil, Nat.le_refl _, by simp⟩
      have h2 := parseSpace_stop (noGap_quote (q := rest)) e
      simp [flagOneStr, hs, h2]
    | @other g s k v' r h1 h2 h3 h4 h5 h6 h7 =>
      have := gap_noGap h2.1 (by simpa only [List.append_assoc] using hg2)
      subst this
      by_cases hq : (s ++ k ++ r).head? = some c%'"'
      · refine ⟨v, v', [] ++ s ++ k ++ r, ?_, rfl, ht', Nat.le_refl _, fun _ h => absurd hq h⟩
        have h8 := parseSpace_stop ((noGap_append (p := rest) htne').mpr hg2) e
        simp only [List.nil_append] at h8 ⊢
        rw [flagOneStr, if_neg (fun h => htne' (by simpa using (List.append_eq_nil_iff.mp h).1))]
        simp only [ne_eq, hs, not_false_eq_true, if_true, h8]
        cases hc : (s ++ k ++ r) with
        | nil => rw [hc] at hq; simp at hq
        | cons b q =>
          rw [hc] at hq
          simp only [List.head?_cons, Option.some.injEq] at hq
          subst hq
          simp
      · refine next ?_ hq
        exact h5 x.1 (List.mem_map.mpr ⟨x, hxL, rfl⟩)
    | @listed g n u g' k v' r h1 h2 h3 h4 h5 h6 =>
      have hn := hw _ h2
      have := gap_noGap h1 (by simpa only [List.append_assoc] using hg2)
      subst this
      have hhead : ([] ++ n ++ g' ++ k ++ r).head? ≠ some c%'"' := by
        obtain ⟨b, n', h7, _, hb, _⟩ := hn.cons
        simp only at h7
        rw [h7]
        simpa using hb
      by_cases hnx : n = x.1
      · -- this entry
        subst hnx
        have hux : u = x.2 := flag_unique hnd h2 hxL
        subst hux
        obtain ⟨b, n', hbn, hb, hq, _⟩ := hn.cons
        simp only at hbn
        have hm := matchName_self x.1 (g' ++ k ++ r ++ rest)
        have hrlast := h6.last
        have hst : WordStop sep (g' ++ k ++ r ++ rest) :=
          (wordStop_append (by rw [List.getLast?_append, hrlast]; rfl) rest).mpr h3
        obtain ⟨g2, r', hr1, hr2, hr3, hr4⟩ := h6.strip hw
        have hrne := ne_nil_of_last hr4.last
        cases hd : g' ++ k ++ r ++ rest with
        | nil => simp [ne_nil_of_last hrlast] at hd
        | cons d q2 =>
        have hst' := wordStop_cons.mp (hd ▸ hst)
        have start : flagOneStr sep strict (x :: M) v ([] ++ x.1 ++ g' ++ k ++ r ++ rest) e ready =
            match (parseSpace (g' ++ (k ++ (r ++ rest))) e).1 with
              | [] => (v ||| x.2, [], (parseSpace (g' ++ (k ++ (r ++ rest))) e).2)
              | d :: q =>
                if d = c%'"' then (v ||| x.2, d :: q, (parseSpace (g' ++ (k ++ (r ++ rest))) e).2)
                else flagOneStr sep strict M (v ||| x.2) (if d = sep then q else d :: q) (parseSpace (g' ++ (k ++ (r ++ rest))) e).2 true := by
          have h9 : [] ++ x.1 ++ g' ++ k ++ r ++ rest = b :: (n' ++ (g' ++ k ++ r ++ rest)) := by rw [hbn]; simp
          have h10 : matchName x.1 (b :: (n' ++ (g' ++ k ++ r ++ rest))) = ([], g' ++ k ++ r ++ rest) := by
            rw [hbn] at hm ⊢; simpa using hm
          rw [h9, flagOneStr_start x M v hb hq, h10, hd]
          simp only
          rw [if_pos hst', ← hd]
          simp only [ne_eq, hs, not_false_eq_true, if_true, List.append_assoc]
          cases parseSpace (g' ++ (k ++ (r ++ rest))) e with
          | mk a b => cases a <;> rfl
        rw [start]
        rcases h5 with rfl | rfl
        · -- no separator
          have hsp : parseSpace (g' ++ ([] ++ (r ++ rest))) e = (r' ++ rest, e) := by
            have : GapBefore (g' ++ g2) r' := GapBefore.append (by rw [← hr1]; simpa using h4) hr2
            have := parseSpace_before ((GapBefore.of_append (p := rest) hrne).mpr this) ((noGap_append hrne).mpr hr3) e
            rw [← this, hr1]
            simp
          rw [hsp]
          cases hr' : r' with
          | nil => exact absurd hr' hrne
          | cons d2 q3 =>
            simp only [List.cons_append]
            by_cases hd2 : d2 = c%'"'
            · rw [if_pos hd2]
              have hrl : r'.length ≤ r.length := by rw [hr1]; simp
              refine ⟨v ||| x.2, v', r', by rw [hr']; rfl, by rw [BitVec.or_assoc], hr4, by simp; omega, fun _ _ => ?_⟩
              simp only [List.nil_append, List.length_append]
              have : 0 < x.1.length := by rw [hbn]; simp
              omega
            · rw [if_neg hd2]
              by_cases hd3 : d2 = sep
              · -- an empty word
                rw [if_pos hd3]
                rw [hr'] at hr4 hr3
                subst hd3
                have hr5 : FlagStr L strict d2 v' q3 := by
                  generalize hz : d2 :: q3 = z at hr4 hr3
                  cases hr4 with
                  | close k1 =>
                    have := gap_noGap k1 hr3
                    subst this
                    simp at hz
                    exact absurd hz.1 hd2
                  | @listed g n u g' k v r k1 k2 _ _ _ _ =>
                    have := gap_noGap k1 (by simpa only [List.append_assoc] using hr3)
                    subst this
                    obtain ⟨b, n', h7, _, _, hb⟩ := (hw _ k2).cons
                    simp only at h7
                    rw [h7] at hz
                    simp at hz
                    exact absurd hz.1.symm hb
                  | @other g s k v r k1 k2 k3 k4 k5 k6 k7 =>
                    have := gap_noGap k2.1 (by simpa only [List.append_assoc] using hr3)
                    subst this
                    cases s with
                    | cons a s =>
                      simp only [List.nil_append, List.cons_append, List.cons.injEq] at hz
                      exact absurd hz.1.symm (k4 a (by simp)).1
                    | nil =>
                      rcases k6 with ⟨rfl, k6⟩ | rfl
                      · simp only [List.nil_append] at hz
                        rw [← hz] at k6
                        simp at k6
                        exact absurd k6 hd2
                      · simp only [List.nil_append, List.cons_append, List.cons.injEq, true_and] at hz
                        rw [hz]
                        exact k7
                obtain ⟨vn, v1, t1, m1, m2, m3, m4, _⟩ := ih hL' (v := v ||| x.2) (ready := true) hr5 (by simp) (by simp)
                refine ⟨vn, v1, t1, m1, by rw [m2, BitVec.or_assoc], m3, ?_, fun _ _ => ?_⟩
                all_goals
                  have : (d2 :: q3).length ≤ r.length := by rw [hr1, hr']; simp
                  have : 0 < x.1.length := by rw [hbn]; simp
                  simp only [List.nil_append, List.length_append, List.length_cons] at *
                  omega
              · rw [if_neg hd3]
                obtain ⟨vn, v1, t1, m1, m2, m3, m4, _⟩ := ih hL' (v := v ||| x.2) (ready := true) hr4 (by simp) (by simp)
                refine ⟨vn, v1, t1, by rw [hr'] at m1; exact m1, by rw [m2, BitVec.or_assoc], m3, ?_, fun _ _ => ?_⟩
                all_goals
                  have : r'.length ≤ r.length := by rw [hr1]; simp
                  have : 0 < x.1.length := by rw [hbn]; simp
                  simp only [List.nil_append, List.length_append] at *
                  omega
        · -- a separator
          have hsp : parseSpace (g' ++ ([sep] ++ (r ++ rest))) e = (sep :: (r ++ rest), e) :=
            parseSpace_before (p := [sep] ++ (r ++ rest)) ((GapBefore.of_append (t := [sep]) (by simp)).mpr
              ((GapBefore.of_append (t := [sep]) (by simp)).mp h4)) (noGap_sep hsep hs) e
          rw [hsp]
          simp only
          rw [if_neg (hsep.resolve_left hs).2.2.2, if_pos trivial]
          obtain ⟨vn, v1, t1, m1, m2, m3, m4, _⟩ := ih hL' (v := v ||| x.2) (ready := true) h6 (by simp) (by simp)
          refine ⟨vn, v1, t1, m1, by rw [m2, BitVec.or_assoc], m3, ?_, fun _ _ => ?_⟩
          all_goals
            simp only [List.nil_append, List.length_append, List.length_cons] at *
            omega
      · refine next ?_ hhead
        have := notAt_word hwx hn hnx h3
        simpa only [List.nil_append, List.append_assoc] using this

/-! ### The string form: the space as the separator -/

theorem FlagSpaced.head {v : BitVec w} {t : Bytes} (hw : ∀ y ∈ L, FlagWord c%' ' y.1) (h : FlagSpaced L strict v t)
    (hq : t.head? = some c%'"') : t = b!"\"" ∧ v = 0 := by
  have word : ∀ {n u r}, (n, u) ∈ L → (n ++ r).head? ≠ some c%'"' := by
    intro n u r hm
    obtain ⟨b, n', h1, _, h2, _⟩ := (hw _ hm).cons
    simp only at h1
    rw [h1]
    simpa using h2
  cases h with
  | close => exact ⟨rfl, rfl⟩
  | last h1 => exact absurd hq (word h1)
  | more h1 _ => exact absurd hq (word h1)
  | @other g s g' v r h1 h2 h3 h4 h5 h6 h7 h8 h9 h10 =>
    cases g with
    | cons b g =>
      simp only [List.cons_append, List.head?_cons, Option.some.injEq] at hq
      rcases gap_head h3.1 rfl with hh | hh <;> rw [hq] at hh
      · exact absurd hh (by unfold WsByte; decide)
      · exact absurd hh (by decide)
    | nil =>
      cases s with
      | nil => exact absurd rfl h2
      | cons b s =>
        simp only [List.nil_append, List.cons_append, List.head?_cons, Option.some.injEq] at hq
        exact absurd hq (h5 b (by simp)).2

theorem flagOneSpaced_inv (hw : ∀ y ∈ L, FlagWord c%' ' y.1) {P M : List (Bytes × BitVec w)}
    (hL : L = P ++ M) {v v1 v2 : BitVec w} {s tail p : Bytes} {e : EPtr} (he : e.Clean) {ready : Bool}
    (hq : ready = false → s.head? ≠ some c%'"')
    (hP : ready = false → ∀ y ∈ P, NotAt c%' ' y.1 s)
    (h : flagOneStr c%' ' strict M v s e ready = (v1, tail ++ p, e)) (ht : FlagSpaced L strict v2 tail) :
    ∃ u t, v1 = v ||| u ∧ s = t ++ p ∧ FlagSpaced L strict (u ||| v2) t := by
  have hlast := ht.last'
  have htne := ne_nil_of_last hlast
  have hne : tail ++ p ≠ [] := by simp [htne]
  have stay : ∀ {s : Bytes} {v : BitVec w}, s = tail ++ p → v1 = v →
      ∃ u t, v1 = v ||| u ∧ s = t ++ p ∧ FlagSpaced L strict (u ||| v2) t := by
    intro s v h1 h2
    exact ⟨0, tail, by simp [h2], h1, by simpa using ht⟩
  induction M generalizing P v s ready with
  | nil =>
    simp only [flagOneStr] at h
    by_cases hr : (ready || strict) = true
    · rw [if_pos hr] at h
      simp only [Prod.mk.injEq] at h
      exact stay h.2.1 h.1.symm
    · rw [if_neg hr] at h
      simp only [Bool.or_eq_true, not_or, Bool.not_eq_true] at hr
      cases hp1 : parseSpace s e with
      | mk p1 e1 =>
      have s1 := Steps.space hp1
      rw [hp1] at h
      simp only at h
      cases hp2 : parseSpace (toSep c%' ' p1) e1 with
      | mk p2 e2 =>
      have s2 := Steps.space hp2
      rw [hp2] at h
      cases p2 with
      | nil =>
        simp only [Prod.mk.injEq] at h
        exact absurd h.2.1.symm hne
      | cons b q =>
        simp only [Prod.mk.injEq] at h
        obtain ⟨h1, h2⟩ := h
        have s3 := Steps.space h2
        have k2 := he.back (s1.trans s2) s3
        subst k2
        have k1 := he.back s1 s2
        subst k1
        obtain ⟨g, h3, h4, h5⟩ := space_before he hp1
        obtain ⟨u, h6, h7, h8⟩ := toSep_split c%' ' p1
        obtain ⟨g2, h9, h10, h11⟩ := space_before he hp2
        have hb : b ≠ c%' ' := by
          intro hb
          have := (h11 b rfl).1
          rw [hb] at this
          exact this (by unfold WsByte; decide)
        rw [if_neg hb, parseSpace_stop h11] at h2
        simp only [Prod.mk.injEq, and_true] at h2
        rw [h2] at h9 h10 h11
        have hp1x : p1 = (u ++ g2 ++ tail) ++ p := by rw [h6, h9]; simp
        have hxl : (u ++ g2 ++ tail).getLast? = some c%'"' := by rw [List.getLast?_append, hlast]; rfl
        have hsx : s = (g ++ u ++ g2 ++ tail) ++ p := by rw [h3, hp1x]; simp
        have hsl : (g ++ u ++ g2 ++ tail).getLast? = some c%'"' := by rw [List.getLast?_append, hlast]; rfl
        have hnn := ne_nil_of_last hxl
        refine ⟨0, g ++ u ++ g2 ++ tail, by simp [h1], hsx, ?_⟩
        rw [flags_zero_or]
        have hstop : (g2 ++ tail).head? = some c%' ' ∨ (g2 ++ tail).head? = some c%'"' := by
          rw [← head_append_ne (p := p) (by simp [htne] : g2 ++ tail ≠ []), List.append_assoc, ← h9]
          rcases h8 with h8 | ⟨d, q', h8, hd⟩
          · rw [h8] at h9
            simp [htne] at h9
          · rw [h8]
            simpa using hd
        rw [hp1x] at h4 h5
        refine .other hr.2 ?_ ((GapBefore.of_append hnn).mp h4) ((noGap_append hnn).mp h5) h7 hstop ((GapBefore.of_append htne).mp h10)
          ((noGap_append htne).mp h11) ?_ ht
        · intro hgu
          obtain ⟨rfl, rfl⟩ := List.append_eq_nil_iff.mp hgu
          rcases hstop with hst | hst
          · rw [noGap_append hnn] at h5
            have := (h5 _ hst).1
            exact this (by unfold WsByte; decide)
          · refine hq hr.1 ?_
            rw [hsx, head_append_ne (by simp [htne])]
            exact hst
        · intro n hn
          obtain ⟨y, hy, rfl⟩ := List.mem_map.mp hn
          have hyP : y ∈ P := by rw [hL, List.append_nil] at hy; exact hy
          have := hP hr.1 y hyP
          rw [hsx] at this
          exact (notAt_append hsl (noquote_word (hw y hy)) p).mp this
  | cons x M ih =>
    have hL' : L = (P ++ [x]) ++ M := by rw [hL]; simp
    have hxL : x ∈ L := by rw [hL]; simp
    simp only [flagOneStr, ne_eq, not_true, if_false, false_and, false_or] at h
    cases s with
    | nil =>
      simp only [if_true, Prod.mk.injEq] at h
      exact absurd h.2.1.symm hne
    | cons b q =>
      simp only [reduceCtorEq, if_false] at h
      by_cases hbq : b = c%'"'
      · rw [if_pos hbq] at h
        simp only [Prod.mk.injEq] at h
        exact stay h.2.1 h.1.symm
      rw [if_neg hbq] at h
      have next : NotAt c%' ' x.1 (b :: q) → flagOneStr c%' ' strict M v (b :: q) e ready = (v1, tail ++ p, e) →
          ∃ u t, v1 = v ||| u ∧ b :: q = t ++ p ∧ FlagSpaced L strict (u ||| v2) t := by
        intro hx hh
        refine ih hL' hq ?_ hh
        intro hr y hy
        rcases List.mem_append.mp hy with hy | hy
        · exact hP hr y hy
        · simp only [List.mem_singleton] at hy
          subst hy
          exact hx
      cases hm : matchName x.1 (b :: q) with
      | mk m1 m2 =>
      rw [hm] at h
      have nomatch' : (∀ d q', (m1, m2) ≠ ([], d :: q')) → NotAt c%' ' x.1 (b :: q) := by
        intro hh z hz hst
        rw [matchName_iff.mpr hz] at hm
        cases z with
        | nil => exact not_wordStop_nil hst
        | cons d q' => exact hh d q' hm.symm
      cases m1 with
      | cons z zs => exact next (nomatch' (by simp)) h
      | nil =>
        cases m2 with
        | nil => exact next (nomatch' (by simp)) h
        | cons d q2 =>
          have hq := matchName_iff.mp hm
          simp only at h
          by_cases hd : d = c%' ' ∨ d = c%'"'
          · rw [if_pos hd] at h
            by_cases hd2 : d = c%'"'
            · rw [if_pos hd2] at h
              simp only [Prod.mk.injEq] at h
              obtain ⟨h1, h2, _⟩ := h
              obtain ⟨h3, h4⟩ := ht.head hw (by rw [← head_append_ne (p := p) htne, ← h2, hd2]; rfl)
              subst h3 h4
              exact ⟨x.2, x.1 ++ b!"\"", h1.symm, by rw [hq, h2]; simp, by simpa using FlagSpaced.last hxL⟩
            · rw [if_neg hd2, if_pos (hd.resolve_right hd2)] at h
              obtain ⟨u, t, h10, h11, h12⟩ := ih hL' (ready := true) (by simp) (by simp) h
              refine ⟨x.2 ||| u, x.1 ++ c%' ' :: t, by rw [h10, BitVec.or_assoc], by rw [hq, h11, hd.resolve_right hd2]; simp, ?_⟩
              rw [BitVec.or_assoc]
              exact .more hxL h12
          · rw [if_neg hd] at h
            refine next ?_ h
            intro z hz hst'
            rw [matchName_iff.mpr hz] at hm
            simp only [Prod.mk.injEq, true_and] at hm
            rw [hm] at hst'
            refine hd ?_
            simpa using wordStop_cons.mp hst'

theorem flagOneSpaced_step (hnd : (L.map Prod.fst).Nodup) (hw : ∀ y ∈ L, FlagWord c%' ' y.1) {P M : List (Bytes × BitVec w)}
    (hL : L = P ++ M) {v v' : BitVec w} {t rest : Bytes} {e : EPtr} {ready : Bool} (ht : FlagSpaced L strict v' t)
    (hP : ready = false → ∀ y ∈ P, NotAt c%' ' y.1 t) :
    ∃ vn v1 t1, flagOneStr c%' ' strict M v (t ++ rest) e ready = (vn, t1 ++ rest, e) ∧ vn ||| v1 = v ||| v' ∧
      FlagSpaced L strict v1 t1 ∧ t1.length ≤ t.length ∧ (ready = false → t.head? ≠ some c%'"' → t1.length < t.length) := by
  have wstop : ∀ {b q}, b = c%' ' ∨ b = c%'"' → WordStop c%' ' (b :: q) := by
    intro b q hb
    exact wordStop_cons.mpr (.inr hb)
  induction M generalizing P v v' t ready with
  | nil =>
    by_cases hr : ready = true
    · exact ⟨v, v', t, by simp [flagOneStr, hr], rfl, ht, Nat.le_refl _, by simp [hr]⟩
    simp only [Bool.not_eq_true] at hr
    replace hP := hP hr
    rw [List.append_nil] at hL
    subst hr hL
    simp only [flagOneStr, Bool.false_or]
    cases ht with
    | close =>
      refine ⟨v, 0, b!"\"", ?_, rfl, .close, Nat.le_refl _, by simp⟩
      split
      · rfl
      · have hp1 := parseSpace_stop (noGap_quote (q := rest)) e
        simp only [List.nil_append, List.cons_append] at hp1 ⊢
        have h2 : toSep c%' ' (c%'"' :: rest) = c%'"' :: rest := toSep_eq (u := []) (by simp) (.inr rfl) rest
        rw [hp1, h2]
        simp only [hp1]
        rw [if_neg (by decide), hp1]
    | last h1 => exact absurd (wstop (.inr rfl)) (hP _ h1 _ rfl)
    | more h1 _ => exact absurd (wstop (.inl rfl)) (hP _ h1 _ rfl)
    | @other g s g' v' r h1 h2 h3 h4 h5 h6 h7 h8 h9 h10 =>
      subst h1
      rw [if_neg (by simp)]
      have hrne := ne_nil_of_last h10.last'
      have n1 : g' ++ r ≠ [] := by simp [hrne]
      have n2 : s ++ g' ++ r ≠ [] := by simp [hrne]
      have e1 : parseSpace (g ++ s ++ g' ++ r ++ rest) e = (s ++ (g' ++ r ++ rest), e) := by
        have := parseSpace_before ((GapBefore.of_append (p := rest) n2).mpr h3) ((noGap_append n2).mpr h4) e
        simpa only [List.append_assoc] using this
      have e2 : toSep c%' ' (s ++ (g' ++ r ++ rest)) = g' ++ (r ++ rest) := by
        cases hc : g' ++ r with
        | nil => exact absurd hc n1
        | cons d q =>
          rw [hc] at h6
          simp only [List.head?_cons, Option.some.injEq] at h6
          rw [← List.append_assoc g', hc, List.cons_append, toSep_eq h5 h6]
      have e3 := parseSpace_before ((GapBefore.of_append (p := rest) hrne).mpr h7) ((noGap_append hrne).mpr h8) e
      refine ⟨v, v', r, ?_, rfl, h10, by simp; omega, ?_⟩
      · rw [e1]
        simp only [e2, e3]
        cases hr : r with
        | nil => exact absurd hr hrne
        | cons b q =>
          have hb : b ≠ c%' ' := by
            intro hb
            have := (h8 b (by rw [hr]; rfl)).1
            rw [hb] at this
            exact this (by unfold WsByte; decide)
          simp only [List.cons_append]
          rw [if_neg hb, ← List.cons_append, ← hr, parseSpace_stop ((noGap_append hrne).mpr h8)]
      · intro _ _
        have : 0 < (g ++ s).length := List.length_pos_iff.mpr h2
        simp only [List.length_append] at this ⊢
        omega
  | cons x M ih =>
    have hL' : L = (P ++ [x]) ++ M := by rw [hL]; simp
    have hxL : x ∈ L := by rw [hL]; simp
    have hwx := hw x hxL
    have htne := ne_nil_of_last ht.last'
    have next : NotAt c%' ' x.1 t → t.head? ≠ some c%'"' →
        ∃ vn v1 t1, flagOneStr c%' ' strict (x :: M) v (t ++ rest) e ready = (vn, t1 ++ rest, e) ∧ vn ||| v1 = v ||| v' ∧
        FlagSpaced L strict v1 t1 ∧ t1.length ≤ t.length ∧ (ready = false → t.head? ≠ some c%'"' → t1.length < t.length) := by
      intro hx hq
      rw [flagOneStr_pass x M v (by simp [htne]) (by rw [head_append_ne htne]; exact hq) (fun h => absurd rfl h)
        ((notAt_append ht.last' (noquote_word hwx) rest).mpr hx)]
      refine ih hL' ht ?_
      intro hr y hy
      rcases List.mem_append.mp hy with hy | hy
      · exact hP hr y hy
      · simp only [List.mem_singleton] at hy
        subst hy
        exact hx
    by_cases hq : t.head? = some c%'"'
    · obtain ⟨rfl, rfl⟩ := ht.head hw hq
      exact ⟨v, 0, b!"\"", by simp [flagOneStr], rfl, .close, Nat.le_refl _, fun _ h => absurd hq h⟩
    have word : ∀ {n u d q}, (n, u) ∈ L → (d = c%' ' ∨ d = c%'"') → t = n ++ d :: q → n ≠ x.1 →
        ∃ vn v1 t1, flagOneStr c%' ' strict (x :: M) v (t ++ rest) e ready = (vn, t1 ++ rest, e) ∧ vn ||| v1 = v ||| v' ∧
        FlagSpaced L strict v1 t1 ∧ t1.length ≤ t.length ∧ (ready = false → t.head? ≠ some c%'"' → t1.length < t.length) := by
      intro n u d q hm hd heq hne
      refine next ?_ hq
      rw [heq]
      exact notAt_word hwx (hw _ hm) hne (wstop hd)
    obtain ⟨b, n', hbn, hb, hbq, _⟩ := hwx.cons
    cases hct : ht with
    | close => exact absurd rfl hq
    | @last n _ h1 =>
      by_cases hnx : n = x.1
      · subst hnx
        have hux : v' = x.2 := flag_unique hnd h1 hxL
        subst hux
        refine ⟨v ||| x.2, 0, b!"\"", ?_, by simp, .close, by simp, fun _ _ => by rw [hbn]; simp⟩
        have hm := matchName_self x.1 (c%'"' :: rest)
        have h9 : x.1 ++ b!"\"" ++ rest = b :: (n' ++ c%'"' :: rest) := by rw [hbn]; simp
        have h10 : matchName x.1 (b :: (n' ++ c%'"' :: rest)) = ([], c%'"' :: rest) := by rw [hbn] at hm ⊢; simpa using hm
        rw [h9, flagOneStr_start x M v hb hbq, h10]
        simp
      · exact word h1 (.inr rfl) rfl hnx
    | @more n u v' r h1 h2 =>
      by_cases hnx : n = x.1
      · subst hnx
        have hux : u = x.2 := flag_unique hnd h1 hxL
        subst hux
        obtain ⟨vn, v1, t1, m1, m2, m3, m4, _⟩ := ih hL' (v := v ||| x.2) (ready := true) h2 (by simp)
        refine ⟨vn, v1, t1, ?_, by rw [m2, BitVec.or_assoc], m3, by simp; omega, fun _ _ => by simp; omega⟩
        have hm := matchName_self x.1 (c%' ' :: (r ++ rest))
        have h9 : x.1 ++ c%' ' :: r ++ rest = b :: (n' ++ c%' ' :: (r ++ rest)) := by rw [hbn]; simp
        have h10 : matchName x.1 (b :: (n' ++ c%' ' :: (r ++ rest))) = ([], c%' ' :: (r ++ rest)) := by
          rw [hbn] at hm ⊢; simpa using hm
        rw [h9, flagOneStr_start x M v hb hbq, h10]
        simp [m1]
      · exact word h1 (.inl rfl) rfl hnx
    | other h1 h2 h3 h4 h5 h6 h7 h8 h9 h10 =>
      exact next (h9 x.1 (List.mem_map.mpr ⟨x, hxL, rfl⟩)) hq

/-! ### Both forms -/

theorem FlagStr.head {v : BitVec w} {t : Bytes} (hsep : GoodSep sep) (hs : sep ≠ c%' ') (hw : ∀ y ∈ L, FlagWord sep y.1)
    (h : FlagStr L strict sep v t) (hq : t.head? = some c%'"') : t = b!"\"" ∧ v = 0 := by
  have gapq : ∀ {g r : Bytes}, Gap g → (g ++ r).head? = some c%'"' → g = [] := by
    intro g r hg hh
    cases g with
    | nil => rfl
    | cons b g =>
      simp only [List.cons_append, List.head?_cons, Option.some.injEq] at hh
      rcases gap_head hg rfl with h1 | h1 <;> rw [hh] at h1
      · exact absurd h1 (by unfold WsByte; decide)
      · exact absurd h1 (by decide)
  induction h with
  | @close g hg =>
    have := gapq hg hq
    subst this
    exact ⟨rfl, rfl⟩
  | @listed g n u g' k v r hg hm _ _ _ _ _ =>
    simp only [List.append_assoc] at hq
    have := gapq hg hq
    subst this
    obtain ⟨b, n', h1, _, h2, _⟩ := (hw _ hm).cons
    simp only at h1
    rw [h1] at hq
    simp at hq
    exact absurd hq h2
  | @other g s k v r _ hg _ hc _ hk _ ih =>
    simp only [List.append_assoc] at hq
    have := gapq hg.1 hq
    subst this
    cases s with
    | cons b s =>
      simp at hq
      exact absurd hq (hc b (by simp)).2
    | nil =>
      rcases hk with ⟨rfl, hk⟩ | rfl
      · simpa using ih hk
      · simp at hq
        exact absurd hq (hsep.resolve_left hs).2.2.2

/-- White space before a word is skipped. -/
theorem flagOneStr_gapped (hs : sep ≠ c%' ') (x : Bytes × BitVec w) (M : List (Bytes × BitVec w)) (v : BitVec w) {g s : Bytes}
    (hne : s ≠ []) (hg : GapBefore g s) (hn : NoGap s) (e : EPtr) (ready : Bool) :
    flagOneStr sep strict (x :: M) v (g ++ s) e ready = flagOneStr sep strict (x :: M) v s e ready := by
  simp only [flagOneStr, List.append_eq_nil_iff, hne, and_false, if_false, ne_eq, hs, not_false_eq_true, if_true,
    parseSpace_before hg hn, parseSpace_stop hn]

section
variable {F : Flags w}

theorem flagLoop_str_sound (hsep : GoodSep F.sep) (hw : ∀ y ∈ F.list, FlagWord F.sep y.1) {e : EPtr} (he : e.Clean) {n : Nat}
    {v : BitVec w} {s : Bytes} {b : Byte} {p : Bytes} (h : flagLoopF c F false n 0 s e = .ok (v, b :: p, e)) :
    ∃ t, s = t ++ p ∧ (if F.sep = c%' ' then FlagSpaced F.list F.strict v t else FlagStr F.list F.strict F.sep v t) := by
  by_cases hs : F.sep = c%' '
  · simp only [if_pos hs]
    rw [hs] at hw
    obtain ⟨u, t, h1, h2, h3⟩ := flagLoopF_inv (arr := false) (T := FlagSpaced F.list F.strict) .close he
      (by
        intro v v1 v2 s tail p hne hq h ht
        simp only [flagOne, Bool.false_eq_true, if_false, Out.ok.injEq, hs] at h
        exact flagOneSpaced_inv hw (P := []) rfl he (fun _ => hq) (by simp) h ht) h
    rw [flags_zero_or] at h1
    subst h1
    exact ⟨t, h2, h3⟩
  · simp only [if_neg hs]
    obtain ⟨u, t, h1, h2, h3⟩ := flagLoopF_inv (arr := false) (T := FlagStr F.list F.strict F.sep) (.close (g := []) .nil) he
      (by
        intro v v1 v2 s tail p hne hq h ht
        simp only [flagOne, Bool.false_eq_true, if_false, Out.ok.injEq] at h
        exact flagOneStr_inv hsep hs hw (P := []) rfl he (by simp) h ht) h
    rw [flags_zero_or] at h1
    subst h1
    exact ⟨t, h2, h3⟩

theorem flagLoop_str_complete (hne : F.list ≠ []) (hnd : (F.list.map Prod.fst).Nodup) (hsep : GoodSep F.sep)
    (hw : ∀ y ∈ F.list, FlagWord F.sep y.1) {v : BitVec w} {t : Bytes}
    (ht : if F.sep = c%' ' then FlagSpaced F.list F.strict v t else FlagStr F.list F.strict F.sep v t) (rest : Bytes) (e : EPtr) {n : Nat}
    (hn : (t ++ rest).length < n) : flagLoopF c F false n 0 (t ++ rest) e = .ok (v, c%'"' :: rest, e) := by
  rw [← flags_zero_or v]
  by_cases hs : F.sep = c%' '
  · simp only [if_pos hs] at ht
    rw [hs] at hw
    refine flagLoopF_complete (arr := false) (T := FlagSpaced F.list F.strict) ?_ ?_ ht hn
    · intro v t ht
      cases t with
      | nil => exact absurd rfl (ne_nil_of_last ht.last')
      | cons b q =>
        refine ⟨b, q, rfl, fun hb => ?_⟩
        have := ht.head hw (by rw [hb]; rfl)
        simpa [hb] using this
    · intro v v' t ht hq
      obtain ⟨vn, v1, t1, h1, h2, h3, _, h5⟩ := flagOneSpaced_step (v := v) (rest := rest) (e := e) (ready := false) hnd hw (P := []) rfl ht (by simp)
      refine ⟨vn, v1, t1, ?_, h2, h3, h5 rfl hq⟩
      simp only [flagOne, Bool.false_eq_true, if_false, hs, h1]
  · simp only [if_neg hs] at ht
    refine flagLoopF_complete (arr := false) (T := FlagStr F.list F.strict F.sep) ?_ ?_ ht hn
    · intro v t ht
      cases t with
      | nil => exact absurd rfl (ne_nil_of_last ht.last)
      | cons b q =>
        refine ⟨b, q, rfl, fun hb => ?_⟩
        have := ht.head hsep hs hw (by rw [hb]; rfl)
        simpa [hb] using this
    · intro v v' t ht hq
      obtain ⟨g, t', h1, h2, h3, h4⟩ := ht.strip hw
      have hne' := ne_nil_of_last h4.last
      obtain ⟨vn, v1, t1, m1, m2, m3, m4, m5⟩ := flagOneStr_step (v := v) (rest := rest) (e := e) (ready := false) hsep hs hnd hw (P := []) rfl h4 (fun _ => h3) (by simp)
      refine ⟨vn, v1, t1, ?_, m2, m3, ?_⟩
      · simp only [flagOne, Bool.false_eq_true, if_false]
        cases hl : F.list with
        | nil => exact absurd hl hne
        | cons x M =>
          have m1 : flagOneStr F.sep F.strict (x :: M) v (t' ++ rest) e false = (vn, t1 ++ rest, e) := hl ▸ m1
          rw [h1, List.append_assoc, flagOneStr_gapped hs x M v (by simp [hne']) ((GapBefore.of_append hne').mpr h2) ((noGap_append hne').mpr h3), m1]
      · cases g with
        | nil =>
          simp only [List.nil_append] at h1
          subst h1
          exact m5 rfl hq
        | cons b g =>
          rw [h1]
          simp only [List.length_append, List.length_cons]
          omega

theorem flagLoop_arr_sound {e : EPtr} (he : e.Clean) {n : Nat} {v : BitVec w} {s : Bytes} {b : Byte} {p : Bytes}
    (h : flagLoopF c F true n 0 s e = .ok (v, b :: p, e)) : ∃ t, s = t ++ p ∧ FlagArr F.list F.strict v t := by
  obtain ⟨u, t, h1, h2, h3⟩ := flagLoopF_inv (arr := true) (T := FlagArr F.list F.strict) (.close (g := []) .nil) he
    (by
      intro v v1 v2 s tail p _ _ h ht
      simp only [flagOne, if_true] at h
      exact flagOneArr_inv (P := []) rfl he (by simp) h ht) h
  rw [flags_zero_or] at h1
  subst h1
  exact ⟨t, h2, h3⟩

theorem flagsSer_closed (hne : F.list ≠ []) (hnd : (F.list.map Prod.fst).Nodup) (hsep : GoodSep F.sep)
    (hw : ∀ y ∈ F.list, PlainName y.1 ∧ FlagWord F.sep y.1) : Closed (flagsSer c F) (FlagsDen F.list F.sep F.strict) where
  safe := (deFlags_safe c F).any
  sound := by
    intro v0 v s p e he _ h
    obtain ⟨b, q, d, rfl, hb, h⟩ := deFlags_inv (v0 := v0) he h
    rcases hb with rfl | rfl
    · obtain ⟨t, rfl, h2⟩ := flagLoop_arr_sound he h
      exact ⟨c%'[' :: t, rfl, .inl ⟨t, rfl, h2⟩⟩
    · obtain ⟨t, rfl, h2⟩ := flagLoop_str_sound hsep (fun y hy => (hw y hy).2) he h
      exact ⟨c%'"' :: t, rfl, .inr ⟨t, rfl, h2⟩⟩
  complete := by
    rintro v0 v t (⟨r, rfl, h⟩ | ⟨r, rfl, h⟩) _ rest e _
    · exact deFlags_arr_complete hne hnd (fun y hy => (hw y hy).1) h v0 rest e
    · have := flagLoop_str_complete (c := c) hne hnd hsep (fun y hy => (hw y hy).2) h rest e (Nat.lt_succ_self _)
      show deFlags c F v0 (c%'"' :: r ++ rest) e = .ok (v, rest, e)
      simp only [List.cons_append, deFlags]
      rw [if_neg (by decide)]
      have hb : decide ((34 : Byte) = 91) = false := by decide
      rw [hb, this, Out.bind_ok]
      rfl

theorem flagsSer_exact (hne : F.list ≠ []) (hnd : (F.list.map Prod.fst).Nodup) (hsep : GoodSep F.sep)
    (hw : ∀ y ∈ F.list, PlainName y.1 ∧ FlagWord F.sep y.1) : Exact (flagsSer c F) (FlagsDen F.list F.sep F.strict) where
  safe := (flagsSer_closed hne hnd hsep hw).safe
  sound he hs _ h := (flagsSer_closed hne hnd hsep hw).sound he hs h
  complete h ht rest e he _ := (flagsSer_closed hne hnd hsep hw).complete h ht rest e he
  head := by
    rintro v0 v t (⟨r, rfl, h⟩ | ⟨r, rfl, h⟩)
    · exact headed_of_byte (by simp)
    · exact headed_of_byte (by simp)
  null := by
    intro v0 v s p e he hh h
    obtain ⟨b, q, d, rfl, hb, h⟩ := deFlags_inv (v0 := v0) he h
    simp only [List.head?_cons, Option.some.injEq] at hh
    subst hh
    exact absurd hb (by decide)

end

end

end Wjson
