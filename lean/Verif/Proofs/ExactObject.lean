import Verif.Proofs.Exact
import Verif.Proofs.ObjectArray
/-
The readers of structures accept exactly the texts of the denotation.
-/
namespace Wjson
open Spec

/-! ### Layout -/

/-- The members of a JSON object from the quote of the first key; `tail` is what
follows the last value and the gap after it. -/
inductive ItemsThen (tail : Bytes) : List (Bytes × Bytes) → Bytes → Prop
  | one {k g1 g2 v g3} : Gap g1 → Gap g2 → Start v → Gap g3 →
      ItemsThen tail [(k, v)] (quoted k ++ (g1 ++ c%':' :: (g2 ++ (v ++ (g3 ++ tail)))))
  | more {k g1 g2 v g3 g4 items r} : Gap g1 → Gap g2 → Start v → Gap g3 → Gap g4 → ItemsThen tail items r →
      ItemsThen tail ((k, v) :: items) (quoted k ++ (g1 ++ c%':' :: (g2 ++ (v ++ (g3 ++ c%',' :: (g4 ++ r))))))

theorem itemsThen_of_from {items : List (Bytes × Bytes)} {r : Bytes} (h : ItemsFrom items r) :
    ∃ r0, r = r0 ++ b!"}" ∧ ∀ tail, ItemsThen tail items (r0 ++ tail) := by
  induction h with
  | @one k g1 g2 v g3 h1 h2 hv h3 =>
    refine ⟨quoted k ++ (g1 ++ c%':' :: (g2 ++ (v ++ g3))), by simp, fun tail => ?_⟩
    have := ItemsThen.one (tail := tail) (k := k) h1 h2 hv h3
    simpa using this
  | @more k g1 g2 v g3 g4 items r h1 h2 hv h3 h4 _ ih =>
    obtain ⟨r0, rfl, ih⟩ := ih
    refine ⟨quoted k ++ (g1 ++ c%':' :: (g2 ++ (v ++ (g3 ++ c%',' :: (g4 ++ r0))))), by simp, fun tail => ?_⟩
    have := ItemsThen.more (tail := tail) (k := k) h1 h2 hv h3 h4 (ih tail)
    simpa using this

theorem itemsThen_back {tail : Bytes} {items : List (Bytes × Bytes)} {s : Bytes} (h : ItemsThen tail items s) :
    ∃ r0, s = r0 ++ tail ∧ ItemsFrom items (r0 ++ b!"}") := by
  induction h with
  | @one k g1 g2 v g3 h1 h2 hv h3 =>
    refine ⟨quoted k ++ (g1 ++ c%':' :: (g2 ++ (v ++ g3))), by simp, ?_⟩
    have := ItemsFrom.one (k := k) h1 h2 hv h3
    simpa using this
  | @more k g1 g2 v g3 g4 items r h1 h2 hv h3 h4 _ ih =>
    obtain ⟨r0, rfl, ih⟩ := ih
    refine ⟨quoted k ++ (g1 ++ c%':' :: (g2 ++ (v ++ (g3 ++ c%',' :: (g4 ++ r0))))), by simp, ?_⟩
    have := ItemsFrom.more (k := k) h1 h2 hv h3 h4 ih
    simpa using this

theorem itemsThen_head {tail : Bytes} {items : List (Bytes × Bytes)} {s : Bytes} (h : ItemsThen tail items s) :
    ∃ u, s = c%'"' :: u := by cases h <;> exact ⟨_, rfl⟩

theorem parseSpace_then {tail : Bytes} {items : List (Bytes × Bytes)} {g s : Bytes} (hg : Gap g) (h : ItemsThen tail items s)
    (e : EPtr) : parseSpace (g ++ s) e = (s, e) := by
  obtain ⟨u, rfl⟩ := itemsThen_head h
  exact parseSpace_byte hg (by decide) _ e

theorem gap_stop {g p : Bytes} (hg : Gap g) (h : SpaceStop (g ++ p)) : g = [] := by
  cases g with
  | nil => rfl
  | cons b g =>
    have h1 := gap_head hg (b := b) rfl
    have h2 := h b rfl
    rcases h1 with h1 | h1
    · exact absurd h1 h2.1
    · exact absurd h1 h2.2

theorem start_of_xvalue {v : Bytes} (h : XValue v) : Start v := by
  obtain ⟨b, u, rfl, hb⟩ := xvalue_head h
  exact Start.of_byte hb

/-! ### Names -/

theorem nameLoop_inv (n s : Bytes) : ∃ pre, n = pre ++ (nameLoop n s).1 ∧ s = pre ++ (nameLoop n s).2 := by
  induction n generalizing s with
  | nil => exact ⟨[], rfl, by cases s <;> rfl⟩
  | cons x n ih =>
    cases s with
    | nil => exact ⟨[], rfl, rfl⟩
    | cons b s =>
      simp only [nameLoop]
      split
      · rename_i hb
        obtain ⟨pre, h1, h2⟩ := ih s
        refine ⟨x :: pre, ?_, ?_⟩
        · rw [List.cons_append, ← h1]
        · rw [List.cons_append, ← h2, hb.1]
      · exact ⟨[], rfl, rfl⟩

theorem memberName_inv {n s p : Bytes} {e : EPtr} {u : Bool} (hn : c%'"' ∉ n) (he : e.Clean)
    (h : memberName n s e false = (p, e, u)) :
    (u = true ∧ ∃ g1 g2, s = quoted n ++ (g1 ++ c%':' :: (g2 ++ p)) ∧ Gap g1 ∧ Gap g2 ∧ SpaceStop p) ∨
      (u = false ∧ p = s ∧ s.head? = some c%'"' ∧ ∀ rest, s ≠ quoted n ++ rest) := by
  unfold memberName at h
  cases s with
  | nil =>
    simp only [Prod.mk.injEq] at h
    exact (he.no_error (by decide) h.2.1).elim
  | cons b t =>
    simp only at h
    split at h
    · simp only [Prod.mk.injEq] at h
      exact (he.no_error (by decide) h.2.1).elim
    · rename_i hb
      have hb : b = c%'"' := Classical.not_not.mp hb
      subst hb
      obtain ⟨pre, h1, h2⟩ := nameLoop_inv n t
      cases hl : nameLoop n t with
      | mk r1 r2 =>
      rw [hl] at h h1 h2
      simp only at h h1 h2
      cases r2 with
      | nil =>
        simp only [Prod.mk.injEq] at h
        exact (he.no_error (by decide) h.2.1).elim
      | cons b' q =>
        simp only at h
        split at h
        · rename_i hb'
          simp only [Prod.mk.injEq] at h
          obtain ⟨rfl, _, rfl⟩ := h
          refine .inr ⟨rfl, rfl, rfl, fun rest hs => ?_⟩
          have ht : t = n ++ c%'"' :: rest := by simpa [quoted] using hs
          rw [ht, nameLoop_match hn] at hl
          cases hl
          rcases hb' with h | h <;> exact h rfl
        · rename_i hb'
          have hb1 : b' = c%'"' := Classical.not_not.mp fun h => hb' (.inl h)
          have hb2 : r1 = [] := Classical.not_not.mp fun h => hb' (.inr h)
          subst hb1 hb2
          simp only [List.append_nil] at h1
          subst h1
          cases hp2 : parseSpace q e with
          | mk p2 e2 =>
          have s2 := Steps.space hp2
          rw [hp2] at h
          cases p2 with
          | nil =>
            simp only [Prod.mk.injEq] at h
            exact (he.absurd s2 (by decide) h.2.1).elim
          | cons b2 q2 =>
            simp only at h
            split at h
            · simp only [Prod.mk.injEq] at h
              exact (he.absurd s2 (by decide) h.2.1).elim
            · rename_i hb2
              have hb2 : b2 = c%':' := Classical.not_not.mp hb2
              cases hp3 : parseSpace q2 e2 with
              | mk p3 e3 =>
              have s3 := Steps.space hp3
              rw [hp3] at h
              cases p3 with
              | nil =>
                simp only [Prod.mk.injEq] at h
                exact (he.absurd (s2.trans s3) (by decide) h.2.1).elim
              | cons b3 q3 =>
                simp only [Prod.mk.injEq] at h
                obtain ⟨rfl, rfl, rfl⟩ := h
                have := he.back s2 s3
                subst this
                obtain ⟨g1, k1, k2, _⟩ := space_inv he hp2
                obtain ⟨g2, k3, k4, k5⟩ := space_inv he hp3
                refine .inl ⟨rfl, g1, g2, ?_, k2, k4, k5⟩
                rw [h2, k1, hb2, k3]
                simp [quoted]

section
variable {τ : Type} {c : Cfg} {strict : Bool}

/-! ### One member -/

theorem mref_inv {m : MRef τ} (hS : Safe True m.ser.de) (hn : c%'"' ∉ m.name) {start : m.α} {t t1 : τ} {s p : Bytes}
    {e : EPtr} {u : Bool} (he : e.Clean)
    (h : (let r := memberName m.name s e false
      if !r.2.2 then Out.ok (t, r)
      else m.ser.de start r.1 r.2.1 >>= fun d => .ok (m.set d.1 t, d.2.1, d.2.2, true)) = .ok (t1, p, e, u)) :
    (u = true ∧ ∃ g1 g2 w x, s = quoted m.name ++ (g1 ++ c%':' :: (g2 ++ w)) ∧ Gap g1 ∧ Gap g2 ∧ SpaceStop w ∧
      m.ser.de start w e = .ok (x, p, e) ∧ t1 = m.set x t) ∨
    (u = false ∧ t1 = t ∧ p = s ∧ s.head? = some c%'"' ∧ ∀ rest, s ≠ quoted m.name ++ rest) := by
  have s1 : Steps e (memberName m.name s e false).2.1 := ⟨_, (memberName_safe m.name s e false).2⟩
  cases hm : memberName m.name s e false with
  | mk p1 x =>
  obtain ⟨e1, u1⟩ := x
  rw [hm] at h s1
  simp only at h s1
  cases u1 with
  | false =>
    simp only [Bool.not_false, if_true, Out.ok.injEq, Prod.mk.injEq] at h
    obtain ⟨rfl, rfl, rfl, rfl⟩ := h
    rcases memberName_inv hn he hm with ⟨h, _⟩ | ⟨_, rfl, h1, h2⟩
    · cases h
    · exact .inr ⟨rfl, rfl, rfl, h1, h2⟩
  | true =>
    simp only [Bool.not_true, Bool.false_eq_true, if_false] at h
    obtain ⟨⟨x, p2, e2⟩, h2, h⟩ := Out.bind_eq_ok.mp h
    simp only [Out.ok.injEq, Prod.mk.injEq] at h
    obtain ⟨rfl, rfl, rfl, rfl⟩ := h
    have s2 := (hS.step h2).2
    have := he.back s1 s2
    subst this
    rcases memberName_inv hn he hm with ⟨_, g1, g2, h3, h4, h5, h6⟩ | ⟨h, _⟩
    · exact .inl ⟨rfl, g1, g2, p1, x, h3, h4, h5, h6, h2, rfl⟩
    · cases h

theorem entry_inv {en : Entry τ} {D : Den en.ref.α} (hS : Accepts en.ref.ser D) (hn : c%'"' ∉ en.ref.name) {t t1 : τ} {s p : Bytes}
    {e : EPtr} {u : Bool} (he : e.Clean) (h : en.toMember.de t s e false = .ok (t1, p, e, u)) :
    (u = true ∧ ∃ g1 g2 w x, s = quoted en.ref.name ++ (g1 ++ c%':' :: (g2 ++ w)) ∧ Gap g1 ∧ Gap g2 ∧ SpaceStop w ∧
      en.ref.ser.de (en.start t) w e = .ok (x, p, e) ∧ t1 = en.ref.set x t) ∨
    (u = false ∧ t1 = t ∧ p = s ∧ s.head? = some c%'"' ∧ ∀ rest, s ≠ quoted en.ref.name ++ rest) := by
  cases en with
  | mem m => exact mref_inv hS.safe hn he h
  | prop m => exact mref_inv hS.safe hn he h

theorem entry_step {en : Entry τ} (hS : Safe True en.ref.ser.de) {t t1 : τ} {s p : Bytes} {e e1 : EPtr} {u u1 : Bool}
    (h : en.toMember.de t s e u = .ok (t1, p, e1, u1)) : p <:+ s ∧ Steps e e1 := by
  rcases Entry.safe hS t s e u with ⟨h1, _⟩ | ⟨_, _, _, _, h1, h2, h3⟩
  · rw [h1] at h; cases h
  · rw [h1] at h; cases h; exact ⟨h2, _, h3⟩

/-- The value of a member. -/
theorem member_text {d : DEntry τ} (hS : Sounds false d.entry.ref.ser d.den) {t : τ} {w p : Bytes} {e : EPtr} {x : d.entry.ref.α} (he : e.Clean)
    (hw : SpaceStop w) (hl : w.length ≤ intMax) (hd : Delim p) (hne : p ≠ []) (h : d.entry.ref.ser.de (d.entry.start t) w e = .ok (x, p, e)) :
    ∃ v, w = v ++ p ∧ Start v ∧ d.stores t (d.entry.ref.set x t) v := by
  obtain ⟨v, h1, h2⟩ := hS.sound he hl hd (.inr hne) h
  rw [h1] at hw
  exact ⟨v, h1, start_of_headed (hS.head h2) hw, x, h2, rfl⟩

theorem entry_complete {d : DEntry τ} (hS : Accepts d.entry.ref.ser d.den) (hn : c%'"' ∉ d.name) {t t1 : τ} {v g1 g2 rest : Bytes}
    (h : d.stores t t1 v) (hv : Start v) (hl : v.length ≤ intMax) (h1 : Gap g1) (h2 : Gap g2) (hd : Delim rest) {e : EPtr}
    (he : e.failed = false) (u : Bool) :
    d.entry.toMember.de t (quoted d.name ++ (g1 ++ c%':' :: (g2 ++ (v ++ rest)))) e u = .ok (t1, rest, e, true) := by
  obtain ⟨x, hx, rfl⟩ := h
  have hr := hS.complete hx hl rest e he hd
  obtain ⟨en, den⟩ := d
  simp only [DEntry.name] at hn ⊢
  cases en with
  | mem m =>
    simp only [Entry.toMember, member, Entry.ref, deMember, Entry.start] at hr hn ⊢
    rw [memberName_match hn h1 h2 hv]
    simp only [Bool.not_true, Bool.false_eq_true, if_false]
    rw [hr]
    rfl
  | prop m =>
    simp only [Entry.toMember, memberP, Entry.ref, deMemberP, Entry.start] at hr hn ⊢
    rw [memberName_match hn h1 h2 hv]
    simp only [Bool.not_true, Bool.false_eq_true, if_false]
    rw [hr]
    rfl

/-! ### The search and the skipping -/

theorem parseMember_inv {s p : Bytes} {e : EPtr} (he : e.Clean) (h : parseMember c s e = .ok (p, e)) :
    ∃ k v g1 g2, s = quoted k ++ (g1 ++ c%':' :: (g2 ++ (v ++ p))) ∧ Gap g1 ∧ Gap g2 ∧ Skippable (k, v) := by
  obtain ⟨k, g1, g2, b, t, ⟨k', h1, rfl⟩, h2, h3, rfl, _, _, h4⟩ :=
    parseMember_acc_iff.mp (AccO.of_clean (parseMember_scan c s) he h he.not_failed)
  obtain ⟨v, h5, h6, _⟩ := parseValue_acc_iff.mp h4
  exact ⟨k', v, g1, g2, by rw [h5]; simp [quoted], h2, h3, h1, h6⟩

theorem parseMember_step {s p : Bytes} {e e1 : EPtr} (h : parseMember c s e = .ok (p, e1)) : p <:+ s ∧ Steps e e1 := by
  rcases parseMember_safe (c := c) s e with ⟨h1, _⟩ | ⟨_, _, h1, h2, h3⟩
  · rw [h1] at h; cases h
  · rw [h1] at h; cases h; exact ⟨h2, _, h3⟩

theorem skipLoopF_inv (n : Nat) (s p : Bytes) {e : EPtr} (he : e.Clean) (hn : s.length < n)
    (h : skipLoopF c strict n s e = .ok (p, e)) :
    strict = false ∧ ∃ items q, p = c%'}' :: q ∧ ItemsThen p items s ∧ ∀ x ∈ items, Skippable x := by
  induction n generalizing s with
  | zero => omega
  | succ n ih =>
    simp only [skipLoopF] at h
    obtain ⟨⟨p1, e1⟩, h1, h⟩ := Out.bind_eq_ok.mp h
    obtain ⟨suf1, s1⟩ := parseMember_step h1
    simp only at h
    cases hp2 : parseSpace p1 e1 with
    | mk p2 e2 =>
    have s2 := Steps.space hp2
    have suf2 := ((parseSpace_scan p1).suffix e1).trans suf1
    rw [hp2] at h suf2
    cases p2 with
    | nil =>
      simp only [Out.ok.injEq, Prod.mk.injEq] at h
      exact (he.absurd (s1.trans s2) (by decide) h.2).elim
    | cons b q =>
      simp only at h
      split at h
      · rename_i hb
        split at h
        · rename_i hst
          simp only [Out.ok.injEq, Prod.mk.injEq] at h
          obtain ⟨rfl, rfl⟩ := h
          have := he.back s1 s2
          subst this
          obtain ⟨k, v, g1, g2, k1, k2, k3, k4⟩ := parseMember_inv he h1
          obtain ⟨g3, k5, k6, _⟩ := space_inv he hp2
          refine ⟨by simpa using hst, [(k, v)], q, by rw [hb], ?_, by simpa using k4⟩
          rw [k1, k5]
          exact .one k2 k3 (start_of_xvalue k4.2) k6
        · simp only [Out.ok.injEq, Prod.mk.injEq] at h
          exact (he.absurd (s1.trans s2) (by decide) h.2).elim
      · split at h
        · simp only [Out.ok.injEq, Prod.mk.injEq] at h
          exact (he.absurd (s1.trans s2) (by decide) h.2).elim
        · rename_i hb
          have hb : b = c%',' := Classical.not_not.mp hb
          cases hp3 : parseSpace q e2 with
          | mk p3 e3 =>
          have s3 := Steps.space hp3
          have suf3 := ((parseSpace_scan q).suffix e2)
          rw [hp3] at h suf3
          simp only at h suf3
          have l2 := suf2.length_le
          have l3 := suf3.length_le
          simp only [List.length_cons] at l2
          have s4 : Steps e3 e := by
            rcases skipLoopF_safe (c := c) (strict := strict) n p3 e3 (by omega) with ⟨h', _⟩ | ⟨_, _, h', _, h''⟩
            · rw [h'] at h; cases h
            · rw [h'] at h; cases h; exact ⟨_, h''⟩
          have i3 := he.back (s1.trans (s2.trans s3)) s4
          subst i3
          have i2 := he.back (s1.trans s2) s3
          subst i2
          have i1 := he.back s1 s2
          subst i1
          obtain ⟨k, v, g1, g2, k1, k2, k3, k4⟩ := parseMember_inv he h1
          obtain ⟨g3, k5, k6, _⟩ := space_inv he hp2
          obtain ⟨g4, k7, k8, _⟩ := space_inv he hp3
          obtain ⟨hst, items, r, j1, j2, j3⟩ := ih p3 (by omega) h
          refine ⟨hst, (k, v) :: items, r, j1, ?_, ?_⟩
          · rw [k1, k5, hb, k7]
            exact .more k2 k3 (start_of_xvalue k4.2) k6 k8 j2
          · intro x hx
            rcases List.mem_cons.mp hx with rfl | hx
            · exact k4
            · exact j3 x hx

theorem skipMembers_inv {s p : Bytes} {e : EPtr} (he : e.Clean) (hst : SpaceStop s) (h : skipMembers c strict s e = .ok (p, e)) :
    ∃ q, p = c%'}' :: q ∧ (s = p ∨ strict = false ∧ ∃ items, ItemsThen p items s ∧ ∀ x ∈ items, Skippable x) := by
  unfold skipMembers at h
  have : parseSpace s e = (s, e) := spaceLoop_false_stop hst e
  rw [this] at h
  cases s with
  | nil =>
    simp only [Out.ok.injEq, Prod.mk.injEq] at h
    exact (he.no_error (by decide) h.2).elim
  | cons b q =>
    simp only at h
    split at h
    · rename_i hb
      simp only [Out.ok.injEq, Prod.mk.injEq] at h
      exact ⟨q, by rw [← h.1, hb], .inl h.1⟩
    · obtain ⟨h1, items, q', h2, h3, h4⟩ := skipLoopF_inv _ _ _ he (by simp) h
      exact ⟨q', h2, .inr ⟨h1, items, h3, h4⟩⟩

/-- What the search finds. -/
theorem searchMembers_inv {l : List (DEntry τ)} (hS : ∀ d ∈ l, Accepts d.entry.ref.ser d.den) (hn : ∀ d ∈ l, c%'"' ∉ d.name)
    {t t1 : τ} {s p : Bytes} {e : EPtr} (he : e.Clean) (hq : s.head? = some c%'"')
    (h : searchMembers c strict (l.map fun d => d.entry.toMember) t s e = .ok (t1, p, e)) :
    (∃ d ∈ l, ∃ g1 g2 w x, s = quoted d.name ++ (g1 ++ c%':' :: (g2 ++ w)) ∧ Gap g1 ∧ Gap g2 ∧ SpaceStop w ∧
      d.entry.ref.ser.de (d.entry.start t) w e = .ok (x, p, e) ∧ t1 = d.entry.ref.set x t) ∨
    (strict = false ∧ t1 = t ∧ (∀ d ∈ l, ∀ rest, s ≠ quoted d.name ++ rest) ∧
      ∃ k v g1 g2 g3, s = quoted k ++ (g1 ++ c%':' :: (g2 ++ (v ++ (g3 ++ p)))) ∧ Gap g1 ∧ Gap g2 ∧ Gap g3 ∧ SpaceStop p ∧
        Skippable (k, v)) := by
  induction l with
  | nil =>
    simp only [List.map_nil, searchMembers] at h
    right
    split at h
    · rename_i hst
      obtain ⟨⟨p1, e1⟩, h1, h⟩ := Out.bind_eq_ok.mp h
      obtain ⟨_, s1⟩ := parseMember_step h1
      simp only [Out.ok.injEq, Prod.mk.injEq] at h
      obtain ⟨rfl, h2, h3⟩ := h
      have hp : parseSpace p1 e1 = (p, e) := Prod.ext h2 h3
      have := he.back s1 (Steps.space hp)
      subst this
      obtain ⟨k, v, g1, g2, k1, k2, k3, k4⟩ := parseMember_inv he h1
      obtain ⟨g3, k5, k6, k7⟩ := space_inv he hp
      exact ⟨by simpa using hst, rfl, by simp, k, v, g1, g2, g3, by rw [k1, k5], k2, k3, k6, k7, k4⟩
    · cases s with
      | nil => cases hq
      | cons b q =>
        simp at hq
        subst hq
        simp only at h
        rw [if_neg (by decide)] at h
        simp only [Out.ok.injEq, Prod.mk.injEq] at h
        exact (he.no_error (by decide) h.2.2).elim
  | cons d l ih =>
    simp only [List.map_cons, searchMembers] at h
    obtain ⟨⟨t2, p2, e2, u⟩, h1, hx⟩ := Out.bind_eq_ok.mp h
    clear h
    have s1 := (entry_step (hS d (by simp)).safe h1).2
    simp only at hx
    cases u with
    | true =>
      simp only [if_true, Out.ok.injEq, Prod.mk.injEq] at hx
      obtain ⟨rfl, rfl, rfl⟩ := hx
      rcases entry_inv (hS d (by simp)) (hn d (by simp)) he h1 with ⟨_, g1, g2, w, x, k1, k2, k3, k4, k5, k6⟩ | ⟨h, _⟩
      · exact .inl ⟨d, by simp, g1, g2, w, x, k1, k2, k3, k4, k5, k6⟩
      · cases h
    | false =>
      simp only [Bool.false_eq_true, if_false] at hx
      have s2 : Steps e2 e := (SafeOut.step (searchMembers_safe (U := True) (c := c) (strict := strict) (fun _ => trivial)
        (l := l.map fun d => d.entry.toMember) (by
          intro m hm
          obtain ⟨d', hd', rfl⟩ := List.mem_map.mp hm
          exact Entry.safe (hS d' (by simp [hd'])).safe) t2 p2 e2) hx).2
      have := he.back s1 s2
      subst this
      rcases entry_inv (hS d (by simp)) (hn d (by simp)) he h1 with ⟨h, _⟩ | ⟨_, rfl, rfl, _, k1⟩
      · cases h
      · rcases ih (fun d hd => hS d (by simp [hd])) (fun d hd => hn d (by simp [hd])) hx with ⟨d', hd', j⟩ | ⟨j1, j2, j3, j4⟩
        · exact .inl ⟨d', by simp [hd'], j⟩
        · refine .inr ⟨j1, j2, ?_, j4⟩
          intro d' hd'
          rcases List.mem_cons.mp hd' with rfl | hd'
          · exact k1
          · exact j3 d' hd'

/-! ### All members -/

theorem membersEnd_inv {t t' : τ} {s p : Bytes} {e1 e : EPtr} (he : e.Clean) (hs : Steps e e1)
    (h : membersEnd t s e1 = .ok (t', p, e)) : (∃ q, s = c%'}' :: q) ∧ p = s ∧ t' = t ∧ e1 = e := by
  unfold membersEnd at h
  cases s with
  | nil =>
    simp only [Out.ok.injEq, Prod.mk.injEq] at h
    exact (he.absurd hs (by decide) h.2.2).elim
  | cons b q =>
    simp only at h
    split at h
    · simp only [Out.ok.injEq, Prod.mk.injEq] at h
      exact (he.absurd hs (by decide) h.2.2).elim
    · rename_i hb
      have hb : b = c%'}' := Classical.not_not.mp hb
      simp only [Out.ok.injEq, Prod.mk.injEq] at h
      obtain ⟨rfl, rfl, rfl⟩ := h
      exact ⟨⟨q, by rw [hb]⟩, rfl, rfl, rfl⟩

theorem membersF_inv {L : List (DEntry τ)} (hS : ∀ d ∈ L, Accepts d.entry.ref.ser d.den) (hn : ∀ d ∈ L, c%'"' ∉ d.name) (n : Nat)
    (l : List (DEntry τ)) (hl : ∀ d ∈ l, d ∈ L) (t t' : τ) (s p : Bytes) {e : EPtr} (he : e.Clean) (hlen : s.length < n)
    (hmax : s.length ≤ intMax) (hstop : SpaceStop s)
    (h : membersF c strict (L.map fun d => d.entry.toMember) n (l.map fun d => d.entry.toMember) t s e = .ok (t', p, e)) :
    ∃ q, p = c%'}' :: q ∧
      ((∃ items o, ItemsThen p items s ∧ Run strict L l items t t' o) ∨
       (∃ items g, Gap g ∧ ItemsThen (c%',' :: (g ++ p)) items s ∧ Run strict L l items t t' (some [])) ∨
       (l = [] ∧ t' = t ∧ s = p)) := by
  have hmem : ∀ m ∈ L.map (fun d : DEntry τ => d.entry.toMember), MSafe True m := by
    intro m hm
    obtain ⟨d', hd', rfl⟩ := List.mem_map.mp hm
    exact Entry.safe (hS d' hd').safe
  induction n generalizing l t s p with
  | zero => omega
  | succ n ih =>
    cases l with
    | nil =>
      simp only [List.map_nil, membersF] at h
      obtain ⟨⟨p1, e1⟩, h1, h⟩ := Out.bind_eq_ok.mp h
      simp only [Out.ok.injEq, Prod.mk.injEq] at h
      obtain ⟨rfl, rfl, rfl⟩ := h
      obtain ⟨q, hq, h2⟩ := skipMembers_inv he hstop h1
      refine ⟨q, hq, ?_⟩
      rcases h2 with h2 | ⟨h2, items, h3, h4⟩
      · exact .inr (.inr ⟨rfl, rfl, h2⟩)
      · left
        refine ⟨items, none, h3, ?_⟩
        cases items with
        | nil => cases h3
        | cons x items => exact .rest h2 h4
    | cons d l =>
      have hd : d ∈ L := hl d (by simp)
      simp only [List.map_cons, membersF] at h
      obtain ⟨⟨t1, p1, e1, u⟩, h1, hA⟩ := Out.bind_eq_ok.mp h
      clear h
      obtain ⟨suf1, s1⟩ := entry_step (hS d hd).safe h1
      obtain ⟨⟨t2, p2, e2⟩, h2, hB⟩ := Out.bind_eq_ok.mp hA
      clear hA
      have hx : p2 <:+ p1 ∧ Steps e1 e2 := by
        cases u with
        | true =>
          simp only [if_true, Out.ok.injEq, Prod.mk.injEq] at h2
          obtain ⟨_, rfl, rfl⟩ := h2
          exact ⟨List.suffix_refl _, .refl _⟩
        | false =>
          simp only [Bool.false_eq_true, if_false] at h2
          exact SafeOut.step (searchMembers_safe (U := True) (fun _ => trivial) hmem t1 p1 e1) h2
      obtain ⟨suf2, s2⟩ := hx
      cases hp3 : parseSpace p2 e2 with
      | mk p3 e3 =>
      have s3 := Steps.space hp3
      have suf3 := (parseSpace_scan p2).suffix e2
      simp only at hB
      rw [hp3] at hB suf3
      cases p3 with
      | nil =>
        simp only [Out.ok.injEq, Prod.mk.injEq] at hB
        exact (he.absurd (s1.trans (s2.trans s3)) (by decide) hB.2.2).elim
      | cons b q3 =>
      have lens := ((suf3.trans suf2).trans suf1).length_le
      simp only [List.length_cons] at lens
      -- the item, once the errors are known to be unchanged
      have item : Steps e3 e → (b = c%',' ∨ b = c%'}') →
          ∃ k v g1 g2 g3, s = quoted k ++ (g1 ++ c%':' :: (g2 ++ (v ++ (g3 ++ b :: q3)))) ∧ Gap g1 ∧ Gap g2 ∧ Start v ∧ Gap g3 ∧
            ((u = true ∧ k = d.name ∧ d.stores t t2 v) ∨
             (u = false ∧ ((∃ d' ∈ L, k = d'.name ∧ d'.name ≠ d.name ∧ d'.stores t t2 v) ∨
               (strict = false ∧ k ∉ L.map DEntry.name ∧ Skippable (k, v) ∧ t2 = t)))) := by
        intro s4 hb
        have i3 := he.back (s1.trans (s2.trans s3)) s4
        subst i3
        have i2 := he.back (s1.trans s2) s3
        subst i2
        have i1 := he.back s1 s2
        subst i1
        obtain ⟨g3, k1, k2, _⟩ := space_inv he hp3
        have hdl : Delim p2 := by
          rw [k1]
          refine delim_gap k2 ?_ _
          rcases hb with rfl | rfl <;> simp
        rcases entry_inv (hS d hd) (hn d hd) he h1 with ⟨rfl, g1, g2, w, x, j1, j2, j3, j4, j5, j6⟩ | ⟨rfl, rfl, rfl, hq, hne⟩
        · simp only [if_true, Out.ok.injEq, Prod.mk.injEq, and_true] at h2
          obtain ⟨rfl, rfl⟩ := h2
          have hw : w.length ≤ intMax := by
            have := congrArg List.length j1
            simp only [List.length_append, List.length_cons] at this
            omega
          obtain ⟨v, k3, k4, k5⟩ := member_text (hS d hd).sounds he j4 hw hdl (by rw [k1]; simp) j5
          refine ⟨d.name, v, g1, g2, g3, ?_, j2, j3, k4, k2, .inl ⟨rfl, rfl, by rw [j6]; exact k5⟩⟩
          rw [j1, k3, k1]
          rfl
        · simp only [Bool.false_eq_true, if_false] at h2
          rcases searchMembers_inv hS hn he hq h2 with ⟨d', hd', g1, g2, w, x, j1, j2, j3, j4, j5, j6⟩ |
              ⟨j1, j2, j3, k, v, g1, g2, g4, j4, j5, j6, j7, j8, j9⟩
          · have hw : w.length ≤ intMax := by
              have := congrArg List.length j1
              simp only [List.length_append, List.length_cons] at this
              omega
            obtain ⟨v, k3, k4, k5⟩ := member_text (hS d' hd').sounds he j4 hw hdl (by rw [k1]; simp) j5
            refine ⟨d'.name, v, g1, g2, g3, by rw [j1, k3, k1], j2, j3, k4, k2, .inr ⟨rfl, .inl ⟨d', hd', rfl, ?_, by rw [j6]; exact k5⟩⟩⟩
            intro hnn
            exact hne _ (by rw [j1, hnn]; rfl)
          · have hg3 : g3 = [] := gap_stop k2 (by rw [← k1]; exact j8)
            subst hg3
            refine ⟨k, v, g1, g2, g4, by rw [j4, k1]; rfl, j5, j6, start_of_xvalue j9.2, j7, .inr ⟨rfl, .inr ⟨j1, ?_, j9, j2⟩⟩⟩
            intro hk
            obtain ⟨d', hd', rfl⟩ := List.mem_map.mp hk
            exact j3 d' hd' _ j4
      simp only at hB
      split at hB
      · rename_i hb
        subst hb
        cases hp4 : parseSpace q3 e3 with
        | mk p4 e4 =>
        have s4 := Steps.space hp4
        have suf4 := (parseSpace_scan q3).suffix e3
        rw [hp4] at hB suf4
        simp only at hB suf4
        have l4 := suf4.length_le
        obtain ⟨⟨t5, p5, e5⟩, h5, h6⟩ := Out.bind_eq_ok.mp hB
        clear hB
        have hcur : (if u = true then l.map (fun d => d.entry.toMember) else d.entry.toMember :: l.map fun d => d.entry.toMember) =
            (if u = true then l else d :: l).map fun d => d.entry.toMember := by cases u <;> rfl
        rw [hcur] at h5
        have hl' : ∀ d' ∈ (if u = true then l else d :: l), d' ∈ L := by
          intro d' hd'
          cases u with
          | true => exact hl d' (by simp at hd'; simp [hd'])
          | false => exact hl d' (by simpa using hd')
        have s5 : Steps e4 e5 := (SafeOut.step (membersF_safe (U := True) (c := c) (strict := strict) (fun _ => trivial) hmem n
          (l := (if u = true then l else d :: l).map fun d => d.entry.toMember) (by
            intro m hm
            obtain ⟨d', hd', rfl⟩ := List.mem_map.mp hm
            exact Entry.safe (hS d' (hl' d' hd')).safe) t2 p4 e4 (by omega)) h5).2
        have s45 := s1.trans (s2.trans (s3.trans s4))
        obtain ⟨⟨q, hq⟩, rfl, rfl, rfl⟩ := membersEnd_inv he (s45.trans s5) h6
        have i4 := he.back s45 s5
        subst i4
        obtain ⟨k, v, g1, g2, g3, k1, k2, k3, k4, k5, hk⟩ := item s4 (.inl rfl)
        have i3 := he.back (s1.trans (s2.trans s3)) s4
        subst i3
        obtain ⟨g4, k6, k7, k8⟩ := space_inv he hp4
        obtain ⟨q', hq', ih⟩ := ih _ hl' t2 p4 _ (by omega) (by omega) k8 h5
        refine ⟨q', hq', ?_⟩
        have step : ∀ {items o}, Run strict L (if u = true then l else d :: l) items t2 t' o →
            Run strict L (d :: l) ((k, v) :: items) t t' o := by
          intro items o hr
          rcases hk with ⟨rfl, rfl, j⟩ | ⟨rfl, ⟨d', j1, rfl, j2, j3⟩ | ⟨j1, j2, j3, rfl⟩⟩
          · exact .next j (by simpa using hr)
          · exact .other j1 j2 j3 (by simpa using hr)
          · exact .unknown j1 j2 j3 (by simpa using hr)
        rcases ih with ⟨items, o, j1, j2⟩ | ⟨items, g, j1, j2, j3⟩ | ⟨j1, rfl, j3⟩
        · exact .inl ⟨(k, v) :: items, o, by rw [k1, k6]; exact .more k2 k3 k4 k5 k7 j1, step j2⟩
        · exact .inr (.inl ⟨(k, v) :: items, g, j1, by rw [k1, k6]; exact .more k2 k3 k4 k5 k7 j2, step j3⟩)
        · refine .inr (.inl ⟨[(k, v)], g4, k7, by rw [k1, k6, j3]; exact .one k2 k3 k4 k5, ?_⟩)
          refine step ?_
          rw [j1]
          exact .done
      · rename_i hb
        obtain ⟨⟨q, hq⟩, rfl, rfl, rfl⟩ := membersEnd_inv he (s1.trans (s2.trans s3)) hB
        simp only [List.cons.injEq] at hq
        obtain ⟨rfl, rfl⟩ := hq
        obtain ⟨k, v, g1, g2, g3, k1, k2, k3, k4, k5, hk⟩ := item (.refl _) (.inr rfl)
        refine ⟨q3, rfl, .inl ?_⟩
        refine ⟨[(k, v)], some (if u = true then l else d :: l), by rw [k1]; exact .one k2 k3 k4 k5, ?_⟩
        rcases hk with ⟨rfl, rfl, j⟩ | ⟨rfl, ⟨d', j1, rfl, j2, j3⟩ | ⟨j1, j2, j3, rfl⟩⟩
        · exact .next j .done
        · exact .other j1 j2 j3 .done
        · exact .unknown j1 j2 j3 .done

theorem keyDiffers_names {a b : Bytes} (hb : c%'"' ∉ b) (h : b ≠ a) : KeyDiffers a b := keyDiffers_of_noquote hb h

theorem search_complete {L : List (DEntry τ)} (hS : ∀ d ∈ L, Accepts d.entry.ref.ser d.den) (hn : ∀ d ∈ L, c%'"' ∉ d.name)
    (hnd : (L.map DEntry.name).Nodup) {d : DEntry τ} (hd : d ∈ L) {t t1 : τ} {v g1 g2 rest : Bytes}
    (h : d.stores t t1 v) (hv : Start v) (hl : v.length ≤ intMax) (h1 : Gap g1) (h2 : Gap g2) (hr : Delim rest) {e : EPtr}
    (he : e.failed = false) :
    searchMembers c strict (L.map fun d => d.entry.toMember) t (quoted d.name ++ (g1 ++ c%':' :: (g2 ++ (v ++ rest)))) e =
      .ok (t1, rest, e) := by
  induction L with
  | nil => cases hd
  | cons x L ih =>
    simp only [List.map_cons, searchMembers]
    simp only [List.map_cons, List.nodup_cons] at hnd
    rcases List.mem_cons.mp hd with rfl | hd'
    · rw [entry_complete (hS d (by simp)) (hn d (by simp)) h hv hl h1 h2 hr he]
      rfl
    · have hne : d.name ≠ x.name := fun hh => hnd.1 (by rw [← hh]; exact List.mem_map_of_mem hd')
      have := Entry.skips (en := x.entry) (keyDiffers_names (hn d hd) hne)
      rw [this t _ e false]
      simp only [Out.bind_ok, Bool.false_eq_true, if_false]
      exact ih (fun d hd => hS d (by simp [hd])) (fun d hd => hn d (by simp [hd])) hnd.2 hd'

/-- What one item does. -/
inductive Item (strict : Bool) (L : List (DEntry τ)) (d : DEntry τ) : Bool → Bytes → Bytes → τ → τ → Prop
  | next {v t t1} : d.stores t t1 v → Item strict L d true d.name v t t1
  | other {d' v t t1} : d' ∈ L → d'.name ≠ d.name → d'.stores t t1 v → Item strict L d false d'.name v t t1
  | unknown {k v t} : strict = false → k ∉ L.map DEntry.name → Skippable (k, v) → Item strict L d false k v t t

/-- One turn of `unserialize_members`. -/
theorem membersF_item {L : List (DEntry τ)} (hS : ∀ d ∈ L, Accepts d.entry.ref.ser d.den) (hn : ∀ d ∈ L, PlainName d.name)
    (hnd : (L.map DEntry.name).Nodup) {d : DEntry τ} (hd : d ∈ L) (l : List (DEntry τ)) {u : Bool} {k v : Bytes} {t t1 : τ}
    (h : Item strict L d u k v t t1) (hv : Start v) (hmax : v.length ≤ intMax) {g1 g2 g3 : Bytes} (h1 : Gap g1) (h2 : Gap g2)
    (h3 : Gap g3) {b : Byte} (hb : b = c%',' ∨ b = c%'}') (q : Bytes) {e : EPtr} (he : e.failed = false) (n : Nat) :
    membersF c strict (L.map fun d => d.entry.toMember) (n + 1) ((d :: l).map fun d => d.entry.toMember) t
        (quoted k ++ (g1 ++ c%':' :: (g2 ++ (v ++ (g3 ++ b :: q))))) e =
      if b = c%',' then
        membersF c strict (L.map fun d => d.entry.toMember) n ((if u = true then l else d :: l).map fun d => d.entry.toMember) t1
          (parseSpace q e).1 (parseSpace q e).2 >>= fun y => membersEnd y.1 y.2.1 y.2.2
      else .ok (t1, b :: q, e) := by
  have hbb : b = c%',' ∨ b = c%']' ∨ b = c%'}' ∨ b = c%':' ∨ b = c%'"' := by rcases hb with rfl | rfl <;> simp
  have hdl : Delim (g3 ++ b :: q) := delim_gap h3 hbb q
  have hq : ∀ d ∈ L, c%'"' ∉ d.name := fun d hd => (hn d hd).1
  have hstay : parseSpace (b :: q) e = (b :: q, e) := by simpa using parseSpace_byte .nil hbb q e
  have hend : ∀ t1 : τ, b ≠ c%',' → membersEnd t1 (b :: q) e = .ok (t1, b :: q, e) := by
    intro t1 hne
    rcases hb with h | h
    · exact absurd h hne
    · simp [membersEnd, h]
  simp only [List.map_cons, membersF]
  cases h with
  | next hst =>
    rw [entry_complete (hS d hd) (hq d hd) hst hv hmax h1 h2 hdl he]
    simp only [Out.bind_ok, if_true]
    rw [parseSpace_byte h3 hbb]
    simp only
    split
    · rfl
    · rename_i hne; exact hend _ hne
  | @other d' _ _ _ hd' hne hst =>
    have hsk := Entry.skips (en := d.entry) (keyDiffers_names (hq d' hd') hne)
    rw [hsk t _ e false]
    simp only [Out.bind_ok, Bool.false_eq_true, if_false]
    rw [search_complete hS hq hnd hd' hst hv hmax h1 h2 hdl he]
    simp only [Out.bind_ok]
    rw [parseSpace_byte h3 hbb]
    simp only
    split
    · rfl
    · rename_i hne; exact hend _ hne
  | unknown hst hk hsk =>
    have hall : ∀ m ∈ L.map (fun d : DEntry τ => d.entry.toMember), MSkips m k := by
      intro m hm
      obtain ⟨d', hd', rfl⟩ := List.mem_map.mp hm
      refine Entry.skips (keyDiffers_of_plain (hn d' hd') hsk.1 ?_)
      rintro rfl
      exact hk (List.mem_map_of_mem hd')
    rw [hall _ (List.mem_map_of_mem (f := fun d : DEntry τ => d.entry.toMember) hd) t _ e false]
    simp only [Out.bind_ok, Bool.false_eq_true, if_false]
    rw [searchMembers_missing hall]
    simp only [searchMembers, hst, Bool.not_false, if_true]
    rw [parseMember_skip hsk h1 h2 hdl]
    simp only [Out.bind_ok]
    rw [parseSpace_byte h3 hbb]
    simp only
    rw [hstay]
    simp only
    split
    · rfl
    · rename_i hne; exact hend _ hne

theorem Run.cases_cons {L : List (DEntry τ)} {d : DEntry τ} {l : List (DEntry τ)} {x : Bytes × Bytes}
    {items : List (Bytes × Bytes)} {t t' : τ} {o : Option (List (DEntry τ))} (h : Run strict L (d :: l) (x :: items) t t' o) :
    ∃ u t1, Item strict L d u x.1 x.2 t t1 ∧ Run strict L (if u = true then l else d :: l) items t1 t' o := by
  cases h with
  | next h1 h2 => exact ⟨true, _, .next h1, by simpa using h2⟩
  | other h1 h2 h3 h4 => exact ⟨false, _, .other h1 h2 h3, by simpa using h4⟩
  | unknown h1 h2 h3 h4 => exact ⟨false, _, .unknown h1 h2 h3, by simpa using h4⟩

theorem Run.nil_items {L l : List (DEntry τ)} {t t' : τ} {o : Option (List (DEntry τ))} (h : Run strict L l [] t t' o) :
    t' = t ∧ (o = some [] → l = []) := by
  cases h with
  | done => exact ⟨rfl, fun h => by simpa using h⟩

theorem skipMembers_close (q : Bytes) (e : EPtr) : skipMembers c strict (c%'}' :: q) e = .ok (c%'}' :: q, e) := by
  unfold skipMembers
  have : parseSpace (c%'}' :: q) e = (c%'}' :: q, e) := by simpa using parseSpace_byte .nil (b := c%'}') (by decide) q e
  rw [this]
  simp

theorem membersF_complete {L : List (DEntry τ)} (hS : ∀ d ∈ L, Accepts d.entry.ref.ser d.den) (hn : ∀ d ∈ L, PlainName d.name)
    (hnd : (L.map DEntry.name).Nodup) {tail q : Bytes} {o : Option (List (DEntry τ))}
    (htail : tail = c%'}' :: q ∨ (o = some [] ∧ ∃ g, Gap g ∧ tail = c%',' :: (g ++ c%'}' :: q))) {items : List (Bytes × Bytes)} {s : Bytes}
    (h : ItemsThen tail items s) {l : List (DEntry τ)} (hl : ∀ d ∈ l, d ∈ L) {t t' : τ} (hrun : Run strict L l items t t' o) {e : EPtr}
    (he : e.failed = false) (hmax : s.length ≤ intMax + q.length) (n : Nat) (hlen : s.length < n) :
    membersF c strict (L.map fun d => d.entry.toMember) n (l.map fun d => d.entry.toMember) t s e = .ok (t', c%'}' :: q, e) := by
  cases n with
  | zero => omega
  | succ n =>
  have hend : ∀ t1 : τ, (Out.ok (t1, c%'}' :: q, e) >>= fun y => membersEnd y.1 y.2.1 y.2.2) = .ok (t1, c%'}' :: q, e) := by
    intro t1; rw [Out.bind_ok]; simp [membersEnd]
  -- all members met
  have hrest : ∀ {items s}, ItemsThen tail items s → Run strict L [] items t t' o → skipMembers c strict s e = .ok (c%'}' :: q, e) ∧ t' = t := by
    intro items s h hrun
    cases hrun with
    | done => cases h
    | rest h1 h2 =>
      rcases htail with rfl | ⟨ho, _⟩
      · obtain ⟨r0, rfl, hf⟩ := itemsThen_back h
        have := (skipMembers_items (c := c) (strict := strict) hf h2 q e).1 h1
        exact ⟨by simpa using this, rfl⟩
      · cases ho
  have hq : q.length < tail.length := by
    rcases htail with rfl | ⟨_, g, _, rfl⟩ <;> simp
    omega
  induction h generalizing l t n with
  | @one k g1 g2 v g3 h1 h2 hv h3 =>
    cases l with
    | nil =>
      obtain ⟨h5, rfl⟩ := hrest (.one h1 h2 hv h3) hrun
      simp only [List.map_nil, membersF, h5, Out.bind_ok]
    | cons d l =>
      obtain ⟨u, t1, hit, hr⟩ := hrun.cases_cons
      obtain ⟨rfl, hcur⟩ := hr.nil_items
      have hvl : v.length ≤ intMax := by
        simp only [List.length_append, List.length_cons, quoted] at hmax
        omega
      rcases htail with rfl | ⟨ho, g, hg, rfl⟩
      · rw [membersF_item hS hn hnd (hl d (by simp)) l hit hv hvl h1 h2 h3 (.inr rfl) q he n, if_neg (by decide)]
      · rw [membersF_item hS hn hnd (hl d (by simp)) l hit hv hvl h1 h2 h3 (.inl rfl) _ he n, if_pos rfl,
          parseSpace_close hg]
        rw [hcur ho]
        have hn0 : ∃ m, n = m + 1 := by
          cases n with
          | zero => simp only [List.length_append, List.length_cons, quoted] at hlen; omega
          | succ m => exact ⟨m, rfl⟩
        obtain ⟨m, rfl⟩ := hn0
        simp only [List.map_nil, membersF, skipMembers_close, Out.bind_ok]
        simp [membersEnd]
  | @more k g1 g2 v g3 g4 items r h1 h2 hv h3 h4 hi ih =>
    cases l with
    | nil =>
      obtain ⟨h5, rfl⟩ := hrest (.more h1 h2 hv h3 h4 hi) hrun
      simp only [List.map_nil, membersF, h5, Out.bind_ok]
    | cons d l =>
      obtain ⟨u, t1, hit, hr⟩ := hrun.cases_cons
      have hrl : tail.length ≤ r.length := by
        obtain ⟨r0, rfl, _⟩ := itemsThen_back hi
        simp
      have hvl : v.length ≤ intMax := by
        simp only [List.length_append, List.length_cons, quoted] at hmax
        omega
      rw [membersF_item hS hn hnd (hl d (by simp)) l hit hv hvl h1 h2 h3 (.inl rfl) _ he n, if_pos rfl, parseSpace_then h4 hi]
      simp only [List.length_append, List.length_cons, quoted] at hlen hmax
      cases n with
      | zero => omega
      | succ n =>
      rw [ih (l := if u = true then l else d :: l) ?_ hr (by omega) n (by omega) ?_]
      · exact hend _
      · intro d' hd'
        cases u with
        | true => exact hl d' (by simp at hd'; simp [hd'])
        | false => exact hl d' (by simpa using hd')
      · intro items s h hrun
        cases hrun with
        | done => cases h
        | rest h1 h2 =>
          rcases htail with rfl | ⟨ho, _⟩
          · obtain ⟨r0, rfl, hf⟩ := itemsThen_back h
            have := (skipMembers_items (c := c) (strict := strict) hf h2 q e).1 h1
            exact ⟨by simpa using this, rfl⟩
          · cases ho

/-! ### Objects -/

theorem objectEnd_inv {t t' : τ} {s p : Bytes} {e1 e : EPtr} (he : e.Clean) (hs : Steps e e1)
    (h : objectEnd t s e1 = .ok (t', p, e)) : s = c%'}' :: p ∧ t' = t ∧ e1 = e := by
  unfold objectEnd at h
  cases s with
  | nil =>
    simp only [Out.ok.injEq, Prod.mk.injEq] at h
    exact (he.absurd hs (by decide) h.2.2).elim
  | cons b q =>
    simp only at h
    split at h
    · simp only [Out.ok.injEq, Prod.mk.injEq] at h
      exact (he.absurd hs (by decide) h.2.2).elim
    · rename_i hb
      have hb : b = c%'}' := Classical.not_not.mp hb
      simp only [Out.ok.injEq, Prod.mk.injEq] at h
      obtain ⟨rfl, rfl, rfl⟩ := h
      exact ⟨by rw [hb], rfl, rfl⟩

theorem objectBody_inv {L : List (DEntry τ)} (hS : ∀ d ∈ L, Accepts d.entry.ref.ser d.den) (hn : ∀ d ∈ L, c%'"' ∉ d.name)
    {t t' : τ} {s p : Bytes} {e : EPtr} (he : e.Clean) (hmax : s.length ≤ intMax)
    (h : objectBody c strict (L.map fun d => d.entry.toMember) t s e = .ok (t', p, e)) :
    (∃ items r o, s = r ++ p ∧ ObjText items (c%'{' :: r) ∧ Run strict L L items t t' o) ∨
      ∃ items r, s = r ++ p ∧ ObjTrail items (c%'{' :: r) ∧ Run strict L L items t t' (some []) := by
  have hmem : ∀ m ∈ L.map (fun d : DEntry τ => d.entry.toMember), MSafe True m := by
    intro m hm
    obtain ⟨d', hd', rfl⟩ := List.mem_map.mp hm
    exact Entry.safe (hS d' hd').safe
  unfold objectBody at h
  cases hp1 : parseSpace s e with
  | mk p1 e1 =>
  have s1 := Steps.space hp1
  have suf1 := (parseSpace_scan s).suffix e
  rw [hp1] at h suf1
  cases p1 with
  | nil =>
    simp only [Out.ok.injEq, Prod.mk.injEq] at h
    exact (he.absurd s1 (by decide) h.2.2).elim
  | cons b q =>
    simp only at h
    split at h
    · rename_i hb
      obtain ⟨⟨t2, p2, e2⟩, h2, hA⟩ := Out.bind_eq_ok.mp h
      clear h
      have s2 := (SafeOut.step (membersF_safe (U := True) (fun _ => trivial) hmem _ hmem _ _ _ (by simp)) h2).2
      simp only at hA
      cases p2 with
      | nil =>
        simp only [Out.ok.injEq, Prod.mk.injEq] at hA
        exact (he.absurd (s1.trans s2) (by decide) hA.2.2).elim
      | cons b2 q2 =>
        simp only at hA
        cases hp3 : parseSpace (b2 :: q2) e2 with
        | mk p3 e3 =>
        have s3 := Steps.space hp3
        rw [hp3] at hA
        cases p3 with
        | nil =>
          simp only [Out.ok.injEq, Prod.mk.injEq] at hA
          exact (he.absurd (s1.trans (s2.trans s3)) (by decide) hA.2.2).elim
        | cons b3 q3 =>
          simp only at hA
          obtain ⟨h3, rfl, rfl⟩ := objectEnd_inv he (s1.trans (s2.trans s3)) hA
          have i2 := he.back (s1.trans s2) s3
          subst i2
          have i1 := he.back s1 s2
          subst i1
          obtain ⟨g, k1, k2, k3⟩ := space_inv he hp1
          have l1 := suf1.length_le
          simp only [List.length_cons] at l1
          obtain ⟨q', hq', h4⟩ := membersF_inv hS hn _ L (fun _ h => h) t t' _ _ he (by simp) (by simp; omega) k3 h2
          rw [hq'] at hp3 h4
          have : parseSpace (c%'}' :: q') e1 = (c%'}' :: q', e1) := by
            simpa using parseSpace_byte .nil (b := c%'}') (by decide) q' e1
          rw [this, h3] at hp3
          simp only [Prod.mk.injEq, List.cons.injEq, true_and, and_true] at hp3
          subst hp3
          rcases h4 with ⟨items, o, j1, j2⟩ | ⟨items, g', j1, j2, j3⟩ | ⟨_, _, j⟩
          · obtain ⟨r0, j3, j4⟩ := itemsThen_back j1
            exact .inl ⟨items, g ++ (r0 ++ b!"}"), o, by rw [k1, j3]; simp, .items k2 j4, j2⟩
          · obtain ⟨r0, j4, j5⟩ := itemsThen_back j2
            have hne : items ≠ [] := by rintro rfl; cases j5
            have : ObjText items (c%'{' :: (g ++ r0) ++ b!"}") := by
              have := ObjText.items k2 j5
              simpa using this
            refine .inr ⟨items, g ++ r0 ++ c%',' :: (g' ++ b!"}"), by rw [k1, j4]; simp, ?_, j3⟩
            have := ObjTrail.mk this hne j1
            simpa using this
          · simp only [List.cons.injEq] at j
            exact absurd j.1 hb
    · rename_i hb
      have hb : b = c%'}' := Classical.not_not.mp hb
      obtain ⟨h3, rfl, rfl⟩ := objectEnd_inv he s1 h
      obtain ⟨g, k1, k2, _⟩ := space_inv he hp1
      simp only [List.cons.injEq] at h3
      refine .inl ⟨[], g ++ b!"}", some L, by rw [k1, hb, h3.2]; simp, .empty k2, .done⟩

theorem deObject_inv {dflt : τ} {L : List (DEntry τ)} (hS : ∀ d ∈ L, Accepts d.entry.ref.ser d.den) (hn : ∀ d ∈ L, c%'"' ∉ d.name)
    {t t' : τ} {s p : Bytes} {e : EPtr} (he : e.Clean) (hmax : s.length ≤ intMax)
    (h : deObject c strict dflt (L.map fun d => d.entry.toMember) t s e = .ok (t', p, e)) :
    ∃ r, s = r ++ p ∧ ObjDen strict dflt L t t' r := by
  unfold deObject at h
  split at h
  · simp only [Out.ok.injEq, Prod.mk.injEq] at h
    have := parseNull_acc_iff.mp (Acc.of_clean (parseNull_scan s) he (e' := e) (p := p) (Prod.ext h.2.1 h.2.2) he.not_failed)
    exact ⟨_, this, .inl ⟨rfl, h.1.symm⟩⟩
  · cases s with
    | nil =>
      simp only [Out.ok.injEq, Prod.mk.injEq] at h
      exact (he.no_error (by decide) h.2.2).elim
    | cons b q =>
      simp only at h
      split at h
      · split at h
        · rename_i hb
          cases hp1 : parseSpace q e with
          | mk p1 e1 =>
          have s1 := Steps.space hp1
          rw [hp1] at h
          obtain ⟨x, hx, hA⟩ := Out.bind_eq_ok.mp h
          clear h
          simp only at hA
          split at hA
          · simp only [Out.ok.injEq, Prod.mk.injEq] at hA
            exact (he.absurd s1 (by decide) hA.2.2).elim
          · rename_i hx1
            have hx1 : x = c%']' := Classical.not_not.mp hx1
            cases p1 with
            | nil => cases hA
            | cons b1 q1 =>
              simp only [Out.ok.injEq, Prod.mk.injEq] at hA
              obtain ⟨rfl, rfl, rfl⟩ := hA
              simp only [deref, Out.ok.injEq] at hx
              obtain ⟨g, k1, k2, _⟩ := space_inv he hp1
              refine ⟨c%'[' :: (g ++ b!"]"), ?_, .inr (.inl ⟨g, rfl, k2, rfl⟩)⟩
              rw [hb, k1, hx, hx1]
              simp
        · simp only [Out.ok.injEq, Prod.mk.injEq] at h
          exact (he.no_error (by decide) h.2.2).elim
      · rename_i hb
        have hb : b = c%'{' := Classical.not_not.mp hb
        simp only [List.length_cons] at hmax
        rcases objectBody_inv hS hn he (by omega) h with ⟨items, r, o, h1, h2, h3⟩ | ⟨items, r, h1, h2, h3⟩
        · exact ⟨c%'{' :: r, by rw [hb, h1]; simp, .inr (.inr (.inl ⟨items, o, h2, h3⟩))⟩
        · exact ⟨c%'{' :: r, by rw [hb, h1]; simp, .inr (.inr (.inr ⟨items, h2, h3⟩))⟩

theorem objectBody_complete {L : List (DEntry τ)} (hS : ∀ d ∈ L, Accepts d.entry.ref.ser d.den) (hn : ∀ d ∈ L, PlainName d.name)
    (hnd : (L.map DEntry.name).Nodup) {tail q : Bytes} {o : Option (List (DEntry τ))}
    (htail : tail = c%'}' :: q ∨ (o = some [] ∧ ∃ g, Gap g ∧ tail = c%',' :: (g ++ c%'}' :: q))) {items : List (Bytes × Bytes)}
    {g s : Bytes} (hg : Gap g) (h : ItemsThen tail items s) {t t' : τ} (hrun : Run strict L L items t t' o) {e : EPtr}
    (he : e.failed = false) (hmax : s.length ≤ intMax + q.length) :
    objectBody c strict (L.map fun d => d.entry.toMember) t (g ++ s) e = .ok (t', q, e) := by
  unfold objectBody
  rw [parseSpace_then hg h]
  have hm := membersF_complete (c := c) hS hn hnd htail h (fun _ h => h) hrun he hmax (s.length + 1) (by omega)
  obtain ⟨u, rfl⟩ := itemsThen_head h
  simp only
  rw [if_pos (by decide)]
  simp only [List.length_cons] at hm
  rw [hm, Out.bind_ok]
  simp only
  have : parseSpace (c%'}' :: q) e = (c%'}' :: q, e) := by simpa using parseSpace_byte .nil (b := c%'}') (by decide) q e
  rw [this]
  simp [objectEnd]

theorem deObject_open {dflt : τ} {L : List (Member τ)} (t : τ) (x : Bytes) (e : EPtr) :
    deObject c strict dflt L t (c%'{' :: x) e = objectBody c strict L t x e := by
  have : isNull (c%'{' :: x) = false := rfl
  unfold deObject
  rw [this]
  simp

theorem objectSer_complete {dflt : τ} {L : List (DEntry τ)} (hg : GoodNames (L.map DEntry.entry))
    (hS : ∀ d ∈ L, Accepts d.entry.ref.ser d.den) {v0 v : τ} {t : Bytes} (h : ObjDen strict dflt L v0 v t) (ht : t.length ≤ intMax)
    (rest : Bytes) (e : EPtr) (he : e.failed = false) :
    (objectSer c strict dflt (L.map fun d => d.entry.toMember)).de v0 (t ++ rest) e = .ok (v, rest, e) := by
  have hnames : names (L.map DEntry.entry) = L.map DEntry.name := by simp [names, DEntry.name]
  have hnd : (L.map DEntry.name).Nodup := by rw [← hnames]; exact hg.nodup
  have hpl : ∀ d ∈ L, PlainName d.name := fun d hd => hg.plain d.name (by rw [hnames]; exact List.mem_map_of_mem hd)
  simp only [objectSer]
  rcases h with ⟨rfl, rfl⟩ | ⟨g, rfl, hg, rfl⟩ | ⟨items, o, h1, h2⟩ | ⟨items, h1, h2⟩
  · have := parseNull_ok rest e
    have hn : isNull (b!"null" ++ rest) = true := rfl
    unfold deObject
    rw [if_pos hn, this]
  · have hn : isNull (c%'[' :: (g ++ b!"]") ++ rest) = false := rfl
    have hsp := parseSpace_byte hg (b := c%']') (by decide) rest e
    unfold deObject
    rw [hn]
    simp only [Bool.false_eq_true, if_false, List.cons_append, List.append_assoc, List.nil_append]
    rw [if_pos (by decide)]
    simp only [if_true, hsp, deref, Out.bind_ok, ne_eq, not_true, if_false]
  · cases h1 with
    | @empty g hg =>
      cases h2 with
      | done =>
        have hsp := parseSpace_byte hg (b := c%'}') (by decide) rest e
        simp only [List.cons_append, List.append_assoc, List.nil_append]
        rw [deObject_open]
        unfold objectBody
        rw [hsp]
        simp [objectEnd]
    | @items g _ r hg hi =>
      obtain ⟨r0, rfl, hi'⟩ := itemsThen_of_from hi
      have heq : c%'{' :: (g ++ (r0 ++ b!"}")) ++ rest = c%'{' :: (g ++ (r0 ++ c%'}' :: rest)) := by simp
      rw [heq, deObject_open]
      refine objectBody_complete hS hpl hnd (.inl rfl) hg (hi' _) h2 he ?_
      simp only [List.length_append, List.length_cons, List.length_nil] at ht ⊢
      omega
  · cases h1 with
    | @mk r g hobj hne hg =>
      generalize hw : r ++ b!"}" = w at hobj
      cases hobj with
      | empty => exact absurd rfl hne
      | @items g1 _ r1 hg1 hi =>
        obtain ⟨r0, rfl, hi'⟩ := itemsThen_of_from hi
        have hr : r = c%'{' :: (g1 ++ r0) := by
          refine List.append_cancel_right (bs := b!"}") ?_
          rw [hw]
          simp
        subst hr
        have heq : c%'{' :: (g1 ++ r0) ++ c%',' :: (g ++ b!"}") ++ rest = c%'{' :: (g1 ++ (r0 ++ c%',' :: (g ++ c%'}' :: rest))) := by
          simp
        rw [heq, deObject_open]
        refine objectBody_complete hS hpl hnd (.inr ⟨rfl, g, hg, rfl⟩) hg1 (hi' _) h2 he ?_
        simp only [List.length_append, List.length_cons, List.length_nil] at ht ⊢
        omega

theorem objectSer_exact {dflt : τ} {L : List (DEntry τ)} (hg : GoodNames (L.map DEntry.entry))
    (hS : ∀ d ∈ L, Accepts d.entry.ref.ser d.den) :
    Exact (objectSer c strict dflt (L.map fun d => d.entry.toMember)) (ObjDen strict dflt L) := by
  have hnames : names (L.map DEntry.entry) = L.map DEntry.name := by simp [names, DEntry.name]
  have hnd : (L.map DEntry.name).Nodup := by rw [← hnames]; exact hg.nodup
  have hpl : ∀ d ∈ L, PlainName d.name := fun d hd => hg.plain d.name (by rw [hnames]; exact List.mem_map_of_mem hd)
  refine { safe := ?_, sound := ?_, complete := ?_, head := ?_, null := ?_ }
  · refine deObject_safe (fun _ => trivial) ?_
    intro m hm
    obtain ⟨d', hd', rfl⟩ := List.mem_map.mp hm
    exact Entry.safe (hS d' hd').safe
  · intro v0 v s p e he hs _ h
    exact deObject_inv hS (fun d hd => (hpl d hd).1) he hs h
  · exact fun h ht rest e he _ => objectSer_complete hg hS h ht rest e he
  · rintro v0 v t (⟨rfl, _⟩ | ⟨g, rfl, _⟩ | ⟨items, o, h1, h2⟩ | ⟨items, h1, h2⟩)
    · exact headed_of_byte (by decide)
    · exact headed_of_byte (by decide)
    · cases h1 <;> exact headed_of_byte (by decide)
    · cases h1 with
      | @mk r g hobj hne hg =>
        cases r with
        | nil => cases hobj
        | cons b r =>
          have hb : b = c%'{' := by
            generalize hw : b :: r ++ b!"}" = w at hobj
            cases hobj <;> simp only [List.cons_append, List.cons.injEq] at hw <;> exact hw.1
          rw [hb]
          exact headed_of_byte (by decide)
  · intro v0 v s p e he hn h
    simp only [objectSer] at h
    unfold deObject at h
    rw [if_pos (by simp [isNull, hn])] at h
    simp only [Out.ok.injEq, Prod.mk.injEq] at h
    exact parseNull_acc_iff.mp (Acc.of_clean (parseNull_scan s) he (e' := e) (p := p) (Prod.ext h.2.1 h.2.2) he.not_failed)

/-! ### Positional structures -/

theorem aentry_inv {d : DEntry τ} (hS : Accepts d.entry.ref.ser d.den) {t t1 : τ} {w p : Bytes} {e : EPtr} (he : e.Clean)
    (hw : SpaceStop w) (hl : w.length ≤ intMax) (hd : Delim p) (hne : p ≠ []) (h : d.entry.toAMember.de t w e = .ok (t1, p, e)) :
    ∃ v, w = v ++ p ∧ Start v ∧ d.stores t t1 v := by
  have key : ∃ x, d.entry.ref.ser.de (d.entry.start t) w e = .ok (x, p, e) ∧ t1 = d.entry.ref.set x t := by
    obtain ⟨en, den⟩ := d
    cases en with
    | mem m =>
      obtain ⟨⟨x, p1, e1⟩, h1, h2⟩ := Out.bind_eq_ok.mp h
      simp only [Out.ok.injEq, Prod.mk.injEq] at h2
      obtain ⟨rfl, rfl, rfl⟩ := h2
      exact ⟨x, h1, rfl⟩
    | prop m =>
      obtain ⟨⟨x, p1, e1⟩, h1, h2⟩ := Out.bind_eq_ok.mp h
      simp only [Out.ok.injEq, Prod.mk.injEq] at h2
      obtain ⟨rfl, rfl, rfl⟩ := h2
      exact ⟨x, h1, rfl⟩
  obtain ⟨x, h1, rfl⟩ := key
  exact member_text hS.sounds he hw hl hd hne h1

theorem aentry_complete {d : DEntry τ} (hS : Accepts d.entry.ref.ser d.den) {t t1 : τ} {v rest : Bytes}
    (h : d.stores t t1 v) (hl : v.length ≤ intMax) (hd : Delim rest) {e : EPtr} (he : e.failed = false) :
    d.entry.toAMember.de t (v ++ rest) e = .ok (t1, rest, e) := by
  obtain ⟨x, hx, rfl⟩ := h
  have hr := hS.complete hx hl rest e he hd
  obtain ⟨en, den⟩ := d
  cases en with
  | mem m =>
    simp only [Entry.toAMember, amember, Entry.ref, Entry.start] at hr ⊢
    rw [hr]
    rfl
  | prop m =>
    simp only [Entry.toAMember, amemberP, Entry.ref, Entry.start] at hr ⊢
    rw [hr]
    rfl

theorem amembersEnd_inv {t t' : τ} {s p : Bytes} {e1 e : EPtr} (he : e.Clean) (hs : Steps e e1)
    (h : amembersEnd t s e1 = .ok (t', p, e)) : ∃ q, s = c%']' :: q ∧ p = s ∧ t' = t ∧ e1 = e := by
  unfold amembersEnd at h
  cases s with
  | nil =>
    simp only [Out.ok.injEq, Prod.mk.injEq] at h
    exact (he.absurd hs (by decide) h.2.2).elim
  | cons b q =>
    simp only at h
    split at h
    · simp only [Out.ok.injEq, Prod.mk.injEq] at h
      exact (he.absurd hs (by decide) h.2.2).elim
    · rename_i hb
      have hb : b = c%']' := Classical.not_not.mp hb
      simp only [Out.ok.injEq, Prod.mk.injEq] at h
      obtain ⟨rfl, rfl, rfl⟩ := h
      exact ⟨q, by rw [hb], rfl, rfl, rfl⟩

theorem objectArrayEnd_inv {t t' : τ} {s p : Bytes} {e1 e : EPtr} (he : e.Clean) (hs : Steps e e1)
    (h : objectArrayEnd t s e1 = .ok (t', p, e)) : s = c%']' :: p ∧ t' = t ∧ e1 = e := by
  unfold objectArrayEnd at h
  cases s with
  | nil =>
    simp only [Out.ok.injEq, Prod.mk.injEq] at h
    exact (he.absurd hs (by decide) h.2.2).elim
  | cons b q =>
    simp only at h
    split at h
    · simp only [Out.ok.injEq, Prod.mk.injEq] at h
      exact (he.absurd hs (by decide) h.2.2).elim
    · rename_i hb
      have hb : b = c%']' := Classical.not_not.mp hb
      simp only [Out.ok.injEq, Prod.mk.injEq] at h
      obtain ⟨rfl, rfl, rfl⟩ := h
      exact ⟨by rw [hb], rfl, rfl⟩

theorem items1_gap {α : Type} {item : α → Bytes → Prop} {R : Byte} {g : Bytes} (hg : Gap g) {vs : List α} {r : Bytes}
    (h : Items1 item R vs r) : Items1 item R vs (g ++ r) := by
  cases h with
  | last h1 h2 h3 h4 => simpa using Items1.last (hg.append h1) h2 h3 h4
  | more h1 h2 h3 h4 h5 => simpa using Items1.more (hg.append h1) h2 h3 h4 h5

theorem itemsComma_gap {α : Type} {item : α → Bytes → Prop} {g : Bytes} (hg : Gap g) {vs : List α} {r : Bytes} (hne : vs ≠ [])
    (h : ItemsComma item vs r) : ItemsComma item vs (g ++ r) := by
  cases h with
  | nil => exact absurd rfl hne
  | cons h1 h2 h3 h4 h5 => simpa using ItemsComma.cons (hg.append h1) h2 h3 h4 h5

theorem asafe_of {L : List (DEntry τ)} (hS : ∀ d ∈ L, Accepts d.entry.ref.ser d.den) :
    ∀ m ∈ L.map (fun d : DEntry τ => d.entry.toAMember), Safe True m.de := by
  intro m hm
  obtain ⟨d', hd', rfl⟩ := List.mem_map.mp hm
  exact Entry.asafe (hS d' hd').safe

/-- What the reading of the elements leaves: the elements fit the members. -/
theorem deAMembers_inv {L : List (DEntry τ)} (hS : ∀ d ∈ L, Accepts d.entry.ref.ser d.den) {t t' : τ} {s p : Bytes} {e : EPtr}
    (he : e.Clean) (hmax : s.length ≤ intMax) (hstop : SpaceStop s)
    (h : deAMembers (L.map fun d => d.entry.toAMember) t s e = .ok (t', p, e)) :
    (L = [] ∧ t' = t ∧ p = s) ∨ ∃ q, p = c%']' :: q ∧
      ((∃ L1 L2 ts r, L = L1 ++ L2 ∧ s = r ++ q ∧ Items1 (fun v t => v = t) c%']' ts r ∧ Positional L1 ts t t') ∨
        ∃ ts r g, s = r ++ (g ++ p) ∧ ts ≠ [] ∧ ItemsComma (fun v t => v = t) ts r ∧ Gap g ∧ Positional L ts t t') := by
  induction L generalizing t t' s with
  | nil =>
    simp only [List.map_nil, deAMembers, Out.ok.injEq, Prod.mk.injEq] at h
    exact .inl ⟨rfl, h.1.symm, h.2.1.symm⟩
  | cons d L ih =>
    refine .inr ?_
    simp only [List.map_cons, deAMembers] at h
    obtain ⟨⟨t1, p1, e1⟩, h1, hA⟩ := Out.bind_eq_ok.mp h
    clear h
    obtain ⟨suf1, s1⟩ := (Entry.asafe (hS d (by simp)).safe).step h1
    simp only at hA
    cases hp2 : parseSpace p1 e1 with
    | mk p2 e2 =>
    have s2 := Steps.space hp2
    have suf2 := (parseSpace_scan p1).suffix e1
    rw [hp2] at hA suf2
    cases p2 with
    | nil =>
      simp only [Out.ok.injEq, Prod.mk.injEq] at hA
      exact (he.absurd (s1.trans s2) (by decide) hA.2.2).elim
    | cons b q =>
    simp only at hA
    have l1 := suf1.length_le
    have l2 := suf2.length_le
    simp only [List.length_cons] at l2
    have item : Steps e2 e → (b = c%']' ∨ b = c%',') → ∃ v g2, s = v ++ g2 ++ b :: q ∧ Start v ∧ d.stores t t1 v ∧ Gap g2 := by
      intro s3 hb
      have h2 := he.back (s1.trans s2) s3
      subst h2
      have h3 := he.back s1 s2
      subst h3
      obtain ⟨g2, k4, k5, _⟩ := space_inv he hp2
      have hdl : Delim p1 := by
        rw [k4]
        refine delim_gap k5 ?_ _
        rcases hb with rfl | rfl <;> simp
      obtain ⟨v, k6, k7, k8⟩ := aentry_inv (hS d (by simp)) he hstop hmax hdl (by rw [k4]; simp) h1
      exact ⟨v, g2, by rw [k6, k4]; simp, k7, k8, k5⟩
    split at hA
    · rename_i hb
      cases hp3 : parseSpace q e2 with
      | mk p3 e3 =>
      have s3 := Steps.space hp3
      have suf3 := (parseSpace_scan q).suffix e2
      rw [hp3] at hA suf3
      simp only at suf3
      obtain ⟨⟨t4, p4, e4⟩, h4, hB⟩ := Out.bind_eq_ok.mp hA
      clear hA
      have hS' : ∀ d ∈ L, Accepts d.entry.ref.ser d.den := fun d hd => hS d (by simp [hd])
      have s4 := (SafeOut.step (deAMembers_safe (U := True) (asafe_of hS') t1 p3 e3) h4).2
      obtain ⟨q', hq', rfl, rfl, rfl⟩ := amembersEnd_inv he (s1.trans (s2.trans (s3.trans s4))) hB
      obtain ⟨v, g2, k1, k2, k3, k4⟩ := item (s3.trans s4) (.inr hb)
      have i2 := he.back (s1.trans s2) (s3.trans s4)
      subst i2
      have i3 := he.back s3 s4
      subst i3
      obtain ⟨g3, k5, k6, k7⟩ := space_inv he hp3
      have l3 := suf3.length_le
      simp only at hq' h4
      refine ⟨q', hq', ?_⟩
      have hst0 : b = c%',' := hb
      subst hst0
      rcases ih hS' (by omega) k7 h4 with ⟨rfl, rfl, rfl⟩ | ⟨q'', hq'', h5 | h5⟩
      · refine .inr ⟨[v], v ++ g2 ++ [c%','], g3, ?_, by simp, ?_, k6, .cons k3 .nil⟩
        · rw [k1, k5]; simp
        · have := ItemsComma.cons (item := fun (v : Bytes) (t : Bytes) => v = t) (g1 := []) (v := v) .nil k2 rfl k4 .nil
          simpa using this
      · obtain ⟨L1, L2, ts, r, rfl, h6, h7, h8⟩ := h5
        rw [hq'] at hq''
        simp only [List.cons.injEq, true_and] at hq''
        subst hq''
        refine .inl ⟨d :: L1, L2, v :: ts, v ++ g2 ++ c%',' :: (g3 ++ r), rfl, ?_, ?_, .cons k3 h8⟩
        · rw [k1, k5, h6]; simp
        · have := Items1.more (item := fun (v : Bytes) (t : Bytes) => v = t) (g1 := []) (v := v) .nil k2 rfl k4 (items1_gap k6 h7)
          simpa using this
      · obtain ⟨ts, r, g, h6, h7, h8, h9, h10⟩ := h5
        refine .inr ⟨v :: ts, v ++ g2 ++ c%',' :: (g3 ++ r), g, ?_, by simp, ?_, h9, .cons k3 h10⟩
        · rw [k1, k5, h6]; simp
        · have := ItemsComma.cons (item := fun (v : Bytes) (t : Bytes) => v = t) (g1 := []) (v := v) .nil k2 rfl k4 (itemsComma_gap k6 h7 h8)
          simpa using this
    · rename_i hb
      obtain ⟨q', hq', rfl, rfl, rfl⟩ := amembersEnd_inv he (s1.trans s2) hA
      simp only [List.cons.injEq] at hq'
      obtain ⟨rfl, rfl⟩ := hq'
      obtain ⟨v, g2, k1, k2, k3, k4⟩ := item (.refl _) (.inl rfl)
      refine ⟨q, rfl, .inl ⟨[d], L, [v], v ++ g2 ++ [c%']'], rfl, by rw [k1]; simp, ?_, .cons k3 .nil⟩⟩
      have := Items1.last (item := fun (v : Bytes) (t : Bytes) => v = t) (R := c%']') (g1 := []) (v := v) .nil k2 rfl k4
      simpa using this

theorem deObjectArray_inv {dflt : τ} {L : List (DEntry τ)} (hS : ∀ d ∈ L, Accepts d.entry.ref.ser d.den)
    {t t' : τ} {s p : Bytes} {e : EPtr} (he : e.Clean) (hmax : s.length ≤ intMax)
    (h : deObjectArray dflt (L.map fun d => d.entry.toAMember) t s e = .ok (t', p, e)) :
    ∃ r, s = r ++ p ∧ ObjArrDen dflt L t t' r := by
  unfold deObjectArray at h
  split at h
  · simp only [Out.ok.injEq, Prod.mk.injEq] at h
    have := parseNull_acc_iff.mp (Acc.of_clean (parseNull_scan s) he (e' := e) (p := p) (Prod.ext h.2.1 h.2.2) he.not_failed)
    exact ⟨_, this, .inl ⟨rfl, h.1.symm⟩⟩
  · cases s with
    | nil =>
      simp only [Out.ok.injEq, Prod.mk.injEq] at h
      exact (he.no_error (by decide) h.2.2).elim
    | cons b q =>
      simp only at h
      split at h
      · simp only [Out.ok.injEq, Prod.mk.injEq] at h
        exact (he.no_error (by decide) h.2.2).elim
      · rename_i hb
        have hb : b = c%'[' := Classical.not_not.mp hb
        subst hb
        simp only [List.length_cons] at hmax
        unfold objectArrayBody at h
        cases hp1 : parseSpace q e with
        | mk p1 e1 =>
        have s1 := Steps.space hp1
        have suf1 := (parseSpace_scan q).suffix e
        rw [hp1] at h suf1
        cases p1 with
        | nil =>
          simp only [Out.ok.injEq, Prod.mk.injEq] at h
          exact (he.absurd s1 (by decide) h.2.2).elim
        | cons b1 q1 =>
          simp only at h
          split at h
          · rename_i hb
            obtain ⟨⟨t2, p2, e2⟩, h2, hA⟩ := Out.bind_eq_ok.mp h
            clear h
            have s2 := (SafeOut.step (deAMembers_safe (U := True) (asafe_of hS) _ _ _) h2).2
            simp only at hA
            cases p2 with
            | nil =>
              simp only [Out.ok.injEq, Prod.mk.injEq] at hA
              exact (he.absurd (s1.trans s2) (by decide) hA.2.2).elim
            | cons b2 q2 =>
              simp only at hA
              cases hp3 : parseSpace (b2 :: q2) e2 with
              | mk p3 e3 =>
              have s3 := Steps.space hp3
              rw [hp3] at hA
              cases p3 with
              | nil =>
                simp only [Out.ok.injEq, Prod.mk.injEq] at hA
                exact (he.absurd (s1.trans (s2.trans s3)) (by decide) hA.2.2).elim
              | cons b3 q3 =>
                simp only at hA
                obtain ⟨h3, rfl, rfl⟩ := objectArrayEnd_inv he (s1.trans (s2.trans s3)) hA
                have i2 := he.back (s1.trans s2) s3
                subst i2
                have i1 := he.back s1 s2
                subst i1
                obtain ⟨g, k1, k2, k3⟩ := space_inv he hp1
                have l1 := suf1.length_le
                simp only [List.length_cons] at l1
                rcases deAMembers_inv hS he (by simp; omega) k3 h2 with ⟨rfl, _, h4⟩ | ⟨q', hq', h4⟩
                · obtain ⟨g', k4, k5, _⟩ := space_inv he hp3
                  rw [h4] at k4
                  rw [k4] at k3
                  have := gap_stop k5 k3
                  subst this
                  rw [h3, List.nil_append, List.cons.injEq] at k4
                  exact absurd k4.1 hb
                · rw [hq'] at hp3
                  have : parseSpace (c%']' :: q') e1 = (c%']' :: q', e1) := by
                    simpa using parseSpace_byte .nil (b := c%']') (by decide) q' e1
                  rw [this, h3] at hp3
                  simp only [Prod.mk.injEq, List.cons.injEq, true_and, and_true] at hp3
                  subst hp3
                  rcases h4 with ⟨L1, L2, ts, r, rfl, j1, j2, j3⟩ | ⟨ts, r, g', j1, j2, j3, j4, j5⟩
                  · exact ⟨c%'[' :: (g ++ r), by rw [k1, j1]; simp,
                      .inr (.inr (.inl ⟨L1, L2, ts, g ++ r, rfl, rfl, items1_gap k2 j2, j3⟩))⟩
                  · exact ⟨c%'[' :: (g ++ r ++ g' ++ b!"]"), by rw [k1, j1, hq']; simp,
                      .inr (.inr (.inr ⟨ts, g ++ r, g', rfl, j2, itemsComma_gap k2 j2 j3, j4, j5⟩))⟩
          · rename_i hb
            obtain ⟨h3, rfl, rfl⟩ := objectArrayEnd_inv he s1 h
            obtain ⟨g, k1, k2, _⟩ := space_inv he hp1
            exact ⟨c%'[' :: (g ++ b!"]"), by rw [k1, h3]; simp, .inr (.inl ⟨g, rfl, k2, rfl⟩)⟩

theorem amembers_last {L : List (DEntry τ)} (hS : ∀ d ∈ L, Accepts d.entry.ref.ser d.den) {L1 L2 : List (DEntry τ)} (hL : L = L1 ++ L2)
    {ts : List Bytes} {r : Bytes} (h : Items1 (fun v t => v = t) c%']' ts r) {t t' : τ} (hp : Positional L1 ts t t')
    (hmax : r.length ≤ intMax) {e : EPtr} (he : e.failed = false) (q : Bytes) :
    ∃ g w, r ++ q = g ++ w ∧ Gap g ∧ (∃ v x, w = v ++ x ∧ Start v) ∧
      deAMembers (L.map fun d => d.entry.toAMember) t w e = .ok (t', c%']' :: q, e) := by
  induction h generalizing L L1 t with
  | @last g1 v t1 g2 h1 h2 h3 h4 =>
    cases hp with
    | @cons d L1 _ _ _ t2 _ hst hp =>
    cases hp
    subst h3 hL
    have hend : ∀ t : τ, amembersEnd t (c%']' :: q) e = .ok (t, c%']' :: q, e) := by intro t; simp [amembersEnd]
    refine ⟨g1, v ++ (g2 ++ c%']' :: q), by simp, h1, ⟨_, _, rfl, h2⟩, ?_⟩
    simp only [List.length_append] at hmax
    simp only [List.cons_append, List.map_cons, deAMembers]
    rw [aentry_complete (hS d (by simp)) hst (by omega) (delim_gap h4 (by decide) _) he]
    simp only [Out.bind_ok]
    rw [parseSpace_byte h4 (by decide)]
    simp only
    rw [if_neg (by decide)]
    exact hend _
  | @more g1 v t1 g2 vs r h1 h2 h3 h4 h5 ih =>
    cases hp with
    | @cons d L1 _ _ _ t2 _ hst hp =>
    subst h3 hL
    simp only [List.length_append, List.length_cons] at hmax
    obtain ⟨g, _, k1, k2, ⟨v', x', rfl, k3⟩, k5⟩ := ih (L := L1 ++ L2) (fun d hd => hS d (by simp at hd ⊢; simp [hd])) rfl hp (by omega)
    refine ⟨g1, v ++ (g2 ++ c%',' :: (r ++ q)), by simp, h1, ⟨_, _, rfl, h2⟩, ?_⟩
    simp only [List.cons_append, List.map_cons, deAMembers]
    rw [aentry_complete (hS d (by simp)) hst (by omega) (delim_gap h4 (by decide) _) he]
    simp only [Out.bind_ok]
    rw [parseSpace_byte h4 (by decide)]
    simp only
    rw [if_pos trivial, k1, parseSpace_start k2 k3]
    simp only
    rw [k5]
    simp [amembersEnd]

theorem amembers_trail {L : List (DEntry τ)} (hS : ∀ d ∈ L, Accepts d.entry.ref.ser d.den)
    {ts : List Bytes} {r : Bytes} (h : ItemsComma (fun v t => v = t) ts r) (hne : ts ≠ []) {t t' : τ} (hp : Positional L ts t t')
    (hmax : r.length ≤ intMax) {e : EPtr} (he : e.failed = false) {g0 : Bytes} (hg0 : Gap g0) (q : Bytes) :
    ∃ g w, r ++ (g0 ++ c%']' :: q) = g ++ w ∧ Gap g ∧ (∃ v x, w = v ++ x ∧ Start v) ∧
      deAMembers (L.map fun d => d.entry.toAMember) t w e = .ok (t', c%']' :: q, e) := by
  induction h generalizing L t with
  | nil => exact absurd rfl hne
  | @cons g1 v t1 g2 vs r h1 h2 h3 h4 h5 ih =>
    cases hp with
    | @cons d L1 _ _ _ t2 _ hst hp =>
    subst h3
    simp only [List.length_append, List.length_cons] at hmax
    refine ⟨g1, v ++ (g2 ++ c%',' :: (r ++ (g0 ++ c%']' :: q))), by simp, h1, ⟨_, _, rfl, h2⟩, ?_⟩
    simp only [List.map_cons, deAMembers]
    rw [aentry_complete (hS d (by simp)) hst (by omega) (delim_gap h4 (by decide) _) he]
    simp only [Out.bind_ok]
    rw [parseSpace_byte h4 (by decide)]
    simp only
    rw [if_pos trivial]
    cases vs with
    | nil =>
      cases h5
      cases hp
      rw [List.nil_append, parseSpace_byte hg0 (by decide)]
      simp [deAMembers, amembersEnd]
    | cons x vs =>
      obtain ⟨g, _, k1, k2, ⟨v', x', rfl, k3⟩, k5⟩ := ih (L := L1) (fun d hd => hS d (by simp [hd])) (by simp) hp (by omega)
      rw [k1, parseSpace_start k2 k3]
      simp only
      rw [k5]
      simp [amembersEnd]

theorem objectArrayBody_of {L : List (AMember τ)} {t t' : τ} {g w q : Bytes} {e : EPtr} (hg : Gap g) (hw : ∃ v x, w = v ++ x ∧ Start v)
    (h : deAMembers L t w e = .ok (t', c%']' :: q, e)) : objectArrayBody L t (g ++ w) e = .ok (t', q, e) := by
  obtain ⟨v, x, rfl, hv⟩ := hw
  unfold objectArrayBody
  rw [parseSpace_start hg hv]
  obtain ⟨b, w', rfl, _, _, hb, _⟩ := hv
  simp only [List.cons_append] at h ⊢
  rw [if_pos hb, h]
  simp only [Out.bind_ok]
  have : parseSpace (c%']' :: q) e = (c%']' :: q, e) := by
    simpa using parseSpace_byte .nil (b := c%']') (by decide) q e
  rw [this]
  simp [objectArrayEnd]

theorem objectArraySer_complete {dflt : τ} {L : List (DEntry τ)} (hS : ∀ d ∈ L, Accepts d.entry.ref.ser d.den) {v0 v : τ} {t : Bytes}
    (h : ObjArrDen dflt L v0 v t) (ht : t.length ≤ intMax) (rest : Bytes) (e : EPtr) (he : e.failed = false) :
    (objectArraySer dflt (L.map fun d => d.entry.toAMember)).de v0 (t ++ rest) e = .ok (v, rest, e) := by
  simp only [objectArraySer]
  rcases h with ⟨rfl, rfl⟩ | ⟨g, rfl, hg, rfl⟩ | ⟨L1, L2, ts, r, hL, rfl, h1, h2⟩ | ⟨ts, r, g, rfl, h0, h1, h2, h3⟩
  · have := parseNull_ok rest e
    have hn : isNull (b!"null" ++ rest) = true := rfl
    unfold deObjectArray
    rw [if_pos hn, this]
  · simp only [List.cons_append, List.append_assoc, List.nil_append]
    rw [deObjectArray_open]
    unfold objectArrayBody
    rw [parseSpace_byte hg (b := c%']') (by decide) rest e]
    simp [objectArrayEnd]
  · simp only [List.length_cons] at ht
    obtain ⟨g, w, k1, k2, k3, k4⟩ := amembers_last hS hL h1 h2 (by omega) he rest
    rw [List.cons_append, deObjectArray_open, k1]
    exact objectArrayBody_of k2 k3 k4
  · simp only [List.length_cons, List.length_append] at ht
    obtain ⟨g, w, k1, k2, k3, k4⟩ := amembers_trail hS h1 h0 h3 (by omega) he h2 rest
    rw [List.cons_append, deObjectArray_open]
    simp only [List.append_assoc, List.cons_append, List.nil_append] at k1 ⊢
    rw [k1]
    exact objectArrayBody_of k2 k3 k4

theorem objectArraySer_exact {dflt : τ} {L : List (DEntry τ)} (hS : ∀ d ∈ L, Accepts d.entry.ref.ser d.den) :
    Exact (objectArraySer dflt (L.map fun d => d.entry.toAMember)) (ObjArrDen dflt L) := by
  refine { safe := ?_, sound := ?_, complete := ?_, head := ?_, null := ?_ }
  · exact deObjectArray_safe (asafe_of hS)
  · intro v0 v s p e he hs _ h
    exact deObjectArray_inv hS he hs h
  · exact fun h ht rest e he _ => objectArraySer_complete hS h ht rest e he
  · rintro v0 v t (⟨rfl, _⟩ | ⟨g, rfl, _⟩ | ⟨L1, L2, ts, r, _, rfl, _⟩ | ⟨ts, r, g, rfl, _⟩) <;>
      exact headed_of_byte (by decide)
  · intro v0 v s p e he hn h
    simp only [objectArraySer] at h
    unfold deObjectArray at h
    rw [if_pos (by simp [isNull, hn])] at h
    simp only [Out.ok.injEq, Prod.mk.injEq] at h
    exact parseNull_acc_iff.mp (Acc.of_clean (parseNull_scan s) he (e' := e) (p := p) (Prod.ext h.2.1 h.2.2) he.not_failed)

end

end Wjson
