import Verif.Spec.Alternatives
import Verif.Proofs.Meaning
import Verif.Proofs.ObjectArray
/-
What a description with alternatives reads without error is a text of its
denotation.
-/
namespace Wjson
open Spec

/-! ### Names -/

/-- The error argument has no influence on where the comparison of a name ends. -/
theorem memberName_det (n s : Bytes) (u : Bool) :
    ∃ q ev u', (∀ x, ev = some x → x.code ≠ .ValidJSON) ∧ ∀ e, memberName n s e u = (q, applyErr e ev, u') := by
  unfold memberName
  cases s with
  | nil => exact ⟨_, some ⟨.ExpectedOf, _, _⟩, _, by simp, fun e => rfl⟩
  | cons b t =>
    simp only
    split
    · exact ⟨_, some ⟨.ExpectedOf, _, _⟩, _, by simp, fun e => rfl⟩
    · generalize nameLoop n t = r
      obtain ⟨r1, p⟩ := r
      simp only
      cases p with
      | nil => exact ⟨_, some ⟨.UnexpectedEndFragment, _, _⟩, _, by simp, fun e => rfl⟩
      | cons b' p =>
        simp only
        split
        · exact ⟨_, none, _, by simp, fun e => rfl⟩
        · obtain ⟨p2, ev2, h2, g2⟩ := parseSpace_scan p
          simp only [h2]
          have comp : ∀ (ev2 : Option JError) (x : JError), (∀ x, ev2 = some x → x.code ≠ .ValidJSON) → x.code ≠ .ValidJSON →
              ∃ ev, (∀ x, ev = some x → x.code ≠ .ValidJSON) ∧ ∀ e, applyErr (applyErr e ev2) (some x) = applyErr e ev := by
            intro ev2 x h hx
            cases ev2 with
            | none => exact ⟨some x, by rintro _ ⟨⟩; exact hx, fun _ => rfl⟩
            | some y => exact ⟨some y, h, fun e => applyErr_applyErr e y (h y rfl) _⟩
          have c2 : ∀ x, ev2 = some x → x.code ≠ .ValidJSON := fun x hx => (g2.err x hx).1
          cases p2 with
          | nil =>
            obtain ⟨ev, h3, h4⟩ := comp ev2 ⟨.UnexpectedEndFragment, none, 0⟩ c2 (by decide)
            exact ⟨_, ev, _, h3, fun e => by rw [← h4 e]; rfl⟩
          | cons b2 p2 =>
            simp only
            split
            · obtain ⟨ev, h3, h4⟩ := comp ev2 ⟨.ExpectedOf, some b!":", ((b2 :: p2).length : Nat)⟩ c2 (by simp)
              exact ⟨_, ev, _, h3, fun e => by rw [← h4 e]; rfl⟩
            · obtain ⟨p3, ev3, h3, g3⟩ := parseSpace_scan p2
              simp only [h3]
              have c3 : ∀ x, ev3 = some x → x.code ≠ .ValidJSON := fun x hx => (g3.err x hx).1
              obtain ⟨ev23, h5, h6⟩ : ∃ ev, (∀ x, ev = some x → x.code ≠ .ValidJSON) ∧
                  ∀ e, applyErr (applyErr e ev2) ev3 = applyErr e ev := by
                cases ev3 with
                | none => exact ⟨ev2, c2, fun _ => rfl⟩
                | some y => exact comp ev2 y c2 (c3 y rfl)
              cases p3 with
              | nil =>
                obtain ⟨ev, h7, h8⟩ := comp ev23 ⟨.UnexpectedEndFragment, none, 0⟩ h5 (by decide)
                exact ⟨_, ev, _, h7, fun e => by rw [← h8 e, ← h6 e]; rfl⟩
              | cons b3 p3 => exact ⟨_, ev23, _, h5, fun e => by rw [← h6 e]⟩

theorem memberName_found {n s : Bytes} {e : EPtr} (h : (memberName n s e false).2.2 = true) :
    memberName n s e true = memberName n s e false := by
  unfold memberName at h ⊢
  cases s with
  | nil => cases h
  | cons b t =>
    simp only at h ⊢
    split
    · rename_i hb
      rw [if_pos hb] at h
      cases h
    · rfl

section
variable {τ : Type} {c : Cfg} {strict : Bool}

theorem readNull_nulled {o : MRef τ} {D : Den o.α} {f : Bool} (hS : SoundsNull f o.ser D) {t t' : τ} (h : readNull o t = .ok t') :
    Nulled o D t t' := by
  obtain ⟨⟨x, p, e⟩, h1, h2⟩ := Out.bind_eq_ok.mp h
  simp only [Out.ok.injEq] at h2
  refine ⟨x, h2.symm, fun y hy => ?_⟩
  have := hS.reads hy [] .null rfl (by intro b hb; cases hb)
  rw [List.append_nil, h1] at this
  cases this
  rfl

/-! ### A place of an object -/

/-- How a place behaves when nothing is reported: `stores` is what its text does,
`passed` what another key does. -/
structure Behaves (m : Member τ) (name : Bytes) (stores : Den τ) (passed : τ → τ → Prop) : Prop where
  safe : MSafe True m
  inv : ∀ {t t1 s p e u}, e.Clean → m.de t s e false = .ok (t1, p, e, u) →
    (u = true ∧ ∃ g1 g2 w, s = quoted name ++ (g1 ++ c%':' :: (g2 ++ w)) ∧ Gap g1 ∧ Gap g2 ∧
      (w.length ≤ intMax → Delim p → p ≠ [] → ∃ v, w = v ++ p ∧ Start v ∧ stores t t1 v)) ∨
    (u = false ∧ passed t t1 ∧ p = s ∧ s.head? = some c%'"' ∧ ∀ rest, s ≠ quoted name ++ rest)

theorem Behaves.step {m : Member τ} {name : Bytes} {stores : Den τ} {passed : τ → τ → Prop} (h : Behaves m name stores passed) {t t1 : τ}
    {s p : Bytes} {e e1 : EPtr} {u u1 : Bool} (hr : m.de t s e u = .ok (t1, p, e1, u1)) : p <:+ s ∧ Steps e e1 := by
  rcases h.safe t s e u with ⟨h1, _⟩ | ⟨_, _, _, _, h1, h2, h3⟩
  · rw [h1] at hr; cases hr
  · rw [h1] at hr; cases hr; exact ⟨h2, _, h3⟩

theorem entry_behaves {d : DEntry τ} (hS : Sounds false d.entry.ref.ser d.den) (hn : c%'"' ∉ d.name) :
    Behaves d.entry.toMember d.name d.stores (fun t t' => t' = t) where
  safe := Entry.safe hS.safe
  inv := by
    intro t t1 s p e u he h
    have key : (u = true ∧ ∃ g1 g2 w x, s = quoted d.name ++ (g1 ++ c%':' :: (g2 ++ w)) ∧ Gap g1 ∧ Gap g2 ∧ SpaceStop w ∧
        d.entry.ref.ser.de (d.entry.start t) w e = .ok (x, p, e) ∧ t1 = d.entry.ref.set x t) ∨
        (u = false ∧ t1 = t ∧ p = s ∧ s.head? = some c%'"' ∧ ∀ rest, s ≠ quoted d.name ++ rest) := by
      obtain ⟨en, den⟩ := d
      cases en with
      | mem m => exact mref_inv hS.safe hn he h
      | prop m => exact mref_inv hS.safe hn he h
    rcases key with ⟨h1, g1, g2, w, x, k1, k2, k3, k4, k5, k6⟩ | h1
    · refine .inl ⟨h1, g1, g2, w, k1, k2, k3, fun hw hd hp => ?_⟩
      obtain ⟨v, j1, j2, j3⟩ := member_text hS he k4 hw hd hp k5
      exact ⟨v, j1, j2, by rw [k6]; exact j3⟩
    · exact .inr h1

/-- `member_if`: `a` is tried first. -/
theorem deMemberIf_inv {a b : MRef τ} {Da : Den a.α} {Db : Den b.α} {fa fb ex : Bool} (hA : SoundsNull fa a.ser Da)
    (hB : SoundsNull fb b.ser Db) (hx : ex = true → Accepts a.ser Da) (hab : a.name = b.name) (hn : c%'"' ∉ a.name) {t t1 : τ} {s p : Bytes}
    {e : EPtr} {u : Bool} (he : e.Clean) (h : deMemberIf a b t s e false = .ok (t1, p, e, u)) :
    (u = true ∧ ∃ g1 g2 w, s = quoted a.name ++ (g1 ++ c%':' :: (g2 ++ w)) ∧ Gap g1 ∧ Gap g2 ∧
      (w.length ≤ intMax → Delim p → p ≠ [] → ∃ v, w = v ++ p ∧ Start v ∧ AltStores a b Da Db ex t t1 v)) ∨
    (u = false ∧ Nulled b Db t t1 ∧ p = s ∧ s.head? = some c%'"' ∧ ∀ rest, s ≠ quoted a.name ++ rest) := by
  obtain ⟨⟨t2, p2, e2, u2⟩, h1, hA1⟩ := Out.bind_eq_ok.mp h
  clear h
  simp only at hA1
  cases hf : e2.failed with
  | false =>
    rw [hf] at hA1
    simp only [Bool.not_false, if_true] at hA1
    obtain ⟨t3, h3, h4⟩ := Out.bind_eq_ok.mp hA1
    simp only [Out.ok.injEq, Prod.mk.injEq] at h4
    obtain ⟨rfl, rfl, -, rfl⟩ := h4
    have i2 : e2 = .fresh := by
      have s1 : Steps .fresh e2 := by
        rcases Entry.safe (en := .mem a) hA.safe t s .fresh false with ⟨k, _⟩ | ⟨_, _, _, _, k, _, k3⟩
        · have k : deMember a t s .fresh false = .ub := k
          rw [k] at h1; cases h1
        · have k : deMember a t s .fresh false = _ := k
          rw [k] at h1; cases h1; exact ⟨_, k3⟩
      obtain ⟨n, s1⟩ := s1
      rcases s1.clean EPtr.fresh_clean with k | k
      · exact k
      · rw [hf] at k; cases k
    subst i2
    have hnull := readNull_nulled hB h3
    rcases mref_inv hA.safe hn EPtr.fresh_clean h1 with ⟨rfl, g1, g2, w, x, k1, k2, k3, k4, k5, k6⟩ | ⟨rfl, rfl, rfl, k1, k2⟩
    · refine .inl ⟨rfl, g1, g2, w, k1, k2, k3, fun hw hd hp => ?_⟩
      obtain ⟨v, j1, j2⟩ := hA.sound EPtr.fresh_clean hw hd (.inr hp) k5
      rw [j1] at k4
      exact ⟨v, j1, start_of_headed (hA.head j2) k4, .inl ⟨x, j2, by rw [← k6]; exact hnull⟩⟩
    · exact .inr ⟨rfl, hnull, rfl, k1, k2⟩
  | true =>
    rw [hf] at hA1
    simp only [Bool.not_true, Bool.false_eq_true, if_false] at hA1
    obtain ⟨t3, h3, h4⟩ := Out.bind_eq_ok.mp hA1
    clear hA1
    have hnull := readNull_nulled hA h3
    obtain ⟨q, ev, u', hev, hdet⟩ := memberName_det a.name s false
    unfold deMember at h1
    rw [hdet] at h1
    have hstep : ∀ {t4 p4 e4 u4 v}, deMember b t3 s v u2 = .ok (t4, p4, e4, u4) →
        Steps (memberName b.name s v u2).2.1 e4 := by
      intro t4 p4 e4 u4 v hv
      unfold deMember at hv
      simp only at hv
      split at hv
      · simp only [Out.ok.injEq, Prod.mk.injEq] at hv
        rw [hv.2]
        exact .refl _
      · obtain ⟨⟨x, p5, e5⟩, h5, h6⟩ := Out.bind_eq_ok.mp hv
        simp only [Out.ok.injEq, Prod.mk.injEq] at h6
        obtain ⟨_, _, rfl, _⟩ := h6
        exact (hB.safe.step h5).2
    cases u' with
    | false =>
      simp only [Bool.not_false, if_true, Out.ok.injEq, Prod.mk.injEq] at h1
      obtain ⟨rfl, rfl, rfl, rfl⟩ := h1
      have hst := hstep h4
      rw [← hab, hdet] at hst
      cases ev with
      | none => cases hf
      | some x =>
        have h5 := he.applyErr_failed (hev x rfl)
        obtain ⟨n, hst⟩ := hst
        have := hst.failed_mono h5
        rw [he.not_failed] at this
        cases this
    | true =>
      simp only [Bool.not_true, Bool.false_eq_true, if_false] at h1
      obtain ⟨⟨j, p5, e5⟩, h5, h6⟩ := Out.bind_eq_ok.mp h1
      simp only [Out.ok.injEq, Prod.mk.injEq] at h6
      obtain ⟨rfl, rfl, rfl, rfl⟩ := h6
      have hfound : memberName b.name s e true = memberName b.name s e false := by
        refine memberName_found ?_
        rw [← hab, hdet]
      have hst := hstep h4
      rw [hfound, ← hab, hdet] at hst
      have hev0 : ev = none := by
        cases ev with
        | none => rfl
        | some x =>
          have h7 := he.applyErr_failed (hev x rfl)
          obtain ⟨n, hst⟩ := hst
          have := hst.failed_mono h7
          rw [he.not_failed] at this
          cases this
      subst hev0
      have h4' : deMember b t3 s e false = .ok (t1, p, e, u) := by
        unfold deMember at h4 ⊢
        rw [hfound] at h4
        exact h4
      have hm : memberName b.name s e false = (q, e, true) := by
        rw [← hab]
        exact hdet e
      unfold deMember at h4'
      rw [hm] at h4'
      simp only [Bool.not_true, Bool.false_eq_true, if_false] at h4'
      obtain ⟨⟨x, p6, e6⟩, k5, h8⟩ := Out.bind_eq_ok.mp h4'
      simp only [Out.ok.injEq, Prod.mk.injEq] at h8
      obtain ⟨k6, rfl, rfl, rfl⟩ := h8
      rcases memberName_inv (hab ▸ hn) he hm with ⟨_, g1, g2, k1, k2, k3, k4⟩ | ⟨k, _⟩
      · refine .inl ⟨rfl, g1, g2, q, by rw [k1, hab], k2, k3, fun hw hd hp => ?_⟩
        obtain ⟨v, j1, j2⟩ := hB.sound he hw hd (.inr hp) k5
        rw [j1] at k4
        refine ⟨v, j1, start_of_headed (hB.head j2) k4, .inr ⟨j, t3, x, ?_, hnull, j2, k6.symm⟩⟩
        intro hex y hy
        have hv : v.length ≤ intMax := by rw [j1, List.length_append] at hw; omega
        have := (hx hex).complete hy hv p6 .fresh rfl hd
        rw [← j1] at this
        rw [show applyErr EPtr.fresh none = .fresh from rfl, this] at h5
        cases h5
        cases hf
      · cases k


/-! ### All places of an object -/

/-- What the search finds. -/
theorem searchSlots_inv {l : List (DSlot τ)} (hB : ∀ d ∈ l, Behaves d.slot.toMember d.name d.stores d.passed)
    {t t1 : τ} {s p : Bytes} {e : EPtr} (he : e.Clean) (hq : s.head? = some c%'"')
    (h : searchMembers c strict (l.map fun d => d.slot.toMember) t s e = .ok (t1, p, e)) :
    (∃ d l1 l2 t0, l = l1 ++ d :: l2 ∧ (∀ y ∈ l1, ∀ rest, s ≠ quoted y.name ++ rest) ∧ PassedAll l1 t t0 ∧
      ∃ g1 g2 w, s = quoted d.name ++ (g1 ++ c%':' :: (g2 ++ w)) ∧ Gap g1 ∧ Gap g2 ∧
      (w.length ≤ intMax → Delim p → p ≠ [] → ∃ v, w = v ++ p ∧ Start v ∧ d.stores t0 t1 v)) ∨
    (strict = false ∧ PassedAll l t t1 ∧ (∀ d ∈ l, ∀ rest, s ≠ quoted d.name ++ rest) ∧
      ∃ k v g1 g2 g3, s = quoted k ++ (g1 ++ c%':' :: (g2 ++ (v ++ (g3 ++ p)))) ∧ Gap g1 ∧ Gap g2 ∧ Gap g3 ∧ SpaceStop p ∧
        Skippable (k, v)) := by
  induction l generalizing t with
  | nil =>
    simp only [List.map_nil, searchMembers] at h
    right
    split at h
    · rename_i hst
      obtain ⟨⟨p1, e1⟩, h1, h⟩ := Out.bind_eq_ok.mp h
      obtain ⟨_, s1⟩ := parseMember_step h1
      simp only [Out.ok.injEq, Prod.mk.injEq] at h
      obtain ⟨rfl, h2, h3⟩ := h
      have hp : parseSpace p1 e1 = (p, e) := Prod.ext h2 h3
      have := he.back s1 (Steps.space hp)
      subst this
      obtain ⟨k, v, g1, g2, k1, k2, k3, k4⟩ := parseMember_inv he h1
      obtain ⟨g3, k5, k6, k7⟩ := space_inv he hp
      exact ⟨by simpa using hst, .nil, by simp, k, v, g1, g2, g3, by rw [k1, k5], k2, k3, k6, k7, k4⟩
    · cases s with
      | nil => cases hq
      | cons b q =>
        simp at hq
        subst hq
        simp only at h
        rw [if_neg (by decide)] at h
        simp only [Out.ok.injEq, Prod.mk.injEq] at h
        exact (he.no_error (by decide) h.2.2).elim
  | cons d l ih =>
    simp only [List.map_cons, searchMembers] at h
    obtain ⟨⟨t2, p2, e2, u⟩, h1, hx⟩ := Out.bind_eq_ok.mp h
    clear h
    have s1 := ((hB d (by simp)).step h1).2
    simp only at hx
    cases u with
    | true =>
      simp only [if_true, Out.ok.injEq, Prod.mk.injEq] at hx
      obtain ⟨rfl, rfl, rfl⟩ := hx
      rcases (hB d (by simp)).inv he h1 with ⟨_, k⟩ | ⟨h, _⟩
      · exact .inl ⟨d, [], l, t, rfl, by simp, .nil, k⟩
      · cases h
    | false =>
      simp only [Bool.false_eq_true, if_false] at hx
      have s2 : Steps e2 e := (SafeOut.step (searchMembers_safe (U := True) (c := c) (strict := strict) (fun _ => trivial)
        (l := l.map fun d => d.slot.toMember) (by
          intro m hm
          obtain ⟨d', hd', rfl⟩ := List.mem_map.mp hm
          exact (hB d' (by simp [hd'])).safe) t2 p2 e2) hx).2
      have := he.back s1 s2
      subst this
      rcases (hB d (by simp)).inv he h1 with ⟨h, _⟩ | ⟨_, k0, rfl, _, k1⟩
      · cases h
      · rcases ih (fun d hd => hB d (by simp [hd])) hx with ⟨d', l1, l2, t0, rfl, j1, j2, j3⟩ | ⟨j1, j2, j3, j4⟩
        · refine .inl ⟨d', d :: l1, l2, t0, rfl, ?_, .cons k0 j2, j3⟩
          intro y hy
          rcases List.mem_cons.mp hy with rfl | hy
          · exact k1
          · exact j1 y hy
        · refine .inr ⟨j1, .cons k0 j2, ?_, j4⟩
          intro d' hd'
          rcases List.mem_cons.mp hd' with rfl | hd'
          · exact k1
          · exact j3 d' hd'

theorem slotsF_inv {L : List (DSlot τ)} (hB : ∀ d ∈ L, Behaves d.slot.toMember d.name d.stores d.passed) (n : Nat)
    (l : List (DSlot τ)) (hl : ∀ d ∈ l, d ∈ L) (t t' : τ) (s p : Bytes) {e : EPtr} (he : e.Clean) (hlen : s.length < n)
    (hmax : s.length ≤ intMax) (hstop : SpaceStop s)
    (h : membersF c strict (L.map fun d => d.slot.toMember) n (l.map fun d => d.slot.toMember) t s e = .ok (t', p, e)) :
    ∃ q, p = c%'}' :: q ∧
      ((∃ items o, ItemsThen p items s ∧ SlotRun strict L l items t t' o) ∨
       (∃ items g, Gap g ∧ ItemsThen (c%',' :: (g ++ p)) items s ∧ SlotRun strict L l items t t' (some [])) ∨
       (l = [] ∧ t' = t ∧ s = p)) := by
  have hmem : ∀ m ∈ L.map (fun d : DSlot τ => d.slot.toMember), MSafe True m := by
    intro m hm
    obtain ⟨d', hd', rfl⟩ := List.mem_map.mp hm
    exact (hB d' hd').safe
  induction n generalizing l t s p with
  | zero => omega
  | succ n ih =>
    cases l with
    | nil =>
      simp only [List.map_nil, membersF] at h
      obtain ⟨⟨p1, e1⟩, h1, h⟩ := Out.bind_eq_ok.mp h
      simp only [Out.ok.injEq, Prod.mk.injEq] at h
      obtain ⟨rfl, rfl, rfl⟩ := h
      obtain ⟨q, hq, h2⟩ := skipMembers_inv he hstop h1
      refine ⟨q, hq, ?_⟩
      rcases h2 with h2 | ⟨h2, items, h3, h4⟩
      · exact .inr (.inr ⟨rfl, rfl, h2⟩)
      · left
        refine ⟨items, none, h3, ?_⟩
        cases items with
        | nil => cases h3
        | cons x items => exact .rest h2 h4
    | cons d l =>
      have hd : d ∈ L := hl d (by simp)
      simp only [List.map_cons, membersF] at h
      obtain ⟨⟨t1, p1, e1, u⟩, h1, hA⟩ := Out.bind_eq_ok.mp h
      clear h
      obtain ⟨suf1, s1⟩ := (hB d hd).step h1
      obtain ⟨⟨t2, p2, e2⟩, h2, hC⟩ := Out.bind_eq_ok.mp hA
      clear hA
      have hx : p2 <:+ p1 ∧ Steps e1 e2 := by
        cases u with
        | true =>
          simp only [if_true, Out.ok.injEq, Prod.mk.injEq] at h2
          obtain ⟨_, rfl, rfl⟩ := h2
          exact ⟨List.suffix_refl _, .refl _⟩
        | false =>
          simp only [Bool.false_eq_true, if_false] at h2
          exact SafeOut.step (searchMembers_safe (U := True) (fun _ => trivial) hmem t1 p1 e1) h2
      obtain ⟨suf2, s2⟩ := hx
      cases hp3 : parseSpace p2 e2 with
      | mk p3 e3 =>
      have s3 := Steps.space hp3
      have suf3 := (parseSpace_scan p2).suffix e2
      simp only at hC
      rw [hp3] at hC suf3
      cases p3 with
      | nil =>
        simp only [Out.ok.injEq, Prod.mk.injEq] at hC
        exact (he.absurd (s1.trans (s2.trans s3)) (by decide) hC.2.2).elim
      | cons b q3 =>
      have lens := ((suf3.trans suf2).trans suf1).length_le
      simp only [List.length_cons] at lens
      -- the item, once the errors are known to be unchanged
      have item : Steps e3 e → (b = c%',' ∨ b = c%'}') →
          ∃ k v g1 g2 g3, s = quoted k ++ (g1 ++ c%':' :: (g2 ++ (v ++ (g3 ++ b :: q3)))) ∧ Gap g1 ∧ Gap g2 ∧ Start v ∧ Gap g3 ∧
            ((u = true ∧ k = d.name ∧ d.stores t t2 v) ∨
             (u = false ∧ ∃ t0, d.passed t t0 ∧ ((∃ d' L1 L2 t5, L = L1 ++ d' :: L2 ∧ (∀ x ∈ L1, x.name ≠ d'.name) ∧ k = d'.name ∧
                d.name ≠ d'.name ∧ PassedAll L1 t0 t5 ∧ d'.stores t5 t2 v) ∨
               (strict = false ∧ k ∉ L.map DSlot.name ∧ Skippable (k, v) ∧ PassedAll L t0 t2)))) := by
        intro s4 hb
        have i3 := he.back (s1.trans (s2.trans s3)) s4
        subst i3
        have i2 := he.back (s1.trans s2) s3
        subst i2
        have i1 := he.back s1 s2
        subst i1
        obtain ⟨g3, k1, k2, _⟩ := space_inv he hp3
        have hdl : Delim p2 := by
          rw [k1]
          refine delim_gap k2 ?_ _
          rcases hb with rfl | rfl <;> simp
        have hne2 : p2 ≠ [] := by rw [k1]; simp
        rcases (hB d hd).inv he h1 with ⟨rfl, g1, g2, w, j1, j2, j3, j4⟩ | ⟨rfl, hpass, rfl, hq, hne⟩
        · simp only [if_true, Out.ok.injEq, Prod.mk.injEq, and_true] at h2
          obtain ⟨rfl, rfl⟩ := h2
          have hw : w.length ≤ intMax := by
            have := congrArg List.length j1
            simp only [List.length_append, List.length_cons] at this
            omega
          obtain ⟨v, k3, k4, k5⟩ := j4 hw hdl hne2
          refine ⟨d.name, v, g1, g2, g3, ?_, j2, j3, k4, k2, .inl ⟨rfl, rfl, k5⟩⟩
          rw [j1, k3, k1]
        · simp only [Bool.false_eq_true, if_false] at h2
          rcases searchSlots_inv hB he hq h2 with ⟨d', L1, L2, t0, hL, j0, jp, g1, g2, w, j1, j2, j3, j4⟩ |
              ⟨j1, j2, j3, k, v, g1, g2, g4, j4, j5, j6, j7, j8, j9⟩
          · have hw : w.length ≤ intMax := by
              have := congrArg List.length j1
              simp only [List.length_append, List.length_cons] at this
              omega
            obtain ⟨v, k3, k4, k5⟩ := j4 hw hdl hne2
            refine ⟨d'.name, v, g1, g2, g3, by rw [j1, k3, k1], j2, j3, k4, k2,
              .inr ⟨rfl, _, hpass, .inl ⟨d', L1, L2, t0, hL, ?_, rfl, ?_, jp, k5⟩⟩⟩
            · intro x hx hnn
              exact j0 x hx _ (by rw [j1, hnn])
            · intro hnn
              exact hne _ (by rw [j1, hnn])
          · have hg3 : g3 = [] := gap_stop k2 (by rw [← k1]; exact j8)
            subst hg3
            refine ⟨k, v, g1, g2, g4, by rw [j4, k1]; rfl, j5, j6, start_of_xvalue j9.2, j7, .inr ⟨rfl, _, hpass, .inr ⟨j1, ?_, j9, j2⟩⟩⟩
            intro hk
            obtain ⟨d', hd', rfl⟩ := List.mem_map.mp hk
            exact j3 d' hd' _ j4
      simp only at hC
      split at hC
      · rename_i hb
        subst hb
        cases hp4 : parseSpace q3 e3 with
        | mk p4 e4 =>
        have s4 := Steps.space hp4
        have suf4 := (parseSpace_scan q3).suffix e3
        rw [hp4] at hC suf4
        simp only at hC suf4
        have l4 := suf4.length_le
        obtain ⟨⟨t5, p5, e5⟩, h5, h6⟩ := Out.bind_eq_ok.mp hC
        clear hC
        have hcur : (if u = true then l.map (fun d => d.slot.toMember) else d.slot.toMember :: l.map fun d => d.slot.toMember) =
            (if u = true then l else d :: l).map fun d => d.slot.toMember := by cases u <;> rfl
        rw [hcur] at h5
        have hl' : ∀ d' ∈ (if u = true then l else d :: l), d' ∈ L := by
          intro d' hd'
          cases u with
          | true => exact hl d' (by simp at hd'; simp [hd'])
          | false => exact hl d' (by simpa using hd')
        have s5 : Steps e4 e5 := (SafeOut.step (membersF_safe (U := True) (c := c) (strict := strict) (fun _ => trivial) hmem n
          (l := (if u = true then l else d :: l).map fun d => d.slot.toMember) (by
            intro m hm
            obtain ⟨d', hd', rfl⟩ := List.mem_map.mp hm
            exact (hB d' (hl' d' hd')).safe) t2 p4 e4 (by omega)) h5).2
        have s45 := s1.trans (s2.trans (s3.trans s4))
        obtain ⟨⟨q, hq⟩, rfl, rfl, rfl⟩ := membersEnd_inv he (s45.trans s5) h6
        have i4 := he.back s45 s5
        subst i4
        obtain ⟨k, v, g1, g2, g3, k1, k2, k3, k4, k5, hk⟩ := item s4 (.inl rfl)
        have i3 := he.back (s1.trans (s2.trans s3)) s4
        subst i3
        obtain ⟨g4, k6, k7, k8⟩ := space_inv he hp4
        obtain ⟨q', hq', ih⟩ := ih _ hl' t2 p4 _ (by omega) (by omega) k8 h5
        refine ⟨q', hq', ?_⟩
        have step : ∀ {items o}, SlotRun strict L (if u = true then l else d :: l) items t2 t' o →
            SlotRun strict L (d :: l) ((k, v) :: items) t t' o := by
          intro items o hr
          rcases hk with ⟨rfl, rfl, j⟩ | ⟨rfl, t0, jp, ⟨d', L1, L2, t5, j1, j2, rfl, j3, j4, j5⟩ | ⟨j1, j2, j3, j4⟩⟩
          · exact .next j (by simpa using hr)
          · exact .other j1 j2 j3 jp j4 j5 (by simpa using hr)
          · exact .unknown j1 j2 j3 jp j4 (by simpa using hr)
        rcases ih with ⟨items, o, j1, j2⟩ | ⟨items, g, j1, j2, j3⟩ | ⟨j1, rfl, j3⟩
        · exact .inl ⟨(k, v) :: items, o, by rw [k1, k6]; exact .more k2 k3 k4 k5 k7 j1, step j2⟩
        · exact .inr (.inl ⟨(k, v) :: items, g, j1, by rw [k1, k6]; exact .more k2 k3 k4 k5 k7 j2, step j3⟩)
        · refine .inr (.inl ⟨[(k, v)], g4, k7, by rw [k1, k6, j3]; exact .one k2 k3 k4 k5, ?_⟩)
          refine step ?_
          rw [j1]
          exact .done
      · rename_i hb
        obtain ⟨⟨q, hq⟩, rfl, rfl, rfl⟩ := membersEnd_inv he (s1.trans (s2.trans s3)) hC
        simp only [List.cons.injEq] at hq
        obtain ⟨rfl, rfl⟩ := hq
        obtain ⟨k, v, g1, g2, g3, k1, k2, k3, k4, k5, hk⟩ := item (.refl _) (.inr rfl)
        refine ⟨q3, rfl, .inl ?_⟩
        refine ⟨[(k, v)], some (if u = true then l else d :: l), by rw [k1]; exact .one k2 k3 k4 k5, ?_⟩
        rcases hk with ⟨rfl, rfl, j⟩ | ⟨rfl, t0, jp, ⟨d', L1, L2, t5, j1, j2, rfl, j3, j4, j5⟩ | ⟨j1, j2, j3, j4⟩⟩
        · exact .next j .done
        · exact .other j1 j2 j3 jp j4 j5 .done
        · exact .unknown j1 j2 j3 jp j4 .done

theorem slotBody_inv {L : List (DSlot τ)} (hB : ∀ d ∈ L, Behaves d.slot.toMember d.name d.stores d.passed)
    {t t' : τ} {s p : Bytes} {e : EPtr} (he : e.Clean) (hmax : s.length ≤ intMax)
    (h : objectBody c strict (L.map fun d => d.slot.toMember) t s e = .ok (t', p, e)) :
    (∃ items r o, s = r ++ p ∧ ObjText items (c%'{' :: r) ∧ SlotRun strict L L items t t' o) ∨
      ∃ items r, s = r ++ p ∧ ObjTrail items (c%'{' :: r) ∧ SlotRun strict L L items t t' (some []) := by
  have hmem : ∀ m ∈ L.map (fun d : DSlot τ => d.slot.toMember), MSafe True m := by
    intro m hm
    obtain ⟨d', hd', rfl⟩ := List.mem_map.mp hm
    exact (hB d' hd').safe
  unfold objectBody at h
  cases hp1 : parseSpace s e with
  | mk p1 e1 =>
  have s1 := Steps.space hp1
  have suf1 := (parseSpace_scan s).suffix e
  rw [hp1] at h suf1
  cases p1 with
  | nil =>
    simp only [Out.ok.injEq, Prod.mk.injEq] at h
    exact (he.absurd s1 (by decide) h.2.2).elim
  | cons b q =>
    simp only at h
    split at h
    · rename_i hb
      obtain ⟨⟨t2, p2, e2⟩, h2, hA⟩ := Out.bind_eq_ok.mp h
      clear h
      have s2 := (SafeOut.step (membersF_safe (U := True) (fun _ => trivial) hmem _ hmem _ _ _ (by simp)) h2).2
      simp only at hA
      cases p2 with
      | nil =>
        simp only [Out.ok.injEq, Prod.mk.injEq] at hA
        exact (he.absurd (s1.trans s2) (by decide) hA.2.2).elim
      | cons b2 q2 =>
        simp only at hA
        cases hp3 : parseSpace (b2 :: q2) e2 with
        | mk p3 e3 =>
        have s3 := Steps.space hp3
        rw [hp3] at hA
        cases p3 with
        | nil =>
          simp only [Out.ok.injEq, Prod.mk.injEq] at hA
          exact (he.absurd (s1.trans (s2.trans s3)) (by decide) hA.2.2).elim
        | cons b3 q3 =>
          simp only at hA
          obtain ⟨h3, rfl, rfl⟩ := objectEnd_inv he (s1.trans (s2.trans s3)) hA
          have i2 := he.back (s1.trans s2) s3
          subst i2
          have i1 := he.back s1 s2
          subst i1
          obtain ⟨g, k1, k2, k3⟩ := space_inv he hp1
          have l1 := suf1.length_le
          simp only [List.length_cons] at l1
          obtain ⟨q', hq', h4⟩ := slotsF_inv hB _ L (fun _ h => h) t t' _ _ he (by simp) (by simp; omega) k3 h2
          rw [hq'] at hp3 h4
          have : parseSpace (c%'}' :: q') e1 = (c%'}' :: q', e1) := by
            simpa using parseSpace_byte .nil (b := c%'}') (by decide) q' e1
          rw [this, h3] at hp3
          simp only [Prod.mk.injEq, List.cons.injEq, true_and, and_true] at hp3
          subst hp3
          rcases h4 with ⟨items, o, j1, j2⟩ | ⟨items, g', j1, j2, j3⟩ | ⟨_, _, j⟩
          · obtain ⟨r0, j3, j4⟩ := itemsThen_back j1
            exact .inl ⟨items, g ++ (r0 ++ b!"}"), o, by rw [k1, j3]; simp, .items k2 j4, j2⟩
          · obtain ⟨r0, j4, j5⟩ := itemsThen_back j2
            have hne : items ≠ [] := by rintro rfl; cases j5
            have : ObjText items (c%'{' :: (g ++ r0) ++ b!"}") := by
              have := ObjText.items k2 j5
              simpa using this
            refine .inr ⟨items, g ++ r0 ++ c%',' :: (g' ++ b!"}"), by rw [k1, j4]; simp, ?_, j3⟩
            have := ObjTrail.mk this hne j1
            simpa using this
          · simp only [List.cons.injEq] at j
            exact absurd j.1 hb
    · rename_i hb
      have hb : b = c%'}' := Classical.not_not.mp hb
      obtain ⟨h3, rfl, rfl⟩ := objectEnd_inv he s1 h
      obtain ⟨g, k1, k2, _⟩ := space_inv he hp1
      simp only [List.cons.injEq] at h3
      refine .inl ⟨[], g ++ b!"}", some L, by rw [k1, hb, h3.2]; simp, .empty k2, .done⟩

theorem deSlotObject_inv {dflt : τ} {L : List (DSlot τ)} (hB : ∀ d ∈ L, Behaves d.slot.toMember d.name d.stores d.passed)
    {t t' : τ} {s p : Bytes} {e : EPtr} (he : e.Clean) (hmax : s.length ≤ intMax)
    (h : deObject c strict dflt (L.map fun d => d.slot.toMember) t s e = .ok (t', p, e)) :
    ∃ r, s = r ++ p ∧ SlotObjDen strict dflt L t t' r := by
  unfold deObject at h
  split at h
  · simp only [Out.ok.injEq, Prod.mk.injEq] at h
    have := parseNull_acc_iff.mp (Acc.of_clean (parseNull_scan s) he (e' := e) (p := p) (Prod.ext h.2.1 h.2.2) he.not_failed)
    exact ⟨_, this, .inl ⟨rfl, h.1.symm⟩⟩
  · cases s with
    | nil =>
      simp only [Out.ok.injEq, Prod.mk.injEq] at h
      exact (he.no_error (by decide) h.2.2).elim
    | cons b q =>
      simp only at h
      split at h
      · split at h
        · rename_i hb
          cases hp1 : parseSpace q e with
          | mk p1 e1 =>
          have s1 := Steps.space hp1
          rw [hp1] at h
          obtain ⟨x, hx, hA⟩ := Out.bind_eq_ok.mp h
          clear h
          simp only at hA
          split at hA
          · simp only [Out.ok.injEq, Prod.mk.injEq] at hA
            exact (he.absurd s1 (by decide) hA.2.2).elim
          · rename_i hx1
            have hx1 : x = c%']' := Classical.not_not.mp hx1
            cases p1 with
            | nil => cases hA
            | cons b1 q1 =>
              simp only [Out.ok.injEq, Prod.mk.injEq] at hA
              obtain ⟨rfl, rfl, rfl⟩ := hA
              simp only [deref, Out.ok.injEq] at hx
              obtain ⟨g, k1, k2, _⟩ := space_inv he hp1
              refine ⟨c%'[' :: (g ++ b!"]"), ?_, .inr (.inl ⟨g, rfl, k2, rfl⟩)⟩
              rw [hb, k1, hx, hx1]
              simp
        · simp only [Out.ok.injEq, Prod.mk.injEq] at h
          exact (he.no_error (by decide) h.2.2).elim
      · rename_i hb
        have hb : b = c%'{' := Classical.not_not.mp hb
        simp only [List.length_cons] at hmax
        rcases slotBody_inv hB he (by omega) h with ⟨items, r, o, h1, h2, h3⟩ | ⟨items, r, h1, h2, h3⟩
        · exact ⟨c%'{' :: r, by rw [hb, h1]; simp, .inr (.inr (.inl ⟨items, o, h2, h3⟩))⟩
        · exact ⟨c%'{' :: r, by rw [hb, h1]; simp, .inr (.inr (.inr ⟨items, h2, h3⟩))⟩

/-! ### A place of an array -/

structure ABehaves (m : AMember τ) (stores : Den τ) : Prop where
  safe : Safe True m.de
  inv : ∀ {t t1 w p e}, e.Clean → SpaceStop w → w.length ≤ intMax → Delim p → p ≠ [] → m.de t w e = .ok (t1, p, e) →
    ∃ v, w = v ++ p ∧ Start v ∧ stores t t1 v

theorem entry_abehaves {d : DEntry τ} (hS : Sounds false d.entry.ref.ser d.den) : ABehaves d.entry.toAMember d.stores where
  safe := Entry.asafe hS.safe
  inv := by
    intro t t1 w p e he hw hl hd hne h
    have key : ∃ x, d.entry.ref.ser.de (d.entry.start t) w e = .ok (x, p, e) ∧ t1 = d.entry.ref.set x t := by
      obtain ⟨en, den⟩ := d
      cases en with
      | mem m =>
        obtain ⟨⟨x, p1, e1⟩, h1, h2⟩ := Out.bind_eq_ok.mp h
        simp only [Out.ok.injEq, Prod.mk.injEq] at h2
        obtain ⟨rfl, rfl, rfl⟩ := h2
        exact ⟨x, h1, rfl⟩
      | prop m =>
        obtain ⟨⟨x, p1, e1⟩, h1, h2⟩ := Out.bind_eq_ok.mp h
        simp only [Out.ok.injEq, Prod.mk.injEq] at h2
        obtain ⟨rfl, rfl, rfl⟩ := h2
        exact ⟨x, h1, rfl⟩
    obtain ⟨x, h1, rfl⟩ := key
    exact member_text hS he hw hl hd hne h1

theorem deAMemberIf_inv {a b : MRef τ} {Da : Den a.α} {Db : Den b.α} {fa fb ex : Bool} (hA : SoundsNull fa a.ser Da)
    (hB : SoundsNull fb b.ser Db) (hx : ex = true → Accepts a.ser Da) {t t1 : τ} {w p : Bytes} {e : EPtr} (he : e.Clean)
    (hw : SpaceStop w) (hl : w.length ≤ intMax) (hd : Delim p) (hne : p ≠ []) (h : deAMemberIf a b t w e = .ok (t1, p, e)) :
    ∃ v, w = v ++ p ∧ Start v ∧ AltStores a b Da Db ex t t1 v := by
  obtain ⟨⟨t2, p2, e2⟩, h1, hA1⟩ := Out.bind_eq_ok.mp h
  clear h
  obtain ⟨⟨x, p3, e3⟩, h5, h6⟩ := Out.bind_eq_ok.mp h1
  simp only [Out.ok.injEq, Prod.mk.injEq] at h6
  obtain ⟨rfl, rfl, rfl⟩ := h6
  simp only at hA1
  cases hf : e3.failed with
  | false =>
    rw [hf] at hA1
    simp only [Bool.not_false, if_true] at hA1
    obtain ⟨t3, h3, h4⟩ := Out.bind_eq_ok.mp hA1
    simp only [Out.ok.injEq, Prod.mk.injEq] at h4
    obtain ⟨rfl, rfl, -⟩ := h4
    have i2 : e3 = .fresh := by
      obtain ⟨n, s1⟩ := (hA.safe.step h5).2
      rcases s1.clean EPtr.fresh_clean with k | k
      · exact k
      · rw [hf] at k; cases k
    subst i2
    obtain ⟨v, j1, j2⟩ := hA.sound EPtr.fresh_clean hl hd (.inr hne) h5
    rw [j1] at hw
    exact ⟨v, j1, start_of_headed (hA.head j2) hw, .inl ⟨x, j2, readNull_nulled hB h3⟩⟩
  | true =>
    rw [hf] at hA1
    simp only [Bool.not_true, Bool.false_eq_true, if_false] at hA1
    obtain ⟨t3, h3, h4⟩ := Out.bind_eq_ok.mp hA1
    obtain ⟨⟨y, p4, e4⟩, h7, h8⟩ := Out.bind_eq_ok.mp h4
    simp only [Out.ok.injEq, Prod.mk.injEq] at h8
    obtain ⟨rfl, rfl, rfl⟩ := h8
    obtain ⟨v, j1, j2⟩ := hB.sound he hl hd (.inr hne) h7
    rw [j1] at hw
    refine ⟨v, j1, start_of_headed (hB.head j2) hw, .inr ⟨x, t3, y, ?_, readNull_nulled hA h3, j2, rfl⟩⟩
    intro hex z hz
    have hv : v.length ≤ intMax := by rw [j1, List.length_append] at hl; omega
    have := (hx hex).complete hz hv p4 .fresh rfl hd
    rw [← j1, h5] at this
    cases this
    cases hf

theorem slots_asafe {L : List (DSlot τ)} (hS : ∀ d ∈ L, ABehaves d.slot.toAMember d.stores) :
    ∀ m ∈ L.map (fun d : DSlot τ => d.slot.toAMember), Safe True m.de := by
  intro m hm
  obtain ⟨d', hd', rfl⟩ := List.mem_map.mp hm
  exact (hS d' hd').safe

/-- What the reading of the elements leaves: the elements fit the members. -/
theorem deASlots_inv {L : List (DSlot τ)} (hS : ∀ d ∈ L, ABehaves d.slot.toAMember d.stores) {t t' : τ} {s p : Bytes} {e : EPtr}
    (he : e.Clean) (hmax : s.length ≤ intMax) (hstop : SpaceStop s)
    (h : deAMembers (L.map fun d => d.slot.toAMember) t s e = .ok (t', p, e)) :
    (L = [] ∧ t' = t ∧ p = s) ∨ ∃ q, p = c%']' :: q ∧
      ((∃ L1 L2 ts r, L = L1 ++ L2 ∧ s = r ++ q ∧ Items1 (fun v t => v = t) c%']' ts r ∧ SlotPositional L1 ts t t') ∨
        ∃ ts r g, s = r ++ (g ++ p) ∧ ts ≠ [] ∧ ItemsComma (fun v t => v = t) ts r ∧ Gap g ∧ SlotPositional L ts t t') := by
  induction L generalizing t t' s with
  | nil =>
    simp only [List.map_nil, deAMembers, Out.ok.injEq, Prod.mk.injEq] at h
    exact .inl ⟨rfl, h.1.symm, h.2.1.symm⟩
  | cons d L ih =>
    refine .inr ?_
    simp only [List.map_cons, deAMembers] at h
    obtain ⟨⟨t1, p1, e1⟩, h1, hA⟩ := Out.bind_eq_ok.mp h
    clear h
    obtain ⟨suf1, s1⟩ := (hS d (by simp)).safe.step h1
    simp only at hA
    cases hp2 : parseSpace p1 e1 with
    | mk p2 e2 =>
    have s2 := Steps.space hp2
    have suf2 := (parseSpace_scan p1).suffix e1
    rw [hp2] at hA suf2
    cases p2 with
    | nil =>
      simp only [Out.ok.injEq, Prod.mk.injEq] at hA
      exact (he.absurd (s1.trans s2) (by decide) hA.2.2).elim
    | cons b q =>
    simp only at hA
    have l1 := suf1.length_le
    have l2 := suf2.length_le
    simp only [List.length_cons] at l2
    have item : Steps e2 e → (b = c%']' ∨ b = c%',') → ∃ v g2, s = v ++ g2 ++ b :: q ∧ Start v ∧ d.stores t t1 v ∧ Gap g2 := by
      intro s3 hb
      have h2 := he.back (s1.trans s2) s3
      subst h2
      have h3 := he.back s1 s2
      subst h3
      obtain ⟨g2, k4, k5, _⟩ := space_inv he hp2
      have hdl : Delim p1 := by
        rw [k4]
        refine delim_gap k5 ?_ _
        rcases hb with rfl | rfl <;> simp
      obtain ⟨v, k6, k7, k8⟩ := (hS d (by simp)).inv he hstop hmax hdl (by rw [k4]; simp) h1
      exact ⟨v, g2, by rw [k6, k4]; simp, k7, k8, k5⟩
    split at hA
    · rename_i hb
      cases hp3 : parseSpace q e2 with
      | mk p3 e3 =>
      have s3 := Steps.space hp3
      have suf3 := (parseSpace_scan q).suffix e2
      rw [hp3] at hA suf3
      simp only at suf3
      obtain ⟨⟨t4, p4, e4⟩, h4, hB⟩ := Out.bind_eq_ok.mp hA
      clear hA
      have hS' : ∀ d ∈ L, ABehaves d.slot.toAMember d.stores := fun d hd => hS d (by simp [hd])
      have s4 := (SafeOut.step (deAMembers_safe (U := True) (slots_asafe hS') t1 p3 e3) h4).2
      obtain ⟨q', hq', rfl, rfl, rfl⟩ := amembersEnd_inv he (s1.trans (s2.trans (s3.trans s4))) hB
      obtain ⟨v, g2, k1, k2, k3, k4⟩ := item (s3.trans s4) (.inr hb)
      have i2 := he.back (s1.trans s2) (s3.trans s4)
      subst i2
      have i3 := he.back s3 s4
      subst i3
      obtain ⟨g3, k5, k6, k7⟩ := space_inv he hp3
      have l3 := suf3.length_le
      simp only at hq' h4
      refine ⟨q', hq', ?_⟩
      have hst0 : b = c%',' := hb
      subst hst0
      rcases ih hS' (by omega) k7 h4 with ⟨rfl, rfl, rfl⟩ | ⟨q'', hq'', h5 | h5⟩
      · refine .inr ⟨[v], v ++ g2 ++ [c%','], g3, ?_, by simp, ?_, k6, .cons k3 .nil⟩
        · rw [k1, k5]; simp
        · have := ItemsComma.cons (item := fun (v : Bytes) (t : Bytes) => v = t) (g1 := []) (v := v) .nil k2 rfl k4 .nil
          simpa using this
      · obtain ⟨L1, L2, ts, r, rfl, h6, h7, h8⟩ := h5
        rw [hq'] at hq''
        simp only [List.cons.injEq, true_and] at hq''
        subst hq''
        refine .inl ⟨d :: L1, L2, v :: ts, v ++ g2 ++ c%',' :: (g3 ++ r), rfl, ?_, ?_, .cons k3 h8⟩
        · rw [k1, k5, h6]; simp
        · have := Items1.more (item := fun (v : Bytes) (t : Bytes) => v = t) (g1 := []) (v := v) .nil k2 rfl k4 (items1_gap k6 h7)
          simpa using this
      · obtain ⟨ts, r, g, h6, h7, h8, h9, h10⟩ := h5
        refine .inr ⟨v :: ts, v ++ g2 ++ c%',' :: (g3 ++ r), g, ?_, by simp, ?_, h9, .cons k3 h10⟩
        · rw [k1, k5, h6]; simp
        · have := ItemsComma.cons (item := fun (v : Bytes) (t : Bytes) => v = t) (g1 := []) (v := v) .nil k2 rfl k4 (itemsComma_gap k6 h7 h8)
          simpa using this
    · rename_i hb
      obtain ⟨q', hq', rfl, rfl, rfl⟩ := amembersEnd_inv he (s1.trans s2) hA
      simp only [List.cons.injEq] at hq'
      obtain ⟨rfl, rfl⟩ := hq'
      obtain ⟨v, g2, k1, k2, k3, k4⟩ := item (.refl _) (.inl rfl)
      refine ⟨q, rfl, .inl ⟨[d], L, [v], v ++ g2 ++ [c%']'], rfl, by rw [k1]; simp, ?_, .cons k3 .nil⟩⟩
      have := Items1.last (item := fun (v : Bytes) (t : Bytes) => v = t) (R := c%']') (g1 := []) (v := v) .nil k2 rfl k4
      simpa using this

theorem deSlotArray_inv {dflt : τ} {L : List (DSlot τ)} (hS : ∀ d ∈ L, ABehaves d.slot.toAMember d.stores)
    {t t' : τ} {s p : Bytes} {e : EPtr} (he : e.Clean) (hmax : s.length ≤ intMax)
    (h : deObjectArray dflt (L.map fun d => d.slot.toAMember) t s e = .ok (t', p, e)) :
    ∃ r, s = r ++ p ∧ SlotArrDen dflt L t t' r := by
  unfold deObjectArray at h
  split at h
  · simp only [Out.ok.injEq, Prod.mk.injEq] at h
    have := parseNull_acc_iff.mp (Acc.of_clean (parseNull_scan s) he (e' := e) (p := p) (Prod.ext h.2.1 h.2.2) he.not_failed)
    exact ⟨_, this, .inl ⟨rfl, h.1.symm⟩⟩
  · cases s with
    | nil =>
      simp only [Out.ok.injEq, Prod.mk.injEq] at h
      exact (he.no_error (by decide) h.2.2).elim
    | cons b q =>
      simp only at h
      split at h
      · simp only [Out.ok.injEq, Prod.mk.injEq] at h
        exact (he.no_error (by decide) h.2.2).elim
      · rename_i hb
        have hb : b = c%'[' := Classical.not_not.mp hb
        subst hb
        simp only [List.length_cons] at hmax
        unfold objectArrayBody at h
        cases hp1 : parseSpace q e with
        | mk p1 e1 =>
        have s1 := Steps.space hp1
        have suf1 := (parseSpace_scan q).suffix e
        rw [hp1] at h suf1
        cases p1 with
        | nil =>
          simp only [Out.ok.injEq, Prod.mk.injEq] at h
          exact (he.absurd s1 (by decide) h.2.2).elim
        | cons b1 q1 =>
          simp only at h
          split at h
          · rename_i hb
            obtain ⟨⟨t2, p2, e2⟩, h2, hA⟩ := Out.bind_eq_ok.mp h
            clear h
            have s2 := (SafeOut.step (deAMembers_safe (U := True) (slots_asafe hS) _ _ _) h2).2
            simp only at hA
            cases p2 with
            | nil =>
              simp only [Out.ok.injEq, Prod.mk.injEq] at hA
              exact (he.absurd (s1.trans s2) (by decide) hA.2.2).elim
            | cons b2 q2 =>
              simp only at hA
              cases hp3 : parseSpace (b2 :: q2) e2 with
              | mk p3 e3 =>
              have s3 := Steps.space hp3
              rw [hp3] at hA
              cases p3 with
              | nil =>
                simp only [Out.ok.injEq, Prod.mk.injEq] at hA
                exact (he.absurd (s1.trans (s2.trans s3)) (by decide) hA.2.2).elim
              | cons b3 q3 =>
                simp only at hA
                obtain ⟨h3, rfl, rfl⟩ := objectArrayEnd_inv he (s1.trans (s2.trans s3)) hA
                have i2 := he.back (s1.trans s2) s3
                subst i2
                have i1 := he.back s1 s2
                subst i1
                obtain ⟨g, k1, k2, k3⟩ := space_inv he hp1
                have l1 := suf1.length_le
                simp only [List.length_cons] at l1
                rcases deASlots_inv hS he (by simp; omega) k3 h2 with ⟨rfl, _, h4⟩ | ⟨q', hq', h4⟩
                · obtain ⟨g', k4, k5, _⟩ := space_inv he hp3
                  rw [h4] at k4
                  rw [k4] at k3
                  have := gap_stop k5 k3
                  subst this
                  rw [h3, List.nil_append, List.cons.injEq] at k4
                  exact absurd k4.1 hb
                · rw [hq'] at hp3
                  have : parseSpace (c%']' :: q') e1 = (c%']' :: q', e1) := by
                    simpa using parseSpace_byte .nil (b := c%']') (by decide) q' e1
                  rw [this, h3] at hp3
                  simp only [Prod.mk.injEq, List.cons.injEq, true_and, and_true] at hp3
                  subst hp3
                  rcases h4 with ⟨L1, L2, ts, r, rfl, j1, j2, j3⟩ | ⟨ts, r, g', j1, j2, j3, j4, j5⟩
                  · exact ⟨c%'[' :: (g ++ r), by rw [k1, j1]; simp,
                      .inr (.inr (.inl ⟨L1, L2, ts, g ++ r, rfl, rfl, items1_gap k2 j2, j3⟩))⟩
                  · exact ⟨c%'[' :: (g ++ r ++ g' ++ b!"]"), by rw [k1, j1, hq']; simp,
                      .inr (.inr (.inr ⟨ts, g ++ r, g', rfl, j2, itemsComma_gap k2 j2 j3, j4, j5⟩))⟩
          · rename_i hb
            obtain ⟨h3, rfl, rfl⟩ := objectArrayEnd_inv he s1 h
            obtain ⟨g, k1, k2, _⟩ := space_inv he hp1
            exact ⟨c%'[' :: (g ++ b!"]"), by rw [k1, h3]; simp, .inr (.inl ⟨g, rfl, k2, rfl⟩)⟩

end

/-! ### The other templates -/

theorem Meaning.sounds {c : Cfg} {f : Bool} {α : Type} {S : Ser α} {D : Den α} (h : Meaning c f S D) : SoundsNull f S D := by
  cases f with
  | false => exact h.inner.sounds
  | true =>
    have hi := h.inner.sounds
    exact { safe := hi.safe, sound := fun he hs hd _ hr => h.exact.sound he hs hd hr, head := hi.head, null := hi.null, reads := hi.reads }

/-- From the behaviour on texts that start with an `n`. -/
theorem SoundsNull.of {α : Type} {S : Ser α} {D : Den α} (h : Sounds true S D)
    (hn : ∀ {v0 v s p e}, e.Clean → s.head? = some c%'n' → S.de v0 s e = .ok (v, p, e) → s = b!"null" ++ p)
    (hr : ∀ {v0 v}, D v0 v b!"null" → ReadsAt S.de v0 b!"null" v) : SoundsNull true S D where
  toSounds := h
  reads := hr
  null := by
    intro v0 v r p e he hl hd hr
    have hp := List.append_cancel_left (hn he rfl hr)
    subst hp
    obtain ⟨t, h1, h2⟩ := h.sound he hl hd (.inl rfl) hr
    have := List.append_cancel_right h1
    rw [this]
    exact ⟨rfl, h2⟩

section
variable {α : Type} {S : Ser α} {D : Den α} {f : Bool}

theorem quotedSer_sounds (h : SoundsNull f S D) (serQ reqQ : Bool) : SoundsNull f (quotedSer S serQ reqQ) (QuotedDen S.de reqQ D) where
  safe := deQuoted_safe h.safe reqQ
  sound he hs hd hp hr := quoted_sound h.safe h.head he hs (h.sound he hs hd hp) hr
  head hD := quoted_head h.head hD
  null := by
    intro v0 v r p e he hl hd hr
    simp only [quotedSer, deQuoted] at hr
    cases reqQ with
    | true =>
      rw [if_pos rfl] at hr
      obtain ⟨w, q, ⟨h1, h2⟩ | ⟨u, h1, h2⟩, h3⟩ := deQuotedStr_inv h.safe he hl hr
      · exact ⟨(List.append_cancel_left h1).symm, .inl ⟨w, q, .inr ⟨rfl, rfl, h2⟩, h3⟩⟩
      · simp [quoted] at h1
    | false =>
      rw [if_neg (by decide), if_neg (by simp [isString])] at hr
      obtain ⟨h1, h2⟩ := h.null he hl hd hr
      exact ⟨h1, .inr ⟨rfl, by decide, h2⟩⟩
  reads := by
    intro v0 v hD rest e he hr
    rcases hD with ⟨w, r, ⟨u, h1, _⟩ | ⟨rfl, _, rfl⟩, h⟩ | ⟨rfl, _, h2⟩
    · simp [quoted] at h1
    · have := deQuotedStr_run he (strSer_exact.complete (v0 := []) (.inl ⟨rfl, rfl⟩) (by decide) rest e he hr) h
      simp only [quotedSer, deQuoted]
      rw [if_pos trivial]
      exact this
    · simp only [quotedSer, deQuoted]
      rw [if_neg (by decide), if_neg (by simp [isString])]
      exact h.reads h2 rest e he hr

theorem pointerSer_sounds (h : Sounds f S D) : SoundsNull false (pointerSer S) (PtrDen S.dflt D) where
  safe := dePointer_safe h.safe
  sound := by
    intro v0 v s p e he hs hd hp hr
    have hp := hp.resolve_left (by decide)
    simp only [pointerSer] at hr
    cases s with
    | nil =>
      simp only [dePointer, Out.ok.injEq, Prod.mk.injEq] at hr
      exact absurd hr.2.1.symm hp
    | cons b t =>
      simp only [dePointer] at hr
      by_cases hb : b = c%'n'
      · rw [if_neg (by simp [hb])] at hr
        simp only [Out.ok.injEq, Prod.mk.injEq] at hr
        match t, hr with
        | [], hr => exact absurd hr.2.1.symm hp
        | [_], hr => exact absurd hr.2.1.symm hp
        | [_, _], hr => exact absurd hr.2.1.symm hp
        | x :: y :: z :: r, hr =>
          have : r = p := hr.2.1
          subst this
          exact ⟨[c%'n', x, y, z], by rw [hb]; rfl, .inl ⟨x, y, z, rfl, hr.1.symm⟩⟩
      · rw [if_pos hb] at hr
        obtain ⟨⟨x, p', e'⟩, h1, hr⟩ := Out.bind_eq_ok.mp hr
        simp only [Out.ok.injEq, Prod.mk.injEq] at hr
        obtain ⟨rfl, rfl, rfl⟩ := hr
        obtain ⟨t', h2, h3⟩ := h.sound he hs hd (.inr hp) h1
        refine ⟨t', h2, .inr ⟨x, rfl, ?_, h3⟩⟩
        obtain ⟨b', u, rfl, _⟩ := h.head h3
        simp only [List.cons_append, List.cons.injEq] at h2
        simpa [← h2.1] using hb
  head := by
    rintro v0 v t (⟨x, y, z, rfl, rfl⟩ | ⟨x, rfl, h1, h2⟩)
    · exact headed_of_byte (.inl rfl)
    · exact h.head h2
  null := by
    intro v0 v r p e he hl hd hr
    simp [pointerSer, dePointer] at hr
    exact ⟨hr.2.symm, .inl ⟨_, _, _, rfl, hr.1.symm⟩⟩
  reads := by
    rintro v0 v (⟨x, y, z, h1, rfl⟩ | ⟨x, rfl, h1, h2⟩) rest e he hr
    · simp [pointerSer, dePointer]
    · exact absurd rfl h1

theorem memberValue_sounds {τ : Type} (dflt : τ) (get : τ → α) (set : α → τ → τ) (h : SoundsNull f S D) :
    SoundsNull f (memberValueSer dflt get set S) (PartDen get set D) where
  safe := memberValue_safe h.safe dflt get set
  sound := by
    intro v0 v s p e he hs hd hne hr
    simp only [memberValueSer] at hr
    obtain ⟨⟨x, p', e'⟩, hp, hr⟩ := Out.bind_eq_ok.mp hr
    simp only [Out.ok.injEq, Prod.mk.injEq] at hr
    obtain ⟨rfl, rfl, rfl⟩ := hr
    obtain ⟨t, h1, h2⟩ := h.sound he hs hd hne hp
    exact ⟨t, h1, x, h2, rfl⟩
  head := by
    rintro v0 v t ⟨x, h1, rfl⟩
    exact h.head h1
  null := by
    intro v0 v r p e he hl hd hr
    simp only [memberValueSer] at hr
    obtain ⟨⟨x1, x2, x3⟩, hp, hr⟩ := Out.bind_eq_ok.mp hr
    simp only [Out.ok.injEq, Prod.mk.injEq] at hr
    obtain ⟨rfl, rfl, rfl⟩ := hr
    obtain ⟨h1, h2⟩ := h.null he hl hd hp
    exact ⟨h1, x1, h2, rfl⟩
  reads := by
    rintro v0 v ⟨x, h1, rfl⟩ rest e he hr
    simp only [memberValueSer, h.reads h1 rest e he hr, Out.bind_ok]

theorem seqSer_sounds {C : Type} {K : Coll α C} {R L : Byte} (hR : R = c%']' ∨ R = c%'}') (hL : L = c%'[' ∨ L = c%'{') (hS : Sounds false S D) :
    SoundsNull true (seqSer K S L R) (SeqDen K.clear K.insert S.dflt L R D) := by
  refine .of { safe := deSeq_safe hS.safe, sound := fun he hs _ _ h => deSeq_inv hR hS he hs h, head := ?_ } ?_ ?_
  · rintro v0 v t (⟨rfl, rfl⟩ | ⟨vs, r, rfl, h, rfl⟩)
    · exact headed_of_byte (by decide)
    · exact headed_of_byte (by rcases hL with rfl | rfl <;> simp)
  · intro v0 v s p e he hn h
    exact (deSeq_null (v0 := v0) he hn h).1
  · rintro v0 v (⟨_, rfl⟩ | ⟨vs, r, h, _⟩) rest e he _
    · have := parseNull_ok rest e
      simp only [List.cons_append, List.nil_append] at this
      simp [seqSer, deSeq, isNull, this]
    · rcases hL with rfl | rfl <;> cases h

theorem fieldSer_sounds {κ ν : Type} {SK : Ser κ} {SV : Ser ν} {DK : Den κ} {DV : Den ν} (hK : Sounds false SK DK)
    (hV : Sounds false SV DV) : Sounds false (fieldSer SK SV) (FieldDen DK DV) where
  safe := deField_safe hK.safe hV.safe
  sound he hs hd hne h := deField_inv hK hV he hs hd (hne.resolve_left (by decide)) h
  head := by
    rintro v0 v t ⟨tk, g1, g2, tv, rfl, _, _, _, h4, _⟩
    obtain ⟨b, u, rfl, h⟩ := hK.head h4
    exact ⟨b, _, rfl, h⟩

theorem fixSer_sounds (k : FixKind) {N : Nat} (hS : SoundsNull f S D) : SoundsNull true (fixSer k N S) (FixArrDen (k.start S) D) := by
  refine .of { safe := deFix_safe hS.safe, sound := fun he hs hd _ h => deFix_inv hS he hs hd h, head := ?_ } ?_ ?_
  · rintro v0 v t (⟨rfl, _⟩ | ⟨r, rfl, _⟩) <;> exact headed_of_byte (by decide)
  · exact fun he hn h => deFix_null hS.safe he hn h
  · rintro v0 v (⟨_, h⟩ | ⟨r, h, _⟩) rest e he hd
    · have hn : isNull (b!"null" ++ rest) = true := rfl
      simp only [fixSer, deFix]
      rw [if_pos hn, fixNull_complete hS hd he h, Out.bind_ok]
      have := parseNull_ok rest e
      simp only [this]
    · cases h

end

/-! ### Structures -/

section
variable {τ : Type} {c : Cfg} {strict : Bool}

theorem objectSer_sounds {dflt : τ} {L : List (DSlot τ)} (hB : ∀ d ∈ L, Behaves d.slot.toMember d.name d.stores d.passed) :
    SoundsNull true (objectSer c strict dflt (L.map fun d => d.slot.toMember)) (SlotObjDen strict dflt L) := by
  refine .of { safe := ?_, sound := fun he hs _ _ h => deSlotObject_inv hB he hs h, head := ?_ } ?_ ?_
  · refine deObject_safe (fun _ => trivial) ?_
    intro m hm
    obtain ⟨d', hd', rfl⟩ := List.mem_map.mp hm
    exact (hB d' hd').safe
  · rintro v0 v t (⟨rfl, _⟩ | ⟨g, rfl, _⟩ | ⟨items, o, h1, h2⟩ | ⟨items, h1, h2⟩)
    · exact headed_of_byte (by decide)
    · exact headed_of_byte (by decide)
    · cases h1 <;> exact headed_of_byte (by decide)
    · cases h1 with
      | @mk r g hobj hne hg =>
        cases r with
        | nil => cases hobj
        | cons b r =>
          have hb : b = c%'{' := by
            generalize hw : b :: r ++ b!"}" = w at hobj
            cases hobj <;> simp only [List.cons_append, List.cons.injEq] at hw <;> exact hw.1
          rw [hb]
          exact headed_of_byte (by decide)
  · intro v0 v s p e he hn h
    simp only [objectSer] at h
    unfold deObject at h
    rw [if_pos (by simp [isNull, hn])] at h
    simp only [Out.ok.injEq, Prod.mk.injEq] at h
    exact parseNull_acc_iff.mp (Acc.of_clean (parseNull_scan s) he (e' := e) (p := p) (Prod.ext h.2.1 h.2.2) he.not_failed)
  · rintro v0 v (⟨_, rfl⟩ | ⟨g, h, _⟩ | ⟨items, o, h1, _⟩ | ⟨items, h1, _⟩) rest e he hd
    · have := parseNull_ok rest e
      have hn : isNull (b!"null" ++ rest) = true := rfl
      simp only [objectSer]
      unfold deObject
      rw [if_pos hn, this]
    · cases h
    · cases h1
    · generalize hw : b!"null" = w at h1
      cases h1 with
      | @mk r g hobj hne hg =>
        have : (b!"null").getLast? = some c%'}' := by
          rw [hw, show r ++ c%',' :: (g ++ b!"}") = (r ++ c%',' :: g) ++ b!"}" by simp, List.getLast?_concat]
        cases this

theorem objectArraySer_sounds {dflt : τ} {L : List (DSlot τ)} (hB : ∀ d ∈ L, ABehaves d.slot.toAMember d.stores) :
    SoundsNull true (objectArraySer dflt (L.map fun d => d.slot.toAMember)) (SlotArrDen dflt L) := by
  refine .of { safe := deObjectArray_safe (slots_asafe hB), sound := fun he hs _ _ h => deSlotArray_inv hB he hs h, head := ?_ } ?_ ?_
  · rintro v0 v t (⟨rfl, _⟩ | ⟨g, rfl, _⟩ | ⟨L1, L2, ts, r, _, rfl, _⟩ | ⟨ts, r, g, rfl, _⟩) <;>
      exact headed_of_byte (by decide)
  · intro v0 v s p e he hn h
    simp only [objectArraySer] at h
    unfold deObjectArray at h
    rw [if_pos (by simp [isNull, hn])] at h
    simp only [Out.ok.injEq, Prod.mk.injEq] at h
    exact parseNull_acc_iff.mp (Acc.of_clean (parseNull_scan s) he (e' := e) (p := p) (Prod.ext h.2.1 h.2.2) he.not_failed)
  · rintro v0 v (⟨_, rfl⟩ | ⟨g, h, _⟩ | ⟨L1, L2, ts, r, _, h, _⟩ | ⟨ts, r, g, h, _⟩) rest e he hd
    · have := parseNull_ok rest e
      have hn : isNull (b!"null" ++ rest) = true := rfl
      simp only [objectArraySer]
      unfold deObjectArray
      rw [if_pos hn, this]
    · cases h
    · cases h
    · cases h

end

/-! ### Every description -/

theorem slot_behaves {τ : Type} {c : Cfg} {d : DSlot τ} {f g : Bool} (hn : c%'"' ∉ d.name ∧ SameNames d.slot)
    (h1 : ∀ x, d = .one x → SoundsNull f x.entry.ref.ser x.den)
    (h2 : ∀ l r i RU Dl Dr ex, d = .alt l r i RU Dl Dr ex → SoundsNull f l.ser Dl)
    (h3 : ∀ l r i RU Dl Dr ex, d = .alt l r i RU Dl Dr ex → SoundsNull g r.ser Dr)
    (h4 : ∀ l r i Dl Dr, d = .alt l r i false Dl Dr true → ∃ h, Meaning c h l.ser Dl)
    (h5 : ∀ l r i Dl Dr, d = .alt l r i true Dl Dr true → ∃ h, Meaning c h r.ser Dr) :
    Behaves d.slot.toMember d.name d.stores d.passed := by
  cases d with
  | one d => exact entry_behaves (h1 d rfl).false.toSounds hn.1
  | alt l r i RU Dl Dr ex =>
    have hl := h2 _ _ _ _ _ _ _ rfl
    have hr := h3 _ _ _ _ _ _ _ rfl
    obtain ⟨hn, hs⟩ := hn
    have hs : l.name = r.name := hs
    have hn : c%'"' ∉ l.name := hn
    refine ⟨memberIf_safe hl.safe hr.safe i RU, ?_⟩
    intro t t1 s p e u he h
    cases RU with
    | false =>
      have := deMemberIf_inv (ex := ex) hl hr (by rintro rfl; obtain ⟨_, k⟩ := h4 _ _ _ _ _ rfl; exact k.inner.toAccepts) hs hn he h
      exact this
    | true =>
      have := deMemberIf_inv (ex := ex) hr hl (by rintro rfl; obtain ⟨_, k⟩ := h5 _ _ _ _ _ rfl; exact k.inner.toAccepts) hs.symm (hs ▸ hn) he h
      rw [← hs] at this
      exact this

theorem slot_abehaves {τ : Type} {c : Cfg} {d : DSlot τ} {f g : Bool} (h1 : ∀ x, d = .one x → SoundsNull f x.entry.ref.ser x.den)
    (h2 : ∀ l r i RU Dl Dr ex, d = .alt l r i RU Dl Dr ex → SoundsNull f l.ser Dl)
    (h3 : ∀ l r i RU Dl Dr ex, d = .alt l r i RU Dl Dr ex → SoundsNull g r.ser Dr)
    (h4 : ∀ l r i Dl Dr, d = .alt l r i false Dl Dr true → ∃ h, Meaning c h l.ser Dl)
    (h5 : ∀ l r i Dl Dr, d = .alt l r i true Dl Dr true → ∃ h, Meaning c h r.ser Dr) :
    ABehaves d.slot.toAMember d.stores := by
  cases d with
  | one d => exact entry_abehaves (h1 d rfl).false.toSounds
  | alt l r i RU Dl Dr ex =>
    have hl := h2 _ _ _ _ _ _ _ rfl
    have hr := h3 _ _ _ _ _ _ _ rfl
    refine ⟨amemberIf_safe hl.safe hr.safe i RU, ?_⟩
    intro t t1 w p e he hw hm hd hne h
    cases RU with
    | false =>
      exact deAMemberIf_inv (ex := ex) hl hr (by rintro rfl; obtain ⟨_, k⟩ := h4 _ _ _ _ _ rfl; exact k.inner.toAccepts) he hw hm hd hne h
    | true =>
      exact deAMemberIf_inv (ex := ex) hr hl (by rintro rfl; obtain ⟨_, k⟩ := h5 _ _ _ _ _ rfl; exact k.inner.toAccepts) he hw hm hd hne h

theorem AltMeaning.sounds {c : Cfg} {f : Bool} {α : Type} {S : Ser α} {D : Den α} (h : AltMeaning c f S D) : SoundsNull f S D := by
  induction h with
  | base h => exact h.sounds
  | quoted _ ih => exact quotedSer_sounds ih _ _
  | pointer _ ih => exact pointerSer_sounds ih.toSounds
  | memberValue _ ih => exact memberValue_sounds _ _ _ ih
  | array _ ih => exact seqSer_sounds (by decide) (by decide) ih.false.toSounds
  | stdArray _ _ ih => exact fixSer_sounds .stdArray ih
  | cArray _ _ ih => exact fixSer_sounds .cArray ih
  | dict _ _ ih1 ih2 => exact seqSer_sounds (by decide) (by decide) (fieldSer_sounds ih1.false.toSounds ih2.false.toSounds)
  | @object _ f g _ _ L hn _ _ _ h4 h5 ih1 ih2 ih3 =>
    refine objectSer_sounds fun d hd => slot_behaves (c := c) (f := f d) (g := g d) (hn d hd) (fun x hx => ?_) (fun l r i RU Dl Dr ex hx => ?_)
      (fun l r i RU Dl Dr ex hx => ?_) (fun l r i Dl Dr hx => ?_) (fun l r i Dl Dr hx => ?_)
    · subst hx; exact ih1 _ hd
    · subst hx; exact ih2 _ _ _ _ _ _ _ hd
    · subst hx; exact ih3 _ _ _ _ _ _ _ hd
    · subst hx; exact h4 _ _ _ _ _ hd
    · subst hx; exact h5 _ _ _ _ _ hd
  | @objectArray _ f g _ L _ _ _ h4 h5 ih1 ih2 ih3 =>
    refine objectArraySer_sounds fun d hd => slot_abehaves (c := c) (f := f d) (g := g d) (fun x hx => ?_) (fun l r i RU Dl Dr ex hx => ?_)
      (fun l r i RU Dl Dr ex hx => ?_) (fun l r i Dl Dr hx => ?_) (fun l r i Dl Dr hx => ?_)
    · subst hx; exact ih1 _ hd
    · subst hx; exact ih2 _ _ _ _ _ _ _ hd
    · subst hx; exact ih3 _ _ _ _ _ _ _ hd
    · subst hx; exact h4 _ _ _ _ _ hd
    · subst hx; exact h5 _ _ _ _ _ hd

end Wjson
