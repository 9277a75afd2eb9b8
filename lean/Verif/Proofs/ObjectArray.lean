import Verif.Model.ObjectArray
import Verif.Proofs.ObjectRead
/-
Positional objects: safety, reading, writing.
-/
namespace Wjson
open Spec

section
variable {τ : Type}

/-! ### Safety -/

theorem amember_safe {U : Prop} {m : MRef τ} (h : Safe U m.ser.de) : Safe U (amember m).de := by
  intro t s e
  rcases h (m.get t) s e with ⟨h1, hu⟩ | ⟨v, q, e2, h1, h2, h3⟩
  · exact .inl ⟨by simp only [amember, h1, Out.bind_ub], hu⟩
  · exact .inr ⟨_, _, _, by simp only [amember, h1, Out.bind_ok]; rfl, h2, h3⟩

theorem amemberP_safe {U : Prop} {m : MRef τ} (h : Safe U m.ser.de) : Safe U (amemberP m).de := by
  intro t s e
  rcases h m.ser.dflt s e with ⟨h1, hu⟩ | ⟨v, q, e2, h1, h2, h3⟩
  · exact .inl ⟨by simp only [amemberP, h1, Out.bind_ub], hu⟩
  · exact .inr ⟨_, _, _, by simp only [amemberP, h1, Out.bind_ok]; rfl, h2, h3⟩

theorem Entry.asafe {U : Prop} {en : Entry τ} (h : Safe U en.ref.ser.de) : Safe U en.toAMember.de := by
  cases en with
  | mem m => exact amember_safe h
  | prop m => exact amemberP_safe h

theorem deAMemberIf_safe {U : Prop} {a b : MRef τ} (ha : Safe U a.ser.de) (hb : Safe U b.ser.de) : Safe U (deAMemberIf a b) := by
  intro t s e
  unfold deAMemberIf
  rcases amember_safe ha t s .fresh with ⟨h1, hu⟩ | ⟨t1, p, e1, h1, h2, h3⟩
  · exact .inl ⟨by rw [h1]; rfl, hu⟩
  · rw [h1, Out.bind_ok]
    simp only
    split
    · rcases readNull_safe hb t1 with ⟨h4, hu⟩ | ⟨t2, h4⟩
      · exact .inl ⟨by rw [h4]; rfl, hu⟩
      · exact .inr ⟨_, _, _, by rw [h4]; rfl, h2, .refl _ e⟩
    · rcases readNull_safe ha t1 with ⟨h4, hu⟩ | ⟨t2, h4⟩
      · exact .inl ⟨by rw [h4]; rfl, hu⟩
      · rw [h4, Out.bind_ok]
        exact amember_safe hb t2 s e

theorem amemberIf_safe {U : Prop} {l r : MRef τ} (hl : Safe U l.ser.de) (hr : Safe U r.ser.de) (isDflt : l.α → Bool)
    (RU : Bool) : Safe U (amemberIf l r isDflt RU).de := by
  cases RU with
  | true => exact deAMemberIf_safe hr hl
  | false => exact deAMemberIf_safe hl hr

theorem amembersEnd_safe {U : Prop} (t : τ) (s : Bytes) (e : EPtr) : SafeOut U s e (amembersEnd t s e) := by
  unfold amembersEnd
  cases s with
  | nil => exact .err (by decide) (by omega) (by simp)
  | cons b p => exact .ite (fun _ => .err (by decide) (by omega) (by omega)) (fun _ => .ok (List.suffix_refl _) (.refl _ e))

theorem objectArrayEnd_safe {U : Prop} (t : τ) (s : Bytes) (e : EPtr) : SafeOut U s e (objectArrayEnd t s e) := by
  unfold objectArrayEnd
  cases s with
  | nil => exact .err (by decide) (by omega) (by simp)
  | cons b p => exact .ite (fun _ => .err (by decide) (by omega) (by omega)) (fun _ => .ok (suffix_cons b p) (.refl _ e))

theorem deAMembers_safe {U : Prop} {L : List (AMember τ)} (hL : ∀ m ∈ L, Safe U m.de) (t : τ) (s : Bytes) (e : EPtr) :
    SafeOut U s e (deAMembers L t s e) := by
  induction L generalizing t s e with
  | nil => exact .ok (List.suffix_refl _) (.refl _ e)
  | cons m l ih =>
    have ih := fun t s e => ih (fun m' hm' => hL m' (by simp [hm'])) t s e
    simp only [deAMembers]
    refine SafeOut.bind (hL m (by simp) t s e) ?_
    intro t1 p1 e1 _ hp1 he1
    simp only
    have hp2 := ((parseSpace_scan p1).suffix e1).trans hp1
    have he2 := he1.trans ((EStep.of_scan (parseSpace_scan p1) e1).mono hp1.length_le)
    generalize parseSpace p1 e1 = r at hp2 he2 ⊢
    obtain ⟨p2, e2⟩ := r
    simp only at hp2 he2 ⊢
    cases p2 with
    | nil => exact .err' he2 (by decide) (by omega) (by omega)
    | cons b p2 =>
      simp only
      refine .ite (fun _ => ?_) (fun _ => SafeOut.mono id hp2 he2 (amembersEnd_safe _ _ _))
      have hp4 := suffix_of_cons hp2
      have hp5 := ((parseSpace_scan p2).suffix e2).trans hp4
      have he5 := he2.trans ((EStep.of_scan (parseSpace_scan p2) e2).mono hp4.length_le)
      refine SafeOut.bind (SafeOut.mono id hp5 he5 (ih _ _ _)) ?_
      intro t6 p6 e6 _ hp6 he6
      exact SafeOut.mono id hp6 he6 (amembersEnd_safe _ _ _)

theorem objectArrayBody_safe {U : Prop} {L : List (AMember τ)} (hL : ∀ m ∈ L, Safe U m.de) (t : τ) (s : Bytes) (e : EPtr) :
    SafeOut U s e (objectArrayBody L t s e) := by
  unfold objectArrayBody
  have hp := (parseSpace_scan s).suffix e
  have he := EStep.of_scan (parseSpace_scan s) e
  generalize parseSpace s e = r at hp he ⊢
  obtain ⟨p, e1⟩ := r
  simp only at hp he ⊢
  cases p with
  | nil => exact .err' he (by decide) (by omega) (by omega)
  | cons b q =>
    simp only
    refine .ite (fun _ => ?_) (fun _ => SafeOut.mono id hp he (objectArrayEnd_safe _ _ _))
    refine SafeOut.bind (SafeOut.mono id hp he (deAMembers_safe hL _ _ _)) ?_
    intro t2 p2 e2 _ hp2 he2
    simp only
    cases p2 with
    | nil => exact .err' he2 (by decide) (by omega) (by omega)
    | cons b2 p2 =>
      simp only
      have hp3 := ((parseSpace_scan (b2 :: p2)).suffix e2).trans hp2
      have he3 := he2.trans ((EStep.of_scan (parseSpace_scan (b2 :: p2)) e2).mono hp2.length_le)
      generalize parseSpace (b2 :: p2) e2 = r3 at hp3 he3 ⊢
      obtain ⟨p3, e3⟩ := r3
      simp only at hp3 he3 ⊢
      cases p3 with
      | nil => exact .err' he3 (by decide) (by omega) (by omega)
      | cons b3 p3 => exact SafeOut.mono id hp3 he3 (objectArrayEnd_safe _ _ _)

theorem deObjectArray_safe {U : Prop} {dflt : τ} {L : List (AMember τ)} (hL : ∀ m ∈ L, Safe U m.de) :
    Safe U (deObjectArray dflt L) := by
  intro t s e
  unfold deObjectArray
  refine .ite (fun _ => .scan (parseNull_scan s) _) (fun _ => ?_)
  cases s with
  | nil => exact .err (by decide) (by omega) (by simp)
  | cons b p =>
    refine .ite (fun _ => .err (by decide) (by omega) (by omega)) (fun _ => ?_)
    exact SafeOut.mono id (suffix_cons b p) (.refl _ e) (objectArrayBody_safe hL t p e)

/-! ### Reading -/

/-- The entry reads the text; the change of the target is `f`. -/
def AReads (m : AMember τ) (x : Bytes × (τ → τ)) : Prop := ∀ t, ReadsAt m.de t x.1 (x.2 t)

theorem Entry.areads {en : Entry τ} {v : Bytes} {x : en.ref.α} (hr : Reads en.ref.ser.de v x) :
    AReads en.toAMember (v, en.ref.set x) := by
  intro t rest e he hd
  cases en with
  | mem m =>
    have := hr (m.get t) rest e he hd
    simp only [Entry.ref] at this
    simp only [Entry.toAMember, amember, this, Out.bind_ok]
    rfl
  | prop m =>
    have := hr m.ser.dflt rest e he hd
    simp only [Entry.ref] at this
    simp only [Entry.toAMember, amemberP, this, Out.bind_ok]
    rfl

theorem deAMemberIf_first {a b : MRef τ} {v : Bytes} {x : a.α}
    (hr : Reads a.ser.de v x) {d : b.α} (hd : Reads b.ser.de b!"null" d) (em : τ → Sink → Out Sink) :
    AReads ⟨em, deAMemberIf a b⟩ (v, fun t => b.set d (a.set x t)) := by
  intro t rest e he hdel
  have h1 := Entry.areads (en := .mem a) hr t rest .fresh rfl hdel
  simp only [Entry.toAMember] at h1
  simp only [deAMemberIf]
  rw [h1, Out.bind_ok]
  have : EPtr.fresh.failed = false := rfl
  simp only [this, Bool.not_false, if_true, readNull_eq hd, Out.bind_ok]
  rfl

theorem deAMemberIf_second {a b : MRef τ} {v : Bytes} {x : b.α}
    (hrej : Rejects a.ser.de v) (hr : Reads b.ser.de v x) {d : a.α} (hd : Reads a.ser.de b!"null" d)
    (hss : ∀ x y t, a.set x (a.set y t) = a.set x t) (em : τ → Sink → Out Sink) :
    AReads ⟨em, deAMemberIf a b⟩ (v, fun t => b.set x (a.set d t)) := by
  intro t rest e he hdel
  obtain ⟨v1, p, e', h3, h4⟩ := hrej (a.get t) rest hdel
  have hfirst : (amember a).de t (v ++ rest) .fresh = .ok (a.set v1 t, p, e') := by
    simp only [amember, h3, Out.bind_ok]
  simp only [deAMemberIf]
  rw [hfirst, Out.bind_ok]
  simp only [h4, Bool.not_true, Bool.false_eq_true, if_false, readNull_eq hd, Out.bind_ok, hss]
  exact Entry.areads (en := .mem b) hr (a.set d t) rest e he hdel

theorem items1_split {α : Type} {item : α → Bytes → Prop} {R : Byte} {vs : List α} {r : Bytes} (h : Items1 item R vs r) :
    ∃ g w, r = g ++ w ∧ Gap g ∧ Start w := by
  have hap : ∀ {t : Bytes} (u : Bytes), Start t → Start (t ++ u) := by
    rintro _ u ⟨b, t, rfl, h⟩
    exact ⟨b, t ++ u, rfl, h⟩
  cases h with
  | @last g1 v t g2 h1 h2 _ _ => exact ⟨g1, t ++ (g2 ++ [R]), by simp, h1, hap _ h2⟩
  | @more g1 v t g2 _ r h1 h2 _ _ _ => exact ⟨g1, t ++ (g2 ++ c%',' :: r), by simp, h1, hap _ h2⟩

/-- The elements are read by the members one after the other. -/
inductive AChain : List (AMember τ) → List Bytes → τ → τ → Prop
  | nil {t} : AChain [] [] t t
  | cons {m L v vs t t1 t2} : ReadsAt m.de t v t1 → AChain L vs t1 t2 → AChain (m :: L) (v :: vs) t t2

theorem AChain.of_all2 {L : List (AMember τ)} {xs : List (Bytes × (τ → τ))} (hx : All2 AReads L xs) (t : τ) :
    AChain L (xs.map Prod.fst) t (applyAll (xs.map Prod.snd) t) := by
  induction hx generalizing t with
  | nil => exact .nil
  | cons hm _ ih => exact .cons (hm t) (ih _)

/-- At most as many items as members. -/
theorem deAMembers_chain {L1 : List (AMember τ)} {vs : List Bytes} {t t' : τ} (hx : AChain L1 vs t t') {r : Bytes}
    (h : Items1 (fun v t => v = t) c%']' vs r) (L2 : List (AMember τ)) (rest : Bytes) {e : EPtr}
    (he : e.failed = false) :
    (parseSpace (r ++ rest) e).2 = e ∧
    deAMembers (L1 ++ L2) t (parseSpace (r ++ rest) e).1 e = .ok (t', c%']' :: rest, e) := by
  induction hx generalizing r with
  | nil => cases h
  | @cons m L1 v vs t t1 t2 hm hx ih =>
    cases h with
    | @last g1 _ _ g2 h1 h2 h3 h4 =>
      subst h3
      cases hx with
      | nil =>
      have hd : Delim (g2 ++ c%']' :: rest) := delim_gap h4 (by decide) rest
      have hs : g1 ++ v ++ g2 ++ [c%']'] ++ rest = g1 ++ (v ++ (g2 ++ c%']' :: rest)) := by simp
      have hr := hm (g2 ++ c%']' :: rest) e he hd
      rw [hs, parseSpace_start h1 h2]
      refine ⟨rfl, ?_⟩
      simp only [List.cons_append, List.nil_append, deAMembers]
      rw [hr, Out.bind_ok]
      simp only
      rw [parseSpace_byte h4 (by decide)]
      simp [amembersEnd]
    | @more g1 _ _ g2 _ r h1 h2 h3 h4 h5 =>
      subst h3
      have hd : Delim (g2 ++ c%',' :: (r ++ rest)) := delim_gap h4 (by decide) _
      have hs : g1 ++ v ++ g2 ++ c%',' :: r ++ rest = g1 ++ (v ++ (g2 ++ c%',' :: (r ++ rest))) := by simp
      have hr := hm (g2 ++ c%',' :: (r ++ rest)) e he hd
      have ih := ih h5
      rw [hs, parseSpace_start h1 h2]
      refine ⟨rfl, ?_⟩
      simp only [List.cons_append, deAMembers]
      rw [hr, Out.bind_ok]
      simp only
      rw [parseSpace_byte h4 (by decide)]
      simp only [if_true]
      rw [ih.1, ih.2, Out.bind_ok]
      simp [amembersEnd]

theorem deObjectArray_open {dflt : τ} {L : List (AMember τ)} (t : τ) (p : Bytes) (e : EPtr) :
    deObjectArray dflt L t (c%'[' :: p) e = objectArrayBody L t p e := by
  have hnull : isNull (c%'[' :: p) = false := rfl
  unfold deObjectArray
  rw [hnull]
  simp

theorem deObjectArray_chain {L1 : List (AMember τ)} {vs : List Bytes} {t t' : τ} (hx : AChain L1 vs t t') {r : Bytes}
    (h : Items1 (fun v t => v = t) c%']' vs r) (L2 : List (AMember τ)) (dflt : τ) :
    ReadsAt (deObjectArray dflt (L1 ++ L2)) t (c%'[' :: r) t' := by
  intro rest e he _
  have hi := deAMembers_chain hx h L2 rest he
  obtain ⟨g, w, rfl, hg, hw⟩ := items1_split h
  rw [List.cons_append, deObjectArray_open]
  unfold objectArrayBody
  rw [List.append_assoc] at hi ⊢
  rw [parseSpace_start hg hw] at hi ⊢
  obtain ⟨b, u, rfl, hb⟩ := hw
  simp only [List.cons_append] at hi ⊢
  rw [if_pos hb.2.2.1, hi.2, Out.bind_ok]
  have := parseSpace_byte (b := c%']') .nil (by decide) rest e
  simp only [List.nil_append] at this
  simp only [this]
  simp [objectArrayEnd]

theorem deObjectArray_items {L1 : List (AMember τ)} {xs : List (Bytes × (τ → τ))} (hx : All2 AReads L1 xs) {r : Bytes}
    (h : Items1 (fun v t => v = t) c%']' (xs.map Prod.fst) r) (L2 : List (AMember τ)) (dflt t : τ) :
    ReadsAt (deObjectArray dflt (L1 ++ L2)) t (c%'[' :: r) (applyAll (xs.map Prod.snd) t) :=
  deObjectArray_chain (AChain.of_all2 hx t) h L2 dflt

theorem deObjectArray_empty {L : List (AMember τ)} (dflt t : τ) {g : Bytes} (hg : Gap g) :
    ReadsAt (deObjectArray dflt L) t (c%'[' :: (g ++ b!"]")) t := by
  intro rest e he _
  have : c%'[' :: (g ++ b!"]") ++ rest = c%'[' :: (g ++ c%']' :: rest) := by simp
  rw [this, deObjectArray_open]
  unfold objectArrayBody
  rw [parseSpace_byte hg (by decide)]
  simp [objectArrayEnd]

/-- Every member has been read and the text goes on after a comma. -/
theorem deAMembers_full {L : List (AMember τ)} {xs : List (Bytes × (τ → τ))} (hx : All2 AReads L xs) {r : Bytes}
    (h : ItemsComma (fun v t => v = t) (xs.map Prod.fst) r) (hne : L ≠ []) (t : τ) {g w : Bytes} (hg : Gap g) (hw : Start w)
    {e : EPtr} (he : e.Clean) :
    (parseSpace (r ++ (g ++ w)) e).2 = e ∧
    ∃ e', deAMembers L t (parseSpace (r ++ (g ++ w)) e).1 e = .ok (applyAll (xs.map Prod.snd) t, [], e') ∧ e'.failed = true := by
  induction hx generalizing r t with
  | nil => exact absurd rfl hne
  | @cons m x L xs hm hx ih =>
    obtain ⟨v, f⟩ := x
    simp only [List.map_cons] at h
    cases h with
    | @cons g1 _ _ g2 _ r h1 h2 h3 h4 h5 =>
      subst h3
      have hd : Delim (g2 ++ c%',' :: (r ++ (g ++ w))) := delim_gap h4 (by decide) _
      have hs : g1 ++ v ++ g2 ++ c%',' :: r ++ (g ++ w) = g1 ++ (v ++ (g2 ++ c%',' :: (r ++ (g ++ w)))) := by simp
      have hr := hm t (g2 ++ c%',' :: (r ++ (g ++ w))) e he.not_failed hd
      rw [hs, parseSpace_start h1 h2]
      refine ⟨rfl, ?_⟩
      simp only [deAMembers]
      rw [hr, Out.bind_ok]
      simp only
      rw [parseSpace_byte h4 (by decide)]
      simp only [if_true]
      cases hx with
      | nil =>
        cases h5 with
        | nil =>
        have := parseSpace_start (rest := []) hg hw e
        simp only [List.append_nil] at this
        simp only [List.nil_append, this, deAMembers, Out.bind_ok]
        obtain ⟨b, u, rfl, hb⟩ := hw
        simp only [amembersEnd, ne_eq, hb.2.2.1, not_false_eq_true, if_true]
        exact ⟨_, rfl, he.create (by decide) _ _⟩
      | @cons m2 x2 L2 xs2 hm2 hx2 =>
        obtain ⟨h6, e', h7, h8⟩ := ih h5 (by simp) (f t)
        rw [h6, h7, Out.bind_ok]
        simp only [amembersEnd]
        exact ⟨_, rfl, (EStep.create (n := 0) (by decide) _ none (by omega) (by omega)).failed_mono h8⟩

theorem deObjectArray_too_many {L : List (AMember τ)} {xs : List (Bytes × (τ → τ))} (hx : All2 AReads L xs) {r : Bytes}
    (h : ItemsComma (fun v t => v = t) (xs.map Prod.fst) r) (dflt t : τ) {g w : Bytes} (hg : Gap g) (hw : Start w)
    {e : EPtr} (he : e.Clean) :
    ∃ e', deObjectArray dflt L t (c%'[' :: (r ++ (g ++ w))) e = .ok (applyAll (xs.map Prod.snd) t, [], e') ∧ e'.failed = true := by
  by_cases hne : L = []
  · subst hne
    cases hx
    cases h
    rw [deObjectArray_open]
    unfold objectArrayBody
    have h1 := parseSpace_start (rest := []) hg hw e
    have h2 := parseSpace_start (rest := []) .nil hw e
    simp only [List.append_nil, List.nil_append] at h1 h2 ⊢
    rw [h1]
    obtain ⟨b, u, rfl, _, _, hb, _⟩ := hw
    simp only [hb, ne_eq, not_false_eq_true, if_true, deAMembers, Out.bind_ok, h2, objectArrayEnd]
    exact ⟨_, rfl, he.create (by decide) _ _⟩
  obtain ⟨h1, e', h2, h3⟩ := deAMembers_full hx h hne t hg hw he
  rw [deObjectArray_open]
  unfold objectArrayBody
  have hstart : ∃ b u, (parseSpace (r ++ (g ++ w)) e).1 = b :: u ∧ b ≠ c%']' := by
    generalize hl : xs.map Prod.fst = vs at h
    cases h with
    | nil => cases hx with | nil => exact absurd rfl hne | cons _ _ => simp at hl
    | @cons g1 _ v g2 _ r k1 k2 k3 k4 k5 =>
      have hs : g1 ++ v ++ g2 ++ c%',' :: r ++ (g ++ w) = g1 ++ (v ++ (g2 ++ c%',' :: (r ++ (g ++ w)))) := by simp
      rw [hs, parseSpace_start k1 k2]
      obtain ⟨b, u, rfl, hb⟩ := k2
      exact ⟨b, _, rfl, hb.2.2.1⟩
  obtain ⟨b, u, hb, hbne⟩ := hstart
  generalize parseSpace (r ++ (g ++ w)) e = x at h1 h2 hb ⊢
  obtain ⟨x1, x2⟩ := x
  simp only at h1 h2 hb ⊢
  subst h1 hb
  simp only
  rw [if_pos hbne, h2, Out.bind_ok]
  exact ⟨_, rfl, (EStep.create (n := 0) (by decide) _ none (by omega) (by omega)).failed_mono h3⟩

/-! ### Writing -/

theorem emitAMembers_writes {L : List (AMember τ)} {t : τ} {ts : List Bytes} (h : All2 (fun m s => ∀ k, m.emit t k = k.puts s) L ts)
    (k : Sink) : emitAMembers L t k = k.puts (joinComma ts) := by
  induction h generalizing k with
  | nil => rfl
  | @cons m s L ts hm hL ih =>
    cases hL with
    | nil => exact hm k
    | @cons m' s' L ts hm' hL =>
      simp only [emitAMembers, joinComma]
      rw [hm k, Sink.puts_append]
      congr 1
      funext k1
      rw [Sink.puts_cons]
      congr 1
      funext k2
      exact ih k2

theorem emitObjectArray_writes {L : List (AMember τ)} {t : τ} {ts : List Bytes}
    (h : All2 (fun m s => ∀ k, m.emit t k = k.puts s) L ts) :
    Writes (emitObjectArray L) t (c%'[' :: joinComma ts ++ b!"]") := by
  intro k
  unfold emitObjectArray
  simp only [List.cons_append]
  rw [Sink.puts_cons]
  congr 1
  funext k1
  rw [emitAMembers_writes h, Sink.puts_append]
  congr 1
  funext k2
  exact Sink.put_eq k2 _

end

end Wjson
