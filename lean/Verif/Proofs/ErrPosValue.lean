import Verif.Proofs.ErrPos
/-
Positions of the errors of the validating parser: members, loops and values.
-/
namespace Wjson
open Spec

variable {c : Cfg} {cl : Byte} {item L : Bytes → EPtr → Out (Bytes × EPtr)}

theorem bytes_split {u s : Bytes} {b : Byte} {r : Bytes} (h : s = u ++ b :: r) :
    ∀ v, (u ++ b :: v).head? = s.head? := by
  intro v; subst h; cases u <;> rfl

/-! ### Loops -/

/-- One item and the gaps around it. -/
theorem loop_step (h : IsLoop c cl item L) {s p m : Bytes} {b : Byte} {t : Bytes}
    (hq : Acc (parseSpace s) (b :: t)) (hb : b ≠ cl) (hi : AccO (item (b :: t)) p) (hm : Acc (parseSpace p) m) :
    L s = loopA cl L m := by
  have hs : ¬ (s = [] ∨ s.head? = some cl) := by
    rintro (rfl | hs)
    · have := hq .null; simp [parseSpace, spaceLoop] at this
    · cases s with
      | nil => simp at hs
      | cons z s =>
        simp at hs; subst hs
        have : Acc (parseSpace (z :: s)) (z :: s) := spaceLoop_false_stop (.cons h.stop.1)
        have := hq.unique this
        simp at this; exact hb this.1
  funext e
  rw [h.eqn, if_neg hs]
  simp only [hq e]
  rw [loopC_cons hb]
  simp only [hi e, Out.bind_ok, loopB, hm e]

theorem loopA_cl (h : IsLoop c cl item L) (y : Bytes) : AccO (loopA cl L (cl :: y)) y := by
  intro e
  rw [loopA, if_neg (by simp), if_neg h.stop.2.2, loop_cl h]

theorem delim_cl (h : cl = c%']' ∨ cl = c%'}') (y : Bytes) : Delim (cl :: y) :=
  Delim.of_head rfl (by rcases h with rfl | rfl <;> decide)

theorem parseSpace_gap_eq {g b' t'} (h : Acc (parseSpace g) (b' :: t')) :
    ∃ g', g = g' ++ b' :: t' ∧ Gap g' ∧ (¬ WsByte b' ∧ b' ≠ c%'/') ∧ (g'.getLast? = some c%'/' → b' ≠ c%'*') := by
  obtain ⟨g', rfl, h1, h2, h3⟩ := parseSpace_acc_iff.mp h
  exact ⟨g', rfl, h1, h2 b' rfl, fun hl => by simpa using h3 hl⟩

/-- Same first byte, same gap. -/
theorem parseSpace_same {g q q' : Bytes} (h : Acc (parseSpace (g ++ q)) q) (hg : Gap g) (hh : q'.head? = q.head?) :
    Acc (parseSpace (g ++ q')) q' := by
  obtain ⟨g', h1, h2, h3, h4⟩ := parseSpace_acc_iff.mp h
  have : g = g' := List.append_cancel_right h1
  subst this
  exact parseSpace_acc_iff.mpr ⟨g, rfl, hg, fun b hb => h3 b (by rw [← hh]; exact hb), fun hl => by rw [hh]; exact h4 hl⟩

/-- What the loops need to know about their items. -/
structure ItemOk (cl : Byte) (item : Bytes → EPtr → Out (Bytes × EPtr)) : Prop where
  loc : ∀ s p, AccO (item s) p → ∃ t, s = t ++ p ∧ ∀ y, (y.head? = p.head? ∨ Delim y) → AccO (item (t ++ y)) y
  start : ∀ s p, AccO (item s) p → ∃ b t, s = b :: t ∧ (¬ WsByte b ∧ b ≠ c%'/') ∧ b ≠ cl ∧ b ≠ c%'*'

theorem reported_cl {u r : Bytes} (hcl : cl = c%']' ∨ cl = c%'}') :
    Reported ⟨.ExpectedOf, some [cl], (r.length : Nat)⟩ u r :=
  .exact (by decide) (by rcases hcl with rfl | rfl <;> decide) rfl

theorem told_cl {f : Bytes → EPtr → Out (Bytes × EPtr)} {u r : Bytes} (hcl : cl = c%']' ∨ cl = c%'}')
    (h : ∀ y, AccO (f (u ++ ([cl] ++ y))) y) : Told f ⟨.ExpectedOf, some [cl], (r.length : Nat)⟩ u r :=
  ⟨reported_cl hcl, .token rfl rfl (.inr (by rcases hcl with rfl | rfl <;> simp)) ⟨[], fun y _ => by
    rw [List.nil_append, List.append_assoc]; exact h y⟩⟩

theorem loop_blame (h : IsLoop c cl item L) (hcl : cl = c%']' ∨ cl = c%'}') (hok : ItemOk cl item) (n : Nat)
    (hitem : ∀ s x, s.length ≤ n → ErrO (item s) x → Blame item s x) :
    ∀ s x, s.length ≤ n → ErrO (L s) x → Blame L s x := by
  intro s
  induction hn : s.length using Nat.strongRecOn generalizing s with
  | ind k ih =>
    subst hn
    intro x hlen hx
    have hgap : ∀ {g : Bytes} (_ : Gap g) (y : Bytes), AccO (L (g ++ ([cl] ++ y))) y := fun hg y =>
      (loop_acc_iff h).mpr (.inl ⟨_, hg, rfl⟩)
    have hlift : ∀ {g : Bytes} (_ : Gap g) (u w : Bytes), (∀ y, Delim y → AccO (item (u ++ (w ++ y))) y) →
        ∃ w', ∀ y, Delim y → AccO (L (g ++ (u ++ (w' ++ y)))) y := by
      intro g hg u w hw
      refine ⟨w ++ [cl], fun y hy => ?_⟩
      have h5 := hw (cl :: y) (delim_cl hcl y)
      obtain ⟨b', t', e1, e2, e3, e4⟩ := hok.start _ _ h5
      have e5 : g ++ (u ++ (w ++ [cl] ++ y)) = g ++ (b' :: t') := by rw [← e1]; simp
      rw [e1] at h5
      have e6 : Acc (parseSpace (cl :: y)) (cl :: y) := spaceLoop_false_stop (.cons h.stop.1)
      rw [e5, loop_step h (parseSpace_of_gap hg e2 e4) e3 h5 e6]
      exact loopA_cl h y
    by_cases hs : s = [] ∨ s.head? = some cl
    · have h0 : L s = fun e => .ok (closeWith cl s e) := by funext e; rw [h.eqn, if_pos hs]
      cases s with
      | nil =>
        rw [h0] at hx
        have h1 : ErrO (fun e => .ok (closeWith cl [] e)) ⟨.ExpectedOf, some [cl], 0⟩ := .mk' (by decide)
        rw [hx.unique h1]
        exact .of_end (told_cl (r := []) hcl fun y => hgap .nil y) [cl] fun y _ => hgap .nil y
      | cons z s =>
        simp at hs; subst hs
        exact absurd (show AccO (L (z :: s)) s from fun e => by rw [loop_cl h]) hx.not_acc
    · have h0 : L s = fun e => loopC c cl item L (parseSpace s e).1 (parseSpace s e).2 := by
        funext e; rw [h.eqn, if_neg hs]
      rw [h0] at hx
      rcases ErrO.bindAt_inv (parseSpace_scan s) (loopC_nil_scan h) hx with h1 | ⟨q, h1, h2⟩
      · -- unterminated comment before an item
        refine .of_end ((parseSpace_err h1).1 _ _) (b!"*/" ++ [cl]) fun y _ => ?_
        have h3 := parseSpace_uncomment h1 (t := y) h.stop.1 h.stop.2.1
        obtain ⟨g, h4, hg, _, _⟩ := parseSpace_acc_iff.mp h3
        have : s ++ (b!"*/" ++ [cl] ++ y) = g ++ ([cl] ++ y) := by
          rw [List.append_assoc]; exact h4
        rw [this]; exact hgap hg y
      · obtain ⟨g, rfl, hg, hst, hstar⟩ := parseSpace_acc_iff.mp h1
        cases q with
        | nil =>
          simp only [List.append_nil] at *
          refine .of_end ?_ [cl] fun y _ => hgap hg y
          obtain ⟨x', hx', _, hi⟩ := h.item_nil
          have hxe := h2
          unfold loopC deref at h2
          cases hp : c.past with
          | none => have := h2.2 .null; simp [hp] at this
          | some z =>
            simp only [hp, Out.bind_ok] at h2
            by_cases hz : z = cl
            · simp only [hz, if_true] at h2
              have h3 : ErrO (fun e => .ok (closeWith cl [] e)) ⟨.ExpectedOf, some [cl], 0⟩ := .mk' (by decide)
              rw [h2.unique h3]
              exact told_cl (r := []) hcl fun y => hgap hg y
            · simp only [hz, if_false] at h2
              rcases ErrO.bind_inv (h.item_scan []) loopB_nil_scan h2 with h3 | ⟨p, h3, _⟩
              · obtain ⟨u, r, hu, hr, _⟩ := hitem [] x (by simp) h3
                obtain ⟨rfl, rfl⟩ := List.append_eq_nil_iff.mp hu.symm
                have hd := hr.2.mono (V' := Fits L) (pre := g) fun z ⟨w, hw⟩ => by
                  obtain ⟨w', hw'⟩ := hlift hg z w hw
                  exact ⟨w', fun y hy => by simpa using hw' y hy⟩
                exact ⟨by simpa using hr.1.mono (pre := g), by simpa using hd⟩
              · obtain ⟨b, t, hb, _⟩ := hok.start _ _ h3
                simp at hb
        | cons b t =>
          by_cases hb : b = cl
          · subst hb
            rw [loopC_cons_cl] at h2
            exact absurd (show AccO (fun e => .ok (t, e)) t from fun e => rfl) h2.not_acc
          · rw [loopC_cons hb] at h2
            rcases ErrO.bind_inv (h.item_scan (b :: t)) loopB_nil_scan h2 with h3 | ⟨p, h3, h4⟩
            · -- the item is wrong
              refine (hitem (b :: t) x (by simp at hlen ⊢; omega) h3).lift ?_ ?_
              · exact hlift hg
              · intro u b' r' v p hu hp
                have hh : (u ++ b' :: v).head? = (b :: t).head? := bytes_split hu v
                have h5 := parseSpace_same h1 hg hh
                cases hq : u ++ b' :: v with
                | nil => simp at hq
                | cons z q =>
                  rw [hq] at hh h5 hp
                  simp at hh; subst hh
                  have hs' : ¬ (g ++ z :: q = [] ∨ (g ++ z :: q).head? = some cl) := by
                    intro h'
                    apply hs
                    cases g with
                    | nil => simpa using h'
                    | cons a g => simpa using h'
                  have h6 : L (g ++ z :: q) = fun e => loopC c cl item L (parseSpace (g ++ z :: q) e).1
                      (parseSpace (g ++ z :: q) e).2 := by
                    funext e; rw [h.eqn, if_neg hs']
                  rw [h6] at hp
                  obtain ⟨q', h7, h8⟩ := AccO.bindAt_inv (parseSpace_scan _) (loopC_nil_scan h) hp
                  have := h5.unique h7
                  subst this
                  rw [loopC_cons hb] at h8
                  obtain ⟨p', h9, _⟩ := AccO.bind_inv (h.item_scan _) loopB_nil_scan h8
                  exact ⟨p', h9⟩
            · obtain ⟨it, e1, hloc⟩ := hok.loc _ _ h3
              have start : ∀ y, (y.head? = p.head? ∨ Delim y) → ∃ t', it ++ y = b :: t' := by
                intro y hy
                obtain ⟨b', t', e2, _⟩ := hok.start _ _ (hloc y hy)
                cases it with
                | nil =>
                  -- the item has consumed something
                  exfalso
                  have h5 := hloc [cl] (.inr (delim_cl hcl []))
                  obtain ⟨b', t', e3, _, e4, _⟩ := hok.start _ _ h5
                  simp at e3; exact e4 e3.1.symm
                | cons a it => simp at e1; exact ⟨it ++ y, by rw [e1.1]; rfl⟩
              have step : ∀ y m, (y.head? = p.head? ∨ Delim y) → Acc (parseSpace y) m →
                  L (g ++ (it ++ y)) = loopA cl L m := by
                intro y m hy hm
                obtain ⟨t', e2⟩ := start y hy
                have h5 := hloc y hy
                rw [e2] at h5 ⊢
                exact loop_step h (parseSpace_same h1 hg rfl) hb h5 hm
              rw [e1]
              rcases ErrO.bindAt_inv (c := c) (k := loopA cl L) (parseSpace_scan p)
                (ScanO.err c [] .ExpectedOf (some [cl]) 0 (by decide) (by decide) (by simp)) h4 with h5 | ⟨m, h5, h6⟩
              · refine .of_end ((parseSpace_err h5).1 _ _) (b!"*/" ++ [cl]) fun y _ => ?_
                have h7 := parseSpace_uncomment h5 (t := y) h.stop.1 h.stop.2.1
                have : g ++ (it ++ p) ++ (b!"*/" ++ [cl] ++ y) = g ++ (it ++ (p ++ (b!"*/" ++ cl :: y))) := by simp
                rw [this, step _ _ (.inl ?_) h7]
                · exact loopA_cl h y
                · cases p with
                  | nil => exact absurd rfl (parseSpace_err h5).2
                  | cons a p => rfl
              · obtain ⟨g2, rfl, hg2, hst2, hstar2⟩ := parseSpace_acc_iff.mp h5
                have close : ∀ y, AccO (L (g ++ (it ++ (g2 ++ ([cl] ++ y))))) y := by
                  intro y
                  rw [List.singleton_append, step _ (cl :: y) (.inr (gap_delim hg2 (delim_cl hcl y))) (parseSpace_of_gap hg2 h.stop.1 h.stop.2.1)]
                  exact loopA_cl h y
                have same : ∀ z m' v, m = z :: m' → L (g ++ (it ++ (g2 ++ z :: v))) = loopA cl L (z :: v) := by
                  rintro z m' v rfl
                  refine step _ _ (.inl ?_) (parseSpace_same h5 hg2 rfl)
                  cases g2 <;> rfl
                cases m with
                | nil =>
                  rw [h6.unique (ErrO.mk' (code := .ExpectedOf) (m := some [cl]) (t := 0) (by decide))]
                  have close' : ∀ y, AccO (L (g ++ (it ++ (g2 ++ [])) ++ ([cl] ++ y))) y := fun y => by
                    have := close y
                    simpa using this
                  exact .of_end (told_cl (r := []) hcl close') [cl] fun y _ => close' y
                | cons z m =>
                  by_cases hz : z ≠ c%',' ∧ z ≠ cl
                  · have hbad : ∀ v, ErrO (loopA cl L (z :: v)) ⟨.ExpectedOf, some [cl], ((z :: v).length : Nat)⟩ := by
                      intro v
                      refine ⟨by simp, fun e => ?_⟩
                      rw [loopA, if_pos hz]; rfl
                    rw [h6.unique (hbad m)]
                    have close' : ∀ y, AccO (L (g ++ (it ++ g2) ++ ([cl] ++ y))) y := fun y => by
                      have := close y
                      simpa using this
                    refine ⟨g ++ (it ++ g2), z :: m, by simp, told_cl hcl close', ⟨[cl], fun y _ => close' y⟩, ?_⟩
                    · rintro b' r' hr v p' hp'
                      cases hr
                      have e2 : g ++ (it ++ g2) ++ z :: v = g ++ (it ++ (g2 ++ z :: v)) := by simp
                      rw [e2, same z m v rfl] at hp'
                      exact (hbad v).not_acc hp'
                  · by_cases hc : z = c%','
                    · subst hc
                      have hA : ∀ v, loopA cl L (c%',' :: v) = L v := by
                        intro v; funext e; rw [loopA, if_neg hz, if_pos rfl]
                      rw [hA] at h6
                      have hl : m.length < (g ++ b :: t).length := by
                        rw [e1]; simp; omega
                      have := (ih m.length hl m rfl x (by omega) h6).lift_eq (f' := L) (pre := g ++ (it ++ (g2 ++ [c%',']))) (by
                        intro y
                        have e2 : g ++ (it ++ (g2 ++ [c%','])) ++ y = g ++ (it ++ (g2 ++ c%',' :: y)) := by simp
                        rw [e2, same _ m y rfl, hA])
                      simpa using this
                    · have hzl : z = cl := by
                        apply Decidable.byContradiction; intro hn; exact hz ⟨hc, hn⟩
                      subst hzl
                      exact absurd (loopA_cl h m) h6.not_acc

/-! ### Members -/

theorem value_zero {y : Bytes} (hy : Delim y) : AccO (parseValue c (b!"0" ++ y)) y :=
  parseValue_acc_iff.mpr ⟨b!"0", rfl, .num ⟨[], b!"0", [], [], by simp, .inl rfl, .inl rfl, .inl rfl, .inl rfl⟩,
    fun _ => hy.numFollow _⟩

theorem value_loc (s p : Bytes) (h : AccO (parseValue c s) p) :
    ∃ t, s = t ++ p ∧ ∀ y, (y.head? = p.head? ∨ Delim y) → AccO (parseValue c (t ++ y)) y := by
  obtain ⟨t, h1, h2, h3⟩ := parseValue_acc_iff.mp h
  refine ⟨t, h1, fun y hy => parseValue_acc_iff.mpr ⟨t, rfl, h2, fun hn => ?_⟩⟩
  rcases hy with hy | hy
  · intro b hb; exact h3 hn b (by rw [← hy]; exact hb)
  · exact hy.numFollow _

theorem value_start (s p : Bytes) (h : AccO (parseValue c s) p) :
    ∃ b t, s = b :: t ∧ (¬ WsByte b ∧ b ≠ c%'/') ∧ b ≠ c%']' ∧ b ≠ c%'*' := by
  obtain ⟨t, rfl, h2, _⟩ := parseValue_acc_iff.mp h
  obtain ⟨b, u, rfl, hb⟩ := xvalue_head h2
  have := valueStart_stop hb
  exact ⟨b, u ++ p, rfl, this.1, this.2.2.1, this.2.1⟩

theorem value_ok : ItemOk c%']' (parseValue c) := ⟨value_loc, value_start⟩

theorem member_loc (s p : Bytes) (h : AccO (parseMember c s) p) :
    ∃ t, s = t ++ p ∧ ∀ y, (y.head? = p.head? ∨ Delim y) → AccO (parseMember c (t ++ y)) y := by
  obtain ⟨k, g1, g2, b, t, hk, hg1, hg2, rfl, hst, hstar, hv⟩ := parseMember_acc_iff.mp h
  obtain ⟨v, e1, h1⟩ := value_loc _ _ hv
  refine ⟨k ++ (g1 ++ c%':' :: (g2 ++ v)), by rw [e1]; simp, fun y hy => ?_⟩
  have h2 := h1 y hy
  obtain ⟨b', t', e2, h3, _, h4⟩ := value_start _ _ h2
  refine parseMember_acc_iff.mpr ⟨k, g1, g2, b', t', hk, hg1, hg2, by rw [← e2]; simp, h3, fun _ => h4, by rw [← e2]; exact h2⟩

theorem member_start (s p : Bytes) (h : AccO (parseMember c s) p) :
    ∃ b t, s = b :: t ∧ (¬ WsByte b ∧ b ≠ c%'/') ∧ b ≠ c%'}' ∧ b ≠ c%'*' := by
  obtain ⟨k, g1, g2, b, t, ⟨u, _, rfl⟩, _, _, rfl, _⟩ := parseMember_acc_iff.mp h
  exact ⟨_, _, rfl, by decide, by decide, by decide⟩

theorem member_ok : ItemOk c%'}' (parseMember c) := ⟨member_loc, member_start⟩

theorem member_viable {k g1 g2 : Bytes} (hk : XString k) (hg1 : Gap g1) (hg2 : Gap g2) {y : Bytes} (hy : Delim y) :
    AccO (parseMember c (k ++ (g1 ++ c%':' :: (g2 ++ (b!"0" ++ y))))) y :=
  parseMember_acc_iff.mpr ⟨k, g1, g2, c%'0', y, hk, hg1, hg2, rfl, by decide, by simp, value_zero hy⟩

theorem member_fits {k : Bytes} (hk : XString k) : Fits (parseMember c) k :=
  ⟨b!":0", fun _ hy => member_viable (g1 := []) (g2 := []) hk .nil .nil hy⟩

theorem value_fits {v : Bytes} (hv : XValue v) : Fits (parseValue c) v :=
  ⟨[], fun y hy => value_complete c (k := .value) hv y (fun _ => hy.numFollow _)⟩

theorem xstring_empty : XString b!"\"\"" := ⟨[], .nil, rfl⟩

theorem gap_colon {g : Bytes} {y : Bytes} (h : Acc (parseSpace g) (c%':' :: y)) :
    ∃ g', g = g' ++ c%':' :: y ∧ Gap g' := by
  obtain ⟨g', h1, h2, _⟩ := parseSpace_acc_iff.mp h
  exact ⟨g', h1, h2⟩

theorem reported_code {code : Code} (h : code ≠ .InvalidNumber) (h' : code ≠ .UnexpectedEndFragment) {u : Bytes} (r : Bytes) :
    Reported ⟨code, none, (r.length : Nat)⟩ u r := .exact h (by decide) rfl (fun h => absurd h h')

private theorem ueScan : ScanO c [] (fun e => .ok ([], createError .UnexpectedEndFragment e)) :=
  ScanO.err c [] .UnexpectedEndFragment none 0 (by decide) (by decide) (by simp)

theorem member_blame (n : Nat) (hval : ∀ s x, s.length ≤ n → ErrO (parseValue c s) x → Blame (parseValue c) s x) :
    ∀ s x, s.length ≤ n → ErrO (parseMember c s) x → Blame (parseMember c) s x := by
  intro s x hlen hx
  cases hs : isString s with
  | false =>
    have h0 : ∀ s, isString s = false →
        parseMember c s = fun e => .ok ([], createError .InvalidMember e none (s.length : Nat)) := by
      intro s hs; funext e; rw [parseMember_eq]; simp [hs]
    rw [h0 s hs] at hx
    rw [hx.unique (ErrO.mk' (by decide))]
    refine ⟨[], s, rfl, ⟨reported_code (by decide) (by decide) s, .member rfl fun k hk => member_fits hk⟩,
      ⟨b!"\"\":0", fun y hy => ?_⟩, ?_⟩
    · exact member_viable (g1 := []) (g2 := []) xstring_empty .nil .nil hy
    · rintro b r' rfl v p hp
      have : isString (b :: v) = false := by simpa [isString] using hs
      rw [List.nil_append, h0 _ this] at hp
      exact not_accO_err (by decide) hp
  | true =>
    cases s with
    | nil => simp [isString] at hs
    | cons b t =>
    have hb : b = c%'"' := by simpa [isString] using hs
    subst hb
    have hfun : ∀ y, parseMember c (c%'"' :: y) =
        fun e => memD c (parseString (c%'"' :: y) e).1 (parseString (c%'"' :: y) e).2 :=
      fun y => funext (parseMember_eq' c rfl)
    rw [hfun] at hx
    rcases ErrO.bindAt_inv (c := c) (k := memD c) (parseString_scan (c%'"' :: t)) ueScan hx with h1 | ⟨q1, h1, h2⟩
    · -- the name is wrong
      obtain ⟨u, r, hu, hr, ⟨w, hw⟩, hn⟩ := parseString_blame h1
      have hd : Diag x (Fits (parseMember c)) u := by
        rcases parseString_codes h1 with hc | hc
        · exact .string (a := []) hc (inString_of h1 hu hw hn) fun k hk => member_fits hk
        · exact .fin hc
      refine ⟨u, r, hu, ⟨hr, hd⟩, ⟨w ++ b!":0", fun y hy => ?_⟩, ?_⟩
      · have h3 := hw (c%':' :: (b!"0" ++ y)) (Delim.of_head rfl (by decide))
        obtain ⟨k, h4, hk⟩ := parseString_acc_iff.mp h3
        have e1 : u ++ (w ++ b!":0" ++ y) = k ++ ([] ++ c%':' :: ([] ++ (b!"0" ++ y))) := by
          rw [List.nil_append, List.nil_append, ← h4]; simp
        rw [e1]
        exact member_viable hk .nil .nil hy
      · rintro b r' rfl v p hp
        have hd := bytes_split hu v
        cases hq : u ++ b :: v with
        | nil => simp at hq
        | cons z q =>
          rw [hq] at hd hp
          simp at hd; subst hd
          rw [hfun] at hp
          obtain ⟨q', h3, _⟩ := AccO.bindAt_inv (c := c) (k := memD c) (parseString_scan _) ueScan hp
          rw [← hq] at h3
          exact hn b r' rfl v q' h3
    · obtain ⟨k, e1, hk⟩ := parseString_acc_iff.mp h1
      have hD : ∀ y, parseMember c (k ++ y) = memD c y := by
        intro y
        have h3 : Acc (parseString (k ++ y)) y := parseString_acc_iff.mpr ⟨k, rfl, hk⟩
        obtain ⟨ku, _, rfl⟩ := hk
        have : c%'"' :: ku ++ b!"\"" ++ y = c%'"' :: (ku ++ b!"\"" ++ y) := by simp
        rw [this] at h3 ⊢
        rw [hfun]
        funext e
        simp only [h3 e]
      rw [e1] at hlen ⊢
      cases q1 with
      | nil =>
        rw [h2.unique (ErrO.mk' (code := .UnexpectedEndFragment) (by decide)), List.append_nil]
        exact .of_end told_ue b!":0" fun y hy => member_viable (g1 := []) (g2 := []) hk .nil .nil hy
      | cons b1 t1 =>
        rcases ErrO.bindAt_inv (c := c) (k := memC c) (parseSpace_scan (b1 :: t1)) ueScan h2 with h3 | ⟨q2, h3, h4⟩
        · -- unterminated comment after the name
          refine .of_end ((parseSpace_err h3).1 _ _) (b!"*/" ++ b!":0") fun y hy => ?_
          obtain ⟨g, e2, hg⟩ := gap_colon (parseSpace_uncomment h3 (b := c%':') (t := b!"0" ++ y) (by decide) (by decide))
          have e3 : k ++ b1 :: t1 ++ (b!"*/" ++ b!":0" ++ y) = k ++ (g ++ c%':' :: ([] ++ (b!"0" ++ y))) := by
            rw [List.nil_append, ← e2]; simp
          rw [e3]
          exact member_viable hk hg .nil hy
        · obtain ⟨g1, e2, hg1, hst, hstar⟩ := parseSpace_acc_iff.mp h3
          have hC : ∀ q', q'.head? = q2.head? → g1 ++ q' ≠ [] → parseMember c (k ++ (g1 ++ q')) = memC c q' := by
            intro q' hh hne
            rw [hD]
            have h5 : Acc (parseSpace (g1 ++ q')) q' := parseSpace_same (by rw [← e2]; exact h3) hg1 hh
            funext e
            cases hq : g1 ++ q' with
            | nil => exact absurd hq hne
            | cons a r => rw [hq] at h5; simp only [memD, h5 e]
          rw [e2] at hlen ⊢
          cases q2 with
          | nil =>
            rw [h4.unique (ErrO.mk' (code := .UnexpectedEndFragment) (by decide)), List.append_nil]
            refine .of_end told_ue b!":0" fun y hy => ?_
            have := member_viable (c := c) hk hg1 (g2 := []) .nil hy
            simpa using this
          | cons b2 t2 =>
            by_cases hb2 : b2 = c%':'
            · subst hb2
              have hB : ∀ y, parseMember c (k ++ (g1 ++ c%':' :: y)) = memB c y := by
                intro y
                rw [hC (c%':' :: y) rfl (by simp)]
                funext e; simp [memC]
              have h4' : ErrO (memB c t2) x := by
                have : memC c (c%':' :: t2) = memB c t2 := by funext e; simp [memC]
                rwa [this] at h4
              cases t2 with
              | nil =>
                rw [h4'.unique (ErrO.mk' (code := .UnexpectedEndFragment) (by decide))]
                refine .of_end told_ue b!"0" fun y hy => ?_
                have := member_viable (c := c) hk hg1 (g2 := []) .nil hy
                simpa using this
              | cons b3 t3 =>
                rcases ErrO.bindAt_inv (c := c) (k := memA c) (parseSpace_scan (b3 :: t3)) ueScan h4' with h5 | ⟨q3, h5, h6⟩
                · -- unterminated comment before the value
                  refine .of_end ((parseSpace_err h5).1 _ _) (b!"*/" ++ b!"0") fun y hy => ?_
                  obtain ⟨g, e3, hg, _⟩ := parseSpace_acc_iff.mp (parseSpace_uncomment h5 (b := c%'0') (t := y) (by decide) (by decide))
                  have e4 : k ++ (g1 ++ c%':' :: b3 :: t3) ++ (b!"*/" ++ b!"0" ++ y) =
                      k ++ (g1 ++ c%':' :: (g ++ (b!"0" ++ y))) := by
                    have : b3 :: t3 ++ (b!"*/" ++ c%'0' :: y) = g ++ (b!"0" ++ y) := e3
                    rw [← this]; simp
                  rw [e4]
                  exact member_viable hk hg1 hg hy
                · obtain ⟨g2, e3, hg2, hst3, hstar3⟩ := parseSpace_acc_iff.mp h5
                  rw [e3] at hlen ⊢
                  cases q3 with
                  | nil =>
                    rw [h6.unique (ErrO.mk' (code := .UnexpectedEndFragment) (by decide)), List.append_nil]
                    refine .of_end told_ue b!"0" fun y hy => ?_
                    have := member_viable (c := c) hk hg1 hg2 hy
                    simpa using this
                  | cons b4 t4 =>
                    have hv := hval (b4 :: t4) x (by simp at hlen ⊢; omega) h6
                    have := hv.lift (f' := parseMember c) (pre := k ++ (g1 ++ c%':' :: g2)) ?_ ?_
                    · simpa using this
                    · intro u w hw
                      refine ⟨w, fun y hy => ?_⟩
                      have h7 := hw y hy
                      obtain ⟨b', t', e4, h8, _, h9⟩ := value_start _ _ h7
                      refine parseMember_acc_iff.mpr ⟨k, g1, g2, b', t', hk, hg1, hg2, by rw [← e4]; simp, h8,
                        fun _ => h9, by rw [← e4]; exact h7⟩
                    · intro u b r' v p hu hp
                      have hh : (u ++ b :: v).head? = (b4 :: t4).head? := bytes_split hu v
                      have h7 : Acc (parseSpace (g2 ++ (u ++ b :: v))) (u ++ b :: v) :=
                        parseSpace_same (by rw [← e3]; exact h5) hg2 hh
                      have e4 : k ++ (g1 ++ c%':' :: g2) ++ (u ++ b :: v) = k ++ (g1 ++ c%':' :: (g2 ++ (u ++ b :: v))) := by simp
                      rw [e4, hB] at hp
                      refine ⟨p, fun e => ?_⟩
                      have h8 := hp e
                      cases hq : g2 ++ (u ++ b :: v) with
                      | nil => simp at hq
                      | cons a r =>
                        rw [hq] at h7 h8
                        simp only [memB, h7 e] at h8
                        cases hq' : u ++ b :: v with
                        | nil => simp at hq'
                        | cons a' r' => rw [hq'] at h8; exact h8
            · -- something else than a colon
              have hbad : ∀ v, ErrO (memC c (b2 :: v)) ⟨.ExpectedOf, some b!":", (v.length : Nat)⟩ := by
                intro v
                refine ⟨by simp, fun e => ?_⟩
                simp [memC, hb2, applyErr]
              rw [h4.unique (hbad t2)]
              have hv : ∀ y, Delim y → AccO (parseMember c (k ++ g1 ++ (b!":0" ++ y))) y := fun y hy => by
                have := member_viable (c := c) hk hg1 (g2 := []) .nil hy
                simpa using this
              refine ⟨k ++ g1, b2 :: t2, by simp, ⟨.inr (.inr (.inl ⟨rfl, rfl, by simp, by simp⟩)),
                .token rfl rfl (.inl rfl) ⟨b!"0", fun y hy => by simpa using hv y hy⟩⟩, ⟨b!":0", hv⟩, ?_⟩
              · rintro b' r' hr v p hp
                cases hr
                rw [List.append_assoc, hC (b2 :: v) rfl (by simp)] at hp
                exact (hbad v).not_acc hp

/-! ### Values -/

theorem parseObject_brace_eq (y : Bytes) :
    parseObject c (c%'{' :: y) = fun e => objK c (parseSpace y e).1 (parseSpace y e).2 := by
  funext e; rw [parseObject_eq, isObject_brace, if_neg (by simp)]; rfl

theorem diag_word {lit u w : Bytes} {x : JError} (hlit : lit = b!"null" ∨ lit = b!"true" ∨ lit = b!"false")
    (h : u ++ w = lit) (hu : u ≠ []) (hw : w ≠ [])
    (hc : x.code = .UnexpectedEndFragment ∨ x.code = .ExpectedOf ∧ x.expectedOf = some lit) :
    Diag x (Fits (parseValue c)) u := by
  rcases hc with hc | ⟨hc, hm⟩
  · exact .fin hc
  · exact .word (a := []) hc hm hlit ⟨hu, w, hw, h.symm⟩ fun v hv => value_fits hv

theorem value_blame (c : Cfg) (n : Nat) :
    ∀ s x, s.length ≤ n → ErrO (parseValue c s) x → Blame (parseValue c) s x := by
  induction n with
  | zero =>
    intro s x hs h
    have : s = [] := List.length_eq_zero_iff.mp (Nat.le_zero.mp hs)
    subst this
    have h0 := funext (fun e => parseValue_nil (c := c) e)
    rw [h0] at h
    rw [h.unique (ErrO.mk' (by decide))]
    exact .of_end ⟨reported_code (by decide) (by decide) [], .value rfl fun v hv => value_fits hv⟩ b!"0"
      fun y hy => value_zero hy
  | succ n ih =>
    intro s x hs h
    cases s with
    | nil =>
      exact ih [] x (by simp) h
    | cons b t =>
      by_cases hb : b = c%'n' ∨ b = c%'t' ∨ b = c%'f' ∨ b = c%'-' ∨ Digit b ∨ b = c%'"' ∨ b = c%'[' ∨ b = c%'{'
      · have scanner : ∀ f : Bytes → EPtr → Bytes × EPtr,
            (∀ y, parseValue c (b :: y) = fun e => .ok (f (b :: y) e)) →
            (∃ v p, Acc (f (b :: v)) p) →
            (Err (f (b :: t)) x → ∃ u r, b :: t = u ++ r ∧ Reported x u r ∧
              (∃ w, ∀ y, Delim y → Acc (f (u ++ (w ++ y))) y) ∧
              (∀ b r', r = b :: r' → ∀ v p, ¬ Acc (f (u ++ b :: v)) p) ∧
              (u ≠ [] → Diag x (Fits (parseValue c)) u)) →
            Blame (parseValue c) (b :: t) x := by
          intro f hf hex hbl
          rw [hf, errO_ok] at h
          obtain ⟨u, r, hu, hr, ⟨w, hw⟩, hn, hdg⟩ := hbl h
          cases u with
          | nil =>
            exfalso
            rw [List.nil_append] at hu
            obtain ⟨v, p, hp⟩ := hex
            exact hn b t hu.symm v p hp
          | cons a u =>
            simp at hu
            obtain ⟨rfl, rfl⟩ := hu
            refine ⟨b :: u, r, rfl, ⟨hr, hdg (by simp)⟩, ⟨w, fun y hy => ?_⟩, ?_⟩
            · have := hw y hy
              rw [List.cons_append, hf, accO_ok]
              exact this
            · rintro b' r' rfl v p hp
              rw [List.cons_append, hf, accO_ok] at hp
              exact hn b' r' rfl v p hp
        rcases hb with rfl | hb
        · refine scanner parseNull (fun y => parseValue_n) ⟨b!"ull", [], parseNull_acc_iff.mpr rfl⟩ fun h => ?_
          obtain ⟨u, r, hu, hr, ⟨w, hw⟩, hn⟩ := parseNull_blame h
          refine ⟨u, r, hu, hr, ⟨w, hw⟩, hn, fun hne => ?_⟩
          have e1 : u ++ w = b!"null" := by
            have := parseNull_acc_iff.mp (hw [] (by intro b hb; simp at hb))
            simpa using this
          refine diag_word (Or.inl rfl) e1 hne ?_ ?_
          · rintro rfl
            simp only [List.append_nil] at e1
            subst e1
            rw [hu] at h
            exact h.not_acc (parseNull_acc_iff.mpr rfl)
          · refine litRest_codes (xs := b!"ull") (p := 1) (s := t) ?_
            have : parseNull (c%'n' :: t) = litRest b!"null" b!"ull" 1 t := by funext e; simp [parseNull]
            rwa [this] at h
        rw [← or_assoc] at hb
        rcases hb with hb | hb
        · refine scanner parseBool (fun y => parseValue_tf hb) ?_ fun h => ?_
          · rcases hb with rfl | rfl
            · exact ⟨b!"rue", [], parseBool_acc_iff.mpr (.inl rfl)⟩
            · exact ⟨b!"alse", [], parseBool_acc_iff.mpr (.inr rfl)⟩
          · obtain ⟨u, r, hu, hr, ⟨w, hw⟩, hn⟩ := parseBool_blame hb h
            refine ⟨u, r, hu, hr, ⟨w, hw⟩, hn, fun hne => ?_⟩
            have e1 : u ++ w = b!"true" ∨ u ++ w = b!"false" := by
              have := parseBool_acc_iff.mp (hw [] (by intro b hb; simp at hb))
              simpa using this
            have hw0 : w ≠ [] := by
              rintro rfl
              simp only [List.append_nil] at e1
              rw [hu] at h
              exact h.not_acc (p := r) (parseBool_acc_iff.mpr (by rcases e1 with rfl | rfl <;> simp))
            cases u with
            | nil => exact absurd rfl hne
            | cons a u =>
              simp at hu
              obtain ⟨rfl, _⟩ := hu
              rcases hb with rfl | rfl
              · have e2 : c%'t' :: u ++ w = b!"true" := by
                  rcases e1 with e1 | e1
                  · exact e1
                  · simp at e1
                refine diag_word (Or.inr (Or.inl rfl)) e2 hne hw0 ?_
                refine litRest_codes (xs := b!"rue") (p := 1) (s := t) ?_
                have : parseBool (c%'t' :: t) = litRest b!"true" b!"rue" 1 t := by funext e; simp [parseBool]
                rwa [this] at h
              · have e2 : c%'f' :: u ++ w = b!"false" := by
                  rcases e1 with e1 | e1
                  · simp at e1
                  · exact e1
                refine diag_word (Or.inr (Or.inr rfl)) e2 hne hw0 ?_
                refine litRest_codes (xs := b!"alse") (p := 1) (s := t) ?_
                have : parseBool (c%'f' :: t) = litRest b!"false" b!"alse" 1 t := by funext e; simp [parseBool]
                rwa [this] at h
        rw [← or_assoc] at hb
        rcases hb with hb | hb
        · refine scanner parseNumber (fun y => parseValue_num hb) ?_ fun h => ?_
          rotate_left
          · obtain ⟨u, r, hu, hr, hl, hd, hn⟩ := parseNumber_blame h
            refine ⟨u, r, hu, ?_, ⟨b!"0", fun y hy => ?_⟩, hn, fun hne => ?_⟩
            · rcases hr with ⟨rfl, rfl⟩ | ⟨rfl, hr⟩
              · exact reported_ue
              · exact reported_num hr
            · have := parseNumber_viable (hd c%'0' (by decide)) hy
              simpa using this
            · rcases hr with ⟨rfl, rfl⟩ | ⟨rfl, hr⟩
              · exact .fin rfl
              · exact .number (a := []) rfl ⟨hl hne, hd⟩ fun v hv => value_fits hv
          have hd : ∀ b, Digit b → RInt [b] := fun b hb => rint_digit hb
          rcases hb with rfl | hb
          · exact ⟨b!"0", [], parseNumber_acc_iff.mpr ⟨b!"-0", rfl, ⟨b!"-", b!"0", [], [], rfl, .inr rfl, .inl rfl,
              .inl rfl, .inl rfl⟩, by intro b hb; simp at hb⟩⟩
          · exact ⟨[], [], parseNumber_acc_iff.mpr ⟨[b], rfl, ⟨[], [b], [], [], rfl, .inl rfl, hd b hb,
              .inl rfl, .inl rfl⟩, by intro b hb; simp at hb⟩⟩
        have hobj : ∀ s x, s.length ≤ n → ErrO (objectLoop c s) x → Blame (objectLoop c) s x :=
          loop_blame objectLoop_isLoop (.inr rfl) member_ok n (member_blame n ih)
        have harr : ∀ s x, s.length ≤ n → ErrO (arrayLoop c s) x → Blame (arrayLoop c) s x :=
          loop_blame arrayLoop_isLoop (.inl rfl) value_ok n ih
        have hlen : t.length ≤ n := by simpa using hs
        rcases hb with rfl | rfl | rfl
        · refine scanner parseString (fun y => parseValue_quote)
            ⟨b!"\"", [], parseString_acc_iff.mpr ⟨b!"\"\"", rfl, xstring_empty⟩⟩ fun h => ?_
          obtain ⟨u, r, hu, hr, ⟨w, hw⟩, hn⟩ := parseString_blame h
          refine ⟨u, r, hu, hr, ⟨w, hw⟩, hn, fun _ => ?_⟩
          rcases parseString_codes h with hc | hc
          · exact .string (a := []) hc (inString_of h hu hw hn) fun k hk => value_fits (.str hk)
          · exact .fin hc
        · -- arrays
          rw [parseValue_bracket] at h
          cases ho : isObject (c%'[' :: t) with
          | true =>
            obtain ⟨g, p, hg, rfl⟩ := isObject_bracket.mp ho
            rw [ho, if_pos rfl] at h
            exact absurd ((parseObject_acc_iff ho).mpr (.inl ⟨g, hg, rfl⟩)) h.not_acc
          | false =>
            rw [ho, if_neg (by simp)] at h
            have h0 : parseArray c (c%'[' :: t) = arrayLoop c t := by
              funext e; rw [parseArray_eq]; simp [isArray]
            rw [h0] at h
            refine (harr t x hlen h).lift (pre := b!"[") ?_ ?_
            · intro u w hw
              refine ⟨w, fun y hy => ?_⟩
              obtain ⟨t', e1, h1⟩ := (value_sound c _).2.1 _ _ (Nat.le_refl _) (hw y hy)
              rw [e1]
              have e2 : b!"[" ++ (t' ++ c%']' :: y) = (c%'[' :: t' ++ b!"]") ++ y := by simp
              rw [e2]
              refine value_complete c (k := .value) ?_ y (fun _ => hy.numFollow _)
              rcases h1 with h1 | h1
              · exact .arr0 h1
              · exact .arr h1
            · intro u b r' v p _ hp
              generalize u ++ b :: v = q at hp ⊢
              have e1 : b!"[" ++ q = c%'[' :: q := rfl
              rw [e1, parseValue_bracket] at hp
              cases ho : isObject (c%'[' :: q) with
              | true =>
                obtain ⟨g, p, hg, rfl⟩ := isObject_bracket.mp ho
                exact ⟨p, (loop_acc_iff arrayLoop_isLoop).mpr (.inl ⟨g, hg, rfl⟩)⟩
              | false =>
                rw [ho, if_neg (by simp), parseArray_acc_iff] at hp
                exact ⟨p, hp⟩
        · -- objects
          rw [parseValue_brace, parseObject_brace_eq] at h
          have viable0 : ∀ {g : Bytes} (_ : Gap g) {y : Bytes}, Delim y →
              AccO (parseValue c (c%'{' :: (g ++ c%'}' :: y))) y := by
            intro g hg y hy
            have e2 : c%'{' :: (g ++ c%'}' :: y) = (c%'{' :: g ++ b!"}") ++ y := by simp
            rw [e2]
            exact value_complete c (k := .value) (.obj0 hg) y (fun _ => hy.numFollow _)
          rcases ErrO.bindAt_inv (c := c) (k := objK c) (parseSpace_scan t) (objectLoop_scan c []) h with h1 | ⟨q, h1, h2⟩
          · refine .of_end ((parseSpace_err h1).1 _ _) (b!"*/" ++ b!"}") fun y hy => ?_
            obtain ⟨g, e1, hg, _⟩ := parseSpace_acc_iff.mp (parseSpace_uncomment h1 (b := c%'}') (t := y) (by decide) (by decide))
            have e2 : c%'{' :: t ++ (b!"*/" ++ b!"}" ++ y) = c%'{' :: (g ++ c%'}' :: y) := by
              rw [← e1]; simp
            rw [e2]; exact viable0 hg hy
          · obtain ⟨g, rfl, hg, hst, hstar⟩ := parseSpace_acc_iff.mp h1
            by_cases hh : q.head? = some c%']'
            · exact absurd (show AccO (objK c q) q.tail from fun e => by rw [objK, if_pos hh]) h2.not_acc
            · have h3 : ErrO (objectLoop c q) x := ⟨h2.1, fun e => by
                have := h2.2 e
                rwa [objK, if_neg hh] at this⟩
              have hbl := hobj q x (by simp at hlen; omega) h3
              refine hbl.lift (pre := c%'{' :: g) ?_ ?_
              · intro u w hw
                refine ⟨w, fun y hy => ?_⟩
                obtain ⟨t', e1, h1⟩ := (value_sound c _).2.2 _ _ (Nat.le_refl _) (hw y hy)
                rw [e1]
                have e2 : c%'{' :: g ++ (t' ++ c%'}' :: y) = (c%'{' :: (g ++ t') ++ b!"}") ++ y := by simp
                rw [e2]
                refine value_complete c (k := .value) ?_ y (fun _ => hy.numFollow _)
                rcases h1 with h1 | h1
                · exact .obj0 (hg.append h1)
                · exact .obj (members_gap hg h1)
              · intro u b r' v p hu hp
                have hh' := bytes_split hu v
                have e1 : c%'{' :: g ++ (u ++ b :: v) = c%'{' :: (g ++ (u ++ b :: v)) := rfl
                rw [e1, parseValue_brace, parseObject_brace_eq] at hp
                have h4 := parseSpace_same h1 hg hh'
                refine ⟨p, fun e => ?_⟩
                have := hp e
                simp only [h4 e] at this
                rwa [objK, if_neg (by rw [hh']; exact hh)] at this
      · rw [parseValue_other hb] at h
        rw [h.unique (ErrO.mk' (by decide))]
        refine ⟨[], b :: t, rfl, ⟨reported_code (by decide) (by decide) _, .value rfl fun v hv => value_fits hv⟩,
          ⟨b!"0", fun y hy => value_zero hy⟩, ?_⟩
        rintro b' r' hr v p hp
        cases hr
        rw [List.nil_append, parseValue_other hb] at hp
        exact not_accO_err (by decide) hp

end Wjson
