import Verif.Spec.Flags
import Verif.Proofs.Enum
import Verif.Proofs.Containers
/-
Flags: safety, reading, writing.
-/
namespace Wjson
open Spec

/-! ### Union -/

section
variable {w : Nat}

theorem orAll_append (a b : List (BitVec w)) : orAll (a ++ b) = orAll a ||| orAll b := by
  induction a with
  | nil => simp [orAll]
  | cons u a ih => simp [orAll, ih, BitVec.or_assoc]

theorem orAll_bit (l : List (BitVec w)) (i : Nat) : (orAll l).getLsbD i = true ↔ ∃ u ∈ l, u.getLsbD i = true := by
  induction l with
  | nil => simp [orAll]
  | cons u l ih => simp [orAll, ih]

theorem flagOn_zero_or {u v : BitVec w} : flagOn u v = true ↔ (u ≠ 0 ∧ u &&& v = u) ∨ v = u := by
  simp [flagOn]

/-- The names written for a union of listed flags have that union. -/
theorem orAll_written {L : List (Bytes × BitVec w)} {us : List (BitVec w)} (hu : ∀ u ∈ us, u ∈ L.map Prod.snd) :
    orAll ((L.filter fun x => flagOn x.2 (orAll us)).map Prod.snd) = orAll us := by
  apply BitVec.eq_of_getLsbD_eq
  intro i _
  rw [Bool.eq_iff_iff, orAll_bit]
  constructor
  · rintro ⟨u, hu1, hu2⟩
    obtain ⟨x, hx1, rfl⟩ := List.mem_map.mp hu1
    obtain ⟨_, hx2⟩ := List.mem_filter.mp hx1
    rcases flagOn_zero_or.mp hx2 with ⟨_, h⟩ | h
    · rw [← h] at hu2
      rw [BitVec.getLsbD_and] at hu2
      simp at hu2
      exact hu2.2
    · rw [h]; exact hu2
  · intro h
    obtain ⟨u, hu1, hu2⟩ := (orAll_bit _ _).mp h
    obtain ⟨x, hx1, rfl⟩ := List.mem_map.mp (hu u hu1)
    refine ⟨x.2, List.mem_map_of_mem (List.mem_filter.mpr ⟨hx1, flagOn_zero_or.mpr (.inl ⟨?_, ?_⟩)⟩), hu2⟩
    · intro h0; rw [h0] at hu2; simp at hu2
    · apply BitVec.eq_of_getLsbD_eq
      intro j _
      rw [BitVec.getLsbD_and, Bool.eq_iff_iff]
      constructor
      · intro h; simp at h; exact h.1
      · intro h
        simp only [Bool.and_eq_true]
        exact ⟨h, (orAll_bit _ _).mpr ⟨_, hu1, h⟩⟩

/-! ### Safety -/

theorem matchName_suffix (n s : Bytes) : (matchName n s).2 <:+ s := by
  induction n generalizing s with
  | nil => cases s <;> exact List.suffix_refl _
  | cons a n ih =>
    cases s with
    | nil => exact List.suffix_refl _
    | cons b s =>
      simp only [matchName]
      split
      · exact (ih s).trans (List.suffix_cons _ _)
      · exact List.suffix_refl _

theorem toSep_suffix (sep : Byte) (s : Bytes) : toSep sep s <:+ s := by
  induction s with
  | nil => exact List.suffix_refl _
  | cons b s ih =>
    simp only [toSep]
    split
    · exact ih.trans (List.suffix_cons _ _)
    · exact List.suffix_refl _

/-- A scanner applied to a suffix. -/
theorem scan_step {s p : Bytes} {e e' : EPtr} (g : Bytes → EPtr → Bytes × EPtr) (hg : ∀ p, ScanAt p (g p)) (hp : p <:+ s)
    (he : EStep s.length e e') : (g p e').1 <:+ s ∧ EStep s.length e (g p e').2 :=
  ⟨((hg p).suffix e').trans hp, he.trans ((EStep.of_scan (hg p) e').mono hp.length_le)⟩

theorem flagOneStr_safe (sep : Byte) (strict : Bool) (L : List (Bytes × BitVec w)) (v : BitVec w) {s0 s : Bytes} {e0 e : EPtr}
    (ready : Bool) (hs : s <:+ s0) (he : EStep s0.length e0 e) :
    (flagOneStr sep strict L v s e ready).2.1 <:+ s0 ∧ EStep s0.length e0 (flagOneStr sep strict L v s e ready).2.2 := by
  have hsp := fun {p : Bytes} {e' : EPtr} (hp : p <:+ s0) (he' : EStep s0.length e0 e') =>
    scan_step parseSpace parseSpace_scan hp he'
  induction L generalizing v s e ready with
  | nil =>
    simp only [flagOneStr]
    by_cases hr : (ready || strict) = true
    · rw [if_pos hr]; exact ⟨hs, he⟩
    · rw [if_neg hr]
      have h1 := hsp hs he
      generalize parseSpace s e = r1 at h1 ⊢
      have h2 := hsp ((toSep_suffix sep r1.1).trans h1.1) h1.2
      generalize parseSpace (toSep sep r1.1) r1.2 = r2 at h2 ⊢
      obtain ⟨p, e2⟩ := r2
      simp only at h2 ⊢
      cases p with
      | nil => exact ⟨List.nil_suffix, h2.2⟩
      | cons b p =>
        simp only
        refine hsp ?_ h2.2
        split
        · exact suffix_of_cons h2.1
        · exact h2.1
  | cons x L ih =>
    simp only [flagOneStr]
    by_cases hnil : s = []
    · rw [if_pos hnil]; exact ⟨hs, he⟩
    rw [if_neg hnil]
    have h1 : (if sep ≠ c%' ' then parseSpace s e else (s, e)).1 <:+ s0 ∧
        EStep s0.length e0 (if sep ≠ c%' ' then parseSpace s e else (s, e)).2 := by
      by_cases hsep : sep ≠ c%' '
      · rw [if_pos hsep]; exact hsp hs he
      · rw [if_neg hsep]; exact ⟨hs, he⟩
    generalize (if sep ≠ c%' ' then parseSpace s e else (s, e)) = r at h1 ⊢
    obtain ⟨p, e1⟩ := r
    simp only at h1 ⊢
    cases p with
    | nil => exact ⟨List.nil_suffix, h1.2⟩
    | cons b p =>
      simp only
      by_cases hb : b = c%'"'
      · rw [if_pos hb]; exact h1
      rw [if_neg hb]
      have hm := (matchName_suffix x.1 (b :: p)).trans h1.1
      generalize matchName x.1 (b :: p) = m at hm ⊢
      obtain ⟨m1, m2⟩ := m
      simp only at hm ⊢
      cases m1 with
      | cons _ _ => exact ih v ready h1.1 h1.2
      | nil =>
        cases m2 with
        | nil => exact ih v ready h1.1 h1.2
        | cons d q =>
          simp only
          split
          · have h2 : (if sep ≠ c%' ' then parseSpace (d :: q) e1 else (d :: q, e1)).1 <:+ s0 ∧
                EStep s0.length e0 (if sep ≠ c%' ' then parseSpace (d :: q) e1 else (d :: q, e1)).2 := by
              by_cases hsep : sep ≠ c%' '
              · rw [if_pos hsep]; exact hsp hm h1.2
              · rw [if_neg hsep]; exact ⟨hm, h1.2⟩
            generalize (if sep ≠ c%' ' then parseSpace (d :: q) e1 else (d :: q, e1)) = r at h2 ⊢
            obtain ⟨p2, e2⟩ := r
            simp only at h2 ⊢
            cases p2 with
            | nil => exact ⟨List.nil_suffix, h2.2⟩
            | cons d q =>
              simp only
              split
              · exact h2
              · refine ih _ _ ?_ h2.2
                split
                · exact suffix_of_cons h2.1
                · exact h2.1
          · exact ih v ready h1.1 h1.2

theorem flagOneArr_safe (c : Cfg) (strict : Bool) (L : List (Bytes × BitVec w)) (v : BitVec w) {s0 s : Bytes} {e0 e : EPtr}
    (ready : Bool) (hs : s <:+ s0) (he : EStep s0.length e0 e) :
    SafeOut (c.past = none) s0 e0 (flagOneArr c strict L v s e ready) := by
  have hsp := fun {p : Bytes} {e' : EPtr} (hp : p <:+ s0) (he' : EStep s0.length e0 e') =>
    scan_step parseSpace parseSpace_scan hp he'
  induction L generalizing v s e ready with
  | nil =>
    simp only [flagOneArr]
    by_cases hr : (ready || strict) = true
    · rw [if_pos hr]; exact .ok hs he
    · rw [if_neg hr]
      have h1 := hsp hs he
      generalize parseSpace s e = r1 at h1 ⊢
      obtain ⟨p1, e1⟩ := r1
      simp only at h1 ⊢
      have hcont : SafeOut (c.past = none) s0 e0
          (match (parseSpace (parseString p1 e1).1 (parseString p1 e1).2).1 with
            | [] => Out.ok (v, [], (parseSpace (parseString p1 e1).1 (parseString p1 e1).2).2)
            | b :: p => .ok (v, parseSpace (if b = c%',' then p else b :: p)
                (parseSpace (parseString p1 e1).1 (parseString p1 e1).2).2)) := by
        have h2 := scan_step parseString parseString_scan h1.1 h1.2
        generalize parseString p1 e1 = r2 at h2 ⊢
        have h3 := hsp h2.1 h2.2
        generalize parseSpace r2.1 r2.2 = r3 at h3 ⊢
        obtain ⟨p, e3⟩ := r3
        simp only at h3 ⊢
        cases p with
        | nil => exact .ok List.nil_suffix h3.2
        | cons b p =>
          simp only
          have h4 : (if b = c%',' then p else b :: p) <:+ s0 := by
            split
            · exact suffix_of_cons h3.1
            · exact h3.1
          have := hsp h4 h3.2
          exact .ok this.1 this.2
      cases p1 with
      | nil =>
        cases hp : c.past with
        | none => exact .inl ⟨by simp [deref, hp], rfl⟩
        | some z =>
          rw [hp] at hcont
          simp only [deref, hp, Out.bind_ok]
          refine .ite (fun _ => .ok h1.1 h1.2) (fun _ => hcont)
      | cons b p =>
        simp only [deref_cons, Out.bind_ok]
        refine .ite (fun _ => .ok h1.1 h1.2) (fun _ => hcont)
  | cons x L ih =>
    simp only [flagOneArr]
    have h1 := hsp hs he
    generalize parseSpace s e = r at h1 ⊢
    obtain ⟨p, e1⟩ := r
    simp only at h1 ⊢
    cases p with
    | nil => exact .ok List.nil_suffix h1.2
    | cons b p =>
      simp only
      refine .ite (fun _ => .ok h1.1 h1.2) (fun _ => ?_)
      refine .ite (fun _ => .ok List.nil_suffix (h1.2.trans (.create (by decide) _ _ (by omega)
        (by have := h1.1.length_le; omega)))) (fun _ => ?_)
      have hm := (matchName_suffix x.1 p).trans (suffix_of_cons h1.1)
      generalize matchName x.1 p = m at hm ⊢
      obtain ⟨m1, m2⟩ := m
      simp only at hm ⊢
      cases m1 with
      | cons _ _ => exact ih v ready h1.1 h1.2
      | nil =>
        cases m2 with
        | nil => exact ih v ready h1.1 h1.2
        | cons d q =>
          simp only
          refine .ite (fun _ => ?_) (fun _ => ih v ready h1.1 h1.2)
          have h2 := hsp (suffix_of_cons hm) h1.2
          generalize parseSpace q e1 = r at h2 ⊢
          obtain ⟨p2, e2⟩ := r
          simp only at h2 ⊢
          cases p2 with
          | nil => exact .ok List.nil_suffix h2.2
          | cons d q =>
            simp only
            refine .ite (fun _ => .ok h2.1 h2.2) (fun _ => ?_)
            have h3 := hsp (suffix_of_cons h2.1) h2.2
            exact ih _ _ h3.1 h3.2

theorem flagOne_safe (c : Cfg) (F : Flags w) (arr : Bool) (v : BitVec w) (s : Bytes) (e : EPtr) :
    SafeOut (c.past = none) s e (flagOne c F arr v s e) := by
  unfold flagOne
  split
  · exact flagOneArr_safe c F.strict F.list v false (List.suffix_refl _) (.refl _ e)
  · have := flagOneStr_safe F.sep F.strict F.list v (s := s) (e := e) false (List.suffix_refl _) (.refl _ e)
    exact .ok this.1 this.2

theorem flagLoopF_safe (c : Cfg) (F : Flags w) (arr : Bool) (n : Nat) (v : BitVec w) (s : Bytes) (e : EPtr) (hn : s.length < n) :
    SafeOut (c.past = none) s e (flagLoopF c F arr n v s e) := by
  induction n generalizing v s e with
  | zero => omega
  | succ n ih =>
    simp only [flagLoopF]
    cases s with
    | nil => exact .ok (List.suffix_refl _) (.refl _ e)
    | cons b p =>
      simp only
      refine .ite (fun _ => .ok (List.suffix_refl _) (.refl _ e)) (fun _ => ?_)
      refine SafeOut.bind (flagOne_safe c F arr v (b :: p) e) ?_
      intro v' p' e' _ hp' he'
      simp only
      have hl := hp'.length_le
      refine .ite (fun _ => .ok List.nil_suffix (he'.trans (.create (by decide) _ _ (by omega) (by omega)))) (fun hne => ?_)
      refine .ite (fun _ => .ok List.nil_suffix (he'.trans (.create (by decide) _ _ (by omega) (by omega)))) (fun _ => ?_)
      exact SafeOut.mono id hp' he' (ih v' p' e' (by omega))

theorem deFlags_safe (c : Cfg) (F : Flags w) : Safe (c.past = none) (deFlags c F) := by
  intro v s e
  unfold deFlags
  cases s with
  | nil => exact .err (by decide) (by omega) (by simp)
  | cons b p =>
    simp only
    refine .ite (fun _ => .err (by decide) (by omega) (by omega)) (fun _ => ?_)
    refine SafeOut.bind (SafeOut.mono id (suffix_cons b p) (.refl _ e) (flagLoopF_safe c F _ _ 0 p e (by omega))) ?_
    intro v' p' e' _ hp' he'
    simp only [flagsEnd]
    have hl := hp'.length_le
    cases p' with
    | nil => exact .ok List.nil_suffix (he'.trans (.create (by decide) _ _ (by omega) (by omega)))
    | cons b' p' =>
      simp only
      refine .ite (fun _ => .ok List.nil_suffix (he'.trans (.create (by decide) _ _ (by omega) (by omega)))) (fun _ => ?_)
      exact .ok (suffix_of_cons hp') he'

/-! ### Writing -/

theorem joinSep_cons (sep : Byte) (t : Bytes) (l : List Bytes) :
    joinSep sep (t :: l) = t ++ (l.map (sep :: ·)).flatten := by
  induction l generalizing t with
  | nil => simp [joinSep]
  | cons u l ih => simp [joinSep, ih]

theorem joinSep_comma (l : List Bytes) : joinSep c%',' l = joinComma l := by
  induction l with
  | nil => rfl
  | cons t l ih =>
    cases l with
    | nil => rfl
    | cons u l => simp only [joinSep, joinComma, ih]

/-- The text of one name. -/
def flagText (sep : Byte) (n : Bytes) : Bytes := if sep = c%',' then quoted n else n

theorem emitFlagList_writes (sep : Byte) (v : BitVec w) (L : List (Bytes × BitVec w)) (isFirst : Bool) (k : Sink) :
    emitFlagList sep v L isFirst k =
      k.puts (if isFirst then joinSep sep ((L.filter fun x => flagOn x.2 v).map fun x => flagText sep x.1)
        else (((L.filter fun x => flagOn x.2 v).map fun x => flagText sep x.1).map (sep :: ·)).flatten) := by
  induction L generalizing isFirst k with
  | nil => cases isFirst <;> rfl
  | cons x L ih =>
    simp only [emitFlagList]
    by_cases hx : flagOn x.2 v = true
    · have hq : ∀ (k : Sink) (f : Sink → Out Sink), ((if sep = c%',' then k.put c%'"' else .ok k) >>= fun k =>
          k.puts x.1 >>= fun k => (if sep = c%',' then k.put c%'"' else .ok k) >>= f) = (k.puts (flagText sep x.1) >>= f) := by
        intro k f
        unfold flagText
        by_cases hs : sep = c%','
        · simp only [if_pos hs, quoted, List.cons_append]
          rw [Sink.puts_cons, Out.bind_assoc]
          congr 1
          funext k1
          rw [Sink.puts_append, Out.bind_assoc]
          congr 1
          funext k2
          rw [Sink.put_eq]
        · simp only [if_neg hs, Out.bind_ok]
      rw [if_pos hx]
      simp only [hq, ih, Bool.false_eq_true, if_false, List.filter_cons, hx, if_true, List.map_cons, List.flatten_cons]
      cases isFirst with
      | true =>
        simp only [Bool.not_true, Bool.false_eq_true, if_false, Out.bind_ok, if_true, joinSep_cons, Sink.puts_append]
      | false =>
        simp only [Bool.not_false, if_true, Bool.false_eq_true, if_false, List.cons_append, Sink.puts_cons, Sink.puts_append]
    · rw [if_neg hx, ih]
      simp only [List.filter_cons, hx, Bool.false_eq_true, if_false]

theorem emitFlags_writes (F : Flags w) (v : BitVec w) :
    Writes (emitFlags F) v ((if F.sep = c%',' then c%'[' else c%'"') ::
      joinSep F.sep ((F.list.filter fun x => flagOn x.2 v).map fun x => flagText F.sep x.1) ++
      [if F.sep = c%',' then c%']' else c%'"']) := by
  intro k
  unfold emitFlags
  simp only [List.cons_append]
  rw [Sink.puts_cons]
  congr 1
  funext k1
  rw [emitFlagList_writes, Sink.puts_append]
  congr 1
  funext k2
  exact Sink.put_eq k2 _

/-! ### Reading the array form -/

/-- The text at an element or at the end; `z` is where the elements end. Commas
may be missing. -/
inductive FArr (z : Bytes) : List Bytes → Bytes → Prop
  | stop : FArr z [] z
  | tight {n g ns x} : Gap g → FArr z ns x → FArr z (n :: ns) (quoted n ++ g ++ x)
  | comma {n g g' ns x} : Gap g → Gap g' → FArr z ns x → FArr z (n :: ns) (quoted n ++ g ++ c%',' :: (g' ++ x))

theorem FArr.head {z : Bytes} {ns : List Bytes} {x : Bytes} (h : FArr z ns x)
    (hz : z.head? = some c%']' ∨ z.head? = some c%'"') : ∃ b u, x = b :: u ∧ (b = c%']' ∧ ns = [] ∨ b = c%'"') := by
  cases h with
  | stop =>
    cases z with
    | nil => simp at hz
    | cons b u => exact ⟨b, u, rfl, by simpa using hz⟩
  | tight _ _ => exact ⟨c%'"', _, by simp [quoted]; rfl, .inr rfl⟩
  | comma _ _ _ => exact ⟨c%'"', _, by simp [quoted]; rfl, .inr rfl⟩

theorem farr_space {b : Byte} {u g : Bytes} (hg : Gap g) (hb : b = c%']' ∨ b = c%'"') (e : EPtr) :
    parseSpace (g ++ b :: u) e = (b :: u, e) :=
  parseSpace_byte hg (by rcases hb with rfl | rfl <;> decide) u e

theorem noquote_split {a b r q : Bytes} (ha : c%'"' ∉ a) (hb : c%'"' ∉ b) (h : a ++ c%'"' :: r = b ++ c%'"' :: q) :
    a = b ∧ r = q := by
  induction a generalizing b with
  | nil =>
    cases b with
    | nil => simpa using h
    | cons y b =>
      simp only [List.nil_append, List.cons_append, List.cons.injEq] at h
      exact absurd (by simp [← h.1]) hb
  | cons x a ih =>
    cases b with
    | nil =>
      simp only [List.nil_append, List.cons_append, List.cons.injEq] at h
      exact absurd (by simp [h.1]) ha
    | cons y b =>
      simp only [List.cons_append, List.cons.injEq] at h
      have := ih (fun hx => ha (by simp [hx])) (fun hx => hb (by simp [hx])) h.2
      exact ⟨by rw [h.1, this.1], this.2⟩

theorem matchName_differ {y n : Bytes} (hy : c%'"' ∉ y) (hd : KeyDiffers y n) (r q : Bytes) :
    matchName y (n ++ c%'"' :: r) ≠ ([], c%'"' :: q) := by
  intro h
  rw [matchName_iff] at h
  obtain ⟨r', h1, h2⟩ := takeWhile_quote n r
  rw [h1] at h
  exact hd (noquote_split h2 hy h).1

variable {c : Cfg} {strict : Bool}

/-- An element that is not the entry at hand is left for the next entries. -/
theorem flagOneArr_skip {y : Bytes × BitVec w} {n : Bytes} (hy : c%'"' ∉ y.1) (hd : KeyDiffers y.1 n) (M : List (Bytes × BitVec w))
    (v : BitVec w) (r : Bytes) (e : EPtr) (ready : Bool) :
    flagOneArr c strict (y :: M) v (quoted n ++ r) e ready = flagOneArr c strict M v (quoted n ++ r) e ready := by
  have hs : quoted n ++ r = c%'"' :: (n ++ c%'"' :: r) := by simp [quoted]
  rw [hs]
  have hsp := farr_space (u := n ++ c%'"' :: r) (b := c%'"') .nil (.inr rfl) e
  simp only [List.nil_append] at hsp
  rw [flagOneArr]
  simp only [hsp]
  rw [if_neg (by decide), if_neg (by decide)]
  have := matchName_differ hy hd r
  generalize matchName y.1 (n ++ c%'"' :: r) = m at this ⊢
  obtain ⟨m1, m2⟩ := m
  cases m1 with
  | cons _ _ => rfl
  | nil =>
    cases m2 with
    | nil => rfl
    | cons d q =>
      simp only
      by_cases hdq : d = c%'"'
      · subst hdq; exact absurd rfl (this q)
      · rw [if_neg hdq]

/-- The element is the entry at hand, no comma follows. -/
theorem flagOneArr_tight (y : Bytes × BitVec w) (M : List (Bytes × BitVec w))
    (v : BitVec w) {g : Bytes} (hg : Gap g) {b : Byte} {u : Bytes} (hb : b = c%']' ∨ b = c%'"') (e : EPtr) (ready : Bool) :
    flagOneArr c strict (y :: M) v (quoted y.1 ++ g ++ b :: u) e ready = .ok (v ||| y.2, b :: u, e) := by
  have hs : quoted y.1 ++ g ++ b :: u = c%'"' :: (y.1 ++ c%'"' :: (g ++ b :: u)) := by simp [quoted]
  rw [hs]
  have hsp := farr_space (u := y.1 ++ c%'"' :: (g ++ b :: u)) (b := c%'"') .nil (.inr rfl) e
  simp only [List.nil_append] at hsp
  rw [flagOneArr]
  simp only [hsp]
  rw [if_neg (by decide), if_neg (by decide), matchName_self]
  simp only [if_true]
  rw [farr_space hg hb]
  simp only
  rw [if_pos (by rcases hb with rfl | rfl <;> decide)]

/-- The element is the entry at hand, a comma follows. -/
theorem flagOneArr_comma (y : Bytes × BitVec w) (M : List (Bytes × BitVec w))
    (v : BitVec w) {g g' : Bytes} (hg : Gap g) (hg' : Gap g') {b : Byte} {u : Bytes} (hb : b = c%']' ∨ b = c%'"') (e : EPtr)
    (ready : Bool) :
    flagOneArr c strict (y :: M) v (quoted y.1 ++ g ++ c%',' :: (g' ++ b :: u)) e ready =
      flagOneArr c strict M (v ||| y.2) (b :: u) e true := by
  have hs : quoted y.1 ++ g ++ c%',' :: (g' ++ b :: u) = c%'"' :: (y.1 ++ c%'"' :: (g ++ c%',' :: (g' ++ b :: u))) := by
    simp [quoted]
  rw [hs]
  have hsp := farr_space (u := y.1 ++ c%'"' :: (g ++ c%',' :: (g' ++ b :: u))) (b := c%'"') .nil (.inr rfl) e
  simp only [List.nil_append] at hsp
  rw [flagOneArr]
  simp only [hsp]
  rw [if_neg (by decide), if_neg (by decide), matchName_self]
  simp only [if_true]
  rw [parseSpace_comma hg]
  simp only
  rw [if_neg (by decide), farr_space hg' hb]

/-- An element that no entry knows. -/
theorem flagOneArr_other {n : Bytes} (hn : XChars n) (v : BitVec w) {t : Bytes} {b : Byte} {u : Bytes} (hb : b = c%']' ∨ b = c%'"')
    (ht : (∃ g, Gap g ∧ t = g ++ b :: u) ∨ ∃ g g', Gap g ∧ Gap g' ∧ t = g ++ c%',' :: (g' ++ b :: u)) (e : EPtr) :
    flagOneArr c false [] v (quoted n ++ t) e false = .ok (v, b :: u, e) := by
  have hstr : parseString (quoted n ++ t) e = (t, e) := (parseString_acc_iff.mpr ⟨quoted n, rfl, n, hn, rfl⟩) e
  have hs : quoted n ++ t = c%'"' :: (n ++ c%'"' :: t) := by simp [quoted]
  have hsp : parseSpace (quoted n ++ t) e = (quoted n ++ t, e) := by
    have := farr_space (u := n ++ c%'"' :: t) (b := c%'"') .nil (.inr rfl) e
    rw [hs]; simpa using this
  have hb' : parseSpace (b :: u) e = (b :: u, e) := by
    have := farr_space (u := u) .nil hb e
    simpa using this
  have hbc : b ≠ c%',' := by rcases hb with rfl | rfl <;> decide
  simp only [flagOneArr, Bool.or_false, Bool.false_eq_true, if_false, hsp]
  rw [hstr]
  rw [hs]
  simp only [deref_cons, Out.bind_ok]
  rw [if_neg (by decide)]
  rcases ht with ⟨g, hg, rfl⟩ | ⟨g, g', hg, hg', rfl⟩
  · rw [farr_space hg hb]
    simp only [if_neg hbc, hb']
  · rw [parseSpace_comma hg]
    simp only [if_true]
    rw [farr_space hg' hb]

/-- One pass over the entries `M`. -/
theorem flagOneArr_items {L : List (Bytes × BitVec w)} (hnd : (L.map Prod.fst).Nodup) (hpl : ∀ y ∈ L, PlainName y.1) {z : Bytes}
    (hz : z.head? = some c%']' ∨ z.head? = some c%'"')
    (hstop : ∀ M, (∀ y ∈ M, y ∈ L) → ∀ v e ready, flagOneArr c strict M v z e ready = .ok (v, z, e)) {M : List (Bytes × BitVec w)}
    (hM : ∀ y ∈ M, y ∈ L) {xs : List (Bytes × BitVec w)} (hx : ∀ x ∈ xs, FlagItem L strict x) {x : Bytes}
    (h : FArr z (xs.map Prod.fst) x) (v : BitVec w) (e : EPtr) (ready : Bool)
    (hh : ready = true ∨ ∀ a as, xs = a :: as → a ∈ M ∨ a ∉ L) :
    ∃ pre post x', xs = pre ++ post ∧ FArr z (post.map Prod.fst) x' ∧
      flagOneArr c strict M v x e ready = .ok (v ||| orAll (pre.map Prod.snd), x', e) ∧
      (ready = false → xs ≠ [] → pre ≠ []) ∧ x'.length ≤ x.length ∧ (pre ≠ [] → x'.length < x.length) := by
  induction M generalizing xs x v ready with
  | nil =>
    cases xs with
    | nil =>
      cases h with
      | stop => exact ⟨[], [], z, rfl, .stop, by rw [hstop [] hM]; simp [orAll], by simp, Nat.le_refl _, by simp⟩
    | cons a as =>
      cases ready with
      | true => exact ⟨[], a :: as, x, rfl, h, by simp [flagOneArr, orAll], by simp, Nat.le_refl _, by simp⟩
      | false =>
        have ha : a ∉ L := by
          rcases hh with hh | hh
          · cases hh
          · rcases hh a as rfl with hh | hh
            · cases hh
            · exact hh
        have hxa := hx a (by simp)
        cases hxa with
        | listed h1 => exact absurd h1 ha
        | @other n h1 h2 h3 =>
          subst h1
          simp only [List.map_cons] at h
          cases h with
          | @tight _ g _ x hg h =>
            obtain ⟨b, u, rfl, hb⟩ := h.head hz
            have hb : b = c%']' ∨ b = c%'"' := hb.imp_left And.left
            refine ⟨[(n, 0)], as, b :: u, rfl, h, ?_, by simp, by simp; omega, by simp [quoted]; omega⟩
            rw [List.append_assoc, flagOneArr_other h3 v hb (.inl ⟨g, hg, rfl⟩)]
            simp [orAll]
          | @comma _ g g' _ x hg hg' h =>
            obtain ⟨b, u, rfl, hb⟩ := h.head hz
            have hb : b = c%']' ∨ b = c%'"' := hb.imp_left And.left
            refine ⟨[(n, 0)], as, b :: u, rfl, h, ?_, by simp, by simp; omega, by simp [quoted]; omega⟩
            rw [List.append_assoc, flagOneArr_other h3 v hb (.inr ⟨g, g', hg, hg', rfl⟩)]
            simp [orAll]
  | cons y M ih =>
    have hyL := hM y (by simp)
    have hM' : ∀ y ∈ M, y ∈ L := fun y hy => hM y (by simp [hy])
    have hyq := (hpl y hyL).1
    cases xs with
    | nil =>
      cases h with
      | stop => exact ⟨[], [], z, rfl, .stop, by rw [hstop _ hM]; simp [orAll], by simp, Nat.le_refl _, by simp⟩
    | cons a as =>
      by_cases hya : y.1 = a.1
      · -- the entry at hand
        have hay : a = y := by
          cases hx a (by simp) with
          | @listed n u h1 =>
            obtain ⟨y1, y2⟩ := y
            simp only at hya
            subst hya
            have h2 := enumFind_of_mem hnd hyL
            rw [enumFind_of_mem hnd h1] at h2
            simp only [Option.some.injEq] at h2
            rw [h2]
          | @other n h1 h2 h3 => exact absurd (List.mem_map.mpr ⟨y, hyL, hya⟩) h2
        subst hay
        simp only [List.map_cons] at h
        cases h with
        | @tight _ g _ x hg h =>
          obtain ⟨b, u, rfl, hb⟩ := h.head hz
          have hb : b = c%']' ∨ b = c%'"' := hb.imp_left And.left
          refine ⟨[a], as, b :: u, rfl, h, ?_, by simp, by simp; omega, by simp [quoted]; omega⟩
          rw [flagOneArr_tight a M v hg hb]
          simp [orAll]
        | @comma _ g g' _ x hg hg' h =>
          obtain ⟨b, u, rfl, hb⟩ := h.head hz
          have hb : b = c%']' ∨ b = c%'"' := hb.imp_left And.left
          obtain ⟨pre, post, x', h1, h2, h3, _, h5, _⟩ := ih hM' (fun x hxx => hx x (by simp [hxx])) h (v ||| a.2) true (.inl rfl)
          refine ⟨a :: pre, post, x', by rw [h1]; rfl, h2, ?_, by simp, ?_, ?_⟩
          · rw [flagOneArr_comma a M v hg hg' hb, h3]
            simp [orAll, BitVec.or_assoc]
          · simp only [List.length_append, List.length_cons] at h5 ⊢; omega
          · intro _; simp only [List.length_append, List.length_cons] at h5 ⊢; omega
      · -- another one
        have hd : KeyDiffers y.1 a.1 := by
          cases hx a (by simp) with
          | @listed n u h1 => exact keyDiffers_of_noquote (hpl _ h1).1 (fun h => hya h.symm)
          | @other n h1 h2 h3 => exact keyDiffers_of_plain (hpl y hyL) h3 (fun h => hya h.symm)
        have hskip : flagOneArr c strict (y :: M) v x e ready = flagOneArr c strict M v x e ready := by
          simp only [List.map_cons] at h
          cases h with
          | tight _ _ => rw [List.append_assoc]; exact flagOneArr_skip hyq hd M v _ e ready
          | comma _ _ _ => rw [List.append_assoc]; exact flagOneArr_skip hyq hd M v _ e ready
        rw [hskip]
        refine ih hM' hx h v ready ?_
        refine hh.imp_right fun hh a' as' heq => ?_
        cases heq
        refine (hh a as rfl).imp_left fun hm => ?_
        rcases List.mem_cons.mp hm with rfl | hm
        · exact absurd rfl hya
        · exact hm

theorem flagOneArr_gap {L : List (Bytes × BitVec w)} (hne : L ≠ []) {g : Bytes} (hg : Gap g) {b : Byte} (hb : b = c%']' ∨ b = c%'"')
    (u : Bytes) (v : BitVec w) (e : EPtr) (ready : Bool) :
    flagOneArr c strict L v (g ++ b :: u) e ready = flagOneArr c strict L v (b :: u) e ready := by
  cases L with
  | nil => exact absurd rfl hne
  | cons y L =>
    have h1 := farr_space (u := u) hg hb e
    have h2 := farr_space (u := u) .nil hb e
    simp only [List.nil_append] at h2
    rw [flagOneArr, flagOneArr, h1, h2]

/-- The loop over the elements; `R` is what happens at the end of them. -/
theorem flagLoopF_arr {F : Flags w} (hnd : (F.list.map Prod.fst).Nodup) (hpl : ∀ y ∈ F.list, PlainName y.1) {z : Bytes}
    (hz : z.head? = some c%']' ∨ z.head? = some c%'"')
    (hstop : ∀ M, (∀ y ∈ M, y ∈ F.list) → ∀ v e ready, flagOneArr c F.strict M v z e ready = .ok (v, z, e))
    {e : EPtr} {R : BitVec w → Out (BitVec w × Bytes × EPtr)}
    (hR : ∀ v m, z.length < m → flagLoopF c F true m v z e = R v)
    {xs : List (Bytes × BitVec w)} (hx : ∀ x ∈ xs, FlagItem F.list F.strict x) {x : Bytes}
    (h : FArr z (xs.map Prod.fst) x) (v : BitVec w) (n : Nat) (hn : x.length < n) :
    flagLoopF c F true n v x e = R (v ||| orAll (xs.map Prod.snd)) := by
  induction n generalizing xs x v with
  | zero => omega
  | succ n ih =>
    cases xs with
    | nil =>
      cases h with
      | stop =>
        rw [hR v _ hn]
        simp [orAll]
    | cons a as =>
      obtain ⟨pre, post, x', h1, h2, h3, h4, _, h6⟩ := flagOneArr_items (M := F.list) hnd hpl hz hstop (fun _ h => h) hx h v e false
        (.inr fun a' as' _ => by by_cases ha : a' ∈ F.list <;> simp [ha])
      have h6 := h6 (h4 rfl (by simp))
      obtain ⟨b, u, rfl, hb⟩ := h.head hz
      have hb : b = c%'"' := by
        rcases hb with ⟨_, hb⟩ | hb
        · simp at hb
        · exact hb
      subst hb
      have hx'ne : x' ≠ [] := by
        obtain ⟨b', u', h7, _⟩ := h2.head hz
        rw [h7]; simp
      simp only [flagLoopF, flagOne, if_true]
      rw [if_neg (by decide), h3, Out.bind_ok]
      simp only
      rw [if_neg (by omega), if_neg hx'ne]
      rw [ih (xs := post) (fun x hxx => hx x (by rw [h1]; simp [hxx])) h2 _ (by simp only [List.length_cons] at h6 hn; omega)]
      rw [h1, List.map_append, orAll_append, BitVec.or_assoc]

/-- The same with a gap in front. -/
theorem flagLoopF_arr_gap {F : Flags w} (hne : F.list ≠ []) (hnd : (F.list.map Prod.fst).Nodup)
    (hpl : ∀ y ∈ F.list, PlainName y.1) {z : Bytes}
    (hz : z.head? = some c%']' ∨ z.head? = some c%'"')
    (hstop : ∀ M, (∀ y ∈ M, y ∈ F.list) → ∀ v e ready, flagOneArr c F.strict M v z e ready = .ok (v, z, e))
    {e : EPtr} {R : BitVec w → Out (BitVec w × Bytes × EPtr)}
    (hR : ∀ v m, z.length < m → flagLoopF c F true m v z e = R v)
    {xs : List (Bytes × BitVec w)} (hx : ∀ x ∈ xs, FlagItem F.list F.strict x) {g x : Bytes} (hg : Gap g)
    (h : FArr z (xs.map Prod.fst) x) (v : BitVec w) (n : Nat) (hn : (g ++ x).length < n) :
    flagLoopF c F true n v (g ++ x) e = R (v ||| orAll (xs.map Prod.snd)) := by
  cases g with
  | nil => exact flagLoopF_arr hnd hpl hz hstop hR hx h v n hn
  | cons d g =>
    cases n with
    | zero => omega
    | succ n =>
      obtain ⟨pre, post, x', h1, h2, h3, _, h5, _⟩ := flagOneArr_items (M := F.list) hnd hpl hz hstop (fun _ h => h) hx h v e false
        (.inr fun a' as' _ => by by_cases ha : a' ∈ F.list <;> simp [ha])
      obtain ⟨b, u, rfl, hb⟩ := h.head hz
      have hb : b = c%']' ∨ b = c%'"' := hb.imp_left And.left
      have hd : d ≠ c%']' := by
        intro hd
        rcases gap_head hg rfl with h | h <;> rw [hd] at h <;> revert h <;> decide
      have hx'ne : x' ≠ [] := by
        obtain ⟨b', u', h7, _⟩ := h2.head hz
        rw [h7]; simp
      have hgap := flagOneArr_gap (c := c) (strict := F.strict) hne hg hb u v e false
      simp only [List.cons_append] at hgap hn ⊢
      simp only [flagLoopF, flagOne, if_true]
      rw [if_neg hd, hgap, h3, Out.bind_ok]
      simp only
      simp only [List.length_cons, List.length_append] at h5 hn
      rw [if_neg (by simp only [List.length_cons, List.length_append]; omega), if_neg hx'ne]
      rw [flagLoopF_arr hnd hpl hz hstop hR (xs := post) (fun x hxx => hx x (by rw [h1]; simp [hxx])) h2 _ n (by omega)]
      rw [h1, List.map_append, orAll_append, BitVec.or_assoc]

theorem flagOneArr_close (rest : Bytes) (M : List (Bytes × BitVec w)) (v : BitVec w) (e : EPtr) (ready : Bool) :
    flagOneArr c strict M v (c%']' :: rest) e ready = .ok (v, c%']' :: rest, e) := by
  have hsp := farr_space (u := rest) (b := c%']') .nil (.inl rfl) e
  simp only [List.nil_append] at hsp
  cases M with
  | nil => simp only [flagOneArr, hsp, deref_cons, Out.bind_ok, if_true, ite_self]
  | cons y M => simp only [flagOneArr, hsp, if_true]

theorem farr_of_items {L : List Bytes} {r : Bytes} (h : ItemsText (fun n t => t = quoted n) c%']' L r) (rest : Bytes) :
    ∃ g x, r ++ rest = g ++ x ∧ Gap g ∧ FArr (c%']' :: rest) L x := by
  induction h with
  | @close g hg => exact ⟨g, c%']' :: rest, by simp, hg, .stop⟩
  | @last g1 v t g2 h1 h2 h3 h4 =>
    subst h3
    exact ⟨g1, quoted v ++ g2 ++ c%']' :: rest, by simp, h1, .tight h4 .stop⟩
  | @more g1 v t g2 vs r h1 h2 h3 h4 _ ih =>
    subst h3
    obtain ⟨g, x, h5, h6, h7⟩ := ih
    exact ⟨g1, quoted v ++ g2 ++ c%',' :: (g ++ x), by simp [← h5], h1, .comma h4 h6 h7⟩

theorem farr_of_comma {L : List Bytes} {r : Bytes} (h : ItemsComma (fun n t => t = quoted n) L r) {g0 z : Bytes} (h0 : Gap g0) :
    ∃ g x, r ++ (g0 ++ z) = g ++ x ∧ Gap g ∧ FArr z L x := by
  induction h with
  | nil => exact ⟨g0, z, rfl, h0, .stop⟩
  | @cons g1 v t g2 vs r h1 h2 h3 h4 _ ih =>
    subst h3
    obtain ⟨g, x, h5, h6, h7⟩ := ih
    exact ⟨g1, quoted v ++ g2 ++ c%',' :: (g ++ x), by simp [← h5], h1, .comma h4 h6 h7⟩

theorem deFlags_array {F : Flags w} (hne : F.list ≠ []) (hnd : (F.list.map Prod.fst).Nodup) (hpl : ∀ y ∈ F.list, PlainName y.1)
    {xs : List (Bytes × BitVec w)} (hx : ∀ x ∈ xs, FlagItem F.list F.strict x) {r : Bytes}
    (h : ItemsText (fun n t => t = quoted n) c%']' (xs.map Prod.fst) r) (v0 : BitVec w) (rest : Bytes) (e : EPtr) :
    deFlags c F v0 (c%'[' :: r ++ rest) e = .ok (orAll (xs.map Prod.snd), rest, e) := by
  obtain ⟨g, x, h1, h2, h3⟩ := farr_of_items h rest
  simp only [List.cons_append, deFlags]
  rw [if_neg (by simp), h1]
  have := flagLoopF_arr_gap (c := c) (e := e) (R := fun v => .ok (v, c%']' :: rest, e)) hne hnd hpl (.inl rfl)
    (fun M _ v e ready => flagOneArr_close rest M v e ready)
    (fun v m hm => by
      cases m with
      | zero => omega
      | succ m => simp [flagLoopF]) hx h2 h3 0 ((g ++ x).length + 1) (by omega)
  simp only [decide_true, this, Out.bind_ok]
  simp [flagsEnd]

/-- Strict mode, an element that is not listed. -/
theorem deFlags_array_strict {F : Flags w} (hs : F.strict = true) (hne : F.list ≠ []) (hnd : (F.list.map Prod.fst).Nodup)
    (hpl : ∀ y ∈ F.list, PlainName y.1)
    {xs : List (Bytes × BitVec w)} (hx : ∀ x ∈ xs, x ∈ F.list) {r : Bytes}
    (h : ItemsComma (fun n t => t = quoted n) (xs.map Prod.fst) r) {g : Bytes} (hg : Gap g) {k : Bytes} (hk : XChars k)
    (hkn : k ∉ F.list.map Prod.fst) (v0 : BitVec w) (rest : Bytes) (e : EPtr) :
    deFlags c F v0 (c%'[' :: (r ++ (g ++ (quoted k ++ rest)))) e =
      .ok (orAll (xs.map Prod.snd), [],
        createError .UnexpectedEndFragment (createError .InvalidEnum e none ((quoted k ++ rest).length : Nat))) := by
  obtain ⟨g', x, h1, h2, h3⟩ := farr_of_comma (z := quoted k ++ rest) h hg
  simp only [deFlags]
  rw [if_neg (by simp), h1]
  have hstop : ∀ M, (∀ y ∈ M, y ∈ F.list) → ∀ v e ready,
      flagOneArr c F.strict M v (quoted k ++ rest) e ready = .ok (v, quoted k ++ rest, e) := by
    intro M hM v e ready
    induction M with
    | nil => simp [flagOneArr, hs]
    | cons y M ih =>
      have hy := hM y (by simp)
      rw [flagOneArr_skip (hpl y hy).1 (keyDiffers_of_plain (hpl y hy) hk fun hky => hkn (List.mem_map.mpr ⟨y, hy, hky.symm⟩))]
      exact ih fun y hy => hM y (by simp [hy])
  have := flagLoopF_arr_gap (c := c) (e := e)
    (R := fun v => .ok (v, [], createError .InvalidEnum e none ((quoted k ++ rest).length : Nat))) hne hnd hpl (.inr rfl)
    hstop
    (fun v m hm => by
      cases m with
      | zero => omega
      | succ m =>
        obtain ⟨b, u, hbu, hb⟩ : ∃ b u, quoted k ++ rest = b :: u ∧ b ≠ c%']' := ⟨_, _, rfl, by decide⟩
        have h4 := hstop F.list (fun _ h => h) v e false
        rw [hbu] at h4 ⊢
        simp only [flagLoopF, flagOne, if_true]
        rw [if_neg hb, h4, Out.bind_ok]
        simp) (fun x hxx => .listed (hx x hxx)) h2 h3 0 ((g' ++ x).length + 1) (by omega)
  simp only [decide_true, this, Out.bind_ok]
  simp [flagsEnd]

/-! ### Reading the separator form -/

/-- The text at a word or at the end; `z` is where the words end. -/
inductive FStr (sep : Byte) (z : Bytes) : List Bytes → Bytes → Prop
  | stop : FStr sep z [] z
  | last {t} : z.head? = some c%'"' → FStr sep z [t] (t ++ z)
  | more {t g ts x} : SepGap sep g → FStr sep z ts x → FStr sep z (t :: ts) (t ++ sep :: (g ++ x))

/-- A byte that ends a word. -/
def WordEnd (sep b : Byte) : Prop := WsByte b ∨ b = c%'/' ∨ b = sep ∨ b = c%'"'

/-- A byte that starts a word, or the closing quote. -/
def WordHead (b : Byte) : Prop := ¬ WsByte b ∧ b ≠ c%'/' ∧ b ≠ c%'*'

theorem ws_gap {g : Bytes} (h : Ws g) : Gap g := by
  induction g with
  | nil => exact .nil
  | cons b g ih => exact .ws (h b (by simp)) (ih fun b hb => h b (by simp [hb]))

theorem word_space {b : Byte} (hb : WordHead b) {g : Bytes} (hg : Ws g) (u : Bytes) (e : EPtr) :
    parseSpace (g ++ b :: u) e = (b :: u, e) := parseSpace_of_gap (ws_gap hg) ⟨hb.1, hb.2.1⟩ hb.2.2 e

theorem FlagWord.cons {sep : Byte} {n : Bytes} (h : FlagWord sep n) : ∃ b u, n = b :: u ∧ WordHead b ∧ b ≠ c%'"' ∧ b ≠ sep := by
  cases n with
  | nil => exact absurd rfl h.nonempty
  | cons b u =>
    have := h.clean b (by simp)
    exact ⟨b, u, rfl, ⟨this.1, this.2.1, fun hb => h.head (by simp [hb])⟩, this.2.2.1, this.2.2.2⟩

theorem word_split {sep : Byte} {a b : Bytes} (ha : FlagWord sep a) (hb : FlagWord sep b) {d d' : Byte} {r q : Bytes}
    (hd : WordEnd sep d) (hd' : WordEnd sep d') (h : a ++ d :: r = b ++ d' :: q) : a = b := by
  have hne : ∀ {n : Bytes}, FlagWord sep n → ∀ x ∈ n, ¬ WordEnd sep x := by
    intro n hn x hx hw
    have := hn.clean x hx
    rcases hw with hw | hw | hw | hw
    · exact this.1 hw
    · exact this.2.1 hw
    · exact this.2.2.2 hw
    · exact this.2.2.1 hw
  replace ha := hne ha
  replace hb := hne hb
  clear hne
  induction a generalizing b with
  | nil =>
    cases b with
    | nil => rfl
    | cons y b =>
      simp only [List.nil_append, List.cons_append, List.cons.injEq] at h
      rw [h.1] at hd
      exact absurd hd (hb y (by simp))
  | cons x a ih =>
    cases b with
    | nil =>
      simp only [List.nil_append, List.cons_append, List.cons.injEq] at h
      rw [← h.1] at hd'
      exact absurd hd' (ha x (by simp))
    | cons y b =>
      simp only [List.cons_append, List.cons.injEq] at h
      rw [h.1, ih h.2 (fun x hx => ha x (by simp [hx])) (fun x hx => hb x (by simp [hx]))]

variable {sep : Byte}

theorem isSpace_end {d : Byte} {q : Bytes} (h : isSpace (d :: q) = true) : WordEnd sep d := by
  simp only [isSpace] at h
  by_cases hw : isWs d = true
  · left
    revert hw; clear h; revert d; apply forall_byte; unfold isWs WsByte; decide +kernel
  · rw [if_neg hw] at h
    by_cases hs : d = c%'/'
    · exact .inr (.inl hs)
    · simp [hs] at h

theorem isSpace_ws {d : Byte} (h : WsByte d) (q : Bytes) : isSpace (d :: q) = true := by
  have : isWs d = true := by
    revert h; revert d; apply forall_byte; unfold isWs WsByte; decide +kernel
  simp [isSpace, this]

theorem flagOneStr_gap (y : Bytes × BitVec w) (M : List (Bytes × BitVec w)) (v : BitVec w) {g : Bytes} (hg : SepGap sep g) {b : Byte}
    (hb : WordHead b) (u : Bytes) (e : EPtr) (ready : Bool) :
    flagOneStr sep strict (y :: M) v (g ++ b :: u) e ready = flagOneStr sep strict (y :: M) v (b :: u) e ready := by
  by_cases hs : sep = c%' '
  · rw [hg.2 hs]; rfl
  · have h1 := word_space hb hg.1 u e
    have h2 := word_space hb (g := []) (by simp [Ws]) u e
    simp only [List.nil_append] at h2
    simp only [flagOneStr, ne_eq, hs, not_false_eq_true, if_true, h1, h2, List.append_eq_nil_iff, reduceCtorEq,
      and_false, if_false]

/-- The head of a nonempty list of entries works on the word itself. -/
theorem flagOneStr_start (y : Bytes × BitVec w) (M : List (Bytes × BitVec w)) (v : BitVec w) {b : Byte}
    (hb : WordHead b) (hq : b ≠ c%'"') (u : Bytes) (e : EPtr) (ready : Bool) :
    flagOneStr sep strict (y :: M) v (b :: u) e ready =
          match matchName y.1 (b :: u) with
          | ([], d :: q) =>
            if (sep ≠ c%' ' ∧ isSpace (d :: q)) ∨ d = sep ∨ d = c%'"' then
              let v := v ||| y.2
              let r := if sep ≠ c%' ' then parseSpace (d :: q) e else (d :: q, e)
              match r.1 with
              | [] => (v, [], r.2)
              | d :: q =>
                if d = c%'"' then (v, d :: q, r.2)
                else flagOneStr sep strict M v (if d = sep then q else d :: q) r.2 true
            else flagOneStr sep strict M v (b :: u) e ready
          | _ => flagOneStr sep strict M v (b :: u) e ready := by
  have h2 := word_space hb (g := []) (by simp [Ws]) u e
  simp only [List.nil_append] at h2
  rw [flagOneStr]
  rw [if_neg (by simp)]
  simp only [h2, ite_self, if_neg hq]
  cases matchName y.1 (b :: u) with
  | mk m1 m2 => cases m1 <;> cases m2 <;> rfl

theorem flagOneStr_skip {y : Bytes × BitVec w} {n : Bytes} (hy : FlagWord sep y.1) (hn : FlagWord sep n) (hd : n ≠ y.1)
    (M : List (Bytes × BitVec w)) (v : BitVec w) {d' : Byte} (hd' : WordEnd sep d') (r : Bytes) (e : EPtr) (ready : Bool) :
    flagOneStr sep strict (y :: M) v (n ++ d' :: r) e ready = flagOneStr sep strict M v (n ++ d' :: r) e ready := by
  have hm : ∀ d q, WordEnd sep d → matchName y.1 (n ++ d' :: r) ≠ ([], d :: q) := by
    intro d q hdq h
    rw [matchName_iff] at h
    exact hd (word_split hn hy hd' hdq h)
  obtain ⟨b, u, rfl, hb, hq, _⟩ := hn.cons
  simp only [List.cons_append] at hm ⊢
  rw [flagOneStr_start y M v hb hq]
  generalize matchName y.1 (b :: (u ++ d' :: r)) = m at hm ⊢
  obtain ⟨m1, m2⟩ := m
  cases m1 with
  | cons _ _ => rfl
  | nil =>
    cases m2 with
    | nil => rfl
    | cons d q =>
      simp only
      rw [if_neg]
      intro h
      refine hm d q ?_ rfl
      rcases h with h | h | h
      · exact isSpace_end h.2
      · exact .inr (.inr (.inl h))
      · exact .inr (.inr (.inr h))

/-- The word is the entry at hand and the quote follows. -/
theorem flagOneStr_last {y : Bytes × BitVec w} (hy : FlagWord sep y.1) (M : List (Bytes × BitVec w)) (v : BitVec w) {g : Bytes}
    (hg : SepGap sep g) (u : Bytes) (e : EPtr) (ready : Bool) :
    flagOneStr sep strict (y :: M) v (y.1 ++ (g ++ c%'"' :: u)) e ready = (v ||| y.2, c%'"' :: u, e) := by
  have hm := matchName_self y.1 (g ++ c%'"' :: u)
  have hsp := word_space (b := c%'"') ⟨by unfold WsByte; decide, by decide, by decide⟩ hg.1 u e
  obtain ⟨b, n, hbn, hb, hq, _⟩ := hy.cons
  rw [hbn] at hm ⊢
  simp only [List.cons_append] at hm ⊢
  rw [flagOneStr_start y M v hb hq, hbn, hm]
  by_cases hs : sep = c%' '
  · rw [hg.2 hs]
    simp [hs]
  · simp only [ne_eq, hs, not_false_eq_true, true_and, if_true]
    cases g with
    | nil => simp only [List.nil_append] at hsp; simp [hsp]
    | cons d g => simp only [List.cons_append] at hsp; simp [isSpace_ws (hg.1 d (by simp)), hsp]

/-- The word is the entry at hand and the separator follows. -/
theorem flagOneStr_more {y : Bytes × BitVec w} (hsep : GoodSep sep) (hy : FlagWord sep y.1) (M : List (Bytes × BitVec w))
    (v : BitVec w) {g : Bytes} (hg : SepGap sep g) (u : Bytes) (e : EPtr) (ready : Bool) :
    flagOneStr sep strict (y :: M) v (y.1 ++ (g ++ sep :: u)) e ready = flagOneStr sep strict M (v ||| y.2) u e true := by
  have hm := matchName_self y.1 (g ++ sep :: u)
  obtain ⟨b, n, hbn, hb, hq, _⟩ := hy.cons
  rw [hbn] at hm ⊢
  simp only [List.cons_append] at hm ⊢
  rw [flagOneStr_start y M v hb hq, hbn, hm]
  by_cases hs : sep = c%' '
  · rw [hg.2 hs]
    subst hs
    simp
  · have hsep := hsep.resolve_left hs
    have hsp := word_space (b := sep) ⟨hsep.1, hsep.2.1, hsep.2.2.1⟩ hg.1 u e
    simp only [ne_eq, hs, not_false_eq_true, true_and, if_true]
    cases g with
    | nil => simp only [List.nil_append] at hsp; simp [hsp, hsep.2.2.2]
    | cons d g => simp only [List.cons_append] at hsp; simp [isSpace_ws (hg.1 d (by simp)), hsp, hsep.2.2.2]

theorem toSep_word {n : Bytes} (hn : ∀ b ∈ n, ¬ WsByte b ∧ b ≠ c%'/' ∧ b ≠ c%'"' ∧ b ≠ sep) {d : Byte} (hd : d = sep ∨ d = c%'"')
    (u : Bytes) : toSep sep (n ++ d :: u) = d :: u := by
  induction n with
  | nil =>
    simp only [List.nil_append, toSep]
    rw [if_neg]
    rintro ⟨h1, h2⟩
    rcases hd with h | h
    · exact h1 h
    · exact h2 h
  | cons b n ih =>
    have hb := hn b (by simp)
    simp only [List.cons_append, toSep]
    rw [if_pos ⟨hb.2.2.2, hb.2.2.1⟩, ih fun b hb => hn b (by simp [hb])]

/-- A word that no entry knows. -/
theorem flagOneStr_other {n : Bytes} (hsep : GoodSep sep) (hn : FlagWord sep n) (v : BitVec w) {g0 t : Bytes} (h0 : SepGap sep g0)
    {b : Byte} {u : Bytes} (hb : WordHead b) (hbs : b ≠ sep)
    (ht : (t = b :: u ∧ b = c%'"') ∨ ∃ g, SepGap sep g ∧ t = sep :: (g ++ b :: u)) (e : EPtr) :
    flagOneStr (w := w) sep false [] v (g0 ++ (n ++ t)) e false = (v, b :: u, e) := by
  have hb' := word_space hb (g := []) (by simp [Ws]) u e
  simp only [List.nil_append] at hb'
  have h1 : parseSpace (g0 ++ (n ++ t)) e = (n ++ t, e) := by
    obtain ⟨b, n, rfl, hb, _⟩ := hn.cons
    exact word_space hb h0.1 _ e
  simp only [flagOneStr, Bool.or_false, Bool.false_eq_true, if_false, h1]
  rcases ht with ⟨rfl, rfl⟩ | ⟨g, hg, rfl⟩
  · rw [toSep_word hn.clean (.inr rfl), hb']
    simp only [if_neg hbs, hb']
  · rw [toSep_word hn.clean (.inl rfl)]
    by_cases hs : sep = c%' '
    · subst hs
      rw [hg.2 rfl]
      simp only [List.nil_append]
      have := word_space hb (g := b!" ") (by simp [Ws, WsByte]) u e
      simp only [List.cons_append, List.nil_append] at this
      rw [this]
      simp only [if_neg hbs, hb']
    · have hsep := hsep.resolve_left hs
      have hsp := word_space (b := sep) ⟨hsep.1, hsep.2.1, hsep.2.2.1⟩ (g := []) (by simp [Ws]) (g ++ b :: u) e
      simp only [List.nil_append] at hsp
      rw [hsp]
      simp only [if_true]
      rw [word_space hb hg.1]

/-- What follows the words: the closing quote, or something no entry takes. -/
structure StrStop (sep : Byte) (strict : Bool) (L : List (Bytes × BitVec w)) (z : Bytes) : Prop where
  head : ∃ b u, z = b :: u ∧ WordHead b ∧ b ≠ sep
  stop : ∀ M, (∀ y ∈ M, y ∈ L) → ∀ v e ready, flagOneStr sep strict M v z e ready = (v, z, e)
  nil : strict = true ∨ z.head? = some c%'"'

theorem FStr.start {L : List (Bytes × BitVec w)} {z : Bytes} (hz : StrStop sep strict L z)
    (hw : ∀ y ∈ L, FlagWord sep y.1) {xs : List (Bytes × BitVec w)}
    (hx : ∀ x ∈ xs, FlagToken L strict sep x) {x : Bytes} (h : FStr sep z (xs.map Prod.fst) x) :
    ∃ b u, x = b :: u ∧ WordHead b ∧ b ≠ sep ∧ (xs ≠ [] → b ≠ c%'"') := by
  cases xs with
  | nil =>
    cases h with
    | stop =>
      obtain ⟨b, u, h1, h2, h3⟩ := hz.head
      exact ⟨b, u, h1, h2, h3, by simp⟩
  | cons a as =>
    have ha : ∃ b u, a.1 = b :: u ∧ WordHead b ∧ b ≠ sep ∧ b ≠ c%'"' := by
      cases hx a (by simp) with
      | @listed n g u h1 h2 =>
        obtain ⟨b, n', h3, h4, h5, h6⟩ := (hw _ h1).cons
        simp only at h3
        exact ⟨b, n' ++ g, by simp [h3], h4, h6, h5⟩
      | @other n h1 h2 h3 =>
        obtain ⟨b, n', h3, h4, h5, h6⟩ := h3.cons
        exact ⟨b, n', h3, h4, h6, h5⟩
    obtain ⟨b, u, h1, h2, h3, h4⟩ := ha
    simp only [List.map_cons] at h
    generalize hl : as.map Prod.fst = ts at h
    cases h with
    | last _ => exact ⟨b, _, by rw [h1]; rfl, h2, h3, fun _ => h4⟩
    | more _ _ => exact ⟨b, _, by rw [h1]; rfl, h2, h3, fun _ => h4⟩

/-- One pass over the entries `M`. -/
theorem flagOneStr_items {L : List (Bytes × BitVec w)} (hsep : GoodSep sep) (hnd : (L.map Prod.fst).Nodup)
    (hw : ∀ y ∈ L, FlagWord sep y.1) {z : Bytes} (hz : StrStop sep strict L z) {M : List (Bytes × BitVec w)}
    (hM : ∀ y ∈ M, y ∈ L) {xs : List (Bytes × BitVec w)} (hx : ∀ x ∈ xs, FlagToken L strict sep x) {x : Bytes}
    (h : FStr sep z (xs.map Prod.fst) x) {g0 : Bytes} (h0 : SepGap sep g0) (v : BitVec w) (e : EPtr) (ready : Bool)
    (hh : ready = true ∨ ∀ a as, xs = a :: as → (∃ y ∈ M, ∃ g, a = (y.1 ++ g, y.2) ∧ SepGap sep g) ∨
      ∀ y ∈ L, ∀ g, SepGap sep g → a ≠ (y.1 ++ g, y.2)) :
    ∃ pre post g' x', xs = pre ++ post ∧ FStr sep z (post.map Prod.fst) x' ∧ SepGap sep g' ∧
      flagOneStr sep strict M v (g0 ++ x) e ready = (v ||| orAll (pre.map Prod.snd), g' ++ x', e) ∧
      (ready = false → xs ≠ [] → pre ≠ []) ∧ (g' ++ x').length ≤ (g0 ++ x).length ∧
      (pre ≠ [] → (g' ++ x').length < (g0 ++ x).length) ∧ (M ≠ [] → xs = [] → g' = []) := by
  have hnil : SepGap sep [] := ⟨by simp [Ws], fun _ => rfl⟩
  induction M generalizing xs x g0 v ready with
  | nil =>
    cases xs with
    | nil =>
      cases h with
      | stop =>
        by_cases hrs : ready = true ∨ strict = true
        · refine ⟨[], [], g0, z, rfl, .stop, h0, ?_, by simp, Nat.le_refl _, by simp, by simp⟩
          rw [flagOneStr, if_pos (by rcases hrs with h | h <;> simp [h])]
          simp [orAll]
        · have hzq := hz.nil.resolve_left fun h => hrs (.inr h)
          refine ⟨[], [], [], z, rfl, .stop, hnil, ?_, by simp, by simp, by simp, by simp⟩
          have hs := hz.stop [] (by simp) v e ready
          cases z with
          | nil => simp at hzq
          | cons b u =>
            simp only [List.head?_cons, Option.some.injEq] at hzq
            subst hzq
            have h1 := word_space (b := c%'"') ⟨by unfold WsByte; decide, by decide, by decide⟩ h0.1 u e
            have h2 := word_space (b := c%'"') ⟨by unfold WsByte; decide, by decide, by decide⟩ hnil.1 u e
            simp only [List.nil_append] at h2
            rw [flagOneStr, if_neg (by simpa using hrs), h2] at hs
            rw [flagOneStr, if_neg (by simpa using hrs), h1, hs]
            simp [orAll]
    | cons a as =>
      cases ready with
      | true => exact ⟨[], a :: as, g0, x, rfl, h, h0, by simp [flagOneStr, orAll], by simp, Nat.le_refl _, by simp, by simp⟩
      | false =>
        have ha : ∀ y ∈ L, ∀ g, SepGap sep g → a ≠ (y.1 ++ g, y.2) := by
          rcases hh with hh | hh
          · cases hh
          · rcases hh a as rfl with ⟨_, hh, _⟩ | hh
            · cases hh
            · exact hh
        have hxs : ∀ x ∈ as, FlagToken L strict sep x := fun x hxx => hx x (by simp [hxx])
        cases hx a (by simp) with
        | @listed n g u h1 h2 => exact absurd rfl (ha _ h1 g h2)
        | @other n h1 h2 h3 =>
          subst h1
          simp only [List.map_cons] at h
          generalize hl : as.map Prod.fst = ts at h
          cases h with
          | last hzq =>
            cases as with
            | cons _ _ => simp at hl
            | nil =>
            obtain ⟨b, u, rfl, hb, hbs⟩ := hz.head
            simp only [List.head?_cons, Option.some.injEq] at hzq
            have hlen : 0 < n.length := List.length_pos_iff.mpr h3.nonempty
            refine ⟨[(n, 0)], [], [], b :: u, rfl, .stop, hnil, ?_, by simp, by simp; omega,
              by intro _; simp only [List.length_append, List.length_cons, List.length_nil]; omega, by simp⟩
            rw [flagOneStr_other hsep h3 v h0 hb hbs (.inl ⟨rfl, hzq⟩)]
            simp [orAll]
          | @more _ g _ x hg h =>
            subst hl
            obtain ⟨b, u, rfl, hb, hbs, _⟩ := h.start hz hw hxs
            refine ⟨[(n, 0)], as, [], b :: u, rfl, h, hnil, ?_, by simp, by simp; omega,
              by intro _; simp only [List.length_append, List.length_cons, List.length_nil]; omega, by simp⟩
            rw [flagOneStr_other hsep h3 v h0 hb hbs (.inr ⟨g, hg, rfl⟩)]
            simp [orAll]
  | cons y M ih =>
    have hyL := hM y (by simp)
    have hM' : ∀ y ∈ M, y ∈ L := fun y hy => hM y (by simp [hy])
    have hyw := hw y hyL
    obtain ⟨b0, u0, hbu0, hb0, _⟩ := h.start hz hw hx
    have hgap := flagOneStr_gap (strict := strict) y M v h0 hb0 u0 e ready
    rw [← hbu0] at hgap
    rw [hgap]
    cases xs with
    | nil =>
      cases h with
      | stop =>
        exact ⟨[], [], [], z, rfl, .stop, hnil, by rw [hz.stop _ hM]; simp [orAll], by simp, by simp, by simp, by simp⟩
    | cons a as =>
      have hxs : ∀ x ∈ as, FlagToken L strict sep x := fun x hxx => hx x (by simp [hxx])
      -- the word, the gap after it, its bits
      obtain ⟨n, g, u, rfl, hnw, hg, hcase⟩ : ∃ n g u, a = (n ++ g, u) ∧ FlagWord sep n ∧ SepGap sep g ∧
          ((n, u) ∈ L ∨ n ∉ L.map Prod.fst) := by
        cases hx a (by simp) with
        | @listed n g u h1 h2 => exact ⟨n, g, u, rfl, hw _ h1, h2, .inl h1⟩
        | @other n h1 h2 h3 => exact ⟨n, [], 0, by simp, h3, hnil, .inr h2⟩
      have hpos : 0 < n.length := List.length_pos_iff.mpr hnw.nonempty
      by_cases hyn : n = y.1
      · -- the entry at hand
        subst hyn
        have hu : u = y.2 := by
          rcases hcase with hc | hc
          · have h2 := enumFind_of_mem hnd (show (y.1, y.2) ∈ L from hyL)
            rw [enumFind_of_mem hnd hc] at h2
            simpa using h2
          · exact absurd (List.mem_map_of_mem hyL) hc
        subst hu
        simp only [List.map_cons] at h
        generalize hl : as.map Prod.fst = ts at h
        cases h with
        | last hzq =>
          cases as with
          | cons _ _ => simp at hl
          | nil =>
          obtain ⟨b, u, rfl, hb, hbs⟩ := hz.head
          simp only [List.head?_cons, Option.some.injEq] at hzq
          subst hzq
          refine ⟨[(y.1 ++ g, y.2)], [], [], c%'"' :: u, rfl, .stop, hnil, ?_, by simp, by simp; omega,
            by intro _; simp only [List.length_append, List.length_cons, List.length_nil]; omega, by simp⟩
          rw [List.append_assoc, flagOneStr_last hyw M v hg]
          simp [orAll]
        | @more _ g1 _ x hg1 h =>
          subst hl
          obtain ⟨pre, post, g', x', k1, k2, k3, k4, _, k6, _, _⟩ := ih hM' hxs h hg1 (v ||| y.2) true (.inl rfl)
          refine ⟨(y.1 ++ g, y.2) :: pre, post, g', x', by rw [k1]; rfl, k2, k3, ?_, by simp, ?_, ?_, by simp⟩
          · rw [List.append_assoc, flagOneStr_more hsep hyw M v hg, k4]
            simp [orAll, BitVec.or_assoc]
          · simp only [List.length_append, List.length_cons] at k6 ⊢; omega
          · intro _; simp only [List.length_append, List.length_cons] at k6 ⊢; omega
      · -- another one
        have hskip : flagOneStr sep strict (y :: M) v x e ready = flagOneStr sep strict M v x e ready := by
          have : ∃ d r, x = n ++ d :: r ∧ WordEnd sep d := by
            have hgd : ∀ {d0 : Byte} {r0 : Bytes}, WordEnd sep d0 → ∃ d r, g ++ d0 :: r0 = d :: r ∧ WordEnd sep d := by
              intro d0 r0 hd0
              cases g with
              | nil => exact ⟨d0, r0, rfl, hd0⟩
              | cons d g => exact ⟨d, _, rfl, .inl (hg.1 d (by simp))⟩
            simp only [List.map_cons] at h
            generalize hl : as.map Prod.fst = ts at h
            cases h with
            | last hzq =>
              obtain ⟨b, u, rfl, hb, hbs⟩ := hz.head
              simp only [List.head?_cons, Option.some.injEq] at hzq
              obtain ⟨d, r, h1, h2⟩ := hgd (d0 := b) (r0 := u) (.inr (.inr (.inr hzq)))
              exact ⟨d, r, by rw [List.append_assoc, h1], h2⟩
            | @more _ g1 _ x hg1 h =>
              obtain ⟨d, r, h1, h2⟩ := hgd (d0 := sep) (r0 := g1 ++ x) (.inr (.inr (.inl rfl)))
              exact ⟨d, r, by rw [List.append_assoc, h1], h2⟩
          obtain ⟨d, r, rfl, hd⟩ := this
          exact flagOneStr_skip hyw hnw hyn M v hd r e ready
        rw [hskip]
        have := ih hM' hx h hnil v ready (by
          refine hh.imp_right fun hh a' as' heq => ?_
          cases heq
          refine (hh _ as rfl).imp_left ?_
          rintro ⟨y', hy', g', h1, h2⟩
          rcases List.mem_cons.mp hy' with rfl | hm
          · exfalso
            simp only [Prod.mk.injEq] at h1
            -- the same word
            have h3 : n ++ (g ++ [c%'"']) = y'.1 ++ (g' ++ [c%'"']) := by
              rw [← List.append_assoc, h1.1, List.append_assoc]
            have hend : ∀ {g : Bytes}, SepGap sep g → ∃ d r, g ++ [c%'"'] = d :: r ∧ WordEnd sep d := by
              intro g hg
              cases g with
              | nil => exact ⟨_, _, rfl, .inr (.inr (.inr rfl))⟩
              | cons d g => exact ⟨d, _, rfl, .inl (hg.1 d (by simp))⟩
            obtain ⟨d, r, k1, k2⟩ := hend hg
            obtain ⟨d', r', k1', k2'⟩ := hend h2
            rw [k1, k1'] at h3
            exact hyn (word_split hnw hyw k2 k2' h3)
          · exact ⟨y', hm, g', h1, h2⟩)
        obtain ⟨pre, post, g', x', k1, k2, k3, k4, k5, k6, k7, k8⟩ := this
        simp only [List.nil_append] at k4 k6 k7
        refine ⟨pre, post, g', x', k1, k2, k3, k4, k5, ?_, ?_, by simp⟩
        · simp only [List.length_append] at k6 ⊢; omega
        · intro hp; have := k7 hp; simp only [List.length_append] at this ⊢; omega

/-- The loop over the words; `R` is what happens at the end of them. -/
theorem flagLoopF_str {F : Flags w} (hne : F.list ≠ []) (hsep : GoodSep F.sep) (hnd : (F.list.map Prod.fst).Nodup)
    (hw : ∀ y ∈ F.list, FlagWord F.sep y.1) {z : Bytes} (hz : StrStop F.sep F.strict F.list z)
    {e : EPtr} {R : BitVec w → Out (BitVec w × Bytes × EPtr)}
    (hR : ∀ v m, z.length < m → flagLoopF c F false m v z e = R v)
    {xs : List (Bytes × BitVec w)} (hx : ∀ x ∈ xs, FlagToken F.list F.strict F.sep x) {g x : Bytes} (hg : SepGap F.sep g)
    (h : FStr F.sep z (xs.map Prod.fst) x) (v : BitVec w) (n : Nat) (hn : (g ++ x).length < n) :
    flagLoopF c F false n v (g ++ x) e = R (v ||| orAll (xs.map Prod.snd)) := by
  induction n generalizing xs x g v with
  | zero => omega
  | succ n ih =>
    by_cases hend : xs = [] ∧ g = []
    · obtain ⟨rfl, rfl⟩ := hend
      cases h with
      | stop =>
        simp only [List.nil_append] at hn ⊢
        rw [hR v _ hn]
        simp [orAll]
    · obtain ⟨pre, post, g', x', h1, h2, h3, h4, h5, h6, h7, h8⟩ := flagOneStr_items (M := F.list) hsep hnd hw hz
        (fun _ h => h) hx h hg v e false (.inr fun a' as' _ => by
          by_cases ha : ∃ y ∈ F.list, ∃ g, a' = (y.1 ++ g, y.2) ∧ SepGap F.sep g
          · exact .inl ha
          · refine .inr fun y hy g hg heq => ha ⟨y, hy, g, heq, hg⟩)
      have hlt : (g' ++ x').length < (g ++ x).length := by
        by_cases hxs : xs = []
        · have hg' := h8 hne hxs
          subst hg' hxs
          obtain ⟨rfl, rfl⟩ := List.append_eq_nil_iff.mp h1.symm
          cases h with
          | stop =>
            cases h2 with
            | stop =>
              have : g.length ≠ 0 := fun hl => hend ⟨rfl, List.length_eq_zero_iff.mp hl⟩
              simp only [List.length_append, List.length_nil]
              omega
        · exact h7 (h5 rfl hxs)
      have hx'ne : g' ++ x' ≠ [] := by
        obtain ⟨b', u', h7, _⟩ := h2.start hz hw (fun x hxx => hx x (by rw [h1]; simp [hxx]))
        rw [h7]; simp
      obtain ⟨b, u, hbu, hb⟩ : ∃ b u, g ++ x = b :: u ∧ b ≠ c%'"' := by
        cases g with
        | cons d g =>
          refine ⟨d, _, rfl, fun hd => ?_⟩
          have := hg.1 d (by simp)
          rw [hd] at this
          revert this; unfold WsByte; decide
        | nil =>
          obtain ⟨b, u, h1, _, _, h4⟩ := h.start hz hw hx
          exact ⟨b, u, h1, h4 fun hxs => hend ⟨hxs, rfl⟩⟩
      rw [hbu] at h4 hlt hn ⊢
      simp only [flagLoopF, flagOne, if_false, Bool.false_eq_true]
      rw [if_neg hb, h4, Out.bind_ok]
      simp only
      rw [if_neg (by omega), if_neg hx'ne]
      rw [ih (xs := post) (fun x hxx => hx x (by rw [h1]; simp [hxx])) h3 h2 _ (by omega)]
      rw [h1, List.map_append, orAll_append, BitVec.or_assoc]

theorem strStop_quote (strict : Bool) (L : List (Bytes × BitVec w)) (hsq : sep ≠ c%'"') (rest : Bytes) :
    StrStop sep strict L (c%'"' :: rest) := by
  have hh : WordHead c%'"' := ⟨by unfold WsByte; decide, by decide, by decide⟩
  refine ⟨⟨_, _, rfl, hh, fun h => hsq h.symm⟩, ?_, .inr rfl⟩
  intro M _ v e ready
  have hsp := word_space hh (g := []) (by simp [Ws]) rest e
  simp only [List.nil_append] at hsp
  cases M with
  | nil =>
    simp only [flagOneStr]
    split
    · rfl
    · simp only [hsp, toSep]
      simp [hsp, hsq.symm]
  | cons y M => simp [flagOneStr, hsp]

theorem fstr_of_sepText {ts : List Bytes} {r : Bytes} (h : SepText sep ts r) (rest : Bytes) :
    ∃ g x, r ++ rest = g ++ x ∧ SepGap sep g ∧ FStr sep (c%'"' :: rest) ts x := by
  induction h with
  | @close g hg => exact ⟨g, c%'"' :: rest, by simp, hg, .stop⟩
  | @last g t hg => exact ⟨g, t ++ c%'"' :: rest, by simp, hg, .last rfl⟩
  | @more g t ts r hg _ ih =>
    obtain ⟨g', x, h1, h2, h3⟩ := ih
    exact ⟨g, t ++ sep :: (g' ++ x), by simp [h1], hg, .more h2 h3⟩

theorem goodSep_ne_quote (h : GoodSep sep) : sep ≠ c%'"' := by
  rcases h with h | h
  · rw [h]; decide
  · exact h.2.2.2

/-- The separator form. -/
theorem deFlags_sep {F : Flags w} (hne : F.list ≠ []) (hsep : GoodSep F.sep) (hnd : (F.list.map Prod.fst).Nodup)
    (hw : ∀ y ∈ F.list, FlagWord F.sep y.1)
    {xs : List (Bytes × BitVec w)} (hx : ∀ x ∈ xs, FlagToken F.list F.strict F.sep x) {r : Bytes}
    (h : SepText F.sep (xs.map Prod.fst) r) (v0 : BitVec w) (rest : Bytes) (e : EPtr) :
    deFlags c F v0 (c%'"' :: r ++ rest) e = .ok (orAll (xs.map Prod.snd), rest, e) := by
  obtain ⟨g, x, h1, h2, h3⟩ := fstr_of_sepText h rest
  simp only [List.cons_append, deFlags]
  rw [if_neg (by simp), h1]
  have := flagLoopF_str (c := c) (e := e) (R := fun v => .ok (v, c%'"' :: rest, e)) hne hsep hnd hw
    (strStop_quote F.strict F.list (goodSep_ne_quote hsep) rest)
    (fun v m hm => by
      cases m with
      | zero => omega
      | succ m => simp [flagLoopF]) hx h2 h3 0 ((g ++ x).length + 1) (by omega)
  have hd : decide (c%'"' = c%'[') = false := by decide
  rw [hd, this]
  simp [flagsEnd]

theorem fstr_of_sepComma {ts : List Bytes} {r : Bytes} (h : SepComma sep ts r) {g : Bytes} (hg : SepGap sep g) (z : Bytes) :
    ∃ g' x, r ++ (g ++ z) = g' ++ x ∧ SepGap sep g' ∧ FStr sep z ts x := by
  induction h with
  | nil => exact ⟨g, z, rfl, hg, .stop⟩
  | @cons g1 t ts r hg1 _ ih =>
    obtain ⟨g', x, h1, h2, h3⟩ := ih
    exact ⟨g1, t ++ sep :: (g' ++ x), by simp [h1], hg1, .more h2 h3⟩

/-- Strict mode, a word that is not listed. -/
theorem deFlags_sep_strict {F : Flags w} (hs : F.strict = true) (hne : F.list ≠ []) (hsep : GoodSep F.sep)
    (hnd : (F.list.map Prod.fst).Nodup) (hw : ∀ y ∈ F.list, FlagWord F.sep y.1)
    {xs : List (Bytes × BitVec w)} (hx : ∀ x ∈ xs, FlagToken F.list F.strict F.sep x) {r : Bytes}
    (h : SepComma F.sep (xs.map Prod.fst) r) {g : Bytes} (hg : SepGap F.sep g) {k : Bytes} (hk : FlagWord F.sep k)
    (hkn : k ∉ F.list.map Prod.fst) {d : Byte} (hd : d = F.sep ∨ d = c%'"') (v0 : BitVec w) (rest : Bytes) (e : EPtr) :
    deFlags c F v0 (c%'"' :: (r ++ (g ++ (k ++ d :: rest)))) e =
      .ok (orAll (xs.map Prod.snd), [],
        createError .UnexpectedEndFragment (createError .InvalidEnum e none ((k ++ d :: rest).length : Nat))) := by
  obtain ⟨g', x, h1, h2, h3⟩ := fstr_of_sepComma h hg (k ++ d :: rest)
  simp only [deFlags]
  rw [if_neg (by simp), h1]
  have hstop : ∀ M, (∀ y ∈ M, y ∈ F.list) → ∀ v e ready,
      flagOneStr F.sep F.strict M v (k ++ d :: rest) e ready = (v, k ++ d :: rest, e) := by
    intro M hM v e ready
    induction M with
    | nil => simp [flagOneStr, hs]
    | cons y M ih =>
      have hy := hM y (by simp)
      rw [flagOneStr_skip (hw y hy) hk (fun hky => hkn (List.mem_map.mpr ⟨y, hy, hky.symm⟩)) M v (.inr (.inr hd))]
      exact ih fun y hy => hM y (by simp [hy])
  obtain ⟨b, u, hbu, hbh, hbq, hbs⟩ := hk.cons
  have := flagLoopF_str (c := c) (e := e)
    (R := fun v => .ok (v, [], createError .InvalidEnum e none ((k ++ d :: rest).length : Nat))) hne hsep hnd hw
    ⟨⟨b, u ++ d :: rest, by rw [hbu]; rfl, hbh, hbs⟩, hstop, .inl hs⟩
    (fun v m hm => by
      cases m with
      | zero => omega
      | succ m =>
        have h4 := hstop F.list (fun _ h => h) v e false
        rw [hbu] at h4 ⊢
        simp only [List.cons_append] at h4 ⊢
        simp only [flagLoopF, flagOne, if_false, Bool.false_eq_true]
        rw [if_neg hbq, h4, Out.bind_ok]
        simp) hx h2 h3 0 ((g' ++ x).length + 1) (by omega)
  have hd : decide (c%'"' = c%'[') = false := by decide
  rw [hd, this]
  simp [flagsEnd]

theorem sepText_join (sep : Byte) (ts : List Bytes) : SepText sep ts (joinSep sep ts ++ b!"\"") := by
  have hnil : SepGap sep [] := ⟨by simp [Ws], fun _ => rfl⟩
  induction ts with
  | nil => exact .close hnil
  | cons t ts ih =>
    cases ts with
    | nil => exact .last hnil
    | cons u ts =>
      have := SepText.more (t := t) hnil ih
      simpa [joinSep] using this

end

end Wjson
