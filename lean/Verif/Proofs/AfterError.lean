import Verif.Proofs.Meaning
/-
Helper lemmas for C58: what is stored before an error.
-/
namespace Wjson
open Spec

section
variable {α C : Type} {K : Coll α C} {S : Ser α} {R : Byte}

theorem createError_failed {e : EPtr} (hf : e.failed = true) (c : Code) (x : Option Bytes) (n : Int) : createError c e x n = e := by
  cases e with
  | null => cases hf
  | obj w =>
    have : w.status = true := hf
    simp [createError, this]

theorem EPtr.Clean.set {e : EPtr} (he : e.Clean) (c : Code) (m : Option Bytes) (n : Int) :
    createError c e m n = .obj ⟨c, m, n⟩ := by
  obtain ⟨x, rfl, hx⟩ := he
  simp [createError, hx]

theorem seqLoopF_comma (hR : R = c%']' ∨ R = c%'}') {vs : List α} {t : Bytes}
    (h : ItemsComma (fun v t => ReadsAt S.de S.dflt t v) vs t) (n : Nat) (k : C) (rest : Bytes) {e : EPtr}
    (he : e.failed = false) (hn : (t ++ rest).length < n) :
    ∃ m, rest.length < m ∧ seqLoopF K S R n k (t ++ rest) e = seqLoopF K S R m (vs.foldl K.insert k) rest e := by
  induction h generalizing n k with
  | nil => exact ⟨n, hn, rfl⟩
  | @cons g1 v t g2 vs r h1 h2 h3 h4 _ ih =>
    cases n with
    | zero => omega
    | succ n =>
      obtain ⟨m, hm, hr⟩ := ih n (K.insert k v) (by simp only [List.length_append, List.length_cons] at hn ⊢; omega)
      refine ⟨m, hm, ?_⟩
      have := seqLoopF_item (K := K) hR h1 h2 h3 h4 n k (b := c%',') (r ++ rest) he (.inr rfl)
      rw [if_neg (by rcases hR with rfl | rfl <;> decide)] at this
      simp only [List.append_assoc, List.cons_append] at this ⊢
      rw [this, hr]
      rfl

theorem deSeq_element {L : Byte} (hR : R = c%']' ∨ R = c%'}') (hL : L ≠ c%'n') {vs : List α} {t : Bytes}
    (h : ItemsComma (fun v t => ReadsAt S.de S.dflt t v) vs t) {g bad : Bytes} (hg : Gap g)
    (hb : Start bad) {x : α} {e e' : EPtr} (he : e.Clean) (hbad : S.de S.dflt bad e = .ok (x, [], e')) (hf : e'.failed = true)
    (k0 : C) : deSeq K S L R k0 (L :: (t ++ g ++ bad)) e = .ok (K.insert (vs.foldl K.insert K.clear) x, [], e') := by
  simp only [deSeq]
  rw [if_neg (by simpa [isNull] using hL)]
  simp only [ne_eq, not_true, if_false]
  rw [List.append_assoc]
  obtain ⟨m, hm, hr⟩ := seqLoopF_comma (K := K) (R := R) hR h ((t ++ (g ++ bad)).length + 1) K.clear (g ++ bad) he.not_failed
    (Nat.lt_succ_self _)
  rw [hr]
  cases m with
  | zero => omega
  | succ m =>
    obtain ⟨b, u, rfl, h1, h2, h3, h4, h5, h6, h7⟩ := hb
    have hs : parseSpace (g ++ b :: u) e = (b :: u, e) :=
      parseSpace_before (.mk' hg (by simpa using h7)) (by intro y hy; simp at hy; subst hy; exact ⟨h1, h2⟩) e
    have hne : ∃ y z, g ++ b :: u = y :: z := by cases g <;> simp
    obtain ⟨y, z, hyz⟩ := hne
    have hs2 : parseSpace [] e' = ([], e') := parseSpace_stop (p := []) (by intro y hy; simp at hy) e'
    rw [hyz] at hs ⊢
    simp only [seqLoopF, hs]
    rw [if_neg (by rcases hR with rfl | rfl <;> assumption), hbad, Out.bind_ok]
    simp only [hs2, createError_failed hf]

theorem deSeq_end {L : Byte} (hR : R = c%']' ∨ R = c%'}') (hL : L ≠ c%'n') {vs : List α} {t : Bytes}
    (h : ItemsComma (fun v t => ReadsAt S.de S.dflt t v) vs t) {e : EPtr} (he : e.Clean)
    (k0 : C) : deSeq K S L R k0 (L :: t) e = .ok (vs.foldl K.insert K.clear, [], .obj ⟨.UnexpectedEndFragment, none, 0⟩) := by
  rw [← he.set]
  simp only [deSeq]
  rw [if_neg (by simpa [isNull] using hL)]
  simp only [ne_eq, not_true, if_false]
  obtain ⟨m, hm, hr⟩ := seqLoopF_comma (K := K) (R := R) hR h (t.length + 1) K.clear [] he.not_failed (by simp)
  rw [List.append_nil] at hr
  rw [hr]
  cases m with
  | zero => simp at hm
  | succ m => rfl

end

section
variable {κ ν : Type} {SK : Ser κ} {SV : Ser ν}

/-- A dictionary entry. -/
def EntryReads (SK : Ser κ) (SV : Ser ν) (x : κ × ν) (t : Bytes) : Prop :=
  ∃ tk g1 g2 tv, t = tk ++ (g1 ++ c%':' :: (g2 ++ tv)) ∧ Gap g1 ∧ Gap g2 ∧ Start tv ∧ ReadsAt SK.de SK.dflt tk x.1 ∧
    ReadsAt SV.de SV.dflt tv x.2

theorem EntryReads.reads {x : κ × ν} {t : Bytes} (h : EntryReads SK SV x t) : ReadsAt (fieldSer SK SV).de (fieldSer SK SV).dflt t x := by
  obtain ⟨tk, g1, g2, tv, rfl, h1, h2, h3, h4, h5⟩ := h
  intro rest e he hd
  have := deField_reads (t0 := (SK.dflt, SV.dflt)) (kv := x) h4 h1 h2 h3 h5 rest e he hd
  simpa [fieldSer] using this

end

section
variable {τ : Type} {c : Cfg} {strict : Bool}

theorem membersF_before {L : List (DEntry τ)} (hS : ∀ d ∈ L, Accepts d.entry.ref.ser d.den) (hn : ∀ d ∈ L, PlainName d.name)
    (hnd : (L.map DEntry.name).Nodup) {g r : Bytes} {items : List (Bytes × Bytes)} {s : Bytes}
    (h : ItemsThen (c%',' :: (g ++ r)) items s) {l cur : List (DEntry τ)} (hl : ∀ d ∈ l, d ∈ L) {t t' : τ}
    (hrun : Run strict L l items t t' (some cur)) {e e' : EPtr} (he : e.failed = false) (hmax : s.length ≤ intMax)
    (hsp : parseSpace (g ++ r) e = (r, e)) {x : τ} (hf : e'.failed = true)
    (hfin : ∀ m, r.length < m → membersF c strict (L.map fun d => d.entry.toMember) m (cur.map fun d => d.entry.toMember) t' r e =
      .ok (x, [], e')) (n : Nat) (hlen : s.length < n) :
    membersF c strict (L.map fun d => d.entry.toMember) n (l.map fun d => d.entry.toMember) t s e = .ok (x, [], e') := by
  have hend : (Out.ok (x, [], e') >>= fun y => membersEnd y.1 y.2.1 y.2.2) = .ok (x, [], e') := by
    rw [Out.bind_ok]; simp only [membersEnd, createError_failed hf]
  induction h generalizing l t n with
  | @one k g1 g2 v g3 h1 h2 hv h3 =>
    cases n with
    | zero => omega
    | succ n =>
    cases l with
    | nil => cases hrun
    | cons d l =>
      obtain ⟨u, t1, hit, hr⟩ := hrun.cases_cons
      simp only [List.length_append, List.length_cons, quoted] at hmax hlen
      have hvl : v.length ≤ intMax := by omega
      rw [membersF_item hS hn hnd (hl d (by simp)) l hit hv hvl h1 h2 h3 (.inl rfl) _ he n, if_pos rfl, hsp]
      generalize (if u = true then l else d :: l) = l1 at hr ⊢
      cases hr with
      | done => rw [hfin n (by omega)]; exact hend
  | @more k g1 g2 v g3 g4 items r h1 h2 hv h3 h4 hi ih =>
    cases n with
    | zero => omega
    | succ n =>
    cases l with
    | nil => cases hrun
    | cons d l =>
      obtain ⟨u, t1, hit, hr⟩ := hrun.cases_cons
      simp only [List.length_append, List.length_cons, quoted] at hmax hlen
      have hvl : v.length ≤ intMax := by omega
      rw [membersF_item hS hn hnd (hl d (by simp)) l hit hv hvl h1 h2 h3 (.inl rfl) _ he n, if_pos rfl, parseSpace_then h4 hi]
      rw [ih (l := if u = true then l else d :: l) ?_ hr (by omega) n (by omega)]
      · exact hend
      · intro d' hd'
        cases u with
        | true => exact hl d' (by simp at hd'; simp [hd'])
        | false => exact hl d' (by simpa using hd')

theorem entry_bad {d : DEntry τ} (hn : c%'"' ∉ d.name) {t : τ} {x : d.entry.ref.α} {bad g1 g2 : Bytes} (hb : Start bad)
    (h1 : Gap g1) (h2 : Gap g2) {e e' : EPtr} (hbad : d.entry.ref.ser.de (d.entry.start t) bad e = .ok (x, [], e')) (u : Bool) :
    d.entry.toMember.de t (quoted d.name ++ (g1 ++ c%':' :: (g2 ++ bad))) e u = .ok (d.entry.ref.set x t, [], e', true) := by
  have hm := fun (u : Bool) => memberName_match hn h1 h2 hb [] e u
  obtain ⟨en, den⟩ := d
  cases en with
  | mem m =>
    simp only [Entry.toMember, member, Entry.ref, deMember, Entry.start, DEntry.name, List.append_nil] at hbad hm ⊢
    rw [hm]
    simp only [Bool.not_true, Bool.false_eq_true, if_false]
    rw [hbad]
    rfl
  | prop m =>
    simp only [Entry.toMember, memberP, Entry.ref, deMemberP, Entry.start, DEntry.name, List.append_nil] at hbad hm ⊢
    rw [hm]
    simp only [Bool.not_true, Bool.false_eq_true, if_false]
    rw [hbad]
    rfl

theorem search_bad {L : List (DEntry τ)} (hn : ∀ d ∈ L, c%'"' ∉ d.name) (hnd : (L.map DEntry.name).Nodup) {d : DEntry τ}
    (hd : d ∈ L) {t : τ} {x : d.entry.ref.α} {bad g1 g2 : Bytes} (hb : Start bad) (h1 : Gap g1) (h2 : Gap g2) {e e' : EPtr}
    (hbad : d.entry.ref.ser.de (d.entry.start t) bad e = .ok (x, [], e')) :
    searchMembers c strict (L.map fun d => d.entry.toMember) t (quoted d.name ++ (g1 ++ c%':' :: (g2 ++ bad))) e =
      .ok (d.entry.ref.set x t, [], e') := by
  induction L with
  | nil => cases hd
  | cons y L ih =>
    simp only [List.map_cons, searchMembers]
    simp only [List.map_cons, List.nodup_cons] at hnd
    rcases List.mem_cons.mp hd with rfl | hd'
    · rw [entry_bad (hn d (by simp)) hb h1 h2 hbad]
      rfl
    · have hne : d.name ≠ y.name := fun hh => hnd.1 (by rw [← hh]; exact List.mem_map_of_mem hd')
      rw [Entry.skips (en := y.entry) (keyDiffers_names (hn d hd) hne) t _ e false]
      simp only [Out.bind_ok, Bool.false_eq_true, if_false]
      exact ih (fun d hd => hn d (by simp [hd])) hnd.2 hd'

theorem nodup_inj {L : List (DEntry τ)} (hnd : (L.map DEntry.name).Nodup) {a b : DEntry τ} (ha : a ∈ L) (hb : b ∈ L)
    (h : a.name = b.name) : a = b := by
  induction L with
  | nil => cases ha
  | cons y L ih =>
    simp only [List.map_cons, List.nodup_cons] at hnd
    rcases List.mem_cons.mp ha with rfl | ha' <;> rcases List.mem_cons.mp hb with rfl | hb'
    · rfl
    · exact absurd (h ▸ List.mem_map_of_mem hb') hnd.1
    · exact absurd (h ▸ List.mem_map_of_mem (f := DEntry.name) ha') hnd.1
    · exact ih hnd.2 ha' hb'

theorem Run.cursor {L l : List (DEntry τ)} {items : List (Bytes × Bytes)} {t t' : τ} {cur : List (DEntry τ)}
    (h : Run strict L l items t t' (some cur)) (hl : ∀ d ∈ l, d ∈ L) : ∀ d ∈ cur, d ∈ L := by
  generalize ho : some cur = o at h
  induction h with
  | done => cases ho; exact hl
  | next _ _ ih => exact ih (fun d hd => hl d (by simp [hd])) ho
  | other _ _ _ _ ih => exact ih hl ho
  | unknown _ _ _ _ ih => exact ih hl ho
  | rest => cases ho

theorem gap_then_quote {g : Bytes} (hg : Gap g) (k u : Bytes) (e : EPtr) :
    parseSpace (g ++ (quoted k ++ u)) e = (quoted k ++ u, e) := by
  simpa [quoted] using parseSpace_byte hg (b := c%'"') (by decide) (k ++ c%'"' :: u) e

/-- The members before the next one have been stored; the rest of the text is
read with the cursor that is left. -/
theorem deObject_before {dflt : τ} {L : List (DEntry τ)} (hS : ∀ d ∈ L, Accepts d.entry.ref.ser d.den)
    (hn : ∀ d ∈ L, PlainName d.name) (hnd : (L.map DEntry.name).Nodup) {items : List (Bytes × Bytes)} {s0 r : Bytes}
    (h : Opened items s0) {t t' : τ} {cur : List (DEntry τ)} (hrun : Run strict L L items t t' (some cur)) {e e' : EPtr}
    (he : e.failed = false) (hmax : (s0 ++ r).length ≤ intMax) {x : τ} (hf : e'.failed = true) (hr : r ≠ [])
    (hb : r.head? ≠ some c%'}') (hsp : ∀ g, Gap g → parseSpace (g ++ r) e = (r, e))
    (hfin : ∀ m, r.length < m → membersF c strict (L.map fun d => d.entry.toMember) m (cur.map fun d => d.entry.toMember) t' r e =
      .ok (x, [], e')) :
    deObject c strict dflt (L.map fun d => d.entry.toMember) t (s0 ++ r) e = .ok (x, [], e') := by
  have body : ∀ s1 b q, parseSpace s1 e = (b :: q, e) → b ≠ c%'}' →
      membersF c strict (L.map fun d => d.entry.toMember) (q.length + 2) (L.map fun d => d.entry.toMember) t (b :: q) e =
        .ok (x, [], e') →
      deObject c strict dflt (L.map fun d => d.entry.toMember) t (c%'{' :: s1) e = .ok (x, [], e') := by
    intro s1 b q h1 h2 h3
    simp only [deObject]
    rw [if_neg (by simp [isNull])]
    simp only [ne_eq, not_true, if_false, objectBody, h1]
    rw [if_pos h2, h3, Out.bind_ok]
    simp only [createError_failed hf]
  cases h with
  | @first g hg =>
    cases hrun
    cases r with
    | nil => exact absurd rfl hr
    | cons b q =>
      exact body _ b q (hsp g hg) (by simpa using hb) (hfin _ (by simp))
  | @next _ r0 g ho hne hg =>
    generalize hw : r0 ++ b!"}" = w at ho
    cases ho with
    | empty => exact absurd rfl hne
    | @items gg _ rr hgg hfrom =>
      obtain ⟨r1, rfl, hall⟩ := itemsThen_of_from hfrom
      have : r0 = c%'{' :: (gg ++ r1) := by
        have : r0 ++ b!"}" = (c%'{' :: (gg ++ r1)) ++ b!"}" := by rw [hw]; simp
        exact List.append_cancel_right this
      subst this
      have ht := hall (c%',' :: (g ++ r))
      have hps := parseSpace_then (e := e) hgg ht
      have hm := fun hm => membersF_before (c := c) hS hn hnd ht (fun _ h => h) hrun he hm (hsp g hg) hf hfin
        ((r1 ++ c%',' :: (g ++ r)).length + 1) (by omega)
      obtain ⟨u, hu⟩ := itemsThen_head ht
      have e1 : c%'{' :: (gg ++ r1) ++ c%',' :: g ++ r = c%'{' :: (gg ++ (r1 ++ c%',' :: (g ++ r))) := by simp
      rw [e1] at hmax ⊢
      rw [hu] at hmax hps hm ⊢
      refine body _ _ u hps (by decide) (hm ?_)
      simp only [List.length_append, List.length_cons] at hmax ⊢
      omega

end

end Wjson
