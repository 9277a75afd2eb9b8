import Verif.Model.Array
import Verif.Proofs.Typed
/-
Sequences, fixed-size arrays, dictionaries.
-/
namespace Wjson
open Spec

/-! ### Common steps -/

theorem SafeOut.err' {α : Type} {U : Prop} {s : Bytes} {e e1 : EPtr} {v : α} {c : Code} {m : Option Bytes} {t : Int}
    (he : EStep s.length e e1) (hc : c ≠ .ValidJSON) (h0 : 0 ≤ t) (h1 : t ≤ (s.length : Int)) :
    SafeOut U s e (.ok (v, [], createError c e1 m t)) :=
  .ok List.nil_suffix (he.trans (.create hc e1 m h0 h1))

theorem parseSpace_start {t rest : Bytes} {g : Bytes} (hg : Gap g) (ht : Start t) (e : EPtr) :
    parseSpace (g ++ (t ++ rest)) e = (t ++ rest, e) := by
  obtain ⟨b, u, rfl, h1, h2, _, _, _, _, h7⟩ := ht
  exact parseSpace_of_gap hg ⟨h1, h2⟩ h7 e

theorem parseSpace_byte {g : Bytes} (hg : Gap g) {b : Byte} (hb : b = c%',' ∨ b = c%']' ∨ b = c%'}' ∨ b = c%':' ∨ b = c%'"')
    (rest : Bytes) (e : EPtr) : parseSpace (g ++ b :: rest) e = (b :: rest, e) := by
  refine parseSpace_of_gap hg ?_ ?_ e
  · revert hb; revert b; apply forall_byte; decide +kernel
  · rcases hb with rfl | rfl | rfl | rfl | rfl <;> decide

theorem delim_byte {b : Byte} (hb : b = c%',' ∨ b = c%']' ∨ b = c%'}' ∨ b = c%':' ∨ b = c%'"') (rest : Bytes) :
    Delim (b :: rest) :=
  Delim.of_head rfl (by revert hb; revert b; apply forall_byte; decide +kernel)

theorem delim_gap {g : Bytes} (hg : Gap g) {b : Byte} (hb : b = c%',' ∨ b = c%']' ∨ b = c%'}' ∨ b = c%':' ∨ b = c%'"')
    (rest : Bytes) : Delim (g ++ b :: rest) := gap_delim hg (delim_byte hb rest)

theorem Start.of_byte {b : Byte} {t : Bytes}
    (h : b = c%'n' ∨ b = c%'t' ∨ b = c%'f' ∨ b = c%'-' ∨ Digit b ∨ b = c%'"' ∨ b = c%'[' ∨ b = c%'{') :
    Start (b :: t) :=
  ⟨b, t, rfl, by revert h; revert b; apply forall_byte; decide +kernel⟩

/-! ### Sequences -/

section
variable {α C : Type} {K : Coll α C} {S : Ser α} {R : Byte}

theorem seqLoopF_safe {U : Prop} (hS : Safe U S.de) (n : Nat) (t : C) (s : Bytes) (e : EPtr) (hn : s.length < n) :
    SafeOut U s e (seqLoopF K S R n t s e) := by
  induction n generalizing t s e with
  | zero => omega
  | succ n ih =>
    cases s with
    | nil => exact .err (by decide) (by omega) (by simp)
    | cons b0 s0 =>
      simp only [seqLoopF]
      have hp := (parseSpace_scan (b0 :: s0)).suffix e
      have he := EStep.of_scan (parseSpace_scan (b0 :: s0)) e
      generalize parseSpace (b0 :: s0) e = r at hp he ⊢
      obtain ⟨p, e'⟩ := r
      simp only at hp he ⊢
      cases p with
      | nil => exact .err' he (by decide) (by omega) (by omega)
      | cons b p =>
        refine .ite (fun _ => .ok (suffix_of_cons hp) he) (fun _ => ?_)
        have hlen := hp.length_le
        refine SafeOut.bind (SafeOut.mono id hp he (hS _ _ _)) ?_
        intro v q e1 _ hq he1
        simp only
        have hp2 := (parseSpace_scan q).suffix e1
        have he2 := he1.trans ((EStep.of_scan (parseSpace_scan q) e1).mono hq.length_le)
        generalize parseSpace q e1 = r2 at hp2 he2 ⊢
        obtain ⟨p2, e2⟩ := r2
        simp only at hp2 he2 ⊢
        cases p2 with
        | nil => exact .err' he2 (by decide) (by omega) (by omega)
        | cons b2 q2 =>
          have hp3 := hp2.trans hq
          have hlen2 := hp3.length_le
          refine .ite (fun _ => .ok (suffix_of_cons hp3) he2) (fun _ => ?_)
          refine .ite (fun _ => .err' he2 (by decide) (by omega) (by omega)) (fun _ => ?_)
          refine SafeOut.mono id (suffix_of_cons hp3) he2 (ih _ _ _ ?_)
          simp only [List.length_cons] at hlen2 hn
          omega

theorem deSeq_safe {U : Prop} {L : Byte} (hS : Safe U S.de) : Safe U (deSeq K S L R) := by
  intro v s e
  unfold deSeq
  refine .ite (fun _ => SafeOut.scan (parseNull_scan s) _) (fun _ => ?_)
  cases s with
  | nil => exact .err (by decide) (by omega) (by simp)
  | cons b t =>
    refine .ite (fun _ => .err (by decide) (by omega) (by omega)) (fun _ => ?_)
    exact SafeOut.mono id (suffix_cons b t) (.refl _ e) (seqLoopF_safe hS _ _ _ _ (by omega))

theorem close_byte (hR : R = c%']' ∨ R = c%'}') :
    R = c%',' ∨ R = c%']' ∨ R = c%'}' ∨ R = c%':' ∨ R = c%'"' := by
  rcases hR with h | h <;> simp [h]

theorem start_ne (hR : R = c%']' ∨ R = c%'}') {t rest : Bytes} (ht : Start t) : ∃ b u, t ++ rest = b :: u ∧ b ≠ R := by
  obtain ⟨b, u, rfl, _, _, h3, h4, _⟩ := ht
  refine ⟨b, u ++ rest, rfl, ?_⟩
  rcases hR with rfl | rfl <;> assumption

/-- One turn of the loop over an item. -/
theorem seqLoopF_item (hR : R = c%']' ∨ R = c%'}') {g1 t g2 : Bytes} {v : α} (h1 : Gap g1) (ht : Start t)
    (hr : ReadsAt S.de S.dflt t v) (h2 : Gap g2) (n : Nat) (c : C) {b : Byte} (rest : Bytes) {e : EPtr}
    (he : e.failed = false) (hb : b = R ∨ b = c%',') :
    seqLoopF K S R (n + 1) c (g1 ++ t ++ g2 ++ b :: rest) e =
      if b = R then .ok (K.insert c v, rest, e) else seqLoopF K S R n (K.insert c v) rest e := by
  have hbb : b = c%',' ∨ b = c%']' ∨ b = c%'}' ∨ b = c%':' ∨ b = c%'"' := by
    rcases hb with rfl | rfl
    · exact close_byte hR
    · exact .inl rfl
  have hs : g1 ++ t ++ g2 ++ b :: rest = g1 ++ (t ++ (g2 ++ b :: rest)) := by simp
  rw [hs]
  have hsp := parseSpace_start (rest := g2 ++ b :: rest) h1 ht e
  obtain ⟨b0, u0, h0, hne⟩ := start_ne hR (rest := g2 ++ b :: rest) ht
  have hcons : ∃ x y, g1 ++ (t ++ (g2 ++ b :: rest)) = x :: y := by
    cases g1 with
    | nil => exact ⟨b0, u0, by simpa using h0⟩
    | cons x y => exact ⟨x, _, rfl⟩
  obtain ⟨x, y, hxy⟩ := hcons
  rw [hxy] at hsp ⊢
  simp only [seqLoopF]
  rw [hsp]
  simp only
  have hde := hr (g2 ++ b :: rest) e he (delim_gap h2 hbb rest)
  rw [h0] at hde ⊢
  simp only [if_neg hne, hde, Out.bind_ok]
  rw [parseSpace_byte h2 hbb rest e]
  simp only
  by_cases hbR : b = R
  · rw [if_pos hbR, if_pos hbR]
  · have hc : b = c%',' := hb.resolve_left hbR
    rw [if_neg hbR, if_neg hbR, if_neg (by simp [hc])]

theorem seqLoopF_items (hR : R = c%']' ∨ R = c%'}') {vs : List α} {t : Bytes}
    (h : ItemsText (fun v t => ReadsAt S.de S.dflt t v) R vs t) (n : Nat) (c : C) (rest : Bytes) {e : EPtr}
    (he : e.failed = false) (hn : t.length < n) :
    seqLoopF K S R n c (t ++ rest) e = .ok (vs.foldl K.insert c, rest, e) := by
  induction h generalizing n c with
  | @close g hg =>
    cases n with
    | zero => omega
    | succ n =>
      have hcons : ∃ x y, g ++ [R] ++ rest = x :: y := by
        cases g with
        | nil => exact ⟨R, rest, rfl⟩
        | cons x y => exact ⟨x, _, rfl⟩
      have hsp : parseSpace (g ++ [R] ++ rest) e = (R :: rest, e) := by
        have := parseSpace_byte hg (close_byte hR) rest e
        simpa using this
      obtain ⟨x, y, hxy⟩ := hcons
      rw [hxy] at hsp ⊢
      simp only [seqLoopF, hsp, if_true, List.foldl_nil]
  | @last g1 v t g2 h1 ht hr h2 =>
    cases n with
    | zero => omega
    | succ n =>
      have := seqLoopF_item (K := K) hR h1 ht hr h2 n c (b := R) rest he (.inl rfl)
      simpa using this
  | @more g1 v t g2 vs r h1 ht hr h2 _ ih =>
    cases n with
    | zero => omega
    | succ n =>
      have := seqLoopF_item (K := K) hR h1 ht hr h2 n c (b := c%',') (r ++ rest) he (.inr rfl)
      rw [if_neg (by rcases hR with rfl | rfl <;> decide)] at this
      have h3 : g1 ++ t ++ g2 ++ c%',' :: r ++ rest = g1 ++ t ++ g2 ++ c%',' :: (r ++ rest) := by simp
      rw [h3, this, ih n _ (by simp only [List.length_append, List.length_cons] at hn; omega)]
      rfl

/-- Reading a sequence text. -/
theorem deSeq_items (hR : R = c%']' ∨ R = c%'}') {L : Byte} (hL : L ≠ c%'n') {vs : List α} {t : Bytes}
    (h : ItemsText (fun v t => ReadsAt S.de S.dflt t v) R vs t) (c0 : C) (rest : Bytes) {e : EPtr}
    (he : e.failed = false) : deSeq K S L R c0 (L :: t ++ rest) e = .ok (vs.foldl K.insert K.clear, rest, e) := by
  unfold deSeq
  have hn : isNull (L :: t ++ rest) = false := by simp [isNull, hL]
  rw [hn]
  simp only [Bool.false_eq_true, if_false, List.cons_append, ne_eq, not_true]
  exact seqLoopF_items hR h _ _ rest he (by simp only [List.length_append]; omega)

/-! ### Writing -/

theorem emitElems_writes {vs : List α} {ts : List Bytes} (h : All2 (fun v t => Writes S.emit v t) vs ts) (k : Sink) :
    emitElems S vs k = k.puts (joinComma ts) := by
  induction h generalizing k with
  | nil => rfl
  | @cons v t vs ts hv hvs ih =>
    cases hvs with
    | nil => exact hv k
    | cons hw hws =>
      simp only [emitElems, joinComma]
      rw [hv k, Sink.puts_append]
      congr 1
      funext k'
      rw [Sink.puts_cons]
      congr 1
      funext k''
      exact ih k''

theorem emitSeq_writes {L : Byte} {c : C} {ts : List Bytes}
    (h : All2 (fun v t => Writes S.emit v t) (K.elems c) ts) :
    Writes (emitSeq K S L R) c (L :: joinComma ts ++ [R]) := by
  intro k
  unfold emitSeq
  rw [List.cons_append, Sink.puts_cons]
  congr 1
  funext k1
  rw [emitElems_writes h, Sink.puts_append]
  congr 1
  funext k2
  exact Sink.put_eq k2 R

/-- The layout the library writes is one of the layouts it reads. -/
theorem items_of_join {item : α → Bytes → Prop} {vs : List α} {ts : List Bytes}
    (h : All2 (fun v t => Start t ∧ item v t) vs ts) : ItemsText item R vs (joinComma ts ++ [R]) := by
  induction h with
  | nil => exact .close .nil
  | @cons v t vs ts hv hvs ih =>
    cases hvs with
    | nil =>
      have := ItemsText.last (R := R) .nil hv.1 hv.2 .nil
      simpa [joinComma] using this
    | cons hw hws =>
      have := ItemsText.more .nil hv.1 hv.2 .nil ih
      simpa [joinComma] using this


/-! ### Round trip of sequences -/

theorem all2_imp {β γ : Type} {P Q : β → γ → Prop} (hpq : ∀ a b, P a b → Q a b) {as : List β} {bs : List γ}
    (h : All2 P as bs) : All2 Q as bs := by
  induction h with
  | nil => exact .nil
  | cons h _ ih => exact .cons (hpq _ _ h) ih

theorem seqSer_rt (hR : R = c%']' ∨ R = c%'}') {L : Byte} (hL : L = c%'[' ∨ L = c%'{') {c : C} {ts : List Bytes}
    (h : All2 (fun v t => RT S v t) (K.elems c) ts) (hc : (K.elems c).foldl K.insert K.clear = c) :
    RT (seqSer K S L R) c (L :: joinComma ts ++ [R]) where
  writes := emitSeq_writes (all2_imp (fun _ _ h => h.writes) h)
  start := Start.of_byte (by rcases hL with rfl | rfl <;> simp)
  reads := by
    intro c0 rest e he _
    have hi : ItemsText (fun v t => ReadsAt S.de S.dflt t v) R (K.elems c) (joinComma ts ++ [R]) :=
      items_of_join (all2_imp (fun _ _ h => ⟨h.start, h.reads _⟩) h)
    have := deSeq_items (K := K) hR (L := L) (by rcases hL with rfl | rfl <;> decide) hi c0 rest he
    rw [hc] at this
    simpa [seqSer] using this

/-! ### Fixed-size arrays -/

variable {k : FixKind}

theorem fixClose_safe {U : Prop} (t : List α) (s : Bytes) (e : EPtr) : SafeOut U s e (fixClose R t s e) := by
  cases s with
  | nil => exact .err (by decide) (by omega) (by simp)
  | cons b p =>
    simp only [fixClose]
    exact .ite (fun _ => .err (by decide) (by omega) (by omega)) (fun _ => .ok (suffix_cons b p) (.refl _ e))

theorem fixLoop_safe {U : Prop} (hS : Safe U S.de) (vs : List α) (s : Bytes) (e : EPtr) :
    SafeOut U s e (fixLoop k S R vs s e) := by
  induction vs generalizing s e with
  | nil => exact fixClose_safe _ s e
  | cons v vs ih =>
    cases s with
    | nil => exact fixClose_safe (R := R) _ _ e
    | cons b0 s0 =>
      simp only [fixLoop]
      have hp := (parseSpace_scan (b0 :: s0)).suffix e
      have he := EStep.of_scan (parseSpace_scan (b0 :: s0)) e
      generalize parseSpace (b0 :: s0) e = r at hp he ⊢
      obtain ⟨p, e'⟩ := r
      simp only at hp he ⊢
      cases p with
      | nil => exact .err' he (by decide) (by omega) (by omega)
      | cons b p =>
        refine .ite (fun _ => SafeOut.mono id hp he (fixClose_safe _ _ _)) (fun _ => ?_)
        refine SafeOut.bind (SafeOut.mono id hp he (hS _ _ _)) ?_
        intro w q e1 _ hq he1
        simp only
        have hp2 := (parseSpace_scan q).suffix e1
        have he2 := he1.trans ((EStep.of_scan (parseSpace_scan q) e1).mono hq.length_le)
        generalize parseSpace q e1 = r2 at hp2 he2 ⊢
        obtain ⟨p2, e2⟩ := r2
        simp only at hp2 he2 ⊢
        cases p2 with
        | nil => exact .err' he2 (by decide) (by omega) (by omega)
        | cons b2 q2 =>
          have hp3 := hp2.trans hq
          have hlen2 := hp3.length_le
          refine .ite (fun _ => SafeOut.mono id hp3 he2 (fixClose_safe _ _ _)) (fun _ => ?_)
          refine .ite (fun _ => .err' he2 (by decide) (by omega) (by omega)) (fun _ => ?_)
          refine SafeOut.bind (SafeOut.mono id (suffix_of_cons hp3) he2 (ih _ _)) ?_
          intro x p4 e4 _ hp4 he4
          exact .ok hp4 he4

theorem fixNull_safe {U : Prop} (hS : Safe U S.de) (s : Bytes) (vs : List α) (e : EPtr) :
    (fixNull S s vs e = .ub ∧ U) ∨ ∃ ws e', fixNull S s vs e = .ok (ws, e') ∧ EStep s.length e e' ∧ ws.length = vs.length := by
  induction vs generalizing e with
  | nil => exact .inr ⟨[], e, rfl, .refl _ e, rfl⟩
  | cons v vs ih =>
    simp only [fixNull]
    rcases hS v s e with ⟨h, hu⟩ | ⟨w, p, e1, h, _, he1⟩
    · exact .inl ⟨by rw [h]; rfl, hu⟩
    · rw [h, Out.bind_ok]
      rcases ih e1 with ⟨h2, hu⟩ | ⟨ws, e2, h2, he2, hl⟩
      · exact .inl ⟨by rw [h2]; rfl, hu⟩
      · rw [h2, Out.bind_ok]
        exact .inr ⟨_, _, rfl, he1.trans he2, by simp [hl]⟩

theorem deFix_safe {U : Prop} {L : Byte} (hS : Safe U S.de) : Safe U (deFix k S L R) := by
  intro v s e
  unfold deFix
  refine .ite (fun _ => ?_) (fun _ => ?_)
  · rcases fixNull_safe hS s v e with ⟨h, hu⟩ | ⟨ws, e', h, he, _⟩
    · rw [h]; exact .inl ⟨rfl, hu⟩
    · rw [h, Out.bind_ok]
      exact .ok ((parseNull_scan s).suffix e') (he.trans (.of_scan (parseNull_scan s) e'))
  · cases s with
    | nil => exact .err (by decide) (by omega) (by simp)
    | cons b t =>
      refine .ite (fun _ => .err (by decide) (by omega) (by omega)) (fun _ => ?_)
      exact SafeOut.mono id (suffix_cons b t) (.refl _ e) (fixLoop_safe hS _ _ _)

theorem fixClose_length {t t' : List α} {s p : Bytes} {e e' : EPtr} (h : fixClose R t s e = .ok (t', p, e')) : t' = t := by
  cases s with
  | nil => simp only [fixClose, Out.ok.injEq, Prod.mk.injEq] at h; exact h.1.symm
  | cons b s =>
    simp only [fixClose] at h
    split at h <;> (simp only [Out.ok.injEq, Prod.mk.injEq] at h; exact h.1.symm)

/-- The number of elements never changes. -/
theorem fixLoop_length (vs : List α) (s : Bytes) (e : EPtr) {ws : List α} {p : Bytes} {e' : EPtr}
    (h : fixLoop k S R vs s e = .ok (ws, p, e')) : ws.length = vs.length := by
  induction vs generalizing s e ws p e' with
  | nil => rw [fixClose_length h]
  | cons v vs ih =>
    cases s with
    | nil => rw [fixClose_length (R := R) (s := []) (e := e) h]
    | cons b0 s0 =>
      simp only [fixLoop] at h
      generalize parseSpace (b0 :: s0) e = r at h
      obtain ⟨q, e1⟩ := r
      cases q with
      | nil => simp only [Out.ok.injEq, Prod.mk.injEq] at h; rw [← h.1]
      | cons b q =>
        simp only at h
        split at h
        · rw [fixClose_length h]
        · obtain ⟨d, hd, h⟩ := Out.bind_eq_ok.mp h
          generalize parseSpace d.2.1 d.2.2 = r2 at h
          obtain ⟨q2, e2⟩ := r2
          cases q2 with
          | nil => simp only [Out.ok.injEq, Prod.mk.injEq] at h; rw [← h.1]; rfl
          | cons b2 q2 =>
            simp only at h
            split at h
            · rw [fixClose_length h]; rfl
            · split at h
              · simp only [Out.ok.injEq, Prod.mk.injEq] at h; rw [← h.1]; rfl
              · obtain ⟨x, hx, h⟩ := Out.bind_eq_ok.mp h
                simp only [Out.ok.injEq, Prod.mk.injEq] at h
                rw [← h.1]
                have := ih q2 e2 (ws := x.1) (p := x.2.1) (e' := x.2.2) hx
                simp [this]

theorem fixNull_length (s : Bytes) (vs : List α) (e : EPtr) {ws : List α} {e' : EPtr}
    (h : fixNull S s vs e = .ok (ws, e')) : ws.length = vs.length := by
  induction vs generalizing e ws e' with
  | nil => simp only [fixNull, Out.ok.injEq, Prod.mk.injEq] at h; rw [← h.1]
  | cons v vs ih =>
    simp only [fixNull] at h
    obtain ⟨d, hd, h⟩ := Out.bind_eq_ok.mp h
    obtain ⟨x, hx, h⟩ := Out.bind_eq_ok.mp h
    simp only [Out.ok.injEq, Prod.mk.injEq] at h
    rw [← h.1]
    have := ih _ (ws := x.1) (e' := x.2) hx
    simp [this]

theorem deFix_length {L : Byte} {vs ws : List α} {s p : Bytes} {e e' : EPtr}
    (h : deFix k S L R vs s e = .ok (ws, p, e')) : ws.length = vs.length := by
  unfold deFix at h
  split at h
  · obtain ⟨x, hx, h⟩ := Out.bind_eq_ok.mp h
    simp only [Out.ok.injEq, Prod.mk.injEq] at h
    rw [← h.1]
    exact fixNull_length s vs e (ws := x.1) (e' := x.2) hx
  · split at h
    · simp only [Out.ok.injEq, Prod.mk.injEq] at h; rw [← h.1]
    · split at h
      · simp only [Out.ok.injEq, Prod.mk.injEq] at h; rw [← h.1]
      · exact fixLoop_length _ _ _ h

/-- One turn of the loop over an item. -/
theorem fixLoop_item (hR : R = c%']' ∨ R = c%'}') {g1 t g2 : Bytes} {v v0 : α} {vs : List α} (h1 : Gap g1) (ht : Start t)
    (hr : ReadsAt S.de (k.start S v0) t v) (h2 : Gap g2) {b : Byte} (rest : Bytes) {e : EPtr}
    (he : e.failed = false) (hb : b = R ∨ b = c%',') :
    fixLoop k S R (v0 :: vs) (g1 ++ t ++ g2 ++ b :: rest) e =
      if b = R then .ok (v :: vs, rest, e) else fixLoop k S R vs rest e >>= fun x => .ok (v :: x.1, x.2) := by
  have hbb : b = c%',' ∨ b = c%']' ∨ b = c%'}' ∨ b = c%':' ∨ b = c%'"' := by
    rcases hb with rfl | rfl
    · exact close_byte hR
    · exact .inl rfl
  have hs : g1 ++ t ++ g2 ++ b :: rest = g1 ++ (t ++ (g2 ++ b :: rest)) := by simp
  rw [hs]
  have hsp := parseSpace_start (rest := g2 ++ b :: rest) h1 ht e
  obtain ⟨b0, u0, h0, hne⟩ := start_ne hR (rest := g2 ++ b :: rest) ht
  have hcons : ∃ x y, g1 ++ (t ++ (g2 ++ b :: rest)) = x :: y := by
    cases g1 with
    | nil => exact ⟨b0, u0, by simpa using h0⟩
    | cons x y => exact ⟨x, _, rfl⟩
  obtain ⟨x, y, hxy⟩ := hcons
  rw [hxy] at hsp ⊢
  simp only [fixLoop]
  rw [hsp]
  simp only
  have hde := hr (g2 ++ b :: rest) e he (delim_gap h2 hbb rest)
  rw [h0] at hde ⊢
  simp only [if_neg hne, hde, Out.bind_ok]
  rw [parseSpace_byte h2 hbb rest e]
  simp only
  by_cases hbR : b = R
  · rw [if_pos hbR, if_pos hbR]
    simp [fixClose, hbR]
  · have hc : b = c%',' := hb.resolve_left hbR
    rw [if_neg hbR, if_neg hbR, if_neg (by simp [hc])]

theorem fixLoop_items (hR : R = c%']' ∨ R = c%'}') {vs old : List α} {t : Bytes}
    (h : Items1 (fun v t => Reads S.de t v) R vs t) (hl : vs.length ≤ old.length) (rest : Bytes) {e : EPtr}
    (he : e.failed = false) :
    fixLoop k S R old (t ++ rest) e = .ok (vs ++ old.drop vs.length, rest, e) := by
  induction h generalizing old with
  | @last g1 v t g2 h1 ht hr h2 =>
    cases old with
    | nil => simp at hl
    | cons v0 old =>
      have := fixLoop_item (k := k) (v0 := v0) (vs := old) hR h1 ht (hr _) h2 (b := R) rest he (.inl rfl)
      simpa using this
  | @more g1 v t g2 vs r h1 ht hr h2 _ ih =>
    cases old with
    | nil => simp at hl
    | cons v0 old =>
      have := fixLoop_item (k := k) (v0 := v0) (vs := old) hR h1 ht (hr _) h2 (b := c%',') (r ++ rest) he (.inr rfl)
      rw [if_neg (by rcases hR with rfl | rfl <;> decide), ih (by simpa using hl)] at this
      simpa using this

theorem fixLoop_close (hR : R = c%']' ∨ R = c%'}') {old : List α} {g : Bytes} (hg : Gap g) (hne : old ≠ []) (rest : Bytes)
    (e : EPtr) : fixLoop k S R old (g ++ R :: rest) e = .ok (old, rest, e) := by
  cases old with
  | nil => exact absurd rfl hne
  | cons v vs =>
    have hcons : ∃ x y, g ++ R :: rest = x :: y := by
      cases g with
      | nil => exact ⟨R, rest, rfl⟩
      | cons x y => exact ⟨x, _, rfl⟩
    have hsp := parseSpace_byte hg (close_byte hR) rest e
    obtain ⟨x, y, hxy⟩ := hcons
    rw [hxy] at hsp ⊢
    simp only [fixLoop, hsp, if_true]
    simp [fixClose]

theorem fixLoop_too_many (hR : R = c%']' ∨ R = c%'}') {vs old : List α} {t : Bytes}
    (h : ItemsComma (fun v t => Reads S.de t v) vs t) (hl : vs.length = old.length) {rest : Bytes}
    (hr : rest.head? ≠ some R) {e : EPtr} (he : e.Clean) :
    ∃ p e', fixLoop k S R old (t ++ rest) e = .ok (vs, p, e') ∧ e'.failed = true := by
  induction h generalizing old with
  | nil =>
    cases old with
    | nil =>
      cases rest with
      | nil => exact ⟨_, _, rfl, he.applyErr_failed (x := ⟨.UnexpectedEndFragment, none, 0⟩) (by decide)⟩
      | cons b rest =>
        have hb : b ≠ R := by simpa using hr
        refine ⟨[], createError .ExpectedOf e (some [R]) ((b :: rest).length : Nat), ?_,
          he.applyErr_failed (x := ⟨.ExpectedOf, some [R], ((b :: rest).length : Nat)⟩) (by simp)⟩
        simp [fixLoop, fixClose, hb]
    | cons _ _ => simp at hl
  | @cons g1 v t g2 vs r h1 ht hrd h2 _ ih =>
    cases old with
    | nil => simp at hl
    | cons v0 old =>
      have := fixLoop_item (k := k) (v0 := v0) (vs := old) hR h1 ht (hrd _) h2 (b := c%',') (r ++ rest) he.not_failed
        (.inr rfl)
      obtain ⟨p, e', h3, h4⟩ := ih (old := old) (by simpa using hl)
      rw [if_neg (by rcases hR with rfl | rfl <;> decide), h3] at this
      refine ⟨p, e', ?_, h4⟩
      simpa using this

theorem items1_of_join {item : α → Bytes → Prop} {vs : List α} {ts : List Bytes} (hne : vs ≠ [])
    (h : All2 (fun v t => Start t ∧ item v t) vs ts) : Items1 item R vs (joinComma ts ++ [R]) := by
  induction h with
  | nil => exact absurd rfl hne
  | @cons v t vs ts hv hvs ih =>
    cases hvs with
    | nil =>
      have := Items1.last (R := R) .nil hv.1 hv.2 .nil
      simpa [joinComma] using this
    | cons hw hws =>
      have := Items1.more .nil hv.1 hv.2 .nil (ih (by simp))
      simpa [joinComma] using this

theorem deFix_open {L : Byte} (hL : L ≠ c%'n') (old : List α) (s : Bytes) (e : EPtr) :
    deFix k S L R old (L :: s) e = fixLoop k S R old s e := by
  unfold deFix
  have hn : isNull (L :: s) = false := by simp [isNull, hL]
  rw [hn]
  simp

theorem emitFix_writes {L : Byte} {vs : List α} {ts : List Bytes}
    (h : All2 (fun v t => Writes S.emit v t) vs ts) :
    Writes (emitFix S L R) vs (L :: joinComma ts ++ [R]) := by
  intro k
  unfold emitFix
  rw [List.cons_append, Sink.puts_cons]
  congr 1
  funext k1
  rw [emitElems_writes h, Sink.puts_append]
  congr 1
  funext k2
  exact Sink.put_eq k2 R

end

/-! ### Dictionary entries -/

section
variable {κ ν : Type} {SK : Ser κ} {SV : Ser ν}

theorem deField_safe {U : Prop} (hK : Safe U SK.de) (hV : Safe U SV.de) : Safe U (deField SK SV) := by
  intro t s e
  unfold deField
  refine SafeOut.bind (hK _ _ _) ?_
  intro v q e1 _ hq he1
  simp only
  have hp2 := (parseSpace_scan q).suffix e1
  have he2 := he1.trans ((EStep.of_scan (parseSpace_scan q) e1).mono hq.length_le)
  generalize parseSpace q e1 = r2 at hp2 he2 ⊢
  obtain ⟨p2, e2⟩ := r2
  simp only at hp2 he2 ⊢
  cases p2 with
  | nil => exact .err' he2 (by decide) (by omega) (by omega)
  | cons b2 q2 =>
    have hp3 := hp2.trans hq
    have hlen2 := hp3.length_le
    refine .ite (fun _ => .err' he2 (by decide) (by omega) (by omega)) (fun _ => ?_)
    have hp4 := ((parseSpace_scan q2).suffix e2).trans (suffix_of_cons hp3)
    have he4 := he2.trans ((EStep.of_scan (parseSpace_scan q2) e2).mono (suffix_of_cons hp3).length_le)
    generalize parseSpace q2 e2 = r4 at hp4 he4 ⊢
    obtain ⟨p4, e4⟩ := r4
    simp only at hp4 he4 ⊢
    cases p4 with
    | nil => exact .err' he4 (by decide) (by omega) (by omega)
    | cons b5 q5 =>
      refine SafeOut.bind (SafeOut.mono id hp4 he4 (hV _ _ _)) ?_
      intro x p6 e6 _ hp6 he6
      exact .ok hp6 he6

/-- Reading an entry with any gaps around the colon. -/
theorem deField_reads {kt vt g1 g2 : Bytes} {kv : κ × ν} {t0 : κ × ν} (hk : ReadsAt SK.de t0.1 kt kv.1) (h1 : Gap g1)
    (h2 : Gap g2) (hvs : Start vt) (hv : ReadsAt SV.de t0.2 vt kv.2) :
    ReadsAt (deField SK SV) t0 (kt ++ g1 ++ c%':' :: (g2 ++ vt)) kv := by
  intro rest e he hd
  have hb : c%':' = c%',' ∨ c%':' = c%']' ∨ c%':' = c%'}' ∨ c%':' = c%':' ∨ c%':' = c%'"' := by decide
  have hs : kt ++ g1 ++ c%':' :: (g2 ++ vt) ++ rest = kt ++ (g1 ++ c%':' :: (g2 ++ (vt ++ rest))) := by simp
  rw [hs]
  unfold deField
  rw [hk _ e he (delim_gap h1 hb _), Out.bind_ok]
  simp only
  rw [parseSpace_byte h1 hb]
  simp only [ne_eq, not_true, if_false]
  rw [parseSpace_start h2 hvs]
  have hv' := hv rest e he hd
  obtain ⟨b, u, rfl, _⟩ := hvs
  simp only [List.cons_append] at hv' ⊢
  rw [hv']
  rfl

theorem fieldSer_rt {k : κ} {v : ν} {kt vt : Bytes} (hk : RT SK k kt) (hv : RT SV v vt) :
    RT (fieldSer SK SV) (k, v) (kt ++ c%':' :: vt) where
  writes := by
    intro s
    show emitField SK SV (k, v) s = _
    unfold emitField
    rw [hk.writes, Sink.puts_append]
    congr 1
    funext s1
    rw [Sink.puts_cons]
    congr 1
    funext s2
    exact hv.writes s2
  start := by
    obtain ⟨b, u, rfl, h⟩ := hk.start
    exact ⟨b, _, rfl, h⟩
  reads := by
    intro t0
    have := deField_reads (kv := (k, v)) (t0 := t0) (hk.reads _) .nil .nil hv.start (hv.reads _)
    simpa [fieldSer] using this

end

theorem ItemsText.weaken {α : Type} {P Q : α → Bytes → Prop} {R : Byte} {vs : List α} {r : Bytes} (h : ItemsText P R vs r)
    (hpq : ∀ v t, P v t → Q v t) : ItemsText Q R vs r := by
  induction h with
  | close hg => exact .close hg
  | last h1 hs hi h2 => exact .last h1 hs (hpq _ _ hi) h2
  | more h1 hs hi h2 _ ih => exact .more h1 hs (hpq _ _ hi) h2 ih

end Wjson
