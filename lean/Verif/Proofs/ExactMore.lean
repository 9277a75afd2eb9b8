import Verif.Proofs.Exact
import Verif.Proofs.Misc
import Verif.Proofs.Time
import Verif.Proofs.Size
/-
The readers accept exactly the texts of the denotation: `char[N]`, raw values
and descriptions in quotes, pointers, time intervals and sizes.
-/
namespace Wjson
open Spec

/-! ### `char[N]` -/

theorem strStep_cap {b : Byte} {t : Bytes} {n : Nat} {e : EPtr} (he : e.Clean) (hb : b ≠ c%'"') (hn : n ≠ 0) :
    (strStep b t n e).2.2.2.failed = true ∨
      ∃ u, b :: t = u ++ (strStep b t n e).2.1 ∧
        (DUnit u (strStep b t n e).1 ∨ CutUnit u (strStep b t n e).1 ∧ (strStep b t n e).2.2.1 = 0) ∧
        (strStep b t n e).2.2.2 = e := by
  unfold strStep
  by_cases h0 : b = c%'\\'
  · rw [if_pos h0]
    subst h0
    cases t with
    | nil => exact .inl (he.create (by decide) _ _)
    | cons x t' =>
      simp only
      cases hx : simpleEsc x with
      | some y => exact .inr ⟨[c%'\\', x], rfl, .inl (.short (simpleEsc_iff.mp hx)), rfl⟩
      | none =>
        simp only
        by_cases hu : x = c%'u'
        · rw [if_pos hu]
          subst hu
          cases hh : hexN 4 0 t' e with
          | mk o e1 =>
            cases o with
            | none =>
              left
              have hes : (uhexStep t' n e) = ([], [], n, e1) := by
                unfold uhexStep; rw [if_neg hn, hh]
              rw [hes]
              have key : ∀ (k acc : Nat) (s : Bytes) (e e1 : EPtr), e.Clean ∨ e.failed = true →
                  hexN k acc s e = (none, e1) → e1.failed = true := by
                intro k
                induction k with
                | zero => intro acc s e e1 _ h; simp [hexN] at h
                | succ k ih =>
                  intro acc s e e1 hc h
                  cases s with
                  | nil =>
                    simp [hexN] at h
                    rw [← h]
                    rcases hc with hc | hc
                    · exact hc.create (by decide) _ _
                    · rw [createError_of_failed hc]; exact hc
                  | cons b t =>
                    refine ih _ t _ e1 ?_ h
                    rcases hc with hc | hc
                    · rcases (hexVal_estep b e 0).clean hc with h | h
                      · rw [h]; exact .inl hc
                      · exact .inr h
                    · exact .inr ((hexVal_estep b e 0).failed_mono hc)
              exact key 4 0 t' e e1 (.inl he) hh
            | some q =>
              obtain ⟨h, p⟩ := q
              rcases hexN_inv he hh with hf | ⟨ds, h1, h2, h3, h4, h5⟩
              · left
                have hes := uhexStep_ok t' (n := n) hn e1
                have : (uhexStep t' n e).2.2.2.failed = true := by
                  unfold uhexStep
                  rw [if_neg hn, hh]
                  simp only
                  repeat' split
                  all_goals first
                    | exact hf
                    | (rw [createError_of_failed hf]; exact hf)
                exact this
              · match ds, h1 with
                | [a, b, c, d], _ =>
                  have ha := h3 a (by simp)
                  have hb := h3 b (by simp)
                  have hc := h3 c (by simp)
                  have hd := h3 d (by simp)
                  subst h2
                  by_cases hr : 0x20 ≤ hex4 a b c d ∨ ShortCtl (hex4 a b c d)
                  · by_cases hle : (utf8Enc (hex4 a b c d)).length ≤ n
                    · right
                      have := uhexStep_uni ha hb hc hd hr hle p e
                      simp only [List.cons_append, List.nil_append, this]
                      exact ⟨[c%'\\', c%'u', a, b, c, d], rfl, .inl (.uni ha hb hc hd hr), trivial⟩
                    · exact .inl (uhexStep_trunc ha hb hc hd hn (by omega) p he)
                  · right
                    have := uhexStep_ctl ha hb hc hd (by omega) (fun x => hr (.inr x)) (n := n) hn p e
                    simp only [List.cons_append, List.nil_append, this]
                    refine ⟨[c%'\\', c%'u', a, b, c, d], rfl, ?_, trivial⟩
                    by_cases h6 : 6 ≤ n
                    · rw [List.take_of_length_le (by simp only [List.length_cons, List.length_nil]; omega)]
                      exact .inl (.ctl ha hb hc hd (by omega) (fun x => hr (.inr x)))
                    · refine .inr ⟨.ctl ha hb hc hd (by omega) (fun x => hr (.inr x)) (by omega) (by omega), ?_⟩
                      simp only [List.length_take, List.length_cons, List.length_nil]
                      omega
        · rw [if_neg hu]
          by_cases hxx : x = c%'x'
          · rw [if_pos hxx]
            subst hxx
            unfold xhexStep
            cases hh : hexN 2 0 t' e with
            | mk o e1 =>
              cases o with
              | none =>
                left
                simp only
                match t', hh with
                | [], hh =>
                  simp [hexN] at hh
                  rw [← hh]; exact he.create (by decide) _ _
                | [y], hh =>
                  simp [hexN] at hh
                  rw [← hh]
                  rcases (hexVal_estep y e 0).clean he with h | h
                  · rw [h]; exact he.create (by decide) _ _
                  · rw [createError_of_failed h]; exact h
                | _ :: _ :: _, hh => simp [hexN] at hh
              | some q =>
                obtain ⟨h, p⟩ := q
                rcases hexN_inv he hh with hf | ⟨ds, h1, h2, h3, h4, h5⟩
                · exact .inl hf
                · right
                  match ds, h1 with
                  | [a, b], _ =>
                    subst h2
                    refine ⟨[c%'\\', c%'x', a, b], rfl, .inl ?_, h4⟩
                    simp only [List.foldl_cons, List.foldl_nil, Nat.zero_mul, Nat.zero_add] at h5
                    subst h5
                    exact .hex (h3 a (by simp)) (h3 b (by simp))
          · rw [if_neg hxx]
            exact .inl (he.create (by decide) _ _)
  · rw [if_neg h0]
    cases hl : utf8Lead b with
    | none =>
      left
      have : ∀ b : Byte, utf8Lead b = none → b &&& 128 ≠ 0 ∧ b &&& 224 ≠ 192 ∧ b &&& 240 ≠ 224 ∧ b &&& 248 ≠ 240 := by
        apply forall_byte; decide +kernel
      have k := this b hl
      unfold utf8Step
      rw [if_neg k.1, if_neg k.2.1, if_neg k.2.2.1, if_neg k.2.2.2]
      exact he.create (by decide) _ _
    | some k =>
      have hL := utf8Lead_iff.mp hl
      by_cases hk0 : k = 0
      · right
        subst hk0
        have h1 : b &&& 128 = 0 := by
          have : ∀ b : Byte, utf8Lead b = some 0 → b &&& 128 = 0 := by apply forall_byte; decide +kernel
          exact this b hl
        have h2 : b < 0x80 := by
          clear h0 hb hl hL; revert h1; revert b; apply forall_byte; decide +kernel
        unfold utf8Step
        rw [if_pos h1]
        exact ⟨[b], rfl, .inl (.ascii h2 hb h0), rfl⟩
      · by_cases hk3 : k ≤ 3
        · rw [leadLen_copy hL (by omega) hk3]
          by_cases hkn : k + 1 ≤ n
          · rcases utf8Copy_inv hkn hL (by omega) hk3 he (t := t) with h | ⟨u, h1, h2, h3⟩
            · exact .inl h
            · exact .inr ⟨u, h1, .inl h2, h3⟩
          · by_cases ht : t.length + 1 < n
            · left
              have : ∀ (i : Nat) (s : Bytes) (n : Nat), s.length < i → s.length < n →
                  (utf8Copy i s n e).2.2.2 = createError .UnexpectedEndFragment e := by
                intro i
                induction i with
                | zero => intro s n h; simp at h
                | succ i ih =>
                  intro s n h1 h2
                  cases n with
                  | zero => simp at h2
                  | succ n =>
                    cases s with
                    | nil => rfl
                    | cons b t => exact ih t n (by simpa using h1) (by simpa using h2)
              rw [this (k + 1) (b :: t) n (by simp; omega) (by simpa using ht)]
              exact he.create (by decide) _ _
            · right
              have key : ∀ (i : Nat) (s : Bytes) (n : Nat), n < i → n ≤ s.length → utf8Copy i s n e = (s.take n, s.drop n, 0, e) := by
                intro i
                induction i with
                | zero => intro s n h; simp at h
                | succ i ih =>
                  intro s n h1 h2
                  cases n with
                  | zero => simp [utf8Copy]
                  | succ n =>
                    cases s with
                    | nil => simp at h2
                    | cons b t =>
                      have := ih t n (by omega) (by simpa using h2)
                      simp [utf8Copy, this]
              rw [key (k + 1) (b :: t) n (by omega) (by simp; omega)]
              cases n with
              | zero => exact absurd rfl hn
              | succ n =>
                refine ⟨b :: t.take n, by simp, .inr ⟨?_, rfl⟩, rfl⟩
                exact .multi hL (by omega) hk3 (by rw [List.length_take]; omega)
        · left
          have : ∀ b : Byte, ∀ k : Fin 6, utf8Lead b = some k.1 → ¬ k.1 ≤ 3 →
              b &&& 128 ≠ 0 ∧ b &&& 224 ≠ 192 ∧ b &&& 240 ≠ 224 ∧ b &&& 248 ≠ 240 := by
            apply forall_byte; decide +kernel
          have hk6 : k < 6 := by rcases hL with h | h | h | h | h | h <;> omega
          have kk := this b ⟨k, hk6⟩ hl hk3
          unfold utf8Step
          rw [if_neg kk.1, if_neg kk.2.1, if_neg kk.2.2.1, if_neg kk.2.2.2]
          exact he.create (by decide) _ _


theorem cutUnit_ne {u w : Bytes} (h : CutUnit u w) : 1 ≤ w.length ∧ ∃ b t, u = b :: t ∧ b ≠ c%'"' := by
  cases h with
  | @ctl a b c d m _ _ _ _ _ _ h1 h2 => exact ⟨by simp only [List.length_take, List.length_cons, List.length_nil]; omega, _, _, rfl, by decide⟩
  | @multi b n ts h1 h2 h3 h4 =>
    refine ⟨by simp, _, _, rfl, ?_⟩
    rintro rfl
    unfold LeadLen at h1
    rcases h1 with h | h | h | h | h | h
    · omega
    all_goals exact absurd h.1 (by decide)

theorem strStep_cut {u w : Bytes} (h : CutUnit u w) (rest : Bytes) (e : EPtr) {b : Byte} {t : Bytes} (hu : u = b :: t) :
    strStep b (t ++ rest) w.length e = (w, rest, 0, e) := by
  cases h with
  | @ctl a b' c d m h1 h2 h3 h4 h5 h6 h7 h8 =>
    simp at hu
    obtain ⟨rfl, rfl⟩ := hu
    have hl : ([c%'\\', c%'u', a, b', c, d].take m).length = m := by
      simp only [List.length_take, List.length_cons, List.length_nil]; omega
    rw [hl]
    unfold strStep
    rw [if_pos rfl]
    have : simpleEsc c%'u' = none := by decide
    simp only [List.cons_append, List.nil_append, this, if_true]
    rw [uhexStep_ctl h1 h2 h3 h4 h5 h6 (by omega), hl, Nat.sub_self]
  | @multi x n ts h1 h2 h3 h4 =>
    simp at hu
    obtain ⟨rfl, rfl⟩ := hu
    have hx : x ≠ c%'\\' := by
      rintro rfl
      unfold LeadLen at h1
      rcases h1 with h | h | h | h | h | h
      · omega
      all_goals exact absurd h.1 (by decide)
    unfold strStep
    rw [if_neg hx, leadLen_copy h1 h2 h3]
    have key : ∀ (i : Nat) (s rest : Bytes), s.length < i → utf8Copy i (s ++ rest) s.length e = (s, rest, 0, e) := by
      intro i
      induction i with
      | zero => intro s rest h; simp at h
      | succ i ih =>
        intro s rest h1
        cases s with
        | nil => simp [utf8Copy]
        | cons b t =>
          have := ih t rest (by simpa using h1)
          simp [utf8Copy, this]
    exact key (n + 1) (x :: ts) rest (by simp; omega)

theorem strDec_step {b : Byte} {t : Bytes} {n : Nat} (hb : b ≠ c%'"') (hn : n ≠ 0) (e : EPtr) :
    strDec (b :: t) n e = ((strStep b t n e).1 ++ (strDec (strStep b t n e).2.1 (strStep b t n e).2.2.1 (strStep b t n e).2.2.2).1,
      (strDec (strStep b t n e).2.1 (strStep b t n e).2.2.1 (strStep b t n e).2.2.2).2) := by
  rw [strDec.eq_def]
  simp only
  rw [if_neg hb, dif_neg hn]

/-- Reading into a buffer without an error means the token decodes as far as
there is room. -/
theorem strDec_cap {s : Bytes} {n : Nat} {e : EPtr} (he : e.Clean) :
    (strDec s n e).2.2.failed = true ∨
      ∃ u, s = u ++ c%'"' :: (strDec s n e).2.1 ∧ DecodesIn n u (strDec s n e).1 ∧ (strDec s n e).2.2 = e := by
  induction hl : s.length using Nat.strongRecOn generalizing s n with
  | ind m ih =>
    subst hl
    cases s with
    | nil => rw [strDec.eq_def]; exact .inl (he.create (by decide) _ _)
    | cons b t =>
      by_cases hb : b = c%'"'
      · rw [strDec.eq_def]
        simp only
        rw [if_pos hb]; exact .inr ⟨[], by rw [hb]; rfl, .inl ⟨.nil, by simp⟩, rfl⟩
      · by_cases hn0 : n = 0
        · subst hn0; exact .inl (strDec_full hb t he)
        · rw [strDec_step hb hn0]
          have hok := strStep_ok b t hn0 e
          have hlt := strStep_length b t e hn0
          rcases strStep_cap he hb hn0 (t := t) with hf | ⟨u, h1, h2, h3⟩
          · left
            have := strDec_ok (strStep b t n e).2.1 (strStep b t n e).2.2.1 (strStep b t n e).2.2.2
            exact this.2.2.1.failed_mono hf
          · have hc := hok.cap
            rw [h3]
            rcases ih _ hlt (s := (strStep b t n e).2.1) (n := (strStep b t n e).2.2.1) rfl with hf | ⟨us, g1, g2, g3⟩
            · exact .inl hf
            · refine .inr ⟨u ++ us, ?_, ?_, g3⟩
              · rw [List.append_assoc, ← g1]
                exact h1
              · rcases h2 with h2 | ⟨h2, h2'⟩
                · rcases g2 with ⟨g2, g2'⟩ | ⟨u1, v1, u2, v2, r1, r2, r3, r4, r5⟩
                  · exact .inl ⟨.cons h2 g2, by rw [List.length_append]; omega⟩
                  · refine .inr ⟨u ++ u1, (strStep b t n e).1 ++ v1, u2, v2, by rw [r1]; simp, by rw [r2]; simp, .cons h2 r3, r4, ?_⟩
                    rw [List.length_append]; omega
                · rw [h2'] at g2 ⊢
                  rw [h2'] at hc
                  have hz : us = [] ∧ (strDec (strStep b t n e).2.1 0 e).1 = [] := by
                    rcases g2 with ⟨g2, g2'⟩ | ⟨u1, v1, u2, v2, r1, r2, r3, r4, r5⟩
                    · have hv : (strDec (strStep b t n e).2.1 0 e).1 = [] := List.length_eq_zero_iff.mp (by omega)
                      refine ⟨?_, hv⟩
                      rw [hv] at g2
                      generalize hw : ([] : Bytes) = w at g2
                      cases g2 with
                      | nil => rfl
                      | cons q1 q2 =>
                        have := (dunit_ne q1).1
                        have := congrArg List.length hw
                        simp at this
                        omega
                    · have := (cutUnit_ne r4).1
                      rw [r2, List.length_append] at r5
                      omega
                  rw [hz.1, hz.2]
                  refine .inr ⟨[], [], u, (strStep b t n e).1, by simp, by simp, .nil, h2, ?_⟩
                  simp only [List.append_nil]; omega

/-- A string longer than the capacity is an error, unless all that does not fit is
a part of an escape of a control character at its end. -/
theorem strDec_long_cut {l : List (Bytes × Bytes)} (hl : ∀ x ∈ l, DUnit x.1 x.2 ∧ RChar x.1) {n : Nat}
    (hn : n < (l.flatMap (·.2)).length) (rest : Bytes) {e : EPtr} (he : e.Clean) :
    (strDec (l.flatMap (·.1) ++ c%'"' :: rest) n e).2.2.failed = true ∨
      ∃ l' x, l = l' ++ [x] ∧ x.1 = x.2 ∧ x.2.length = 6 ∧ (l'.flatMap (·.2)).length < n ∧
        strDec (l.flatMap (·.1) ++ c%'"' :: rest) n e = ((l.flatMap (·.2)).take n, rest, e) := by
  induction l generalizing n with
  | nil => simp at hn
  | cons x l ih =>
    obtain ⟨u, w⟩ := x
    obtain ⟨h1, h2⟩ : DUnit u w ∧ RChar u := hl (u, w) (by simp)
    simp only [List.flatMap_cons, List.length_append] at hn ⊢
    rw [List.append_assoc]
    by_cases hx : n < w.length
    · by_cases h4 : w.length ≤ 4
      · exact .inl (strDec_trunc h1 h2 h4 hx _ he)
      · obtain ⟨_, b, t, hu, hb⟩ := dunit_ne h1
        by_cases hn0 : n = 0
        · subst hn0
          rw [hu]
          exact .inl (strDec_full hb _ he)
        · have hctl : w = u ∧ w.length = 6 ∧ CutUnit u (w.take n) := by
            cases h1 with
            | ascii => simp at h4
            | multi _ _ h3 h5 => simp at h4; omega
            | short => simp at h4
            | uni =>
              exfalso
              revert h4
              unfold utf8Enc
              repeat' split
              all_goals simp
            | ctl g1 g2 g3 g4 g5 g6 => exact ⟨rfl, rfl, .ctl g1 g2 g3 g4 g5 g6 (by omega) (by simpa using hx)⟩
            | hex => simp at h4
          obtain ⟨rfl, h6, hc⟩ := hctl
          have hst := strStep_cut hc (l.flatMap (·.1) ++ c%'"' :: rest) e hu
          rw [List.length_take, Nat.min_eq_left (by omega)] at hst
          rw [hu, List.cons_append, strDec_step hb hn0, hst]
          cases l with
          | nil =>
            right
            refine ⟨[], (b :: t, b :: t), by simp, rfl, hu ▸ h6, by simp; omega, ?_⟩
            simp only [List.flatMap_nil, List.nil_append]
            rw [strDec.eq_def]
            simp [hu]
          | cons y l =>
            left
            obtain ⟨_, b', t', hu', hb'⟩ := dunit_ne (hl y (by simp)).1
            simp only [List.flatMap_cons, hu', List.cons_append]
            exact strDec_full hb' _ he
    · rw [strDec_unit h1 (by omega)]
      rcases ih (fun y hy => hl y (by simp [hy])) (n := n - w.length) (by omega) with hf | ⟨l', x, rfl, h5, h6, h7, h8⟩
      · exact .inl hf
      · right
        refine ⟨(u, w) :: l', x, rfl, h5, h6, by simp only [List.flatMap_cons, List.length_append]; omega, ?_⟩
        rw [h8, List.take_append, List.take_of_length_le (l := w) (by omega)]

theorem strDec_decodesIn {u v : Bytes} {n : Nat} (h : DecodesIn n u v) (rest : Bytes) (e : EPtr) :
    strDec (u ++ c%'"' :: rest) n e = (v, rest, e) := by
  rcases h with ⟨h, hn⟩ | ⟨u1, v1, u2, v2, rfl, rfl, h, h2, h3⟩
  · exact strDec_decodes h hn rest e
  · induction h generalizing n with
    | nil =>
      obtain ⟨hl, b, t, hu, hb⟩ := cutUnit_ne h2
      have := strStep_cut h2 (c%'"' :: rest) e hu
      subst hu
      simp only [List.nil_append] at h3 ⊢
      subst h3
      rw [List.cons_append, strDec_step hb (by omega), this]
      simp [strDec.eq_def]
    | @cons u v us vs k1 k2 ih =>
      simp only [List.length_append] at h3
      rw [List.append_assoc, List.append_assoc, strDec_unit k1 (by omega), ← List.append_assoc, ih (n := n - v.length) (by rw [List.length_append]; omega)]
      simp

theorem charArraySer_closed (N : Nat) : Closed (charArraySer N) (CharsDen N) where
  safe := (deCharArray_safe N).any
  sound := by
    intro v0 v s p e he _ h
    simp only [charArraySer] at h
    by_cases hn : isNull s = true
    · simp only [deCharArray] at h
      rw [if_pos hn] at h
      simp only [Out.ok.injEq, Prod.mk.injEq] at h
      have := parseNull_acc_iff.mp (Acc.of_clean (parseNull_scan s) he (e' := e) (p := p) (Prod.ext h.2.1 h.2.2) he.not_failed)
      exact ⟨_, this, .inl ⟨rfl, h.1.symm⟩⟩
    · obtain ⟨w, p', e', h1, h2, _, _, h5⟩ := deCharArray_eq N v0 s e
      cases s with
      | nil =>
        simp only [deCharArray] at h
        rw [if_neg hn] at h
        simp only [unserializeStr, Out.bind_ok, Out.ok.injEq, Prod.mk.injEq] at h
        exact (he.no_error (by decide) h.2.2).elim
      | cons b t =>
        by_cases hb : b = c%'"'
        · subst hb
          obtain ⟨rfl, rfl, rfl⟩ := h5 t rfl
          rw [h1] at h
          simp only [Out.ok.injEq, Prod.mk.injEq] at h
          obtain ⟨rfl, rfl, h8⟩ := h
          rcases strDec_cap he (s := t) (n := N) with hf | ⟨u, g1, g2, g3⟩
          · rw [h8, he.not_failed] at hf; cases hf
          · refine ⟨quoted u, ?_, .inr ⟨u, _, rfl, g2, rfl⟩⟩
            rw [quoted]
            simp only [List.cons_append, List.append_assoc, List.nil_append]
            rw [← g1]
        · simp only [deCharArray] at h
          rw [if_neg hn] at h
          simp only [unserializeStr] at h
          rw [if_pos hb, Out.bind_ok] at h
          simp only [Out.ok.injEq, Prod.mk.injEq] at h
          exact (he.no_error (by decide) h.2.2).elim
  complete := by
    rintro v0 v t (⟨rfl, rfl⟩ | ⟨u, w, rfl, hu, rfl⟩) ht rest e _
    · have := parseNull_ok rest e
      simp only [charArraySer, deCharArray]
      have hn : isNull (b!"null" ++ rest) = true := rfl
      rw [if_pos hn, this]
    · obtain ⟨w', p', e', h1, h2, _, _, h5⟩ := deCharArray_eq N v0 (quoted u ++ rest) e
      obtain ⟨rfl, rfl, rfl⟩ := h5 (u ++ c%'"' :: rest) (by simp [quoted])
      rw [strDec_decodesIn hu] at h1
      exact h1

theorem charArraySer_exact (N : Nat) : Exact (charArraySer N) (CharsDen N) where
  safe := (charArraySer_closed N).safe
  sound he hs _ h := (charArraySer_closed N).sound he hs h
  complete h ht rest e he _ := (charArraySer_closed N).complete h ht rest e he
  head := by
    rintro v0 v t (⟨rfl, _⟩ | ⟨u, w, rfl, _⟩) <;> exact headed_of_byte (by decide)
  null := by
    intro v0 v s p e he hn h
    have hn' : isNull s = true := by simp [isNull, hn]
    simp only [charArraySer, deCharArray] at h
    rw [if_pos hn'] at h
    simp only [Out.ok.injEq, Prod.mk.injEq] at h
    exact parseNull_acc_iff.mp (Acc.of_clean (parseNull_scan s) he (e' := e) (p := p) (Prod.ext h.2.1 h.2.2) he.not_failed)

/-! ### Raw values in quotes -/

theorem rawQuotedSer_exact (c : Cfg) (serQ reqQ : Bool) : Exact (rawQuotedSer c serQ reqQ) (RawQuotedDen reqQ) where
  safe := (deRawQuoted_safe c reqQ).any
  sound := by
    intro v0 v s p e he _ _ h
    simp only [rawQuotedSer] at h
    cases s with
    | nil =>
      simp only [deRawQuoted, Out.ok.injEq, Prod.mk.injEq] at h
      exact (he.no_error (by decide) h.2.2).elim
    | cons b t =>
      simp only [deRawQuoted] at h
      cases reqQ with
      | false =>
        simp only [Bool.false_and, Bool.false_eq_true, if_false] at h
        obtain ⟨r, hp, h⟩ := Out.bind_eq_ok.mp h
        by_cases hf : r.2.failed = true
        · rw [if_pos hf] at h
          simp only [Out.ok.injEq, Prod.mk.injEq] at h
          rw [h.2, he.not_failed] at hf; cases hf
        · rw [if_neg hf] at h
          simp only [Out.ok.injEq, Prod.mk.injEq] at h
          obtain ⟨hv, hr⟩ := h
          subst hr
          obtain ⟨t', h1, hx, _⟩ := parseValue_acc_iff.mp (AccO.of_clean (parseValue_scan c _) he hp he.not_failed)
          refine ⟨t', h1, ?_⟩
          rw [h1, consumed_append] at hv
          subst hv
          exact ⟨hx, rfl⟩
      | true =>
        simp only [Bool.true_and, decide_eq_true_eq, if_true] at h
        by_cases hb : b = c%'"'
        · rw [if_neg (by simp [hb])] at h
          obtain ⟨r, hp, h⟩ := Out.bind_eq_ok.mp h
          by_cases hf : r.2.failed = true
          · rw [if_pos hf] at h
            simp only [Out.ok.injEq, Prod.mk.injEq] at h
            rw [h.2, he.not_failed] at hf; cases hf
          · rw [if_neg hf] at h
            obtain ⟨r1, r2⟩ := r
            have hc : r2 = e := by
              have := AccO.of_clean (parseValue_scan c t) he hp (by simpa using hf) e
              rw [hp] at this
              cases this
              rfl
            subst hc
            simp only at h
            cases r1 with
            | nil =>
              simp only [Out.ok.injEq, Prod.mk.injEq] at h
              exact (he.no_error (by decide) h.2.2).elim
            | cons d q =>
              simp only at h
              by_cases hd : d = c%'"'
              · rw [if_pos hd] at h
                simp only [Out.ok.injEq, Prod.mk.injEq] at h
                obtain ⟨rfl, rfl, _⟩ := h
                obtain ⟨t', h1, hx, _⟩ := parseValue_acc_iff.mp (AccO.of_clean (parseValue_scan c _) he hp he.not_failed)
                subst h1
                rw [consumed_append]
                exact ⟨quoted t', by simp [quoted, hb, hd], hx, rfl⟩
              · rw [if_neg hd] at h
                simp only [Out.ok.injEq, Prod.mk.injEq] at h
                exact (he.no_error (by decide) h.2.2).elim
        · rw [if_pos (by simp [hb])] at h
          simp only [Out.ok.injEq, Prod.mk.injEq] at h
          exact (he.no_error (by decide) h.2.2).elim
  complete := by
    rintro v0 v t ⟨hx, rfl⟩ _ rest e he hr
    simp only [rawQuotedSer]
    cases reqQ with
    | false =>
      have := parseValue_acc_iff (c := c).mpr ⟨v, rfl, hx, fun _ => numFollow_of_delim hr⟩ e
      obtain ⟨b, u, ht, _⟩ := xvalue_head hx
      simp only [Bool.false_eq_true, if_false]
      have hs : v ++ rest = b :: (u ++ rest) := by rw [ht]; rfl
      rw [hs] at this ⊢
      simp only [deRawQuoted, Bool.false_and, Bool.false_eq_true, if_false, this, Out.bind_ok, he]
      rw [← hs, consumed_append]
    | true =>
      have hq : Delim (c%'"' :: rest) := by
        intro b hb
        simp only [List.head?_cons, Option.some.injEq] at hb
        subst hb
        unfold Digit; decide
      have := parseValue_acc_iff (c := c).mpr ⟨v, rfl, hx, fun _ => numFollow_of_delim hq⟩ e
      simp only [if_true, quoted, List.cons_append, List.append_assoc, List.nil_append]
      simp only [deRawQuoted, Bool.true_and, ne_eq, not_true, decide_false, Bool.false_eq_true, if_false, if_true, this, Out.bind_ok, he, consumed_append]
  head := by
    rintro v0 v t ⟨hx, rfl⟩
    cases reqQ with
    | false =>
      obtain ⟨b, u, ht, hb⟩ := xvalue_head hx
      refine ⟨b, u, ht, ?_⟩
      clear hx ht
      revert hb; revert b; unfold Digit; apply forall_byte; decide +kernel
    | true => exact headed_of_byte (by decide)
  null := by
    intro v0 v s p e he hn h
    simp only [rawQuotedSer] at h
    cases s with
    | nil => simp at hn
    | cons b t =>
      have hb : b = c%'n' := by simpa using hn
      simp only [deRawQuoted] at h
      cases reqQ with
      | false =>
        simp only [Bool.false_and, Bool.false_eq_true, if_false] at h
        obtain ⟨r, hp, h⟩ := Out.bind_eq_ok.mp h
        refine (rawSer_exact c).null (v0 := v0) (v := v) he hn ?_
        simp only [rawSer, deRaw, hp, Out.bind_ok]
        by_cases hf : r.2.failed = true
        · rw [if_pos hf] at h
          simp only [Out.ok.injEq, Prod.mk.injEq] at h
          rw [h.2, he.not_failed] at hf; cases hf
        · rw [if_neg hf] at h
          exact h
      | true =>
        rw [if_pos (by simp [hb])] at h
        simp only [Out.ok.injEq, Prod.mk.injEq] at h
        exact (he.no_error (by decide) h.2.2).elim

/-! ### Descriptions in quotes -/

section
variable {α : Type} {S : Ser α}

theorem deQuotedStr_split (hS : Safe True S.de) {v0 v : α} {s p : Bytes} {e : EPtr} (he : e.Clean)
    (h : deQuotedStr S v0 s e = .ok (v, p, e)) :
    ∃ w r, deStr [] s e = .ok (w, p, e) ∧ S.de v0 w .fresh = .ok (v, r, .fresh) := by
  simp only [deQuotedStr] at h
  obtain ⟨⟨w, p', e'⟩, h1, h⟩ := Out.bind_eq_ok.mp h
  simp only at h
  by_cases hf : e'.failed = true
  · rw [if_pos hf] at h
    simp only [Out.ok.injEq, Prod.mk.injEq] at h
    rw [h.2.2, he.not_failed] at hf; cases hf
  · rw [if_neg hf] at h
    obtain ⟨⟨v', r, e2⟩, h2, h⟩ := Out.bind_eq_ok.mp h
    simp only at h
    have key : v' = v ∧ p' = p ∧ e2 = .fresh := by
      rcases (hS v0 w .fresh) with ⟨h3, _⟩ | ⟨v3, p3, e3, h3, h4, h5⟩
      · rw [h2] at h3; cases h3
      · rw [h2] at h3
        cases h3
        rcases h5.clean EPtr.fresh_clean with h6 | h6
        · subst h6
          have hst : ∃ x, EPtr.fresh = .obj x ∧ x.status = false := ⟨_, rfl, by decide⟩
          obtain ⟨x, hx, hx'⟩ := hst
          rw [hx] at h
          simp only [hx', Bool.false_and, Bool.false_eq_true, if_false, Out.ok.injEq, Prod.mk.injEq] at h
          exact ⟨h.1, h.2.1, rfl⟩
        · exfalso
          cases e2 with
          | null => cases h6
          | obj x =>
            have hx : x.status = true := h6
            have hne : e' ≠ .null := by
              rintro rfl
              rcases deStr_safe [] s e with ⟨g, _⟩ | ⟨v4, p4, e4, g, _, g2⟩
              · have : strSer.de [] s e = deStr [] s e := rfl
                rw [this, g] at h1; cases h1
              · have : strSer.de [] s e = deStr [] s e := rfl
                rw [this, g] at h1
                cases h1
                rcases g2.clean he with g3 | g3
                · rw [← g3] at he; obtain ⟨y, hy, _⟩ := he; cases hy
                · cases g3
            simp only [hx, Bool.true_and, decide_eq_true_eq] at h
            rw [if_pos hne] at h
            simp only [Out.ok.injEq, Prod.mk.injEq] at h
            have h7 := h.2.2
            cases e' with
            | null => exact hne rfl
            | obj z =>
              obtain ⟨y, rfl, hy'⟩ := he
              simp only [EPtr.assign, EPtr.obj.injEq] at h7
              rw [← h7] at hy'
              rw [JError.status] at hx hy'
              simp only at hy'
              rw [hx] at hy'
              cases hy'
    obtain ⟨rfl, rfl, rfl⟩ := key
    refine ⟨w, r, ?_, h2⟩
    have h1' : deStr [] s e = .ok (w, p', e') := h1
    rw [h1']
    rcases deStr_safe [] s e with ⟨g, _⟩ | ⟨v4, p4, e4, g, _, g2⟩
    · rw [g] at h1'; cases h1'
    · rw [g] at h1'
      cases h1'
      rcases g2.clean he with g3 | g3
      · rw [g3]
      · exact absurd g3 hf

theorem deQuotedStr_inv (hS : Safe True S.de) {v0 v : α} {s p : Bytes} {e : EPtr} (he : e.Clean) (hs : s.length ≤ intMax)
    (h : deQuotedStr S v0 s e = .ok (v, p, e)) :
    ∃ w r, (s = b!"null" ++ p ∧ w = [] ∨ ∃ u, s = quoted u ++ p ∧ Decodes u w) ∧ S.de v0 w .fresh = .ok (v, r, .fresh) := by
  obtain ⟨w, r, h1, h2⟩ := deQuotedStr_split hS he h
  refine ⟨w, r, ?_, h2⟩
  rcases deStr_inv he hs h1 he.not_failed with ⟨h3, h4, _⟩ | ⟨u, h3, h4, _⟩
  · exact .inl ⟨h3, h4⟩
  · exact .inr ⟨u, by rw [h3]; simp [quoted], h4⟩

theorem deQuotedStr_run {v0 v : α} {w r : Bytes} {s p : Bytes} {e : EPtr} (he : e.failed = false)
    (h1 : strSer.de [] s e = .ok (w, p, e)) (h2 : S.de v0 w .fresh = .ok (v, r, .fresh)) :
    deQuotedStr S v0 s e = .ok (v, p, e) := by
  simp only [deQuotedStr, h1, Out.bind_ok, he, Bool.false_eq_true, if_false, h2]
  rfl

variable {D : Den α}

theorem quoted_head {q : Bool} {v0 v : α} {t : Bytes} (hd : ∀ {v0 v t}, D v0 v t → Headed t) (h : QuotedDen S.de q D v0 v t) :
    Headed t := by
  rcases h with ⟨w, r, ⟨u, rfl, _⟩ | ⟨_, rfl, _⟩, _⟩ | ⟨_, _, h⟩
  · exact headed_of_byte (by decide)
  · exact headed_of_byte (by decide)
  · exact hd h

theorem quoted_complete (hc : ∀ {v0 v t}, D v0 v t → t.length ≤ intMax → ReadsAt S.de v0 t v) (hd : ∀ {v0 v t}, D v0 v t → Headed t)
    {q : Bool} {v0 v : α} {t : Bytes} (h : QuotedDen S.de q D v0 v t) (ht : t.length ≤ intMax) : ReadsAt (deQuoted S q) v0 t v := by
  intro rest e he hr
  rcases h with ⟨w, r, hw, h⟩ | ⟨rfl, h1, h⟩
  · have hw' : StrDen [] w t := hw.elim (fun ⟨u, h1, h2⟩ => .inr ⟨u, h1, h2⟩) fun ⟨_, h1, h2⟩ => .inl ⟨h1, h2⟩
    have := deQuotedStr_run he (strSer_exact.complete hw' ht rest e he hr) h
    simp only [deQuoted]
    cases q with
    | true => rw [if_pos rfl]; exact this
    | false =>
      rcases hw with ⟨u, rfl, _⟩ | ⟨hq, _⟩
      · rw [if_neg (by decide), if_pos (by simp [isString, quoted])]; exact this
      · cases hq
  · obtain ⟨b, u, rfl, _⟩ := hd h
    simp only [deQuoted]
    rw [if_neg (by decide), if_neg (by simpa [isString] using h1)]
    exact hc h ht rest e he hr

theorem quoted_sound (hS : Safe True S.de) (hd : ∀ {v0 v t}, D v0 v t → Headed t) {q : Bool} {v0 v : α} {s p : Bytes} {e : EPtr}
    (he : e.Clean) (hs : s.length ≤ intMax) (hD : S.de v0 s e = .ok (v, p, e) → ∃ t, s = t ++ p ∧ D v0 v t)
    (h : deQuoted S q v0 s e = .ok (v, p, e)) : ∃ t, s = t ++ p ∧ QuotedDen S.de q D v0 v t := by
  simp only [deQuoted] at h
  have key : ∀ {q}, (q = true ∨ isString s = true) → deQuotedStr S v0 s e = .ok (v, p, e) →
      ∃ t, s = t ++ p ∧ QuotedDen S.de q D v0 v t := by
    intro q hq h
    obtain ⟨w, r, ⟨h1, h2⟩ | ⟨u, h1, h2⟩, h3⟩ := deQuotedStr_inv hS he hs h
    · refine ⟨_, h1, .inl ⟨w, r, .inr ⟨?_, rfl, h2⟩, h3⟩⟩
      rcases hq with hq | hq
      · exact hq
      · rw [h1] at hq; cases hq
    · exact ⟨_, h1, .inl ⟨w, r, .inl ⟨u, rfl, h2⟩, h3⟩⟩
  cases q with
  | true => rw [if_pos rfl] at h; exact key (.inl rfl) h
  | false =>
    rw [if_neg (by decide)] at h
    by_cases hq : isString s = true
    · rw [if_pos hq] at h; exact key (.inr hq) h
    · rw [if_neg hq] at h
      obtain ⟨t, rfl, h2⟩ := hD h
      refine ⟨t, rfl, .inr ⟨rfl, ?_, h2⟩⟩
      obtain ⟨b, u, rfl, _⟩ := hd h2
      simpa [isString] using hq

theorem quotedSer_accepts (h : Accepts S D) (serQ reqQ : Bool) : Accepts (quotedSer S serQ reqQ) (QuotedDen S.de reqQ D) where
  safe := deQuoted_safe h.safe reqQ
  sound he hs hd hp hr := quoted_sound h.safe h.head he hs (h.sound he hs hd hp) hr
  complete hD ht := quoted_complete h.complete h.head hD ht
  head hD := quoted_head h.head hD

theorem quotedSer_inner (h : Inner S D) (serQ reqQ : Bool) : Inner (quotedSer S serQ reqQ) (QuotedDen S.de reqQ D) where
  toAccepts := quotedSer_accepts h.toAccepts serQ reqQ
  null := by
    intro v0 v r p e he hl hd hr
    simp only [quotedSer, deQuoted] at hr
    cases reqQ with
    | true =>
      rw [if_pos rfl] at hr
      obtain ⟨w, q, ⟨h1, h2⟩ | ⟨u, h1, h2⟩, h3⟩ := deQuotedStr_inv h.safe he hl hr
      · exact ⟨(List.append_cancel_left h1).symm, .inl ⟨w, q, .inr ⟨rfl, rfl, h2⟩, h3⟩⟩
      · simp [quoted] at h1
    | false =>
      rw [if_neg (by decide), if_neg (by simp [isString])] at hr
      obtain ⟨h1, h2⟩ := h.null he hl hd hr
      exact ⟨h1, .inr ⟨rfl, by decide, h2⟩⟩

theorem quotedSer_exact (h : Exact S D) (serQ reqQ : Bool) : Exact (quotedSer S serQ reqQ) (QuotedDen S.de reqQ D) where
  safe := deQuoted_safe h.safe reqQ
  sound he hs hd hr := quoted_sound h.safe h.head he hs (h.sound he hs hd) hr
  complete hD ht := quoted_complete h.complete h.head hD ht
  head hD := quoted_head h.head hD
  null := by
    intro v0 v s p e he hn hr
    have hq : isString s = false := by
      cases s with
      | nil => rfl
      | cons b t =>
        simp only [List.head?_cons, Option.some.injEq] at hn
        subst hn; rfl
    simp only [quotedSer, deQuoted] at hr
    cases reqQ with
    | true =>
      rw [if_pos rfl] at hr
      obtain ⟨w, r, h1, _⟩ := deQuotedStr_split h.safe he hr
      exact strSer_exact.null (v0 := []) (v := w) he hn h1
    | false =>
      rw [if_neg (by decide), if_neg (by simp [hq])] at hr
      exact h.null he hn hr

/-! ### Pointers -/

theorem pointerSer_inner (h : Inner S D) : Inner (pointerSer S) (PtrDen S.dflt D) where
  safe := dePointer_safe h.safe
  sound := by
    intro v0 v s p e he hs hd hp hr
    simp only [pointerSer] at hr
    cases s with
    | nil =>
      simp only [dePointer, Out.ok.injEq, Prod.mk.injEq] at hr
      exact absurd hr.2.1.symm hp
    | cons b t =>
      simp only [dePointer] at hr
      by_cases hb : b = c%'n'
      · rw [if_neg (by simp [hb])] at hr
        simp only [Out.ok.injEq, Prod.mk.injEq] at hr
        match t, hr with
        | [], hr => exact absurd hr.2.1.symm hp
        | [_], hr => exact absurd hr.2.1.symm hp
        | [_, _], hr => exact absurd hr.2.1.symm hp
        | x :: y :: z :: r, hr =>
          have : r = p := hr.2.1
          subst this
          exact ⟨[c%'n', x, y, z], by rw [hb]; rfl, .inl ⟨x, y, z, rfl, hr.1.symm⟩⟩
      · rw [if_pos hb] at hr
        obtain ⟨⟨x, p', e'⟩, h1, hr⟩ := Out.bind_eq_ok.mp hr
        simp only [Out.ok.injEq, Prod.mk.injEq] at hr
        obtain ⟨rfl, rfl, rfl⟩ := hr
        obtain ⟨t', h2, h3⟩ := h.sound he hs hd hp h1
        refine ⟨t', h2, .inr ⟨x, rfl, ?_, h3⟩⟩
        obtain ⟨b', u, rfl, _⟩ := h.head h3
        simp only [List.cons_append, List.cons.injEq] at h2
        simpa [← h2.1] using hb
  complete := by
    rintro v0 v t (⟨x, y, z, rfl, rfl⟩ | ⟨x, rfl, h1, h2⟩) ht rest e he hr
    · simp [pointerSer, dePointer]
    · obtain ⟨b, u, rfl, _⟩ := h.head h2
      have hb : b ≠ c%'n' := by simpa using h1
      have := h.complete h2 ht rest e he hr
      rw [List.cons_append] at this
      simp [pointerSer, dePointer, hb, this]
  head := by
    rintro v0 v t (⟨x, y, z, rfl, rfl⟩ | ⟨x, rfl, h1, h2⟩)
    · exact headed_of_byte (.inl rfl)
    · exact h.head h2
  null := by
    intro v0 v r p e he hl hd hr
    simp [pointerSer, dePointer] at hr
    exact ⟨hr.2.symm, .inl ⟨_, _, _, rfl, hr.1.symm⟩⟩

end

end Wjson
