import Verif.Proofs.StrWrite
/-
Inversion of the string reader, truncation, bool.
-/
namespace Wjson
open Spec

theorem utf8Copy_short {i : Nat} {s : Bytes} {n : Nat} (hn : i ≤ n) (h : s.length < i) (e : EPtr) :
    (utf8Copy i s n e).2.2.2 = createError .UnexpectedEndFragment e := by
  induction i generalizing s n with
  | zero => simp at h
  | succ i ih =>
    cases n with
    | zero => omega
    | succ n =>
      cases s with
      | nil => rfl
      | cons b t =>
        have := ih (n := n) (s := t) (by omega) (by simpa using h)
        simpa only [utf8Copy] using this

theorem EPtr.Clean.create {e : EPtr} (he : e.Clean) {c : Code} (hc : c ≠ .ValidJSON) (m : Option Bytes) (t : Int) :
    (createError c e m t).failed = true := by
  rw [applyErr_createError]; exact he.applyErr_failed hc

theorem utf8Copy_inv {b : Byte} {t : Bytes} {n k : Nat} (hn : k + 1 ≤ n) (hl : LeadLen b k) (h1 : 1 ≤ k) (h3 : k ≤ 3)
    {e : EPtr} (he : e.Clean) :
    (utf8Copy (k + 1) (b :: t) n e).2.2.2.failed = true ∨
      ∃ u, b :: t = u ++ (utf8Copy (k + 1) (b :: t) n e).2.1 ∧ DUnit u (utf8Copy (k + 1) (b :: t) n e).1 ∧
        (utf8Copy (k + 1) (b :: t) n e).2.2.2 = e := by
  by_cases ht : t.length < k
  · left
    rw [utf8Copy_short hn (by simpa using ht)]
    exact he.create (by decide) _ _
  · right
    have hsp : b :: t = (b :: t.take k) ++ t.drop k := by simp
    have := utf8Copy_ok_run (u := b :: t.take k) (i := k + 1) (by simp; omega) (t.drop k) hn e
    rw [← hsp] at this
    rw [this]
    exact ⟨_, hsp, .multi hl h1 h3 (by simp; omega), rfl⟩

theorem strStep_inv {b : Byte} {t : Bytes} {n : Nat} {e : EPtr} (he : e.Clean) (hb : b ≠ c%'"')
    (hn : (b :: t).length < n) :
    (strStep b t n e).2.2.2.failed = true ∨
      ∃ u, b :: t = u ++ (strStep b t n e).2.1 ∧ DUnit u (strStep b t n e).1 ∧ (strStep b t n e).2.2.2 = e := by
  simp only [List.length_cons] at hn
  unfold strStep
  by_cases h0 : b = c%'\\'
  · rw [if_pos h0]
    subst h0
    cases t with
    | nil => exact .inl (he.create (by decide) _ _)
    | cons x t' =>
      simp only
      cases hx : simpleEsc x with
      | some y => exact .inr ⟨[c%'\\', x], rfl, .short (simpleEsc_iff.mp hx), rfl⟩
      | none =>
        simp only
        by_cases hu : x = c%'u'
        · rw [if_pos hu]
          subst hu
          simp only [List.length_cons] at hn
          cases hh : hexN 4 0 t' e with
          | mk o e1 =>
            cases o with
            | none =>
              left
              have hes : (uhexStep t' n e) = ([], [], n, e1) := by
                unfold uhexStep; rw [if_neg (by omega), hh]
              rw [hes]
              have key : ∀ (k acc : Nat) (s : Bytes) (e e1 : EPtr), e.Clean ∨ e.failed = true →
                  hexN k acc s e = (none, e1) → e1.failed = true := by
                intro k
                induction k with
                | zero => intro acc s e e1 _ h; simp [hexN] at h
                | succ k ih =>
                  intro acc s e e1 hc h
                  cases s with
                  | nil =>
                    simp [hexN] at h
                    rw [← h]
                    rcases hc with hc | hc
                    · exact hc.create (by decide) _ _
                    · rw [createError_of_failed hc]; exact hc
                  | cons b t =>
                    refine ih _ t _ e1 ?_ h
                    rcases hc with hc | hc
                    · rcases (hexVal_estep b e 0).clean hc with h | h
                      · rw [h]; exact .inl hc
                      · exact .inr h
                    · exact .inr ((hexVal_estep b e 0).failed_mono hc)
              exact key 4 0 t' e e1 (.inl he) hh
            | some q =>
              obtain ⟨h, p⟩ := q
              rcases hexN_inv he hh with hf | ⟨ds, h1, h2, h3, h4, h5⟩
              · left
                have hes := uhexStep_ok t' (n := n) (by omega) e1
                have : (uhexStep t' n e).2.2.2.failed = true := by
                  unfold uhexStep
                  rw [if_neg (by omega), hh]
                  simp only
                  repeat' split
                  all_goals first
                    | exact hf
                    | (rw [createError_of_failed hf]; exact hf)
                exact this
              · right
                match ds, h1 with
                | [a, b, c, d], _ =>
                  have ha := h3 a (by simp)
                  have hb := h3 b (by simp)
                  have hc := h3 c (by simp)
                  have hd := h3 d (by simp)
                  subst h2
                  simp only [List.cons_append, List.nil_append, List.length_cons] at hn
                  by_cases hr : 0x20 ≤ hex4 a b c d ∨ ShortCtl (hex4 a b c d)
                  · have hle : (utf8Enc (hex4 a b c d)).length ≤ 3 := by
                      unfold utf8Enc
                      repeat' split
                      all_goals simp
                    have := uhexStep_uni ha hb hc hd hr (n := n) (by omega) p e
                    simp only [List.cons_append, List.nil_append, this]
                    exact ⟨[c%'\\', c%'u', a, b, c, d], rfl, .uni ha hb hc hd hr, trivial⟩
                  · have := uhexStep_ctl ha hb hc hd (by omega) (fun x => hr (.inr x)) (n := n) (by omega) p e
                    simp only [List.cons_append, List.nil_append, this]
                    refine ⟨[c%'\\', c%'u', a, b, c, d], rfl, ?_, trivial⟩
                    rw [List.take_of_length_le (by simp only [List.length_cons, List.length_nil]; omega)]
                    exact .ctl ha hb hc hd (by omega) (fun x => hr (.inr x))
        · rw [if_neg hu]
          by_cases hxx : x = c%'x'
          · rw [if_pos hxx]
            subst hxx
            unfold xhexStep
            cases hh : hexN 2 0 t' e with
            | mk o e1 =>
              cases o with
              | none =>
                left
                simp only
                match t', hh with
                | [], hh =>
                  simp [hexN] at hh
                  rw [← hh]; exact he.create (by decide) _ _
                | [y], hh =>
                  simp [hexN] at hh
                  rw [← hh]
                  rcases (hexVal_estep y e 0).clean he with h | h
                  · rw [h]; exact he.create (by decide) _ _
                  · rw [createError_of_failed h]; exact h
                | _ :: _ :: _, hh => simp [hexN] at hh
              | some q =>
                obtain ⟨h, p⟩ := q
                rcases hexN_inv he hh with hf | ⟨ds, h1, h2, h3, h4, h5⟩
                · exact .inl hf
                · right
                  match ds, h1 with
                  | [a, b], _ =>
                    subst h2
                    refine ⟨[c%'\\', c%'x', a, b], rfl, ?_, h4⟩
                    simp only [List.foldl_cons, List.foldl_nil, Nat.zero_mul, Nat.zero_add] at h5
                    subst h5
                    exact .hex (h3 a (by simp)) (h3 b (by simp))
          · rw [if_neg hxx]
            exact .inl (he.create (by decide) _ _)
  · rw [if_neg h0]
    cases hl : utf8Lead b with
    | none =>
      left
      have : ∀ b : Byte, utf8Lead b = none → b &&& 128 ≠ 0 ∧ b &&& 224 ≠ 192 ∧ b &&& 240 ≠ 224 ∧ b &&& 248 ≠ 240 := by
        apply forall_byte; decide +kernel
      have k := this b hl
      unfold utf8Step
      rw [if_neg k.1, if_neg k.2.1, if_neg k.2.2.1, if_neg k.2.2.2]
      exact he.create (by decide) _ _
    | some k =>
      have hL := utf8Lead_iff.mp hl
      by_cases hk0 : k = 0
      · right
        subst hk0
        have h1 : b &&& 128 = 0 := by
          have : ∀ b : Byte, utf8Lead b = some 0 → b &&& 128 = 0 := by apply forall_byte; decide +kernel
          exact this b hl
        have h2 : b < 0x80 := by
          clear h0 hb hl hL hn; revert h1; revert b; apply forall_byte; decide +kernel
        unfold utf8Step
        rw [if_pos h1]
        exact ⟨[b], rfl, .ascii h2 hb h0, rfl⟩
      · by_cases hk3 : k ≤ 3
        · rw [leadLen_copy hL (by omega) hk3]
          by_cases ht : t.length < k
          · left
            have hbt : (b :: t).length < k + 1 := by simp only [List.length_cons]; omega
            have : ∀ (i : Nat) (s : Bytes) (n : Nat), s.length < i → s.length < n →
                (utf8Copy i s n e).2.2.2 = createError .UnexpectedEndFragment e := by
              intro i
              induction i with
              | zero => intro s n h; simp at h
              | succ i ih =>
                intro s n h1 h2
                cases n with
                | zero => simp at h2
                | succ n =>
                  cases s with
                  | nil => rfl
                  | cons b t => exact ih t n (by simpa using h1) (by simpa using h2)
            rw [this _ _ _ hbt (by simpa using hn)]
            exact he.create (by decide) _ _
          · exact utf8Copy_inv (by omega) hL (by omega) hk3 he
        · left
          have : ∀ b : Byte, ∀ k : Fin 6, utf8Lead b = some k.1 → ¬ k.1 ≤ 3 →
              b &&& 128 ≠ 0 ∧ b &&& 224 ≠ 192 ∧ b &&& 240 ≠ 224 ∧ b &&& 248 ≠ 240 := by
            apply forall_byte; decide +kernel
          have hk6 : k < 6 := by rcases hL with h | h | h | h | h | h <;> omega
          have kk := this b ⟨k, hk6⟩ hl hk3
          unfold utf8Step
          rw [if_neg kk.1, if_neg kk.2.1, if_neg kk.2.2.1, if_neg kk.2.2.2]
          exact he.create (by decide) _ _

/-- Reading without an error means the token decodes. -/
theorem strDec_inv {s : Bytes} {n : Nat} {e : EPtr} (he : e.Clean) (hn : s.length < n) :
    (strDec s n e).2.2.failed = true ∨
      ∃ u, s = u ++ c%'"' :: (strDec s n e).2.1 ∧ Decodes u (strDec s n e).1 ∧ (strDec s n e).2.2 = e := by
  induction hl : s.length using Nat.strongRecOn generalizing s n with
  | ind m ih =>
    subst hl
    rw [strDec.eq_def]
    cases s with
    | nil => exact .inl (he.create (by decide) _ _)
    | cons b t =>
      simp only
      by_cases hb : b = c%'"'
      · rw [if_pos hb]; exact .inr ⟨[], by rw [hb]; rfl, .nil, rfl⟩
      · have hn0 : n ≠ 0 := by omega
        rw [if_neg hb, dif_neg hn0]
        have hok := strStep_ok b t hn0 e
        have hlt := strStep_length b t e hn0
        rcases strStep_inv he hb hn with hf | ⟨u, h1, h2, h3⟩
        · left
          have := strDec_ok (strStep b t n e).2.1 (strStep b t n e).2.2.1 (strStep b t n e).2.2.2
          exact this.2.2.1.failed_mono hf
        · have hc := hok.cap
          have hs := hok.shrink
          rw [h3]
          rcases ih _ hlt (s := (strStep b t n e).2.1) (n := (strStep b t n e).2.2.1)
            (by simp only [List.length_cons] at *; omega) rfl with hf | ⟨us, g1, g2, g3⟩
          · exact .inl hf
          · refine .inr ⟨u ++ us, ?_, .cons h2 g2, g3⟩
            rw [List.append_assoc, ← g1]
            exact h1

/-- Exact description of reading a `std::string`. -/
theorem deStr_inv {v0 s v p : Bytes} {e e' : EPtr} (he : e.Clean) (hs : s.length ≤ intMax)
    (h : deStr v0 s e = .ok (v, p, e')) (hf : e'.failed = false) :
    (s = b!"null" ++ p ∧ v = [] ∧ e' = e) ∨ ∃ u, s = c%'"' :: u ++ c%'"' :: p ∧ Decodes u v ∧ e' = e := by
  unfold deStr at h
  by_cases hn : isNull s = true
  · rw [if_pos hn] at h
    simp only [Out.ok.injEq, Prod.mk.injEq] at h
    obtain ⟨rfl, rfl, rfl⟩ := h
    have ha : Acc (parseNull s) (parseNull s e).1 :=
      Acc.of_clean (parseNull_scan s) he (p := (parseNull s e).1) rfl hf
    exact .inl ⟨parseNull_acc_iff.mp ha, rfl, by rw [ha e]⟩
  · rw [if_neg hn] at h
    right
    unfold unserializeStr at h
    cases s with
    | nil =>
      simp at h
      rw [← h.2.2, he.create (by decide)] at hf
      cases hf
    | cons b t =>
      simp only at h
      by_cases hb : b = c%'"'
      · subst hb
        simp only [ne_eq, not_true, if_false, Sink.puts_back, Out.bind_ok, Out.ok.injEq, Prod.mk.injEq,
          List.nil_append] at h
        obtain ⟨h1, h2⟩ := h
        simp only [List.length_cons] at hs
        have h3 := congrArg Prod.fst h2
        have h4 := congrArg Prod.snd h2
        simp only at h3 h4
        subst h1 h3 h4
        rcases strDec_inv (s := t) (n := intMax) he (by omega) with hx | ⟨u, g1, g2, g3⟩
        · rw [hx] at hf; cases hf
        · exact ⟨u, by rw [List.cons_append, ← g1], g2, g3⟩
      · rw [if_pos hb] at h
        simp at h
        rw [← h.2.2, he.create (by decide)] at hf
        cases hf

/-! ### Capacity -/

theorem deCharArray_eq (N : Nat) (v0 s : Bytes) (e : EPtr) :
    ∃ w p e', deCharArray N v0 s e = .ok (w ++ List.replicate (N - w.length) 0, p, e') ∧ w.length ≤ N ∧
      p <:+ s ∧ EStep s.length e e' ∧
      (∀ t, s = c%'"' :: t → w = (strDec t N e).1 ∧ p = (strDec t N e).2.1 ∧ e' = (strDec t N e).2.2) := by
  unfold deCharArray
  simp only
  split
  · next hn =>
    refine ⟨[], _, _, by simp, by simp, (parseNull_scan s).suffix e, .of_scan (parseNull_scan s) e, ?_⟩
    rintro t rfl
    simp [isNull] at hn
  · unfold unserializeStr
    cases s with
    | nil => exact ⟨[], [], createError .UnexpectedEndFragment e, by simp, by simp, List.nil_suffix,
        .create (by decide) e none (by omega) (by omega), by simp⟩
    | cons b t =>
      simp only
      by_cases hb : b = c%'"'
      · subst hb
        simp only [ne_eq, not_true, if_false]
        have h := strDec_ok t N e
        have hsp : List.replicate N (0 : UInt8) =
            [] ++ List.replicate (strDec t N e).1.length 0 ++ List.replicate (N - (strDec t N e).1.length) 0 := by
          rw [List.nil_append, List.replicate_append_replicate]
          congr 1
          omega
        have hp := Sink.puts_ptr [] (List.replicate (strDec t N e).1.length 0)
          (List.replicate (N - (strDec t N e).1.length) 0) (strDec t N e).1 (by simp)
        rw [← hsp] at hp
        simp only [List.length_nil, List.nil_append] at hp
        rw [hp]
        refine ⟨_, _, _, rfl, h.2.1, h.1.trans (suffix_cons _ t), h.2.2.1.mono (by simp), ?_⟩
        intro t' ht
        cases ht
        exact ⟨rfl, rfl, rfl⟩
      · rw [if_pos hb]
        refine ⟨[], [], createError .ExpectedOf e (some b!"\"") ((b :: t).length : Nat), by simp, by simp,
          List.nil_suffix, .create (by decide) e _ (by omega) (by omega), ?_⟩
        intro t' ht
        simp at ht
        exact absurd ht.1 hb

theorem deCharArray_safe (N : Nat) : Safe False (deCharArray N) := by
  intro v s e
  obtain ⟨w, p, e', h, _, h1, h2, _⟩ := deCharArray_eq N v s e
  rw [h]
  exact .ok h1 h2

theorem strDec_full {b : Byte} (hb : b ≠ c%'"') (t : Bytes) {e : EPtr} (he : e.Clean) :
    (strDec (b :: t) 0 e).2.2.failed = true := by
  rw [strDec.eq_def]
  simp only
  rw [if_neg hb, dif_pos trivial]
  exact he.create (by decide) _ _

theorem utf8Copy_trunc {u : Bytes} {i n : Nat} (hu : u.length = i) (hn : n < i) (rest : Bytes) (e : EPtr) :
    utf8Copy i (u ++ rest) n e = (u.take n, u.drop n ++ rest, 0, e) := by
  induction i generalizing u n with
  | zero => omega
  | succ i ih =>
    cases u with
    | nil => simp at hu
    | cons b u =>
      cases n with
      | zero => simp [utf8Copy]
      | succ n =>
        have := ih (u := u) (by simpa using hu) (n := n) (by omega)
        simp only [List.cons_append, utf8Copy, this]
        simp

theorem uhexStep_trunc {a b c d : Byte} (ha : HexDigit a) (hb : HexDigit b) (hc : HexDigit c) (hd : HexDigit d)
    {n : Nat} (hn0 : n ≠ 0) (hn : n < (utf8Enc (hex4 a b c d)).length)
    (rest : Bytes) {e : EPtr} (he : e.Clean) :
    (uhexStep (a :: b :: c :: d :: rest) n e).2.2.2.failed = true := by
  have h4 := hexN_ok (ds := [a, b, c, d]) (by simp [ha, hb, hc, hd]) 0 rest e
  rw [hex4_fold] at h4
  generalize hex4 a b c d = h at *
  unfold uhexStep
  rw [if_neg hn0]
  simp only [List.length_cons, List.length_nil, List.cons_append, List.nil_append, Nat.reduceAdd] at h4
  simp only [h4]
  unfold utf8Enc at hn
  by_cases h2 : h < 0x80
  · rw [if_pos h2] at hn
    simp only [List.length_cons, List.length_nil] at hn
    omega
  · rw [if_neg h2] at hn
    rw [if_neg (by omega : ¬ h < 32), if_neg (by omega : ¬ h ≤ 0x7F)]
    by_cases h3 : h < 0x800
    · rw [if_pos h3] at hn
      simp only [List.length_cons, List.length_nil] at hn
      rw [if_pos (by omega : h ≤ 0x7FF), if_pos (by omega : n = 1)]
      exact he.create (by decide) _ _
    · rw [if_neg h3] at hn
      simp only [List.length_cons, List.length_nil] at hn
      rw [if_neg (by omega : ¬ h ≤ 0x7FF)]
      by_cases h1 : n = 1
      · rw [if_pos h1]; exact he.create (by decide) _ _
      · rw [if_neg h1, if_pos (by omega : n = 2)]; exact he.create (by decide) _ _

/-- Units whose truncation is noticed. -/
theorem strDec_trunc {u w : Bytes} (h : DUnit u w) (hr : RChar u) (hw : w.length ≤ 4) {n : Nat} (hn : n < w.length)
    (rest : Bytes) {e : EPtr} (he : e.Clean) : (strDec (u ++ rest) n e).2.2.failed = true := by
  obtain ⟨_, b, t, hu, hb⟩ := dunit_ne h
  by_cases hn0 : n = 0
  · subst hn0
    rw [hu]
    exact strDec_full hb _ he
  · have step : strDec (u ++ rest) n e = ((strStep b (t ++ rest) n e).1 ++ (strDec (strStep b (t ++ rest) n e).2.1
        (strStep b (t ++ rest) n e).2.2.1 (strStep b (t ++ rest) n e).2.2.2).1,
        (strDec (strStep b (t ++ rest) n e).2.1
        (strStep b (t ++ rest) n e).2.2.1 (strStep b (t ++ rest) n e).2.2.2).2) := by
      rw [strDec.eq_def]
      simp only [hu, List.cons_append]
      rw [if_neg hb, dif_neg hn0]
    rw [step]
    clear step
    have sticky : (strStep b (t ++ rest) n e).2.2.2.failed = true →
        (strDec (strStep b (t ++ rest) n e).2.1
        (strStep b (t ++ rest) n e).2.2.1 (strStep b (t ++ rest) n e).2.2.2).2.2.failed = true := fun hf =>
      (strDec_ok _ _ _).2.2.1.failed_mono hf
    cases h with
    | ascii => simp at hn; omega
    | @multi x k ts h1 h2 h3 h4 =>
      simp at hu
      obtain ⟨rfl, rfl⟩ := hu
      have hx : x ≠ c%'\\' := by
        rintro rfl
        unfold LeadLen at h1
        rcases h1 with h | h | h | h | h | h
        · omega
        all_goals exact absurd h.1 (by decide)
      have hcont : ∀ y ∈ ts, Cont y := by
        generalize hg : x :: ts = g at hr
        cases hr with
        | ascii => cases hg; simp
        | multi hm =>
          obtain ⟨b', n', ts', he', _, _, h3'⟩ := utf8Multi_shape hm
          rw [← hg] at he'
          cases he'
          exact h3'
        | short => cases hg; exact absurd rfl hx
        | uni => cases hg; exact absurd rfl hx
      simp only [List.length_cons] at hn
      have hstep : strStep x (ts ++ rest) n e = ((x :: ts).take n, (x :: ts).drop n ++ rest, 0, e) := by
        unfold strStep
        rw [if_neg hx, leadLen_copy h1 h2 h3]
        exact utf8Copy_trunc (u := x :: ts) (by simp [h4]) (by omega) rest e
      rw [hstep]
      cases n with
      | zero => exact absurd rfl hn0
      | succ n =>
        simp only [List.drop_succ_cons]
        cases hdr : ts.drop n with
        | nil =>
          have := congrArg List.length hdr
          simp at this
          omega
        | cons y ys =>
          have hy : y ∈ ts := List.mem_of_mem_drop (hdr ▸ List.mem_cons_self)
          refine strDec_full ?_ _ he
          rintro rfl
          exact absurd (hcont _ hy) (by decide)
    | short => simp at hn; omega
    | @uni a b' c d h1 h2 h3 h4 h5 =>
      simp at hu
      obtain ⟨rfl, rfl⟩ := hu
      apply sticky
      unfold strStep
      rw [if_pos rfl]
      have : simpleEsc c%'u' = none := by decide
      simp only [List.cons_append, List.nil_append, this, if_true]
      exact uhexStep_trunc h1 h2 h3 h4 hn0 hn rest he
    | ctl => simp at hw
    | hex => simp at hn; omega

/-- A string longer than the capacity is an error. -/
theorem strDec_long {l : List (Bytes × Bytes)}
    (hl : ∀ x ∈ l, DUnit x.1 x.2 ∧ RChar x.1 ∧ x.2.length ≤ 4) {n : Nat}
    (hn : n < (l.flatMap (·.2)).length) (rest : Bytes) {e : EPtr} (he : e.Clean) :
    (strDec (l.flatMap (·.1) ++ rest) n e).2.2.failed = true := by
  induction l generalizing n with
  | nil => simp at hn
  | cons x l ih =>
    obtain ⟨h1, h2, h3⟩ := hl x (by simp)
    simp only [List.flatMap_cons, List.length_append] at hn ⊢
    rw [List.append_assoc]
    by_cases hx : n < x.2.length
    · exact strDec_trunc h1 h2 h3 hx _ he
    · rw [strDec_unit h1 (by omega)]
      exact ih (fun y hy => hl y (by simp [hy])) (by omega)

/-- A bad hexadecimal digit is an error. -/
theorem strStep_badhex {x : Byte} {k : Nat} (hx : (x = c%'u' ∧ k = 4) ∨ (x = c%'x' ∧ k = 2)) {ds : Bytes} {b : Byte}
    {t : Bytes} {n : Nat} (hn : n ≠ 0) (hd : ∀ b ∈ ds, HexDigit b) (hl : ds.length < k) (hb : ¬ HexDigit b) {e : EPtr}
    (he : e.Clean) : (strStep c%'\\' (x :: (ds ++ b :: t)) n e).2.2.2.failed = true := by
  unfold strStep
  rw [if_pos rfl]
  rcases hx with ⟨rfl, rfl⟩ | ⟨rfl, rfl⟩
  · have : simpleEsc c%'u' = none := by decide
    simp only [this, if_true]
    have hf := hexN_bad (acc := 0) (t := t) he hl hb hd
    unfold uhexStep
    rw [if_neg hn]
    cases hh : hexN 4 0 (ds ++ b :: t) e with
    | mk o e1 =>
      rw [hh] at hf
      simp only at hf
      cases o with
      | none => exact hf
      | some q =>
        obtain ⟨h, p⟩ := q
        simp only
        repeat' split
        all_goals first
          | exact hf
          | (rw [createError_of_failed hf]; exact hf)
  · have : simpleEsc c%'x' = none := by decide
    simp only [this, if_neg (by decide : ¬ (c%'x' = c%'u')), if_true]
    have hf := hexN_bad (acc := 0) (t := t) he hl hb hd
    unfold xhexStep
    cases hh : hexN 2 0 (ds ++ b :: t) e with
    | mk o e1 =>
      rw [hh] at hf
      cases o with
      | none => exact hf
      | some q => exact hf

theorem strDec_badhex {x : Byte} {k : Nat} (hx : (x = c%'u' ∧ k = 4) ∨ (x = c%'x' ∧ k = 2)) {u v ds : Bytes} {b : Byte}
    {t : Bytes} {n : Nat} (hu : Decodes u v) (hn : v.length < n) (hd : ∀ b ∈ ds, HexDigit b) (hl : ds.length < k)
    (hb : ¬ HexDigit b) {e : EPtr} (he : e.Clean) :
    (strDec (u ++ c%'\\' :: x :: (ds ++ b :: t)) n e).2.2.failed = true := by
  induction hu generalizing n with
  | nil =>
    have hn0 : n ≠ 0 := by simp at hn; omega
    rw [List.nil_append, strDec.eq_def]
    simp only
    rw [if_neg (by decide), dif_neg hn0]
    exact (strDec_ok _ _ _).2.2.1.failed_mono (strStep_badhex hx hn0 hd hl hb he)
  | @cons u v us vs h1 h2 ih =>
    simp only [List.length_append] at hn
    rw [List.append_assoc, strDec_unit h1 (by omega)]
    exact ih (by omega)

/-! ### bool -/

theorem deBool_safe : Safe False deBool := by
  intro v s e
  unfold deBool
  cases s with
  | nil => exact .err (by decide) (by omega) (by omega)
  | cons b t =>
    simp only
    split
    · exact .scan (parseNull_scan (b :: t)) _
    · split
      · exact .scan (parseBool_scan (b :: t)) _
      · split
        · exact .scan (parseBool_scan (b :: t)) _
        · exact .err (by decide) (by omega) (by omega)

theorem parseNull_ok (rest : Bytes) (e : EPtr) : parseNull (b!"null" ++ rest) e = (rest, e) :=
  parseNull_acc_iff.mpr rfl e

theorem parseBool_true (rest : Bytes) (e : EPtr) : parseBool (b!"true" ++ rest) e = (rest, e) :=
  parseBool_acc_iff.mpr (.inl rfl) e

theorem parseBool_false (rest : Bytes) (e : EPtr) : parseBool (b!"false" ++ rest) e = (rest, e) :=
  parseBool_acc_iff.mpr (.inr rfl) e

theorem deBool_true (v : Bool) (rest : Bytes) (e : EPtr) : deBool v (b!"true" ++ rest) e = .ok (true, rest, e) := by
  have := parseBool_true rest e
  simp only [List.cons_append, List.nil_append] at this
  simp [deBool, isNull, this]

theorem deBool_false (v : Bool) (rest : Bytes) (e : EPtr) : deBool v (b!"false" ++ rest) e = .ok (false, rest, e) := by
  have := parseBool_false rest e
  simp only [List.cons_append, List.nil_append] at this
  simp [deBool, isNull, this]

theorem deBool_null (v : Bool) (rest : Bytes) (e : EPtr) : deBool v (b!"null" ++ rest) e = .ok (false, rest, e) := by
  have := parseNull_ok rest e
  simp only [List.cons_append, List.nil_append] at this
  simp [deBool, isNull, this]

theorem deBool_inv {v0 v : Bool} {s p : Bytes} {e e' : EPtr} (he : e.Clean)
    (h : deBool v0 s e = .ok (v, p, e')) (hf : e'.failed = false) :
    e' = e ∧ ((s = b!"true" ++ p ∧ v = true) ∨ (s = b!"false" ++ p ∧ v = false) ∨ (s = b!"null" ++ p ∧ v = false)) := by
  unfold deBool at h
  cases s with
  | nil =>
    simp at h
    rw [← h.2.2, he.create (by decide)] at hf
    cases hf
  | cons b t =>
    simp only at h
    by_cases hn : isNull (b :: t) = true
    · rw [if_pos hn] at h
      simp only [Out.ok.injEq, Prod.mk.injEq] at h
      obtain ⟨rfl, rfl, rfl⟩ := h
      have ha : Acc (parseNull (b :: t)) (parseNull (b :: t) e).1 :=
          Acc.of_clean (parseNull_scan (b :: t)) he rfl hf
      exact ⟨by rw [ha e], .inr (.inr ⟨parseNull_acc_iff.mp ha, rfl⟩)⟩
    · rw [if_neg hn] at h
      by_cases hb : b = c%'t'
      · subst hb
        simp only [beq_self_eq_true, if_true, Out.ok.injEq, Prod.mk.injEq] at h
        obtain ⟨rfl, rfl, rfl⟩ := h
        have ha : Acc (parseBool (c%'t' :: t)) (parseBool (c%'t' :: t) e).1 :=
          Acc.of_clean (parseBool_scan (c%'t' :: t)) he rfl hf
        refine ⟨by rw [ha e], .inl ⟨?_, rfl⟩⟩
        rcases parseBool_acc_iff.mp ha with h | h
        · exact h
        · simp at h
      · have hbt : (b == c%'t') = false := by simp [hb]
        simp only [hbt, Bool.false_eq_true, if_false] at h
        by_cases hb2 : b = c%'f'
        · subst hb2
          simp only [if_true, Out.ok.injEq, Prod.mk.injEq] at h
          obtain ⟨rfl, rfl, rfl⟩ := h
          have ha : Acc (parseBool (c%'f' :: t)) (parseBool (c%'f' :: t) e).1 :=
          Acc.of_clean (parseBool_scan (c%'f' :: t)) he rfl hf
          refine ⟨by rw [ha e], .inr (.inl ⟨?_, rfl⟩)⟩
          rcases parseBool_acc_iff.mp ha with h | h
          · simp at h
          · exact h
        · rw [if_neg hb2] at h
          simp at h
          rw [← h.2.2, he.create (by decide)] at hf
          cases hf

end Wjson
