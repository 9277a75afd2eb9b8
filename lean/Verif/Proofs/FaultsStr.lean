import Verif.Proofs.Faults
/-
Helper lemmas for C75: strings and enumerators.
-/
namespace Wjson
open Spec

theorem strDec_next {b : Byte} {t : Bytes} {n : Nat} (hb : b ≠ c%'"') (hn : 1 ≤ n) (e : EPtr) :
    (strDec (b :: t) n e).2 = (strDec (strStep b t n e).2.1 (strStep b t n e).2.2.1 (strStep b t n e).2.2.2).2 := by
  rw [strDec.eq_def]
  simp only
  rw [if_neg hb, dif_neg (by omega)]

theorem strDec_nil_failed {n : Nat} {e : EPtr} (he : e.failed = true) : (strDec [] n e).2 = ([], e) := by
  rw [strDec.eq_def]
  simp only [createError_failed he]

theorem obj_failed {x : JError} (h : x.code ≠ .ValidJSON) : (EPtr.obj x).failed = true := by
  simp [EPtr.failed, JError.status, h]

theorem strDec_keeps (s : Bytes) (n : Nat) {e : EPtr} (he : e.failed = true) : (strDec s n e).2.2 = e :=
  (strDec_ok s n e).2.2.1.of_failed he

/-- A step that fails and leaves nothing to read. -/
theorem strDec_fail {b : Byte} {t : Bytes} {n m : Nat} {w : Bytes} {e : EPtr} {x : JError} (hb : b ≠ c%'"') (hn : 1 ≤ n)
    (hx : x.code ≠ .ValidJSON) (h : strStep b t n e = (w, [], m, .obj x)) : (strDec (b :: t) n e).2 = ([], .obj x) := by
  rw [strDec_next hb hn, h]
  exact strDec_nil_failed (obj_failed hx)

theorem hexN_cut {k acc : Nat} {ds : Bytes} {e : EPtr} (he : e.Clean) (hl : ds.length < k) (hd : ∀ b ∈ ds, HexDigit b) :
    hexN k acc ds e = (none, .obj endErr) := by
  induction ds generalizing k acc with
  | nil =>
    cases k with
    | zero => simp at hl
    | succ k => simp only [hexN, he.set]; rfl
  | cons d ds ih =>
    cases k with
    | zero => simp at hl
    | succ k =>
      simp only [hexN, hexVal_hex (hd d (by simp))]
      exact ih (by simpa using hl) (fun b hb => hd b (by simp [hb]))

theorem hexN_digit {k acc : Nat} {ds : Bytes} {b : Byte} {t : Bytes} {e : EPtr} (he : e.Clean) (hl : ds.length < k)
    (hd : ∀ b ∈ ds, HexDigit b) (hb : ¬ HexDigit b) : (hexN k acc (ds ++ b :: t) e).2 = .obj ⟨.InvalidString, none, 0⟩ := by
  induction ds generalizing k acc with
  | nil =>
    cases k with
    | zero => simp at hl
    | succ k =>
      simp only [List.nil_append, hexN, hexVal_bad hb, he.set]
      exact (hexN_estep k _ t _ 0).of_failed (obj_failed (by decide))
  | cons d ds ih =>
    cases k with
    | zero => simp at hl
    | succ k =>
      simp only [List.cons_append, hexN, hexVal_hex (hd d (by simp))]
      exact ih (by simpa using hl) (fun b hb => hd b (by simp [hb]))

/-- A step that fails in its hexadecimal digits. -/
theorem strStep_digit {x : Byte} {k : Nat} (hx : HexEscape x k) {ds : Bytes} {b : Byte} {t : Bytes} {n : Nat} (hn : 1 ≤ n)
    (hd : ∀ b ∈ ds, HexDigit b) (hl : ds.length < k) (hb : ¬ HexDigit b) {e : EPtr} (he : e.Clean) :
    (strStep c%'\\' (x :: (ds ++ b :: t)) n e).2.2.2 = .obj ⟨.InvalidString, none, 0⟩ := by
  have hf : (EPtr.obj ⟨.InvalidString, none, 0⟩).failed = true := by decide
  unfold strStep
  rw [if_pos rfl]
  rcases hx with ⟨rfl, rfl⟩ | ⟨rfl, rfl⟩
  · have : simpleEsc c%'u' = none := by decide
    simp only [this, if_true]
    have h := hexN_digit (acc := 0) (t := t) he hl hd hb
    unfold uhexStep
    rw [if_neg (by omega)]
    cases hh : hexN 4 0 (ds ++ b :: t) e with
    | mk o e1 =>
      rw [hh] at h
      simp only at h
      subst h
      cases o with
      | none => rfl
      | some q =>
        obtain ⟨h, p⟩ := q
        simp only
        repeat' split
        all_goals first
          | rfl
          | (rw [createError_of_failed hf])
  · have : simpleEsc c%'x' = none := by decide
    simp only [this, if_neg (by decide : ¬ (c%'x' = c%'u')), if_true]
    have h := hexN_digit (acc := 0) (t := t) he hl hd hb
    unfold xhexStep
    cases hh : hexN 2 0 (ds ++ b :: t) e with
    | mk o e1 =>
      rw [hh] at h
      simp only at h
      subst h
      cases o <;> rfl

theorem lead_ne {b : Byte} {k : Nat} (h : LeadLen b k) (h1 : 1 ≤ k) : b ≠ c%'"' ∧ b ≠ c%'\\' := by
  constructor <;>
  · rintro rfl
    rcases h with h | h | h | h | h | h
    · omega
    all_goals exact absurd h.1 (by decide)

theorem strStep_multi {b : Byte} {k : Nat} (h : LeadLen b k) (h1 : 1 ≤ k) (h3 : k ≤ 3) (t : Bytes) (n : Nat) (e : EPtr) :
    strStep b t n e = utf8Copy (k + 1) (b :: t) n e := by
  unfold strStep
  rw [if_neg (lead_ne h h1).2, leadLen_copy h h1 h3]

theorem utf8Copy_end {i : Nat} {s : Bytes} {n : Nat} (h : s.length < i) (hn : s.length ≤ n) (e : EPtr) :
    utf8Copy i s n e = (s, [], n - s.length, if s.length < n then createError .UnexpectedEndFragment e else e) := by
  induction i generalizing s n with
  | zero => omega
  | succ i ih =>
    cases s with
    | nil => cases n <;> simp [utf8Copy]
    | cons b t =>
      simp only [List.length_cons] at h hn
      cases n with
      | zero => omega
      | succ n =>
        simp only [utf8Copy, ih (s := t) (n := n) (by omega) (by omega), List.length_cons, Nat.add_lt_add_iff_right,
          Nat.add_sub_add_right]

theorem strDec_roomChar {b : Byte} {k : Nat} {ts : Bytes} (h : LeadLen b k) (h1 : 1 ≤ k) (h3 : k ≤ 3) (hl : ts.length < k)
    (r : Bytes) (e : EPtr) : (strDec (b :: ts ++ r) (ts.length + 1) e).2 = (strDec r 0 e).2 := by
  rw [List.cons_append, strDec_next (lead_ne h h1).1 (by omega), strStep_multi h h1 h3]
  by_cases hr : (ts ++ r).length < k
  · by_cases hr0 : r = []
    · subst hr0
      rw [List.append_nil, utf8Copy_end (by simpa using hl) (by simp)]
      simp
    · have : r.length ≠ 0 := by simpa using hr0
      have := utf8Copy_take k (b :: ts) r e (by simpa using hl)
      simpa using congrArg (fun q => (strDec q.2.1 q.2.2.1 q.2.2.2).2) this
  · have := utf8Copy_take k (b :: ts) r e (by simpa using hl)
    simpa using congrArg (fun q => (strDec q.2.1 q.2.2.1 q.2.2.2).2) this
where
  utf8Copy_take (k : Nat) (u r : Bytes) (e : EPtr) (h : u.length < k + 1) : utf8Copy (k + 1) (u ++ r) u.length e = (u, r, 0, e) := by
    induction u generalizing k with
    | nil => cases r <;> simp [utf8Copy]
    | cons b u ih =>
      simp only [List.length_cons] at h
      cases k with
      | zero => omega
      | succ k => simp only [List.cons_append, List.length_cons, utf8Copy, ih k (by omega)]

theorem strDec_roomCtl {a b c d : Byte} (ha : HexDigit a) (hb : HexDigit b) (hc : HexDigit c) (hd : HexDigit d)
    (h1 : hex4 a b c d < 0x20) (h2 : ¬ ShortCtl (hex4 a b c d)) {n : Nat} (hn : 1 ≤ n) (hn6 : n < 6) (r : Bytes) (e : EPtr) :
    (strDec (c%'\\' :: c%'u' :: a :: b :: c :: d :: r) n e).2 = (strDec r 0 e).2 := by
  rw [strDec_next (by decide) hn]
  have h4 := hexN_ok (ds := [a, b, c, d]) (by simp [ha, hb, hc, hd]) 0 r e
  rw [hex4_fold] at h4
  simp only [List.length_cons, List.length_nil, List.cons_append, List.nil_append, Nat.reduceAdd] at h4
  have : simpleEsc c%'u' = none := by decide
  have hs : (strStep c%'\\' (c%'u' :: a :: b :: c :: d :: r) n e).2 = (r, 0, e) := by
    unfold strStep
    rw [if_pos rfl]
    simp only [this, if_true]
    unfold uhexStep
    rw [if_neg (by omega)]
    simp only [h4]
    rw [if_pos h1, if_neg (by unfold ShortCtl at h2; omega)]
    simp only [List.length_take, List.length_cons, List.take_succ_cons, List.take_zero, List.length_nil, Prod.mk.injEq, true_and, and_true]
    omega
  rw [hs]

theorem strDec_roomUni {a b c d : Byte} (ha : HexDigit a) (hb : HexDigit b) (hc : HexDigit c) (hd : HexDigit d)
    {n : Nat} (hn : 1 ≤ n) (hn2 : n < (utf8Enc (hex4 a b c d)).length) (r : Bytes) {e : EPtr} (he : e.Clean) :
    (strDec (c%'\\' :: c%'u' :: a :: b :: c :: d :: r) n e).2 = ([], .obj (errAt .InvalidString r)) := by
  have h4 := hexN_ok (ds := [a, b, c, d]) (by simp [ha, hb, hc, hd]) 0 r e
  rw [hex4_fold] at h4
  simp only [List.length_cons, List.length_nil, List.cons_append, List.nil_append, Nat.reduceAdd] at h4
  have hs : ∃ w m, strStep c%'\\' (c%'u' :: a :: b :: c :: d :: r) n e = (w, [], m, .obj (errAt .InvalidString r)) := by
    have : simpleEsc c%'u' = none := by decide
    unfold strStep
    rw [if_pos rfl]
    simp only [this, if_true]
    generalize hex4 a b c d = h at *
    unfold uhexStep
    rw [if_neg (by omega)]
    simp only [h4]
    unfold utf8Enc at hn2
    by_cases h2 : h < 0x80
    · rw [if_pos h2] at hn2
      simp only [List.length_cons, List.length_nil] at hn2
      omega
    · rw [if_neg h2] at hn2
      rw [if_neg (by omega : ¬ h < 32), if_neg (by omega : ¬ h ≤ 0x7F)]
      by_cases h3 : h < 0x800
      · rw [if_pos h3] at hn2
        simp only [List.length_cons, List.length_nil] at hn2
        rw [if_pos (by omega : h ≤ 0x7FF), if_pos (by omega : n = 1), he.set]
        exact ⟨_, _, rfl⟩
      · rw [if_neg h3] at hn2
        simp only [List.length_cons, List.length_nil] at hn2
        rw [if_neg (by omega : ¬ h ≤ 0x7FF)]
        by_cases h1 : n = 1
        · rw [if_pos h1, he.set]; exact ⟨_, _, rfl⟩
        · rw [if_neg h1, if_pos (by omega : n = 2), he.set]; exact ⟨_, _, rfl⟩
  obtain ⟨w, m, hs⟩ := hs
  exact strDec_fail (by decide) hn (by simp [errAt]) hs

theorem noLead_step {b : Byte} (h0 : 0x80 ≤ b) (h : ∀ k, k ≤ 3 → ¬ LeadLen b k) (t : Bytes) (n : Nat) (e : EPtr) :
    strStep b t n e = ([], [], n, createError .InvalidString e none ((b :: t).length : Nat)) := by
  have key : ∀ b : Byte, 0x80 ≤ b → ¬ (0xC0 ≤ b ∧ b < 0xF8) →
      b ≠ c%'\\' ∧ b &&& 128 ≠ 0 ∧ b &&& 224 ≠ 192 ∧ b &&& 240 ≠ 224 ∧ b &&& 248 ≠ 240 := by
    apply forall_byte; decide +kernel
  obtain ⟨k0, k1, k2, k3, k4⟩ := key b h0 (by
    rintro ⟨a1, a2⟩
    by_cases h1 : b < 0xE0
    · exact h 1 (by omega) (.inr (.inl ⟨a1, h1, rfl⟩))
    · by_cases h2 : b < 0xF0
      · exact h 2 (by omega) (.inr (.inr (.inl ⟨UInt8.not_lt.mp h1, h2, rfl⟩)))
      · exact h 3 (by omega) (.inr (.inr (.inr (.inl ⟨UInt8.not_lt.mp h2, a2, rfl⟩)))))
  unfold strStep
  rw [if_neg k0]
  unfold utf8Step
  rw [if_neg k1, if_neg k2, if_neg k3, if_neg k4]

/-- What is reported in the body of a string. -/
theorem body_sound {n : Nat} {s : Bytes} {x : JError} (h : BodyFault n s x) {e : EPtr} (he : e.Clean) :
    (strDec s n e).2.2 = .obj x := by
  induction h with
  | none => rw [strDec.eq_def]; simp only [he.set]; rfl
  | full hb => rw [strDec.eq_def]; simp only; rw [if_neg hb, dif_pos trivial, he.set]; rfl
  | backslash hn =>
    rw [strDec_fail (x := endErr) (by decide) hn (by decide) (by simp only [strStep, if_true, he.set]; rfl)]
  | @hexCut n x k ds hn hx hd hl =>
    have : ∃ w m, strStep c%'\\' (x :: ds) n e = (w, [], m, .obj endErr) := by
      unfold strStep
      rw [if_pos rfl]
      rcases hx with ⟨rfl, rfl⟩ | ⟨rfl, rfl⟩
      · have : simpleEsc c%'u' = none := by decide
        simp only [this, if_true]
        unfold uhexStep
        rw [if_neg (by omega), hexN_cut he hl hd]
        exact ⟨_, _, rfl⟩
      · have : simpleEsc c%'x' = none := by decide
        simp only [this, if_neg (by decide : ¬ (c%'x' = c%'u')), if_true]
        unfold xhexStep
        rw [hexN_cut he hl hd]
        exact ⟨_, _, rfl⟩
    obtain ⟨w, m, h⟩ := this
    rw [strDec_fail (by decide) hn (by decide) h]
  | @escape n x t hn h1 h2 h3 =>
    have hs : simpleEsc x = none := by
      cases h : simpleEsc x with
      | none => rfl
      | some y => exact absurd (simpleEsc_iff.mp h) (h1 y)
    rw [strDec_fail (x := errAt .InvalidString (x :: t)) (w := []) (m := n) (by decide) hn (by simp [errAt]) ?_]
    unfold strStep
    rw [if_pos rfl]
    simp only [hs]
    rw [if_neg h2, if_neg h3, he.set]
    rfl
  | @hexDigit n x k ds b t hn hx hd hl hb =>
    rw [strDec_next (by decide) hn, strStep_digit hx hn hd hl hb he]
    exact strDec_keeps _ _ (by decide)
  | @lead n b t hn h0 h1 =>
    have hb : b ≠ c%'"' := by rintro rfl; exact absurd h0 (by decide)
    rw [strDec_fail (x := errAt .InvalidString (b :: t)) hb hn (by simp [errAt]) (by rw [noLead_step h0 h1, he.set]; rfl)]
  | @charCut n b k ts h1 h2 h3 h4 h5 =>
    rw [strDec_next (lead_ne h1 h2).1 (by omega), strStep_multi h1 h2 h3, utf8Copy_end (by simpa using h4) (by simp; omega)]
    simp only
    split
    · rw [he.set]; exact strDec_keeps _ _ (by decide)
    · rw [strDec.eq_def]; simp only [he.set]; rfl
  | @roomChar n b k ts r x h1 h2 h3 h4 h5 _ ih =>
    subst h5
    rw [strDec_roomChar h1 h2 h3 h4]
    exact ih
  | roomUni h1 h2 h3 h4 _ h6 h7 => rw [strDec_roomUni h1 h2 h3 h4 h6 h7 _ he]
  | roomCtl h1 h2 h3 h4 h5 h6 h7 h8 _ ih => rw [strDec_roomCtl h1 h2 h3 h4 h5 h6 h7 h8]; exact ih
  | step h1 h2 _ ih => rw [strDec_unit h1 h2]; exact ih

theorem hex_dich (k : Nat) (s : Bytes) :
    (∃ ds p, s = ds ++ p ∧ ds.length = k ∧ ∀ d ∈ ds, HexDigit d) ∨
    (s.length < k ∧ ∀ d ∈ s, HexDigit d) ∨
    (∃ ds b t, s = ds ++ b :: t ∧ ds.length < k ∧ (∀ d ∈ ds, HexDigit d) ∧ ¬ HexDigit b) := by
  induction k generalizing s with
  | zero => exact .inl ⟨[], s, rfl, rfl, by simp⟩
  | succ k ih =>
    cases s with
    | nil => exact .inr (.inl ⟨by simp, by simp⟩)
    | cons b t =>
      by_cases hb : HexDigit b
      · rcases ih t with ⟨ds, p, rfl, h1, h2⟩ | ⟨h1, h2⟩ | ⟨ds, b', t', rfl, h1, h2, h3⟩
        · exact .inl ⟨b :: ds, p, rfl, by simp [h1], by simpa [hb] using h2⟩
        · exact .inr (.inl ⟨by simpa using h1, by simpa [hb] using h2⟩)
        · exact .inr (.inr ⟨b :: ds, b', t', rfl, by simpa using h1, by simpa [hb] using h2, h3⟩)
      · exact .inr (.inr ⟨[], b, t, rfl, by simp, by simp, hb⟩)

/-- Otherwise nothing is reported. -/
theorem body_dich (n : Nat) (s : Bytes) : (∃ x, BodyFault n s x) ∨ ∀ e, (strDec s n e).2.2 = e := by
  have main : ∀ (m : Nat) (n : Nat) (s : Bytes), s.length ≤ m → (∃ x, BodyFault n s x) ∨ ∀ e, (strDec s n e).2.2 = e := by
    intro m
    induction m with
    | zero =>
      intro n s hs
      have : s = [] := List.length_eq_zero_iff.mp (by omega)
      subst this
      exact .inl ⟨_, .none⟩
    | succ m ih =>
      intro n s hs
      have again : ∀ {u w r : Bytes}, DUnit u w → s = u ++ r → w.length ≤ n →
          (∃ x, BodyFault n s x) ∨ ∀ e, (strDec s n e).2.2 = e := by
        intro u w r hu hsr hw
        obtain ⟨_, b, t, rfl, _⟩ := dunit_ne hu
        subst hsr
        rcases ih (n - w.length) r (by simp at hs; omega) with ⟨x, hx⟩ | h
        · exact .inl ⟨x, .step hu hw hx⟩
        · exact .inr fun e => by rw [strDec_unit hu hw]; exact h e
      cases s with
      | nil => exact .inl ⟨_, .none⟩
      | cons b t =>
        simp only [List.length_cons] at hs
        by_cases hq : b = c%'"'
        · subst hq
          exact .inr fun e => by rw [strDec.eq_def]; simp
        · by_cases hn0 : n = 0
          · subst hn0; exact .inl ⟨_, .full hq⟩
          · have hn : 1 ≤ n := by omega
            have again0 : ∀ {u r : Bytes}, r.length ≤ m → b :: t = u ++ r → (∀ e, (strDec (b :: t) n e).2 = (strDec r 0 e).2) →
                (∀ x, BodyFault 0 r x → BodyFault n (b :: t) x) →
                (∃ x, BodyFault n (b :: t) x) ∨ ∀ e, (strDec (b :: t) n e).2.2 = e := by
              intro u r hr _ h1 h2
              rcases ih 0 r hr with ⟨x, hx⟩ | h
              · exact .inl ⟨x, h2 x hx⟩
              · exact .inr fun e => by rw [h1]; exact h e
            by_cases hb : b = c%'\\'
            · subst hb
              cases t with
              | nil => exact .inl ⟨_, .backslash hn⟩
              | cons x t =>
                cases hy : simpleEsc x with
                | some y => exact again (.short (simpleEsc_iff.mp hy)) rfl (by simpa using hn)
                | none =>
                  have hno : ∀ y, ¬ ShortEsc x y := fun y h => by rw [simpleEsc_iff.mpr h] at hy; cases hy
                  by_cases hu : x = c%'u'
                  · subst hu
                    rcases hex_dich 4 t with ⟨ds, p, rfl, h1, h2⟩ | ⟨h1, h2⟩ | ⟨ds, b', t', rfl, h1, h2, h3⟩
                    · obtain ⟨a, b, c, d, rfl⟩ : ∃ a b c d, ds = [a, b, c, d] := by
                        match ds, h1 with
                        | [a, b, c, d], _ => exact ⟨a, b, c, d, rfl⟩
                      have ha := h2 a (by simp)
                      have hb := h2 b (by simp)
                      have hc := h2 c (by simp)
                      have hd := h2 d (by simp)
                      by_cases h32 : 0x20 ≤ hex4 a b c d
                      · by_cases hw : (utf8Enc (hex4 a b c d)).length ≤ n
                        · exact again (.uni ha hb hc hd (.inl h32)) rfl hw
                        · exact .inl ⟨_, .roomUni ha hb hc hd h32 hn (by omega)⟩
                      · by_cases hsc : ShortCtl (hex4 a b c d)
                        · refine again (.uni ha hb hc hd (.inr hsc)) rfl ?_
                          unfold utf8Enc
                          rw [if_pos (by omega)]
                          simpa using hn
                        · by_cases h6 : 6 ≤ n
                          · exact again (.ctl ha hb hc hd (by omega) hsc) rfl (by simpa using h6)
                          · exact again0 (r := p) (u := [c%'\\', c%'u', a, b, c, d]) (by simp at hs; omega) rfl
                              (fun e => strDec_roomCtl ha hb hc hd (by omega) hsc hn (by omega) p e)
                              (fun x hx => .roomCtl ha hb hc hd (by omega) hsc hn (by omega) hx)
                    · exact .inl ⟨_, .hexCut hn (.inl ⟨rfl, rfl⟩) h2 h1⟩
                    · exact .inl ⟨_, .hexDigit hn (.inl ⟨rfl, rfl⟩) h2 h1 h3⟩
                  · by_cases hxx : x = c%'x'
                    · subst hxx
                      rcases hex_dich 2 t with ⟨ds, p, rfl, h1, h2⟩ | ⟨h1, h2⟩ | ⟨ds, b', t', rfl, h1, h2, h3⟩
                      · obtain ⟨a, b, rfl⟩ : ∃ a b, ds = [a, b] := by
                          match ds, h1 with
                          | [a, b], _ => exact ⟨a, b, rfl⟩
                        exact again (.hex (h2 a (by simp)) (h2 b (by simp))) rfl (by simpa using hn)
                      · exact .inl ⟨_, .hexCut hn (.inr ⟨rfl, rfl⟩) h2 h1⟩
                      · exact .inl ⟨_, .hexDigit hn (.inr ⟨rfl, rfl⟩) h2 h1 h3⟩
                    · exact .inl ⟨_, .escape hn hno hu hxx⟩
            · by_cases h80 : b < 0x80
              · exact again (.ascii h80 hq hb) (r := t) rfl (by simpa using hn)
              · by_cases hl : ∃ k, k ≤ 3 ∧ LeadLen b k
                · obtain ⟨k, hk3, hk⟩ := hl
                  have hk1 : 1 ≤ k := by
                    rcases hk with h | h | h | h | h | h
                    · exact absurd h.1 h80
                    all_goals omega
                  by_cases hlen : t.length < k ∧ t.length < n
                  · exact .inl ⟨_, .charCut hk hk1 hk3 hlen.1 hlen.2⟩
                  · by_cases hkn : k + 1 ≤ n
                    · refine again (u := b :: t.take k) (r := t.drop k) (.multi hk hk1 hk3 (by rw [List.length_take]; omega)) (by simp) ?_
                      simp only [List.length_cons, List.length_take]; omega
                    · have htk : (t.take (n - 1)).length = n - 1 := by rw [List.length_take]; omega
                      have hsp : b :: t = b :: t.take (n - 1) ++ t.drop (n - 1) := by simp
                      refine again0 (u := b :: t.take (n - 1)) (r := t.drop (n - 1)) (by simp; omega) hsp (fun e => ?_) (fun x hx => ?_)
                      · have := strDec_roomChar (ts := t.take (n - 1)) hk hk1 hk3 (by omega) (t.drop (n - 1)) e
                        rw [← hsp, htk, Nat.sub_add_cancel hn] at this
                        exact this
                      · rw [hsp]
                        exact .roomChar hk hk1 hk3 (by omega) (by omega) hx
                · refine .inl ⟨_, .lead hn ?_ (fun k hk h => hl ⟨k, hk, h⟩)⟩
                  exact UInt8.not_lt.mp h80
  exact main s.length n s (Nat.le_refl _)

/-! ### Whole strings -/

theorem unserializeStr_body (s : Bytes) (k : Sink) (n : Nat) (e : EPtr) {q : Sink × Bytes × EPtr}
    (h : unserializeStr (c%'"' :: s) k n e = .ok q) : q.2 = (strDec s n e).2 := by
  simp only [unserializeStr, ne_eq, not_true, if_false] at h
  generalize k.puts (strDec s n e).1 = o at h
  cases o with
  | ok k => cases h; rfl
  | ub => cases h
  | fuel => cases h

theorem str_sound (v0 : Bytes) {s : Bytes} {x : JError} (h : StrFault intMax s x) : Tells strSer.de v0 s x := by
  intro y hy
  have hc := clean_obj hy
  cases h with
  | none => exact ⟨[], [], by simp only [strSer, deStr, isNull, unserializeStr, hc.set]; rfl⟩
  | null h =>
    obtain ⟨t, rfl, h'⟩ := null_sound h
    exact ⟨[], [], by simp only [strSer, deStr, isNull, List.head?_cons, BEq.rfl, if_true, h'.set hc]⟩
  | @kind b t h1 h2 =>
    refine ⟨[], [], ?_⟩
    simp only [strSer, deStr]
    rw [if_neg (by simpa [isNull] using h1)]
    simp only [unserializeStr]
    rw [if_pos h2, hc.set]
    rfl
  | @body s x h =>
    refine ⟨(strDec s intMax (.obj y)).1, (strDec s intMax (.obj y)).2.1, ?_⟩
    simp only [strSer, deStr]
    rw [if_neg (by simp [isNull])]
    simp only [unserializeStr, ne_eq, not_true, if_false]
    rw [Sink.puts_back]
    rw [← body_sound h hc]
    rfl

theorem str_dich (v0 s : Bytes) : (∃ x, StrFault intMax s x) ∨ Quiet strSer.de v0 s := by
  cases s with
  | nil => exact .inl ⟨_, .none⟩
  | cons b t =>
    by_cases h1 : b = c%'n'
    · subst h1
      rcases null_dich t with ⟨p, hp⟩ | ⟨x, hx⟩
      · right
        intro y _ v p' e h
        simp only [strSer, deStr, isNull, List.head?_cons, BEq.rfl, if_true, hp _] at h
        simp at h
        exact h.2.2.symm
      · exact .inl ⟨x, .null hx⟩
    · by_cases h2 : b = c%'"'
      · subst h2
        rcases body_dich intMax t with ⟨x, hx⟩ | hq
        · exact .inl ⟨x, .body hx⟩
        · right
          intro y _ v p e h
          simp only [strSer, deStr] at h
          rw [if_neg (by simp [isNull])] at h
          cases ho : unserializeStr (c%'"' :: t) ⟨[], .back⟩ intMax (.obj y) with
          | ok q =>
            have h3 := unserializeStr_body _ _ _ _ ho
            rw [ho] at h
            change (.ok (q.1.mem, q.2) : Out (Bytes × Bytes × EPtr)) = .ok (v, p, e) at h
            simp only [Out.ok.injEq, Prod.mk.injEq] at h
            have h4 := congrArg Prod.snd h.2
            rw [h3, hq] at h4
            exact h4.symm
          | ub => rw [ho] at h; cases h
          | fuel => rw [ho] at h; cases h
      · exact .inl ⟨_, .kind h1 h2⟩

theorem chars_sound (N : Nat) (v0 : Bytes) {s : Bytes} {x : JError} (h : StrFault N s x) : Tells (charArraySer N).de v0 s x := by
  intro y hy
  have hc := clean_obj hy
  cases h with
  | none => exact ⟨List.replicate N 0, [], by simp only [charArraySer, deCharArray, isNull, unserializeStr, hc.set]; rfl⟩
  | null h =>
    obtain ⟨t, rfl, h'⟩ := null_sound h
    exact ⟨List.replicate N 0, [], by simp only [charArraySer, deCharArray, isNull, List.head?_cons, BEq.rfl, if_true, h'.set hc]⟩
  | @kind b t h1 h2 =>
    refine ⟨List.replicate N 0, [], ?_⟩
    simp only [charArraySer, deCharArray]
    rw [if_neg (by simpa [isNull] using h1)]
    simp only [unserializeStr]
    rw [if_pos h2, hc.set]
    rfl
  | @body s x h =>
    obtain ⟨w, p, e', h1, _, _, _, h2⟩ := deCharArray_eq N v0 (c%'"' :: s) (.obj y)
    obtain ⟨_, _, h3⟩ := h2 s rfl
    rw [body_sound h hc] at h3
    subst h3
    exact ⟨_, _, h1⟩

theorem chars_dich (N : Nat) (v0 s : Bytes) : (∃ x, StrFault N s x) ∨ Quiet (charArraySer N).de v0 s := by
  cases s with
  | nil => exact .inl ⟨_, .none⟩
  | cons b t =>
    by_cases h1 : b = c%'n'
    · subst h1
      rcases null_dich t with ⟨p, hp⟩ | ⟨x, hx⟩
      · right
        intro y _ v p' e h
        simp only [charArraySer, deCharArray, isNull, List.head?_cons, BEq.rfl, if_true, hp _] at h
        simp at h
        exact h.2.2.symm
      · exact .inl ⟨x, .null hx⟩
    · by_cases h2 : b = c%'"'
      · subst h2
        rcases body_dich N t with ⟨x, hx⟩ | hq
        · exact .inl ⟨x, .body hx⟩
        · right
          intro y _ v p e h
          obtain ⟨w, p', e', h3, _, _, _, h4⟩ := deCharArray_eq N v0 (c%'"' :: t) (.obj y)
          obtain ⟨_, _, h5⟩ := h4 t rfl
          rw [hq] at h5
          subst h5
          have h6 := h3.symm.trans h
          simp only [Out.ok.injEq, Prod.mk.injEq] at h6
          exact h6.2.2.symm
      · exact .inl ⟨_, .kind h1 h2⟩

/-! ### Enumerators -/

theorem skipLow_append {c : Cfg} {g : Bytes} (hg : ∀ b ∈ g, leSpace c b = true) (s : Bytes) : skipLow c (g ++ s) = skipLow c s := by
  induction g with
  | nil => rfl
  | cons b g ih =>
    rw [List.cons_append, skipLow, if_pos (hg b (by simp))]
    exact ih fun x hx => hg x (by simp [hx])

theorem skipLow_cut (c : Cfg) (s : Bytes) :
    ∃ g, s = g ++ skipLow c s ∧ (∀ b ∈ g, leSpace c b = true) ∧ ∀ b, (skipLow c s).head? = some b → leSpace c b = false := by
  induction s with
  | nil => exact ⟨[], rfl, by simp, by simp [skipLow]⟩
  | cons b s ih =>
    rw [skipLow]
    by_cases hb : leSpace c b = true
    · rw [if_pos hb]
      obtain ⟨g, h1, h2, h3⟩ := ih
      exact ⟨b :: g, by rw [List.cons_append, ← h1], by simpa [hb] using h2, h3⟩
    · rw [if_neg hb]
      exact ⟨[], rfl, by simp, by intro x hx; simp at hx; subst hx; simpa using hb⟩

theorem toQuote_none {k : Bytes} (h : c%'"' ∉ k) : (toQuote k).2 = [] := by
  induction k with
  | nil => rfl
  | cons b k ih =>
    simp only [List.mem_cons, not_or] at h
    rw [toQuote, if_neg (fun hb => h.1 hb.symm)]
    exact ih h.2

theorem quote_split (s : Bytes) : c%'"' ∉ s ∨ ∃ k t, c%'"' ∉ k ∧ s = k ++ c%'"' :: t := by
  induction s with
  | nil => exact .inl (by simp)
  | cons b s ih =>
    by_cases hb : b = c%'"'
    · subst hb; exact .inr ⟨[], s, by simp, rfl⟩
    · rcases ih with h | ⟨k, t, h1, rfl⟩
      · exact .inl (by simp [h, Ne.symm hb])
      · exact .inr ⟨b :: k, t, by simp [h1, Ne.symm hb], rfl⟩

section
variable {α : Type} [DecidableEq α] (c : Cfg) (strict : Bool) (dflt : α) (L : List (Bytes × α))

theorem enum_sound (v0 : α) {s : Bytes} {x : JError} (h : EnumFault (leSpace c) strict L s x) :
    Reports (enumSer c strict dflt L).de v0 s x := by
  intro y hy
  have hc := clean_obj hy
  refine ⟨dflt, ?_⟩
  cases h with
  | none hg =>
    have : skipLow c s = [] := by
      have := skipLow_append hg []
      rwa [List.append_nil] at this
    simp only [enumSer, deEnum, this, hc.set]
    rfl
  | @kind g b t hg h1 h2 =>
    have : skipLow c (g ++ b :: t) = b :: t := by rw [skipLow_append hg, skipLow, if_neg (by simp [h1])]
    simp only [enumSer, deEnum, this]
    rw [if_pos h2, hc.set]
    rfl
  | @cut g k hg hk =>
    have : skipLow c (g ++ c%'"' :: k) = c%'"' :: k := by rw [skipLow_append hg, skipLow, if_neg (by simp [leSpace])]
    simp only [enumSer, deEnum, this, ne_eq, not_true, if_false]
    cases k with
    | nil => simp only [hc.set]; rfl
    | cons b k => simp only [toQuote_none hk, hc.set]; rfl
  | @name g k t hs hg hk hL =>
    have : skipLow c (g ++ c%'"' :: (k ++ c%'"' :: t)) = c%'"' :: (k ++ c%'"' :: t) := by
      rw [skipLow_append hg, skipLow, if_neg (by simp [leSpace])]
    have hf : enumFind L k = none := enumFind_none (by
      intro hm
      obtain ⟨⟨n, v⟩, h1, rfl⟩ := List.mem_map.mp hm
      exact hL v h1)
    have hq := toQuote_eq hk t
    simp only [enumSer, deEnum, this, ne_eq, not_true, if_false]
    cases hkt : k ++ c%'"' :: t with
    | nil => simp at hkt
    | cons b p =>
      rw [hkt] at hq
      simp only [hq, hf, hs, if_true, hc.set]
      rfl

theorem enum_dich (v0 : α) (s : Bytes) :
    (∃ x, EnumFault (leSpace c) strict L s x) ∨ Quiet (enumSer c strict dflt L).de v0 s := by
  obtain ⟨g, h1, h2, h3⟩ := skipLow_cut c s
  cases hr : skipLow c s with
  | nil => rw [hr, List.append_nil] at h1; rw [h1]; exact .inl ⟨_, .none h2⟩
  | cons b p =>
    rw [hr] at h1 h3
    by_cases hb : b = c%'"'
    · subst hb
      rcases quote_split p with hk | ⟨k, t, hk, rfl⟩
      · rw [h1]; exact .inl ⟨_, .cut h2 hk⟩
      · have hq := toQuote_eq hk t
        have quiet : ∀ v, enumFind L k = some v ∨ strict = false ∧ enumFind L k = none → Quiet (enumSer c strict dflt L).de v0 s := by
          intro _ hv y _ v' p' e h
          simp only [enumSer, deEnum, hr, ne_eq, not_true, if_false] at h
          cases hkt : k ++ c%'"' :: t with
          | nil => simp at hkt
          | cons b p =>
            rw [hkt] at hq h
            simp only [hq] at h
            rcases hv with hv | ⟨hs, hv⟩
            · simp only [hv] at h
              simp at h
              exact h.2.2.symm
            · simp [hv, hs] at h
              exact h.2.2.symm
        cases hf : enumFind L k with
        | some v => exact .inr (quiet v (.inl hf))
        | none =>
          cases hs : strict with
          | false => subst hs; exact .inr (quiet dflt (.inr ⟨rfl, hf⟩))
          | true =>
            rw [h1]
            refine .inl ⟨_, .name rfl h2 hk fun v hv => ?_⟩
            have : enumFind L k ≠ none := by
              clear h1 h2 h3 hr hq quiet hf
              induction L with
              | nil => cases hv
              | cons x L ih =>
                rw [enumFind]
                split
                · simp
                · next hne =>
                  rcases List.mem_cons.mp hv with rfl | hv
                  · exact absurd (by have := matchName_self k []; rwa [List.append_nil] at this) hne
                  · exact ih hv
            exact this hf
    · rw [h1]; exact .inl ⟨_, .kind h2 (h3 b rfl) hb⟩

end

end Wjson
