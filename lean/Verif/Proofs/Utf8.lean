import Verif.Spec.Utf8
import Verif.Proofs.Stable
import Verif.Proofs.Valid
import Verif.Spec.Tokens
/-
UTF-8 in, UTF-8 out (C71).
-/
namespace Wjson
open Spec

/-! ### Cutting UTF-8 texts -/

theorem low_lt127 {b : Byte} (h : b < 0x80) : b < 127 ∨ b = 127 := by
  revert h; revert b; apply forall_byte; decide +kernel

theorem utf8Multi_high {u : Bytes} (h : Utf8Multi u) : ∀ b ∈ u, 0x80 ≤ b := by
  have hc : ∀ b : Byte, Cont b → 0x80 ≤ b := by unfold Cont; apply forall_byte; decide +kernel
  have h1 : ∀ b : Byte, 0xC2 ≤ b → 0x80 ≤ b := by apply forall_byte; decide +kernel
  have h2 : ∀ b : Byte, 0xA0 ≤ b → 0x80 ≤ b := by apply forall_byte; decide +kernel
  have h3 : ∀ b : Byte, (0xE1 ≤ b ∧ b ≤ 0xEC) ∨ (0xEE ≤ b ∧ b ≤ 0xEF) → 0x80 ≤ b := by apply forall_byte; decide +kernel
  have h4 : ∀ b : Byte, 0x90 ≤ b → 0x80 ≤ b := by apply forall_byte; decide +kernel
  have h5 : ∀ b : Byte, 0xF1 ≤ b → 0x80 ≤ b := by apply forall_byte; decide +kernel
  cases h with
  | two a _ b => simp [h1 _ a, hc _ b]
  | threeE0 a _ b => simp [h2 _ a, hc _ b]
  | three a b c => simp [h3 _ a, hc _ b, hc _ c]
  | threeED a _ b => simp [a, hc _ b]
  | fourF0 a _ b c => simp [h4 _ a, hc _ b, hc _ c]
  | four a _ b c d => simp [h5 _ a, hc _ b, hc _ c, hc _ d]
  | fourF4 a _ b c => simp [a, hc _ b, hc _ c]

theorem utf8Text_tail {b : Byte} {t : Bytes} (hb : b < 0x80) (h : Utf8Text (b :: t)) : Utf8Text t := by
  rcases utf8Text_cons_inv h with h | ⟨u, r, h1, h2, _⟩
  · exact h.2
  · obtain ⟨b', t', rfl, h3⟩ := utf8Multi_head h2
    simp at h1
    rw [← h1.1] at h3
    exact absurd hb (UInt8.not_lt.mpr h3)

/-- Before an ASCII byte a UTF-8 text can be cut. -/
theorem utf8Text_cut {b : Byte} {r t : Bytes} (hb : b < 0x80) (h : Utf8Text t) : ∀ {a : Bytes}, t = a ++ b :: r →
    Utf8Text a ∧ Utf8Text (b :: r) := by
  induction h with
  | nil => intro a ha; simp at ha
  | @ascii x t hx ht ih =>
    intro a ha
    cases a with
    | nil => cases ha; exact ⟨.nil, .ascii hx ht⟩
    | cons y a =>
      simp only [List.cons_append, List.cons.injEq] at ha
      obtain ⟨rfl, ha⟩ := ha
      exact ⟨.ascii hx (ih ha).1, (ih ha).2⟩
  | @multi c t hc ht ih =>
    intro a ha
    have hh := utf8Multi_high hc
    rcases List.append_eq_append_iff.mp ha with ⟨d, h1, h2⟩ | ⟨d, h1, h2⟩
    · subst h1
      exact ⟨.multi hc (ih h2).1, (ih h2).2⟩
    · cases d with
      | nil => simp at h1 h2; subst h1; exact ⟨by simpa using Utf8Text.multi hc .nil, h2 ▸ ht⟩
      | cons y d =>
        simp only [List.cons_append, List.cons.injEq] at h2
        obtain ⟨rfl, _⟩ := h2
        exact absurd hb (UInt8.not_lt.mpr (hh b (by simp [h1])))

/-! ### Escapes -/

theorem utf8Enc_utf8 {h : Nat} (hh : h < 0x10000) (hs : ¬ Surrogate h) : Utf8Text (utf8Enc h) := by
  unfold utf8Enc
  have toNat : ∀ n : Nat, n < 256 → (UInt8.ofNat n).toNat = n := fun n hn => by simp; omega
  split
  · refine .ascii ?_ .nil
    rw [UInt8.lt_iff_toNat_lt, toNat _ (by omega)]
    simpa using by assumption
  · have hc : ∀ n : Nat, Cont (UInt8.ofNat (0x80 + n % 64)) := by
      intro n
      unfold Cont
      rw [UInt8.le_iff_toNat_le, UInt8.le_iff_toNat_le, toNat _ (by omega)]
      simp; omega
    split
    · rw [← List.append_nil [_, _]]
      refine .multi (.two ?_ ?_ (hc _)) .nil <;> rw [UInt8.le_iff_toNat_le, toNat _ (by omega)] <;> simp <;> omega
    · rw [← List.append_nil [_, _, _]]
      refine .multi ?_ .nil
      unfold Surrogate at hs
      by_cases h0 : h < 0x1000
      · have : h / 4096 = 0 := by omega
        rw [this]
        have e2 : h / 64 % 64 = h / 64 := by omega
        rw [e2]
        refine .threeE0 ?_ ?_ (hc _) <;> rw [UInt8.le_iff_toNat_le, toNat _ (by omega)] <;> simp <;> omega
      · by_cases h1 : h / 4096 = 13
        · rw [h1]
          refine .threeED ?_ ?_ (hc _) <;> rw [UInt8.le_iff_toNat_le, toNat _ (by omega)] <;> simp <;> omega
        · refine .three ?_ (hc _) (hc _)
          rw [UInt8.le_iff_toNat_le, UInt8.le_iff_toNat_le, UInt8.le_iff_toNat_le, UInt8.le_iff_toNat_le, toNat _ (by omega)]
          simp; omega

/-! ### Strings -/

theorem Spec.Utf8Source.none_x {s r : Bytes} (h : Utf8Source s) (hr : b!"\\x" ++ r <:+ s) : False := by
  obtain ⟨p, rfl⟩ := hr
  exact h.nox ⟨p, r, by simp⟩

theorem hexN_short' {k acc : Nat} {s : Bytes} (e : EPtr) (h : s.length < k) : ∃ e', hexN k acc s e = (none, e') := by
  induction k generalizing acc s e with
  | zero => omega
  | succ k ih =>
    cases s with
    | nil => exact ⟨_, rfl⟩
    | cons b t => exact ih _ (by simpa using h)

/-- One step in a UTF-8 text: a unit with UTF-8 on both sides, or the end. -/
theorem utf8_unit {u : Bytes} (hu : Utf8Source u) {b : Byte} {t : Bytes} (ht : Utf8Text (b :: t)) (hsuf : b :: t <:+ u) (hb : b ≠ c%'"') :
    (∃ x w r, DUnit x w ∧ b :: t = x ++ r ∧ Utf8Text w ∧ Utf8Text r ∧ w.length ≤ x.length) ∨
      ∀ n e, n ≠ 0 → ∃ e', strStep b t n e = ([], [], n, e') := by
  by_cases hbs : b = c%'\\'
  · subst hbs
    have ht' := utf8Text_tail (by decide) ht
    cases t with
    | nil => exact .inr fun n e _ => ⟨_, rfl⟩
    | cons x t =>
      cases hx : simpleEsc x with
      | some y =>
        have hs := simpleEsc_iff.mp hx
        have hx8 : x < 0x80 ∧ y < 0x80 := by cases hs <;> decide
        exact .inl ⟨[c%'\\', x], [y], t, .short hs, rfl, .ascii hx8.2 .nil, utf8Text_tail hx8.1 ht', by simp⟩
      | none =>
        by_cases hu' : x = c%'u'
        · subst hu'
          have ht'' := utf8Text_tail (by decide) ht'
          rcases hu.esc t hsuf with hl | ⟨a, b, c, d, r, rfl, ha, hb, hc, hd, hns⟩
          · refine .inr fun n e hn => ?_
            obtain ⟨e', h⟩ := hexN_short' (k := 4) (acc := 0) e hl
            exact ⟨e', by simp [strStep, hx, uhexStep, h, hn]⟩
          · have hlow : ∀ b : Byte, HexDigit b → b < 0x80 := by unfold HexDigit; apply forall_byte; decide +kernel
            have hr : Utf8Text r := utf8Text_tail (hlow _ hd) (utf8Text_tail (hlow _ hc) (utf8Text_tail (hlow _ hb) (utf8Text_tail (hlow _ ha) ht'')))
            by_cases hk : 0x20 ≤ hex4 a b c d ∨ ShortCtl (hex4 a b c d)
            · refine .inl ⟨_, _, r, .uni ha hb hc hd hk, rfl, utf8Enc_utf8 (hex4_lt ha hb hc hd) hns, hr, ?_⟩
              unfold utf8Enc
              repeat' split
              all_goals simp
            · refine .inl ⟨_, _, r, .ctl ha hb hc hd (by omega) (fun h => hk (.inr h)), rfl, ?_, hr, by simp⟩
              exact .ascii (by decide) (.ascii (by decide) (.ascii (hlow _ ha) (.ascii (hlow _ hb) (.ascii (hlow _ hc) (.ascii (hlow _ hd) .nil)))))
        · by_cases hx' : x = c%'x'
          · subst hx'
            exact (hu.none_x hsuf).elim
          · exact .inr fun n e _ => ⟨_, by simp [strStep, hx, hu', hx']; rfl⟩
  · rcases utf8Text_cons_inv ht with ⟨h1, h2⟩ | ⟨x, r, h1, h2, h3⟩
    · exact .inl ⟨[b], [b], t, .ascii h1 hb hbs, rfl, .ascii h1 .nil, h2, by simp⟩
    · obtain ⟨y, n, ts, rfl, h4, h5, _⟩ := utf8Multi_shape h2
      have hy := utf8Multi_high h2 y (by simp)
      have hn : 1 ≤ n ∧ n ≤ 3 := by
        have hl : 2 ≤ (y :: ts).length ∧ (y :: ts).length ≤ 4 := by
          generalize y :: ts = w at h2
          cases h2 <;> simp
        simp at hl; omega
      exact .inl ⟨_, _, r, .multi h4 hn.1 hn.2 h5, h1, by simpa using Utf8Text.multi h2 .nil, h3, Nat.le_refl _⟩

theorem strDec_utf8 {u : Bytes} (hu : Utf8Source u) (s : Bytes) (n : Nat) (e : EPtr) (hs : s <:+ u) (ht : Utf8Text s) (hn : s.length ≤ n) :
    Utf8Text (strDec s n e).1 := by
  induction hl : s.length using Nat.strongRecOn generalizing s n e with
  | ind m ih =>
    subst hl
    cases s with
    | nil => rw [strDec.eq_def]; exact .nil
    | cons b t =>
      by_cases hb : b = c%'"'
      · rw [strDec.eq_def]; simp [hb]; exact .nil
      · have hn0 : n ≠ 0 := by simp at hn; omega
        rcases utf8_unit hu ht hs hb with ⟨x, w, r, hd, h1, h2, h3, h4⟩ | h
        · have h5 := (dunit_ne hd).2
          obtain ⟨y, ys, rfl, _⟩ := h5
          rw [h1] at hn hs ⊢
          simp only [List.length_append, List.length_cons] at hn h4
          rw [strDec_unit hd (by omega)]
          refine .append h2 (ih r.length ?_ r _ e ((List.suffix_append _ _).trans hs) h3 (by omega) rfl)
          rw [h1]; simp; omega
        · obtain ⟨e', h⟩ := h n e hn0
          rw [strDec.eq_def]
          simp only [if_neg hb, dif_neg hn0, h]
          rw [strDec.eq_def]
          exact .nil

theorem deStr_utf8 : Keeps Utf8Source Utf8Text deStr := by
  intro v s e ht hv
  refine .safe ht (deStr_safe v s e) ?_
  intro v' p e' h
  unfold deStr at h
  split at h
  · cases h; exact .nil
  · unfold unserializeStr at h
    cases s with
    | nil => cases h; exact .nil
    | cons b t =>
      simp only at h
      split at h
      · cases h; exact .nil
      · next hb =>
        rw [Sink.puts_back] at h
        simp only [Out.bind_ok, Out.ok.injEq, Prod.mk.injEq] at h
        obtain ⟨rfl, _⟩ := h
        rcases ht with h | ⟨u, ⟨a, ha⟩, hu⟩
        · cases h
        · have hb : b = c%'"' := by simpa using hb
          subst hb
          have h1 := utf8Text_cut (by decide) hu.utf8 ha.symm
          have h2 : t.length ≤ intMax := by
            have := hu.length
            rw [← ha] at this
            simp at this
            unfold intMax; omega
          simpa using strDec_utf8 hu t intMax e ((suffix_cons _ _).trans ⟨a, ha⟩) (utf8Text_tail (by decide) h1.2) h2

/-! ### Descriptions -/

theorem deInt_inRange {c : Cfg} {ty : IntTy} (hs : ty.Std) (pl : Bytes → Prop) : Keeps pl ty.InRange (deInt c ty) := by
  intro v s e ht hv
  cases s with
  | nil => exact .ok (.nil pl) hv
  | cons b t => exact .imp (deInt_keeps hs pl 0 (b :: t) e ht (zero_kept hs)) fun _ h => h.1

/-- The texts: only strings need a UTF-8 source. -/
def utf8If : Bool → Bytes → Prop
  | true => Utf8Source
  | false => AnyText

theorem TextOk.utf8If {st : Bool} {s : Bytes} (h : st = true → Utf8Source s) : TextOk (utf8If st) s := by
  cases st with
  | true => exact .of (h rfl)
  | false => exact .any s

/-- What is shown of every description at once. -/
structure KeptUtf8 (c : Cfg) (key st : Bool) {α : Type} (S : Ser α) (P : α → Prop) : Prop where
  dflt : P S.dflt
  json : ∀ v, P v → JsonValue c S v
  isKey : key = true → ∀ v, P v → JsonKey c S v
  keeps : Keeps (utf8If st) P S.de
  safe : Safe True S.de

theorem KeptUtf8.value {c : Cfg} {st : Bool} {α : Type} {S : Ser α} {P : α → Prop} (h1 : P S.dflt) (h2 : ∀ v, P v → JsonValue c S v)
    (h3 : Keeps (utf8If st) P S.de) (h4 : Safe True S.de) : KeptUtf8 c false st S P := ⟨h1, h2, nofun, h3, h4⟩

theorem KeptUtf8.ofKey {c : Cfg} {st : Bool} {α : Type} {S : Ser α} {P : α → Prop} (h1 : P S.dflt) (h2 : ∀ v, P v → JsonKey c S v)
    (h3 : Keeps (utf8If st) P S.de) (h4 : Safe True S.de) : KeptUtf8 c true st S P := ⟨h1, fun v hv => .key (h2 v hv), fun _ => h2, h3, h4⟩

/-! ### Alternatives -/

theorem textOk_null (st : Bool) : TextOk (utf8If st) b!"null" := by
  refine .utf8If fun _ => ⟨utf8_of_ascii (by decide), by decide, by decide +kernel, ?_⟩
  intro r hr
  have : b!"\\u" <:+: b!"null" := by
    obtain ⟨p, hp⟩ := hr
    exact ⟨p, r, by simpa using hp⟩
  exact absurd this (by decide +kernel)

section
variable {τ : Type} {Q : τ → Prop} {st : Bool} {a b : PEntry τ}

theorem readNull_keeps {m : PEntry τ} (hS : Keeps (utf8If st) m.P m.entry.ref.ser.de) {t : τ} (ht : m.P (m.entry.ref.get t))
    (hset : ∀ x, m.P x → Q (m.entry.ref.set x t)) {t' : τ} (hr : readNull m.entry.ref t = .ok t') : Q t' := by
  unfold readNull at hr
  have h := hS (m.entry.ref.get t) b!"null" .null (textOk_null st) ht
  generalize m.entry.ref.ser.de (m.entry.ref.get t) b!"null" .null = o at h hr
  cases o with
  | ok r => cases hr; exact hset _ (h _ _ _ rfl).2
  | ub => cases hr
  | fuel => cases hr

theorem deMemberIf_keeps (ha : Keeps (utf8If st) a.P a.entry.ref.ser.de) (hb : Keeps (utf8If st) b.P b.entry.ref.ser.de)
    (qa : ∀ t, Q t → a.P (a.entry.ref.get t)) (qb : ∀ t, Q t → b.P (b.entry.ref.get t))
    (sa : ∀ t, Q t → ∀ x, a.P x → Q (a.entry.ref.set x t)) (sb : ∀ t, Q t → ∀ x, b.P x → Q (b.entry.ref.set x t))
    {t : τ} {s : Bytes} {e : EPtr} {u : Bool} (hs : TextOk (utf8If st) s) (ht : Q t) {t' : τ} {p : Bytes} {e' : EPtr} {u' : Bool}
    (hr : deMemberIf a.entry.ref b.entry.ref t s e u = .ok (t', p, e', u')) : TextOk (utf8If st) p ∧ Q t' := by
  have one : ∀ {m : PEntry τ}, Keeps (utf8If st) m.P m.entry.ref.ser.de → (∀ t, Q t → m.P (m.entry.ref.get t)) →
      (∀ t, Q t → ∀ x, m.P x → Q (m.entry.ref.set x t)) → ∀ {t : τ} {s : Bytes} {e : EPtr} {u : Bool}, TextOk (utf8If st) s → Q t →
      ∀ {t' p e' u'}, deMember m.entry.ref t s e u = .ok (t', p, e', u') → TextOk (utf8If st) p ∧ Q t' := by
    intro m hm qm sm t s e u hs ht t' p e' u' hr
    exact member_keeps (Q := Q) (set := fun x => m.entry.ref.set x t) hm (qm t ht) ht (sm t ht) hs hr
  unfold deMemberIf at hr
  have h1 := @one a ha qa sa t s .fresh u hs ht
  generalize deMember a.entry.ref t s .fresh u = o at h1 hr
  cases o with
  | ub => cases hr
  | fuel => cases hr
  | ok d =>
    obtain ⟨t1, p1, e1, u1⟩ := d
    obtain ⟨h2, h3⟩ := h1 rfl
    simp only [Out.bind_ok] at hr
    split at hr
    · have h4 := fun t' => readNull_keeps (Q := Q) (m := b) hb (qb t1 h3) (sb t1 h3) (t' := t')
      generalize readNull b.entry.ref t1 = o at h4 hr
      cases o with
      | ok r => cases hr; exact ⟨h2, h4 _ rfl⟩
      | ub => cases hr
      | fuel => cases hr
    · have h4 := fun t' => readNull_keeps (Q := Q) (m := a) ha (qa t1 h3) (sa t1 h3) (t' := t')
      generalize readNull a.entry.ref t1 = o at h4 hr
      cases o with
      | ok r => exact one hb qb sb hs (h4 _ rfl) hr
      | ub => cases hr
      | fuel => cases hr

theorem deAMemberIf_keeps (ha : Keeps (utf8If st) a.P a.entry.ref.ser.de) (hb : Keeps (utf8If st) b.P b.entry.ref.ser.de)
    (qa : ∀ t, Q t → a.P (a.entry.ref.get t)) (qb : ∀ t, Q t → b.P (b.entry.ref.get t))
    (sa : ∀ t, Q t → ∀ x, a.P x → Q (a.entry.ref.set x t)) (sb : ∀ t, Q t → ∀ x, b.P x → Q (b.entry.ref.set x t)) :
    Keeps (utf8If st) Q (deAMemberIf a.entry.ref b.entry.ref) := by
  intro t s e hs ht
  refine .bind (P := Q) (.bind (ha _ _ _ hs (qa t ht)) fun _ _ _ h hx => .ok h (sa t ht _ hx)) fun t1 p1 e1 h2 h3 => ?_
  refine .ite (fun _ => ?_) fun _ => ?_
  · have h4 := fun t' => readNull_keeps (Q := Q) (m := b) hb (qb t1 h3) (sb t1 h3) (t' := t')
    generalize readNull b.entry.ref t1 = o at h4
    cases o with
    | ok r => exact .ok h2 (h4 _ rfl)
    | ub => intro _ _ _ h; cases h
    | fuel => intro _ _ _ h; cases h
  · have h4 := fun t' => readNull_keeps (Q := Q) (m := a) ha (qa t1 h3) (sa t1 h3) (t' := t')
    generalize readNull a.entry.ref t1 = o at h4
    cases o with
    | ok r => exact .bind (hb _ _ _ hs (qb r (h4 _ rfl))) fun _ _ _ h hx => .ok h (sb r (h4 _ rfl) _ hx)
    | ub => intro _ _ _ h; cases h
    | fuel => intro _ _ _ h; cases h

end

theorem Spec.mem_parts_l {τ : Type} {L : List (PSlot τ)} {l r : PEntry τ} {d : l.entry.ref.α → Bool} {RU : Bool} (h : PSlot.alt l r d RU ∈ L) :
    l ∈ L.flatMap PSlot.parts ∧ r ∈ L.flatMap PSlot.parts :=
  ⟨List.mem_flatMap.mpr ⟨_, h, by simp [PSlot.parts]⟩, List.mem_flatMap.mpr ⟨_, h, by simp [PSlot.parts]⟩⟩

theorem Spec.mem_parts_one {τ : Type} {L : List (PSlot τ)} {x : PEntry τ} (h : PSlot.one x ∈ L) : x ∈ L.flatMap PSlot.parts :=
  List.mem_flatMap.mpr ⟨_, h, by simp [PSlot.parts]⟩

theorem Utf8Safe.kept {c : Cfg} : ∀ {key st : Bool} {α : Type} {S : Ser α} {P : α → Prop}, Utf8Safe c key st S P → KeptUtf8 c key st S P
  | _, _, _, _, _, .value h => ⟨h.kept.dflt, h.kept.json, nofun, h.kept.keeps, h.kept.safe⟩
  | _, _, _, _, _, .int hs => .value (zero_inRange hs) (fun _ h => .int hs h) (deInt_inRange hs _) (deInt_safe c _).any
  | _, _, _, _, _, .bool => .value trivial (fun v _ => .bool v) (keeps_true deBool_safe _) deBool_safe.any
  | _, _, _, _, _, .str => .ofKey .nil (fun _ h => .str h) deStr_utf8 deStr_safe.any
  | _, _, _, _, _, .float (F := F) (R := R) h1 h2 =>
      .value trivial (fun v _ => .float (h1 v) (h2 v)) (keeps_true (deFloat_safe F R) _) (deFloat_safe F R).any
  | _, _, _, _, _, @Utf8Safe.enum _ _ _ _ strict dflt L h =>
      .ofKey trivial (fun v _ => .enum v h) (keeps_true (U := True) (deEnum_safe c strict dflt L) _) (deEnum_safe c strict dflt L)
  | _, _, _, _, _, .flags (F := F) h1 h2 =>
      .value trivial (fun v _ => .flags v h1 h2) (keeps_true (deFlags_safe c F) _) (deFlags_safe c F).any
  | _, _, _, _, _, .flagsSep (F := F) h1 h2 h3 =>
      .ofKey trivial (fun v _ => .flags v h1 h2 h3) (keeps_true (deFlags_safe c F) _) (deFlags_safe c F).any
  | _, _, _, _, _, .quoted (reqQ := reqQ) h =>
      .ofKey h.kept.dflt (fun v hv => .quoted (h.kept.json v hv)) (deQuoted_keeps reqQ h.kept.safe h.kept.keeps) (deQuoted_safe h.kept.safe reqQ)
  | _, _, _, _, _, .unquoted (reqQ := reqQ) h =>
      .value h.kept.dflt (fun v hv => .unquoted (h.kept.json v hv)) (deQuoted_keeps reqQ h.kept.safe h.kept.keeps) (deQuoted_safe h.kept.safe reqQ)
  | _, _, _, _, _, .pointer (S := S) h =>
      .value (by simp [pointerSer]) (fun o ho => by
        cases o with
        | none => exact .null S
        | some v => exact .pointer (h.kept.json v (ho v rfl)))
        (dePointer_keeps h.kept.dflt h.kept.keeps) (dePointer_safe h.kept.safe)
  | _, _, _, _, _, .memberValue (dflt := d) (get := g) (set := s) (P := P) h hgs hd =>
      .value hd (fun v hv => .memberValue (h.kept.json _ hv))
        (fun t x e ht hv => .bind (h.kept.keeps (g t) x e ht hv) fun v p e' hp hv => .ok (v := s v t) hp (by rw [hgs]; exact hv))
        (memberValue_safe h.kept.safe d g s)
  | _, _, _, _, _, .array (K := K) h h0 hi =>
      .value (by simp [arraySer, seqSer, h0]) (fun vs hv => .array fun v hm => h.kept.json v (hv v hm))
        (deSeq_keeps (K := K) _ _ h.kept.dflt h.kept.keeps (by
          intro t x ht hx v hv
          rcases hi t x v hv with hv | rfl
          · exact ht v hv
          · exact hx) (by simp [h0])) (deSeq_safe h.kept.safe)
  | _, _, _, _, _, .fixed (k := k) h =>
      .value (by
        intro v hv
        simp only [fixVecSer, Vector.toList_replicate] at hv
        exact List.eq_of_mem_replicate hv ▸ h.kept.dflt)
        (fun vs hv => .fixedVec fun v hm => h.kept.json v (hv v hm))
        (deFixVec_keeps k h.kept.dflt h.kept.keeps) (deFixVec_safe k h.kept.safe)
  | _, _, _, _, _, .dict (K := K) (SK := SK) (SV := SV) h h' h0 hi =>
      .value (by simp [dictSer, seqSer, h0])
        (fun vs hv => .dict (fun x hx => h.kept.isKey rfl _ (hv x hx).1) fun x hx => h'.kept.json _ (hv x hx).2)
        (deSeq_keeps (K := K) (S := fieldSer SK SV) _ _ ⟨h.kept.dflt, h'.kept.dflt⟩ (deField_keeps h.kept.keeps h'.kept.keeps) (by
          intro t x ht hx v hv
          rcases hi t x v hv with hv | rfl
          · exact ht v hv
          · exact hx) (by simp [h0])) (deSeq_safe (S := fieldSer SK SV) (deField_safe h.kept.safe h'.kept.safe))
  | _, _, _, _, _, .object (τ := τ) (strict := strict) (dflt := dflt) (L := L) key hf hn h hd => by
      refine .value hd (fun v hv => .object fun m hm => ?_)
        (deObject_keeps c strict (dflt := dflt) (Q := fun t => ∀ m ∈ L, m.P (m.entry.ref.get t)) hd fun m hm => ?_)
        (deObject_safe (fun _ => trivial) fun m hm => ?_)
      · obtain ⟨m, hmL, rfl⟩ := List.mem_map.mp hm
        have h1 := (h m hmL).kept.json _ (hv m hmL)
        have h2 := hn m hmL
        obtain ⟨en, P⟩ := m
        cases en with
        | mem r => exact .member h2 h1
        | prop r => exact .memberP h2 h1
      · obtain ⟨m, hmL, rfl⟩ := List.mem_map.mp hm
        exact entry_keeps hf hmL (h m hmL).kept.dflt (h m hmL).kept.keeps
      · obtain ⟨m, hmL, rfl⟩ := List.mem_map.mp hm
        have := (h m hmL).kept.safe
        obtain ⟨en, P⟩ := m
        cases en with
        | mem r => exact deMember_safe this
        | prop r => exact deMemberP_safe this
  | _, _, _, _, _, .objectArray (τ := τ) (dflt := dflt) (L := L) key hf h hd => by
      refine .value hd (fun v hv => .objectArray fun m hm => ?_)
        (deObjectArray_keeps (dflt := dflt) (Q := fun t => ∀ m ∈ L, m.P (m.entry.ref.get t)) hd fun m hm => ?_)
        (deObjectArray_safe fun m hm => ?_)
      · obtain ⟨m, hmL, rfl⟩ := List.mem_map.mp hm
        have h1 := (h m hmL).kept.json _ (hv m hmL)
        obtain ⟨en, P⟩ := m
        cases en with
        | mem r => exact .member h1
        | prop r => exact .memberP h1
      · obtain ⟨m, hmL, rfl⟩ := List.mem_map.mp hm
        exact aentry_keeps hf hmL (h m hmL).kept.dflt (h m hmL).kept.keeps
      · obtain ⟨m, hmL, rfl⟩ := List.mem_map.mp hm
        have := (h m hmL).kept.safe
        obtain ⟨en, P⟩ := m
        cases en with
        | mem r => exact amember_safe this
        | prop r => exact amemberP_safe this
  | _, _, _, _, _, .objectIf (τ := τ) (strict := strict) (dflt := dflt) (L := L) key hf hn h hd => by
      refine .value hd (fun v hv => .object fun m hm => ?_)
        (deObject_keeps c strict (dflt := dflt) (Q := fun t => ∀ m ∈ L.flatMap PSlot.parts, m.P (m.entry.ref.get t)) hd fun m hm => ?_)
        (deObject_safe (fun _ => trivial) fun m hm => ?_)
      · obtain ⟨x, hx, rfl⟩ := List.mem_map.mp hm
        cases x with
        | one m =>
          have hmL := mem_parts_one hx
          have h1 := (h m hmL).kept.json _ (hv m hmL)
          have h2 := hn m hmL
          obtain ⟨en, P⟩ := m
          cases en with
          | mem r => exact .member h2 h1
          | prop r => exact .memberP h2 h1
        | alt l r d RU =>
          obtain ⟨hl, hr⟩ := mem_parts_l hx
          have h1 := (h l hl).kept.json _ (hv l hl)
          have h2 := (h r hr).kept.json _ (hv r hr)
          cases hb : d (l.entry.ref.get v) with
          | false => exact .memberL hb (hn l hl) h1
          | true => exact .memberR hb (hn r hr) h2
      · obtain ⟨x, hx, rfl⟩ := List.mem_map.mp hm
        cases x with
        | one m => exact entry_keeps hf (mem_parts_one hx) (h m (mem_parts_one hx)).kept.dflt (h m (mem_parts_one hx)).kept.keeps
        | alt l r d RU =>
          obtain ⟨hl, hr⟩ := mem_parts_l hx
          intro t s e u hs ht t' p e' u' hrd
          cases RU with
          | false =>
            exact deMemberIf_keeps (Q := fun t => ∀ m ∈ L.flatMap PSlot.parts, m.P (m.entry.ref.get t)) (a := l) (b := r) (h l hl).kept.keeps (h r hr).kept.keeps (fun t ht => ht l hl) (fun t ht => ht r hr)
              (fun t ht x hx => hf.keeps hl ht hx) (fun t ht x hx => hf.keeps hr ht hx) hs ht hrd
          | true =>
            exact deMemberIf_keeps (Q := fun t => ∀ m ∈ L.flatMap PSlot.parts, m.P (m.entry.ref.get t)) (a := r) (b := l) (h r hr).kept.keeps (h l hl).kept.keeps (fun t ht => ht r hr) (fun t ht => ht l hl)
              (fun t ht x hx => hf.keeps hr ht hx) (fun t ht x hx => hf.keeps hl ht hx) hs ht hrd
      · obtain ⟨x, hx, rfl⟩ := List.mem_map.mp hm
        cases x with
        | one m =>
          have := (h m (mem_parts_one hx)).kept.safe
          obtain ⟨en, P⟩ := m
          cases en with
          | mem r => exact deMember_safe this
          | prop r => exact deMemberP_safe this
        | alt l r d RU =>
          obtain ⟨hl, hr⟩ := mem_parts_l hx
          exact memberIf_safe (h l hl).kept.safe (h r hr).kept.safe d RU
  | _, _, _, _, _, .objectArrayIf (τ := τ) (dflt := dflt) (L := L) key hf h hd => by
      refine .value hd (fun v hv => .objectArray fun m hm => ?_)
        (deObjectArray_keeps (dflt := dflt) (Q := fun t => ∀ m ∈ L.flatMap PSlot.parts, m.P (m.entry.ref.get t)) hd fun m hm => ?_)
        (deObjectArray_safe fun m hm => ?_)
      · obtain ⟨x, hx, rfl⟩ := List.mem_map.mp hm
        cases x with
        | one m =>
          have hmL := mem_parts_one hx
          have h1 := (h m hmL).kept.json _ (hv m hmL)
          obtain ⟨en, P⟩ := m
          cases en with
          | mem r => exact .member h1
          | prop r => exact .memberP h1
        | alt l r d RU =>
          obtain ⟨hl, hr⟩ := mem_parts_l hx
          have h1 := (h l hl).kept.json _ (hv l hl)
          have h2 := (h r hr).kept.json _ (hv r hr)
          cases hb : d (l.entry.ref.get v) with
          | false => exact .memberL hb h1
          | true => exact .memberR hb h2
      · obtain ⟨x, hx, rfl⟩ := List.mem_map.mp hm
        cases x with
        | one m => exact aentry_keeps hf (mem_parts_one hx) (h m (mem_parts_one hx)).kept.dflt (h m (mem_parts_one hx)).kept.keeps
        | alt l r d RU =>
          obtain ⟨hl, hr⟩ := mem_parts_l hx
          cases RU with
          | false =>
            exact deAMemberIf_keeps (a := l) (b := r) (h l hl).kept.keeps (h r hr).kept.keeps (fun t ht => ht l hl) (fun t ht => ht r hr)
              (fun t ht x hx => hf.keeps hl ht hx) (fun t ht x hx => hf.keeps hr ht hx)
          | true =>
            exact deAMemberIf_keeps (a := r) (b := l) (h r hr).kept.keeps (h l hl).kept.keeps (fun t ht => ht r hr) (fun t ht => ht l hl)
              (fun t ht x hx => hf.keeps hr ht hx) (fun t ht x hx => hf.keeps hl ht hx)
      · obtain ⟨x, hx, rfl⟩ := List.mem_map.mp hm
        cases x with
        | one m =>
          have := (h m (mem_parts_one hx)).kept.safe
          obtain ⟨en, P⟩ := m
          cases en with
          | mem r => exact amember_safe this
          | prop r => exact amemberP_safe this
        | alt l r d RU =>
          obtain ⟨hl, hr⟩ := mem_parts_l hx
          exact amemberIf_safe (h l hl).kept.safe (h r hr).kept.safe d RU
  | _, _, _, _, _, .time hs => .ofKey (zero_inRange hs) (fun v hv => .time hs (.inl rfl) hv (.inr (Int.emod_one v))) (deTime_keeps hs 1 _)
      fun v s e => (deTime_safe c _ 1 v s e).mono (fun _ => trivial) (List.suffix_refl _) (.refl _ _)
  | _, _, _, _, _, .size hs hu => .value (zero_inRange hs) (fun v hv => .size hs (by decide) (by decide) hv (size_fits hs hu hv))
      (deSize_keeps hs 1 _) fun v s e => (deSize_safe c _ 1 v s e).mono (fun _ => trivial) (List.suffix_refl _) (.refl _ _)

/-! ### Gaps -/

theorem ws_low {b : Byte} (h : WsByte b) : b < 0x80 := by
  revert h; revert b; unfold WsByte; apply forall_byte; decide +kernel

theorem gap_ends {g : Bytes} (h : Gap g) : g = [] ∨ ((∃ b t, g = b :: t ∧ b < 0x80) ∧ ∃ t b, g = t ++ [b] ∧ b < 0x80) := by
  induction h with
  | nil => exact .inl rfl
  | @ws b t hb _ ih =>
    refine .inr ⟨⟨b, t, rfl, ws_low hb⟩, ?_⟩
    rcases ih with rfl | ⟨_, t', b', rfl, h⟩
    · exact ⟨[], b, rfl, ws_low hb⟩
    · exact ⟨b :: t', b', rfl, h⟩
  | @slash t _ _ ih =>
    refine .inr ⟨⟨_, t, rfl, by decide⟩, ?_⟩
    rcases ih with rfl | ⟨_, t', b', rfl, h⟩
    · exact ⟨[], _, rfl, by decide⟩
    · exact ⟨_ :: t', b', rfl, h⟩
  | @comment body t _ _ _ _ ih =>
    refine .inr ⟨⟨_, _, rfl, by decide⟩, ?_⟩
    rcases ih with h | ⟨_, t', b', h1, h⟩
    · cases h
    · exact ⟨c%'/' :: (body ++ t'), b', by simp [h1], h⟩

/-- Deleting a gap leaves a UTF-8 text. -/
theorem utf8_without_gap {g a r : Bytes} (hg : Gap g) (h : Utf8Text (a ++ (g ++ r))) : Utf8Text (a ++ r) := by
  rcases gap_ends hg with rfl | ⟨⟨b, t, h1, hb⟩, t', b', h2, hb'⟩
  · simpa using h
  · have h3 := utf8Text_cut hb h (a := a) (r := t ++ r) (by rw [h1]; simp)
    have h4 := utf8Text_cut hb' h (a := a ++ t') (r := r) (by rw [h2]; simp)
    exact h3.1.append (utf8Text_tail hb' h4.2)

theorem despaced_utf8 {s o : Bytes} (h : Despaced s o) : ∀ a, Utf8Text (a ++ s) → Utf8Text (a ++ o) := by
  induction h with
  | @done g hg => intro a ha; exact utf8_without_gap hg (by simpa using ha)
  | @tok g t s o hg _ _ ih =>
    intro a ha
    have := utf8_without_gap hg (a := a) (r := t ++ s) (by simpa using ha)
    simpa using ih (a ++ t) (by simpa using this)

end Wjson
