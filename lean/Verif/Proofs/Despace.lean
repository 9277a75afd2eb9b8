import Verif.Proofs.Value
import Verif.Model.Despace
import Verif.Spec.Tokens
/-
Facts about `parser::despace`.
-/
namespace Wjson
open Spec

theorem despaceTok_length_lt {s : Bytes} (h : s ≠ []) (e : EPtr) : (despaceTok s e).1.length < s.length := by
  unfold despaceTok
  split
  · exact parseString_length_lt h e
  · split
    · exact parseNumber_length_lt h e
    · split
      · exact parseBool_length_lt h e
      · split
        · exact parseNull_length_lt h e
        · cases s with
          | nil => exact absurd rfl h
          | cons b t => simp

/-- Budget adequacy and independence. -/
theorem despaceF_eq (n : Nat) : ∀ (s : Bytes) (e : EPtr), s.length < n → despaceF n s e = despace s e := by
  suffices H : ∀ k n (s : Bytes) (e : EPtr), s.length ≤ k → s.length < n → despaceF n s e = despaceF (s.length + 1) s e from
    fun s e h => H s.length n s e (Nat.le_refl _) h
  intro k
  induction k using Nat.strongRecOn with
  | ind k ih =>
    intro n s e hk hn
    cases n with
    | zero => omega
    | succ n =>
      simp only [despaceF]
      by_cases hs : s = []
      · simp [hs]
      · rw [if_neg hs, if_neg hs]
        by_cases hr : (parseSpace s e).1 = []
        · rw [if_pos hr, if_pos hr]
        · rw [if_neg hr, if_neg hr]
          have h1 := parseSpace_length s e
          have h2 := despaceTok_length_lt hr (parseSpace s e).2
          have h3 : (despaceTok (parseSpace s e).1 (parseSpace s e).2).1.length < k := by omega
          rw [ih _ h3 n _ _ (Nat.le_refl _) (by omega), ih _ h3 s.length _ _ (Nat.le_refl _) (by omega)]

theorem despace_eq (s : Bytes) (e : EPtr) :
    despace s e =
      if s = [] then .ok ([], e, [])
      else if (parseSpace s e).1 = [] then .ok ([], (parseSpace s e).2, [])
      else
        despace (despaceTok (parseSpace s e).1 (parseSpace s e).2).1 (despaceTok (parseSpace s e).1 (parseSpace s e).2).2
          >>= fun q => .ok (q.1, q.2.1,
            (if (despaceTok (parseSpace s e).1 (parseSpace s e).2).2.failed then [] else
              (parseSpace s e).1.take ((parseSpace s e).1.length -
                (despaceTok (parseSpace s e).1 (parseSpace s e).2).1.length)) ++ q.2.2) := by
  rw [despace, despaceF]
  refine ite_congr rfl (fun _ => rfl) fun hs => ?_
  refine ite_congr rfl (fun _ => rfl) fun hr => ?_
  have h1 := parseSpace_length s e
  have h2 := despaceTok_length_lt hr (parseSpace s e).2
  simp only
  rw [despaceF_eq _ _ _ (by omega)]

/-- `despace` always finishes at the end of the text, with at most one error
event, which does not depend on the error argument. -/
theorem despace_shape (s : Bytes) : ∃ ev : Option JError,
    (∀ x, ev = some x → x.code ≠ .ValidJSON ∧ 0 ≤ x.tailOf ∧ x.tailOf ≤ (s.length : Int)) ∧
    ∀ e, ∃ o, despace s e = .ok ([], applyErr e ev, o) ∧ o.length ≤ s.length := by
  induction hn : s.length using Nat.strongRecOn generalizing s with
  | ind n ih =>
    subst hn
    by_cases hs : s = []
    · subst hs
      exact ⟨none, by simp, fun e => ⟨[], by rw [despace_eq]; simp [applyErr], by simp⟩⟩
    · obtain ⟨p, ev, h1, h2⟩ := parseSpace_scan s
      by_cases hp : p = []
      · refine ⟨ev, fun x hx => ⟨(h2.err x hx).1, (h2.err x hx).2.2⟩, fun e => ⟨[], ?_, by simp⟩⟩
        rw [despace_eq, if_neg hs]
        simp only [h1, hp, if_true]
      · have hev : ev = none := by
          cases ev with
          | none => rfl
          | some x => exact absurd (h2.err x rfl).2.1 hp
        subst hev
        obtain ⟨q, ev2, h3, h4⟩ := despaceTok_scan p
        have hl := h2.suffix.length_le
        have hlt : q.length < p.length := by
          have := despaceTok_length_lt hp .null
          have h3n : despaceTok p .null = (q, applyErr .null ev2) := h3 .null
          rwa [h3n] at this
        obtain ⟨ev3, h5, h6⟩ := ih q.length (by omega) q rfl
        refine ⟨ev2.or ev3, ?_, ?_⟩
        · cases ev2 with
          | some y =>
            intro x hx
            have := h4.err x hx
            exact ⟨this.1, this.2.2.1, by omega⟩
          | none =>
            intro x hx
            have := h5 x hx
            exact ⟨this.1, this.2.1, by omega⟩
        · intro e
          obtain ⟨o, ho1, ho2⟩ := h6 (applyErr e ev2)
          have h3' : ∀ e, despaceTok p e = (q, applyErr e ev2) := h3
          have key : despace s e = .ok ([], applyErr (applyErr e ev2) ev3,
              (if (applyErr e ev2).failed then [] else p.take (p.length - q.length)) ++ o) := by
            rw [despace_eq, if_neg hs]
            have h1' : parseSpace s e = (p, e) := h1 e
            simp only [h1', hp, if_false, h3', ho1, Out.bind_ok]
          refine ⟨(if (applyErr e ev2).failed then [] else p.take (p.length - q.length)) ++ o, ?_, ?_⟩
          · rw [key]
            cases ev2 with
            | none => rfl
            | some x => rw [applyErr_applyErr _ _ (h4.err x rfl).1]; rfl
          · split
            · simp; omega
            · simp; omega

/-! ### What is written -/

theorem despaceTok_other {b : Byte} {t : Bytes} (h1 : b ≠ c%'"') (h2 : b ≠ c%'-') (h3 : ¬ Digit b) (h4 : b ≠ c%'t')
    (h5 : b ≠ c%'f') (h6 : b ≠ c%'n') : despaceTok (b :: t) = fun e => (t, e) := by
  have h3' : isDigit b = false := by
    cases hd : isDigit b with
    | false => rfl
    | true => exact absurd (isDigit_iff.mp hd) h3
  funext e
  simp [despaceTok, isString, isNumber, isBool, isNull, h1, h2, h3', h4, h5, h6]

theorem despaceTok_acc {s p : Bytes} (hs : s ≠ []) (hst : SpaceStop s) (h : Acc (despaceTok s) p) :
    ∃ t, s = t ++ p ∧ Tok t := by
  cases s with
  | nil => exact absurd rfl hs
  | cons b u =>
    by_cases h1 : b = c%'"'
    · subst h1
      have : despaceTok (c%'"' :: u) = parseString (c%'"' :: u) := by funext e; simp [despaceTok, isString]
      rw [this, parseString_acc_iff] at h
      obtain ⟨t, h2, h3⟩ := h
      exact ⟨t, h2, .str h3⟩
    · by_cases h2 : b = c%'-' ∨ Digit b
      · have : despaceTok (b :: u) = parseNumber (b :: u) := by
          have : isNumber (b :: u) = true := by
            rcases h2 with rfl | h
            · rfl
            · simp [isNumber, isDigit_iff.mpr h]
          funext e; simp [despaceTok, isString, h1, this]
        rw [this, parseNumber_acc_iff] at h
        obtain ⟨t, h2, h3, _⟩ := h
        exact ⟨t, h2, .num h3⟩
      · have hn : isNumber (b :: u) = false := by
          cases hd : isNumber (b :: u) with
          | false => rfl
          | true =>
            simp [isNumber] at hd
            rcases hd with hd | hd
            · exact absurd (.inl hd) h2
            · exact absurd (.inr (isDigit_iff.mp hd)) h2
        by_cases h3 : b = c%'t' ∨ b = c%'f'
        · have hb : isBool (b :: u) = true := by rcases h3 with rfl | rfl <;> rfl
          have : despaceTok (b :: u) = parseBool (b :: u) := by
            funext e; simp [despaceTok, isString, h1, hn, hb]
          rw [this, parseBool_acc_iff] at h
          rcases h with h | h
          · exact ⟨_, h, .true⟩
          · exact ⟨_, h, .false⟩
        · have hb : isBool (b :: u) = false := by
            simp only [not_or] at h3
            simp [isBool, h3.1, h3.2]
          by_cases h4 : b = c%'n'
          · subst h4
            have : despaceTok (c%'n' :: u) = parseNull (c%'n' :: u) := by
              funext e; simp [despaceTok, isString, hn, hb, isNull]
            rw [this, parseNull_acc_iff] at h
            exact ⟨_, h, .null⟩
          · simp only [not_or] at h2 h3
            rw [despaceTok_other h1 h2.1 h2.2 h3.1 h3.2 h4] at h
            have := acc_pure h
            subst this
            refine ⟨[b], rfl, .punct (hst b rfl).1 h2.2 ?_⟩
            simp [h1, h2.1, h3.1, h3.2, h4, (hst b rfl).2]

theorem despace_sound {s o : Bytes} {e e' : EPtr} {r : Bytes} (he : e.Clean) (h : despace s e = .ok (r, e', o))
    (hok : e'.failed = false) : e' = e ∧ Despaced s o := by
  induction hn : s.length using Nat.strongRecOn generalizing s o e' r with
  | ind n ih =>
    subst hn
    rw [despace_eq] at h
    by_cases hs : s = []
    · rw [if_pos hs] at h
      cases h
      exact ⟨rfl, hs ▸ .done .nil⟩
    · rw [if_neg hs] at h
      rcases (parseSpace_scan s).cases with ⟨p, hp, _⟩ | ⟨x, hx, hr⟩
      · obtain ⟨g, hg1, hg, hst, _⟩ := parseSpace_acc_iff.mp hp
        simp only [hp e] at h
        by_cases hp0 : p = []
        · rw [if_pos hp0] at h
          cases h
          refine ⟨rfl, ?_⟩
          rw [hg1, hp0, List.append_nil]
          exact .done hg
        · rw [if_neg hp0] at h
          obtain ⟨q, h1, h2⟩ := Out.bind_eq_ok.mp h
          rcases (despaceTok_scan p).cases with ⟨p2, hp2, _⟩ | ⟨x, hx, hr⟩
          · have hp2' : ∀ e, despaceTok p e = (p2, e) := hp2
            simp only [hp2' e, he.not_failed, Bool.false_eq_true, if_false] at h1 h2
            cases h2
            have hlt : p2.length < s.length := by
              have h3 := despaceTok_length_lt hp0 e
              have h4 := parseSpace_length s e
              rw [hp2' e] at h3
              rw [hp e] at h4
              simp only at h3 h4
              omega
            obtain ⟨h3, h4⟩ := ih _ hlt h1 hok rfl
            refine ⟨h3, ?_⟩
            obtain ⟨t, ht, htok⟩ := despaceTok_acc hp0 hst hp2'
            have htake : p.take (p.length - p2.length) = t := by
              rw [ht]; simp
            rw [htake, hg1, ht, ← List.append_assoc]
            exact .tok hg htok h4
          · exfalso
            have hr' : ∀ e, despaceTok p e = ([], applyErr e (some x)) := hr
            simp only [hr' e] at h1 h2
            rw [despace_eq, if_pos rfl] at h1
            cases h1
            cases h2
            rw [he.applyErr_failed hx] at hok
            cases hok
      · simp only [hr e, if_true] at h
        cases h
        rw [he.applyErr_failed hx] at hok
        cases hok

theorem despaced_sublist {s o : Bytes} (h : Despaced s o) : o.Sublist s := by
  induction h with
  | done => exact List.nil_sublist _
  | @tok g t s o _ _ _ ih =>
    rw [List.append_assoc]
    exact ((List.Sublist.refl t).append ih).trans (List.sublist_append_right g _)

/-! ### Accepted documents -/

/-- `despace` turns `s` into `o` without error. -/
def DAcc (s o : Bytes) : Prop := ∀ e, e.failed = false → despace s e = .ok ([], e, o)

theorem dacc_nil : DAcc [] [] := fun e _ => by rw [despace_eq, if_pos rfl]

theorem spaceLoop_gap {g : Bytes} (hg : Gap g) (s : Bytes) (hs : s.head? ≠ some c%'*') (e : EPtr) :
    spaceLoop false (g ++ s) e = spaceLoop false s e := by
  induction hg with
  | nil => rfl
  | @ws b t hb ht ih =>
    have : isWs b = true := isWs_iff.mpr hb
    rw [List.cons_append, spaceLoop, if_pos this]
    exact ih
  | @slash t hst ht ih =>
    have hnw : isWs c%'/' = false := rfl
    have hh : (t ++ s).head? ≠ some c%'*' := by
      cases t with
      | nil => simpa using hs
      | cons x y => simpa using hst
    rw [List.cons_append, spaceLoop]
    simp only [hnw, if_true, hh, if_false, Bool.false_eq_true]
    exact ih
  | @comment body t h1 h2 h3 ht ih =>
    have hnw : isWs c%'/' = false := rfl
    have hh : (body ++ (c%'/' :: t ++ s)).head? = some c%'*' := by
      cases body with
      | nil => simp at h1
      | cons x y => simpa using h1
    rw [List.cons_append, List.append_assoc, spaceLoop]
    simp only [hnw, if_true, Bool.false_eq_true, if_false]
    rw [if_pos hh, List.cons_append, spaceLoop_true_append _ _ _ h2 h3]
    exact ih

theorem dacc_gap {g s o : Bytes} (hg : Gap g) (hs : s.head? ≠ some c%'*') (h : DAcc s o) : DAcc (g ++ s) o := by
  intro e he
  have hsp : parseSpace (g ++ s) e = parseSpace s e := spaceLoop_gap hg s hs e
  have h0 := h e he
  by_cases hg0 : g = []
  · rw [hg0]; exact h0
  · rw [despace_eq, if_neg (by simp [hg0]), hsp]
    rw [despace_eq] at h0
    by_cases hs0 : s = []
    · rw [if_pos hs0] at h0
      subst hs0
      cases h0
      rfl
    · rw [if_neg hs0] at h0
      exact h0

theorem dacc_tok {t s o : Bytes} (ht : Acc (despaceTok (t ++ s)) s) (hne : t ≠ []) (hst : SpaceStop (t ++ s))
    (h : DAcc s o) : DAcc (t ++ s) (t ++ o) := by
  intro e he
  have hsp : parseSpace (t ++ s) e = (t ++ s, e) := spaceLoop_false_stop hst e
  have hte : despaceTok (t ++ s) e = (s, e) := ht e
  have hne' : t ++ s ≠ [] := by simp [hne]
  rw [despace_eq, if_neg hne', hsp]
  simp only [hte, hne', if_false, h e he, he, Bool.false_eq_true, Out.bind_ok]
  simp

theorem dacc_punct {b : Byte} {s o : Bytes} (hb : b ∈ [c%'[', c%']', c%'{', c%'}', c%',', c%':'])
    (h : DAcc s o) : DAcc (b :: s) (b :: o) := by
  have key : b ≠ c%'"' ∧ b ≠ c%'-' ∧ ¬ Digit b ∧ b ≠ c%'t' ∧ b ≠ c%'f' ∧ b ≠ c%'n' ∧ ¬ WsByte b ∧ b ≠ c%'/' := by
    revert hb; clear h; revert b; apply forall_byte; decide +kernel
  obtain ⟨h1, h2, h3, h4, h5, h6, h7, h8⟩ := key
  refine dacc_tok (t := [b]) ?_ (by simp) (.cons ⟨h7, h8⟩) h
  rw [List.singleton_append, despaceTok_other h1 h2 h3 h4 h5 h6]
  intro e; rfl

theorem dacc_string {t s o : Bytes} (ht : XString t) (h : DAcc s o) : DAcc (t ++ s) (t ++ o) := by
  have ht' := ht
  obtain ⟨u, _, rfl⟩ := ht'
  refine dacc_tok ?_ (by simp) (.cons (by decide)) h
  have : despaceTok (c%'"' :: u ++ b!"\"" ++ s) = parseString (c%'"' :: u ++ b!"\"" ++ s) := by
    funext e; simp [despaceTok, isString]
  rw [this, parseString_acc_iff]
  exact ⟨_, rfl, ht⟩

theorem dacc_number {t s o : Bytes} (ht : RNumber t) (hf : NumFollow t s) (h : DAcc s o) : DAcc (t ++ s) (t ++ o) := by
  obtain ⟨b, u, he, hb⟩ := rnumber_head ht
  subst he
  have hb' : b ≠ c%'"' ∧ ¬ WsByte b ∧ b ≠ c%'/' := by
    revert hb; clear h hf ht; revert b; apply forall_byte; decide +kernel
  refine dacc_tok ?_ (by simp) (.cons hb'.2) h
  have hn : isNumber (b :: u ++ s) = true := by
    rcases hb with rfl | h
    · rfl
    · simp [isNumber, isDigit_iff.mpr h]
  have : despaceTok (b :: u ++ s) = parseNumber (b :: u ++ s) := by
    funext e
    simp only [despaceTok, isString, List.cons_append, List.head?_cons] at *
    simp [hb'.1, hn]
  rw [this, parseNumber_acc_iff]
  exact ⟨_, rfl, ht, hf⟩

theorem dacc_lit {t s o : Bytes} (ht : t = b!"null" ∨ t = b!"true" ∨ t = b!"false") (h : DAcc s o) :
    DAcc (t ++ s) (t ++ o) := by
  rcases ht with rfl | rfl | rfl
  · refine dacc_tok ?_ (by simp) (.cons (by decide)) h
    have : despaceTok (b!"null" ++ s) = parseNull (b!"null" ++ s) := by
      funext e; simp [despaceTok, isString, isNumber, isBool, isNull, isDigit]
    rw [this, parseNull_acc_iff]
  · refine dacc_tok ?_ (by simp) (.cons (by decide)) h
    have : despaceTok (b!"true" ++ s) = parseBool (b!"true" ++ s) := by
      funext e; simp [despaceTok, isString, isNumber, isBool, isDigit]
    rw [this, parseBool_acc_iff]; exact .inl rfl
  · refine dacc_tok ?_ (by simp) (.cons (by decide)) h
    have : despaceTok (b!"false" ++ s) = parseBool (b!"false" ++ s) := by
      funext e; simp [despaceTok, isString, isNumber, isBool, isDigit]
    rw [this, parseBool_acc_iff]; exact .inr rfl

/-- `despace` copies `t` as `o`, whatever follows (as long as it is not `*` and
does not continue a number). -/
def Eats (t o : Bytes) : Prop :=
  ∀ s o', Delim s → s.head? ≠ some c%'*' → DAcc s o' → DAcc (t ++ s) (o ++ o')

theorem Eats.gap_right {t o g : Bytes} (h : Eats t o) (hg : Gap g) : Eats (t ++ g) o := by
  intro s o' hd hs ha
  rw [List.append_assoc]
  refine h _ _ (gap_delim hg hd) ?_ (dacc_gap hg hs ha)
  cases g with
  | nil => exact hs
  | cons x g => simpa using gap_head_star hg

/-- Copied whatever follows. -/
def Eats' (t o : Bytes) : Prop := ∀ s o', s.head? ≠ some c%'*' → DAcc s o' → DAcc (t ++ s) (o ++ o')

theorem Eats'.eats {t o : Bytes} (h : Eats' t o) : Eats t o := fun s o' _ hs ha => h s o' hs ha

theorem eats_gap {g : Bytes} (hg : Gap g) : Eats' g [] := fun _ _ hs ha => dacc_gap hg hs ha

theorem eats_punct {b : Byte} (hb : b ∈ [c%'[', c%']', c%'{', c%'}', c%',', c%':']) : Eats' [b] [b] :=
  fun _ _ _ ha => dacc_punct hb ha

theorem eats_string {t : Bytes} (h : XString t) : Eats' t t := fun _ _ _ ha => dacc_string h ha

theorem eats_number {t : Bytes} (h : RNumber t) : Eats t t := fun _ _ hd _ ha => dacc_number h (hd.numFollow _) ha

theorem eats_lit {t : Bytes} (h : t = b!"null" ∨ t = b!"true" ∨ t = b!"false") : Eats' t t :=
  fun _ _ _ ha => dacc_lit h ha

/-- Sequencing where the second part starts with a delimiter (or is a gap followed by one). -/
theorem Eats.seq {t o t2 o2 : Bytes} (h : Eats t o) (h2 : Eats t2 o2) (hd : ∀ s, Delim s → Delim (t2 ++ s))
    (hs : ∀ s : Bytes, s.head? ≠ some c%'*' → (t2 ++ s).head? ≠ some c%'*') : Eats (t ++ t2) (o ++ o2) := by
  intro s o' hds hss ha
  rw [List.append_assoc, List.append_assoc]
  exact h _ _ (hd s hds) (hs s hss) (h2 _ _ hds hss ha)

theorem Eats.seqp {t o t2 o2 : Bytes} (h : Eats t o) (h2 : Eats' t2 o2) (hd : ∀ s, Delim (t2 ++ s))
    (hs : ∀ s : Bytes, (t2 ++ s).head? ≠ some c%'*') : Eats' (t ++ t2) (o ++ o2) := by
  intro s o' hss ha
  rw [List.append_assoc, List.append_assoc]
  exact h _ _ (hd s) (hs s) (h2 _ _ hss ha)

theorem Eats'.seq {t o t2 o2 : Bytes} (h : Eats' t o) (h2 : Eats t2 o2)
    (hs : ∀ s : Bytes, s.head? ≠ some c%'*' → (t2 ++ s).head? ≠ some c%'*') : Eats (t ++ t2) (o ++ o2) := by
  intro s o' hds hss ha
  rw [List.append_assoc, List.append_assoc]
  exact h _ _ (hs s hss) (h2 _ _ hds hss ha)

theorem Eats'.seq' {t o t2 o2 : Bytes} (h : Eats' t o) (h2 : Eats' t2 o2)
    (hs : ∀ s : Bytes, s.head? ≠ some c%'*' → (t2 ++ s).head? ≠ some c%'*') : Eats' (t ++ t2) (o ++ o2) := by
  intro s o' hss ha
  rw [List.append_assoc, List.append_assoc]
  exact h _ _ (hs s hss) (h2 _ _ hss ha)

/-- A text whose first byte (if any) is not a star. -/
theorem head_ok {t : Bytes} (h : t.head? ≠ some c%'*') (s : Bytes) (hs : s.head? ≠ some c%'*') :
    (t ++ s).head? ≠ some c%'*' := by
  cases t with
  | nil => exact hs
  | cons x y => simpa using h

theorem xvalue_head_star {t : Bytes} (h : XValue t) : t.head? ≠ some c%'*' := by
  obtain ⟨b, u, rfl, hb⟩ := xvalue_head h
  have := (valueStart_stop hb).2.1
  simpa using this

theorem xstring_head_star {t : Bytes} (h : XString t) : t.head? ≠ some c%'*' := by
  obtain ⟨u, _, rfl⟩ := h
  simp

theorem CG.x {k : Kind} {t : Bytes} (h : CG k t) : XG k t := by
  induction h with
  | null => exact .null
  | true => exact .true
  | false => exact .false
  | num h => exact .num h
  | str h => exact .str h
  | arr0 => exact .arr0 .nil
  | arr _ ih => exact .arr ih
  | obj0 => exact .obj0 .nil
  | objBracket => exact .objBracket .nil
  | obj _ ih => exact .obj ih
  | elem _ ih => simpa using XG.elem .nil ih .nil
  | elemTrail _ ih => simpa using XG.elemTrail .nil ih .nil .nil
  | elemMore _ _ ih ih2 => simpa using XG.elemMore .nil ih .nil ih2
  | memb hk _ ih => simpa using XG.memb .nil hk .nil .nil ih .nil
  | membTrail hk _ ih => simpa using XG.membTrail .nil hk .nil .nil ih .nil .nil
  | membMore hk _ _ ih ih2 => simpa using XG.membMore .nil hk .nil .nil ih .nil ih2

private theorem dlm {b : Byte} (hb : b ∈ [c%'[', c%']', c%'{', c%'}', c%',', c%':']) (t s : Bytes) :
    Delim (b :: t ++ s) :=
  Delim.of_head rfl (by revert hb; revert b; apply forall_byte; decide +kernel)

private theorem hst {b : Byte} (hb : b ∈ [c%'[', c%']', c%'{', c%'}', c%',', c%':']) (t s : Bytes) :
    (b :: t ++ s).head? ≠ some c%'*' := by
  have : b ≠ c%'*' := by revert hb; revert b; apply forall_byte; decide +kernel
  simpa using this

/-- Head of a text of any category is not a star. -/
theorem xg_head_star {k : Kind} {t : Bytes} (h : XG k t) : t.head? ≠ some c%'*' := by
  cases k with
  | value => exact xvalue_head_star h
  | elems =>
    obtain ⟨g, b, u, rfl, hg, hb⟩ := elems_head h
    have := (valueStart_stop hb).2.1
    cases g with
    | nil => simpa using this
    | cons x g => simpa using gap_head_star hg
  | members =>
    obtain ⟨g, u, rfl, hg⟩ := members_head h
    cases g with
    | nil => simp
    | cons x g => simpa using gap_head_star hg

theorem eats_xg {k : Kind} {t : Bytes} (h : XG k t) : ∃ o, CG k o ∧ Eats t o := by
  induction h with
  | null => exact ⟨_, .null, (eats_lit (by simp)).eats⟩
  | true => exact ⟨_, .true, (eats_lit (by simp)).eats⟩
  | false => exact ⟨_, .false, (eats_lit (by simp)).eats⟩
  | num h => exact ⟨_, .num h, eats_number h⟩
  | str h => exact ⟨_, .str h, (eats_string h).eats⟩
  | @arr0 g hg =>
    refine ⟨_, .arr0, Eats'.eats ?_⟩
    have := (eats_punct (b := c%'[') (by simp)).seq' ((eats_gap hg).seq' (eats_punct (b := c%']') (by simp))
      (fun s _ => hst (by simp) [] s)) (head_ok (by cases g with
        | nil => simp
        | cons x g => simpa using gap_head_star hg))
    simpa using this
  | @arr t ht ih =>
    obtain ⟨o, h1, h2⟩ := ih
    refine ⟨_, .arr h1, Eats'.eats ?_⟩
    have := (eats_punct (b := c%'[') (by simp)).seq' (h2.seqp (eats_punct (b := c%']') (by simp))
      (fun s => dlm (by simp) [] s) (fun s => hst (by simp) [] s)) (head_ok (by
        have := xg_head_star ht
        cases t with
        | nil => simp
        | cons x t => simpa using this))
    simpa using this
  | @obj0 g hg =>
    refine ⟨_, .obj0, Eats'.eats ?_⟩
    have := (eats_punct (b := c%'{') (by simp)).seq' ((eats_gap hg).seq' (eats_punct (b := c%'}') (by simp))
      (fun s _ => hst (by simp) [] s)) (head_ok (by cases g with
        | nil => simp
        | cons x g => simpa using gap_head_star hg))
    simpa using this
  | @objBracket g hg =>
    refine ⟨_, .objBracket, Eats'.eats ?_⟩
    have := (eats_punct (b := c%'{') (by simp)).seq' ((eats_gap hg).seq' (eats_punct (b := c%']') (by simp))
      (fun s _ => hst (by simp) [] s)) (head_ok (by cases g with
        | nil => simp
        | cons x g => simpa using gap_head_star hg))
    simpa using this
  | @obj t ht ih =>
    obtain ⟨o, h1, h2⟩ := ih
    refine ⟨_, .obj h1, Eats'.eats ?_⟩
    have := (eats_punct (b := c%'{') (by simp)).seq' (h2.seqp (eats_punct (b := c%'}') (by simp))
      (fun s => dlm (by simp) [] s) (fun s => hst (by simp) [] s)) (head_ok (by
        have := xg_head_star ht
        cases t with
        | nil => simp
        | cons x t => simpa using this))
    simpa using this
  | @elem g1 v g2 hg1 hv hg2 ih =>
    obtain ⟨o, h1, h2⟩ := ih
    refine ⟨_, .elem h1, ?_⟩
    have := (eats_gap hg1).seq (h2.gap_right hg2) (head_ok (xg_head_star (by
      have := XG.elem .nil hv hg2; simpa using this : XG .elems (v ++ g2))))
    simpa using this
  | @elemTrail g1 v g2 g3 hg1 hv hg2 hg3 ih =>
    obtain ⟨o, h1, h2⟩ := ih
    refine ⟨_, .elemTrail h1, Eats'.eats ?_⟩
    have h3 : Eats' (c%',' :: g3) [c%','] := by
      have := (eats_punct (b := c%',') (by simp)).seq' (eats_gap hg3) (head_ok (gap_head_star hg3))
      simpa using this
    have := (eats_gap hg1).seq' ((h2.gap_right hg2).seqp h3 (fun s => dlm (by simp) g3 s) (fun s => hst (by simp) g3 s))
      (head_ok (xg_head_star (by
        have := XG.elemTrail .nil hv hg2 hg3; simpa using this : XG .elems (v ++ g2 ++ c%',' :: g3))))
    simpa using this
  | @elemMore g1 v g2 r hg1 hv hg2 hr ih ihr =>
    obtain ⟨o, h1, h2⟩ := ih
    obtain ⟨o2, h3, h4⟩ := ihr
    refine ⟨_, .elemMore h1 h3, ?_⟩
    have h5 : Eats (c%',' :: r) (c%',' :: o2) := (eats_punct (b := c%',') (by simp)).seq h4 (head_ok (xg_head_star hr))
    have := (eats_gap hg1).seq ((h2.gap_right hg2).seq h5 (fun s _ => dlm (by simp) r s) (fun s _ => hst (by simp) r s))
      (head_ok (xg_head_star (by
        have := XG.elemMore .nil hv hg2 hr; simpa using this : XG .elems (v ++ g2 ++ c%',' :: r))))
    simpa using this
  | @memb g0 k g1 g2 v g3 hg0 hk hg1 hg2 hv hg3 ih =>
    obtain ⟨o, h1, h2⟩ := ih
    refine ⟨_, .memb hk h1, ?_⟩
    have h3 : Eats (c%':' :: (g2 ++ (v ++ g3))) (c%':' :: o) := by
      have := (eats_punct (b := c%':') (by simp)).seq ((eats_gap hg2).seq (h2.gap_right hg3)
        (head_ok (xg_head_star (by have := XG.elem .nil hv hg3; simpa using this : XG .elems (v ++ g3)))))
        (head_ok (xg_head_star (by have := XG.elem hg2 hv hg3; simpa using this : XG .elems (g2 ++ (v ++ g3)))))
      simpa using this
    have h4 := ((eats_string hk).seq' (eats_gap hg1) (head_ok (gap_head_star hg1))).seq h3
      (fun s _ => hst (by simp) _ s)
    have := (eats_gap hg0).seq h4 (head_ok (xg_head_star (by
      have := XG.memb .nil hk hg1 hg2 hv hg3; simpa using this : XG .members (k ++ g1 ++ c%':' :: (g2 ++ (v ++ g3))))))
    simpa using this
  | @membTrail g0 k g1 g2 v g3 g4 hg0 hk hg1 hg2 hv hg3 hg4 ih =>
    obtain ⟨o, h1, h2⟩ := ih
    refine ⟨_, .membTrail hk h1, ?_⟩
    have h5 : Eats' (c%',' :: g4) [c%','] := by
      have := (eats_punct (b := c%',') (by simp)).seq' (eats_gap hg4) (head_ok (gap_head_star hg4))
      simpa using this
    have h6 : Eats' (v ++ g3 ++ c%',' :: g4) (o ++ b!",") :=
      (h2.gap_right hg3).seqp h5 (fun s => dlm (by simp) g4 s) (fun s => hst (by simp) g4 s)
    have h3 : Eats' (c%':' :: (g2 ++ (v ++ g3 ++ c%',' :: g4))) (c%':' :: (o ++ b!",")) := by
      have := (eats_punct (b := c%':') (by simp)).seq' ((eats_gap hg2).seq' h6
        (head_ok (xg_head_star (by have := XG.elemTrail .nil hv hg3 hg4; simpa using this : XG .elems (v ++ g3 ++ c%',' :: g4)))))
        (head_ok (xg_head_star (by have := XG.elemTrail hg2 hv hg3 hg4; simpa using this : XG .elems (g2 ++ (v ++ g3 ++ c%',' :: g4)))))
      simpa using this
    have h4 := ((eats_string hk).seq' (eats_gap hg1) (head_ok (gap_head_star hg1))).seq' h3
      (fun s _ => hst (by simp) _ s)
    have := (eats_gap hg0).seq' h4 (head_ok (xg_head_star (by
      have := XG.membTrail .nil hk hg1 hg2 hv hg3 hg4; simpa using this :
        XG .members (k ++ g1 ++ c%':' :: (g2 ++ (v ++ g3 ++ c%',' :: g4))))))
    simpa using this.eats
  | @membMore g0 k g1 g2 v g3 r hg0 hk hg1 hg2 hv hg3 hr ih ihr =>
    obtain ⟨o, h1, h2⟩ := ih
    obtain ⟨o2, h7, h8⟩ := ihr
    refine ⟨_, .membMore hk h1 h7, ?_⟩
    have h5 : Eats (c%',' :: r) (c%',' :: o2) := (eats_punct (b := c%',') (by simp)).seq h8 (head_ok (xg_head_star hr))
    have h6 : Eats (v ++ g3 ++ c%',' :: r) (o ++ c%',' :: o2) :=
      (h2.gap_right hg3).seq h5 (fun s _ => dlm (by simp) r s) (fun s _ => hst (by simp) r s)
    have hvs : (v ++ g3 ++ c%',' :: r).head? ≠ some c%'*' := by
      rw [List.append_assoc]
      obtain ⟨b, u, rfl, hb⟩ := xvalue_head hv
      have := (valueStart_stop hb).2.1
      simpa using this
    have h3 : Eats (c%':' :: (g2 ++ (v ++ g3 ++ c%',' :: r))) (c%':' :: (o ++ c%',' :: o2)) := by
      have := (eats_punct (b := c%':') (by simp)).seq ((eats_gap hg2).seq h6 (head_ok hvs))
        (head_ok (by
          cases g2 with
          | nil => exact hvs
          | cons x g => simpa using gap_head_star hg2))
      simpa using this
    have h4 := ((eats_string hk).seq' (eats_gap hg1) (head_ok (gap_head_star hg1))).seq h3
      (fun s _ => hst (by simp) _ s)
    have := (eats_gap hg0).seq h4 (head_ok (xg_head_star (by
      have := XG.membMore .nil hk hg1 hg2 hv hg3 hr; simpa using this :
        XG .members (k ++ g1 ++ c%':' :: (g2 ++ (v ++ g3 ++ c%',' :: r))))))
    simpa using this

theorem eats_cg {k : Kind} {t : Bytes} (h : CG k t) : Eats t t := by
  induction h with
  | null => exact (eats_lit (by simp)).eats
  | true => exact (eats_lit (by simp)).eats
  | false => exact (eats_lit (by simp)).eats
  | num h => exact eats_number h
  | str h => exact (eats_string h).eats
  | arr0 =>
    exact ((eats_punct (b := c%'[') (by simp)).seq' (eats_punct (b := c%']') (by simp))
      (fun s _ => hst (by simp) [] s)).eats
  | @arr t ht ih =>
    have := (eats_punct (b := c%'[') (by simp)).seq' (ih.seqp (eats_punct (b := c%']') (by simp))
      (fun s => dlm (by simp) [] s) (fun s => hst (by simp) [] s)) (head_ok (by
        have := xg_head_star (CG.x ht)
        cases t with
        | nil => simp
        | cons x t => simpa using this))
    simpa using this.eats
  | obj0 =>
    exact ((eats_punct (b := c%'{') (by simp)).seq' (eats_punct (b := c%'}') (by simp))
      (fun s _ => hst (by simp) [] s)).eats
  | objBracket =>
    exact ((eats_punct (b := c%'{') (by simp)).seq' (eats_punct (b := c%']') (by simp))
      (fun s _ => hst (by simp) [] s)).eats
  | @obj t ht ih =>
    have := (eats_punct (b := c%'{') (by simp)).seq' (ih.seqp (eats_punct (b := c%'}') (by simp))
      (fun s => dlm (by simp) [] s) (fun s => hst (by simp) [] s)) (head_ok (by
        have := xg_head_star (CG.x ht)
        cases t with
        | nil => simp
        | cons x t => simpa using this))
    simpa using this.eats
  | elem _ ih => exact ih
  | elemTrail _ ih =>
    exact (ih.seqp (eats_punct (b := c%',') (by simp)) (fun s => dlm (by simp) [] s) (fun s => hst (by simp) [] s)).eats
  | @elemMore v r _ hr ih ih2 =>
    have h5 : Eats (c%',' :: r) (c%',' :: r) :=
      (eats_punct (b := c%',') (by simp)).seq ih2 (head_ok (xg_head_star (CG.x hr)))
    exact ih.seq h5 (fun s _ => dlm (by simp) r s) (fun s _ => hst (by simp) r s)
  | @memb k v hk hv ih =>
    have h5 : Eats (c%':' :: v) (c%':' :: v) :=
      (eats_punct (b := c%':') (by simp)).seq ih (head_ok (xg_head_star (CG.x hv)))
    exact (eats_string hk).seq h5 (fun s _ => hst (by simp) v s)
  | @membTrail k v hk hv ih =>
    have h6 : Eats' (v ++ b!",") (v ++ b!",") :=
      ih.seqp (eats_punct (b := c%',') (by simp)) (fun s => dlm (by simp) [] s) (fun s => hst (by simp) [] s)
    have h5 : Eats' (c%':' :: (v ++ b!",")) (c%':' :: (v ++ b!",")) :=
      (eats_punct (b := c%':') (by simp)).seq' h6 (head_ok (xg_head_star (CG.x (.elemTrail hv))))
    exact ((eats_string hk).seq' h5 (fun s _ => hst (by simp) _ s)).eats
  | @membMore k v r hk hv hr ih ih2 =>
    have h5 : Eats (c%',' :: r) (c%',' :: r) :=
      (eats_punct (b := c%',') (by simp)).seq ih2 (head_ok (xg_head_star (CG.x hr)))
    have h6 : Eats (v ++ c%',' :: r) (v ++ c%',' :: r) :=
      ih.seq h5 (fun s _ => dlm (by simp) r s) (fun s _ => hst (by simp) r s)
    have hvs : (v ++ c%',' :: r).head? ≠ some c%'*' := by
      obtain ⟨b, u, rfl, hb⟩ := xvalue_head (CG.x hv)
      have := (valueStart_stop hb).2.1
      simpa using this
    have h7 : Eats (c%':' :: (v ++ c%',' :: r)) (c%':' :: (v ++ c%',' :: r)) :=
      (eats_punct (b := c%':') (by simp)).seq h6 (head_ok hvs)
    exact (eats_string hk).seq h7 (fun s _ => hst (by simp) _ s)

theorem Eats.dacc {t o : Bytes} (h : Eats t o) : DAcc t o := by
  have := h [] [] (by intro b hb; simp at hb) (by simp) dacc_nil
  simpa using this

/-! ### Blank text -/

theorem blank_head {t : Bytes} (h : Blank t) : t.head? ≠ some c%'*' := by
  cases h with
  | nil => simp
  | @ws b t hb _ =>
    intro hh; simp at hh; subst hh; revert hb; decide
  | comment => simp

theorem blank_gap {t : Bytes} (h : Blank t) : Gap t := by
  induction h with
  | nil => exact .nil
  | ws hb _ ih => exact .ws hb ih
  | @comment body t h1 h2 ht ih =>
    have hg : Gap (c%'/' :: t) := .slash (blank_head ht) ih
    have : b!"/*" ++ body ++ b!"*/" ++ t = c%'/' :: ((c%'*' :: body ++ b!"*") ++ c%'/' :: t) := by simp
    rw [this]
    refine .comment (by simp) (by rw [List.getLast?_append]; simp) ?_ hg
    intro hi
    rw [List.cons_append] at hi
    rcases List.infix_cons_iff.mp hi with hp | hi
    · cases body with
      | nil => simp [List.cons_prefix_cons] at hp
      | cons x b =>
        simp [List.cons_prefix_cons] at hp
        exact h1 (by simp [hp])
    · obtain ⟨u, v, huv⟩ := hi
      rcases List.eq_nil_or_concat v with rfl | ⟨v', x, rfl⟩
      · have := congrArg List.getLast? huv
        simp at this
      · rw [List.concat_eq_append, ← List.append_assoc] at huv
        have := List.append_inj' huv rfl
        exact h2 ⟨u, v', this.1⟩

end Wjson
