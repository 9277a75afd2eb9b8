import Verif.Proofs.Api
/-
Properties C01-C14 and C47: the validating parser, `despace`, error texts.
Specifications: Verif/Spec/Grammar.lean, Verif/Spec/Tokens.lean.
`EPtr.fresh` is a pointer to a new `json_error`, `e.Clean` a pointer to any
`json_error` without error, `.null` the null pointer; `e.failed` is `e && *e`.
A returned iterator is represented by the text that remains after it, so the
result `[]` is `end`.
-/
namespace Wjson
open Spec

/-! ### C01 -/

/-- C01. What the validator accepts is one value of the dialect `XValue`. -/
theorem C01_accepted_text_is_json {c : Cfg} {s p : Bytes} {e e' : EPtr} (he : e.Clean)
    (h : parse c s e = .ok (p, e')) (hok : e'.failed = false) : ∃ t, s = t ++ p ∧ XValue t := by
  obtain ⟨t, h1, h2, _⟩ := parse_accept_iff.mp (parse_of_ok he h hok)
  exact ⟨t, h1, h2⟩

/-- C01, exact form: acceptance, position and dialect are equivalent. -/
theorem C01_accepted_iff {c : Cfg} {s p : Bytes} {e : EPtr} (he : e.Clean) :
    parse c s e = .ok (p, e) ↔ ∃ t, s = t ++ p ∧ XValue t ∧ (RNumber t → NumFollow t p) := by
  constructor
  · intro h
    exact parse_accept_iff.mp (parse_of_ok he h he.not_failed)
  · intro h
    exact parse_accept_iff.mpr h e

example : parse .strict b!"[1, /* x */ {\"a\" : null,},] tail" .fresh = .ok (b!" tail", .fresh) := by decide +kernel
/-- Nothing outside the dialect slips through. -/
example : ¬ ∃ e', parse .nul b!"[1 2]" .fresh = .ok ([], e') ∧ e'.failed = false := by
  rintro ⟨e', h, h2⟩
  have : parse .nul b!"[1 2]" .fresh
      = .ok ([], .obj ⟨.ExpectedOf, some b!"]", 2⟩) := by decide +kernel
  rw [this] at h
  cases h
  revert h2; decide

/-! ### C02 -/

/-- C02. Every RFC 8259 value is accepted and consumed exactly. -/
theorem C02_rfc_value_accepted (c : Cfg) {v rest : Bytes} (e : EPtr) (hv : RValue v)
    (hf : RNumber v → NumFollow v rest) : parse c (v ++ rest) e = .ok (rest, e) :=
  parse_accept_iff.mpr ⟨v, rfl, RG.x hv, hf⟩ e

/-- C02, when the continuation starts with no digit, dot, `e` or `E`. -/
theorem C02_rfc_value_accepted_delim (c : Cfg) {v rest : Bytes} (e : EPtr) (hv : RValue v) (hd : Delim rest) :
    parse c (v ++ rest) e = .ok (rest, e) :=
  C02_rfc_value_accepted c e hv fun _ => hd.numFollow _

/-- C02 for a whole JSON text: white space, value, white space; the leading
white space is skipped with `parse_space` as every caller in the library does. -/
theorem C02_rfc_text_accepted (c : Cfg) {w1 v w2 : Bytes} (e : EPtr) (h1 : Ws w1) (hv : RValue v) (h2 : Ws w2) :
    parseSpace (w1 ++ v ++ w2) e = (v ++ w2, e) ∧ parse c (v ++ w2) e = .ok (w2, e) ∧ parseSpace w2 e = ([], e) := by
  have hd : Delim w2 := by
    have := gap_delim (Ws.gap h2) (m := []) (by intro b hb; simp at hb)
    rwa [List.append_nil] at this
  refine ⟨?_, C02_rfc_value_accepted_delim c e hv hd, ?_⟩
  · obtain ⟨b, u, hu, hb⟩ := xvalue_head (RG.x hv)
    have := parseSpace_gap_stop (p := v ++ w2) (Ws.gap h1) (by
      rw [hu]; exact .cons (valueStart_stop hb).1) (by
      rw [hu]; simpa using (valueStart_stop hb).2.1) e
    rw [List.append_assoc]
    exact this
  · have := parseSpace_gap_stop (p := []) (Ws.gap h2) (by intro b hb; simp at hb) (by simp) e
    rwa [List.append_nil] at this

example : RValue b!"{\"k\": [1, -2.5e+3, \"\\u00e9\"]}" := by
  have n1 : RValue b!"1" := .num ⟨[], b!"1", [], [], rfl, .inl rfl, .inr ⟨49, [], rfl, by decide, by simp⟩, .inl rfl, .inl rfl⟩
  have n2 : RValue b!"-2.5e+3" := .num ⟨b!"-", b!"2", b!".5", b!"e+3", rfl, .inr rfl,
    .inr ⟨50, [], rfl, by decide, by simp⟩, .inr ⟨b!"5", rfl, by simp, by decide⟩,
    .inr ⟨101, b!"+", b!"3", rfl, .inl rfl, by simp, by simp, by decide⟩⟩
  have s1 : RValue b!"\"\\u00e9\"" :=
    .str ⟨b!"\\u00e9", .cons (c := b!"\\u00e9") (.uni (by decide) (by decide) (by decide) (by decide)) .nil, rfl⟩
  have w0 : Ws [] := by intro b hb; simp at hb
  have w1 : Ws b!" " := by intro b hb; simp at hb; subst hb; exact .inl rfl
  have k : RString b!"\"k\"" :=
    ⟨b!"k", .cons (c := b!"k") (.ascii (by decide) (by decide) (by decide) (by decide)) .nil, rfl⟩
  have a : RValue b!"[1, -2.5e+3, \"\\u00e9\"]" :=
    .arr (t := b!"1, -2.5e+3, \"\\u00e9\"") (.elemMore (w1 := []) (v := b!"1") (w2 := []) (r := b!" -2.5e+3, \"\\u00e9\"") w0 n1 w0
      (.elemMore (w1 := b!" ") (v := b!"-2.5e+3") (w2 := []) (r := b!" \"\\u00e9\"") w1 n2 w0
        (.elem (w1 := b!" ") (w2 := []) w1 s1 w0)))
  exact .obj (t := b!"\"k\": [1, -2.5e+3, \"\\u00e9\"]")
    (.memb (w0 := []) (k := b!"\"k\"") (w1 := []) (w2 := b!" ") (w3 := []) w0 k w0 w1 a w0)

/-! ### C03 -/

/-- C03. The recursive functions of the model take a budget of nested calls.
From the linear bound `3 * length + 4` on, the budget does not matter and the
result is a proper outcome: the C++ recursion is at most that deep. (The other
parser functions are structurally recursive definitions in Lean.) -/
theorem C03_parser_terminates (c : Cfg) (s : Bytes) (e : EPtr) (n : Nat) (hn : 3 * s.length + 4 ≤ n) :
    (parseValueF c n s e = parse c s e ∧ parse c s e ≠ .fuel) ∧
    (parseMemberF c n s e = parseMember c s e ∧ parseMember c s e ≠ .fuel) ∧
    (parseObjectF c n s e = parseObject c s e ∧ parseObject c s e ≠ .fuel) ∧
    (parseArrayF c n s e = parseArray c s e ∧ parseArray c s e ≠ .fuel) :=
  ⟨⟨parseValueF_eq c s e (by omega), (parseValue_scan c s).ne_fuel e⟩,
   ⟨parseMemberF_eq c s e (by omega), (parseMember_scan c s).ne_fuel e⟩,
   ⟨parseObjectF_eq c s e (by omega), (parseObject_scan c s).ne_fuel e⟩,
   ⟨parseArrayF_eq c s e (by omega), (parseArray_scan c s).ne_fuel e⟩⟩

/-- C03 for `despace`: at most `length + 1` iterations, and it never has
undefined behaviour. -/
theorem C03_despace_terminates (s : Bytes) (e : EPtr) (n : Nat) (hn : s.length + 1 ≤ n) :
    despaceF n s e = despace s e ∧ ∃ r, despace s e = .ok r := by
  obtain ⟨ev, _, h⟩ := despace_shape s
  obtain ⟨o, ho, _⟩ := h e
  exact ⟨despaceF_eq n s e (by omega), _, ho⟩

/-- With a smaller budget the model does run out: the bound is not idle. -/
example : parseValueF .strict 3 b!"[[[1]]]" .null = .fuel := by decide +kernel

/-! ### C04, C05, C06, C07 -/

/-- C04. A call that records an error returns `end`. -/
theorem C04_error_returns_end {c : Cfg} {f} (hf : f ∈ parserFns c) {s p : Bytes} {e e' : EPtr} (he : e.Clean)
    (h : f s e = .ok (p, e')) (herr : e'.failed = true) : p = [] := by
  rcases parserFns_uniform hf s with ⟨q, ev, h1, h2⟩ | h1
  · rw [h1] at h
    cases h
    cases ev with
    | none => rw [applyErr, he.not_failed] at herr; cases herr
    | some x => exact (h2.err x rfl).2.1
  · rw [h1] at h; cases h

/-- C04, other direction: a returned iterator other than `end` means that this
call recorded nothing, whatever the state of `e` before. -/
theorem C04_not_end_no_error {c : Cfg} {f} (hf : f ∈ parserFns c) {s p : Bytes} {e e' : EPtr}
    (h : f s e = .ok (p, e')) (hp : p ≠ []) : e' = e := by
  rcases parserFns_uniform hf s with ⟨q, ev, h1, h2⟩ | h1
  · rw [h1] at h
    cases h
    cases ev with
    | none => rfl
    | some x => exact absurd (h2.err x rfl).2.1 hp
  · rw [h1] at h; cases h

/-- C05. The first error is kept. -/
theorem C05_first_error_kept {c : Cfg} {f} (hf : f ∈ parserFns c) {s p : Bytes} {e e' : EPtr}
    (he : e.failed = true) (h : f s e = .ok (p, e')) : e' = e := by
  rcases parserFns_uniform hf s with ⟨q, ev, h1, h2⟩ | h1
  · rw [h1] at h
    cases h
    exact applyErr_of_failed he ev
  · rw [h1] at h; cases h

/-- C06. The position does not depend on the error argument (null, clean or
already failed). -/
theorem C06_position_independent_of_error_arg {c : Cfg} {f} (hf : f ∈ parserFns c) (s : Bytes) (e1 e2 : EPtr) :
    (f s e1 >>= fun r => Out.ok r.1) = (f s e2 >>= fun r => Out.ok r.1) := by
  rcases parserFns_uniform hf s with ⟨q, ev, h1, h2⟩ | h1
  · rw [h1, h1]; rfl
  · rw [h1, h1]

/-- C06: a null pointer stays null, an object stays an object. -/
theorem C06_null_stays_null {c : Cfg} {f} (hf : f ∈ parserFns c) {s p : Bytes} {e' : EPtr}
    (h : f s .null = .ok (p, e')) : e' = .null := by
  rcases parserFns_uniform hf s with ⟨q, ev, h1, h2⟩ | h1
  · rw [h1] at h
    cases h
    cases ev <;> rfl
  · rw [h1] at h; cases h

/-- C07. The returned iterator lies in `[beg,end]`: what remains is a suffix. -/
theorem C07_iterator_in_range {c : Cfg} {f} (hf : f ∈ parserFns c) {s p : Bytes} {e e' : EPtr}
    (h : f s e = .ok (p, e')) : ∃ t, s = t ++ p := by
  rcases parserFns_uniform hf s with ⟨q, ev, h1, h2⟩ | h1
  · rw [h1] at h
    cases h
    obtain ⟨t, ht⟩ := h2.suffix
    exact ⟨t, ht.symm⟩
  · rw [h1] at h; cases h

/-- C07. A successful value parse advances by at least one byte. -/
theorem C07_progress {c : Cfg} {s p : Bytes} {e e' : EPtr} (he : e.Clean) (h : parse c s e = .ok (p, e'))
    (hok : e'.failed = false) : p.length < s.length := by
  obtain ⟨t, h1, h2⟩ := C01_accepted_text_is_json he h hok
  obtain ⟨b, u, rfl, _⟩ := xvalue_head h2
  subst h1
  simp only [List.cons_append, List.length_cons, List.length_append]
  omega

/-- The hypotheses are met: an error in a nested array, a success in the middle,
a call with an error already present. -/
example : parse .nul b!"[1,[2,x]]" .fresh = .ok ([], .obj ⟨.InvalidJSON, none, 3⟩) ∧
    parse .nul b!"[1,[2]] x" .fresh = .ok (b!" x", .fresh) ∧
    parse .nul b!"[1,[2,x]]" (.obj ⟨.InvalidEnum, none, 7⟩) = .ok ([], .obj ⟨.InvalidEnum, none, 7⟩) ∧
    parse .nul b!"[1,[2,x]]" .null = .ok ([], .null) := by decide +kernel

/-! ### C08 -/

/-- C08. If the text is accepted under one assumption on the memory past `end`
(including: it must not be read), it is accepted under every other one, with
the same iterator. In particular an accepted input never causes a read of
`*end` (take `c'.past = none`, where such a read is undefined behaviour). -/
theorem C08_accept_independent_of_past {c : Cfg} {s p : Bytes} {e e' : EPtr} (he : e.Clean)
    (h : parse c s e = .ok (p, e')) (hok : e'.failed = false) (c' : Cfg) (e2 : EPtr) :
    parse c' s e2 = .ok (p, e2) :=
  parse_accept_iff.mpr (parse_accept_iff.mp (parse_of_ok he h hok)) e2

/-- C08. When `*end` is readable the behaviour is always defined. -/
theorem C08_defined_when_readable {c : Cfg} (hc : c.past ≠ none) (s : Bytes) (e : EPtr) :
    ∃ r, parse c s e = .ok r := by
  rcases parseValue_scan c s with ⟨p, ev, h, _⟩ | ⟨_, h⟩
  · exact ⟨_, h e⟩
  · exact absurd h hc

/-- C08. Verdict and iterator do not depend on the byte stored past `end`. -/
theorem C08_verdict_independent_of_past {c c' : Cfg} (hc : c.past ≠ none) (hc' : c'.past ≠ none) (s : Bytes)
    {e : EPtr} (he : e.Clean) : ∃ p e1 e2, parse c s e = .ok (p, e1) ∧ parse c' s e = .ok (p, e2) ∧
      e1.failed = e2.failed := by
  obtain ⟨⟨p, e1⟩, h1⟩ := C08_defined_when_readable hc s e
  obtain ⟨⟨q, e2⟩, h2⟩ := C08_defined_when_readable hc' s e
  have hm (c : Cfg) : parse c ∈ parserFns c := by simp [parserFns]
  cases hf1 : e1.failed with
  | false =>
    have := C08_accept_independent_of_past he h1 hf1 c' e
    exact ⟨p, e1, e, h1, this, by rw [hf1, he.not_failed]⟩
  | true =>
    cases hf2 : e2.failed with
    | false =>
      have := C08_accept_independent_of_past he h2 hf2 c e
      rw [this] at h1
      cases h1
      rw [he.not_failed] at hf1
      cases hf1
    | true =>
      have a := C04_error_returns_end (hm c) he h1 hf1
      have b := C04_error_returns_end (hm c') he h2 hf2
      exact ⟨p, e1, e2, h1, by rw [h2, a, b], by rw [hf1, hf2]⟩

/-- C08, the library's flaw: parsing `[ ` dereferences `end` (undefined under
the strict reading), and the recorded error code depends on the byte there. -/
theorem C08_reads_past_end_on_rejected_input :
    parse .strict b!"[ " .fresh = .ub ∧
    parse { past := some c%']' } b!"[ " .fresh ≠ parse .nul b!"[ " .fresh := by decide +kernel

example : parse .nul b!"[1]" .fresh = .ok ([], .fresh) := by decide +kernel

/-! ### C09 -/

/-- C09. The error recorded by a parser function has a position inside the text. -/
theorem C09_error_position_in_text {c : Cfg} {f} (hf : f ∈ parserFns c) {s p : Bytes} {x : JError}
    (h : f s .fresh = .ok (p, .obj x)) : 0 ≤ x.tailOf ∧ x.tailOf ≤ (s.length : Int) := by
  rcases parserFns_uniform hf s with ⟨q, ev, h1, h2⟩ | h1
  · rw [h1] at h
    cases ev with
    | none =>
      simp only [applyErr, Out.ok.injEq, Prod.mk.injEq] at h
      have := h.2
      unfold EPtr.fresh at this
      cases this
      simp
    | some y =>
      rw [EPtr.fresh, applyErr_clean rfl] at h
      cases h
      exact (h2.err x rfl).2.2
  · rw [h1] at h; cases h

/-- C09. `where` is the offset of the error, `trace` is the text with one marker
inserted at that offset; neither is ever undefined on such errors. -/
theorem C09_where_and_trace {s : Bytes} {x : JError} (hx : x.status = true) (h0 : 0 ≤ x.tailOf)
    (h1 : x.tailOf ≤ (s.length : Int)) :
    whereIs x s ≤ s.length ∧ (whereIs x s : Int) = s.length - x.tailOf ∧
    ∃ a b, s = a ++ b ∧ a.length = whereIs x s ∧
      trace x s = .ok (a ++ (if b = [] then b!"<<<" else b!">>>") ++ b) ∧
      messageTrace x s = .ok (message x ++ b!": " ++ (a ++ (if b = [] then b!"<<<" else b!">>>") ++ b)) := by
  have hw : (whereIs x s : Int) = s.length - x.tailOf := by
    simp only [whereIs, hx, Bool.true_eq_false, if_false]
    rw [if_neg (by omega), Int.toNat_of_nonneg (by omega)]
  have hwl : whereIs x s ≤ s.length := by omega
  refine ⟨hwl, hw, s.take (whereIs x s), s.drop (whereIs x s), (List.take_append_drop _ _).symm, ?_, ?_⟩
  · simp; omega
  · have hi : s.length - x.tailOf.toNat = whereIs x s := by omega
    have hb : (s.drop (whereIs x s) = []) ↔ ¬ (x.tailOf ≠ 0) := by
      simp only [List.drop_eq_nil_iff]
      omega
    have hm : marked x s = .ok (s.take (whereIs x s) ++ (if s.drop (whereIs x s) = [] then b!"<<<" else b!">>>") ++
        s.drop (whereIs x s)) := by
      rw [marked, tailIndex, if_pos ⟨h0, h1⟩, Out.bind_ok, hi]
      by_cases hz : x.tailOf ≠ 0
      · rw [if_pos hz, if_neg (by rw [hb]; simpa using hz)]
      · rw [if_neg hz, if_pos (hb.mpr hz)]
    simp only [trace, messageTrace, hx, Bool.true_eq_false, if_false, hm, Out.bind_ok, and_self]

/-- C09. Without an error, `where` is 0, `trace` is the text itself and
`message_trace` the message. -/
theorem C09_trace_no_error {s : Bytes} {x : JError} (hx : x.status = false) :
    whereIs x s = 0 ∧ trace x s = .ok s ∧ messageTrace x s = .ok (message x) := by
  simp [whereIs, trace, messageTrace, hx]

example : parse .nul b!"[1,[2,x]]" .fresh = .ok ([], .obj ⟨.InvalidJSON, none, 3⟩) ∧
    trace ⟨.InvalidJSON, none, 3⟩ b!"[1,[2,x]]" = .ok b!"[1,[2,>>>x]]" ∧
    whereIs ⟨.InvalidJSON, none, 3⟩ b!"[1,[2,x]]" = 6 := by decide +kernel

/-! ### C10 -/

/-- C10. `parse_number` succeeds exactly on RFC 8259 numbers that are not
followed by a byte that would have to continue them. -/
theorem C10_number_exact {s p : Bytes} {e : EPtr} (he : e.Clean) :
    (∃ e', parseNumber s e = (p, e') ∧ e'.failed = false) ↔
      ∃ t, s = t ++ p ∧ RNumber t ∧ NumFollow t p := by
  constructor
  · rintro ⟨e', h, hok⟩
    exact parseNumber_acc_iff.mp (Acc.of_clean (parseNumber_scan s) he h hok)
  · intro h
    exact ⟨e, parseNumber_acc_iff.mpr h e, he.not_failed⟩

/-- C10. The match is the longest: no RFC 8259 number at the start of the text
is longer than what `parse_number` consumed. -/
theorem C10_number_longest {s t p : Bytes} {e e' : EPtr} (he : e.Clean)
    (h : parseNumber s e = (p, e')) (hok : e'.failed = false) (hs : s = t ++ p)
    {t' p' : Bytes} (hs' : s = t' ++ p') (ht' : RNumber t') : t'.length ≤ t.length := by
  obtain ⟨u, h1, h2, h3⟩ := (C10_number_exact he).mp ⟨e', h, hok⟩
  have hu : u = t := List.append_cancel_right (h1.symm.trans hs)
  subst hu
  rcases Nat.lt_or_ge u.length t'.length with hlt | hge
  · exfalso
    have hpre : u <+: t' := by
      have a : u <+: s := ⟨p, hs.symm⟩
      have b : t' <+: s := ⟨p', hs'.symm⟩
      exact List.prefix_of_prefix_length_le a b (by omega)
    obtain ⟨r, hr⟩ := hpre
    have hrp : r ++ p' = p := by
      have : u ++ (r ++ p') = u ++ p := by rw [← List.append_assoc, hr, ← hs', hs]
      exact List.append_cancel_left this
    have hrne : r ≠ [] := by
      intro h0; rw [h0, List.append_nil] at hr; rw [hr] at hlt; omega
    have a1 : Acc (parseNumber t') r := by
      refine parseNumber_acc_iff.mpr ⟨u, hr.symm, h2, ?_⟩
      intro b hb
      refine h3 b ?_
      rw [← hrp]
      cases r with
      | nil => exact absurd rfl hrne
      | cons x y => simpa using hb
    have a2 : Acc (parseNumber t') [] :=
      parseNumber_acc_iff.mpr ⟨t', by simp, ht', by intro b hb; simp at hb⟩
    exact hrne (a1.unique a2)
  · exact hge

example : parseNumber b!"-12.50E+7,1" .fresh = (b!",1", .fresh) ∧
    (parseNumber b!"1.x" .fresh).2.failed = true ∧ (parseNumber b!"1e" .fresh).2.failed = true ∧
    parseNumber b!"01" .fresh = (b!"1", .fresh) := by decide +kernel

/-! ### C11 -/

/-- C11. `parse_string` succeeds exactly on the string tokens of the dialect. -/
theorem C11_string_exact {s p : Bytes} {e : EPtr} (he : e.Clean) :
    (∃ e', parseString s e = (p, e') ∧ e'.failed = false) ↔ ∃ t, s = t ++ p ∧ XString t := by
  constructor
  · rintro ⟨e', h, hok⟩
    exact parseString_acc_iff.mp (Acc.of_clean (parseString_scan s) he h hok)
  · intro h
    exact ⟨e, parseString_acc_iff.mpr h e, he.not_failed⟩

/-- C11. The token is unique: no other string token is a prefix of the text, so
the closing quote is the first one that is not part of an escape. -/
theorem C11_string_unique {s t t' p p' : Bytes} (h : s = t ++ p) (ht : XString t) (h' : s = t' ++ p')
    (ht' : XString t') : t = t' ∧ p = p' := by
  have hp : p = p' := (parseString_acc_iff.mpr ⟨t, h, ht⟩).unique (parseString_acc_iff.mpr ⟨t', h', ht'⟩)
  subst hp
  exact ⟨List.append_cancel_right (h.symm.trans h'), rfl⟩

/-- C11. Every RFC 8259 string is accepted, with any continuation and any error
argument. -/
theorem C11_rfc_string_accepted {t p : Bytes} (ht : RString t) (e : EPtr) : parseString (t ++ p) e = (p, e) :=
  parseString_acc_iff.mpr ⟨t, rfl, RString.x ht⟩ e

example : parseString b!"\"a\\\"\\u00E9é\" \"" .fresh = (b!" \"", .fresh) := by decide +kernel
example : (parseString b!"\"a\\q\"" .fresh).2.failed = true := by decide +kernel

/-! ### C12 -/

/-- C12. What `parse_space` skips is white space, comments and slashes that do
not open a comment (`Gap`), and it stops at the end or at a byte that is neither. -/
theorem C12_skips_only_space {s p : Bytes} {e e' : EPtr} (he : e.Clean) (h : parseSpace s e = (p, e'))
    (hok : e'.failed = false) :
    ∃ g, s = g ++ p ∧ Gap g ∧ ∀ b, p.head? = some b → ¬ WsByte b ∧ b ≠ c%'/' := by
  obtain ⟨g, h1, h2, h3, _⟩ := parseSpace_acc_iff.mp (Acc.of_clean (parseSpace_scan s) he h hok)
  exact ⟨g, h1, h2, h3⟩

/-- C12. Every sequence of white space and comments is skipped entirely, with
any error argument. -/
theorem C12_skips_blank {g p : Bytes} (hg : Blank g)
    (hp : ∀ b, p.head? = some b → ¬ WsByte b ∧ b ≠ c%'/' ∧ b ≠ c%'*') (e : EPtr) :
    parseSpace (g ++ p) e = (p, e) := by
  refine parseSpace_gap_stop (blank_gap hg) (fun b hb => ⟨(hp b hb).1, (hp b hb).2.1⟩) ?_ e
  intro hh
  exact (hp _ hh).2.2 rfl

/-- C12. A comment that is not closed is an error, and the result is `end`. -/
theorem C12_unclosed_comment {g body : Bytes} (hg : Blank g) (h1 : body.head? ≠ some c%'/')
    (h2 : ¬ b!"*/" <:+: body) (e : EPtr) :
    parseSpace (g ++ b!"/*" ++ body) e =
      ([], createError .UnexpectedEndFragment e (some b!"Unterminated comment")) := by
  rw [List.append_assoc]
  have h := spaceLoop_gap (blank_gap hg) (b!"/*" ++ body) (by simp) e
  show spaceLoop false _ e = _
  rw [h]
  have h3 : spaceLoop false (b!"/*" ++ body) e = spaceLoop true (c%'*' :: body) e := by
    simp [spaceLoop, isWs]
  rw [h3]
  refine spaceLoop_true_open ?_ e
  intro hi
  rcases List.infix_cons_iff.mp hi with hp | hi
  · cases body with
    | nil => simp [List.cons_prefix_cons] at hp
    | cons x b =>
      simp [List.cons_prefix_cons] at hp
      exact h1 (by simp [hp])
  · exact h2 hi

/-- C12, deviation: `/*/` counts as a complete comment, so a comment whose body
starts with a slash ends there. -/
theorem C12_slash_star_slash_is_complete : parseSpace b!"/*/ a */" .fresh = (b!"a */", .fresh) := by decide +kernel

/-- C12, deviation: the slash that closes a comment opens the next one if a star
follows it. -/
theorem C12_closing_slash_opens : parseSpace b!"/**/* a */1" .fresh = (b!"1", .fresh) ∧
    parseSpace b!"/**/*1" .fresh = ([], .obj ⟨.UnexpectedEndFragment, some b!"Unterminated comment", 0⟩) := by decide +kernel

example : Blank b!" /* a * / b **/\t" :=
  .ws (.inl rfl) (.comment (body := b!" a * / b *") (t := b!"\t") (by decide) (by decide +kernel) (.ws (by decide) .nil))

/-! ### C13, C14 -/

/-- C13. When `despace` reports no error it has read everything, and the output
is the input with exactly the gaps between tokens removed. -/
theorem C13_despace_only_deletes_gaps {s o r : Bytes} {e e' : EPtr} (he : e.Clean)
    (h : despace s e = .ok (r, e', o)) (hok : e'.failed = false) : r = [] ∧ Despaced s o := by
  refine ⟨?_, (despace_sound he h hok).2⟩
  obtain ⟨ev, _, h2⟩ := despace_shape s
  obtain ⟨o', h3, _⟩ := h2 e
  rw [h3] at h
  cases h
  rfl

/-- C13. Corollary: the output is a subsequence of the input, in order. -/
theorem C13_despace_subsequence {s o r : Bytes} {e e' : EPtr} (he : e.Clean)
    (h : despace s e = .ok (r, e', o)) (hok : e'.failed = false) : o.Sublist s :=
  despaced_sublist (despace_sound he h hok).2

/-- C13. The output is never longer than the input, error or not, so a buffer of
the size of the input is enough. -/
theorem C13_despace_output_bounded {s o r : Bytes} {e e' : EPtr} (h : despace s e = .ok (r, e', o)) :
    o.length ≤ s.length := by
  obtain ⟨ev, _, h2⟩ := despace_shape s
  obtain ⟨o', h3, h4⟩ := h2 e
  rw [h3] at h
  cases h
  exact h4

example : despace b!" { \"a b\" : [ 1 , /* c */ true ] }\n" .fresh = .ok ([], .fresh, b!"{\"a b\":[1,true]}") := by
  decide +kernel

/-- C14. For an accepted document surrounded by gaps, `despace` reports no
error, the output is again accepted in full, is free of white space between
tokens (`CG`) and is a fixed point of `despace`. -/
theorem C14_despace_keeps_documents {c : Cfg} {g1 v g2 : Bytes} {e : EPtr} (h1 : Gap g1) (h2 : Gap g2)
    (he : e.Clean) (hv : parse c v e = .ok ([], e)) :
    ∃ o, despace (g1 ++ v ++ g2) e = .ok ([], e, o) ∧ CG .value o ∧ parse c o e = .ok ([], e) ∧
      despace o e = .ok ([], e, o) := by
  obtain ⟨t, ht, hx, _⟩ := (C01_accepted_iff he).mp hv
  rw [List.append_nil] at ht
  subst ht
  obtain ⟨o, ho, heat⟩ := eats_xg hx
  have h3 : Eats (g1 ++ (v ++ g2)) ([] ++ o) := (eats_gap h1).seq (heat.gap_right h2) (head_ok (xg_head_star (by
      have := XG.elem .nil hx h2; simpa using this : XG .elems (v ++ g2))))
  refine ⟨o, ?_, ho, ?_, (eats_cg ho).dacc e he.not_failed⟩
  · have := h3.dacc e he.not_failed
    simpa using this
  · exact (C01_accepted_iff he).mpr ⟨o, by simp, CG.x ho, fun _ b hb => by simp at hb⟩

example : parse .strict b!"[ 1 , { \"a\" : null } ]" .fresh = .ok ([], .fresh) ∧
    despace b!"[ 1 , { \"a\" : null } ]" .fresh = .ok ([], .fresh, b!"[1,{\"a\":null}]") := by decide +kernel

/-! ### C47 -/

/-- The texts promised by the library, one per error code. -/
def Spec.codeText : Code → Bytes
  | .ValidJSON => b!"Valid JSON"
  | .InvalidJSON => b!"Invalid JSON"
  | .UnexpectedEndFragment => b!"Unexpected End of Fragment"
  | .ExpectedOf => b!"Expected Of"
  | .InvalidNull => b!"Invalid Null"
  | .InvalidNumber => b!"Invalid Number"
  | .InvalidBool => b!"Invalid Bool"
  | .InvalidString => b!"Invalid String"
  | .InvalidMember => b!"Invalid Member"
  | .InvalidEnum => b!"Invalid Enum"
  | .InvalidRequest => b!"Invalid JSON-RPC Request"

/-- C47. `what` is the text of the code, and distinct codes have distinct texts. -/
theorem C47_error_texts (e : JError) :
    what e = codeText e.code ∧ ∀ e2 : JError, what e2 = what e → e2.code = e.code := by
  have key : ∀ e : JError, what e = codeText e.code := by
    rintro ⟨c, m, t⟩
    cases c <;> rfl
  refine ⟨key e, fun e2 h => ?_⟩
  rw [key, key] at h
  rcases e with ⟨c, m, t⟩
  rcases e2 with ⟨c2, m2, t2⟩
  revert h
  cases c <;> cases c2 <;> simp [codeText]

/-- C47. `message` adds the expected token in quotes exactly when there is one. -/
theorem C47_message (e : JError) :
    (e.expectedOf = none → message e = codeText e.code) ∧
    ∀ x, e.expectedOf = some x → message e = codeText e.code ++ b!" '" ++ x ++ b!"'" := by
  constructor
  · intro h; simp [message, h, (C47_error_texts e).1]
  · intro x h; simp [message, h, (C47_error_texts e).1]

example : message ⟨.ExpectedOf, some b!"]", 0⟩ = b!"Expected Of ']'" := by decide

end Wjson
