import Verif.Proofs.Misc
/-
Properties C40 (quoted), C41 (raw values), C42 (pointers), C44
(multi_deserializer), C51 (the _json literal) and C52 (member_value).
-/
namespace Wjson
open Spec

/-! ### C41 raw values -/

/-- C41. Reading a raw value is parsing: the same position, the same error, and
the stored bytes are exactly the ones in front of that position. -/
theorem C41_captures (c : Cfg) (v0 s : Bytes) (e : EPtr) :
    (∀ p e', parse c s e = .ok (p, e') ↔ ∃ v, (rawSer c).de v0 s e = .ok (v, p, e')) ∧
    (∀ v p e', (rawSer c).de v0 s e = .ok (v, p, e') → v ++ p = s) := by
  have hr : ∀ v p e', (rawSer c).de v0 s e = .ok (v, p, e') → parse c s e = .ok (p, e') ∧ v = consumed s p := by
    intro v p e' h
    simp only [rawSer, deRaw] at h
    obtain ⟨a, h1, h2⟩ := Out.bind_eq_ok.mp h
    simp only [Out.ok.injEq, Prod.mk.injEq] at h2
    obtain ⟨rfl, rfl⟩ := h2
    exact ⟨h1, rfl⟩
  refine ⟨fun p e' => ⟨fun h => ?_, fun ⟨v, h⟩ => (hr v p e' h).1⟩, fun v p e' h => ?_⟩
  · refine ⟨consumed s p, ?_⟩
    have h : parseValue c s e = .ok (p, e') := h
    simp [rawSer, deRaw, h]
  · obtain ⟨h1, rfl⟩ := hr v p e' h
    rcases parseValue_safe c s e with ⟨h, _⟩ | ⟨p', e'', h, h2, _⟩
    · have h1 : parseValue c s e = .ok (p, e') := h1
      rw [h] at h1; cases h1
    · have h1 : parseValue c s e = .ok (p, e') := h1
      rw [h] at h1; cases h1
      exact consumed_suffix h2

/-- C41. Without an error the stored bytes are one value. -/
theorem C41_one_value (c : Cfg) {v0 s v p : Bytes} {e : EPtr} (he : e.Clean) :
    (rawSer c).de v0 s e = .ok (v, p, e) ↔ s = v ++ p ∧ XValue v ∧ (RNumber v → NumFollow v p) := by
  constructor
  · intro h
    have h1 := ((C41_captures c v0 s e).1 p e).mpr ⟨v, h⟩
    have h2 := (C41_captures c v0 s e).2 v p e h
    obtain ⟨t, h3, h4, h5⟩ := parse_accept_iff.mp (parse_of_ok he h1 he.not_failed)
    have : v = t := by
      rw [← h2] at h3
      exact List.append_cancel_right h3
    subst this
    exact ⟨h2.symm, h4, h5⟩
  · rintro ⟨rfl, h1, h2⟩
    have h : parseValue c (v ++ p) e = .ok (p, e) := parseValue_acc_iff.mpr ⟨v, rfl, h1, h2⟩ e
    simp [rawSer, deRaw, h, consumed_append]

/-- C41. A non-empty raw value is written byte for byte; an empty one as `""`. -/
theorem C41_writes (c : Cfg) (v : Bytes) : Writes (rawSer c).emit v (if v = [] then b!"\"\"" else v) := by
  intro k
  by_cases h : v = [] <;> simp [rawSer, emitRaw, h]

/-- C41. Every value is written and read back unchanged. -/
theorem C41_round_trip (c : Cfg) {v : Bytes} (h : XValue v) : RT (rawSer c) v v where
  writes := by
    have := C41_writes c v
    rwa [if_neg] at this
    rintro rfl
    obtain ⟨b, u, h, _⟩ := xvalue_head h
    cases h
  start := by
    obtain ⟨b, u, rfl, hb⟩ := xvalue_head h
    exact .of_byte hb
  reads := by
    intro v0 rest e _ hd
    have h : parseValue c (v ++ rest) e = .ok (rest, e) := parseValue_acc_iff.mpr ⟨v, rfl, h, fun _ => hd.numFollow v⟩ e
    simp [rawSer, deRaw, h, consumed_append]

example : (rawSer .strict).de [] b!"{\"a\" : [1, 2]} , 3" .fresh = .ok (b!"{\"a\" : [1, 2]}", b!" , 3", .fresh) := by
  decide +kernel
example : (rawSer .strict).de b!"old" b!"[1, x]" .fresh = .ok (b!"[1, x]", [], .obj ⟨.InvalidJSON, none, 2⟩) := by
  decide +kernel

/-! ### C42 pointers -/

/-- C42. A pointee that round-trips and is not written with a leading `n`
round-trips behind the pointer. -/
theorem C42_round_trip {α : Type} {S : Ser α} {v : α} {t : Bytes} (h : RT S v t) (hn : t.head? ≠ some c%'n') :
    RT (pointerSer S) (some v) t where
  writes := h.writes
  start := h.start
  reads := by
    intro v0 rest e he hd
    have hr := h.reads S.dflt rest e he hd
    obtain ⟨b, u, rfl, _⟩ := h.start
    simp only [List.cons_append] at hr ⊢
    have hb : b ≠ c%'n' := by simpa using hn
    simp [pointerSer, dePointer, hb, hr]

/-- C42. The empty pointer is written as `null` through a back inserter, and
`null` is read as the empty pointer. -/
theorem C42_null {α : Type} (S : Ser α) :
    (∀ m, (pointerSer S).emit none ⟨m, .back⟩ = .ok ⟨m ++ b!"null", .back⟩) ∧ Reads (pointerSer S).de b!"null" none := by
  constructor
  · intro m
    simp [pointerSer, emitPointer, Sink.preput]
  · intro v0 rest e _ _
    simp [pointerSer, dePointer]

/-- C42. Any text starting with `n` is the empty pointer: the other three bytes
are skipped unseen. A pointee written with a leading `n` is lost. -/
theorem C42_any_n {α : Type} (S : Ser α) (x y z : Byte) (rest : Bytes) (v0 : Option α) (e : EPtr) :
    (pointerSer S).de v0 (c%'n' :: x :: y :: z :: rest) e = .ok (none, rest, e) := by
  simp [pointerSer, dePointer]

/-- C42. The end of the text is the empty pointer, without an error; so is a
truncated `null`. -/
theorem C42_end_of_text {α : Type} (S : Ser α) (v0 : Option α) (e : EPtr) :
    (pointerSer S).de v0 [] e = .ok (none, [], e) ∧
    ∀ t : Bytes, t.length ≤ 3 → (pointerSer S).de v0 (c%'n' :: t) e = .ok (none, [], e) := by
  refine ⟨rfl, fun t ht => ?_⟩
  have : t.drop 3 = [] := List.drop_eq_nil_of_le ht
  simp [pointerSer, dePointer, this]

/-- C42. Through a raw pointer the empty pointer is written one position too
late: the byte at the position is left as it is, `null` follows, and the returned
position is that of the last `l`. -/
theorem C42_null_raw_pointer {α : Type} (S : Ser α) (m0 m2 : Bytes) (b x1 x2 x3 x4 : Byte) :
    (pointerSer S).emit none ⟨m0 ++ b :: x1 :: x2 :: x3 :: x4 :: m2, .ptr m0.length⟩ =
      .ok ⟨m0 ++ b :: b!"null" ++ m2, .ptr (m0.length + 4)⟩ := by
  simp only [pointerSer, emitPointer]
  rw [Sink.preput_ptr, Out.bind_ok, List.append_assoc, List.cons_append, List.nil_append]
  have h2 := Sink.preput_ptr (m0 ++ [b]) (x3 :: x4 :: m2) c%'n' x2 c%'u'
  have h3 := Sink.preput_ptr (m0 ++ [b] ++ b!"n") (x4 :: m2) c%'u' x3 c%'l'
  have h4 := Sink.preput_ptr (m0 ++ [b] ++ b!"nu") m2 c%'l' x4 c%'l'
  simp only [List.append_assoc, List.cons_append, List.nil_append] at h2 h3 h4 ⊢
  rw [h2, Out.bind_ok, h3, Out.bind_ok, h4]
  simp

/-- C42. So it needs five bytes: with fewer the behaviour is undefined. -/
theorem C42_null_raw_pointer_short {α : Type} (S : Ser α) (m : Bytes) (i : Nat) (h : m.length < i + 5) :
    (pointerSer S).emit none ⟨m, .ptr i⟩ = .ub := by
  simp only [pointerSer, emitPointer, Sink.preput]
  by_cases h1 : i + 1 < m.length <;> simp only [h1, if_true, if_false, Out.bind_ok, Out.bind_ub, List.length_set]
  by_cases h2 : i + 1 + 1 < m.length <;> simp only [h2, if_true, if_false, Out.bind_ok, Out.bind_ub, List.length_set]
  by_cases h3 : i + 1 + 1 + 1 < m.length <;> simp only [h3, if_true, if_false, Out.bind_ok, Out.bind_ub, List.length_set]
  rw [if_neg (by omega)]

example : (pointerSer boolSer).emit (some true) ⟨[], .back⟩ = .ok ⟨b!"true", .back⟩ := by decide +kernel
example : (pointerSer boolSer).de none b!"false]" .fresh = .ok (some false, b!"]", .fresh) := by decide +kernel
example : (pointerSer boolSer).de (some true) b!"nope]" .fresh = .ok (none, b!"]", .fresh) := by decide +kernel
/-- A pointer to a pointer cannot hold an empty pointer. -/
example : (pointerSer (pointerSer boolSer)).de (some none) b!"null" .fresh = .ok (none, [], .fresh) := by decide +kernel

/-! ### C40 quoted values -/

/-- C40. A value that round-trips as the text `t`, where `t` round-trips as a
string (see C19), round-trips in quotes: the written text is a JSON string that
stands for `t`. -/
theorem C40_round_trip {α : Type} {S : Ser α} {v : α} {t : Bytes} (h : RT S v t) (ht : StrOk t) (reqQ : Bool) :
    ∃ u, Decodes u t ∧ RT (quotedSer S true reqQ) v (quoted u) := by
  have hs := strSer_rt ht
  have hd := strBody_decodes t ht.1
  rw [ht.2.1] at hd
  refine ⟨strBody false t, hd, ?_, ⟨_, _, rfl, by unfold WsByte; decide⟩, ?_⟩
  · intro k
    have h1 := h.writes ⟨[], .back⟩
    rw [Sink.puts_back] at h1
    simp [quotedSer, emitQuoted, h1, strSer, emitStr, quoted]
  · intro v0 rest e he hdel
    have h1 := hs.reads [] rest e he hdel
    have h2 := h.reads v0 [] .fresh rfl (by intro b hb; cases hb)
    simp only [List.append_nil] at h2
    have hq : deQuotedStr S v0 (quoted (strBody false t) ++ rest) e = .ok (v, rest, e) := by
      have hqt : quoted (strBody false t) = c%'"' :: strBody false t ++ b!"\"" := rfl
      rw [hqt]
      simp only [deQuotedStr, h1, Out.bind_ok, he, h2]
      simp [EPtr.fresh, JError.status]
    simp only [quotedSer, deQuoted]
    rw [hq]
    cases reqQ
    · simp [quoted, isString]
    · rfl

/-- C40. Reading: whatever follows the inner value inside the quotes is ignored. -/
theorem C40_trailing_ignored {α : Type} {S : Ser α} {v : α} {u t junk : Bytes} (h : Reads S.de t v)
    (hu : Decodes u (t ++ junk)) (hj : Delim junk) (hl : (t ++ junk).length ≤ 2147483647) (serQ reqQ : Bool) :
    Reads (quotedSer S serQ reqQ).de (quoted u) v := by
  intro v0 rest e he hdel
  have h1 := deStr_decodes hu hl [] rest e
  have h2 := h v0 junk .fresh rfl hj
  have hq : deQuotedStr S v0 (quoted u ++ rest) e = .ok (v, rest, e) := by
    have hqt : quoted u ++ rest = c%'"' :: u ++ c%'"' :: rest := by simp [quoted]
    rw [hqt]
    simp only [deQuotedStr, strSer, h1, Out.bind_ok, he, h2]
    simp [EPtr.fresh, JError.status]
  simp only [quotedSer, deQuoted]
  rw [hq]
  cases reqQ
  · simp [quoted, isString]
  · rfl

/-- C40. An error of the inner value is reported; the expected token is dropped
and the position is counted as if nothing in the string were escaped. -/
theorem C40_inner_error {α : Type} {S : Ser α} {v0 v' : α} {u b p : Bytes} {x : JError} (hu : Decodes u b)
    (hl : b.length ≤ 2147483647) (h : S.de v0 b .fresh = .ok (v', p, .obj x)) (hx : x.code ≠ .ValidJSON)
    (serQ reqQ : Bool) (rest : Bytes) :
    (quotedSer S serQ reqQ).de v0 (quoted u ++ rest) .fresh =
      .ok (v', [], .obj ⟨x.code, none, rest.length + x.tailOf + 1⟩) := by
  have h1 := deStr_decodes hu hl [] rest .fresh
  have hq : deQuotedStr S v0 (quoted u ++ rest) .fresh = .ok (v', [], .obj ⟨x.code, none, rest.length + x.tailOf + 1⟩) := by
    have hqt : quoted u ++ rest = c%'"' :: u ++ c%'"' :: rest := by simp [quoted]
    rw [hqt]
    simp only [deQuotedStr, strSer, h1, Out.bind_ok, h]
    simp [EPtr.fresh, JError.status, hx, EPtr.failed, EPtr.assign]
  simp only [quotedSer, deQuoted]
  rw [hq]
  cases reqQ
  · simp [quoted, isString]
  · rfl

/-- C40. Without quotes on either side the inner description is used directly,
as long as its text does not start with a quote. -/
theorem C40_unquoted {α : Type} {S : Ser α} {v : α} {t : Bytes} (h : RT S v t) (hq : t.head? ≠ some c%'"') :
    RT (quotedSer S false false) v t where
  writes := h.writes
  start := h.start
  reads := by
    intro v0 rest e he hd
    have h1 := h.reads v0 rest e he hd
    obtain ⟨b, u, rfl, _⟩ := h.start
    have : isString (b :: u ++ rest) = false := by
      simp only [List.head?_cons, ne_eq, Option.some.injEq] at hq
      simp [isString, hq]
    simp only [quotedSer, deQuoted, this]
    exact h1

/-- C40. The restriction is needed: `quoted<value<std::string>, false, false>`
cannot read what it writes. -/
theorem C40_unquoted_string_fails :
    (quotedSer strSer false false).emit b!"ab" ⟨[], .back⟩ = .ok ⟨b!"\"ab\"", .back⟩ ∧
    (quotedSer strSer false false).de [] b!"\"ab\"" .fresh = .ok ([], [], .obj ⟨.ExpectedOf, none, 3⟩) := by
  decide +kernel

/-- C40. `raw_quoted` through a back inserter: any value round-trips in quotes
(the inner text is copied without escaping). -/
theorem C40_raw_quoted (c : Cfg) {v : Bytes} (h : XValue v) :
    (∀ m, (rawQuotedSer c true true).emit v ⟨m, .back⟩ = .ok ⟨m ++ quoted v, .back⟩) ∧
    Reads (rawQuotedSer c true true).de (quoted v) v := by
  constructor
  · intro m
    simp [rawQuotedSer, emitRawQuoted, Sink.put, Sink.puts_back, quoted]
  · intro v0 rest e he hd
    have hdel : Delim (c%'"' :: rest) := by
      intro b hb
      simp only [List.head?_cons, Option.some.injEq] at hb
      subst hb
      decide
    have h1 : parseValue c (v ++ c%'"' :: rest) e = .ok (c%'"' :: rest, e) :=
      parseValue_acc_iff.mpr ⟨v, rfl, h, fun _ => hdel.numFollow v⟩ e
    simp [rawQuotedSer, deRawQuoted, quoted, h1, he, consumed_append]

/-- C40. Through a raw pointer `raw_quoted` destroys its output: the closing
quote is written over the first byte of the value and the returned position is
two bytes after the start, whatever the length. -/
theorem C40_raw_quoted_raw_pointer :
    (rawQuotedSer .strict true true).emit b!"123" ⟨[0, 0, 0, 0, 0, 0], .ptr 0⟩ = .ok ⟨b!"\"\"23" ++ [0, 0], .ptr 2⟩ := by
  decide +kernel

example : StrOk b!"[true,false]" := by
  refine ⟨?_, by decide, by decide⟩
  rintro ⟨u, hu, ⟨b, n, ts, rfl, hl, hn, _⟩, h5⟩
  have hb : b ∈ b!"[true,false]" := hu.subset (by simp)
  have h6 : 4 ≤ n := by simp only [List.length_cons] at h5; omega
  rcases hl with h | h | h | h | h | h
  · omega
  · omega
  · omega
  · omega
  · have h7 := h.1
    clear hu hn h h5 h6
    revert h7; revert b; decide
  · have h7 := h.1
    clear hu hn h h5 h6
    revert h7; revert b; decide
example : (quotedSer (arraySer (seqColl _) strSer) true true).emit [b!"a"] ⟨[], .back⟩ =
    .ok ⟨b!"\"[\\\"a\\\"]\"", .back⟩ := by decide +kernel
example : (quotedSer boolSer true true).de true b!"\"false!\"," .fresh = .ok (false, b!",", .fresh) := by decide +kernel

/-! ### C44 multi_deserializer -/

/-- C44. What the returned index means: every description before it reported an
error on the text; the one at the index read the text without error, into its
own variable, and the error argument is untouched; the index after the last
description means that none did, and then the error argument holds the verdict
of the parser. -/
theorem C44_index {τ : Type} (c : Cfg) {l : List (MultiArg τ)} {t t' : τ} {s : Bytes} {e e' : EPtr} {i : Nat}
    (h : multiDe c l t s e = .ok (i, t', e')) :
    (∀ j a, j < i → l[j]? = some a → ∃ v v' p x, a.ser.de v s .fresh = .ok (v', p, x) ∧ x.failed = true) ∧
    ((∃ a t1 v' p x, l[i]? = some a ∧ a.ser.de (a.get t1) s .fresh = .ok (v', p, x) ∧ x.failed = false ∧
        t' = a.set v' t1 ∧ e' = e) ∨
      (i = l.length ∧ ∃ p, parse c s e = .ok (p, e'))) := by
  induction l generalizing t i with
  | nil =>
    simp only [multiDe] at h
    obtain ⟨r, h1, h2⟩ := Out.bind_eq_ok.mp h
    simp only [Out.ok.injEq, Prod.mk.injEq] at h2
    obtain ⟨rfl, rfl, rfl⟩ := h2
    exact ⟨by omega, .inr ⟨rfl, r.1, h1⟩⟩
  | cons a l ih =>
    simp only [multiDe] at h
    obtain ⟨⟨v', p, x⟩, h1, h2⟩ := Out.bind_eq_ok.mp h
    simp only at h2
    by_cases hx : x.failed = true
    · rw [if_pos hx] at h2
      obtain ⟨⟨i', t2, e2⟩, h3, h4⟩ := Out.bind_eq_ok.mp h2
      simp only [Out.ok.injEq, Prod.mk.injEq] at h4
      obtain ⟨rfl, rfl, rfl⟩ := h4
      obtain ⟨k1, k2⟩ := ih h3
      refine ⟨?_, ?_⟩
      · intro j b hj hb
        cases j with
        | zero =>
          simp only [List.getElem?_cons_zero, Option.some.injEq] at hb
          subst hb
          exact ⟨_, v', p, x, h1, hx⟩
        | succ j => exact k1 j b (by omega) (by simpa using hb)
      · rcases k2 with k2 | ⟨rfl, k2⟩
        · exact .inl (by simpa using k2)
        · exact .inr ⟨rfl, k2⟩
    · rw [if_neg hx] at h2
      simp only [Out.ok.injEq, Prod.mk.injEq] at h2
      obtain ⟨rfl, rfl, rfl⟩ := h2
      exact ⟨by omega, .inl ⟨a, t, v', p, x, rfl, h1, by simpa using hx, rfl, rfl⟩⟩

/-- C44. The first description that reads the text is the one reported. -/
theorem C44_first {τ : Type} (c : Cfg) {pre post : List (MultiArg τ)} {a : MultiArg τ} {s : Bytes}
    (hpre : ∀ b ∈ pre, ∀ v, ∃ v' p x, b.ser.de v s .fresh = .ok (v', p, x) ∧ x.failed = true)
    (ha : ∀ v, ∃ v' p x, a.ser.de v s .fresh = .ok (v', p, x) ∧ x.failed = false) (t : τ) (e : EPtr) :
    ∃ t', multiDe c (pre ++ a :: post) t s e = .ok (pre.length, t', e) := by
  induction pre generalizing t with
  | nil =>
    obtain ⟨v', p, x, h1, h2⟩ := ha (a.get t)
    exact ⟨a.set v' t, by simp [multiDe, h1, h2]⟩
  | cons b pre ih =>
    obtain ⟨v', p, x, h1, h2⟩ := hpre b (by simp) (b.get t)
    obtain ⟨t', h3⟩ := ih (fun b hb => hpre b (by simp [hb])) (b.set v' t)
    exact ⟨t', by simp [multiDe, h1, h2, h3]⟩

/-- C44. None of them: the number of descriptions. -/
theorem C44_none {τ : Type} (c : Cfg) {l : List (MultiArg τ)} {s p : Bytes} {e e' : EPtr}
    (hl : ∀ b ∈ l, ∀ v, ∃ v' p x, b.ser.de v s .fresh = .ok (v', p, x) ∧ x.failed = true)
    (hp : parse c s e = .ok (p, e')) (t : τ) :
    ∃ t', multiDe c l t s e = .ok (l.length, t', e') := by
  induction l generalizing t with
  | nil =>
    have hp : parseValue c s e = .ok (p, e') := hp
    exact ⟨t, by simp [multiDe, hp]⟩
  | cons b l ih =>
    obtain ⟨v', q, x, h1, h2⟩ := hl b (by simp) (b.get t)
    obtain ⟨t', h3⟩ := ih (fun b hb => hl b (by simp [hb])) (b.set v' t)
    exact ⟨t', by simp [multiDe, h1, h2, h3]⟩

def demoMulti : List (MultiArg (Bool × Bytes)) :=
  [⟨Prod.fst, fun v t => (v, t.2), boolSer⟩, ⟨Prod.snd, fun v t => (t.1, v), strSer⟩]

example : multiDe .strict demoMulti (false, []) b!"\"x\"" .fresh = .ok (1, (false, b!"x"), .fresh) := by decide +kernel
example : multiDe .strict demoMulti (false, []) b!"true" .fresh = .ok (0, (true, []), .fresh) := by decide +kernel
example : multiDe .strict demoMulti (true, []) b!"[1]" .fresh = .ok (2, (false, []), .fresh) := by decide +kernel
/-- Only the first bytes count: the text after a value is not looked at. -/
example : multiDe .strict demoMulti (false, []) b!"true!" .fresh = .ok (0, (true, []), .fresh) := by decide +kernel

/-! ### C51 the _json literal -/

/-- C51. Same length; every apostrophe becomes a quote and every other byte stays. -/
theorem C51_literal (s : Bytes) :
    (jsonLit s).length = s.length ∧
    ∀ i (h : i < s.length) (h' : i < (jsonLit s).length),
      (s[i] = c%'\'' → (jsonLit s)[i] = c%'"') ∧ (s[i] ≠ c%'\'' → (jsonLit s)[i] = s[i]) := by
  refine ⟨by simp [jsonLit], fun i h h' => ⟨fun hs => ?_, fun hs => ?_⟩⟩ <;> simp [jsonLit, hs]

/-- C51. No apostrophe is left. -/
theorem C51_no_apostrophe (s : Bytes) : c%'\'' ∉ jsonLit s := by
  simp only [jsonLit, List.mem_map, not_exists, not_and]
  intro b _
  split
  · decide
  · next h => exact h

example : jsonLit b!"{'a':'b'}" = b!"{\"a\":\"b\"}" := by decide +kernel

/-! ### C52 member values -/

/-- C52. `member_value` writes exactly what the description of the member writes
and reads into that member only. -/
theorem C52_member_value {τ α : Type} (d : τ) (get : τ → α) (set : α → τ → τ) {S : Ser α} {t : τ} {x : Bytes}
    (h : RT S (get t) x) :
    Writes (memberValueSer d get set S).emit t x ∧
    ∀ t0, ReadsAt (memberValueSer d get set S).de t0 x (set (get t) t0) := by
  refine ⟨h.writes, fun t0 rest e he hd => ?_⟩
  simp [memberValueSer, h.reads (get t0) rest e he hd]

/-- C52. Written through any output iterator, with whatever outcome: the same as the member. -/
theorem C52_writes_as_member {τ α : Type} (d : τ) (get : τ → α) (set : α → τ → τ) (S : Ser α) (t : τ) (k : Sink) :
    (memberValueSer d get set S).emit t k = S.emit (get t) k := rfl

/-- C52. Nothing but the member changes, whatever the text: what setting the member leaves alone, reading leaves alone. -/
theorem C52_nothing_else {τ α β : Type} (d : τ) (get : τ → α) (set : α → τ → τ) (S : Ser α) {g : τ → β}
    (hg : ∀ x t, g (set x t) = g t) {t t' : τ} {s p : Bytes} {e e' : EPtr}
    (h : (memberValueSer d get set S).de t s e = .ok (t', p, e')) : g t' = g t := by
  obtain ⟨⟨v, p1, e1⟩, _, h2⟩ := Out.bind_eq_ok.mp h
  cases h2
  exact hg v t

/-- C52. Every outcome of reading the member, errors included, is passed on. -/
theorem C52_member_value_errors {τ α : Type} (d : τ) (get : τ → α) (set : α → τ → τ) (S : Ser α) (t : τ) (s : Bytes) (e : EPtr)
    {v : α} {p : Bytes} {e' : EPtr} (h : S.de (get t) s e = .ok (v, p, e')) :
    (memberValueSer d get set S).de t s e = .ok (set v t, p, e') := by
  simp [memberValueSer, h]

example : (memberValueSer (false, 5) Prod.fst (fun v t => (v, t.2)) boolSer).de (false, 7) b!"true" .fresh =
    .ok ((true, 7), [], .fresh) := by decide +kernel

end Wjson
