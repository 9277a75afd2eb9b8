import Verif.Proofs.IntSafe
import Verif.Proofs.StrRead
/-
Properties C15-C23: integers, booleans, strings.

Vocabulary: `S.emit v k = k.puts t` says that the serializer writes exactly the
bytes `t` through the output iterator `k` (back inserter or raw pointer).
`S.de v0 s e = .ok (v, p, e')` says that reading the text `s` into a variable
holding `v0`, with error pointer `e`, leaves `v` in the variable, returns the
position of `p` and leaves `e'` in the error object.
-/
namespace Wjson
open Spec

/-- The integer types of the library. -/
def intTypes : List IntTy :=
  [.schar, .uchar, .short, .ushort, .int, .uint, .long, .ulong]

theorem intTypes_std {ty : IntTy} (h : ty ∈ intTypes) : ty.Std := by
  simp only [intTypes, List.mem_cons, List.not_mem_nil, or_false] at h
  rcases h with rfl | rfl | rfl | rfl | rfl | rfl | rfl | rfl <;> simp [IntTy.Std, IntTy.schar, IntTy.uchar, IntTy.short, IntTy.ushort, IntTy.int, IntTy.uint, IntTy.long, IntTy.ulong]

/-- C15, the ranges: which whole numbers are the values of each integer type (the
widths are those of the LP64 platforms the library is built for). -/
theorem C15_ranges (v : Int) :
    (IntTy.schar.InRange v ↔ -128 ≤ v ∧ v ≤ 127) ∧
    (IntTy.uchar.InRange v ↔ 0 ≤ v ∧ v ≤ 255) ∧
    (IntTy.short.InRange v ↔ -32768 ≤ v ∧ v ≤ 32767) ∧
    (IntTy.ushort.InRange v ↔ 0 ≤ v ∧ v ≤ 65535) ∧
    (IntTy.int.InRange v ↔ -2147483648 ≤ v ∧ v ≤ 2147483647) ∧
    (IntTy.uint.InRange v ↔ 0 ≤ v ∧ v ≤ 4294967295) ∧
    (IntTy.long.InRange v ↔ -9223372036854775808 ≤ v ∧ v ≤ 9223372036854775807) ∧
    (IntTy.ulong.InRange v ↔ 0 ≤ v ∧ v ≤ 18446744073709551615) := by
  refine ⟨?_, ?_, ?_, ?_, ?_, ?_, ?_, ?_⟩ <;> exact Iff.rfl

example : IntTy.ushort.InRange 65535 ∧ ¬ IntTy.ushort.InRange (-1) ∧ ¬ IntTy.short.InRange 65535 := by decide

/-- C15. A value of an integer type is read back as it was written, up to the
most negative value of `int` and `long`. -/
theorem C15_integer_round_trip (c : Cfg) {ty : IntTy} (hty : ty ∈ intTypes) {v : Int} (hv : ty.InRange v)
    (hmin : v ≠ ty.min ∨ ty.bits < 32 ∨ ty.signed = false ∨ c.wrapv = true) :
    ∃ t, (∀ k, (intSer c ty).emit v k = k.puts t) ∧
      ∀ v0 rest e, NoDigitNext rest → (intSer c ty).de v0 (t ++ rest) e = .ok (v, rest, e) := by
  have hs := intTypes_std hty
  refine ⟨intText v, emitInt_writes hs hv, fun v0 rest e hr => ?_⟩
  obtain ⟨i, hi, h⟩ := intText_decimal v
  have hmod : (ty.bits < 32 ∨ ty.signed = false ∨ c.wrapv = true) →
      deInt c ty v0 (intText v ++ rest) e = .ok (v, rest, e) := by
    intro hm
    have hw := IntTy.wrap_of_inRange hs hv
    rcases h with ⟨h0, h1, h2⟩ | ⟨h0, h1, h2⟩
    · have := deInt_modular hs (c := c) hm (m := []) (.inl rfl) hi hr v0 e
      rw [h1]
      simpa [← h2, hw] using this
    · have := deInt_modular hs (c := c) hm (m := b!"-") (.inr rfl) hi hr v0 e
      rw [h1]
      simpa [← h2, hw] using this
  rcases hmin with hne | hm
  · by_cases hmod' : ty.bits < 32 ∨ ty.signed = false ∨ c.wrapv = true
    · exact hmod hmod'
    · have hsg : ty.signed = true := by
        cases hh : ty.signed with
        | true => rfl
        | false => exact absurd (.inr (.inl hh)) hmod'
      have hbits : ¬ ty.bits < 32 := fun h => hmod' (.inl h)
      show deInt c ty v0 (intText v ++ rest) e = _
      rcases h with ⟨h0, h1, h2⟩ | ⟨h0, h1, h2⟩
      · have := deInt_exact c hs (m := []) (.inl rfl) hi hr (by rwa [← h2]) (by simp) v0 e
        rw [h1]
        simpa [← h2] using this
      · have hpos : ty.InRange (decVal i : Int) := by
          obtain ⟨bits, sg⟩ := ty
          simp only at hsg
          subst hsg
          simp only [IntTy.InRange, IntTy.min, IntTy.max, if_true] at hv hne ⊢
          omega
        have := deInt_exact c hs (m := b!"-") (.inr rfl) hi hr hpos (by intro _; rwa [← h2]) v0 e
        rw [h1]
        simpa [← h2] using this
  · exact hmod hm

example : ∃ t, (∀ k, (intSer .strict .int).emit (-120) k = k.puts t) ∧
    ∀ v0 rest e, NoDigitNext rest → (intSer .strict .int).de v0 (t ++ rest) e = .ok (-120, rest, e) :=
  C15_integer_round_trip .strict (by decide) (by decide) (by decide)

example : (intSer .strict .int).emit (-120) ⟨[], .back⟩ = .ok ⟨b!"-120", .back⟩ := by decide +kernel

/-- C15, exception: reading back the most negative `int` or `long` is undefined
behaviour by the C++ standard. -/
theorem C15_most_negative_is_undefined (c : Cfg) (hc : c.wrapv = false) {ty : IntTy} (hty : ty = .int ∨ ty = .long) :
    ∃ t, (∀ k, (intSer c ty).emit ty.min k = k.puts t) ∧
      ∀ v0 rest e, NoDigitNext rest → (intSer c ty).de v0 (t ++ rest) e = .ub := by
  have hs : ty.Std := by rcases hty with rfl | rfl <;> simp [IntTy.Std, IntTy.int, IntTy.long]
  have hin : ty.InRange ty.min := by rcases hty with rfl | rfl <;> decide
  have hneg : ty.min < 0 ∧ ¬ ty.InRange (-ty.min) := by rcases hty with rfl | rfl <;> decide
  refine ⟨intText ty.min, emitInt_writes hs hin, fun v0 rest e hr => ?_⟩
  obtain ⟨i, hi, h⟩ := intText_decimal ty.min
  have hm : ¬ ty.Modular c := by
    rcases hty with rfl | rfl <;> simp [IntTy.Modular, IntTy.int, IntTy.long, hc]
  rcases h with ⟨h0, _, _⟩ | ⟨_, h1, h2⟩
  · exact absurd hneg.1 (by omega)
  · have := deInt_overflow hs hm (m := b!"-") (.inr rfl) hi hr (by
      have : (decVal i : Int) = -ty.min := by omega
      rw [this]; exact hneg.2) v0 e
    rw [h1]
    simpa [intSer] using this

/-- C16. What is written is the canonical decimal text; the local buffer never
overflows (the only undefined write is one the caller's iterator has no room
for). -/
theorem C16_canonical_decimal (c : Cfg) {ty : IntTy} (hty : ty ∈ intTypes) {v : Int} (hv : ty.InRange v) :
    ∃ t, Decimal v t ∧ ∀ k, (intSer c ty).emit v k = k.puts t :=
  ⟨intText v, intText_decimal v, emitInt_writes (intTypes_std hty) hv⟩

example : Decimal (-45) b!"-45" := ⟨b!"45", .inr ⟨_, _, rfl, by decide, by decide⟩, .inr ⟨by decide, rfl, by decide⟩⟩
example : (intSer .strict .schar).emit (-128) ⟨[], .back⟩ = .ok ⟨b!"-128", .back⟩ := by decide +kernel
example : (intSer .strict .ulong).emit 18446744073709551615 ⟨[], .back⟩ = .ok ⟨b!"18446744073709551615", .back⟩ := by
  decide +kernel

/-- C17. A literal whose value (and magnitude) fits the type is read exactly. -/
theorem C17_literal_that_fits (c : Cfg) {ty : IntTy} (hty : ty ∈ intTypes) {t rest : Bytes} {v : Int} (ht : IntLit t v)
    (hr : NoDigitNext rest) (hv : ty.InRange v)
    (hmag : ty.InRange v.natAbs ∨ ty.bits < 32 ∨ ty.signed = false ∨ c.wrapv = true) (v0 : Int) (e : EPtr) :
    (intSer c ty).de v0 (t ++ rest) e = .ok (v, rest, e) := by
  have hs := intTypes_std hty
  obtain ⟨m, i, rfl, hm, hi, hvi⟩ := ht
  rcases hmag with hmag | hmod
  · have habs : (v.natAbs : Int) = decVal i := by rw [hvi]; split <;> omega
    rw [habs] at hmag
    have := deInt_exact c hs hm hi hr hmag (by
      intro hm0
      rw [if_neg hm0] at hvi
      rwa [← hvi]) v0 e
    rw [hvi]
    exact this
  · have := deInt_modular hs (c := c) hmod hm hi hr v0 e
    rw [← hvi, IntTy.wrap_of_inRange hs hv] at this
    exact this

/-- C17. Types with modular arithmetic reduce every literal modulo `2^bits`,
without an error: the stored value is in range and congruent to the literal. -/
theorem C17_literal_modular (c : Cfg) {ty : IntTy} (hty : ty ∈ intTypes)
    (hmod : ty.bits < 32 ∨ ty.signed = false ∨ c.wrapv = true) {t rest : Bytes} {x : Int} (ht : IntLit t x)
    (hr : NoDigitNext rest) (v0 : Int) (e : EPtr) :
    ∃ v, (intSer c ty).de v0 (t ++ rest) e = .ok (v, rest, e) ∧ ty.InRange v ∧ (v - x) % 2 ^ ty.bits = 0 := by
  have hs := intTypes_std hty
  obtain ⟨m, i, rfl, hm, hi, rfl⟩ := ht
  refine ⟨_, deInt_modular hs (c := c) hmod hm hi hr v0 e, IntTy.wrap_inRange hs _, ?_⟩
  generalize (if m = [] then (decVal i : Int) else -(decVal i : Int)) = x
  obtain ⟨bits, sg⟩ := ty
  simp only [IntTy.Std] at hs
  rcases hs with rfl | rfl | rfl | rfl <;> cases sg <;> simp [IntTy.wrap] <;> omega

/-- C17. For `int` and `long` a literal whose magnitude exceeds the maximum is
undefined behaviour. -/
theorem C17_literal_overflow_undefined (c : Cfg) (hc : c.wrapv = false) {ty : IntTy} (hty : ty = .int ∨ ty = .long)
    {t rest : Bytes} {x : Int} (ht : IntLit t x) (hr : NoDigitNext rest) (hx : ¬ ty.InRange x.natAbs)
    (v0 : Int) (e : EPtr) : (intSer c ty).de v0 (t ++ rest) e = .ub := by
  have hs : ty.Std := by rcases hty with rfl | rfl <;> simp [IntTy.Std, IntTy.int, IntTy.long]
  have hm' : ¬ ty.Modular c := by
    rcases hty with rfl | rfl <;> simp [IntTy.Modular, IntTy.int, IntTy.long, hc]
  obtain ⟨m, i, rfl, hm, hi, rfl⟩ := ht
  refine deInt_overflow hs hm' hm hi hr ?_ v0 e
  have : (((if m = [] then (decVal i : Int) else -(decVal i : Int)).natAbs : Nat) : Int) = decVal i := by split <;> omega
  rwa [this] at hx

/-- C17. A leading zero is a number of its own: reading stops after it. -/
theorem C17_leading_zero (c : Cfg) (ty : IntTy) (rest : Bytes) (v0 : Int) (e : EPtr) :
    (intSer c ty).de v0 (c%'0' :: rest) e = .ok (0, rest, e) := by
  simp [intSer, deInt, isNull, unserializeInteger, isDigit]

example : IntLit b!"-0" 0 := ⟨b!"-", b!"0", rfl, .inr rfl, .inl rfl, rfl⟩
example : IntLit b!"300" 300 := ⟨[], b!"300", rfl, .inl rfl, .inr ⟨_, _, rfl, by decide, by decide⟩, rfl⟩
example : (intSer .strict .uchar).de 7 b!"300," .fresh = .ok (44, b!",", .fresh) := by decide +kernel
example : (intSer .strict .int).de 7 b!"2147483648" .fresh = .ub := by decide +kernel
example : (intSer .strict .uint).de 7 b!"-1" .fresh = .ok (4294967295, [], .fresh) := by decide +kernel

/-- C18. Booleans are written as `true`/`false` and read back. -/
theorem C18_bool_round_trip (v : Bool) :
    ∃ t, t = (if v then b!"true" else b!"false") ∧ (∀ k, boolSer.emit v k = k.puts t) ∧
      ∀ v0 rest e, boolSer.de v0 (t ++ rest) e = .ok (v, rest, e) := by
  cases v with
  | true => exact ⟨_, rfl, fun k => rfl, fun v0 rest e => deBool_true v0 rest e⟩
  | false => exact ⟨_, rfl, fun k => rfl, fun v0 rest e => deBool_false v0 rest e⟩

/-- C18. Reading succeeds exactly on `true`, `false` and `null`. -/
theorem C18_bool_exact {v0 v : Bool} {s p : Bytes} {e : EPtr} (he : e.Clean) :
    boolSer.de v0 s e = .ok (v, p, e) ↔
      (s = b!"true" ++ p ∧ v = true) ∨ (s = b!"false" ++ p ∧ v = false) ∨ (s = b!"null" ++ p ∧ v = false) := by
  constructor
  · intro h; exact (deBool_inv he h he.not_failed).2
  · rintro (⟨rfl, rfl⟩ | ⟨rfl, rfl⟩ | ⟨rfl, rfl⟩)
    · exact deBool_true v0 p e
    · exact deBool_false v0 p e
    · exact deBool_null v0 p e

/-- C18. Every other input is reported as an error. -/
theorem C18_bool_error {v0 : Bool} {s : Bytes} {e : EPtr} (he : e.Clean)
    (h : ∀ p, s ≠ b!"true" ++ p ∧ s ≠ b!"false" ++ p ∧ s ≠ b!"null" ++ p) :
    ∃ v p e', boolSer.de v0 s e = .ok (v, p, e') ∧ e'.failed = true := by
  rcases deBool_safe v0 s e with ⟨_, h⟩ | ⟨v, p, e', h1, _, h2⟩
  · exact h.elim
  · refine ⟨v, p, e', h1, ?_⟩
    cases hf : e'.failed with
    | true => rfl
    | false =>
      have := (deBool_inv he h1 hf).2
      rcases this with hh | hh | hh
      · exact absurd hh.1 (h p).1
      · exact absurd hh.1 (h p).2.1
      · exact absurd hh.1 (h p).2.2

example : EPtr.fresh.Clean := EPtr.fresh_clean
example : boolSer.de true b!"nul" .fresh = .ok (false, [], .obj ⟨.UnexpectedEndFragment, none, 0⟩) := by decide +kernel

/-! ### Strings -/

/-- C19. A string without 5/6-byte sequences is read back as written, up to the
control characters without a short escape, which come back as the six
characters of their `\u` escape. -/
theorem C19_string_round_trip {v : Bytes} (hv : ¬ HasLongSeq v) (hlen : (expand v).length ≤ 2147483647) :
    ∃ t, (∀ k, strSer.emit v k = k.puts t) ∧
      ∀ v0 rest e, strSer.de v0 (t ++ rest) e = .ok (expand v, rest, e) := by
  refine ⟨c%'"' :: strBody false v ++ b!"\"", fun k => rfl, fun v0 rest e => ?_⟩
  have := deStr_decodes (strBody_decodes v hv) hlen v0 rest e
  simpa [strSer] using this

/-- `expand` is the identity on texts without such control characters. -/
theorem C19_expand_identity {v : Bytes} (hv : ∀ b ∈ v, 0x20 ≤ b ∨ ShortCtl b.toNat) : expand v = v := by
  induction v with
  | nil => rfl
  | cons b v ih =>
    rw [expand_cons, ih fun x hx => hv x (by simp [hx])]
    have h := hv b (by simp)
    have : expandByte b = [b] := by
      unfold expandByte
      rw [if_neg]
      rintro ⟨h1, h2⟩
      rcases h with h | h
      · clear hv ih h2; revert h1; revert h; revert b; apply forall_byte; decide +kernel
      · exact h2 h
    rw [this]; rfl

/-- C19 as stated in the property list: no control bytes other than
`\t \b \r \n \f`, no bytes F8..FD, at most INT_MAX bytes. -/
theorem C19_string_round_trip_exact {v : Bytes} (h1 : ∀ b ∈ v, 0x20 ≤ b ∨ ShortCtl b.toNat)
    (h2 : ∀ b ∈ v, ¬ (0xF8 ≤ b ∧ b ≤ 0xFD)) (hlen : v.length ≤ 2147483647) :
    ∃ t, (∀ k, strSer.emit v k = k.puts t) ∧ ∀ v0 rest e, strSer.de v0 (t ++ rest) e = .ok (v, rest, e) := by
  have hx := C19_expand_identity h1
  have hlong : ¬ HasLongSeq v := by
    rintro ⟨u, hu, ⟨b, n, ts, rfl, hl, hn, _⟩, h5⟩
    simp only [List.length_cons] at h5
    apply h2 b (hu.subset (by simp))
    have h6 : n = 4 ∨ n = 5 := by rcases hl with h | h | h | h | h | h <;> omega
    rcases hl with h | h | h | h | h | h
    · omega
    · omega
    · omega
    · omega
    · have := h.1; have := h.2.1
      clear h2 hu hn h h5 h6
      revert this; revert b; apply forall_byte; decide +kernel
    · have := h.1; have := h.2.1
      clear h2 hu hn h h5 h6
      revert this; revert b; apply forall_byte; decide +kernel
  have := C19_string_round_trip hlong (by rwa [hx])
  rwa [hx] at this

example : ∀ b ∈ b!"h\"\n/é", 0x20 ≤ b ∨ ShortCtl b.toNat := by decide
example : strSer.emit b!"a\n/é" ⟨[], .back⟩ = .ok ⟨b!"\"a\\n\\/é\"", .back⟩ := by decide +kernel
/-- A stray continuation byte is written as `\x80` and read back. -/
example : strSer.emit [0x80] ⟨[], .back⟩ = .ok ⟨b!"\"\\x80\"", .back⟩ := by decide +kernel
/-- Control byte 1 comes back as six characters. -/
example : strSer.de [] b!"\"\\u0001\"" .fresh = .ok (b!"\\u0001", [], .fresh) := by decide +kernel
/-- A five-byte sequence is not read back: the restriction is needed. -/
example : strSer.emit [0xF8, 0x88, 0x80, 0x80, 0x80] ⟨[], .back⟩ = .ok ⟨[34, 0xF8, 0x88, 0x80, 0x80, 0x80, 34], .back⟩ ∧
    strSer.de [] [34, 0xF8, 0x88, 0x80, 0x80, 0x80, 34] .fresh = .ok ([], [], .obj ⟨.InvalidString, none, 6⟩) := by
  decide +kernel

/-- C20. Whatever the string, the output is a quote, clean units and a quote. -/
theorem C20_output_clean (v : Bytes) :
    ∃ u, CleanBody u ∧ ∀ k, strSer.emit v k = k.puts (c%'"' :: u ++ b!"\"") :=
  ⟨strBody false v, strBody_clean v, fun _ => rfl⟩

/-- A clean body has no byte below 32. -/
theorem C20_no_control_bytes {u : Bytes} (h : CleanBody u) : ∀ b ∈ u, 0x20 ≤ b := by
  have hx : ∀ b : Byte, HexDigit b → 0x20 ≤ b := by apply forall_byte; decide +kernel
  have hs : ∀ b : Byte, ShortEscape b → 0x20 ≤ b := by apply forall_byte; unfold ShortEscape; decide +kernel
  induction h with
  | nil => simp
  | cons h1 _ ih =>
    intro b hb
    rcases List.mem_append.mp hb with hb | hb
    · cases h1 with
      | raw h => simp at hb; subst hb; exact h
      | short h =>
        simp at hb
        rcases hb with rfl | rfl
        · decide
        · exact hs _ h
      | uni h1 h2 h3 h4 =>
        simp at hb
        rcases hb with rfl | rfl | rfl | rfl | rfl | rfl
        · decide
        · decide
        · exact hx _ h1
        · exact hx _ h2
        · exact hx _ h3
        · exact hx _ h4
      | hex h1 h2 =>
        simp at hb
        rcases hb with rfl | rfl | rfl | rfl
        · decide
        · decide
        · exact hx _ h1
        · exact hx _ h2
    · exact ih b hb

/-- C20. A string of UTF-8-shaped sequences is written as a token that
`parser::parse_string` accepts in full. -/
theorem C20_output_accepted {v : Bytes} (hv : Utf8Shapes v) :
    ∃ t, XString t ∧ (∀ k, strSer.emit v k = k.puts t) ∧ ∀ rest e, parseString (t ++ rest) e = (rest, e) := by
  have hx : XString (c%'"' :: strBody false v ++ b!"\"") := ⟨_, strBody_xchars v hv, rfl⟩
  exact ⟨_, hx, fun _ => rfl, fun rest e => parseString_acc_iff.mpr ⟨_, rfl, hx⟩ e⟩

/-- C20. Well-formed UTF-8 is written as an RFC 8259 string. -/
theorem C20_output_rfc {v : Bytes} (hv : Utf8Text v) :
    ∃ t, RString t ∧ ∀ k, strSer.emit v k = k.puts t :=
  ⟨c%'"' :: strBody false v ++ b!"\"", ⟨_, strBody_rchars v hv, rfl⟩, fun _ => rfl⟩

example : Utf8Text b!"aé€" :=
  .ascii (by decide) (.multi (c := [0xC3, 0xA9]) (.two (by decide) (by decide) (by decide))
    (.multi (c := [0xE2, 0x82, 0xAC]) (.three (by decide) (by decide) (by decide)) .nil))
/-- The `\x` extension is not accepted by the parser: the restriction is needed. -/
example : (parseString b!"\"\\x80\"" .fresh).2.failed = true := by decide +kernel

/-- C21. Reading a string token yields exactly the bytes its units stand for. -/
theorem C21_string_decoding {v0 v s p : Bytes} {e : EPtr} (he : e.Clean) (hs : s.length ≤ 2147483647) :
    strSer.de v0 s e = .ok (v, p, e) ↔
      (s = b!"null" ++ p ∧ v = []) ∨ ∃ u, s = c%'"' :: u ++ c%'"' :: p ∧ Decodes u v := by
  constructor
  · intro h
    rcases deStr_inv (v0 := v0) he hs h he.not_failed with ⟨h1, h2, _⟩ | ⟨u, h1, h2, _⟩
    · exact .inl ⟨h1, h2⟩
    · exact .inr ⟨u, h1, h2⟩
  · rintro (⟨rfl, rfl⟩ | ⟨u, rfl, hu⟩)
    · have := parseNull_ok p e
      simp only [strSer, deStr]
      have hn : isNull (b!"null" ++ p) = true := rfl
      rw [if_pos hn, this]
    · refine deStr_decodes hu ?_ v0 p e
      have key := strDec_ok (u ++ c%'"' :: p) (v.length) .fresh
      rw [strDec_decodes hu (Nat.le_refl _)] at key
      simp only [List.length_append, List.length_cons, List.cons_append] at hs key
      unfold intMax
      omega

/-- C21. A `\uXXXX` escape of a code unit from 0x20 on, anywhere in a string
token, becomes the UTF-8 pattern of its number. -/
theorem C21_unicode_escape {u1 v1 u2 v2 : Bytes} {a b c d : Byte} (h1 : Decodes u1 v1) (h2 : Decodes u2 v2)
    (ha : HexDigit a) (hb : HexDigit b) (hc : HexDigit c) (hd : HexDigit d) (hh : 0x20 ≤ hex4 a b c d)
    (hlen : v1.length + (3 + v2.length) ≤ 2147483647) (v0 rest : Bytes) (e : EPtr) :
    strSer.de v0 (c%'"' :: (u1 ++ [c%'\\', c%'u', a, b, c, d] ++ u2) ++ c%'"' :: rest) e =
      .ok (v1 ++ utf8Enc (hex4 a b c d) ++ v2, rest, e) := by
  have happ : ∀ {a b a' b' : Bytes}, Decodes a b → Decodes a' b' → Decodes (a ++ a') (b ++ b') := by
    intro a b a' b' h h'
    induction h with
    | nil => exact h'
    | cons h1 _ ih => rw [List.append_assoc, List.append_assoc]; exact .cons h1 ih
  have hle : (utf8Enc (hex4 a b c d)).length ≤ 3 := by
    unfold utf8Enc
    repeat' split
    all_goals simp
  have hD : Decodes (u1 ++ [c%'\\', c%'u', a, b, c, d] ++ u2) (v1 ++ utf8Enc (hex4 a b c d) ++ v2) := by
    rw [List.append_assoc, List.append_assoc]
    exact happ h1 (.cons (.uni ha hb hc hd (.inl hh)) h2)
  refine deStr_decodes hD ?_ v0 rest e
  unfold intMax
  simp only [List.length_append]
  omega

/-- C21, consequence: a surrogate pair becomes two three-byte patterns (not the
four-byte character). -/
example : strSer.de [] b!"\"\\ud83d\\uDE00\"" .fresh =
    .ok ([0xED, 0xA0, 0xBD, 0xED, 0xB8, 0x80], [], .fresh) := by decide +kernel
example : utf8Enc 0x20AC = b!"€" := by decide

/-- C22. Reading into `char[N]` never leaves the array: the outcome is defined
and the array holds at most `N` decoded bytes followed by zeros. -/
theorem C22_char_array_bounds (N : Nat) (v0 s : Bytes) (e : EPtr) :
    ∃ w p e', (charArraySer N).de v0 s e = .ok (w ++ List.replicate (N - w.length) 0, p, e') ∧ w.length ≤ N := by
  obtain ⟨w, p, e', h1, h2, _⟩ := deCharArray_eq N v0 s e
  exact ⟨w, p, e', h1, h2⟩

/-- C22. A string that fits is stored in full. -/
theorem C22_char_array_fits {N : Nat} {u v : Bytes} (h : Decodes u v) (hN : v.length ≤ N) (v0 rest : Bytes) (e : EPtr) :
    (charArraySer N).de v0 (c%'"' :: u ++ c%'"' :: rest) e = .ok (v ++ List.replicate (N - v.length) 0, rest, e) := by
  obtain ⟨w, p, e', h1, _, _, _, h5⟩ := deCharArray_eq N v0 (c%'"' :: u ++ c%'"' :: rest) e
  have := h5 _ rfl
  rw [show List.append u (c%'"' :: rest) = u ++ c%'"' :: rest from rfl, strDec_decodes h hN] at this
  obtain ⟨rfl, rfl, rfl⟩ := this
  exact h1

/-- C22. A longer string is reported as an error. `l` lists the units of the
token with their values; the condition `x.2.length ≤ 4` excludes the `\u00XX`
escapes of control characters, see the counterexample below. -/
theorem C22_char_array_too_long {N : Nat} {l : List (Bytes × Bytes)}
    (hl : ∀ x ∈ l, DUnit x.1 x.2 ∧ RChar x.1 ∧ x.2.length ≤ 4) (hN : N < (l.flatMap (·.2)).length)
    (v0 rest : Bytes) {e : EPtr} (he : e.Clean) :
    ∃ v p e', (charArraySer N).de v0 (c%'"' :: l.flatMap (·.1) ++ c%'"' :: rest) e = .ok (v, p, e') ∧
      e'.failed = true := by
  obtain ⟨w, p, e', h1, _, _, _, h5⟩ := deCharArray_eq N v0 (c%'"' :: l.flatMap (·.1) ++ c%'"' :: rest) e
  have := h5 _ rfl
  refine ⟨_, p, e', h1, ?_⟩
  rw [this.2.2]
  exact strDec_long hl hN (c%'"' :: rest) he

/-- C22, exception: the six characters of a control escape may be cut off
without an error. -/
theorem C22_control_escape_cut_silently :
    (charArraySer 3).de [] b!"\"\\u0001\"" .fresh = .ok (b!"\\u0", [], .fresh) := by decide +kernel

/-- C22. An array is read back as written: the bytes before the first NUL, with
zeros after them. -/
theorem C22_char_array_round_trip {N : Nat} {v : Bytes} (hN : v.length ≤ N) (h0 : ∀ b ∈ v, b ≠ 0)
    (h1 : ∀ b ∈ v, 0x20 ≤ b ∨ ShortCtl b.toNat) (hv : ¬ HasLongSeq v) (pad : Bytes)
    (hpad : ∀ b, pad.head? = some b → b = 0) :
    ∃ t, (∀ k, (charArraySer N).emit (v ++ pad) k = k.puts t) ∧ ∀ v0 rest e,
      (charArraySer N).de v0 (t ++ rest) e = .ok (v ++ List.replicate (N - v.length) 0, rest, e) := by
  have htw : (v ++ pad).takeWhile (· ≠ 0) = v := by
    have : pad.takeWhile (· ≠ 0) = [] := by
      cases pad with
      | nil => rfl
      | cons b p => simp [hpad b rfl]
    rw [List.takeWhile_append_of_pos (by simpa using h0), this, List.append_nil]
  refine ⟨c%'"' :: strBody true (v ++ pad) ++ b!"\"", fun k => rfl, fun v0 rest e => ?_⟩
  rw [strBody_nt, htw]
  have hd := strBody_decodes v hv
  rw [C19_expand_identity h1] at hd
  have := C22_char_array_fits hd hN v0 rest e
  simpa using this

example : (charArraySer 4).de [1, 2, 3, 4] b!"\"ab\" " .fresh = .ok ([97, 98, 0, 0], b!" ", .fresh) := by decide +kernel
example : (charArraySer 1).de [] b!"\"ab\"" .fresh = .ok ([97], [], .obj ⟨.ExpectedOf, some b!"\"", 2⟩) := by
  decide +kernel
example : ∀ x ∈ [(b!"a", b!"a"), (b!"\\u00e9", b!"é")], DUnit x.1 x.2 ∧ RChar x.1 ∧ x.2.length ≤ 4 := by
  intro x hx
  simp at hx
  rcases hx with rfl | rfl
  · exact ⟨.ascii (by decide) (by decide) (by decide), .ascii (by decide) (by decide) (by decide) (by decide), by decide⟩
  · refine ⟨?_, .uni (by decide) (by decide) (by decide) (by decide), by decide⟩
    have h : DUnit [c%'\\', c%'u', c%'0', c%'0', c%'e', c%'9'] (utf8Enc (hex4 c%'0' c%'0' c%'e' c%'9')) :=
      .uni (by decide) (by decide) (by decide) (by decide) (.inl (by decide))
    have hw : utf8Enc (hex4 c%'0' c%'0' c%'e' c%'9') = b!"é" := by decide
    rwa [hw] at h

/-- C23. A `\u` (or `\x`) escape with a byte that is not a hexadecimal digit
among its four (two) is reported, whatever comes before and after. -/
theorem C23_bad_hex_reported {x : Byte} {k : Nat} (hx : (x = c%'u' ∧ k = 4) ∨ (x = c%'x' ∧ k = 2))
    {u v ds : Bytes} {b : Byte} (hu : Decodes u v) (hv : v.length < 2147483647) (hd : ∀ b ∈ ds, HexDigit b)
    (hl : ds.length < k) (hb : ¬ HexDigit b) (rest v0 : Bytes) {e : EPtr} (he : e.Clean) :
    ∃ w p e', strSer.de v0 (c%'"' :: u ++ c%'\\' :: x :: (ds ++ b :: rest)) e = .ok (w, p, e') ∧ e'.failed = true := by
  have := strDec_badhex hx hu (n := intMax) hv hd hl hb (t := rest) he
  refine ⟨(strDec (u ++ c%'\\' :: x :: (ds ++ b :: rest)) intMax e).1,
    (strDec (u ++ c%'\\' :: x :: (ds ++ b :: rest)) intMax e).2.1,
    (strDec (u ++ c%'\\' :: x :: (ds ++ b :: rest)) intMax e).2.2, ?_, this⟩
  simp only [strSer, deStr]
  have hnn : isNull (c%'"' :: u ++ c%'\\' :: x :: (ds ++ b :: rest)) = false := rfl
  rw [hnn]
  simp only [Bool.false_eq_true, if_false, unserializeStr, List.cons_append, ne_eq, not_true, Sink.puts_back, Out.bind_ok,
    List.nil_append]

example : strSer.de [] b!"\"a\\u00g1\"" .fresh = .ok (b!"a\\u00g1", [], .obj ⟨.InvalidString, none, 0⟩) := by
  decide +kernel

end Wjson
