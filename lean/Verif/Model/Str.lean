import Verif.Model.Sink
import Verif.Model.Parser
/-
Model of wjson/serializer/string.hpp and wjson/serializer/bool.hpp.

Simplification: the C++ code writes through an output iterator byte by byte.
No decision of the code depends on what was written, so the model first
computes the bytes in order and then writes them with `Sink.puts`; an out of
bounds write is undefined in both cases.
-/
namespace Wjson

/-- Lower case hexadecimal digit, as printed by `std::hex`. -/
def hexChar (n : Nat) : Byte := if n < 10 then UInt8.ofNat (48 + n) else UInt8.ofNat (87 + n)

/-- `serializerS::serialize_hex_`, wjson/serializer/string.hpp:132-154.
`std::setw(4)`/`std::setw(2)` with fill `'0'` and `std::hex` (the formatting of
the standard library is trusted). -/
def hexEsc (b : Byte) : Bytes :=
  if b < 128 then [c%'\\', c%'u', c%'0', c%'0', hexChar (b.toNat / 16), hexChar (b.toNat % 16)]
  else [c%'\\', c%'x', hexChar (b.toNat / 16), hexChar (b.toNat % 16)]

/-- One step of the switch of wjson/serializer/string.hpp:43-57: bytes below 32
and the three characters that are always escaped. -/
def escByte (b : Byte) : Bytes :=
  if b = c%'"' ∨ b = c%'\\' ∨ b = c%'/' then [c%'\\', b]
  else if b = c%'\t' then [c%'\\', c%'t']
  else if b = 8 then [c%'\\', c%'b']
  else if b = c%'\r' then [c%'\\', c%'r']
  else if b = c%'\n' then [c%'\\', c%'n']
  else if b = 12 then [c%'\\', c%'f']
  else hexEsc b

/-- The loop of `serializerS<char, NullTerm>::serialize`,
wjson/serializer/string.hpp:36-81: the bytes written between the quotes. -/
def strBody (nt : Bool) (s : Bytes) : Bytes :=
  match s with
  | [] => []
  | b :: t =>
    if nt && b == 0 then []
    else if b < 32 ∨ b = c%'"' ∨ b = c%'\\' ∨ b = c%'/' then escByte b ++ strBody nt t
    else if b < 127 then b :: strBody nt t
    else if isUtf8 (b :: t) then
      let r := parseUtf8Ne b t .fresh
      if r.2.failed then hexEsc b ++ strBody nt t
      else (b :: t).take ((b :: t).length - r.1.length) ++ strBody nt r.1
    else hexEsc b ++ strBody nt t
termination_by s.length
decreasing_by
  · simp
  · simp
  · simp
  · have := parseUtf8Ne_length b t .fresh
    simp only [List.length_cons]; omega
  · simp

/-- `serializerS<char, NullTerm>::serialize`, wjson/serializer/string.hpp:31-84. -/
def emitStr (nt : Bool) (v : Bytes) (k : Sink) : Out Sink := k.puts (c%'"' :: strBody nt v ++ b!"\"")

/-- `serializerS::uchar2_`, wjson/serializer/string.hpp:285-293. -/
def hexVal (b : Byte) (e : EPtr) : Nat × EPtr :=
  if c%'0' ≤ b ∧ b ≤ c%'9' then (b.toNat - 48, e)
  else if c%'a' ≤ b ∧ b ≤ c%'f' then (b.toNat - 97 + 10, e)
  else if c%'A' ≤ b ∧ b ≤ c%'F' then (b.toNat - 65 + 10, e)
  else (0, createError .InvalidString e)

/-- The reading of `k` hexadecimal digits in `unserialize_uhex_`
(wjson/serializer/string.hpp:201-212) and `unserialize_xhex_` (:274-279):
`none` when the input ends. -/
def hexN : Nat → Nat → Bytes → EPtr → Option (Nat × Bytes) × EPtr
  | 0, acc, s, e => (some (acc, s), e)
  | _ + 1, _, [], e => (none, createError .UnexpectedEndFragment e)
  | k + 1, acc, b :: t, e => hexN k (acc * 16 + (hexVal b e).1) t (hexVal b e).2

/-- Result of one decoding step: bytes written, rest of the input, remaining
capacity `n`, error. -/
abbrev StrStep := Bytes × Bytes × Nat × EPtr

/-- `serializerS::utf8_copy_<N>`, wjson/serializer/string.hpp:178-188. -/
def utf8Copy : Nat → Bytes → Nat → EPtr → StrStep
  | 0, s, n, e => ([], s, n, e)
  | _ + 1, s, 0, e => ([], s, 0, e)
  | _ + 1, [], n + 1, e => ([], [], n + 1, createError .UnexpectedEndFragment e)
  | i + 1, b :: t, n + 1, e => (b :: (utf8Copy i t n e).1, (utf8Copy i t n e).2)

/-- `serializerS::unserialize_utf8_` on a non-empty range with `n ≠ 0`,
wjson/serializer/string.hpp:156-176. -/
def utf8Step (b : Byte) (t : Bytes) (n : Nat) (e : EPtr) : StrStep :=
  if b &&& 128 = 0 then ([b], t, n - 1, e)
  else if b &&& 224 = 192 then utf8Copy 2 (b :: t) n e
  else if b &&& 240 = 224 then utf8Copy 3 (b :: t) n e
  else if b &&& 248 = 240 then utf8Copy 4 (b :: t) n e
  else ([], [], n, createError .InvalidString e none ((b :: t).length : Nat))

/-- `serializerS::unserialize_uhex_`, wjson/serializer/string.hpp:195-268; `s`
is the range after the letter `u`. In the branch for control characters (lines
221-238) every write is followed by the test `n==0`, so that at most `n` bytes
of the escape are copied. -/
def uhexStep (s : Bytes) (n : Nat) (e : EPtr) : StrStep :=
  if n = 0 then ([], s, n, e)
  else
    match hexN 4 0 s e with
    | (none, e) => ([], [], n, e)
    | (some (hex, p), e) =>
      if hex < 32 then
        if hex = 9 ∨ hex = 13 ∨ hex = 10 ∨ hex = 8 ∨ hex = 12 then ([UInt8.ofNat hex], p, n - 1, e)
        else
          let w := (c%'\\' :: c%'u' :: s.take 4).take n
          (w, p, n - w.length, e)
      else if hex ≤ 0x7F then ([UInt8.ofNat hex], p, n - 1, e)
      else if hex ≤ 0x7FF then
        let b1 := (192 : UInt8) ||| UInt8.ofNat (hex >>> 6)
        let b2 := (128 : UInt8) ||| (UInt8.ofNat hex &&& (63 : UInt8))
        if n = 1 then ([b1], [], 0, createError .InvalidString e none (p.length : Nat))
        else ([b1, b2], p, n - 2, e)
      else
        let b1 := (224 : UInt8) ||| UInt8.ofNat (hex >>> 12)
        let b2 := (128 : UInt8) ||| (UInt8.ofNat (hex >>> 6) &&& (63 : UInt8))
        let b3 := (128 : UInt8) ||| (UInt8.ofNat hex &&& (63 : UInt8))
        if n = 1 then ([b1], [], 0, createError .InvalidString e none (p.length : Nat))
        else if n = 2 then ([b1, b2], [], 0, createError .InvalidString e none (p.length : Nat))
        else ([b1, b2, b3], p, n - 3, e)

/-- `serializerS::unserialize_xhex_`, wjson/serializer/string.hpp:270-283. -/
def xhexStep (s : Bytes) (n : Nat) (e : EPtr) : StrStep :=
  match hexN 2 0 s e with
  | (none, e) => ([], [], n, e)
  | (some (hex, p), e) => ([UInt8.ofNat hex], p, n - 1, e)

/-- The simple escapes of wjson/serializer/string.hpp:103-110. -/
def simpleEsc (x : Byte) : Option Byte :=
  if x = c%'"' ∨ x = c%'\\' ∨ x = c%'/' then some x
  else if x = c%'t' then some 9
  else if x = c%'b' then some 8
  else if x = c%'r' then some 13
  else if x = c%'n' then some 10
  else if x = c%'f' then some 12
  else none

/-- The body of the loop of `serializerS::unserialize` on a non-empty range
that does not start with a quote and with `n ≠ 0`,
wjson/serializer/string.hpp:97-118. The two early `return create_error` (lines
99-100, 113-114) return `end`; leaving the loop with `beg == end` instead gives the
same result, because a second `create_error` changes nothing. -/
def strStep (b : Byte) (t : Bytes) (n : Nat) (e : EPtr) : StrStep :=
  if b = c%'\\' then
    match t with
    | [] => ([], [], n, createError .UnexpectedEndFragment e)
    | x :: t' =>
      match simpleEsc x with
      | some y => ([y], t', n - 1, e)
      | none =>
        if x = c%'u' then uhexStep t' n e
        else if x = c%'x' then xhexStep t' n e
        else ([], [], n, createError .InvalidString e none ((x :: t').length : Nat))
  else utf8Step b t n e

theorem hexN_length {k acc : Nat} {s : Bytes} {e e' : EPtr} {h : Nat} {p : Bytes}
    (hh : hexN k acc s e = (some (h, p), e')) : p.length ≤ s.length := by
  induction k generalizing acc s e with
  | zero => simp [hexN] at hh; simp [hh.1.2]
  | succ k ih =>
    cases s with
    | nil => simp [hexN] at hh
    | cons b t => exact Nat.le_trans (ih hh) (by simp)

theorem utf8Copy_length (i : Nat) (s : Bytes) (n : Nat) (e : EPtr) :
    (utf8Copy i s n e).2.1.length ≤ s.length := by
  induction i generalizing s n with
  | zero => simp [utf8Copy]
  | succ i ih =>
    cases n with
    | zero => simp [utf8Copy]
    | succ n =>
      cases s with
      | nil => simp [utf8Copy]
      | cons b t => exact Nat.le_trans (ih t n) (by simp)

theorem utf8Copy_length_lt {i n : Nat} (b : Byte) (t : Bytes) (e : EPtr) (hn : n ≠ 0) :
    (utf8Copy (i + 1) (b :: t) n e).2.1.length < (b :: t).length := by
  cases n with
  | zero => exact absurd rfl hn
  | succ n => exact Nat.lt_succ_of_le (utf8Copy_length i t n e)

theorem uhexStep_length (s : Bytes) (n : Nat) (e : EPtr) : (uhexStep s n e).2.1.length ≤ s.length := by
  unfold uhexStep
  split
  · simp
  · split
    · simp
    · next hh =>
      have := hexN_length hh
      repeat' split
      all_goals simp_all

theorem xhexStep_length (s : Bytes) (n : Nat) (e : EPtr) : (xhexStep s n e).2.1.length ≤ s.length := by
  unfold xhexStep
  split
  · simp
  · next hh => exact hexN_length hh

theorem strStep_length (b : Byte) (t : Bytes) {n : Nat} (e : EPtr) (hn : n ≠ 0) :
    (strStep b t n e).2.1.length < (b :: t).length := by
  unfold strStep
  split
  · split
    · simp
    · next x t' =>
      split
      · simp only [List.length_cons]; omega
      · split
        · have := uhexStep_length t' n e
          simp only [List.length_cons]; omega
        · split
          · have := xhexStep_length t' n e
            simp only [List.length_cons]; omega
          · simp
  · unfold utf8Step
    repeat' split
    · simp
    · exact utf8Copy_length_lt b t e hn
    · exact utf8Copy_length_lt b t e hn
    · exact utf8Copy_length_lt b t e hn
    · simp

/-- The loop of `serializerS::unserialize` and the code after it,
wjson/serializer/string.hpp:95-127: bytes written, rest, error. -/
def strDec (s : Bytes) (n : Nat) (e : EPtr) : Bytes × Bytes × EPtr :=
  match s with
  | [] => ([], [], createError .UnexpectedEndFragment e)
  | b :: t =>
    if b = c%'"' then ([], t, e)
    else if _hn : n = 0 then ([], [], createError .ExpectedOf e (some b!"\"") ((b :: t).length : Nat))
    else
      let r := strDec (strStep b t n e).2.1 (strStep b t n e).2.2.1 (strStep b t n e).2.2.2
      ((strStep b t n e).1 ++ r.1, r.2)
termination_by s.length
decreasing_by exact strStep_length b t e _hn

/-- `serializerS::unserialize`, wjson/serializer/string.hpp:86-128, writing
through the iterator `k`. -/
def unserializeStr (s : Bytes) (k : Sink) (n : Nat) (e : EPtr) : Out (Sink × Bytes × EPtr) :=
  match s with
  | [] => .ok (k, [], createError .UnexpectedEndFragment e)
  | b :: t =>
    if b ≠ c%'"' then .ok (k, [], createError .ExpectedOf e (some b!"\"") ((b :: t).length : Nat))
    else
      let r := strDec t n e
      k.puts r.1 >>= fun k => .ok (k, r.2)

/-- `std::numeric_limits<int>::max()` -/
def intMax : Nat := 2147483647

/-- `value<std::string>::serializer` and `value<std::vector<char>>::serializer`
(reading), wjson/serializer/string.hpp:337-346 and :361-369: the target is
cleared and filled by a back inserter. -/
def deStr : De Bytes := fun _ s e =>
  if isNull s then
    let r := parseNull s e
    .ok ([], r.1, r.2)
  else
    unserializeStr s ⟨[], .back⟩ intMax e >>= fun r => .ok (r.1.mem, r.2)

/-- `value<std::string>::serializer`, wjson/serializer/string.hpp:325-370. -/
def strSer : Ser Bytes := ⟨[], emitStr false, deStr⟩

/-- `value<char[N]>::serializer` (reading), wjson/serializer/string.hpp:311-321;
`N` fits an `int`. -/
def deCharArray (N : Nat) : De Bytes := fun _ s e =>
  let zero : Bytes := List.replicate N 0
  if isNull s then
    let r := parseNull s e
    .ok (zero, r.1, r.2)
  else
    unserializeStr s ⟨zero, .ptr 0⟩ N e >>= fun r => .ok (r.1.mem, r.2)

/-- `value<char[N]>::serializer`, wjson/serializer/string.hpp:297-322. -/
def charArraySer (N : Nat) : Ser Bytes := ⟨List.replicate N 0, emitStr true, deCharArray N⟩

/-! ### bool -/

/-- `value<bool>::serializer` (writing), wjson/serializer/bool.hpp:20-39. -/
def emitBool (v : Bool) (k : Sink) : Out Sink := if v then k.puts b!"true" else k.puts b!"false"

/-- `value<bool>::serializer` (reading), wjson/serializer/bool.hpp:41-62. -/
def deBool : De Bool := fun v s e =>
  match s with
  | [] => .ok (v, [], createError .UnexpectedEndFragment e)
  | b :: t =>
    if isNull (b :: t) then
      let r := parseNull (b :: t) e
      .ok (false, r.1, r.2)
    else
      let v := b == c%'t'
      if v then
        let r := parseBool (b :: t) e
        .ok (v, r.1, r.2)
      else if b = c%'f' then
        let r := parseBool (b :: t) e
        .ok (v, r.1, r.2)
      else .ok (v, [], createError .InvalidBool e none ((b :: t).length : Nat))

/-- `value<bool>::serializer`, wjson/serializer/bool.hpp:15-63. -/
def boolSer : Ser Bool := ⟨false, emitBool, deBool⟩

end Wjson
