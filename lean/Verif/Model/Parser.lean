import Verif.Model.Error
/-
Model of wjson/parser.hpp (class `parser`), except `unserialize_integer`
(see Verif/Model/Integer.lean).

Conventions: the pair of iterators `beg,end` is the list of bytes between them,
a returned iterator is the remaining list, `return end` is `[]`. The private
overloads with a position counter `p` are merged with the public ones that
call them with `p = 0`: `p` is only ever used as the `tail_of` of errors of
`parse_null` / `parse_bool`, where the model keeps it.
-/
namespace Wjson

/-- The four white space bytes tested in wjson/parser.hpp:183 and :210. -/
def isWs (b : Byte) : Bool := b == c%' ' || b == c%'\t' || b == c%'\r' || b == c%'\n'

/-- `*beg>='0' && *beg<='9'`, wjson/parser.hpp:317,371,383,628. On platforms
with signed `char` bytes from 128 are negative and on platforms with unsigned
`char` they are larger than `'9'`: in both cases the test fails. -/
def isDigit (b : Byte) : Bool := c%'0' ≤ b && b ≤ c%'9'

/-- `*beg>='1' && *beg<='9'`, wjson/parser.hpp:352. -/
def isDigit19 (b : Byte) : Bool := c%'1' ≤ b && b ≤ c%'9'

/-- The hexadecimal digit test of wjson/parser.hpp:453-455. -/
def isHex (b : Byte) : Bool :=
  (c%'0' ≤ b && b ≤ c%'9') || (c%'A' ≤ b && b ≤ c%'F') || (c%'a' ≤ b && b ≤ c%'f')

/-- The loop of `parse_space`, wjson/parser.hpp:171-201. The first argument is
`start_comment`. -/
def spaceLoop : Bool → Bytes → EPtr → Bytes × EPtr
  | true, [], e => ([], createError .UnexpectedEndFragment e (some b!"Unterminated comment"))
  | false, [], e => ([], e)
  | true, b :: t, e =>
    if b = c%'*' then
      -- lines 175-181: `++beg`, then look at the next byte without consuming it
      if t.head? = some c%'/' then spaceLoop false t e else spaceLoop true t e
    else spaceLoop true t e
  | false, b :: t, e =>
    if isWs b then spaceLoop false t e
    else if b = c%'/' then
      -- lines 185-191
      if t.head? = some c%'*' then spaceLoop true t e else spaceLoop false t e
    else (b :: t, e)

/-- `parser::parse_space`, wjson/parser.hpp:159-202. -/
def parseSpace (s : Bytes) (e : EPtr) : Bytes × EPtr := spaceLoop false s e

/-- `parser::is_space`, wjson/parser.hpp:204-219. -/
def isSpace : Bytes → Bool
  | [] => false
  | b :: t => if isWs b then true else if b = c%'/' then t.head? == some c%'*' else false

/-- `parser::is_null`, wjson/parser.hpp:221-225. -/
def isNull (s : Bytes) : Bool := s.head? == some c%'n'

/-- The chain `++p && ++beg!=end && *beg==...` of wjson/parser.hpp:242-254,
281-292, 296-308: match the remaining letters of the literal `lit`; `p` is the
number of bytes consumed so far. -/
def litRest (lit : Bytes) : Bytes → Nat → Bytes → EPtr → Bytes × EPtr
  | [], _, s, e => (s, e)
  | _ :: _, _, [], e => ([], createError .UnexpectedEndFragment e)
  | x :: xs, p, b :: t, e =>
    if b = x then litRest lit xs (p + 1) t e
    else ([], createError .ExpectedOf e (some lit) p)

/-- `parser::parse_null`, wjson/parser.hpp:227-258. -/
def parseNull : Bytes → EPtr → Bytes × EPtr
  | [], e => ([], createError .UnexpectedEndFragment e)
  | b :: t, e =>
    if b = c%'n' then litRest b!"null" b!"ull" 1 t e
    else ([], createError .InvalidNull e none 0)

/-- `parser::is_bool`, wjson/parser.hpp:260-264. -/
def isBool (s : Bytes) : Bool := s.head? == some c%'t' || s.head? == some c%'f'

/-- `parser::parse_bool`, wjson/parser.hpp:266-312. -/
def parseBool : Bytes → EPtr → Bytes × EPtr
  | [], e => ([], createError .UnexpectedEndFragment e)
  | b :: t, e =>
    if b = c%'t' then litRest b!"true" b!"rue" 1 t e
    else if b = c%'f' then litRest b!"false" b!"alse" 1 t e
    else ([], createError .InvalidBool e none 0)

/-- `parser::is_number`, wjson/parser.hpp:314-318. -/
def isNumber : Bytes → Bool
  | [] => false
  | b :: _ => b == c%'-' || isDigit b

/-- `parser::parse_digit`, wjson/parser.hpp:625-630. -/
def parseDigit : Bytes → Bytes
  | [] => []
  | b :: t => if isDigit b then parseDigit t else b :: t

/-- Part of `parse_integer` after the optional minus, wjson/parser.hpp:345-358. -/
def parseIntegerAbs : Bytes → EPtr → Bytes × EPtr
  | [], e => ([], createError .UnexpectedEndFragment e)
  | b :: t, e =>
    if b = c%'0' then (t, e)
    else if isDigit19 b then (parseDigit (b :: t), e)
    else ([], createError .InvalidNumber e)

/-- `parser::parse_integer`, wjson/parser.hpp:327-359. -/
def parseInteger : Bytes → EPtr → Bytes × EPtr
  | [], e => ([], createError .UnexpectedEndFragment e)
  | b :: t, e => if b = c%'-' then parseIntegerAbs t e else parseIntegerAbs (b :: t) e

/-- Fraction part of `parse_number`, wjson/parser.hpp:366-375. The third
component tells whether the function goes on to the exponent part (`false`: it
returned an error). -/
def parseFrac : Bytes → EPtr → Bytes × EPtr × Bool
  | [], e => ([], e, true)
  | b :: t, e =>
    if b = c%'.' then
      match t with
      | [] => ([], createError .UnexpectedEndFragment e, false)
      | d :: t' =>
        if isDigit d then (parseDigit (d :: t'), e, true)
        else ([], createError .InvalidNumber e, false)
    else (b :: t, e, true)

/-- The digits of the exponent, wjson/parser.hpp:381-385. -/
def parseExpDigits : Bytes → EPtr → Bytes × EPtr
  | [], e => ([], createError .UnexpectedEndFragment e)
  | d :: t, e =>
    if isDigit d then (parseDigit (d :: t), e) else ([], createError .InvalidNumber e)

/-- Exponent part of `parse_number`, wjson/parser.hpp:377-387. -/
def parseExp : Bytes → EPtr → Bytes × EPtr
  | [], e => ([], e)
  | b :: t, e =>
    if b = c%'e' ∨ b = c%'E' then
      match t with
      | [] => ([], createError .UnexpectedEndFragment e)
      | x :: t' =>
        if x = c%'-' ∨ x = c%'+' then parseExpDigits t' e else parseExpDigits (x :: t') e
    else (b :: t, e)

/-- `parser::parse_number`, wjson/parser.hpp:320-325 and 361-388. -/
def parseNumber (s : Bytes) (e : EPtr) : Bytes × EPtr :=
  let r := parseInteger s e
  let f := parseFrac r.1 r.2
  if f.2.2 then parseExp f.1 f.2.1 else (f.1, f.2.1)

/-- `parser::is_string`, wjson/parser.hpp:390-396. -/
def isString (s : Bytes) : Bool := s.head? == some c%'"'

/-- `parser::parse_hex`, wjson/parser.hpp:443-462, with the number of digits
still to read (4 at the start). The check before the loop (lines 446-447)
repeats the check of the first iteration. -/
def parseHexN : Nat → Bytes → EPtr → Bytes × EPtr
  | 0, s, e => (s, e)
  | _ + 1, [], e => ([], createError .UnexpectedEndFragment e)
  | n + 1, b :: t, e =>
    if isHex b then parseHexN n t e
    else ([], createError .InvalidString e none ((b :: t).length : Nat))

/-- `parser::parse_hex`, wjson/parser.hpp:443-462. -/
def parseHex (s : Bytes) (e : EPtr) : Bytes × EPtr := parseHexN 4 s e

/-- `parser::parse_utf8_part_<N>`, wjson/parser.hpp:464-480. -/
def parseUtf8Part : Nat → Bytes → EPtr → Bytes × EPtr
  | 0, s, e => (s, e)
  | _ + 1, [], e => ([], createError .UnexpectedEndFragment e)
  | n + 1, b :: t, e =>
    if b &&& 192 ≠ 128 then ([], createError .InvalidString e none ((b :: t).length : Nat))
    else parseUtf8Part n t e

/-- The lead byte tests of `parse_utf8`, wjson/parser.hpp:506-511: number of
continuation bytes, `none` when no test matches. -/
def utf8Lead (b : Byte) : Option Nat :=
  if b &&& 128 = 0 then some 0
  else if b &&& 224 = 192 then some 1
  else if b &&& 240 = 224 then some 2
  else if b &&& 248 = 240 then some 3
  else if b &&& 252 = 248 then some 4
  else if b &&& 254 = 252 then some 5
  else none

/-- `parser::is_utf8`, wjson/parser.hpp:482-492. -/
def isUtf8 : Bytes → Bool
  | [] => false
  | b :: _ =>
    b &&& 128 == 0 || b &&& 224 == 192 || b &&& 240 == 224 || b &&& 248 == 240
      || b &&& 252 == 248 || b &&& 254 == 252

/-- `parser::parse_utf8` on a non-empty range, wjson/parser.hpp:495-513. -/
def parseUtf8Ne (b : Byte) (t : Bytes) (e : EPtr) : Bytes × EPtr :=
  match utf8Lead b with
  | some n => parseUtf8Part n t e
  | none => ([], createError .InvalidString e none ((b :: t).length : Nat))

/-- `parser::parse_utf8`, wjson/parser.hpp:495-513. The function dereferences
`beg` without comparing it with `end`; on an empty range whose `*end` is
readable, the ASCII branch would return `end+1`, which the model calls
undefined as well. -/
def parseUtf8 (s : Bytes) (e : EPtr) : Out (Bytes × EPtr) :=
  match s with
  | [] => .ub
  | b :: t => .ok (parseUtf8Ne b t e)

theorem parseHexN_length (n : Nat) (s : Bytes) (e : EPtr) :
    (parseHexN n s e).1.length ≤ s.length := by
  induction n generalizing s with
  | zero => simp [parseHexN]
  | succ n ih =>
    cases s with
    | nil => simp [parseHexN]
    | cons b t =>
      simp only [parseHexN]
      split
      · exact Nat.le_trans (ih t) (by simp)
      · simp

theorem parseUtf8Part_length (n : Nat) (s : Bytes) (e : EPtr) :
    (parseUtf8Part n s e).1.length ≤ s.length := by
  induction n generalizing s with
  | zero => simp [parseUtf8Part]
  | succ n ih =>
    cases s with
    | nil => simp [parseUtf8Part]
    | cons b t =>
      simp only [parseUtf8Part]
      split
      · simp
      · exact Nat.le_trans (ih t) (by simp)

theorem parseUtf8Ne_length (b : Byte) (t : Bytes) (e : EPtr) :
    (parseUtf8Ne b t e).1.length ≤ t.length := by
  unfold parseUtf8Ne
  split
  · exact parseUtf8Part_length _ _ _
  · simp

/-- The bytes allowed after a backslash, wjson/parser.hpp:414-416. -/
def isEsc (b : Byte) : Bool :=
  b == c%'"' || b == c%'\\' || b == c%'/' || b == c%'t' || b == c%'b' || b == c%'n'
    || b == c%'r' || b == c%'f' || b == c%'u'

/-- The loop of `parse_string` and the code after it, wjson/parser.hpp:407-440.
The loop is left only at `end` or at a quote, so lines 438-439 are dead. The
recursion is accepted by Lean because every branch shortens the range: the C++
loop terminates. -/
def strLoop (s : Bytes) (e : EPtr) : Bytes × EPtr :=
  match s with
  | [] => ([], createError .UnexpectedEndFragment e)
  | b :: t =>
    if b = c%'"' then (t, e)
    else if b = c%'\\' then
      match t with
      | [] => ([], createError .UnexpectedEndFragment e)
      | x :: t' =>
        if !isEsc x then ([], createError .InvalidString e none ((x :: t').length : Nat))
        else if x = c%'u' then strLoop (parseHex t' e).1 (parseHex t' e).2
        else strLoop t' e
    else strLoop (parseUtf8Ne b t e).1 (parseUtf8Ne b t e).2
termination_by s.length
decreasing_by
  · have := parseHexN_length 4 t' e
    simp only [parseHex, List.length_cons]; omega
  · simp only [List.length_cons]; omega
  · have := parseUtf8Ne_length b t e
    simp only [List.length_cons]; omega

/-- `parser::parse_string`, wjson/parser.hpp:398-441. -/
def parseString : Bytes → EPtr → Bytes × EPtr
  | [], e => ([], createError .UnexpectedEndFragment e)
  | b :: t, e =>
    if b ≠ c%'"' then ([], createError .ExpectedOf e (some b!"\"") ((b :: t).length : Nat))
    else strLoop t e

/-- `parser::is_object`, wjson/parser.hpp:516-525. -/
def isObject : Bytes → Bool
  | [] => false
  | b :: t =>
    if b = c%'{' then true
    else if b ≠ c%'[' then false
    else (parseSpace t .null).1.head? == some c%']'

/-- `parser::is_array`, wjson/parser.hpp:527-531. -/
def isArray (s : Bytes) : Bool := s.head? == some c%'['

/-- The code after the loop of `parse_object` (`cl = '}'`, wjson/parser.hpp:595-598)
and of `parse_array` (`cl = ']'`, wjson/parser.hpp:619-622). -/
def closeWith (cl : Byte) : Bytes → EPtr → Bytes × EPtr
  | [], e => ([], createError .ExpectedOf e (some [cl]) 0)
  | b :: t, e =>
    if b ≠ cl then ([], createError .ExpectedOf e (some [cl]) ((b :: t).length : Nat))
    else (t, e)

mutual

/-- `parser::parse_value`, wjson/parser.hpp:533-544. The first argument after
the configuration is the recursion budget. -/
def parseValueF (c : Cfg) : Nat → Bytes → EPtr → Out (Bytes × EPtr)
  | 0, _, _ => .fuel
  | n + 1, s, e =>
    if isNull s then .ok (parseNull s e)
    else if isBool s then .ok (parseBool s e)
    else if isNumber s then .ok (parseNumber s e)
    else if isString s then .ok (parseString s e)
    else if isObject s then parseObjectF c n s e
    else if isArray s then parseArrayF c n s e
    else .ok ([], createError .InvalidJSON e none (s.length : Nat))

/-- `parser::parse_member`, wjson/parser.hpp:546-567. -/
def parseMemberF (c : Cfg) : Nat → Bytes → EPtr → Out (Bytes × EPtr)
  | 0, _, _ => .fuel
  | n + 1, s, e =>
    if !isString s then .ok ([], createError .InvalidMember e none (s.length : Nat))
    else
      let r := parseString s e
      match r.1 with
      | [] => .ok ([], createError .UnexpectedEndFragment r.2)
      | b :: t =>
        let r := parseSpace (b :: t) r.2
        match r.1 with
        | [] => .ok ([], createError .UnexpectedEndFragment r.2)
        | b :: t =>
          if b ≠ c%':' then
            .ok ([], createError .ExpectedOf r.2 (some b!":") (t.length : Nat))
          else
            match t with
            | [] => .ok ([], createError .UnexpectedEndFragment r.2)
            | b :: t =>
              let r := parseSpace (b :: t) r.2
              match r.1 with
              | [] => .ok ([], createError .UnexpectedEndFragment r.2)
              | b :: t => parseValueF c n (b :: t) r.2

/-- `parser::parse_object`, wjson/parser.hpp:569-599. -/
def parseObjectF (c : Cfg) : Nat → Bytes → EPtr → Out (Bytes × EPtr)
  | 0, _, _ => .fuel
  | n + 1, s, e =>
    if !isObject s then .ok ([], createError .ExpectedOf e (some b!"{") (s.length : Nat))
    else
      let r := parseSpace s.tail e
      if r.1.head? = some c%']' then .ok (r.1.tail, r.2)
      else objectLoopF c n r.1 r.2

/-- The loop of `parse_object`, wjson/parser.hpp:583-598. Line 586 dereferences
`beg` without comparing it with `end`. -/
def objectLoopF (c : Cfg) : Nat → Bytes → EPtr → Out (Bytes × EPtr)
  | 0, _, _ => .fuel
  | n + 1, s, e =>
    if s = [] ∨ s.head? = some c%'}' then .ok (closeWith c%'}' s e)
    else
      let r := parseSpace s e
      deref c r.1 >>= fun x =>
      if x = c%'}' then .ok (closeWith c%'}' r.1 r.2)
      else
        parseMemberF c n r.1 r.2 >>= fun r =>
        let r := parseSpace r.1 r.2
        match r.1 with
        | [] => .ok ([], createError .ExpectedOf r.2 (some b!"}") 0)
        | b :: t =>
          if b ≠ c%',' ∧ b ≠ c%'}' then
            .ok ([], createError .ExpectedOf r.2 (some b!"}") ((b :: t).length : Nat))
          else if b = c%',' then objectLoopF c n t r.2
          else objectLoopF c n (b :: t) r.2

/-- `parser::parse_array`, wjson/parser.hpp:601-623. -/
def parseArrayF (c : Cfg) : Nat → Bytes → EPtr → Out (Bytes × EPtr)
  | 0, _, _ => .fuel
  | n + 1, s, e =>
    if !isArray s then .ok ([], createError .ExpectedOf e (some b!"[") (s.length : Nat))
    else arrayLoopF c n s.tail e

/-- The loop of `parse_array`, wjson/parser.hpp:607-622. Line 610 dereferences
`beg` without comparing it with `end`. -/
def arrayLoopF (c : Cfg) : Nat → Bytes → EPtr → Out (Bytes × EPtr)
  | 0, _, _ => .fuel
  | n + 1, s, e =>
    if s = [] ∨ s.head? = some c%']' then .ok (closeWith c%']' s e)
    else
      let r := parseSpace s e
      deref c r.1 >>= fun x =>
      if x = c%']' then .ok (closeWith c%']' r.1 r.2)
      else
        parseValueF c n r.1 r.2 >>= fun r =>
        let r := parseSpace r.1 r.2
        match r.1 with
        | [] => .ok ([], createError .ExpectedOf r.2 (some b!"]") 0)
        | b :: t =>
          if b ≠ c%',' ∧ b ≠ c%']' then
            .ok ([], createError .ExpectedOf r.2 (some b!"]") ((b :: t).length : Nat))
          else if b = c%',' then arrayLoopF c n t r.2
          else arrayLoopF c n (b :: t) r.2

end

/-- Recursion budget used by the API functions below (three calls per byte). -/
def fuelFor (s : Bytes) : Nat := 3 * s.length + 4

/-- `parser::parse_value`, wjson/parser.hpp:533-544. -/
def parseValue (c : Cfg) (s : Bytes) (e : EPtr) : Out (Bytes × EPtr) := parseValueF c (fuelFor s) s e

/-- `parser::parse_member`, wjson/parser.hpp:546-567. -/
def parseMember (c : Cfg) (s : Bytes) (e : EPtr) : Out (Bytes × EPtr) := parseMemberF c (fuelFor s) s e

/-- `parser::parse_object`, wjson/parser.hpp:569-599. -/
def parseObject (c : Cfg) (s : Bytes) (e : EPtr) : Out (Bytes × EPtr) := parseObjectF c (fuelFor s) s e

/-- `parser::parse_array`, wjson/parser.hpp:601-623. -/
def parseArray (c : Cfg) (s : Bytes) (e : EPtr) : Out (Bytes × EPtr) := parseArrayF c (fuelFor s) s e

/-- `parser::parse`, wjson/parser.hpp:122-126. -/
def parse (c : Cfg) (s : Bytes) (e : EPtr) : Out (Bytes × EPtr) := parseValue c s e

end Wjson
