import Verif.Basic
/-
Specification: the JSON grammar of RFC 8259, and the wjson dialect.
Nothing in this file refers to the model.
-/
namespace Wjson.Spec
open Wjson

/-! ### Lexical classes -/

/-- RFC 8259 `ws` bytes. -/
def WsByte (b : Byte) : Prop := b = 0x20 ∨ b = 0x09 ∨ b = 0x0A ∨ b = 0x0D

/-- RFC 8259 `ws = *( ... )`. -/
def Ws (t : Bytes) : Prop := ∀ b ∈ t, WsByte b

def Digit (b : Byte) : Prop := 0x30 ≤ b ∧ b ≤ 0x39
def Digit19 (b : Byte) : Prop := 0x31 ≤ b ∧ b ≤ 0x39

/-- `1*DIGIT` -/
def Digits (t : Bytes) : Prop := t ≠ [] ∧ ∀ b ∈ t, Digit b

/-- `HEXDIG`, both cases. -/
def HexDigit (b : Byte) : Prop :=
  (0x30 ≤ b ∧ b ≤ 0x39) ∨ (0x41 ≤ b ∧ b ≤ 0x46) ∨ (0x61 ≤ b ∧ b ≤ 0x66)

/-! ### Numbers (RFC 8259 section 6) -/

/-- `int = zero / ( digit1-9 *DIGIT )` -/
def RInt (t : Bytes) : Prop := t = b!"0" ∨ ∃ d ds, t = d :: ds ∧ Digit19 d ∧ ∀ b ∈ ds, Digit b

/-- optional minus -/
def RMinus (t : Bytes) : Prop := t = [] ∨ t = b!"-"

/-- optional `frac = decimal-point 1*DIGIT` -/
def RFrac (t : Bytes) : Prop := t = [] ∨ ∃ ds, t = c%'.' :: ds ∧ Digits ds

/-- optional `exp = e [ minus / plus ] 1*DIGIT` -/
def RExp (t : Bytes) : Prop :=
  t = [] ∨ ∃ x sg ds, t = x :: (sg ++ ds) ∧ (x = c%'e' ∨ x = c%'E') ∧
    (sg = [] ∨ sg = b!"+" ∨ sg = b!"-") ∧ Digits ds

/-- `number = [ minus ] int [ frac ] [ exp ]` -/
def RNumber (t : Bytes) : Prop :=
  ∃ m i f x, t = m ++ i ++ f ++ x ∧ RMinus m ∧ RInt i ∧ RFrac f ∧ RExp x

/-! ### Strings (RFC 8259 section 7, UTF-8 by RFC 3629 section 4) -/

def Cont (b : Byte) : Prop := 0x80 ≤ b ∧ b ≤ 0xBF

/-- One well-formed UTF-8 character of two or more bytes (RFC 3629: no
overlong forms, no surrogates, at most U+10FFFF). -/
inductive Utf8Multi : Bytes → Prop
  | two {a b} : 0xC2 ≤ a → a ≤ 0xDF → Cont b → Utf8Multi [a, b]
  | threeE0 {b c} : 0xA0 ≤ b → b ≤ 0xBF → Cont c → Utf8Multi [0xE0, b, c]
  | three {a b c} : (0xE1 ≤ a ∧ a ≤ 0xEC) ∨ (0xEE ≤ a ∧ a ≤ 0xEF) → Cont b → Cont c → Utf8Multi [a, b, c]
  | threeED {b c} : 0x80 ≤ b → b ≤ 0x9F → Cont c → Utf8Multi [0xED, b, c]
  | fourF0 {b c d} : 0x90 ≤ b → b ≤ 0xBF → Cont c → Cont d → Utf8Multi [0xF0, b, c, d]
  | four {a b c d} : 0xF1 ≤ a → a ≤ 0xF3 → Cont b → Cont c → Cont d → Utf8Multi [a, b, c, d]
  | fourF4 {b c d} : 0x80 ≤ b → b ≤ 0x8F → Cont c → Cont d → Utf8Multi [0xF4, b, c, d]

/-- The bytes that may follow a backslash (without `u`). -/
def ShortEscape (b : Byte) : Prop :=
  b = c%'"' ∨ b = c%'\\' ∨ b = c%'/' ∨ b = c%'b' ∨ b = c%'f' ∨ b = c%'n' ∨ b = c%'r' ∨ b = c%'t'

/-- RFC 8259 `char`, as bytes. -/
inductive RChar : Bytes → Prop
  | ascii {b} : 0x20 ≤ b → b ≤ 0x7F → b ≠ c%'"' → b ≠ c%'\\' → RChar [b]
  | multi {t} : Utf8Multi t → RChar t
  | short {b} : ShortEscape b → RChar [c%'\\', b]
  | uni {a b c d} : HexDigit a → HexDigit b → HexDigit c → HexDigit d → RChar [c%'\\', c%'u', a, b, c, d]

/-- `*char` -/
inductive RChars : Bytes → Prop
  | nil : RChars []
  | cons {c t} : RChar c → RChars t → RChars (c ++ t)

/-- `string = quotation-mark *char quotation-mark` -/
def RString (t : Bytes) : Prop := ∃ u, RChars u ∧ t = c%'"' :: u ++ b!"\""

/-! ### Values -/

/-- Syntactic categories of values. -/
inductive Kind where
  | value | elems | members

/-- RFC 8259 values, `elems = value *( value-separator value )` and
`members = member *( value-separator member )`; white space is attached to the
structural characters as in the RFC. -/
inductive RG : Kind → Bytes → Prop
  | null : RG .value b!"null"
  | true : RG .value b!"true"
  | false : RG .value b!"false"
  | num {t} : RNumber t → RG .value t
  | str {t} : RString t → RG .value t
  | arr0 {w} : Ws w → RG .value (c%'[' :: w ++ b!"]")
  | arr {t} : RG .elems t → RG .value (c%'[' :: t ++ b!"]")
  | obj0 {w} : Ws w → RG .value (c%'{' :: w ++ b!"}")
  | obj {t} : RG .members t → RG .value (c%'{' :: t ++ b!"}")
  | elem {w1 v w2} : Ws w1 → RG .value v → Ws w2 → RG .elems (w1 ++ v ++ w2)
  | elemMore {w1 v w2 r} : Ws w1 → RG .value v → Ws w2 → RG .elems r →
      RG .elems (w1 ++ v ++ w2 ++ c%',' :: r)
  | memb {w0 k w1 w2 v w3} : Ws w0 → RString k → Ws w1 → Ws w2 → RG .value v → Ws w3 →
      RG .members (w0 ++ k ++ w1 ++ c%':' :: (w2 ++ v ++ w3))
  | membMore {w0 k w1 w2 v w3 r} : Ws w0 → RString k → Ws w1 → Ws w2 → RG .value v → Ws w3 →
      RG .members r → RG .members (w0 ++ k ++ w1 ++ c%':' :: (w2 ++ v ++ w3 ++ c%',' :: r))

/-- `t` is one JSON value by RFC 8259 (without surrounding white space). -/
abbrev RValue (t : Bytes) : Prop := RG .value t

/-- `t` is a JSON text by RFC 8259: `ws value ws`. -/
def RText (t : Bytes) : Prop := ∃ w1 v w2, Ws w1 ∧ RValue v ∧ Ws w2 ∧ t = w1 ++ v ++ w2

/-! ### The wjson dialect -/

/-- What wjson skips between tokens. Besides white space:
* a slash that is not followed by a star is skipped like white space;
* a slash followed by a star opens a comment. `body` runs from that star to the
  first star followed by a slash. The closing slash is *not* part of the
  comment: it is looked at again and, when followed by a star, opens a new one.
The star that opens may be the star that closes: slash star slash is complete. -/
inductive Gap : Bytes → Prop
  | nil : Gap []
  | ws {b t} : WsByte b → Gap t → Gap (b :: t)
  | slash {t} : t.head? ≠ some c%'*' → Gap t → Gap (c%'/' :: t)
  | comment {body t} : body.head? = some c%'*' → body.getLast? = some c%'*' →
      ¬ (b!"*/" <:+: body) → Gap (c%'/' :: t) → Gap (c%'/' :: (body ++ c%'/' :: t))

/-- Number of continuation bytes announced by a lead byte, 5- and 6-byte forms
included. -/
def LeadLen (b : Byte) (n : Nat) : Prop :=
  (b < 0x80 ∧ n = 0) ∨ (0xC0 ≤ b ∧ b < 0xE0 ∧ n = 1) ∨ (0xE0 ≤ b ∧ b < 0xF0 ∧ n = 2)
    ∨ (0xF0 ≤ b ∧ b < 0xF8 ∧ n = 3) ∨ (0xF8 ≤ b ∧ b < 0xFC ∧ n = 4) ∨ (0xFC ≤ b ∧ b < 0xFE ∧ n = 5)

/-- A UTF-8-shaped sequence: lead byte and the announced number of
continuation bytes. -/
def Utf8Shape (t : Bytes) : Prop := ∃ b n ts, t = b :: ts ∧ LeadLen b n ∧ ts.length = n ∧ ∀ x ∈ ts, Cont x

/-- One unit of a wjson string. -/
inductive XChar : Bytes → Prop
  | raw {t} : Utf8Shape t → t ≠ b!"\"" → t ≠ b!"\\" → XChar t
  | short {b} : ShortEscape b → XChar [c%'\\', b]
  | uni {a b c d} : HexDigit a → HexDigit b → HexDigit c → HexDigit d → XChar [c%'\\', c%'u', a, b, c, d]

inductive XChars : Bytes → Prop
  | nil : XChars []
  | cons {c t} : XChar c → XChars t → XChars (c ++ t)

def XString (t : Bytes) : Prop := ∃ u, XChars u ∧ t = c%'"' :: u ++ b!"\""

/-- wjson values. Differences to `RG`: `Gap` instead of `Ws`, `XString` instead
of `RString`, one trailing comma, and an empty object may be closed by `]`. -/
inductive XG : Kind → Bytes → Prop
  | null : XG .value b!"null"
  | true : XG .value b!"true"
  | false : XG .value b!"false"
  | num {t} : RNumber t → XG .value t
  | str {t} : XString t → XG .value t
  | arr0 {g} : Gap g → XG .value (c%'[' :: g ++ b!"]")
  | arr {t} : XG .elems t → XG .value (c%'[' :: t ++ b!"]")
  | obj0 {g} : Gap g → XG .value (c%'{' :: g ++ b!"}")
  | objBracket {g} : Gap g → XG .value (c%'{' :: g ++ b!"]")
  | obj {t} : XG .members t → XG .value (c%'{' :: t ++ b!"}")
  | elem {g1 v g2} : Gap g1 → XG .value v → Gap g2 → XG .elems (g1 ++ v ++ g2)
  | elemTrail {g1 v g2 g3} : Gap g1 → XG .value v → Gap g2 → Gap g3 →
      XG .elems (g1 ++ v ++ g2 ++ c%',' :: g3)
  | elemMore {g1 v g2 r} : Gap g1 → XG .value v → Gap g2 → XG .elems r →
      XG .elems (g1 ++ v ++ g2 ++ c%',' :: r)
  | memb {g0 k g1 g2 v g3} : Gap g0 → XString k → Gap g1 → Gap g2 → XG .value v → Gap g3 →
      XG .members (g0 ++ k ++ g1 ++ c%':' :: (g2 ++ v ++ g3))
  | membTrail {g0 k g1 g2 v g3 g4} : Gap g0 → XString k → Gap g1 → Gap g2 → XG .value v → Gap g3 → Gap g4 →
      XG .members (g0 ++ k ++ g1 ++ c%':' :: (g2 ++ v ++ g3 ++ c%',' :: g4))
  | membMore {g0 k g1 g2 v g3 r} : Gap g0 → XString k → Gap g1 → Gap g2 → XG .value v → Gap g3 →
      XG .members r → XG .members (g0 ++ k ++ g1 ++ c%':' :: (g2 ++ v ++ g3 ++ c%',' :: r))

abbrev XValue (t : Bytes) : Prop := XG .value t

/-! ### Follow conditions -/

/-- `rest` does not start with a byte that could continue a number. -/
def Delim (rest : Bytes) : Prop :=
  ∀ b, rest.head? = some b → ¬ Digit b ∧ b ≠ c%'.' ∧ b ≠ c%'e' ∧ b ≠ c%'E'

/-- `rest` can follow the number `t`: no digit (unless the number is an
integer `0`, which no digit can continue), no `.` after a plain integer, no
exponent letter after a number without exponent. -/
def NumFollow (t rest : Bytes) : Prop :=
  ∀ b, rest.head? = some b →
    (Digit b → t = b!"0" ∨ t = b!"-0") ∧
    (b = c%'.' → c%'.' ∈ t ∨ c%'e' ∈ t ∨ c%'E' ∈ t) ∧
    (b = c%'e' ∨ b = c%'E' → c%'e' ∈ t ∨ c%'E' ∈ t)

end Wjson.Spec
