import Verif.Spec.Grammar
/-
Specification of the contents of string tokens. Nothing here refers to the
model.
-/
namespace Wjson.Spec
open Wjson

/-- Value of a hexadecimal digit. -/
def hexValue (b : Byte) : Nat :=
  if b ≤ 0x39 then b.toNat - 0x30 else if b ≤ 0x46 then b.toNat - 0x37 else b.toNat - 0x57

/-- Value of four hexadecimal digits. -/
def hex4 (a b c d : Byte) : Nat := hexValue a * 4096 + hexValue b * 256 + hexValue c * 16 + hexValue d

/-- The UTF-8 pattern of a number below 0x10000 (RFC 3629 section 3). -/
def utf8Enc (h : Nat) : Bytes :=
  if h < 0x80 then [UInt8.ofNat h]
  else if h < 0x800 then [UInt8.ofNat (0xC0 + h / 64), UInt8.ofNat (0x80 + h % 64)]
  else [UInt8.ofNat (0xE0 + h / 4096), UInt8.ofNat (0x80 + h / 64 % 64), UInt8.ofNat (0x80 + h % 64)]

/-- The two-character escapes: letter and byte meant. -/
inductive ShortEsc : Byte → Byte → Prop
  | quote : ShortEsc c%'"' c%'"'
  | backslash : ShortEsc c%'\\' c%'\\'
  | slash : ShortEsc c%'/' c%'/'
  | t : ShortEsc c%'t' 0x09
  | b : ShortEsc c%'b' 0x08
  | r : ShortEsc c%'r' 0x0D
  | n : ShortEsc c%'n' 0x0A
  | f : ShortEsc c%'f' 0x0C

/-- The control characters that have a two-character escape. -/
def ShortCtl (h : Nat) : Prop := h = 9 ∨ h = 8 ∨ h = 13 ∨ h = 10 ∨ h = 12

instance (h : Nat) : Decidable (ShortCtl h) := inferInstanceAs (Decidable (_ ∨ _))

/-- One unit of a string token and the bytes it stands for, as wjson reads it:
* bytes below 0x80 and UTF-8-shaped sequences of 2 to 4 bytes stand for
  themselves (the bytes after the lead byte are not looked at);
* the escapes of RFC 8259; a `\u` escape stands for the UTF-8 pattern of its
  number, without combining surrogates;
* a `\u` escape of a control character without a two-character escape stays as
  it is;
* the extension `\xHH` stands for one byte. -/
inductive DUnit : Bytes → Bytes → Prop
  | ascii {b} : b < 0x80 → b ≠ c%'"' → b ≠ c%'\\' → DUnit [b] [b]
  | multi {b n ts} : LeadLen b n → 1 ≤ n → n ≤ 3 → ts.length = n → DUnit (b :: ts) (b :: ts)
  | short {x y} : ShortEsc x y → DUnit [c%'\\', x] [y]
  | uni {a b c d} : HexDigit a → HexDigit b → HexDigit c → HexDigit d →
      (0x20 ≤ hex4 a b c d ∨ ShortCtl (hex4 a b c d)) →
      DUnit [c%'\\', c%'u', a, b, c, d] (utf8Enc (hex4 a b c d))
  | ctl {a b c d} : HexDigit a → HexDigit b → HexDigit c → HexDigit d →
      hex4 a b c d < 0x20 → ¬ ShortCtl (hex4 a b c d) →
      DUnit [c%'\\', c%'u', a, b, c, d] [c%'\\', c%'u', a, b, c, d]
  | hex {a b} : HexDigit a → HexDigit b →
      DUnit [c%'\\', c%'x', a, b] [UInt8.ofNat (hexValue a * 16 + hexValue b)]

/-- `Decodes u v`: the body `u` of a string token stands for the bytes `v`. -/
inductive Decodes : Bytes → Bytes → Prop
  | nil : Decodes [] []
  | cons {u v us vs} : DUnit u v → Decodes us vs → Decodes (u ++ us) (v ++ vs)

/-- The last unit of a token read into a buffer with less room than the unit
needs, and the bytes stored: the control escapes that stay as they are can be
cut anywhere; of a UTF-8-shaped sequence only the bytes that fit are taken from
the text. -/
inductive CutUnit : Bytes → Bytes → Prop
  | ctl {a b c d m} : HexDigit a → HexDigit b → HexDigit c → HexDigit d →
      hex4 a b c d < 0x20 → ¬ ShortCtl (hex4 a b c d) → 1 ≤ m → m < 6 →
      CutUnit [c%'\\', c%'u', a, b, c, d] ([c%'\\', c%'u', a, b, c, d].take m)
  | multi {b n ts} : LeadLen b n → 1 ≤ n → n ≤ 3 → ts.length < n → CutUnit (b :: ts) (b :: ts)

/-- `DecodesIn n u v`: the body `u` of a string token read into a buffer of `n`
bytes fills it with `v`. -/
def DecodesIn (n : Nat) (u v : Bytes) : Prop :=
  (Decodes u v ∧ v.length ≤ n) ∨
    ∃ u1 v1 u2 v2, u = u1 ++ u2 ∧ v = v1 ++ v2 ∧ Decodes u1 v1 ∧ CutUnit u2 v2 ∧ v.length = n

/-- A sequence of UTF-8-shaped characters. -/
inductive Utf8Shapes : Bytes → Prop
  | nil : Utf8Shapes []
  | cons {c t} : Utf8Shape c → Utf8Shapes t → Utf8Shapes (c ++ t)

/-- A well-formed UTF-8 text (RFC 3629). -/
inductive Utf8Text : Bytes → Prop
  | nil : Utf8Text []
  | ascii {b t} : b < 0x80 → Utf8Text t → Utf8Text (b :: t)
  | multi {c t} : Utf8Multi c → Utf8Text t → Utf8Text (c ++ t)

/-- One unit of the body of a written string: no raw byte below 0x20, a quote or
backslash only as part of an escape. -/
inductive CleanUnit : Bytes → Prop
  | raw {b} : 0x20 ≤ b → b ≠ c%'"' → b ≠ c%'\\' → CleanUnit [b]
  | short {x} : ShortEscape x → CleanUnit [c%'\\', x]
  | uni {a b c d} : HexDigit a → HexDigit b → HexDigit c → HexDigit d → CleanUnit [c%'\\', c%'u', a, b, c, d]
  | hex {a b} : HexDigit a → HexDigit b → CleanUnit [c%'\\', c%'x', a, b]

inductive CleanBody : Bytes → Prop
  | nil : CleanBody []
  | cons {u t} : CleanUnit u → CleanBody t → CleanBody (u ++ t)

/-- What is left of a byte after writing and reading: a control byte without a
two-character escape becomes the six characters of its `\u` escape. -/
def expandByte (b : Byte) : Bytes :=
  if b < 0x20 ∧ ¬ ShortCtl b.toNat then
    [c%'\\', c%'u', c%'0', c%'0', if b < 16 then c%'0' else c%'1',
      if b.toNat % 16 < 10 then UInt8.ofNat (0x30 + b.toNat % 16) else UInt8.ofNat (0x57 + b.toNat % 16)]
  else [b]

def expand (v : Bytes) : Bytes := v.flatMap expandByte

/-- `v` contains a UTF-8-shaped sequence of 5 or 6 bytes (forbidden by RFC 3629). -/
def HasLongSeq (v : Bytes) : Prop := ∃ u, u <:+: v ∧ Utf8Shape u ∧ 5 ≤ u.length

/-- Strings that are read back as they are (C19): no long sequence, no control
byte without a two-character escape, not more than `INT_MAX` bytes. -/
def StrOk (v : Bytes) : Prop := ¬ HasLongSeq v ∧ expand v = v ∧ v.length ≤ 2147483647

end Wjson.Spec
