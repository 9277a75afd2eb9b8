import Verif.Spec.Mismatch
import Verif.Spec.Strings
import Verif.Spec.Diagnosis
/-
Specification for C75: the errors in the text of a scalar, one by one.
-/
namespace Wjson.Spec

/-- The text ended too early. -/
def endErr : JError := ⟨.UnexpectedEndFragment, none, 0⟩

/-- Reading the text `s` into a variable that holds `v0` reports nothing: if it
comes to an end, then with the error object as it was. -/
def Quiet {α : Type} (f : De α) (v0 : α) (s : Bytes) : Prop :=
  ∀ y : JError, y.code = .ValidJSON → ∀ v p e, f v0 s (.obj y) = .ok (v, p, e) → e = .obj y

/-- Reading the text `s` into a variable that holds `v0` reports `x`, wherever reading
ends (`Reports`: at the end of the text). -/
def Tells {α : Type} (f : De α) (v0 : α) (s : Bytes) (x : JError) : Prop :=
  ∀ y : JError, y.code = .ValidJSON → ∃ v p, f v0 s (.obj y) = .ok (v, p, .obj x)

/-- The text begins with the first letter of the word `lit` but not with the word.
(The number reported is that of the letters that were right, see `C61_literal`.) -/
inductive WordFault (lit : Bytes) : Bytes → JError → Prop
  | cut {a w} : lit = a ++ w → a ≠ [] → w ≠ [] → WordFault lit a endErr
  | letter {a d w b r} : lit = a ++ d :: w → a ≠ [] → b ≠ d →
      WordFault lit (a ++ b :: r) ⟨.ExpectedOf, some lit, (a.length : Nat)⟩

/-- What is wrong with a text read as an integer. -/
inductive IntFault : Bytes → JError → Prop
  | none : IntFault [] endErr
  | null {s x} : WordFault b!"null" s x → IntFault s x
  | minus {t} : (∀ b, t.head? = some b → ¬ Digit b) → IntFault (c%'-' :: t) (errAt .InvalidNumber t)
  | kind {b t} : b ≠ c%'n' → b ≠ c%'-' → ¬ Digit b → IntFault (b :: t) (errAt .InvalidNumber (b :: t))

/-- What is wrong with a text read as a floating point number. -/
inductive FloatFault : Bytes → JError → Prop
  | none : FloatFault [] endErr
  | null {s x} : WordFault b!"null" s x → FloatFault s x
  | kind {b t} : b ≠ c%'n' → b ≠ c%'-' → ¬ Digit b → FloatFault (b :: t) (errAt .InvalidNumber (b :: t))
  | cut {n} : DigitMissing n → FloatFault n endErr
  | digit {n b r} : DigitMissing n → ¬ Digit b → ¬ DigitMissing (n ++ [b]) →
      FloatFault (n ++ b :: r) ⟨.InvalidNumber, none, 0⟩

/-- What is wrong with a text read as a `bool`. -/
inductive BoolFault : Bytes → JError → Prop
  | none : BoolFault [] endErr
  | null {s x} : WordFault b!"null" s x → BoolFault s x
  | true {s x} : WordFault b!"true" s x → BoolFault s x
  | false {s x} : WordFault b!"false" s x → BoolFault s x
  | kind {b t} : b ≠ c%'n' → b ≠ c%'t' → b ≠ c%'f' → BoolFault (b :: t) (errAt .InvalidBool (b :: t))

/-- `x` is the letter of an escape with `k` hexadecimal digits. -/
def HexEscape (x : Byte) (k : Nat) : Prop := (x = c%'u' ∧ k = 4) ∨ (x = c%'x' ∧ k = 2)

/-- `BodyFault n s x`: what is wrong with the text `s` read as the rest of a string,
behind its opening quote or any of its units, with room for `n` more bytes. -/
inductive BodyFault : Nat → Bytes → JError → Prop
  /-- the closing quote is missing -/
  | none {n} : BodyFault n [] endErr
  /-- there is no more room -/
  | full {b t} : b ≠ c%'"' → BodyFault 0 (b :: t) (expectAt b!"\"" (b :: t))
  /-- the text ends inside an escape -/
  | backslash {n} : 1 ≤ n → BodyFault n b!"\\" endErr
  | hexCut {n x k ds} : 1 ≤ n → HexEscape x k → (∀ d ∈ ds, HexDigit d) → ds.length < k →
      BodyFault n (c%'\\' :: x :: ds) endErr
  /-- no such escape -/
  | escape {n x t} : 1 ≤ n → (∀ y, ¬ ShortEsc x y) → x ≠ c%'u' → x ≠ c%'x' →
      BodyFault n (c%'\\' :: x :: t) (errAt .InvalidString (x :: t))
  /-- not a hexadecimal digit: the place is not reported -/
  | hexDigit {n x k ds b t} : 1 ≤ n → HexEscape x k → (∀ d ∈ ds, HexDigit d) → ds.length < k → ¬ HexDigit b →
      BodyFault n (c%'\\' :: x :: (ds ++ b :: t)) ⟨.InvalidString, none, 0⟩
  /-- no character begins like this (sequences of five or six bytes are not read) -/
  | lead {n b t} : 1 ≤ n → 0x80 ≤ b → (∀ k, k ≤ 3 → ¬ LeadLen b k) → BodyFault n (b :: t) (errAt .InvalidString (b :: t))
  /-- the text ends inside a character -/
  | charCut {n b k ts} : LeadLen b k → 1 ≤ k → k ≤ 3 → ts.length < k → ts.length < n → BodyFault n (b :: ts) endErr
  /-- the room ends inside a character: the bytes that fit are taken -/
  | roomChar {n b k ts r x} : LeadLen b k → 1 ≤ k → k ≤ 3 → ts.length < k → n = ts.length + 1 → BodyFault 0 r x →
      BodyFault n (b :: ts ++ r) x
  /-- the room ends inside the character that a `\u` stands for: an error behind the escape -/
  | roomUni {n a b c d r} : HexDigit a → HexDigit b → HexDigit c → HexDigit d →
      0x20 ≤ hex4 a b c d → 1 ≤ n → n < (utf8Enc (hex4 a b c d)).length →
      BodyFault n (c%'\\' :: c%'u' :: a :: b :: c :: d :: r) (errAt .InvalidString r)
  /-- the room ends inside an escape that stays as it is: what fits is taken -/
  | roomCtl {n a b c d r x} : HexDigit a → HexDigit b → HexDigit c → HexDigit d →
      hex4 a b c d < 0x20 → ¬ ShortCtl (hex4 a b c d) → 1 ≤ n → n < 6 → BodyFault 0 r x →
      BodyFault n (c%'\\' :: c%'u' :: a :: b :: c :: d :: r) x
  /-- an error behind a unit that is right -/
  | step {n u w r x} : DUnit u w → w.length ≤ n → BodyFault (n - w.length) r x → BodyFault n (u ++ r) x

/-- What is wrong with a text read as a string of at most `n` bytes. -/
inductive StrFault (n : Nat) : Bytes → JError → Prop
  | none : StrFault n [] endErr
  | null {s x} : WordFault b!"null" s x → StrFault n s x
  | kind {b t} : b ≠ c%'n' → b ≠ c%'"' → StrFault n (b :: t) (expectAt b!"\"" (b :: t))
  | body {s x} : BodyFault n s x → StrFault n (c%'"' :: s) x

/-- The bytes skipped before an enumerator: those up to the blank, and, where `char`
is signed, those above 127. -/
def lowByte (charSigned : Bool) (b : Byte) : Bool := decide (b ≤ 0x20) || (charSigned && decide (0x80 ≤ b))

/-- What is wrong with a text read as an enumerator; `low` tells the bytes that are
skipped before it. -/
inductive EnumFault {α : Type} (low : Byte → Bool) (strict : Bool) (L : List (Bytes × α)) : Bytes → JError → Prop
  | none {g} : (∀ b ∈ g, low b = true) → EnumFault low strict L g endErr
  | kind {g b t} : (∀ b ∈ g, low b = true) → low b = false → b ≠ c%'"' →
      EnumFault low strict L (g ++ b :: t) (expectAt b!"\"" (b :: t))
  | cut {g k} : (∀ b ∈ g, low b = true) → c%'"' ∉ k → EnumFault low strict L (g ++ c%'"' :: k) endErr
  | name {g k t} : strict = true → (∀ b ∈ g, low b = true) → c%'"' ∉ k → (∀ v, (k, v) ∉ L) →
      EnumFault low strict L (g ++ c%'"' :: (k ++ c%'"' :: t)) (errAt .InvalidEnum (k ++ c%'"' :: t))

end Wjson.Spec
