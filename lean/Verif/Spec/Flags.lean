import Verif.Spec.Serial
import Verif.Spec.Object
/-
Texts of flags.
-/
namespace Wjson
open Spec

/-- The union of bit patterns. -/
def orAll {w : Nat} : List (BitVec w) → BitVec w
  | [] => 0
  | u :: l => u ||| orAll l

/-- What an element of the array form stands for: a listed name stands for its
bits; any other JSON string stands for nothing and is allowed in nonstrict mode. -/
inductive FlagItem {w : Nat} (L : List (Bytes × BitVec w)) (strict : Bool) : Bytes × BitVec w → Prop
  | listed {n u} : (n, u) ∈ L → FlagItem L strict (n, u)
  | other {n} : strict = false → n ∉ L.map Prod.fst → XChars n → FlagItem L strict (n, 0)

/-- A name usable in the form with separator `sep`: nonempty, free of white
space, slashes, quotes and separators, and not starting with an asterisk. -/
structure FlagWord (sep : Byte) (n : Bytes) : Prop where
  nonempty : n ≠ []
  clean : ∀ b ∈ n, ¬ WsByte b ∧ b ≠ c%'/' ∧ b ≠ c%'"' ∧ b ≠ sep
  head : n.head? ≠ some c%'*'

/-- White space is allowed around names unless the separator is the space. -/
def SepGap (sep : Byte) (g : Bytes) : Prop := Ws g ∧ (sep = c%' ' → g = [])

/-- A separator: the space, or any byte that is no white space, slash, asterisk or quote. -/
def GoodSep (sep : Byte) : Prop :=
  sep = c%' ' ∨ ¬ WsByte sep ∧ sep ≠ c%'/' ∧ sep ≠ c%'*' ∧ sep ≠ c%'"'

/-- What a word of the separator form, together with the gap after it, stands
for: a listed name for its bits; any other word for nothing (nonstrict mode,
no gap after it). -/
inductive FlagToken {w : Nat} (L : List (Bytes × BitVec w)) (strict : Bool) (sep : Byte) : Bytes × BitVec w → Prop
  | listed {n g u} : (n, u) ∈ L → SepGap sep g → FlagToken L strict sep (n ++ g, u)
  | other {n} : strict = false → n ∉ L.map Prod.fst → FlagWord sep n → FlagToken L strict sep (n, 0)

/-- The separator form after the opening quote: tokens separated by `sep`,
optionally one more separator at the end. -/
inductive SepText (sep : Byte) : List Bytes → Bytes → Prop
  | close {g} : SepGap sep g → SepText sep [] (g ++ b!"\"")
  | last {g t} : SepGap sep g → SepText sep [t] (g ++ t ++ b!"\"")
  | more {g t ts r} : SepGap sep g → SepText sep ts r → SepText sep (t :: ts) (g ++ t ++ sep :: r)

/-- Tokens each followed by a separator. -/
inductive SepComma (sep : Byte) : List Bytes → Bytes → Prop
  | nil : SepComma sep [] []
  | cons {g t ts r} : SepGap sep g → SepComma sep ts r → SepComma sep (t :: ts) (g ++ t ++ sep :: r)

/-- Words joined by the separator. -/
def joinSep (sep : Byte) : List Bytes → Bytes
  | [] => []
  | [t] => t
  | t :: u :: l => t ++ sep :: joinSep sep (u :: l)

/-! ### All texts of flags -/

/-- The array form after the opening bracket, with the union of the bits. Commas
may be missing, and one may follow the last element. -/
inductive FlagArr {w : Nat} (L : List (Bytes × BitVec w)) (strict : Bool) : BitVec w → Bytes → Prop
  | close {g} : Gap g → FlagArr L strict 0 (g ++ b!"]")
  | item {g n u g' k v r} : Gap g → FlagItem L strict (n, u) → Gap g' → k = [] ∨ k = b!"," → FlagArr L strict v r →
      FlagArr L strict (u ||| v) (g ++ quoted n ++ g' ++ k ++ r)

/-- A gap with `r` after it: a slash and a star would open a comment. -/
def GapBefore (g r : Bytes) : Prop := Gap g ∧ (g.getLast? = some c%'/' → r.head? ≠ some c%'*')

/-- Neither white space nor a slash comes first. -/
def NoGap (r : Bytes) : Prop := ∀ b, r.head? = some b → ¬ WsByte b ∧ b ≠ c%'/'

/-- What ends a word: a quote, the separator and, unless the separator is the
space, white space or the start of a comment. -/
def WordStop (sep : Byte) (r : Bytes) : Prop :=
  r.head? = some c%'"' ∨ r.head? = some sep ∨
    (sep ≠ c%' ' ∧ ((∃ b, r.head? = some b ∧ WsByte b) ∨ b!"/*" <+: r))

/-- No listed name is at the start of the text. -/
def Unlisted {w : Nat} (L : List (Bytes × BitVec w)) (sep : Byte) (s : Bytes) : Prop :=
  ∀ n ∈ L.map Prod.fst, ∀ z, s = n ++ z → ¬ WordStop sep z

/-- The string form after the opening quote, for separators other than the space.
White space between listed names is as good as a separator. In nonstrict mode
anything else up to the next separator or quote stands for nothing. -/
inductive FlagStr {w : Nat} (L : List (Bytes × BitVec w)) (strict : Bool) (sep : Byte) : BitVec w → Bytes → Prop
  | close {g} : Gap g → FlagStr L strict sep 0 (g ++ b!"\"")
  | listed {g n u g' k v r} : Gap g → (n, u) ∈ L → WordStop sep (g' ++ k ++ r) → GapBefore g' (k ++ r) → k = [] ∨ k = [sep] →
      FlagStr L strict sep v r → FlagStr L strict sep (u ||| v) (g ++ n ++ g' ++ k ++ r)
  | other {g s k v r} : strict = false → GapBefore g (s ++ k ++ r) → NoGap (s ++ k ++ r) → (∀ b ∈ s, b ≠ sep ∧ b ≠ c%'"') →
      Unlisted L sep (s ++ k ++ r) → k = [] ∧ r.head? = some c%'"' ∨ k = [sep] → FlagStr L strict sep v r →
      FlagStr L strict sep v (g ++ s ++ k ++ r)

/-- The same for the space as the separator. Exactly one space separates two
listed names; in nonstrict mode anything else stands for nothing: white space
(also a second space) and what follows it up to the next space or quote. -/
inductive FlagSpaced {w : Nat} (L : List (Bytes × BitVec w)) (strict : Bool) : BitVec w → Bytes → Prop
  | close : FlagSpaced L strict 0 b!"\""
  | last {n u} : (n, u) ∈ L → FlagSpaced L strict u (n ++ b!"\"")
  | more {n u v r} : (n, u) ∈ L → FlagSpaced L strict v r → FlagSpaced L strict (u ||| v) (n ++ c%' ' :: r)
  | other {g s g' v r} : strict = false → g ++ s ≠ [] → GapBefore g (s ++ g' ++ r) → NoGap (s ++ g' ++ r) →
      (∀ b ∈ s, b ≠ c%' ' ∧ b ≠ c%'"') → (g' ++ r).head? = some c%' ' ∨ (g' ++ r).head? = some c%'"' → GapBefore g' r → NoGap r →
      Unlisted L c%' ' (g ++ s ++ g' ++ r) → FlagSpaced L strict v r → FlagSpaced L strict v (g ++ s ++ g' ++ r)

end Wjson
