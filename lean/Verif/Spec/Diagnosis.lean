import Verif.Spec.Viable
/-
Specification: where a text goes wrong, and what could stand there instead.
-/
namespace Wjson.Spec
open Wjson

/-- `u` is the longest beginning of the text `u ++ r` that can still be continued
to a document. -/
def Breaks (u r : Bytes) : Prop := Viable u ∧ ∀ b r', r = b :: r' → ¬ Viable (u ++ [b])

/-- Behind `a` any value can stand. -/
def TakesValue (a : Bytes) : Prop := ∀ v, XValue v → Viable (a ++ v)

/-- Behind `a` any string can stand (as a value or as the name of a member). -/
def TakesString (a : Bytes) : Prop := ∀ k, XString k → Viable (a ++ k)

/-- `n` is the beginning of a number behind which a digit is missing: it ends with
the sign, the point or the letter of the exponent, and with any digit it is a number. -/
def DigitMissing (n : Bytes) : Prop :=
  (∃ z, n.getLast? = some z ∧ z ∈ b!"-.eE+") ∧ ∀ d, Digit d → RNumber (n ++ [d])

/-- `n` is the beginning of a string, with its quote but not complete. -/
def InString (n : Bytes) : Prop := n ≠ [] ∧ ∃ w, w ≠ [] ∧ XString (n ++ w)

/-- `n` is the beginning of the word `lit`, at least one letter, not all. -/
def InWord (lit n : Bytes) : Prop := n ≠ [] ∧ ∃ w, w ≠ [] ∧ lit = n ++ w

end Wjson.Spec
