import Verif.Spec.Flags
/-
Specification for C58: texts that break off.
-/
namespace Wjson.Spec

/-- What cannot follow an element: at the end of the text, or at a byte that is
neither white space nor the start of a comment, neither a comma nor the closing
bracket `R`, and does not continue a number. -/
structure Astray (R : Byte) (s : Bytes) : Prop where
  noGap : NoGap s
  star : s.head? ≠ some c%'*'
  comma : s.head? ≠ some c%','
  close : s.head? ≠ some R
  delim : Delim s

/-- What is reported where the token `m` should be but the text goes on with `s`:
the token, with the position of `s`, or the end of the text. -/
def missing (m : Bytes) : Bytes → JError
  | [] => ⟨.UnexpectedEndFragment, none, 0⟩
  | b :: s => ⟨.ExpectedOf, some m, ((b :: s).length : Nat)⟩

end Wjson.Spec
