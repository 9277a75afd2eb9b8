import Verif.Spec.Grammar
/-
Specification of texts of typed values. Nothing here refers to the model.
-/
namespace Wjson.Spec
open Wjson

/-- Positional value of a string of decimal digits. -/
def decVal (t : Bytes) : Nat := t.foldl (fun a d => a * 10 + (d.toNat - 48)) 0

/-- `t` is an integer literal with value `v`: optional minus and an RFC 8259
`int` (no leading zeros). -/
def IntLit (t : Bytes) (v : Int) : Prop :=
  ∃ m i, t = m ++ i ∧ RMinus m ∧ RInt i ∧ v = if m = [] then (decVal i : Int) else -(decVal i : Int)

/-- `t` is the canonical decimal text of `v`: like `IntLit`, with a minus exactly
for negative values. -/
def Decimal (v : Int) (t : Bytes) : Prop :=
  ∃ i, RInt i ∧ ((0 ≤ v ∧ t = i ∧ v = decVal i) ∨ (v < 0 ∧ t = c%'-' :: i ∧ v = -(decVal i : Int)))

/-- `rest` does not continue an integer literal. -/
def NoDigitNext (rest : Bytes) : Prop := ∀ b, rest.head? = some b → ¬ Digit b

end Wjson.Spec
