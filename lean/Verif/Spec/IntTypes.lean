import Verif.Model.Integer
import Verif.Spec.Values
/-
Classes of integer types.
-/
namespace Wjson

/-- The integer types the library instantiates. -/
def IntTy.Std (ty : IntTy) : Prop := ty.bits = 8 ∨ ty.bits = 16 ∨ ty.bits = 32 ∨ ty.bits = 64

/-- All arithmetic of the type is modular. -/
def IntTy.Modular (c : Cfg) (ty : IntTy) : Prop := ty.bits < 32 ∨ ty.signed = false ∨ c.wrapv = true

/-- `v` is `x` converted to the type: reduced modulo `2^bits`. -/
def IntTy.Reduces (ty : IntTy) (x v : Int) : Prop := ty.InRange v ∧ (v - x) % 2 ^ ty.bits = 0

/-- `y` is the result of an arithmetic expression of the type whose exact result
is `x`; there is none if it overflows and the behaviour is undefined. -/
def IntTy.Computes (c : Cfg) (ty : IntTy) (x y : Int) : Prop :=
  (ty.InRange x ∧ y = x) ∨ (ty.Modular c ∧ ty.Reduces x y)

end Wjson
