import Verif.Spec.Grammar
/-
Specification: several JSON documents one after the other in one text.
Nothing in this file refers to the model.
-/
namespace Wjson.Spec
open Wjson

/-- The documents `ds`, in this order, with gaps before, between and after them.
Two documents need a gap between them only where the first is a number that the
second would continue. -/
inductive Stream : List Bytes → Bytes → Prop
  | done {g} : Gap g → Stream [] g
  | doc {g d ds r} : Gap g → XValue d → (RNumber d → NumFollow d r) → Stream ds r → Stream (d :: ds) (g ++ d ++ r)

end Wjson.Spec
