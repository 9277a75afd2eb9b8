import Verif.Spec.Grammar
/-
Specification: texts that can still become a document.
-/
namespace Wjson.Spec
open Wjson

/-- `t` is the beginning of a document: some bytes (possibly none) can be
written behind it so that the whole is one value of the dialect. -/
def Viable (t : Bytes) : Prop := ∃ w, XValue (t ++ w)

end Wjson.Spec
