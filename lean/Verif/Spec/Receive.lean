import Verif.Spec.Log
/-
Specification for C90: what a receiver has of a stream of which it got the beginning.
-/
namespace Wjson.Spec
open Wjson

/-- `x` is nothing at all, or a beginning of the text of the first of the values `ws`, and not yet all of it. -/
def Begun (c : Cfg) {α : Type} (S : Ser α) (ws : List α) (x : Bytes) : Prop :=
  x = [] ∨ ∃ v ws' y, ws = v :: ws' ∧ TextOf c S v (x ++ y) ∧ x ≠ [] ∧ y ≠ []

/-- The first bytes `p` of a stream of the values `vs` consist of the texts of `us` as a whole (and line feeds), and of `x`:
nothing, or a proper beginning of the text of the value after these. -/
def Arrived (c : Cfg) {α : Type} (S : Ser α) (vs : List α) (p : Bytes) (us : List α) (x : Bytes) : Prop :=
  ∃ ws s, vs = us ++ ws ∧ LogText c S us s ∧ p = s ++ x ∧ Begun c S ws x

end Wjson.Spec
