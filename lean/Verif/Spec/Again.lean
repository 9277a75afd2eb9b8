import Verif.Spec.Reuse
import Verif.Spec.Slots
import Verif.Spec.Fields
/-
Several documents read one after the other into the same variable. The names of
the model stand for the templates of wjson.
-/
namespace Wjson.Spec

/-- The texts are read one after the other into the same variable, which holds
`v` before and `w` after; each read gets the error argument `e`, and its
position and its error are not looked at. -/
inductive InTurn {α : Type} (S : Ser α) (e : EPtr) : List Bytes → α → α → Prop
  | nil {v : α} : InTurn S e [] v v
  | cons {s : Bytes} {l : List Bytes} {v v' w : α} {p : Bytes} {e' : EPtr} : S.de v s e = .ok (v', p, e') →
      InTurn S e l v' w → InTurn S e (s :: l) v w

/-- Descriptions built from the templates. Parts of a structure are separate
variables: what is stored in a part is found there, and storing what is there
changes nothing. -/
inductive Parts (c : Cfg) : ∀ {α : Type}, Ser α → Prop
  /-- values, containers, dictionaries and pointers, of anything -/
  | base {α : Type} {S : Ser α} : Overwrites c S → Parts c S
  /-- a conversion of a number text that stores a number or leaves the variable alone -/
  | float {α : Type} {F : FloatTy α} {R : Int} : (∀ t, (∃ x, ∀ v, F.conv t v = x) ∨ ∀ v, F.conv t v = v) → Parts c (floatSer F R)
  | rawQuoted {serQ reqQ : Bool} : Parts c (rawQuotedSer c serQ reqQ)
  | quoted {α : Type} {S : Ser α} {serQ reqQ : Bool} : Parts c S → Parts c (quotedSer S serQ reqQ)
  | memberValue {τ α : Type} {dflt : τ} {get : τ → α} {set : α → τ → τ} {S : Ser α} : (∀ x t, get (set x t) = x) →
      (∀ x y t, set x (set y t) = set x t) → (∀ t, set (get t) t = t) → Parts c S → Parts c (memberValueSer dflt get set S)
  | fixed {α : Type} {k : FixKind} {N : Nat} {S : Ser α} : Parts c S → Parts c (fixVecSer k N S)
  | field {κ ν : Type} {SK : Ser κ} {SV : Ser ν} : Parts c SK → Parts c SV → Parts c (fieldSer SK SV)
  | object {τ : Type} {strict : Bool} {dflt : τ} {L : List (Slot τ)} : Fields (L.flatMap Slot.refs) →
      (∀ m ∈ L.flatMap Slot.refs, ∀ t, m.set (m.get t) t = t) → (∀ m ∈ L.flatMap Slot.refs, Parts c m.ser) →
      Parts c (objectSer c strict dflt (L.map Slot.toMember))
  | objectArray {τ : Type} {dflt : τ} {L : List (Slot τ)} : Fields (L.flatMap Slot.refs) →
      (∀ m ∈ L.flatMap Slot.refs, ∀ t, m.set (m.get t) t = t) → (∀ m ∈ L.flatMap Slot.refs, Parts c m.ser) →
      Parts c (objectArraySer dflt (L.map Slot.toAMember))

end Wjson.Spec
