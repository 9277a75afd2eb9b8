import Verif.Model.Object
import Verif.Spec.Object
/-
Descriptions of structures: what makes a list of members a description of
independent parts, and what one JSON member does to the structure.
-/
namespace Wjson
open Spec

/-- The members are separate parts of the structure: what is stored is found
again, storing twice is storing the last, and storing one part neither changes
another one nor depends on it. -/
structure Fields {τ : Type} (L : List (MRef τ)) : Prop where
  get_set : ∀ m ∈ L, ∀ x t, m.get (m.set x t) = x
  set_set : ∀ m ∈ L, ∀ x y t, m.set x (m.set y t) = m.set x t
  apart : L.Pairwise fun a b => (∀ x t, a.get (b.set x t) = a.get t) ∧ (∀ x t, b.get (a.set x t) = b.get t) ∧
    ∀ x y t, a.set x (b.set y t) = b.set y (a.set x t)

/-- What the JSON member `item` (key, text of the value) means for the members
`L`: the key is the name of a member and its type reads the text as `x`; or the
key is no name, and the key and the value are any JSON. -/
inductive Effect {τ : Type} (L : List (Entry τ)) : Bytes × Bytes → (τ → τ) → Prop
  | known {en : Entry τ} {v : Bytes} {x : en.ref.α} : en ∈ L → Reads en.ref.ser.de v x →
      Effect L (en.ref.name, v) (en.ref.set x)
  | unknown {k v : Bytes} : (∀ en ∈ L, en.ref.name ≠ k) → XChars k → XValue v → Effect L (k, v) id

/-- The effects one after the other. -/
def applyAll {τ : Type} (fs : List (τ → τ)) (t : τ) : τ := fs.foldl (fun t f => f t) t

/-- The names of the members, in order. -/
def names {τ : Type} (L : List (Entry τ)) : List Bytes := L.map fun en => en.ref.name

/-- Distinct names, without quotes and backslashes. -/
structure GoodNames {τ : Type} (L : List (Entry τ)) : Prop where
  nodup : (names L).Nodup
  plain : ∀ n ∈ names L, PlainName n

/-- Key and value are JSON. -/
def Skippable (x : Bytes × Bytes) : Prop := XChars x.1 ∧ XValue x.2

end Wjson
