import Verif.Spec.Serial
/-
Specification of JSON objects as texts, and of what a list of key/value pairs
does to a structure with named parts. Nothing here refers to the model.
-/
namespace Wjson
open Spec

/-- A key with its quotes. -/
def quoted (k : Bytes) : Bytes := c%'"' :: k ++ b!"\""

/-- The members of a JSON object from the quote of the first key to the closing
brace: pairs of a key (without quotes) and the text of a value. -/
inductive ItemsFrom : List (Bytes × Bytes) → Bytes → Prop
  | one {k g1 g2 v g3} : Gap g1 → Gap g2 → Start v → Gap g3 →
      ItemsFrom [(k, v)] (quoted k ++ (g1 ++ c%':' :: (g2 ++ (v ++ (g3 ++ b!"}")))))
  | more {k g1 g2 v g3 g4 items r} : Gap g1 → Gap g2 → Start v → Gap g3 → Gap g4 → ItemsFrom items r →
      ItemsFrom ((k, v) :: items) (quoted k ++ (g1 ++ c%':' :: (g2 ++ (v ++ (g3 ++ c%',' :: (g4 ++ r))))))

/-- A JSON object with the given keys and value texts, any gaps. -/
inductive ObjText : List (Bytes × Bytes) → Bytes → Prop
  | empty {g} : Gap g → ObjText [] (c%'{' :: (g ++ b!"}"))
  | items {g items r} : Gap g → ItemsFrom items r → ObjText items (c%'{' :: (g ++ r))

/-- A plain name: no quote and no backslash. -/
def PlainName (n : Bytes) : Prop := c%'"' ∉ n ∧ c%'\\' ∉ n

/-- What reading a list of members does to a structure whose parts are named
`names`. A member is a key and the change its value makes to the part of that
name. The reader keeps a cursor: the names that have not been matched in order
yet. A member is looked up as long as the cursor is not exhausted; afterwards
every member is ignored (`strict = false`) or rejected (`strict = true`). An
unknown key is ignored or rejected. `none` means rejected. -/
def runItems {τ : Type} (strict : Bool) (names : List Bytes) :
    List Bytes → List (Bytes × (τ → τ)) → τ → Option τ
  | _, [], t => some t
  | [], _ :: _, t => if strict then none else some t
  | n :: cur, (k, f) :: items, t =>
    if k = n then runItems strict names cur items (f t)
    else if k ∈ names then runItems strict names (n :: cur) items (f t)
    else if strict then none
    else runItems strict names (n :: cur) items t

end Wjson
