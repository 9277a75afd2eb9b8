import Verif.Spec.Object
/-
Specification for C77: how many members of an object are read by nested calls.
Nothing in this file refers to the model.
-/
namespace Wjson.Spec
open Wjson

/-- The declared names and the keys of the text. The reader keeps a cursor on the
declared names; a key equal to the name at the cursor moves it on. As long as the
cursor is not at the end, every key costs one call. Everything behind the last
declared name costs one call together. -/
def openCalls : List Bytes → List Bytes → Nat
  | _, [] => 0
  | [], _ :: _ => 1
  | n :: cur, k :: keys => openCalls (if k = n then cur else n :: cur) keys + 1

/-- The number of commas in a text. -/
def commas (s : Bytes) : Nat := s.count c%','

/-- `n + 1` members with the same key and the same value, and the closing brace. -/
def sameMembers (k v : Bytes) : Nat → Bytes
  | 0 => quoted k ++ c%':' :: (v ++ b!"}")
  | n + 1 => quoted k ++ c%':' :: (v ++ c%',' :: sameMembers k v n)

end Wjson.Spec
