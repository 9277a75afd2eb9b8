import Verif.Model.Integer
import Verif.Model.Str
import Verif.Model.Float
import Verif.Model.Array
import Verif.Model.Object
import Verif.Model.ObjectArray
import Verif.Model.Enum
import Verif.Model.Misc
import Verif.Model.Units
import Verif.Model.Strerror
import Verif.Model.Schema
/-
The expectations of the unit tests of /repo/tests, evaluated in the model. They
are tests of the model against the code (the code cannot be run here), not part
of any property.
-/
namespace Wjson.Tests
open Wjson

/-- The platform of the tests: texts are `std::string`s (NUL at `*end`), `char`
is signed, signed overflow is undefined. -/
def gcc : Cfg := { past := some 0, wrapv := false, charSigned := true }

/-- `ser(v, std::back_inserter(json))`; `none` if the behaviour is undefined. -/
def write {α : Type} (S : Ser α) (v : α) : Option Bytes :=
  match S.emit v ⟨[], .back⟩ with
  | .ok k => some k.mem
  | _ => none

/-- `ser(v, json.begin(), json.end(), &e)` with a fresh `e`: the new value and
the error. -/
def read {α : Type} (S : Ser α) (v : α) (s : Bytes) : Option (α × JError) :=
  match S.de v s .fresh with
  | .ok (v, _, .obj e) => some (v, e)
  | _ => none

/-- `ser(v, json.begin(), json.end(), nullptr)`: the new value. -/
def read0 {α : Type} (S : Ser α) (v : α) (s : Bytes) : Option α :=
  match S.de v s .null with
  | .ok (v, _, _) => some v
  | _ => none

/-- The value and whether an error was reported. -/
def readOk {α : Type} (S : Ser α) (v : α) (s : Bytes) : Option (α × Bool) :=
  (read S v s).map fun r => (r.1, r.2.status)

/-- The code, `strerror::where`, `strerror::message` and `strerror::trace` of
the error. -/
structure Report where
  code : Nat
  pos : Nat
  message : Bytes
  trace : Option Bytes
  deriving DecidableEq, Repr

def report {α : Type} (S : Ser α) (v : α) (s : Bytes) : Option Report :=
  (read S v s).map fun r => ⟨r.2.code.toNat, whereIs r.2 s, message r.2,
    match trace r.2 s with
    | .ok t => some t
    | _ => none⟩

/-- A parser function on a text with a fresh error: the number of bytes consumed
and whether an error was reported. -/
def scan (f : Bytes → EPtr → Bytes × EPtr) (s : Bytes) : Nat × Bool :=
  let r := f s .fresh
  (s.length - r.1.length, r.2.failed)

end Wjson.Tests
