import Verif.Basic
/-
Model of wjson/error.hpp.
-/
namespace Wjson

/-- `error_code::type`, wjson/error.hpp:15-30. -/
inductive Code where
  | ValidJSON | InvalidJSON | UnexpectedEndFragment | ExpectedOf | InvalidNull | InvalidNumber
  | InvalidBool | InvalidString | InvalidMember | InvalidEnum | InvalidRequest
  deriving Repr, DecidableEq

/-- The numeric values of wjson/error.hpp:18-28 (`json_error::code()`, line 58). -/
def Code.toNat : Code → Nat
  | .ValidJSON => 0
  | .InvalidJSON => 1
  | .UnexpectedEndFragment => 2
  | .ExpectedOf => 3
  | .InvalidNull => 4
  | .InvalidNumber => 5
  | .InvalidBool => 6
  | .InvalidString => 7
  | .InvalidMember => 8
  | .InvalidEnum => 9
  | .InvalidRequest => 10

/-- `class json_error`, wjson/error.hpp:32-94. `_expected_of` is a `const char*`:
`none` is the null pointer, `some t` the C string. -/
structure JError where
  code : Code := .ValidJSON
  expectedOf : Option Bytes := none
  tailOf : Int := 0
  deriving Repr, DecidableEq

/-- `json_error::status()` / `operator bool`, wjson/error.hpp:73-81. -/
def JError.status (e : JError) : Bool := e.code != .ValidJSON

/-- `json_error*` together with the object it points to. -/
inductive EPtr where
  | null
  | obj (e : JError)
  deriving Repr, DecidableEq

/-- The expression `e && *e` used throughout the library. -/
def EPtr.failed : EPtr → Bool
  | .null => false
  | .obj e => e.status

/-- A pointer to a freshly constructed `json_error`. -/
def EPtr.fresh : EPtr := .obj {}

/-- `create_error`, wjson/error.hpp:96-118: the three overloads differ only in
the defaults of the message and tail arguments. The returned iterator is always
`end`; callers of the model write `[]`. -/
def createError (code : Code) (e : EPtr) (msg : Option Bytes := none) (tail : Int := 0) : EPtr :=
  match e with
  | .null => .null
  | .obj x => if x.status then .obj x else .obj { code := code, expectedOf := msg, tailOf := tail }

end Wjson
