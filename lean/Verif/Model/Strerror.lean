import Verif.Model.Error
/-
Model of class `strerror`, wjson/strerror.hpp:56-127.
-/
namespace Wjson

/-- The enumerator list `error_code_json::type`, wjson/strerror.hpp:22-49. -/
def errorNames : List (Nat × Bytes) :=
  [ (Code.ValidJSON.toNat, b!"Valid JSON"),
    (Code.InvalidJSON.toNat, b!"Invalid JSON"),
    (Code.UnexpectedEndFragment.toNat, b!"Unexpected End of Fragment"),
    (Code.ExpectedOf.toNat, b!"Expected Of"),
    (Code.InvalidNull.toNat, b!"Invalid Null"),
    (Code.InvalidNumber.toNat, b!"Invalid Number"),
    (Code.InvalidBool.toNat, b!"Invalid Bool"),
    (Code.InvalidString.toNat, b!"Invalid String"),
    (Code.InvalidMember.toNat, b!"Invalid Member"),
    (Code.InvalidEnum.toNat, b!"Invalid Enum"),
    (Code.InvalidRequest.toNat, b!"Invalid JSON-RPC Request") ]

/-- `strerror::what_`, wjson/strerror.hpp:114-126. The overload for a list of
one element ignores the code. -/
def whatL (code : Nat) : List (Nat × Bytes) → Bytes
  | [] => []
  | [x] => x.2
  | x :: y :: l => if code = x.1 then x.2 else whatL code (y :: l)

/-- `strerror::what`, wjson/strerror.hpp:59-62. -/
def what (e : JError) : Bytes := whatL e.code.toNat errorNames

/-- `strerror::message`, wjson/strerror.hpp:64-71. -/
def message (e : JError) : Bytes :=
  what e ++ (match e.expectedOf with
    | none => []
    | some x => b!" '" ++ x ++ b!"'")

/-- `strerror::where`, wjson/strerror.hpp:73-82. -/
def whereIs (e : JError) (s : Bytes) : Nat :=
  if e.status = false then 0
  else if (s.length : Int) < e.tailOf then 0
  else ((s.length : Int) - e.tailOf).toNat

/-- `end - e.tail_of()` as an index into the text; undefined outside it. -/
def tailIndex (e : JError) (s : Bytes) : Out Nat :=
  if 0 ≤ e.tailOf ∧ e.tailOf ≤ (s.length : Int) then .ok (s.length - e.tailOf.toNat) else .ub

/-- The text with the marker, wjson/strerror.hpp:91 and 105-107. -/
def marked (e : JError) (s : Bytes) : Out Bytes :=
  tailIndex e s >>= fun i =>
    .ok (s.take i ++ (if e.tailOf ≠ 0 then b!">>>" else b!"<<<") ++ s.drop i)

/-- `strerror::trace`, wjson/strerror.hpp:84-93. -/
def trace (e : JError) (s : Bytes) : Out Bytes :=
  if e.status = false then .ok s else marked e s

/-- `strerror::message_trace`, wjson/strerror.hpp:95-110. -/
def messageTrace (e : JError) (s : Bytes) : Out Bytes :=
  if e.status = false then .ok (message e)
  else marked e s >>= fun t => .ok (message e ++ b!": " ++ t)

end Wjson
