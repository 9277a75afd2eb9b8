import Verif.Spec.Values
/-
Texts of time intervals and sizes. Nothing here refers to the model of the
serializers.
-/
namespace Wjson.Spec
open Wjson

/-- Units of a time interval. -/
inductive TimeUnit where
  | d | h | m | s | ms | mks
  deriving DecidableEq, Repr

/-- The letters of the unit. -/
def TimeUnit.text : TimeUnit → Bytes
  | .d => b!"d"
  | .h => b!"h"
  | .m => b!"m"
  | .s => b!"s"
  | .ms => b!"ms"
  | .mks => b!"mks"

/-- Seconds in a unit (1 for the units below a second). -/
def TimeUnit.scale : TimeUnit → Int
  | .d => 86400
  | .h => 3600
  | .m => 60
  | _ => 1

/-- How many of the unit make a second (1 for a second and above). -/
def TimeUnit.perSecond : TimeUnit → Int
  | .ms => 1000
  | .mks => 1000000
  | _ => 1

/-- `n` units counted in ticks of `1/fr` second, rounded towards zero. -/
def TimeUnit.ticks (fr n : Int) (u : TimeUnit) : Int := (n * u.scale * fr).tdiv u.perSecond

/-- `t` is a sequence of decimal numbers, each followed by its unit. -/
inductive TimeText : List (Int × TimeUnit) → Bytes → Prop
  | nil : TimeText [] []
  | cons {n u l t r} : Decimal n t → TimeText l r → TimeText ((n, u) :: l) (t ++ u.text ++ r)

/-- The sum of the parts in ticks. -/
def timeTotal (fr : Int) : List (Int × TimeUnit) → Int
  | [] => 0
  | (n, u) :: l => u.ticks fr n + timeTotal fr l

/-- Days, hours, minutes, seconds, milliseconds and microseconds of `v` ticks of
`1/fr` second, without the parts that are zero. -/
def timeParts (fr v : Int) : List (Int × TimeUnit) :=
  ([(v / fr / 86400, .d), (v / fr / 3600 % 24, .h), (v / fr / 60 % 60, .m), (v / fr % 60, .s),
    (v % fr * 1000 / fr, .ms), (v % fr * 1000000 / fr % 1000, .mks)] : List (Int × TimeUnit)).filter fun p => p.1 ≠ 0

/-- The same for a negative number of ticks: all the parts are negative. -/
def timePartsNeg (fr v : Int) : List (Int × TimeUnit) := (timeParts fr (-v)).map fun p => (-p.1, p.2)

/-- Units of a size: decimal or binary, with a power of 1000 or 1024. -/
structure SizeUnit where
  binary : Bool
  exp : Nat
  deriving DecidableEq, Repr

/-- Number of bytes in a unit. -/
def SizeUnit.bytes (u : SizeUnit) : Int := ((if u.binary then 1024 else 1000) ^ u.exp : Nat)

/-- The letters of the unit: `B`, `KB`, `KiB`, `MB`, ..., `TiB`. -/
inductive SizeUnit.Text : SizeUnit → Bytes → Prop
  | b {i} : Text ⟨i, 0⟩ b!"B"
  | k : Text ⟨false, 1⟩ b!"KB"
  | ki : Text ⟨true, 1⟩ b!"KiB"
  | m : Text ⟨false, 2⟩ b!"MB"
  | mi : Text ⟨true, 2⟩ b!"MiB"
  | g : Text ⟨false, 3⟩ b!"GB"
  | gi : Text ⟨true, 3⟩ b!"GiB"
  | t : Text ⟨false, 4⟩ b!"TB"
  | ti : Text ⟨true, 4⟩ b!"TiB"

/-- The letters of the powers. -/
inductive SizeUnit.Letter : Byte → Nat → Prop
  | k : Letter c%'K' 1
  | m : Letter c%'M' 2
  | g : Letter c%'G' 3
  | t : Letter c%'T' 4

/-- A text that begins with a unit; what follows the letter (and the `i` of a
binary unit) does not matter. -/
inductive SizeUnit.Begins : SizeUnit → Bytes → Prop
  | bytes {r} : Begins ⟨false, 0⟩ (c%'B' :: r)
  | decimal {l n r} : Letter l n → r.head? ≠ some c%'i' → Begins ⟨false, n⟩ (l :: r)
  | binary {l n r} : Letter l n → Begins ⟨true, n⟩ (l :: c%'i' :: r)

end Wjson.Spec
