import Verif.Model.Misc
import Verif.Model.Integer
import Verif.Model.Float
import Verif.Model.Array
import Verif.Model.Enum
import Verif.Model.Units
import Verif.Model.ObjectArray
/-
Descriptions whose readers replace the whole variable. The names of the model
stand for the templates of wjson.
-/
namespace Wjson

/-- Values, containers, dictionaries and pointers (of anything), without
`quoted`, floating point numbers, fixed-size arrays and structures. -/
inductive Overwrites (c : Cfg) : ∀ {α : Type}, Ser α → Prop
  | int {ty : IntTy} : Overwrites c (intSer c ty)
  | bool : Overwrites c boolSer
  | str : Overwrites c strSer
  | chars {N : Nat} : Overwrites c (charArraySer N)
  | enum {α : Type} [DecidableEq α] {strict : Bool} {dflt : α} {L : List (Bytes × α)} : Overwrites c (enumSer c strict dflt L)
  | flags {w : Nat} {F : Flags w} : Overwrites c (flagsSer c F)
  | time {ty : IntTy} {fr : Int} : Overwrites c (timeSer c ty fr)
  | size {ty : IntTy} {metric : Int} : Overwrites c (sizeSer c ty metric)
  | raw : Overwrites c (rawSer c)
  | array {α C : Type} {K : Coll α C} {S : Ser α} : Overwrites c (arraySer K S)
  | dict {κ ν C : Type} {K : Coll (κ × ν) C} {SK : Ser κ} {SV : Ser ν} : Overwrites c (dictSer K SK SV)
  | pointer {α : Type} {S : Ser α} : Overwrites c (pointerSer S)

/-- These, and floating point numbers and quoted values, which leave the
variable alone when they report an error. -/
inductive Replaces (c : Cfg) : ∀ {α : Type}, Ser α → Prop
  | base {α : Type} {S : Ser α} : Overwrites c S → Replaces c S
  /-- the conversion always stores a number -/
  | float {α : Type} {F : FloatTy α} {R : Int} : (∀ t v v', F.conv t v = F.conv t v') → Replaces c (floatSer F R)
  | rawQuoted {serQ reqQ : Bool} : Replaces c (rawQuotedSer c serQ reqQ)
  | quoted {α : Type} {S : Ser α} {serQ reqQ : Bool} : Replaces c S → Replaces c (quotedSer S serQ reqQ)

end Wjson
