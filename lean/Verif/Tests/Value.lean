import Verif.Tests.Common
import Verif.Model.Ieee
/- /repo/tests/value_suite.cpp and /repo/tests/_json_suite.cpp -/
namespace Wjson.Tests
open Wjson

/-- `value_serializer_test`, lines 6-19: what is written and what is read back. -/
def valueTest {α : Type} (S : Ser α) (v : α) : Option (Bytes × α) :=
  match write S v with
  | some s => (read S S.dflt s).map fun r => (s, r.1)
  | none => none

/-! `bool_unit`, lines 36-40 -/
example : valueTest boolSer true = some (b!"true", true) := by decide +kernel
example : valueTest boolSer false = some (b!"false", false) := by decide +kernel

/-! `integer_unit`, lines 42-74. The second argument of the test is converted to
the type first (`static_cast<V>`). -/
def intTest (ty : IntTy) (v : Int) : Option (Bytes × Int) := valueTest (intSer gcc ty) (ty.wrap v)

example : ∀ ty ∈ [IntTy.schar, .uchar, .short, .ushort, .int, .uint], intTest ty 10 = some (b!"10", 10) := by decide +kernel
example : ∀ ty ∈ [IntTy.long, .ulong], intTest ty 1199511627775 = some (b!"1199511627775", 1199511627775) := by decide +kernel
example : ∀ ty ∈ [IntTy.schar, .short, .int], intTest ty (-10) = some (b!"-10", -10) := by decide +kernel
example : intTest .uchar (-10) = some (b!"246", 246) := by decide +kernel
example : intTest .ushort (-10) = some (b!"65526", 65526) := by decide +kernel
example : intTest .uint (-10) = some (b!"4294967286", 4294967286) := by decide +kernel
example : intTest .long (-1199511627775) = some (b!"-1199511627775", -1199511627775) := by decide +kernel
example : intTest .ulong (-1199511627775) = some (b!"18446742874197923841", 18446742874197923841) := by decide +kernel

/-! `float_unit`, lines 76-86, with the conversions of Verif/Model/Ieee.lean. The test asks that the value read differs by less than 0.000001;
here it is the same. -/
def realTest (F : BinFmt) (R : Int) (lit : Bytes) : Option (Bytes × Bool) :=
  (valueTest (floatSer (F.ty R) R) (flConv F lit)).map fun r => (r.1, r.2 = flConv F lit)

example : ∀ F ∈ [BinFmt.float, .double, .longDouble], realTest F (-1) b!"10.1" = some (b!"1.010000e+01", true) := by decide +kernel
example : realTest .float 0 b!"10.0" = some (b!"10", true) := by decide +kernel
example : realTest .double 2 b!"10.1" = some (b!"10.10", true) := by decide +kernel
example : realTest .longDouble 10 b!"10.1" = some (b!"10.1000000000", true) := by decide +kernel

/-! `string_unit`, lines 88-94 -/
example : valueTest strSer b!"привет" = some (b!"\"привет\"", b!"привет") := by decide +kernel
example : valueTest strSer b!"😶☺😇🙄🤗😇🙄☺😎🙄" = some (b!"\"😶☺😇🙄🤗😇🙄☺😎🙄\"", b!"😶☺😇🙄🤗😇🙄☺😎🙄") := by
  decide +kernel

/-! `string1`, lines 96-133 -/
def vstr : Bytes :=
  ((b!"hello world! Привет\\мир!" ++ [132, 131] ++ b!"世界你好!").set 5 0).set 12 130

def vjson : Bytes := b!"\"hello\\u0000world!\\x82Привет\\\\мир!\\x84\\x83世界你好!\""

/-- The test expects that `\u0000` is read as the six bytes it consists of. -/
def str3 : Bytes := (b!"hello\\u0000world! Привет\\мир!" ++ [132, 131] ++ b!"世界你好!").set 17 130

example : write strSer vstr = some vjson := by decide +kernel
example : readOk strSer [] vjson = some (str3, false) := by decide +kernel
example : readOk strSer vstr b!"\"世界你好\"" = some (b!"世界你好", false) := by decide +kernel

/-! /repo/tests/_json_suite.cpp, lines 5-13 -/
example : jsonLit b!"'test'" = b!"\"test\"" := by decide +kernel

end Wjson.Tests
