import Verif.Tests.Common
/- /repo/tests/enum_suite.cpp -/
namespace Wjson.Tests
open Wjson

def enumNames : List Bytes := [b!"one", b!"two", b!"three", b!"four", b!"five", b!"six"]
def enumList1 : List (Bytes × Nat) := enumNames.zip [1, 2, 4, 8, 16, 32]
def enumFlags1 : List (Bytes × BitVec 32) := enumNames.zip [1, 2, 4, 8, 16, 32]
def enumFlags2 : List (Bytes × BitVec 32) := enumFlags1 ++ [(b!"seven", 64)]

def countJson : Ser Nat := enumSer gcc false 0 enumList1
def count2Json : Ser (BitVec 32) := enumSer gcc true 0 enumFlags2
def flags1Json (sep : Byte) : Ser (BitVec 32) := flagsSer gcc ⟨enumFlags1, sep, true⟩
def flags2Json (sep : Byte) : Ser (BitVec 32) := flagsSer gcc ⟨enumFlags2, sep, true⟩

/-- Code and message of the error. -/
def errCode {α : Type} (S : Ser α) (v : α) (s : Bytes) : Option Code := (read S v s).map fun r => r.2.code

/-! `enum1`, lines 161-211 -/
example : write (flags2Json c%',') 37 = some b!"[\"one\",\"three\",\"six\"]" := by decide +kernel
example : readOk (flags2Json c%',') 0 b!"[\"one\",\"three\",\"six\"]" = some (37, false) := by decide +kernel
example : readOk (flags2Json c%',') 0 b!"[ \"three\", \"six\", \"one\" ]" = some (37, false) := by decide +kernel
example : readOk (flags2Json c%',') 0 b!"\"three, six, one\"" = some (37, false) := by decide +kernel
example : errCode (flags2Json c%',') 0 b!"[ \"three\", \"six\", 1 ]" = some .ExpectedOf := by decide +kernel

/-! `enum2`, lines 213-259 -/
example : write (flags2Json c%'|') 37 = some b!"\"one|three|six\"" := by decide +kernel
example : readOk (flags2Json c%'|') 0 b!"\"one|three|six\"" = some (37, false) := by decide +kernel
example : readOk (flags2Json c%'|') 0 b!"\"    six |  three   |  one   \"" = some (37, false) := by decide +kernel
example : readOk (flags2Json c%'|') 0 b!"[\"six\",\"three\",\"one\"]" = some (37, false) := by decide +kernel
example : errCode (flags2Json c%'|') 0 b!"\"three |six | 1 \"" = some .InvalidEnum := by decide +kernel

/-! `enum3`, `enum4`, lines 262-319 -/
structure Foo where
  flags : BitVec 32 := 0
  flags2 : BitVec 32 := 0
  counter2 : BitVec 32 := 0
  counter : Nat := 1
  deriving DecidableEq

def fooJson (sep : Byte) : Ser Foo := objectSer gcc false {} [
  member ⟨b!"counter", Foo.counter, fun x t => { t with counter := x }, countJson⟩,
  member ⟨b!"counter2", Foo.counter2, fun x t => { t with counter2 := x }, count2Json⟩,
  member ⟨b!"flags", Foo.flags, fun x t => { t with flags := x }, flags1Json sep⟩,
  member ⟨b!"flags2", Foo.flags2, fun x t => { t with flags2 := x }, flags2Json sep⟩]

def foo : Foo := { counter := 8, flags := 37, counter2 := 32, flags2 := 4 }

example : ((write (fooJson c%',') foo).bind fun s => readOk (fooJson c%',') {} s) = some (foo, false) := by decide +kernel
example : ((write (fooJson c%'+') foo).bind fun s => readOk (fooJson c%'+') {} s) = some (foo, false) := by decide +kernel

/-! `enum5`, lines 321-335 -/
example : readOk countJson 0 b!"\"six1\"" = some (0, false) := by decide +kernel

end Wjson.Tests
