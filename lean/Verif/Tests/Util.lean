import Verif.Tests.Array
/- /repo/tests/util_suite.cpp and /repo/tests/schema_suite.cpp -/
namespace Wjson.Tests
open Wjson

/-! `errors`, lines 11-43 -/
def je1 : EPtr := createError .ExpectedOf .fresh (some b!";") 3
def je2 : EPtr := createError .InvalidRequest .fresh (some b!"l") 100

example : je1 = .obj ⟨.ExpectedOf, some b!";", 3⟩ := by decide +kernel
example : je2 = .obj ⟨.InvalidRequest, some b!"l", 100⟩ := by decide +kernel
example : whereIs ⟨.InvalidRequest, some b!"l", 100⟩ [] = 0 := by decide +kernel
example : what ⟨.InvalidRequest, some b!"l", 100⟩ = b!"Invalid JSON-RPC Request" := by decide +kernel

/-! `util1`, `util2`, lines 45-74 -/
example : read0 (rawSer gcc) [] b!"\"Привет мир!\"" = some b!"\"Привет мир!\"" := by decide +kernel
example : write (rawSer gcc) b!"\"Привет мир!\"" = some b!"\"Привет мир!\"" := by decide +kernel

/-! `util3`, lines 76-102 -/
structure UBar where
  value : Int := 12345
  deriving DecidableEq

def ubarJson : Ser UBar := memberValueSer {} UBar.value (fun x t => { t with value := x }) (intSer gcc .int)

example : write ubarJson {} = some b!"12345" := by decide +kernel
example : read0 ubarJson {} b!"54321" = some ⟨54321⟩ := by decide +kernel

/-! `util4`, lines 104-157 -/
example : write (pointerSer strSer) (some b!"Привет мир!") = some b!"\"Привет мир!\"" := by decide +kernel
example : read0 (pointerSer strSer) none b!"\"Привет мир!\"" = some (some b!"Привет мир!") := by decide +kernel
example : read0 (pointerSer strSer) (some b!"Привет мир!") b!"null" = some none := by decide +kernel
example : write (pointerSer strSer) none = some b!"null" := by decide +kernel

/-! `util5`, lines 159-169 -/
example : write (fieldSer strSer (intSer gcc .int)) (b!"foo", 12345) = some b!"\"foo\":12345" := by decide +kernel

/-! `util6`, lines 171-210 -/
example : write (quotedSer (intSer gcc .int) true true) 123456 = some b!"\"123456\"" := by decide +kernel
example : read0 (quotedSer (intSer gcc .int) true true) 0 b!"\"123456\"" = some 123456 := by decide +kernel
example : write (quotedSer (intSer gcc .int) false false) 123456 = some b!"123456" := by decide +kernel
example : read0 (quotedSer (intSer gcc .int) false false) 0 b!"123456" = some 123456 := by decide +kernel
example : write (quotedSer ints true true) [1, 2, 3] = some b!"\"[1,2,3]\"" := by decide +kernel
example : read0 (quotedSer ints true true) [] b!"\"[1,2,3]\"" = some [1, 2, 3] := by decide +kernel
example : (readOk (quotedSer ints true true) [] b!"\"[1,[1,2,3,4],3]\"").map Prod.snd = some true := by decide +kernel

/-! `util7`, lines 212-254 -/
example : write (rawQuotedSer gcc true true) b!"123456" = some b!"\"123456\"" := by decide +kernel
example : readOk (rawQuotedSer gcc true true) b!"0" b!"\"123456\"" = some (b!"123456", false) := by decide +kernel
example : write (rawQuotedSer gcc false false) b!"123456" = some b!"123456" := by decide +kernel
example : readOk (rawQuotedSer gcc false false) b!"0" b!"123456" = some (b!"123456", false) := by decide +kernel
example : write (rawQuotedSer gcc true true) b!"[1,2,3]" = some b!"\"[1,2,3]\"" := by decide +kernel
example : readOk (rawQuotedSer gcc true true) [] b!"\"[1,2,3]\"" = some (b!"[1,2,3]", false) := by decide +kernel
example : readOk (rawQuotedSer gcc true true) [] b!"\"[1,[1,2,3,4],3]\"" = some (b!"[1,[1,2,3,4],3]", false) := by decide +kernel

/-! `utility`, lines 256-335 -/
structure Vars where
  first : Bool := false
  second : Int := 0
  third : Bytes := []
  fourth : List Int := []
  deriving DecidableEq

def multiArgs : List (MultiArg Vars) := [
  ⟨Vars.first, fun x t => { t with first := x }, boolSer⟩,
  ⟨Vars.second, fun x t => { t with second := x }, intSer gcc .int⟩,
  ⟨Vars.third, fun x t => { t with third := x }, strSer⟩,
  ⟨Vars.fourth, fun x t => { t with fourth := x }, ints⟩]

def multiTest (s : Bytes) (e : EPtr) : Option (Nat × Vars × Bool) :=
  match multiDe gcc multiArgs {} s e with
  | .ok (n, t, e) => some (n, t, e.failed)
  | _ => none

example : multiTest b!"123" .null = some (1, { second := 123 }, false) := by decide +kernel
example : multiTest b!"true" .null = some (0, { first := true }, false) := by decide +kernel
example : multiTest b!"[1,2,3]" .null = some (3, { fourth := [1, 2, 3] }, false) := by decide +kernel
example : multiTest b!"{}" .fresh = some (4, {}, false) := by decide +kernel
example : multiTest b!"{[1,2,3]}" .fresh = some (4, {}, true) := by decide +kernel

/-! /repo/tests/schema_suite.cpp, `create_schema`, lines 79-97; the values are
the member `bar` -/
def foo0 : SchemaTy Int := ⟨0, some 0, some fun _ => 0, some fun _ => 0, some fun _ _ => (0, true), some []⟩
def foo1 : SchemaTy Int := { dflt := 0 }
def foo4 : SchemaTy Int :=
  { dflt := 0
    s4 := some fun _ n => if n = b!"1" then (1, true) else if n = b!"2" then (2, true) else if n = [] then (3, true) else (4, false) }

example : (createSchema foo0 0 []).2 = true := by decide +kernel
example : (createSchema foo1 0 []).2 = true := by decide +kernel
example : createSchema foo4 0 b!"5" = (4, false) := by decide +kernel
example : createSchema foo4 4 b!"" = (3, true) := by decide +kernel
example : createSchema foo4 3 b!"1" = (1, true) := by decide +kernel
example : createSchema foo4 1 b!"2" = (2, true) := by decide +kernel

end Wjson.Tests
