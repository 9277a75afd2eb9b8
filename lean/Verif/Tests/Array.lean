import Verif.Tests.Common
import Verif.Model.Ieee
/- /repo/tests/array_suite.cpp and /repo/tests/dict_suite.cpp -/
namespace Wjson.Tests
open Wjson

/-! `array1`, lines 7-75 -/
def arr5 : Ser (List Int) := fixSer .cArray 5 (intSer gcc .int)

example : write arr5 [1, 2, 3, 4, 5] = some b!"[1,2,3,4,5]" := by decide +kernel
example : readOk arr5 [0, 0, 0, 0, 0] b!"[1,2,3,4,5]" = some ([1, 2, 3, 4, 5], false) := by decide +kernel
example : report arr5 [1, 2, 3, 4, 5] b!"1,2,3,4,5]" = some ⟨3, 0, b!"Expected Of '['", some b!">>>1,2,3,4,5]"⟩ := by decide +kernel
example : report arr5 [1, 2, 3, 4, 5] b!"[1,2,3,4,5" = some ⟨2, 10, b!"Unexpected End of Fragment", some b!"[1,2,3,4,5<<<"⟩ := by
  decide +kernel
example : report arr5 [1, 2, 3, 4, 5] b!"[1,2,3,[4,5]" = some ⟨5, 7, b!"Invalid Number", some b!"[1,2,3,>>>[4,5]"⟩ := by decide +kernel
example : report arr5 [1, 2, 3, 4, 5] b!"[1,2,3 4,5]" = some ⟨3, 7, b!"Expected Of ','", some b!"[1,2,3 >>>4,5]"⟩ := by decide +kernel
example : report arr5 [1, 2, 3, 4, 5] b!"[1,2,'3 4',5]" = some ⟨5, 5, b!"Invalid Number", some b!"[1,2,>>>'3 4',5]"⟩ := by decide +kernel

/-! `array2`, lines 77-97 -/
def arr22 : Ser (List (List Int)) := fixSer .cArray 2 (fixSer .cArray 2 (intSer gcc .int))

example : write arr22 [[1, 2], [3, 4]] = some b!"[[1,2],[3,4]]" := by decide +kernel
example : readOk arr22 [[1, 2], [3, 4]] b!"[[4,3],[2,1]]" = some ([[4, 3], [2, 1]], false) := by decide +kernel

/-! `array3`, lines 99-144 -/
def arr221 : Ser (List (List (List Int))) := fixSer .cArray 2 (fixSer .cArray 2 (fixSer .cArray 1 (intSer gcc .int)))

example : write arr221 [[[1], [2]], [[3], [4]]] = some b!"[[[1],[2]],[[3],[4]]]" := by decide +kernel
example : readOk arr221 [[[1], [2]], [[3], [4]]] b!"[[[4],[3]],[[2],[1]]]" = some ([[[4], [3]], [[2], [1]]], false) := by decide +kernel
example : readOk arr221 [[[4], [3]], [[2], [1]]] b!"[[[],[]],[[],[5]]]" = some ([[[4], [3]], [[2], [5]]], false) := by decide +kernel
example : readOk arr221 [[[4], [3]], [[2], [5]]] b!"[[[null],[null]],[[null],[5]]]" = some ([[[0], [0]], [[0], [5]]], false) := by
  decide +kernel
example : readOk arr221 [[[0], [0]], [[0], [5]]] b!"null" = some ([[[0], [0]], [[0], [0]]], false) := by decide +kernel

/-! `array4`, lines 146-169 -/
def strings : Ser (List Bytes) := arraySer (seqColl Bytes) strSer

example : write strings [b!"Привет", b!"Мир", b!"!", b!"世界你好!"] = some b!"[\"Привет\",\"Мир\",\"!\",\"世界你好!\"]" := by decide +kernel
example : readOk strings [] b!"[\"Привет\",\"Мир\",\"!\",\"世界你好!\"]" =
    some ([b!"Привет", b!"Мир", b!"!", b!"世界你好!"], false) := by decide +kernel

/-! `array5`, `array6`, lines 171-207 -/
def ints : Ser (List Int) := arraySer (seqColl Int) (intSer gcc .int)

example : write ints [1, 2, 3, 4, 5] = some b!"[1,2,3,4,5]" := by decide +kernel
example : readOk ints [] b!"[1,2,3,4,5]" = some ([1, 2, 3, 4, 5], false) := by decide +kernel

/-! `array7`, `array8`, lines 209-247 -/
def intSet : Ser (List Int) := arraySer (setColl Int fun a b => decide (a < b)) (intSer gcc .int)
def intMultiset : Ser (List Int) := arraySer (multisetColl Int fun a b => decide (a < b)) (intSer gcc .int)

example : write intSet [1, 2, 3, 4, 5] = some b!"[1,2,3,4,5]" := by decide +kernel
example : readOk intSet [] b!"[1,2,3,4,5]" = some ([1, 2, 3, 4, 5], false) := by decide +kernel
example : write intMultiset [1, 1, 1, 2, 3, 4, 5] = some b!"[1,1,1,2,3,4,5]" := by decide +kernel
example : readOk intMultiset [] b!"[1,1,1,2,3,4,5]" = some ([1, 1, 1, 2, 3, 4, 5], false) := by decide +kernel

/-! `array11`, lines 290-310: the test prints the text and compares the values read -/
def doubles : Ser (List Fl) := fixSer .stdArray 5 (floatSer (BinFmt.double.ty 2) 2)
def theDoubles : List Fl := [b!"1.1", b!"2.2", b!"3.3", b!"4.4", b!"5.5"].map (flConv .double)

example : write doubles theDoubles = some b!"[1.10,2.20,3.30,4.40,5.50]" := by decide +kernel
example : readOk doubles doubles.dflt b!"[1.10,2.20,3.30,4.40,5.50]" = some (theDoubles, false) := by decide +kernel

/-! /repo/tests/dict_suite.cpp, `dict1`, lines 7-64 -/

/-- `std::string::operator<`: bytes compare as `unsigned char`. -/
def bytesLt : Bytes → Bytes → Bool
  | _, [] => false
  | [], _ :: _ => true
  | a :: s, b :: t => if a < b then true else if b < a then false else bytesLt s t

def strMap : Ser (List (Bytes × Bytes)) := dictSer (mapColl Bytes Bytes bytesLt) strSer strSer
def strDict : Ser (List (Bytes × Bytes)) := dictSer (seqColl (Bytes × Bytes)) strSer strSer

/-- `m["раз"]="раз"; m["два"]="два";` -/
def theMap : List (Bytes × Bytes) := mapInsert bytesLt (mapInsert bytesLt [] (b!"раз", b!"раз")) (b!"два", b!"два")

example : write strMap theMap = some b!"{\"два\":\"два\",\"раз\":\"раз\"}" := by decide +kernel
example : read0 strMap [] b!"{\"два\":\"два\",\"раз\":\"раз\"}" = some [(b!"два", b!"два"), (b!"раз", b!"раз")] := by decide +kernel
example : write strDict [(b!"раз", b!"раз"), (b!"два", b!"два")] = some b!"{\"раз\":\"раз\",\"два\":\"два\"}" := by decide +kernel
example : read0 strDict [] b!"{\"раз\":\"раз\",\"два\":\"два\"}" = some [(b!"раз", b!"раз"), (b!"два", b!"два")] := by decide +kernel

/-! `dict2`, lines 66-78 -/
example : write strDict [] = some b!"{}" := by decide +kernel

end Wjson.Tests
