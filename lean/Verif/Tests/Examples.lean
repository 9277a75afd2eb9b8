import Verif.Tests.Array
import Verif.Tests.Enum
/- The programs of /repo/examples, with the output their closing comments promise
(example2, about `long double`, and example18, an empty program, are left out).
`base<foo_json>` contributes the member list of the base class. -/
namespace Wjson.Tests
open Wjson

/-- Reads without an error argument, changes the value, writes. -/
def readWrite {α : Type} (S : Ser α) (v : α) (json : Bytes) (f : α → α := id) : Option Bytes :=
  (read0 S v json).bind fun x => write S (f x)

/-! example1.cpp -/
example : write (intSer gcc .int) 12345 = some b!"12345" := by decide +kernel
example : read0 (intSer gcc .int) 0 b!"12345" = some 12345 := by decide +kernel

/-! example3.cpp -/
example : readWrite strSer [] b!"\"hello world!\"" = some b!"\"hello world!\"" := by decide +kernel
example : readWrite strSer [] b!"\"\\u041F\\u0440\\u0438\\u0432\\u0435\\u0442\\u0020\\u043C\\u0438\\u0440\\u0021\"" = some b!"\"Привет мир!\"" := by
  decide +kernel
example : readWrite (charArraySer 128) (List.replicate 128 0) b!"\"\\u4E16\\u754C\\u4F60\\u597D!\"" = some b!"\"世界你好!\"" := by
  decide +kernel

/-! example4.cpp -/
example : report (arraySer (seqColl Int) (intSer gcc .int)) [] b!"[1,2,3}5,6]" = some ⟨3, 6, b!"Expected Of ','", some b!"[1,2,3>>>}5,6]"⟩ := by
  decide +kernel
example : ((read (arraySer (seqColl Int) (intSer gcc .int)) [] b!"[1,2,3}5,6]").map fun r => (r.2.tailOf, messageTrace r.2 b!"[1,2,3}5,6]")) =
    some (5, .ok b!"Expected Of ',': [1,2,3>>>}5,6]") := by decide +kernel

/-! example5.cpp -/
def exVec : Ser (List Int) := arraySer (seqColl Int) (intSer gcc .int)
def exVec2 : Ser (List (List Int)) := arraySer (seqColl (List Int)) exVec
def exVec3 : Ser (List (List (List Int))) := arraySer (seqColl (List (List Int))) exVec2

example : readWrite exVec [] b!"[     1,\t2,\r3,\n4, /*пять*/ 5 ]" = some b!"[1,2,3,4,5]" := by decide +kernel
example : readWrite exVec2 [] b!"[ [], [1], [2, 3], [4, 5, 6] ]" = some b!"[[],[1],[2,3],[4,5,6]]" := by decide +kernel
example : readWrite exVec3 [] b!"[ [[]], [[1]], [[2], [3]], [[4], [5, 6] ] ]" = some b!"[[[]],[[1]],[[2],[3]],[[4],[5,6]]]" := by decide +kernel

/-! example6.cpp: surplus elements are skipped, missing ones keep their value -/
def exArr : Ser (List Int) := fixSer .cArray 3 (intSer gcc .int)
def exArr2 : Ser (List (List Int)) := fixSer .cArray 3 exArr
def exArr3 : Ser (List (List (List Int))) := fixSer .cArray 3 exArr2

example : readWrite exArr [100, 200, 300] b!"[     1,\t2,\n3,\n4,  5 ]" = some b!"[1,2,3]" := by decide +kernel
example : readWrite exArr2 [[100, 100, 100], [200, 200, 200], [300, 300, 300]] b!"[ [], [1], [2, 3], [4, 5, 6] ]" =
    some b!"[[100,100,100],[1,200,200],[2,3,300]]" := by decide +kernel
example : readWrite exArr3
      [[[100, 101, 102], [110, 111, 112], [120, 121, 122]], [[200, 201, 202], [210, 211, 212], [220, 221, 222]],
        [[300, 301, 302], [310, 311, 312], [320, 321, 322]]]
      b!"[ [[]], [[1]], [[2], [3]], [[4], [5, 6] ] ]" =
    some b!"[[[100,101,102],[110,111,112],[120,121,122]],[[1,201,202],[210,211,212],[220,221,222]],[[2,301,302],[3,311,312],[320,321,322]]]" := by
  decide +kernel

/-! example7.cpp -/
structure EFoo where
  flag : Bool := false
  value : Int := 0
  string : Bytes := []
  deriving DecidableEq

def efoo {τ : Type} (get : τ → EFoo) (set : EFoo → τ → τ) : List (Entry τ) := [
  .mem ⟨b!"flag", fun t => (get t).flag, fun x t => set { get t with flag := x } t, boolSer⟩,
  .mem ⟨b!"value", fun t => (get t).value, fun x t => set { get t with value := x } t, intSer gcc .int⟩,
  .mem ⟨b!"string", fun t => (get t).string, fun x t => set { get t with string := x } t, strSer⟩]

def efooJson : Ser EFoo := objectSer gcc false {} ((efoo id fun x _ => x).map Entry.toMember)

example : readWrite efooJson {} b!"{\"flag\":false,\"value\":0,\"string\":\"Привет Мир\"}"
    (fun f => { f with flag := true, string := b!"Пока Мир", value := 1 }) =
    some b!"{\"flag\":true,\"value\":1,\"string\":\"Пока Мир\"}" := by decide +kernel

/-! example8.cpp (the text has no closing brace; nobody looks at the error) -/
structure EBar8 where
  base : EFoo := {}
  data : List Int := []

def ebar8Entries : List (Entry EBar8) := efoo EBar8.base (fun x t => { t with base := x }) ++ [
  .mem ⟨b!"data", EBar8.data, fun x t => { t with data := x }, exVec⟩]

def ebar8 : Ser EBar8 := objectSer gcc false {} (ebar8Entries.map Entry.toMember)

example : readWrite ebar8 {} b!"{\"flag\":false,\"value\":0,\"string\":\"Привет Мир\",\"data\":[1,2]"
    (fun b => { b with base := { b.base with flag := true }, data := b.data ++ [3] }) =
    some b!"{\"flag\":true,\"value\":0,\"string\":\"Привет Мир\",\"data\":[1,2,3]}" := by decide +kernel

/-! example9.cpp -/
structure EBar where
  base : EFoo := {}
  pfoo : Option EFoo := none
  vfoo : List EFoo := []

def ebar (S : Ser EFoo) : List (Entry EBar) := efoo EBar.base (fun x t => { t with base := x }) ++ [
  .mem ⟨b!"vfoo", EBar.vfoo, fun x t => { t with vfoo := x }, arraySer (seqColl EFoo) S⟩,
  .mem ⟨b!"pfoo", EBar.pfoo, fun x t => { t with pfoo := x }, pointerSer S⟩]

/-- The changes of the examples 9 and 12 between reading and writing. -/
def ebarChange (b : EBar) : EBar :=
  let f := { b.base with flag := true }
  { base := f, vfoo := b.vfoo ++ [f], pfoo := some f }

example : readWrite (objectSer gcc false {} ((ebar efooJson).map Entry.toMember)) {}
      b!"{\"flag\":true,\"value\":0,\"string\":\"Привет Мир\",\"vfoo\":[],\"pfoo\":null}" ebarChange =
    some b!"{\"flag\":true,\"value\":0,\"string\":\"Привет Мир\",\"vfoo\":[{\"flag\":true,\"value\":0,\"string\":\"Привет Мир\"}],\"pfoo\":{\"flag\":true,\"value\":0,\"string\":\"Привет Мир\"}}" := by
  decide +kernel

/-! example10.cpp -/
example : readWrite (dictSer (mapColl Bytes Int bytesLt) strSer (intSer gcc .int)) []
      b!"{\"один\":1,\"два\":2,\"три\":3}" (fun d => mapInsert bytesLt d (b!"четыре", 4)) =
    some b!"{\"два\":2,\"один\":1,\"три\":3,\"четыре\":4}" := by decide +kernel

/-! example11.cpp; the closing comment says `[4]`, but the program does not add
one to the elements of the array -/
def exRaw : Ser (List Bytes) := arraySer (seqColl Bytes) (rawSer gcc)

def ex11 (v : Bytes) : Bytes :=
  if isNumber v then ((readWrite (intSer gcc .int) 0 v (· + 1)).getD [])
  else if isString v then
    (((read0 strSer [] v).bind fun s => readWrite (intSer gcc .int) 0 s (· + 1)).bind (write strSer)).getD []
  else if isArray v then (readWrite exVec [] v).getD []
  else b!"null"

example : readWrite exRaw [] b!"[1,\"2\",[3]]" (List.map ex11) = some b!"[2,\"3\",[3]]" := by decide +kernel

/-! example12.cpp; the text is not valid, the change repairs the value -/
def efooArray : Ser EFoo := objectArraySer {} ((efoo id fun x _ => x).map Entry.toAMember)

example : readWrite (objectArraySer {} ((ebar efooArray).map Entry.toAMember)) {} b!"[true,0,\"Привет Мир\",[],\"pfoo\":null]" ebarChange =
    some b!"[true,0,\"Привет Мир\",[[true,0,\"Привет Мир\"]],[true,0,\"Привет Мир\"]]" := by decide +kernel

/-! example13.cpp -/
def ex13 : Ser (List Nat) := arraySer (seqColl Nat) (enumSer gcc false 0
  [(b!"one", 1), (b!"two", 2), (b!"three", 3), (b!"four", 4), (b!"five", 5), (b!"Привет мир!", 6)])

example : readWrite ex13 [] b!"[\"one\",\"two\",\"three\"]" (· ++ [4, 5, 6]) =
    some b!"[\"one\",\"two\",\"three\",\"four\",\"five\",\"Привет мир!\"]" := by decide +kernel

/-! example14.cpp: two members for one field -/
def ex14 : Ser Int := objectSer gcc false (-1) [
  member ⟨b!"code", id, fun x _ => x, intSer gcc .int⟩,
  member ⟨b!"message", id, fun x _ => x, enumSer gcc false 0
    [(b!"Valid JSON.", (0 : Int)), (b!"Invalid JSON.", 1), (b!"Parse Error.", 2)]⟩]

example : write ex14 1 = some b!"{\"code\":1,\"message\":\"Invalid JSON.\"}" := by decide +kernel
example : readOk ex14 (-1) b!"{\"code\":1,\"message\":\"Invalid JSON?\"}" = some (0, false) := by decide +kernel

/-! example15.cpp -/
def ex15 (sep : Byte) : Ser (BitVec 32) := flagsSer gcc ⟨[(b!"жил", 1), (b!"был", 2), (b!"у", 4), (b!"бабушки", 8), (b!"серенький", 16), (b!"козлик", 32)], sep, true⟩

example : read0 (ex15 c%' ') 0 b!"\"жил был серенький козлик\"" = some 51 := by decide +kernel
example : write (ex15 c%' ') 63 = some b!"\"жил был у бабушки серенький козлик\"" := by decide +kernel
example : write (ex15 c%',') 48 = some b!"[\"серенький\",\"козлик\"]" := by decide +kernel
example : write (ex15 c%'|') 49 = some b!"\"жил|серенький|козлик\"" := by decide +kernel

/-! example16.cpp (reversing the bytes of a Cyrillic word does not leave UTF-8;
with a Latin word here) -/
def ex16 (i : Bytes) : List Bytes :=
  if isNull i then [i]
  else if isBool i then [(readWrite boolSer false i (fun _ => true)).getD []]
  else if isNumber i then [(readWrite (intSer gcc .int) 0 i (· * -1)).getD []]
  else if isString i then [(readWrite strSer [] i List.reverse).getD []]
  else if isArray i then [(readWrite exVec [] i List.reverse).getD []]
  else []

example : readWrite exRaw [] b!"[ 42, null, \"abracadabra!\", [1,2], {\"x\":[3,4]}, 7, true ]" (List.flatMap ex16) =
    some b!"[-42,null,\"!arbadacarba\",[2,1],-7,true]" := by decide +kernel

end Wjson.Tests
