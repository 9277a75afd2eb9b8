import Verif.Tests.Array
/- /repo/tests/object_suite.cpp. `base<foo_json>` contributes the member list of
the base class. -/
namespace Wjson.Tests
open Wjson

structure OFoo where
  foo1 : Int := 0
  foo2 : Bytes := []
  foo3 : List Bytes := []
  foo4 : List Int := []
  deriving DecidableEq

structure OBar where
  base : OFoo := {}
  bar1 : OFoo := {}
  bar2 : List OFoo := []
  bar3 : List (Bytes × OFoo) := []
  deriving DecidableEq

/-- The member list of `foo_json`, for a structure with a part of type `foo`. -/
def fooEntries {τ : Type} (get : τ → OFoo) (set : OFoo → τ → τ) : List (Entry τ) := [
  .mem ⟨b!"foo1", fun t => (get t).foo1, fun x t => set { get t with foo1 := x } t, intSer gcc .int⟩,
  .mem ⟨b!"foo2", fun t => (get t).foo2, fun x t => set { get t with foo2 := x } t, strSer⟩,
  .mem ⟨b!"foo3", fun t => (get t).foo3, fun x t => set { get t with foo3 := x } t, strings⟩,
  .prop ⟨b!"foo4", fun t => (get t).foo4, fun x t => set { get t with foo4 := x } t, ints⟩]

def ofooJson : Ser OFoo := objectSer gcc false {} ((fooEntries id fun x _ => x).map Entry.toMember)

def barEntries (S : Ser OFoo) : List (Entry OBar) := fooEntries OBar.base (fun x t => { t with base := x }) ++ [
  .mem ⟨b!"bar1", OBar.bar1, fun x t => { t with bar1 := x }, S⟩,
  .mem ⟨b!"bar2", OBar.bar2, fun x t => { t with bar2 := x }, arraySer (seqColl OFoo) S⟩,
  .mem ⟨b!"bar3", OBar.bar3, fun x t => { t with bar3 := x }, dictSer (mapColl Bytes OFoo bytesLt) strSer S⟩]

def barJson : Ser OBar := objectSer gcc false {} ((barEntries ofooJson).map Entry.toMember)

def ofooArray : Ser OFoo := objectArraySer {} ((fooEntries id fun x _ => x).map Entry.toAMember)
def barArray : Ser OBar := objectArraySer {} ((barEntries ofooArray).map Entry.toAMember)

/-- Lines 114-130. -/
def b1 : OBar :=
  let b0 : OBar := { base := { foo1 := 100500, foo2 := b!"aqualung" }, bar1 := { foo1 := -100500, foo2 := b!"drowned" } }
  { base := { b0.base with foo3 := [b!"one", b!"two", b!"three"], foo4 := [1, 2, 3, 4, 5] },
    bar1 := { b0.bar1 with foo3 := [b!"three", b!"two", b!"one"] },
    bar2 := [b0.base, b0.bar1],
    bar3 := mapInsert bytesLt (mapInsert bytesLt [] (b!"Ingeborga", b0.base)) (b!"Dapkūnaitė", b0.bar1) }

/-! `object1`, `object2`, lines 111-169 -/
example : ((write barJson b1).bind fun s => read0 barJson {} s) = some b1 := by decide +kernel
example : ((write barArray b1).bind fun s => read0 barArray {} s) = some b1 := by decide +kernel

/-! `object3`, lines 171-244 -/
structure Baz where
  foo1 : Int := 0
  foo2 : Bytes := []
  deriving DecidableEq

def bazJson (pri : Bool) : Ser Baz := objectSer gcc false {} [
  memberIf ⟨b!"foo", Baz.foo1, fun x t => { t with foo1 := x }, intSer gcc .int⟩
    ⟨b!"foo", Baz.foo2, fun x t => { t with foo2 := x }, strSer⟩ (fun x => x == (0 : Int)) pri]

example : ∀ pri, write (bazJson pri) { foo2 := b!"hello" } = some (jsonLit b!"{'foo':'hello'}") := by decide +kernel
example : ∀ pri, readOk (bazJson pri) { foo1 := 10 } b!"{\"foo\":\"hello\"}" = some ({ foo2 := b!"hello" }, false) := by decide +kernel
example : ∀ pri, write (bazJson pri) { foo1 := 123, foo2 := b!"hello" } = some b!"{\"foo\":123}" := by decide +kernel
example : ∀ pri, readOk (bazJson pri) { foo1 := 10, foo2 := b!"---" } b!"{\"foo\":123}" = some ({ foo1 := 123 }, false) := by decide +kernel

end Wjson.Tests
