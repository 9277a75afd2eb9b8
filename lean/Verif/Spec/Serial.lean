import Verif.Model.Sink
import Verif.Spec.Grammar
/-
What it means for a serializer to write a text and to read a text, and the
layouts of arrays and objects. The definitions are about an arbitrary
serializer (a pair of a write and a read operator); no other part of the model
is used.
-/
namespace Wjson
open Spec

/-- The value `v` is written as the text `t`, through every output iterator. -/
def Writes {α : Type} (em : Emit α) (v : α) (t : Bytes) : Prop := ∀ k, em v k = k.puts t

/-- The value `v` is written as the text `t` through `std::back_inserter`,
whatever the container holds. -/
def WritesBack {α : Type} (em : Emit α) (v : α) (t : Bytes) : Prop :=
  ∀ m, em v ⟨m, .back⟩ = .ok ⟨m ++ t, .back⟩

/-- `t` starts like a value: not with white space, slash, a closing bracket or a
separator. -/
def Start (t : Bytes) : Prop :=
  ∃ b u, t = b :: u ∧ ¬ WsByte b ∧ b ≠ c%'/' ∧ b ≠ c%']' ∧ b ≠ c%'}' ∧ b ≠ c%',' ∧ b ≠ c%':' ∧ b ≠ c%'*'

/-- Reading the text `t` into a variable that holds `v0` gives `v` whatever
follows (up to a digit, point or exponent letter), sets no error, and stops
right after `t`. -/
def ReadsAt {α : Type} (de : De α) (v0 : α) (t : Bytes) (v : α) : Prop :=
  ∀ rest e, e.failed = false → Delim rest → de v0 (t ++ rest) e = .ok (v, rest, e)

/-- Reading `t` gives `v` whatever the variable holds before. -/
def Reads {α : Type} (de : De α) (t : Bytes) (v : α) : Prop := ∀ v0, ReadsAt de v0 t v

/-- `t` is written for `v` and read back as `v`. -/
structure RT {α : Type} (S : Ser α) (v : α) (t : Bytes) : Prop where
  writes : Writes S.emit v t
  start : Start t
  reads : Reads S.de t v

/-- The same through `std::back_inserter` only. -/
structure RTB {α : Type} (S : Ser α) (v : α) (t : Bytes) : Prop where
  writes : WritesBack S.emit v t
  start : Start t
  reads : Reads S.de t v

/-- `t` is written for `v` through `std::back_inserter` and read back as `v'`. -/
structure RTU {α : Type} (S : Ser α) (v v' : α) (t : Bytes) : Prop where
  writes : WritesBack S.emit v t
  start : Start t
  reads : Reads S.de t v'

/-- The serializer reports an error for the text, whatever follows. -/
def Rejects {α : Type} (de : De α) (t : Bytes) : Prop :=
  ∀ v0 rest, Delim rest → ∃ v1 p e', de v0 (t ++ rest) .fresh = .ok (v1, p, e') ∧ e'.failed = true

/-- The part after the opening bracket of a JSON array (or dictionary) closed by
`R`: items separated by commas, any gaps, optionally one trailing comma. `item
v t` tells which texts are an item with value `v`. -/
inductive ItemsText {α : Type} (item : α → Bytes → Prop) (R : Byte) : List α → Bytes → Prop
  | close {g} : Gap g → ItemsText item R [] (g ++ [R])
  | last {g1 v t g2} : Gap g1 → Start t → item v t → Gap g2 → ItemsText item R [v] (g1 ++ t ++ g2 ++ [R])
  | more {g1 v t g2 vs r} : Gap g1 → Start t → item v t → Gap g2 → ItemsText item R vs r →
      ItemsText item R (v :: vs) (g1 ++ t ++ g2 ++ c%',' :: r)

/-- The same with at least one item and without a trailing comma. -/
inductive Items1 {α : Type} (item : α → Bytes → Prop) (R : Byte) : List α → Bytes → Prop
  | last {g1 v t g2} : Gap g1 → Start t → item v t → Gap g2 → Items1 item R [v] (g1 ++ t ++ g2 ++ [R])
  | more {g1 v t g2 vs r} : Gap g1 → Start t → item v t → Gap g2 → Items1 item R vs r →
      Items1 item R (v :: vs) (g1 ++ t ++ g2 ++ c%',' :: r)

/-- Items each followed by a comma. -/
inductive ItemsComma {α : Type} (item : α → Bytes → Prop) : List α → Bytes → Prop
  | nil : ItemsComma item [] []
  | cons {g1 v t g2 vs r} : Gap g1 → Start t → item v t → Gap g2 → ItemsComma item vs r →
      ItemsComma item (v :: vs) (g1 ++ t ++ g2 ++ c%',' :: r)

/-- Two lists of the same length, related entry by entry. -/
inductive All2.{u, v} {α : Type u} {β : Type v} (P : α → β → Prop) : List α → List β → Prop
  | nil : All2 P [] []
  | cons {a b as bs} : P a b → All2 P as bs → All2 P (a :: as) (b :: bs)

/-- Items joined by commas, without any gap: the layout the library writes. -/
def joinComma : List Bytes → Bytes
  | [] => []
  | [t] => t
  | t :: u :: l => t ++ c%',' :: joinComma (u :: l)

/-- A strict total order given by a Boolean comparison. -/
structure StrictTotal {α : Type} (lt : α → α → Bool) : Prop where
  irrefl : ∀ a, lt a a = false
  trans : ∀ {a b c}, lt a b = true → lt b c = true → lt a c = true
  total : ∀ a b, lt a b = false → lt b a = false → a = b

/-- Strictly increasing. -/
def Increasing {α : Type} (lt : α → α → Bool) (l : List α) : Prop := l.Pairwise fun a b => lt a b = true

/-- Weakly increasing. -/
def Sorted {α : Type} (lt : α → α → Bool) (l : List α) : Prop := l.Pairwise fun a b => lt b a = false

end Wjson
