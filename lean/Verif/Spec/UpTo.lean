import Verif.Spec.Nested
/-
Containers whose iteration order the C++ standard leaves open, and values that
come back up to the order of such containers.
-/
namespace Wjson
open Spec

/-- The states a container goes through while elements are inserted into an empty
one. -/
inductive Filled {α C : Type} (K : Coll α C) : C → Prop
  | empty : Filled K K.clear
  | insert {c : C} (x : α) : Filled K c → Filled K (K.insert c x)

/-- A container that keeps every inserted element, in any place
(`std::multiset`, `std::multimap`, `std::unordered_multiset`,
`std::unordered_multimap`): the elements after an insertion are the earlier ones
and the new one, in any order. The state may hold more than the elements, such as
the buckets of a hash table. -/
structure BagColl {α C : Type} (K : Coll α C) : Prop where
  clear : K.elems K.clear = []
  insert : ∀ c x, Filled K c → (K.elems (K.insert c x)).Perm (x :: K.elems c)

/-- A container that keeps one element for each key, the first inserted, in any
place (`std::set`, `std::map`, `std::unordered_set`, `std::unordered_map`). -/
structure UniqueColl {α C κ : Type} (key : α → κ) (K : Coll α C) : Prop where
  clear : K.elems K.clear = []
  insert_new : ∀ c x, Filled K c → (∀ y ∈ K.elems c, key y ≠ key x) → (K.elems (K.insert c x)).Perm (x :: K.elems c)
  insert_old : ∀ c x y, Filled K c → y ∈ K.elems c → key y = key x → (K.elems (K.insert c x)).Perm (K.elems c)

/-- The containers `a` and `b` hold the same elements up to order and up to the
relation `R` of elements. -/
def UpToOrder {α C : Type} (K : Coll α C) (R : α → α → Prop) (a b : C) : Prop :=
  ∃ l, All2 R (K.elems a) l ∧ l.Perm (K.elems b)

/-- Key and value are related. -/
def PairRel {κ ν : Type} (R : κ → κ → Prop) (Q : ν → ν → Prop) (a b : κ × ν) : Prop := R a.1 b.1 ∧ Q a.2 b.2

/-- Both pointers are null, or both are not and what they point to is related. -/
inductive PtrRel {α : Type} (R : α → α → Prop) : Option α → Option α → Prop
  | null : PtrRel R none none
  | both {a b} : R a b → PtrRel R (some a) (some b)

/-- In every place of the structures `a` and `b` the member that is written for `a` is related, and the
other alternative of a `member_if` is the same. -/
def SlotsRel {τ : Type} (R : ∀ m : MRef τ, m.α → m.α → Prop) (L : List (Slot τ)) (a b : τ) : Prop :=
  ∀ x ∈ L, R (x.live a) ((x.live a).get a) ((x.live a).get b) ∧ ∀ o, x.idle a = some o → o.get b = o.get a

/-- `GoodUpTo c S v R`: the value `v` of the description `S` comes back as a value
that is related to it by `R`. The relation follows the description: equality for
everything `GoodValue` covers, equality up to order for containers with an open
order, and part by part for everything built from these. -/
inductive GoodUpTo (c : Cfg) : ∀ {α : Type}, Ser α → α → (α → α → Prop) → Prop
  | exact {α : Type} {S : Ser α} {v : α} : GoodValue c S v → GoodUpTo c S v Eq
  /-- containers that keep all elements -/
  | bag {α C : Type} {K : Coll α C} {S : Ser α} {R : α → α → Prop} {v : C} : BagColl K →
      (∀ x ∈ K.elems v, GoodUpTo c S x R) → GoodUpTo c (arraySer K S) v (UpToOrder K R)
  /-- containers with one element for each key -/
  | unique {α C κ : Type} {key : α → κ} {K : Coll α C} {S : Ser α} {R : α → α → Prop} {v : C} : UniqueColl key K →
      ((K.elems v).map key).Nodup → (∀ a b, R a b → key a = key b) →
      (∀ x ∈ K.elems v, GoodUpTo c S x R) → GoodUpTo c (arraySer K S) v (UpToOrder K R)
  /-- vectors, deques, lists -/
  | seq {α : Type} {S : Ser α} {R : α → α → Prop} {vs : List α} : (∀ v ∈ vs, GoodUpTo c S v R) →
      GoodUpTo c (arraySer (seqColl α) S) vs (All2 R)
  /-- `std::array` and C arrays -/
  | fixed {α : Type} {N : Nat} {k : FixKind} {S : Ser α} {R : α → α → Prop} {vs : Vector α N} : 1 ≤ N →
      (∀ v ∈ vs.toList, GoodUpTo c S v R) → GoodUpTo c (fixVecSer k N S) vs (fun a b => All2 R a.toList b.toList)
  /-- multimaps and unordered multimaps -/
  | bagDict {κ ν C : Type} {K : Coll (κ × ν) C} {SK : Ser κ} {SV : Ser ν} {R : κ → κ → Prop} {Q : ν → ν → Prop} {v : C} :
      BagColl K → (∀ x ∈ K.elems v, GoodUpTo c SK x.1 R) → (∀ x ∈ K.elems v, GoodUpTo c SV x.2 Q) →
      GoodUpTo c (dictSer K SK SV) v (UpToOrder K (PairRel R Q))
  /-- maps and unordered maps -/
  | uniqueDict {κ ν C : Type} {K : Coll (κ × ν) C} {SK : Ser κ} {SV : Ser ν} {Q : ν → ν → Prop} {v : C} :
      UniqueColl Prod.fst K → ((K.elems v).map Prod.fst).Nodup → (∀ x ∈ K.elems v, GoodUpTo c SK x.1 Eq) →
      (∀ x ∈ K.elems v, GoodUpTo c SV x.2 Q) → GoodUpTo c (dictSer K SK SV) v (UpToOrder K (PairRel Eq Q))
  /-- dictionaries over sequences of fields -/
  | dict {κ ν : Type} {SK : Ser κ} {SV : Ser ν} {R : κ → κ → Prop} {Q : ν → ν → Prop} {vs : List (κ × ν)} :
      (∀ x ∈ vs, GoodUpTo c SK x.1 R) → (∀ x ∈ vs, GoodUpTo c SV x.2 Q) →
      GoodUpTo c (dictSer (seqColl (κ × ν)) SK SV) vs (All2 (PairRel R Q))
  /-- `std::map` keeps the order of its keys -/
  | map {κ ν : Type} {SK : Ser κ} {SV : Ser ν} {Q : ν → ν → Prop} {lt : κ → κ → Bool} {vs : List (κ × ν)} :
      StrictTotal lt → Increasing (fun a b => lt a.1 b.1) vs → (∀ x ∈ vs, GoodUpTo c SK x.1 Eq) →
      (∀ x ∈ vs, GoodUpTo c SV x.2 Q) → GoodUpTo c (dictSer (mapColl κ ν lt) SK SV) vs (All2 (PairRel Eq Q))
  | null {α : Type} {S : Ser α} {R : α → α → Prop} : GoodUpTo c (pointerSer S) none (PtrRel R)
  /-- pointers to values whose text does not start with `n` -/
  | pointer {α : Type} {S : Ser α} {R : α → α → Prop} {v : α} : GoodUpTo c S v R →
      (∀ t, S.emit v ⟨[], .back⟩ = .ok ⟨t, .back⟩ → t.head? ≠ some c%'n') → GoodUpTo c (pointerSer S) (some v) (PtrRel R)
  /-- quoted values whose text is a good string -/
  | quoted {α : Type} {S : Ser α} {R : α → α → Prop} {v : α} {reqQ : Bool} : GoodUpTo c S v R →
      (∀ t, S.emit v ⟨[], .back⟩ = .ok ⟨t, .back⟩ → StrOk t) → GoodUpTo c (quotedSer S true reqQ) v R
  /-- structures that consist of their members; each member with its own relation -/
  | object {τ : Type} {strict : Bool} {dflt : τ} {L : List (Entry τ)} {v : τ} (R : ∀ en : Entry τ, en.ref.α → en.ref.α → Prop) :
      Fields (L.map Entry.ref) → (∀ n ∈ names L, c%'"' ∉ n) → (∀ a b, (∀ en ∈ L, en.ref.get a = en.ref.get b) → a = b) →
      (∀ en ∈ L, GoodUpTo c en.ref.ser (en.ref.get v) (R en)) →
      GoodUpTo c (objectSer c strict dflt (L.map Entry.toMember)) v (fun a b => ∀ en ∈ L, R en (en.ref.get a) (en.ref.get b))
  /-- the same as positional arrays -/
  | objectArray {τ : Type} {dflt : τ} {L : List (Entry τ)} {v : τ} (R : ∀ en : Entry τ, en.ref.α → en.ref.α → Prop) :
      Fields (L.map Entry.ref) → (∀ a b, (∀ en ∈ L, en.ref.get a = en.ref.get b) → a = b) →
      (∀ en ∈ L, GoodUpTo c en.ref.ser (en.ref.get v) (R en)) →
      GoodUpTo c (objectArraySer dflt (L.map Entry.toAMember)) v (fun a b => ∀ en ∈ L, R en (en.ref.get a) (en.ref.get b))
  /-- structures with alternatives as in `GoodValue` -/
  | objectIf {τ : Type} {strict : Bool} {dflt : τ} {L : List (Slot τ)} {v : τ} (R : ∀ m : MRef τ, m.α → m.α → Prop) :
      Fields (L.flatMap Slot.refs) → (∀ x ∈ L, SameNames x) → (∀ x ∈ L, c%'"' ∉ (x.live v).name) →
      (∀ a b, (∀ m ∈ L.flatMap Slot.refs, m.get a = m.get b) → a = b) →
      (∀ x ∈ L, GoodUpTo c (x.live v).ser ((x.live v).get v) (R (x.live v))) →
      (∀ x ∈ L, ∀ o, x.idle v = some o → Reads o.ser.de b!"null" (o.get v)) →
      (∀ x ∈ L, ∀ o, x.idle v = some o → x.idleFirst v → ∀ t, (x.live v).ser.emit ((x.live v).get v) ⟨[], .back⟩ = .ok ⟨t, .back⟩ →
        Rejects o.ser.de t) →
      GoodUpTo c (objectSer c strict dflt (L.map Slot.toMember)) v (SlotsRel R L)
  /-- the same as positional arrays -/
  | objectArrayIf {τ : Type} {dflt : τ} {L : List (Slot τ)} {v : τ} (R : ∀ m : MRef τ, m.α → m.α → Prop) :
      Fields (L.flatMap Slot.refs) → (∀ a b, (∀ m ∈ L.flatMap Slot.refs, m.get a = m.get b) → a = b) →
      (∀ x ∈ L, GoodUpTo c (x.live v).ser ((x.live v).get v) (R (x.live v))) →
      (∀ x ∈ L, ∀ o, x.idle v = some o → Reads o.ser.de b!"null" (o.get v)) →
      (∀ x ∈ L, ∀ o, x.idle v = some o → x.idleFirst v → ∀ t, (x.live v).ser.emit ((x.live v).get v) ⟨[], .back⟩ = .ok ⟨t, .back⟩ →
        Rejects o.ser.de t) →
      GoodUpTo c (objectArraySer dflt (L.map Slot.toAMember)) v (SlotsRel R L)

end Wjson
