import Verif.Spec.UpTo
import Verif.Spec.Slots
/-
Specification for C79: how much memory a value takes, and for which descriptions the
memory of what is read is bounded by the length of the text.
-/
namespace Wjson.Spec

/-- An insertion adds at most one element and leaves the other elements as they are, in any
order: every container of the standard library. -/
structure AddsOne {α C : Type} (K : Coll α C) : Prop where
  clear : K.elems K.clear = []
  insert : ∀ c x, Filled K c → ∃ l, (K.elems (K.insert c x)).Perm l ∧ l.Sublist (x :: K.elems c)

/-- The size of the elements of a container: one for each element and the sizes of the elements. -/
def sumSize {α : Type} (f : α → Nat) : List α → Nat
  | [] => 0
  | x :: l => 1 + f x + sumSize f l

/-- The sizes of the elements of an array, whose own room is part of the variable. -/
def sumSize' {α : Type} (f : α → Nat) : List α → Nat
  | [] => 0
  | x :: l => f x + sumSize' f l

/-- The size of what a pointer points to: one for the object and its size. -/
def ptrSize {α : Type} (f : α → Nat) : Option α → Nat
  | none => 0
  | some x => 1 + f x

/-- Storing a part of size `f x` changes the size `F` of the whole by the difference of the sizes of
the part (at most). -/
def PartOf {τ α : Type} (F : τ → Nat) (f : α → Nat) (get : τ → α) (set : α → τ → τ) : Prop :=
  ∀ x t, F (set x t) + f (get t) ≤ F t + f x

/-- The place of a member list is a `member_if`. -/
def _root_.Wjson.Slot.isAlt {τ : Type} : Slot τ → Prop
  | .one _ => False
  | .alt _ _ _ _ => True

/-- Reading `null` into the member leaves nothing of what was stored in it: strings, containers, pointers; not
raw values, for which `null` is text. -/
structure Emptied {τ : Type} (m : MRef τ) (f : m.α → Nat) : Prop where
  stored : ∀ x t, m.get (m.set x t) = x
  null : ∀ v r, m.ser.de v b!"null" .null = .ok r → f r.1 = 0

/-- `Sized c S f A k`: values of the description `S` have the size `f`, the number of bytes of
strings and of objects in containers or behind pointers, and reading allocates at most `A` and `k` for
each byte consumed. -/
inductive Sized (c : Cfg) : ∀ {α : Type}, Ser α → (α → Nat) → Nat → Nat → Prop
  | int (ty : IntTy) : Sized c (intSer c ty) (fun _ => 0) 0 0
  | bool : Sized c boolSer (fun _ => 0) 0 0
  | float {α : Type} (F : FloatTy α) (R : Int) : Sized c (floatSer F R) (fun _ => 0) 0 0
  | chars (N : Nat) : Sized c (charArraySer N) (fun _ => 0) 0 0
  | enum {α : Type} [DecidableEq α] (strict : Bool) (dflt : α) (L : List (Bytes × α)) :
      Sized c (enumSer c strict dflt L) (fun _ => 0) 0 0
  | flags {w : Nat} (G : Flags w) : Sized c (flagsSer c G) (fun _ => 0) 0 0
  | time (ty : IntTy) (fr : Int) : Sized c (timeSer c ty fr) (fun _ => 0) 0 0
  | size (ty : IntTy) (metric : Int) : Sized c (sizeSer c ty metric) (fun _ => 0) 0 0
  | str : Sized c strSer List.length 0 1
  | raw : Sized c (rawSer c) List.length 0 1
  | rawQuoted (serQ reqQ : Bool) : Sized c (rawQuotedSer c serQ reqQ) List.length 0 1
  | quoted {α : Type} {S : Ser α} {f : α → Nat} {A k : Nat} (serQ reqQ : Bool) : Sized c S f A k →
      Sized c (quotedSer S serQ reqQ) f A k
  /-- the object that is created -/
  | pointer {α : Type} {S : Ser α} {f : α → Nat} {A k : Nat} : Sized c S f A k →
      Sized c (pointerSer S) (ptrSize f) (1 + f S.dflt + A) k
  | memberValue {τ α : Type} {S : Ser α} {f : α → Nat} {A k : Nat} {F : τ → Nat} {get : τ → α} {set : α → τ → τ} (dflt : τ) :
      Sized c S f A k → PartOf F f get set → Sized c (memberValueSer dflt get set S) F A k
  /-- an element and what it starts with cost no more than the byte before it -/
  | array {α C : Type} {S : Ser α} {f : α → Nat} {A k : Nat} {K : Coll α C} : AddsOne K → Sized c S f A k →
      1 + f S.dflt + A ≤ k → Sized c (arraySer K S) (fun v => sumSize f (K.elems v)) 0 k
  | dict {κ ν C : Type} {SK : Ser κ} {SV : Ser ν} {f : κ → Nat} {g : ν → Nat} {A B k : Nat} {K : Coll (κ × ν) C} :
      AddsOne K → Sized c SK f A k → Sized c SV g B k → 1 + f SK.dflt + g SV.dflt + A + B ≤ k →
      Sized c (dictSer K SK SV) (fun v => sumSize (fun x => f x.1 + g x.2) (K.elems v)) 0 k
  /-- for a text that begins like `null` every element reads the same text -/
  | fixed {α : Type} {S : Ser α} {f : α → Nat} {A k k' : Nat} (kind : FixKind) (N : Nat) : Sized c S f A k →
      k ≤ k' → N * k ≤ k' → f S.dflt + A ≤ k' →
      Sized c (fixVecSer kind N S) (fun v => sumSize' f v.toList) (N * A) k'
  /-- a member costs no more than the first byte of its name -/
  | object {τ : Type} {L : List (Slot τ)} {F : τ → Nat} {k : Nat} (strict : Bool) (dflt : τ)
      (f : ∀ m : MRef τ, m.α → Nat) (A : MRef τ → Nat) : (∀ x ∈ L, ∀ m ∈ x.refs, Sized c m.ser (f m) (A m) k) →
      (∀ x ∈ L, ∀ m ∈ x.refs, PartOf F (f m) m.get m.set) → (∀ x ∈ L, ∀ m ∈ x.refs, f m m.ser.dflt + A m ≤ k) →
      (∀ x ∈ L, x.isAlt → ∀ m ∈ x.refs, Emptied m (f m)) →
      Sized c (objectSer c strict dflt (L.map Slot.toMember)) F (F dflt) k
  | objectArray {τ : Type} {L : List (Slot τ)} {F : τ → Nat} {k : Nat} (dflt : τ)
      (f : ∀ m : MRef τ, m.α → Nat) (A : MRef τ → Nat) : (∀ x ∈ L, ∀ m ∈ x.refs, Sized c m.ser (f m) (A m) k) →
      (∀ x ∈ L, ∀ m ∈ x.refs, PartOf F (f m) m.get m.set) → (∀ x ∈ L, ∀ m ∈ x.refs, f m m.ser.dflt + A m ≤ k) →
      (∀ x ∈ L, x.isAlt → ∀ m ∈ x.refs, Emptied m (f m)) →
      Sized c (objectArraySer dflt (L.map Slot.toAMember)) F (F dflt) k
  /-- larger bounds -/
  | mono {α : Type} {S : Ser α} {f : α → Nat} {A A' k k' : Nat} : Sized c S f A k → A ≤ A' → k ≤ k' → Sized c S f A' k'

end Wjson.Spec
