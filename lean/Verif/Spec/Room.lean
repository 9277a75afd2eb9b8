import Verif.Spec.Described
import Verif.Spec.IntTypes
/-
How many bytes the text of a value takes at most (C67).
-/
namespace Wjson
open Spec

/-- Length of the longest decimal text of a value of the type, with the sign. -/
def IntTy.textMax (ty : IntTy) : Nat :=
  if ty.bits ≤ 8 then (if ty.signed then 4 else 3)
  else if ty.bits ≤ 16 then (if ty.signed then 6 else 5)
  else if ty.bits ≤ 32 then (if ty.signed then 11 else 10)
  else 20

/-- Parts of the given lengths, commas between them, and a bracket on both sides. -/
def enclosed (ns : List Nat) : Nat := 2 + ns.sum + (ns.length - 1)

mutual

/-- `Room c ins S v n`: `n` bytes are room enough for the text of `v`; with `ins` as far as
it is written through an inserter. -/
inductive Room (c : Cfg) (ins : Bool) : ∀ {α : Type}, Ser α → α → Nat → Prop
  | int {ty : IntTy} {v : Int} : ty.Std → ty.InRange v → Room c ins (intSer c ty) v ty.textMax
  | bool (v : Bool) : Room c ins boolSer v 5
  /-- six bytes for a control character, two quotes -/
  | str (v : Bytes) : Room c ins strSer v (6 * v.length + 2)
  | chars {N : Nat} (v : Bytes) : v.length ≤ N → Room c ins (charArraySer N) v (6 * N + 2)
  /-- the buffer of the library -/
  | float {α : Type} (F : FloatTy α) (R : Int) (v : α) : Room c ins (floatSer F R) v (if R = -1 then 20 else 20 + R).toNat
  /-- the longest name -/
  | enum {α : Type} [DecidableEq α] {strict : Bool} {dflt : α} {L : List (Bytes × α)} {n : Nat} (v : α) :
      (∀ x ∈ L, x.1.length ≤ n) → Room c ins (enumSer c strict dflt L) v (n + 2)
  /-- all names -/
  | flags {w : Nat} {F : Flags w} (v : BitVec w) : F.sep = c%',' →
      Room c ins (flagsSer c F) v (enclosed (F.list.map fun x => x.1.length + 2))
  | flagsSep {w : Nat} {F : Flags w} (v : BitVec w) : F.sep ≠ c%',' →
      Room c ins (flagsSer c F) v (enclosed (F.list.map fun x => x.1.length))
  /-- the empty text is written as `""` -/
  | raw (v : Bytes) : Room c ins (rawSer c) v (max v.length 2)
  | quoted {α : Type} {S : Ser α} {v : α} {n : Nat} {reqQ : Bool} : Room c ins S v n → Room c ins (quotedSer S true reqQ) v (6 * n + 2)
  | unquoted {α : Type} {S : Ser α} {v : α} {n : Nat} {reqQ : Bool} : Room c ins S v n → Room c ins (quotedSer S false reqQ) v n
  | pointer {α : Type} {S : Ser α} {v : α} {n : Nat} : Room c ins S v n → Room c ins (pointerSer S) (some v) n
  | memberValue {τ α : Type} {dflt : τ} {get : τ → α} {set : α → τ → τ} {S : Ser α} {t : τ} {n : Nat} : Room c ins S (get t) n →
      Room c ins (memberValueSer dflt get set S) t n
  | array {α C : Type} {K : Coll α C} {S : Ser α} {v : C} {f : α → Nat} : (∀ x ∈ K.elems v, Room c ins S x (f x)) →
      Room c ins (arraySer K S) v (enclosed ((K.elems v).map f))
  | fixed {α : Type} {N : Nat} {k : FixKind} {S : Ser α} {vs : List α} {f : α → Nat} : (∀ x ∈ vs, Room c ins S x (f x)) →
      Room c ins (fixSer k N S) vs (enclosed (vs.map f))
  | fixedVec {α : Type} {N : Nat} {k : FixKind} {S : Ser α} {vs : Vector α N} {f : α → Nat} : (∀ x ∈ vs.toList, Room c ins S x (f x)) →
      Room c ins (fixVecSer k N S) vs (enclosed (vs.toList.map f))
  | field {κ ν : Type} {SK : Ser κ} {SV : Ser ν} {x : κ × ν} {m n : Nat} : Room c ins SK x.1 m → Room c ins SV x.2 n →
      Room c ins (fieldSer SK SV) x (m + 1 + n)
  | dict {κ ν C : Type} {K : Coll (κ × ν) C} {SK : Ser κ} {SV : Ser ν} {v : C} {f : κ → Nat} {g : ν → Nat} :
      (∀ x ∈ K.elems v, Room c ins SK x.1 (f x.1)) → (∀ x ∈ K.elems v, Room c ins SV x.2 (g x.2)) →
      Room c ins (dictSer K SK SV) v (enclosed ((K.elems v).map fun x => f x.1 + 1 + g x.2))
  /-- a list of members with their lengths -/
  | object {τ : Type} {strict : Bool} {dflt : τ} {L : List (Member τ × Nat)} {t : τ} : (∀ m ∈ L, RoomM c ins m.1 t m.2) →
      Room c ins (objectSer c strict dflt (L.map Prod.fst)) t (enclosed (L.map Prod.snd))
  | objectArray {τ : Type} {dflt : τ} {L : List (AMember τ × Nat)} {t : τ} : (∀ m ∈ L, RoomA c ins m.1 t m.2) →
      Room c ins (objectArraySer dflt (L.map Prod.fst)) t (enclosed (L.map Prod.snd))
  /-- the empty pointer, through a raw pointer see `C67_null_deviates` -/
  | null {α : Type} {S : Ser α} : ins = true → Room c ins (pointerSer S) none 4
  /-- time intervals and sizes, for the types and values of C36 and C38; through a raw pointer see C46 -/
  | time {ty : IntTy} {fr v : Int} : ins = true → ty.Std → fr = 1 ∨ (fr = 1000 ∧ ty = .long) ∨ (fr = 1000000 ∧ 32 ≤ ty.bits) → ty.InRange v →
      0 ≤ v ∨ v % fr = 0 → Room c ins (timeSer c ty fr) v 32
  | size {ty : IntTy} {metric v : Int} : ins = true → ty.Std → 1 ≤ metric → IntTy.long.InRange metric → ty.InRange v →
      IntTy.long.InRange (v * metric) → Room c ins (sizeSer c ty metric) v 22
  | more {α : Type} {S : Ser α} {v : α} {m n : Nat} : Room c ins S v m → m ≤ n → Room c ins S v n

/-- The name, two quotes, a colon and the value. -/
inductive RoomM (c : Cfg) (ins : Bool) : ∀ {τ : Type}, Member τ → τ → Nat → Prop
  | member {τ : Type} {m : MRef τ} {t : τ} {n : Nat} : Room c ins m.ser (m.get t) n → RoomM c ins (member m) t (m.name.length + 3 + n)
  | memberP {τ : Type} {m : MRef τ} {t : τ} {n : Nat} : Room c ins m.ser (m.get t) n → RoomM c ins (memberP m) t (m.name.length + 3 + n)
  /-- one of the two -/
  | memberIf {τ : Type} {l r : MRef τ} {isDflt : l.α → Bool} {RU : Bool} {t : τ} {m n : Nat} : Room c ins l.ser (l.get t) m →
      Room c ins r.ser (r.get t) n → RoomM c ins (memberIf l r isDflt RU) t (max (l.name.length + 3 + m) (r.name.length + 3 + n))

inductive RoomA (c : Cfg) (ins : Bool) : ∀ {τ : Type}, AMember τ → τ → Nat → Prop
  | member {τ : Type} {m : MRef τ} {t : τ} {n : Nat} : Room c ins m.ser (m.get t) n → RoomA c ins (amember m) t n
  | memberP {τ : Type} {m : MRef τ} {t : τ} {n : Nat} : Room c ins m.ser (m.get t) n → RoomA c ins (amemberP m) t n
  | memberIf {τ : Type} {l r : MRef τ} {isDflt : l.α → Bool} {RU : Bool} {t : τ} {m n : Nat} : Room c ins l.ser (l.get t) m →
      Room c ins r.ser (r.get t) n → RoomA c ins (amemberIf l r isDflt RU) t (max m n)

end

end Wjson
