import Verif.Model.Heap
import Verif.Model.Recursive
import Verif.Spec.Slots
import Verif.Spec.Serial
/-
Values with pointers in a heap, and the trees they stand for. The names of the
model stand for the templates of wjson.
-/
namespace Wjson.Spec

/-- A type of targets with pointers (`α`) and the type of the trees they stand for (`β`), in which a pointer holds the object.

`den H A x w`: in the heap `H` the target `x` stands for the tree `w`, and following its pointers leads to addresses in `A`
only. `refs x`: the pointers that `x` itself holds, as often as it holds them. -/
structure HTy (C α β : Type) where
  den : List C → (Nat → Prop) → α → β → Prop
  refs : α → List Nat

/-- What makes sense of `den`: it says more of fewer addresses, and depends on the cells it names only. -/
structure HTy.Lawful {C α β : Type} (T : HTy C α β) : Prop where
  wider : ∀ {H A A' x w}, (∀ a, A a → A' a) → T.den H A x w → T.den H A' x w
  cells : ∀ {H H' A x w}, (∀ a cell, A a → H[a]? = some cell → H'[a]? = some cell) → T.den H A x w → T.den H' A x w

/-- Targets without pointers. -/
def leafTy (C α : Type) : HTy C α α := ⟨fun _ _ x w => x = w, fun _ => []⟩

/-- Pointers: null, or the address of an object of the type. -/
def ptrTy {C α β : Type} (unbox : C → Option α) (T : HTy C α β) : HTy C (Option Nat) (Option β) where
  den H A x w :=
    match x, w with
    | none, none => True
    | some a, some y => A a ∧ ∃ v, H[a]?.bind unbox = some v ∧ T.den H A v y
    | _, _ => False
  refs x := x.toList

/-- Containers. -/
def collTy {C α β D F : Type} (K : Coll α D) (K' : Coll β F) (T : HTy C α β) : HTy C D F where
  den H A x w := All2 (T.den H A) (K.elems x) (K'.elems w)
  refs x := (K.elems x).flatMap T.refs

/-- Entries of dictionaries. -/
def pairTy {C α β γ δ : Type} (T : HTy C α β) (U : HTy C γ δ) : HTy C (α × γ) (β × δ) where
  den H A x w := T.den H A x.1 w.1 ∧ U.den H A x.2 w.2
  refs x := T.refs x.1 ++ U.refs x.2

/-- What is done to two containers of elements that correspond: `clear` empties them, an insertion of elements that correspond
keeps the elements in correspondence, and nothing is in a container that was not inserted. -/
structure CollTwins {α β D F : Type} (K : Coll α D) (K' : Coll β F) (P : α → β → Prop) : Prop where
  clear : K.elems K.clear = [] ∧ K'.elems K'.clear = []
  insert : ∀ t w x y, All2 P (K.elems t) (K'.elems w) → P x y → All2 P (K.elems (K.insert t x)) (K'.elems (K'.insert w y))
  only : ∀ (f : α → Nat) t x, ((K.elems (K.insert t x)).map f).sum ≤ ((K.elems t).map f).sum + f x

/-- A member: a part of a structure with pointers, and the corresponding part of the trees. -/
structure Twin (C τ υ : Type) where
  {α : Type}
  {β : Type}
  name : Bytes
  get : τ → α
  set : α → τ → τ
  get' : υ → β
  set' : β → υ → υ
  hser : Ser (OnHeap C α)
  ser : Ser β
  ty : HTy C α β

/-- The member of the structure with pointers, and that of the trees. -/
def Twin.heap {C τ υ : Type} (m : Twin C τ υ) : MRef (OnHeap C τ) := heapRef m.name m.get m.set m.hser
def Twin.tree {C τ υ : Type} (m : Twin C τ υ) : MRef υ := ⟨m.name, m.get', m.set', m.ser⟩

/-- The places of a member list: `member`, `member_p`, `member_if`. -/
inductive Place (C τ υ : Type) where
  | mem (m : Twin C τ υ)
  | prop (m : Twin C τ υ)
  | alt (l r : Twin C τ υ) (isDflt : l.α → Bool) (isDflt' : l.β → Bool) (RU : Bool)

namespace Place
variable {C τ υ : Type}

def twins : Place C τ υ → List (Twin C τ υ)
  | .mem m => [m]
  | .prop m => [m]
  | .alt l r _ _ _ => [l, r]

/-- In an `object`. -/
def toHeap : Place C τ υ → Member (OnHeap C τ)
  | .mem m => member m.heap
  | .prop m => ⟨emitMember m.heap, deHMemberP m.name m.set m.hser⟩
  | .alt l r d _ RU => memberIf l.heap r.heap (fun x => d x.1) RU

/-- In an `object_array`. -/
def toAHeap : Place C τ υ → AMember (OnHeap C τ)
  | .mem m => amember m.heap
  | .prop m => ⟨fun x k => m.hser.emit (m.get x.1, x.2) k, deHAMemberP m.set m.hser⟩
  | .alt l r d _ RU => amemberIf l.heap r.heap (fun x => d x.1) RU

def toTree : Place C τ υ → Slot υ
  | .mem m => .one (.mem m.tree)
  | .prop m => .one (.prop m.tree)
  | .alt l r _ d' RU => .alt l.tree r.tree d' RU

/-- The two comparisons with the default value agree. -/
def Agree : Place C τ υ → Prop
  | .mem _ => True
  | .prop _ => True
  | .alt l _ d d' _ => ∀ H A x w, l.ty.den H A x w → d x = d' w

end Place

/-- The structures correspond if the parts do, and what is not described (`rest`); they hold the pointers their parts hold.
The parts are separate. -/
structure PartsOf {C τ υ : Type} (T : HTy C τ υ) (L : List (Twin C τ υ)) : Prop where
  den : ∃ rest : τ → υ → Prop,
    (∀ H A t w, T.den H A t w ↔ rest t w ∧ ∀ m ∈ L, m.ty.den H A (m.get t) (m.get' w)) ∧
    ∀ m ∈ L, ∀ x y t w, rest t w → rest (m.set x t) (m.set' y w)
  refs : ∀ t, T.refs t = L.flatMap fun m => m.ty.refs (m.get t)
  get_set : ∀ m ∈ L, (∀ x t, m.get (m.set x t) = x) ∧ ∀ y w, m.get' (m.set' y w) = y
  apart : L.Pairwise fun a b => (∀ x t, a.get (b.set x t) = a.get t) ∧ (∀ x t, b.get (a.set x t) = b.get t) ∧
    (∀ y w, a.get' (b.set' y w) = a.get' w) ∧ ∀ y w, b.get' (a.set' y w) = b.get' w

/-- A default target: it stands for the default tree and holds no pointers. -/
def BlankTarget {C α β : Type} (T : HTy C α β) (d : α) (d' : β) : Prop := (∀ H, T.den H (fun _ => False) d d') ∧ T.refs d = []

/-- The same description twice: with pointers as addresses, and with pointers that hold their objects. `own` are the pointers that
the object in a cell holds. -/
inductive Heaped {C : Type} (own : C → List Nat) (c : Cfg) : ∀ {α β : Type}, Ser (OnHeap C α) → Ser β → HTy C α β → Prop
  /-- any description without pointers -/
  | leaf {α : Type} {S : Ser α} : Heaped own c (heapLeaf S) S (leafTy C α)
  | pointer {α β : Type} {box : α → C} {unbox : C → Option α} {HS : Ser (OnHeap C α)} {S : Ser β} {T : HTy C α β} : Heaped own c HS S T →
      (∀ x, unbox (box x) = some x) → (∀ x, own (box x) = T.refs x) → Heaped own c (heapPointer box unbox HS) (pointerSer S) (ptrTy unbox T)
  | quoted {α β : Type} {HS : Ser (OnHeap C α)} {S : Ser β} {T : HTy C α β} {serQ reqQ : Bool} : Heaped own c HS S T →
      Heaped own c (quotedSer HS serQ reqQ) (quotedSer S serQ reqQ) T
  | seq {α β D F : Type} {K : Coll α D} {K' : Coll β F} {HS : Ser (OnHeap C α)} {S : Ser β} {T : HTy C α β} {L R : Byte} :
      Heaped own c HS S T → (∀ H A, CollTwins K K' (T.den H A)) → Heaped own c (heapSeq K HS L R) (seqSer K' S L R) (collTy K K' T)
  | field {κ ν κ' ν' : Type} {HK : Ser (OnHeap C κ)} {HV : Ser (OnHeap C ν)} {SK : Ser κ'} {SV : Ser ν'} {T : HTy C κ κ'} {U : HTy C ν ν'} :
      Heaped own c HK SK T → Heaped own c HV SV U → Heaped own c (heapField HK HV) (fieldSer SK SV) (pairTy T U)
  | fixed {α β : Type} {k : FixKind} {N : Nat} {HS : Ser (OnHeap C α)} {S : Ser β} {T : HTy C α β} : Heaped own c HS S T →
      Heaped own c (heapFix k N HS) (fixSer k N S) (collTy (seqColl α) (seqColl β) T)
  | memberValue {τ υ : Type} {d : τ} {d' : υ} {m : Twin C τ υ} {T : HTy C τ υ} : Heaped own c m.hser m.ser m.ty → PartsOf T [m] →
      BlankTarget T d d' → Heaped own c (heapMemberValue d m.get m.set m.hser) (memberValueSer d' m.get' m.set' m.ser) T
  | object {τ υ : Type} {strict : Bool} {d : τ} {d' : υ} {L : List (Place C τ υ)} {T : HTy C τ υ} :
      (∀ m ∈ L.flatMap Place.twins, Heaped own c m.hser m.ser m.ty) → (∀ x ∈ L, x.Agree) → PartsOf T (L.flatMap Place.twins) → BlankTarget T d d' →
      Heaped own c (heapObject c strict d (L.map Place.toHeap)) (objectSer c strict d' (L.map fun x => x.toTree.toMember)) T
  | objectArray {τ υ : Type} {d : τ} {d' : υ} {L : List (Place C τ υ)} {T : HTy C τ υ} :
      (∀ m ∈ L.flatMap Place.twins, Heaped own c m.hser m.ser m.ty) → (∀ x ∈ L, x.Agree) → PartsOf T (L.flatMap Place.twins) → BlankTarget T d d' →
      Heaped own c (heapObjectArray d (L.map Place.toAHeap)) (objectArraySer d' (L.map fun x => x.toTree.toAMember)) T
  /-- below the last level of a description that mentions itself -/
  | unfinished {α β : Type} {d : α} {d' : β} {T : HTy C α β} : T.Lawful → BlankTarget T d d' → Heaped own c (unfinished (d, [])) (unfinished d') T

end Wjson.Spec
