import Verif.Spec.Nested
import Verif.Spec.Denotes
/-
Two versions of a description: what a value written with one of them becomes
when it is read with the other one.

`Carried c SW SR v v0 v'`: the value `v`, written with the description `SW`, and
read with the description `SR` into a variable that holds `v0`, becomes `v'`.
Each rule is one kind of change that a new version of a program makes to its
descriptions; the rules for containers, pointers, objects and positional
objects let the change occur anywhere inside.
-/
namespace Wjson
open Spec

namespace Slot
variable {τ : Type}

/-- The member that gets the value of the text; for `member_if` the right one if `b`. -/
def part (b : Bool) : Slot τ → MRef τ
  | .one en => en.ref
  | .alt l r _ _ => if b then r else l

/-- The alternative that does not get it. -/
def other (b : Bool) : Slot τ → Option (MRef τ)
  | .one _ => none
  | .alt l r _ _ => some (if b then l else r)

/-- That one is tried first. -/
def otherFirst (b : Bool) : Slot τ → Prop
  | .one _ => False
  | .alt _ _ _ RU => RU ≠ b

/-- What the value is read into. -/
def start (b : Bool) (t : τ) : (x : Slot τ) → (x.part b).α
  | .one en => en.start t
  | .alt l r d RU => ((Slot.alt l r d RU).part b).get t

end Slot

inductive Carried (c : Cfg) : ∀ {α β : Type}, Ser α → Ser β → α → β → β → Prop
  /-- nothing changes -/
  | same {α : Type} {S : Ser α} {v v0 : α} : GoodValue c S v → Carried c S S v v0 v
  /-- another integer type, if the number fits both -/
  | int {ty ty' : IntTy} {v v0 : Int} : ty.Std → ty'.Std → ty.InRange v → ty'.InRange v → v ≠ ty'.min ∨ ty'.Modular c →
      Carried c (intSer c ty) (intSer c ty') v v0 v
  /-- a count of ticks becomes a time interval -/
  | interval {ty ty' : IntTy} {fr v v0 : Int} : ty.Std → ty'.Std → ty.InRange v → ty'.InRange v → 0 ≤ v →
      Carried c (intSer c ty) (timeSer c ty' fr) v v0 v
  /-- an enumeration with other enumerators or other numbers behind them:
  whatever names `v` has in the list of the writer, `w` has in that of the reader -/
  | enum {α β : Type} [DecidableEq α] [DecidableEq β] {st st' : Bool} {d : α} {d' : β} {L : List (Bytes × α)} {L' : List (Bytes × β)}
      {v : α} {w v0 : β} : v ∈ L.map Prod.snd → (∀ n, (n, v) ∈ L → (n, w) ∈ L') → (L'.map Prod.fst).Nodup →
      (∀ x ∈ L', c%'"' ∉ x.1) → Carried c (enumSer c st d L) (enumSer c st' d' L') v v0 w
  /-- an enumerator that the reader, if it is not strict, does not know -/
  | enumNew {α β : Type} [DecidableEq α] [DecidableEq β] {st : Bool} {d : α} {d' : β} {L : List (Bytes × α)} {L' : List (Bytes × β)}
      {v : α} {v0 : β} : v ∈ L.map Prod.snd → (∀ n, (n, v) ∈ L → c%'"' ∉ n ∧ n ∉ L'.map Prod.fst) →
      Carried c (enumSer c st d L) (enumSer c false d' L') v v0 d'
  /-- the reader keeps the text of the value -/
  | toRaw {α : Type} {S : Ser α} {v : α} {t v0 : Bytes} : JsonValue c S v → S.emit v ⟨[], .back⟩ = .ok ⟨t, .back⟩ →
      Carried c S (rawSer c) v v0 t
  /-- the writer has kept the text of a value -/
  | fromRaw {β : Type} {S : Ser β} {w v0 : β} {t : Bytes} : GoodValue c S w → S.emit w ⟨[], .back⟩ = .ok ⟨t, .back⟩ →
      Carried c (rawSer c) S t v0 w
  /-- the value becomes optional -/
  | optional {α β : Type} {S : Ser α} {S' : Ser β} {v : α} {w : β} {v0 : Option β} : Carried c S S' v S'.dflt w →
      (∀ t, S.emit v ⟨[], .back⟩ = .ok ⟨t, .back⟩ → t.head? ≠ some c%'n') → Carried c S (pointerSer S') v v0 (some w)
  /-- the value is no longer optional -/
  | required {α β : Type} {S : Ser α} {S' : Ser β} {v : α} {v0 w : β} : Carried c S S' v v0 w →
      Carried c (pointerSer S) S' (some v) v0 w
  | null {α β : Type} {S : Ser α} {S' : Ser β} {v0 : Option β} : Carried c (pointerSer S) (pointerSer S') none v0 none
  /-- an absent number, Boolean, string, container or object is the empty one -/
  | nullInt {α : Type} {S : Ser α} {ty : IntTy} {v0 : Int} : Carried c (pointerSer S) (intSer c ty) none v0 0
  | nullBool {α : Type} {S : Ser α} {v0 : Bool} : Carried c (pointerSer S) boolSer none v0 false
  | nullStr {α : Type} {S : Ser α} {v0 : Bytes} : Carried c (pointerSer S) strSer none v0 []
  | nullSeq {α β C : Type} {S : Ser α} {K : Coll β C} {S' : Ser β} {l r : Byte} {v0 : C} :
      Carried c (pointerSer S) (seqSer K S' l r) none v0 K.clear
  | nullObject {α τ : Type} {S : Ser α} {strict : Bool} {d v0 : τ} {L : List (Member τ)} :
      Carried c (pointerSer S) (objectSer c strict d L) none v0 d
  /-- a structure that is described by one of its members -/
  | wrap {α β τ : Type} {S : Ser α} {S' : Ser β} {v : α} {d v0 v' : τ} {get : τ → β} {set : β → τ → τ} {w : β} :
      Carried c S S' v (get v0) w → v' = set w v0 → Carried c S (memberValueSer d get set S') v v0 v'
  | unwrap {α β τ : Type} {S : Ser α} {S' : Ser β} {d t : τ} {get : τ → α} {set : α → τ → τ} {v0 w : β} :
      Carried c S S' (get t) v0 w → Carried c (memberValueSer d get set S) S' t v0 w
  /-- another container, or other elements: each element is read into a fresh
  variable and inserted into the empty container -/
  | seq {α β C D : Type} {K : Coll α C} {K' : Coll β D} {S : Ser α} {S' : Ser β} {v : C} {v0 : D} (f : α → β) :
      (∀ x ∈ K.elems v, Carried c S S' x S'.dflt (f x)) →
      Carried c (arraySer K S) (arraySer K' S') v v0 (((K.elems v).map f).foldl K'.insert K'.clear)
  /-- a fixed-size array becomes a container -/
  | fixed {α β D : Type} {N : Nat} {k : FixKind} {K' : Coll β D} {S : Ser α} {S' : Ser β} {v : Vector α N} {v0 : D} (f : α → β) :
      (∀ x ∈ v.toList, Carried c S S' x S'.dflt (f x)) →
      Carried c (fixVecSer k N S) (arraySer K' S') v v0 ((v.toList.map f).foldl K'.insert K'.clear)
  /-- a container becomes a fixed-size array that is large enough: the first
  elements of the array are read, the others keep what they held -/
  | toFixed {α β C : Type} {N : Nat} {k : FixKind} {K : Coll α C} {S : Ser α} {S' : Ser β} {v : C} {v0 v' : Vector β N} :
      1 ≤ N → (hl : (K.elems v).length ≤ N) →
      (∀ i, (h : i < (K.elems v).length) → Carried c S S' (K.elems v)[i] (k.start S' (v0[i]'(Nat.lt_of_lt_of_le h hl))) (v'[i]'(Nat.lt_of_lt_of_le h hl))) →
      (∀ i, (K.elems v).length ≤ i → (h : i < N) → v'[i] = v0[i]) →
      Carried c (arraySer K S) (fixVecSer k N S') v v0 v'
  /-- a fixed-size array gets more elements -/
  | longer {α β : Type} {M N : Nat} {k k' : FixKind} {S : Ser α} {S' : Ser β} {v : Vector α M} {v0 v' : Vector β N} :
      1 ≤ N → (hl : M ≤ N) →
      (∀ i, (h : i < M) → Carried c S S' v[i] (k.start S' (v0[i]'(Nat.lt_of_lt_of_le h hl))) (v'[i]'(Nat.lt_of_lt_of_le h hl))) →
      (∀ i, M ≤ i → (h : i < N) → v'[i] = v0[i]) →
      Carried c (fixVecSer k' M S) (fixVecSer k N S') v v0 v'
  | dict {κ ν κ' ν' C D : Type} {K : Coll (κ × ν) C} {K' : Coll (κ' × ν') D} {SK : Ser κ} {SV : Ser ν} {SK' : Ser κ'} {SV' : Ser ν'}
      {v : C} {v0 : D} (f : κ → κ') (g : ν → ν') :
      (∀ x ∈ K.elems v, Carried c SK SK' x.1 SK'.dflt (f x.1)) → (∀ x ∈ K.elems v, Carried c SV SV' x.2 SV'.dflt (g x.2)) →
      Carried c (dictSer K SK SV) (dictSer K' SK' SV') v v0 (((K.elems v).map fun x => (f x.1, g x.2)).foldl K'.insert K'.clear)
  /-- Objects. Members that both lists name are carried; members that only the
  reader names keep what the variable held; members that only the writer names
  are JSON and the reader is not strict. The order of the members does not matter. -/
  | object {σ τ : Type} {sw sr : Bool} {d : σ} {d' : τ} {LW : List (Entry σ)} {LR : List (Entry τ)} {v : σ} {v0 v' : τ} :
      (names LW).Nodup → GoodNames LR → Fields (LR.map Entry.ref) →
      (∀ a b, (∀ r ∈ LR, r.ref.get a = r.ref.get b) → a = b) →
      (∀ w ∈ LW, ∀ r ∈ LR, w.ref.name = r.ref.name →
        Carried c w.ref.ser r.ref.ser (w.ref.get v) (r.start v0) (r.ref.get v')) →
      (∀ r ∈ LR, r.ref.name ∉ names LW → r.ref.get v' = r.ref.get v0) →
      (∀ w ∈ LW, w.ref.name ∉ names LR → sr = false ∧ RChars w.ref.name ∧ JsonValue c w.ref.ser (w.ref.get v)) →
      Carried c (objectSer c sw d (LW.map Entry.toMember)) (objectSer c sr d' (LR.map Entry.toMember)) v v0 v'
  /-- Positional objects: members are added at the end. -/
  | objectArray {σ τ : Type} {d : σ} {d' : τ} {LW : List (Entry σ)} {LR : List (Entry τ)} {v : σ} {v0 v' : τ} :
      Fields (LR.map Entry.ref) → (∀ a b, (∀ r ∈ LR, r.ref.get a = r.ref.get b) → a = b) →
      (hl : LW.length ≤ LR.length) →
      (∀ i, (h : i < LW.length) → Carried c LW[i].ref.ser (LR[i]'(Nat.lt_of_lt_of_le h hl)).ref.ser (LW[i].ref.get v)
        ((LR[i]'(Nat.lt_of_lt_of_le h hl)).start v0) ((LR[i]'(Nat.lt_of_lt_of_le h hl)).ref.get v')) →
      (∀ r ∈ LR.drop LW.length, r.ref.get v' = r.ref.get v0) →
      Carried c (objectArraySer d (LW.map Entry.toAMember)) (objectArraySer d' (LR.map Entry.toAMember)) v v0 v'
  /-- Objects with alternatives (`member_if`) on either side: members are added at
  the end. Of every place of the reader the pair tells which alternative gets the
  value; the other one becomes what it reads from `null`, and if it is the one
  tried first then it must reject the text. -/
  | objectIf {σ τ : Type} {sw sr : Bool} {d : σ} {d' : τ} {LW : List (Slot σ)} {LR : List (Slot τ × Bool)} {v : σ} {v0 v' : τ} :
      Fields (LR.flatMap fun x => x.1.refs) → (∀ a b, (∀ m ∈ LR.flatMap fun x => x.1.refs, m.get a = m.get b) → a = b) →
      (hl : LW.length ≤ LR.length) →
      (∀ x ∈ LW, c%'"' ∉ (x.live v).name) →
      (∀ i, (h : i < LW.length) → ∀ m ∈ (LR[i]'(Nat.lt_of_lt_of_le h hl)).1.refs, m.name = (LW[i].live v).name) →
      (∀ i, (h : i < LW.length) → Carried c (LW[i].live v).ser
        ((LR[i]'(Nat.lt_of_lt_of_le h hl)).1.part (LR[i]'(Nat.lt_of_lt_of_le h hl)).2).ser ((LW[i].live v).get v)
        ((LR[i]'(Nat.lt_of_lt_of_le h hl)).1.start (LR[i]'(Nat.lt_of_lt_of_le h hl)).2 v0)
        (((LR[i]'(Nat.lt_of_lt_of_le h hl)).1.part (LR[i]'(Nat.lt_of_lt_of_le h hl)).2).get v')) →
      (∀ i, (h : i < LW.length) → ∀ o, (LR[i]'(Nat.lt_of_lt_of_le h hl)).1.other (LR[i]'(Nat.lt_of_lt_of_le h hl)).2 = some o →
        Reads o.ser.de b!"null" (o.get v') ∧ ((LR[i]'(Nat.lt_of_lt_of_le h hl)).1.otherFirst (LR[i]'(Nat.lt_of_lt_of_le h hl)).2 →
          ∀ t, (LW[i].live v).ser.emit ((LW[i].live v).get v) ⟨[], .back⟩ = .ok ⟨t, .back⟩ → Rejects o.ser.de t)) →
      (∀ x ∈ LR.drop LW.length, ∀ m ∈ x.1.refs, m.get v' = m.get v0) →
      Carried c (objectSer c sw d (LW.map Slot.toMember)) (objectSer c sr d' (LR.map fun x => x.1.toMember)) v v0 v'
  /-- The same for positional objects; there the names do not matter. -/
  | objectArrayIf {σ τ : Type} {d : σ} {d' : τ} {LW : List (Slot σ)} {LR : List (Slot τ × Bool)} {v : σ} {v0 v' : τ} :
      Fields (LR.flatMap fun x => x.1.refs) → (∀ a b, (∀ m ∈ LR.flatMap fun x => x.1.refs, m.get a = m.get b) → a = b) →
      (hl : LW.length ≤ LR.length) →
      (∀ i, (h : i < LW.length) → Carried c (LW[i].live v).ser
        ((LR[i]'(Nat.lt_of_lt_of_le h hl)).1.part (LR[i]'(Nat.lt_of_lt_of_le h hl)).2).ser ((LW[i].live v).get v)
        ((LR[i]'(Nat.lt_of_lt_of_le h hl)).1.start (LR[i]'(Nat.lt_of_lt_of_le h hl)).2 v0)
        (((LR[i]'(Nat.lt_of_lt_of_le h hl)).1.part (LR[i]'(Nat.lt_of_lt_of_le h hl)).2).get v')) →
      (∀ i, (h : i < LW.length) → ∀ o, (LR[i]'(Nat.lt_of_lt_of_le h hl)).1.other (LR[i]'(Nat.lt_of_lt_of_le h hl)).2 = some o →
        Reads o.ser.de b!"null" (o.get v') ∧ ((LR[i]'(Nat.lt_of_lt_of_le h hl)).1.otherFirst (LR[i]'(Nat.lt_of_lt_of_le h hl)).2 →
          ∀ t, (LW[i].live v).ser.emit ((LW[i].live v).get v) ⟨[], .back⟩ = .ok ⟨t, .back⟩ → Rejects o.ser.de t)) →
      (∀ x ∈ LR.drop LW.length, ∀ m ∈ x.1.refs, m.get v' = m.get v0) →
      Carried c (objectArraySer d (LW.map Slot.toAMember)) (objectArraySer d' (LR.map fun x => x.1.toAMember)) v v0 v'

end Wjson
