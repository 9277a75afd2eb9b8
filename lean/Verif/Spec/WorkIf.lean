import Verif.Spec.TypedWork
import Verif.Model.WorkIf
/-
Specification for C86: which counted reader belongs to which description, with alternatives and with recursion.
-/
namespace Wjson.Spec

/-- `CountedIf c m S W`: `S` is a description and `W` its read operator with the count of its work. Every description; `m` bounds
how many `member_if` are inside each other. -/
inductive CountedIf (c : Cfg) : (m : Nat) → {α : Type} → Ser α → DeW α → Prop
  /-- a description without `member_if` -/
  | plain {α : Type} {S : Ser α} {W : DeW α} (m : Nat) : Counted c S W → CountedIf c m S W
  | quoted {m : Nat} {α : Type} {S : Ser α} {W : DeW α} (serQ reqQ : Bool) : CountedIf c m S W →
      CountedIf c m (quotedSer S serQ reqQ) (deQuotedW W reqQ)
  | pointer {m : Nat} {α : Type} {S : Ser α} {W : DeW α} : CountedIf c m S W → CountedIf c m (pointerSer S) (dePointerW S W)
  | memberValue {m : Nat} {τ α : Type} {S : Ser α} {W : DeW α} (dflt : τ) (get : τ → α) (set : α → τ → τ) : CountedIf c m S W →
      CountedIf c m (memberValueSer dflt get set S) (deMemberValueW get set W)
  | array {m : Nat} {α C : Type} {S : Ser α} {W : DeW α} (K : Coll α C) : CountedIf c m S W →
      CountedIf c m (arraySer K S) (deSeqW K S W c%'[' c%']')
  | dict {m : Nat} {κ ν C : Type} {SK : Ser κ} {SV : Ser ν} {WK : DeW κ} {WV : DeW ν} (K : Coll (κ × ν) C) :
      CountedIf c m SK WK → CountedIf c m SV WV →
      CountedIf c m (dictSer K SK SV) (deSeqW K (fieldSer SK SV) (deFieldW WK WV) c%'{' c%'}')
  | fixed {m : Nat} {α : Type} {S : Ser α} {W : DeW α} (k : FixKind) (N : Nat) : CountedIf c m S W →
      CountedIf c m (fixVecSer k N S) (deFixVecW k S W)
  /-- the alternatives of the list contain at most `n` others inside each other, and `n < m` -/
  | object {m n : Nat} {τ : Type} {L : List (WSlot τ)} (strict : Bool) (dflt : τ) :
      (∀ x ∈ L, ∀ y ∈ x.ones, CountedIf c m y.entry.ref.ser y.work) →
      (∀ x ∈ L, ∀ y ∈ x.alts, n < m) → (∀ x ∈ L, ∀ y ∈ x.alts, CountedIf c n y.entry.ref.ser y.work) →
      CountedIf c m (objectSer c strict dflt (L.map fun x => x.slot.toMember)) (deObjectW c strict dflt (L.map WSlot.de))
  | objectArray {m n : Nat} {τ : Type} {L : List (WSlot τ)} (dflt : τ) :
      (∀ x ∈ L, ∀ y ∈ x.ones, CountedIf c m y.entry.ref.ser y.work) →
      (∀ x ∈ L, ∀ y ∈ x.alts, n < m) → (∀ x ∈ L, ∀ y ∈ x.alts, CountedIf c n y.entry.ref.ser y.work) →
      CountedIf c m (objectArraySer dflt (L.map fun x => x.slot.toAMember)) (deObjectArrayW dflt (L.map WSlot.deA))

/-- A `member` or `member_p` (`isProp`) whose description has a place for a description of type `α`, with its counted reader. -/
structure RecEntry (α τ : Type) where
  isProp : Bool
  {β : Type}
  name : Bytes
  get : τ → β
  set : β → τ → τ
  F : Ser α → Ser β
  FW : Ser α → DeW α → DeW β

/-- The member with `S` in the place. -/
def RecEntry.ref {α τ : Type} (x : RecEntry α τ) (S : Ser α) : MRef τ := ⟨x.name, x.get, x.set, x.F S⟩

/-- The entry of a member list with `S` in the place, and its counted reader. -/
def RecEntry.wentry {α τ : Type} (x : RecEntry α τ) (S : Ser α) (W : DeW α) : WEntry τ :=
  if x.isProp then ⟨.prop (x.ref S), x.FW S W⟩ else ⟨.mem (x.ref S), x.FW S W⟩

/-- The entry of a member list with `S` in the place. -/
def RecEntry.entry {α τ : Type} (x : RecEntry α τ) (S : Ser α) : Entry τ :=
  if x.isProp then .prop (x.ref S) else .mem (x.ref S)

/-- `CountedRec c α inside F FW`: `F` is a description with a place for a description of type `α`, and `FW` its counted reader.
Without `member_if`, and without `quoted` around the place. `inside`: the place is only between brackets. -/
inductive CountedRec (c : Cfg) (α : Type) : Bool → {β : Type} → (Ser α → Ser β) → (Ser α → DeW α → DeW β) → Prop
  /-- the place -/
  | here : CountedRec c α false (fun S => S) (fun _ W => W)
  /-- a description without the place -/
  | other {β : Type} {S : Ser β} {W : DeW β} : Counted c S W → CountedRec c α true (fun _ => S) (fun _ _ => W)
  /-- `inside` may be forgotten -/
  | weaken {β : Type} {F : Ser α → Ser β} {FW : Ser α → DeW α → DeW β} : CountedRec c α true F FW → CountedRec c α false F FW
  | pointer {i : Bool} {β : Type} {F : Ser α → Ser β} {FW : Ser α → DeW α → DeW β} : CountedRec c α i F FW →
      CountedRec c α i (fun S => pointerSer (F S)) (fun S W => dePointerW (F S) (FW S W))
  | memberValue {i : Bool} {τ β : Type} {F : Ser α → Ser β} {FW : Ser α → DeW α → DeW β} (dflt : τ) (get : τ → β) (set : β → τ → τ) :
      CountedRec c α i F FW → CountedRec c α i (fun S => memberValueSer dflt get set (F S)) (fun S W => deMemberValueW get set (FW S W))
  | array {β C : Type} {F : Ser α → Ser β} {FW : Ser α → DeW α → DeW β} (K : Coll β C) : CountedRec c α false F FW →
      CountedRec c α true (fun S => arraySer K (F S)) (fun S W => deSeqW K (F S) (FW S W) c%'[' c%']')
  | dict {κ ν C : Type} {FK : Ser α → Ser κ} {FV : Ser α → Ser ν} {WK : Ser α → DeW α → DeW κ} {WV : Ser α → DeW α → DeW ν}
      (K : Coll (κ × ν) C) : CountedRec c α false FK WK → CountedRec c α false FV WV →
      CountedRec c α true (fun S => dictSer K (FK S) (FV S))
        (fun S W => deSeqW K (fieldSer (FK S) (FV S)) (deFieldW (WK S W) (WV S W)) c%'{' c%'}')
  /-- a fixed-size array of pointers -/
  | fixed {β : Type} {F : Ser α → Ser β} {FW : Ser α → DeW α → DeW β} (k : FixKind) (N : Nat) : CountedRec c α false F FW →
      CountedRec c α true (fun S => fixVecSer k N (pointerSer (F S))) (fun S W => deFixVecW k (pointerSer (F S)) (dePointerW (F S) (FW S W)))
  | object {τ : Type} {L : List (RecEntry α τ)} (strict : Bool) (dflt : τ) : (∀ x ∈ L, CountedRec c α false x.F x.FW) →
      CountedRec c α true (fun S => objectSer c strict dflt (L.map fun x => (x.entry S).toMember))
        (fun S W => deObjectW c strict dflt (L.map fun x => (x.wentry S W).de))
  | objectArray {τ : Type} {L : List (RecEntry α τ)} (dflt : τ) : (∀ x ∈ L, CountedRec c α false x.F x.FW) →
      CountedRec c α true (fun S => objectArraySer dflt (L.map fun x => (x.entry S).toAMember))
        (fun S W => deObjectArrayW dflt (L.map fun x => (x.wentry S W).deA))

end Wjson.Spec

namespace Wjson
open Spec

/-! A description that mentions itself in both alternatives of a `member_if`:

  struct node {
    std::shared_ptr<node> only;
    struct { std::shared_ptr<node> left; int tag; } pair;
  };

written as `[only]`, or as `[[left,tag]]` if there is no `only`. -/

inductive Twice where
  | node (only left : Option Twice) (tag : Int)

namespace Twice

def only : Twice → Option Twice | node o _ _ => o
def pair : Twice → Option Twice × Int | node _ l t => (l, t)

/-- `node()`. -/
def zero : Twice := node none none 0

end Twice

/-- The part `left` of the pair; `S` is in the place of the description of a node. -/
def twiceLeft (S : Ser Twice) : MRef (Option Twice × Int) := ⟨b!"left", (·.1), fun v t => (v, t.2), pointerSer S⟩

/-- The part `tag` of the pair. -/
def twiceTag : MRef (Option Twice × Int) := ⟨b!"tag", (·.2), fun v t => (t.1, v), intSer .strict .int⟩

def twiceOnly (S : Ser Twice) : MRef Twice := ⟨b!"only", Twice.only, fun v t => .node v t.pair.1 t.pair.2, pointerSer S⟩

def twicePair (S : Ser Twice) : MRef Twice :=
  ⟨b!"pair", Twice.pair, fun v t => .node t.only v.1 v.2, objectArraySer (none, 0) [amember (twiceLeft S), amember twiceTag]⟩

/-- The description. -/
def twiceF (S : Ser Twice) : Ser Twice :=
  objectArraySer .zero [amemberIf (twiceOnly S) (twicePair S) (fun v : Option Twice => v.isNone) false]

/-- The counted reader of the pair. -/
def twicePairW (S : Ser Twice) (W : DeW Twice) : DeW (Option Twice × Int) :=
  deObjectArrayW (none, 0) [deAMemberW (twiceLeft S) (twiceLeft S).get (dePointerW S W),
    deAMemberW twiceTag twiceTag.get (deIntW .strict .int)]

/-- The counted reader of a node. -/
def twiceW (S : Ser Twice) (W : DeW Twice) : DeW Twice :=
  deObjectArrayW .zero [deAMemberIfW (twiceOnly S) (twicePair S) (dePointerW S W) (twicePairW S W)]

/-- A chain of `n + 1` nodes. -/
def twiceChain : Nat → Twice
  | 0 => .node none none 0
  | n + 1 => .node none (some (twiceChain n)) 0

/-- Its text: `[[null,0]]`, `[[[[null,0]],0]]`, … -/
def twiceText : Nat → Bytes
  | 0 => b!"[[null,0]]"
  | n + 1 => b!"[[" ++ twiceText n ++ b!",0]]"

end Wjson
