import Verif.Spec.Described
import Verif.Spec.Reuse
import Verif.Spec.Slots
/-
Specification for C88: parts of a variable.
-/
namespace Wjson.Spec

mutual

/-- Every description, with the number of elements of fixed-size arrays in the type of the variable.
Elements of containers, of dictionaries and behind pointers may be anything. -/
inductive Desc (c : Cfg) : ∀ {α : Type}, Ser α → Prop
  /-- values, strings, containers, dictionaries and pointers -/
  | base {α : Type} {S : Ser α} : Overwrites c S → Desc c S
  | float {α : Type} {F : FloatTy α} {R : Int} : Desc c (floatSer F R)
  | rawQuoted {serQ reqQ : Bool} : Desc c (rawQuotedSer c serQ reqQ)
  | quoted {α : Type} {S : Ser α} {serQ reqQ : Bool} : Desc c S → Desc c (quotedSer S serQ reqQ)
  | memberValue {τ α : Type} {dflt : τ} {get : τ → α} {set : α → τ → τ} {S : Ser α} : Desc c S →
      Desc c (memberValueSer dflt get set S)
  | fixed {α : Type} {k : FixKind} {N : Nat} {S : Ser α} : Desc c S → Desc c (fixVecSer k N S)
  | field {κ ν : Type} {SK : Ser κ} {SV : Ser ν} : Desc c SK → Desc c SV → Desc c (fieldSer SK SV)
  | object {τ : Type} {strict : Bool} {dflt : τ} {L : List (Member τ)} : (∀ m ∈ L, DescM c m) →
      Desc c (objectSer c strict dflt L)
  | objectArray {τ : Type} {dflt : τ} {L : List (AMember τ)} : (∀ m ∈ L, DescA c m) → Desc c (objectArraySer dflt L)

/-- Entries of the member list of an `object`. -/
inductive DescM (c : Cfg) : ∀ {τ : Type}, Member τ → Prop
  | member {τ : Type} {m : MRef τ} : Desc c m.ser → DescM c (member m)
  /-- the member is read into a new variable -/
  | memberP {τ : Type} {m : MRef τ} : DescM c (memberP m)
  | memberIf {τ : Type} {l r : MRef τ} {isDflt : l.α → Bool} {RU : Bool} : Desc c l.ser → Desc c r.ser →
      DescM c (memberIf l r isDflt RU)

/-- Entries of the member list of an `object_array`. -/
inductive DescA (c : Cfg) : ∀ {τ : Type}, AMember τ → Prop
  | member {τ : Type} {m : MRef τ} : Desc c m.ser → DescA c (amember m)
  | memberP {τ : Type} {m : MRef τ} : DescA c (amemberP m)
  | memberIf {τ : Type} {l r : MRef τ} {isDflt : l.α → Bool} {RU : Bool} : Desc c l.ser → Desc c r.ser →
      DescA c (amemberIf l r isDflt RU)

end

/-- `View c S π`: `π` gives the contents of a part of the variable. A part is a member, an element of a fixed-size
array, the key or the value of a field, a part of these, or the whole variable. -/
inductive View (c : Cfg) : ∀ {α β : Type}, Ser α → (α → β) → Prop
  | whole {α : Type} {S : Ser α} : View c S (fun v => v)
  | quoted {α β : Type} {S : Ser α} {serQ reqQ : Bool} {π : α → β} : View c S π → View c (quotedSer S serQ reqQ) π
  | memberValue {τ α β : Type} {dflt : τ} {get : τ → α} {set : α → τ → τ} {S : Ser α} {π : α → β} :
      (∀ x t, get (set x t) = x) → View c S π → View c (memberValueSer dflt get set S) (fun t => π (get t))
  | element {α β : Type} {k : FixKind} {N : Nat} {S : Ser α} {π : α → β} (i : Fin N) : Desc c S → View c S π →
      View c (fixVecSer k N S) (fun v => π v[i])
  | key {κ ν β : Type} {SK : Ser κ} {SV : Ser ν} {π : κ → β} : Desc c SV → View c SK π →
      View c (fieldSer SK SV) (fun x => π x.1)
  | value {κ ν β : Type} {SK : Ser κ} {SV : Ser ν} {π : ν → β} : Desc c SK → View c SV π →
      View c (fieldSer SK SV) (fun x => π x.2)
  | member {τ β : Type} {strict : Bool} {dflt : τ} {L : List (Slot τ)} {m : MRef τ} {π : m.α → β} :
      Fields (L.flatMap Slot.refs) → (∀ x ∈ L.flatMap Slot.refs, Desc c x.ser) → m ∈ L.flatMap Slot.refs → View c m.ser π →
      View c (objectSer c strict dflt (L.map Slot.toMember)) (fun t => π (m.get t))
  | amember {τ β : Type} {dflt : τ} {L : List (Slot τ)} {m : MRef τ} {π : m.α → β} :
      Fields (L.flatMap Slot.refs) → (∀ x ∈ L.flatMap Slot.refs, Desc c x.ser) → m ∈ L.flatMap Slot.refs → View c m.ser π →
      View c (objectArraySer dflt (L.map Slot.toAMember)) (fun t => π (m.get t))

/-- Several texts read into one variable, each with its own error argument. -/
inductive ReadOn {α : Type} (S : Ser α) : α → List (Bytes × EPtr) → α → List (Bytes × EPtr) → Prop
  | nil (v : α) : ReadOn S v [] v []
  | cons {v w u : α} {s p : Bytes} {e e' : EPtr} {ss ps : List (Bytes × EPtr)} : S.de v s e = .ok (w, p, e') → ReadOn S w ss u ps →
      ReadOn S v ((s, e) :: ss) u ((p, e') :: ps)

end Wjson.Spec
