import Verif.Spec.Described
import Verif.Model.Recursive
/-
Specification for C83: descriptions with a place for another description, from which recursive descriptions are made.
-/
namespace Wjson.Spec

mutual

/-- `F` is a description with a place for a description of type `α`, built from the templates of wjson to any depth.
`inside`: the place is only between brackets, so that it sees only a part of the text.
`skipsNull`: the place is not used for a text that starts with `n` (it is behind a pointer, or between brackets). -/
inductive Scheme (c : Cfg) (f : Features) (α : Type) : ∀ {β : Type}, Bool → Bool → (Ser α → Ser β) → Prop
  /-- the place -/
  | here : Scheme c f α false false (fun S => S)
  /-- a description without the place -/
  | other {β : Type} {S : Ser β} : Described c f S → Scheme c f α true true (fun _ => S)
  /-- `inside` and `skipsNull` may be forgotten -/
  | weaken {β : Type} {F : Ser α → Ser β} {inside skipsNull i s : Bool} : Scheme c f α inside skipsNull F → (i → inside) → (s → skipsNull) →
      Scheme c f α i s F
  | pointer {β : Type} {F : Ser α → Ser β} {i s : Bool} : f.pointers = true → Scheme c f α i s F → Scheme c f α i true (fun S => pointerSer (F S))
  | quoted {β : Type} {F : Ser α → Ser β} {i s : Bool} (serQ reqQ : Bool) : f.quotes = true → Scheme c f α i s F →
      Scheme c f α i s (fun S => quotedSer (F S) serQ reqQ)
  | memberValue {τ β : Type} (dflt : τ) (get : τ → β) (set : β → τ → τ) {F : Ser α → Ser β} {i s : Bool} : Scheme c f α i s F →
      Scheme c f α i s (fun S => memberValueSer dflt get set (F S))
  | array {β C : Type} (K : Coll β C) {F : Ser α → Ser β} : Scheme c f α false false F → Scheme c f α true true (fun S => arraySer K (F S))
  | fixed {β : Type} (k : FixKind) (N : Nat) {F : Ser α → Ser β} : 1 ≤ N → Scheme c f α false true F →
      Scheme c f α true true (fun S => fixSer k N (F S))
  | field {κ ν : Type} {FK : Ser α → Ser κ} {FV : Ser α → Ser ν} {i : Bool} : Scheme c f α i false FK → Scheme c f α i false FV →
      Scheme c f α i false (fun S => fieldSer (FK S) (FV S))
  | dict {κ ν C : Type} (K : Coll (κ × ν) C) {FK : Ser α → Ser κ} {FV : Ser α → Ser ν} : Scheme c f α false false FK →
      Scheme c f α false false FV → Scheme c f α true true (fun S => dictSer K (FK S) (FV S))
  | object {τ : Type} (strict : Bool) (dflt : τ) (L : List (Ser α → Member τ)) : (∀ m ∈ L, SchemeM c f α m) →
      Scheme c f α true true (fun S => objectSer c strict dflt (L.map fun m => m S))
  | objectArray {τ : Type} (dflt : τ) (L : List (Ser α → AMember τ)) : (∀ m ∈ L, SchemeA c f α m) →
      Scheme c f α true true (fun S => objectArraySer dflt (L.map fun m => m S))

/-- Entries of the member list of an `object`. -/
inductive SchemeM (c : Cfg) (f : Features) (α : Type) : ∀ {τ : Type}, (Ser α → Member τ) → Prop
  | member {τ β : Type} (name : Bytes) (get : τ → β) (set : β → τ → τ) {F : Ser α → Ser β} : Scheme c f α false false F →
      SchemeM c f α (fun S => member ⟨name, get, set, F S⟩)
  | memberP {τ β : Type} (name : Bytes) (get : τ → β) (set : β → τ → τ) {F : Ser α → Ser β} : Scheme c f α false false F →
      SchemeM c f α (fun S => memberP ⟨name, get, set, F S⟩)
  | memberIf {τ β γ : Type} (nl nr : Bytes) (gl : τ → β) (gr : τ → γ) (sl : β → τ → τ) (sr : γ → τ → τ) (isDflt : β → Bool) (RU : Bool)
      {F : Ser α → Ser β} {G : Ser α → Ser γ} : Scheme c f α false true F → Scheme c f α false true G →
      SchemeM c f α (fun S => memberIf ⟨nl, gl, sl, F S⟩ ⟨nr, gr, sr, G S⟩ isDflt RU)

/-- Entries of the member list of an `object_array`. -/
inductive SchemeA (c : Cfg) (f : Features) (α : Type) : ∀ {τ : Type}, (Ser α → AMember τ) → Prop
  | member {τ β : Type} (name : Bytes) (get : τ → β) (set : β → τ → τ) {F : Ser α → Ser β} : Scheme c f α false false F →
      SchemeA c f α (fun S => amember ⟨name, get, set, F S⟩)
  | memberP {τ β : Type} (name : Bytes) (get : τ → β) (set : β → τ → τ) {F : Ser α → Ser β} : Scheme c f α false false F →
      SchemeA c f α (fun S => amemberP ⟨name, get, set, F S⟩)
  | memberIf {τ β γ : Type} (nl nr : Bytes) (gl : τ → β) (gr : τ → γ) (sl : β → τ → τ) (sr : γ → τ → τ) (isDflt : β → Bool) (RU : Bool)
      {F : Ser α → Ser β} {G : Ser α → Ser γ} : Scheme c f α false true F → Scheme c f α false true G →
      SchemeA c f α (fun S => amemberIf ⟨nl, gl, sl, F S⟩ ⟨nr, gr, sr, G S⟩ isDflt RU)

end

/-- A recursive description: the place for itself is between brackets, and its default value does not depend on what is put there. -/
structure Recursive (c : Cfg) (f : Features) {α : Type} (F : Ser α → Ser α) (d : α) : Prop where
  scheme : Scheme c f α true true F
  dflt : ∀ S, S.dflt = d → (F S).dflt = d

end Wjson.Spec
