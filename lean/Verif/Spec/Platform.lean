import Verif.Spec.Described
/-
Descriptions on several platforms: the same description is a family of
serializers, one for each configuration.
-/
namespace Wjson

/-- `c` leaves open what `c'` fixes: a byte after the text that must not be read
against any memory, overflow that is undefined against any result. With `en`
the sign of `char` is the same. -/
structure Cfg.Below (en : Bool) (c c' : Cfg) : Prop where
  past : c.past = none ∨ c.past = c'.past
  wrapv : c.wrapv = false ∨ c.wrapv = c'.wrapv
  charSigned : en = true → c.charSigned = c'.charSigned

/-- `b` does what `a` does, unless `a` is undefined. -/
def Out.Below {α : Type} (a b : Out α) : Prop := a = .ub ∨ a = b

mutual

/-- `S c` is the serializer of one and the same description on the platform `c`.
The cases are those of `Described`. `enumerator` may occur if `en` is set. -/
inductive Template (en : Bool) : ∀ {α : Type}, (Cfg → Ser α) → Prop
  | int (ty : IntTy) : Template en fun c => intSer c ty
  | bool : Template en fun _ => boolSer
  | str : Template en fun _ => strSer
  | chars (N : Nat) : Template en fun _ => charArraySer N
  | float {α : Type} (F : FloatTy α) (R : Int) : Template en fun _ => floatSer F R
  | enum {α : Type} [DecidableEq α] (strict : Bool) (dflt : α) (L : List (Bytes × α)) :
      en = true → Template en fun c => enumSer c strict dflt L
  | flags {w : Nat} (F : Flags w) : Template en fun c => flagsSer c F
  | raw : Template en fun c => rawSer c
  | rawQuoted (serQ reqQ : Bool) : Template en fun c => rawQuotedSer c serQ reqQ
  | quoted {α : Type} {S : Cfg → Ser α} (serQ reqQ : Bool) : Template en S → Template en fun c => quotedSer (S c) serQ reqQ
  | pointer {α : Type} {S : Cfg → Ser α} : Template en S → Template en fun c => pointerSer (S c)
  | memberValue {τ α : Type} (dflt : τ) (get : τ → α) (set : α → τ → τ) {S : Cfg → Ser α} :
      Template en S → Template en fun c => memberValueSer dflt get set (S c)
  | array {α C : Type} (K : Coll α C) {S : Cfg → Ser α} : Template en S → Template en fun c => arraySer K (S c)
  | fixed {α : Type} (k : FixKind) (N : Nat) {S : Cfg → Ser α} : 1 ≤ N → Template en S → Template en fun c => fixSer k N (S c)
  | field {κ ν : Type} {SK : Cfg → Ser κ} {SV : Cfg → Ser ν} : Template en SK → Template en SV →
      Template en fun c => fieldSer (SK c) (SV c)
  | dict {κ ν C : Type} (K : Coll (κ × ν) C) {SK : Cfg → Ser κ} {SV : Cfg → Ser ν} : Template en SK → Template en SV →
      Template en fun c => dictSer K (SK c) (SV c)
  | object {τ : Type} (strict : Bool) (dflt : τ) (L : List (Cfg → Member τ)) : (∀ m ∈ L, TemplateM en m) →
      Template en fun c => objectSer c strict dflt (L.map fun m => m c)
  | objectArray {τ : Type} (dflt : τ) (L : List (Cfg → AMember τ)) : (∀ m ∈ L, TemplateA en m) →
      Template en fun c => objectArraySer dflt (L.map fun m => m c)
  | time (ty : IntTy) (fr : Int) : Template en fun c => timeSer c ty fr
  | size (ty : IntTy) (metric : Int) : Template en fun c => sizeSer c ty metric

/-- Entries of the member list of an `object`. -/
inductive TemplateM (en : Bool) : ∀ {τ : Type}, (Cfg → Member τ) → Prop
  | member {τ α : Type} (name : Bytes) (get : τ → α) (set : α → τ → τ) {S : Cfg → Ser α} : Template en S →
      TemplateM en fun c => member ⟨name, get, set, S c⟩
  | memberP {τ α : Type} (name : Bytes) (get : τ → α) (set : α → τ → τ) {S : Cfg → Ser α} : Template en S →
      TemplateM en fun c => memberP ⟨name, get, set, S c⟩
  | memberIf {τ α β : Type} (nl nr : Bytes) (getl : τ → α) (setl : α → τ → τ) (getr : τ → β) (setr : β → τ → τ)
      {Sl : Cfg → Ser α} {Sr : Cfg → Ser β} (isDflt : α → Bool) (RU : Bool) : Template en Sl → Template en Sr →
      TemplateM en fun c => memberIf ⟨nl, getl, setl, Sl c⟩ ⟨nr, getr, setr, Sr c⟩ isDflt RU

/-- Entries of the member list of an `object_array`. -/
inductive TemplateA (en : Bool) : ∀ {τ : Type}, (Cfg → AMember τ) → Prop
  | member {τ α : Type} (name : Bytes) (get : τ → α) (set : α → τ → τ) {S : Cfg → Ser α} : Template en S →
      TemplateA en fun c => amember ⟨name, get, set, S c⟩
  | memberP {τ α : Type} (name : Bytes) (get : τ → α) (set : α → τ → τ) {S : Cfg → Ser α} : Template en S →
      TemplateA en fun c => amemberP ⟨name, get, set, S c⟩
  | memberIf {τ α β : Type} (nl nr : Bytes) (getl : τ → α) (setl : α → τ → τ) (getr : τ → β) (setr : β → τ → τ)
      {Sl : Cfg → Ser α} {Sr : Cfg → Ser β} (isDflt : α → Bool) (RU : Bool) : Template en Sl → Template en Sr →
      TemplateA en fun c => amemberIf ⟨nl, getl, setl, Sl c⟩ ⟨nr, getr, setr, Sr c⟩ isDflt RU

end

end Wjson
