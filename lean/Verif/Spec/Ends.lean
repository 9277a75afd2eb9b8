import Verif.Spec.Described
import Verif.Spec.Grammar
/-
Descriptions whose readers return `end` whenever they report an error (C65).
-/
namespace Wjson

/-- Somewhere in the text a `\u` is followed, within four bytes, or a `\x`
within two bytes, by something that is not a hexadecimal digit. -/
def BadEscape (s : Bytes) : Prop :=
  ∃ t, (c%'\\' :: c%'u' :: t <:+ s ∧ ∃ d ∈ t.take 4, ¬ Spec.HexDigit d) ∨
    (c%'\\' :: c%'x' :: t <:+ s ∧ ∃ d ∈ t.take 2, ¬ Spec.HexDigit d)

/-- The report of such an escape: the code `InvalidString`, no message, no position. -/
def badEscapeError : JError := ⟨.InvalidString, none, 0⟩

/-- Reading `null` reports no error and stops behind it, whatever follows. -/
def TakesNull {α : Type} (S : Ser α) : Prop :=
  ∀ v rest e, ∃ v', S.de v (b!"null" ++ rest) e = .ok (v', rest, e)

mutual

/-- The descriptions of C65: all but `size_value`, and fixed-size arrays only of
elements that can be read from `null`. -/
inductive Ending (c : Cfg) : ∀ {α : Type}, Ser α → Prop
  | int (ty : IntTy) : Ending c (intSer c ty)
  | bool : Ending c boolSer
  | str : Ending c strSer
  | chars (N : Nat) : Ending c (charArraySer N)
  | float {α : Type} (F : FloatTy α) (R : Int) : Ending c (floatSer F R)
  | enum {α : Type} [DecidableEq α] (strict : Bool) (dflt : α) (L : List (Bytes × α)) : Ending c (enumSer c strict dflt L)
  | flags {w : Nat} (F : Flags w) : Ending c (flagsSer c F)
  | time (ty : IntTy) (fr : Int) : Ending c (timeSer c ty fr)
  | raw : Ending c (rawSer c)
  | rawQuoted (serQ reqQ : Bool) : Ending c (rawQuotedSer c serQ reqQ)
  | quoted {α : Type} {S : Ser α} (serQ reqQ : Bool) : Ending c S → Ending c (quotedSer S serQ reqQ)
  | quotedReq {α : Type} {S : Ser α} (serQ : Bool) : Ending c (quotedSer S serQ true)
  | pointer {α : Type} {S : Ser α} : Ending c S → Ending c (pointerSer S)
  | memberValue {τ α : Type} (dflt : τ) (get : τ → α) (set : α → τ → τ) {S : Ser α} :
      Ending c S → Ending c (memberValueSer dflt get set S)
  | array {α C : Type} (K : Coll α C) {S : Ser α} : Ending c S → Ending c (arraySer K S)
  | fixed {α : Type} (k : FixKind) (N : Nat) {S : Ser α} : TakesNull S → Ending c S → Ending c (fixSer k N S)
  | field {κ ν : Type} {SK : Ser κ} {SV : Ser ν} : Ending c SK → Ending c SV → Ending c (fieldSer SK SV)
  | dict {κ ν C : Type} (K : Coll (κ × ν) C) {SK : Ser κ} {SV : Ser ν} : Ending c SK → Ending c SV →
      Ending c (dictSer K SK SV)
  | object {τ : Type} (strict : Bool) (dflt : τ) (L : List (Member τ)) : (∀ m ∈ L, EndingM c m) →
      Ending c (objectSer c strict dflt L)
  | objectArray {τ : Type} (dflt : τ) (L : List (AMember τ)) : (∀ m ∈ L, EndingA c m) →
      Ending c (objectArraySer dflt L)

/-- Entries of the member list of an `object`. -/
inductive EndingM (c : Cfg) : ∀ {τ : Type}, Member τ → Prop
  | member {τ : Type} (m : MRef τ) : Ending c m.ser → EndingM c (member m)
  | memberP {τ : Type} (m : MRef τ) : Ending c m.ser → EndingM c (memberP m)
  | memberIf {τ : Type} (l r : MRef τ) (isDflt : l.α → Bool) (RU : Bool) : Ending c l.ser →
      Ending c r.ser → EndingM c (memberIf l r isDflt RU)

/-- Entries of the member list of an `object_array`. -/
inductive EndingA (c : Cfg) : ∀ {τ : Type}, AMember τ → Prop
  | member {τ : Type} (m : MRef τ) : Ending c m.ser → EndingA c (amember m)
  | memberP {τ : Type} (m : MRef τ) : Ending c m.ser → EndingA c (amemberP m)
  | memberIf {τ : Type} (l r : MRef τ) (isDflt : l.α → Bool) (RU : Bool) : Ending c l.ser →
      Ending c r.ser → EndingA c (amemberIf l r isDflt RU)

end

end Wjson
