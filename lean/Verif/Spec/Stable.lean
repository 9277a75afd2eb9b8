import Verif.Spec.Nested
/-
Descriptions for which reading never leaves a value that cannot be written and
read back (C66).
-/
namespace Wjson
open Spec

/-- No control byte other than tab, newline, return, backspace and form feed,
and no byte F8-FD. -/
def CalmByte (b : Byte) : Prop := (0x20 ≤ b ∨ ShortCtl b.toNat) ∧ ¬ (0xF8 ≤ b ∧ b ≤ 0xFD)

instance (b : Byte) : Decidable (CalmByte b) := inferInstanceAs (Decidable (_ ∧ _))

/-- A text of such bytes without a `\x`. Every UTF-8 text without stray control
characters and `\x` is one. -/
def CalmText (s : Bytes) : Prop := (∀ b ∈ s, CalmByte b) ∧ ¬ b!"\\x" <:+: s

/-- A member of a structure with the values it can come to hold. -/
structure PEntry (τ : Type) where
  entry : Entry τ
  P : entry.ref.α → Prop

/-- A place of a member list: a member, or a `member_if` with the values that `null`
gives its two alternatives. -/
inductive KSlot (τ : Type) where
  | one (x : PEntry τ)
  /-- `member_if<l,r,RU>`; `isDflt` is the comparison with the default value -/
  | alt (l r : PEntry τ) (dl : l.entry.ref.α) (dr : r.entry.ref.α) (isDflt : l.entry.ref.α → Bool) (RU : Bool)

namespace KSlot
variable {τ : Type}

/-- The members of the place. -/
def parts : KSlot τ → List (PEntry τ)
  | .one x => [x]
  | .alt l r _ _ _ _ => [l, r]

/-- The place without the values. -/
def slot : KSlot τ → Slot τ
  | .one x => .one x.entry
  | .alt l r _ _ i RU => .alt l.entry.ref r.entry.ref i RU

/-- What the place can come to hold: good values, and of two alternatives at least one
is what `null` gives. -/
def Holds (t : τ) : KSlot τ → Prop
  | .one x => x.P (x.entry.ref.get t)
  | .alt l r dl dr _ _ => l.P (l.entry.ref.get t) ∧ r.P (r.entry.ref.get t) ∧ (l.entry.ref.get t = dl ∨ r.entry.ref.get t = dr)

/-- Alternatives that can be told apart: `isDflt` is true for what `null` gives the first
alternative, and only for that, and the one that is tried first refuses the texts that
are written for the other one. -/
def Apart : KSlot τ → Prop
  | .one _ => True
  | .alt l r dl dr i RU => Reads l.entry.ref.ser.de b!"null" dl ∧ Reads r.entry.ref.ser.de b!"null" dr ∧ l.P dl ∧ r.P dr ∧
      (∀ x, l.P x → (i x = true ↔ x = dl)) ∧
      (RU = false → ∀ y t, r.P y → r.entry.ref.ser.emit y ⟨[], .back⟩ = .ok ⟨t, .back⟩ → Rejects l.entry.ref.ser.de t) ∧
      (RU = true → ∀ x t, l.P x → x ≠ dl → l.entry.ref.ser.emit x ⟨[], .back⟩ = .ok ⟨t, .back⟩ → Rejects r.entry.ref.ser.de t)

end KSlot

/-- `Stable c pl S P`: `P` are the values of the description `S` that a program
can come to hold by reading. Where `pl` is true the texts have to be plain (the
description contains strings). `P` follows the structure of the description. -/
inductive Stable (c : Cfg) : Bool → ∀ {α : Type}, Ser α → (α → Prop) → Prop
  /-- all values of the type (the most negative one only if overflow wraps) -/
  | int {pl : Bool} {ty : IntTy} : ty.Std →
      Stable c pl (intSer c ty) fun v => ty.InRange v ∧ (v ≠ ty.min ∨ ty.Modular c)
  | bool {pl : Bool} : Stable c pl boolSer fun _ => True
  | str : Stable c true strSer StrOk
  | chars {N : Nat} : N ≤ 2147483647 → Stable c true (charArraySer N) fun v =>
      ∃ w, v = w ++ List.replicate (N - w.length) 0 ∧ w.length ≤ N ∧ (∀ b ∈ w, b ≠ 0) ∧ StrOk w
  /-- floating point types all of whose values are written as JSON numbers, fit
  the buffer, and are converted back by the standard library -/
  | float {pl : Bool} {α : Type} {F : FloatTy α} {R : Int} : (∀ v, RNumber (F.fmt v)) →
      (∀ v, (F.fmt v).length ≤ (if R = -1 then 20 else 20 + R).toNat) →
      (∀ v rest v0, Delim rest → F.conv (F.fmt v ++ rest) v0 = v) → Stable c pl (floatSer F R) fun _ => True
  /-- enumerations whose default is listed -/
  | enum {pl : Bool} {α : Type} [DecidableEq α] {strict : Bool} {dflt : α} {L : List (Bytes × α)} :
      (L.map Prod.fst).Nodup → (∀ x ∈ L, c%'"' ∉ x.1) → dflt ∈ L.map Prod.snd →
      Stable c pl (enumSer c strict dflt L) fun v => v ∈ L.map Prod.snd
  | flags {pl : Bool} {w : Nat} {F : Flags w} : F.sep = c%',' → (F.list.map Prod.fst).Nodup →
      (∀ y ∈ F.list, PlainName y.1) → Stable c pl (flagsSer c F) fun v =>
      ∃ us, (∀ u ∈ us, u ∈ F.list.map Prod.snd) ∧ v = orAll us
  | flagsSep {pl : Bool} {w : Nat} {F : Flags w} : F.sep ≠ c%',' → GoodSep F.sep →
      (F.list.map Prod.fst).Nodup → (∀ y ∈ F.list, FlagWord F.sep y.1) → Stable c pl (flagsSer c F) fun v =>
      ∃ us, (∀ u ∈ us, u ∈ F.list.map Prod.snd) ∧ v = orAll us
  /-- values in quotes whose texts are good strings; the quoted text may be anything -/
  | quoted {pl : Bool} {α : Type} {S : Ser α} {P : α → Prop} {reqQ : Bool} : Stable c false S P →
      (∀ v t, P v → S.emit v ⟨[], .back⟩ = .ok ⟨t, .back⟩ → StrOk t) → Stable c pl (quotedSer S true reqQ) P
  | unquoted {pl : Bool} {α : Type} {S : Ser α} {P : α → Prop} : Stable c false S P →
      (∀ v t, P v → S.emit v ⟨[], .back⟩ = .ok ⟨t, .back⟩ → t.head? ≠ some c%'"') → Stable c pl (quotedSer S false false) P
  /-- pointers to values whose texts do not start with `n` -/
  | pointer {pl : Bool} {α : Type} {S : Ser α} {P : α → Prop} : Stable c pl S P →
      (∀ v t, P v → S.emit v ⟨[], .back⟩ = .ok ⟨t, .back⟩ → t.head? ≠ some c%'n') →
      Stable c pl (pointerSer S) fun o => ∀ v, o = some v → P v
  | memberValue {pl : Bool} {τ α : Type} {dflt : τ} {get : τ → α} {set : α → τ → τ} {S : Ser α} {P : α → Prop} :
      Stable c pl S P → (∀ x t, get (set x t) = x) → (∀ t t0, set (get t) t0 = t) → P (get dflt) →
      Stable c pl (memberValueSer dflt get set S) fun t => P (get t)
  | seq {pl : Bool} {α : Type} {S : Ser α} {P : α → Prop} : Stable c pl S P →
      Stable c pl (arraySer (seqColl α) S) fun vs => ∀ v ∈ vs, P v
  | set {pl : Bool} {α : Type} {S : Ser α} {P : α → Prop} {lt : α → α → Bool} : StrictTotal lt → Stable c pl S P →
      Stable c pl (arraySer (setColl α lt) S) fun vs => Increasing lt vs ∧ ∀ v ∈ vs, P v
  | multiset {pl : Bool} {α : Type} {S : Ser α} {P : α → Prop} {lt : α → α → Bool} : StrictTotal lt → Stable c pl S P →
      Stable c pl (arraySer (multisetColl α lt) S) fun vs => Sorted lt vs ∧ ∀ v ∈ vs, P v
  | fixed {pl : Bool} {α : Type} {N : Nat} {k : FixKind} {S : Ser α} {P : α → Prop} : 1 ≤ N → Stable c pl S P →
      Stable c pl (fixVecSer k N S) fun vs => ∀ v ∈ vs.toList, P v
  | dict {pl : Bool} {κ ν : Type} {SK : Ser κ} {SV : Ser ν} {P : κ → Prop} {Q : ν → Prop} : Stable c pl SK P →
      Stable c pl SV Q → Stable c pl (dictSer (seqColl (κ × ν)) SK SV) fun vs => ∀ x ∈ vs, P x.1 ∧ Q x.2
  | map {pl : Bool} {κ ν : Type} {SK : Ser κ} {SV : Ser ν} {P : κ → Prop} {Q : ν → Prop} {lt : κ → κ → Bool} :
      StrictTotal lt → Stable c pl SK P → Stable c pl SV Q → Stable c pl (dictSer (mapColl κ ν lt) SK SV) fun vs =>
      Increasing (fun a b => lt a.1 b.1) vs ∧ ∀ x ∈ vs, P x.1 ∧ Q x.2
  /-- structures that consist of their members -/
  | object {pl : Bool} {τ : Type} {strict : Bool} {dflt : τ} {L : List (PEntry τ)} :
      Fields (L.map fun m => m.entry.ref) → (∀ m ∈ L, c%'"' ∉ m.entry.ref.name) →
      (∀ a b, (∀ m ∈ L, m.entry.ref.get a = m.entry.ref.get b) → a = b) →
      (∀ m ∈ L, Stable c pl m.entry.ref.ser m.P) → (∀ m ∈ L, m.P (m.entry.ref.get dflt)) →
      Stable c pl (objectSer c strict dflt (L.map fun m => m.entry.toMember)) fun t => ∀ m ∈ L, m.P (m.entry.ref.get t)
  | objectArray {pl : Bool} {τ : Type} {dflt : τ} {L : List (PEntry τ)} :
      Fields (L.map fun m => m.entry.ref) → (∀ a b, (∀ m ∈ L, m.entry.ref.get a = m.entry.ref.get b) → a = b) →
      (∀ m ∈ L, Stable c pl m.entry.ref.ser m.P) → (∀ m ∈ L, m.P (m.entry.ref.get dflt)) →
      Stable c pl (objectArraySer dflt (L.map fun m => m.entry.toAMember)) fun t => ∀ m ∈ L, m.P (m.entry.ref.get t)
  /-- structures with alternatives that can be told apart; in an object both alternatives have the same name -/
  | objectIf {pl : Bool} {τ : Type} {strict : Bool} {dflt : τ} {L : List (KSlot τ)} :
      Fields ((L.map KSlot.slot).flatMap Slot.refs) → (∀ x ∈ L, SameNames x.slot) →
      (∀ m ∈ (L.map KSlot.slot).flatMap Slot.refs, c%'"' ∉ m.name) →
      (∀ a b, (∀ m ∈ (L.map KSlot.slot).flatMap Slot.refs, m.get a = m.get b) → a = b) →
      (∀ m ∈ L.flatMap KSlot.parts, Stable c pl m.entry.ref.ser m.P) → (∀ x ∈ L, x.Apart) → (∀ x ∈ L, x.Holds dflt) →
      Stable c pl (objectSer c strict dflt ((L.map KSlot.slot).map Slot.toMember)) fun t => ∀ x ∈ L, x.Holds t
  | objectArrayIf {pl : Bool} {τ : Type} {dflt : τ} {L : List (KSlot τ)} :
      Fields ((L.map KSlot.slot).flatMap Slot.refs) →
      (∀ a b, (∀ m ∈ (L.map KSlot.slot).flatMap Slot.refs, m.get a = m.get b) → a = b) →
      (∀ m ∈ L.flatMap KSlot.parts, Stable c pl m.entry.ref.ser m.P) → (∀ x ∈ L, x.Apart) → (∀ x ∈ L, x.Holds dflt) →
      Stable c pl (objectArraySer dflt ((L.map KSlot.slot).map Slot.toAMember)) fun t => ∀ x ∈ L, x.Holds t
  /-- intervals in seconds -/
  | time {pl : Bool} {ty : IntTy} : ty.Std → Stable c pl (timeSer c ty 1) fun v => ty.InRange v
  /-- sizes in bytes in a type whose overflow wraps -/
  | size {pl : Bool} {ty : IntTy} : ty.Std → ty ≠ .ulong → ty.Modular c → Stable c pl (sizeSer c ty 1) fun v => ty.InRange v

/-- A history of a variable: one text after the other is read into it, with any
error argument, with success or with an error. -/
inductive History {α : Type} (S : Ser α) : α → List Bytes → α → Prop
  | nil (v : α) : History S v [] v
  | cons {v w x : α} {s p : Bytes} {e e' : EPtr} {ss : List Bytes} : S.de v s e = .ok (w, p, e') → History S w ss x →
      History S v (s :: ss) x

end Wjson
