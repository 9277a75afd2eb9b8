import Verif.Spec.Stable
/-
Texts whose strings are UTF-8 and descriptions that keep them so (C71). Nothing
here refers to the code of the readers.
-/
namespace Wjson
open Spec

/-- The numbers RFC 3629 excludes: halves of a UTF-16 pair. -/
def Spec.Surrogate (h : Nat) : Prop := 0xD800 ≤ h ∧ h < 0xE000

/-- What may follow `\u`: four hexadecimal digits that are not half of a UTF-16
pair, or the end of the text before the fourth. -/
def Spec.EscapeOk (r : Bytes) : Prop :=
  r.length < 4 ∨ ∃ a b c d t, r = a :: b :: c :: d :: t ∧ HexDigit a ∧ HexDigit b ∧ HexDigit c ∧ HexDigit d ∧
    ¬ Surrogate (hex4 a b c d)

/-- A UTF-8 text (right or wrong as JSON, up to `INT_MAX` bytes) without `\x`, with
a hexadecimal number after every `\u` and without escaped UTF-16 pairs. -/
structure Spec.Utf8Source (s : Bytes) : Prop where
  utf8 : Utf8Text s
  length : s.length ≤ 2147483647
  nox : ¬ b!"\\x" <:+: s
  esc : ∀ r, b!"\\u" ++ r <:+ s → EscapeOk r

/-- A place of a member list with the values its parts can come to hold. -/
inductive PSlot (τ : Type) where
  | one (x : PEntry τ)
  /-- `member_if<l,r,RU>` -/
  | alt (l r : PEntry τ) (isDflt : l.entry.ref.α → Bool) (RU : Bool)

/-- The parts of a place. -/
def PSlot.parts {τ : Type} : PSlot τ → List (PEntry τ)
  | .one x => [x]
  | .alt l r _ _ => [l, r]

/-- The place in the list of an `object`. -/
def PSlot.toMember {τ : Type} : PSlot τ → Member τ
  | .one x => x.entry.toMember
  | .alt l r d RU => memberIf l.entry.ref r.entry.ref d RU

/-- The place in the list of an `object_array`. -/
def PSlot.toAMember {τ : Type} : PSlot τ → AMember τ
  | .one x => x.entry.toAMember
  | .alt l r d RU => amemberIf l.entry.ref r.entry.ref d RU

/-- `Utf8Safe c key st S P`: the strings in the values `P` of the description `S`
are UTF-8. `key` is true where the text is a string, `st` where there are strings
in the values. `P` follows the structure of the description. -/
inductive Utf8Safe (c : Cfg) : Bool → Bool → ∀ {α : Type}, Ser α → (α → Prop) → Prop
  /-- that the text is a string may be forgotten -/
  | value {key st : Bool} {α : Type} {S : Ser α} {P : α → Prop} : Utf8Safe c key st S P → Utf8Safe c false st S P
  | int {st : Bool} {ty : IntTy} : ty.Std → Utf8Safe c false st (intSer c ty) fun v => ty.InRange v
  | bool {st : Bool} : Utf8Safe c false st boolSer fun _ => True
  | str : Utf8Safe c true true strSer Utf8Text
  /-- floating point types all of whose values are written as JSON numbers and fit the buffer -/
  | float {st : Bool} {α : Type} {F : FloatTy α} {R : Int} : (∀ v, RNumber (F.fmt v)) →
      (∀ v, (F.fmt v).length ≤ (if R = -1 then 20 else 20 + R).toNat) → Utf8Safe c false st (floatSer F R) fun _ => True
  | enum {st : Bool} {α : Type} [DecidableEq α] {strict : Bool} {dflt : α} {L : List (Bytes × α)} : (∀ x ∈ L, RChars x.1) →
      Utf8Safe c true st (enumSer c strict dflt L) fun _ => True
  | flags {st : Bool} {w : Nat} {F : Flags w} : F.sep = c%',' → (∀ x ∈ F.list, RChars x.1) →
      Utf8Safe c false st (flagsSer c F) fun _ => True
  | flagsSep {st : Bool} {w : Nat} {F : Flags w} : F.sep ≠ c%',' → RChars [F.sep] → (∀ x ∈ F.list, RChars x.1) →
      Utf8Safe c true st (flagsSer c F) fun _ => True
  /-- values without strings in quotes; the quoted text may be anything -/
  | quoted {key st : Bool} {α : Type} {S : Ser α} {P : α → Prop} {reqQ : Bool} : Utf8Safe c key false S P →
      Utf8Safe c true st (quotedSer S true reqQ) P
  | unquoted {key st : Bool} {α : Type} {S : Ser α} {P : α → Prop} {reqQ : Bool} : Utf8Safe c key false S P →
      Utf8Safe c false st (quotedSer S false reqQ) P
  | pointer {key st : Bool} {α : Type} {S : Ser α} {P : α → Prop} : Utf8Safe c key st S P →
      Utf8Safe c false st (pointerSer S) fun o => ∀ v, o = some v → P v
  | memberValue {key st : Bool} {τ α : Type} {dflt : τ} {get : τ → α} {set : α → τ → τ} {S : Ser α} {P : α → Prop} :
      Utf8Safe c key st S P → (∀ x t, get (set x t) = x) → P (get dflt) →
      Utf8Safe c false st (memberValueSer dflt get set S) fun t => P (get t)
  /-- containers of any kind: what is inserted is the new element, or nothing -/
  | array {key st : Bool} {α C : Type} {K : Coll α C} {S : Ser α} {P : α → Prop} : Utf8Safe c key st S P →
      K.elems K.clear = [] → (∀ t x, ∀ y ∈ K.elems (K.insert t x), y ∈ K.elems t ∨ y = x) →
      Utf8Safe c false st (arraySer K S) fun vs => ∀ v ∈ K.elems vs, P v
  | fixed {key st : Bool} {α : Type} {N : Nat} {k : FixKind} {S : Ser α} {P : α → Prop} : Utf8Safe c key st S P →
      Utf8Safe c false st (fixVecSer k N S) fun vs => ∀ v ∈ vs.toList, P v
  | dict {key st : Bool} {κ ν C : Type} {K : Coll (κ × ν) C} {SK : Ser κ} {SV : Ser ν} {P : κ → Prop} {Q : ν → Prop} :
      Utf8Safe c true st SK P → Utf8Safe c key st SV Q → K.elems K.clear = [] →
      (∀ t x, ∀ y ∈ K.elems (K.insert t x), y ∈ K.elems t ∨ y = x) →
      Utf8Safe c false st (dictSer K SK SV) fun vs => ∀ x ∈ K.elems vs, P x.1 ∧ Q x.2
  /-- structures whose names need no escapes -/
  | object {st : Bool} {τ : Type} {strict : Bool} {dflt : τ} {L : List (PEntry τ)} (key : PEntry τ → Bool) :
      Fields (L.map fun m => m.entry.ref) → (∀ m ∈ L, RChars m.entry.ref.name) →
      (∀ m ∈ L, Utf8Safe c (key m) st m.entry.ref.ser m.P) → (∀ m ∈ L, m.P (m.entry.ref.get dflt)) →
      Utf8Safe c false st (objectSer c strict dflt (L.map fun m => m.entry.toMember)) fun t => ∀ m ∈ L, m.P (m.entry.ref.get t)
  | objectArray {st : Bool} {τ : Type} {dflt : τ} {L : List (PEntry τ)} (key : PEntry τ → Bool) :
      Fields (L.map fun m => m.entry.ref) → (∀ m ∈ L, Utf8Safe c (key m) st m.entry.ref.ser m.P) →
      (∀ m ∈ L, m.P (m.entry.ref.get dflt)) →
      Utf8Safe c false st (objectArraySer dflt (L.map fun m => m.entry.toAMember)) fun t => ∀ m ∈ L, m.P (m.entry.ref.get t)
  /-- structures with alternatives; the strings of both alternatives are UTF-8 -/
  | objectIf {st : Bool} {τ : Type} {strict : Bool} {dflt : τ} {L : List (PSlot τ)} (key : PEntry τ → Bool) :
      Fields ((L.flatMap PSlot.parts).map fun m => m.entry.ref) → (∀ m ∈ L.flatMap PSlot.parts, RChars m.entry.ref.name) →
      (∀ m ∈ L.flatMap PSlot.parts, Utf8Safe c (key m) st m.entry.ref.ser m.P) → (∀ m ∈ L.flatMap PSlot.parts, m.P (m.entry.ref.get dflt)) →
      Utf8Safe c false st (objectSer c strict dflt (L.map PSlot.toMember)) fun t => ∀ m ∈ L.flatMap PSlot.parts, m.P (m.entry.ref.get t)
  | objectArrayIf {st : Bool} {τ : Type} {dflt : τ} {L : List (PSlot τ)} (key : PEntry τ → Bool) :
      Fields ((L.flatMap PSlot.parts).map fun m => m.entry.ref) →
      (∀ m ∈ L.flatMap PSlot.parts, Utf8Safe c (key m) st m.entry.ref.ser m.P) → (∀ m ∈ L.flatMap PSlot.parts, m.P (m.entry.ref.get dflt)) →
      Utf8Safe c false st (objectArraySer dflt (L.map PSlot.toAMember)) fun t => ∀ m ∈ L.flatMap PSlot.parts, m.P (m.entry.ref.get t)
  /-- intervals in seconds -/
  | time {st : Bool} {ty : IntTy} : ty.Std → Utf8Safe c true st (timeSer c ty 1) fun v => ty.InRange v
  /-- sizes in bytes -/
  | size {st : Bool} {ty : IntTy} : ty.Std → ty ≠ .ulong → Utf8Safe c false st (sizeSer c ty 1) fun v => ty.InRange v

end Wjson
