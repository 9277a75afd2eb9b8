import Verif.Spec.Denotes
import Verif.Spec.Dialect
import Verif.Spec.Slots
/-
What a text means for a description with alternatives (`member_if`), as far as it
is read without error.

Everything but the structures is taken from `Spec/Denotes.lean`. A place of a
structure with alternatives is told which of them is tried first; the text of the
place is a text of one of them, and the other one is reset to `null`.
-/
namespace Wjson
open Spec

/-- A place of a member list with the denotations of its types. `exact` is set if
the alternative tried first has no alternatives inside. -/
inductive DSlot (τ : Type) where
  | one (d : DEntry τ)
  | alt (l r : MRef τ) (isDflt : l.α → Bool) (RU : Bool) (Dl : Den l.α) (Dr : Den r.α) (exact : Bool)

section
variable {τ : Type}

def DSlot.slot : DSlot τ → Slot τ
  | .one d => .one d.entry
  | .alt l r i RU _ _ _ => .alt l r i RU

/-- The name; in an object both alternatives have the same. -/
def DSlot.name : DSlot τ → Bytes
  | .one d => d.name
  | .alt l _ _ _ _ _ _ => l.name

/-- The member is set to what `null` means for it, if `null` means anything. -/
def Nulled (o : MRef τ) (D : Den o.α) (t t' : τ) : Prop :=
  ∃ x, t' = o.set x t ∧ ∀ y, D (o.get t) y b!"null" → x = y

/-- Alternatives, `a` tried first: the text is a text of `a`, and then `b` is reset;
or it is a text of `b`, and `a`, whatever the attempt has left there, is reset before.
If `exact`, `b` is only used for texts that are not texts of `a`. -/
def AltStores (a b : MRef τ) (Da : Den a.α) (Db : Den b.α) (exact : Bool) : Den τ := fun t t' s =>
  (∃ x, Da (a.get t) x s ∧ Nulled b Db (a.set x t) t') ∨
  ∃ j t1 x, (exact = true → ∀ y, ¬ Da (a.get t) y s) ∧ Nulled a Da (a.set j t) t1 ∧ Db (b.get t1) x s ∧ t' = b.set x t1

/-- Structure before, structure after, text of the place. -/
def DSlot.stores : DSlot τ → Den τ
  | .one d => d.stores
  | .alt l r _ RU Dl Dr ex => if RU then AltStores r l Dr Dl ex else AltStores l r Dl Dr ex

/-- What happens to the structure when a key is compared with the name of the place
and differs: for alternatives the second one is reset. -/
def DSlot.passed : DSlot τ → τ → τ → Prop
  | .one _, t, t' => t' = t
  | .alt l r _ RU Dl Dr _, t, t' => if RU then Nulled l Dl t t' else Nulled r Dr t t'

/-- A key is compared with the names of the places one after the other and differs. -/
inductive PassedAll : List (DSlot τ) → τ → τ → Prop
  | nil {t} : PassedAll [] t t
  | cons {d L t t1 t2} : d.passed t t1 → PassedAll L t1 t2 → PassedAll (d :: L) t t2

/-- What the items of a JSON object do to a structure; `Run` of `Spec/Denotes.lean`
for places. A key that is not the next one is searched from the start of the list. -/
inductive SlotRun (strict : Bool) (L : List (DSlot τ)) :
    List (DSlot τ) → List (Bytes × Bytes) → τ → τ → Option (List (DSlot τ)) → Prop
  | done {cur t} : SlotRun strict L cur [] t t (some cur)
  /-- the next place in order -/
  | next {d cur s items t t1 t2 r} : d.stores t t1 s → SlotRun strict L cur items t1 t2 r →
      SlotRun strict L (d :: cur) ((d.name, s) :: items) t t2 r
  /-- another place: found, but the cursor stays -/
  | other {d d' cur L1 L2 s items t t0 t1 t2 t3 r} : L = L1 ++ d' :: L2 → (∀ x ∈ L1, x.name ≠ d'.name) → d.name ≠ d'.name →
      d.passed t t0 → PassedAll L1 t0 t1 → d'.stores t1 t2 s →
      SlotRun strict L (d :: cur) items t2 t3 r → SlotRun strict L (d :: cur) ((d'.name, s) :: items) t t3 r
  /-- an unknown key -/
  | unknown {d cur k s items t t0 t1 t2 r} : strict = false → k ∉ L.map DSlot.name → Skippable (k, s) →
      d.passed t t0 → PassedAll L t0 t1 →
      SlotRun strict L (d :: cur) items t1 t2 r → SlotRun strict L (d :: cur) ((k, s) :: items) t t2 r
  /-- all places have been met: whatever follows is skipped -/
  | rest {x items t} : strict = false → (∀ y ∈ x :: items, Skippable y) → SlotRun strict L [] (x :: items) t t none

/-- Structures as JSON objects, `ObjDen` for places. -/
def SlotObjDen (strict : Bool) (dflt : τ) (L : List (DSlot τ)) : Den τ := fun t0 t1 s =>
  (s = b!"null" ∧ t1 = dflt) ∨
  (∃ g, s = c%'[' :: (g ++ b!"]") ∧ Gap g ∧ t1 = t0) ∨
  (∃ items r, ObjText items s ∧ SlotRun strict L L items t0 t1 r) ∨
  ∃ items, ObjTrail items s ∧ SlotRun strict L L items t0 t1 (some [])

/-- The places one after the other get the values of the texts. -/
inductive SlotPositional : List (DSlot τ) → List Bytes → τ → τ → Prop
  | nil {t} : SlotPositional [] [] t t
  | cons {d L s ss t t1 t2} : d.stores t t1 s → SlotPositional L ss t1 t2 → SlotPositional (d :: L) (s :: ss) t t2

/-- Structures as JSON arrays, `ObjArrDen` for places. -/
def SlotArrDen (dflt : τ) (L : List (DSlot τ)) : Den τ := fun t0 t1 s =>
  (s = b!"null" ∧ t1 = dflt) ∨
  (∃ g, s = c%'[' :: (g ++ b!"]") ∧ Gap g ∧ t1 = t0) ∨
  (∃ L1 L2 ts r, L = L1 ++ L2 ∧ s = c%'[' :: r ∧ Items1 (fun v t => v = t) c%']' ts r ∧ SlotPositional L1 ts t0 t1) ∨
  ∃ ts r g, s = c%'[' :: (r ++ g ++ b!"]") ∧ ts ≠ [] ∧ ItemsComma (fun v t => v = t) ts r ∧ Gap g ∧ SlotPositional L ts t0 t1

end

/-- `D` holds for what the description with serializer `S` reads without error: the
descriptions of `Meaning` and those with `member_if` anywhere inside. The flag is as
in `Meaning`. -/
inductive AltMeaning (c : Cfg) : Bool → ∀ {α : Type}, Ser α → Den α → Prop
  | base {f : Bool} {α : Type} {S : Ser α} {D : Den α} : Meaning c f S D → AltMeaning c f S D
  | quoted {f serQ reqQ : Bool} {α : Type} {S : Ser α} {D : Den α} : AltMeaning c f S D →
      AltMeaning c f (quotedSer S serQ reqQ) (QuotedDen S.de reqQ D)
  | pointer {f : Bool} {α : Type} {S : Ser α} {D : Den α} : AltMeaning c f S D →
      AltMeaning c false (pointerSer S) (PtrDen S.dflt D)
  | memberValue {f : Bool} {τ α : Type} {dflt : τ} {get : τ → α} {set : α → τ → τ} {S : Ser α} {D : Den α} : AltMeaning c f S D →
      AltMeaning c f (memberValueSer dflt get set S) (PartDen get set D)
  | array {f : Bool} {α C : Type} {K : Coll α C} {S : Ser α} {D : Den α} : AltMeaning c f S D →
      AltMeaning c true (arraySer K S) (SeqDen K.clear K.insert S.dflt c%'[' c%']' D)
  | stdArray {f : Bool} {α : Type} {N : Nat} {S : Ser α} {D : Den α} : 1 ≤ N → AltMeaning c f S D →
      AltMeaning c true (fixSer .stdArray N S) (FixArrDen (fun _ => S.dflt) D)
  | cArray {f : Bool} {α : Type} {N : Nat} {S : Ser α} {D : Den α} : 1 ≤ N → AltMeaning c f S D →
      AltMeaning c true (fixSer .cArray N S) (FixArrDen id D)
  | dict {f f' : Bool} {κ ν C : Type} {K : Coll (κ × ν) C} {SK : Ser κ} {SV : Ser ν} {DK : Den κ} {DV : Den ν} : AltMeaning c f SK DK →
      AltMeaning c f' SV DV →
      AltMeaning c true (dictSer K SK SV) (SeqDen K.clear K.insert (SK.dflt, SV.dflt) c%'{' c%'}' (FieldDen DK DV))
  /-- `object` with any mixture of `member`, `member_p` and `member_if` -/
  | object {τ : Type} {f g : DSlot τ → Bool} {strict : Bool} {dflt : τ} {L : List (DSlot τ)} :
      (∀ d ∈ L, c%'"' ∉ d.name ∧ SameNames d.slot) →
      (∀ d, .one d ∈ L → AltMeaning c (f (.one d)) d.entry.ref.ser d.den) →
      (∀ l r i RU Dl Dr ex, .alt l r i RU Dl Dr ex ∈ L → AltMeaning c (f (.alt l r i RU Dl Dr ex)) l.ser Dl) →
      (∀ l r i RU Dl Dr ex, .alt l r i RU Dl Dr ex ∈ L → AltMeaning c (g (.alt l r i RU Dl Dr ex)) r.ser Dr) →
      (∀ l r i Dl Dr, .alt l r i false Dl Dr true ∈ L → ∃ h, Meaning c h l.ser Dl) →
      (∀ l r i Dl Dr, .alt l r i true Dl Dr true ∈ L → ∃ h, Meaning c h r.ser Dr) →
      AltMeaning c true (objectSer c strict dflt (L.map fun d => d.slot.toMember)) (SlotObjDen strict dflt L)
  | objectArray {τ : Type} {f g : DSlot τ → Bool} {dflt : τ} {L : List (DSlot τ)} :
      (∀ d, .one d ∈ L → AltMeaning c (f (.one d)) d.entry.ref.ser d.den) →
      (∀ l r i RU Dl Dr ex, .alt l r i RU Dl Dr ex ∈ L → AltMeaning c (f (.alt l r i RU Dl Dr ex)) l.ser Dl) →
      (∀ l r i RU Dl Dr ex, .alt l r i RU Dl Dr ex ∈ L → AltMeaning c (g (.alt l r i RU Dl Dr ex)) r.ser Dr) →
      (∀ l r i Dl Dr, .alt l r i false Dl Dr true ∈ L → ∃ h, Meaning c h l.ser Dl) →
      (∀ l r i Dl Dr, .alt l r i true Dl Dr true ∈ L → ∃ h, Meaning c h r.ser Dr) →
      AltMeaning c true (objectArraySer dflt (L.map fun d => d.slot.toAMember)) (SlotArrDen dflt L)

/-- The descriptions that accept nothing but JSON of the dialect: those of `JsonMeans` (C54) and those
with `member_if` inside. -/
inductive AltJson (c : Cfg) (raw : Bool) : ∀ {α : Type}, Ser α → Den α → Prop
  | base {α : Type} {S : Ser α} {D : Den α} : JsonMeans c raw S D → AltJson c raw S D
  | quoted {serQ reqQ : Bool} {α : Type} {S : Ser α} {D : Den α} : AltJson c raw S D →
      AltJson c raw (quotedSer S serQ reqQ) (QuotedDen S.de reqQ D)
  | memberValue {τ α : Type} {dflt : τ} {get : τ → α} {set : α → τ → τ} {S : Ser α} {D : Den α} : AltJson c raw S D →
      AltJson c raw (memberValueSer dflt get set S) (PartDen get set D)
  | array {α C : Type} {K : Coll α C} {S : Ser α} {D : Den α} : AltJson c raw S D →
      AltJson c raw (arraySer K S) (SeqDen K.clear K.insert S.dflt c%'[' c%']' D)
  | stdArray {α : Type} {N : Nat} {S : Ser α} {D : Den α} : 1 ≤ N → AltJson c raw S D →
      AltJson c raw (fixSer .stdArray N S) (FixArrDen (fun _ => S.dflt) D)
  | cArray {α : Type} {N : Nat} {S : Ser α} {D : Den α} : 1 ≤ N → AltJson c raw S D →
      AltJson c raw (fixSer .cArray N S) (FixArrDen id D)
  | dict {κ ν C : Type} {K : Coll (κ × ν) C} {SK : Ser κ} {SV : Ser ν} {DK : Den κ} {DV : Den ν} : KeyMeans c SK DK →
      AltJson c raw SV DV →
      AltJson c raw (dictSer K SK SV) (SeqDen K.clear K.insert (SK.dflt, SV.dflt) c%'{' c%'}' (FieldDen DK DV))
  | object {τ : Type} {strict : Bool} {dflt : τ} {L : List (DSlot τ)} :
      (∀ d ∈ L, PlainName d.name ∧ SameNames d.slot) →
      (∀ d, .one d ∈ L → AltJson c raw d.entry.ref.ser d.den) →
      (∀ l r i RU Dl Dr ex, .alt l r i RU Dl Dr ex ∈ L → AltJson c raw l.ser Dl) →
      (∀ l r i RU Dl Dr ex, .alt l r i RU Dl Dr ex ∈ L → AltJson c raw r.ser Dr) →
      (∀ l r i Dl Dr, .alt l r i false Dl Dr true ∈ L → ∃ h, Meaning c h l.ser Dl) →
      (∀ l r i Dl Dr, .alt l r i true Dl Dr true ∈ L → ∃ h, Meaning c h r.ser Dr) →
      AltJson c raw (objectSer c strict dflt (L.map fun d => d.slot.toMember)) (SlotObjDen strict dflt L)
  | objectArray {τ : Type} {dflt : τ} {L : List (DSlot τ)} :
      (∀ d, .one d ∈ L → AltJson c raw d.entry.ref.ser d.den) →
      (∀ l r i RU Dl Dr ex, .alt l r i RU Dl Dr ex ∈ L → AltJson c raw l.ser Dl) →
      (∀ l r i RU Dl Dr ex, .alt l r i RU Dl Dr ex ∈ L → AltJson c raw r.ser Dr) →
      (∀ l r i Dl Dr, .alt l r i false Dl Dr true ∈ L → ∃ h, Meaning c h l.ser Dl) →
      (∀ l r i Dl Dr, .alt l r i true Dl Dr true ∈ L → ∃ h, Meaning c h r.ser Dr) →
      AltJson c raw (objectArraySer dflt (L.map fun d => d.slot.toAMember)) (SlotArrDen dflt L)

end Wjson
