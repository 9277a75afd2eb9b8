import Verif.Spec.Fields
import Verif.Spec.Values
import Verif.Spec.Strings
import Verif.Spec.IntTypes
import Verif.Model.Integer
import Verif.Model.Str
import Verif.Model.Float
import Verif.Model.Array
import Verif.Model.ObjectArray
import Verif.Model.Enum
import Verif.Model.Misc
import Verif.Model.Units
import Verif.Spec.Units
import Verif.Spec.Flags
/-
What a text means for a description: the denotations of the building blocks.

A denotation is a relation between the value a variable holds before the read,
the value it holds afterwards, and the text. The denotations are made of the
grammar (`Spec/Grammar.lean`), layouts (`Spec/Serial.lean`, `Spec/Object.lean`)
and the meaning of the parts; they do not mention any function of the model
(`IntTy.promo` is integral promotion), with the exception of `quoted`, which
reads a text inside a text.
`Means c S D` then says that `D` is the denotation of the description whose
serializer is `S`; here the names of the model stand for the templates of wjson.
-/
namespace Wjson
open Spec

/-- Value before, value after, text. -/
abbrev Den (α : Type) := α → α → Bytes → Prop

/-- Integers: `null` is zero; a literal that fits (with its magnitude) is its
value; narrow and unsigned types, and all types with `-fwrapv`, reduce a literal
modulo a power of two. -/
def IntDen (c : Cfg) (ty : IntTy) : Den Int := fun _ v t =>
  (t = b!"null" ∧ v = 0) ∨ ∃ x, IntLit t x ∧
    ((ty.InRange x ∧ ty.InRange x.natAbs ∧ v = x) ∨
     ((ty.bits < 32 ∨ ty.signed = false ∨ c.wrapv = true) ∧ ty.InRange v ∧ (v - x) % 2 ^ ty.bits = 0))

def BoolDen : Den Bool := fun _ v t =>
  (t = b!"true" ∧ v = true) ∨ (t = b!"false" ∧ v = false) ∨ (t = b!"null" ∧ v = false)

/-- Strings: `null` is the empty string, a token stands for what its units stand
for. -/
def StrDen : Den Bytes := fun _ v t => (t = b!"null" ∧ v = []) ∨ ∃ u, t = quoted u ∧ Decodes u v

/-- `char[N]`: the same as far as there is room, zeros behind. -/
def CharsDen (N : Nat) : Den Bytes := fun _ v t =>
  (t = b!"null" ∧ v = List.replicate N 0) ∨
    ∃ u w, t = quoted u ∧ DecodesIn N u w ∧ v = w ++ List.replicate (N - w.length) 0

/-- The conversion of the standard library stops at the end of a number. -/
def FloatTy.Local {α : Type} (F : FloatTy α) : Prop :=
  ∀ t rest v, RNumber t → Delim rest → F.conv (t ++ rest) v = F.conv t v

/-- Floating point numbers: the conversion sees the first 20 (or `20 + R`) bytes
of the literal. -/
def FloatDen {α : Type} (F : FloatTy α) (R : Int) : Den α := fun v0 v t =>
  (t = b!"null" ∧ v = F.dflt) ∨
    (RNumber t ∧ v = F.conv (t.take (if R = -1 then 20 else 20 + R).toNat) v0)

/-- Enumerations: a name in quotes, without escapes; control bytes and spaces
before the quote are skipped, and with them the bytes from 128 on where `char`
is signed. Nonstrict: any other name is the default value. -/
def EnumDen {α : Type} (c : Cfg) (strict : Bool) (dflt : α) (L : List (Bytes × α)) : Den α := fun _ v t =>
  ∃ g k, t = g ++ quoted k ∧ c%'"' ∉ k ∧ (∀ b ∈ g, b ≤ 32 ∨ (c.charSigned = true ∧ 128 ≤ b)) ∧
    ((k, v) ∈ L ∨ (strict = false ∧ k ∉ L.map Prod.fst ∧ v = dflt))

/-- Flags: an array of names, or words in a string. -/
def FlagsDen {w : Nat} (L : List (Bytes × BitVec w)) (sep : Byte) (strict : Bool) : Den (BitVec w) := fun _ v t =>
  (∃ r, t = c%'[' :: r ∧ FlagArr L strict v r) ∨
  ∃ r, t = c%'"' :: r ∧ (if sep = c%' ' then FlagSpaced L strict v r else FlagStr L strict sep v r)

/-- Raw values: one value of the dialect, kept as it is. -/
def RawDen : Den Bytes := fun _ v t => XValue t ∧ v = t

/-- Raw values in quotes (`q`) or not. -/
def RawQuotedDen (q : Bool) : Den Bytes := fun _ v t => XValue v ∧ t = if q then quoted v else v

/-- Pointers: an `n` and the three bytes after it, whatever they are, are the
null pointer; otherwise the object, read into a fresh variable. -/
def PtrDen {α : Type} (fresh : α) (D : Den α) : Den (Option α) := fun _ v t =>
  (∃ x y z, t = [c%'n', x, y, z] ∧ v = none) ∨ ∃ x, v = some x ∧ t.head? ≠ some c%'n' ∧ D fresh x t

/-- A description inside a JSON string: it reads the decoded string (`null`: the
empty string) and what it leaves is ignored. If quotes are not required (`q`),
a text that does not start with a quote is read directly. -/
def QuotedDen {α : Type} (inner : De α) (q : Bool) (D : Den α) : Den α := fun v0 v t =>
  (∃ w r, ((∃ u, t = quoted u ∧ Decodes u w) ∨ (q = true ∧ t = b!"null" ∧ w = [])) ∧ inner v0 w .fresh = .ok (v, r, .fresh)) ∨
  (q = false ∧ t.head? ≠ some c%'"' ∧ D v0 v t)

/-- Adding `x` units to `v` ticks of `1/fr` second. -/
def TimeSum (c : Cfg) (ty : IntTy) (fr v x : Int) (u : TimeUnit) (v' : Int) : Prop :=
  ∃ a b q s, ty.promo.Computes c (x * u.scale) a ∧ ty.promo.Computes c (a * fr) b ∧ ty.promo.Computes c (b.tdiv u.perSecond) q ∧
    ty.promo.Computes c (v + q) s ∧ ty.Reduces s v'

/-- The unit of a number in a time string: `m` is a minute unless `s` or `k`
follows; the byte after `mk` is not looked at. -/
inductive TimeUnitText : TimeUnit → Bytes → Bytes → Prop
  | d {r} : TimeUnitText .d b!"d" r
  | h {r} : TimeUnitText .h b!"h" r
  | m {r} : r.head? ≠ some c%'s' → r.head? ≠ some c%'k' → TimeUnitText .m b!"m" r
  | s {r} : TimeUnitText .s b!"s" r
  | ms {r} : TimeUnitText .ms b!"ms" r
  | mks {b r} : TimeUnitText .mks [c%'m', c%'k', b] r

/-- A time string after the opening quote: ticks so far, ticks at the end. -/
inductive TimeRun (c : Cfg) (ty : IntTy) (fr : Int) : Int → Int → Bytes → Prop
  | close {v} : TimeRun c ty fr v v b!"\""
  | unit {v v1 v2 x t u w r} : IntDen c ty 0 x t → TimeUnitText u w r → TimeSum c ty fr v x u v1 → TimeRun c ty fr v1 v2 r →
      TimeRun c ty fr v v2 (t ++ w ++ r)
  /-- A byte that is no unit (a quote, too) is skipped and the number ignored. -/
  | skip {v v2 x t b r} : IntDen c ty 0 x t → b ≠ c%'d' → b ≠ c%'h' → b ≠ c%'m' → b ≠ c%'s' →
      (Digit b → t = b!"0" ∨ t = b!"-0" ∨ t = b!"null") → TimeRun c ty fr v v2 r → TimeRun c ty fr v v2 (t ++ b :: r)

/-- Time intervals: `null`, a number of ticks, or a string. -/
def TimeDen (c : Cfg) (ty : IntTy) (fr : Int) : Den Int := fun _ v t =>
  IntDen c ty 0 v t ∨ ∃ r, t = c%'"' :: r ∧ TimeRun c ty fr 0 v r

/-- Sizes: `null`, a number, or a string: it goes into a buffer of 32 bytes, up
to the first NUL; a number and, optionally, its unit. -/
def SizeDen (c : Cfg) (ty : IntTy) (metric : Int) : Den Int := fun _ v t =>
  IntDen c ty 0 v t ∨
    ∃ u w n x r, t = quoted u ∧ DecodesIn 32 u w ∧ (w.length < 32 ∨ 0 ∈ w) ∧ w.takeWhile (· ≠ 0) = n ++ r ∧ IntDen c .long 0 x n ∧
      ((r = [] ∧ ty.Reduces x v) ∨
       ∃ (k : SizeUnit) (a b : Int), k.Begins r ∧ IntTy.long.Computes c (x * k.bytes) a ∧ IntTy.long.Computes c (a.tdiv metric) b ∧
        ty.Reduces b v)

/-- `member_value`: the part. -/
def PartDen {τ α : Type} (get : τ → α) (set : α → τ → τ) (D : Den α) : Den τ := fun t0 t1 s =>
  ∃ x, D (get t0) x s ∧ t1 = set x t0

/-- Sequences, sets, dictionaries between the brackets `L` and `R`: the items are
inserted one after the other into the empty container; each is read into a fresh
variable. -/
def SeqDen {α C : Type} (clear : C) (insert : C → α → C) (fresh : α) (L R : Byte) (D : Den α) : Den C := fun _ v t =>
  (t = b!"null" ∧ v = clear) ∨
    ∃ vs r, t = L :: r ∧ ItemsText (D fresh) R vs r ∧ v = vs.foldl insert clear

/-- Fixed-size arrays, the part after the opening bracket: old elements, new
elements, text. `fresh` tells what an element is read into. Elements without a
text keep their value. When all elements have been read and a comma follows,
the closing bracket must come at once. -/
inductive FixDen {α : Type} (fresh : α → α) (D : Den α) : List α → List α → Bytes → Prop
  | full : FixDen fresh D [] [] b!"]"
  | close {v vs g} : Gap g → FixDen fresh D (v :: vs) (v :: vs) (g ++ b!"]")
  | last {v v' vs g1 t g2} : Gap g1 → Start t → D (fresh v) v' t → Gap g2 →
      FixDen fresh D (v :: vs) (v' :: vs) (g1 ++ t ++ g2 ++ b!"]")
  | more {v v' vs vs' g1 t g2 r} : Gap g1 → Start t → D (fresh v) v' t → Gap g2 → FixDen fresh D vs vs' r →
      FixDen fresh D (v :: vs) (v' :: vs') (g1 ++ t ++ g2 ++ c%',' :: r)

/-- Fixed-size arrays: `null` is `null` for every element. -/
def FixArrDen {α : Type} (fresh : α → α) (D : Den α) : Den (List α) := fun old new t =>
  (t = b!"null" ∧ All2 (fun v v' => D v v' b!"null") old new) ∨ ∃ r, t = c%'[' :: r ∧ FixDen fresh D old new r

/-- A dictionary entry. -/
def FieldDen {κ ν : Type} (DK : Den κ) (DV : Den ν) : Den (κ × ν) := fun v0 v t =>
  ∃ tk g1 g2 tv, t = tk ++ (g1 ++ c%':' :: (g2 ++ tv)) ∧ Gap g1 ∧ Gap g2 ∧ Start tv ∧ DK v0.1 v.1 tk ∧ DV v0.2 v.2 tv

/-! ### Structures -/

/-- A member with the denotation of its type. -/
structure DEntry (τ : Type) where
  entry : Entry τ
  den : Den entry.ref.α

/-- What the value of a member is read into: the member itself, or a fresh
variable for `member_p`. -/
def Entry.start {τ : Type} : (en : Entry τ) → τ → en.ref.α
  | .mem m, t => m.get t
  | .prop m, _ => m.ser.dflt

def DEntry.name {τ : Type} (d : DEntry τ) : Bytes := d.entry.ref.name

/-- Structure before, structure after, text of the member's value. -/
def DEntry.stores {τ : Type} (d : DEntry τ) : Den τ := fun t0 t1 s =>
  ∃ x, d.den (d.entry.start t0) x s ∧ t1 = d.entry.ref.set x t0

/-- What the items of a JSON object do to a structure. The first list is the
cursor: the members that have not been met in their order yet; `L` is the whole
list. The last argument is the cursor afterwards, `none` if the items after the
last member have been skipped. -/
inductive Run {τ : Type} (strict : Bool) (L : List (DEntry τ)) :
    List (DEntry τ) → List (Bytes × Bytes) → τ → τ → Option (List (DEntry τ)) → Prop
  | done {cur t} : Run strict L cur [] t t (some cur)
  /-- the next member in order -/
  | next {d cur s items t t1 t2 r} : d.stores t t1 s → Run strict L cur items t1 t2 r →
      Run strict L (d :: cur) ((d.name, s) :: items) t t2 r
  /-- another member: found, but the cursor stays -/
  | other {d d' cur s items t t1 t2 r} : d' ∈ L → d'.name ≠ d.name → d'.stores t t1 s →
      Run strict L (d :: cur) items t1 t2 r → Run strict L (d :: cur) ((d'.name, s) :: items) t t2 r
  /-- an unknown key -/
  | unknown {d cur k s items t t2 r} : strict = false → k ∉ L.map DEntry.name → Skippable (k, s) →
      Run strict L (d :: cur) items t t2 r → Run strict L (d :: cur) ((k, s) :: items) t t2 r
  /-- all members have been met: whatever follows is skipped -/
  | rest {x items t} : strict = false → (∀ y ∈ x :: items, Skippable y) → Run strict L [] (x :: items) t t none

/-- A JSON object with a comma after its last member. -/
inductive ObjTrail : List (Bytes × Bytes) → Bytes → Prop
  | mk {items r g} : ObjText items (r ++ b!"}") → items ≠ [] → Gap g → ObjTrail items (r ++ c%',' :: (g ++ b!"}"))

/-- The text of a JSON object up to the place where its next member starts. -/
inductive Opened : List (Bytes × Bytes) → Bytes → Prop
  | first {g} : Gap g → Opened [] (c%'{' :: g)
  | next {items r g} : ObjText items (r ++ b!"}") → items ≠ [] → Gap g → Opened items (r ++ c%',' :: g)

/-- Structures as JSON objects. `null` is the default value; `[]` and `{}`
change nothing; a comma after the last member is accepted when all members have
been met in their order and nothing has been skipped after them. -/
def ObjDen {τ : Type} (strict : Bool) (dflt : τ) (L : List (DEntry τ)) : Den τ := fun t0 t1 s =>
  (s = b!"null" ∧ t1 = dflt) ∨
  (∃ g, s = c%'[' :: (g ++ b!"]") ∧ Gap g ∧ t1 = t0) ∨
  (∃ items r, ObjText items s ∧ Run strict L L items t0 t1 r) ∨
  ∃ items, ObjTrail items s ∧ Run strict L L items t0 t1 (some [])

/-- The members one after the other get the values of the texts. -/
inductive Positional {τ : Type} : List (DEntry τ) → List Bytes → τ → τ → Prop
  | nil {t} : Positional [] [] t t
  | cons {d L s ss t t1 t2} : d.stores t t1 s → Positional L ss t1 t2 → Positional (d :: L) (s :: ss) t t2

/-- Structures as JSON arrays: the elements belong to the first members; a comma
after the last element is accepted if it belongs to the last member. -/
def ObjArrDen {τ : Type} (dflt : τ) (L : List (DEntry τ)) : Den τ := fun t0 t1 s =>
  (s = b!"null" ∧ t1 = dflt) ∨
  (∃ g, s = c%'[' :: (g ++ b!"]") ∧ Gap g ∧ t1 = t0) ∨
  (∃ L1 L2 ts r, L = L1 ++ L2 ∧ s = c%'[' :: r ∧ Items1 (fun v t => v = t) c%']' ts r ∧ Positional L1 ts t0 t1) ∨
  ∃ ts r g, s = c%'[' :: (r ++ g ++ b!"]") ∧ ts ≠ [] ∧ ItemsComma (fun v t => v = t) ts r ∧ Gap g ∧ Positional L ts t0 t1

/-! ### The denotation of a description -/

/-- `D` is the denotation of the description with serializer `S`. The family
contains every template except `member_if`. The flag is `false` for
descriptions that accept a truncated text at the very end of the input:
pointers and time intervals outside of containers and structures. -/
inductive Meaning (c : Cfg) : Bool → ∀ {α : Type}, Ser α → Den α → Prop
  | int {ty : IntTy} : ty.Std → Meaning c true (intSer c ty) (IntDen c ty)
  | bool : Meaning c true boolSer BoolDen
  | str : Meaning c true strSer StrDen
  | float {α : Type} {F : FloatTy α} {R : Int} : F.Local → Meaning c true (floatSer F R) (FloatDen F R)
  | enum {α : Type} [DecidableEq α] {strict : Bool} {dflt : α} {L : List (Bytes × α)} : (L.map Prod.fst).Nodup →
      Meaning c true (enumSer c strict dflt L) (EnumDen c strict dflt L)
  | flags {w : Nat} {F : Flags w} : F.list ≠ [] → (F.list.map Prod.fst).Nodup → GoodSep F.sep →
      (∀ y ∈ F.list, PlainName y.1 ∧ FlagWord F.sep y.1) → Meaning c true (flagsSer c F) (FlagsDen F.list F.sep F.strict)
  | chars {N : Nat} : Meaning c true (charArraySer N) (CharsDen N)
  | time {ty : IntTy} {fr : Int} : ty.Std → Meaning c false (timeSer c ty fr) (TimeDen c ty fr)
  | size {ty : IntTy} {metric : Int} : ty.Std → IntTy.long.InRange metric → metric ≠ 0 →
      Meaning c true (sizeSer c ty metric) (SizeDen c ty metric)
  | rawQuoted {serQ reqQ : Bool} : Meaning c true (rawQuotedSer c serQ reqQ) (RawQuotedDen reqQ)
  | quoted {f serQ reqQ : Bool} {α : Type} {S : Ser α} {D : Den α} : Meaning c f S D →
      Meaning c f (quotedSer S serQ reqQ) (QuotedDen S.de reqQ D)
  | pointer {f : Bool} {α : Type} {S : Ser α} {D : Den α} : Meaning c f S D →
      Meaning c false (pointerSer S) (PtrDen S.dflt D)
  | raw : Meaning c true (rawSer c) RawDen
  | memberValue {f : Bool} {τ α : Type} {dflt : τ} {get : τ → α} {set : α → τ → τ} {S : Ser α} {D : Den α} : Meaning c f S D →
      Meaning c f (memberValueSer dflt get set S) (PartDen get set D)
  /-- `array<vector<J>>` and the other containers -/
  | array {f : Bool} {α C : Type} {K : Coll α C} {S : Ser α} {D : Den α} : Meaning c f S D →
      Meaning c true (arraySer K S) (SeqDen K.clear K.insert S.dflt c%'[' c%']' D)
  /-- `array<std::array<J,N>>`: elements are read into a fresh variable -/
  | stdArray {f : Bool} {α : Type} {N : Nat} {S : Ser α} {D : Den α} : 1 ≤ N → Meaning c f S D →
      Meaning c true (fixSer .stdArray N S) (FixArrDen (fun _ => S.dflt) D)
  /-- `array<J[N]>`: elements are read in place -/
  | cArray {f : Bool} {α : Type} {N : Nat} {S : Ser α} {D : Den α} : 1 ≤ N → Meaning c f S D →
      Meaning c true (fixSer .cArray N S) (FixArrDen id D)
  | dict {f f' : Bool} {κ ν C : Type} {K : Coll (κ × ν) C} {SK : Ser κ} {SV : Ser ν} {DK : Den κ} {DV : Den ν} : Meaning c f SK DK →
      Meaning c f' SV DV →
      Meaning c true (dictSer K SK SV) (SeqDen K.clear K.insert (SK.dflt, SV.dflt) c%'{' c%'}' (FieldDen DK DV))
  | object {τ : Type} {f : DEntry τ → Bool} {strict : Bool} {dflt : τ} {L : List (DEntry τ)} : GoodNames (L.map DEntry.entry) →
      (∀ d ∈ L, Meaning c (f d) d.entry.ref.ser d.den) →
      Meaning c true (objectSer c strict dflt (L.map fun d => d.entry.toMember)) (ObjDen strict dflt L)
  | objectArray {τ : Type} {f : DEntry τ → Bool} {dflt : τ} {L : List (DEntry τ)} : (∀ d ∈ L, Meaning c (f d) d.entry.ref.ser d.den) →
      Meaning c true (objectArraySer dflt (L.map fun d => d.entry.toAMember)) (ObjArrDen dflt L)

/-- The descriptions whose readers are exact even at the end of the input. -/
abbrev Means (c : Cfg) {α : Type} (S : Ser α) (D : Den α) : Prop := Meaning c true S D

end Wjson
