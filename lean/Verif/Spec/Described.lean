import Verif.Model.Integer
import Verif.Model.Str
import Verif.Model.Float
import Verif.Model.Array
import Verif.Model.Object
import Verif.Model.ObjectArray
import Verif.Model.Enum
import Verif.Model.Misc
import Verif.Model.Units
/-
The descriptions a user can write: the smallest family of serializers closed
under the templates of wjson.
-/
namespace Wjson

/-- Building blocks that some properties exclude: `time_interval` and
`size_value`, `pointer`, `raw_quoted`, `quoted`. -/
structure Features where
  units : Bool
  pointers : Bool
  rawQuoted : Bool
  quotes : Bool

/-- Everything. -/
def Features.all : Features := ⟨true, true, true, true⟩

mutual

/-- `S` is the serializer of some description, built from the templates of
wjson/json.hpp to any depth. -/
inductive Described (c : Cfg) (f : Features) : ∀ {α : Type}, Ser α → Prop
  /-- `value<int>` and the other integer types -/
  | int (ty : IntTy) : Described c f (intSer c ty)
  /-- `value<bool>` -/
  | bool : Described c f boolSer
  /-- `value<std::string>`, `value<std::vector<char>>` -/
  | str : Described c f strSer
  /-- `value<char[N]>` -/
  | chars (N : Nat) : Described c f (charArraySer N)
  /-- `value<double,R>`, `value<float,R>` -/
  | float {α : Type} (F : FloatTy α) (R : Int) : Described c f (floatSer F R)
  /-- `enumerator` -/
  | enum {α : Type} [DecidableEq α] (strict : Bool) (dflt : α) (L : List (Bytes × α)) :
      Described c f (enumSer c strict dflt L)
  /-- `flags` -/
  | flags {w : Nat} (F : Flags w) : Described c f (flagsSer c F)
  /-- `raw_value`, `iterator_pair` -/
  | raw : Described c f (rawSer c)
  /-- `raw_quoted` -/
  | rawQuoted (serQ reqQ : Bool) : f.rawQuoted = true → Described c f (rawQuotedSer c serQ reqQ)
  /-- `quoted` -/
  | quoted {α : Type} {S : Ser α} (serQ reqQ : Bool) : f.quotes = true → Described c f S →
      Described c f (quotedSer S serQ reqQ)
  /-- `pointer` -/
  | pointer {α : Type} {S : Ser α} : f.pointers = true → Described c f S → Described c f (pointerSer S)
  /-- `member_value` -/
  | memberValue {τ α : Type} (dflt : τ) (get : τ → α) (set : α → τ → τ) {S : Ser α} :
      Described c f S → Described c f (memberValueSer dflt get set S)
  /-- `array<vector<J>>` and the other containers -/
  | array {α C : Type} (K : Coll α C) {S : Ser α} : Described c f S → Described c f (arraySer K S)
  /-- `array<std::array<J,N>>`, `array<J[N]>` -/
  | fixed {α : Type} (k : FixKind) (N : Nat) {S : Ser α} : 1 ≤ N → Described c f S → Described c f (fixSer k N S)
  /-- `field` -/
  | field {κ ν : Type} {SK : Ser κ} {SV : Ser ν} : Described c f SK → Described c f SV →
      Described c f (fieldSer SK SV)
  /-- `dict` -/
  | dict {κ ν C : Type} (K : Coll (κ × ν) C) {SK : Ser κ} {SV : Ser ν} : Described c f SK → Described c f SV →
      Described c f (dictSer K SK SV)
  /-- `object` -/
  | object {τ : Type} (strict : Bool) (dflt : τ) (L : List (Member τ)) : (∀ m ∈ L, DescribedM c f m) →
      Described c f (objectSer c strict dflt L)
  /-- `object_array` -/
  | objectArray {τ : Type} (dflt : τ) (L : List (AMember τ)) : (∀ m ∈ L, DescribedA c f m) →
      Described c f (objectArraySer dflt L)
  /-- `time_interval` -/
  | time (ty : IntTy) (fr : Int) : f.units = true → Described c f (timeSer c ty fr)
  /-- `size_value` -/
  | size (ty : IntTy) (metric : Int) : f.units = true → Described c f (sizeSer c ty metric)

/-- Entries of the member list of an `object`. -/
inductive DescribedM (c : Cfg) (f : Features) : ∀ {τ : Type}, Member τ → Prop
  | member {τ : Type} (m : MRef τ) : Described c f m.ser → DescribedM c f (member m)
  | memberP {τ : Type} (m : MRef τ) : Described c f m.ser → DescribedM c f (memberP m)
  | memberIf {τ : Type} (l r : MRef τ) (isDflt : l.α → Bool) (RU : Bool) : Described c f l.ser →
      Described c f r.ser → DescribedM c f (memberIf l r isDflt RU)

/-- Entries of the member list of an `object_array`. -/
inductive DescribedA (c : Cfg) (f : Features) : ∀ {τ : Type}, AMember τ → Prop
  | member {τ : Type} (m : MRef τ) : Described c f m.ser → DescribedA c f (amember m)
  | memberP {τ : Type} (m : MRef τ) : Described c f m.ser → DescribedA c f (amemberP m)
  | memberIf {τ : Type} (l r : MRef τ) (isDflt : l.α → Bool) (RU : Bool) : Described c f l.ser →
      Described c f r.ser → DescribedA c f (amemberIf l r isDflt RU)

end

end Wjson
