import Verif.Spec.Reuse
import Verif.Spec.Described
/-
Specification for C80: the element variables of containers and of `std::array`. They are declared
without a value (`target tg;`, wjson/serializer/array.hpp:67 and 155); for numbers, enumerations and
structures without a constructor the standard leaves their contents undetermined.
-/
namespace Wjson.Spec

/-- The description `S` for a variable that holds `u s` at the moment the text `s` is to be read into it.
`u` is arbitrary: it stands for whatever lies in the memory of the variable. -/
def _root_.Wjson.Ser.startingFrom {α : Type} (S : Ser α) (u : Bytes → α) : Ser α :=
  { S with de := fun _ s e => S.de (u s) s e }

mutual

/-- `AnyStart c S S'`: `S'` is the description `S` run with arbitrary contents of the element variables of its
containers and `std::array`s, at any depth. Required of such elements: that they are values, strings,
containers, dictionaries or pointers (`Overwrites`). -/
inductive AnyStart (c : Cfg) : ∀ {α : Type}, Ser α → Ser α → Prop
  | same {α : Type} (S : Ser α) : AnyStart c S S
  | array {α C : Type} {K : Coll α C} {S S' : Ser α} (u : Bytes → α) : Overwrites c S → AnyStart c S S' →
      AnyStart c (arraySer K S) (arraySer K (S'.startingFrom u))
  | stdArray {α : Type} {N : Nat} {S S' : Ser α} (u : Bytes → α) : Overwrites c S → AnyStart c S S' →
      AnyStart c (fixVecSer .stdArray N S) ⟨Vector.replicate N S'.dflt, fun t => emitFix S' c%'[' c%']' t.toList,
        fun t s e => if isNull s then deFixVec .stdArray S' t s e else deFixVec .stdArray (S'.startingFrom u) t s e⟩
  | cArray {α : Type} {N : Nat} {S S' : Ser α} : AnyStart c S S' →
      AnyStart c (fixVecSer .cArray N S) (fixVecSer .cArray N S')
  | dict {κ ν C : Type} {K : Coll (κ × ν) C} {SK SK' : Ser κ} {SV SV' : Ser ν} : AnyStart c SK SK' →
      AnyStart c SV SV' → AnyStart c (dictSer K SK SV) (dictSer K SK' SV')
  | pointer {α : Type} {S S' : Ser α} : AnyStart c S S' → AnyStart c (pointerSer S) (pointerSer S')
  | quoted {α : Type} {S S' : Ser α} {serQ reqQ : Bool} : AnyStart c S S' →
      AnyStart c (quotedSer S serQ reqQ) (quotedSer S' serQ reqQ)
  | memberValue {τ α : Type} {dflt : τ} {get : τ → α} {set : α → τ → τ} {S S' : Ser α} : AnyStart c S S' →
      AnyStart c (memberValueSer dflt get set S) (memberValueSer dflt get set S')
  | object {τ ι : Type} {strict : Bool} {dflt : τ} (is : List ι) (F F' : ι → Member τ) :
      (∀ i ∈ is, AnyStartM c (F i) (F' i)) →
      AnyStart c (objectSer c strict dflt (is.map F)) (objectSer c strict dflt (is.map F'))
  | objectArray {τ ι : Type} {dflt : τ} (is : List ι) (F F' : ι → AMember τ) :
      (∀ i ∈ is, AnyStartA c (F i) (F' i)) →
      AnyStart c (objectArraySer dflt (is.map F)) (objectArraySer dflt (is.map F'))

/-- The same for the members of a structure. -/
inductive AnyStartM (c : Cfg) : ∀ {τ : Type}, Member τ → Member τ → Prop
  | member {τ : Type} (m : MRef τ) {S' : Ser m.α} : AnyStart c m.ser S' →
      AnyStartM c (member m) (member { m with ser := S' })
  | memberP {τ : Type} (m : MRef τ) {S' : Ser m.α} : AnyStart c m.ser S' →
      AnyStartM c (memberP m) (memberP { m with ser := S' })
  | memberIf {τ : Type} (l r : MRef τ) {Sl : Ser l.α} {Sr : Ser r.α} (isDflt : l.α → Bool) (RU : Bool) :
      AnyStart c l.ser Sl → AnyStart c r.ser Sr →
      AnyStartM c (memberIf l r isDflt RU) (memberIf { l with ser := Sl } { r with ser := Sr } isDflt RU)

/-- The same for the members of a structure written as an array. -/
inductive AnyStartA (c : Cfg) : ∀ {τ : Type}, AMember τ → AMember τ → Prop
  | member {τ : Type} (m : MRef τ) {S' : Ser m.α} : AnyStart c m.ser S' →
      AnyStartA c (amember m) (amember { m with ser := S' })
  | memberP {τ : Type} (m : MRef τ) {S' : Ser m.α} : AnyStart c m.ser S' →
      AnyStartA c (amemberP m) (amemberP { m with ser := S' })
  | memberIf {τ : Type} (l r : MRef τ) {Sl : Ser l.α} {Sr : Ser r.α} (isDflt : l.α → Bool) (RU : Bool) :
      AnyStart c l.ser Sl → AnyStart c r.ser Sr →
      AnyStartA c (amemberIf l r isDflt RU) (amemberIf { l with ser := Sl } { r with ser := Sr } isDflt RU)

end

/-- `FullStart c f S S'`: the same for elements that may also be floating point numbers and quoted values. -/
inductive FullStart (c : Cfg) (f : Features) : ∀ {α : Type}, Ser α → Ser α → Prop
  | same {α : Type} {S : Ser α} : Replaces c S → Described c f S → FullStart c f S S
  | array {α C : Type} {K : Coll α C} {S S' : Ser α} (u : Bytes → α) : FullStart c f S S' →
      FullStart c f (arraySer K S) (arraySer K (S'.startingFrom u))
  | dict {κ ν C : Type} {K : Coll (κ × ν) C} {SK SK' : Ser κ} {SV SV' : Ser ν} : FullStart c f SK SK' →
      FullStart c f SV SV' → FullStart c f (dictSer K SK SV) (dictSer K SK' SV')
  | pointer {α : Type} {S S' : Ser α} : FullStart c f S S' → FullStart c f (pointerSer S) (pointerSer S')

end Wjson.Spec
