import Verif.Model.Frames
import Verif.Spec.Described
/-
Specification for C81: each description with its reader on a bounded stack.
-/
namespace Wjson.Spec

/-- The descriptions of values without parts. What their readers call does not depend on the text (at most the reader of a
string or of a number) and is not counted. -/
inductive Scalar (c : Cfg) : ∀ {α : Type}, Ser α → Prop
  | int (ty : IntTy) : Scalar c (intSer c ty)
  | bool : Scalar c boolSer
  | str : Scalar c strSer
  | chars (N : Nat) : Scalar c (charArraySer N)
  | float {α : Type} (F : FloatTy α) (R : Int) : Scalar c (floatSer F R)
  | enum {α : Type} [DecidableEq α] (strict : Bool) (dflt : α) (L : List (Bytes × α)) : Scalar c (enumSer c strict dflt L)
  | flags {w : Nat} (F : Flags w) : Scalar c (flagsSer c F)
  | time (ty : IntTy) (fr : Int) : Scalar c (timeSer c ty fr)
  | size (ty : IntTy) (metric : Int) : Scalar c (sizeSer c ty metric)

mutual

/-- `Framed c S D h a`: `D` is the reader of the description `S` on a bounded stack, `h` is the number of
readers that are nested in the description, counted in frames, and `a` is 1 if the description has parts for which
the number of frames depends on the text (raw values and objects), else 0 (or any larger numbers). -/
inductive Framed (c : Cfg) : ∀ {α : Type}, Ser α → (Nat → De α) → Nat → Nat → Prop
  | scalar {α : Type} {S : Ser α} : Scalar c S → Framed c S (nextFrame fun _ => S.de) 0 0
  | raw : Framed c (rawSer c) (nextFrame fun k => deRawT (valueD c k)) 1 1
  | rawQuoted (serQ reqQ : Bool) : Framed c (rawQuotedSer c serQ reqQ) (nextFrame fun k => deRawQuotedT (valueD c k) reqQ) 1 1
  | quoted {α : Type} {S : Ser α} {D : Nat → De α} {h a : Nat} (serQ reqQ : Bool) : Framed c S D h a →
      Framed c (quotedSer S serQ reqQ) (nextFrame fun k => deQuoted (S.withReader (D k)) reqQ) (h + 1) a
  | pointer {α : Type} {S : Ser α} {D : Nat → De α} {h a : Nat} : Framed c S D h a →
      Framed c (pointerSer S) (nextFrame fun k => dePointer (S.withReader (D k))) (h + 1) a
  | memberValue {τ α : Type} {S : Ser α} {D : Nat → De α} {h a : Nat} (dflt : τ) (get : τ → α) (set : α → τ → τ) : Framed c S D h a →
      Framed c (memberValueSer dflt get set S) (nextFrame fun k => (memberValueSer dflt get set (S.withReader (D k))).de) (h + 1) a
  | array {α C : Type} {S : Ser α} {D : Nat → De α} {h a : Nat} (K : Coll α C) : Framed c S D h a →
      Framed c (arraySer K S) (nextFrame fun k => (arraySer K (S.withReader (D k))).de) (h + 1) a
  | fixed {α : Type} {S : Ser α} {D : Nat → De α} {h a : Nat} (kind : FixKind) (N : Nat) : 1 ≤ N → Framed c S D h a →
      Framed c (fixSer kind N S) (nextFrame fun k => (fixSer kind N (S.withReader (D k))).de) (h + 1) a
  | field {κ ν : Type} {SK : Ser κ} {SV : Ser ν} {DK : Nat → De κ} {DV : Nat → De ν} {h a : Nat} : Framed c SK DK h a →
      Framed c SV DV h a →
      Framed c (fieldSer SK SV) (nextFrame fun k => deField (SK.withReader (DK k)) (SV.withReader (DV k))) (h + 1) a
  /-- the entries are read by the reader of `field` -/
  | dict {κ ν C : Type} {SK : Ser κ} {SV : Ser ν} {D : Nat → De (κ × ν)} {h a : Nat} (K : Coll (κ × ν) C) :
      Framed c (fieldSer SK SV) D h a →
      Framed c (dictSer K SK SV) (nextFrame fun k => (seqSer K ((fieldSer SK SV).withReader (D k)) c%'{' c%'}').de) (h + 1) a
  | object {τ ι : Type} {h : Nat} (strict : Bool) (dflt : τ) (is : List ι) (F : ι → Member τ) (M : ι → Nat → Member τ) :
      (∀ i ∈ is, FramedM c (F i) (M i) h 1) →
      Framed c (objectSer c strict dflt (is.map F)) (nextFrame fun k => deObjectT c strict dflt (fun k => is.map fun i => M i k) k) (h + 2) 1
  | objectArray {τ ι : Type} {h a : Nat} (dflt : τ) (is : List ι) (F : ι → AMember τ) (M : ι → Nat → AMember τ) :
      (∀ i ∈ is, FramedA c (F i) (M i) h a) →
      Framed c (objectArraySer dflt (is.map F)) (nextFrame fun k => deObjectArray dflt (is.map fun i => M i k)) (h + 1) a
  | mono {α : Type} {S : Ser α} {D : Nat → De α} {h a h' a' : Nat} : Framed c S D h a → h ≤ h' → a ≤ a' → Framed c S D h' a'

/-- The same for the members of an object. A `member_if` also reads the text `null`. -/
inductive FramedM (c : Cfg) : ∀ {τ : Type}, Member τ → (Nat → Member τ) → Nat → Nat → Prop
  | member {τ : Type} {h a : Nat} (m : MRef τ) {D : Nat → De m.α} : Framed c m.ser D h a →
      FramedM c (member m) (fun k => member (m.withReader (D k))) h a
  | memberP {τ : Type} {h a : Nat} (m : MRef τ) {D : Nat → De m.α} : Framed c m.ser D h a →
      FramedM c (memberP m) (fun k => memberP (m.withReader (D k))) h a
  | memberIf {τ : Type} {h a : Nat} (l r : MRef τ) {Dl : Nat → De l.α} {Dr : Nat → De r.α} (isDflt : l.α → Bool) (RU : Bool) :
      Framed c l.ser Dl h a → Framed c r.ser Dr h a →
      FramedM c (memberIf l r isDflt RU) (fun k => memberIf (l.withReader (Dl k)) (r.withReader (Dr k)) isDflt RU) (h + 4 * a) a
  | mono {τ : Type} {m : Member τ} {M : Nat → Member τ} {h a h' a' : Nat} : FramedM c m M h a → h ≤ h' → a ≤ a' → FramedM c m M h' a'

/-- The same for the members of a structure written as an array. -/
inductive FramedA (c : Cfg) : ∀ {τ : Type}, AMember τ → (Nat → AMember τ) → Nat → Nat → Prop
  | member {τ : Type} {h a : Nat} (m : MRef τ) {D : Nat → De m.α} : Framed c m.ser D h a →
      FramedA c (amember m) (fun k => amember (m.withReader (D k))) h a
  | memberP {τ : Type} {h a : Nat} (m : MRef τ) {D : Nat → De m.α} : Framed c m.ser D h a →
      FramedA c (amemberP m) (fun k => amemberP (m.withReader (D k))) h a
  | memberIf {τ : Type} {h a : Nat} (l r : MRef τ) {Dl : Nat → De l.α} {Dr : Nat → De r.α} (isDflt : l.α → Bool) (RU : Bool) :
      Framed c l.ser Dl h a → Framed c r.ser Dr h a →
      FramedA c (amemberIf l r isDflt RU) (fun k => amemberIf (l.withReader (Dl k)) (r.withReader (Dr k)) isDflt RU) (h + 4 * a) a
  | mono {τ : Type} {m : AMember τ} {M : Nat → AMember τ} {h a h' a' : Nat} : FramedA c m M h a → h ≤ h' → a ≤ a' → FramedA c m M h' a'

end

end Wjson.Spec
