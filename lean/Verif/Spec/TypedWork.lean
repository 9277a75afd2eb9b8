import Verif.Model.TypedWork
/-
Specification for C78: which counted reader belongs to which description.
-/
namespace Wjson.Spec

/-- `Counted c S W`: `S` is a description and `W` its read operator with the count of its work.
Every description except `member_if`; an entry of a dictionary occurs only in a dictionary. -/
inductive Counted (c : Cfg) : {α : Type} → Ser α → DeW α → Prop
  | int (ty : IntTy) : Counted c (intSer c ty) (deIntW c ty)
  | bool : Counted c boolSer deBoolW
  | float {α : Type} (F : FloatTy α) (R : Int) : Counted c (floatSer F R) (deFloatW F R)
  | str : Counted c strSer deStrW
  | chars (N : Nat) : Counted c (charArraySer N) (deCharArrayW N)
  | enum {α : Type} [DecidableEq α] (strict : Bool) (dflt : α) (L : List (Bytes × α)) :
      Counted c (enumSer c strict dflt L) (deEnumW c strict dflt L)
  | flags {w : Nat} (G : Flags w) : Counted c (flagsSer c G) (deFlagsW c G)
  | time (ty : IntTy) (fr : Int) : Counted c (timeSer c ty fr) (deTimeW c ty fr)
  | size (ty : IntTy) (metric : Int) : Counted c (sizeSer c ty metric) (deSizeW c ty metric)
  | raw : Counted c (rawSer c) (deRawW c)
  | rawQuoted (serQ reqQ : Bool) : Counted c (rawQuotedSer c serQ reqQ) (deRawQuotedW c reqQ)
  | quoted {α : Type} {S : Ser α} {W : DeW α} (serQ reqQ : Bool) : Counted c S W →
      Counted c (quotedSer S serQ reqQ) (deQuotedW W reqQ)
  | pointer {α : Type} {S : Ser α} {W : DeW α} : Counted c S W → Counted c (pointerSer S) (dePointerW S W)
  | memberValue {τ α : Type} {S : Ser α} {W : DeW α} (dflt : τ) (get : τ → α) (set : α → τ → τ) : Counted c S W →
      Counted c (memberValueSer dflt get set S) (deMemberValueW get set W)
  | array {α C : Type} {S : Ser α} {W : DeW α} (K : Coll α C) : Counted c S W →
      Counted c (arraySer K S) (deSeqW K S W c%'[' c%']')
  | dict {κ ν C : Type} {SK : Ser κ} {SV : Ser ν} {WK : DeW κ} {WV : DeW ν} (K : Coll (κ × ν) C) :
      Counted c SK WK → Counted c SV WV →
      Counted c (dictSer K SK SV) (deSeqW K (fieldSer SK SV) (deFieldW WK WV) c%'{' c%'}')
  | fixed {α : Type} {S : Ser α} {W : DeW α} (k : FixKind) (N : Nat) : Counted c S W →
      Counted c (fixVecSer k N S) (deFixVecW k S W)
  | object {τ : Type} {L : List (WEntry τ)} (strict : Bool) (dflt : τ) :
      (∀ x ∈ L, Counted c x.entry.ref.ser x.work) →
      Counted c (objectSer c strict dflt (L.map fun x => x.entry.toMember)) (deObjectW c strict dflt (L.map WEntry.de))
  | objectArray {τ : Type} {L : List (WEntry τ)} (dflt : τ) :
      (∀ x ∈ L, Counted c x.entry.ref.ser x.work) →
      Counted c (objectArraySer dflt (L.map fun x => x.entry.toAMember)) (deObjectArrayW dflt (L.map WEntry.deA))

end Wjson.Spec

namespace Wjson

/-! An array of structures with a `member_if`, flags or else a string, and texts for it on which
the work is not linear. -/

/-- The rest of `[["/*"],["/*"],…,["/*"]]` from the element that is followed by `n` others. -/
def pathsTail : Nat → Bytes
  | 0 => b!"[\"/*\"]]"
  | n + 1 => b!"[\"/*\"]," ++ pathsTail n

/-- `[["/*"],["/*"],…,["/*"]]` with `n + 1` elements. -/
def pathsText (n : Nat) : Bytes := c%'[' :: pathsTail n

/-- The flags, tried first: one flag `a`. -/
def pathsFlags : MRef (BitVec 8 × Bytes) :=
  ⟨b!"f", (·.1), fun v t => (v, t.2), flagsSer .strict ⟨[(b!"a", 1)], c%'|', true⟩⟩

/-- The string. -/
def pathsStr : MRef (BitVec 8 × Bytes) := ⟨b!"s", (·.2), fun v t => (t.1, v), strSer⟩

/-- An element: flags or a string. -/
def pathsSer : Ser (BitVec 8 × Bytes) :=
  objectArraySer (0, []) [amemberIf pathsFlags pathsStr (fun v : BitVec 8 => v == 0) false]

/-- Its counted reader. -/
def pathsW : DeW (BitVec 8 × Bytes) :=
  deObjectArrayW (0, [])
    [deAMemberIfW pathsFlags pathsStr (deFlagsW .strict ⟨[(b!"a", 1)], c%'|', true⟩) deStrW]

end Wjson
