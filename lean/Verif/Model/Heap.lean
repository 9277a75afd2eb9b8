import Verif.Model.Misc
import Verif.Model.Array
import Verif.Model.ObjectArray
/-
Pointers as addresses: the templates once more, over a heap.

In Model/Misc.lean a `pointer` holds the object it points to. Here the objects are in a heap, a list of cells, and a smart
pointer is the address of a cell: two pointers may hold the same address. A reader works on the target together with the heap;
a template that passes its target on to another description is the same function as before, with the pair in place of the target
(`quotedSer`, `deMember`, `membersF`, `deMemberIf`, `deAMembers`, …). What is defined here are the templates that create a target of
their own: they do it in the present heap.

Simplification: cells are not removed when the last pointer to them goes away. Nothing can be observed through a cell that no
pointer leads to.
-/
namespace Wjson

section
variable {C : Type}

/-- A target and the heap. -/
abbrev OnHeap (C α : Type) : Type := α × List C

/-- A description without pointers: it leaves the heap alone. -/
def heapLeaf {α : Type} (S : Ser α) : Ser (OnHeap C α) where
  dflt := (S.dflt, [])
  emit x k := S.emit x.1 k
  de x s e := S.de x.1 s e >>= fun d => .ok ((d.1, x.2), d.2)

/-- `pointer` (writing), wjson/serializer/pointer.hpp:19-31; `*ptr` at line 24 is undefined unless there is an object of
the type at the address. `unbox` finds the object in the cell. -/
def emitHPointer {α : Type} (unbox : C → Option α) (S : Ser (OnHeap C α)) : Emit (OnHeap C (Option Nat)) := fun x k =>
  match x.1 with
  | some a =>
    match x.2[a]?.bind unbox with
    | some v => S.emit (v, x.2) k
    | none => .ub
  | none =>
    k.preput c%'n' >>= fun k => k.preput c%'u' >>= fun k => k.preput c%'l' >>= fun k => k.preput c%'l'

/-- `pointer` (reading), wjson/serializer/pointer.hpp:35-50 (`new Type()`) and 52-67 (`make_shared<Type>()`): the new object is
in the heap before it is read; line 42 and line 59 read in place. -/
def deHPointer {α : Type} (box : α → C) (S : Ser (OnHeap C α)) : De (OnHeap C (Option Nat)) := fun x s e =>
  match s with
  | [] => .ok ((none, x.2), [], e)
  | b :: t =>
    if b ≠ c%'n' then
      S.de (S.dflt.1, x.2 ++ [box S.dflt.1]) (b :: t) e >>= fun r =>
      .ok ((some x.2.length, r.1.2.set x.2.length (box r.1.1)), r.2)
    else .ok ((none, x.2), (b :: t).drop 4, e)

/-- `pointer<T,J>::serializer`, wjson/serializer/pointer.hpp:15-70. -/
def heapPointer {α : Type} (box : α → C) (unbox : C → Option α) (S : Ser (OnHeap C α)) : Ser (OnHeap C (Option Nat)) :=
  ⟨(none, []), emitHPointer unbox S, deHPointer box S⟩

/-! ### Containers -/

/-- wjson/serializer/array.hpp:61-87 (`seqLoopF`). -/
def hseqLoopF {α D : Type} (K : Coll α D) (S : Ser (OnHeap C α)) (R : Byte) : Nat → OnHeap C D → Bytes → EPtr → Out (OnHeap C D × Bytes × EPtr)
  | 0, _, _, _ => .fuel
  | n + 1, x, s, e =>
    match s with
    | [] => .ok (x, [], createError .UnexpectedEndFragment e)
    | _ :: _ =>
      let r := parseSpace s e
      match r.1 with
      | [] => .ok (x, [], createError .UnexpectedEndFragment r.2)
      | b :: p =>
        if b = R then .ok (x, p, r.2)
        else
          S.de (S.dflt.1, x.2) (b :: p) r.2 >>= fun d =>
          let x := (K.insert x.1 d.1.1, d.1.2)
          let r := parseSpace d.2.1 d.2.2
          match r.1 with
          | [] => .ok (x, [], createError .UnexpectedEndFragment r.2)
          | b :: q =>
            if b = R then .ok (x, q, r.2)
            else if b ≠ c%',' then
              .ok (x, [], createError .ExpectedOf r.2 (some b!",") ((b :: q).length : Nat))
            else hseqLoopF K S R n x q r.2

/-- wjson/serializer/array.hpp:44-88 (`deSeq`). -/
def deHSeq {α D : Type} (K : Coll α D) (S : Ser (OnHeap C α)) (L R : Byte) : De (OnHeap C D) := fun x s e =>
  if isNull s then
    let r := parseNull s e
    .ok ((K.clear, x.2), r.1, r.2)
  else
    match s with
    | [] => .ok ((K.clear, x.2), [], createError .UnexpectedEndFragment e)
    | b :: t =>
      if b ≠ L then .ok ((K.clear, x.2), [], createError .ExpectedOf e (some [L]) ((b :: t).length : Nat))
      else hseqLoopF K S R (t.length + 1) (K.clear, x.2) t e

/-- wjson/serializer/array.hpp:90-103 (`emitSeq`), 106-110 (`seqSer`). -/
def heapSeq {α D : Type} (K : Coll α D) (S : Ser (OnHeap C α)) (L R : Byte) : Ser (OnHeap C D) where
  dflt := (K.clear, [])
  emit x k := k.put L >>= fun k => emitElems S ((K.elems x.1).map fun v => (v, x.2)) k >>= fun k => k.put R
  de := deHSeq K S L R

/-- `field<K,V>::serializer`, wjson/serializer/field.hpp:16-49 (`emitField`, `deField`). -/
def heapField {κ ν : Type} (SK : Ser (OnHeap C κ)) (SV : Ser (OnHeap C ν)) : Ser (OnHeap C (κ × ν)) where
  dflt := ((SK.dflt.1, SV.dflt.1), [])
  emit x k := SK.emit (x.1.1, x.2) k >>= fun k => k.put c%':' >>= fun k => SV.emit (x.1.2, x.2) k
  de x s e :=
    SK.de (x.1.1, x.2) s e >>= fun d =>
    let y := ((d.1.1, x.1.2), d.1.2)
    let r := parseSpace d.2.1 d.2.2
    match r.1 with
    | [] => .ok (y, [], createError .UnexpectedEndFragment r.2)
    | b :: p =>
      if b ≠ c%':' then
        .ok (y, [], createError .ExpectedOf r.2 (some b!":") ((b :: p).length : Nat))
      else
        let r := parseSpace p r.2
        match r.1 with
        | [] => .ok (y, [], createError .UnexpectedEndFragment r.2)
        | b :: p => SV.de (y.1.2, y.2) (b :: p) r.2 >>= fun z => .ok (((y.1.1, z.1.1), z.1.2), z.2)

/-! ### Fixed-size arrays -/

/-- wjson/serializer/array.hpp:127-136 and 207-215 (`fixNull`). -/
def hfixNull {α : Type} (S : Ser (OnHeap C α)) (s : Bytes) : List α → List C → EPtr → Out (OnHeap C (List α) × EPtr)
  | [], H, e => .ok (([], H), e)
  | v :: vs, H, e =>
    S.de (v, H) s e >>= fun d => hfixNull S s vs d.1.2 d.2.2 >>= fun r => .ok ((d.1.1 :: r.1.1, r.1.2), r.2)

/-- wjson/serializer/array.hpp:155-156 and :234 (`FixKind.start`). -/
def FixKind.hstart {α : Type} (k : FixKind) (S : Ser (OnHeap C α)) (v : α) : α :=
  match k with
  | .stdArray => S.dflt.1
  | .cArray => v

/-- wjson/serializer/array.hpp:147-173 and 227-249 (`fixLoop`). -/
def hfixLoop {α : Type} (k : FixKind) (S : Ser (OnHeap C α)) (R : Byte) : List α → List C → Bytes → EPtr → Out (OnHeap C (List α) × Bytes × EPtr)
  | [], H, s, e => fixClose R ([] : List α) s e >>= fun x => .ok ((x.1, H), x.2)
  | v :: vs, H, s, e =>
    match s with
    | [] => fixClose R (v :: vs) [] e >>= fun x => .ok ((x.1, H), x.2)
    | _ :: _ =>
      let r := parseSpace s e
      match r.1 with
      | [] => .ok ((v :: vs, H), [], createError .UnexpectedEndFragment r.2)
      | b :: p =>
        if b = R then fixClose R (v :: vs) (b :: p) r.2 >>= fun x => .ok ((x.1, H), x.2)
        else
          S.de (k.hstart S v, H) (b :: p) r.2 >>= fun d =>
          let r := parseSpace d.2.1 d.2.2
          match r.1 with
          | [] => .ok ((d.1.1 :: vs, d.1.2), [], createError .UnexpectedEndFragment r.2)
          | b :: q =>
            if b = R then fixClose R (d.1.1 :: vs) (b :: q) r.2 >>= fun x => .ok ((x.1, d.1.2), x.2)
            else if b ≠ c%',' then
              .ok ((d.1.1 :: vs, d.1.2), [], createError .ExpectedOf r.2 (some k.commaMsg) ((b :: q).length : Nat))
            else hfixLoop k S R vs d.1.2 q r.2 >>= fun x => .ok ((d.1.1 :: x.1.1, x.1.2), x.2)

/-- wjson/serializer/array.hpp:125-174 and 205-250 (`deFix`). -/
def deHFix {α : Type} (k : FixKind) (S : Ser (OnHeap C α)) (L R : Byte) : De (OnHeap C (List α)) := fun x s e =>
  if isNull s then
    hfixNull S s x.1 x.2 e >>= fun y =>
    let r := parseNull s y.2
    .ok (y.1, r.1, r.2)
  else
    match s with
    | [] => .ok (x, [], createError .UnexpectedEndFragment e)
    | b :: p =>
      if b ≠ L then .ok (x, [], createError .ExpectedOf e (some [L]) ((b :: p).length : Nat))
      else hfixLoop k S R x.1 x.2 p e

/-- wjson/specialization/array.hpp:93-101 and 154-163 (`fixSer`). -/
def heapFix {α : Type} (k : FixKind) (N : Nat) (S : Ser (OnHeap C α)) : Ser (OnHeap C (List α)) where
  dflt := (List.replicate N S.dflt.1, [])
  emit x := emitFix S c%'[' c%']' (x.1.map fun v => (v, x.2))
  de := deHFix k S c%'[' c%']'

/-! ### Structures -/

/-- A part of a structure together with the heap. -/
def heapRef {τ α : Type} (name : Bytes) (get : τ → α) (set : α → τ → τ) (S : Ser (OnHeap C α)) : MRef (OnHeap C τ) where
  name := name
  get x := (get x.1, x.2)
  set y x := (set y.1 x.1, y.2)
  ser := S

/-- `member_value<T,V,M,m,W>::serializer`, wjson/serializer/member_value.hpp:11-26. -/
def heapMemberValue {τ α : Type} (dflt : τ) (get : τ → α) (set : α → τ → τ) (S : Ser (OnHeap C α)) : Ser (OnHeap C τ) :=
  memberValueSer (dflt, []) (fun x => (get x.1, x.2)) (fun y x => (set y.1 x.1, y.2)) S

/-- `unserialize_member` for `member_p`, wjson/serializer/object.hpp:295-306: `M()` is made in the present heap. -/
def deHMemberP {τ α : Type} (name : Bytes) (set : α → τ → τ) (S : Ser (OnHeap C α)) (x : OnHeap C τ) (s : Bytes) (e : EPtr) (u : Bool) :
    Out (OnHeap C τ × Bytes × EPtr × Bool) :=
  let r := memberName name s e u
  if !r.2.2 then .ok (x, r)
  else S.de (S.dflt.1, x.2) r.1 r.2.1 >>= fun d => .ok ((set d.1.1 x.1, d.1.2), d.2.1, d.2.2, true)

/-- The same in an `object_array`, wjson/serializer/object_array.hpp:186-194. -/
def deHAMemberP {τ α : Type} (set : α → τ → τ) (S : Ser (OnHeap C α)) : De (OnHeap C τ) := fun x s e =>
  S.de (S.dflt.1, x.2) s e >>= fun d => .ok ((set d.1.1 x.1, d.1.2), d.2)

/-- Reading an object, wjson/serializer/object.hpp:31-79 (`deObject`): `t = T()` at line 35 is made in the present heap, everything
else is as before. -/
def deHObject {τ : Type} (c : Cfg) (strict : Bool) (dflt : τ) (L : List (Member (OnHeap C τ))) : De (OnHeap C τ) := fun x s e =>
  deObject c strict (dflt, x.2) L x s e

/-- `object<T,L,Mode>::serializer`, wjson/serializer/object.hpp:15-338. -/
def heapObject {τ : Type} (c : Cfg) (strict : Bool) (dflt : τ) (L : List (Member (OnHeap C τ))) : Ser (OnHeap C τ) :=
  ⟨(dflt, []), emitObject L, deHObject c strict dflt L⟩

/-- `object_array<T,L>::serializer`, wjson/serializer/object_array.hpp:15-229 (`deObjectArray`), likewise. -/
def heapObjectArray {τ : Type} (dflt : τ) (L : List (AMember (OnHeap C τ))) : Ser (OnHeap C τ) :=
  ⟨(dflt, []), emitObjectArray L, fun x s e => deObjectArray (dflt, x.2) L x s e⟩

end

end Wjson
