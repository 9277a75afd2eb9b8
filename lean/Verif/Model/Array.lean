import Verif.Model.Parser
import Verif.Model.Sink
/-
Model of wjson/serializer/array.hpp and wjson/serializer/field.hpp:
sequences, fixed-size arrays, dictionaries.
-/
namespace Wjson

/-- What `array_base` / `dict_base` provide about a container
(wjson/specialization/array.hpp:57-163, wjson/specialization/dict.hpp:73-231):
`clear` is the container after `t.clear()`, `insert` the effect of
`*(bitr++) = tg` through its inserter, `elems` the sequence `begin()..end()`.
`reserve` has no observable effect and is left out. -/
structure Coll (α C : Type) where
  clear : C
  insert : C → α → C
  elems : C → List α

/-- `std::vector`, `std::deque`, `std::list`: back inserters,
wjson/specialization/array.hpp:57-91, dict.hpp:73-107. -/
def seqColl (α : Type) : Coll α (List α) := ⟨[], fun l x => l ++ [x], id⟩

/-- Insertion into a `std::set` given as a sorted list without equivalent
elements: an equivalent element is not inserted. The position hint of
`std::inserter` (wjson/specialization/array.hpp:112,124) has no influence on
the contents. `lt` is the comparison of the container. -/
def setInsert {α : Type} (lt : α → α → Bool) : List α → α → List α
  | [], x => [x]
  | y :: l, x => if lt x y then x :: y :: l else if lt y x then y :: setInsert lt l x else y :: l

/-- `std::set`, wjson/specialization/array.hpp:103-113. -/
def setColl (α : Type) (lt : α → α → Bool) : Coll α (List α) := ⟨[], setInsert lt, id⟩

/-- Insertion into a `std::multiset` given as a sorted list: after the
equivalent elements. (With the hint of `std::inserter` equivalent elements may
be placed elsewhere among their equals; for a comparison under which equivalent
elements are equal this cannot be observed.) -/
def multisetInsert {α : Type} (lt : α → α → Bool) : List α → α → List α
  | [], x => [x]
  | y :: l, x => if lt x y then x :: y :: l else y :: multisetInsert lt l x

/-- `std::multiset`, wjson/specialization/array.hpp:115-125. -/
def multisetColl (α : Type) (lt : α → α → Bool) : Coll α (List α) := ⟨[], multisetInsert lt, id⟩

/-- Insertion into a `std::map` given as a list sorted by key: an entry whose
key is present is not inserted. -/
def mapInsert {κ ν : Type} (lt : κ → κ → Bool) : List (κ × ν) → κ × ν → List (κ × ν) :=
  setInsert fun a b => lt a.1 b.1

/-- `std::map`, wjson/specialization/dict.hpp:133-147. -/
def mapColl (κ ν : Type) (lt : κ → κ → Bool) : Coll (κ × ν) (List (κ × ν)) := ⟨[], mapInsert lt, id⟩

/-- The loop of the generic `serializerA::operator()` (reading) and the code
after it, wjson/serializer/array.hpp:61-87. `R` is the closing bracket. After
`break` the two checks of lines 82-85 succeed. The first argument is the
recursion budget. `target tg;` is modelled by `S.dflt`. -/
def seqLoopF {α C : Type} (K : Coll α C) (S : Ser α) (R : Byte) : Nat → C → Bytes → EPtr → Out (C × Bytes × EPtr)
  | 0, _, _, _ => .fuel
  | n + 1, t, s, e =>
    match s with
    | [] => .ok (t, [], createError .UnexpectedEndFragment e)
    | _ :: _ =>
      let r := parseSpace s e
      match r.1 with
      | [] => .ok (t, [], createError .UnexpectedEndFragment r.2)
      | b :: p =>
        if b = R then .ok (t, p, r.2)
        else
          S.de S.dflt (b :: p) r.2 >>= fun d =>
          let t := K.insert t d.1
          let r := parseSpace d.2.1 d.2.2
          match r.1 with
          | [] => .ok (t, [], createError .UnexpectedEndFragment r.2)
          | b :: q =>
            if b = R then .ok (t, q, r.2)
            else if b ≠ c%',' then
              .ok (t, [], createError .ExpectedOf r.2 (some b!",") ((b :: q).length : Nat))
            else seqLoopF K S R n t q r.2

/-- `serializerA<T,L,R>::operator()(target_container&, P, P, json_error*)`,
wjson/serializer/array.hpp:44-88. -/
def deSeq {α C : Type} (K : Coll α C) (S : Ser α) (L R : Byte) : De C := fun _ s e =>
  if isNull s then
    let r := parseNull s e
    .ok (K.clear, r.1, r.2)
  else
    match s with
    | [] => .ok (K.clear, [], createError .UnexpectedEndFragment e)
    | b :: t =>
      if b ≠ L then .ok (K.clear, [], createError .ExpectedOf e (some [L]) ((b :: t).length : Nat))
      else seqLoopF K S R (t.length + 1) K.clear t e

/-- The loop of the writing operators, wjson/serializer/array.hpp:95-100,182-187,258-263. -/
def emitElems {α : Type} (S : Ser α) : List α → Sink → Out Sink
  | [], k => .ok k
  | [v], k => S.emit v k
  | v :: w :: l, k => S.emit v k >>= fun k => k.put c%',' >>= fun k => emitElems S (w :: l) k

/-- `serializerA<T,L,R>::operator()(const target_container&, P)`,
wjson/serializer/array.hpp:90-103. -/
def emitSeq {α C : Type} (K : Coll α C) (S : Ser α) (L R : Byte) : Emit C := fun t k =>
  k.put L >>= fun k => emitElems S (K.elems t) k >>= fun k => k.put R

/-- `array<Container<J>>::serializer` (`L,R` are `[` `]`) and
`dict<Container<...>>::serializer` (`{` `}`), wjson/serializer/array.hpp:106-110,
wjson/specialization/dict.hpp:80. -/
def seqSer {α C : Type} (K : Coll α C) (S : Ser α) (L R : Byte) : Ser C :=
  ⟨K.clear, emitSeq K S L R, deSeq K S L R⟩

/-- `array<vector<J>>` etc., wjson/serializer/array.hpp:106-110. -/
def arraySer {α C : Type} (K : Coll α C) (S : Ser α) : Ser C := seqSer K S c%'[' c%']'

/-! ### Fixed-size arrays -/

/-- The two specialisations for fixed-size arrays differ in the value the
element deserializer starts from (`target tg;` for `std::array`, the element
itself for `J[N]`) and in the message for a missing comma. -/
inductive FixKind where
  | stdArray
  | cArray
  deriving Repr, DecidableEq

/-- Message of wjson/serializer/array.hpp:164 (`""`) and :240 (`","`). -/
def FixKind.commaMsg : FixKind → Bytes
  | .stdArray => []
  | .cArray => b!","

/-- Start value: wjson/serializer/array.hpp:155-156 and :234. -/
def FixKind.start {α : Type} (k : FixKind) (S : Ser α) (v : α) : α :=
  match k with
  | .stdArray => S.dflt
  | .cArray => v

/-- `null` for every element, wjson/serializer/array.hpp:130-134 and 210-214.
The returned iterators are dropped. -/
def fixNull {α : Type} (S : Ser α) (s : Bytes) : List α → EPtr → Out (List α × EPtr)
  | [], e => .ok ([], e)
  | v :: vs, e =>
    S.de v s e >>= fun d => fixNull S s vs d.2.2 >>= fun r => .ok (d.1 :: r.1, r.2)

/-- The checks after the loop, wjson/serializer/array.hpp:168-173 and 243-249. -/
def fixClose {α : Type} (R : Byte) (t : List α) : Bytes → EPtr → Out (List α × Bytes × EPtr)
  | [], e => .ok (t, [], createError .UnexpectedEndFragment e)
  | b :: p, e =>
    if b ≠ R then .ok (t, [], createError .ExpectedOf e (some [R]) ((b :: p).length : Nat))
    else .ok (t, p, e)

/-- The loop for fixed-size arrays, wjson/serializer/array.hpp:147-166 and
227-242. The second argument is the part of the array from `bitr` on; the
result is the new contents of that part. The loop condition
`beg!=end && bitr!=eitr` is the pattern match. -/
def fixLoop {α : Type} (k : FixKind) (S : Ser α) (R : Byte) : List α → Bytes → EPtr → Out (List α × Bytes × EPtr)
  | [], s, e => fixClose R [] s e
  | v :: vs, s, e =>
    match s with
    | [] => fixClose R (v :: vs) [] e
    | _ :: _ =>
      let r := parseSpace s e
      match r.1 with
      | [] => .ok (v :: vs, [], createError .UnexpectedEndFragment r.2)
      | b :: p =>
        if b = R then fixClose R (v :: vs) (b :: p) r.2
        else
          S.de (k.start S v) (b :: p) r.2 >>= fun d =>
          let r := parseSpace d.2.1 d.2.2
          match r.1 with
          | [] => .ok (d.1 :: vs, [], createError .UnexpectedEndFragment r.2)
          | b :: q =>
            if b = R then fixClose R (d.1 :: vs) (b :: q) r.2
            else if b ≠ c%',' then
              .ok (d.1 :: vs, [], createError .ExpectedOf r.2 (some k.commaMsg) ((b :: q).length : Nat))
            else fixLoop k S R vs q r.2 >>= fun x => .ok (d.1 :: x.1, x.2)

/-- `serializerA<array_r<std::array<J,N>,..>>` and `serializerA<array_r<J[N],..>>`
(reading), wjson/serializer/array.hpp:125-174 and 205-250. The array is the
list of its `N` elements. -/
def deFix {α : Type} (k : FixKind) (S : Ser α) (L R : Byte) : De (List α) := fun t s e =>
  if isNull s then
    fixNull S s t e >>= fun x =>
    let r := parseNull s x.2
    .ok (x.1, r.1, r.2)
  else
    match s with
    | [] => .ok (t, [], createError .UnexpectedEndFragment e)
    | b :: p =>
      if b ≠ L then .ok (t, [], createError .ExpectedOf e (some [L]) ((b :: p).length : Nat))
      else fixLoop k S R t p e

/-- Writing of fixed-size arrays, wjson/serializer/array.hpp:176-190 and 252-266. -/
def emitFix {α : Type} (S : Ser α) (L R : Byte) : Emit (List α) := fun t k =>
  k.put L >>= fun k => emitElems S t k >>= fun k => k.put R

/-- `array<std::array<J,N>>::serializer`, `array<J[N]>::serializer`,
wjson/specialization/array.hpp:93-101 and 154-163. -/
def fixSer {α : Type} (k : FixKind) (N : Nat) (S : Ser α) : Ser (List α) :=
  ⟨List.replicate N S.dflt, emitFix S c%'[' c%']', deFix k S c%'[' c%']'⟩

/-- The same with the number of elements in the type. Reading never changes the
number of elements (`deFixVec_eq`), so the last branch is not reached. -/
def deFixVec {α : Type} {N : Nat} (k : FixKind) (S : Ser α) : De (Vector α N) := fun t s e =>
  deFix k S c%'[' c%']' t.toList s e >>= fun r =>
  if h : r.1.length = N then .ok (⟨r.1.toArray, by simpa using h⟩, r.2) else .ub

/-- `array<std::array<J,N>>::serializer`, `array<J[N]>::serializer`,
wjson/specialization/array.hpp:93-101 and 154-163, with the number of elements
in the type of the target. -/
def fixVecSer {α : Type} (k : FixKind) (N : Nat) (S : Ser α) : Ser (Vector α N) :=
  ⟨Vector.replicate N S.dflt, fun t => emitFix S c%'[' c%']' t.toList, deFixVec k S⟩

/-! ### Dictionary entries -/

/-- `serializerT<field<K,V>>` (writing), wjson/serializer/field.hpp:25-32. -/
def emitField {κ ν : Type} (SK : Ser κ) (SV : Ser ν) : Emit (κ × ν) := fun t k =>
  SK.emit t.1 k >>= fun k => k.put c%':' >>= fun k => SV.emit t.2 k

/-- `serializerT<field<K,V>>` (reading), wjson/serializer/field.hpp:34-48. -/
def deField {κ ν : Type} (SK : Ser κ) (SV : Ser ν) : De (κ × ν) := fun t s e =>
  SK.de t.1 s e >>= fun d =>
  let r := parseSpace d.2.1 d.2.2
  match r.1 with
  | [] => .ok ((d.1, t.2), [], createError .UnexpectedEndFragment r.2)
  | b :: p =>
    if b ≠ c%':' then
      .ok ((d.1, t.2), [], createError .ExpectedOf r.2 (some b!":") ((b :: p).length : Nat))
    else
      let r := parseSpace p r.2
      match r.1 with
      | [] => .ok ((d.1, t.2), [], createError .UnexpectedEndFragment r.2)
      | b :: p => SV.de t.2 (b :: p) r.2 >>= fun x => .ok ((d.1, x.1), x.2)

/-- `field<K,V>::serializer`, wjson/serializer/field.hpp:16-49. -/
def fieldSer {κ ν : Type} (SK : Ser κ) (SV : Ser ν) : Ser (κ × ν) :=
  ⟨(SK.dflt, SV.dflt), emitField SK SV, deField SK SV⟩

/-- `dict<Container>::serializer`, wjson/specialization/dict.hpp:73-250. -/
def dictSer {κ ν C : Type} (K : Coll (κ × ν) C) (SK : Ser κ) (SV : Ser ν) : Ser C :=
  seqSer K (fieldSer SK SV) c%'{' c%'}'

end Wjson
