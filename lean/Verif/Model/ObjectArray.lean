import Verif.Model.Object
/-
Model of wjson/serializer/object_array.hpp.
-/
namespace Wjson

/-- One entry of the member list of `object_array<T,L>`: `serialize_member` and
`unserialize_member`. -/
structure AMember (τ : Type) where
  emit : τ → Sink → Out Sink
  de : De τ

/-- `member` and `member_array` as entries: wjson/serializer/object_array.hpp:94-106
(writing), 171-184 (reading in place). -/
def amember {τ : Type} (m : MRef τ) : AMember τ where
  emit t k := m.ser.emit (m.get t) k
  de t s e := m.ser.de (m.get t) s e >>= fun d => .ok (m.set d.1 t, d.2)

/-- `member_p` as an entry: wjson/serializer/object_array.hpp:108-113 (writing),
186-194 (reading into a fresh `M()`). -/
def amemberP {τ : Type} (m : MRef τ) : AMember τ where
  emit t k := m.ser.emit (m.get t) k
  de t s e := m.ser.de m.ser.dflt s e >>= fun d => .ok (m.set d.1 t, d.2)

def Entry.toAMember {τ : Type} : Entry τ → AMember τ
  | .mem m => amember m
  | .prop m => amemberP m

/-- `unserialize_member` for `member_if`, wjson/serializer/object_array.hpp:197-227;
`a` is tried first. -/
def deAMemberIf {τ : Type} (a b : MRef τ) : De τ := fun t s e =>
  (amember a).de t s .fresh >>= fun d =>
  if !d.2.2.failed then readNull b d.1 >>= fun t => .ok (t, d.2.1, e)
  else readNull a d.1 >>= fun t => (amember b).de t s e

/-- `member_if<ML,MR,RU>` as an entry; writing: wjson/serializer/object_array.hpp:115-122. -/
def amemberIf {τ : Type} (l r : MRef τ) (isDflt : l.α → Bool) (RU : Bool) : AMember τ where
  emit t k := if !isDflt (l.get t) then l.ser.emit (l.get t) k else r.ser.emit (r.get t) k
  de := if RU then deAMemberIf r l else deAMemberIf l r

/-- `serialize_members`, wjson/serializer/object_array.hpp:74-92. -/
def emitAMembers {τ : Type} : List (AMember τ) → τ → Sink → Out Sink
  | [], _, k => .ok k
  | [m], t, k => m.emit t k
  | m :: m' :: l, t, k => m.emit t k >>= fun k => k.put c%',' >>= fun k => emitAMembers (m' :: l) t k

/-- Writing, wjson/serializer/object_array.hpp:23-30. -/
def emitObjectArray {τ : Type} (L : List (AMember τ)) : Emit τ := fun t k =>
  k.put c%'[' >>= fun k => emitAMembers L t k >>= fun k => k.put c%']'

/-- End of `unserialize_members`, wjson/serializer/object_array.hpp:154-160. -/
def amembersEnd {τ : Type} (t : τ) (s : Bytes) (e : EPtr) : Out (τ × Bytes × EPtr) :=
  match s with
  | [] => .ok (t, [], createError .UnexpectedEndFragment e)
  | b :: p =>
    if b ≠ c%']' then .ok (t, [], createError .ExpectedOf e (some b!"]") ((b :: p).length : Nat))
    else .ok (t, b :: p, e)

/-- `unserialize_members`, wjson/serializer/object_array.hpp:138-168. -/
def deAMembers {τ : Type} : List (AMember τ) → De τ
  | [], t, s, e => .ok (t, s, e)
  | m :: l, t, s, e =>
    m.de t s e >>= fun d =>
    let r := parseSpace d.2.1 d.2.2
    match r.1 with
    | [] => .ok (d.1, [], createError .UnexpectedEndFragment r.2)
    | b :: p =>
      if b = c%',' then
        let r := parseSpace p r.2
        deAMembers l d.1 r.1 r.2 >>= fun y => amembersEnd y.1 y.2.1 y.2.2
      else amembersEnd d.1 (b :: p) r.2

/-- The closing bracket, wjson/serializer/object_array.hpp:63-69. -/
def objectArrayEnd {τ : Type} (t : τ) (s : Bytes) (e : EPtr) : Out (τ × Bytes × EPtr) :=
  match s with
  | [] => .ok (t, [], createError .UnexpectedEndFragment e)
  | b :: p =>
    if b ≠ c%']' then .ok (t, [], createError .ExpectedOf e (some b!"]") ((b :: p).length : Nat))
    else .ok (t, p, e)

/-- The part after the opening bracket, wjson/serializer/object_array.hpp:46-69. -/
def objectArrayBody {τ : Type} (L : List (AMember τ)) (t : τ) (s : Bytes) (e : EPtr) : Out (τ × Bytes × EPtr) :=
  let r := parseSpace s e
  match r.1 with
  | [] => .ok (t, [], createError .UnexpectedEndFragment r.2)
  | b :: q =>
    if b ≠ c%']' then
      deAMembers L t (b :: q) r.2 >>= fun x =>
      match x.2.1 with
      | [] => .ok (x.1, [], createError .UnexpectedEndFragment x.2.2)
      | b :: q =>
        let r := parseSpace (b :: q) x.2.2
        match r.1 with
        | [] => .ok (x.1, [], createError .UnexpectedEndFragment r.2)
        | b :: q => objectArrayEnd x.1 (b :: q) r.2
    else objectArrayEnd t (b :: q) r.2

/-- Reading, wjson/serializer/object_array.hpp:32-70. -/
def deObjectArray {τ : Type} (dflt : τ) (L : List (AMember τ)) : De τ := fun t s e =>
  if isNull s then
    let r := parseNull s e
    .ok (dflt, r.1, r.2)
  else
    match s with
    | [] => .ok (t, [], createError .UnexpectedEndFragment e)
    | b :: p =>
      if b ≠ c%'[' then .ok (t, [], createError .ExpectedOf e (some b!"[") ((b :: p).length : Nat))
      else objectArrayBody L t p e

/-- `object_array<T,L>::serializer`, wjson/serializer/object_array.hpp:15-229. -/
def objectArraySer {τ : Type} (dflt : τ) (L : List (AMember τ)) : Ser τ :=
  ⟨dflt, emitObjectArray L, deObjectArray dflt L⟩

end Wjson
