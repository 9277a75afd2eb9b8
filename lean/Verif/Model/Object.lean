import Verif.Model.Parser
import Verif.Model.Sink
/-
Model of wjson/serializer/object.hpp.
-/
namespace Wjson

/-- One entry of the member list of `object<T,L,Mode>`: how it is written
(`serialize_member`) and how it is read (`unserialize_member`). The Boolean is
the reference parameter `unserialized`. -/
structure Member (τ : Type) where
  emit : τ → Sink → Out Sink
  de : τ → Bytes → EPtr → Bool → Out (τ × Bytes × EPtr × Bool)

/-- `member<N,T,M,m,J>` and `member_p<N,T,M,G,W>`,
wjson/specialization/member.hpp:11-27, wjson/specialization/member_p.hpp:11-23:
a name (a C string, given without its NUL), access to a part of the object and
the serializer of that part. -/
structure MRef (τ : Type) where
  {α : Type}
  name : Bytes
  get : τ → α
  set : α → τ → τ
  ser : Ser α

/-- `serialize_member_name`, wjson/serializer/object.hpp:103-112. -/
def emitName (name : Bytes) (k : Sink) : Out Sink :=
  k.put c%'"' >>= fun k => k.puts name >>= fun k => k.put c%'"' >>= fun k => k.put c%':'

/-- `serialize_member` for `member` and `member_p`,
wjson/serializer/object.hpp:114-129. -/
def emitMember {τ : Type} (m : MRef τ) (t : τ) (k : Sink) : Out Sink :=
  emitName m.name k >>= fun k => m.ser.emit (m.get t) k

/-- The comparison loop of wjson/serializer/object.hpp:256. The first result is
the rest of the name, the second the rest of the text. -/
def nameLoop : Bytes → Bytes → Bytes × Bytes
  | n :: ns, b :: t => if b = n ∧ b ≠ c%'"' then nameLoop ns t else (n :: ns, b :: t)
  | ns, s => (ns, s)

/-- `unserialize_member_name`, wjson/serializer/object.hpp:246-282. -/
def memberName (name : Bytes) (s : Bytes) (e : EPtr) (u : Bool) : Bytes × EPtr × Bool :=
  match s with
  | [] => ([], createError .ExpectedOf e (some b!"\"") 0, u)
  | b :: t =>
    if b ≠ c%'"' then ([], createError .ExpectedOf e (some b!"\"") ((b :: t).length : Nat), u)
    else
      let r := nameLoop name t
      match r.2 with
      | [] => ([], createError .UnexpectedEndFragment e, true)
      | b' :: p =>
        if b' ≠ c%'"' ∨ r.1 ≠ [] then (b :: t, e, false)
        else
          let r := parseSpace p e
          match r.1 with
          | [] => ([], createError .UnexpectedEndFragment r.2, true)
          | b' :: p =>
            if b' ≠ c%':' then ([], createError .ExpectedOf r.2 (some b!":") ((b' :: p).length : Nat), true)
            else
              let r := parseSpace p r.2
              match r.1 with
              | [] => ([], createError .UnexpectedEndFragment r.2, true)
              | b' :: p => (b' :: p, r.2, true)

/-- `unserialize_member` for `member`, wjson/serializer/object.hpp:285-293. -/
def deMember {τ : Type} (m : MRef τ) (t : τ) (s : Bytes) (e : EPtr) (u : Bool) : Out (τ × Bytes × EPtr × Bool) :=
  let r := memberName m.name s e u
  if !r.2.2 then .ok (t, r)
  else m.ser.de (m.get t) r.1 r.2.1 >>= fun d => .ok (m.set d.1 t, d.2.1, d.2.2, true)

/-- `unserialize_member` for `member_p`, wjson/serializer/object.hpp:295-306:
like `member`, but the value is read into a fresh `M()`. -/
def deMemberP {τ : Type} (m : MRef τ) (t : τ) (s : Bytes) (e : EPtr) (u : Bool) : Out (τ × Bytes × EPtr × Bool) :=
  let r := memberName m.name s e u
  if !r.2.2 then .ok (t, r)
  else m.ser.de m.ser.dflt r.1 r.2.1 >>= fun d => .ok (m.set d.1 t, d.2.1, d.2.2, true)

/-- A `member` as an entry of the list. -/
def member {τ : Type} (m : MRef τ) : Member τ := ⟨emitMember m, deMember m⟩

/-- A `member_p` as an entry of the list. -/
def memberP {τ : Type} (m : MRef τ) : Member τ := ⟨emitMember m, deMemberP m⟩

/-- The entries of a member list other than `member_if`: a `member` or a
`member_p`. -/
inductive Entry (τ : Type) where
  | mem (m : MRef τ)
  | prop (m : MRef τ)

def Entry.ref {τ : Type} : Entry τ → MRef τ
  | .mem m => m
  | .prop m => m

def Entry.toMember {τ : Type} : Entry τ → Member τ
  | .mem m => member m
  | .prop m => memberP m

/-- `typename ML::serializer()(ML().ref(t), snull, snull+4, fas_nullptr)`,
wjson/serializer/object.hpp:316,319,331,335. -/
def readNull {τ : Type} (m : MRef τ) (t : τ) : Out τ :=
  m.ser.de (m.get t) b!"null" .null >>= fun d => .ok (m.set d.1 t)

/-- `unserialize_member` for `member_if`, wjson/serializer/object.hpp:308-337:
`a` is the alternative tried first, `b` the other one. -/
def deMemberIf {τ : Type} (a b : MRef τ) (t : τ) (s : Bytes) (e : EPtr) (u : Bool) : Out (τ × Bytes × EPtr × Bool) :=
  deMember a t s .fresh u >>= fun d =>
  if !d.2.2.1.failed then
    readNull b d.1 >>= fun t => .ok (t, d.2.1, e, d.2.2.2)
  else
    readNull a d.1 >>= fun t => deMember b t s e d.2.2.2

/-- `member_if<ML,MR,RU>`, wjson/specialization/member_if.hpp:11-12; writing:
wjson/serializer/object.hpp:132-139, where `isDflt` is the comparison of ML's
value with `typeL()`. -/
def memberIf {τ : Type} (l r : MRef τ) (isDflt : l.α → Bool) (RU : Bool) : Member τ where
  emit t k := if !isDflt (l.get t) then emitMember l t k else emitMember r t k
  de := if RU then deMemberIf r l else deMemberIf l r

/-- `serialize_members`, wjson/serializer/object.hpp:83-101. -/
def emitMembers {τ : Type} : List (Member τ) → τ → Sink → Out Sink
  | [], _, k => .ok k
  | [m], t, k => m.emit t k
  | m :: m' :: l, t, k => m.emit t k >>= fun k => k.put c%',' >>= fun k => emitMembers (m' :: l) t k

/-- Writing an object, wjson/serializer/object.hpp:22-29. -/
def emitObject {τ : Type} (L : List (Member τ)) : Emit τ := fun t k =>
  k.put c%'{' >>= fun k => emitMembers L t k >>= fun k => k.put c%'}'

/-- `unserialize_members(t, beg, end, list, true, e)`: the search for a member
from the start of the list. Non-empty list: wjson/serializer/object.hpp:155-169;
empty list: wjson/serializer/object.hpp:227-243. -/
def searchMembers {τ : Type} (c : Cfg) (strict : Bool) : List (Member τ) → τ → Bytes → EPtr → Out (τ × Bytes × EPtr)
  | [], t, s, e =>
    if !strict then
      parseMember c s e >>= fun r =>
      let r := parseSpace r.1 r.2
      .ok (t, r.1, r.2)
    else
      match s with
      | [] => .ok (t, [], createError .UnexpectedEndFragment e)
      | b :: p =>
        if b = c%'}' then .ok (t, b :: p, e)
        else .ok (t, [], createError .InvalidMember e none ((b :: p).length : Nat))
  | m :: l, t, s, e =>
    m.de t s e false >>= fun d =>
    if d.2.2.2 then .ok (d.1, d.2.1, d.2.2.1) else searchMembers c strict l d.1 d.2.1 d.2.2.1

/-- The loop of `unserialize_members(t, beg, end, empty_list, false, e)`,
wjson/serializer/object.hpp:206-225. The second argument is the recursion
budget. -/
def skipLoopF (c : Cfg) (strict : Bool) : Nat → Bytes → EPtr → Out (Bytes × EPtr)
  | 0, _, _ => .fuel
  | n + 1, s, e =>
    parseMember c s e >>= fun r =>
    let r := parseSpace r.1 r.2
    match r.1 with
    | [] => .ok ([], createError .UnexpectedEndFragment r.2)
    | b :: p =>
      if b = c%'}' then
        if !strict then .ok (b :: p, r.2)
        else .ok ([], createError .InvalidMember r.2 none (s.length : Nat))
      else if b ≠ c%',' then
        .ok ([], createError .ExpectedOf r.2 (some b!",") ((b :: p).length : Nat))
      else
        let r := parseSpace p r.2
        skipLoopF c strict n r.1 r.2

/-- `unserialize_members(t, beg, end, empty_list, false, e)`,
wjson/serializer/object.hpp:196-225. -/
def skipMembers (c : Cfg) (strict : Bool) (s : Bytes) (e : EPtr) : Out (Bytes × EPtr) :=
  let r := parseSpace s e
  match r.1 with
  | [] => .ok ([], createError .UnexpectedEndFragment r.2)
  | b :: p =>
    if b = c%'}' then .ok (b :: p, r.2)
    else skipLoopF c strict (p.length + 2) (b :: p) r.2

/-- End of `unserialize_members`, wjson/serializer/object.hpp:187-193. -/
def membersEnd {τ : Type} (t : τ) (s : Bytes) (e : EPtr) : Out (τ × Bytes × EPtr) :=
  match s with
  | [] => .ok (t, [], createError .UnexpectedEndFragment e)
  | b :: p =>
    if b ≠ c%'}' then .ok (t, [], createError .ExpectedOf e (some b!"}") ((b :: p).length : Nat))
    else .ok (t, b :: p, e)

/-- `unserialize_members(t, beg, end, list, false, e)`, where `L` is the whole
member list and `l` the rest of it from the cursor on. Non-empty list:
wjson/serializer/object.hpp:155-194; empty list: `skipMembers`. The first
number is the recursion budget. -/
def membersF {τ : Type} (c : Cfg) (strict : Bool) (L : List (Member τ)) :
    Nat → List (Member τ) → τ → Bytes → EPtr → Out (τ × Bytes × EPtr)
  | 0, _, _, _, _ => .fuel
  | _ + 1, [], t, s, e => skipMembers c strict s e >>= fun r => .ok (t, r.1, r.2)
  | n + 1, m :: l, t, s, e =>
    m.de t s e false >>= fun d =>
    (if d.2.2.2 then .ok (d.1, d.2.1, d.2.2.1) else searchMembers c strict L d.1 d.2.1 d.2.2.1) >>= fun x =>
    let r := parseSpace x.2.1 x.2.2
    match r.1 with
    | [] => .ok (x.1, [], createError .UnexpectedEndFragment r.2)
    | b :: p =>
      if b = c%',' then
        let r := parseSpace p r.2
        membersF c strict L n (if d.2.2.2 then l else m :: l) x.1 r.1 r.2 >>= fun y =>
        membersEnd y.1 y.2.1 y.2.2
      else membersEnd x.1 (b :: p) r.2

/-- The closing brace, wjson/serializer/object.hpp:72-78. -/
def objectEnd {τ : Type} (t : τ) (s : Bytes) (e : EPtr) : Out (τ × Bytes × EPtr) :=
  match s with
  | [] => .ok (t, [], createError .UnexpectedEndFragment e)
  | b :: p =>
    if b ≠ c%'}' then .ok (t, [], createError .ExpectedOf e (some b!"}") ((b :: p).length : Nat))
    else .ok (t, p, e)

/-- The part between the braces and the closing brace,
wjson/serializer/object.hpp:57-78. -/
def objectBody {τ : Type} (c : Cfg) (strict : Bool) (L : List (Member τ)) (t : τ) (s : Bytes) (e : EPtr) :
    Out (τ × Bytes × EPtr) :=
  let r := parseSpace s e
  match r.1 with
  | [] => .ok (t, [], createError .UnexpectedEndFragment r.2)
  | b :: q =>
    if b ≠ c%'}' then
      membersF c strict L (q.length + 2) L t (b :: q) r.2 >>= fun x =>
      match x.2.1 with
      | [] => .ok (x.1, [], createError .UnexpectedEndFragment x.2.2)
      | b :: q =>
        let r := parseSpace (b :: q) x.2.2
        match r.1 with
        | [] => .ok (x.1, [], createError .UnexpectedEndFragment r.2)
        | b :: q => objectEnd x.1 (b :: q) r.2
    else objectEnd t (b :: q) r.2

/-- Reading an object, wjson/serializer/object.hpp:31-79. Line 48 dereferences
`beg` without comparing it with `end`; if a readable byte there is a `]`, line
51 moves past `end`, which the model calls undefined too. -/
def deObject {τ : Type} (c : Cfg) (strict : Bool) (dflt : τ) (L : List (Member τ)) : De τ := fun t s e =>
  if isNull s then
    let r := parseNull s e
    .ok (dflt, r.1, r.2)
  else
    match s with
    | [] => .ok (t, [], createError .UnexpectedEndFragment e)
    | b :: p =>
      if b ≠ c%'{' then
        if b = c%'[' then
          let r := parseSpace p e
          deref c r.1 >>= fun x =>
          if x ≠ c%']' then .ok (t, [], createError .ExpectedOf r.2 (some b!"]") (r.1.length : Nat))
          else
            match r.1 with
            | [] => .ub
            | _ :: q => .ok (t, q, r.2)
        else .ok (t, [], createError .ExpectedOf e (some b!"{") ((b :: p).length : Nat))
      else objectBody c strict L t p e

/-- `object<T,L,Mode>::serializer`, wjson/serializer/object.hpp:15-338. -/
def objectSer {τ : Type} (c : Cfg) (strict : Bool) (dflt : τ) (L : List (Member τ)) : Ser τ :=
  ⟨dflt, emitObject L, deObject c strict dflt L⟩

end Wjson
