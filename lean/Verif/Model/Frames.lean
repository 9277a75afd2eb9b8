import Verif.Model.Depth
import Verif.Model.ObjectArray
import Verif.Model.Misc
/-
The typed readers on a bounded stack. A frame is an open call of a reader
(`serializer()(v, beg, end, e)`), of `unserialize_members(…, search = false, …)` of
an object (wjson/serializer/object.hpp:155-194) or of `parse_value`
(wjson/parser.hpp:533-544). Every other function of the library that is called
in between calls itself at most as often as the description is long, so that the height
of the stack is at most a fixed multiple of the number of frames.
In this file `.fuel` stands for a stack overflow, and a reader on a bounded stack is
a family `Nat → De α`: the number is the number of frames that are free when it is
called. The results are compared with the readers on an unbounded stack in
Verif/Props/Frames.lean.
-/
namespace Wjson

/-- A call: it takes one frame; `F k` is its body, `k` the number of frames that are left. -/
def nextFrame {α : Type} (F : Nat → De α) : Nat → De α
  | 0 => fun _ _ _ => .fuel
  | k + 1 => F k

/-- `raw_value`, wjson/serializer/raw_value.hpp:35-43; `pv` is the call of `parse_value`. -/
def deRawT (pv : Bytes → EPtr → Out (Bytes × EPtr)) : De Bytes := fun _ s e =>
  pv s e >>= fun r => .ok (consumed s r.1, r)

/-- `raw_quoted`, wjson/serializer/quoted.hpp:30-58; `pv` is the call of `parse_value`. -/
def deRawQuotedT (pv : Bytes → EPtr → Out (Bytes × EPtr)) (reqQ : Bool) : De Bytes := fun v s e =>
  match s with
  | [] => .ok (v, [], createError .UnexpectedEndFragment e)
  | b :: t =>
    if reqQ && b ≠ c%'"' then .ok (v, [], createError .ExpectedOf e (some b!"\"") ((b :: t).length : Nat))
    else
      let s := if reqQ then t else b :: t
      pv s e >>= fun r =>
      if r.2.failed then .ok ([], r)
      else if reqQ then
        match r.1 with
        | [] => .ok (consumed s [], [], createError .UnexpectedEndFragment r.2)
        | d :: q =>
          if d = c%'"' then .ok (consumed s r.1, q, r.2)
          else .ok (consumed s r.1, [], createError .ExpectedOf r.2 (some b!"\"") ((d :: q).length : Nat))
      else .ok (consumed s r.1, r)

/-- The search from the start of the member list, wjson/serializer/object.hpp:155-169 and
227-243; `pm` is the call of `parse_member`. -/
def searchMembersT {τ : Type} (pm : Bytes → EPtr → Out (Bytes × EPtr)) (strict : Bool) :
    List (Member τ) → τ → Bytes → EPtr → Out (τ × Bytes × EPtr)
  | [], t, s, e =>
    if !strict then
      pm s e >>= fun r =>
      let r := parseSpace r.1 r.2
      .ok (t, r.1, r.2)
    else
      match s with
      | [] => .ok (t, [], createError .UnexpectedEndFragment e)
      | b :: p =>
        if b = c%'}' then .ok (t, b :: p, e)
        else .ok (t, [], createError .InvalidMember e none ((b :: p).length : Nat))
  | m :: l, t, s, e =>
    m.de t s e false >>= fun d =>
    if d.2.2.2 then .ok (d.1, d.2.1, d.2.2.1) else searchMembersT pm strict l d.1 d.2.1 d.2.2.1

/-- The loop over the members behind the last declared one, wjson/serializer/object.hpp:206-225.
It is a loop, not calls: the number bounds the passes, not the stack. -/
def skipLoopT (pm : Bytes → EPtr → Out (Bytes × EPtr)) (strict : Bool) : Nat → Bytes → EPtr → Out (Bytes × EPtr)
  | 0, _, _ => .fuel
  | n + 1, s, e =>
    pm s e >>= fun r =>
    let r := parseSpace r.1 r.2
    match r.1 with
    | [] => .ok ([], createError .UnexpectedEndFragment r.2)
    | b :: p =>
      if b = c%'}' then
        if !strict then .ok (b :: p, r.2)
        else .ok ([], createError .InvalidMember r.2 none (s.length : Nat))
      else if b ≠ c%',' then
        .ok ([], createError .ExpectedOf r.2 (some b!",") ((b :: p).length : Nat))
      else
        let r := parseSpace p r.2
        skipLoopT pm strict n r.1 r.2

/-- `unserialize_members` with an empty list, wjson/serializer/object.hpp:196-225. -/
def skipMembersT (pm : Bytes → EPtr → Out (Bytes × EPtr)) (strict : Bool) (s : Bytes) (e : EPtr) : Out (Bytes × EPtr) :=
  let r := parseSpace s e
  match r.1 with
  | [] => .ok ([], createError .UnexpectedEndFragment r.2)
  | b :: p =>
    if b = c%'}' then .ok (b :: p, r.2)
    else skipLoopT pm strict (p.length + 2) (b :: p) r.2

/-- `unserialize_members(t, beg, end, list, false, e)`, wjson/serializer/object.hpp:155-194, which calls
itself once for every member it has read (lines 182 and 184). `L k` is the member list
when `k` frames are left for reading the value of a member; the cursor has passed `j` members of the list. -/
def membersT {τ : Type} (c : Cfg) (strict : Bool) (L : Nat → List (Member τ)) :
    Nat → Nat → τ → Bytes → EPtr → Out (τ × Bytes × EPtr)
  | 0, _, _, _, _ => .fuel
  | k + 1, j, t, s, e =>
    match (L k).drop j with
    | [] => skipMembersT (memberD (valueD c k)) strict s e >>= fun r => .ok (t, r.1, r.2)
    | m :: _ =>
      m.de t s e false >>= fun d =>
      (if d.2.2.2 then .ok (d.1, d.2.1, d.2.2.1)
        else searchMembersT (memberD (valueD c k)) strict (L k) d.1 d.2.1 d.2.2.1) >>= fun x =>
      let r := parseSpace x.2.1 x.2.2
      match r.1 with
      | [] => .ok (x.1, [], createError .UnexpectedEndFragment r.2)
      | b :: p =>
        if b = c%',' then
          let r := parseSpace p r.2
          membersT c strict L k (if d.2.2.2 then j + 1 else j) x.1 r.1 r.2 >>= fun y =>
          membersEnd y.1 y.2.1 y.2.2
        else membersEnd x.1 (b :: p) r.2

/-- The part between the braces and the closing brace, wjson/serializer/object.hpp:57-78. -/
def objectBodyT {τ : Type} (c : Cfg) (strict : Bool) (L : Nat → List (Member τ)) (k : Nat) (t : τ) (s : Bytes) (e : EPtr) :
    Out (τ × Bytes × EPtr) :=
  let r := parseSpace s e
  match r.1 with
  | [] => .ok (t, [], createError .UnexpectedEndFragment r.2)
  | b :: q =>
    if b ≠ c%'}' then
      membersT c strict L k 0 t (b :: q) r.2 >>= fun x =>
      match x.2.1 with
      | [] => .ok (x.1, [], createError .UnexpectedEndFragment x.2.2)
      | b :: q =>
        let r := parseSpace (b :: q) x.2.2
        match r.1 with
        | [] => .ok (x.1, [], createError .UnexpectedEndFragment r.2)
        | b :: q => objectEnd x.1 (b :: q) r.2
    else objectEnd t (b :: q) r.2

/-- Reading an object, wjson/serializer/object.hpp:31-79, with `k` frames left for what it calls. -/
def deObjectT {τ : Type} (c : Cfg) (strict : Bool) (dflt : τ) (L : Nat → List (Member τ)) (k : Nat) : De τ := fun t s e =>
  if isNull s then
    let r := parseNull s e
    .ok (dflt, r.1, r.2)
  else
    match s with
    | [] => .ok (t, [], createError .UnexpectedEndFragment e)
    | b :: p =>
      if b ≠ c%'{' then
        if b = c%'[' then
          let r := parseSpace p e
          deref c r.1 >>= fun x =>
          if x ≠ c%']' then .ok (t, [], createError .ExpectedOf r.2 (some b!"]") (r.1.length : Nat))
          else
            match r.1 with
            | [] => .ub
            | _ :: q => .ok (t, q, r.2)
        else .ok (t, [], createError .ExpectedOf e (some b!"{") ((b :: p).length : Nat))
      else objectBodyT c strict L k t p e

/-- The description with another reader. -/
def Ser.withReader {α : Type} (S : Ser α) (D : De α) : Ser α := { S with de := D }

/-- The member with another reader for its value. -/
def MRef.withReader {τ : Type} (m : MRef τ) (D : De m.α) : MRef τ := { m with ser := m.ser.withReader D }

end Wjson
