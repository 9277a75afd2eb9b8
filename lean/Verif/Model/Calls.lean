import Verif.Model.Object
/-
Reading an object on a bounded stack. `unserialize_members` of
wjson/serializer/object.hpp:155-194 calls itself once for every member it reads
(lines 182 and 184), and the call is not the last thing it does: a frame stays
open for each member. In this file `.fuel` stands for a stack overflow:
`deObjectD c k` is the reader of an object when at most `k` calls of
`unserialize_members(…, search = false, …)` of this object can be open at the same
time. The calls with `search = true` are nested at most as deeply as the member
list is long and are not counted.
The recursion budget of `membersF` in Verif/Model/Object.lean is exactly this
number; here it is given by the caller instead of being taken from the length of
the text.
-/
namespace Wjson

/-- The part between the braces and the closing brace,
wjson/serializer/object.hpp:57-78, with at most `k` open calls. -/
def objectBodyD {τ : Type} (c : Cfg) (k : Nat) (strict : Bool) (L : List (Member τ)) (t : τ) (s : Bytes) (e : EPtr) :
    Out (τ × Bytes × EPtr) :=
  let r := parseSpace s e
  match r.1 with
  | [] => .ok (t, [], createError .UnexpectedEndFragment r.2)
  | b :: q =>
    if b ≠ c%'}' then
      membersF c strict L k L t (b :: q) r.2 >>= fun x =>
      match x.2.1 with
      | [] => .ok (x.1, [], createError .UnexpectedEndFragment x.2.2)
      | b :: q =>
        let r := parseSpace (b :: q) x.2.2
        match r.1 with
        | [] => .ok (x.1, [], createError .UnexpectedEndFragment r.2)
        | b :: q => objectEnd x.1 (b :: q) r.2
    else objectEnd t (b :: q) r.2

/-- Reading an object, wjson/serializer/object.hpp:31-79, with at most `k` open
calls. -/
def deObjectD {τ : Type} (c : Cfg) (k : Nat) (strict : Bool) (dflt : τ) (L : List (Member τ)) : De τ := fun t s e =>
  if isNull s then
    let r := parseNull s e
    .ok (dflt, r.1, r.2)
  else
    match s with
    | [] => .ok (t, [], createError .UnexpectedEndFragment e)
    | b :: p =>
      if b ≠ c%'{' then
        if b = c%'[' then
          let r := parseSpace p e
          deref c r.1 >>= fun x =>
          if x ≠ c%']' then .ok (t, [], createError .ExpectedOf r.2 (some b!"]") (r.1.length : Nat))
          else
            match r.1 with
            | [] => .ub
            | _ :: q => .ok (t, q, r.2)
        else .ok (t, [], createError .ExpectedOf e (some b!"{") ((b :: p).length : Nat))
      else objectBodyD c k strict L t p e

end Wjson
