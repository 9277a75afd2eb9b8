import Verif.Model.Parser
/-
The validator on a bounded stack: the functions of wjson/parser.hpp:533-623
again, now counting the calls of `parse_value` that are open at the same time.
`parse_value`, `parse_member`, `parse_object` and `parse_array` call each other
in a circle and every circle goes through `parse_value`, so the height of the
stack is at most three further frames per open call of `parse_value`.
In this file `.fuel` stands for a stack overflow: `valueD c k` is `parse_value`
when at most `k` calls of it can be open at the same time.
The results are compared with the unbounded functions of Verif/Model/Parser.lean
in Verif/Props/Depth.lean.
-/
namespace Wjson

/-- `parser::parse_member`, wjson/parser.hpp:546-567; `pv` is the call of
`parse_value` in line 565. -/
def memberD (pv : Bytes → EPtr → Out (Bytes × EPtr)) (s : Bytes) (e : EPtr) : Out (Bytes × EPtr) :=
  if !isString s then .ok ([], createError .InvalidMember e none (s.length : Nat))
  else
    let r := parseString s e
    match r.1 with
    | [] => .ok ([], createError .UnexpectedEndFragment r.2)
    | b :: t =>
      let r := parseSpace (b :: t) r.2
      match r.1 with
      | [] => .ok ([], createError .UnexpectedEndFragment r.2)
      | b :: t =>
        if b ≠ c%':' then
          .ok ([], createError .ExpectedOf r.2 (some b!":") (t.length : Nat))
        else
          match t with
          | [] => .ok ([], createError .UnexpectedEndFragment r.2)
          | b :: t =>
            let r := parseSpace (b :: t) r.2
            match r.1 with
            | [] => .ok ([], createError .UnexpectedEndFragment r.2)
            | b :: t => pv (b :: t) r.2

/-- The loops of `parse_object` (`cl = '}'`, `item` is `parse_member`,
wjson/parser.hpp:583-598) and of `parse_array` (`cl = ']'`, `item` is
`parse_value`, wjson/parser.hpp:607-622). They are loops, not calls: the number
bounds the passes, not the stack, and `length + 1` passes are always enough. -/
def itemLoopD (c : Cfg) (cl : Byte) (item : Bytes → EPtr → Out (Bytes × EPtr)) : Nat → Bytes → EPtr → Out (Bytes × EPtr)
  | 0, _, _ => .fuel
  | n + 1, s, e =>
    if s = [] ∨ s.head? = some cl then .ok (closeWith cl s e)
    else
      let r := parseSpace s e
      deref c r.1 >>= fun x =>
      if x = cl then .ok (closeWith cl r.1 r.2)
      else
        item r.1 r.2 >>= fun r =>
        let r := parseSpace r.1 r.2
        match r.1 with
        | [] => .ok ([], createError .ExpectedOf r.2 (some [cl]) 0)
        | b :: t =>
          if b ≠ c%',' ∧ b ≠ cl then
            .ok ([], createError .ExpectedOf r.2 (some [cl]) ((b :: t).length : Nat))
          else if b = c%',' then itemLoopD c cl item n t r.2
          else itemLoopD c cl item n (b :: t) r.2

/-- `parser::parse_object`, wjson/parser.hpp:569-599. -/
def objectD (c : Cfg) (pv : Bytes → EPtr → Out (Bytes × EPtr)) (s : Bytes) (e : EPtr) : Out (Bytes × EPtr) :=
  if !isObject s then .ok ([], createError .ExpectedOf e (some b!"{") (s.length : Nat))
  else
    let r := parseSpace s.tail e
    if r.1.head? = some c%']' then .ok (r.1.tail, r.2)
    else itemLoopD c c%'}' (memberD pv) (r.1.length + 1) r.1 r.2

/-- `parser::parse_array`, wjson/parser.hpp:601-623. -/
def arrayD (c : Cfg) (pv : Bytes → EPtr → Out (Bytes × EPtr)) (s : Bytes) (e : EPtr) : Out (Bytes × EPtr) :=
  if !isArray s then .ok ([], createError .ExpectedOf e (some b!"[") (s.length : Nat))
  else itemLoopD c c%']' pv (s.tail.length + 1) s.tail e

/-- `parser::parse_value`, wjson/parser.hpp:533-544, when at most the given
number of calls of it can be open at the same time. -/
def valueD (c : Cfg) : Nat → Bytes → EPtr → Out (Bytes × EPtr)
  | 0, _, _ => .fuel
  | k + 1, s, e =>
    if isNull s then .ok (parseNull s e)
    else if isBool s then .ok (parseBool s e)
    else if isNumber s then .ok (parseNumber s e)
    else if isString s then .ok (parseString s e)
    else if isObject s then objectD c (valueD c k) s e
    else if isArray s then arrayD c (valueD c k) s e
    else .ok ([], createError .InvalidJSON e none (s.length : Nat))

end Wjson
