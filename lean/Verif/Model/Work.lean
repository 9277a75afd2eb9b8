import Verif.Model.Parser
import Verif.Model.Despace
/-
The work of the validator: the functions of wjson/parser.hpp again, now with a
count. Every call of a function counts one and every pass through a loop counts
one, the pass that ends the loop included. The count is the last component of
the result. A `std::distance` in the argument of `create_error` is not counted:
it takes no time for pointers and string iterators, and there is at most one
that is not empty per text.
That the results are those of Verif/Model/Parser.lean is proved in
Verif/Props/Work.lean.
-/
namespace Wjson

/-- The loop of `parse_space`, wjson/parser.hpp:171-201. -/
def spaceLoopW : Bool → Bytes → EPtr → (Bytes × EPtr) × Nat
  | true, [], e => (([], createError .UnexpectedEndFragment e (some b!"Unterminated comment")), 1)
  | false, [], e => (([], e), 1)
  | true, b :: t, e =>
    if b = c%'*' then
      if t.head? = some c%'/' then
        let r := spaceLoopW false t e
        (r.1, r.2 + 1)
      else
        let r := spaceLoopW true t e
        (r.1, r.2 + 1)
    else
      let r := spaceLoopW true t e
      (r.1, r.2 + 1)
  | false, b :: t, e =>
    if isWs b then
      let r := spaceLoopW false t e
      (r.1, r.2 + 1)
    else if b = c%'/' then
      if t.head? = some c%'*' then
        let r := spaceLoopW true t e
        (r.1, r.2 + 1)
      else
        let r := spaceLoopW false t e
        (r.1, r.2 + 1)
    else ((b :: t, e), 1)

/-- `parser::parse_space`, wjson/parser.hpp:159-202. -/
def parseSpaceW (s : Bytes) (e : EPtr) : (Bytes × EPtr) × Nat :=
  let r := spaceLoopW false s e
  (r.1, r.2 + 1)

/-- The letters of a literal, wjson/parser.hpp:242-254, 281-292, 296-308. -/
def litRestW (lit : Bytes) : Bytes → Nat → Bytes → EPtr → (Bytes × EPtr) × Nat
  | [], _, s, e => ((s, e), 1)
  | _ :: _, _, [], e => (([], createError .UnexpectedEndFragment e), 1)
  | x :: xs, p, b :: t, e =>
    if b = x then
      let r := litRestW lit xs (p + 1) t e
      (r.1, r.2 + 1)
    else (([], createError .ExpectedOf e (some lit) p), 1)

/-- `parser::parse_null`, wjson/parser.hpp:227-258. -/
def parseNullW : Bytes → EPtr → (Bytes × EPtr) × Nat
  | [], e => (([], createError .UnexpectedEndFragment e), 1)
  | b :: t, e =>
    if b = c%'n' then
      let r := litRestW b!"null" b!"ull" 1 t e
      (r.1, r.2 + 1)
    else (([], createError .InvalidNull e none 0), 1)

/-- `parser::parse_bool`, wjson/parser.hpp:266-312. -/
def parseBoolW : Bytes → EPtr → (Bytes × EPtr) × Nat
  | [], e => (([], createError .UnexpectedEndFragment e), 1)
  | b :: t, e =>
    if b = c%'t' then
      let r := litRestW b!"true" b!"rue" 1 t e
      (r.1, r.2 + 1)
    else if b = c%'f' then
      let r := litRestW b!"false" b!"alse" 1 t e
      (r.1, r.2 + 1)
    else (([], createError .InvalidBool e none 0), 1)

/-- The loop of `parser::parse_digit`, wjson/parser.hpp:625-630. -/
def parseDigitW : Bytes → Bytes × Nat
  | [] => ([], 1)
  | b :: t =>
    if isDigit b then
      let r := parseDigitW t
      (r.1, r.2 + 1)
    else (b :: t, 1)

/-- `parser::parse_integer` after the optional minus, wjson/parser.hpp:345-358. -/
def parseIntegerAbsW : Bytes → EPtr → (Bytes × EPtr) × Nat
  | [], e => (([], createError .UnexpectedEndFragment e), 0)
  | b :: t, e =>
    if b = c%'0' then ((t, e), 0)
    else if isDigit19 b then
      let r := parseDigitW (b :: t)
      ((r.1, e), r.2 + 1)
    else (([], createError .InvalidNumber e), 0)

/-- `parser::parse_integer`, wjson/parser.hpp:327-359. -/
def parseIntegerW : Bytes → EPtr → (Bytes × EPtr) × Nat
  | [], e => (([], createError .UnexpectedEndFragment e), 1)
  | b :: t, e =>
    let r := if b = c%'-' then parseIntegerAbsW t e else parseIntegerAbsW (b :: t) e
    (r.1, r.2 + 1)

/-- Fraction part of `parse_number`, wjson/parser.hpp:366-375. -/
def parseFracW : Bytes → EPtr → (Bytes × EPtr × Bool) × Nat
  | [], e => (([], e, true), 0)
  | b :: t, e =>
    if b = c%'.' then
      match t with
      | [] => (([], createError .UnexpectedEndFragment e, false), 0)
      | d :: t' =>
        if isDigit d then
          let r := parseDigitW (d :: t')
          ((r.1, e, true), r.2 + 1)
        else (([], createError .InvalidNumber e, false), 0)
    else ((b :: t, e, true), 0)

/-- The digits of the exponent, wjson/parser.hpp:381-385. -/
def parseExpDigitsW : Bytes → EPtr → (Bytes × EPtr) × Nat
  | [], e => (([], createError .UnexpectedEndFragment e), 0)
  | d :: t, e =>
    if isDigit d then
      let r := parseDigitW (d :: t)
      ((r.1, e), r.2 + 1)
    else (([], createError .InvalidNumber e), 0)

/-- Exponent part of `parse_number`, wjson/parser.hpp:377-387. -/
def parseExpW : Bytes → EPtr → (Bytes × EPtr) × Nat
  | [], e => (([], e), 0)
  | b :: t, e =>
    if b = c%'e' ∨ b = c%'E' then
      match t with
      | [] => (([], createError .UnexpectedEndFragment e), 0)
      | x :: t' =>
        if x = c%'-' ∨ x = c%'+' then parseExpDigitsW t' e else parseExpDigitsW (x :: t') e
    else ((b :: t, e), 0)

/-- `parser::parse_number`, wjson/parser.hpp:320-325 and 361-388. -/
def parseNumberW (s : Bytes) (e : EPtr) : (Bytes × EPtr) × Nat :=
  let r := parseIntegerW s e
  let f := parseFracW r.1.1 r.1.2
  if f.1.2.2 then
    let x := parseExpW f.1.1 f.1.2.1
    (x.1, r.2 + f.2 + x.2 + 1)
  else ((f.1.1, f.1.2.1), r.2 + f.2 + 1)

/-- The loop of `parser::parse_hex`, wjson/parser.hpp:443-462. -/
def parseHexNW : Nat → Bytes → EPtr → (Bytes × EPtr) × Nat
  | 0, s, e => ((s, e), 1)
  | _ + 1, [], e => (([], createError .UnexpectedEndFragment e), 1)
  | n + 1, b :: t, e =>
    if isHex b then
      let r := parseHexNW n t e
      (r.1, r.2 + 1)
    else (([], createError .InvalidString e none ((b :: t).length : Nat)), 1)

/-- `parser::parse_hex`, wjson/parser.hpp:443-462. -/
def parseHexW (s : Bytes) (e : EPtr) : (Bytes × EPtr) × Nat :=
  let r := parseHexNW 4 s e
  (r.1, r.2 + 1)

/-- `parser::parse_utf8_part_<N>`, wjson/parser.hpp:464-480. -/
def parseUtf8PartW : Nat → Bytes → EPtr → (Bytes × EPtr) × Nat
  | 0, s, e => ((s, e), 1)
  | _ + 1, [], e => (([], createError .UnexpectedEndFragment e), 1)
  | n + 1, b :: t, e =>
    if b &&& 192 ≠ 128 then (([], createError .InvalidString e none ((b :: t).length : Nat)), 1)
    else
      let r := parseUtf8PartW n t e
      (r.1, r.2 + 1)

/-- `parser::parse_utf8` on a non-empty range, wjson/parser.hpp:495-513. -/
def parseUtf8NeW (b : Byte) (t : Bytes) (e : EPtr) : (Bytes × EPtr) × Nat :=
  match utf8Lead b with
  | some n =>
    let r := parseUtf8PartW n t e
    (r.1, r.2 + 1)
  | none => (([], createError .InvalidString e none ((b :: t).length : Nat)), 1)

theorem parseHexNW_length (n : Nat) (s : Bytes) (e : EPtr) : (parseHexNW n s e).1.1.length ≤ s.length := by
  induction n generalizing s with
  | zero => simp [parseHexNW]
  | succ n ih =>
    cases s with
    | nil => simp [parseHexNW]
    | cons b t =>
      simp only [parseHexNW]
      split
      · exact Nat.le_trans (ih t) (by simp)
      · simp

theorem parseUtf8NeW_length (b : Byte) (t : Bytes) (e : EPtr) : (parseUtf8NeW b t e).1.1.length ≤ t.length := by
  have part : ∀ n s, (parseUtf8PartW n s e).1.1.length ≤ s.length := by
    intro n
    induction n with
    | zero => simp [parseUtf8PartW]
    | succ n ih =>
      intro s
      cases s with
      | nil => simp [parseUtf8PartW]
      | cons b t =>
        simp only [parseUtf8PartW]
        split
        · simp
        · exact Nat.le_trans (ih t) (by simp)
  unfold parseUtf8NeW
  split
  · exact part _ _
  · simp

/-- The loop of `parse_string` and the code after it, wjson/parser.hpp:407-440. -/
def strLoopW (s : Bytes) (e : EPtr) : (Bytes × EPtr) × Nat :=
  match s with
  | [] => (([], createError .UnexpectedEndFragment e), 1)
  | b :: t =>
    if b = c%'"' then ((t, e), 1)
    else if b = c%'\\' then
      match t with
      | [] => (([], createError .UnexpectedEndFragment e), 1)
      | x :: t' =>
        if !isEsc x then (([], createError .InvalidString e none ((x :: t').length : Nat)), 1)
        else if x = c%'u' then
          let r := strLoopW (parseHexW t' e).1.1 (parseHexW t' e).1.2
          (r.1, r.2 + (parseHexW t' e).2 + 1)
        else
          let r := strLoopW t' e
          (r.1, r.2 + 1)
    else
      let r := strLoopW (parseUtf8NeW b t e).1.1 (parseUtf8NeW b t e).1.2
      (r.1, r.2 + (parseUtf8NeW b t e).2 + 1)
termination_by s.length
decreasing_by
  · have := parseHexNW_length 4 t' e
    simp only [parseHexW, List.length_cons]; omega
  · simp only [List.length_cons]; omega
  · have := parseUtf8NeW_length b t e
    simp only [List.length_cons]; omega

/-- `parser::parse_string`, wjson/parser.hpp:398-441. -/
def parseStringW : Bytes → EPtr → (Bytes × EPtr) × Nat
  | [], e => (([], createError .UnexpectedEndFragment e), 1)
  | b :: t, e =>
    if b ≠ c%'"' then (([], createError .ExpectedOf e (some b!"\"") ((b :: t).length : Nat)), 1)
    else
      let r := strLoopW t e
      (r.1, r.2 + 1)

/-- `parser::is_object`, wjson/parser.hpp:516-525. -/
def isObjectW : Bytes → Bool × Nat
  | [] => (false, 1)
  | b :: t =>
    if b = c%'{' then (true, 1)
    else if b ≠ c%'[' then (false, 1)
    else
      let r := parseSpaceW t .null
      (r.1.1.head? == some c%']', r.2 + 1)

mutual

/-- `parser::parse_value`, wjson/parser.hpp:533-544. The other tests look at one
byte each and count one. -/
def parseValueW (c : Cfg) : Nat → Bytes → EPtr → Out ((Bytes × EPtr) × Nat)
  | 0, _, _ => .fuel
  | n + 1, s, e =>
    if isNull s then
      let r := parseNullW s e
      .ok (r.1, r.2 + 2)
    else if isBool s then
      let r := parseBoolW s e
      .ok (r.1, r.2 + 3)
    else if isNumber s then
      let r := parseNumberW s e
      .ok (r.1, r.2 + 4)
    else if isString s then
      let r := parseStringW s e
      .ok (r.1, r.2 + 5)
    else
      let o := isObjectW s
      if o.1 then parseObjectW c n s e >>= fun r => .ok (r.1, r.2 + o.2 + 5)
      else if isArray s then parseArrayW c n s e >>= fun r => .ok (r.1, r.2 + o.2 + 6)
      else .ok (([], createError .InvalidJSON e none (s.length : Nat)), o.2 + 6)

/-- `parser::parse_member`, wjson/parser.hpp:546-567. -/
def parseMemberW (c : Cfg) : Nat → Bytes → EPtr → Out ((Bytes × EPtr) × Nat)
  | 0, _, _ => .fuel
  | n + 1, s, e =>
    if !isString s then .ok (([], createError .InvalidMember e none (s.length : Nat)), 2)
    else
      let r := parseStringW s e
      match r.1.1 with
      | [] => .ok (([], createError .UnexpectedEndFragment r.1.2), r.2 + 2)
      | b :: t =>
        let r2 := parseSpaceW (b :: t) r.1.2
        match r2.1.1 with
        | [] => .ok (([], createError .UnexpectedEndFragment r2.1.2), r.2 + r2.2 + 2)
        | b :: t =>
          if b ≠ c%':' then
            .ok (([], createError .ExpectedOf r2.1.2 (some b!":") (t.length : Nat)), r.2 + r2.2 + 2)
          else
            match t with
            | [] => .ok (([], createError .UnexpectedEndFragment r2.1.2), r.2 + r2.2 + 2)
            | b :: t =>
              let r3 := parseSpaceW (b :: t) r2.1.2
              match r3.1.1 with
              | [] => .ok (([], createError .UnexpectedEndFragment r3.1.2), r.2 + r2.2 + r3.2 + 2)
              | b :: t => parseValueW c n (b :: t) r3.1.2 >>= fun v => .ok (v.1, r.2 + r2.2 + r3.2 + v.2 + 2)

/-- `parser::parse_object`, wjson/parser.hpp:569-599. -/
def parseObjectW (c : Cfg) : Nat → Bytes → EPtr → Out ((Bytes × EPtr) × Nat)
  | 0, _, _ => .fuel
  | n + 1, s, e =>
    let o := isObjectW s
    if !o.1 then .ok (([], createError .ExpectedOf e (some b!"{") (s.length : Nat)), o.2 + 1)
    else
      let r := parseSpaceW s.tail e
      if r.1.1.head? = some c%']' then .ok ((r.1.1.tail, r.1.2), o.2 + r.2 + 1)
      else objectLoopW c n r.1.1 r.1.2 >>= fun l => .ok (l.1, o.2 + r.2 + l.2 + 1)

/-- The loop of `parse_object`, wjson/parser.hpp:583-598. -/
def objectLoopW (c : Cfg) : Nat → Bytes → EPtr → Out ((Bytes × EPtr) × Nat)
  | 0, _, _ => .fuel
  | n + 1, s, e =>
    if s = [] ∨ s.head? = some c%'}' then .ok (closeWith c%'}' s e, 1)
    else
      let r := parseSpaceW s e
      deref c r.1.1 >>= fun x =>
      if x = c%'}' then .ok (closeWith c%'}' r.1.1 r.1.2, r.2 + 1)
      else
        parseMemberW c n r.1.1 r.1.2 >>= fun m =>
        let r2 := parseSpaceW m.1.1 m.1.2
        match r2.1.1 with
        | [] => .ok (([], createError .ExpectedOf r2.1.2 (some b!"}") 0), r.2 + m.2 + r2.2 + 1)
        | b :: t =>
          if b ≠ c%',' ∧ b ≠ c%'}' then
            .ok (([], createError .ExpectedOf r2.1.2 (some b!"}") ((b :: t).length : Nat)), r.2 + m.2 + r2.2 + 1)
          else if b = c%',' then objectLoopW c n t r2.1.2 >>= fun l => .ok (l.1, r.2 + m.2 + r2.2 + l.2 + 1)
          else objectLoopW c n (b :: t) r2.1.2 >>= fun l => .ok (l.1, r.2 + m.2 + r2.2 + l.2 + 1)

/-- `parser::parse_array`, wjson/parser.hpp:601-623. -/
def parseArrayW (c : Cfg) : Nat → Bytes → EPtr → Out ((Bytes × EPtr) × Nat)
  | 0, _, _ => .fuel
  | n + 1, s, e =>
    if !isArray s then .ok (([], createError .ExpectedOf e (some b!"[") (s.length : Nat)), 2)
    else arrayLoopW c n s.tail e >>= fun l => .ok (l.1, l.2 + 2)

/-- The loop of `parse_array`, wjson/parser.hpp:607-622. -/
def arrayLoopW (c : Cfg) : Nat → Bytes → EPtr → Out ((Bytes × EPtr) × Nat)
  | 0, _, _ => .fuel
  | n + 1, s, e =>
    if s = [] ∨ s.head? = some c%']' then .ok (closeWith c%']' s e, 1)
    else
      let r := parseSpaceW s e
      deref c r.1.1 >>= fun x =>
      if x = c%']' then .ok (closeWith c%']' r.1.1 r.1.2, r.2 + 1)
      else
        parseValueW c n r.1.1 r.1.2 >>= fun m =>
        let r2 := parseSpaceW m.1.1 m.1.2
        match r2.1.1 with
        | [] => .ok (([], createError .ExpectedOf r2.1.2 (some b!"]") 0), r.2 + m.2 + r2.2 + 1)
        | b :: t =>
          if b ≠ c%',' ∧ b ≠ c%']' then
            .ok (([], createError .ExpectedOf r2.1.2 (some b!"]") ((b :: t).length : Nat)), r.2 + m.2 + r2.2 + 1)
          else if b = c%',' then arrayLoopW c n t r2.1.2 >>= fun l => .ok (l.1, r.2 + m.2 + r2.2 + l.2 + 1)
          else arrayLoopW c n (b :: t) r2.1.2 >>= fun l => .ok (l.1, r.2 + m.2 + r2.2 + l.2 + 1)

end

/-- One token of `despace`, wjson/parser.hpp:138-147. The tests count one each. -/
def despaceTokW (s : Bytes) (e : EPtr) : (Bytes × EPtr) × Nat :=
  if isString s then
    let r := parseStringW s e
    (r.1, r.2 + 1)
  else if isNumber s then
    let r := parseNumberW s e
    (r.1, r.2 + 2)
  else if isBool s then
    let r := parseBoolW s e
    (r.1, r.2 + 3)
  else if isNull s then
    let r := parseNullW s e
    (r.1, r.2 + 4)
  else ((s.tail, e), 4)

/-- The loop of `despace`, wjson/parser.hpp:131-155, with the passes of the loop
that copies the token (lines 151-152). -/
def despaceW : Nat → Bytes → EPtr → Out ((Bytes × EPtr × Bytes) × Nat)
  | 0, _, _ => .fuel
  | n + 1, s, e =>
    if s = [] then .ok (([], e, []), 1)
    else
      let r := parseSpaceW s e
      if r.1.1 = [] then .ok (([], r.1.2, []), r.2 + 1)
      else
        let k := despaceTokW r.1.1 r.1.2
        let w := if k.1.2.failed then [] else r.1.1.take (r.1.1.length - k.1.1.length)
        despaceW n k.1.1 k.1.2 >>= fun q => .ok ((q.1.1, q.1.2.1, w ++ q.1.2.2), r.2 + k.2 + (w.length + 1) + q.2 + 1)

end Wjson
