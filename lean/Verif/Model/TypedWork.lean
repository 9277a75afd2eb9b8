import Verif.Model.Work
import Verif.Model.Array
import Verif.Model.Object
import Verif.Model.ObjectArray
import Verif.Model.Enum
import Verif.Model.Units
import Verif.Model.Misc
import Verif.Model.Float
/-
The work of the typed readers: the read operators of wjson/serializer/*.hpp
again, now with a count, as in Verif/Model/Work.lean. Every call of a function
counts one, every pass through a loop counts one (the pass that ends it
included) and every byte that is stored counts one. An insertion into a
container, the assignment of a variable, the conversion of the text of a
floating point number by `std::stringstream` (it has at most `bufsize` bytes)
and a `std::distance` for the position of an error are not counted.
That the results are those of the readers is proved in
Verif/Props/TypedWork.lean.
-/
namespace Wjson

/-- A read operator with the count of its work. -/
abbrev DeW (α : Type) := α → Bytes → EPtr → Out ((α × Bytes × EPtr) × Nat)

/-! ### Scalars -/

/-- The accumulation loop of `unserialize_integer`, wjson/parser.hpp:648-653. -/
def accIntW (c : Cfg) (ty : IntTy) : Int → Bytes → Out ((Int × Bytes) × Nat)
  | v, [] => .ok ((v, []), 1)
  | v, b :: t =>
    if isDigit b then
      ty.arith c (v * 10) >>= fun p =>
      ty.arith c (p + (b.toNat - 48 : Int)) >>= fun v =>
      accIntW c ty v t >>= fun r => .ok (r.1, r.2 + 1)
    else .ok ((v, b :: t), 1)

/-- `parser::unserialize_integer`, wjson/parser.hpp:632-659. -/
def unserializeIntegerW (c : Cfg) (ty : IntTy) : DeW Int := fun v s e =>
  match s with
  | [] => .ok ((v, [], createError .UnexpectedEndFragment e), 1)
  | b :: t =>
    let neg := b = c%'-'
    let s := if neg then t else b :: t
    match s with
    | [] => .ok ((0, [], createError .InvalidNumber e none 0), 1)
    | b :: t =>
      if !isDigit b then .ok ((0, [], createError .InvalidNumber e none ((b :: t).length : Nat)), 1)
      else if b = c%'0' then .ok ((0, t, e), 1)
      else
        accIntW c ty 0 (b :: t) >>= fun r =>
        (if neg then ty.arith c (-r.1.1) else .ok r.1.1) >>= fun v =>
        .ok ((v, r.1.2, e), r.2 + 1)

/-- `serializerN<T>::operator()` (reading), wjson/serializer/number.hpp:112-122. -/
def deIntW (c : Cfg) (ty : IntTy) : DeW Int := fun v s e =>
  if isNull s then
    let r := parseNullW s e
    .ok ((0, r.1.1, r.1.2), r.2 + 2)
  else unserializeIntegerW c ty v s e >>= fun r => .ok (r.1, r.2 + 2)

/-- `value<bool>::serializer` (reading), wjson/serializer/bool.hpp:41-62. -/
def deBoolW : DeW Bool := fun v s e =>
  match s with
  | [] => .ok ((v, [], createError .UnexpectedEndFragment e), 1)
  | b :: t =>
    if isNull (b :: t) then
      let r := parseNullW (b :: t) e
      .ok ((false, r.1.1, r.1.2), r.2 + 2)
    else
      let v := b == c%'t'
      if v then
        let r := parseBoolW (b :: t) e
        .ok ((v, r.1.1, r.1.2), r.2 + 2)
      else if b = c%'f' then
        let r := parseBoolW (b :: t) e
        .ok ((v, r.1.1, r.1.2), r.2 + 2)
      else .ok ((v, [], createError .InvalidBool e none ((b :: t).length : Nat)), 2)

/-- `serializerF` reading, wjson/serializer/float.hpp:56-80, with the copy of the
first `bufsize` bytes. -/
def deFloatW {α : Type} (F : FloatTy α) (R : Int) : DeW α := fun v s e =>
  match s with
  | [] => .ok ((v, [], createError .UnexpectedEndFragment e), 1)
  | b :: t =>
    if isNull (b :: t) then
      let r := parseNullW (b :: t) e
      .ok ((F.dflt, r.1.1, r.1.2), r.2 + 2)
    else if !isNumber (b :: t) then .ok ((v, [], createError .InvalidNumber e none ((b :: t).length : Nat)), 3)
    else
      let r := parseNumberW (b :: t) e
      let w := (b :: t).take (floatBuf R)
      .ok ((F.conv (w.takeWhile (· ≠ 0)) v, r.1.1, r.1.2), r.2 + w.length + 3)

/-- The reading of `k` hexadecimal digits, wjson/serializer/string.hpp:201-212,
274-279: the number of calls and passes. -/
def hexNC : Nat → Bytes → Nat
  | 0, _ => 1
  | _ + 1, [] => 1
  | k + 1, _ :: t => hexNC k t + 2

/-- `serializerS::utf8_copy_<N>`, wjson/serializer/string.hpp:178-188: the number of
passes and of the bytes stored. -/
def utf8CopyC : Nat → Bytes → Nat → Nat
  | 0, _, _ => 1
  | _ + 1, _, 0 => 1
  | _ + 1, [], _ + 1 => 1
  | i + 1, _ :: t, n + 1 => utf8CopyC i t n + 2

/-- The body of the loop of `serializerS::unserialize` and what it calls,
wjson/serializer/string.hpp:97-118, 156-176, 195-283: apart from the loops above
straight-line code, and one for every byte stored. -/
def strStepC (b : Byte) (t : Bytes) (n : Nat) (e : EPtr) : Nat :=
  if b = c%'\\' then
    match t with
    | [] => 1
    | x :: t' =>
      match simpleEsc x with
      | some _ => 2
      | none =>
        if x = c%'u' then hexNC 4 t' + (uhexStep t' n e).1.length + 2
        else if x = c%'x' then hexNC 2 t' + (xhexStep t' n e).1.length + 2
        else 1
  else
    if b &&& 128 = 0 then 3
    else if b &&& 224 = 192 then utf8CopyC 2 (b :: t) n + 2
    else if b &&& 240 = 224 then utf8CopyC 3 (b :: t) n + 2
    else if b &&& 248 = 240 then utf8CopyC 4 (b :: t) n + 2
    else 2

/-- The loop of `serializerS::unserialize` and the code after it,
wjson/serializer/string.hpp:95-127. -/
def strDecW (s : Bytes) (n : Nat) (e : EPtr) : (Bytes × Bytes × EPtr) × Nat :=
  match s with
  | [] => (([], [], createError .UnexpectedEndFragment e), 1)
  | b :: t =>
    if b = c%'"' then (([], t, e), 1)
    else if _hn : n = 0 then (([], [], createError .ExpectedOf e (some b!"\"") ((b :: t).length : Nat)), 1)
    else
      let r := strDecW (strStep b t n e).2.1 (strStep b t n e).2.2.1 (strStep b t n e).2.2.2
      (((strStep b t n e).1 ++ r.1.1, r.1.2), r.2 + strStepC b t n e + 1)
termination_by s.length
decreasing_by exact strStep_length b t e _hn

/-- `serializerS::unserialize`, wjson/serializer/string.hpp:86-128. -/
def unserializeStrW (s : Bytes) (k : Sink) (n : Nat) (e : EPtr) : Out ((Sink × Bytes × EPtr) × Nat) :=
  match s with
  | [] => .ok ((k, [], createError .UnexpectedEndFragment e), 1)
  | b :: t =>
    if b ≠ c%'"' then .ok ((k, [], createError .ExpectedOf e (some b!"\"") ((b :: t).length : Nat)), 1)
    else
      let r := strDecW t n e
      k.puts r.1.1 >>= fun k => .ok ((k, r.1.2), r.2 + 1)

/-- `value<std::string>::serializer` (reading), wjson/serializer/string.hpp:337-346,
361-369. -/
def deStrW : DeW Bytes := fun _ s e =>
  if isNull s then
    let r := parseNullW s e
    .ok (([], r.1.1, r.1.2), r.2 + 2)
  else
    unserializeStrW s ⟨[], .back⟩ intMax e >>= fun r => .ok ((r.1.1.mem, r.1.2), r.2 + 2)

/-- `value<char[N]>::serializer` (reading), wjson/serializer/string.hpp:311-321, with
the `N` bytes of `std::fill_n`. -/
def deCharArrayW (N : Nat) : DeW Bytes := fun _ s e =>
  let zero : Bytes := List.replicate N 0
  if isNull s then
    let r := parseNullW s e
    .ok ((zero, r.1.1, r.1.2), r.2 + N + 2)
  else
    unserializeStrW s ⟨zero, .ptr 0⟩ N e >>= fun r => .ok ((r.1.1.mem, r.1.2), r.2 + N + 2)

/-! ### Enumerations and flags -/

/-- The matching loop, wjson/serializer/enumerator.hpp:88, flags.hpp:120, 164. -/
def matchNameW : Bytes → Bytes → (Bytes × Bytes) × Nat
  | a :: n, b :: s =>
    if a = b then
      let r := matchNameW n s
      (r.1, r.2 + 1)
    else ((a :: n, b :: s), 1)
  | n, s => ((n, s), 1)

/-- `for ( ; beg!=end && *beg<=' '; ++beg)`, wjson/serializer/enumerator.hpp:35. -/
def skipLowW (c : Cfg) : Bytes → Bytes × Nat
  | [] => ([], 1)
  | b :: s =>
    if leSpace c b then
      let r := skipLowW c s
      (r.1, r.2 + 1)
    else (b :: s, 1)

/-- `deserialize` over the list, wjson/serializer/enumerator.hpp:83-101. -/
def enumFindW {α : Type} : List (Bytes × α) → Bytes → Option α × Nat
  | [], _ => (none, 1)
  | x :: L, s =>
    let m := matchNameW x.1 s
    if m.1 = ([], []) then (some x.2, m.2 + 1)
    else
      let r := enumFindW L s
      (r.1, r.2 + m.2 + 1)

/-- `for ( ; beg!=end && *beg!='"'; ++beg)`, wjson/serializer/enumerator.hpp:46. -/
def toQuoteW : Bytes → (Bytes × Bytes) × Nat
  | [] => (([], []), 1)
  | b :: s =>
    if b = c%'"' then (([], b :: s), 1)
    else
      let r := toQuoteW s
      ((b :: r.1.1, r.1.2), r.2 + 1)

/-- Reading an enumeration, wjson/serializer/enumerator.hpp:31-56. -/
def deEnumW {α : Type} (c : Cfg) (strict : Bool) (dflt : α) (L : List (Bytes × α)) : DeW α := fun _ s e =>
  let r := skipLowW c s
  match r.1 with
  | [] => .ok ((dflt, [], createError .UnexpectedEndFragment e), r.2 + 1)
  | b :: p =>
    if b ≠ c%'"' then .ok ((dflt, [], createError .ExpectedOf e (some b!"\"") ((b :: p).length : Nat)), r.2 + 1)
    else
      match p with
      | [] => .ok ((dflt, [], createError .UnexpectedEndFragment e), r.2 + 1)
      | b :: p =>
        let first := b :: p
        let w := toQuoteW first
        match w.1.2 with
        | [] => .ok ((dflt, [], createError .UnexpectedEndFragment e), r.2 + w.2 + 1)
        | _ :: q =>
          let f := enumFindW L w.1.1
          match f.1 with
          | some v => .ok ((v, q, e), r.2 + w.2 + f.2 + 1)
          | none =>
            if strict then .ok ((dflt, [], createError .InvalidEnum e none (first.length : Nat)), r.2 + w.2 + f.2 + 1)
            else .ok ((dflt, q, e), r.2 + w.2 + f.2 + 1)

/-- `for ( ; beg!=end && *beg!=Sep && *beg!='"'; ++beg)`, wjson/serializer/flags.hpp:209. -/
def toSepW (sep : Byte) : Bytes → Bytes × Nat
  | [] => ([], 1)
  | b :: s =>
    if b ≠ sep ∧ b ≠ c%'"' then
      let r := toSepW sep s
      (r.1, r.2 + 1)
    else (b :: s, 1)

/-- `deserialize_one` in a string with separators, wjson/serializer/flags.hpp:99-146,
202-214. -/
def flagOneStrW {w : Nat} (sep : Byte) (strict : Bool) :
    List (Bytes × BitVec w) → BitVec w → Bytes → EPtr → Bool → (BitVec w × Bytes × EPtr) × Nat
  | [], v, s, e, ready =>
    if ready || strict then ((v, s, e), 1)
    else
      let r := parseSpaceW s e
      let u := toSepW sep r.1.1
      let r2 := parseSpaceW u.1 r.1.2
      match r2.1.1 with
      | [] => ((v, [], r2.1.2), r.2 + u.2 + r2.2 + 1)
      | b :: p =>
        let r3 := parseSpaceW (if b = sep then p else b :: p) r2.1.2
        ((v, r3.1), r.2 + u.2 + r2.2 + r3.2 + 1)
  | x :: L, v, s, e, ready =>
    if s = [] then ((v, s, e), 1)
    else
      let r := if sep ≠ c%' ' then parseSpaceW s e else ((s, e), 0)
      match r.1.1 with
      | [] => ((v, [], r.1.2), r.2 + 1)
      | b :: p =>
        if b = c%'"' then ((v, b :: p, r.1.2), r.2 + 1)
        else
          let m := matchNameW x.1 (b :: p)
          match m.1 with
          | ([], d :: q) =>
            if (sep ≠ c%' ' ∧ isSpace (d :: q)) ∨ d = sep ∨ d = c%'"' then
              let v := v ||| x.2
              let r2 := if sep ≠ c%' ' then parseSpaceW (d :: q) r.1.2 else ((d :: q, r.1.2), 0)
              match r2.1.1 with
              | [] => ((v, [], r2.1.2), r.2 + m.2 + r2.2 + 2)
              | d :: q =>
                if d = c%'"' then ((v, d :: q, r2.1.2), r.2 + m.2 + r2.2 + 2)
                else
                  let y := flagOneStrW sep strict L v (if d = sep then q else d :: q) r2.1.2 true
                  (y.1, y.2 + r.2 + m.2 + r2.2 + 2)
            else
              let y := flagOneStrW sep strict L v (b :: p) r.1.2 ready
              (y.1, y.2 + r.2 + m.2 + 2)
          | _ =>
            let y := flagOneStrW sep strict L v (b :: p) r.1.2 ready
            (y.1, y.2 + r.2 + m.2 + 2)

/-- `deserialize_one` in a JSON array, wjson/serializer/flags.hpp:148-200. -/
def flagOneArrW {w : Nat} (c : Cfg) (strict : Bool) :
    List (Bytes × BitVec w) → BitVec w → Bytes → EPtr → Bool → Out ((BitVec w × Bytes × EPtr) × Nat)
  | [], v, s, e, ready =>
    if ready || strict then .ok ((v, s, e), 1)
    else
      let r := parseSpaceW s e
      deref c r.1.1 >>= fun b =>
      if b = c%']' then .ok ((v, r.1), r.2 + 1)
      else
        let u := parseStringW r.1.1 r.1.2
        let r2 := parseSpaceW u.1.1 u.1.2
        match r2.1.1 with
        | [] => .ok ((v, [], r2.1.2), r.2 + u.2 + r2.2 + 1)
        | b :: p =>
          let r3 := parseSpaceW (if b = c%',' then p else b :: p) r2.1.2
          .ok ((v, r3.1), r.2 + u.2 + r2.2 + r3.2 + 1)
  | x :: L, v, s, e, ready =>
    let r := parseSpaceW s e
    match r.1.1 with
    | [] => .ok ((v, [], r.1.2), r.2 + 1)
    | b :: p =>
      if b = c%']' then .ok ((v, b :: p, r.1.2), r.2 + 1)
      else if b ≠ c%'"' then .ok ((v, [], createError .ExpectedOf r.1.2 (some b!"\"") ((b :: p).length : Nat)), r.2 + 1)
      else
        let m := matchNameW x.1 p
        match m.1 with
        | ([], d :: q) =>
          if d = c%'"' then
            let v := v ||| x.2
            let r2 := parseSpaceW q r.1.2
            match r2.1.1 with
            | [] => .ok ((v, [], r2.1.2), r.2 + m.2 + r2.2 + 1)
            | d :: q =>
              if d ≠ c%',' then .ok ((v, d :: q, r2.1.2), r.2 + m.2 + r2.2 + 1)
              else
                let r3 := parseSpaceW q r2.1.2
                flagOneArrW c strict L v r3.1.1 r3.1.2 true >>= fun y => .ok (y.1, y.2 + r.2 + m.2 + r2.2 + r3.2 + 1)
          else flagOneArrW c strict L v (b :: p) r.1.2 ready >>= fun y => .ok (y.1, y.2 + r.2 + m.2 + 1)
        | _ => flagOneArrW c strict L v (b :: p) r.1.2 ready >>= fun y => .ok (y.1, y.2 + r.2 + m.2 + 1)

/-- `deserialize_one` in either form. -/
def flagOneW {w : Nat} (c : Cfg) (F : Flags w) (arr : Bool) (v : BitVec w) (s : Bytes) (e : EPtr) :
    Out ((BitVec w × Bytes × EPtr) × Nat) :=
  if arr then flagOneArrW c F.strict F.list v s e false else .ok (flagOneStrW F.sep F.strict F.list v s e false)

/-- `deserialize`, wjson/serializer/flags.hpp:217-233. -/
def flagLoopW {w : Nat} (c : Cfg) (F : Flags w) (arr : Bool) :
    Nat → BitVec w → Bytes → EPtr → Out ((BitVec w × Bytes × EPtr) × Nat)
  | 0, _, _, _ => .fuel
  | n + 1, v, s, e =>
    match s with
    | [] => .ok ((v, [], e), 1)
    | b :: p =>
      if b = (if arr then c%']' else c%'"') then .ok ((v, b :: p, e), 1)
      else
        flagOneW c F arr v (b :: p) e >>= fun r =>
        if r.1.2.1.length = (b :: p).length then
          .ok ((r.1.1, [], createError .InvalidEnum r.1.2.2 none (r.1.2.1.length : Nat)), r.2 + 1)
        else if r.1.2.1 = [] then .ok ((r.1.1, [], createError .UnexpectedEndFragment r.1.2.2), r.2 + 1)
        else flagLoopW c F arr n r.1.1 r.1.2.1 r.1.2.2 >>= fun y => .ok (y.1, y.2 + r.2 + 1)

/-- Reading flags, wjson/serializer/flags.hpp:30-61. -/
def deFlagsW {w : Nat} (c : Cfg) (F : Flags w) : DeW (BitVec w) := fun _ s e =>
  match s with
  | [] => .ok ((0, [], createError .UnexpectedEndFragment e), 1)
  | b :: p =>
    if b ≠ c%'[' ∧ b ≠ c%'"' then .ok ((0, [], createError .ExpectedOf e (some b!"\"") ((b :: p).length : Nat)), 1)
    else
      flagLoopW c F (b = c%'[') (p.length + 1) 0 p e >>= fun r =>
      flagsEnd r.1.1 r.1.2.1 r.1.2.2 >>= fun y => .ok (y, r.2 + 2)

/-! ### Units -/

/-- The loop of `time_interval` reading, wjson/serializer/time_interval.hpp:65-109. -/
def timeLoopW (c : Cfg) (ty : IntTy) (fr : Int) : Nat → DeW Int
  | 0, _, _, _ => .fuel
  | _ + 1, v, [], e => .ok ((v, [], createError .UnexpectedEndFragment e), 1)
  | n + 1, v, b :: t, e =>
    if b = c%'"' then .ok ((v, t, e), 1)
    else
      deIntW c ty 0 (b :: t) e >>= fun r =>
      let cur := r.1.1
      let e := r.1.2.2
      let on := fun v t => timeLoopW c ty fr n v t e >>= fun y => .ok (y.1, y.2 + r.2 + 1)
      if e.failed then .ok ((v, r.1.2.1, e), r.2 + 1)
      else
        match r.1.2.1 with
        | [] => .ok ((v, [], e), r.2 + 1)
        | u :: t =>
          if u = c%'d' then timeAdd c ty fr v cur 86400 >>= fun v => on v t
          else if u = c%'h' then timeAdd c ty fr v cur 3600 >>= fun v => on v t
          else if u = c%'m' then
            match t with
            | [] => timeAdd c ty fr v cur 60 >>= fun v => on v []
            | w :: t =>
              if w = c%'s' then timeAddSub c ty fr v cur 1000 >>= fun v => on v t
              else if w = c%'k' then
                timeAddSub c ty fr v cur 1000000 >>= fun v =>
                match t with
                | [] => .ub
                | _ :: t => on v t
              else timeAdd c ty fr v cur 60 >>= fun v => on v (w :: t)
          else if u = c%'s' then timeAddSub c ty fr v cur 1 >>= fun v => on v t
          else on v t

/-- `time_interval` reading, wjson/serializer/time_interval.hpp:46-110. -/
def deTimeW (c : Cfg) (ty : IntTy) (fr : Int) : DeW Int := fun v s e =>
  match s with
  | [] => .ok ((v, [], createError .UnexpectedEndFragment e), 1)
  | b :: t =>
    if isNull (b :: t) then
      let r := parseNullW (b :: t) e
      .ok ((0, r.1.1, r.1.2), r.2 + 2)
    else if isNumber (b :: t) then deIntW c ty 0 (b :: t) e >>= fun r => .ok (r.1, r.2 + 3)
    else if !isString (b :: t) then .ok ((0, [], createError .InvalidString e none 0), 4)
    else timeLoopW c ty fr (t.length + 1) 0 t e >>= fun r => .ok (r.1, r.2 + 4)

/-- `std::strlen`. -/
def cstrW : Bytes → Out (Bytes × Nat)
  | [] => .ub
  | b :: t => if b = 0 then .ok ([], 1) else cstrW t >>= fun r => .ok (b :: r.1, r.2 + 1)

/-- `size_value` reading, wjson/serializer/size_value.hpp:59-120. -/
def deSizeW (c : Cfg) (ty : IntTy) (metric : Int) : DeW Int := fun v s e =>
  match s with
  | [] => .ok ((v, [], createError .UnexpectedEndFragment e), 1)
  | b :: t =>
    if isNull (b :: t) then
      let r := parseNullW (b :: t) e
      .ok ((0, r.1.1, r.1.2), r.2 + 2)
    else if isNumber (b :: t) then deIntW c ty 0 (b :: t) e >>= fun r => .ok (r.1, r.2 + 3)
    else if !isString (b :: t) then .ok ((0, [], createError .InvalidString e none 0), 4)
    else
      deCharArrayW 32 (List.replicate 32 0) (b :: t) e >>= fun r =>
      if r.1.2.2.failed then .ok ((0, r.1.2.1, r.1.2.2), r.2 + 4)
      else
        cstrW r.1.1 >>= fun buf =>
        deIntW c .long 0 buf.1 r.1.2.2 >>= fun q =>
        sizeApply c ty metric r.1.2.1 q.1 >>= fun y => .ok (y, r.2 + buf.2 + q.2 + 4)

/-! ### Raw values, pointers, quoted values -/

/-- `raw_value` (reading), wjson/serializer/raw_value.hpp:35-43, with the copy of the
value. -/
def deRawW (c : Cfg) : DeW Bytes := fun _ s e =>
  parseValueW c (fuelFor s) s e >>= fun r => .ok ((consumed s r.1.1, r.1), r.2 + (consumed s r.1.1).length + 1)

/-- `pointer` (reading), wjson/serializer/pointer.hpp:35-67. -/
def dePointerW {α : Type} (S : Ser α) (W : DeW α) : DeW (Option α) := fun _ s e =>
  match s with
  | [] => .ok ((none, [], e), 1)
  | b :: t =>
    if b ≠ c%'n' then W S.dflt (b :: t) e >>= fun r => .ok ((some r.1.1, r.1.2), r.2 + 1)
    else .ok ((none, (b :: t).drop 4, e), 5)

/-- `serializerRQ` (reading), wjson/serializer/quoted.hpp:30-58, with the copy of the
value. -/
def deRawQuotedW (c : Cfg) (reqQ : Bool) : DeW Bytes := fun v s e =>
  match s with
  | [] => .ok ((v, [], createError .UnexpectedEndFragment e), 1)
  | b :: t =>
    if reqQ && b ≠ c%'"' then .ok ((v, [], createError .ExpectedOf e (some b!"\"") ((b :: t).length : Nat)), 1)
    else
      let s := if reqQ then t else b :: t
      parseValueW c (fuelFor s) s e >>= fun x =>
      let r := x.1
      let k := x.2 + (consumed s r.1).length + 1
      if r.2.failed then .ok (([], r), k)
      else if reqQ then
        match r.1 with
        | [] => .ok ((consumed s [], [], createError .UnexpectedEndFragment r.2), k)
        | d :: q =>
          if d = c%'"' then .ok ((consumed s r.1, q, r.2), k)
          else .ok ((consumed s r.1, [], createError .ExpectedOf r.2 (some b!"\"") ((d :: q).length : Nat)), k)
      else .ok ((consumed s r.1, r), k)

/-- `serializerQ::deserialize(…, fas::true_)`, wjson/serializer/quoted.hpp:97-113. -/
def deQuotedStrW {α : Type} (W : DeW α) : DeW α := fun v s e =>
  deStrW [] s e >>= fun x =>
  let r := x.1
  if r.2.2.failed then .ok ((v, [], r.2.2), x.2 + 1)
  else
    W v r.1 .fresh >>= fun y =>
    let r2 := y.1
    match r2.2.2 with
    | .null => .ok ((r2.1, r.2), x.2 + y.2 + 1)
    | .obj z =>
      if z.status && r.2.2 ≠ .null then
        .ok ((r2.1, [], r.2.2.assign ⟨z.code, none, (r.2.1.length : Int) + z.tailOf + 1⟩), x.2 + y.2 + 1)
      else .ok ((r2.1, r.2), x.2 + y.2 + 1)

/-- `serializerQ::deserialize`, wjson/serializer/quoted.hpp:97-121. -/
def deQuotedW {α : Type} (W : DeW α) (reqQ : Bool) : DeW α := fun v s e =>
  if reqQ then deQuotedStrW W v s e >>= fun r => .ok (r.1, r.2 + 1)
  else if isString s then deQuotedStrW W v s e >>= fun r => .ok (r.1, r.2 + 2)
  else W v s e >>= fun r => .ok (r.1, r.2 + 2)

/-- `member_value`, wjson/serializer/member_value.hpp:11-26. -/
def deMemberValueW {τ α : Type} (get : τ → α) (set : α → τ → τ) (W : DeW α) : DeW τ := fun t s e =>
  W (get t) s e >>= fun r => .ok ((set r.1.1 t, r.1.2), r.2 + 1)

/-! ### Containers -/

/-- The loop of the generic `serializerA::operator()`, wjson/serializer/array.hpp:61-87. -/
def seqLoopW {α C : Type} (K : Coll α C) (S : Ser α) (W : DeW α) (R : Byte) :
    Nat → C → Bytes → EPtr → Out ((C × Bytes × EPtr) × Nat)
  | 0, _, _, _ => .fuel
  | n + 1, t, s, e =>
    match s with
    | [] => .ok ((t, [], createError .UnexpectedEndFragment e), 1)
    | _ :: _ =>
      let r := parseSpaceW s e
      match r.1.1 with
      | [] => .ok ((t, [], createError .UnexpectedEndFragment r.1.2), r.2 + 1)
      | b :: p =>
        if b = R then .ok ((t, p, r.1.2), r.2 + 1)
        else
          W S.dflt (b :: p) r.1.2 >>= fun d =>
          let t := K.insert t d.1.1
          let r2 := parseSpaceW d.1.2.1 d.1.2.2
          match r2.1.1 with
          | [] => .ok ((t, [], createError .UnexpectedEndFragment r2.1.2), r.2 + d.2 + r2.2 + 2)
          | b :: q =>
            if b = R then .ok ((t, q, r2.1.2), r.2 + d.2 + r2.2 + 2)
            else if b ≠ c%',' then
              .ok ((t, [], createError .ExpectedOf r2.1.2 (some b!",") ((b :: q).length : Nat)), r.2 + d.2 + r2.2 + 2)
            else seqLoopW K S W R n t q r2.1.2 >>= fun y => .ok (y.1, y.2 + r.2 + d.2 + r2.2 + 2)

/-- `serializerA<T,L,R>::operator()` (reading), wjson/serializer/array.hpp:44-88. -/
def deSeqW {α C : Type} (K : Coll α C) (S : Ser α) (W : DeW α) (L R : Byte) : DeW C := fun _ s e =>
  if isNull s then
    let r := parseNullW s e
    .ok ((K.clear, r.1.1, r.1.2), r.2 + 2)
  else
    match s with
    | [] => .ok ((K.clear, [], createError .UnexpectedEndFragment e), 2)
    | b :: t =>
      if b ≠ L then .ok ((K.clear, [], createError .ExpectedOf e (some [L]) ((b :: t).length : Nat)), 2)
      else seqLoopW K S W R (t.length + 1) K.clear t e >>= fun y => .ok (y.1, y.2 + 2)

/-- `null` for every element, wjson/serializer/array.hpp:130-134, 210-214. -/
def fixNullW {α : Type} (W : DeW α) (s : Bytes) : List α → EPtr → Out ((List α × EPtr) × Nat)
  | [], e => .ok (([], e), 1)
  | v :: vs, e =>
    W v s e >>= fun d => fixNullW W s vs d.1.2.2 >>= fun r => .ok ((d.1.1 :: r.1.1, r.1.2), d.2 + r.2 + 1)

/-- The loop for fixed-size arrays, wjson/serializer/array.hpp:147-174, 227-250. -/
def fixLoopW {α : Type} (k : FixKind) (S : Ser α) (W : DeW α) (R : Byte) :
    List α → Bytes → EPtr → Out ((List α × Bytes × EPtr) × Nat)
  | [], s, e => fixClose R [] s e >>= fun x => .ok (x, 1)
  | v :: vs, s, e =>
    match s with
    | [] => fixClose R (v :: vs) [] e >>= fun x => .ok (x, 1)
    | _ :: _ =>
      let r := parseSpaceW s e
      match r.1.1 with
      | [] => .ok ((v :: vs, [], createError .UnexpectedEndFragment r.1.2), r.2 + 1)
      | b :: p =>
        if b = R then fixClose R (v :: vs) (b :: p) r.1.2 >>= fun x => .ok (x, r.2 + 1)
        else
          W (k.start S v) (b :: p) r.1.2 >>= fun d =>
          let r2 := parseSpaceW d.1.2.1 d.1.2.2
          match r2.1.1 with
          | [] => .ok ((d.1.1 :: vs, [], createError .UnexpectedEndFragment r2.1.2), r.2 + d.2 + r2.2 + 1)
          | b :: q =>
            if b = R then fixClose R (d.1.1 :: vs) (b :: q) r2.1.2 >>= fun x => .ok (x, r.2 + d.2 + r2.2 + 1)
            else if b ≠ c%',' then
              .ok ((d.1.1 :: vs, [], createError .ExpectedOf r2.1.2 (some k.commaMsg) ((b :: q).length : Nat)),
                r.2 + d.2 + r2.2 + 1)
            else fixLoopW k S W R vs q r2.1.2 >>= fun x => .ok ((d.1.1 :: x.1.1, x.1.2), x.2 + r.2 + d.2 + r2.2 + 1)

/-- Reading a fixed-size array, wjson/serializer/array.hpp:125-174, 205-250. -/
def deFixW {α : Type} (k : FixKind) (S : Ser α) (W : DeW α) (L R : Byte) : DeW (List α) := fun t s e =>
  if isNull s then
    fixNullW W s t e >>= fun x =>
    let r := parseNullW s x.1.2
    .ok ((x.1.1, r.1.1, r.1.2), x.2 + r.2 + 2)
  else
    match s with
    | [] => .ok ((t, [], createError .UnexpectedEndFragment e), 2)
    | b :: p =>
      if b ≠ L then .ok ((t, [], createError .ExpectedOf e (some [L]) ((b :: p).length : Nat)), 2)
      else fixLoopW k S W R t p e >>= fun x => .ok (x.1, x.2 + 2)

/-- The same with the number of elements in the type. -/
def deFixVecW {α : Type} {N : Nat} (k : FixKind) (S : Ser α) (W : DeW α) : DeW (Vector α N) := fun t s e =>
  deFixW k S W c%'[' c%']' t.toList s e >>= fun r =>
  if h : r.1.1.length = N then .ok ((⟨r.1.1.toArray, by simpa using h⟩, r.1.2), r.2) else .ub

/-- `serializerT<field<K,V>>` (reading), wjson/serializer/field.hpp:34-48. -/
def deFieldW {κ ν : Type} (WK : DeW κ) (WV : DeW ν) : DeW (κ × ν) := fun t s e =>
  WK t.1 s e >>= fun d =>
  let r := parseSpaceW d.1.2.1 d.1.2.2
  match r.1.1 with
  | [] => .ok (((d.1.1, t.2), [], createError .UnexpectedEndFragment r.1.2), d.2 + r.2 + 1)
  | b :: p =>
    if b ≠ c%':' then
      .ok (((d.1.1, t.2), [], createError .ExpectedOf r.1.2 (some b!":") ((b :: p).length : Nat)), d.2 + r.2 + 1)
    else
      let r2 := parseSpaceW p r.1.2
      match r2.1.1 with
      | [] => .ok (((d.1.1, t.2), [], createError .UnexpectedEndFragment r2.1.2), d.2 + r.2 + r2.2 + 1)
      | b :: p => WV t.2 (b :: p) r2.1.2 >>= fun x => .ok (((d.1.1, x.1.1), x.1.2), d.2 + r.2 + r2.2 + x.2 + 1)

/-! ### Structures -/

/-- The comparison loop of wjson/serializer/object.hpp:256. -/
def nameLoopW : Bytes → Bytes → (Bytes × Bytes) × Nat
  | n :: ns, b :: t =>
    if b = n ∧ b ≠ c%'"' then
      let r := nameLoopW ns t
      (r.1, r.2 + 1)
    else ((n :: ns, b :: t), 1)
  | ns, s => ((ns, s), 1)

/-- `unserialize_member_name`, wjson/serializer/object.hpp:246-282. -/
def memberNameW (name : Bytes) (s : Bytes) (e : EPtr) (u : Bool) : (Bytes × EPtr × Bool) × Nat :=
  match s with
  | [] => (([], createError .ExpectedOf e (some b!"\"") 0, u), 1)
  | b :: t =>
    if b ≠ c%'"' then (([], createError .ExpectedOf e (some b!"\"") ((b :: t).length : Nat), u), 1)
    else
      let l := nameLoopW name t
      match l.1.2 with
      | [] => (([], createError .UnexpectedEndFragment e, true), l.2 + 1)
      | b' :: p =>
        if b' ≠ c%'"' ∨ l.1.1 ≠ [] then ((b :: t, e, false), l.2 + 1)
        else
          let r := parseSpaceW p e
          match r.1.1 with
          | [] => (([], createError .UnexpectedEndFragment r.1.2, true), l.2 + r.2 + 1)
          | b' :: p =>
            if b' ≠ c%':' then
              (([], createError .ExpectedOf r.1.2 (some b!":") ((b' :: p).length : Nat), true), l.2 + r.2 + 1)
            else
              let r2 := parseSpaceW p r.1.2
              match r2.1.1 with
              | [] => (([], createError .UnexpectedEndFragment r2.1.2, true), l.2 + r.2 + r2.2 + 1)
              | b' :: p => ((b' :: p, r2.1.2, true), l.2 + r.2 + r2.2 + 1)

/-- The reading of an entry of the member list with its count. -/
abbrev MemberW (τ : Type) := τ → Bytes → EPtr → Bool → Out ((τ × Bytes × EPtr × Bool) × Nat)

/-- `unserialize_member` for `member` (`start` is the access to the part) and
`member_p` (`start` is `M()`), wjson/serializer/object.hpp:285-306. -/
def deMemberW {τ : Type} (m : MRef τ) (start : τ → m.α) (W : DeW m.α) : MemberW τ := fun t s e u =>
  let r := memberNameW m.name s e u
  if !r.1.2.2 then .ok ((t, r.1), r.2 + 1)
  else W (start t) r.1.1 r.1.2.1 >>= fun d => .ok ((m.set d.1.1 t, d.1.2.1, d.1.2.2, true), r.2 + d.2 + 1)

/-- An entry of a member list and the counted reader of its part. -/
structure WEntry (τ : Type) where
  entry : Entry τ
  work : DeW entry.ref.α

/-- An entry of the list of `object`. -/
def WEntry.de {τ : Type} : WEntry τ → MemberW τ
  | ⟨.mem m, W⟩ => deMemberW m m.get W
  | ⟨.prop m, W⟩ => deMemberW m (fun _ => m.ser.dflt) W

/-- The search for a member from the start of the list,
wjson/serializer/object.hpp:155-169, 227-243. -/
def searchMembersW {τ : Type} (c : Cfg) (strict : Bool) :
    List (MemberW τ) → τ → Bytes → EPtr → Out ((τ × Bytes × EPtr) × Nat)
  | [], t, s, e =>
    if !strict then
      parseMemberW c (fuelFor s) s e >>= fun r =>
      let r2 := parseSpaceW r.1.1 r.1.2
      .ok ((t, r2.1.1, r2.1.2), r.2 + r2.2 + 1)
    else
      match s with
      | [] => .ok ((t, [], createError .UnexpectedEndFragment e), 1)
      | b :: p =>
        if b = c%'}' then .ok ((t, b :: p, e), 1)
        else .ok ((t, [], createError .InvalidMember e none ((b :: p).length : Nat)), 1)
  | m :: l, t, s, e =>
    m t s e false >>= fun d =>
    if d.1.2.2.2 then .ok ((d.1.1, d.1.2.1, d.1.2.2.1), d.2 + 1)
    else searchMembersW c strict l d.1.1 d.1.2.1 d.1.2.2.1 >>= fun y => .ok (y.1, y.2 + d.2 + 1)

/-- The loop of `unserialize_members` for the empty list,
wjson/serializer/object.hpp:206-225. -/
def skipLoopW (c : Cfg) (strict : Bool) : Nat → Bytes → EPtr → Out ((Bytes × EPtr) × Nat)
  | 0, _, _ => .fuel
  | n + 1, s, e =>
    parseMemberW c (fuelFor s) s e >>= fun m =>
    let r := parseSpaceW m.1.1 m.1.2
    match r.1.1 with
    | [] => .ok (([], createError .UnexpectedEndFragment r.1.2), m.2 + r.2 + 1)
    | b :: p =>
      if b = c%'}' then
        if !strict then .ok ((b :: p, r.1.2), m.2 + r.2 + 1)
        else .ok (([], createError .InvalidMember r.1.2 none (s.length : Nat)), m.2 + r.2 + 1)
      else if b ≠ c%',' then
        .ok (([], createError .ExpectedOf r.1.2 (some b!",") ((b :: p).length : Nat)), m.2 + r.2 + 1)
      else
        let r2 := parseSpaceW p r.1.2
        skipLoopW c strict n r2.1.1 r2.1.2 >>= fun y => .ok (y.1, y.2 + m.2 + r.2 + r2.2 + 1)

/-- `unserialize_members` for the empty list, wjson/serializer/object.hpp:196-225. -/
def skipMembersW (c : Cfg) (strict : Bool) (s : Bytes) (e : EPtr) : Out ((Bytes × EPtr) × Nat) :=
  let r := parseSpaceW s e
  match r.1.1 with
  | [] => .ok (([], createError .UnexpectedEndFragment r.1.2), r.2 + 1)
  | b :: p =>
    if b = c%'}' then .ok ((b :: p, r.1.2), r.2 + 1)
    else skipLoopW c strict (p.length + 2) (b :: p) r.1.2 >>= fun y => .ok (y.1, y.2 + r.2 + 1)

/-- `unserialize_members`, wjson/serializer/object.hpp:155-225. -/
def membersW {τ : Type} (c : Cfg) (strict : Bool) (L : List (MemberW τ)) :
    Nat → List (MemberW τ) → τ → Bytes → EPtr → Out ((τ × Bytes × EPtr) × Nat)
  | 0, _, _, _, _ => .fuel
  | _ + 1, [], t, s, e => skipMembersW c strict s e >>= fun r => .ok ((t, r.1.1, r.1.2), r.2)
  | n + 1, m :: l, t, s, e =>
    m t s e false >>= fun d =>
    (if d.1.2.2.2 then .ok ((d.1.1, d.1.2.1, d.1.2.2.1), 0)
     else searchMembersW c strict L d.1.1 d.1.2.1 d.1.2.2.1) >>= fun x =>
    let r := parseSpaceW x.1.2.1 x.1.2.2
    match r.1.1 with
    | [] => .ok ((x.1.1, [], createError .UnexpectedEndFragment r.1.2), d.2 + x.2 + r.2 + 1)
    | b :: p =>
      if b = c%',' then
        let r2 := parseSpaceW p r.1.2
        membersW c strict L n (if d.1.2.2.2 then l else m :: l) x.1.1 r2.1.1 r2.1.2 >>= fun y =>
        membersEnd y.1.1 y.1.2.1 y.1.2.2 >>= fun z => .ok (z, d.2 + x.2 + r.2 + r2.2 + y.2 + 1)
      else membersEnd x.1.1 (b :: p) r.1.2 >>= fun z => .ok (z, d.2 + x.2 + r.2 + 1)

/-- The part between the braces and the closing brace,
wjson/serializer/object.hpp:57-78. -/
def objectBodyW {τ : Type} (c : Cfg) (strict : Bool) (L : List (MemberW τ)) (t : τ) (s : Bytes) (e : EPtr) :
    Out ((τ × Bytes × EPtr) × Nat) :=
  let r := parseSpaceW s e
  match r.1.1 with
  | [] => .ok ((t, [], createError .UnexpectedEndFragment r.1.2), r.2)
  | b :: q =>
    if b ≠ c%'}' then
      membersW c strict L (q.length + 2) L t (b :: q) r.1.2 >>= fun x =>
      match x.1.2.1 with
      | [] => .ok ((x.1.1, [], createError .UnexpectedEndFragment x.1.2.2), r.2 + x.2)
      | b :: q =>
        let r2 := parseSpaceW (b :: q) x.1.2.2
        match r2.1.1 with
        | [] => .ok ((x.1.1, [], createError .UnexpectedEndFragment r2.1.2), r.2 + x.2 + r2.2)
        | b :: q => objectEnd x.1.1 (b :: q) r2.1.2 >>= fun z => .ok (z, r.2 + x.2 + r2.2)
    else objectEnd t (b :: q) r.1.2 >>= fun z => .ok (z, r.2)

/-- Reading an object, wjson/serializer/object.hpp:31-79. -/
def deObjectW {τ : Type} (c : Cfg) (strict : Bool) (dflt : τ) (L : List (MemberW τ)) : DeW τ := fun t s e =>
  if isNull s then
    let r := parseNullW s e
    .ok ((dflt, r.1.1, r.1.2), r.2 + 2)
  else
    match s with
    | [] => .ok ((t, [], createError .UnexpectedEndFragment e), 2)
    | b :: p =>
      if b ≠ c%'{' then
        if b = c%'[' then
          let r := parseSpaceW p e
          deref c r.1.1 >>= fun x =>
          if x ≠ c%']' then
            .ok ((t, [], createError .ExpectedOf r.1.2 (some b!"]") (r.1.1.length : Nat)), r.2 + 2)
          else
            match r.1.1 with
            | [] => .ub
            | _ :: q => .ok ((t, q, r.1.2), r.2 + 2)
        else .ok ((t, [], createError .ExpectedOf e (some b!"{") ((b :: p).length : Nat)), 2)
      else objectBodyW c strict L t p e >>= fun y => .ok (y.1, y.2 + 2)

/-- An entry of the list of `object_array`, wjson/serializer/object_array.hpp:171-194. -/
def deAMemberW {τ : Type} (m : MRef τ) (start : τ → m.α) (W : DeW m.α) : DeW τ := fun t s e =>
  W (start t) s e >>= fun d => .ok ((m.set d.1.1 t, d.1.2), d.2 + 1)

/-- The same for an entry. -/
def WEntry.deA {τ : Type} : WEntry τ → DeW τ
  | ⟨.mem m, W⟩ => deAMemberW m m.get W
  | ⟨.prop m, W⟩ => deAMemberW m (fun _ => m.ser.dflt) W

/-- `unserialize_members`, wjson/serializer/object_array.hpp:138-168. -/
def deAMembersW {τ : Type} : List (DeW τ) → DeW τ
  | [], t, s, e => .ok ((t, s, e), 1)
  | m :: l, t, s, e =>
    m t s e >>= fun d =>
    let r := parseSpaceW d.1.2.1 d.1.2.2
    match r.1.1 with
    | [] => .ok ((d.1.1, [], createError .UnexpectedEndFragment r.1.2), d.2 + r.2 + 1)
    | b :: p =>
      if b = c%',' then
        let r2 := parseSpaceW p r.1.2
        deAMembersW l d.1.1 r2.1.1 r2.1.2 >>= fun y =>
        amembersEnd y.1.1 y.1.2.1 y.1.2.2 >>= fun z => .ok (z, d.2 + r.2 + r2.2 + y.2 + 1)
      else amembersEnd d.1.1 (b :: p) r.1.2 >>= fun z => .ok (z, d.2 + r.2 + 1)

/-- The part after the opening bracket, wjson/serializer/object_array.hpp:46-69. -/
def objectArrayBodyW {τ : Type} (L : List (DeW τ)) (t : τ) (s : Bytes) (e : EPtr) : Out ((τ × Bytes × EPtr) × Nat) :=
  let r := parseSpaceW s e
  match r.1.1 with
  | [] => .ok ((t, [], createError .UnexpectedEndFragment r.1.2), r.2)
  | b :: q =>
    if b ≠ c%']' then
      deAMembersW L t (b :: q) r.1.2 >>= fun x =>
      match x.1.2.1 with
      | [] => .ok ((x.1.1, [], createError .UnexpectedEndFragment x.1.2.2), r.2 + x.2)
      | b :: q =>
        let r2 := parseSpaceW (b :: q) x.1.2.2
        match r2.1.1 with
        | [] => .ok ((x.1.1, [], createError .UnexpectedEndFragment r2.1.2), r.2 + x.2 + r2.2)
        | b :: q => objectArrayEnd x.1.1 (b :: q) r2.1.2 >>= fun z => .ok (z, r.2 + x.2 + r2.2)
    else objectArrayEnd t (b :: q) r.1.2 >>= fun z => .ok (z, r.2)

/-- Reading an array structure, wjson/serializer/object_array.hpp:32-70. -/
def deObjectArrayW {τ : Type} (dflt : τ) (L : List (DeW τ)) : DeW τ := fun t s e =>
  if isNull s then
    let r := parseNullW s e
    .ok ((dflt, r.1.1, r.1.2), r.2 + 2)
  else
    match s with
    | [] => .ok ((t, [], createError .UnexpectedEndFragment e), 2)
    | b :: p =>
      if b ≠ c%'[' then .ok ((t, [], createError .ExpectedOf e (some b!"[") ((b :: p).length : Nat)), 2)
      else objectArrayBodyW L t p e >>= fun y => .ok (y.1, y.2 + 2)

/-! ### Alternatives -/

/-- `typename ML::serializer()(ML().ref(t), snull, snull+4, 0)`,
wjson/serializer/object_array.hpp:205,209,221,225. -/
def readNullW {τ : Type} (m : MRef τ) (W : DeW m.α) (t : τ) : Out (τ × Nat) :=
  W (m.get t) b!"null" .null >>= fun d => .ok (m.set d.1.1 t, d.2)

/-- `unserialize_member` for `member_if` in the list of `object_array`,
wjson/serializer/object_array.hpp:197-227; `a` is tried first. -/
def deAMemberIfW {τ : Type} (a b : MRef τ) (Wa : DeW a.α) (Wb : DeW b.α) : DeW τ := fun t s e =>
  deAMemberW a a.get Wa t s .fresh >>= fun d =>
  if !d.1.2.2.failed then readNullW b Wb d.1.1 >>= fun x => .ok ((x.1, d.1.2.1, e), d.2 + x.2 + 1)
  else
    readNullW a Wa d.1.1 >>= fun x =>
    deAMemberW b b.get Wb x.1 s e >>= fun r => .ok (r.1, d.2 + x.2 + r.2 + 1)

/-- A description for `multi_deserializer` and its counted reader. -/
structure WArg (τ : Type) where
  arg : MultiArg τ
  work : DeW arg.α

/-- `multi_deserializer`, wjson/utility/multi_deserializer.hpp:13-27. -/
def multiDeW {τ : Type} (c : Cfg) : List (WArg τ) → τ → Bytes → EPtr → Out ((Nat × τ × EPtr) × Nat)
  | [], t, s, e => parseValueW c (fuelFor s) s e >>= fun r => .ok ((0, t, r.1.2), r.2 + 1)
  | a :: l, t, s, e =>
    a.work (a.arg.get t) s .fresh >>= fun r =>
    if r.1.2.2.failed then
      multiDeW c l (a.arg.set r.1.1 t) s e >>= fun q => .ok ((q.1.1 + 1, q.1.2), r.2 + q.2 + 1)
    else .ok ((0, a.arg.set r.1.1 t, e), r.2 + 1)

end Wjson
