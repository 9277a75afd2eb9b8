import Verif.Model.Str
import Verif.Model.Integer
/-
Model of wjson/serializer/time_interval.hpp and wjson/serializer/size_value.hpp.
-/
namespace Wjson

/-- Integral promotion: types narrower than `int` compute in `int`. The literals
86400, 3600, 60, 1000 and 1000000 of the two serializers are `int`s and convert
to the promoted type without change. -/
def IntTy.promo (ty : IntTy) : IntTy := if ty.bits < 32 then .int else ty

/-- `a + b`, `a - b`, `a * b` on operands of type `ty` (`x` is the exact
result): a value of the promoted type. -/
def cop (c : Cfg) (ty : IntTy) (x : Int) : Out Int := ty.promo.arith c x

/-- `a / b` on operands of type `ty`. -/
def cdiv (c : Cfg) (ty : IntTy) (a b : Int) : Out Int := if b = 0 then .ub else cop c ty (a.tdiv b)

/-- `a % b` on operands of type `ty`; undefined whenever `a / b` is. -/
def cmod (c : Cfg) (ty : IntTy) (a b : Int) : Out Int := cdiv c ty a b >>= fun _ => .ok (a.tmod b)

/-- `time_interval::write_if_`, wjson/serializer/time_interval.hpp:114-123. The
integer serializer gets a copy of the iterator and its result is dropped: the
letter goes where the iterator was before the digits. A back inserter does not
notice, its position is the end of the container. -/
def timeWriteIf (ty : IntTy) (v : Int) (ch : Byte) (k : Sink) : Out Sink :=
  if v ≠ 0 then emitInt ty v k >>= fun k' => Sink.put ⟨k'.mem, k.it⟩ ch else .ok k

/-- Lines 30-40 of wjson/serializer/time_interval.hpp: the part below a second. -/
def timeTail (c : Cfg) (ty : IntTy) (fr v : Int) (k : Sink) : Out Sink :=
  cmod c ty v fr >>= fun r =>
  if r ≠ 0 then
    let tail := ty.wrap r
    cop c ty (tail * 1000) >>= fun x =>
    cdiv c ty x fr >>= fun x =>
    let ms := ty.wrap x
    cop c ty (ms * 1000) >>= fun x =>
    cop c ty (tail - x) >>= fun x =>
    cop c ty (ty.wrap x * 1000000) >>= fun x =>
    cdiv c ty x fr >>= fun x =>
    let mks := ty.wrap x
    (if ms > 0 then timeWriteIf ty ms c%'m' k >>= fun k => k.put c%'s' else .ok k) >>= fun k =>
    (if mks > 0 then
      timeWriteIf ty mks c%'m' k >>= fun k => k.put c%'k' >>= fun k => k.put c%'s'
    else .ok k)
  else .ok k

/-- `time_interval` writing, wjson/serializer/time_interval.hpp:21-44. -/
def emitTime (c : Cfg) (ty : IntTy) (fr : Int) : Emit Int := fun v k =>
  cdiv c ty v fr >>= fun x =>
  let seconds := ty.wrap x
  k.put c%'"' >>= fun k =>
  cdiv c ty seconds 86400 >>= fun x =>
  let days := ty.wrap x
  timeWriteIf ty days c%'d' k >>= fun k =>
  cop c ty (days * 86400) >>= fun dd =>
  cop c ty (seconds - dd) >>= fun x =>
  cdiv c ty x 3600 >>= fun x =>
  let hours := ty.wrap x
  timeWriteIf ty hours c%'h' k >>= fun k =>
  cop c ty (hours * 3600) >>= fun hh =>
  cop c ty (seconds - hh) >>= fun x =>
  cop c ty (x - dd) >>= fun x =>
  cdiv c ty x 60 >>= fun x =>
  timeWriteIf ty (ty.wrap x) c%'m' k >>= fun k =>
  cmod c ty seconds 60 >>= fun x =>
  timeWriteIf ty (ty.wrap x) c%'s' k >>= fun k =>
  timeTail c ty fr v k >>= fun k =>
  k.put c%'"'

/-- `v += cur * m * fractions`, wjson/serializer/time_interval.hpp:72, 73, 78, 92. -/
def timeAdd (c : Cfg) (ty : IntTy) (fr v cur m : Int) : Out Int :=
  cop c ty (cur * m) >>= fun x =>
  cop c ty (x * fr) >>= fun x =>
  cop c ty (v + x) >>= fun x => .ok (ty.wrap x)

/-- `v += (cur*fractions)/d`, wjson/serializer/time_interval.hpp:84, 88 (and 96
with `d = 1`, where the code has no division). -/
def timeAddSub (c : Cfg) (ty : IntTy) (fr v cur d : Int) : Out Int :=
  cop c ty (cur * fr) >>= fun x =>
  cdiv c ty x d >>= fun x =>
  cop c ty (v + x) >>= fun x => .ok (ty.wrap x)

/-- The loop of `time_interval` reading with what follows it,
wjson/serializer/time_interval.hpp:65-109. The loop is given the number of
passes it may make; every pass reads at least one byte. After `mk` the code
moves two positions on without looking: past the end when nothing follows the
`k`. Line 106-107 cannot be reached with another byte than a quote. -/
def timeLoopF (c : Cfg) (ty : IntTy) (fr : Int) : Nat → De Int
  | 0, _, _, _ => .fuel
  | _ + 1, v, [], e => .ok (v, [], createError .UnexpectedEndFragment e)
  | n + 1, v, b :: t, e =>
    if b = c%'"' then .ok (v, t, e)
    else
      deInt c ty 0 (b :: t) e >>= fun r =>
      let cur := r.1
      let e := r.2.2
      if e.failed then .ok (v, r.2.1, e)
      else
        match r.2.1 with
        | [] => .ok (v, [], e)
        | u :: t =>
          if u = c%'d' then timeAdd c ty fr v cur 86400 >>= fun v => timeLoopF c ty fr n v t e
          else if u = c%'h' then timeAdd c ty fr v cur 3600 >>= fun v => timeLoopF c ty fr n v t e
          else if u = c%'m' then
            match t with
            | [] => timeAdd c ty fr v cur 60 >>= fun v => timeLoopF c ty fr n v [] e
            | w :: t =>
              if w = c%'s' then timeAddSub c ty fr v cur 1000 >>= fun v => timeLoopF c ty fr n v t e
              else if w = c%'k' then
                timeAddSub c ty fr v cur 1000000 >>= fun v =>
                match t with
                | [] => .ub
                | _ :: t => timeLoopF c ty fr n v t e
              else timeAdd c ty fr v cur 60 >>= fun v => timeLoopF c ty fr n v (w :: t) e
          else if u = c%'s' then timeAddSub c ty fr v cur 1 >>= fun v => timeLoopF c ty fr n v t e
          else timeLoopF c ty fr n v t e

/-- `time_interval` reading, wjson/serializer/time_interval.hpp:46-110. -/
def deTime (c : Cfg) (ty : IntTy) (fr : Int) : De Int := fun v s e =>
  match s with
  | [] => .ok (v, [], createError .UnexpectedEndFragment e)
  | b :: t =>
    if isNull (b :: t) then
      let r := parseNull (b :: t) e
      .ok (0, r.1, r.2)
    else if isNumber (b :: t) then deInt c ty 0 (b :: t) e
    else if !isString (b :: t) then .ok (0, [], createError .InvalidString e none 0)
    else timeLoopF c ty fr (t.length + 1) 0 t e

/-- `time_interval<T, fractions>::serializer`, wjson/serializer/time_interval.hpp:16-124;
`fractions` is 1, 1000 and 1000000 for `_s`, `_ms` and `_mks` (wjson/predef.hpp). -/
def timeSer (c : Cfg) (ty : IntTy) (fr : Int) : Ser Int := ⟨0, emitTime c ty fr, deTime c ty fr⟩

/-- An arithmetic operation of an `int64_t` and a `T`: `T = uint64_t` makes it
unsigned, every other `T` is converted to `int64_t`. -/
def mixTy (ty : IntTy) : IntTy := if ty = .ulong then .ulong else .long

/-- `size_value::write_if_1_`, wjson/serializer/size_value.hpp:131-154: `pow` is
`Base^Exp` and `Exp` its exponent, `suffix` the unit. As in `timeWriteIf` the
iterator returned by the integer serializer is dropped. `none`: not written. -/
def sizeWriteIf (ty : IntTy) (metric : Int) (base exp : Nat) (suffix : Bytes) (bytes : Int) (k : Sink) :
    Out (Option Sink) :=
  if ty.bits / 8 / 2 ≥ exp then
    let pow : Int := (base ^ exp : Nat)
    let m := mixTy ty
    let ready := if bytes ≠ 0 then decide ((m.wrap bytes).tmod pow = 0) else decide (metric = pow)
    if ready then
      k.put c%'"' >>= fun k =>
      emitInt .long (IntTy.long.wrap ((m.wrap bytes).tdiv pow)) k >>= fun k' =>
      Sink.puts ⟨k'.mem, k.it⟩ suffix >>= fun k =>
      k.put c%'"' >>= fun k => .ok (some k)
    else .ok none
  else .ok none

/-- The units in the order tried, wjson/serializer/size_value.hpp:30-51. -/
def sizeUnits (metric : Int) : List (Nat × Nat × Bytes) :=
  if metric.tmod 10 = 0 ∨ metric = 1 then
    [(1000, 4, b!"TB"), (1024, 4, b!"TiB"), (1000, 3, b!"GB"), (1024, 3, b!"GiB"),
     (1000, 2, b!"MB"), (1024, 2, b!"MiB"), (1000, 1, b!"KB"), (1024, 1, b!"KiB")]
  else
    [(1024, 4, b!"TiB"), (1000, 4, b!"TB"), (1024, 3, b!"GiB"), (1000, 3, b!"GB"),
     (1024, 2, b!"MiB"), (1000, 2, b!"MB"), (1024, 1, b!"KiB"), (1000, 1, b!"KB")]

/-- The chain of `||` in wjson/serializer/size_value.hpp:32-50. -/
def sizeTry (ty : IntTy) (metric bytes : Int) : List (Nat × Nat × Bytes) → Sink → Out (Option Sink)
  | [], _ => .ok none
  | (base, exp, suffix) :: us, k =>
    sizeWriteIf ty metric base exp suffix bytes k >>= fun r =>
    match r with
    | some k => .ok (some k)
    | none => sizeTry ty metric bytes us k

/-- `size_value` writing, wjson/serializer/size_value.hpp:23-57. -/
def emitSize (c : Cfg) (ty : IntTy) (metric : Int) : Emit Int := fun v k =>
  IntTy.long.arith c (IntTy.long.wrap v * IntTy.long.wrap metric) >>= fun bytes =>
  sizeTry ty metric bytes (sizeUnits metric) k >>= fun r =>
  match r with
  | some k => .ok k
  | none => emitInt ty v k

/-- `std::strlen` on a buffer: the bytes before the first NUL. Without one the
function reads past the buffer. -/
def cstr : Bytes → Out Bytes
  | [] => .ub
  | b :: t => if b = 0 then .ok [] else cstr t >>= fun r => .ok (b :: r)

/-- The multiplier of a unit, wjson/serializer/size_value.hpp:104-116. -/
def sizeMult (ch1 ch2 : Byte) : Option Int :=
  if ch1 = c%'T' then some (if ch2 = c%'i' then 1024 * 1024 * 1024 * 1024 else 1000000000000)
  else if ch1 = c%'G' then some (if ch2 = c%'i' then 1024 * 1024 * 1024 else 1000000000)
  else if ch1 = c%'M' then some (if ch2 = c%'i' then 1024 * 1024 else 1000000)
  else if ch1 = c%'K' then some (if ch2 = c%'i' then 1024 else 1000)
  else if ch1 = c%'B' then some 1
  else none

/-- Lines 89-119 of wjson/serializer/size_value.hpp: after the number in the
buffer has been read; `q` is its value, the rest of the buffer and the error,
`beg` the position after the string. -/
def sizeApply (c : Cfg) (ty : IntTy) (metric : Int) (beg : Bytes) (q : Int × Bytes × EPtr) : Out (Int × Bytes × EPtr) :=
  let val := q.1
  let e := q.2.2
  if e.failed then .ok (0, beg, e)
  else
    match q.2.1 with
    | [] => .ok (ty.wrap val, beg, e)
    | ch1 :: u =>
      match sizeMult ch1 (u.headD 0) with
      | none => .ok (0, [], createError .InvalidNumber e none 0)
      | some mult =>
        IntTy.long.arith c (val * mult) >>= fun x =>
        (if IntTy.long.wrap metric = 0 then .ub
         else IntTy.long.arith c (x.tdiv (IntTy.long.wrap metric))) >>= fun x =>
        .ok (ty.wrap x, beg, e)

/-- `size_value` reading, wjson/serializer/size_value.hpp:59-120. -/
def deSize (c : Cfg) (ty : IntTy) (metric : Int) : De Int := fun v s e =>
  match s with
  | [] => .ok (v, [], createError .UnexpectedEndFragment e)
  | b :: t =>
    if isNull (b :: t) then
      let r := parseNull (b :: t) e
      .ok (0, r.1, r.2)
    else if isNumber (b :: t) then deInt c ty 0 (b :: t) e
    else if !isString (b :: t) then .ok (0, [], createError .InvalidString e none 0)
    else
      (charArraySer 32).de (List.replicate 32 0) (b :: t) e >>= fun r =>
      if r.2.2.failed then .ok (0, r.2.1, r.2.2)
      else
        cstr r.1 >>= fun buf =>
        deInt c .long 0 buf r.2.2 >>= sizeApply c ty metric r.2.1

/-- `size_value<T, metric>::serializer`, wjson/serializer/size_value.hpp:17-156. -/
def sizeSer (c : Cfg) (ty : IntTy) (metric : Int) : Ser Int := ⟨0, emitSize c ty metric, deSize c ty metric⟩

end Wjson
