import Verif.Model.Sink
import Verif.Model.Parser
/-
Model of wjson/serializer/number.hpp and of `parser::unserialize_integer`
(wjson/parser.hpp:632-659). Integer values are mathematical integers; the
conversions and overflow rules of C++ are explicit.
-/
namespace Wjson

/-- An integer type: number of bits and signedness. -/
structure IntTy where
  bits : Nat
  signed : Bool
  deriving Repr, DecidableEq

namespace IntTy

/-- The ten types of wjson/serializer/number.hpp:126-188 on an LP64 platform
(`char` depends on the platform). -/
def schar : IntTy := ⟨8, true⟩
def uchar : IntTy := ⟨8, false⟩
def short : IntTy := ⟨16, true⟩
def ushort : IntTy := ⟨16, false⟩
def int : IntTy := ⟨32, true⟩
def uint : IntTy := ⟨32, false⟩
def long : IntTy := ⟨64, true⟩
def ulong : IntTy := ⟨64, false⟩

def min (ty : IntTy) : Int := if ty.signed then -(2 ^ (ty.bits - 1)) else 0
def max (ty : IntTy) : Int := if ty.signed then 2 ^ (ty.bits - 1) - 1 else 2 ^ ty.bits - 1

/-- The values of the type. -/
def InRange (ty : IntTy) (v : Int) : Prop := ty.min ≤ v ∧ v ≤ ty.max

instance (ty : IntTy) (v : Int) : Decidable (ty.InRange v) := inferInstanceAs (Decidable (_ ∧ _))

/-- Conversion to the type, modulo `2^bits` (`static_cast<T>`; modular for
signed targets since C++20 and on all relevant compilers before). -/
def wrap (ty : IntTy) (v : Int) : Int :=
  if ty.signed then (v + 2 ^ (ty.bits - 1)) % 2 ^ ty.bits - 2 ^ (ty.bits - 1) else v % 2 ^ ty.bits

/-- The result of an arithmetic expression of this operand type converted to
the type. Types narrower than `int` are promoted: the expression is computed in
`int` (it fits, as operands are small) and converted. Unsigned arithmetic is
modular. Signed arithmetic of `int` and wider types is undefined on overflow,
or wraps with `-fwrapv`. -/
def arith (c : Cfg) (ty : IntTy) (v : Int) : Out Int :=
  if ty.bits < 32 ∨ ty.signed = false then .ok (ty.wrap v)
  else if ty.InRange v then .ok v
  else if c.wrapv then .ok (ty.wrap v)
  else .ub

end IntTy

/-- `integer_buffer_size<T>::value`, wjson/serializer/number.hpp:37-55. -/
def intBufSize (ty : IntTy) : Nat :=
  let s := ty.bits / 8
  if s = 1 then 4 else s * 2 + s / 2 + s % 2 + (if ty.signed then 1 else 0)

/-- The digit loops of `integer_serializer::serialize`, wjson/serializer/number.hpp:74-85:
digits of `v` (least significant first) are appended to the bytes already in
`buf`, whose capacity is `cap`. `v%10` and `v/10` truncate towards zero. -/
def intDigits (cap : Nat) (neg : Bool) (v : Int) (buf : Bytes) : Out Bytes :=
  if h : v = 0 then .ok buf
  else if buf.length < cap then
    let d := v.tmod 10
    let ch : Byte := UInt8.ofInt (if neg then 48 - d else 48 + d)
    intDigits cap neg (v.tdiv 10) (buf ++ [ch])
  else .ub
termination_by v.natAbs
decreasing_by
  rw [Int.natAbs_tdiv]
  exact Nat.div_lt_self (Int.natAbs_pos.mpr h) (by decide)

/-- `integer_serializer::serialize`, wjson/serializer/number.hpp:64-90. -/
def emitInt (ty : IntTy) (v : Int) (k : Sink) : Out Sink :=
  (if v = 0 then .ok [c%'0']
   else if ty.signed ∧ v < 0 then
     intDigits (intBufSize ty) true v [] >>= fun buf =>
       if buf.length < intBufSize ty then .ok (buf ++ [c%'-']) else .ub
   else intDigits (intBufSize ty) false v []) >>= fun buf =>
  k.puts buf.reverse

/-- The accumulation loop of `unserialize_integer`, wjson/parser.hpp:648-653.
`v*10` and the sum are two operations of the same type. -/
def accInt (c : Cfg) (ty : IntTy) : Int → Bytes → Out (Int × Bytes)
  | v, [] => .ok (v, [])
  | v, b :: t =>
    if isDigit b then
      ty.arith c (v * 10) >>= fun p =>
      ty.arith c (p + (b.toNat - 48 : Int)) >>= fun v =>
      accInt c ty v t
    else .ok (v, b :: t)

/-- `parser::unserialize_integer`, wjson/parser.hpp:632-659. -/
def unserializeInteger (c : Cfg) (ty : IntTy) : De Int := fun v s e =>
  match s with
  | [] => .ok (v, [], createError .UnexpectedEndFragment e)
  | b :: t =>
    let neg := b = c%'-'
    let s := if neg then t else b :: t
    match s with
    | [] => .ok (0, [], createError .InvalidNumber e none 0)
    | b :: t =>
      if !isDigit b then .ok (0, [], createError .InvalidNumber e none ((b :: t).length : Nat))
      else if b = c%'0' then .ok (0, t, e)
      else
        accInt c ty 0 (b :: t) >>= fun r =>
        (if neg then ty.arith c (-r.1) else .ok r.1) >>= fun v =>
        .ok (v, r.2, e)

/-- `serializerN<T>::operator()` (reading), wjson/serializer/number.hpp:112-122. -/
def deInt (c : Cfg) (ty : IntTy) : De Int := fun v s e =>
  if isNull s then
    let r := parseNull s e
    .ok (0, r.1, r.2)
  else unserializeInteger c ty v s e

/-- `value<T>::serializer` for the integer types, wjson/serializer/number.hpp:102-188. -/
def intSer (c : Cfg) (ty : IntTy) : Ser Int := ⟨0, emitInt ty, deInt c ty⟩

end Wjson
