import Verif.Model.Float
/-
Model of what `std::stringstream` (libstdc++ with glibc) does for binary floating point
numbers in wjson/serializer/float.hpp: `ss << v` and `ss >> v` in the "C" locale.
Both conversions are correctly rounded (to nearest, ties to even). This code is not in /repo: the definitions follow
the C and C++ standards and libstdc++. The theorems C82_reads_nearest and
C82_written_close compare them with the exact numbers.
-/
namespace Wjson

/-- A binary floating point format: `p` bits of precision, the values are `m * 2 ^ q` with
`m < 2 ^ p` and `qmin ≤ q ≤ qmax`. -/
structure BinFmt where
  p : Nat
  qmin : Int
  qmax : Int

/-- `float` (IEEE 754 binary32). -/
def BinFmt.float : BinFmt := ⟨24, -149, 104⟩
/-- `double` (IEEE 754 binary64). -/
def BinFmt.double : BinFmt := ⟨53, -1074, 971⟩
/-- `long double` on x86 (80 bits). -/
def BinFmt.longDouble : BinFmt := ⟨64, -16445, 16320⟩

/-- A floating point value: `fin neg m q` is `m * 2 ^ q`, negated if `neg`. -/
inductive Fl where
  | fin (neg : Bool) (m : Nat) (q : Int)
  | inf (neg : Bool)
  | nan (neg : Bool)
  deriving DecidableEq, Repr

/-- `n / d`, rounded to the nearest integer, ties to even. -/
def rne (n d : Nat) : Nat :=
  if 2 * (n % d) < d then n / d
  else if d < 2 * (n % d) then n / d + 1
  else if n / d % 2 = 0 then n / d else n / d + 1

/-- `n / d` divided by `b ^ q`, rounded to the nearest integer. -/
def roundAt (b : Nat) (q : Int) (n d : Nat) : Nat :=
  if 0 ≤ q then rne n (d * b ^ q.toNat) else rne (n * b ^ (-q).toNat) d

/-- The number of digits of `n` in base `b`, minus one; the first number bounds the digits. -/
def ilog (b : Nat) : Nat → Nat → Nat
  | 0, _ => 0
  | f + 1, n => if n < b then 0 else ilog b f (n / b) + 1

/-- The exponent of the largest power of `b` not above `n / d`. -/
def flog (b n d : Nat) : Int :=
  let l : Int := (ilog b n.log2 n : Int) - ilog b d.log2 d
  if (if 0 ≤ l then d * b ^ l.toNat ≤ n else d ≤ n * b ^ (-l).toNat) then l else l - 1

/-- The exact value `m * 2 ^ q` as a fraction. -/
def asFrac (m : Nat) (q : Int) : Nat × Nat := if 0 ≤ q then (m * 2 ^ q.toNat, 1) else (m, 2 ^ (-q).toNat)

/-! ### `ss << v` -/

/-- The last `w` decimal digits of `m`. -/
def padDigits : Nat → Nat → Bytes
  | 0, _ => []
  | w + 1, m => padDigits w (m / 10) ++ [UInt8.ofNat (48 + m % 10)]

/-- `m` in decimal. -/
def natText (m : Nat) : Bytes := padDigits (ilog 10 m.log2 m + 1) m

/-- The sign. -/
def signText (neg : Bool) : Bytes := if neg then b!"-" else []

/-- `n / d > 0` rounded to seven decimal digits: the digits and the exponent of the last one. -/
def sevenDigits (n d : Nat) : Nat × Int :=
  let q := flog 10 n d - 6
  let k := roundAt 10 q n d
  if k = 10 ^ 7 then (10 ^ 6, q + 1) else (k, q)

/-- The digits `k` and the exponent `q` of the last one in the notation of `printf("%.6e")`: one digit, the point,
six digits, the exponent with a sign and at least two digits. -/
def sciText (k : Nat) (q : Int) : Bytes :=
  let x := q + 6
  padDigits 1 (k / 10 ^ 6) ++ c%'.' :: padDigits 6 k ++ c%'e' :: (if x < 0 then b!"-" else b!"+") ++
    (if x.natAbs < 10 then padDigits 2 x.natAbs else natText x.natAbs)

/-- The number `k` of units of the `R`-th digit behind the point in the notation of `printf("%.Rf")`. -/
def fixText (R k : Nat) : Bytes :=
  natText (k / 10 ^ R) ++ if R = 0 then [] else c%'.' :: padDigits R k

/-- `ss << v` after `ss << std::scientific` (for `R = -1`; the precision is 6), or after `ss << std::fixed` and
`ss.precision(R)`, wjson/serializer/float.hpp:33-43. Other negative `R` are not modelled. -/
def flText (R : Int) : Fl → Bytes
  | .inf neg => signText neg ++ b!"inf"
  | .nan neg => signText neg ++ b!"nan"
  | .fin neg m q =>
    let x := asFrac m q
    signText neg ++
      if R = -1 then
        if m = 0 then sciText 0 (-6)
        else let y := sevenDigits x.1 x.2; sciText y.1 y.2
      else fixText R.toNat (roundAt 10 (-R) x.1 x.2)

/-! ### `ss >> v` -/

/-- The value of a digit string. -/
def digitsVal (t : Bytes) : Nat := t.foldl (fun a b => a * 10 + (b.toNat - 48)) 0

/-- `n / d > 0` in the format. A number above the largest one gives the largest one (C++11: `numeric_limits::max()`). -/
def toBin (F : BinFmt) (neg : Bool) (n d : Nat) : Fl :=
  let q := max F.qmin (flog 2 n d - (F.p - 1 : Nat))
  let m := roundAt 2 q n d
  let r : Nat × Int := if m = 2 ^ F.p then (2 ^ (F.p - 1), q + 1) else (m, q)
  if F.qmax < r.2 then .fin neg (2 ^ F.p - 1) F.qmax else .fin neg r.1 r.2

/-- The number with the digits `ds` of which the last has the exponent `x`. -/
def decBin (F : BinFmt) (neg : Bool) (ds : Bytes) (x : Int) : Fl :=
  let k := digitsVal ds
  if k = 0 then .fin neg 0 F.qmin
  else if 0 ≤ x then toBin F neg (k * 10 ^ x.toNat) 1
  else toBin F neg k (10 ^ (-x).toNat)

/-- The digits a text begins with, and the rest. -/
def spanDigits (t : Bytes) : Bytes × Bytes := (t.takeWhile isDigit, t.dropWhile isDigit)

/-- An optional sign. -/
def takeSign : Bytes → Bool × Bytes
  | [] => (false, [])
  | b :: u => if b = c%'-' then (true, u) else if b = c%'+' then (false, u) else (false, b :: u)

/-- An optional point and the digits behind it. -/
def takeFrac : Bytes → Bytes × Bytes
  | [] => ([], [])
  | b :: u => if b = c%'.' then spanDigits u else ([], b :: u)

/-- An optional exponent; `none` if there is no digit behind the `e`. -/
def takeExp : Bytes → Option Int
  | [] => some 0
  | b :: u =>
    if b = c%'e' ∨ b = c%'E' then
      let s := takeSign u
      let x := (spanDigits s.2).1
      if x = [] then none else some (if s.1 then -(digitsVal x : Int) else digitsVal x)
    else some 0

/-- `ss >> v`: `num_get` takes from the stream an optional sign, digits with at most one point and, if there has been a digit, `e` or
`E` with an optional sign and digits, and hands this to `strtod`. If that does not
make a number (no digit, or no digit behind the `e`) the value is zero. White space in front is not modelled: the text
begins with a minus or a digit. -/
def flConv (F : BinFmt) (t : Bytes) : Fl :=
  let s := takeSign t
  let i := spanDigits s.2
  let f := takeFrac i.2
  if i.1 ++ f.1 = [] then .fin false 0 F.qmin
  else
    match takeExp f.2 with
    | none => .fin false 0 F.qmin
    | some x => decBin F s.1 (i.1 ++ f.1) (x - f.1.length)

/-- The floating point type for `value<double, R>` and its siblings. -/
def BinFmt.ty (F : BinFmt) (R : Int) : FloatTy Fl := ⟨.fin false 0 F.qmin, flText R, fun t _ => flConv F t⟩

end Wjson
