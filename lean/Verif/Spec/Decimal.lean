import Verif.Spec.Values
import Verif.Model.Ieee
import Mathlib.Data.Rat.Lemmas
import Mathlib.Algebra.Order.Field.Rat
import Mathlib.Algebra.Order.Field.Power
/-
Specification for C82: the rational number a JSON number stands for, and the rational
numbers a floating point type has.
-/
namespace Wjson.Spec

/-- The text of a fraction (without: empty) with the digits `ds`. -/
def FracIs (t ds : Bytes) : Prop := (t = [] ∧ ds = []) ∨ (t = c%'.' :: ds ∧ Digits ds)

/-- The text of an exponent (without: empty) with the value `n`. -/
def ExpIs (t : Bytes) (n : Int) : Prop :=
  (t = [] ∧ n = 0) ∨
  ∃ x sg ds, t = x :: (sg ++ ds) ∧ (x = c%'e' ∨ x = c%'E') ∧ Digits ds ∧
    (((sg = [] ∨ sg = b!"+") ∧ n = decVal ds) ∨ (sg = b!"-" ∧ n = -(decVal ds : Int)))

/-- The JSON number `t` stands for `x`: the digits of integer part and fraction, read as one
number, times a power of ten. -/
def NumIs (t : Bytes) (x : ℚ) : Prop :=
  ∃ m i f ds ex n, t = m ++ i ++ f ++ ex ∧ RMinus m ∧ RInt i ∧ FracIs f ds ∧ ExpIs ex n ∧
    x = (if m = [] then 1 else -1) * decVal (i ++ ds) * (10 : ℚ) ^ (n - ds.length)

/-- `x` has at most `n` significant decimal digits. -/
def ShortDecimal (n : Nat) (x : ℚ) : Prop := ∃ (k : ℤ) (j : ℤ), x = k * (10 : ℚ) ^ j ∧ |k| < 10 ^ n

/-- The floating point value `v` is the number `x`. -/
def FlIs (v : Fl) (x : ℚ) : Prop := ∃ neg m q, v = .fin neg m q ∧ x = (if neg then -1 else 1) * m * (2 : ℚ) ^ q

/-- `v` is one of the finite values of the format. -/
def FlOf (F : BinFmt) (v : Fl) : Prop :=
  ∃ neg m q, v = .fin neg m q ∧ m < 2 ^ F.p ∧ F.qmin ≤ q ∧ q ≤ F.qmax ∧ (2 ^ (F.p - 1) ≤ m ∨ q = F.qmin)

/-- The largest finite value. -/
def maxVal (F : BinFmt) : ℚ := (2 ^ F.p - 1) * (2 : ℚ) ^ F.qmax

/-- The smallest positive value with full precision. -/
def minNormal (F : BinFmt) : ℚ := (2 : ℚ) ^ (F.qmin + (F.p - 1 : Nat))

/-- The format is one of the usual ones (`float`, `double`, `long double` with 64 or 113 bits), or another of this size. -/
def UsualFmt (F : BinFmt) : Prop := 1 ≤ F.p ∧ F.p ≤ 113 ∧ -17000 ≤ F.qmin ∧ F.qmin ≤ F.qmax ∧ F.qmax ≤ 17000

end Wjson.Spec
