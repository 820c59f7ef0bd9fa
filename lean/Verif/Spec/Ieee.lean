import Mathlib.Data.Int.Log
import Mathlib.Algebra.Order.Floor.Ring
import Mathlib.Data.Rat.Floor
import Mathlib.Tactic.Linarith
import Mathlib.Tactic.Positivity
import Mathlib.Tactic.Ring
import Mathlib.Tactic.FieldSimp
/-!
# Specification: rounding of floating point operations

Every operation on `double` returns the rounded exact result.  The theorems hold for every rounding
function with the three properties of `Rounding`; `rne` is the rounding of IEEE 754 (nearest, ties to
even, 53 bit significand) without limits on the exponent.
-/
namespace Verif.Ieee

structure Rounding (fl : ℚ → ℚ) : Prop where
  /-- rounding is monotone -/
  mono : ∀ x y, x ≤ y → fl x ≤ fl y
  /-- integers of up to 53 bits are representable -/
  int : ∀ i : ℤ, |i| ≤ 2 ^ 53 → fl i = i
  /-- relative error of at most half a unit in the last place -/
  err : ∀ x, |fl x - x| ≤ |x| / 2 ^ 53

/-- nearest integer, ties to even -/
def nearestEven (r : ℚ) : ℤ :=
  let f := ⌊r⌋
  if r - f < 1 / 2 then f else if 1 / 2 < r - f then f + 1 else if f % 2 = 0 then f else f + 1

/-- unit in the last place of numbers in the binade of `x > 0` -/
def ulp (x : ℚ) : ℚ := (2 : ℚ) ^ (Int.log 2 x - 52)

/-- IEEE 754 round to nearest, ties to even -/
def rne (x : ℚ) : ℚ :=
  if 0 < x then nearestEven (x / ulp x) * ulp x
  else if x < 0 then - (nearestEven (-x / ulp (-x)) * ulp (-x))
  else 0

end Verif.Ieee
