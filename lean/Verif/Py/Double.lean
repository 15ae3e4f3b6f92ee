import Verif.Py.Num
import Mathlib.Data.Int.Log

/-!
# Double precision: IEEE 754 `binary64` as Python's `float` uses it

A result is rounded to the nearest multiple of its unit in the last place, ties to even; the unit is `2^(e-52)` for numbers between `2^e` and
`2^(e+1)`, and `2^-1074` below the normal range.  Overflow is left out here: results that would reach `2^1024` need a separate argument that they do
not occur.
-/

namespace PyNLO.Double

/-- Exponent of the unit in the last place. -/
noncomputable def expo (x : ℝ) : ℤ := max (Int.log 2 |x| - 52) (-1074)

/-- The nearest double-precision number, without the limit on the exponent. -/
noncomputable def nearest (x : ℝ) : ℝ := 2 ^ expo x * pyRound (x / 2 ^ expo x)

/-- `x` is a number that a Python `float` can hold, apart from the limit on the exponent. -/
def IsFloat (x : ℝ) : Prop := ∃ m e : ℤ, |m| < 2 ^ 53 ∧ -1074 ≤ e ∧ x = m * 2 ^ e

end PyNLO.Double
