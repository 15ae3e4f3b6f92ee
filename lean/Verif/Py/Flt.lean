import Mathlib.Data.Real.Basic

/-!
# NumPy scalars that may fail to be numbers
-/

namespace PyNLO

/-- A NumPy scalar: a number, or NaN or an infinity (not distinguished here). -/
inductive NFlt where
  | bad
  | val (x : ℝ)

namespace NFlt

/-- Apply an operation that is a number on numbers. -/
def map (f : ℝ → ℝ) : NFlt → NFlt
  | bad => bad
  | val x => val (f x)

/-- The same with two arguments. -/
def map₂ (f : ℝ → ℝ → ℝ) : NFlt → NFlt → NFlt
  | val x, val y => val (f x y)
  | _, _ => bad

end NFlt

end PyNLO
