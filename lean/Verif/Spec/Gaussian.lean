import Mathlib.Analysis.SpecialFunctions.Pow.Real

/-! # A Gaussian pulse in a dispersive medium -/

namespace PyNLO.Nlse

open Complex

/-- `1 - 2i·a·β₂·z`; its modulus is the factor by which the pulse `exp(-a·t²)` is stretched -/
noncomputable def stretch (β₂ a z : ℝ) : ℂ := 1 - 2 * I * a * β₂ * z

/-- `√P·exp(-a·t²)` at the start, after the distance `z` in a medium with dispersion `β₂` and gain `g` -/
noncomputable def gaussian (P β₂ g a z t : ℝ) : ℂ :=
  Real.sqrt P * exp (g / 2 * z) * stretch β₂ a z ^ ((-(1 / 2) : ℝ) : ℂ) * exp (-(a / stretch β₂ a z * (t : ℂ) ^ 2))

end PyNLO.Nlse
