import Mathlib.Analysis.SpecialFunctions.Trigonometric.Basic
import Mathlib.Analysis.SpecialFunctions.Sqrt

/-! # The solitons of the textbooks -/

namespace PyNLO.Nlse

open Complex

/-- peak power of the fundamental soliton of duration `T0`: `|β₂|/(γ·T0²)` -/
noncomputable def solitonPower (β₂ γ T0 : ℝ) : ℝ := |β₂| / (γ * T0 ^ 2)

/-- `√P0·sech(t/T0)·exp(i·γ·P0·z/2)` -/
noncomputable def soliton (β₂ γ T0 z t : ℝ) : ℂ :=
  (Real.sqrt (solitonPower β₂ γ T0) / Real.cosh (t / T0) : ℝ) * exp (I * ((γ * solitonPower β₂ γ T0 / 2 * z : ℝ) : ℂ))

/-- the second-order soliton in units of the soliton: `4·exp(iξ/2)·(cosh 3τ + 3·exp(4iξ)·cosh τ)/(cosh 4τ + 4·cosh 2τ + 3·cos 4ξ)` -/
noncomputable def soliton2 (ξ τ : ℝ) : ℂ :=
  4 * exp (I * ξ / 2) * (Real.cosh (3 * τ) + 3 * exp (4 * I * ξ) * Real.cosh τ) / (Real.cosh (4 * τ) + 4 * Real.cosh (2 * τ) + 3 * Real.cos (4 * ξ))

/-- the second-order soliton of duration `T0` -/
noncomputable def secondSoliton (β₂ γ T0 z t : ℝ) : ℂ :=
  Real.sqrt (solitonPower β₂ γ T0) * soliton2 (z * (|β₂| / T0 ^ 2)) (t / T0)

/-- distance after which the second-order soliton has its first shape again: `(π/2)·T0²/|β₂|` -/
noncomputable def solitonPeriod (β₂ T0 : ℝ) : ℝ := Real.pi / 2 * (T0 ^ 2 / |β₂|)

end PyNLO.Nlse
