import Mathlib.Analysis.SpecialFunctions.Trigonometric.Basic
import Mathlib.Analysis.SpecialFunctions.Exp

/-!
# Raman response functions of silica as published

`isotropic`: Blow and Wood (1989); `boson`, `linAgrawal`: Lin and Agrawal, Opt. Lett. 31, 3086 (2006).  Times in ps.
-/

namespace PyNLO.RamanSpec

/-- `τ₁(τ₁⁻² + τ₂⁻²)·exp(-t/τ₂)·sin(t/τ₁)` -/
noncomputable def isotropic (τ1 τ2 t : ℝ) : ℝ := τ1 * (1 / τ1 ^ 2 + 1 / τ2 ^ 2) * Real.exp (-t / τ2) * Real.sin (t / τ1)

/-- `(2τ_b - t)/τ_b²·exp(-t/τ_b)` -/
noncomputable def boson (τb t : ℝ) : ℝ := (2 * τb - t) / τb ^ 2 * Real.exp (-t / τb)

/-- `(f_a + f_c)·h_a + f_b·h_b` with `f_a = 0.75`, `f_b = 0.21`, `f_c = 0.04`, `τ_b = 96 fs` -/
noncomputable def linAgrawal (τ1 τ2 t : ℝ) : ℝ := (75 / 100 + 4 / 100) * isotropic τ1 τ2 t + 21 / 100 * boson (96 / 1000) t

end PyNLO.RamanSpec
