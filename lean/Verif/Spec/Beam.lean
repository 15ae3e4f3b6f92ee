import Mathlib.MeasureTheory.Integral.Bochner.Basic
import Mathlib.MeasureTheory.Measure.Prod
import Mathlib.MeasureTheory.Measure.Haar.OfBasis
import Mathlib.Analysis.SpecialFunctions.Complex.Circle

/-!
# Paraxial Gaussian beams

The fundamental mode in the transverse plane a distance `z` from the focus, with wavenumber `k` in the medium and
Rayleigh range `zR`, and the power coupling of two transverse fields.  Nothing here refers to the model.
-/

namespace PyNLO.Spec

open Complex MeasureTheory

/-- The complex beam parameter `q = z + i zR`. -/
noncomputable def beamQ (z zR : ℝ) : ℂ := z + I * zR

/-- Transverse field `exp(-i k r² / 2q)`. -/
noncomputable def gaussField (k z zR : ℝ) (p : ℝ × ℝ) : ℂ :=
  exp (-(I * k * (p.1 ^ 2 + p.2 ^ 2) / (2 * beamQ z zR)))

/-- Fraction of the power of `E₂` that couples into the mode `E₁`: `|∬ E₁* E₂|² / (∬ |E₁|² ∬ |E₂|²)`. -/
noncomputable def coupling (E₁ E₂ : ℝ × ℝ → ℂ) : ℝ :=
  ‖∫ p, (starRingEnd ℂ) (E₁ p) * E₂ p‖ ^ 2 / ((∫ p, ‖E₁ p‖ ^ 2) * ∫ p, ‖E₂ p‖ ^ 2)

end PyNLO.Spec
