import Verif.Spec.Nlse

/-!
# Pulses on an unbounded time axis

No window and no period occurs here.
-/

namespace PyNLO.Nlse

open Complex Polynomial

/-- `v z t` solves `∂v/∂z = dispersion + (g/2)v + iγ|v|²v` for all times over the distance `L`, and it falls off like `exp(-μ|t|)`, as do all its
derivatives with respect to time -/
structure LineSolution (b : ℝ[X]) (g γ μ L : ℝ) (v : ℝ → ℝ → ℂ) : Prop where
  smooth : ContDiff ℝ (⊤ : ℕ∞) fun q : ℝ × ℝ => v q.1 q.2
  equation : ∀ z, 0 ≤ z → z ≤ L → ∀ t, HasDerivAt (fun z => v z t)
    (dispersion b (v z) t + g / 2 * v z t + I * γ * v z t * ((‖v z t‖ ^ 2 : ℝ) : ℂ)) z
  decay : ∀ k : ℕ, ∃ C : ℝ, ∀ z, 0 ≤ z → z ≤ L → ∀ t, ‖iteratedDeriv k (v z) t‖ ≤ C * Real.exp (-(μ * |t|))

end PyNLO.Nlse
