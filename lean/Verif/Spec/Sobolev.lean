import Verif.Spec.Nlse

/-!
# Size of a sampled field, and fields that satisfy the equation up to a small error

`sobolev` is the sum that stands for `∫|f|² dt + ∫|∂f/∂t|² dt` over a periodic window.
-/

namespace PyNLO.Nlse

variable {n : ℕ}

/-- the sample after `j`; the first follows the last -/
def next (j : Fin n) : Fin n := ⟨(j + 1) % n, Nat.mod_lt _ (by have := j.isLt; omega)⟩

/-- difference quotients of samples a time `h` apart -/
noncomputable def slopes (h : ℝ) (f : Fin n → ℂ) : Fin n → ℂ := fun j => (f (next j) - f j) / h

/-- `Σ (|f|² + |f'|²)·Δt` with `Δt = T/n` -/
noncomputable def sobolev (T : ℝ) (f : Fin n → ℂ) : ℝ := T / n * ∑ j, (‖f j‖ ^ 2 + ‖slopes (T / n) f j‖ ^ 2)

open Complex Polynomial in
/-- `u z t` satisfies `∂u/∂z = dispersion + (g/2)u + iγ|u|²u` over the distance `L` up to an error `r` that is at most `ρ` and changes with time by at
most `ρ` per unit -/
structure NearSolution (b : ℝ[X]) (g γ T L : ℝ) (u r : ℝ → ℝ → ℂ) (ρ : ℝ) : Prop where
  smooth : ContDiff ℝ (⊤ : ℕ∞) fun q : ℝ × ℝ => u q.1 q.2
  periodic : ∀ z, Function.Periodic (u z) T
  equation : ∀ z, 0 ≤ z → z ≤ L → ∀ t, HasDerivAt (fun z => u z t)
    (dispersion b (u z) t + g / 2 * u z t + I * γ * u z t * ((‖u z t‖ ^ 2 : ℝ) : ℂ) + r z t) z
  errPeriodic : ∀ z, Function.Periodic (r z) T
  err : ∀ z, 0 ≤ z → z ≤ L → ∀ t, ‖r z t‖ ≤ ρ
  errSlope : ∀ z, 0 ≤ z → z ≤ L → ∀ s t, ‖r z s - r z t‖ ≤ ρ * |s - t|

end PyNLO.Nlse
