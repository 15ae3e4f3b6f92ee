import Mathlib.Analysis.Calculus.IteratedDeriv.Defs
import Mathlib.Analysis.Complex.Basic
import Mathlib.Analysis.Calculus.ContDiff.Defs
import Mathlib.Algebra.Polynomial.Eval.Defs
import Mathlib.Analysis.Real.Pi.Bounds
import Mathlib.Analysis.SpecialFunctions.Trigonometric.Deriv
import Mathlib.Analysis.SpecialFunctions.ExpDeriv
import Mathlib.MeasureTheory.Integral.IntervalIntegral.Basic

/-!
# The generalised nonlinear Schrödinger equation in continuous time

The partial differential equation of the textbooks, on a periodic time window.  No grid occurs here.
-/

namespace PyNLO.Nlse

open Complex Polynomial

/-- `i·Σₘ bₘ·(i∂ₜ)ᵐ f`: dispersion with propagation constant `b(ω)`; a wave `exp(-iωt)` is multiplied by `i·b(ω)` -/
noncomputable def dispersion (b : ℝ[X]) (f : ℝ → ℂ) (t : ℝ) : ℂ := b.sum fun m c => I * c * I ^ m * iteratedDeriv m f t

/-- instantaneous and delayed response to the power `x`; the delayed part is cut at half the window and has unit area -/
noncomputable def response (fR : ℝ) (h : ℝ → ℝ) (T : ℝ) (x : ℝ → ℝ) (t : ℝ) : ℝ :=
  (1 - fR) * x t + fR * ((∫ s in (0 : ℝ)..T / 2, h s * x (t - s)) / ∫ s in (0 : ℝ)..T / 2, h s)

/-- `u z t` is a smooth solution over the distance `L` with period `T` in time:
`∂u/∂z = dispersion + (g/2)u + iγ·u·response(|u|²)` -/
structure Solution (b : ℝ[X]) (g γ fR : ℝ) (h : ℝ → ℝ) (T L : ℝ) (u : ℝ → ℝ → ℂ) : Prop where
  smooth : ContDiff ℝ (⊤ : ℕ∞) fun q : ℝ × ℝ => u q.1 q.2
  periodic : ∀ z, Function.Periodic (u z) T
  equation : ∀ z, 0 ≤ z → z ≤ L → ∀ t, HasDerivAt (fun z => u z t)
    (dispersion b (u z) t + g / 2 * u z t + I * γ * u z t * (response fR h T (fun t => ‖u z t‖ ^ 2) t : ℝ)) z

/-- `Σ bᵢ·xⁱ⁺²/(i+2)!` -/
noncomputable def taylorPoly {m : ℕ} (b : Fin m → ℝ) : ℝ[X] := ∑ i, C (b i / (Nat.factorial ((i : ℕ) + 2))) * X ^ ((i : ℕ) + 2)

/-- slope of `q` between the two frequencies next to zero -/
noncomputable def slope (q : ℝ[X]) (T : ℝ) : ℝ := (q.eval (2 * Real.pi / T) - q.eval (-(2 * Real.pi / T))) / (2 * (2 * Real.pi / T))

/-- propagation constant of a fibre with Taylor coefficients `b` at an optical frequency `d` below the centre of the pulse, in the frame in which
the value at the centre and the slope between the neighbours of the centre vanish -/
noncomputable def fiberPoly {m : ℕ} (b : Fin m → ℝ) (d T : ℝ) : ℝ[X] :=
  (taylorPoly b).comp (X + C d) - C (slope ((taylorPoly b).comp (X + C d)) T) * X - C ((taylorPoly b).eval d)

/-- the breather `exp(iz)·(1 + (2p²·cosh(2pqz) + 2ipq·sinh(2pqz))/(q·cos(2pt) - cosh(2pqz)))`: a modulated continuous wave that
focuses into a train of pulses at `z = 0` -/
noncomputable def breather (p q z t : ℝ) : ℂ :=
  exp (I * z) * (1 + (2 * p ^ 2 * Real.cosh (2 * p * q * z) + 2 * I * p * q * Real.sinh (2 * p * q * z)) /
    (q * Real.cos (2 * p * t) - Real.cosh (2 * p * q * z)))

end PyNLO.Nlse
