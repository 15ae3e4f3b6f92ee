import Verif.Spec.RedShift
import Verif.Spec.Gnlse

/-!
# Self-phase modulation and the width of the spectrum

No grid and no solver occurs here.
-/

namespace PyNLO.Nlse

open Complex

/-- power-weighted square of the angular frequency, relative to the carrier; a wave `exp(-iωt)` of unit power contributes `ω²` per unit of time -/
noncomputable def secondMoment (T : ℝ) (f : ℝ → ℂ) : ℝ := ∫ t in (0 : ℝ)..T, ‖deriv f t‖ ^ 2

/-- slope of the power times slope of the phase, weighted with the power: positive when the phase follows the power -/
noncomputable def chirpOf (T : ℝ) (f : ℝ → ℂ) : ℝ := ∫ t in (0 : ℝ)..T, deriv (fun t => ‖f t‖ ^ 2) t * (deriv f t * (starRingEnd ℂ) (f t)).im

/-- square of the slope of the power, weighted with the power -/
noncomputable def steepness (T : ℝ) (f : ℝ → ℂ) : ℝ := ∫ t in (0 : ℝ)..T, ‖f t‖ ^ 2 * deriv (fun t => ‖f t‖ ^ 2) t ^ 2

/-- the field behind a fibre of length `z` without dispersion: amplified, and rotated by its own power -/
noncomputable def spm (g γ : ℝ) (f : ℝ → ℂ) (z : ℝ) : ℝ → ℂ := fun t =>
  exp (((g * z / 2 : ℝ) : ℂ) + I * ((γ * ‖f t‖ ^ 2 * Gnlse.leff g z : ℝ) : ℂ)) * f t

/-- mean square of the frequency after a nonlinear phase of `q` per unit of power -/
noncomputable def broadened (T : ℝ) (f : ℝ → ℂ) (q : ℝ) : ℝ := (secondMoment T f + 2 * q * chirpOf T f + q ^ 2 * steepness T f) / energy T f

end PyNLO.Nlse
