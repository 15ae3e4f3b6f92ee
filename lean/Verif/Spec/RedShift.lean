import Verif.Spec.Nlse
import Mathlib.Analysis.Calculus.Deriv.Basic

/-!
# Mean frequency of a periodic field and its change by a delayed response

No grid and no solver occurs here.
-/

namespace PyNLO.Nlse

open Complex

/-- energy in one period -/
noncomputable def energy (T : ℝ) (f : ℝ → ℂ) : ℝ := ∫ t in (0 : ℝ)..T, ‖f t‖ ^ 2

/-- power-weighted angular frequency, relative to the carrier; a wave `exp(-iωt)` of unit power contributes `ω` per unit of time -/
noncomputable def momentum (T : ℝ) (f : ℝ → ℂ) : ℝ := ∫ t in (0 : ℝ)..T, ((starRingEnd ℂ) (f t) * (I * deriv f t)).re

/-- mean angular frequency, relative to the carrier -/
noncomputable def meanFrequency (T : ℝ) (f : ℝ → ℂ) : ℝ := momentum T f / energy T f

/-- `∫ x·∂ₜ(h ⋆ x)` with the memory `h` cut at `X`: the work of a delayed response -/
noncomputable def drag (h : ℝ → ℝ) (X T : ℝ) (x : ℝ → ℝ) : ℝ := ∫ t in (0 : ℝ)..T, x t * deriv (fun t => ∫ s in (0 : ℝ)..X, h s * x (t - s)) t

end PyNLO.Nlse
