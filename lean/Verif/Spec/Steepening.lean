import Verif.Spec.Nlse
import Mathlib.Analysis.Calculus.Deriv.Basic

/-!
# Self-steepening in continuous time

No grid and no solver occurs here.
-/

namespace PyNLO.Nlse

open Complex Polynomial

/-- right-hand side of the propagation equation without Raman scattering: dispersion `b`, power gain `g`, self-phase modulation, and the
self-steepening term `-(γ/ω₀)·∂ₜ(|f|²·f)` -/
noncomputable def steepField (b : ℝ[X]) (g γ w0 : ℝ) (f : ℝ → ℂ) (t : ℝ) : ℂ :=
  dispersion b f t + ((g / 2 : ℝ) : ℂ) * f t + I * γ * ((‖f t‖ ^ 2 : ℝ) : ℂ) * f t -
    ((γ / w0 : ℝ) : ℂ) * deriv (fun t => ((‖f t‖ ^ 2 : ℝ) : ℂ) * f t) t

/-- change of the power at the time `t` per unit of length -/
noncomputable def powerRate (b : ℝ[X]) (g γ w0 : ℝ) (f : ℝ → ℂ) (t : ℝ) : ℝ := 2 * ((starRingEnd ℂ) (f t) * steepField b g γ w0 f t).re

end PyNLO.Nlse
