import Verif.Spec.Nlse
import Mathlib.Analysis.Calculus.Deriv.Basic

/-!
# The flow of power caused by dispersion

No grid and no solver occurs here.
-/

namespace PyNLO.Nlse

open Complex Polynomial

/-- change of the power at the time `t` per unit of length, by gain and by dispersion -/
noncomputable def flowRate (b : ℝ[X]) (g : ℝ) (f : ℝ → ℂ) (t : ℝ) : ℝ := g * ‖f t‖ ^ 2 + 2 * ((starRingEnd ℂ) (f t) * dispersion b f t).re

/-- power times slope of the phase -/
noncomputable def phaseFlow (f : ℝ → ℂ) (t : ℝ) : ℝ := ((starRingEnd ℂ) (f t) * deriv f t).im

/-- power that passes the time `t`, per unit of length, towards earlier times: a delay `β₁`, the phase slope times `β₂`, and the third order -/
noncomputable def flow (β₁ β₂ β₃ : ℝ) (f : ℝ → ℂ) (t : ℝ) : ℝ :=
  -β₁ * ‖f t‖ ^ 2 + β₂ * phaseFlow f t + β₃ / 6 * (2 * ((starRingEnd ℂ) (f t) * iteratedDeriv 2 f t).re - ‖deriv f t‖ ^ 2)

end PyNLO.Nlse
