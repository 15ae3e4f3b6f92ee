import Mathlib.Analysis.SpecialFunctions.Complex.Circle
import Mathlib.Algebra.BigOperators.Fin

/-! # Specification of the Fourier relation between sampled fields, independent of any FFT -/

namespace PyNLO.Spec

open Complex

/-- `aw` is the discrete Fourier transform of `at'` on time samples `t` and angular-frequency samples
`v`, with the documented sign convention and normalisation. -/
def IsFourierPair {n : ℕ} (t v : Fin n → ℝ) (at' aw : Fin n → ℂ) : Prop :=
  (∀ k, aw k = (1 / (n : ℂ)) * ∑ m, at' m * exp (I * (v k : ℂ) * (t m : ℂ))) ∧
  (∀ m, at' m = ∑ k, aw k * exp (-(I * (v k : ℂ) * (t m : ℂ))))

/-- Squared ℓ² norm of a sampled field. -/
noncomputable def energy {n : ℕ} (x : Fin n → ℂ) : ℝ := ∑ k, ‖x k‖ ^ 2

end PyNLO.Spec
