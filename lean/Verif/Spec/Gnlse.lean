import Verif.Py.Fft

/-!
# The generalised nonlinear Schrödinger equation on a periodic grid

Arrays in the order used by the transforms.  Spectra are taken with `ifft`, so a spectral component `k` belongs to
`exp(-2πi·j·k/n)`; time derivatives are multiplications of the spectrum by `-iω`.
-/

namespace PyNLO.Gnlse

open Complex

variable {n : ℕ}

/-- apply a function of frequency -/
noncomputable def spectral (m A : Fin n → ℂ) : Fin n → ℂ := fft fun k => m k * ifft A k

/-- dispersion and loss: `iβ - α/2` -/
noncomputable def dispersive (β α : Fin n → ℝ) (A : Fin n → ℂ) : Fin n → ℂ := spectral (fun k => I * β k - α k / 2) A

/-- the intensity convolved with the response whose transform is `R` -/
noncomputable def induced (R A : Fin n → ℂ) : Fin n → ℂ := spectral R fun j => A j * (starRingEnd ℂ) (A j)

/-- time derivative -/
noncomputable def ddt (ω : Fin n → ℝ) (A : Fin n → ℂ) : Fin n → ℂ := spectral (fun k => -I * ω k) A

/-- `iγ·A·(R∗|A|²)` -/
noncomputable def kerr (R : Fin n → ℂ) (γ : ℝ) (A : Fin n → ℂ) : Fin n → ℂ := fun j => I * γ * A j * induced R A j

/-- `-(γ/ω₀)·(A·∂ₜ(R∗|A|²) + (R∗|A|²)·∂ₜA)`: self-steepening, with the product rule applied -/
noncomputable def steepening (R : Fin n → ℂ) (γ w0 : ℝ) (ω : Fin n → ℝ) (A : Fin n → ℂ) : Fin n → ℂ := fun j =>
  -((γ / w0 : ℝ) : ℂ) * (A j * ddt ω (induced R A) j + induced R A j * ddt ω A j)

/-- the same with the last term multiplied by `A/(ε+A)` -/
noncomputable def steepeningReg (ε : ℂ) (R : Fin n → ℂ) (γ w0 : ℝ) (ω : Fin n → ℝ) (A : Fin n → ℂ) : Fin n → ℂ := fun j =>
  -((γ / w0 : ℝ) : ℂ) * (A j * ddt ω (induced R A) j + induced R A j * ddt ω A j * (A j / (ε + A j)))

/-! ## The equation in the order of the arrays of a pulse (times and frequencies ascending) -/

/-- spectrum of a field -/
noncomputable def toFreq (U : Fin n → ℂ) : Fin n → ℂ := ifftshift (ifft (fftshift U))

/-- field of a spectrum -/
noncomputable def toTime (X : Fin n → ℂ) : Fin n → ℂ := ifftshift (fft (fftshift X))

/-- `∂U/∂z` for propagation constants `β`, power gain `g`, response `R` (in frequency) and nonlinear coefficient `γ` -/
noncomputable def rhs (β : Fin n → ℝ) (g : ℝ) (R : Fin n → ℂ) (γ : ℝ) (U : Fin n → ℂ) : Fin n → ℂ := fun j =>
  toTime (fun k => (I * β k + g / 2) * toFreq U k) j +
    I * γ * U j * toTime (fun k => R k * toFreq (fun i => U i * (starRingEnd ℂ) (U i)) k) j

/-- time derivative -/
noncomputable def dt (Ω : Fin n → ℝ) (U : Fin n → ℂ) : Fin n → ℂ := toTime fun k => -I * Ω k * toFreq U k

/-- the power convolved with the response -/
noncomputable def response (R U : Fin n → ℂ) : Fin n → ℂ := toTime fun k => R k * toFreq (fun i => U i * (starRingEnd ℂ) (U i)) k

/-- self-steepening: `-(γ/ω₀)·(U·∂ₜ(R∗|U|²) + (R∗|U|²)·∂ₜU)` -/
noncomputable def shock (R : Fin n → ℂ) (γ w0 : ℝ) (Ω : Fin n → ℝ) (U : Fin n → ℂ) : Fin n → ℂ := fun j =>
  -((γ / w0 : ℝ) : ℂ) * (U j * dt Ω (response R U) j + response R U j * dt Ω U j)

/-- the same with the last term multiplied by `U/(ε+U)` -/
noncomputable def shockReg (ε : ℂ) (R : Fin n → ℂ) (γ w0 : ℝ) (Ω : Fin n → ℝ) (U : Fin n → ℂ) : Fin n → ℂ := fun j =>
  -((γ / w0 : ℝ) : ℂ) * (U j * dt Ω (response R U) j + response R U j * dt Ω U j * (U j / (ε + U j)))

open Classical in
/-- effective length: the integral of `exp(g·s)` for `s` from 0 to `z` -/
noncomputable def leff (g z : ℝ) : ℝ := if g = 0 then z else (Real.exp (g * z) - 1) / g

/-- every sample amplified by the gain and rotated by its own power: the textbook solution without dispersion -/
noncomputable def selfPhase (g γ : ℝ) (A : Fin n → ℂ) (z : ℝ) : Fin n → ℂ := fun j =>
  exp (((g * z / 2 : ℝ) : ℂ) + I * ((γ * ‖A j‖ ^ 2 * leff g z : ℝ) : ℂ)) * A j

/-- sum of the powers -/
noncomputable def energy (U : Fin n → ℂ) : ℝ := ∑ j, ‖U j‖ ^ 2

end PyNLO.Gnlse
