import Mathlib.Data.Complex.BigOperators
import Mathlib.Analysis.Complex.Norm
import Mathlib.Algebra.BigOperators.Fin
import Mathlib.Analysis.SpecialFunctions.Exp

/-! # Specification of mixing products on a frequency grid, independent of any FFT -/

namespace PyNLO.Spec

/-- Sum-frequency product: bin `m` collects every pair of bins `i`, `j` with `i + j = m + c`. -/
noncomputable def sumMix {n : ℕ} (c : ℤ) (x y : Fin n → ℂ) : Fin n → ℂ := fun m =>
  ∑ i : Fin n, ∑ j : Fin n, if ((i : ℕ) : ℤ) + (j : ℕ) = (m : ℕ) + c then x i * y j else 0

/-- Difference-frequency product: bin `m` collects every pair of bins with `i - j = m - c`. -/
noncomputable def diffMix {n : ℕ} (c : ℤ) (x y : Fin n → ℂ) : Fin n → ℂ := fun m =>
  ∑ i : Fin n, ∑ j : Fin n, if ((i : ℕ) : ℤ) - (j : ℕ) = (m : ℕ) - c then x i * (starRingEnd ℂ) (y j) else 0

/-- One of three coupled waves: coupling constant `2 ω / (c n a)`, conversion factor `a` from amplitude to field, and propagation
constant, for each frequency. -/
structure Wave (n : ℕ) where
  g : Fin n → ℝ
  a : Fin n → ℝ
  β : Fin n → ℝ

/-- The field of a wave with amplitudes `A` at `z`. -/
noncomputable def Wave.field {n : ℕ} (w : Wave n) (z : ℝ) (A : Fin n → ℂ) : Fin n → ℂ := fun j =>
  (w.a j : ℂ) * A j * Complex.exp (Complex.I * ((w.β j * z : ℝ) : ℂ))

/-- The rate of change of the amplitudes of a wave driven by the polarisation `P` with nonlinear coefficient `d`. -/
noncomputable def Wave.driven {n : ℕ} (w : Wave n) (d z : ℝ) (P : Fin n → ℂ) : Fin n → ℂ := fun j =>
  Complex.I * ((d * w.g j : ℝ) : ℂ) * Complex.exp (-(Complex.I * ((w.β j * z : ℝ) : ℂ))) * P j

/-- Rate at which `Σ u |A|²` changes while `A` changes at the rate `dA`. -/
noncomputable def rate {n : ℕ} (u : Fin n → ℝ) (A dA : Fin n → ℂ) : ℝ :=
  ∑ j, u j * (2 * ((starRingEnd ℂ) (A j) * dA j).re)

/-- Weighted square norm; weight 1 gives the power, weight `1/ω` the photon flux. -/
noncomputable def weighted {n : ℕ} (u : Fin n → ℝ) (A : Fin n → ℂ) : ℝ := ∑ j, u j * ‖A j‖ ^ 2

/-- Beginnings of the poling periods of a crystal whose period at `z` is `pp z`. -/
def wall (pp : ℝ → ℝ) : ℕ → ℝ
  | 0 => 0
  | k + 1 => wall pp k + pp (wall pp k)

/-- Frequency of bin `i` of a grid of `n` bins spaced by `1/tw` around `cf`. -/
noncomputable def binFreq (cf tw : ℝ) (n i : ℕ) : ℝ := cf + ((i : ℝ) - (n : ℝ) / 2) / tw

/-- Some wavelength of the first grid exceeds some wavelength of the second grid; `c` is the speed of light. -/
def GridsOverlap (c cf tw : ℝ) (n : ℕ) (cf' tw' : ℝ) (n' : ℕ) : Prop :=
  ∃ i < n, ∃ j < n', c / binFreq cf' tw' n' j < c / binFreq cf tw n i

end PyNLO.Spec
