import Verif.Py.Basic
import Mathlib.Analysis.SpecialFunctions.Complex.Circle
import Mathlib.RingTheory.RootsOfUnity.Complex
import Mathlib.Algebra.BigOperators.Fin

/-!
# `numpy.fft` / `scipy.fftpack` semantics on vectors of a fixed length

`fft`, `ifft`, `np.roll`, `fftshift`, `ifftshift` exactly as documented by NumPy.
-/

namespace PyNLO

open Complex

/-- The root of unity `exp(2πi·a/n)`. -/
noncomputable def rootE (n : ℕ) (a : ℤ) : ℂ := exp (2 * Real.pi * I * (a / n : ℂ))

/-- `fft`: `X[k] = Σ_j x[j]·exp(-2πi·j·k/n)` -/
noncomputable def fft {n : ℕ} (x : Fin n → ℂ) : Fin n → ℂ :=
  fun k => ∑ j : Fin n, x j * rootE n (-((j : ℕ) * (k : ℕ) : ℤ))

/-- `ifft`: `x[j] = (1/n)·Σ_k X[k]·exp(+2πi·j·k/n)` -/
noncomputable def ifft {n : ℕ} (x : Fin n → ℂ) : Fin n → ℂ :=
  fun k => (1 / (n : ℂ)) * ∑ j : Fin n, x j * rootE n ((j : ℕ) * (k : ℕ) : ℤ)

/-- Index used by `np.roll(a, s)`: entry `k` of the result is entry `(k - s) mod n` of `a`. -/
def rollIdx {n : ℕ} (s : ℤ) (k : Fin n) : Fin n :=
  ⟨(((k : ℕ) - s : ℤ) % n).toNat, by
    have hn : (0 : ℤ) < n := by have := k.isLt; omega
    have h1 := Int.emod_lt_of_pos ((k : ℕ) - s : ℤ) hn
    have h2 := Int.emod_nonneg ((k : ℕ) - s : ℤ) (ne_of_gt hn)
    omega⟩

/-- `np.roll(a, s)` -/
def roll {n : ℕ} {α : Type _} (s : ℤ) (x : Fin n → α) : Fin n → α := fun k => x (rollIdx s k)

/-- `np.fft.fftshift`: roll by `n // 2` -/
def fftshift {n : ℕ} {α : Type _} (x : Fin n → α) : Fin n → α := roll ((n / 2 : ℕ) : ℤ) x

/-- `np.fft.ifftshift`: roll by `-(n // 2)` -/
def ifftshift {n : ℕ} {α : Type _} (x : Fin n → α) : Fin n → α := roll (-((n / 2 : ℕ) : ℤ)) x

end PyNLO
