import Mathlib.Data.Complex.Basic
import Mathlib.Data.Fintype.BigOperators
import Mathlib.Algebra.BigOperators.Fin

/-! # Specifications for operations on sampled fields -/

namespace PyNLO.Spec

/-- `x` placed in an array of `N` zeros, starting at index `off`. -/
def embedAt {n : ℕ} (off N : ℕ) (x : Fin n → ℂ) : Fin N → ℂ := fun i =>
  if h : off ≤ (i : ℕ) ∧ (i : ℕ) < off + n then x ⟨i - off, by omega⟩ else 0

/-- `x[j]` extended by zero to all integers. -/
def ext0 {n : ℕ} (x : Fin n → ℝ) (j : ℤ) : ℝ :=
  if h : 0 ≤ j ∧ j < n then x ⟨j.toNat, by omega⟩ else 0

/-- Correlation `Σ_t P(t) P(t + τ)` of a sampled power, at integer delay `τ`. -/
def autocorr {n : ℕ} (P : Fin n → ℝ) (τ : ℤ) : ℝ :=
  ∑ t : Fin n, P t * ext0 P ((t : ℕ) + τ)

end PyNLO.Spec
