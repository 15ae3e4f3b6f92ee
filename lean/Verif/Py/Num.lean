import Verif.Py.Fft
import Mathlib.Algebra.Order.Floor.Ring
import Mathlib.Data.Finset.Max
import Mathlib.Data.Fintype.Order

/-!
# NumPy numerics used by the models: `trapz`, `argmin`, `round`, `linspace`, `correlate`
-/

namespace PyNLO

/-- `np.trapz(y)` with unit spacing: `Σ_{i<n-1} (y[i] + y[i+1]) / 2`. -/
noncomputable def trapz {n : ℕ} (y : Fin n → ℝ) : ℝ :=
  ∑ i : Fin (n - 1), (y ⟨i, by omega⟩ + y ⟨i + 1, by omega⟩) / 2

/-- Set of indices where a finite real sequence attains its minimum. -/
noncomputable def argminSet {n : ℕ} (y : Fin n → ℝ) : Finset (Fin n) := by
  classical exact Finset.univ.filter fun i => ∀ j, y i ≤ y j

theorem argminSet_nonempty {n : ℕ} (y : Fin n → ℝ) (h : 0 < n) : (argminSet y).Nonempty := by
  classical
  obtain ⟨i, -, hi⟩ := Finset.exists_min_image (Finset.univ : Finset (Fin n)) y ⟨⟨0, h⟩, by simp⟩
  exact ⟨i, by simp only [argminSet, Finset.mem_filter, Finset.mem_univ, true_and]; exact fun j => hi j (by simp)⟩

/-- `np.argmin(y)`: the first index where the minimum is attained; `ValueError` for an empty array. -/
noncomputable def argmin {n : ℕ} (y : Fin n → ℝ) : Except PyErr (Fin n) :=
  if h : 0 < n then .ok ((argminSet y).min' (argminSet_nonempty y h)) else .error .ValueError

theorem argmin_spec {n : ℕ} {y : Fin n → ℝ} {i : Fin n} (h : argmin y = .ok i) :
    (∀ j, y i ≤ y j) ∧ ∀ j, j < i → y i < y j := by
  unfold argmin at h
  split at h
  next hn =>
    have h' : (argminSet y).min' (argminSet_nonempty y hn) = i := by injection h
    have hmem : i ∈ argminSet y := h' ▸ Finset.min'_mem _ _
    have hi : ∀ j, y i ≤ y j := by
      simpa [argminSet] using hmem
    refine ⟨hi, fun j hj => lt_of_le_of_ne (hi j) fun he => ?_⟩
    have : j ∈ argminSet y := by
      simp only [argminSet, Finset.mem_filter, Finset.mem_univ, true_and]
      intro k; rw [← he]; exact hi k
    have h2 := Finset.min'_le _ _ this
    rw [h'] at h2
    exact absurd hj (not_lt.mpr h2)
  next => cases h

theorem argmin_ok {n : ℕ} (y : Fin n → ℝ) (h : 0 < n) : ∃ i, argmin y = .ok i := by
  unfold argmin; rw [dif_pos h]; exact ⟨_, rfl⟩

theorem argmin_eq_of_unique {n : ℕ} {y : Fin n → ℝ} {i : Fin n} (h : ∀ j, j ≠ i → y i < y j) :
    argmin y = .ok i := by
  obtain ⟨k, hk⟩ := argmin_ok y (by have := i.isLt; omega)
  have := (argmin_spec hk).1 i
  by_cases hki : k = i
  · rw [hk, hki]
  · exact absurd (h k hki) (not_lt.mpr this)

/-- Python 3 `round` of a float to an integer (ties to even); also `np.round`. -/
noncomputable def pyRound (x : ℝ) : ℤ :=
  if x - ⌊x⌋ < 1 / 2 then ⌊x⌋
  else if 1 / 2 < x - ⌊x⌋ then ⌊x⌋ + 1
  else if ⌊x⌋ % 2 = 0 then ⌊x⌋ else ⌊x⌋ + 1

theorem pyRound_near (x : ℝ) : |(pyRound x : ℝ) - x| ≤ 1 / 2 := by
  unfold pyRound
  have h1 := Int.floor_le x
  have h2 := Int.lt_floor_add_one x
  rw [abs_le]
  split_ifs <;> push_cast <;> constructor <;> linarith

theorem pyRound_int (m : ℤ) : pyRound (m : ℝ) = m := by
  unfold pyRound
  simp

end PyNLO
