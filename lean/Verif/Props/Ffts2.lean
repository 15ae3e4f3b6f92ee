import Verif.Model.Ffts2
import Verif.Lemmas.FftT

/-! # C188: the transforms of two-dimensional arrays -/

namespace PyNLO

open Complex

variable {n m : ℕ}

theorem fftT2_zero (A : Fin n → Fin m → ℂ) (i : Fin n) (j : Fin m) : fftT2 false A i j = fftT (fun i' => A i' j) i := rfl
theorem fftT2_one (A : Fin n → Fin m → ℂ) (i : Fin n) : fftT2 true A i = fftT (A i) := rfl
theorem ifftT2_zero (A : Fin n → Fin m → ℂ) (i : Fin n) (j : Fin m) : ifftT2 false A i j = ifftT (fun i' => A i' j) i := rfl
theorem ifftT2_one (A : Fin n → Fin m → ℂ) (i : Fin n) : ifftT2 true A i = ifftT (A i) := rfl

theorem rootE_exp (n : ℕ) (a b : ℤ) : rootE n (a * b) = exp (2 * Real.pi * I * a * b / n) := by
  unfold rootE
  congr 1
  push_cast
  ring

/-- C188: `FFT_t(A, ax)` is the centred sum along that axis, for each value of the other index alone. -/
theorem C188_formula (A : Fin n → Fin m → ℂ) (i : Fin n) (j : Fin m) :
    (n % 2 = 0 → fftT2 false A i j = (1 / (n : ℂ)) * ∑ l : Fin n, A l j * exp (2 * Real.pi * I * (((l : ℕ) - (n / 2 : ℕ) : ℤ) : ℂ) * (((i : ℕ) - (n / 2 : ℕ) : ℤ) : ℂ) / n)) ∧
    (m % 2 = 0 → fftT2 true A i j = (1 / (m : ℂ)) * ∑ l : Fin m, A i l * exp (2 * Real.pi * I * (((l : ℕ) - (m / 2 : ℕ) : ℤ) : ℂ) * (((j : ℕ) - (m / 2 : ℕ) : ℤ) : ℂ) / m)) := by
  refine ⟨fun h => ?_, fun h => ?_⟩
  · rw [fftT2_zero, fftT_apply_even h]
    simp only [rootE_exp]
  · rw [fftT2_one, fftT_apply_even h]
    simp only [rootE_exp]

/-- C188: the two transforms undo each other along each axis, for every shape. -/
theorem C188_inverse (ax : Bool) (A : Fin n → Fin m → ℂ) : ifftT2 ax (fftT2 ax A) = A ∧ fftT2 ax (ifftT2 ax A) = A := by
  cases ax
  · constructor
    · funext i j
      rw [ifftT2_zero]
      simp only [fftT2_zero]
      exact congrFun (ifftT_fftT fun i' => A i' j) i
    · funext i j
      rw [fftT2_zero]
      simp only [ifftT2_zero]
      exact congrFun (fftT_ifftT fun i' => A i' j) i
  · constructor
    · funext i
      rw [ifftT2_one, fftT2_one, ifftT_fftT]
    · funext i
      rw [fftT2_one, ifftT2_one, fftT_ifftT]

/-- C188: the order of the axes does not matter. -/
theorem C188_commute (A : Fin n → Fin m → ℂ) : fftT2 false (fftT2 true A) = fftT2 true (fftT2 false A) ∧
    ifftT2 false (ifftT2 true A) = ifftT2 true (ifftT2 false A) := by
  constructor
  · funext i j
    rw [fftT2_zero, fftT2_one]
    simp only [fftT2_one, fftT2_zero, fftT_apply, Finset.mul_sum, Finset.sum_mul]
    rw [Finset.sum_comm]
    exact Finset.sum_congr rfl fun _ _ => Finset.sum_congr rfl fun _ _ => by ring
  · funext i j
    rw [ifftT2_zero, ifftT2_one]
    simp only [ifftT2_one, ifftT2_zero, ifftT_apply, Finset.sum_mul]
    rw [Finset.sum_comm]
    exact Finset.sum_congr rfl fun _ _ => Finset.sum_congr rfl fun _ _ => by ring

/-- C188: the energy, by lines along the axis. -/
theorem C188_energy (A : Fin n → Fin m → ℂ) : (∑ i, ∑ j, ‖A i j‖ ^ 2 = n * ∑ i, ∑ j, ‖fftT2 false A i j‖ ^ 2) ∧
    (∑ i, ∑ j, ‖A i j‖ ^ 2 = m * ∑ i, ∑ j, ‖fftT2 true A i j‖ ^ 2) := by
  constructor
  · rw [Finset.sum_comm, Finset.sum_comm (f := fun i j => ‖fftT2 false A i j‖ ^ 2), Finset.mul_sum]
    exact Finset.sum_congr rfl fun j _ => parseval_fftT fun i => A i j
  · rw [Finset.mul_sum]
    exact Finset.sum_congr rfl fun i _ => parseval_fftT (A i)

/-- C188: `FFT_x` and `IFFT_x` are `IFFT_t` and `FFT_t`, in this order: the directions are exchanged.  Of a two-dimensional array they transform the last axis, and the shifts
of the first axis cancel. -/
theorem C188_x (x : Fin n → ℂ) (A : Fin n → Fin m → ℂ) : fftX x = ifftT x ∧ ifftX x = fftT x ∧ fftX2 A = ifftT2 true A ∧ ifftX2 A = fftT2 true A := by
  refine ⟨rfl, rfl, ?_, ?_⟩
  · have e : alongAxis ifftshift false (alongAxis fft true (alongAxis fftshift true (alongAxis fftshift false A))) =
        alongAxis fft true (alongAxis fftshift true A) := by
      funext i j
      exact congrFun (ifftshift_fftshift fun i' => fft (fftshift (A i')) j) i
    unfold fftX2
    rw [e]
    rfl
  · have e : alongAxis ifftshift false (alongAxis ifft true (alongAxis fftshift true (alongAxis fftshift false A))) =
        alongAxis ifft true (alongAxis fftshift true A) := by
      funext i j
      exact congrFun (ifftshift_fftshift fun i' => ifft (fftshift (A i')) j) i
    unfold ifftX2
    rw [e]
    rfl

/-- C188: the axis that `FFT_x` takes is not the default axis of `FFT_t` and `IFFT_t`; the results differ for one column of two entries. -/
theorem C188_axis_differs : ∃ A : Fin 2 → Fin 1 → ℂ, fftX2 A ≠ ifftT2 false A ∧ fftX2 A ≠ fftT2 false A := by
  refine ⟨fun i _ => if i = 0 then 1 else 0, fun h => ?_, fun h => ?_⟩
  · rw [(C188_x (fun _ : Fin 2 => 0) _).2.2.1] at h
    have h1 := congrFun (congrFun h 1) 0
    rw [ifftT2_one, ifftT2_zero, ifftT_apply, ifftT_apply] at h1
    simp [rootE] at h1
    exact exp_ne_zero _ h1.symm
  · rw [(C188_x (fun _ : Fin 2 => 0) _).2.2.1] at h
    have h1 := congrFun (congrFun h 1) 0
    rw [ifftT2_one, fftT2_zero, ifftT_apply, fftT_apply] at h1
    simp [rootE] at h1

end PyNLO
