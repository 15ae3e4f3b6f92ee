import Verif.Lemmas.Fft
import Verif.Model.Ffts

/-! # Facts about `FFT_t` / `IFFT_t` -/

namespace PyNLO

open Complex

variable {n : ℕ}

theorem ifftT_fftT (A : Fin n → ℂ) : ifftT (fftT A) = A := by
  unfold ifftT fftT
  rw [fftshift_ifftshift, fft_ifft, ifftshift_fftshift]

theorem fftT_ifftT (A : Fin n → ℂ) : fftT (ifftT A) = A := by
  unfold ifftT fftT
  rw [fftshift_ifftshift, ifft_fft, ifftshift_fftshift]

theorem norm_sum_roll (s : ℤ) (x : Fin n → ℂ) : ∑ k, ‖roll s x k‖ ^ 2 = ∑ k, ‖x k‖ ^ 2 :=
  sum_roll s fun k => ‖x k‖ ^ 2

theorem parseval_ifftT (A : Fin n → ℂ) : ∑ k, ‖ifftT A k‖ ^ 2 = n * ∑ j, ‖A j‖ ^ 2 := by
  unfold ifftT ifftshift
  rw [norm_sum_roll, parseval_fft]
  unfold fftshift
  rw [norm_sum_roll]

theorem parseval_fftT (A : Fin n → ℂ) : ∑ k, ‖A k‖ ^ 2 = n * ∑ j, ‖fftT A j‖ ^ 2 := by
  have := parseval_ifftT (fftT A)
  rwa [ifftT_fftT] at this

/-- Explicit sum for `FFT_t`, any length. -/
theorem fftT_apply (A : Fin n → ℂ) (k : Fin n) :
    fftT A k = (1 / (n : ℂ)) * ∑ j : Fin n,
      A j * rootE n (((j : ℕ) + (n / 2 : ℕ) : ℤ) * ((k : ℕ) + (n / 2 : ℕ) : ℤ)) := by
  unfold fftT ifftshift fftshift
  conv_lhs => unfold roll
  show ifft (roll _ A) _ = _
  rw [ifft_roll]
  unfold ifft
  rw [mul_left_comm, Finset.mul_sum]
  congr 1
  refine Finset.sum_congr rfl fun j _ => ?_
  rw [mul_left_comm, ← rootE_add, ← add_mul, mul_comm (_ + _) _, rootE_rollIdx]
  congr 2
  ring

/-- Explicit sum for `IFFT_t`, any length. -/
theorem ifftT_apply (A : Fin n → ℂ) (k : Fin n) :
    ifftT A k = ∑ j : Fin n,
      A j * rootE n (-(((j : ℕ) + (n / 2 : ℕ) : ℤ) * ((k : ℕ) + (n / 2 : ℕ) : ℤ))) := by
  unfold ifftT ifftshift fftshift
  conv_lhs => unfold roll
  show fft (roll _ A) _ = _
  rw [fft_roll]
  unfold fft
  rw [Finset.mul_sum]
  refine Finset.sum_congr rfl fun j _ => ?_
  rw [mul_left_comm, ← rootE_add, show
    (-(((n / 2 : ℕ) : ℤ) * (((rollIdx (-((n / 2 : ℕ) : ℤ)) k : Fin n) : ℕ) : ℤ)) +
      -(((j : ℕ) : ℤ) * (((rollIdx (-((n / 2 : ℕ) : ℤ)) k : Fin n) : ℕ) : ℤ))) =
     (((rollIdx (-((n / 2 : ℕ) : ℤ)) k : Fin n) : ℕ) : ℤ) * (-((j : ℕ) + (n / 2 : ℕ)) : ℤ) by ring,
    rootE_rollIdx]
  congr 2
  ring

theorem fftT_smul (c : ℂ) (x : Fin n → ℂ) : fftT (fun j => c * x j) = fun k => c * fftT x k := by
  funext k
  simp only [fftT_apply]
  rw [mul_left_comm, Finset.mul_sum (a := c)]
  simp only [mul_assoc]

theorem ifftT_smul (c : ℂ) (x : Fin n → ℂ) : ifftT (fun j => c * x j) = fun k => c * ifftT x k := by
  funext k
  simp only [ifftT_apply]
  rw [Finset.mul_sum]
  simp only [mul_assoc]

/-- Even length: centred indices. -/
theorem fftT_apply_even (he : n % 2 = 0) (A : Fin n → ℂ) (k : Fin n) :
    fftT A k = (1 / (n : ℂ)) * ∑ j : Fin n,
      A j * rootE n (((j : ℕ) - (n / 2 : ℕ) : ℤ) * ((k : ℕ) - (n / 2 : ℕ) : ℤ)) := by
  rw [fftT_apply]
  congr 1
  refine Finset.sum_congr rfl fun j _ => ?_
  congr 1
  have hn : n ≠ 0 := by have := k.isLt; omega
  apply rootE_congr_of_dvd hn
  obtain ⟨h, rfl⟩ : ∃ h, n = 2 * h := ⟨n / 2, by omega⟩
  rw [show 2 * h / 2 = h by omega]
  refine ⟨(j : ℕ) + (k : ℕ), ?_⟩
  push_cast
  ring

theorem ifftT_apply_even (he : n % 2 = 0) (A : Fin n → ℂ) (k : Fin n) :
    ifftT A k = ∑ j : Fin n,
      A j * rootE n (-(((j : ℕ) - (n / 2 : ℕ) : ℤ) * ((k : ℕ) - (n / 2 : ℕ) : ℤ))) := by
  rw [ifftT_apply]
  refine Finset.sum_congr rfl fun j _ => ?_
  congr 1
  have hn : n ≠ 0 := by have := k.isLt; omega
  apply rootE_congr_of_dvd hn
  obtain ⟨h, rfl⟩ : ∃ h, n = 2 * h := ⟨n / 2, by omega⟩
  rw [show 2 * h / 2 = h by omega]
  refine ⟨-((j : ℕ) + (k : ℕ)), ?_⟩
  push_cast
  ring

end PyNLO
