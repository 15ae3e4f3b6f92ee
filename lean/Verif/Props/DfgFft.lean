import Verif.Model.DfgFft
import Verif.Spec.Dfg
import Verif.Lemmas.Fft

/-! # Zero-padded convolution and correlation (C69) -/

namespace PyNLO.Dfg

open Finset

/-- Circular convolution theorem. -/
theorem ifft_fft_mul {N : ℕ} (x y : Fin N → ℂ) (k : Fin N) : ifft (fun l => fft x l * fft y l) k =
    ∑ i : Fin N, ∑ j : Fin N, if (N : ℤ) ∣ (k : ℕ) - (((i : ℕ) : ℤ) + (j : ℕ)) then x i * y j else 0 := by
  have hn : N ≠ 0 := by have := k.isLt; omega
  have hn' : (N : ℂ) ≠ 0 := by exact_mod_cast hn
  unfold ifft
  have : ∀ l : Fin N, fft x l * fft y l * rootE N ((l : ℕ) * (k : ℕ) : ℤ) =
      ∑ i : Fin N, ∑ j : Fin N, x i * y j * rootE N ((l : ℕ) * ((k : ℕ) - (((i : ℕ) : ℤ) + (j : ℕ)))) := by
    intro l
    unfold fft
    rw [sum_mul_sum, sum_mul]
    refine sum_congr rfl fun i _ => ?_
    rw [sum_mul]
    refine sum_congr rfl fun j _ => ?_
    rw [show ((l : ℕ) : ℤ) * ((k : ℕ) - (((i : ℕ) : ℤ) + (j : ℕ))) =
      -(((i : ℕ) : ℤ) * (l : ℕ)) + (-(((j : ℕ) : ℤ) * (l : ℕ)) + ((l : ℕ) : ℤ) * (k : ℕ)) by ring, rootE_add, rootE_add]
    ring
  simp_rw [this]
  rw [sum_comm, mul_sum]
  refine sum_congr rfl fun i _ => ?_
  rw [sum_comm, mul_sum]
  refine sum_congr rfl fun j _ => ?_
  rw [← mul_sum, sum_rootE]
  split_ifs
  · field_simp
  · ring

/-- Circular correlation theorem. -/
theorem ifft_fft_mul_conj {N : ℕ} (x y : Fin N → ℂ) (k : Fin N) : ifft (fun l => fft x l * (starRingEnd ℂ) (fft y l)) k =
    ∑ i : Fin N, ∑ j : Fin N, if (N : ℤ) ∣ (k : ℕ) - (((i : ℕ) : ℤ) - (j : ℕ)) then x i * (starRingEnd ℂ) (y j) else 0 := by
  have hn : N ≠ 0 := by have := k.isLt; omega
  have hn' : (N : ℂ) ≠ 0 := by exact_mod_cast hn
  unfold ifft
  have : ∀ l : Fin N, fft x l * (starRingEnd ℂ) (fft y l) * rootE N ((l : ℕ) * (k : ℕ) : ℤ) =
      ∑ i : Fin N, ∑ j : Fin N, x i * (starRingEnd ℂ) (y j) * rootE N ((l : ℕ) * ((k : ℕ) - (((i : ℕ) : ℤ) - (j : ℕ)))) := by
    intro l
    unfold fft
    rw [map_sum, sum_mul_sum, sum_mul]
    refine sum_congr rfl fun i _ => ?_
    rw [sum_mul]
    refine sum_congr rfl fun j _ => ?_
    rw [map_mul, conj_rootE, show ((l : ℕ) : ℤ) * ((k : ℕ) - (((i : ℕ) : ℤ) - (j : ℕ))) =
      -(((i : ℕ) : ℤ) * (l : ℕ)) + (- -(((j : ℕ) : ℤ) * (l : ℕ)) + ((l : ℕ) : ℤ) * (k : ℕ)) by ring, rootE_add, rootE_add]
    ring
  simp_rw [this]
  rw [sum_comm, mul_sum]
  refine sum_congr rfl fun i _ => ?_
  rw [sum_comm, mul_sum]
  refine sum_congr rfl fun j _ => ?_
  rw [← mul_sum, sum_rootE]
  split_ifs
  · field_simp
  · ring

/-- Sum over a buffer filled in its lower half. -/
theorem sum_low {n : ℕ} (f : Fin (2 * n) → ℂ) (h : ∀ k : Fin (2 * n), n ≤ (k : ℕ) → f k = 0) :
    ∑ k, f k = ∑ i : Fin n, f ⟨i, by have := i.isLt; omega⟩ := by
  have e : 2 * n = n + n := by ring
  rw [← (finCongr e.symm).sum_comp, Fin.sum_univ_add]
  rw [show ∑ i : Fin n, f ((finCongr e.symm) (Fin.natAdd n i)) = 0 from
    sum_eq_zero fun i _ => h _ (by simp), add_zero]
  rfl

/-- Sum over a buffer filled in its upper half. -/
theorem sum_high {n : ℕ} (f : Fin (2 * n) → ℂ) (h : ∀ k : Fin (2 * n), (k : ℕ) < n → f k = 0) :
    ∑ k, f k = ∑ i : Fin n, f ⟨n + i, by have := i.isLt; omega⟩ := by
  have e : 2 * n = n + n := by ring
  rw [← (finCongr e.symm).sum_comp, Fin.sum_univ_add]
  rw [show ∑ i : Fin n, f ((finCongr e.symm) (Fin.castAdd n i)) = 0 from
    sum_eq_zero fun i _ => h _ (by simp), zero_add]
  rfl

theorem dvd_window {n : ℕ} (m : Fin n) (a : ℤ) :
    ((2 * n : ℕ) : ℤ) ∣ ((rollIdx (-((2 * n / 2 : ℕ) : ℤ)) (⟨n / 2 + m, by have := m.isLt; omega⟩ : Fin (2 * n)) : ℕ) : ℤ) - a ↔
      ((2 * n : ℕ) : ℤ) ∣ (m : ℕ) + (n / 2 : ℕ) + n - a := by
  rw [rollIdx_coe]
  rw [show ((2 * n / 2 : ℕ) : ℤ) = n by simp]
  simp only [Nat.cast_add]
  rw [Int.dvd_iff_emod_eq_zero, Int.dvd_iff_emod_eq_zero, Int.emod_sub_emod,
    show ((n / 2 : ℕ) : ℤ) + (m : ℕ) - -(n : ℤ) = (m : ℕ) + (n / 2 : ℕ) + n by ring]

/-- C69: `conv` is the linear convolution, bin `m` collecting the pairs of bins with `i + j = m + n/2`, whatever the work
buffers contained before; every length. -/
theorem C69_conv {n : ℕ} (s : FftC n) (resp sig : Fin n → ℂ) :
    (s.conv resp sig).1 = Spec.sumMix (n / 2 : ℕ) resp sig := by
  funext m
  simp only [FftC.conv, window, FftC.ifft, FftC.fft, FftC.clear, FftC.setHigh, FftC.setLow, ifftshift, roll]
  rw [ifft_fft_mul]
  simp only [dvd_window]
  rw [sum_low _ fun k hk => sum_eq_zero fun j _ => by simp [not_lt.mpr hk], Spec.sumMix, sum_comm]
  rw [sum_high _ fun k hk => sum_eq_zero fun j _ => by simp [not_le.mpr hk]]
  refine sum_congr rfl fun i _ => sum_congr rfl fun j _ => ?_
  have hi := i.isLt
  have hj := j.isLt
  have hm := m.isLt
  simp only [Fin.is_lt, dif_pos, Nat.le_add_right, Nat.add_sub_cancel_left]
  refine if_congr ?_ (mul_comm _ _) rfl
  constructor
  · rintro ⟨c, hc⟩
    push_cast at hc ⊢
    have : c = 0 := by
      by_contra h0
      rcases lt_or_gt_of_ne h0 with h | h
      · have : 2 * (n : ℤ) * c ≤ -(2 * n) := by nlinarith
        omega
      · have : 2 * (n : ℤ) ≤ 2 * n * c := by nlinarith
        omega
    subst this
    omega
  · intro h
    refine ⟨0, ?_⟩
    push_cast at h ⊢
    omega

/-- C69: `corr` is the linear correlation, bin `m` collecting the pairs of bins with `i - j = m - (n - n/2)`, whatever the
work buffers contained before; every length. -/
theorem C69_corr {n : ℕ} (s : FftC n) (data1 data2 : Fin n → ℂ) :
    (s.corr data1 data2).1 = Spec.diffMix (n - n / 2 : ℕ) data1 data2 := by
  funext m
  simp only [FftC.corr, window, FftC.ifft, FftC.fft, FftC.clear, FftC.setHigh, FftC.setLow, ifftshift, roll]
  rw [ifft_fft_mul_conj]
  simp only [dvd_window]
  rw [sum_low _ fun k hk => sum_eq_zero fun j _ => by simp [not_lt.mpr hk], Spec.diffMix]
  refine sum_congr rfl fun i _ => ?_
  rw [sum_low _ fun k hk => by simp [not_lt.mpr hk]]
  refine sum_congr rfl fun j _ => ?_
  have hi := i.isLt
  have hj := j.isLt
  have hm := m.isLt
  simp only [Fin.is_lt, dif_pos]
  refine if_congr ?_ rfl rfl
  constructor
  · rintro ⟨c, hc⟩
    push_cast at hc ⊢
    have : c = 1 := by
      by_contra h0
      rcases lt_or_gt_of_ne h0 with h | h
      · have : 2 * (n : ℤ) * c ≤ 0 := by nlinarith
        omega
      · have : 2 * (n : ℤ) * 2 ≤ 2 * n * c := by nlinarith
        omega
    subst this
    omega
  · intro h
    refine ⟨1, ?_⟩
    push_cast at h ⊢
    omega

/-- C69: on an even grid both are aligned to the grid centre `n/2`. -/
theorem C69_aligned {n : ℕ} (he : n % 2 = 0) (s : FftC n) (x y : Fin n → ℂ) :
    (s.conv x y).1 = Spec.sumMix (n / 2 : ℕ) x y ∧ (s.corr x y).1 = Spec.diffMix (n / 2 : ℕ) x y := by
  refine ⟨C69_conv s x y, ?_⟩
  rw [C69_corr, show n - n / 2 = n / 2 by omega]

/-- Non-trivial instance: on a grid of four bins, mixing bin 3 with bin 2 gives bin 3, bin 3 against bin 2 gives bin 3, and
nothing wraps around. -/
theorem C69_nonvacuous : ((FftC.zeros 4).conv (Pi.single 3 1) (Pi.single 2 1)).1 = Pi.single 3 1 ∧
    ((FftC.zeros 4).corr (Pi.single 3 1) (Pi.single 2 1)).1 = Pi.single 3 1 ∧
    ((FftC.zeros 4).conv (Pi.single 3 1) (Pi.single 3 1)).1 = 0 := by
  rw [C69_conv, C69_conv, C69_corr]
  refine ⟨?_, ?_, ?_⟩ <;> funext m <;> fin_cases m <;>
    simp [Spec.sumMix, Spec.diffMix, Fin.sum_univ_four, Pi.single_apply]

/-- On an odd grid the two are not aligned alike: with three bins the sum of bins 1 and 1 is bin 1, the difference of bins
1 and 1 is bin 2. -/
theorem C69_odd_refuted : ((FftC.zeros 3).conv (Pi.single 1 1) (Pi.single 1 1)).1 = Pi.single 1 1 ∧
    ((FftC.zeros 3).corr (Pi.single 1 1) (Pi.single 1 1)).1 = Pi.single 2 1 := by
  rw [C69_conv, C69_corr]
  refine ⟨?_, ?_⟩ <;> funext m <;> fin_cases m <;>
    simp [Spec.sumMix, Spec.diffMix, Fin.sum_univ_three, Pi.single_apply]

end PyNLO.Dfg
