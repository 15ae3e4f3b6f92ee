import Verif.Py.Fft

/-! # DFT facts: inversion, Parseval, shift and modulation theorems -/

namespace PyNLO

open Complex

variable {n : ℕ}

theorem rootE_zero : rootE n 0 = 1 := by simp [rootE]

theorem rootE_add (a b : ℤ) : rootE n (a + b) = rootE n a * rootE n b := by
  unfold rootE
  rw [← exp_add]
  congr 1
  push_cast
  ring

theorem rootE_neg (a : ℤ) : rootE n (-a) = (rootE n a)⁻¹ := by
  unfold rootE
  rw [← exp_neg]
  congr 1
  push_cast
  ring

theorem rootE_ne_zero (a : ℤ) : rootE n a ≠ 0 := exp_ne_zero _

theorem rootE_sub (a b : ℤ) : rootE n (a - b) = rootE n a * rootE n (-b) := by
  rw [sub_eq_add_neg, rootE_add]

theorem rootE_mul_self (hn : n ≠ 0) (a : ℤ) : rootE n (n * a) = 1 := by
  unfold rootE
  have hn' : (n : ℂ) ≠ 0 := by exact_mod_cast hn
  rw [exp_eq_one_iff]
  refine ⟨a, ?_⟩
  push_cast
  field_simp

theorem rootE_emod (hn : n ≠ 0) (a : ℤ) : rootE n (a % n) = rootE n a := by
  conv_rhs => rw [← Int.emod_add_mul_ediv a n, rootE_add, rootE_mul_self hn, mul_one]

theorem rootE_congr (hn : n ≠ 0) {a b : ℤ} (h : a % n = b % n) : rootE n a = rootE n b := by
  rw [← rootE_emod hn a, h, rootE_emod hn b]

theorem rootE_congr_of_dvd (hn : n ≠ 0) {a b : ℤ} (h : (n : ℤ) ∣ a - b) : rootE n a = rootE n b :=
  rootE_congr hn (Int.emod_eq_emod_iff_emod_sub_eq_zero.mpr (Int.emod_eq_zero_of_dvd h))

theorem norm_rootE (a : ℤ) : ‖rootE n a‖ = 1 := by
  unfold rootE
  have : 2 * (Real.pi : ℂ) * I * (a / n : ℂ) = ((2 * Real.pi * (a / n) : ℝ) : ℂ) * I := by
    push_cast; ring
  rw [this, norm_exp_ofReal_mul_I]

theorem conj_rootE (a : ℤ) : (starRingEnd ℂ) (rootE n a) = rootE n (-a) := by
  unfold rootE
  rw [← exp_conj]
  congr 1
  simp only [map_mul, map_div₀, conj_I, Complex.conj_ofReal, map_ofNat, map_intCast, map_natCast]
  push_cast
  ring

theorem rootE_pow (a : ℤ) (j : ℕ) : rootE n a ^ j = rootE n (j * a) := by
  unfold rootE
  rw [← exp_nat_mul]
  congr 1
  push_cast
  ring

theorem rootE_eq_one_iff (hn : n ≠ 0) (a : ℤ) : rootE n a = 1 ↔ (n : ℤ) ∣ a := by
  constructor
  · intro h
    unfold rootE at h
    rw [exp_eq_one_iff] at h
    obtain ⟨m, hm⟩ := h
    have hn' : (n : ℂ) ≠ 0 := by exact_mod_cast hn
    have hpi : (2 * (Real.pi : ℂ) * I) ≠ 0 := by
      simp [Real.pi_ne_zero]
    have h2 : (a / n : ℂ) = m := by
      apply mul_left_cancel₀ hpi
      rw [hm]; ring
    rw [div_eq_iff hn'] at h2
    refine ⟨m, ?_⟩
    have : (a : ℂ) = ((n * m : ℤ) : ℂ) := by rw [h2]; push_cast; ring
    exact_mod_cast this
  · rintro ⟨m, rfl⟩
    exact rootE_mul_self hn m

/-- Orthogonality of the characters. -/
theorem sum_rootE (a : ℤ) :
    ∑ j : Fin n, rootE n ((j : ℕ) * a) = if (n : ℤ) ∣ a then (n : ℂ) else 0 := by
  rcases eq_or_ne n 0 with rfl | hn
  · simp
  have : ∀ j : Fin n, rootE n ((j : ℕ) * a) = rootE n a ^ (j : ℕ) := fun j => by
    rw [rootE_pow]
  simp_rw [this]
  rw [Fin.sum_univ_eq_sum_range (fun j => rootE n a ^ j) n]
  split_ifs with h
  · have h1 := (rootE_eq_one_iff hn a).2 h
    simp [h1]
  · have h1 : rootE n a ≠ 1 := fun h' => h ((rootE_eq_one_iff hn a).1 h')
    rw [geom_sum_eq h1, rootE_pow, rootE_mul_self hn]
    simp

theorem fin_dvd_sub {i j : Fin n} : (n : ℤ) ∣ ((i : ℕ) : ℤ) - ((j : ℕ) : ℤ) ↔ i = j := by
  constructor
  · rintro ⟨m, hm⟩
    have hi := i.isLt
    have hj := j.isLt
    apply Fin.ext
    have : m = 0 := by
      rcases lt_trichotomy m 0 with h | h | h
      · have : (n : ℤ) * m ≤ -n := by nlinarith
        omega
      · exact h
      · have : (n : ℤ) ≤ (n : ℤ) * m := by nlinarith
        omega
    subst this
    omega
  · rintro rfl
    simp

/-- `fft` undoes `ifft`, every length. -/
theorem fft_ifft (x : Fin n → ℂ) : fft (ifft x) = x := by
  funext k
  have hn : n ≠ 0 := by have := k.isLt; omega
  have hn' : (n : ℂ) ≠ 0 := by exact_mod_cast hn
  unfold fft ifft
  have : ∀ j : Fin n, (1 / (n : ℂ) * ∑ m : Fin n, x m * rootE n ((m : ℕ) * (j : ℕ) : ℤ)) *
      rootE n (-((j : ℕ) * (k : ℕ) : ℤ)) =
      ∑ m : Fin n, (1 / (n : ℂ)) * x m * rootE n ((j : ℕ) * ((m : ℕ) - (k : ℕ) : ℤ)) := by
    intro j
    rw [mul_assoc, Finset.sum_mul, Finset.mul_sum]
    refine Finset.sum_congr rfl fun m _ => ?_
    rw [show ((j : ℕ) * ((m : ℕ) - (k : ℕ) : ℤ) : ℤ) = (m : ℕ) * (j : ℕ) + -((j : ℕ) * (k : ℕ)) by
      ring, rootE_add]
    ring
  simp_rw [this]
  rw [Finset.sum_comm]
  simp_rw [← Finset.mul_sum, sum_rootE, fin_dvd_sub]
  simp
  field_simp

/-- `ifft` undoes `fft`, every length. -/
theorem ifft_fft (x : Fin n → ℂ) : ifft (fft x) = x := by
  funext k
  have hn : n ≠ 0 := by have := k.isLt; omega
  have hn' : (n : ℂ) ≠ 0 := by exact_mod_cast hn
  unfold fft ifft
  have : ∀ j : Fin n, (∑ m : Fin n, x m * rootE n (-((m : ℕ) * (j : ℕ) : ℤ))) *
      rootE n ((j : ℕ) * (k : ℕ) : ℤ) =
      ∑ m : Fin n, x m * rootE n ((j : ℕ) * ((k : ℕ) - (m : ℕ) : ℤ)) := by
    intro j
    rw [Finset.sum_mul]
    refine Finset.sum_congr rfl fun m _ => ?_
    rw [show ((j : ℕ) * ((k : ℕ) - (m : ℕ) : ℤ) : ℤ) = -((m : ℕ) * (j : ℕ)) + ((j : ℕ) * (k : ℕ)) by
      ring, rootE_add]
    ring
  simp_rw [this]
  rw [Finset.sum_comm]
  simp_rw [← Finset.mul_sum, sum_rootE, fin_dvd_sub]
  simp
  field_simp

/-! ## rolling -/

theorem rollIdx_coe (s : ℤ) (k : Fin n) :
    (((rollIdx s k : Fin n) : ℕ) : ℤ) = ((k : ℕ) - s : ℤ) % n := by
  have hn : (0 : ℤ) < n := by have := k.isLt; omega
  have h2 := Int.emod_nonneg ((k : ℕ) - s : ℤ) (ne_of_gt hn)
  simp only [rollIdx]
  omega

theorem rollIdx_rollIdx (s t : ℤ) (k : Fin n) : rollIdx t (rollIdx s k) = rollIdx (s + t) k := by
  apply Fin.ext
  have : (((rollIdx t (rollIdx s k) : Fin n) : ℕ) : ℤ) = ((rollIdx (s + t) k : Fin n) : ℕ) := by
    rw [rollIdx_coe, rollIdx_coe, rollIdx_coe, Int.emod_sub_emod]
    congr 1
    ring
  exact_mod_cast this

theorem rollIdx_zero (k : Fin n) : rollIdx 0 k = k := by
  apply Fin.ext
  have : (((rollIdx 0 k : Fin n) : ℕ) : ℤ) = (k : ℕ) := by
    rw [rollIdx_coe, sub_zero]
    exact Int.emod_eq_of_lt (by omega) (by have := k.isLt; omega)
  exact_mod_cast this

theorem rollIdx_of_dvd {s : ℤ} (h : (n : ℤ) ∣ s) (k : Fin n) : rollIdx s k = k := by
  apply Fin.ext
  have : (((rollIdx s k : Fin n) : ℕ) : ℤ) = (k : ℕ) := by
    rw [rollIdx_coe, Int.sub_emod, Int.emod_eq_zero_of_dvd h, sub_zero, Int.emod_emod_of_dvd _ (dvd_refl _)]
    exact Int.emod_eq_of_lt (by omega) (by have := k.isLt; omega)
  exact_mod_cast this

/-- rolling permutes the indices -/
def rollEquiv (n : ℕ) (s : ℤ) : Fin n ≃ Fin n where
  toFun := rollIdx s
  invFun := rollIdx (-s)
  left_inv k := by rw [rollIdx_rollIdx]; simp [rollIdx_zero]
  right_inv k := by rw [rollIdx_rollIdx]; simp [rollIdx_zero]

variable {α : Type _}

theorem roll_roll (s t : ℤ) (x : Fin n → α) : roll s (roll t x) = roll (s + t) x := by
  funext k; simp [roll, rollIdx_rollIdx]

theorem roll_zero (x : Fin n → α) : roll 0 x = x := by
  funext k; simp [roll, rollIdx_zero]

theorem roll_of_dvd {s : ℤ} (h : (n : ℤ) ∣ s) (x : Fin n → α) : roll s x = x := by
  funext k; simp [roll, rollIdx_of_dvd h]

theorem fftshift_ifftshift (x : Fin n → α) : fftshift (ifftshift x) = x := by
  simp [fftshift, ifftshift, roll_roll, roll_zero]

theorem ifftshift_fftshift (x : Fin n → α) : ifftshift (fftshift x) = x := by
  simp [fftshift, ifftshift, roll_roll, roll_zero]

/-- for even lengths both shifts coincide -/
theorem fftshift_eq_ifftshift (h : n % 2 = 0) (x : Fin n → α) : fftshift x = ifftshift x := by
  have : fftshift x = roll (-((n / 2 : ℕ) : ℤ)) (roll (n : ℤ) x) := by
    rw [roll_roll]; unfold fftshift; congr 1; omega
  rw [this, roll_of_dvd (dvd_refl _)]; rfl

theorem sum_roll {β : Type _} [AddCommMonoid β] (s : ℤ) (f : Fin n → β) :
    ∑ k, f (rollIdx s k) = ∑ k, f k :=
  Equiv.sum_comp (rollEquiv n s) f

theorem rootE_rollIdx (s : ℤ) (k : Fin n) (a : ℤ) :
    rootE n (((rollIdx s k : Fin n) : ℕ) * a) = rootE n (((k : ℕ) - s) * a) := by
  have hn : n ≠ 0 := by have := k.isLt; omega
  apply rootE_congr hn
  rw [rollIdx_coe, Int.mul_emod, Int.emod_emod_of_dvd _ (dvd_refl _), ← Int.mul_emod]

/-- shift theorem -/
theorem fft_roll (s : ℤ) (x : Fin n → ℂ) (k : Fin n) :
    fft (roll s x) k = rootE n (-(s * (k : ℕ))) * fft x k := by
  unfold fft roll
  rw [← sum_roll s (fun j => x j * rootE n (-((j : ℕ) * (k : ℕ) : ℤ))), Finset.mul_sum]
  refine Finset.sum_congr rfl fun j _ => ?_
  rw [show -((((rollIdx s j : Fin n) : ℕ) : ℤ) * ((k : ℕ) : ℤ)) =
    (((rollIdx s j : Fin n) : ℕ) : ℤ) * (-((k : ℕ) : ℤ)) by ring, rootE_rollIdx,
    show (((j : ℕ) : ℤ) - s) * -((k : ℕ) : ℤ) = -(((j : ℕ) : ℤ) * (k : ℕ)) + s * (k : ℕ) by ring,
    rootE_add, rootE_neg (s * _)]
  have := rootE_ne_zero (n := n) (s * (k : ℕ))
  field_simp

theorem ifft_roll (s : ℤ) (x : Fin n → ℂ) (k : Fin n) :
    ifft (roll s x) k = rootE n (s * (k : ℕ)) * ifft x k := by
  unfold ifft roll
  rw [← sum_roll s (fun j => x j * rootE n ((j : ℕ) * (k : ℕ) : ℤ))]
  rw [mul_left_comm, Finset.mul_sum (a := rootE n _)]
  congr 1
  refine Finset.sum_congr rfl fun j _ => ?_
  rw [rootE_rollIdx,
    show (((j : ℕ) : ℤ) - s) * ((k : ℕ) : ℤ) = (((j : ℕ) : ℤ) * (k : ℕ)) + -(s * (k : ℕ)) by ring,
    rootE_add, rootE_neg (s * _)]
  have := rootE_ne_zero (n := n) (s * (k : ℕ))
  field_simp

/-- modulation theorem -/
theorem fft_mod (s : ℤ) (x : Fin n → ℂ) :
    fft (fun j => rootE n (s * (j : ℕ)) * x j) = roll s (fft x) := by
  funext k
  unfold fft roll
  refine Finset.sum_congr rfl fun j _ => ?_
  rw [show -(((j : ℕ) : ℤ) * (((rollIdx s k : Fin n) : ℕ) : ℤ)) =
    (((rollIdx s k : Fin n) : ℕ) : ℤ) * (-((j : ℕ) : ℤ)) by ring, rootE_rollIdx,
    show (((k : ℕ) : ℤ) - s) * -((j : ℕ) : ℤ) = -(((j : ℕ) : ℤ) * (k : ℕ)) + s * (j : ℕ) by ring,
    rootE_add]
  ring

theorem ifft_mod (s : ℤ) (x : Fin n → ℂ) :
    ifft (fun j => rootE n (s * (j : ℕ)) * x j) = roll (-s) (ifft x) := by
  funext k
  unfold ifft roll
  congr 1
  refine Finset.sum_congr rfl fun j _ => ?_
  rw [show (((j : ℕ) : ℤ) * (((rollIdx (-s) k : Fin n) : ℕ) : ℤ)) =
    (((rollIdx (-s) k : Fin n) : ℕ) : ℤ) * (((j : ℕ) : ℤ)) by ring, rootE_rollIdx,
    show (((k : ℕ) : ℤ) - -s) * ((j : ℕ) : ℤ) = (((j : ℕ) : ℤ) * (k : ℕ)) + s * (j : ℕ) by ring,
    rootE_add]
  ring

/-! ## linearity -/

theorem fft_smul (c : ℂ) (x : Fin n → ℂ) : fft (fun j => c * x j) = fun k => c * fft x k := by
  funext k; simp only [fft, Finset.mul_sum, mul_assoc]

theorem ifft_smul (c : ℂ) (x : Fin n → ℂ) : ifft (fun j => c * x j) = fun k => c * ifft x k := by
  funext k
  simp only [ifft]
  rw [mul_left_comm, Finset.mul_sum (a := c)]
  simp only [mul_assoc]

theorem fft_add (x y : Fin n → ℂ) : fft (fun j => x j + y j) = fun k => fft x k + fft y k := by
  funext k; simp only [fft, add_mul, Finset.sum_add_distrib]

theorem ifft_add (x y : Fin n → ℂ) : ifft (fun j => x j + y j) = fun k => ifft x k + ifft y k := by
  funext k; simp only [ifft, add_mul, Finset.sum_add_distrib, mul_add]

theorem fft_zero : fft (fun _ : Fin n => (0 : ℂ)) = fun _ => 0 := by
  funext k; simp [fft]

theorem ifft_zero : ifft (fun _ : Fin n => (0 : ℂ)) = fun _ => 0 := by
  funext k; simp [ifft]

/-! ## Parseval -/

theorem inner_fft (x y : Fin n → ℂ) :
    ∑ k, fft x k * (starRingEnd ℂ) (fft y k) = n * ∑ j, x j * (starRingEnd ℂ) (y j) := by
  unfold fft
  have : ∀ k : Fin n, (∑ j : Fin n, x j * rootE n (-((j : ℕ) * (k : ℕ) : ℤ))) *
      (starRingEnd ℂ) (∑ j : Fin n, y j * rootE n (-((j : ℕ) * (k : ℕ) : ℤ))) =
      ∑ j : Fin n, ∑ m : Fin n, x j * (starRingEnd ℂ) (y m) *
        rootE n ((k : ℕ) * ((m : ℕ) - (j : ℕ) : ℤ)) := by
    intro k
    rw [map_sum, Finset.sum_mul_sum]
    refine Finset.sum_congr rfl fun j _ => Finset.sum_congr rfl fun m _ => ?_
    rw [map_mul, conj_rootE, show (((k : ℕ) : ℤ) * ((m : ℕ) - (j : ℕ) : ℤ) : ℤ) =
      -(((j : ℕ) : ℤ) * (k : ℕ)) + - -(((m : ℕ) : ℤ) * (k : ℕ)) by ring, rootE_add]
    ring
  simp_rw [this]
  rw [Finset.sum_comm]
  have : ∀ j : Fin n, ∑ k : Fin n, ∑ m : Fin n, x j * (starRingEnd ℂ) (y m) *
        rootE n ((k : ℕ) * ((m : ℕ) - (j : ℕ) : ℤ)) = n * (x j * (starRingEnd ℂ) (y j)) := by
    intro j
    rw [Finset.sum_comm]
    simp_rw [← Finset.mul_sum, sum_rootE, fin_dvd_sub]
    simp
    ring
  simp_rw [this, ← Finset.mul_sum]

theorem parseval_fft (x : Fin n → ℂ) : ∑ k, ‖fft x k‖ ^ 2 = n * ∑ j, ‖x j‖ ^ 2 := by
  have h := inner_fft x x
  have e : ∀ z : ℂ, z * (starRingEnd ℂ) z = ((‖z‖ ^ 2 : ℝ) : ℂ) := fun z => by
    rw [mul_conj, normSq_eq_norm_sq]
  simp_rw [e] at h
  exact_mod_cast h

theorem parseval_ifft (x : Fin n → ℂ) : ∑ k, ‖x k‖ ^ 2 = n * ∑ j, ‖ifft x j‖ ^ 2 := by
  have := parseval_fft (ifft x)
  rwa [fft_ifft] at this

end PyNLO
