import Verif.Lemmas.Momentum
import Verif.Props.NlseRaman

/-!
# The spectral centroid on the grid against the mean frequency in continuous time
-/

namespace PyNLO

open Complex Set Polynomial Ssfm Nlse Alias

variable {n : ℕ}

/-- angular frequency of a bin, relative to the centre -/
noncomputable def offsetW (T : ℝ) (n : ℕ) (k : Fin n) : ℝ := 2 * Real.pi * ((k : ℕ) - (n : ℝ) / 2) / T

/-- power-weighted frequency of the bins -/
noncomputable def gridMomentum (T : ℝ) (v : Fin n → ℂ) : ℝ := ∑ k, ‖fftT v k‖ ^ 2 * offsetW T n k

noncomputable def gridEnergy (v : Fin n → ℂ) : ℝ := ∑ k, ‖fftT v k‖ ^ 2

theorem inner_ifftT (x y : Fin n → ℂ) : ∑ k, ifftT x k * (starRingEnd ℂ) (ifftT y k) = n * ∑ j, x j * (starRingEnd ℂ) (y j) := by
  have e1 : ∑ k, ifftT x k * (starRingEnd ℂ) (ifftT y k) = ∑ k, fft (fftshift x) k * (starRingEnd ℂ) (fft (fftshift y) k) :=
    sum_roll _ fun k => fft (fftshift x) k * (starRingEnd ℂ) (fft (fftshift y) k)
  rw [e1, inner_fft]
  congr 1
  exact sum_roll _ fun k => x k * (starRingEnd ℂ) (y k)

/-- `-∂ₜ` on the grid -/
noncomputable def gridD (T : ℝ) (U : Fin n → ℂ) : Fin n → ℂ := ifftT fun k => I * (offsetW T n k : ℂ) * fftT U k

theorem gridMomentum_eq (hn : 0 < n) (T : ℝ) (U : Fin n → ℂ) : gridMomentum T U = 1 / (n : ℝ) * ∑ j, (gridD T U j * (starRingEnd ℂ) (U j)).im := by
  have h := inner_ifftT (fun k => I * (offsetW T n k : ℂ) * fftT U k) (fftT U)
  rw [ifftT_fftT] at h
  have h2 : ∑ j, gridD T U j * (starRingEnd ℂ) (U j) = n * (I * (gridMomentum T U : ℝ)) := by
    unfold gridD
    rw [h]
    congr 1
    unfold gridMomentum
    push_cast
    rw [Finset.mul_sum]
    refine Finset.sum_congr rfl fun k _ => ?_
    have e : fftT U k * (starRingEnd ℂ) (fftT U k) = ((‖fftT U k‖ ^ 2 : ℝ) : ℂ) := by rw [mul_conj, normSq_eq_norm_sq]
    rw [mul_assoc, e]
    push_cast
    ring
  have h3 := congrArg Complex.im h2
  rw [Complex.im_sum] at h3
  rw [h3]
  have hn' : (n : ℝ) ≠ 0 := by exact_mod_cast hn.ne'
  simp
  field_simp

theorem gridSquare_eq (hn : 0 < n) (T : ℝ) (U : Fin n → ℂ) : ∑ k, offsetW T n k ^ 2 * ‖fftT U k‖ ^ 2 = 1 / (n : ℝ) * ∑ j, ‖gridD T U j‖ ^ 2 := by
  have hn' : (n : ℝ) ≠ 0 := by exact_mod_cast hn.ne'
  unfold gridD
  rw [parseval_ifftT]
  field_simp
  refine Finset.sum_congr rfl fun k _ => ?_
  rw [norm_mul, norm_mul, norm_I, one_mul, norm_real, Real.norm_eq_abs, mul_pow, sq_abs]

theorem gridEnergy_eq (hn : 0 < n) (U : Fin n → ℂ) : gridEnergy U = 1 / (n : ℝ) * ∑ j, ‖U j‖ ^ 2 := by
  have hn' : (n : ℝ) ≠ 0 := by exact_mod_cast hn.ne'
  rw [parseval_fftT U]
  unfold gridEnergy
  field_simp

/-! ## Riemann sums of periodic functions -/

theorem periodic_riemann {F : ℝ → ℝ} (hF : ContDiff ℝ (⊤ : ℕ∞) F) {T : ℝ} (hT : 0 < T) (hp : Function.Periodic F T) :
    ∃ D : ℝ, 0 ≤ D ∧ ∀ n : ℕ, 0 < n → |1 / (n : ℝ) * ∑ j : Fin n, F (time T n j) - 1 / T * ∫ t in (0 : ℝ)..T, F t| ≤ D / n := by
  set f : ℝ → ℝ := fun s => F (s - T / 2) with hf
  have cf : ContDiff ℝ 1 f := (hF.comp (contDiff_id.sub contDiff_const)).of_le (by exact_mod_cast le_top)
  obtain ⟨D, hD, hL⟩ := lipschitz_of_contDiff cf T
  refine ⟨D * T, by positivity, fun n hn => ?_⟩
  have hn' : (0 : ℝ) < n := by exact_mod_cast hn
  have hw : (n : ℝ) * (T / n) = T := by field_simp
  have h := riemann (f := f) (d := T / n) (by positivity) hD n cf.continuous.continuousOn (by rw [hw]; exact hL)
  rw [hw] at h
  have e1 : ∫ s in (0 : ℝ)..T, f s = ∫ t in (0 : ℝ)..T, F t := by
    rw [hf, intervalIntegral.integral_comp_sub_right (fun s => F s) (T / 2)]
    have := hp.intervalIntegral_add_eq (-(T / 2)) 0
    rw [zero_add] at this
    rw [← this]
    congr 1 <;> ring
  have e2 : ∑ m ∈ Finset.range n, f (m * (T / n)) = ∑ j : Fin n, F (time T n j) := by
    rw [← Fin.sum_univ_eq_sum_range (fun m => f (m * (T / n)))]
    refine Finset.sum_congr rfl fun j _ => ?_
    rw [hf]
    show F _ = F _
    congr 1
    unfold time
    field_simp
  rw [e1, e2] at h
  have e3 : 1 / (n : ℝ) * ∑ j : Fin n, F (time T n j) - 1 / T * ∫ t in (0 : ℝ)..T, F t =
      -(1 / T * ((∫ t in (0 : ℝ)..T, F t) - T / n * ∑ j : Fin n, F (time T n j))) := by
    field_simp
    ring
  rw [e3, abs_neg, abs_mul, abs_of_pos (by positivity : 0 < 1 / T)]
  calc 1 / T * _ ≤ 1 / T * (D * (T / n) * T) := mul_le_mul_of_nonneg_left h (by positivity)
    _ = _ := by field_simp

/-- Centroid, energy and width of the samples of a smooth field. -/
theorem grid_centroid {f : ℝ → ℂ} (hf : ContDiff ℝ (⊤ : ℕ∞) f) {T : ℝ} (hT : 0 < T) (hp : Function.Periodic f T) :
    ∃ C : ℝ, 0 ≤ C ∧ ∀ n : ℕ, 0 < n → n % 2 = 0 → |gridMomentum T (fun j : Fin n => f (time T n j)) - 1 / T * momentum T f| ≤ C / n ∧
      |gridEnergy (fun j : Fin n => f (time T n j)) - 1 / T * energy T f| ≤ C / n ∧
      ∑ k : Fin n, offsetW T n k ^ 2 * ‖fftT (fun j : Fin n => f (time T n j)) k‖ ^ 2 ≤ C ∧ gridEnergy (fun j : Fin n => f (time T n j)) ≤ C := by
  have hd : ContDiff ℝ (⊤ : ℕ∞) (_root_.deriv f) := by
    have := Series.contDiff_iteratedDeriv hf 1
    rwa [iteratedDeriv_one] at this
  have pd : Function.Periodic (_root_.deriv f) T := periodic_deriv hp
  have hF1 : ContDiff ℝ (⊤ : ℕ∞) fun t => ((starRingEnd ℂ) (f t) * (I * _root_.deriv f t)).re :=
    Complex.reCLM.contDiff.comp ((contDiff_conj hf).mul (contDiff_const.mul hd))
  have hF2 : ContDiff ℝ (⊤ : ℕ∞) fun t => ‖f t‖ ^ 2 := hf.norm_sq ℝ
  obtain ⟨D1, hD1, h1⟩ := periodic_riemann hF1 hT (fun t => by simp only [hp t, pd t])
  obtain ⟨D2, hD2, h2⟩ := periodic_riemann hF2 hT (fun t => by simp only [hp t])
  obtain ⟨B, hB⟩ := Series.periodic_bounded hT (Series.contDiff_iteratedDeriv hf ((X : ℝ[X]).natDegree + 1 + 2)).continuous (Series.periodic_iteratedDeriv hp _)
  obtain ⟨M, hM⟩ := Series.periodic_bounded hT hf.continuous hp
  obtain ⟨M1, hM1⟩ := Series.periodic_bounded hT hd.continuous pd
  have hM0 : 0 ≤ M := (norm_nonneg _).trans (hM 0)
  have hM10 : 0 ≤ M1 := (norm_nonneg _).trans (hM1 0)
  have hB0 : 0 ≤ B := (norm_nonneg _).trans (hB 0)
  set K := aliasC X T 1 * B with hK
  have hK0 : 0 ≤ K := mul_nonneg (aliasC_nonneg X hT 1) hB0
  refine ⟨max (max (K * M + D1) D2) (max ((M1 + K) ^ 2) (M ^ 2)), le_trans (by positivity) (le_max_left _ _ |>.trans' (le_max_right _ _)), fun n hn he => ?_⟩
  have hn' : (0 : ℝ) < n := by exact_mod_cast hn
  set U : Fin n → ℂ := fun j => f (time T n j) with hU
  have hdisp : ∀ t, dispersion X f t = -_root_.deriv f t := by
    intro t
    unfold dispersion
    rw [Polynomial.sum_X_index (by simp)]
    rw [iteratedDeriv_one]
    push_cast
    linear_combination (_root_.deriv f t) * Complex.I_sq
  have herr : ∀ j, ‖gridD T U j + _root_.deriv f (time T n j)‖ ≤ K / n := by
    intro j
    have h := dispersion_error hT hn he hf hp X 1 hB (β := fun k => offsetW T n k) (fun k => by simp [offsetW]) j
    rw [hdisp, pow_one] at h
    rw [← norm_neg]
    refine le_trans (le_of_eq ?_) h
    congr 1
    show -(gridD T U j + _) = -_ - gridD T U j
    ring
  have havg : ∀ x : Fin n → ℝ, ∀ c, (∀ j, x j ≤ c) → 1 / (n : ℝ) * ∑ j, x j ≤ c := by
    intro x c hx
    have : ∑ j, x j ≤ ∑ _j : Fin n, c := Finset.sum_le_sum fun j _ => hx j
    rw [Finset.sum_const, Finset.card_univ, Fintype.card_fin, nsmul_eq_mul] at this
    calc 1 / (n : ℝ) * ∑ j, x j ≤ 1 / (n : ℝ) * (n * c) := mul_le_mul_of_nonneg_left this (by positivity)
      _ = c := by field_simp
  refine ⟨?_, ?_, ?_, ?_⟩
  · refine le_trans ?_ (div_le_div_of_nonneg_right ((le_max_left (K * M + D1) D2).trans (le_max_left _ _)) hn'.le)
    rw [gridMomentum_eq hn]
    have e1 : |1 / (n : ℝ) * ∑ j, (gridD T U j * (starRingEnd ℂ) (U j)).im - 1 / (n : ℝ) * ∑ j : Fin n, ((starRingEnd ℂ) (f (time T n j)) * (I * _root_.deriv f (time T n j))).re| ≤ K * M / n := by
      rw [← mul_sub, ← Finset.sum_sub_distrib, abs_mul, abs_of_pos (by positivity : 0 < 1 / (n : ℝ))]
      refine (mul_le_mul_of_nonneg_left (Finset.abs_sum_le_sum_abs _ _) (by positivity)).trans (havg _ _ fun j => ?_)
      have e : (gridD T U j * (starRingEnd ℂ) (U j)).im - ((starRingEnd ℂ) (f (time T n j)) * (I * _root_.deriv f (time T n j))).re =
          ((gridD T U j + _root_.deriv f (time T n j)) * (starRingEnd ℂ) (f (time T n j))).im := by
        have : (starRingEnd ℂ) (f (time T n j)) * (I * _root_.deriv f (time T n j)) = I * (_root_.deriv f (time T n j) * (starRingEnd ℂ) (f (time T n j))) := by ring
        rw [this, Complex.I_mul_re, add_mul, Complex.add_im]
        ring
      rw [e]
      refine (Complex.abs_im_le_norm _).trans ?_
      rw [norm_mul, Complex.norm_conj]
      calc _ ≤ K / n * M := mul_le_mul (herr j) (hM _) (norm_nonneg _) (by positivity)
        _ = _ := by ring
    calc _ ≤ K * M / n + D1 / n := by
          rw [show ∀ x y w : ℝ, x - w = (x - y) + (y - w) from fun x y w => by ring]
          exact (abs_add_le _ _).trans (add_le_add e1 (h1 n hn))
      _ = _ := by ring
  · refine le_trans ?_ (div_le_div_of_nonneg_right ((le_max_right (K * M + D1) D2).trans (le_max_left _ _)) hn'.le)
    rw [gridEnergy_eq hn]
    exact h2 n hn
  · refine le_trans ?_ ((le_max_left ((M1 + K) ^ 2) (M ^ 2)).trans (le_max_right _ _))
    rw [gridSquare_eq hn]
    refine havg _ _ fun j => pow_le_pow_left₀ (norm_nonneg _) ?_ 2
    have e : gridD T U j = (gridD T U j + _root_.deriv f (time T n j)) - _root_.deriv f (time T n j) := by ring
    rw [e]
    refine (norm_sub_le _ _).trans ?_
    have h1n : (1 : ℝ) ≤ n := by exact_mod_cast hn
    have : K / n ≤ K := div_le_self hK0 h1n
    linarith [herr j, hM1 (time T n j)]
  · refine le_trans ?_ ((le_max_right ((M1 + K) ^ 2) (M ^ 2)).trans (le_max_right _ _))
    rw [gridEnergy_eq hn]
    exact havg _ _ fun j => pow_le_pow_left₀ (norm_nonneg _) (hM _) 2

/-! ## Two fields close to each other -/

theorem fftT_sub (x y : Fin n → ℂ) (k : Fin n) : fftT (x - y) k = fftT x k - fftT y k := by
  rw [fftT_apply, fftT_apply, fftT_apply]
  simp only [Pi.sub_apply, sub_mul, Finset.sum_sub_distrib, mul_sub]

theorem sq_diff (a b : ℂ) : |‖a‖ ^ 2 - ‖b‖ ^ 2| ≤ 2 * (‖b‖ * ‖a - b‖) + ‖a - b‖ ^ 2 := by
  have h1 : |‖a‖ - ‖b‖| ≤ ‖a - b‖ := abs_norm_sub_norm_le a b
  have h2 : ‖a‖ ≤ ‖b‖ + ‖a - b‖ := by linarith [le_abs_self (‖a‖ - ‖b‖)]
  have e : ‖a‖ ^ 2 - ‖b‖ ^ 2 = (‖a‖ - ‖b‖) * (‖a‖ + ‖b‖) := by ring
  rw [e, abs_mul, abs_of_nonneg (by positivity : 0 ≤ ‖a‖ + ‖b‖)]
  calc _ ≤ ‖a - b‖ * (‖a‖ + ‖b‖) := mul_le_mul_of_nonneg_right h1 (by positivity)
    _ ≤ ‖a - b‖ * (2 * ‖b‖ + ‖a - b‖) := mul_le_mul_of_nonneg_left (by linarith) (norm_nonneg _)
    _ = _ := by ring

theorem offsetW_le {T : ℝ} (hT : 0 < T) (k : Fin n) : |offsetW T n k| ≤ Real.pi * n / T := by
  have hk : ((k : ℕ) : ℝ) ≤ n := by exact_mod_cast k.2.le
  have hk0 : (0 : ℝ) ≤ ((k : ℕ) : ℝ) := by positivity
  have e : |((k : ℕ) : ℝ) - (n : ℝ) / 2| ≤ n / 2 := by rw [abs_le]; constructor <;> linarith
  unfold offsetW
  rw [abs_div, abs_mul, abs_of_pos hT, abs_of_pos (by positivity : 0 < 2 * Real.pi)]
  refine div_le_div_of_nonneg_right ?_ hT.le
  calc 2 * Real.pi * |((k : ℕ) : ℝ) - (n : ℝ) / 2| ≤ 2 * Real.pi * (n / 2) := mul_le_mul_of_nonneg_left e (by positivity)
    _ = _ := by ring

/-- a sum of products against the two sums of squares -/
theorem sum_mul_le {x y : Fin n → ℝ} {a b : ℝ} (hb : 0 < b) (hx : ∑ k, x k ^ 2 ≤ a) (hy : ∑ k, y k ^ 2 ≤ b ^ 2) : ∑ k, x k * y k ≤ (a + 1) * b := by
  have h : ∀ k, x k * y k ≤ b / 2 * x k ^ 2 + 1 / (2 * b) * y k ^ 2 := fun k => by
    have e : b / 2 * x k ^ 2 + 1 / (2 * b) * y k ^ 2 - x k * y k = 1 / (2 * b) * (b * x k - y k) ^ 2 := by
      field_simp
      ring
    have : 0 ≤ 1 / (2 * b) * (b * x k - y k) ^ 2 := by positivity
    linarith
  have ha : 0 ≤ a := (Finset.sum_nonneg fun k _ => sq_nonneg (x k)).trans hx
  calc ∑ k, x k * y k ≤ ∑ k, (b / 2 * x k ^ 2 + 1 / (2 * b) * y k ^ 2) := Finset.sum_le_sum fun k _ => h k
    _ = b / 2 * ∑ k, x k ^ 2 + 1 / (2 * b) * ∑ k, y k ^ 2 := by rw [Finset.sum_add_distrib, Finset.mul_sum, Finset.mul_sum]
    _ ≤ b / 2 * a + 1 / (2 * b) * b ^ 2 := by gcongr
    _ = b / 2 * a + b / 2 := by field_simp
    _ ≤ (a + 1) * b := by nlinarith

/-- Centroid and energy of a field that is close to another one in the mean square. -/
theorem centroid_close {T : ℝ} (hT : 0 < T) (hn : 0 < n) {v U : Fin n → ℂ} {C K : ℝ} (hK : 0 < K) (hC : 0 ≤ C)
    (h : 1 / (n : ℝ) * ∑ j, ‖v j - U j‖ ^ 2 ≤ (K / n) ^ 2) (h1 : ∑ k, offsetW T n k ^ 2 * ‖fftT U k‖ ^ 2 ≤ C) (h2 : gridEnergy U ≤ C) :
    |gridMomentum T v - gridMomentum T U| ≤ (2 * ((C + 1) * K) + Real.pi / T * K ^ 2) / n ∧ |gridEnergy v - gridEnergy U| ≤ (2 * ((C + 1) * K) + K ^ 2) / n := by
  have hn' : (0 : ℝ) < n := by exact_mod_cast hn
  have h1n : (1 : ℝ) ≤ n := by exact_mod_cast hn
  have hs : ∑ k, ‖fftT v k - fftT U k‖ ^ 2 ≤ (K / n) ^ 2 := by
    have e := gridEnergy_eq hn (v - U)
    unfold gridEnergy at e
    simp only [fftT_sub, Pi.sub_apply] at e
    rw [e]
    exact h
  constructor
  · unfold gridMomentum
    rw [← Finset.sum_sub_distrib]
    refine (Finset.abs_sum_le_sum_abs _ _).trans ?_
    have hterm : ∀ k : Fin n, |‖fftT v k‖ ^ 2 * offsetW T n k - ‖fftT U k‖ ^ 2 * offsetW T n k| ≤
        2 * ((|offsetW T n k| * ‖fftT U k‖) * ‖fftT v k - fftT U k‖) + Real.pi * n / T * ‖fftT v k - fftT U k‖ ^ 2 := fun k => by
      rw [← sub_mul, abs_mul, mul_comm]
      calc _ ≤ |offsetW T n k| * (2 * (‖fftT U k‖ * ‖fftT v k - fftT U k‖) + ‖fftT v k - fftT U k‖ ^ 2) := mul_le_mul_of_nonneg_left (sq_diff _ _) (abs_nonneg _)
        _ = 2 * ((|offsetW T n k| * ‖fftT U k‖) * ‖fftT v k - fftT U k‖) + |offsetW T n k| * ‖fftT v k - fftT U k‖ ^ 2 := by ring
        _ ≤ _ := by gcongr; exact offsetW_le hT k
    refine (Finset.sum_le_sum fun k _ => hterm k).trans ?_
    rw [Finset.sum_add_distrib, ← Finset.mul_sum, ← Finset.mul_sum]
    have c := sum_mul_le (x := fun k => |offsetW T n k| * ‖fftT U k‖) (y := fun k => ‖fftT v k - fftT U k‖) (a := C) (b := K / n) (by positivity)
      (by simpa only [mul_pow, sq_abs] using h1) hs
    calc _ ≤ 2 * ((C + 1) * (K / n)) + Real.pi * n / T * (K / n) ^ 2 := by gcongr
      _ = _ := by field_simp
  · unfold gridEnergy
    rw [← Finset.sum_sub_distrib]
    refine (Finset.abs_sum_le_sum_abs _ _).trans ((Finset.sum_le_sum fun k _ => sq_diff _ _).trans ?_)
    rw [Finset.sum_add_distrib, ← Finset.mul_sum]
    have c := sum_mul_le (x := fun k => ‖fftT U k‖) (y := fun k => ‖fftT v k - fftT U k‖) (a := C) (b := K / n) (by positivity) h2 hs
    calc _ ≤ 2 * ((C + 1) * (K / n)) + (K / n) ^ 2 := by gcongr
      _ ≤ 2 * ((C + 1) * (K / n)) + K ^ 2 / n := by
          gcongr
          rw [div_pow]
          exact div_le_div_of_nonneg_left (by positivity) hn' (le_self_pow₀ h1n (by norm_num))
      _ = _ := by ring

theorem quotient_close {M E m e δ : ℝ} (he : 0 < e) (hM : |M - m| ≤ δ) (hE : |E - e| ≤ δ) (hδ : δ ≤ e / 2) : |M / E - m / e| ≤ 2 * (e + |m|) / e ^ 2 * δ := by
  have h1 : e / 2 ≤ E := by have := (abs_le.1 hE).1; linarith
  have hE0 : 0 < E := by linarith
  have hd : 0 ≤ δ := (abs_nonneg _).trans hM
  have e1 : M / E - m / e = ((M - m) * e - m * (E - e)) / (E * e) := by
    field_simp
    ring
  rw [e1, abs_div, abs_of_pos (by positivity : 0 < E * e)]
  have e2 : |(M - m) * e - m * (E - e)| ≤ δ * (e + |m|) := by
    refine (abs_sub _ _).trans ?_
    rw [abs_mul, abs_mul, abs_of_pos he]
    have := mul_le_mul_of_nonneg_right hM he.le
    have := mul_le_mul_of_nonneg_left hE (abs_nonneg m)
    linarith
  rw [div_le_iff₀ (by positivity)]
  refine e2.trans ?_
  have e3 : 2 * (e + |m|) / e ^ 2 * δ * (E * e) = δ * (e + |m|) * (2 * E / e) := by
    field_simp
  rw [e3]
  refine le_mul_of_one_le_right (by positivity) ?_
  rw [le_div_iff₀ he]
  linarith

end PyNLO
