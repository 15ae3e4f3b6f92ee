import Verif.Spec.Broadening
import Verif.Props.RedShift
import Verif.Props.Recentre
import Verif.Props.Existence
import Mathlib.MeasureTheory.Integral.Gamma
import Mathlib.MeasureTheory.Integral.IntegralEqImproper
import Mathlib.Analysis.SpecialFunctions.Gaussian.GaussianIntegral

/-!
# C180: self-phase modulation broadens the spectrum by the known law
-/

namespace PyNLO.Broadening

open Complex Set Polynomial Ssfm Pulse Nlse Alias

variable {f : ℝ → ℂ} {T : ℝ}

/-! ## Continuous time -/

theorem spm_contDiff (hf : ContDiff ℝ (⊤ : ℕ∞) f) (g γ z : ℝ) : ContDiff ℝ (⊤ : ℕ∞) (spm g γ f z) := by
  have h1 : ContDiff ℝ (⊤ : ℕ∞) fun t => ((γ * ‖f t‖ ^ 2 * Gnlse.leff g z : ℝ) : ℂ) :=
    Complex.ofRealCLM.contDiff.comp ((contDiff_const.mul (hf.norm_sq ℝ)).mul contDiff_const)
  exact ((contDiff_const.add (contDiff_const.mul h1)).cexp).mul hf

theorem spm_periodic (hp : Function.Periodic f T) (g γ z : ℝ) : Function.Periodic (spm g γ f z) T := fun t => by
  unfold spm
  simp only [hp t]

theorem norm_factor (a b : ℝ) : ‖exp ((a : ℂ) + I * (b : ℂ))‖ = Real.exp a := by
  rw [Complex.norm_exp]
  simp

theorem spm_norm (g γ z t : ℝ) : ‖spm g γ f z t‖ ^ 2 = Real.exp (g * z) * ‖f t‖ ^ 2 := by
  unfold spm
  rw [norm_mul, norm_factor, mul_pow, ← Real.exp_nat_mul]
  congr 2
  push_cast
  ring

theorem spm_deriv (hf : ContDiff ℝ (⊤ : ℕ∞) f) (g γ z t : ℝ) :
    deriv (spm g γ f z) t = exp (((g * z / 2 : ℝ) : ℂ) + I * ((γ * ‖f t‖ ^ 2 * Gnlse.leff g z : ℝ) : ℂ)) *
      (deriv f t + I * ((γ * Gnlse.leff g z * deriv (fun t => ‖f t‖ ^ 2) t : ℝ) : ℂ) * f t) := by
  have h0 := ((hf.norm_sq ℝ).differentiable (by simp) t).hasDerivAt
  have h1 : HasDerivAt (fun t => ((γ * ‖f t‖ ^ 2 * Gnlse.leff g z : ℝ) : ℂ)) ((γ * deriv (fun t => ‖f t‖ ^ 2) t * Gnlse.leff g z : ℝ) : ℂ) t :=
    ((h0.const_mul γ).mul_const _).ofReal_comp
  have h2 := ((h1.const_mul I).const_add (((g * z / 2 : ℝ) : ℂ))).cexp
  have h3 := h2.mul ((hf.differentiable (by simp) t).hasDerivAt)
  have h4 : deriv (spm g γ f z) t = _ := h3.deriv
  rw [h4]
  push_cast
  ring

theorem norm_sq_rotated (a b : ℂ) (x : ℝ) : ‖a + I * (x : ℂ) * b‖ ^ 2 = ‖a‖ ^ 2 + 2 * (x * (a * (starRingEnd ℂ) b).im) + x ^ 2 * ‖b‖ ^ 2 := by
  rw [← normSq_eq_norm_sq, ← normSq_eq_norm_sq, ← normSq_eq_norm_sq, normSq_apply, normSq_apply, normSq_apply]
  simp
  ring

theorem deriv_contDiff {E : Type*} [NormedAddCommGroup E] [NormedSpace ℝ E] {h : ℝ → E} (hh : ContDiff ℝ (⊤ : ℕ∞) h) : ContDiff ℝ (⊤ : ℕ∞) (deriv h) :=
  (contDiff_infty_iff_deriv.1 hh).2

theorem chirp_continuous (hf : ContDiff ℝ (⊤ : ℕ∞) f) : Continuous fun t => deriv (fun t => ‖f t‖ ^ 2) t * (deriv f t * (starRingEnd ℂ) (f t)).im :=
  (deriv_contDiff (hf.norm_sq ℝ)).continuous.mul (Complex.continuous_im.comp ((deriv_contDiff hf).continuous.mul (Complex.continuous_conj.comp hf.continuous)))

theorem steep_continuous (hf : ContDiff ℝ (⊤ : ℕ∞) f) : Continuous fun t => ‖f t‖ ^ 2 * deriv (fun t => ‖f t‖ ^ 2) t ^ 2 :=
  (hf.norm_sq ℝ).continuous.mul ((deriv_contDiff (hf.norm_sq ℝ)).continuous.pow 2)

/-- C180: the second moment of the spectrum behind the fibre, in continuous time. -/
theorem C180_moment (hf : ContDiff ℝ (⊤ : ℕ∞) f) (T g γ z : ℝ) : secondMoment T (spm g γ f z) =
    Real.exp (g * z) * (secondMoment T f + 2 * (γ * Gnlse.leff g z) * chirpOf T f + (γ * Gnlse.leff g z) ^ 2 * steepness T f) := by
  set q := γ * Gnlse.leff g z with hq
  have e : ∀ t, ‖deriv (spm g γ f z) t‖ ^ 2 = Real.exp (g * z) * (‖deriv f t‖ ^ 2 +
      2 * q * (deriv (fun t => ‖f t‖ ^ 2) t * (deriv f t * (starRingEnd ℂ) (f t)).im) + q ^ 2 * (‖f t‖ ^ 2 * deriv (fun t => ‖f t‖ ^ 2) t ^ 2)) := fun t => by
    rw [spm_deriv hf, norm_mul, norm_factor, mul_pow, norm_sq_rotated, ← Real.exp_nat_mul, ← hq]
    have : ((2 : ℕ) : ℝ) * (g * z / 2) = g * z := by push_cast; ring
    rw [this]
    ring
  have i1 : IntervalIntegrable (fun t => ‖deriv f t‖ ^ 2) MeasureTheory.volume 0 T := ((deriv_contDiff hf).continuous.norm.pow 2).intervalIntegrable _ _
  have i2 : IntervalIntegrable (fun t => 2 * q * (deriv (fun t => ‖f t‖ ^ 2) t * (deriv f t * (starRingEnd ℂ) (f t)).im)) MeasureTheory.volume 0 T :=
    (continuous_const.mul (chirp_continuous hf)).intervalIntegrable _ _
  have i3 : IntervalIntegrable (fun t => q ^ 2 * (‖f t‖ ^ 2 * deriv (fun t => ‖f t‖ ^ 2) t ^ 2)) MeasureTheory.volume 0 T :=
    (continuous_const.mul (steep_continuous hf)).intervalIntegrable _ _
  unfold secondMoment
  simp only [e]
  rw [intervalIntegral.integral_const_mul, intervalIntegral.integral_add (i1.add i2) i3, intervalIntegral.integral_add i1 i2, intervalIntegral.integral_const_mul,
    intervalIntegral.integral_const_mul]
  rfl

theorem spm_energy (T g γ z : ℝ) : energy T (spm g γ f z) = Real.exp (g * z) * energy T f := by
  unfold energy
  simp only [spm_norm, intervalIntegral.integral_const_mul]

/-- C180: the mean frequency stays. -/
theorem C180_mean (hf : ContDiff ℝ (⊤ : ℕ∞) f) (hp : Function.Periodic f T) (g γ z : ℝ) : meanFrequency T (spm g γ f z) = meanFrequency T f := by
  set q := γ * Gnlse.leff g z with hq
  have e : ∀ t, ((starRingEnd ℂ) (spm g γ f z t) * (I * deriv (spm g γ f z) t)).re = Real.exp (g * z) * (((starRingEnd ℂ) (f t) * (I * deriv f t)).re -
      q * (‖f t‖ ^ 2 * deriv (fun t => ‖f t‖ ^ 2) t)) := fun t => by
    rw [spm_deriv hf, ← hq]
    unfold spm
    set w := exp (((g * z / 2 : ℝ) : ℂ) + I * ((γ * ‖f t‖ ^ 2 * Gnlse.leff g z : ℝ) : ℂ)) with hw
    have hn : (starRingEnd ℂ) w * w = ((Real.exp (g * z) : ℝ) : ℂ) := by
      rw [mul_comm, mul_conj, normSq_eq_norm_sq, hw, norm_factor, ← Real.exp_nat_mul]
      congr 2
      push_cast
      ring
    generalize deriv (fun t => ‖f t‖ ^ 2) t = s
    have e1 : (starRingEnd ℂ) (w * f t) * (I * (w * (deriv f t + I * ((q * s : ℝ) : ℂ) * f t))) =
        ((Real.exp (g * z) : ℝ) : ℂ) * ((starRingEnd ℂ) (f t) * (I * deriv f t) - ((q * (‖f t‖ ^ 2 * s) : ℝ) : ℂ)) := by
      have e2 : ((‖f t‖ ^ 2 : ℝ) : ℂ) = f t * (starRingEnd ℂ) (f t) := by rw [mul_conj, normSq_eq_norm_sq]
      rw [map_mul, ofReal_mul q s, ofReal_mul q (‖f t‖ ^ 2 * s), ofReal_mul (‖f t‖ ^ 2), e2, ← hn]
      linear_combination ((starRingEnd ℂ) w * w * (starRingEnd ℂ) (f t) * f t * q * s) * I_sq
    rw [e1, re_ofReal_mul, sub_re, ofReal_re]
  have i1 : IntervalIntegrable (fun t => ((starRingEnd ℂ) (f t) * (I * deriv f t)).re) MeasureTheory.volume 0 T :=
    (Complex.continuous_re.comp ((Complex.continuous_conj.comp hf.continuous).mul (continuous_const.mul (deriv_contDiff hf).continuous))).intervalIntegrable _ _
  have i2 : IntervalIntegrable (fun t => q * (‖f t‖ ^ 2 * deriv (fun t => ‖f t‖ ^ 2) t)) MeasureTheory.volume 0 T :=
    (continuous_const.mul ((hf.norm_sq ℝ).continuous.mul (deriv_contDiff (hf.norm_sq ℝ)).continuous)).intervalIntegrable _ _
  have hm : momentum T (spm g γ f z) = Real.exp (g * z) * momentum T f := by
    unfold momentum
    simp only [e]
    rw [intervalIntegral.integral_const_mul, intervalIntegral.integral_sub i1 i2, intervalIntegral.integral_const_mul,
      no_work (hf.norm_sq ℝ) (fun t => by simp only [hp t]), mul_zero, sub_zero]
  unfold meanFrequency
  rw [hm, spm_energy, mul_div_mul_left _ _ (Real.exp_pos _).ne']

theorem steepness_nonneg (hT : 0 < T) (f : ℝ → ℂ) : 0 ≤ steepness T f :=
  intervalIntegral.integral_nonneg hT.le fun t _ => by positivity

/-- only a field of constant power has no steepness -/
theorem steepness_pos (hf : ContDiff ℝ (⊤ : ℕ∞) f) (hT : 0 < T) (hp : Function.Periodic f T) (hne : ∃ s t, ‖f s‖ ≠ ‖f t‖) : 0 < steepness T f := by
  have hpow := hf.norm_sq ℝ
  have hd : ∃ t, ‖f t‖ ^ 2 * deriv (fun t => ‖f t‖ ^ 2) t ≠ 0 := by
    by_contra h
    push Not at h
    have h1 : ∀ t, HasDerivAt (fun t => (‖f t‖ ^ 2) ^ 2) 0 t := fun t => by
      have := ((hpow.differentiable (by simp) t).hasDerivAt).pow 2
      refine this.congr_deriv ?_
      have e := h t
      simp only [Nat.cast_ofNat, Nat.add_one_sub_one, pow_one]
      linear_combination 2 * e
    obtain ⟨s, t, hst⟩ := hne
    refine hst ?_
    have h2 := is_const_of_deriv_eq_zero (f := fun t => (‖f t‖ ^ 2) ^ 2) (fun t => (h1 t).differentiableAt) (fun t => (h1 t).deriv) s t
    have h3 : ‖f s‖ ^ 4 = ‖f t‖ ^ 4 := by
      calc ‖f s‖ ^ 4 = (‖f s‖ ^ 2) ^ 2 := by ring
        _ = (‖f t‖ ^ 2) ^ 2 := h2
        _ = _ := by ring
    exact (pow_left_inj₀ (norm_nonneg _) (norm_nonneg _) (by norm_num)).1 h3
  obtain ⟨t, ht⟩ := hd
  have hper : Function.Periodic (fun t => ‖f t‖ ^ 2 * deriv (fun t => ‖f t‖ ^ 2) t ^ 2) T := fun t => by
    have : Function.Periodic (deriv fun t => ‖f t‖ ^ 2) T := fun t => by
      rw [← deriv_comp_add_const]
      simp only [hp _]
    simp only [hp t, this t]
  obtain ⟨s, hs, hst⟩ := hper.exists_mem_Ico₀ hT t
  refine intervalIntegral.integral_pos hT (steep_continuous hf).continuousOn (fun x _ => by positivity) ⟨s, ⟨hs.1, hs.2.le⟩, ?_⟩
  rw [← hst]
  have h1 : ‖f t‖ ^ 2 ≠ 0 := fun h => ht (by rw [h, zero_mul])
  have h2 : deriv (fun t => ‖f t‖ ^ 2) t ≠ 0 := fun h => ht (by rw [h, mul_zero])
  have := sq_nonneg ‖f t‖
  positivity

/-! ## Sampled fields -/

/-- power-weighted square of the frequency of the bins -/
noncomputable def gridSquare {n : ℕ} (T : ℝ) (v : Fin n → ℂ) : ℝ := ∑ k, ‖fftT v k‖ ^ 2 * offsetW T n k ^ 2

theorem second_limit (hf : ContDiff ℝ (⊤ : ℕ∞) f) (hT : 0 < T) (hp : Function.Periodic f T) :
    ∃ C : ℝ, 0 ≤ C ∧ ∀ n : ℕ, 0 < n → n % 2 = 0 → |gridSquare T (fun j : Fin n => f (time T n j)) - 1 / T * secondMoment T f| ≤ C / n := by
  have hd := deriv_contDiff hf
  have pd : Function.Periodic (deriv f) T := periodic_deriv hp
  obtain ⟨D, hD, h1⟩ := periodic_riemann (hd.norm_sq ℝ) hT (fun t => by simp only [pd t])
  obtain ⟨B, hB⟩ := Series.periodic_bounded hT (Series.contDiff_iteratedDeriv hf ((X : ℝ[X]).natDegree + 1 + 2)).continuous (Series.periodic_iteratedDeriv hp _)
  obtain ⟨M1, hM1⟩ := Series.periodic_bounded hT hd.continuous pd
  have hM10 : 0 ≤ M1 := (norm_nonneg _).trans (hM1 0)
  have hB0 : 0 ≤ B := (norm_nonneg _).trans (hB 0)
  set K := aliasC X T 1 * B with hK
  have hK0 : 0 ≤ K := mul_nonneg (aliasC_nonneg X hT 1) hB0
  refine ⟨2 * (M1 * K) + K ^ 2 + D, by positivity, fun n hn he => ?_⟩
  have hn' : (0 : ℝ) < n := by exact_mod_cast hn
  have h1n : (1 : ℝ) ≤ n := by exact_mod_cast hn
  set U : Fin n → ℂ := fun j => f (time T n j) with hU
  have hdisp : ∀ t, dispersion X f t = -deriv f t := by
    intro t
    unfold dispersion
    rw [Polynomial.sum_X_index (by simp), iteratedDeriv_one]
    push_cast
    linear_combination (deriv f t) * Complex.I_sq
  have herr : ∀ j, ‖gridD T U j - -deriv f (time T n j)‖ ≤ K / n := by
    intro j
    have h := dispersion_error hT hn he hf hp X 1 hB (β := fun k => offsetW T n k) (fun k => by simp [offsetW]) j
    rw [hdisp, pow_one] at h
    rw [← norm_neg]
    refine le_trans (le_of_eq ?_) h
    congr 1
    show -(gridD T U j - -_) = -_ - gridD T U j
    ring
  have e0 : gridSquare T U = 1 / (n : ℝ) * ∑ j, ‖gridD T U j‖ ^ 2 := by
    rw [← gridSquare_eq hn]
    exact Finset.sum_congr rfl fun k _ => mul_comm _ _
  have e1 : |1 / (n : ℝ) * ∑ j, ‖gridD T U j‖ ^ 2 - 1 / (n : ℝ) * ∑ j : Fin n, ‖deriv f (time T n j)‖ ^ 2| ≤ (2 * (M1 * K) + K ^ 2) / n := by
    rw [← mul_sub, ← Finset.sum_sub_distrib, abs_mul, abs_of_pos (by positivity : 0 < 1 / (n : ℝ))]
    have ht : ∀ j : Fin n, |‖gridD T U j‖ ^ 2 - ‖deriv f (time T n j)‖ ^ 2| ≤ (2 * (M1 * K) + K ^ 2) / n := fun j => by
      have h := sq_diff (gridD T U j) (-deriv f (time T n j))
      rw [norm_neg] at h
      refine h.trans ?_
      have k1 : ‖deriv f (time T n j)‖ * ‖gridD T U j - -deriv f (time T n j)‖ ≤ M1 * (K / n) := mul_le_mul (hM1 _) (herr j) (norm_nonneg _) hM10
      have k2 : ‖gridD T U j - -deriv f (time T n j)‖ ^ 2 ≤ (K / n) ^ 2 := pow_le_pow_left₀ (norm_nonneg _) (herr j) 2
      have k3 : (K / n) ^ 2 ≤ K ^ 2 / n := by
        rw [div_pow]
        exact div_le_div_of_nonneg_left (by positivity) hn' (le_self_pow₀ h1n (by norm_num))
      calc _ ≤ 2 * (M1 * (K / n)) + K ^ 2 / n := by linarith
        _ = _ := by ring
    have hs := (Finset.abs_sum_le_sum_abs (fun j : Fin n => ‖gridD T U j‖ ^ 2 - ‖deriv f (time T n j)‖ ^ 2) Finset.univ).trans (Finset.sum_le_sum fun j _ => ht j)
    rw [Finset.sum_const, Finset.card_univ, Fintype.card_fin, nsmul_eq_mul] at hs
    calc _ ≤ 1 / (n : ℝ) * (n * ((2 * (M1 * K) + K ^ 2) / n)) := mul_le_mul_of_nonneg_left hs (by positivity)
      _ = _ := by field_simp
  rw [e0]
  calc _ ≤ (2 * (M1 * K) + K ^ 2) / n + D / n := by
        rw [show ∀ x y w : ℝ, x - w = (x - y) + (y - w) from fun x y w => by ring]
        exact (abs_add_le _ _).trans (add_le_add e1 (h1 n hn))
    _ = _ := by ring

theorem continuous_bin {n : ℕ} (k : Fin n) : Continuous fun v : Fin n → ℂ => ‖fftT v k‖ ^ 2 := by
  simp only [fftT_apply]
  fun_prop

theorem near {n : ℕ} (T : ℝ) (U : Fin n → ℂ) {ε : ℝ} (hε : 0 < ε) : ∃ δ : ℝ, 0 < δ ∧ ∀ v : Fin n → ℂ, (∀ j, ‖v j - U j‖ < δ) →
    |gridSquare T v - gridSquare T U| ≤ ε ∧ |gridMomentum T v - gridMomentum T U| ≤ ε ∧ |gridEnergy v - gridEnergy U| ≤ ε := by
  have c1 : Continuous fun v : Fin n → ℂ => gridSquare T v := continuous_finsetSum _ fun k _ => (continuous_bin k).mul continuous_const
  have c2 : Continuous fun v : Fin n → ℂ => gridMomentum T v := continuous_finsetSum _ fun k _ => (continuous_bin k).mul continuous_const
  have c3 : Continuous fun v : Fin n → ℂ => gridEnergy v := continuous_finsetSum _ fun k _ => continuous_bin k
  obtain ⟨d1, hd1, H1⟩ := Metric.continuous_iff.1 c1 U ε hε
  obtain ⟨d2, hd2, H2⟩ := Metric.continuous_iff.1 c2 U ε hε
  obtain ⟨d3, hd3, H3⟩ := Metric.continuous_iff.1 c3 U ε hε
  refine ⟨min d1 (min d2 d3), lt_min hd1 (lt_min hd2 hd3), fun v hv => ?_⟩
  have hdist : ∀ d, 0 < d → min d1 (min d2 d3) ≤ d → dist v U < d := fun d h0 hd => by
    rw [dist_pi_lt_iff h0]
    intro j
    rw [dist_eq_norm]
    exact (hv j).trans_le hd
  refine ⟨(H1 v (hdist d1 hd1 (min_le_left _ _))).le, (H2 v (hdist d2 hd2 ((min_le_right _ _).trans (min_le_left _ _)))).le,
    (H3 v (hdist d3 hd3 ((min_le_right _ _).trans (min_le_right _ _)))).le⟩

/-- mean square and mean of the frequency for fields close to the samples of a smooth field -/
theorem moments_limit (hf : ContDiff ℝ (⊤ : ℕ∞) f) (hT : 0 < T) (hp : Function.Periodic f T) (hE : 0 < energy T f) :
    ∃ (C : ℝ) (n0 : ℕ), ∀ n : ℕ, n0 ≤ n → 0 < n → n % 2 = 0 → ∃ δ : ℝ, 0 < δ ∧ ∀ v : Fin n → ℂ, (∀ j, ‖v j - f (time T n j)‖ < δ) →
      0 < gridEnergy v ∧ |gridSquare T v / gridEnergy v - secondMoment T f / energy T f| ≤ C / n ∧
      |gridMomentum T v / gridEnergy v - meanFrequency T f| ≤ C / n := by
  obtain ⟨C1, hC1, H1⟩ := second_limit hf hT hp
  obtain ⟨C2, hC2, H2⟩ := grid_centroid hf hT hp
  set Q := C1 + C2 + 1 with hQ
  have hQ0 : 0 < Q := by positivity
  set e := 1 / T * energy T f with he
  set m := 1 / T * momentum T f with hm
  set s := 1 / T * secondMoment T f with hs
  have he0 : 0 < e := by positivity
  refine ⟨2 * (e + |s|) / e ^ 2 * Q + 2 * (e + |m|) / e ^ 2 * Q, ⌈2 * Q / e⌉₊, fun n hn hn0 hev => ?_⟩
  have hn' : (0 : ℝ) < n := by exact_mod_cast hn0
  obtain ⟨δ, hδ, Hδ⟩ := near T (fun j : Fin n => f (time T n j)) (ε := 1 / (n : ℝ)) (by positivity)
  refine ⟨δ, hδ, fun v hv => ?_⟩
  obtain ⟨k1, k2, k3⟩ := Hδ v hv
  obtain ⟨a1, a2, -, -⟩ := H2 n hn0 hev
  have a0 := H1 n hn0 hev
  have tri : ∀ x y w C : ℝ, |x - y| ≤ 1 / (n : ℝ) → |y - w| ≤ C / n → C + 1 ≤ Q → |x - w| ≤ Q / n := fun x y w C h1 h2 h3 => by
    rw [show x - w = (x - y) + (y - w) by ring]
    refine (abs_add_le _ _).trans ((add_le_add h1 h2).trans ?_)
    rw [← add_div]
    exact div_le_div_of_nonneg_right (by linarith) hn'.le
  have d1 : |gridSquare T v - s| ≤ Q / n := tri _ _ _ C1 k1 a0 (by linarith)
  have d2 : |gridMomentum T v - m| ≤ Q / n := tri _ _ _ C2 k2 a1 (by linarith)
  have d3 : |gridEnergy v - e| ≤ Q / n := tri _ _ _ C2 k3 a2 (by linarith)
  have hsmall : Q / n ≤ e / 2 := by
    have h : 2 * Q / e ≤ n := (Nat.le_ceil _).trans (by exact_mod_cast hn)
    rw [div_le_iff₀ he0] at h
    rw [div_le_div_iff₀ hn' (by norm_num)]
    linarith
  have q1 := quotient_close he0 d1 d3 hsmall
  have q2 := quotient_close he0 d2 d3 hsmall
  have hT' : (1 / T : ℝ) ≠ 0 := by positivity
  have r1 : s / e = secondMoment T f / energy T f := mul_div_mul_left _ _ hT'
  have r2 : m / e = meanFrequency T f := mul_div_mul_left _ _ hT'
  rw [r1] at q1
  rw [r2] at q2
  refine ⟨by have := (abs_le.1 d3).1; linarith, q1.trans ?_, q2.trans ?_⟩
  · rw [show (2 * (e + |s|) / e ^ 2 * Q + 2 * (e + |m|) / e ^ 2 * Q) / n = 2 * (e + |s|) / e ^ 2 * (Q / n) + 2 * (e + |m|) / e ^ 2 * (Q / n) by ring]
    have : 0 ≤ 2 * (e + |m|) / e ^ 2 * (Q / n) := by positivity
    linarith
  · rw [show (2 * (e + |s|) / e ^ 2 * Q + 2 * (e + |m|) / e ^ 2 * Q) / n = 2 * (e + |s|) / e ^ 2 * (Q / n) + 2 * (e + |m|) / e ^ 2 * (Q / n) by ring]
    have : 0 ≤ 2 * (e + |s|) / e ^ 2 * (Q / n) := by positivity
    linarith

theorem spm_second (hf : ContDiff ℝ (⊤ : ℕ∞) f) (T g γ z : ℝ) :
    secondMoment T (spm g γ f z) / energy T (spm g γ f z) = broadened T f (γ * Gnlse.leff g z) := by
  rw [C180_moment hf, spm_energy, mul_div_mul_left _ _ (Real.exp_pos _).ne']
  rfl

/-- mean square of the frequency, from a spectrum and the frequency axis -/
noncomputable def meanSquare {n : ℕ} (V : Fin n → ℝ) (w : Fin n → ℂ) : ℝ := (∑ k, ‖w k‖ ^ 2 * V k ^ 2) / ∑ k, ‖w k‖ ^ 2

/-- mean of the frequency, from a spectrum and the frequency axis -/
noncomputable def mean {n : ℕ} (V : Fin n → ℝ) (w : Fin n → ℂ) : ℝ := (∑ k, ‖w k‖ ^ 2 * V k) / ∑ k, ‖w k‖ ^ 2

/-- C180: the last spectrum that `propagate` returns for a fibre without dispersion has the mean square frequency of the law, with the effective
length of the gain, and the mean frequency of the input, both up to an error of order `1/NPTS`. -/
theorem C180_computed (hf : ContDiff ℝ (⊤ : ℕ∞) f) (hT : 0 < T) (hp : Function.Periodic f T) (hE : 0 < energy T f) (g γ : ℝ) {L : ℝ} (hL : 0 < L) :
    ∃ (C : ℝ) (n0 : ℕ), ∀ (polyfit : Fiber.PolyFit) (spline : Fiber.Spline) (o : Obj) (p : Pulse) (F : FibObj) (f1 : Fiber.Fib) (R : Fin p.n → ℂ) (fR : ℝ)
      (a : Fin p.n → ℂ) (V : Fin p.n → ℝ), o.method = .rk4ip → o.eta = 5 → o.disableSS = true → o.disableRaman = true → 0 < o.dz → 0 < o.dzMin →
      0 < o.localError → Holds p a → n0 ≤ p.n → p.n % 2 = 0 → p.cf ≠ 0 → p.tw = T → p.AT = .ok ⟨p.n, fun j => f (time T p.n j)⟩ →
      (fun j : Fin p.n => f (time T p.n j)) ≠ 0 → p.V_THz = .ok ⟨p.n, V⟩ → Loads polyfit spline o p F f1 (fun _ => 0) g R γ fR → F.fib.length = some L →
      |meanSquare V a - secondMoment T f / energy T f| ≤ C / p.n ∧ |mean V a - meanFrequency T f| ≤ C / p.n ∧
      ∃ N0 : ℕ, ∀ N, N0 ≤ N → ∃ r o' F' w, propagate polyfit spline o p F N false = some (.ok (r, o', F')) ∧ r.AW[N - 1]? = some ⟨p.n, w⟩ ∧
        |meanSquare V w - broadened T f (γ * Gnlse.leff g L)| ≤ C / p.n ∧ |mean V w - meanFrequency T f| ≤ C / p.n := by
  have hEL : 0 < energy T (spm g γ f L) := by rw [spm_energy]; positivity
  obtain ⟨C0, m0, H0⟩ := moments_limit hf hT hp hE
  obtain ⟨C1, m1, H1⟩ := moments_limit (spm_contDiff hf g γ L) hT (spm_periodic hp g γ L) hEL
  refine ⟨max C0 C1, max m0 m1, ?_⟩
  intro polyfit spline o p F f1 R fR a V hm heta hss hram hdz hmin hle hh hn he hcf htw hA hne hV hl hlen
  have hn' : (0 : ℝ) < p.n := by exact_mod_cast hh.pos
  have hVe : V = fun k => offsetW T p.n k := by
    have h1 : p.V_THz = _ := hh.V_eq
    rw [hV] at h1
    have h2 := Except.ok.inj h1
    simp only [Vec.mk.injEq, heq_eq_eq, true_and] at h2
    rw [h2, htw]
    rfl
  have ha : a = fftT fun j => f (time T p.n j) := by
    have h1 := hh.AT_eq
    rw [hA] at h1
    have h2 := Except.ok.inj h1
    simp only [Vec.mk.injEq, heq_eq_eq, true_and] at h2
    rw [h2, fftT_ifftT]
  obtain ⟨δ0, hδ0, K0⟩ := H0 p.n ((le_max_left _ _).trans hn) hh.pos he
  obtain ⟨-, s0, t0⟩ := K0 (fun j => f (time T p.n j)) (fun j => by simpa using hδ0)
  obtain ⟨δ1, hδ1, K1⟩ := H1 p.n ((le_max_right _ _).trans hn) hh.pos he
  obtain ⟨N1, Q, HN⟩ := C123_converges hh he hcf hl hlen hL hm heta hss hram hdz hmin hle hA hne
  have up : ∀ {x C : ℝ}, x ≤ C / p.n → C ≤ max C0 C1 → x ≤ max C0 C1 / p.n := fun h1 h2 => h1.trans (div_le_div_of_nonneg_right h2 hn'.le)
  refine ⟨?_, ?_, max (max N1 1) (⌈|Q| / δ1⌉₊ + 1), fun N hN => ?_⟩
  · rw [hVe, ha]
    exact up s0 (le_max_left _ _)
  · rw [hVe, ha]
    exact up t0 (le_max_left _ _)
  have hN1 : 1 ≤ N := ((le_max_right _ _).trans (le_max_left _ _)).trans hN
  obtain ⟨r, o', F', hr, -, hcol⟩ := HN N (((le_max_left _ _).trans (le_max_left _ _)).trans hN)
  obtain ⟨v, hv, herr⟩ := hcol (N - 1) (by omega)
  have ez : (((N - 1 : ℕ) : ℝ) + 1) * (L / N) = L := by
    have : (N : ℝ) ≠ 0 := by positivity
    rw [Nat.cast_sub hN1]
    push_cast
    field_simp
    ring
  rw [ez] at herr
  have hNr : |Q| / δ1 < N := by
    have h1 : ((⌈|Q| / δ1⌉₊ + 1 : ℕ) : ℝ) ≤ N := by exact_mod_cast (le_max_right _ _).trans hN
    push_cast at h1
    linarith [Nat.le_ceil (|Q| / δ1)]
  have hN1r : (1 : ℝ) ≤ N := by exact_mod_cast hN1
  have hcl : ∀ j, ‖v j - spm g γ f L (time T p.n j)‖ < δ1 := fun j => by
    refine lt_of_le_of_lt (herr j) ?_
    rw [div_lt_iff₀ hδ1] at hNr
    rw [div_lt_iff₀ (by positivity)]
    have : (N : ℝ) ≤ N ^ 5 := le_self_pow₀ hN1r (by norm_num)
    calc Q ≤ |Q| := le_abs_self Q
      _ < N * δ1 := hNr
      _ ≤ N ^ 5 * δ1 := mul_le_mul_of_nonneg_right this hδ1.le
      _ = _ := mul_comm _ _
  obtain ⟨-, s1, t1⟩ := K1 v hcl
  rw [spm_second hf] at s1
  rw [C180_mean hf hp] at t1
  refine ⟨r, o', F', fftT v, hr, AW_column hr hh he hv, ?_, ?_⟩
  · rw [hVe]
    exact up s1 (le_max_right _ _)
  · rw [hVe]
    exact up t1 (le_max_right _ _)

/-! ## Broadening and compression -/

theorem chirp_zero (h : ∀ t, (deriv f t * (starRingEnd ℂ) (f t)).im = 0) (T : ℝ) : chirpOf T f = 0 := by
  unfold chirpOf
  simp [h]

/-- C180: an unchirped field: the excess of the mean square frequency is the square of the nonlinear phase times the steepness of the power. -/
theorem C180_unchirped (h : ∀ t, (deriv f t * (starRingEnd ℂ) (f t)).im = 0) (T q : ℝ) :
    broadened T f q = secondMoment T f / energy T f + q ^ 2 * (steepness T f / energy T f) := by
  unfold broadened
  rw [chirp_zero h]
  ring

/-- fields with real values are unchirped -/
theorem real_unchirped {x : ℝ → ℝ} (hx : ContDiff ℝ (⊤ : ℕ∞) x) (t : ℝ) : (deriv (fun t => (x t : ℂ)) t * (starRingEnd ℂ) ((x t : ℝ) : ℂ)).im = 0 := by
  have := ((hx.differentiable (by simp) t).hasDerivAt).ofReal_comp
  rw [this.deriv, conj_ofReal, ← ofReal_mul, ofReal_im]

/-- C180: for an unchirped pulse whose power is not constant, the spectrum behind the fibre is wider than the one in front of it, for both signs of the
nonlinearity: `propagate` returns such spectra on all fine grids and for all large step numbers. -/
theorem C180_broadens (hf : ContDiff ℝ (⊤ : ℕ∞) f) (hT : 0 < T) (hp : Function.Periodic f T) (hch : ∀ t, (deriv f t * (starRingEnd ℂ) (f t)).im = 0)
    (hne : ∃ s t, ‖f s‖ ≠ ‖f t‖) (hE : 0 < energy T f) (g : ℝ) {γ : ℝ} (hγ : γ ≠ 0) {L : ℝ} (hL : 0 < L) :
    ∃ n0 : ℕ, ∀ (polyfit : Fiber.PolyFit) (spline : Fiber.Spline) (o : Obj) (p : Pulse) (F : FibObj) (f1 : Fiber.Fib) (R : Fin p.n → ℂ) (fR : ℝ)
      (a : Fin p.n → ℂ) (V : Fin p.n → ℝ), o.method = .rk4ip → o.eta = 5 → o.disableSS = true → o.disableRaman = true → 0 < o.dz → 0 < o.dzMin →
      0 < o.localError → Holds p a → n0 ≤ p.n → p.n % 2 = 0 → p.cf ≠ 0 → p.tw = T → p.AT = .ok ⟨p.n, fun j => f (time T p.n j)⟩ →
      (fun j : Fin p.n => f (time T p.n j)) ≠ 0 → p.V_THz = .ok ⟨p.n, V⟩ → Loads polyfit spline o p F f1 (fun _ => 0) g R γ fR → F.fib.length = some L →
      ∃ N0 : ℕ, ∀ N, N0 ≤ N → ∃ r o' F' w, propagate polyfit spline o p F N false = some (.ok (r, o', F')) ∧ r.AW[N - 1]? = some ⟨p.n, w⟩ ∧
        meanSquare V a < meanSquare V w := by
  obtain ⟨C, n0, H⟩ := C180_computed hf hT hp hE g γ hL
  have hleff : 0 < Gnlse.leff g L := by
    unfold Gnlse.leff
    split_ifs with h0
    · exact hL
    · rcases lt_or_gt_of_ne h0 with h | h
      · refine div_pos_of_neg_of_neg ?_ h
        have : Real.exp (g * L) < 1 := by rw [Real.exp_lt_one_iff]; nlinarith
        linarith
      · refine div_pos ?_ h
        have : 1 < Real.exp (g * L) := by rw [Real.one_lt_exp_iff]; positivity
        linarith
  set q := γ * Gnlse.leff g L with hq
  have hq0 : q ≠ 0 := mul_ne_zero hγ hleff.ne'
  have hS := steepness_pos hf hT hp hne
  set D := q ^ 2 * (steepness T f / energy T f) with hD
  have hD0 : 0 < D := by positivity
  refine ⟨max n0 (⌈2 * |C| / D⌉₊ + 1), ?_⟩
  intro polyfit spline o p F f1 R fR a V hm heta hss hram hdz hmin hle hh hn he hcf htw hA hne hV hl hlen
  have hn' : (0 : ℝ) < p.n := by exact_mod_cast hh.pos
  obtain ⟨s0, -, N0, HN⟩ := H polyfit spline o p F f1 R fR a V hm heta hss hram hdz hmin hle hh ((le_max_left _ _).trans hn) he hcf htw hA hne hV hl hlen
  refine ⟨N0, fun N hN => ?_⟩
  obtain ⟨r, o', F', w, hr, hw, s1, -⟩ := HN N hN
  refine ⟨r, o', F', w, hr, hw, ?_⟩
  rw [C180_unchirped hch] at s1
  have hsm : 2 * (C / p.n) < D := by
    have h1 : ((⌈2 * |C| / D⌉₊ + 1 : ℕ) : ℝ) ≤ p.n := by exact_mod_cast (le_max_right _ _).trans hn
    push_cast at h1
    have h2 : 2 * |C| / D < p.n := by linarith [Nat.le_ceil (2 * |C| / D)]
    rw [div_lt_iff₀ hD0] at h2
    rw [← mul_div_assoc, div_lt_iff₀ hn']
    linarith [le_abs_self C]
  have h1 := (abs_le.1 s0).2
  have h2 := (abs_le.1 s1).1
  linarith

/-- C180: a field whose phase follows the power with the opposite sign is compressed in the spectrum: the phase of the fibre undoes it, and the mean square
frequency falls until the phase is gone. -/
theorem C180_compresses (hf : ContDiff ℝ (⊤ : ℕ∞) f) (hT : 0 < T) (hp : Function.Periodic f T) (hne : ∃ s t, ‖f s‖ ≠ ‖f t‖) (hE : 0 < energy T f)
    (hch : ∀ t, (deriv f t * (starRingEnd ℂ) (f t)).im = 0) {c : ℝ} {q1 q2 : ℝ} (h1 : 0 ≤ q1) (h12 : q1 < q2) (h2 : q2 ≤ c) :
    broadened T (spm 0 (-c) f 1) q2 < broadened T (spm 0 (-c) f 1) q1 ∧
    broadened T (spm 0 (-c) f 1) c = secondMoment T f / energy T f := by
  have hS := steepness_pos hf hT hp hne
  have hl : ∀ z, Gnlse.leff 0 z = z := fun z => by unfold Gnlse.leff; simp
  have comp : ∀ q, broadened T (spm 0 (-c) f 1) q = broadened T f (q - c) := fun q => by
    have e : spm 0 q (spm 0 (-c) f 1) 1 = spm 0 (q - c) f 1 := by
      funext t
      have hn : ‖spm 0 (-c) f 1 t‖ ^ 2 = ‖f t‖ ^ 2 := by rw [spm_norm]; simp
      have u : ∀ x : ℝ, ∀ h : ℝ → ℂ, spm 0 x h 1 t = exp (I * ((x * ‖h t‖ ^ 2 : ℝ) : ℂ)) * h t := fun x h => by
        unfold spm
        rw [hl]
        simp
      rw [u q, hn, u (-c), u (q - c), ← mul_assoc, ← exp_add]
      congr 2
      push_cast
      ring
    have k1 := spm_second (spm_contDiff hf 0 (-c) 1) T 0 q 1
    have k2 := spm_second hf T 0 (q - c) 1
    rw [hl, mul_one] at k1 k2
    rw [← k1, ← k2, e]
  constructor
  · rw [comp, comp, C180_unchirped hch, C180_unchirped hch]
    have : (q2 - c) ^ 2 < (q1 - c) ^ 2 := by nlinarith
    have hpos : 0 < steepness T f / energy T f := by positivity
    linarith [mul_lt_mul_of_pos_right this hpos]
  · rw [comp, sub_self, C180_unchirped hch]
    simp

theorem gauss_second {b : ℝ} (hb : 0 < b) : ∫ t : ℝ, t ^ 2 * Real.exp (-b * t ^ 2) = Real.sqrt Real.pi / (2 * b * Real.sqrt b) := by
  have h1 : ∫ t : ℝ, t ^ 2 * Real.exp (-b * t ^ 2) = 2 * ∫ t in Ioi (0 : ℝ), t ^ 2 * Real.exp (-b * t ^ 2) := by
    rw [← integral_comp_abs (f := fun t => t ^ 2 * Real.exp (-b * t ^ 2))]
    simp only [sq_abs]
  have h2 := _root_.integral_rpow_mul_exp_neg_mul_rpow (p := 2) (q := 2) (by norm_num) (by norm_num) hb
  simp only [Real.rpow_two] at h2
  rw [h1, h2, show ((2 : ℝ) + 1) / 2 = 1 / 2 + 1 by norm_num, Real.Gamma_add_one (by norm_num), Real.Gamma_one_half_eq,
    show -((2 : ℝ) + 1) / 2 = -(1 + 1 / 2) by norm_num, Real.rpow_neg hb.le, Real.rpow_add hb, Real.rpow_one, ← Real.sqrt_eq_rpow]
  field_simp

/-- C180: for a Gaussian pulse of peak power `P` the law is the textbook one: a peak phase `φ = qP` multiplies the mean square frequency
by `1 + 4φ²/(3√3)`. -/
theorem C180_gaussian {P τ : ℝ} (hP : 0 < P) (hτ : 0 < τ) (q : ℝ) :
    let x : ℝ → ℝ := fun t => Real.sqrt P * Real.exp (-t ^ 2 / (2 * τ ^ 2));
    (∫ t, deriv x t ^ 2) + q ^ 2 * (∫ t, x t ^ 2 * deriv (fun t => x t ^ 2) t ^ 2) = (1 + 4 * (q * P) ^ 2 / (3 * Real.sqrt 3)) * ∫ t, deriv x t ^ 2 := by
  intro x
  have d1 : ∀ t, deriv x t ^ 2 = P / τ ^ 4 * (t ^ 2 * Real.exp (-(1 / τ ^ 2) * t ^ 2)) := fun t => by
    have h0 : HasDerivAt (fun t : ℝ => -t ^ 2 / (2 * τ ^ 2)) (-(2 * t) / (2 * τ ^ 2)) t := by
      have := (((hasDerivAt_id t).pow 2).neg).div_const (2 * τ ^ 2)
      refine this.congr_deriv ?_
      simp
    have h := (h0.exp.const_mul (Real.sqrt P)).deriv
    have e : deriv x t = Real.sqrt P * (Real.exp (-t ^ 2 / (2 * τ ^ 2)) * (-(2 * t) / (2 * τ ^ 2))) := h
    rw [e, mul_pow, Real.sq_sqrt hP.le, mul_pow, ← Real.exp_nat_mul, show ((2 : ℕ) : ℝ) * (-t ^ 2 / (2 * τ ^ 2)) = -(1 / τ ^ 2) * t ^ 2 by push_cast; field_simp]
    field_simp
  have d2 : (fun t => x t ^ 2) = fun t => P * Real.exp (-(1 / τ ^ 2) * t ^ 2) := by
    funext t
    show (Real.sqrt P * Real.exp (-t ^ 2 / (2 * τ ^ 2))) ^ 2 = _
    rw [mul_pow, Real.sq_sqrt hP.le, ← Real.exp_nat_mul, show ((2 : ℕ) : ℝ) * (-t ^ 2 / (2 * τ ^ 2)) = -(1 / τ ^ 2) * t ^ 2 by push_cast; field_simp]
  have d3 : ∀ t, x t ^ 2 * deriv (fun t => x t ^ 2) t ^ 2 = 4 * P ^ 3 / τ ^ 4 * (t ^ 2 * Real.exp (-(3 / τ ^ 2) * t ^ 2)) := fun t => by
    have h0 : HasDerivAt (fun t : ℝ => -(1 / τ ^ 2) * t ^ 2) (-(1 / τ ^ 2) * (2 * t)) t := by
      have := ((hasDerivAt_id t).pow 2).const_mul (-(1 / τ ^ 2))
      refine this.congr_deriv ?_
      simp
    have h := (h0.exp.const_mul P).deriv
    have e2 : x t ^ 2 = P * Real.exp (-(1 / τ ^ 2) * t ^ 2) := congrFun d2 t
    rw [d2, h, e2, show -(3 / τ ^ 2) * t ^ 2 = -(1 / τ ^ 2) * t ^ 2 + -(1 / τ ^ 2) * t ^ 2 + -(1 / τ ^ 2) * t ^ 2 by ring, Real.exp_add, Real.exp_add]
    field_simp
    ring
  simp only [d1, d3, MeasureTheory.integral_const_mul]
  rw [gauss_second (by positivity), gauss_second (by positivity), Real.sqrt_div (by norm_num), Real.sqrt_div (by norm_num), Real.sqrt_sq hτ.le, Real.sqrt_one]
  have h3 : Real.sqrt 3 ≠ 0 := by positivity
  have hpi : Real.sqrt Real.pi ≠ 0 := by positivity
  field_simp

/-- C180 applies to the samples of `1 + cos(2πt/T)/2` on every fine grid, with the default settings and a generated fibre with vanishing dispersion:
the returned spectrum is wider than the one of the input. -/
theorem C180_nonvacuous (polyfit : Fiber.PolyFit) (spline : Fiber.Spline) (hT : 0 < T) (g : ℝ) {γ : ℝ} (hγ : γ ≠ 0) {L wl cf : ℝ} (hL : 0 < L) (hwl : wl ≠ 0)
    (hcf : cf ≠ 0) (m : ℕ) (units label : String) :
    ∃ n0 : ℕ, ∀ n, n0 ≤ n → n % 2 = 0 → ∃ A V a, (∀ j : Fin n, A j = ((1 + Real.cos (2 * Real.pi * time T n j / T) / 2 : ℝ) : ℂ)) ∧
      (heldPulse n cf T A).AT = .ok ⟨n, A⟩ ∧ (heldPulse n cf T A).AW = .ok ⟨n, a⟩ ∧ (heldPulse n cf T A).V_THz = .ok ⟨n, V⟩ ∧
      ∃ N0 : ℕ, ∀ N, N0 ≤ N → ∃ r o' F' w,
        propagate polyfit spline { Obj.default with disableSS := true, disableRaman := true } (heldPulse n cf T A)
          ⟨Fiber.genFib L wl ⟨m, fun _ => 0⟩ γ g units label Fiber.Fib.new, Fiber.genSpecs g⟩ N false = some (.ok (r, o', F')) ∧
        r.AW[N - 1]? = some ⟨n, w⟩ ∧ meanSquare V a < meanSquare V w := by
  set x : ℝ → ℝ := fun t => 1 + Real.cos (2 * Real.pi * t / T) / 2 with hx
  have cx : ContDiff ℝ (⊤ : ℕ∞) x := by
    rw [hx]
    exact contDiff_const.add ((Real.contDiff_cos.comp ((contDiff_const.mul contDiff_id).div_const _)).div_const _)
  have px : Function.Periodic x T := fun t => by
    rw [hx]
    show 1 + Real.cos _ / 2 = 1 + Real.cos _ / 2
    rw [show 2 * Real.pi * (t + T) / T = 2 * Real.pi * t / T + 2 * Real.pi by field_simp, Real.cos_add_two_pi]
  set f : ℝ → ℂ := fun t => (x t : ℂ) with hf
  have cf' : ContDiff ℝ (⊤ : ℕ∞) f := Complex.ofRealCLM.contDiff.comp cx
  have pf : Function.Periodic f T := fun t => by rw [hf]; simp only [px t]
  have x0 : x 0 = 3 / 2 := by rw [hx]; norm_num
  have x1 : x (T / 2) = 1 / 2 := by
    rw [hx]
    show 1 + Real.cos _ / 2 = _
    rw [show 2 * Real.pi * (T / 2) / T = Real.pi by field_simp, Real.cos_pi]
    norm_num
  have f0 : f 0 ≠ 0 := by rw [hf]; simp [x0]
  have hE : 0 < energy T f := by
    refine intervalIntegral.integral_pos hT (cf'.continuous.norm.pow 2).continuousOn (fun x _ => by positivity) ⟨0, ⟨le_rfl, hT.le⟩, ?_⟩
    have := norm_pos_iff.2 f0
    positivity
  have hne : ∃ s t, ‖f s‖ ≠ ‖f t‖ := ⟨0, T / 2, by
    rw [hf]
    simp only [norm_real, x0, x1]
    norm_num⟩
  obtain ⟨n0, H⟩ := C180_broadens cf' hT pf (real_unchirped cx) hne hE g hγ hL
  refine ⟨max n0 2, fun n hn he => ?_⟩
  have hn2 : 2 ≤ n := (le_max_right _ _).trans hn
  obtain ⟨hold, hAT, hA0⟩ := held_facts f0 cf T (by omega : 0 < n) he
  set A : Fin n → ℂ := fun j => f (time T n j) with hA
  obtain ⟨R, fR, hl⟩ := loads_flat polyfit spline { Obj.default with disableSS := true, disableRaman := true } hold hn2 (length := L) (wl := wl)
    (gamma := γ) (gain := g) (m := m) (units := units) (label := label) hwl rfl
  refine ⟨A, _, fftT A, fun j => rfl, hAT, rfl, hold.V_eq, ?_⟩
  exact H polyfit spline { Obj.default with disableSS := true, disableRaman := true } (heldPulse n cf T A) _ _ R fR (fftT A) _ rfl (by norm_num [Obj.default])
    rfl rfl (by norm_num [Obj.default]) (by norm_num [Obj.default]) (by norm_num [Obj.default]) hold ((le_max_left _ _).trans hn) he hcf rfl hAT hA0 hold.V_eq hl rfl

end PyNLO.Broadening
