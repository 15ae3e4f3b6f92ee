import Verif.Lemmas.WienerSmooth
import Verif.Lemmas.Aliasing
import Verif.Spec.Nlse

/-! # Solutions of the nonlinear Schrödinger equation from Fourier coefficients -/

namespace PyNLO.Wiener

open Complex Set Filter Topology MeasureTheory Polynomial

/-- `exp(-2πikt/T)` -/
noncomputable def wave (T : ℝ) (k : ℤ) (t : ℝ) : ℂ := exp (-(2 * Real.pi * I * k * t / T))

theorem wave_one (T : ℝ) (k : ℤ) (t : ℝ) : ‖wave T k t‖ = 1 := norm_wave T t k

theorem wave_add (T : ℝ) (k j : ℤ) (t : ℝ) : wave T (k + j) t = wave T k t * wave T j t := by
  unfold wave
  rw [← Complex.exp_add]
  congr 1
  push_cast
  ring

theorem wave_conj (T : ℝ) (k : ℤ) (t : ℝ) : (starRingEnd ℂ) (wave T k t) = wave T (-k) t := by
  unfold wave
  rw [← Complex.exp_conj]
  congr 1
  have : (starRingEnd ℂ) 2 = 2 := map_ofNat _ 2
  simp [this]

theorem wave_period {T : ℝ} (hT : T ≠ 0) (k : ℤ) : Function.Periodic (wave T k) T := by
  intro t
  have hT' : (T : ℂ) ≠ 0 := by exact_mod_cast hT
  unfold wave
  rw [show -(2 * (Real.pi : ℂ) * I * k * ((t + T : ℝ) : ℂ) / T) = -(2 * Real.pi * I * k * t / T) + ((-k : ℤ) : ℂ) * (2 * Real.pi * I) by
    push_cast; field_simp; ring, Complex.exp_add, Complex.exp_int_mul_two_pi_mul_I, mul_one]

theorem wave_continuous (T : ℝ) (k : ℤ) : Continuous (wave T k) := by
  unfold wave
  fun_prop

theorem coef_wave {T : ℝ} (hT : 0 < T) (j k : ℤ) : Series.coef T (wave T j) k = if j = k then 1 else 0 := by
  have hT' : (T : ℂ) ≠ 0 := by exact_mod_cast hT.ne'
  split_ifs with h
  · subst h
    unfold Series.coef
    have : ∀ x : ℝ, exp (2 * Real.pi * I * j * x / T) * wave T j x = 1 := by
      intro x
      unfold wave
      rw [← Complex.exp_add]
      simp
    simp only [this, intervalIntegral.integral_const, sub_zero]
    rw [Complex.real_smul]
    push_cast
    field_simp
  · have h1 := Series.coef_deriv hT (fun x => wave_deriv T j x) (continuous_const.mul (wave_continuous T j)) (wave_period hT.ne' j) k
    have h2 : Series.coef T (fun x => freq T j * wave T j x) k = freq T j * Series.coef T (wave T j) k := by
      unfold Series.coef
      rw [show (fun x : ℝ => exp (2 * Real.pi * I * k * x / T) * (freq T j * wave T j x)) =
        fun x : ℝ => freq T j * (exp (2 * Real.pi * I * k * x / T) * wave T j x) from funext fun x => by ring, intervalIntegral.integral_const_mul]
      ring
    have h3 : (freq T j + 2 * Real.pi * I * k / T) * Series.coef T (wave T j) k = 0 := by
      have h1' : Series.coef T (fun x => freq T j * wave T j x) k = -(2 * Real.pi * I * k / T) * Series.coef T (wave T j) k := h1
      rw [h2] at h1'
      linear_combination h1'
    refine (mul_eq_zero.1 h3).resolve_left ?_
    unfold freq
    rw [show -(2 * Real.pi * I * j / T) + 2 * Real.pi * I * k / T = 2 * Real.pi * I / T * ((k : ℂ) - j) by ring]
    refine mul_ne_zero (div_ne_zero Complex.two_pi_I_ne_zero hT') (sub_ne_zero.2 ?_)
    exact_mod_cast (fun e => h e.symm : ¬ k = j)

/-- `Σ xₖ·exp(-2πikt/T)` -/
noncomputable def val (T : ℝ) (x : E) (t : ℝ) : ℂ := ∑' k, x k * wave T k t

theorem val_summable_norm (T : ℝ) (x : E) (t : ℝ) : Summable fun k => ‖x k * wave T k t‖ := by
  simp only [norm_mul, wave_one, mul_one]
  exact summable_norm x

theorem val_hasSum (T : ℝ) (x : E) (t : ℝ) : HasSum (fun k => x k * wave T k t) (val T x t) := (val_summable_norm T x t).of_norm.hasSum

theorem coef_val {T : ℝ} (hT : 0 < T) (x : E) (k : ℤ) : Series.coef T (val T x) k = x k := by
  have h : HasSum (fun j => ∫ t in (0 : ℝ)..T, exp (2 * Real.pi * I * k * t / T) * (x j * wave T j t))
      (∫ t in (0 : ℝ)..T, exp (2 * Real.pi * I * k * t / T) * val T x t) := by
    refine intervalIntegral.hasSum_integral_of_dominated_convergence (fun j _ => ‖x j‖) (fun j => ?_) (fun j => ?_) ?_ ?_ ?_
    · refine Continuous.aestronglyMeasurable ?_
      have := wave_continuous T j
      fun_prop
    · refine Eventually.of_forall fun t _ => ?_
      rw [norm_mul, norm_mul, wave_one, mul_one, show 2 * (Real.pi : ℂ) * I * k * t / T = ((2 * Real.pi * k * t / T : ℝ) : ℂ) * I by push_cast; ring,
        Complex.norm_exp_ofReal_mul_I, one_mul]
    · exact Eventually.of_forall fun t _ => summable_norm x
    · exact intervalIntegrable_const
    · exact Eventually.of_forall fun t _ => (val_hasSum T x t).mul_left _
  have h2 := h.mul_left ((1 / T : ℝ) : ℂ)
  have e : (fun j => ((1 / T : ℝ) : ℂ) * ∫ t in (0 : ℝ)..T, exp (2 * Real.pi * I * k * t / T) * (x j * wave T j t)) = fun j => if j = k then x k else 0 := by
    funext j
    rw [show (fun t : ℝ => exp (2 * Real.pi * I * k * t / T) * (x j * wave T j t)) = fun t : ℝ => x j * (exp (2 * Real.pi * I * k * t / T) * wave T j t) from
      funext fun t => by ring, intervalIntegral.integral_const_mul]
    have hc := coef_wave hT j k
    unfold Series.coef at hc
    split_ifs at hc ⊢ with hj
    · subst hj
      linear_combination x j * hc
    · linear_combination x j * hc
  rw [e] at h2
  exact h2.unique (hasSum_ite_eq k (x k))

theorem tsum_shear {F : ℤ × ℤ → ℂ} (h : Summable F) : ∑' p, F p = ∑' k, ∑' j, F (k - j, j) := by
  have h3 : Summable fun p : ℤ × ℤ => F (p.1 - p.2, p.2) := (shear.summable_iff (f := F)).2 h
  have h2 : ∑' p : ℤ × ℤ, F (p.1 - p.2, p.2) = ∑' p, F p := shear.tsum_eq F
  rw [← h2, h3.tsum_prod]

theorem val_mul (T : ℝ) (x y : E) (t : ℝ) : val T x t * val T y t = val T (conv one x y) t := by
  have hx := val_summable_norm T x t
  have hy := val_summable_norm T y t
  unfold val
  rw [tsum_mul_tsum_of_summable_norm hx hy, tsum_shear (summable_mul_of_summable_norm hx hy)]
  refine tsum_congr fun k => ?_
  rw [conv_one, ← tsum_mul_right]
  refine tsum_congr fun j => ?_
  have : wave T k t = wave T (k - j) t * wave T j t := by
    rw [← wave_add, sub_add_cancel]
  rw [this]
  ring

theorem val_star (T : ℝ) (x : E) (t : ℝ) : val T (star x) t = (starRingEnd ℂ) (val T x t) := by
  have h := (val_hasSum T x t).mapL (Complex.conjCLE : ℂ →L[ℝ] ℂ)
  have h2 := (Equiv.neg ℤ).hasSum_iff.2 h
  refine ((val_hasSum T (star x) t).unique ?_)
  refine h2.congr_fun fun k => ?_
  simp [wave_conj]

theorem val_power (T : ℝ) (x : E) (t : ℝ) : ((‖val T x t‖ ^ 2 : ℝ) : ℂ) = val T (conv one x (star x)) t := by
  rw [← val_mul, val_star, Complex.mul_conj, Complex.normSq_eq_norm_sq]

/-- multiplier of the nonlinear response -/
noncomputable def spectrum (fR : ℝ) (h : ℝ → ℝ) (T : ℝ) (k : ℤ) : ℂ :=
  (1 - fR) + fR * ((∫ s in (0 : ℝ)..T / 2, (h s : ℂ) * exp (2 * Real.pi * I * k * s / T)) / ∫ s in (0 : ℝ)..T / 2, (h s : ℂ))

/-- bound of the nonlinear response -/
noncomputable def strength (fR : ℝ) (h : ℝ → ℝ) (T : ℝ) : ℝ := |1 - fR| + |fR| * ((∫ s in (0 : ℝ)..T / 2, |h s|) / |∫ s in (0 : ℝ)..T / 2, h s|)

theorem spectrum_le (fR : ℝ) (h : ℝ → ℝ) {T : ℝ} (hT : 0 < T) (k : ℤ) : ‖spectrum fR h T k‖ ≤ strength fR h T := by
  unfold spectrum strength
  refine (norm_add_le _ _).trans (add_le_add (le_of_eq ?_) ?_)
  · rw [show (1 - fR : ℂ) = ((1 - fR : ℝ) : ℂ) by push_cast; ring, Complex.norm_real, Real.norm_eq_abs]
  · rw [norm_mul, norm_div, Complex.norm_real, Real.norm_eq_abs, intervalIntegral.integral_ofReal, Complex.norm_real, Real.norm_eq_abs]
    refine mul_le_mul_of_nonneg_left (div_le_div_of_nonneg_right ?_ (abs_nonneg _)) (abs_nonneg _)
    refine (intervalIntegral.norm_integral_le_integral_norm (by positivity)).trans (le_of_eq ?_)
    refine intervalIntegral.integral_congr fun s _ => ?_
    show ‖(h s : ℂ) * exp (2 * Real.pi * I * k * s / T)‖ = |h s|
    rw [norm_mul, Complex.norm_real, Real.norm_eq_abs, show 2 * (Real.pi : ℂ) * I * k * s / T = ((2 * Real.pi * k * s / T : ℝ) : ℂ) * I by push_cast; ring,
        Complex.norm_exp_ofReal_mul_I, mul_one]

theorem val_response {fR : ℝ} {h : ℝ → ℝ} {T : ℝ} (hT : 0 < T) (hh : IntervalIntegrable h volume 0 (T / 2)) {P : ℝ → ℝ} {p : E}
    (hP : ∀ t, (P t : ℂ) = val T p t) (t : ℝ) :
    ((Nlse.response fR h T P t : ℝ) : ℂ) = val T (mul (spectrum fR h T) (spectrum_le fR h hT) p) t := by
  have hI : HasSum (fun k => ∫ s in (0 : ℝ)..T / 2, (h s : ℂ) * (p k * wave T k (t - s))) (∫ s in (0 : ℝ)..T / 2, (h s : ℂ) * val T p (t - s)) := by
    refine intervalIntegral.hasSum_integral_of_dominated_convergence (fun k s => |h s| * ‖p k‖) (fun k => ?_) (fun k => ?_) ?_ ?_ ?_
    · have h1 : AEStronglyMeasurable (fun s => (h s : ℂ)) (volume.restrict (uIoc 0 (T / 2))) :=
        Complex.continuous_ofReal.comp_aestronglyMeasurable hh.def'.1
      refine h1.mul (Continuous.aestronglyMeasurable ?_)
      exact continuous_const.mul ((wave_continuous T k).comp (continuous_const.sub continuous_id))
    · refine Eventually.of_forall fun s _ => ?_
      rw [norm_mul, norm_mul, wave_one, mul_one, Complex.norm_real, Real.norm_eq_abs]
    · exact Eventually.of_forall fun s _ => (summable_norm p).mul_left _
    · simp only [tsum_mul_left]
      exact hh.abs.mul_const _
    · exact Eventually.of_forall fun s _ => (val_hasSum T p (t - s)).mul_left _
  have e : ∀ k : ℤ, ∫ s in (0 : ℝ)..T / 2, (h s : ℂ) * (p k * wave T k (t - s)) =
      (∫ s in (0 : ℝ)..T / 2, (h s : ℂ) * exp (2 * Real.pi * I * k * s / T)) * (p k * wave T k t) := by
    intro k
    rw [← intervalIntegral.integral_mul_const]
    refine intervalIntegral.integral_congr fun s _ => ?_
    show (h s : ℂ) * (p k * wave T k (t - s)) = _
    have : wave T k (t - s) = wave T k t * exp (2 * Real.pi * I * k * s / T) := by
      unfold wave
      rw [← Complex.exp_add]
      congr 1
      push_cast
      ring
    rw [this]
    ring
  simp only [e] at hI
  have hD : HasSum (fun k => spectrum fR h T k * p k * wave T k t) ((1 - fR : ℂ) * val T p t +
      fR * ((∫ s in (0 : ℝ)..T / 2, (h s : ℂ) * val T p (t - s)) / ∫ s in (0 : ℝ)..T / 2, (h s : ℂ))) := by
    have h1 := ((val_hasSum T p t).mul_left (1 - fR : ℂ)).add ((hI.div_const (∫ s in (0 : ℝ)..T / 2, (h s : ℂ))).mul_left (fR : ℂ))
    refine h1.congr_fun fun k => ?_
    unfold spectrum
    ring
  refine Eq.trans ?_ hD.tsum_eq.symm
  unfold Nlse.response
  push_cast
  rw [hP, ← intervalIntegral.integral_ofReal, ← intervalIntegral.integral_ofReal]
  simp only [Complex.ofReal_mul, hP]

end PyNLO.Wiener
