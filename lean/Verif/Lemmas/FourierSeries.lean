import Mathlib.Analysis.Fourier.AddCircle
import Mathlib.Analysis.PSeries
import Mathlib.Analysis.Calculus.IteratedDeriv.Lemmas

/-! # Fourier series of smooth periodic functions -/

namespace PyNLO.Series

open Complex MeasureTheory Set

variable {T : ℝ}

/-- amplitude of `exp(-2πikt/T)` in `f` -/
noncomputable def coef (T : ℝ) (f : ℝ → ℂ) (k : ℤ) : ℂ := ((1 / T : ℝ) : ℂ) * ∫ x in (0 : ℝ)..T, exp (2 * Real.pi * I * k * x / T) * f x

theorem wave_hasDerivAt (c : ℂ) (x : ℝ) : HasDerivAt (fun x : ℝ => exp (c * x)) (c * exp (c * x)) x := by
  have h1 : HasDerivAt (fun x : ℝ => c * (x : ℂ)) c x := by
    have := (Complex.ofRealCLM.hasDerivAt (x := x)).const_mul c
    simpa using this
  have := h1.cexp
  rwa [mul_comm] at this

theorem wave_periodic (hT : T ≠ 0) (k : ℤ) : exp (2 * Real.pi * I * k * T / T) = 1 := by
  have hT' : (T : ℂ) ≠ 0 := by exact_mod_cast hT
  rw [mul_div_assoc, div_self hT', mul_one, show 2 * (Real.pi : ℂ) * I * k = k * (2 * Real.pi * I) by ring]
  exact Complex.exp_int_mul_two_pi_mul_I k

theorem coef_deriv (hT : 0 < T) {f f' : ℝ → ℂ} (hf : ∀ x, HasDerivAt f (f' x) x) (hc : Continuous f') (hp : Function.Periodic f T) (k : ℤ) :
    coef T f' k = -(2 * Real.pi * I * k / T) * coef T f k := by
  have hT' : (T : ℂ) ≠ 0 := by exact_mod_cast hT.ne'
  have hfc : Continuous f := continuous_iff_continuousAt.2 fun x => (hf x).continuousAt
  have e : ∀ x : ℝ, exp (2 * Real.pi * I * k * x / T) = exp ((2 * Real.pi * I * k / T) * x) := by
    intro x
    congr 1
    field_simp
  unfold coef
  simp only [e]
  have hI := intervalIntegral.integral_mul_deriv_eq_deriv_mul (a := 0) (b := T) (u := fun x : ℝ => exp ((2 * Real.pi * I * k / T) * x)) (v := f)
    (u' := fun x : ℝ => (2 * Real.pi * I * k / T) * exp ((2 * Real.pi * I * k / T) * x)) (v' := f')
    (fun x _ => wave_hasDerivAt _ x) (fun x _ => hf x) (Continuous.intervalIntegrable (by fun_prop) _ _) (hc.intervalIntegrable _ _)
  rw [hI]
  have h0 : f T = f 0 := by
    have := hp 0
    rwa [zero_add] at this
  have h1 : exp ((2 * Real.pi * I * k / T) * (T : ℝ)) = 1 := by
    rw [← e]
    exact wave_periodic hT.ne' k
  have h2 : ∫ x in (0 : ℝ)..T, 2 * Real.pi * I * k / T * exp (2 * Real.pi * I * k / T * x) * f x =
      2 * Real.pi * I * k / T * ∫ x in (0 : ℝ)..T, exp (2 * Real.pi * I * k / T * x) * f x := by
    rw [← intervalIntegral.integral_const_mul]
    simp only [mul_assoc]
  rw [h1, h2, h0]
  simp
  ring

theorem norm_coef_le (hT : 0 < T) {f : ℝ → ℂ} {B : ℝ} (hB : ∀ t, ‖f t‖ ≤ B) (k : ℤ) : ‖coef T f k‖ ≤ B := by
  unfold coef
  have h : ‖∫ x in (0 : ℝ)..T, exp (2 * Real.pi * I * k * x / T) * f x‖ ≤ B * |T - 0| := by
    refine intervalIntegral.norm_integral_le_of_norm_le_const fun x _ => ?_
    rw [norm_mul, show 2 * (Real.pi : ℂ) * I * k * x / T = ((2 * Real.pi * k * x / T : ℝ) : ℂ) * I by push_cast; ring, Complex.norm_exp_ofReal_mul_I, one_mul]
    exact hB x
  rw [sub_zero, abs_of_pos hT] at h
  rw [norm_mul, Complex.norm_real, Real.norm_of_nonneg (by positivity), div_mul_eq_mul_div, one_mul, div_le_iff₀ hT]
  exact h

theorem periodic_iteratedDeriv {f : ℝ → ℂ} (hp : Function.Periodic f T) (m : ℕ) : Function.Periodic (iteratedDeriv m f) T := by
  intro x
  have h : (fun z => f (z + T)) = f := funext hp
  have := iteratedDeriv_comp_add_const m f T
  rw [h] at this
  exact (congrFun this x).symm

theorem coef_iteratedDeriv (hT : 0 < T) {f : ℝ → ℂ} (hf : ContDiff ℝ (⊤ : ℕ∞) f) (hp : Function.Periodic f T) (m : ℕ) (k : ℤ) :
    coef T (iteratedDeriv m f) k = (-(2 * Real.pi * I * k / T)) ^ m * coef T f k := by
  induction m with
  | zero => simp
  | succ m ih =>
    have hd : Differentiable ℝ (iteratedDeriv m f) := hf.differentiable_iteratedDeriv m (by exact_mod_cast ENat.coe_lt_top m)
    have hc : Continuous (iteratedDeriv (m + 1) f) := hf.continuous_iteratedDeriv (m + 1) (by exact_mod_cast le_top)
    have h := coef_deriv hT (f := iteratedDeriv m f) (f' := iteratedDeriv (m + 1) f) (fun x => by
      rw [iteratedDeriv_succ]
      exact (hd x).hasDerivAt) hc (periodic_iteratedDeriv hp m) k
    rw [h, ih, pow_succ]
    ring

/-- decay of the coefficients -/
theorem coef_decay (hT : 0 < T) {f : ℝ → ℂ} (hf : ContDiff ℝ (⊤ : ℕ∞) f) (hp : Function.Periodic f T) {q : ℕ} {B : ℝ}
    (hB : ∀ t, ‖iteratedDeriv q f t‖ ≤ B) (k : ℤ) : (2 * Real.pi / T * |(k : ℝ)|) ^ q * ‖coef T f k‖ ≤ B := by
  have h := norm_coef_le hT hB k
  rw [coef_iteratedDeriv hT hf hp, norm_mul, norm_pow, norm_neg] at h
  have e : ‖(2 * Real.pi * I * k / T : ℂ)‖ = 2 * Real.pi / T * |(k : ℝ)| := by
    rw [show (2 * Real.pi * I * k / T : ℂ) = ((2 * Real.pi * k / T : ℝ) : ℂ) * I by push_cast; ring, norm_mul, Complex.norm_I, mul_one, Complex.norm_real,
      Real.norm_eq_abs, abs_div, abs_mul, abs_of_pos hT, abs_of_pos (by positivity : (0 : ℝ) < 2 * Real.pi)]
    ring
  rwa [e] at h

theorem periodic_bounded (hT : 0 < T) {f : ℝ → ℂ} (hc : Continuous f) (hp : Function.Periodic f T) : ∃ B, ∀ t, ‖f t‖ ≤ B := by
  obtain ⟨B, hB⟩ := isCompact_Icc.exists_bound_of_continuousOn (s := Icc 0 (0 + T)) hc.continuousOn
  refine ⟨B, fun t => ?_⟩
  obtain ⟨y, hy, e⟩ := hp.exists_mem_Ico hT t 0
  rw [e]
  exact hB y ⟨hy.1, hy.2.le⟩

theorem summable_coef (hT : 0 < T) {f : ℝ → ℂ} (hf : ContDiff ℝ (⊤ : ℕ∞) f) (hp : Function.Periodic f T) : Summable (coef T f) := by
  obtain ⟨B, hB⟩ := periodic_bounded hT (hf.continuous_iteratedDeriv 2 (by norm_cast)) (periodic_iteratedDeriv hp 2)
  have hs : Summable fun k : ℤ => B / (2 * Real.pi / T) ^ 2 * (1 / (k : ℝ) ^ 2) := (Real.summable_one_div_int_pow.2 (by norm_num)).mul_left _
  refine Summable.of_norm_bounded_eventually hs ?_
  have : {k : ℤ | ¬ ‖coef T f k‖ ≤ B / (2 * Real.pi / T) ^ 2 * (1 / (k : ℝ) ^ 2)} ⊆ {0} := by
    intro k hk
    by_contra h0
    refine hk ?_
    have h := coef_decay hT hf hp hB k
    have hk0 : (k : ℝ) ≠ 0 := by exact_mod_cast h0
    have hk2 : 0 < (k : ℝ) ^ 2 := by positivity
    have hpi : 0 < (2 * Real.pi / T) ^ 2 := by positivity
    rw [mul_pow, sq_abs] at h
    rw [div_mul_div_comm, mul_one, le_div_iff₀ (by positivity), mul_comm]
    exact h
  exact (Set.finite_singleton 0).subset this

theorem hasSum_coef (hT : 0 < T) {f : ℝ → ℂ} (hf : ContDiff ℝ (⊤ : ℕ∞) f) (hp : Function.Periodic f T) (t : ℝ) :
    HasSum (fun k : ℤ => coef T f k * exp (-(2 * Real.pi * I * k * t / T))) (f t) := by
  have : Fact (0 < T) := ⟨hT⟩
  let F : C(AddCircle T, ℂ) := ⟨hp.lift, continuous_coinduced_dom.mpr hf.continuous⟩
  have hF : ∀ x : ℝ, F (x : AddCircle T) = f x := fun x => hp.lift_coe x
  have hc : ∀ k : ℤ, fourierCoeff F k = coef T f (-k) := by
    intro k
    rw [fourierCoeff_eq_intervalIntegral F k 0, zero_add]
    unfold coef
    rw [Complex.real_smul]
    congr 1
    refine intervalIntegral.integral_congr fun x _ => ?_
    simp only [fourier_coe_apply, hF, smul_eq_mul]
  have hs : Summable (fourierCoeff F) := by
    have := (summable_coef hT hf hp).comp_injective (neg_injective (G := ℤ))
    exact this.congr fun k => (hc k).symm
  have h := has_pointwise_sum_fourier_series_of_summable hs (t : AddCircle T)
  rw [hF] at h
  have h2 := (Equiv.neg ℤ).hasSum_iff.2 h
  have e : (fun k : ℤ => coef T f k * exp (-(2 * Real.pi * I * k * t / T))) =
      (fun i : ℤ => fourierCoeff F i • fourier i (t : AddCircle T)) ∘ (Equiv.neg ℤ) := by
    funext k
    simp only [Function.comp, Equiv.neg_apply, hc, neg_neg, fourier_coe_apply, smul_eq_mul]
    congr 2
    push_cast
    ring
  rw [e]
  exact h2

theorem contDiff_iteratedDeriv {f : ℝ → ℂ} (hf : ContDiff ℝ (⊤ : ℕ∞) f) (m : ℕ) : ContDiff ℝ (⊤ : ℕ∞) (iteratedDeriv m f) := by
  induction m with
  | zero => simpa using hf
  | succ m ih =>
    rw [iteratedDeriv_succ]
    exact (contDiff_infty_iff_deriv.1 ih).2

/-- the derivatives term by term -/
theorem hasSum_iteratedDeriv (hT : 0 < T) {f : ℝ → ℂ} (hf : ContDiff ℝ (⊤ : ℕ∞) f) (hp : Function.Periodic f T) (m : ℕ) (t : ℝ) :
    HasSum (fun k : ℤ => (-(2 * Real.pi * I * k / T)) ^ m * coef T f k * exp (-(2 * Real.pi * I * k * t / T))) (iteratedDeriv m f t) := by
  have hm : ContDiff ℝ (⊤ : ℕ∞) (iteratedDeriv m f) := contDiff_iteratedDeriv hf m
  have h := hasSum_coef hT hm (periodic_iteratedDeriv hp m) t
  simpa only [coef_iteratedDeriv hT hf hp] using h

end PyNLO.Series
