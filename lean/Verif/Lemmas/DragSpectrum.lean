import Verif.Lemmas.Drag
import Verif.Lemmas.FourierSeries
import Mathlib.MeasureTheory.Integral.Prod

/-!
# The work of a delayed response, line by line

`∫ x·∂ₜ(h ⋆ x)` is a sum over the Fourier components of `x`: each contributes its power times its frequency times the sine transform of the memory.
-/

namespace PyNLO.Nlse

open Set MeasureTheory Complex Series

/-- termwise integration of a series of continuous functions with summable bounds -/
theorem hasSum_interval {E : Type*} [NormedAddCommGroup E] [NormedSpace ℝ E] {F : ℤ → ℝ → E} {f : ℝ → E} {B : ℤ → ℝ} (hF : ∀ k, Continuous (F k))
    {a b : ℝ} (hB : ∀ k, ∀ t ∈ uIoc a b, ‖F k t‖ ≤ B k) (hs : Summable B) (hf : ∀ t, HasSum (fun k => F k t) (f t)) :
    HasSum (fun k => ∫ t in a..b, F k t) (∫ t in a..b, f t) :=
  intervalIntegral.hasSum_integral_of_dominated_convergence (fun k _ => B k) (fun k => (hF k).aestronglyMeasurable)
    (fun k => ae_of_all _ fun t ht => hB k t ht) (ae_of_all _ fun _ _ => hs) intervalIntegrable_const (ae_of_all _ fun t _ => hf t)

/-- the coefficients of a real function come in conjugate pairs -/
theorem integral_wave_real (T : ℝ) (hT : T ≠ 0) (x : ℝ → ℝ) (k : ℤ) :
    ∫ t in (0 : ℝ)..T, (x t : ℂ) * exp (-(2 * Real.pi * I * k * t / T)) = T * (starRingEnd ℂ) (coef T (fun t => (x t : ℂ)) k) := by
  have hT' : (T : ℂ) ≠ 0 := by exact_mod_cast hT
  have e : (starRingEnd ℂ) (∫ t in (0 : ℝ)..T, exp (2 * Real.pi * I * k * t / T) * (x t : ℂ)) = ∫ t in (0 : ℝ)..T, (x t : ℂ) * exp (-(2 * Real.pi * I * k * t / T)) := by
    simp only [intervalIntegral, map_sub]
    rw [← integral_conj, ← integral_conj]
    have c : ∀ t : ℝ, (starRingEnd ℂ) (exp (2 * Real.pi * I * k * t / T) * (x t : ℂ)) = (x t : ℂ) * exp (-(2 * Real.pi * I * k * t / T)) := fun t => by
      rw [map_mul, conj_ofReal, ← exp_conj, mul_comm]
      congr 2
      rw [show (2 * Real.pi * I * k * t / T : ℂ) = ((2 * Real.pi * k * t / T : ℝ) : ℂ) * I by push_cast; ring, map_mul, conj_ofReal, conj_I]
      push_cast
      ring
    simp only [c]
  unfold coef
  rw [map_mul, conj_ofReal, e, ← mul_assoc]
  push_cast
  rw [mul_one_div_cancel hT', one_mul]

/-- the correlation of a function with its slope, line by line -/
theorem hasSum_corr {T : ℝ} (hT : 0 < T) {x : ℝ → ℝ} (hx : ContDiff ℝ (⊤ : ℕ∞) x) (px : Function.Periodic x T) (s : ℝ) :
    HasSum (fun k : ℤ => T * ‖coef T (fun t => (x t : ℂ)) k‖ ^ 2 * (2 * Real.pi * k / T) * Real.sin (2 * Real.pi * k / T * s))
      (∫ t in (0 : ℝ)..T, x t * deriv x (t - s)) := by
  set c : ℤ → ℂ := coef T (fun t => (x t : ℂ)) with hc
  have hd : ∀ t, HasDerivAt x (deriv x t) t := fun t => ((hx.differentiable (by simp)) t).hasDerivAt
  have cx' : ContDiff ℝ (⊤ : ℕ∞) (deriv x) := (contDiff_infty_iff_deriv.1 hx).2
  have pd : Function.Periodic (deriv x) T := fun t => by
    have h : (fun z => x (z + T)) = x := funext px
    have := deriv_comp_add_const (f := x) T t
    rw [h] at this
    exact this.symm
  have cX : ContDiff ℝ (⊤ : ℕ∞) (fun t => ((deriv x t : ℝ) : ℂ)) := Complex.ofRealCLM.contDiff.comp cx'
  have pX : Function.Periodic (fun t => ((deriv x t : ℝ) : ℂ)) T := fun t => by simp only [pd t]
  have ec : ∀ k, coef T (fun t => ((deriv x t : ℝ) : ℂ)) k = -(2 * Real.pi * I * k / T) * c k := fun k =>
    coef_deriv hT (f := fun t => ((x t : ℝ) : ℂ)) (fun t => (hd t).ofReal_comp) cX.continuous (fun t => by simp only [px t]) k
  have hs := hasSum_coef hT cX pX
  have sm := (summable_coef hT cX pX).norm
  obtain ⟨B, hB⟩ := periodic_bounded hT (f := fun t => ((x t : ℝ) : ℂ)) (Complex.continuous_ofReal.comp hx.continuous) (fun t => by simp only [px t])
  have key := hasSum_interval (F := fun (k : ℤ) (t : ℝ) => (x t : ℂ) * (coef T (fun t => ((deriv x t : ℝ) : ℂ)) k * exp (-(2 * Real.pi * I * k * ((t - s : ℝ) : ℂ) / T))))
    (f := fun t => (x t : ℂ) * ((deriv x (t - s) : ℝ) : ℂ)) (B := fun k => B * ‖coef T (fun t => ((deriv x t : ℝ) : ℂ)) k‖) (a := 0) (b := T)
    (fun k => by have := hx.continuous; fun_prop)
    (fun k t _ => by
      have e1 : ‖exp (-(2 * Real.pi * I * k * ((t - s : ℝ) : ℂ) / T))‖ = 1 := by
        rw [show -(2 * Real.pi * I * k * ((t - s : ℝ) : ℂ) / T) = ((-(2 * Real.pi * k * (t - s) / T) : ℝ) : ℂ) * I by push_cast; ring, norm_exp_ofReal_mul_I]
      rw [norm_mul, norm_mul, e1, mul_one]
      exact mul_le_mul_of_nonneg_right (hB t) (norm_nonneg _))
    (sm.mul_left B) (fun t => (hs (t - s)).mul_left _)
  have key2 := Complex.hasSum_re key
  have er : (∫ t in (0 : ℝ)..T, (x t : ℂ) * ((deriv x (t - s) : ℝ) : ℂ)).re = ∫ t in (0 : ℝ)..T, x t * deriv x (t - s) := by
    have : ∀ t : ℝ, (x t : ℂ) * ((deriv x (t - s) : ℝ) : ℂ) = ((x t * deriv x (t - s) : ℝ) : ℂ) := fun t => by push_cast; rfl
    simp only [this]
    rw [intervalIntegral.integral_ofReal, ofReal_re]
  rw [er] at key2
  have et : ∀ k : ℤ, (∫ t in (0 : ℝ)..T, (x t : ℂ) * (coef T (fun t => ((deriv x t : ℝ) : ℂ)) k * exp (-(2 * Real.pi * I * k * ((t - s : ℝ) : ℂ) / T)))).re =
      T * ‖c k‖ ^ 2 * (2 * Real.pi * k / T) * Real.sin (2 * Real.pi * k / T * s) := fun k => by
    set w : ℝ := 2 * Real.pi * k / T with hw
    have e1 : ∀ t : ℝ, (x t : ℂ) * (coef T (fun t => ((deriv x t : ℝ) : ℂ)) k * exp (-(2 * Real.pi * I * k * ((t - s : ℝ) : ℂ) / T))) =
        (-(I * w) * c k * exp (((w * s : ℝ) : ℂ) * I)) * ((x t : ℂ) * exp (-(2 * Real.pi * I * k * t / T))) := fun t => by
      rw [ec, show -(2 * Real.pi * I * k * ((t - s : ℝ) : ℂ) / T) = ((w * s : ℝ) : ℂ) * I + -(2 * Real.pi * I * k * t / T) by rw [hw]; push_cast; ring, exp_add, hw]
      push_cast
      ring
    simp only [e1]
    rw [intervalIntegral.integral_const_mul, integral_wave_real T hT.ne' x k, ← hc]
    have e2 : -(I * w) * c k * exp (((w * s : ℝ) : ℂ) * I) * (T * (starRingEnd ℂ) (c k)) = ((T * ‖c k‖ ^ 2 * w : ℝ) : ℂ) * (-I * exp (((w * s : ℝ) : ℂ) * I)) := by
      have := Complex.mul_conj' (c k)
      push_cast
      linear_combination (-(I * w) * exp (((w : ℂ) * s) * I) * T) * this
    rw [e2, re_ofReal_mul, exp_mul_I, ← ofReal_cos, ← ofReal_sin]
    congr 1
    generalize Real.cos (w * s) = q
    generalize Real.sin (w * s) = r
    simp
  simpa only [et] using key2

/-- `∫ x·∂ₜ(h ⋆ x)` as an integral over the delay -/
theorem drag_swap {h : ℝ → ℝ} (hh : Continuous h) (X T : ℝ) {x : ℝ → ℝ} (hx : ContDiff ℝ (⊤ : ℕ∞) x) :
    drag h X T x = ∫ s in (0 : ℝ)..X, h s * ∫ t in (0 : ℝ)..T, x t * deriv x (t - s) := by
  have hc' : Continuous (deriv x) := hx.continuous_deriv (by exact_mod_cast le_top)
  have hxc := hx.continuous
  have e1 : ∀ t, x t * deriv (memory h X x) t = ∫ s in (0 : ℝ)..X, x t * (h s * deriv x (t - s)) := fun t => by
    rw [(memory_hasDerivAt' hh X hx t).deriv, intervalIntegral.integral_const_mul]
  rw [drag_eq]
  simp only [e1]
  rw [intervalIntegral_intervalIntegral_swap]
  · congr 1
    funext s
    rw [← intervalIntegral.integral_const_mul]
    congr 1
    funext t
    ring
  · have c : Continuous (Function.uncurry fun t s => x t * (h s * deriv x (t - s))) := by
      unfold Function.uncurry
      fun_prop
    exact (c.continuousOn.integrableOn_compact (isCompact_uIcc.prod isCompact_uIcc)).mono_set (Set.prod_mono uIoc_subset_uIcc uIoc_subset_uIcc)

/-- The work of a delayed response is the sum over the lines of the power: frequency times power times the sine transform of the memory. -/
theorem hasSum_drag {h : ℝ → ℝ} (hh : Continuous h) (X : ℝ) {T : ℝ} (hT : 0 < T) {x : ℝ → ℝ} (hx : ContDiff ℝ (⊤ : ℕ∞) x) (px : Function.Periodic x T) :
    HasSum (fun k : ℤ => T * ‖coef T (fun t => (x t : ℂ)) k‖ ^ 2 * ((2 * Real.pi * k / T) * ∫ s in (0 : ℝ)..X, h s * Real.sin (2 * Real.pi * k / T * s)))
      (drag h X T x) := by
  set c : ℤ → ℂ := coef T (fun t => (x t : ℂ)) with hc
  obtain ⟨H, hH⟩ := (isCompact_uIcc (a := (0 : ℝ)) (b := X)).exists_bound_of_continuousOn hh.continuousOn
  have hxd : ∀ t, HasDerivAt x (deriv x t) t := fun t => ((hx.differentiable (by simp)) t).hasDerivAt
  have cx' : ContDiff ℝ (⊤ : ℕ∞) (deriv x) := (contDiff_infty_iff_deriv.1 hx).2
  have pd : Function.Periodic (deriv x) T := fun t => by
    have h : (fun z => x (z + T)) = x := funext px
    have := deriv_comp_add_const (f := x) T t
    rw [h] at this
    exact this.symm
  have cX : ContDiff ℝ (⊤ : ℕ∞) (fun t => ((deriv x t : ℝ) : ℂ)) := Complex.ofRealCLM.contDiff.comp cx'
  have pX : Function.Periodic (fun t => ((deriv x t : ℝ) : ℂ)) T := fun t => by simp only [pd t]
  have ec : ∀ k, coef T (fun t => ((deriv x t : ℝ) : ℂ)) k = -(2 * Real.pi * I * k / T) * c k := fun k =>
    coef_deriv hT (f := fun t => ((x t : ℝ) : ℂ)) (fun t => (hxd t).ofReal_comp) cX.continuous (fun t => by simp only [px t]) k
  have sm := (summable_coef hT cX pX).norm
  obtain ⟨B, hB⟩ := periodic_bounded hT (f := fun t => ((x t : ℝ) : ℂ)) (Complex.continuous_ofReal.comp hx.continuous) (fun t => by simp only [px t])
  have hB0 : 0 ≤ B := (norm_nonneg _).trans (hB 0)
  have hcB : ∀ k, ‖c k‖ ≤ B := fun k => norm_coef_le hT hB k
  have hcw : ∀ k : ℤ, ‖coef T (fun t => ((deriv x t : ℝ) : ℂ)) k‖ = |2 * Real.pi * k / T| * ‖c k‖ := fun k => by
    rw [ec, norm_mul, norm_neg, show (2 * Real.pi * I * k / T : ℂ) = ((2 * Real.pi * k / T : ℝ) : ℂ) * I by push_cast; ring, norm_mul, norm_I, mul_one, norm_real, Real.norm_eq_abs]
  have key := hasSum_interval (F := fun (k : ℤ) (s : ℝ) => h s * (T * ‖c k‖ ^ 2 * (2 * Real.pi * k / T) * Real.sin (2 * Real.pi * k / T * s)))
    (f := fun s => h s * ∫ t in (0 : ℝ)..T, x t * deriv x (t - s)) (B := fun k => H * (T * B) * ‖coef T (fun t => ((deriv x t : ℝ) : ℂ)) k‖) (a := 0) (b := X)
    (fun k => by fun_prop)
    (fun k s hs => by
      have h1 := hH s (uIoc_subset_uIcc hs)
      rw [norm_mul, mul_assoc H]
      refine mul_le_mul h1 ?_ (norm_nonneg _) ((norm_nonneg _).trans h1)
      rw [hcw, norm_mul, norm_mul, norm_mul, Real.norm_eq_abs T, abs_of_pos hT, norm_pow, norm_norm, Real.norm_eq_abs (2 * Real.pi * k / T)]
      have hsin : ‖Real.sin (2 * Real.pi * k / T * s)‖ ≤ 1 := by rw [Real.norm_eq_abs]; exact Real.abs_sin_le_one _
      calc T * ‖c k‖ ^ 2 * |2 * Real.pi * k / T| * ‖Real.sin (2 * Real.pi * k / T * s)‖ ≤ T * ‖c k‖ ^ 2 * |2 * Real.pi * k / T| * 1 :=
            mul_le_mul_of_nonneg_left hsin (by positivity)
        _ = T * ‖c k‖ * (|2 * Real.pi * k / T| * ‖c k‖) := by ring
        _ ≤ T * B * (|2 * Real.pi * k / T| * ‖c k‖) := mul_le_mul_of_nonneg_right (mul_le_mul_of_nonneg_left (hcB k) hT.le) (by positivity))
    (sm.mul_left _) (fun s => (hasSum_corr hT hx px s).mul_left _)
  rw [drag_swap hh X T hx]
  have et : ∀ k : ℤ, ∫ s in (0 : ℝ)..X, h s * (T * ‖c k‖ ^ 2 * (2 * Real.pi * k / T) * Real.sin (2 * Real.pi * k / T * s)) =
      T * ‖c k‖ ^ 2 * ((2 * Real.pi * k / T) * ∫ s in (0 : ℝ)..X, h s * Real.sin (2 * Real.pi * k / T * s)) := fun k => by
    rw [← mul_assoc, ← intervalIntegral.integral_const_mul]
    congr 1
    funext s
    ring
  simpa only [et] using key

/-- the contribution of a line does not depend on the sign of its frequency -/
theorem line_nonneg {h : ℝ → ℝ} {X T : ℝ} (hS : ∀ m : ℕ, 0 < m → 0 ≤ (2 * Real.pi * m / T) * ∫ s in (0 : ℝ)..X, h s * Real.sin (2 * Real.pi * m / T * s)) (k : ℤ) :
    0 ≤ (2 * Real.pi * k / T) * ∫ s in (0 : ℝ)..X, h s * Real.sin (2 * Real.pi * k / T * s) := by
  rcases lt_trichotomy k 0 with hk | hk | hk
  · have := hS k.natAbs (by omega)
    have e : ((k.natAbs : ℕ) : ℝ) = -(k : ℝ) := by rw [Nat.cast_natAbs, abs_of_neg hk]; push_cast; rfl
    rw [e] at this
    have e2 : ∀ s : ℝ, h s * Real.sin (2 * Real.pi * -(k : ℝ) / T * s) = -(h s * Real.sin (2 * Real.pi * k / T * s)) := fun s => by
      rw [show 2 * Real.pi * -(k : ℝ) / T * s = -(2 * Real.pi * k / T * s) by ring, Real.sin_neg]; ring
    simp only [e2] at this
    rw [intervalIntegral.integral_neg] at this
    calc (0 : ℝ) ≤ _ := this
      _ = _ := by ring
  · simp [hk]
  · have := hS k.toNat (by omega)
    have e : ((k.toNat : ℕ) : ℝ) = (k : ℝ) := by exact_mod_cast Int.toNat_of_nonneg hk.le
    rwa [e] at this

/-- a memory whose sine transform is not negative on the grid of the window takes energy out of the carrier -/
theorem drag_nonneg {h : ℝ → ℝ} (hh : Continuous h) {X T : ℝ} (hT : 0 < T) (hS : ∀ m : ℕ, 0 < m → 0 ≤ ∫ s in (0 : ℝ)..X, h s * Real.sin (2 * Real.pi * m / T * s))
    {x : ℝ → ℝ} (hx : ContDiff ℝ (⊤ : ℕ∞) x) (px : Function.Periodic x T) : 0 ≤ drag h X T x := by
  refine (hasSum_drag hh X hT hx px).nonneg fun k => mul_nonneg (by positivity) (line_nonneg (fun m hm => mul_nonneg ?_ (hS m hm)) k)
  have := Real.pi_pos
  positivity

/-- strictly so unless the power is constant in time -/
theorem drag_pos {h : ℝ → ℝ} (hh : Continuous h) {X T : ℝ} (hT : 0 < T) (hS : ∀ m : ℕ, 0 < m → 0 < ∫ s in (0 : ℝ)..X, h s * Real.sin (2 * Real.pi * m / T * s))
    {x : ℝ → ℝ} (hx : ContDiff ℝ (⊤ : ℕ∞) x) (px : Function.Periodic x T) {t0 t1 : ℝ} (hne : x t0 ≠ x t1) : 0 < drag h X T x := by
  have hpi := Real.pi_pos
  have hS' : ∀ m : ℕ, 0 < m → 0 ≤ (2 * Real.pi * m / T) * ∫ s in (0 : ℝ)..X, h s * Real.sin (2 * Real.pi * m / T * s) := fun m hm =>
    mul_nonneg (by positivity) (hS m hm).le
  have hsum := hasSum_drag hh X hT hx px
  have hnn : ∀ k : ℤ, 0 ≤ T * ‖coef T (fun t => (x t : ℂ)) k‖ ^ 2 * ((2 * Real.pi * k / T) * ∫ s in (0 : ℝ)..X, h s * Real.sin (2 * Real.pi * k / T * s)) := fun k =>
    mul_nonneg (by positivity) (line_nonneg hS' k)
  by_contra hc
  have h0 : drag h X T x = 0 := le_antisymm (not_lt.1 hc) (hsum.nonneg hnn)
  rw [h0] at hsum
  have hz := (hasSum_zero_iff_of_nonneg hnn).1 hsum
  have hcz : ∀ k : ℤ, k ≠ 0 → coef T (fun t => (x t : ℂ)) k = 0 := fun k hk => by
    have e := congrFun hz k
    simp only [Pi.zero_apply] at e
    have hm : 0 < k.natAbs := by omega
    have hp : 0 < (2 * Real.pi * k / T) * ∫ s in (0 : ℝ)..X, h s * Real.sin (2 * Real.pi * k / T * s) := by
      have hv := mul_pos (show (0 : ℝ) < 2 * Real.pi * (k.natAbs : ℕ) / T by positivity) (hS k.natAbs hm)
      rcases lt_or_gt_of_ne hk with hk | hk
      · have e : ((k.natAbs : ℕ) : ℝ) = -(k : ℝ) := by rw [Nat.cast_natAbs, abs_of_neg hk]; push_cast; rfl
        rw [e] at hv
        have e2 : ∀ s : ℝ, h s * Real.sin (2 * Real.pi * -(k : ℝ) / T * s) = -(h s * Real.sin (2 * Real.pi * k / T * s)) := fun s => by
          rw [show 2 * Real.pi * -(k : ℝ) / T * s = -(2 * Real.pi * k / T * s) by ring, Real.sin_neg]; ring
        simp only [e2] at hv
        rw [intervalIntegral.integral_neg] at hv
        calc (0 : ℝ) < _ := hv
          _ = _ := by ring
      · have e : ((k.natAbs : ℕ) : ℝ) = (k : ℝ) := by rw [Nat.cast_natAbs, abs_of_pos hk]
        rwa [e] at hv
    have := (mul_eq_zero.1 e).resolve_right hp.ne'
    have := (mul_eq_zero.1 this).resolve_left hT.ne'
    simpa using this
  have hconst : ∀ t, (x t : ℂ) = coef T (fun t => (x t : ℂ)) 0 := fun t => by
    have h1 := hasSum_coef hT (f := fun t => (x t : ℂ)) (Complex.ofRealCLM.contDiff.comp hx) (fun t => by simp only [px t]) t
    have h2 := hasSum_single (f := fun k : ℤ => coef T (fun t => (x t : ℂ)) k * exp (-(2 * Real.pi * I * k * t / T))) 0 (fun k hk => by rw [hcz k hk, zero_mul])
    have := h1.unique h2
    simpa using this
  refine hne ?_
  have := (hconst t0).trans (hconst t1).symm
  exact_mod_cast this

end PyNLO.Nlse
