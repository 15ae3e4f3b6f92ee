import Verif.Props.NlseRaman

/-! # The equation without dispersion of second and higher order is solved in closed form -/

namespace PyNLO.Nlse

open Complex Set Polynomial MeasureTheory

/-- length that carries the same nonlinearity without gain -/
noncomputable def effLength (g z : ℝ) : ℝ := if g = 0 then z else (Real.exp (g * z) - 1) / g

theorem effLength_zero (g : ℝ) : effLength g 0 = 0 := by
  unfold effLength
  split_ifs <;> simp

theorem effLength_hasDerivAt (g z : ℝ) : HasDerivAt (effLength g) (Real.exp (g * z)) z := by
  by_cases hg : g = 0
  · have : effLength g = fun z => z := by funext z; simp [effLength, hg]
    rw [this, hg, zero_mul, Real.exp_zero]
    exact hasDerivAt_id z
  · have : effLength g = fun z => (Real.exp (g * z) - 1) / g := by funext z; simp [effLength, hg]
    rw [this]
    refine ((((hasDerivAt_id z).const_mul g).exp.sub_const 1).div_const g).congr_deriv ?_
    simp only [id]
    field_simp

theorem effLength_contDiff (g : ℝ) : ContDiff ℝ (⊤ : ℕ∞) (effLength g) := by
  by_cases hg : g = 0
  · have : effLength g = fun z => z := by funext z; simp [effLength, hg]
    rw [this]
    exact contDiff_id
  · have : effLength g = fun z => (Real.exp (g * z) - 1) / g := by funext z; simp [effLength, hg]
    rw [this]
    exact ((Real.contDiff_exp.comp (contDiff_const.mul contDiff_id)).sub contDiff_const).div_const _

/-- the response of the pulse at the input -/
noncomputable def resp0 (fR : ℝ) (h : ℝ → ℝ) (T : ℝ) (f : ℝ → ℂ) : ℝ → ℝ := response fR h T fun t => ‖f t‖ ^ 2

theorem resp0_contDiff (fR : ℝ) {h : ℝ → ℝ} (hh : Continuous h) (T : ℝ) {f : ℝ → ℂ} (hf : ContDiff ℝ (⊤ : ℕ∞) f) : ContDiff ℝ (⊤ : ℕ∞) (resp0 fR h T f) := by
  have hP : ContDiff ℝ (⊤ : ℕ∞) fun t => ‖f t‖ ^ 2 := hf.norm_sq ℝ
  unfold resp0 response
  exact (contDiff_const.mul hP).add (contDiff_const.mul ((smooth_conv hh (T / 2) hP).div_const _))

theorem resp0_periodic (fR : ℝ) (h : ℝ → ℝ) (T : ℝ) {f : ℝ → ℂ} (hper : Function.Periodic f T) : Function.Periodic (resp0 fR h T f) T := fun t => by
  have e1 : ∀ s, f (t + T - s) = f (t - s) := fun s => by
    rw [show t + T - s = t - s + T by ring, hper]
  simp only [resp0, response, hper t, e1]

/-- the phase and the logarithm of the amplitude -/
noncomputable def phase (β0 g γ : ℝ) (q z : ℝ) : ℂ := I * ((β0 * z : ℝ) : ℂ) + ((g / 2 * z : ℝ) : ℂ) + I * ((γ * effLength g z * q : ℝ) : ℂ)

/-- the pulse moves, grows and is modulated -/
noncomputable def flat (β0 β1 g γ fR : ℝ) (h : ℝ → ℝ) (T : ℝ) (f : ℝ → ℂ) (z t : ℝ) : ℂ :=
  f (t - β1 * z) * exp (phase β0 g γ (resp0 fR h T f (t - β1 * z)) z)

theorem norm_flat (β0 β1 g γ fR : ℝ) (h : ℝ → ℝ) (T : ℝ) (f : ℝ → ℂ) (z t : ℝ) :
    ‖flat β0 β1 g γ fR h T f z t‖ ^ 2 = Real.exp (g * z) * ‖f (t - β1 * z)‖ ^ 2 := by
  unfold flat phase
  rw [norm_mul, mul_pow, Complex.norm_exp, ← Real.exp_nat_mul, mul_comm]
  congr 2
  simp
  ring

theorem response_flat (β0 β1 g γ fR : ℝ) (h : ℝ → ℝ) (T : ℝ) (f : ℝ → ℂ) (z t : ℝ) :
    response fR h T (fun t => ‖flat β0 β1 g γ fR h T f z t‖ ^ 2) t = Real.exp (g * z) * resp0 fR h T f (t - β1 * z) := by
  unfold resp0 response
  simp only [norm_flat]
  have e : ∀ s, h s * (Real.exp (g * z) * ‖f (t - s - β1 * z)‖ ^ 2) = Real.exp (g * z) * (h s * ‖f (t - β1 * z - s)‖ ^ 2) := fun s => by
    rw [show t - s - β1 * z = t - β1 * z - s by ring]
    ring
  simp only [e]
  rw [intervalIntegral.integral_const_mul]
  ring

theorem dispersion_affine (β0 β1 : ℝ) (f : ℝ → ℂ) (t : ℝ) : dispersion (C β1 * X + C β0) f t = I * β0 * f t - β1 * _root_.deriv f t := by
  unfold dispersion
  rw [sum_over_range' _ (fun n => by simp) 2 (lt_of_le_of_lt (natDegree_linear_le) (by norm_num))]
  rw [Finset.sum_range_succ, Finset.sum_range_one]
  simp only [coeff_add, coeff_C_mul, coeff_X_zero, coeff_X_one, coeff_C_zero, mul_zero, zero_add, mul_one, pow_zero, iteratedDeriv_zero, pow_one, iteratedDeriv_one]
  rw [coeff_C_ne_zero one_ne_zero, add_zero]
  linear_combination (β1 * _root_.deriv f t) * I_mul_I

theorem flat_solution (β0 β1 g γ fR : ℝ) {h : ℝ → ℝ} (hh : Continuous h) (T L : ℝ) {f : ℝ → ℂ} (hf : ContDiff ℝ (⊤ : ℕ∞) f) (hper : Function.Periodic f T) :
    Solution (C β1 * X + C β0) g γ fR h T L (flat β0 β1 g γ fR h T f) ∧ flat β0 β1 g γ fR h T f 0 = f := by
  have hq := resp0_contDiff fR hh T hf
  refine ⟨⟨?_, ?_, ?_⟩, ?_⟩
  · have hs : ContDiff ℝ (⊤ : ℕ∞) fun p : ℝ × ℝ => p.2 - β1 * p.1 := contDiff_snd.sub (contDiff_const.mul contDiff_fst)
    have hl := (effLength_contDiff g).comp (contDiff_fst (𝕜 := ℝ) (E := ℝ) (F := ℝ))
    have p1 : ContDiff ℝ (⊤ : ℕ∞) fun p : ℝ × ℝ => β0 * p.1 := contDiff_const.mul contDiff_fst
    have p2 : ContDiff ℝ (⊤ : ℕ∞) fun p : ℝ × ℝ => g / 2 * p.1 := contDiff_const.mul contDiff_fst
    have p3 : ContDiff ℝ (⊤ : ℕ∞) fun p : ℝ × ℝ => γ * effLength g p.1 * resp0 fR h T f (p.2 - β1 * p.1) := (contDiff_const.mul hl).mul (hq.comp hs)
    unfold flat phase
    exact (hf.comp hs).mul ((((contDiff_const.mul (Complex.ofRealCLM.contDiff.comp p1)).add (Complex.ofRealCLM.contDiff.comp p2)).add
      (contDiff_const.mul (Complex.ofRealCLM.contDiff.comp p3))).cexp)
  · intro z t
    unfold flat
    rw [show t + T - β1 * z = t - β1 * z + T by ring, hper, resp0_periodic fR h T hper]
  · intro z _ _ t
    rw [response_flat, dispersion_affine]
    have hf' : HasDerivAt f (_root_.deriv f (t - β1 * z)) (t - β1 * z) := (hf.differentiable (by norm_num) _).hasDerivAt
    have hq' : HasDerivAt (resp0 fR h T f) (_root_.deriv (resp0 fR h T f) (t - β1 * z)) (t - β1 * z) := (hq.differentiable (by norm_num) _).hasDerivAt
    set F := _root_.deriv f (t - β1 * z)
    set Q := _root_.deriv (resp0 fR h T f) (t - β1 * z)
    set q := resp0 fR h T f (t - β1 * z) with hqd
    set E := exp (phase β0 g γ q z) with hE
    have ht : HasDerivAt (fun t : ℝ => t - β1 * z) 1 t := (hasDerivAt_id t).sub_const _
    have hz : HasDerivAt (fun z : ℝ => t - β1 * z) (-β1) z := by
      refine (((hasDerivAt_id z).const_mul β1).const_sub t).congr_deriv ?_
      ring
    -- slope in time
    have d1 : HasDerivAt (flat β0 β1 g γ fR h T f z) (F * E + f (t - β1 * z) * (E * (I * ((γ * effLength g z * Q : ℝ) : ℂ)))) t := by
      have a1 : HasDerivAt (fun t => f (t - β1 * z)) F t := (hf'.scomp t ht).congr_deriv (by simp)
      have a2 : HasDerivAt (fun t => resp0 fR h T f (t - β1 * z)) Q t := (hq'.comp t ht).congr_deriv (by simp)
      have a3 : HasDerivAt (fun t => phase β0 g γ (resp0 fR h T f (t - β1 * z)) z) (I * ((γ * effLength g z * Q : ℝ) : ℂ)) t :=
        ((((a2.const_mul (γ * effLength g z)).ofReal_comp.const_mul I).const_add (I * ((β0 * z : ℝ) : ℂ) + ((g / 2 * z : ℝ) : ℂ))))
      exact a1.fun_mul a3.cexp
    rw [d1.deriv]
    have b1 : HasDerivAt (fun z => f (t - β1 * z)) ((-β1 : ℝ) • F) z := hf'.scomp z hz
    have b2 : HasDerivAt (fun z => resp0 fR h T f (t - β1 * z)) (Q * (-β1)) z := hq'.comp z hz
    have b3 : HasDerivAt (fun z => phase β0 g γ (resp0 fR h T f (t - β1 * z)) z)
        (I * ((β0 * 1 : ℝ) : ℂ) + ((g / 2 * 1 : ℝ) : ℂ) + I * ((γ * Real.exp (g * z) * q + γ * effLength g z * (Q * (-β1)) : ℝ) : ℂ)) z :=
      ((((hasDerivAt_id z).const_mul β0).ofReal_comp.const_mul I).fun_add (((hasDerivAt_id z).const_mul (g / 2)).ofReal_comp)).fun_add
        (((((effLength_hasDerivAt g z).const_mul γ).fun_mul b2).ofReal_comp).const_mul I)
    refine (b1.fun_mul b3.cexp).congr_deriv ?_
    have e : flat β0 β1 g γ fR h T f z t = f (t - β1 * z) * E := rfl
    rw [e, ← hqd, ← hE, real_smul]
    push_cast
    ring
  · funext t
    unfold flat phase
    simp [effLength_zero]

end PyNLO.Nlse
