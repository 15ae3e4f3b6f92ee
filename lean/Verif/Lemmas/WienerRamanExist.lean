import Verif.Lemmas.WienerResonance

/-! # Existence for all distances and every order of dispersion, with delayed response -/

namespace PyNLO.Wiener

open Complex Set Filter Topology MeasureTheory Polynomial

/-- delayed part of the response at frequency `k` -/
noncomputable def delayed (fR : ℝ) (h : ℝ → ℝ) (T : ℝ) (k : ℤ) : ℂ :=
  fR * ((∫ s in (0 : ℝ)..T / 2, (h s : ℂ) * exp (2 * Real.pi * I * k * s / T)) / ∫ s in (0 : ℝ)..T / 2, (h s : ℂ))

theorem spectrum_eq (fR : ℝ) (h : ℝ → ℝ) (T : ℝ) : spectrum fR h T = fun k => ((1 - fR : ℝ) : ℂ) + delayed fR h T k := by
  funext k
  unfold spectrum delayed
  push_cast
  rfl

theorem delayed_le (fR : ℝ) (h : ℝ → ℝ) {T : ℝ} (hT : 0 < T) (k : ℤ) : ‖delayed fR h T k‖ ≤ strength fR h T + |1 - fR| := by
  have h1 := spectrum_le fR h hT k
  rw [spectrum_eq] at h1
  have h2 : delayed fR h T k = (((1 - fR : ℝ) : ℂ) + delayed fR h T k) - ((1 - fR : ℝ) : ℂ) := by ring
  rw [h2]
  refine (norm_sub_le _ _).trans (add_le_add h1 ?_)
  rw [Complex.norm_real, Real.norm_eq_abs]

theorem delayed_neg (fR : ℝ) (h : ℝ → ℝ) {T : ℝ} (hT : 0 < T) (k : ℤ) : delayed fR h T (-k) = (starRingEnd ℂ) (delayed fR h T k) := by
  have e : (starRingEnd ℂ) (∫ s in (0 : ℝ)..T / 2, (h s : ℂ) * exp (2 * Real.pi * I * k * s / T)) =
      ∫ s in (0 : ℝ)..T / 2, (h s : ℂ) * exp (2 * Real.pi * I * ((-k : ℤ) : ℂ) * s / T) := by
    rw [intervalIntegral.integral_of_le (by positivity), intervalIntegral.integral_of_le (by positivity), ← integral_conj]
    refine integral_congr_ae (Eventually.of_forall fun s => ?_)
    show (starRingEnd ℂ) ((h s : ℂ) * exp (2 * Real.pi * I * k * s / T)) = _
    rw [map_mul, Complex.conj_ofReal, ← Complex.exp_conj]
    congr 2
    simp only [map_div₀, map_mul, Complex.conj_ofReal, Complex.conj_I, map_intCast, map_ofNat]
    push_cast
    ring
  unfold delayed
  rw [map_mul, map_div₀, Complex.conj_ofReal, e, intervalIntegral.integral_ofReal, Complex.conj_ofReal]

/-- a smooth kernel responds at most like `1/frequency` -/
theorem delayed_decay (fR : ℝ) {h : ℝ → ℝ} (hh : ContDiff ℝ 1 h) {T : ℝ} (hT : 0 < T) : ∃ R : ℝ, ∀ k : ℤ, |(k : ℝ)| * ‖delayed fR h T k‖ ≤ R := by
  have hpi := Real.pi_pos
  have hd : Continuous (_root_.deriv h) := hh.continuous_deriv le_rfl
  let A : ℝ := |h (T / 2)| + |h 0| + ∫ s in (0 : ℝ)..T / 2, |_root_.deriv h s|
  let S : ℝ := ‖∫ s in (0 : ℝ)..T / 2, (h s : ℂ)‖
  refine ⟨|fR| * (T / (2 * Real.pi) * A / S), fun k => ?_⟩
  let e : ℝ → ℂ := fun s => exp (2 * Real.pi * I * k * s / T)
  have hen : ∀ s, ‖e s‖ = 1 := fun s => by
    simp only [e]
    rw [show 2 * Real.pi * I * k * s / T = ((2 * Real.pi * k * s / T : ℝ) : ℂ) * I by push_cast; ring, Complex.norm_exp_ofReal_mul_I]
  have he : ∀ s : ℝ, HasDerivAt e (2 * Real.pi * I * k / T * e s) s := by
    intro s
    have h1 : HasDerivAt (fun s : ℝ => 2 * Real.pi * I * k * (s : ℂ) / T) (2 * Real.pi * I * k / T) s := by
      have := ((hasDerivAt_id s).ofReal_comp.const_mul (2 * Real.pi * I * k)).div_const (T : ℂ)
      simpa using this
    exact h1.cexp.congr_deriv (mul_comm _ _)
  have hec : Continuous e := continuous_iff_continuousAt.2 fun s => (he s).continuousAt
  have hk : (2 * Real.pi * I * k / T : ℂ) * ∫ s in (0 : ℝ)..T / 2, (h s : ℂ) * e s =
      (h (T / 2) : ℂ) * e (T / 2) - h 0 * e 0 - ∫ s in (0 : ℝ)..T / 2, ((_root_.deriv h s : ℝ) : ℂ) * e s := by
    have := intervalIntegral.integral_mul_deriv_eq_deriv_mul (a := 0) (b := T / 2) (u := fun s => (h s : ℂ)) (u' := fun s => ((_root_.deriv h s : ℝ) : ℂ))
      (v := e) (v' := fun s => 2 * Real.pi * I * k / T * e s) (fun s _ => ((hh.differentiable one_ne_zero s).hasDerivAt).ofReal_comp) (fun s _ => he s)
      ((Complex.continuous_ofReal.comp hd).intervalIntegrable _ _) ((continuous_const.mul hec).intervalIntegrable _ _)
    rw [← this, ← intervalIntegral.integral_const_mul]
    refine intervalIntegral.integral_congr fun s _ => ?_
    show _ * (_ * _) = _ * (_ * _)
    ring
  have hb : ‖(h (T / 2) : ℂ) * e (T / 2) - h 0 * e 0 - ∫ s in (0 : ℝ)..T / 2, ((_root_.deriv h s : ℝ) : ℂ) * e s‖ ≤ A := by
    refine (norm_sub_le _ _).trans (add_le_add ((norm_sub_le _ _).trans (le_of_eq ?_)) ?_)
    · rw [norm_mul, norm_mul, hen, hen, mul_one, mul_one, Complex.norm_real, Complex.norm_real, Real.norm_eq_abs, Real.norm_eq_abs]
    · refine (intervalIntegral.norm_integral_le_integral_norm (by positivity)).trans (le_of_eq ?_)
      refine intervalIntegral.integral_congr fun s _ => ?_
      show ‖((_root_.deriv h s : ℝ) : ℂ) * e s‖ = _
      rw [norm_mul, hen, mul_one, Complex.norm_real, Real.norm_eq_abs]
  rw [← hk, norm_mul] at hb
  have hn : ‖(2 * Real.pi * I * k / T : ℂ)‖ = 2 * Real.pi / T * |(k : ℝ)| := by
    rw [show (2 * Real.pi * I * k / T : ℂ) = ((2 * Real.pi / T * k : ℝ) : ℂ) * I by push_cast; ring, norm_mul, Complex.norm_I, mul_one, Complex.norm_real,
      Real.norm_eq_abs, abs_mul, abs_of_nonneg (by positivity : 0 ≤ 2 * Real.pi / T)]
  rw [hn] at hb
  unfold delayed
  rw [norm_mul, norm_div, Complex.norm_real, Real.norm_eq_abs]
  show |(k : ℝ)| * (|fR| * (‖∫ s in (0 : ℝ)..T / 2, (h s : ℂ) * e s‖ / S)) ≤ _
  have h2 : |(k : ℝ)| * ‖∫ s in (0 : ℝ)..T / 2, (h s : ℂ) * e s‖ ≤ T / (2 * Real.pi) * A := by
    have := mul_le_mul_of_nonneg_left hb (by positivity : 0 ≤ T / (2 * Real.pi))
    refine le_trans (le_of_eq ?_) this
    field_simp
  calc |(k : ℝ)| * (|fR| * (‖∫ s in (0 : ℝ)..T / 2, (h s : ℂ) * e s‖ / S)) = |fR| * (|(k : ℝ)| * ‖∫ s in (0 : ℝ)..T / 2, (h s : ℂ) * e s‖ / S) := by ring
    _ ≤ _ := mul_le_mul_of_nonneg_left (div_le_div_of_nonneg_right h2 (norm_nonneg _)) (abs_nonneg _)

/-- every smooth periodic pulse has a smooth solution over every distance, with delayed response -/
theorem exists_nlse_order {b : ℝ[X]} (hd : 2 ≤ b.natDegree) (g γ fR : ℝ) {h : ℝ → ℝ} (hh : ContDiff ℝ 1 h) {T : ℝ} (hT : 0 < T)
    {f : ℝ → ℂ} (hf : ContDiff ℝ (⊤ : ℕ∞) f) (hp : Function.Periodic f T) {L : ℝ} (hL : 0 ≤ L) :
    ∃ u, Nlse.Solution b g γ fR h T L u ∧ u 0 = f := by
  obtain ⟨μ, N, M, hq⟩ := exists_kernel hd hT
  obtain ⟨R, hR⟩ := delayed_decay fR hh hT
  obtain ⟨B, hM⟩ := exists_boundN (betas_tempered b hT) hq (bounded_tempered (delayed_le fR h hT)) (spectrum_eq fR h T) (spectrum_le fR h hT)
    (delayed_neg fR h hT) hR g γ (Series.coef T f) L
  obtain ⟨a, d, c, ha, hd', hc, h0⟩ := exists_of_bound (b := betas b T) (r := spectrum fR h T) (g := g) (γ := γ) (K := strength fR h T) (spectrum_le fR h hT)
    (rapid_coef hT hf hp) hM
  obtain ⟨u, hu, hv, -⟩ := hc.solution hT (hh.continuous.intervalIntegrable 0 (T / 2)) ha hL hd'
  refine ⟨u, hu, funext fun t => ?_⟩
  rw [hv 0 ⟨le_rfl, hL⟩]
  unfold series
  simp only [h0]
  exact (Series.hasSum_coef hT hf hp t).tsum_eq

end PyNLO.Wiener
