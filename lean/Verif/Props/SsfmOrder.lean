import Verif.Lemmas.SsfmRhs
import Verif.Props.SsfmCtrl
import Mathlib.Analysis.ODE.ExistUnique
import Mathlib.Tactic.FinCases

/-! # C114, C115: the equation behind `NonlinearOperator` and the order of one adaptive step -/

namespace PyNLO

open Complex Ssfm Filter Asymptotics
open scoped Topology ContDiff

variable {n : ℕ}

/-! ## C115 -/

theorem ddt_induced (p : Params n) (A : Fin n → ℂ) :
    applySpec p.R (applySpec (fun k => -1 * I * p.omegas k) (absSq A)) = Gnlse.ddt p.omegas (Gnlse.induced p.R A) := by
  rw [induced_eq, Gnlse.ddt, ← applySpec_eq_spectral, applySpec_applySpec, applySpec_applySpec]
  congr 1
  funext k
  ring

theorem ddt_field (p : Params n) (A : Fin n → ℂ) : applySpec (fun k => -1 * I * p.omegas k) A = Gnlse.ddt p.omegas A := by
  rw [Gnlse.ddt, ← applySpec_eq_spectral]
  congr 1
  funext k
  ring

/-- C115 without self-steepening: the nonlinear operator times the field is the Kerr and Raman term of the equation. -/
theorem C115_kerr {p : Params n} (h : p.disableSS = true) (A : Fin n → ℂ) (j : Fin n) :
    nonlinear p A j * A j = Gnlse.kerr p.R p.gamma A j := by
  have := congrFun (nonPart_kerr h 1 A) j
  simpa [nonPart] using this

theorem nonlinear_steep {p : Params n} (h : p.disableSS = false) (A : Fin n → ℂ) (j : Fin n) (hj : 10 ^ (-15 : ℤ) < ‖A j‖) :
    nonlinear p A j * A j = Gnlse.kerr p.R p.gamma A j + Gnlse.steepeningReg (10 ^ (-20 : ℤ)) p.R p.gamma p.w0 p.omegas A j := by
  rw [nonlinear_eq, if_neg (by simp [h]), ddt_induced, ddt_field, ← induced_eq]
  simp only [gt_iff_lt, if_pos hj, Gnlse.kerr, Gnlse.steepeningReg]
  ring

/-- C115 with self-steepening, where the field exceeds the threshold: Kerr, Raman and self-steepening terms, the last up to a
relative error of about 1e-5 from the regularised division. -/
theorem C115_steepening {p : Params n} (h : p.disableSS = false) (A : Fin n → ℂ) (j : Fin n) (hj : 10 ^ (-15 : ℤ) < ‖A j‖) :
    ‖nonlinear p A j * A j - (Gnlse.kerr p.R p.gamma A j + Gnlse.steepening p.R p.gamma p.w0 p.omegas A j)‖ ≤
      1.0001e-5 * (|p.gamma / p.w0| * ‖Gnlse.induced p.R A j‖ * ‖Gnlse.ddt p.omegas A j‖) := by
  have hn : (0 : ℝ) < ‖(10 : ℂ) ^ (-20 : ℤ) + A j‖ ∧ ‖(10 : ℂ) ^ (-20 : ℤ)‖ / ‖(10 : ℂ) ^ (-20 : ℤ) + A j‖ ≤ 1.0001e-5 := by
    have e : ‖(10 : ℂ) ^ (-20 : ℤ)‖ = (10 : ℝ) ^ (-20 : ℤ) := by rw [norm_zpow]; norm_num
    have h1 : (10 : ℝ) ^ (-15 : ℤ) - 10 ^ (-20 : ℤ) < ‖(10 : ℂ) ^ (-20 : ℤ) + A j‖ := by
      have := norm_sub_norm_le (A j) (-(10 : ℂ) ^ (-20 : ℤ))
      rw [norm_neg, e, sub_neg_eq_add, add_comm (A j)] at this
      linarith
    have h2 : (0 : ℝ) < 10 ^ (-15 : ℤ) - 10 ^ (-20 : ℤ) := by norm_num
    refine ⟨h2.trans h1, ?_⟩
    rw [e, div_le_iff₀ (h2.trans h1)]
    refine le_trans ?_ (mul_le_mul_of_nonneg_left h1.le (by norm_num))
    norm_num
  have hne : (10 : ℂ) ^ (-20 : ℤ) + A j ≠ 0 := norm_pos_iff.1 hn.1
  rw [nonlinear_steep h A j hj]
  have e : Gnlse.kerr p.R p.gamma A j + Gnlse.steepeningReg (10 ^ (-20 : ℤ)) p.R p.gamma p.w0 p.omegas A j -
      (Gnlse.kerr p.R p.gamma A j + Gnlse.steepening p.R p.gamma p.w0 p.omegas A j) =
      ((p.gamma / p.w0 : ℝ) : ℂ) * Gnlse.induced p.R A j * Gnlse.ddt p.omegas A j * ((10 : ℂ) ^ (-20 : ℤ) / ((10 : ℂ) ^ (-20 : ℤ) + A j)) := by
    have e2 : A j / ((10 : ℂ) ^ (-20 : ℤ) + A j) = 1 - (10 : ℂ) ^ (-20 : ℤ) / ((10 : ℂ) ^ (-20 : ℤ) + A j) := by
      rw [eq_sub_iff_add_eq, ← add_div, add_comm, div_self hne]
    simp only [Gnlse.steepeningReg, Gnlse.steepening, e2]
    ring
  rw [e, norm_mul, norm_mul, norm_mul, norm_div, norm_real, Real.norm_eq_abs, mul_comm]
  exact mul_le_mul_of_nonneg_right hn.2 (by positivity)

/-- C115 at samples at or below the threshold: the term `(R∗|A|²)·∂ₜA` of the self-steepening is missing. -/
theorem C115_threshold {p : Params n} (h : p.disableSS = false) (A : Fin n → ℂ) (j : Fin n) (hj : ‖A j‖ ≤ 10 ^ (-15 : ℤ)) :
    nonlinear p A j * A j = Gnlse.kerr p.R p.gamma A j + Gnlse.steepening p.R p.gamma p.w0 p.omegas A j +
      ((p.gamma / p.w0 : ℝ) : ℂ) * (Gnlse.induced p.R A j * Gnlse.ddt p.omegas A j) := by
  rw [nonlinear_eq, if_neg (by simp [h]), ddt_induced, ← induced_eq]
  simp only [gt_iff_lt, if_neg (not_lt.2 hj), Gnlse.kerr, Gnlse.steepening]
  ring

/-- parameters with a delayed response only -/
noncomputable def delayedParams : Params 2 where
  betas _ := 0
  alpha _ := 0
  omegas k := (k : ℕ)
  R k := if k = 0 then 1 else 0
  gamma := 1
  w0 := 1
  disableSS := false
  method := .rk4ip
  eta := 5
  localError := 0.001
  dzMin := 10 ^ (-12 : ℤ)

/-- C115 is false at zeros of the field: there the operator times the field vanishes, the equation's right-hand side does not. -/
theorem C115_threshold_refuted : ∃ (p : Params 2) (A : Fin 2 → ℂ), p.disableSS = false ∧ nonlinear p A 0 * A 0 = 0 ∧
    Gnlse.kerr p.R p.gamma A 0 + Gnlse.steepening p.R p.gamma p.w0 p.omegas A 0 ≠ 0 := by
  refine ⟨delayedParams, ![0, 1], rfl, by simp, ?_⟩
  have hr : rootE 2 1 = -1 := by
    unfold rootE
    rw [show (2 * (Real.pi : ℂ) * I * ((1 : ℤ) / (2 : ℕ))) = Real.pi * I by push_cast; ring, exp_pi_mul_I]
  have hi : Gnlse.induced delayedParams.R ![0, 1] 0 = 1 / 2 := by
    simp [Gnlse.induced, Gnlse.spectral, fft, ifft, delayedParams, rootE_zero]
  have hd : Gnlse.ddt delayedParams.omegas ![0, 1] 0 = I / 2 := by
    simp [Gnlse.ddt, Gnlse.spectral, fft, ifft, delayedParams, rootE_zero, hr]
    ring
  simp only [Gnlse.kerr, Gnlse.steepening, hi, hd]
  simp [delayedParams, I_ne_zero]

/-! ## C114 -/

/-- the equation of the integrator in a neighbourhood of the start -/
theorem solves_parts {p : Params n} (dir : ℝ) {A : Fin n → ℂ} {Y : ℝ → Fin n → ℂ} (hY0 : Y 0 = A)
    (h : (p.disableSS = true ∧ ∀ᶠ z in 𝓝 (0 : ℝ), HasDerivAt Y (dir • (Gnlse.dispersive p.betas p.alpha (Y z) + Gnlse.kerr p.R p.gamma (Y z))) z) ∨
      (p.disableSS = false ∧ (∀ j, 10 ^ (-15 : ℤ) < ‖A j‖) ∧ ∀ᶠ z in 𝓝 (0 : ℝ), HasDerivAt Y (dir • (Gnlse.dispersive p.betas p.alpha (Y z) +
        (Gnlse.kerr p.R p.gamma (Y z) + Gnlse.steepeningReg (10 ^ (-20 : ℤ)) p.R p.gamma p.w0 p.omegas (Y z)))) z)) :
    ContDiffAt ℝ ω (nonPart p dir) A ∧ ∀ᶠ z in 𝓝 (0 : ℝ), HasDerivAt Y (applySpec (linPart p dir) (Y z) + nonPart p dir (Y z)) z := by
  rcases h with ⟨hs, h⟩ | ⟨hs, hA, h⟩
  · refine ⟨nonPart_contDiffAt dir (Or.inl hs), ?_⟩
    filter_upwards [h] with z hz
    rwa [linPart_eq, nonPart_kerr hs, ← smul_add]
  · refine ⟨nonPart_contDiffAt dir (Or.inr hA), ?_⟩
    have hc : ContinuousAt Y 0 := h.self_of_nhds.continuousAt
    have hopen : ∀ᶠ z in 𝓝 (0 : ℝ), ∀ j, 10 ^ (-15 : ℤ) < ‖Y z j‖ := by
      rw [eventually_all]
      intro j
      have hc' : ContinuousAt (fun z => ‖Y z j‖) 0 := ((continuous_apply j).continuousAt.comp hc).norm
      refine hc'.eventually (lt_mem_nhds ?_)
      show 10 ^ (-15 : ℤ) < ‖Y 0 j‖
      rw [hY0]
      exact hA j
    filter_upwards [h, hopen] with z hz ho
    have e : nonPart p dir (Y z) =
        dir • (Gnlse.kerr p.R p.gamma (Y z) + Gnlse.steepeningReg (10 ^ (-20 : ℤ)) p.R p.gamma p.w0 p.omegas (Y z)) := by
      funext j
      have := nonlinear_steep hs (Y z) j (ho j)
      simp only [nonPart, mul_assoc, this, Pi.smul_apply, real_smul, Pi.add_apply]
    rwa [linPart_eq, e, ← smul_add]

/-- `Y` starts at `A` and satisfies, near the start, the equation for the parameters `p`: dispersion, loss, Kerr and Raman terms,
and with self-steepening also that term (regularised; no sample of `A` may lie below the threshold). -/
def Follows (p : Params n) (dir : ℝ) (A : Fin n → ℂ) (Y : ℝ → Fin n → ℂ) : Prop :=
  Y 0 = A ∧
  ((p.disableSS = true ∧ ∀ᶠ z in 𝓝 (0 : ℝ), HasDerivAt Y (dir • (Gnlse.dispersive p.betas p.alpha (Y z) + Gnlse.kerr p.R p.gamma (Y z))) z) ∨
    (p.disableSS = false ∧ (∀ j, 10 ^ (-15 : ℤ) < ‖A j‖) ∧ ∀ᶠ z in 𝓝 (0 : ℝ), HasDerivAt Y (dir • (Gnlse.dispersive p.betas p.alpha (Y z) +
      (Gnlse.kerr p.R p.gamma (Y z) + Gnlse.steepeningReg (10 ^ (-20 : ℤ)) p.R p.gamma p.w0 p.omegas (Y z)))) z))

theorem Follows.orders {p : Params n} {dir : ℝ} {A : Fin n → ℂ} {Y : ℝ → Fin n → ℂ} (hm : p.method = .rk4ip) (h : Follows p dir A Y) :
    ((fun H => Ssfm.Spec.adv p dir H A - Y H) =O[𝓝 0] fun H : ℝ => H ^ 5) ∧
    ((fun H => Ssfm.Spec.adv p dir (H / 2) (Ssfm.Spec.adv p dir (H / 2) A) - Y H) =O[𝓝 0] fun H : ℝ => H ^ 5) ∧
    ((fun H => richardson 5 (Ssfm.Spec.adv p dir (H / 2) (Ssfm.Spec.adv p dir (H / 2) A)) (Ssfm.Spec.adv p dir H A) - Y H) =O[𝓝 0]
      fun H : ℝ => H ^ 6) := by
  obtain ⟨h1, h2⟩ := solves_parts dir h.1 h.2
  have h3 := ipStep_orders h1 h.1 h2
  simpa only [adv_eq hm, richardson_five] using h3

/-- C114: one step of `Advance` with the method RK4IP has a local error of fifth order in the step: the method is of order four. -/
theorem C114_step {p : Params n} {dir : ℝ} {A : Fin n → ℂ} {Y : ℝ → Fin n → ℂ} (hm : p.method = .rk4ip) (h : Follows p dir A Y)
    {c : Cache n} (hc : CacheOK p c) : (fun H => (advance p A H dir c).1 - Y H) =O[𝓝 0] fun H : ℝ => H ^ 5 := by
  refine (h.orders hm).1.congr' ?_ EventuallyEq.rfl
  have : ∀ᶠ H in 𝓝 (0 : ℝ), H ≠ -1 := isOpen_ne.mem_nhds (by norm_num)
  filter_upwards [this] with H hH
  rw [(advance_spec hc hH A dir).1]

theorem scale_bound {f : ℝ → Fin n → ℂ} {k : ℕ} (h : f =O[𝓝 0] fun H : ℝ => H ^ k) :
    ∃ C, ∀ᶠ x in 𝓝[>] (0 : ℝ), ‖f (2 * x)‖ ≤ C * x ^ k := by
  obtain ⟨C, hC⟩ := h.bound
  refine ⟨C * 2 ^ k, ?_⟩
  have ht : Tendsto (fun x : ℝ => 2 * x) (𝓝[>] 0) (𝓝 0) := by
    have : Tendsto (fun x : ℝ => 2 * x) (𝓝 0) (𝓝 (2 * 0)) := (continuous_const.mul continuous_id).tendsto 0
    rw [mul_zero] at this
    exact this.mono_left nhdsWithin_le_nhds
  filter_upwards [ht.eventually hC, self_mem_nhdsWithin] with x hx h0
  have h0' : (0 : ℝ) < x := h0
  refine hx.trans (le_of_eq ?_)
  rw [norm_pow, Real.norm_eq_abs, abs_of_pos (by positivity), mul_pow]
  ring

/-- C114: an iteration of the adaptive loop with step `h` either rejects the step and leaves the field alone, or accepts it; the
accepted field differs from the exact solution at distance `2h` by at most `C·h⁶` for the default extrapolation (`eta = 5`). -/
theorem C114_accepted {p : Params n} {dir : ℝ} {A : Fin n → ℂ} {Y : ℝ → Fin n → ℂ} (hm : p.method = .rk4ip) (he : p.eta = 5)
    (h : Follows p dir A Y) : ∃ C, ∀ᶠ x in 𝓝[>] (0 : ℝ), ∀ (c : Cache n) (it : ℕ) (dist : ℝ) (ret : Option ℝ), CacheOK p c →
      ((loopBody p dir ⟨A, c, it, ⟨x, dist, ret⟩⟩).iter = it ∧ (loopBody p dir ⟨A, c, it, ⟨x, dist, ret⟩⟩).A = A) ∨
      ((loopBody p dir ⟨A, c, it, ⟨x, dist, ret⟩⟩).iter = it + 1 ∧ ‖(loopBody p dir ⟨A, c, it, ⟨x, dist, ret⟩⟩).A - Y (2 * x)‖ ≤ C * x ^ 6) := by
  obtain ⟨C, hC⟩ := scale_bound (h.orders hm).2.2
  refine ⟨C, ?_⟩
  filter_upwards [hC, self_mem_nhdsWithin] with x hx h0 c it dist ret hc
  have hs := (loopBody_spec (dir := dir) (s := ⟨A, c, it, ⟨x, dist, ret⟩⟩) hc h0).1
  have hA := congrArg Ssfm.Spec.St.A hs
  have hi := congrArg Ssfm.Spec.St.iter hs
  simp only [toSt, Ssfm.Spec.body] at hA hi
  rw [hA, hi]
  have e2 : 2 * x / 2 = x := by ring
  rw [e2] at hx
  rcases ctrlBody_cases p.cfg ⟨x, dist, ret⟩ (.val (Ssfm.Spec.stErr (Ssfm.Spec.adv p dir) ⟨A, it, ⟨x, dist, ret⟩⟩)) with
    ⟨h1, -⟩ | ⟨dz, -, h1, -⟩
  · rw [h1]
    exact Or.inl ⟨rfl, rfl⟩
  · rw [h1]
    refine Or.inr ⟨rfl, ?_⟩
    simp only [he]
    exact hx

/-- C114: the error estimate that drives the step control is of fifth order. -/
theorem C114_estimate {p : Params n} {dir : ℝ} {A : Fin n → ℂ} {Y : ℝ → Fin n → ℂ} (hm : p.method = .rk4ip) (h : Follows p dir A Y)
    {c1 c2 c3 : Cache n} (h1 : CacheOK p c1) (h2 : CacheOK p c2) (h3 : CacheOK p c3) :
    (fun H => (advance p (advance p A (H / 2) dir c1).1 (H / 2) dir c2).1 - (advance p A H dir c3).1) =O[𝓝 0] fun H : ℝ => H ^ 5 := by
  have h4 := (h.orders hm).2.1.sub (h.orders hm).1
  refine h4.congr' ?_ EventuallyEq.rfl
  have : ∀ᶠ H in 𝓝 (0 : ℝ), H ≠ -1 := isOpen_ne.mem_nhds (by norm_num)
  have h' : ∀ᶠ H in 𝓝 (0 : ℝ), H ≠ -2 := isOpen_ne.mem_nhds (by norm_num)
  filter_upwards [this, h'] with H hH hH2
  have hH3 : H / 2 ≠ -1 := fun e => hH2 (by linarith)
  rw [(advance_spec h1 hH3 A dir).1, (advance_spec h2 hH3 _ dir).1, (advance_spec h3 hH A dir).1]
  abel

/-- the equations have solutions, so the theorems above speak about something -/
theorem C114_nonvacuous (p : Params n) (dir : ℝ) (A : Fin n → ℂ) (h : p.disableSS = true ∨ ∀ j, 10 ^ (-15 : ℤ) < ‖A j‖) :
    ∃ Y, Follows p dir A Y := by
  have hcd : ContDiffAt ℝ 1 (fun B => applySpec (linPart p dir) B + nonPart p dir B) A :=
    (applySpec_contDiffAt contDiffAt_const contDiffAt_id).add (nonPart_contDiffAt dir h)
  obtain ⟨Y, hY0, ε, hε, hY⟩ := hcd.exists_forall_mem_closedBall_exists_eq_forall_mem_Ioo_hasDerivAt₀ 0
  have hev : ∀ᶠ z in 𝓝 (0 : ℝ), HasDerivAt Y (applySpec (linPart p dir) (Y z) + nonPart p dir (Y z)) z := by
    filter_upwards [Ioo_mem_nhds (show (0 : ℝ) - ε < 0 by linarith) (show (0 : ℝ) < 0 + ε by linarith)] with z hz using hY z hz
  refine ⟨Y, hY0, ?_⟩
  by_cases hs : p.disableSS = true
  · refine Or.inl ⟨hs, ?_⟩
    filter_upwards [hev] with z hz
    rwa [linPart_eq, nonPart_kerr hs, ← smul_add] at hz
  · have hs' : p.disableSS = false := by simpa using hs
    have hA := h.resolve_left hs
    refine Or.inr ⟨hs', hA, ?_⟩
    have hc : ContinuousAt Y 0 := hev.self_of_nhds.continuousAt
    have hopen : ∀ᶠ z in 𝓝 (0 : ℝ), ∀ j, 10 ^ (-15 : ℤ) < ‖Y z j‖ := by
      rw [eventually_all]
      intro j
      have hc' : ContinuousAt (fun z => ‖Y z j‖) 0 := ((continuous_apply j).continuousAt.comp hc).norm
      refine hc'.eventually (lt_mem_nhds ?_)
      show 10 ^ (-15 : ℤ) < ‖Y 0 j‖
      rw [hY0]
      exact hA j
    filter_upwards [hev, hopen] with z hz ho
    have e : nonPart p dir (Y z) =
        dir • (Gnlse.kerr p.R p.gamma (Y z) + Gnlse.steepeningReg (10 ^ (-20 : ℤ)) p.R p.gamma p.w0 p.omegas (Y z)) := by
      funext j
      have := nonlinear_steep hs' (Y z) j (ho j)
      simp only [nonPart, mul_assoc, this, Pi.smul_apply, real_smul, Pi.add_apply]
    rwa [linPart_eq, e, ← smul_add] at hz

end PyNLO
