import Mathlib.Analysis.ODE.ExistUnique
import Mathlib.Analysis.ODE.Gronwall
import Mathlib.Analysis.Calculus.BumpFunction.FiniteDimension
import Mathlib.Analysis.Calculus.ContDiff.RCLike
import Mathlib.Analysis.InnerProductSpace.Calculus
import Mathlib.Analysis.Complex.Basic
import Mathlib.LinearAlgebra.Complex.FiniteDimensional
import Mathlib.Analysis.InnerProductSpace.PiL2

/-!
# Solutions of differential equations with a bound on the growth of the energy exist for all times
-/

namespace PyNLO.OdeGlobal

open Complex Set
open scoped Topology ContDiff NNReal

variable {n : ℕ}

/-- energy of a field -/
noncomputable def en (A : Fin n → ℂ) : ℝ := ∑ j, ‖A j‖ ^ 2

/-- its rate of change -/
noncomputable def rate (A B : Fin n → ℂ) : ℝ := ∑ j, 2 * inner ℝ (A j) (B j)

theorem en_nonneg (A : Fin n → ℂ) : 0 ≤ en A := Finset.sum_nonneg fun _ _ => sq_nonneg _

theorem norm_le_en (A : Fin n → ℂ) : ‖A‖ ≤ 1 + en A := by
  refine (pi_norm_le_iff_of_nonneg (by have := en_nonneg A; linarith)).2 fun j => ?_
  have h1 : ‖A j‖ ^ 2 ≤ en A := Finset.single_le_sum (f := fun j => ‖A j‖ ^ 2) (fun i _ => sq_nonneg _) (Finset.mem_univ j)
  nlinarith [sq_nonneg (‖A j‖ - 1)]

theorem en_hasDerivAt {Y : ℝ → Fin n → ℂ} {Y' : Fin n → ℂ} {z : ℝ} (h : HasDerivAt Y Y' z) : HasDerivAt (fun z => en (Y z)) (rate (Y z) Y') z := by
  unfold en rate
  refine HasDerivAt.fun_sum fun j _ => ?_
  exact ((hasDerivAt_pi.1 h) j).norm_sq

theorem rate_smul (A B : Fin n → ℂ) (c : ℝ) : rate A (c • B) = c * rate A B := by
  unfold rate
  rw [Finset.mul_sum]
  refine Finset.sum_congr rfl fun j _ => ?_
  rw [Pi.smul_apply, inner_smul_right]
  simp
  ring

/-- growth of the energy along a curve -/
theorem en_growth {Y V : ℝ → Fin n → ℂ} {T K : ℝ} (hY : ∀ z ∈ Ioo (-T) T, HasDerivAt Y (V z) z)
    (hE : ∀ z ∈ Ioo (-T) T, |rate (Y z) (V z)| ≤ K * en (Y z)) {z : ℝ} (hz : z ∈ Ioo (-T) T) : en (Y z) ≤ en (Y 0) * Real.exp (K * |z|) := by
  rcases le_total 0 z with h0 | h0
  · have hsub : ∀ t ∈ Icc 0 z, t ∈ Ioo (-T) T := fun t ht => ⟨by linarith [ht.1, hz.2], by linarith [ht.2, hz.2]⟩
    have := norm_le_gronwallBound_of_norm_deriv_right_le (f := fun t => en (Y t)) (f' := fun t => rate (Y t) (V t)) (δ := en (Y 0)) (K := K) (ε := 0)
      (a := 0) (b := z) (fun t ht => (en_hasDerivAt (hY t (hsub t ht))).continuousAt.continuousWithinAt)
      (fun t ht => (en_hasDerivAt (hY t (hsub t ⟨ht.1, ht.2.le⟩))).hasDerivWithinAt)
      (by rw [Real.norm_eq_abs, abs_of_nonneg (en_nonneg _)])
      (fun t ht => by
        rw [Real.norm_eq_abs, Real.norm_eq_abs, abs_of_nonneg (en_nonneg _), add_zero]
        exact hE t (hsub t ⟨ht.1, ht.2.le⟩)) z ⟨h0, le_refl z⟩
    rw [gronwallBound_ε0, Real.norm_eq_abs, abs_of_nonneg (en_nonneg _), sub_zero] at this
    rwa [abs_of_nonneg h0]
  · have hsub : ∀ t ∈ Icc 0 (-z), -t ∈ Ioo (-T) T := fun t ht => ⟨by linarith [ht.2, hz.1], by linarith [ht.1, hz.1]⟩
    have hder : ∀ t ∈ Icc 0 (-z), HasDerivAt (fun t => en (Y (-t))) (-rate (Y (-t)) (V (-t))) t := by
      intro t ht
      have := (en_hasDerivAt (hY (-t) (hsub t ht))).scomp t (hasDerivAt_neg t)
      rw [smul_eq_mul, neg_one_mul] at this
      exact this
    have := norm_le_gronwallBound_of_norm_deriv_right_le (f := fun t => en (Y (-t))) (f' := fun t => -rate (Y (-t)) (V (-t))) (δ := en (Y 0)) (K := K) (ε := 0)
      (a := 0) (b := -z) (fun t ht => (hder t ht).continuousAt.continuousWithinAt)
      (fun t ht => (hder t ⟨ht.1, ht.2.le⟩).hasDerivWithinAt)
      (by rw [Real.norm_eq_abs, neg_zero, abs_of_nonneg (en_nonneg _)])
      (fun t ht => by
        rw [Real.norm_eq_abs, Real.norm_eq_abs, abs_neg, abs_of_nonneg (en_nonneg _), add_zero]
        exact hE (-t) (hsub t ⟨ht.1, ht.2.le⟩)) (-z) ⟨by linarith, le_refl _⟩
    rw [gronwallBound_ε0, Real.norm_eq_abs, abs_of_nonneg (en_nonneg _), sub_zero, neg_neg] at this
    rwa [abs_of_nonpos h0]

/-- Existence on every interval. -/
theorem exists_solution {f : (Fin n → ℂ) → Fin n → ℂ} (hf : ContDiff ℝ 1 f) {K : ℝ} (hE : ∀ A, |rate A (f A)| ≤ K * en A) (A : Fin n → ℂ)
    {T : ℝ} (hT : 0 < T) : ∃ Y : ℝ → Fin n → ℂ, Y 0 = A ∧ ∀ z ∈ Ioo (-T) T, HasDerivAt Y (f (Y z)) z := by
  set B := 1 + en A * Real.exp (|K| * T) with hB
  have hBpos : 0 < B := by have := en_nonneg A; positivity
  let χ : ContDiffBump (0 : Fin n → ℂ) := ⟨B, B + 1, hBpos, by linarith⟩
  set g : (Fin n → ℂ) → Fin n → ℂ := fun x => χ x • f x with hg
  have hgc : ContDiff ℝ 1 g := χ.contDiff.smul hf
  have hgs : HasCompactSupport g := χ.hasCompactSupport.smul_right
  obtain ⟨M, hM⟩ := hgs.exists_bound_of_continuous hgc.continuous
  obtain ⟨C, hC⟩ := ContDiff.lipschitzWith_of_hasCompactSupport hgs hgc one_ne_zero
  have hM0 : 0 ≤ M := (norm_nonneg _).trans (hM 0)
  have hPL : IsPicardLindelof (fun _ : ℝ => g) (tmin := -T) (tmax := T) ⟨0, by constructor <;> linarith⟩ A (⟨M, hM0⟩ * ⟨T, hT.le⟩) 0 ⟨M, hM0⟩ C := by
    refine ⟨fun _ _ => hC.lipschitzOnWith, fun _ _ => continuousOn_const, fun _ _ x _ => hM x, ?_⟩
    show M * max (T - 0) (0 - -T) ≤ M * T - 0
    simp
  obtain ⟨Y, hY0, hY⟩ := hPL.exists_eq_forall_mem_Icc_hasDerivWithinAt₀
  have hY0' : Y 0 = A := hY0
  have hYd : ∀ z ∈ Ioo (-T) T, HasDerivAt Y (g (Y z)) z := fun z hz =>
    (hY z ⟨hz.1.le, hz.2.le⟩).hasDerivAt (Icc_mem_nhds hz.1 hz.2)
  refine ⟨Y, hY0', fun z hz => ?_⟩
  have hgr : en (Y z) ≤ en (Y 0) * Real.exp (|K| * |z|) := by
    refine en_growth hYd (fun t _ => ?_) hz
    rw [hg]
    simp only
    rw [rate_smul, abs_mul, abs_of_nonneg χ.nonneg]
    have h1 : |rate (Y t) (f (Y t))| ≤ |K| * en (Y t) := (hE _).trans (mul_le_mul_of_nonneg_right (le_abs_self K) (en_nonneg _))
    calc χ (Y t) * |rate (Y t) (f (Y t))| ≤ 1 * |rate (Y t) (f (Y t))| := mul_le_mul_of_nonneg_right χ.le_one (abs_nonneg _)
      _ ≤ |K| * en (Y t) := by rw [one_mul]; exact h1
  have hin : Y z ∈ Metric.closedBall (0 : Fin n → ℂ) χ.rIn := by
    rw [mem_closedBall_zero_iff]
    refine (norm_le_en _).trans ?_
    show 1 + en (Y z) ≤ B
    rw [hB]
    have : en (Y 0) * Real.exp (|K| * |z|) ≤ en A * Real.exp (|K| * T) := by
      rw [hY0']
      refine mul_le_mul_of_nonneg_left (Real.exp_le_exp.2 (mul_le_mul_of_nonneg_left ?_ (abs_nonneg K))) (en_nonneg A)
      exact (abs_lt.2 hz).le
    linarith
  have := hYd z hz
  rw [hg] at this
  simp only at this
  rwa [χ.one_of_mem_closedBall hin, one_smul] at this

/-- Existence on every interval for right-hand sides that depend on the position. -/
theorem exists_solution_at {f : ℝ → (Fin n → ℂ) → Fin n → ℂ} (hf : ContDiff ℝ 1 fun q : ℝ × (Fin n → ℂ) => f q.1 q.2) {K : ℝ}
    (hE : ∀ z A, |rate A (f z A)| ≤ K * en A) (A : Fin n → ℂ)
    {T : ℝ} (hT : 0 < T) : ∃ Y : ℝ → Fin n → ℂ, Y 0 = A ∧ ∀ z ∈ Ioo (-T) T, HasDerivAt Y (f z (Y z)) z := by
  set B := 1 + en A * Real.exp (|K| * T) with hB
  have hBpos : 0 < B := by have := en_nonneg A; positivity
  let χ : ContDiffBump (0 : Fin n → ℂ) := ⟨B, B + 1, hBpos, by linarith⟩
  let ψ : ContDiffBump (0 : ℝ) := ⟨T, T + 1, hT, by linarith⟩
  set g : ℝ × (Fin n → ℂ) → Fin n → ℂ := fun q => ψ q.1 • χ q.2 • f q.1 q.2 with hg
  have hgc : ContDiff ℝ 1 g := (ψ.contDiff.comp contDiff_fst).smul ((χ.contDiff.comp contDiff_snd).smul hf)
  have hgs : HasCompactSupport g := by
    refine HasCompactSupport.intro ((isCompact_closedBall (0 : ℝ) (T + 1)).prod (isCompact_closedBall (0 : Fin n → ℂ) (B + 1))) fun q hq => ?_
    rw [hg]
    by_cases h1 : q.1 ∈ Metric.closedBall (0 : ℝ) (T + 1)
    · have h2 : q.2 ∉ Metric.closedBall (0 : Fin n → ℂ) (B + 1) := fun h2 => hq ⟨h1, h2⟩
      have : χ q.2 = 0 := χ.zero_of_le_dist (by rw [Metric.mem_closedBall, not_le] at h2; exact h2.le)
      simp [this]
    · have : ψ q.1 = 0 := ψ.zero_of_le_dist (by rw [Metric.mem_closedBall, not_le] at h1; exact h1.le)
      simp [this]
  obtain ⟨M, hM⟩ := hgs.exists_bound_of_continuous hgc.continuous
  obtain ⟨C, hC⟩ := ContDiff.lipschitzWith_of_hasCompactSupport hgs hgc one_ne_zero
  have hM0 : 0 ≤ M := (norm_nonneg _).trans (hM 0)
  have hPL : IsPicardLindelof (fun t x => g (t, x)) (tmin := -T) (tmax := T) ⟨0, by constructor <;> linarith⟩ A (⟨M, hM0⟩ * ⟨T, hT.le⟩) 0 ⟨M, hM0⟩ C := by
    refine ⟨fun t _ => LipschitzWith.lipschitzOnWith ?_, fun x _ => ?_, fun t _ x _ => hM _, ?_⟩
    · refine LipschitzWith.of_dist_le_mul fun x y => ?_
      have := hC.dist_le_mul (t, x) (t, y)
      simpa [Prod.dist_eq] using this
    · exact (hgc.continuous.comp (Continuous.prodMk continuous_id continuous_const)).continuousOn
    · show M * max (T - 0) (0 - -T) ≤ M * T - 0
      simp
  obtain ⟨Y, hY0, hY⟩ := hPL.exists_eq_forall_mem_Icc_hasDerivWithinAt₀
  have hY0' : Y 0 = A := hY0
  have hYd : ∀ z ∈ Ioo (-T) T, HasDerivAt Y (g (z, Y z)) z := fun z hz =>
    (hY z ⟨hz.1.le, hz.2.le⟩).hasDerivAt (Icc_mem_nhds hz.1 hz.2)
  refine ⟨Y, hY0', fun z hz => ?_⟩
  have hgr : en (Y z) ≤ en (Y 0) * Real.exp (|K| * |z|) := by
    refine en_growth hYd (fun t _ => ?_) hz
    rw [hg]
    simp only
    rw [rate_smul, rate_smul, abs_mul, abs_mul, abs_of_nonneg χ.nonneg, abs_of_nonneg ψ.nonneg]
    have h1 : |rate (Y t) (f t (Y t))| ≤ |K| * en (Y t) := (hE _ _).trans (mul_le_mul_of_nonneg_right (le_abs_self K) (en_nonneg _))
    calc ψ t * (χ (Y t) * |rate (Y t) (f t (Y t))|) ≤ 1 * (1 * |rate (Y t) (f t (Y t))|) :=
          mul_le_mul ψ.le_one (mul_le_mul_of_nonneg_right χ.le_one (abs_nonneg _)) (mul_nonneg χ.nonneg (abs_nonneg _)) zero_le_one
      _ ≤ |K| * en (Y t) := by rw [one_mul, one_mul]; exact h1
  have hin : Y z ∈ Metric.closedBall (0 : Fin n → ℂ) χ.rIn := by
    rw [mem_closedBall_zero_iff]
    refine (norm_le_en _).trans ?_
    show 1 + en (Y z) ≤ B
    rw [hB]
    have : en (Y 0) * Real.exp (|K| * |z|) ≤ en A * Real.exp (|K| * T) := by
      rw [hY0']
      refine mul_le_mul_of_nonneg_left (Real.exp_le_exp.2 (mul_le_mul_of_nonneg_left ?_ (abs_nonneg K))) (en_nonneg A)
      exact (abs_lt.2 hz).le
    linarith
  have hin' : z ∈ Metric.closedBall (0 : ℝ) ψ.rIn := by
    rw [mem_closedBall_zero_iff, Real.norm_eq_abs]
    exact (abs_lt.2 hz).le
  have := hYd z hz
  rw [hg] at this
  simp only at this
  rwa [χ.one_of_mem_closedBall hin, ψ.one_of_mem_closedBall hin', one_smul, one_smul] at this

/-- The same from any position. -/
theorem exists_solution_from {f : ℝ → (Fin n → ℂ) → Fin n → ℂ} (hf : ContDiff ℝ 1 fun q : ℝ × (Fin n → ℂ) => f q.1 q.2) {K : ℝ}
    (hE : ∀ z A, |rate A (f z A)| ≤ K * en A) (z0 : ℝ) (A : Fin n → ℂ)
    {T : ℝ} (hT : 0 < T) : ∃ Y : ℝ → Fin n → ℂ, Y z0 = A ∧ ∀ z ∈ Ioo (z0 - T) (z0 + T), HasDerivAt Y (f z (Y z)) z := by
  obtain ⟨Y, h0, hY⟩ := exists_solution_at (f := fun z A => f (z0 + z) A)
    (hf.comp (g := fun q : ℝ × (Fin n → ℂ) => f q.1 q.2) (f := fun q : ℝ × (Fin n → ℂ) => (z0 + q.1, q.2)) (by fun_prop)) (fun z A => hE _ A) A hT
  refine ⟨fun z => Y (z - z0), by simpa using h0, fun z hz => ?_⟩
  have h1 := hY (z - z0) ⟨by linarith [hz.1], by linarith [hz.2]⟩
  rw [add_sub_cancel] at h1
  have h2 := h1.scomp z ((hasDerivAt_id z).sub_const z0)
  rwa [one_smul] at h2

/-- Curves that meet at their ends, put together. -/
theorem glue {E : Type*} {w : ℕ → ℝ} (Z : ℕ → ℝ → E) (hZ : ∀ k, Z (k + 1) (w (k + 1)) = Z k (w (k + 1))) : ∀ m, (∀ k < m, w k ≤ w (k + 1)) →
    ∃ Y : ℝ → E, ∀ k < m, EqOn Y (Z k) (Icc (w k) (w (k + 1)))
  | 0, _ => ⟨Z 0, fun k hk => absurd hk (Nat.not_lt_zero k)⟩
  | 1, _ => ⟨Z 0, fun k hk z _ => by rw [show k = 0 by omega]⟩
  | m + 2, hw => by
    classical
    obtain ⟨Y, hY⟩ := glue Z hZ (m + 1) fun k hk => hw k (by omega)
    have hmono : ∀ j k, k + j = m → w (k + 1) ≤ w (m + 1) := by
      intro j
      induction j with
      | zero => intro k hk; rw [show k = m by omega]
      | succ j ih => exact fun k hk => (hw (k + 1) (by omega)).trans (ih (k + 1) (by omega))
    refine ⟨fun z => if z ≤ w (m + 1) then Y z else Z (m + 1) z, fun k hk z hz => ?_⟩
    rcases Nat.lt_or_ge k (m + 1) with h | h
    · simp only
      rw [if_pos (hz.2.trans (hmono (m - k) k (by omega)))]
      exact hY k h hz
    · obtain rfl : k = m + 1 := by omega
      simp only
      split_ifs with h1
      · obtain rfl : z = w (m + 1) := le_antisymm h1 hz.1
        rw [hY m (Nat.lt_succ_self m) ⟨hw m (by omega), le_refl _⟩, hZ]
      · rfl

end PyNLO.OdeGlobal
