import Mathlib.Analysis.Calculus.Taylor
import Mathlib.Analysis.Calculus.ContDiff.RCLike
import Mathlib.Analysis.Calculus.ContDiff.FiniteDimension
import Mathlib.Analysis.Calculus.Deriv.Prod
import Mathlib.Analysis.SpecialFunctions.Exp

/-!
# Convergence of one-step methods

Uniform consistency from pointwise consistency, stability on balls, and the accumulation of errors for variable steps.
-/

open scoped BigOperators Topology ContDiff
open Asymptotics Filter Set

namespace PyNLO.OneStep

variable {E : Type*} [NormedAddCommGroup E] [NormedSpace ℝ E]

/-- a polynomial that is small of higher order vanishes -/
theorem poly_zero : ∀ (m : ℕ) (c : ℕ → E), ((fun h : ℝ => ∑ k ∈ Finset.range (m + 1), h ^ k • c k) =O[𝓝[>] 0] fun h => h ^ (m + 1)) →
    ∀ k ≤ m, c k = 0
  | m, c, h => by
    have h0 : c 0 = 0 := by
      have t1 : Tendsto (fun x : ℝ => ∑ k ∈ Finset.range (m + 1), x ^ k • c k) (𝓝[>] 0) (𝓝 (c 0)) := by
        have hc : Continuous fun x : ℝ => ∑ k ∈ Finset.range (m + 1), x ^ k • c k := by fun_prop
        have := (hc.tendsto 0).mono_left (nhdsWithin_le_nhds (s := Ioi (0 : ℝ)))
        convert this using 2
        rw [Finset.sum_range_succ', Finset.sum_eq_zero]
        · simp
        · intro k _; simp
      have t2 : Tendsto (fun x : ℝ => x ^ (m + 1)) (𝓝[>] 0) (𝓝 0) := by
        have := ((continuous_pow (M := ℝ) (m + 1)).tendsto 0).mono_left (nhdsWithin_le_nhds (s := Ioi (0 : ℝ)))
        simpa using this
      exact tendsto_nhds_unique t1 (h.trans_tendsto t2)
    intro k hk
    cases k with
    | zero => exact h0
    | succ k =>
      obtain ⟨m, rfl⟩ : ∃ m', m = m' + 1 := ⟨m - 1, by omega⟩
      refine poly_zero m (fun k => c (k + 1)) ?_ k (by omega)
      obtain ⟨C, hC⟩ := h.bound
      refine IsBigO.of_bound C ?_
      filter_upwards [hC, self_mem_nhdsWithin] with x hx hpos
      have hpos' : (0 : ℝ) < x := hpos
      rw [Finset.sum_range_succ'] at hx
      have e : ∑ k ∈ Finset.range (m + 1), x ^ (k + 1) • c (k + 1) + x ^ 0 • c 0 = x • ∑ k ∈ Finset.range (m + 1), x ^ k • c (k + 1) := by
        rw [h0, smul_zero, add_zero, Finset.smul_sum]
        exact Finset.sum_congr rfl fun i _ => by rw [smul_smul, pow_succ']
      rw [e, norm_smul, pow_succ' x (m + 1), norm_mul] at hx
      have h2 : ‖x‖ * ‖∑ k ∈ Finset.range (m + 1), x ^ k • c (k + 1)‖ ≤ ‖x‖ * (C * ‖x ^ (m + 1)‖) := by linarith
      exact le_of_mul_le_mul_left h2 (norm_pos_iff.2 hpos'.ne')

/-- derivative in the second variable -/
noncomputable def dsnd (e : ℝ × ℝ → E) (q : ℝ × ℝ) : E := fderiv ℝ e q (0, 1)

theorem dsnd_contDiffOn {U : Set (ℝ × ℝ)} (hU : IsOpen U) {e : ℝ × ℝ → E} (he : ContDiffOn ℝ ∞ e U) : ContDiffOn ℝ ∞ (dsnd e) U := by
  have h1 : ContDiffOn ℝ ∞ (fderiv ℝ e) U := he.fderiv_of_isOpen hU (by simp)
  exact h1.clm_apply contDiffOn_const

theorem dsnd_iter_contDiffOn {U : Set (ℝ × ℝ)} (hU : IsOpen U) {e : ℝ × ℝ → E} (he : ContDiffOn ℝ ∞ e U) (k : ℕ) :
    ContDiffOn ℝ ∞ (dsnd^[k] e) U := by
  induction k with
  | zero => exact he
  | succ k ih => rw [Function.iterate_succ_apply']; exact dsnd_contDiffOn hU ih

theorem dsnd_hasDerivAt {U : Set (ℝ × ℝ)} (hU : IsOpen U) {e : ℝ × ℝ → E} (he : ContDiffOn ℝ ∞ e U) {z h : ℝ} (hq : (z, h) ∈ U) :
    HasDerivAt (fun h => e (z, h)) (dsnd e (z, h)) h := by
  have h1 : DifferentiableAt ℝ e (z, h) := (he.contDiffAt (hU.mem_nhds hq)).differentiableAt (by simp)
  have h2 : HasDerivAt (fun h : ℝ => ((z, h) : ℝ × ℝ)) (0, 1) h := (hasDerivAt_const h z).prodMk (hasDerivAt_id h)
  exact h1.hasFDerivAt.comp_hasDerivAt h h2

theorem dsnd_iter {U : Set (ℝ × ℝ)} (hU : IsOpen U) {e : ℝ × ℝ → E} (he : ContDiffOn ℝ ∞ e U) {z h0 : ℝ} (h0pos : 0 < h0)
    (hz : ∀ h ∈ Icc 0 h0, (z, h) ∈ U) (k : ℕ) : ∀ h ∈ Icc 0 h0,
      iteratedDerivWithin k (fun h => e (z, h)) (Icc 0 h0) h = dsnd^[k] e (z, h) := by
  induction k with
  | zero => intro h _; simp
  | succ k ih =>
    intro h hh
    rw [iteratedDerivWithin_succ, Function.iterate_succ_apply']
    rw [derivWithin_congr ih (ih h hh)]
    exact (dsnd_hasDerivAt hU (dsnd_iter_contDiffOn hU he k) (hz h hh)).hasDerivWithinAt.derivWithin (uniqueDiffOn_Icc h0pos h hh)

/-- A smooth function that agrees with a polynomial in its second variable up to order `m + 1` at every point does so uniformly on
compact sets. -/
theorem uniform_poly {U : Set (ℝ × ℝ)} (hU : IsOpen U) {e : ℝ × ℝ → E} (he : ContDiffOn ℝ ∞ e U) {K : Set ℝ} (hK : IsCompact K)
    {h0 : ℝ} (h0pos : 0 < h0) (hsub : K ×ˢ Icc 0 h0 ⊆ U) {m : ℕ} (P : ℝ → ℕ → E)
    (hO : ∀ z ∈ K, (fun h => e (z, h) - ∑ k ∈ Finset.range (m + 1), h ^ k • P z k) =O[𝓝[>] 0] fun h : ℝ => h ^ (m + 1)) :
    ∃ C, 0 ≤ C ∧ ∀ z ∈ K, ∀ h ∈ Icc 0 h0, ‖e (z, h) - ∑ k ∈ Finset.range (m + 1), h ^ k • P z k‖ ≤ C * h ^ (m + 1) := by
  obtain ⟨C, hC⟩ := (hK.prod isCompact_Icc).exists_bound_of_continuousOn ((dsnd_iter_contDiffOn hU he (m + 1)).continuousOn.mono hsub)
  refine ⟨max C 0, le_max_right _ _, fun z hz h hh => ?_⟩
  have hzU : ∀ h ∈ Icc 0 h0, (z, h) ∈ U := fun h hh => hsub ⟨hz, hh⟩
  have hfc : ContDiffOn ℝ (m + 1) (fun h => e (z, h)) (Icc 0 h0) := by
    have h1 : ContDiffOn ℝ ∞ (fun h => e (z, h)) (Icc 0 h0) :=
      he.comp (contDiff_const.prodMk contDiff_id).contDiffOn fun h hh => hzU h hh
    exact h1.of_le (by exact_mod_cast le_top)
  have hT := fun x (hx : x ∈ Icc 0 h0) => taylor_mean_remainder_bound (C := max C 0) h0pos.le hfc hx (by
    intro y hy
    rw [dsnd_iter hU he h0pos hzU (m + 1) y hy]
    exact (hC (z, y) ⟨hz, hy⟩).trans (le_max_left _ _))
  have hpoly : ∀ x, taylorWithinEval (fun h => e (z, h)) m (Icc 0 h0) 0 x =
      ∑ k ∈ Finset.range (m + 1), x ^ k • (((k.factorial : ℝ)⁻¹) • iteratedDerivWithin k (fun h => e (z, h)) (Icc 0 h0) 0) := by
    intro x
    rw [taylor_within_apply]
    refine Finset.sum_congr rfl fun k _ => ?_
    rw [smul_smul, sub_zero, mul_comm]
  have hfac : (1 : ℝ) ≤ m.factorial := by exact_mod_cast Nat.factorial_pos m
  have hle : ∀ x ∈ Icc 0 h0, max C 0 * (x - 0) ^ (m + 1) / m.factorial ≤ max C 0 * x ^ (m + 1) := by
    intro x hx
    rw [sub_zero]
    exact div_le_self (mul_nonneg (le_max_right _ _) (pow_nonneg hx.1 _)) hfac
  have hzero : ∀ k ≤ m, ((k.factorial : ℝ)⁻¹) • iteratedDerivWithin k (fun h => e (z, h)) (Icc 0 h0) 0 - P z k = 0 := by
    refine poly_zero m _ ?_
    have h2 : (fun x : ℝ => e (z, x) - taylorWithinEval (fun h => e (z, h)) m (Icc 0 h0) 0 x) =O[𝓝[>] 0] fun x : ℝ => x ^ (m + 1) := by
      refine IsBigO.of_bound (max C 0) ?_
      have : Ioo 0 h0 ∈ 𝓝[>] (0 : ℝ) := Ioo_mem_nhdsGT h0pos
      filter_upwards [this] with x hx
      have hx' : x ∈ Icc 0 h0 := Ioo_subset_Icc_self hx
      refine (hT x hx').trans ((hle x hx').trans ?_)
      rw [norm_pow, Real.norm_eq_abs, abs_of_nonneg hx'.1]
    have h3 := (hO z hz).sub h2
    refine h3.congr_left fun x => ?_
    rw [hpoly]
    simp only [smul_sub, Finset.sum_sub_distrib]
    abel
  have h4 := hT h hh
  rw [hpoly] at h4
  refine le_trans (le_of_eq ?_) (h4.trans (hle h hh))
  congr 2
  refine Finset.sum_congr rfl fun k hk => ?_
  rw [sub_eq_zero.1 (hzero k (by simpa [Nat.lt_succ_iff] using hk))]

/-- A smooth function that is small of order `m + 1` in its second variable at every point is so uniformly on compact sets. -/
theorem uniform_of_pointwise {U : Set (ℝ × ℝ)} (hU : IsOpen U) {e : ℝ × ℝ → E} (he : ContDiffOn ℝ ∞ e U) {K : Set ℝ} (hK : IsCompact K)
    {h0 : ℝ} (h0pos : 0 < h0) (hsub : K ×ˢ Icc 0 h0 ⊆ U) {m : ℕ}
    (hO : ∀ z ∈ K, (fun h => e (z, h)) =O[𝓝[>] 0] fun h : ℝ => h ^ (m + 1)) :
    ∃ C, 0 ≤ C ∧ ∀ z ∈ K, ∀ h ∈ Icc 0 h0, ‖e (z, h)‖ ≤ C * h ^ (m + 1) := by
  obtain ⟨C, hC, h1⟩ := uniform_poly hU he hK h0pos hsub (m := m) (fun _ _ => 0) (by simpa using hO)
  exact ⟨C, hC, by simpa using h1⟩

/-- a solution of a smooth autonomous equation is smooth -/
theorem solution_contDiffOn {f : E → E} (hf : ContDiff ℝ ∞ f) {Y : ℝ → E} {a b : ℝ} (hY : ∀ z ∈ Ioo a b, HasDerivAt Y (f (Y z)) z) :
    ContDiffOn ℝ ∞ Y (Ioo a b) := by
  have h : ∀ k : ℕ, ContDiffOn ℝ k Y (Ioo a b) := by
    intro k
    induction k with
    | zero =>
      rw [Nat.cast_zero, contDiffOn_zero]
      exact fun z hz => (hY z hz).continuousAt.continuousWithinAt
    | succ k ih =>
      rw [Nat.cast_succ, contDiffOn_succ_iff_deriv_of_isOpen isOpen_Ioo]
      refine ⟨fun z hz => (hY z hz).differentiableAt.differentiableWithinAt, by simp, ?_⟩
      have h1 : ContDiffOn ℝ k (fun z => f (Y z)) (Ioo a b) := (hf.of_le (by exact_mod_cast le_top)).comp_contDiffOn ih
      exact h1.congr fun z hz => (hY z hz).deriv
  exact contDiffOn_infty.2 h

section stab
variable [FiniteDimensional ℝ E]

/-- A smooth family of maps that starts at the identity is `1 + K·h`-Lipschitz on balls. -/
theorem stable {φ : ℝ × E → E} (hφ : ContDiff ℝ ∞ φ) (h0 : ∀ A, φ (0, A) = A) (R : ℝ) :
    ∃ K, 0 ≤ K ∧ ∀ h ∈ Icc (0 : ℝ) 1, ∀ A ∈ Metric.closedBall (0 : E) R, ∀ B ∈ Metric.closedBall (0 : E) R,
      ‖φ (h, A) - φ (h, B)‖ ≤ (1 + K * h) * ‖A - B‖ := by
  have : ProperSpace E := FiniteDimensional.proper_real E
  set D : ℝ × E → E := fun q => fderiv ℝ φ q (1, 0) with hD
  have hDs : ContDiff ℝ 1 D := by
    have h1 : ContDiff ℝ 1 (fderiv ℝ φ) := (hφ.fderiv_right (m := ∞) (by simp)).of_le (by exact_mod_cast le_top)
    exact h1.clm_apply contDiff_const
  obtain ⟨K, hK⟩ := hDs.contDiffOn.exists_lipschitzOnWith (s := Icc (0 : ℝ) 1 ×ˢ Metric.closedBall (0 : E) R) one_ne_zero
    ((convex_Icc 0 1).prod (convex_closedBall 0 R)) (isCompact_Icc.prod (isCompact_closedBall 0 R))
  refine ⟨K, K.2, fun h hh A hA B hB => ?_⟩
  have hder : ∀ A, ∀ x : ℝ, HasDerivAt (fun x => φ (x, A)) (D (x, A)) x := by
    intro A x
    have h1 : DifferentiableAt ℝ φ (x, A) := hφ.contDiffAt.differentiableAt (by simp)
    have h2 : HasDerivAt (fun x : ℝ => ((x, A) : ℝ × E)) (1, 0) x := (hasDerivAt_id x).prodMk (hasDerivAt_const x A)
    exact h1.hasFDerivAt.comp_hasDerivAt x h2
  have hmv := norm_image_sub_le_of_norm_deriv_le_segment' (f := fun x => φ (x, A) - φ (x, B)) (f' := fun x => D (x, A) - D (x, B))
    (a := 0) (b := 1) (C := K * ‖A - B‖) (fun x _ => ((hder A x).sub (hder B x)).hasDerivWithinAt) (fun x hx => by
      have hx' : x ∈ Icc (0 : ℝ) 1 := Ico_subset_Icc_self hx
      have := hK.dist_le_mul (x, A) ⟨hx', hA⟩ (x, B) ⟨hx', hB⟩
      rw [dist_eq_norm, dist_eq_norm, Prod.mk_sub_mk, sub_self] at this
      refine this.trans (le_of_eq ?_)
      rw [Prod.norm_mk, norm_zero, max_eq_right (norm_nonneg _)]) h hh
  simp only [h0, sub_zero] at hmv
  calc ‖φ (h, A) - φ (h, B)‖ = ‖(φ (h, A) - φ (h, B) - (A - B)) + (A - B)‖ := by congr 1; abel
    _ ≤ ‖φ (h, A) - φ (h, B) - (A - B)‖ + ‖A - B‖ := norm_add_le _ _
    _ ≤ K * ‖A - B‖ * h + ‖A - B‖ := by linarith
    _ = (1 + K * h) * ‖A - B‖ := by ring

end stab

omit [NormedSpace ℝ E] in
/-- Accumulation of errors: consistent of order `m + 1`, stable in a tube around the solution, steps `h k` of which each covers `2·h k`. -/
theorem converges {Ψ : ℝ → E → E} {Y : ℝ → E} {L C K R h0 : ℝ} {m : ℕ} (hL : 0 ≤ L) (hC : 0 ≤ C) (hK : 0 ≤ K) (h0pos : 0 < h0)
    (cons : ∀ z ∈ Icc 0 L, ∀ h ∈ Icc 0 h0, z + 2 * h ≤ L → ‖Ψ h (Y z) - Y (z + 2 * h)‖ ≤ C * h ^ (m + 2))
    (stab : ∀ h ∈ Icc 0 h0, ∀ A ∈ Metric.closedBall (0 : E) (R + 1), ∀ B ∈ Metric.closedBall (0 : E) (R + 1),
      ‖Ψ h A - Ψ h B‖ ≤ (1 + K * h) * ‖A - B‖)
    (hY : ∀ z ∈ Icc 0 L, ‖Y z‖ ≤ R) :
    ∃ h1 > 0, h1 ≤ h0 ∧ C * L * Real.exp (K * L) * h1 ^ (m + 1) ≤ 1 ∧ ∀ hm ∈ Ioc 0 h1, ∀ (h : ℕ → ℝ) (A : ℕ → E) (k : ℕ), A 0 = Y 0 →
      (∀ i < k, 0 ≤ h i ∧ h i ≤ hm) → (∀ i < k, A (i + 1) = Ψ (h i) (A i)) → ∑ i ∈ Finset.range k, 2 * h i ≤ L →
      ‖A k - Y (∑ i ∈ Finset.range k, 2 * h i)‖ ≤ C * L * Real.exp (K * L) * hm ^ (m + 1) := by
  obtain ⟨h1, h1pos, h1le, hsmall⟩ : ∃ h1 > 0, h1 ≤ h0 ∧ C * L * Real.exp (K * L) * h1 ^ (m + 1) ≤ 1 := by
    have hD : 0 ≤ C * L * Real.exp (K * L) := by positivity
    refine ⟨min (min h0 1) (1 / (C * L * Real.exp (K * L) + 1)), by positivity, (min_le_left _ _).trans (min_le_left _ _), ?_⟩
    have hp : (0 : ℝ) ≤ min (min h0 1) (1 / (C * L * Real.exp (K * L) + 1)) := by positivity
    calc C * L * Real.exp (K * L) * min (min h0 1) (1 / (C * L * Real.exp (K * L) + 1)) ^ (m + 1)
        ≤ C * L * Real.exp (K * L) * min (min h0 1) (1 / (C * L * Real.exp (K * L) + 1)) := by
          refine mul_le_mul_of_nonneg_left ?_ hD
          refine pow_le_of_le_one hp ?_ (by omega)
          exact (min_le_left _ _).trans (min_le_right _ _)
      _ ≤ C * L * Real.exp (K * L) * (1 / (C * L * Real.exp (K * L) + 1)) := mul_le_mul_of_nonneg_left (min_le_right _ _) hD
      _ ≤ 1 := by rw [mul_one_div]; exact div_le_one_of_le₀ (by linarith) (by linarith)
  refine ⟨h1, h1pos, h1le, hsmall, fun hm hhm h A k hA0 => ?_⟩
  have hm0 : 0 < hm := hhm.1
  have key : ∀ k, (∀ i < k, 0 ≤ h i ∧ h i ≤ hm) → (∀ i < k, A (i + 1) = Ψ (h i) (A i)) → ∑ i ∈ Finset.range k, 2 * h i ≤ L →
      ‖A k - Y (∑ i ∈ Finset.range k, 2 * h i)‖ ≤
        C * hm ^ (m + 1) * (∑ i ∈ Finset.range k, 2 * h i) * Real.exp (K * ∑ i ∈ Finset.range k, 2 * h i) := by
    intro k
    induction k with
    | zero => intro _ _ _; simp [hA0]
    | succ k ih =>
      intro hh hA hs
      rw [Finset.sum_range_succ] at hs ⊢
      set z := ∑ i ∈ Finset.range k, 2 * h i with hz
      have hhk := hh k (by omega)
      have hz0 : 0 ≤ z := Finset.sum_nonneg fun i hi => by
        have := (hh i (by rw [Finset.mem_range] at hi; omega)).1
        linarith
      have hzL : z ≤ L := by linarith
      have ihk := ih (fun i hi => hh i (by omega)) (fun i hi => hA i (by omega)) hzL
      have hexp : Real.exp (K * z) ≤ Real.exp (K * L) := Real.exp_le_exp.2 (mul_le_mul_of_nonneg_left hzL hK)
      have hpm : hm ^ (m + 1) ≤ h1 ^ (m + 1) := pow_le_pow_left₀ hm0.le hhm.2 _
      have hb1 : ‖A k - Y z‖ ≤ 1 := by
        refine ihk.trans (le_trans ?_ hsmall)
        calc C * hm ^ (m + 1) * z * Real.exp (K * z) ≤ C * h1 ^ (m + 1) * L * Real.exp (K * L) := by
              gcongr
          _ = _ := by ring
      have hYz := hY z ⟨hz0, hzL⟩
      have hAk : A k ∈ Metric.closedBall (0 : E) (R + 1) := by
        rw [mem_closedBall_zero_iff]
        calc ‖A k‖ = ‖(A k - Y z) + Y z‖ := by congr 1; abel
          _ ≤ ‖A k - Y z‖ + ‖Y z‖ := norm_add_le _ _
          _ ≤ R + 1 := by linarith
      have hYk : Y z ∈ Metric.closedBall (0 : E) (R + 1) := by
        rw [mem_closedBall_zero_iff]; linarith
      have hhk0 : h k ∈ Icc 0 h0 := ⟨hhk.1, hhk.2.trans (hhm.2.trans h1le)⟩
      have hst := stab (h k) hhk0 (A k) hAk (Y z) hYk
      have hco := cons z ⟨hz0, hzL⟩ (h k) hhk0 hs
      have hco' : ‖Ψ (h k) (Y z) - Y (z + 2 * h k)‖ ≤ C * hm ^ (m + 1) * h k := by
        refine hco.trans ?_
        rw [pow_succ, ← mul_assoc]
        exact mul_le_mul_of_nonneg_right (mul_le_mul_of_nonneg_left (pow_le_pow_left₀ hhk.1 hhk.2 _) hC) hhk.1
      rw [hA k (by omega)]
      set G := C * hm ^ (m + 1) with hG
      have hG0 : 0 ≤ G := by positivity
      have he1 : 1 + K * h k ≤ Real.exp (K * (2 * h k)) := by
        have := Real.add_one_le_exp (K * (2 * h k))
        nlinarith [mul_nonneg hK hhk.1]
      have he2 : Real.exp (K * (z + 2 * h k)) = Real.exp (K * z) * Real.exp (K * (2 * h k)) := by rw [← Real.exp_add]; ring_nf
      have he3 : 1 ≤ Real.exp (K * (z + 2 * h k)) := Real.one_le_exp (by have := hhk.1; positivity)
      calc ‖Ψ (h k) (A k) - Y (z + 2 * h k)‖ = ‖(Ψ (h k) (A k) - Ψ (h k) (Y z)) + (Ψ (h k) (Y z) - Y (z + 2 * h k))‖ := by congr 1; abel
        _ ≤ ‖Ψ (h k) (A k) - Ψ (h k) (Y z)‖ + ‖Ψ (h k) (Y z) - Y (z + 2 * h k)‖ := norm_add_le _ _
        _ ≤ (1 + K * h k) * ‖A k - Y z‖ + G * h k := add_le_add hst hco'
        _ ≤ Real.exp (K * (2 * h k)) * (G * z * Real.exp (K * z)) + G * h k := by
            refine add_le_add_left (mul_le_mul he1 ihk (norm_nonneg _) (Real.exp_pos _).le) _
        _ = G * z * Real.exp (K * (z + 2 * h k)) + G * h k * 1 := by rw [he2]; ring
        _ ≤ G * z * Real.exp (K * (z + 2 * h k)) + G * (2 * h k) * Real.exp (K * (z + 2 * h k)) := by
            have hh0 := hhk.1
            have : G * h k * 1 ≤ G * (2 * h k) * Real.exp (K * (z + 2 * h k)) := by
              refine mul_le_mul ?_ he3 zero_le_one (by positivity)
              nlinarith
            linarith
        _ = G * (z + 2 * h k) * Real.exp (K * (z + 2 * h k)) := by ring
  intro hh hA hs
  refine (key k hh hA hs).trans ?_
  have hz0 : 0 ≤ ∑ i ∈ Finset.range k, 2 * h i := Finset.sum_nonneg fun i hi => by
    have := (hh i (Finset.mem_range.1 hi)).1
    linarith
  calc C * hm ^ (m + 1) * (∑ i ∈ Finset.range k, 2 * h i) * Real.exp (K * ∑ i ∈ Finset.range k, 2 * h i)
      ≤ C * hm ^ (m + 1) * L * Real.exp (K * L) := by gcongr
    _ = _ := by ring

end PyNLO.OneStep
