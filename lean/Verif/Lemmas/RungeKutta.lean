import Verif.Spec.RungeKutta
import Mathlib.Analysis.Analytic.Basic
import Mathlib.Analysis.Calculus.ContDiff.RCLike
import Mathlib.Analysis.Calculus.ContDiff.Defs
import Mathlib.Analysis.Calculus.MeanValue
import Mathlib.Analysis.Calculus.Deriv.Pow
import Mathlib.Analysis.Asymptotics.Lemmas

/-!
# Taylor expansion of a Runge–Kutta step and of the exact solution over rooted trees
-/

open scoped BigOperators Topology
open Asymptotics Filter

namespace PyNLO.RK

variable {K : ℕ} {E : Type*} [NormedAddCommGroup E] [NormedSpace ℝ E]

theorem sum_tr {d : ℕ} {M : Type*} [AddCommMonoid M] (g : Tr K (d + 1) → M) :
    ∑ t, g t = ∑ k : Fin (K + 1), ∑ ts : Fin k → Tr K d, g ⟨k, ts⟩ :=
  Fintype.sum_sigma (α := fun k : Fin (K + 1) => (Fin k → Tr K d)) g

instance : IsEmpty (Tr K 0) := inferInstanceAs (IsEmpty Empty)

theorem below_mk {d : ℕ} (k : Fin (K + 1)) (ts : Fin k → Tr K d) :
    Tr.below (d := d + 1) (⟨k, ts⟩ : Tr K (d + 1)) = ∑ j, (ts j).ord := rfl

theorem density_mk {d : ℕ} (k : Fin (K + 1)) (ts : Fin k → Tr K d) :
    Tr.density (d := d + 1) (⟨k, ts⟩ : Tr K (d + 1)) = ((∑ j, (ts j).ord + 1 : ℕ) : ℝ) * ∏ j, (ts j).density := rfl

theorem stage_mk {d : ℕ} (a : ℕ → ℕ → ℝ) (k : Fin (K + 1)) (ts : Fin k → Tr K d) (i : ℕ) :
    Tr.stage a (d := d + 1) (⟨k, ts⟩ : Tr K (d + 1)) i = ∏ j, ∑ l ∈ Finset.range i, a i l * (ts j).stage a l := rfl

omit [NormedAddCommGroup E] [NormedSpace ℝ E] in
theorem diff_mk {d : ℕ} (p : ∀ k : ℕ, (Fin k → E) → E) (k : Fin (K + 1)) (ts : Fin k → Tr K d) :
    Tr.diff p (d := d + 1) (⟨k, ts⟩ : Tr K (d + 1)) = p k fun j => (ts j).diff p := rfl

theorem density_pos : ∀ {d : ℕ} (t : Tr K d), 0 < t.density
  | 0, t => nomatch t
  | _ + 1, ⟨k, ts⟩ => by
    rw [density_mk]
    exact mul_pos (by positivity) (Finset.prod_pos fun j _ => density_pos (ts j))

/-- The Taylor polynomial of the right-hand side at a weighted sum of elementary differentials. -/
theorem expand (p : FormalMultilinearSeries ℝ E E) {d : ℕ} (w : Tr K d → ℝ) :
    p.partialSum (K + 1) (∑ t : Tr K d, w t • t.diff (fun k => p k)) =
      ∑ k : Fin (K + 1), ∑ ts : Fin k → Tr K d, (∏ j, w (ts j)) • p k fun j => (ts j).diff (fun k => p k) := by
  unfold FormalMultilinearSeries.partialSum
  rw [Finset.sum_range]
  refine Finset.sum_congr rfl fun k _ => ?_
  rw [ContinuousMultilinearMap.map_sum]
  refine Finset.sum_congr rfl fun ts _ => ?_
  rw [ContinuousMultilinearMap.map_smul_univ]

/-- The Taylor series of the stage `i`, over the trees of depth at most `d`. -/
noncomputable def stageSeries (K : ℕ) (a : ℕ → ℕ → ℝ) (p : FormalMultilinearSeries ℝ E E) (d i : ℕ) (h : ℝ) : E :=
  ∑ t : Tr K d, (h ^ t.below * t.stage a i) • t.diff (fun k => p k)

/-- The Taylor series of the exact solution, over the trees of depth at most `d`. -/
noncomputable def flowSeries (K : ℕ) (p : FormalMultilinearSeries ℝ E E) (d : ℕ) (h : ℝ) : E :=
  ∑ t : Tr K d, (h ^ t.ord / t.density) • t.diff (fun k => p k)

theorem stageSeries_succ (a : ℕ → ℕ → ℝ) (p : FormalMultilinearSeries ℝ E E) (d i : ℕ) (h : ℝ) :
    stageSeries K a p (d + 1) i h =
      p.partialSum (K + 1) (h • ∑ l ∈ Finset.range i, a i l • stageSeries K a p d l h) := by
  have : h • ∑ l ∈ Finset.range i, a i l • stageSeries K a p d l h =
      ∑ t : Tr K d, (h ^ t.ord * ∑ l ∈ Finset.range i, a i l * t.stage a l) • t.diff (fun k => p k) := by
    simp only [stageSeries, Finset.smul_sum, smul_smul]
    rw [Finset.sum_comm]
    refine Finset.sum_congr rfl fun t _ => ?_
    rw [← Finset.sum_smul, Finset.mul_sum]
    congr 1
    refine Finset.sum_congr rfl fun l _ => ?_
    rw [Tr.ord, pow_succ]; ring
  rw [this, expand]
  unfold stageSeries
  rw [sum_tr]
  refine Finset.sum_congr rfl fun k _ => Finset.sum_congr rfl fun ts _ => ?_
  rw [below_mk, stage_mk, diff_mk, Finset.prod_mul_distrib, Finset.prod_pow_eq_pow_sum]

theorem flowSeries_zero (p : FormalMultilinearSeries ℝ E E) (h : ℝ) : flowSeries K p 0 h = 0 := by
  unfold flowSeries
  exact Finset.sum_eq_zero fun t _ => isEmptyElim t

theorem flowSeries_at_zero (p : FormalMultilinearSeries ℝ E E) (d : ℕ) : flowSeries K p d 0 = 0 := by
  unfold flowSeries
  refine Finset.sum_eq_zero fun t _ => ?_
  rw [Tr.ord, zero_pow (by omega), zero_div, zero_smul]

/-- The series of the exact solution are Picard iterates. -/
theorem flowSeries_hasDerivAt (p : FormalMultilinearSeries ℝ E E) (d : ℕ) (h : ℝ) :
    HasDerivAt (flowSeries K p (d + 1)) (p.partialSum (K + 1) (flowSeries K p d h)) h := by
  have h1 : HasDerivAt (fun u => flowSeries K p (d + 1) u)
      (∑ t : Tr K (d + 1), (((t.ord : ℝ) * h ^ t.below) / t.density) • t.diff (fun k => p k)) h := by
    unfold flowSeries
    refine HasDerivAt.fun_sum fun t _ => ?_
    refine HasDerivAt.smul_const ?_ _
    refine HasDerivAt.div_const ?_ _
    have := hasDerivAt_pow t.ord h
    simpa [Tr.ord] using this
  have h2 : p.partialSum (K + 1) (flowSeries K p d h) =
      ∑ t : Tr K (d + 1), (((t.ord : ℝ) * h ^ t.below) / t.density) • t.diff (fun k => p k) := by
    unfold flowSeries
    rw [expand, sum_tr]
    refine Finset.sum_congr rfl fun k _ => Finset.sum_congr rfl fun ts _ => ?_
    rw [below_mk, density_mk, diff_mk, Finset.prod_div_distrib, Finset.prod_pow_eq_pow_sum]
    congr 1
    have h0 : (((∑ j, (ts j).ord) + 1 : ℕ) : ℝ) ≠ 0 := by positivity
    have h3 : ((Tr.ord (d := d + 1) (⟨k, ts⟩ : Tr K (d + 1)) : ℕ) : ℝ) = ((∑ j, (ts j).ord + 1 : ℕ) : ℝ) := rfl
    rw [h3, mul_div_mul_left _ _ h0]
  rw [h2]
  exact h1

/-! ## Asymptotics as the step tends to zero -/

theorem pow_isBigO {m n : ℕ} (h : n ≤ m) : (fun x : ℝ => x ^ m) =O[𝓝 0] fun x => x ^ n := by
  obtain ⟨k, rfl⟩ := Nat.exists_eq_add_of_le h
  have : (fun x : ℝ => x ^ k) =O[𝓝 0] fun _ => (1 : ℝ) :=
    (continuous_pow k).continuousAt.isBigO_one ℝ
  simpa [pow_add] using (isBigO_refl (fun x : ℝ => x ^ n) (𝓝 0)).mul this

theorem series_isBigO {d : ℕ} {F : Tr K d → E} (w : Tr K d → ℝ) (e : Tr K d → ℕ) (m : ℕ) (he : ∀ t, w t ≠ 0 → m ≤ e t) :
    (fun h : ℝ => ∑ t, (h ^ e t * w t) • F t) =O[𝓝 0] fun h => h ^ m := by
  refine IsBigO.fun_sum fun t _ => ?_
  by_cases hw : w t = 0
  · simp only [hw, mul_zero, zero_smul]
    exact isBigO_zero _ _
  · have h1 : (fun h : ℝ => (h ^ e t * w t) • F t) =O[𝓝 0] fun h => h ^ e t := by
      refine IsBigO.of_bound (‖w t‖ * ‖F t‖) (Eventually.of_forall fun h => ?_)
      rw [norm_smul, norm_mul]
      exact le_of_eq (by ring)
    exact h1.trans (pow_isBigO (he t hw))

/-- A function vanishing at zero whose derivative is of order `m` is of order `m + 1`. -/
theorem integrate_isBigO {g g' : ℝ → E} {m : ℕ} (h0 : g 0 = 0) (hg : ∀ᶠ h in 𝓝 0, HasDerivAt g (g' h) h)
    (hO : g' =O[𝓝 0] fun h => h ^ m) : g =O[𝓝 0] fun h => h ^ (m + 1) := by
  obtain ⟨C, hC⟩ := hO.bound
  obtain ⟨ε, ε0, hε⟩ := Metric.eventually_nhds_iff_ball.mp (hg.and hC)
  refine IsBigO.of_bound C ?_
  filter_upwards [Metric.ball_mem_nhds (0 : ℝ) ε0] with h hh
  have hseg : ∀ u ∈ Set.uIcc 0 h, u ∈ Metric.ball (0 : ℝ) ε ∧ |u| ≤ |h| := by
    intro u hu
    have : |u| ≤ |h| := by
      rcases Set.mem_uIcc.mp hu with ⟨a, b⟩ | ⟨a, b⟩
      · rw [abs_of_nonneg a, abs_of_nonneg (a.trans b)]; exact b
      · rw [abs_of_nonpos b, abs_of_nonpos (a.trans b)]; linarith
    refine ⟨?_, this⟩
    rw [Metric.mem_ball, dist_zero_right, Real.norm_eq_abs] at hh ⊢
    linarith
  have hCn : 0 ≤ C ∨ h = 0 := by
    by_cases hz : h = 0
    · exact Or.inr hz
    · left
      have := (hε h hh).2
      have h1 := (norm_nonneg _).trans this
      have h2 : 0 < ‖h ^ m‖ := norm_pos_iff.mpr (pow_ne_zero _ hz)
      by_contra hneg
      push Not at hneg
      nlinarith
  rcases hCn with hC0 | rfl
  · have := Convex.norm_image_sub_le_of_norm_hasDerivWithin_le (f := g) (f' := g') (s := Set.uIcc 0 h) (C := C * |h| ^ m)
      (x := 0) (y := h) (fun u hu => ((hε u (hseg u hu).1).1).hasDerivWithinAt) (fun u hu => by
        refine ((hε u (hseg u hu).1).2).trans ?_
        rw [norm_pow, Real.norm_eq_abs]
        have := (hseg u hu).2
        gcongr) (convex_uIcc 0 h) Set.left_mem_uIcc Set.right_mem_uIcc
    rw [h0, sub_zero, sub_zero] at this
    refine this.trans (le_of_eq ?_)
    rw [norm_pow, Real.norm_eq_abs, pow_succ]; ring
  · rw [h0]; simp

/-- Near a point where `f` is analytic, `f` moves by at most a multiple of the change of its argument. -/
theorem analytic_lipschitz {ι : Type*} {l : Filter ι} {f : E → E} {y : E} (hf : AnalyticAt ℝ f y) [CompleteSpace E]
    {u v : ι → E} (hu : Tendsto u l (𝓝 y)) (hv : Tendsto v l (𝓝 y)) :
    (fun h => f (u h) - f (v h)) =O[l] fun h => u h - v h := by
  obtain ⟨L, s, hs, hL⟩ := ContDiffAt.exists_lipschitzOnWith (hf.contDiffAt (n := 1))
  refine IsBigO.of_bound L ?_
  filter_upwards [hu hs, hv hs] with h h1 h2
  have := hL.dist_le_mul _ h1 _ h2
  rwa [dist_eq_norm, dist_eq_norm] at this

/-- Near a point where `f` is analytic, its Taylor polynomial of degree `K` at a point at distance `O(h)` is `f` there, up to
`O(h^(K+1))`. -/
theorem analytic_taylor {f : E → E} {y : E} {p : FormalMultilinearSeries ℝ E E} (hp : HasFPowerSeriesAt f p y) (m : ℕ)
    {δ : ℝ → E} (hδ : δ =O[𝓝 0] fun h : ℝ => h) :
    (fun h => f (y + δ h) - p.partialSum m (δ h)) =O[𝓝 0] fun h : ℝ => h ^ m := by
  have h1 := hp.isBigO_sub_partialSum_pow m
  have h2 : Tendsto δ (𝓝 0) (𝓝 0) := hδ.trans_tendsto tendsto_id
  have h3 := h1.comp_tendsto h2
  refine h3.trans ?_
  have := (hδ.norm_left.pow m)
  exact this

/-- C110, the exact solution: its Taylor polynomial is the sum over trees with the reciprocal densities. -/
theorem flow_taylor [CompleteSpace E] {f : E → E} {y : E} {p : FormalMultilinearSeries ℝ E E} (hp : HasFPowerSeriesAt f p y)
    {Y : ℝ → E} (hY0 : Y 0 = y) (hY : ∀ᶠ h in 𝓝 (0 : ℝ), HasDerivAt Y (f (Y h)) h) (d : ℕ) :
    (fun h => Y h - (y + flowSeries K p d h)) =O[𝓝 0] fun h : ℝ => h ^ min d (K + 2) := by
  have hYc : Tendsto Y (𝓝 0) (𝓝 y) := by
    have := (hY.self_of_nhds).continuousAt
    rw [ContinuousAt, hY0] at this
    exact this
  induction d with
  | zero =>
    simp only [Nat.zero_min, pow_zero, flowSeries_zero, add_zero]
    exact (hYc.sub_const y).isBigO_one ℝ
  | succ d ih =>
    have hδ : (fun h => flowSeries K p d h) =O[𝓝 0] fun h : ℝ => h := by
      have := series_isBigO (K := K) (d := d) (F := fun t => t.diff (fun k => p k)) (fun t => 1 / t.density) (fun t => t.ord) 1
        (fun t _ => by simp [Tr.ord])
      simp only [pow_one] at this
      refine this.congr_left fun h => ?_
      unfold flowSeries
      refine Finset.sum_congr rfl fun t _ => ?_
      rw [mul_one_div]
    have ht := analytic_taylor hp (K + 1) hδ
    have hP : Tendsto (fun h => y + flowSeries K p d h) (𝓝 0) (𝓝 y) := by
      have : Tendsto (fun h => flowSeries K p d h) (𝓝 0) (𝓝 0) := hδ.trans_tendsto tendsto_id
      simpa using this.const_add y
    have hl := (analytic_lipschitz hp.analyticAt hYc hP).trans ih
    have hd : (fun h => f (Y h) - p.partialSum (K + 1) (flowSeries K p d h)) =O[𝓝 0] fun h : ℝ => h ^ min d (K + 1) := by
      have e : (fun h => f (Y h) - p.partialSum (K + 1) (flowSeries K p d h)) =
          fun h => (f (Y h) - f (y + flowSeries K p d h)) +
            (f (y + flowSeries K p d h) - p.partialSum (K + 1) (flowSeries K p d h)) := by
        funext h; abel
      rw [e]
      exact (hl.trans (pow_isBigO (by omega))).add (ht.trans (pow_isBigO (by omega)))
    have hi := integrate_isBigO (g := fun h => Y h - (y + flowSeries K p (d + 1) h)) (by
      simp [hY0, flowSeries_at_zero]) (by
      filter_upwards [hY] with h hh
      exact hh.sub ((flowSeries_hasDerivAt p d h).const_add y)) hd
    refine hi.congr_right fun h => ?_
    congr 1
    omega

/-- The stages of a Runge–Kutta step: the sum over trees with the elementary weights. -/
theorem stage_taylor [CompleteSpace E] {f : E → E} {y : E} {p : FormalMultilinearSeries ℝ E E} (hp : HasFPowerSeriesAt f p y)
    (s : ℕ) (a : ℕ → ℕ → ℝ) (k : ℝ → ℕ → E)
    (hk : ∀ h, ∀ i < s, k h i = f (y + h • ∑ j ∈ Finset.range i, a i j • k h j)) (d i : ℕ) (hid : i < d) (his : i < s) :
    (fun h => k h i - stageSeries K a p d i h) =O[𝓝 0] fun h : ℝ => h ^ (K + 1) := by
  induction d generalizing i with
  | zero => omega
  | succ d ih =>
    -- the arguments
    have harg : (fun h : ℝ => h • ∑ j ∈ Finset.range i, a i j • k h j - h • ∑ l ∈ Finset.range i, a i l • stageSeries K a p d l h)
        =O[𝓝 0] fun h : ℝ => h ^ (K + 2) := by
      have e : (fun h : ℝ => h • ∑ j ∈ Finset.range i, a i j • k h j - h • ∑ l ∈ Finset.range i, a i l • stageSeries K a p d l h)
          = fun h => h • ∑ j ∈ Finset.range i, a i j • (k h j - stageSeries K a p d j h) := by
        funext h
        rw [← smul_sub, ← Finset.sum_sub_distrib]
        simp only [smul_sub]
      rw [e]
      have : (fun h => ∑ j ∈ Finset.range i, a i j • (k h j - stageSeries K a p d j h)) =O[𝓝 0] fun h : ℝ => h ^ (K + 1) := by
        refine IsBigO.fun_sum fun j hj => ?_
        have hj' := Finset.mem_range.mp hj
        exact (ih j (by omega) (by omega)).const_smul_left _
      refine ((isBigO_refl (fun h : ℝ => h) (𝓝 0)).smul this).congr_right fun h => ?_
      rw [smul_eq_mul, pow_succ' h (K + 1)]
    have hδ : (fun h : ℝ => h • ∑ l ∈ Finset.range i, a i l • stageSeries K a p d l h) =O[𝓝 0] fun h : ℝ => h := by
      have : (fun h => ∑ l ∈ Finset.range i, a i l • stageSeries K a p d l h) =O[𝓝 0] fun _ : ℝ => (1 : ℝ) := by
        refine IsBigO.fun_sum fun l _ => IsBigO.const_smul_left ?_ _
        have := series_isBigO (K := K) (d := d) (F := fun t => t.diff (fun k => p k)) (fun t => t.stage a l) (fun t => t.below) 0
          (fun t _ => Nat.zero_le _)
        simpa [stageSeries] using this
      simpa using (isBigO_refl (fun h : ℝ => h) (𝓝 0)).smul this
    have ht := analytic_taylor hp (K + 1) hδ
    have hδ0 : Tendsto (fun h : ℝ => h • ∑ l ∈ Finset.range i, a i l • stageSeries K a p d l h) (𝓝 0) (𝓝 0) :=
      hδ.trans_tendsto tendsto_id
    have h0pow : Tendsto (fun h : ℝ => h ^ (K + 2)) (𝓝 0) (𝓝 0) := by
      have := (continuous_pow (K + 2) (M := ℝ)).tendsto 0
      simpa using this
    have hv : Tendsto (fun h : ℝ => y + h • ∑ l ∈ Finset.range i, a i l • stageSeries K a p d l h) (𝓝 0) (𝓝 y) := by
      simpa using hδ0.const_add y
    have hu : Tendsto (fun h : ℝ => y + h • ∑ j ∈ Finset.range i, a i j • k h j) (𝓝 0) (𝓝 y) := by
      have h1 := (harg.trans_tendsto h0pow).add hv
      simp only [zero_add] at h1
      refine h1.congr fun h => ?_
      abel
    have hl := analytic_lipschitz hp.analyticAt hu hv
    have hl' : (fun h => f (y + h • ∑ j ∈ Finset.range i, a i j • k h j) -
        f (y + h • ∑ l ∈ Finset.range i, a i l • stageSeries K a p d l h)) =O[𝓝 0] fun h : ℝ => h ^ (K + 1) := by
      refine hl.trans ?_
      refine (harg.congr_left fun h => ?_).trans (pow_isBigO (by omega))
      abel
    have e : (fun h => k h i - stageSeries K a p (d + 1) i h) = fun h =>
        (f (y + h • ∑ j ∈ Finset.range i, a i j • k h j) - f (y + h • ∑ l ∈ Finset.range i, a i l • stageSeries K a p d l h)) +
        (f (y + h • ∑ l ∈ Finset.range i, a i l • stageSeries K a p d l h) -
          p.partialSum (K + 1) (h • ∑ l ∈ Finset.range i, a i l • stageSeries K a p d l h)) := by
      funext h
      rw [hk h i his, stageSeries_succ]
      abel
    rw [e]
    exact hl'.add ht

/-- A weighted sum of the stages of a step, over the trees. -/
theorem weighted_taylor [CompleteSpace E] {f : E → E} {y : E} {p : FormalMultilinearSeries ℝ E E} (hp : HasFPowerSeriesAt f p y)
    (s : ℕ) (a : ℕ → ℕ → ℝ) (b : ℕ → ℝ) (k : ℝ → ℕ → E)
    (hk : ∀ h, ∀ i < s, k h i = f (y + h • ∑ j ∈ Finset.range i, a i j • k h j)) :
    (fun h => ∑ i ∈ Finset.range s, b i • k h i - ∑ t : Tr K s, (h ^ t.below * t.weight s a b) • t.diff (fun k => p k))
      =O[𝓝 0] fun h : ℝ => h ^ (K + 1) := by
  have e : (fun h => ∑ i ∈ Finset.range s, b i • k h i - ∑ t : Tr K s, (h ^ t.below * t.weight s a b) • t.diff (fun k => p k)) =
      fun h => ∑ i ∈ Finset.range s, b i • (k h i - stageSeries K a p s i h) := by
    funext h
    have : ∑ t : Tr K s, (h ^ t.below * t.weight s a b) • t.diff (fun k => p k) =
        ∑ i ∈ Finset.range s, b i • stageSeries K a p s i h := by
      simp only [stageSeries, Finset.smul_sum, smul_smul]
      rw [Finset.sum_comm]
      refine Finset.sum_congr rfl fun t _ => ?_
      rw [← Finset.sum_smul, Tr.weight, Finset.mul_sum]
      congr 1
      refine Finset.sum_congr rfl fun l _ => ?_
      ring
    rw [this, ← Finset.sum_sub_distrib]
    simp only [smul_sub]
  rw [e]
  refine IsBigO.fun_sum fun i hi => IsBigO.const_smul_left ?_ _
  exact stage_taylor hp s a k hk s i (Finset.mem_range.mp hi) (Finset.mem_range.mp hi)

/-- The local error of an explicit Runge–Kutta method, over the trees. -/
theorem local_error [CompleteSpace E] {f : E → E} {y : E} {p : FormalMultilinearSeries ℝ E E} (hp : HasFPowerSeriesAt f p y)
    (s : ℕ) (hs : K + 2 ≤ s) (a : ℕ → ℕ → ℝ) (b : ℕ → ℝ) (k : ℝ → ℕ → E) (yout : ℝ → E)
    (hk : ∀ h, IsStep s a b f y h (k h) (yout h))
    {Y : ℝ → E} (hY0 : Y 0 = y) (hY : ∀ᶠ h in 𝓝 (0 : ℝ), HasDerivAt Y (f (Y h)) h) :
    (fun h => yout h - Y h - ∑ t : Tr K s, if t.ord ≤ K + 1 then
      (h ^ t.ord * (t.weight s a b - 1 / t.density)) • t.diff (fun k => p k) else 0) =O[𝓝 0] fun h : ℝ => h ^ (K + 2) := by
  have h1 := weighted_taylor (K := K) hp s a b k fun h => (hk h).1
  have h2 := flow_taylor (K := K) hp hY0 hY s
  rw [min_eq_right hs] at h2
  have h1' := ((isBigO_refl (fun h : ℝ => h) (𝓝 0)).smul h1).congr_right (g₂ := fun h : ℝ => h ^ (K + 2))
    fun h => by rw [smul_eq_mul, pow_succ' h (K + 1)]
  have h3 := series_isBigO (K := K) (d := s) (F := fun t => t.diff (fun k => p k))
    (fun t => if t.ord ≤ K + 1 then 0 else t.weight s a b - 1 / t.density) (fun t => t.ord) (K + 2) (fun t ht => by
      by_contra hc
      exact ht (if_pos (by omega)))
  refine ((h1'.sub h2).add h3).congr_left fun h => ?_
  rw [(hk h).2]
  unfold flowSeries
  have e1 : h • ∑ t : Tr K s, (h ^ t.below * t.weight s a b) • t.diff (fun k => p k) =
      ∑ t : Tr K s, (h ^ t.ord * t.weight s a b) • t.diff (fun k => p k) := by
    rw [Finset.smul_sum]
    refine Finset.sum_congr rfl fun t _ => ?_
    rw [smul_smul, Tr.ord, pow_succ]
    congr 1; ring
  have e2 : ∑ t : Tr K s, (h ^ t.ord * if t.ord ≤ K + 1 then 0 else t.weight s a b - 1 / t.density) • t.diff (fun k => p k) =
      ∑ t : Tr K s, (h ^ t.ord * t.weight s a b) • t.diff (fun k => p k) - ∑ t : Tr K s, (h ^ t.ord / t.density) • t.diff (fun k => p k)
      - ∑ t : Tr K s, if t.ord ≤ K + 1 then (h ^ t.ord * (t.weight s a b - 1 / t.density)) • t.diff (fun k => p k) else 0 := by
    rw [← Finset.sum_sub_distrib, ← Finset.sum_sub_distrib]
    refine Finset.sum_congr rfl fun t _ => ?_
    split_ifs
    · rw [mul_zero, zero_smul, ← sub_smul, ← sub_smul,
        show h ^ t.ord * t.weight s a b - h ^ t.ord / t.density - h ^ t.ord * (t.weight s a b - 1 / t.density) = 0 by ring, zero_smul]
    · rw [sub_zero, ← sub_smul]
      congr 1; ring
  rw [smul_sub, e1, e2]
  abel

end PyNLO.RK
