import Verif.Lemmas.RungeKutta
import Verif.Lemmas.OneStep
import Mathlib.Analysis.Calculus.FDeriv.Analytic
import Mathlib.Analysis.Calculus.ContDiff.FTaylorSeries
import Mathlib.Analysis.Calculus.ContDiff.Operations
import Mathlib.Analysis.Analytic.ConvergenceRadius
import Mathlib.Analysis.Analytic.IteratedFDeriv

/-!
# Explicit Runge–Kutta methods with nodes: stability, consistency along a solution, accumulation of errors
-/

open scoped BigOperators Topology ContDiff
open Asymptotics Filter Set

namespace PyNLO.RK

variable {E F : Type*} [NormedAddCommGroup E] [NormedSpace ℝ E] [NormedAddCommGroup F] [NormedSpace ℝ F]

/-- The Taylor coefficients at a point, from the iterated derivatives. -/
noncomputable def taylorAt (g : E → F) (y : E) : FormalMultilinearSeries ℝ E F := fun k => ((k.factorial : ℝ)⁻¹) • iteratedFDeriv ℝ k g y

theorem taylorAt_spec [CompleteSpace F] {g : E → F} {y : E} (hg : AnalyticAt ℝ g y) : HasFPowerSeriesAt g (taylorAt g y) y := by
  obtain ⟨p, r, hp⟩ := hg
  refine ⟨r, ?_, hp.r_pos, fun {v} hv => hp.hasSum_iteratedFDeriv hv⟩
  refine hp.r_le.trans (FormalMultilinearSeries.radius_le_of_le fun {k} => ?_)
  unfold taylorAt
  rw [norm_smul, norm_inv, Real.norm_natCast]
  have h1 : ‖iteratedFDeriv ℝ k g y‖ ≤ k.factorial * ‖p k‖ := by
    refine ContinuousMultilinearMap.opNorm_le_bound (by positivity) fun v => ?_
    rw [hp.iteratedFDeriv_eq_sum_of_completeSpace]
    refine (norm_sum_le _ _).trans ((Finset.sum_le_card_nsmul _ _ (‖p k‖ * ∏ i, ‖v i‖) fun σ _ => ?_).trans (le_of_eq ?_))
    · refine ((p k).le_opNorm _).trans (le_of_eq ?_)
      congr 1
      exact Equiv.prod_comp σ fun i => ‖v i‖
    · rw [Finset.card_univ, Fintype.card_perm, Fintype.card_fin, nsmul_eq_mul, mul_assoc]
  have hk : (0 : ℝ) < k.factorial := by exact_mod_cast k.factorial_pos
  rw [inv_mul_le_iff₀ hk]
  exact h1

theorem diff_continuous {K : ℕ} {g : E → E} (hg : ContDiff ℝ ∞ g) : ∀ {d : ℕ} (t : Tr K d),
    Continuous fun y => t.diff (fun k => taylorAt g y k)
  | 0, t => nomatch t
  | d + 1, ⟨k, ts⟩ => by
    have h1 : Continuous fun y => taylorAt g y k := by
      have h0 : Continuous fun y => iteratedFDeriv ℝ k g y := hg.continuous_iteratedFDeriv (by exact_mod_cast le_top)
      exact h0.const_smul ((((k : ℕ).factorial : ℝ))⁻¹)
    have h2 : Continuous fun y => fun j => (ts j).diff (fun k => taylorAt g y k) := continuous_pi fun j => diff_continuous hg (ts j)
    exact h1.eval h2

/-- Stages of the method with coefficients `a` and nodes `c` for `y' = f x y`. -/
noncomputable def nst (a : ℕ → ℕ → ℝ) (c : ℕ → ℝ) (f : ℝ → E → E) (x : ℝ) (y : E) (h : ℝ) : ℕ → E
  | i => f (x + c i * h) (y + h • ∑ j : Fin i, a i j • nst a c f x y h j)

theorem nst_eq (a : ℕ → ℕ → ℝ) (c : ℕ → ℝ) (f : ℝ → E → E) (x : ℝ) (y : E) (h : ℝ) (i : ℕ) :
    nst a c f x y h i = f (x + c i * h) (y + h • ∑ j ∈ Finset.range i, a i j • nst a c f x y h j) := by
  conv_lhs => unfold nst
  rw [Finset.sum_range]

/-- A step of the method. -/
noncomputable def nstep (s : ℕ) (a : ℕ → ℕ → ℝ) (b c : ℕ → ℝ) (f : ℝ → E → E) (x : ℝ) (y : E) (h : ℝ) : E :=
  y + h • ∑ i ∈ Finset.range s, b i • nst a c f x y h i

theorem nst_contDiff {m : WithTop ℕ∞} (a : ℕ → ℕ → ℝ) (c : ℕ → ℝ) {f : ℝ → E → E} (hf : ContDiff ℝ m fun q : ℝ × E => f q.1 q.2)
    (i : ℕ) : ContDiff ℝ m fun q : ℝ × E × ℝ => nst a c f q.1 q.2.1 q.2.2 i := by
  induction i using Nat.strong_induction_on with
  | _ i ih =>
    have h1 : ContDiff ℝ m fun q : ℝ × E × ℝ => ((q.1 + c i * q.2.2, q.2.1 + q.2.2 • ∑ j ∈ Finset.range i, a i j • nst a c f q.1 q.2.1 q.2.2 j) : ℝ × E) := by
      refine ContDiff.prodMk ?_ ?_
      · exact contDiff_fst.add (contDiff_const.mul (contDiff_snd.comp contDiff_snd))
      · refine (contDiff_fst.comp contDiff_snd).add ((contDiff_snd.comp contDiff_snd).smul ?_)
        exact ContDiff.sum fun j hj => (ih j (Finset.mem_range.1 hj)).const_smul _
    have h2 : ContDiff ℝ m ((fun q : ℝ × E => f q.1 q.2) ∘ _) := hf.comp h1
    have e : (fun q : ℝ × E × ℝ => nst a c f q.1 q.2.1 q.2.2 i) = (fun q : ℝ × E => f q.1 q.2) ∘
        fun q : ℝ × E × ℝ => ((q.1 + c i * q.2.2, q.2.1 + q.2.2 • ∑ j ∈ Finset.range i, a i j • nst a c f q.1 q.2.1 q.2.2 j) : ℝ × E) := by
      funext q
      rw [nst_eq]
      rfl
    rw [e]
    exact h2

/-- What the estimates need to know about the tableau: bounds for the absolute sums and the nodes. -/
structure Bounded (s : ℕ) (a : ℕ → ℕ → ℝ) (b : ℕ → ℝ) (A B : ℝ) : Prop where
  row : ∀ i < s, ∑ j ∈ Finset.range i, |a i j| ≤ A
  wt : ∑ i ∈ Finset.range s, |b i| ≤ B
  nonneg : 0 ≤ A

section est
variable {s : ℕ} {a : ℕ → ℕ → ℝ} {b : ℕ → ℝ} {A B : ℝ}

theorem norm_row_le (hb : Bounded s a b A B) {i : ℕ} (hi : i < s) {k : ℕ → E} {M : ℝ} (hM : 0 ≤ M) (hk : ∀ j < i, ‖k j‖ ≤ M) :
    ‖∑ j ∈ Finset.range i, a i j • k j‖ ≤ A * M := by
  calc ‖∑ j ∈ Finset.range i, a i j • k j‖ ≤ ∑ j ∈ Finset.range i, |a i j| * M := by
        refine (norm_sum_le _ _).trans (Finset.sum_le_sum fun j hj => ?_)
        rw [norm_smul, Real.norm_eq_abs]
        exact mul_le_mul_of_nonneg_left (hk j (Finset.mem_range.1 hj)) (abs_nonneg _)
    _ = (∑ j ∈ Finset.range i, |a i j|) * M := by rw [Finset.sum_mul]
    _ ≤ A * M := mul_le_mul_of_nonneg_right (hb.row i hi) hM

/-- A region where the right-hand side is bounded and Lipschitz. -/
structure Nice (f : ℝ → E → E) (α β R L G : ℝ) : Prop where
  lip : ∀ x ∈ Icc α β, ∀ x' ∈ Icc α β, ∀ y y', ‖y‖ ≤ R → ‖y'‖ ≤ R → ‖f x y - f x' y'‖ ≤ L * (|x - x'| + ‖y - y'‖)
  bound : ∀ x ∈ Icc α β, ∀ y, ‖y‖ ≤ R → ‖f x y‖ ≤ G
  lip_nonneg : 0 ≤ L
  bound_nonneg : 0 ≤ G

variable {f : ℝ → E → E} {α β R L G : ℝ}

theorem nst_in (hb : Bounded s a b A B) (hn : Nice f α β R L G) {c : ℕ → ℝ} {x h : ℝ} (hh : 0 ≤ h)
    (hc : ∀ i < s, x + c i * h ∈ Icc α β) {y : E} (hy : ‖y‖ + h * (A * G) ≤ R) (i : ℕ) (hi : i < s) :
    ‖nst a c f x y h i‖ ≤ G ∧ ‖y + h • ∑ j ∈ Finset.range i, a i j • nst a c f x y h j‖ ≤ R := by
  induction i using Nat.strong_induction_on with
  | _ i ih =>
    have h1 : ‖y + h • ∑ j ∈ Finset.range i, a i j • nst a c f x y h j‖ ≤ R := by
      refine (norm_add_le _ _).trans (le_trans (add_le_add_right ?_ _) hy)
      rw [norm_smul, Real.norm_eq_abs, abs_of_nonneg hh]
      exact mul_le_mul_of_nonneg_left (norm_row_le hb hi hn.bound_nonneg fun j hj => (ih j hj (hj.trans hi)).1) hh
    refine ⟨?_, h1⟩
    rw [nst_eq]
    exact hn.bound _ (hc i hi) _ h1

theorem nst_diff (hb : Bounded s a b A B) (hn : Nice f α β R L G) {c c' : ℕ → ℝ} {x h δ : ℝ} (hh : 0 ≤ h) (hδ : 0 ≤ δ)
    (hc : ∀ i < s, x + c i * h ∈ Icc α β) (hc' : ∀ i < s, x + c' i * h ∈ Icc α β) (hcc : ∀ i < s, |c i - c' i| ≤ δ) {y y' : E}
    (hy : ‖y‖ + h * (A * G) ≤ R) (hy' : ‖y'‖ + h * (A * G) ≤ R) (hs : h * (L * A) ≤ 1 / 2) (i : ℕ) (hi : i < s) :
    ‖nst a c f x y h i - nst a c' f x y' h i‖ ≤ 2 * L * (h * δ + ‖y - y'‖) := by
  have hL := hn.lip_nonneg
  have hD : 0 ≤ h * δ + ‖y - y'‖ := by positivity
  induction i using Nat.strong_induction_on with
  | _ i ih =>
    rw [nst_eq a c, nst_eq a c']
    refine (hn.lip _ (hc i hi) _ (hc' i hi) _ _ (nst_in hb hn hh hc hy i hi).2 (nst_in hb hn hh hc' hy' i hi).2).trans ?_
    have h1 : |x + c i * h - (x + c' i * h)| ≤ h * δ := by
      rw [show x + c i * h - (x + c' i * h) = h * (c i - c' i) by ring, abs_mul, abs_of_nonneg hh]
      exact mul_le_mul_of_nonneg_left (hcc i hi) hh
    have h2 : ‖y + h • ∑ j ∈ Finset.range i, a i j • nst a c f x y h j - (y' + h • ∑ j ∈ Finset.range i, a i j • nst a c' f x y' h j)‖ ≤
        ‖y - y'‖ + h * (A * (2 * L * (h * δ + ‖y - y'‖))) := by
      have e : y + h • ∑ j ∈ Finset.range i, a i j • nst a c f x y h j - (y' + h • ∑ j ∈ Finset.range i, a i j • nst a c' f x y' h j) =
          (y - y') + h • ∑ j ∈ Finset.range i, a i j • (nst a c f x y h j - nst a c' f x y' h j) := by
        simp only [smul_sub, Finset.sum_sub_distrib]
        abel
      rw [e]
      refine (norm_add_le _ _).trans (add_le_add_right ?_ _)
      rw [norm_smul, Real.norm_eq_abs, abs_of_nonneg hh]
      exact mul_le_mul_of_nonneg_left (norm_row_le hb hi (by positivity) fun j hj => ih j hj (hj.trans hi)) hh
    calc L * (|x + c i * h - (x + c' i * h)| + _) ≤ L * (h * δ + (‖y - y'‖ + h * (A * (2 * L * (h * δ + ‖y - y'‖))))) :=
          mul_le_mul_of_nonneg_left (add_le_add h1 h2) hL
      _ = L * (h * δ + ‖y - y'‖) + 2 * (h * (L * A)) * (L * (h * δ + ‖y - y'‖)) := by ring
      _ ≤ L * (h * δ + ‖y - y'‖) + 1 * (L * (h * δ + ‖y - y'‖)) := by
          refine add_le_add_right (mul_le_mul_of_nonneg_right (by linarith) (by positivity)) _
      _ = 2 * L * (h * δ + ‖y - y'‖) := by ring

theorem nstep_diff (hb : Bounded s a b A B) (hn : Nice f α β R L G) {c c' : ℕ → ℝ} {x h δ : ℝ} (hh : 0 ≤ h) (hδ : 0 ≤ δ)
    (hc : ∀ i < s, x + c i * h ∈ Icc α β) (hc' : ∀ i < s, x + c' i * h ∈ Icc α β) (hcc : ∀ i < s, |c i - c' i| ≤ δ) {y y' : E}
    (hy : ‖y‖ + h * (A * G) ≤ R) (hy' : ‖y'‖ + h * (A * G) ≤ R) (hs : h * (L * A) ≤ 1 / 2) :
    ‖nstep s a b c f x y h - nstep s a b c' f x y' h‖ ≤ (1 + 2 * B * L * h) * ‖y - y'‖ + 2 * B * L * h * (h * δ) := by
  have hL := hn.lip_nonneg
  have hD : 0 ≤ 2 * L * (h * δ + ‖y - y'‖) := by positivity
  have e : nstep s a b c f x y h - nstep s a b c' f x y' h =
      (y - y') + h • ∑ i ∈ Finset.range s, b i • (nst a c f x y h i - nst a c' f x y' h i) := by
    unfold nstep
    simp only [smul_sub, Finset.sum_sub_distrib]
    abel
  have h1 : ‖∑ i ∈ Finset.range s, b i • (nst a c f x y h i - nst a c' f x y' h i)‖ ≤ B * (2 * L * (h * δ + ‖y - y'‖)) := by
    calc ‖∑ i ∈ Finset.range s, b i • (nst a c f x y h i - nst a c' f x y' h i)‖ ≤ ∑ i ∈ Finset.range s, |b i| * (2 * L * (h * δ + ‖y - y'‖)) := by
          refine (norm_sum_le _ _).trans (Finset.sum_le_sum fun i hi => ?_)
          rw [norm_smul, Real.norm_eq_abs]
          exact mul_le_mul_of_nonneg_left (nst_diff hb hn hh hδ hc hc' hcc hy hy' hs i (Finset.mem_range.1 hi)) (abs_nonneg _)
      _ = (∑ i ∈ Finset.range s, |b i|) * (2 * L * (h * δ + ‖y - y'‖)) := by rw [Finset.sum_mul]
      _ ≤ _ := mul_le_mul_of_nonneg_right hb.wt hD
  rw [e]
  refine (norm_add_le _ _).trans ?_
  rw [norm_smul, Real.norm_eq_abs, abs_of_nonneg hh]
  have := mul_le_mul_of_nonneg_left h1 hh
  calc ‖y - y'‖ + h * _ ≤ ‖y - y'‖ + h * (B * (2 * L * (h * δ + ‖y - y'‖))) := add_le_add_right this _
    _ = _ := by ring

end est

/-! ## Consistency -/

/-- The autonomous equation for `(x, y)`. -/
def aug (f : ℝ → E → E) (q : ℝ × E) : ℝ × E := (1, f q.1 q.2)

/-- The nodes that belong to the coefficients. -/
def rowSum (a : ℕ → ℕ → ℝ) (i : ℕ) : ℝ := ∑ j ∈ Finset.range i, a i j

theorem aug_isStep (s : ℕ) (a : ℕ → ℕ → ℝ) (b : ℕ → ℝ) (f : ℝ → E → E) (x : ℝ) (y : E) (h : ℝ) :
    IsStep s a b (aug f) (x, y) h (fun i => (1, nst a (rowSum a) f x y h i))
      (x + h * ∑ i ∈ Finset.range s, b i, nstep s a b (rowSum a) f x y h) := by
  have hsum : ∀ (t : Finset ℕ) (w : ℕ → ℝ), ∑ j ∈ t, w j • ((1, nst a (rowSum a) f x y h j) : ℝ × E) =
      (∑ j ∈ t, w j, ∑ j ∈ t, w j • nst a (rowSum a) f x y h j) := by
    intro t w
    rw [Prod.ext_iff, Prod.fst_sum, Prod.snd_sum]
    simp
  constructor
  · intro i _
    rw [hsum]
    simp only [aug, Prod.smul_mk, Prod.mk_add_mk, smul_eq_mul]
    rw [nst_eq, rowSum, mul_comm h]
  · rw [hsum]
    simp only [Prod.smul_mk, Prod.mk_add_mk, smul_eq_mul]
    rfl

theorem aug_contDiff {m : WithTop ℕ∞} {f : ℝ → E → E} (hf : ContDiff ℝ m fun q : ℝ × E => f q.1 q.2) : ContDiff ℝ m (aug f) :=
  contDiff_const.prodMk hf

theorem aug_solution {f : ℝ → E → E} {Y : ℝ → E} {z : ℝ} (h : HasDerivAt Y (f z (Y z)) z) :
    HasDerivAt (fun z => (z, Y z)) (aug f (z, Y z)) z := (hasDerivAt_id z).prodMk h

theorem solution_smooth {f : ℝ → E → E} (hf : ContDiff ℝ ∞ fun q : ℝ × E => f q.1 q.2) {Y : ℝ → E} {α β : ℝ}
    (hY : ∀ z ∈ Ioo α β, HasDerivAt Y (f z (Y z)) z) : ContDiffOn ℝ ∞ Y (Ioo α β) := by
  have h1 := OneStep.solution_contDiffOn (aug_contDiff hf) (Y := fun z => (z, Y z)) fun z hz => aug_solution (hY z hz)
  exact contDiff_snd.comp_contDiffOn h1

/-- the size of the elementary differentials up to the order `K + 1` at a point, without the component of the position -/
noncomputable def diffSum (K s : ℕ) (g : ℝ × E → ℝ × E) (y : ℝ × E) : ℝ :=
  ∑ t : Tr K s, if t.ord ≤ K + 1 then ‖(t.diff (fun k => taylorAt g y k)).2‖ else 0

theorem diffSum_continuous (K s : ℕ) {g : ℝ × E → ℝ × E} (hg : ContDiff ℝ ∞ g) : Continuous (diffSum K s g) := by
  unfold diffSum
  refine continuous_finset_sum _ fun t _ => ?_
  split_ifs
  · exact (continuous_snd.comp (diff_continuous hg t)).norm
  · exact continuous_const

/-- The expansion of a step over the trees, uniformly along a solution. -/
theorem expansion [CompleteSpace E] {K s : ℕ} (hs : K + 2 ≤ s) (a : ℕ → ℕ → ℝ) (b : ℕ → ℝ) {f : ℝ → E → E}
    (hf : ContDiff ℝ ω fun q : ℝ × E => f q.1 q.2) {Y : ℝ → E} {α β x1 x2 : ℝ} (hα : α < x1) (hβ : x2 < β)
    (hY : ∀ z ∈ Ioo α β, HasDerivAt Y (f z (Y z)) z) :
    ∃ C h0, 0 ≤ C ∧ 0 < h0 ∧ h0 ≤ 1 ∧ ∀ z ∈ Icc x1 x2, ∀ h ∈ Icc 0 h0,
      ‖nstep s a b (rowSum a) f z (Y z) h - Y (z + h) - ∑ t : Tr K s, if t.ord ≤ K + 1 then
        (h ^ t.ord * (t.weight s a b - 1 / t.density)) • (t.diff (fun k => taylorAt (aug f) (z, Y z) k)).2 else 0‖ ≤ C * h ^ (K + 2) := by
  have hf' : ContDiff ℝ ∞ fun q : ℝ × E => f q.1 q.2 := hf.of_le le_top
  have hYs := solution_smooth hf' hY
  set U : Set (ℝ × ℝ) := {q | q.1 ∈ Ioo α β ∧ q.1 + q.2 ∈ Ioo α β} with hUdef
  have hUo : IsOpen U := by
    have h1 : IsOpen {q : ℝ × ℝ | q.1 ∈ Ioo α β} := isOpen_Ioo.preimage continuous_fst
    have h2 : IsOpen {q : ℝ × ℝ | q.1 + q.2 ∈ Ioo α β} := isOpen_Ioo.preimage (continuous_fst.add continuous_snd)
    exact h1.inter h2
  have hYU : ContDiffOn ℝ ∞ (fun q : ℝ × ℝ => Y q.1) U := hYs.comp contDiff_fst.contDiffOn fun q hq => hq.1
  have he : ContDiffOn ℝ ∞ (fun q : ℝ × ℝ => nstep s a b (rowSum a) f q.1 (Y q.1) q.2 - Y (q.1 + q.2)) U := by
    refine ContDiffOn.sub ?_ (hYs.comp (contDiff_fst.add contDiff_snd).contDiffOn fun q hq => hq.2)
    unfold nstep
    refine hYU.add (contDiff_snd.contDiffOn.smul (ContDiffOn.sum fun i _ => ContDiffOn.const_smul (b i) ?_))
    have h1 : ContDiffOn ℝ ∞ (fun q : ℝ × ℝ => ((q.1, Y q.1, q.2) : ℝ × E × ℝ)) U :=
      contDiff_fst.contDiffOn.prodMk (hYU.prodMk contDiff_snd.contDiffOn)
    exact ContDiff.comp_contDiffOn (g := fun q : ℝ × E × ℝ => nst a (rowSum a) f q.1 q.2.1 q.2.2 i)
      (f := fun q : ℝ × ℝ => ((q.1, Y q.1, q.2) : ℝ × E × ℝ)) (nst_contDiff a (rowSum a) hf' i) h1
  have h0pos : 0 < min ((β - x2) / 2) 1 := lt_min (by linarith) one_pos
  have hsub : Icc x1 x2 ×ˢ Icc 0 (min ((β - x2) / 2) 1) ⊆ U := by
    rintro ⟨z, h⟩ ⟨hz, hh⟩
    have h1 : h ≤ (β - x2) / 2 := hh.2.trans (min_le_left _ _)
    have h2 : 0 ≤ h := hh.1
    have hz1 : x1 ≤ z := hz.1
    have hz2 : z ≤ x2 := hz.2
    refine ⟨⟨by linarith, by linarith⟩, ⟨?_, ?_⟩⟩
    · show α < z + h
      linarith
    · show z + h < β
      linarith
  set P : ℝ → ℕ → E := fun z k => ∑ t : Tr K s, if t.ord ≤ K + 1 ∧ t.ord = k then
    (t.weight s a b - 1 / t.density) • (t.diff (fun k => taylorAt (aug f) (z, Y z) k)).2 else 0 with hP
  have hPsum : ∀ z h, ∑ k ∈ Finset.range (K + 1 + 1), h ^ k • P z k = ∑ t : Tr K s, if t.ord ≤ K + 1 then
      (h ^ t.ord * (t.weight s a b - 1 / t.density)) • (t.diff (fun k => taylorAt (aug f) (z, Y z) k)).2 else 0 := by
    intro z h
    simp only [hP, Finset.smul_sum]
    rw [Finset.sum_comm]
    refine Finset.sum_congr rfl fun t _ => ?_
    by_cases ht : t.ord ≤ K + 1
    · rw [if_pos ht, Finset.sum_eq_single t.ord]
      · rw [if_pos ⟨ht, rfl⟩, smul_smul]
      · intro k _ hk
        rw [if_neg (fun hc => hk hc.2.symm), smul_zero]
      · intro hk
        exact absurd (Finset.mem_range.2 (by omega)) hk
    · rw [if_neg ht]
      refine Finset.sum_eq_zero fun k _ => ?_
      rw [if_neg (fun hc => ht hc.1), smul_zero]
  obtain ⟨C, hC, hb⟩ := OneStep.uniform_poly hUo he isCompact_Icc h0pos hsub (m := K + 1) P (by
    intro z hz
    have hzI : z ∈ Ioo α β := ⟨by linarith [hz.1], by linarith [hz.2]⟩
    have hYz : ∀ᶠ t in 𝓝 (0 : ℝ), HasDerivAt (fun t => ((z + t, Y (z + t)) : ℝ × E)) (aug f (z + t, Y (z + t))) t := by
      have hc : Tendsto (fun t : ℝ => z + t) (𝓝 0) (𝓝 z) := by
        have hcz : Continuous fun t : ℝ => z + t := by fun_prop
        have := hcz.tendsto 0
        rwa [add_zero] at this
      filter_upwards [hc.eventually (isOpen_Ioo.mem_nhds hzI)] with t ht
      have h1 : HasDerivAt (fun z => (z, Y z)) (aug f (z + t, Y (z + t))) (z + t) := aug_solution (hY (z + t) ht)
      have h2 : HasDerivAt (fun t : ℝ => z + t) 1 t := (hasDerivAt_id t).const_add z
      have h3 := h1.scomp t h2
      rw [one_smul] at h3
      exact h3
    have hser := taylorAt_spec ((aug_contDiff hf).contDiffAt (x := (z, Y z))).analyticAt
    have h1 := local_error (K := K) hser s hs a b (fun h i => (1, nst a (rowSum a) f z (Y z) h i))
      (fun h => (z + h * ∑ i ∈ Finset.range s, b i, nstep s a b (rowSum a) f z (Y z) h)) (fun h => aug_isStep s a b f z (Y z) h)
      (Y := fun t => (z + t, Y (z + t))) (by simp) hYz
    have h2 : (fun h => (((z + h * ∑ i ∈ Finset.range s, b i, nstep s a b (rowSum a) f z (Y z) h) : ℝ × E) - (z + h, Y (z + h)) -
        ∑ t : Tr K s, if t.ord ≤ K + 1 then (h ^ t.ord * (t.weight s a b - 1 / t.density)) • t.diff (fun k => taylorAt (aug f) (z, Y z) k) else 0).2)
        =O[𝓝 0] fun h : ℝ => h ^ (K + 2) := (isBigO_of_le _ fun h => norm_snd_le _).trans h1
    refine (h2.mono nhdsWithin_le_nhds).congr_left fun h => ?_
    rw [hPsum, Prod.snd_sub, Prod.snd_sub, Prod.snd_sum]
    congr 1
    refine Finset.sum_congr rfl fun t _ => ?_
    split_ifs <;> rfl)
  refine ⟨C, _, hC, h0pos, min_le_right _ _, fun z hz h hh => ?_⟩
  have h1 := hb z hz h hh
  rw [hPsum] at h1
  exact h1

/-- a sum over the trees with small coefficients -/
theorem series_le {K s : ℕ} {g : ℝ × E → ℝ × E} {y : ℝ × E} (u : Tr K s → ℝ) {η h M : ℝ} (hη' : 0 ≤ η) (hη : ∀ t : Tr K s, t.ord ≤ K + 1 → |u t| ≤ η) (h0 : 0 ≤ h)
    (h1 : h ≤ 1) (hM : diffSum K s g y ≤ M) :
    ‖∑ t : Tr K s, if t.ord ≤ K + 1 then (h ^ t.ord * u t) • (t.diff (fun k => taylorAt g y k)).2 else 0‖ ≤ h * (η * M) := by
  calc _ ≤ ∑ t : Tr K s, h * (η * if t.ord ≤ K + 1 then ‖(t.diff (fun k => taylorAt g y k)).2‖ else 0) := by
        refine (norm_sum_le _ _).trans (Finset.sum_le_sum fun t _ => ?_)
        split_ifs with ht
        · rw [norm_smul, norm_mul, norm_pow, Real.norm_eq_abs, Real.norm_eq_abs, abs_of_nonneg h0, mul_assoc]
          refine mul_le_mul ?_ ?_ (by positivity) h0
          · exact pow_le_of_le_one h0 h1 (by unfold Tr.ord; omega)
          · exact mul_le_mul_of_nonneg_right (hη t ht) (norm_nonneg _)
        · simp
    _ = h * (η * diffSum K s g y) := by
        unfold diffSum
        rw [Finset.mul_sum, Finset.mul_sum]
    _ ≤ h * (η * M) := mul_le_mul_of_nonneg_left (mul_le_mul_of_nonneg_left hM hη') h0

theorem consistent [CompleteSpace E] {K s : ℕ} (hs : K + 2 ≤ s) (a : ℕ → ℕ → ℝ) (b : ℕ → ℝ) {f : ℝ → E → E}
    (hf : ContDiff ℝ ω fun q : ℝ × E => f q.1 q.2) {Y : ℝ → E} {α β x1 x2 : ℝ} (hα : α < x1) (hβ : x2 < β)
    (hY : ∀ z ∈ Ioo α β, HasDerivAt Y (f z (Y z)) z) {η : ℝ} (hη' : 0 ≤ η)
    (hη : ∀ t : Tr K s, t.ord ≤ K + 1 → |t.weight s a b - 1 / t.density| ≤ η) {M : ℝ}
    (hM : ∀ z ∈ Icc x1 x2, diffSum K s (aug f) (z, Y z) ≤ M) :
    ∃ C h0, 0 ≤ C ∧ 0 < h0 ∧ h0 ≤ 1 ∧ ∀ z ∈ Icc x1 x2, ∀ h ∈ Icc 0 h0,
      ‖nstep s a b (rowSum a) f z (Y z) h - Y (z + h)‖ ≤ h * (η * M) + C * h ^ (K + 2) := by
  obtain ⟨C, h0, hC, h0pos, h0le, hb⟩ := expansion hs a b hf hα hβ hY
  refine ⟨C, h0, hC, h0pos, h0le, fun z hz h hh => ?_⟩
  have h1 := hb z hz h hh
  have h2 := series_le (K := K) (s := s) (g := aug f) (y := (z, Y z))
    (fun t => t.weight s a b - 1 / t.density) hη' hη hh.1 (hh.2.trans h0le) (hM z hz)
  have h3 := norm_add_le (nstep s a b (rowSum a) f z (Y z) h - Y (z + h) - ∑ t : Tr K s, if t.ord ≤ K + 1 then
      (h ^ t.ord * (t.weight s a b - 1 / t.density)) • (t.diff (fun k => taylorAt (aug f) (z, Y z) k)).2 else 0)
    (∑ t : Tr K s, if t.ord ≤ K + 1 then
      (h ^ t.ord * (t.weight s a b - 1 / t.density)) • (t.diff (fun k => taylorAt (aug f) (z, Y z) k)).2 else 0)
  rw [sub_add_cancel] at h3
  linarith

/-- A continuous extension of the step: uniform accuracy between its ends. -/
theorem dense_consistent [CompleteSpace E] {K s : ℕ} (hs : K + 2 ≤ s) (a : ℕ → ℕ → ℝ) {J : ℕ} (W : Fin J → ℕ → ℝ) (φ : ℝ → Fin J → ℝ)
    (hφ : ∀ θ ∈ Icc (0 : ℝ) 1, ∀ j, |φ θ j| ≤ 1) {f : ℝ → E → E}
    (hf : ContDiff ℝ ω fun q : ℝ × E => f q.1 q.2) {Y : ℝ → E} {α β x1 x2 : ℝ} (hα : α < x1) (hβ : x2 < β)
    (hY : ∀ z ∈ Ioo α β, HasDerivAt Y (f z (Y z)) z) {η : ℝ} (hη' : 0 ≤ η)
    (hη : ∀ θ ∈ Icc (0 : ℝ) 1, ∀ t : Tr K s, t.ord ≤ K + 1 → |∑ j, φ θ j * t.weight s a (W j) - θ ^ t.ord / t.density| ≤ η) {M : ℝ}
    (hM : ∀ z ∈ Icc x1 x2, diffSum K s (aug f) (z, Y z) ≤ M) :
    ∃ C h0, 0 ≤ C ∧ 0 < h0 ∧ ∀ z ∈ Icc x1 x2, ∀ h ∈ Icc 0 h0, ∀ θ ∈ Icc (0 : ℝ) 1,
      ‖nstep s a (fun i => ∑ j, φ θ j * W j i) (rowSum a) f z (Y z) h - Y (z + θ * h)‖ ≤ h * (η * M) + C * h ^ (K + 2) := by
  obtain ⟨C0, k0, hC0, k0pos, k0le, hb0⟩ := expansion hs a (fun _ => 0) hf hα hβ hY
  choose C k hC kpos kle hb using fun j => expansion hs a (W j) hf hα hβ hY
  obtain ⟨h0, h0pos, h0k, h0j⟩ : ∃ h0 > 0, h0 ≤ k0 ∧ ∀ j, h0 ≤ k j := by
    rcases J with _ | J
    · exact ⟨k0, k0pos, le_refl _, fun j => j.elim0⟩
    · refine ⟨min k0 (Finset.univ.inf' Finset.univ_nonempty k), lt_min k0pos ?_, min_le_left _ _, fun j => ?_⟩
      · rw [Finset.lt_inf'_iff]
        exact fun j _ => kpos j
      · exact (min_le_right _ _).trans (Finset.inf'_le _ (Finset.mem_univ j))
  refine ⟨∑ j, (C j + C0) + C0, h0, by have := Finset.sum_nonneg fun j (_ : j ∈ Finset.univ) => add_nonneg (hC j) hC0; linarith, h0pos,
    fun z hz h hh θ hθ => ?_⟩
  have hh1 : h ≤ 1 := hh.2.trans (h0k.trans k0le)
  set F : Tr K s → E := fun t => (t.diff (fun k => taylorAt (aug f) (z, Y z) k)).2 with hF
  have z0 : ∀ h, nstep s a (fun _ => 0) (rowSum a) f z (Y z) h = Y z := by intro h; simp [nstep]
  have hw0 : ∀ t : Tr K s, t.weight s a (fun _ => 0) = 0 := by intro t; simp [Tr.weight]
  -- the solution
  have hsol : ∀ h' ∈ Icc 0 h0, ‖Y (z + h') - Y z - ∑ t : Tr K s, (if t.ord ≤ K + 1 then (h' ^ t.ord / t.density) • F t else 0)‖ ≤
      C0 * h' ^ (K + 2) := by
    intro h' hh'
    have h1 := hb0 z hz h' ⟨hh'.1, hh'.2.trans h0k⟩
    rw [z0] at h1
    refine le_trans (le_of_eq ?_) h1
    rw [← norm_neg]
    congr 1
    have e : ∑ t : Tr K s, (if t.ord ≤ K + 1 then (h' ^ t.ord * (t.weight s a (fun _ => 0) - 1 / t.density)) • F t else 0) =
        -∑ t : Tr K s, (if t.ord ≤ K + 1 then (h' ^ t.ord / t.density) • F t else 0) := by
      rw [← Finset.sum_neg_distrib]
      refine Finset.sum_congr rfl fun t _ => ?_
      split_ifs
      · rw [hw0, zero_sub, mul_neg, neg_smul, mul_one_div]
      · rw [neg_zero]
    rw [e]; abel
  -- the stages
  have hstg : ∀ j, ‖h • ∑ i ∈ Finset.range s, W j i • nst a (rowSum a) f z (Y z) h i -
      ∑ t : Tr K s, (if t.ord ≤ K + 1 then (h ^ t.ord * t.weight s a (W j)) • F t else 0)‖ ≤ (C j + C0) * h ^ (K + 2) := by
    intro j
    have h1 := hb j z hz h ⟨hh.1, hh.2.trans (h0j j)⟩
    have h2 := hsol h hh
    rw [add_mul]
    refine le_trans (le_of_eq ?_) ((norm_add_le _ _).trans (add_le_add h1 h2))
    congr 1
    have e : ∑ t : Tr K s, (if t.ord ≤ K + 1 then (h ^ t.ord * (t.weight s a (W j) - 1 / t.density)) • F t else 0) =
        ∑ t : Tr K s, (if t.ord ≤ K + 1 then (h ^ t.ord * t.weight s a (W j)) • F t else 0) -
        ∑ t : Tr K s, (if t.ord ≤ K + 1 then (h ^ t.ord / t.density) • F t else 0) := by
      rw [← Finset.sum_sub_distrib]
      refine Finset.sum_congr rfl fun t _ => ?_
      split_ifs
      · rw [← sub_smul]; congr 1; ring
      · rw [sub_zero]
    rw [e]
    unfold nstep
    abel
  have hθh : θ * h ∈ Icc 0 h0 := ⟨mul_nonneg hθ.1 hh.1, (mul_le_of_le_one_left hh.1 hθ.2).trans hh.2⟩
  have h1 := hsol (θ * h) hθh
  have hmain := series_le (K := K) (s := s) (g := aug f) (y := (z, Y z))
    (fun t => ∑ j, φ θ j * t.weight s a (W j) - θ ^ t.ord / t.density) hη' (hη θ hθ) hh.1 hh1 (hM z hz)
  have e1 : nstep s a (fun i => ∑ j, φ θ j * W j i) (rowSum a) f z (Y z) h =
      Y z + ∑ j, φ θ j • (h • ∑ i ∈ Finset.range s, W j i • nst a (rowSum a) f z (Y z) h i) := by
    unfold nstep
    congr 1
    simp only [Finset.smul_sum, Finset.sum_smul, smul_smul]
    rw [Finset.sum_comm]
    refine Finset.sum_congr rfl fun j _ => Finset.sum_congr rfl fun i _ => ?_
    congr 1; ring
  have e2 : ∑ t : Tr K s, (if t.ord ≤ K + 1 then (h ^ t.ord * (∑ j, φ θ j * t.weight s a (W j) - θ ^ t.ord / t.density)) • F t else 0) =
      ∑ j, φ θ j • ∑ t : Tr K s, (if t.ord ≤ K + 1 then (h ^ t.ord * t.weight s a (W j)) • F t else 0) -
      ∑ t : Tr K s, (if t.ord ≤ K + 1 then ((θ * h) ^ t.ord / t.density) • F t else 0) := by
    simp only [Finset.smul_sum]
    rw [Finset.sum_comm, ← Finset.sum_sub_distrib]
    refine Finset.sum_congr rfl fun t _ => ?_
    split_ifs
    · simp only [smul_smul]
      rw [← Finset.sum_smul, ← sub_smul]
      congr 1
      rw [mul_sub, Finset.mul_sum, mul_pow]
      congr 1
      · exact Finset.sum_congr rfl fun j _ => by ring
      · ring
    · simp
  have hsum : ‖∑ j, φ θ j • (h • ∑ i ∈ Finset.range s, W j i • nst a (rowSum a) f z (Y z) h i -
      ∑ t : Tr K s, (if t.ord ≤ K + 1 then (h ^ t.ord * t.weight s a (W j)) • F t else 0))‖ ≤ ∑ j, (C j + C0) * h ^ (K + 2) := by
    refine norm_sum_le_of_le _ fun j _ => ?_
    rw [norm_smul, Real.norm_eq_abs]
    exact (mul_le_of_le_one_left (norm_nonneg _) (hφ θ hθ j)).trans (hstg j)
  have hpow : C0 * (θ * h) ^ (K + 2) ≤ C0 * h ^ (K + 2) :=
    mul_le_mul_of_nonneg_left (pow_le_pow_left₀ hθh.1 (mul_le_of_le_one_left hh.1 hθ.2) _) hC0
  have e3 : nstep s a (fun i => ∑ j, φ θ j * W j i) (rowSum a) f z (Y z) h - Y (z + θ * h) =
      ∑ j, φ θ j • (h • ∑ i ∈ Finset.range s, W j i • nst a (rowSum a) f z (Y z) h i -
        ∑ t : Tr K s, (if t.ord ≤ K + 1 then (h ^ t.ord * t.weight s a (W j)) • F t else 0)) +
      ∑ t : Tr K s, (if t.ord ≤ K + 1 then (h ^ t.ord * (∑ j, φ θ j * t.weight s a (W j) - θ ^ t.ord / t.density)) • F t else 0) -
      (Y (z + θ * h) - Y z - ∑ t : Tr K s, (if t.ord ≤ K + 1 then ((θ * h) ^ t.ord / t.density) • F t else 0)) := by
    rw [e1, e2]
    simp only [smul_sub, Finset.sum_sub_distrib]
    abel
  rw [e3]
  refine (norm_sub_le _ _).trans ?_
  have h5 := norm_add_le (∑ j, φ θ j • (h • ∑ i ∈ Finset.range s, W j i • nst a (rowSum a) f z (Y z) h i -
        ∑ t : Tr K s, (if t.ord ≤ K + 1 then (h ^ t.ord * t.weight s a (W j)) • F t else 0)))
      (∑ t : Tr K s, (if t.ord ≤ K + 1 then (h ^ t.ord * (∑ j, φ θ j * t.weight s a (W j) - θ ^ t.ord / t.density)) • F t else 0))
  rw [add_mul, Finset.sum_mul]
  linarith

/-! ## Accumulation -/

omit [NormedSpace ℝ E] in
theorem accumulate_step {Ψ : E → E} {Y : ℝ → E} {A : E} {x1 x h κ γ : ℝ} (hκ : 0 ≤ κ) (hγ : 0 ≤ γ) (hx : x1 ≤ x) (hh : 0 ≤ h)
    (hA : ‖A - Y x‖ ≤ γ * (x - x1) * Real.exp (κ * (x - x1))) (stab : ‖Ψ A - Ψ (Y x)‖ ≤ (1 + κ * h) * ‖A - Y x‖)
    (cons : ‖Ψ (Y x) - Y (x + h)‖ ≤ γ * h) : ‖Ψ A - Y (x + h)‖ ≤ γ * (x + h - x1) * Real.exp (κ * (x + h - x1)) := by
  have h1 : 1 + κ * h ≤ Real.exp (κ * h) := by
    have := Real.add_one_le_exp (κ * h)
    linarith
  have h2 : Real.exp (κ * (x + h - x1)) = Real.exp (κ * h) * Real.exp (κ * (x - x1)) := by rw [← Real.exp_add]; ring_nf
  have h3 : 1 ≤ Real.exp (κ * (x + h - x1)) := Real.one_le_exp (mul_nonneg hκ (by linarith))
  calc ‖Ψ A - Y (x + h)‖ = ‖(Ψ A - Ψ (Y x)) + (Ψ (Y x) - Y (x + h))‖ := by congr 1; abel
    _ ≤ (1 + κ * h) * ‖A - Y x‖ + γ * h := (norm_add_le _ _).trans (add_le_add stab cons)
    _ ≤ Real.exp (κ * h) * (γ * (x - x1) * Real.exp (κ * (x - x1))) + γ * h * Real.exp (κ * (x + h - x1)) := by
        refine add_le_add (mul_le_mul h1 hA (norm_nonneg _) (Real.exp_pos _).le) ?_
        exact le_mul_of_one_le_right (mul_nonneg hγ hh) h3
    _ = _ := by rw [h2]; ring

/-- The error bound at `x` for steps up to `hm`. -/
noncomputable def errBound (K : ℕ) (η M B L δ C x1 hm x : ℝ) : ℝ :=
  (η * M + 2 * B * L * δ * hm + C * hm ^ (K + 1)) * (x - x1) * Real.exp (2 * B * L * (x - x1))

/-- Convergence of a method with variable steps, with explicit constants for the rounding of the tableau. -/
theorem global_step [FiniteDimensional ℝ E] {K s : ℕ} (hs : K + 2 ≤ s) {a : ℕ → ℕ → ℝ} {b c : ℕ → ℝ} {A B : ℝ} (hb : Bounded s a b A B) {f : ℝ → E → E}
    (hf : ContDiff ℝ ω fun q : ℝ × E => f q.1 q.2) {Y : ℝ → E} {α β x1 x2 : ℝ} (hα : α < x1) (hx : x1 ≤ x2) (hβ : x2 < β)
    (hY : ∀ z ∈ Ioo α β, HasDerivAt Y (f z (Y z)) z) {η δ : ℝ} (hη' : 0 ≤ η) (hδ : 0 ≤ δ)
    (hη : ∀ t : Tr K s, t.ord ≤ K + 1 → |t.weight s a b - 1 / t.density| ≤ η)
    (hc : ∀ i < s, 0 ≤ c i ∧ c i ≤ 2 ∧ 0 ≤ rowSum a i ∧ rowSum a i ≤ 2 ∧ |c i - rowSum a i| ≤ δ) {M R L ρ : ℝ}
    (hM : ∀ z ∈ Icc x1 x2, diffSum K s (aug f) (z, Y z) ≤ M) (hρ : 0 < ρ) (hR : ∀ z ∈ Icc x1 x2, ‖Y z‖ + ρ < R)
    (hL : 0 ≤ L) (hlip : ∀ x ∈ Icc α β, ∀ x' ∈ Icc α β, ∀ y y', ‖y‖ ≤ R → ‖y'‖ ≤ R → ‖f x y - f x' y'‖ ≤ L * (|x - x'| + ‖y - y'‖))
    (hsmall : η * M * (x2 - x1) * Real.exp (2 * B * L * (x2 - x1)) < ρ) :
    ∃ C h0, 0 ≤ C ∧ 0 < h0 ∧ ∀ hm ∈ Ioc 0 h0, ∀ x ∈ Icc x1 x2, errBound K η M B L δ C x1 hm x ≤ ρ ∧
      ∀ h ∈ Icc 0 hm, x + h ≤ x2 → ∀ y, ‖y - Y x‖ ≤ errBound K η M B L δ C x1 hm x → ‖nstep s a b c f x y h - Y (x + h)‖ ≤ errBound K η M B L δ C x1 hm (x + h) := by
  have : ProperSpace E := FiniteDimensional.proper_real E
  have hf0 : Continuous fun q : ℝ × E => f q.1 q.2 := hf.continuous
  obtain ⟨G, hG⟩ := (isCompact_Icc (a := α) (b := β)).prod (isCompact_closedBall (0 : E) R) |>.exists_bound_of_continuousOn hf0.continuousOn
  have hR0 : 0 ≤ R := by
    have := hR x1 ⟨le_refl _, hx⟩
    linarith [norm_nonneg (Y x1)]
  have hG0 : 0 ≤ G := (norm_nonneg _).trans (hG (x1, 0) ⟨⟨hα.le, by linarith⟩, by simpa using hR0⟩)
  have hn : Nice f α β R L G := ⟨hlip, fun x hx y hy => hG (x, y) ⟨hx, by simpa using hy⟩, hL, hG0⟩
  obtain ⟨C, h1, hC, h1pos, h1le, cons⟩ := consistent hs a b hf hα hβ hY hη' hη hM
  have hA := hb.nonneg
  have hB : 0 ≤ B := (Finset.sum_nonneg fun i _ => abs_nonneg _).trans hb.wt
  have hηM : 0 ≤ η * M := by
    have h2 := cons x1 ⟨le_refl _, hx⟩
    by_contra hneg
    push Not at hneg
    have ht : Tendsto (fun h : ℝ => h * (η * M) + C * h ^ (K + 2)) (𝓝[>] 0) (𝓝 0) := by
      have : Continuous fun h : ℝ => h * (η * M) + C * h ^ (K + 2) := by fun_prop
      have := (this.tendsto 0).mono_left (nhdsWithin_le_nhds (s := Ioi (0 : ℝ)))
      simpa using this
    have ht2 : Tendsto (fun h : ℝ => η * M + C * h ^ (K + 1)) (𝓝[>] 0) (𝓝 (η * M)) := by
      have : Continuous fun h : ℝ => η * M + C * h ^ (K + 1) := by fun_prop
      have := (this.tendsto 0).mono_left (nhdsWithin_le_nhds (s := Ioi (0 : ℝ)))
      simpa using this
    obtain ⟨h, hh1, hh2, hh3⟩ := ((ht2.eventually (gt_mem_nhds hneg)).and (Ioo_mem_nhdsGT h1pos)).exists
    have h3 := (norm_nonneg _).trans (h2 h ⟨hh2.le, hh3.le⟩)
    have : h * (η * M + C * h ^ (K + 1)) < 0 := mul_neg_of_pos_of_neg hh2 hh1
    nlinarith [pow_succ h (K + 1)]
  set X := (x2 - x1) * Real.exp (2 * B * L * (x2 - x1)) with hX
  have hX0 : 0 ≤ X := mul_nonneg (by linarith) (Real.exp_pos _).le
  obtain ⟨h2, h2pos, h2small⟩ : ∃ h2 > 0, ∀ hm ∈ Ioc 0 h2, (η * M + 2 * B * L * δ * hm + C * hm ^ (K + 1)) * X ≤ ρ := by
    have ht : Tendsto (fun h : ℝ => (η * M + 2 * B * L * δ * h + C * h ^ (K + 1)) * X) (𝓝[>] 0) (𝓝 (η * M * X)) := by
      have : Continuous fun h : ℝ => (η * M + 2 * B * L * δ * h + C * h ^ (K + 1)) * X := by fun_prop
      have := (this.tendsto 0).mono_left (nhdsWithin_le_nhds (s := Ioi (0 : ℝ)))
      simpa using this
    have hlt : η * M * X < ρ := by rw [hX, ← mul_assoc]; exact hsmall
    obtain ⟨u, hu, hsub⟩ := mem_nhdsGT_iff_exists_Ioc_subset.1 (ht.eventually (gt_mem_nhds hlt))
    exact ⟨u, hu, fun hm hhm => (hsub hhm).le⟩
  -- `ρ` is strictly below the distance to the boundary
  obtain ⟨τ, hτ, hRτ⟩ : ∃ τ > 0, ∀ z ∈ Icc x1 x2, ‖Y z‖ + ρ + τ ≤ R := by
    have hcont : ContinuousOn (fun z => ‖Y z‖) (Icc x1 x2) := fun z hz =>
      ((hY z ⟨by linarith [hz.1], by linarith [hz.2]⟩).continuousAt.norm).continuousWithinAt
    obtain ⟨z0, hz0, hmax⟩ := isCompact_Icc.exists_isMaxOn (nonempty_Icc.2 hx) hcont
    refine ⟨R - ‖Y z0‖ - ρ, by have := hR z0 hz0; linarith, fun z hz => ?_⟩
    have : ‖Y z‖ ≤ ‖Y z0‖ := hmax hz
    linarith
  set h0 := min (min h1 h2) (min ((β - x2) / 2) (min (τ / (A * G + 1)) (1 / (2 * (L * A + 1))))) with hh0
  have h0pos : 0 < h0 := by
    have : 0 < β - x2 := by linarith
    positivity
  refine ⟨C, h0, hC, h0pos, fun hm hhm x hxx => ?_⟩
  have hm1 : hm ≤ h1 := hhm.2.trans ((min_le_left _ _).trans (min_le_left _ _))
  have hm2 : hm ≤ h2 := hhm.2.trans ((min_le_left _ _).trans (min_le_right _ _))
  have hm3 : hm ≤ (β - x2) / 2 := hhm.2.trans ((min_le_right _ _).trans (min_le_left _ _))
  have hm4 : hm ≤ τ / (A * G + 1) := hhm.2.trans ((min_le_right _ _).trans ((min_le_right _ _).trans (min_le_left _ _)))
  have hm5 : hm ≤ 1 / (2 * (L * A + 1)) := hhm.2.trans ((min_le_right _ _).trans ((min_le_right _ _).trans (min_le_right _ _)))
  set γ := η * M + 2 * B * L * δ * hm + C * hm ^ (K + 1) with hγdef
  have hm0 := hhm.1.le
  have hγ : 0 ≤ γ := by positivity
  have hex : errBound K η M B L δ C x1 hm x ≤ ρ := by
    refine le_trans ?_ (h2small hm ⟨hhm.1, hm2⟩)
    unfold errBound
    rw [← hγdef, hX, ← mul_assoc]
    have hκ : 0 ≤ 2 * B * L := by positivity
    refine mul_le_mul (mul_le_mul_of_nonneg_left (by linarith [hxx.2]) hγ) ?_ (Real.exp_pos _).le (mul_nonneg hγ (by linarith [hxx.1, hxx.2]))
    exact Real.exp_le_exp.2 (mul_le_mul_of_nonneg_left (by linarith [hxx.2]) hκ)
  refine ⟨hex, fun h hh hxh y hy => ?_⟩
  have hnode : ∀ c' : ℝ, 0 ≤ c' → c' ≤ 2 → x + c' * h ∈ Icc α β := by
    intro c' h0' h2'
    have e1 : 0 ≤ c' * h := mul_nonneg h0' hh.1
    have e2 : c' * h ≤ 2 * hm := mul_le_mul h2' hh.2 hh.1 (by norm_num)
    exact ⟨by linarith [hxx.1], by linarith [hxx.2]⟩
  have hAG : h * (A * G) ≤ τ := by
    rw [le_div_iff₀ (by positivity)] at hm4
    calc h * (A * G) ≤ hm * (A * G + 1) := mul_le_mul hh.2 (by linarith) (by positivity) hm0
      _ ≤ τ := hm4
  have hLA : h * (L * A) ≤ 1 / 2 := by
    rw [le_div_iff₀ (by positivity)] at hm5
    have : h * (L * A) ≤ hm * (L * A + 1) := mul_le_mul hh.2 (by linarith) (by positivity) hm0
    linarith
  have hYx := hRτ x hxx
  have hyR : ‖y‖ + h * (A * G) ≤ R := by
    have h3 : ‖y‖ ≤ ‖y - Y x‖ + ‖Y x‖ := by
      have := norm_add_le (y - Y x) (Y x)
      rwa [sub_add_cancel] at this
    linarith
  have hYR : ‖Y x‖ + h * (A * G) ≤ R := by linarith
  have stab := nstep_diff hb hn (c := c) (c' := c) (δ := 0) hh.1 (le_refl 0) (fun i hi => hnode _ (hc i hi).1 (hc i hi).2.1)
    (fun i hi => hnode _ (hc i hi).1 (hc i hi).2.1) (fun i _ => by simp) hyR hYR hLA
  have node := nstep_diff hb hn (c := c) (c' := rowSum a) (δ := δ) hh.1 hδ (fun i hi => hnode _ (hc i hi).1 (hc i hi).2.1)
    (fun i hi => hnode _ (hc i hi).2.2.1 (hc i hi).2.2.2.1) (fun i hi => (hc i hi).2.2.2.2) hYR hYR hLA
  rw [sub_self, norm_zero, mul_zero, zero_add] at node
  rw [mul_zero, mul_zero, add_zero] at stab
  have con := cons x hxx h ⟨hh.1, hh.2.trans hm1⟩
  refine accumulate_step (Ψ := fun y => nstep s a b c f x y h) (κ := 2 * B * L) (γ := γ) (by positivity) hγ hxx.1 hh.1 hy stab ?_
  have h3 := norm_add_le (nstep s a b c f x (Y x) h - nstep s a b (rowSum a) f x (Y x) h) (nstep s a b (rowSum a) f x (Y x) h - Y (x + h))
  rw [sub_add_sub_cancel] at h3
  refine h3.trans ?_
  have h4 : C * h ^ (K + 2) ≤ C * hm ^ (K + 1) * h := by
    rw [pow_succ, ← mul_assoc]
    exact mul_le_mul_of_nonneg_right (mul_le_mul_of_nonneg_left (pow_le_pow_left₀ hh.1 hh.2 _) hC) hh.1
  have h5 : 2 * B * L * h * (h * δ) ≤ 2 * B * L * δ * hm * h := by
    have : 2 * B * L * δ * h * h ≤ 2 * B * L * δ * hm * h := by
      refine mul_le_mul_of_nonneg_right (mul_le_mul_of_nonneg_left hh.2 (by positivity)) hh.1
    linarith
  calc _ ≤ 2 * B * L * δ * hm * h + (h * (η * M) + C * hm ^ (K + 1) * h) := by linarith
    _ = γ * h := by rw [hγdef]; ring

/-- Accuracy of a continuous extension of the step, started near the solution, with explicit constants for the rounding of
the tableau. -/
theorem dense_step [FiniteDimensional ℝ E] {K s : ℕ} (hs : K + 2 ≤ s) {a : ℕ → ℕ → ℝ} {J : ℕ} {W : Fin J → ℕ → ℝ} {φ : ℝ → Fin J → ℝ}
    {c : ℕ → ℝ} {A B : ℝ} (hφ : ∀ θ ∈ Icc (0 : ℝ) 1, ∀ j, |φ θ j| ≤ 1)
    (hb : ∀ θ ∈ Icc (0 : ℝ) 1, Bounded s a (fun i => ∑ j, φ θ j * W j i) A B) {f : ℝ → E → E}
    (hf : ContDiff ℝ ω fun q : ℝ × E => f q.1 q.2) {Y : ℝ → E} {α β x1 x2 : ℝ} (hα : α < x1) (hx : x1 ≤ x2) (hβ : x2 < β)
    (hY : ∀ z ∈ Ioo α β, HasDerivAt Y (f z (Y z)) z) {η δ : ℝ} (hη' : 0 ≤ η) (hδ : 0 ≤ δ)
    (hη : ∀ θ ∈ Icc (0 : ℝ) 1, ∀ t : Tr K s, t.ord ≤ K + 1 → |∑ j, φ θ j * t.weight s a (W j) - θ ^ t.ord / t.density| ≤ η)
    (hc : ∀ i < s, 0 ≤ c i ∧ c i ≤ 2 ∧ 0 ≤ rowSum a i ∧ rowSum a i ≤ 2 ∧ |c i - rowSum a i| ≤ δ) {M R L ρ : ℝ}
    (hM : ∀ z ∈ Icc x1 x2, diffSum K s (aug f) (z, Y z) ≤ M) (hρ : 0 < ρ) (hR : ∀ z ∈ Icc x1 x2, ‖Y z‖ + ρ < R)
    (hL : 0 ≤ L) (hlip : ∀ x ∈ Icc α β, ∀ x' ∈ Icc α β, ∀ y y', ‖y‖ ≤ R → ‖y'‖ ≤ R → ‖f x y - f x' y'‖ ≤ L * (|x - x'| + ‖y - y'‖)) :
    ∃ C h0, 0 ≤ C ∧ 0 < h0 ∧ ∀ x ∈ Icc x1 x2, ∀ h ∈ Icc 0 h0, ∀ θ ∈ Icc (0 : ℝ) 1, ∀ y, ‖y - Y x‖ ≤ ρ →
      ‖nstep s a (fun i => ∑ j, φ θ j * W j i) c f x y h - Y (x + θ * h)‖ ≤
        (1 + 2 * B * L * h) * ‖y - Y x‖ + h * (η * M + 2 * B * L * δ * h + C * h ^ (K + 1)) := by
  have : ProperSpace E := FiniteDimensional.proper_real E
  have hf0 : Continuous fun q : ℝ × E => f q.1 q.2 := hf.continuous
  obtain ⟨G, hG⟩ := (isCompact_Icc (a := α) (b := β)).prod (isCompact_closedBall (0 : E) R) |>.exists_bound_of_continuousOn hf0.continuousOn
  have hR0 : 0 ≤ R := by
    have := hR x1 ⟨le_refl _, hx⟩
    linarith [norm_nonneg (Y x1)]
  have hG0 : 0 ≤ G := (norm_nonneg _).trans (hG (x1, 0) ⟨⟨hα.le, by linarith⟩, by simpa using hR0⟩)
  have hn : Nice f α β R L G := ⟨hlip, fun x hx y hy => hG (x, y) ⟨hx, by simpa using hy⟩, hL, hG0⟩
  obtain ⟨C, h1, hC, h1pos, cons⟩ := dense_consistent hs a W φ hφ hf hα hβ hY hη' hη hM
  have hA := (hb 0 ⟨le_refl _, zero_le_one⟩).nonneg
  obtain ⟨τ, hτ, hRτ⟩ : ∃ τ > 0, ∀ z ∈ Icc x1 x2, ‖Y z‖ + ρ + τ ≤ R := by
    have hcont : ContinuousOn (fun z => ‖Y z‖) (Icc x1 x2) := fun z hz =>
      ((hY z ⟨by linarith [hz.1], by linarith [hz.2]⟩).continuousAt.norm).continuousWithinAt
    obtain ⟨z0, hz0, hmax⟩ := isCompact_Icc.exists_isMaxOn (nonempty_Icc.2 hx) hcont
    refine ⟨R - ‖Y z0‖ - ρ, by have := hR z0 hz0; linarith, fun z hz => ?_⟩
    have : ‖Y z‖ ≤ ‖Y z0‖ := hmax hz
    linarith
  set h0 := min h1 (min ((β - x2) / 2) (min (τ / (A * G + 1)) (1 / (2 * (L * A + 1))))) with hh0
  have h0pos : 0 < h0 := by
    have : 0 < β - x2 := by linarith
    positivity
  refine ⟨C, h0, hC, h0pos, fun x hxx h hh θ hθ y hy => ?_⟩
  have hm1 : h ≤ h1 := hh.2.trans (min_le_left _ _)
  have hm3 : h ≤ (β - x2) / 2 := hh.2.trans ((min_le_right _ _).trans (min_le_left _ _))
  have hm4 : h ≤ τ / (A * G + 1) := hh.2.trans ((min_le_right _ _).trans ((min_le_right _ _).trans (min_le_left _ _)))
  have hm5 : h ≤ 1 / (2 * (L * A + 1)) := hh.2.trans ((min_le_right _ _).trans ((min_le_right _ _).trans (min_le_right _ _)))
  have hh1 := hh.1
  have hnode : ∀ c' : ℝ, 0 ≤ c' → c' ≤ 2 → x + c' * h ∈ Icc α β := by
    intro c' h0' h2'
    have e1 : 0 ≤ c' * h := mul_nonneg h0' hh.1
    have e2 : c' * h ≤ 2 * h := mul_le_mul_of_nonneg_right h2' hh.1
    exact ⟨by linarith [hxx.1], by linarith [hxx.2]⟩
  have hAG : h * (A * G) ≤ τ := by
    rw [le_div_iff₀ (by positivity)] at hm4
    linarith
  have hLA : h * (L * A) ≤ 1 / 2 := by
    rw [le_div_iff₀ (by positivity)] at hm5
    linarith
  have hYx := hRτ x hxx
  have hyR : ‖y‖ + h * (A * G) ≤ R := by
    have h3 : ‖y‖ ≤ ‖y - Y x‖ + ‖Y x‖ := by
      have := norm_add_le (y - Y x) (Y x)
      rwa [sub_add_cancel] at this
    linarith
  have hYR : ‖Y x‖ + h * (A * G) ≤ R := by linarith
  have stab := nstep_diff (hb θ hθ) hn (c := c) (c' := rowSum a) (δ := δ) hh.1 hδ (fun i hi => hnode _ (hc i hi).1 (hc i hi).2.1)
    (fun i hi => hnode _ (hc i hi).2.2.1 (hc i hi).2.2.2.1) (fun i hi => (hc i hi).2.2.2.2) hyR hYR hLA
  have con := cons x hxx h ⟨hh.1, hm1⟩ θ hθ
  have h3 := norm_add_le (nstep s a (fun i => ∑ j, φ θ j * W j i) c f x y h - nstep s a (fun i => ∑ j, φ θ j * W j i) (rowSum a) f x (Y x) h)
    (nstep s a (fun i => ∑ j, φ θ j * W j i) (rowSum a) f x (Y x) h - Y (x + θ * h))
  rw [sub_add_sub_cancel] at h3
  have e : h * (η * M + 2 * B * L * δ * h + C * h ^ (K + 1)) = 2 * B * L * h * (h * δ) + (h * (η * M) + C * h ^ (K + 2)) := by ring
  rw [e]
  linarith

end PyNLO.RK
