import Mathlib.Analysis.SpecialFunctions.Trigonometric.DerivHyp
import Mathlib.Analysis.Calculus.ContDiff.Deriv
import Mathlib.Analysis.Calculus.IteratedDeriv.Lemmas
import Mathlib.Algebra.Order.Round
import Mathlib.Algebra.Order.Floor.Ring

/-!
# Periodic continuation of functions that vanish towards the ends of a window
-/

namespace PyNLO.Nlse

open Set Filter Topology

variable {E : Type*} [NormedAddCommGroup E] [NormedSpace ℝ E]

/-- `f` on the window of width `W` around zero, continued periodically -/
noncomputable def per (W : ℝ) (f : ℝ → E) (x : ℝ) : E := f (x - round (x / W) * W)

variable {W : ℝ}

omit [NormedAddCommGroup E] [NormedSpace ℝ E] in
theorem per_periodic (hW : 0 < W) (f : ℝ → E) : Function.Periodic (per W f) W := fun x => by
  unfold per
  rw [add_div, div_self hW.ne', round_add_one]
  congr 1
  push_cast
  ring

theorem dist_window (hW : 0 < W) (x : ℝ) : |x - round (x / W) * W| ≤ W / 2 := by
  have h := abs_sub_round (x / W)
  have e : x - round (x / W) * W = (x / W - round (x / W)) * W := by field_simp
  rw [e, abs_mul, abs_of_pos hW]
  nlinarith

omit [NormedSpace ℝ E] in
/-- a function that vanishes towards the ends of the window has a continuation that is locally a translate -/
theorem per_local (hW : 0 < W) {f : ℝ → E} (hf : ∀ x, W / 2 - 1 ≤ |x| → f x = 0) {x : ℝ} {k : ℤ} (h : |x - k * W| < W / 2 + 1) :
    per W f x = f (x - k * W) := by
  unfold per
  by_cases hk : round (x / W) = k
  · rw [hk]
  · have h0 := dist_window hW x
    set m := round (x / W) with hm
    have h1 : (1 : ℝ) ≤ |(k : ℝ) - m| := by
      have : (1 : ℤ) ≤ |k - m| := Int.one_le_abs (sub_ne_zero.2 (Ne.symm hk))
      exact_mod_cast this
    have h2 : W ≤ |(x - m * W) - (x - k * W)| := by
      rw [show (x - m * W) - (x - k * W) = ((k : ℝ) - m) * W by ring, abs_mul, abs_of_pos hW]
      nlinarith
    have h3 := abs_sub (x - m * W) (x - k * W)
    rw [hf (x - m * W) (by linarith), hf (x - k * W) (by linarith)]

omit [NormedSpace ℝ E] in
theorem per_eventually (hW : 0 < W) {f : ℝ → E} (hf : ∀ x, W / 2 - 1 ≤ |x| → f x = 0) (x0 : ℝ) :
    per W f =ᶠ[𝓝 x0] fun x => f (x - round (x0 / W) * W) := by
  filter_upwards [Metric.ball_mem_nhds x0 one_pos] with x hx
  refine per_local hW hf ?_
  rw [Metric.mem_ball, Real.dist_eq] at hx
  have h1 := dist_window hW x0
  have h2 := abs_add_le (x - x0) (x0 - round (x0 / W) * W)
  rw [show x - x0 + (x0 - round (x0 / W) * W) = x - round (x0 / W) * W by ring] at h2
  linarith

theorem per_contDiff (hW : 0 < W) {f : ℝ → E} (hf : ∀ x, W / 2 - 1 ≤ |x| → f x = 0) (hc : ContDiff ℝ (⊤ : ℕ∞) f) : ContDiff ℝ (⊤ : ℕ∞) (per W f) := by
  rw [contDiff_iff_contDiffAt]
  intro x0
  exact ((hc.comp (contDiff_id.sub contDiff_const)).contDiffAt).congr_of_eventuallyEq (per_eventually hW hf x0)

theorem per_hasDerivAt (hW : 0 < W) {f f' : ℝ → E} (hf : ∀ x, W / 2 - 1 ≤ |x| → f x = 0) (hd : ∀ x, HasDerivAt f (f' x) x) (x0 : ℝ) :
    HasDerivAt (per W f) (per W f' x0) x0 := by
  have h := (hd (x0 - round (x0 / W) * W)).comp_sub_const x0 (round (x0 / W) * W)
  exact h.congr_of_eventuallyEq (per_eventually hW hf x0)

theorem per_hasDerivAt₂ (hW : 0 < W) {f f' f'' : ℝ → E} (hf : ∀ x, W / 2 - 1 ≤ |x| → f x = 0) (hd : ∀ x, HasDerivAt f (f' x) x)
    (hd' : ∀ x, HasDerivAt f' (f'' x) x) (x0 : ℝ) : HasDerivAt (per W f') (per W f'' x0) x0 := by
  have h := (hd' (x0 - round (x0 / W) * W)).comp_sub_const x0 (round (x0 / W) * W)
  refine h.congr_of_eventuallyEq ?_
  have e := (per_eventually hW hf x0).eventuallyEq_nhds
  refine e.mono fun x hx => ?_
  have h1 : HasDerivAt (fun x => f (x - round (x0 / W) * W)) (f' (x - round (x0 / W) * W)) x :=
    (hd (x - round (x0 / W) * W)).comp_sub_const x (round (x0 / W) * W)
  exact (per_hasDerivAt hW hf hd x).unique (h1.congr_of_eventuallyEq hx)

theorem per_iteratedDeriv (hW : 0 < W) {f : ℝ → E} (hf : ∀ x, W / 2 - 1 ≤ |x| → f x = 0) (k : ℕ) (x0 : ℝ) :
    iteratedDeriv k (per W f) x0 = iteratedDeriv k f (x0 - round (x0 / W) * W) := by
  rw [(per_eventually hW hf x0).iteratedDeriv_eq]
  exact congrFun (iteratedDeriv_comp_sub_const k f (round (x0 / W) * W)) x0

/-- families that depend smoothly on a second variable -/
theorem per_contDiff₂ (hW : 0 < W) {f : ℝ → ℝ → E} (hf : ∀ z x, W / 2 - 1 ≤ |x| → f z x = 0) (hc : ContDiff ℝ (⊤ : ℕ∞) fun q : ℝ × ℝ => f q.1 q.2) :
    ContDiff ℝ (⊤ : ℕ∞) fun q : ℝ × ℝ => per W (f q.1) q.2 := by
  rw [contDiff_iff_contDiffAt]
  intro q0
  have h1 : ContDiff ℝ (⊤ : ℕ∞) fun q : ℝ × ℝ => f q.1 (q.2 - round (q0.2 / W) * W) :=
    hc.comp (contDiff_fst.prodMk (contDiff_snd.sub contDiff_const))
  refine h1.contDiffAt.congr_of_eventuallyEq ?_
  have h2 : ∀ᶠ q : ℝ × ℝ in 𝓝 q0, q.2 ∈ Metric.ball q0.2 1 := continuous_snd.continuousAt.eventually (Metric.ball_mem_nhds q0.2 one_pos)
  filter_upwards [h2] with q hq
  refine per_local hW (hf q.1) ?_
  rw [Metric.mem_ball, Real.dist_eq] at hq
  have h1 := dist_window hW q0.2
  have h2 := abs_add_le (q.2 - q0.2) (q0.2 - round (q0.2 / W) * W)
  rw [show q.2 - q0.2 + (q0.2 - round (q0.2 / W) * W) = q.2 - round (q0.2 / W) * W by ring] at h2
  linarith

end PyNLO.Nlse
