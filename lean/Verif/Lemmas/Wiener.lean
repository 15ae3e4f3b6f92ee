import Mathlib.Analysis.Normed.Lp.lpSpace
import Mathlib.Analysis.ODE.ExistUnique
import Mathlib.Analysis.Complex.Basic
import Mathlib.Analysis.SpecialFunctions.Exponential
import Mathlib.Analysis.Normed.Group.Tannery

/-! # Cubic equations for absolutely summable Fourier coefficients

The coefficients of a solution of the nonlinear Schrödinger equation on a periodic window satisfy an ordinary differential equation in the space of
absolutely summable sequences once the linear phases have been taken out.
-/

namespace PyNLO.Wiener

open Complex Set Filter Topology

/-- absolutely summable sequences -/
noncomputable abbrev E := lp (fun _ : ℤ => ℂ) 1

theorem summable_norm (x : E) : Summable fun k => ‖x k‖ := by
  have := (memℓp_gen_iff (by simp : 0 < (1 : ENNReal).toReal)).1 (lp.memℓp x)
  simpa using this

theorem norm_eq (x : E) : ‖x‖ = ∑' k, ‖x k‖ := by
  have := lp.norm_eq_tsum_rpow (by simp : 0 < (1 : ENNReal).toReal) x
  simpa using this

theorem norm_apply_le (x : E) (k : ℤ) : ‖x k‖ ≤ ‖x‖ := by
  rw [norm_eq]
  exact (summable_norm x).le_tsum k fun _ _ => norm_nonneg _

noncomputable def mk (f : ℤ → ℂ) (h : Summable fun k => ‖f k‖) : E := ⟨f, memℓp_gen (by simpa using h)⟩

@[simp] theorem mk_apply (f : ℤ → ℂ) (h : Summable fun k => ‖f k‖) (k : ℤ) : mk f h k = f k := rfl

theorem ext {x y : E} (h : ∀ k, x k = y k) : x = y := lp.ext (funext h)

/-- a submultiplicative weight -/
structure Weight where
  w : ℤ → ℝ
  one_le : ∀ k, 1 ≤ w k
  sub : ∀ k l, w (k + l) ≤ w k * w l
  even : ∀ k, w (-k) = w k

theorem Weight.pos (w : Weight) (k : ℤ) : 0 < w.w k := lt_of_lt_of_le one_pos (w.one_le k)

/-! ## multiplication -/

noncomputable def mul (m : ℤ → ℂ) {K : ℝ} (hm : ∀ k, ‖m k‖ ≤ K) (x : E) : E := mk (fun k => m k * x k) (by
  refine ((summable_norm x).mul_left K).of_nonneg_of_le (fun _ => norm_nonneg _) fun k => ?_
  rw [norm_mul]
  exact mul_le_mul_of_nonneg_right (hm k) (norm_nonneg _))

@[simp] theorem mul_apply (m : ℤ → ℂ) {K : ℝ} (hm : ∀ k, ‖m k‖ ≤ K) (x : E) (k : ℤ) : mul m hm x k = m k * x k := rfl

theorem norm_mul_le' (m : ℤ → ℂ) {K : ℝ} (hm : ∀ k, ‖m k‖ ≤ K) (x : E) : ‖mul m hm x‖ ≤ K * ‖x‖ := by
  rw [norm_eq, norm_eq, ← tsum_mul_left]
  refine (summable_norm _).tsum_le_tsum (fun k => ?_) ((summable_norm x).mul_left K)
  rw [mul_apply, norm_mul]
  exact mul_le_mul_of_nonneg_right (hm k) (norm_nonneg _)

theorem mul_sub' (m : ℤ → ℂ) {K : ℝ} (hm : ∀ k, ‖m k‖ ≤ K) (x y : E) : mul m hm x - mul m hm y = mul m hm (x - y) := by
  refine ext fun k => ?_
  simp only [lp.coeFn_sub, Pi.sub_apply, mul_apply]
  ring

/-- conjugate amplitude at the opposite frequency -/
noncomputable def star (x : E) : E := mk (fun k => (starRingEnd ℂ) (x (-k))) (by
  simp only [RCLike.norm_conj]
  exact (summable_norm x).comp_injective (neg_injective (G := ℤ)))

@[simp] theorem star_apply (x : E) (k : ℤ) : star x k = (starRingEnd ℂ) (x (-k)) := rfl

theorem norm_star (x : E) : ‖star x‖ = ‖x‖ := by
  rw [norm_eq, norm_eq]
  simp only [star_apply, RCLike.norm_conj]
  exact (Equiv.neg ℤ).tsum_eq fun k => ‖x k‖

theorem star_sub (x y : E) : star x - star y = star (x - y) := by
  refine ext fun k => ?_
  simp only [lp.coeFn_sub, Pi.sub_apply, star_apply, map_sub]

/-! ## convolution -/

/-- `(k, j) ↦ (k - j, j)` -/
def shear : ℤ × ℤ ≃ ℤ × ℤ where
  toFun p := (p.1 - p.2, p.2)
  invFun p := (p.1 + p.2, p.2)
  left_inv p := by simp
  right_inv p := by simp

theorem summable_pair (x y : E) : Summable fun p : ℤ × ℤ => ‖x (p.1 - p.2)‖ * ‖y p.2‖ := by
  have h := (summable_norm x).mul_of_nonneg (summable_norm y) (fun _ => norm_nonneg _) (fun _ => norm_nonneg _)
  exact (shear.summable_iff (f := fun p : ℤ × ℤ => ‖x p.1‖ * ‖y p.2‖)).2 h

theorem tsum_pair (x y : E) : ∑' p : ℤ × ℤ, ‖x (p.1 - p.2)‖ * ‖y p.2‖ = ‖x‖ * ‖y‖ := by
  have h := shear.tsum_eq (fun p : ℤ × ℤ => ‖x p.1‖ * ‖y p.2‖)
  refine (Eq.trans ?_ h).trans ?_
  · rfl
  · rw [norm_eq, norm_eq, Summable.tsum_mul_tsum (summable_norm x) (summable_norm y)
      ((summable_norm x).mul_of_nonneg (summable_norm y) (fun _ => norm_nonneg _) (fun _ => norm_nonneg _))]

variable (w : Weight)

theorem weight_le (k j : ℤ) : ‖((w.w k / (w.w (k - j) * w.w j) : ℝ) : ℂ)‖ ≤ 1 := by
  have h1 := w.pos (k - j)
  have h2 := w.pos j
  rw [Complex.norm_real, Real.norm_of_nonneg (div_nonneg (w.pos k).le (by positivity)), div_le_one (by positivity)]
  have := w.sub (k - j) j
  rwa [sub_add_cancel] at this

theorem term_le (x y : E) (k j : ℤ) : ‖((w.w k / (w.w (k - j) * w.w j) : ℝ) : ℂ) * (x (k - j) * y j)‖ ≤ ‖x (k - j)‖ * ‖y j‖ := by
  rw [norm_mul, norm_mul]
  exact mul_le_of_le_one_left (by positivity) (weight_le w k j)

theorem summable_row (x y : E) (k : ℤ) : Summable fun j => ‖x (k - j)‖ * ‖y j‖ :=
  (summable_pair x y).comp_injective (i := fun j => (k, j)) fun _ _ h => (Prod.mk.inj h).2

theorem summable_term (x y : E) (k : ℤ) : Summable fun j => ((w.w k / (w.w (k - j) * w.w j) : ℝ) : ℂ) * (x (k - j) * y j) :=
  Summable.of_norm_bounded (summable_row x y k) (term_le w x y k)

theorem norm_row_le (x y : E) (k : ℤ) : ‖∑' j, ((w.w k / (w.w (k - j) * w.w j) : ℝ) : ℂ) * (x (k - j) * y j)‖ ≤ ∑' j, ‖x (k - j)‖ * ‖y j‖ :=
  tsum_of_norm_bounded (summable_row x y k).hasSum (term_le w x y k)

theorem summable_rows (x y : E) : Summable fun k => ∑' j, ‖x (k - j)‖ * ‖y j‖ := (summable_pair x y).prod

/-- convolution of sequences that carry the weight -/
noncomputable def conv (x y : E) : E := mk (fun k => ∑' j, ((w.w k / (w.w (k - j) * w.w j) : ℝ) : ℂ) * (x (k - j) * y j))
  ((summable_rows x y).of_nonneg_of_le (fun _ => norm_nonneg _) (norm_row_le w x y))

theorem conv_apply (x y : E) (k : ℤ) : conv w x y k = ∑' j, ((w.w k / (w.w (k - j) * w.w j) : ℝ) : ℂ) * (x (k - j) * y j) := rfl

theorem norm_conv_le (x y : E) : ‖conv w x y‖ ≤ ‖x‖ * ‖y‖ := by
  rw [norm_eq, ← tsum_pair, (summable_pair x y).tsum_prod]
  exact (summable_norm _).tsum_le_tsum (norm_row_le w x y) (summable_rows x y)

theorem conv_sub_left (x x' y : E) : conv w x y - conv w x' y = conv w (x - x') y := by
  refine ext fun k => ?_
  simp only [lp.coeFn_sub, Pi.sub_apply, conv_apply]
  rw [← (summable_term w x y k).tsum_sub (summable_term w x' y k)]
  refine tsum_congr fun j => ?_
  ring

theorem conv_sub_right (x y y' : E) : conv w x y - conv w x y' = conv w x (y - y') := by
  refine ext fun k => ?_
  simp only [lp.coeFn_sub, Pi.sub_apply, conv_apply]
  rw [← (summable_term w x y k).tsum_sub (summable_term w x y' k)]
  refine tsum_congr fun j => ?_
  ring

theorem conv_diff_le (x y x' y' : E) : ‖conv w x y - conv w x' y'‖ ≤ ‖x - x'‖ * ‖y‖ + ‖x'‖ * ‖y - y'‖ := by
  have : conv w x y - conv w x' y' = conv w (x - x') y + conv w x' (y - y') := by
    rw [← conv_sub_left, ← conv_sub_right]
    abel
  rw [this]
  exact (norm_add_le _ _).trans (add_le_add (norm_conv_le w _ _) (norm_conv_le w _ _))

/-! ## the cubic term -/

variable {r : ℤ → ℂ} {K : ℝ} (hr : ∀ k, ‖r k‖ ≤ K)

noncomputable def cubic (x : E) : E := conv w x (mul r hr (conv w x (star x)))

include hr in
theorem K_nonneg : 0 ≤ K := (norm_nonneg _).trans (hr 0)

theorem norm_cubic_le {B : ℝ} {x : E} (hx : ‖x‖ ≤ B) : ‖cubic w hr x‖ ≤ K * B ^ 3 := by
  have hK := K_nonneg hr
  have hB : 0 ≤ B := (norm_nonneg _).trans hx
  have h1 : ‖conv w x (star x)‖ ≤ B * B := (norm_conv_le w _ _).trans (by rw [norm_star]; gcongr)
  have h2 : ‖mul r hr (conv w x (star x))‖ ≤ K * (B * B) := (norm_mul_le' r hr _).trans (by gcongr)
  refine (norm_conv_le w _ _).trans ?_
  calc ‖x‖ * ‖mul r hr (conv w x (star x))‖ ≤ B * (K * (B * B)) := by gcongr
    _ = K * B ^ 3 := by ring

theorem cubic_lipschitz {B : ℝ} {x y : E} (hx : ‖x‖ ≤ B) (hy : ‖y‖ ≤ B) : ‖cubic w hr x - cubic w hr y‖ ≤ 3 * K * B ^ 2 * ‖x - y‖ := by
  have hK := K_nonneg hr
  have hB : 0 ≤ B := (norm_nonneg _).trans hx
  have h1 : ‖conv w x (star x)‖ ≤ B * B := (norm_conv_le w _ _).trans (by rw [norm_star]; gcongr)
  have h2 : ‖mul r hr (conv w x (star x))‖ ≤ K * (B * B) := (norm_mul_le' r hr _).trans (by gcongr)
  have h3 : ‖conv w x (star x) - conv w y (star y)‖ ≤ ‖x - y‖ * B + B * ‖x - y‖ := by
    refine (conv_diff_le w _ _ _ _).trans ?_
    rw [star_sub, norm_star, norm_star]
    gcongr
  have h4 : ‖mul r hr (conv w x (star x)) - mul r hr (conv w y (star y))‖ ≤ K * (‖x - y‖ * B + B * ‖x - y‖) := by
    rw [mul_sub']
    exact (norm_mul_le' r hr _).trans (by gcongr)
  refine (conv_diff_le w _ _ _ _).trans ?_
  calc ‖x - y‖ * ‖mul r hr (conv w x (star x))‖ + ‖y‖ * ‖mul r hr (conv w x (star x)) - mul r hr (conv w y (star y))‖
      ≤ ‖x - y‖ * (K * (B * B)) + B * (K * (‖x - y‖ * B + B * ‖x - y‖)) := by gcongr
    _ = 3 * K * B ^ 2 * ‖x - y‖ := by ring

/-! ## the linear phases -/

/-- `exp(i·b·z)` -/
noncomputable def phase (b : ℤ → ℝ) (z : ℝ) (k : ℤ) : ℂ := exp (((b k * z : ℝ) : ℂ) * I)

theorem norm_phase (b : ℤ → ℝ) (z : ℝ) (k : ℤ) : ‖phase b z k‖ = 1 := Complex.norm_exp_ofReal_mul_I _

theorem phase_le (b : ℤ → ℝ) (z : ℝ) (k : ℤ) : ‖phase b z k‖ ≤ 1 := (norm_phase b z k).le

theorem phase_neg (b : ℤ → ℝ) (z : ℝ) (k : ℤ) : phase b (-z) k * phase b z k = 1 := by
  unfold phase
  rw [← Complex.exp_add, ← add_mul, ← Complex.ofReal_add, mul_neg, neg_add_cancel]
  simp

noncomputable def turn (b : ℤ → ℝ) (z : ℝ) (x : E) : E := mul (phase b z) (phase_le b z) x

@[simp] theorem turn_apply (b : ℤ → ℝ) (z : ℝ) (x : E) (k : ℤ) : turn b z x k = phase b z k * x k := rfl

theorem norm_turn (b : ℤ → ℝ) (z : ℝ) (x : E) : ‖turn b z x‖ = ‖x‖ := by
  rw [norm_eq, norm_eq]
  refine tsum_congr fun k => ?_
  rw [turn_apply, norm_mul, norm_phase, one_mul]

theorem turn_sub (b : ℤ → ℝ) (z : ℝ) (x y : E) : turn b z x - turn b z y = turn b z (x - y) := mul_sub' _ _ x y

theorem continuous_phase (b : ℤ → ℝ) (k : ℤ) : Continuous fun z => phase b z k := by
  unfold phase
  fun_prop

/-- the phases act continuously -/
theorem continuous_turn (b : ℤ → ℝ) (x : E) : Continuous fun z => turn b z x := by
  refine continuous_iff_continuousAt.2 fun z => ?_
  refine tendsto_iff_norm_sub_tendsto_zero.2 ?_
  have e : ∀ z', ‖turn b z' x - turn b z x‖ = ∑' k, ‖(phase b z' k - phase b z k) * x k‖ := by
    intro z'
    rw [norm_eq]
    refine tsum_congr fun k => ?_
    simp only [lp.coeFn_sub, Pi.sub_apply, turn_apply, sub_mul]
  simp only [e]
  have h0 : ∑' k : ℤ, (0 : ℝ) = 0 := tsum_zero
  rw [← h0]
  refine tendsto_tsum_of_dominated_convergence (bound := fun k => 2 * ‖x k‖) ((summable_norm x).mul_left 2) (fun k => ?_)
    (Eventually.of_forall fun z' k => ?_)
  · have h1 : Tendsto (fun z' => (phase b z' k - phase b z k) * x k) (𝓝 z) (𝓝 ((phase b z k - phase b z k) * x k)) :=
      (((continuous_phase b k).tendsto z).sub tendsto_const_nhds).mul tendsto_const_nhds
    rw [sub_self, zero_mul] at h1
    simpa using h1.norm
  · rw [norm_norm, norm_mul]
    refine mul_le_mul_of_nonneg_right ?_ (norm_nonneg _)
    refine (norm_sub_le _ _).trans ?_
    rw [norm_phase, norm_phase]
    norm_num

theorem continuous_turn_comp (b : ℤ → ℝ) {y : ℝ → E} (hy : Continuous y) : Continuous fun z => turn b (-z) (y z) := by
  refine continuous_iff_continuousAt.2 fun z => ?_
  refine tendsto_iff_norm_sub_tendsto_zero.2 ?_
  have h1 : Tendsto (fun z' => ‖y z' - y z‖ + ‖turn b (-z') (y z) - turn b (-z) (y z)‖) (𝓝 z) (𝓝 0) := by
    have a := tendsto_iff_norm_sub_tendsto_zero.1 (hy.tendsto z)
    have c := tendsto_iff_norm_sub_tendsto_zero.1 (((continuous_turn b (y z)).comp continuous_neg).tendsto z)
    simpa using a.add c
  refine squeeze_zero (fun _ => norm_nonneg _) (fun z' => ?_) h1
  have : turn b (-z') (y z') - turn b (-z) (y z) = turn b (-z') (y z' - y z) + (turn b (-z') (y z) - turn b (-z) (y z)) := by
    rw [← turn_sub]
    abel
  rw [this]
  exact (norm_add_le _ _).trans (by rw [norm_turn])

/-! ## the equation without its linear phases -/

noncomputable def field (b : ℤ → ℝ) (g γ : ℝ) (z : ℝ) (x : E) : E := ((g / 2 : ℝ) : ℂ) • x + (I * γ) • turn b (-z) (cubic w hr (turn b z x))

theorem norm_field_le (b : ℤ → ℝ) (g γ z : ℝ) {B : ℝ} {x : E} (hx : ‖x‖ ≤ B) : ‖field w hr b g γ z x‖ ≤ |g| / 2 * B + |γ| * (K * B ^ 3) := by
  unfold field
  refine (norm_add_le _ _).trans ?_
  rw [norm_smul, norm_smul, norm_turn, norm_mul, Complex.norm_I, one_mul, Complex.norm_real, Complex.norm_real, Real.norm_eq_abs, Real.norm_eq_abs,
    abs_div, abs_of_pos (by norm_num : (0 : ℝ) < 2)]
  have := norm_cubic_le w hr (B := B) (x := turn b z x) (by rwa [norm_turn])
  gcongr

theorem field_lipschitz (b : ℤ → ℝ) (g γ z : ℝ) {B : ℝ} {x y : E} (hx : ‖x‖ ≤ B) (hy : ‖y‖ ≤ B) :
    ‖field w hr b g γ z x - field w hr b g γ z y‖ ≤ (|g| / 2 + |γ| * (3 * K * B ^ 2)) * ‖x - y‖ := by
  have e : field w hr b g γ z x - field w hr b g γ z y = ((g / 2 : ℝ) : ℂ) • (x - y) +
      (I * γ) • turn b (-z) (cubic w hr (turn b z x) - cubic w hr (turn b z y)) := by
    unfold field
    rw [← turn_sub, smul_sub, smul_sub]
    abel
  rw [e]
  refine (norm_add_le _ _).trans ?_
  rw [norm_smul, norm_smul, norm_turn, norm_mul, Complex.norm_I, one_mul, Complex.norm_real, Complex.norm_real, Real.norm_eq_abs, Real.norm_eq_abs,
    abs_div, abs_of_pos (by norm_num : (0 : ℝ) < 2)]
  have := cubic_lipschitz w hr (B := B) (x := turn b z x) (y := turn b z y) (by rwa [norm_turn]) (by rwa [norm_turn])
  rw [turn_sub, norm_turn] at this
  calc |g| / 2 * ‖x - y‖ + |γ| * ‖cubic w hr (turn b z x) - cubic w hr (turn b z y)‖
      ≤ |g| / 2 * ‖x - y‖ + |γ| * (3 * K * B ^ 2 * ‖x - y‖) := by gcongr
    _ = _ := by ring

theorem continuous_field (b : ℤ → ℝ) (g γ : ℝ) (x : E) : Continuous fun z => field w hr b g γ z x := by
  unfold field
  refine continuous_const.add (Continuous.fun_const_smul (continuous_turn_comp b ?_) _)
  refine continuous_iff_continuousAt.2 fun z => ?_
  refine tendsto_iff_norm_sub_tendsto_zero.2 ?_
  have h1 := (tendsto_iff_norm_sub_tendsto_zero.1 ((continuous_turn b x).tendsto z)).const_mul (3 * K * ‖x‖ ^ 2)
  rw [mul_zero] at h1
  exact squeeze_zero (fun _ => norm_nonneg _) (fun z' => cubic_lipschitz w hr (norm_turn b z' x).le (norm_turn b z x).le) h1

theorem field_lipschitzOn (b : ℤ → ℝ) (g γ z : ℝ) (B : ℝ) :
    LipschitzOnWith (Real.toNNReal (|g| / 2 + |γ| * (3 * K * B ^ 2))) (field w hr b g γ z) {x | ‖x‖ ≤ B} := by
  refine LipschitzOnWith.of_dist_le_mul fun x hx y hy => ?_
  have hK := K_nonneg hr
  rw [dist_eq_norm, dist_eq_norm, Real.coe_toNNReal _ (by positivity)]
  exact field_lipschitz w hr b g γ z hx hy

/-- existence over a distance that depends only on the size of the datum -/
theorem exists_solution (b : ℤ → ℝ) (g γ : ℝ) {x0 : E} {A L : ℝ} (hx : ‖x0‖ ≤ A) (hL : 0 ≤ L) (hs : L * (|g| * A + 8 * (|γ| * K * A ^ 3)) ≤ A) :
    ∃ α : ℝ → E, α 0 = x0 ∧ (∀ z ∈ Icc (-L) L, HasDerivWithinAt α (field w hr b g γ z (α z)) (Icc (-L) L) z) ∧ ∀ z, ‖α z‖ ≤ 2 * A := by
  have hA : 0 ≤ A := (norm_nonneg _).trans hx
  have hK := K_nonneg hr
  have hball : ∀ x ∈ Metric.closedBall x0 (Real.toNNReal A : ℝ), ‖x‖ ≤ 2 * A := by
    intro x hx'
    rw [mem_closedBall_iff_norm, Real.coe_toNNReal _ hA] at hx'
    have := norm_le_norm_add_norm_sub' x x0
    linarith
  have h0 : (0 : ℝ) ∈ Icc (-L) L := ⟨by linarith, hL⟩
  have hpl : IsPicardLindelof (field w hr b g γ) (tmin := -L) (tmax := L) ⟨0, h0⟩ x0 (Real.toNNReal A) 0
      (Real.toNNReal (|g| * A + 8 * (|γ| * K * A ^ 3))) (Real.toNNReal (|g| / 2 + |γ| * (3 * K * (2 * A) ^ 2))) := by
    refine ⟨fun z _ => (field_lipschitzOn w hr b g γ z (2 * A)).mono hball, fun x _ => (continuous_field w hr b g γ x).continuousOn, fun z _ x hx' => ?_, ?_⟩
    · rw [Real.coe_toNNReal _ (by positivity)]
      refine (norm_field_le w hr b g γ z (hball x hx')).trans (le_of_eq ?_)
      ring
    · rw [Real.coe_toNNReal _ (by positivity)]
      simp only [sub_zero, zero_sub, neg_neg, max_self, NNReal.coe_zero, Real.coe_toNNReal _ hA]
      rw [mul_comm]
      exact hs
  obtain ⟨α, hα⟩ := ODE.FunSpace.exists_isFixedPt_next hpl (Metric.mem_closedBall_self le_rfl)
  refine ⟨α.compProj, ?_, fun t ht => ?_, fun z => hball _ (α.compProj_mem_closedBall hpl.mul_max_le)⟩
  · have := ODE.FunSpace.compProj_val (α := α) (t := ⟨0, h0⟩)
    refine this.trans ?_
    rw [← hα, ODE.FunSpace.next_apply₀]
  · apply (ODE.hasDerivWithinAt_picard_Icc h0 hpl.continuousOn_uncurry
      α.continuous_compProj.continuousOn (fun _ ht' => α.compProj_mem_closedBall hpl.mul_max_le) x0 ht).congr_of_mem _ ht
    intro t' ht'
    nth_rw 1 [← hα]
    rw [ODE.FunSpace.compProj_of_mem ht', ODE.FunSpace.next_apply]

/-! ## from weighted to plain sequences -/

def one : Weight := ⟨fun _ => 1, fun _ => le_rfl, fun _ _ => by norm_num, fun _ => rfl⟩

/-- `(1 + δ|k|)ˢ` -/
def power {δ : ℝ} (hδ : 0 ≤ δ) (s : ℕ) : Weight where
  w k := (1 + δ * |(k : ℝ)|) ^ s
  one_le k := one_le_pow₀ (by have := mul_nonneg hδ (abs_nonneg (k : ℝ)); linarith)
  sub k l := by
    rw [← mul_pow]
    have h1 := mul_nonneg hδ (abs_nonneg (k : ℝ))
    have h2 := mul_nonneg hδ (abs_nonneg (l : ℝ))
    have h3 := mul_le_mul_of_nonneg_left (abs_add_le (k : ℝ) l) hδ
    have h4 := mul_nonneg h1 h2
    push_cast
    refine pow_le_pow_left₀ (by have := mul_nonneg hδ (abs_nonneg ((k : ℝ) + l)); linarith) ?_ s
    nlinarith
  even k := by
    push_cast
    rw [abs_neg]

theorem inv_le (k : ℤ) : ‖(((w.w k)⁻¹ : ℝ) : ℂ)‖ ≤ 1 := by
  rw [Complex.norm_real, Real.norm_of_nonneg (inv_nonneg.2 (w.pos k).le)]
  exact inv_le_one_of_one_le₀ (w.one_le k)

/-- take the weight off -/
noncomputable def scale : E →L[ℝ] E := LinearMap.mkContinuous
  { toFun := mul (fun k => (((w.w k)⁻¹ : ℝ) : ℂ)) (inv_le w)
    map_add' := fun x y => ext fun k => by simp only [lp.coeFn_add, Pi.add_apply, mul_apply]; ring
    map_smul' := fun c x => ext fun k => by
      simp only [lp.coeFn_smul, Pi.smul_apply, mul_apply, RingHom.id_apply, Complex.real_smul]; ring } 1 (norm_mul_le' _ (inv_le w))

@[simp] theorem scale_apply (x : E) (k : ℤ) : scale w x k = (((w.w k)⁻¹ : ℝ) : ℂ) * x k := rfl

theorem norm_scale_le (x : E) : ‖scale w x‖ ≤ ‖x‖ := by
  have := norm_mul_le' _ (inv_le w) x
  rwa [one_mul] at this

/-- amplitude `k` -/
noncomputable def amp (k : ℤ) : E →L[ℝ] ℂ := LinearMap.mkContinuous
  { toFun := fun x => x k
    map_add' := fun x y => by simp only [lp.coeFn_add, Pi.add_apply]
    map_smul' := fun c x => by simp only [lp.coeFn_smul, Pi.smul_apply, RingHom.id_apply] } 1 (fun x => by rw [one_mul]; exact norm_apply_le x k)

@[simp] theorem amp_apply (x : E) (k : ℤ) : amp k x = x k := rfl

theorem conv_one (x y : E) (k : ℤ) : conv one x y k = ∑' j, x (k - j) * y j := by
  rw [conv_apply]
  simp [one]

theorem scale_conv (x y : E) : scale w (conv w x y) = conv one (scale w x) (scale w y) := by
  refine ext fun k => ?_
  rw [conv_one, scale_apply, conv_apply, ← tsum_mul_left]
  refine tsum_congr fun j => ?_
  have h0 : (w.w k : ℂ) ≠ 0 := by exact_mod_cast (w.pos k).ne'
  simp only [scale_apply]
  push_cast
  rw [div_eq_mul_inv, mul_inv]
  linear_combination ((w.w (k - j) : ℂ)⁻¹ * (w.w j : ℂ)⁻¹ * x (k - j) * y j) * inv_mul_cancel₀ h0

theorem scale_star (x : E) : scale w (star x) = star (scale w x) := by
  refine ext fun k => ?_
  simp only [scale_apply, star_apply, map_mul, Complex.conj_ofReal, w.even]

theorem scale_mul (m : ℤ → ℂ) {K : ℝ} (hm : ∀ k, ‖m k‖ ≤ K) (x : E) : scale w (mul m hm x) = mul m hm (scale w x) := by
  refine ext fun k => ?_
  simp only [scale_apply, mul_apply]
  ring

theorem scale_turn (b : ℤ → ℝ) (z : ℝ) (x : E) : scale w (turn b z x) = turn b z (scale w x) := scale_mul w _ _ x

theorem scale_cubic (x : E) : scale w (cubic w hr x) = cubic one hr (scale w x) := by
  unfold cubic
  rw [scale_conv, scale_mul, scale_conv, scale_star]

theorem scale_smul (c : ℂ) (x : E) : scale w (c • x) = c • scale w x := by
  refine ext fun k => ?_
  simp only [scale_apply, lp.coeFn_smul, Pi.smul_apply, smul_eq_mul]
  ring

theorem scale_field (b : ℤ → ℝ) (g γ z : ℝ) (x : E) : scale w (field w hr b g γ z x) = field one hr b g γ z (scale w x) := by
  unfold field
  rw [map_add, scale_smul, scale_smul, scale_turn, scale_cubic, scale_turn]

theorem continuousOn_of_deriv {α α' : ℝ → E} {L : ℝ} (h : ∀ z ∈ Icc (-L) L, HasDerivWithinAt α (α' z) (Icc (-L) L) z) : ContinuousOn α (Icc (-L) L) :=
  fun z hz => (h z hz).continuousWithinAt

theorem hasDerivAt_of_within {α α' : ℝ → E} {L : ℝ} (h : ∀ z ∈ Icc (-L) L, HasDerivWithinAt α (α' z) (Icc (-L) L) z) {z : ℝ} (hz : z ∈ Ioo (-L) L) :
    HasDerivAt α (α' z) z := (h z (Ioo_subset_Icc_self hz)).hasDerivAt (Icc_mem_nhds hz.1 hz.2)

/-- solutions with and without weight agree -/
theorem scale_eq (b : ℤ → ℝ) (g γ : ℝ) {A L : ℝ} (hL : 0 < L) {α β : ℝ → E}
    (hα : ∀ z ∈ Icc (-L) L, HasDerivWithinAt α (field one hr b g γ z (α z)) (Icc (-L) L) z) (hαA : ∀ z, ‖α z‖ ≤ A)
    (hβ : ∀ z ∈ Icc (-L) L, HasDerivWithinAt β (field w hr b g γ z (β z)) (Icc (-L) L) z) (hβA : ∀ z, ‖β z‖ ≤ A) (h0 : α 0 = scale w (β 0)) :
    EqOn α (fun z => scale w (β z)) (Icc (-L) L) := by
  have hd : ∀ z ∈ Icc (-L) L, HasDerivWithinAt (fun z => scale w (β z)) (field one hr b g γ z (scale w (β z))) (Icc (-L) L) z := by
    intro z hz
    rw [← scale_field]
    exact (scale w).hasFDerivAt.comp_hasDerivWithinAt z (hβ z hz)
  exact ODE_solution_unique_of_mem_Icc (v := field one hr b g γ) (s := fun _ => {x | ‖x‖ ≤ A}) (fun z _ => field_lipschitzOn one hr b g γ z A)
    (⟨by linarith, hL⟩ : (0 : ℝ) ∈ Ioo (-L) L) (continuousOn_of_deriv hα) (fun z hz => hasDerivAt_of_within hα hz) (fun z _ => hαA z)
    (continuousOn_of_deriv hd) (fun z hz => hasDerivAt_of_within hd hz) (fun z _ => (norm_scale_le w _).trans (hβA z)) h0

/-- a weight that hardly changes the size of a rapidly decaying sequence -/
theorem exists_power {c : ℤ → ℂ} {A : ℝ} (s : ℕ) (hc : Summable fun k : ℤ => (1 + |(k : ℝ)|) ^ s * ‖c k‖) (hA : ∑' k, ‖c k‖ < A) :
    ∃ δ : ℝ, 0 < δ ∧ δ ≤ 1 ∧ ∑' k : ℤ, (1 + δ * |(k : ℝ)|) ^ s * ‖c k‖ < A := by
  have h : Tendsto (fun δ : ℝ => ∑' k : ℤ, (1 + δ * |(k : ℝ)|) ^ s * ‖c k‖) (𝓝[>] 0) (𝓝 (∑' k : ℤ, ‖c k‖)) := by
    refine tendsto_tsum_of_dominated_convergence hc (fun k => ?_) ?_
    · have : Continuous fun δ : ℝ => (1 + δ * |(k : ℝ)|) ^ s * ‖c k‖ := by fun_prop
      have h := this.tendsto 0
      simp only [zero_mul, add_zero, one_pow, one_mul] at h
      exact h.mono_left nhdsWithin_le_nhds
    · filter_upwards [Ioc_mem_nhdsGT (zero_lt_one' ℝ)] with δ hδ k
      have h1 := mul_nonneg hδ.1.le (abs_nonneg (k : ℝ))
      have h2 := mul_le_mul_of_nonneg_right hδ.2 (abs_nonneg (k : ℝ))
      rw [norm_mul, norm_norm, norm_pow, Real.norm_of_nonneg (by linarith)]
      refine mul_le_mul_of_nonneg_right (pow_le_pow_left₀ (by linarith) (by linarith) s) (norm_nonneg _)
  have h2 := (h.eventually (gt_mem_nhds hA)).and (Ioc_mem_nhdsGT (zero_lt_one' ℝ))
  obtain ⟨δ, h3, h4⟩ := h2.exists
  exact ⟨δ, h4.1, h4.2, h3⟩

/-- `Σ c(k-j)·r(j)·(c⋆c*)(j)` -/
noncomputable def cubicSum (r : ℤ → ℂ) (c : ℤ → ℂ) (k : ℤ) : ℂ := ∑' j, c (k - j) * (r j * ∑' l, c (j - l) * (starRingEnd ℂ) (c (-l)))

theorem cubic_one (x : E) (k : ℤ) : cubic one hr x k = cubicSum r (fun k => x k) k := by
  unfold cubic cubicSum
  rw [conv_one]
  refine tsum_congr fun j => ?_
  rw [mul_apply, conv_one]
  rfl

include hr in
/-- coefficients that solve the equation, with rapid decay on the whole distance -/
theorem exists_coefficients (b : ℤ → ℝ) (g γ : ℝ) {c0 : ℤ → ℂ} (hc : ∀ s : ℕ, Summable fun k : ℤ => (1 + |(k : ℝ)|) ^ s * ‖c0 k‖) {A L : ℝ}
    (hA : ∑' k, ‖c0 k‖ < A) (hL : 0 < L) (hs : L * (|g| * A + 8 * (|γ| * K * A ^ 3)) ≤ A) :
    ∃ c : ℤ → ℝ → ℂ, (∀ k, c k 0 = c0 k) ∧ (∀ s : ℕ, ∃ C, ∀ k : ℤ, ∀ z ∈ Ioo (-L) L, (1 + |(k : ℝ)|) ^ s * ‖c k z‖ ≤ C) ∧
      ∀ k, ∀ z ∈ Ioo (-L) L, HasDerivAt (c k) (I * b k * c k z + (g / 2 : ℝ) * c k z + I * γ * cubicSum r (fun k => c k z) k) z := by
  have hc1 : Summable fun k : ℤ => ‖c0 k‖ := by simpa using hc 0
  obtain ⟨α, hα0, hα, hαA⟩ := exists_solution one hr b g γ (x0 := mk c0 hc1) (A := A) (L := L) (by rw [norm_eq]; exact hA.le) hL.le hs
  refine ⟨fun k z => phase b z k * α z k, fun k => ?_, fun s => ?_, fun k z hz => ?_⟩
  · simp only [hα0, mk_apply, phase, mul_zero, Complex.ofReal_zero, zero_mul, Complex.exp_zero, one_mul]
  · obtain ⟨δ, hδ, hδ1, hsum⟩ := exists_power s (hc s) hA
    let w := power hδ.le s
    have hw : ∀ k, ‖((w.w k : ℝ) : ℂ) * c0 k‖ = (1 + δ * |(k : ℝ)|) ^ s * ‖c0 k‖ := by
      intro k
      rw [norm_mul, Complex.norm_real, Real.norm_of_nonneg (w.pos k).le]
      rfl
    have hc2 : Summable fun k => ‖((w.w k : ℝ) : ℂ) * c0 k‖ := by
      simp only [hw]
      refine (hc s).of_nonneg_of_le (fun k => by positivity) fun k => ?_
      have h2 := mul_le_mul_of_nonneg_right hδ1 (abs_nonneg (k : ℝ))
      rw [one_mul] at h2
      gcongr
    obtain ⟨β, hβ0, hβ, hβA⟩ := exists_solution w hr b g γ (x0 := mk _ hc2) (A := A) (L := L)
      (by rw [norm_eq]; simp only [mk_apply, hw]; exact hsum.le) hL.le hs
    have he := scale_eq w hr b g γ hL hα hαA hβ hβA (by
      refine ext fun k => ?_
      have h0 : (w.w k : ℂ) ≠ 0 := by exact_mod_cast (w.pos k).ne'
      rw [hα0, hβ0, scale_apply, mk_apply, mk_apply]
      push_cast
      rw [← mul_assoc, inv_mul_cancel₀ h0, one_mul])
    refine ⟨(δ ^ s)⁻¹ * (2 * A), fun k z hz => ?_⟩
    have e := he (Ioo_subset_Icc_self hz)
    have h1 : w.w k * ‖α z k‖ ≤ 2 * A := by
      rw [e]
      simp only [scale_apply]
      rw [norm_mul, Complex.norm_real, Real.norm_of_nonneg (inv_nonneg.2 (w.pos k).le), ← mul_assoc, mul_inv_cancel₀ (w.pos k).ne', one_mul]
      exact (norm_apply_le _ k).trans (hβA z)
    rw [norm_mul, norm_phase, one_mul, ← div_eq_inv_mul, le_div_iff₀ (by positivity)]
    refine le_trans ?_ h1
    have h2 : (1 + |(k : ℝ)|) ^ s * δ ^ s ≤ w.w k := by
      show _ ≤ (1 + δ * |(k : ℝ)|) ^ s
      rw [← mul_pow]
      refine pow_le_pow_left₀ (by positivity) ?_ s
      linarith
    have := mul_le_mul_of_nonneg_right h2 (norm_nonneg (α z k))
    linarith
  · have h1 : HasDerivAt (fun z => α z k) (field one hr b g γ z (α z) k) z :=
      (amp k).hasFDerivAt.comp_hasDerivAt z (hasDerivAt_of_within hα hz)
    have h2 : HasDerivAt (fun z => phase b z k) (I * b k * phase b z k) z := by
      have h3 : HasDerivAt (fun z : ℝ => ((b k * z : ℝ) : ℂ) * I) (((b k * 1 : ℝ) : ℂ) * I) z :=
        (((hasDerivAt_id z).const_mul (b k)).ofReal_comp).mul_const I
      have h4 := h3.cexp
      unfold phase
      convert h4 using 1
      push_cast
      ring
    refine (h2.fun_mul h1).congr_deriv ?_
    have e : cubicSum r (fun k => phase b z k * α z k) k = cubic one hr (turn b z (α z)) k := (cubic_one hr (turn b z (α z)) k).symm
    rw [e]
    unfold field
    simp only [lp.coeFn_add, lp.coeFn_smul, Pi.add_apply, Pi.smul_apply, smul_eq_mul, turn_apply]
    linear_combination ((I * γ * cubic one hr (turn b z (α z)) k)) * phase_neg b z k

end PyNLO.Wiener
