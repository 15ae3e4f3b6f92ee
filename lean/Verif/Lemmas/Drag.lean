import Verif.Lemmas.Momentum
import Verif.Props.NlseRaman

/-!
# The work of a delayed response is not negative

`∫ x·∂ₜ(h ⋆ x)` for the damped sine and the boson peak: a square plus terms that come from cutting the memory.
-/

namespace PyNLO.Nlse

open Set MeasureTheory

/-- `∫₀^X k(s)·x(t - s) ds` -/
noncomputable def memory (k : ℝ → ℝ) (X : ℝ) (x : ℝ → ℝ) (t : ℝ) : ℝ := ∫ s in (0 : ℝ)..X, k s * x (t - s)

theorem lin_int {f g : ℝ → ℝ} (hf : Continuous f) (hg : Continuous g) (c d X : ℝ) :
    ∫ s in (0 : ℝ)..X, (c * f s + d * g s) = c * (∫ s in (0 : ℝ)..X, f s) + d * ∫ s in (0 : ℝ)..X, g s := by
  rw [← intervalIntegral.integral_const_mul, ← intervalIntegral.integral_const_mul]
  exact intervalIntegral.integral_add ((continuous_const.mul hf).intervalIntegrable _ _) ((continuous_const.mul hg).intervalIntegrable _ _)

theorem memory_lin {h k : ℝ → ℝ} (hh : Continuous h) (hk : Continuous k) (X : ℝ) {x : ℝ → ℝ} (hx : Continuous x) (c d t : ℝ) :
    memory (fun s => c * h s + d * k s) X x t = c * memory h X x t + d * memory k X x t := by
  have cx : Continuous fun s => x (t - s) := hx.comp (continuous_const.sub continuous_id)
  unfold memory
  have c1 : Continuous fun s => h s * x (t - s) := hh.mul cx
  have c2 : Continuous fun s => k s * x (t - s) := hk.mul cx
  rw [← lin_int c1 c2]
  congr 1
  funext s
  ring

theorem memory_smooth {k : ℝ → ℝ} (hk : Continuous k) (X : ℝ) {x : ℝ → ℝ} (hx : ContDiff ℝ (⊤ : ℕ∞) x) : ContDiff ℝ (⊤ : ℕ∞) (memory k X x) :=
  smooth_conv hk X hx

theorem memory_periodic (k : ℝ → ℝ) (X : ℝ) {x : ℝ → ℝ} {T : ℝ} (px : Function.Periodic x T) : Function.Periodic (memory k X x) T := fun t => by
  unfold memory
  congr 1
  funext s
  rw [show t + T - s = t - s + T by ring, px]

/-- the derivative of a convolution with a kernel that is cut at `X` … -/
theorem memory_hasDerivAt' {k : ℝ → ℝ} (hk : Continuous k) (X : ℝ) {x : ℝ → ℝ} (hx : ContDiff ℝ (⊤ : ℕ∞) x) (t : ℝ) :
    HasDerivAt (memory k X x) (∫ s in (0 : ℝ)..X, k s * deriv x (t - s)) t := by
  have hd : Differentiable ℝ x := hx.differentiable (by simp)
  have hc' : Continuous (deriv x) := hx.continuous_deriv (by exact_mod_cast le_top)
  have hcc : Continuous fun q : ℝ × ℝ => k q.2 * deriv x (q.1 - q.2) := (hk.comp continuous_snd).mul (hc'.comp (continuous_fst.sub continuous_snd))
  obtain ⟨B, hB⟩ := (isCompact_Icc (a := t - 1) (b := t + 1)).prod (isCompact_uIcc (a := (0 : ℝ)) (b := X)) |>.exists_bound_of_continuousOn hcc.continuousOn
  refine (intervalIntegral.hasDerivAt_integral_of_dominated_loc_of_deriv_le (F := fun t s => k s * x (t - s)) (F' := fun t s => k s * deriv x (t - s))
    (bound := fun _ => B) (s := Icc (t - 1) (t + 1)) (Icc_mem_nhds (by linarith) (by linarith)) ?_ ?_ ?_ ?_ ?_ ?_).2
  · exact Filter.Eventually.of_forall fun x => (hk.mul (hd.continuous.comp (continuous_const.sub continuous_id))).aestronglyMeasurable
  · exact (hk.mul (hd.continuous.comp (continuous_const.sub continuous_id))).intervalIntegrable _ _
  · exact (hk.mul (hc'.comp (continuous_const.sub continuous_id))).aestronglyMeasurable
  · exact Filter.Eventually.of_forall fun s hs x hx => hB (x, s) ⟨hx, uIoc_subset_uIcc hs⟩
  · exact intervalIntegrable_const
  · refine Filter.Eventually.of_forall fun s _ x _ => ?_
    have := ((hd (x - s)).hasDerivAt.scomp x ((hasDerivAt_id x).sub_const s)).const_mul (k s)
    simpa using this

/-- … after integration by parts -/
theorem memory_hasDerivAt {k k' : ℝ → ℝ} (hk : ∀ s, HasDerivAt k (k' s) s) (ck : Continuous k') (X : ℝ) {x : ℝ → ℝ} (hx : ContDiff ℝ (⊤ : ℕ∞) x) (t : ℝ) :
    HasDerivAt (memory k X x) (k 0 * x t - k X * x (t - X) + memory k' X x t) t := by
  have hkc : Continuous k := continuous_iff_continuousAt.2 fun s => (hk s).continuousAt
  have hd : Differentiable ℝ x := hx.differentiable (by simp)
  have hc' : Continuous (deriv x) := hx.continuous_deriv (by exact_mod_cast le_top)
  refine (memory_hasDerivAt' hkc X hx t).congr_deriv ?_
  have hv : ∀ s, HasDerivAt (fun s => -x (t - s)) (deriv x (t - s)) s := fun s => by
    have h : HasDerivAt (fun s => -x (t - s)) (-((-1 : ℝ) • deriv x (t - s))) s := ((hd (t - s)).hasDerivAt.scomp s ((hasDerivAt_id s).const_sub t)).neg
    simpa using h
  have cv : Continuous fun s => deriv x (t - s) := hc'.comp (continuous_const.sub continuous_id)
  have h := intervalIntegral.integral_mul_deriv_eq_deriv_mul (a := 0) (b := X) (fun s _ => hk s) (fun s _ => hv s) (ck.intervalIntegrable _ _) (cv.intervalIntegrable _ _)
  rw [h]
  unfold memory
  simp only [mul_neg, intervalIntegral.integral_neg, sub_zero]
  ring

theorem drag_eq (h : ℝ → ℝ) (X T : ℝ) (x : ℝ → ℝ) : drag h X T x = ∫ t in (0 : ℝ)..T, x t * deriv (memory h X x) t := rfl

theorem drag_add {h k : ℝ → ℝ} (hh : Continuous h) (hk : Continuous k) (X T : ℝ) {x : ℝ → ℝ} (hx : ContDiff ℝ (⊤ : ℕ∞) x) (c d : ℝ) :
    drag (fun s => c * h s + d * k s) X T x = c * drag h X T x + d * drag k X T x := by
  have e : memory (fun s => c * h s + d * k s) X x = fun t => c * memory h X x t + d * memory k X x t := funext fun t => memory_lin hh hk X hx.continuous c d t
  have s1 := memory_smooth hh X hx
  have s2 := memory_smooth hk X hx
  have e' : ∀ t, deriv (memory (fun s => c * h s + d * k s) X x) t = c * deriv (memory h X x) t + d * deriv (memory k X x) t := fun t => by
    rw [e]
    exact (((s1.differentiable (by simp) t).hasDerivAt.const_mul c).add ((s2.differentiable (by simp) t).hasDerivAt.const_mul d)).deriv
  have c1 : Continuous (deriv (memory h X x)) := s1.continuous_deriv (by exact_mod_cast le_top)
  have c2 : Continuous (deriv (memory k X x)) := s2.continuous_deriv (by exact_mod_cast le_top)
  have c3 : Continuous fun t => x t * deriv (memory h X x) t := hx.continuous.mul c1
  have c4 : Continuous fun t => x t * deriv (memory k X x) t := hx.continuous.mul c2
  simp only [drag_eq, e']
  rw [← lin_int c3 c4]
  congr 1
  funext t
  ring

/-- up to a total derivative bounded from below -/
theorem integral_lower {f G g : ℝ → ℝ} {T c : ℝ} (hT : 0 ≤ T) (hf : Continuous f) (hG : ∀ t, HasDerivAt G (g t) t) (hg : Continuous g) (hp : G T = G 0)
    (h : ∀ t, -c ≤ f t - g t) : -(c * T) ≤ ∫ t in (0 : ℝ)..T, f t := by
  have e : ∫ t in (0 : ℝ)..T, g t = 0 := by
    rw [intervalIntegral.integral_eq_sub_of_hasDerivAt (fun t _ => hG t) (hg.intervalIntegrable _ _), hp, sub_self]
  have e1 : ∫ t in (0 : ℝ)..T, (f t - g t) = ∫ t in (0 : ℝ)..T, f t := by
    rw [intervalIntegral.integral_sub (hf.intervalIntegrable _ _) (hg.intervalIntegrable _ _), e, sub_zero]
  rw [← e1]
  have e2 := intervalIntegral.integral_mono_on (μ := volume) hT (f := fun _ => -c) intervalIntegrable_const ((hf.sub hg).intervalIntegrable 0 T) fun t _ => h t
  rw [intervalIntegral.integral_const] at e2
  refine le_trans (le_of_eq ?_) e2
  simp
  ring

/-- what cutting the memory of a damped sine at `X` can cost -/
noncomputable def leakSine (α β X T S0 S1 : ℝ) : ℝ := β / (8 * α) * (Real.exp (-(α * X)) * (S1 / β + (α / β + 1) * S0)) ^ 2 * T

theorem drag_sine {α β X T S0 S1 : ℝ} (hα : 0 < α) (hβ : 0 < β) (hT : 0 ≤ T) {x : ℝ → ℝ} (hx : ContDiff ℝ (⊤ : ℕ∞) x) (px : Function.Periodic x T)
    (h0 : ∀ t, |x t| ≤ S0) (h1 : ∀ t, |deriv x t| ≤ S1) :
    -leakSine α β X T S0 S1 ≤ drag (fun s => Real.exp (-(α * s)) * Real.sin (β * s)) X T x := by
  set ks : ℝ → ℝ := fun s => Real.exp (-(α * s)) * Real.sin (β * s) with hks
  set kc : ℝ → ℝ := fun s => Real.exp (-(α * s)) * Real.cos (β * s) with hkc
  have dE : ∀ s, HasDerivAt (fun s => Real.exp (-(α * s))) (Real.exp (-(α * s)) * -α) s := fun s => by
    have := ((hasDerivAt_id s).const_mul α).neg.exp
    simpa using this
  have dS : ∀ s, HasDerivAt (fun s => Real.sin (β * s)) (Real.cos (β * s) * β) s := fun s => by
    have := ((hasDerivAt_id s).const_mul β).sin
    simpa using this
  have dC : ∀ s, HasDerivAt (fun s => Real.cos (β * s)) (-Real.sin (β * s) * β) s := fun s => by
    have := ((hasDerivAt_id s).const_mul β).cos
    simpa using this
  have hs : ∀ s, HasDerivAt ks (-α * ks s + β * kc s) s := fun s => ((dE s).mul (dS s)).congr_deriv (by simp only [hks, hkc]; ring)
  have hc : ∀ s, HasDerivAt kc (-α * kc s + -β * ks s) s := fun s => ((dE s).mul (dC s)).congr_deriv (by simp only [hks, hkc]; ring)
  have cs : Continuous ks := continuous_iff_continuousAt.2 fun s => (hs s).continuousAt
  have cc : Continuous kc := continuous_iff_continuousAt.2 fun s => (hc s).continuousAt
  set a := memory kc X x with ha
  set b := memory ks X x with hb
  set es := ks X with hes
  set ec := kc X with hec
  have sb : ContDiff ℝ (⊤ : ℕ∞) b := memory_smooth cs X hx
  set d := deriv b with hd
  have sd : ContDiff ℝ (⊤ : ℕ∞) d := (contDiff_infty_iff_deriv.1 sb).2
  have k0 : ks 0 = 0 := by simp [hks]
  have k1 : kc 0 = 1 := by simp [hkc]
  have db : ∀ t, HasDerivAt b (d t) t := fun t => (sb.differentiable (by simp) t).hasDerivAt
  have dd : ∀ t, HasDerivAt d (deriv d t) t := fun t => (sd.differentiable (by simp) t).hasDerivAt
  have fb : ∀ t, d t = -(es * x (t - X)) + (-α * b t + β * a t) := fun t => by
    have h := memory_hasDerivAt hs ((cs.const_mul _).add (cc.const_mul _)) X hx t
    rw [memory_lin cs cc X hx.continuous (-α) β t, k0] at h
    rw [hd, h.deriv]
    ring
  have fa : ∀ t, HasDerivAt a (x t - ec * x (t - X) + (-α * a t + -β * b t)) t := fun t => by
    have h := memory_hasDerivAt hc ((cc.const_mul _).add (cs.const_mul _)) X hx t
    rw [memory_lin cc cs X hx.continuous (-α) (-β) t, k1, one_mul] at h
    exact h
  have dx : ∀ t, HasDerivAt (fun t => x (t - X)) (deriv x (t - X)) t := fun t => by
    have h : HasDerivAt (fun t => x (t - X)) ((1 : ℝ) • deriv x (t - X)) t := (hx.differentiable (by simp) (t - X)).hasDerivAt.scomp t ((hasDerivAt_id t).sub_const X)
    simpa using h
  have fa' : ∀ t, β * (x t - ec * x (t - X) + (-α * a t + -β * b t)) = deriv d t + es * deriv x (t - X) + α * d t := fun t => by
    have e : (fun t => β * a t) = fun t => d t + es * x (t - X) + α * b t := by
      funext t
      rw [fb t]
      ring
    have h1 := (fa t).const_mul β
    have h2 := ((dd t).add ((dx t).const_mul es)).add ((db t).const_mul α)
    have h3 : HasDerivAt (fun t => β * a t) (deriv d t + es * deriv x (t - X) + α * d t) t := by
      rw [e]
      exact h2
    exact h1.unique h3
  set w : ℝ → ℝ := fun t => es / β * deriv x (t - X) + (α * es / β + ec) * x (t - X) with hw
  have key : ∀ t, x t * d t - (d t * deriv d t / β + (α ^ 2 / β + β) * (b t * d t)) = 2 * α / β * d t ^ 2 + d t * w t := fun t => by
    have e1 : a t = (d t + es * x (t - X) + α * b t) / β := by
      rw [fb t]
      field_simp
      ring
    have e2 : x t = (deriv d t + es * deriv x (t - X) + α * d t) / β + ec * x (t - X) + α * a t + β * b t := by
      rw [← fa' t]
      field_simp
      ring
    rw [e2, e1, hw]
    field_simp
    ring
  have hE : |es| ≤ Real.exp (-(α * X)) := by
    rw [hes, hks]
    simp only [abs_mul, Real.abs_exp]
    exact mul_le_of_le_one_right (Real.exp_pos _).le (Real.abs_sin_le_one _)
  have hE' : |ec| ≤ Real.exp (-(α * X)) := by
    rw [hec, hkc]
    simp only [abs_mul, Real.abs_exp]
    exact mul_le_of_le_one_right (Real.exp_pos _).le (Real.abs_cos_le_one _)
  have S0' : 0 ≤ S0 := (abs_nonneg _).trans (h0 0)
  have S1' : 0 ≤ S1 := (abs_nonneg _).trans (h1 0)
  have hwb : ∀ t, |w t| ≤ Real.exp (-(α * X)) * (S1 / β + (α / β + 1) * S0) := fun t => by
    have e1 : |es / β * deriv x (t - X)| ≤ Real.exp (-(α * X)) / β * S1 := by
      rw [abs_mul, abs_div, abs_of_pos hβ]
      exact mul_le_mul (by gcongr) (h1 _) (abs_nonneg _) (by positivity)
    have e2 : |α * es / β + ec| ≤ Real.exp (-(α * X)) * (α / β + 1) := by
      refine (abs_add_le _ _).trans ?_
      rw [abs_div, abs_mul, abs_of_pos hβ, abs_of_pos hα]
      have : α * |es| / β ≤ α * Real.exp (-(α * X)) / β := by gcongr
      calc _ ≤ α * Real.exp (-(α * X)) / β + Real.exp (-(α * X)) := add_le_add this hE'
        _ = _ := by ring
    have e3 : |(α * es / β + ec) * x (t - X)| ≤ Real.exp (-(α * X)) * (α / β + 1) * S0 := by
      rw [abs_mul]
      exact mul_le_mul e2 (h0 _) (abs_nonneg _) (by positivity)
    calc |w t| ≤ Real.exp (-(α * X)) / β * S1 + Real.exp (-(α * X)) * (α / β + 1) * S0 := (abs_add_le _ _).trans (add_le_add e1 e3)
      _ = _ := by ring
  set Wb := Real.exp (-(α * X)) * (S1 / β + (α / β + 1) * S0) with hWb
  have cd : Continuous d := sd.continuous
  have cdd : Continuous (deriv d) := sd.continuous_deriv (by exact_mod_cast le_top)
  have pb : Function.Periodic b T := memory_periodic ks X px
  have pd : d T = d 0 := by
    have : (fun t => b (t + T)) = b := funext pb
    have h2 : deriv (fun t => b (t + T)) 0 = d (0 + T) := deriv_comp_add_const b T 0
    rw [this, zero_add] at h2
    exact h2.symm
  have bT : b T = b 0 := by simpa using pb 0
  have hG : ∀ t, HasDerivAt (fun t => d t ^ 2 / (2 * β) + (α ^ 2 / β + β) / 2 * b t ^ 2) (d t * deriv d t / β + (α ^ 2 / β + β) * (b t * d t)) t := fun t => by
    refine ((((dd t).pow 2).div_const (2 * β)).add (((db t).pow 2).const_mul ((α ^ 2 / β + β) / 2))).congr_deriv ?_
    field_simp
    ring
  refine integral_lower (c := β / (8 * α) * Wb ^ 2) hT (hx.continuous.mul cd) hG ((cd.mul cdd).div_const β |>.add ((sb.continuous.mul cd).const_mul _)) (by rw [pd, bT]) fun t => ?_
  show _ ≤ x t * d t - _
  rw [key t]
  have e1 : w t ^ 2 ≤ Wb ^ 2 := sq_le_sq' (by linarith [neg_abs_le (w t), hwb t]) ((le_abs_self _).trans (hwb t))
  have e2 : 2 * α / β * d t ^ 2 + d t * w t + β / (8 * α) * w t ^ 2 = 2 * α / β * (d t + β / (4 * α) * w t) ^ 2 := by
    field_simp
    ring
  have e3 : 0 ≤ 2 * α / β * (d t + β / (4 * α) * w t) ^ 2 := by positivity
  have e4 : β / (8 * α) * w t ^ 2 ≤ β / (8 * α) * Wb ^ 2 := mul_le_mul_of_nonneg_left e1 (by positivity)
  linarith

theorem moment_le {μ X : ℝ} (hμ : 0 < μ) (hX : 0 ≤ X) : ∫ s in (0 : ℝ)..X, s * Real.exp (-(μ * s)) ≤ 1 / μ ^ 2 := by
  have dE : ∀ s, HasDerivAt (fun s => Real.exp (-(μ * s))) (Real.exp (-(μ * s)) * -μ) s := fun s => by
    have := ((hasDerivAt_id s).const_mul μ).neg.exp
    simpa using this
  have hd : ∀ s, HasDerivAt (fun s => (-(s / μ) - 1 / μ ^ 2) * Real.exp (-(μ * s))) (s * Real.exp (-(μ * s))) s := fun s => by
    have h : HasDerivAt (fun s => -(s / μ) - 1 / μ ^ 2) (-(1 / μ)) s := ((hasDerivAt_id s).div_const μ).neg.sub_const (1 / μ ^ 2)
    refine (h.mul (dE s)).congr_deriv ?_
    field_simp
    ring
  rw [intervalIntegral.integral_eq_sub_of_hasDerivAt (fun s _ => hd s) ((by fun_prop : Continuous fun s : ℝ => s * Real.exp (-(μ * s))).intervalIntegrable _ _)]
  have h1 : 0 ≤ (X / μ + 1 / μ ^ 2) * Real.exp (-(μ * X)) := by positivity
  simp only [zero_div, neg_zero, zero_sub, mul_zero, Real.exp_zero, mul_one]
  linarith

/-- what cutting the memory of the boson peak at `X` can cost -/
noncomputable def leakBoson (μ X T S0 S1 : ℝ) : ℝ :=
  (μ / 2 * (Real.exp (-(μ * X)) * (X * S1 + (μ * X + 1) * S0)) ^ 2 + Real.exp (-(μ * X)) * (X * S1 + (μ * X + 1) * S0) * S1 +
    2 * μ * (X * Real.exp (-(μ * X))) * (S0 * S1)) * T

theorem drag_boson {μ X T S0 S1 : ℝ} (hμ : 0 < μ) (hX : 0 ≤ X) (hT : 0 ≤ T) {x : ℝ → ℝ} (hx : ContDiff ℝ (⊤ : ℕ∞) x) (px : Function.Periodic x T)
    (h0 : ∀ t, |x t| ≤ S0) (h1 : ∀ t, |deriv x t| ≤ S1) :
    -leakBoson μ X T S0 S1 ≤ drag (fun s => 2 * μ * Real.exp (-(μ * s)) + -μ ^ 2 * (s * Real.exp (-(μ * s)))) X T x := by
  set kp : ℝ → ℝ := fun s => Real.exp (-(μ * s)) with hkp
  set kq : ℝ → ℝ := fun s => s * Real.exp (-(μ * s)) with hkq
  have hp : ∀ s, HasDerivAt kp (-μ * kp s) s := fun s => by
    have := ((hasDerivAt_id s).const_mul μ).neg.exp
    refine this.congr_deriv ?_
    simp [hkp]
    ring
  have hq : ∀ s, HasDerivAt kq (1 * kp s + -μ * kq s) s := fun s => by
    refine ((hasDerivAt_id s).mul (hp s)).congr_deriv ?_
    simp [hkp, hkq]
    ring
  have cp : Continuous kp := continuous_iff_continuousAt.2 fun s => (hp s).continuousAt
  have cq : Continuous kq := continuous_iff_continuousAt.2 fun s => (hq s).continuousAt
  set p := memory kp X x with hpd
  set q := memory kq X x with hqd
  set e0 := kp X with he0
  set e1 := kq X with he1
  have sp : ContDiff ℝ (⊤ : ℕ∞) p := memory_smooth cp X hx
  have sq : ContDiff ℝ (⊤ : ℕ∞) q := memory_smooth cq X hx
  set d := deriv q with hd
  have sd : ContDiff ℝ (⊤ : ℕ∞) d := (contDiff_infty_iff_deriv.1 sq).2
  have p0 : kp 0 = 1 := by simp [hkp]
  have q0 : kq 0 = 0 := by simp [hkq]
  have dq : ∀ t, HasDerivAt q (d t) t := fun t => (sq.differentiable (by simp) t).hasDerivAt
  have dd : ∀ t, HasDerivAt d (deriv d t) t := fun t => (sd.differentiable (by simp) t).hasDerivAt
  have dx : ∀ t, HasDerivAt (fun t => x (t - X)) (deriv x (t - X)) t := fun t => by
    have h : HasDerivAt (fun t => x (t - X)) ((1 : ℝ) • deriv x (t - X)) t := (hx.differentiable (by simp) (t - X)).hasDerivAt.scomp t ((hasDerivAt_id t).sub_const X)
    simpa using h
  have fq : ∀ t, d t = -(e1 * x (t - X)) + (1 * p t + -μ * q t) := fun t => by
    have h := memory_hasDerivAt hq ((cp.const_mul _).add (cq.const_mul _)) X hx t
    rw [memory_lin cp cq X hx.continuous 1 (-μ) t, q0] at h
    rw [hd, h.deriv]
    ring
  have fp : ∀ t, HasDerivAt p (x t - e0 * x (t - X) + -μ * p t) t := fun t => by
    have h := memory_hasDerivAt hp (cp.const_mul _) X hx t
    have e : memory (fun s => -μ * kp s) X x t = -μ * p t := by
      rw [hpd]
      unfold memory
      rw [← intervalIntegral.integral_const_mul]
      congr 1
      funext s
      ring
    rw [e, p0, one_mul] at h
    exact h
  have pe : p = fun t => d t + e1 * x (t - X) + μ * q t := by
    funext t
    rw [fq t]
    ring
  have fp' : ∀ t, x t - e0 * x (t - X) + -μ * p t = deriv d t + e1 * deriv x (t - X) + μ * d t := fun t => by
    have h2 := ((dd t).add ((dx t).const_mul e1)).add ((dq t).const_mul μ)
    have h3 : HasDerivAt p (deriv d t + e1 * deriv x (t - X) + μ * d t) t := by
      rw [pe]
      exact h2
    exact (fp t).unique h3
  have hmem : memory (fun s => 2 * μ * kp s + -μ ^ 2 * kq s) X x = fun t => 2 * μ * p t + -μ ^ 2 * q t :=
    funext fun t => memory_lin cp cq X hx.continuous (2 * μ) (-μ ^ 2) t
  have hder : ∀ t, deriv (memory (fun s => 2 * μ * kp s + -μ ^ 2 * kq s) X x) t = 2 * μ * deriv d t + μ ^ 2 * d t + 2 * μ * e1 * deriv x (t - X) := fun t => by
    rw [hmem]
    have h := (((fp t).const_mul (2 * μ)).add ((dq t).const_mul (-μ ^ 2))).deriv
    refine h.trans ?_
    rw [fp' t]
    ring
  set r : ℝ → ℝ := fun t => e1 * deriv x (t - X) + (μ * e1 + e0) * x (t - X) with hr
  have hxe : ∀ t, x t = deriv d t + 2 * μ * d t + μ ^ 2 * q t + r t := fun t => by
    have e1' := fp' t
    have e2 := congrFun pe t
    rw [hr]
    simp only at e2 ⊢
    rw [e2] at e1'
    linarith
  have key : ∀ t, x t * (2 * μ * deriv d t + μ ^ 2 * d t + 2 * μ * e1 * deriv x (t - X)) - (5 * μ ^ 2 * (d t * deriv d t) + 2 * μ ^ 3 * (d t * d t + q t * deriv d t) + μ ^ 4 * (q t * d t)) =
      2 * μ * deriv d t ^ 2 + r t * (2 * μ * deriv d t + μ ^ 2 * d t) + 2 * μ * e1 * (x t * deriv x (t - X)) := fun t => by
    have h := hxe t
    have : x t * (2 * μ * deriv d t + μ ^ 2 * d t) = (deriv d t + 2 * μ * d t + μ ^ 2 * q t + r t) * (2 * μ * deriv d t + μ ^ 2 * d t) := by rw [← h]
    linear_combination this
  have S0' : 0 ≤ S0 := (abs_nonneg _).trans (h0 0)
  have S1' : 0 ≤ S1 := (abs_nonneg _).trans (h1 0)
  have he0' : 0 < e0 := Real.exp_pos _
  have he1' : 0 ≤ e1 := mul_nonneg hX (Real.exp_pos _).le
  have he1e : e1 = X * e0 := rfl
  set ρ := e0 * (X * S1 + (μ * X + 1) * S0) with hρ
  have hρ0 : 0 ≤ ρ := by positivity
  have hrb : ∀ t, |r t| ≤ ρ := fun t => by
    have a1 : |e1 * deriv x (t - X)| ≤ e1 * S1 := by
      rw [abs_mul, abs_of_nonneg he1']
      exact mul_le_mul_of_nonneg_left (h1 _) he1'
    have a2 : |(μ * e1 + e0) * x (t - X)| ≤ (μ * e1 + e0) * S0 := by
      rw [abs_mul, abs_of_nonneg (by positivity : 0 ≤ μ * e1 + e0)]
      exact mul_le_mul_of_nonneg_left (h0 _) (by positivity)
    calc |r t| ≤ e1 * S1 + (μ * e1 + e0) * S0 := (abs_add_le _ _).trans (add_le_add a1 a2)
      _ = ρ := by rw [hρ, he1e]; ring
  have hdb : ∀ t, μ ^ 2 * |d t| ≤ S1 := fun t => by
    have e : d t = ∫ s in (0 : ℝ)..X, kq s * deriv x (t - s) := (memory_hasDerivAt' cq X hx t).deriv
    have hc' : Continuous (deriv x) := hx.continuous_deriv (by exact_mod_cast le_top)
    have b1 : ‖∫ s in (0 : ℝ)..X, kq s * deriv x (t - s)‖ ≤ ∫ s in (0 : ℝ)..X, S1 * kq s := by
      refine intervalIntegral.norm_integral_le_of_norm_le hX (Filter.Eventually.of_forall fun s hs => ?_) ((cq.const_mul S1).intervalIntegrable _ _)
      rw [Real.norm_eq_abs, abs_mul]
      have : 0 ≤ kq s := mul_nonneg hs.1.le (Real.exp_pos _).le
      rw [abs_of_nonneg this, mul_comm]
      exact mul_le_mul_of_nonneg_right (h1 _) this
    rw [← e, intervalIntegral.integral_const_mul, Real.norm_eq_abs] at b1
    have b2 := moment_le hμ hX
    calc μ ^ 2 * |d t| ≤ μ ^ 2 * (S1 * (1 / μ ^ 2)) := mul_le_mul_of_nonneg_left (b1.trans (mul_le_mul_of_nonneg_left b2 S1')) (by positivity)
      _ = S1 := by field_simp
  have cd : Continuous d := sd.continuous
  have cdd : Continuous (deriv d) := sd.continuous_deriv (by exact_mod_cast le_top)
  have cx' : Continuous fun t => deriv x (t - X) := (hx.continuous_deriv (by exact_mod_cast le_top)).comp (continuous_id.sub continuous_const)
  have pq : Function.Periodic q T := memory_periodic kq X px
  have pd : d T = d 0 := by
    have : (fun t => q (t + T)) = q := funext pq
    have h2 : deriv (fun t => q (t + T)) 0 = d (0 + T) := deriv_comp_add_const q T 0
    rw [this, zero_add] at h2
    exact h2.symm
  have qT : q T = q 0 := by simpa using pq 0
  have hG : ∀ t, HasDerivAt (fun t => 5 * μ ^ 2 / 2 * d t ^ 2 + 2 * μ ^ 3 * (q t * d t) + μ ^ 4 / 2 * q t ^ 2)
      (5 * μ ^ 2 * (d t * deriv d t) + 2 * μ ^ 3 * (d t * d t + q t * deriv d t) + μ ^ 4 * (q t * d t)) t := fun t => by
    refine (((((dd t).pow 2).const_mul (5 * μ ^ 2 / 2)).add (((dq t).mul (dd t)).const_mul (2 * μ ^ 3))).add (((dq t).pow 2).const_mul (μ ^ 4 / 2))).congr_deriv ?_
    ring
  show _ ≤ drag (fun s => 2 * μ * kp s + -μ ^ 2 * kq s) X T x
  rw [drag_eq]
  simp only [hder]
  refine integral_lower (c := μ / 2 * ρ ^ 2 + ρ * S1 + 2 * μ * e1 * (S0 * S1)) hT ?_ hG ?_ (by rw [pd, qT]) fun t => ?_
  · exact hx.continuous.mul (((cdd.const_mul _).add (cd.const_mul _)).add (cx'.const_mul _))
  · exact (((cd.mul cdd).const_mul _).add (((cd.mul cd).add (sq.continuous.mul cdd)).const_mul _)).add ((sq.continuous.mul cd).const_mul _)
  rw [key t]
  have a1 : r t ^ 2 ≤ ρ ^ 2 := sq_le_sq' (by linarith [neg_abs_le (r t), hrb t]) ((le_abs_self _).trans (hrb t))
  have a2 : -(ρ * S1) ≤ r t * (μ ^ 2 * d t) := by
    have b1 : |r t * (μ ^ 2 * d t)| ≤ ρ * S1 := by
      rw [abs_mul, abs_mul, abs_of_nonneg (by positivity : 0 ≤ μ ^ 2)]
      exact mul_le_mul (hrb t) (hdb t) (by positivity) hρ0
    linarith [neg_abs_le (r t * (μ ^ 2 * d t))]
  have a3 : -(S0 * S1) ≤ x t * deriv x (t - X) := by
    have b1 : |x t * deriv x (t - X)| ≤ S0 * S1 := by
      rw [abs_mul]
      exact mul_le_mul (h0 t) (h1 _) (abs_nonneg _) S0'
    linarith [neg_abs_le (x t * deriv x (t - X))]
  have a4 : 2 * μ * e1 * -(S0 * S1) ≤ 2 * μ * e1 * (x t * deriv x (t - X)) := mul_le_mul_of_nonneg_left a3 (by positivity)
  have a5 : 2 * μ * deriv d t ^ 2 + 2 * μ * (r t * deriv d t) + μ / 2 * r t ^ 2 = 2 * μ * (deriv d t + r t / 2) ^ 2 := by ring
  have a6 : 0 ≤ 2 * μ * (deriv d t + r t / 2) ^ 2 := by positivity
  have a7 : μ / 2 * r t ^ 2 ≤ μ / 2 * ρ ^ 2 := mul_le_mul_of_nonneg_left a1 (by positivity)
  nlinarith

end PyNLO.Nlse
