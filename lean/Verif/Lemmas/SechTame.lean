import Verif.Lemmas.Window
import Verif.Lemmas.SolitonShape
import Verif.Spec.Soliton
import Mathlib.Analysis.SpecialFunctions.Trigonometric.DerivHyp

/-!
# Decay of hyperbolic secants, and scaling of localised pulses
-/

namespace PyNLO.Nlse

open Complex Polynomial Set

/-- complex valued secant and tangent -/
noncomputable def sechC (t : ℝ) : ℂ := ((sech t : ℝ) : ℂ)
noncomputable def tanhC (t : ℝ) : ℂ := ((Real.sinh t * sech t : ℝ) : ℂ)

theorem sechC_contDiff : ContDiff ℝ (⊤ : ℕ∞) sechC := ofRealCLM.contDiff.comp sech_contDiff
theorem tanhC_contDiff : ContDiff ℝ (⊤ : ℕ∞) tanhC := ofRealCLM.contDiff.comp (Real.contDiff_sinh.mul sech_contDiff)

theorem cosh_mul_sech (t : ℝ) : Real.cosh t * sech t = 1 := mul_inv_cancel₀ (Real.cosh_pos t).ne'

theorem sech1_eq (t : ℝ) : sech1 t = -(sech t * (Real.sinh t * sech t)) := by
  have := (Real.cosh_pos t).ne'
  unfold sech1 sech
  field_simp

theorem deriv_sechC : _root_.deriv sechC = fun t => -(sechC t * tanhC t) := by
  funext t
  refine ((sech_hasDerivAt t).ofReal_comp).deriv.trans ?_
  rw [sech1_eq]
  unfold sechC tanhC
  push_cast
  ring

theorem deriv_tanhC : _root_.deriv tanhC = fun t => sechC t * sechC t := by
  funext t
  refine (((Real.hasDerivAt_sinh t).mul (sech_hasDerivAt t)).ofReal_comp).deriv.trans ?_
  rw [sech1_eq]
  have h1 := cosh_mul_sech t
  have h2 := Real.cosh_sq t
  have h3 : Real.cosh t * sech t + Real.sinh t * -(sech t * (Real.sinh t * sech t)) = sech t * sech t := by
    have h4 : sech t ^ 2 * Real.cosh t ^ 2 = 1 := by rw [← mul_pow, mul_comm (sech t), h1, one_pow]
    linear_combination h1 - h4 + sech t ^ 2 * h2
  rw [h3]
  unfold sechC
  push_cast
  ring

theorem sech_le_exp_abs (t : ℝ) : sech t ≤ 2 * Real.exp (-|t|) := by
  rcases le_total 0 t with h | h
  · rw [abs_of_nonneg h]
    exact sech_le_exp t
  · rw [abs_of_nonpos h, ← sech_even]
    exact sech_le_exp (-t)

theorem sech_tame : Tame (fun (_ : Unit) t => Real.exp (-|t|)) fun _ => sechC := by
  have key : ∀ k, ∀ j ≤ k, Bd j (fun (_ : Unit) t => Real.exp (-|t|)) (fun _ => sechC) ∧ Bd j (fun (_ : Unit) _ => 1) fun _ => tanhC := by
    intro k
    induction k with
    | zero =>
      intro j hj
      obtain rfl : j = 0 := by omega
      refine ⟨⟨2, fun _ t => ?_⟩, ⟨1, fun _ t => ?_⟩⟩
      · rw [iteratedDeriv_zero]
        show ‖sechC t‖ ≤ _
        unfold sechC
        rw [norm_real, Real.norm_eq_abs, abs_of_pos (sech_pos t)]
        exact sech_le_exp_abs t
      · rw [iteratedDeriv_zero]
        show ‖tanhC t‖ ≤ _
        unfold tanhC
        rw [norm_real, Real.norm_eq_abs, mul_one]
        refine abs_le_of_sq_le_sq ?_ one_pos.le
        have h1 := cosh_mul_sech t
        have h2 := Real.cosh_sq t
        have h4 : sech t ^ 2 * Real.cosh t ^ 2 = 1 := by rw [← mul_pow, mul_comm (sech t), h1, one_pow]
        have h5 := sq_nonneg (sech t)
        nlinarith
    | succ k ih =>
      intro j hj
      rcases Nat.lt_or_ge j (k + 1) with hlt | hge
      · exact ih j (by omega)
      · obtain rfl : j = k + 1 := by omega
        have h1 : Bd k (fun (_ : Unit) t => Real.exp (-|t|) * 1) fun _ t => sechC t * tanhC t :=
          Bd.mul (fun l hl => (ih l hl).1) (fun l hl => (ih l hl).2) (fun _ => sechC_contDiff) (fun _ => tanhC_contDiff)
        have h2 : Bd k (fun (_ : Unit) t => Real.exp (-|t|) * Real.exp (-|t|)) fun _ t => sechC t * sechC t :=
          Bd.mul (fun l hl => (ih l hl).1) (fun l hl => (ih l hl).1) (fun _ => sechC_contDiff) (fun _ => sechC_contDiff)
        obtain ⟨A, hA⟩ := h1
        obtain ⟨B, hB⟩ := h2
        refine ⟨⟨A, fun i t => ?_⟩, ⟨|B|, fun i t => ?_⟩⟩
        · rw [iteratedDeriv_succ', deriv_sechC, iteratedDeriv_fun_neg, norm_neg]
          simpa using hA i t
        · rw [iteratedDeriv_succ', deriv_tanhC]
          have h3 := hB i t
          have h4 : Real.exp (-|t|) ≤ 1 := Real.exp_le_one_iff.2 (neg_nonpos.2 (abs_nonneg t))
          have h5 := Real.exp_pos (-|t|)
          have h6 : Real.exp (-|t|) * Real.exp (-|t|) ≤ 1 := by nlinarith
          refine h3.trans ((mul_le_mul_of_nonneg_right (le_abs_self B) (by positivity)).trans ?_)
          exact mul_le_mul_of_nonneg_left h6 (abs_nonneg B)
  exact ⟨fun _ => sechC_contDiff, fun k => (key k k (le_refl k)).1⟩

/-- peak power `|β₂|/(γ·T0²)`, unit of length `T0²/|β₂|` and unit of time `T0` -/
theorem line_scale {β₂ γ T0 μ L : ℝ} {v : ℝ → ℝ → ℂ} (hβ : β₂ < 0) (hγ : 0 < γ) (hT0 : 0 < T0)
    (hv : LineSolution (C (-1 / 2) * X ^ 2) 0 1 μ (L * (|β₂| / T0 ^ 2)) v) :
    LineSolution (C (β₂ / 2) * X ^ 2) 0 γ (μ / T0) L fun z t => (Real.sqrt (solitonPower β₂ γ T0) : ℂ) * v (z * (|β₂| / T0 ^ 2)) (t / T0) := by
  have hP : 0 < solitonPower β₂ γ T0 := by
    unfold solitonPower
    have : 0 < |β₂| := abs_pos.2 hβ.ne
    positivity
  have hκ : 0 < |β₂| / T0 ^ 2 := by
    have : 0 < |β₂| := abs_pos.2 hβ.ne
    positivity
  have hκP : γ * solitonPower β₂ γ T0 = |β₂| / T0 ^ 2 := by
    unfold solitonPower
    field_simp
  have hκβ : β₂ / T0 ^ 2 = -(|β₂| / T0 ^ 2) := by
    rw [abs_of_neg hβ]
    ring
  set κ := |β₂| / T0 ^ 2 with hκd
  set A := Real.sqrt (solitonPower β₂ γ T0) with hA
  have hA2 : γ * A ^ 2 = κ := by rw [hA, Real.sq_sqrt hP.le, hκP]
  have hiter : ∀ (k : ℕ) (z t : ℝ), iteratedDeriv k (fun t => (A : ℂ) * v (z * κ) (t / T0)) t = A * ((T0⁻¹ ^ k : ℝ) * iteratedDeriv k (v (z * κ)) (t / T0)) := fun k z t => by
    have hs := smooth_slice hv.smooth (z * κ)
    have e : (fun t => v (z * κ) (t / T0)) = fun t => v (z * κ) (T0⁻¹ * t) := by
      funext t
      rw [div_eq_inv_mul]
    have h1 : ContDiffAt ℝ k (fun t => v (z * κ) (t / T0)) t := smooth_at (hs.comp (contDiff_id.div_const T0)) k t
    rw [iteratedDeriv_const_mul (A : ℂ) h1, e, iteratedDeriv_comp_const_smul (hs.of_le (by exact_mod_cast le_top)) T0⁻¹]
    simp only [real_smul, div_eq_inv_mul]
  refine ⟨?_, ?_, ?_⟩
  · exact contDiff_const.mul (hv.smooth.comp ((contDiff_fst.mul contDiff_const).prodMk (contDiff_snd.div_const T0)))
  · intro z h0 hL t
    have h1 := hv.equation (z * κ) (mul_nonneg h0 hκ.le) (mul_le_mul_of_nonneg_right hL hκ.le) (t / T0)
    have h2 : HasDerivAt (fun z : ℝ => z * κ) κ z := by simpa using (hasDerivAt_id z).mul_const κ
    have h3 := (h1.scomp z h2).const_mul (A : ℂ)
    refine h3.congr_deriv ?_
    have hdq : ∀ (a : ℝ) (f : ℝ → ℂ) (t : ℝ), dispersion (C a * X ^ 2) f t = -(I * a * iteratedDeriv 2 f t) := fun a f t => by
      unfold dispersion
      rw [Polynomial.C_mul_X_pow_eq_monomial, Polynomial.sum_monomial_index]
      · rw [I_sq]; ring
      · simp
    rw [hdq, hdq, hiter, norm_mul, norm_real, Real.norm_eq_abs, mul_pow, sq_abs, real_smul]
    generalize iteratedDeriv 2 (v (z * κ)) (t / T0) = d2
    generalize v (z * κ) (t / T0) = w
    have hκβ' : (β₂ : ℂ) * (T0⁻¹ ^ 2 : ℝ) = -κ := by
      have : β₂ * T0⁻¹ ^ 2 = -κ := by
        rw [← hκβ]
        ring
      exact_mod_cast this
    have hA2' : (γ : ℂ) * (A : ℂ) ^ 2 = κ := by exact_mod_cast hA2
    push_cast at hκβ' ⊢
    linear_combination (I * A * d2 / 2) * hκβ' - (I * A * w * (‖w‖ : ℂ) ^ 2) * hA2'
  · intro k
    obtain ⟨D, hD⟩ := hv.decay k
    refine ⟨A * (T0⁻¹ ^ k * D), fun z h0 hL t => ?_⟩
    have h1 := hD (z * κ) (mul_nonneg h0 hκ.le) (mul_le_mul_of_nonneg_right hL hκ.le) (t / T0)
    have e : μ * |t / T0| = μ / T0 * |t| := by
      rw [abs_div, abs_of_pos hT0]
      ring
    rw [e] at h1
    rw [hiter, norm_mul, norm_mul, norm_real, norm_real, Real.norm_eq_abs, Real.norm_eq_abs, abs_of_nonneg (Real.sqrt_nonneg _), abs_of_pos (by positivity)]
    have h2 := mul_le_mul_of_nonneg_left (mul_le_mul_of_nonneg_left h1 (by positivity : 0 ≤ T0⁻¹ ^ k)) (Real.sqrt_nonneg (solitonPower β₂ γ T0))
    rw [← hA] at h2 ⊢
    linarith

end PyNLO.Nlse
