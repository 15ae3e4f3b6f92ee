import Verif.Lemmas.Window
import Verif.Spec.Gaussian
import Mathlib.Analysis.SpecialFunctions.Pow.Deriv
import Mathlib.Analysis.SpecialFunctions.Complex.LogDeriv

/-!
# Gaussian pulses are localised solutions of the dispersive equation
-/

namespace PyNLO.Nlse

open Complex Polynomial Set

/-- `exp(-w·t²)` -/
noncomputable def bell (w : ℂ) (t : ℝ) : ℂ := exp (-(w * (t : ℂ) ^ 2))

theorem bell_contDiff (w : ℂ) : ContDiff ℝ (⊤ : ℕ∞) (bell w) :=
  (contDiff_const.mul (ofRealCLM.contDiff.pow 2)).neg.cexp

theorem re_hasDerivAt (t : ℝ) : HasDerivAt (fun t : ℝ => (t : ℂ)) 1 t := ofRealCLM.hasDerivAt

theorem bell_hasDerivAt (w : ℂ) (t : ℝ) : HasDerivAt (bell w) (-(2 * w * t) * bell w t) t := by
  have h := (((re_hasDerivAt t).pow 2).const_mul w).neg.cexp
  refine h.congr_deriv ?_
  simp only [Pi.neg_apply, Pi.pow_apply]
  unfold bell
  push_cast
  ring

theorem bell_pow_deriv (m : ℕ) (w : ℂ) : _root_.deriv (fun t : ℝ => (t : ℂ) ^ m * bell w t) =
    fun t : ℝ => (m : ℂ) * ((t : ℂ) ^ (m - 1) * bell w t) + (-(2 * w)) * ((t : ℂ) ^ (m + 1) * bell w t) := by
  funext t
  have h := ((re_hasDerivAt t).pow m).mul (bell_hasDerivAt w t)
  refine h.deriv.trans ?_
  simp only [Pi.pow_apply]
  ring

variable {ρ M : ℝ}

/-- widths that stay away from zero and infinity -/
abbrev Widths (ρ M : ℝ) := {w : ℂ // ρ ≤ w.re ∧ ‖w‖ ≤ M}

theorem bell_bound (hρ : 0 < ρ) (μ : ℝ) (m : ℕ) : Bd 0 (fun (_ : Widths ρ M) t => Real.exp (-(μ * |t|))) fun w t => (t : ℂ) ^ m * bell w t := by
  refine ⟨(m.factorial : ℝ) * Real.exp ((1 + μ) ^ 2 / (4 * ρ)), fun w t => ?_⟩
  rw [iteratedDeriv_zero]
  show ‖(t : ℂ) ^ m * bell w t‖ ≤ _
  have h1 : ‖bell w t‖ = Real.exp (-((w : ℂ).re * t ^ 2)) := by
    unfold bell
    rw [norm_exp, neg_re, ← ofReal_pow, re_mul_ofReal]
  have h2 : |t| ^ m ≤ m.factorial * Real.exp |t| := by
    have h := Real.pow_div_factorial_le_exp |t| (abs_nonneg t) m
    rwa [div_le_iff₀ (by positivity), mul_comm] at h
  rw [norm_mul, norm_pow, norm_real, Real.norm_eq_abs, h1]
  have h3 : -((w : ℂ).re * t ^ 2) ≤ -(ρ * t ^ 2) := neg_le_neg (mul_le_mul_of_nonneg_right w.2.1 (sq_nonneg t))
  have h4 : |t| + -(ρ * t ^ 2) ≤ (1 + μ) ^ 2 / (4 * ρ) + -(μ * |t|) := by
    have h5 : 0 ≤ (2 * ρ * |t| - (1 + μ)) ^ 2 / (4 * ρ) := by positivity
    have h6 : (2 * ρ * |t| - (1 + μ)) ^ 2 / (4 * ρ) = ρ * |t| ^ 2 - (1 + μ) * |t| + (1 + μ) ^ 2 / (4 * ρ) := by
      field_simp
      ring
    rw [sq_abs] at h6
    linarith
  calc |t| ^ m * Real.exp (-((w : ℂ).re * t ^ 2)) ≤ m.factorial * Real.exp |t| * Real.exp (-(ρ * t ^ 2)) :=
        mul_le_mul h2 (Real.exp_le_exp.2 h3) (Real.exp_pos _).le (by positivity)
    _ = m.factorial * Real.exp (|t| + -(ρ * t ^ 2)) := by rw [Real.exp_add]; ring
    _ ≤ m.factorial * Real.exp ((1 + μ) ^ 2 / (4 * ρ) + -(μ * |t|)) := mul_le_mul_of_nonneg_left (Real.exp_le_exp.2 h4) (by positivity)
    _ = _ := by rw [Real.exp_add]; ring

theorem bell_pow_contDiff (m : ℕ) (w : ℂ) : ContDiff ℝ (⊤ : ℕ∞) fun t : ℝ => (t : ℂ) ^ m * bell w t := (ofRealCLM.contDiff.pow m).mul (bell_contDiff w)

theorem bell_tame (hρ : 0 < ρ) (μ : ℝ) : Tame (fun (_ : Widths ρ M) t => Real.exp (-(μ * |t|))) fun w => bell w := by
  have key : ∀ k m, Bd k (fun (_ : Widths ρ M) t => Real.exp (-(μ * |t|))) fun w t => (t : ℂ) ^ m * bell w t := by
    intro k
    induction k with
    | zero => exact bell_bound hρ μ
    | succ k ih =>
      intro m
      obtain ⟨A, hA⟩ := ih (m - 1)
      obtain ⟨B, hB⟩ := ih (m + 1)
      refine ⟨m * A + 2 * M * B, fun w t => ?_⟩
      have hA' := hA w t
      have hB' := hB w t
      have hE := Real.exp_pos (-(μ * |t|))
      have hB0 : 0 ≤ B := by
        have := (norm_nonneg _).trans hB'
        exact nonneg_of_mul_nonneg_left this hE
      rw [iteratedDeriv_succ', bell_pow_deriv]
      have e : iteratedDeriv k (fun t : ℝ => (m : ℂ) * ((t : ℂ) ^ (m - 1) * bell w t) + (-(2 * (w : ℂ))) * ((t : ℂ) ^ (m + 1) * bell w t)) t =
          m * iteratedDeriv k (fun t : ℝ => (t : ℂ) ^ (m - 1) * bell w t) t + (-(2 * (w : ℂ))) * iteratedDeriv k (fun t : ℝ => (t : ℂ) ^ (m + 1) * bell w t) t := by
        have s1 := smooth_at (bell_pow_contDiff (m - 1) w) k t
        have s2 := smooth_at (bell_pow_contDiff (m + 1) w) k t
        rw [iteratedDeriv_fun_add (contDiffAt_const.mul s1) (contDiffAt_const.mul s2), iteratedDeriv_const_mul _ s1, iteratedDeriv_const_mul _ s2]
      rw [e]
      refine (norm_add_le _ _).trans ?_
      rw [norm_mul, norm_mul, norm_neg, norm_mul, Complex.norm_natCast, Complex.norm_ofNat]
      have h1 := mul_le_mul_of_nonneg_left hA' (Nat.cast_nonneg (α := ℝ) m)
      have h2 : 2 * ‖(w : ℂ)‖ * ‖iteratedDeriv k (fun t : ℝ => (t : ℂ) ^ (m + 1) * bell w t) t‖ ≤ 2 * M * (B * Real.exp (-(μ * |t|))) :=
        mul_le_mul (by linarith [w.2.2]) hB' (norm_nonneg _) (by linarith [w.2.2, norm_nonneg (w : ℂ)])
      linarith
  refine ⟨fun w => bell_contDiff w, fun k => ?_⟩
  simpa using key k 0

variable {P β₂ g a L : ℝ}

theorem stretch_re (β₂ a z : ℝ) : (stretch β₂ a z).re = 1 := by
  unfold stretch
  simp [mul_re, mul_im]

theorem stretch_im (β₂ a z : ℝ) : (stretch β₂ a z).im = -(2 * a * β₂ * z) := by
  unfold stretch
  simp [mul_re, mul_im]

theorem stretch_slit (β₂ a z : ℝ) : stretch β₂ a z ∈ slitPlane := Or.inl (by rw [stretch_re]; exact one_pos)

theorem stretch_ne (β₂ a z : ℝ) : stretch β₂ a z ≠ 0 := slitPlane_ne_zero (stretch_slit β₂ a z)

theorem stretch_normSq (β₂ a z : ℝ) : ‖stretch β₂ a z‖ ^ 2 = 1 + (2 * a * β₂ * z) ^ 2 := by
  rw [← normSq_eq_norm_sq, normSq_apply, stretch_re, stretch_im]
  ring

theorem one_le_stretch (β₂ a z : ℝ) : 1 ≤ ‖stretch β₂ a z‖ := by
  have h := stretch_normSq β₂ a z
  have h1 := sq_nonneg (2 * a * β₂ * z)
  have h2 := norm_nonneg (stretch β₂ a z)
  nlinarith

theorem width_re (β₂ a z : ℝ) : ((a : ℂ) / stretch β₂ a z).re = a / (1 + (2 * a * β₂ * z) ^ 2) := by
  rw [div_re, ofReal_re, ofReal_im, stretch_re, normSq_eq_norm_sq, stretch_normSq]
  ring

/-- the width of the pulse over the distance `L` -/
theorem width_mem (ha : 0 < a) {z : ℝ} (hz : z ∈ Icc 0 L) : a / (1 + (2 * a * β₂ * L) ^ 2) ≤ ((a : ℂ) / stretch β₂ a z).re ∧ ‖(a : ℂ) / stretch β₂ a z‖ ≤ a := by
  constructor
  · rw [width_re]
    refine div_le_div_of_nonneg_left ha.le (by positivity) ?_
    have h1 : z ^ 2 ≤ L ^ 2 := pow_le_pow_left₀ hz.1 hz.2 2
    have h2 := mul_le_mul_of_nonneg_left h1 (sq_nonneg (2 * a * β₂))
    nlinarith
  · rw [norm_div, norm_real, Real.norm_eq_abs, abs_of_pos ha]
    exact div_le_self ha.le (one_le_stretch β₂ a z)

theorem root_contDiff (β₂ a : ℝ) : ContDiff ℝ (⊤ : ℕ∞) fun q : ℝ × ℝ => stretch β₂ a q.1 ^ ((-(1 / 2) : ℝ) : ℂ) := by
  have hs : ContDiff ℝ (⊤ : ℕ∞) fun q : ℝ × ℝ => stretch β₂ a q.1 := contDiff_const.sub (contDiff_const.mul (ofRealCLM.contDiff.comp contDiff_fst))
  have hl : ContDiff ℝ (⊤ : ℕ∞) fun q : ℝ × ℝ => log (stretch β₂ a q.1) := by
    rw [contDiff_iff_contDiffAt]
    intro q
    exact ((contDiffAt_log (stretch_slit β₂ a q.1)).restrict_scalars ℝ).comp q hs.contDiffAt
  have e : (fun q : ℝ × ℝ => stretch β₂ a q.1 ^ ((-(1 / 2) : ℝ) : ℂ)) = fun q : ℝ × ℝ => exp (log (stretch β₂ a q.1) * ((-(1 / 2) : ℝ) : ℂ)) := by
    funext q
    rw [cpow_def_of_ne_zero (stretch_ne β₂ a q.1)]
  rw [e]
  exact (hl.mul contDiff_const).cexp

theorem gaussian_contDiff : ContDiff ℝ (⊤ : ℕ∞) fun q : ℝ × ℝ => gaussian P β₂ g a q.1 q.2 := by
  have hs : ContDiff ℝ (⊤ : ℕ∞) fun q : ℝ × ℝ => stretch β₂ a q.1 := contDiff_const.sub (contDiff_const.mul (ofRealCLM.contDiff.comp contDiff_fst))
  have hne : ∀ q : ℝ × ℝ, stretch β₂ a q.1 ≠ 0 := fun q => stretch_ne β₂ a q.1
  have h1 : ContDiff ℝ (⊤ : ℕ∞) fun q : ℝ × ℝ => exp ((g : ℂ) / 2 * (q.1 : ℂ)) := (contDiff_const.mul (ofRealCLM.contDiff.comp contDiff_fst)).cexp
  have h2 : ContDiff ℝ (⊤ : ℕ∞) fun q : ℝ × ℝ => (stretch β₂ a q.1)⁻¹ := hs.inv hne
  have h3 : ContDiff ℝ (⊤ : ℕ∞) fun q : ℝ × ℝ => (q.2 : ℂ) ^ 2 := (ofRealCLM.contDiff.comp contDiff_snd).pow 2
  have h4 : ContDiff ℝ (⊤ : ℕ∞) fun q : ℝ × ℝ => exp (-((a : ℂ) * (stretch β₂ a q.1)⁻¹ * (q.2 : ℂ) ^ 2)) := ((contDiff_const.mul h2).mul h3).neg.cexp
  have h5 := ((contDiff_const (c := (Real.sqrt P : ℂ))).mul h1).mul (root_contDiff β₂ a) |>.mul h4
  exact h5

theorem bell_iterated2 (w : ℂ) (t : ℝ) : iteratedDeriv 2 (bell w) t = (4 * w ^ 2 * (t : ℂ) ^ 2 - 2 * w) * bell w t := by
  have h1 : _root_.deriv (bell w) = fun t : ℝ => -(2 * w * t) * bell w t := funext fun t => (bell_hasDerivAt w t).deriv
  have h2 := ((((re_hasDerivAt t).const_mul (2 * w)).neg).mul (bell_hasDerivAt w t)).deriv
  rw [iteratedDeriv_succ, iteratedDeriv_one, h1]
  refine h2.trans ?_
  simp only [Pi.neg_apply]
  ring

theorem gaussian_equation (z t : ℝ) : HasDerivAt (fun z => gaussian P β₂ g a z t)
    (dispersion (C (β₂ / 2) * X ^ 2) (gaussian P β₂ g a z) t + g / 2 * gaussian P β₂ g a z t +
      I * (0 : ℝ) * gaussian P β₂ g a z t * ((‖gaussian P β₂ g a z t‖ ^ 2 : ℝ) : ℂ)) z := by
  have hne := stretch_ne β₂ a z
  have hs : HasDerivAt (fun z : ℝ => stretch β₂ a z) (-(2 * I * a * β₂)) z := by
    have h := ((re_hasDerivAt z).const_mul (2 * I * a * β₂)).const_sub 1
    exact h.congr_deriv (by ring)
  have h1 : HasDerivAt (fun z : ℝ => exp ((g : ℂ) / 2 * (z : ℂ))) (g / 2 * exp ((g : ℂ) / 2 * (z : ℂ))) z := by
    have h := ((re_hasDerivAt z).const_mul ((g : ℂ) / 2)).cexp
    exact h.congr_deriv (by ring)
  have h2 : HasDerivAt (fun z : ℝ => stretch β₂ a z ^ ((-(1 / 2) : ℝ) : ℂ)) (I * a * β₂ / stretch β₂ a z * stretch β₂ a z ^ ((-(1 / 2) : ℝ) : ℂ)) z := by
    have h := (hs.clog_real (stretch_slit β₂ a z)).mul_const ((-(1 / 2) : ℝ) : ℂ)
    have h' := h.cexp
    have e : (fun z : ℝ => exp (log (stretch β₂ a z) * ((-(1 / 2) : ℝ) : ℂ))) = fun z : ℝ => stretch β₂ a z ^ ((-(1 / 2) : ℝ) : ℂ) := by
      funext z
      rw [cpow_def_of_ne_zero (stretch_ne β₂ a z)]
    rw [e] at h'
    refine h'.congr_deriv ?_
    rw [← cpow_def_of_ne_zero hne]
    push_cast
    field_simp
  have h3 : HasDerivAt (fun z : ℝ => exp (-((a : ℂ) / stretch β₂ a z * (t : ℂ) ^ 2)))
      (-(2 * I * a ^ 2 * β₂ * (t : ℂ) ^ 2 / stretch β₂ a z ^ 2) * exp (-((a : ℂ) / stretch β₂ a z * (t : ℂ) ^ 2))) z := by
    have h := ((((hasDerivAt_const z (a : ℂ)).div hs hne).mul_const ((t : ℂ) ^ 2)).neg).cexp
    refine h.congr_deriv ?_
    simp only [Pi.neg_apply, Pi.div_apply]
    ring
  have h4 := (((h1.const_mul (Real.sqrt P : ℂ)).mul h2).mul h3)
  refine h4.congr_deriv ?_
  simp only [Pi.mul_apply]
  have hdisp : dispersion (C (β₂ / 2) * X ^ 2) (gaussian P β₂ g a z) t = -(I * β₂ / 2 * iteratedDeriv 2 (gaussian P β₂ g a z) t) := by
    unfold dispersion
    rw [Polynomial.C_mul_X_pow_eq_monomial, Polynomial.sum_monomial_index]
    · rw [I_sq]; push_cast; ring
    · simp
  have hG : gaussian P β₂ g a z = fun t => Real.sqrt P * exp (g / 2 * z) * stretch β₂ a z ^ ((-(1 / 2) : ℝ) : ℂ) * bell ((a : ℂ) / stretch β₂ a z) t := rfl
  rw [hdisp, hG, iteratedDeriv_const_mul _ (smooth_at (bell_contDiff _) 2 t), bell_iterated2]
  have hb : exp (-((a : ℂ) / stretch β₂ a z * (t : ℂ) ^ 2)) = bell ((a : ℂ) / stretch β₂ a z) t := rfl
  rw [hb]
  beta_reduce
  generalize stretch β₂ a z ^ ((-(1 / 2) : ℝ) : ℂ) = R
  generalize bell ((a : ℂ) / stretch β₂ a z) t = B
  generalize exp ((g : ℂ) / 2 * (z : ℂ)) = G
  clear h4 h3 h2 h1 hs hb hG hdisp
  generalize stretch β₂ a z = S at *
  rw [ofReal_zero, mul_zero, zero_mul, zero_mul, add_zero]
  field_simp
  ring

theorem gaussian_line (ha : 0 < a) (μ : ℝ) : LineSolution (C (β₂ / 2) * X ^ 2) g 0 μ L (gaussian P β₂ g a) := by
  refine ⟨gaussian_contDiff, fun z _ _ t => gaussian_equation z t, fun k => ?_⟩
  have hρ : 0 < a / (1 + (2 * a * β₂ * L) ^ 2) := by positivity
  obtain ⟨D, hD⟩ := (bell_tame (M := a) hρ μ).bound k
  refine ⟨Real.sqrt P * Real.exp (|g| / 2 * L) * |D|, fun z h0 hL t => ?_⟩
  have hG : gaussian P β₂ g a z = fun t => Real.sqrt P * exp (g / 2 * z) * stretch β₂ a z ^ ((-(1 / 2) : ℝ) : ℂ) * bell ((a : ℂ) / stretch β₂ a z) t := rfl
  have h1 := hD ⟨(a : ℂ) / stretch β₂ a z, width_mem ha ⟨h0, hL⟩⟩ t
  rw [hG, iteratedDeriv_const_mul _ (smooth_at (bell_contDiff _) k t), norm_mul, norm_mul, norm_mul, norm_real, Real.norm_eq_abs, abs_of_nonneg (Real.sqrt_nonneg P),
    norm_cpow_real, norm_exp]
  have e1 : ((g : ℂ) / 2 * (z : ℂ)).re = g / 2 * z := by
    rw [re_mul_ofReal]
    congr 1
    rw [show (g : ℂ) / 2 = ((g / 2 : ℝ) : ℂ) by push_cast; ring, ofReal_re]
  have h2 : Real.exp ((g : ℂ) / 2 * (z : ℂ)).re ≤ Real.exp (|g| / 2 * L) := by
    rw [e1]
    refine Real.exp_le_exp.2 ?_
    have := le_abs_self g
    have := abs_nonneg g
    nlinarith
  have h3 : ‖stretch β₂ a z‖ ^ (-(1 / 2) : ℝ) ≤ 1 := Real.rpow_le_one_of_one_le_of_nonpos (one_le_stretch β₂ a z) (by norm_num)
  have h3' : 0 ≤ ‖stretch β₂ a z‖ ^ (-(1 / 2) : ℝ) := Real.rpow_nonneg (norm_nonneg _) _
  have h4 : Real.sqrt P * Real.exp ((g : ℂ) / 2 * (z : ℂ)).re * ‖stretch β₂ a z‖ ^ (-(1 / 2) : ℝ) ≤ Real.sqrt P * Real.exp (|g| / 2 * L) * 1 :=
    mul_le_mul (mul_le_mul_of_nonneg_left h2 (Real.sqrt_nonneg P)) h3 h3' (by positivity)
  have h5 : ‖iteratedDeriv k (bell ((a : ℂ) / stretch β₂ a z)) t‖ ≤ |D| * Real.exp (-(μ * |t|)) :=
    h1.trans (mul_le_mul_of_nonneg_right (le_abs_self D) (Real.exp_pos _).le)
  have h6 := mul_le_mul h4 h5 (norm_nonneg _) (by positivity)
  linarith

theorem gaussian_start (P β₂ g a t : ℝ) : gaussian P β₂ g a 0 t = ((Real.sqrt P * Real.exp (-(a * t ^ 2)) : ℝ) : ℂ) := by
  unfold gaussian stretch
  simp

/-- power of the stretched pulse -/
theorem gaussian_power (hP : 0 ≤ P) (z t : ℝ) : ‖gaussian P β₂ g a z t‖ ^ 2 =
    P * Real.exp (g * z) / Real.sqrt (1 + (2 * a * β₂ * z) ^ 2) * Real.exp (-(2 * a * t ^ 2 / (1 + (2 * a * β₂ * z) ^ 2))) := by
  unfold gaussian
  have e1 : ((g : ℂ) / 2 * (z : ℂ)).re = g / 2 * z := by
    rw [re_mul_ofReal]
    congr 1
    rw [show (g : ℂ) / 2 = ((g / 2 : ℝ) : ℂ) by push_cast; ring, ofReal_re]
  have e2 : (-((a : ℂ) / stretch β₂ a z * (t : ℂ) ^ 2)).re = -(a / (1 + (2 * a * β₂ * z) ^ 2) * t ^ 2) := by
    rw [neg_re, ← ofReal_pow, re_mul_ofReal, width_re]
  have e3 : (‖stretch β₂ a z‖ ^ (-(1 / 2) : ℝ)) ^ 2 = (Real.sqrt (1 + (2 * a * β₂ * z) ^ 2))⁻¹ := by
    have hn : ‖stretch β₂ a z‖ = Real.sqrt (1 + (2 * a * β₂ * z) ^ 2) := by
      rw [← stretch_normSq, Real.sqrt_sq (norm_nonneg _)]
    rw [← Real.rpow_natCast, ← Real.rpow_mul (norm_nonneg _), hn]
    norm_num [Real.rpow_neg_one]
  rw [norm_mul, norm_mul, norm_mul, norm_real, Real.norm_eq_abs, abs_of_nonneg (Real.sqrt_nonneg P), norm_cpow_real, norm_exp, norm_exp, e1, e2, mul_pow, mul_pow, mul_pow,
    Real.sq_sqrt hP, e3, ← Real.exp_nat_mul, ← Real.exp_nat_mul]
  push_cast
  rw [show 2 * (g / 2 * z) = g * z by ring, show 2 * -(a / (1 + (2 * a * β₂ * z) ^ 2) * t ^ 2) = -(2 * a * t ^ 2 / (1 + (2 * a * β₂ * z) ^ 2)) by ring]
  ring

end PyNLO.Nlse
