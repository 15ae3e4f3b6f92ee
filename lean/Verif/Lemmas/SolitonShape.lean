import Mathlib.Analysis.SpecialFunctions.SmoothTransition
import Mathlib.Analysis.SpecialFunctions.Trigonometric.DerivHyp
import Mathlib.Analysis.Calculus.ContDiff.Deriv
import Verif.Lemmas.Periodic

/-!
# A periodic shape close to the hyperbolic secant

The hyperbolic secant is cut off smoothly where it is smaller than `ε` and continued periodically.  What the cut changes is of the order of `ε`.
-/

namespace PyNLO.Nlse

open Set Filter Topology

/-! ## The cut -/

/-- zero up to one, the identity from two on -/
noncomputable def clip (v : ℝ) : ℝ := v * Real.smoothTransition (v - 1)

noncomputable def clip1 : ℝ → ℝ := deriv clip
noncomputable def clip2 : ℝ → ℝ := deriv clip1
noncomputable def clip3 : ℝ → ℝ := deriv clip2

theorem clip_contDiff : ContDiff ℝ (⊤ : ℕ∞) clip :=
  contDiff_id.mul (Real.smoothTransition.contDiff.comp (contDiff_id.sub contDiff_const))

theorem clip1_contDiff : ContDiff ℝ (⊤ : ℕ∞) clip1 := (contDiff_infty_iff_deriv.1 clip_contDiff).2
theorem clip2_contDiff : ContDiff ℝ (⊤ : ℕ∞) clip2 := (contDiff_infty_iff_deriv.1 clip1_contDiff).2
theorem clip3_contDiff : ContDiff ℝ (⊤ : ℕ∞) clip3 := (contDiff_infty_iff_deriv.1 clip2_contDiff).2

theorem clip_hasDerivAt (v : ℝ) : HasDerivAt clip (clip1 v) v := (clip_contDiff.differentiable (by simp) v).hasDerivAt
theorem clip1_hasDerivAt (v : ℝ) : HasDerivAt clip1 (clip2 v) v := (clip1_contDiff.differentiable (by simp) v).hasDerivAt
theorem clip2_hasDerivAt (v : ℝ) : HasDerivAt clip2 (clip3 v) v := (clip2_contDiff.differentiable (by simp) v).hasDerivAt

theorem clip_zero {v : ℝ} (hv : v ≤ 1) : clip v = 0 := by
  unfold clip
  rw [Real.smoothTransition.zero_of_nonpos (by linarith), mul_zero]

theorem clip_id {v : ℝ} (hv : 2 ≤ v) : clip v = v := by
  unfold clip
  rw [Real.smoothTransition.one_of_one_le (by linarith), mul_one]

theorem clip_nonneg {v : ℝ} (hv : 0 ≤ v) : 0 ≤ clip v := mul_nonneg hv (Real.smoothTransition.nonneg _)

theorem clip_le {v : ℝ} (hv : 0 ≤ v) : clip v ≤ v := mul_le_of_le_one_right hv (Real.smoothTransition.le_one _)

theorem clip1_one {v : ℝ} (hv : 2 < v) : clip1 v = 1 := by
  have h : clip =ᶠ[𝓝 v] id := (eventually_gt_nhds hv).mono fun w hw => clip_id hw.le
  show deriv clip v = 1
  rw [h.deriv_eq, deriv_id]

theorem clip2_zero {v : ℝ} (hv : 2 < v) : clip2 v = 0 := by
  have h : clip1 =ᶠ[𝓝 v] fun _ => 1 := (eventually_gt_nhds hv).mono fun w hw => clip1_one hw
  show deriv clip1 v = 0
  rw [h.deriv_eq, deriv_const]

theorem clip3_zero {v : ℝ} (hv : 2 < v) : clip3 v = 0 := by
  have h : clip2 =ᶠ[𝓝 v] fun _ => 0 := (eventually_gt_nhds hv).mono fun w hw => clip2_zero hw
  show deriv clip2 v = 0
  rw [h.deriv_eq, deriv_const]

theorem clip1_low {v : ℝ} (hv : v < 1) : clip1 v = 0 := by
  have h : clip =ᶠ[𝓝 v] fun _ => 0 := (eventually_lt_nhds hv).mono fun w hw => clip_zero hw.le
  show deriv clip v = 0
  rw [h.deriv_eq, deriv_const]

theorem clip2_low {v : ℝ} (hv : v < 1) : clip2 v = 0 := by
  have h : clip1 =ᶠ[𝓝 v] fun _ => 0 := (eventually_lt_nhds hv).mono fun w hw => clip1_low hw
  show deriv clip1 v = 0
  rw [h.deriv_eq, deriv_const]

/-- the two parts of what the cut leaves of the equation, and their derivatives -/
noncomputable def left1 (v : ℝ) : ℝ := clip v - clip2 v * v ^ 2 - clip1 v * v
noncomputable def left2 (v : ℝ) : ℝ := clip2 v * v ^ 4 + 2 * clip1 v * v ^ 3 - 2 * clip v ^ 3
noncomputable def left1' (v : ℝ) : ℝ := -(clip3 v * v ^ 2) - 3 * v * clip2 v
noncomputable def left2' (v : ℝ) : ℝ := clip3 v * v ^ 4 + 6 * v ^ 3 * clip2 v + 6 * clip1 v * v ^ 2 - 6 * clip v ^ 2 * clip1 v

theorem left1_hasDerivAt (v : ℝ) : HasDerivAt left1 (left1' v) v := by
  have h := ((clip_hasDerivAt v).sub ((clip2_hasDerivAt v).mul (hasDerivAt_pow 2 v))).sub ((clip1_hasDerivAt v).mul (hasDerivAt_id v))
  refine h.congr_deriv ?_
  simp only [left1', id, Nat.cast_ofNat]
  ring

theorem left2_hasDerivAt (v : ℝ) : HasDerivAt left2 (left2' v) v := by
  have h := (((clip2_hasDerivAt v).mul (hasDerivAt_pow 4 v)).add (((clip1_hasDerivAt v).const_mul 2).mul (hasDerivAt_pow 3 v))).sub
    (((clip_hasDerivAt v).pow 3).const_mul 2)
  refine h.congr_deriv ?_
  simp only [left2', Nat.cast_ofNat]
  ring

theorem bounded_half {f : ℝ → ℝ} (hf : Continuous f) (hz : ∀ v, 2 < v → f v = 0) : ∃ B, 0 ≤ B ∧ ∀ v, 0 ≤ v → |f v| ≤ B := by
  obtain ⟨B, hB⟩ := (isCompact_Icc (a := (0 : ℝ)) (b := 2)).exists_bound_of_continuousOn hf.continuousOn
  refine ⟨max B 0, le_max_right _ _, fun v hv => ?_⟩
  by_cases h : v ≤ 2
  · exact (hB v ⟨hv, h⟩).trans (le_max_left _ _)
  · rw [hz v (by linarith), abs_zero]
    exact le_max_right _ _

/-- one bound for all quantities below -/
theorem clip_bounds : ∃ B : ℝ, 0 ≤ B ∧ ∀ v, 0 ≤ v → |clip1 v| ≤ B ∧ |v - clip v| ≤ B ∧ |v * (1 - clip1 v)| ≤ B ∧ |left1 v| ≤ B ∧ |left2 v| ≤ B ∧
    |v * left1' v| ≤ B ∧ |v * left2' v| ≤ B := by
  have k0 := clip_contDiff.continuous
  have k1 := clip1_contDiff.continuous
  have k2 := clip2_contDiff.continuous
  have k3 := clip3_contDiff.continuous
  obtain ⟨B1, p1, h1⟩ := bounded_half (f := fun v => clip1 v - 1) (by fun_prop) (fun v hv => by simp only [clip1_one hv]; ring)
  obtain ⟨B2, p2, h2⟩ := bounded_half (f := fun v => v - clip v) (by fun_prop) (fun v hv => by simp only [clip_id hv.le]; ring)
  obtain ⟨B3, p3, h3⟩ := bounded_half (f := fun v => v * (1 - clip1 v)) (by fun_prop) (fun v hv => by simp only [clip1_one hv]; ring)
  obtain ⟨B4, p4, h4⟩ := bounded_half (f := left1) (by unfold left1; fun_prop)
    (fun v hv => by simp only [left1, clip_id hv.le, clip1_one hv, clip2_zero hv]; ring)
  obtain ⟨B5, p5, h5⟩ := bounded_half (f := left2) (by unfold left2; fun_prop)
    (fun v hv => by simp only [left2, clip_id hv.le, clip1_one hv, clip2_zero hv]; ring)
  obtain ⟨B6, p6, h6⟩ := bounded_half (f := fun v => v * left1' v) (by unfold left1'; fun_prop)
    (fun v hv => by simp only [left1', clip2_zero hv, clip3_zero hv]; ring)
  obtain ⟨B7, p7, h7⟩ := bounded_half (f := fun v => v * left2' v) (by unfold left2'; fun_prop)
    (fun v hv => by simp only [left2', clip_id hv.le, clip1_one hv, clip2_zero hv, clip3_zero hv]; ring)
  refine ⟨B1 + 1 + B2 + B3 + B4 + B5 + B6 + B7, by positivity, fun v hv => ⟨?_, ?_, ?_, ?_, ?_, ?_, ?_⟩⟩
  · have e := abs_add_le (clip1 v - 1) 1
    rw [sub_add_cancel, abs_one] at e
    have := h1 v hv
    linarith
  · have := h2 v hv; linarith
  · have := h3 v hv; linarith
  · have := h4 v hv; linarith
  · have := h5 v hv; linarith
  · have := h6 v hv; linarith
  · have := h7 v hv; linarith

/-! ## The secant -/

noncomputable def sech (x : ℝ) : ℝ := (Real.cosh x)⁻¹
noncomputable def sech1 (x : ℝ) : ℝ := -(Real.sinh x / Real.cosh x ^ 2)

theorem sech_pos (x : ℝ) : 0 < sech x := inv_pos.2 (Real.cosh_pos x)
theorem sech_le_one (x : ℝ) : sech x ≤ 1 := inv_le_one_of_one_le₀ (Real.one_le_cosh x)
theorem sech_even (x : ℝ) : sech (-x) = sech x := by unfold sech; rw [Real.cosh_neg]

theorem sech_hasDerivAt (x : ℝ) : HasDerivAt sech (sech1 x) x := by
  refine ((Real.hasDerivAt_cosh x).inv (Real.cosh_pos x).ne').congr_deriv ?_
  unfold sech1
  ring

theorem sech1_hasDerivAt (x : ℝ) : HasDerivAt sech1 (sech x - 2 * sech x ^ 3) x := by
  have hc := (Real.cosh_pos x).ne'
  refine (((Real.hasDerivAt_sinh x).div ((Real.hasDerivAt_cosh x).pow 2) (pow_ne_zero 2 hc)).neg).congr_deriv ?_
  have h := Real.sinh_sq x
  unfold sech
  simp only [Pi.pow_apply, Nat.cast_ofNat]
  generalize Real.cosh x = c at *
  generalize Real.sinh x = s at *
  field_simp
  linear_combination 2 * c * h

theorem sech1_sq (x : ℝ) : sech1 x ^ 2 = sech x ^ 2 - sech x ^ 4 := by
  have hc := (Real.cosh_pos x).ne'
  have h := Real.sinh_sq x
  unfold sech sech1
  generalize Real.cosh x = c at *
  generalize Real.sinh x = s at *
  field_simp
  linear_combination h

theorem abs_sech1_le (x : ℝ) : |sech1 x| ≤ sech x := by
  refine abs_le_of_sq_le_sq ?_ (sech_pos x).le
  rw [sech1_sq]
  have := sech_pos x
  have : 0 < sech x ^ 4 := by positivity
  linarith

theorem sech_anti {x y : ℝ} (h : |x| ≤ |y|) : sech y ≤ sech x := by
  unfold sech
  exact inv_anti₀ (Real.cosh_pos x) (Real.cosh_le_cosh.2 h)

theorem sech_le_exp (x : ℝ) : sech x ≤ 2 * Real.exp (-x) := by
  unfold sech
  rw [inv_le_iff_one_le_mul₀ (Real.cosh_pos x), Real.cosh_eq]
  have h : Real.exp (-x) * Real.exp x = 1 := by rw [← Real.exp_add]; simp
  have h2 := Real.exp_pos (-x)
  nlinarith

theorem sech_contDiff : ContDiff ℝ (⊤ : ℕ∞) sech := by
  unfold sech
  exact Real.contDiff_cosh.inv fun x => (Real.cosh_pos x).ne'

/-! ## The cut secant -/

variable {ε : ℝ}

noncomputable def cut (ε x : ℝ) : ℝ := ε * clip (sech x / ε)
noncomputable def cut1 (ε x : ℝ) : ℝ := clip1 (sech x / ε) * sech1 x
noncomputable def cut2 (ε x : ℝ) : ℝ := clip2 (sech x / ε) * sech1 x ^ 2 / ε + clip1 (sech x / ε) * (sech x - 2 * sech x ^ 3)
noncomputable def rest (ε x : ℝ) : ℝ := ε * (left1 (sech x / ε) + ε ^ 2 * left2 (sech x / ε))
noncomputable def rest1 (ε x : ℝ) : ℝ := (left1' (sech x / ε) + ε ^ 2 * left2' (sech x / ε)) * sech1 x

theorem cut_contDiff (ε : ℝ) : ContDiff ℝ (⊤ : ℕ∞) (cut ε) :=
  contDiff_const.mul (clip_contDiff.comp (sech_contDiff.div_const ε))

theorem cut_hasDerivAt (hε : 0 < ε) (x : ℝ) : HasDerivAt (cut ε) (cut1 ε x) x := by
  have h := (((clip_hasDerivAt (sech x / ε)).comp x ((sech_hasDerivAt x).div_const ε)).const_mul ε)
  refine h.congr_deriv ?_
  unfold cut1
  field_simp

theorem cut1_hasDerivAt (hε : 0 < ε) (x : ℝ) : HasDerivAt (cut1 ε) (cut2 ε x) x := by
  have h := (((clip1_hasDerivAt (sech x / ε)).comp x ((sech_hasDerivAt x).div_const ε)).mul (sech1_hasDerivAt x))
  refine h.congr_deriv ?_
  simp only [cut2, Function.comp]
  field_simp

theorem rest_hasDerivAt (hε : 0 < ε) (x : ℝ) : HasDerivAt (rest ε) (rest1 ε x) x := by
  have d := (sech_hasDerivAt x).div_const ε
  have h := ((((left1_hasDerivAt (sech x / ε)).comp x d).add (((left2_hasDerivAt (sech x / ε)).comp x d).const_mul (ε ^ 2))).const_mul ε)
  refine h.congr_deriv ?_
  unfold rest1
  field_simp

theorem cut_equation (hε : 0 < ε) (x : ℝ) : cut ε x - cut2 ε x - 2 * cut ε x ^ 3 = rest ε x := by
  have h := sech1_sq x
  obtain ⟨v, hv⟩ : ∃ v, sech x = ε * v := ⟨sech x / ε, by field_simp⟩
  have e : sech x / ε = v := by rw [hv]; field_simp
  unfold cut cut2 rest left1 left2
  rw [h, e, hv]
  field_simp
  ring

theorem cut_zero (hε : 0 < ε) {x : ℝ} (h : sech x ≤ ε) : cut ε x = 0 := by
  unfold cut
  rw [clip_zero ((div_le_one hε).2 h), mul_zero]

theorem rest_zero (hε : 0 < ε) {x : ℝ} (h : sech x < ε) : rest ε x = 0 := by
  have hv : sech x / ε < 1 := (div_lt_one hε).2 h
  unfold rest left1 left2
  rw [clip_zero hv.le, clip1_low hv, clip2_low hv]
  ring

theorem cut_nonneg (hε : 0 < ε) (x : ℝ) : 0 ≤ cut ε x := mul_nonneg hε.le (clip_nonneg (div_nonneg (sech_pos x).le hε.le))

theorem cut_le (hε : 0 < ε) (x : ℝ) : cut ε x ≤ sech x := by
  unfold cut
  have := mul_le_mul_of_nonneg_left (clip_le (div_nonneg (sech_pos x).le hε.le)) hε.le
  rwa [mul_div_cancel₀ _ hε.ne'] at this

/-- what the cut changes: one constant for all cuts -/
theorem cut_bounds : ∃ B : ℝ, 0 ≤ B ∧ ∀ ε, 0 < ε → ε ≤ 1 → ∀ x, |cut1 ε x| ≤ B ∧ |sech x - cut ε x| ≤ B * ε ∧ |sech1 x - cut1 ε x| ≤ B * ε ∧
    |rest ε x| ≤ B * ε ∧ |rest1 ε x| ≤ B * ε := by
  obtain ⟨B, hB0, hB⟩ := clip_bounds
  refine ⟨2 * B, by positivity, fun ε hε h1 x => ?_⟩
  obtain ⟨v, hv⟩ : ∃ v, sech x = ε * v := ⟨sech x / ε, by field_simp⟩
  have e : sech x / ε = v := by rw [hv]; field_simp
  have hv0 : 0 ≤ v := by rw [← e]; exact div_nonneg (sech_pos x).le hε.le
  obtain ⟨b1, b2, b3, b4, b5, b6, b7⟩ := hB v hv0
  have hs := abs_sech1_le x
  have hs1 := sech_le_one x
  have hε2 : ε ^ 2 ≤ 1 := pow_le_one₀ hε.le h1
  have hmul : ∀ y, |y * sech1 x| ≤ |v * y| * ε := fun y => by
    rw [abs_mul, abs_mul, abs_of_nonneg hv0]
    calc |y| * |sech1 x| ≤ |y| * (ε * v) := mul_le_mul_of_nonneg_left (hv ▸ hs) (abs_nonneg _)
      _ = v * |y| * ε := by ring
  have hsum : ∀ y w, |y| ≤ B → |w| ≤ B → |y + ε ^ 2 * w| ≤ 2 * B := fun y w hy hw => by
    have t1 := abs_add_le y (ε ^ 2 * w)
    have t2 : |ε ^ 2 * w| ≤ B := by
      rw [abs_mul, abs_of_nonneg (by positivity)]
      calc ε ^ 2 * |w| ≤ 1 * |w| := mul_le_mul_of_nonneg_right hε2 (abs_nonneg _)
        _ ≤ B := by rw [one_mul]; exact hw
    linarith
  refine ⟨?_, ?_, ?_, ?_, ?_⟩
  · unfold cut1
    rw [e, abs_mul]
    calc |clip1 v| * |sech1 x| ≤ B * 1 := mul_le_mul b1 (hs.trans hs1) (abs_nonneg _) hB0
      _ ≤ 2 * B := by linarith
  · unfold cut
    rw [e, hv, ← mul_sub, abs_mul, abs_of_pos hε]
    nlinarith
  · unfold cut1
    rw [e, show sech1 x - clip1 v * sech1 x = (1 - clip1 v) * sech1 x by ring]
    refine (hmul _).trans ?_
    nlinarith
  · unfold rest
    rw [e, abs_mul, abs_of_pos hε, mul_comm]
    exact mul_le_mul_of_nonneg_right (hsum _ _ b4 b5) hε.le
  · unfold rest1
    rw [e]
    refine (hmul _).trans (mul_le_mul_of_nonneg_right ?_ hε.le)
    rw [show v * (left1' v + ε ^ 2 * left2' v) = v * left1' v + ε ^ 2 * (v * left2' v) by ring]
    exact hsum _ _ b6 b7

end PyNLO.Nlse
