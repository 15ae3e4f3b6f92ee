import Verif.Props.DfgQpm

/-!
# C145: gratings close to quasi-phase matching, and difference frequency generation

The sum of the contributions of a poled crystal for any mismatch, in closed form; the amplitude of the difference frequency of two continuous
waves to first order, with a bound of the rest.
-/

open scoped BigOperators
open Set

namespace PyNLO.Dfg

open Beam

variable {N : ℕ} {q : Prob N} {squm : ℝ}

/-! ## The grating -/

theorem grating_integrable (q : Prob N) (Δ a b : ℝ) :
    IntervalIntegrable (fun t => ((q.sign t : ℝ) : ℂ) * Complex.exp (Complex.I * ((Δ * t : ℝ) : ℂ))) MeasureTheory.volume a b := by
  have h1 : IntervalIntegrable (fun t => ((q.sign t : ℝ) : ℂ)) MeasureTheory.volume a b := ⟨(sign_integrable q a b).1.ofReal, (sign_integrable q a b).2.ofReal⟩
  exact h1.mul_continuousOn (continuous_phase Δ).continuousOn

/-- The phase over half a period. -/
noncomputable def halfPhase (Δ P : ℝ) : ℂ := Complex.exp (Complex.I * ((Δ * P / 2 : ℝ) : ℂ))

theorem phase_pow (Δ P : ℝ) (k : ℕ) : Complex.exp (Complex.I * ((Δ * (k * P) : ℝ) : ℂ)) = halfPhase Δ P ^ (2 * k) := by
  rw [halfPhase, ← Complex.exp_nat_mul]
  congr 1
  push_cast
  ring

theorem phase_pow_half (Δ P : ℝ) (k : ℕ) : Complex.exp (Complex.I * ((Δ * (k * P + P / 2) : ℝ) : ℂ)) = halfPhase Δ P ^ (2 * k) * halfPhase Δ P := by
  rw [halfPhase, ← Complex.exp_nat_mul, ← Complex.exp_add]
  congr 1
  push_cast
  ring

/-- One period of a crystal with a constant period, for any mismatch. -/
theorem period_integral_any (hq : q.mode = "PP") {P : ℝ} (hP : 0 < P) (hd : precomputePoling (fun _ => P) q.len = some q.domains) {k : ℕ} (hk : k * P < q.len)
    {Δ : ℝ} (hΔ : Δ ≠ 0) :
    ∫ t in (k * P : ℝ)..((k + 1 : ℕ) * P : ℝ), ((q.sign t : ℝ) : ℂ) * Complex.exp (Complex.I * ((Δ * t : ℝ) : ℂ)) =
      -(halfPhase Δ P ^ (2 * k) * (1 - halfPhase Δ P) ^ 2) / (Complex.I * Δ) := by
  have hs : ∀ t, (k * P : ℝ) ≤ t → t < (k + 1 : ℕ) * P → q.sign t = if (k * P : ℝ) + P / 2 < t then -1 else 1 := by
    intro t h1 h2
    have := C68_in_period (pp := fun _ => P) (fun _ => hP) hd (k := k) (by rw [wall_const]; exact hk) (x := t) (by rw [wall_const]; exact h1) (by rw [wall_const]; exact h2)
    rw [wall_const] at this
    rw [Prob.sign, if_pos hq, this]
  have e : ((k + 1 : ℕ) * P : ℝ) = k * P + P := by push_cast; ring
  have f1 : ∫ t in (k * P : ℝ)..(k * P + P / 2), ((q.sign t : ℝ) : ℂ) * Complex.exp (Complex.I * ((Δ * t : ℝ) : ℂ)) =
      ∫ t in (k * P : ℝ)..(k * P + P / 2), Complex.exp (Complex.I * ((Δ * t : ℝ) : ℂ)) := by
    refine intervalIntegral.integral_congr_Ioo_of_le (by linarith) fun t ht => ?_
    have := hs t ht.1.le (by rw [e]; linarith [ht.2])
    rw [if_neg (not_lt.2 ht.2.le)] at this
    simp [this]
  have f2 : ∫ t in (k * P + P / 2)..((k + 1 : ℕ) * P : ℝ), ((q.sign t : ℝ) : ℂ) * Complex.exp (Complex.I * ((Δ * t : ℝ) : ℂ)) =
      -∫ t in (k * P + P / 2)..((k + 1 : ℕ) * P : ℝ), Complex.exp (Complex.I * ((Δ * t : ℝ) : ℂ)) := by
    rw [← intervalIntegral.integral_neg]
    refine intervalIntegral.integral_congr_Ioo_of_le (by rw [e]; linarith) fun t ht => ?_
    have := hs t (by linarith [ht.1]) ht.2
    rw [if_pos ht.1] at this
    simp [this]
  rw [← intervalIntegral.integral_add_adjacent_intervals (grating_integrable q Δ _ (k * P + P / 2)) (grating_integrable q Δ _ _), f1, f2, phase_integral hΔ,
    phase_integral hΔ, phase_pow_half, phase_pow, phase_pow]
  rw [show 2 * (k + 1) = 2 * k + 2 by ring, pow_add]
  ring

/-- C145: the contributions of the first `M` periods. -/
theorem grating_sum (hq : q.mode = "PP") {P : ℝ} (hP : 0 < P) (hd : precomputePoling (fun _ => P) q.len = some q.domains) {M : ℕ} (hM : M * P ≤ q.len)
    {Δ : ℝ} (hΔ : Δ ≠ 0) :
    q.grating Δ (M * P) * (Complex.I * Δ) = -((1 - halfPhase Δ P) ^ 2 * ∑ k ∈ Finset.range M, halfPhase Δ P ^ (2 * k)) := by
  have hc : Complex.I * (Δ : ℂ) ≠ 0 := mul_ne_zero Complex.I_ne_zero (by exact_mod_cast hΔ)
  have hi : ∀ k < M, IntervalIntegrable (fun t => ((q.sign t : ℝ) : ℂ) * Complex.exp (Complex.I * ((Δ * t : ℝ) : ℂ))) MeasureTheory.volume
      ((fun k : ℕ => (k * P : ℝ)) k) ((fun k : ℕ => (k * P : ℝ)) (k + 1)) := fun k _ => grating_integrable q Δ _ _
  have := intervalIntegral.sum_integral_adjacent_intervals hi
  simp only [Nat.cast_zero, zero_mul] at this
  rw [Prob.grating, ← this, Finset.sum_mul, Finset.mul_sum, ← Finset.sum_neg_distrib]
  refine Finset.sum_congr rfl fun k hk => ?_
  have hk' : (k * P : ℝ) < q.len := by
    have h1 : ((k : ℝ) + 1) ≤ M := by exact_mod_cast Finset.mem_range.1 hk
    have := mul_le_mul_of_nonneg_right h1 hP.le
    linarith
  rw [period_integral_any hq hP hd hk' hΔ, div_mul_cancel₀ _ hc]
  ring

theorem norm_halfPhase_sub (Δ P : ℝ) : ‖1 - halfPhase Δ P‖ = 2 * |Real.sin (Δ * P / 4)| := by
  rw [norm_sub_rev, halfPhase, norm_phase_sub_one]
  congr 3
  ring

theorem norm_halfPhase_add (Δ P : ℝ) : ‖1 + halfPhase Δ P‖ = 2 * |Real.cos (Δ * P / 4)| := by
  have h : (1 : ℂ) + halfPhase Δ P = -(Complex.exp (Complex.I * ((Δ * P / 2 + Real.pi : ℝ) : ℂ)) - 1) := by
    rw [halfPhase]
    push_cast
    rw [mul_add, Complex.exp_add, mul_comm Complex.I (Real.pi : ℂ), Complex.exp_pi_mul_I]
    ring
  rw [h, norm_neg, norm_phase_sub_one, ← Real.sin_add_pi_div_two]
  congr 3
  ring

/-- C145, closed form: the contributions of `M` periods for any mismatch. -/
theorem C145_grating (hq : q.mode = "PP") {P : ℝ} (hP : 0 < P) (hd : precomputePoling (fun _ => P) q.len = some q.domains) {M : ℕ} (hM : M * P ≤ q.len)
    (Δ : ℝ) : ‖q.grating Δ (M * P)‖ * |Δ| * |Real.cos (Δ * P / 4)| = 2 * |Real.sin (Δ * P / 4)| * |Real.sin (Δ * (M * P) / 2)| := by
  rcases eq_or_ne Δ 0 with rfl | hΔ
  · simp
  have h1 := grating_sum hq hP hd hM hΔ
  have h2 : q.grating Δ (M * P) * (Complex.I * Δ) * (1 + halfPhase Δ P) = (1 - halfPhase Δ P) * (halfPhase Δ P ^ (2 * M) - 1) := by
    have hg : (∑ k ∈ Finset.range M, (halfPhase Δ P ^ 2) ^ k) * (halfPhase Δ P ^ 2 - 1) = (halfPhase Δ P ^ 2) ^ M - 1 := geom_sum_mul _ _
    simp only [← pow_mul] at hg
    rw [h1]
    linear_combination (1 - halfPhase Δ P) * hg
  have h3 := congrArg norm h2
  rw [norm_mul, norm_mul, norm_mul, norm_mul, Complex.norm_I, one_mul, Complex.norm_real, Real.norm_eq_abs, norm_halfPhase_add, norm_halfPhase_sub, ← phase_pow,
    norm_phase_sub_one] at h3
  linarith

/-- C145, exact quasi-phase matching: the first `M` periods. -/
theorem grating_matched (hq : q.mode = "PP") {P : ℝ} (hP : 0 < P) (hd : precomputePoling (fun _ => P) q.len = some q.domains) {M : ℕ} (hM : M * P ≤ q.len)
    {Δ : ℝ} (h : |Δ| = 2 * Real.pi / P) : ‖q.grating Δ (M * P)‖ = 2 / Real.pi * (M * P) := by
  have hpi := Real.pi_pos
  have hΔ : Δ ≠ 0 := by
    rintro rfl
    rw [abs_zero] at h
    exact absurd h.symm (by positivity)
  have hy : halfPhase Δ P = -1 := by
    have e : ∀ x : ℝ, x = 2 * Real.pi / P ∨ x = -(2 * Real.pi / P) → halfPhase x P = -1 := by
      rintro x (rfl | rfl)
      · rw [halfPhase, show 2 * Real.pi / P * P / 2 = Real.pi by field_simp, mul_comm, Complex.exp_pi_mul_I]
      · rw [halfPhase, show -(2 * Real.pi / P) * P / 2 = -Real.pi by field_simp]
        push_cast
        rw [mul_neg, Complex.exp_neg, mul_comm, Complex.exp_pi_mul_I]
        norm_num
    exact e Δ (eq_or_eq_neg_of_abs_eq h)
  have h1 := congrArg norm (grating_sum hq hP hd hM hΔ)
  rw [hy] at h1
  have hs : ∑ k ∈ Finset.range M, (-1 : ℂ) ^ (2 * k) = M := by simp [pow_mul]
  rw [hs, norm_neg, norm_mul, norm_mul, norm_mul, Complex.norm_I, one_mul, Complex.norm_real, Real.norm_eq_abs, h] at h1
  norm_num at h1
  field_simp at h1 ⊢
  linarith

/-- The contributions of a part of the crystal are at most its length. -/
theorem grating_lipschitz (q : Prob N) (Δ : ℝ) (a b : ℝ) : ‖q.grating Δ b - q.grating Δ a‖ ≤ |b - a| := by
  rw [Prob.grating, Prob.grating, intervalIntegral.integral_interval_sub_left (grating_integrable q Δ _ _) (grating_integrable q Δ _ _)]
  refine (intervalIntegral.norm_integral_le_of_norm_le_const (C := 1) fun t _ => ?_).trans (by rw [one_mul])
  rw [norm_mul, norm_sign, norm_phase, one_mul]

theorem cot_bounds {x : ℝ} (h0 : 0 < x) (h1 : x ≤ 1 / 2) : 1 - x ^ 2 / 2 ≤ x * Real.cos x / Real.sin x ∧ x * Real.cos x / Real.sin x ≤ 1 := by
  have hpi := Real.pi_gt_three
  have hs : 0 < Real.sin x := Real.sin_pos_of_pos_of_lt_pi h0 (by linarith)
  have hc : 0 < Real.cos x := Real.cos_pos_of_mem_Ioo ⟨by linarith, by linarith⟩
  constructor
  · rw [le_div_iff₀ hs]
    have h2 := Real.sin_lt h0
    have h3 := Real.one_sub_sq_div_two_le_cos (x := x)
    have h4 : 0 ≤ 1 - x ^ 2 / 2 := by nlinarith
    calc (1 - x ^ 2 / 2) * Real.sin x ≤ (1 - x ^ 2 / 2) * x := mul_le_mul_of_nonneg_left h2.le h4
      _ ≤ x * Real.cos x := by nlinarith
  · rw [div_le_one hs]
    have := Real.lt_tan h0 (by linarith)
    rw [Real.tan_eq_sin_div_cos, lt_div_iff₀ hc] at this
    exact this.le

/-- The ratio of a grating close to quasi-phase matching to the sinc. -/
theorem ratio_bound {x : ℝ} (h0 : x ≠ 0) (h1 : |x| ≤ 1 / 2) :
    |(|x| * Real.cos |x| / Real.sin |x|) / (1 + 2 * x / Real.pi) - 1| ≤ |x| := by
  have hpi := Real.pi_gt_three
  obtain ⟨l, u⟩ := cot_bounds (abs_pos.2 h0) h1
  have ha := abs_pos.2 h0
  set a := |x| with hadef
  set c := a * Real.cos a / Real.sin a
  have hx : -a ≤ x ∧ x ≤ a := ⟨neg_abs_le x, le_abs_self x⟩
  have hden : 0 < 1 + 2 * x / Real.pi := by
    rw [show 1 + 2 * x / Real.pi = (Real.pi + 2 * x) / Real.pi by field_simp]
    exact div_pos (by linarith) (by linarith)
  have h2 : |2 * x / Real.pi| ≤ 2 / 3 * a := by
    rw [abs_div, abs_mul, abs_two, abs_of_pos (show 0 < Real.pi by linarith), div_le_iff₀ (by linarith), ← hadef]
    nlinarith
  have h3 := abs_le.1 h2
  set y := 2 * x / Real.pi
  rw [abs_le]
  constructor
  · rw [neg_le_sub_iff_le_add, le_iff_exists_nonneg_add]
    refine ⟨c / (1 + y) + a - 1, ?_, by ring⟩
    have : (1 - a) * (1 + y) ≤ c := by nlinarith
    have := (le_div_iff₀ hden).2 this
    linarith
  · rw [sub_le_iff_le_add, div_le_iff₀ hden]
    nlinarith

/-- C145, close to quasi-phase matching: a crystal poled with a period whose grating misses the mismatch by `δ / L` has the contributions of a
phase-matched crystal of its length times `2 / π` times the sinc of `δ / 2`, up to about two periods. -/
theorem C145_near (hq : q.mode = "PP") {P : ℝ} (hP : 0 < P) (hL : 0 < q.len) (hd : precomputePoling (fun _ => P) q.len = some q.domains) {Δ δ : ℝ}
    (hδ : |δ| * P ≤ 2 * q.len) (hΔ : |Δ| = 2 * Real.pi / P + δ / q.len) :
    |‖q.grating Δ q.len‖ - (2 / Real.pi * q.len * |Real.sinc (δ / 2)|)| ≤ (2 + |δ| / 6) * P := by
  have hpi := Real.pi_gt_three
  have hpi0 := Real.pi_pos
  set L := q.len with hLdef
  obtain ⟨M, hM, hM'⟩ : ∃ M : ℕ, M * P ≤ L ∧ L < M * P + P := by
    refine ⟨⌊L / P⌋₊, ?_, ?_⟩
    · exact (le_div_iff₀ hP).1 (Nat.floor_le (by positivity))
    · have := (div_lt_iff₀ hP).1 (Nat.lt_floor_add_one (L / P))
      linarith
  set z := (M * P : ℝ) with hz
  have hz0 : 0 ≤ z := by positivity
  have g1 : |‖q.grating Δ L‖ - ‖q.grating Δ z‖| ≤ P :=
    (abs_norm_sub_norm_le _ _).trans ((grating_lipschitz q Δ z L).trans (by rw [abs_of_nonneg (by linarith)]; linarith))
  have h2pi : 2 / Real.pi ≤ 2 / 3 := by gcongr
  rcases eq_or_ne δ 0 with rfl | hδ0
  · have g2 := grating_matched hq hP hd hM (Δ := Δ) (by rw [hΔ, zero_div, add_zero])
    rw [← hz] at g2
    have e : 2 / Real.pi * z - 2 / Real.pi * L = -(2 / Real.pi * (L - z)) := by ring
    have g3 : |2 / Real.pi * z - 2 / Real.pi * L| ≤ P := by
      rw [e, abs_neg, abs_of_nonneg (mul_nonneg (by positivity) (by linarith))]
      calc 2 / Real.pi * (L - z) ≤ 1 * (L - z) := mul_le_mul_of_nonneg_right (by linarith) (by linarith)
        _ ≤ P := by linarith
    rw [g2] at g1
    rw [zero_div, Real.sinc_zero, abs_one, mul_one, abs_zero]
    have := abs_sub_le ‖q.grating Δ L‖ (2 / Real.pi * z) (2 / Real.pi * L)
    linarith
  have ha := abs_pos.2 hδ0
  set x := δ * P / (4 * L) with hx
  have hx0 : x ≠ 0 := by positivity
  have hxa : |x| = |δ| * P / (4 * L) := by rw [hx, abs_div, abs_mul, abs_of_pos hP, abs_of_pos (show 0 < 4 * L by positivity)]
  have hx1 : |x| ≤ 1 / 2 := by rw [hxa, div_le_iff₀ (by positivity)]; linarith
  have hρ := ratio_bound hx0 hx1
  have hs : 0 < Real.sin |x| := Real.sin_pos_of_pos_of_lt_pi (abs_pos.2 hx0) (by linarith)
  have hcos : 0 < Real.cos |x| := Real.cos_pos_of_mem_Ioo ⟨by linarith [abs_nonneg x], by linarith⟩
  have hden : 0 < 1 + 2 * x / Real.pi := by
    have := neg_abs_le x
    rw [show 1 + 2 * x / Real.pi = (Real.pi + 2 * x) / Real.pi by field_simp]
    exact div_pos (by linarith) hpi0
  set ρ := (|x| * Real.cos |x| / Real.sin |x|) / (1 + 2 * x / Real.pi) with hρdef
  -- the phases
  have hD : |Δ| * P / 4 = x + Real.pi / 2 := by rw [hΔ, hx]; field_simp; ring
  have hDz : |Δ| * z / 2 = δ * z / (2 * L) + M * Real.pi := by rw [hΔ, hz]; field_simp; ring
  have eabs : ∀ (f : ℝ → ℝ) (_ : ∀ y, |f (-y)| = |f y|) (c : ℝ), |f (Δ * c)| = |f (|Δ| * c)| := by
    intro f hf c
    rcases abs_choice Δ with h | h
    · rw [h]
    · rw [h, neg_mul, hf]
  have e1 : |Real.cos (Δ * P / 4)| = Real.sin |x| := by
    have := eabs Real.cos (fun y => by rw [Real.cos_neg]) (P / 4)
    rw [← mul_div_assoc, ← mul_div_assoc, hD, Real.cos_add_pi_div_two, abs_neg] at this
    rw [this]
    rcases abs_choice x with h | h
    · rw [h] at hs ⊢; exact abs_of_pos hs
    · rw [h, Real.sin_neg] at hs ⊢; exact abs_of_neg (by linarith)
  have e2 : |Real.sin (Δ * P / 4)| = Real.cos |x| := by
    have := eabs Real.sin (fun y => by rw [Real.sin_neg, abs_neg]) (P / 4)
    rw [← mul_div_assoc, ← mul_div_assoc, hD, Real.sin_add_pi_div_two] at this
    rw [this, ← Real.cos_abs x, abs_of_pos hcos]
  have e3 : |Real.sin (Δ * z / 2)| = |Real.sin (δ * z / (2 * L))| := by
    have := eabs Real.sin (fun y => by rw [Real.sin_neg, abs_neg]) (z / 2)
    rw [← mul_div_assoc, ← mul_div_assoc, hDz, Real.sin_add_nat_mul_pi, abs_mul, abs_pow, abs_neg, abs_one, one_pow, one_mul] at this
    exact this
  have hDpos : 0 < |Δ| := by
    have : 0 < |Δ| * P / 4 := by rw [hD]; linarith [neg_abs_le x]
    by_contra hc
    have : |Δ| * P / 4 ≤ 0 := by
      have := mul_nonpos_of_nonpos_of_nonneg (not_lt.1 hc) hP.le
      linarith
    linarith
  have hG := C145_grating hq hP hd hM Δ
  rw [← hz, e1, e2, e3] at hG
  set u := 2 * L / |δ| * |Real.sin (δ * z / (2 * L))| with hu
  have hGu : ‖q.grating Δ z‖ = 2 / Real.pi * (ρ * u) := by
    have h1 : ‖q.grating Δ z‖ = 2 * Real.cos |x| * |Real.sin (δ * z / (2 * L))| / (|Δ| * Real.sin |x|) := by
      rw [eq_div_iff (by positivity)]
      linarith
    have h2 : |Δ| = 4 * (Real.pi / 2 * (1 + 2 * x / Real.pi)) / P := by
      rw [eq_div_iff hP.ne', show Real.pi / 2 * (1 + 2 * x / Real.pi) = x + Real.pi / 2 by field_simp; ring, ← hD]
      ring
    have h3 : |x| * (4 * L) = |δ| * P := by rw [hxa]; field_simp
    rw [h1, hu, hρdef, h2]
    generalize 1 + 2 * x / Real.pi = D at hden
    generalize |Real.sin (δ * z / (2 * L))| = S
    generalize Real.cos |x| = C at hcos
    generalize Real.sin |x| = s at hs
    generalize |x| = X at h3
    generalize |δ| = d at h3 ha
    field_simp
    linear_combination (-S) * h3
  have hsin : ∀ w, 0 ≤ w → |Real.sin (δ * w / (2 * L))| ≤ |δ| / (2 * L) * w := by
    intro w hw
    refine Real.abs_sin_le_abs.trans (le_of_eq ?_)
    rw [abs_div, abs_mul, abs_of_nonneg hw, abs_of_pos (show 0 < 2 * L by positivity)]
    ring
  have hu1 : u ≤ L := by
    have := mul_le_mul_of_nonneg_left (hsin z hz0) (show 0 ≤ 2 * L / |δ| by positivity)
    rw [show 2 * L / |δ| * (|δ| / (2 * L) * z) = z by field_simp] at this
    linarith
  have hu0 : 0 ≤ u := by positivity
  have hend : L * |Real.sinc (δ / 2)| = 2 * L / |δ| * |Real.sin (δ * L / (2 * L))| := by
    rw [Real.sinc_of_ne_zero (by positivity), abs_div, abs_div, abs_two, show δ * L / (2 * L) = δ / 2 by field_simp]
    field_simp
  have g4 : |u - (L * |Real.sinc (δ / 2)|)| ≤ P := by
    rw [hend, hu, ← mul_sub, abs_mul, abs_of_pos (show 0 < 2 * L / |δ| by positivity)]
    have h1 : |(|Real.sin (δ * z / (2 * L))| - |Real.sin (δ * L / (2 * L))|)| ≤ |δ| / (2 * L) * P := by
      refine (abs_abs_sub_abs_le _ _).trans ((Real.abs_sin_sub_sin_le _ _).trans ?_)
      rw [show δ * z / (2 * L) - δ * L / (2 * L) = -(δ / (2 * L) * (L - z)) by ring, abs_neg, abs_mul, abs_div, abs_of_pos (show 0 < 2 * L by positivity),
        abs_of_nonneg (show 0 ≤ L - z by linarith)]
      exact mul_le_mul_of_nonneg_left (by linarith) (by positivity)
    have := mul_le_mul_of_nonneg_left h1 (show 0 ≤ 2 * L / |δ| by positivity)
    rwa [show 2 * L / |δ| * (|δ| / (2 * L) * P) = P by field_simp] at this
  have g5 : |ρ * u - u| ≤ |δ| * P / 4 := by
    rw [show ρ * u - u = (ρ - 1) * u by ring, abs_mul, abs_of_nonneg hu0]
    calc |ρ - 1| * u ≤ |x| * L := mul_le_mul hρ hu1 hu0 (abs_nonneg _)
      _ = |δ| * P / 4 := by rw [hxa]; field_simp
  have g6 : |ρ * u - (L * |Real.sinc (δ / 2)|)| ≤ |δ| * P / 4 + P := by
    have := abs_sub_le (ρ * u) u (L * |Real.sinc (δ / 2)|)
    linarith
  have g7 : |‖q.grating Δ z‖ - (2 / Real.pi * L * |Real.sinc (δ / 2)|)| ≤ 2 / 3 * (|δ| * P / 4 + P) := by
    rw [hGu, mul_assoc, ← mul_sub, abs_mul, abs_of_pos (show 0 < 2 / Real.pi by positivity)]
    exact mul_le_mul h2pi g6 (abs_nonneg _) (by norm_num)
  have := abs_sub_le ‖q.grating Δ L‖ ‖q.grating Δ z‖ (2 / Real.pi * L * |Real.sinc (δ / 2)|)
  linarith

/-! ## Difference frequency generation to first order -/

theorem driven_near {a f : ℝ → ℂ} {E : Set ℝ} (hE : E.Countable) {z B : ℝ} (hz : 0 ≤ z) (ha : ContinuousOn a (Icc 0 z)) (hf : ContinuousOn f (Icc 0 z))
    (hd : ∀ t ∈ Ioo 0 z \ E, HasDerivAt a (((q.sign t : ℝ) : ℂ) * f t) t) (hB : ∀ t ∈ Icc 0 z, ‖f t‖ ≤ B) : ‖a z - a 0‖ ≤ B * z := by
  rw [amplitude_integral hE hz ha hf hd]
  refine (intervalIntegral.norm_integral_le_of_norm_le_const (C := B) fun x hx => ?_).trans (le_of_eq (by rw [sub_zero, abs_of_nonneg hz]))
  rw [uIoc_of_le hz] at hx
  rw [norm_mul, norm_sign, one_mul]
  exact hB x ⟨hx.1.le, hx.2⟩

/-- The error of the first order of the difference frequency. -/
noncomputable def Prob.pumped (q : Prob N) (squm : ℝ) (m j l : Fin N) (p0 s0 : ℂ) (z : ℝ) : ℝ :=
  (q.deff * q.kappa squm m j l) ^ 2 * q.i.W l * (q.p.W m + q.s.W j) * z ^ 2 / 4 * √(‖p0‖ ^ 2 + ‖s0‖ ^ 2) ^ 3

/-- C145, first order: the amplitude of the difference frequency of two lines, with a bound of the terms of higher order. -/
theorem C145_first_order (W : Works q squm) {m j l : Fin N} (h : ((j : ℕ) : ℤ) + (l : ℕ) = (m : ℕ) + (N / 2 : ℕ))
    (hW : 0 ≤ q.s.W j ∧ 0 ≤ q.i.W l) {p0 s0 : ℂ} {Y : ℝ → Fin (3 * N) → ℂ} (hY : Solves q Y 0 q.len) (h0 : Y 0 = lines m j l p0 s0 0)
    {z : ℝ} (hz : z ∈ Icc 0 q.len) :
    ‖Ai (Y z) l - Complex.I * ((q.deff * q.kappa squm m j l * q.i.W l : ℝ) : ℂ) * (p0 * (starRingEnd ℂ) s0) * q.grating (-q.mismatch m j l) z‖ ≤
      q.pumped squm m j l p0 s0 z := by
  obtain ⟨p, s, i, hl, ⟨hp0, hs0, hi0⟩, ⟨cp, cs, ci⟩, E, hE, hd⟩ := C143_lines W h hY h0
  have hWp : 0 ≤ q.p.W m := by rw [W.matched m j l h]; exact add_nonneg hW.1 hW.2
  set P := ‖p0‖ ^ 2 + ‖s0‖ ^ 2 with hP
  set g := q.deff * q.kappa squm m j l with hg
  set Δ := q.mismatch m j l with hΔ
  have hP0 : 0 ≤ P := by positivity
  have pow : ∀ t ∈ Icc 0 q.len, ‖p t‖ ^ 2 + ‖s t‖ ^ 2 + ‖i t‖ ^ 2 = P := by
    intro t ht
    have := W.power hY ht
    rw [hl t ht, h0, lines_power, lines_power] at this
    rw [this, hP]
    simp
  have sub : ∀ t ∈ Icc 0 q.len, Icc 0 t ⊆ Icc 0 q.len := fun t ht => Icc_subset_Icc_right ht.2
  have conj : ∀ {a : ℝ → ℂ} {t : Set ℝ}, ContinuousOn a t → ContinuousOn (fun x => (starRingEnd ℂ) (a x)) t := fun ha => Complex.continuous_conj.comp_continuousOn ha
  -- pump and signal stay close to their input
  have np : ∀ t ∈ Icc 0 q.len, ‖p t - p0‖ ≤ |g| * q.p.W m * (P / 2) * t := by
    intro t ht
    rw [← hp0]
    refine driven_near (q := q) (f := fun t => Complex.I * ((g * q.p.W m : ℝ) : ℂ) * (s t * i t) * Complex.exp (Complex.I * ((Δ * t : ℝ) : ℂ))) hE ht.1
      (cp.mono (sub t ht)) ((continuousOn_const.mul ((cs.mono (sub t ht)).mul (ci.mono (sub t ht)))).mul (continuous_phase Δ).continuousOn)
      (fun x hx => (hd x ⟨⟨hx.1.1, hx.1.2.trans_le ht.2⟩, hx.2⟩).1.congr_deriv (by rw [hg]; push_cast; ring)) fun x hx => ?_
    have := pow x (sub t ht hx)
    rw [norm_mul, norm_phase, mul_one, norm_mul, norm_mul, Complex.norm_I, one_mul, Complex.norm_real, Real.norm_eq_abs, norm_mul, abs_mul, abs_of_nonneg hWp]
    exact mul_le_mul_of_nonneg_left (by nlinarith [sq_nonneg (‖s x‖ - ‖i x‖), sq_nonneg ‖p x‖]) (mul_nonneg (abs_nonneg _) hWp)
  have ns : ∀ t ∈ Icc 0 q.len, ‖s t - s0‖ ≤ |g| * q.s.W j * (P / 2) * t := by
    intro t ht
    rw [← hs0]
    refine driven_near (q := q) (f := fun t => Complex.I * ((g * q.s.W j : ℝ) : ℂ) * (p t * (starRingEnd ℂ) (i t)) * Complex.exp (Complex.I * ((-Δ * t : ℝ) : ℂ))) hE ht.1
      (cs.mono (sub t ht)) ((continuousOn_const.mul ((cp.mono (sub t ht)).mul (conj (ci.mono (sub t ht))))).mul (continuous_phase (-Δ)).continuousOn)
      (fun x hx => (hd x ⟨⟨hx.1.1, hx.1.2.trans_le ht.2⟩, hx.2⟩).2.1.congr_deriv (by rw [hg]; push_cast; ring)) fun x hx => ?_
    have := pow x (sub t ht hx)
    rw [norm_mul, norm_phase, mul_one, norm_mul, norm_mul, Complex.norm_I, one_mul, Complex.norm_real, Real.norm_eq_abs, norm_mul, RCLike.norm_conj, abs_mul,
      abs_of_nonneg hW.1]
    exact mul_le_mul_of_nonneg_left (by nlinarith [sq_nonneg (‖p x‖ - ‖i x‖), sq_nonneg ‖s x‖]) (mul_nonneg (abs_nonneg _) hW.1)
  have root : ∀ x : ℝ, x ^ 2 ≤ P → x ≤ √P := fun x h => Real.le_sqrt_of_sq_le h
  have prod : ∀ t ∈ Icc 0 q.len, ‖p t * (starRingEnd ℂ) (s t) - p0 * (starRingEnd ℂ) s0‖ ≤ |g| * (q.p.W m + q.s.W j) * (P / 2) * √P * t := by
    intro t ht
    have e : p t * (starRingEnd ℂ) (s t) - p0 * (starRingEnd ℂ) s0 = (p t - p0) * (starRingEnd ℂ) (s t) + p0 * (starRingEnd ℂ) (s t - s0) := by rw [map_sub]; ring
    have h1 : ‖s t‖ ≤ √P := root _ (by have := pow t ht; nlinarith [sq_nonneg ‖p t‖, sq_nonneg ‖i t‖])
    have h2 : ‖p0‖ ≤ √P := root _ (by rw [hP]; nlinarith [sq_nonneg ‖s0‖])
    rw [e]
    refine (norm_add_le _ _).trans ?_
    rw [norm_mul, norm_mul, RCLike.norm_conj, RCLike.norm_conj]
    have h3 := mul_le_mul (np t ht) h1 (norm_nonneg _) (by have := ht.1; positivity)
    have h4 := mul_le_mul h2 (ns t ht) (norm_nonneg _) (Real.sqrt_nonneg _)
    linarith
  have hci : ContinuousOn (fun t => Complex.I * ((g * q.i.W l : ℝ) : ℂ) * (p t * (starRingEnd ℂ) (s t)) * Complex.exp (Complex.I * ((-Δ * t : ℝ) : ℂ))) (Icc 0 z) :=
    (continuousOn_const.mul ((cp.mono (sub z hz)).mul (conj (cs.mono (sub z hz))))).mul (continuous_phase (-Δ)).continuousOn
  have hiz := amplitude_integral (q := q) hE hz.1 (ci.mono (sub z hz)) hci fun x hx => ((hd x ⟨⟨hx.1.1, hx.1.2.trans_le hz.2⟩, hx.2⟩).2.2).congr_deriv (by
      rw [hg]; push_cast; ring)
  have hA : Ai (Y z) l = i z := by rw [hl z hz, lines, Ai_join, Pi.single_eq_same]
  have hG : Complex.I * ((g * q.i.W l : ℝ) : ℂ) * (p0 * (starRingEnd ℂ) s0) * q.grating (-Δ) z =
      ∫ t in (0)..z, ((q.sign t : ℝ) : ℂ) * (Complex.I * ((g * q.i.W l : ℝ) : ℂ) * (p0 * (starRingEnd ℂ) s0) * Complex.exp (Complex.I * ((-Δ * t : ℝ) : ℂ))) := by
    rw [Prob.grating, ← intervalIntegral.integral_const_mul]
    refine intervalIntegral.integral_congr fun t _ => ?_
    ring
  rw [hi0, sub_zero] at hiz
  have hc0 : ContinuousOn (fun t => Complex.I * ((g * q.i.W l : ℝ) : ℂ) * (p0 * (starRingEnd ℂ) s0) * Complex.exp (Complex.I * ((-Δ * t : ℝ) : ℂ))) (Icc 0 z) :=
    (continuous_const.mul (continuous_phase (-Δ))).continuousOn
  rw [hA, hiz, hG, ← intervalIntegral.integral_sub (sign_mul_integrable q hz.1 hci) (sign_mul_integrable q hz.1 hc0)]
  have hb : ∀ t ∈ Ioc 0 z, ‖((q.sign t : ℝ) : ℂ) * (Complex.I * ((g * q.i.W l : ℝ) : ℂ) * (p t * (starRingEnd ℂ) (s t)) * Complex.exp (Complex.I * ((-Δ * t : ℝ) : ℂ))) -
      ((q.sign t : ℝ) : ℂ) * (Complex.I * ((g * q.i.W l : ℝ) : ℂ) * (p0 * (starRingEnd ℂ) s0) * Complex.exp (Complex.I * ((-Δ * t : ℝ) : ℂ)))‖ ≤
      |g| ^ 2 * q.i.W l * (q.p.W m + q.s.W j) * (P / 2) * √P * t := by
    intro t ht
    have e : ∀ σ c x y E : ℂ, σ * (c * x * E) - σ * (c * y * E) = σ * c * (x - y) * E := fun _ _ _ _ _ => by ring
    rw [e, norm_mul, norm_phase, mul_one, norm_mul, norm_mul, norm_sign, one_mul, norm_mul, Complex.norm_I, one_mul, Complex.norm_real, Real.norm_eq_abs,
      abs_mul, abs_of_nonneg hW.2]
    have := mul_le_mul_of_nonneg_left (prod t ⟨ht.1.le, ht.2.trans hz.2⟩) (show 0 ≤ |g| * q.i.W l from mul_nonneg (abs_nonneg _) hW.2)
    linarith
  refine (intervalIntegral.norm_integral_le_of_norm_le hz.1 (Filter.Eventually.of_forall hb) (Continuous.intervalIntegrable (by fun_prop) _ _)).trans (le_of_eq ?_)
  rw [intervalIntegral.integral_const_mul, integral_id, Prob.pumped, ← hg, ← hP, sq_abs]
  have : √P ^ 3 = P * √P := by rw [pow_succ, Real.sq_sqrt hP0]
  rw [this]
  ring

/-- C145: the amplitude of the difference frequency behind a crystal poled with a period whose grating misses the mismatch by `δ / L`. -/
theorem C145_idler (W : Works q squm) (hq : q.mode = "PP") {m j l : Fin N} (h : ((j : ℕ) : ℤ) + (l : ℕ) = (m : ℕ) + (N / 2 : ℕ))
    (hW : 0 ≤ q.s.W j ∧ 0 ≤ q.i.W l) {P : ℝ} (hP : 0 < P) (hd : precomputePoling (fun _ => P) q.len = some q.domains) {δ : ℝ}
    (hδ : |δ| * P ≤ 2 * q.len) (hΔ : |q.mismatch m j l| = 2 * Real.pi / P + δ / q.len) {p0 s0 : ℂ} {Y : ℝ → Fin (3 * N) → ℂ} (hY : Solves q Y 0 q.len)
    (h0 : Y 0 = lines m j l p0 s0 0) :
    |‖Ai (Y q.len) l‖ - |q.deff * q.kappa squm m j l| * q.i.W l * (‖p0‖ * ‖s0‖) * (2 / Real.pi * q.len * |Real.sinc (δ / 2)|)| ≤
      |q.deff * q.kappa squm m j l| * q.i.W l * (‖p0‖ * ‖s0‖) * ((2 + |δ| / 6) * P) + q.pumped squm m j l p0 s0 q.len := by
  have h1 := (abs_norm_sub_norm_le _ _).trans (C145_first_order W h hW hY h0 ⟨W.len.le, le_refl _⟩)
  rw [norm_mul, norm_mul, norm_mul, norm_mul, RCLike.norm_conj, Complex.norm_I, one_mul, Complex.norm_real, Real.norm_eq_abs, abs_mul _ (q.i.W l),
    abs_of_nonneg hW.2] at h1
  have h2 := C145_near hq hP W.len hd (Δ := -q.mismatch m j l) hδ (by rw [abs_neg]; exact hΔ)
  set A := |q.deff * q.kappa squm m j l| * q.i.W l * (‖p0‖ * ‖s0‖) with hA
  have hA0 : 0 ≤ A := mul_nonneg (mul_nonneg (abs_nonneg _) hW.2) (by positivity)
  have h3 : |A * ‖q.grating (-q.mismatch m j l) q.len‖ - A * (2 / Real.pi * q.len * |Real.sinc (δ / 2)|)| ≤ A * ((2 + |δ| / 6) * P) := by
    rw [← mul_sub, abs_mul, abs_of_nonneg hA0]
    exact mul_le_mul_of_nonneg_left h2 hA0
  have := abs_sub_le ‖Ai (Y q.len) l‖ (A * ‖q.grating (-q.mismatch m j l) q.len‖) (A * (2 / Real.pi * q.len * |Real.sinc (δ / 2)|))
  linarith

end PyNLO.Dfg
