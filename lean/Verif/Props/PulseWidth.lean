import Verif.Props.DerivedPulses
import Mathlib.Analysis.Convex.SpecificFunctions.Deriv
import Mathlib.Analysis.Complex.ExponentialBounds
import Mathlib.Analysis.Real.Pi.Bounds

/-!
# C172: widths of the analytic pulses
-/

namespace PyNLO

open Pulse

/-- `sech²` is at least one half up to `log (1 + √2)`. -/
theorem half_sech (u : ℝ) : 1 / 2 ≤ (1 / Real.cosh u) ^ 2 ↔ |u| ≤ Real.log (1 + Real.sqrt 2) := by
  have h2 : Real.sqrt 2 ^ 2 = 2 := Real.sq_sqrt (by norm_num)
  have hs : 0 < Real.sqrt 2 := Real.sqrt_pos.2 (by norm_num)
  have h1 : 1 < Real.sqrt 2 := by nlinarith
  have hl : 0 ≤ Real.log (1 + Real.sqrt 2) := Real.log_nonneg (by linarith)
  have hc : Real.cosh (Real.log (1 + Real.sqrt 2)) = Real.sqrt 2 := by
    rw [Real.cosh_eq, Real.exp_neg, Real.exp_log (by linarith)]
    have : (1 + Real.sqrt 2)⁻¹ = Real.sqrt 2 - 1 := by
      refine inv_eq_of_mul_eq_one_right ?_
      nlinarith
    rw [this]; ring
  have hp := Real.cosh_pos u
  rw [← abs_of_nonneg hl, ← Real.cosh_le_cosh, hc, div_pow, one_pow, div_le_div_iff_of_pos_left (by norm_num) (by norm_num) (by positivity)]
  constructor
  · intro h
    exact (sq_le_sq₀ hp.le hs.le).1 (h.trans_eq h2.symm)
  · intro h
    exact ((sq_le_sq₀ hp.le hs.le).2 h).trans_eq h2

/-- the number of the documentation of `SechPulse`, 1.76 -/
theorem log_bounds : 1.762 < 2 * Real.log (1 + Real.sqrt 2) ∧ 2 * Real.log (1 + Real.sqrt 2) < 1.764 := by
  have h2 : Real.sqrt 2 ^ 2 = 2 := Real.sq_sqrt (by norm_num)
  have hs : 0 < Real.sqrt 2 := Real.sqrt_pos.2 (by norm_num)
  have hlo : 1.4142 < Real.sqrt 2 := by nlinarith
  have hhi : Real.sqrt 2 < 1.4143 := by nlinarith
  have e1 : Real.exp 0.881 < 2.4142 := by
    refine (Real.exp_bound' (x := 0.881) (by norm_num) (by norm_num) (n := 8) (by norm_num)).trans_lt ?_
    norm_num [Finset.sum_range_succ, Nat.factorial]
  have e2 : 2.4143 < Real.exp 0.882 := by
    refine lt_of_lt_of_le ?_ (Real.sum_le_exp_of_nonneg (x := 0.882) (by norm_num) 8)
    norm_num [Finset.sum_range_succ, Nat.factorial]
  constructor
  · have := (Real.lt_log_iff_exp_lt (by linarith : 0 < 1 + Real.sqrt 2)).2 (e1.trans (by linarith))
    linarith
  · have := (Real.log_lt_iff_lt_exp (by linarith : 0 < 1 + Real.sqrt 2)).2 (lt_trans (by linarith) e2)
    linarith

/-- evaluation of a shaped pulse, with a peak power or with an average power, up to the scale -/
theorem shaped_scale (g : ℝ → ℝ) {a b wl tw frep power : ℝ} (ha : 0 < a) (hb : 0 < b) (hwl : 1 < wl) (htw : 1 < tw) {N : ℕ} (hN : 2 ≤ N) (hf : 0 < frep)
    (hp : 0 < power) (c2 c3 T0 : ℝ) (hg : ∀ t, g t ≠ 0) (avg : Bool) :
    ∃ (q : Pulse) (x : Fin N → ℂ) (t : Fin N → ℝ) (pk : ℝ),
      (if avg = false then shapedPulse (fun t => a * g t) none wl tw frep N 0 0 c2 c3 T0
        else shapedPulse (fun t => b * g t) (some power) wl tw frep N 0 0 c2 c3 T0) = .ok q ∧
      q.AT = .ok ⟨N, x⟩ ∧ q.T_ps = .ok ⟨N, t⟩ ∧ 0 < pk ∧ (avg = false → pk = a ^ 2) ∧ ∀ i, ‖x i‖ ^ 2 = pk * g (t i) ^ 2 := by
  cases avg
  · obtain ⟨q, x, t, h1, h2, h3, h4, -⟩ := shaped_eval (frep := frep) (fun t => a * g t) hwl htw (by omega : 0 < N) c2 c3 T0
    refine ⟨q, x, t, a ^ 2, by rw [if_pos rfl]; exact h1, h2, h3, by positivity, fun _ => rfl, fun i => ?_⟩
    rw [h4, sq_abs, mul_pow]
  · obtain ⟨q, x, t, e, s, h1, h2, h3, -, -, -, hs, hx, -⟩ := shaped_avg_eval (fun t => b * g t) hwl htw hN hf hp.le c2 c3 T0
      (fun i => mul_ne_zero hb.ne' (hg _))
    have hs := hs hp
    refine ⟨q, x, t, s ^ 2 * b ^ 2, by rw [if_neg (by simp)]; exact h1, h2, h3, by positivity, by simp, fun i => ?_⟩
    rw [hx, mul_pow, sq_abs, mul_pow, mul_assoc]

/-- C172, `SechPulse` with a peak or an average power: the power is at least half of its value at `T = 0` exactly for `|T| ≤ log(1+√2)·T0`, so the full width at
half maximum is `2·log(1+√2)·T0`, between 1.762 and 1.764 times `T0`. -/
theorem C172_sech {power T0 wl tw frep c2 c3 : ℝ} (hwl : 1 < wl) (htw : 1 < tw) (hp : 0 < power) (hf : 0 < frep) (hT : 0 < T0) {N : ℕ} (hN : 2 ≤ N)
    (avg : Bool) : ∃ (q : Pulse) (x : Fin N → ℂ) (t : Fin N → ℝ) (pk w : ℝ), sechPulse power T0 wl tw frep N 0 0 c2 c3 avg = .ok q ∧
      q.AT = .ok ⟨N, x⟩ ∧ q.T_ps = .ok ⟨N, t⟩ ∧ 0 < pk ∧ (avg = false → pk = power) ∧
      (∀ i, ‖x i‖ ^ 2 ≤ pk) ∧ (∀ i, t i = 0 → ‖x i‖ ^ 2 = pk) ∧ (∀ i, pk / 2 ≤ ‖x i‖ ^ 2 ↔ |t i| ≤ w / 2) ∧
      1.762 * T0 < w ∧ w < 1.764 * T0 := by
  obtain ⟨q, x, t, pk, h1, h2, h3, h4, h5, h6⟩ := shaped_scale (fun t => 1 / Real.cosh (t / T0)) (a := Real.sqrt power) (b := 1) (frep := frep)
    (Real.sqrt_pos.2 hp) one_pos hwl htw hN hf hp c2 c3 T0 (fun t => by have := Real.cosh_pos (t / T0); positivity) avg
  refine ⟨q, x, t, pk, 2 * Real.log (1 + Real.sqrt 2) * T0, ?_, h2, h3, h4, fun h => by rw [h5 h, Real.sq_sqrt hp.le], fun i => ?_, fun i hi => ?_,
    fun i => ?_, by nlinarith [log_bounds.1], by nlinarith [log_bounds.2]⟩
  · rw [← h1]
    unfold sechPulse
    simp only [mul_one_div]
  · rw [h6]
    have hc := Real.one_le_cosh (t i / T0)
    have h7 : (1 / Real.cosh (t i / T0)) ^ 2 ≤ 1 := by
      rw [div_pow, one_pow, div_le_one (by positivity)]
      exact one_le_pow₀ hc
    nlinarith
  · rw [h6, hi]; simp
  · rw [h6, div_eq_mul_one_div, mul_le_mul_iff_right₀ h4, half_sech, abs_div, abs_of_pos hT, div_le_iff₀ hT]
    rw [show 2 * Real.log (1 + Real.sqrt 2) * T0 / 2 = Real.log (1 + Real.sqrt 2) * T0 by ring]

/-- C172, `GaussianPulse` with a peak or an average power: `T0_ps` is the full width at half maximum to one part in a thousand. -/
theorem C172_gaussian {power T0 wl tw frep c2 c3 : ℝ} (hwl : 1 < wl) (htw : 1 < tw) (hp : 0 < power) (hf : 0 < frep) (hT : 0 < T0) {N : ℕ} (hN : 2 ≤ N)
    (avg : Bool) : ∃ (q : Pulse) (x : Fin N → ℂ) (t : Fin N → ℝ) (pk w : ℝ), gaussianPulse power T0 wl tw frep N 0 0 c2 c3 avg = .ok q ∧
      q.AT = .ok ⟨N, x⟩ ∧ q.T_ps = .ok ⟨N, t⟩ ∧ 0 < pk ∧ (avg = false → pk = power) ∧
      (∀ i, ‖x i‖ ^ 2 ≤ pk) ∧ (∀ i, t i = 0 → ‖x i‖ ^ 2 = pk) ∧ (∀ i, pk / 2 ≤ ‖x i‖ ^ 2 ↔ |t i| ≤ w / 2) ∧
      1.0004 * T0 < w ∧ w < 1.0005 * T0 := by
  obtain ⟨q, x, t, pk, h1, h2, h3, h4, h5, h6⟩ := shaped_scale (fun t => Real.exp (-2.77 * 0.5 * t ^ 2 / T0 ^ 2)) (a := Real.sqrt power)
    (b := Real.sqrt power) (frep := frep) (Real.sqrt_pos.2 hp) (Real.sqrt_pos.2 hp) hwl htw hN hf hp c2 c3 T0 (fun t => (Real.exp_pos _).ne') avg
  have h6 : ∀ i, ‖x i‖ ^ 2 = pk * Real.exp (-(2.77 * (t i / T0) ^ 2)) := by
    intro i
    rw [h6, ← Real.exp_nat_mul]
    congr 2
    push_cast
    ring
  have hl1 := Real.log_two_gt_d9
  have hl2 := Real.log_two_lt_d9
  set r := Real.sqrt (Real.log 2 / 2.77) with hr
  have hr0 : 0 ≤ r := Real.sqrt_nonneg _
  have hr2 : r ^ 2 = Real.log 2 / 2.77 := Real.sq_sqrt (by positivity)
  have hr3 : 1.00080016 < 4 * r ^ 2 := by rw [hr2]; norm_num at hl1 ⊢; linarith
  have hr4 : 4 * r ^ 2 < 1.00100025 := by rw [hr2]; norm_num at hl2 ⊢; linarith
  refine ⟨q, x, t, pk, 2 * r * T0, ?_, h2, h3, h4, fun h => by rw [h5 h, Real.sq_sqrt hp.le], fun i => ?_, fun i hi => ?_,
    fun i => ?_, by nlinarith, by nlinarith⟩
  · rw [← h1]
    unfold gaussianPulse
    cases avg <;> rfl
  · rw [h6]
    have h7 : Real.exp (-(2.77 * (t i / T0) ^ 2)) ≤ 1 := Real.exp_le_one_iff.2 (by have := sq_nonneg (t i / T0); linarith)
    nlinarith
  · rw [h6, hi]; simp
  · rw [h6, div_eq_mul_one_div, mul_le_mul_iff_right₀ h4]
    have e : (1 : ℝ) / 2 = Real.exp (-Real.log 2) := by rw [Real.exp_neg, Real.exp_log (by norm_num)]; norm_num
    rw [e, Real.exp_le_exp, neg_le_neg_iff, show 2 * r * T0 / 2 = r * T0 by ring, ← div_le_iff₀ hT, ← abs_of_pos hT, ← abs_div, abs_of_pos hT,
      ← abs_of_nonneg hr0, ← sq_le_sq, hr2, le_div_iff₀ (by norm_num)]
    rw [mul_comm]

/-- `sin u / u` falls on `(0, π)` -/
theorem sinc_anti {u v : ℝ} (hu : 0 < u) (huv : u < v) (hv : v ≤ Real.pi) : Real.sin v / v < Real.sin u / u := by
  have hv0 : 0 < v := hu.trans huv
  have h := strictConcaveOn_sin_Icc.2 (⟨le_rfl, Real.pi_pos.le⟩ : (0 : ℝ) ∈ Set.Icc 0 Real.pi) (⟨hv0.le, hv⟩ : v ∈ Set.Icc 0 Real.pi) hv0.ne
    (show 0 < 1 - u / v by rw [sub_pos, div_lt_one hv0]; exact huv) (show 0 < u / v by positivity) (by ring)
  simp only [smul_eq_mul, Real.sin_zero, mul_zero, zero_add] at h
  rw [div_mul_cancel₀ _ hv0.ne'] at h
  rw [lt_div_iff₀ hu]
  calc Real.sin v / v * u = u / v * Real.sin v := by ring
    _ < Real.sin u := h

/-- after the first zero `sin u / u` stays small -/
theorem sinc_tail {u : ℝ} (hu : Real.pi < u) : |Real.sin u / u| < 1 / 3 := by
  have hp := Real.pi_gt_three
  rw [abs_div, abs_of_pos (by linarith : (0 : ℝ) < u), div_lt_iff₀ (by linarith)]
  have := Real.abs_sin_le_one u
  linarith

/-- the sine near a quarter period -/
theorem sin_near (u : ℝ) (h : |u - Real.pi / 2| ≤ 1) : |Real.sin u - (1 - (u - Real.pi / 2) ^ 2 / 2)| ≤ |u - Real.pi / 2| ^ 4 * (5 / 96) := by
  have := Real.cos_bound h
  rwa [Real.cos_sub_pi_div_two] at this

/-- values of `sin u / u` on both sides of one half and of `√(1/2)` -/
theorem sinc_values : (0.71 < Real.sin 1.383 / 1.383 ∧ Real.sin 1.399 / 1.399 < 0.705) ∧ (0.5005 < Real.sin 1.892 / 1.892 ∧ Real.sin 1.8992 / 1.8992 < 0.4995) := by
  have p1 := Real.pi_gt_d6
  have p2 := Real.pi_lt_d6
  refine ⟨⟨?_, ?_⟩, ?_, ?_⟩
  · have hd : |(1.383 : ℝ) - Real.pi / 2| ≤ 0.18780 := abs_le.2 ⟨by norm_num at p1 p2 ⊢; linarith, by norm_num at p1 p2 ⊢; linarith⟩
    have h := (abs_le.1 (sin_near 1.383 (hd.trans (by norm_num)))).1
    have h2 : ((1.383 : ℝ) - Real.pi / 2) ^ 2 ≤ 0.18780 ^ 2 := by rw [← sq_abs]; gcongr
    have h4 : |(1.383 : ℝ) - Real.pi / 2| ^ 4 ≤ 0.18780 ^ 4 := by gcongr
    rw [lt_div_iff₀ (by norm_num)]
    norm_num at h h2 h4 ⊢
    linarith
  · have hd : |(1.399 : ℝ) - Real.pi / 2| ≤ 0.17180 := abs_le.2 ⟨by norm_num at p1 p2 ⊢; linarith, by norm_num at p1 p2 ⊢; linarith⟩
    have h := (abs_le.1 (sin_near 1.399 (hd.trans (by norm_num)))).2
    have h2 : (0.17179 : ℝ) ^ 2 ≤ ((1.399 : ℝ) - Real.pi / 2) ^ 2 := by
      rw [← sq_abs ((1.399 : ℝ) - Real.pi / 2), abs_of_neg (by norm_num at p1 p2 ⊢; linarith)]
      gcongr
      norm_num at p1 p2 ⊢; linarith
    have h4 : |(1.399 : ℝ) - Real.pi / 2| ^ 4 ≤ 0.17180 ^ 4 := by gcongr
    rw [div_lt_iff₀ (by norm_num)]
    norm_num at h h2 h4 ⊢
    linarith
  · have hd : |(1.892 : ℝ) - Real.pi / 2| ≤ 0.32121 := abs_le.2 ⟨by norm_num at p1 p2 ⊢; linarith, by norm_num at p1 p2 ⊢; linarith⟩
    have h := (abs_le.1 (sin_near 1.892 (hd.trans (by norm_num)))).1
    have h2 : ((1.892 : ℝ) - Real.pi / 2) ^ 2 ≤ 0.32121 ^ 2 := by rw [← sq_abs]; gcongr
    have h4 : |(1.892 : ℝ) - Real.pi / 2| ^ 4 ≤ 0.32121 ^ 4 := by gcongr
    rw [lt_div_iff₀ (by norm_num)]
    norm_num at h h2 h4 ⊢
    linarith
  · have hd : |(1.8992 : ℝ) - Real.pi / 2| ≤ 0.32841 := abs_le.2 ⟨by norm_num at p1 p2 ⊢; linarith, by norm_num at p1 p2 ⊢; linarith⟩
    have h := (abs_le.1 (sin_near 1.8992 (hd.trans (by norm_num)))).2
    have h2 : (0.32840 : ℝ) ^ 2 ≤ ((1.8992 : ℝ) - Real.pi / 2) ^ 2 := by
      rw [← sq_abs ((1.8992 : ℝ) - Real.pi / 2), abs_of_pos (by norm_num at p1 p2 ⊢; linarith)]
      gcongr
      norm_num at p1 p2 ⊢; linarith
    have h4 : |(1.8992 : ℝ) - Real.pi / 2| ^ 4 ≤ 0.32841 ^ 4 := by gcongr
    rw [div_lt_iff₀ (by norm_num)]
    norm_num at h h2 h4 ⊢
    linarith

/-- inside `v` the function is above its value there, outside below -/
theorem sinc_inside {u v : ℝ} (hu : u ≠ 0) (huv : |u| ≤ v) (hv : v ≤ 2) {c : ℝ} (hc0 : 0 < c) (hc : c < Real.sin v / v) : c ^ 2 < (Real.sin u / u) ^ 2 := by
  have e : (Real.sin u / u) ^ 2 = (Real.sin |u| / |u|) ^ 2 := by
    rcases abs_choice u with h | h <;> rw [h]
    rw [Real.sin_neg, neg_div_neg_eq]
  rw [e]
  have hp := Real.pi_gt_three
  have : c < Real.sin |u| / |u| := by
    rcases huv.lt_or_eq with h | h
    · exact hc.trans (sinc_anti (abs_pos.2 hu) h (by linarith))
    · rwa [h]
  gcongr

theorem sinc_outside {u v : ℝ} (hv0 : 0 < v) (huv : v ≤ |u|) {c : ℝ} (hc0 : 1 / 3 ≤ c) (hc : Real.sin v / v < c) : (Real.sin u / u) ^ 2 < c ^ 2 := by
  have hu : 0 < |u| := hv0.trans_le huv
  have e : (Real.sin u / u) ^ 2 = (Real.sin |u| / |u|) ^ 2 := by
    rcases abs_choice u with h | h <;> rw [h]
    rw [Real.sin_neg, neg_div_neg_eq]
  rw [e, ← sq_abs]
  have : abs (Real.sin |u| / |u|) < c := by
    rcases le_or_gt |u| Real.pi with h | h
    · rw [abs_of_nonneg (div_nonneg (Real.sin_nonneg_of_nonneg_of_le_pi hu.le h) hu.le)]
      rcases huv.lt_or_eq with h1 | h1
      · exact (sinc_anti hv0 h1 h).trans hc
      · rwa [← h1]
    · exact (sinc_tail h).trans_le hc0
  gcongr

/-- C172, `SincPulse` with a peak power, what holds: `FWHM_ps` is the full width between the points where the *field* is half of its maximum (to two parts in a
thousand); the power is then a quarter of the peak. The full width at half maximum of the power is 0.73 to 0.74 times `FWHM_ps`. -/
theorem C172_sinc_partial {power fwhm wl tw frep c2 c3 : ℝ} (hwl : 1 < wl) (htw : 1 < tw) (hp : 0 < power) (hw : 0 < fwhm) {N : ℕ} (hN : 0 < N) :
    ∃ (q : Pulse) (x : Fin N → ℂ) (t : Fin N → ℝ), sincPulse power fwhm wl tw frep N 0 0 c2 c3 false = .ok q ∧
      q.AT = .ok ⟨N, x⟩ ∧ q.T_ps = .ok ⟨N, t⟩ ∧ (∀ i, t i = 0 → ‖x i‖ ^ 2 = power) ∧
      (∀ i, |t i| ≤ 0.3648 * fwhm → power / 2 < ‖x i‖ ^ 2) ∧ (∀ i, 0.3691 * fwhm ≤ |t i| → ‖x i‖ ^ 2 < power / 2) ∧
      (∀ i, |t i| ≤ 0.499 * fwhm → power / 4 < ‖x i‖ ^ 2) ∧ (∀ i, 0.501 * fwhm ≤ |t i| → ‖x i‖ ^ 2 < power / 4) ∧
      ∀ i, t i = ((i : ℕ) - (N : ℝ) / 2) * (tw / N) := by
  obtain ⟨q, x, t, h1, h2, h3, h4, h5, -, hti⟩ := C24_sinc_peak (frep := frep) (c2 := c2) (c3 := c3) hwl htw hp.le hw hN
  have hu : ∀ i, |t i / (fwhm / 3.7909885)| = |t i| / fwhm * 3.7909885 := by
    intro i
    rw [abs_div, abs_of_pos (by positivity : (0 : ℝ) < fwhm / 3.7909885)]
    field_simp
  have hle : ∀ {i} {r : ℝ}, |t i| ≤ r * fwhm → |t i / (fwhm / 3.7909885)| ≤ r * 3.7909885 := by
    intro i r h
    rw [hu]
    gcongr
    rwa [div_le_iff₀ hw]
  have hge : ∀ {i} {r : ℝ}, r * fwhm ≤ |t i| → r * 3.7909885 ≤ |t i / (fwhm / 3.7909885)| := by
    intro i r h
    rw [hu]
    gcongr
    rwa [le_div_iff₀ hw]
  have hne : ∀ {i}, t i ≠ 0 → t i / (fwhm / 3.7909885) ≠ 0 := fun h => by positivity
  obtain ⟨⟨v1, v2⟩, v3, v4⟩ := sinc_values
  refine ⟨q, x, t, h1, h2, h3, h5, fun i hi => ?_, fun i hi => ?_, fun i hi => ?_, fun i hi => ?_, hti⟩
  · rcases eq_or_ne (t i) 0 with h0 | h0
    · rw [h5 i h0]; linarith
    · rw [h4 i h0]
      have := sinc_inside (hne h0) ((hle hi).trans (by norm_num)) (by norm_num) (by norm_num) v1
      norm_num at this ⊢
      nlinarith
  · have h0 : t i ≠ 0 := by
      rintro h
      rw [h, abs_zero] at hi
      linarith
    rw [h4 i h0]
    have := sinc_outside (by norm_num) (le_trans (by norm_num) (hge hi)) (by norm_num) v2
    norm_num at this ⊢
    nlinarith
  · rcases eq_or_ne (t i) 0 with h0 | h0
    · rw [h5 i h0]; linarith
    · rw [h4 i h0]
      have := sinc_inside (hne h0) ((hle hi).trans (by norm_num)) (by norm_num) (by norm_num) v3
      norm_num at this ⊢
      nlinarith
  · have h0 : t i ≠ 0 := by
      rintro h
      rw [h, abs_zero] at hi
      linarith
    rw [h4 i h0]
    have := sinc_outside (by norm_num) (le_trans (by norm_num) (hge hi)) (by norm_num) v4
    norm_num at this ⊢
    nlinarith

/-- C172 refuted for `SincPulse`: a pulse that is asked to have a full width at half maximum of 5 ps has less than half of its peak power 2 ps from the centre. -/
theorem C172_sinc_refuted : ∃ (q : Pulse) (x : Fin 10 → ℂ) (t : Fin 10 → ℝ) (i j : Fin 10), sincPulse 1 5 1550 10 100 10 0 0 0 0 false = .ok q ∧
    q.AT = .ok ⟨10, x⟩ ∧ q.T_ps = .ok ⟨10, t⟩ ∧ t i = 0 ∧ ‖x i‖ ^ 2 = 1 ∧ |t j| < 5 / 2 ∧ ‖x j‖ ^ 2 < 1 / 2 := by
  obtain ⟨q, x, t, h1, h2, h3, h4, -, h6, -, -, ht⟩ := C172_sinc_partial (power := 1) (fwhm := 5) (wl := 1550) (tw := 10) (frep := 100) (c2 := 0) (c3 := 0)
    (by norm_num) (by norm_num) one_pos (by norm_num) (N := 10) (by norm_num)
  have h5 : t 5 = 0 := by rw [ht]; norm_num
  have h7 : t 7 = 2 := by rw [ht]; norm_num
  exact ⟨q, x, t, 5, 7, h1, h2, h3, h5, h4 5 h5, by rw [h7]; norm_num, h6 7 (by rw [h7]; norm_num)⟩

/-- C172 is not vacuous: the parameters of the test of the repository (`pulse_test.py`). -/
theorem C172_nonvacuous : (1 : ℝ) < 1064 ∧ (1 : ℝ) < 12.345 ∧ (0 : ℝ) < 2.727 ∧ (0 : ℝ) < 100 ∧ (0 : ℝ) < 0.01 ∧ 2 ≤ 2 ^ 8 := by norm_num

end PyNLO
