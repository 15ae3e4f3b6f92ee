import Verif.Props.DfgLines
import Verif.Props.DfgPoling
import Mathlib.Analysis.SpecialFunctions.Integrals.Basic
import Mathlib.Analysis.SpecialFunctions.Trigonometric.Sinc

/-!
# C144: quasi-phase matching

The sum frequency that two continuous waves generate in a crystal, to first order in the nonlinear coefficient with a bound of the rest:
the integral of the sign of the domains times the phase of the mismatch.  A crystal poled with the period of the mismatch generates
`2 / π` of what a phase-matched crystal does; without poling the contributions of whole periods cancel.
-/

open scoped BigOperators
open Set

namespace PyNLO.Dfg

open Beam

variable {N : ℕ} {q : Prob N} {squm : ℝ}

/-- The sum of the contributions of the crystal up to `z` for the mismatch `Δ`. -/
noncomputable def Prob.grating (q : Prob N) (Δ z : ℝ) : ℂ := ∫ t in (0)..z, ((q.sign t : ℝ) : ℂ) * Complex.exp (Complex.I * ((Δ * t : ℝ) : ℂ))

theorem norm_phase (x : ℝ) : ‖Complex.exp (Complex.I * (x : ℂ))‖ = 1 := by rw [mul_comm, Complex.norm_exp_ofReal_mul_I]

theorem continuous_phase (Δ : ℝ) : Continuous fun t : ℝ => Complex.exp (Complex.I * ((Δ * t : ℝ) : ℂ)) := by fun_prop

theorem sign_mul_integrable (q : Prob N) {f : ℝ → ℂ} {z : ℝ} (hz : 0 ≤ z) (hf : ContinuousOn f (Icc 0 z)) :
    IntervalIntegrable (fun t => ((q.sign t : ℝ) : ℂ) * f t) MeasureTheory.volume 0 z := by
  have h1 : IntervalIntegrable (fun t => ((q.sign t : ℝ) : ℂ)) MeasureTheory.volume 0 z :=
    ⟨(sign_integrable q 0 z).1.ofReal, (sign_integrable q 0 z).2.ofReal⟩
  exact h1.mul_continuousOn (by rw [uIcc_of_le hz]; exact hf)

theorem lines_power (m j l : Fin N) (p s i : ℂ) : ∑ k, ‖lines m j l p s i k‖ ^ 2 = ‖p‖ ^ 2 + ‖s‖ ^ 2 + ‖i‖ ^ 2 := by
  have e : ∀ (m : Fin N) (x : ℂ), ∑ k, ‖(Pi.single m x : Fin N → ℂ) k‖ ^ 2 = ‖x‖ ^ 2 := by
    intro m x
    rw [Finset.sum_eq_single m]
    · simp
    · intro k _ hk; simp [Pi.single_eq_of_ne hk]
    · intro h; exact absurd (Finset.mem_univ _) h
  rw [sum_parts]
  change ∑ k, ‖Ap (lines m j l p s i) k‖ ^ 2 + ∑ k, ‖As (lines m j l p s i) k‖ ^ 2 + ∑ k, ‖Ai (lines m j l p s i) k‖ ^ 2 = _
  rw [lines, Ap_join, As_join, Ai_join, e, e, e]

/-- Integral form of one amplitude. -/
theorem amplitude_integral {a f : ℝ → ℂ} {E : Set ℝ} (hE : E.Countable) {z : ℝ} (hz : 0 ≤ z) (ha : ContinuousOn a (Icc 0 z)) (hf : ContinuousOn f (Icc 0 z))
    (hd : ∀ t ∈ Ioo 0 z \ E, HasDerivAt a (((q.sign t : ℝ) : ℂ) * f t) t) : a z - a 0 = ∫ t in (0)..z, ((q.sign t : ℝ) : ℂ) * f t :=
  (MeasureTheory.integral_eq_of_hasDerivAt_off_countable_of_le a _ hz hE ha hd (sign_mul_integrable q hz hf)).symm

theorem norm_sign (q : Prob N) (t : ℝ) : ‖((q.sign t : ℝ) : ℂ)‖ = 1 := by rw [Complex.norm_real, Real.norm_eq_abs, sign_abs]

/-- C144, first order: the amplitude of the sum frequency of two lines, with a bound of the terms of higher order. -/
theorem C144_first_order (W : Works q squm) {m j l : Fin N} (h : ((j : ℕ) : ℤ) + (l : ℕ) = (m : ℕ) + (N / 2 : ℕ))
    (hW : 0 ≤ q.s.W j ∧ 0 ≤ q.i.W l) {s0 i0 : ℂ} {Y : ℝ → Fin (3 * N) → ℂ} (hY : Solves q Y 0 q.len) (h0 : Y 0 = lines m j l 0 s0 i0)
    {z : ℝ} (hz : z ∈ Icc 0 q.len) :
    ‖Ap (Y z) m - Complex.I * ((q.deff * q.kappa squm m j l * q.p.W m : ℝ) : ℂ) * (s0 * i0) * q.grating (q.mismatch m j l) z‖ ≤
      (|q.deff * q.kappa squm m j l| * q.p.W m * z) ^ 2 / 4 * √(‖s0‖ ^ 2 + ‖i0‖ ^ 2) ^ 3 := by
  obtain ⟨p, s, i, hl, ⟨hp0, hs0, hi0⟩, ⟨cp, cs, ci⟩, E, hE, hd⟩ := C143_lines W h hY h0
  have hWp : 0 ≤ q.p.W m := by rw [W.matched m j l h]; exact add_nonneg hW.1 hW.2
  set P := ‖s0‖ ^ 2 + ‖i0‖ ^ 2 with hP
  set g := q.deff * q.kappa squm m j l with hg
  set Δ := q.mismatch m j l with hΔ
  have hP0 : 0 ≤ P := by positivity
  have pow : ∀ t ∈ Icc 0 q.len, ‖p t‖ ^ 2 + ‖s t‖ ^ 2 + ‖i t‖ ^ 2 = P := by
    intro t ht
    have := W.power hY ht
    rw [hl t ht, h0, lines_power, lines_power] at this
    rw [this, hP]
    simp
  have half : ∀ t ∈ Icc 0 q.len, ‖p t‖ * ‖i t‖ ≤ P / 2 ∧ ‖p t‖ * ‖s t‖ ≤ P / 2 := by
    intro t ht
    have := pow t ht
    constructor
    · nlinarith [sq_nonneg (‖p t‖ - ‖i t‖), sq_nonneg ‖s t‖]
    · nlinarith [sq_nonneg (‖p t‖ - ‖s t‖), sq_nonneg ‖i t‖]
  have sub : ∀ t ∈ Icc 0 q.len, Icc 0 t ⊆ Icc 0 q.len := fun t ht => Icc_subset_Icc_right ht.2
  -- a driven wave stays close to its input
  have near : ∀ (a b : ℝ → ℂ) (w : ℝ), 0 ≤ w → ContinuousOn a (Icc 0 q.len) → ContinuousOn b (Icc 0 q.len) →
      (∀ t ∈ Icc 0 q.len, ‖p t‖ * ‖b t‖ ≤ P / 2) →
      (∀ t ∈ Ioo 0 q.len \ E, HasDerivAt a (Complex.I * ((q.sign t * q.deff * q.kappa squm m j l * w : ℝ) : ℂ) * (p t * (starRingEnd ℂ) (b t)) *
        Complex.exp (Complex.I * ((-Δ * t : ℝ) : ℂ))) t) → ∀ t ∈ Icc 0 q.len, ‖a t - a 0‖ ≤ |g| * w * (P / 2) * t := by
    intro a b w hw ca cb hb hda t ht
    have hc : ContinuousOn (fun t => Complex.I * ((g * w : ℝ) : ℂ) * (p t * (starRingEnd ℂ) (b t)) * Complex.exp (Complex.I * ((-Δ * t : ℝ) : ℂ))) (Icc 0 t) :=
      ((continuousOn_const.mul ((cp.mono (sub t ht)).mul (Complex.continuous_conj.comp_continuousOn (cb.mono (sub t ht))))).mul (continuous_phase (-Δ)).continuousOn)
    rw [amplitude_integral (q := q) hE ht.1 (ca.mono (sub t ht)) hc fun x hx => (hda x ⟨⟨hx.1.1, hx.1.2.trans_le ht.2⟩, hx.2⟩).congr_deriv (by
      rw [hg]; push_cast; ring)]
    refine (intervalIntegral.norm_integral_le_of_norm_le_const (C := |g| * w * (P / 2)) fun x hx => ?_).trans (le_of_eq ?_)
    · rw [uIoc_of_le ht.1] at hx
      have hx' : x ∈ Icc 0 q.len := ⟨hx.1.le, hx.2.trans ht.2⟩
      rw [norm_mul, norm_sign, one_mul, norm_mul, norm_phase, mul_one, norm_mul, norm_mul, Complex.norm_I, one_mul, Complex.norm_real, Real.norm_eq_abs, norm_mul,
        RCLike.norm_conj, abs_mul, abs_of_nonneg hw]
      exact mul_le_mul_of_nonneg_left (hb x hx') (mul_nonneg (abs_nonneg _) hw)
    · rw [sub_zero, abs_of_nonneg ht.1]
  have ns := near s i (q.s.W j) hW.1 cs ci (fun t ht => (half t ht).1) fun t ht => (hd t ht).2.1
  have ni := near i s (q.i.W l) hW.2 ci cs (fun t ht => (half t ht).2) fun t ht => (hd t ht).2.2
  rw [hs0] at ns
  rw [hi0] at ni
  have root : ∀ x : ℝ, 0 ≤ x → x ^ 2 ≤ P → x ≤ √P := fun x hx h => Real.le_sqrt_of_sq_le h
  have prod : ∀ t ∈ Icc 0 q.len, ‖s t * i t - s0 * i0‖ ≤ |g| * q.p.W m * (P / 2) * √P * t := by
    intro t ht
    have e : s t * i t - s0 * i0 = (s t - s0) * i t + s0 * (i t - i0) := by ring
    have h1 : ‖i t‖ ≤ √P := root _ (norm_nonneg _) (by have := pow t ht; nlinarith [sq_nonneg ‖p t‖, sq_nonneg ‖s t‖])
    have h2 : ‖s0‖ ≤ √P := root _ (norm_nonneg _) (by rw [hP]; nlinarith [sq_nonneg ‖i0‖])
    rw [e]
    refine (norm_add_le _ _).trans ?_
    rw [norm_mul, norm_mul, W.matched m j l h]
    have h3 := mul_le_mul (ns t ht) h1 (norm_nonneg _) (by have := ht.1; have := hW.1; positivity)
    have h4 := mul_le_mul h2 (ni t ht) (norm_nonneg _) (Real.sqrt_nonneg _)
    linarith
  have hcp : ContinuousOn (fun t => Complex.I * ((g * q.p.W m : ℝ) : ℂ) * (s t * i t) * Complex.exp (Complex.I * ((Δ * t : ℝ) : ℂ))) (Icc 0 z) :=
    (continuousOn_const.mul ((cs.mono (sub z hz)).mul (ci.mono (sub z hz)))).mul (continuous_phase Δ).continuousOn
  have hpz := amplitude_integral (q := q) hE hz.1 (cp.mono (sub z hz)) hcp fun x hx => ((hd x ⟨⟨hx.1.1, hx.1.2.trans_le hz.2⟩, hx.2⟩).1).congr_deriv (by
      rw [hg]; push_cast; ring)
  have hA : Ap (Y z) m = p z := by rw [hl z hz, lines, Ap_join, Pi.single_eq_same]
  have hG : Complex.I * ((g * q.p.W m : ℝ) : ℂ) * (s0 * i0) * q.grating Δ z =
      ∫ t in (0)..z, ((q.sign t : ℝ) : ℂ) * (Complex.I * ((g * q.p.W m : ℝ) : ℂ) * (s0 * i0) * Complex.exp (Complex.I * ((Δ * t : ℝ) : ℂ))) := by
    rw [Prob.grating, ← intervalIntegral.integral_const_mul]
    refine intervalIntegral.integral_congr fun t _ => ?_
    ring
  rw [hp0, sub_zero] at hpz
  have hc0 : ContinuousOn (fun t => Complex.I * ((g * q.p.W m : ℝ) : ℂ) * (s0 * i0) * Complex.exp (Complex.I * ((Δ * t : ℝ) : ℂ))) (Icc 0 z) :=
    (continuous_const.mul (continuous_phase Δ)).continuousOn
  rw [hA, hpz, hG, ← intervalIntegral.integral_sub (sign_mul_integrable q hz.1 hcp) (sign_mul_integrable q hz.1 hc0)]
  have hb : ∀ t ∈ Ioc 0 z, ‖((q.sign t : ℝ) : ℂ) * (Complex.I * ((g * q.p.W m : ℝ) : ℂ) * (s t * i t) * Complex.exp (Complex.I * ((Δ * t : ℝ) : ℂ))) -
      ((q.sign t : ℝ) : ℂ) * (Complex.I * ((g * q.p.W m : ℝ) : ℂ) * (s0 * i0) * Complex.exp (Complex.I * ((Δ * t : ℝ) : ℂ)))‖ ≤
      (|g| * q.p.W m) ^ 2 * (P / 2) * √P * t := by
    intro t ht
    have e : ∀ σ c x y E : ℂ, σ * (c * x * E) - σ * (c * y * E) = σ * c * (x - y) * E := fun _ _ _ _ _ => by ring
    rw [e, norm_mul, norm_phase, mul_one, norm_mul, norm_mul, norm_sign, one_mul, norm_mul, Complex.norm_I, one_mul, Complex.norm_real, Real.norm_eq_abs,
      abs_mul, abs_of_nonneg hWp]
    have := mul_le_mul_of_nonneg_left (prod t ⟨ht.1.le, ht.2.trans hz.2⟩) (show 0 ≤ |g| * q.p.W m by positivity)
    linarith
  refine (intervalIntegral.norm_integral_le_of_norm_le hz.1 (Filter.Eventually.of_forall hb) (Continuous.intervalIntegrable (by fun_prop) _ _)).trans (le_of_eq ?_)
  rw [intervalIntegral.integral_const_mul, integral_id]
  have : √P ^ 3 = P * √P := by rw [pow_succ, Real.sq_sqrt hP0]
  rw [this]
  ring

/-! ## The contributions of a crystal -/

theorem phase_integral {Δ : ℝ} (hΔ : Δ ≠ 0) (a b : ℝ) : ∫ t in a..b, Complex.exp (Complex.I * ((Δ * t : ℝ) : ℂ)) =
    (Complex.exp (Complex.I * ((Δ * b : ℝ) : ℂ)) - Complex.exp (Complex.I * ((Δ * a : ℝ) : ℂ))) / (Complex.I * Δ) := by
  have hc : Complex.I * (Δ : ℂ) ≠ 0 := mul_ne_zero Complex.I_ne_zero (by exact_mod_cast hΔ)
  have e : ∀ t : ℝ, Complex.I * ((Δ * t : ℝ) : ℂ) = Complex.I * (Δ : ℂ) * (t : ℂ) := fun t => by push_cast; ring
  simp only [e]
  exact integral_exp_mul_complex hc

theorem norm_phase_sub_one (x : ℝ) : ‖Complex.exp (Complex.I * (x : ℂ)) - 1‖ = 2 * |Real.sin (x / 2)| := by
  rw [Complex.norm_exp_I_mul_ofReal_sub_one, Real.norm_eq_abs, abs_mul, abs_two]

/-- C144, unpoled: the contributions of a crystal without poling add up to the length times a sinc. -/
theorem C144_unpoled (hq : q.mode ≠ "PP") (Δ : ℝ) {z : ℝ} (hz : 0 ≤ z) : ‖q.grating Δ z‖ = z * |Real.sinc (Δ * z / 2)| := by
  have hs : ∀ t, q.sign t = 1 := fun t => by rw [Prob.sign, if_neg hq]
  unfold Prob.grating
  simp only [hs, Complex.ofReal_one, one_mul]
  rcases eq_or_ne Δ 0 with rfl | hΔ
  · simp [abs_of_nonneg hz]
  rcases hz.eq_or_lt with rfl | hz0
  · simp
  rw [phase_integral hΔ, mul_zero, Complex.ofReal_zero, mul_zero, Complex.exp_zero, norm_div, norm_phase_sub_one, norm_mul, Complex.norm_I, one_mul,
    Complex.norm_real, Real.norm_eq_abs, Real.sinc_of_ne_zero (by positivity), abs_div, abs_div, abs_mul, abs_of_nonneg hz, abs_two]
  have := abs_pos.2 hΔ
  field_simp

theorem phase_whole {Δ P : ℝ} {n : ℤ} (h : Δ * P = 2 * Real.pi * n) (k : ℕ) : Complex.exp (Complex.I * ((Δ * (k * P) : ℝ) : ℂ)) = 1 := by
  rw [Complex.exp_eq_one_iff]
  refine ⟨n * k, ?_⟩
  rw [show Δ * (k * P) = 2 * Real.pi * n * k by rw [← h]; ring]
  push_cast
  ring

theorem phase_half {Δ P : ℝ} {n : ℤ} (h : Δ * P = 2 * Real.pi * n) (k : ℕ) :
    Complex.exp (Complex.I * ((Δ * (k * P + P / 2) : ℝ) : ℂ)) = (-1) ^ n := by
  rw [show Complex.I * ((Δ * (k * P + P / 2) : ℝ) : ℂ) = Complex.I * ((Δ * (k * P) : ℝ) : ℂ) + n * (Real.pi * Complex.I) by
    rw [show Δ * (k * P + P / 2) = Δ * (k * P) + Real.pi * n by linear_combination h / 2]; push_cast; ring, Complex.exp_add, phase_whole h, one_mul,
    Complex.exp_int_mul, Complex.exp_pi_mul_I]

theorem wall_const (P : ℝ) (k : ℕ) : Spec.wall (fun _ => P) k = k * P := by
  induction k with
  | zero => simp [Spec.wall]
  | succ k ih => rw [Spec.wall, ih]; push_cast; ring

/-- One period of a crystal with a constant period. -/
theorem period_integral (hq : q.mode = "PP") {P : ℝ} (hP : 0 < P) (hd : precomputePoling (fun _ => P) q.len = some q.domains) {k : ℕ} (hk : k * P < q.len)
    {Δ : ℝ} (hΔ : Δ ≠ 0) {n : ℤ} (h : Δ * P = 2 * Real.pi * n) :
    ∫ t in (k * P : ℝ)..((k + 1 : ℕ) * P : ℝ), ((q.sign t : ℝ) : ℂ) * Complex.exp (Complex.I * ((Δ * t : ℝ) : ℂ)) =
      2 * ((-1) ^ n - 1) / (Complex.I * Δ) := by
  have hs : ∀ t, (k * P : ℝ) ≤ t → t < (k + 1 : ℕ) * P → q.sign t = if (k * P : ℝ) + P / 2 < t then -1 else 1 := by
    intro t h1 h2
    have := C68_in_period (pp := fun _ => P) (fun _ => hP) hd (k := k) (by rw [wall_const]; exact hk) (x := t) (by rw [wall_const]; exact h1) (by rw [wall_const]; exact h2)
    rw [wall_const] at this
    rw [Prob.sign, if_pos hq, this]
  have hi : ∀ a b, IntervalIntegrable (fun t => ((q.sign t : ℝ) : ℂ) * Complex.exp (Complex.I * ((Δ * t : ℝ) : ℂ))) MeasureTheory.volume a b := by
    intro a b
    have h1 : IntervalIntegrable (fun t => ((q.sign t : ℝ) : ℂ)) MeasureTheory.volume a b := ⟨(sign_integrable q a b).1.ofReal, (sign_integrable q a b).2.ofReal⟩
    exact h1.mul_continuousOn (continuous_phase Δ).continuousOn
  have e : ((k + 1 : ℕ) * P : ℝ) = k * P + P := by push_cast; ring
  have f1 : ∫ t in (k * P : ℝ)..(k * P + P / 2), ((q.sign t : ℝ) : ℂ) * Complex.exp (Complex.I * ((Δ * t : ℝ) : ℂ)) =
      ∫ t in (k * P : ℝ)..(k * P + P / 2), Complex.exp (Complex.I * ((Δ * t : ℝ) : ℂ)) := by
    refine intervalIntegral.integral_congr_Ioo_of_le (by linarith) fun t ht => ?_
    have := hs t ht.1.le (by rw [e]; linarith [ht.2])
    rw [if_neg (not_lt.2 ht.2.le)] at this
    simp [this]
  have f2 : ∫ t in (k * P + P / 2)..((k + 1 : ℕ) * P : ℝ), ((q.sign t : ℝ) : ℂ) * Complex.exp (Complex.I * ((Δ * t : ℝ) : ℂ)) =
      -∫ t in (k * P + P / 2)..((k + 1 : ℕ) * P : ℝ), Complex.exp (Complex.I * ((Δ * t : ℝ) : ℂ)) := by
    rw [← intervalIntegral.integral_neg]
    refine intervalIntegral.integral_congr_Ioo_of_le (by rw [e]; linarith) fun t ht => ?_
    have := hs t (by linarith [ht.1]) ht.2
    rw [if_pos ht.1] at this
    simp [this]
  rw [← intervalIntegral.integral_add_adjacent_intervals (hi _ (k * P + P / 2)) (hi _ _), f1, f2, phase_integral hΔ, phase_integral hΔ, phase_half h, phase_whole h,
    phase_whole h]
  ring

/-- C144, poled: the contributions of `M` whole periods of a crystal poled with a period that holds the phase of the mismatch `n` times: for
odd `n` the share `2 / (π n)` of the length, for even `n` nothing. -/
theorem C144_poled (hq : q.mode = "PP") {P : ℝ} (hP : 0 < P) (hd : precomputePoling (fun _ => P) q.len = some q.domains) {M : ℕ} (hM : q.len = M * P)
    {Δ : ℝ} {n : ℤ} (hn : n ≠ 0) (h : Δ * P = 2 * Real.pi * n) :
    q.grating Δ q.len = if Odd n then Complex.I * ((2 / (Real.pi * n) * q.len : ℝ) : ℂ) else 0 := by
  have hΔ : Δ ≠ 0 := by
    rintro rfl
    rw [zero_mul] at h
    have hpi := Real.pi_pos
    have : (n : ℝ) ≠ 0 := by exact_mod_cast hn
    have := mul_ne_zero (mul_ne_zero two_ne_zero hpi.ne') this
    exact this h.symm
  have h1 : q.grating Δ q.len = ∑ k ∈ Finset.range M, 2 * ((-1) ^ n - 1) / (Complex.I * Δ) := by
    have hi : ∀ k < M, IntervalIntegrable (fun t => ((q.sign t : ℝ) : ℂ) * Complex.exp (Complex.I * ((Δ * t : ℝ) : ℂ))) MeasureTheory.volume
        ((fun k : ℕ => (k * P : ℝ)) k) ((fun k : ℕ => (k * P : ℝ)) (k + 1)) := by
      intro k _
      have h1 : ∀ a b, IntervalIntegrable (fun t => ((q.sign t : ℝ) : ℂ)) MeasureTheory.volume a b := fun a b => ⟨(sign_integrable q a b).1.ofReal, (sign_integrable q a b).2.ofReal⟩
      exact (h1 _ _).mul_continuousOn (continuous_phase Δ).continuousOn
    have := intervalIntegral.sum_integral_adjacent_intervals hi
    simp only [Nat.cast_zero, zero_mul, ← hM] at this
    rw [Prob.grating, ← this]
    refine Finset.sum_congr rfl fun k hk => ?_
    refine period_integral hq hP hd ?_ hΔ h
    rw [hM]
    exact mul_lt_mul_of_pos_right (by exact_mod_cast Finset.mem_range.1 hk) hP
  have hc : (Δ : ℂ) ≠ 0 := by exact_mod_cast hΔ
  rw [h1, Finset.sum_const, Finset.card_range, nsmul_eq_mul]
  split_ifs with ho
  · rw [ho.neg_one_zpow, hM]
    have hn' : (n : ℂ) ≠ 0 := by exact_mod_cast hn
    have hpi : (Real.pi : ℂ) ≠ 0 := by exact_mod_cast Real.pi_ne_zero
    have hc2 : (Δ : ℂ) * P = 2 * Real.pi * n := by exact_mod_cast h
    have I2 := Complex.I_mul_I
    push_cast
    field_simp
    linear_combination (M : ℂ) * hc2 + (-(M * (Δ * P)) : ℂ) * I2
  · rw [(Int.not_odd_iff_even.1 ho).neg_one_zpow]
    simp

/-! ## Power of the sum frequency -/

/-- The error of the first order. -/
noncomputable def Prob.depleted (q : Prob N) (squm : ℝ) (m j l : Fin N) (s0 i0 : ℂ) (z : ℝ) : ℝ :=
  (|q.deff * q.kappa squm m j l| * q.p.W m * z) ^ 2 / 4 * √(‖s0‖ ^ 2 + ‖i0‖ ^ 2) ^ 3

theorem first_order_norm (W : Works q squm) {m j l : Fin N} (h : ((j : ℕ) : ℤ) + (l : ℕ) = (m : ℕ) + (N / 2 : ℕ))
    (hW : 0 ≤ q.s.W j ∧ 0 ≤ q.i.W l) {s0 i0 : ℂ} {Y : ℝ → Fin (3 * N) → ℂ} (hY : Solves q Y 0 q.len) (h0 : Y 0 = lines m j l 0 s0 i0)
    {z : ℝ} (hz : z ∈ Icc 0 q.len) {G : ℝ} (hG : ‖q.grating (q.mismatch m j l) z‖ = G) :
    |‖Ap (Y z) m‖ - |q.deff * q.kappa squm m j l| * q.p.W m * (‖s0‖ * ‖i0‖) * G| ≤ q.depleted squm m j l s0 i0 z := by
  have hWp : 0 ≤ q.p.W m := by rw [W.matched m j l h]; exact add_nonneg hW.1 hW.2
  have h1 := (abs_norm_sub_norm_le _ _).trans (C144_first_order W h hW hY h0 hz)
  rw [norm_mul, norm_mul, norm_mul, norm_mul, Complex.norm_I, one_mul, Complex.norm_real, Real.norm_eq_abs, abs_mul _ (q.p.W m), abs_of_nonneg hWp, hG] at h1
  exact h1

/-- C144, quasi-phase matching: a crystal of whole poling periods that hold the phase of the mismatch an odd number `n` of times generates
the share `2 / (π n)` of the amplitude that a phase-matched crystal of its length does, up to the depletion. -/
theorem C144_qpm (W : Works q squm) (hq : q.mode = "PP") {m j l : Fin N} (h : ((j : ℕ) : ℤ) + (l : ℕ) = (m : ℕ) + (N / 2 : ℕ))
    (hW : 0 ≤ q.s.W j ∧ 0 ≤ q.i.W l) {P : ℝ} (hP : 0 < P) (hd : precomputePoling (fun _ => P) q.len = some q.domains) {M : ℕ} (hM : q.len = M * P)
    {n : ℤ} (hn : Odd n) (hΔ : q.mismatch m j l * P = 2 * Real.pi * n) {s0 i0 : ℂ} {Y : ℝ → Fin (3 * N) → ℂ} (hY : Solves q Y 0 q.len)
    (h0 : Y 0 = lines m j l 0 s0 i0) :
    |‖Ap (Y q.len) m‖ - |q.deff * q.kappa squm m j l| * q.p.W m * (‖s0‖ * ‖i0‖) * (2 / (Real.pi * |(n : ℝ)|) * q.len)| ≤
      q.depleted squm m j l s0 i0 q.len := by
  refine first_order_norm W h hW hY h0 ⟨W.len.le, le_refl _⟩ ?_
  have hn0 : n ≠ 0 := by rintro rfl; simp at hn
  rw [C144_poled hq hP hd hM hn0 hΔ, if_pos hn, norm_mul, Complex.norm_I, one_mul, Complex.norm_real, Real.norm_eq_abs, abs_mul, abs_div, abs_mul, abs_two,
    abs_of_pos Real.pi_pos, abs_of_pos W.len]

/-- C144: with an even number of times nothing is left but what depletion makes. -/
theorem C144_even (W : Works q squm) (hq : q.mode = "PP") {m j l : Fin N} (h : ((j : ℕ) : ℤ) + (l : ℕ) = (m : ℕ) + (N / 2 : ℕ))
    (hW : 0 ≤ q.s.W j ∧ 0 ≤ q.i.W l) {P : ℝ} (hP : 0 < P) (hd : precomputePoling (fun _ => P) q.len = some q.domains) {M : ℕ} (hM : q.len = M * P)
    {n : ℤ} (hn : Even n) (hn0 : n ≠ 0) (hΔ : q.mismatch m j l * P = 2 * Real.pi * n) {s0 i0 : ℂ} {Y : ℝ → Fin (3 * N) → ℂ} (hY : Solves q Y 0 q.len)
    (h0 : Y 0 = lines m j l 0 s0 i0) : ‖Ap (Y q.len) m‖ ≤ q.depleted squm m j l s0 i0 q.len := by
  have := first_order_norm W h hW hY h0 ⟨W.len.le, le_refl _⟩ (G := 0)
    (by rw [C144_poled hq hP hd hM hn0 hΔ, if_neg (Int.not_odd_iff_even.2 hn), norm_zero])
  rwa [mul_zero, sub_zero, abs_of_nonneg (norm_nonneg _)] at this

/-- C144, no poling: the amplitude is that of a sinc of the mismatch, up to the depletion. -/
theorem C144_sinc (W : Works q squm) (hq : q.mode ≠ "PP") {m j l : Fin N} (h : ((j : ℕ) : ℤ) + (l : ℕ) = (m : ℕ) + (N / 2 : ℕ))
    (hW : 0 ≤ q.s.W j ∧ 0 ≤ q.i.W l) {s0 i0 : ℂ} {Y : ℝ → Fin (3 * N) → ℂ} (hY : Solves q Y 0 q.len) (h0 : Y 0 = lines m j l 0 s0 i0)
    {z : ℝ} (hz : z ∈ Icc 0 q.len) :
    |‖Ap (Y z) m‖ - |q.deff * q.kappa squm m j l| * q.p.W m * (‖s0‖ * ‖i0‖) * (z * |Real.sinc (q.mismatch m j l * z / 2)|)| ≤
      q.depleted squm m j l s0 i0 z :=
  first_order_norm W h hW hY h0 hz (C144_unpoled hq _ hz.1)

/-- C144, no poling: at whole periods of the mismatch the contributions cancel. -/
theorem C144_cancel (W : Works q squm) (hq : q.mode ≠ "PP") {m j l : Fin N} (h : ((j : ℕ) : ℤ) + (l : ℕ) = (m : ℕ) + (N / 2 : ℕ))
    (hW : 0 ≤ q.s.W j ∧ 0 ≤ q.i.W l) {n : ℤ} (hn : n ≠ 0) (hΔ : q.mismatch m j l * q.len = 2 * Real.pi * n) {s0 i0 : ℂ} {Y : ℝ → Fin (3 * N) → ℂ}
    (hY : Solves q Y 0 q.len) (h0 : Y 0 = lines m j l 0 s0 i0) : ‖Ap (Y q.len) m‖ ≤ q.depleted squm m j l s0 i0 q.len := by
  have := C144_sinc W hq h hW hY h0 ⟨W.len.le, le_refl _⟩
  have hne : Real.pi * (n : ℝ) ≠ 0 := mul_ne_zero Real.pi_ne_zero (by exact_mod_cast hn)
  rwa [hΔ, show 2 * Real.pi * (n : ℝ) / 2 = Real.pi * n by ring, Real.sinc_of_ne_zero hne, mul_comm Real.pi, Real.sin_int_mul_pi, zero_div, abs_zero, mul_zero,
    mul_zero, sub_zero, abs_of_nonneg (norm_nonneg _)] at this

/-- C144, computed: what an integration that returns gives in the case of quasi-phase matching. -/
theorem C144_computed (W : Works q squm) {κ R ρ : ℝ} (S : Strength (q.wp squm) (q.ws squm) (q.wi squm) |q.deff| κ) (hq : q.mode = "PP") {m j l : Fin N}
    (h : ((j : ℕ) : ℤ) + (l : ℕ) = (m : ℕ) + (N / 2 : ℕ)) (hW : 0 ≤ q.s.W j ∧ 0 ≤ q.i.W l) {P : ℝ} (hP : 0 < P)
    (hd : precomputePoling (fun _ => P) q.len = some q.domains) {M : ℕ} (hM : q.len = M * P) {n : ℤ} (hn : Odd n)
    (hΔ : q.mismatch m j l * P = 2 * Real.pi * n) {s0 i0 : ℂ} (hρ : 0 < ρ) (hR : √(‖s0‖ ^ 2 + ‖i0‖ ^ 2) + ρ < R)
    (hsm : q.len * Real.exp (26 * (2 * N * κ * R) * q.len) * (1e-27 * (N * κ * R ^ 2)) < ρ) :
    ∃ C h0, 0 ≤ C ∧ 0 < h0 ∧ ∀ hm ∈ Ioc 0 h0, ∀ (p : Ode.Prob (3 * N)) (con : Ode.Con) (h1 hmin : ℝ) (out : Ode.Out (3 * N)) (o' : Ode.Ode (3 * N)),
      p.f = q.rhs → Ode.Rounds p.fl → out.Usable → (Ode.Ode.new con (lines m j l 0 s0 i0) 0 q.len h1 hmin out).integrate p = some (.ok (), o') →
      Ode.StepsLe hm 0 o'.visited →
      |‖Ap o'.ystart m‖ - |q.deff * q.kappa squm m j l| * q.p.W m * (‖s0‖ * ‖i0‖) * (2 / (Real.pi * |(n : ℝ)|) * q.len)| ≤
        q.depleted squm m j l s0 i0 q.len + (q.len * Real.exp (26 * (2 * N * κ * R) * q.len) * (1e-27 * (N * κ * R ^ 2)) + C * hm) := by
  obtain ⟨C, h0, hC, hh0, hc⟩ := C121_converges W S (lines m j l 0 s0 i0) hρ (by rw [lines_power]; simpa using hR) hsm
  obtain ⟨Y, hY0, hY, -, -⟩ := C121_solution W (lines m j l 0 s0 i0)
  refine ⟨C, h0, hC, hh0, fun hm hhm p con h1 hmin out o' hp hfl ho hr hst => ?_⟩
  have h2 := hc hm hhm p con h1 hmin out o' hp hfl ho hr hst Y hY hY0
  have h3 := C144_qpm W hq h hW hP hd hM hn hΔ hY hY0
  have h4 : |‖Ap o'.ystart m‖ - ‖Ap (Y q.len) m‖| ≤ _ := (abs_norm_sub_norm_le _ _).trans ((norm_le_pi_norm (o'.ystart - Y q.len) _).trans h2)
  have := abs_sub_le (‖Ap o'.ystart m‖) (‖Ap (Y q.len) m‖)
    (|q.deff * q.kappa squm m j l| * q.p.W m * (‖s0‖ * ‖i0‖) * (2 / (Real.pi * |(n : ℝ)|) * q.len))
  linarith

/-! The hypotheses hold for a crystal of two poling periods, and what is generated exceeds the error of the first order. -/

/-- Two bins, a mismatch of `4 π` and the given domains. -/
noncomputable def exQpm (mode : String) (dom : List ℝ × List ℝ) : Prob 2 :=
  { exGuided with mode := mode, domains := dom, s := ⟨![3, 4], ![0, 0], 4 * Real.pi, fun _ => 2⟩ }

theorem exQpm_works {mode : String} (h : mode = "PP" ∨ mode = "BPM" ∨ mode = "simple") (dom : List ℝ × List ℝ) : Works (exQpm mode dom) 10 :=
  ⟨by norm_num, by norm_num, rfl, fun j => by norm_num [exQpm, exGuided], rfl, exGuided_matched, h, by norm_num [exQpm, exGuided]⟩

theorem C144_nonvacuous : ∃ dom, precomputePoling (fun _ => 1 / 2) (exQpm "PP" dom).len = some (exQpm "PP" dom).domains ∧ Works (exQpm "PP" dom) 10 ∧
    Works (exQpm "simple" dom) 10 ∧ (((0 : Fin 2) : ℕ) : ℤ) + ((1 : Fin 2) : ℕ) = ((0 : Fin 2) : ℕ) + (2 / 2 : ℕ) ∧
    (exQpm "PP" dom).len = (2 : ℕ) * (1 / 2) ∧ (exQpm "PP" dom).mismatch 0 0 1 * (1 / 2) = 2 * Real.pi * (1 : ℤ) ∧
    (exQpm "simple" dom).mismatch 0 0 1 * (exQpm "simple" dom).len = 2 * Real.pi * (2 : ℤ) ∧
    Strength ((exQpm "PP" dom).wp 10) ((exQpm "PP" dom).ws 10) ((exQpm "PP" dom).wi 10) |(exQpm "PP" dom).deff| 0.2 ∧
    (exQpm "PP" dom).depleted 10 0 0 1 (1 / 10) (1 / 10) (exQpm "PP" dom).len <
      |(exQpm "PP" dom).deff * (exQpm "PP" dom).kappa 10 0 0 1| * (exQpm "PP" dom).p.W 0 * (‖(1 / 10 : ℂ)‖ * ‖(1 / 10 : ℂ)‖) *
        (2 / (Real.pi * |((1 : ℤ) : ℝ)|) * (exQpm "PP" dom).len) := by
  obtain ⟨dom, hd⟩ := C68_terminates (pp := fun _ => 1 / 2) (ε := 1 / 2) (by norm_num) (fun _ => le_rfl) 1
  refine ⟨dom, hd, exQpm_works (.inl rfl) dom, exQpm_works (.inr (.inr rfl)) dom, rfl, by norm_num [exQpm, exGuided], ?_, ?_,
    ⟨exGuided_strength.1, exGuided_strength.2, exGuided_strength.3, exGuided_strength.4⟩, ?_⟩
  · simp [Prob.mismatch, exQpm, exGuided]; ring
  · simp [Prob.mismatch, exQpm, exGuided]; ring
  · have hk : (exQpm "PP" dom).kappa 10 0 0 1 = 2 / (cMks * √(eps0 * cMks * (10 * 1e-12) * (2 * 2 * 2))) := rfl
    have hr : (1e-8 : ℝ) ≤ √(eps0 * cMks * (10 * 1e-12) * (2 * 2 * 2)) := Real.le_sqrt_of_sq_le (by norm_num [eps0, cMks])
    unfold Prob.depleted
    rw [hk]
    generalize √(eps0 * cMks * (10 * 1e-12) * (2 * 2 * 2)) = r at hr
    have hr0 : 0 < r := lt_of_lt_of_le (by norm_num) hr
    have hc := cMks_pos
    have hκ : 2 / (cMks * r) ≤ 1 := by
      rw [div_le_one (by positivity)]
      have := mul_le_mul_of_nonneg_left hr hc.le
      norm_num [cMks] at this ⊢
      linarith
    have hκ0 : 0 < 2 / (cMks * r) := by positivity
    generalize 2 / (cMks * r) = κ at hκ hκ0
    have e1 : (exQpm "PP" dom).deff = 1 := rfl
    have e2 : (exQpm "PP" dom).len = 1 := rfl
    have e3 : (exQpm "PP" dom).p.W 0 = 5 := rfl
    have n1 : ‖(1 / 10 : ℂ)‖ = 1 / 10 := by norm_num
    rw [e1, e2, e3, n1, one_mul, abs_of_pos hκ0]
    have hs : √((1 / 10 : ℝ) ^ 2 + (1 / 10) ^ 2) ^ 3 ≤ 0.003 := by
      have h1 : √((1 / 10 : ℝ) ^ 2 + (1 / 10) ^ 2) ≤ 0.142 := Real.sqrt_le_iff.2 ⟨by norm_num, by norm_num⟩
      refine (pow_le_pow_left₀ (Real.sqrt_nonneg _) h1 3).trans (by norm_num)
    have hpi : (0.6 : ℝ) ≤ 2 / (Real.pi * |((1 : ℤ) : ℝ)|) := by
      rw [Int.cast_one, abs_one, mul_one, le_div_iff₀ Real.pi_pos]
      have := Real.pi_lt_d2
      linarith
    have h1 : (κ * 5 * 1) ^ 2 / 4 * √((1 / 10 : ℝ) ^ 2 + (1 / 10) ^ 2) ^ 3 ≤ κ * 5 * (1.25 * 0.003) := by
      have h2 : (κ * 5 * 1) ^ 2 / 4 ≤ κ * 5 * 1.25 := by nlinarith
      calc _ ≤ κ * 5 * 1.25 * 0.003 := mul_le_mul h2 hs (by positivity) (by positivity)
        _ = _ := by ring
    have h3 : κ * 5 * (1 / 10 * (1 / 10)) * 0.6 ≤ κ * 5 * (1 / 10 * (1 / 10)) * (2 / (Real.pi * |((1 : ℤ) : ℝ)|) * 1) :=
      mul_le_mul_of_nonneg_left (by linarith) (by positivity)
    nlinarith

end PyNLO.Dfg
