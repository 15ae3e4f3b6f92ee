import Verif.Props.CrystalDisp
import Mathlib.Analysis.Calculus.Taylor
import Mathlib.Analysis.Complex.Liouville
import Mathlib.Analysis.Complex.RealDeriv
import Mathlib.Analysis.SpecialFunctions.Pow.Deriv

/-! # C66: group velocity and dispersion of smooth indices -/

namespace PyNLO.Xtal

open Set
open scoped ContDiff Nat

/-- a smooth function minus its Taylor polynomial of degree 10 -/
theorem taylor_ten {f : ℝ → ℝ} {a b x M t : ℝ} (hf : ContDiffOn ℝ 11 f (Ioo a b)) (hM : ∀ y ∈ Ioo a b, |iteratedDeriv 11 f y| ≤ M)
    (hx : x ∈ Ioo a b) (ht : x + t ∈ Ioo a b) :
    |f (x + t) - ∑ j ∈ Finset.range 11, t ^ j / (j ! : ℝ) * iteratedDeriv j f x| ≤ M * |t| ^ 11 / (11 ! : ℕ) := by
  by_cases h0 : t = 0
  · subst h0
    simp [Finset.sum_range_succ]
  have hne : x ≠ x + t := fun h => h0 (by linarith)
  have hsub : uIcc x (x + t) ⊆ Ioo a b := (convex_Ioo a b).ordConnected.uIcc_subset hx ht
  have hf' : ContDiffOn ℝ ((10 : ℕ) + 1) f (uIcc x (x + t)) := by
    refine (hf.mono hsub).of_le ?_
    norm_num
  obtain ⟨y, hy, e⟩ := taylor_mean_remainder_lagrange_iteratedDeriv (n := 10) hne hf'
  have hat : ContDiffAt ℝ 11 f x := hf.contDiffAt (isOpen_Ioo.mem_nhds hx)
  have hT : taylorWithinEval f 10 (uIcc x (x + t)) x (x + t) = ∑ j ∈ Finset.range 11, t ^ j / (j ! : ℝ) * iteratedDeriv j f x := by
    rw [taylor_within_apply]
    refine Finset.sum_congr rfl fun j hj => ?_
    have hj' : j < 11 := Finset.mem_range.1 hj
    rw [iteratedDerivWithin_eq_iteratedDeriv (uniqueDiffOn_uIcc hne) (hat.of_le (by exact_mod_cast hj'.le)) left_mem_uIcc, smul_eq_mul, add_sub_cancel_left]
    ring
  rw [hT] at e
  rw [e, add_sub_cancel_left, abs_div, abs_mul, abs_pow, Nat.abs_cast]
  have := hM y (hsub (uIoo_subset_uIcc_self hy))
  gcongr

/-- error of an eleven-point stencil that satisfies the moment conditions -/
theorem stencil_error {w : Fin 11 → ℝ} {d : ℕ} (hd : d < 11)
    (hw : ∀ j < 11, ∑ k : Fin 11, w k * ((k : ℕ) - 5 : ℝ) ^ j = if j = d then (d ! : ℝ) else 0)
    {f : ℝ → ℝ} {a b x dx M : ℝ} (hf : ContDiffOn ℝ 11 f (Ioo a b)) (hM : ∀ y ∈ Ioo a b, |iteratedDeriv 11 f y| ≤ M)
    (ha : a < x - 5 * dx) (hb : x + 5 * dx < b) (hdx : 0 < dx) :
    |derivative w d f x dx - iteratedDeriv d f x| ≤ (∑ k : Fin 11, |w k| * |((k : ℕ) - 5 : ℝ)| ^ 11) / (11 ! : ℕ) * M * dx ^ (11 - d) := by
  have hx : x ∈ Ioo a b := ⟨by linarith, by linarith⟩
  have ht : ∀ k : Fin 11, x + ((k : ℕ) - 5 : ℝ) * dx ∈ Ioo a b := by
    intro k
    have h1 : (0 : ℝ) ≤ ((k : ℕ) : ℝ) := Nat.cast_nonneg _
    have h2 : ((k : ℕ) : ℝ) ≤ 10 := by exact_mod_cast Nat.lt_succ_iff.1 k.isLt
    constructor <;> nlinarith
  have hsum : ∑ k : Fin 11, w k * ∑ j ∈ Finset.range 11, (((k : ℕ) - 5 : ℝ) * dx) ^ j / (j ! : ℝ) * iteratedDeriv j f x = dx ^ d * iteratedDeriv d f x := by
    have e : ∑ k : Fin 11, w k * ∑ j ∈ Finset.range 11, (((k : ℕ) - 5 : ℝ) * dx) ^ j / (j ! : ℝ) * iteratedDeriv j f x =
        ∑ j ∈ Finset.range 11, dx ^ j / (j ! : ℝ) * iteratedDeriv j f x * ∑ k : Fin 11, w k * ((k : ℕ) - 5 : ℝ) ^ j := by
      simp only [Finset.mul_sum]
      rw [Finset.sum_comm]
      refine Finset.sum_congr rfl fun j _ => Finset.sum_congr rfl fun k _ => ?_
      rw [mul_pow]
      ring
    rw [e, Finset.sum_eq_single d]
    · rw [hw d hd, if_pos rfl]
      have : (d ! : ℝ) ≠ 0 := by exact_mod_cast (Nat.factorial_pos d).ne'
      field_simp
    · intro j hj hjd
      rw [hw j (Finset.mem_range.1 hj), if_neg hjd, mul_zero]
    · exact fun h => absurd (Finset.mem_range.2 hd) h
  have hpow : 0 < dx ^ d := pow_pos hdx d
  have e : derivative w d f x dx - iteratedDeriv d f x =
      (∑ k : Fin 11, w k * (f (x + ((k : ℕ) - 5 : ℝ) * dx) - ∑ j ∈ Finset.range 11, (((k : ℕ) - 5 : ℝ) * dx) ^ j / (j ! : ℝ) * iteratedDeriv j f x)) / dx ^ d := by
    unfold derivative
    simp only [mul_sub, Finset.sum_sub_distrib]
    rw [hsum, sub_div, mul_div_cancel_left₀ _ hpow.ne']
  rw [e, abs_div, abs_of_pos hpow, div_le_iff₀ hpow]
  refine (Finset.abs_sum_le_sum_abs _ _).trans ?_
  have hs : ∀ k : Fin 11, |w k * (f (x + ((k : ℕ) - 5 : ℝ) * dx) - ∑ j ∈ Finset.range 11, (((k : ℕ) - 5 : ℝ) * dx) ^ j / (j ! : ℝ) * iteratedDeriv j f x)| ≤
      |w k| * |((k : ℕ) - 5 : ℝ)| ^ 11 * (M * dx ^ 11 / (11 ! : ℕ)) := by
    intro k
    rw [abs_mul]
    have := taylor_ten hf hM hx (ht k)
    rw [abs_mul, mul_pow, abs_of_pos hdx] at this
    calc _ ≤ |w k| * (M * (|((k : ℕ) - 5 : ℝ)| ^ 11 * dx ^ 11) / (11 ! : ℕ)) := mul_le_mul_of_nonneg_left this (abs_nonneg _)
      _ = _ := by ring
  refine (Finset.sum_le_sum fun k _ => hs k).trans (le_of_eq ?_)
  rw [← Finset.sum_mul]
  have hp : dx ^ 11 = dx ^ (11 - d) * dx ^ d := by rw [← pow_add]; congr 1; omega
  rw [hp]
  ring

theorem weights1_size : (∑ k : Fin 11, |weights1 k| * |((k : ℕ) - 5 : ℝ)| ^ 11) / (11 ! : ℕ) ≤ (0.0046 : ℝ) := by
  simp [Fin.sum_univ_succ, weights1, Nat.factorial, abs_div]
  norm_num [abs_of_pos, abs_of_neg]

theorem weights2_size : (∑ k : Fin 11, |weights2 k| * |((k : ℕ) - 5 : ℝ)| ^ 11) / (11 ! : ℕ) ≤ (0.0022 : ℝ) := by
  simp [Fin.sum_univ_succ, weights2, Nat.factorial, abs_div]
  norm_num [abs_of_pos, abs_of_neg]

/-- C66 for smooth indices: the inverse group velocity is `(n - wl·dn/dwl)/c` up to the error of the eleven-point stencil, which is at most
4.6e-13 times the largest eleventh derivative of the index within half a nanometre. -/
theorem C66_group_velocity_smooth {fn : ℝ → ℝ} {a b wl M : ℝ} (hf : ContDiffOn ℝ 11 fn (Ioo a b)) (hM : ∀ y ∈ Ioo a b, |iteratedDeriv 11 fn y| ≤ M)
    (ha : a < wl - 0.5) (hb : wl + 0.5 < b) :
    |1 / groupVelocity fn wl - (fn wl - wl * deriv fn wl) / cNmPs| ≤ |wl| / cNmPs * (4.6e-13 * M) := by
  have hM0 : 0 ≤ M := (abs_nonneg _).trans (hM wl ⟨by linarith, by linarith⟩)
  have h := stencil_error (d := 1) (w := weights1) (by norm_num) (fun j hj => by simpa using (weights_moments j hj).1) hf hM
    (x := wl) (dx := 0.1) (by linarith) (by linarith) (by norm_num)
  rw [iteratedDeriv_one] at h
  have h2 : |derivative weights1 1 fn wl 0.1 - deriv fn wl| ≤ 4.6e-13 * M := by
    refine h.trans ?_
    have := mul_le_mul_of_nonneg_right weights1_size hM0
    calc _ ≤ 0.0046 * M * 0.1 ^ (11 - 1) := mul_le_mul_of_nonneg_right this (by positivity)
      _ = 4.6e-13 * M := by norm_num; ring
  have hc : 0 < cNmPs := by norm_num [cNmPs, cMks]
  have e : 1 / groupVelocity fn wl - (fn wl - wl * deriv fn wl) / cNmPs = -(wl / cNmPs * (derivative weights1 1 fn wl 0.1 - deriv fn wl)) := by
    unfold groupVelocity
    rw [one_div_one_div]
    field_simp
    ring
  rw [e, abs_neg, abs_mul, abs_div, abs_of_pos hc]
  exact mul_le_mul_of_nonneg_left h2 (by positivity)

/-- C66 for smooth indices, dispersion: `calculate_D_ps_nm_km` is `+(wl/c)·d²n/dwl²` in ps/nm/km up to the error of the stencil. -/
theorem C66_dispersion_smooth {fn : ℝ → ℝ} {a b wl M : ℝ} (hf : ContDiffOn ℝ 11 fn (Ioo a b)) (hM : ∀ y ∈ Ioo a b, |iteratedDeriv 11 fn y| ≤ M)
    (ha : a < wl - 0.5) (hb : wl + 0.5 < b) :
    |dispersionD fn wl - wl / cNmPs * iteratedDeriv 2 fn wl * 1e12| ≤ |wl| / cNmPs * (2.2 * M) := by
  have hM0 : 0 ≤ M := (abs_nonneg _).trans (hM wl ⟨by linarith, by linarith⟩)
  have h := stencil_error (d := 2) (w := weights2) (by norm_num) (fun j hj => by simpa using (weights_moments j hj).2) hf hM
    (x := wl) (dx := 0.1) (by linarith) (by linarith) (by norm_num)
  have h2 : |derivative weights2 2 fn wl 0.1 - iteratedDeriv 2 fn wl| ≤ 2.2e-12 * M := by
    refine h.trans ?_
    have := mul_le_mul_of_nonneg_right weights2_size hM0
    calc _ ≤ 0.0022 * M * 0.1 ^ (11 - 2) := mul_le_mul_of_nonneg_right this (by positivity)
      _ = 2.2e-12 * M := by norm_num; ring
  have hc : 0 < cNmPs := by norm_num [cNmPs, cMks]
  have e : dispersionD fn wl - wl / cNmPs * iteratedDeriv 2 fn wl * 1e12 = wl / cNmPs * ((derivative weights2 2 fn wl 0.1 - iteratedDeriv 2 fn wl) * 1e12) := by
    unfold dispersionD
    ring
  rw [e, abs_mul, abs_div, abs_of_pos hc, abs_mul, abs_of_pos (by norm_num : (0 : ℝ) < 1e12)]
  refine mul_le_mul_of_nonneg_left ?_ (by positivity)
  calc _ ≤ 2.2e-12 * M * 1e12 := mul_le_mul_of_nonneg_right h2 (by norm_num)
    _ = 2.2 * M := by norm_num; ring

/-- C66 for smooth indices, sign: the code's D, per ps/nm/nm, plus the derivative of the inverse group velocity `(n - wl·dn/dwl)/c` is zero up to the
error of the stencil, so it is minus that derivative. -/
theorem C66_sign_smooth {fn : ℝ → ℝ} {a b wl M : ℝ} (hf : ContDiffOn ℝ 11 fn (Ioo a b)) (hM : ∀ y ∈ Ioo a b, |iteratedDeriv 11 fn y| ≤ M)
    (ha : a < wl - 0.5) (hb : wl + 0.5 < b) :
    ∃ s, HasDerivAt (fun l => (fn l - l * deriv fn l) / cNmPs) s wl ∧ |dispersionD fn wl / 1e12 + s| ≤ |wl| / cNmPs * (2.2e-12 * M) := by
  have hat : ContDiffAt ℝ 11 fn wl := hf.contDiffAt (isOpen_Ioo.mem_nhds ⟨by linarith, by linarith⟩)
  have h1 : HasDerivAt fn (deriv fn wl) wl := (hat.differentiableAt (by norm_num)).hasDerivAt
  have h2 : HasDerivAt (deriv fn) (iteratedDeriv 2 fn wl) wl := by
    have hd : ContDiffAt ℝ 1 (deriv fn) wl :=
      (hf.deriv_of_isOpen isOpen_Ioo (m := 1) (by norm_num)).contDiffAt (isOpen_Ioo.mem_nhds ⟨by linarith, by linarith⟩)
    rw [iteratedDeriv_succ, iteratedDeriv_one]
    exact (hd.differentiableAt (by norm_num)).hasDerivAt
  refine ⟨_, (h1.sub ((hasDerivAt_id wl).mul h2)).div_const cNmPs, ?_⟩
  have d := C66_dispersion_smooth hf hM ha hb
  have e : dispersionD fn wl / 1e12 + (deriv fn wl - (1 * deriv fn wl + id wl * iteratedDeriv 2 fn wl)) / cNmPs =
      (dispersionD fn wl - wl / cNmPs * iteratedDeriv 2 fn wl * 1e12) / 1e12 := by
    simp only [id]
    ring
  rw [e, abs_div, abs_of_pos (by norm_num : (0 : ℝ) < 1e12), div_le_iff₀ (by norm_num)]
  refine d.trans (le_of_eq ?_)
  norm_num
  ring

/-! ## The index of PPLN -/

/-- derivatives along the real axis of a holomorphic function -/
theorem iteratedDeriv_re {g : ℂ → ℂ} {U : Set ℂ} (hU : IsOpen U) (hg : DifferentiableOn ℂ g U) (n : ℕ) {x : ℝ} (hx : (x : ℂ) ∈ U) :
    iteratedDeriv n (fun y : ℝ => (g y).re) x = (iteratedDeriv n g x).re := by
  induction n generalizing x with
  | zero => simp
  | succ n ih =>
    rw [iteratedDeriv_succ, iteratedDeriv_succ]
    have hV : IsOpen ((fun y : ℝ => (y : ℂ)) ⁻¹' U) := hU.preimage Complex.continuous_ofReal
    have he : iteratedDeriv n (fun y : ℝ => (g y).re) =ᶠ[nhds x] fun y : ℝ => (iteratedDeriv n g y).re :=
      Filter.eventually_of_mem (hV.mem_nhds hx) fun y hy => ih hy
    rw [he.deriv_eq]
    have ha : AnalyticAt ℂ g x := hg.analyticAt (hU.mem_nhds hx)
    have hd : DifferentiableAt ℂ (iteratedDeriv n g) x := by
      rw [iteratedDeriv_eq_iterate]
      exact (ha.iterated_deriv n).differentiableAt
    exact hd.hasDerivAt.real_of_complex.deriv

/-- the square of the index for complex wavelengths -/
noncomputable def Sell.nSqC (s : Sell) (T : ℝ) (w : ℂ) : ℂ :=
  let z := (w * (1e-3 : ℝ)) ^ 2
  (s.a1 + s.b1 * tempF T : ℝ) + (s.a2 + s.b2 * tempF T : ℝ) / (z - ((s.a3 + s.b3 * tempF T) ^ 2 : ℝ)) + (s.a4 + s.b4 * tempF T : ℝ) / (z - (s.a5 ^ 2 : ℝ))
    - (s.a6 + s.b5 * tempF T : ℝ) * z

theorem Sell.nSqC_real (s : Sell) (T w : ℝ) : s.nSqC T w = (s.nSq T w : ℝ) := by
  unfold Sell.nSqC Sell.nSq
  push_cast
  ring

/-- a strip around the wavelengths where the Sellmeier equations hold -/
def strip : Set ℂ := {w | 448 < w.re ∧ w.re < 4952 ∧ -51 < w.im ∧ w.im < 51}

theorem strip_open : IsOpen strip := by
  unfold strip
  exact (isOpen_lt continuous_const Complex.continuous_re).inter ((isOpen_lt Complex.continuous_re continuous_const).inter
    ((isOpen_lt continuous_const Complex.continuous_im).inter (isOpen_lt Complex.continuous_im continuous_const)))

theorem strip_sq {w : ℂ} (h : w ∈ strip) : 0.19 ≤ ((w * (1e-3 : ℝ)) ^ 2).re ∧ ((w * (1e-3 : ℝ)) ^ 2).re ≤ 24.6 ∧ ‖(w * (1e-3 : ℝ)) ^ 2‖ ≤ 24.6 := by
  obtain ⟨h1, h2, h3, h4⟩ := h
  have e : ((w * (1e-3 : ℝ)) ^ 2).re = (w.re ^ 2 - w.im ^ 2) * 1e-6 := by
    rw [pow_two, Complex.mul_re, Complex.re_mul_ofReal, Complex.im_mul_ofReal]
    norm_num
    ring
  have e2 : ‖(w * (1e-3 : ℝ)) ^ 2‖ = (w.re ^ 2 + w.im ^ 2) * 1e-6 := by
    rw [norm_pow, norm_mul, mul_pow, Complex.sq_norm, Complex.normSq_apply, Complex.norm_real]
    norm_num
    ring
  have hi : w.im ^ 2 ≤ 2601 := by nlinarith
  have hi0 : 0 ≤ w.im ^ 2 := sq_nonneg _
  have hr : w.re ^ 2 ≤ 24522304 := by nlinarith
  have hr0 : 200704 ≤ w.re ^ 2 := by nlinarith
  rw [e, e2]
  norm_num
  refine ⟨?_, ?_, ?_⟩ <;> linarith

/-- the Sellmeier equation in the strip -/
theorem sell_complex {A1 A2 A4 A6 q p : ℝ} {z : ℂ} (hz : 0.19 ≤ z.re) (hz1 : z.re ≤ 24.6) (hz2 : ‖z‖ ≤ 24.6) (h1 : 5.3 ≤ A1) (h1' : A1 ≤ 6.4)
    (h2 : 0 ≤ A2) (h2' : A2 ≤ 0.11) (hq : q ≤ 0.0456) (h4 : 0 ≤ A4) (h4' : A4 ≤ 1.67 * (p - 24.6)) (hp : 24.6 < p) (h6 : 0 ≤ A6) (h6' : A6 ≤ 0.0157) :
    z - (q : ℝ) ≠ 0 ∧ z - (p : ℝ) ≠ 0 ∧ 0 < ((A1 : ℝ) + (A2 : ℝ) / (z - (q : ℝ)) + (A4 : ℝ) / (z - (p : ℝ)) - (A6 : ℝ) * z).re ∧
      ‖(A1 : ℝ) + (A2 : ℝ) / (z - (q : ℝ)) + (A4 : ℝ) / (z - (p : ℝ)) - (A6 : ℝ) * z‖ ≤ 10 := by
  have hqr : 0.144 ≤ (z - (q : ℝ)).re := by
    rw [Complex.sub_re, Complex.ofReal_re]
    norm_num at *
    linarith
  have hpr : p - 24.6 ≤ -(z - (p : ℝ)).re := by
    rw [Complex.sub_re, Complex.ofReal_re]
    norm_num at *
    linarith
  have nq : 0.144 ≤ ‖z - (q : ℝ)‖ := hqr.trans (Complex.re_le_norm _)
  have np : p - 24.6 ≤ ‖z - (p : ℝ)‖ := hpr.trans ((neg_le_abs _).trans (Complex.abs_re_le_norm _))
  have pq : 0 < ‖z - (q : ℝ)‖ := lt_of_lt_of_le (by norm_num) nq
  have pp : 0 < ‖z - (p : ℝ)‖ := lt_of_lt_of_le (sub_pos.2 hp) np
  have b2 : ‖(A2 : ℂ) / (z - (q : ℝ))‖ ≤ 0.77 := by
    rw [norm_div, Complex.norm_real, Real.norm_of_nonneg h2, div_le_iff₀ pq]
    norm_num at *
    linarith
  have b4 : ‖(A4 : ℂ) / (z - (p : ℝ))‖ ≤ 1.67 := by
    rw [norm_div, Complex.norm_real, Real.norm_of_nonneg h4, div_le_iff₀ pp]
    exact h4'.trans (mul_le_mul_of_nonneg_left np (by norm_num))
  have b6 : ‖(A6 : ℂ) * z‖ ≤ 0.4 := by
    rw [norm_mul, Complex.norm_real, Real.norm_of_nonneg h6]
    calc A6 * ‖z‖ ≤ 0.0157 * 24.6 := mul_le_mul h6' hz2 (norm_nonneg _) (by norm_num)
      _ ≤ 0.4 := by norm_num
  refine ⟨norm_pos_iff.1 pq, norm_pos_iff.1 pp, ?_, ?_⟩
  · rw [Complex.sub_re, Complex.add_re, Complex.add_re, Complex.ofReal_re]
    have r2 := (abs_le.1 ((Complex.abs_re_le_norm _).trans b2)).1
    have r4 := (abs_le.1 ((Complex.abs_re_le_norm _).trans b4)).1
    have r6 := (abs_le.1 ((Complex.abs_re_le_norm _).trans b6)).2
    norm_num at *
    linarith
  · refine (norm_sub_le _ _).trans ?_
    refine (add_le_add (norm_add₃_le.trans (add_le_add (add_le_add le_rfl b2) b4)) b6).trans ?_
    rw [Complex.norm_real, Real.norm_of_nonneg (le_trans (by norm_num) h1)]
    norm_num at *
    linarith

theorem source_complex (src : Source) {T : ℝ} (hT : 20 ≤ T) (hT' : T ≤ 250) {w : ℂ} (hw : w ∈ strip) :
    (w * (1e-3 : ℝ)) ^ 2 - ((src.sell.a3 + src.sell.b3 * tempF T) ^ 2 : ℝ) ≠ 0 ∧ (w * (1e-3 : ℝ)) ^ 2 - (src.sell.a5 ^ 2 : ℝ) ≠ 0 ∧
      0 < (src.sell.nSqC T w).re ∧ ‖src.sell.nSqC T w‖ ≤ 10 := by
  obtain ⟨z1, z2, z3⟩ := strip_sq hw
  obtain ⟨f1, f2⟩ := tempF_bounds hT hT'
  unfold Sell.nSqC
  generalize (w * (1e-3 : ℝ)) ^ 2 = z at *
  generalize tempF T = f at *
  cases src with
  | Deng =>
    apply sell_complex z1 z2 z3 <;> simp only [Source.sell, deng] <;> norm_num at * <;> nlinarith
  | Gayer_5pctMg =>
    apply sell_complex z1 z2 z3 <;> simp only [Source.sell, gayer] <;> norm_num at * <;> nlinarith

/-- the index for complex wavelengths -/
noncomputable def Source.indexC (src : Source) (T : ℝ) (w : ℂ) : ℂ := src.sell.nSqC T w ^ ((1 / 2 : ℝ) : ℂ)

theorem Source.indexC_diff (src : Source) {T : ℝ} (hT : 20 ≤ T) (hT' : T ≤ 250) : DifferentiableOn ℂ (src.indexC T) strip := by
  intro w hw
  obtain ⟨n1, n2, n3, _⟩ := source_complex src hT hT' hw
  refine DifferentiableAt.differentiableWithinAt ?_
  have hd : DifferentiableAt ℂ (src.sell.nSqC T) w := by
    unfold Sell.nSqC
    have hz : DifferentiableAt ℂ (fun w : ℂ => (w * (1e-3 : ℝ)) ^ 2) w := by fun_prop
    exact (((differentiableAt_const _).add ((differentiableAt_const _).div (hz.sub_const _) n1)).add
      ((differentiableAt_const _).div (hz.sub_const _) n2)).sub ((differentiableAt_const _).mul hz)
  exact hd.cpow_const (Or.inl n3)

theorem Source.indexC_norm (src : Source) {T : ℝ} (hT : 20 ≤ T) (hT' : T ≤ 250) {w : ℂ} (hw : w ∈ strip) : ‖src.indexC T w‖ ≤ 3.2 := by
  obtain ⟨-, -, -, h⟩ := source_complex src hT hT' hw
  unfold Source.indexC
  rw [Complex.norm_cpow_real, ← Real.sqrt_eq_rpow]
  exact Real.sqrt_le_iff.2 ⟨by norm_num, h.trans (by norm_num)⟩

theorem Source.indexC_real (src : Source) {T : ℝ} (hT : 20 ≤ T) (hT' : T ≤ 250) {w : ℝ} (hw : (w : ℂ) ∈ strip) :
    (src.indexC T w).re = √(src.sell.nSq T w) := by
  obtain ⟨-, -, h, -⟩ := source_complex src hT hT' hw
  unfold Source.indexC
  rw [Sell.nSqC_real] at h ⊢
  rw [Complex.ofReal_re] at h
  rw [← Complex.ofReal_cpow h.le, Complex.ofReal_re, Real.sqrt_eq_rpow]

/-- the index of PPLN is smooth, with a small eleventh derivative -/
theorem ppln_smooth (src : Source) {T : ℝ} (hT : 20 ≤ T) (hT' : T ≤ 250) :
    ContDiffOn ℝ 11 (fun w => √(src.sell.nSq T w)) (Ioo 499 4901) ∧ ∀ y ∈ Ioo (499 : ℝ) 4901, |iteratedDeriv 11 (fun w => √(src.sell.nSq T w)) y| ≤ 2.7e-11 := by
  have hmem : ∀ y ∈ Ioo (499 : ℝ) 4901, ∀ w ∈ Metric.closedBall (y : ℂ) 50, w ∈ strip := by
    intro y hy w hw
    rw [Metric.mem_closedBall, Complex.dist_eq] at hw
    have hr := abs_le.1 ((Complex.abs_re_le_norm _).trans hw)
    have hi := abs_le.1 ((Complex.abs_im_le_norm _).trans hw)
    rw [Complex.sub_re, Complex.ofReal_re] at hr
    rw [Complex.sub_im, Complex.ofReal_im] at hi
    exact ⟨by linarith [hy.1], by linarith [hy.2], by linarith, by linarith⟩
  have hself : ∀ y ∈ Ioo (499 : ℝ) 4901, (y : ℂ) ∈ strip := fun y hy => hmem y hy _ (Metric.mem_closedBall_self (by norm_num))
  have hV : IsOpen ((fun y : ℝ => (y : ℂ)) ⁻¹' strip) := strip_open.preimage Complex.continuous_ofReal
  have hd := src.indexC_diff hT hT'
  constructor
  · refine ContDiffOn.congr (f := fun y : ℝ => (src.indexC T y).re) ?_ fun y hy => (src.indexC_real hT hT' (hself y hy)).symm
    intro y hy
    exact ((hd.analyticAt (strip_open.mem_nhds (hself y hy))).contDiffAt (n := 11)).real_of_complex.contDiffWithinAt
  · intro y hy
    have he : (fun w => √(src.sell.nSq T w)) =ᶠ[nhds y] fun w : ℝ => (src.indexC T w).re :=
      Filter.eventually_of_mem (hV.mem_nhds (hself y hy)) fun w hw => (src.indexC_real hT hT' hw).symm
    rw [he.iteratedDeriv_eq 11, iteratedDeriv_re strip_open hd 11 (hself y hy)]
    refine (Complex.abs_re_le_norm _).trans ?_
    have hc : DiffContOnCl ℂ (src.indexC T) (Metric.ball (y : ℂ) 50) := by
      refine DifferentiableOn.diffContOnCl ?_
      rw [closure_ball _ (by norm_num)]
      exact hd.mono fun w hw => hmem y hy w hw
    refine (Complex.norm_iteratedDeriv_le_of_forall_mem_sphere_norm_le 11 (by norm_num) hc fun w hw =>
      src.indexC_norm hT hT' (hmem y hy w (Metric.sphere_subset_closedBall hw))).trans ?_
    norm_num [Nat.factorial]

/-- C66 for PPLN: between 0.5 and 4.9 micrometres the group velocity and the dispersion that the stencils give are those of the Sellmeier
equation: the group index to 1e-19 and the dispersion, with the sign of `C66_sign_refuted`, to 1e-11 ps/nm/km. -/
theorem C66_ppln (src : Source) {T wl : ℝ} (hT : 20 ≤ T) (hT' : T ≤ 250) (h1 : 500 ≤ wl) (h2 : wl ≤ 4900) :
    let n := fun w => √(src.sell.nSq T w)
    (PPLN.load T src).n wl = .val (n wl) ∧ |cNmPs / groupVelocity n wl - (n wl - wl * deriv n wl)| ≤ 1e-19 ∧
      |dispersionD n wl - wl / cNmPs * iteratedDeriv 2 n wl * 1e12| ≤ 1e-11 := by
  intro n
  obtain ⟨hs, hM⟩ := ppln_smooth src hT hT'
  have g := C66_group_velocity_smooth hs hM (wl := wl) (by norm_num; linarith) (by norm_num; linarith)
  have d := C66_dispersion_smooth hs hM (wl := wl) (by norm_num; linarith) (by norm_num; linarith)
  have hc : cNmPs = 299792.458 := by norm_num [cNmPs, cMks]
  have hc0 : 0 < cNmPs := by rw [hc]; norm_num
  rw [abs_of_nonneg (by linarith : (0 : ℝ) ≤ wl)] at g d
  refine ⟨?_, ?_, ?_⟩
  · cases src with
    | Deng =>
      obtain ⟨e1, e2, e3, e4⟩ := deng_bounds hT hT' (by linarith : 400 ≤ wl) (by linarith)
      exact Sell.n_of (le_of_lt (lt_of_le_of_lt (by norm_num) e1)) e3 e4
    | Gayer_5pctMg =>
      obtain ⟨e1, e2, e3, e4⟩ := gayer_bounds hT hT' (by linarith : 400 ≤ wl) (by linarith)
      exact Sell.n_of (le_of_lt (lt_of_le_of_lt (by norm_num) e1)) e3 e4
  · have e : cNmPs / groupVelocity n wl - (n wl - wl * deriv n wl) = cNmPs * (1 / groupVelocity n wl - (n wl - wl * deriv n wl) / cNmPs) := by
      field_simp
    rw [e, abs_mul, abs_of_pos hc0]
    calc _ ≤ cNmPs * (wl / cNmPs * (4.6e-13 * 2.7e-11)) := mul_le_mul_of_nonneg_left g hc0.le
      _ = wl * (4.6e-13 * 2.7e-11) := by field_simp
      _ ≤ 4900 * (4.6e-13 * 2.7e-11) := mul_le_mul_of_nonneg_right h2 (by norm_num)
      _ ≤ 1e-19 := by norm_num
  · refine d.trans ?_
    calc wl / cNmPs * (2.2 * 2.7e-11) ≤ 4900 / cNmPs * (2.2 * 2.7e-11) := by gcongr
      _ ≤ 1e-11 := by rw [hc]; norm_num

/-- C66: the hypotheses hold at 1550 nm and room temperature. -/
theorem C66_ppln_nonvacuous : |cNmPs / groupVelocity (fun w => √(gayer.nSq 25 w)) 1550 -
    (√(gayer.nSq 25 1550) - 1550 * deriv (fun w => √(gayer.nSq 25 w)) 1550)| ≤ 1e-19 :=
  (C66_ppln .Gayer_5pctMg (T := 25) (wl := 1550) (by norm_num) (by norm_num) (by norm_num) (by norm_num)).2.1

end PyNLO.Xtal
