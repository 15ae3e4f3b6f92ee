import Verif.Lemmas.Centroid
import Verif.Lemmas.Drag
import Verif.Props.Resume
import Verif.Props.Interpolate
import Mathlib.Analysis.Calculus.MeanValue
import Mathlib.Analysis.SpecialFunctions.Exp

/-!
# C139: the Raman response moves pulses to lower frequencies
-/

namespace PyNLO

open Complex Set Polynomial Ssfm Pulse Nlse Alias

/-! ## The partial differential equation -/

theorem power_contDiff {u : ℝ → ℝ → ℂ} (hu : ContDiff ℝ (⊤ : ℕ∞) fun q : ℝ × ℝ => u q.1 q.2) (z : ℝ) : ContDiff ℝ (⊤ : ℕ∞) fun t => ‖u z t‖ ^ 2 :=
  (slice_contDiff hu z).norm_sq ℝ

theorem power_periodic {u : ℝ → ℝ → ℂ} {T : ℝ} (hp : ∀ z, Function.Periodic (u z) T) (z : ℝ) : Function.Periodic (fun t => ‖u z t‖ ^ 2) T := fun t => by
  simp only [hp z t]

/-- a periodic function does no work on itself -/
theorem no_work {x : ℝ → ℝ} (hx : ContDiff ℝ (⊤ : ℕ∞) x) {T : ℝ} (px : Function.Periodic x T) : ∫ t in (0 : ℝ)..T, x t * _root_.deriv x t = 0 := by
  have hd : ∀ t, HasDerivAt (fun t => x t ^ 2 / 2) (x t * _root_.deriv x t) t := fun t => by
    have := (((hx.differentiable (by simp)) t).hasDerivAt.pow 2).div_const 2
    refine this.congr_deriv ?_
    simp
    ring
  have c : Continuous fun t => x t * _root_.deriv x t := hx.continuous.mul (hx.continuous_deriv (by exact_mod_cast le_top))
  rw [intervalIntegral.integral_eq_sub_of_hasDerivAt (fun t _ => hd t) (c.intervalIntegrable _ _)]
  have : x T = x 0 := by have := px 0; rwa [zero_add] at this
  rw [this, sub_self]

/-- C139: along a solution the energy follows the gain, and the power-weighted frequency follows the gain and loses `γ·f/A` times the work of the
delayed response; dispersion of every order, the instantaneous response and the carrier drop out. -/
theorem C139_law {b : ℝ[X]} {g γ fR : ℝ} {h : ℝ → ℝ} (hh : Continuous h) {T L : ℝ} {u : ℝ → ℝ → ℂ} (hu : Solution b g γ fR h T L u) {z : ℝ} (h0 : 0 ≤ z) (hz : z ≤ L) :
    HasDerivAt (fun z => energy T (u z)) (g * energy T (u z)) z ∧
    HasDerivAt (fun z => momentum T (u z))
      (g * momentum T (u z) - γ * (fR / (∫ s in (0 : ℝ)..T / 2, h s) * drag h (T / 2) T fun t => ‖u z t‖ ^ 2)) z := by
  set x : ℝ → ℝ := fun t => ‖u z t‖ ^ 2 with hx
  set A := ∫ s in (0 : ℝ)..T / 2, h s with hA
  have cx : ContDiff ℝ (⊤ : ℕ∞) x := power_contDiff hu.smooth z
  have px : Function.Periodic x T := power_periodic hu.periodic z
  have cm := memory_smooth hh (T / 2) cx
  have eq : response fR h T x = fun t => (1 - fR) * x t + fR / A * memory h (T / 2) x t := by
    funext t
    unfold response memory
    rw [← hA]
    ring
  have cq : ContDiff ℝ (⊤ : ℕ∞) (response fR h T x) := by
    rw [eq]
    exact (contDiff_const.mul cx).add (contDiff_const.mul cm)
  have pq : Function.Periodic (response fR h T x) T := fun t => by
    rw [eq]
    simp only [px t, memory_periodic h (T / 2) px t]
  have he : ∀ t, dz u z t = dispersion b (u z) t + g / 2 * u z t + I * γ * u z t * (response fR h T x t : ℝ) := fun t => (hu.equation z h0 hz t).deriv
  refine ⟨energy_law hu.smooth hu.periodic cq.continuous he, ?_⟩
  have hm := momentum_law hu.smooth hu.periodic cq pq he
  refine hm.congr_deriv ?_
  have ed : ∀ t, _root_.deriv (response fR h T x) t = (1 - fR) * _root_.deriv x t + fR / A * _root_.deriv (memory h (T / 2) x) t := fun t => by
    rw [eq]
    have a1 := (((cx.differentiable (by simp)) t).hasDerivAt.const_mul (1 - fR))
    have a2 := (((cm.differentiable (by simp)) t).hasDerivAt.const_mul (fR / A))
    exact (a1.add a2).deriv
  have c1 : Continuous fun t => x t * _root_.deriv x t := cx.continuous.mul (cx.continuous_deriv (by exact_mod_cast le_top))
  have c2 : Continuous fun t => x t * _root_.deriv (memory h (T / 2) x) t := cx.continuous.mul (cm.continuous_deriv (by exact_mod_cast le_top))
  have ei : ∫ t in (0 : ℝ)..T, ‖u z t‖ ^ 2 * _root_.deriv (response fR h T x) t = fR / A * drag h (T / 2) T x := by
    have e1 : ∀ t, ‖u z t‖ ^ 2 * _root_.deriv (response fR h T x) t = (1 - fR) * (x t * _root_.deriv x t) + fR / A * (x t * _root_.deriv (memory h (T / 2) x) t) := fun t => by
      rw [ed]
      show x t * _ = _
      ring
    simp only [e1]
    rw [lin_int c1 c2, no_work cx px, drag_eq]
    ring
  rw [ei]

/-- C139: the energy after the distance `z`. -/
theorem C139_energy {b : ℝ[X]} {g γ fR : ℝ} {h : ℝ → ℝ} (hh : Continuous h) {T L : ℝ} {u : ℝ → ℝ → ℂ} (hu : Solution b g γ fR h T L u) {z : ℝ} (hz : z ∈ Icc 0 L) :
    energy T (u z) = energy T (u 0) * Real.exp (g * z) := by
  have hE : ∀ z ∈ Icc 0 L, HasDerivAt (fun z => energy T (u z) * Real.exp (-(g * z))) 0 z := fun z hz => by
    have h1 := (C139_law hh hu hz.1 hz.2).1
    have h2 : HasDerivAt (fun z => Real.exp (-(g * z))) (Real.exp (-(g * z)) * -g) z := by
      have := ((hasDerivAt_id z).const_mul g).neg.exp
      simpa using this
    exact (h1.mul h2).congr_deriv (by ring)
  have hc := constant_of_has_deriv_right_zero (f := fun z => energy T (u z) * Real.exp (-(g * z))) (a := 0) (b := L)
    (fun z hz => (hE z hz).continuousAt.continuousWithinAt) (fun z hz => (hE z ⟨hz.1, hz.2.le⟩).hasDerivWithinAt) z hz
  simp only [mul_zero, neg_zero, Real.exp_zero, mul_one] at hc
  rw [← hc, mul_assoc, ← Real.exp_add]
  simp

/-- the derivative of the mean frequency -/
theorem mean_hasDerivAt {b : ℝ[X]} {g γ fR : ℝ} {h : ℝ → ℝ} (hh : Continuous h) {T L : ℝ} {u : ℝ → ℝ → ℂ} (hu : Solution b g γ fR h T L u) (hE : 0 < energy T (u 0))
    {z : ℝ} (hz : z ∈ Icc 0 L) : HasDerivAt (fun z => meanFrequency T (u z))
      (-(γ * (fR / (∫ s in (0 : ℝ)..T / 2, h s) * drag h (T / 2) T fun t => ‖u z t‖ ^ 2)) / energy T (u z)) z := by
  obtain ⟨h1, h2⟩ := C139_law hh hu hz.1 hz.2
  have hpos : 0 < energy T (u z) := by rw [C139_energy hh hu hz]; positivity
  refine (h2.div h1 hpos.ne').congr_deriv ?_
  field_simp
  ring

/-- C139: without delayed response the mean frequency is conserved, whatever the dispersion, the gain and the nonlinearity. -/
theorem C139_kerr {b : ℝ[X]} {g γ : ℝ} {h : ℝ → ℝ} (hh : Continuous h) {T L : ℝ} {u : ℝ → ℝ → ℂ} (hu : Solution b g γ 0 h T L u) (hE : 0 < energy T (u 0))
    {z : ℝ} (hz : z ∈ Icc 0 L) : meanFrequency T (u z) = meanFrequency T (u 0) := by
  have hd : ∀ z ∈ Icc 0 L, HasDerivAt (fun z => meanFrequency T (u z)) 0 z := fun z hz => (mean_hasDerivAt hh hu hE hz).congr_deriv (by simp)
  exact constant_of_has_deriv_right_zero (f := fun z => meanFrequency T (u z)) (a := 0) (b := L)
    (fun z hz => (hd z hz).continuousAt.continuousWithinAt) (fun z hz => (hd z ⟨hz.1, hz.2.le⟩).hasDerivWithinAt) z hz

/-- what cutting the memory at half the window can cost, for a power below `S0` with a slope below `S1` -/
noncomputable def leak (o : Obj) (T S0 S1 : ℝ) : ℝ :=
  (if o.simpleRaman then (o.tau1 ^ 2 + o.tau2 ^ 2) / (o.tau1 * o.tau2 ^ 2) else (0.75 + 0.04) * (o.tau1 / (o.tau1 ^ 2 + o.tau2 ^ 2))) *
      leakSine (1 / o.tau2) (1 / o.tau1) (T / 2) T S0 S1 +
    (if o.simpleRaman then 0 else 0.21) * leakBoson (1 / 0.096) (T / 2) T S0 S1

theorem leak_nonneg {o : Obj} (h1 : 0 < o.tau1) (h2 : 0 < o.tau2) {T S0 S1 : ℝ} (hT : 0 ≤ T) (hS0 : 0 ≤ S0) (hS1 : 0 ≤ S1) : 0 ≤ leak o T S0 S1 := by
  unfold leak leakSine leakBoson
  split_ifs <;> positivity

/-- The delayed response of the solver takes energy out of the carrier, up to the part that is cut off. -/
theorem drag_kernel {o : Obj} (h1 : 0 < o.tau1) (h2 : 0 < o.tau2) {T S0 S1 : ℝ} (hT : 0 ≤ T) {x : ℝ → ℝ} (hx : ContDiff ℝ (⊤ : ℕ∞) x) (px : Function.Periodic x T)
    (b0 : ∀ t, |x t| ≤ S0) (b1 : ∀ t, |_root_.deriv x t| ≤ S1) : -leak o T S0 S1 ≤ drag (kernelFun o) (T / 2) T x := by
  set c1 : ℝ := if o.simpleRaman then (o.tau1 ^ 2 + o.tau2 ^ 2) / (o.tau1 * o.tau2 ^ 2) else (0.75 + 0.04) * (o.tau1 / (o.tau1 ^ 2 + o.tau2 ^ 2)) with hc1
  set c2 : ℝ := if o.simpleRaman then 0 else 0.21 with hc2
  have p1 : 0 ≤ c1 := by rw [hc1]; split_ifs <;> positivity
  have p2 : 0 ≤ c2 := by rw [hc2]; split_ifs <;> norm_num
  set α : ℝ := 1 / o.tau2 with hα
  set β : ℝ := 1 / o.tau1 with hβ
  set μ : ℝ := 1 / 0.096 with hμ
  have ek : kernelFun o = fun s => c1 * (Real.exp (-(α * s)) * Real.sin (β * s)) + c2 * (2 * μ * Real.exp (-(μ * s)) + -μ ^ 2 * (s * Real.exp (-(μ * s)))) := by
    funext s
    have e1 : -s / o.tau2 = -(α * s) := by rw [hα]; ring
    have e2 : s / o.tau1 = β * s := by rw [hβ]; ring
    have e3 : -s / 0.096 = -(μ * s) := by rw [hμ]; ring
    unfold kernelFun
    rw [hc1, hc2]
    split_ifs
    · unfold ramanSimple
      rw [e1, e2]
      ring
    · unfold ramanLin
      rw [e1, e2, e3, hμ]
      ring
  have hα0 : 0 < α := by positivity
  have hβ0 : 0 < β := by positivity
  have hμ0 : 0 < μ := by rw [hμ]; norm_num
  rw [ek, drag_add (h := fun s => Real.exp (-(α * s)) * Real.sin (β * s)) (k := fun s => 2 * μ * Real.exp (-(μ * s)) + -μ ^ 2 * (s * Real.exp (-(μ * s))))
    (by fun_prop) (by fun_prop) (T / 2) T hx c1 c2]
  have d1 := drag_sine (X := T / 2) hα0 hβ0 hT hx px b0 b1
  have d2 := drag_boson (X := T / 2) hμ0 (by linarith) hT hx px b0 b1
  have m1 := mul_le_mul_of_nonneg_left d1 p1
  have m2 := mul_le_mul_of_nonneg_left d2 p2
  have el : leak o T S0 S1 = c1 * leakSine α β (T / 2) T S0 S1 + c2 * leakBoson μ (T / 2) T S0 S1 := rfl
  rw [el]
  linarith

/-- the largest rise of the mean angular frequency per metre that the cut allows -/
noncomputable def riseBound (o : Obj) (γ T e S0 S1 : ℝ) : ℝ := γ * (fraction o / ∫ s in (0 : ℝ)..T / 2, kernelFun o s) * leak o T S0 S1 / e

/-- C139: with the delayed response of the solver the mean frequency never rises along the fibre, up to the part of the memory that does not fit into
half the window. -/
theorem C139_redshift {o : Obj} (h1 : 0 < o.tau1) (h2 : 0 < o.tau2) (hf : 0 ≤ fraction o) {b : ℝ[X]} {g γ : ℝ} (hγ : 0 ≤ γ) {T L : ℝ} (hT : 0 < T) {u : ℝ → ℝ → ℂ}
    (hu : Solution b g γ (fraction o) (kernelFun o) T L u) (hE : 0 < energy T (u 0)) {S0 S1 : ℝ} (b0 : ∀ z ∈ Icc 0 L, ∀ t, ‖u z t‖ ^ 2 ≤ S0)
    (b1 : ∀ z ∈ Icc 0 L, ∀ t, |_root_.deriv (fun t => ‖u z t‖ ^ 2) t| ≤ S1) {z1 z2 : ℝ} (hz1 : z1 ∈ Icc 0 L) (hz2 : z2 ∈ Icc 0 L) (hz : z1 ≤ z2) :
    meanFrequency T (u z2) ≤ meanFrequency T (u z1) + riseBound o γ T (energy T (u 0) * Real.exp (-|g| * L)) S0 S1 * (z2 - z1) := by
  have hh := (kernel_contDiff o).continuous
  set A := ∫ s in (0 : ℝ)..T / 2, kernelFun o s with hA
  have hA0 : 0 < A := kernel_area_pos h1 h2 (by positivity)
  set e := energy T (u 0) * Real.exp (-|g| * L) with he
  have he0 : 0 < e := by positivity
  have hS0 : 0 ≤ S0 := (by positivity : (0 : ℝ) ≤ ‖u z1 0‖ ^ 2).trans (b0 z1 hz1 0)
  have hS1 : 0 ≤ S1 := (abs_nonneg _).trans (b1 z1 hz1 0)
  have hl0 := leak_nonneg h1 h2 hT.le hS0 hS1
  have hd := fun z (hz : z ∈ Icc 0 L) => mean_hasDerivAt hh hu hE hz
  have key := (convex_Icc (0 : ℝ) L).image_sub_le_mul_sub_of_deriv_le (f := fun z => meanFrequency T (u z))
    (fun z hz => (hd z hz).continuousAt.continuousWithinAt) (fun z hz => (hd z (interior_subset hz)).differentiableAt.differentiableWithinAt)
    (C := riseBound o γ T e S0 S1) (fun z hz => by
      have hz' := interior_subset hz
      rw [(hd z hz').deriv]
      have hdr := drag_kernel h1 h2 hT.le (power_contDiff hu.smooth z) (power_periodic hu.periodic z)
        (fun t => by rw [abs_of_nonneg (by positivity)]; exact b0 z hz' t) (b1 z hz')
      have hez : e ≤ energy T (u z) := by
        rw [C139_energy hh hu hz', he]
        refine mul_le_mul_of_nonneg_left (Real.exp_le_exp.2 ?_) hE.le
        have i1 : -(|g| * z) ≤ g * z := by
          have := mul_le_mul_of_nonneg_right (neg_abs_le g) hz'.1
          linarith
        have i2 : |g| * z ≤ |g| * L := mul_le_mul_of_nonneg_left hz'.2 (abs_nonneg g)
        linarith
      have hc : 0 ≤ γ * (fraction o / A) := by positivity
      unfold riseBound
      rw [← hA]
      calc -(γ * (fraction o / A * drag (kernelFun o) (T / 2) T fun t => ‖u z t‖ ^ 2)) / energy T (u z)
          ≤ γ * (fraction o / A) * leak o T S0 S1 / energy T (u z) := by
            refine div_le_div_of_nonneg_right ?_ (he0.le.trans hez)
            have := mul_le_mul_of_nonneg_left hdr hc
            linarith
        _ ≤ γ * (fraction o / A) * leak o T S0 S1 / e := div_le_div_of_nonneg_left (mul_nonneg hc hl0) he0 hez) z1 hz1 z2 hz2 hz
  linarith

/-- C139: the part that is cut off vanishes for wide windows. -/
theorem C139_leak {o : Obj} (h1 : 0 < o.tau1) (h2 : 0 < o.tau2) (S0 S1 : ℝ) : Filter.Tendsto (fun T => leak o T S0 S1) Filter.atTop (nhds 0) := by
  have base : ∀ {c : ℝ}, 0 < c → ∀ k : ℕ, Filter.Tendsto (fun T : ℝ => T ^ k * Real.exp (-(c * (T / 2)))) Filter.atTop (nhds 0) := by
    intro c hc k
    have l : Filter.Tendsto (fun T : ℝ => c / 2 * T) Filter.atTop Filter.atTop := Filter.tendsto_id.const_mul_atTop (by positivity)
    have := ((Real.tendsto_pow_mul_exp_neg_atTop_nhds_zero k).comp l).const_mul ((2 / c) ^ k)
    rw [mul_zero] at this
    refine this.congr fun T => ?_
    simp only [Function.comp_apply]
    rw [mul_pow, show -(c / 2 * T) = -(c * (T / 2)) by ring, ← mul_assoc, ← mul_assoc, ← mul_pow, show 2 / c * (c / 2) = 1 by field_simp, one_pow, one_mul]
  have sine : Filter.Tendsto (fun T => leakSine (1 / o.tau2) (1 / o.tau1) (T / 2) T S0 S1) Filter.atTop (nhds 0) := by
    set α := 1 / o.tau2 with hα
    set β := 1 / o.tau1
    have hα0 : 0 < α := by positivity
    have := ((base hα0 0).mul (base hα0 1)).const_mul (β / (8 * α) * (S1 / β + (α / β + 1) * S0) ^ 2)
    simp only [mul_zero] at this
    refine this.congr fun T => ?_
    unfold leakSine
    ring
  have boson : Filter.Tendsto (fun T => leakBoson (1 / 0.096) (T / 2) T S0 S1) Filter.atTop (nhds 0) := by
    set μ : ℝ := 1 / 0.096 with hμ
    have hμ0 : 0 < μ := by rw [hμ]; norm_num
    have t0 := base hμ0 0
    have t1 := base hμ0 1
    have t2 := base hμ0 2
    have w := (t1.mul_const (S1 / 2 + μ / 2 * S0)).add (t0.mul_const S0)
    have w2 := (t2.mul_const (S1 / 2 + μ / 2 * S0)).add (t1.mul_const S0)
    have := ((w.mul w2).const_mul (μ / 2)).add ((w2.mul_const S1).add (t2.mul_const (μ * (S0 * S1))))
    simp only [mul_zero, zero_mul, add_zero] at this
    refine this.congr fun T => ?_
    unfold leakBoson
    ring
  have := (sine.const_mul (if o.simpleRaman then (o.tau1 ^ 2 + o.tau2 ^ 2) / (o.tau1 * o.tau2 ^ 2) else (0.75 + 0.04) * (o.tau1 / (o.tau1 ^ 2 + o.tau2 ^ 2)))).add
    (boson.const_mul (if o.simpleRaman then 0 else 0.21))
  rw [mul_zero, mul_zero, add_zero] at this
  exact this

/-! ## The computed pulses -/

/-- The centroid of samples that approach a smooth field approaches the mean frequency of the field. -/
theorem centroid_limit {f : ℝ → ℂ} (hf : ContDiff ℝ (⊤ : ℕ∞) f) {T : ℝ} (hT : 0 < T) (hp : Function.Periodic f T) (hE : 0 < energy T f) (K : ℝ) :
    ∃ (C : ℝ) (n0 : ℕ), ∀ n : ℕ, n0 ≤ n → 0 < n → n % 2 = 0 → ∀ v : Fin n → ℂ, 1 / (n : ℝ) * ∑ j, ‖v j - f (time T n j)‖ ^ 2 ≤ (K / n) ^ 2 →
      0 < gridEnergy v ∧ |gridMomentum T v / gridEnergy v - meanFrequency T f| ≤ C / n := by
  obtain ⟨C, hC, H⟩ := grid_centroid hf hT hp
  set K' := |K| + 1 with hK'
  have hK0 : 0 < K' := by positivity
  set Q := C + (2 * ((C + 1) * K') + Real.pi / T * K' ^ 2) + (2 * ((C + 1) * K') + K' ^ 2) with hQ
  have hpi := Real.pi_pos
  have hQ0 : 0 < Q := by positivity
  set e := 1 / T * energy T f with he
  set m := 1 / T * momentum T f with hm
  have he0 : 0 < e := by positivity
  refine ⟨2 * (e + |m|) / e ^ 2 * Q, ⌈2 * Q / e⌉₊, fun n hn hn0 hev v hv => ?_⟩
  have hn' : (0 : ℝ) < n := by exact_mod_cast hn0
  obtain ⟨a1, a2, a3, a4⟩ := H n hn0 hev
  have hKn : (K / n) ^ 2 ≤ (K' / n) ^ 2 := by
    rw [div_pow, div_pow]
    refine div_le_div_of_nonneg_right ?_ (by positivity)
    rw [← sq_abs K]
    exact pow_le_pow_left₀ (abs_nonneg _) (by linarith) 2
  obtain ⟨c1, c2⟩ := centroid_close hT hn0 hK0 hC (hv.trans hKn) a3 a4
  have d1 : |gridMomentum T v - m| ≤ Q / n := by
    calc |gridMomentum T v - m| ≤ (2 * ((C + 1) * K') + Real.pi / T * K' ^ 2) / n + C / n := by
          rw [show gridMomentum T v - m = (gridMomentum T v - gridMomentum T fun j : Fin n => f (time T n j)) + ((gridMomentum T fun j : Fin n => f (time T n j)) - m) by ring]
          exact (abs_add_le _ _).trans (add_le_add c1 a1)
      _ = ((2 * ((C + 1) * K') + Real.pi / T * K' ^ 2) + C) / n := by ring
      _ ≤ Q / n := div_le_div_of_nonneg_right (by rw [hQ]; nlinarith [mul_nonneg (by linarith : 0 ≤ C + 1) hK0.le, sq_nonneg K']) hn'.le
  have d2 : |gridEnergy v - e| ≤ Q / n := by
    calc |gridEnergy v - e| ≤ (2 * ((C + 1) * K') + K' ^ 2) / n + C / n := by
          rw [show gridEnergy v - e = (gridEnergy v - gridEnergy fun j : Fin n => f (time T n j)) + ((gridEnergy fun j : Fin n => f (time T n j)) - e) by ring]
          exact (abs_add_le _ _).trans (add_le_add c2 a2)
      _ = ((2 * ((C + 1) * K') + K' ^ 2) + C) / n := by ring
      _ ≤ Q / n := by
          refine div_le_div_of_nonneg_right ?_ hn'.le
          have : 0 ≤ Real.pi / T * K' ^ 2 := by positivity
          rw [hQ]
          nlinarith [mul_nonneg (by linarith : 0 ≤ C + 1) hK0.le]
  have d3 : Q / n ≤ e / 2 := by
    have : 2 * Q / e ≤ n := (Nat.le_ceil _).trans (by exact_mod_cast hn)
    rw [div_le_iff₀ he0] at this
    rw [div_le_iff₀ hn']
    linarith
  refine ⟨by have := (abs_le.1 d2).1; linarith, ?_⟩
  have hq := quotient_close he0 d1 d2 d3
  have em : m / e = meanFrequency T f := by
    rw [hm, he]
    unfold meanFrequency
    field_simp
  rw [em] at hq
  refine hq.trans (le_of_eq ?_)
  ring

/-- the centroid the pulse class reports, in terms of the bins -/
theorem pulse_centroid {strF : ℝ → String} {q q1 : Pulse} {n : ℕ} {v : Fin n → ℂ} (h : Holds q (fftT v)) (hw : W_mks strF q = (.ok (wMks q n), q1))
    (hE : 0 < gridEnergy v) : weightedAvgFrequencyMks strF q = (.ok ((q.cf + gridMomentum q.tw v / gridEnergy v / (2 * Real.pi)) * 10 ^ 12), q1) := by
  have hne : ∃ k, fftT v k ≠ 0 := by
    by_contra hc
    push Not at hc
    unfold gridEnergy at hE
    simp [hc] at hE
  obtain ⟨r, hr, hs, -⟩ := C22_centroid h hne hw
  rw [hr]
  have e : Spec.energy (fftT v) = gridEnergy v := rfl
  rw [e] at hs
  have hpi := Real.pi_pos
  have e2 : ∑ k, ‖fftT v k‖ ^ 2 * ((2 * Real.pi * ((k : ℕ) - (n : ℝ) / 2) / q.tw + 2 * Real.pi * q.cf) * 10 ^ 12 / (2 * Real.pi)) =
      (q.cf * gridEnergy v + gridMomentum q.tw v / (2 * Real.pi)) * 10 ^ 12 := by
    unfold gridEnergy gridMomentum offsetW
    rw [Finset.mul_sum, Finset.sum_div, ← Finset.sum_add_distrib, Finset.sum_mul]
    refine Finset.sum_congr rfl fun k _ => ?_
    field_simp
    ring
  rw [e2] at hs
  congr 2
  refine mul_right_cancel₀ hE.ne' (hs.trans ?_)
  field_simp

/-- the centroid of the returned pulse, in terms of the last stored field -/
theorem out_centroid (strF : ℝ → String) {polyfit : Fiber.PolyFit} {spline : Fiber.Spline} {o o' : Obj} {p : Pulse} {F F' : FibObj} {N : ℕ} {r : Result}
    (h : propagate polyfit spline o p F N false = some (.ok (r, o', F'))) {a : Fin p.n → ℂ} (hp : Holds p a) (he : p.n % 2 = 0) {v : Fin p.n → ℂ}
    (hv : r.AT[N - 1]? = some ⟨p.n, v⟩) (hE : 0 < gridEnergy v) :
    (weightedAvgFrequencyMks strF r.out).1 = .ok ((p.cf + gridMomentum p.tw v / gridEnergy v / (2 * Real.pi)) * 10 ^ 12) := by
  obtain ⟨-, hN, L, fR, P0, P, S, -, -, -, -, -, -, -, hr, -⟩ := propagate_full h hp he
  have hv' : v = ifftshift (S N).A := by
    rw [hr] at hv
    simp only at hv
    rw [List.getElem?_map, List.getElem?_range (by omega)] at hv
    simp only [Option.map_some, Option.some.injEq, Vec.mk.injEq, heq_eq_eq, true_and] at hv
    rw [← hv, Nat.sub_add_cancel hN]
  have hout : r.out = outPulse p (fftT v) := by rw [hr, hv']
  have hold : Holds (outPulse p (fftT v)) (fftT v) := ⟨rfl, rfl, hp.pos, rfl⟩
  have hw := W_mks_miss (strF := strF) (p := outPulse p (fftT v)) rfl (by simp [outPulse, Pulse.init, Pulse.blank])
  rw [wGrid_eq hold] at hw
  rw [hout, pulse_centroid hold hw hE]
  rfl

/-- both centroids of a run, from the convergence of its last field -/
theorem run_centroid {u : ℝ → ℝ → ℂ} (hu : ContDiff ℝ (⊤ : ℕ∞) fun q : ℝ × ℝ => u q.1 q.2) {T L : ℝ} (hT : 0 < T) (hper : ∀ z, Function.Periodic (u z) T)
    (hE0 : 0 < energy T (u 0)) (hEL : 0 < energy T (u L)) (K : ℝ) :
    ∃ (C : ℝ) (n0 : ℕ), ∀ (strF : ℝ → String) (polyfit : Fiber.PolyFit) (spline : Fiber.Spline) (o o' : Obj) (p p1 : Pulse) (F F' : FibObj) (N : ℕ) (r : Result)
      (a : Fin p.n → ℂ) (v : Fin p.n → ℂ), Holds p a → n0 ≤ p.n → p.n % 2 = 0 → p.tw = T → p.AT = .ok ⟨p.n, samples u T p.n 0⟩ →
      W_mks strF p = (.ok (wMks p p.n), p1) → propagate polyfit spline o p F N false = some (.ok (r, o', F')) → r.AT[N - 1]? = some ⟨p.n, v⟩ →
      1 / (p.n : ℝ) * ∑ j, ‖v j - u L (time T p.n j)‖ ^ 2 ≤ (K / p.n) ^ 2 →
      ∃ ν0 ν, (weightedAvgFrequencyMks strF p).1 = .ok (ν0 * 10 ^ 12) ∧ (weightedAvgFrequencyMks strF r.out).1 = .ok (ν * 10 ^ 12) ∧
        |ν0 - (p.cf + meanFrequency T (u 0) / (2 * Real.pi))| ≤ C / p.n ∧ |ν - (p.cf + meanFrequency T (u L) / (2 * Real.pi))| ≤ C / p.n := by
  obtain ⟨C0, m0, H0⟩ := centroid_limit (slice_contDiff hu 0) hT (hper 0) hE0 0
  obtain ⟨C1, m1, H1⟩ := centroid_limit (slice_contDiff hu L) hT (hper L) hEL K
  refine ⟨|C0| + |C1|, max m0 m1, ?_⟩
  intro strF polyfit spline o o' p p1 F F' N r a v hp hn he htw hA hw hr hv hcl
  have hn' : (0 : ℝ) < p.n := by exact_mod_cast hp.pos
  obtain ⟨e0, k0⟩ := H0 p.n ((le_max_left _ _).trans hn) hp.pos he (samples u T p.n 0) (by simp [samples])
  obtain ⟨e1, k1⟩ := H1 p.n ((le_max_right _ _).trans hn) hp.pos he v hcl
  have ha : a = fftT (samples u T p.n 0) := by
    have h1 := hp.AT_eq
    rw [hA] at h1
    have h2 := Except.ok.inj h1
    simp only [Vec.mk.injEq, heq_eq_eq, true_and] at h2
    rw [h2, fftT_ifftT]
  have hp' : Holds p (fftT (samples u T p.n 0)) := by rw [← ha]; exact hp
  have hpi : (1 : ℝ) ≤ 2 * Real.pi := by linarith [Real.pi_gt_three]
  have fin : ∀ x y c C : ℝ, |x - y| ≤ C / p.n → |C| ≤ |C0| + |C1| → |c + x / (2 * Real.pi) - (c + y / (2 * Real.pi))| ≤ (|C0| + |C1|) / p.n := by
    intro x y c C hxy hCC
    rw [show c + x / (2 * Real.pi) - (c + y / (2 * Real.pi)) = (x - y) / (2 * Real.pi) by ring, abs_div, abs_of_pos (by positivity : 0 < 2 * Real.pi)]
    calc |x - y| / (2 * Real.pi) ≤ |x - y| := div_le_self (abs_nonneg _) hpi
      _ ≤ C / p.n := hxy
      _ ≤ _ := div_le_div_of_nonneg_right ((le_abs_self C).trans hCC) hn'.le
  refine ⟨p.cf + gridMomentum p.tw (samples u T p.n 0) / gridEnergy (samples u T p.n 0) / (2 * Real.pi), _, ?_, out_centroid strF hr hp he hv e1, ?_, ?_⟩
  · rw [pulse_centroid hp' hw e0]
  · rw [htw]
    exact fin _ _ _ _ k0 (by linarith [abs_nonneg C1])
  · rw [htw]
    exact fin _ _ _ _ k1 (by linarith [abs_nonneg C0])

/-- C139: the centroid that `calculate_weighted_avg_frequency_mks` reports for the pulse returned by `propagate` with Raman response is at most the centroid
of the input pulse, plus the bound for the cut memory, plus an error of order `1/NPTS`; both centroids are the mean frequencies of the equation up to
this error. -/
theorem C139_computed (o : Obj) (h1 : 0 < o.tau1) (h2 : 0 < o.tau2) (hf : 0 ≤ fraction o) {b : ℝ[X]} {g γ : ℝ} (hγ : 0 ≤ γ) {T L : ℝ} {u : ℝ → ℝ → ℂ}
    (hu : Solution b g γ (fraction o) (kernelFun o) T L u) (hT : 0 < T) (hL : 0 < L) (hE : 0 < energy T (u 0)) {S0 S1 : ℝ}
    (b0 : ∀ z ∈ Icc 0 L, ∀ t, ‖u z t‖ ^ 2 ≤ S0) (b1 : ∀ z ∈ Icc 0 L, ∀ t, |_root_.deriv (fun t => ‖u z t‖ ^ 2) t| ≤ S1)
    (hm : o.method = .rk4ip) (heta : o.eta = 5) (hss : o.disableSS = true) (hram : o.disableRaman = false) (hdz : 0 < o.dz) (hmin : 0 < o.dzMin)
    (hle : 0 < o.localError) :
    ∃ (C : ℝ) (n0 : ℕ), ∀ (strF : ℝ → String) (polyfit : Fiber.PolyFit) (spline : Fiber.Spline) (p p1 : Pulse) (F : FibObj) (f1 : Fiber.Fib) (β : Fin p.n → ℝ)
      (R : Fin p.n → ℂ) (fR : ℝ) (a : Fin p.n → ℂ), Holds p a → n0 ≤ p.n → p.n % 2 = 0 → p.cf ≠ 0 → p.tw = T → p.AT = .ok ⟨p.n, samples u T p.n 0⟩ →
      samples u T p.n 0 ≠ 0 → W_mks strF p = (.ok (wMks p p.n), p1) → Loads polyfit spline o p F f1 β g R γ fR →
      (∀ k, β k = b.eval (2 * Real.pi * ((k : ℕ) - (p.n : ℝ) / 2) / T)) → F.fib.length = some L →
      ∃ N0 : ℕ, ∀ N, N0 ≤ N → ∃ r o' F' ν0 ν, propagate polyfit spline o p F N false = some (.ok (r, o', F')) ∧
        (weightedAvgFrequencyMks strF p).1 = .ok (ν0 * 10 ^ 12) ∧ (weightedAvgFrequencyMks strF r.out).1 = .ok (ν * 10 ^ 12) ∧
        |ν0 - (p.cf + meanFrequency T (u 0) / (2 * Real.pi))| ≤ C / p.n ∧ |ν - (p.cf + meanFrequency T (u L) / (2 * Real.pi))| ≤ C / p.n ∧
        ν ≤ ν0 + riseBound o γ T (energy T (u 0) * Real.exp (-|g| * L)) S0 S1 * L / (2 * Real.pi) + 2 * C / p.n := by
  have hh := (kernel_contDiff o).continuous
  obtain ⟨K, m0, HK⟩ := C133_converges o h1 h2 hu hT hL hm heta hss hram hdz hmin hle
  have hEL : 0 < energy T (u L) := by rw [C139_energy hh hu ⟨hL.le, le_rfl⟩]; positivity
  obtain ⟨C, m1, HC⟩ := run_centroid hu.smooth hT hu.periodic hE hEL K
  refine ⟨C, max m0 m1, ?_⟩
  intro strF polyfit spline p p1 F f1 β R fR a hp hn he hcf htw hA hne hw hl hβ hlen
  obtain ⟨N0, HN⟩ := HK polyfit spline p F f1 β R fR a hp ((le_max_left _ _).trans hn) he hcf htw hA hne hl hβ hlen
  refine ⟨max N0 1, fun N hN => ?_⟩
  have hN1 : 1 ≤ N := (le_max_right _ _).trans hN
  obtain ⟨r, o', F', hr, -, hcol⟩ := HN N ((le_max_left _ _).trans hN)
  obtain ⟨v, hv, herr⟩ := hcol (N - 1) (by omega)
  have ez : (((N - 1 : ℕ) : ℝ) + 1) * (L / N) = L := by
    have : (N : ℝ) ≠ 0 := by positivity
    rw [Nat.cast_sub hN1]
    push_cast
    field_simp
    ring
  rw [ez] at herr
  obtain ⟨ν0, ν, k1, k2, k3, k4⟩ := HC strF polyfit spline o o' p p1 F F' N r a v hp ((le_max_right _ _).trans hn) he htw hA hw hr hv herr
  refine ⟨r, o', F', ν0, ν, hr, k1, k2, k3, k4, ?_⟩
  have hs := C139_redshift h1 h2 hf hγ hT hu hE b0 b1 (z1 := 0) (z2 := L) ⟨le_rfl, hL.le⟩ ⟨hL.le, le_rfl⟩ hL.le
  rw [sub_zero] at hs
  have hs2 := div_le_div_of_nonneg_right hs (by positivity : 0 ≤ 2 * Real.pi)
  rw [add_div] at hs2
  have i3 := (abs_le.1 k3).1
  have i4 := (abs_le.1 k4).2
  have e2 : 2 * C / (p.n : ℝ) = C / p.n + C / p.n := by ring
  rw [e2]
  linarith

/-- C139: without Raman response the centroid of the returned pulse is the centroid of the input pulse, up to an error of order `1/NPTS`. -/
theorem C139_computed_kerr {b : ℝ[X]} {g γ : ℝ} {h : ℝ → ℝ} (hh : Continuous h) {T L : ℝ} {u : ℝ → ℝ → ℂ} (hu : Solution b g γ 0 h T L u) (hT : 0 < T) (hL : 0 < L)
    (hE : 0 < energy T (u 0)) :
    ∃ (C : ℝ) (n0 : ℕ), ∀ (strF : ℝ → String) (polyfit : Fiber.PolyFit) (spline : Fiber.Spline) (o : Obj) (p p1 : Pulse) (F : FibObj) (f1 : Fiber.Fib) (β : Fin p.n → ℝ)
      (R : Fin p.n → ℂ) (fR : ℝ) (a : Fin p.n → ℂ), Holds p a → n0 ≤ p.n → p.n % 2 = 0 → p.cf ≠ 0 → p.tw = T → p.AT = .ok ⟨p.n, samples u T p.n 0⟩ →
      samples u T p.n 0 ≠ 0 → W_mks strF p = (.ok (wMks p p.n), p1) → Loads polyfit spline o p F f1 β g R γ fR →
      (∀ k, β k = b.eval (2 * Real.pi * ((k : ℕ) - (p.n : ℝ) / 2) / T)) → F.fib.length = some L →
      o.method = .rk4ip → o.eta = 5 → o.disableSS = true → o.disableRaman = true → 0 < o.dz → 0 < o.dzMin → 0 < o.localError →
      ∃ N0 : ℕ, ∀ N, N0 ≤ N → ∃ r o' F' ν0 ν, propagate polyfit spline o p F N false = some (.ok (r, o', F')) ∧
        (weightedAvgFrequencyMks strF p).1 = .ok (ν0 * 10 ^ 12) ∧ (weightedAvgFrequencyMks strF r.out).1 = .ok (ν * 10 ^ 12) ∧
        |ν0 - (p.cf + meanFrequency T (u 0) / (2 * Real.pi))| ≤ C / p.n ∧ |ν - ν0| ≤ 2 * C / p.n := by
  obtain ⟨K, m0, HK⟩ := C132_converges hu hT hL 1
  have hEL : 0 < energy T (u L) := by rw [C139_energy hh hu ⟨hL.le, le_rfl⟩]; positivity
  obtain ⟨C, m1, HC⟩ := run_centroid hu.smooth hT hu.periodic hE hEL K
  refine ⟨C, max m0 m1, ?_⟩
  intro strF polyfit spline o p p1 F f1 β R fR a hp hn he hcf htw hA hne hw hl hβ hlen hm heta hss hram hdz hmin hle
  obtain ⟨N0, HN⟩ := HK polyfit spline o p F f1 β R fR a hp ((le_max_left _ _).trans hn) he hcf hA hne hl hβ hlen hm heta hss hram hdz hmin hle
  refine ⟨max N0 1, fun N hN => ?_⟩
  have hN1 : 1 ≤ N := (le_max_right _ _).trans hN
  obtain ⟨r, o', F', hr, -, hcol⟩ := HN N ((le_max_left _ _).trans hN)
  obtain ⟨v, hv, herr⟩ := hcol (N - 1) (by omega)
  have ez : (((N - 1 : ℕ) : ℝ) + 1) * (L / N) = L := by
    have : (N : ℝ) ≠ 0 := by positivity
    rw [Nat.cast_sub hN1]
    push_cast
    field_simp
    ring
  rw [ez, pow_one] at herr
  have hn' : (0 : ℝ) < p.n := by exact_mod_cast hp.pos
  have hsum : 1 / (p.n : ℝ) * ∑ j, ‖v j - u L (time T p.n j)‖ ^ 2 ≤ (K / p.n) ^ 2 := by
    have : ∑ j, ‖v j - u L (time T p.n j)‖ ^ 2 ≤ ∑ _j : Fin p.n, (K / p.n) ^ 2 := Finset.sum_le_sum fun j _ => pow_le_pow_left₀ (norm_nonneg _) (herr j) 2
    rw [Finset.sum_const, Finset.card_univ, Fintype.card_fin, nsmul_eq_mul] at this
    calc _ ≤ 1 / (p.n : ℝ) * (p.n * (K / p.n) ^ 2) := mul_le_mul_of_nonneg_left this (by positivity)
      _ = _ := by field_simp
  obtain ⟨ν0, ν, k1, k2, k3, k4⟩ := HC strF polyfit spline o o' p p1 F F' N r a v hp ((le_max_right _ _).trans hn) he htw hA hw hr hv hsum
  rw [C139_kerr hh hu hE ⟨hL.le, le_rfl⟩] at k4
  refine ⟨r, o', F', ν0, ν, hr, k1, k2, k3, ?_⟩
  have e2 : 2 * C / (p.n : ℝ) = C / p.n + C / p.n := by ring
  rw [e2, show ν - ν0 = (ν - (p.cf + meanFrequency T (u 0) / (2 * Real.pi))) - (ν0 - (p.cf + meanFrequency T (u 0) / (2 * Real.pi))) by ring]
  exact (abs_sub _ _).trans (add_le_add k4 k3)

/-! ## Two lines: the shift in closed form -/

/-- the work of a delayed response on a beat note -/
theorem drag_beat {h : ℝ → ℝ} (hh : Continuous h) (X : ℝ) {T ω : ℝ} (hs : Real.sin (ω * T) = 0) (hc : Real.cos (ω * T) = 1) (c0 c1 : ℝ) :
    drag h X T (fun t => c0 + c1 * Real.cos (ω * t)) = c1 ^ 2 * ω * (∫ s in (0 : ℝ)..X, h s * Real.sin (ω * s)) * T / 2 := by
  set S := ∫ s in (0 : ℝ)..X, h s * Real.sin (ω * s) with hS
  set C := ∫ s in (0 : ℝ)..X, h s * Real.cos (ω * s) with hC
  set A := ∫ s in (0 : ℝ)..X, h s with hA
  have dcos : ∀ t, HasDerivAt (fun t => Real.cos (ω * t)) (-Real.sin (ω * t) * ω) t := fun t => by
    have := ((hasDerivAt_id t).const_mul ω).cos
    simpa using this
  have dsin : ∀ t, HasDerivAt (fun t => Real.sin (ω * t)) (Real.cos (ω * t) * ω) t := fun t => by
    have := ((hasDerivAt_id t).const_mul ω).sin
    simpa using this
  have em : (fun t => ∫ s in (0 : ℝ)..X, h s * (c0 + c1 * Real.cos (ω * (t - s)))) = fun t => c0 * A + c1 * (Real.cos (ω * t) * C + Real.sin (ω * t) * S) := by
    funext t
    have e1 : ∀ s, h s * (c0 + c1 * Real.cos (ω * (t - s))) = c0 * h s + c1 * (Real.cos (ω * t) * (h s * Real.cos (ω * s)) + Real.sin (ω * t) * (h s * Real.sin (ω * s))) := fun s => by
      rw [show ω * (t - s) = ω * t - ω * s by ring, Real.cos_sub]
      ring
    have k1 : Continuous fun s => h s * Real.cos (ω * s) := by fun_prop
    have k2 : Continuous fun s => h s * Real.sin (ω * s) := by fun_prop
    have k3 : Continuous fun s => Real.cos (ω * t) * (h s * Real.cos (ω * s)) + Real.sin (ω * t) * (h s * Real.sin (ω * s)) := by fun_prop
    simp only [e1]
    rw [lin_int hh k3, lin_int k1 k2]
  have hd : ∀ t, HasDerivAt (fun t => c0 * A + c1 * (Real.cos (ω * t) * C + Real.sin (ω * t) * S)) (c1 * (-Real.sin (ω * t) * ω * C + Real.cos (ω * t) * ω * S)) t := fun t =>
    ((((dcos t).mul_const C).add ((dsin t).mul_const S)).const_mul c1).const_add (c0 * A)
  unfold drag
  rw [em]
  have e2 : ∀ t, (c0 + c1 * Real.cos (ω * t)) * _root_.deriv (fun t => c0 * A + c1 * (Real.cos (ω * t) * C + Real.sin (ω * t) * S)) t =
      (c0 + c1 * Real.cos (ω * t)) * (c1 * (-Real.sin (ω * t) * ω * C + Real.cos (ω * t) * ω * S)) := fun t => by rw [(hd t).deriv]
  simp only [e2]
  have hG : ∀ t, HasDerivAt (fun t => c0 * c1 * (Real.cos (ω * t) * C + Real.sin (ω * t) * S) + c1 ^ 2 / 2 * (Real.cos (ω * t) * Real.cos (ω * t) * C + Real.sin (ω * t) * Real.cos (ω * t) * S)
      + c1 ^ 2 * ω * S / 2 * t) ((c0 + c1 * Real.cos (ω * t)) * (c1 * (-Real.sin (ω * t) * ω * C + Real.cos (ω * t) * ω * S))) t := fun t => by
    have := (((((dcos t).mul_const C).add ((dsin t).mul_const S)).const_mul (c0 * c1)).add
      (((((dcos t).mul (dcos t)).mul_const C).add (((dsin t).mul (dcos t)).mul_const S)).const_mul (c1 ^ 2 / 2))).add ((hasDerivAt_id t).const_mul (c1 ^ 2 * ω * S / 2))
    refine this.congr_deriv ?_
    have hq := Real.sin_sq_add_cos_sq (ω * t)
    linear_combination (c1 ^ 2 * ω * S / 2) * (-hq)
  rw [intervalIntegral.integral_eq_sub_of_hasDerivAt (fun t _ => hG t) (Continuous.intervalIntegrable (by fun_prop) _ _)]
  simp only [hs, hc, mul_zero, Real.cos_zero, Real.sin_zero]
  ring

/-- two lines with amplitudes `a`, `c` and a distance `ω` -/
noncomputable def twoTone (a c ω t : ℝ) : ℂ := a + c * exp (-(I * ((ω * t : ℝ) : ℂ)))

theorem twoTone_power (a c ω t : ℝ) : ‖twoTone a c ω t‖ ^ 2 = (a ^ 2 + c ^ 2) + 2 * a * c * Real.cos (ω * t) := by
  unfold twoTone
  rw [show -(I * ((ω * t : ℝ) : ℂ)) = ((-(ω * t) : ℝ) : ℂ) * I by push_cast; ring, exp_mul_I, ← ofReal_cos, ← ofReal_sin, Real.cos_neg, Real.sin_neg,
    ← normSq_eq_norm_sq, normSq_apply]
  have hq := Real.sin_sq_add_cos_sq (ω * t)
  revert hq
  generalize Real.cos (ω * t) = x
  generalize Real.sin (ω * t) = y
  intro hq
  simp
  linear_combination c ^ 2 * hq

theorem twoTone_contDiff (a c ω : ℝ) : ContDiff ℝ (⊤ : ℕ∞) (twoTone a c ω) :=
  contDiff_const.add (contDiff_const.mul ((contDiff_const.mul (Complex.ofRealCLM.contDiff.comp (contDiff_const.mul contDiff_id))).neg.cexp))

/-- C139: two lines at a distance of `m` bins in a fibre without dispersion: the mean frequency falls linearly, at a rate given by the sine transform of the
kernel at the distance of the lines. -/
theorem C139_two_lines (γ fR : ℝ) {h : ℝ → ℝ} (hh : Continuous h) {T : ℝ} (hT : 0 < T) {m : ℕ} (hm : 0 < m) {a c : ℝ} (hac : a ^ 2 + c ^ 2 ≠ 0) {L z : ℝ} (hz : z ∈ Icc 0 L) :
    let ω := 2 * Real.pi * m / T
    let u := modulated γ fR h T (twoTone a c ω)
    Solution 0 0 γ fR h T L u ∧ energy T (u 0) = (a ^ 2 + c ^ 2) * T ∧
      meanFrequency T (u z) = meanFrequency T (u 0) -
        γ * (fR / ∫ s in (0 : ℝ)..T / 2, h s) * (2 * a ^ 2 * c ^ 2 / (a ^ 2 + c ^ 2) * ω * ∫ s in (0 : ℝ)..T / 2, h s * Real.sin (ω * s)) * z := by
  intro ω u
  have hω : ω * T = m * (2 * Real.pi) := by
    show 2 * Real.pi * m / T * T = _
    field_simp
  have hs : Real.sin (ω * T) = 0 := by rw [hω]; have := Real.sin_nat_mul_pi (2 * m); push_cast at this; rw [← this]; congr 1; ring
  have hc : Real.cos (ω * T) = 1 := by rw [hω]; exact Real.cos_nat_mul_two_pi m
  have hper : Function.Periodic (twoTone a c ω) T := fun t => by
    unfold twoTone
    congr 2
    rw [show -(I * ((ω * (t + T) : ℝ) : ℂ)) = -(I * ((ω * t : ℝ) : ℂ)) + -(((m : ℕ) : ℂ) * (2 * Real.pi * I)) by
      rw [mul_add, hω]; push_cast; ring, exp_add]
    have : exp (-(((m : ℕ) : ℂ) * (2 * Real.pi * I))) = 1 := by rw [exp_neg, exp_nat_mul_two_pi_mul_I, inv_one]
    rw [this, mul_one]
  have hsol := C133_modulated γ fR hh T L (twoTone_contDiff a c ω) hper
  have hpow : ∀ z t, ‖u z t‖ ^ 2 = (a ^ 2 + c ^ 2) + 2 * a * c * Real.cos (ω * t) := fun z t => by
    rw [← twoTone_power]
    show ‖modulated γ fR h T (twoTone a c ω) z t‖ ^ 2 = _
    unfold modulated
    rw [norm_mul, mul_comm I, norm_exp_ofReal_mul_I, mul_one]
  have hω0 : ω ≠ 0 := by
    have : (m : ℝ) ≠ 0 := by exact_mod_cast hm.ne'
    show 2 * Real.pi * m / T ≠ 0
    have := Real.pi_pos
    positivity
  have hcos : ∫ t in (0 : ℝ)..T, Real.cos (ω * t) = 0 := by
    have hd : ∀ t, HasDerivAt (fun t => Real.sin (ω * t) / ω) (Real.cos (ω * t)) t := fun t => by
      have := (((hasDerivAt_id t).const_mul ω).sin).div_const ω
      refine this.congr_deriv ?_
      simp only [id, mul_one]
      field_simp
    rw [intervalIntegral.integral_eq_sub_of_hasDerivAt (fun t _ => hd t) (Continuous.intervalIntegrable (by fun_prop) _ _), hs]
    simp
  have hE0 : energy T (u 0) = (a ^ 2 + c ^ 2) * T := by
    unfold energy
    simp only [hpow]
    rw [intervalIntegral.integral_add (Continuous.intervalIntegrable (by fun_prop) _ _) (Continuous.intervalIntegrable (by fun_prop) _ _),
      intervalIntegral.integral_const, intervalIntegral.integral_const_mul, hcos]
    simp
    ring
  have hac' : 0 < a ^ 2 + c ^ 2 := lt_of_le_of_ne (by positivity) hac.symm
  have hE : 0 < energy T (u 0) := by rw [hE0]; positivity
  refine ⟨hsol, hE0, ?_⟩
  set S := ∫ s in (0 : ℝ)..T / 2, h s * Real.sin (ω * s) with hS
  set A := ∫ s in (0 : ℝ)..T / 2, h s with hA
  set k := γ * (fR / A) * (2 * a ^ 2 * c ^ 2 / (a ^ 2 + c ^ 2) * ω * S) with hk
  have hd : ∀ y ∈ Icc 0 L, HasDerivAt (fun y => meanFrequency T (u y) + k * y) 0 y := fun y hy => by
    have k1 := mean_hasDerivAt hh hsol hE hy
    have ee : energy T (u y) = (a ^ 2 + c ^ 2) * T := by
      rw [← hE0, C139_energy hh hsol hy]
      simp [u]
    have ed : drag h (T / 2) T (fun t => ‖u y t‖ ^ 2) = (2 * a * c) ^ 2 * ω * S * T / 2 := by
      simp only [hpow]
      exact drag_beat hh (T / 2) hs hc _ _
    have k2 := k1.add ((hasDerivAt_id y).const_mul k)
    refine k2.congr_deriv ?_
    show -(γ * (fR / A * drag h (T / 2) T fun t => ‖u y t‖ ^ 2)) / energy T (u y) + _ = 0
    rw [ee, ed, hk]
    generalize fR / A = q
    field_simp
    ring
  have := constant_of_has_deriv_right_zero (f := fun y => meanFrequency T (u y) + k * y) (a := 0) (b := L)
    (fun z hz => (hd z hz).continuousAt.continuousWithinAt) (fun z hz => (hd z ⟨hz.1, hz.2.le⟩).hasDerivWithinAt) z hz
  simp only [mul_zero, add_zero] at this
  linarith

/-- C139 applies to pulses of every size and every shape, with the default Raman response of the solver. -/
theorem C139_nonvacuous (strF : ℝ → String) (polyfit : Fiber.PolyFit) (spline : Fiber.Spline) {f : ℝ → ℂ} {T : ℝ} (hT : 0 < T) (hf : ContDiff ℝ (⊤ : ℕ∞) f)
    (hper : Function.Periodic f T) (hf0 : f 0 ≠ 0) {γ : ℝ} (hγ : 0 ≤ γ) {L wl : ℝ} (hL : 0 < L) (hwl : wl ≠ 0) (label : String) {S0 S1 : ℝ} (b0 : ∀ t, ‖f t‖ ^ 2 ≤ S0)
    (b1 : ∀ t, |_root_.deriv (fun t => ‖f t‖ ^ 2) t| ≤ S1) : 0 < energy T f ∧ ∃ (C : ℝ) (n0 : ℕ), ∀ n, n0 ≤ n → n % 2 = 0 →
      (heldPulse n (cNmps / wl) T fun j => f (time T n j)).AT = .ok ⟨n, fun j => f (time T n j)⟩ ∧
      ∃ N0 : ℕ, ∀ N, N0 ≤ N → ∃ r o' F' ν0 ν, propagate polyfit spline { Obj.default with disableSS := true } (heldPulse n (cNmps / wl) T fun j => f (time T n j))
          ⟨Fiber.genFib L wl ⟨1, fun _ => 0⟩ γ 0 "ps^n/m" label Fiber.Fib.new, Fiber.genSpecs 0⟩ N false = some (.ok (r, o', F')) ∧
        (weightedAvgFrequencyMks strF (heldPulse n (cNmps / wl) T fun j => f (time T n j))).1 = .ok (ν0 * 10 ^ 12) ∧
        (weightedAvgFrequencyMks strF r.out).1 = .ok (ν * 10 ^ 12) ∧
        ν ≤ ν0 + riseBound Obj.default γ T (energy T f) S0 S1 * L / (2 * Real.pi) + 2 * C / n := by
  set o : Obj := { Obj.default with disableSS := true } with ho
  have ht1 : 0 < o.tau1 := by norm_num [ho, Obj.default]
  have ht2 : 0 < o.tau2 := by norm_num [ho, Obj.default]
  have hfr : 0 ≤ fraction o := by unfold fraction; split_ifs <;> norm_num [ho, Obj.default]
  set u := modulated γ (fraction o) (kernelFun o) T f with hu
  have hsol := C133_modulated γ (fraction o) (kernel_contDiff o).continuous T L hf hper
  have hu0 : u 0 = f := by
    funext t
    simp [hu, modulated]
  have hpow : ∀ z t, ‖u z t‖ ^ 2 = ‖f t‖ ^ 2 := fun z t => by
    rw [hu]
    unfold modulated
    rw [norm_mul, mul_comm I, norm_exp_ofReal_mul_I, mul_one]
  have hE : 0 < energy T f := by
    refine intervalIntegral.integral_pos hT (hf.continuous.norm.pow 2).continuousOn (fun x _ => by positivity) ⟨0, ⟨le_rfl, hT.le⟩, ?_⟩
    have := norm_pos_iff.2 hf0
    positivity
  refine ⟨hE, ?_⟩
  obtain ⟨C, n0, H⟩ := C139_computed o ht1 ht2 hfr hγ hsol hT hL (by rw [← hu, hu0]; exact hE) (S0 := S0) (S1 := S1) (fun z _ t => by rw [← hu, hpow]; exact b0 t)
    (fun z _ t => by rw [← hu, funext (hpow z)]; exact b1 t) rfl
    (by norm_num [ho, Obj.default]) rfl rfl (by norm_num [ho, Obj.default]) (by norm_num [ho, Obj.default]) (by norm_num [ho, Obj.default])
  refine ⟨C, max n0 4, fun n hn he => ?_⟩
  have hn0 : n0 ≤ n := le_trans (le_max_left _ _) hn
  have hn4 : 4 ≤ n := le_trans (le_max_right _ _) hn
  set A : Fin n → ℂ := fun j => f (time T n j) with hA
  have hold : Holds (heldPulse n (cNmps / wl) T A) (fftT A) := ⟨rfl, rfl, by omega, rfl⟩
  have hAT : (heldPulse n (cNmps / wl) T A).AT = .ok ⟨n, A⟩ := by
    have := hold.AT_eq
    rwa [ifftT_fftT] at this
  refine ⟨hAT, ?_⟩
  have hcw : (cNmps / wl : ℝ) ≠ 0 := div_ne_zero (by norm_num [cNmps, cMks]) hwl
  obtain ⟨R, fR, hload⟩ := C133_fiber polyfit spline o (p := heldPulse n (cNmps / wl) T A)
    hold hn4 he hT.ne' ht1 ht2 (length := L) (gamma := γ) (gain := 0) (b := fun _ : Fin 1 => (0 : ℝ)) (units := "ps^n/m") (label := label) (by decide) hwl
  have hs : samples u T n 0 = A := by
    funext j
    show u 0 _ = _
    rw [hu0]
  have hne : A ≠ 0 := by
    intro h0
    have h1 := congrFun h0 ⟨n / 2, by omega⟩
    have h2 : time T n ⟨n / 2, by omega⟩ = 0 := by
      unfold time
      have : ((n / 2 : ℕ) : ℝ) = (n : ℝ) / 2 := by rw [Nat.cast_div (by omega) (by norm_num)]; norm_num
      show (((n / 2 : ℕ) : ℝ) - (n : ℝ) / 2) * _ = 0
      rw [this]
      ring
    have h3 : A ⟨n / 2, by omega⟩ = f (time T n ⟨n / 2, by omega⟩) := rfl
    rw [h2] at h3
    exact hf0 (h3.symm.trans h1)
  have hw := W_mks_miss (strF := strF) (p := heldPulse n (cNmps / wl) T A) rfl (by simp [heldPulse, Pulse.blank])
  rw [wGrid_eq hold] at hw
  obtain ⟨N0, HN⟩ := H strF polyfit spline (heldPulse n (cNmps / wl) T A) _ _ _ _ R fR (fftT A) hold hn0 he
    hcw rfl (by show (heldPulse n (cNmps / wl) T A).AT = .ok ⟨n, samples u T n 0⟩; rw [hs]; exact hAT) (by show samples u T n 0 ≠ 0; rw [hs]; exact hne) hw hload (fun k => by
      have e : ∀ d : ℝ, fiberPoly (fun _ : Fin 1 => (0 : ℝ)) d T = 0 := fun d => by
        have : taylorPoly (fun _ : Fin 1 => (0 : ℝ)) = 0 := by simp [taylorPoly]
        simp [fiberPoly, this, Nlse.slope]
      show (fiberPoly _ _ T).eval _ = _
      rw [e]
      rfl) rfl
  refine ⟨N0, fun N hN => ?_⟩
  obtain ⟨r, o', F', ν0, ν, k1, k2, k3, -, -, k6⟩ := HN N hN
  refine ⟨r, o', F', ν0, ν, k1, k2, k3, ?_⟩
  rw [← hu, hu0] at k6
  simp only [abs_zero, neg_zero, zero_mul, Real.exp_zero, mul_one] at k6
  exact k6

end PyNLO
