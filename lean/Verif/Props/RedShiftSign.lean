import Verif.Props.Limit
import Verif.Lemmas.DragSpectrum
import Verif.Lemmas.RamanSine

/-!
# C178: with the default Raman response pulses move to lower frequencies
-/

namespace PyNLO

open Complex Set Polynomial Ssfm Pulse OdeGlobal Nlse Alias MeasureTheory

/-- C178: at every frequency of a window of 0.3 ps or more, the default Raman response, cut at half the window as the solver cuts it, has a positive sine
transform: a wave loses energy to every wave of lower frequency, and to no wave of higher frequency. -/
theorem C178_gain {o : Obj} (h1 : o.tau1 = 0.0122) (h2 : o.tau2 = 0.032) (hsr : o.simpleRaman = false) {T : ℝ} (hT : 0.3 ≤ T) {m : ℕ} (hm : 0 < m) :
    0 < ∫ s in (0 : ℝ)..T / 2, kernelFun o s * Real.sin (2 * Real.pi * m / T * s) := by
  have hT0 : 0 < T := by linarith
  set w := 2 * Real.pi * m / T with hw
  have hwX : w * (T / 2) = m * Real.pi := by rw [hw]; field_simp
  have hm1 : (1 : ℝ) ≤ m := by exact_mod_cast hm
  have key := raman_sine_pos (w := w) (X := T / 2) (by linarith) (by rw [hwX]; nlinarith [Real.pi_pos]) (by rw [hwX]; exact Real.sin_nat_mul_pi m)
  have ek : ∀ s, kernelFun o s * Real.sin (w * s) = 0.79 * (0.0122 / (0.0122 ^ 2 + 0.032 ^ 2)) * (Real.exp (-(1 / 0.032 * s)) * Real.sin (1 / 0.0122 * s) * Real.sin (w * s)) +
      0.21 * ((2 * (1 / 0.096) * Real.exp (-(1 / 0.096 * s)) + -(1 / 0.096) ^ 2 * (s * Real.exp (-(1 / 0.096 * s)))) * Real.sin (w * s)) := fun s => by
    have e1 : -s / 0.032 = -(1 / 0.032 * s) := by ring
    have e2 : s / 0.0122 = 1 / 0.0122 * s := by ring
    have e3 : -s / 0.096 = -(1 / 0.096 * s) := by ring
    unfold kernelFun ramanLin
    rw [hsr, h1, h2, e1, e2, e3]
    simp only [Bool.false_eq_true, if_false]
    ring
  simp only [ek]
  rw [lin_int (by fun_prop) (by fun_prop)]
  exact key

/-- C178: along a solution of the equation with the default Raman response the mean frequency never rises. -/
theorem C178_never_rises {o : Obj} (h1 : o.tau1 = 0.0122) (h2 : o.tau2 = 0.032) (hsr : o.simpleRaman = false) (hf : 0 ≤ fraction o) {b : ℝ[X]} {g γ : ℝ} (hγ : 0 ≤ γ)
    {T L : ℝ} (hT : 0.3 ≤ T) {u : ℝ → ℝ → ℂ} (hu : Solution b g γ (fraction o) (kernelFun o) T L u) (hE : 0 < energy T (u 0)) :
    AntitoneOn (fun z => meanFrequency T (u z)) (Icc 0 L) := by
  have hT0 : 0 < T := by linarith
  have hh := (kernel_contDiff o).continuous
  have hA0 : 0 < ∫ s in (0 : ℝ)..T / 2, kernelFun o s := kernel_area_pos (by rw [h1]; norm_num) (by rw [h2]; norm_num) (by positivity)
  have hd := fun z (hz : z ∈ Icc 0 L) => mean_hasDerivAt hh hu hE hz
  refine antitoneOn_of_deriv_nonpos (convex_Icc 0 L) (fun z hz => (hd z hz).continuousAt.continuousWithinAt)
    (fun z hz => (hd z (interior_subset hz)).differentiableAt.differentiableWithinAt) fun z hz => ?_
  have hz' := interior_subset hz
  rw [(hd z hz').deriv]
  have hdr : 0 ≤ drag (kernelFun o) (T / 2) T fun t => ‖u z t‖ ^ 2 :=
    drag_nonneg hh hT0 (fun m hm => (C178_gain h1 h2 hsr hT hm).le) (power_contDiff hu.smooth z) (power_periodic hu.periodic z)
  have hez : 0 < energy T (u z) := by rw [C139_energy hh hu hz']; positivity
  refine div_nonpos_of_nonpos_of_nonneg (neg_nonpos.2 ?_) hez.le
  positivity

/-- C178: unless the power is constant in time where the pulse enters the fibre, the mean frequency is lower behind every piece of fibre. -/
theorem C178_falls {o : Obj} (h1 : o.tau1 = 0.0122) (h2 : o.tau2 = 0.032) (hsr : o.simpleRaman = false) (hf : 0 < fraction o) {b : ℝ[X]} {g γ : ℝ} (hγ : 0 < γ)
    {T L : ℝ} (hT : 0.3 ≤ T) {u : ℝ → ℝ → ℂ} (hu : Solution b g γ (fraction o) (kernelFun o) T L u) {t0 t1 : ℝ} (hne : ‖u 0 t0‖ ≠ ‖u 0 t1‖) (hE : 0 < energy T (u 0))
    {z : ℝ} (hz0 : 0 < z) (hz : z ≤ L) : meanFrequency T (u z) < meanFrequency T (u 0) := by
  have hT0 : 0 < T := by linarith
  have hh := (kernel_contDiff o).continuous
  have hA0 : 0 < ∫ s in (0 : ℝ)..T / 2, kernelFun o s := kernel_area_pos (by rw [h1]; norm_num) (by rw [h2]; norm_num) (by positivity)
  have anti := C178_never_rises h1 h2 hsr hf.le hγ.le hT hu hE
  have hL : 0 ≤ L := hz0.le.trans hz
  have h0m : (0 : ℝ) ∈ Icc 0 L := ⟨le_rfl, hL⟩
  refine lt_of_le_of_ne (anti h0m ⟨hz0.le, hz⟩ hz0.le) fun heq => ?_
  have hconst : ∀ y ∈ Icc 0 z, meanFrequency T (u y) = meanFrequency T (u 0) := fun y hy => by
    have a1 := anti h0m ⟨hy.1, hy.2.trans hz⟩ hy.1
    have a2 := anti ⟨hy.1, hy.2.trans hz⟩ ⟨hz0.le, hz⟩ hy.2
    simp only at a1 a2
    linarith
  have hd := (mean_hasDerivAt hh hu hE h0m).hasDerivWithinAt (s := Icc 0 z)
  have hd0 : HasDerivWithinAt (fun z => meanFrequency T (u z)) 0 (Icc 0 z) 0 := (hasDerivWithinAt_const (0 : ℝ) (Icc 0 z) (meanFrequency T (u 0))).congr hconst rfl
  have e := (uniqueDiffOn_Icc hz0 0 ⟨le_rfl, hz0.le⟩).eq_deriv _ hd hd0
  have hdr : 0 < drag (kernelFun o) (T / 2) T fun t => ‖u 0 t‖ ^ 2 :=
    drag_pos hh hT0 (fun m hm => C178_gain h1 h2 hsr hT hm) (power_contDiff hu.smooth 0) (power_periodic hu.periodic 0) (t0 := t0) (t1 := t1)
      (fun h => hne ((sq_eq_sq₀ (norm_nonneg _) (norm_nonneg _)).1 h))
  have : 0 < γ * (fraction o / (∫ s in (0 : ℝ)..T / 2, kernelFun o s) * drag (kernelFun o) (T / 2) T fun t => ‖u 0 t‖ ^ 2) / energy T (u 0) := by positivity
  rw [neg_div] at e
  linarith

/-- C178: for every smooth periodic pulse in a window of 0.3 ps or more and every generated fibre, `propagate` with the default Raman response and without
self-steepening returns a pulse whose centroid is at most that of the input, up to an error of order `1/NPTS`.  If the input power is not constant in time and
the fibre is nonlinear, the centroid falls by an amount that does not depend on the grid. -/
theorem C178_computed (strF : ℝ → String) (polyfit : Fiber.PolyFit) (spline : Fiber.Spline) {f : ℝ → ℂ} {T : ℝ} (hT : 0.3 ≤ T) (hf : ContDiff ℝ (⊤ : ℕ∞) f)
    (hper : Function.Periodic f T) (hf0 : f 0 ≠ 0) {m : ℕ} (b : Fin m → ℝ) {γ : ℝ} (hγ : 0 ≤ γ) (gain : ℝ) {cf L wl : ℝ}
    (hcf : cf ≠ 0) (hL : 0 < L) (hwl : wl ≠ 0) (label : String) :
    ∃ δ, 0 ≤ δ ∧ (0 < γ → (∃ t, ‖f t‖ ≠ ‖f 0‖) → 0 < δ) ∧
    ∃ (C : ℝ) (n0 : ℕ), ∀ n, n0 ≤ n → n % 2 = 0 →
      ∃ N0 : ℕ, ∀ N, N0 ≤ N → ∃ r o' F' ν0 ν, propagate polyfit spline { Obj.default with disableSS := true }
          (heldPulse n cf T fun j => f (time T n j))
          ⟨Fiber.genFib L wl ⟨m, b⟩ γ gain "ps^n/m" label Fiber.Fib.new, Fiber.genSpecs gain⟩ N false = some (.ok (r, o', F')) ∧
        (weightedAvgFrequencyMks strF (heldPulse n cf T fun j => f (time T n j))).1 = .ok (ν0 * 10 ^ 12) ∧
        (weightedAvgFrequencyMks strF r.out).1 = .ok (ν * 10 ^ 12) ∧ |ν - (ν0 - δ)| ≤ C / n := by
  have hT0 : 0 < T := by linarith
  set o : Obj := { Obj.default with disableSS := true } with ho
  have ht1 : 0 < o.tau1 := by norm_num [ho, Obj.default]
  have ht2 : 0 < o.tau2 := by norm_num [ho, Obj.default]
  have et1 : o.tau1 = 0.0122 := rfl
  have et2 : o.tau2 = 0.032 := by norm_num [ho, Obj.default]
  have esr : o.simpleRaman = false := rfl
  have ef : fraction o = 0.245 := by simp [fraction, ho, Obj.default]
  have hfr : 0 < fraction o := by rw [ef]; norm_num
  obtain ⟨u, hu, h0, -⟩ := C167_exists o ht1 ht2 (fiberPoly b (2 * Real.pi * cf - 2 * Real.pi * cNmps / wl) T) gain γ hT0 hL.le hf hper
  have hE : 0 < energy T (u 0) := by rw [h0]; exact held_energy hT0 hf hf0
  have hpi := Real.pi_pos
  refine ⟨(meanFrequency T (u 0) - meanFrequency T (u L)) / (2 * Real.pi), ?_, ?_, ?_⟩
  · have := C178_never_rises et1 et2 esr hfr.le hγ hT hu hE ⟨le_rfl, hL.le⟩ ⟨hL.le, le_rfl⟩ hL.le
    simp only at this
    exact div_nonneg (by linarith) (by positivity)
  · rintro hγ0 ⟨t, ht⟩
    have := C178_falls et1 et2 esr hfr hγ0 hT hu (t0 := t) (t1 := 0) (by rw [h0]; exact ht) hE hL le_rfl
    exact div_pos (by linarith) (by positivity)
  have e : ∀ n, samples u T n 0 = fun j => f (time T n j) := fun n => by
    unfold samples
    rw [h0]
  obtain ⟨B0, -, hB0⟩ := uniform_bound hu.smooth hT0 hu.periodic L 0
  obtain ⟨B1, hB1n, hB1⟩ := uniform_bound hu.smooth hT0 hu.periodic L 1
  have c0 : ∀ z ∈ Icc 0 L, ∀ t, ‖u z t‖ ≤ B0 := fun z hz t => by simpa using hB0 z hz t
  have c1 : ∀ z ∈ Icc 0 L, ∀ t, ‖_root_.deriv (u z) t‖ ≤ B1 := fun z hz t => by have := hB1 z hz t; rwa [iteratedDeriv_one] at this
  have b0 : ∀ z ∈ Icc 0 L, ∀ t, ‖u z t‖ ^ 2 ≤ B0 ^ 2 := fun z hz t => pow_le_pow_left₀ (norm_nonneg _) (c0 z hz t) 2
  have b1 : ∀ z ∈ Icc 0 L, ∀ t, |_root_.deriv (fun t => ‖u z t‖ ^ 2) t| ≤ 2 * (B0 * B1) := fun z hz t => by
    have hd : HasDerivAt (u z) (_root_.deriv (u z) t) t := (((slice_contDiff hu.smooth z).differentiable (by simp)) t).hasDerivAt
    rw [(hd.norm_sq).deriv, abs_mul, abs_two]
    refine mul_le_mul_of_nonneg_left ?_ (by norm_num)
    refine (abs_real_inner_le_norm _ _).trans ?_
    exact mul_le_mul (c0 z hz t) (c1 z hz t) (norm_nonneg _) ((norm_nonneg _).trans (c0 z hz t))
  obtain ⟨C, n0, H⟩ := C139_computed o ht1 ht2 hfr.le hγ hu hT0 hL hE b0 b1 rfl
    (by norm_num [ho, Obj.default]) rfl rfl (by norm_num [ho, Obj.default]) (by norm_num [ho, Obj.default]) (by norm_num [ho, Obj.default])
  refine ⟨2 * C, max n0 4, fun n hn he => ?_⟩
  have hn0 : n0 ≤ n := le_trans (le_max_left _ _) hn
  have hn4 : 4 ≤ n := le_trans (le_max_right _ _) hn
  obtain ⟨hold, hAT, hne⟩ := held_facts hf0 cf T (by omega : 0 < n) he
  obtain ⟨p1, hw⟩ := held_W_mks strF hf0 cf T (by omega : 0 < n) he
  obtain ⟨R, fR, hload⟩ := C133_fiber polyfit spline o (p := heldPulse n cf T fun j => f (time T n j))
    hold hn4 he hT0.ne' ht1 ht2 (length := L) (gamma := γ) (gain := gain) (b := b) (units := "ps^n/m") (label := label) (by decide) hwl
  obtain ⟨N0, HN⟩ := H strF polyfit spline (heldPulse n cf T fun j => f (time T n j)) p1 _ _ _ R fR _ hold hn0 he hcf rfl (by rw [e]; exact hAT) (by rw [e]; exact hne)
    hw hload (fun k => rfl) rfl
  refine ⟨N0, fun N hN => ?_⟩
  obtain ⟨r, o', F', ν0, ν, k1, k2, k3, k4, k5, -⟩ := HN N hN
  refine ⟨r, o', F', ν0, ν, k1, k2, k3, ?_⟩
  have k4' : |ν0 - (cf + meanFrequency T (u 0) / (2 * Real.pi))| ≤ C / n := k4
  have k5' : |ν - (cf + meanFrequency T (u L) / (2 * Real.pi))| ≤ C / n := k5
  have e2 : 2 * C / (n : ℝ) = C / n + C / n := by ring
  rw [e2, show ν - (ν0 - (meanFrequency T (u 0) - meanFrequency T (u L)) / (2 * Real.pi)) =
    (ν - (cf + meanFrequency T (u L) / (2 * Real.pi))) - (ν0 - (cf + meanFrequency T (u 0) / (2 * Real.pi))) by ring]
  exact (abs_sub _ _).trans (add_le_add k5' k4')

/-- C178: so on every grid that is fine enough the returned centroid lies below the centroid of the input. -/
theorem C178_lower (strF : ℝ → String) (polyfit : Fiber.PolyFit) (spline : Fiber.Spline) {f : ℝ → ℂ} {T : ℝ} (hT : 0.3 ≤ T) (hf : ContDiff ℝ (⊤ : ℕ∞) f)
    (hper : Function.Periodic f T) (hf0 : f 0 ≠ 0) (hpow : ∃ t, ‖f t‖ ≠ ‖f 0‖) {m : ℕ} (b : Fin m → ℝ) {γ : ℝ} (hγ : 0 < γ) (gain : ℝ) {cf L wl : ℝ}
    (hcf : cf ≠ 0) (hL : 0 < L) (hwl : wl ≠ 0) (label : String) :
    ∃ n0 : ℕ, ∀ n, n0 ≤ n → n % 2 = 0 →
      ∃ N0 : ℕ, ∀ N, N0 ≤ N → ∃ r o' F' ν0 ν, propagate polyfit spline { Obj.default with disableSS := true }
          (heldPulse n cf T fun j => f (time T n j))
          ⟨Fiber.genFib L wl ⟨m, b⟩ γ gain "ps^n/m" label Fiber.Fib.new, Fiber.genSpecs gain⟩ N false = some (.ok (r, o', F')) ∧
        (weightedAvgFrequencyMks strF (heldPulse n cf T fun j => f (time T n j))).1 = .ok ν0 ∧
        (weightedAvgFrequencyMks strF r.out).1 = .ok ν ∧ ν < ν0 := by
  obtain ⟨δ, -, hδ, C, n0, H⟩ := C178_computed strF polyfit spline hT hf hper hf0 b hγ.le gain hcf hL hwl label
  have hδ0 := hδ hγ hpow
  refine ⟨max n0 (⌈|C| / δ⌉₊ + 1), fun n hn he => ?_⟩
  obtain ⟨N0, HN⟩ := H n ((le_max_left _ _).trans hn) he
  refine ⟨N0, fun N hN => ?_⟩
  obtain ⟨r, o', F', ν0, ν, k1, k2, k3, k4⟩ := HN N hN
  refine ⟨r, o', F', _, _, k1, k2, k3, ?_⟩
  have hn1 : ⌈|C| / δ⌉₊ + 1 ≤ n := (le_max_right _ _).trans hn
  have hn2 : |C| / δ < n := lt_of_le_of_lt (Nat.le_ceil _) (by exact_mod_cast (by omega : ⌈|C| / δ⌉₊ < n))
  have hn0 : (0 : ℝ) < n := lt_of_le_of_lt (by positivity) hn2
  have hC : C / n < δ := by
    rw [div_lt_iff₀ hn0]
    rw [div_lt_iff₀ hδ0] at hn2
    linarith [le_abs_self C]
  have := (abs_le.1 k4).2
  have : ν < ν0 := by linarith
  linarith

/-- the hypotheses are met: two lines of equal power, 1 THz apart in a window of 10 ps, in a fibre with dispersion and gain -/
theorem C178_nonvacuous (strF : ℝ → String) (polyfit : Fiber.PolyFit) (spline : Fiber.Spline) :
    ∃ n0 : ℕ, ∀ n, n0 ≤ n → n % 2 = 0 →
      ∃ N0 : ℕ, ∀ N, N0 ≤ N → ∃ r o' F' ν0 ν, propagate polyfit spline { Obj.default with disableSS := true }
          (heldPulse n 193 10 fun j => twoTone 1 1 (2 * Real.pi) (time 10 n j))
          ⟨Fiber.genFib 1 1550 ⟨2, ![-0.02, 0.0001]⟩ 1.3 0.1 "ps^n/m" "fibre" Fiber.Fib.new, Fiber.genSpecs 0.1⟩ N false = some (.ok (r, o', F')) ∧
        (weightedAvgFrequencyMks strF (heldPulse n 193 10 fun j => twoTone 1 1 (2 * Real.pi) (time 10 n j))).1 = .ok ν0 ∧
        (weightedAvgFrequencyMks strF r.out).1 = .ok ν ∧ ν < ν0 := by
  have h0 : twoTone 1 1 (2 * Real.pi) 0 = 2 := by
    unfold twoTone
    norm_num
  have h1 : twoTone 1 1 (2 * Real.pi) (1 / 2) = 0 := by
    unfold twoTone
    rw [show -(I * ((2 * Real.pi * (1 / 2) : ℝ) : ℂ)) = -(Real.pi * I) by push_cast; ring, exp_neg, exp_pi_mul_I]
    norm_num
  refine C178_lower strF polyfit spline (by norm_num) (twoTone_contDiff 1 1 (2 * Real.pi)) (fun t => ?_) (by rw [h0]; norm_num)
    ⟨1 / 2, by rw [h0, h1]; norm_num⟩ ![-0.02, 0.0001] (by norm_num) 0.1 (by norm_num) (by norm_num) (by norm_num) "fibre"
  unfold twoTone
  congr 2
  rw [show -(I * ((2 * Real.pi * (t + 10) : ℝ) : ℂ)) = -(I * ((2 * Real.pi * t : ℝ) : ℂ)) + -(((10 : ℕ) : ℂ) * (2 * Real.pi * I)) by push_cast; ring, exp_add]
  have : exp (-(((10 : ℕ) : ℂ) * (2 * Real.pi * I))) = 1 := by rw [exp_neg, exp_nat_mul_two_pi_mul_I, inv_one]
  rw [this, mul_one]

end PyNLO
