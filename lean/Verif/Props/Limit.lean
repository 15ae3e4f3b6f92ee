import Verif.Props.Existence
import Verif.Props.RedShift
import Verif.Props.Recentre
import Verif.Props.NlseRobust

/-!
# What holds for every smooth pulse and every generated fibre under grid refinement

Consequences of C167 and C168 that mention no solution of the partial differential equation.
-/

namespace PyNLO

open Complex Set Polynomial Ssfm Pulse OdeGlobal Nlse Alias MeasureTheory

variable {n : ℕ}

theorem held_energy {f : ℝ → ℂ} {T : ℝ} (hT : 0 < T) (hf : ContDiff ℝ (⊤ : ℕ∞) f) (hf0 : f 0 ≠ 0) : 0 < energy T f := by
  refine intervalIntegral.integral_pos hT (hf.continuous.norm.pow 2).continuousOn (fun x _ => by positivity) ⟨0, ⟨le_rfl, hT.le⟩, ?_⟩
  have := norm_pos_iff.2 hf0
  positivity

theorem held_W_mks (strF : ℝ → String) {f : ℝ → ℂ} (hf0 : f 0 ≠ 0) (cf T : ℝ) {n : ℕ} (hn : 0 < n) (he : n % 2 = 0) :
    ∃ p1, W_mks strF (heldPulse n cf T fun j => f (time T n j)) = (.ok (wMks (heldPulse n cf T fun j => f (time T n j)) n), p1) := by
  have hold := (held_facts hf0 cf T hn he).1
  have hw := W_mks_miss (strF := strF) (p := heldPulse n cf T fun j => f (time T n j)) rfl (by simp [heldPulse, Pulse.blank])
  rw [wGrid_eq hold] at hw
  exact ⟨_, hw⟩

/-- C169: for every smooth periodic pulse and every generated fibre, `propagate` without
Raman response and self-steepening keeps the centroid that `calculate_weighted_avg_frequency_mks` reports, up to an error of order `1/NPTS`. -/
theorem C169_centroid (strF : ℝ → String) (polyfit : Fiber.PolyFit) (spline : Fiber.Spline) {f : ℝ → ℂ} {T : ℝ} (hT : 0 < T) (hf : ContDiff ℝ (⊤ : ℕ∞) f)
    (hper : Function.Periodic f T) (hf0 : f 0 ≠ 0) {m : ℕ} (b : Fin m → ℝ) (γ gain : ℝ) {cf L wl : ℝ}
    (hcf : cf ≠ 0) (hL : 0 < L) (hwl : wl ≠ 0) (label : String) :
    ∃ (C : ℝ) (n0 : ℕ), ∀ n, n0 ≤ n → n % 2 = 0 →
      ∃ N0 : ℕ, ∀ N, N0 ≤ N → ∃ r o' F' ν0 ν, propagate polyfit spline { Obj.default with disableSS := true, disableRaman := true }
          (heldPulse n cf T fun j => f (time T n j))
          ⟨Fiber.genFib L wl ⟨m, b⟩ γ gain "ps^n/m" label Fiber.Fib.new, Fiber.genSpecs gain⟩ N false = some (.ok (r, o', F')) ∧
        (weightedAvgFrequencyMks strF (heldPulse n cf T fun j => f (time T n j))).1 = .ok (ν0 * 10 ^ 12) ∧
        (weightedAvgFrequencyMks strF r.out).1 = .ok (ν * 10 ^ 12) ∧ |ν - ν0| ≤ C / n := by
  set o : Obj := { Obj.default with disableSS := true, disableRaman := true } with ho
  obtain ⟨u, hu, h0, -⟩ := C168_exists (fiberPoly b (2 * Real.pi * cf - 2 * Real.pi * cNmps / wl) T) gain γ 0 hT hL.le hf hper
  have e : ∀ n, samples u T n 0 = fun j => f (time T n j) := fun n => by
    unfold samples
    rw [h0]
  obtain ⟨C, n0, H⟩ := C139_computed_kerr (h := 0) continuous_const hu hT hL (by rw [h0]; exact held_energy hT hf hf0)
  refine ⟨2 * C, max n0 4, fun n hn he => ?_⟩
  have hn0 : n0 ≤ n := le_trans (le_max_left _ _) hn
  have hn4 : 4 ≤ n := le_trans (le_max_right _ _) hn
  obtain ⟨hold, hAT, hne⟩ := held_facts hf0 cf T (by omega : 0 < n) he
  obtain ⟨p1, hw⟩ := held_W_mks strF hf0 cf T (by omega : 0 < n) he
  have hload := C132_fiber polyfit spline o (p := heldPulse n cf T fun j => f (time T n j))
    hold hn4 he hT.ne' rfl (length := L) (gamma := γ) (gain := gain) (b := b) (units := "ps^n/m") (label := label) (by decide) hwl
  obtain ⟨N0, HN⟩ := H strF polyfit spline o (heldPulse n cf T fun j => f (time T n j)) p1 _ _ _ _ _ _ hold hn0 he hcf rfl (by rw [e]; exact hAT) (by rw [e]; exact hne)
    hw hload (fun k => rfl) rfl rfl
    (by norm_num [ho, Obj.default]) rfl rfl (by norm_num [ho, Obj.default]) (by norm_num [ho, Obj.default]) (by norm_num [ho, Obj.default])
  refine ⟨N0, fun N hN => ?_⟩
  obtain ⟨r, o', F', ν0, ν, k1, k2, k3, -, k5⟩ := HN N hN
  exact ⟨r, o', F', ν0, ν, k1, k2, k3, k5⟩

/-- C169: with the Raman response of the solver, the centroid rises by no more than the bound for the part of the memory that does not fit into half the
window, plus an error of order `1/NPTS`.  `S0`, `S1` bound the power and its slope in the limit field. -/
theorem C169_redshift (strF : ℝ → String) (polyfit : Fiber.PolyFit) (spline : Fiber.Spline) {f : ℝ → ℂ} {T : ℝ} (hT : 0 < T) (hf : ContDiff ℝ (⊤ : ℕ∞) f)
    (hper : Function.Periodic f T) (hf0 : f 0 ≠ 0) {m : ℕ} (b : Fin m → ℝ) {γ : ℝ} (hγ : 0 ≤ γ) (gain : ℝ) {cf L wl : ℝ}
    (hcf : cf ≠ 0) (hL : 0 < L) (hwl : wl ≠ 0) (label : String) :
    ∃ u, Solution (fiberPoly b (2 * Real.pi * cf - 2 * Real.pi * cNmps / wl) T) gain γ 0.245 (kernelFun Obj.default) T L u ∧ u 0 = f ∧
    ∀ S0 S1, (∀ z ∈ Icc 0 L, ∀ t, ‖u z t‖ ^ 2 ≤ S0) → (∀ z ∈ Icc 0 L, ∀ t, |_root_.deriv (fun t => ‖u z t‖ ^ 2) t| ≤ S1) →
    ∃ (C : ℝ) (n0 : ℕ), ∀ n, n0 ≤ n → n % 2 = 0 →
      ∃ N0 : ℕ, ∀ N, N0 ≤ N → ∃ r o' F' ν0 ν, propagate polyfit spline { Obj.default with disableSS := true }
          (heldPulse n cf T fun j => f (time T n j))
          ⟨Fiber.genFib L wl ⟨m, b⟩ γ gain "ps^n/m" label Fiber.Fib.new, Fiber.genSpecs gain⟩ N false = some (.ok (r, o', F')) ∧
        (weightedAvgFrequencyMks strF (heldPulse n cf T fun j => f (time T n j))).1 = .ok (ν0 * 10 ^ 12) ∧
        (weightedAvgFrequencyMks strF r.out).1 = .ok (ν * 10 ^ 12) ∧
        ν ≤ ν0 + riseBound Obj.default γ T (energy T f * Real.exp (-|gain| * L)) S0 S1 * L / (2 * Real.pi) + C / n := by
  set o : Obj := { Obj.default with disableSS := true } with ho
  have ht1 : 0 < o.tau1 := by norm_num [ho, Obj.default]
  have ht2 : 0 < o.tau2 := by norm_num [ho, Obj.default]
  have ef : fraction o = 0.245 := by simp [fraction, ho, Obj.default]
  have hfr : 0 ≤ fraction o := by rw [ef]; norm_num
  obtain ⟨u, hu, h0, -⟩ := C167_exists o ht1 ht2 (fiberPoly b (2 * Real.pi * cf - 2 * Real.pi * cNmps / wl) T) gain γ hT hL.le hf hper
  refine ⟨u, by rw [← ef]; exact hu, h0, fun S0 S1 b0 b1 => ?_⟩
  have e : ∀ n, samples u T n 0 = fun j => f (time T n j) := fun n => by
    unfold samples
    rw [h0]
  obtain ⟨C, n0, H⟩ := C139_computed o ht1 ht2 hfr hγ hu hT hL (by rw [h0]; exact held_energy hT hf hf0) b0 b1 rfl
    (by norm_num [ho, Obj.default]) rfl rfl (by norm_num [ho, Obj.default]) (by norm_num [ho, Obj.default]) (by norm_num [ho, Obj.default])
  refine ⟨2 * C, max n0 4, fun n hn he => ?_⟩
  have hn0 : n0 ≤ n := le_trans (le_max_left _ _) hn
  have hn4 : 4 ≤ n := le_trans (le_max_right _ _) hn
  obtain ⟨hold, hAT, hne⟩ := held_facts hf0 cf T (by omega : 0 < n) he
  obtain ⟨p1, hw⟩ := held_W_mks strF hf0 cf T (by omega : 0 < n) he
  obtain ⟨R, fR, hload⟩ := C133_fiber polyfit spline o (p := heldPulse n cf T fun j => f (time T n j))
    hold hn4 he hT.ne' ht1 ht2 (length := L) (gamma := γ) (gain := gain) (b := b) (units := "ps^n/m") (label := label) (by decide) hwl
  obtain ⟨N0, HN⟩ := H strF polyfit spline (heldPulse n cf T fun j => f (time T n j)) p1 _ _ _ R fR _ hold hn0 he hcf rfl (by rw [e]; exact hAT) (by rw [e]; exact hne)
    hw hload (fun k => rfl) rfl
  refine ⟨N0, fun N hN => ?_⟩
  obtain ⟨r, o', F', ν0, ν, k1, k2, k3, -, -, k6⟩ := HN N hN
  rw [h0] at k6
  exact ⟨r, o', F', ν0, ν, k1, k2, k3, k6⟩

theorem held_shifted {f : ℝ → ℂ} (cf T Ω : ℝ) {n : ℕ} (hn : 0 < n) : Holds (heldPulse n cf T (shiftedSamples Ω f T n)) (fftT (shiftedSamples Ω f T n)) ∧
    (heldPulse n cf T (shiftedSamples Ω f T n)).AT = .ok ⟨n, shiftedSamples Ω f T n⟩ := by
  have hold : Holds (heldPulse n cf T (shiftedSamples Ω f T n)) (fftT (shiftedSamples Ω f T n)) := ⟨rfl, rfl, hn, rfl⟩
  refine ⟨hold, ?_⟩
  have := hold.AT_eq
  rwa [ifftT_fftT] at this

/-- C169: for every smooth periodic pulse and every generated fibre, the choice of the
centre frequency of the grid does not matter: the spectra computed about `cf` and about `cf + k/T` agree at common optical frequencies up to
`K/nˢ + K/n'ˢ`. -/
theorem C169_centre (polyfit : Fiber.PolyFit) (spline : Fiber.Spline) {f : ℝ → ℂ} {T : ℝ} (hT : 0 < T) (hf : ContDiff ℝ (⊤ : ℕ∞) f)
    (hper : Function.Periodic f T) (hf0 : f 0 ≠ 0) {m : ℕ} (b : Fin m → ℝ) (γ gain : ℝ) {cf L wl : ℝ}
    (hL : 0 < L) (hwl : wl ≠ 0) (label : String) (k : ℤ) (hcf : cf ≠ 0) (hcf' : cf + k / T ≠ 0) (s : ℕ) :
    ∃ (K : ℝ) (n0 : ℕ), ∀ n n', n0 ≤ n → n % 2 = 0 → n0 ≤ n' → n' % 2 = 0 → ∃ N0 : ℕ, ∀ N, N0 ≤ N → ∃ r r' o1 o2 F1 F2,
      propagate polyfit spline { Obj.default with disableSS := true, disableRaman := true } (heldPulse n cf T fun j => f (time T n j))
        ⟨Fiber.genFib L wl ⟨m, b⟩ γ gain "ps^n/m" label Fiber.Fib.new, Fiber.genSpecs gain⟩ N false = some (.ok (r, o1, F1)) ∧
      propagate polyfit spline { Obj.default with disableSS := true, disableRaman := true }
        (heldPulse n' (cf + k / T) T (shiftedSamples (2 * Real.pi * k / T) f T n'))
        ⟨Fiber.genFib L wl ⟨m, b⟩ γ gain "ps^n/m" label Fiber.Fib.new, Fiber.genSpecs gain⟩ N false = some (.ok (r', o2, F2)) ∧
      ∀ i < N, ∃ (w : Fin n → ℂ) (w' : Fin n' → ℂ), r.AW[i]? = some ⟨n, w⟩ ∧ r'.AW[i]? = some ⟨n', w'⟩ ∧
        ∀ W W', (heldPulse n cf T fun j => f (time T n j)).W_THz = .ok ⟨n, W⟩ →
          (heldPulse n' (cf + k / T) T (shiftedSamples (2 * Real.pi * k / T) f T n')).W_THz = .ok ⟨n', W'⟩ →
          ∀ l l', W l = W' l' → |‖w l‖ - ‖w' l'‖| ≤ K / n ^ s + K / n' ^ s := by
  set o : Obj := { Obj.default with disableSS := true, disableRaman := true } with ho
  obtain ⟨u, hu, h0, -⟩ := C168_exists (fiberPoly b (2 * Real.pi * cf - 2 * Real.pi * cNmps / wl) T) gain γ 0 hT hL.le hf hper
  have e : ∀ n, samples u T n 0 = fun j => f (time T n j) := fun n => by
    unfold samples
    rw [h0]
  obtain ⟨K, n0, H⟩ := C165_centre hu hT hL hwl k s
  refine ⟨K, max n0 4, fun n n' hn he hn' he' => ?_⟩
  obtain ⟨hold, hAT, hne⟩ := held_facts hf0 cf T (by omega : 0 < n) he
  obtain ⟨-, -, hne'⟩ := held_facts hf0 cf T (by omega : 0 < n') he'
  obtain ⟨hold', hAT'⟩ := held_shifted (f := f) (cf + k / T) T (2 * Real.pi * k / T) (by omega : 0 < n')
  obtain ⟨N0, HN⟩ := H polyfit spline o "ps^n/m" label (heldPulse n cf T fun j => f (time T n j))
    (heldPulse n' (cf + k / T) T (shiftedSamples (2 * Real.pi * k / T) f T n')) _ _ (by decide) hold hold' ((le_max_left _ _).trans hn) ((le_max_left _ _).trans hn') he he'
    rfl rfl hcf hcf' rfl rfl (by rw [e]; exact hAT) (by rw [h0]; exact hAT') (by rw [e]; exact hne) (by rw [e]; exact hne') rfl
    (by norm_num [ho, Obj.default]) rfl rfl (by norm_num [ho, Obj.default]) (by norm_num [ho, Obj.default]) (by norm_num [ho, Obj.default])
  refine ⟨N0, fun N hN => ?_⟩
  obtain ⟨r, r', o1, o2, F1, F2, q1, q2, -, -, q5⟩ := HN N hN
  exact ⟨r, r', o1, o2, F1, F2, q1, q2, q5⟩

/-- C169: the same with Raman response; the spectra agree up to an error of order `1/NPTS`. -/
theorem C169_centre_raman (polyfit : Fiber.PolyFit) (spline : Fiber.Spline) {f : ℝ → ℂ} {T : ℝ} (hT : 0 < T) (hf : ContDiff ℝ (⊤ : ℕ∞) f)
    (hper : Function.Periodic f T) (hf0 : f 0 ≠ 0) {m : ℕ} (b : Fin m → ℝ) (γ gain : ℝ) {cf L wl : ℝ}
    (hL : 0 < L) (hwl : wl ≠ 0) (label : String) (k : ℤ) (hcf : cf ≠ 0) (hcf' : cf + k / T ≠ 0) :
    ∃ (K : ℝ) (n0 : ℕ), ∀ n n', n0 ≤ n → n % 2 = 0 → n0 ≤ n' → n' % 2 = 0 → ∃ N0 : ℕ, ∀ N, N0 ≤ N → ∃ r r' o1 o2 F1 F2,
      propagate polyfit spline { Obj.default with disableSS := true } (heldPulse n cf T fun j => f (time T n j))
        ⟨Fiber.genFib L wl ⟨m, b⟩ γ gain "ps^n/m" label Fiber.Fib.new, Fiber.genSpecs gain⟩ N false = some (.ok (r, o1, F1)) ∧
      propagate polyfit spline { Obj.default with disableSS := true }
        (heldPulse n' (cf + k / T) T (shiftedSamples (2 * Real.pi * k / T) f T n'))
        ⟨Fiber.genFib L wl ⟨m, b⟩ γ gain "ps^n/m" label Fiber.Fib.new, Fiber.genSpecs gain⟩ N false = some (.ok (r', o2, F2)) ∧
      ∀ i < N, ∃ (w : Fin n → ℂ) (w' : Fin n' → ℂ), r.AW[i]? = some ⟨n, w⟩ ∧ r'.AW[i]? = some ⟨n', w'⟩ ∧
        ∀ W W', (heldPulse n cf T fun j => f (time T n j)).W_THz = .ok ⟨n, W⟩ →
          (heldPulse n' (cf + k / T) T (shiftedSamples (2 * Real.pi * k / T) f T n')).W_THz = .ok ⟨n', W'⟩ →
          ∀ l l', W l = W' l' → |‖w l‖ - ‖w' l'‖| ≤ K / n + K / n' := by
  set o : Obj := { Obj.default with disableSS := true } with ho
  have ht1 : 0 < o.tau1 := by norm_num [ho, Obj.default]
  have ht2 : 0 < o.tau2 := by norm_num [ho, Obj.default]
  obtain ⟨u, hu, h0, -⟩ := C167_exists o ht1 ht2 (fiberPoly b (2 * Real.pi * cf - 2 * Real.pi * cNmps / wl) T) gain γ hT hL.le hf hper
  have e : ∀ n, samples u T n 0 = fun j => f (time T n j) := fun n => by
    unfold samples
    rw [h0]
  obtain ⟨K, n0, H⟩ := C165_centre_raman o ht1 ht2 hu hT hL hwl k rfl
    (by norm_num [ho, Obj.default]) rfl rfl (by norm_num [ho, Obj.default]) (by norm_num [ho, Obj.default]) (by norm_num [ho, Obj.default])
  refine ⟨K, max n0 4, fun n n' hn he hn' he' => ?_⟩
  obtain ⟨hold, hAT, hne⟩ := held_facts hf0 cf T (by omega : 0 < n) he
  obtain ⟨-, -, hne'⟩ := held_facts hf0 cf T (by omega : 0 < n') he'
  obtain ⟨hold', hAT'⟩ := held_shifted (f := f) (cf + k / T) T (2 * Real.pi * k / T) (by omega : 0 < n')
  obtain ⟨N0, HN⟩ := H polyfit spline "ps^n/m" label (heldPulse n cf T fun j => f (time T n j))
    (heldPulse n' (cf + k / T) T (shiftedSamples (2 * Real.pi * k / T) f T n')) _ _ (by decide) hold hold' ((le_max_left _ _).trans hn) ((le_max_left _ _).trans hn') he he'
    rfl rfl hcf hcf' rfl rfl (by rw [e]; exact hAT) (by rw [h0]; exact hAT') (by rw [e]; exact hne) (by rw [e]; exact hne')
  refine ⟨N0, fun N hN => ?_⟩
  obtain ⟨r, r', o1, o2, F1, F2, q1, q2, -, -, q5⟩ := HN N hN
  exact ⟨r, r', o1, o2, F1, F2, q1, q2, q5⟩

/-- C169: for every smooth periodic pulse and every generated fibre there is a constant `K`,
the same for all grids, such that an input that deviates from the samples of the pulse by a small `d` (in the Sobolev norm) gives stored fields that
deviate from those of the undisturbed pulse by at most `K·d`, up to `C/nˢ`. -/
theorem C169_noise (polyfit : Fiber.PolyFit) (spline : Fiber.Spline) {f : ℝ → ℂ} {T : ℝ} (hT : 0 < T) (hf : ContDiff ℝ (⊤ : ℕ∞) f)
    (hper : Function.Periodic f T) (hf0 : f 0 ≠ 0) {m : ℕ} (b : Fin m → ℝ) (γ gain : ℝ) {cf L wl : ℝ}
    (hcf : cf ≠ 0) (hL : 0 < L) (hwl : wl ≠ 0) (label : String) (s : ℕ) :
    ∃ (K C δ : ℝ) (n0 : ℕ), 0 < δ ∧ ∀ n, n0 ≤ n → n % 2 = 0 → ∀ (A : Fin n → ℂ) (d : ℝ), A ≠ 0 → 0 ≤ d → d ≤ δ →
      sobolev T (A - fun j => f (time T n j)) ≤ d ^ 2 → ∃ N0 : ℕ, ∀ N, N0 ≤ N → ∃ r r' o1 o2 F1 F2,
      propagate polyfit spline { Obj.default with disableSS := true, disableRaman := true } (heldPulse n cf T A)
        ⟨Fiber.genFib L wl ⟨m, b⟩ γ gain "ps^n/m" label Fiber.Fib.new, Fiber.genSpecs gain⟩ N false = some (.ok (r, o1, F1)) ∧
      propagate polyfit spline { Obj.default with disableSS := true, disableRaman := true } (heldPulse n cf T fun j => f (time T n j))
        ⟨Fiber.genFib L wl ⟨m, b⟩ γ gain "ps^n/m" label Fiber.Fib.new, Fiber.genSpecs gain⟩ N false = some (.ok (r', o2, F2)) ∧
      ∀ i < N, ∃ (v v' : Fin n → ℂ), r.AT[i]? = some ⟨n, v⟩ ∧ r'.AT[i]? = some ⟨n, v'⟩ ∧ ∀ j, ‖v j - v' j‖ ≤ K * d + C / n ^ s := by
  set o : Obj := { Obj.default with disableSS := true, disableRaman := true } with ho
  obtain ⟨u, hu, h0, -⟩ := C168_exists (fiberPoly b (2 * Real.pi * cf - 2 * Real.pi * cNmps / wl) T) gain γ 0 hT hL.le hf hper
  have e : ∀ n, samples u T n 0 = fun j => f (time T n j) := fun n => by
    unfold samples
    rw [h0]
  obtain ⟨K, C, δ, n0, hδ, H⟩ := C149_propagate hu hT hL s
  simp only [e] at H
  refine ⟨K, 2 * C, δ, max n0 4, hδ, fun n hn he A d hA hd0 hdδ hsob => ?_⟩
  have hn0 : n0 ≤ n := le_trans (le_max_left _ _) hn
  have hn4 : 4 ≤ n := le_trans (le_max_right _ _) hn
  have run : ∀ (B : Fin n → ℂ) (d : ℝ), B ≠ 0 → 0 ≤ d → d ≤ δ → sobolev T (B - fun j => f (time T n j)) ≤ d ^ 2 →
      ∃ N0 : ℕ, ∀ N, N0 ≤ N → ∃ r o' F', propagate polyfit spline o (heldPulse n cf T B)
        ⟨Fiber.genFib L wl ⟨m, b⟩ γ gain "ps^n/m" label Fiber.Fib.new, Fiber.genSpecs gain⟩ N false = some (.ok (r, o', F')) ∧ r.AT.length = N ∧
        ∀ i < N, ∃ v : Fin n → ℂ, r.AT[i]? = some ⟨n, v⟩ ∧ ∀ j, ‖v j - u ((i + 1) * (L / N)) (time T n j)‖ ≤ K * d + C / n ^ s := by
    intro B d hB hd0 hdδ hsob
    have hold : Holds (heldPulse n cf T B) (fftT B) := ⟨rfl, rfl, by omega, rfl⟩
    have hAT : (heldPulse n cf T B).AT = .ok ⟨n, B⟩ := by
      have := hold.AT_eq
      rwa [ifftT_fftT] at this
    have hload := C132_fiber polyfit spline o (p := heldPulse n cf T B)
      hold hn4 he hT.ne' rfl (length := L) (gamma := γ) (gain := gain) (b := b) (units := "ps^n/m") (label := label) (by decide) hwl
    exact H polyfit spline o (heldPulse n cf T B) _ _ _ _ _ _ B d hold hn0 he hcf hAT hB hd0 hdδ hsob hload (fun k => rfl) rfl rfl
      (by norm_num [ho, Obj.default]) rfl rfl (by norm_num [ho, Obj.default]) (by norm_num [ho, Obj.default]) (by norm_num [ho, Obj.default])
  obtain ⟨N1, G1⟩ := run A d hA hd0 hdδ hsob
  obtain ⟨N2, G2⟩ := run (fun j => f (time T n j)) 0 (held_facts hf0 cf T (by omega : 0 < n) he).2.2 le_rfl hδ.le (by simp [sobolev, slopes])
  refine ⟨max N1 N2, fun N hN => ?_⟩
  obtain ⟨r, o1, F1, hr, -, hcol⟩ := G1 N ((le_max_left _ _).trans hN)
  obtain ⟨r', o2, F2, hr', -, hcol'⟩ := G2 N ((le_max_right _ _).trans hN)
  refine ⟨r, r', o1, o2, F1, F2, hr, hr', fun i hi => ?_⟩
  obtain ⟨v, hv, e1⟩ := hcol i hi
  obtain ⟨v', hv', e2⟩ := hcol' i hi
  refine ⟨v, v', hv, hv', fun j => ?_⟩
  have i1 := e1 j
  have i2 := e2 j
  have i3 : ‖v j - v' j‖ ≤ ‖v j - u ((i + 1) * (L / N)) (time T n j)‖ + ‖v' j - u ((i + 1) * (L / N)) (time T n j)‖ := by
    have := norm_sub_le (v j - u ((i + 1) * (L / N)) (time T n j)) (v' j - u ((i + 1) * (L / N)) (time T n j))
    rwa [sub_sub_sub_cancel_right] at this
  have i4 : 2 * C / (n : ℝ) ^ s = C / (n : ℝ) ^ s + C / (n : ℝ) ^ s := by ring
  rw [i4]
  linarith

/-- C169 applies: a pulse `2 + cos t`, a fibre with second and third order dispersion, a kilometre of propagation with gain, and a grid whose centre is moved
by five steps. -/
theorem C169_nonvacuous (strF : ℝ → String) (polyfit : Fiber.PolyFit) (spline : Fiber.Spline) :
    let f : ℝ → ℂ := fun t => 2 + Complex.cos t;
    let F : FibObj := ⟨Fiber.genFib 1000 1550 ⟨2, fun i : Fin 2 => if i = 1 then (1 : ℝ) else -1⟩ 1 (1 / 10) "ps^n/m" "" Fiber.Fib.new, Fiber.genSpecs (1 / 10)⟩;
    let T : ℝ := 2 * Real.pi;
    (∃ (C : ℝ) (n0 : ℕ), ∀ n, n0 ≤ n → n % 2 = 0 →
      ∃ N0 : ℕ, ∀ N, N0 ≤ N → ∃ r o' F' ν0 ν, propagate polyfit spline { Obj.default with disableSS := true, disableRaman := true }
          (heldPulse n 1 T fun j => f (time T n j)) F N false = some (.ok (r, o', F')) ∧
        (weightedAvgFrequencyMks strF (heldPulse n 1 T fun j => f (time T n j))).1 = .ok (ν0 * 10 ^ 12) ∧
        (weightedAvgFrequencyMks strF r.out).1 = .ok (ν * 10 ^ 12) ∧ |ν - ν0| ≤ C / n) ∧
    ∃ (K : ℝ) (n0 : ℕ), ∀ n n', n0 ≤ n → n % 2 = 0 → n0 ≤ n' → n' % 2 = 0 → ∃ N0 : ℕ, ∀ N, N0 ≤ N → ∃ r r' o1 o2 F1 F2,
      propagate polyfit spline { Obj.default with disableSS := true } (heldPulse n 1 T fun j => f (time T n j)) F N false = some (.ok (r, o1, F1)) ∧
      propagate polyfit spline { Obj.default with disableSS := true } (heldPulse n' (1 + (5 : ℤ) / T) T (shiftedSamples (2 * Real.pi * (5 : ℤ) / T) f T n')) F N false =
        some (.ok (r', o2, F2)) ∧
      ∀ i < N, ∃ (w : Fin n → ℂ) (w' : Fin n' → ℂ), r.AW[i]? = some ⟨n, w⟩ ∧ r'.AW[i]? = some ⟨n', w'⟩ ∧
        ∀ W W', (heldPulse n 1 T fun j => f (time T n j)).W_THz = .ok ⟨n, W⟩ →
          (heldPulse n' (1 + (5 : ℤ) / T) T (shiftedSamples (2 * Real.pi * (5 : ℤ) / T) f T n')).W_THz = .ok ⟨n', W'⟩ →
          ∀ l l', W l = W' l' → |‖w l‖ - ‖w' l'‖| ≤ K / n + K / n' := by
  intro f F T
  have hpi := Real.pi_pos
  have hper : Function.Periodic f T := fun t => by
    simp only [f, T]
    push_cast
    rw [Complex.cos_add_two_pi]
  have hsm : ContDiff ℝ (⊤ : ℕ∞) f := by
    have : ContDiff ℝ (⊤ : ℕ∞) fun t : ℝ => ((Real.cos t : ℝ) : ℂ) := Complex.ofRealCLM.contDiff.comp Real.contDiff_cos
    simpa using contDiff_const.add this
  have hf0 : f 0 ≠ 0 := by norm_num [f]
  have hT : 0 < T := by positivity
  exact ⟨C169_centroid strF polyfit spline hT hsm hper hf0 _ 1 (1 / 10) one_ne_zero (by norm_num) (by norm_num) "",
    C169_centre_raman polyfit spline hT hsm hper hf0 _ 1 (1 / 10) (by norm_num) (by norm_num) "" 5 one_ne_zero (by positivity)⟩

end PyNLO
