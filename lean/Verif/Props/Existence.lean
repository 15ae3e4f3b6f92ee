import Verif.Lemmas.WienerAll
import Verif.Props.NlseRaman
import Verif.Props.NlseExamples

/-!
# Every smooth pulse has a field to which `propagate` converges

C132 and C133 speak about smooth solutions of the partial differential equation.  Here the solutions are shown to exist, so the convergence of
`propagate` holds for every smooth periodic pulse.
-/

namespace PyNLO

open Complex Set Polynomial Ssfm Pulse OdeGlobal Nlse Alias MeasureTheory

variable {n : ℕ}

/-- C167: every smooth periodic pulse has a solution of the equation with polynomial dispersion of any order, gain and the delayed response of the
solver over every distance; there is one solution only. -/
theorem C167_exists (o : Obj) (h1 : 0 < o.tau1) (h2 : 0 < o.tau2) (b : ℝ[X]) (g γ : ℝ) {T L : ℝ} (hT : 0 < T)
    (hL : 0 ≤ L) {f : ℝ → ℂ} (hf : ContDiff ℝ (⊤ : ℕ∞) f) (hp : Function.Periodic f T) :
    ∃ u, Solution b g γ (fraction o) (kernelFun o) T L u ∧ u 0 = f ∧
      ∀ v, Solution b g γ (fraction o) (kernelFun o) T L v → v 0 = f → ∀ z ∈ Icc 0 L, v z = u z := by
  obtain ⟨u, hu, h0⟩ := Wiener.exists_nlse_all b g γ (fraction o) ((kernel_contDiff o).of_le (by exact_mod_cast le_top)) hT hf hp hL
  refine ⟨u, hu, h0, fun v hv hv0 z hz => funext fun t => ?_⟩
  exact C133_unique h1 h2 hv hu hT (fun t => by rw [hv0, h0]) hz t

/-- C167: `propagate` with Raman response converges to the solution for every smooth periodic pulse and every distance. -/
theorem C167_converges (o : Obj) (h1 : 0 < o.tau1) (h2 : 0 < o.tau2) (b : ℝ[X]) (g γ : ℝ) {T L : ℝ} (hT : 0 < T)
    (hL : 0 < L) {f : ℝ → ℂ} (hf : ContDiff ℝ (⊤ : ℕ∞) f) (hp : Function.Periodic f T)
    (hm : o.method = .rk4ip) (heta : o.eta = 5) (hss : o.disableSS = true) (hram : o.disableRaman = false) (hdz : 0 < o.dz) (hmin : 0 < o.dzMin)
    (hle : 0 < o.localError) :
    ∃ u, Solution b g γ (fraction o) (kernelFun o) T L u ∧ u 0 = f ∧
    ∃ (C : ℝ) (n0 : ℕ), ∀ (polyfit : Fiber.PolyFit) (spline : Fiber.Spline) (p : Pulse) (F : FibObj) (f1 : Fiber.Fib) (β : Fin p.n → ℝ)
      (R : Fin p.n → ℂ) (fR : ℝ) (a : Fin p.n → ℂ), Holds p a → n0 ≤ p.n → p.n % 2 = 0 → p.cf ≠ 0 → p.tw = T →
      p.AT = .ok ⟨p.n, fun j => f (time T p.n j)⟩ → (fun j => f (time T p.n j)) ≠ 0 → Loads polyfit spline o p F f1 β g R γ fR →
      (∀ k, β k = b.eval (2 * Real.pi * ((k : ℕ) - (p.n : ℝ) / 2) / T)) → F.fib.length = some L →
      ∃ N0 : ℕ, ∀ N, N0 ≤ N → ∃ r o' F', propagate polyfit spline o p F N false = some (.ok (r, o', F')) ∧ r.AT.length = N ∧
        ∀ i < N, ∃ v : Fin p.n → ℂ, r.AT[i]? = some ⟨p.n, v⟩ ∧
          1 / (p.n : ℝ) * ∑ j, ‖v j - u ((i + 1) * (L / N)) (time T p.n j)‖ ^ 2 ≤ (C / p.n) ^ 2 := by
  obtain ⟨u, hu, h0, -⟩ := C167_exists o h1 h2 b g γ hT hL.le hf hp
  refine ⟨u, hu, h0, ?_⟩
  have e : ∀ n, samples u T n 0 = fun j => f (time T n j) := fun n => by
    unfold samples
    rw [h0]
  obtain ⟨C, n0, H⟩ := C133_converges o h1 h2 hu hT hL hm heta hss hram hdz hmin hle
  simp only [e] at H
  exact ⟨C, n0, H⟩

/-- C168: without delayed response every smooth periodic pulse has a solution over every distance, for every polynomial dispersion and every gain; there
is one solution only. -/
theorem C168_exists (b : ℝ[X]) (g γ : ℝ) (h : ℝ → ℝ) {T L : ℝ} (hT : 0 < T)
    (hL : 0 ≤ L) {f : ℝ → ℂ} (hf : ContDiff ℝ (⊤ : ℕ∞) f) (hp : Function.Periodic f T) :
    ∃ u, Solution b g γ 0 h T L u ∧ u 0 = f ∧ ∀ v, Solution b g γ 0 h T L v → v 0 = f → ∀ z ∈ Icc 0 L, v z = u z := by
  obtain ⟨u, hu, h0⟩ := Wiener.exists_nlse_plain b g γ h hT hf hp hL
  refine ⟨u, hu, h0, fun v hv hv0 z hz => funext fun t => ?_⟩
  exact C132_unique hv hu hT (fun t => by rw [hv0, h0]) hz t

/-- C168: for every smooth periodic pulse, every distance and every order `s` there is a field to which `propagate` converges faster than `NPTS⁻ˢ`. -/
theorem C168_converges (b : ℝ[X]) (g γ : ℝ) {T L : ℝ} (hT : 0 < T) (hL : 0 < L) {f : ℝ → ℂ}
    (hf : ContDiff ℝ (⊤ : ℕ∞) f) (hp : Function.Periodic f T) :
    ∃ u, Solution b g γ 0 0 T L u ∧ u 0 = f ∧ ∀ s : ℕ,
    ∃ (C : ℝ) (n0 : ℕ), ∀ (polyfit : Fiber.PolyFit) (spline : Fiber.Spline) (o : Obj) (p : Pulse) (F : FibObj) (f1 : Fiber.Fib) (β : Fin p.n → ℝ)
      (R : Fin p.n → ℂ) (fR : ℝ) (a : Fin p.n → ℂ), Holds p a → n0 ≤ p.n → p.n % 2 = 0 → p.cf ≠ 0 →
      p.AT = .ok ⟨p.n, fun j => f (time T p.n j)⟩ → (fun j => f (time T p.n j)) ≠ 0 → Loads polyfit spline o p F f1 β g R γ fR →
      (∀ k, β k = b.eval (2 * Real.pi * ((k : ℕ) - (p.n : ℝ) / 2) / T)) →
      F.fib.length = some L → o.method = .rk4ip → o.eta = 5 → o.disableSS = true → o.disableRaman = true → 0 < o.dz → 0 < o.dzMin →
      0 < o.localError →
      ∃ N0 : ℕ, ∀ N, N0 ≤ N → ∃ r o' F', propagate polyfit spline o p F N false = some (.ok (r, o', F')) ∧ r.AT.length = N ∧
        ∀ i < N, ∃ v : Fin p.n → ℂ, r.AT[i]? = some ⟨p.n, v⟩ ∧ ∀ j, ‖v j - u ((i + 1) * (L / N)) (time T p.n j)‖ ≤ C / p.n ^ s := by
  obtain ⟨u, hu, h0, -⟩ := C168_exists b g γ 0 hT hL.le hf hp
  refine ⟨u, hu, h0, fun s => ?_⟩
  have e : ∀ n, samples u T n 0 = fun j => f (time T n j) := fun n => by
    unfold samples
    rw [h0]
  obtain ⟨C, n0, H⟩ := C132_converges hu hT hL s
  simp only [e] at H
  exact ⟨C, n0, H⟩

/-! ## fibres and pulses to which this applies -/

theorem held_facts {f : ℝ → ℂ} (hf0 : f 0 ≠ 0) (cf T : ℝ) {n : ℕ} (hn : 0 < n) (he : n % 2 = 0) :
    Holds (heldPulse n cf T fun j => f (time T n j)) (fftT fun j => f (time T n j)) ∧
    (heldPulse n cf T fun j => f (time T n j)).AT = .ok ⟨n, fun j => f (time T n j)⟩ ∧ (fun j : Fin n => f (time T n j)) ≠ 0 := by
  have hold : Holds (heldPulse n cf T fun j => f (time T n j)) (fftT fun j => f (time T n j)) := ⟨rfl, rfl, hn, rfl⟩
  refine ⟨hold, ?_, ?_⟩
  · have := hold.AT_eq
    rwa [ifftT_fftT] at this
  · intro h0
    have h1 := congrFun h0 ⟨n / 2, by omega⟩
    have h2 : time T n ⟨n / 2, by omega⟩ = 0 := by
      unfold time
      have : ((n / 2 : ℕ) : ℝ) = (n : ℝ) / 2 := by rw [Nat.cast_div (by omega) (by norm_num)]; norm_num
      show (((n / 2 : ℕ) : ℝ) - (n : ℝ) / 2) * _ = 0
      rw [this]
      ring
    simp only [h2] at h1
    exact hf0 h1

/-- C167: for every smooth periodic pulse, every generated fibre, every length and the
default solver without self-steepening there is a field that the stored fields of `propagate` approach when the grid is refined. -/
theorem C167_fiber (polyfit : Fiber.PolyFit) (spline : Fiber.Spline) {f : ℝ → ℂ} {T : ℝ} (hT : 0 < T) (hf : ContDiff ℝ (⊤ : ℕ∞) f)
    (hper : Function.Periodic f T) (hf0 : f 0 ≠ 0) {m : ℕ} (b : Fin m → ℝ) (γ gain : ℝ) {cf L wl : ℝ}
    (hcf : cf ≠ 0) (hL : 0 < L) (hwl : wl ≠ 0) (label : String) :
    ∃ u, Solution (fiberPoly b (2 * Real.pi * cf - 2 * Real.pi * cNmps / wl) T) gain γ 0.245 (kernelFun Obj.default) T L u ∧ u 0 = f ∧
    ∃ (C : ℝ) (n0 : ℕ), ∀ n, n0 ≤ n → n % 2 = 0 →
      ∃ N0 : ℕ, ∀ N, N0 ≤ N → ∃ r o' F', propagate polyfit spline { Obj.default with disableSS := true } (heldPulse n cf T fun j => f (time T n j))
          ⟨Fiber.genFib L wl ⟨m, b⟩ γ gain "ps^n/m" label Fiber.Fib.new, Fiber.genSpecs gain⟩ N false = some (.ok (r, o', F')) ∧ r.AT.length = N ∧
        ∀ i < N, ∃ v : Fin n → ℂ, r.AT[i]? = some ⟨n, v⟩ ∧
          1 / (n : ℝ) * ∑ j, ‖v j - u ((i + 1) * (L / N)) (time T n j)‖ ^ 2 ≤ (C / n) ^ 2 := by
  set o : Obj := { Obj.default with disableSS := true } with ho
  have ht1 : 0 < o.tau1 := by norm_num [ho, Obj.default]
  have ht2 : 0 < o.tau2 := by norm_num [ho, Obj.default]
  have e : fraction o = 0.245 := by simp [fraction, ho, Obj.default]
  obtain ⟨u, hu, h0, C, n0, H⟩ := C167_converges o ht1 ht2 (fiberPoly b (2 * Real.pi * cf - 2 * Real.pi * cNmps / wl) T) gain γ hT hL hf hper rfl
    (by norm_num [ho, Obj.default]) rfl rfl (by norm_num [ho, Obj.default]) (by norm_num [ho, Obj.default]) (by norm_num [ho, Obj.default])
  rw [e] at hu
  refine ⟨u, hu, h0, C, max n0 4, fun n hn he => ?_⟩
  have hn0 : n0 ≤ n := le_trans (le_max_left _ _) hn
  have hn4 : 4 ≤ n := le_trans (le_max_right _ _) hn
  obtain ⟨hold, hAT, hne⟩ := held_facts hf0 cf T (by omega : 0 < n) he
  obtain ⟨R, fR, hload⟩ := C133_fiber polyfit spline o (p := heldPulse n cf T fun j => f (time T n j))
    hold hn4 he hT.ne' ht1 ht2 (length := L) (gamma := γ) (gain := gain) (b := b) (units := "ps^n/m") (label := label) (by decide) hwl
  exact H polyfit spline (heldPulse n cf T fun j => f (time T n j)) _ _ _ R fR _ hold hn0 he hcf rfl hAT hne hload (fun k => rfl) rfl

/-- C167 applies: a fibre with second and third order dispersion, a pulse `2 + cos t`, Raman response and a kilometre of propagation with gain. -/
theorem C167_nonvacuous (polyfit : Fiber.PolyFit) (spline : Fiber.Spline) : ∃ u : ℝ → ℝ → ℂ, (∀ t : ℝ, u 0 t = 2 + Complex.cos t) ∧
    ∃ (C : ℝ) (n0 : ℕ), ∀ n, n0 ≤ n → n % 2 = 0 →
      ∃ N0 : ℕ, ∀ N, N0 ≤ N → ∃ r o' F', propagate polyfit spline { Obj.default with disableSS := true }
          (heldPulse n 1 (2 * Real.pi) fun j => 2 + Complex.cos (time (2 * Real.pi) n j))
          ⟨Fiber.genFib 1000 1550 ⟨2, fun i : Fin 2 => if i = 1 then (1 : ℝ) else -1⟩ 1 (1 / 10) "ps^n/m" "" Fiber.Fib.new, Fiber.genSpecs (1 / 10)⟩ N false =
            some (.ok (r, o', F')) ∧ r.AT.length = N ∧
        ∀ i < N, ∃ v : Fin n → ℂ, r.AT[i]? = some ⟨n, v⟩ ∧
          1 / (n : ℝ) * ∑ j, ‖v j - u ((i + 1) * (1000 / N)) (time (2 * Real.pi) n j)‖ ^ 2 ≤ (C / n) ^ 2 := by
  have hper : Function.Periodic (fun t : ℝ => (2 + Complex.cos t : ℂ)) (2 * Real.pi) := fun t => by
    push_cast
    rw [Complex.cos_add_two_pi]
  have hsm : ContDiff ℝ (⊤ : ℕ∞) fun t : ℝ => (2 + Complex.cos t : ℂ) := by
    have : ContDiff ℝ (⊤ : ℕ∞) fun t : ℝ => ((Real.cos t : ℝ) : ℂ) := Complex.ofRealCLM.contDiff.comp Real.contDiff_cos
    simpa using contDiff_const.add this
  obtain ⟨u, -, h0, H⟩ := C167_fiber polyfit spline (f := fun t : ℝ => (2 + Complex.cos t : ℂ)) (T := 2 * Real.pi) (by positivity) hsm hper
    (by norm_num) (fun i : Fin 2 => if i = 1 then (1 : ℝ) else -1) 1 (1 / 10) (cf := 1) (L := 1000) (wl := 1550)
    one_ne_zero (by norm_num) (by norm_num) ""
  exact ⟨u, fun t => congrFun h0 t, H⟩

/-- C168: for every smooth periodic pulse, every generated fibre and every length,
there is a field that the stored fields of `propagate` without Raman response and self-steepening approach faster than every power of the number of points. -/
theorem C168_fiber (polyfit : Fiber.PolyFit) (spline : Fiber.Spline) {f : ℝ → ℂ} {T : ℝ} (hT : 0 < T) (hf : ContDiff ℝ (⊤ : ℕ∞) f)
    (hper : Function.Periodic f T) (hf0 : f 0 ≠ 0) {m : ℕ} (b : Fin m → ℝ) (γ gain : ℝ) {cf L wl : ℝ}
    (hcf : cf ≠ 0) (hL : 0 < L) (hwl : wl ≠ 0) (label : String) :
    ∃ u, Solution (fiberPoly b (2 * Real.pi * cf - 2 * Real.pi * cNmps / wl) T) gain γ 0 0 T L u ∧ u 0 = f ∧
    ∀ s : ℕ, ∃ (C : ℝ) (n0 : ℕ), ∀ n, n0 ≤ n → n % 2 = 0 →
      ∃ N0 : ℕ, ∀ N, N0 ≤ N → ∃ r o' F', propagate polyfit spline { Obj.default with disableSS := true, disableRaman := true }
          (heldPulse n cf T fun j => f (time T n j))
          ⟨Fiber.genFib L wl ⟨m, b⟩ γ gain "ps^n/m" label Fiber.Fib.new, Fiber.genSpecs gain⟩ N false = some (.ok (r, o', F')) ∧ r.AT.length = N ∧
        ∀ i < N, ∃ v : Fin n → ℂ, r.AT[i]? = some ⟨n, v⟩ ∧ ∀ j, ‖v j - u ((i + 1) * (L / N)) (time T n j)‖ ≤ C / n ^ s := by
  set o : Obj := { Obj.default with disableSS := true, disableRaman := true } with ho
  obtain ⟨u, hu, h0, H⟩ := C168_converges (fiberPoly b (2 * Real.pi * cf - 2 * Real.pi * cNmps / wl) T) gain γ hT hL hf hper
  refine ⟨u, hu, h0, fun s => ?_⟩
  obtain ⟨C, n0, H⟩ := H s
  refine ⟨C, max n0 4, fun n hn he => ?_⟩
  have hn0 : n0 ≤ n := le_trans (le_max_left _ _) hn
  have hn4 : 4 ≤ n := le_trans (le_max_right _ _) hn
  obtain ⟨hold, hAT, hne⟩ := held_facts hf0 cf T (by omega : 0 < n) he
  have hload := C132_fiber polyfit spline o (p := heldPulse n cf T fun j => f (time T n j))
    hold hn4 he hT.ne' rfl (length := L) (gamma := γ) (gain := gain) (b := b) (units := "ps^n/m") (label := label) (by decide) hwl
  exact H polyfit spline o (heldPulse n cf T fun j => f (time T n j)) _ _ _ _ _ _ hold hn0 he hcf hAT hne hload (fun k => rfl) rfl rfl
    (by norm_num [ho, Obj.default]) rfl rfl (by norm_num [ho, Obj.default]) (by norm_num [ho, Obj.default]) (by norm_num [ho, Obj.default])

/-- C168: results on two grids agree at common times, up to an error that vanishes faster than every power of the number of points; no solution of
the partial differential equation is mentioned. -/
theorem C168_grids (polyfit : Fiber.PolyFit) (spline : Fiber.Spline) {f : ℝ → ℂ} {T : ℝ} (hT : 0 < T) (hf : ContDiff ℝ (⊤ : ℕ∞) f)
    (hper : Function.Periodic f T) (hf0 : f 0 ≠ 0) {m : ℕ} (b : Fin m → ℝ) (γ gain : ℝ) {cf L wl : ℝ}
    (hcf : cf ≠ 0) (hL : 0 < L) (hwl : wl ≠ 0) (label : String) (s : ℕ) :
    ∃ (C : ℝ) (n0 : ℕ), ∀ n n', n0 ≤ n → n % 2 = 0 → n0 ≤ n' → n' % 2 = 0 → ∃ N0 : ℕ, ∀ N, N0 ≤ N →
      ∃ r o' F' r' o'' F'',
        propagate polyfit spline { Obj.default with disableSS := true, disableRaman := true } (heldPulse n cf T fun j => f (time T n j))
          ⟨Fiber.genFib L wl ⟨m, b⟩ γ gain "ps^n/m" label Fiber.Fib.new, Fiber.genSpecs gain⟩ N false = some (.ok (r, o', F')) ∧
        propagate polyfit spline { Obj.default with disableSS := true, disableRaman := true } (heldPulse n' cf T fun j => f (time T n' j))
          ⟨Fiber.genFib L wl ⟨m, b⟩ γ gain "ps^n/m" label Fiber.Fib.new, Fiber.genSpecs gain⟩ N false = some (.ok (r', o'', F'')) ∧
        ∀ i < N, ∃ (v : Fin n → ℂ) (v' : Fin n' → ℂ), r.AT[i]? = some ⟨n, v⟩ ∧ r'.AT[i]? = some ⟨n', v'⟩ ∧
          ∀ j j', time T n j = time T n' j' → ‖v j - v' j'‖ ≤ C / n ^ s + C / n' ^ s := by
  obtain ⟨u, -, -, H⟩ := C168_fiber polyfit spline hT hf hper hf0 b γ gain hcf hL hwl label
  obtain ⟨C, n0, H⟩ := H s
  refine ⟨C, n0, fun n n' hn he hn' he' => ?_⟩
  obtain ⟨N1, H1⟩ := H n hn he
  obtain ⟨N2, H2⟩ := H n' hn' he'
  refine ⟨max N1 N2, fun N hN => ?_⟩
  obtain ⟨r, o', F', hr, -, hc⟩ := H1 N ((le_max_left _ _).trans hN)
  obtain ⟨r', o'', F'', hr', -, hc'⟩ := H2 N ((le_max_right _ _).trans hN)
  refine ⟨r, o', F', r', o'', F'', hr, hr', fun i hi => ?_⟩
  obtain ⟨v, hv, e⟩ := hc i hi
  obtain ⟨v', hv', e'⟩ := hc' i hi
  refine ⟨v, v', hv, hv', fun j j' ht => ?_⟩
  have h1 := e j
  have h2 := e' j'
  rw [← ht] at h2
  calc ‖v j - v' j'‖ = ‖(v j - u ((i + 1) * (L / N)) (time T n j)) - (v' j' - u ((i + 1) * (L / N)) (time T n j))‖ := by congr 1; ring
    _ ≤ _ := (norm_sub_le _ _).trans (add_le_add h1 h2)

/-- C168 applies: a fibre with second and third order dispersion, a pulse `2 + cos t` and a kilometre of propagation with gain. -/
theorem C168_nonvacuous (polyfit : Fiber.PolyFit) (spline : Fiber.Spline) : ∃ u : ℝ → ℝ → ℂ, (∀ t : ℝ, u 0 t = 2 + Complex.cos t) ∧
    Solution (fiberPoly (fun i : Fin 2 => if i = 1 then (1 : ℝ) else -1) (2 * Real.pi * 1 - 2 * Real.pi * cNmps / 1550) (2 * Real.pi)) (1 / 10) 1 0 0 (2 * Real.pi) 1000 u ∧
    ∃ (C : ℝ) (n0 : ℕ), ∀ n, n0 ≤ n → n % 2 = 0 →
      ∃ N0 : ℕ, ∀ N, N0 ≤ N → ∃ r o' F', propagate polyfit spline { Obj.default with disableSS := true, disableRaman := true }
          (heldPulse n 1 (2 * Real.pi) fun j => 2 + Complex.cos (time (2 * Real.pi) n j))
          ⟨Fiber.genFib 1000 1550 ⟨2, fun i : Fin 2 => if i = 1 then (1 : ℝ) else -1⟩ 1 (1 / 10) "ps^n/m" "" Fiber.Fib.new, Fiber.genSpecs (1 / 10)⟩ N false =
            some (.ok (r, o', F')) ∧ r.AT.length = N ∧
        ∀ i < N, ∃ v : Fin n → ℂ, r.AT[i]? = some ⟨n, v⟩ ∧ ∀ j, ‖v j - u ((i + 1) * (1000 / N)) (time (2 * Real.pi) n j)‖ ≤ C / n ^ 10 := by
  have hper : Function.Periodic (fun t : ℝ => (2 + Complex.cos t : ℂ)) (2 * Real.pi) := fun t => by
    push_cast
    rw [Complex.cos_add_two_pi]
  have hsm : ContDiff ℝ (⊤ : ℕ∞) fun t : ℝ => (2 + Complex.cos t : ℂ) := by
    have : ContDiff ℝ (⊤ : ℕ∞) fun t : ℝ => ((Real.cos t : ℝ) : ℂ) := Complex.ofRealCLM.contDiff.comp Real.contDiff_cos
    simpa using contDiff_const.add this
  obtain ⟨u, hu, h0, H⟩ := C168_fiber polyfit spline (f := fun t : ℝ => (2 + Complex.cos t : ℂ)) (T := 2 * Real.pi) (by positivity) hsm hper
    (by norm_num) (fun i : Fin 2 => if i = 1 then (1 : ℝ) else -1) 1 (1 / 10) (cf := 1) (L := 1000) (wl := 1550)
    one_ne_zero (by norm_num) (by norm_num) ""
  exact ⟨u, fun t => congrFun h0 t, hu, H 10⟩

end PyNLO
