import Verif.Props.Soliton
import Verif.Lemmas.Window

/-!
# The time window does not matter for localised pulses
-/

namespace PyNLO

open Complex Set Polynomial Ssfm Pulse OdeGlobal Nlse Alias

variable {n : ℕ}

theorem ends_next {T : ℝ} {f : ℝ → ℂ} (hf : f (-(T / 2)) = f (T / 2)) (j : Fin n) : f (time T n (next j)) = f (time T n j + T / n) := by
  have hn : 0 < n := by have := j.isLt; omega
  have hn' : (n : ℝ) ≠ 0 := by exact_mod_cast hn.ne'
  by_cases h : (j : ℕ) + 1 < n
  · have e : ((next j : Fin n) : ℕ) = j + 1 := Nat.mod_eq_of_lt h
    congr 1
    unfold time
    rw [e]
    push_cast
    ring
  · have e0 : (j : ℕ) + 1 = n := by have := j.isLt; omega
    have e : ((next j : Fin n) : ℕ) = 0 := by
      show ((j : ℕ) + 1) % n = 0
      rw [e0, Nat.mod_self]
    have e1 : ((j : ℕ) : ℝ) = n - 1 := by
      have : ((j : ℕ) : ℝ) + 1 = n := by exact_mod_cast e0
      linarith
    have e2 : time T n j + T / n = T / 2 := by
      unfold time
      rw [e1]
      field_simp
      ring
    have e3 : time T n (next j) = -(T / 2) := by
      unfold time
      rw [e]
      field_simp
      push_cast
      ring
    rw [e2, e3, hf]

theorem slopes_ends_le {T c : ℝ} (hT : 0 < T) {f : ℝ → ℂ} (hf : f (-(T / 2)) = f (T / 2)) (hl : ∀ s t, ‖f s - f t‖ ≤ c * |s - t|) (j : Fin n) :
    ‖slopes (T / n) (fun i => f (time T n i)) j‖ ≤ c := by
  have hn : 0 < n := by have := j.isLt; omega
  have hn' : (0 : ℝ) < n := by exact_mod_cast hn
  have hpos : 0 < T / n := by positivity
  simp only [slopes]
  rw [ends_next hf, norm_div, norm_real, Real.norm_eq_abs, abs_of_pos hpos, div_le_iff₀ hpos]
  have := hl (time T n j + T / n) (time T n j)
  rwa [add_sub_cancel_left, abs_of_pos hpos] at this

/-- samples that are small and change slowly -/
theorem sobolev_le {T a : ℝ} (hT : 0 < T) (hn : 0 < n) {f : Fin n → ℂ} (h0 : ∀ j, ‖f j‖ ≤ a) (h1 : ∀ j, ‖slopes (T / n) f j‖ ≤ a) : sobolev T f ≤ T * (2 * a ^ 2) := by
  have hn' : (0 : ℝ) < n := by exact_mod_cast hn
  unfold sobolev
  have hterm : ∀ j : Fin n, ‖f j‖ ^ 2 + ‖slopes (T / n) f j‖ ^ 2 ≤ 2 * a ^ 2 := fun j => by
    have t3 := pow_le_pow_left₀ (norm_nonneg _) (h0 j) 2
    have t4 := pow_le_pow_left₀ (norm_nonneg _) (h1 j) 2
    linarith
  refine (mul_le_mul_of_nonneg_left (Finset.sum_le_sum fun j _ => hterm j) (by positivity)).trans (le_of_eq ?_)
  rw [Finset.sum_const, Finset.card_univ, Fintype.card_fin, nsmul_eq_mul]
  field_simp

theorem per_inside {T : ℝ} (hT : 0 < T) {f : ℝ → ℂ} (hf : ∀ x, T / 2 - 1 ≤ |x| → f x = 0) (j : Fin n) : per T f (time T n j) = f (time T n j) := by
  have h := per_local hT hf (x := time T n j) (k := 0) (by
    rw [Int.cast_zero, zero_mul, sub_zero]
    linarith [abs_time_le (n := n) hT j])
  rwa [Int.cast_zero, zero_mul, sub_zero] at h

/-- C151 on the grid: the equation that the solver follows, started from the samples of a pulse that is localised on the time axis, follows that pulse up to an
error that falls exponentially with the time window and faster than any power of the number of points. -/
theorem C151_grid {b : ℝ[X]} {g γ μ L : ℝ} {v : ℝ → ℝ → ℂ} (hv : LineSolution b g γ μ L v) (hμ : 0 < μ) (hL : 0 ≤ L) : ∃ K T1 : ℝ, 0 < T1 ∧
    ∀ T, T1 ≤ T → v 0 (-(T / 2)) = v 0 (T / 2) → ∀ s : ℕ, ∃ (C : ℝ) (n0 : ℕ), ∀ n : ℕ, n0 ≤ n → n % 2 = 0 → ∀ β : Fin n → ℝ,
      (∀ k, β k = b.eval (2 * Real.pi * ((k : ℕ) - (n : ℝ) / 2) / T)) → ∀ (x y : ℝ) (U : ℝ → Fin n → ℂ), x < 0 → L < y →
      Solves β g (fun _ => 1) γ x y U → (U 0 = fun j => v 0 (time T n j)) →
      ∀ z ∈ Icc 0 L, ∀ j, ‖U z j - v z (time T n j)‖ ≤ K * Real.sqrt (T + 1) * Real.exp (-(μ * T / 2)) + C / n ^ s := by
  obtain ⟨K0, hK0, hline⟩ := line_near hv hμ.le
  set G := Real.exp (growth1 g γ K0 K0 * L) with hG
  have hG0 : 0 < G := Real.exp_pos _
  set e3 := Real.exp (3 * μ) with he3
  have he30 : 0 < e3 := Real.exp_pos _
  set k1 := 6 * (K0 * e3) ^ 2 with hk1
  have hk10 : 0 ≤ k1 := by positivity
  obtain ⟨T1, hT10, hT1⟩ := soliton_window (c := G * k1) (by positivity) (by positivity : 0 < 1 / μ)
  refine ⟨Real.sqrt (G * k1) + K0 * e3, max T1 6, by positivity, fun T hT hends s => ?_⟩
  have hT6 : 6 ≤ T := (le_max_right _ _).trans hT
  have hTp : 0 < T := by linarith
  have hexp : -T / (2 * (1 / μ)) = -(μ * T / 2) := by field_simp
  have hw1 := (hT1 T ((le_max_left _ _).trans hT)).1
  rw [hexp] at hw1
  set E := Real.exp (-(μ * T / 2)) with hE
  have hE0 : 0 < E := Real.exp_pos _
  obtain ⟨hnear, hb⟩ := hline T hT6
  set c := T / 2 - 3 with hc
  have hcn : 0 ≤ c := by rw [hc]; linarith
  have hρ : Real.exp (-(μ * c)) = e3 * E := by
    rw [he3, hE, ← Real.exp_add]
    congr 1
    rw [hc]
    ring
  rw [hρ] at hnear hb
  have hin : ∀ z x, T / 2 - 1 ≤ |x| → Nlse.inner v c z x = 0 := fun z x hx => inner_zero hcn (by linarith)
  obtain ⟨Ca, hCa, H⟩ := semidiscrete_near hnear hTp hL (fun z hz t => (hb z hz t).1) (fun z hz t => (hb z hz t).2.1) (s + 1)
  refine ⟨Real.sqrt (4 * (T + 1) * G) * Ca, ⌊4 * (T + 1) * G * Ca ^ 2 * 4⌋₊ + 1, ?_⟩
  intro n hn0 he β hβk x y U hx hy hU hU0 z hz j
  have hn : 0 < n := by omega
  have hn' : (0 : ℝ) < n := by exact_mod_cast hn
  have hn1 : (1 : ℝ) ≤ n := by exact_mod_cast hn
  have hbig : 4 * (T + 1) * G * Ca ^ 2 * 4 < n := by
    have h1 := Nat.lt_floor_add_one (4 * (T + 1) * G * Ca ^ 2 * 4)
    have h2 : ((⌊4 * (T + 1) * G * Ca ^ 2 * 4⌋₊ + 1 : ℕ) : ℝ) ≤ n := by exact_mod_cast hn0
    push_cast at h2
    linarith
  have hrest : 4 * (T + 1) * G * (Ca / (n : ℝ) ^ (s + 1)) ^ 2 < 1 / 4 := by
    rw [div_pow, ← mul_div_assoc, div_lt_iff₀ (by positivity)]
    have h1 : (n : ℝ) ≤ ((n : ℝ) ^ (s + 1)) ^ 2 := by
      rw [← pow_mul]
      exact le_self_pow₀ hn1 (by omega)
    linarith
  set a := Ca / (n : ℝ) ^ (s + 1) with ha
  have ha0 : 0 ≤ a := by positivity
  set q := K0 * (e3 * E) with hq
  have hq0 : 0 ≤ q := by positivity
  have hz0 : (0 : ℝ) ∈ Icc 0 L := ⟨le_refl _, hL⟩
  have hstart : sobolev T (U 0 - samples (fun z => per T (Nlse.inner v c z)) T n 0) ≤ T * (2 * q ^ 2) := by
    have e : U 0 - samples (fun z => per T (Nlse.inner v c z)) T n 0 = fun i => outer v c 0 (time T n i) := by
      funext i
      rw [hU0]
      show v 0 (time T n i) - per T (Nlse.inner v c 0) (time T n i) = _
      rw [per_inside hTp (hin 0)]
      unfold Nlse.inner
      ring
    rw [e]
    have hd : Differentiable ℝ (outer v c 0) := (smooth_slice (outer_contDiff hv c) 0).differentiable (by simp)
    refine sobolev_le hTp hn (fun i => (hb 0 hz0 _).2.2.1) fun i => ?_
    refine slopes_ends_le hTp ?_ (lipschitz_of_deriv hd fun t => (hb 0 hz0 t).2.2.2) i
    unfold outer
    rw [edge_even, hends]
  have htot : (1 + 1 / T) * ((T * (2 * q ^ 2) + 2 * T * (q + a) ^ 2) * G) ≤ (T + 1) * (G * k1 * E ^ 2) + 4 * (T + 1) * G * a ^ 2 := by
    have e1 : (1 + 1 / T) * ((T * (2 * q ^ 2) + 2 * T * (q + a) ^ 2) * G) = (T + 1) * G * (2 * q ^ 2 + 2 * (q + a) ^ 2) := by field_simp
    have e2 : (q + a) ^ 2 ≤ 2 * q ^ 2 + 2 * a ^ 2 := sq_add_le _ _
    have e3' : (T + 1) * (G * k1 * E ^ 2) + 4 * (T + 1) * G * a ^ 2 = (T + 1) * G * (2 * q ^ 2 + 2 * (2 * q ^ 2 + 2 * a ^ 2)) := by
      rw [hk1, hq]
      ring
    rw [e1, e3']
    refine mul_le_mul_of_nonneg_left ?_ (by positivity)
    linarith
  have h1 := H n hn he β hβk _ U (fun z hz => hU z ⟨by linarith [hz.1], by linarith [hz.2]⟩) hstart
    (lt_of_le_of_lt htot (by linarith)) z hz j
  have h2 := h1.trans htot
  have hS : Real.sqrt (T + 1) ^ 2 = T + 1 := Real.sq_sqrt (by linarith)
  have hS1 : 1 ≤ Real.sqrt (T + 1) := Real.one_le_sqrt.2 (by linarith)
  have hq1 : (T + 1) * (G * k1 * E ^ 2) = (Real.sqrt (G * k1) * Real.sqrt (T + 1) * E) ^ 2 := by
    have hX : Real.sqrt (G * k1) ^ 2 = G * k1 := Real.sq_sqrt (by positivity)
    linear_combination -(E ^ 2 * Real.sqrt (T + 1) ^ 2) * hX - (E ^ 2 * (G * k1)) * hS
  have hq2 : 4 * (T + 1) * G * a ^ 2 ≤ (Real.sqrt (4 * (T + 1) * G) * Ca / (n : ℝ) ^ s) ^ 2 := by
    rw [ha, div_pow, div_pow, mul_pow, Real.sq_sqrt (by positivity), ← mul_div_assoc]
    refine div_le_div_of_nonneg_left (by positivity) (by positivity) ?_
    exact pow_le_pow_left₀ (by positivity) (pow_le_pow_right₀ hn1 (Nat.le_succ s)) 2
  have h3 : ‖U z j - per T (Nlse.inner v c z) (time T n j)‖ ≤
      Real.sqrt (G * k1) * Real.sqrt (T + 1) * E + Real.sqrt (4 * (T + 1) * G) * Ca / (n : ℝ) ^ s :=
    le_add_of_sq_le (norm_nonneg _) (by positivity) (by positivity) h2 hq1.le hq2
  have h4 : ‖per T (Nlse.inner v c z) (time T n j) - v z (time T n j)‖ ≤ K0 * (e3 * E) := by
    rw [per_inside hTp (hin z), norm_sub_rev]
    have e : v z (time T n j) - Nlse.inner v c z (time T n j) = outer v c z (time T n j) := by
      unfold Nlse.inner
      ring
    rw [e]
    exact (hb z hz _).2.2.1
  have h5 := norm_sub_le_norm_sub_add_norm_sub (U z j) (per T (Nlse.inner v c z) (time T n j)) (v z (time T n j))
  have h6 : K0 * (e3 * E) ≤ K0 * e3 * Real.sqrt (T + 1) * E := by
    have : K0 * e3 * E * 1 ≤ K0 * e3 * E * Real.sqrt (T + 1) := mul_le_mul_of_nonneg_left hS1 (by positivity)
    linarith
  have h7 : (Real.sqrt (G * k1) + K0 * e3) * Real.sqrt (T + 1) * E = Real.sqrt (G * k1) * Real.sqrt (T + 1) * E + K0 * e3 * Real.sqrt (T + 1) * E := by
    ring
  rw [h7]
  linarith

/-- C151: `propagate`, without self-steepening and Raman response, follows a localised pulse on the unbounded time axis at every stored position, up to an
error that falls exponentially with the time window and faster than any power of the number of points, once the number of steps is large enough. -/
theorem C151_propagate {b : ℝ[X]} {g γ μ L : ℝ} {v : ℝ → ℝ → ℂ} (hv : LineSolution b g γ μ L v) (hμ : 0 < μ) (hL : 0 < L) : ∃ K T1 : ℝ, 0 < T1 ∧
    ∀ T, T1 ≤ T → v 0 (-(T / 2)) = v 0 (T / 2) → ∀ s : ℕ, ∃ (C : ℝ) (n0 : ℕ), ∀ (polyfit : Fiber.PolyFit) (spline : Fiber.Spline) (o : Obj) (p : Pulse) (F : FibObj)
      (f1 : Fiber.Fib) (β : Fin p.n → ℝ) (R : Fin p.n → ℂ) (fR : ℝ) (a : Fin p.n → ℂ), Holds p a → n0 ≤ p.n → p.n % 2 = 0 → p.cf ≠ 0 →
      p.AT = .ok ⟨p.n, fun j => v 0 (time T p.n j)⟩ → (∃ j, v 0 (time T p.n j) ≠ 0) → Loads polyfit spline o p F f1 β g R γ fR →
      (∀ k, β k = b.eval (2 * Real.pi * ((k : ℕ) - (p.n : ℝ) / 2) / T)) → F.fib.length = some L → o.method = .rk4ip → o.eta = 5 → o.disableSS = true →
      o.disableRaman = true → 0 < o.dz → 0 < o.dzMin → 0 < o.localError →
      ∃ N0 : ℕ, ∀ N, N0 ≤ N → ∃ r o' F', propagate polyfit spline o p F N false = some (.ok (r, o', F')) ∧ r.AT.length = N ∧
        ∀ i < N, ∃ w : Fin p.n → ℂ, r.AT[i]? = some ⟨p.n, w⟩ ∧ ∀ j, ‖w j - v ((i + 1) * (L / N)) (time T p.n j)‖ ≤
          K * Real.sqrt (T + 1) * Real.exp (-(μ * T / 2)) + C / p.n ^ s := by
  obtain ⟨K, T1, hT1, H⟩ := C151_grid hv hμ hL.le
  refine ⟨K, T1, hT1, fun T hT hends s => ?_⟩
  obtain ⟨C, n0, hC⟩ := H T hT hends s
  refine ⟨C + 1, n0, ?_⟩
  intro polyfit spline o p F f1 β R fR a hp hn he hcf hA hne hl hβ hlen hm heta hss hram hdz hmin hle
  have hne' : (fun j => v 0 (time T p.n j)) ≠ 0 := fun h => by
    obtain ⟨j, hj⟩ := hne
    exact hj (congrFun h j)
  obtain ⟨U, hU, hU0, hconv⟩ := solver_close polyfit spline hp he hcf hA hne' hl hlen hL hm heta hss hram hdz hmin hle
  have hnp : (0 : ℝ) < p.n := by exact_mod_cast hp.pos
  obtain ⟨N0, hN0⟩ := hconv (1 / (p.n : ℝ) ^ s) (by positivity)
  refine ⟨N0, fun N hN => ?_⟩
  obtain ⟨r, o', F', hr, hlr, hcol⟩ := hN0 N hN
  refine ⟨r, o', F', hr, hlr, fun i hi => ?_⟩
  obtain ⟨hz, w, hw, herr⟩ := hcol i hi
  refine ⟨w, hw, fun j => ?_⟩
  have h1 := hC p.n hn he β hβ _ _ U (by linarith : -(L + 1) < 0) (by linarith : L < L + 1) hU hU0 _ hz j
  have h2 := norm_sub_le_norm_sub_add_norm_sub (w j) (U ((i + 1) * (L / N)) j) (v ((i + 1) * (L / N)) (time T p.n j))
  have h3 := herr j
  have e : K * Real.sqrt (T + 1) * Real.exp (-(μ * T / 2)) + (C + 1) / (p.n : ℝ) ^ s =
      1 / (p.n : ℝ) ^ s + (K * Real.sqrt (T + 1) * Real.exp (-(μ * T / 2)) + C / (p.n : ℝ) ^ s) := by ring
  rw [e]
  linarith

/-- C151 with a constructor and a generated fibre: an analytic pulse whose shape is the start of a localised solution comes out as that solution.  The
coefficients of the fibre must give the same propagation constant `b` in every window, as even orders do. -/
theorem C151_shaped {b : ℝ[X]} {g γ μ L : ℝ} {v : ℝ → ℝ → ℂ} {m : ℕ} {β : Fin m → ℝ} {shape : ℝ → ℝ} (hv : LineSolution b g γ μ L v) (hμ : 0 < μ) (hL : 0 < L)
    (hb : ∀ T, fiberPoly β 0 T = b) (hshape : ∀ t, v 0 t = (shape t : ℂ)) (heven : ∀ t, shape (-t) = shape t) (h0 : shape 0 ≠ 0) : ∃ K T1 : ℝ, ∀ T, T1 ≤ T → ∀ s : ℕ,
    ∃ (C : ℝ) (n0 : ℕ), ∀ n : ℕ, n0 ≤ n → n % 2 = 0 → ∀ (polyfit : Fiber.PolyFit) (spline : Fiber.Spline) (wl frep T0 : ℝ) (label : String), 1 < wl →
      ∃ p : Pulse, shapedPulse shape none wl T frep n 0 0 0 0 T0 = .ok p ∧ p.T_ps = .ok ⟨n, time T n⟩ ∧
      p.AT = .ok ⟨n, fun j => v 0 (time T n j)⟩ ∧ ∃ N0 : ℕ, ∀ N, N0 ≤ N → ∃ r o' F',
        propagate polyfit spline { Obj.default with disableSS := true, disableRaman := true } p
          ⟨Fiber.genFib L wl ⟨m, β⟩ γ g "ps^n/m" label Fiber.Fib.new, Fiber.genSpecs g⟩ N false = some (.ok (r, o', F')) ∧ r.AT.length = N ∧
        ∀ i < N, ∃ w : Fin n → ℂ, r.AT[i]? = some ⟨n, w⟩ ∧ ∀ j, ‖w j - v ((i + 1) * (L / N)) (time T n j)‖ ≤
          K * Real.sqrt (T + 1) * Real.exp (-(μ * T / 2)) + C / n ^ s := by
  obtain ⟨K, T1, hT1, H⟩ := C151_propagate hv hμ hL
  refine ⟨K, max T1 2, fun T hT s => ?_⟩
  have hT2 : 2 ≤ T := (le_max_right _ _).trans hT
  have hTp : 0 < T := by linarith
  obtain ⟨C, n0, hC⟩ := H T ((le_max_left _ _).trans hT) (by rw [hshape, hshape, heven]) s
  refine ⟨C, max n0 4, fun n hn he polyfit spline wl frep T0 label hwl => ?_⟩
  have hn0 : n0 ≤ n := (le_max_left _ _).trans hn
  have hn4 : 4 ≤ n := (le_max_right _ _).trans hn
  set A : Fin n → ℂ := fun j => v 0 (time T n j) with hA
  have hAe : (fun i => ((shape (time T n i) : ℝ) : ℂ)) = A := funext fun j => (hshape _).symm
  have hsp : shapedPulse shape none wl T frep n 0 0 0 0 T0 = .ok { base (some frep) wl T n with aw := some ⟨n, fftT A⟩ } := by
    rw [shaped_plain _ hwl (by linarith) (by omega), hAe]
  set p : Pulse := { base (some frep) wl T n with aw := some ⟨n, fftT A⟩ } with hp
  have hold : Holds p (fftT A) := base_holds (some frep) wl T (by omega) (fftT A)
  have hAT : p.AT = .ok ⟨n, A⟩ := by
    have := hold.AT_eq
    rwa [ifftT_fftT] at this
  refine ⟨p, hsp, hold.T_eq, hAT, ?_⟩
  have hwl0 : wl ≠ 0 := by linarith
  have hcw : p.cf ≠ 0 := div_ne_zero (by norm_num [cNmps, cMks]) hwl0
  have hload := C132_fiber polyfit spline { Obj.default with disableSS := true, disableRaman := true } (p := p) hold hn4 he hTp.ne' rfl (length := L) (gamma := γ)
    (gain := g) (b := β) (units := "ps^n/m") (label := label) (by decide) hwl0
  have hd : 2 * Real.pi * p.cf - 2 * Real.pi * cNmps / wl = 0 := by
    show 2 * Real.pi * (cNmps / wl) - 2 * Real.pi * cNmps / wl = 0
    ring
  have hmid : time T n ⟨n / 2, by omega⟩ = 0 := by
    have h2 : ((n / 2 : ℕ) : ℝ) = n / 2 := by
      have : 2 * (n / 2) = n := by omega
      have h3 : (2 : ℝ) * ((n / 2 : ℕ) : ℝ) = n := by exact_mod_cast this
      linarith
    unfold time
    rw [h2, sub_self, zero_mul]
  have hne : ∃ j : Fin n, v 0 (time T n j) ≠ 0 := ⟨⟨n / 2, by omega⟩, by rw [hmid, hshape]; exact_mod_cast h0⟩
  exact hC polyfit spline _ p _ _ _ _ _ _ hold hn0 he hcw hAT hne hload
    (fun k => by rw [hd, hb]; rfl) rfl rfl (by norm_num [Obj.default]) rfl rfl (by norm_num [Obj.default]) (by norm_num [Obj.default]) (by norm_num [Obj.default])

/-- fibres with dispersion of second order only have one propagation constant in all windows; so have fibres with even orders only -/
theorem fiberPoly_even {m : ℕ} {β : Fin m → ℝ} (h : ∀ i : Fin m, (i : ℕ) % 2 = 1 → β i = 0) (T : ℝ) : fiberPoly β 0 T = taylorPoly β := by
  have heven : ∀ x, (taylorPoly β).eval (-x) = (taylorPoly β).eval x := fun x => by
    unfold taylorPoly
    simp only [eval_finsetSum, eval_mul, eval_C, eval_pow, eval_X]
    refine Finset.sum_congr rfl fun i _ => ?_
    rcases Nat.mod_two_eq_zero_or_one (i : ℕ) with h0 | h1
    · rw [Even.neg_pow (Nat.even_iff.2 (by omega))]
    · rw [h i h1, zero_div, zero_mul, zero_mul]
  have hz : (taylorPoly β).eval 0 = 0 := by
    unfold taylorPoly
    simp [eval_finsetSum]
  unfold fiberPoly Nlse.slope
  rw [map_zero, add_zero, comp_X, hz, heven, sub_self, zero_div, map_zero, zero_mul, sub_zero, sub_zero]

end PyNLO
