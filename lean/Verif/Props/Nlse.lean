import Verif.Lemmas.NlseStable

/-!
# Convergence of `propagate` to the partial differential equation when the time grid is refined
-/

namespace PyNLO

open Complex Set Polynomial Ssfm Pulse OdeGlobal Nlse Alias

variable {n : ℕ}

/-- samples of a field -/
noncomputable def samples (u : ℝ → ℝ → ℂ) (T : ℝ) (n : ℕ) (z : ℝ) : Fin n → ℂ := fun j => u z (time T n j)

theorem samples_hasDerivAt {b : ℝ[X]} {g γ fR : ℝ} {h : ℝ → ℝ} {T L : ℝ} {u : ℝ → ℝ → ℂ} (hu : Solution b g γ fR h T L u) {z : ℝ} (hz : z ∈ Icc 0 L)
    (β : Fin n → ℝ) (R : Fin n → ℂ) : HasDerivAt (samples u T n) (Gnlse.rhs β g R γ (samples u T n z) + fun j =>
      (dispersion b (u z) (time T n j) - respond (fun k => I * β k) (samples u T n z) j) +
        I * γ * samples u T n z j * ((response fR h T (fun t => ‖u z t‖ ^ 2) (time T n j) : ℝ) - respond R (power (samples u T n z)) j)) z := by
  rw [hasDerivAt_pi]
  intro j
  refine (hu.equation z hz.1 hz.2 (time T n j)).congr_deriv ?_
  rw [rhs_split]
  have e : respond (fun k => I * β k + g / 2) (samples u T n z) = respond (fun k => I * β k) (samples u T n z) + fun j => (g / 2 : ℂ) * samples u T n z j := by
    have e1 : (fun k => (I * β k + g / 2) * Gnlse.toFreq (samples u T n z) k) =
        (fun k => I * β k * Gnlse.toFreq (samples u T n z) k) + fun k => g / 2 * Gnlse.toFreq (samples u T n z) k := by
      funext k
      simp only [Pi.add_apply]
      ring
    unfold respond
    rw [e1]
    have e2 : Gnlse.toTime (fun k => (g / 2 : ℂ) * Gnlse.toFreq (samples u T n z) k) = fun j => (g / 2 : ℂ) * samples u T n z j := by
      rw [toTime_smul, toTime_toFreq]
    rw [← e2]
    funext j
    simp only [Gnlse.toTime, Pi.add_apply, fft, fftshift, ifftshift, roll, add_mul, Finset.sum_add_distrib]
  rw [e]
  simp only [Pi.add_apply, samples]
  ring

/-- The equation on the grid against the equation in continuous time: the dispersion is accurate to every order, the rest is the error `ρ` of the response. -/
theorem semidiscrete {b : ℝ[X]} {g γ fR : ℝ} {h : ℝ → ℝ} {T L : ℝ} {u : ℝ → ℝ → ℂ} (hu : Solution b g γ fR h T L u) (hT : 0 < T) (s : ℕ) :
    ∃ C M : ℝ, 0 ≤ C ∧ 0 ≤ M ∧ (∀ z ∈ Icc 0 L, ∀ t, ‖u z t‖ ≤ M) ∧ ∀ (n : ℕ), 0 < n → n % 2 = 0 → ∀ (β : Fin n → ℝ),
      (∀ k, β k = b.eval (2 * Real.pi * ((k : ℕ) - (n : ℝ) / 2) / T)) → ∀ (R : Fin n → ℂ) (K ρ : ℝ), Bounded R K → 0 ≤ ρ →
      (∀ z ∈ Icc 0 L, ∀ j, ‖(response fR h T (fun t => ‖u z t‖ ^ 2) (time T n j) : ℝ) - respond R (power (samples u T n z)) j‖ ≤ ρ) →
      ∀ U : ℝ → Fin n → ℂ, (∀ z ∈ Icc 0 L, HasDerivAt U (Gnlse.rhs β g R γ (U z)) z) → U 0 = samples u T n 0 →
      n * (C / n ^ s + |γ| * M * ρ) ^ 2 * Real.exp (growth g γ K M * L) < 1 →
      ∀ z ∈ Icc 0 L, en (U z - samples u T n z) ≤ n * (C / n ^ s + |γ| * M * ρ) ^ 2 * Real.exp (growth g γ K M * L) := by
  obtain ⟨B, hB0, hB⟩ := uniform_bound hu.smooth hT hu.periodic L (b.natDegree + s + 2)
  obtain ⟨M, hM0, hM⟩ := uniform_bound hu.smooth hT hu.periodic L 0
  simp only [iteratedDeriv_zero] at hM
  refine ⟨aliasC b T s * B, M, mul_nonneg (aliasC_nonneg b hT s) hB0, hM0, hM, ?_⟩
  intro n hn he β hβ R K ρ hK hρ0 hρ U hU hU0 hsmall
  refine stable hK hM0 hU (fun z hz => samples_hasDerivAt hu hz β R) (fun z hz j => hM z hz _) (fun z hz => ?_) hU0 hsmall
  have hj : ∀ j, ‖(dispersion b (u z) (time T n j) - respond (fun k => I * β k) (samples u T n z) j) +
        I * γ * samples u T n z j * ((response fR h T (fun t => ‖u z t‖ ^ 2) (time T n j) : ℝ) - respond R (power (samples u T n z)) j)‖ ≤
      aliasC b T s * B / n ^ s + |γ| * M * ρ := by
    intro j
    have h1 := dispersion_error hT hn he (slice_contDiff hu.smooth z) (hu.periodic z) b s (hB z hz) hβ j
    have h2 := hρ z hz j
    refine (norm_add_le _ _).trans (add_le_add h1 ?_)
    rw [norm_mul, norm_mul, norm_mul, norm_I, one_mul, norm_real, Real.norm_eq_abs]
    refine mul_le_mul ?_ h2 (norm_nonneg _) (by positivity)
    exact mul_le_mul_of_nonneg_left (hM z hz _) (abs_nonneg _)
  calc en _ ≤ ∑ _j : Fin n, (aliasC b T s * B / n ^ s + |γ| * M * ρ) ^ 2 := Finset.sum_le_sum fun j _ => pow_le_pow_left₀ (norm_nonneg _) (hj j) 2
    _ = _ := by simp

theorem response_off (h : ℝ → ℝ) (T : ℝ) (x : ℝ → ℝ) (t : ℝ) : response 0 h T x t = x t := by
  simp [response]

/-- C132: without Raman response the error of the grid falls faster than every power of the number of points. -/
theorem C132_grid {b : ℝ[X]} {g γ : ℝ} {h : ℝ → ℝ} {T L : ℝ} {u : ℝ → ℝ → ℂ} (hu : Solution b g γ 0 h T L u) (hT : 0 < T) (hL : 0 ≤ L) (s : ℕ) :
    ∃ (C : ℝ) (n0 : ℕ), ∀ n : ℕ, n0 ≤ n → n % 2 = 0 → ∀ (β : Fin n → ℝ),
      (∀ k, β k = b.eval (2 * Real.pi * ((k : ℕ) - (n : ℝ) / 2) / T)) → ∀ (x y : ℝ) (U : ℝ → Fin n → ℂ), x < 0 → L < y →
      Solves β g (fun _ => 1) γ x y U → U 0 = samples u T n 0 → ∀ z ∈ Icc 0 L, ∀ j, ‖U z j - u z (time T n j)‖ ≤ C / n ^ s := by
  obtain ⟨C, M, hC, hM, -, H⟩ := semidiscrete hu hT (s + 1)
  set G := Real.exp (growth g γ 1 M * L) with hG
  have hG1 : 1 ≤ G := Real.one_le_exp (mul_nonneg (by unfold growth; positivity) hL)
  refine ⟨C * G, ⌊C ^ 2 * G⌋₊ + 1, fun n hn0 he β hβ x y U hx hy hU hU0 z hz j => ?_⟩
  have hn : 0 < n := by omega
  have hn' : (0 : ℝ) < n := by exact_mod_cast hn
  have hn1 : (1 : ℝ) ≤ n := by exact_mod_cast hn
  have hbig : C ^ 2 * G < n := by
    have h1 := Nat.lt_floor_add_one (C ^ 2 * G)
    have h2 : ((⌊C ^ 2 * G⌋₊ + 1 : ℕ) : ℝ) ≤ n := by exact_mod_cast hn0
    push_cast at h2
    linarith
  have hsq : n * (C / n ^ (s + 1) + |γ| * M * 0) ^ 2 * G = C ^ 2 * G / (n * (n ^ s) ^ 2) := by
    rw [mul_zero, add_zero]
    field_simp
    ring
  have hns : (1 : ℝ) ≤ (n : ℝ) ^ s := one_le_pow₀ hn1
  have hle : n * (C / n ^ (s + 1) + |γ| * M * 0) ^ 2 * G < 1 := by
    rw [hsq, div_lt_one (by positivity)]
    have : (n : ℝ) ≤ n * ((n : ℝ) ^ s) ^ 2 := le_mul_of_one_le_right hn'.le (one_le_pow₀ hns)
    linarith
  have h1 := H n hn he β hβ (fun _ => 1) 1 0 bounded_one (le_refl 0) (fun z hz j => by
    have e : respond (fun _ => 1) (power (samples u T n z)) = power (samples u T n z) := by
      unfold respond
      simp only [one_mul]
      exact toTime_toFreq _
    rw [e, response_off, power_eq]
    simp [samples]) U (fun z hz => hU z ⟨by linarith [hz.1], by linarith [hz.2]⟩) hU0 hle z hz
  rw [hsq] at h1
  have h2 := (sq_le_en (U z - samples u T n z) j).trans h1
  have h3 : C ^ 2 * G / (n * ((n : ℝ) ^ s) ^ 2) ≤ (C * G / n ^ s) ^ 2 := by
    rw [div_pow, mul_pow]
    refine div_le_div₀ (by positivity) ?_ (by positivity) ?_
    · exact mul_le_mul_of_nonneg_left (by nlinarith) (by positivity)
    · exact le_mul_of_one_le_left (by positivity) hn1
  exact (pow_le_pow_iff_left₀ (norm_nonneg _) (by positivity) two_ne_zero).1 (h2.trans h3)

/-- C132: for every smooth periodic solution `u` of the nonlinear Schrödinger equation and every order `s` there are `C` and `n0` such that,
for every pulse with at least `n0` (evenly many) samples of `u(0,·)`, `propagate` with enough steps returns and all its columns differ from
the samples of `u` by at most `C/nˢ`. -/
theorem C132_converges {b : ℝ[X]} {g γ : ℝ} {h : ℝ → ℝ} {T L : ℝ} {u : ℝ → ℝ → ℂ} (hu : Solution b g γ 0 h T L u) (hT : 0 < T) (hL : 0 < L) (s : ℕ) :
    ∃ (C : ℝ) (n0 : ℕ), ∀ (polyfit : Fiber.PolyFit) (spline : Fiber.Spline) (o : Obj) (p : Pulse) (F : FibObj) (f1 : Fiber.Fib) (β : Fin p.n → ℝ)
      (R : Fin p.n → ℂ) (fR : ℝ) (a : Fin p.n → ℂ), Holds p a → n0 ≤ p.n → p.n % 2 = 0 → p.cf ≠ 0 → p.AT = .ok ⟨p.n, samples u T p.n 0⟩ →
      samples u T p.n 0 ≠ 0 → Loads polyfit spline o p F f1 β g R γ fR → (∀ k, β k = b.eval (2 * Real.pi * ((k : ℕ) - (p.n : ℝ) / 2) / T)) →
      F.fib.length = some L → o.method = .rk4ip → o.eta = 5 → o.disableSS = true → o.disableRaman = true → 0 < o.dz → 0 < o.dzMin →
      0 < o.localError →
      ∃ N0 : ℕ, ∀ N, N0 ≤ N → ∃ r o' F', propagate polyfit spline o p F N false = some (.ok (r, o', F')) ∧ r.AT.length = N ∧
        ∀ i < N, ∃ v : Fin p.n → ℂ, r.AT[i]? = some ⟨p.n, v⟩ ∧ ∀ j, ‖v j - u ((i + 1) * (L / N)) (time T p.n j)‖ ≤ C / p.n ^ s := by
  obtain ⟨C, n0, H⟩ := C132_grid hu hT hL.le s
  refine ⟨C + 1, n0, ?_⟩
  intro polyfit spline o p F f1 β R fR a hp hn he hcf hA hne hl hβ hlen hm heta hss hram hdz hmin hle
  obtain rfl := hl.raman_off hram
  obtain ⟨U, hU, hU0⟩ := C116_exists β g (raman_real hp he hl) γ (samples u T p.n 0) (T := L + 1) (by linarith)
  obtain ⟨N0, C5, hconv⟩ := C116_converges hp he hcf hl hlen hL hm heta hss hdz hmin hle (by linarith : -(L + 1) < 0) (by linarith : L < L + 1) hU
    (by rw [hU0]; exact hA) (by rw [hU0]; exact hne)
  have hnp : (0 : ℝ) < p.n := by exact_mod_cast hp.pos
  obtain ⟨N1, hN1⟩ := exists_nat_gt (|C5| * (p.n : ℝ) ^ s)
  refine ⟨max (max N0 N1) 1, fun N hN => ?_⟩
  have hN0 : N0 ≤ N := le_trans (le_trans (le_max_left _ _) (le_max_left _ _)) hN
  have hN1' : N1 ≤ N := le_trans (le_trans (le_max_right _ _) (le_max_left _ _)) hN
  have hNpos : 1 ≤ N := le_trans (le_max_right _ _) hN
  obtain ⟨r, o', F', hr, hlr, hcol⟩ := hconv N hN0
  refine ⟨r, o', F', hr, hlr, fun i hi => ?_⟩
  obtain ⟨v, hv, herr⟩ := hcol i hi
  refine ⟨v, hv, fun j => ?_⟩
  have hNr : (1 : ℝ) ≤ N := by exact_mod_cast hNpos
  have hz : ((i : ℝ) + 1) * (L / N) ∈ Icc 0 L := by
    refine ⟨by positivity, ?_⟩
    have : (i : ℝ) + 1 ≤ N := by exact_mod_cast hi
    calc ((i : ℝ) + 1) * (L / N) ≤ N * (L / N) := mul_le_mul_of_nonneg_right this (by positivity)
      _ = L := by field_simp
  have h1 := H p.n hn he β hβ _ _ U (by linarith : -(L + 1) < 0) (by linarith : L < L + 1) hU hU0 _ hz j
  have h2 : C5 / (N : ℝ) ^ 5 ≤ 1 / (p.n : ℝ) ^ s := by
    rw [div_le_div_iff₀ (by positivity) (by positivity), one_mul]
    have e1 : (N1 : ℝ) ≤ N := by exact_mod_cast hN1'
    have e2 : (N : ℝ) ≤ (N : ℝ) ^ 5 := le_self_pow₀ hNr (by norm_num)
    have e3 : C5 * (p.n : ℝ) ^ s ≤ |C5| * (p.n : ℝ) ^ s := mul_le_mul_of_nonneg_right (le_abs_self _) (by positivity)
    linarith
  calc ‖v j - u ((i + 1) * (L / N)) (time T p.n j)‖ ≤ ‖v j - U ((i + 1) * (L / N)) j‖ + ‖U ((i + 1) * (L / N)) j - u ((i + 1) * (L / N)) (time T p.n j)‖ :=
        norm_sub_le_norm_sub_add_norm_sub _ _ _
    _ ≤ C5 / N ^ 5 + C / p.n ^ s := add_le_add (herr j) h1
    _ ≤ 1 / p.n ^ s + C / p.n ^ s := by linarith
    _ = (C + 1) / p.n ^ s := by ring

/-- C132: the samples belong to the times of the pulse. -/
theorem C132_times {p : Pulse} {a : Fin p.n → ℂ} (hp : Holds p a) {T : ℝ} (hT : p.tw = T) : p.T_ps = .ok ⟨p.n, time T p.n⟩ := by
  rw [← hT]
  exact hp.T_eq

theorem taylorPoly_eval {m : ℕ} (b : Fin m → ℝ) (x : ℝ) : (taylorPoly b).eval x = Fiber.taylor ⟨m, b⟩ x := by
  unfold taylorPoly Fiber.taylor
  rw [Polynomial.eval_finsetSum]
  refine Finset.sum_congr rfl fun i _ => ?_
  simp

theorem fiberPoly_betas (polyfit : Fiber.PolyFit) (spline : Fiber.Spline) {s : Fiber.Specs} {p : Pulse} (z : ℝ) {f : Fiber.Fib} {m : ℕ} {b : Fin m → ℝ}
    {wl : ℝ} (hr : p.ready = true) (hn : 4 ≤ p.n) (he : p.n % 2 = 0) (htw : p.tw ≠ 0) (hs : s.format = some "GVD")
    (hd : f.dispChanges = false) (hb : f.betas = some ⟨m, b⟩) (hwl : f.centerWl = some wl) (hwl0 : wl ≠ 0) :
    Fiber.getBetas polyfit spline s p z f = (.ok (.arr ⟨p.n, fun k =>
      (fiberPoly b (2 * Real.pi * p.cf - 2 * Real.pi * cNmps / wl) p.tw).eval (2 * Real.pi * ((k : ℕ) - (p.n : ℝ) / 2) / p.tw)⟩), f) := by
  obtain ⟨h, hnh⟩ : ∃ h, p.n = 2 * h := ⟨p.n / 2, by omega⟩
  have hc := argmin_even hnh (by omega) htw
  set P := (taylorPoly b).comp (X + C (2 * Real.pi * p.cf - 2 * Real.pi * cNmps / wl)) with hP
  have hraw : Fiber.rawGVD f p = .ok ⟨p.n, fun k => P.eval (2 * Real.pi * ((k : ℕ) - (p.n : ℝ) / 2) / p.tw)⟩ := by
    have e : (fun k : Fin p.n => P.eval (2 * Real.pi * ((k : ℕ) - (p.n : ℝ) / 2) / p.tw)) = fun k : Fin p.n =>
        Fiber.taylor ⟨m, b⟩ (2 * Real.pi * ((k : ℕ) - (p.n : ℝ) / 2) / p.tw + 2 * Real.pi * p.cf - 2 * Real.pi * cNmps / wl) := by
      funext k
      rw [hP, Polynomial.eval_comp, taylorPoly_eval]
      simp only [Polynomial.eval_add, Polynomial.eval_X, Polynomial.eval_C]
      congr 1
      ring
    rw [e]
    unfold Fiber.rawGVD
    rw [hwl, hb, W_of_ready hr (by omega)]
    simp only [Fiber.attr, except_bind_ok, if_neg hwl0, Vec.map_mk]
  have hn2 : (p.n : ℝ) / 2 = h := by rw [hnh]; push_cast; ring
  have hgrad : gradAt (by omega : 2 ≤ p.n) (fun k : Fin p.n => P.eval (2 * Real.pi * ((k : ℕ) - (p.n : ℝ) / 2) / p.tw)) ⟨h, by omega⟩ /
      (2 * Real.pi / p.tw) = Nlse.slope P p.tw := by
    unfold gradAt Nlse.slope
    rw [if_neg (by show ¬ h = 0; omega), dif_neg (by show ¬ h + 1 = p.n; omega)]
    simp only [hn2]
    rw [show 2 * Real.pi * (((h + 1 : ℕ) : ℝ) - h) / p.tw = 2 * Real.pi / p.tw by push_cast; ring,
      show 2 * Real.pi * (((h - 1 : ℕ) : ℝ) - h) / p.tw = -(2 * Real.pi / p.tw) by rw [Nat.cast_sub (by omega)]; push_cast; ring]
    rw [div_div]
  unfold Fiber.getBetas
  rw [hs]
  simp only [Fiber.reload, hd, Bool.false_eq_true, if_false, show ¬ (("GVD" : String) = "D") by decide, if_true]
  rw [hraw, except_bind_ok, reference_eq hr (by omega) hc, hgrad]
  have e : (fun i : Fin p.n => P.eval (2 * Real.pi * ((i : ℕ) - (p.n : ℝ) / 2) / p.tw) - Nlse.slope P p.tw * (2 * Real.pi * ((i : ℕ) - (p.n : ℝ) / 2) / p.tw) -
      P.eval (2 * Real.pi * (((⟨h, by omega⟩ : Fin p.n) : ℕ) - (p.n : ℝ) / 2) / p.tw)) =
      fun i : Fin p.n => (fiberPoly b (2 * Real.pi * p.cf - 2 * Real.pi * cNmps / wl) p.tw).eval (2 * Real.pi * ((i : ℕ) - (p.n : ℝ) / 2) / p.tw) := by
    funext i
    have e0 : P.eval (2 * Real.pi * (((⟨h, by omega⟩ : Fin p.n) : ℕ) - (p.n : ℝ) / 2) / p.tw) =
        (taylorPoly b).eval (2 * Real.pi * p.cf - 2 * Real.pi * cNmps / wl) := by
      rw [hn2, sub_self, mul_zero, zero_div, hP, Polynomial.eval_comp]
      simp
    rw [e0]
    unfold fiberPoly
    simp only [Polynomial.eval_sub, Polynomial.eval_mul, Polynomial.eval_C, Polynomial.eval_X]
    rfl
  rw [e]
  rfl

/-- C132: a generated fibre has a propagation constant that is the same polynomial on every grid with the same window. -/
theorem C132_fiber (polyfit : Fiber.PolyFit) (spline : Fiber.Spline) (o : Obj) {p : Pulse} {a : Fin p.n → ℂ} (hp : Holds p a) (hn : 4 ≤ p.n)
    (he : p.n % 2 = 0) (htw : p.tw ≠ 0) (hram : o.disableRaman = true) {length wl gamma gain : ℝ} {m : ℕ} {b : Fin m → ℝ} {units label : String}
    (hu : units ≠ "ps^n/km") (hwl : wl ≠ 0) :
    Loads polyfit spline o p ⟨Fiber.genFib length wl ⟨m, b⟩ gamma gain units label Fiber.Fib.new, Fiber.genSpecs gain⟩
      (Fiber.genFib length wl ⟨m, b⟩ gamma gain units label Fiber.Fib.new)
      (fun k => (fiberPoly b (2 * Real.pi * p.cf - 2 * Real.pi * cNmps / wl) p.tw).eval (2 * Real.pi * ((k : ℕ) - (p.n : ℝ) / 2) / p.tw))
      gain (fun _ => 1) gamma o.fR := by
  obtain ⟨β, R, fR, h⟩ := loads_generated polyfit spline o hp (by omega : 2 ≤ p.n) (length := length) (gamma := gamma) (gain := gain)
    (b := ⟨m, b⟩) (units := units) (label := label) hwl (Or.inl hram)
  have hR : ramanR o p = .ok (⟨p.n, fun _ => 1⟩, o.fR) := by
    unfold ramanR
    rw [if_pos hram]
  exact ⟨fiberPoly_betas polyfit spline 0 hp.ready hn he htw rfl rfl (by simp only [Fiber.genFib, if_neg hu]) rfl hwl, h.gamma, h.gain, hR⟩

end PyNLO
