import Verif.Props.NlseExamples
import Verif.Lemmas.RamanGrid
import Mathlib.Analysis.Calculus.ParametricIntervalIntegral

/-!
# Convergence of `propagate` to the partial differential equation with delayed response
-/

namespace PyNLO

open Complex Set Polynomial Ssfm Pulse OdeGlobal Nlse Alias MeasureTheory

variable {n : ℕ}

/-! ## The kernels have positive area over every window -/

theorem damped_area {τ1 τ2 X : ℝ} (h1 : 0 < τ1) (h2 : 0 < τ2) (hX : 0 < X) : 0 < ∫ t in (0 : ℝ)..X, Real.exp (-t / τ2) * Real.sin (t / τ1) := by
  set r := τ1 / τ2 with hr
  have hr0 : 0 < r := by positivity
  have hd : ∀ t : ℝ, HasDerivAt (fun t => -(τ1 / (1 + r ^ 2)) * (Real.exp (-t / τ2) * (Real.cos (t / τ1) + r * Real.sin (t / τ1))))
      (Real.exp (-t / τ2) * Real.sin (t / τ1)) t := by
    intro t
    have a1 : HasDerivAt (fun t : ℝ => -t / τ2) (-1 / τ2) t := (hasDerivAt_id t).neg.div_const τ2
    have a2 : HasDerivAt (fun t : ℝ => t / τ1) (1 / τ1) t := (hasDerivAt_id t).div_const τ1
    have := ((a1.exp.mul (a2.cos.add (a2.sin.const_mul r))).const_mul (-(τ1 / (1 + r ^ 2))))
    refine this.congr_deriv ?_
    simp only [Pi.add_apply]
    rw [hr]
    field_simp
    ring
  rw [intervalIntegral.integral_eq_sub_of_hasDerivAt (fun t _ => hd t) (by
    refine Continuous.intervalIntegrable ?_ _ _
    fun_prop)]
  have hY : 0 < X / τ1 := by positivity
  have key : Real.exp (-X / τ2) * (Real.cos (X / τ1) + r * Real.sin (X / τ1)) < 1 := by
    have e : -X / τ2 = -(r * (X / τ1)) := by rw [hr]; field_simp
    rw [e, Real.exp_neg, inv_mul_lt_iff₀ (Real.exp_pos _), mul_one]
    have b1 := Real.cos_le_one (X / τ1)
    have b2 := Real.sin_lt hY
    have b3 := Real.add_one_le_exp (r * (X / τ1))
    nlinarith
  simp only [neg_zero, zero_div, Real.exp_zero, Real.cos_zero, Real.sin_zero, mul_zero, add_zero, mul_one]
  have : 0 < τ1 / (1 + r ^ 2) := by positivity
  nlinarith

theorem boson_area {X : ℝ} (hX : 0 < X) : 0 < ∫ t in (0 : ℝ)..X, (2 * 0.096 - t) / 0.096 ^ 2 * Real.exp (-t / 0.096) := by
  have hd : ∀ t : ℝ, HasDerivAt (fun t => (t - 0.096) / 0.096 * Real.exp (-t / 0.096)) ((2 * 0.096 - t) / 0.096 ^ 2 * Real.exp (-t / 0.096)) t := by
    intro t
    have a1 : HasDerivAt (fun t : ℝ => -t / 0.096) (-1 / 0.096) t := (hasDerivAt_id t).neg.div_const _
    have a2 : HasDerivAt (fun t : ℝ => (t - 0.096) / 0.096) (1 / 0.096) t := ((hasDerivAt_id t).sub_const _).div_const _
    refine (a2.mul a1.exp).congr_deriv ?_
    ring
  rw [intervalIntegral.integral_eq_sub_of_hasDerivAt (fun t _ => hd t) (by
    refine Continuous.intervalIntegrable ?_ _ _
    fun_prop)]
  have h1 : Real.exp (-X / 0.096) < 1 := by
    rw [Real.exp_lt_one_iff]
    have : 0 < X / 0.096 := by positivity
    linarith [neg_div (0.096 : ℝ) X]
  have h0 := Real.exp_pos (-X / 0.096)
  have h2 : (X - 0.096) / 0.096 = X / 0.096 - 1 := by ring
  have h3 : 0 < X / 0.096 := by positivity
  have h4 : ((0 : ℝ) - 0.096) / 0.096 * Real.exp (-0 / 0.096) = -1 := by norm_num
  rw [h2, h4]
  nlinarith [mul_pos h3 h0]

theorem kernel_contDiff (o : Obj) : ContDiff ℝ (⊤ : ℕ∞) (kernelFun o) := by
  unfold kernelFun
  have hid : ContDiff ℝ (⊤ : ℕ∞) fun t : ℝ => t := contDiff_id
  have hexp : ∀ τ : ℝ, ContDiff ℝ (⊤ : ℕ∞) fun t : ℝ => Real.exp (-t / τ) := fun τ => Real.contDiff_exp.comp (hid.neg.div_const τ)
  have hsin : ∀ τ : ℝ, ContDiff ℝ (⊤ : ℕ∞) fun t : ℝ => Real.sin (t / τ) := fun τ => Real.contDiff_sin.comp (hid.div_const τ)
  split_ifs
  · unfold ramanSimple
    exact (contDiff_const.mul (hexp _)).mul (hsin _)
  · unfold ramanLin
    exact (contDiff_const.mul ((contDiff_const.mul (hexp _)).mul (hsin _))).add (contDiff_const.mul (((contDiff_const.sub hid).div_const _).mul (hexp _)))

theorem kernel_area_pos {o : Obj} (h1 : 0 < o.tau1) (h2 : 0 < o.tau2) {X : ℝ} (hX : 0 < X) : 0 < ∫ t in (0 : ℝ)..X, kernelFun o t := by
  have hda := damped_area h1 h2 hX
  by_cases hs : o.simpleRaman = true
  · have e : ∀ t, kernelFun o t = (o.tau1 ^ 2 + o.tau2 ^ 2) / (o.tau1 * o.tau2 ^ 2) * (Real.exp (-t / o.tau2) * Real.sin (t / o.tau1)) := by
      intro t
      simp only [kernelFun, if_pos hs, ramanSimple]
      ring
    simp only [e]
    rw [intervalIntegral.integral_const_mul]
    positivity
  · have e : ∀ t, kernelFun o t = (0.75 + 0.04) * (o.tau1 / (o.tau1 ^ 2 + o.tau2 ^ 2)) * (Real.exp (-t / o.tau2) * Real.sin (t / o.tau1)) +
        0.21 * ((2 * 0.096 - t) / 0.096 ^ 2 * Real.exp (-t / 0.096)) := by
      intro t
      simp only [kernelFun, if_neg hs, ramanLin]
      ring
    simp only [e]
    rw [intervalIntegral.integral_add (Continuous.intervalIntegrable (by fun_prop) _ _) (Continuous.intervalIntegrable (by fun_prop) _ _),
      intervalIntegral.integral_const_mul, intervalIntegral.integral_const_mul]
    have := boson_area hX
    positivity

/-- the fraction of the delayed response -/
noncomputable def fraction (o : Obj) : ℝ := if o.simpleRaman then o.fR else 0.245

/-- the response the solver loads, in time -/
theorem Loads.response {polyfit : Fiber.PolyFit} {spline : Fiber.Spline} {o : Obj} {p : Pulse} {F : FibObj} {f1 : Fiber.Fib} {β : Fin p.n → ℝ}
    {g γ fR : ℝ} {R : Fin p.n → ℂ} (h : Loads polyfit spline o p F f1 β g R γ fR) {a : Fin p.n → ℂ} (hp : Holds p a) (he : p.n % 2 = 0)
    (hR : o.disableRaman = false) (x : Fin p.n → ℂ) :
    respond R x = gridResponse (fraction o) (kernelFun o) (p.tw / p.n) (gridArea p.n (kernelFun o) (p.tw / p.n)) x := by
  obtain ⟨P0, P, hs, -, hc, hPR⟩ := setup_carries hp h
  obtain ⟨Z, h1, h2, -⟩ := C49_causal hp he hs hR
  have hf := (raman_eq hp hs hR).2
  rw [respond_eq]
  have e : P0.R = fftshift R := by rw [hPR, hc.resp]
  rw [← e]
  funext j
  rw [h1 x j, h2, hf]
  rfl

/-- bounds for the kernel of the solver -/
theorem kernel_bounds (o : Obj) (T : ℝ) : ∃ B D : ℝ, 0 ≤ B ∧ (∀ s ∈ Icc 0 (T / 2), |kernelFun o s| ≤ B) ∧ 0 ≤ D ∧
    ∀ s ∈ Icc 0 (T / 2), ∀ s' ∈ Icc 0 (T / 2), |kernelFun o s - kernelFun o s'| ≤ D * |s - s'| := by
  obtain ⟨B, hB0, hB⟩ := bounded_of_continuous (kernel_contDiff o).continuous (T / 2)
  obtain ⟨D, hD0, hD⟩ := lipschitz_of_contDiff ((kernel_contDiff o).of_le (by exact_mod_cast le_top)) (T / 2)
  exact ⟨B, D, hB0, hB, hD0, hD⟩

theorem power_lipschitz {u : ℝ → ℂ} {M E : ℝ} (hM : ∀ t, ‖u t‖ ≤ M) (hu : Differentiable ℝ u) (hE : ∀ t, ‖_root_.deriv u t‖ ≤ E) (t t' : ℝ) :
    |‖u t‖ ^ 2 - ‖u t'‖ ^ 2| ≤ 2 * M * E * |t - t'| := by
  have hM0 : 0 ≤ M := (norm_nonneg _).trans (hM 0)
  have h1 : ‖u t - u t'‖ ≤ E * |t - t'| := by
    have := (convex_univ).norm_image_sub_le_of_norm_deriv_le (𝕜 := ℝ) (f := u) (C := E) (fun x _ => hu x) (fun x _ => hE x) (mem_univ t') (mem_univ t)
    simpa only [Real.norm_eq_abs] using this
  rw [sq_sub_sq, abs_mul, abs_of_nonneg (by positivity)]
  have h2 : ‖u t‖ + ‖u t'‖ ≤ 2 * M := by linarith [hM t, hM t']
  calc (‖u t‖ + ‖u t'‖) * |‖u t‖ - ‖u t'‖| ≤ 2 * M * (E * |t - t'|) :=
        mul_le_mul h2 ((abs_norm_sub_norm_le _ _).trans h1) (abs_nonneg _) (by positivity)
    _ = _ := by ring

/-- C133: with the delayed response of the solver, the mean square of the difference between the solution of the equation on the grid and the solution
of the partial differential equation is at most `(C/n)²`. -/
theorem C133_grid (o : Obj) (h1 : 0 < o.tau1) (h2 : 0 < o.tau2) {b : ℝ[X]} {g γ : ℝ} {T L : ℝ} {u : ℝ → ℝ → ℂ}
    (hu : Solution b g γ (fraction o) (kernelFun o) T L u) (hT : 0 < T) (hL : 0 ≤ L) :
    ∃ (C : ℝ) (n0 : ℕ), 0 ≤ C ∧ 0 < n0 ∧ ∀ n : ℕ, n0 ≤ n → n % 2 = 0 → ∀ (β : Fin n → ℝ),
      (∀ k, β k = b.eval (2 * Real.pi * ((k : ℕ) - (n : ℝ) / 2) / T)) → ∀ R : Fin n → ℂ,
      (∀ x, respond R x = gridResponse (fraction o) (kernelFun o) (T / n) (gridArea n (kernelFun o) (T / n)) x) →
      ∀ (x y : ℝ) (U : ℝ → Fin n → ℂ), x < 0 → L < y → Solves β g R γ x y U → U 0 = samples u T n 0 →
      ∀ z ∈ Icc 0 L, 1 / (n : ℝ) * ∑ j, ‖U z j - u z (time T n j)‖ ^ 2 ≤ (C / n) ^ 2 := by
  obtain ⟨C, M, hC, hM0, hM, H⟩ := semidiscrete hu hT 1
  obtain ⟨E, hE0, hE⟩ := uniform_bound hu.smooth hT hu.periodic L 1
  obtain ⟨B, D, hB0, hB, hD0, hD⟩ := kernel_bounds o T
  set A := ∫ s in (0 : ℝ)..T / 2, kernelFun o s with hA
  have hA0 : 0 < A := kernel_area_pos h1 h2 (by positivity)
  set f := fraction o with hf
  set K := respC f T B A with hK
  have hK0 : 0 < K := by rw [hK]; unfold respC; positivity
  set ρ0 := |f| * ((D * M ^ 2 + B * (2 * M * E)) * T / A + B * M ^ 2 * T * (D * (T / 2) + B / 2) / A ^ 2) * T with hρ0
  have hρ00 : 0 ≤ ρ0 := by positivity
  set G := Real.exp (growth g γ K M * L) with hG
  have hG1 : 1 ≤ G := Real.one_le_exp (mul_nonneg (by unfold growth; positivity) hL)
  set Q := C + |γ| * M * ρ0 with hQ
  have hQ0 : 0 ≤ Q := by positivity
  set n1 := ⌈2 * ((D * (T / 2) + B / 2) * T) / A⌉₊ with hn1
  refine ⟨Q * G, max (⌊Q ^ 2 * G⌋₊ + 1) (max n1 1), by positivity, by positivity, ?_⟩
  intro n hn he β hβ R hR x y U hx hy hU hU0 z hz
  have hnF : ⌊Q ^ 2 * G⌋₊ + 1 ≤ n := (le_max_left _ _).trans hn
  have hnn1 : n1 ≤ n := ((le_max_left _ _).trans (le_max_right _ _)).trans hn
  have hnpos : 0 < n := by omega
  have hn' : (0 : ℝ) < n := by exact_mod_cast hnpos
  have hbig : Q ^ 2 * G < n := by
    have e1 := Nat.lt_floor_add_one (Q ^ 2 * G)
    have e2 : ((⌊Q ^ 2 * G⌋₊ + 1 : ℕ) : ℝ) ≤ n := by exact_mod_cast hnF
    push_cast at e2
    linarith
  have hZ : A / 2 ≤ gridArea n (kernelFun o) (T / n) := by
    have e1 := area_error hT (kernel_contDiff o).continuous hB hD0 hD hnpos he
    rw [← hA] at e1
    have e2 : 2 * ((D * (T / 2) + B / 2) * T) / A ≤ n := (Nat.le_ceil _).trans (by exact_mod_cast hnn1)
    rw [div_le_iff₀ hA0] at e2
    have e3 : (D * (T / 2) + B / 2) * (T / n) ≤ A / 2 := by
      rw [← mul_div_assoc, div_le_iff₀ hn']
      linarith
    rw [abs_le] at e1
    linarith [e1.1]
  have hbd : Bounded R K := gridResponse_bounded hT hnpos he hB0 hB hA0 hZ hR
  have hsq : n * (C / n ^ 1 + |γ| * M * (ρ0 / n)) ^ 2 * G = Q ^ 2 * G / n := by
    rw [pow_one, hQ]
    field_simp
  have hle : n * (C / n ^ 1 + |γ| * M * (ρ0 / n)) ^ 2 * G < 1 := by
    rw [hsq, div_lt_one hn']
    exact hbig
  have hfin := H n hnpos he β hβ R K (ρ0 / n) hbd (by positivity) (fun z hz j => by
    have hper : Function.Periodic (fun t => ‖u z t‖ ^ 2) T := fun t => by
      show ‖u z (t + T)‖ ^ 2 = ‖u z t‖ ^ 2
      rw [hu.periodic z t]
    have hsm := slice_contDiff hu.smooth z
    have := response_error (f := f) (P := fun t => ‖u z t‖ ^ 2) (M := M ^ 2) (E := 2 * M * E) hT hnpos he (kernel_contDiff o).continuous hB0 hB hD0 hD hA hA0 rfl hZ
      hper (hsm.continuous.norm.pow 2) (by positivity) (fun t => by
        rw [abs_of_nonneg (by positivity)]
        exact pow_le_pow_left₀ (norm_nonneg _) (hM z hz t) 2) (by positivity)
      (power_lipschitz (hM z hz) (hsm.differentiable (by simp)) (fun t => by
        have := hE z hz t
        rwa [iteratedDeriv_one] at this)) j
    rw [hR]
    have e : power (samples u T n z) = fun i => ((‖u z (time T n i)‖ ^ 2 : ℝ) : ℂ) := by
      funext i
      rw [power_eq]
      rfl
    rw [e]
    refine this.trans (le_of_eq ?_)
    rw [hρ0]
    ring) U (fun z hz => hU z ⟨by linarith [hz.1], by linarith [hz.2]⟩) hU0 hle z hz
  rw [hsq] at hfin
  have e : ∑ j, ‖U z j - u z (time T n j)‖ ^ 2 = en (U z - samples u T n z) := rfl
  rw [e]
  calc 1 / (n : ℝ) * en (U z - samples u T n z) ≤ 1 / (n : ℝ) * (Q ^ 2 * G / n) := mul_le_mul_of_nonneg_left hfin (by positivity)
    _ = Q ^ 2 * G / n ^ 2 := by field_simp
    _ ≤ (Q * G / n) ^ 2 := by
        rw [div_pow, mul_pow]
        refine div_le_div_of_nonneg_right ?_ (by positivity)
        exact mul_le_mul_of_nonneg_left (by nlinarith) (by positivity)

/-- C133: `propagate` with Raman response converges to the solution of the partial differential equation when the time grid is refined: the root mean
square of the error of every stored field is at most `C/NPTS`, for all sufficiently many steps. -/
theorem C133_converges (o : Obj) (h1 : 0 < o.tau1) (h2 : 0 < o.tau2) {b : ℝ[X]} {g γ : ℝ} {T L : ℝ} {u : ℝ → ℝ → ℂ}
    (hu : Solution b g γ (fraction o) (kernelFun o) T L u) (hT : 0 < T) (hL : 0 < L) (hm : o.method = .rk4ip) (heta : o.eta = 5)
    (hss : o.disableSS = true) (hram : o.disableRaman = false) (hdz : 0 < o.dz) (hmin : 0 < o.dzMin) (hle : 0 < o.localError) :
    ∃ (C : ℝ) (n0 : ℕ), ∀ (polyfit : Fiber.PolyFit) (spline : Fiber.Spline) (p : Pulse) (F : FibObj) (f1 : Fiber.Fib) (β : Fin p.n → ℝ)
      (R : Fin p.n → ℂ) (fR : ℝ) (a : Fin p.n → ℂ), Holds p a → n0 ≤ p.n → p.n % 2 = 0 → p.cf ≠ 0 → p.tw = T → p.AT = .ok ⟨p.n, samples u T p.n 0⟩ →
      samples u T p.n 0 ≠ 0 → Loads polyfit spline o p F f1 β g R γ fR → (∀ k, β k = b.eval (2 * Real.pi * ((k : ℕ) - (p.n : ℝ) / 2) / T)) →
      F.fib.length = some L →
      ∃ N0 : ℕ, ∀ N, N0 ≤ N → ∃ r o' F', propagate polyfit spline o p F N false = some (.ok (r, o', F')) ∧ r.AT.length = N ∧
        ∀ i < N, ∃ v : Fin p.n → ℂ, r.AT[i]? = some ⟨p.n, v⟩ ∧
          1 / (p.n : ℝ) * ∑ j, ‖v j - u ((i + 1) * (L / N)) (time T p.n j)‖ ^ 2 ≤ (C / p.n) ^ 2 := by
  obtain ⟨C, n0, hC, -, H⟩ := C133_grid o h1 h2 hu hT hL.le
  refine ⟨2 * C + 2, n0, ?_⟩
  intro polyfit spline p F f1 β R fR a hp hn he hcf htw hA hne hl hβ hlen
  obtain ⟨U, hU, hU0⟩ := C116_exists β g (raman_real hp he hl) γ (samples u T p.n 0) (T := L + 1) (by linarith)
  obtain ⟨N0, C5, hconv⟩ := C116_converges hp he hcf hl hlen hL hm heta hss hdz hmin hle (by linarith : -(L + 1) < 0) (by linarith : L < L + 1) hU
    (by rw [hU0]; exact hA) (by rw [hU0]; exact hne)
  have hnp : (0 : ℝ) < p.n := by exact_mod_cast hp.pos
  obtain ⟨N1, hN1⟩ := exists_nat_gt (|C5| * (p.n : ℝ))
  refine ⟨max (max N0 N1) 1, fun N hN => ?_⟩
  have hN0 : N0 ≤ N := le_trans (le_trans (le_max_left _ _) (le_max_left _ _)) hN
  have hN1' : N1 ≤ N := le_trans (le_trans (le_max_right _ _) (le_max_left _ _)) hN
  have hNpos : 1 ≤ N := le_trans (le_max_right _ _) hN
  obtain ⟨r, o', F', hr, hlr, hcol⟩ := hconv N hN0
  refine ⟨r, o', F', hr, hlr, fun i hi => ?_⟩
  obtain ⟨v, hv, herr⟩ := hcol i hi
  refine ⟨v, hv, ?_⟩
  have hNr : (1 : ℝ) ≤ N := by exact_mod_cast hNpos
  have hz : ((i : ℝ) + 1) * (L / N) ∈ Icc 0 L := by
    refine ⟨by positivity, ?_⟩
    have : (i : ℝ) + 1 ≤ N := by exact_mod_cast hi
    calc ((i : ℝ) + 1) * (L / N) ≤ N * (L / N) := mul_le_mul_of_nonneg_right this (by positivity)
      _ = L := by field_simp
  have hR := hl.response hp he hram
  rw [htw] at hR
  have e1 := H p.n hn he β hβ R hR _ _ U (by linarith : -(L + 1) < 0) (by linarith : L < L + 1) hU hU0 _ hz
  have e2 : C5 / (N : ℝ) ^ 5 ≤ 1 / (p.n : ℝ) := by
    rw [div_le_div_iff₀ (by positivity) (by positivity), one_mul]
    have e1 : (N1 : ℝ) ≤ N := by exact_mod_cast hN1'
    have e2 : (N : ℝ) ≤ (N : ℝ) ^ 5 := le_self_pow₀ hNr (by norm_num)
    have e3 : C5 * (p.n : ℝ) ≤ |C5| * (p.n : ℝ) := mul_le_mul_of_nonneg_right (le_abs_self _) (by positivity)
    linarith
  set z := ((i : ℝ) + 1) * (L / N) with hzdef
  have e3 : ∀ j, ‖v j - u z (time T p.n j)‖ ^ 2 ≤ 2 * (1 / (p.n : ℝ)) ^ 2 + 2 * ‖U z j - u z (time T p.n j)‖ ^ 2 := fun j => by
    have a1 : ‖v j - u z (time T p.n j)‖ ≤ 1 / (p.n : ℝ) + ‖U z j - u z (time T p.n j)‖ :=
      (norm_sub_le_norm_sub_add_norm_sub _ (U z j) _).trans (add_le_add ((herr j).trans e2) le_rfl)
    have a2 := pow_le_pow_left₀ (norm_nonneg _) a1 2
    nlinarith [sq_nonneg (1 / (p.n : ℝ) - ‖U z j - u z (time T p.n j)‖)]
  have e4 := Finset.sum_le_sum fun j (_ : j ∈ Finset.univ) => e3 j
  rw [Finset.sum_add_distrib, Finset.sum_const, ← Finset.mul_sum, Finset.card_univ, Fintype.card_fin, nsmul_eq_mul] at e4
  calc 1 / (p.n : ℝ) * ∑ j, ‖v j - u z (time T p.n j)‖ ^ 2
      ≤ 1 / (p.n : ℝ) * (p.n * (2 * (1 / (p.n : ℝ)) ^ 2) + 2 * ∑ j, ‖U z j - u z (time T p.n j)‖ ^ 2) := mul_le_mul_of_nonneg_left e4 (by positivity)
    _ = 2 * (1 / (p.n : ℝ)) ^ 2 + 2 * (1 / (p.n : ℝ) * ∑ j, ‖U z j - u z (time T p.n j)‖ ^ 2) := by field_simp
    _ ≤ 2 * (1 / (p.n : ℝ)) ^ 2 + 2 * (C / p.n) ^ 2 := by linarith
    _ = (2 + 2 * C ^ 2) / (p.n : ℝ) ^ 2 := by field_simp
    _ ≤ ((2 * C + 2) / p.n) ^ 2 := by
        rw [div_pow]
        exact div_le_div_of_nonneg_right (by nlinarith) (by positivity)

/-! ## An exact solution: pulses of every shape without dispersion -/

/-- the convolution with a kernel cut at `X` is smooth -/
theorem smooth_conv {k : ℝ → ℝ} (hk : Continuous k) (X : ℝ) {P : ℝ → ℝ} (hP : ContDiff ℝ (⊤ : ℕ∞) P) :
    ContDiff ℝ (⊤ : ℕ∞) fun t => ∫ s in (0 : ℝ)..X, k s * P (t - s) := by
  have step : ∀ {P : ℝ → ℝ}, ContDiff ℝ (⊤ : ℕ∞) P → ∀ t, HasDerivAt (fun t => ∫ s in (0 : ℝ)..X, k s * P (t - s)) (∫ s in (0 : ℝ)..X, k s * _root_.deriv P (t - s)) t := by
    intro P hP t
    have hd : Differentiable ℝ P := hP.differentiable (by simp)
    have hc' : Continuous (_root_.deriv P) := hP.continuous_deriv (by exact_mod_cast le_top)
    have hcc : Continuous fun q : ℝ × ℝ => k q.2 * _root_.deriv P (q.1 - q.2) := (hk.comp continuous_snd).mul (hc'.comp (continuous_fst.sub continuous_snd))
    obtain ⟨B, hB⟩ := (isCompact_Icc (a := t - 1) (b := t + 1)).prod (isCompact_uIcc (a := (0 : ℝ)) (b := X)) |>.exists_bound_of_continuousOn hcc.continuousOn
    refine (intervalIntegral.hasDerivAt_integral_of_dominated_loc_of_deriv_le (F := fun t s => k s * P (t - s)) (F' := fun t s => k s * _root_.deriv P (t - s))
      (bound := fun _ => B) (s := Icc (t - 1) (t + 1)) (Icc_mem_nhds (by linarith) (by linarith)) ?_ ?_ ?_ ?_ ?_ ?_).2
    · exact Filter.Eventually.of_forall fun x => (hk.mul (hd.continuous.comp (continuous_const.sub continuous_id))).aestronglyMeasurable
    · exact (hk.mul (hd.continuous.comp (continuous_const.sub continuous_id))).intervalIntegrable _ _
    · exact (hk.mul (hc'.comp (continuous_const.sub continuous_id))).aestronglyMeasurable
    · exact Filter.Eventually.of_forall fun s hs x hx => hB (x, s) ⟨hx, uIoc_subset_uIcc hs⟩
    · exact intervalIntegrable_const
    · refine Filter.Eventually.of_forall fun s _ x _ => ?_
      have := ((hd (x - s)).hasDerivAt.scomp x ((hasDerivAt_id x).sub_const s)).const_mul (k s)
      simpa using this
  refine contDiff_infty.2 fun m => ?_
  induction m generalizing P with
  | zero =>
    refine contDiff_zero.2 ?_
    exact continuous_iff_continuousAt.2 fun t => (step hP t).continuousAt
  | succ m ih =>
    have := contDiff_succ_iff_deriv (n := (m : WithTop ℕ∞)) (𝕜 := ℝ) (f := fun t => ∫ s in (0 : ℝ)..X, k s * P (t - s))
    refine this.2 ⟨fun t => (step hP t).differentiableAt, by simp, ?_⟩
    rw [show _root_.deriv (fun t => ∫ s in (0 : ℝ)..X, k s * P (t - s)) = fun t => ∫ s in (0 : ℝ)..X, k s * _root_.deriv P (t - s) from
      funext fun t => (step hP t).deriv]
    exact ih (contDiff_infty_iff_deriv.1 hP).2

/-- the pulse `f` after the distance `z` in a fibre without dispersion: its phase grows with the response to its power -/
noncomputable def modulated (γ fR : ℝ) (h : ℝ → ℝ) (T : ℝ) (f : ℝ → ℂ) (z t : ℝ) : ℂ :=
  f t * exp (I * ((γ * z * response fR h T (fun t => ‖f t‖ ^ 2) t : ℝ) : ℂ))

/-- C133: without dispersion the partial differential equation with delayed response is solved exactly by pulses of every shape. -/
theorem C133_modulated (γ fR : ℝ) {h : ℝ → ℝ} (hh : Continuous h) (T L : ℝ) {f : ℝ → ℂ} (hf : ContDiff ℝ (⊤ : ℕ∞) f) (hper : Function.Periodic f T) :
    Solution 0 0 γ fR h T L (modulated γ fR h T f) where
  smooth := by
    have hP : ContDiff ℝ (⊤ : ℕ∞) fun t => ‖f t‖ ^ 2 := hf.norm_sq ℝ
    have hQ : ContDiff ℝ (⊤ : ℕ∞) (response fR h T (fun t => ‖f t‖ ^ 2)) := by
      unfold response
      exact (contDiff_const.mul hP).add (contDiff_const.mul ((smooth_conv hh (T / 2) hP).div_const _))
    have hQ2 : ContDiff ℝ (⊤ : ℕ∞) fun q : ℝ × ℝ => γ * q.1 * response fR h T (fun t => ‖f t‖ ^ 2) q.2 := (contDiff_const.mul contDiff_fst).mul (hQ.comp contDiff_snd)
    exact (hf.comp contDiff_snd).mul ((contDiff_const.mul (Complex.ofRealCLM.contDiff.comp hQ2)).cexp)
  periodic := fun z t => by
    have e : response fR h T (fun t => ‖f t‖ ^ 2) (t + T) = response fR h T (fun t => ‖f t‖ ^ 2) t := by
      have e1 : ∀ s, f (t + T - s) = f (t - s) := fun s => by
        rw [show t + T - s = t - s + T by ring, hper]
      simp only [response, hper t, e1]
    unfold modulated
    rw [hper t, e]
  equation := fun z _ _ t => by
    have hn : (fun t => ‖modulated γ fR h T f z t‖ ^ 2) = fun t => ‖f t‖ ^ 2 := by
      funext t
      unfold modulated
      rw [norm_mul, mul_comm I, norm_exp_ofReal_mul_I, mul_one]
    rw [hn]
    set q := response fR h T (fun t => ‖f t‖ ^ 2) t with hq
    have hd : HasDerivAt (fun z : ℝ => f t * exp (I * ((γ * z * q : ℝ) : ℂ))) (f t * (exp (I * ((γ * z * q : ℝ) : ℂ)) * (I * ((γ * 1 * q : ℝ) : ℂ)))) z :=
      (((((hasDerivAt_id z).const_mul γ).mul_const q).ofReal_comp.const_mul I).cexp).const_mul (f t)
    refine hd.congr_deriv ?_
    have e0 : dispersion 0 (modulated γ fR h T f z) t = 0 := by
      unfold dispersion
      simp
    rw [e0]
    show _ = 0 + (0 : ℝ) / 2 * (f t * exp (I * ((γ * z * q : ℝ) : ℂ))) + I * γ * (f t * exp (I * ((γ * z * q : ℝ) : ℂ))) * (q : ℂ)
    push_cast
    ring

/-- C133: the fibres of `generate_fiber` satisfy the hypotheses of the theorem. -/
theorem C133_fiber (polyfit : Fiber.PolyFit) (spline : Fiber.Spline) (o : Obj) {p : Pulse} {a : Fin p.n → ℂ} (hp : Holds p a) (hn : 4 ≤ p.n)
    (he : p.n % 2 = 0) (htw : p.tw ≠ 0) (h1 : 0 < o.tau1) (h2 : 0 < o.tau2) {length wl gamma gain : ℝ} {m : ℕ} {b : Fin m → ℝ} {units label : String}
    (hu : units ≠ "ps^n/km") (hwl : wl ≠ 0) :
    ∃ R fR, Loads polyfit spline o p ⟨Fiber.genFib length wl ⟨m, b⟩ gamma gain units label Fiber.Fib.new, Fiber.genSpecs gain⟩
      (Fiber.genFib length wl ⟨m, b⟩ gamma gain units label Fiber.Fib.new)
      (fun k => (fiberPoly b (2 * Real.pi * p.cf - 2 * Real.pi * cNmps / wl) p.tw).eval (2 * Real.pi * ((k : ℕ) - (p.n : ℝ) / 2) / p.tw))
      gain R gamma fR := by
  obtain ⟨β, R, fR, h⟩ := loads_generated polyfit spline o hp (by omega : 2 ≤ p.n) (length := length) (gamma := gamma) (gain := gain)
    (b := ⟨m, b⟩) (units := units) (label := label) hwl (Or.inr (by positivity))
  exact ⟨R, fR, fiberPoly_betas polyfit spline 0 hp.ready hn he htw rfl rfl (by simp only [Fiber.genFib, if_neg hu]) rfl hwl, h.gamma, h.gain, h.raman⟩

/-- C133 applies to pulses of every size and every shape, with the default Raman response of the solver. -/
theorem C133_nonvacuous (polyfit : Fiber.PolyFit) (spline : Fiber.Spline) {f : ℝ → ℂ} {T : ℝ} (hT : 0 < T) (hf : ContDiff ℝ (⊤ : ℕ∞) f) (hper : Function.Periodic f T)
    (hf0 : f 0 ≠ 0) (γ : ℝ) {L wl : ℝ} (hL : 0 < L) (hwl : wl ≠ 0) (label : String) : ∃ (C : ℝ) (n0 : ℕ), ∀ n, n0 ≤ n → n % 2 = 0 →
      (heldPulse n (cNmps / wl) T fun j => f (time T n j)).AT = .ok ⟨n, fun j => f (time T n j)⟩ ∧
      ∃ N0 : ℕ, ∀ N, N0 ≤ N → ∃ r o' F', propagate polyfit spline { Obj.default with disableSS := true } (heldPulse n (cNmps / wl) T fun j => f (time T n j))
          ⟨Fiber.genFib L wl ⟨1, fun _ => 0⟩ γ 0 "ps^n/m" label Fiber.Fib.new, Fiber.genSpecs 0⟩ N false = some (.ok (r, o', F')) ∧ r.AT.length = N ∧
        ∀ i < N, ∃ v : Fin n → ℂ, r.AT[i]? = some ⟨n, v⟩ ∧
          1 / (n : ℝ) * ∑ j, ‖v j - modulated γ 0.245 (kernelFun Obj.default) T f ((i + 1) * (L / N)) (time T n j)‖ ^ 2 ≤ (C / n) ^ 2 := by
  set o : Obj := { Obj.default with disableSS := true } with ho
  have ht1 : 0 < o.tau1 := by norm_num [ho, Obj.default]
  have ht2 : 0 < o.tau2 := by norm_num [ho, Obj.default]
  obtain ⟨C, n0, H⟩ := C133_converges o ht1 ht2 (C133_modulated γ (fraction o) (kernel_contDiff o).continuous T L hf hper) hT hL rfl
    (by norm_num [ho, Obj.default]) rfl rfl (by norm_num [ho, Obj.default]) (by norm_num [ho, Obj.default]) (by norm_num [ho, Obj.default])
  refine ⟨C, max n0 4, fun n hn he => ?_⟩
  have hn0 : n0 ≤ n := le_trans (le_max_left _ _) hn
  have hn4 : 4 ≤ n := le_trans (le_max_right _ _) hn
  set A : Fin n → ℂ := fun j => f (time T n j) with hA
  have hold : Holds (heldPulse n (cNmps / wl) T A) (fftT A) := ⟨rfl, rfl, by omega, rfl⟩
  have hAT : (heldPulse n (cNmps / wl) T A).AT = .ok ⟨n, A⟩ := by
    have := hold.AT_eq
    rwa [ifftT_fftT] at this
  refine ⟨hAT, ?_⟩
  have hcw : (cNmps / wl : ℝ) ≠ 0 := div_ne_zero (by norm_num [cNmps, cMks]) hwl
  obtain ⟨R, fR, hload⟩ := C133_fiber polyfit spline o (p := heldPulse n (cNmps / wl) T A)
    hold hn4 he hT.ne' ht1 ht2 (length := L) (gamma := γ) (gain := 0) (b := fun _ : Fin 1 => (0 : ℝ)) (units := "ps^n/m") (label := label) (by decide) hwl
  have hs : samples (modulated γ (fraction o) (kernelFun o) T f) T n 0 = A := by
    funext j
    simp [samples, modulated, hA]
  have hne : A ≠ 0 := by
    intro h0
    have h1 := congrFun h0 ⟨n / 2, by omega⟩
    have h2 : time T n ⟨n / 2, by omega⟩ = 0 := by
      unfold time
      have : ((n / 2 : ℕ) : ℝ) = (n : ℝ) / 2 := by rw [Nat.cast_div (by omega) (by norm_num)]; norm_num
      show (((n / 2 : ℕ) : ℝ) - (n : ℝ) / 2) * _ = 0
      rw [this]
      ring
    have h3 : A ⟨n / 2, by omega⟩ = f (time T n ⟨n / 2, by omega⟩) := rfl
    rw [h2] at h3
    exact hf0 (h3.symm.trans h1)
  have := H polyfit spline (heldPulse n (cNmps / wl) T A) _ _ _ R fR (fftT A) hold hn0 he
    hcw rfl (by show (heldPulse n (cNmps / wl) T A).AT = .ok ⟨n, samples _ T n 0⟩; rw [hs]; exact hAT) (by show samples _ T n 0 ≠ 0; rw [hs]; exact hne) hload (fun k => ?_) rfl
  · have e : fraction o = 0.245 := by simp [fraction, ho, Obj.default]
    rw [e] at this
    exact this
  · have e : ∀ d : ℝ, fiberPoly (fun _ : Fin 1 => (0 : ℝ)) d T = 0 := fun d => by
      have : taylorPoly (fun _ : Fin 1 => (0 : ℝ)) = 0 := by simp [taylorPoly]
      simp [fiberPoly, this, Nlse.slope]
    show (fiberPoly _ _ T).eval _ = _
    rw [e]
    rfl

/-- C133: the equation with delayed response determines the field. -/
theorem C133_unique {o : Obj} (h1 : 0 < o.tau1) (h2 : 0 < o.tau2) {b : ℝ[X]} {g γ : ℝ} {T L : ℝ} {u v : ℝ → ℝ → ℂ}
    (hu : Solution b g γ (fraction o) (kernelFun o) T L u) (hv : Solution b g γ (fraction o) (kernelFun o) T L v)
    (hT : 0 < T) (h0 : ∀ t, u 0 t = v 0 t) {z : ℝ} (hz : z ∈ Icc 0 L) (t : ℝ) : u z t = v z t := by
  have hL : 0 ≤ L := hz.1.trans hz.2
  obtain ⟨C1, n1, hC1, -, H1⟩ := C133_grid o h1 h2 hu hT hL
  obtain ⟨C2, n2, hC2, -, H2⟩ := C133_grid o h1 h2 hv hT hL
  have hgrid : ∀ n, max (max n1 n2) 4 ≤ n → n % 2 = 0 → 0 < n → ∀ j : Fin n, ‖u z (time T n j) - v z (time T n j)‖ ≤ (C1 + C2) / √n := by
    intro n hn he hpos j
    have hn1 : n1 ≤ n := ((le_max_left _ _).trans (le_max_left _ _)).trans hn
    have hn2 : n2 ≤ n := ((le_max_right _ _).trans (le_max_left _ _)).trans hn
    have hn4 : 4 ≤ n := (le_max_right _ _).trans hn
    set A : Fin n → ℂ := samples u T n 0 with hA
    set o' : Obj := { o with disableRaman := false } with ho'
    have hold : Holds (heldPulse n 1 T A) (fftT A) := ⟨rfl, rfl, hpos, rfl⟩
    obtain ⟨R, fR, hload⟩ := C133_fiber (fun _ _ _ => .error .ValueError) (fun _ _ => .error .ValueError) o' (p := heldPulse n 1 T A)
      hold hn4 he hT.ne' h1 h2 (length := 1) (wl := 1) (gamma := γ) (gain := g) (b := fun _ : Fin 1 => (0 : ℝ)) (units := "ps^n/m") (label := "") (by decide) one_ne_zero
    have hR : ∀ x, respond R x = gridResponse (fraction o) (kernelFun o) (T / n) (gridArea n (kernelFun o) (T / n)) x := hload.response hold he rfl
    obtain ⟨U, hU, hU0⟩ := C116_exists (fun k : Fin n => b.eval (2 * Real.pi * ((k : ℕ) - (n : ℝ) / 2) / T)) g (raman_real hold he hload) γ A
      (T := L + 1) (by linarith)
    have e1 := H1 n hn1 he _ (fun k => rfl) R hR _ _ U (by linarith : -(L + 1) < 0) (by linarith : L < L + 1) hU hU0 z hz
    have e2 := H2 n hn2 he _ (fun k => rfl) R hR _ _ U (by linarith : -(L + 1) < 0) (by linarith : L < L + 1) hU (by rw [hU0]; funext i; exact h0 _) z hz
    have hn' : (0 : ℝ) < n := by exact_mod_cast hpos
    have single : ∀ (w : Fin n → ℂ) (C : ℝ), 0 ≤ C → 1 / (n : ℝ) * ∑ j, ‖w j‖ ^ 2 ≤ (C / n) ^ 2 → ‖w j‖ ≤ C / √n := by
      intro w C hC hw
      have s1 : ‖w j‖ ^ 2 ≤ ∑ j, ‖w j‖ ^ 2 := Finset.single_le_sum (f := fun j => ‖w j‖ ^ 2) (fun i _ => by positivity) (Finset.mem_univ j)
      refine le_of_sq_le_sq ?_ (by positivity)
      rw [div_pow, Real.sq_sqrt hn'.le]
      rw [div_pow, one_div, inv_mul_le_iff₀ hn'] at hw
      refine s1.trans (hw.trans (le_of_eq ?_))
      field_simp
    calc ‖u z (time T n j) - v z (time T n j)‖ = ‖(U z j - v z (time T n j)) - (U z j - u z (time T n j))‖ := by congr 1; ring
      _ ≤ C2 / √n + C1 / √n := (norm_sub_le _ _).trans (add_le_add (single _ _ hC2 e2) (single _ _ hC1 e1))
      _ = (C1 + C2) / √n := by ring
  have hlim : Filter.Tendsto (fun n : ℕ => (C1 + C2) / √(n : ℝ)) Filter.atTop (nhds 0) :=
    (Real.tendsto_sqrt_atTop.comp tendsto_natCast_atTop_atTop).const_div_atTop _
  have hc : Continuous fun t => u z t - v z t := (slice_contDiff hu.smooth z).continuous.sub (slice_contDiff hv.smooth z).continuous
  have hper : Function.Periodic (fun t => u z t - v z t) T := fun t => by
    show u z (t + T) - v z (t + T) = _
    rw [hu.periodic z t, hv.periodic z t]
  exact sub_eq_zero.1 (grid_dense hT hc hper hlim hgrid t)

end PyNLO
