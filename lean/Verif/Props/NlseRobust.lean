import Verif.Props.NlseExamples
import Verif.Lemmas.NlseSobolev

/-!
# Small changes of the input stay small, on every grid
-/

namespace PyNLO

open Complex Set Polynomial Ssfm Pulse OdeGlobal Nlse Alias

variable {n : ℕ}

/-- the sample after the last is the first of the next period -/
theorem periodic_next {T : ℝ} {f : ℝ → ℂ} (hf : Function.Periodic f T) (j : Fin n) : f (time T n (next j)) = f (time T n j + T / n) := by
  have hn : 0 < n := by have := j.isLt; omega
  have hn' : (n : ℝ) ≠ 0 := by exact_mod_cast hn.ne'
  by_cases h : (j : ℕ) + 1 < n
  · have e : ((next j : Fin n) : ℕ) = j + 1 := Nat.mod_eq_of_lt h
    congr 1
    unfold time
    rw [e]
    push_cast
    ring
  · have e0 : (j : ℕ) + 1 = n := by have := j.isLt; omega
    have e : ((next j : Fin n) : ℕ) = 0 := by
      show ((j : ℕ) + 1) % n = 0
      rw [e0, Nat.mod_self]
    have e1 : ((j : ℕ) : ℝ) = n - 1 := by
      have : ((j : ℕ) : ℝ) + 1 = n := by exact_mod_cast e0
      linarith
    have e2 : time T n j + T / n = time T n (next j) + T := by
      unfold time
      rw [e, e1]
      field_simp
      push_cast
      ring
    rw [e2, hf]

/-- slopes of the samples of a periodic function are bounded by its Lipschitz constant -/
theorem slopes_samples_le {T c : ℝ} (hT : 0 < T) {f : ℝ → ℂ} (hf : Function.Periodic f T) (hl : ∀ s t, ‖f s - f t‖ ≤ c * |s - t|) (j : Fin n) :
    ‖slopes (T / n) (fun i => f (time T n i)) j‖ ≤ c := by
  have hn : 0 < n := by have := j.isLt; omega
  have hn' : (0 : ℝ) < n := by exact_mod_cast hn
  have hpos : 0 < T / n := by positivity
  simp only [slopes]
  rw [periodic_next hf, norm_div, norm_real, Real.norm_eq_abs, abs_of_pos hpos, div_le_iff₀ hpos]
  have := hl (time T n j + T / n) (time T n j)
  rwa [add_sub_cancel_left, abs_of_pos hpos] at this

theorem lipschitz_of_deriv {f : ℝ → ℂ} (hf : Differentiable ℝ f) {c : ℝ} (hc : ∀ t, ‖_root_.deriv f t‖ ≤ c) (s t : ℝ) : ‖f s - f t‖ ≤ c * |s - t| := by
  have := (convex_univ (𝕜 := ℝ) (E := ℝ)).norm_image_sub_le_of_norm_deriv_le (f := f) (C := c) (fun x _ => hf x) (fun x _ => hc x) (mem_univ t) (mem_univ s)
  rwa [Real.norm_eq_abs] at this

/-- difference between the dispersion in continuous time and on the grid -/
noncomputable def aliasing (b : ℝ[X]) (β : Fin n → ℝ) (T : ℝ) (f : ℝ → ℂ) : Fin n → ℂ := fun j =>
  dispersion b f (time T n j) - respond (fun k => I * β k) (fun i => f (time T n i)) j

theorem near_hasDerivAt {b : ℝ[X]} {g γ T L ρ : ℝ} {u r : ℝ → ℝ → ℂ} (hu : NearSolution b g γ T L u r ρ) {z : ℝ} (hz : z ∈ Icc 0 L) (β : Fin n → ℝ) :
    HasDerivAt (samples u T n) (Gnlse.rhs β g (fun _ => 1) γ (samples u T n z) + (aliasing b β T (u z) + samples r T n z)) z := by
  rw [hasDerivAt_pi]
  intro j
  refine (hu.equation z hz.1 hz.2 (time T n j)).congr_deriv ?_
  rw [rhs_one]
  have e : respond (fun k => I * β k + g / 2) (samples u T n z) = respond (fun k => I * β k) (samples u T n z) + fun j => (g / 2 : ℂ) * samples u T n z j := by
    have e1 : (fun k => (I * β k + g / 2) * Gnlse.toFreq (samples u T n z) k) =
        (fun k => I * β k * Gnlse.toFreq (samples u T n z) k) + fun k => g / 2 * Gnlse.toFreq (samples u T n z) k := by
      funext k
      simp only [Pi.add_apply]
      ring
    unfold respond
    rw [e1]
    have e2 : Gnlse.toTime (fun k => (g / 2 : ℂ) * Gnlse.toFreq (samples u T n z) k) = fun j => (g / 2 : ℂ) * samples u T n z j := by
      rw [toTime_smul, toTime_toFreq]
    rw [← e2]
    funext j
    simp only [Gnlse.toTime, Pi.add_apply, fft, fftshift, ifftshift, roll, add_mul, Finset.sum_add_distrib]
  have e3 : I * γ * cube (u z (time T n j)) = I * γ * u z (time T n j) * ((‖u z (time T n j)‖ ^ 2 : ℝ) : ℂ) := by
    rw [← normSq_eq_norm_sq, ← mul_conj]
    unfold cube
    ring
  rw [e]
  simp only [Pi.add_apply, aliasing, samples] at e3 ⊢
  rw [e3]
  have e4 : (fun i => u z (time T n i)) = samples u T n z := rfl
  rw [e4]
  ring

/-- The equation on the grid against the equation in continuous time, for fields that satisfy it up to a small error and for inputs that are close to
the samples: the bound does not depend on the number of points. -/
theorem semidiscrete_near {b : ℝ[X]} {g γ T L ρ M M1 : ℝ} {u r : ℝ → ℝ → ℂ} (hu : NearSolution b g γ T L u r ρ) (hT : 0 < T) (hL : 0 ≤ L)
    (hM : ∀ z ∈ Icc 0 L, ∀ t, ‖u z t‖ ≤ M) (hM1 : ∀ z ∈ Icc 0 L, ∀ t, ‖_root_.deriv (u z) t‖ ≤ M1) (s : ℕ) :
    ∃ C : ℝ, 0 ≤ C ∧ ∀ (n : ℕ), 0 < n → n % 2 = 0 → ∀ (β : Fin n → ℝ),
      (∀ k, β k = b.eval (2 * Real.pi * ((k : ℕ) - (n : ℝ) / 2) / T)) → ∀ (d : ℝ) (U : ℝ → Fin n → ℂ),
      (∀ z ∈ Icc 0 L, HasDerivAt U (Gnlse.rhs β g (fun _ => 1) γ (U z)) z) → sobolev T (U 0 - samples u T n 0) ≤ d →
      (1 + 1 / T) * ((d + 2 * T * (ρ + C / n ^ s) ^ 2) * Real.exp (growth1 g γ M M1 * L)) < 1 →
      ∀ z ∈ Icc 0 L, ∀ j, ‖U z j - u z (time T n j)‖ ^ 2 ≤ (1 + 1 / T) * ((d + 2 * T * (ρ + C / n ^ s) ^ 2) * Real.exp (growth1 g γ M M1 * L)) := by
  obtain ⟨B, hB0, hB⟩ := uniform_bound hu.smooth hT hu.periodic L (b.natDegree + (s + 1) + 2)
  set A := aliasC b T (s + 1) * B with hA
  have hA0 : 0 ≤ A := mul_nonneg (aliasC_nonneg b hT _) hB0
  have hM0 : 0 ≤ M := (norm_nonneg _).trans (hM 0 ⟨le_refl _, hL⟩ 0)
  have hM10 : 0 ≤ M1 := (norm_nonneg _).trans (hM1 0 ⟨le_refl _, hL⟩ 0)
  refine ⟨A + 2 * A / T, by positivity, ?_⟩
  intro n hn he β hβ d U hU hd hsmall
  have hn' : (0 : ℝ) < n := by exact_mod_cast hn
  have hn1 : (1 : ℝ) ≤ n := by exact_mod_cast hn
  set C := A + 2 * A / T with hC
  have halias : ∀ z ∈ Icc 0 L, ∀ j, ‖aliasing b β T (u z) j‖ ≤ A / n ^ (s + 1) := fun z hz j =>
    dispersion_error hT hn he (slice_contDiff hu.smooth z) (hu.periodic z) b (s + 1) (hB z hz) hβ j
  have hres : ∀ z ∈ Icc 0 L, sobolev T (aliasing b β T (u z) + samples r T n z) ≤ 2 * T * (ρ + C / n ^ s) ^ 2 := by
    intro z hz
    have h1 : ∀ j, ‖(aliasing b β T (u z) + samples r T n z) j‖ ≤ ρ + C / n ^ s := fun j => by
      have a1 := halias z hz j
      have a2 := hu.err z hz.1 hz.2 (time T n j)
      have a3 : A / (n : ℝ) ^ (s + 1) ≤ C / n ^ s := by
        refine div_le_div₀ (by positivity) ?_ (by positivity) (pow_le_pow_right₀ hn1 (Nat.le_succ s))
        have : 0 ≤ 2 * A / T := by positivity
        linarith
      have := norm_add_le (aliasing b β T (u z) j) (samples r T n z j)
      rw [Pi.add_apply]
      simp only [samples] at this ⊢
      linarith
    have h2 : ∀ j, ‖slopes (T / n) (aliasing b β T (u z) + samples r T n z) j‖ ≤ ρ + C / n ^ s := fun j => by
      rw [slopes_add, Pi.add_apply]
      have a1 : ‖slopes (T / n) (aliasing b β T (u z)) j‖ ≤ C / n ^ s := by
        unfold slopes
        rw [norm_div, norm_real, Real.norm_eq_abs, abs_of_pos (by positivity : 0 < T / n), div_le_iff₀ (by positivity)]
        have a2 := norm_sub_le (aliasing b β T (u z) (next j)) (aliasing b β T (u z) j)
        have a3 := halias z hz (next j)
        have a4 := halias z hz j
        have a5 : C / (n : ℝ) ^ s * (T / n) = A * T / n ^ (s + 1) + 2 * (A / n ^ (s + 1)) := by
          rw [hC, pow_succ]
          field_simp
        have a6 : 0 ≤ A * T / (n : ℝ) ^ (s + 1) := by positivity
        linarith
      have a2 := slopes_samples_le (n := n) hT (hu.errPeriodic z) (hu.errSlope z hz.1 hz.2) j
      exact (norm_add_le _ _).trans (by rw [add_comm]; exact add_le_add a2 a1)
    unfold sobolev
    have h3 : ∑ j, (‖(aliasing b β T (u z) + samples r T n z) j‖ ^ 2 + ‖slopes (T / n) (aliasing b β T (u z) + samples r T n z) j‖ ^ 2) ≤
        ∑ _j : Fin n, 2 * (ρ + C / n ^ s) ^ 2 := Finset.sum_le_sum fun j _ => by
      have b1 := pow_le_pow_left₀ (norm_nonneg _) (h1 j) 2
      have b2 := pow_le_pow_left₀ (norm_nonneg _) (h2 j) 2
      linarith
    refine (mul_le_mul_of_nonneg_left h3 (by positivity)).trans (le_of_eq ?_)
    rw [Finset.sum_const, Finset.card_univ, Fintype.card_fin, nsmul_eq_mul]
    field_simp
  have hst := stable_sobolev (β := β) hn hT hL hM0 hM10 hU (fun z hz => near_hasDerivAt hu hz β) (fun z hz j => hM z hz _)
    (fun z hz j => slopes_samples_le hT (hu.periodic z) (lipschitz_of_deriv ((slice_contDiff hu.smooth z).differentiable (by simp)) (hM1 z hz)) j)
    hres hd hsmall
  intro z hz j
  have h1 := sq_le_sobolev hT (U z - samples u T n z) j
  rw [Pi.sub_apply] at h1
  exact h1.trans (mul_le_mul_of_nonneg_left (hst z hz) (by positivity))

theorem near_of_solution {b : ℝ[X]} {g γ : ℝ} {h : ℝ → ℝ} {T L : ℝ} {u : ℝ → ℝ → ℂ} (hu : Solution b g γ 0 h T L u) :
    NearSolution b g γ T L u (fun _ _ => 0) 0 where
  smooth := hu.smooth
  periodic := hu.periodic
  equation := fun z h0 h1 t => by
    refine (hu.equation z h0 h1 t).congr_deriv ?_
    rw [response_off, add_zero]
  errPeriodic := fun _ _ => rfl
  err := fun _ _ _ _ => by simp
  errSlope := fun _ _ _ _ _ => by simp

/-- C149: let `u` be a smooth periodic solution of the nonlinear Schrödinger equation.  On every fine grid, an input at distance `d ≤ δ` from the samples
of `u(0,·)` stays within `K·d + C/nˢ` of the samples of `u`; none of the constants depends on the grid. -/
theorem C149_grid {b : ℝ[X]} {g γ : ℝ} {h : ℝ → ℝ} {T L : ℝ} {u : ℝ → ℝ → ℂ} (hu : Solution b g γ 0 h T L u) (hT : 0 < T) (hL : 0 ≤ L) (s : ℕ) :
    ∃ (K C δ : ℝ) (n0 : ℕ), 0 < δ ∧ ∀ n : ℕ, n0 ≤ n → n % 2 = 0 → ∀ (β : Fin n → ℝ),
      (∀ k, β k = b.eval (2 * Real.pi * ((k : ℕ) - (n : ℝ) / 2) / T)) → ∀ (x y : ℝ) (U : ℝ → Fin n → ℂ), x < 0 → L < y →
      Solves β g (fun _ => 1) γ x y U → ∀ d, 0 ≤ d → d ≤ δ → sobolev T (U 0 - samples u T n 0) ≤ d ^ 2 →
      ∀ z ∈ Icc 0 L, ∀ j, ‖U z j - u z (time T n j)‖ ≤ K * d + C / n ^ s := by
  obtain ⟨M, hM0, hM⟩ := uniform_bound hu.smooth hT hu.periodic L 0
  obtain ⟨M1, hM10, hM1⟩ := uniform_bound hu.smooth hT hu.periodic L 1
  simp only [iteratedDeriv_zero] at hM
  simp only [iteratedDeriv_one] at hM1
  obtain ⟨C, hC, H⟩ := semidiscrete_near (near_of_solution hu) hT hL hM hM1 (s + 1)
  set G := Real.exp (growth1 g γ M M1 * L) with hG
  have hGp : 0 < G := Real.exp_pos _
  set Q := (1 + 1 / T) * G with hQ
  have hQp : 0 < Q := by positivity
  set δ := 1 / (2 * Real.sqrt (Q + 1)) with hδ
  have hq1 : 0 < Real.sqrt (Q + 1) := Real.sqrt_pos.2 (by linarith)
  have hδp : 0 < δ := by positivity
  have hδ2 : Q * δ ^ 2 < 1 / 4 + 1 / 4 := by
    rw [hδ, div_pow, mul_pow, Real.sq_sqrt (by linarith)]
    rw [one_pow, mul_one_div, div_lt_iff₀ (by linarith)]
    nlinarith
  refine ⟨Real.sqrt Q, Real.sqrt (Q * (2 * T)) * C, δ, ⌊Q * (2 * T) * C ^ 2 * 4⌋₊ + 1, hδp, ?_⟩
  intro n hn0 he β hβ x y U hx hy hU d hd hdδ hsob z hz j
  have hn : 0 < n := by omega
  have hn' : (0 : ℝ) < n := by exact_mod_cast hn
  have hn1 : (1 : ℝ) ≤ n := by exact_mod_cast hn
  have hbig : Q * (2 * T) * C ^ 2 * 4 < n := by
    have h1 := Nat.lt_floor_add_one (Q * (2 * T) * C ^ 2 * 4)
    have h2 : ((⌊Q * (2 * T) * C ^ 2 * 4⌋₊ + 1 : ℕ) : ℝ) ≤ n := by exact_mod_cast hn0
    push_cast at h2
    linarith
  have hns : (1 : ℝ) ≤ (n : ℝ) ^ s := one_le_pow₀ hn1
  have hrest : Q * (2 * T) * (C / (n : ℝ) ^ (s + 1)) ^ 2 < 1 / 4 := by
    rw [div_pow, ← mul_div_assoc, div_lt_iff₀ (by positivity)]
    have h1 : (n : ℝ) ≤ ((n : ℝ) ^ (s + 1)) ^ 2 := by
      rw [← pow_mul]
      exact le_self_pow₀ hn1 (by omega)
    linarith
  have hd2 : Q * d ^ 2 ≤ Q * δ ^ 2 := mul_le_mul_of_nonneg_left (pow_le_pow_left₀ hd hdδ 2) hQp.le
  have htot : (1 + 1 / T) * ((d ^ 2 + 2 * T * (0 + C / n ^ (s + 1)) ^ 2) * G) = Q * d ^ 2 + Q * (2 * T) * (C / (n : ℝ) ^ (s + 1)) ^ 2 := by
    rw [hQ, zero_add]
    ring
  have h1 := H n hn he β hβ (d ^ 2) U (fun z hz => hU z ⟨by linarith [hz.1], by linarith [hz.2]⟩) hsob (by rw [htot]; linarith) z hz j
  rw [htot] at h1
  have hle : Q * (2 * T) * (C / (n : ℝ) ^ (s + 1)) ^ 2 ≤ (Real.sqrt (Q * (2 * T)) * C / n ^ s) ^ 2 := by
    rw [div_pow, div_pow, mul_pow, Real.sq_sqrt (by positivity), ← mul_div_assoc]
    refine div_le_div_of_nonneg_left (by positivity) (by positivity) ?_
    exact pow_le_pow_left₀ (by positivity) (pow_le_pow_right₀ hn1 (Nat.le_succ s)) 2
  have hQd : Q * d ^ 2 = (Real.sqrt Q * d) ^ 2 := by rw [mul_pow, Real.sq_sqrt hQp.le]
  refine (pow_le_pow_iff_left₀ (norm_nonneg _) (by positivity) two_ne_zero).1 (h1.trans ?_)
  have hx0 : 0 ≤ Real.sqrt Q * d := by positivity
  have hy0 : 0 ≤ Real.sqrt (Q * (2 * T)) * C / (n : ℝ) ^ s := by positivity
  nlinarith

/-- what the solver adds to the solution of the equation on the grid -/
theorem solver_close (polyfit : Fiber.PolyFit) (spline : Fiber.Spline) {o : Obj} {p : Pulse} {F : FibObj} {f1 : Fiber.Fib} {β : Fin p.n → ℝ}
    {R : Fin p.n → ℂ} {fR g γ L : ℝ} {a A : Fin p.n → ℂ} (hp : Holds p a) (he : p.n % 2 = 0) (hcf : p.cf ≠ 0) (hA : p.AT = .ok ⟨p.n, A⟩)
    (hne : A ≠ 0) (hl : Loads polyfit spline o p F f1 β g R γ fR) (hlen : F.fib.length = some L) (hL : 0 < L) (hm : o.method = .rk4ip) (heta : o.eta = 5)
    (hss : o.disableSS = true) (hram : o.disableRaman = true) (hdz : 0 < o.dz) (hmin : 0 < o.dzMin) (hle : 0 < o.localError) :
    ∃ U : ℝ → Fin p.n → ℂ, Solves β g (fun _ => 1) γ (-(L + 1)) (L + 1) U ∧ U 0 = A ∧ ∀ ε, 0 < ε → ∃ N0 : ℕ, ∀ N, N0 ≤ N → ∃ r o' F',
      propagate polyfit spline o p F N false = some (.ok (r, o', F')) ∧ r.AT.length = N ∧ ∀ i < N, ((i : ℝ) + 1) * (L / N) ∈ Icc 0 L ∧
        ∃ v : Fin p.n → ℂ, r.AT[i]? = some ⟨p.n, v⟩ ∧ ∀ j, ‖v j - U ((i + 1) * (L / N)) j‖ ≤ ε := by
  obtain rfl := hl.raman_off hram
  obtain ⟨U, hU, hU0⟩ := C116_exists β g (raman_real hp he hl) γ A (T := L + 1) (by linarith)
  obtain ⟨N0, C5, hconv⟩ := C116_converges hp he hcf hl hlen hL hm heta hss hdz hmin hle (by linarith : -(L + 1) < 0) (by linarith : L < L + 1) hU
    (by rw [hU0]; exact hA) (by rw [hU0]; exact hne)
  refine ⟨U, hU, hU0, fun ε hε => ?_⟩
  obtain ⟨N1, hN1⟩ := exists_nat_gt (|C5| / ε)
  refine ⟨max (max N0 N1) 1, fun N hN => ?_⟩
  have hN0 : N0 ≤ N := le_trans (le_trans (le_max_left _ _) (le_max_left _ _)) hN
  have hN1' : N1 ≤ N := le_trans (le_trans (le_max_right _ _) (le_max_left _ _)) hN
  have hNpos : 1 ≤ N := le_trans (le_max_right _ _) hN
  have hNr : (1 : ℝ) ≤ N := by exact_mod_cast hNpos
  obtain ⟨r, o', F', hr, hlr, hcol⟩ := hconv N hN0
  refine ⟨r, o', F', hr, hlr, fun i hi => ⟨⟨by positivity, ?_⟩, ?_⟩⟩
  · have : (i : ℝ) + 1 ≤ N := by exact_mod_cast hi
    calc ((i : ℝ) + 1) * (L / N) ≤ N * (L / N) := mul_le_mul_of_nonneg_right this (by positivity)
      _ = L := by field_simp
  · obtain ⟨v, hv, herr⟩ := hcol i hi
    refine ⟨v, hv, fun j => (herr j).trans ?_⟩
    rw [div_le_iff₀ (by positivity)]
    have e1 : (N1 : ℝ) ≤ N := by exact_mod_cast hN1'
    have e2 : (N : ℝ) ≤ (N : ℝ) ^ 5 := le_self_pow₀ hNr (by norm_num)
    rw [div_lt_iff₀ hε] at hN1
    have e3 := le_abs_self C5
    nlinarith

/-- C149: the fields that `propagate` returns.  An input at distance `d` from the samples of a solution gives columns within `K·d + C/nˢ` of that solution, for
all grids that are fine enough and all sufficiently large numbers of steps. -/
theorem C149_propagate {b : ℝ[X]} {g γ : ℝ} {h : ℝ → ℝ} {T L : ℝ} {u : ℝ → ℝ → ℂ} (hu : Solution b g γ 0 h T L u) (hT : 0 < T) (hL : 0 < L) (s : ℕ) :
    ∃ (K C δ : ℝ) (n0 : ℕ), 0 < δ ∧ ∀ (polyfit : Fiber.PolyFit) (spline : Fiber.Spline) (o : Obj) (p : Pulse) (F : FibObj) (f1 : Fiber.Fib) (β : Fin p.n → ℝ)
      (R : Fin p.n → ℂ) (fR : ℝ) (a A : Fin p.n → ℂ) (d : ℝ), Holds p a → n0 ≤ p.n → p.n % 2 = 0 → p.cf ≠ 0 → p.AT = .ok ⟨p.n, A⟩ →
      A ≠ 0 → 0 ≤ d → d ≤ δ → sobolev T (A - samples u T p.n 0) ≤ d ^ 2 → Loads polyfit spline o p F f1 β g R γ fR →
      (∀ k, β k = b.eval (2 * Real.pi * ((k : ℕ) - (p.n : ℝ) / 2) / T)) → F.fib.length = some L → o.method = .rk4ip → o.eta = 5 → o.disableSS = true →
      o.disableRaman = true → 0 < o.dz → 0 < o.dzMin → 0 < o.localError →
      ∃ N0 : ℕ, ∀ N, N0 ≤ N → ∃ r o' F', propagate polyfit spline o p F N false = some (.ok (r, o', F')) ∧ r.AT.length = N ∧
        ∀ i < N, ∃ v : Fin p.n → ℂ, r.AT[i]? = some ⟨p.n, v⟩ ∧ ∀ j, ‖v j - u ((i + 1) * (L / N)) (time T p.n j)‖ ≤ K * d + C / p.n ^ s := by
  obtain ⟨K, C, δ, n0, hδ, H⟩ := C149_grid hu hT hL.le s
  refine ⟨K, C + 1, δ, n0, hδ, ?_⟩
  intro polyfit spline o p F f1 β R fR a A d hp hn he hcf hA hne hd hdδ hsob hl hβ hlen hm heta hss hram hdz hmin hle
  obtain ⟨U, hU, hU0, hconv⟩ := solver_close polyfit spline hp he hcf hA hne hl hlen hL hm heta hss hram hdz hmin hle
  have hnp : (0 : ℝ) < p.n := by exact_mod_cast hp.pos
  obtain ⟨N0, hN0⟩ := hconv (1 / (p.n : ℝ) ^ s) (by positivity)
  refine ⟨N0, fun N hN => ?_⟩
  obtain ⟨r, o', F', hr, hlr, hcol⟩ := hN0 N hN
  refine ⟨r, o', F', hr, hlr, fun i hi => ?_⟩
  obtain ⟨hz, v, hv, herr⟩ := hcol i hi
  refine ⟨v, hv, fun j => ?_⟩
  have h1 := H p.n hn he β hβ _ _ U (by linarith : -(L + 1) < 0) (by linarith : L < L + 1) hU d hd hdδ (by rw [hU0]; exact hsob) _ hz j
  have h2 := norm_sub_le_norm_sub_add_norm_sub (v j) (U ((i + 1) * (L / N)) j) (u ((i + 1) * (L / N)) (time T p.n j))
  have h3 := herr j
  have e : K * d + (C + 1) / (p.n : ℝ) ^ s = 1 / (p.n : ℝ) ^ s + (K * d + C / (p.n : ℝ) ^ s) := by ring
  rw [e]
  linarith

theorem sobolev_const {T : ℝ} (hn : 0 < n) (c : ℂ) : sobolev T (fun _ : Fin n => c) = T * ‖c‖ ^ 2 := by
  have hn' : (n : ℝ) ≠ 0 := by exact_mod_cast hn.ne'
  unfold sobolev
  simp only [slopes, sub_self, zero_div, norm_zero, ne_eq, OfNat.ofNat_ne_zero, not_false_eq_true, zero_pow, add_zero, Finset.sum_const, Finset.card_univ,
    Fintype.card_fin, nsmul_eq_mul]
  field_simp

/-- C149 applies to the breather with a constant background `ε` added to the input, in a generated fibre with `β₂ = -1 ps²/m` and `γ = 1/(W m)`. -/
theorem C149_nonvacuous (polyfit : Fiber.PolyFit) (spline : Fiber.Spline) {p q : ℝ} (hp : 0 < p) (hq0 : 0 ≤ q) (hq1 : q < 1) (hpq : p ^ 2 + q ^ 2 = 1)
    {L wl : ℝ} (hL : 0 < L) (hwl : wl ≠ 0) (label : String) (s : ℕ) : ∃ (K C δ : ℝ) (n0 : ℕ), 0 < δ ∧ ∀ n, n0 ≤ n → n % 2 = 0 → ∀ ε : ℝ, |ε| ≤ δ →
      ∃ N0 : ℕ, ∀ N, N0 ≤ N → ∃ r o' F', propagate polyfit spline { Obj.default with disableSS := true, disableRaman := true }
          (heldPulse n (cNmps / wl) (Real.pi / p) (samples (breather p q) (Real.pi / p) n 0 + fun _ => (ε : ℂ)))
          ⟨Fiber.genFib L wl ⟨1, fun _ => -1⟩ 1 0 "ps^n/m" label Fiber.Fib.new, Fiber.genSpecs 0⟩ N false = some (.ok (r, o', F')) ∧ r.AT.length = N ∧
        ∀ i < N, ∃ v : Fin n → ℂ, r.AT[i]? = some ⟨n, v⟩ ∧
          ∀ j, ‖v j - breather p q ((i + 1) * (L / N)) (time (Real.pi / p) n j)‖ ≤ K * |ε| + C / n ^ s := by
  have hT : 0 < Real.pi / p := by positivity
  have hsT : 0 < Real.sqrt (Real.pi / p) := Real.sqrt_pos.2 hT
  obtain ⟨K, C, δ, n0, hδ, H⟩ := C149_propagate (C132_breather hp hq0 hq1 hpq (fun _ => 0) L) hT hL s
  refine ⟨K * Real.sqrt (Real.pi / p), C, min (δ / Real.sqrt (Real.pi / p)) (1 / 2), max n0 4, by positivity, fun n hn he ε hε => ?_⟩
  have hn0 : n0 ≤ n := le_trans (le_max_left _ _) hn
  have hn4 : 4 ≤ n := le_trans (le_max_right _ _) hn
  have hε1 : |ε| ≤ δ / Real.sqrt (Real.pi / p) := hε.trans (min_le_left _ _)
  have hε2 : |ε| ≤ 1 / 2 := hε.trans (min_le_right _ _)
  rw [le_div_iff₀ hsT] at hε1
  set A := samples (breather p q) (Real.pi / p) n 0 + fun _ => (ε : ℂ) with hA
  have hold : Holds (heldPulse n (cNmps / wl) (Real.pi / p) A) (fftT A) := ⟨rfl, rfl, by omega, rfl⟩
  have hAT : (heldPulse n (cNmps / wl) (Real.pi / p) A).AT = .ok ⟨n, A⟩ := by
    have := hold.AT_eq
    rwa [ifftT_fftT] at this
  have hcw : (cNmps / wl : ℝ) ≠ 0 := div_ne_zero (by norm_num [cNmps, cMks]) hwl
  have hload := C132_fiber polyfit spline { Obj.default with disableSS := true, disableRaman := true } (p := heldPulse n (cNmps / wl) (Real.pi / p) A)
    hold hn4 he hT.ne' rfl (length := L) (gamma := 1) (gain := 0) (b := fun _ : Fin 1 => (-1 : ℝ)) (units := "ps^n/m") (label := label) (by decide) hwl
  have hd : 2 * Real.pi * (heldPulse n (cNmps / wl) (Real.pi / p) A).cf - 2 * Real.pi * cNmps / wl = 0 := by
    show 2 * Real.pi * (cNmps / wl) - 2 * Real.pi * cNmps / wl = 0
    ring
  have hne : A ≠ 0 := by
    intro h0
    have h1 := congrFun h0 ⟨n / 2, by omega⟩
    have h2 : time (Real.pi / p) n ⟨n / 2, by omega⟩ = 0 := by
      unfold time
      have : ((n / 2 : ℕ) : ℝ) = (n : ℝ) / 2 := by rw [Nat.cast_div (by omega) (by norm_num)]; norm_num
      show (((n / 2 : ℕ) : ℝ) - (n : ℝ) / 2) * _ = 0
      rw [this]
      ring
    have h3 : breather p q 0 0 + ε = 0 := by
      have : A ⟨n / 2, by omega⟩ = breather p q 0 (time (Real.pi / p) n ⟨n / 2, by omega⟩) + ε := rfl
      rw [h2] at this
      rw [← this]
      exact h1
    have h4 : ((1 + 2 * p ^ 2 / (q - 1) + ε : ℝ) : ℂ) = 0 := by
      have : breather p q 0 0 = ((1 + 2 * p ^ 2 / (q - 1) : ℝ) : ℂ) := by
        unfold breather
        simp
      rw [← h3, this]
      push_cast
      ring
    have h5 : 1 + 2 * p ^ 2 / (q - 1) + ε = 0 := by exact_mod_cast h4
    have h6 : q - 1 ≠ 0 := by linarith
    have h7 : 2 * p ^ 2 / (q - 1) = -2 * (1 + q) := by
      rw [div_eq_iff h6]
      nlinarith
    rw [h7] at h5
    have := abs_le.1 hε2
    linarith
  have hdist : sobolev (Real.pi / p) (A - samples (breather p q) (Real.pi / p) n 0) ≤ (|ε| * Real.sqrt (Real.pi / p)) ^ 2 := by
    rw [hA, add_sub_cancel_left, sobolev_const (by omega), norm_real, Real.norm_eq_abs, mul_pow, Real.sq_sqrt hT.le, mul_comm]
  obtain ⟨N0, hN0⟩ := H polyfit spline { Obj.default with disableSS := true, disableRaman := true } (heldPulse n (cNmps / wl) (Real.pi / p) A) _ _ _ _ _ (fftT A) A
    (|ε| * Real.sqrt (Real.pi / p)) hold hn0 he hcw hAT hne (by positivity) hε1 hdist hload (fun k => by
      rw [hd]
      show (fiberPoly _ 0 (Real.pi / p)).eval _ = _
      rw [fiberPoly_quadratic]
      rfl) rfl rfl (by norm_num [Obj.default]) rfl rfl (by norm_num [Obj.default]) (by norm_num [Obj.default]) (by norm_num [Obj.default])
  refine ⟨N0, fun N hN => ?_⟩
  obtain ⟨r, o', F', h1, h2, h3⟩ := hN0 N hN
  refine ⟨r, o', F', h1, h2, fun i hi => ?_⟩
  obtain ⟨v, hv, hb⟩ := h3 i hi
  refine ⟨v, hv, fun j => (hb j).trans (le_of_eq ?_)⟩
  show K * (|ε| * Real.sqrt (Real.pi / p)) + C / (n : ℝ) ^ s = _
  ring

end PyNLO
