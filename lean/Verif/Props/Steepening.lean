import Verif.Spec.Steepening
import Verif.Props.SsfmSteep
import Verif.Props.Broadening
import Verif.Props.Modulation
import Verif.Lemmas.NlseSobolev

/-!
# C181: self-steepening moves the power to the trailing edge at the known rate
-/

namespace PyNLO.Steepening

open Complex Set Polynomial Ssfm Pulse Nlse Alias

variable {f : ℝ → ℂ} {T : ℝ}

/-! ## Continuous time -/

theorem power_hasDerivAt (hf : ContDiff ℝ (⊤ : ℕ∞) f) (t : ℝ) :
    HasDerivAt (fun t => ‖f t‖ ^ 2) (2 * ((starRingEnd ℂ) (f t) * deriv f t).re) t := by
  have := (hf.differentiable (by simp) t).hasDerivAt.norm_sq
  rwa [Complex.inner, mul_comm (deriv f t)] at this

theorem cube_deriv (hf : ContDiff ℝ (⊤ : ℕ∞) f) (t : ℝ) : deriv (fun t => ((‖f t‖ ^ 2 : ℝ) : ℂ) * f t) t =
    ((deriv (fun t => ‖f t‖ ^ 2) t : ℝ) : ℂ) * f t + ((‖f t‖ ^ 2 : ℝ) : ℂ) * deriv f t := by
  rw [(power_hasDerivAt hf t).deriv]
  exact ((power_hasDerivAt hf t).ofReal_comp.mul (hf.differentiable (by simp) t).hasDerivAt).deriv

/-- C181: the propagation equation changes the power by gain, by dispersion, and by `-(3γ/ω₀)·P·∂ₜP`: every level of the pulse is delayed in
proportion to its own power. -/
theorem C181_rate (hf : ContDiff ℝ (⊤ : ℕ∞) f) (b : ℝ[X]) (g γ w0 t : ℝ) : powerRate b g γ w0 f t =
    g * ‖f t‖ ^ 2 + 2 * ((starRingEnd ℂ) (f t) * dispersion b f t).re - 3 * (γ / w0) * (‖f t‖ ^ 2 * deriv (fun t => ‖f t‖ ^ 2) t) := by
  unfold powerRate steepField
  rw [cube_deriv hf]
  have e := (power_hasDerivAt hf t).deriv
  have hP : (starRingEnd ℂ) (f t) * f t = ((‖f t‖ ^ 2 : ℝ) : ℂ) := by
    rw [mul_comm, mul_conj, normSq_eq_norm_sq]
  generalize deriv (fun t => ‖f t‖ ^ 2) t = d at e ⊢
  generalize ‖f t‖ ^ 2 = P at hP ⊢
  have h : (starRingEnd ℂ) (f t) * (dispersion b f t + ((g / 2 : ℝ) : ℂ) * f t + I * γ * (P : ℂ) * f t -
      ((γ / w0 : ℝ) : ℂ) * ((d : ℂ) * f t + (P : ℂ) * deriv f t)) =
      (starRingEnd ℂ) (f t) * dispersion b f t + ((g / 2 * P : ℝ) : ℂ) + I * ((γ * P * P : ℝ) : ℂ) - ((γ / w0 * d * P : ℝ) : ℂ) -
        ((γ / w0 * P : ℝ) : ℂ) * ((starRingEnd ℂ) (f t) * deriv f t) := by
    push_cast
    linear_combination (((g : ℂ) / 2) + I * γ * P - (γ / w0) * d) * hP
  rw [h, sub_re, sub_re, add_re, add_re, re_ofReal_mul, ofReal_re, ofReal_re, I_mul_re, ofReal_im]
  linear_combination (γ / w0 * P) * e

/-! ## The derivative on the grid -/

theorem dt_error (hf : ContDiff ℝ (⊤ : ℕ∞) f) (hT : 0 < T) (hp : Function.Periodic f T) :
    ∃ K, 0 ≤ K ∧ ∀ n : ℕ, 0 < n → n % 2 = 0 → ∀ j : Fin n,
      ‖Gnlse.dt (offsetW T n) (fun i => f (time T n i)) j - deriv f (time T n j)‖ ≤ K / n := by
  obtain ⟨B, hB⟩ := Series.periodic_bounded hT (Series.contDiff_iteratedDeriv hf ((-X : ℝ[X]).natDegree + 1 + 2)).continuous (Series.periodic_iteratedDeriv hp _)
  have hB0 : 0 ≤ B := (norm_nonneg _).trans (hB 0)
  have hdisp : ∀ t, dispersion (-X) f t = deriv f t := by
    intro t
    unfold dispersion
    rw [show (-X : ℝ[X]) = monomial 1 (-1) by rw [← C_mul_X_eq_monomial]; simp, Polynomial.sum_monomial_index _ _ (by simp)]
    rw [iteratedDeriv_one]
    push_cast
    linear_combination -(deriv f t) * Complex.I_sq
  refine ⟨aliasC (-X) T 1 * B, mul_nonneg (aliasC_nonneg _ hT 1) hB0, fun n hn he j => ?_⟩
  have h := dispersion_error hT hn he hf hp (-X) 1 hB (β := fun k => -offsetW T n k) (fun k => by simp [offsetW]) j
  rw [hdisp, pow_one, norm_sub_rev] at h
  refine le_trans (le_of_eq ?_) h
  congr 2
  unfold Gnlse.dt
  congr 1
  funext k
  push_cast
  ring

theorem ratio_bounds {u : ℂ} (h : 10 ^ (-15 : ℤ) < ‖u‖) :
    ‖u / ((10 : ℂ) ^ (-20 : ℤ) + u)‖ ≤ 2 ∧ ‖u * (u / ((10 : ℂ) ^ (-20 : ℤ) + u) - 1)‖ ≤ 2 * 10 ^ (-20 : ℤ) := by
  have e : ‖(10 : ℂ) ^ (-20 : ℤ)‖ = (10 : ℝ) ^ (-20 : ℤ) := by rw [norm_zpow]; norm_num
  have h1 : ‖u‖ - 10 ^ (-20 : ℤ) ≤ ‖(10 : ℂ) ^ (-20 : ℤ) + u‖ := by
    have := norm_sub_norm_le u (-(10 : ℂ) ^ (-20 : ℤ))
    rwa [norm_neg, e, sub_neg_eq_add, add_comm u] at this
  have h2 : (10 : ℝ) ^ (-20 : ℤ) < 10 ^ (-15 : ℤ) / 2 := by norm_num
  have h4 : (0 : ℝ) < 10 ^ (-15 : ℤ) := by positivity
  have aux : ∀ a ε x y : ℝ, 0 < a → ε < a / 2 → a < x → x - ε ≤ y → 0 < y ∧ x ≤ 2 * y := fun a ε x y k1 k2 k3 k4 => ⟨by linarith, by linarith⟩
  obtain ⟨h3, h5⟩ := aux _ _ _ _ h4 h2 h h1
  have hq : ‖u / ((10 : ℂ) ^ (-20 : ℤ) + u)‖ ≤ 2 := by
    rw [norm_div, div_le_iff₀ h3]
    exact h5
  refine ⟨hq, ?_⟩
  have hne := norm_pos_iff.1 h3
  have e2 : u * (u / ((10 : ℂ) ^ (-20 : ℤ) + u) - 1) = -((10 : ℂ) ^ (-20 : ℤ) * (u / ((10 : ℂ) ^ (-20 : ℤ) + u))) := by
    generalize (10 : ℂ) ^ (-20 : ℤ) = ε at hne ⊢
    field_simp
    ring
  rw [e2, norm_neg, norm_mul, e, mul_comm]
  exact mul_le_mul_of_nonneg_right hq (by positivity)

/-- change of the power of a sample under the equation on the grid -/
noncomputable def gridRate {n : ℕ} (β Ω : Fin n → ℝ) (g γ w0 : ℝ) (U : Fin n → ℂ) (j : Fin n) : ℝ :=
  2 * ((starRingEnd ℂ) (U j) * (Gnlse.rhs β g (fun _ => 1) γ U j + Gnlse.shockReg (10 ^ (-20 : ℤ)) (fun _ => 1) γ w0 Ω U j)).re

theorem respond_gain {n : ℕ} (β : Fin n → ℝ) (g : ℝ) (U : Fin n → ℂ) (j : Fin n) :
    respond (fun k => I * β k + g / 2) U j = Gnlse.toTime (fun k => I * β k * Gnlse.toFreq U k) j + ((g / 2 : ℝ) : ℂ) * U j := by
  unfold respond
  have e : (fun k => (I * β k + g / 2) * Gnlse.toFreq U k) = fun k => I * β k * Gnlse.toFreq U k + ((g / 2 : ℝ) : ℂ) * Gnlse.toFreq U k := by
    funext k
    push_cast
    ring
  rw [e, Modulation.toTime_add, toTime_smul, toTime_toFreq]

theorem error_split {n : ℕ} (g γ w0 : ℝ) (β Ω : Fin n → ℝ) (U : Fin n → ℂ) (j : Fin n) (D s : ℂ) (P d : ℝ) (hP : P = ‖U j‖ ^ 2) :
    (Gnlse.rhs β g (fun _ => 1) γ U j + Gnlse.shockReg (10 ^ (-20 : ℤ)) (fun _ => 1) γ w0 Ω U j) -
      (D + ((g / 2 : ℝ) : ℂ) * U j + I * γ * (P : ℂ) * U j - ((γ / w0 : ℝ) : ℂ) * ((d : ℂ) * U j + (P : ℂ) * s)) =
    (Gnlse.toTime (fun k => I * β k * Gnlse.toFreq U k) j - D) - ((γ / w0 : ℝ) : ℂ) * (U j * (Gnlse.dt Ω (power U) j - d) +
      (P : ℂ) * (Gnlse.dt Ω U j - s) * (U j / ((10 : ℂ) ^ (-20 : ℤ) + U j)) + (P : ℂ) * s * (U j / ((10 : ℂ) ^ (-20 : ℤ) + U j) - 1)) := by
  have h1 : Gnlse.response (fun _ => 1) U = power U := respond_one (power U)
  have h2 : power U j = (P : ℂ) := by rw [power_eq, hP]
  have h3 : cube (U j) = (P : ℂ) * U j := by
    rw [← h2]
    unfold cube power
    ring
  rw [rhs_one, Pi.add_apply, respond_gain]
  unfold Gnlse.shockReg
  rw [h1, h2, h3]
  ring

theorem rate_close (hf : ContDiff ℝ (⊤ : ℕ∞) f) (hT : 0 < T) (hp : Function.Periodic f T) (hfl : ∀ t, 10 ^ (-15 : ℤ) < ‖f t‖) {M M1 : ℝ}
    (hM : ∀ t, ‖f t‖ ≤ M) (hM1 : ∀ t, ‖deriv f t‖ ≤ M1) (b : ℝ[X]) (g γ w0 : ℝ) :
    ∃ C, 0 ≤ C ∧ ∀ n : ℕ, 0 < n → n % 2 = 0 → ∀ β : Fin n → ℝ, (∀ k, β k = b.eval (offsetW T n k)) → ∀ j : Fin n,
      |gridRate β (offsetW T n) g γ w0 (fun i => f (time T n i)) j - powerRate b g γ w0 f (time T n j)| ≤
        C / n + 10 ^ (-19 : ℤ) * |γ / w0| * M ^ 2 * M1 := by
  obtain ⟨B, hB⟩ := Series.periodic_bounded hT (Series.contDiff_iteratedDeriv hf (b.natDegree + 1 + 2)).continuous (Series.periodic_iteratedDeriv hp _)
  have hB0 : 0 ≤ B := (norm_nonneg _).trans (hB 0)
  obtain ⟨K1, hK1, h1⟩ := dt_error hf hT hp
  have cP : ContDiff ℝ (⊤ : ℕ∞) fun t => ((‖f t‖ ^ 2 : ℝ) : ℂ) := Complex.ofRealCLM.contDiff.comp (hf.norm_sq ℝ)
  obtain ⟨K2, hK2, h2⟩ := dt_error cP hT (fun t => by simp only [hp t])
  have hM0 : 0 ≤ M := (norm_nonneg _).trans (hM 0)
  have hM10 : 0 ≤ M1 := (norm_nonneg _).trans (hM1 0)
  set K0 := aliasC b T 1 * B with hK0d
  have hK0 : 0 ≤ K0 := mul_nonneg (aliasC_nonneg _ hT 1) hB0
  refine ⟨2 * (M * K0 + |γ / w0| * (M ^ 2 * K2 + 2 * M ^ 3 * K1)), by positivity, fun n hn he β hβ j => ?_⟩
  have hn' : (0 : ℝ) < n := by exact_mod_cast hn
  set U : Fin n → ℂ := fun i => f (time T n i) with hU
  have a0 := dispersion_error hT hn he hf hp b 1 hB hβ j
  rw [pow_one, norm_sub_rev] at a0
  have a1 := h1 n hn he j
  have a2 := h2 n hn he j
  have ep : (fun i : Fin n => ((‖f (time T n i)‖ ^ 2 : ℝ) : ℂ)) = power U := by
    funext i
    rw [power_eq]
  rw [ep, ((power_hasDerivAt hf _).ofReal_comp).deriv, ← (power_hasDerivAt hf _).deriv] at a2
  obtain ⟨q1, q2⟩ := ratio_bounds (hfl (time T n j))
  have hs := error_split g γ w0 β (offsetW T n) U j (dispersion b f (time T n j)) (deriv f (time T n j)) (‖f (time T n j)‖ ^ 2)
    (deriv (fun t => ‖f t‖ ^ 2) (time T n j)) rfl
  unfold gridRate powerRate steepField
  rw [cube_deriv hf, ← mul_sub, ← sub_re, ← mul_sub]
  rw [abs_mul, abs_two]
  have hUj : U j = f (time T n j) := rfl
  rw [hUj] at hs ⊢
  rw [hs]
  have hm := hM (time T n j)
  have hm1 := hM1 (time T n j)
  generalize f (time T n j) = u at *
  generalize deriv f (time T n j) = s at *
  generalize (deriv (fun t => ‖f t‖ ^ 2) (time T n j)) = d at *
  generalize dispersion b f (time T n j) = D at *
  generalize Gnlse.dt (offsetW T n) U j = x1 at *
  generalize Gnlse.dt (offsetW T n) (power U) j = x2 at *
  generalize Gnlse.toTime (fun k => I * β k * Gnlse.toFreq (fun i => f (time T n i)) k) j = x0 at *
  generalize u / ((10 : ℂ) ^ (-20 : ℤ) + u) = q at *
  have e : (starRingEnd ℂ) u * ((x0 - D) - ((γ / w0 : ℝ) : ℂ) * (u * (x2 - d) + ((‖u‖ ^ 2 : ℝ) : ℂ) * (x1 - s) * q + ((‖u‖ ^ 2 : ℝ) : ℂ) * s * (q - 1))) =
      (starRingEnd ℂ) u * (x0 - D) - ((γ / w0 : ℝ) : ℂ) * ((starRingEnd ℂ) u * u * (x2 - d) + (starRingEnd ℂ) u * ((‖u‖ ^ 2 : ℝ) : ℂ) * (x1 - s) * q +
        (starRingEnd ℂ) u * s * (starRingEnd ℂ) u * (u * (q - 1))) := by
    have hP : ((‖u‖ ^ 2 : ℝ) : ℂ) = u * (starRingEnd ℂ) u := by rw [mul_conj, normSq_eq_norm_sq]
    rw [hP]
    ring
  rw [e]
  refine (mul_le_mul_of_nonneg_left (Complex.abs_re_le_norm _) (by norm_num)).trans ?_
  have n1 : ‖(starRingEnd ℂ) u * (x0 - D)‖ ≤ M * (K0 / n) := by
    rw [norm_mul, Complex.norm_conj]
    exact mul_le_mul hm a0 (norm_nonneg _) hM0
  have n2 : ‖(starRingEnd ℂ) u * u * (x2 - d)‖ ≤ M * M * (K2 / n) := by
    rw [norm_mul, norm_mul, Complex.norm_conj]
    exact mul_le_mul (mul_le_mul hm hm (norm_nonneg _) hM0) a2 (norm_nonneg _) (by positivity)
  have n3 : ‖(starRingEnd ℂ) u * ((‖u‖ ^ 2 : ℝ) : ℂ) * (x1 - s) * q‖ ≤ M * M ^ 2 * (K1 / n) * 2 := by
    rw [norm_mul, norm_mul, norm_mul, Complex.norm_conj, norm_real, Real.norm_of_nonneg (by positivity)]
    exact mul_le_mul (mul_le_mul (mul_le_mul hm (pow_le_pow_left₀ (norm_nonneg _) hm 2) (by positivity) hM0) a1 (norm_nonneg _) (by positivity)) q1
      (norm_nonneg _) (by positivity)
  have n4 : ‖(starRingEnd ℂ) u * s * (starRingEnd ℂ) u * (u * (q - 1))‖ ≤ M * M1 * M * (2 * 10 ^ (-20 : ℤ)) := by
    rw [norm_mul, norm_mul, norm_mul, Complex.norm_conj]
    exact mul_le_mul (mul_le_mul (mul_le_mul hm hm1 (norm_nonneg _) hM0) hm (norm_nonneg _) (by positivity)) q2 (norm_nonneg _) (by positivity)
  have n5 : ‖((γ / w0 : ℝ) : ℂ) * ((starRingEnd ℂ) u * u * (x2 - d) + (starRingEnd ℂ) u * ((‖u‖ ^ 2 : ℝ) : ℂ) * (x1 - s) * q +
        (starRingEnd ℂ) u * s * (starRingEnd ℂ) u * (u * (q - 1)))‖ ≤
      |γ / w0| * (M * M * (K2 / n) + M * M ^ 2 * (K1 / n) * 2 + M * M1 * M * (2 * 10 ^ (-20 : ℤ))) := by
    rw [norm_mul, norm_real, Real.norm_eq_abs]
    exact mul_le_mul_of_nonneg_left ((norm_add₃_le).trans (add_le_add (add_le_add n2 n3) n4)) (abs_nonneg _)
  have n6 := (norm_sub_le ((starRingEnd ℂ) u * (x0 - D)) _).trans (add_le_add n1 n5)
  refine (mul_le_mul_of_nonneg_left n6 (by norm_num)).trans ?_
  have z1 : (10 : ℝ) ^ (-19 : ℤ) = 10 * 10 ^ (-20 : ℤ) := by norm_num
  rw [z1]
  have z2 : (0 : ℝ) < 10 ^ (-20 : ℤ) := by positivity
  generalize (10 : ℝ) ^ (-20 : ℤ) = ε at *
  have z3 : 0 ≤ ε * |γ / w0| * M ^ 2 * M1 := by positivity
  have : 2 * (M * (K0 / n) + |γ / w0| * (M * M * (K2 / n) + M * M ^ 2 * (K1 / n) * 2 + M * M1 * M * (2 * ε))) =
      2 * (M * K0 + |γ / w0| * (M ^ 2 * K2 + 2 * M ^ 3 * K1)) / n + 4 * (ε * |γ / w0| * M ^ 2 * M1) := by ring
  rw [this]
  linarith

/-! ## The computed columns -/

theorem sq_close {v u : ℂ} {e Q : ℝ} (hv : ‖v - u‖ ≤ e) (hu : ‖u‖ ^ 2 ≤ Q) : |‖v‖ ^ 2 - ‖u‖ ^ 2| ≤ e * (2 * (Q + 1) + e) := by
  have e0 : 0 ≤ e := (norm_nonneg _).trans hv
  have hu1 : ‖u‖ ≤ Q + 1 := by nlinarith [sq_nonneg (‖u‖ - 1 / 2)]
  have h1 := abs_norm_sub_norm_le v u
  have h2 : ‖v‖ ≤ Q + 1 + e := by
    have := (abs_le.1 (h1.trans hv)).2
    linarith
  rw [show ‖v‖ ^ 2 - ‖u‖ ^ 2 = (‖v‖ - ‖u‖) * (‖v‖ + ‖u‖) by ring, abs_mul, abs_of_nonneg (by positivity : 0 ≤ ‖v‖ + ‖u‖)]
  exact mul_le_mul (h1.trans hv) (by linarith) (by positivity) e0

/-- C181: the columns of `AT` that `propagate` returns with the default method and without Raman scattering. With self-steepening switched on,
for every smooth periodic field that stays above the threshold of 1e-15, every dispersion and every gain: on a grid of `n` points, in every short
enough fibre and with enough steps, the power of every sample in every column is the initial one plus the distance times the rate of the
propagation equation. The rate is met to `C/n`, apart from the effect of the constant 1e-20 in the code. -/
theorem C181_computed (hf : ContDiff ℝ (⊤ : ℕ∞) f) (hT : 0 < T) (hp : Function.Periodic f T) (hfl : ∀ t, 10 ^ (-15 : ℤ) < ‖f t‖) {M M1 : ℝ}
    (hM : ∀ t, ‖f t‖ ≤ M) (hM1 : ∀ t, ‖deriv f t‖ ≤ M1) (b : ℝ[X]) (g γ w0 : ℝ) :
    ∃ C, 0 ≤ C ∧ ∀ (p : Pulse) (a : Fin p.n → ℂ), Holds p a → p.n % 2 = 0 → p.cf ≠ 0 → p.tw = T → 2 * Real.pi * p.center_frequency_THz = w0 →
      p.AT = .ok ⟨p.n, fun j => f (time T p.n j)⟩ →
      ∃ L0 > 0, ∀ (polyfit : Fiber.PolyFit) (spline : Fiber.Spline) (o : Obj) (F : FibObj) (f1 : Fiber.Fib) (β : Fin p.n → ℝ) (R : Fin p.n → ℂ) (fR L : ℝ),
        o.method = .rk4ip → o.eta = 5 → o.disableSS = false → o.disableRaman = true → 0 < o.dz → 0 < o.dzMin → 0 < o.localError →
        (∀ k, β k = b.eval (offsetW T p.n k)) → Loads polyfit spline o p F f1 β g R γ fR → F.fib.length = some L → 0 < L → L < L0 →
        ∃ N0 : ℕ, ∀ N, N0 ≤ N → ∃ r o' F', propagate polyfit spline o p F N false = some (.ok (r, o', F')) ∧ r.AT.length = N ∧
          ∀ i < N, ∃ v : Fin p.n → ℂ, r.AT[i]? = some ⟨p.n, v⟩ ∧ ∀ j,
            |‖v j‖ ^ 2 - (‖f (time T p.n j)‖ ^ 2 + (i + 1) * (L / N) * powerRate b g γ w0 f (time T p.n j))| ≤
              (i + 1) * (L / N) * (C / p.n + 10 ^ (-19 : ℤ) * |γ / w0| * M ^ 2 * M1) := by
  obtain ⟨C, hC, hrate⟩ := rate_close hf hT hp hfl hM hM1 b g γ w0
  refine ⟨C + 2, by linarith, fun p a hold he hcf htw hw hAT => ?_⟩
  have hn : 0 < p.n := hold.pos
  have hn' : (0 : ℝ) < p.n := by exact_mod_cast hn
  have hn1 : (1 : ℝ) ≤ p.n := by exact_mod_cast hn
  set β0 : Fin p.n → ℝ := fun k => b.eval (offsetW T p.n k) with hβ0
  set A : Fin p.n → ℂ := fun j => f (time T p.n j) with hA
  obtain ⟨T0, hT0, U, hU, hU0⟩ := C125_exists β0 g (fun _ => 1) γ w0 (offsetW T p.n) (A := A) fun j => hfl _
  have hd : ∀ j, HasDerivAt (fun z => ‖U z j‖ ^ 2) (gridRate β0 (offsetW T p.n) g γ w0 A j) 0 := fun j => by
    have h1 := ((hasDerivAt_pi.1 (hU 0 ⟨by linarith, hT0⟩).2) j).norm_sq
    rw [Complex.inner, hU0] at h1
    refine h1.congr_deriv ?_
    unfold gridRate
    rw [mul_comm ((starRingEnd ℂ) (A j))]
    rfl
  have hev : ∀ᶠ z in nhds (0 : ℝ), ∀ j, |‖U z j‖ ^ 2 - ‖A j‖ ^ 2 - z * gridRate β0 (offsetW T p.n) g γ w0 A j| ≤ 1 / p.n * |z| := by
    rw [Filter.eventually_all]
    intro j
    filter_upwards [(hasDerivAt_iff_isLittleO.1 (hd j)).def (by positivity : 0 < 1 / (p.n : ℝ))] with z hz
    rw [hU0] at hz
    simpa using hz
  obtain ⟨δ, hδ, hz⟩ := Metric.eventually_nhds_iff.1 hev
  refine ⟨min δ T0, lt_min hδ hT0, fun polyfit spline o F f1 β R fR L hm heta hss hram hdz hmin hle hβ h hL hpos hlt => ?_⟩
  have hR := h.raman_off hram
  subst hR
  obtain rfl : β = β0 := funext hβ
  have hV : p.V_THz = .ok ⟨p.n, offsetW T p.n⟩ := by
    have h1 : p.V_THz = _ := hold.V_eq
    rw [h1, htw]
    rfl
  obtain ⟨N0, C', hN⟩ := C125_converges hold he hcf h hL hpos hm heta hss hdz hmin hle hV (x := -T0) (b := T0) (by linarith)
    (hlt.trans_le (min_le_right _ _)) (U := U) (by rw [hw]; exact hU) (by rw [hU0]; exact hAT)
  set S : ℝ := ∑ j, |gridRate β0 (offsetW T p.n) g γ w0 A j| with hS
  have hM0 : 0 ≤ M := (norm_nonneg _).trans (hM 0)
  have hS0 : 0 ≤ S := Finset.sum_nonneg fun j _ => abs_nonneg _
  set Q : ℝ := M ^ 2 + L * (S + 1) with hQ
  have hQ0 : 0 ≤ Q := by positivity
  obtain ⟨N1, hN1⟩ := exists_nat_ge (p.n * (|C'| * (2 * (Q + 1) + |C'|)) / L)
  refine ⟨max N0 (N1 + 1), fun N hNN => ?_⟩
  obtain ⟨r, o', F', hr, hlen, hcol⟩ := hN N ((le_max_left _ _).trans hNN)
  refine ⟨r, o', F', hr, hlen, fun i hi => ?_⟩
  obtain ⟨v, hv, hclose⟩ := hcol i hi
  refine ⟨v, hv, fun j => ?_⟩
  have hNp : 1 ≤ N := by have := (le_max_right _ _).trans hNN; omega
  have hNr : (1 : ℝ) ≤ N := by exact_mod_cast hNp
  have hNN1 : (N1 : ℝ) ≤ N := by have := (le_max_right _ _).trans hNN; exact_mod_cast (by omega : N1 ≤ N)
  set z : ℝ := (i + 1) * (L / N) with hzd
  have hLN : 0 < L / N := by positivity
  have z0 : L / N ≤ z := by
    have : (0 : ℝ) ≤ i := Nat.cast_nonneg i
    rw [hzd]
    nlinarith
  have zL : z ≤ L := by
    have : ((i : ℝ) + 1) ≤ N := by exact_mod_cast hi
    calc z ≤ N * (L / N) := mul_le_mul_of_nonneg_right this hLN.le
      _ = L := by field_simp
  have zp : 0 < z := hLN.trans_le z0
  have h1 := hz (y := z) (by rw [Real.dist_eq, sub_zero, abs_of_pos zp]; exact lt_of_le_of_lt zL (hlt.trans_le (min_le_left _ _))) j
  rw [abs_of_pos zp] at h1
  have h2 := hrate p.n hn he β0 (fun _ => rfl) j
  have hAj : ‖A j‖ ≤ M := hM _
  have hrj : |gridRate β0 (offsetW T p.n) g γ w0 A j| ≤ S := Finset.single_le_sum (f := fun j => |gridRate β0 (offsetW T p.n) g γ w0 A j|)
    (fun j _ => abs_nonneg _) (Finset.mem_univ j)
  have hUQ : ‖U z j‖ ^ 2 ≤ Q := by
    have k1 := (abs_le.1 h1).2
    have k2 : ‖A j‖ ^ 2 ≤ M ^ 2 := pow_le_pow_left₀ (norm_nonneg _) hAj 2
    have k3 : z * gridRate β0 (offsetW T p.n) g γ w0 A j ≤ L * S :=
      (mul_le_mul_of_nonneg_left ((le_abs_self _).trans hrj) zp.le).trans (mul_le_mul_of_nonneg_right zL hS0)
    have k4 : 1 / (p.n : ℝ) * z ≤ L := by
      have : 1 / (p.n : ℝ) ≤ 1 := by rw [div_le_one hn']; exact hn1
      nlinarith
    rw [hQ]
    linarith
  have hN5 : C' / N ^ 5 ≤ |C'| / N ^ 2 := by
    refine (div_le_div_of_nonneg_right (le_abs_self C') (by positivity)).trans ?_
    exact div_le_div_of_nonneg_left (abs_nonneg _) (by positivity) (pow_le_pow_right₀ hNr (by norm_num))
  have h3 := sq_close ((hclose j).trans hN5) hUQ
  have h4 : |C'| / (N : ℝ) ^ 2 * (2 * (Q + 1) + |C'| / (N : ℝ) ^ 2) ≤ 1 / p.n * z := by
    have k1 : |C'| / (N : ℝ) ^ 2 ≤ |C'| := div_le_self (abs_nonneg _) (one_le_pow₀ hNr)
    have k2 : p.n * (|C'| * (2 * (Q + 1) + |C'|)) ≤ N * L := by
      have := hN1.trans hNN1
      rwa [div_le_iff₀ hpos] at this
    calc _ ≤ |C'| / (N : ℝ) ^ 2 * (2 * (Q + 1) + |C'|) := mul_le_mul_of_nonneg_left (by linarith) (by positivity)
      _ = (p.n * (|C'| * (2 * (Q + 1) + |C'|))) / (p.n * N ^ 2) := by field_simp
      _ ≤ (N * L) / (p.n * N ^ 2) := div_le_div_of_nonneg_right k2 (by positivity)
      _ = 1 / p.n * (L / N) := by field_simp
      _ ≤ _ := mul_le_mul_of_nonneg_left z0 (by positivity)
  have h5 := mul_le_mul_of_nonneg_left h2 zp.le
  have h6 : |‖v j‖ ^ 2 - (‖A j‖ ^ 2 + z * powerRate b g γ w0 f (time T p.n j))| ≤
      |‖v j‖ ^ 2 - ‖U z j‖ ^ 2| + |‖U z j‖ ^ 2 - ‖A j‖ ^ 2 - z * gridRate β0 (offsetW T p.n) g γ w0 A j| +
        z * |gridRate β0 (offsetW T p.n) g γ w0 A j - powerRate b g γ w0 f (time T p.n j)| := by
    rw [← abs_of_pos zp, ← abs_mul, abs_of_pos zp]
    refine le_trans (le_of_eq ?_) (abs_add_three _ _ _)
    congr 1
    ring
  refine h6.trans ?_
  have e : z * ((C + 2) / p.n + 10 ^ (-19 : ℤ) * |γ / w0| * M ^ 2 * M1) =
      1 / p.n * z + 1 / p.n * z + z * (C / p.n + 10 ^ (-19 : ℤ) * |γ / w0| * M ^ 2 * M1) := by ring
  rw [e]
  linarith [h3.trans h4]

/-- C181: self-steepening moves the power to later times. Without gain and with a dispersion that does not change the power of the initial field
(no dispersion, or a field without chirp and second-order dispersion), on fine grids and in short fibres: in every column every sample on the
leading edge has lost power and every sample on the trailing edge has gained some, up to any margin `η` above the effect of the constant 1e-20. -/
theorem C181_edges (hf : ContDiff ℝ (⊤ : ℕ∞) f) (hT : 0 < T) (hp : Function.Periodic f T) (hfl : ∀ t, 10 ^ (-15 : ℤ) < ‖f t‖) {M M1 : ℝ}
    (hM : ∀ t, ‖f t‖ ≤ M) (hM1 : ∀ t, ‖deriv f t‖ ≤ M1) {b : ℝ[X]} (hb : ∀ t, ((starRingEnd ℂ) (f t) * dispersion b f t).re = 0) {γ w0 : ℝ}
    (hγ : 0 < γ) (hw0 : 0 < w0) {η : ℝ} (hη : 0 < η) (hκ : 10 ^ (-19 : ℤ) * M ^ 2 * M1 ≤ η) :
    ∃ n0 : ℕ, ∀ (p : Pulse) (a : Fin p.n → ℂ), n0 ≤ p.n → Holds p a → p.n % 2 = 0 → p.cf ≠ 0 → p.tw = T →
      2 * Real.pi * p.center_frequency_THz = w0 → p.AT = .ok ⟨p.n, fun j => f (time T p.n j)⟩ →
      ∃ L0 > 0, ∀ (polyfit : Fiber.PolyFit) (spline : Fiber.Spline) (o : Obj) (F : FibObj) (f1 : Fiber.Fib) (β : Fin p.n → ℝ) (R : Fin p.n → ℂ) (fR L : ℝ),
        o.method = .rk4ip → o.eta = 5 → o.disableSS = false → o.disableRaman = true → 0 < o.dz → 0 < o.dzMin → 0 < o.localError →
        (∀ k, β k = b.eval (offsetW T p.n k)) → Loads polyfit spline o p F f1 β 0 R γ fR → F.fib.length = some L → 0 < L → L < L0 →
        ∃ N0 : ℕ, ∀ N, N0 ≤ N → ∃ r o' F', propagate polyfit spline o p F N false = some (.ok (r, o', F')) ∧ r.AT.length = N ∧
          ∀ i < N, ∃ v : Fin p.n → ℂ, r.AT[i]? = some ⟨p.n, v⟩ ∧ ∀ j,
            (η ≤ ‖f (time T p.n j)‖ ^ 2 * deriv (fun t => ‖f t‖ ^ 2) (time T p.n j) → ‖v j‖ ^ 2 < ‖f (time T p.n j)‖ ^ 2) ∧
            (‖f (time T p.n j)‖ ^ 2 * deriv (fun t => ‖f t‖ ^ 2) (time T p.n j) ≤ -η → ‖f (time T p.n j)‖ ^ 2 < ‖v j‖ ^ 2) := by
  obtain ⟨C, hC, H⟩ := C181_computed hf hT hp hfl hM hM1 b 0 γ w0
  have hq : 0 < γ / w0 := div_pos hγ hw0
  obtain ⟨n0, hn0⟩ := exists_nat_gt (C / (γ / w0 * η))
  refine ⟨n0, fun p a hn hold he hcf htw hw hAT => ?_⟩
  have hn' : (0 : ℝ) < p.n := by exact_mod_cast hold.pos
  obtain ⟨L0, hL0, H⟩ := H p a hold he hcf htw hw hAT
  refine ⟨L0, hL0, fun polyfit spline o F f1 β R fR L hm heta hss hram hdz hmin hle hβ h hL hpos hlt => ?_⟩
  obtain ⟨N0, H⟩ := H polyfit spline o F f1 β R fR L hm heta hss hram hdz hmin hle hβ h hL hpos hlt
  refine ⟨max N0 1, fun N hN => ?_⟩
  obtain ⟨r, o', F', hr, hlen, H⟩ := H N ((le_max_left _ _).trans hN)
  refine ⟨r, o', F', hr, hlen, fun i hi => ?_⟩
  obtain ⟨v, hv, H⟩ := H i hi
  refine ⟨v, hv, fun j => ?_⟩
  have hNr : (0 : ℝ) < N := by exact_mod_cast (le_max_right _ _).trans hN
  have hz : 0 < ((i : ℝ) + 1) * (L / N) := by positivity
  have k := H j
  rw [C181_rate hf, hb, zero_mul, mul_zero, zero_add, zero_sub, abs_of_pos hq] at k
  have hCn : C / p.n < γ / w0 * η := by
    rw [div_lt_iff₀ hn']
    have h1 : (n0 : ℝ) ≤ p.n := by exact_mod_cast hn
    have := hn0.trans_le h1
    rw [div_lt_iff₀ (by positivity)] at this
    linarith
  have hκ' : 10 ^ (-19 : ℤ) * (γ / w0) * M ^ 2 * M1 ≤ γ / w0 * η := by
    calc _ = γ / w0 * (10 ^ (-19 : ℤ) * M ^ 2 * M1) := by ring
      _ ≤ _ := mul_le_mul_of_nonneg_left hκ hq.le
  generalize ((i : ℝ) + 1) * (L / N) = z at *
  generalize ‖f (time T p.n j)‖ ^ 2 * deriv (fun t => ‖f t‖ ^ 2) (time T p.n j) = x at *
  generalize 10 ^ (-19 : ℤ) * (γ / w0) * M ^ 2 * M1 = κ at *
  generalize γ / w0 = q at *
  obtain ⟨k1, k2⟩ := abs_le.1 k
  have hsum : C / p.n + κ < 3 * q * η := by nlinarith [mul_pos hq hη]
  have hm := mul_lt_mul_of_pos_left hsum hz
  constructor
  · intro hx
    have := mul_le_mul_of_nonneg_left (mul_le_mul_of_nonneg_left hx (by positivity : 0 ≤ 3 * q)) hz.le
    linarith
  · intro hx
    have := mul_le_mul_of_nonneg_left (mul_le_mul_of_nonneg_left hx (by positivity : 0 ≤ 3 * q)) hz.le
    linarith

theorem iterated_real {x : ℝ → ℝ} (hx : ContDiff ℝ (⊤ : ℕ∞) x) (t : ℝ) : iteratedDeriv 2 (fun t => (x t : ℂ)) t = ((iteratedDeriv 2 x t : ℝ) : ℂ) := by
  have h1 : deriv (fun t => (x t : ℂ)) = fun t => ((deriv x t : ℝ) : ℂ) := funext fun t =>
    ((hx.differentiable (by simp) t).hasDerivAt.ofReal_comp).deriv
  have hd : ContDiff ℝ (⊤ : ℕ∞) (deriv x) := (contDiff_infty_iff_deriv.1 hx).2
  rw [iteratedDeriv_succ, iteratedDeriv_one, iteratedDeriv_succ, iteratedDeriv_one, h1]
  exact ((hd.differentiable (by simp) t).hasDerivAt.ofReal_comp).deriv

/-- a field without chirp keeps its power to first order under second-order dispersion -/
theorem real_quiet {x : ℝ → ℝ} (hx : ContDiff ℝ (⊤ : ℕ∞) x) (β₂ t : ℝ) :
    ((starRingEnd ℂ) ((x t : ℝ) : ℂ) * dispersion (C (β₂ / 2) * X ^ 2) (fun t => (x t : ℂ)) t).re = 0 := by
  rw [dispersion_quadratic, iterated_real hx, conj_ofReal, re_ofReal_mul, neg_re, mul_assoc, ← ofReal_mul, I_mul_re, ofReal_im]
  simp

/-- C181: the assumptions are met: a background with a modulation, in a generated fibre with second-order dispersion, with the default settings
except that Raman scattering is switched off. A sample where the power rises has lost power, a sample where it falls has gained some. -/
theorem C181_nonvacuous (polyfit : Fiber.PolyFit) (spline : Fiber.Spline) (hT0 : 0 < T) (β₂ : ℝ) {γ wl : ℝ} (hγ : 0 < γ) (hwl : 0 < wl) (label : String) :
    ∃ n0 : ℕ, ∀ n, n0 ≤ n → n % 2 = 0 → ∃ A : Fin n → ℂ, (∀ j, A j = ((1 + Real.cos (2 * Real.pi * time T n j / T) / 2 : ℝ) : ℂ)) ∧
      (heldPulse n (cNmps / wl) T A).AT = .ok ⟨n, A⟩ ∧ ∃ L0 > 0, ∀ L, 0 < L → L < L0 → ∃ N0 : ℕ, ∀ N, N0 ≤ N → ∃ r o' F',
        propagate polyfit spline { Obj.default with disableRaman := true } (heldPulse n (cNmps / wl) T A)
          ⟨Fiber.genFib L wl ⟨1, fun _ => β₂⟩ γ 0 "ps^n/m" label Fiber.Fib.new, Fiber.genSpecs 0⟩ N false = some (.ok (r, o', F')) ∧
        ∀ i < N, ∃ v : Fin n → ℂ, r.AT[i]? = some ⟨n, v⟩ ∧ ∀ j,
          (Real.sin (2 * Real.pi * time T n j / T) ≤ -(1 / 100) → ‖v j‖ ^ 2 < ‖A j‖ ^ 2) ∧
          (1 / 100 ≤ Real.sin (2 * Real.pi * time T n j / T) → ‖A j‖ ^ 2 < ‖v j‖ ^ 2) := by
  set x : ℝ → ℝ := fun t => 1 + Real.cos (2 * Real.pi * t / T) / 2 with hx
  have cx : ContDiff ℝ (⊤ : ℕ∞) x := by
    rw [hx]
    exact contDiff_const.add ((Real.contDiff_cos.comp ((contDiff_const.mul contDiff_id).div_const _)).div_const _)
  have px : Function.Periodic x T := fun t => by
    rw [hx]
    show 1 + Real.cos _ / 2 = 1 + Real.cos _ / 2
    rw [show 2 * Real.pi * (t + T) / T = 2 * Real.pi * t / T + 2 * Real.pi by field_simp, Real.cos_add_two_pi]
  set f : ℝ → ℂ := fun t => (x t : ℂ) with hf
  have cf' : ContDiff ℝ (⊤ : ℕ∞) f := Complex.ofRealCLM.contDiff.comp cx
  have pf : Function.Periodic f T := fun t => by rw [hf]; simp only [px t]
  have xlo : ∀ t, 1 / 2 ≤ x t := fun t => by
    have := Real.neg_one_le_cos (2 * Real.pi * t / T)
    show 1 / 2 ≤ 1 + Real.cos _ / 2
    linarith
  have xhi : ∀ t, x t ≤ 3 / 2 := fun t => by
    have := Real.cos_le_one (2 * Real.pi * t / T)
    show 1 + Real.cos _ / 2 ≤ 3 / 2
    linarith
  have fn : ∀ t, ‖f t‖ = x t := fun t => by
    rw [hf]
    simp only [norm_real]
    exact Real.norm_of_nonneg (by linarith [xlo t])
  have dx : ∀ t, HasDerivAt x (-(Real.pi / T) * Real.sin (2 * Real.pi * t / T)) t := fun t => by
    have h1 : HasDerivAt (fun t : ℝ => 2 * Real.pi * t / T) (2 * Real.pi * 1 / T) t := ((hasDerivAt_id t).const_mul _).div_const _
    refine ((h1.cos.div_const 2).const_add 1).congr_deriv ?_
    ring
  have hπ := Real.pi_pos
  have df : ∀ t, ‖deriv f t‖ ≤ Real.pi / T := fun t => by
    rw [((dx t).ofReal_comp).deriv, norm_real, Real.norm_eq_abs, abs_mul, abs_neg, abs_of_pos (div_pos hπ hT0)]
    exact mul_le_of_le_one_right (by positivity) (Real.abs_sin_le_one _)
  have dP : ∀ t, deriv (fun t => ‖f t‖ ^ 2) t = -(2 * x t * (Real.pi / T) * Real.sin (2 * Real.pi * t / T)) := fun t => by
    simp only [fn]
    refine ((dx t).pow 2).deriv.trans ?_
    push_cast
    ring
  have f0 : f 0 ≠ 0 := by
    have := xlo 0
    rw [← norm_pos_iff, fn]
    linarith
  have hπT : 0 < Real.pi / T := div_pos hπ hT0
  have hc : 0 < cNmps / wl := div_pos (by norm_num [cNmps, cMks]) hwl
  have hw0 : 0 < 2 * Real.pi * (cNmps / wl) := by positivity
  obtain ⟨n0, H⟩ := C181_edges cf' hT0 pf (fun t => by rw [fn]; exact lt_of_lt_of_le (by norm_num) (xlo t)) (M := 3 / 2) (M1 := Real.pi / T)
    (fun t => by rw [fn]; exact xhi t) df (b := C (β₂ / 2) * X ^ 2) (real_quiet cx β₂) hγ hw0 (η := Real.pi / T / 400) (by positivity) (by
      rw [show Real.pi / T / 400 = 1 / 400 * (Real.pi / T) by ring]
      exact mul_le_mul_of_nonneg_right (by norm_num) hπT.le)
  refine ⟨max n0 4, fun n hn he => ?_⟩
  have hn4 : 4 ≤ n := (le_max_right _ _).trans hn
  obtain ⟨hold, hAT, -⟩ := held_facts f0 (cNmps / wl) T (by omega : 0 < n) he
  set A : Fin n → ℂ := fun j => f (time T n j) with hA
  refine ⟨A, fun j => rfl, hAT, ?_⟩
  obtain ⟨L0, hL0, H⟩ := H (heldPulse n (cNmps / wl) T A) (fftT A) ((le_max_left _ _).trans hn) hold he hc.ne' rfl rfl hAT
  refine ⟨L0, hL0, fun L hL hlt => ?_⟩
  have hl := C132_fiber polyfit spline { Obj.default with disableRaman := true } hold hn4 he hT0.ne' rfl (length := L) (wl := wl) (gamma := γ) (gain := 0)
    (b := fun _ : Fin 1 => β₂) (units := "ps^n/m") (label := label) (by decide) hwl.ne'
  have e : fiberPoly (fun _ : Fin 1 => β₂) (2 * Real.pi * (heldPulse n (cNmps / wl) T A).cf - 2 * Real.pi * cNmps / wl) (heldPulse n (cNmps / wl) T A).tw =
      C (β₂ / 2) * X ^ 2 := by
    rw [← fiberPoly_second β₂ T]
    congr 1
    show 2 * Real.pi * (cNmps / wl) - _ = 0
    ring
  rw [e] at hl
  obtain ⟨N0, H⟩ := H polyfit spline { Obj.default with disableRaman := true } _ _ _ _ _ L rfl (by norm_num [Obj.default]) rfl rfl
    (by norm_num [Obj.default]) (by norm_num [Obj.default]) (by norm_num [Obj.default]) (fun k => rfl) hl rfl hL hlt
  refine ⟨N0, fun N hN => ?_⟩
  obtain ⟨r, o', F', hr, -, H⟩ := H N hN
  refine ⟨r, o', F', hr, fun i hi => ?_⟩
  obtain ⟨v, hv, H⟩ := H i hi
  refine ⟨v, hv, fun j => ?_⟩
  have hval : ‖f (time T n j)‖ ^ 2 * deriv (fun t => ‖f t‖ ^ 2) (time T n j) =
      -(2 * x (time T n j) ^ 3 * (Real.pi / T) * Real.sin (2 * Real.pi * time T n j / T)) := by
    rw [dP, fn]
    ring
  obtain ⟨H1, H2⟩ := H j
  have hcube : (1 / 8 : ℝ) ≤ x (time T n j) ^ 3 := by
    have := pow_le_pow_left₀ (by norm_num) (xlo (time T n j)) 3
    norm_num at this ⊢
    exact this
  have hc2 : Real.pi / T / 4 ≤ 2 * x (time T n j) ^ 3 * (Real.pi / T) := by nlinarith
  refine ⟨fun hs => H1 ?_, fun hs => H2 ?_⟩
  · refine le_trans ?_ (le_of_eq hval.symm)
    nlinarith
  · refine le_trans (le_of_eq hval) ?_
    nlinarith

end PyNLO.Steepening
