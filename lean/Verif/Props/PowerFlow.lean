import Verif.Spec.PowerFlow
import Verif.Props.Steepening
import Verif.Props.NlseRaman
import Verif.Lemmas.PhotonNumber

/-!
# C182: dispersion moves the power with the slope of the phase
-/

namespace PyNLO.PowerFlow

open Complex Set Polynomial Ssfm Pulse Nlse Alias Steepening

variable {f : ℝ → ℂ} {T : ℝ}

/-! ## Continuous time -/

theorem conj_hasDerivAt {u : ℝ → ℂ} {d : ℂ} {t : ℝ} (h : HasDerivAt u d t) : HasDerivAt (fun t => (starRingEnd ℂ) (u t)) ((starRingEnd ℂ) d) t :=
  h.star

theorem deriv_smooth (hf : ContDiff ℝ (⊤ : ℕ∞) f) : ContDiff ℝ (⊤ : ℕ∞) (deriv f) := (contDiff_infty_iff_deriv.1 hf).2

theorem dispersion_cubic (β₁ β₂ β₃ : ℝ) (f : ℝ → ℂ) (t : ℝ) : dispersion (C β₁ * X + C (β₂ / 2) * X ^ 2 + C (β₃ / 6) * X ^ 3) f t =
    -(β₁ : ℂ) * deriv f t - I * (β₂ / 2) * iteratedDeriv 2 f t + β₃ / 6 * iteratedDeriv 3 f t := by
  unfold dispersion
  have hz : ∀ m : ℕ, I * ((0 : ℝ) : ℂ) * I ^ m * iteratedDeriv m f t = 0 := fun m => by simp
  have ha : ∀ (m : ℕ) (x y : ℝ), I * ((x + y : ℝ) : ℂ) * I ^ m * iteratedDeriv m f t =
      I * (x : ℂ) * I ^ m * iteratedDeriv m f t + I * (y : ℂ) * I ^ m * iteratedDeriv m f t := fun m x y => by push_cast; ring
  rw [Polynomial.sum_add_index _ _ _ hz ha, Polynomial.sum_add_index _ _ _ hz ha, ← pow_one (X : ℝ[X]), ← pow_mul,
    ← pow_mul, C_mul_X_pow_eq_monomial, C_mul_X_pow_eq_monomial, C_mul_X_pow_eq_monomial, Polynomial.sum_monomial_index _ _ (hz _),
    Polynomial.sum_monomial_index _ _ (hz _), Polynomial.sum_monomial_index _ _ (hz _)]
  simp only [one_mul, iteratedDeriv_one, pow_one]
  push_cast
  have h3 : I ^ 3 = -I := Complex.I_pow_three
  rw [h3]
  linear_combination (β₁ * deriv f t + I * (β₂ / 2) * iteratedDeriv 2 f t - β₃ / 6 * iteratedDeriv 3 f t) * Complex.I_sq

/-- C182: gain and dispersion up to third order change the power by the gain and by the slope of a flow: power is moved, not created. -/
theorem C182_continuity (hf : ContDiff ℝ (⊤ : ℕ∞) f) (β₁ β₂ β₃ g t : ℝ) :
    flowRate (C β₁ * X + C (β₂ / 2) * X ^ 2 + C (β₃ / 6) * X ^ 3) g f t = g * ‖f t‖ ^ 2 + deriv (flow β₁ β₂ β₃ f) t := by
  have h1 := (hf.differentiable (by simp) t).hasDerivAt
  have h2 := ((deriv_smooth hf).differentiable (by simp) t).hasDerivAt
  have h3 := ((deriv_smooth (deriv_smooth hf)).differentiable (by simp) t).hasDerivAt
  have e2 : iteratedDeriv 2 f = deriv (deriv f) := by rw [iteratedDeriv_succ, iteratedDeriv_one]
  have e3 : iteratedDeriv 3 f = deriv (deriv (deriv f)) := by rw [iteratedDeriv_succ, e2]
  have k1 := power_hasDerivAt hf t
  have k2 := power_hasDerivAt (deriv_smooth hf) t
  have k3 := (Complex.imCLM.hasFDerivAt.comp_hasDerivAt t ((conj_hasDerivAt h1).mul h2))
  have k4 := (Complex.reCLM.hasFDerivAt.comp_hasDerivAt t ((conj_hasDerivAt h1).mul h3))
  have k : HasDerivAt (flow β₁ β₂ β₃ f) (-β₁ * (2 * ((starRingEnd ℂ) (f t) * deriv f t).re) +
      β₂ * ((starRingEnd ℂ) (deriv f t) * deriv f t + (starRingEnd ℂ) (f t) * deriv (deriv f) t).im +
      β₃ / 6 * (2 * ((starRingEnd ℂ) (deriv f t) * deriv (deriv f) t + (starRingEnd ℂ) (f t) * deriv (deriv (deriv f)) t).re -
        2 * ((starRingEnd ℂ) (deriv f t) * deriv (deriv f) t).re)) t := by
    unfold flow phaseFlow
    rw [e2]
    exact ((k1.const_mul _).add (k3.const_mul _)).add (((k4.const_mul 2).sub k2).const_mul _)
  rw [k.deriv]
  unfold flowRate
  rw [dispersion_cubic, e2, e3]
  generalize deriv f t = d1
  generalize deriv (deriv f) t = d2
  generalize deriv (deriv (deriv f)) t = d3
  generalize f t = u
  simp only [mul_re, mul_im, add_re, add_im, sub_re, sub_im, neg_re, neg_im, conj_re, conj_im, ofReal_re, ofReal_im, I_re, I_im, div_re, div_im]
  norm_num
  ring

/-- C182: for a field with the modulus `x` and the phase `φ` the flow of second order is the power times the slope of the phase; where the power has
a maximum its change is the power times `β₂·φ''`. -/
theorem C182_peak {x φ : ℝ → ℝ} (hx : ContDiff ℝ (⊤ : ℕ∞) x) (hφ : ContDiff ℝ (⊤ : ℕ∞) φ) (t : ℝ) :
    phaseFlow (fun t => (x t : ℂ) * exp (I * φ t)) t = x t ^ 2 * deriv φ t ∧
    deriv (phaseFlow fun t => (x t : ℂ) * exp (I * φ t)) t = deriv (fun t => x t ^ 2) t * deriv φ t + x t ^ 2 * deriv (deriv φ) t := by
  have hflow : phaseFlow (fun t => (x t : ℂ) * exp (I * φ t)) = fun t => x t ^ 2 * deriv φ t := by
    funext t
    have d1 := (hx.differentiable (by simp) t).hasDerivAt.ofReal_comp
    have d2 := (((hφ.differentiable (by simp) t).hasDerivAt.ofReal_comp).const_mul I).cexp
    unfold phaseFlow
    rw [show deriv (fun t => (x t : ℂ) * exp (I * φ t)) t = _ from (d1.mul d2).deriv]
    have hu : (starRingEnd ℂ) (exp (I * φ t)) * exp (I * φ t) = 1 := by
      rw [← exp_conj, ← exp_add]
      simp
    have e : (starRingEnd ℂ) ((x t : ℂ) * exp (I * φ t)) * (((deriv x t : ℝ) : ℂ) * exp (I * φ t) + (x t : ℂ) * (exp (I * φ t) * (I * ((deriv φ t : ℝ) : ℂ)))) =
        ((x t * deriv x t : ℝ) : ℂ) + I * ((x t ^ 2 * deriv φ t : ℝ) : ℂ) := by
      rw [map_mul, conj_ofReal]
      push_cast
      linear_combination ((x t : ℂ) * ((deriv x t : ℝ) : ℂ) + (x t : ℂ) ^ 2 * I * ((deriv φ t : ℝ) : ℂ)) * hu
    rw [e, add_im, ofReal_im, I_mul_im, ofReal_re, zero_add]
  refine ⟨congrFun hflow t, ?_⟩
  rw [hflow]
  have h1 := ((hx.pow 2).differentiable (by simp) t).hasDerivAt
  have h2 := (((contDiff_infty_iff_deriv.1 hφ).2).differentiable (by simp) t).hasDerivAt
  exact (h1.mul h2).deriv

/-! ## The computed columns -/

theorem grid_rate {n : ℕ} (β : Fin n → ℝ) (g : ℝ) {R : Fin n → ℂ} (hR : RealResponse R) (γ : ℝ) (U : Fin n → ℂ) (j : Fin n) :
    2 * ((starRingEnd ℂ) (U j) * Gnlse.rhs β g R γ U j).re =
      g * ‖U j‖ ^ 2 + 2 * ((starRingEnd ℂ) (U j) * Gnlse.toTime (fun k => I * β k * Gnlse.toFreq U k) j).re := by
  have e : Gnlse.rhs β g R γ U j = Gnlse.toTime (fun k => I * β k * Gnlse.toFreq U k) j + ((g / 2 : ℝ) : ℂ) * U j + I * γ * U j * Gnlse.response R U j := by
    rw [rhs_split, Pi.add_apply, respond_gain]
    rfl
  have hr : Gnlse.response R U j = ((Gnlse.response R U j).re : ℂ) := by
    apply Complex.ext
    · rw [ofReal_re]
    · rw [ofReal_im]; exact Photon.response_real hR U j
  have hP : (starRingEnd ℂ) (U j) * U j = ((‖U j‖ ^ 2 : ℝ) : ℂ) := by rw [mul_comm, mul_conj, normSq_eq_norm_sq]
  rw [e, hr]
  generalize (Gnlse.response R U j).re = r
  generalize Gnlse.toTime (fun k => I * β k * Gnlse.toFreq U k) j = D
  generalize ‖U j‖ ^ 2 = P at hP ⊢
  have e2 : (starRingEnd ℂ) (U j) * (D + ((g / 2 : ℝ) : ℂ) * U j + I * γ * U j * (r : ℂ)) =
      (starRingEnd ℂ) (U j) * D + ((g / 2 * P : ℝ) : ℂ) + I * ((γ * P * r : ℝ) : ℂ) := by
    push_cast
    linear_combination ((g : ℂ) / 2 + I * γ * r) * hP
  rw [e2, add_re, add_re, ofReal_re, I_mul_re, ofReal_im]
  ring

/-- C182: the columns of `AT` that `propagate` returns with the default method and without self-steepening, with or without Raman scattering, for every
nonlinear coefficient, smooth periodic field, dispersion and gain: near the input the power of every sample is the initial one plus the distance
times the rate of gain and dispersion alone. The rate is met to `C/n`. -/
theorem C182_computed (hf : ContDiff ℝ (⊤ : ℕ∞) f) (hT : 0 < T) (hp : Function.Periodic f T) (b : ℝ[X]) (g : ℝ) :
    ∃ C, 0 ≤ C ∧ ∀ (polyfit : Fiber.PolyFit) (spline : Fiber.Spline) (o : Obj) (p : Pulse) (F : FibObj) (f1 : Fiber.Fib) (a : Fin p.n → ℂ)
      (β : Fin p.n → ℝ) (R : Fin p.n → ℂ) (γ fR L : ℝ), Holds p a → p.n % 2 = 0 → p.cf ≠ 0 → p.tw = T →
      p.AT = .ok ⟨p.n, fun j => f (time T p.n j)⟩ → (fun j : Fin p.n => f (time T p.n j)) ≠ 0 →
      o.method = .rk4ip → o.eta = 5 → o.disableSS = true → 0 < o.dz → 0 < o.dzMin → 0 < o.localError →
      (∀ k, β k = b.eval (offsetW T p.n k)) → Loads polyfit spline o p F f1 β g R γ fR → F.fib.length = some L → 0 < L →
      ∃ z0 > 0, ∃ N0 : ℕ, ∀ N, N0 ≤ N → ∃ r o' F', propagate polyfit spline o p F N false = some (.ok (r, o', F')) ∧ r.AT.length = N ∧
        ∀ i < N, ∃ v : Fin p.n → ℂ, r.AT[i]? = some ⟨p.n, v⟩ ∧ ((i + 1) * (L / N) < z0 → ∀ j,
          |‖v j‖ ^ 2 - (‖f (time T p.n j)‖ ^ 2 + (i + 1) * (L / N) * flowRate b g f (time T p.n j))| ≤ (i + 1) * (L / N) * (C / p.n)) := by
  obtain ⟨B, hB⟩ := Series.periodic_bounded hT (Series.contDiff_iteratedDeriv hf (b.natDegree + 1 + 2)).continuous (Series.periodic_iteratedDeriv hp _)
  have hB0 : 0 ≤ B := (norm_nonneg _).trans (hB 0)
  obtain ⟨M, hM⟩ := Series.periodic_bounded hT hf.continuous hp
  have hM0 : 0 ≤ M := (norm_nonneg _).trans (hM 0)
  set K0 := aliasC b T 1 * B with hK0d
  have hK0 : 0 ≤ K0 := mul_nonneg (aliasC_nonneg _ hT 1) hB0
  refine ⟨2 * (M * K0) + 2, by positivity, ?_⟩
  intro polyfit spline o p F f1 a β R γ fR L hold he hcf htw hAT hne hm heta hss hdz hmin hle hβ h hL hpos
  have hn : 0 < p.n := hold.pos
  have hn' : (0 : ℝ) < p.n := by exact_mod_cast hn
  have hn1 : (1 : ℝ) ≤ p.n := by exact_mod_cast hn
  have hR := raman_real hold he h
  set A : Fin p.n → ℂ := fun j => f (time T p.n j) with hA
  obtain ⟨U, hU, hU0⟩ := C116_exists β g hR γ A (T := L + 1) (by linarith)
  set ρ : Fin p.n → ℝ := fun j => 2 * ((starRingEnd ℂ) (A j) * Gnlse.rhs β g R γ A j).re with hρ
  have hd : ∀ j, HasDerivAt (fun z => ‖U z j‖ ^ 2) (ρ j) 0 := fun j => by
    have h1 := ((hasDerivAt_pi.1 (hU 0 ⟨by linarith, by linarith⟩)) j).norm_sq
    rw [Complex.inner, hU0] at h1
    refine h1.congr_deriv ?_
    simp only [hρ]
    rw [mul_comm ((starRingEnd ℂ) (A j))]
  have hclose : ∀ j, |ρ j - flowRate b g f (time T p.n j)| ≤ 2 * (M * K0) / p.n := fun j => by
    have a0 := dispersion_error hT hn he hf hp b 1 hB hβ j
    rw [pow_one, norm_sub_rev] at a0
    have e : ρ j - flowRate b g f (time T p.n j) = 2 * ((starRingEnd ℂ) (f (time T p.n j)) *
        (Gnlse.toTime (fun k => I * β k * Gnlse.toFreq A k) j - dispersion b f (time T p.n j))).re := by
      simp only [hρ]
      rw [grid_rate β g hR, mul_sub, sub_re]
      unfold flowRate
      ring
    rw [e, abs_mul, abs_two]
    have := (Complex.abs_re_le_norm ((starRingEnd ℂ) (f (time T p.n j)) *
        (Gnlse.toTime (fun k => I * β k * Gnlse.toFreq A k) j - dispersion b f (time T p.n j))))
    rw [norm_mul, Complex.norm_conj] at this
    have h2 := this.trans (mul_le_mul (hM _) a0 (norm_nonneg _) hM0)
    rw [show 2 * (M * K0) / (p.n : ℝ) = 2 * (M * (K0 / p.n)) by ring]
    linarith
  have hev : ∀ᶠ z in nhds (0 : ℝ), ∀ j, |‖U z j‖ ^ 2 - ‖A j‖ ^ 2 - z * ρ j| ≤ 1 / p.n * |z| := by
    rw [Filter.eventually_all]
    intro j
    filter_upwards [(hasDerivAt_iff_isLittleO.1 (hd j)).def (by positivity : 0 < 1 / (p.n : ℝ))] with z hz
    rw [hU0] at hz
    simpa using hz
  obtain ⟨δ, hδ, hz⟩ := Metric.eventually_nhds_iff.1 hev
  obtain ⟨N0, C', hN⟩ := C116_converges hold he hcf h hL hpos hm heta hss hdz hmin hle (x := -(L + 1)) (b := L + 1) (by linarith) (by linarith)
    (U := U) hU (by rw [hU0]; exact hAT) (by rw [hU0]; exact hne)
  set S : ℝ := ∑ j, |ρ j| with hS
  have hS0 : 0 ≤ S := Finset.sum_nonneg fun j _ => abs_nonneg _
  set Q : ℝ := M ^ 2 + L * (S + 1) with hQ
  have hQ0 : 0 ≤ Q := by positivity
  obtain ⟨N1, hN1⟩ := exists_nat_ge (p.n * (|C'| * (2 * (Q + 1) + |C'|)) / L)
  refine ⟨δ, hδ, max N0 (N1 + 1), fun N hNN => ?_⟩
  obtain ⟨r, o', F', hr, hlen, hcol⟩ := hN N ((le_max_left _ _).trans hNN)
  refine ⟨r, o', F', hr, hlen, fun i hi => ?_⟩
  obtain ⟨v, hv, hcl⟩ := hcol i hi
  refine ⟨v, hv, fun hzδ j => ?_⟩
  have hNp : 1 ≤ N := by have := (le_max_right _ _).trans hNN; omega
  have hNr : (1 : ℝ) ≤ N := by exact_mod_cast hNp
  have hNN1 : (N1 : ℝ) ≤ N := by have := (le_max_right _ _).trans hNN; exact_mod_cast (by omega : N1 ≤ N)
  set z : ℝ := (i + 1) * (L / N) with hzd
  have hLN : 0 < L / N := by positivity
  have z0 : L / N ≤ z := by
    have : (0 : ℝ) ≤ i := Nat.cast_nonneg i
    rw [hzd]
    nlinarith
  have zL : z ≤ L := by
    have : ((i : ℝ) + 1) ≤ N := by exact_mod_cast hi
    calc z ≤ N * (L / N) := mul_le_mul_of_nonneg_right this hLN.le
      _ = L := by field_simp
  have zp : 0 < z := hLN.trans_le z0
  have h1 := hz (y := z) (by rw [Real.dist_eq, sub_zero, abs_of_pos zp]; exact hzδ) j
  rw [abs_of_pos zp] at h1
  have hUQ : ‖U z j‖ ^ 2 ≤ Q := by
    have k1 := (abs_le.1 h1).2
    have k2 : ‖A j‖ ^ 2 ≤ M ^ 2 := pow_le_pow_left₀ (norm_nonneg _) (hM _) 2
    have hrj : |ρ j| ≤ S := Finset.single_le_sum (f := fun j => |ρ j|) (fun j _ => abs_nonneg _) (Finset.mem_univ j)
    have k3 : z * ρ j ≤ L * S := (mul_le_mul_of_nonneg_left ((le_abs_self _).trans hrj) zp.le).trans (mul_le_mul_of_nonneg_right zL hS0)
    have k4 : 1 / (p.n : ℝ) * z ≤ L := by
      have : 1 / (p.n : ℝ) ≤ 1 := by rw [div_le_one hn']; exact hn1
      nlinarith
    rw [hQ]
    linarith
  have hN5 : C' / N ^ 5 ≤ |C'| / N ^ 2 := by
    refine (div_le_div_of_nonneg_right (le_abs_self C') (by positivity)).trans ?_
    exact div_le_div_of_nonneg_left (abs_nonneg _) (by positivity) (pow_le_pow_right₀ hNr (by norm_num))
  have h3 := sq_close ((hcl j).trans hN5) hUQ
  have h4 : |C'| / (N : ℝ) ^ 2 * (2 * (Q + 1) + |C'| / (N : ℝ) ^ 2) ≤ 1 / p.n * z := by
    have k1 : |C'| / (N : ℝ) ^ 2 ≤ |C'| := div_le_self (abs_nonneg _) (one_le_pow₀ hNr)
    have k2 : p.n * (|C'| * (2 * (Q + 1) + |C'|)) ≤ N * L := by
      have := hN1.trans hNN1
      rwa [div_le_iff₀ hpos] at this
    calc _ ≤ |C'| / (N : ℝ) ^ 2 * (2 * (Q + 1) + |C'|) := mul_le_mul_of_nonneg_left (by linarith) (by positivity)
      _ = (p.n * (|C'| * (2 * (Q + 1) + |C'|))) / (p.n * N ^ 2) := by field_simp
      _ ≤ (N * L) / (p.n * N ^ 2) := div_le_div_of_nonneg_right k2 (by positivity)
      _ = 1 / p.n * (L / N) := by field_simp
      _ ≤ _ := mul_le_mul_of_nonneg_left z0 (by positivity)
  have h5 := mul_le_mul_of_nonneg_left (hclose j) zp.le
  have h6 : |‖v j‖ ^ 2 - (‖A j‖ ^ 2 + z * flowRate b g f (time T p.n j))| ≤
      |‖v j‖ ^ 2 - ‖U z j‖ ^ 2| + |‖U z j‖ ^ 2 - ‖A j‖ ^ 2 - z * ρ j| + z * |ρ j - flowRate b g f (time T p.n j)| := by
    rw [← abs_of_pos zp, ← abs_mul, abs_of_pos zp]
    refine le_trans (le_of_eq ?_) (abs_add_three _ _ _)
    congr 1
    ring
  refine h6.trans ?_
  have e : z * ((2 * (M * K0) + 2) / p.n) = 1 / p.n * z + 1 / p.n * z + z * (2 * (M * K0) / p.n) := by ring
  rw [e]
  linarith [h3.trans h4]

/-- C182: without gain and with second-order dispersion, near the input and on fine grids: the power of every sample where `β₂` times the slope of the
flow is at least `η` has risen in every column, and where it is at most `-η` it has fallen, whatever the nonlinearity. -/
theorem C182_sign (hf : ContDiff ℝ (⊤ : ℕ∞) f) (hT : 0 < T) (hp : Function.Periodic f T) (β₂ : ℝ) {η : ℝ} (hη : 0 < η) :
    ∃ n0 : ℕ, ∀ (polyfit : Fiber.PolyFit) (spline : Fiber.Spline) (o : Obj) (p : Pulse) (F : FibObj) (f1 : Fiber.Fib) (a : Fin p.n → ℂ)
      (β : Fin p.n → ℝ) (R : Fin p.n → ℂ) (γ fR L : ℝ), n0 ≤ p.n → Holds p a → p.n % 2 = 0 → p.cf ≠ 0 → p.tw = T →
      p.AT = .ok ⟨p.n, fun j => f (time T p.n j)⟩ → (fun j : Fin p.n => f (time T p.n j)) ≠ 0 →
      o.method = .rk4ip → o.eta = 5 → o.disableSS = true → 0 < o.dz → 0 < o.dzMin → 0 < o.localError →
      (∀ k, β k = β₂ / 2 * offsetW T p.n k ^ 2) → Loads polyfit spline o p F f1 β 0 R γ fR → F.fib.length = some L → 0 < L →
      ∃ z0 > 0, ∃ N0 : ℕ, ∀ N, N0 ≤ N → ∃ r o' F', propagate polyfit spline o p F N false = some (.ok (r, o', F')) ∧ r.AT.length = N ∧
        ∀ i < N, ∃ v : Fin p.n → ℂ, r.AT[i]? = some ⟨p.n, v⟩ ∧ ((i + 1) * (L / N) < z0 → ∀ j,
          (η ≤ β₂ * deriv (phaseFlow f) (time T p.n j) → ‖f (time T p.n j)‖ ^ 2 < ‖v j‖ ^ 2) ∧
          (β₂ * deriv (phaseFlow f) (time T p.n j) ≤ -η → ‖v j‖ ^ 2 < ‖f (time T p.n j)‖ ^ 2)) := by
  obtain ⟨C', hC, H⟩ := C182_computed hf hT hp (C 0 * X + C (β₂ / 2) * X ^ 2 + C (0 / 6) * X ^ 3) 0
  obtain ⟨n0, hn0⟩ := exists_nat_gt (C' / η)
  refine ⟨n0, fun polyfit spline o p F f1 a β R γ fR L hn hold he hcf htw hAT hne hm heta hss hdz hmin hle hβ h hL hpos => ?_⟩
  have hn' : (0 : ℝ) < p.n := by exact_mod_cast hold.pos
  obtain ⟨z0, hz0, N0, H⟩ := H polyfit spline o p F f1 a β R γ fR L hold he hcf htw hAT hne hm heta hss hdz hmin hle (fun k => by rw [hβ]; simp) h hL hpos
  refine ⟨z0, hz0, max N0 1, fun N hN => ?_⟩
  obtain ⟨r, o', F', hr, hlen, H⟩ := H N ((le_max_left _ _).trans hN)
  refine ⟨r, o', F', hr, hlen, fun i hi => ?_⟩
  obtain ⟨v, hv, H⟩ := H i hi
  refine ⟨v, hv, fun hzz j => ?_⟩
  have hNr : (0 : ℝ) < N := by exact_mod_cast (le_max_right _ _).trans hN
  have hz : 0 < ((i : ℝ) + 1) * (L / N) := by positivity
  have k := H hzz j
  have e : deriv (flow 0 β₂ 0 f) (time T p.n j) = β₂ * deriv (phaseFlow f) (time T p.n j) := by
    have : flow 0 β₂ 0 f = fun t => β₂ * phaseFlow f t := by
      funext t
      unfold flow
      ring
    rw [this, deriv_const_mul_field]
  rw [C182_continuity hf, zero_mul, zero_add, e] at k
  have hCn : C' / p.n < η := by
    rw [div_lt_iff₀ hn']
    have h1 : (n0 : ℝ) ≤ p.n := by exact_mod_cast hn
    have := hn0.trans_le h1
    rw [div_lt_iff₀ hη] at this
    linarith
  generalize ((i : ℝ) + 1) * (L / N) = z at *
  generalize β₂ * deriv (phaseFlow f) (time T p.n j) = x at *
  obtain ⟨k1, k2⟩ := abs_le.1 k
  have hm := mul_lt_mul_of_pos_left hCn hz
  constructor
  · intro hx
    have := mul_le_mul_of_nonneg_left hx hz.le
    linarith
  · intro hx
    have := mul_le_mul_of_nonneg_left hx hz.le
    linarith

/-- C182: the assumptions are met: a background with a modulation and a chirp of either sign, in a generated fibre with second-order dispersion of either
sign, with any nonlinear coefficient and the default Raman response. The power in the middle rises when `β₂` and the curvature of the phase
have the same sign and falls otherwise. -/
theorem C182_nonvacuous (polyfit : Fiber.PolyFit) (spline : Fiber.Spline) (hT0 : 0 < T) {β₂ κ : ℝ} (hβκ : β₂ * κ ≠ 0) (γ : ℝ) {L wl : ℝ} (hL : 0 < L)
    (hwl : 0 < wl) (label : String) :
    ∃ n0 : ℕ, ∀ n, n0 ≤ n → n % 2 = 0 → ∃ A : Fin n → ℂ,
      (∀ j, A j = ((1 + Real.cos (2 * Real.pi * time T n j / T) / 2 : ℝ) : ℂ) * exp (I * ((κ * Real.cos (2 * Real.pi * time T n j / T) : ℝ) : ℂ))) ∧
      (heldPulse n (cNmps / wl) T A).AT = .ok ⟨n, A⟩ ∧ ∃ z0 > 0, ∃ N0 : ℕ, ∀ N, N0 ≤ N → ∃ r o' F',
        propagate polyfit spline { Obj.default with disableSS := true } (heldPulse n (cNmps / wl) T A)
          ⟨Fiber.genFib L wl ⟨1, fun _ => β₂⟩ γ 0 "ps^n/m" label Fiber.Fib.new, Fiber.genSpecs 0⟩ N false = some (.ok (r, o', F')) ∧
        ∀ i < N, ∃ v : Fin n → ℂ, r.AT[i]? = some ⟨n, v⟩ ∧ ((i + 1) * (L / N) < z0 → ∀ j, time T n j = 0 →
          (β₂ * κ < 0 → ‖A j‖ ^ 2 < ‖v j‖ ^ 2) ∧ (0 < β₂ * κ → ‖v j‖ ^ 2 < ‖A j‖ ^ 2)) := by
  set o : Obj := { Obj.default with disableSS := true } with ho
  have ht1 : 0 < o.tau1 := by norm_num [ho, Obj.default]
  have ht2 : 0 < o.tau2 := by norm_num [ho, Obj.default]
  have hπ := Real.pi_pos
  set x : ℝ → ℝ := fun t => 1 + Real.cos (2 * Real.pi * t / T) / 2 with hx
  set φ : ℝ → ℝ := fun t => κ * Real.cos (2 * Real.pi * t / T) with hφ
  have ccos : ContDiff ℝ (⊤ : ℕ∞) fun t : ℝ => Real.cos (2 * Real.pi * t / T) :=
    Real.contDiff_cos.comp ((contDiff_const.mul contDiff_id).div_const _)
  have pcos : ∀ t, Real.cos (2 * Real.pi * (t + T) / T) = Real.cos (2 * Real.pi * t / T) := fun t => by
    rw [show 2 * Real.pi * (t + T) / T = 2 * Real.pi * t / T + 2 * Real.pi by field_simp, Real.cos_add_two_pi]
  have cx : ContDiff ℝ (⊤ : ℕ∞) x := contDiff_const.add (ccos.div_const _)
  have cφ : ContDiff ℝ (⊤ : ℕ∞) φ := contDiff_const.mul ccos
  set f : ℝ → ℂ := fun t => (x t : ℂ) * exp (I * φ t) with hf
  have cf' : ContDiff ℝ (⊤ : ℕ∞) f := (Complex.ofRealCLM.contDiff.comp cx).mul (contDiff_const.mul (Complex.ofRealCLM.contDiff.comp cφ)).cexp
  have pf : Function.Periodic f T := fun t => by simp only [hf, hx, hφ, pcos t]
  have hlin : ∀ t : ℝ, HasDerivAt (fun t : ℝ => 2 * Real.pi * t / T) (2 * Real.pi * 1 / T) t := fun t => ((hasDerivAt_id t).const_mul _).div_const _
  have dφ : deriv φ = fun t => -(κ * (2 * Real.pi / T)) * Real.sin (2 * Real.pi * t / T) := funext fun t => by
    rw [((hlin t).cos.const_mul κ).deriv]
    ring
  have dφ0 : deriv φ 0 = 0 := by rw [dφ]; simp
  have ddφ0 : deriv (deriv φ) 0 = -(κ * (2 * Real.pi / T) ^ 2) := by
    rw [dφ, ((hlin 0).sin.const_mul _).deriv, mul_zero, zero_div, Real.cos_zero]
    ring
  have hslope : deriv (phaseFlow f) 0 = -(9 / 4 * κ * (2 * Real.pi / T) ^ 2) := by
    rw [(C182_peak cx cφ 0).2, dφ0, ddφ0]
    simp only [hx, mul_zero, zero_div, Real.cos_zero]
    ring
  have f0 : f 0 ≠ 0 := by
    simp only [hf, hx, mul_zero, zero_div, Real.cos_zero]
    refine mul_ne_zero ?_ (exp_ne_zero _)
    norm_num
  have hc : 0 < cNmps / wl := div_pos (by norm_num [cNmps, cMks]) hwl
  have hw : 0 < 9 / 4 * (2 * Real.pi / T) ^ 2 := by positivity
  obtain ⟨n0, H⟩ := C182_sign cf' hT0 pf β₂ (η := 9 / 4 * (2 * Real.pi / T) ^ 2 * |β₂ * κ|) (mul_pos hw (abs_pos.2 hβκ))
  refine ⟨max n0 4, fun n hn he => ?_⟩
  have hn4 : 4 ≤ n := (le_max_right _ _).trans hn
  obtain ⟨hold, hAT, hne⟩ := held_facts f0 (cNmps / wl) T (by omega : 0 < n) he
  set A : Fin n → ℂ := fun j => f (time T n j) with hA
  refine ⟨A, fun j => rfl, hAT, ?_⟩
  obtain ⟨R, fR, hl⟩ := C133_fiber polyfit spline o (p := heldPulse n (cNmps / wl) T A) hold hn4 he hT0.ne' ht1 ht2 (length := L) (wl := wl) (gamma := γ) (gain := 0)
    (b := fun _ : Fin 1 => β₂) (units := "ps^n/m") (label := label) (by decide) hwl.ne'
  have e : fiberPoly (fun _ : Fin 1 => β₂) (2 * Real.pi * (heldPulse n (cNmps / wl) T A).cf - 2 * Real.pi * cNmps / wl) (heldPulse n (cNmps / wl) T A).tw =
      C (β₂ / 2) * X ^ 2 := by
    rw [← fiberPoly_second β₂ T]
    congr 1
    show 2 * Real.pi * (cNmps / wl) - _ = 0
    ring
  rw [e] at hl
  obtain ⟨z0, hz0, N0, H⟩ := H polyfit spline o (heldPulse n (cNmps / wl) T A) _ _ (fftT A) _ R γ fR L ((le_max_left _ _).trans hn) hold he hc.ne' rfl hAT hne rfl
    (by norm_num [ho, Obj.default]) rfl (by norm_num [ho, Obj.default]) (by norm_num [ho, Obj.default]) (by norm_num [ho, Obj.default])
    (fun k => by rw [eval_mul, eval_C, eval_pow, eval_X]; rfl) hl rfl hL
  refine ⟨z0, hz0, N0, fun N hN => ?_⟩
  obtain ⟨r, o', F', hr, -, H⟩ := H N hN
  refine ⟨r, o', F', hr, fun i hi => ?_⟩
  obtain ⟨v, hv, H⟩ := H i hi
  refine ⟨v, hv, fun hz j hj => ?_⟩
  obtain ⟨H1, H2⟩ := H hz j
  have ej : time T (heldPulse n (cNmps / wl) T A).n j = 0 := hj
  rw [ej, hslope] at H1 H2
  have eA : A j = f 0 := by simp only [hA, hj]
  rw [eA]
  refine ⟨fun hs => H1 (le_of_eq ?_), fun hs => H2 (le_of_eq ?_)⟩
  · rw [abs_of_neg hs]; ring
  · rw [abs_of_pos hs]; ring

end PyNLO.PowerFlow
