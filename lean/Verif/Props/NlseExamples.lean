import Verif.Props.Nlse
import Mathlib.Analysis.SpecialFunctions.Trigonometric.DerivHyp

/-! # Solutions of the nonlinear Schrödinger equation to which C132 applies -/

namespace PyNLO

open Complex Set Polynomial Ssfm Pulse OdeGlobal Nlse Alias

section
variable {p q : ℝ}

theorem breather_den (hq0 : 0 ≤ q) (hq1 : q < 1) (z t : ℝ) : (q * Real.cos (2 * p * t) - Real.cosh (2 * p * q * z) : ℂ) ≠ 0 := by
  have h1 := Real.one_le_cosh (2 * p * q * z)
  have h2 : q * Real.cos (2 * p * t) < 1 := by
    have h3 := Real.cos_le_one (2 * p * t)
    nlinarith
  intro h
  have : q * Real.cos (2 * p * t) - Real.cosh (2 * p * q * z) = 0 := by exact_mod_cast h
  linarith

theorem breather_smooth (hq0 : 0 ≤ q) (hq1 : q < 1) : ContDiff ℝ (⊤ : ℕ∞) fun x : ℝ × ℝ => breather p q x.1 x.2 := by
  unfold breather
  have hz : ContDiff ℝ (⊤ : ℕ∞) fun x : ℝ × ℝ => 2 * p * q * x.1 := contDiff_const.mul contDiff_fst
  have hch : ContDiff ℝ (⊤ : ℕ∞) fun x : ℝ × ℝ => ((Real.cosh (2 * p * q * x.1) : ℝ) : ℂ) := ofRealCLM.contDiff.comp hz.cosh
  have hsh : ContDiff ℝ (⊤ : ℕ∞) fun x : ℝ × ℝ => ((Real.sinh (2 * p * q * x.1) : ℝ) : ℂ) := ofRealCLM.contDiff.comp hz.sinh
  have hc : ContDiff ℝ (⊤ : ℕ∞) fun x : ℝ × ℝ => ((Real.cos (2 * p * x.2) : ℝ) : ℂ) :=
    ofRealCLM.contDiff.comp (Real.contDiff_cos.comp (contDiff_const.mul contDiff_snd))
  have he : ContDiff ℝ (⊤ : ℕ∞) fun x : ℝ × ℝ => exp (I * (x.1 : ℂ)) :=
    (contDiff_const.mul (ofRealCLM.contDiff.comp contDiff_fst)).cexp
  have hnum : ContDiff ℝ (⊤ : ℕ∞) fun x : ℝ × ℝ => (2 * p ^ 2 * Real.cosh (2 * p * q * x.1) + 2 * I * p * q * Real.sinh (2 * p * q * x.1) : ℂ) :=
    (contDiff_const.mul hch).add (contDiff_const.mul hsh)
  have hden : ContDiff ℝ (⊤ : ℕ∞) fun x : ℝ × ℝ => (q * Real.cos (2 * p * x.2) - Real.cosh (2 * p * q * x.1) : ℂ) := (contDiff_const.mul hc).sub hch
  have hinv := hden.inv fun x => breather_den hq0 hq1 x.1 x.2
  have hq : ContDiff ℝ (⊤ : ℕ∞) fun x : ℝ × ℝ => ((2 * p ^ 2 * Real.cosh (2 * p * q * x.1) + 2 * I * p * q * Real.sinh (2 * p * q * x.1)) /
      (q * Real.cos (2 * p * x.2) - Real.cosh (2 * p * q * x.1)) : ℂ) := by
    simp only [div_eq_mul_inv]
    exact hnum.mul hinv
  exact he.mul (contDiff_const.add hq)

theorem breather_dt (hq0 : 0 ≤ q) (hq1 : q < 1) (z t : ℝ) : HasDerivAt (breather p q z)
    (exp (I * z) * ((2 * p ^ 2 * Real.cosh (2 * p * q * z) + 2 * I * p * q * Real.sinh (2 * p * q * z)) * (2 * p * q * Real.sin (2 * p * t)) /
      (q * Real.cos (2 * p * t) - Real.cosh (2 * p * q * z)) ^ 2)) t := by
  have hd := breather_den (p := p) hq0 hq1 z t
  have hc : HasDerivAt (fun t : ℝ => ((Real.cos (2 * p * t) : ℝ) : ℂ)) ((-Real.sin (2 * p * t) * (2 * p) : ℝ) : ℂ) t := by
    have h1 : HasDerivAt (fun t : ℝ => 2 * p * t) (2 * p) t := by simpa using (hasDerivAt_id t).const_mul (2 * p)
    exact (h1.cos).ofReal_comp
  have h2 := ((hc.const_mul (q : ℂ)).sub_const ((Real.cosh (2 * p * q * z) : ℝ) : ℂ))
  have h3 := (((hasDerivAt_const t (2 * p ^ 2 * Real.cosh (2 * p * q * z) + 2 * I * p * q * Real.sinh (2 * p * q * z) : ℂ)).div h2 hd).const_add 1).const_mul
    (exp (I * z))
  refine h3.congr_deriv ?_
  congr 2
  push_cast
  ring

theorem breather_dtt (hq0 : 0 ≤ q) (hq1 : q < 1) (z t : ℝ) : iteratedDeriv 2 (breather p q z) t =
    exp (I * z) * ((2 * p ^ 2 * Real.cosh (2 * p * q * z) + 2 * I * p * q * Real.sinh (2 * p * q * z)) *
      (2 * (2 * p * q * Real.sin (2 * p * t)) ^ 2 + (q * Real.cos (2 * p * t) - Real.cosh (2 * p * q * z)) * (4 * p ^ 2 * q * Real.cos (2 * p * t))) /
      (q * Real.cos (2 * p * t) - Real.cosh (2 * p * q * z)) ^ 3) := by
  rw [iteratedDeriv_succ, iteratedDeriv_one, show _root_.deriv (breather p q z) = _ from funext fun t => (breather_dt hq0 hq1 z t).deriv]
  have hd := breather_den (p := p) hq0 hq1 z t
  have h1 : HasDerivAt (fun t : ℝ => 2 * p * t) (2 * p) t := by simpa using (hasDerivAt_id t).const_mul (2 * p)
  have hc : HasDerivAt (fun t : ℝ => ((Real.cos (2 * p * t) : ℝ) : ℂ)) ((-Real.sin (2 * p * t) * (2 * p) : ℝ) : ℂ) t := (h1.cos).ofReal_comp
  have hs : HasDerivAt (fun t : ℝ => ((Real.sin (2 * p * t) : ℝ) : ℂ)) ((Real.cos (2 * p * t) * (2 * p) : ℝ) : ℂ) t := (h1.sin).ofReal_comp
  have h2 := ((hc.const_mul (q : ℂ)).sub_const ((Real.cosh (2 * p * q * z) : ℝ) : ℂ)).pow 2
  have h3 := (((hs.const_mul (2 * p * q : ℂ)).const_mul (2 * p ^ 2 * Real.cosh (2 * p * q * z) + 2 * I * p * q * Real.sinh (2 * p * q * z) : ℂ)).div h2
    (pow_ne_zero 2 hd)).const_mul (exp (I * z))
  refine h3.deriv.trans ?_
  simp only [Pi.pow_apply]
  congr 1
  generalize hD : (q * Real.cos (2 * p * t) - Real.cosh (2 * p * q * z) : ℂ) = D at hd ⊢
  push_cast
  generalize Complex.cosh _ = h
  generalize Complex.sinh _ = k
  generalize Complex.sin _ = s
  generalize Complex.cos _ = c
  field_simp
  ring

theorem breather_dz (hq0 : 0 ≤ q) (hq1 : q < 1) (z t : ℝ) : HasDerivAt (fun z => breather p q z t)
    (exp (I * z) * (I * (1 + (2 * p ^ 2 * Real.cosh (2 * p * q * z) + 2 * I * p * q * Real.sinh (2 * p * q * z)) /
        (q * Real.cos (2 * p * t) - Real.cosh (2 * p * q * z))) +
      ((4 * p ^ 3 * q * Real.sinh (2 * p * q * z) + 4 * I * p ^ 2 * q ^ 2 * Real.cosh (2 * p * q * z)) *
          (q * Real.cos (2 * p * t) - Real.cosh (2 * p * q * z)) +
        (2 * p ^ 2 * Real.cosh (2 * p * q * z) + 2 * I * p * q * Real.sinh (2 * p * q * z)) * (2 * p * q * Real.sinh (2 * p * q * z))) /
        (q * Real.cos (2 * p * t) - Real.cosh (2 * p * q * z)) ^ 2)) z := by
  have hd := breather_den (p := p) hq0 hq1 z t
  have h1 : HasDerivAt (fun z : ℝ => 2 * p * q * z) (2 * p * q) z := by simpa using (hasDerivAt_id z).const_mul (2 * p * q)
  have hc : HasDerivAt (fun z : ℝ => ((Real.cosh (2 * p * q * z) : ℝ) : ℂ)) ((Real.sinh (2 * p * q * z) * (2 * p * q) : ℝ) : ℂ) z := (h1.cosh).ofReal_comp
  have hs : HasDerivAt (fun z : ℝ => ((Real.sinh (2 * p * q * z) : ℝ) : ℂ)) ((Real.cosh (2 * p * q * z) * (2 * p * q) : ℝ) : ℂ) z := (h1.sinh).ofReal_comp
  have hexp := Series.wave_hasDerivAt I z
  have hnum := (hc.const_mul (2 * p ^ 2 : ℂ)).add (hs.const_mul (2 * I * p * q : ℂ))
  have hden := hc.const_sub (q * Real.cos (2 * p * t) : ℂ)
  have h3 := hexp.mul ((hnum.div hden hd).const_add 1)
  refine h3.congr_deriv ?_
  simp only [Pi.add_apply, Pi.div_apply]
  generalize hD : (q * Real.cos (2 * p * t) - Real.cosh (2 * p * q * z) : ℂ) = D at hd ⊢
  push_cast
  generalize Complex.cosh _ = h
  generalize Complex.sinh _ = k
  ring

/-- the breather satisfies `∂u/∂z = (i/2)·∂²u/∂t² + i|u|²u` -/
theorem breather_equation (hq0 : 0 ≤ q) (hq1 : q < 1) (hpq : p ^ 2 + q ^ 2 = 1) (z t : ℝ) : HasDerivAt (fun z => breather p q z t)
    (I / 2 * iteratedDeriv 2 (breather p q z) t + I * breather p q z t * ((‖breather p q z t‖ ^ 2 : ℝ) : ℂ)) z := by
  refine (breather_dz hq0 hq1 z t).congr_deriv ?_
  have hd := breather_den (p := p) hq0 hq1 z t
  have hd' : q * Real.cos (2 * p * t) - Real.cosh (2 * p * q * z) ≠ 0 := by exact_mod_cast hd
  have hnorm : ‖breather p q z t‖ ^ 2 = ((q * Real.cos (2 * p * t) - Real.cosh (2 * p * q * z) + 2 * p ^ 2 * Real.cosh (2 * p * q * z)) ^ 2 +
      (2 * p * q * Real.sinh (2 * p * q * z)) ^ 2) / (q * Real.cos (2 * p * t) - Real.cosh (2 * p * q * z)) ^ 2 := by
    have e : breather p q z t = exp ((z : ℂ) * I) * ((((q * Real.cos (2 * p * t) - Real.cosh (2 * p * q * z) + 2 * p ^ 2 * Real.cosh (2 * p * q * z)) /
        (q * Real.cos (2 * p * t) - Real.cosh (2 * p * q * z)) : ℝ) : ℂ) + ((2 * p * q * Real.sinh (2 * p * q * z) /
        (q * Real.cos (2 * p * t) - Real.cosh (2 * p * q * z)) : ℝ) : ℂ) * I) := by
      unfold breather
      push_cast
      push_cast at hd
      rw [mul_comm I (z : ℂ)]
      generalize Complex.cosh _ = h at *
      generalize Complex.cos _ = c at *
      generalize Complex.sinh _ = k at *
      congr 1
      rw [add_div (q * c - h), div_self hd]
      ring
    rw [e, norm_mul, norm_exp_ofReal_mul_I, one_mul, ← normSq_eq_norm_sq, normSq_add_mul_I]
    field_simp
  rw [hnorm, breather_dtt hq0 hq1]
  unfold breather
  push_cast
  push_cast at hd
  have h1 : (Complex.sin (2 * p * t)) ^ 2 = 1 - (Complex.cos (2 * p * t)) ^ 2 := by
    have := Complex.sin_sq_add_cos_sq (2 * p * t : ℂ)
    linear_combination this
  have h2 : (Complex.sinh (2 * p * q * z)) ^ 2 = (Complex.cosh (2 * p * q * z)) ^ 2 - 1 := by
    have := Complex.cosh_sq (2 * p * q * z : ℂ)
    linear_combination -this
  have h3 : (q : ℂ) ^ 2 = 1 - (p : ℂ) ^ 2 := by
    have : (p : ℂ) ^ 2 + (q : ℂ) ^ 2 = 1 := by exact_mod_cast hpq
    linear_combination this
  generalize Complex.sin (2 * p * t) = s at *
  generalize Complex.cos (2 * p * t) = c at *
  generalize Complex.sinh (2 * p * q * z) = k at *
  generalize Complex.cosh (2 * p * q * z) = h at *
  have key : I * ((q * c - h) + (2 * p ^ 2 * h + 2 * I * p * q * k)) * (q * c - h) ^ 2 +
      (q * c - h) * ((4 * p ^ 3 * q * k + 4 * I * p ^ 2 * q ^ 2 * h) * (q * c - h) + (2 * p ^ 2 * h + 2 * I * p * q * k) * (2 * p * q * k)) =
      I / 2 * ((2 * p ^ 2 * h + 2 * I * p * q * k) * (2 * (2 * p * q * s) ^ 2 + (q * c - h) * (4 * p ^ 2 * q * c))) +
      I * ((q * c - h + 2 * p ^ 2 * h) ^ 2 + (2 * p * q * k) ^ 2) * ((q * c - h) + (2 * p ^ 2 * h + 2 * I * p * q * k)) := by
    linear_combination (-8 * s ^ 2 * k * p ^ 3 * q ^ 3 - 4 * c ^ 2 * k * p ^ 3 * q ^ 3 - 4 * c * h * k * p ^ 3 * q ^ 2 + 8 * h ^ 2 * k * p ^ 3 * q -
        8 * h ^ 2 * k * p ^ 5 * q - 8 * k ^ 3 * p ^ 3 * q ^ 3) * I_sq + (-8 * I * h * p ^ 4 * q ^ 2 + 8 * k * p ^ 3 * q ^ 3) * h1 +
      (-8 * I * h * p ^ 4 * q ^ 2 + 8 * k * p ^ 3 * q ^ 3) * h2 +
      (4 * I * c ^ 2 * h * p ^ 2 * q ^ 2 - 8 * I * c * h ^ 2 * p ^ 2 * q + 4 * I * h ^ 3 * p ^ 2 - 8 * I * h ^ 3 * p ^ 4 + 8 * h ^ 2 * k * p ^ 3 * q) * h3
  generalize hD : (q * c - h : ℂ) = D at hd key ⊢
  generalize exp _ = E
  have hD3 : D ^ 3 ≠ 0 := pow_ne_zero 3 hd
  refine mul_right_cancel₀ hD3 ?_
  have l1 : E * (I * (1 + (2 * p ^ 2 * h + 2 * I * p * q * k) / D) + ((4 * p ^ 3 * q * k + 4 * I * p ^ 2 * q ^ 2 * h) * D +
      (2 * p ^ 2 * h + 2 * I * p * q * k) * (2 * p * q * k)) / D ^ 2) * D ^ 3 = E * (I * (D + (2 * p ^ 2 * h + 2 * I * p * q * k)) * D ^ 2 +
      D * ((4 * p ^ 3 * q * k + 4 * I * p ^ 2 * q ^ 2 * h) * D + (2 * p ^ 2 * h + 2 * I * p * q * k) * (2 * p * q * k))) := by
    field_simp
  rw [l1, key]
  field_simp

theorem dispersion_quadratic (a : ℝ) (f : ℝ → ℂ) (t : ℝ) : dispersion (C a * X ^ 2) f t = -(I * a * iteratedDeriv 2 f t) := by
  unfold dispersion
  rw [Polynomial.C_mul_X_pow_eq_monomial, Polynomial.sum_monomial_index]
  · rw [I_sq]; ring
  · simp

/-- C132: the breather is a solution: second-order dispersion `β₂ = -1`, nonlinear coefficient one. -/
theorem C132_breather (hp : 0 < p) (hq0 : 0 ≤ q) (hq1 : q < 1) (hpq : p ^ 2 + q ^ 2 = 1) (h : ℝ → ℝ) (L : ℝ) :
    Solution (C (-1 / 2) * X ^ 2) 0 1 0 h (Real.pi / p) L (breather p q) where
  smooth := breather_smooth hq0 hq1
  periodic := fun z t => by
    unfold breather
    rw [show 2 * p * (t + Real.pi / p) = 2 * p * t + 2 * Real.pi by field_simp, Real.cos_add_two_pi]
  equation := fun z _ _ t => by
    refine (breather_equation hq0 hq1 hpq z t).congr_deriv ?_
    rw [dispersion_quadratic, response_off]
    push_cast
    ring

/-- a pulse with given samples -/
noncomputable def heldPulse (n : ℕ) (cf tw : ℝ) (A : Fin n → ℂ) : Pulse := { Pulse.blank with n := n, cf := cf, tw := tw, ready := true, aw := some ⟨n, fftT A⟩ }

theorem fiberPoly_quadratic (T : ℝ) : fiberPoly (fun _ : Fin 1 => (-1 : ℝ)) 0 T = C (-1 / 2) * X ^ 2 := by
  have h : taylorPoly (fun _ : Fin 1 => (-1 : ℝ)) = C (-1 / 2) * X ^ 2 := by
    unfold taylorPoly
    simp
  unfold fiberPoly Nlse.slope
  rw [h]
  simp

/-- C132 applies to pulses of every size that hold samples of the breather, in a generated fibre with `β₂ = -1 ps²/m` and `γ = 1/(W m)`. -/
theorem C132_nonvacuous (polyfit : Fiber.PolyFit) (spline : Fiber.Spline) (hp : 0 < p) (hq0 : 0 ≤ q) (hq1 : q < 1) (hpq : p ^ 2 + q ^ 2 = 1)
    {L wl : ℝ} (hL : 0 < L) (hwl : wl ≠ 0) (label : String) (s : ℕ) : ∃ (K : ℝ) (n0 : ℕ), ∀ n, n0 ≤ n → n % 2 = 0 →
      (heldPulse n (cNmps / wl) (Real.pi / p) (samples (breather p q) (Real.pi / p) n 0)).AT = .ok ⟨n, samples (breather p q) (Real.pi / p) n 0⟩ ∧
      ∃ N0 : ℕ, ∀ N, N0 ≤ N → ∃ r o' F', propagate polyfit spline { Obj.default with disableSS := true, disableRaman := true }
          (heldPulse n (cNmps / wl) (Real.pi / p) (samples (breather p q) (Real.pi / p) n 0))
          ⟨Fiber.genFib L wl ⟨1, fun _ => -1⟩ 1 0 "ps^n/m" label Fiber.Fib.new, Fiber.genSpecs 0⟩ N false = some (.ok (r, o', F')) ∧ r.AT.length = N ∧
        ∀ i < N, ∃ v : Fin n → ℂ, r.AT[i]? = some ⟨n, v⟩ ∧
          ∀ j, ‖v j - breather p q ((i + 1) * (L / N)) (time (Real.pi / p) n j)‖ ≤ K / n ^ s := by
  have hT : 0 < Real.pi / p := by positivity
  obtain ⟨K, n0, H⟩ := C132_converges (C132_breather hp hq0 hq1 hpq (fun _ => 0) L) hT hL s
  refine ⟨K, max n0 4, fun n hn he => ?_⟩
  have hn0 : n0 ≤ n := le_trans (le_max_left _ _) hn
  have hn4 : 4 ≤ n := le_trans (le_max_right _ _) hn
  set A := samples (breather p q) (Real.pi / p) n 0 with hA
  have hold : Holds (heldPulse n (cNmps / wl) (Real.pi / p) A) (fftT A) := ⟨rfl, rfl, by omega, rfl⟩
  have hAT : (heldPulse n (cNmps / wl) (Real.pi / p) A).AT = .ok ⟨n, A⟩ := by
    have := hold.AT_eq
    rwa [ifftT_fftT] at this
  refine ⟨hAT, ?_⟩
  have hcw : (cNmps / wl : ℝ) ≠ 0 := div_ne_zero (by norm_num [cNmps, cMks]) hwl
  have hload := C132_fiber polyfit spline { Obj.default with disableSS := true, disableRaman := true } (p := heldPulse n (cNmps / wl) (Real.pi / p) A)
    hold hn4 he hT.ne' rfl (length := L) (gamma := 1) (gain := 0) (b := fun _ : Fin 1 => (-1 : ℝ)) (units := "ps^n/m") (label := label) (by decide) hwl
  have hd : 2 * Real.pi * (heldPulse n (cNmps / wl) (Real.pi / p) A).cf - 2 * Real.pi * cNmps / wl = 0 := by
    show 2 * Real.pi * (cNmps / wl) - 2 * Real.pi * cNmps / wl = 0
    ring
  have hne : A ≠ 0 := by
    intro h0
    have h1 := congrFun h0 ⟨n / 2, by omega⟩
    have h2 : time (Real.pi / p) n ⟨n / 2, by omega⟩ = 0 := by
      unfold time
      have : ((n / 2 : ℕ) : ℝ) = (n : ℝ) / 2 := by rw [Nat.cast_div (by omega) (by norm_num)]; norm_num
      show (((n / 2 : ℕ) : ℝ) - (n : ℝ) / 2) * _ = 0
      rw [this]
      ring
    have h3 : breather p q 0 0 = 0 := by
      have : A ⟨n / 2, by omega⟩ = breather p q 0 (time (Real.pi / p) n ⟨n / 2, by omega⟩) := rfl
      rw [h2] at this
      rw [← this]
      exact h1
    have h4 : ((1 + 2 * p ^ 2 / (q - 1) : ℝ) : ℂ) = 0 := by
      have : breather p q 0 0 = ((1 + 2 * p ^ 2 / (q - 1) : ℝ) : ℂ) := by
        unfold breather
        simp
      rw [← this]
      exact h3
    have h5 : 1 + 2 * p ^ 2 / (q - 1) = 0 := by exact_mod_cast h4
    have h6 : q - 1 ≠ 0 := by linarith
    have h7 : (q - 1) * (2 * q + 1) = 0 := by
      field_simp at h5
      nlinarith
    rcases mul_eq_zero.1 h7 with h | h
    · exact h6 h
    · linarith
  refine H polyfit spline { Obj.default with disableSS := true, disableRaman := true } (heldPulse n (cNmps / wl) (Real.pi / p) A) _ _ _ _ _ (fftT A) hold hn0 he
    hcw hAT hne hload (fun k => ?_) rfl rfl (by norm_num [Obj.default]) rfl rfl (by norm_num [Obj.default]) (by norm_num [Obj.default]) (by norm_num [Obj.default])
  rw [hd]
  show (fiberPoly _ 0 (Real.pi / p)).eval _ = _
  rw [fiberPoly_quadratic]
  rfl

end

/-! ## Uniqueness -/

theorem real_response_one {n : ℕ} : RealResponse (fun _ : Fin n => (1 : ℂ)) := by
  intro x j
  have : Gnlse.toTime (fun k => 1 * Gnlse.toFreq (fun i => ((x i : ℝ) : ℂ)) k) = fun i => ((x i : ℝ) : ℂ) := by
    simp only [one_mul]
    exact toTime_toFreq _
  rw [this]
  simp

/-- a continuous periodic function that becomes small on fine grids vanishes -/
theorem grid_dense {T : ℝ} (hT : 0 < T) {w : ℝ → ℂ} (hc : Continuous w) (hper : Function.Periodic w T) {c : ℕ → ℝ} (hc0 : Filter.Tendsto c Filter.atTop (nhds 0))
    {n0 : ℕ} (hgrid : ∀ n, n0 ≤ n → n % 2 = 0 → 0 < n → ∀ j : Fin n, ‖w (time T n j)‖ ≤ c n) (t : ℝ) : w t = 0 := by
  suffices hs : ∀ t ∈ Ico (-(T / 2)) (-(T / 2) + T), w t = 0 by
    obtain ⟨y, hy, e⟩ := hper.exists_mem_Ico hT t (-(T / 2))
    rw [e]
    exact hs y hy
  intro t ht
  have htop : Filter.Tendsto (fun m : ℕ => 2 * (m + 1)) Filter.atTop Filter.atTop :=
    Filter.tendsto_atTop_mono (fun m => by show m ≤ 2 * (m + 1); omega) Filter.tendsto_id
  set idx : ℕ → ℕ := fun m => ⌊(t / T + 1 / 2) * ((2 * (m + 1) : ℕ) : ℝ)⌋₊ with hidx
  have hx0 : 0 ≤ t / T + 1 / 2 := by
    have : -(T / 2) / T ≤ t / T := div_le_div_of_nonneg_right ht.1 hT.le
    have e : -(T / 2) / T = -(1 / 2) := by field_simp
    linarith
  have hx1 : t / T + 1 / 2 < 1 := by
    have : t / T < (-(T / 2) + T) / T := div_lt_div_of_pos_right ht.2 hT
    have e : (-(T / 2) + T) / T = 1 / 2 := by field_simp; ring
    linarith
  have hlt : ∀ m, idx m < 2 * (m + 1) := fun m => by
    have hpos : (0 : ℝ) < ((2 * (m + 1) : ℕ) : ℝ) := by positivity
    rw [hidx]
    refine (Nat.floor_lt (by positivity)).2 ?_
    nlinarith
  set τ : ℕ → ℝ := fun m => time T (2 * (m + 1)) ⟨idx m, hlt m⟩ with hτ
  have hclose : ∀ m, |τ m - t| ≤ T / ((2 * (m + 1) : ℕ) : ℝ) := fun m => by
    have hpos : (0 : ℝ) < ((2 * (m + 1) : ℕ) : ℝ) := by positivity
    have f1 := Nat.floor_le (by positivity : 0 ≤ (t / T + 1 / 2) * ((2 * (m + 1) : ℕ) : ℝ))
    have f2 := Nat.lt_floor_add_one ((t / T + 1 / 2) * ((2 * (m + 1) : ℕ) : ℝ))
    have e : τ m - t = ((idx m : ℝ) - (t / T + 1 / 2) * ((2 * (m + 1) : ℕ) : ℝ)) * (T / ((2 * (m + 1) : ℕ) : ℝ)) := by
      simp only [hτ, time]
      field_simp
      ring
    rw [e, abs_mul, abs_of_pos (by positivity : 0 < T / ((2 * (m + 1) : ℕ) : ℝ))]
    refine mul_le_of_le_one_left (by positivity) ?_
    rw [abs_le]
    constructor <;> simp only [hidx] <;> linarith
  have hlim0 : Filter.Tendsto (fun m : ℕ => (1 : ℝ) / ((2 * (m + 1) : ℕ) : ℝ)) Filter.atTop (nhds 0) := by
    exact tendsto_one_div_atTop_nhds_zero_nat.comp htop
  have hτt : Filter.Tendsto τ Filter.atTop (nhds t) := by
    rw [tendsto_iff_norm_sub_tendsto_zero]
    refine squeeze_zero (fun m => norm_nonneg _) (fun m => (Real.norm_eq_abs (τ m - t)).le.trans (hclose m)) ?_
    have := hlim0.const_mul T
    rw [mul_zero] at this
    refine this.congr fun m => ?_
    ring
  have hlim1 := (hc.tendsto t).comp hτt
  have hlim2 : Filter.Tendsto (w ∘ τ) Filter.atTop (nhds 0) := by
    refine squeeze_zero_norm' ?_ (a := fun m : ℕ => c (2 * (m + 1))) ?_
    · refine Filter.eventually_atTop.2 ⟨n0, fun m hm => hgrid (2 * (m + 1)) (by omega) (by omega) (by omega) ⟨idx m, hlt m⟩⟩
    · exact hc0.comp htop
  exact tendsto_nhds_unique hlim1 hlim2

/-- C132: the equation determines the field: the limit of `propagate` is the only solution. -/
theorem C132_unique {b : ℝ[X]} {g γ : ℝ} {h h' : ℝ → ℝ} {T L : ℝ} {u v : ℝ → ℝ → ℂ} (hu : Solution b g γ 0 h T L u) (hv : Solution b g γ 0 h' T L v)
    (hT : 0 < T) (h0 : ∀ t, u 0 t = v 0 t) {z : ℝ} (hz : z ∈ Icc 0 L) (t : ℝ) : u z t = v z t := by
  have hL : 0 ≤ L := hz.1.trans hz.2
  obtain ⟨C1, n1, H1⟩ := C132_grid hu hT hL 1
  obtain ⟨C2, n2, H2⟩ := C132_grid hv hT hL 1
  have hgrid : ∀ n, n1 ≤ n → n2 ≤ n → n % 2 = 0 → 0 < n → ∀ j : Fin n, ‖u z (time T n j) - v z (time T n j)‖ ≤ (C1 + C2) / n := by
    intro n hn1 hn2 he hn j
    obtain ⟨U, hU, hU0⟩ := C116_exists (fun k : Fin n => b.eval (2 * Real.pi * ((k : ℕ) - (n : ℝ) / 2) / T)) g real_response_one γ (samples u T n 0)
      (T := L + 1) (by linarith)
    have e1 := H1 n hn1 he _ (fun k => rfl) _ _ U (by linarith : -(L + 1) < 0) (by linarith : L < L + 1) hU hU0 z hz j
    have e2 := H2 n hn2 he _ (fun k => rfl) _ _ U (by linarith : -(L + 1) < 0) (by linarith : L < L + 1) hU (by rw [hU0]; funext i; exact h0 _) z hz j
    rw [pow_one] at e1 e2
    calc ‖u z (time T n j) - v z (time T n j)‖ = ‖(U z j - v z (time T n j)) - (U z j - u z (time T n j))‖ := by congr 1; ring
      _ ≤ C2 / n + C1 / n := (norm_sub_le _ _).trans (add_le_add e2 e1)
      _ = (C1 + C2) / n := by ring
  have hlim : Filter.Tendsto (fun n : ℕ => (C1 + C2) / (n : ℝ)) Filter.atTop (nhds 0) := tendsto_const_div_atTop_nhds_zero_nat _
  have hc : Continuous fun t => u z t - v z t := (slice_contDiff hu.smooth z).continuous.sub (slice_contDiff hv.smooth z).continuous
  have hper : Function.Periodic (fun t => u z t - v z t) T := fun t => by
    show u z (t + T) - v z (t + T) = _
    rw [hu.periodic z t, hv.periodic z t]
  exact sub_eq_zero.1 (grid_dense hT hc hper hlim (n0 := max n1 n2)
    (fun n hn => hgrid n ((le_max_left _ _).trans hn) ((le_max_right _ _).trans hn)) t)

end PyNLO
