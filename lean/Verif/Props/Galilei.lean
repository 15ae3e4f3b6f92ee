import Verif.Props.Existence
import Verif.Props.Recentre
import Verif.Props.Soliton

/-!
# C184: a detuned pulse travels at its own group velocity and is otherwise the same

In a fibre with second-order dispersion a pulse whose frequency is lowered by `Ω` arrives earlier by `β₂·Ω·z` (later for a negative product) and has the
same shape as the pulse at the centre frequency, whatever the nonlinearity.
-/

namespace PyNLO.Galilei

open Complex Set Polynomial Ssfm Pulse Nlse Alias

/-- the field `f` with its frequency lowered by `Ω` -/
noncomputable def detuned (Ω : ℝ) (f : ℝ → ℂ) (t : ℝ) : ℂ := exp (I * ((Ω * t : ℝ) : ℂ)) * f t

/-- the phase factor at the time `t`, after the length `z`, of a wave whose frequency is lowered by `Ω` -/
noncomputable def boost (β₂ Ω z t : ℝ) : ℂ := exp (I * ((Ω * (t + β₂ * Ω * z) - β₂ * Ω ^ 2 / 2 * z : ℝ) : ℂ))

theorem norm_boost (β₂ Ω z t : ℝ) : ‖boost β₂ Ω z t‖ = 1 := by
  unfold boost
  rw [mul_comm I, Complex.norm_exp_ofReal_mul_I]

theorem detuned_smooth {f : ℝ → ℂ} (hf : ContDiff ℝ (⊤ : ℕ∞) f) (Ω : ℝ) : ContDiff ℝ (⊤ : ℕ∞) (detuned Ω f) :=
  (contDiff_const.mul (Complex.ofRealCLM.contDiff.comp (contDiff_const.mul contDiff_id))).cexp.mul hf

theorem detuned_periodic {f : ℝ → ℂ} {T : ℝ} (hT : 0 < T) (hp : Function.Periodic f T) (m : ℤ) : Function.Periodic (detuned (2 * Real.pi * m / T) f) T := fun t => by
  unfold detuned
  rw [hp t]
  congr 1
  have hT' : (T : ℂ) ≠ 0 := by exact_mod_cast hT.ne'
  rw [show I * ((2 * Real.pi * m / T * (t + T) : ℝ) : ℂ) = I * ((2 * Real.pi * m / T * t : ℝ) : ℂ) + m * (2 * Real.pi * I) by push_cast; field_simp,
    Complex.exp_add, Complex.exp_int_mul_two_pi_mul_I, mul_one]

theorem detuned_zero {f : ℝ → ℂ} (h : f 0 ≠ 0) (Ω : ℝ) : detuned Ω f 0 ≠ 0 := mul_ne_zero (exp_ne_zero _) h

/-- C184: the equation: a solution with its frequency lowered and moved at its group velocity is a solution, with any gain, nonlinearity and response. -/
theorem C184_equation {β₂ g γ fR : ℝ} {h : ℝ → ℝ} {T L : ℝ} (hT : 0 < T) {u : ℝ → ℝ → ℂ} (hu : Solution (C (β₂ / 2) * X ^ 2) g γ fR h T L u) (m : ℤ) :
    Solution (C (β₂ / 2) * X ^ 2) g γ fR h T L fun z t =>
      boost β₂ (2 * Real.pi * m / T) z t * u z (t + β₂ * (2 * Real.pi * m / T) * z) := by
  refine recentred_solution hT hu m (c0 := β₂ * (2 * Real.pi * m / T) ^ 2 / 2) (c1 := β₂ * (2 * Real.pi * m / T)) fun x => ?_
  simp only [eval_mul, eval_C, eval_pow, eval_X]
  ring

theorem boost_zero (β₂ Ω : ℝ) (u : ℝ → ℝ → ℂ) (t : ℝ) : boost β₂ Ω 0 t * u 0 (t + β₂ * Ω * 0) = detuned Ω (u 0) t := by
  unfold boost detuned
  simp

theorem fiberPoly_centre (β₂ T wl : ℝ) : fiberPoly (fun _ : Fin 1 => β₂) (2 * Real.pi * (cNmps / wl) - 2 * Real.pi * cNmps / wl) T = C (β₂ / 2) * X ^ 2 := by
  rw [← fiberPoly_second β₂ T]
  congr 1
  ring

/-- C184: two runs of `propagate` in a fibre with second-order dispersion, without Raman response and self-steepening: the field of the second, whose input is
detuned, is the field of the first moved at its group velocity. -/
theorem C184_field (polyfit : Fiber.PolyFit) (spline : Fiber.Spline) {f : ℝ → ℂ} {T : ℝ} (hT : 0 < T) (hf : ContDiff ℝ (⊤ : ℕ∞) f)
    (hper : Function.Periodic f T) (hf0 : f 0 ≠ 0) (β₂ γ gain : ℝ) {L wl : ℝ} (hL : 0 < L) (hwl : wl ≠ 0) (label : String) (m : ℤ) :
    ∃ u : ℝ → ℝ → ℂ, u 0 = f ∧ (∀ z, Function.Periodic (u z) T) ∧ ∀ s : ℕ, ∃ (C : ℝ) (n0 : ℕ), ∀ n, n0 ≤ n → n % 2 = 0 →
      ∃ N0 : ℕ, ∀ N, N0 ≤ N → ∃ r r' o1 o2 F1 F2,
        propagate polyfit spline { Obj.default with disableSS := true, disableRaman := true } (heldPulse n (cNmps / wl) T fun j => f (time T n j))
          ⟨Fiber.genFib L wl ⟨1, fun _ => β₂⟩ γ gain "ps^n/m" label Fiber.Fib.new, Fiber.genSpecs gain⟩ N false = some (.ok (r, o1, F1)) ∧
        propagate polyfit spline { Obj.default with disableSS := true, disableRaman := true }
          (heldPulse n (cNmps / wl) T fun j => detuned (2 * Real.pi * m / T) f (time T n j))
          ⟨Fiber.genFib L wl ⟨1, fun _ => β₂⟩ γ gain "ps^n/m" label Fiber.Fib.new, Fiber.genSpecs gain⟩ N false = some (.ok (r', o2, F2)) ∧
        ∀ i < N, ∃ v w : Fin n → ℂ, r.AT[i]? = some ⟨n, v⟩ ∧ r'.AT[i]? = some ⟨n, w⟩ ∧ ∀ j,
          ‖v j - u ((i + 1) * (L / N)) (time T n j)‖ ≤ C / n ^ s ∧
          ‖w j - boost β₂ (2 * Real.pi * m / T) ((i + 1) * (L / N)) (time T n j) *
            u ((i + 1) * (L / N)) (time T n j + β₂ * (2 * Real.pi * m / T) * ((i + 1) * (L / N)))‖ ≤ C / n ^ s := by
  have hcf : cNmps / wl ≠ 0 := div_ne_zero (by norm_num [cNmps, cMks]) hwl
  obtain ⟨u, hu, hu0, H⟩ := C168_fiber polyfit spline hT hf hper hf0 (fun _ : Fin 1 => β₂) γ gain hcf hL hwl label
  obtain ⟨u', hu', hu0', H'⟩ := C168_fiber polyfit spline hT (detuned_smooth hf (2 * Real.pi * m / T)) (detuned_periodic hT hper m) (detuned_zero hf0 _)
    (fun _ : Fin 1 => β₂) γ gain hcf hL hwl label
  rw [fiberPoly_centre] at hu hu'
  have hb := C184_equation hT hu m
  have same : ∀ z ∈ Icc 0 L, ∀ t, u' z t = boost β₂ (2 * Real.pi * m / T) z t * u z (t + β₂ * (2 * Real.pi * m / T) * z) := fun z hz t =>
    C132_unique hu' hb hT (fun t => by rw [hu0', boost_zero, hu0]) hz t
  refine ⟨u, hu0, hu.periodic, fun s => ?_⟩
  obtain ⟨C1, n1, H⟩ := H s
  obtain ⟨C2, n2, H'⟩ := H' s
  refine ⟨max C1 C2, max n1 n2, fun n hn he => ?_⟩
  obtain ⟨N1, H⟩ := H n ((le_max_left _ _).trans hn) he
  obtain ⟨N2, H'⟩ := H' n ((le_max_right _ _).trans hn) he
  refine ⟨max (max N1 N2) 1, fun N hN => ?_⟩
  obtain ⟨r, o1, F1, hr, -, H⟩ := H N ((le_max_left _ _).trans ((le_max_left _ _).trans hN))
  obtain ⟨r', o2, F2, hr', -, H'⟩ := H' N ((le_max_right _ _).trans ((le_max_left _ _).trans hN))
  refine ⟨r, r', o1, o2, F1, F2, hr, hr', fun i hi => ?_⟩
  obtain ⟨v, hv, H⟩ := H i hi
  obtain ⟨w, hw, H'⟩ := H' i hi
  have hNr : (0 : ℝ) < N := by exact_mod_cast (by omega : 0 < N)
  have hz : ((i : ℝ) + 1) * (L / N) ∈ Icc 0 L := by
    refine ⟨by positivity, ?_⟩
    have h1 : ((i : ℝ) + 1) ≤ N := by exact_mod_cast hi
    calc ((i : ℝ) + 1) * (L / N) ≤ N * (L / N) := mul_le_mul_of_nonneg_right h1 (by positivity)
      _ = L := by field_simp
  refine ⟨v, w, hv, hw, fun j => ⟨(H j).trans (div_le_div_of_nonneg_right (le_max_left _ _) (by positivity)), ?_⟩⟩
  rw [← same _ hz]
  exact (H' j).trans (div_le_div_of_nonneg_right (le_max_right _ _) (by positivity))

/-- C184: the two runs alone: where the delay is a whole number of samples the moduli of the stored fields agree sample by sample, around the window. -/
theorem C184_runs (polyfit : Fiber.PolyFit) (spline : Fiber.Spline) {f : ℝ → ℂ} {T : ℝ} (hT : 0 < T) (hf : ContDiff ℝ (⊤ : ℕ∞) f)
    (hper : Function.Periodic f T) (hf0 : f 0 ≠ 0) (β₂ γ gain : ℝ) {L wl : ℝ} (hL : 0 < L) (hwl : wl ≠ 0) (label : String) (m : ℤ) (s : ℕ) :
    ∃ (C : ℝ) (n0 : ℕ), ∀ n, n0 ≤ n → n % 2 = 0 → ∃ N0 : ℕ, ∀ N, N0 ≤ N → ∃ r r' o1 o2 F1 F2,
        propagate polyfit spline { Obj.default with disableSS := true, disableRaman := true } (heldPulse n (cNmps / wl) T fun j => f (time T n j))
          ⟨Fiber.genFib L wl ⟨1, fun _ => β₂⟩ γ gain "ps^n/m" label Fiber.Fib.new, Fiber.genSpecs gain⟩ N false = some (.ok (r, o1, F1)) ∧
        propagate polyfit spline { Obj.default with disableSS := true, disableRaman := true }
          (heldPulse n (cNmps / wl) T fun j => detuned (2 * Real.pi * m / T) f (time T n j))
          ⟨Fiber.genFib L wl ⟨1, fun _ => β₂⟩ γ gain "ps^n/m" label Fiber.Fib.new, Fiber.genSpecs gain⟩ N false = some (.ok (r', o2, F2)) ∧
        ∀ i < N, ∃ v w : Fin n → ℂ, r.AT[i]? = some ⟨n, v⟩ ∧ r'.AT[i]? = some ⟨n, w⟩ ∧ ∀ j l, ∀ k : ℤ,
          time T n l = time T n j + β₂ * (2 * Real.pi * m / T) * ((i + 1) * (L / N)) + k * T → |‖w j‖ - ‖v l‖| ≤ C / n ^ s := by
  obtain ⟨u, -, hp, H⟩ := C184_field polyfit spline hT hf hper hf0 β₂ γ gain hL hwl label m
  obtain ⟨C, n0, H⟩ := H s
  refine ⟨2 * C, n0, fun n hn he => ?_⟩
  obtain ⟨N0, H⟩ := H n hn he
  refine ⟨N0, fun N hN => ?_⟩
  obtain ⟨r, r', o1, o2, F1, F2, hr, hr', H⟩ := H N hN
  refine ⟨r, r', o1, o2, F1, F2, hr, hr', fun i hi => ?_⟩
  obtain ⟨v, w, hv, hw, H⟩ := H i hi
  refine ⟨v, w, hv, hw, fun j l k hk => ?_⟩
  have h1 := (abs_norm_sub_norm_le _ _).trans (H l).1
  have h2 := (abs_norm_sub_norm_le _ _).trans (H j).2
  rw [norm_mul, norm_boost, one_mul] at h2
  rw [hk, (hp _).int_mul k] at h1
  have h3 := abs_sub_le (‖w j‖) (‖u ((i + 1) * (L / N)) (time T n j + β₂ * (2 * Real.pi * m / T) * ((i + 1) * (L / N)))‖) (‖v l‖)
  rw [abs_sub_comm (‖u _ _‖)] at h3
  rw [show 2 * C / (n : ℝ) ^ s = C / n ^ s + C / n ^ s by ring]
  linarith

/-- C184: the same with the default Raman response, in the mean square over the window. -/
theorem C184_raman (polyfit : Fiber.PolyFit) (spline : Fiber.Spline) {f : ℝ → ℂ} {T : ℝ} (hT : 0 < T) (hf : ContDiff ℝ (⊤ : ℕ∞) f)
    (hper : Function.Periodic f T) (hf0 : f 0 ≠ 0) (β₂ γ gain : ℝ) {L wl : ℝ} (hL : 0 < L) (hwl : wl ≠ 0) (label : String) (m : ℤ) :
    ∃ u : ℝ → ℝ → ℂ, u 0 = f ∧ (∀ z, Function.Periodic (u z) T) ∧ ∃ (C : ℝ) (n0 : ℕ), ∀ n, n0 ≤ n → n % 2 = 0 →
      ∃ N0 : ℕ, ∀ N, N0 ≤ N → ∃ r r' o1 o2 F1 F2,
        propagate polyfit spline { Obj.default with disableSS := true } (heldPulse n (cNmps / wl) T fun j => f (time T n j))
          ⟨Fiber.genFib L wl ⟨1, fun _ => β₂⟩ γ gain "ps^n/m" label Fiber.Fib.new, Fiber.genSpecs gain⟩ N false = some (.ok (r, o1, F1)) ∧
        propagate polyfit spline { Obj.default with disableSS := true }
          (heldPulse n (cNmps / wl) T fun j => detuned (2 * Real.pi * m / T) f (time T n j))
          ⟨Fiber.genFib L wl ⟨1, fun _ => β₂⟩ γ gain "ps^n/m" label Fiber.Fib.new, Fiber.genSpecs gain⟩ N false = some (.ok (r', o2, F2)) ∧
        ∀ i < N, ∃ v w : Fin n → ℂ, r.AT[i]? = some ⟨n, v⟩ ∧ r'.AT[i]? = some ⟨n, w⟩ ∧
          1 / (n : ℝ) * ∑ j, ‖v j - u ((i + 1) * (L / N)) (time T n j)‖ ^ 2 ≤ (C / n) ^ 2 ∧
          1 / (n : ℝ) * ∑ j, ‖w j - boost β₂ (2 * Real.pi * m / T) ((i + 1) * (L / N)) (time T n j) *
            u ((i + 1) * (L / N)) (time T n j + β₂ * (2 * Real.pi * m / T) * ((i + 1) * (L / N)))‖ ^ 2 ≤ (C / n) ^ 2 := by
  have hcf : cNmps / wl ≠ 0 := div_ne_zero (by norm_num [cNmps, cMks]) hwl
  obtain ⟨u, hu, hu0, C1, n1, H⟩ := C167_fiber polyfit spline hT hf hper hf0 (fun _ : Fin 1 => β₂) γ gain hcf hL hwl label
  obtain ⟨u', hu', hu0', C2, n2, H'⟩ := C167_fiber polyfit spline hT (detuned_smooth hf (2 * Real.pi * m / T)) (detuned_periodic hT hper m) (detuned_zero hf0 _)
    (fun _ : Fin 1 => β₂) γ gain hcf hL hwl label
  rw [fiberPoly_centre] at hu hu'
  have hb := C184_equation hT hu m
  have e : fraction Obj.default = 0.245 := by simp [fraction, Obj.default]
  have same : ∀ z ∈ Icc 0 L, ∀ t, u' z t = boost β₂ (2 * Real.pi * m / T) z t * u z (t + β₂ * (2 * Real.pi * m / T) * z) := fun z hz t =>
    C133_unique (o := Obj.default) (by norm_num [Obj.default]) (by norm_num [Obj.default]) (by rw [e]; exact hu') (by rw [e]; exact hb) hT
      (fun t => by rw [hu0', boost_zero, hu0]) hz t
  have sqmono : ∀ {a b : ℝ} (n : ℕ), |a| ≤ b → (a / n) ^ 2 ≤ (b / n) ^ 2 := fun {a b} n h => by
    rw [div_pow, div_pow, ← sq_abs a]
    exact div_le_div_of_nonneg_right (pow_le_pow_left₀ (abs_nonneg _) h 2) (by positivity)
  refine ⟨u, hu0, hu.periodic, max |C1| |C2|, max n1 n2, fun n hn he => ?_⟩
  obtain ⟨N1, H⟩ := H n ((le_max_left _ _).trans hn) he
  obtain ⟨N2, H'⟩ := H' n ((le_max_right _ _).trans hn) he
  refine ⟨max (max N1 N2) 1, fun N hN => ?_⟩
  obtain ⟨r, o1, F1, hr, -, H⟩ := H N ((le_max_left _ _).trans ((le_max_left _ _).trans hN))
  obtain ⟨r', o2, F2, hr', -, H'⟩ := H' N ((le_max_right _ _).trans ((le_max_left _ _).trans hN))
  refine ⟨r, r', o1, o2, F1, F2, hr, hr', fun i hi => ?_⟩
  obtain ⟨v, hv, H⟩ := H i hi
  obtain ⟨w, hw, H'⟩ := H' i hi
  have hNr : (0 : ℝ) < N := by exact_mod_cast (by omega : 0 < N)
  have hz : ((i : ℝ) + 1) * (L / N) ∈ Icc 0 L := by
    refine ⟨by positivity, ?_⟩
    have h1 : ((i : ℝ) + 1) ≤ N := by exact_mod_cast hi
    calc ((i : ℝ) + 1) * (L / N) ≤ N * (L / N) := mul_le_mul_of_nonneg_right h1 (by positivity)
      _ = L := by field_simp
  refine ⟨v, w, hv, hw, H.trans (sqmono n (le_max_left _ _)), ?_⟩
  simp only [← same _ hz]
  exact H'.trans (sqmono n (le_max_right _ _))

/-- C184: the assumptions are met, and the delay is not zero: a modulated background in an anomalous fibre, detuned by three grid lines; the stored
field at the end is moved by half of the window. -/
theorem C184_nonvacuous : ContDiff ℝ (⊤ : ℕ∞) (fun t : ℝ => (2 + Complex.cos t : ℂ)) ∧ Function.Periodic (fun t : ℝ => (2 + Complex.cos t : ℂ)) (2 * Real.pi) ∧
    (2 + Complex.cos ((0 : ℝ) : ℂ) : ℂ) ≠ 0 ∧
    ∀ n : ℕ, 0 < n → n % 2 = 0 → ∀ j l : Fin n, (l : ℕ) = (j : ℕ) + n / 2 →
      ∃ k : ℤ, time (2 * Real.pi) n l = time (2 * Real.pi) n j + (-1) * (2 * Real.pi * (3 : ℤ) / (2 * Real.pi)) * (Real.pi / 3) + k * (2 * Real.pi) := by
  refine ⟨?_, fun t => ?_, by norm_num, fun n hn he j l hl => ⟨1, ?_⟩⟩
  · have : ContDiff ℝ (⊤ : ℕ∞) fun t : ℝ => ((Real.cos t : ℝ) : ℂ) := Complex.ofRealCLM.contDiff.comp Real.contDiff_cos
    simpa using contDiff_const.add this
  · push_cast
    rw [Complex.cos_add_two_pi]
  · have hn' : (n : ℝ) ≠ 0 := by exact_mod_cast hn.ne'
    have hl' : ((l : ℕ) : ℝ) = (j : ℕ) + (n : ℝ) / 2 := by
      rw [hl]
      push_cast
      rw [Nat.cast_div (by omega) (by norm_num)]
      norm_num
    unfold time
    rw [hl']
    have := Real.pi_pos.ne'
    push_cast
    field_simp
    ring

end PyNLO.Galilei
