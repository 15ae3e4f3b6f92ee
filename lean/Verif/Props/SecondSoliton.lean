import Verif.Props.Line
import Verif.Lemmas.SecondSoliton

/-!
# The second-order soliton
-/

namespace PyNLO

open Complex Set Polynomial Ssfm Pulse OdeGlobal Nlse Alias

theorem secondSoliton_line {β₂ γ T0 L : ℝ} (hβ : β₂ < 0) (hγ : 0 < γ) (hT0 : 0 < T0) :
    LineSolution (C (β₂ / 2) * X ^ 2) 0 γ (1 / T0) L (secondSoliton β₂ γ T0) := line_scale hβ hγ hT0 (soliton2_line _)

theorem secondSoliton_start {β₂ γ T0 : ℝ} (t : ℝ) :
    secondSoliton β₂ γ T0 0 t = ((Real.sqrt (4 * solitonPower β₂ γ T0) / Real.cosh (t / T0) : ℝ) : ℂ) := by
  unfold secondSoliton
  rw [zero_mul, soliton2_start, Real.sqrt_mul (by norm_num), show Real.sqrt 4 = 2 by rw [show (4 : ℝ) = 2 ^ 2 by norm_num]; exact Real.sqrt_sq (by norm_num)]
  push_cast
  ring

/-- C151, a concrete case: the second-order soliton of `β₂ = -0.02 ps²/m`, `γ = 1/(W·m)`, `T0 = 0.1 ps` is a localised solution that is not zero -/
theorem C151_nonvacuous : LineSolution (C ((-0.02 : ℝ) / 2) * X ^ 2) 0 1 (1 / 0.1) 10 (secondSoliton (-0.02) 1 0.1) ∧ secondSoliton (-0.02) 1 0.1 0 0 ≠ 0 ∧
    ∀ T, secondSoliton (-0.02) 1 0.1 0 (-(T / 2)) = secondSoliton (-0.02) 1 0.1 0 (T / 2) := by
  have hP : 0 < solitonPower (-0.02) 1 0.1 := by
    unfold solitonPower
    rw [abs_of_neg (by norm_num)]
    norm_num
  refine ⟨secondSoliton_line (by norm_num) (by norm_num) (by norm_num), ?_, fun T => ?_⟩
  · rw [secondSoliton_start, zero_div, Real.cosh_zero, div_one]
    exact_mod_cast (Real.sqrt_pos.2 (by linarith : 0 < 4 * solitonPower (-0.02) 1 0.1)).ne'
  · rw [secondSoliton_start, secondSoliton_start, neg_div, Real.cosh_neg]

/-- C152: `SechPulse` with four times the peak power of the fundamental soliton, sent through a generated fibre with anomalous dispersion by `propagate`, comes
out as the second-order soliton at every stored position.  The error falls exponentially with the time window and faster than any power of the number
of points, once the number of steps is large enough. -/
theorem C152_second_order {β₂ γ T0 L : ℝ} (hβ : β₂ < 0) (hγ : 0 < γ) (hT0 : 0 < T0) (hL : 0 < L) : ∃ K T1 : ℝ, ∀ T, T1 ≤ T → ∀ s : ℕ,
    ∃ (C : ℝ) (n0 : ℕ), ∀ n : ℕ, n0 ≤ n → n % 2 = 0 → ∀ (polyfit : Fiber.PolyFit) (spline : Fiber.Spline) (wl frep : ℝ) (label : String), 1 < wl →
      ∃ p : Pulse, sechPulse (4 * solitonPower β₂ γ T0) T0 wl T frep n 0 0 0 0 false = .ok p ∧ p.T_ps = .ok ⟨n, time T n⟩ ∧
      p.AT = .ok ⟨n, fun j => secondSoliton β₂ γ T0 0 (time T n j)⟩ ∧ ∃ N0 : ℕ, ∀ N, N0 ≤ N → ∃ r o' F',
        propagate polyfit spline { Obj.default with disableSS := true, disableRaman := true } p
          ⟨Fiber.genFib L wl ⟨1, fun _ => β₂⟩ γ 0 "ps^n/m" label Fiber.Fib.new, Fiber.genSpecs 0⟩ N false = some (.ok (r, o', F')) ∧ r.AT.length = N ∧
        ∀ i < N, ∃ w : Fin n → ℂ, r.AT[i]? = some ⟨n, w⟩ ∧ ∀ j, ‖w j - secondSoliton β₂ γ T0 ((i + 1) * (L / N)) (time T n j)‖ ≤
          K * Real.sqrt (T + 1) * Real.exp (-T / (2 * T0)) + C / n ^ s := by
  have hP : 0 < solitonPower β₂ γ T0 := by
    unfold solitonPower
    have : 0 < |β₂| := abs_pos.2 hβ.ne
    positivity
  obtain ⟨K, T1, H⟩ := C151_shaped (β := fun _ : Fin 1 => β₂) (secondSoliton_line (L := L) hβ hγ hT0) (by positivity) hL (fiberPoly_second β₂) secondSoliton_start
    (fun t => by rw [neg_div, Real.cosh_neg]) (by rw [zero_div, Real.cosh_zero, div_one]; exact (Real.sqrt_pos.2 (by linarith)).ne')
  refine ⟨K, T1, fun T hT s => ?_⟩
  obtain ⟨C, n0, hC⟩ := H T hT s
  refine ⟨C, n0, fun n hn he polyfit spline wl frep label hwl => ?_⟩
  obtain ⟨p, hp, hT', hA, N0, hN⟩ := hC n hn he polyfit spline wl frep T0 label hwl
  refine ⟨p, by unfold sechPulse; rw [if_pos rfl]; exact hp, hT', hA, N0, fun N hNN => ?_⟩
  have e : -(1 / T0 * T / 2) = -T / (2 * T0) := by
    field_simp
  rw [e] at hN
  exact hN N hNN

theorem soliton2_period (ξ τ : ℝ) : soliton2 (ξ + Real.pi / 2) τ = exp (I * (Real.pi / 4 : ℝ)) * soliton2 ξ τ := by
  unfold soliton2
  have h1 : exp (4 * I * ((ξ + Real.pi / 2 : ℝ) : ℂ)) = exp (4 * I * ξ) := by
    rw [show 4 * I * ((ξ + Real.pi / 2 : ℝ) : ℂ) = 4 * I * ξ + 2 * Real.pi * I by push_cast; ring, exp_add, exp_two_pi_mul_I, mul_one]
  have h2 : exp (I * ((ξ + Real.pi / 2 : ℝ) : ℂ) / 2) = exp (I * (Real.pi / 4 : ℝ)) * exp (I * ξ / 2) := by
    rw [← exp_add]
    congr 1
    push_cast
    ring
  have h3 : Real.cos (4 * (ξ + Real.pi / 2)) = Real.cos (4 * ξ) := by
    rw [show 4 * (ξ + Real.pi / 2) = 4 * ξ + 2 * Real.pi by ring, Real.cos_add_two_pi]
  rw [h1, h2, h3]
  ring

/-- C152: the power has its first shape again after each soliton period; only a phase of 45 degrees is added. -/
theorem C152_period {β₂ γ T0 : ℝ} (hβ : β₂ ≠ 0) (hT0 : T0 ≠ 0) (z t : ℝ) :
    secondSoliton β₂ γ T0 (z + solitonPeriod β₂ T0) t = exp (I * (Real.pi / 4 : ℝ)) * secondSoliton β₂ γ T0 z t ∧
    ‖secondSoliton β₂ γ T0 (z + solitonPeriod β₂ T0) t‖ = ‖secondSoliton β₂ γ T0 z t‖ := by
  have e : (z + solitonPeriod β₂ T0) * (|β₂| / T0 ^ 2) = z * (|β₂| / T0 ^ 2) + Real.pi / 2 := by
    have : |β₂| ≠ 0 := abs_ne_zero.2 hβ
    unfold solitonPeriod
    field_simp
  have h : secondSoliton β₂ γ T0 (z + solitonPeriod β₂ T0) t = exp (I * (Real.pi / 4 : ℝ)) * secondSoliton β₂ γ T0 z t := by
    unfold secondSoliton
    rw [e, soliton2_period]
    ring
  refine ⟨h, ?_⟩
  rw [h, norm_mul, mul_comm I, norm_exp_ofReal_mul_I, one_mul]

/-- C152: half a period after the start the pulse is compressed: its peak power is four times the one it was sent in with. -/
theorem C152_compressed {β₂ γ T0 : ℝ} (hβ : β₂ ≠ 0) (hT0 : T0 ≠ 0) (hP : 0 ≤ solitonPower β₂ γ T0) :
    ‖secondSoliton β₂ γ T0 0 0‖ ^ 2 = 4 * solitonPower β₂ γ T0 ∧
    ‖secondSoliton β₂ γ T0 (solitonPeriod β₂ T0 / 2) 0‖ ^ 2 = 4 * (4 * solitonPower β₂ γ T0) := by
  constructor
  · rw [secondSoliton_start, zero_div, Real.cosh_zero, div_one, norm_real, Real.norm_eq_abs, sq_abs, Real.sq_sqrt (by linarith)]
  · have e : solitonPeriod β₂ T0 / 2 * (|β₂| / T0 ^ 2) = Real.pi / 4 := by
      have : |β₂| ≠ 0 := abs_ne_zero.2 hβ
      unfold solitonPeriod
      field_simp
      norm_num
    unfold secondSoliton
    rw [e, zero_div]
    have h1 : exp (4 * I * ((Real.pi / 4 : ℝ) : ℂ)) = -1 := by
      rw [show 4 * I * ((Real.pi / 4 : ℝ) : ℂ) = Real.pi * I by push_cast; ring, exp_pi_mul_I]
    have h2 : Real.cos (4 * (Real.pi / 4)) = -1 := by rw [show 4 * (Real.pi / 4) = Real.pi by ring, Real.cos_pi]
    have h3 : soliton2 (Real.pi / 4) 0 = -4 * exp (I * (Real.pi / 8 : ℝ)) := by
      unfold soliton2
      rw [h1, h2]
      simp only [mul_zero, Real.cosh_zero]
      rw [show I * ((Real.pi / 4 : ℝ) : ℂ) / 2 = I * (Real.pi / 8 : ℝ) by push_cast; ring]
      push_cast
      ring
    rw [h3, norm_mul, norm_mul, mul_comm I, norm_exp_ofReal_mul_I, mul_one, norm_real, Real.norm_eq_abs, mul_pow, sq_abs, Real.sq_sqrt hP]
    norm_num
    ring

/-- C152: the stored output after one soliton period has the power of the input, up to the error of the simulation. -/
theorem C152_recovers {β₂ γ T0 η : ℝ} (hβ : β₂ < 0) (hγ : 0 < γ) (hT0 : 0 < T0) (hη : 0 < η) : ∃ T1 : ℝ, ∀ T, T1 ≤ T →
    ∃ n0 : ℕ, ∀ n : ℕ, n0 ≤ n → n % 2 = 0 → ∀ (polyfit : Fiber.PolyFit) (spline : Fiber.Spline) (wl frep : ℝ) (label : String), 1 < wl →
      ∃ (p : Pulse) (a : Fin n → ℂ), sechPulse (4 * solitonPower β₂ γ T0) T0 wl T frep n 0 0 0 0 false = .ok p ∧ p.AT = .ok ⟨n, a⟩ ∧ ∃ N0 : ℕ, ∀ N, N0 ≤ N → 0 < N → ∃ r o' F',
        propagate polyfit spline { Obj.default with disableSS := true, disableRaman := true } p
          ⟨Fiber.genFib (solitonPeriod β₂ T0) wl ⟨1, fun _ => β₂⟩ γ 0 "ps^n/m" label Fiber.Fib.new, Fiber.genSpecs 0⟩ N false = some (.ok (r, o', F')) ∧
        ∃ w : Fin n → ℂ, r.AT[N - 1]? = some ⟨n, w⟩ ∧ ∀ j, |‖w j‖ - ‖a j‖| ≤ η := by
  have hLp : 0 < solitonPeriod β₂ T0 := by
    have : 0 < |β₂| := abs_pos.2 hβ.ne
    unfold solitonPeriod
    positivity
  obtain ⟨K, T1, H⟩ := C152_second_order hβ hγ hT0 hLp
  obtain ⟨T2, hT2, hw⟩ := soliton_window (c := K ^ 2 / η ^ 2) (by positivity) hT0
  refine ⟨max T1 T2, fun T hT => ?_⟩
  have hTp : 0 < T := hT2.trans_le ((le_max_right _ _).trans hT)
  have h1 : K * Real.sqrt (T + 1) * Real.exp (-T / (2 * T0)) ≤ η / 2 := by
    have h2 := (hw T ((le_max_right _ _).trans hT)).1
    refine abs_le_of_sq_le_sq' ?_ (by positivity) |>.2
    rw [mul_pow, mul_pow, Real.sq_sqrt (by linarith)]
    have e : (T + 1) * (K ^ 2 / η ^ 2 * Real.exp (-T / (2 * T0)) ^ 2) = K ^ 2 * (T + 1) * Real.exp (-T / (2 * T0)) ^ 2 / η ^ 2 := by ring
    rw [e, div_le_iff₀ (by positivity)] at h2
    linarith
  obtain ⟨C, n0, hC⟩ := H T ((le_max_left _ _).trans hT) 1
  obtain ⟨n1, hn1⟩ := exists_nat_gt (C / (η / 2))
  refine ⟨max (max n0 n1) 1, fun n hn he polyfit spline wl frep label hwl => ?_⟩
  obtain ⟨p, hp, -, hA, N0, hN⟩ := hC n ((le_max_left _ _).trans ((le_max_left _ _).trans hn)) he polyfit spline wl frep label hwl
  refine ⟨p, _, hp, hA, N0, fun N hN0 hNp => ?_⟩
  obtain ⟨r, o', F', hr, -, hcol⟩ := hN N hN0
  obtain ⟨w, hwr, hb⟩ := hcol (N - 1) (by omega)
  refine ⟨r, o', F', hr, w, hwr, fun j => ?_⟩
  have hz : (((N - 1 : ℕ) : ℝ) + 1) * (solitonPeriod β₂ T0 / N) = 0 + solitonPeriod β₂ T0 := by
    have hNr : (N : ℝ) ≠ 0 := by exact_mod_cast hNp.ne'
    have : ((N - 1 : ℕ) : ℝ) + 1 = N := by
      have : N - 1 + 1 = N := by omega
      exact_mod_cast this
    rw [this]
    field_simp
    ring
  have h2 := hb j
  rw [hz] at h2
  have h3 := abs_norm_sub_norm_le (w j) (secondSoliton β₂ γ T0 (0 + solitonPeriod β₂ T0) (time T n j))
  rw [(C152_period hβ.ne hT0.ne' 0 (time T n j)).2] at h3
  refine h3.trans (h2.trans ?_)
  have hnn : n1 ≤ n := (le_max_right _ _).trans ((le_max_left _ _).trans hn)
  have hnr : (n1 : ℝ) ≤ n := by exact_mod_cast hnn
  have hn0 : 1 ≤ n := (le_max_right _ _).trans hn
  have hnp : (0 : ℝ) < n := by exact_mod_cast hn0
  have h3 : C / (n : ℝ) ^ 1 ≤ η / 2 := by
    rw [pow_one, div_le_iff₀ hnp]
    rw [div_lt_iff₀ (by positivity)] at hn1
    nlinarith
  linarith

/-- C152, a concrete case: `β₂ = -0.02 ps²/m`, `γ = 1/(W·m)`, `T0 = 0.1 ps`: 8 W peak power and a period of `π/4 m` -/
example : ((-0.02 : ℝ) < 0) ∧ ((0 : ℝ) < 1) ∧ ((0 : ℝ) < 0.1) ∧ 4 * solitonPower (-0.02) 1 0.1 = 8 ∧ solitonPeriod (-0.02) 0.1 = Real.pi / 4 := by
  refine ⟨by norm_num, by norm_num, by norm_num, ?_, ?_⟩
  · unfold solitonPower
    rw [abs_of_neg (by norm_num)]
    norm_num
  · unfold solitonPeriod
    rw [abs_of_neg (by norm_num)]
    ring

end PyNLO
