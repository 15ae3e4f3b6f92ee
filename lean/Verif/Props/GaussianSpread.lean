import Verif.Props.Line
import Verif.Lemmas.GaussianLine

/-!
# Dispersion stretches a Gaussian pulse
-/

namespace PyNLO

open Complex Set Polynomial Ssfm Pulse OdeGlobal Nlse Alias

/-- C153: `GaussianPulse` sent through a generated fibre without nonlinearity by `propagate` comes out as the textbook solution at every stored position.  `T0` is the
full width at half maximum of the constructor.  The error falls faster than `exp(-μT)` with the time window, for every `μ`, and faster than any power of the number
of points, once the number of steps is large enough. -/
theorem C153_gaussian {P β₂ g T0 L μ : ℝ} (hP : 0 < P) (hT0 : 0 < T0) (hL : 0 < L) (hμ : 0 < μ) : ∃ K T1 : ℝ, ∀ T, T1 ≤ T → ∀ s : ℕ,
    ∃ (C : ℝ) (n0 : ℕ), ∀ n : ℕ, n0 ≤ n → n % 2 = 0 → ∀ (polyfit : Fiber.PolyFit) (spline : Fiber.Spline) (wl frep : ℝ) (label : String), 1 < wl →
      ∃ p : Pulse, gaussianPulse P T0 wl T frep n 0 0 0 0 false = .ok p ∧ p.T_ps = .ok ⟨n, time T n⟩ ∧
      p.AT = .ok ⟨n, fun j => gaussian P β₂ g (1.385 / T0 ^ 2) 0 (time T n j)⟩ ∧ ∃ N0 : ℕ, ∀ N, N0 ≤ N → ∃ r o' F',
        propagate polyfit spline { Obj.default with disableSS := true, disableRaman := true } p
          ⟨Fiber.genFib L wl ⟨1, fun _ => β₂⟩ 0 g "ps^n/m" label Fiber.Fib.new, Fiber.genSpecs g⟩ N false = some (.ok (r, o', F')) ∧ r.AT.length = N ∧
        ∀ i < N, ∃ w : Fin n → ℂ, r.AT[i]? = some ⟨n, w⟩ ∧ ∀ j, ‖w j - gaussian P β₂ g (1.385 / T0 ^ 2) ((i + 1) * (L / N)) (time T n j)‖ ≤
          K * Real.sqrt (T + 1) * Real.exp (-(μ * T / 2)) + C / n ^ s := by
  have ha : (0 : ℝ) < 1.385 / T0 ^ 2 := by positivity
  obtain ⟨K, T1, H⟩ := C151_shaped (β := fun _ : Fin 1 => β₂) (shape := fun t => Real.sqrt P * Real.exp (-2.77 * 0.5 * t ^ 2 / T0 ^ 2))
    (gaussian_line (P := P) (β₂ := β₂) (g := g) (L := L) ha μ) hμ hL (fiberPoly_second β₂) (fun t => by
      rw [gaussian_start]
      congr 3
      ring)
    (fun t => by rw [neg_sq]) (mul_ne_zero (Real.sqrt_pos.2 hP).ne' (Real.exp_pos _).ne')
  refine ⟨K, T1, fun T hT s => ?_⟩
  obtain ⟨C, n0, hC⟩ := H T hT s
  refine ⟨C, n0, fun n hn he polyfit spline wl frep label hwl => ?_⟩
  obtain ⟨p, hp, hT', hA, N0, hN⟩ := hC n hn he polyfit spline wl frep T0 label hwl
  exact ⟨p, by unfold gaussianPulse; rw [if_pos rfl]; exact hp, hT', hA, N0, hN⟩

/-- C153: the power stays Gaussian: it is stretched by the factor `√(1 + (β₂·z·2.77/T0²)²)`, and the peak falls by the same factor and follows the gain. -/
theorem C153_power {P β₂ g T0 : ℝ} (hP : 0 ≤ P) (z t : ℝ) : ‖gaussian P β₂ g (1.385 / T0 ^ 2) z t‖ ^ 2 =
    P * Real.exp (g * z) / Real.sqrt (1 + (β₂ * z * 2.77 / T0 ^ 2) ^ 2) *
      Real.exp (-(2.77 * (t / (T0 * Real.sqrt (1 + (β₂ * z * 2.77 / T0 ^ 2) ^ 2))) ^ 2)) := by
  have e : 2 * (1.385 / T0 ^ 2) * β₂ * z = β₂ * z * 2.77 / T0 ^ 2 := by ring
  rw [gaussian_power hP, e]
  have h0 : 0 ≤ 1 + (β₂ * z * 2.77 / T0 ^ 2) ^ 2 := by positivity
  generalize 1 + (β₂ * z * 2.77 / T0 ^ 2) ^ 2 = q at *
  rw [div_pow, mul_pow, Real.sq_sqrt h0]
  congr 2
  rw [← div_div]
  ring

/-- C153: the sign of the dispersion does not show in the power. -/
theorem C153_sign {P β₂ g T0 : ℝ} (hP : 0 ≤ P) (z t : ℝ) : ‖gaussian P (-β₂) g (1.385 / T0 ^ 2) z t‖ ^ 2 = ‖gaussian P β₂ g (1.385 / T0 ^ 2) z t‖ ^ 2 := by
  rw [C153_power hP, C153_power hP, show (-β₂ * z * 2.77 / T0 ^ 2) ^ 2 = (β₂ * z * 2.77 / T0 ^ 2) ^ 2 by ring]

/-- C153: a pulse in a fibre of the length `T0²/(2.77·|β₂|)` becomes `√2` times as long. -/
theorem C153_length {P β₂ g T0 : ℝ} (hβ : β₂ ≠ 0) (hT0 : 0 < T0) (hP : 0 ≤ P) (t : ℝ) :
    ‖gaussian P β₂ g (1.385 / T0 ^ 2) (T0 ^ 2 / (2.77 * |β₂|)) t‖ ^ 2 =
      P * Real.exp (g * (T0 ^ 2 / (2.77 * |β₂|))) / Real.sqrt 2 * Real.exp (-(2.77 * (t / (T0 * Real.sqrt 2)) ^ 2)) := by
  rw [C153_power hP]
  have hb : |β₂| ≠ 0 := abs_ne_zero.2 hβ
  have e : (β₂ * (T0 ^ 2 / (2.77 * |β₂|)) * 2.77 / T0 ^ 2) ^ 2 = 1 := by
    have e1 : β₂ * (T0 ^ 2 / (2.77 * |β₂|)) * 2.77 / T0 ^ 2 = β₂ / |β₂| := by field_simp
    rw [e1, div_pow, sq_abs]
    exact div_self (pow_ne_zero 2 hβ)
  rw [e]
  norm_num

/-- C153, a concrete case: 100 fs pulses in 10 m of fibre with `β₂ = 0.02 ps²/m` -/
example : ((0 : ℝ) < 100) ∧ ((0 : ℝ) < 0.1) ∧ ((0 : ℝ) < 10) ∧ ((0.02 : ℝ) ≠ 0) := by norm_num

end PyNLO
