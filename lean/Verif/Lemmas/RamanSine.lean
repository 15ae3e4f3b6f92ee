import Verif.Lemmas.Drag
import Mathlib.Analysis.SpecialFunctions.Exp
import Mathlib.Analysis.SpecialFunctions.Trigonometric.Deriv
import Mathlib.Analysis.Complex.ExponentialBounds

/-!
# Sine transforms of the parts of the Raman response, cut at half the window

At the frequencies of the window the cut is at a zero of the sine.
-/

namespace PyNLO.Nlse

open Set MeasureTheory

/-- the damped sine -/
theorem sine_transform {a b w X σ : ℝ} (ha : 0 < a) (hs : Real.sin (w * X) = 0) (hc : Real.cos (w * X) = σ) :
    ∫ s in (0 : ℝ)..X, Real.exp (-(a * s)) * Real.sin (b * s) * Real.sin (w * s) =
      w / ((a ^ 2 + (b - w) ^ 2) * (a ^ 2 + (b + w) ^ 2)) *
        (2 * a * b * (1 - σ * Real.exp (-(a * X)) * Real.cos (b * X)) + σ * Real.exp (-(a * X)) * Real.sin (b * X) * (b ^ 2 - w ^ 2 - a ^ 2)) := by
  have hP : a ^ 2 + (b - w) ^ 2 ≠ 0 := by positivity
  have hQ : a ^ 2 + (b + w) ^ 2 ≠ 0 := by positivity
  have hE : ∀ s, HasDerivAt (fun s => Real.exp (-(a * s))) (Real.exp (-(a * s)) * -a) s := fun s => by
    have := ((hasDerivAt_id s).const_mul a).neg.exp
    simpa using this
  have dsin : ∀ p s : ℝ, HasDerivAt (fun s => Real.sin (p * s)) (Real.cos (p * s) * p) s := fun p s => by
    have := ((hasDerivAt_id s).const_mul p).sin
    simpa using this
  have dcos : ∀ p s : ℝ, HasDerivAt (fun s => Real.cos (p * s)) (-Real.sin (p * s) * p) s := fun p s => by
    have := ((hasDerivAt_id s).const_mul p).cos
    simpa using this
  have hG : ∀ p : ℝ, a ^ 2 + p ^ 2 ≠ 0 → ∀ s, HasDerivAt (fun s => Real.exp (-(a * s)) * (p * Real.sin (p * s) - a * Real.cos (p * s)) / (a ^ 2 + p ^ 2))
      (Real.exp (-(a * s)) * Real.cos (p * s)) s := fun p hp s => by
    have := ((hE s).mul (((dsin p s).const_mul p).sub ((dcos p s).const_mul a))).div_const (a ^ 2 + p ^ 2)
    refine this.congr_deriv ?_
    simp only [Pi.sub_apply, Pi.add_apply]
    field_simp
    ring
  have hF : ∀ s, HasDerivAt (fun s => 1 / 2 * (Real.exp (-(a * s)) * ((b - w) * Real.sin ((b - w) * s) - a * Real.cos ((b - w) * s)) / (a ^ 2 + (b - w) ^ 2) -
      Real.exp (-(a * s)) * ((b + w) * Real.sin ((b + w) * s) - a * Real.cos ((b + w) * s)) / (a ^ 2 + (b + w) ^ 2)))
      (Real.exp (-(a * s)) * Real.sin (b * s) * Real.sin (w * s)) s := fun s => by
    refine (((hG (b - w) hP s).sub (hG (b + w) hQ s)).const_mul (1 / 2)).congr_deriv ?_
    rw [show (b - w) * s = b * s - w * s by ring, show (b + w) * s = b * s + w * s by ring, Real.cos_sub, Real.cos_add]
    ring
  rw [intervalIntegral.integral_eq_sub_of_hasDerivAt (fun s _ => hF s) (Continuous.intervalIntegrable (by fun_prop) _ _)]
  simp only [show (b - w) * X = b * X - w * X by ring, show (b + w) * X = b * X + w * X by ring, Real.cos_sub, Real.cos_add, Real.sin_sub, Real.sin_add, hs, hc,
    mul_zero, Real.sin_zero, Real.cos_zero, neg_zero, Real.exp_zero]
  generalize Real.exp (-(a * X)) = E
  generalize Real.sin (b * X) = sb
  generalize Real.cos (b * X) = cb
  field_simp
  ring

/-- the boson peak -/
theorem boson_transform {c w X σ : ℝ} (hc0 : 0 < c) (hs : Real.sin (w * X) = 0) (hc : Real.cos (w * X) = σ) :
    ∫ s in (0 : ℝ)..X, (2 * c * Real.exp (-(c * s)) + -c ^ 2 * (s * Real.exp (-(c * s)))) * Real.sin (w * s) =
      c * w / (c ^ 2 + w ^ 2) * ((1 - σ * Real.exp (-(c * X))) * (2 * w ^ 2 / (c ^ 2 + w ^ 2)) + σ * (c * X) * Real.exp (-(c * X))) := by
  have hD : c ^ 2 + w ^ 2 ≠ 0 := by positivity
  have hE : ∀ s, HasDerivAt (fun s => Real.exp (-(c * s))) (Real.exp (-(c * s)) * -c) s := fun s => by
    have := ((hasDerivAt_id s).const_mul c).neg.exp
    simpa using this
  have dsin : ∀ s : ℝ, HasDerivAt (fun s => Real.sin (w * s)) (Real.cos (w * s) * w) s := fun s => by
    have := ((hasDerivAt_id s).const_mul w).sin
    simpa using this
  have dcos : ∀ s : ℝ, HasDerivAt (fun s => Real.cos (w * s)) (-Real.sin (w * s) * w) s := fun s => by
    have := ((hasDerivAt_id s).const_mul w).cos
    simpa using this
  -- `∫ e^{-cs} sin ws`, then by parts
  have hV : ∀ s, HasDerivAt (fun s => Real.exp (-(c * s)) * (-c * Real.sin (w * s) - w * Real.cos (w * s)) / (c ^ 2 + w ^ 2)) (Real.exp (-(c * s)) * Real.sin (w * s)) s := fun s => by
    have := ((hE s).mul (((dsin s).const_mul (-c)).sub ((dcos s).const_mul w))).div_const (c ^ 2 + w ^ 2)
    refine this.congr_deriv ?_
    simp only [Pi.sub_apply, Pi.add_apply]
    field_simp
    ring
  have hU : ∀ s, HasDerivAt (fun s => Real.exp (-(c * s)) * ((c ^ 2 - w ^ 2) * Real.sin (w * s) + 2 * c * w * Real.cos (w * s)) / (c ^ 2 + w ^ 2) ^ 2)
      (Real.exp (-(c * s)) * (-c * Real.sin (w * s) - w * Real.cos (w * s)) / (c ^ 2 + w ^ 2)) s := fun s => by
    have := ((hE s).mul (((dsin s).const_mul (c ^ 2 - w ^ 2)).add ((dcos s).const_mul (2 * c * w)))).div_const ((c ^ 2 + w ^ 2) ^ 2)
    refine this.congr_deriv ?_
    simp only [Pi.sub_apply, Pi.add_apply]
    field_simp
    ring
  have hF : ∀ s, HasDerivAt (fun s => 2 * c * (Real.exp (-(c * s)) * (-c * Real.sin (w * s) - w * Real.cos (w * s)) / (c ^ 2 + w ^ 2)) +
      -c ^ 2 * (s * (Real.exp (-(c * s)) * (-c * Real.sin (w * s) - w * Real.cos (w * s)) / (c ^ 2 + w ^ 2)) -
        Real.exp (-(c * s)) * ((c ^ 2 - w ^ 2) * Real.sin (w * s) + 2 * c * w * Real.cos (w * s)) / (c ^ 2 + w ^ 2) ^ 2))
      ((2 * c * Real.exp (-(c * s)) + -c ^ 2 * (s * Real.exp (-(c * s)))) * Real.sin (w * s)) s := fun s => by
    have := ((hV s).const_mul (2 * c)).add ((((hasDerivAt_id s).mul (hV s)).sub (hU s)).const_mul (-c ^ 2))
    refine this.congr_deriv ?_
    simp only [id]
    ring
  rw [intervalIntegral.integral_eq_sub_of_hasDerivAt (fun s _ => hF s) (Continuous.intervalIntegrable (by fun_prop) _ _)]
  simp only [hs, hc, mul_zero, Real.sin_zero, Real.cos_zero, neg_zero, Real.exp_zero]
  generalize Real.exp (-(c * X)) = E
  field_simp
  ring

/-- at the frequencies of the window the boson peak always takes energy out of the carrier -/
theorem boson_lower {c w X : ℝ} (hc0 : 0 < c) (hX : 0 < X) (hw : Real.pi ≤ w * X) (hs : Real.sin (w * X) = 0) (hE : Real.exp (-(c * X)) ≤ 1 / 4) :
    c * w ^ 3 / (2 * (c ^ 2 + w ^ 2) ^ 2) ≤ ∫ s in (0 : ℝ)..X, (2 * c * Real.exp (-(c * s)) + -c ^ 2 * (s * Real.exp (-(c * s)))) * Real.sin (w * s) := by
  rw [boson_transform hc0 hs rfl]
  set σ := Real.cos (w * X) with hσ
  have hσ1 : |σ| ≤ 1 := Real.abs_cos_le_one _
  have hw0 : 0 < w := by
    have : 0 < w * X := lt_of_lt_of_le Real.pi_pos hw
    exact pos_of_mul_pos_left this hX.le
  set E := Real.exp (-(c * X)) with hEd
  have hE0 : 0 < E := Real.exp_pos _
  have hy : 0 < c * X := by positivity
  set r := w ^ 2 / (c ^ 2 + w ^ 2) with hr
  have hD : 0 < c ^ 2 + w ^ 2 := by positivity
  have hr0 : 0 < r := by positivity
  have hyE : c * X * E ≤ r := by
    have e1 : 1 + c * X + (c * X) ^ 2 / 2 + (c * X) ^ 3 / 6 ≤ Real.exp (c * X) := by
      have := Real.sum_le_exp_of_nonneg hy.le 4
      simp [Finset.sum_range_succ, Nat.factorial] at this
      linarith
    have e2 : E * Real.exp (c * X) = 1 := by rw [hEd, ← Real.exp_add]; simp
    rw [hr, le_div_iff₀ hD]
    have e3 : E * (1 + c * X + (c * X) ^ 2 / 2 + (c * X) ^ 3 / 6) ≤ 1 := by
      exact (mul_le_mul_of_nonneg_left e1 hE0.le).trans (le_of_eq e2)
    have h9 : 9 ≤ (w * X) ^ 2 := by nlinarith [Real.pi_gt_three]
    have hX2 : 0 < X ^ 2 := by positivity
    refine le_of_mul_le_mul_right ?_ hX2
    have q : c * X * E * ((c * X) ^ 2 + (w * X) ^ 2) ≤ (w * X) ^ 2 := by
      set y := c * X
      set v := (w * X) ^ 2
      have hyE0 : 0 < y * E := by positivity
      have k1 : E * (1 + y + y ^ 2 / 2 + y ^ 3 / 6) * v ≤ v := by
        have := mul_le_mul_of_nonneg_right e3 (by linarith : 0 ≤ v)
        linarith
      have k2 : E * y ^ 3 * 9 ≤ E * y ^ 3 * v := mul_le_mul_of_nonneg_left h9 (by positivity)
      have k3 : 0 ≤ E * y ^ 2 * v := by positivity
      have k4 : 0 ≤ E * v := by positivity
      have k5 : 0 ≤ E * y ^ 3 := by positivity
      nlinarith
    calc c * X * E * (c ^ 2 + w ^ 2) * X ^ 2 = c * X * E * ((c * X) ^ 2 + (w * X) ^ 2) := by ring
      _ ≤ (w * X) ^ 2 := q
      _ = w ^ 2 * X ^ 2 := by ring
  have hb := abs_le.1 hσ1
  have k1 : 3 / 4 ≤ 1 - σ * E := by nlinarith
  have k2 : -(c * X * E) ≤ σ * (c * X) * E := by nlinarith [mul_pos hy hE0]
  have k3 : r / 2 ≤ (1 - σ * E) * (2 * w ^ 2 / (c ^ 2 + w ^ 2)) + σ * (c * X) * E := by
    have e : 2 * w ^ 2 / (c ^ 2 + w ^ 2) = 2 * r := by rw [hr]; ring
    rw [e]
    nlinarith
  calc c * w ^ 3 / (2 * (c ^ 2 + w ^ 2) ^ 2) = c * w / (c ^ 2 + w ^ 2) * (r / 2) := by rw [hr]; field_simp
    _ ≤ _ := mul_le_mul_of_nonneg_left k3 (by positivity)

/-- what the damped sine contributes at least -/
theorem sine_lower {a b w X E : ℝ} (ha : 0 < a) (hb : 0 < b) (hw0 : 0 < w) (hs : Real.sin (w * X) = 0) (hE : Real.exp (-(a * X)) ≤ E) (hE1 : E ≤ 1 / 2) :
    w / ((a ^ 2 + (b - w) ^ 2) * (a ^ 2 + (b + w) ^ 2)) * (a * b - E * (a ^ 2 + b ^ 2 + w ^ 2)) ≤
      ∫ s in (0 : ℝ)..X, Real.exp (-(a * s)) * Real.sin (b * s) * Real.sin (w * s) := by
  rw [sine_transform ha hs rfl]
  refine mul_le_mul_of_nonneg_left ?_ (by positivity)
  have hE0 := Real.exp_pos (-(a * X))
  have e1 : |Real.cos (w * X) * Real.exp (-(a * X)) * Real.cos (b * X)| ≤ E := by
    rw [abs_mul, abs_mul, abs_of_pos hE0]
    calc _ ≤ 1 * Real.exp (-(a * X)) * 1 := by
          gcongr
          · exact Real.abs_cos_le_one _
          · exact Real.abs_cos_le_one _
      _ ≤ E := by simpa using hE
  have e2 : |Real.cos (w * X) * Real.exp (-(a * X)) * Real.sin (b * X)| ≤ E := by
    rw [abs_mul, abs_mul, abs_of_pos hE0]
    calc _ ≤ 1 * Real.exp (-(a * X)) * 1 := by
          gcongr
          · exact Real.abs_cos_le_one _
          · exact Real.abs_sin_le_one _
      _ ≤ E := by simpa using hE
  have e3 : |b ^ 2 - w ^ 2 - a ^ 2| ≤ a ^ 2 + b ^ 2 + w ^ 2 := abs_le.2 ⟨by nlinarith [sq_nonneg b], by nlinarith [sq_nonneg a, sq_nonneg w]⟩
  have e4 : |Real.cos (w * X) * Real.exp (-(a * X)) * Real.sin (b * X) * (b ^ 2 - w ^ 2 - a ^ 2)| ≤ E * (a ^ 2 + b ^ 2 + w ^ 2) := by
    rw [abs_mul]
    exact mul_le_mul e2 e3 (abs_nonneg _) ((abs_nonneg _).trans e2)
  have i1 := (abs_le.1 e1).2
  have i4 := (abs_le.1 e4).1
  have hab : 0 < a * b := by positivity
  nlinarith

theorem raman_balance {a b c w J1 J2 A : ℝ} (hab : 2550 ≤ a * b) (hR : a ^ 2 + b ^ 2 ≤ 7700) (hb0 : 0 < b) (hb : b ≤ 82) (hc : 10 ≤ c) (hc' : c ≤ 11) (hA0 : 0 ≤ A) (hA : A ≤ 9)
    (hw0 : 0 < w) (hB : c * w ^ 3 / (2 * (c ^ 2 + w ^ 2) ^ 2) ≤ J2)
    (hS : w / ((a ^ 2 + (b - w) ^ 2) * (a ^ 2 + (b + w) ^ 2)) * (a * b - 1 / 50 * (a ^ 2 + b ^ 2 + w ^ 2)) ≤ J1) : 0 < A * J1 + 0.21 * J2 := by
  obtain ⟨R, hRd⟩ : ∃ R, R = a ^ 2 + b ^ 2 + w ^ 2 := ⟨_, rfl⟩
  rw [← hRd] at hS
  have hc0 : 0 < c := by linarith
  have hJ2 : 0 < J2 := lt_of_lt_of_le (by positivity) hB
  by_cases hcase : 1 / 50 * R ≤ a * b
  · have : 0 ≤ J1 := le_trans (mul_nonneg (by positivity) (by linarith)) hS
    have h1 : 0 ≤ A * J1 := mul_nonneg hA0 this
    linarith
  · push Not at hcase
    have hw2 : 119000 ≤ w ^ 2 := by linarith
    have hw3 : 340 ≤ w := by nlinarith
    have hRw : w ^ 2 ≤ R := by rw [hRd]; nlinarith [sq_nonneg a, sq_nonneg b]
    have hR0 : 0 < R := by linarith
    have hPQ : 3 / 4 * R ^ 2 ≤ (a ^ 2 + (b - w) ^ 2) * (a ^ 2 + (b + w) ^ 2) := by
      have e : (a ^ 2 + (b - w) ^ 2) * (a ^ 2 + (b + w) ^ 2) = R ^ 2 - (2 * b * w) ^ 2 := by rw [hRd]; ring
      have h4 : 4 * b * w ≤ R := by
        refine le_trans ?_ hRw
        have : 4 * b ≤ w := by linarith
        nlinarith
      have h5 : 0 ≤ 2 * b * w := by positivity
      rw [e]
      nlinarith
    have hpq0 : 0 < (a ^ 2 + (b - w) ^ 2) * (a ^ 2 + (b + w) ^ 2) := lt_of_lt_of_le (by positivity) hPQ
    generalize (a ^ 2 + (b - w) ^ 2) * (a ^ 2 + (b + w) ^ 2) = Q at *
    have hJ1 : -(2 / 75 * (1 / w)) ≤ J1 := by
      refine le_trans ?_ hS
      rw [show w / Q * (a * b - 1 / 50 * R) = -((w * (1 / 50 * R - a * b)) / Q) by ring, mul_one_div]
      refine neg_le_neg ?_
      rw [div_le_div_iff₀ hpq0 hw0]
      have hab' : 0 ≤ a * b := by linarith
      calc w * (1 / 50 * R - a * b) * w ≤ 1 / 50 * R * w ^ 2 := by nlinarith [mul_nonneg hab' (sq_nonneg w)]
        _ ≤ 1 / 50 * R * R := by gcongr
        _ = 2 / 75 * (3 / 4 * R ^ 2) := by ring
        _ ≤ _ := by gcongr
    have hJ2' : c / 4 * (1 / w) ≤ J2 := by
      refine le_trans ?_ hB
      rw [mul_one_div, div_div, div_le_div_iff₀ (by positivity) (by positivity)]
      have hD : (c ^ 2 + w ^ 2) ^ 2 ≤ 2 * w ^ 4 := by
        have : c ^ 2 ≤ 2 / 5 * w ^ 2 := by nlinarith
        have h0 : c ^ 2 + w ^ 2 ≤ 7 / 5 * w ^ 2 := by linarith
        have h1 := pow_le_pow_left₀ (by positivity) h0 2
        nlinarith [sq_nonneg (w ^ 2)]
      calc c * (2 * (c ^ 2 + w ^ 2) ^ 2) ≤ c * (2 * (2 * w ^ 4)) := by gcongr
        _ = c * w ^ 3 * (4 * w) := by ring
    have hiw : 0 < 1 / w := by positivity
    have g1 : -(9 * (2 / 75 * (1 / w))) ≤ A * J1 := by
      have h1 := mul_le_mul_of_nonneg_left hJ1 hA0
      have h2 := mul_le_mul_of_nonneg_right hA (by positivity : 0 ≤ 2 / 75 * (1 / w))
      linarith
    have g2 : 10 / 4 * (1 / w) ≤ c / 4 * (1 / w) := by gcongr
    linarith

/-- The Raman response with the default time constants takes energy out of the carrier at every frequency of a window of 0.3 ps or more. -/
theorem raman_sine_pos {w X : ℝ} (hX : 0.15 ≤ X) (hw : Real.pi ≤ w * X) (hs : Real.sin (w * X) = 0) :
    0 < 0.79 * (0.0122 / (0.0122 ^ 2 + 0.032 ^ 2)) * (∫ s in (0 : ℝ)..X, Real.exp (-(1 / 0.032 * s)) * Real.sin (1 / 0.0122 * s) * Real.sin (w * s)) +
      0.21 * ∫ s in (0 : ℝ)..X, (2 * (1 / 0.096) * Real.exp (-(1 / 0.096 * s)) + -(1 / 0.096) ^ 2 * (s * Real.exp (-(1 / 0.096 * s)))) * Real.sin (w * s) := by
  have hX0 : 0 < X := by linarith
  have hw0 : 0 < w := pos_of_mul_pos_left (lt_of_lt_of_le Real.pi_pos hw) hX0.le
  have e27 : (2.7 : ℝ) ≤ Real.exp 1 := by have := Real.exp_one_gt_d9; linarith
  have hE1 : Real.exp (-(1 / 0.032 * X)) ≤ 1 / 50 := by
    have h1 : Real.exp (-(1 / 0.032 * X)) ≤ Real.exp (-4) := Real.exp_le_exp.2 (by norm_num; linarith)
    have h2 : (50 : ℝ) ≤ Real.exp 4 := by
      have : Real.exp 4 = Real.exp 1 ^ 4 := by rw [← Real.exp_nat_mul]; norm_num
      rw [this]
      calc (50 : ℝ) ≤ 2.7 ^ 4 := by norm_num
        _ ≤ _ := pow_le_pow_left₀ (by norm_num) e27 4
    refine h1.trans ?_
    rw [Real.exp_neg, one_div]
    exact inv_anti₀ (by norm_num) h2
  have hE2 : Real.exp (-(1 / 0.096 * X)) ≤ 1 / 4 := by
    have h1 : Real.exp (-(1 / 0.096 * X)) ≤ Real.exp (-(3 / 2)) := Real.exp_le_exp.2 (by norm_num; linarith)
    have h2 : (4 : ℝ) ≤ Real.exp (3 / 2) := by
      have h3 : Real.exp (3 / 2) ^ 2 = Real.exp 1 ^ 3 := by rw [← Real.exp_nat_mul, ← Real.exp_nat_mul]; norm_num
      have h4 : (16 : ℝ) ≤ Real.exp 1 ^ 3 := by
        calc (16 : ℝ) ≤ 2.7 ^ 3 := by norm_num
          _ ≤ _ := pow_le_pow_left₀ (by norm_num) e27 3
      have := Real.exp_pos (3 / 2)
      nlinarith
    refine h1.trans ?_
    rw [Real.exp_neg, one_div]
    exact inv_anti₀ (by norm_num) h2
  have hB := boson_lower (c := 1 / 0.096) (by norm_num) hX0 hw hs hE2
  have hS := sine_lower (a := 1 / 0.032) (b := 1 / 0.0122) (by norm_num) (by norm_num) hw0 hs hE1 (by norm_num)
  exact raman_balance (by norm_num) (by norm_num) (by norm_num) (by norm_num) (by norm_num) (by norm_num) (by norm_num) (by norm_num) hw0 hB hS

end PyNLO.Nlse
