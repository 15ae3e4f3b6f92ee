import Verif.Lemmas.SechTame

/-!
# The second-order soliton
-/

namespace PyNLO.Nlse

open Complex Polynomial Set

/-- numerator and denominator in terms of `c = cosh τ` and `p = exp(4iξ)`, `r = exp(-4iξ)` -/
def num2 (p c : ℂ) : ℂ := 4 * c ^ 3 + 3 * c * (p - 1)
noncomputable def den2 (p r c : ℂ) : ℂ := 8 * c ^ 4 - 3 + 3 / 2 * (p + r)

noncomputable def turn (ξ : ℝ) : ℂ := exp (4 * I * ξ)
noncomputable def unturn (ξ : ℝ) : ℂ := exp (-(4 * I * ξ))
noncomputable def ch (τ : ℝ) : ℂ := ((Real.cosh τ : ℝ) : ℂ)
noncomputable def sh (τ : ℝ) : ℂ := ((Real.sinh τ : ℝ) : ℂ)

theorem turn_mul (ξ : ℝ) : turn ξ * unturn ξ = 1 := by
  unfold turn unturn
  rw [← exp_add, add_neg_cancel, exp_zero]

theorem sh_sq (τ : ℝ) : sh τ ^ 2 = ch τ ^ 2 - 1 := by
  have := Real.cosh_sq τ
  unfold sh ch
  norm_cast
  linarith

theorem ch_hasDerivAt (τ : ℝ) : HasDerivAt ch (sh τ) τ := (Real.hasDerivAt_cosh τ).ofReal_comp
theorem sh_hasDerivAt (τ : ℝ) : HasDerivAt sh (ch τ) τ := (Real.hasDerivAt_sinh τ).ofReal_comp

theorem lin_hasDerivAt (ξ : ℝ) : HasDerivAt (fun ξ : ℝ => 4 * I * (ξ : ℂ)) (4 * I) ξ := by
  simpa using (ofRealCLM.hasDerivAt (x := ξ)).const_mul (4 * I)

theorem turn_hasDerivAt (ξ : ℝ) : HasDerivAt turn (4 * I * turn ξ) ξ := by
  refine (lin_hasDerivAt ξ).cexp.congr_deriv ?_
  unfold turn
  ring

theorem unturn_hasDerivAt (ξ : ℝ) : HasDerivAt unturn (-(4 * I * unturn ξ)) ξ := by
  refine (lin_hasDerivAt ξ).neg.cexp.congr_deriv ?_
  unfold unturn
  simp only [Pi.neg_apply]
  ring

theorem half_hasDerivAt (ξ : ℝ) : HasDerivAt (fun ξ : ℝ => exp (I * ξ / 2)) (I / 2 * exp (I * ξ / 2)) ξ := by
  have h : HasDerivAt (fun ξ : ℝ => I * (ξ : ℂ) / 2) (I / 2) ξ := by simpa using ((ofRealCLM.hasDerivAt (x := ξ)).const_mul I).div_const 2
  refine h.cexp.congr_deriv ?_
  ring

theorem turn_add (ξ : ℝ) : turn ξ + unturn ξ = 2 * ((Real.cos (4 * ξ) : ℝ) : ℂ) := by
  unfold turn unturn
  push_cast
  unfold Complex.cos
  rw [show 4 * I * (ξ : ℂ) = 4 * ξ * I by ring, neg_mul]
  ring

theorem den2_eq (ξ τ : ℝ) : den2 (turn ξ) (unturn ξ) (ch τ) = ((8 * Real.cosh τ ^ 4 - 3 + 3 * Real.cos (4 * ξ) : ℝ) : ℂ) := by
  unfold den2
  rw [turn_add]
  unfold ch
  push_cast
  ring

theorem den2_pos (ξ τ : ℝ) : 2 ≤ 8 * Real.cosh τ ^ 4 - 3 + 3 * Real.cos (4 * ξ) := by
  have h1 := Real.neg_one_le_cos (4 * ξ)
  have h2 := one_le_pow₀ (Real.one_le_cosh τ) (n := 4)
  linarith

theorem den2_ne (ξ τ : ℝ) : den2 (turn ξ) (unturn ξ) (ch τ) ≠ 0 := by
  rw [den2_eq]
  have := den2_pos ξ τ
  exact_mod_cast (by linarith : 0 < 8 * Real.cosh τ ^ 4 - 3 + 3 * Real.cos (4 * ξ)).ne'

theorem soliton2_eq (ξ τ : ℝ) : soliton2 ξ τ = 4 * exp (I * ξ / 2) * num2 (turn ξ) (ch τ) / den2 (turn ξ) (unturn ξ) (ch τ) := by
  have h3 : Real.cosh (3 * τ) = 4 * Real.cosh τ ^ 3 - 3 * Real.cosh τ := Real.cosh_three_mul τ
  have h2 : ∀ x, Real.cosh (2 * x) = 2 * Real.cosh x ^ 2 - 1 := fun x => by
    have a := Real.cosh_two_mul x
    have b := Real.cosh_sq x
    linarith
  have h4 : Real.cosh (4 * τ) = 2 * (2 * Real.cosh τ ^ 2 - 1) ^ 2 - 1 := by
    rw [show 4 * τ = 2 * (2 * τ) by ring, h2, h2]
  unfold soliton2
  rw [den2_eq, h3, h4, h2]
  unfold num2 turn ch
  push_cast
  congr 1 <;> ring

/-- slope of numerator over denominator, divided by `sinh τ` -/
noncomputable def slope2 (p r c : ℂ) : ℂ := (12 * c ^ 2 + 3 * (p - 1)) * den2 p r c - num2 p c * (32 * c ^ 3)

theorem quotient_hasDerivAt (ξ τ : ℝ) : HasDerivAt (fun τ => num2 (turn ξ) (ch τ) / den2 (turn ξ) (unturn ξ) (ch τ))
    (sh τ * slope2 (turn ξ) (unturn ξ) (ch τ) / den2 (turn ξ) (unturn ξ) (ch τ) ^ 2) τ := by
  have hd := den2_ne ξ τ
  have h := ch_hasDerivAt τ
  have hn : HasDerivAt (fun τ => num2 (turn ξ) (ch τ)) (4 * (3 * ch τ ^ 2 * sh τ) + 3 * sh τ * (turn ξ - 1)) τ := by
    have h3 := ((h.pow 3).const_mul 4).add ((h.const_mul 3).mul_const (turn ξ - 1))
    exact h3.congr_deriv (by push_cast; ring)
  have hD : HasDerivAt (fun τ => den2 (turn ξ) (unturn ξ) (ch τ)) (8 * (4 * ch τ ^ 3 * sh τ)) τ := by
    have h3 := (((h.pow 4).const_mul 8).sub_const 3).add_const (3 / 2 * (turn ξ + unturn ξ))
    exact h3.congr_deriv (by push_cast; ring)
  refine (hn.div hD hd).congr_deriv ?_
  congr 1
  unfold slope2
  ring

theorem slope_hasDerivAt (ξ τ : ℝ) : HasDerivAt (fun τ => sh τ * slope2 (turn ξ) (unturn ξ) (ch τ) / den2 (turn ξ) (unturn ξ) (ch τ) ^ 2)
    ((ch τ * slope2 (turn ξ) (unturn ξ) (ch τ) * den2 (turn ξ) (unturn ξ) (ch τ) + (ch τ ^ 2 - 1) *
      ((24 * ch τ * den2 (turn ξ) (unturn ξ) (ch τ) - 96 * ch τ ^ 2 * num2 (turn ξ) (ch τ)) * den2 (turn ξ) (unturn ξ) (ch τ) -
        64 * ch τ ^ 3 * slope2 (turn ξ) (unturn ξ) (ch τ))) / den2 (turn ξ) (unturn ξ) (ch τ) ^ 3) τ := by
  have hd := den2_ne ξ τ
  have h := ch_hasDerivAt τ
  have hn : HasDerivAt (fun τ => num2 (turn ξ) (ch τ)) (4 * (3 * ch τ ^ 2 * sh τ) + 3 * sh τ * (turn ξ - 1)) τ := by
    have h3 := ((h.pow 3).const_mul 4).add ((h.const_mul 3).mul_const (turn ξ - 1))
    exact h3.congr_deriv (by push_cast; ring)
  have hD : HasDerivAt (fun τ => den2 (turn ξ) (unturn ξ) (ch τ)) (8 * (4 * ch τ ^ 3 * sh τ)) τ := by
    have h3 := (((h.pow 4).const_mul 8).sub_const 3).add_const (3 / 2 * (turn ξ + unturn ξ))
    exact h3.congr_deriv (by push_cast; ring)
  have hs : HasDerivAt (fun τ => slope2 (turn ξ) (unturn ξ) (ch τ))
      (sh τ * (24 * ch τ * den2 (turn ξ) (unturn ξ) (ch τ) - 96 * ch τ ^ 2 * num2 (turn ξ) (ch τ))) τ := by
    have h3 := (((h.pow 2).const_mul 12).add_const (3 * (turn ξ - 1))).mul hD
    have h4 := h3.sub (hn.mul ((h.pow 3).const_mul 32))
    refine h4.congr_deriv ?_
    simp only [Pi.pow_apply]
    push_cast
    ring
  have h5 := ((sh_hasDerivAt τ).mul hs).div (hD.pow 2) (pow_ne_zero 2 hd)
  refine h5.congr_deriv ?_
  simp only [Pi.pow_apply, Pi.mul_apply]
  clear h5 hs hD hn h
  have e := sh_sq τ
  generalize den2 (turn ξ) (unturn ξ) (ch τ) = D at *
  generalize slope2 (turn ξ) (unturn ξ) (ch τ) = a at *
  generalize num2 (turn ξ) (ch τ) = N at *
  generalize ch τ = c at *
  generalize sh τ = s at *
  push_cast
  rw [div_eq_div_iff (pow_ne_zero 2 (pow_ne_zero 2 hd)) (pow_ne_zero 3 hd)]
  linear_combination (D ^ 4 * ((24 * c * D - 96 * c ^ 2 * N) * D - 64 * c ^ 3 * a)) * e

/-- the equation of the second-order soliton, with `p·r = 1` -/
theorem identity2 {p r c : ℂ} (h : p * r = 1) (hD : den2 p r c ≠ 0) :
    I / 2 * (num2 p c / den2 p r c) + (12 * I * c * p * den2 p r c - num2 p c * (6 * I * (p - r))) / den2 p r c ^ 2 =
      I / 2 * ((c * slope2 p r c * den2 p r c + (c ^ 2 - 1) * ((24 * c * den2 p r c - 96 * c ^ 2 * num2 p c) * den2 p r c - 64 * c ^ 3 * slope2 p r c)) /
        den2 p r c ^ 3) + 16 * I * (num2 p c * (num2 r c * num2 p c)) / den2 p r c ^ 3 := by
  have hp : p ≠ 0 := left_ne_zero_of_mul_eq_one h
  have hr : r = p⁻¹ := eq_inv_of_mul_eq_one_right h
  have e : (I / 2 * num2 p c * den2 p r c ^ 2 + (12 * I * c * p * den2 p r c - num2 p c * (6 * I * (p - r))) * den2 p r c) =
      I / 2 * (c * slope2 p r c * den2 p r c + (c ^ 2 - 1) * ((24 * c * den2 p r c - 96 * c ^ 2 * num2 p c) * den2 p r c - 64 * c ^ 3 * slope2 p r c)) +
        16 * I * (num2 p c * (num2 r c * num2 p c)) := by
    subst hr
    clear hD
    unfold slope2 den2 num2
    field_simp
    ring
  have e1 : I / 2 * (num2 p c / den2 p r c) + (12 * I * c * p * den2 p r c - num2 p c * (6 * I * (p - r))) / den2 p r c ^ 2 =
      (I / 2 * num2 p c * den2 p r c ^ 2 + (12 * I * c * p * den2 p r c - num2 p c * (6 * I * (p - r))) * den2 p r c) / den2 p r c ^ 3 := by
    field_simp
  rw [e1, e, add_div, mul_div_assoc]

theorem soliton2_equation (ξ τ : ℝ) : HasDerivAt (fun ξ => soliton2 ξ τ)
    (dispersion (C (-1 / 2) * X ^ 2) (soliton2 ξ) τ + (0 : ℝ) / 2 * soliton2 ξ τ + I * (1 : ℝ) * soliton2 ξ τ * ((‖soliton2 ξ τ‖ ^ 2 : ℝ) : ℂ)) ξ := by
  have hd := den2_ne ξ τ
  have hN : HasDerivAt (fun ξ => num2 (turn ξ) (ch τ)) (12 * I * ch τ * turn ξ) ξ := by
    have h := (((turn_hasDerivAt ξ).sub_const 1).const_mul (3 * ch τ)).const_add (4 * ch τ ^ 3)
    exact h.congr_deriv (by ring)
  have hDd : HasDerivAt (fun ξ => den2 (turn ξ) (unturn ξ) (ch τ)) (6 * I * (turn ξ - unturn ξ)) ξ := by
    have h := (((turn_hasDerivAt ξ).add (unturn_hasDerivAt ξ)).const_mul (3 / 2)).const_add (8 * ch τ ^ 4 - 3)
    exact h.congr_deriv (by ring)
  have h1 := (((half_hasDerivAt ξ).const_mul 4).mul (hN.div hDd hd))
  have e1 : (fun ξ => soliton2 ξ τ) = (fun ξ : ℝ => 4 * exp (I * ξ / 2)) * ((fun ξ => num2 (turn ξ) (ch τ)) / fun ξ => den2 (turn ξ) (unturn ξ) (ch τ)) := by
    funext ξ
    simp only [Pi.mul_apply, Pi.div_apply]
    rw [soliton2_eq, mul_div_assoc]
  rw [e1]
  refine h1.congr_deriv ?_
  simp only [Pi.div_apply]
  have e2 : soliton2 ξ = fun τ => 4 * exp (I * ξ / 2) * (num2 (turn ξ) (ch τ) / den2 (turn ξ) (unturn ξ) (ch τ)) := by
    funext τ
    rw [soliton2_eq, mul_div_assoc]
  have hdisp : dispersion (C (-1 / 2) * X ^ 2) (soliton2 ξ) τ = I / 2 * iteratedDeriv 2 (soliton2 ξ) τ := by
    unfold dispersion
    rw [Polynomial.C_mul_X_pow_eq_monomial, Polynomial.sum_monomial_index]
    · rw [I_sq]; push_cast; ring
    · simp
  have hder : _root_.deriv (soliton2 ξ) = fun τ => 4 * exp (I * ξ / 2) * (sh τ * slope2 (turn ξ) (unturn ξ) (ch τ) / den2 (turn ξ) (unturn ξ) (ch τ) ^ 2) := by
    rw [e2]
    funext τ
    exact ((quotient_hasDerivAt ξ τ).const_mul _).deriv
  have hder2 : iteratedDeriv 2 (soliton2 ξ) τ = _root_.deriv (fun τ => 4 * exp (I * ξ / 2) *
      (sh τ * slope2 (turn ξ) (unturn ξ) (ch τ) / den2 (turn ξ) (unturn ξ) (ch τ) ^ 2)) τ := by
    rw [iteratedDeriv_succ, iteratedDeriv_one, hder]
  rw [((slope_hasDerivAt ξ τ).const_mul (4 * exp (I * ξ / 2))).deriv] at hder2
  have hpow : ((‖soliton2 ξ τ‖ ^ 2 : ℝ) : ℂ) = 16 * (num2 (turn ξ) (ch τ) * num2 (unturn ξ) (ch τ)) / den2 (turn ξ) (unturn ξ) (ch τ) ^ 2 := by
    have c1 : (starRingEnd ℂ) (turn ξ) = unturn ξ := by
      unfold turn unturn
      rw [← exp_conj]
      congr 1
      simp only [map_mul, conj_I, conj_ofReal, map_ofNat]
      ring
    have c2 : (starRingEnd ℂ) (ch τ) = ch τ := conj_ofReal _
    have c3 : (starRingEnd ℂ) (den2 (turn ξ) (unturn ξ) (ch τ)) = den2 (turn ξ) (unturn ξ) (ch τ) := by rw [den2_eq, conj_ofReal]
    have c4 : (starRingEnd ℂ) (num2 (turn ξ) (ch τ)) = num2 (unturn ξ) (ch τ) := by
      unfold num2
      simp only [map_add, map_mul, map_pow, map_sub, map_one, map_ofNat, c1, c2]
    have c5 : exp (I * ξ / 2) * (starRingEnd ℂ) (exp (I * ξ / 2)) = 1 := by
      rw [← exp_conj, ← exp_add]
      simp only [map_mul, map_div₀, conj_I, conj_ofReal, map_ofNat]
      rw [show I * (ξ : ℂ) / 2 + -I * ξ / 2 = 0 by ring, exp_zero]
    rw [← normSq_eq_norm_sq, ← mul_conj, soliton2_eq, map_div₀, map_mul, map_mul, c3, c4, map_ofNat, div_mul_div_comm, ← sq]
    congr 1
    linear_combination (16 * num2 (turn ξ) (ch τ) * num2 (unturn ξ) (ch τ)) * c5
  rw [hpow, hdisp, hder2, soliton2_eq]
  have key := identity2 (turn_mul ξ) hd
  generalize exp (I * ξ / 2) = e at *
  generalize slope2 (turn ξ) (unturn ξ) (ch τ) = a at *
  generalize den2 (turn ξ) (unturn ξ) (ch τ) = D at *
  generalize num2 (turn ξ) (ch τ) = N at *
  generalize num2 (unturn ξ) (ch τ) = N' at *
  push_cast
  have e3 : I * 1 * (4 * e * N / D) * (16 * (N * N') / D ^ 2) = 4 * e * (16 * I * (N * (N' * N)) / D ^ 3) := by
    field_simp
  rw [e3]
  linear_combination (4 * e) * key

theorem re_contDiff : ContDiff ℝ (⊤ : ℕ∞) fun q : ℝ × ℝ => ((q.1 : ℝ) : ℂ) := ofRealCLM.contDiff.comp contDiff_fst
theorem ch_contDiff : ContDiff ℝ (⊤ : ℕ∞) fun q : ℝ × ℝ => ch q.2 := ofRealCLM.contDiff.comp (Real.contDiff_cosh.comp contDiff_snd)
theorem turn_contDiff : ContDiff ℝ (⊤ : ℕ∞) fun q : ℝ × ℝ => turn q.1 := (contDiff_const.mul re_contDiff).cexp
theorem unturn_contDiff : ContDiff ℝ (⊤ : ℕ∞) fun q : ℝ × ℝ => unturn q.1 := (contDiff_const.mul re_contDiff).neg.cexp

theorem num2_contDiff : ContDiff ℝ (⊤ : ℕ∞) fun q : ℝ × ℝ => num2 (turn q.1) (ch q.2) :=
  (contDiff_const.mul (ch_contDiff.pow 3)).add ((contDiff_const.mul ch_contDiff).mul (turn_contDiff.sub contDiff_const))

theorem den2_contDiff : ContDiff ℝ (⊤ : ℕ∞) fun q : ℝ × ℝ => den2 (turn q.1) (unturn q.1) (ch q.2) :=
  ((contDiff_const.mul (ch_contDiff.pow 4)).sub contDiff_const).add (contDiff_const.mul (turn_contDiff.add unturn_contDiff))

theorem half_contDiff : ContDiff ℝ (⊤ : ℕ∞) fun q : ℝ × ℝ => 4 * exp (I * q.1 / 2) := contDiff_const.mul ((contDiff_const.mul re_contDiff).div_const 2).cexp

theorem soliton2_contDiff : ContDiff ℝ (⊤ : ℕ∞) fun q : ℝ × ℝ => soliton2 q.1 q.2 := by
  have hne : ∀ q : ℝ × ℝ, den2 (turn q.1) (unturn q.1) (ch q.2) ≠ 0 := fun q => den2_ne q.1 q.2
  have h1 : ContDiff ℝ (⊤ : ℕ∞) fun q : ℝ × ℝ => (den2 (turn q.1) (unturn q.1) (ch q.2))⁻¹ := den2_contDiff.inv hne
  have h2 := (half_contDiff.mul num2_contDiff).mul h1
  have e : (fun q : ℝ × ℝ => soliton2 q.1 q.2) = fun q => 4 * exp (I * q.1 / 2) * num2 (turn q.1) (ch q.2) * (den2 (turn q.1) (unturn q.1) (ch q.2))⁻¹ := by
    funext q
    rw [soliton2_eq, div_eq_mul_inv]
  rw [e]
  exact h2

/-- the second-order soliton falls off like the fundamental one -/
theorem soliton2_tame : Tame (fun (_ : ℝ) t => Real.exp (-|t|)) soliton2 := by
  have hs : Tame (fun (_ : ℝ) t => Real.exp (-|t|)) fun _ => sechC := sech_tame.reindex fun _ => ()
  have h1 : Tame (fun (_ : ℝ) _ => 1) fun _ => sechC := hs.mono (c := 1) (fun _ _ => (Real.exp_pos _).le) fun _ t => by
    rw [one_mul]
    exact Real.exp_le_one_iff.2 (neg_nonpos.2 (abs_nonneg t))
  have h2 : Tame (fun (_ : ℝ) _ => 1) fun _ t => sechC t * sechC t := (h1.mul h1).one_mul
  have h4 : Tame (fun (_ : ℝ) _ => 1) fun _ t => sechC t * sechC t * (sechC t * sechC t) := (h2.mul h2).one_mul
  have hnorm : ∀ ξ, ‖turn ξ‖ = 1 := fun ξ => by
    unfold turn
    rw [show 4 * I * (ξ : ℂ) = ((4 * ξ : ℝ) : ℂ) * I by push_cast; ring, norm_exp_ofReal_mul_I]
  have hn : Tame (fun (_ : ℝ) _ => 1) fun ξ t => 4 + 3 * (turn ξ - 1) * (sechC t * sechC t) :=
    (Tame.const (fun _ => 4) (C := ‖(4 : ℂ)‖) fun _ => le_refl _).add (h2.const_mul (fun ξ => 3 * (turn ξ - 1)) (C := 6) fun ξ => by
      rw [norm_mul]
      have := norm_sub_le (turn ξ) 1
      rw [hnorm, norm_one] at this
      have e : ‖(3 : ℂ)‖ = 3 := by norm_num
      rw [e]
      linarith)
  have hd : Tame (fun (_ : ℝ) _ => 1) fun ξ t => 8 + (((3 * Real.cos (4 * ξ) - 3 : ℝ) : ℂ)) * (sechC t * sechC t * (sechC t * sechC t)) :=
    (Tame.const (fun _ => 8) (C := ‖(8 : ℂ)‖) fun _ => le_refl _).add (h4.const_mul (fun ξ => (((3 * Real.cos (4 * ξ) - 3 : ℝ) : ℂ))) (C := 6) fun ξ => by
      rw [norm_real, Real.norm_eq_abs, abs_le]
      have := Real.neg_one_le_cos (4 * ξ)
      have := Real.cos_le_one (4 * ξ)
      constructor <;> linarith)
  have hreal : ∀ ξ t, 8 + (((3 * Real.cos (4 * ξ) - 3 : ℝ) : ℂ)) * (sechC t * sechC t * (sechC t * sechC t)) = ((8 + (3 * Real.cos (4 * ξ) - 3) * sech t ^ 4 : ℝ) : ℂ) := by
    intro ξ t
    unfold sechC
    push_cast
    ring
  have hlow : ∀ ξ t, 2 ≤ 8 + (3 * Real.cos (4 * ξ) - 3) * sech t ^ 4 := fun ξ t => by
    have h1 := Real.neg_one_le_cos (4 * ξ)
    have h2 := sech_pos t
    have h3 : sech t ^ 4 ≤ 1 := pow_le_one₀ h2.le (sech_le_one t)
    have h4 : 0 < sech t ^ 4 := by positivity
    nlinarith
  have hinv := hd.inv (c := 2) two_pos fun ξ t => by
    rw [hreal, norm_real, Real.norm_eq_abs]
    exact (hlow ξ t).trans (le_abs_self _)
  have hall := ((hs.mul hn).mul_one.mul hinv).mul_one.const_mul (fun ξ : ℝ => 4 * exp (I * ξ / 2)) (C := 4) fun ξ => by
    rw [norm_mul, show I * (ξ : ℂ) / 2 = ((ξ / 2 : ℝ) : ℂ) * I by push_cast; ring, norm_exp_ofReal_mul_I]
    norm_num
  have e : soliton2 = fun (ξ t : ℝ) => 4 * exp (I * ξ / 2) * (sechC t * (4 + 3 * (turn ξ - 1) * (sechC t * sechC t)) *
      (8 + (((3 * Real.cos (4 * ξ) - 3 : ℝ) : ℂ)) * (sechC t * sechC t * (sechC t * sechC t)))⁻¹) := by
    funext ξ t
    rw [soliton2_eq, hreal, den2_eq]
    have hc : (Real.cosh t : ℂ) ≠ 0 := by exact_mod_cast (Real.cosh_pos t).ne'
    have hs' : sechC t = (Real.cosh t : ℂ)⁻¹ := by
      unfold sechC sech
      push_cast
      rfl
    have e1 : ((8 + (3 * Real.cos (4 * ξ) - 3) * sech t ^ 4 : ℝ) : ℂ) = ((8 * Real.cosh t ^ 4 - 3 + 3 * Real.cos (4 * ξ) : ℝ) : ℂ) / (Real.cosh t : ℂ) ^ 4 := by
      rw [← ofReal_pow, ← ofReal_div]
      congr 1
      have := (Real.cosh_pos t).ne'
      unfold sech
      field_simp
      ring
    have hD : ((8 * Real.cosh t ^ 4 - 3 + 3 * Real.cos (4 * ξ) : ℝ) : ℂ) ≠ 0 := by
      have := den2_pos ξ t
      exact_mod_cast (by linarith : 0 < 8 * Real.cosh t ^ 4 - 3 + 3 * Real.cos (4 * ξ)).ne'
    rw [e1, hs']
    unfold num2 ch
    generalize ((8 * Real.cosh t ^ 4 - 3 + 3 * Real.cos (4 * ξ) : ℝ) : ℂ) = D at *
    generalize ((Real.cosh t : ℝ) : ℂ) = c at *
    field_simp
  rw [e]
  exact hall

theorem soliton2_line (L : ℝ) : LineSolution (C (-1 / 2) * X ^ 2) 0 1 1 L soliton2 := by
  refine ⟨soliton2_contDiff, fun ξ _ _ τ => soliton2_equation ξ τ, fun k => ?_⟩
  obtain ⟨D, hD⟩ := soliton2_tame.bound k
  exact ⟨D, fun z _ _ t => by simpa using hD z t⟩

/-- the second-order soliton starts with twice the amplitude of the fundamental one -/
theorem soliton2_start (τ : ℝ) : soliton2 0 τ = ((2 / Real.cosh τ : ℝ) : ℂ) := by
  rw [soliton2_eq]
  have hc : (Real.cosh τ : ℂ) ≠ 0 := by exact_mod_cast (Real.cosh_pos τ).ne'
  unfold num2 den2 turn unturn ch
  simp only [ofReal_zero, mul_zero, zero_div, neg_zero, exp_zero, ofReal_div, ofReal_ofNat]
  generalize ((Real.cosh τ : ℝ) : ℂ) = c at *
  rw [show 8 * c ^ 4 - 3 + 3 / 2 * (1 + 1) = 8 * c ^ 4 by ring, sub_self, mul_zero, add_zero]
  field_simp
  norm_num

end PyNLO.Nlse
