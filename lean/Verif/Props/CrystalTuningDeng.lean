import Verif.Props.CrystalDisp

/-!
# The data of Deng et al.: mixed second difference of the index squared, for C190
-/

namespace PyNLO.Xtal

open Real

/-- the square of the index with the data of Deng et al. -/
noncomputable def sqDeng (f u : ℝ) : ℝ := 5.39121 + 4.96827e-7 * f + (0.100473 + 3.862e-8 * f) / (u - (0.20692 + -0.89e-8 * f) ^ 2) -
  (100 + 2.657e-5 * f) / (11.34927 ^ 2 - u) - (1.544e-2 + 9.62119e-10 * f) * u

theorem deng_nSq (T wl : ℝ) : deng.nSq T wl = sqDeng (tempF T) ((wl * 1e-3) ^ 2) := by
  unfold sqDeng
  simp only [Sell.nSq, deng]
  rw [show (wl * 1e-3) ^ 2 - (11.34927 : ℝ) ^ 2 = -(11.34927 ^ 2 - (wl * 1e-3) ^ 2) by ring, div_neg]
  ring

theorem poleD_bounds {f u : ℝ} (f1 : -2700 ≤ f) (f2 : f ≤ 186000) (hu : 0.36 ≤ u) :
    0.317 ≤ u - (0.20692 + -0.89e-8 * f) ^ 2 ∧ 0.205 ≤ 0.20692 + -0.89e-8 * f ∧ 0.20692 + -0.89e-8 * f ≤ 0.207 ∧ 0.1 ≤ 0.100473 + 3.862e-8 * f ∧
      0.100473 + 3.862e-8 * f ≤ 0.1077 := by
  have h1 : 0.205 ≤ 0.20692 + -0.89e-8 * f := by norm_num at *; linarith
  have h2 : 0.20692 + -0.89e-8 * f ≤ 0.207 := by norm_num at *; linarith
  refine ⟨?_, h1, h2, by norm_num at *; linarith, by norm_num at *; linarith⟩
  have : (0.20692 + -0.89e-8 * f) ^ 2 ≤ 0.207 ^ 2 := pow_le_pow_left₀ (by linarith [show (0 : ℝ) ≤ 0.205 by norm_num]) h2 2
  have e : (0.207 : ℝ) ^ 2 ≤ 0.043 := by norm_num
  have e2 : (0.317 : ℝ) + 0.043 = 0.36 := by norm_num
  linarith

theorem sqDeng_ge {f u : ℝ} (f1 : -2700 ≤ f) (f2 : f ≤ 186000) (hu : 0.36 ≤ u) (hu' : u ≤ 20.25) : 4 ≤ sqDeng f u := by
  obtain ⟨h1, -, -, h4, -⟩ := poleD_bounds f1 f2 hu
  have t1 : 0 ≤ (0.100473 + 3.862e-8 * f) / (u - (0.20692 + -0.89e-8 * f) ^ 2) := div_nonneg (le_trans (by norm_num) h4) (le_trans (by norm_num) h1)
  have hr : (108.5 : ℝ) ≤ 11.34927 ^ 2 - u := by norm_num at *; linarith
  have t2 : (100 + 2.657e-5 * f) / (11.34927 ^ 2 - u) ≤ (100 + 2.657e-5 * f) / 108.5 :=
    div_le_div_of_nonneg_left (by norm_num at *; linarith) (by norm_num) hr
  have t3 : (100 + 2.657e-5 * f) / 108.5 = 100 / 108.5 + 2.657e-5 / 108.5 * f := by ring
  have t4 : (1.544e-2 + 9.62119e-10 * f) * u ≤ (1.544e-2 + 9.62119e-10 * f) * 20.25 := mul_le_mul_of_nonneg_left hu' (by norm_num at *; linarith)
  unfold sqDeng
  norm_num at *
  linarith

theorem sqDeng_sub {f u v : ℝ} (hp : u - (0.20692 + -0.89e-8 * f) ^ 2 ≠ 0) (hq : v - (0.20692 + -0.89e-8 * f) ^ 2 ≠ 0) (hr : (11.34927 : ℝ) ^ 2 - u ≠ 0)
    (hs : (11.34927 : ℝ) ^ 2 - v ≠ 0) :
    sqDeng f u - sqDeng f v = (v - u) * ((0.100473 + 3.862e-8 * f) * (1 / ((u - (0.20692 + -0.89e-8 * f) ^ 2) * (v - (0.20692 + -0.89e-8 * f) ^ 2))) +
      (100 + 2.657e-5 * f) * (1 / ((11.34927 ^ 2 - u) * (11.34927 ^ 2 - v))) + (1.544e-2 + 9.62119e-10 * f)) := by
  unfold sqDeng
  generalize ha : (0.100473 + 3.862e-8 * f : ℝ) = a
  generalize hb : (100 + 2.657e-5 * f : ℝ) = b
  generalize hc : (1.544e-2 + 9.62119e-10 * f : ℝ) = c
  generalize hP : u - (0.20692 + -0.89e-8 * f) ^ 2 = p at *
  generalize hQ : v - (0.20692 + -0.89e-8 * f) ^ 2 = q at *
  generalize hR : (11.34927 : ℝ) ^ 2 - u = r at *
  generalize hS : (11.34927 : ℝ) ^ 2 - v = s at *
  have e1 : a / p - a / q = (v - u) * (a * (1 / (p * q))) := by
    rw [show v - u = q - p by rw [← hP, ← hQ]; ring]
    field_simp
  have e2 : b / s - b / r = (v - u) * (b * (1 / (r * s))) := by
    rw [show v - u = r - s by rw [← hR, ← hS]; ring]
    field_simp
  rw [mul_add, mul_add, ← e1, ← e2]
  ring

theorem sqDeng_heat {f g u : ℝ} (f1 : -2700 ≤ f) (hfg : f < g) (g2 : g ≤ 186000) (hu : 0.36 ≤ u) (hu' : u ≤ 20.25) :
    sqDeng g u - sqDeng f u ≤ 4.2e-7 * (g - f) := by
  obtain ⟨p1, a1, a1', n1, n1'⟩ := poleD_bounds f1 (hfg.le.trans g2) hu
  obtain ⟨p2, a2, a2', n2, n2'⟩ := poleD_bounds (f1.trans hfg.le) g2 hu
  have hd : 0 < g - f := sub_pos.mpr hfg
  have hsq : (0.20692 + -0.89e-8 * g) ^ 2 ≤ (0.20692 + -0.89e-8 * f) ^ 2 := pow_le_pow_left₀ (le_trans (by norm_num) a2) (by norm_num at *; linarith) 2
  have hr : (0 : ℝ) < 11.34927 ^ 2 - u := by norm_num at *; linarith
  have hr' : (11.34927 : ℝ) ^ 2 - u ≤ 128.5 := by norm_num at *; linarith
  have e2 : (100 + 2.657e-5 * g) / (11.34927 ^ 2 - u) - (100 + 2.657e-5 * f) / (11.34927 ^ 2 - u) ≥ 2.06e-7 * (g - f) := by
    rw [← sub_div, ge_iff_le, le_div_iff₀ hr]
    have := mul_le_mul_of_nonneg_left hr' hd.le
    norm_num at *
    linarith
  have e1 : (0.100473 + 3.862e-8 * g) / (u - (0.20692 + -0.89e-8 * g) ^ 2) - (0.100473 + 3.862e-8 * f) / (u - (0.20692 + -0.89e-8 * f) ^ 2) ≤ 1.22e-7 * (g - f) := by
    have hp2 : 0 < u - (0.20692 + -0.89e-8 * g) ^ 2 := lt_of_lt_of_le (by norm_num) p2
    have hp1 : 0 < u - (0.20692 + -0.89e-8 * f) ^ 2 := lt_of_lt_of_le (by norm_num) p1
    have i1 : (0.100473 + 3.862e-8 * g) / (u - (0.20692 + -0.89e-8 * g) ^ 2) ≤ (0.100473 + 3.862e-8 * g) / (u - (0.20692 + -0.89e-8 * f) ^ 2) :=
      div_le_div_of_nonneg_left (le_trans (by norm_num) n2) hp1 (by linarith)
    have i2 : (0.100473 + 3.862e-8 * g) / (u - (0.20692 + -0.89e-8 * f) ^ 2) - (0.100473 + 3.862e-8 * f) / (u - (0.20692 + -0.89e-8 * f) ^ 2) ≤ 1.22e-7 * (g - f) := by
      rw [← sub_div, div_le_iff₀ hp1]
      have := mul_le_mul_of_nonneg_left p1 hd.le
      generalize u - (0.20692 + -0.89e-8 * f) ^ 2 = P at *
      norm_num at *
      linarith
    linarith
  have e3 : 0 ≤ (g - f) * u := mul_nonneg hd.le (le_trans (by norm_num) hu)
  have e4 : sqDeng g u - sqDeng f u = 4.96827e-7 * (g - f) +
      ((0.100473 + 3.862e-8 * g) / (u - (0.20692 + -0.89e-8 * g) ^ 2) - (0.100473 + 3.862e-8 * f) / (u - (0.20692 + -0.89e-8 * f) ^ 2)) -
      ((100 + 2.657e-5 * g) / (11.34927 ^ 2 - u) - (100 + 2.657e-5 * f) / (11.34927 ^ 2 - u)) - 9.62119e-10 * ((g - f) * u) := by
    unfold sqDeng; ring
  rw [e4]
  generalize (0.100473 + 3.862e-8 * g) / (u - (0.20692 + -0.89e-8 * g) ^ 2) - (0.100473 + 3.862e-8 * f) / (u - (0.20692 + -0.89e-8 * f) ^ 2) = E1 at *
  generalize (100 + 2.657e-5 * g) / (11.34927 ^ 2 - u) - (100 + 2.657e-5 * f) / (11.34927 ^ 2 - u) = E2 at *
  generalize (g - f) * u = E3 at *
  norm_num at *
  linarith

/-- the numbers of `sqDeng_mixed` -/
theorem mixedD_core {X Y D M m w e : ℝ} (hX : 0 < X) (hY : 0 < Y) (hw : 0 < w) (he : 0 < e) (hD : D ≤ 4.2e-7 * e) (m0 : 0 ≤ M)
    (m1 : M ≤ w * (0.1077 * X + 105 * Y + 1.57e-2)) (hm : w * (e * (3e-8 * X + 2.657e-5 * Y + 9.62119e-10)) ≤ m) : D * M < 8 * m := by
  have hcore : 4.2e-7 * (0.1077 * X + 105 * Y + 1.57e-2) < 8 * (3e-8 * X + 2.657e-5 * Y + 9.62119e-10) := by
    norm_num at *
    linarith
  calc D * M ≤ (4.2e-7 * e) * M := mul_le_mul_of_nonneg_right hD m0
    _ ≤ (4.2e-7 * e) * (w * (0.1077 * X + 105 * Y + 1.57e-2)) := mul_le_mul_of_nonneg_left m1 (mul_nonneg (by norm_num) he.le)
    _ = (e * w) * (4.2e-7 * (0.1077 * X + 105 * Y + 1.57e-2)) := by ring
    _ < (e * w) * (8 * (3e-8 * X + 2.657e-5 * Y + 9.62119e-10)) := mul_lt_mul_of_pos_left hcore (mul_pos he hw)
    _ = 8 * (w * (e * (3e-8 * X + 2.657e-5 * Y + 9.62119e-10))) := by ring
    _ ≤ _ := mul_le_mul_of_nonneg_left hm (by norm_num)

/-- how far the pole moves the product -/
theorem poleD_shift {p1 q1 p2 q2 δ c e a : ℝ} (hp : 0.317 ≤ p1) (hq : 0.317 ≤ q1) (ep : p2 = p1 + δ) (eq : q2 = q1 + δ) (h0 : 0 ≤ δ) (hδ : δ ≤ 3.69e-9 * e) (he : 0 < e)
    (he' : e ≤ 190000) (ha : 0 ≤ a) (ha' : a ≤ 0.1077) (hc : c = a + 3.862e-8 * e) : e * (3e-8 * (1 / (p1 * q1))) ≤ c * (1 / (p2 * q2)) - a * (1 / (p1 * q1)) := by
  have P1 : 0 < p1 := lt_of_lt_of_le (by norm_num) hp
  have Q1 : 0 < q1 := lt_of_lt_of_le (by norm_num) hq
  have P2 : 0 < p2 := by rw [ep]; linarith
  have Q2 : 0 < q2 := by rw [eq]; linarith
  have k1 : 0.317 * p1 ≤ p1 * q1 := by rw [mul_comm]; exact mul_le_mul_of_nonneg_left hq P1.le
  have k2 : 0.317 * q1 ≤ p1 * q1 := mul_le_mul_of_nonneg_right hp Q1.le
  have k3 : 0.317 * 0.317 ≤ p1 * q1 := mul_le_mul hp hq (by norm_num) P1.le
  have k4 : p1 + q1 + δ ≤ 6.4 * (p1 * q1) := by
    generalize p1 * q1 = K at *
    norm_num at *
    linarith
  have k5 : a + 3e-8 * e ≤ 0.1134 := by norm_num at *; linarith
  have k6 : (a + 3e-8 * e) * (δ * (p1 + q1 + δ)) ≤ 0.1134 * ((3.69e-9 * e) * (6.4 * (p1 * q1))) :=
    mul_le_mul k5 (mul_le_mul hδ k4 (by linarith) (mul_nonneg (by norm_num) he.le)) (mul_nonneg h0 (by linarith)) (by norm_num)
  have k7 : 0 < e * (p1 * q1) := mul_pos he (mul_pos P1 Q1)
  have main : (a + 3e-8 * e) * (p2 * q2) ≤ c * (p1 * q1) := by
    have e1 : (a + 3e-8 * e) * (p2 * q2) = (a + 3e-8 * e) * (p1 * q1) + (a + 3e-8 * e) * (δ * (p1 + q1 + δ)) := by rw [ep, eq]; ring
    rw [e1, hc]
    generalize (a + 3e-8 * e) * (δ * (p1 + q1 + δ)) = Z at *
    have e2 : (a + 3.862e-8 * e) * (p1 * q1) = (a + 3e-8 * e) * (p1 * q1) + 0.862e-8 * (e * (p1 * q1)) := by ring
    have e3 : 0.1134 * ((3.69e-9 * e) * (6.4 * (p1 * q1))) = 0.1134 * 3.69e-9 * 6.4 * (e * (p1 * q1)) := by ring
    rw [e2]
    rw [e3] at k6
    generalize (a + 3e-8 * e) * (p1 * q1) = W at *
    generalize e * (p1 * q1) = V at *
    norm_num at *
    linarith
  have hK := mul_pos P1 Q1
  have hL := mul_pos P2 Q2
  have : (a + 3e-8 * e) * (1 / (p1 * q1)) ≤ c * (1 / (p2 * q2)) := by
    rw [mul_one_div, mul_one_div, div_le_div_iff₀ hK hL]
    exact main
  have e4 : e * (3e-8 * (1 / (p1 * q1))) = (a + 3e-8 * e) * (1 / (p1 * q1)) - a * (1 / (p1 * q1)) := by ring
  rw [e4]
  linarith

theorem restD_bounds {t : ℝ} (h : -2700 ≤ t) (h' : t ≤ 186000) : (0 ≤ 100 + 2.657e-5 * t ∧ 100 + 2.657e-5 * t ≤ 105) ∧ 0 ≤ 1.544e-2 + 9.62119e-10 * t ∧
    1.544e-2 + 9.62119e-10 * t ≤ 1.57e-2 := by
  refine ⟨⟨?_, ?_⟩, ?_, ?_⟩ <;> norm_num at * <;> linarith

/-- the mixed second difference of the square -/
theorem sqDeng_mixed {f g u v : ℝ} (f1 : -2700 ≤ f) (hfg : f < g) (g2 : g ≤ 186000) (hu : 0.36 ≤ u) (huv : u < v) (hv : v ≤ 20.25) :
    0 < (sqDeng g u - sqDeng f u) - (sqDeng g v - sqDeng f v) ∧
    ∀ t, (t = f ∨ t = g) → (sqDeng g u - sqDeng f u) * (sqDeng t u - sqDeng t v) < 8 * ((sqDeng g u - sqDeng f u) - (sqDeng g v - sqDeng f v)) := by
  have hu' : u ≤ 20.25 := huv.le.trans hv
  obtain ⟨p1, a1, a1', n1, n1'⟩ := poleD_bounds f1 (hfg.le.trans g2) hu
  obtain ⟨p2, a2, a2', n2, n2'⟩ := poleD_bounds (f1.trans hfg.le) g2 hu
  obtain ⟨q1, -⟩ := poleD_bounds f1 (hfg.le.trans g2) (hu.trans huv.le)
  obtain ⟨q2, -⟩ := poleD_bounds (f1.trans hfg.le) g2 (hu.trans huv.le)
  have hd : 0 < g - f := sub_pos.mpr hfg
  have hw : 0 < v - u := sub_pos.mpr huv
  have hheat := sqDeng_heat f1 hfg g2 hu hu'
  have hr : (0 : ℝ) < 11.34927 ^ 2 - u := by norm_num at *; linarith
  have hs : (0 : ℝ) < 11.34927 ^ 2 - v := by norm_num at *; linarith
  have pos : ∀ {x : ℝ}, 0.317 ≤ x → 0 < x := fun h => lt_of_lt_of_le (by norm_num) h
  have eF := sqDeng_sub (f := f) (pos p1).ne' (pos q1).ne' hr.ne' hs.ne'
  have eG := sqDeng_sub (f := g) (pos p2).ne' (pos q2).ne' hr.ne' hs.ne'
  have hab : (0.20692 + -0.89e-8 * g) ^ 2 ≤ (0.20692 + -0.89e-8 * f) ^ 2 := pow_le_pow_left₀ (le_trans (by norm_num) a2) (by norm_num at *; linarith) 2
  have hδ : (0.20692 + -0.89e-8 * f) ^ 2 - (0.20692 + -0.89e-8 * g) ^ 2 ≤ 3.69e-9 * (g - f) := by
    rw [show (0.20692 + -0.89e-8 * f) ^ 2 - (0.20692 + -0.89e-8 * g) ^ 2 = ((0.20692 + -0.89e-8 * f) + (0.20692 + -0.89e-8 * g)) * 0.89e-8 * (g - f) by ring]
    apply mul_le_mul_of_nonneg_right _ hd.le
    norm_num at *
    linarith
  have hshift := poleD_shift (δ := (0.20692 + -0.89e-8 * f) ^ 2 - (0.20692 + -0.89e-8 * g) ^ 2) (p2 := u - (0.20692 + -0.89e-8 * g) ^ 2)
    (q2 := v - (0.20692 + -0.89e-8 * g) ^ 2) (a := 0.100473 + 3.862e-8 * f) (c := 0.100473 + 3.862e-8 * g) p1 q1 (by ring) (by ring) (by linarith) hδ hd (by linarith)
    (le_trans (by norm_num) n1) n1' (by ring)
  have hX : 1 / ((u - (0.20692 + -0.89e-8 * g) ^ 2) * (v - (0.20692 + -0.89e-8 * g) ^ 2)) ≤
      1 / ((u - (0.20692 + -0.89e-8 * f) ^ 2) * (v - (0.20692 + -0.89e-8 * f) ^ 2)) :=
    one_div_le_one_div_of_le (mul_pos (pos p1) (pos q1)) (mul_le_mul (by linarith) (by linarith) (pos q1).le (pos p2).le)
  have hX0 : 0 < 1 / ((u - (0.20692 + -0.89e-8 * g) ^ 2) * (v - (0.20692 + -0.89e-8 * g) ^ 2)) := one_div_pos.mpr (mul_pos (pos p2) (pos q2))
  have hY0 : 0 < 1 / (((11.34927 : ℝ) ^ 2 - u) * (11.34927 ^ 2 - v)) := one_div_pos.mpr (mul_pos hr hs)
  generalize 1 / ((u - (0.20692 + -0.89e-8 * f) ^ 2) * (v - (0.20692 + -0.89e-8 * f) ^ 2)) = X1 at *
  generalize 1 / ((u - (0.20692 + -0.89e-8 * g) ^ 2) * (v - (0.20692 + -0.89e-8 * g) ^ 2)) = X2 at *
  generalize 1 / (((11.34927 : ℝ) ^ 2 - u) * (11.34927 ^ 2 - v)) = Y at *
  have hX1 : 0 < X1 := hX0.trans_le hX
  have hmix : (v - u) * ((g - f) * (3e-8 * X1 + 2.657e-5 * Y + 9.62119e-10)) ≤ (sqDeng g u - sqDeng f u) - (sqDeng g v - sqDeng f v) := by
    have e : (sqDeng g u - sqDeng f u) - (sqDeng g v - sqDeng f v) = (sqDeng g u - sqDeng g v) - (sqDeng f u - sqDeng f v) := by ring
    rw [e, eF, eG, ← mul_sub]
    apply mul_le_mul_of_nonneg_left _ hw.le
    have e4 : (g - f) * (3e-8 * X1 + 2.657e-5 * Y + 9.62119e-10) = (g - f) * (3e-8 * X1) + ((100 + 2.657e-5 * g) * Y - (100 + 2.657e-5 * f) * Y) +
      ((1.544e-2 + 9.62119e-10 * g) - (1.544e-2 + 9.62119e-10 * f)) := by ring
    rw [e4]
    linarith
  have hM : ∀ t, (t = f ∨ t = g) → 0 ≤ sqDeng t u - sqDeng t v ∧ sqDeng t u - sqDeng t v ≤ (v - u) * (0.1077 * X1 + 105 * Y + 1.57e-2) := by
    have gen : ∀ c b k X : ℝ, 0 ≤ c → c ≤ 0.1077 → 0 < X → X ≤ X1 → (0 ≤ b ∧ b ≤ 105) ∧ 0 ≤ k ∧ k ≤ 1.57e-2 →
        0 ≤ (v - u) * (c * X + b * Y + k) ∧ (v - u) * (c * X + b * Y + k) ≤ (v - u) * (0.1077 * X1 + 105 * Y + 1.57e-2) := by
      rintro c b k X hc hc' hX hX' ⟨⟨hb0, hb'⟩, hk, hk'⟩
      constructor
      · exact mul_nonneg hw.le (add_nonneg (add_nonneg (mul_nonneg hc hX.le) (mul_nonneg hb0 hY0.le)) hk)
      · apply mul_le_mul_of_nonneg_left _ hw.le
        have k1 := mul_le_mul hc' hX' hX.le (by norm_num : (0 : ℝ) ≤ 0.1077)
        have k2 := mul_le_mul_of_nonneg_right hb' hY0.le
        linarith
    rintro t (rfl | rfl)
    · rw [eF]
      exact gen _ _ _ _ (le_trans (by norm_num) n1) n1' hX1 le_rfl (restD_bounds f1 (hfg.le.trans g2))
    · rw [eG]
      exact gen _ _ _ _ (le_trans (by norm_num) n2) n2' hX0 hX (restD_bounds (f1.trans hfg.le) g2)
  refine ⟨lt_of_lt_of_le (mul_pos hw (mul_pos hd (add_pos (add_pos (mul_pos (by norm_num) hX1) (mul_pos (by norm_num) hY0)) (by norm_num)))) hmix, fun t ht => ?_⟩
  obtain ⟨m0, m1⟩ := hM t ht
  exact mixedD_core hX1 hY0 hw hd hheat m0 m1 hmix

end PyNLO.Xtal
