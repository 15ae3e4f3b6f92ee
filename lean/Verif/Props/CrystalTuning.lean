import Verif.Props.CrystalTuningDeng

/-!
# C190: a warmer crystal needs a shorter poling period

With either set of data of PPLN the index rises with temperature, and more so for shorter wavelengths; so the mismatch of pump, signal and idler grows with temperature and
`calculate_poling_period` returns a shorter period.
-/

namespace PyNLO.Xtal

open Real

/-- the square of the index as a function of `f` and of the squared wavelength in micrometres -/
noncomputable def sqIndex (f u : ℝ) : ℝ := 5.756 + 2.860e-6 * f + (0.0983 + 4.700e-8 * f) / (u - (0.2020 + 6.113e-8 * f) ^ 2) -
  (189.32 + 1.516e-4 * f) / (12.52 ^ 2 - u) - 1.32e-2 * u

theorem gayer_nSq (T wl : ℝ) : gayer.nSq T wl = sqIndex (tempF T) ((wl * 1e-3) ^ 2) := by
  unfold sqIndex
  simp only [Sell.nSq, gayer]
  rw [show (wl * 1e-3) ^ 2 - (12.52 : ℝ) ^ 2 = -(12.52 ^ 2 - (wl * 1e-3) ^ 2) by ring, div_neg]
  ring

/-- what is known of the pole in the ultraviolet -/
theorem pole_bounds {f u : ℝ} (f1 : -2700 ≤ f) (f2 : f ≤ 186000) (hu : 0.36 ≤ u) :
    0.314 ≤ u - (0.2020 + 6.113e-8 * f) ^ 2 ∧ 0.2 ≤ 0.2020 + 6.113e-8 * f ∧ 0.2020 + 6.113e-8 * f ≤ 0.2134 ∧ 0.098 ≤ 0.0983 + 4.700e-8 * f ∧
      0.0983 + 4.700e-8 * f ≤ 0.1071 := by
  have h1 : 0.2 ≤ 0.2020 + 6.113e-8 * f := by norm_num at *; linarith
  have h2 : 0.2020 + 6.113e-8 * f ≤ 0.2134 := by norm_num at *; linarith
  refine ⟨?_, h1, h2, by norm_num at *; linarith, by norm_num at *; linarith⟩
  have : (0.2020 + 6.113e-8 * f) ^ 2 ≤ 0.2134 ^ 2 := pow_le_pow_left₀ (by linarith [show (0 : ℝ) ≤ 0.2 by norm_num]) h2 2
  have e : (0.2134 : ℝ) ^ 2 ≤ 0.046 := by norm_num
  have e2 : (0.314 : ℝ) + 0.046 = 0.36 := by norm_num
  linarith

theorem sqIndex_ge {f u : ℝ} (f1 : -2700 ≤ f) (f2 : f ≤ 186000) (hu : 0.36 ≤ u) (hu' : u ≤ 20.25) : 4 ≤ sqIndex f u := by
  obtain ⟨h1, -, -, h4, -⟩ := pole_bounds f1 f2 hu
  have t1 : 0 ≤ (0.0983 + 4.700e-8 * f) / (u - (0.2020 + 6.113e-8 * f) ^ 2) := div_nonneg (le_trans (by norm_num) h4) (le_trans (by norm_num) h1)
  have hr : (136.5 : ℝ) ≤ 12.52 ^ 2 - u := by norm_num at *; linarith
  have t2 : (189.32 + 1.516e-4 * f) / (12.52 ^ 2 - u) ≤ (189.32 + 1.516e-4 * f) / 136.5 :=
    div_le_div_of_nonneg_left (by norm_num at *; linarith) (by norm_num) hr
  have t3 : (189.32 + 1.516e-4 * f) / 136.5 = 189.32 / 136.5 + 1.516e-4 / 136.5 * f := by ring
  unfold sqIndex
  norm_num at *
  linarith

/-- along the wavelength -/
theorem sqIndex_sub {f u v : ℝ} (hp : u - (0.2020 + 6.113e-8 * f) ^ 2 ≠ 0) (hq : v - (0.2020 + 6.113e-8 * f) ^ 2 ≠ 0) (hr : (12.52 : ℝ) ^ 2 - u ≠ 0)
    (hs : (12.52 : ℝ) ^ 2 - v ≠ 0) :
    sqIndex f u - sqIndex f v = (v - u) * ((0.0983 + 4.700e-8 * f) * (1 / ((u - (0.2020 + 6.113e-8 * f) ^ 2) * (v - (0.2020 + 6.113e-8 * f) ^ 2))) +
      (189.32 + 1.516e-4 * f) * (1 / ((12.52 ^ 2 - u) * (12.52 ^ 2 - v))) + 1.32e-2) := by
  unfold sqIndex
  generalize ha : (0.0983 + 4.700e-8 * f : ℝ) = a
  generalize hb : (189.32 + 1.516e-4 * f : ℝ) = b
  generalize hP : u - (0.2020 + 6.113e-8 * f) ^ 2 = p at *
  generalize hQ : v - (0.2020 + 6.113e-8 * f) ^ 2 = q at *
  generalize hR : (12.52 : ℝ) ^ 2 - u = r at *
  generalize hS : (12.52 : ℝ) ^ 2 - v = s at *
  have e1 : a / p - a / q = (v - u) * (a * (1 / (p * q))) := by
    rw [show v - u = q - p by rw [← hP, ← hQ]; ring]
    field_simp
  have e2 : b / s - b / r = (v - u) * (b * (1 / (r * s))) := by
    rw [show v - u = r - s by rw [← hR, ← hS]; ring]
    field_simp
  rw [mul_add, mul_add, ← e1, ← e2]
  ring

/-- along the temperature -/
theorem sqIndex_heat {f g u : ℝ} (f1 : -2700 ≤ f) (hfg : f < g) (g2 : g ≤ 186000) (hu : 0.36 ≤ u) (hu' : u ≤ 20.25) :
    sqIndex g u - sqIndex f u ≤ 2.1e-6 * (g - f) := by
  obtain ⟨p1, a1, a1', n1, n1'⟩ := pole_bounds f1 (hfg.le.trans g2) hu
  obtain ⟨p2, a2, a2', n2, n2'⟩ := pole_bounds (f1.trans hfg.le) g2 hu
  have hd : 0 < g - f := sub_pos.mpr hfg
  have hsq : (0.2020 + 6.113e-8 * g) ^ 2 - (0.2020 + 6.113e-8 * f) ^ 2 ≤ 2.62e-8 * (g - f) := by
    rw [show (0.2020 + 6.113e-8 * g) ^ 2 - (0.2020 + 6.113e-8 * f) ^ 2 = ((0.2020 + 6.113e-8 * g) + (0.2020 + 6.113e-8 * f)) * 6.113e-8 * (g - f) by ring]
    apply mul_le_mul_of_nonneg_right _ hd.le
    norm_num at *
    linarith
  have hr : (0 : ℝ) < 12.52 ^ 2 - u := by norm_num at *; linarith
  have hr' : (12.52 : ℝ) ^ 2 - u ≤ 156.3904 := by norm_num at *; linarith
  have e2 : (189.32 + 1.516e-4 * g) / (12.52 ^ 2 - u) - (189.32 + 1.516e-4 * f) / (12.52 ^ 2 - u) ≥ 9.69e-7 * (g - f) := by
    rw [← sub_div, ge_iff_le, le_div_iff₀ hr]
    have := mul_le_mul_of_nonneg_left hr' hd.le
    norm_num at *
    linarith
  have e1 : (0.0983 + 4.700e-8 * g) / (u - (0.2020 + 6.113e-8 * g) ^ 2) - (0.0983 + 4.700e-8 * f) / (u - (0.2020 + 6.113e-8 * f) ^ 2) ≤ 1.79e-7 * (g - f) := by
    generalize hA : (0.2020 + 6.113e-8 * g : ℝ) ^ 2 = A at *
    generalize hB : (0.2020 + 6.113e-8 * f : ℝ) ^ 2 = B at *
    have hp1 : 0 < u - B := lt_of_lt_of_le (by norm_num) p1
    have hp2 : 0 < u - A := lt_of_lt_of_le (by norm_num) p2
    have e : (0.0983 + 4.700e-8 * g) / (u - A) - (0.0983 + 4.700e-8 * f) / (u - B) =
        4.700e-8 * (g - f) / (u - A) + (0.0983 + 4.700e-8 * f) * (A - B) / ((u - B) * (u - A)) := by
      field_simp
      ring
    have i1 : 4.700e-8 * (g - f) / (u - A) ≤ 1.5e-7 * (g - f) := by
      rw [div_le_iff₀ hp2]
      have := mul_le_mul_of_nonneg_left p2 hd.le
      norm_num at *
      linarith
    have i2 : (0.0983 + 4.700e-8 * f) * (A - B) / ((u - B) * (u - A)) ≤ 2.9e-8 * (g - f) := by
      rw [div_le_iff₀ (mul_pos hp1 hp2)]
      have j1 : 0.314 * 0.314 ≤ (u - B) * (u - A) := mul_le_mul p1 p2 (by norm_num) hp1.le
      have j2 : (0.0983 + 4.700e-8 * f) * (A - B) ≤ 0.1071 * (2.62e-8 * (g - f)) :=
        (mul_le_mul_of_nonneg_left hsq (le_trans (by norm_num) n1)).trans (mul_le_mul_of_nonneg_right n1' (by positivity))
      have j3 := mul_le_mul_of_nonneg_left j1 hd.le
      norm_num at *
      linarith
    rw [e]
    norm_num at *
    linarith
  unfold sqIndex
  norm_num at *
  linarith

/-- the numbers of `sqIndex_mixed` -/
theorem mixed_core {X Y D M m w e : ℝ} (hX : 0 < X) (hY : 4.088e-5 ≤ Y) (hw : 0 < w) (he : 0 < e) (hD : D ≤ 2.1e-6 * e) (m0 : 0 ≤ M)
    (m1 : M ≤ w * (0.1071 * X + 217.6 * Y + 1.32e-2)) (hm : w * (e * (4.700e-8 * X + 1.516e-4 * Y)) ≤ m) : D * M < 8 * m := by
  have hcore : 2.1e-6 * (0.1071 * X + 217.6 * Y + 1.32e-2) < 8 * (4.700e-8 * X + 1.516e-4 * Y) := by
    norm_num at *
    linarith
  calc D * M ≤ (2.1e-6 * e) * M := mul_le_mul_of_nonneg_right hD m0
    _ ≤ (2.1e-6 * e) * (w * (0.1071 * X + 217.6 * Y + 1.32e-2)) := mul_le_mul_of_nonneg_left m1 (mul_nonneg (by norm_num) he.le)
    _ = (e * w) * (2.1e-6 * (0.1071 * X + 217.6 * Y + 1.32e-2)) := by ring
    _ < (e * w) * (8 * (4.700e-8 * X + 1.516e-4 * Y)) := mul_lt_mul_of_pos_left hcore (mul_pos he hw)
    _ = 8 * (w * (e * (4.700e-8 * X + 1.516e-4 * Y))) := by ring
    _ ≤ _ := mul_le_mul_of_nonneg_left hm (by norm_num)

/-- the mixed second difference of the square -/
theorem sqIndex_mixed {f g u v : ℝ} (f1 : -2700 ≤ f) (hfg : f < g) (g2 : g ≤ 186000) (hu : 0.36 ≤ u) (huv : u < v) (hv : v ≤ 20.25) :
    0 < (sqIndex g u - sqIndex f u) - (sqIndex g v - sqIndex f v) ∧
    ∀ t, (t = f ∨ t = g) → (sqIndex g u - sqIndex f u) * (sqIndex t u - sqIndex t v) < 8 * ((sqIndex g u - sqIndex f u) - (sqIndex g v - sqIndex f v)) := by
  have hu' : u ≤ 20.25 := huv.le.trans hv
  obtain ⟨p1, a1, a1', n1, n1'⟩ := pole_bounds f1 (hfg.le.trans g2) hu
  obtain ⟨p2, a2, a2', n2, n2'⟩ := pole_bounds (f1.trans hfg.le) g2 hu
  obtain ⟨q1, -⟩ := pole_bounds f1 (hfg.le.trans g2) (hu.trans huv.le)
  obtain ⟨q2, -⟩ := pole_bounds (f1.trans hfg.le) g2 (hu.trans huv.le)
  have hd : 0 < g - f := sub_pos.mpr hfg
  have hw : 0 < v - u := sub_pos.mpr huv
  have hheat := sqIndex_heat f1 hfg g2 hu hu'
  have hr : (0 : ℝ) < 12.52 ^ 2 - u := by norm_num at *; linarith
  have hr' : (12.52 : ℝ) ^ 2 - u ≤ 156.3904 := by norm_num at *; linarith
  have hs : (0 : ℝ) < 12.52 ^ 2 - v := by norm_num at *; linarith
  have hs' : (12.52 : ℝ) ^ 2 - v ≤ 156.3904 := by norm_num at *; linarith
  have pos : ∀ {x : ℝ}, 0.314 ≤ x → 0 < x := fun h => lt_of_lt_of_le (by norm_num) h
  have eF := sqIndex_sub (f := f) (pos p1).ne' (pos q1).ne' hr.ne' hs.ne'
  have eG := sqIndex_sub (f := g) (pos p2).ne' (pos q2).ne' hr.ne' hs.ne'
  have hX : 1 / ((u - (0.2020 + 6.113e-8 * f) ^ 2) * (v - (0.2020 + 6.113e-8 * f) ^ 2)) ≤
      1 / ((u - (0.2020 + 6.113e-8 * g) ^ 2) * (v - (0.2020 + 6.113e-8 * g) ^ 2)) := by
    have hab : (0.2020 + 6.113e-8 * f) ^ 2 ≤ (0.2020 + 6.113e-8 * g) ^ 2 :=
      pow_le_pow_left₀ (le_trans (by norm_num) a1) (by norm_num at *; linarith) 2
    exact one_div_le_one_div_of_le (mul_pos (pos p2) (pos q2)) (mul_le_mul (by linarith) (by linarith) (pos q2).le (pos p1).le)
  have hX0 : 0 < 1 / ((u - (0.2020 + 6.113e-8 * f) ^ 2) * (v - (0.2020 + 6.113e-8 * f) ^ 2)) := one_div_pos.mpr (mul_pos (pos p1) (pos q1))
  have hY : 4.088e-5 ≤ 1 / (((12.52 : ℝ) ^ 2 - u) * (12.52 ^ 2 - v)) := by
    rw [le_div_iff₀ (mul_pos hr hs)]
    have := mul_le_mul hr' hs' hs.le (by norm_num)
    norm_num at *
    linarith
  generalize 1 / ((u - (0.2020 + 6.113e-8 * f) ^ 2) * (v - (0.2020 + 6.113e-8 * f) ^ 2)) = X1 at *
  generalize 1 / ((u - (0.2020 + 6.113e-8 * g) ^ 2) * (v - (0.2020 + 6.113e-8 * g) ^ 2)) = X2 at *
  generalize 1 / (((12.52 : ℝ) ^ 2 - u) * (12.52 ^ 2 - v)) = Y at *
  have hX2 : 0 < X2 := hX0.trans_le hX
  have hY0 : 0 < Y := lt_of_lt_of_le (by norm_num) hY
  -- the mixed difference from below
  have hmix : (v - u) * ((g - f) * (4.700e-8 * X2 + 1.516e-4 * Y)) ≤ (sqIndex g u - sqIndex f u) - (sqIndex g v - sqIndex f v) := by
    have e : (sqIndex g u - sqIndex f u) - (sqIndex g v - sqIndex f v) = (sqIndex g u - sqIndex g v) - (sqIndex f u - sqIndex f v) := by ring
    rw [e, eF, eG, ← mul_sub]
    apply mul_le_mul_of_nonneg_left _ hw.le
    have := mul_le_mul_of_nonneg_left hX (le_trans (by norm_num) n1 : 0 ≤ 0.0983 + 4.700e-8 * f)
    have e2 : (0.0983 + 4.700e-8 * g) * X2 = (0.0983 + 4.700e-8 * f) * X2 + 4.700e-8 * (g - f) * X2 := by ring
    rw [e2]
    have e3 : (189.32 + 1.516e-4 * g) * Y = (189.32 + 1.516e-4 * f) * Y + 1.516e-4 * (g - f) * Y := by ring
    rw [e3]
    have e4 : (g - f) * (4.700e-8 * X2 + 1.516e-4 * Y) = 4.700e-8 * (g - f) * X2 + 1.516e-4 * (g - f) * Y := by ring
    rw [e4]
    linarith
  -- the difference along the wavelength from above
  have hM : ∀ t, (t = f ∨ t = g) → 0 ≤ sqIndex t u - sqIndex t v ∧ sqIndex t u - sqIndex t v ≤ (v - u) * (0.1071 * X2 + 217.6 * Y + 1.32e-2) := by
    have hb : ∀ t : ℝ, -2700 ≤ t → t ≤ 186000 → 0 ≤ 189.32 + 1.516e-4 * t ∧ 189.32 + 1.516e-4 * t ≤ 217.6 := fun t h h' => by
      constructor <;> norm_num at * <;> linarith
    have gen : ∀ c b X : ℝ, 0 ≤ c → c ≤ 0.1071 → 0 < X → X ≤ X2 → 0 ≤ b → b ≤ 217.6 →
        0 ≤ (v - u) * (c * X + b * Y + 1.32e-2) ∧ (v - u) * (c * X + b * Y + 1.32e-2) ≤ (v - u) * (0.1071 * X2 + 217.6 * Y + 1.32e-2) := by
      intro c b X hc hc' hX hX' hb0 hb'
      constructor
      · have := mul_nonneg hc hX.le
        have := mul_nonneg hb0 hY0.le
        apply mul_nonneg hw.le
        norm_num at *
        linarith
      · apply mul_le_mul_of_nonneg_left _ hw.le
        have k1 := mul_le_mul hc' hX' hX.le (by norm_num : (0 : ℝ) ≤ 0.1071)
        have k2 := mul_le_mul_of_nonneg_right hb' hY0.le
        linarith
    rintro t (rfl | rfl)
    · rw [eF]
      obtain ⟨k1, k2⟩ := hb t f1 (hfg.le.trans g2)
      exact gen _ _ _ (le_trans (by norm_num) n1) n1' hX0 hX k1 k2
    · rw [eG]
      obtain ⟨k1, k2⟩ := hb t (f1.trans hfg.le) g2
      exact gen _ _ _ (le_trans (by norm_num) n2) n2' hX2 le_rfl k1 k2
  refine ⟨lt_of_lt_of_le (mul_pos hw (mul_pos hd (add_pos (mul_pos (by norm_num) hX2) (mul_pos (by norm_num) hY0)))) hmix, fun t ht => ?_⟩
  obtain ⟨m0, m1⟩ := hM t ht
  exact mixed_core hX2 hY hw hd hheat m0 m1 hmix

/-- the same for the square roots, from four numbers -/
theorem root_mixed {a b c d : ℝ} (ha : 2 ≤ a) (hb : 2 ≤ b) (hc : 2 ≤ c) (hd : 2 ≤ d)
    (h1 : (a ^ 2 - b ^ 2) * (a ^ 2 - c ^ 2) < 8 * ((a ^ 2 - b ^ 2) - (c ^ 2 - d ^ 2))) (h2 : (a ^ 2 - b ^ 2) * (b ^ 2 - d ^ 2) < 8 * ((a ^ 2 - b ^ 2) - (c ^ 2 - d ^ 2)))
    (hE : 0 < (a ^ 2 - b ^ 2) - (c ^ 2 - d ^ 2)) : c - d < a - b := by
  have k1 : (a ^ 2 - b ^ 2) * (a - c) < ((a ^ 2 - b ^ 2) - (c ^ 2 - d ^ 2)) * a := by
    have hs : 0 < a + c := by linarith
    have : (a ^ 2 - b ^ 2) * (a - c) * (a + c) < ((a ^ 2 - b ^ 2) - (c ^ 2 - d ^ 2)) * a * (a + c) := by
      have h8 : 8 ≤ a * (a + c) := by nlinarith
      have := mul_le_mul_of_nonneg_left h8 hE.le
      calc (a ^ 2 - b ^ 2) * (a - c) * (a + c) = (a ^ 2 - b ^ 2) * (a ^ 2 - c ^ 2) := by ring
        _ < 8 * ((a ^ 2 - b ^ 2) - (c ^ 2 - d ^ 2)) := h1
        _ ≤ _ := by linarith
    exact lt_of_mul_lt_mul_right this hs.le
  have k2 : (a ^ 2 - b ^ 2) * (b - d) < ((a ^ 2 - b ^ 2) - (c ^ 2 - d ^ 2)) * b := by
    have hs : 0 < b + d := by linarith
    have : (a ^ 2 - b ^ 2) * (b - d) * (b + d) < ((a ^ 2 - b ^ 2) - (c ^ 2 - d ^ 2)) * b * (b + d) := by
      have h8 : 8 ≤ b * (b + d) := by nlinarith
      have := mul_le_mul_of_nonneg_left h8 hE.le
      calc (a ^ 2 - b ^ 2) * (b - d) * (b + d) = (a ^ 2 - b ^ 2) * (b ^ 2 - d ^ 2) := by ring
        _ < 8 * ((a ^ 2 - b ^ 2) - (c ^ 2 - d ^ 2)) := h2
        _ ≤ _ := by linarith
    exact lt_of_mul_lt_mul_right this hs.le
  have k3 : (c - d) * ((a + b) * (c + d)) < (a - b) * ((a + b) * (c + d)) := by
    have e : (a - b) * ((a + b) * (c + d)) - (c - d) * ((a + b) * (c + d)) =
        ((a ^ 2 - b ^ 2) - (c ^ 2 - d ^ 2)) * a - (a ^ 2 - b ^ 2) * (a - c) + (((a ^ 2 - b ^ 2) - (c ^ 2 - d ^ 2)) * b - (a ^ 2 - b ^ 2) * (b - d)) := by ring
    linarith
  exact lt_of_mul_lt_mul_right k3 (by positivity)

theorem um_sq {wl : ℝ} (h1 : 600 ≤ wl) (h2 : wl ≤ 4500) : 0.36 ≤ (wl * 1e-3) ^ 2 ∧ (wl * 1e-3) ^ 2 ≤ 20.25 := by
  constructor <;> norm_num <;> nlinarith

/-- the squared index of either source -/
noncomputable def sqOf : Source → ℝ → ℝ → ℝ
  | .Deng => sqDeng
  | .Gayer_5pctMg => sqIndex

theorem load_n (src : Source) {t w : ℝ} (h1 : 20 ≤ t) (h2 : t ≤ 250) (h3 : 600 ≤ w) (h4 : w ≤ 4500) :
    (PPLN.load t src).n w = .val √(sqOf src (tempF t) ((w * 1e-3) ^ 2)) := by
  cases src with
  | Deng =>
    obtain ⟨u1, -, u3, u4⟩ := deng_bounds h1 h2 (by linarith : 400 ≤ w) (by linarith)
    show _ = NFlt.val √(sqDeng _ _)
    rw [← deng_nSq]
    exact Sell.n_of (le_of_lt (lt_of_le_of_lt (by norm_num) u1)) u3 u4
  | Gayer_5pctMg =>
    obtain ⟨u1, -, u3, u4⟩ := gayer_bounds h1 h2 (by linarith : 400 ≤ w) (by linarith)
    show _ = NFlt.val √(sqIndex _ _)
    rw [← gayer_nSq]
    exact Sell.n_of (le_of_lt (lt_of_le_of_lt (by norm_num) u1)) u3 u4

theorem sqOf_ge (src : Source) {f u : ℝ} (f1 : -2700 ≤ f) (f2 : f ≤ 186000) (hu : 0.36 ≤ u) (hu' : u ≤ 20.25) : 4 ≤ sqOf src f u := by
  cases src with
  | Deng => exact sqDeng_ge f1 f2 hu hu'
  | Gayer_5pctMg => exact sqIndex_ge f1 f2 hu hu'

theorem sqOf_mixed (src : Source) {f g u v : ℝ} (f1 : -2700 ≤ f) (hfg : f < g) (g2 : g ≤ 186000) (hu : 0.36 ≤ u) (huv : u < v) (hv : v ≤ 20.25) :
    0 < (sqOf src g u - sqOf src f u) - (sqOf src g v - sqOf src f v) ∧
    ∀ t, (t = f ∨ t = g) → (sqOf src g u - sqOf src f u) * (sqOf src t u - sqOf src t v) < 8 * ((sqOf src g u - sqOf src f u) - (sqOf src g v - sqOf src f v)) := by
  cases src with
  | Deng => exact sqDeng_mixed f1 hfg g2 hu huv hv
  | Gayer_5pctMg => exact sqIndex_mixed f1 hfg g2 hu huv hv

/-- C190: with either set of data, between 20 and 250 degrees and between 0.6 and 4.5 micrometres, the index rises more with temperature for the shorter wavelength. -/
theorem C190_thermal_dispersion (src : Source) {T T' u v : ℝ} (hT : 20 ≤ T) (h : T < T') (hT' : T' ≤ 250) (hu : 600 ≤ u) (huv : u < v) (hv : v ≤ 4500) :
    ∃ a b c d, (PPLN.load T' src).n u = .val a ∧ (PPLN.load T src).n u = .val b ∧ (PPLN.load T' src).n v = .val c ∧ (PPLN.load T src).n v = .val d ∧ c - d < a - b := by
  refine ⟨_, _, _, _, load_n src (by linarith) hT' hu (by linarith), load_n src hT (by linarith) hu (by linarith), load_n src (by linarith) hT' (by linarith) hv,
    load_n src hT (by linarith) (by linarith) hv, ?_⟩
  obtain ⟨f1, f2⟩ := tempF_bounds hT (by linarith : T ≤ 250)
  obtain ⟨g1, g2⟩ := tempF_bounds (by linarith : 20 ≤ T') hT'
  have hfg := tempF_strictMono hT h
  obtain ⟨x1, x2⟩ := um_sq hu (by linarith : u ≤ 4500)
  obtain ⟨y1, y2⟩ := um_sq (by linarith : 600 ≤ v) hv
  have hxy : (u * 1e-3) ^ 2 < (v * 1e-3) ^ 2 := pow_lt_pow_left₀ (by norm_num; linarith) (by norm_num; linarith) (by norm_num)
  have r : ∀ {f w : ℝ}, -2700 ≤ f → f ≤ 186000 → 0.36 ≤ w → w ≤ 20.25 → 2 ≤ √(sqOf src f w) ∧ √(sqOf src f w) ^ 2 = sqOf src f w := fun a b c d => by
    have := sqOf_ge src a b c d
    refine ⟨?_, Real.sq_sqrt (by linarith)⟩
    rw [Real.le_sqrt (by norm_num) (by linarith)]
    linarith
  have m := sqOf_mixed src f1 hfg g2 x1 hxy y2
  obtain ⟨A, A2⟩ := r g1 g2 x1 x2
  obtain ⟨B, B2⟩ := r f1 f2 x1 x2
  obtain ⟨C, C2⟩ := r g1 g2 y1 y2
  obtain ⟨D, D2⟩ := r f1 f2 y1 y2
  refine root_mixed A B C D ?_ ?_ ?_
  · rw [A2, B2, C2, D2]
    exact m.2 _ (Or.inr rfl)
  · rw [A2, B2, C2, D2]
    exact m.2 _ (Or.inl rfl)
  · rw [A2, B2, C2, D2]
    exact m.1

/-- C190: for the same beams and crystal length, the poling period that `calculate_poling_period` returns for the warmer crystal is the shorter one. -/
theorem C190_period (src : Source) {T T' p s Λ Λ' dkL : ℝ} {len new new' : Option ℝ} (hT : 20 ≤ T) (h : T < T') (hT' : T' ≤ 250) (hp : 600 ≤ p) (hps : p < s) (hs : s ≤ 4500)
    (hi : 1 / p - 1 / s ≥ 1 / 4500) (hΛ : polingPeriod (PPLN.load T src).n len (some p) (some s) none dkL = .ok (.val Λ, new))
    (hΛ' : polingPeriod (PPLN.load T' src).n len (some p) (some s) none dkL = .ok (.val Λ', new')) (pos : 0 < Λ) : 0 < Λ' ∧ Λ' < Λ := by
  obtain ⟨-, P, S, I, np, ns, ni, e1, e2, e3, e4, hc⟩ := C61_qpm _ _ _ _ _ _ _ _ hΛ
  obtain ⟨hne', P', S', I', np', ns', ni', e1', e2', e3', e4', hc'⟩ := C61_qpm _ _ _ _ _ _ _ _ hΛ'
  simp only [reduceCtorEq, false_and, and_false, false_or, Option.some.injEq, true_and] at hc hc'
  obtain ⟨rfl, rfl, hn, hE⟩ := hc
  obtain ⟨rfl, rfl, hn', hE'⟩ := hc'
  have hp0 : 0 < p := by linarith
  have hs0 : 0 < s := by linarith
  obtain ⟨-, -, hI, hE⟩ := hE
  obtain ⟨-, -, hI', hE'⟩ := hE'
  have hII : I' = I := by
    have : 1 / I' = 1 / I := by linarith
    rw [div_eq_div_iff hI' hI] at this
    linarith
  subst hII
  have hinv : 1 / 4500 ≤ 1 / I' := by linarith
  have hI0 : 0 < I' := by
    have : 0 < 1 / I' := lt_of_lt_of_le (by norm_num) hinv
    exact one_div_pos.mp this
  have hI4 : I' ≤ 4500 := le_of_one_div_le_one_div (by norm_num) hinv
  have hpI : p < I' := by
    apply lt_of_one_div_lt_one_div hI0
    have : 0 < 1 / s := one_div_pos.mpr hs0
    linarith
  obtain ⟨a, b, c, d, a1, b1, c1, d1, hlt⟩ := C190_thermal_dispersion src hT h hT' hp hps hs
  obtain ⟨a', b', x, y, a2, b2, x1, y1, hlt'⟩ := C190_thermal_dispersion src hT h hT' hp hpI hI4
  rw [a1] at a2 e1'
  rw [b1] at b2 e1
  rw [c1] at e2'
  rw [d1] at e2
  rw [x1] at e3'
  rw [y1] at e3
  obtain rfl := NFlt.val.inj a2
  obtain rfl := NFlt.val.inj b2
  obtain rfl := NFlt.val.inj e1
  obtain rfl := NFlt.val.inj e1'
  obtain rfl := NFlt.val.inj e2
  obtain rfl := NFlt.val.inj e2'
  obtain rfl := NFlt.val.inj e3
  obtain rfl := NFlt.val.inj e3'
  have k : 2 * π / Λ' - 2 * π / Λ = 2 * π * 1e9 * (((a - b) - (c - d)) * (1 / s) + ((a - b) - (x - y)) * (1 / I')) := by
    have w : ∀ n wl : ℝ, waveNumber n wl = 2 * π * 1e9 * (n * (1 / wl)) := fun n wl => by
      unfold waveNumber
      rw [show (1e9 : ℝ) = 1 / 1e-9 by norm_num]
      rw [div_mul_eq_div_div, div_eq_mul_one_div _ (1e-9 : ℝ)]
      ring
    rw [w, w, w] at e4 e4'
    rw [hE] at e4 e4'
    cases len <;> simp only at e4 e4' <;> linear_combination e4 - e4'
  have kpos : 0 < 2 * π / Λ' - 2 * π / Λ := by
    rw [k]
    have j1 := mul_pos (sub_pos.mpr hlt) (one_div_pos.mpr hs0)
    have j2 := mul_pos (sub_pos.mpr hlt') (one_div_pos.mpr hI0)
    have : (0 : ℝ) < 2 * π * 1e9 := by positivity
    exact mul_pos this (add_pos j1 j2)
  have h1 : 0 < 2 * π / Λ := by positivity
  have h2 : 0 < Λ' := by
    have : 0 < 2 * π / Λ' := by linarith
    exact (div_pos_iff_of_pos_left (by positivity)).mp this
  refine ⟨h2, ?_⟩
  have : 2 * π / Λ < 2 * π / Λ' := by linarith
  exact (div_lt_div_iff_of_pos_left (by positivity) pos h2).mp this

/-- beside C190: with 1064 nm into 1550 nm (idler near 3393 nm) every hypothesis is met at 25 and at 150 degrees, and the period is positive. -/
theorem C190_nonvacuous (src : Source) : ∃ Λ Λ' new, (1 / 1064 - 1 / 1550 : ℝ) ≥ 1 / 4500 ∧
    polingPeriod (PPLN.load 25 src).n none (some 1064) (some 1550) none 3.2 = .ok (.val Λ, new) ∧
    polingPeriod (PPLN.load 150 src).n none (some 1064) (some 1550) none 3.2 = .ok (.val Λ', new) ∧ 0 < Λ ∧ Λ' < Λ := by
  have main : ∀ T : ℝ, 20 ≤ T → T ≤ 250 → ∃ Λ, polingPeriod (PPLN.load T src).n none (some 1064) (some 1550) none 3.2 =
      .ok (.val Λ, some (1 / (1 / 1064 - 1 / 1550))) ∧ 0 < Λ := by
    intro T h1 h2
    obtain ⟨a, b, ha, hb, hab⟩ := C91_normal_dispersion src T 1064 1550 h1 h2 (by norm_num) (by norm_num) (by norm_num)
    obtain ⟨a', c, ha', hc, hac⟩ := C91_normal_dispersion src T 1064 (1 / (1 / 1064 - 1 / 1550)) h1 h2 (by norm_num) (by norm_num) (by norm_num)
    rw [ha] at ha'
    obtain rfl := NFlt.val.inj ha'
    have hd : 0 < a * 2 * π / 1064 - b * 2 * π / 1550 - c * 2 * π / (1 / (1 / 1064 - 1 / 1550)) - 0 := by
      have e : a * 2 * π / 1064 - b * 2 * π / 1550 - c * 2 * π / (1 / (1 / 1064 - 1 / 1550)) - 0 =
          2 * π * ((a - b) * (1 / 1550) + (a - c) * (1 / 1064 - 1 / 1550)) := by
        norm_num
        ring
      rw [e]
      have j1 : 0 < (a - b) * (1 / 1550) := mul_pos (sub_pos.mpr hab) (by norm_num)
      have j2 : 0 < (a - c) * (1 / 1064 - 1 / 1550) := mul_pos (sub_pos.mpr hac) (by norm_num)
      exact mul_pos (by positivity) (add_pos j1 j2)
    refine ⟨π / (a * 2 * π / 1064 - b * 2 * π / 1550 - c * 2 * π / (1 / (1 / 1064 - 1 / 1550)) - 0) * 1e-9 * 2, ?_, by positivity⟩
    have i0 : (1 / (1 / 1064 - 1 / 1550) : ℝ) ≠ 0 := by norm_num
    have hf : fill (some 1064) (some 1550) none = .ok (1064, 1550, 1 / (1 / 1064 - 1 / 1550), some (1 / (1 / 1064 - 1 / 1550))) := by
      simp only [fill, inv_of_ne (show (1064 : ℝ) ≠ 0 by norm_num), inv_of_ne (show (1550 : ℝ) ≠ 0 by norm_num), except_bind_ok,
        inv_of_ne (show (1 / 1064 - 1 / 1550 : ℝ) ≠ 0 by norm_num)]
      rfl
    have k1 : kOf (PPLN.load T src).n 1064 = .val (a * 2 * π / 1064) := by
      unfold kOf; rw [if_neg (by norm_num), ha]; rfl
    have k2 : kOf (PPLN.load T src).n 1550 = .val (b * 2 * π / 1550) := by
      unfold kOf; rw [if_neg (by norm_num), hb]; rfl
    have k3 : kOf (PPLN.load T src).n (1 / (1 / 1064 - 1 / 1550)) = .val (c * 2 * π / (1 / (1 / 1064 - 1 / 1550))) := by
      unfold kOf; rw [if_neg i0, hc]; rfl
    unfold polingPeriod
    rw [hf]
    simp only [except_bind_ok, pure_bind, k1, k2, k3, NFlt.map₂, if_neg hd.ne', NFlt.map]
    rfl
  obtain ⟨Λ, h1, p1⟩ := main 25 (by norm_num) (by norm_num)
  obtain ⟨Λ', h2, p2⟩ := main 150 (by norm_num) (by norm_num)
  refine ⟨Λ, Λ', _, by norm_num, h1, h2, p1, ?_⟩
  exact (C190_period src (by norm_num) (by norm_num) (by norm_num) (by norm_num) (by norm_num) (by norm_num) (by norm_num) h1 h2 p1).2

end PyNLO.Xtal
