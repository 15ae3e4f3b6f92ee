import Verif.Model.CrystalAgGaS
import Verif.Props.CrystalDisp

/-!
# C140: both silver gallium crystals are negative uniaxial
-/

namespace PyNLO.Xtal

open Real

theorem rpow_le_root {u M c : ℝ} {q r : ℕ} {X : ℝ} (h1 : 1 ≤ u) (h2 : u ≤ X) (hr : 0 < r) (hc : c ≤ (q : ℝ) / r) (hM : 0 ≤ M) (hX : X ^ q ≤ M ^ r) : u ^ c ≤ M := by
  have hX0 : 0 ≤ X := by linarith
  have e1 : u ^ c ≤ u ^ ((q : ℝ) / r) := rpow_le_rpow_of_exponent_le h1 hc
  have e2 : u ^ ((q : ℝ) / r) ≤ X ^ ((q : ℝ) / r) := rpow_le_rpow (by linarith) h2 (by positivity)
  have e3 : X ^ ((q : ℝ) / r) ≤ M := by
    have h4 : (X ^ ((q : ℝ) / r)) ^ r = X ^ q := by
      rw [← rpow_natCast, ← rpow_mul hX0, ← rpow_natCast]
      congr 1
      have : (r : ℝ) ≠ 0 := by exact_mod_cast hr.ne'
      field_simp
    by_contra h
    push Not at h
    have := pow_lt_pow_left₀ h hM hr.ne'
    rw [h4] at this
    linarith
  linarith

theorem le_rpow_root {u M c : ℝ} {q r : ℕ} {X : ℝ} (hX1 : 1 ≤ X) (h2 : X ≤ u) (hr : 0 < r) (hc : (q : ℝ) / r ≤ c) (hX : M ^ r ≤ X ^ q) : M ≤ u ^ c := by
  have hX0 : 0 ≤ X := by linarith
  have e1 : X ^ c ≤ u ^ c := rpow_le_rpow hX0 h2 (le_trans (by positivity) hc)
  have e2 : X ^ ((q : ℝ) / r) ≤ X ^ c := rpow_le_rpow_of_exponent_le hX1 hc
  have e3 : M ≤ X ^ ((q : ℝ) / r) := by
    have h4 : (X ^ ((q : ℝ) / r)) ^ r = X ^ q := by
      rw [← rpow_natCast, ← rpow_mul hX0, ← rpow_natCast]
      congr 1
      have : (r : ℝ) ≠ 0 := by exact_mod_cast hr.ne'
      field_simp
    by_contra h
    push Not at h
    have := pow_lt_pow_left₀ h (rpow_nonneg hX0 _) hr.ne'
    rw [h4] at this
    linarith
  linarith

/-- the infrared term -/
theorem pole_eq {D E w : ℝ} (hw : 0 < w) (hE : w < E) : D / (1 - E / w) = -(D * w / (E - w)) := by
  have h1 : E - w ≠ 0 := by linarith
  have h2 : w - E ≠ 0 := by linarith
  rw [show 1 - E / w = (w - E) / w by field_simp, div_div_eq_mul_div, ← div_neg, neg_sub]

/-- the squares of the two indices of the sulfide, with the powers of the wavelength abstracted -/
theorem sulfide_alg {O1 O2 O3 E y w : ℝ} (o1 : 0 ≤ O1) (o2 : 0 ≤ O2) (o3 : 0 ≤ O3) (o : O1 + O2 + O3 ≤ 0.3) (e : 0 ≤ E) (y1 : 1 ≤ y) (hy : y ≤ 321) (hyw : y ≤ w)
    (hw : w ≤ 472) (hreg : (y ≤ 12 ∧ E ≤ 0.2386) ∨ E ≤ 0.04) :
    2.1 ^ 2 < 5.530050 + E - 4253.78 * w / (4304924.0 - w) ∧
      5.530050 + E - 4253.78 * w / (4304924.0 - w) < 5.814100 + O1 + O2 + O3 - 176380.0 * y / (112586195.0 - y) ∧
      5.814100 + O1 + O2 + O3 - 176380.0 * y / (112586195.0 - y) < 2.6 ^ 2 := by
  have iy : 176380.0 * y / (112586195.0 - y) ≤ 0.0015667 * y := by
    rw [div_le_iff₀ (by linarith)]
    nlinarith
  have iy0 : 0 ≤ 176380.0 * y / (112586195.0 - y) := div_nonneg (by linarith) (by linarith)
  have iw : 0.000988 * w ≤ 4253.78 * w / (4304924.0 - w) := by
    rw [le_div_iff₀ (by linarith)]
    nlinarith
  have iw2 : 4253.78 * w / (4304924.0 - w) ≤ 0.00099 * w := by
    rw [div_le_iff₀ (by linarith)]
    nlinarith
  generalize 176380.0 * y / (112586195.0 - y) = P at *
  generalize 4253.78 * w / (4304924.0 - w) = Q at *
  refine ⟨by norm_num; linarith, ?_, by norm_num; linarith⟩
  rcases hreg with ⟨k1, k2⟩ | k2 <;> linarith

/-- the selenide up to three micrometres -/
theorem selenide_short {s r y w f e : ℝ} (s1 : 1 ≤ s) (r1 : 1 ≤ r) (hr : r ≤ 1.09 * s) (y1 : 1 ≤ y) (hy : y ≤ 9) (hyw : y ≤ w) (hw : w ≤ 590) (hf : 0 ≤ f) (he : e ≤ 0.0154) :
    6.675232 + 0.436579 / (s - 0.229775) + e - 3.252722 * w / (3129.32 - w) < 6.849065 + 0.417863 / (r - 0.178080) + f - 1.209374 * y / (915.345 - y) := by
  have b1 : 0.417863 / (1.09 * s - 0.178080) ≤ 0.417863 / (r - 0.178080) := div_le_div_of_nonneg_left (by norm_num) (by linarith) (by linarith)
  have b2 : 0.436579 / (s - 0.229775) - 0.12 ≤ 0.417863 / (1.09 * s - 0.178080) := by
    rw [le_div_iff₀ (by linarith), sub_mul, div_mul_eq_mul_div, sub_le_iff_le_add, div_le_iff₀ (by linarith)]
    nlinarith [mul_nonneg (by linarith : 0 ≤ s - 1) (by linarith : 0 ≤ s - 1)]
  have iy : 1.209374 * y / (915.345 - y) ≤ 0.00135 * y := by
    rw [div_le_iff₀ (by linarith)]
    nlinarith
  have iw : 0.001 * w ≤ 3.252722 * w / (3129.32 - w) := by
    rw [le_div_iff₀ (by linarith)]
    nlinarith
  linarith

/-- the selenide beyond three micrometres -/
theorem selenide_long {s r y w f e : ℝ} (hs : 7.9 ≤ s) (r1 : 1 ≤ r) (y1 : 1 ≤ y) (hy : y ≤ 237) (hyw : 1.147 * y ≤ w) (hw : w ≤ 590) (hf : 0 ≤ f) (he : e ≤ 0.0002) :
    6.675232 + 0.436579 / (s - 0.229775) + e - 3.252722 * w / (3129.32 - w) < 6.849065 + 0.417863 / (r - 0.178080) + f - 1.209374 * y / (915.345 - y) := by
  have a1 : 0.436579 / (s - 0.229775) ≤ 0.057 := by
    rw [div_le_iff₀ (by linarith)]
    linarith
  have b1 : 0 ≤ 0.417863 / (r - 0.178080) := div_nonneg (by norm_num) (by linarith)
  have iw : 3.252722 * (1.147 * y) / (3129.32 - 1.147 * y) ≤ 3.252722 * w / (3129.32 - w) :=
    div_le_div₀ (by linarith) (by linarith) (by linarith) (by linarith)
  have iy : 1.209374 * y / (915.345 - y) ≤ 0.1155 + 3.252722 * (1.147 * y) / (3129.32 - 1.147 * y) := by
    rw [div_le_iff₀ (by linarith), add_mul, div_mul_eq_mul_div, ← sub_le_iff_le_add', le_div_iff₀ (by linarith)]
    nlinarith [mul_nonneg (by linarith : 0 ≤ y) (by linarith : 0 ≤ 237 - y)]
  linarith

/-- the guard of the index function holds and its infrared term can be rewritten -/
theorem sulfide_val {A B C D E F G J K a b c d wl : ℝ} (h0 : 0 < wl * 1e-3) (h1 : (wl * 1e-3) ^ a - C ≠ 0) (h2 : (wl * 1e-3) ^ b - G ≠ 0) (h3 : (wl * 1e-3) ^ c - K ≠ 0)
    (h4 : (wl * 1e-3) ^ d < E) {v : ℝ}
    (hv : A + B / ((wl * 1e-3) ^ a - C) + F / ((wl * 1e-3) ^ b - G) + J / ((wl * 1e-3) ^ c - K) - D * (wl * 1e-3) ^ d / (E - (wl * 1e-3) ^ d) = v) (hv0 : 0 ≤ v) :
    sulfide A B C D E F G J K a b c d wl = .val √v := by
  have hd : 0 < (wl * 1e-3) ^ d := rpow_pos_of_pos h0 d
  have e : sulfideSq A B C D E F G J K a b c d wl = v := by
    rw [← hv]
    unfold sulfideSq
    simp only
    rw [pole_eq hd h4]
    ring
  unfold sulfide
  simp only
  rw [e, if_neg]
  rintro (h | h | h | h | h | h)
  · exact absurd h0 (not_lt.2 h)
  · exact h1 h
  · exact h2 h
  · exact h3 h
  · have := (div_eq_one_iff_eq hd.ne').1 (sub_eq_zero.1 h).symm
    exact absurd h4 (by rw [this]; exact lt_irrefl _)
  · exact absurd hv0 (not_le.2 h)

theorem frac_le {a x b c : ℝ} (ha : 0 ≤ a) (hx : 1 ≤ x) (hb : b < 1) (h : a ≤ c * (1 - b)) : a / (x - b) ≤ c := by
  have : 0 ≤ c := by
    by_contra hc
    push Not at hc
    nlinarith
  rw [div_le_iff₀ (by linarith)]
  nlinarith

theorem frac_le' {a x b c X : ℝ} (ha : 0 ≤ a) (hx : X ≤ x) (hb : b < X) (h : a ≤ c * (X - b)) : a / (x - b) ≤ c := by
  have : 0 ≤ c := by
    by_contra hc
    push Not at hc
    nlinarith
  rw [div_le_iff₀ (by linarith)]
  nlinarith

theorem frac_nonneg {a x b : ℝ} (ha : 0 ≤ a) (hx : 1 ≤ x) (hb : b < 1) : 0 ≤ a / (x - b) := div_nonneg ha (by linarith)

theorem den_ne {x b : ℝ} (hx : 1 ≤ x) (hb : b < 1) : x - b ≠ 0 := by
  intro h
  linarith

/-- the ultraviolet terms of the extraordinary index -/
theorem sulfide_reg {u : ℝ} (hu1 : 1 ≤ u) : (u ^ (2.225043 : ℝ) ≤ 12 ∧
      0.0510941 / (u ^ (2.359877 : ℝ) - 0.141109) + 0.195314 / (u ^ (2.566664 : ℝ) - (-0.0910735)) ≤ 0.2386) ∨
    0.0510941 / (u ^ (2.359877 : ℝ) - 0.141109) + 0.195314 / (u ^ (2.566664 : ℝ) - (-0.0910735)) ≤ 0.04 := by
  rcases le_or_gt u 3 with h3 | h3
  · left
    refine ⟨rpow_le_root (q := 9) (r := 4) hu1 h3 (by norm_num) (by norm_num) (by norm_num) (by norm_num), ?_⟩
    have a1 : 0.0510941 / (u ^ (2.359877 : ℝ) - 0.141109) ≤ 0.0595 := frac_le (by norm_num) (one_le_rpow hu1 (by norm_num)) (by norm_num) (by norm_num)
    have a2 : 0.195314 / (u ^ (2.566664 : ℝ) - (-0.0910735)) ≤ 0.17905 := frac_le (by norm_num) (one_le_rpow hu1 (by norm_num)) (by norm_num) (by norm_num)
    exact (add_le_add a1 a2).trans (by norm_num)
  · right
    have b1 : (9 : ℝ) ≤ u ^ (2.359877 : ℝ) := le_rpow_root (q := 2) (r := 1) (X := 3) (by norm_num) h3.le (by norm_num) (by norm_num) (by norm_num)
    have b2 : (9 : ℝ) ≤ u ^ (2.566664 : ℝ) := le_rpow_root (q := 2) (r := 1) (X := 3) (by norm_num) h3.le (by norm_num) (by norm_num) (by norm_num)
    have a1 : 0.0510941 / (u ^ (2.359877 : ℝ) - 0.141109) ≤ 0.01 := frac_le' (by norm_num) b1 (by norm_num) (by norm_num)
    have a2 : 0.195314 / (u ^ (2.566664 : ℝ) - (-0.0910735)) ≤ 0.03 := frac_le' (by norm_num) b2 (by norm_num) (by norm_num)
    exact (add_le_add a1 a2).trans (by norm_num)

/-- C140: between 1 and 13 micrometres both indices of the crystal of `XTAL_AgGaS.py` are numbers between 2.1 and 2.6 and the extraordinary one is the
smaller. -/
theorem C140_sulfide (theta wl : ℝ) (h1 : 1000 ≤ wl) (h2 : wl ≤ 13000) :
    ∃ no ne, (agGaS theta).no wl = .val no ∧ (agGaS theta).ne wl = .val ne ∧ 2.1 < ne ∧ ne < no ∧ no < 2.6 := by
  have hu1 : (1 : ℝ) ≤ wl * 1e-3 := by norm_num; linarith
  have hu2 : wl * 1e-3 ≤ 13 := by norm_num; linarith
  have hu0 : 0 < wl * 1e-3 := lt_of_lt_of_le one_pos hu1
  have p1 : 1 ≤ (wl * 1e-3) ^ (3.156983 : ℝ) := one_le_rpow hu1 (by norm_num)
  have p2 : 1 ≤ (wl * 1e-3) ^ (4.430430 : ℝ) := one_le_rpow hu1 (by norm_num)
  have p3 : 1 ≤ (wl * 1e-3) ^ (6.604280 : ℝ) := one_le_rpow hu1 (by norm_num)
  have p4 : 1 ≤ (wl * 1e-3) ^ (2.225043 : ℝ) := one_le_rpow hu1 (by norm_num)
  have q1 : 1 ≤ (wl * 1e-3) ^ (2.359877 : ℝ) := one_le_rpow hu1 (by norm_num)
  have q2 : 1 ≤ (wl * 1e-3) ^ (2.566664 : ℝ) := one_le_rpow hu1 (by norm_num)
  have r4 : (wl * 1e-3) ^ (2.225043 : ℝ) ≤ 321 := rpow_le_root (q := 9) (r := 4) hu1 hu2 (by norm_num) (by norm_num) (by norm_num) (by norm_num)
  have s4 : (wl * 1e-3) ^ (2.225043 : ℝ) ≤ (wl * 1e-3) ^ (2.383834 : ℝ) := rpow_le_rpow_of_exponent_le hu1 (by norm_num)
  have t4 : (wl * 1e-3) ^ (2.383834 : ℝ) ≤ 472 := rpow_le_root (q := 12) (r := 5) hu1 hu2 (by norm_num) (by norm_num) (by norm_num) (by norm_num)
  have o1 : 0.0867547 / ((wl * 1e-3) ^ (3.156983 : ℝ) - 0.0356502) ≤ 0.1 := frac_le (by norm_num) p1 (by norm_num) (by norm_num)
  have o2 : 0.0821721 / ((wl * 1e-3) ^ (4.430430 : ℝ) - (-0.315646)) ≤ 0.1 := frac_le (by norm_num) p2 (by norm_num) (by norm_num)
  have o3 : 0.506566 / ((wl * 1e-3) ^ (6.604280 : ℝ) - (-6.582197)) ≤ 0.1 := frac_le (by norm_num) p3 (by norm_num) (by norm_num)
  obtain ⟨lo, lt, hi⟩ := sulfide_alg (frac_nonneg (by norm_num) p1 (by norm_num)) (frac_nonneg (by norm_num) p2 (by norm_num)) (frac_nonneg (by norm_num) p3 (by norm_num))
    ((add_le_add (add_le_add o1 o2) o3).trans (by norm_num))
    (add_nonneg (frac_nonneg (by norm_num) q1 (by norm_num)) (frac_nonneg (by norm_num) q2 (by norm_num))) p4 r4 s4 t4 (sulfide_reg hu1)
  have lo' := (show (0 : ℝ) ≤ 2.1 ^ 2 by norm_num).trans lo.le
  refine ⟨_, _, sulfide_val hu0 (den_ne p1 (by norm_num)) (den_ne p2 (by norm_num)) (den_ne p3 (by norm_num)) (lt_of_le_of_lt r4 (by norm_num)) rfl (lo'.trans lt.le),
    sulfide_val hu0 (den_ne q1 (by norm_num)) (den_ne q2 (by norm_num)) (by norm_num) (lt_of_le_of_lt t4 (by norm_num)) (by rw [zero_div, add_zero, add_assoc (5.530050 : ℝ)]) lo',
    lt_sqrt_of_sq_lt lo, sqrt_lt_sqrt lo' lt, (sqrt_lt' (by norm_num)).mpr hi⟩

theorem sulfide_bad {A B C D E F G J K a b c d wl : ℝ} (h : sulfideSq A B C D E F G J K a b c d wl < 0) :
    sulfide A B C D E F G J K a b c d wl = .bad := by
  unfold sulfide
  simp only [h, or_true, if_true]

theorem beyond_pole {D E v X : ℝ} (hD : 0 ≤ D) (hX : 0 < X) (hv : X ≤ v) (hE : v < E) : D / (1 - E / v) ≤ -(D * X / E) := by
  have v0 : 0 < v := hX.trans_le hv
  have e : D / (1 - E / v) = -(D * v / (E - v)) := by
    have : E - v ≠ 0 := by linarith
    have h2 : v - E ≠ 0 := by linarith
    rw [show 1 - E / v = (v - E) / v by field_simp, ← neg_sub E v]
    field_simp
  rw [e]
  have : D * X / E ≤ D * v / (E - v) :=
    div_le_div₀ (by positivity) (mul_le_mul_of_nonneg_left hv hD) (by linarith) (by linarith)
  linarith

/-- C140: the fit ends where the crystal starts to absorb: from 50 to 400 micrometres the squared indices are negative and neither index
is a number. -/
theorem C140_absorbs (theta wl : ℝ) (h1 : 50000 ≤ wl) (h2 : wl ≤ 400000) :
    (agGaS theta).no wl = .bad ∧ (agGaS theta).ne wl = .bad := by
  have hu1 : (50 : ℝ) ≤ wl * 1e-3 := by norm_num; linarith
  have hu2 : wl * 1e-3 ≤ 400 := by norm_num; linarith
  have hu : (1 : ℝ) ≤ wl * 1e-3 := by linarith
  have p1 : 1 ≤ (wl * 1e-3) ^ (3.156983 : ℝ) := one_le_rpow hu (by norm_num)
  have p2 : 1 ≤ (wl * 1e-3) ^ (4.430430 : ℝ) := one_le_rpow hu (by norm_num)
  have p3 : 1 ≤ (wl * 1e-3) ^ (6.604280 : ℝ) := one_le_rpow hu (by norm_num)
  have q1 : 1 ≤ (wl * 1e-3) ^ (2.359877 : ℝ) := one_le_rpow hu (by norm_num)
  have q2 : 1 ≤ (wl * 1e-3) ^ (2.566664 : ℝ) := one_le_rpow hu (by norm_num)
  have r4 : (wl * 1e-3) ^ (2.225043 : ℝ) ≤ 720000 := rpow_le_root (q := 9) (r := 4) hu hu2 (by norm_num) (by norm_num) (by norm_num) (by norm_num)
  have t4 : (wl * 1e-3) ^ (2.383834 : ℝ) ≤ 1800000 := rpow_le_root (q := 12) (r := 5) hu hu2 (by norm_num) (by norm_num) (by norm_num) (by norm_num)
  have l4 : (5000 : ℝ) ≤ (wl * 1e-3) ^ (2.225043 : ℝ) := le_rpow_root (q := 11) (r := 5) (X := 50) (by norm_num) hu1 (by norm_num) (by norm_num) (by norm_num)
  have m4 : (8000 : ℝ) ≤ (wl * 1e-3) ^ (2.383834 : ℝ) := le_rpow_root (q := 7) (r := 3) (X := 50) (by norm_num) hu1 (by norm_num) (by norm_num) (by norm_num)
  have o1 : 0.0867547 / ((wl * 1e-3) ^ (3.156983 : ℝ) - 0.0356502) ≤ 0.1 := frac_le (by norm_num) p1 (by norm_num) (by norm_num)
  have o2 : 0.0821721 / ((wl * 1e-3) ^ (4.430430 : ℝ) - (-0.315646)) ≤ 0.1 := frac_le (by norm_num) p2 (by norm_num) (by norm_num)
  have o3 : 0.506566 / ((wl * 1e-3) ^ (6.604280 : ℝ) - (-6.582197)) ≤ 0.1 := frac_le (by norm_num) p3 (by norm_num) (by norm_num)
  have e1 : 0.0510941 / ((wl * 1e-3) ^ (2.359877 : ℝ) - 0.141109) ≤ 0.1 := frac_le (by norm_num) q1 (by norm_num) (by norm_num)
  have e2 : 0.195314 / ((wl * 1e-3) ^ (2.566664 : ℝ) - (-0.0910735)) ≤ 0.2 := frac_le (by norm_num) q2 (by norm_num) (by norm_num)
  have o4 := beyond_pole (D := 176380.0) (E := 112586195.0) (by norm_num) (by norm_num) l4 (lt_of_le_of_lt r4 (by norm_num))
  have e4 := beyond_pole (D := 4253.78) (E := 4304924.0) (by norm_num) (by norm_num) m4 (lt_of_le_of_lt t4 (by norm_num))
  constructor
  · refine sulfide_bad (lt_of_le_of_lt (add_le_add (add_le_add (add_le_add (add_le_add le_rfl o1) o2) o3) o4) (by norm_num))
  · refine sulfide_bad ?_
    unfold sulfideSq
    simp only
    rw [zero_div, add_zero]
    exact lt_of_le_of_lt (add_le_add (add_le_add (add_le_add le_rfl e1) e2) e4) (by norm_num)

/-- C140: between 1 and 17 micrometres the extraordinary index of AgGaSe2 is below the ordinary one. -/
theorem C140_selenide (theta wl : ℝ) (h1 : 1000 ≤ wl) (h2 : wl ≤ 17000) :
    ∃ no ne, (agGaSe2 theta).no wl = .val no ∧ (agGaSe2 theta).ne wl = .val ne ∧ 0 < ne ∧ ne < no := by
  obtain ⟨no, ne, -, ho, he, -, ⟨o1, -⟩, ⟨e1, -⟩, -⟩ := C93_physical theta wl h1 h2
  refine ⟨no, ne, ho, he, by linarith, ?_⟩
  set u := wl * 1e-3 with hu
  have hu1 : (1 : ℝ) ≤ u := by rw [hu]; norm_num; linarith
  have hu2 : u ≤ 17 := by rw [hu]; norm_num; linarith
  have hu0 : 0 < u := by linarith
  have ho' : no = √(robertsSq 6.849065 0.417863 0.178080 1.209374 915.345 0.000442 0.889242 1.970203 0.340086 1.921292 wl) := by
    have : roberts 6.849065 0.417863 0.178080 1.209374 915.345 0.000442 0.889242 1.970203 0.340086 1.921292 wl = .val no := ho
    unfold roberts at this
    simp only at this
    split_ifs at this
    exact (NFlt.val.inj this).symm
  have he' : ne = √(robertsSq 6.675232 0.436579 0.229775 3.252722 3129.32 0.012063 0.213957 1.893694 4.269152 2.047204 wl) := by
    have : roberts 6.675232 0.436579 0.229775 3.252722 3129.32 0.012063 0.213957 1.893694 4.269152 2.047204 wl = .val ne := he
    unfold roberts at this
    simp only at this
    split_ifs at this
    exact (NFlt.val.inj this).symm
  have hpos : 0 < √(robertsSq 6.675232 0.436579 0.229775 3.252722 3129.32 0.012063 0.213957 1.893694 4.269152 2.047204 wl) := by rw [← he']; linarith
  rw [ho', he']
  refine sqrt_lt_sqrt (sqrt_pos.1 hpos).le ?_
  have p2 : 1 ≤ u ^ (0.340086 : ℝ) := one_le_rpow hu1 (by norm_num)
  have q1 : 1 ≤ u ^ (1.893694 : ℝ) := one_le_rpow hu1 (by norm_num)
  have q2 : 1 ≤ u ^ (4.269152 : ℝ) := one_le_rpow hu1 (by norm_num)
  have p4 : 1 ≤ u ^ (1.921292 : ℝ) := one_le_rpow hu1 (by norm_num)
  have r4 : u ^ (1.921292 : ℝ) ≤ 237 := rpow_le_root (q := 27) (r := 14) hu1 hu2 (by norm_num) (by norm_num) (by norm_num) (by norm_num)
  have t4 : u ^ (2.047204 : ℝ) ≤ 590 := rpow_small hu1 hu2 (by norm_num)
  have f2 : 0 ≤ 0.000442 / (u ^ (0.340086 : ℝ) - 0.889242) := div_nonneg (by norm_num) (by linarith)
  have sp : u ^ (2.047204 : ℝ) = u ^ (1.921292 : ℝ) * u ^ (0.125912 : ℝ) := by rw [← rpow_add hu0]; norm_num
  have sq : u ^ (1.970203 : ℝ) = u ^ (1.893694 : ℝ) * u ^ (0.076509 : ℝ) := by rw [← rpow_add hu0]; norm_num
  have p1 : 1 ≤ u ^ (1.970203 : ℝ) := one_le_rpow hu1 (by norm_num)
  have v1 : 1 ≤ u ^ (0.125912 : ℝ) := one_le_rpow hu1 (by norm_num)
  have w1 : 1 ≤ u ^ (2.047204 : ℝ) := one_le_rpow hu1 (by norm_num)
  have no2 : robertsSq 6.849065 0.417863 0.178080 1.209374 915.345 0.000442 0.889242 1.970203 0.340086 1.921292 wl =
      6.849065 + 0.417863 / (u ^ (1.970203 : ℝ) - 0.178080) + 0.000442 / (u ^ (0.340086 : ℝ) - 0.889242) -
        1.209374 * u ^ (1.921292 : ℝ) / (915.345 - u ^ (1.921292 : ℝ)) := by
    unfold robertsSq
    simp only
    rw [← hu, pole_eq (w := u ^ (1.921292 : ℝ)) (rpow_pos_of_pos hu0 _) (lt_of_le_of_lt r4 (by norm_num))]
    ring
  have ne2 : robertsSq 6.675232 0.436579 0.229775 3.252722 3129.32 0.012063 0.213957 1.893694 4.269152 2.047204 wl =
      6.675232 + 0.436579 / (u ^ (1.893694 : ℝ) - 0.229775) + 0.012063 / (u ^ (4.269152 : ℝ) - 0.213957) -
        3.252722 * u ^ (2.047204 : ℝ) / (3129.32 - u ^ (2.047204 : ℝ)) := by
    unfold robertsSq
    simp only
    rw [← hu, pole_eq (w := u ^ (2.047204 : ℝ)) (rpow_pos_of_pos hu0 _) (lt_of_le_of_lt t4 (by norm_num))]
    ring
  rw [no2, ne2]
  rcases le_or_gt u 3 with h3 | h3
  · have k1 : u ^ (0.076509 : ℝ) ≤ 1.09 := rpow_le_root (q := 1) (r := 13) hu1 h3 (by norm_num) (by norm_num) (by norm_num) (by norm_num)
    have ky : u ^ (1.921292 : ℝ) ≤ 9 := rpow_le_root (q := 2) (r := 1) hu1 h3 (by norm_num) (by norm_num) (by norm_num) (by norm_num)
    refine selenide_short q1 p1 (by rw [sq, mul_comm]; exact mul_le_mul_of_nonneg_right k1 (by linarith)) p4 ky (rpow_le_rpow_of_exponent_le hu1 (by norm_num)) t4 f2 ?_
    rw [div_le_iff₀ (by linarith)]
    linarith
  · have k1 : (1.147 : ℝ) ≤ u ^ (0.125912 : ℝ) := le_rpow_root (q := 1) (r := 8) (X := 3) (by norm_num) h3.le (by norm_num) (by norm_num) (by norm_num)
    have k2 : (7.9 : ℝ) ≤ u ^ (1.893694 : ℝ) := le_rpow_root (q := 17) (r := 9) (X := 3) (by norm_num) h3.le (by norm_num) (by norm_num) (by norm_num)
    have k3 : (81 : ℝ) ≤ u ^ (4.269152 : ℝ) := le_rpow_root (q := 4) (r := 1) (X := 3) (by norm_num) h3.le (by norm_num) (by norm_num) (by norm_num)
    refine selenide_long k2 p1 p4 r4 (by rw [sp, mul_comm]; exact mul_le_mul_of_nonneg_left k1 (by linarith)) t4 f2 ?_
    rw [div_le_iff₀ (by linarith)]
    linarith

/-- C140: turning a negative uniaxial crystal from the optical axis to the plane lowers the index of the mixed wave strictly. -/
theorem C140_tuning (b : Biref) {wl no ne : ℝ} (ho : b.no wl = .val no) (he : b.ne wl = .val ne) (h0 : 0 < ne) (h : ne < no) {s t : ℝ} (hs : 0 ≤ s) (hst : s < t)
    (ht : t ≤ π / 2) : ∃ m k, (b.setTheta s).n wl = .ok (.val m) ∧ (b.setTheta t).n wl = .ok (.val k) ∧ k < m := by
  have hne : ¬ (no = 0 ∨ ne = 0) := by rintro (h | h) <;> linarith
  refine ⟨1 / √(sin s ^ 2 / ne ^ 2 + cos s ^ 2 / no ^ 2), 1 / √(sin t ^ 2 / ne ^ 2 + cos t ^ 2 / no ^ 2),
    by simp only [Biref.n, Biref.setTheta, if_true, ho, he, mixIndex, if_neg hne],
    by simp only [Biref.n, Biref.setTheta, if_true, ho, he, mixIndex, if_neg hne], ?_⟩
  have hsin : sin s < sin t := sin_lt_sin_of_lt_of_le_pi_div_two (by linarith [pi_pos]) ht hst
  have hs0 : 0 ≤ sin s := sin_nonneg_of_nonneg_of_le_pi hs (by linarith [pi_pos])
  have hsq : sin s ^ 2 < sin t ^ 2 := pow_lt_pow_left₀ hsin hs0 (by norm_num)
  have hinv : 1 / no ^ 2 < 1 / ne ^ 2 := one_div_lt_one_div_of_lt (by positivity) (pow_lt_pow_left₀ h h0.le (by norm_num))
  have hpos := mix_pos (t := s) (h0.trans h) h0
  refine one_div_lt_one_div_of_lt (sqrt_pos.2 hpos) (sqrt_lt_sqrt hpos.le ?_)
  have e1 := sin_sq_add_cos_sq s
  have e2 := sin_sq_add_cos_sq t
  have f1 : ∀ θ : ℝ, sin θ ^ 2 / ne ^ 2 + cos θ ^ 2 / no ^ 2 = 1 / no ^ 2 + sin θ ^ 2 * (1 / ne ^ 2 - 1 / no ^ 2) := fun θ => by
    have e := sin_sq_add_cos_sq θ
    rw [show cos θ ^ 2 = 1 - sin θ ^ 2 by linarith]
    ring
  rw [f1 s, f1 t]
  have : sin s ^ 2 * (1 / ne ^ 2 - 1 / no ^ 2) < sin t ^ 2 * (1 / ne ^ 2 - 1 / no ^ 2) := mul_lt_mul_of_pos_right hsq (by linarith)
  linarith

/-- C140: so two different orientations in the first quadrant never give the same index. -/
theorem C140_unique (b : Biref) {wl no ne : ℝ} (ho : b.no wl = .val no) (he : b.ne wl = .val ne) (h0 : 0 < ne) (h : ne < no) {s t : ℝ} (hs : 0 ≤ s) (hs' : s ≤ π / 2)
    (ht : 0 ≤ t) (ht' : t ≤ π / 2) (e : (b.setTheta s).n wl = (b.setTheta t).n wl) : s = t := by
  rcases lt_trichotomy s t with l | l | l
  · obtain ⟨m, k, hm, hk, hlt⟩ := C140_tuning b ho he h0 h hs l ht'
    rw [hm, hk] at e
    injection e with e
    injection e with e
    exact absurd e hlt.ne'
  · exact l
  · obtain ⟨m, k, hm, hk, hlt⟩ := C140_tuning b ho he h0 h ht l hs'
    rw [hm, hk] at e
    injection e with e
    injection e with e
    exact absurd e hlt.ne

/-- the hypotheses of `C140_tuning` are met by both crystals, at 2 and at 10 micrometres -/
theorem C140_nonvacuous : ∀ b ∈ [agGaS 0, agGaSe2 0], ∀ wl ∈ [(2000 : ℝ), 10000],
    ∃ m k, (b.setTheta (π / 6)).n wl = .ok (.val m) ∧ (b.setTheta (π / 3)).n wl = .ok (.val k) ∧ k < m := by
  intro b hb wl hw
  have hr : 1000 ≤ wl ∧ wl ≤ 13000 := by
    rcases List.mem_pair.1 hw with rfl | rfl <;> norm_num
  rcases List.mem_pair.1 hb with rfl | rfl
  · obtain ⟨no, ne, ho, he, h0, h, -⟩ := C140_sulfide 0 wl hr.1 hr.2
    exact C140_tuning _ ho he (lt_trans (by norm_num) h0) h (by positivity) (by linarith [pi_pos]) (by linarith [pi_pos])
  · obtain ⟨no, ne, ho, he, h0, h⟩ := C140_selenide 0 wl hr.1 (by linarith [hr.2])
    exact C140_tuning _ ho he h0 h (by positivity) (by linarith [pi_pos]) (by linarith [pi_pos])

end PyNLO.Xtal
