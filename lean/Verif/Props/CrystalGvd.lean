import Verif.Props.CrystalStencil
import Mathlib.Analysis.Convex.Deriv

/-! # C66, C126: group-velocity dispersion of PPLN -/

namespace PyNLO.Xtal

open Set

/-- `2·F·F'' - F'^2` of a Sellmeier equation, in micrometres -/
theorem gvd_core {A2 A4 A6 q p v F : ℝ} (hv : 0.249 ≤ v) (hv' : v ≤ 3.2437) (hq : 0 ≤ q) (hq' : q ≤ 0.0456) (h2 : 0.0981 ≤ A2) (h2' : A2 ≤ 0.11)
    (hy : 100 ≤ p - v) (h4 : 0 ≤ A4) (h6 : 0 ≤ A6) (hb : A4 / (p - v) ^ 2 + A6 ≤ 0.0225) (hc : 2 * (A4 / (p - v) ^ 2) * (1 + 4 * (v / (p - v))) + 2 * A6 ≤ 0.0465)
    (hF : 4.4 ≤ F) :
    0.02 ≤ 2 * F * (2 * -(A2 / (v - q) ^ 2 + A4 / (p - v) ^ 2 + A6) + 4 * v * (2 * (A2 / (v - q) ^ 3) - 2 * (A4 / (p - v) ^ 3))) -
      4 * v * (A2 / (v - q) ^ 2 + A4 / (p - v) ^ 2 + A6) ^ 2 := by
  have hx : 0.2034 ≤ v - q := by norm_num at *; linarith
  have hx0 : 0 < v - q := lt_of_lt_of_le (by norm_num) hx
  have hy0 : 0 < p - v := lt_of_lt_of_le (by norm_num) hy
  have hv0 : 0 < v := lt_of_lt_of_le (by norm_num) hv
  have e3 : A2 / (v - q) ^ 3 = A2 / (v - q) ^ 2 * (1 / (v - q)) := by field_simp
  have e4 : A4 / (p - v) ^ 3 = A4 / (p - v) ^ 2 * (1 / (p - v)) := by field_simp
  have e5 : v / (p - v) = v * (1 / (p - v)) := by ring
  rw [e3, e4]
  rw [e5] at hc
  have ha : 0.00932 ≤ A2 / (v - q) ^ 2 := by
    rw [le_div_iff₀ (by positivity)]
    have : (v - q) ^ 2 ≤ 3.2437 ^ 2 := by
      apply pow_le_pow_left₀ hx0.le
      linarith
    norm_num at *
    linarith
  have hva : v * (A2 / (v - q) ^ 2) ≤ 0.665 := by
    rw [← mul_div_assoc, div_le_iff₀ (by positivity)]
    have h1 : v * A2 ≤ v * 0.11 := mul_le_mul_of_nonneg_left h2' hv0.le
    have h3 : v * 0.11 ≤ 0.665 * (v - q) ^ 2 := by
      norm_num at *
      nlinarith
    linarith
  have hva1 : 1 ≤ v * (1 / (v - q)) := by
    rw [mul_one_div, le_div_iff₀ hx0]
    linarith
  have hb0 : 0 ≤ A4 / (p - v) ^ 2 := by positivity
  have hi : 0 < 1 / (p - v) := by positivity
  generalize A2 / (v - q) ^ 2 = a at *
  generalize A4 / (p - v) ^ 2 = b at *
  generalize 1 / (v - q) = r at *
  generalize 1 / (p - v) = t at *
  have ha0 : 0 < a := lt_of_lt_of_le (by norm_num) ha
  have hbt : 0 ≤ b * (v * t) := by positivity
  have l1 : a ≤ a * (v * r) := le_mul_of_one_le_right ha0.le hva1
  have l2 : 6 * a - 0.0465 ≤ 2 * -(a + b + A6) + 4 * v * (2 * (a * r) - 2 * (b * t)) := by
    have : 4 * v * (2 * (a * r) - 2 * (b * t)) = 8 * (a * (v * r)) - 8 * (b * (v * t)) := by ring
    rw [this]
    linarith
  have l3 : 0 ≤ 6 * a - 0.0465 := by norm_num at *; linarith
  have l4 : 8.8 * (6 * a - 0.0465) ≤ 2 * F * (2 * -(a + b + A6) + 4 * v * (2 * (a * r) - 2 * (b * t))) :=
    mul_le_mul (by norm_num at *; linarith) l2 l3 (by norm_num at *; linarith)
  have l5 : 4 * v * (a + b + A6) ^ 2 ≤ 8 * (0.665 * a) + 8 * (3.2437 * 0.0225 ^ 2) := by
    have s1 : (a + b + A6) ^ 2 ≤ 2 * a ^ 2 + 2 * (b + A6) ^ 2 := by nlinarith [sq_nonneg (a - (b + A6))]
    have s2 : (b + A6) ^ 2 ≤ 0.0225 ^ 2 := pow_le_pow_left₀ (by linarith) hb 2
    have s3 : v * a * a ≤ 0.665 * a := mul_le_mul_of_nonneg_right hva ha0.le
    have s4 : v * (b + A6) ^ 2 ≤ 3.2437 * 0.0225 ^ 2 := mul_le_mul hv' s2 (sq_nonneg _) (by norm_num)
    calc 4 * v * (a + b + A6) ^ 2 ≤ 4 * v * (2 * a ^ 2 + 2 * (b + A6) ^ 2) := mul_le_mul_of_nonneg_left s1 (by positivity)
      _ = 8 * (v * a * a) + 8 * (v * (b + A6) ^ 2) := by ring
      _ ≤ _ := by linarith
  norm_num at *
  linarith

/-- derivatives of the square of the index -/
noncomputable def Sell.dnSq (s : Sell) (T w : ℝ) : ℝ :=
  2 * 1e-6 * w * -((s.a2 + s.b2 * tempF T) / ((w * 1e-3) ^ 2 - (s.a3 + s.b3 * tempF T) ^ 2) ^ 2 + (s.a4 + s.b4 * tempF T) / (s.a5 ^ 2 - (w * 1e-3) ^ 2) ^ 2 +
    (s.a6 + s.b5 * tempF T))

noncomputable def Sell.ddnSq (s : Sell) (T w : ℝ) : ℝ :=
  1e-6 * (2 * -((s.a2 + s.b2 * tempF T) / ((w * 1e-3) ^ 2 - (s.a3 + s.b3 * tempF T) ^ 2) ^ 2 + (s.a4 + s.b4 * tempF T) / (s.a5 ^ 2 - (w * 1e-3) ^ 2) ^ 2 +
    (s.a6 + s.b5 * tempF T)) + 4 * (w * 1e-3) ^ 2 * (2 * ((s.a2 + s.b2 * tempF T) / ((w * 1e-3) ^ 2 - (s.a3 + s.b3 * tempF T) ^ 2) ^ 3) -
      2 * ((s.a4 + s.b4 * tempF T) / (s.a5 ^ 2 - (w * 1e-3) ^ 2) ^ 3)))

theorem Sell.nSq_deriv {s : Sell} {T w : ℝ} (h1 : (w * 1e-3) ^ 2 - (s.a3 + s.b3 * tempF T) ^ 2 ≠ 0) (h2 : s.a5 ^ 2 - (w * 1e-3) ^ 2 ≠ 0) :
    HasDerivAt (s.nSq T) (s.dnSq T w) w ∧ HasDerivAt (s.dnSq T) (s.ddnSq T w) w := by
  have hz : HasDerivAt (fun w : ℝ => (w * 1e-3) ^ 2) (2 * 1e-6 * w) w := by
    have := ((hasDerivAt_id w).mul_const (1e-3 : ℝ)).pow 2
    refine this.congr_deriv ?_
    norm_num
    ring
  have h2' : (w * 1e-3) ^ 2 - s.a5 ^ 2 ≠ 0 := fun h => h2 (by linarith)
  generalize hq : (s.a3 + s.b3 * tempF T) ^ 2 = q at *
  generalize hp : s.a5 ^ 2 = p at *
  have hA := hz.sub_const q
  have hB := hz.sub_const p
  have hC := hz.const_sub p
  constructor
  · unfold Sell.nSq Sell.dnSq
    simp only [hq, hp]
    have := (((hasDerivAt_const w (s.a1 + s.b1 * tempF T)).add ((hasDerivAt_const w (s.a2 + s.b2 * tempF T)).div hA h1)).add
      ((hasDerivAt_const w (s.a4 + s.b4 * tempF T)).div hB h2')).sub (hz.const_mul (s.a6 + s.b5 * tempF T))
    refine this.congr_deriv ?_
    have e : ((w * 1e-3) ^ 2 - p) ^ 2 = (p - (w * 1e-3) ^ 2) ^ 2 := by ring
    rw [e]
    generalize (w * 1e-3) ^ 2 = z at *
    field_simp
    ring
  · unfold Sell.dnSq Sell.ddnSq
    simp only [hq, hp]
    have := ((hasDerivAt_id w).const_mul (2 * 1e-6 : ℝ)).mul ((((hasDerivAt_const w (s.a2 + s.b2 * tempF T)).div (hA.pow 2) (pow_ne_zero 2 h1)).add
      ((hasDerivAt_const w (s.a4 + s.b4 * tempF T)).div (hC.pow 2) (pow_ne_zero 2 h2))).add_const (s.a6 + s.b5 * tempF T)).neg
    refine this.congr_deriv ?_
    have e : (w * 1e-3) ^ 2 = 1e-6 * w ^ 2 := by norm_num; ring
    simp only [id, Pi.add_apply, Pi.pow_apply, Pi.div_apply, Pi.neg_apply]
    generalize (w * 1e-3) ^ 2 - q = x at *
    generalize p - (w * 1e-3) ^ 2 = y at *
    rw [e]
    field_simp
    norm_num
    ring

theorem wl_sq_gvd {w : ℝ} (h1 : 499 ≤ w) (h2 : w ≤ 1801) : 0.249 ≤ (w * 1e-3) ^ 2 ∧ (w * 1e-3) ^ 2 ≤ 3.2437 := by
  constructor <;> norm_num <;> nlinarith

theorem gayer_gvd {T w : ℝ} (hT : 20 ≤ T) (hT' : T ≤ 250) (h1 : 499 ≤ w) (h2 : w ≤ 1801) :
    (w * 1e-3) ^ 2 - (gayer.a3 + gayer.b3 * tempF T) ^ 2 ≠ 0 ∧ gayer.a5 ^ 2 - (w * 1e-3) ^ 2 ≠ 0 ∧ 4.4 ≤ gayer.nSq T w ∧
      2e-8 ≤ 2 * gayer.nSq T w * gayer.ddnSq T w - gayer.dnSq T w ^ 2 := by
  obtain ⟨f1, f2⟩ := tempF_bounds hT hT'
  obtain ⟨v1, v2⟩ := wl_sq_gvd h1 h2
  obtain ⟨-, -, b3, b4⟩ := gayer_bounds hT hT' (by linarith : 400 ≤ w) (by linarith)
  have hw : 4e-12 * w ^ 2 = 1e-6 * (4 * (w * 1e-3) ^ 2) := by norm_num; ring
  have hF : 4.4 ≤ gayer.nSq T w := by
    simp only [Sell.nSq, gayer] at *
    generalize tempF T = f at *
    generalize (w * 1e-3) ^ 2 = v at *
    have t1 : 0 ≤ (0.0983 + 4.700e-8 * f) / (v - (0.2020 + 6.113e-8 * f) ^ 2) := div_nonneg (by norm_num at *; linarith) b3.le
    have t2 : -((189.32 + 1.516e-4 * f) / 153.5) ≤ (189.32 + 1.516e-4 * f) / (v - 12.52 ^ 2) := by
      have e : (189.32 + 1.516e-4 * f) / (v - 12.52 ^ 2) = -((189.32 + 1.516e-4 * f) / (12.52 ^ 2 - v)) := by rw [← div_neg]; congr 1; ring
      rw [e]
      apply neg_le_neg
      apply div_le_div_of_nonneg_left <;> norm_num at * <;> linarith
    norm_num at *
    linarith
  refine ⟨b3.ne', fun h => b4.ne (by linarith), hF, ?_⟩
  have hx : 4e-12 * w ^ 2 * ((gayer.a2 + gayer.b2 * tempF T) / ((w * 1e-3) ^ 2 - (gayer.a3 + gayer.b3 * tempF T) ^ 2) ^ 2 + (gayer.a4 + gayer.b4 * tempF T) / (gayer.a5 ^ 2 - (w * 1e-3) ^ 2) ^ 2 +
      (gayer.a6 + gayer.b5 * tempF T)) ^ 2 = gayer.dnSq T w ^ 2 := by
    unfold Sell.dnSq
    norm_num
    ring
  rw [← hx, hw]
  generalize gayer.nSq T w = F at *
  unfold Sell.ddnSq
  simp only [gayer] at *
  generalize tempF T = f at *
  generalize (w * 1e-3) ^ 2 = v at *
  have d : 153.5 ≤ 12.52 ^ 2 - v := by norm_num at *; linarith
  have d0 : 0 < 12.52 ^ 2 - v := lt_of_lt_of_le (by norm_num) d
  have b : (189.32 + 1.516e-4 * f) / (12.52 ^ 2 - v) ^ 2 ≤ 0.009235 := by
    rw [div_le_iff₀ (by positivity)]
    have : 153.5 ^ 2 ≤ (12.52 ^ 2 - v) ^ 2 := pow_le_pow_left₀ (by norm_num) d 2
    norm_num at *
    linarith
  have c : v / (12.52 ^ 2 - v) ≤ 0.02114 := by
    rw [div_le_iff₀ d0]
    norm_num at *
    linarith
  have c0 : 0 ≤ v / (12.52 ^ 2 - v) := div_nonneg (le_trans (by norm_num) v1) d0.le
  have n4 : 0 ≤ 189.32 + 1.516e-4 * f := by norm_num at *; linarith
  have b0 : 0 ≤ (189.32 + 1.516e-4 * f) / (12.52 ^ 2 - v) ^ 2 := div_nonneg n4 (sq_nonneg _)
  have core := gvd_core (A2 := 0.0983 + 4.700e-8 * f) (A4 := 189.32 + 1.516e-4 * f) (A6 := 1.32e-2 + 0 * f) (q := (0.2020 + 6.113e-8 * f) ^ 2) (p := 12.52 ^ 2) v1 v2
    (sq_nonneg _) (by norm_num at *; nlinarith) (by norm_num at *; linarith) (by norm_num at *; linarith) (le_trans (by norm_num) d) n4 (by norm_num)
    (by norm_num at *; linarith) ?_ hF
  · norm_num at core ⊢
    linarith
  · have : 2 * ((189.32 + 1.516e-4 * f) / (12.52 ^ 2 - v) ^ 2) * (1 + 4 * (v / (12.52 ^ 2 - v))) ≤ 2 * 0.009235 * (1 + 4 * 0.02114) :=
      mul_le_mul (by linarith) (by linarith) (by linarith) (by norm_num)
    refine (add_le_add this le_rfl).trans ?_
    norm_num

theorem deng_gvd {T w : ℝ} (hT : 20 ≤ T) (hT' : T ≤ 250) (h1 : 499 ≤ w) (h2 : w ≤ 1801) :
    (w * 1e-3) ^ 2 - (deng.a3 + deng.b3 * tempF T) ^ 2 ≠ 0 ∧ deng.a5 ^ 2 - (w * 1e-3) ^ 2 ≠ 0 ∧ 4.4 ≤ deng.nSq T w ∧
      2e-8 ≤ 2 * deng.nSq T w * deng.ddnSq T w - deng.dnSq T w ^ 2 := by
  obtain ⟨f1, f2⟩ := tempF_bounds hT hT'
  obtain ⟨v1, v2⟩ := wl_sq_gvd h1 h2
  obtain ⟨-, -, b3, b4⟩ := deng_bounds hT hT' (by linarith : 400 ≤ w) (by linarith)
  have hw : 4e-12 * w ^ 2 = 1e-6 * (4 * (w * 1e-3) ^ 2) := by norm_num; ring
  have hF : 4.4 ≤ deng.nSq T w := by
    simp only [Sell.nSq, deng] at *
    generalize tempF T = f at *
    generalize (w * 1e-3) ^ 2 = v at *
    have t1 : 0 ≤ (0.100473 + 3.862e-8 * f) / (v - (0.20692 + -0.89e-8 * f) ^ 2) := div_nonneg (by norm_num at *; linarith) b3.le
    have t2 : -((100 + 2.657e-5 * f) / 125.5) ≤ (100 + 2.657e-5 * f) / (v - 11.34927 ^ 2) := by
      have e : (100 + 2.657e-5 * f) / (v - 11.34927 ^ 2) = -((100 + 2.657e-5 * f) / (11.34927 ^ 2 - v)) := by rw [← div_neg]; congr 1; ring
      rw [e]
      apply neg_le_neg
      apply div_le_div_of_nonneg_left <;> norm_num at * <;> linarith
    have t3 : (1.544e-2 + 9.62119e-10 * f) * v ≤ 0.0157 * 3.2437 :=
      mul_le_mul (by norm_num at *; linarith) v2 (le_trans (by norm_num) v1) (by norm_num)
    norm_num at *
    linarith
  refine ⟨b3.ne', fun h => b4.ne (by linarith), hF, ?_⟩
  have hx : 4e-12 * w ^ 2 * ((deng.a2 + deng.b2 * tempF T) / ((w * 1e-3) ^ 2 - (deng.a3 + deng.b3 * tempF T) ^ 2) ^ 2 + (deng.a4 + deng.b4 * tempF T) / (deng.a5 ^ 2 - (w * 1e-3) ^ 2) ^ 2 +
      (deng.a6 + deng.b5 * tempF T)) ^ 2 = deng.dnSq T w ^ 2 := by
    unfold Sell.dnSq
    norm_num
    ring
  rw [← hx, hw]
  generalize deng.nSq T w = F at *
  unfold Sell.ddnSq
  simp only [deng] at *
  generalize tempF T = f at *
  generalize (w * 1e-3) ^ 2 = v at *
  have d : 125.5 ≤ 11.34927 ^ 2 - v := by norm_num at *; linarith
  have d0 : 0 < 11.34927 ^ 2 - v := lt_of_lt_of_le (by norm_num) d
  have b : (100 + 2.657e-5 * f) / (11.34927 ^ 2 - v) ^ 2 ≤ 0.00668 := by
    rw [div_le_iff₀ (by positivity)]
    have : 125.5 ^ 2 ≤ (11.34927 ^ 2 - v) ^ 2 := pow_le_pow_left₀ (by norm_num) d 2
    norm_num at *
    linarith
  have c : v / (11.34927 ^ 2 - v) ≤ 0.0259 := by
    rw [div_le_iff₀ d0]
    norm_num at *
    linarith
  have c0 : 0 ≤ v / (11.34927 ^ 2 - v) := div_nonneg (le_trans (by norm_num) v1) d0.le
  have n4 : 0 ≤ 100 + 2.657e-5 * f := by norm_num at *; linarith
  have b0 : 0 ≤ (100 + 2.657e-5 * f) / (11.34927 ^ 2 - v) ^ 2 := div_nonneg n4 (sq_nonneg _)
  have core := gvd_core (A2 := 0.100473 + 3.862e-8 * f) (A4 := 100 + 2.657e-5 * f) (A6 := 1.544e-2 + 9.62119e-10 * f) (q := (0.20692 + -0.89e-8 * f) ^ 2) (p := 11.34927 ^ 2) v1 v2
    (sq_nonneg _) (by norm_num at *; nlinarith) (by norm_num at *; linarith) (by norm_num at *; linarith) (le_trans (by norm_num) d) n4 (by norm_num at *; linarith)
    (by norm_num at *; linarith) ?_ hF
  · norm_num at core ⊢
    linarith
  · have : 2 * ((100 + 2.657e-5 * f) / (11.34927 ^ 2 - v) ^ 2) * (1 + 4 * (v / (11.34927 ^ 2 - v))) ≤ 2 * 0.00668 * (1 + 4 * 0.0259) :=
      mul_le_mul (by linarith) (by linarith) (by linarith) (by norm_num)
    refine (add_le_add this le_rfl).trans ?_
    norm_num at *
    linarith

theorem source_gvd (src : Source) {T w : ℝ} (hT : 20 ≤ T) (hT' : T ≤ 250) (h1 : 499 ≤ w) (h2 : w ≤ 1801) :
    (w * 1e-3) ^ 2 - (src.sell.a3 + src.sell.b3 * tempF T) ^ 2 ≠ 0 ∧ src.sell.a5 ^ 2 - (w * 1e-3) ^ 2 ≠ 0 ∧ 4.4 ≤ src.sell.nSq T w ∧ src.sell.nSq T w ≤ 2.75 ^ 2 ∧
      2e-8 ≤ 2 * src.sell.nSq T w * src.sell.ddnSq T w - src.sell.dnSq T w ^ 2 := by
  cases src with
  | Deng =>
    obtain ⟨a, b, c, d⟩ := deng_gvd hT hT' h1 h2
    exact ⟨a, b, c, (deng_bounds hT hT' (by linarith : 400 ≤ w) (by linarith)).2.1.le, d⟩
  | Gayer_5pctMg =>
    obtain ⟨a, b, c, d⟩ := gayer_gvd hT hT' h1 h2
    exact ⟨a, b, c, (gayer_bounds hT hT' (by linarith : 400 ≤ w) (by linarith)).2.1.le, d⟩

/-- first and second derivative of the index of PPLN -/
theorem ppln_derivs (src : Source) {T w : ℝ} (hT : 20 ≤ T) (hT' : T ≤ 250) (h1 : 499 < w) (h2 : w < 1801) :
    ∃ n2, HasDerivAt (fun w => √(src.sell.nSq T w)) (src.sell.dnSq T w / (2 * √(src.sell.nSq T w))) w ∧
      HasDerivAt (deriv fun w => √(src.sell.nSq T w)) n2 w ∧ 2e-10 ≤ n2 := by
  have hd : ∀ y ∈ Ioo (499 : ℝ) 1801, HasDerivAt (fun w => √(src.sell.nSq T w)) (src.sell.dnSq T y / (2 * √(src.sell.nSq T y))) y := by
    intro y hy
    obtain ⟨a, b, c, -, -⟩ := source_gvd src hT hT' hy.1.le hy.2.le
    exact (Sell.nSq_deriv a b).1.sqrt (lt_of_lt_of_le (by norm_num) c).ne'
  obtain ⟨a, b, c, c', d⟩ := source_gvd src hT hT' h1.le h2.le
  obtain ⟨d1, d2⟩ := Sell.nSq_deriv a b
  have hF : 0 < src.sell.nSq T w := lt_of_lt_of_le (by norm_num) c
  have hs : 0 < √(src.sell.nSq T w) := Real.sqrt_pos.2 hF
  have he : (deriv fun w => √(src.sell.nSq T w)) =ᶠ[nhds w] fun y => src.sell.dnSq T y / (2 * √(src.sell.nSq T y)) :=
    Filter.eventually_of_mem (isOpen_Ioo.mem_nhds ⟨h1, h2⟩) fun y hy => (hd y hy).deriv
  have hq := (d2.div ((d1.sqrt hF.ne').const_mul 2) (mul_pos two_pos hs).ne').congr_of_eventuallyEq he
  refine ⟨_, hd w ⟨h1, h2⟩, hq, ?_⟩
  have hsq : √(src.sell.nSq T w) ^ 2 = src.sell.nSq T w := Real.sq_sqrt hF.le
  have hs' : √(src.sell.nSq T w) ≤ 2.75 := Real.sqrt_le_iff.2 ⟨by norm_num, c'⟩
  generalize src.sell.ddnSq T w = F2 at *
  generalize src.sell.dnSq T w = F1 at *
  rw [← hsq] at d
  generalize √(src.sell.nSq T w) = r at *
  have e : (F2 * (2 * r) - F1 * (2 * (F1 / (2 * r)))) / (2 * r) ^ 2 = (2 * r ^ 2 * F2 - F1 ^ 2) / (4 * r ^ 3) := by
    field_simp
    ring
  rw [e, le_div_iff₀ (by positivity)]
  refine le_trans ?_ d
  have : r ^ 3 ≤ 2.75 ^ 3 := pow_le_pow_left₀ hs.le hs' 3
  norm_num at *
  linarith

/-- C66, PPLN between 0.5 and 1.8 micrometres: the inverse group velocity falls with the wavelength, so the dispersion is negative; the code returns a
positive number. -/
theorem C66_ppln_sign_refuted (src : Source) {T wl : ℝ} (hT : 20 ≤ T) (hT' : T ≤ 250) (h1 : 500 ≤ wl) (h2 : wl ≤ 1800) :
    let n := fun w => √(src.sell.nSq T w)
    (∃ s < 0, HasDerivAt (fun l => (n l - l * deriv n l) / cNmPs) s wl) ∧ 0 < dispersionD n wl := by
  intro n
  obtain ⟨n2, hn, hn2, hp⟩ := ppln_derivs src hT hT' (by linarith : 499 < wl) (by linarith : wl < 1801)
  have hc : cNmPs = 299792.458 := by norm_num [cNmPs, cMks]
  have hc0 : 0 < cNmPs := by rw [hc]; norm_num
  have hn0 : 0 < n2 := lt_of_lt_of_le (by norm_num) hp
  constructor
  · refine ⟨_, ?_, (hn.differentiableAt.hasDerivAt.sub ((hasDerivAt_id wl).mul hn2)).div_const cNmPs⟩
    apply div_neg_of_neg_of_pos _ hc0
    have : 0 < wl * n2 := mul_pos (by linarith) hn0
    simp only [id]
    linarith
  · have := (abs_le.1 (C66_ppln src hT hT' h1 (by linarith)).2.2).1
    have e : iteratedDeriv 2 (fun w => √(src.sell.nSq T w)) wl = n2 := by
      rw [iteratedDeriv_succ, iteratedDeriv_one]
      exact hn2.deriv
    rw [e] at this
    have h3 : 1e-3 ≤ wl / cNmPs := by
      rw [le_div_iff₀ hc0, hc]
      norm_num
      linarith
    have h4 : 1e-3 * 2e-10 ≤ wl / cNmPs * n2 := mul_le_mul h3 hp (by norm_num) (by linarith [h3, (by norm_num : (0 : ℝ) < 1e-3)])
    show 0 < dispersionD (fun w => √(src.sell.nSq T w)) wl
    generalize dispersionD (fun w => √(src.sell.nSq T w)) wl = D at *
    generalize wl / cNmPs * n2 = x at *
    norm_num at *
    linarith

end PyNLO.Xtal
