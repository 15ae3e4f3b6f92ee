import Verif.Model.SsfmSingle
import Verif.Lemmas.Single
import Verif.Props.Coherence

/-! # Rounding errors of the coherence in single precision -/

namespace PyNLO.Single

open Num Ssfm

/-- The real number `n` is within `ε` of `x`. -/
def Num.Near (n : Num) (x ε : ℝ) : Prop := ∃ y, n = .val y ∧ |y - x| ≤ ε

theorem add_val (x y : ℝ) : (Num.val x).add (.val y) = round (x + y) := rfl
theorem mul_val (x y : ℝ) : (Num.val x).mul (.val y) = round (x * y) := rfl
theorem sub_val (x y : ℝ) : (Num.val x).sub (.val y) = round (x - y) := rfl

theorem val_ne_zero {d : ℝ} (h : d ≠ 0) : Num.val d ≠ .val 0 := fun e => h (by injection e)

/-- Division of a complex number by a positive real one. -/
theorem divReal_val {z : Cplx} {a b d : ℝ} (hre : z.re = .val a) (him : z.im = .val b) (hd : d ≠ 0) :
    z.divReal (.val d) = ⟨((round a).mul ((Num.val 1).div (round d))), ((round b).mul ((Num.val 1).div (round d)))⟩ := by
  obtain ⟨re, im⟩ := z
  simp only at hre him
  subst hre him
  unfold Cplx.divReal
  simp only
  rw [if_neg (val_ne_zero hd)]
  have h1 : (Num.val 0).div (.val d) = .val 0 := by
    simp only [Num.div, if_neg hd, zero_div, round_zero]
  rw [h1]
  simp only [mul_val, mul_zero, round_zero, add_val, add_zero, sub_val, sub_zero]

theorem square_near {n : ℝ} (h : 2 ^ (-31 : ℤ) ≤ n) (h' : n ≤ 2 ^ 31) :
    ∃ S, (round n).mul (round n) = .val S ∧ n ^ 2 * (1 - 1 / 16777216) ^ 3 ≤ S ∧ S ≤ n ^ 2 * (1 + 1 / 16777216) ^ 3 := by
  have h0 : 0 < n := lt_of_lt_of_le (by positivity) h
  obtain ⟨A, hA, a1, a2⟩ := round_pos (x := n) (le_trans (by norm_num) h) (le_trans h' (by norm_num))
  have hA0 : 0 < A := lt_of_lt_of_le (by nlinarith) a1
  have hlow : n ^ 2 * (1 - 1 / 16777216) ^ 2 ≤ A * A := by
    calc n ^ 2 * (1 - 1 / 16777216) ^ 2 = (n * (1 - 1 / 16777216)) * (n * (1 - 1 / 16777216)) := by ring
      _ ≤ A * A := mul_le_mul a1 a1 (by nlinarith) hA0.le
  have hupp : A * A ≤ n ^ 2 * (1 + 1 / 16777216) ^ 2 := by
    calc A * A ≤ (n * (1 + 1 / 16777216)) * (n * (1 + 1 / 16777216)) := mul_le_mul a2 a2 hA0.le (by nlinarith)
      _ = _ := by ring
  have hn1 : (2 ^ (-31 : ℤ)) ^ 2 ≤ n ^ 2 := pow_le_pow_left₀ (by positivity) h 2
  have hn2 : n ^ 2 ≤ (2 ^ 31) ^ 2 := pow_le_pow_left₀ h0.le h' 2
  norm_num at hn1 hn2
  obtain ⟨S, hS, s1, s2⟩ := round_pos (x := A * A) (le_trans (by norm_num; linarith) hlow) (le_trans hupp (by norm_num; linarith))
  refine ⟨S, by rw [hA, mul_val, hS], ?_, ?_⟩
  · refine le_trans ?_ s1
    rw [show n ^ 2 * (1 - 1 / 16777216 : ℝ) ^ 3 = n ^ 2 * (1 - 1 / 16777216) ^ 2 * (1 - 1 / 16777216) from by ring]
    gcongr
  · refine s2.trans ?_
    rw [show n ^ 2 * (1 + 1 / 16777216 : ℝ) ^ 3 = n ^ 2 * (1 + 1 / 16777216) ^ 2 * (1 + 1 / 16777216) from by ring]
    gcongr

/-- The denominator of the coherence. -/
theorem denominator_near {n1 n2 : ℝ} (h1 : 2 ^ (-31 : ℤ) ≤ n1) (h1' : n1 ≤ 2 ^ 31) (h2 : 2 ^ (-31 : ℤ) ≤ n2) (h2' : n2 ≤ 2 ^ 31) :
    ∃ d, (((round n1).mul (round n1)).mul ((round n2).mul (round n2))).sqrt = .val d ∧
      n1 * n2 * (1 - 5 / 16777216) ≤ d ∧ d ≤ n1 * n2 * (1 + 5 / 16777216) := by
  have p1 : 0 < n1 := lt_of_lt_of_le (by positivity) h1
  have p2 : 0 < n2 := lt_of_lt_of_le (by positivity) h2
  obtain ⟨S, hS, s1, s2⟩ := square_near h1 h1'
  obtain ⟨T, hT, t1, t2⟩ := square_near h2 h2'
  have hS0 : 0 < S := lt_of_lt_of_le (by positivity) s1
  have hT0 : 0 < T := lt_of_lt_of_le (by positivity) t1
  have q1 : (n1 * n2) ^ 2 * (1 - 1 / 16777216) ^ 6 ≤ S * T := by
    calc (n1 * n2) ^ 2 * (1 - 1 / 16777216) ^ 6 = (n1 ^ 2 * (1 - 1 / 16777216) ^ 3) * (n2 ^ 2 * (1 - 1 / 16777216) ^ 3) := by ring
      _ ≤ S * T := mul_le_mul s1 t1 (by positivity) hS0.le
  have q2 : S * T ≤ (n1 * n2) ^ 2 * (1 + 1 / 16777216) ^ 6 := by
    calc S * T ≤ (n1 ^ 2 * (1 + 1 / 16777216) ^ 3) * (n2 ^ 2 * (1 + 1 / 16777216) ^ 3) := mul_le_mul s2 t2 hT0.le (by positivity)
      _ = _ := by ring
  have hN1 : (2 ^ (-62 : ℤ) : ℝ) ≤ n1 * n2 := by
    calc (2 ^ (-62 : ℤ) : ℝ) = 2 ^ (-31 : ℤ) * 2 ^ (-31 : ℤ) := by norm_num
      _ ≤ n1 * n2 := mul_le_mul h1 h2 (by positivity) p1.le
  have hN2 : n1 * n2 ≤ 2 ^ 62 := by
    calc n1 * n2 ≤ 2 ^ 31 * 2 ^ 31 := mul_le_mul h1' h2' p2.le (by positivity)
      _ = 2 ^ 62 := by norm_num
  have hN : 0 < n1 * n2 := by positivity
  generalize n1 * n2 = N at *
  have hq1 : (2 ^ (-62 : ℤ)) ^ 2 ≤ N ^ 2 := pow_le_pow_left₀ (by positivity) hN1 2
  have hq2 : N ^ 2 ≤ (2 ^ 62) ^ 2 := pow_le_pow_left₀ hN.le hN2 2
  norm_num at hq1 hq2
  obtain ⟨P, hP, r1, r2⟩ := round_pos (x := S * T) (le_trans (by norm_num; linarith) q1) (le_trans q2 (by norm_num; linarith))
  have v1 : N ^ 2 * (1 - 1 / 16777216) ^ 7 ≤ P := by
    refine le_trans ?_ r1
    rw [show N ^ 2 * (1 - 1 / 16777216 : ℝ) ^ 7 = N ^ 2 * (1 - 1 / 16777216) ^ 6 * (1 - 1 / 16777216) from by ring]
    gcongr
  have v2 : P ≤ N ^ 2 * (1 + 1 / 16777216) ^ 7 := by
    refine r2.trans ?_
    rw [show N ^ 2 * (1 + 1 / 16777216 : ℝ) ^ 7 = N ^ 2 * (1 + 1 / 16777216) ^ 6 * (1 + 1 / 16777216) from by ring]
    gcongr
  have hP0 : 0 < P := lt_of_lt_of_le (by positivity) v1
  have w1 : N * (1 - 4 / 16777216) ≤ Real.sqrt P := by
    refine Real.le_sqrt_of_sq_le (le_trans ?_ v1)
    rw [mul_pow]
    gcongr
    norm_num
  have w2 : Real.sqrt P ≤ N * (1 + (18 / 5) / 16777216) := by
    refine Real.sqrt_le_iff.2 ⟨by positivity, v2.trans ?_⟩
    rw [mul_pow]
    gcongr
    norm_num
  norm_num at hN1 hN2
  obtain ⟨d, hd, d1, d2⟩ := round_pos (x := Real.sqrt P) (le_trans (by norm_num; linarith) w1) (le_trans w2 (by norm_num; linarith))
  refine ⟨d, ?_, ?_, ?_⟩
  · rw [hS, hT, mul_val, hP]
    simp only [Num.sqrt, if_neg (not_lt.2 hP0.le), hd]
  · refine le_trans ?_ d1
    nlinarith
  · refine d2.trans ?_
    nlinarith

/-- A sum or difference of two rounded products, rounded once more. -/
theorem sum_near {s t N : ℝ} (hs : |s| ≤ N) (ht : |t| ≤ N) (hst : |s + t| ≤ N) (h1 : 2 ^ (-62 : ℤ) ≤ N) (h2 : N ≤ 2 ^ 62) :
    ∃ w v, (round s).add (round t) = .val w ∧ round w = .val v ∧ |v - (s + t)| ≤ 6 * N / 16777216 := by
  norm_num at h1 h2
  obtain ⟨y, hy, ey⟩ := round_le hs (by norm_num; linarith) (by norm_num; linarith)
  obtain ⟨z, hz, ez⟩ := round_le ht (by norm_num; linarith) (by norm_num; linarith)
  rw [hy, hz, add_val]
  have b1 : |y + z| ≤ 2 * N := by
    rw [abs_le] at hst ey ez ⊢
    constructor <;> linarith
  obtain ⟨w, hw, ew⟩ := round_le b1 (by norm_num; linarith) (by norm_num; linarith)
  have b2 : |w| ≤ 2 * N := by
    rw [abs_le] at hst ey ez ew ⊢
    constructor <;> linarith
  obtain ⟨v, hv, ev⟩ := round_le b2 (by norm_num; linarith) (by norm_num; linarith)
  refine ⟨w, v, hw, hv, ?_⟩
  rw [abs_le] at ey ez ew ev ⊢
  constructor <;> linarith

theorem diff_near {s t N : ℝ} (hs : |s| ≤ N) (ht : |t| ≤ N) (hst : |s - t| ≤ N) (h1 : 2 ^ (-62 : ℤ) ≤ N) (h2 : N ≤ 2 ^ 62) :
    ∃ w v, (round s).sub (round t) = .val w ∧ round w = .val v ∧ |v - (s - t)| ≤ 6 * N / 16777216 := by
  norm_num at h1 h2
  obtain ⟨y, hy, ey⟩ := round_le hs (by norm_num; linarith) (by norm_num; linarith)
  obtain ⟨z, hz, ez⟩ := round_le ht (by norm_num; linarith) (by norm_num; linarith)
  rw [hy, hz, sub_val]
  have b1 : |y - z| ≤ 2 * N := by
    rw [abs_le] at hst ey ez ⊢
    constructor <;> linarith
  obtain ⟨w, hw, ew⟩ := round_le b1 (by norm_num; linarith) (by norm_num; linarith)
  have b2 : |w| ≤ 2 * N := by
    rw [abs_le] at hst ey ez ew ⊢
    constructor <;> linarith
  obtain ⟨v, hv, ev⟩ := round_le b2 (by norm_num; linarith) (by norm_num; linarith)
  refine ⟨w, v, hw, hv, ?_⟩
  rw [abs_le] at ey ez ew ev ⊢
  constructor <;> linarith

/-- Scaling by the rounded reciprocal of the denominator. -/
theorem scale_near {N D v ρ : ℝ} (h1 : 2 ^ (-62 : ℤ) ≤ N) (h2 : N ≤ 2 ^ 62) (hD1 : N * (1 - 5 / 16777216) ≤ D) (hD2 : D ≤ N * (1 + 5 / 16777216))
    (hv : |v - ρ * N| ≤ 6 * N / 16777216) (hρ : |ρ| ≤ 1) :
    ∃ p, (Num.val v).mul ((Num.val 1).div (round D)) = .val p ∧ |p - ρ| ≤ 18 / 16777216 := by
  have hN : 0 < N := lt_of_lt_of_le (by positivity) h1
  have h1' := h1
  have h2' := h2
  norm_num at h1' h2'
  obtain ⟨d, hd, d1, d2⟩ := round_pos (x := D) (by norm_num; linarith) (by norm_num; linarith)
  have e1 : N * (1 - 7 / 16777216) ≤ d := by refine le_trans ?_ d1; nlinarith
  have e2 : d ≤ N * (1 + 7 / 16777216) := by refine d2.trans ?_; nlinarith
  have hd0 : 0 < d := lt_of_lt_of_le (by nlinarith) e1
  have hrecL : (2 : ℝ) ^ (-63 : ℤ) ≤ 1 / d := by
    rw [le_div_iff₀ hd0]
    norm_num
    linarith
  have hrecU : 1 / d ≤ 2 ^ 63 := by
    rw [div_le_iff₀ hd0]
    norm_num
    linarith
  obtain ⟨s, hs, s1, s2⟩ := round_pos (x := 1 / d) (le_trans (by norm_num) hrecL) (hrecU.trans (by norm_num))
  have f1 : 1 - 9 / 16777216 ≤ s * N := by
    have : 1 - 7 / 16777216 ≤ N / d := by
      rw [le_div_iff₀ hd0]
      nlinarith
    calc 1 - 9 / 16777216 ≤ N / d * (1 - 1 / 16777216 : ℝ) := by nlinarith
      _ = 1 / d * (1 - 1 / 16777216) * N := by ring
      _ ≤ s * N := by gcongr
  have f2 : s * N ≤ 1 + 9 / 16777216 := by
    have : N / d ≤ 1 + 15 / 2 / 16777216 := by
      rw [div_le_iff₀ hd0]
      nlinarith
    calc s * N ≤ 1 / d * (1 + 1 / 16777216) * N := by gcongr
      _ = N / d * (1 + 1 / 16777216 : ℝ) := by ring
      _ ≤ 1 + 9 / 16777216 := by nlinarith
  have hq : |v / N - ρ| ≤ 6 / 16777216 := by
    have : v / N - ρ = (v - ρ * N) / N := by field_simp
    rw [this, abs_div, abs_of_pos hN, div_le_iff₀ hN]
    linarith
  have hvs : v * s = (v / N) * (s * N) := by field_simp
  have g1 : |v * s - ρ| ≤ 16 / 16777216 := by
    rw [hvs]
    have : v / N * (s * N) - ρ = (v / N - ρ) * (s * N) + ρ * (s * N - 1) := by ring
    rw [this]
    have t1 : |(v / N - ρ) * (s * N)| ≤ 6 / 16777216 * (1 + 9 / 16777216) := by
      rw [abs_mul]
      refine mul_le_mul hq ?_ (abs_nonneg _) (by norm_num)
      rw [abs_le]; constructor <;> linarith
    have t2 : |ρ * (s * N - 1)| ≤ 1 * (9 / 16777216) := by
      rw [abs_mul]
      refine mul_le_mul hρ ?_ (abs_nonneg _) (by norm_num)
      rw [abs_le]; constructor <;> linarith
    refine (abs_add_le _ _).trans ((add_le_add t1 t2).trans (by norm_num))
  have b : |v * s| ≤ 2 := by
    rw [abs_le] at g1 hρ ⊢
    constructor <;> linarith
  obtain ⟨p, hp, ep⟩ := round_le b (by norm_num) (by norm_num)
  refine ⟨p, ?_, ?_⟩
  · rw [hd]
    simp only [Num.div, if_neg hd0.ne', hs, mul_val, hp]
  · rw [abs_le] at g1 ep ⊢
    constructor <;> linarith

theorem cauchy {a b c d : ℝ} : |a * c - b * d| ≤ Real.sqrt (a ^ 2 + b ^ 2) * Real.sqrt (c ^ 2 + d ^ 2) := by
  rw [← Real.sqrt_mul (by positivity), ← Real.sqrt_sq_eq_abs]
  refine Real.sqrt_le_sqrt ?_
  nlinarith [sq_nonneg (a * d + b * c)]

theorem abs_le_hyp (a b : ℝ) : |a| ≤ Real.sqrt (a ^ 2 + b ^ 2) := Real.abs_le_sqrt (by nlinarith [sq_nonneg b])

theorem abs_le_hyp' (a b : ℝ) : |b| ≤ Real.sqrt (a ^ 2 + b ^ 2) := Real.abs_le_sqrt (by nlinarith [sq_nonneg a])

/-- One normalised product of the coherence, from the stored parts. -/
theorem g12S_near {a b c d : ℝ} (h1 : 2 ^ (-31 : ℤ) ≤ Real.sqrt (a ^ 2 + b ^ 2)) (h1' : Real.sqrt (a ^ 2 + b ^ 2) ≤ 2 ^ 31)
    (h2 : 2 ^ (-31 : ℤ) ≤ Real.sqrt (c ^ 2 + d ^ 2)) (h2' : Real.sqrt (c ^ 2 + d ^ 2) ≤ 2 ^ 31) :
    ∃ p q v w s : ℝ, g12S ⟨.val a, .val b⟩ ⟨.val c, .val d⟩ = ⟨.val p, .val q⟩ ∧ round (v * s) = .val p ∧ round (w * s) = .val q ∧
      |p - (a * c + b * d) / (Real.sqrt (a ^ 2 + b ^ 2) * Real.sqrt (c ^ 2 + d ^ 2))| ≤ 18 / 16777216 ∧
      |q - (a * d - b * c) / (Real.sqrt (a ^ 2 + b ^ 2) * Real.sqrt (c ^ 2 + d ^ 2))| ≤ 18 / 16777216 := by
  obtain ⟨D, hD, D1, D2⟩ := denominator_near h1 h1' h2 h2'
  have p1 : 0 < Real.sqrt (a ^ 2 + b ^ 2) := lt_of_lt_of_le (by positivity) h1
  have p2 : 0 < Real.sqrt (c ^ 2 + d ^ 2) := lt_of_lt_of_le (by positivity) h2
  have hN1 : (2 ^ (-62 : ℤ) : ℝ) ≤ Real.sqrt (a ^ 2 + b ^ 2) * Real.sqrt (c ^ 2 + d ^ 2) := by
    calc (2 ^ (-62 : ℤ) : ℝ) = 2 ^ (-31 : ℤ) * 2 ^ (-31 : ℤ) := by norm_num
      _ ≤ _ := mul_le_mul h1 h2 (by positivity) p1.le
  have hN2 : Real.sqrt (a ^ 2 + b ^ 2) * Real.sqrt (c ^ 2 + d ^ 2) ≤ 2 ^ 62 := by
    calc _ ≤ (2 ^ 31 * 2 ^ 31 : ℝ) := mul_le_mul h1' h2' p2.le (by positivity)
      _ = 2 ^ 62 := by norm_num
  have prod : ∀ s t : ℝ, |s| ≤ Real.sqrt (a ^ 2 + b ^ 2) → |t| ≤ Real.sqrt (c ^ 2 + d ^ 2) →
      |s * t| ≤ Real.sqrt (a ^ 2 + b ^ 2) * Real.sqrt (c ^ 2 + d ^ 2) := by
    intro s t hs ht
    rw [abs_mul]
    exact mul_le_mul hs ht (abs_nonneg _) p1.le
  have hb : |-b| ≤ Real.sqrt (a ^ 2 + b ^ 2) := by rw [abs_neg]; exact abs_le_hyp' a b
  have c1 : |a * c - -b * d| ≤ Real.sqrt (a ^ 2 + b ^ 2) * Real.sqrt (c ^ 2 + d ^ 2) := by
    have := cauchy (a := a) (b := -b) (c := c) (d := d)
    rwa [neg_sq] at this
  have c2 : |a * d + -b * c| ≤ Real.sqrt (a ^ 2 + b ^ 2) * Real.sqrt (c ^ 2 + d ^ 2) := by
    have := cauchy (a := a) (b := b) (c := d) (d := c)
    rw [add_comm (d ^ 2)] at this
    rwa [neg_mul, ← sub_eq_add_neg]
  obtain ⟨v0, v, hv0, hv, ev⟩ := diff_near (prod a c (abs_le_hyp a b) (abs_le_hyp c d)) (prod (-b) d hb (abs_le_hyp' c d)) c1 hN1 hN2
  obtain ⟨w0, w, hw0, hw, ew⟩ := sum_near (prod a d (abs_le_hyp a b) (abs_le_hyp' c d)) (prod (-b) c hb (abs_le_hyp c d)) c2 hN1 hN2
  have hn1 : (Num.val a).hypot (.val b) = round (Real.sqrt (a ^ 2 + b ^ 2)) := rfl
  have hn2 : (Num.val c).hypot (.val d) = round (Real.sqrt (c ^ 2 + d ^ 2)) := rfl
  have hNpos : 0 < Real.sqrt (a ^ 2 + b ^ 2) * Real.sqrt (c ^ 2 + d ^ 2) := mul_pos p1 p2
  have hD0 : D ≠ 0 := (lt_of_lt_of_le (by nlinarith) D1).ne'
  have hg : g12S ⟨.val a, .val b⟩ ⟨.val c, .val d⟩ = ⟨(Num.val v).mul ((Num.val 1).div (round D)), (Num.val w).mul ((Num.val 1).div (round D))⟩ := by
    unfold g12S
    have e1 : ((Cplx.conj ⟨.val a, .val b⟩).mul ⟨.val c, .val d⟩) = ⟨.val v0, .val w0⟩ := by
      unfold Cplx.conj Cplx.mul
      simp only [Num.neg, mul_val, hv0, hw0]
    rw [e1]
    unfold Cplx.abs
    simp only [hn1, hn2, hD]
    rw [divReal_val rfl rfl hD0, hv, hw]
  generalize Real.sqrt (a ^ 2 + b ^ 2) * Real.sqrt (c ^ 2 + d ^ 2) = N at *
  obtain ⟨p, hp, ep⟩ := scale_near (ρ := (a * c + b * d) / N) hN1 hN2 D1 D2 (v := v) (by
    rw [div_mul_cancel₀ _ hNpos.ne']
    have : a * c - -b * d = a * c + b * d := by ring
    rwa [this] at ev) (by
    rw [abs_div, abs_of_pos hNpos, div_le_one hNpos]
    have : a * c - -b * d = a * c + b * d := by ring
    rwa [this] at c1)
  obtain ⟨q, hq, eq⟩ := scale_near (ρ := (a * d - b * c) / N) hN1 hN2 D1 D2 (v := w) (by
    rw [div_mul_cancel₀ _ hNpos.ne']
    have : a * d + -b * c = a * d - b * c := by ring
    rwa [this] at ew) (by
    rw [abs_div, abs_of_pos hNpos, div_le_one hNpos]
    have : a * d + -b * c = a * d - b * c := by ring
    rwa [this] at c2)
  obtain ⟨s, hs⟩ : ∃ s, (Num.val 1).div (round D) = .val s := by
    rcases hh : (Num.val 1).div (round D) with _ | z | s
    · rw [hh] at hp; simp [Num.mul] at hp
    · rw [hh] at hp
      simp only [Num.mul] at hp
      split at hp <;> cases hp
    · exact ⟨s, rfl⟩
  rw [hs, mul_val] at hp hq
  exact ⟨p, q, v, w, s, by rw [hg, hs, mul_val, mul_val, hp, hq], hp, hq, ep, eq⟩

/-- Value of a finite number. -/
noncomputable def Num.real : Num → ℝ
  | .val x => x
  | _ => 0

/-- A stored number with parts of at most `3/2`. -/
def Small (z : Cplx) : Prop := ∃ p q : ℝ, z = ⟨.val p, .val q⟩ ∧ round p = .val p ∧ round q = .val q ∧ |p| ≤ 3 / 2 ∧ |q| ≤ 3 / 2

theorem sum_map_le {l : List Cplx} (f : Cplx → ℝ) {K : ℝ} (h : ∀ z ∈ l, |f z| ≤ K) : |(l.map f).sum| ≤ K * l.length := by
  induction l with
  | nil => simp
  | cons z l ih =>
    rw [List.map_cons, List.sum_cons, List.length_cons]
    push_cast
    have h1 := h z List.mem_cons_self
    have h2 := ih fun y hy => h y (List.mem_cons_of_mem _ hy)
    refine (abs_add_le _ _).trans ?_
    linarith

theorem add_step {S T s t m n : ℝ} (hm : 1 ≤ m) (hn : 1 ≤ n) (hmn : m + n ≤ 2 ^ 20) (hS : |S| ≤ 3 / 2 * m) (hT : |T| ≤ 3 / 2 * n)
    (hs : |s - S| ≤ 2 * m * (m - 1) / 16777216) (ht : |t - T| ≤ 2 * n * (n - 1) / 16777216) :
    ∃ y, round (s + t) = .val y ∧ |y - (S + T)| ≤ 2 * (m + n) * (m + n - 1) / 16777216 := by
  have hm2 : 2 * m * (m - 1) / 16777216 ≤ m / 2 := by nlinarith
  have hn2 : 2 * n * (n - 1) / 16777216 ≤ n / 2 := by nlinarith
  have b : |s + t| ≤ 2 * (m + n) := by
    rw [abs_le] at *
    constructor <;> linarith
  obtain ⟨y, hy, ey⟩ := round_le b (by norm_num; linarith) (by norm_num; linarith)
  refine ⟨y, hy, ?_⟩
  have : 2 * m * (m - 1) + 2 * n * (n - 1) + 2 * (m + n) ≤ 2 * (m + n) * (m + n - 1) := by nlinarith
  rw [abs_le] at *
  constructor <;> linarith

/-- Adding up numbers of size one, in any order: every addition loses at most `2^-24` of the sum. -/
theorem SumsTo.near {l : List Cplx} {x : Cplx} (h : SumsTo l x) (hl : ∀ z ∈ l, Small z) (hM : l.length ≤ 2 ^ 20) :
    1 ≤ l.length ∧ ∃ p q : ℝ, x = ⟨.val p, .val q⟩ ∧ round p = .val p ∧ round q = .val q ∧
      |p - (l.map fun z => z.re.real).sum| ≤ 2 * (l.length : ℝ) * (l.length - 1) / 16777216 ∧
      |q - (l.map fun z => z.im.real).sum| ≤ 2 * (l.length : ℝ) * (l.length - 1) / 16777216 := by
  induction h with
  | one z =>
    obtain ⟨p, q, rfl, hp, hq, -, -⟩ := hl z (by simp)
    exact ⟨by simp, p, q, rfl, hp, hq, by simp [Num.real], by simp [Num.real]⟩
  | @zero l x _ ih =>
    obtain ⟨h1, p, q, rfl, hp, hq, e1, e2⟩ := ih hl hM
    refine ⟨h1, p, q, ?_, hp, hq, e1, e2⟩
    unfold Cplx.add
    simp only [add_val, add_zero, hp, hq]
  | @perm l m x hlm _ ih =>
    obtain ⟨h1, p, q, rfl, hp, hq, e1, e2⟩ := ih (fun z hz => hl z (hlm.mem_iff.1 hz)) (by rw [hlm.length_eq]; exact hM)
    rw [hlm.length_eq] at h1 e1 e2
    rw [(hlm.map _).sum_eq] at e1 e2
    exact ⟨h1, p, q, rfl, hp, hq, e1, e2⟩
  | @add l m x y _ _ ih1 ih2 =>
    rw [List.length_append] at hM
    have l1 : ∀ z ∈ l, Small z := fun z hz => hl z (by simp [hz])
    have l2 : ∀ z ∈ m, Small z := fun z hz => hl z (by simp [hz])
    obtain ⟨a1, p, q, rfl, hp, hq, e1, e2⟩ := ih1 l1 (by omega)
    obtain ⟨a2, p', q', rfl, hp', hq', e1', e2'⟩ := ih2 l2 (by omega)
    have re_le : ∀ z, Small z → |z.re.real| ≤ 3 / 2 := by rintro z ⟨p, q, rfl, -, -, h, -⟩; exact h
    have im_le : ∀ z, Small z → |z.im.real| ≤ 3 / 2 := by rintro z ⟨p, q, rfl, -, -, -, h⟩; exact h
    have m1 : (1 : ℝ) ≤ l.length := by exact_mod_cast a1
    have m2 : (1 : ℝ) ≤ m.length := by exact_mod_cast a2
    have m3 : (l.length : ℝ) + m.length ≤ 2 ^ 20 := by exact_mod_cast hM
    obtain ⟨P, hP, eP⟩ := add_step m1 m2 m3 (sum_map_le _ fun z hz => re_le z (l1 z hz)) (sum_map_le _ fun z hz => re_le z (l2 z hz)) e1 e1'
    obtain ⟨Q, hQ, eQ⟩ := add_step m1 m2 m3 (sum_map_le _ fun z hz => im_le z (l1 z hz)) (sum_map_le _ fun z hz => im_le z (l2 z hz)) e2 e2'
    refine ⟨by rw [List.length_append]; omega, P, Q, ?_, round_idem hP, round_idem hQ, ?_, ?_⟩
    · unfold Cplx.add
      simp only [add_val, hP, hQ]
    · rw [List.map_append, List.sum_append, List.length_append]
      push_cast
      exact eP
    · rw [List.map_append, List.sum_append, List.length_append]
      push_cast
      exact eQ

/-- Not a finite number. -/
def Num.Bad (n : Num) : Prop := ∀ x, n ≠ .val x

theorem bad_add {x : Num} (h : x.Bad) (y : Num) : (x.add y).Bad := by
  intro z
  rcases x with _ | s | x
  · simp [Num.add]
  · rcases y with _ | t | y
    · simp [Num.add]
    · simp only [Num.add]
      split <;> simp
    · simp [Num.add]
  · exact absurd rfl (h x)

theorem add_bad {y : Num} (h : y.Bad) (x : Num) : (x.add y).Bad := by
  intro z
  rcases y with _ | s | y
  · rcases x with _ | t | x <;> simp [Num.add]
  · rcases x with _ | t | x
    · simp [Num.add]
    · simp only [Num.add]
      split <;> simp
    · simp [Num.add]
  · exact absurd rfl (h y)

/-- One term that is not finite spoils the sum. -/
theorem SumsTo.bad {l : List Cplx} {x : Cplx} (h : SumsTo l x) {z : Cplx} (hz : z ∈ l) (h1 : z.re.Bad) (h2 : z.im.Bad) : x.re.Bad ∧ x.im.Bad := by
  induction h with
  | one y =>
    rw [List.mem_singleton] at hz
    rw [← hz]
    exact ⟨h1, h2⟩
  | zero _ ih => exact ⟨bad_add (ih hz).1 _, bad_add (ih hz).2 _⟩
  | perm hlm _ ih => exact ih (hlm.mem_iff.2 hz)
  | add _ _ ih1 ih2 =>
    rcases List.mem_append.1 hz with hz | hz
    · exact ⟨bad_add (ih1 hz).1 _, bad_add (ih1 hz).2 _⟩
    · exact ⟨add_bad (ih2 hz).1 _, add_bad (ih2 hz).2 _⟩

theorem bad_mul_zero {x : Num} (h : x.Bad) : x.mul (.val 0) = .nan := by
  rcases x with _ | s | x
  · rfl
  · simp [Num.mul]
  · exact absurd rfl (h x)

/-- Dividing such a sum by the number of terms gives `nan`. -/
theorem divReal_bad {z : Cplx} (h1 : z.re.Bad) (h2 : z.im.Bad) {d : ℝ} (hd : d ≠ 0) : (z.divReal (.val d)).abs = .nan := by
  have h : (Num.val 0).div (.val d) = .val 0 := by simp only [Num.div, if_neg hd, zero_div, round_zero]
  have hn : ∀ x : Num, x.add .nan = .nan := by intro x; cases x <;> rfl
  have hm : ∀ x : Num, Num.nan.mul x = .nan := by intro x; cases x <;> rfl
  unfold Cplx.divReal Cplx.abs
  simp only
  rw [if_neg (val_ne_zero hd), h]
  simp only [bad_mul_zero h1, bad_mul_zero h2, Num.sub, Num.neg, hn, hm]
  rfl

/-- The denominator vanishes for two numbers of at most `2^-38`. -/
theorem g12S_bad {a b c d : ℝ} (h1 : Real.sqrt (a ^ 2 + b ^ 2) ≤ 2 ^ (-38 : ℤ)) (h2 : Real.sqrt (c ^ 2 + d ^ 2) ≤ 2 ^ (-38 : ℤ)) :
    (g12S ⟨.val a, .val b⟩ ⟨.val c, .val d⟩).re.Bad ∧ (g12S ⟨.val a, .val b⟩ ⟨.val c, .val d⟩).im.Bad := by
  have sq : ∀ n : ℝ, 0 ≤ n → n ≤ 2 ^ (-38 : ℤ) → ∃ S, (round n).mul (round n) = .val S ∧ |S| ≤ 2 ^ (-75 : ℤ) := by
    intro n h0 hn
    norm_num at hn
    obtain ⟨A, hA, eA⟩ := round_le (x := n) (K := 2 ^ (-38 : ℤ)) (by rw [abs_of_nonneg h0]; norm_num; exact hn) (by norm_num) (by norm_num)
    have bA : |A| ≤ 2 ^ (-38 : ℤ) * (1 + 1 / 16777216) := by
      norm_num at eA ⊢
      rw [abs_le] at *
      constructor <;> linarith
    have bAA : |A * A| ≤ (2 ^ (-38 : ℤ) * (1 + 1 / 16777216)) ^ 2 := by
      rw [abs_mul, sq]
      exact mul_le_mul bA bA (abs_nonneg _) (by positivity)
    obtain ⟨S, hS, eS⟩ := round_le bAA (by norm_num) (by norm_num)
    refine ⟨S, by rw [hA, mul_val, hS], ?_⟩
    have hpos := mul_self_nonneg A
    norm_num at bAA eS ⊢
    rw [abs_le] at *
    constructor <;> linarith
  obtain ⟨S, hS, bS⟩ := sq _ (Real.sqrt_nonneg _) h1
  obtain ⟨T, hT, bT⟩ := sq _ (Real.sqrt_nonneg _) h2
  have hST : |S * T| ≤ 2 ^ (-150 : ℤ) := by
    rw [abs_mul]
    calc |S| * |T| ≤ 2 ^ (-75 : ℤ) * 2 ^ (-75 : ℤ) := mul_le_mul bS bT (abs_nonneg _) (by positivity)
      _ = 2 ^ (-150 : ℤ) := by norm_num
  have hn1 : (Num.val a).hypot (.val b) = round (Real.sqrt (a ^ 2 + b ^ 2)) := rfl
  have hn2 : (Num.val c).hypot (.val d) = round (Real.sqrt (c ^ 2 + d ^ 2)) := rfl
  have hden : (((round (Real.sqrt (a ^ 2 + b ^ 2))).mul (round (Real.sqrt (a ^ 2 + b ^ 2)))).mul
      ((round (Real.sqrt (c ^ 2 + d ^ 2))).mul (round (Real.sqrt (c ^ 2 + d ^ 2))))).sqrt = .val 0 := by
    rw [hS, hT, mul_val, round_tiny hST]
    simp [Num.sqrt, round_zero]
  have hbad : ∀ x : Num, (x.div (.val 0)).Bad := by
    intro x z
    rcases x with _ | s | x
    · simp [Num.div]
    · simp [Num.div]
    · simp only [Num.div, if_true]
      split <;> simp
  have : ∀ z : Cplx, z.divReal (.val 0) = ⟨z.re.div (.val 0), z.im.div (.val 0)⟩ := by
    intro z
    unfold Cplx.divReal
    simp only [if_true]
  unfold g12S
  simp only [Cplx.abs, hn1, hn2, hden, this]
  exact ⟨hbad _, hbad _⟩

/-- `|z - w|` from the parts -/
theorem norm_parts {z w : ℂ} {ε : ℝ} (h1 : |z.re - w.re| ≤ ε) (h2 : |z.im - w.im| ≤ ε) : ‖z - w‖ ≤ 3 / 2 * ε := by
  have h0 : 0 ≤ ε := (abs_nonneg _).trans h1
  rw [Complex.norm_eq_sqrt_sq_add_sq, Complex.sub_re, Complex.sub_im]
  refine Real.sqrt_le_iff.2 ⟨by positivity, ?_⟩
  have a1 := sq_le_sq' (abs_le.1 h1).1 (abs_le.1 h1).2
  have a2 := sq_le_sq' (abs_le.1 h2).1 (abs_le.1 h2).2
  nlinarith

theorem round_nat {M : ℕ} (h : M ≤ 2 ^ 20) : round (M : ℝ) = .val M := by
  refine round_exact ⟨M, 0, ?_, by norm_num, by norm_num, by simp⟩
  rw [abs_of_nonneg (by positivity)]
  have : ((M : ℕ) : ℤ) ≤ 2 ^ 20 := by exact_mod_cast h
  omega

/-- The division of the mean. -/
theorem mean_step {p S : ℝ} {M : ℕ} (h1 : 1 ≤ M) (hM : M ≤ 2 ^ 20) (hp : round p = .val p) (hS : |S| ≤ 3 / 2 * M)
    (he : |p - S| ≤ 2 * (M : ℝ) * (M - 1) / 16777216) :
    ∃ y, (round p).mul ((Num.val 1).div (round (M : ℝ))) = .val y ∧ |y - S / M| ≤ (4 + 2 * M) / 16777216 := by
  have m1 : (1 : ℝ) ≤ M := by exact_mod_cast h1
  have m2 : (M : ℝ) ≤ 2 ^ 20 := by exact_mod_cast hM
  have m0 : (0 : ℝ) < M := by linarith
  have hM2 : 2 * (M : ℝ) * (M - 1) / 16777216 ≤ M / 2 := by nlinarith
  obtain ⟨s, hs, s1, s2⟩ := round_pos (x := 1 / (M : ℝ)) (by rw [le_div_iff₀ m0]; norm_num; linarith) (by rw [div_le_iff₀ m0]; norm_num; linarith)
  have hpM : |p / M| ≤ 2 := by
    rw [abs_div, abs_of_pos m0, div_le_iff₀ m0]
    rw [abs_le] at *
    constructor <;> linarith
  have hsM : |s * M - 1| ≤ 1 / 16777216 := by
    have e1 : 1 / (M : ℝ) * (1 - 1 / 16777216) * M = 1 - 1 / 16777216 := by field_simp
    have e2 : 1 / (M : ℝ) * (1 + 1 / 16777216) * M = 1 + 1 / 16777216 := by field_simp
    have := mul_le_mul_of_nonneg_right s1 m0.le
    have := mul_le_mul_of_nonneg_right s2 m0.le
    rw [abs_le]
    constructor <;> linarith
  have hps : |p * s - p / M| ≤ 2 / 16777216 := by
    have : p * s - p / M = p / M * (s * M - 1) := by field_simp
    rw [this, abs_mul]
    calc |p / M| * |s * M - 1| ≤ 2 * (1 / 16777216) := mul_le_mul hpM hsM (abs_nonneg _) (by norm_num)
      _ = 2 / 16777216 := by norm_num
  have b : |p * s| ≤ 4 := by
    rw [abs_le] at *
    constructor <;> linarith
  obtain ⟨y, hy, ey⟩ := round_le b (by norm_num) (by norm_num)
  refine ⟨y, ?_, ?_⟩
  · rw [hp, round_nat hM]
    simp only [Num.div, if_neg m0.ne', hs, mul_val, hy]
  · have hq : |p / M - S / M| ≤ (2 * M - 2) / 16777216 := by
      rw [← sub_div, abs_div, abs_of_pos m0, div_le_iff₀ m0]
      linarith
    rw [abs_le] at *
    constructor <;> linarith

/-- The magnitude of the mean of numbers computed with error `18·2^-24` in each part. -/
theorem meanAbs_near {ι : Type} (idx : List ι) (f : ι → Cplx) (F : ι → ℂ) {sum : List Cplx → Cplx} (hsum : SumsTo (idx.map f) (sum (idx.map f)))
    (hM : idx.length ≤ 2 ^ 20) (hF : ∀ i ∈ idx, ‖F i‖ ≤ 1)
    (hf : ∀ i ∈ idx, ∃ p q : ℝ, f i = ⟨.val p, .val q⟩ ∧ round p = .val p ∧ round q = .val q ∧ |p - (F i).re| ≤ 18 / 16777216 ∧
      |q - (F i).im| ≤ 18 / 16777216) :
    ∃ g, meanAbs sum (idx.map f) = .val g ∧ |g - ‖(idx.map F).sum / (idx.length : ℂ)‖| ≤ (35 + 3 * idx.length) / 16777216 := by
  have hl : ∀ z ∈ idx.map f, Small z := by
    intro z hz
    obtain ⟨i, hi, rfl⟩ := List.mem_map.1 hz
    obtain ⟨p, q, h, hp, hq, e1, e2⟩ := hf i hi
    have r1 := (Complex.abs_re_le_norm (F i)).trans (hF i hi)
    have r2 := (Complex.abs_im_le_norm (F i)).trans (hF i hi)
    refine ⟨p, q, h, hp, hq, ?_, ?_⟩
    · rw [abs_le] at *; constructor <;> linarith
    · rw [abs_le] at *; constructor <;> linarith
  obtain ⟨hone, p, q, hx, hp, hq, e1, e2⟩ := SumsTo.near hsum hl (by rw [List.length_map]; exact hM)
  have re_le : ∀ z, Small z → |z.re.real| ≤ 3 / 2 := by rintro z ⟨p, q, rfl, -, -, h, -⟩; exact h
  have im_le : ∀ z, Small z → |z.im.real| ≤ 3 / 2 := by rintro z ⟨p, q, rfl, -, -, -, h⟩; exact h
  have s1 := sum_map_le (fun z : Cplx => z.re.real) fun z hz => re_le z (hl z hz)
  have s2 := sum_map_le (fun z : Cplx => z.im.real) fun z hz => im_le z (hl z hz)
  rw [List.length_map] at hone e1 e2 s1 s2
  obtain ⟨P, hP, eP⟩ := mean_step hone hM hp s1 e1
  obtain ⟨Q, hQ, eQ⟩ := mean_step hone hM hq s2 e2
  have m1 : (1 : ℝ) ≤ idx.length := by exact_mod_cast hone
  have m2 : (idx.length : ℝ) ≤ 2 ^ 20 := by exact_mod_cast hM
  have m0 : (0 : ℝ) < idx.length := by linarith
  set m : ℂ := (idx.map F).sum / (idx.length : ℂ) with hm
  have sre : ((idx.map F).sum).re = (idx.map fun i => (F i).re).sum := by
    clear * -
    induction idx with
    | nil => simp
    | cons i l ih => simp [ih]
  have sim : ((idx.map F).sum).im = (idx.map fun i => (F i).im).sum := by
    clear * -
    induction idx with
    | nil => simp
    | cons i l ih => simp [ih]
  have close : ∀ (a b : ι → ℝ), (∀ i ∈ idx, |a i - b i| ≤ 18 / 16777216) → |(idx.map a).sum / idx.length - (idx.map b).sum / idx.length| ≤ 18 / 16777216 := by
    intro a b hab
    have h : ∀ l : List ι, (∀ i ∈ l, |a i - b i| ≤ 18 / 16777216) → |(l.map a).sum - (l.map b).sum| ≤ 18 / 16777216 * l.length := by
      intro l
      induction l with
      | nil => simp
      | cons i l ih =>
        intro hi
        have h1 := hi i List.mem_cons_self
        have h2 := ih fun j hj => hi j (List.mem_cons_of_mem _ hj)
        rw [List.map_cons, List.map_cons, List.sum_cons, List.sum_cons, List.length_cons]
        push_cast
        rw [abs_le] at *
        constructor <;> linarith
    rw [← sub_div, abs_div, abs_of_pos m0, div_le_iff₀ m0]
    exact h idx hab
  have hre : m.re = (idx.map fun i => (F i).re).sum / idx.length := by
    rw [hm, ← sre]
    exact_mod_cast Complex.div_natCast_re _ _
  have him : m.im = (idx.map fun i => (F i).im).sum / idx.length := by
    rw [hm, ← sim]
    exact_mod_cast Complex.div_natCast_im _ _
  have c1 := close (fun i => (f i).re.real) (fun i => (F i).re) (fun i hi => by
    obtain ⟨p, q, h, -, -, e, -⟩ := hf i hi
    rw [h]; exact e)
  have c2 := close (fun i => (f i).im.real) (fun i => (F i).im) (fun i hi => by
    obtain ⟨p, q, h, -, -, -, e⟩ := hf i hi
    rw [h]; exact e)
  rw [List.map_map] at eP eQ
  rw [← hre] at c1
  rw [← him] at c2
  have d1 : |(⟨P, Q⟩ : ℂ).re - m.re| ≤ (22 + 2 * idx.length) / 16777216 := by
    simp only [Function.comp_def] at eP
    show |P - m.re| ≤ _
    rw [abs_le] at *
    constructor <;> linarith
  have d2 : |(⟨P, Q⟩ : ℂ).im - m.im| ≤ (22 + 2 * idx.length) / 16777216 := by
    simp only [Function.comp_def] at eQ
    show |Q - m.im| ≤ _
    rw [abs_le] at *
    constructor <;> linarith
  have hd := norm_parts d1 d2
  have hab := (abs_norm_sub_norm_le (⟨P, Q⟩ : ℂ) m).trans hd
  have hm1 : ‖m‖ ≤ 1 := by
    rw [hm, norm_div, Complex.norm_natCast, div_le_one m0]
    have h : ∀ l : List ι, (∀ i ∈ l, ‖F i‖ ≤ 1) → ‖(l.map F).sum‖ ≤ l.length := by
      intro l
      induction l with
      | nil => simp
      | cons i l ih =>
        intro hi
        rw [List.map_cons, List.sum_cons, List.length_cons]
        push_cast
        refine (norm_add_le _ _).trans ?_
        have h1 := hi i List.mem_cons_self
        have h2 := ih fun j hj => hi j (List.mem_cons_of_mem _ hj)
        linarith
    exact h idx hF
  have hnorm : ‖(⟨P, Q⟩ : ℂ)‖ = Real.sqrt (P ^ 2 + Q ^ 2) := by rw [Complex.norm_eq_sqrt_sq_add_sq]
  rw [hnorm] at hab
  have b : |Real.sqrt (P ^ 2 + Q ^ 2)| ≤ 2 := by
    rw [abs_of_nonneg (Real.sqrt_nonneg _)]
    have := (abs_le.1 hab).2
    linarith
  obtain ⟨g, hg, eg⟩ := round_le b (by norm_num) (by norm_num)
  refine ⟨g, ?_, ?_⟩
  · unfold meanAbs
    rw [hx, List.length_map, divReal_val rfl rfl m0.ne', hP, hQ]
    unfold Cplx.abs
    simp only [Num.hypot]
    exact hg
  · rw [abs_le] at *
    constructor <;> linarith

/-- What is stored for a complex number in the middle of the range. -/
theorem store_near {x : ℂ} (h1 : 2 ^ (-30 : ℤ) ≤ ‖x‖) (h2 : ‖x‖ ≤ 2 ^ 30) :
    ∃ a b : ℝ, store x = ⟨.val a, .val b⟩ ∧ ‖(⟨a, b⟩ : ℂ) - x‖ ≤ 3 / 2 * (‖x‖ / 16777216) ∧ 2 ^ (-31 : ℤ) ≤ Real.sqrt (a ^ 2 + b ^ 2) ∧
      Real.sqrt (a ^ 2 + b ^ 2) ≤ 2 ^ 31 := by
  norm_num at h1 h2
  obtain ⟨a, ha, ea⟩ := round_le (Complex.abs_re_le_norm x) (by norm_num; linarith) (by norm_num; linarith)
  obtain ⟨b, hb, eb⟩ := round_le (Complex.abs_im_le_norm x) (by norm_num; linarith) (by norm_num; linarith)
  have hd := norm_parts (z := ⟨a, b⟩) (w := x) ea eb
  have hab := (abs_norm_sub_norm_le (⟨a, b⟩ : ℂ) x).trans hd
  rw [Complex.norm_eq_sqrt_sq_add_sq (⟨a, b⟩ : ℂ)] at hab
  simp only at hab
  refine ⟨a, b, by unfold store; rw [ha, hb], hd, ?_, ?_⟩
  · norm_num
    rw [abs_le] at hab
    linarith
  · norm_num
    rw [abs_le] at hab
    linarith

/-- Normalising two nearby numbers. -/
theorem phase_near {x y : ℂ} (hx : x ≠ 0) (hy : y ≠ 0) : ‖y / (‖y‖ : ℂ) - x / (‖x‖ : ℂ)‖ ≤ 2 * ‖y - x‖ / ‖x‖ := by
  have nx : 0 < ‖x‖ := norm_pos_iff.2 hx
  have ny : 0 < ‖y‖ := norm_pos_iff.2 hy
  have cx : (‖x‖ : ℂ) ≠ 0 := by exact_mod_cast nx.ne'
  have cy : (‖y‖ : ℂ) ≠ 0 := by exact_mod_cast ny.ne'
  have e : y / (‖y‖ : ℂ) - x / (‖x‖ : ℂ) = (y / (‖y‖ : ℂ) * ((‖x‖ : ℂ) - (‖y‖ : ℂ)) + (y - x)) / (‖x‖ : ℂ) := by
    field_simp
    ring
  rw [e, norm_div, Complex.norm_real, norm_norm]
  gcongr
  refine (norm_add_le _ _).trans ?_
  rw [norm_mul, norm_div, Complex.norm_real, norm_norm, div_self ny.ne', one_mul, ← Complex.ofReal_sub, Complex.norm_real, Real.norm_eq_abs]
  have := abs_norm_sub_norm_le x y
  rw [norm_sub_rev] at this
  linarith

theorem g12_eq {x y : ℂ} : g12 x y = (starRingEnd ℂ) (x / (‖x‖ : ℂ)) * (y / (‖y‖ : ℂ)) := by
  unfold g12
  rw [← mul_pow, Real.sqrt_sq (by positivity), map_div₀, Complex.conj_ofReal]
  push_cast
  rw [div_mul_div_comm]

theorem norm_phase {x : ℂ} (hx : x ≠ 0) : ‖x / (‖x‖ : ℂ)‖ = 1 := by
  rw [norm_div, Complex.norm_real, norm_norm, div_self (norm_pos_iff.2 hx).ne']

/-- The normalised product of nearby numbers. -/
theorem g12_close {x y x' y' : ℂ} (hx : x ≠ 0) (hy : y ≠ 0) (hx' : x' ≠ 0) (hy' : y' ≠ 0) {ε : ℝ} (h1 : ‖x' - x‖ ≤ ε * ‖x‖) (h2 : ‖y' - y‖ ≤ ε * ‖y‖) :
    ‖g12 x' y' - g12 x y‖ ≤ 4 * ε := by
  rw [g12_eq, g12_eq]
  have b1 := (phase_near hx hx').trans (b := 2 * ‖x' - x‖ / ‖x‖) (c := 2 * ε) (by rw [div_le_iff₀ (norm_pos_iff.2 hx)]; linarith)
  have b2 := (phase_near hy hy').trans (b := 2 * ‖y' - y‖ / ‖y‖) (c := 2 * ε) (by rw [div_le_iff₀ (norm_pos_iff.2 hy)]; linarith)
  have n1 := norm_phase hx
  have n2 := norm_phase hy'
  generalize x / (‖x‖ : ℂ) = X at *
  generalize y / (‖y‖ : ℂ) = Y at *
  generalize x' / (‖x'‖ : ℂ) = X' at *
  generalize y' / (‖y'‖ : ℂ) = Y' at *
  have e : (starRingEnd ℂ) X' * Y' - (starRingEnd ℂ) X * Y = (starRingEnd ℂ) (X' - X) * Y' + (starRingEnd ℂ) X * (Y' - Y) := by
    rw [map_sub]; ring
  rw [e]
  refine (norm_add_le _ _).trans ?_
  rw [norm_mul, norm_mul, RCLike.norm_conj, RCLike.norm_conj, n1, n2]
  linarith

theorem g12_parts {a b c d : ℝ} : (g12 ⟨a, b⟩ ⟨c, d⟩).re = (a * c + b * d) / (Real.sqrt (a ^ 2 + b ^ 2) * Real.sqrt (c ^ 2 + d ^ 2)) ∧
    (g12 ⟨a, b⟩ ⟨c, d⟩).im = (a * d - b * c) / (Real.sqrt (a ^ 2 + b ^ 2) * Real.sqrt (c ^ 2 + d ^ 2)) := by
  unfold g12
  rw [← mul_pow, Real.sqrt_sq (by positivity), Complex.norm_eq_sqrt_sq_add_sq, Complex.norm_eq_sqrt_sq_add_sq]
  rw [Complex.div_ofReal_re, Complex.div_ofReal_im]
  constructor
  · congr 1
    simp
  · congr 1
    simp
    ring

/-- the pairs of trials in the order of the loops -/
def pairs (N : ℕ) : List (Fin N × Fin N) :=
  (List.finRange N).flatMap fun i => ((List.finRange N).filter fun j => i ≠ j).map fun j => (i, j)

theorem pairs_length (N : ℕ) : (pairs N).length = N * (N - 1) := by
  unfold pairs
  rw [List.length_flatMap]
  simp only [List.length_map]
  have h : ∀ i : Fin N, ((List.finRange N).filter fun j => i ≠ j).length = N - 1 := by
    intro i
    have h1 := List.length_eq_length_filter_add (l := List.finRange N) (fun j => decide (i ≠ j))
    have h2 : ((List.finRange N).filter fun j => !decide (i ≠ j)).length = 1 := by
      have : (fun j : Fin N => !decide (i ≠ j)) = fun j => j == i := by
        funext j
        by_cases hij : i = j
        · simp [hij]
        · have : ¬ j = i := fun h => hij h.symm
          simp [hij, this]
      rw [this, ← List.countP_eq_length_filter]
      exact List.count_finRange i
    rw [List.length_finRange] at h1
    omega
  simp only [h]
  simp

theorem g12Stack_eq {N : ℕ} (E : Fin N → ℂ) : g12Stack E = (pairs N).map fun t => g12 (E t.1) (E t.2) := by
  unfold g12Stack pairs
  rw [List.map_flatMap]
  simp only [List.map_map, Function.comp_def]

theorem g12StackS_eq {N : ℕ} (E : Fin N → Cplx) : g12StackS E = ((pairs N).reverse).map fun t => g12S (E t.1) (E t.2) := by
  unfold g12StackS pairs
  rw [List.map_reverse, List.map_flatMap]
  simp only [List.map_map, Function.comp_def]

/-- The coherence computed in single precision from fields in the middle of the range. -/
theorem coherence_near {N : ℕ} (hN : 2 ≤ N) (hN' : N ≤ 1024) (E : Fin N → ℂ) (h1 : ∀ t, 2 ^ (-30 : ℤ) ≤ ‖E t‖) (h2 : ∀ t, ‖E t‖ ≤ 2 ^ 30)
    {sum : List Cplx → Cplx} (hsum : ∀ l, l ≠ [] → SumsTo l (sum l)) :
    ∃ g, meanAbs sum (g12StackS fun t => store (E t)) = .val g ∧
      |g - ‖(g12Stack E).sum / ((g12Stack E).length : ℂ)‖| ≤ (41 + 3 * (N * (N - 1) : ℕ)) / 16777216 := by
  choose a b hs hd hlow hupp using fun t => store_near (h1 t) (h2 t)
  have hE0 : ∀ t, E t ≠ 0 := fun t => norm_pos_iff.1 (lt_of_lt_of_le (by positivity) (h1 t))
  have hE0' : ∀ t, (⟨a t, b t⟩ : ℂ) ≠ 0 := by
    intro t
    rw [← norm_pos_iff, Complex.norm_eq_sqrt_sq_add_sq]
    exact lt_of_lt_of_le (by positivity) (hlow t)
  have hlen : ((pairs N).reverse).length = N * (N - 1) := by rw [List.length_reverse, pairs_length]
  have hM : N * (N - 1) ≤ 2 ^ 20 := by
    calc N * (N - 1) ≤ 1024 * 1024 := Nat.mul_le_mul hN' (by omega)
      _ = 2 ^ 20 := by norm_num
  have hpos : 1 ≤ N * (N - 1) := Nat.mul_pos (by omega) (by omega)
  have hst : (g12StackS fun t => store (E t)) = ((pairs N).reverse).map fun t => g12S ⟨.val (a t.1), .val (b t.1)⟩ ⟨.val (a t.2), .val (b t.2)⟩ := by
    rw [g12StackS_eq]
    simp only [hs]
  obtain ⟨g, hg, eg⟩ := meanAbs_near (pairs N).reverse (fun t => g12S ⟨.val (a t.1), .val (b t.1)⟩ ⟨.val (a t.2), .val (b t.2)⟩)
    (fun t => g12 ⟨a t.1, b t.1⟩ ⟨a t.2, b t.2⟩) (sum := sum) (hsum _ (by
      rw [ne_eq, ← List.length_eq_zero_iff, List.length_map, hlen]
      omega)) (by rw [hlen]; exact hM) (fun t _ => (norm_g12 (hE0' t.1) (hE0' t.2)).le) (by
      intro t _
      obtain ⟨p, q, v, w, s, hpq, hp, hq, e1, e2⟩ := g12S_near (hlow t.1) (hupp t.1) (hlow t.2) (hupp t.2)
      refine ⟨p, q, hpq, round_idem hp, round_idem hq, ?_, ?_⟩
      · rw [g12_parts.1]; exact e1
      · rw [g12_parts.2]; exact e2)
  refine ⟨g, by rw [hst]; exact hg, ?_⟩
  rw [hlen] at eg
  have hdiff : ∀ l : List (Fin N × Fin N), ‖(l.map fun t => g12 ⟨a t.1, b t.1⟩ ⟨a t.2, b t.2⟩).sum - (l.map fun t => g12 (E t.1) (E t.2)).sum‖ ≤
      6 / 16777216 * l.length := by
    intro l
    induction l with
    | nil => simp
    | cons t l ih =>
      rw [List.map_cons, List.map_cons, List.sum_cons, List.sum_cons, List.length_cons]
      have h := g12_close (hE0 t.1) (hE0 t.2) (hE0' t.1) (hE0' t.2) (ε := 3 / 2 / 16777216) ((hd t.1).trans (by linarith)) ((hd t.2).trans (by linarith))
      push_cast
      refine le_trans (le_of_eq (congrArg norm ?_)) ((norm_add_le (g12 ⟨a t.1, b t.1⟩ ⟨a t.2, b t.2⟩ - g12 (E t.1) (E t.2)) _).trans (add_le_add h ih) |>.trans ?_)
      · ring
      · linarith
  have hperm : (g12Stack E).sum = (((pairs N).reverse).map fun t => g12 (E t.1) (E t.2)).sum := by
    rw [g12Stack_eq]
    exact ((List.reverse_perm (pairs N)).map _).sum_eq.symm
  have hlen2 : (g12Stack E).length = N * (N - 1) := by rw [g12Stack_eq, List.length_map, pairs_length]
  rw [hperm, hlen2]
  have m0 : (0 : ℝ) < ((N * (N - 1) : ℕ) : ℝ) := by exact_mod_cast hpos
  have hclose : ‖(((pairs N).reverse).map fun t => g12 ⟨a t.1, b t.1⟩ ⟨a t.2, b t.2⟩).sum / ((N * (N - 1) : ℕ) : ℂ) -
      (((pairs N).reverse).map fun t => g12 (E t.1) (E t.2)).sum / ((N * (N - 1) : ℕ) : ℂ)‖ ≤ 6 / 16777216 := by
    rw [← sub_div, norm_div, Complex.norm_natCast, div_le_iff₀ m0]
    have := hdiff (pairs N).reverse
    rwa [hlen] at this
  have hfin := (abs_norm_sub_norm_le _ _).trans hclose
  refine (abs_sub_le _ _ _).trans ((add_le_add eg hfin).trans ?_)
  linarith

/-- Two trials with fields of at most `2^-39` in a bin: the coherence in that bin is not a number. -/
theorem coherence_nan {N : ℕ} (E : Fin N → ℂ) {s t : Fin N} (hst : s ≠ t) (h1 : ‖E s‖ ≤ 2 ^ (-39 : ℤ)) (h2 : ‖E t‖ ≤ 2 ^ (-39 : ℤ))
    {sum : List Cplx → Cplx} (hsum : ∀ l, l ≠ [] → SumsTo l (sum l)) : meanAbs sum (g12StackS fun t => store (E t)) = .nan := by
  have key : ∀ x : ℂ, ‖x‖ ≤ 2 ^ (-39 : ℤ) → ∃ a b : ℝ, store x = ⟨.val a, .val b⟩ ∧ Real.sqrt (a ^ 2 + b ^ 2) ≤ 2 ^ (-38 : ℤ) := by
    intro x hx
    obtain ⟨a, ha, ea⟩ := round_le ((Complex.abs_re_le_norm x).trans hx) (by norm_num) (by norm_num)
    obtain ⟨b, hb, eb⟩ := round_le ((Complex.abs_im_le_norm x).trans hx) (by norm_num) (by norm_num)
    have hd := norm_parts (z := ⟨a, b⟩) (w := x) ea eb
    have hab := (abs_norm_sub_norm_le (⟨a, b⟩ : ℂ) x).trans hd
    rw [Complex.norm_eq_sqrt_sq_add_sq (⟨a, b⟩ : ℂ)] at hab
    simp only at hab
    refine ⟨a, b, by unfold store; rw [ha, hb], ?_⟩
    norm_num at hab hx ⊢
    rw [abs_le] at hab
    linarith
  obtain ⟨a, b, hs, ab⟩ := key _ h1
  obtain ⟨c, d, ht, cd⟩ := key _ h2
  obtain ⟨b1, b2⟩ := g12S_bad ab cd
  have hmem : g12S (store (E s)) (store (E t)) ∈ g12StackS fun t => store (E t) := by
    rw [g12StackS_eq, List.mem_map]
    refine ⟨(s, t), ?_, rfl⟩
    rw [List.mem_reverse]
    unfold pairs
    simp only [List.mem_flatMap, List.mem_map, List.mem_filter, List.mem_finRange, true_and, decide_eq_true_eq]
    exact ⟨s, t, hst, rfl⟩
  have hne : (g12StackS fun t => store (E t)) ≠ [] := List.ne_nil_of_mem hmem
  rw [← hs, ← ht] at b1 b2
  obtain ⟨c1, c2⟩ := SumsTo.bad (hsum _ hne) hmem b1 b2
  unfold meanAbs
  refine divReal_bad c1 c2 ?_
  have : (g12StackS fun t => store (E t)).length ≠ 0 := by rwa [ne_eq, List.length_eq_zero_iff]
  exact_mod_cast this

end PyNLO.Single
