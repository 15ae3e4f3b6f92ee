import Mathlib.Tactic.NormNum
import Mathlib.Tactic.Module
import Mathlib.Tactic.IntervalCases
import Mathlib.Analysis.Complex.Basic
import Verif.Model.Ode

/-!
# C59: the Runge–Kutta coefficients

Row sums, quadrature conditions of orders 1 to 8, and what they mean for a step of the integrator: on a
right-hand side that is a polynomial of degree at most 7 in the independent variable the step is the exact
integral up to the rounding of the printed literals, and the two error estimates vanish on polynomials of
degree at most 4 and 2.
-/

open scoped BigOperators

namespace PyNLO.Ode

variable {n : ℕ}

open dc

/-- C59: every stage is evaluated at the abscissa given by the sum of its row of coefficients. -/
theorem C59_row_sums :
    |a21 - c2| ≤ 1e-28 ∧
    |a31 + a32 - c3| ≤ 1e-28 ∧
    |a41 + a43 - c4| ≤ 1e-28 ∧
    |a51 + a53 + a54 - c5| ≤ 1e-28 ∧
    |a61 + a64 + a65 - c6| ≤ 1e-28 ∧
    |a71 + a74 + a75 + a76 - c7| ≤ 1e-28 ∧
    |a81 + a84 + a85 + a86 + a87 - c8| ≤ 1e-28 ∧
    |a91 + a94 + a95 + a96 + a97 + a98 - c9| ≤ 1e-28 ∧
    |a101 + a104 + a105 + a106 + a107 + a108 + a109 - c10| ≤ 1e-28 ∧
    |a111 + a114 + a115 + a116 + a117 + a118 + a119 + a1110 - c11| ≤ 1e-28 ∧
    |a121 + a124 + a125 + a126 + a127 + a128 + a129 + a1210 + a1211 - 1| ≤ 1e-28 ∧
    |a141 + a147 + a148 + a149 + a1410 + a1411 + a1412 + a1413 - c14| ≤ 1e-28 ∧
    |a151 + a156 + a157 + a158 + a1511 + a1512 + a1513 + a1514 - c15| ≤ 1e-28 ∧
    |a161 + a166 + a167 + a168 + a169 + a1613 + a1614 + a1615 - c16| ≤ 1e-28 := by
  refine ⟨?_, ?_, ?_, ?_, ?_, ?_, ?_, ?_, ?_, ?_, ?_, ?_, ?_, ?_⟩ <;> rw [abs_le]
  · norm_num [a21, c2]
  · norm_num [a31, a32, c3]
  · norm_num [a41, a43, c4]
  · norm_num [a51, a53, a54, c5]
  · norm_num [a61, a64, a65, c6]
  · norm_num [a71, a74, a75, a76, c7]
  · norm_num [a81, a84, a85, a86, a87, c8]
  · norm_num [a91, a94, a95, a96, a97, a98, c9]
  · norm_num [a101, a104, a105, a106, a107, a108, a109, c10]
  · norm_num [a111, a114, a115, a116, a117, a118, a119, a1110, c11]
  · norm_num [a121, a124, a125, a126, a127, a128, a129, a1210, a1211]
  · norm_num [a141, a147, a148, a149, a1410, a1411, a1412, a1413, c14]
  · norm_num [a151, a156, a157, a158, a1511, a1512, a1513, a1514, c15]
  · norm_num [a161, a166, a167, a168, a169, a1613, a1614, a1615, c16]

/-- `Σ b_i c_i^k` for the weights of the step. -/
noncomputable def quadMoment (k : ℕ) : ℝ :=
  b1 * 0 ^ k + b6 * c6 ^ k + b7 * c7 ^ k + b8 * c8 ^ k + b9 * c9 ^ k + b10 * c10 ^ k + b11 * c11 ^ k + b12

/-- `Σ er_i c_i^k` for the weights of the fifth-order error estimate. -/
noncomputable def err5Moment (k : ℕ) : ℝ :=
  er1 * 0 ^ k + er6 * c6 ^ k + er7 * c7 ^ k + er8 * c8 ^ k + er9 * c9 ^ k + er10 * c10 ^ k + er11 * c11 ^ k + er12

/-- `Σ bhh_i c_i^k` for the weights of the third-order comparison solution. -/
noncomputable def bhhMoment (k : ℕ) : ℝ := bhh1 * 0 ^ k + bhh2 * c9 ^ k + bhh3

/-- C59: the quadrature conditions of orders 1 to 8. -/
theorem C59_quadrature (k : ℕ) (hk : k < 8) : |quadMoment k - 1 / (k + 1)| ≤ 1e-29 := by
  unfold quadMoment
  rw [abs_le]
  interval_cases k <;> norm_num [b1, b6, b7, b8, b9, b10, b11, b12, c6, c7, c8, c9, c10, c11]

/-- C59: the fifth-order error estimate vanishes to order 5. -/
theorem C59_err5 (k : ℕ) (hk : k < 5) : |err5Moment k| ≤ 1e-27 := by
  unfold err5Moment
  rw [abs_le]
  interval_cases k <;> norm_num [er1, er6, er7, er8, er9, er10, er11, er12, c6, c7, c8, c9, c10, c11]

/-- C59: the comparison solution has order 3. -/
theorem C59_bhh (k : ℕ) (hk : k < 3) : |bhhMoment k - 1 / (k + 1)| ≤ 1e-29 := by
  unfold bhhMoment
  rw [abs_le]
  interval_cases k <;> norm_num [bhh1, bhh2, bhh3, c9]

/-- A right-hand side that depends on the independent variable only: `Σ_{k<m} (t-x)^k v_k`. -/
noncomputable def polyRhs (m : ℕ) (x : ℝ) (v : ℕ → V n) : Rhs n := fun t _ => ∑ k ∈ Finset.range m, (t - x) ^ k • v k

theorem polyRhs_one (m : ℕ) (x : ℝ) (v : ℕ → V n) (h : ℝ) (y : V n) :
    polyRhs m x v (x + h) y = ∑ k ∈ Finset.range m, (h ^ k) • v k := by
  unfold polyRhs
  refine Finset.sum_congr rfl fun k _ => ?_
  rw [add_sub_cancel_left]

theorem polyRhs_zero (m : ℕ) (x : ℝ) (v : ℕ → V n) (h : ℝ) (y : V n) :
    polyRhs m x v x y = ∑ k ∈ Finset.range m, ((0 : ℝ) ^ k * h ^ k) • v k := by
  unfold polyRhs
  refine Finset.sum_congr rfl fun k _ => ?_
  rw [sub_self]
  rcases k with _ | k <;> simp

theorem dy_poly (m : ℕ) (x : ℝ) (v : ℕ → V n) (y : V n) (h : ℝ) :
    (dy (polyRhs m x v) x y (polyRhs m x v x y) h).yout = y + ∑ k ∈ Finset.range m, (h ^ (k + 1) * quadMoment k) • v k ∧
    (dy (polyRhs m x v) x y (polyRhs m x v x y) h).yerr =
      ∑ k ∈ Finset.range m, (h ^ k * (quadMoment k - bhhMoment k)) • v k ∧
    (dy (polyRhs m x v) x y (polyRhs m x v x y) h).yerr2 = ∑ k ∈ Finset.range m, (h ^ k * err5Moment k) • v k := by
  simp only [dy, polyRhs_one, polyRhs_zero m x v h, Finset.smul_sum, ← Finset.sum_add_distrib,
    ← Finset.sum_sub_distrib, smul_smul, ← add_smul, ← sub_smul, quadMoment, bhhMoment, err5Moment]
  refine ⟨?_, ?_, ?_⟩
  · congr 1
    refine Finset.sum_congr rfl fun k _ => ?_
    congr 1; ring
  · refine Finset.sum_congr rfl fun k _ => ?_
    congr 1; ring
  · refine Finset.sum_congr rfl fun k _ => ?_
    congr 1; ring

/-- C59, for a step of the integrator: integrating a polynomial of degree at most 7 in the independent variable,
`Σ (t-x)^k v_k`, a step of length `h` gives `Σ h^(k+1)/(k+1) v_k` in each component, to 29 digits. -/
theorem C59_step_exact (x : ℝ) (v : ℕ → V n) (y : V n) (h : ℝ) (i : Fin n) :
    ‖(dy (polyRhs 8 x v) x y (polyRhs 8 x v x y) h).yout i -
        (y i + ∑ k ∈ Finset.range 8, ((h ^ (k + 1) / (k + 1) : ℝ) : ℂ) * v k i)‖
      ≤ 1e-29 * ∑ k ∈ Finset.range 8, |h| ^ (k + 1) * ‖v k i‖ := by
  rw [(dy_poly 8 x v y h).1]
  simp only [Pi.add_apply, Finset.sum_apply, Pi.smul_apply, Complex.real_smul, add_sub_add_left_eq_sub,
    ← Finset.sum_sub_distrib, Finset.mul_sum]
  refine (norm_sum_le _ _).trans (Finset.sum_le_sum fun k hk => ?_)
  have hq := C59_quadrature k (Finset.mem_range.mp hk)
  rw [← sub_mul, ← Complex.ofReal_sub, norm_mul, Complex.norm_real, Real.norm_eq_abs,
    show h ^ (k + 1) * quadMoment k - h ^ (k + 1) / (k + 1) = h ^ (k + 1) * (quadMoment k - 1 / (k + 1)) by ring,
    abs_mul, abs_pow]
  calc |h| ^ (k + 1) * |quadMoment k - 1 / (k + 1)| * ‖v k i‖ ≤ |h| ^ (k + 1) * 1e-29 * ‖v k i‖ := by gcongr
    _ = 1e-29 * (|h| ^ (k + 1) * ‖v k i‖) := by ring

/-- C59, for a step of the integrator: the fifth-order error estimate vanishes on polynomials of degree at most 4 and
the third-order one on polynomials of degree at most 2, to 27 digits. -/
theorem C59_estimates (x : ℝ) (v : ℕ → V n) (y : V n) (h : ℝ) (i : Fin n) :
    ‖(dy (polyRhs 5 x v) x y (polyRhs 5 x v x y) h).yerr2 i‖ ≤ 1e-27 * ∑ k ∈ Finset.range 5, |h| ^ k * ‖v k i‖ ∧
    ‖(dy (polyRhs 3 x v) x y (polyRhs 3 x v x y) h).yerr i‖ ≤ 1e-27 * ∑ k ∈ Finset.range 3, |h| ^ k * ‖v k i‖ := by
  rw [(dy_poly 5 x v y h).2.2, (dy_poly 3 x v y h).2.1]
  simp only [Finset.sum_apply, Pi.smul_apply, Complex.real_smul, Finset.mul_sum]
  constructor
  · refine (norm_sum_le _ _).trans (Finset.sum_le_sum fun k hk => ?_)
    have hq := C59_err5 k (Finset.mem_range.mp hk)
    rw [norm_mul, Complex.norm_real, Real.norm_eq_abs, abs_mul, abs_pow]
    calc |h| ^ k * |err5Moment k| * ‖v k i‖ ≤ |h| ^ k * 1e-27 * ‖v k i‖ := by gcongr
      _ = 1e-27 * (|h| ^ k * ‖v k i‖) := by ring
  · refine (norm_sum_le _ _).trans (Finset.sum_le_sum fun k hk => ?_)
    have hk3 := Finset.mem_range.mp hk
    have hq : |quadMoment k - bhhMoment k| ≤ 1e-27 := by
      have h1 := C59_quadrature k (by omega)
      have h2 := C59_bhh k hk3
      rw [abs_le] at h1 h2 ⊢
      norm_num at h1 h2 ⊢
      constructor <;> linarith
    rw [norm_mul, Complex.norm_real, Real.norm_eq_abs, abs_mul, abs_pow]
    calc |h| ^ k * |quadMoment k - bhhMoment k| * ‖v k i‖ ≤ |h| ^ k * 1e-27 * ‖v k i‖ := by gcongr
      _ = 1e-27 * (|h| ^ k * ‖v k i‖) := by ring

/-- C59: on the first degree each estimate does not cover, it does not vanish. -/
theorem C59_estimates_sharp : (1e-5 : ℝ) ≤ |err5Moment 5| ∧ (1e-3 : ℝ) ≤ |bhhMoment 3 - 1 / 4| := by
  constructor
  · unfold err5Moment
    rw [le_abs]
    right; norm_num [er1, er6, er7, er8, er9, er10, er11, er12, c6, c7, c8, c9, c10, c11]
  · unfold bhhMoment
    rw [le_abs]
    right; norm_num [bhh1, bhh2, bhh3, c9]

end PyNLO.Ode
