import Verif.Model.Treacy
import Mathlib.Analysis.Calculus.Taylor
import Mathlib.Analysis.Calculus.ContDiff.Deriv
import Mathlib.LinearAlgebra.Matrix.DotProduct
import Mathlib.Algebra.Order.BigOperators.Ring.Finset
import Mathlib.Algebra.Order.Chebyshev
import Mathlib.Tactic.LinearCombination

/-! # The weights of the Savitzky-Golay filter -/

namespace PyNLO.Treacy

open Matrix Set
open scoped Nat

theorem savgolA_injective {v : Fin 8 → ℝ} (h : v ᵥ* savgolA = 0) : v = 0 := by
  -- a polynomial of degree 7 with eleven zeros; eight of them are enough
  have hv : Function.Injective fun i : Fin 8 => ((i : ℕ) - 5 : ℝ) := by
    intro i j e
    simp only [sub_left_inj, Nat.cast_inj] at e
    exact Fin.ext e
  have hdet : (vandermonde fun i : Fin 8 => ((i : ℕ) - 5 : ℝ)).det ≠ 0 := det_vandermonde_ne_zero_iff.2 hv
  refine eq_zero_of_mulVec_eq_zero hdet ?_
  funext i
  have := congrFun h ⟨i, by have := i.isLt; omega⟩
  simp only [vecMul, dotProduct, savgolA, of_apply, Pi.zero_apply] at this
  simp only [mulVec, dotProduct, vandermonde_apply, Pi.zero_apply]
  rw [← this]
  exact Finset.sum_congr rfl fun j _ => mul_comm _ _

theorem savgol_isUnit : IsUnit (savgolA * savgolAᵀ).det := by
  rw [isUnit_iff_ne_zero]
  intro h0
  obtain ⟨v, hv, h⟩ := exists_mulVec_eq_zero_iff.2 h0
  apply hv
  apply savgolA_injective
  rw [← mulVec_transpose]
  have h1 : v ⬝ᵥ ((savgolA * savgolAᵀ) *ᵥ v) = 0 := by rw [h, dotProduct_zero]
  rw [← mulVec_mulVec, dotProduct_mulVec, ← mulVec_transpose] at h1
  exact dotProduct_self_eq_zero.1 h1

/-- the weights are exact for polynomials of degree 7 -/
theorem savgol_moments {n : ℕ} (hn : n < 8) {j : ℕ} (hj : j < 8) :
    ∑ k : Fin 11, savgolCoeffs n k * ((k : ℕ) - 5 : ℝ) ^ j = if j = n then (n ! : ℝ) else 0 := by
  have e : savgolA * (savgolAᵀ * (savgolA * savgolAᵀ)⁻¹) = 1 := by
    rw [← Matrix.mul_assoc, mul_nonsing_inv _ savgol_isUnit]
  have := congrFun (congrFun e ⟨j, hj⟩) ⟨n, hn⟩
  rw [mul_apply, one_apply] at this
  simp only [Fin.mk.injEq] at this
  have e2 : ∑ k : Fin 11, savgolCoeffs n k * ((k : ℕ) - 5 : ℝ) ^ j =
      n ! * ∑ k : Fin 11, savgolA ⟨j, hj⟩ k * (savgolAᵀ * (savgolA * savgolAᵀ)⁻¹) k ⟨n, hn⟩ := by
    rw [Finset.mul_sum]
    refine Finset.sum_congr rfl fun k _ => ?_
    rw [savgolCoeffs, dif_pos hn, savgolA, of_apply]
    ring
  rw [e2, this]
  split_ifs <;> simp

/-- they have the least norm -/
theorem savgol_least {n : ℕ} (hn : n < 8) {c : Fin 11 → ℝ}
    (hc : ∀ j < 8, ∑ k : Fin 11, c k * ((k : ℕ) - 5 : ℝ) ^ j = if j = n then (n ! : ℝ) else 0) :
    ∑ k, savgolCoeffs n k ^ 2 ≤ ∑ k, c k ^ 2 := by
  have hz : ∑ k, (c k - savgolCoeffs n k) * savgolCoeffs n k = 0 := by
    have e : ∀ k, savgolCoeffs n k = ∑ j : Fin 8, ((k : ℕ) - 5 : ℝ) ^ (j : ℕ) * (n ! * (savgolA * savgolAᵀ)⁻¹ j ⟨n, hn⟩) := by
      intro k
      rw [savgolCoeffs, dif_pos hn, mul_apply, Finset.mul_sum]
      refine Finset.sum_congr rfl fun j _ => ?_
      rw [transpose_apply, savgolA, of_apply]
      ring
    calc ∑ k, (c k - savgolCoeffs n k) * savgolCoeffs n k
        = ∑ k, ∑ j : Fin 8, (c k - savgolCoeffs n k) * (((k : ℕ) - 5 : ℝ) ^ (j : ℕ) * (n ! * (savgolA * savgolAᵀ)⁻¹ j ⟨n, hn⟩)) :=
          Finset.sum_congr rfl fun k _ => by rw [← Finset.mul_sum, ← e k]
      _ = ∑ j : Fin 8, (∑ k, (c k * ((k : ℕ) - 5 : ℝ) ^ (j : ℕ) - savgolCoeffs n k * ((k : ℕ) - 5 : ℝ) ^ (j : ℕ))) *
            (n ! * (savgolA * savgolAᵀ)⁻¹ j ⟨n, hn⟩) := by
          rw [Finset.sum_comm]
          refine Finset.sum_congr rfl fun j _ => ?_
          rw [Finset.sum_mul]
          exact Finset.sum_congr rfl fun k _ => by ring
      _ = 0 := by
          refine Finset.sum_eq_zero fun j _ => ?_
          rw [Finset.sum_sub_distrib, hc j j.isLt, savgol_moments hn j.isLt, sub_self, zero_mul]
  have h2 : ∑ k, c k ^ 2 = ∑ k, savgolCoeffs n k ^ 2 + ∑ k, (c k - savgolCoeffs n k) ^ 2 + 2 * ∑ k, (c k - savgolCoeffs n k) * savgolCoeffs n k := by
    rw [Finset.mul_sum, ← Finset.sum_add_distrib, ← Finset.sum_add_distrib]
    exact Finset.sum_congr rfl fun k _ => by ring
  rw [h2, hz, mul_zero, add_zero]
  exact le_add_of_nonneg_right (Finset.sum_nonneg fun k _ => sq_nonneg _)

/-- a smooth function minus its Taylor polynomial of degree 7 -/
theorem taylor_seven {f : ℝ → ℝ} {a b x M t : ℝ} (hf : ∀ y ∈ Icc a b, ContDiffAt ℝ 8 f y) (hM : ∀ y ∈ Icc a b, |iteratedDeriv 8 f y| ≤ M)
    (hx : x ∈ Icc a b) (ht : x + t ∈ Icc a b) :
    |f (x + t) - ∑ j ∈ Finset.range 8, t ^ j / (j ! : ℝ) * iteratedDeriv j f x| ≤ M * |t| ^ 8 / (8 ! : ℕ) := by
  by_cases h0 : t = 0
  · subst h0
    simp [Finset.sum_range_succ]
  have hne : x ≠ x + t := fun h => h0 (by linarith)
  have hsub : uIcc x (x + t) ⊆ Icc a b := uIcc_subset_Icc hx ht
  have hf' : ContDiffOn ℝ ((7 : ℕ) + 1) f (uIcc x (x + t)) := fun y hy => (hf y (hsub hy)).contDiffWithinAt.of_le (by norm_num)
  obtain ⟨y, hy, e⟩ := taylor_mean_remainder_lagrange_iteratedDeriv (n := 7) hne hf'
  have hat : ContDiffAt ℝ 8 f x := hf x hx
  have hT : taylorWithinEval f 7 (uIcc x (x + t)) x (x + t) = ∑ j ∈ Finset.range 8, t ^ j / (j ! : ℝ) * iteratedDeriv j f x := by
    rw [taylor_within_apply]
    refine Finset.sum_congr rfl fun j hj => ?_
    have hj' : j < 8 := Finset.mem_range.1 hj
    rw [iteratedDerivWithin_eq_iteratedDeriv (uniqueDiffOn_uIcc hne) (hat.of_le (by exact_mod_cast hj'.le)) left_mem_uIcc, smul_eq_mul, add_sub_cancel_left]
    ring
  rw [hT] at e
  rw [e, add_sub_cancel_left, abs_div, abs_mul, abs_pow, Nat.abs_cast]
  have := hM y (hsub (uIoo_subset_uIcc_self hy))
  gcongr

/-- error of the filter on a smooth function sampled with step `d` -/
theorem savgol_error {n : ℕ} (hn : n < 8) {f : ℝ → ℝ} {x d M : ℝ} (hd : 0 < d) (hf : ∀ y ∈ Icc (x - 5 * d) (x + 5 * d), ContDiffAt ℝ 8 f y)
    (hM : ∀ y ∈ Icc (x - 5 * d) (x + 5 * d), |iteratedDeriv 8 f y| ≤ M) :
    |∑ k : Fin 11, savgolCoeffs n k * f (x + ((k : ℕ) - 5 : ℝ) * d) - d ^ n * iteratedDeriv n f x| ≤
      (∑ k : Fin 11, |savgolCoeffs n k| * |((k : ℕ) - 5 : ℝ)| ^ 8) * (M * d ^ 8 / (8 ! : ℕ)) := by
  have hx : x ∈ Icc (x - 5 * d) (x + 5 * d) := ⟨by linarith, by linarith⟩
  have ht : ∀ k : Fin 11, x + ((k : ℕ) - 5 : ℝ) * d ∈ Icc (x - 5 * d) (x + 5 * d) := by
    intro k
    have h1 : (0 : ℝ) ≤ ((k : ℕ) : ℝ) := Nat.cast_nonneg _
    have h2 : ((k : ℕ) : ℝ) ≤ 10 := by exact_mod_cast Nat.lt_succ_iff.1 k.isLt
    constructor <;> nlinarith
  have hsum : ∑ k : Fin 11, savgolCoeffs n k * ∑ j ∈ Finset.range 8, (((k : ℕ) - 5 : ℝ) * d) ^ j / (j ! : ℝ) * iteratedDeriv j f x = d ^ n * iteratedDeriv n f x := by
    have e : ∑ k : Fin 11, savgolCoeffs n k * ∑ j ∈ Finset.range 8, (((k : ℕ) - 5 : ℝ) * d) ^ j / (j ! : ℝ) * iteratedDeriv j f x =
        ∑ j ∈ Finset.range 8, d ^ j / (j ! : ℝ) * iteratedDeriv j f x * ∑ k : Fin 11, savgolCoeffs n k * ((k : ℕ) - 5 : ℝ) ^ j := by
      simp only [Finset.mul_sum]
      rw [Finset.sum_comm]
      refine Finset.sum_congr rfl fun j _ => Finset.sum_congr rfl fun k _ => ?_
      rw [mul_pow]
      ring
    rw [e, Finset.sum_eq_single n]
    · rw [savgol_moments hn hn, if_pos rfl]
      have : (n ! : ℝ) ≠ 0 := by exact_mod_cast (Nat.factorial_pos n).ne'
      field_simp
    · intro j hj hjd
      rw [savgol_moments hn (Finset.mem_range.1 hj), if_neg hjd, mul_zero]
    · exact fun h => absurd (Finset.mem_range.2 hn) h
  rw [← hsum, ← Finset.sum_sub_distrib, Finset.sum_mul]
  refine (Finset.abs_sum_le_sum_abs _ _).trans (Finset.sum_le_sum fun k _ => ?_)
  rw [← mul_sub, abs_mul]
  have := taylor_seven hf hM hx (ht k)
  rw [abs_mul, mul_pow, abs_of_pos hd] at this
  calc _ ≤ |savgolCoeffs n k| * (M * (|((k : ℕ) - 5 : ℝ)| ^ 8 * d ^ 8) / (8 ! : ℕ)) := mul_le_mul_of_nonneg_left this (abs_nonneg _)
    _ = _ := by ring

/-- the constant in the error, from any other weights that are exact for polynomials of degree 7 -/
theorem savgol_size {n : ℕ} (hn : n < 8) {c : Fin 11 → ℝ}
    (hc : ∀ j < 8, ∑ k : Fin 11, c k * ((k : ℕ) - 5 : ℝ) ^ j = if j = n then (n ! : ℝ) else 0) {q : ℝ} (hq : 0 ≤ q)
    (h : (∑ k, c k ^ 2) * 313851940358 ≤ (q * 40320) ^ 2) :
    (∑ k : Fin 11, |savgolCoeffs n k| * |((k : ℕ) - 5 : ℝ)| ^ 8) ≤ q * (8 ! : ℕ) := by
  have h8 : ((8 ! : ℕ) : ℝ) = 40320 := by norm_num [Nat.factorial]
  rw [h8]
  refine abs_le_of_sq_le_sq' ?_ (by positivity) |>.2
  refine (Finset.sum_mul_sq_le_sq_mul_sq _ _ _).trans (le_trans ?_ h)
  have e : ∑ k : Fin 11, (|((k : ℕ) - 5 : ℝ)| ^ 8) ^ 2 = 313851940358 := by
    have : ∀ k : Fin 11, (|((k : ℕ) - 5 : ℝ)| ^ 8) ^ 2 = ((k : ℕ) - 5 : ℝ) ^ 16 := by
      intro k
      rw [← pow_mul, show 8 * 2 = 2 * 8 from rfl, pow_mul, sq_abs, ← pow_mul]
    simp only [this, Fin.sum_univ_succ]
    norm_num
  rw [e]
  simp only [sq_abs]
  exact mul_le_mul_of_nonneg_right (savgol_least hn hc) (by norm_num)

end PyNLO.Treacy
