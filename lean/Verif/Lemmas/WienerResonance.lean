import Verif.Lemmas.WienerNormal
import Mathlib.Algebra.Polynomial.Taylor
import Mathlib.Analysis.Polynomial.Basic

/-! # Four-wave mixing is out of phase far from the centre, for every order of dispersion -/

namespace PyNLO.Wiener

open Complex Set Filter Topology Polynomial

theorem eventually_ge {Q : ℝ[X]} (h : 0 < Q.leadingCoeff) : ∃ κ : ℝ, 0 < κ ∧ ∀ᶠ σ in atTop, κ ≤ Q.eval σ := by
  rcases Nat.eq_zero_or_pos Q.natDegree with h0 | h0
  · obtain ⟨a, rfl⟩ := natDegree_eq_zero.1 h0
    rw [leadingCoeff_C] at h
    exact ⟨a, h, Eventually.of_forall fun σ => by rw [eval_C]⟩
  · exact ⟨1, one_pos, (tendsto_atTop_of_leadingCoeff_nonneg Q (natDegree_pos_iff_degree_pos.1 h0) h.le).eventually_ge_atTop 1⟩

theorem hasse_pos {P : ℝ[X]} (h : 0 < P.leadingCoeff) {j : ℕ} (hj : j ≤ P.natDegree) : 0 < (hasseDeriv j P).leadingCoeff := by
  rw [leadingCoeff, natDegree_hasseDeriv, hasseDeriv_coeff, Nat.sub_add_cancel hj, coeff_natDegree]
  have := Nat.choose_pos hj
  positivity

theorem even_part_diff (P : ℝ[X]) (σ x y : ℝ) : P.eval (σ + y) + P.eval (σ - y) - P.eval (σ + x) - P.eval (σ - x) =
    ∑ j ∈ Finset.range (P.natDegree + 1), (hasseDeriv j P).eval σ * ((1 + (-1) ^ j) * (y ^ j - x ^ j)) := by
  have e : ∀ y : ℝ, P.eval (σ + y) = ∑ j ∈ Finset.range (P.natDegree + 1), (hasseDeriv j P).eval σ * y ^ j := by
    intro y
    rw [add_comm, ← taylor_eval, eval_eq_sum_range, natDegree_taylor]
    simp only [taylor_coeff]
  rw [sub_eq_add_neg σ y, sub_eq_add_neg σ x, e, e, e, e, ← Finset.sum_add_distrib, ← Finset.sum_sub_distrib, ← Finset.sum_sub_distrib]
  refine Finset.sum_congr rfl fun j _ => ?_
  rw [neg_pow y, neg_pow x]
  ring

/-- one side -/
theorem nonres_pos {P : ℝ[X]} (hd : 2 ≤ P.natDegree) (h : 0 < P.leadingCoeff) :
    ∃ A κ : ℝ, 0 < κ ∧ ∀ σ ≥ A, ∀ x y : ℝ, κ * |y ^ 2 - x ^ 2| ≤ |P.eval (σ + y) + P.eval (σ - y) - P.eval (σ + x) - P.eval (σ - x)| := by
  obtain ⟨κ, hκ, h2⟩ := eventually_ge (hasse_pos h hd)
  have hall : ∀ᶠ σ in atTop, ∀ j ∈ Finset.range (P.natDegree + 1), 0 ≤ (hasseDeriv j P).eval σ := by
    rw [Filter.eventually_all_finset]
    intro j hj
    obtain ⟨κ', hκ', h'⟩ := eventually_ge (hasse_pos h (Nat.lt_succ_iff.1 (Finset.mem_range.1 hj)))
    exact h'.mono fun σ hσ => hκ'.le.trans hσ
  obtain ⟨A, hA⟩ := eventually_atTop.1 (h2.and hall)
  refine ⟨A, 2 * κ, by positivity, fun σ hσ => ?_⟩
  have key : ∀ x y : ℝ, x ^ 2 ≤ y ^ 2 → 2 * κ * (y ^ 2 - x ^ 2) ≤ P.eval (σ + y) + P.eval (σ - y) - P.eval (σ + x) - P.eval (σ - x) := by
    intro x y hxy
    rw [even_part_diff]
    obtain ⟨e2, e0⟩ := hA σ hσ
    have hterm : ∀ j ∈ Finset.range (P.natDegree + 1), 0 ≤ (hasseDeriv j P).eval σ * ((1 + (-1) ^ j) * (y ^ j - x ^ j)) := by
      intro j hj
      refine mul_nonneg (e0 j hj) ?_
      rcases Nat.even_or_odd j with ⟨i, hi⟩ | ho
      · have hp : x ^ j ≤ y ^ j := by
          rw [hi, ← two_mul, pow_mul, pow_mul]
          exact pow_le_pow_left₀ (sq_nonneg _) hxy i
        rw [Even.neg_one_pow ⟨i, hi⟩]
        exact mul_nonneg (by norm_num) (by linarith)
      · rw [ho.neg_one_pow]
        simp
    refine le_trans ?_ (Finset.single_le_sum hterm (Finset.mem_range.2 (by omega : 2 < P.natDegree + 1)))
    have : 0 ≤ y ^ 2 - x ^ 2 := by linarith
    nlinarith
  intro x y
  rcases le_total (x ^ 2) (y ^ 2) with hxy | hxy
  · rw [abs_of_nonneg (by linarith : 0 ≤ y ^ 2 - x ^ 2)]
    exact (key x y hxy).trans (le_abs_self _)
  · rw [abs_of_nonpos (by linarith : y ^ 2 - x ^ 2 ≤ 0), ← abs_neg (P.eval (σ + y) + _ - _ - _)]
    refine le_trans ?_ (le_abs_self _)
    have := key y x hxy
    linarith

theorem nonres_top {P : ℝ[X]} (hd : 2 ≤ P.natDegree) :
    ∃ A κ : ℝ, 0 < κ ∧ ∀ σ ≥ A, ∀ x y : ℝ, κ * |y ^ 2 - x ^ 2| ≤ |P.eval (σ + y) + P.eval (σ - y) - P.eval (σ + x) - P.eval (σ - x)| := by
  have hl : P.leadingCoeff ≠ 0 := by
    rw [Ne, leadingCoeff_eq_zero]
    rintro rfl
    simp at hd
  rcases lt_or_gt_of_ne hl with h | h
  · obtain ⟨A, κ, hκ, hA⟩ := nonres_pos (P := -P) (by rwa [natDegree_neg]) (by rw [leadingCoeff_neg]; linarith)
    refine ⟨A, κ, hκ, fun σ hσ x y => (hA σ hσ x y).trans (le_of_eq ?_)⟩
    rw [← abs_neg]
    simp only [eval_neg]
    congr 1
    ring
  · exact nonres_pos hd h

theorem nonres_both {P : ℝ[X]} (hd : 2 ≤ P.natDegree) :
    ∃ A κ : ℝ, 0 < κ ∧ ∀ σ, A ≤ |σ| → ∀ x y : ℝ, κ * |y ^ 2 - x ^ 2| ≤ |P.eval (σ + y) + P.eval (σ - y) - P.eval (σ + x) - P.eval (σ - x)| := by
  obtain ⟨A1, κ1, hκ1, h1⟩ := nonres_top hd
  obtain ⟨A2, κ2, hκ2, h2⟩ := nonres_top (P := P.comp (-X)) (by rwa [natDegree_comp, natDegree_neg, natDegree_X, mul_one])
  refine ⟨max A1 A2, min κ1 κ2, lt_min hκ1 hκ2, fun σ hσ x y => ?_⟩
  have hd0 := abs_nonneg (y ^ 2 - x ^ 2)
  rcases le_total 0 σ with hs | hs
  · rw [abs_of_nonneg hs] at hσ
    exact (mul_le_mul_of_nonneg_right (min_le_left _ _) hd0).trans (h1 σ ((le_max_left _ _).trans hσ) x y)
  · rw [abs_of_nonpos hs] at hσ
    refine (mul_le_mul_of_nonneg_right (min_le_right _ _) hd0).trans ((h2 (-σ) ((le_max_right _ _).trans hσ) x y).trans (le_of_eq ?_))
    simp only [eval_comp, eval_neg, eval_X]
    rw [show -(-σ + y) = σ - y by ring, show -(-σ - y) = σ + y by ring, show -(-σ + x) = σ - x by ring, show -(-σ - x) = σ + x by ring]
    congr 1
    ring

/-- the multiplier exists for every polynomial dispersion -/
theorem exists_kernel {p : ℝ[X]} (hd : 2 ≤ p.natDegree) {T : ℝ} (hT : 0 < T) : ∃ μ N M, Kernel (betas p T) μ N M := by
  have hpi := Real.pi_pos
  obtain ⟨A, κ, hκ, h⟩ := nonres_both hd
  let θ : ℝ := 2 * Real.pi / T
  have hθ : 0 < θ := by positivity
  obtain ⟨N, hN⟩ := exists_nat_ge (2 * A / θ)
  have hgap : ∀ q : Tri, (N : ℤ) ≤ |q.1 + q.2.1| → κ * θ ^ 2 / 2 * |gap sqf q| ≤ |gap (betas p T) q| := by
    intro q hq
    have hq' : (N : ℝ) ≤ |((q.1 + q.2.1 : ℤ) : ℝ)| := by
      have : ((N : ℤ) : ℝ) ≤ ((|q.1 + q.2.1| : ℤ) : ℝ) := by exact_mod_cast hq
      rw [Int.cast_abs] at this
      simpa using this
    let σ : ℝ := θ * ((q.1 + q.2.1 : ℤ) : ℝ) / 2
    have hσ : A ≤ |σ| := by
      simp only [σ]
      rw [abs_div, abs_mul, abs_of_pos hθ, abs_two, le_div_iff₀ two_pos]
      have := hN.trans hq'
      rw [div_le_iff₀ hθ] at this
      linarith
    have e := h σ hσ (θ * ((q.2.2 - last q : ℤ) : ℝ) / 2) (θ * ((q.1 - q.2.1 : ℤ) : ℝ) / 2)
    have e1 : σ + θ * ((q.1 - q.2.1 : ℤ) : ℝ) / 2 = 2 * Real.pi * q.1 / T := by simp only [σ, θ]; push_cast; ring
    have e2 : σ - θ * ((q.1 - q.2.1 : ℤ) : ℝ) / 2 = 2 * Real.pi * q.2.1 / T := by simp only [σ, θ]; push_cast; ring
    have e3 : σ + θ * ((q.2.2 - last q : ℤ) : ℝ) / 2 = 2 * Real.pi * q.2.2 / T := by simp only [σ, θ, last]; push_cast; ring
    have e4 : σ - θ * ((q.2.2 - last q : ℤ) : ℝ) / 2 = 2 * Real.pi * (last q : ℤ) / T := by simp only [σ, θ, last]; push_cast; ring
    have e5 : (θ * ((q.1 - q.2.1 : ℤ) : ℝ) / 2) ^ 2 - (θ * ((q.2.2 - last q : ℤ) : ℝ) / 2) ^ 2 = θ ^ 2 / 2 * gap sqf q := by
      simp only [gap, sqf, last]
      push_cast
      ring
    rw [e1, e2, e3, e4, e5, abs_mul, abs_of_pos (by positivity : 0 < θ ^ 2 / 2)] at e
    refine le_trans (le_of_eq (by ring)) e
  refine ⟨fun q => if |q.1 + q.2.1| < (N : ℤ) then 0 else gap sqf q / gap (betas p T) q, N, 1 / (κ * θ ^ 2 / 2), ?_, ?_, ?_⟩
  · intro q
    show |if |q.1 + q.2.1| < (N : ℤ) then 0 else gap sqf q / gap (betas p T) q| ≤ _
    split_ifs with hq
    · rw [abs_zero]
      positivity
    · have e := hgap q (not_lt.1 hq)
      rw [abs_div]
      rcases (abs_nonneg (gap (betas p T) q)).eq_or_lt with h0 | h0
      · rw [← h0, div_zero]
        positivity
      · rw [div_le_div_iff₀ h0 (by positivity)]
        linarith
  · intro q hq
    show (if |q.1 + q.2.1| < (N : ℤ) then 0 else gap sqf q / gap (betas p T) q) * _ = _
    rw [if_neg (not_lt.2 hq)]
    by_cases h0 : gap (betas p T) q = 0
    · have e := hgap q hq
      rw [h0, abs_zero] at e
      have : |gap sqf q| ≤ 0 := nonpos_of_mul_nonpos_right e (by positivity)
      rw [abs_nonpos_iff.1 this, h0, mul_zero]
    · exact div_mul_cancel₀ _ h0
  · intro q hq
    exact if_pos hq

end PyNLO.Wiener
