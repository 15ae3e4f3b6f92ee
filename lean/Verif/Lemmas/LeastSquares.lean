import Mathlib.Analysis.Convex.Function
import Mathlib.Analysis.Convex.Deriv
import Mathlib.Analysis.Calculus.Deriv.Pow
import Mathlib.Algebra.BigOperators.Fin
import Mathlib.Algebra.Order.BigOperators.Group.Finset

/-! # Residuals of a least-squares parabola -/

namespace PyNLO

open Finset

/-- A strictly convex function cannot have residuals, at three or more points, that are orthogonal to all parabolas. -/
theorem not_strictConvex_residual {N : ℕ} (hN : 3 ≤ N) {x : Fin N → ℝ} (hx : StrictMono x) {s : Set ℝ} {r : ℝ → ℝ}
    (hs : ∀ i, x i ∈ s) (hc : StrictConvexOn ℝ s r) (h0 : ∑ i, r (x i) = 0) (h1 : ∑ i, r (x i) * x i = 0)
    (h2 : ∑ i, r (x i) * x i ^ 2 = 0) : False := by
  classical
  have three : ∀ i j k : Fin N, i < j → j < k → r (x i) ≤ 0 → r (x k) ≤ 0 → r (x j) < 0 := by
    intro i j k hij hjk hi hk
    have a1 := hx hij
    have a2 := hx hjk
    have hlt : x i < x k := a1.trans a2
    have := hc.lt_on_openSegment (hs i) (hs k) hlt.ne (z := x j) (by
      rw [openSegment_eq_Ioo hlt]; exact ⟨a1, a2⟩)
    exact lt_of_lt_of_le this (max_le hi hk)
  by_cases hne : (univ.filter fun i : Fin N => r (x i) ≤ 0).Nonempty
  · set S := univ.filter fun i : Fin N => r (x i) ≤ 0 with hS
    set lo := S.min' hne
    set hi := S.max' hne
    have hlo : r (x lo) ≤ 0 := (mem_filter.mp (S.min'_mem hne)).2
    have hhi : r (x hi) ≤ 0 := (mem_filter.mp (S.max'_mem hne)).2
    have hterm : ∀ i, 0 ≤ r (x i) * ((x i - x lo) * (x i - x hi)) ∧
        (i < lo ∨ hi < i → 0 < r (x i) * ((x i - x lo) * (x i - x hi))) := by
      intro i
      have hlh : lo ≤ hi := S.min'_le _ (S.max'_mem hne)
      rcases lt_or_ge i lo with h | h
      · have hr : 0 < r (x i) := by
          by_contra hcon
          exact absurd (S.min'_le i (mem_filter.mpr ⟨mem_univ _, not_lt.mp hcon⟩)) (not_le.mpr h)
        have b1 := hx h
        have b2 := hx (h.trans_le hlh)
        have : 0 < r (x i) * ((x i - x lo) * (x i - x hi)) :=
          mul_pos hr (mul_pos_of_neg_of_neg (by linarith) (by linarith))
        exact ⟨this.le, fun _ => this⟩
      · rcases lt_or_ge hi i with h' | h'
        · have hr : 0 < r (x i) := by
            by_contra hcon
            exact absurd (S.le_max' i (mem_filter.mpr ⟨mem_univ _, not_lt.mp hcon⟩)) (not_le.mpr h')
          have b1 := hx h'
          have b2 := hx (hlh.trans_lt h')
          have : 0 < r (x i) * ((x i - x lo) * (x i - x hi)) :=
            mul_pos hr (mul_pos (by linarith) (by linarith))
          exact ⟨this.le, fun _ => this⟩
        · refine ⟨?_, fun hor => ?_⟩
          · have hr : r (x i) ≤ 0 := by
              rcases eq_or_lt_of_le h with e | e
              · rw [← e]; exact hlo
              · rcases eq_or_lt_of_le h' with e' | e'
                · rw [e']; exact hhi
                · exact (three lo i hi e e' hlo hhi).le
            have b1 := hx.monotone h
            have b2 := hx.monotone h'
            exact mul_nonneg_of_nonpos_of_nonpos hr (mul_nonpos_of_nonneg_of_nonpos (by linarith) (by linarith))
          · rcases hor with e | e
            · exact absurd e (not_lt.mpr h)
            · exact absurd e (not_lt.mpr h')
    have hsum : ∑ i, r (x i) * ((x i - x lo) * (x i - x hi)) = 0 := by
      have : ∀ i, r (x i) * ((x i - x lo) * (x i - x hi)) =
          r (x i) * x i ^ 2 - (x lo + x hi) * (r (x i) * x i) + x lo * x hi * r (x i) := fun i => by ring
      simp only [this, sum_add_distrib, sum_sub_distrib, ← mul_sum, h0, h1, h2]
      ring
    have hzero := (sum_eq_zero_iff_of_nonneg fun i _ => (hterm i).1).mp hsum
    have hin : ∀ i, lo ≤ i ∧ i ≤ hi := by
      intro i
      constructor
      · by_contra hcon
        exact (((hterm i).2 (.inl (not_le.mp hcon))).ne') (hzero i (mem_univ _))
      · by_contra hcon
        exact (((hterm i).2 (.inr (not_le.mp hcon))).ne') (hzero i (mem_univ _))
    have hle : ∀ i, r (x i) ≤ 0 := by
      intro i
      rcases eq_or_lt_of_le (hin i).1 with e | e
      · rw [← e]; exact hlo
      · rcases eq_or_lt_of_le (hin i).2 with e' | e'
        · rw [e']; exact hhi
        · exact (three lo i hi e e' hlo hhi).le
    have hall := (sum_eq_zero_iff_of_nonpos fun i _ => hle i).mp h0
    have := three ⟨0, by omega⟩ ⟨1, by omega⟩ ⟨2, by omega⟩ (by simp [Fin.lt_def]) (by simp [Fin.lt_def]) (hle _) (hle _)
    rw [hall _ (mem_univ _)] at this
    exact lt_irrefl _ this
  · have hpos : ∀ i, 0 < r (x i) := by
      intro i
      by_contra hcon
      exact hne ⟨i, mem_filter.mpr ⟨mem_univ _, not_lt.mp hcon⟩⟩
    have : 0 < ∑ i, r (x i) := sum_pos (fun i _ => hpos i) ⟨⟨0, by omega⟩, mem_univ _⟩
    linarith

/-- The leading coefficient `a` of the least-squares parabola through samples of `f` cannot be below half of the second
derivative everywhere. -/
theorem lsq_leading {N : ℕ} (hN : 3 ≤ N) {x : Fin N → ℝ} (hx : StrictMono x) {s : Set ℝ} (hconv : Convex ℝ s)
    (hs : ∀ i, x i ∈ s) {f f' f'' : ℝ → ℝ} {u : Set ℝ} (hu : IsOpen u) (hsu : s ⊆ u)
    (hf : ∀ y ∈ u, HasDerivAt f (f' y) y) (hf' : ∀ y ∈ u, HasDerivAt f' (f'' y) y) {a b c : ℝ}
    (h0 : ∑ i, (f (x i) - (a * x i ^ 2 + b * x i + c)) = 0)
    (h1 : ∑ i, (f (x i) - (a * x i ^ 2 + b * x i + c)) * x i = 0)
    (h2 : ∑ i, (f (x i) - (a * x i ^ 2 + b * x i + c)) * x i ^ 2 = 0) : ∃ y ∈ s, f'' y ≤ 2 * a := by
  by_contra hcon
  push Not at hcon
  set r : ℝ → ℝ := fun y => f y - (a * y ^ 2 + b * y + c) with hr
  have d1 : ∀ y ∈ u, HasDerivAt r (f' y - (2 * a * y + b)) y := by
    intro y hy
    refine ((hf y hy).sub ((((hasDerivAt_pow 2 y).const_mul a).add ((hasDerivAt_id y).const_mul b)).add_const c)).congr_deriv ?_
    simp
    ring
  have d2 : ∀ y ∈ u, HasDerivAt (fun y => f' y - (2 * a * y + b)) (f'' y - 2 * a) y := by
    intro y hy
    refine ((hf' y hy).sub (((hasDerivAt_id y).const_mul (2 * a)).add_const b)).congr_deriv ?_
    simp
  have hsc : StrictConvexOn ℝ s r := by
    refine strictConvexOn_of_deriv2_pos' hconv (fun y hy => (d1 y (hsu hy)).continuousAt.continuousWithinAt) fun y hy => ?_
    have e : deriv r =ᶠ[nhds y] fun y => f' y - (2 * a * y + b) := by
      filter_upwards [hu.mem_nhds (hsu hy)] with z hz using (d1 z hz).deriv
    rw [Function.iterate_succ, Function.iterate_one, Function.comp, e.deriv_eq, (d2 y (hsu hy)).deriv]
    have := hcon y hy
    linarith
  exact not_strictConvex_residual hN hx hs hsc h0 h1 h2

end PyNLO
