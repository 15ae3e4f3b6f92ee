import Verif.Lemmas.OdeGlobal
import Mathlib.MeasureTheory.Integral.DivergenceTheorem
import Mathlib.MeasureTheory.Integral.IntervalIntegral.FundThmCalculus
import Mathlib.Analysis.Calculus.MeanValue
import Mathlib.Analysis.ODE.ExistUnique
import Mathlib.Data.Finset.Sort
import Mathlib.Data.List.GetD

/-!
# Differential equations on pieces of an interval: partitions, continuity, uniqueness
-/

namespace PyNLO.OdeGlobal

open Set
open scoped Topology ContDiff NNReal

/-! ## Partitions -/

/-- `w 0 = a ≤ w 1 ≤ … ≤ w m = b`, with every position of `S` among the inner ones. -/
structure Walls (S : Finset ℝ) (a b : ℝ) (m : ℕ) (w : ℕ → ℝ) : Prop where
  card : m = S.card + 1
  first : w 0 = a
  last : w m = b
  le : ∀ k < m, w k ≤ w (k + 1)
  hit : ∀ s ∈ S, ∃ j, 0 < j ∧ j < m ∧ w j = s
  inner : ∀ j, 0 < j → j < m → w j ∈ S

theorem walls_exist (S : Finset ℝ) {a b : ℝ} (hab : a ≤ b) (hS : ∀ s ∈ S, s ∈ Icc a b) : ∃ m w, Walls S a b m w := by
  set l := S.sort (· ≤ ·) with hl
  have hlen : l.length = S.card := Finset.length_sort _
  have hmem : ∀ s, s ∈ l ↔ s ∈ S := fun s => Finset.mem_sort _
  have hsort : l.Pairwise (· ≤ ·) := Finset.pairwise_sort _ _
  have hall : (a :: (l ++ [b])).Pairwise (· ≤ ·) := by
    rw [List.pairwise_cons, List.pairwise_append]
    refine ⟨fun s hs => ?_, hsort, List.pairwise_singleton _ _, fun s hs t ht => ?_⟩
    · rcases List.mem_append.1 hs with h | h
      · exact (hS s ((hmem s).1 h)).1
      · rw [List.mem_singleton.1 h]; exact hab
    · rw [List.mem_singleton.1 ht]
      exact (hS s ((hmem s).1 hs)).2
  have hL : (a :: (l ++ [b])).length = S.card + 2 := by simp [hlen]
  refine ⟨S.card + 1, fun k => (a :: (l ++ [b])).getD k 0, rfl, rfl, ?_, fun k hk => ?_, fun s hs => ?_, fun j h0 hj => ?_⟩
  · rw [List.getD_cons_succ, List.getD_append_right _ _ _ _ (by rw [hlen]), hlen, Nat.sub_self]
    rfl
  · rw [List.getD_eq_getElem _ _ (by rw [hL]; omega), List.getD_eq_getElem _ _ (by rw [hL]; omega)]
    exact (List.pairwise_iff_getElem.1 hall) _ _ _ _ (Nat.lt_succ_self k)
  · obtain ⟨i, hi, he⟩ := List.getElem_of_mem ((hmem s).2 hs)
    refine ⟨i + 1, Nat.succ_pos i, by omega, ?_⟩
    rw [List.getD_cons_succ, List.getD_append _ _ _ _ hi, List.getD_eq_getElem _ _ hi, he]
  · obtain ⟨i, rfl⟩ : ∃ i, j = i + 1 := ⟨j - 1, by omega⟩
    have hi : i < l.length := by omega
    rw [List.getD_cons_succ, List.getD_append _ _ _ _ hi, List.getD_eq_getElem _ _ hi, ← hmem]
    exact List.getElem_mem hi

variable {S : Finset ℝ} {a b : ℝ} {m : ℕ} {w : ℕ → ℝ}

theorem Walls.pos (W : Walls S a b m w) : 0 < m := by rw [W.card]; omega

theorem Walls.mono (W : Walls S a b m w) : ∀ {j k}, j ≤ k → k ≤ m → w j ≤ w k := by
  intro j k hjk
  induction k with
  | zero => intro _; rw [show j = 0 by omega]
  | succ k ih =>
    intro hk
    rcases Nat.lt_or_ge j (k + 1) with h | h
    · exact (ih (by omega) (by omega)).trans (W.le k (by omega))
    · rw [show j = k + 1 by omega]

theorem Walls.mem (W : Walls S a b m w) {k : ℕ} (hk : k ≤ m) : w k ∈ Icc a b := by
  rw [← W.first, ← W.last]
  exact ⟨W.mono (Nat.zero_le k) hk, W.mono hk (le_refl m)⟩

/-- No position of `S` lies strictly inside a piece. -/
theorem Walls.none (W : Walls S a b m w) {k : ℕ} (hk : k < m) {s : ℝ} (hs : s ∈ S) : s ∉ Ioo (w k) (w (k + 1)) := by
  rintro ⟨h1, h2⟩
  obtain ⟨j, -, hj, rfl⟩ := W.hit s hs
  rcases Nat.lt_or_ge k j with h | h
  · exact absurd (W.mono h hj.le) (not_le.2 h2)
  · exact absurd (W.mono h hk.le) (not_le.2 h1)

/-- Positions of a piece that are not in `S` have no position of `S` between them. -/
theorem Walls.between (W : Walls S a b m w) {k : ℕ} (hk : k < m) {x x' : ℝ} (hx : x ∈ Icc (w k) (w (k + 1))) (hx' : x' ∈ Icc (w k) (w (k + 1)))
    (h : x ∉ S) (h' : x' ∉ S) {s : ℝ} (hs : s ∈ S) : s < x ↔ s < x' := by
  constructor
  · intro h1
    by_contra h2
    push Not at h2
    rcases h2.eq_or_lt with rfl | h2
    · exact h' hs
    · exact W.none hk hs ⟨lt_of_le_of_lt hx'.1 h2, lt_of_lt_of_le h1 hx.2⟩
  · intro h1
    by_contra h2
    push Not at h2
    rcases h2.eq_or_lt with rfl | h2
    · exact h hs
    · exact W.none hk hs ⟨lt_of_le_of_lt hx.1 h2, lt_of_lt_of_le h1 hx'.2⟩

theorem Walls.piece (W : Walls S a b m w) {x : ℝ} (hx : x ∈ Icc a b) : ∃ k < m, x ∈ Icc (w k) (w (k + 1)) := by
  have : ∀ n, n ≤ m → 0 < n → x ≤ w n → ∃ k < n, x ∈ Icc (w k) (w (k + 1)) := by
    intro n
    induction n with
    | zero => intro _ h; omega
    | succ n ih =>
      intro hn _ hxn
      by_cases h : w n ≤ x
      · exact ⟨n, Nat.lt_succ_self n, h, hxn⟩
      · push Not at h
        rcases Nat.eq_zero_or_pos n with rfl | h0
        · rw [W.first] at h; linarith [hx.1]
        · obtain ⟨k, hk, hk'⟩ := ih (by omega) h0 h.le
          exact ⟨k, by omega, hk'⟩
  exact this m (le_refl m) W.pos (by rw [W.last]; exact hx.2)

/-- A function that is continuous on every piece is continuous. -/
theorem Walls.continuousOn (W : Walls S a b m w) {E : Type*} [TopologicalSpace E] {Y : ℝ → E}
    (h : ∀ k < m, ContinuousOn Y (Icc (w k) (w (k + 1)))) : ContinuousOn Y (Icc a b) := by
  have : ∀ n, n ≤ m → ContinuousOn Y (Icc (w 0) (w n)) := by
    intro n
    induction n with
    | zero => intro _; rw [Icc_self]; exact continuousOn_singleton _ _
    | succ n ih =>
      intro hn
      rw [← Icc_union_Icc_eq_Icc (W.mono (Nat.zero_le n) (by omega)) (W.le n (by omega))]
      exact (ih (by omega)).union_of_isClosed (h n (by omega)) isClosed_Icc isClosed_Icc
  have := this m (le_refl m)
  rwa [W.first, W.last] at this

/-! ## Uniqueness -/

variable {E : Type*} [NormedAddCommGroup E] [NormedSpace ℝ E] [FiniteDimensional ℝ E]

/-- A continuous function with a given continuous derivative off a countable set has it from the right everywhere. -/
theorem right_deriv [CompleteSpace E] {Y φ : ℝ → E} {a b : ℝ} (hab : a ≤ b) (hY : ContinuousOn Y (Icc a b)) (hφ : ContinuousOn φ (Icc a b)) {C : Set ℝ} (hC : C.Countable)
    (hd : ∀ z ∈ Ioo a b \ C, HasDerivAt Y (φ z) z) : ∀ t ∈ Ico a b, HasDerivWithinAt Y (φ t) (Ici t) t := by
  set ψ : ℝ → E := IccExtend hab (domRestrict (Icc a b) φ) with hψ
  have hψc : Continuous ψ := (continuousOn_iff_continuous_domRestrict.1 hφ).Icc_extend'
  have hψe : ∀ t ∈ Icc a b, ψ t = φ t := fun t ht => by rw [hψ, IccExtend_of_mem _ _ ht]; rfl
  have hint : ∀ t ∈ Icc a b, Y t = Y a + ∫ x in a..t, ψ x := by
    intro t ht
    have := MeasureTheory.integral_eq_of_hasDerivAt_off_countable_of_le Y ψ ht.1 hC (hY.mono (Icc_subset_Icc_right ht.2))
      (fun x hx => by
        rw [hψe x ⟨hx.1.1.le, hx.1.2.le.trans ht.2⟩]
        exact hd x ⟨⟨hx.1.1, hx.1.2.trans_le ht.2⟩, hx.2⟩) (hψc.intervalIntegrable _ _)
    rw [this, add_sub_cancel]
  intro t ht
  have h1 : HasDerivAt (fun t => Y a + ∫ x in a..t, ψ x) (ψ t) t :=
    (intervalIntegral.integral_hasDerivAt_right (hψc.intervalIntegrable _ _) (hψc.stronglyMeasurableAtFilter _ _) hψc.continuousAt).const_add _
  rw [hψe t ⟨ht.1, ht.2.le⟩] at h1
  refine h1.hasDerivWithinAt.congr_of_eventuallyEq ?_ (hint t ⟨ht.1, ht.2.le⟩)
  filter_upwards [Icc_mem_nhdsGE ht.2] with x hx using hint x ⟨ht.1.trans hx.1, hx.2⟩

/-- Two solutions off countable sets that start alike are equal. -/
theorem unique_piece {F : ℝ → E → E} (hF : Continuous fun q : ℝ × E => F q.1 q.2) {a b : ℝ} (hab : a ≤ b)
    (hlip : ∀ R : ℝ, ∃ K : ℝ≥0, ∀ t ∈ Icc a b, LipschitzOnWith K (F t) (Metric.closedBall 0 R)) {Y Z : ℝ → E}
    (hY : ContinuousOn Y (Icc a b)) (hZ : ContinuousOn Z (Icc a b)) {C C' : Set ℝ} (hC : C.Countable) (hC' : C'.Countable)
    (hYd : ∀ z ∈ Ioo a b \ C, HasDerivAt Y (F z (Y z)) z) (hZd : ∀ z ∈ Ioo a b \ C', HasDerivAt Z (F z (Z z)) z) (h0 : Y a = Z a) :
    EqOn Y Z (Icc a b) := by
  have : CompleteSpace E := FiniteDimensional.complete ℝ E
  obtain ⟨R1, hR1⟩ := isCompact_Icc.exists_bound_of_continuousOn hY
  obtain ⟨R2, hR2⟩ := isCompact_Icc.exists_bound_of_continuousOn hZ
  obtain ⟨K, hK⟩ := hlip (max R1 R2)
  have hYF : ContinuousOn (fun z => F z (Y z)) (Icc a b) := hF.comp_continuousOn (continuousOn_id.prodMk hY)
  have hZF : ContinuousOn (fun z => F z (Z z)) (Icc a b) := hF.comp_continuousOn (continuousOn_id.prodMk hZ)
  refine ODE_solution_unique_of_mem_Icc_right (v := F) (s := fun _ => Metric.closedBall 0 (max R1 R2)) (K := K)
    (fun t ht => hK t ⟨ht.1, ht.2.le⟩) hY (right_deriv hab hY hYF hC hYd) (fun t ht => ?_) hZ (right_deriv hab hZ hZF hC' hZd) (fun t ht => ?_) h0
  · rw [mem_closedBall_zero_iff]
    exact (hR1 t ⟨ht.1, ht.2.le⟩).trans (le_max_left _ _)
  · rw [mem_closedBall_zero_iff]
    exact (hR2 t ⟨ht.1, ht.2.le⟩).trans (le_max_right _ _)

/-- Continuously differentiable functions are Lipschitz on bounded sets. -/
theorem lipschitz_box {F : ℝ → E → E} (hF : ContDiff ℝ 1 fun q : ℝ × E => F q.1 q.2) (α β R : ℝ) :
    ∃ L, 0 ≤ L ∧ ∀ x ∈ Icc α β, ∀ x' ∈ Icc α β, ∀ y y', ‖y‖ ≤ R → ‖y'‖ ≤ R → ‖F x y - F x' y'‖ ≤ L * (|x - x'| + ‖y - y'‖) := by
  have : ProperSpace E := FiniteDimensional.proper_real E
  have hK : IsCompact (Icc α β ×ˢ Metric.closedBall (0 : E) R) := isCompact_Icc.prod (isCompact_closedBall _ _)
  obtain ⟨L, hL⟩ := hK.exists_bound_of_continuousOn (hF.continuous_fderiv one_ne_zero).continuousOn
  refine ⟨max L 0, le_max_right _ _, fun x hx x' hx' y y' hy hy' => ?_⟩
  have hconv : Convex ℝ (Icc α β ×ˢ Metric.closedBall (0 : E) R) := (convex_Icc _ _).prod (convex_closedBall _ _)
  have := hconv.norm_image_sub_le_of_norm_fderiv_le (𝕜 := ℝ) (f := fun q : ℝ × E => F q.1 q.2) (C := max L 0)
    (fun q _ => (hF.differentiable one_ne_zero).differentiableAt) (fun q hq => (hL q hq).trans (le_max_left _ _))
    (x := (x', y')) (y := (x, y)) ⟨hx', by simpa using hy'⟩ ⟨hx, by simpa using hy⟩
  refine this.trans (mul_le_mul_of_nonneg_left ?_ (le_max_right _ _))
  rw [Prod.mk_sub_mk, Prod.norm_mk]
  exact max_le (by rw [Real.norm_eq_abs]; linarith [norm_nonneg (y - y')]) (by linarith [abs_nonneg (x - x')])

end PyNLO.OdeGlobal
