import Verif.Lemmas.SsfmLog

/-!
# One-step methods whose every step is perturbed
-/

namespace PyNLO.OneStep

open Set

variable {E : Type*} [NormedAddCommGroup E]

/-- Accumulation of errors when the start is off by `e0` and every step by `u`. -/
theorem converges_perturbed {Ψ : ℝ → E → E} {Y : ℝ → E} {L C K R h0 : ℝ} {m : ℕ} (hL : 0 ≤ L) (hC : 0 ≤ C) (hK : 0 ≤ K) (h0pos : 0 < h0)
    (cons : ∀ z ∈ Icc 0 L, ∀ h ∈ Icc 0 h0, z + 2 * h ≤ L → ‖Ψ h (Y z) - Y (z + 2 * h)‖ ≤ C * h ^ (m + 2))
    (stab : ∀ h ∈ Icc 0 h0, ∀ A ∈ Metric.closedBall (0 : E) (R + 1), ∀ B ∈ Metric.closedBall (0 : E) (R + 1),
      ‖Ψ h A - Ψ h B‖ ≤ (1 + K * h) * ‖A - B‖)
    (hY : ∀ z ∈ Icc 0 L, ‖Y z‖ ≤ R) :
    ∃ h1 > 0, h1 ≤ h0 ∧ ∀ hm ∈ Ioc 0 h1, ∀ (h : ℕ → ℝ) (A : ℕ → E) (k : ℕ) (e0 u : ℝ), 0 ≤ u → ‖A 0 - Y 0‖ ≤ e0 →
      (∀ i < k, 0 ≤ h i ∧ h i ≤ hm) → (∀ i < k, ‖A i‖ ≤ R + 1 → ‖A (i + 1) - Ψ (h i) (A i)‖ ≤ u) → ∑ i ∈ Finset.range k, 2 * h i ≤ L →
      (e0 + k * u) * Real.exp (K * L) ≤ 1 / 2 →
      ‖A k - Y (∑ i ∈ Finset.range k, 2 * h i)‖ ≤ C * L * Real.exp (K * L) * hm ^ (m + 1) + (e0 + k * u) * Real.exp (K * L) := by
  obtain ⟨h1, h1pos, h1le, hsmall⟩ : ∃ h1 > 0, h1 ≤ h0 ∧ C * L * Real.exp (K * L) * h1 ^ (m + 1) ≤ 1 / 2 := by
    set D := C * L * Real.exp (K * L) with hDdef
    have hD : 0 ≤ D := by positivity
    refine ⟨min (min h0 1) (1 / (2 * D + 1)), by positivity, (min_le_left _ _).trans (min_le_left _ _), ?_⟩
    have hp : (0 : ℝ) ≤ min (min h0 1) (1 / (2 * D + 1)) := by positivity
    calc D * min (min h0 1) (1 / (2 * D + 1)) ^ (m + 1) ≤ D * min (min h0 1) (1 / (2 * D + 1)) := by
          refine mul_le_mul_of_nonneg_left ?_ hD
          refine pow_le_of_le_one hp ?_ (by omega)
          exact (min_le_left _ _).trans (min_le_right _ _)
      _ ≤ D * (1 / (2 * D + 1)) := mul_le_mul_of_nonneg_left (min_le_right _ _) hD
      _ ≤ 1 / 2 := by
          rw [mul_one_div, div_le_div_iff₀ (by positivity) (by norm_num)]
          linarith
  refine ⟨h1, h1pos, h1le, fun hm hhm h A k e0 u hu hA0 => ?_⟩
  have hm0 : 0 < hm := hhm.1
  have he0 : 0 ≤ e0 := (norm_nonneg _).trans hA0
  have key : ∀ k, (∀ i < k, 0 ≤ h i ∧ h i ≤ hm) → (∀ i < k, ‖A i‖ ≤ R + 1 → ‖A (i + 1) - Ψ (h i) (A i)‖ ≤ u) →
      ∑ i ∈ Finset.range k, 2 * h i ≤ L → (e0 + k * u) * Real.exp (K * L) ≤ 1 / 2 →
      ‖A k - Y (∑ i ∈ Finset.range k, 2 * h i)‖ ≤
        (C * hm ^ (m + 1) * (∑ i ∈ Finset.range k, 2 * h i) + e0 + k * u) * Real.exp (K * ∑ i ∈ Finset.range k, 2 * h i) := by
    intro k
    induction k with
    | zero => intro _ _ _ _; simpa using hA0
    | succ k ih =>
      intro hh hA hs hsm
      rw [Finset.sum_range_succ] at hs ⊢
      set z := ∑ i ∈ Finset.range k, 2 * h i with hz
      have hhk := hh k (by omega)
      have hz0 : 0 ≤ z := Finset.sum_nonneg fun i hi => by
        have := (hh i (by rw [Finset.mem_range] at hi; omega)).1
        linarith
      have hzL : z ≤ L := by linarith
      have hsm' : (e0 + k * u) * Real.exp (K * L) ≤ 1 / 2 := by
        refine le_trans ?_ hsm
        push_cast
        gcongr
        linarith
      have ihk := ih (fun i hi => hh i (by omega)) (fun i hi => hA i (by omega)) hzL hsm'
      have hexp : Real.exp (K * z) ≤ Real.exp (K * L) := Real.exp_le_exp.2 (mul_le_mul_of_nonneg_left hzL hK)
      have hpm : hm ^ (m + 1) ≤ h1 ^ (m + 1) := pow_le_pow_left₀ hm0.le hhm.2 _
      have hb1 : ‖A k - Y z‖ ≤ 1 := by
        refine ihk.trans ?_
        calc (C * hm ^ (m + 1) * z + e0 + k * u) * Real.exp (K * z) ≤ (C * h1 ^ (m + 1) * L + e0 + k * u) * Real.exp (K * L) := by
              gcongr
          _ = C * L * Real.exp (K * L) * h1 ^ (m + 1) + (e0 + k * u) * Real.exp (K * L) := by ring
          _ ≤ 1 := by linarith
      have hYz := hY z ⟨hz0, hzL⟩
      have hAn : ‖A k‖ ≤ R + 1 := by
        calc ‖A k‖ = ‖(A k - Y z) + Y z‖ := by congr 1; abel
          _ ≤ ‖A k - Y z‖ + ‖Y z‖ := norm_add_le _ _
          _ ≤ R + 1 := by linarith
      have hAk : A k ∈ Metric.closedBall (0 : E) (R + 1) := by rw [mem_closedBall_zero_iff]; exact hAn
      have hYk : Y z ∈ Metric.closedBall (0 : E) (R + 1) := by
        rw [mem_closedBall_zero_iff]; linarith
      have hhk0 : h k ∈ Icc 0 h0 := ⟨hhk.1, hhk.2.trans (hhm.2.trans h1le)⟩
      have hst := stab (h k) hhk0 (A k) hAk (Y z) hYk
      have hco := cons z ⟨hz0, hzL⟩ (h k) hhk0 hs
      have hco' : ‖Ψ (h k) (Y z) - Y (z + 2 * h k)‖ ≤ C * hm ^ (m + 1) * h k := by
        refine hco.trans ?_
        rw [pow_succ, ← mul_assoc]
        exact mul_le_mul_of_nonneg_right (mul_le_mul_of_nonneg_left (pow_le_pow_left₀ hhk.1 hhk.2 _) hC) hhk.1
      have hpert := hA k (by omega) hAn
      set G := C * hm ^ (m + 1) with hG
      have hG0 : 0 ≤ G := by positivity
      have hh0 := hhk.1
      have he1 : 1 + K * h k ≤ Real.exp (K * (2 * h k)) := by
        have := Real.add_one_le_exp (K * (2 * h k))
        nlinarith [mul_nonneg hK hhk.1]
      have he2 : Real.exp (K * (z + 2 * h k)) = Real.exp (K * z) * Real.exp (K * (2 * h k)) := by rw [← Real.exp_add]; ring_nf
      have he3 : 1 ≤ Real.exp (K * (z + 2 * h k)) := Real.one_le_exp (by positivity)
      calc ‖A (k + 1) - Y (z + 2 * h k)‖
          = ‖(A (k + 1) - Ψ (h k) (A k)) + ((Ψ (h k) (A k) - Ψ (h k) (Y z)) + (Ψ (h k) (Y z) - Y (z + 2 * h k)))‖ := by congr 1; abel
        _ ≤ u + ((1 + K * h k) * ‖A k - Y z‖ + G * h k) :=
            (norm_add_le _ _).trans (add_le_add hpert ((norm_add_le _ _).trans (add_le_add hst hco')))
        _ ≤ u + (Real.exp (K * (2 * h k)) * ((G * z + e0 + k * u) * Real.exp (K * z)) + G * h k) := by
            gcongr
        _ = (G * z + e0 + k * u) * Real.exp (K * (z + 2 * h k)) + (G * h k + u) * 1 := by rw [he2]; ring
        _ ≤ (G * z + e0 + k * u) * Real.exp (K * (z + 2 * h k)) + (G * (2 * h k) + u) * Real.exp (K * (z + 2 * h k)) := by
            have : (G * h k + u) * 1 ≤ (G * (2 * h k) + u) * Real.exp (K * (z + 2 * h k)) := by
              refine mul_le_mul ?_ he3 zero_le_one (by positivity)
              nlinarith
            linarith
        _ = _ := by push_cast; ring
  intro hh hA hs hsm
  refine (key k hh hA hs hsm).trans ?_
  have hz0 : 0 ≤ ∑ i ∈ Finset.range k, 2 * h i := Finset.sum_nonneg fun i hi => by
    have := (hh i (Finset.mem_range.1 hi)).1
    linarith
  calc (C * hm ^ (m + 1) * (∑ i ∈ Finset.range k, 2 * h i) + e0 + k * u) * Real.exp (K * ∑ i ∈ Finset.range k, 2 * h i)
      ≤ (C * hm ^ (m + 1) * L + e0 + k * u) * Real.exp (K * L) := by gcongr
    _ = _ := by ring

end PyNLO.OneStep

namespace PyNLO.Ssfm

open Complex Set
open scoped ContDiff

variable {n : ℕ}

/-- a sequence of fields and a list of steps: the fields after each of them -/
theorem sum_getD {l : List ℝ} : ∀ k ≤ l.length, ∑ i ∈ Finset.range k, 2 * l.getD i 0 = span (l.take k) := by
  intro k
  induction k with
  | zero => intro _; simp
  | succ k ih =>
    intro hk
    rw [Finset.sum_range_succ, ih (by omega), List.take_add_one, span_append]
    congr 1
    simp [List.getElem?_eq_getElem (show k < l.length by omega), List.getD]

/-- Two extrapolated steps differ little if the single steps do. -/
theorem double_perturbed {φ : ℝ × (Fin n → ℂ) → Fin n → ℂ} (hφ : ContDiff ℝ ∞ φ) (h0 : ∀ A, φ (0, A) = A) (α β ρ : ℝ) :
    ∃ ρ' D, ρ ≤ ρ' ∧ 0 ≤ D ∧ ∀ (ψ : ℝ → (Fin n → ℂ) → Fin n → ℂ) (u h : ℝ), u ≤ 1 → h ∈ Icc (0 : ℝ) (1 / 2) →
      (∀ A, ‖A‖ ≤ ρ' → ‖ψ h A - φ (h, A)‖ ≤ u) → (∀ A, ‖A‖ ≤ ρ' → ‖ψ (2 * h) A - φ (2 * h, A)‖ ≤ u) → ∀ A, ‖A‖ ≤ ρ →
        ‖(α • ψ h (ψ h A) - β • ψ (2 * h) A) - OneStep.double φ α β h A‖ ≤ D * u := by
  obtain ⟨M, hM⟩ := (isCompact_Icc.prod (isCompact_closedBall (0 : Fin n → ℂ) ρ)).exists_bound_of_continuousOn
    (f := φ) (s := Icc (0 : ℝ) 1 ×ˢ Metric.closedBall (0 : Fin n → ℂ) ρ) hφ.continuous.continuousOn
  set ρ' := max ρ (M + 1) with hρ'
  obtain ⟨K, hK, stab⟩ := OneStep.stable hφ h0 ρ'
  refine ⟨ρ', |α| * (2 + K) + |β|, le_max_left _ _, by positivity, fun ψ u h hu hh h1 h2 A hA => ?_⟩
  have hh1 : h ∈ Icc (0 : ℝ) 1 := ⟨hh.1, by linarith [hh.2]⟩
  have hA' : ‖A‖ ≤ ρ' := hA.trans (le_max_left _ _)
  have b1 := h1 A hA'
  have b2 := h2 A hA'
  have hφA : ‖φ (h, A)‖ ≤ M := hM (h, A) ⟨hh1, by rw [mem_closedBall_zero_iff]; exact hA⟩
  have hφA' : ‖φ (h, A)‖ ≤ ρ' := (by linarith : ‖φ (h, A)‖ ≤ M + 1).trans (le_max_right _ _)
  have hψA : ‖ψ h A‖ ≤ ρ' := by
    refine le_trans ?_ (le_max_right ρ (M + 1))
    calc ‖ψ h A‖ = ‖(ψ h A - φ (h, A)) + φ (h, A)‖ := by congr 1; abel
      _ ≤ ‖ψ h A - φ (h, A)‖ + ‖φ (h, A)‖ := norm_add_le _ _
      _ ≤ M + 1 := by linarith
  have b3 := h1 _ hψA
  have b4 := stab h hh1 (ψ h A) (by rw [mem_closedBall_zero_iff]; exact hψA) (φ (h, A)) (by rw [mem_closedBall_zero_iff]; exact hφA')
  have hu0 : 0 ≤ u := (norm_nonneg _).trans b1
  have b5 : ‖ψ h (ψ h A) - φ (h, φ (h, A))‖ ≤ (2 + K) * u := by
    calc ‖ψ h (ψ h A) - φ (h, φ (h, A))‖ = ‖(ψ h (ψ h A) - φ (h, ψ h A)) + (φ (h, ψ h A) - φ (h, φ (h, A)))‖ := by congr 1; abel
      _ ≤ u + (1 + K * h) * ‖ψ h A - φ (h, A)‖ := (norm_add_le _ _).trans (add_le_add b3 b4)
      _ ≤ u + (1 + K * 1) * u := by
          have := hh1.1
          have := hh1.2
          gcongr
      _ = _ := by ring
  have e : (α • ψ h (ψ h A) - β • ψ (2 * h) A) - OneStep.double φ α β h A =
      α • (ψ h (ψ h A) - φ (h, φ (h, A))) - β • (ψ (2 * h) A - φ (2 * h, A)) := by
    unfold OneStep.double
    simp only [smul_sub]
    abel
  rw [e]
  calc _ ≤ ‖α • (ψ h (ψ h A) - φ (h, φ (h, A)))‖ + ‖β • (ψ (2 * h) A - φ (2 * h, A))‖ := norm_sub_le _ _
    _ ≤ |α| * ((2 + K) * u) + |β| * u := by
        rw [norm_smul, norm_smul, Real.norm_eq_abs, Real.norm_eq_abs]
        gcongr
    _ = _ := by ring

end PyNLO.Ssfm
