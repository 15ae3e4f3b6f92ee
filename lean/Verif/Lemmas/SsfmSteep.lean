import Verif.Lemmas.SsfmConverge
import Mathlib.Analysis.SpecialFunctions.SmoothTransition
import Mathlib.Analysis.InnerProductSpace.Calculus

/-!
# Convergence with self-steepening, along solutions that stay above the threshold of `NonlinearOperator`
-/

namespace PyNLO.Ssfm

open Complex Filter Set
open scoped Topology ContDiff

variable {n : ℕ}

/-- a smooth function of the field: one where all samples exceed `s1`, zero where one is below `s0` -/
noncomputable def cutoff (s0 s1 : ℝ) (A : Fin n → ℂ) : ℝ := ∏ j, Real.smoothTransition ((‖A j‖ ^ 2 - s0 ^ 2) / (s1 ^ 2 - s0 ^ 2))

theorem cutoff_contDiff (s0 s1 : ℝ) : ContDiff ℝ ∞ (cutoff s0 s1 : (Fin n → ℂ) → ℝ) := by
  unfold cutoff
  refine contDiff_prod fun j _ => ?_
  have h1 : ContDiff ℝ ∞ fun A : Fin n → ℂ => ‖A j‖ ^ 2 := (contDiff_norm_sq ℝ).comp (contDiff_apply ℝ ℂ j)
  exact Real.smoothTransition.contDiff.comp ((h1.sub contDiff_const).div_const _)

theorem cutoff_one {s0 s1 : ℝ} (h0 : 0 < s0) (h1 : s0 < s1) {A : Fin n → ℂ} (hA : ∀ j, s1 ≤ ‖A j‖) : cutoff s0 s1 A = 1 := by
  refine Finset.prod_eq_one fun j _ => Real.smoothTransition.one_of_one_le ?_
  have hp : 0 < s1 ^ 2 - s0 ^ 2 := by nlinarith
  rw [le_div_iff₀ hp]
  have := pow_le_pow_left₀ (by linarith) (hA j) 2
  linarith

theorem cutoff_zero {s0 s1 : ℝ} (h1 : s0 < s1) (h0 : 0 < s0) {A : Fin n → ℂ} {j : Fin n} (hA : ‖A j‖ ≤ s0) : cutoff s0 s1 A = 0 := by
  refine Finset.prod_eq_zero (Finset.mem_univ j) (Real.smoothTransition.zero_of_nonpos ?_)
  have hp : 0 < s1 ^ 2 - s0 ^ 2 := by nlinarith
  refine div_nonpos_of_nonpos_of_nonneg ?_ hp.le
  have := pow_le_pow_left₀ (norm_nonneg _) hA 2
  linarith

/-- the nonlinear part, cut off at the threshold -/
theorem cut_contDiff (p : Params n) (dir : ℝ) {s0 s1 : ℝ} (h0 : 10 ^ (-15 : ℤ) < s0) (h1 : s0 < s1) :
    ContDiff ℝ ∞ fun A => cutoff s0 s1 A • nonPart p dir A := by
  have hs0 : 0 < s0 := lt_trans (by positivity) h0
  refine contDiff_iff_contDiffAt.2 fun A => ?_
  by_cases hA : ∀ j, 10 ^ (-15 : ℤ) < ‖A j‖
  · exact (cutoff_contDiff s0 s1).contDiffAt.smul (nonPart_contDiffAt dir (Or.inr hA))
  · push Not at hA
    obtain ⟨j, hj⟩ := hA
    refine (contDiffAt_const (c := (0 : Fin n → ℂ))).congr_of_eventuallyEq ?_
    have hc : Continuous fun B : Fin n → ℂ => ‖B j‖ := (continuous_apply j).norm
    filter_upwards [hc.continuousAt.eventually (gt_mem_nhds (lt_of_le_of_lt hj h0))] with B hB
    rw [cutoff_zero h1 hs0 hB.le, zero_smul]

/-- The segments of a propagation converge to a solution that stays above the threshold. -/
theorem segments_converge_above {p : Params n} (hn : 0 < n) (hp : p.Ok) (hm : p.method = .rk4ip) (he : p.eta = 5)
    (hle : 0 < p.localError) {dir : ℝ} {A : Fin n → ℂ} {dz0 : ℝ} (hdz0 : 0 < dz0) {L : ℝ} (hL : 0 < L) {Y : ℝ → Fin n → ℂ} {a b : ℝ}
    (ha : a < 0) (hb : L < b) (hY0 : Y 0 = A)
    (hY : ∀ z ∈ Ioo a b, HasDerivAt Y (applySpec (linPart p dir) (Y z) + nonPart p dir (Y z)) z)
    (hab : ∀ z ∈ Ioo a b, ∀ j, 10 ^ (-15 : ℤ) < ‖Y z j‖) :
    ∃ (N0 : ℕ) (C : ℝ), 1 ≤ N0 ∧ ∀ N, N0 ≤ N → ∀ S : ℕ → Field n, (S 0).A = A → (S 0).dz = dz0 →
      (∀ i < N, integrate p (L / N) dir (S i) = some (S (i + 1))) → ∀ i ≤ N, ‖(S i).A - Y (i * (L / N))‖ ≤ C / N ^ 5 := by
  have : Nonempty (Fin n) := ⟨⟨0, hn⟩⟩
  have hsub : Icc (a / 2) ((L + b) / 2) ⊆ Ioo a b := fun z hz => ⟨by linarith [hz.1], by linarith [hz.2]⟩
  have hcont : ContinuousOn Y (Icc (a / 2) ((L + b) / 2)) := fun z hz => (hY z (hsub hz)).continuousAt.continuousWithinAt
  obtain ⟨R, hR⟩ := isCompact_Icc.exists_bound_of_continuousOn hcont
  obtain ⟨m, hm15, hmle⟩ : ∃ m, 10 ^ (-15 : ℤ) < m ∧ ∀ z ∈ Icc (a / 2) ((L + b) / 2), ∀ j, m ≤ ‖Y z j‖ := by
    have hmin : ∀ j, ∃ z0 ∈ Icc (a / 2) ((L + b) / 2), ∀ z ∈ Icc (a / 2) ((L + b) / 2), ‖Y z0 j‖ ≤ ‖Y z j‖ := by
      intro j
      have hcj : ContinuousOn (fun z => ‖Y z j‖) (Icc (a / 2) ((L + b) / 2)) := ((continuous_apply j).comp_continuousOn hcont).norm
      obtain ⟨z0, hz0, h⟩ := isCompact_Icc.exists_isMinOn (nonempty_Icc.2 (by linarith)) hcj
      exact ⟨z0, hz0, fun z hz => h hz⟩
    choose z0 hz0 hz0m using hmin
    obtain ⟨j0, hj0⟩ := Finite.exists_min fun j => ‖Y (z0 j) j‖
    exact ⟨‖Y (z0 j0) j0‖, hab _ (hsub (hz0 j0)) j0, fun z hz j => (hj0 j).trans (hz0m j z hz)⟩
  have hmp : 0 < m := lt_trans (by positivity) hm15
  set e := (m - 10 ^ (-15 : ℤ)) / 3 with hed
  have hepos : 0 < e := div_pos (sub_pos.2 hm15) three_pos
  set s0 := 10 ^ (-15 : ℤ) + e with hs0
  set s1 := 10 ^ (-15 : ℤ) + 2 * e with hs1
  have h0 : 10 ^ (-15 : ℤ) < s0 := by rw [hs0]; linarith
  have h01 : s0 < s1 := by rw [hs0, hs1]; linarith
  have h0p : 0 < s0 := lt_trans (by positivity) h0
  have hms : m = s1 + e := by rw [hs1, hed]; ring
  have hone : ∀ B : Fin n → ℂ, (∀ j, s1 ≤ ‖B j‖) → cutoff s0 s1 B • nonPart p dir B = nonPart p dir B := fun B hB => by
    rw [cutoff_one h0p h01 hB, one_smul]
  have hYs1 : ∀ z ∈ Icc (a / 2) ((L + b) / 2), ∀ j, s1 < ‖Y z j‖ := fun z hz j => by linarith [hmle z hz j]
  have hIcc : Icc 0 L ⊆ Icc (a / 2) ((L + b) / 2) := fun z hz => ⟨by linarith [hz.1], by linarith [hz.2]⟩
  refine segments_converge_near (c := m) (R := R) hp hm he hle hdz0 hL (show a / 2 < 0 by linarith) (show L < (L + b) / 2 by linarith) hY0
    (cut_contDiff p dir h0 h01) ?_ ?_ hepos ?_ hmp ?_
  · intro z hz
    have h1 : ContDiffAt ℝ ω (nonPart p dir) (Y z) := nonPart_contDiffAt dir (Or.inr (hab z (hsub (hIcc hz))))
    refine h1.congr_of_eventuallyEq ?_
    have : ∀ᶠ B : Fin n → ℂ in 𝓝 (Y z), ∀ j, s1 < ‖B j‖ := by
      rw [eventually_all]
      intro j
      have hc : Continuous fun B : Fin n → ℂ => ‖B j‖ := (continuous_apply j).norm
      exact hc.continuousAt.eventually (lt_mem_nhds (hYs1 z (hIcc hz) j))
    filter_upwards [this] with B hB using hone B fun j => (hB j).le
  · intro z hz
    have hz' : z ∈ Icc (a / 2) ((L + b) / 2) := ⟨hz.1.le, hz.2.le⟩
    rw [hone _ fun j => (hYs1 z hz' j).le]
    exact hY z (hsub hz')
  · intro z hz B hB
    refine (hone B fun j => ?_).symm
    have h1 := (norm_le_pi_norm (B - Y z) j).trans hB
    have h2 := norm_sub_norm_le (Y z j) (B j)
    rw [norm_sub_rev] at h2
    have h3 := hmle z (hIcc hz) j
    simp only [Pi.sub_apply] at h1
    linarith
  · intro z hz
    refine ⟨(hmle z (hIcc hz) ⟨0, hn⟩).trans (norm_le_pi_norm _ _), hR z (hIcc hz)⟩

end PyNLO.Ssfm
