import Verif.Lemmas.OneStep
import Mathlib.Analysis.Calculus.FDeriv.Symmetric

/-!
# Step doubling with an arbitrary smooth step

`a·φ(h, φ(h, A)) - b·φ(2h, A)` with `a - b = 1` is consistent of first order with the equation `y' = ∂φ/∂h(0, y)`, and of second order for
`a = 2`.
-/

open scoped Topology ContDiff
open Set Filter

namespace PyNLO.OneStep

variable {E : Type*} [NormedAddCommGroup E] [NormedSpace ℝ E]

/-- A smooth function whose derivatives in the second variable up to order `m` vanish at zero is small of order `m + 1`, uniformly. -/
theorem uniform_of_derivs {U : Set (ℝ × ℝ)} (hU : IsOpen U) {e : ℝ × ℝ → E} (he : ContDiffOn ℝ ∞ e U) {K : Set ℝ} (hK : IsCompact K)
    {h0 : ℝ} (h0pos : 0 < h0) (hsub : K ×ˢ Icc 0 h0 ⊆ U) {m : ℕ} (hO : ∀ z ∈ K, ∀ k ≤ m, dsnd^[k] e (z, 0) = 0) :
    ∃ C, 0 ≤ C ∧ ∀ z ∈ K, ∀ h ∈ Icc 0 h0, ‖e (z, h)‖ ≤ C * h ^ (m + 1) := by
  obtain ⟨C, hC⟩ := (hK.prod isCompact_Icc).exists_bound_of_continuousOn ((dsnd_iter_contDiffOn hU he (m + 1)).continuousOn.mono hsub)
  refine ⟨max C 0, le_max_right _ _, fun z hz h hh => ?_⟩
  have hzU : ∀ h ∈ Icc 0 h0, (z, h) ∈ U := fun h hh => hsub ⟨hz, hh⟩
  have hfc : ContDiffOn ℝ (m + 1) (fun h => e (z, h)) (Icc 0 h0) := by
    have h1 : ContDiffOn ℝ ∞ (fun h => e (z, h)) (Icc 0 h0) :=
      he.comp (contDiff_const.prodMk contDiff_id).contDiffOn fun h hh => hzU h hh
    exact h1.of_le (by exact_mod_cast le_top)
  have hT := taylor_mean_remainder_bound (C := max C 0) h0pos.le hfc hh (by
    intro y hy
    rw [dsnd_iter hU he h0pos hzU (m + 1) y hy]
    exact (hC (z, y) ⟨hz, hy⟩).trans (le_max_left _ _))
  have hpoly : taylorWithinEval (fun h => e (z, h)) m (Icc 0 h0) 0 h = 0 := by
    rw [taylor_within_apply]
    refine Finset.sum_eq_zero fun k hk => ?_
    rw [dsnd_iter hU he h0pos hzU k 0 ⟨le_rfl, h0pos.le⟩, hO z hz k (by simpa [Nat.lt_succ_iff] using hk), smul_zero]
  rw [hpoly, sub_zero, sub_zero] at hT
  refine hT.trans (div_le_self (mul_nonneg (le_max_right _ _) (pow_nonneg hh.1 _)) ?_)
  exact_mod_cast Nat.factorial_pos m

section step
variable {φ : ℝ × E → E}

/-- the field accepted by step doubling -/
def double (φ : ℝ × E → E) (a b : ℝ) (h : ℝ) (A : E) : E := a • φ (h, φ (h, A)) - b • φ (2 * h, A)

theorem double_zero (h0 : ∀ A, φ (0, A) = A) {a b : ℝ} (hab : a - b = 1) (A : E) : double φ a b 0 A = A := by
  unfold double
  rw [mul_zero, h0, h0, ← sub_smul, hab, one_smul]

theorem fine_contDiff {m : WithTop ℕ∞} (hφ : ContDiff ℝ m φ) : ContDiff ℝ m fun q : ℝ × E => φ (q.1, φ (q.1, q.2)) :=
  hφ.comp (contDiff_fst.prodMk (hφ.comp (contDiff_fst.prodMk contDiff_snd)))

theorem coarse_contDiff {m : WithTop ℕ∞} (hφ : ContDiff ℝ m φ) : ContDiff ℝ m fun q : ℝ × E => φ (2 * q.1, q.2) :=
  hφ.comp ((contDiff_const.mul contDiff_fst).prodMk contDiff_snd)

theorem double_contDiff {m : WithTop ℕ∞} (hφ : ContDiff ℝ m φ) (a b : ℝ) : ContDiff ℝ m fun q : ℝ × E => double φ a b q.1 q.2 :=
  ((fine_contDiff hφ).const_smul a).sub ((coarse_contDiff hφ).const_smul b)

/-- direction field of a step -/
noncomputable def field (φ : ℝ × E → E) (A : E) : E := fderiv ℝ φ (0, A) (1, 0)

theorem field_contDiff (hφ : ContDiff ℝ ∞ φ) : ContDiff ℝ ∞ (field φ) := by
  have h1 : ContDiff ℝ ∞ (fderiv ℝ φ) := hφ.fderiv_right (by simp)
  exact (h1.comp (contDiff_const.prodMk contDiff_id)).clm_apply contDiff_const

theorem hasFDeriv (hφ : ContDiff ℝ ∞ φ) (q : ℝ × E) : HasFDerivAt φ (fderiv ℝ φ q) q :=
  (hφ.differentiable (by simp) q).hasFDerivAt

theorem hasFDeriv2 (hφ : ContDiff ℝ ∞ φ) (q : ℝ × E) : HasFDerivAt (fderiv ℝ φ) (fderiv ℝ (fderiv ℝ φ) q) q := by
  have h1 : ContDiff ℝ ∞ (fderiv ℝ φ) := hφ.fderiv_right (by simp)
  exact (h1.differentiable (by simp) q).hasFDerivAt

/-- along the field at zero step the map is the identity -/
theorem fderiv_snd (hφ : ContDiff ℝ ∞ φ) (h0 : ∀ A, φ (0, A) = A) (A v : E) : fderiv ℝ φ (0, A) (0, v) = v := by
  have h1 : HasFDerivAt (fun A : E => ((0 : ℝ), A)) (ContinuousLinearMap.inr ℝ ℝ E) A := hasFDerivAt_prodMk_right 0 A
  have h2 := (hasFDeriv hφ (0, A)).comp A h1
  have h3 : (φ ∘ fun A : E => ((0 : ℝ), A)) = id := funext h0
  rw [h3] at h2
  have h4 := h2.unique (hasFDerivAt_id A)
  have := congrArg (fun l : E →L[ℝ] E => l v) h4
  simpa using this

theorem deriv_fst (hφ : ContDiff ℝ ∞ φ) (A : E) (h : ℝ) : HasDerivAt (fun h => φ (h, A)) (fderiv ℝ φ (h, A) (1, 0)) h :=
  (hasFDeriv hφ (h, A)).comp_hasDerivAt h ((hasDerivAt_id h).prodMk (hasDerivAt_const h A))

theorem deriv_fine (hφ : ContDiff ℝ ∞ φ) (A : E) (h : ℝ) :
    HasDerivAt (fun h => φ (h, φ (h, A))) (fderiv ℝ φ (h, φ (h, A)) (1, fderiv ℝ φ (h, A) (1, 0))) h :=
  (hasFDeriv hφ (h, φ (h, A))).comp_hasDerivAt h ((hasDerivAt_id h).prodMk (deriv_fst hφ A h))

theorem deriv_coarse (hφ : ContDiff ℝ ∞ φ) (A : E) (h : ℝ) : HasDerivAt (fun h => φ (2 * h, A)) ((2 : ℝ) • fderiv ℝ φ (2 * h, A) (1, 0)) h := by
  have h1 : HasDerivAt (fun h : ℝ => 2 * h) 2 h := by simpa using (hasDerivAt_id h).const_mul (2 : ℝ)
  exact (deriv_fst hφ A (2 * h)).scomp h h1

/-- second derivatives of the two ways of covering `2h` -/
theorem second_coarse (hφ : ContDiff ℝ ∞ φ) (A : E) : HasDerivAt (fun h : ℝ => (2 : ℝ) • fderiv ℝ φ (2 * h, A) (1, 0))
    ((4 : ℝ) • fderiv ℝ (fderiv ℝ φ) (0, A) (1, 0) (1, 0)) 0 := by
  have h1 : HasDerivAt (fun h : ℝ => ((2 * h, A) : ℝ × E)) ((2 : ℝ) • (1, 0)) 0 := by
    have : HasDerivAt (fun h : ℝ => 2 * h) 2 0 := by simpa using (hasDerivAt_id (0 : ℝ)).const_mul (2 : ℝ)
    simpa using this.prodMk (hasDerivAt_const (0 : ℝ) A)
  have h2 : HasDerivAt (fun h : ℝ => fderiv ℝ φ (2 * h, A)) (fderiv ℝ (fderiv ℝ φ) (2 * 0, A) ((2 : ℝ) • (1, 0))) 0 :=
    (hasFDeriv2 hφ (2 * 0, A)).comp_hasDerivAt 0 h1
  have h3 := (h2.clm_apply (hasDerivAt_const (0 : ℝ) ((1, 0) : ℝ × E))).const_smul (2 : ℝ)
  refine h3.congr_deriv ?_
  rw [mul_zero, map_zero, add_zero, map_smul, ContinuousLinearMap.smul_apply, smul_smul]
  norm_num

theorem second_fine (hφ : ContDiff ℝ ∞ φ) (h0 : ∀ A, φ (0, A) = A) (A : E) :
    HasDerivAt (fun h : ℝ => fderiv ℝ φ (h, φ (h, A)) (1, fderiv ℝ φ (h, A) (1, 0)))
      ((2 : ℝ) • fderiv ℝ (fderiv ℝ φ) (0, A) (1, 0) (1, 0) + (2 : ℝ) • fderiv ℝ (field φ) A (field φ A)) 0 := by
  set Q := fderiv ℝ (fderiv ℝ φ) (0, A) with hQ
  have h1 : HasDerivAt (fun h : ℝ => ((h, φ (h, A)) : ℝ × E)) (1, field φ A) 0 := (hasDerivAt_id (0 : ℝ)).prodMk (deriv_fst hφ A 0)
  have h2 : HasDerivAt (fun h : ℝ => fderiv ℝ φ (h, φ (h, A))) (Q (1, field φ A)) 0 := by
    have := hasFDeriv2 hφ (0, φ (0, A))
    rw [h0] at this
    refine HasFDerivAt.comp_hasDerivAt (0 : ℝ) (f := fun h : ℝ => ((h, φ (h, A)) : ℝ × E)) ?_ h1
    show HasFDerivAt (fderiv ℝ φ) Q (0, φ (0, A))
    rw [h0]
    exact this
  have h3 : HasDerivAt (fun h : ℝ => ((h, A) : ℝ × E)) (1, 0) 0 := (hasDerivAt_id (0 : ℝ)).prodMk (hasDerivAt_const (0 : ℝ) A)
  have h4 : HasDerivAt (fun h : ℝ => fderiv ℝ φ (h, A) (1, 0)) (Q (1, 0) (1, 0)) 0 := by
    have e1 : HasDerivAt (fun h : ℝ => fderiv ℝ φ (h, A)) (Q (1, 0)) 0 :=
      HasFDerivAt.comp_hasDerivAt (0 : ℝ) (f := fun h : ℝ => ((h, A) : ℝ × E)) (hasFDeriv2 hφ (0, A)) h3
    refine (e1.clm_apply (hasDerivAt_const (0 : ℝ) ((1, 0) : ℝ × E))).congr_deriv ?_
    rw [map_zero, add_zero]
  have h5 : HasDerivAt (fun h : ℝ => ((1, fderiv ℝ φ (h, A) (1, 0)) : ℝ × E)) (0, Q (1, 0) (1, 0)) 0 := (hasDerivAt_const (0 : ℝ) (1 : ℝ)).prodMk h4
  refine (h2.clm_apply h5).congr_deriv ?_
  rw [h0, fderiv_snd hφ h0]
  show Q (1, field φ A) (1, field φ A) + _ = _
  have hsplit : ((1, field φ A) : ℝ × E) = (1, 0) + (0, field φ A) := by simp
  have hsym : Q (1, 0) (0, field φ A) = Q (0, field φ A) (1, 0) := by
    have := (hφ.contDiffAt (x := ((0 : ℝ), A))).isSymmSndFDerivAt (by simp only [minSmoothness_of_isRCLikeNormedField]; exact WithTop.coe_le_coe.2 (by exact_mod_cast le_top))
    exact this (1, 0) (0, field φ A)
  have hz : Q (0, field φ A) (0, field φ A) = 0 := by
    have e1 : HasDerivAt (fun s : ℝ => (((0 : ℝ), A + s • field φ A) : ℝ × E)) (0, field φ A) 0 := by
      refine (hasDerivAt_const (0 : ℝ) (0 : ℝ)).prodMk ?_
      simpa using ((hasDerivAt_id (0 : ℝ)).smul_const (field φ A)).const_add A
    have e2 : HasDerivAt (fun s : ℝ => fderiv ℝ φ (0, A + s • field φ A)) (Q (0, field φ A)) 0 := by
      refine HasFDerivAt.comp_hasDerivAt (0 : ℝ) (f := fun s : ℝ => (((0 : ℝ), A + s • field φ A) : ℝ × E)) ?_ e1
      show HasFDerivAt (fderiv ℝ φ) Q (0, A + (0 : ℝ) • field φ A)
      rw [zero_smul, add_zero]
      exact hasFDeriv2 hφ (0, A)
    have e3 := e2.clm_apply (hasDerivAt_const (0 : ℝ) ((0, field φ A) : ℝ × E))
    have e4 : (fun s : ℝ => fderiv ℝ φ (0, A + s • field φ A) (0, field φ A)) = fun _ => field φ A := funext fun s => fderiv_snd hφ h0 _ _
    rw [e4] at e3
    have := e3.unique (hasDerivAt_const (0 : ℝ) (field φ A))
    rw [map_zero, add_zero] at this
    exact this
  have hf : Q (0, field φ A) (1, 0) = fderiv ℝ (field φ) A (field φ A) := by
    have e1 : HasFDerivAt (fun A : E => ((0 : ℝ), A)) (ContinuousLinearMap.inr ℝ ℝ E) A := hasFDerivAt_prodMk_right 0 A
    have e2 : HasFDerivAt (fun A : E => fderiv ℝ φ (0, A)) (Q.comp (ContinuousLinearMap.inr ℝ ℝ E)) A := (hasFDeriv2 hφ (0, A)).comp A e1
    have e3 := e2.clm_apply (hasFDerivAt_const ((1, 0) : ℝ × E) A)
    have e4 : fderiv ℝ (field φ) A = _ := e3.fderiv
    rw [e4]
    simp
  rw [hsplit]
  simp only [map_add, add_apply]
  rw [hsym, hz, hf]
  module

/-- Uniform consistency along a solution. -/
theorem double_consistent (hφ : ContDiff ℝ ∞ φ) (h0 : ∀ A, φ (0, A) = A) {a b : ℝ} (hab : a - b = 1) {Y : ℝ → E} {x y L : ℝ}
    (hx : x < 0) (hy : L < y) (hY : ∀ z ∈ Ioo x y, HasDerivAt Y (field φ (Y z)) z) (m : ℕ) (hm : m = 1 ∨ m = 2 ∧ a = 2) :
    ∃ C h1, 0 ≤ C ∧ 0 < h1 ∧ h1 ≤ 1 ∧ ∀ z ∈ Icc 0 L, ∀ h ∈ Icc 0 h1, ‖double φ a b h (Y z) - Y (z + 2 * h)‖ ≤ C * h ^ (m + 1) := by
  have hYs := solution_contDiffOn (field_contDiff hφ) hY
  set U : Set (ℝ × ℝ) := {q | q.1 ∈ Ioo x y ∧ q.1 + 2 * q.2 ∈ Ioo x y} with hUdef
  have hUo : IsOpen U := by
    have h1 : IsOpen {q : ℝ × ℝ | q.1 ∈ Ioo x y} := isOpen_Ioo.preimage continuous_fst
    have h2 : IsOpen {q : ℝ × ℝ | q.1 + 2 * q.2 ∈ Ioo x y} := isOpen_Ioo.preimage (continuous_fst.add (continuous_const.mul continuous_snd))
    exact h1.inter h2
  set e : ℝ × ℝ → E := fun q => double φ a b q.2 (Y q.1) - Y (q.1 + 2 * q.2) with hedef
  have he : ContDiffOn ℝ ∞ e U := by
    refine ContDiffOn.sub ?_ ?_
    · have h1 : ContDiffOn ℝ ∞ (fun q : ℝ × ℝ => (q.2, Y q.1)) U := by
        refine contDiff_snd.contDiffOn.prodMk ?_
        exact hYs.comp contDiff_fst.contDiffOn fun q hq => hq.1
      exact ContDiff.comp_contDiffOn (g := fun q : ℝ × E => double φ a b q.1 q.2) (f := fun q : ℝ × ℝ => (q.2, Y q.1)) (double_contDiff hφ a b) h1
    · exact hYs.comp (contDiff_fst.add (contDiff_const.mul contDiff_snd)).contDiffOn fun q hq => hq.2
  have h0pos : 0 < min ((y - L) / 4) 1 := lt_min (by linarith) one_pos
  have hsub : Icc 0 L ×ˢ Icc 0 (min ((y - L) / 4) 1) ⊆ U := by
    rintro ⟨z, h⟩ ⟨hz, hh⟩
    have h1 : h ≤ (y - L) / 4 := hh.2.trans (min_le_left _ _)
    have h2 : 0 ≤ h := hh.1
    have hz1 : 0 ≤ z := hz.1
    have hz2 : z ≤ L := hz.2
    refine ⟨⟨by linarith, by linarith⟩, ⟨?_, ?_⟩⟩
    · show x < z + 2 * h
      linarith
    · show z + 2 * h < y
      linarith
  obtain ⟨C, hC, hb⟩ := uniform_of_derivs hUo he isCompact_Icc h0pos hsub (m := m) (by
    intro z hz
    have hzU : ((z, 0) : ℝ × ℝ) ∈ U := hsub ⟨hz, le_rfl, h0pos.le⟩
    -- the derivative in `h`
    have hshift : ∀ h : ℝ, HasDerivAt (fun h : ℝ => z + 2 * h) 2 h := fun h => by
      simpa using ((hasDerivAt_id h).const_mul (2 : ℝ)).const_add z
    have hd : ∀ h : ℝ, (z, h) ∈ U → dsnd e (z, h) = a • fderiv ℝ φ (h, φ (h, Y z)) (1, fderiv ℝ φ (h, Y z) (1, 0)) -
        b • ((2 : ℝ) • fderiv ℝ φ (2 * h, Y z) (1, 0)) - (2 : ℝ) • field φ (Y (z + 2 * h)) := by
      intro h hh
      refine (dsnd_hasDerivAt hUo he hh).unique ?_
      refine HasDerivAt.sub (((deriv_fine hφ (Y z) h).const_smul a).sub ((deriv_coarse hφ (Y z) h).const_smul b)) ?_
      exact (hY _ hh.2).scomp h (hshift h)
    have hk0 : e (z, 0) = 0 := by
      simp only [hedef, double_zero h0 hab, mul_zero, add_zero, sub_self]
    have hk1 : dsnd e (z, 0) = 0 := by
      rw [hd 0 hzU, mul_zero, add_zero, h0]
      have : fderiv ℝ φ (0, Y z) (1, fderiv ℝ φ (0, Y z) (1, 0)) = (2 : ℝ) • field φ (Y z) := by
        have e1 : ((1, fderiv ℝ φ (0, Y z) (1, 0)) : ℝ × E) = (1, 0) + (0, fderiv ℝ φ (0, Y z) (1, 0)) := by simp
        rw [e1, map_add, fderiv_snd hφ h0, two_smul]
        rfl
      rw [this]
      show a • (2 : ℝ) • field φ (Y z) - b • (2 : ℝ) • field φ (Y z) - (2 : ℝ) • field φ (Y z) = 0
      rw [← sub_smul, hab, one_smul, sub_self]
    have hk2 : m = 2 ∧ a = 2 → dsnd (dsnd e) (z, 0) = 0 := by
      rintro ⟨-, rfl⟩
      have hb1 : b = 1 := by linarith
      have hev : (fun h : ℝ => dsnd e (z, h)) =ᶠ[𝓝 0] fun h => (2 : ℝ) • fderiv ℝ φ (h, φ (h, Y z)) (1, fderiv ℝ φ (h, Y z) (1, 0)) -
          b • ((2 : ℝ) • fderiv ℝ φ (2 * h, Y z) (1, 0)) - (2 : ℝ) • field φ (Y (z + 2 * h)) := by
        have hc : Tendsto (fun h : ℝ => ((z, h) : ℝ × ℝ)) (𝓝 0) (𝓝 (z, 0)) := (Continuous.prodMk continuous_const continuous_id).tendsto 0
        filter_upwards [hc.eventually (hUo.mem_nhds hzU)] with h hh
        exact hd h hh
      have h1 := (dsnd_hasDerivAt hUo (dsnd_contDiffOn hUo he) hzU).congr_of_eventuallyEq hev.symm
      have hfd : HasFDerivAt (field φ) (fderiv ℝ (field φ) (Y (z + 2 * 0))) (Y (z + 2 * 0)) := ((field_contDiff hφ).differentiable (by simp) _).hasFDerivAt
      have h2 : HasDerivAt (fun h : ℝ => field φ (Y (z + 2 * h))) (fderiv ℝ (field φ) (Y (z + 2 * 0)) ((2 : ℝ) • field φ (Y (z + 2 * 0)))) 0 :=
        HasFDerivAt.comp_hasDerivAt (0 : ℝ) (f := fun h : ℝ => Y (z + 2 * h)) hfd
          (HasDerivAt.scomp (0 : ℝ) (g₁ := Y) (h := fun h : ℝ => z + 2 * h) (hY _ hzU.2) (hshift 0))
      have h3 := (((second_fine hφ h0 (Y z)).const_smul (2 : ℝ)).sub ((second_coarse hφ (Y z)).const_smul b)).sub (h2.const_smul (2 : ℝ))
      rw [h1.unique h3, hb1, mul_zero, add_zero, map_smul]
      module
    intro k hk
    rcases hm with rfl | ⟨rfl, ha⟩
    · interval_cases k
      · exact hk0
      · exact hk1
    · interval_cases k
      · exact hk0
      · exact hk1
      · exact hk2 ⟨rfl, ha⟩)
  exact ⟨C, _, hC, h0pos, min_le_right _ _, hb⟩

end step

end PyNLO.OneStep
