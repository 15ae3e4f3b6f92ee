import Verif.Lemmas.Rk4ipOrder
import Verif.Lemmas.Ssfm
import Verif.Spec.Gnlse

/-!
# The equation solved by the integrator, and its smoothness
-/

namespace PyNLO.Ssfm

open Complex RK Filter Asymptotics
open scoped Topology ContDiff

variable {n : ℕ}

theorem applySpec_eq_spectral (E A : Fin n → ℂ) : applySpec E A = Gnlse.spectral E A := rfl

/-- linear part: `dir·(iβ - α/2)` -/
noncomputable def linPart (p : Params n) (dir : ℝ) : Fin n → ℂ := fun k => (dir : ℂ) * (I * p.betas k - p.alpha k / 2)

/-- nonlinear part: `dir·N(A)·A` -/
noncomputable def nonPart (p : Params n) (dir : ℝ) (A : Fin n → ℂ) : Fin n → ℂ := fun j => (dir : ℂ) * nonlinear p A j * A j

theorem absSq_eq (A : Fin n → ℂ) : absSq A = fun j => A j * (starRingEnd ℂ) (A j) := by
  funext j
  rw [absSq, mul_conj, normSq_eq_norm_sq]

theorem induced_eq (R A : Fin n → ℂ) : Gnlse.induced R A = applySpec R (absSq A) := by
  rw [absSq_eq]
  rfl

theorem linPart_eq (p : Params n) (dir : ℝ) (A : Fin n → ℂ) : applySpec (linPart p dir) A = dir • Gnlse.dispersive p.betas p.alpha A := by
  funext j
  simp only [Gnlse.dispersive, Gnlse.spectral, applySpec, linPart, fft, Pi.smul_apply, real_smul, Finset.mul_sum]
  exact Finset.sum_congr rfl fun k _ => by ring

theorem nonPart_kerr {p : Params n} (h : p.disableSS = true) (dir : ℝ) (A : Fin n → ℂ) : nonPart p dir A = dir • Gnlse.kerr p.R p.gamma A := by
  funext j
  simp only [nonPart, nonlinear_eq, if_pos h, Gnlse.kerr, induced_eq, Pi.smul_apply, real_smul]
  ring

/-- One step of RK4IP in terms of the two parts of the equation. -/
theorem rk4ipWith_eq (p : Params n) (A : Fin n → ℂ) (h dir : ℝ) :
    rk4ipWith p (Spec.halfStep p.betas p.alpha h dir) A h dir = ipStep (linPart p dir) (nonPart p dir) h A := by
  have hE : ∀ B, applySpec (Spec.halfStep p.betas p.alpha h dir) B = prop (linPart p dir) (h / 2) B := by
    intro B
    rw [prop_apply]
    congr 1
    funext k
    unfold Spec.halfStep linPart
    congr 1
    push_cast
    ring
  have hN : ∀ B : Fin n → ℂ, (fun j => ((h * dir : ℝ) : ℂ) * nonlinear p B j * B j) = h • nonPart p dir B := by
    intro B
    funext j
    simp only [nonPart, Pi.smul_apply, real_smul]
    push_cast
    ring
  have h2 : ∀ x y : Fin n → ℂ, (fun j => x j + y j / 2) = x + (1 / 2 : ℝ) • y := by
    intro x y; funext j; simp only [Pi.add_apply, Pi.smul_apply, real_smul]; push_cast; ring
  have h3 : ∀ x y z w : Fin n → ℂ, (fun j => x j + y j / 6 + z j / 3 + w j / 3) = x + (1 / 6 : ℝ) • y + (1 / 3 : ℝ) • z + (1 / 3 : ℝ) • w := by
    intro x y z w; funext j; simp only [Pi.add_apply, Pi.smul_apply, real_smul]; push_cast; ring
  have h4 : ∀ x y : Fin n → ℂ, (fun j => x j + y j / 6) = x + (1 / 6 : ℝ) • y := by
    intro x y; funext j; simp only [Pi.add_apply, Pi.smul_apply, real_smul]; push_cast; ring
  unfold rk4ipWith
  extract_lets AI k1 u2 k2 u3 k3 temp k4
  have eI : AI = prop (linPart p dir) (h / 2) A := hE A
  have e1 : k1 = prop (linPart p dir) (h / 2) (h • nonPart p dir A) := (hE _).trans (congrArg _ (hN A))
  have eu2 : u2 = AI + (1 / 2 : ℝ) • k1 := h2 AI k1
  have e2 : k2 = h • nonPart p dir u2 := hN u2
  have eu3 : u3 = AI + (1 / 2 : ℝ) • k2 := h2 AI k2
  have e3 : k3 = h • nonPart p dir u3 := hN u3
  have et : temp = prop (linPart p dir) (h / 2) (AI + k3) := hE (AI + k3)
  have e4 : k4 = h • nonPart p dir temp := hN temp
  have er : (fun j => applySpec (Spec.halfStep p.betas p.alpha h dir) (fun j => AI j + k1 j / 6 + k2 j / 3 + k3 j / 3) j + k4 j / 6) =
      prop (linPart p dir) (h / 2) (AI + (1 / 6 : ℝ) • k1 + (1 / 3 : ℝ) • k2 + (1 / 3 : ℝ) • k3) + (1 / 6 : ℝ) • k4 := by
    rw [h4, hE, h3]
  rw [er, e4, et, e3, eu3, e2, eu2, e1, eI]
  rfl

theorem adv_eq {p : Params n} (hm : p.method = .rk4ip) (dir h : ℝ) (A : Fin n → ℂ) :
    Spec.adv p dir h A = ipStep (linPart p dir) (nonPart p dir) h A := by
  unfold Spec.adv
  rw [hm]
  exact rk4ipWith_eq p A h dir

theorem richardson_five (Af Ac : Fin n → ℂ) : richardson 5 Af Ac = (16 / 15 : ℝ) • Af - (1 / 15 : ℝ) • Ac := by
  unfold richardson
  rw [if_neg (by norm_num), if_pos rfl]
  funext j
  simp only [Pi.sub_apply, Pi.smul_apply, real_smul]
  push_cast
  rfl

theorem absSq_contDiff {m : WithTop ℕ∞} : ContDiff ℝ m fun A : Fin n → ℂ => absSq A := by
  rw [contDiff_pi]
  intro j
  simp only [absSq_eq]
  have h1 : ContDiff ℝ m fun A : Fin n → ℂ => A j := contDiff_apply ℝ ℂ j
  have h2 : ContDiff ℝ m fun A : Fin n → ℂ => (starRingEnd ℂ) (A j) := conjCLE.contDiff.comp h1
  exact h1.mul h2

/-- The nonlinear part is smooth without self-steepening, and with it wherever no sample is below the threshold. -/
theorem nonPart_contDiffAt {p : Params n} (dir : ℝ) {A : Fin n → ℂ} (h : p.disableSS = true ∨ ∀ j, 10 ^ (-15 : ℤ) < ‖A j‖)
    {m : WithTop ℕ∞} : ContDiffAt ℝ m (nonPart p dir) A := by
  have hI : ContDiffAt ℝ m (fun A : Fin n → ℂ => applySpec p.R (absSq A)) A :=
    applySpec_contDiffAt contDiffAt_const absSq_contDiff.contDiffAt
  by_cases hs : p.disableSS = true
  · rw [contDiffAt_pi]
    intro j
    have : (fun A : Fin n → ℂ => nonPart p dir A j) = fun A => (dir : ℂ) * (1 * I * p.gamma * applySpec p.R (absSq A) j) * A j := by
      funext A
      simp only [nonPart, nonlinear_eq, if_pos hs]
    rw [this]
    rw [contDiffAt_pi] at hI
    exact (contDiffAt_const.mul (contDiffAt_const.mul (hI j))).mul (contDiff_apply ℝ ℂ j).contDiffAt
  · have hA : ∀ j, 10 ^ (-15 : ℤ) < ‖A j‖ := h.resolve_left hs
    have hd : ContDiffAt ℝ m (fun A : Fin n → ℂ => applySpec p.R (applySpec (fun k => -1 * I * p.omegas k) (absSq A))) A :=
      applySpec_contDiffAt contDiffAt_const (applySpec_contDiffAt contDiffAt_const absSq_contDiff.contDiffAt)
    have hD : ContDiffAt ℝ m (fun A : Fin n → ℂ => applySpec (fun k => -1 * I * p.omegas k) A) A :=
      applySpec_contDiffAt contDiffAt_const contDiffAt_id
    rw [contDiffAt_pi] at hI hd hD ⊢
    intro j
    have hne : (10 : ℂ) ^ (-20 : ℤ) + A j ≠ 0 := by
      intro e
      have h1 : A j = -(10 : ℂ) ^ (-20 : ℤ) := (neg_eq_of_add_eq_zero_right e).symm
      have h2 : ‖A j‖ = (10 : ℝ) ^ (-20 : ℤ) := by
        rw [h1, norm_neg, norm_zpow]
        norm_num
      have h3 := hA j
      rw [h2] at h3
      norm_num at h3
    have hcd : ContDiffAt ℝ m (fun A : Fin n → ℂ => (dir : ℂ) * (1 * I * p.gamma * applySpec p.R (absSq A) j - ((p.gamma / p.w0 : ℝ) : ℂ) *
        (applySpec p.R (applySpec (fun k => -1 * I * p.omegas k) (absSq A)) j +
          applySpec (fun k => -1 * I * p.omegas k) A j * applySpec p.R (absSq A) j / (10 ^ (-20 : ℤ) + A j))) * A j) A := by
      have hAj : ContDiffAt ℝ m (fun A : Fin n → ℂ => A j) A := (contDiff_apply ℝ ℂ j).contDiffAt
      refine (contDiffAt_const.mul ((contDiffAt_const.mul (hI j)).sub (contDiffAt_const.mul ((hd j).add ?_)))).mul hAj
      have hinv : ContDiffAt ℝ m (fun A : Fin n → ℂ => ((10 : ℂ) ^ (-20 : ℤ) + A j)⁻¹) A := (contDiffAt_const.add hAj).inv hne
      simp only [div_eq_mul_inv]
      exact ((hD j).mul (hI j)).mul hinv
    refine hcd.congr_of_eventuallyEq ?_
    have hopen : ∀ᶠ B : Fin n → ℂ in 𝓝 A, 10 ^ (-15 : ℤ) < ‖B j‖ := by
      have hc : Continuous fun B : Fin n → ℂ => ‖B j‖ := (continuous_apply j).norm
      exact hc.continuousAt.eventually (lt_mem_nhds (hA j))
    filter_upwards [hopen] with B hB
    simp only [nonPart, nonlinear_eq, if_neg hs, gt_iff_lt, if_pos hB]

end PyNLO.Ssfm
