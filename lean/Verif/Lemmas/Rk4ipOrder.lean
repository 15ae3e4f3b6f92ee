import Verif.Lemmas.Rk4ip
import Mathlib.Analysis.Calculus.Deriv.Pi
import Mathlib.Analysis.Calculus.Deriv.Prod
import Mathlib.Analysis.SpecialFunctions.ExpDeriv
import Mathlib.Analysis.SpecialFunctions.Exp
import Mathlib.Analysis.Calculus.ContDiff.RCLike

/-!
# Smoothness of spectral operators and order of RK4IP
-/

namespace PyNLO.Ssfm

open Complex RK Filter Asymptotics
open scoped Topology ContDiff

variable {n : ℕ}

theorem applySpec_hasDerivAt {E A : ℝ → Fin n → ℂ} {E' A' : Fin n → ℂ} {z : ℝ} (hE : HasDerivAt E E' z) (hA : HasDerivAt A A' z) :
    HasDerivAt (fun z => applySpec (E z) (A z)) (applySpec E' (A z) + applySpec (E z) A') z := by
  rw [hasDerivAt_pi] at hE hA ⊢
  intro k
  have h1 : ∀ l, HasDerivAt (fun z => ifft (A z) l) (ifft A' l) z := by
    intro l
    unfold ifft
    exact (HasDerivAt.fun_sum fun j _ => (hA j).mul_const _).const_mul _
  have h2 : HasDerivAt (fun z => applySpec (E z) (A z) k)
      (∑ j : Fin n, (E' j * ifft (A z) j + E z j * ifft A' j) * rootE n (-((j : ℕ) * (k : ℕ) : ℤ))) z := by
    unfold applySpec
    exact HasDerivAt.fun_sum fun j _ => (((hE j).mul (h1 j)).mul_const _)
  have e : (applySpec E' (A z) + applySpec (E z) A') k =
      ∑ j : Fin n, (E' j * ifft (A z) j + E z j * ifft A' j) * rootE n (-((j : ℕ) * (k : ℕ) : ℤ)) := by
    simp only [applySpec, fft, Pi.add_apply, ← Finset.sum_add_distrib, add_mul]
  rw [e]
  exact h2

theorem applySpec_contDiffAt {F : Type*} [NormedAddCommGroup F] [NormedSpace ℝ F] {m : WithTop ℕ∞} {E A : F → Fin n → ℂ} {x : F}
    (hE : ContDiffAt ℝ m E x) (hA : ContDiffAt ℝ m A x) : ContDiffAt ℝ m (fun x => applySpec (E x) (A x)) x := by
  rw [contDiffAt_pi] at hE hA ⊢
  intro k
  unfold applySpec fft ifft
  refine ContDiffAt.sum fun j _ => ((hE j).mul (contDiffAt_const.mul (ContDiffAt.sum fun i _ => (hA i).mul contDiffAt_const))).mul contDiffAt_const

theorem norm_applySpec_le {E : Fin n → ℂ} {M : ℝ} (hM : ∀ k, ‖E k‖ ≤ M) (x : Fin n → ℂ) : ‖applySpec E x‖ ≤ n * M * ‖x‖ := by
  by_cases hn : n = 0
  · subst hn
    have : applySpec E x = 0 := Subsingleton.elim _ _
    rw [this]; simp
  have hn' : (0 : ℝ) < n := by positivity
  have hM0 : 0 ≤ M := (norm_nonneg _).trans (hM ⟨0, by omega⟩)
  have h1 : ∀ l, ‖ifft x l‖ ≤ ‖x‖ := by
    intro l
    unfold ifft
    rw [norm_mul]
    have h2 : ‖∑ j : Fin n, x j * rootE n ((j : ℕ) * (l : ℕ) : ℤ)‖ ≤ n * ‖x‖ := by
      refine (norm_sum_le _ _).trans ?_
      refine (Finset.sum_le_card_nsmul _ _ ‖x‖ fun j _ => ?_).trans ?_
      · rw [norm_mul, norm_rootE, mul_one]
        exact norm_le_pi_norm x j
      · simp
    calc ‖1 / (n : ℂ)‖ * _ ≤ (1 / n) * (n * ‖x‖) := by
          refine mul_le_mul ?_ h2 (norm_nonneg _) (by positivity)
          simp
      _ = ‖x‖ := by field_simp
  refine (pi_norm_le_iff_of_nonneg (by positivity)).2 fun k => ?_
  unfold applySpec fft
  refine (norm_sum_le _ _).trans ?_
  refine (Finset.sum_le_card_nsmul _ _ (M * ‖x‖) fun j _ => ?_).trans ?_
  · rw [norm_mul, norm_rootE, mul_one, norm_mul]
    exact mul_le_mul (hM j) (h1 j) (norm_nonneg _) hM0
  · simp [mul_assoc]

theorem expz_contDiff (d : Fin n → ℂ) {m : WithTop ℕ∞} : ContDiff ℝ m fun z : ℝ => fun k => exp ((z : ℂ) * d k) := by
  rw [contDiff_pi]
  intro k
  exact (ofRealCLM.contDiff.mul contDiff_const).cexp

theorem prop_contDiffAt {F : Type*} [NormedAddCommGroup F] [NormedSpace ℝ F] {m : WithTop ℕ∞} (d : Fin n → ℂ) {z : F → ℝ}
    {A : F → Fin n → ℂ} {x : F} (hz : ContDiffAt ℝ m z x) (hA : ContDiffAt ℝ m A x) : ContDiffAt ℝ m (fun x => prop d (z x) (A x)) x :=
  applySpec_contDiffAt ((expz_contDiff d).contDiffAt.comp x hz) hA

theorem prop_hasDerivAt (d : Fin n → ℂ) {z : ℝ → ℝ} {z' : ℝ} {A : ℝ → Fin n → ℂ} {A' : Fin n → ℂ} {x : ℝ} (hz : HasDerivAt z z' x)
    (hA : HasDerivAt A A' x) : HasDerivAt (fun x => prop d (z x) (A x)) (prop d (z x) (z' • applySpec d (A x) + A')) x := by
  have hE : HasDerivAt (fun x => fun k => exp ((z x : ℂ) * d k)) (fun k => exp ((z x : ℂ) * d k) * (z' * d k)) x := by
    rw [hasDerivAt_pi]
    intro k
    exact ((hz.ofReal_comp).mul_const (d k)).cexp
  have h := applySpec_hasDerivAt hE hA
  show HasDerivAt (fun x => applySpec (fun k => exp ((z x : ℂ) * d k)) (A x)) _ x
  convert h using 1
  rw [map_add, map_smul, prop_apply, prop_apply, applySpec_applySpec]
  congr 1
  have : (fun k => exp ((z x : ℂ) * d k) * (z' * d k)) = fun k => (z' : ℂ) * (exp ((z x : ℂ) * d k) * d k) := by funext k; ring
  rw [this]
  funext j
  simp only [applySpec, fft, Pi.smul_apply, real_smul, Finset.mul_sum]
  exact Finset.sum_congr rfl fun i _ => by ring

/-- the interaction picture turns a solution into a solution -/
theorem ip_solution {d : Fin n → ℂ} {g : (Fin n → ℂ) → Fin n → ℂ} {Y : ℝ → Fin n → ℂ} {z : ℝ}
    (hY : HasDerivAt Y (applySpec d (Y z) + g (Y z)) z) :
    HasDerivAt (fun z => ((z, prop d (-z) (Y z)) : ℝ × (Fin n → ℂ))) (ip d g (z, prop d (-z) (Y z))) z := by
  have h := prop_hasDerivAt d (hasDerivAt_neg z) hY
  have e : prop d (-z) ((-1 : ℝ) • applySpec d (Y z) + (applySpec d (Y z) + g (Y z))) = (ip d g (z, prop d (-z) (Y z))).2 := by
    simp only [ip, prop_prop, add_neg_cancel, prop_zero]
    congr 1
    module
  rw [e] at h
  exact (hasDerivAt_id z).prodMk h

theorem ip_contDiffAt {d : Fin n → ℂ} {g : (Fin n → ℂ) → Fin n → ℂ} {m : WithTop ℕ∞} {y : ℝ × (Fin n → ℂ)}
    (hg : ContDiffAt ℝ m g (prop d y.1 y.2)) : ContDiffAt ℝ m (ip d g) y := by
  refine contDiffAt_const.prodMk (prop_contDiffAt d contDiffAt_fst.neg ?_)
  exact hg.comp y (f := fun y : ℝ × (Fin n → ℂ) => prop d y.1 y.2) (prop_contDiffAt d contDiffAt_fst contDiffAt_snd)

theorem prop_isBigO (d : Fin n → ℂ) {r : ℝ → Fin n → ℂ} {q : ℝ → ℝ} (h : (fun H => prop d (-H) (r H)) =O[𝓝 0] q) : r =O[𝓝 0] q := by
  have e : r = fun H => prop d H (prop d (-H) (r H)) := by
    funext H; rw [prop_prop, add_neg_cancel, prop_zero]
  rw [e]
  refine IsBigO.trans ?_ h
  refine IsBigO.of_bound (n * Real.exp (∑ k, ‖d k‖)) ?_
  filter_upwards [Metric.ball_mem_nhds (0 : ℝ) one_pos] with H hH
  rw [prop_apply d H]
  refine norm_applySpec_le (fun k => ?_) _
  rw [norm_exp]
  refine Real.exp_le_exp.2 (((le_abs_self _).trans (abs_re_le_norm _)).trans ?_)
  rw [norm_mul, norm_real]
  have h1 : ‖H‖ ≤ 1 := by
    have : |H| < 1 := by simpa using hH
    exact this.le
  calc ‖H‖ * ‖d k‖ ≤ 1 * ‖d k‖ := mul_le_mul_of_nonneg_right h1 (norm_nonneg _)
    _ = ‖d k‖ := one_mul _
    _ ≤ _ := Finset.single_le_sum (f := fun k => ‖d k‖) (fun i _ => norm_nonneg _) (Finset.mem_univ k)

/-- Order of RK4IP: four for one step and for two half steps, five for their extrapolation. -/
theorem ipStep_orders {d : Fin n → ℂ} {g : (Fin n → ℂ) → Fin n → ℂ} {A : Fin n → ℂ} (hg : ContDiffAt ℝ ω g A) {Y : ℝ → Fin n → ℂ}
    (hY0 : Y 0 = A) (hY : ∀ᶠ z in 𝓝 (0 : ℝ), HasDerivAt Y (applySpec d (Y z) + g (Y z)) z) :
    ((fun H => ipStep d g H A - Y H) =O[𝓝 0] fun H : ℝ => H ^ 5) ∧
    ((fun H => ipStep d g (H / 2) (ipStep d g (H / 2) A) - Y H) =O[𝓝 0] fun H : ℝ => H ^ 5) ∧
    ((fun H => (16 / 15 : ℝ) • ipStep d g (H / 2) (ipStep d g (H / 2) A) - (1 / 15 : ℝ) • ipStep d g H A - Y H) =O[𝓝 0]
      fun H : ℝ => H ^ 6) := by
  have e0 : prop d 0 A = A := prop_zero d A
  have hf : AnalyticAt ℝ (ip d g) (0, A) := by
    have : ContDiffAt ℝ ω (ip d g) (0, A) := ip_contDiffAt (by simpa [e0] using hg)
    exact this.analyticAt
  have hY' : ∀ᶠ z in 𝓝 (0 : ℝ), HasDerivAt (fun z => ((z, prop d (-z) (Y z)) : ℝ × (Fin n → ℂ))) (ip d g (z, prop d (-z) (Y z))) z := by
    filter_upwards [hY] with z hz using ip_solution hz
  have hY0' : (fun z => ((z, prop d (-z) (Y z)) : ℝ × (Fin n → ℂ))) 0 = (0, A) := by simp [hY0, prop_zero]
  obtain ⟨h1, h2, h3⟩ := rk4_orders hf hY0' hY'
  have s1 : ∀ H, rk4 (ip d g) H (0, A) = (H, prop d (-H) (ipStep d g H A)) := by
    intro H
    have := rk4_ip d g H 0 A
    simpa [prop_zero] using this
  have s2 : ∀ H, rk4 (ip d g) (H / 2) (rk4 (ip d g) (H / 2) (0, A)) = (H, prop d (-H) (ipStep d g (H / 2) (ipStep d g (H / 2) A))) := by
    intro H
    rw [s1, rk4_ip, show H / 2 + H / 2 = H by ring]
  refine ⟨prop_isBigO d ?_, prop_isBigO d ?_, prop_isBigO d ?_⟩
  · refine IsBigO.trans (isBigO_of_le _ fun H => ?_) h1
    rw [s1, Prod.mk_sub_mk, map_sub]
    exact le_max_right _ _
  · refine IsBigO.trans (isBigO_of_le _ fun H => ?_) h2
    rw [s2, Prod.mk_sub_mk, map_sub]
    exact le_max_right _ _
  · refine IsBigO.trans (isBigO_of_le _ fun H => ?_) h3
    rw [s2, s1, map_sub, map_sub, map_smul, map_smul]
    exact le_max_right _ _

end PyNLO.Ssfm
