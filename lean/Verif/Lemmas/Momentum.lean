import Verif.Spec.RedShift
import Verif.Lemmas.NlseStable
import Mathlib.Analysis.Calculus.ParametricIntervalIntegral
import Mathlib.Analysis.Calculus.Deriv.Star
import Mathlib.Analysis.Calculus.FDeriv.Symmetric
import Mathlib.MeasureTheory.Integral.IntervalIntegral.IntegrationByParts

/-!
# Energy and momentum of solutions of the nonlinear Schrödinger equation
-/

namespace PyNLO.Nlse

open Complex Set Polynomial MeasureTheory

variable {T : ℝ}

/-- derivative with respect to the distance -/
noncomputable def dz (u : ℝ → ℝ → ℂ) (z t : ℝ) : ℂ := deriv (fun z => u z t) z

/-- derivative with respect to time -/
noncomputable def dt (u : ℝ → ℝ → ℂ) (z t : ℝ) : ℂ := deriv (u z) t

theorem line_apply {G : ℝ × ℝ → (ℝ × ℝ) →L[ℝ] ℂ} {D : (ℝ × ℝ) →L[ℝ] (ℝ × ℝ) →L[ℝ] ℂ} {q : ℝ × ℝ} (h : HasFDerivAt G D q) (w : ℝ × ℝ) {l : ℝ → ℝ × ℝ}
    {v : ℝ × ℝ} {x : ℝ} (hl : HasDerivAt l v x) (hx : l x = q) : HasDerivAt (fun x => G (l x) w) (D v w) x := by
  subst hx
  have h3 : HasDerivAt (fun x => G (l x)) (D v) x := h.comp_hasDerivAt x hl
  have h4 := h3.clm_apply (hasDerivAt_const x w)
  simpa using h4

section partials
variable {u : ℝ → ℝ → ℂ} (hu : ContDiff ℝ (⊤ : ℕ∞) fun q : ℝ × ℝ => u q.1 q.2)
include hu

theorem dz_hasDerivAt (z t : ℝ) : HasDerivAt (fun z => u z t) (fderiv ℝ (fun q : ℝ × ℝ => u q.1 q.2) (z, t) (1, 0)) z := by
  have h1 : HasFDerivAt (fun q : ℝ × ℝ => u q.1 q.2) (fderiv ℝ (fun q : ℝ × ℝ => u q.1 q.2) (z, t)) (z, t) := (hu.differentiable (by simp) (z, t)).hasFDerivAt
  have h2 : HasDerivAt (fun z : ℝ => (z, t)) ((1 : ℝ), (0 : ℝ)) z := (hasDerivAt_id z).prodMk (hasDerivAt_const z t)
  exact h1.comp_hasDerivAt z h2

theorem dt_hasDerivAt (z t : ℝ) : HasDerivAt (u z) (fderiv ℝ (fun q : ℝ × ℝ => u q.1 q.2) (z, t) (0, 1)) t := by
  have h1 : HasFDerivAt (fun q : ℝ × ℝ => u q.1 q.2) (fderiv ℝ (fun q : ℝ × ℝ => u q.1 q.2) (z, t)) (z, t) := (hu.differentiable (by simp) (z, t)).hasFDerivAt
  have h2 : HasDerivAt (fun t : ℝ => (z, t)) ((0 : ℝ), (1 : ℝ)) t := (hasDerivAt_const t z).prodMk (hasDerivAt_id t)
  exact h1.comp_hasDerivAt t h2

theorem contDiff_dz : ContDiff ℝ (⊤ : ℕ∞) fun q : ℝ × ℝ => dz u q.1 q.2 := by
  have : (fun q : ℝ × ℝ => dz u q.1 q.2) = fun q => fderiv ℝ (fun q : ℝ × ℝ => u q.1 q.2) q (1, 0) := by
    funext q
    exact (dz_hasDerivAt hu q.1 q.2).deriv
  rw [this]
  exact (hu.fderiv_right (m := (⊤ : ℕ∞)) (by norm_cast)).clm_apply contDiff_const

theorem contDiff_dt : ContDiff ℝ (⊤ : ℕ∞) fun q : ℝ × ℝ => dt u q.1 q.2 := by
  have : (fun q : ℝ × ℝ => dt u q.1 q.2) = fun q => fderiv ℝ (fun q : ℝ × ℝ => u q.1 q.2) q (0, 1) := by
    funext q
    exact (dt_hasDerivAt hu q.1 q.2).deriv
  rw [this]
  exact (hu.fderiv_right (m := (⊤ : ℕ∞)) (by norm_cast)).clm_apply contDiff_const

theorem dz_dt (z t : ℝ) : dz (dt u) z t = dt (dz u) z t := by
  have hD : ContDiff ℝ (⊤ : ℕ∞) (fderiv ℝ fun q : ℝ × ℝ => u q.1 q.2) := hu.fderiv_right (m := (⊤ : ℕ∞)) (by norm_cast)
  have hDd := (hD.differentiable (by simp) (z, t)).hasFDerivAt
  have hs : IsSymmSndFDerivAt ℝ (fun q : ℝ × ℝ => u q.1 q.2) (z, t) := hu.contDiffAt.isSymmSndFDerivAt (by simp; norm_cast)
  have e1 : dz (dt u) z t = fderiv ℝ (fderiv ℝ fun q : ℝ × ℝ => u q.1 q.2) (z, t) (1, 0) (0, 1) := by
    have h1 : (fun z => dt u z t) = fun z => fderiv ℝ (fun q : ℝ × ℝ => u q.1 q.2) (z, t) (0, 1) := by
      funext z
      exact (dt_hasDerivAt hu z t).deriv
    unfold dz
    rw [h1]
    exact (line_apply hDd (0, 1) ((hasDerivAt_id z).prodMk (hasDerivAt_const z t)) rfl).deriv
  have e2 : dt (dz u) z t = fderiv ℝ (fderiv ℝ fun q : ℝ × ℝ => u q.1 q.2) (z, t) (0, 1) (1, 0) := by
    have h1 : dz u z = fun t => fderiv ℝ (fun q : ℝ × ℝ => u q.1 q.2) (z, t) (1, 0) := by
      funext t
      exact (dz_hasDerivAt hu z t).deriv
    unfold dt
    rw [h1]
    exact (line_apply hDd (1, 0) ((hasDerivAt_const t z).prodMk (hasDerivAt_id t)) rfl).deriv
  rw [e1, e2]
  exact hs (1, 0) (0, 1)

/-- differentiation under the integral -/
theorem integral_hasDerivAt (T z : ℝ) : HasDerivAt (fun z => ∫ t in (0 : ℝ)..T, u z t) (∫ t in (0 : ℝ)..T, dz u z t) z := by
  have hcc : Continuous fun q : ℝ × ℝ => dz u q.1 q.2 := (contDiff_dz hu).continuous
  have hc : ∀ z, Continuous (u z) := fun z => (slice_contDiff hu z).continuous
  have hc' : ∀ z, Continuous (dz u z) := fun z => (slice_contDiff (contDiff_dz hu) z).continuous
  obtain ⟨B, hB⟩ := (isCompact_Icc (a := z - 1) (b := z + 1)).prod (isCompact_uIcc (a := (0 : ℝ)) (b := T)) |>.exists_bound_of_continuousOn hcc.continuousOn
  refine (intervalIntegral.hasDerivAt_integral_of_dominated_loc_of_deriv_le (F := u) (F' := dz u)
    (bound := fun _ => B) (s := Icc (z - 1) (z + 1)) (Icc_mem_nhds (by linarith) (by linarith)) ?_ ?_ ?_ ?_ ?_ ?_).2
  · exact Filter.Eventually.of_forall fun x => (hc x).aestronglyMeasurable
  · exact (hc z).intervalIntegrable _ _
  · exact (hc' z).aestronglyMeasurable
  · exact Filter.Eventually.of_forall fun s hs x hx => hB (x, s) ⟨hx, uIoc_subset_uIcc hs⟩
  · exact intervalIntegrable_const
  · refine Filter.Eventually.of_forall fun s _ x _ => ?_
    exact (dz_hasDerivAt hu x s).differentiableAt.hasDerivAt

end partials

/-! ## Integration by parts on a period -/

/-- `∫ conj(f)·g` -/
noncomputable def ip (T : ℝ) (f g : ℝ → ℂ) : ℂ := ∫ t in (0 : ℝ)..T, (starRingEnd ℂ) (f t) * g t

theorem ip_conj (T : ℝ) (f g : ℝ → ℂ) : (starRingEnd ℂ) (ip T f g) = ip T g f := by
  unfold ip
  rw [intervalIntegral.intervalIntegral_eq_integral_uIoc, intervalIntegral.intervalIntegral_eq_integral_uIoc]
  rw [Complex.real_smul, Complex.real_smul, map_mul, Complex.conj_ofReal, ← integral_conj]
  congr 1
  refine integral_congr_ae (Filter.Eventually.of_forall fun t => ?_)
  simp only [map_mul, Complex.conj_conj]
  ring

theorem hasDerivAt_conj {f : ℝ → ℂ} {f' : ℂ} {t : ℝ} (h : HasDerivAt f f' t) : HasDerivAt (fun t => (starRingEnd ℂ) (f t)) ((starRingEnd ℂ) f') t := by
  exact h.star

theorem contDiff_conj {E : Type*} [NormedAddCommGroup E] [NormedSpace ℝ E] {f : E → ℂ} (h : ContDiff ℝ (⊤ : ℕ∞) f) :
    ContDiff ℝ (⊤ : ℕ∞) fun t => (starRingEnd ℂ) (f t) :=
  Complex.conjCLE.contDiff.comp h

theorem continuous_conj {f : ℝ → ℂ} (h : Continuous f) : Continuous fun t => (starRingEnd ℂ) (f t) := Complex.continuous_conj.comp h

/-- `∫ conj(f)·i·g' = ∫ conj(i·f')·g` for periodic `f`, `g` -/
theorem ip_parts {f g : ℝ → ℂ} (hf : ContDiff ℝ (⊤ : ℕ∞) f) (hg : ContDiff ℝ (⊤ : ℕ∞) g) (pf : Function.Periodic f T) (pg : Function.Periodic g T) :
    ip T f (fun t => I * deriv g t) = ip T (fun t => I * deriv f t) g := by
  have hf' : ∀ t, HasDerivAt f (deriv f t) t := fun t => (hf.differentiable (by simp) t).hasDerivAt
  have hg' : ∀ t, HasDerivAt g (deriv g t) t := fun t => (hg.differentiable (by simp) t).hasDerivAt
  have cf : Continuous (deriv f) := hf.continuous_deriv (by exact_mod_cast le_top)
  have cg : Continuous (deriv g) := hg.continuous_deriv (by exact_mod_cast le_top)
  have h := intervalIntegral.integral_mul_deriv_eq_deriv_mul (a := 0) (b := T) (fun t _ => hasDerivAt_conj (hf' t)) (fun t _ => hg' t)
    ((continuous_conj cf).intervalIntegrable _ _) (cg.intervalIntegrable _ _)
  have e0 : f T = f 0 := by simpa using pf 0
  have e1 : g T = g 0 := by simpa using pg 0
  rw [e0, e1, sub_self, zero_sub] at h
  unfold ip
  have a1 : (fun t => (starRingEnd ℂ) (f t) * (I * deriv g t)) = fun t => I * ((starRingEnd ℂ) (f t) * deriv g t) := by
    funext t
    ring
  have a2 : (fun t => (starRingEnd ℂ) (I * deriv f t) * g t) = fun t => -I * ((starRingEnd ℂ) (deriv f t) * g t) := by
    funext t
    rw [map_mul, Complex.conj_I]
    ring
  rw [a1, a2, intervalIntegral.integral_const_mul, intervalIntegral.integral_const_mul, h]
  ring

theorem periodic_deriv {f : ℝ → ℂ} (pf : Function.Periodic f T) : Function.Periodic (deriv f) T := by
  have := Series.periodic_iteratedDeriv pf 1
  rwa [iteratedDeriv_one] at this

theorem iter_succ (f : ℝ → ℂ) (m : ℕ) : (fun t => I ^ (m + 1) * iteratedDeriv (m + 1) f t) = fun t => I * deriv (fun t => I ^ m * iteratedDeriv m f t) t := by
  funext t
  rw [iteratedDeriv_succ]
  rw [show deriv (fun t => I ^ m * iteratedDeriv m f t) t = I ^ m * deriv (iteratedDeriv m f) t from deriv_const_mul_field _]
  ring

/-- `∫ conj(f)·(i∂)ᵐ g = ∫ conj((i∂)ᵐ f)·g` -/
theorem ip_iterate {f g : ℝ → ℂ} (hf : ContDiff ℝ (⊤ : ℕ∞) f) (hg : ContDiff ℝ (⊤ : ℕ∞) g) (pf : Function.Periodic f T) (pg : Function.Periodic g T) (m : ℕ) :
    ip T f (fun t => I ^ m * iteratedDeriv m g t) = ip T (fun t => I ^ m * iteratedDeriv m f t) g := by
  induction m generalizing f with
  | zero => simp
  | succ m ih =>
    have c : ∀ {f : ℝ → ℂ}, ContDiff ℝ (⊤ : ℕ∞) f → ∀ m, ContDiff ℝ (⊤ : ℕ∞) fun t => I ^ m * iteratedDeriv m f t := fun hf m =>
      contDiff_const.mul (Series.contDiff_iteratedDeriv hf m)
    have p : ∀ {f : ℝ → ℂ}, Function.Periodic f T → ∀ m, Function.Periodic (fun t => I ^ m * iteratedDeriv m f t) T := fun pf m t => by
      show I ^ m * iteratedDeriv m _ (t + T) = _
      rw [Series.periodic_iteratedDeriv pf m t]
    rw [iter_succ, ip_parts hf (c hg m) pf (p pg m)]
    have d1 : ContDiff ℝ (⊤ : ℕ∞) fun t => I * deriv f t := by simpa using c hf 1
    have d2 : Function.Periodic (fun t => I * deriv f t) T := by simpa using p pf 1
    rw [ih d1 d2]
    congr 1
    funext t
    rw [iteratedDeriv_succ']
    have : iteratedDeriv m (fun t => I * deriv f t) t = I * iteratedDeriv m (deriv f) t := by
      rw [iteratedDeriv_const_mul_field]
    rw [this]
    ring

theorem cmul {f g : ℝ → ℂ} (hf : Continuous f) (hg : Continuous g) : Continuous fun t => f t * g t := hf.mul hg

theorem cadd {f g : ℝ → ℂ} (hf : Continuous f) (hg : Continuous g) : Continuous fun t => f t + g t := hf.add hg

theorem cconst (c : ℂ) {f : ℝ → ℂ} (hf : Continuous f) : Continuous fun t => c * f t := continuous_const.mul hf

theorem ip_add {f g h : ℝ → ℂ} (hf : Continuous f) (hg : Continuous g) (hh : Continuous h) : ip T f (fun t => g t + h t) = ip T f g + ip T f h := by
  unfold ip
  simp only [mul_add]
  exact intervalIntegral.integral_add ((cmul (continuous_conj hf) hg).intervalIntegrable _ _) ((cmul (continuous_conj hf) hh).intervalIntegrable _ _)

theorem ip_const (f g : ℝ → ℂ) (c : ℂ) : ip T f (fun t => c * g t) = c * ip T f g := by
  unfold ip
  rw [← intervalIntegral.integral_const_mul]
  congr 1
  funext t
  ring

theorem ip_sum {f : ℝ → ℂ} (hf : Continuous f) (s : Finset ℕ) {g : ℕ → ℝ → ℂ} (hg : ∀ m, Continuous (g m)) :
    ip T f (fun t => ∑ m ∈ s, g m t) = ∑ m ∈ s, ip T f (g m) := by
  unfold ip
  simp only [Finset.mul_sum]
  exact intervalIntegral.integral_finset_sum fun m _ => (cmul (continuous_conj hf) (hg m)).intervalIntegrable _ _

theorem continuous_dispersion {f : ℝ → ℂ} (hf : ContDiff ℝ (⊤ : ℕ∞) f) (b : ℝ[X]) : Continuous (dispersion b f) := by
  unfold dispersion Polynomial.sum
  exact continuous_finset_sum _ fun m _ => continuous_const.mul (Series.contDiff_iteratedDeriv hf m).continuous

/-- dispersion of every order takes no energy … -/
theorem dispersion_energy {f : ℝ → ℂ} (hf : ContDiff ℝ (⊤ : ℕ∞) f) (pf : Function.Periodic f T) (b : ℝ[X]) : (ip T f (dispersion b f)).re = 0 := by
  have e : dispersion b f = fun t => ∑ m ∈ b.support, I * (b.coeff m : ℂ) * (I ^ m * iteratedDeriv m f t) := by
    funext t
    unfold dispersion Polynomial.sum
    exact Finset.sum_congr rfl fun m _ => by ring
  rw [e, ip_sum hf.continuous _ fun m => cconst (I * (b.coeff m : ℂ)) (cconst (I ^ m) (Series.contDiff_iteratedDeriv hf m).continuous), Complex.re_sum]
  refine Finset.sum_eq_zero fun m _ => ?_
  rw [ip_const]
  have h : (starRingEnd ℂ) (ip T f fun t => I ^ m * iteratedDeriv m f t) = ip T f fun t => I ^ m * iteratedDeriv m f t := by
    rw [ip_conj, ← ip_iterate hf hf pf pf m]
  rw [mul_assoc, Complex.I_mul_re, Complex.im_ofReal_mul, Complex.conj_eq_iff_im.1 h]
  simp

/-- … and no momentum. -/
theorem dispersion_momentum {f : ℝ → ℂ} (hf : ContDiff ℝ (⊤ : ℕ∞) f) (pf : Function.Periodic f T) (b : ℝ[X]) :
    (ip T (fun t => I * deriv f t) (dispersion b f)).re = 0 := by
  have hd : ContDiff ℝ (⊤ : ℕ∞) (deriv f) := by
    have := Series.contDiff_iteratedDeriv hf 1
    rwa [iteratedDeriv_one] at this
  have e : dispersion b f = fun t => ∑ m ∈ b.support, I * (b.coeff m : ℂ) * (I ^ m * iteratedDeriv m f t) := by
    funext t
    unfold dispersion Polynomial.sum
    exact Finset.sum_congr rfl fun m _ => by ring
  rw [e, ip_sum (cconst I hd.continuous) _ fun m => cconst (I * (b.coeff m : ℂ)) (cconst (I ^ m) (Series.contDiff_iteratedDeriv hf m).continuous), Complex.re_sum]
  refine Finset.sum_eq_zero fun m _ => ?_
  rw [ip_const]
  have h0 : ip T (fun t => I * deriv f t) (fun t => I ^ m * iteratedDeriv m f t) = ip T f fun t => I ^ (m + 1) * iteratedDeriv (m + 1) f t := by
    rw [iter_succ, ip_parts hf (contDiff_const.mul (Series.contDiff_iteratedDeriv hf m)) pf]
    intro t
    show I ^ m * iteratedDeriv m _ (t + T) = _
    rw [Series.periodic_iteratedDeriv pf m t]
  have h : (starRingEnd ℂ) (ip T f fun t => I ^ (m + 1) * iteratedDeriv (m + 1) f t) = ip T f fun t => I ^ (m + 1) * iteratedDeriv (m + 1) f t := by
    rw [ip_conj, ← ip_iterate hf hf pf pf (m + 1)]
  rw [h0, mul_assoc, Complex.I_mul_re, Complex.im_ofReal_mul, Complex.conj_eq_iff_im.1 h]
  simp

theorem re_integral {f : ℝ → ℂ} (hf : Continuous f) (T : ℝ) : (∫ t in (0 : ℝ)..T, f t).re = ∫ t in (0 : ℝ)..T, (f t).re :=
  (Complex.reCLM.intervalIntegral_comp_comm (hf.intervalIntegrable _ _)).symm

theorem energy_eq {f : ℝ → ℂ} (hf : Continuous f) : energy T f = (ip T f f).re := by
  unfold energy ip
  rw [re_integral (cmul (continuous_conj hf) hf)]
  congr 1
  funext t
  rw [mul_comm, Complex.mul_conj, Complex.normSq_eq_norm_sq]
  exact (Complex.ofReal_re _).symm

theorem momentum_eq {f : ℝ → ℂ} (hf : ContDiff ℝ (⊤ : ℕ∞) f) : momentum T f = (ip T f fun t => I * deriv f t).re := by
  have cf : Continuous (deriv f) := hf.continuous_deriv (by exact_mod_cast le_top)
  unfold momentum ip
  rw [re_integral (cmul (continuous_conj hf.continuous) (cconst I cf))]

section law
variable {u : ℝ → ℝ → ℂ} (hu : ContDiff ℝ (⊤ : ℕ∞) fun q : ℝ × ℝ => u q.1 q.2) (hp : ∀ z, Function.Periodic (u z) T) {z : ℝ} {b : ℝ[X]} {g γ : ℝ} {q : ℝ → ℝ}
include hu

theorem ip_hasDerivAt {v : ℝ → ℝ → ℂ} (hv : ContDiff ℝ (⊤ : ℕ∞) fun q : ℝ × ℝ => v q.1 q.2) (z : ℝ) :
    HasDerivAt (fun z => ip T (u z) (v z)) (ip T (dz u z) (v z) + ip T (u z) (dz v z)) z := by
  have h := integral_hasDerivAt (u := fun z t => (starRingEnd ℂ) (u z t) * v z t) ((contDiff_conj hu).mul hv) T z
  refine h.congr_deriv ?_
  have c1 := (slice_contDiff hu z).continuous
  have c2 := (slice_contDiff hv z).continuous
  have c3 := (slice_contDiff (contDiff_dz hu) z).continuous
  have c4 := (slice_contDiff (contDiff_dz hv) z).continuous
  unfold ip
  rw [← intervalIntegral.integral_add ((cmul (continuous_conj c3) c2).intervalIntegrable _ _) ((cmul (continuous_conj c1) c4).intervalIntegrable _ _)]
  congr 1
  funext t
  exact ((hasDerivAt_conj (dz_hasDerivAt hu z t).differentiableAt.hasDerivAt).mul (dz_hasDerivAt hv z t).differentiableAt.hasDerivAt).deriv

include hp

omit hu in
theorem dz_periodic (z : ℝ) : Function.Periodic (dz u z) T := fun t => by
  unfold dz
  simp only [hp _ t]

/-- Energy grows with the gain alone. -/
theorem energy_law (hq : Continuous q) (he : ∀ t, dz u z t = dispersion b (u z) t + g / 2 * u z t + I * γ * u z t * (q t : ℝ)) :
    HasDerivAt (fun z => energy T (u z)) (g * energy T (u z)) z := by
  have hs := slice_contDiff hu z
  have e0 : (fun z => energy T (u z)) = fun z => (ip T (u z) (u z)).re := funext fun z => energy_eq (slice_contDiff hu z).continuous
  rw [e0, energy_eq hs.continuous]
  have h := (ip_hasDerivAt (T := T) hu hu z)
  have h2 := (Complex.reCLM.hasFDerivAt (x := ip T (u z) (u z))).comp_hasDerivAt z h
  refine h2.congr_deriv ?_
  show (ip T (dz u z) (u z) + ip T (u z) (dz u z)).re = _
  rw [← ip_conj T (u z) (dz u z), Complex.add_re, Complex.conj_re]
  have e1 : dz u z = fun t => (dispersion b (u z) t + g / 2 * u z t) + I * γ * (u z t * (q t : ℝ)) := by
    funext t
    rw [he t]
    ring
  have cq : Continuous fun t => u z t * ((q t : ℝ) : ℂ) := hs.continuous.mul (Complex.continuous_ofReal.comp hq)
  have e2 : (ip T (u z) (dz u z)).re = g / 2 * (ip T (u z) (u z)).re := by
    rw [e1, ip_add hs.continuous (cadd (continuous_dispersion hs b) (cconst (g / 2) hs.continuous)) (cconst (I * γ) cq),
      ip_add hs.continuous (continuous_dispersion hs b) (cconst (g / 2) hs.continuous), ip_const, ip_const, Complex.add_re, Complex.add_re,
      dispersion_energy hs (hp z)]
    have e3 : (starRingEnd ℂ) (ip T (u z) fun t => u z t * ((q t : ℝ) : ℂ)) = ip T (u z) fun t => u z t * ((q t : ℝ) : ℂ) := by
      rw [ip_conj]
      unfold ip
      congr 1
      funext t
      rw [map_mul, Complex.conj_ofReal]
      ring
    have e4 : (I * γ * ip T (u z) fun t => u z t * ((q t : ℝ) : ℂ)).re = 0 := by
      rw [mul_assoc, Complex.I_mul_re, Complex.im_ofReal_mul, Complex.conj_eq_iff_im.1 e3]
      simp
    rw [e4, show (g / 2 : ℂ) = ((g / 2 : ℝ) : ℂ) by push_cast; rfl, Complex.re_ofReal_mul]
    ring
  rw [e2]
  ring

/-- Momentum grows with the gain and changes by the time derivative of the response. -/
theorem momentum_law (hq : ContDiff ℝ (⊤ : ℕ∞) q) (pq : Function.Periodic q T)
    (he : ∀ t, dz u z t = dispersion b (u z) t + g / 2 * u z t + I * γ * u z t * (q t : ℝ)) :
    HasDerivAt (fun z => momentum T (u z)) (g * momentum T (u z) - γ * ∫ t in (0 : ℝ)..T, ‖u z t‖ ^ 2 * deriv q t) z := by
  have hs := slice_contDiff hu z
  have e0 : (fun z => momentum T (u z)) = fun z => (ip T (u z) fun t => I * dt u z t).re := funext fun z => momentum_eq (slice_contDiff hu z)
  rw [e0, momentum_eq hs]
  have hd := contDiff_dt hu
  have hv : ContDiff ℝ (⊤ : ℕ∞) fun q : ℝ × ℝ => (fun z t => I * dt u z t) q.1 q.2 := contDiff_const.mul hd
  have h := ip_hasDerivAt (T := T) hu (v := fun z t => I * dt u z t) hv z
  have h2 := (Complex.reCLM.hasFDerivAt (x := ip T (u z) fun t => I * dt u z t)).comp_hasDerivAt z h
  refine h2.congr_deriv ?_
  set P : ℝ → ℂ := fun t => I * deriv (u z) t with hP
  have cP : Continuous P := continuous_const.mul (hs.continuous_deriv (by exact_mod_cast le_top))
  show (ip T (dz u z) P + ip T (u z) (dz (fun z t => I * dt u z t) z)).re = _
  have e1 : dz (fun z t => I * dt u z t) z = fun t => I * deriv (dz u z) t := by
    funext t
    have : dz (fun z t => I * dt u z t) z t = I * dz (dt u) z t := deriv_const_mul_field _
    rw [this, dz_dt hu]
    rfl
  rw [e1, ip_parts hs (slice_contDiff (contDiff_dz hu) z) (hp z) (dz_periodic hp z), ← ip_conj T P (dz u z), Complex.add_re, Complex.conj_re]
  have e2 : dz u z = fun t => (dispersion b (u z) t + g / 2 * u z t) + I * γ * (u z t * (q t : ℝ)) := by
    funext t
    rw [he t]
    ring
  have cq : Continuous fun t => u z t * ((q t : ℝ) : ℂ) := hs.continuous.mul (Complex.continuous_ofReal.comp hq.continuous)
  have e3 : (ip T P (dz u z)).re = g / 2 * (ip T (u z) P).re + (I * γ * ip T P fun t => u z t * ((q t : ℝ) : ℂ)).re := by
    rw [e2, ip_add cP (cadd (continuous_dispersion hs b) (cconst (g / 2) hs.continuous)) (cconst (I * γ) cq),
      ip_add cP (continuous_dispersion hs b) (cconst (g / 2) hs.continuous), ip_const, ip_const, Complex.add_re, Complex.add_re,
      dispersion_momentum hs (hp z), show (g / 2 : ℂ) = ((g / 2 : ℝ) : ℂ) by push_cast; rfl, Complex.re_ofReal_mul, ← ip_conj T (u z) P, Complex.conj_re, zero_add]
  have e4 : 2 * (I * γ * ip T P fun t => u z t * ((q t : ℝ) : ℂ)).re = -(γ * ∫ t in (0 : ℝ)..T, ‖u z t‖ ^ 2 * deriv q t) := by
    have hq' : ∀ t, HasDerivAt q (deriv q t) t := fun t => (hq.differentiable (by simp) t).hasDerivAt
    have hu' : ∀ t, HasDerivAt (u z) (deriv (u z) t) t := fun t => (hs.differentiable (by simp) t).hasDerivAt
    have hn : ∀ t, HasDerivAt (fun t => ‖u z t‖ ^ 2) (2 * ((starRingEnd ℂ) (deriv (u z) t) * u z t).re) t := by
      intro t
      have := (hu' t).norm_sq
      rw [real_inner_comm, Complex.inner, mul_comm (u z t)] at this
      exact this
    have cu' : Continuous (deriv (u z)) := hs.continuous_deriv (by exact_mod_cast le_top)
    have cn : Continuous fun t => 2 * ((starRingEnd ℂ) (deriv (u z) t) * u z t).re :=
      continuous_const.mul (Complex.continuous_re.comp ((continuous_conj cu').mul hs.continuous))
    have hpart := intervalIntegral.integral_mul_deriv_eq_deriv_mul (a := 0) (b := T) (fun t _ => hn t) (fun t _ => hq' t)
      (cn.intervalIntegrable _ _) ((hq.continuous_deriv (by exact_mod_cast le_top)).intervalIntegrable _ _)
    have q0 : q T = q 0 := by simpa using pq 0
    have u0 : u z T = u z 0 := by simpa using hp z 0
    rw [q0, u0, sub_self, zero_sub] at hpart
    rw [hpart]
    have e5 : (I * γ * ip T P fun t => u z t * ((q t : ℝ) : ℂ)) = ip T P fun t => I * γ * (u z t * ((q t : ℝ) : ℂ)) := (ip_const _ _ _).symm
    rw [e5]
    unfold ip
    rw [re_integral (cmul (continuous_conj cP) (cconst (I * γ) cq)), ← intervalIntegral.integral_const_mul, mul_neg, neg_neg, ← intervalIntegral.integral_const_mul]
    congr 1
    funext t
    have : (starRingEnd ℂ) (P t) * (I * γ * (u z t * ((q t : ℝ) : ℂ))) = ((γ * q t : ℝ) : ℂ) * ((starRingEnd ℂ) (deriv (u z) t) * u z t) := by
      rw [hP]
      simp only [map_mul, Complex.conj_I]
      push_cast
      linear_combination (-(γ * q t * ((starRingEnd ℂ) (deriv (u z) t) * u z t))) * Complex.I_sq
    rw [this, Complex.re_ofReal_mul]
    ring
  rw [e3]
  linarith

end law

end PyNLO.Nlse
