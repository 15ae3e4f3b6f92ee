import Verif.Props.DfgDetuned
import Verif.Props.DfgPeriod
import Mathlib.Analysis.Calculus.Deriv.Star

/-!
# C175: parametric gain in a poled crystal

A pump and a signal enter a periodically poled waveguide crystal whose period holds the phase of the mismatch a whole number of times.  The
sign of the domains times the phase of the mismatch then has a mean, and the waves grow as in a phase-matched crystal with the gain times
this mean, up to errors of the gain within one period and of the depletion of the pump.
-/

open scoped BigOperators
open Set

namespace PyNLO.Spec

/-- Bound of the growth of a signal for the share `μ` of the gain `g` that is left on average, the gain `ε` within one period and the ratio `r` of
signal photons to pump photons at the entrance. -/
noncomputable def poledGrowth (ε r μ g : ℝ) : ℝ := Real.exp ((μ + ε * (1 + r)) / (1 - ε) * g) / (1 - ε)

/-- Bound of the distance from the growth with the mean of the gain. -/
noncomputable def poledError (ε r μ g : ℝ) : ℝ :=
  (ε * poledGrowth ε r μ g * (1 + (1 + r) * g) + μ * r * g ^ 2 / 4 * poledGrowth ε r μ g ^ 3) * Real.exp (μ * g)

/-- The share of the gain that is left where the poling period holds the phase of the mismatch `n` times. -/
noncomputable def poledShare (n : ℤ) : ℝ := if Odd n then 2 / (Real.pi * |(n : ℝ)|) else 0

end PyNLO.Spec

namespace PyNLO.Dfg

open Beam

variable {N : ℕ} {q : Prob N} {squm : ℝ} {Γ Δ : ℝ} {E : Set ℝ} {a b c : ℝ → ℂ}

/-! ## Averaging -/

theorem grating_continuous (q : Prob N) (Δ : ℝ) : Continuous (q.grating Δ) :=
  intervalIntegral.continuous_primitive (fun a b => grating_integrable q Δ a b) 0

theorem grating_hasDerivAt (Δ : ℝ) {z : ℝ} (hz : z ∈ Ioo 0 q.len) (hw : z ∉ q.walls) :
    HasDerivAt (q.grating Δ) (((q.sign z : ℝ) : ℂ) * Complex.exp (Complex.I * ((Δ * z : ℝ) : ℂ))) z := by
  refine intervalIntegral.integral_hasDerivAt_right (grating_integrable q Δ 0 z) ?_ ?_
  · refine Measurable.stronglyMeasurable ?_ |>.stronglyMeasurableAtFilter
    exact (Complex.measurable_ofReal.comp (sign_measurable q)).mul (continuous_phase Δ).measurable
  · exact (Complex.continuous_ofReal.continuousAt.comp (sign_continuousAt hz hw)).mul (continuous_phase Δ).continuousAt

/-- A wave driven through the domains is close to one driven by their mean, if the drive changes slowly. -/
theorem averaged {f h : ℝ → ℂ} {K m0 : ℂ} {Q : ℝ} (hE : E.Countable) (cb : ContinuousOn b (Icc 0 q.len)) (cf : ContinuousOn f (Icc 0 q.len))
    (ch : ContinuousOn h (Icc 0 q.len))
    (db : ∀ t ∈ Ioo 0 q.len \ E, HasDerivAt b (((q.sign t : ℝ) : ℂ) * (K * f t * Complex.exp (Complex.I * ((-Δ * t : ℝ) : ℂ)))) t)
    (df : ∀ t ∈ Ioo 0 q.len \ E, HasDerivAt f (((q.sign t : ℝ) : ℂ) * h t) t)
    (hA : ∀ t ∈ Icc 0 q.len, ‖q.grating (-Δ) t - m0 * t‖ ≤ Q) {z : ℝ} (hz : z ∈ Icc 0 q.len) :
    ‖b z - b 0 - ∫ t in (0)..z, K * m0 * f t‖ ≤ ‖K‖ * Q * (‖f z‖ + ∫ t in (0)..z, ‖h t‖) := by
  have sub : Icc 0 z ⊆ Icc 0 q.len := Icc_subset_Icc_right hz.2
  set A : ℝ → ℂ := fun t => q.grating (-Δ) t - m0 * t with hAd
  have cA : Continuous A := (grating_continuous q _).sub (by fun_prop)
  have hA0 : A 0 = 0 := by simp [hAd, Prob.grating]
  have hE' : (E ∪ (q.walls : Set ℝ)).Countable := hE.union q.walls.countable_toSet
  have i1 : IntervalIntegrable (fun t => K * m0 * f t) MeasureTheory.volume 0 z :=
    ContinuousOn.intervalIntegrable (by rw [uIcc_of_le hz.1]; exact continuousOn_const.mul (cf.mono sub))
  have i2 : IntervalIntegrable (fun t => ((q.sign t : ℝ) : ℂ) * (K * A t * h t)) MeasureTheory.volume 0 z :=
    sign_mul_integrable q hz.1 ((continuousOn_const.mul cA.continuousOn).mul (ch.mono sub))
  have key := MeasureTheory.integral_eq_of_hasDerivAt_off_countable_of_le (fun t => b t - K * A t * f t)
    (fun t => K * m0 * f t - ((q.sign t : ℝ) : ℂ) * (K * A t * h t)) hz.1 hE'
    ((cb.mono sub).sub ((continuousOn_const.mul cA.continuousOn).mul (cf.mono sub))) (fun t ht => ?_) (i1.sub i2)
  · rw [intervalIntegral.integral_sub i1 i2, hA0] at key
    have e : b z - b 0 - ∫ t in (0)..z, K * m0 * f t = K * A z * f z - ∫ t in (0)..z, ((q.sign t : ℝ) : ℂ) * (K * A t * h t) := by
      linear_combination -key
    rw [e]
    refine (norm_sub_le _ _).trans ?_
    rw [mul_add]
    refine add_le_add ?_ ?_
    · rw [norm_mul, norm_mul]
      exact mul_le_mul_of_nonneg_right (mul_le_mul_of_nonneg_left (hA z hz) (norm_nonneg _)) (norm_nonneg _)
    · rw [← intervalIntegral.integral_const_mul]
      refine intervalIntegral.norm_integral_le_of_norm_le hz.1 (Filter.Eventually.of_forall fun t ht => ?_) ?_
      · rw [norm_mul, norm_sign, one_mul, norm_mul, norm_mul]
        exact mul_le_mul_of_nonneg_right (mul_le_mul_of_nonneg_left (hA t (sub ⟨ht.1.le, ht.2⟩)) (norm_nonneg _)) (norm_nonneg _)
      · exact ContinuousOn.intervalIntegrable (by rw [uIcc_of_le hz.1]; exact continuousOn_const.mul (ch.mono sub).norm)
  · have ht' : t ∈ Ioo 0 q.len := ⟨ht.1.1, ht.1.2.trans_le hz.2⟩
    have h1 : t ∉ E := fun h => ht.2 (Or.inl h)
    have h2 : t ∉ q.walls := fun h => ht.2 (Or.inr h)
    have dA : HasDerivAt A (((q.sign t : ℝ) : ℂ) * Complex.exp (Complex.I * ((-Δ * t : ℝ) : ℂ)) - m0) t := by
      refine (grating_hasDerivAt (-Δ) ht' h2).sub ?_
      simpa using ((hasDerivAt_id t).ofReal_comp).const_mul m0
    refine ((db t ⟨ht', h1⟩).sub ((dA.const_mul K).mul (df t ⟨ht', h1⟩))).congr_deriv ?_
    ring

/-- Signal and idler against the mean of the grating. -/
theorem Photons.averaged (P : Photons q Γ Δ E a b c) (h0 : c 0 = 0) {m0 : ℂ} {Q : ℝ} (hQ : 0 ≤ Q) (hA : ∀ t ∈ Icc 0 q.len, ‖q.grating (-Δ) t - m0 * t‖ ≤ Q) {z : ℝ}
    (hz : z ∈ Icc 0 q.len) :
    ‖b z - b 0 - ∫ t in (0)..z, Complex.I * (Γ : ℂ) * m0 * (a t * (starRingEnd ℂ) (c t))‖ + ‖c z - ∫ t in (0)..z, Complex.I * (Γ : ℂ) * m0 * (a t * (starRingEnd ℂ) (b t))‖ ≤
      |Γ| * Q * (‖a 0‖ * (‖b z‖ + ‖c z‖) + |Γ| * (‖a 0‖ ^ 2 + ‖b 0‖ ^ 2) * ∫ t in (0)..z, (‖b t‖ + ‖c t‖)) := by
  have sub : Icc 0 z ⊆ Icc 0 q.len := Icc_subset_Icc_right hz.2
  have hK : ‖Complex.I * (Γ : ℂ)‖ = |Γ| := by rw [norm_mul, Complex.norm_I, one_mul, Complex.norm_real, Real.norm_eq_abs]
  have flux : ∀ t ∈ Icc 0 q.len, ‖b t‖ ^ 2 = ‖b 0‖ ^ 2 + ‖c t‖ ^ 2 ∧ ‖a t‖ ^ 2 + ‖c t‖ ^ 2 = ‖a 0‖ ^ 2 := by
    intro t ht
    obtain ⟨f1, f2⟩ := P.fluxes ht
    rw [h0, norm_zero] at f1 f2
    constructor <;> linarith
  have ha : ∀ t ∈ Icc 0 q.len, ‖a t‖ ≤ ‖a 0‖ := fun t ht =>
    (sq_le_sq₀ (norm_nonneg _) (norm_nonneg _)).1 (by nlinarith [sq_nonneg ‖c t‖, (flux t ht).2])
  have conj_c : ∀ {f : ℝ → ℂ}, ContinuousOn f (Icc 0 q.len) → ContinuousOn (fun t => (starRingEnd ℂ) (f t)) (Icc 0 q.len) :=
    fun cf => Complex.continuous_conj.comp_continuousOn cf
  have conj_d : ∀ {f : ℝ → ℂ} {d : ℂ} {t : ℝ}, HasDerivAt f d t → HasDerivAt (fun t => (starRingEnd ℂ) (f t)) ((starRingEnd ℂ) d) t :=
    fun hf => hf.star
  have nsq : ∀ x : ℂ, x * (starRingEnd ℂ) x = ((‖x‖ ^ 2 : ℝ) : ℂ) := fun x => by
    rw [Complex.mul_conj, Complex.normSq_eq_norm_sq]
  -- the products that drive
  have prod : ∀ (f g : ℝ → ℂ), ContinuousOn f (Icc 0 q.len) → ContinuousOn g (Icc 0 q.len) →
      (∀ t ∈ Ioo 0 q.len \ E, HasDerivAt a (((q.sign t : ℝ) : ℂ) * (Complex.I * (Γ : ℂ) * (f t * g t) * Complex.exp (Complex.I * ((Δ * t : ℝ) : ℂ)))) t) →
      (∀ t ∈ Ioo 0 q.len \ E, HasDerivAt f (((q.sign t : ℝ) : ℂ) * (Complex.I * (Γ : ℂ) * (a t * (starRingEnd ℂ) (g t)) *
        Complex.exp (Complex.I * ((-Δ * t : ℝ) : ℂ)))) t) →
      (∀ t ∈ Ioo 0 q.len \ E, HasDerivAt g (((q.sign t : ℝ) : ℂ) * (Complex.I * (Γ : ℂ) * (a t * (starRingEnd ℂ) (f t)) *
        Complex.exp (Complex.I * ((-Δ * t : ℝ) : ℂ)))) t) →
      (∀ t ∈ Icc 0 q.len, ‖g t‖ ^ 2 ≤ ‖a 0‖ ^ 2 + ‖b 0‖ ^ 2) →
      ‖f z - f 0 - ∫ t in (0)..z, Complex.I * (Γ : ℂ) * m0 * (a t * (starRingEnd ℂ) (g t))‖ ≤
        |Γ| * Q * (‖a 0‖ * ‖g z‖ + |Γ| * (‖a 0‖ ^ 2 + ‖b 0‖ ^ 2) * ∫ t in (0)..z, ‖f t‖) := by
    intro f g cf cg da df dg hg
    set h : ℝ → ℂ := fun t => Complex.I * (Γ : ℂ) * Complex.exp (Complex.I * ((Δ * t : ℝ) : ℂ)) * f t * ((‖g t‖ ^ 2 - ‖a t‖ ^ 2 : ℝ) : ℂ) with hh
    have ch : ContinuousOn h (Icc 0 q.len) :=
      ((continuousOn_const.mul (continuous_phase Δ).continuousOn).mul cf).mul
        (Complex.continuous_ofReal.comp_continuousOn ((cg.norm.pow 2).sub (P.cont.1.norm.pow 2)))
    have key := Dfg.averaged (q := q) (b := f) (f := fun t => a t * (starRingEnd ℂ) (g t)) (h := h) (K := Complex.I * (Γ : ℂ)) P.cnt cf (P.cont.1.mul (conj_c cg)) ch df
      (fun t ht => by
        refine ((da t ht).mul (conj_d (dg t ht))).congr_deriv ?_
        rw [hh]
        simp only [map_mul, Complex.conj_ofReal, Complex.conj_I, Complex.conj_conj, conj_exp_phase]
        have e1 := nsq (g t)
        have e2 := nsq (a t)
        rw [neg_neg]
        push_cast at e1 e2 ⊢
        generalize Complex.exp _ = e
        linear_combination (((q.sign t : ℝ) : ℂ) * Complex.I * (Γ : ℂ) * e * f t) * e1 - (((q.sign t : ℝ) : ℂ) * Complex.I * (Γ : ℂ) * e * f t) * e2) hA hz
    refine key.trans ?_
    rw [hK]
    refine mul_le_mul_of_nonneg_left (add_le_add ?_ ?_) (by positivity)
    · rw [norm_mul, RCLike.norm_conj]
      exact mul_le_mul_of_nonneg_right (ha z hz) (norm_nonneg _)
    · rw [← intervalIntegral.integral_const_mul]
      refine intervalIntegral.integral_mono_on hz.1 ?_ ?_ fun t ht => ?_
      · exact ContinuousOn.intervalIntegrable (by rw [uIcc_of_le hz.1]; exact (ch.mono sub).norm)
      · exact ContinuousOn.intervalIntegrable (by rw [uIcc_of_le hz.1]; exact continuousOn_const.mul (cf.mono sub).norm)
      · have ht' := sub ht
        have h1 : |‖g t‖ ^ 2 - ‖a t‖ ^ 2| ≤ ‖a 0‖ ^ 2 + ‖b 0‖ ^ 2 := by
          have := hg t ht'
          have := (flux t ht').2
          rw [abs_le]
          constructor <;> nlinarith [sq_nonneg ‖g t‖, sq_nonneg ‖a t‖, sq_nonneg ‖b 0‖, sq_nonneg ‖c t‖]
        rw [hh]
        simp only []
        rw [norm_mul, norm_mul, norm_mul, hK, norm_phase, mul_one, Complex.norm_real, Real.norm_eq_abs]
        have := mul_le_mul_of_nonneg_left h1 (mul_nonneg (abs_nonneg Γ) (norm_nonneg (f t)))
        linarith
  have hb := prod b c P.cont.2.1 P.cont.2.2 P.da P.db P.dc fun t ht => by nlinarith [(flux t ht).2, sq_nonneg ‖a t‖, sq_nonneg ‖b 0‖]
  have hc := prod c b P.cont.2.2 P.cont.2.1 (fun t ht => (P.da t ht).congr_deriv (by ring)) P.dc P.db fun t ht => by
    nlinarith [(flux t ht).1, (flux t ht).2, sq_nonneg ‖a t‖]
  rw [h0, sub_zero] at hc
  have i1 : ∀ g : ℝ → ℂ, ContinuousOn g (Icc 0 q.len) → IntervalIntegrable (fun x => ‖g x‖) MeasureTheory.volume 0 z := fun g cg =>
    ContinuousOn.intervalIntegrable (by rw [uIcc_of_le hz.1]; exact (cg.mono sub).norm)
  rw [intervalIntegral.integral_add (i1 b P.cont.2.1) (i1 c P.cont.2.2)]
  refine (add_le_add hb hc).trans (le_of_eq ?_)
  ring

/-- The growth is at most that of the mean of the grating, but for the gain within a period. -/
theorem Photons.poled_limit (P : Photons q Γ Δ E a b c) (h0 : c 0 = 0) (ha0 : a 0 ≠ 0) {m0 : ℂ} {Q : ℝ} (hQ : 0 ≤ Q)
    (hA : ∀ t ∈ Icc 0 q.len, ‖q.grating (-Δ) t - m0 * t‖ ≤ Q) (hε : Q * (|Γ| * ‖a 0‖) < 1) {z : ℝ} (hz : z ∈ Icc 0 q.len) :
    ‖b z‖ + ‖c z‖ ≤ ‖b 0‖ * Spec.poledGrowth (Q * (|Γ| * ‖a 0‖)) (‖b 0‖ ^ 2 / ‖a 0‖ ^ 2) ‖m0‖ (|Γ| * ‖a 0‖ * z) := by
  have ha' : 0 < ‖a 0‖ := norm_pos_iff.2 ha0
  set G := |Γ| * ‖a 0‖ with hG
  set r := ‖b 0‖ ^ 2 / ‖a 0‖ ^ 2 with hr
  set ε := Q * G with hεd
  have hG0 : 0 ≤ G := by positivity
  have hε0 : 0 ≤ ε := by positivity
  have hr0 : 0 ≤ r := by positivity
  have h1ε : 0 < 1 - ε := by linarith
  set k := (‖m0‖ + ε * (1 + r)) / (1 - ε) * G with hk
  have hk0 : 0 ≤ k := by positivity
  have hfl : ∀ t ∈ Icc 0 q.len, ‖a t‖ ≤ ‖a 0‖ := by
    intro t ht
    have := (P.fluxes ht).2
    rw [h0, norm_zero] at this
    exact (sq_le_sq₀ (norm_nonneg _) (norm_nonneg _)).1 (by nlinarith [sq_nonneg ‖c t‖])
  have sub : Icc 0 z ⊆ Icc 0 q.len := Icc_subset_Icc_right hz.2
  have key := gronwall_integral (F := fun t => ‖b t‖ + ‖c t‖) (k := k) (A := ‖b 0‖ / (1 - ε)) hk0 hz.1
    ((P.cont.2.1.mono sub).norm.add (P.cont.2.2.mono sub).norm) fun t ht => ?_
  · refine key.trans (le_of_eq ?_)
    rw [Spec.poledGrowth, hk]
    ring_nf
  · have ht' := sub ht
    have subt : Icc 0 t ⊆ Icc 0 q.len := Icc_subset_Icc_right ht'.2
    have hav := P.averaged h0 hQ hA ht'
    have one : ∀ g : ℝ → ℂ, ContinuousOn g (Icc 0 q.len) →
        ‖∫ x in (0)..t, Complex.I * (Γ : ℂ) * m0 * (a x * (starRingEnd ℂ) (g x))‖ ≤ ‖m0‖ * G * ∫ x in (0)..t, ‖g x‖ := by
      intro g cg
      rw [← intervalIntegral.integral_const_mul]
      refine intervalIntegral.norm_integral_le_of_norm_le ht.1 (Filter.Eventually.of_forall fun x hx => ?_) ?_
      · rw [norm_mul, norm_mul, norm_mul, Complex.norm_I, one_mul, Complex.norm_real, Real.norm_eq_abs, norm_mul, RCLike.norm_conj, hG]
        have := mul_le_mul_of_nonneg_right (hfl x (subt ⟨hx.1.le, hx.2⟩)) (norm_nonneg (g x))
        have := mul_le_mul_of_nonneg_left this (mul_nonneg (abs_nonneg Γ) (norm_nonneg m0))
        linarith
      · exact ContinuousOn.intervalIntegrable (by rw [uIcc_of_le ht.1]; exact continuousOn_const.mul (cg.mono subt).norm)
    have o1 := one c P.cont.2.2
    have o2 := one b P.cont.2.1
    have i1 : ∀ g : ℝ → ℂ, ContinuousOn g (Icc 0 q.len) → IntervalIntegrable (fun x => ‖g x‖) MeasureTheory.volume 0 t := fun g cg =>
      ContinuousOn.intervalIntegrable (by rw [uIcc_of_le ht.1]; exact (cg.mono subt).norm)
    have ei := intervalIntegral.integral_add (i1 b P.cont.2.1) (i1 c P.cont.2.2)
    rw [intervalIntegral.integral_const_mul]
    set I := ∫ x in (0)..t, (‖b x‖ + ‖c x‖)
    set Ib := ∫ x in (0)..t, ‖b x‖
    set Ic := ∫ x in (0)..t, ‖c x‖
    set Jb := ∫ x in (0)..t, Complex.I * (Γ : ℂ) * m0 * (a x * (starRingEnd ℂ) (c x))
    set Jc := ∫ x in (0)..t, Complex.I * (Γ : ℂ) * m0 * (a x * (starRingEnd ℂ) (b x))
    have t1 : ‖b t‖ ≤ ‖b t - b 0 - Jb‖ + ‖b 0‖ + ‖Jb‖ := by
      have := norm_add_le (b t - b 0 - Jb) (b 0 + Jb)
      have h2 := norm_add_le (b 0) Jb
      rw [show b t - b 0 - Jb + (b 0 + Jb) = b t by ring] at this
      linarith
    have t2 : ‖c t‖ ≤ ‖c t - Jc‖ + ‖Jc‖ := by
      have := norm_add_le (c t - Jc) Jc
      rwa [sub_add_cancel] at this
    have er : |Γ| * (‖a 0‖ ^ 2 + ‖b 0‖ ^ 2) = ‖a 0‖ * (G * (1 + r)) := by
      rw [hG, hr]; field_simp
    rw [er] at hav
    have hav' : |Γ| * Q * (‖a 0‖ * (‖b t‖ + ‖c t‖) + ‖a 0‖ * (G * (1 + r)) * I) = ε * (‖b t‖ + ‖c t‖) + ε * (G * (1 + r)) * I := by
      rw [hεd, hG]; ring
    rw [hav'] at hav
    have hfin : (1 - ε) * (‖b t‖ + ‖c t‖) ≤ ‖b 0‖ + (‖m0‖ + ε * (1 + r)) * G * I := by
      rw [ei] at hav ⊢
      linarith
    have : ‖b t‖ + ‖c t‖ ≤ (‖b 0‖ + (‖m0‖ + ε * (1 + r)) * G * I) / (1 - ε) := by
      rw [le_div_iff₀ h1ε]
      linarith
    refine this.trans (le_of_eq ?_)
    rw [hk]
    field_simp

theorem poledGrowth_mono {ε r μ g g' : ℝ} (hε : 0 ≤ ε) (hε1 : ε < 1) (hr : 0 ≤ r) (hμ : 0 ≤ μ) (h : g ≤ g') :
    Spec.poledGrowth ε r μ g ≤ Spec.poledGrowth ε r μ g' := by
  have : 0 < 1 - ε := by linarith
  unfold Spec.poledGrowth
  gcongr

theorem poledGrowth_pos {ε r μ g : ℝ} (hε1 : ε < 1) : 0 < Spec.poledGrowth ε r μ g := div_pos (Real.exp_pos _) (by linarith)

/-- Waves driven by a constant. -/
theorem mean_waves (w β : ℂ) :
    let d := w / (‖w‖ : ℂ)
    (∀ t, HasDerivAt (fun t : ℝ => β * (Real.cosh (‖w‖ * t) : ℂ)) (w * (starRingEnd ℂ) (d * (starRingEnd ℂ) β * (Real.sinh (‖w‖ * t) : ℂ))) t) ∧
    ∀ t, HasDerivAt (fun t : ℝ => d * (starRingEnd ℂ) β * (Real.sinh (‖w‖ * t) : ℂ)) (w * (starRingEnd ℂ) (β * (Real.cosh (‖w‖ * t) : ℂ))) t := by
  intro d
  have l : ∀ t, HasDerivAt (fun t : ℝ => ‖w‖ * t) ‖w‖ t := fun t => by simpa using (hasDerivAt_id t).const_mul ‖w‖
  have e1 : w * (starRingEnd ℂ) d = (‖w‖ : ℂ) := by
    rcases eq_or_ne w 0 with rfl | hw
    · simp
    have hn : ((‖w‖ : ℝ) : ℂ) ≠ 0 := by exact_mod_cast (norm_pos_iff.2 hw).ne'
    have : w * (starRingEnd ℂ) w = ((‖w‖ : ℝ) : ℂ) ^ 2 := by rw [Complex.mul_conj, Complex.normSq_eq_norm_sq]; push_cast; ring
    rw [show d = w / (‖w‖ : ℂ) from rfl, map_div₀, Complex.conj_ofReal, ← mul_div_assoc, this]
    field_simp
  have e2 : d * (‖w‖ : ℂ) = w := by
    rcases eq_or_ne w 0 with rfl | hw
    · simp
    exact div_mul_cancel₀ _ (by exact_mod_cast (norm_pos_iff.2 hw).ne')
  constructor
  · intro t
    refine ((((Real.hasDerivAt_cosh _).comp t (l t)).ofReal_comp).const_mul β).congr_deriv ?_
    simp only [map_mul, Complex.conj_conj, Complex.conj_ofReal]
    push_cast
    linear_combination (-(β * Complex.sinh ((‖w‖ : ℂ) * t))) * e1
  · intro t
    refine ((((Real.hasDerivAt_sinh _).comp t (l t)).ofReal_comp).const_mul (d * (starRingEnd ℂ) β)).congr_deriv ?_
    simp only [map_mul, Complex.conj_ofReal]
    push_cast
    linear_combination ((starRingEnd ℂ) β * Complex.cosh ((‖w‖ : ℂ) * t)) * e2

/-- The waves are close to those that the mean of the grating gives with a pump that is not depleted. -/
theorem Photons.poled_near (P : Photons q Γ Δ E a b c) (h0 : c 0 = 0) (ha0 : a 0 ≠ 0) {m0 : ℂ} {Q : ℝ} (hQ : 0 ≤ Q)
    (hA : ∀ t ∈ Icc 0 q.len, ‖q.grating (-Δ) t - m0 * t‖ ≤ Q) (hε : Q * (|Γ| * ‖a 0‖) < 1) {z : ℝ} (hz : z ∈ Icc 0 q.len) :
    let G := |Γ| * ‖a 0‖
    let w := Complex.I * (Γ : ℂ) * m0 * a 0
    ‖b z - b 0 * (Real.cosh (‖w‖ * z) : ℂ)‖ + ‖c z - w / (‖w‖ : ℂ) * (starRingEnd ℂ) (b 0) * (Real.sinh (‖w‖ * z) : ℂ)‖ ≤
      ‖b 0‖ * Spec.poledError (Q * G) (‖b 0‖ ^ 2 / ‖a 0‖ ^ 2) ‖m0‖ (G * z) := by
  intro G w
  have ha' : 0 < ‖a 0‖ := norm_pos_iff.2 ha0
  have hG : G = |Γ| * ‖a 0‖ := rfl
  have hw : w = Complex.I * (Γ : ℂ) * m0 * a 0 := rfl
  have nw : ‖w‖ = ‖m0‖ * G := by
    rw [hw, norm_mul, norm_mul, norm_mul, Complex.norm_I, one_mul, Complex.norm_real, Real.norm_eq_abs, hG]; ring
  set r := ‖b 0‖ ^ 2 / ‖a 0‖ ^ 2 with hr
  set ε := Q * G with hεd
  have hG0 : 0 ≤ G := by positivity
  have hε0 : 0 ≤ ε := by positivity
  have hr0 : 0 ≤ r := by positivity
  set V := Spec.poledGrowth ε r ‖m0‖ (G * z) with hV
  have hV0 : 0 < V := poledGrowth_pos hε
  set U := ‖b 0‖ * V with hU
  have hU0 : 0 ≤ U := by positivity
  have sub : Icc 0 z ⊆ Icc 0 q.len := Icc_subset_Icc_right hz.2
  have hu : ∀ t ∈ Icc 0 z, ‖b t‖ + ‖c t‖ ≤ U := fun t ht =>
    (P.poled_limit h0 ha0 hQ hA hε (sub ht)).trans (mul_le_mul_of_nonneg_left
      (poledGrowth_mono hε0 hε hr0 (norm_nonneg _) (mul_le_mul_of_nonneg_left ht.2 hG0)) (norm_nonneg _))
  set M := |Γ| * (U ^ 2 / 4) * z with hM
  have hM0 : 0 ≤ M := by have := hz.1; positivity
  have hpump : ∀ t ∈ Icc 0 z, ‖a t - a 0‖ ≤ M := by
    intro t ht
    have subt : Icc 0 t ⊆ Icc 0 q.len := Icc_subset_Icc_right (sub ht).2
    have hc : ContinuousOn (fun t => Complex.I * (Γ : ℂ) * (b t * c t) * Complex.exp (Complex.I * ((Δ * t : ℝ) : ℂ))) (Icc 0 t) :=
      ((continuousOn_const.mul ((P.cont.2.1.mono subt).mul (P.cont.2.2.mono subt))).mul (continuous_phase Δ).continuousOn)
    rw [amplitude_integral (q := q) P.cnt ht.1 (P.cont.1.mono subt) hc fun x hx => P.da x ⟨⟨hx.1.1, hx.1.2.trans_le (sub ht).2⟩, hx.2⟩]
    refine (intervalIntegral.norm_integral_le_of_norm_le_const (C := |Γ| * (U ^ 2 / 4)) fun x hx => ?_).trans ?_
    · rw [uIoc_of_le ht.1] at hx
      have h1 := hu x ⟨hx.1.le, hx.2.trans ht.2⟩
      rw [norm_mul, norm_sign, one_mul, norm_mul, norm_phase, mul_one, norm_mul, norm_mul, Complex.norm_I, one_mul, Complex.norm_real, Real.norm_eq_abs, norm_mul]
      refine mul_le_mul_of_nonneg_left ?_ (abs_nonneg _)
      have h2 := pow_le_pow_left₀ (add_nonneg (norm_nonneg (b x)) (norm_nonneg (c x))) h1 2
      nlinarith [sq_nonneg (‖b x‖ - ‖c x‖)]
    · rw [sub_zero, abs_of_nonneg ht.1, hM]
      exact mul_le_mul_of_nonneg_left ht.2 (by positivity)
  obtain ⟨dβ, dγ⟩ := mean_waves w (b 0)
  set β : ℝ → ℂ := fun t => b 0 * (Real.cosh (‖w‖ * t) : ℂ) with hβ
  set γ : ℝ → ℂ := fun t => w / (‖w‖ : ℂ) * (starRingEnd ℂ) (b 0) * (Real.sinh (‖w‖ * t) : ℂ) with hγ
  have cβ : Continuous β := continuous_iff_continuousAt.2 fun t => (dβ t).continuousAt
  have cγ : Continuous γ := continuous_iff_continuousAt.2 fun t => (dγ t).continuousAt
  have hβ0 : β 0 = b 0 := by simp [hβ]
  have hγ0 : γ 0 = 0 := by simp [hγ]
  have iβ : ∀ t, β t - b 0 = ∫ x in (0)..t, w * (starRingEnd ℂ) (γ x) := fun t => by
    rw [intervalIntegral.integral_eq_sub_of_hasDerivAt (fun x _ => dβ x) ((continuous_const.mul (Complex.continuous_conj.comp cγ)).intervalIntegrable _ _), hβ0]
  have iγ : ∀ t, γ t = ∫ x in (0)..t, w * (starRingEnd ℂ) (β x) := fun t => by
    rw [intervalIntegral.integral_eq_sub_of_hasDerivAt (fun x _ => dγ x) ((continuous_const.mul (Complex.continuous_conj.comp cβ)).intervalIntegrable _ _), hγ0, sub_zero]
  -- the difference of the drives
  have diff : ∀ (g g' : ℝ → ℂ), ContinuousOn g (Icc 0 q.len) → Continuous g' → ∀ t ∈ Icc 0 z,
      ‖(∫ x in (0)..t, Complex.I * (Γ : ℂ) * m0 * (a x * (starRingEnd ℂ) (g x))) - ∫ x in (0)..t, w * (starRingEnd ℂ) (g' x)‖ ≤
        ∫ x in (0)..t, (‖w‖ * ‖g x - g' x‖ + |Γ| * ‖m0‖ * M * ‖g x‖) := by
    intro g g' cg cg' t ht
    have subt : Icc 0 t ⊆ Icc 0 q.len := Icc_subset_Icc_right (sub ht).2
    have i1 : IntervalIntegrable (fun x => Complex.I * (Γ : ℂ) * m0 * (a x * (starRingEnd ℂ) (g x))) MeasureTheory.volume 0 t :=
      ContinuousOn.intervalIntegrable (by
        rw [uIcc_of_le ht.1]
        exact continuousOn_const.mul ((P.cont.1.mono subt).mul (Complex.continuous_conj.comp_continuousOn (cg.mono subt))))
    have i2 : IntervalIntegrable (fun x => w * (starRingEnd ℂ) (g' x)) MeasureTheory.volume 0 t :=
      (continuous_const.mul (Complex.continuous_conj.comp cg')).intervalIntegrable _ _
    rw [← intervalIntegral.integral_sub i1 i2]
    refine intervalIntegral.norm_integral_le_of_norm_le ht.1 (Filter.Eventually.of_forall fun x hx => ?_) ?_
    · have e : Complex.I * (Γ : ℂ) * m0 * (a x * (starRingEnd ℂ) (g x)) - w * (starRingEnd ℂ) (g' x) =
          w * (starRingEnd ℂ) (g x - g' x) + Complex.I * (Γ : ℂ) * m0 * (a x - a 0) * (starRingEnd ℂ) (g x) := by
        rw [hw, map_sub]; ring
      rw [e]
      refine (norm_add_le _ _).trans ?_
      rw [norm_mul w, RCLike.norm_conj, norm_mul _ ((starRingEnd ℂ) (g x)), RCLike.norm_conj, norm_mul _ (a x - a 0), norm_mul _ m0, norm_mul Complex.I, Complex.norm_I,
        one_mul, Complex.norm_real, Real.norm_eq_abs]
      have := hpump x ⟨hx.1.le, hx.2.trans ht.2⟩
      gcongr
    · exact ContinuousOn.intervalIntegrable (by
        rw [uIcc_of_le ht.1]
        exact (continuousOn_const.mul ((cg.mono subt).sub cg'.continuousOn).norm).add (continuousOn_const.mul (cg.mono subt).norm))
  have key := gronwall_driven (F := fun t => ‖b t - β t‖ + ‖c t - γ t‖) (k := ‖w‖) (A := ε * U * (1 + (1 + r) * (G * z))) (D := |Γ| * ‖m0‖ * M * U) (norm_nonneg _) hz.1
    ((((P.cont.2.1.mono sub).sub cβ.continuousOn).norm).add (((P.cont.2.2.mono sub).sub cγ.continuousOn).norm)) fun t ht => ?_
  · refine key.trans (le_of_eq ?_)
    rw [Spec.poledError, ← hV, nw, hM, hU]
    have e : r * G ^ 2 = |Γ| ^ 2 * ‖b 0‖ ^ 2 := by rw [hr, hG]; field_simp
    have e2 : ‖m0‖ * (G * z) = ‖m0‖ * G * z := by ring
    rw [e2]
    generalize Real.exp (‖m0‖ * G * z) = x
    clear_value r ε V G
    linear_combination (-(‖b 0‖ * ‖m0‖ * z ^ 2 / 4 * V ^ 3 * x)) * e
  · have ht' := sub ht
    have subt : Icc 0 t ⊆ Icc 0 q.len := Icc_subset_Icc_right ht'.2
    have hav := P.averaged h0 hQ hA ht'
    have o1 := diff c γ P.cont.2.2 cγ t ht
    have o2 := diff b β P.cont.2.1 cβ t ht
    rw [← iβ] at o1
    rw [← iγ] at o2
    have er : |Γ| * (‖a 0‖ ^ 2 + ‖b 0‖ ^ 2) = ‖a 0‖ * (G * (1 + r)) := by
      rw [hG, hr]; field_simp
    have hI : ∫ x in (0)..t, (‖b x‖ + ‖c x‖) ≤ U * z := by
      have : ∫ x in (0)..t, (‖b x‖ + ‖c x‖) ≤ ∫ x in (0)..t, U := intervalIntegral.integral_mono_on ht.1
        (ContinuousOn.intervalIntegrable (by rw [uIcc_of_le ht.1]; exact (P.cont.2.1.mono subt).norm.add (P.cont.2.2.mono subt).norm))
        intervalIntegrable_const fun x hx => hu x ⟨hx.1, hx.2.trans ht.2⟩
      rw [intervalIntegral.integral_const, smul_eq_mul, sub_zero] at this
      refine this.trans ?_
      rw [mul_comm]
      exact mul_le_mul_of_nonneg_left ht.2 hU0
    have hav2 : |Γ| * Q * (‖a 0‖ * (‖b t‖ + ‖c t‖) + |Γ| * (‖a 0‖ ^ 2 + ‖b 0‖ ^ 2) * ∫ x in (0)..t, (‖b x‖ + ‖c x‖)) ≤ ε * U * (1 + (1 + r) * (G * z)) := by
      rw [er]
      have h1 := mul_le_mul_of_nonneg_left (hu t ht) ha'.le
      have h2 := mul_le_mul_of_nonneg_left hI (show 0 ≤ ‖a 0‖ * (G * (1 + r)) by positivity)
      have h3 := mul_le_mul_of_nonneg_left (add_le_add h1 h2) (show 0 ≤ |Γ| * Q by positivity)
      refine h3.trans (le_of_eq ?_)
      rw [hεd, hG]; ring
    have ci : ∀ (f : ℝ → ℂ) (g : ℝ → ℂ), ContinuousOn f (Icc 0 q.len) → Continuous g →
        IntervalIntegrable (fun x => ‖w‖ * ‖f x - g x‖ + |Γ| * ‖m0‖ * M * ‖f x‖) MeasureTheory.volume 0 t := fun f g cf cg =>
      ContinuousOn.intervalIntegrable (by
        rw [uIcc_of_le ht.1]
        exact (continuousOn_const.mul ((cf.mono subt).sub cg.continuousOn).norm).add (continuousOn_const.mul (cf.mono subt).norm))
    have hsum := add_le_add o1 o2
    rw [← intervalIntegral.integral_add (ci c γ P.cont.2.2 cγ) (ci b β P.cont.2.1 cβ)] at hsum
    have hint : ∫ x in (0)..t, (‖w‖ * ‖c x - γ x‖ + |Γ| * ‖m0‖ * M * ‖c x‖ + (‖w‖ * ‖b x - β x‖ + |Γ| * ‖m0‖ * M * ‖b x‖)) ≤
        ∫ x in (0)..t, (‖w‖ * (‖b x - β x‖ + ‖c x - γ x‖) + |Γ| * ‖m0‖ * M * U * Real.exp (‖w‖ * x)) := by
      refine intervalIntegral.integral_mono_on ht.1 ((ci c γ P.cont.2.2 cγ).add (ci b β P.cont.2.1 cβ)) ?_ fun x hx => ?_
      · refine ContinuousOn.intervalIntegrable ?_
        rw [uIcc_of_le ht.1]
        exact (continuousOn_const.mul (((P.cont.2.1.mono subt).sub cβ.continuousOn).norm.add ((P.cont.2.2.mono subt).sub cγ.continuousOn).norm)).add (by fun_prop)
      · have hD : 0 ≤ |Γ| * ‖m0‖ * M := by positivity
        have h1 := mul_le_mul_of_nonneg_left (hu x ⟨hx.1, hx.2.trans ht.2⟩) hD
        have h2 : 1 ≤ Real.exp (‖w‖ * x) := Real.one_le_exp (mul_nonneg (norm_nonneg _) hx.1)
        have h3 := mul_le_mul_of_nonneg_left h2 (mul_nonneg hD hU0)
        linarith
    have t1 := norm_add_le (b t - b 0 - ∫ x in (0)..t, Complex.I * (Γ : ℂ) * m0 * (a x * (starRingEnd ℂ) (c x)))
      ((∫ x in (0)..t, Complex.I * (Γ : ℂ) * m0 * (a x * (starRingEnd ℂ) (c x))) - (β t - b 0))
    have t2 := norm_add_le (c t - ∫ x in (0)..t, Complex.I * (Γ : ℂ) * m0 * (a x * (starRingEnd ℂ) (b x)))
      ((∫ x in (0)..t, Complex.I * (Γ : ℂ) * m0 * (a x * (starRingEnd ℂ) (b x))) - γ t)
    rw [sub_add_sub_cancel, sub_sub_sub_cancel_right] at t1
    rw [sub_add_sub_cancel] at t2
    linarith

/-! ## The mean of a grating -/

/-- The contribution of one period over its length. -/
noncomputable def gratingMean (Δ P : ℝ) (n : ℤ) : ℂ := 2 * ((-1) ^ n - 1) / (Complex.I * Δ) / P

theorem mismatch_ne_zero {Δ P : ℝ} {n : ℤ} (hn : n ≠ 0) (h : Δ * P = 2 * Real.pi * n) : Δ ≠ 0 := by
  rintro rfl
  rw [zero_mul] at h
  have : (n : ℝ) ≠ 0 := by exact_mod_cast hn
  exact mul_ne_zero (mul_ne_zero two_ne_zero Real.pi_ne_zero) this h.symm

theorem norm_gratingMean {Δ P : ℝ} (hP : 0 < P) {n : ℤ} (h : Δ * P = 2 * Real.pi * n) : ‖gratingMean Δ P n‖ = Spec.poledShare n := by
  have h1 : |Δ| * P = 2 * Real.pi * |(n : ℝ)| := by
    have := congrArg abs h
    rwa [abs_mul, abs_of_pos hP, abs_mul, abs_mul, abs_two, abs_of_pos Real.pi_pos] at this
  unfold gratingMean Spec.poledShare
  split_ifs with ho
  · rw [ho.neg_one_zpow, norm_div, norm_div, norm_mul, norm_mul, Complex.norm_I, one_mul, Complex.norm_real, Complex.norm_real, Real.norm_eq_abs, Real.norm_eq_abs,
      abs_of_pos hP, div_div, h1]
    norm_num
    rw [mul_assoc, div_mul_eq_div_div]
    norm_num
  · rw [(Int.not_odd_iff_even.1 ho).neg_one_zpow]
    simp

theorem poledShare_bounds {n : ℤ} (hn : n ≠ 0) : 0 ≤ Spec.poledShare n ∧ Spec.poledShare n ≤ 1 := by
  have hpi := Real.pi_gt_three
  unfold Spec.poledShare
  split_ifs
  · have : (1 : ℝ) ≤ |(n : ℝ)| := by exact_mod_cast Int.one_le_abs hn
    refine ⟨by positivity, (div_le_one (by positivity)).2 ?_⟩
    nlinarith
  · exact ⟨le_rfl, zero_le_one⟩

theorem grating_periods (hq : q.mode = "PP") {P : ℝ} (hP : 0 < P) (hd : precomputePoling (fun _ => P) q.len = some q.domains) {Δ : ℝ} {n : ℤ} (hn : n ≠ 0)
    (h : Δ * P = 2 * Real.pi * n) (M : ℕ) (hM : ∀ k < M, (k * P : ℝ) < q.len) : q.grating Δ (M * P) = gratingMean Δ P n * ((M * P : ℝ) : ℂ) := by
  induction M with
  | zero => simp [Prob.grating]
  | succ M ih =>
    have hp : (P : ℂ) ≠ 0 := by exact_mod_cast hP.ne'
    have h1 := ih fun k hk => hM k (by omega)
    have h2 := period_integral hq hP hd (hM M (by omega)) (mismatch_ne_zero hn h) h
    have h3 := intervalIntegral.integral_add_adjacent_intervals (grating_integrable q Δ 0 (M * P)) (grating_integrable q Δ (M * P) ((M + 1 : ℕ) * P))
    rw [h2] at h3
    rw [Prob.grating] at h1 ⊢
    rw [← h3, h1]
    unfold gratingMean
    push_cast
    field_simp

/-- A grating follows its mean within one period. -/
theorem grating_mean (hq : q.mode = "PP") {P : ℝ} (hP : 0 < P) (hd : precomputePoling (fun _ => P) q.len = some q.domains) {Δ : ℝ} {n : ℤ} (hn : n ≠ 0)
    (h : Δ * P = 2 * Real.pi * n) {z : ℝ} (hz : z ∈ Icc 0 q.len) : ‖q.grating Δ z - gratingMean Δ P n * z‖ ≤ P := by
  obtain ⟨k, h1, h2⟩ : ∃ k : ℕ, k * P ≤ z ∧ z < k * P + P := by
    refine ⟨⌊z / P⌋₊, (le_div_iff₀ hP).1 (Nat.floor_le (div_nonneg hz.1 hP.le)), ?_⟩
    have := (div_lt_iff₀ hP).1 (Nat.lt_floor_add_one (z / P))
    linarith
  have hμ : ‖gratingMean Δ P n‖ ≤ 1 := by rw [norm_gratingMean hP h]; exact (poledShare_bounds hn).2
  have near : ∀ x : ℝ, q.grating Δ x = gratingMean Δ P n * x → |z - x| ≤ P / 2 → ‖q.grating Δ z - gratingMean Δ P n * z‖ ≤ P := by
    intro x hx hd
    have e : q.grating Δ z - gratingMean Δ P n * z = (q.grating Δ z - q.grating Δ x) - gratingMean Δ P n * ((z - x : ℝ) : ℂ) := by
      rw [hx]; push_cast; ring
    rw [e]
    refine (norm_sub_le _ _).trans ?_
    rw [norm_mul, Complex.norm_real, Real.norm_eq_abs]
    have := grating_lipschitz q Δ x z
    have := mul_le_mul_of_nonneg_right hμ (abs_nonneg (z - x))
    linarith
  have hk : ∀ i < k, (i * P : ℝ) < q.len := fun i hi => by
    have : (i * P : ℝ) < k * P := mul_lt_mul_of_pos_right (by exact_mod_cast hi) hP
    linarith [hz.2]
  rcases le_or_gt (z - k * P) (P / 2) with hs | hs
  · refine near (k * P) ?_ (by rw [abs_of_nonneg (by linarith)]; exact hs)
    simpa using grating_periods hq hP hd hn h k hk
  · refine near ((k + 1 : ℕ) * P) ?_ ?_
    · simpa using grating_periods hq hP hd hn h (k + 1) fun i hi => by
        rcases Nat.lt_succ_iff_lt_or_eq.1 hi with hi | rfl
        · exact hk i hi
        · linarith [hz.2]
    · push_cast
      rw [abs_le]
      constructor <;> linarith

/-! ## Amplification in a poled crystal -/

/-- What the theorems of this file say about photon amplitudes, for the lines of a problem. -/
theorem poled_photons (W : Works q squm) (hq : q.mode = "PP") {m j l : Fin N} (h : ((j : ℕ) : ℤ) + (l : ℕ) = (m : ℕ) + (N / 2 : ℕ))
    (hW : 0 < q.s.W j ∧ 0 < q.i.W l) {P : ℝ} (hP : 0 < P) (hd : precomputePoling (fun _ => P) q.len = some q.domains) {n : ℤ} (hn : n ≠ 0)
    (hΔ : q.mismatch m j l * P = 2 * Real.pi * n) {p0 s0 : ℂ} (hp : p0 ≠ 0) (hε : P * q.opaRate squm m j l ‖p0‖ < 1) {Y : ℝ → Fin (3 * N) → ℂ}
    (hY : Solves q Y 0 q.len) (h0 : Y 0 = lines m j l p0 s0 0) {z : ℝ} (hz : z ∈ Icc 0 q.len) :
    let G := q.opaRate squm m j l ‖p0‖
    let r := q.photonRatio m j p0 s0
    (‖As (Y z) j‖ / √(q.s.W j) + ‖Ai (Y z) l‖ / √(q.i.W l) ≤ ‖s0‖ / √(q.s.W j) * Spec.poledGrowth (P * G) r (Spec.poledShare n) (G * z)) ∧
    |‖As (Y z) j‖ / √(q.s.W j) - ‖s0‖ / √(q.s.W j) * Real.cosh (Spec.poledShare n * (G * z))| ≤
      ‖s0‖ / √(q.s.W j) * Spec.poledError (P * G) r (Spec.poledShare n) (G * z) ∧
    |‖Ai (Y z) l‖ / √(q.i.W l) - ‖s0‖ / √(q.s.W j) * Real.sinh (Spec.poledShare n * (G * z))| ≤
      ‖s0‖ / √(q.s.W j) * Spec.poledError (P * G) r (Spec.poledShare n) (G * z) := by
  intro G r
  obtain ⟨E, a, b, c, Ph, ⟨ha, hb, hc⟩, hnm⟩ := photons_of_lines W h hW hY h0
  have hWp : 0 < q.p.W m := by rw [W.matched m j l h]; exact add_pos hW.1 hW.2
  have rp := Real.sqrt_pos.2 hWp
  have rs := Real.sqrt_pos.2 hW.1
  have ri := Real.sqrt_pos.2 hW.2
  have hp' : 0 < ‖p0‖ := norm_pos_iff.2 hp
  obtain ⟨-, n2, n3⟩ := hnm z hz
  rw [zero_div] at hc
  have ha0 : a 0 ≠ 0 := norm_pos_iff.1 (by rw [ha]; positivity)
  have eG : |q.gain squm m j l 1| * ‖a 0‖ = G := by rw [ha, opaRate_gain ⟨hWp, hW.1.le⟩]
  have er : ‖b 0‖ ^ 2 / ‖a 0‖ ^ 2 = q.photonRatio m j p0 s0 := by
    rw [ha, hb, div_pow, div_pow, Real.sq_sqrt hWp.le, Real.sq_sqrt hW.1.le, Prob.photonRatio]
  have hΔ' : -q.mismatch m j l * P = 2 * Real.pi * ((-n : ℤ) : ℝ) := by push_cast; linarith
  have hn' : -n ≠ 0 := neg_ne_zero.2 hn
  set m0 := gratingMean (-q.mismatch m j l) P (-n) with hm0
  have eμ : ‖m0‖ = Spec.poledShare n := by
    rw [hm0, norm_gratingMean hP hΔ']
    unfold Spec.poledShare
    simp
  have hA : ∀ t ∈ Icc 0 q.len, ‖q.grating (-q.mismatch m j l) t - m0 * t‖ ≤ P := fun t ht => grating_mean hq hP hd hn' hΔ' ht
  have hε' : P * (|q.gain squm m j l 1| * ‖a 0‖) < 1 := by rw [eG]; exact hε
  have lim := Ph.poled_limit hc ha0 hP.le hA hε' hz
  have near := Ph.poled_near hc ha0 hP.le hA hε' hz
  simp only [eG, er, eμ] at lim near
  have nw : ‖Complex.I * ((q.gain squm m j l 1 : ℝ) : ℂ) * m0 * a 0‖ = Spec.poledShare n * G := by
    rw [norm_mul, norm_mul, norm_mul, Complex.norm_I, one_mul, Complex.norm_real, Real.norm_eq_abs, ← eG, ← eμ]; ring
  set w := Complex.I * ((q.gain squm m j l 1 : ℝ) : ℂ) * m0 * a 0 with hw
  have hG0 : 0 ≤ G := by rw [← eG]; positivity
  have hg : 0 ≤ ‖w‖ * z := mul_nonneg (norm_nonneg _) hz.1
  have ew : Spec.poledShare n * (G * z) = ‖w‖ * z := by rw [nw]; ring
  have q1 : ‖b z‖ = ‖As (Y z) j‖ / √(q.s.W j) := by rw [n2]; field_simp
  have q2 : ‖c z‖ = ‖Ai (Y z) l‖ / √(q.i.W l) := by rw [n3]; field_simp
  rw [← q1, ← q2, ← hb, ew]
  refine ⟨lim, ?_, ?_⟩
  · refine le_trans ?_ ((le_add_of_nonneg_right (norm_nonneg _)).trans near)
    have := abs_norm_sub_norm_le (b z) (b 0 * (Real.cosh (‖w‖ * z) : ℂ))
    rwa [norm_mul, Complex.norm_real, Real.norm_eq_abs, abs_of_pos (Real.cosh_pos _)] at this
  · refine le_trans ?_ ((le_add_of_nonneg_left (norm_nonneg _)).trans near)
    have := abs_norm_sub_norm_le (c z) (w / (‖w‖ : ℂ) * (starRingEnd ℂ) (b 0) * (Real.sinh (‖w‖ * z) : ℂ))
    have e : ‖w / (‖w‖ : ℂ) * (starRingEnd ℂ) (b 0) * (Real.sinh (‖w‖ * z) : ℂ)‖ = ‖b 0‖ * Real.sinh (‖w‖ * z) := by
      rw [norm_mul, norm_mul, RCLike.norm_conj, Complex.norm_real, Real.norm_eq_abs, abs_of_nonneg (Real.sinh_nonneg_iff.2 hg), norm_div, Complex.norm_real, norm_norm]
      rcases eq_or_ne ‖w‖ 0 with h0 | h0
      · simp [h0]
      · rw [div_self h0, one_mul]
    rwa [e] at this

/-- C175, limit: whatever the depletion, the signal grows at most with the share of the gain that quasi-phase matching leaves, but for the gain within
one period. -/
theorem C175_limit (W : Works q squm) (hq : q.mode = "PP") {m j l : Fin N} (h : ((j : ℕ) : ℤ) + (l : ℕ) = (m : ℕ) + (N / 2 : ℕ))
    (hW : 0 < q.s.W j ∧ 0 < q.i.W l) {P : ℝ} (hP : 0 < P) (hd : precomputePoling (fun _ => P) q.len = some q.domains) {n : ℤ} (hn : n ≠ 0)
    (hΔ : q.mismatch m j l * P = 2 * Real.pi * n) {p0 s0 : ℂ} (hp : p0 ≠ 0) (hε : P * q.opaRate squm m j l ‖p0‖ < 1) {Y : ℝ → Fin (3 * N) → ℂ}
    (hY : Solves q Y 0 q.len) (h0 : Y 0 = lines m j l p0 s0 0) {z : ℝ} (hz : z ∈ Icc 0 q.len) :
    let G := q.opaRate squm m j l ‖p0‖
    ‖As (Y z) j‖ ≤ ‖s0‖ * Spec.poledGrowth (P * G) (q.photonRatio m j p0 s0) (Spec.poledShare n) (G * z) := by
  intro G
  have h1 := (poled_photons W hq h hW hP hd hn hΔ hp hε hY h0 hz).1
  have rs := Real.sqrt_pos.2 hW.1
  have h2 : ‖As (Y z) j‖ / √(q.s.W j) ≤ ‖s0‖ / √(q.s.W j) * Spec.poledGrowth (P * G) (q.photonRatio m j p0 s0) (Spec.poledShare n) (G * z) :=
    le_trans (le_add_of_nonneg_right (by positivity)) h1
  rw [div_mul_eq_mul_div] at h2
  exact (div_le_div_iff_of_pos_right rs).1 h2

/-- C175, gain: signal and idler grow with the hyperbolic functions of the share of the gain that quasi-phase matching leaves: `2 / (π n)` for an odd
number `n` of times that a period holds the phase of the mismatch, nothing for an even one. -/
theorem C175_gain (W : Works q squm) (hq : q.mode = "PP") {m j l : Fin N} (h : ((j : ℕ) : ℤ) + (l : ℕ) = (m : ℕ) + (N / 2 : ℕ))
    (hW : 0 < q.s.W j ∧ 0 < q.i.W l) {P : ℝ} (hP : 0 < P) (hd : precomputePoling (fun _ => P) q.len = some q.domains) {n : ℤ} (hn : n ≠ 0)
    (hΔ : q.mismatch m j l * P = 2 * Real.pi * n) {p0 s0 : ℂ} (hp : p0 ≠ 0) (hε : P * q.opaRate squm m j l ‖p0‖ < 1) {Y : ℝ → Fin (3 * N) → ℂ}
    (hY : Solves q Y 0 q.len) (h0 : Y 0 = lines m j l p0 s0 0) {z : ℝ} (hz : z ∈ Icc 0 q.len) :
    let G := q.opaRate squm m j l ‖p0‖
    let err := Spec.poledError (P * G) (q.photonRatio m j p0 s0) (Spec.poledShare n) (G * z)
    |‖As (Y z) j‖ - ‖s0‖ * Real.cosh (Spec.poledShare n * (G * z))| ≤ ‖s0‖ * err ∧
    |‖Ai (Y z) l‖ - √(q.i.W l / q.s.W j) * ‖s0‖ * Real.sinh (Spec.poledShare n * (G * z))| ≤ √(q.i.W l / q.s.W j) * ‖s0‖ * err := by
  intro G err
  obtain ⟨-, k1, k2⟩ := poled_photons W hq h hW hP hd hn hΔ hp hε hY h0 hz
  have rs := Real.sqrt_pos.2 hW.1
  have ri := Real.sqrt_pos.2 hW.2
  constructor
  · calc _ = √(q.s.W j) * |‖As (Y z) j‖ / √(q.s.W j) - ‖s0‖ / √(q.s.W j) * Real.cosh (Spec.poledShare n * (G * z))| := by
          rw [← abs_of_pos rs, ← abs_mul, abs_of_pos rs]; congr 1; field_simp
      _ ≤ √(q.s.W j) * (‖s0‖ / √(q.s.W j) * err) := mul_le_mul_of_nonneg_left k1 rs.le
      _ = _ := by field_simp
  · rw [Real.sqrt_div hW.2.le]
    calc _ = √(q.i.W l) * |‖Ai (Y z) l‖ / √(q.i.W l) - ‖s0‖ / √(q.s.W j) * Real.sinh (Spec.poledShare n * (G * z))| := by
          rw [← abs_of_pos ri, ← abs_mul, abs_of_pos ri]; congr 1; field_simp
      _ ≤ √(q.i.W l) * (‖s0‖ / √(q.s.W j) * err) := mul_le_mul_of_nonneg_left k2 ri.le
      _ = _ := by field_simp

/-- C175, small: at a given gain the error goes to zero with the gain within a period and the share of the signal. -/
theorem C175_small (μ g : ℝ) : Filter.Tendsto (fun x : ℝ × ℝ => Spec.poledError x.1 x.2 μ g) (nhds (0, 0)) (nhds 0) := by
  have hV : ContinuousAt (fun x : ℝ × ℝ => Spec.poledGrowth x.1 x.2 μ g) (0, 0) := by
    unfold Spec.poledGrowth
    have : (1 : ℝ) - (0 : ℝ × ℝ).1 ≠ 0 := by norm_num
    fun_prop (disch := norm_num)
  have hE : ContinuousAt (fun x : ℝ × ℝ => Spec.poledError x.1 x.2 μ g) (0, 0) := by
    unfold Spec.poledError
    fun_prop
  have := hE.tendsto
  simpa [Spec.poledError] using this

/-- C175, computed: what an integration that returns gives. -/
theorem C175_computed (W : Works q squm) {κ R ρ : ℝ} (S : Strength (q.wp squm) (q.ws squm) (q.wi squm) |q.deff| κ) (hq : q.mode = "PP") {m j l : Fin N}
    (h : ((j : ℕ) : ℤ) + (l : ℕ) = (m : ℕ) + (N / 2 : ℕ)) (hW : 0 < q.s.W j ∧ 0 < q.i.W l) {P : ℝ} (hP : 0 < P)
    (hd : precomputePoling (fun _ => P) q.len = some q.domains) {n : ℤ} (hn : n ≠ 0) (hΔ : q.mismatch m j l * P = 2 * Real.pi * n) {p0 s0 : ℂ} (hp : p0 ≠ 0)
    (hε : P * q.opaRate squm m j l ‖p0‖ < 1)
    (hρ : 0 < ρ) (hR : √(‖p0‖ ^ 2 + ‖s0‖ ^ 2) + ρ < R) (hsm : q.len * Real.exp (26 * (2 * N * κ * R) * q.len) * (1e-27 * (N * κ * R ^ 2)) < ρ) :
    let G := q.opaRate squm m j l ‖p0‖
    let err := Spec.poledError (P * G) (q.photonRatio m j p0 s0) (Spec.poledShare n) (G * q.len)
    ∃ C h0, 0 ≤ C ∧ 0 < h0 ∧ ∀ hm ∈ Ioc 0 h0, ∀ (p : Ode.Prob (3 * N)) (con : Ode.Con) (h1 hmin : ℝ) (out : Ode.Out (3 * N)) (o' : Ode.Ode (3 * N)),
      p.f = q.rhs → Ode.Rounds p.fl → out.Usable → (Ode.Ode.new con (lines m j l p0 s0 0) 0 q.len h1 hmin out).integrate p = some (.ok (), o') →
      Ode.StepsLe hm 0 o'.visited →
      |‖As o'.ystart j‖ - ‖s0‖ * Real.cosh (Spec.poledShare n * (G * q.len))| ≤
        ‖s0‖ * err + (q.len * Real.exp (26 * (2 * N * κ * R) * q.len) * (1e-27 * (N * κ * R ^ 2)) + C * hm) ∧
      |‖Ai o'.ystart l‖ - √(q.i.W l / q.s.W j) * ‖s0‖ * Real.sinh (Spec.poledShare n * (G * q.len))| ≤
        √(q.i.W l / q.s.W j) * ‖s0‖ * err + (q.len * Real.exp (26 * (2 * N * κ * R) * q.len) * (1e-27 * (N * κ * R ^ 2)) + C * hm) := by
  intro G err
  obtain ⟨C, h0, hC, hh0, hc⟩ := C121_converges W S (lines m j l p0 s0 0) hρ (by rw [lines_power]; simpa using hR) hsm
  obtain ⟨Y, hY0, hY, -, -⟩ := C121_solution W (lines m j l p0 s0 0)
  refine ⟨C, h0, hC, hh0, fun hm hhm p con h1 hmin out o' hp' hfl ho hr hst => ?_⟩
  have h2 := hc hm hhm p con h1 hmin out o' hp' hfl ho hr hst Y hY hY0
  obtain ⟨k1, k2⟩ := C175_gain W hq h hW hP hd hn hΔ hp hε hY hY0 ⟨W.len.le, le_refl _⟩
  constructor
  · have h4 : |‖As o'.ystart j‖ - ‖As (Y q.len) j‖| ≤ _ := (abs_norm_sub_norm_le _ _).trans ((norm_le_pi_norm (o'.ystart - Y q.len) _).trans h2)
    have := abs_sub_le (‖As o'.ystart j‖) (‖As (Y q.len) j‖) (‖s0‖ * Real.cosh (Spec.poledShare n * (G * q.len)))
    linarith
  · have h4 : |‖Ai o'.ystart l‖ - ‖Ai (Y q.len) l‖| ≤ _ := (abs_norm_sub_norm_le _ _).trans ((norm_le_pi_norm (o'.ystart - Y q.len) _).trans h2)
    have := abs_sub_le (‖Ai o'.ystart l‖) (‖Ai (Y q.len) l‖) (√(q.i.W l / q.s.W j) * ‖s0‖ * Real.sinh (Spec.poledShare n * (G * q.len)))
    linarith

/-! The hypotheses hold for a crystal of two poling periods, and already there the idler exceeds the error. -/

theorem poledError_example {G r μ : ℝ} (hG : 0 < G) (hG1 : G ≤ 1 / 50) (hr : 0 ≤ r) (hr1 : r ≤ 1 / 1000) (hμ : 0 ≤ μ) (hμ1 : μ ≤ 2 / 3) :
    Spec.poledError (1 / 2 * G) r μ G ≤ 0.6 * G := by
  have h1 : 0 < 1 - 1 / 2 * G := by linarith
  have hx : (μ + 1 / 2 * G * (1 + r)) / (1 - 1 / 2 * G) * G ≤ G := by
    refine mul_le_of_le_one_left hG.le ((div_le_one h1).2 ?_)
    nlinarith
  have he : Real.exp G ≤ 51 / 50 + 1 / 1000 := by
    have h2 := Real.exp_bound_div_one_sub_of_interval hG.le (show G < 1 by linarith)
    refine h2.trans ?_
    rw [div_le_iff₀ (by linarith)]
    nlinarith
  have hV : Spec.poledGrowth (1 / 2 * G) r μ G ≤ 1.04 := by
    unfold Spec.poledGrowth
    rw [div_le_iff₀ h1]
    have := (Real.exp_le_exp.2 hx).trans he
    nlinarith
  have hV0 : 0 < Spec.poledGrowth (1 / 2 * G) r μ G := poledGrowth_pos (by linarith)
  have he2 : Real.exp (μ * G) ≤ 51 / 50 + 1 / 1000 := (Real.exp_le_exp.2 (by nlinarith)).trans he
  unfold Spec.poledError
  generalize Spec.poledGrowth (1 / 2 * G) r μ G = V at hV hV0
  have a1 : 1 / 2 * G * V * (1 + (1 + r) * G) ≤ G * 0.54 := by
    have h2 : 1 + (1 + r) * G ≤ 1.03 := by nlinarith
    have h3 : V * (1 + (1 + r) * G) ≤ 1.04 * 1.03 := mul_le_mul hV h2 (by positivity) (by norm_num)
    nlinarith
  have a2 : μ * r * G ^ 2 / 4 * V ^ 3 ≤ G * 0.01 := by
    have h2 : V ^ 3 ≤ 1.04 ^ 3 := pow_le_pow_left₀ hV0.le hV 3
    have h3 : μ * r ≤ 2 / 3 * (1 / 1000) := mul_le_mul hμ1 hr1 hr (by norm_num)
    have h4 : G ^ 2 ≤ G * (1 / 50) := by nlinarith
    have h5 : μ * r * G ^ 2 / 4 ≤ 2 / 3 * (1 / 1000) * (G * (1 / 50)) / 4 := by
      have := mul_le_mul h3 h4 (by positivity) (by norm_num)
      linarith
    have := mul_le_mul h5 h2 (by positivity) (by positivity)
    refine this.trans ?_
    nlinarith
  have a3 : (1 / 2 * G * V * (1 + (1 + r) * G) + μ * r * G ^ 2 / 4 * V ^ 3) * Real.exp (μ * G) ≤ (G * 0.54 + G * 0.01) * (51 / 50 + 1 / 1000) :=
    mul_le_mul (add_le_add a1 a2) he2 (Real.exp_pos _).le (by positivity)
  linarith

theorem C175_nonvacuous : ∃ dom, precomputePoling (fun _ => 1 / 2) (exQpm "PP" dom).len = some (exQpm "PP" dom).domains ∧ Works (exQpm "PP" dom) 10 ∧
    (exQpm "PP" dom).mode = "PP" ∧ (((0 : Fin 2) : ℕ) : ℤ) + ((1 : Fin 2) : ℕ) = ((0 : Fin 2) : ℕ) + (2 / 2 : ℕ) ∧
    (0 < (exQpm "PP" dom).s.W 0 ∧ 0 < (exQpm "PP" dom).i.W 1) ∧ (exQpm "PP" dom).mismatch 0 0 1 * (1 / 2) = 2 * Real.pi * (1 : ℤ) ∧
    1 / 2 * (exQpm "PP" dom).opaRate 10 0 0 1 ‖(1 / 10 : ℂ)‖ < 1 ∧
    Spec.poledError (1 / 2 * (exQpm "PP" dom).opaRate 10 0 0 1 ‖(1 / 10 : ℂ)‖) ((exQpm "PP" dom).photonRatio 0 0 (1 / 10) (1 / 1000)) (Spec.poledShare 1)
        ((exQpm "PP" dom).opaRate 10 0 0 1 ‖(1 / 10 : ℂ)‖ * (exQpm "PP" dom).len) <
      Real.sinh (Spec.poledShare 1 * ((exQpm "PP" dom).opaRate 10 0 0 1 ‖(1 / 10 : ℂ)‖ * (exQpm "PP" dom).len)) := by
  obtain ⟨dom, hd⟩ := C68_terminates (pp := fun _ => 1 / 2) (ε := 1 / 2) (by norm_num) (fun _ => le_rfl) 1
  have hk : (exQpm "PP" dom).kappa 10 0 0 1 = 2 / (cMks * √(eps0 * cMks * (10 * 1e-12) * (2 * 2 * 2))) := rfl
  have hr : (4e-7 : ℝ) ≤ √(eps0 * cMks * (10 * 1e-12) * (2 * 2 * 2)) := Real.le_sqrt_of_sq_le (by norm_num [eps0, cMks])
  have n1 : ‖(1 / 10 : ℂ)‖ = 1 / 10 := by norm_num
  have n2 : ‖(1 / 1000 : ℂ)‖ = 1 / 1000 := by norm_num
  have e2 : (exQpm "PP" dom).len = 1 := rfl
  have hG : 0 < (exQpm "PP" dom).opaRate 10 0 0 1 ‖(1 / 10 : ℂ)‖ ∧ (exQpm "PP" dom).opaRate 10 0 0 1 ‖(1 / 10 : ℂ)‖ ≤ 1 / 50 := by
    rw [n1, Prob.opaRate, hk, show (exQpm "PP" dom).deff = 1 from rfl, show (exQpm "PP" dom).s.W 0 = 3 from rfl, show (exQpm "PP" dom).i.W 1 = 2 from rfl, one_mul]
    generalize √(eps0 * cMks * (10 * 1e-12) * (2 * 2 * 2)) = x at hr
    have hx : 0 < x := lt_of_lt_of_le (by norm_num) hr
    have hc := cMks_pos
    have hκ : 2 / (cMks * x) ≤ 1 / 50 := by
      rw [div_le_div_iff₀ (by positivity) (by norm_num)]
      have := mul_le_mul_of_nonneg_left hr hc.le
      norm_num [cMks] at this ⊢
      linarith
    have hκ0 : 0 < 2 / (cMks * x) := by positivity
    generalize 2 / (cMks * x) = κ at hκ hκ0
    rw [abs_of_pos hκ0]
    have h6 : √((3 : ℝ) * 2) ≤ 10 := Real.sqrt_le_iff.2 ⟨by norm_num, by norm_num⟩
    refine ⟨by positivity, ?_⟩
    generalize √((3 : ℝ) * 2) = y at h6
    have := mul_le_mul_of_nonneg_left h6 hκ0.le
    linarith
  have hR : (exQpm "PP" dom).photonRatio 0 0 (1 / 10) (1 / 1000) = 1 / 6000 := by
    rw [Prob.photonRatio, n1, n2, show (exQpm "PP" dom).s.W 0 = 3 from rfl, show (exQpm "PP" dom).p.W 0 = 5 from rfl]
    norm_num
  have hs : Spec.poledShare 1 = 2 / Real.pi := by simp [Spec.poledShare]
  have s1 : (0.6 : ℝ) < 2 / Real.pi := by
    rw [lt_div_iff₀ Real.pi_pos]
    have := Real.pi_lt_d2
    linarith
  have s2 : 2 / Real.pi ≤ 2 / 3 := by
    have := Real.pi_gt_three
    gcongr
  refine ⟨dom, hd, exQpm_works (.inl rfl) dom, rfl, rfl, ⟨by norm_num [exQpm, exGuided], by norm_num [exQpm, exGuided]⟩, ?_, by linarith [hG.2], ?_⟩
  · simp [Prob.mismatch, exQpm, exGuided]; ring
  · rw [hR, hs, e2, mul_one]
    generalize (exQpm "PP" dom).opaRate 10 0 0 1 ‖(1 / 10 : ℂ)‖ = G at hG
    have h1 := poledError_example hG.1 hG.2 (r := 1 / 6000) (by norm_num) (by norm_num) (μ := 2 / Real.pi) (by positivity) s2
    have h2 : 2 / Real.pi * G ≤ Real.sinh (2 / Real.pi * G) := Real.self_le_sinh_iff.2 (mul_nonneg (by positivity) hG.1.le)
    have h3 := mul_lt_mul_of_pos_right s1 hG.1
    linarith

end PyNLO.Dfg
