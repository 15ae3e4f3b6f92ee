import Verif.Props.DfgQpm

/-!
# C147: parametric amplification

A pump and a signal enter a waveguide crystal as continuous waves, without idler: the case that `src/validation/dfg_unit_test.py` compares
with the formulas of Boyd's textbook.  The signal grows by at most the square of a hyperbolic cosine, in a phase-matched crystal by at least
the same with a gain that allows for the depletion of the pump.
-/

open scoped BigOperators
open Set

namespace PyNLO.Spec

/-- The gain per length that the validation calculates from the field `A3` of the pump (`src/validation/dfg_unit_test.py:77-94`): `w1`, `w2`
are the angular frequencies of signal and idler, `n1`, `n2` their indices. -/
noncomputable def boydGain (c d w1 w2 n1 n2 A3 : ℝ) : ℝ := √(4 * d ^ 2 * w1 ^ 2 * w2 ^ 2 / ((n1 * w1 / c) * (n2 * w2 / c) * c ^ 4)) * A3

end PyNLO.Spec

namespace PyNLO.Dfg

open Beam

variable {N : ℕ} {q : Prob N} {squm : ℝ}

/-! ## Photon amplitudes -/

/-- Three amplitudes, in roots of photons, that mix along the crystal. -/
structure Photons (q : Prob N) (Γ Δ : ℝ) (E : Set ℝ) (a b c : ℝ → ℂ) : Prop where
  cont : ContinuousOn a (Icc 0 q.len) ∧ ContinuousOn b (Icc 0 q.len) ∧ ContinuousOn c (Icc 0 q.len)
  cnt : E.Countable
  da : ∀ z ∈ Ioo 0 q.len \ E, HasDerivAt a (((q.sign z : ℝ) : ℂ) * (Complex.I * (Γ : ℂ) * (b z * c z) * Complex.exp (Complex.I * ((Δ * z : ℝ) : ℂ)))) z
  db : ∀ z ∈ Ioo 0 q.len \ E, HasDerivAt b (((q.sign z : ℝ) : ℂ) * (Complex.I * (Γ : ℂ) * (a z * (starRingEnd ℂ) (c z)) *
    Complex.exp (Complex.I * ((-Δ * z : ℝ) : ℂ)))) z
  dc : ∀ z ∈ Ioo 0 q.len \ E, HasDerivAt c (((q.sign z : ℝ) : ℂ) * (Complex.I * (Γ : ℂ) * (a z * (starRingEnd ℂ) (b z)) *
    Complex.exp (Complex.I * ((-Δ * z : ℝ) : ℂ)))) z

/-- A function without derivative keeps its value. -/
theorem const_of_deriv_zero {f : ℝ → ℝ} {E : Set ℝ} (hE : E.Countable) {z : ℝ} (hz : 0 ≤ z) (hc : ContinuousOn f (Icc 0 z))
    (hd : ∀ t ∈ Ioo 0 z \ E, HasDerivAt f 0 t) : f z = f 0 := by
  have := MeasureTheory.integral_eq_of_hasDerivAt_off_countable_of_le f (fun _ => 0) hz hE hc hd intervalIntegrable_const
  rw [intervalIntegral.integral_zero] at this
  linarith

theorem hasDerivAt_norm_sq {f : ℝ → ℂ} {d : ℂ} {z : ℝ} (h : HasDerivAt f d z) :
    HasDerivAt (fun t => ‖f t‖ ^ 2) (2 * ((starRingEnd ℂ) (f z) * d).re) z := by
  have := h.norm_sq
  rwa [Complex.inner, mul_comm d] at this

variable {Γ Δ : ℝ} {E : Set ℝ} {a b c : ℝ → ℂ}

/-- A photon of the pump turns into one of the signal and one of the idler. -/
theorem Photons.fluxes (P : Photons q Γ Δ E a b c) {z : ℝ} (hz : z ∈ Icc 0 q.len) :
    ‖b z‖ ^ 2 - ‖c z‖ ^ 2 = ‖b 0‖ ^ 2 - ‖c 0‖ ^ 2 ∧ ‖a z‖ ^ 2 + ‖c z‖ ^ 2 = ‖a 0‖ ^ 2 + ‖c 0‖ ^ 2 := by
  have sub : Icc 0 z ⊆ Icc 0 q.len := Icc_subset_Icc_right hz.2
  have hin : ∀ t ∈ Ioo 0 z \ E, t ∈ Ioo 0 q.len \ E := fun t ht => ⟨⟨ht.1.1, ht.1.2.trans_le hz.2⟩, ht.2⟩
  have ca := (P.cont.1.mono sub).norm.pow 2
  have cb := (P.cont.2.1.mono sub).norm.pow 2
  have cc := (P.cont.2.2.mono sub).norm.pow 2
  have conjE : ∀ t : ℝ, Complex.exp (Complex.I * ((-Δ * t : ℝ) : ℂ)) = (starRingEnd ℂ) (Complex.exp (Complex.I * ((Δ * t : ℝ) : ℂ))) := by
    intro t
    rw [conj_exp_phase]
  constructor
  · refine const_of_deriv_zero P.cnt hz.1 (f := fun t => ‖b t‖ ^ 2 - ‖c t‖ ^ 2) (cb.sub cc) fun t ht => ?_
    refine ((hasDerivAt_norm_sq (P.db t (hin t ht))).sub (hasDerivAt_norm_sq (P.dc t (hin t ht)))).congr_deriv ?_
    rw [← mul_sub, ← Complex.sub_re]
    have : (starRingEnd ℂ) (b t) * (((q.sign t : ℝ) : ℂ) * (Complex.I * (Γ : ℂ) * (a t * (starRingEnd ℂ) (c t)) * Complex.exp (Complex.I * ((-Δ * t : ℝ) : ℂ)))) -
        (starRingEnd ℂ) (c t) * (((q.sign t : ℝ) : ℂ) * (Complex.I * (Γ : ℂ) * (a t * (starRingEnd ℂ) (b t)) * Complex.exp (Complex.I * ((-Δ * t : ℝ) : ℂ)))) = 0 := by
      ring
    rw [this]
    simp
  · refine const_of_deriv_zero P.cnt hz.1 (f := fun t => ‖a t‖ ^ 2 + ‖c t‖ ^ 2) (ca.add cc) fun t ht => ?_
    refine ((hasDerivAt_norm_sq (P.da t (hin t ht))).add (hasDerivAt_norm_sq (P.dc t (hin t ht)))).congr_deriv ?_
    rw [← mul_add, ← Complex.add_re, conjE]
    generalize Complex.exp (Complex.I * ((Δ * t : ℝ) : ℂ)) = e
    set w := (starRingEnd ℂ) (a t) * (b t * c t) * e with hw
    have : (starRingEnd ℂ) (a t) * (((q.sign t : ℝ) : ℂ) * (Complex.I * (Γ : ℂ) * (b t * c t) * e)) +
        (starRingEnd ℂ) (c t) * (((q.sign t : ℝ) : ℂ) * (Complex.I * (Γ : ℂ) * (a t * (starRingEnd ℂ) (b t)) * (starRingEnd ℂ) e)) =
        ((q.sign t * Γ : ℝ) : ℂ) * (Complex.I * (w + (starRingEnd ℂ) w)) := by
      rw [hw]
      simp only [map_mul, Complex.conj_conj]
      push_cast
      ring
    rw [this, Complex.add_conj]
    simp

/-- Growth at a bounded rate with a drive that grows at this rate, from the integral inequality. -/
theorem gronwall_driven {F : ℝ → ℝ} {k A D z : ℝ} (hk : 0 ≤ k) (hz : 0 ≤ z) (hF : ContinuousOn F (Icc 0 z))
    (h : ∀ t ∈ Icc 0 z, F t ≤ A + ∫ x in (0)..t, (k * F x + D * Real.exp (k * x))) : F z ≤ (A + D * z) * Real.exp (k * z) := by
  rcases hz.eq_or_lt with rfl | hz0
  · simpa using h 0 ⟨le_rfl, le_rfl⟩
  set H : ℝ → ℝ := fun t => A + ∫ x in (0)..t, (k * F x + D * Real.exp (k * x)) with hH
  have hFc : ContinuousOn (fun x => k * F x + D * Real.exp (k * x)) (Icc 0 z) := (continuousOn_const.mul hF).add (by fun_prop)
  have hi : IntervalIntegrable (fun x => k * F x + D * Real.exp (k * x)) MeasureTheory.volume 0 z :=
    (hFc.mono (by rw [uIcc_of_le hz])).intervalIntegrable
  have cH : ContinuousOn H (Icc 0 z) := by
    have := intervalIntegral.continuousOn_primitive_interval' hi (left_mem_uIcc)
    rw [uIcc_of_le hz] at this
    exact continuousOn_const.add this
  have dH : ∀ t ∈ Ioo 0 z, HasDerivAt H (k * F t + D * Real.exp (k * t)) t := by
    intro t ht
    have hn : Icc 0 z ∈ nhds t := Icc_mem_nhds ht.1 ht.2
    have hm : StronglyMeasurableAtFilter (fun x => k * F x + D * Real.exp (k * x)) (nhds t) MeasureTheory.volume :=
      hFc.mono Ioo_subset_Icc_self |>.stronglyMeasurableAtFilter isOpen_Ioo t ht
    exact (intervalIntegral.integral_hasDerivAt_right (hi.mono_set (by
      rw [uIcc_of_le ht.1.le, uIcc_of_le hz]; exact Icc_subset_Icc_right ht.2.le)) hm (hFc.continuousAt hn)).const_add A
  have dG : ∀ t ∈ Ioo 0 z, HasDerivAt (fun t => H t * Real.exp (-(k * t)) - D * t) (k * (F t - H t) * Real.exp (-(k * t))) t := by
    intro t ht
    refine (((dH t ht).mul (((hasDerivAt_id t).const_mul k).neg.exp)).sub ((hasDerivAt_id t).const_mul D)).congr_deriv ?_
    have he : Real.exp (k * t) * Real.exp (-(k * t)) = 1 := by rw [← Real.exp_add]; simp
    simp only [id, mul_one, Pi.neg_apply]
    linear_combination D * he
  have anti : AntitoneOn (fun t => H t * Real.exp (-(k * t)) - D * t) (Icc 0 z) := by
    refine antitoneOn_of_deriv_nonpos (convex_Icc 0 z) ((cH.mul (by fun_prop)).sub (by fun_prop)) (fun t ht => ?_) fun t ht => ?_
    · rw [interior_Icc] at ht
      exact (dG t ht).differentiableAt.differentiableWithinAt
    · rw [interior_Icc] at ht
      rw [(dG t ht).deriv]
      have h1 := h t ⟨ht.1.le, ht.2.le⟩
      have h2 : F t - H t ≤ 0 := by rw [hH]; linarith
      exact mul_nonpos_of_nonpos_of_nonneg (mul_nonpos_of_nonneg_of_nonpos hk h2) (Real.exp_pos _).le
  have h1 := anti (left_mem_Icc.2 hz) (right_mem_Icc.2 hz) hz
  have h2 := h z ⟨hz, le_rfl⟩
  have h3 : H 0 = A := by simp [hH]
  simp only [h3, mul_zero, neg_zero, Real.exp_zero, mul_one, sub_zero] at h1
  calc F z ≤ H z := h2
    _ = H z * Real.exp (-(k * z)) * Real.exp (k * z) := by rw [mul_assoc, ← Real.exp_add]; simp
    _ ≤ (A + D * z) * Real.exp (k * z) := mul_le_mul_of_nonneg_right (by linarith) (Real.exp_pos _).le

/-- Growth at a bounded rate, from the integral inequality. -/
theorem gronwall_integral {F : ℝ → ℝ} {k A z : ℝ} (hk : 0 ≤ k) (hz : 0 ≤ z) (hF : ContinuousOn F (Icc 0 z))
    (h : ∀ t ∈ Icc 0 z, F t ≤ A + ∫ x in (0)..t, k * F x) : F z ≤ A * Real.exp (k * z) := by
  have := gronwall_driven (D := 0) hk hz hF (A := A) (by simpa using h)
  simpa using this

/-- `x + y ≤ f e ^ g` and `x² - y² = f²` bound `x` by `f cosh g` and `y` by `f sinh g`. -/
theorem cosh_sinh_bound {x y f g : ℝ} (hx : 0 ≤ x) (hy : 0 ≤ y) (hf : 0 ≤ f) (hg : 0 ≤ g) (h : x ^ 2 - y ^ 2 = f ^ 2) (hs : x + y ≤ f * Real.exp g) :
    x ≤ f * Real.cosh g ∧ y ≤ f * Real.sinh g := by
  rcases hf.eq_or_lt with rfl | hf0
  · have h1 : x + y ≤ 0 := by simpa using hs
    constructor <;> · simp only [zero_mul]; linarith
  have hxf : f ≤ x := by
    refine (sq_le_sq₀ hf hx).1 ?_
    nlinarith [sq_nonneg y]
  have hs0 : 0 < x + y := by linarith
  have hd : f * Real.exp (-g) ≤ x - y := by
    have e : x - y = f ^ 2 / (x + y) := by
      field_simp
      nlinarith
    rw [e, le_div_iff₀ hs0]
    calc f * Real.exp (-g) * (x + y) ≤ f * Real.exp (-g) * (f * Real.exp g) := mul_le_mul_of_nonneg_left hs (by positivity)
      _ = f ^ 2 * (Real.exp (-g) * Real.exp g) := by ring
      _ = f ^ 2 := by rw [← Real.exp_add]; simp
  have hy' : y ≤ f * Real.sinh g := by rw [Real.sinh_eq]; linarith
  refine ⟨(sq_le_sq₀ hx (mul_nonneg hf (Real.cosh_pos g).le)).1 ?_, hy'⟩
  have h1 := (sq_le_sq₀ hy (mul_nonneg hf (Real.sinh_nonneg_iff.2 hg))).2 hy'
  rw [mul_pow] at h1 ⊢
  rw [Real.cosh_sq]
  linarith

theorem norm_drive (q : Prob N) (t Γ x : ℝ) (u v : ℂ) : ‖((q.sign t : ℝ) : ℂ) * (Complex.I * (Γ : ℂ) * (u * (starRingEnd ℂ) v) * Complex.exp (Complex.I * (x : ℂ)))‖ =
    |Γ| * (‖u‖ * ‖v‖) := by
  rw [norm_mul, norm_sign, one_mul, norm_mul, norm_phase, mul_one, norm_mul, norm_mul, Complex.norm_I, one_mul, Complex.norm_real, Real.norm_eq_abs, norm_mul,
    RCLike.norm_conj]

/-- Without idler at the entrance, whatever the mismatch and the poling. -/
theorem Photons.limit (P : Photons q Γ Δ E a b c) (h0 : c 0 = 0) {z : ℝ} (hz : z ∈ Icc 0 q.len) :
    ‖b z‖ + ‖c z‖ ≤ ‖b 0‖ * Real.exp (|Γ| * ‖a 0‖ * z) ∧
    ‖b z‖ ≤ ‖b 0‖ * Real.cosh (|Γ| * ‖a 0‖ * z) ∧ ‖c z‖ ≤ ‖b 0‖ * Real.sinh (|Γ| * ‖a 0‖ * z) := by
  have hk : 0 ≤ |Γ| * ‖a 0‖ := by positivity
  have ha : ∀ t ∈ Icc 0 q.len, ‖a t‖ ≤ ‖a 0‖ := by
    intro t ht
    have := (P.fluxes ht).2
    rw [h0, norm_zero] at this
    exact (sq_le_sq₀ (norm_nonneg _) (norm_nonneg _)).1 (by nlinarith [sq_nonneg ‖c t‖])
  have hf := (P.fluxes hz).1
  rw [h0, norm_zero] at hf
  suffices hsum : ‖b z‖ + ‖c z‖ ≤ ‖b 0‖ * Real.exp (|Γ| * ‖a 0‖ * z) from
    ⟨hsum, cosh_sinh_bound (norm_nonneg _) (norm_nonneg _) (norm_nonneg _) (mul_nonneg hk hz.1) (by rw [hf]; ring) hsum⟩
  have sub : ∀ t ∈ Icc 0 q.len, Icc 0 t ⊆ Icc 0 q.len := fun t ht => Icc_subset_Icc_right ht.2
  -- one driven wave
  have drive : ∀ (f g : ℝ → ℂ), ContinuousOn f (Icc 0 q.len) → ContinuousOn g (Icc 0 q.len) →
      (∀ t ∈ Ioo 0 q.len \ E, HasDerivAt f (((q.sign t : ℝ) : ℂ) * (Complex.I * (Γ : ℂ) * (a t * (starRingEnd ℂ) (g t)) *
        Complex.exp (Complex.I * ((-Δ * t : ℝ) : ℂ)))) t) → ∀ t ∈ Icc 0 q.len, ‖f t‖ ≤ ‖f 0‖ + ∫ x in (0)..t, |Γ| * ‖a 0‖ * ‖g x‖ := by
    intro f g cf cg hd t ht
    have hc : ContinuousOn (fun t => Complex.I * (Γ : ℂ) * (a t * (starRingEnd ℂ) (g t)) * Complex.exp (Complex.I * ((-Δ * t : ℝ) : ℂ))) (Icc 0 t) :=
      ((continuousOn_const.mul ((P.cont.1.mono (sub t ht)).mul (Complex.continuous_conj.comp_continuousOn (cg.mono (sub t ht))))).mul
        (continuous_phase (-Δ)).continuousOn)
    have hi := amplitude_integral (q := q) P.cnt ht.1 (cf.mono (sub t ht)) hc fun x hx => hd x ⟨⟨hx.1.1, hx.1.2.trans_le ht.2⟩, hx.2⟩
    have h1 : ‖f t - f 0‖ ≤ ∫ x in (0)..t, |Γ| * ‖a 0‖ * ‖g x‖ := by
      rw [hi]
      refine intervalIntegral.norm_integral_le_of_norm_le ht.1 (Filter.Eventually.of_forall fun x hx => ?_) ?_
      · rw [norm_drive, mul_assoc]
        exact mul_le_mul_of_nonneg_left (mul_le_mul_of_nonneg_right (ha x ⟨hx.1.le, hx.2.trans ht.2⟩) (norm_nonneg _)) (abs_nonneg _)
      · exact ContinuousOn.intervalIntegrable (by rw [uIcc_of_le ht.1]; exact continuousOn_const.mul (cg.mono (sub t ht)).norm)
    have h2 := norm_add_le (f t - f 0) (f 0)
    rw [sub_add_cancel] at h2
    linarith
  refine gronwall_integral (F := fun t => ‖b t‖ + ‖c t‖) hk hz.1 ((P.cont.2.1.mono (sub z hz)).norm.add (P.cont.2.2.mono (sub z hz)).norm) fun t ht => ?_
  have ht' : t ∈ Icc 0 q.len := ⟨ht.1, ht.2.trans hz.2⟩
  have h1 := drive b c P.cont.2.1 P.cont.2.2 P.db t ht'
  have h2 := drive c b P.cont.2.2 P.cont.2.1 P.dc t ht'
  rw [h0, norm_zero, zero_add] at h2
  have i1 : ∀ g : ℝ → ℂ, ContinuousOn g (Icc 0 q.len) → IntervalIntegrable (fun x => |Γ| * ‖a 0‖ * ‖g x‖) MeasureTheory.volume 0 t := fun g cg =>
    ContinuousOn.intervalIntegrable (by rw [uIcc_of_le ht.1]; exact continuousOn_const.mul (cg.mono (sub t ht')).norm)
  have e : ∫ x in (0)..t, |Γ| * ‖a 0‖ * (‖b x‖ + ‖c x‖) = (∫ x in (0)..t, |Γ| * ‖a 0‖ * ‖b x‖) + ∫ x in (0)..t, |Γ| * ‖a 0‖ * ‖c x‖ := by
    rw [← intervalIntegral.integral_add (i1 b P.cont.2.1) (i1 c P.cont.2.2)]
    refine intervalIntegral.integral_congr fun x _ => ?_
    ring
  rw [e]
  linarith

/-! ## Phase matched: the phases stay put -/

/-- Amplitudes that are real but for constant phases. -/
structure Locked (q : Prob N) (Γ : ℝ) (E : Set ℝ) (A B C : ℝ → ℝ) : Prop where
  cont : ContinuousOn A (Icc 0 q.len) ∧ ContinuousOn B (Icc 0 q.len) ∧ ContinuousOn C (Icc 0 q.len)
  cnt : E.Countable
  dB : ∀ z ∈ Ioo 0 q.len \ E, HasDerivAt B (q.sign z * (Γ * A z) * C z) z
  dC : ∀ z ∈ Ioo 0 q.len \ E, HasDerivAt C (q.sign z * (Γ * A z) * B z) z

/-- The integral of the gain along the crystal. -/
noncomputable def gained (q : Prob N) (Γ : ℝ) (A : ℝ → ℝ) (z : ℝ) : ℝ := ∫ t in (0)..z, q.sign t * (Γ * A t)

variable {A B C : ℝ → ℝ}

theorem Locked.grow (L : Locked q Γ E A B C) (h0 : C 0 = 0) {z : ℝ} (hz : z ∈ Icc 0 q.len) :
    B z = B 0 * Real.cosh (gained q Γ A z) ∧ C z = B 0 * Real.sinh (gained q Γ A z) := by
  have hlen : 0 ≤ q.len := hz.1.trans hz.2
  have hi : IntervalIntegrable (fun t => q.sign t * (Γ * A t)) MeasureTheory.volume 0 q.len :=
    (sign_integrable q 0 q.len).mul_continuousOn (by rw [uIcc_of_le hlen]; exact continuousOn_const.mul L.cont.1)
  have cθ : ContinuousOn (gained q Γ A) (Icc 0 q.len) := by
    have := intervalIntegral.continuousOn_primitive_interval' hi left_mem_uIcc
    rwa [uIcc_of_le hlen] at this
  have dθ : ∀ t ∈ Ioo 0 q.len, t ∉ q.walls → HasDerivAt (gained q Γ A) (q.sign t * (Γ * A t)) t := by
    intro t ht hw
    have hn : Icc 0 q.len ∈ nhds t := Icc_mem_nhds ht.1 ht.2
    have hca : ContinuousOn (fun t => Γ * A t) (Icc 0 q.len) := continuousOn_const.mul L.cont.1
    have hc : ContinuousAt (fun t => q.sign t * (Γ * A t)) t := (sign_continuousAt ht hw).mul (hca.continuousAt hn)
    have hm : StronglyMeasurableAtFilter (fun t => q.sign t * (Γ * A t)) (nhds t) MeasureTheory.volume :=
      ⟨Ioo 0 q.len, isOpen_Ioo.mem_nhds ht, ((sign_measurable q).aestronglyMeasurable).mul
        ((hca.mono Ioo_subset_Icc_self).aestronglyMeasurable measurableSet_Ioo)⟩
    exact intervalIntegral.integral_hasDerivAt_right (hi.mono_set (by rw [uIcc_of_le ht.1.le, uIcc_of_le hlen]; exact Icc_subset_Icc_right ht.2.le)) hm hc
  have hE : (E ∪ (q.walls : Set ℝ)).Countable := L.cnt.union q.walls.countable_toSet
  have sub : Icc 0 z ⊆ Icc 0 q.len := Icc_subset_Icc_right hz.2
  have key : ∀ (s : ℝ), s ^ 2 = 1 → B z + s * C z = B 0 * Real.exp (s * gained q Γ A z) := by
    intro s hs
    have h1 := const_of_deriv_zero hE hz.1 (f := fun t => (B t + s * C t) * Real.exp (-(s * gained q Γ A t)))
      (((L.cont.2.1.mono sub).add (continuousOn_const.mul (L.cont.2.2.mono sub))).mul
        (Real.continuous_exp.comp_continuousOn (continuousOn_const.mul (cθ.mono sub)).neg)) fun t ht => ?_
    · have hg : gained q Γ A 0 = 0 := by simp [gained]
      simp only [h0, hg, mul_zero, add_zero, neg_zero, Real.exp_zero, mul_one] at h1
      rw [← h1, mul_assoc, ← Real.exp_add]
      simp
    · have ht' : t ∈ Ioo 0 q.len := ⟨ht.1.1, ht.1.2.trans_le hz.2⟩
      have hE1 : t ∉ E := fun h => ht.2 (Or.inl h)
      have hE2 : t ∉ q.walls := fun h => ht.2 (Or.inr h)
      refine (((L.dB t ⟨ht', hE1⟩).add ((L.dC t ⟨ht', hE1⟩).const_mul s)).mul (((dθ t ht' hE2).const_mul s).neg.exp)).congr_deriv ?_
      simp only [Pi.neg_apply, Pi.add_apply]
      linear_combination (-(q.sign t * (Γ * A t) * C t * Real.exp (-(s * gained q Γ A t)))) * hs
  have k1 := key 1 (by norm_num)
  have k2 := key (-1) (by norm_num)
  rw [one_mul, one_mul] at k1
  rw [neg_one_mul, neg_one_mul] at k2
  rw [Real.cosh_eq, Real.sinh_eq]
  constructor <;> linarith

/-! ## The waves of a problem -/

/-- The gain per length of a signal for a pump of the amplitude `P`. -/
noncomputable def Prob.opaRate (q : Prob N) (squm : ℝ) (m j l : Fin N) (P : ℝ) : ℝ := |q.deff * q.kappa squm m j l| * √(q.s.W j * q.i.W l) * P

theorem gain_one {m j l : Fin N} (hW : 0 ≤ q.p.W m ∧ 0 ≤ q.s.W j) :
    q.gain squm m j l 1 = q.deff * q.kappa squm m j l * (√(q.p.W m) * √(q.s.W j) * √(q.i.W l)) := by
  rw [Prob.gain, mul_one, Real.sqrt_mul (mul_nonneg hW.1 hW.2), Real.sqrt_mul hW.1]

theorem opaRate_gain {m j l : Fin N} (hW : 0 < q.p.W m ∧ 0 ≤ q.s.W j) (P : ℝ) :
    |q.gain squm m j l 1| * (P / √(q.p.W m)) = q.opaRate squm m j l P := by
  have h0 := Real.sqrt_pos.2 hW.1
  rw [gain_one ⟨hW.1.le, hW.2⟩, abs_mul, abs_mul (√(q.p.W m) * √(q.s.W j)), abs_mul (√(q.p.W m)), abs_of_pos h0, abs_of_nonneg (Real.sqrt_nonneg (q.s.W j)),
    abs_of_nonneg (Real.sqrt_nonneg (q.i.W l)), Prob.opaRate, Real.sqrt_mul hW.2]
  field_simp

/-- The lines of a solution as photon amplitudes. -/
theorem photons_of_lines (W : Works q squm) {m j l : Fin N} (h : ((j : ℕ) : ℤ) + (l : ℕ) = (m : ℕ) + (N / 2 : ℕ))
    (hW : 0 < q.s.W j ∧ 0 < q.i.W l) {p0 s0 i0 : ℂ} {Y : ℝ → Fin (3 * N) → ℂ} (hY : Solves q Y 0 q.len) (h0 : Y 0 = lines m j l p0 s0 i0) :
    ∃ (E : Set ℝ) (a b c : ℝ → ℂ), Photons q (q.gain squm m j l 1) (q.mismatch m j l) E a b c ∧
      (‖a 0‖ = ‖p0‖ / √(q.p.W m) ∧ ‖b 0‖ = ‖s0‖ / √(q.s.W j) ∧ c 0 = i0 / (√(q.i.W l) : ℝ)) ∧
      ∀ z ∈ Icc 0 q.len, ‖Ap (Y z) m‖ = √(q.p.W m) * ‖a z‖ ∧ ‖As (Y z) j‖ = √(q.s.W j) * ‖b z‖ ∧ ‖Ai (Y z) l‖ = √(q.i.W l) * ‖c z‖ := by
  obtain ⟨p, s, i, hl, ⟨hp0, hs0, hi0⟩, ⟨cp, cs, ci⟩, E, hE, hd⟩ := C143_lines W h hY h0
  have hWp : 0 < q.p.W m := by rw [W.matched m j l h]; exact add_pos hW.1 hW.2
  have rp := Real.sqrt_pos.2 hWp
  have rs := Real.sqrt_pos.2 hW.1
  have ri := Real.sqrt_pos.2 hW.2
  have ep : ((q.p.W m : ℝ) : ℂ) = ((√(q.p.W m) : ℝ) : ℂ) ^ 2 := by rw [← Complex.ofReal_pow, Real.sq_sqrt hWp.le]
  have es : ((q.s.W j : ℝ) : ℂ) = ((√(q.s.W j) : ℝ) : ℂ) ^ 2 := by rw [← Complex.ofReal_pow, Real.sq_sqrt hW.1.le]
  have ei : ((q.i.W l : ℝ) : ℂ) = ((√(q.i.W l) : ℝ) : ℂ) ^ 2 := by rw [← Complex.ofReal_pow, Real.sq_sqrt hW.2.le]
  have eg := gain_one (q := q) (squm := squm) (m := m) (j := j) (l := l) ⟨hWp.le, hW.1.le⟩
  have np : ((√(q.p.W m) : ℝ) : ℂ) ≠ 0 := by exact_mod_cast rp.ne'
  have ns : ((√(q.s.W j) : ℝ) : ℂ) ≠ 0 := by exact_mod_cast rs.ne'
  have ni : ((√(q.i.W l) : ℝ) : ℂ) ≠ 0 := by exact_mod_cast ri.ne'
  have nrm : ∀ {r : ℝ}, 0 < r → ∀ x : ℂ, ‖x / (r : ℂ)‖ = ‖x‖ / r := by
    intro r hr x
    rw [norm_div, Complex.norm_real, Real.norm_eq_abs, abs_of_pos hr]
  refine ⟨E, fun z => p z / (√(q.p.W m) : ℝ), fun z => s z / (√(q.s.W j) : ℝ), fun z => i z / (√(q.i.W l) : ℝ), ⟨⟨cp.div_const _, cs.div_const _, ci.div_const _⟩, hE, ?_, ?_, ?_⟩,
    ⟨by rw [nrm rp, hp0], by rw [nrm rs, hs0], by simp only [hi0]⟩, fun z hz => ?_⟩
  · intro z hz
    refine ((hd z hz).1.div_const _).congr_deriv ?_
    rw [eg]
    push_cast
    rw [ep]
    field_simp
  · intro z hz
    refine ((hd z hz).2.1.div_const _).congr_deriv ?_
    rw [eg, map_div₀, Complex.conj_ofReal]
    push_cast
    rw [es]
    field_simp
  · intro z hz
    refine ((hd z hz).2.2.div_const _).congr_deriv ?_
    rw [eg, map_div₀, Complex.conj_ofReal]
    push_cast
    rw [ei]
    field_simp
  · rw [hl z hz, lines, Ap_join, As_join, Ai_join, Pi.single_eq_same, Pi.single_eq_same, Pi.single_eq_same, nrm rp, nrm rs, nrm ri]
    refine ⟨?_, ?_, ?_⟩ <;> field_simp

/-- C147, fluxes: whatever the mismatch and the poling, the signal gains as many photons as the idler, and the pump loses them. -/
theorem C147_fluxes (W : Works q squm) {m j l : Fin N} (h : ((j : ℕ) : ℤ) + (l : ℕ) = (m : ℕ) + (N / 2 : ℕ))
    (hW : 0 < q.s.W j ∧ 0 < q.i.W l) {p0 s0 : ℂ} {Y : ℝ → Fin (3 * N) → ℂ} (hY : Solves q Y 0 q.len) (h0 : Y 0 = lines m j l p0 s0 0) {z : ℝ}
    (hz : z ∈ Icc 0 q.len) :
    ‖Ai (Y z) l‖ ^ 2 = q.i.W l / q.s.W j * (‖As (Y z) j‖ ^ 2 - ‖s0‖ ^ 2) ∧
    ‖Ap (Y z) m‖ ^ 2 = ‖p0‖ ^ 2 - q.p.W m / q.s.W j * (‖As (Y z) j‖ ^ 2 - ‖s0‖ ^ 2) := by
  obtain ⟨E, a, b, c, P, ⟨ha, hb, hc⟩, hn⟩ := photons_of_lines W h hW hY h0
  have hWp : 0 < q.p.W m := by rw [W.matched m j l h]; exact add_pos hW.1 hW.2
  obtain ⟨f1, f2⟩ := P.fluxes hz
  obtain ⟨n1, n2, n3⟩ := hn z hz
  rw [zero_div] at hc
  rw [hc, norm_zero, hb, div_pow, Real.sq_sqrt hW.1.le] at f1
  rw [hc, norm_zero, ha, div_pow, Real.sq_sqrt hWp.le] at f2
  rw [n1, n2, n3, mul_pow, mul_pow, mul_pow, Real.sq_sqrt hW.1.le, Real.sq_sqrt hW.2.le, Real.sq_sqrt hWp.le]
  have h1 : ‖c z‖ ^ 2 = ‖b z‖ ^ 2 - ‖s0‖ ^ 2 / q.s.W j := by linarith
  have h2 : ‖a z‖ ^ 2 = ‖p0‖ ^ 2 / q.p.W m - ‖c z‖ ^ 2 := by linarith
  have := hW.1.ne'
  have := hWp.ne'
  rw [h2, h1]
  constructor
  · field_simp
  · field_simp

/-- C147, limit: no crystal, matched or not, poled or not, amplifies the signal by more than the square of a hyperbolic cosine. -/
theorem C147_limit (W : Works q squm) {m j l : Fin N} (h : ((j : ℕ) : ℤ) + (l : ℕ) = (m : ℕ) + (N / 2 : ℕ))
    (hW : 0 < q.s.W j ∧ 0 < q.i.W l) {p0 s0 : ℂ} {Y : ℝ → Fin (3 * N) → ℂ} (hY : Solves q Y 0 q.len) (h0 : Y 0 = lines m j l p0 s0 0) {z : ℝ}
    (hz : z ∈ Icc 0 q.len) :
    ‖As (Y z) j‖ ^ 2 ≤ ‖s0‖ ^ 2 * Real.cosh (q.opaRate squm m j l ‖p0‖ * z) ^ 2 ∧
    ‖Ai (Y z) l‖ ^ 2 ≤ q.i.W l / q.s.W j * ‖s0‖ ^ 2 * Real.sinh (q.opaRate squm m j l ‖p0‖ * z) ^ 2 := by
  obtain ⟨E, a, b, c, P, ⟨ha, hb, hc⟩, hn⟩ := photons_of_lines W h hW hY h0
  have hWp : 0 < q.p.W m := by rw [W.matched m j l h]; exact add_pos hW.1 hW.2
  obtain ⟨n1, n2, n3⟩ := hn z hz
  rw [zero_div] at hc
  obtain ⟨-, h1, -⟩ := P.limit hc hz
  have hs : 0 < √(q.s.W j) := Real.sqrt_pos.2 hW.1
  rw [ha, hb, opaRate_gain ⟨hWp, hW.1.le⟩] at h1
  have h2 : ‖As (Y z) j‖ ^ 2 ≤ ‖s0‖ ^ 2 * Real.cosh (q.opaRate squm m j l ‖p0‖ * z) ^ 2 := by
    rw [← mul_pow]
    refine pow_le_pow_left₀ (norm_nonneg _) ?_ 2
    rw [n2]
    calc √(q.s.W j) * ‖b z‖ ≤ √(q.s.W j) * (‖s0‖ / √(q.s.W j) * Real.cosh (q.opaRate squm m j l ‖p0‖ * z)) := mul_le_mul_of_nonneg_left h1 hs.le
      _ = _ := by field_simp
  refine ⟨h2, ?_⟩
  rw [(C147_fluxes W h hW hY h0 hz).1, mul_assoc]
  refine mul_le_mul_of_nonneg_left ?_ (div_nonneg hW.2.le hW.1.le)
  rw [Real.cosh_sq] at h2
  linarith

/-- Phase-matched waves keep their phases. -/
theorem locked_of_lines (W : Works q squm) {m j l : Fin N} (h : ((j : ℕ) : ℤ) + (l : ℕ) = (m : ℕ) + (N / 2 : ℕ)) (hΔ : q.mismatch m j l = 0)
    (hW : 0 < q.s.W j ∧ 0 < q.i.W l) {A0 B0 : ℝ} {u v : ℂ} (hu : ‖u‖ = 1) (hv : ‖v‖ = 1) {Y : ℝ → Fin (3 * N) → ℂ} (hY : Solves q Y 0 q.len)
    (h0 : Y 0 = lines m j l (((√(q.p.W m) * A0 : ℝ) : ℂ) * u) (((√(q.s.W j) * B0 : ℝ) : ℂ) * v) 0) :
    ∃ (E : Set ℝ) (A B C : ℝ → ℝ), Locked q (q.gain squm m j l 1) E A B C ∧ (A 0 = A0 ∧ B 0 = B0 ∧ C 0 = 0) ∧
      ∀ z ∈ Icc 0 q.len, ‖Ap (Y z) m‖ = √(q.p.W m) * |A z| ∧ ‖As (Y z) j‖ = √(q.s.W j) * |B z| ∧ ‖Ai (Y z) l‖ = √(q.i.W l) * |C z| := by
  obtain ⟨p, s, i, hl, ⟨hp0, hs0, hi0⟩, ⟨cp, cs, ci⟩, E, hE, hd⟩ := C143_lines W h hY h0
  have hWp : 0 < q.p.W m := by rw [W.matched m j l h]; exact add_pos hW.1 hW.2
  have rp := Real.sqrt_pos.2 hWp
  have rs := Real.sqrt_pos.2 hW.1
  have ri := Real.sqrt_pos.2 hW.2
  have uu : u * (starRingEnd ℂ) u = 1 := by rw [Complex.mul_conj, Complex.normSq_eq_norm_sq, hu]; simp
  have vv : v * (starRingEnd ℂ) v = 1 := by rw [Complex.mul_conj, Complex.normSq_eq_norm_sq, hv]; simp
  simp only [hΔ, neg_zero, zero_mul, Complex.ofReal_zero, mul_zero, Complex.exp_zero, mul_one] at hd
  -- the mirrored waves solve the same equations
  have mirror : Solves q (fun z => lines m j l (u ^ 2 * (starRingEnd ℂ) (p z)) (v ^ 2 * (starRingEnd ℂ) (s z))
      (-((u * (starRingEnd ℂ) v) ^ 2 * (starRingEnd ℂ) (i z)))) 0 q.len := by
    refine ⟨continuousOn_lines m j l (continuousOn_const.mul (Complex.continuous_conj.comp_continuousOn cp)) (continuousOn_const.mul (Complex.continuous_conj.comp_continuousOn cs))
      (continuousOn_const.mul (Complex.continuous_conj.comp_continuousOn ci)).neg, E, hE, fun z hz => ⟨FftC.zeros N, _, W.deriv _ _ _, ?_⟩⟩
    obtain ⟨dp, ds, di⟩ := hd z hz
    have cj : ∀ {f : ℝ → ℂ} {d : ℂ}, HasDerivAt f d z → HasDerivAt (fun t => (starRingEnd ℂ) (f t)) ((starRingEnd ℂ) d) z := fun h =>
      (Complex.conjCLE : ℂ ≃L[ℝ] ℂ).toContinuousLinearMap.hasFDerivAt.comp_hasDerivAt z h
    refine (hasDerivAt_join (hasDerivAt_single m ((cj dp).const_mul (u ^ 2))) (hasDerivAt_single j ((cj ds).const_mul (v ^ 2)))
      (hasDerivAt_single l ((cj di).const_mul ((u * (starRingEnd ℂ) v) ^ 2)).neg)).congr_deriv ?_
    rw [W.lines h, hΔ]
    simp only [lines, neg_zero, zero_mul, Complex.ofReal_zero, mul_zero, Complex.exp_zero, mul_one, map_mul, map_neg, map_pow, Complex.conj_conj, Complex.conj_ofReal,
      Complex.conj_I]
    congr 2
    · linear_combination (Complex.I * ((q.sign z * q.deff * q.kappa squm m j l * q.p.W m : ℝ) : ℂ) * ((starRingEnd ℂ) (s z) * (starRingEnd ℂ) (i z)) * u ^ 2 *
        (v * (starRingEnd ℂ) v + 1)) * vv
    · linear_combination (Complex.I * ((q.sign z * q.deff * q.kappa squm m j l * q.s.W j : ℝ) : ℂ) * ((starRingEnd ℂ) (p z) * i z) * v ^ 2 *
        (u * (starRingEnd ℂ) u + 1)) * uu
    · ring
  obtain ⟨Y1, -, -, hun, -⟩ := C121_solution W (lines m j l (((√(q.p.W m) * A0 : ℝ) : ℂ) * u) (((√(q.s.W j) * B0 : ℝ) : ℂ) * v) 0)
  have m0 : lines m j l (u ^ 2 * (starRingEnd ℂ) (p 0)) (v ^ 2 * (starRingEnd ℂ) (s 0)) (-((u * (starRingEnd ℂ) v) ^ 2 * (starRingEnd ℂ) (i 0))) =
      lines m j l (((√(q.p.W m) * A0 : ℝ) : ℂ) * u) (((√(q.s.W j) * B0 : ℝ) : ℂ) * v) 0 := by
    rw [hp0, hs0, hi0, map_mul, map_mul, Complex.conj_ofReal, Complex.conj_ofReal, map_zero, mul_zero, neg_zero]
    congr 1
    · linear_combination (((√(q.p.W m) * A0 : ℝ) : ℂ) * u) * uu
    · linear_combination (((√(q.s.W j) * B0 : ℝ) : ℂ) * v) * vv
  have same : ∀ z ∈ Icc 0 q.len, u ^ 2 * (starRingEnd ℂ) (p z) = p z ∧ v ^ 2 * (starRingEnd ℂ) (s z) = s z ∧
      -((u * (starRingEnd ℂ) v) ^ 2 * (starRingEnd ℂ) (i z)) = i z := by
    intro z hz
    have e : lines m j l _ _ _ = lines m j l (p z) (s z) (i z) := ((hun _ mirror m0 hz).trans (hun _ hY h0 hz).symm).trans (hl z hz)
    have e1 := congrFun (congrArg Ap e) m
    have e2 := congrFun (congrArg As e) j
    have e3 := congrFun (congrArg Ai e) l
    simp only [lines, Ap_join, As_join, Ai_join, Pi.single_eq_same] at e1 e2 e3
    exact ⟨e1, e2, e3⟩
  have real : ∀ {x : ℂ}, (starRingEnd ℂ) x = x → x = (x.re : ℂ) := fun hx => (Complex.conj_eq_iff_re.1 hx).symm
  have np : ((√(q.p.W m) : ℝ) : ℂ) ≠ 0 := by exact_mod_cast rp.ne'
  have ns : ((√(q.s.W j) : ℝ) : ℂ) ≠ 0 := by exact_mod_cast rs.ne'
  have ni : ((√(q.i.W l) : ℝ) : ℂ) ≠ 0 := by exact_mod_cast ri.ne'
  set A : ℝ → ℝ := fun z => ((starRingEnd ℂ) u * p z / (√(q.p.W m) : ℝ)).re with hA
  set B : ℝ → ℝ := fun z => ((starRingEnd ℂ) v * s z / (√(q.s.W j) : ℝ)).re with hB
  set C : ℝ → ℝ := fun z => (-Complex.I * ((starRingEnd ℂ) u * v) * i z / (√(q.i.W l) : ℝ)).re with hC
  have fA : ∀ z ∈ Icc 0 q.len, p z = ((√(q.p.W m) : ℝ) : ℂ) * (A z : ℂ) * u := by
    intro z hz
    have e := (same z hz).1
    have : (starRingEnd ℂ) u * p z / (√(q.p.W m) : ℝ) = (A z : ℂ) := by
      rw [hA]
      refine real ?_
      simp only [map_div₀, map_mul, Complex.conj_conj, Complex.conj_ofReal]
      congr 1
      linear_combination (-(u * (starRingEnd ℂ) (p z))) * uu + (starRingEnd ℂ) u * e
    rw [← this]
    field_simp
    linear_combination (-p z) * uu
  have fB : ∀ z ∈ Icc 0 q.len, s z = ((√(q.s.W j) : ℝ) : ℂ) * (B z : ℂ) * v := by
    intro z hz
    have e := (same z hz).2.1
    have : (starRingEnd ℂ) v * s z / (√(q.s.W j) : ℝ) = (B z : ℂ) := by
      rw [hB]
      refine real ?_
      simp only [map_div₀, map_mul, Complex.conj_conj, Complex.conj_ofReal]
      congr 1
      linear_combination (-(v * (starRingEnd ℂ) (s z))) * vv + (starRingEnd ℂ) v * e
    rw [← this]
    field_simp
    linear_combination (-s z) * vv
  have fC : ∀ z ∈ Icc 0 q.len, i z = Complex.I * ((√(q.i.W l) : ℝ) : ℂ) * (C z : ℂ) * (u * (starRingEnd ℂ) v) := by
    intro z hz
    have e := (same z hz).2.2
    have : -Complex.I * ((starRingEnd ℂ) u * v) * i z / (√(q.i.W l) : ℝ) = (C z : ℂ) := by
      rw [hC]
      refine real ?_
      simp only [map_div₀, map_mul, map_neg, Complex.conj_conj, Complex.conj_ofReal, Complex.conj_I]
      congr 1
      linear_combination (-Complex.I * ((starRingEnd ℂ) u * v)) * e + (-Complex.I * (u * (starRingEnd ℂ) v) * (starRingEnd ℂ) (i z) * (v * (starRingEnd ℂ) v)) * uu +
        (-Complex.I * (u * (starRingEnd ℂ) v) * (starRingEnd ℂ) (i z)) * vv
    rw [← this]
    field_simp
    rw [Complex.I_sq]
    linear_combination (-(i z * (v * (starRingEnd ℂ) v))) * uu - i z * vv
  have conjC : ∀ z ∈ Icc 0 q.len, (starRingEnd ℂ) (i z) = -Complex.I * ((√(q.i.W l) : ℝ) : ℂ) * (C z : ℂ) * ((starRingEnd ℂ) u * v) := by
    intro z hz
    rw [fC z hz]
    simp only [map_mul, Complex.conj_conj, Complex.conj_ofReal, Complex.conj_I]
  have conjB : ∀ z ∈ Icc 0 q.len, (starRingEnd ℂ) (s z) = ((√(q.s.W j) : ℝ) : ℂ) * (B z : ℂ) * (starRingEnd ℂ) v := by
    intro z hz
    rw [fB z hz]
    simp only [map_mul, Complex.conj_ofReal]
  have cre : ∀ {f : ℝ → ℂ}, ContinuousOn f (Icc 0 q.len) → ContinuousOn (fun z => (f z).re) (Icc 0 q.len) := fun h => Complex.continuous_re.comp_continuousOn h
  have dre : ∀ {f : ℝ → ℂ} {d : ℂ} {z : ℝ}, HasDerivAt f d z → HasDerivAt (fun z => (f z).re) d.re z := fun h =>
    Complex.reCLM.hasFDerivAt.comp_hasDerivAt _ h
  have eg := gain_one (q := q) (squm := squm) (m := m) (j := j) (l := l) ⟨hWp.le, hW.1.le⟩
  have es : ((q.s.W j : ℝ) : ℂ) = ((√(q.s.W j) : ℝ) : ℂ) ^ 2 := by rw [← Complex.ofReal_pow, Real.sq_sqrt hW.1.le]
  have ei : ((q.i.W l : ℝ) : ℂ) = ((√(q.i.W l) : ℝ) : ℂ) ^ 2 := by rw [← Complex.ofReal_pow, Real.sq_sqrt hW.2.le]
  refine ⟨E, A, B, C, ⟨⟨cre ((continuousOn_const.mul cp).div_const _), cre ((continuousOn_const.mul cs).div_const _), cre ((continuousOn_const.mul ci).div_const _)⟩, hE, ?_, ?_⟩,
    ⟨?_, ?_, ?_⟩, fun z hz => ?_⟩
  · intro z hz
    have hz' : z ∈ Icc 0 q.len := ⟨hz.1.1.le, hz.1.2.le⟩
    refine (dre (((hd z hz).2.1.const_mul ((starRingEnd ℂ) v)).div_const _)).congr_deriv ?_
    rw [← Complex.ofReal_re (q.sign z * (q.gain squm m j l 1 * A z) * C z)]
    congr 1
    rw [fA z hz', conjC z hz', eg]
    clear_value A B C
    push_cast
    rw [es]
    field_simp
    rw [Complex.I_sq]
    linear_combination (↑(q.sign z) * ↑q.deff * ↑(q.kappa squm m j l) * ↑(A z) * ↑(C z) * (v * (starRingEnd ℂ) v)) * uu +
      (↑(q.sign z) * ↑q.deff * ↑(q.kappa squm m j l) * ↑(A z) * ↑(C z)) * vv
  · intro z hz
    have hz' : z ∈ Icc 0 q.len := ⟨hz.1.1.le, hz.1.2.le⟩
    refine (dre (((hd z hz).2.2.const_mul (-Complex.I * ((starRingEnd ℂ) u * v))).div_const _)).congr_deriv ?_
    rw [← Complex.ofReal_re (q.sign z * (q.gain squm m j l 1 * A z) * B z)]
    congr 1
    rw [fA z hz', conjB z hz', eg]
    clear_value A B C
    push_cast
    rw [ei]
    field_simp
    rw [Complex.I_sq]
    linear_combination (↑(q.sign z) * ↑q.deff * ↑(q.kappa squm m j l) * ↑(A z) * ↑(B z) * (v * (starRingEnd ℂ) v)) * uu +
      (↑(q.sign z) * ↑q.deff * ↑(q.kappa squm m j l) * ↑(A z) * ↑(B z)) * vv
  · have e : (starRingEnd ℂ) u * p 0 / (√(q.p.W m) : ℝ) = (A0 : ℂ) := by
      rw [hp0]; push_cast; field_simp; linear_combination (A0 : ℂ) * uu
    simp only [hA, e, Complex.ofReal_re]
  · have e : (starRingEnd ℂ) v * s 0 / (√(q.s.W j) : ℝ) = (B0 : ℂ) := by
      rw [hs0]; push_cast; field_simp; linear_combination (B0 : ℂ) * vv
    simp only [hB, e, Complex.ofReal_re]
  · simp only [hC, hi0, mul_zero, zero_div, Complex.zero_re]
  · have n1 : ∀ {r x : ℝ}, 0 < r → ‖((r : ℝ) : ℂ) * (x : ℂ)‖ = r * |x| := by
      intro r x hr
      rw [norm_mul, Complex.norm_real, Complex.norm_real, Real.norm_eq_abs, Real.norm_eq_abs, abs_of_pos hr]
    rw [hl z hz, lines, Ap_join, As_join, Ai_join, Pi.single_eq_same, Pi.single_eq_same, Pi.single_eq_same]
    refine ⟨?_, ?_, ?_⟩
    · rw [fA z hz, norm_mul, hu, mul_one, n1 rp]
    · rw [fB z hz, norm_mul, hv, mul_one, n1 rs]
    · rw [fC z hz, norm_mul, norm_mul u, hu, RCLike.norm_conj, hv, mul_one, mul_one, mul_assoc, norm_mul, Complex.norm_I, one_mul, n1 ri]

/-- What is left of the gain at the end of a length `z`, for the ratio `r` of the photons of the signal to those of the pump. -/
noncomputable def undepleted (r g : ℝ) : ℝ := √(1 - r * Real.sinh g ^ 2)

theorem Locked.lower (L : Locked q Γ E A B C) (hq : q.mode ≠ "PP") (hA : 0 < A 0) (hp : ∀ t ∈ Icc 0 q.len, A t ^ 2 + C t ^ 2 = A 0 ^ 2)
    (hl : ∀ t ∈ Icc 0 q.len, |C t| ≤ |B 0| * Real.sinh (|Γ| * A 0 * t)) {z : ℝ} (hz : z ∈ Icc 0 q.len) :
    |Γ| * A 0 * z * undepleted (B 0 ^ 2 / A 0 ^ 2) (|Γ| * A 0 * z) ≤ |gained q Γ A z| := by
  set x := B 0 ^ 2 / A 0 ^ 2 * Real.sinh (|Γ| * A 0 * z) ^ 2 with hx
  rcases le_or_gt 1 x with h1 | h1
  · rw [undepleted, ← hx, Real.sqrt_eq_zero_of_nonpos (by linarith), mul_zero]
    exact abs_nonneg _
  have hA2 : 0 < A 0 ^ 2 := by positivity
  have sq : ∀ t ∈ Icc 0 z, A 0 ^ 2 * (1 - x) ≤ A t ^ 2 := by
    intro t ht
    have ht' : t ∈ Icc 0 q.len := ⟨ht.1, ht.2.trans hz.2⟩
    have hs : Real.sinh (|Γ| * A 0 * t) ≤ Real.sinh (|Γ| * A 0 * z) := Real.sinh_le_sinh.2 (mul_le_mul_of_nonneg_left ht.2 (by positivity))
    have hs0 : 0 ≤ Real.sinh (|Γ| * A 0 * t) := Real.sinh_nonneg_iff.2 (mul_nonneg (by positivity) ht.1)
    have h2 : |C t| ^ 2 ≤ (|B 0| * Real.sinh (|Γ| * A 0 * z)) ^ 2 :=
      pow_le_pow_left₀ (abs_nonneg _) ((hl t ht').trans (mul_le_mul_of_nonneg_left hs (abs_nonneg _))) 2
    rw [mul_pow, sq_abs, sq_abs] at h2
    have h3 : A 0 ^ 2 * x = B 0 ^ 2 * Real.sinh (|Γ| * A 0 * z) ^ 2 := by rw [hx]; field_simp
    have := hp t ht'
    linarith
  have cA : ContinuousOn A (Icc 0 z) := L.cont.1.mono (Icc_subset_Icc_right hz.2)
  have pos : ∀ t ∈ Icc 0 z, 0 < A t := by
    intro t ht
    by_contra hn
    have hiv := intermediate_value_Icc' ht.1 (cA.mono (Icc_subset_Icc_right ht.2))
    obtain ⟨y, hy, hy0⟩ := hiv ⟨not_lt.1 hn, hA.le⟩
    have := sq y ⟨hy.1, hy.2.trans ht.2⟩
    rw [hy0] at this
    nlinarith
  have low : ∀ t ∈ Icc 0 z, A 0 * √(1 - x) ≤ A t := by
    intro t ht
    refine (sq_le_sq₀ (by positivity) (pos t ht).le).1 ?_
    rw [mul_pow, Real.sq_sqrt (by linarith)]
    exact sq t ht
  have hs : ∀ t, q.sign t = 1 := fun t => by rw [Prob.sign, if_neg hq]
  have e : gained q Γ A z = Γ * ∫ t in (0)..z, A t := by
    unfold gained
    simp only [hs, one_mul]
    exact intervalIntegral.integral_const_mul _ _
  have hi : IntervalIntegrable A MeasureTheory.volume 0 z := ContinuousOn.intervalIntegrable (by rwa [uIcc_of_le hz.1])
  have h2 : A 0 * √(1 - x) * z ≤ ∫ t in (0)..z, A t := by
    have := intervalIntegral.integral_mono_on hz.1 (intervalIntegrable_const (c := A 0 * √(1 - x))) hi low
    rwa [intervalIntegral.integral_const, sub_zero, smul_eq_mul, mul_comm] at this
  rw [e, abs_mul]
  have h3 := le_abs_self (∫ t in (0)..z, A t)
  calc _ = |Γ| * (A 0 * √(1 - x) * z) := by rw [undepleted, ← hx]; ring
    _ ≤ _ := mul_le_mul_of_nonneg_left (h2.trans h3) (abs_nonneg _)

/-- The ratio of the photons of the signal to those of the pump. -/
noncomputable def Prob.photonRatio (q : Prob N) (m j : Fin N) (p0 s0 : ℂ) : ℝ := (‖s0‖ ^ 2 / q.s.W j) / (‖p0‖ ^ 2 / q.p.W m)

/-- C147, matched: in a phase-matched crystal without poling the signal grows by at least the square of a hyperbolic cosine with a gain that
allows for the depletion of the pump. -/
theorem C147_matched (W : Works q squm) (hq : q.mode ≠ "PP") {m j l : Fin N} (h : ((j : ℕ) : ℤ) + (l : ℕ) = (m : ℕ) + (N / 2 : ℕ)) (hΔ : q.mismatch m j l = 0)
    (hW : 0 < q.s.W j ∧ 0 < q.i.W l) {p0 s0 : ℂ} (hp : p0 ≠ 0) (hs : s0 ≠ 0) {Y : ℝ → Fin (3 * N) → ℂ} (hY : Solves q Y 0 q.len)
    (h0 : Y 0 = lines m j l p0 s0 0) {z : ℝ} (hz : z ∈ Icc 0 q.len) :
    let g := q.opaRate squm m j l ‖p0‖ * z
    ‖s0‖ ^ 2 * Real.cosh (g * undepleted (q.photonRatio m j p0 s0) g) ^ 2 ≤ ‖As (Y z) j‖ ^ 2 ∧
    q.i.W l / q.s.W j * ‖s0‖ ^ 2 * Real.sinh (g * undepleted (q.photonRatio m j p0 s0) g) ^ 2 ≤ ‖Ai (Y z) l‖ ^ 2 := by
  intro g
  have hWp : 0 < q.p.W m := by rw [W.matched m j l h]; exact add_pos hW.1 hW.2
  have rp := Real.sqrt_pos.2 hWp
  have rs := Real.sqrt_pos.2 hW.1
  have ri := Real.sqrt_pos.2 hW.2
  have hp' : 0 < ‖p0‖ := norm_pos_iff.2 hp
  have hs' : 0 < ‖s0‖ := norm_pos_iff.2 hs
  obtain ⟨u, hu, eu⟩ := unit_part hp' rfl
  obtain ⟨v, hv, ev⟩ := unit_part hs' rfl
  have ep : ((√(q.p.W m) * (‖p0‖ / √(q.p.W m)) : ℝ) : ℂ) * u = p0 := by rw [mul_div_cancel₀ _ rp.ne', ← eu]
  have es : ((√(q.s.W j) * (‖s0‖ / √(q.s.W j)) : ℝ) : ℂ) * v = s0 := by rw [mul_div_cancel₀ _ rs.ne', ← ev]
  obtain ⟨E, A, B, C, L, ⟨a0, b0, c0⟩, hn⟩ := locked_of_lines W h hΔ hW hu hv hY (by rw [h0, ep, es])
  have hA0 : 0 < A 0 := by rw [a0]; positivity
  have hB0 : 0 < B 0 := by rw [b0]; positivity
  have eG : ∀ t, |q.gain squm m j l 1| * A 0 * t = q.opaRate squm m j l ‖p0‖ * t := fun t => by rw [a0, opaRate_gain ⟨hWp, hW.1.le⟩]
  have er : B 0 ^ 2 / A 0 ^ 2 = q.photonRatio m j p0 s0 := by rw [a0, b0, div_pow, div_pow, Real.sq_sqrt hWp.le, Real.sq_sqrt hW.1.le, Prob.photonRatio]
  have hC : ∀ t ∈ Icc 0 q.len, C t ^ 2 = ‖Ai (Y t) l‖ ^ 2 / q.i.W l := by
    intro t ht
    rw [(hn t ht).2.2, mul_pow, Real.sq_sqrt hW.2.le, sq_abs]
    have := hW.2.ne'
    field_simp
  have hcons : ∀ t ∈ Icc 0 q.len, A t ^ 2 + C t ^ 2 = A 0 ^ 2 := by
    intro t ht
    obtain ⟨f1, f2⟩ := C147_fluxes W h hW hY h0 ht
    rw [(hn t ht).1, mul_pow, Real.sq_sqrt hWp.le, sq_abs] at f2
    have h1 : A t ^ 2 = (‖p0‖ ^ 2 - q.p.W m / q.s.W j * (‖As (Y t) j‖ ^ 2 - ‖s0‖ ^ 2)) / q.p.W m := by
      rw [← f2]; have := hWp.ne'; field_simp
    rw [hC t ht, h1, f1, a0, div_pow, Real.sq_sqrt hWp.le]
    have := hWp.ne'
    have := hW.1.ne'
    have := hW.2.ne'
    field_simp
    ring
  have hlim : ∀ t ∈ Icc 0 q.len, |C t| ≤ |B 0| * Real.sinh (|q.gain squm m j l 1| * A 0 * t) := by
    intro t ht
    have h1 := (C147_limit W h hW hY h0 ht).2
    have hsh : 0 ≤ Real.sinh (q.opaRate squm m j l ‖p0‖ * t) := by
      rw [← eG]
      exact Real.sinh_nonneg_iff.2 (mul_nonneg (by positivity) ht.1)
    rw [eG]
    refine (sq_le_sq₀ (abs_nonneg _) (mul_nonneg (abs_nonneg _) hsh)).1 ?_
    rw [sq_abs, hC t ht, mul_pow, sq_abs, b0, div_pow, Real.sq_sqrt hW.1.le, div_le_iff₀ hW.2]
    refine h1.trans (le_of_eq ?_)
    ring
  have low := L.lower hq hA0 hcons hlim hz
  rw [er, eG] at low
  obtain ⟨gB, gC⟩ := L.grow c0 hz
  have hg0 : 0 ≤ g * undepleted (q.photonRatio m j p0 s0) g :=
    mul_nonneg (by show 0 ≤ q.opaRate squm m j l ‖p0‖ * z; rw [← eG]; exact mul_nonneg (by positivity) hz.1) (Real.sqrt_nonneg _)
  have hcosh : Real.cosh (g * undepleted (q.photonRatio m j p0 s0) g) ^ 2 ≤ Real.cosh (gained q (q.gain squm m j l 1) A z) ^ 2 := by
    refine pow_le_pow_left₀ (Real.cosh_pos _).le (Real.cosh_le_cosh.2 ?_) 2
    rw [abs_of_nonneg hg0]
    exact low
  have hS : ‖As (Y z) j‖ ^ 2 = ‖s0‖ ^ 2 * Real.cosh (gained q (q.gain squm m j l 1) A z) ^ 2 := by
    rw [(hn z hz).2.1, gB, b0, abs_mul, abs_of_pos (Real.cosh_pos _), abs_of_pos (by positivity)]
    field_simp
  have h1 : ‖s0‖ ^ 2 * Real.cosh (g * undepleted (q.photonRatio m j p0 s0) g) ^ 2 ≤ ‖As (Y z) j‖ ^ 2 := by
    rw [hS]
    exact mul_le_mul_of_nonneg_left hcosh (by positivity)
  refine ⟨h1, ?_⟩
  rw [(C147_fluxes W h hW hY h0 hz).1, mul_assoc]
  refine mul_le_mul_of_nonneg_left ?_ (div_nonneg hW.2.le hW.1.le)
  rw [Real.cosh_sq] at h1
  linarith

/-- C147, gain: the rate is the one that the validation calculates from the field of the pump in the waveguide. -/
theorem C147_gain (W : Works q squm) {m j l : Fin N} (hW : 0 < q.s.W j ∧ 0 < q.i.W l) (P : ℝ) :
    q.opaRate squm m j l P = Spec.boydGain cMks q.deff (q.s.W j) (q.i.W l) (q.s.n j) (q.i.n l) (P * (WG.init squm).rtPToA q.p.n m) := by
  have hA : 0 < (WG.init squm).aeff := by have := W.area; simp only [WG.init]; positivity
  have eA : (WG.init squm).aeff = squm * 1e-12 := rfl
  obtain ⟨np, -, -⟩ := W.index m
  obtain ⟨-, ns, -⟩ := W.index j
  obtain ⟨-, -, ni⟩ := W.index l
  have hc := cMks_pos
  have he := eps0_pos
  have er : (WG.init squm).rtPToA q.p.n m = 1 / √((WG.init squm).aeff * q.p.n m * eps0 * cMks) := rfl
  obtain ⟨w1, w2⟩ := hW
  rw [Prob.opaRate, Prob.kappa, ← eA, Spec.mixStrength, Spec.boydGain, er]
  generalize (WG.init squm).aeff = A at *
  have e1 : √(4 * q.deff ^ 2 * q.s.W j ^ 2 * q.i.W l ^ 2 / ((q.s.n j * q.s.W j / cMks) * (q.i.n l * q.i.W l / cMks) * cMks ^ 4)) =
      2 * |q.deff| / cMks * (√(q.s.W j * q.i.W l) / √(q.s.n j * q.i.n l)) := by
    rw [← Real.sqrt_div (by positivity), ← Real.sqrt_sq (show 0 ≤ 2 * |q.deff| / cMks by positivity), ← Real.sqrt_mul (by positivity)]
    congr 1
    rw [div_pow, mul_pow, sq_abs]
    field_simp
    ring
  have e2 : √(eps0 * cMks * A * (q.p.n m * q.s.n j * q.i.n l)) = √(A * q.p.n m * eps0 * cMks) * √(q.s.n j * q.i.n l) := by
    rw [← Real.sqrt_mul (by positivity)]; congr 1; ring
  rw [e1, e2, abs_mul, abs_of_pos (a := 2 / _) (by positivity)]
  have h1 : 0 < √(A * q.p.n m * eps0 * cMks) := Real.sqrt_pos.2 (by positivity)
  have h2 : 0 < √(q.s.n j * q.i.n l) := Real.sqrt_pos.2 (by positivity)
  field_simp

theorem one_sub_undepleted {r g : ℝ} (hr : 0 ≤ r) : undepleted r g ≤ 1 ∧ 1 - undepleted r g ≤ r * Real.sinh g ^ 2 := by
  have hx : 0 ≤ r * Real.sinh g ^ 2 := by positivity
  unfold undepleted
  generalize r * Real.sinh g ^ 2 = x at hx
  refine ⟨Real.sqrt_le_one.2 (by linarith), ?_⟩
  rcases le_or_gt 1 x with h | h
  · have := Real.sqrt_nonneg (1 - x)
    linarith
  · have : 1 - x ≤ √(1 - x) := Real.le_sqrt_of_sq_le (by nlinarith)
    linarith

/-- A smaller argument costs at most its share. -/
theorem cosh_share {g y : ℝ} (hg : 0 ≤ g) (h1 : y ≤ 1) : Real.cosh g - Real.cosh (g * y) ≤ Real.cosh g * (g * (1 - y)) := by
  have hd : 0 ≤ g * (1 - y) := mul_nonneg hg (by linarith)
  have h2 : Real.cosh g ≤ Real.cosh (g * y) * Real.exp (g * (1 - y)) := by
    have e : Real.cosh g = Real.cosh (g * y + g * (1 - y)) := by congr 1; ring
    rw [e, Real.cosh_add, ← Real.cosh_add_sinh, mul_add]
    have := mul_le_mul_of_nonneg_right (Real.sinh_lt_cosh (g * y)).le (Real.sinh_nonneg_iff.2 hd)
    linarith
  have h3 : Real.cosh g * Real.exp (-(g * (1 - y))) ≤ Real.cosh (g * y) := by
    calc _ ≤ Real.cosh (g * y) * Real.exp (g * (1 - y)) * Real.exp (-(g * (1 - y))) := mul_le_mul_of_nonneg_right h2 (Real.exp_pos _).le
      _ = _ := by rw [mul_assoc, ← Real.exp_add]; simp
  have h4 := Real.add_one_le_exp (-(g * (1 - y)))
  have h5 := mul_le_mul_of_nonneg_left h4 (Real.cosh_pos g).le
  linarith

theorem photonRatio_nonneg {m j : Fin N} (hW : 0 ≤ q.p.W m ∧ 0 ≤ q.s.W j) (p0 s0 : ℂ) : 0 ≤ q.photonRatio m j p0 s0 := by
  obtain ⟨h1, h2⟩ := hW
  unfold Prob.photonRatio
  positivity

theorem opaRate_nonneg (m j l : Fin N) {P : ℝ} (hP : 0 ≤ P) : 0 ≤ q.opaRate squm m j l P := by
  unfold Prob.opaRate
  positivity

/-- C147, signal: the amplitude of the signal is that of the validation, up to a depletion that is a share of it. -/
theorem C147_signal (W : Works q squm) (hq : q.mode ≠ "PP") {m j l : Fin N} (h : ((j : ℕ) : ℤ) + (l : ℕ) = (m : ℕ) + (N / 2 : ℕ)) (hΔ : q.mismatch m j l = 0)
    (hW : 0 < q.s.W j ∧ 0 < q.i.W l) {p0 s0 : ℂ} (hp : p0 ≠ 0) (hs : s0 ≠ 0) {Y : ℝ → Fin (3 * N) → ℂ} (hY : Solves q Y 0 q.len)
    (h0 : Y 0 = lines m j l p0 s0 0) {z : ℝ} (hz : z ∈ Icc 0 q.len) :
    let g := q.opaRate squm m j l ‖p0‖ * z
    |‖As (Y z) j‖ - ‖s0‖ * Real.cosh g| ≤ ‖s0‖ * Real.cosh g * (g * (q.photonRatio m j p0 s0 * Real.sinh g ^ 2)) := by
  intro g
  have hWp : 0 < q.p.W m := by rw [W.matched m j l h]; exact add_pos hW.1 hW.2
  have hg : 0 ≤ g := mul_nonneg (opaRate_nonneg _ _ _ (norm_nonneg _)) hz.1
  have h1 := (C147_limit W h hW hY h0 hz).1
  have h2 := (C147_matched W hq h hΔ hW hp hs hY h0 hz).1
  rw [← mul_pow] at h1 h2
  have c1 := Real.cosh_pos g
  have c2 := Real.cosh_pos (g * undepleted (q.photonRatio m j p0 s0) g)
  have h1' : ‖As (Y z) j‖ ≤ ‖s0‖ * Real.cosh g := (sq_le_sq₀ (norm_nonneg _) (mul_nonneg (norm_nonneg _) c1.le)).1 h1
  have h2' : ‖s0‖ * Real.cosh (g * undepleted (q.photonRatio m j p0 s0) g) ≤ ‖As (Y z) j‖ :=
    (sq_le_sq₀ (mul_nonneg (norm_nonneg _) c2.le) (norm_nonneg _)).1 h2
  obtain ⟨u1, u2⟩ := one_sub_undepleted (g := g) (photonRatio_nonneg (q := q) (m := m) (j := j) ⟨hWp.le, hW.1.le⟩ p0 s0)
  have h3 := cosh_share hg u1
  have h4 : Real.cosh g * (g * (1 - undepleted (q.photonRatio m j p0 s0) g)) ≤ Real.cosh g * (g * (q.photonRatio m j p0 s0 * Real.sinh g ^ 2)) :=
    mul_le_mul_of_nonneg_left (mul_le_mul_of_nonneg_left u2 hg) c1.le
  have h5 := mul_le_mul_of_nonneg_left (h3.trans h4) (norm_nonneg s0)
  rw [abs_sub_comm, abs_of_nonneg (by linarith)]
  linarith

/-- C147, idler: the formula of the validation has the factor `n1 / n2` of the indices of signal and idler, which the idler does not have.
With the larger index at the signal it lies above the idler of every crystal, matched or not. -/
theorem C147_idler_formula (W : Works q squm) {m j l : Fin N} (h : ((j : ℕ) : ℤ) + (l : ℕ) = (m : ℕ) + (N / 2 : ℕ)) (hW : 0 < q.s.W j ∧ 0 < q.i.W l)
    {p0 s0 : ℂ} (hp : p0 ≠ 0) (hs : s0 ≠ 0) (hd : q.deff ≠ 0) (hn : q.i.n l < q.s.n j) {Y : ℝ → Fin (3 * N) → ℂ} (hY : Solves q Y 0 q.len)
    (h0 : Y 0 = lines m j l p0 s0 0) {z : ℝ} (hz : z ∈ Ioc 0 q.len) :
    let formula := q.s.n j * q.i.W l / (q.i.n l * q.s.W j) * ‖s0‖ ^ 2 * Real.sinh (q.opaRate squm m j l ‖p0‖ * z) ^ 2
    q.s.n j / q.i.n l * ‖Ai (Y z) l‖ ^ 2 ≤ formula ∧ ‖Ai (Y z) l‖ ^ 2 < formula := by
  intro formula
  obtain ⟨np, -, -⟩ := W.index m
  obtain ⟨-, ns, -⟩ := W.index j
  obtain ⟨-, -, ni⟩ := W.index l
  have hb := (C147_limit W h hW hY h0 ⟨hz.1.le, hz.2⟩).2
  have ef : formula = q.s.n j / q.i.n l * (q.i.W l / q.s.W j * ‖s0‖ ^ 2 * Real.sinh (q.opaRate squm m j l ‖p0‖ * z) ^ 2) := by
    have := hW.1.ne'
    show q.s.n j * q.i.W l / (q.i.n l * q.s.W j) * ‖s0‖ ^ 2 * Real.sinh (q.opaRate squm m j l ‖p0‖ * z) ^ 2 = _
    field_simp
  have hr : 1 < q.s.n j / q.i.n l := (one_lt_div ni).2 hn
  have hg : 0 < q.opaRate squm m j l ‖p0‖ * z := by
    have hc := cMks_pos
    have he := eps0_pos
    have hA := W.area
    have h1 : 0 < √(eps0 * cMks * (squm * 1e-12) * (q.p.n m * q.s.n j * q.i.n l)) := Real.sqrt_pos.2 (by positivity)
    have h2 : 0 < |q.deff * q.kappa squm m j l| := abs_pos.2 (mul_ne_zero hd (by unfold Prob.kappa Spec.mixStrength; positivity))
    have h3 : 0 < √(q.s.W j * q.i.W l) := Real.sqrt_pos.2 (mul_pos hW.1 hW.2)
    have h4 : 0 < ‖p0‖ := norm_pos_iff.2 hp
    have h5 := hz.1
    unfold Prob.opaRate
    positivity
  have hsinh := Real.sinh_pos_iff.2 hg
  have hs' : 0 < ‖s0‖ := norm_pos_iff.2 hs
  have hpos : 0 < q.i.W l / q.s.W j * ‖s0‖ ^ 2 * Real.sinh (q.opaRate squm m j l ‖p0‖ * z) ^ 2 := by
    have := hW.1
    have := hW.2
    positivity
  rw [ef]
  exact ⟨mul_le_mul_of_nonneg_left hb (by positivity), lt_of_le_of_lt hb (by nlinarith)⟩

/-- C147, computed: what an integration that returns gives. -/
theorem C147_computed (W : Works q squm) {κ R ρ : ℝ} (S : Strength (q.wp squm) (q.ws squm) (q.wi squm) |q.deff| κ) (hq : q.mode ≠ "PP") {m j l : Fin N}
    (h : ((j : ℕ) : ℤ) + (l : ℕ) = (m : ℕ) + (N / 2 : ℕ)) (hΔ : q.mismatch m j l = 0) (hW : 0 < q.s.W j ∧ 0 < q.i.W l) {p0 s0 : ℂ} (hp : p0 ≠ 0) (hs : s0 ≠ 0)
    (hρ : 0 < ρ) (hR : √(‖p0‖ ^ 2 + ‖s0‖ ^ 2) + ρ < R) (hsm : q.len * Real.exp (26 * (2 * N * κ * R) * q.len) * (1e-27 * (N * κ * R ^ 2)) < ρ) :
    let g := q.opaRate squm m j l ‖p0‖ * q.len
    ∃ C h0, 0 ≤ C ∧ 0 < h0 ∧ ∀ hm ∈ Ioc 0 h0, ∀ (p : Ode.Prob (3 * N)) (con : Ode.Con) (h1 hmin : ℝ) (out : Ode.Out (3 * N)) (o' : Ode.Ode (3 * N)),
      p.f = q.rhs → Ode.Rounds p.fl → out.Usable → (Ode.Ode.new con (lines m j l p0 s0 0) 0 q.len h1 hmin out).integrate p = some (.ok (), o') →
      Ode.StepsLe hm 0 o'.visited →
      |‖As o'.ystart j‖ - ‖s0‖ * Real.cosh g| ≤ ‖s0‖ * Real.cosh g * (g * (q.photonRatio m j p0 s0 * Real.sinh g ^ 2)) +
        (q.len * Real.exp (26 * (2 * N * κ * R) * q.len) * (1e-27 * (N * κ * R ^ 2)) + C * hm) := by
  intro g
  obtain ⟨C, h0, hC, hh0, hc⟩ := C121_converges W S (lines m j l p0 s0 0) hρ (by rw [lines_power]; simpa using hR) hsm
  obtain ⟨Y, hY0, hY, -, -⟩ := C121_solution W (lines m j l p0 s0 0)
  refine ⟨C, h0, hC, hh0, fun hm hhm p con h1 hmin out o' hp' hfl ho hr hst => ?_⟩
  have h2 := hc hm hhm p con h1 hmin out o' hp' hfl ho hr hst Y hY hY0
  have h3 := C147_signal W hq h hΔ hW hp hs hY hY0 ⟨W.len.le, le_refl _⟩
  have h4 : |‖As o'.ystart j‖ - ‖As (Y q.len) j‖| ≤ _ := (abs_norm_sub_norm_le _ _).trans ((norm_le_pi_norm (o'.ystart - Y q.len) _).trans h2)
  have := abs_sub_le (‖As o'.ystart j‖) (‖As (Y q.len) j‖) (‖s0‖ * Real.cosh g)
  linarith

/-! The hypotheses hold for the crystal of `C143_nonvacuous` with a larger index at the signal: a pump of 1/10, a signal of 1/1000, and the
depletion is less than a hundredth. -/

noncomputable def exOpa : Prob 2 := { exUnpoled with s := ⟨![3, 4], ![0, 0], 0, fun _ => 3⟩ }

theorem exOpa_works : Works exOpa 10 :=
  ⟨by norm_num, by norm_num, rfl, fun j => by norm_num [exOpa, exUnpoled, exGuided], rfl, exGuided_matched, .inr (.inr rfl), by norm_num [exOpa, exUnpoled, exGuided]⟩

theorem C147_nonvacuous : Works exOpa 10 ∧ exOpa.mode ≠ "PP" ∧ (((0 : Fin 2) : ℕ) : ℤ) + ((1 : Fin 2) : ℕ) = ((0 : Fin 2) : ℕ) + (2 / 2 : ℕ) ∧
    exOpa.mismatch 0 0 1 = 0 ∧ 0 < exOpa.s.W 0 ∧ 0 < exOpa.i.W 1 ∧ exOpa.deff ≠ 0 ∧ exOpa.i.n 1 < exOpa.s.n 0 ∧
    0 < exOpa.opaRate 10 0 0 1 ‖(1 / 10 : ℂ)‖ * exOpa.len ∧
    exOpa.opaRate 10 0 0 1 ‖(1 / 10 : ℂ)‖ * exOpa.len * (exOpa.photonRatio 0 0 (1 / 10) (1 / 1000) *
      Real.sinh (exOpa.opaRate 10 0 0 1 ‖(1 / 10 : ℂ)‖ * exOpa.len) ^ 2) < 1 / 100 := by
  have hr : (1e-8 : ℝ) ≤ √(eps0 * cMks * (10 * 1e-12) * (2 * 3 * 2)) := Real.le_sqrt_of_sq_le (by norm_num [eps0, cMks])
  have hg : exOpa.opaRate 10 0 0 1 ‖(1 / 10 : ℂ)‖ * exOpa.len = |1 * (2 / (cMks * √(eps0 * cMks * (10 * 1e-12) * (2 * 3 * 2))))| * √(3 * 2) * (1 / 10) := by
    have n1 : ‖(1 / 10 : ℂ)‖ = 1 / 10 := by norm_num
    rw [n1]
    show |1 * (2 / (cMks * √(eps0 * cMks * (10 * 1e-12) * (2 * 3 * 2))))| * √(3 * 2) * (1 / 10) * 1 = _
    rw [mul_one]
  have hrat : exOpa.photonRatio 0 0 (1 / 10) (1 / 1000) = 1 / 6000 := by
    have n1 : ‖(1 / 10 : ℂ)‖ = 1 / 10 := by norm_num
    have n2 : ‖(1 / 1000 : ℂ)‖ = 1 / 1000 := by norm_num
    unfold Prob.photonRatio
    rw [n1, n2]
    norm_num [exOpa, exUnpoled, exGuided]
  rw [hg, hrat]
  generalize √(eps0 * cMks * (10 * 1e-12) * (2 * 3 * 2)) = r at hr
  have hr0 : 0 < r := lt_of_lt_of_le (by norm_num) hr
  have hc := cMks_pos
  have hκ : 2 / (cMks * r) ≤ 1 := by
    rw [div_le_one (by positivity)]
    have := mul_le_mul_of_nonneg_left hr hc.le
    norm_num [cMks] at this ⊢
    linarith
  have hκ0 : 0 < 2 / (cMks * r) := by positivity
  rw [one_mul, abs_of_pos hκ0]
  generalize 2 / (cMks * r) = κ at hκ hκ0
  have h6 : √(3 * 2 : ℝ) ≤ 10 := Real.sqrt_le_iff.2 ⟨by norm_num, by norm_num⟩
  have h60 : 0 < √(3 * 2 : ℝ) := Real.sqrt_pos.2 (by norm_num)
  generalize √(3 * 2 : ℝ) = w at h6 h60
  have hx0 : 0 < κ * w * (1 / 10) := by positivity
  have hx1 : κ * w * (1 / 10) ≤ 1 := by linarith [mul_le_mul hκ h6 h60.le zero_le_one]
  refine ⟨exOpa_works, by decide, rfl, by norm_num [Prob.mismatch, exOpa, exUnpoled, exGuided], by norm_num [exOpa, exUnpoled, exGuided],
    by norm_num [exOpa, exUnpoled, exGuided], by norm_num [exOpa, exUnpoled, exGuided], by norm_num [exOpa, exUnpoled, exGuided], hx0, ?_⟩
  generalize κ * w * (1 / 10) = x at hx0 hx1
  have hs0 := Real.sinh_pos_iff.2 hx0
  have hs : Real.sinh x ≤ 3 / 2 := by
    have h1 : Real.sinh x ≤ Real.sinh 1 := Real.sinh_le_sinh.2 hx1
    have h2 := Real.exp_one_lt_d9
    have h3 := Real.exp_pos (-1)
    rw [Real.sinh_eq 1] at h1
    linarith
  have h2 : Real.sinh x ^ 2 ≤ 9 / 4 := by nlinarith
  nlinarith [mul_le_mul hx1 h2 (by positivity) (by norm_num)]

end PyNLO.Dfg
