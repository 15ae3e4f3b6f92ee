import Verif.Props.DfgParametric

/-!
# C148: phase mismatch and parametric gain

A pump and a weaker signal enter a waveguide crystal without poling, with any phase mismatch.  Within twice the gain the waves still grow
exponentially, at a reduced rate; beyond, the gain goes up and down and stays bounded, whatever the length.
-/

open scoped BigOperators
open Set

namespace PyNLO.Spec

/-- Solution of `y'' = x y` with the value 1 and the slope 0 at the entrance. -/
noncomputable def growC (x z : ℝ) : ℝ := if 0 ≤ x then Real.cosh (√x * z) else Real.cos (√(-x) * z)

/-- Solution of `y'' = x y` with the value 0 and the slope 1 at the entrance. -/
noncomputable def growS (x z : ℝ) : ℝ := if 0 < x then Real.sinh (√x * z) / √x else if x < 0 then Real.sin (√(-x) * z) / √(-x) else z

end PyNLO.Spec

namespace PyNLO.Dfg

open Beam

variable {N : ℕ} {q : Prob N} {squm : ℝ} {Γ Δ : ℝ} {E : Set ℝ} {a b c : ℝ → ℂ}

theorem grow_zero (x : ℝ) : Spec.growC x 0 = 1 ∧ Spec.growS x 0 = 0 := by
  unfold Spec.growC Spec.growS
  constructor
  · split_ifs <;> simp
  · split_ifs <;> simp

theorem hasDerivAt_grow (x z : ℝ) : HasDerivAt (Spec.growC x) (x * Spec.growS x z) z ∧ HasDerivAt (Spec.growS x) (Spec.growC x z) z := by
  have lin : ∀ r : ℝ, HasDerivAt (fun t : ℝ => r * t) r z := fun r => by simpa using (hasDerivAt_id z).const_mul r
  rcases lt_trichotomy x 0 with h | rfl | h
  · have h0 : 0 < √(-x) := Real.sqrt_pos.2 (by linarith)
    have h2 : √(-x) ^ 2 = -x := Real.sq_sqrt (by linarith)
    have ec : Spec.growC x = fun z => Real.cos (√(-x) * z) := by funext t; rw [Spec.growC, if_neg (not_le.2 h)]
    have es : Spec.growS x = fun z => Real.sin (√(-x) * z) / √(-x) := by funext t; rw [Spec.growS, if_neg (not_lt.2 h.le), if_pos h]
    rw [ec, es]
    constructor
    · refine ((Real.hasDerivAt_cos _).comp z (lin (√(-x)))).congr_deriv ?_
      field_simp
      rw [h2]; ring
    · refine (((Real.hasDerivAt_sin _).comp z (lin (√(-x)))).div_const _).congr_deriv ?_
      field_simp
  · have ec : Spec.growC 0 = fun _ => 1 := by funext t; simp [Spec.growC]
    have es : Spec.growS 0 = fun z => z := by funext t; simp [Spec.growS]
    rw [ec, es]
    exact ⟨by simpa using hasDerivAt_const z (1 : ℝ), hasDerivAt_id z⟩
  · have h0 : 0 < √x := Real.sqrt_pos.2 h
    have h2 : √x ^ 2 = x := Real.sq_sqrt h.le
    have ec : Spec.growC x = fun z => Real.cosh (√x * z) := by funext t; rw [Spec.growC, if_pos h.le]
    have es : Spec.growS x = fun z => Real.sinh (√x * z) / √x := by funext t; rw [Spec.growS, if_pos h]
    rw [ec, es]
    constructor
    · refine ((Real.hasDerivAt_cosh _).comp z (lin (√x))).congr_deriv ?_
      field_simp
      rw [h2]; ring
    · refine (((Real.hasDerivAt_sinh _).comp z (lin (√x))).div_const _).congr_deriv ?_
      field_simp

/-! ## A pump that is not depleted -/

/-- Signal and idler that a constant pump `α` drives. -/
structure Driven (q : Prob N) (Γ Δ : ℝ) (E : Set ℝ) (α : ℂ) (b c : ℝ → ℂ) : Prop where
  cont : ContinuousOn b (Icc 0 q.len) ∧ ContinuousOn c (Icc 0 q.len)
  cnt : E.Countable
  db : ∀ z ∈ Ioo 0 q.len \ E, HasDerivAt b (((q.sign z : ℝ) : ℂ) * (Complex.I * (Γ : ℂ) * (α * (starRingEnd ℂ) (c z)) *
    Complex.exp (Complex.I * ((-Δ * z : ℝ) : ℂ)))) z
  dc : ∀ z ∈ Ioo 0 q.len \ E, HasDerivAt c (((q.sign z : ℝ) : ℂ) * (Complex.I * (Γ : ℂ) * (α * (starRingEnd ℂ) (b z)) *
    Complex.exp (Complex.I * ((-Δ * z : ℝ) : ℂ)))) z

/-- The share by which the pump changes. -/
theorem Photons.pump_near (P : Photons q Γ Δ E a b c) (h0 : c 0 = 0) (hΓ : Γ ≠ 0) (ha : a 0 ≠ 0) {z : ℝ} (hz : z ∈ Icc 0 q.len) :
    ‖a z - a 0‖ ≤ ‖b 0‖ ^ 2 / (2 * ‖a 0‖) * Real.sinh (|Γ| * ‖a 0‖ * z) ^ 2 := by
  have hG : 0 < |Γ| * ‖a 0‖ := mul_pos (abs_pos.2 hΓ) (norm_pos_iff.2 ha)
  have ha' : 0 < ‖a 0‖ := norm_pos_iff.2 ha
  have sub : Icc 0 z ⊆ Icc 0 q.len := Icc_subset_Icc_right hz.2
  have hc : ContinuousOn (fun t => Complex.I * (Γ : ℂ) * (b t * c t) * Complex.exp (Complex.I * ((Δ * t : ℝ) : ℂ))) (Icc 0 z) :=
    ((continuousOn_const.mul ((P.cont.2.1.mono sub).mul (P.cont.2.2.mono sub))).mul (continuous_phase Δ).continuousOn)
  rw [amplitude_integral (q := q) P.cnt hz.1 (P.cont.1.mono sub) hc fun x hx => P.da x ⟨⟨hx.1.1, hx.1.2.trans_le hz.2⟩, hx.2⟩]
  set G := |Γ| * ‖a 0‖ with hGd
  have hint : ∫ t in (0)..z, |Γ| * ‖b 0‖ ^ 2 * (Real.cosh (G * t) * Real.sinh (G * t)) = ‖b 0‖ ^ 2 / (2 * ‖a 0‖) * Real.sinh (G * z) ^ 2 := by
    have hd : ∀ t ∈ uIcc 0 z, HasDerivAt (fun t => ‖b 0‖ ^ 2 / (2 * ‖a 0‖) * Real.sinh (G * t) ^ 2) (|Γ| * ‖b 0‖ ^ 2 * (Real.cosh (G * t) * Real.sinh (G * t))) t := by
      intro t _
      have l : HasDerivAt (fun t : ℝ => G * t) G t := by simpa using (hasDerivAt_id t).const_mul G
      have hs : HasDerivAt (fun t : ℝ => Real.sinh (G * t)) (Real.cosh (G * t) * G) t := (Real.hasDerivAt_sinh _).comp t l
      refine ((hs.pow 2).const_mul (‖b 0‖ ^ 2 / (2 * ‖a 0‖))).congr_deriv ?_
      simp only [Nat.cast_ofNat]
      rw [show |Γ| = G / ‖a 0‖ by rw [hGd]; field_simp]
      field_simp
      norm_num
    rw [intervalIntegral.integral_eq_sub_of_hasDerivAt hd (Continuous.intervalIntegrable (by fun_prop) _ _)]
    simp
  rw [← hint]
  refine intervalIntegral.norm_integral_le_of_norm_le hz.1 (Filter.Eventually.of_forall fun x hx => ?_) (Continuous.intervalIntegrable (by fun_prop) _ _)
  obtain ⟨-, l1, l2⟩ := P.limit h0 (z := x) ⟨hx.1.le, hx.2.trans hz.2⟩
  rw [norm_mul, norm_sign, one_mul, norm_mul, norm_phase, mul_one, norm_mul, norm_mul, Complex.norm_I, one_mul, Complex.norm_real, Real.norm_eq_abs, norm_mul, mul_assoc]
  refine mul_le_mul_of_nonneg_left ?_ (abs_nonneg _)
  refine (mul_le_mul l1 l2 (norm_nonneg _) (mul_nonneg (norm_nonneg _) (Real.cosh_pos _).le)).trans (le_of_eq ?_)
  ring

/-- The waves stay close to those of a pump that is not depleted, whatever the mismatch and the poling. -/
theorem Photons.near (P : Photons q Γ Δ E a b c) (h0 : c 0 = 0) (hΓ : Γ ≠ 0) (ha : a 0 ≠ 0) {E' : Set ℝ} {b' c' : ℝ → ℂ}
    (D : Driven q Γ Δ E' (a 0) b' c') (hb : b' 0 = b 0) (hc : c' 0 = 0) {z : ℝ} (hz : z ∈ Icc 0 q.len) :
    let g := |Γ| * ‖a 0‖ * z
    ‖b z - b' z‖ + ‖c z - c' z‖ ≤ ‖b 0‖ * (g * (‖b 0‖ ^ 2 / ‖a 0‖ ^ 2 / 2 * Real.sinh g ^ 2)) * Real.exp g := by
  intro g
  have ha' : 0 < ‖a 0‖ := norm_pos_iff.2 ha
  set k := |Γ| * ‖a 0‖ with hk
  have hk0 : 0 ≤ k := by positivity
  set M := ‖b 0‖ ^ 2 / (2 * ‖a 0‖) * Real.sinh g ^ 2 with hM
  have sub : ∀ t ∈ Icc 0 z, Icc 0 t ⊆ Icc 0 q.len := fun t ht => Icc_subset_Icc_right (ht.2.trans hz.2)
  have hpump : ∀ t ∈ Icc 0 z, ‖a t - a 0‖ ≤ M := by
    intro t ht
    refine (P.pump_near h0 hΓ ha ⟨ht.1, ht.2.trans hz.2⟩).trans (mul_le_mul_of_nonneg_left ?_ (by positivity))
    refine pow_le_pow_left₀ (Real.sinh_nonneg_iff.2 (mul_nonneg hk0 ht.1)) (Real.sinh_le_sinh.2 (mul_le_mul_of_nonneg_left ht.2 hk0)) 2
  have hEE : (E ∪ E').Countable := P.cnt.union D.cnt
  -- one wave
  have one : ∀ (f f' g g' : ℝ → ℂ), ContinuousOn f (Icc 0 q.len) → ContinuousOn f' (Icc 0 q.len) → ContinuousOn g (Icc 0 q.len) → ContinuousOn g' (Icc 0 q.len) →
      f 0 = f' 0 →
      (∀ t ∈ Ioo 0 q.len \ E, HasDerivAt f (((q.sign t : ℝ) : ℂ) * (Complex.I * (Γ : ℂ) * (a t * (starRingEnd ℂ) (g t)) * Complex.exp (Complex.I * ((-Δ * t : ℝ) : ℂ)))) t) →
      (∀ t ∈ Ioo 0 q.len \ E', HasDerivAt f' (((q.sign t : ℝ) : ℂ) * (Complex.I * (Γ : ℂ) * (a 0 * (starRingEnd ℂ) (g' t)) * Complex.exp (Complex.I * ((-Δ * t : ℝ) : ℂ)))) t) →
      ∀ t ∈ Icc 0 z, ‖f t - f' t‖ ≤ ∫ x in (0)..t, (k * ‖g x - g' x‖ + |Γ| * M * ‖g x‖) := by
    intro f f' g g' cf cf' cg cg' hff hd hd' t ht
    have hcont : ContinuousOn (fun t => Complex.I * (Γ : ℂ) * (a t * (starRingEnd ℂ) (g t) - a 0 * (starRingEnd ℂ) (g' t)) *
        Complex.exp (Complex.I * ((-Δ * t : ℝ) : ℂ))) (Icc 0 t) :=
      (continuousOn_const.mul (((P.cont.1.mono (sub t ht)).mul (Complex.continuous_conj.comp_continuousOn (cg.mono (sub t ht)))).sub
        (continuousOn_const.mul (Complex.continuous_conj.comp_continuousOn (cg'.mono (sub t ht)))))).mul (continuous_phase (-Δ)).continuousOn
    have hi := amplitude_integral (q := q) (a := fun t => f t - f' t) hEE ht.1 ((cf.sub cf').mono (sub t ht)) hcont fun x hx => by
      have hx1 : x ∈ Ioo 0 q.len := ⟨hx.1.1, hx.1.2.trans_le (ht.2.trans hz.2)⟩
      refine ((hd x ⟨hx1, fun h => hx.2 (Or.inl h)⟩).sub (hd' x ⟨hx1, fun h => hx.2 (Or.inr h)⟩)).congr_deriv ?_
      ring
    rw [hff, sub_self, sub_zero] at hi
    rw [hi]
    refine intervalIntegral.norm_integral_le_of_norm_le ht.1 (Filter.Eventually.of_forall fun x hx => ?_) ?_
    · have e : a x * (starRingEnd ℂ) (g x) - a 0 * (starRingEnd ℂ) (g' x) = a 0 * (starRingEnd ℂ) (g x - g' x) + (a x - a 0) * (starRingEnd ℂ) (g x) := by
        rw [map_sub]; ring
      have hx' : x ∈ Icc 0 z := ⟨hx.1.le, hx.2.trans ht.2⟩
      rw [norm_mul, norm_sign, one_mul, norm_mul, norm_phase, mul_one, norm_mul, norm_mul, Complex.norm_I, one_mul, Complex.norm_real, Real.norm_eq_abs, e]
      have h1 := norm_add_le (a 0 * (starRingEnd ℂ) (g x - g' x)) ((a x - a 0) * (starRingEnd ℂ) (g x))
      rw [norm_mul, norm_mul, RCLike.norm_conj, RCLike.norm_conj] at h1
      have h2 := mul_le_mul_of_nonneg_right (hpump x hx') (norm_nonneg (g x))
      have h3 := mul_le_mul_of_nonneg_left (h1.trans (add_le_add_right h2 _)) (abs_nonneg Γ)
      rw [hk]
      linarith
    · refine ContinuousOn.intervalIntegrable ?_
      rw [uIcc_of_le ht.1]
      exact (continuousOn_const.mul ((cg.sub cg').mono (sub t ht)).norm).add (continuousOn_const.mul (cg.mono (sub t ht)).norm)
  have hb1 := one b b' c c' P.cont.2.1 D.cont.1 P.cont.2.2 D.cont.2 hb.symm P.db D.db
  have hc1 := one c c' b b' P.cont.2.2 D.cont.2 P.cont.2.1 D.cont.1 (by rw [h0, hc]) P.dc D.dc
  have subz : Icc 0 z ⊆ Icc 0 q.len := Icc_subset_Icc_right hz.2
  have key := gronwall_driven (F := fun t => ‖b t - b' t‖ + ‖c t - c' t‖) (k := k) (A := 0) (D := |Γ| * M * ‖b 0‖) hk0 hz.1
    ((((P.cont.2.1.sub D.cont.1).mono subz).norm).add (((P.cont.2.2.sub D.cont.2).mono subz).norm)) fun t ht => ?_
  · refine key.trans (le_of_eq ?_)
    rw [zero_add]
    congr 1
    rw [hM, show g = |Γ| * ‖a 0‖ * z from rfl]
    field_simp
  · have ci : ∀ f g : ℝ → ℂ, ContinuousOn f (Icc 0 q.len) → ContinuousOn g (Icc 0 q.len) →
        IntervalIntegrable (fun x => k * ‖f x - g x‖ + |Γ| * M * ‖f x‖) MeasureTheory.volume 0 t := fun f g cf cg => by
      refine ContinuousOn.intervalIntegrable ?_
      rw [uIcc_of_le ht.1]
      exact (continuousOn_const.mul ((cf.sub cg).mono (sub t ht)).norm).add (continuousOn_const.mul (cf.mono (sub t ht)).norm)
    have hsum := add_le_add (hb1 t ht) (hc1 t ht)
    rw [← intervalIntegral.integral_add (ci c c' P.cont.2.2 D.cont.2) (ci b b' P.cont.2.1 D.cont.1)] at hsum
    rw [zero_add]
    refine hsum.trans (intervalIntegral.integral_mono_on ht.1 ((ci c c' P.cont.2.2 D.cont.2).add (ci b b' P.cont.2.1 D.cont.1)) ?_ fun x hx => ?_)
    · refine ContinuousOn.intervalIntegrable ?_
      rw [uIcc_of_le ht.1]
      exact (continuousOn_const.mul (((P.cont.2.1.sub D.cont.1).mono (sub t ht)).norm.add (((P.cont.2.2.sub D.cont.2).mono (sub t ht)).norm))).add (by fun_prop)
    · have h1 := (P.limit h0 (z := x) ⟨hx.1, hx.2.trans (ht.2.trans hz.2)⟩).1
      have hM0 : 0 ≤ |Γ| * M := by rw [hM]; positivity
      have h2 := mul_le_mul_of_nonneg_left h1 hM0
      linarith

/-! ## No poling -/

theorem unpoled_sign (hq : q.mode ≠ "PP") (t : ℝ) : q.sign t = 1 := by rw [Prob.sign, if_neg hq]

theorem grow_identity (x z : ℝ) : Spec.growC x z ^ 2 = 1 + x * Spec.growS x z ^ 2 := by
  rcases lt_trichotomy x 0 with h | rfl | h
  · have h2 : √(-x) ^ 2 = -x := Real.sq_sqrt (by linarith)
    have h0 : 0 < √(-x) := Real.sqrt_pos.2 (by linarith)
    rw [Spec.growC, Spec.growS, if_neg (not_le.2 h), if_neg (not_lt.2 h.le), if_pos h, div_pow, h2, Real.cos_sq']
    have := h.ne
    field_simp
    ring
  · simp [Spec.growC]
  · have h2 : √x ^ 2 = x := Real.sq_sqrt h.le
    rw [Spec.growC, Spec.growS, if_pos h.le, if_pos h, div_pow, h2, Real.cosh_sq]
    field_simp
    ring

/-- Signal and idler of a constant pump in a crystal without poling. -/
theorem driven_unpoled (hq : q.mode ≠ "PP") (Γ Δ : ℝ) (α β : ℂ) :
    let x := (|Γ| * ‖α‖) ^ 2 - (Δ / 2) ^ 2
    Driven q Γ Δ ∅ α
      (fun z => β * Complex.exp (Complex.I * ((-(Δ / 2) * z : ℝ) : ℂ)) * ((Spec.growC x z : ℂ) + Complex.I * ((Δ / 2 : ℝ) : ℂ) * (Spec.growS x z : ℂ)))
      (fun z => Complex.I * (Γ : ℂ) * (α * (starRingEnd ℂ) β) * Complex.exp (Complex.I * ((-(Δ / 2) * z : ℝ) : ℂ)) * (Spec.growS x z : ℂ)) := by
  intro x
  have dC : ∀ z, HasDerivAt (fun z => (Spec.growC x z : ℂ)) ((x * Spec.growS x z : ℝ) : ℂ) z := fun z => (hasDerivAt_grow x z).1.ofReal_comp
  have dS : ∀ z, HasDerivAt (fun z => (Spec.growS x z : ℂ)) ((Spec.growC x z : ℝ) : ℂ) z := fun z => (hasDerivAt_grow x z).2.ofReal_comp
  have dE : ∀ z : ℝ, HasDerivAt (fun z : ℝ => Complex.exp (Complex.I * ((-(Δ / 2) * z : ℝ) : ℂ)))
      (Complex.exp (Complex.I * ((-(Δ / 2) * z : ℝ) : ℂ)) * (Complex.I * ((-(Δ / 2) : ℝ) : ℂ))) z := by
    intro z
    have l : HasDerivAt (fun z : ℝ => -(Δ / 2) * z) (-(Δ / 2)) z := by simpa using (hasDerivAt_id z).const_mul (-(Δ / 2))
    exact (l.ofReal_comp.const_mul Complex.I).cexp
  have db : ∀ z, HasDerivAt (fun z => β * Complex.exp (Complex.I * ((-(Δ / 2) * z : ℝ) : ℂ)) * ((Spec.growC x z : ℂ) + Complex.I * ((Δ / 2 : ℝ) : ℂ) * (Spec.growS x z : ℂ)))
      (β * Complex.exp (Complex.I * ((-(Δ / 2) * z : ℝ) : ℂ)) * (((|Γ| * ‖α‖) ^ 2 * Spec.growS x z : ℝ) : ℂ)) z := by
    intro z
    refine (((dE z).const_mul β).mul ((dC z).add ((dS z).const_mul (Complex.I * ((Δ / 2 : ℝ) : ℂ))))).congr_deriv ?_
    have I2 := Complex.I_mul_I
    have ex : (x : ℂ) = ((|Γ| * ‖α‖ : ℝ) : ℂ) ^ 2 - (Δ / 2 : ℂ) ^ 2 := by push_cast [x]; ring
    simp only [Pi.add_apply]
    push_cast
    push_cast at ex
    rw [ex]
    generalize Complex.exp _ = e, (Spec.growC x z : ℂ) = C, (Spec.growS x z : ℂ) = S
    linear_combination (-(β * e * (Δ / 2) ^ 2 * S)) * I2
  have dc : ∀ z, HasDerivAt (fun z => Complex.I * (Γ : ℂ) * (α * (starRingEnd ℂ) β) * Complex.exp (Complex.I * ((-(Δ / 2) * z : ℝ) : ℂ)) * (Spec.growS x z : ℂ))
      (Complex.I * (Γ : ℂ) * (α * (starRingEnd ℂ) β) * Complex.exp (Complex.I * ((-(Δ / 2) * z : ℝ) : ℂ)) *
        ((Spec.growC x z : ℂ) - Complex.I * ((Δ / 2 : ℝ) : ℂ) * (Spec.growS x z : ℂ))) z := by
    intro z
    refine (((dE z).const_mul (Complex.I * (Γ : ℂ) * (α * (starRingEnd ℂ) β))).mul (dS z)).congr_deriv ?_
    push_cast
    ring
  have split : ∀ z : ℝ, Complex.exp (Complex.I * ((-Δ * z : ℝ) : ℂ)) = Complex.exp (Complex.I * ((-(Δ / 2) * z : ℝ) : ℂ)) * Complex.exp (Complex.I * ((-(Δ / 2) * z : ℝ) : ℂ)) := by
    intro z
    rw [← Complex.exp_add]; congr 1; push_cast; ring
  have inv : ∀ z : ℝ, (starRingEnd ℂ) (Complex.exp (Complex.I * ((-(Δ / 2) * z : ℝ) : ℂ))) * Complex.exp (Complex.I * ((-(Δ / 2) * z : ℝ) : ℂ)) = 1 := by
    intro z
    rw [conj_exp_phase, ← Complex.exp_add, ← Complex.exp_zero]; congr 1; push_cast; ring
  refine ⟨⟨fun z _ => (db z).continuousAt.continuousWithinAt, fun z _ => (dc z).continuousAt.continuousWithinAt⟩, countable_empty, fun z _ => (db z).congr_deriv ?_,
    fun z _ => (dc z).congr_deriv ?_⟩
  · rw [unpoled_sign hq, split]
    have aa : α * (starRingEnd ℂ) α = ((‖α‖ : ℝ) : ℂ) ^ 2 := by rw [Complex.mul_conj, Complex.normSq_eq_norm_sq]; push_cast; ring
    have gg : ((|Γ| : ℝ) : ℂ) ^ 2 = (Γ : ℂ) ^ 2 := by rw [← Complex.ofReal_pow, sq_abs]; push_cast; ring
    have I2 := Complex.I_mul_I
    have iv := inv z
    simp only [map_mul, Complex.conj_conj, Complex.conj_ofReal, Complex.conj_I]
    push_cast at iv ⊢
    rw [mul_pow, gg, ← aa]
    generalize Complex.exp _ = e at *
    generalize (Spec.growS x z : ℂ) = S
    linear_combination (β * e * (Γ : ℂ) ^ 2 * (α * (starRingEnd ℂ) α) * S * ((starRingEnd ℂ) e * e)) * I2 - (β * e * (Γ : ℂ) ^ 2 * (α * (starRingEnd ℂ) α) * S) * iv
  · rw [unpoled_sign hq, split]
    have iv := inv z
    simp only [map_mul, map_add, Complex.conj_ofReal, Complex.conj_I]
    push_cast at iv ⊢
    generalize Complex.exp _ = e at *
    generalize (Spec.growS x z : ℂ) = S, (Spec.growC x z : ℂ) = C
    linear_combination (-(Complex.I * (Γ : ℂ) * (α * (starRingEnd ℂ) β) * e * (C - Complex.I * ((Δ : ℂ) / 2) * S))) * iv

theorem driven_norms (Γ Δ z : ℝ) (α β : ℂ) :
    let x := (|Γ| * ‖α‖) ^ 2 - (Δ / 2) ^ 2
    ‖β * Complex.exp (Complex.I * ((-(Δ / 2) * z : ℝ) : ℂ)) * ((Spec.growC x z : ℂ) + Complex.I * ((Δ / 2 : ℝ) : ℂ) * (Spec.growS x z : ℂ))‖ =
      ‖β‖ * √(1 + (|Γ| * ‖α‖ * Spec.growS x z) ^ 2) ∧
    ‖Complex.I * (Γ : ℂ) * (α * (starRingEnd ℂ) β) * Complex.exp (Complex.I * ((-(Δ / 2) * z : ℝ) : ℂ)) * (Spec.growS x z : ℂ)‖ =
      ‖β‖ * (|Γ| * ‖α‖ * |Spec.growS x z|) := by
  intro x
  constructor
  · rw [norm_mul, norm_mul, norm_phase, mul_one]
    congr 1
    have e : (Spec.growC x z : ℂ) + Complex.I * ((Δ / 2 : ℝ) : ℂ) * (Spec.growS x z : ℂ) = ⟨Spec.growC x z, Δ / 2 * Spec.growS x z⟩ := by
      apply Complex.ext <;> simp
    rw [e, ← Real.sqrt_sq (norm_nonneg _), ← Complex.normSq_eq_norm_sq, Complex.normSq_mk, ← pow_two, grow_identity]
    congr 1
    ring
  · rw [norm_mul, norm_mul, norm_phase, mul_one, norm_mul, norm_mul, norm_mul, Complex.norm_I, one_mul, Complex.norm_real, Complex.norm_real, Real.norm_eq_abs,
      Real.norm_eq_abs, RCLike.norm_conj]
    ring

/-- The error that the depletion of the pump makes, as a share of the signal that enters. -/
noncomputable def depletion (r g : ℝ) : ℝ := g * (r / 2 * Real.sinh g ^ 2) * Real.exp g

/-- C148, detuned: signal and idler at any mismatch in a crystal without poling, up to the depletion of the pump. -/
theorem C148_detuned (W : Works q squm) (hq : q.mode ≠ "PP") {m j l : Fin N} (h : ((j : ℕ) : ℤ) + (l : ℕ) = (m : ℕ) + (N / 2 : ℕ))
    (hW : 0 < q.s.W j ∧ 0 < q.i.W l) (hd : q.deff ≠ 0) {p0 s0 : ℂ} (hp : p0 ≠ 0) {Y : ℝ → Fin (3 * N) → ℂ} (hY : Solves q Y 0 q.len)
    (h0 : Y 0 = lines m j l p0 s0 0) {z : ℝ} (hz : z ∈ Icc 0 q.len) :
    let G := q.opaRate squm m j l ‖p0‖
    let S := Spec.growS (G ^ 2 - (q.mismatch m j l / 2) ^ 2) z
    |‖As (Y z) j‖ - (‖s0‖ * √(1 + (G * S) ^ 2))| ≤ ‖s0‖ * depletion (q.photonRatio m j p0 s0) (G * z) ∧
    |‖Ai (Y z) l‖ - (√(q.i.W l / q.s.W j) * ‖s0‖ * (G * |S|))| ≤ √(q.i.W l / q.s.W j) * ‖s0‖ * depletion (q.photonRatio m j p0 s0) (G * z) := by
  intro G S
  obtain ⟨E, a, b, c, P, ⟨ha, hb, hc⟩, hn⟩ := photons_of_lines W h hW hY h0
  have hWp : 0 < q.p.W m := by rw [W.matched m j l h]; exact add_pos hW.1 hW.2
  have rp := Real.sqrt_pos.2 hWp
  have rs := Real.sqrt_pos.2 hW.1
  have ri := Real.sqrt_pos.2 hW.2
  have hp' : 0 < ‖p0‖ := norm_pos_iff.2 hp
  obtain ⟨n1, n2, n3⟩ := hn z hz
  rw [zero_div] at hc
  have ha0 : a 0 ≠ 0 := norm_pos_iff.1 (by rw [ha]; positivity)
  have hΓ : q.gain squm m j l 1 ≠ 0 := by
    obtain ⟨np, -, -⟩ := W.index m
    obtain ⟨-, ns, -⟩ := W.index j
    obtain ⟨-, -, ni⟩ := W.index l
    have hc := cMks_pos
    have he := eps0_pos
    have hA := W.area
    have h1 : 0 < √(eps0 * cMks * (squm * 1e-12) * (q.p.n m * q.s.n j * q.i.n l)) := Real.sqrt_pos.2 (by positivity)
    rw [gain_one ⟨hWp.le, hW.1.le⟩]
    refine mul_ne_zero (mul_ne_zero hd ?_) (by positivity)
    unfold Prob.kappa Spec.mixStrength
    positivity
  have eG : |q.gain squm m j l 1| * ‖a 0‖ = G := by rw [ha, opaRate_gain ⟨hWp, hW.1.le⟩]
  have D := driven_unpoled hq (q.gain squm m j l 1) (q.mismatch m j l) (a 0) (b 0)
  obtain ⟨d1, d2⟩ := driven_norms (q.gain squm m j l 1) (q.mismatch m j l) z (a 0) (b 0)
  have key := P.near hc hΓ ha0 D (by simp [grow_zero]) (by simp [grow_zero]) hz
  have er : ‖b 0‖ ^ 2 / ‖a 0‖ ^ 2 = q.photonRatio m j p0 s0 := by rw [ha, hb, div_pow, div_pow, Real.sq_sqrt hWp.le, Real.sq_sqrt hW.1.le, Prob.photonRatio]
  simp only [eG, er] at key d1 d2
  rw [mul_assoc (‖b 0‖)] at key
  set b' := b 0 * Complex.exp (Complex.I * ((-(q.mismatch m j l / 2) * z : ℝ) : ℂ)) * ((Spec.growC (G ^ 2 - (q.mismatch m j l / 2) ^ 2) z : ℂ) +
    Complex.I * ((q.mismatch m j l / 2 : ℝ) : ℂ) * (Spec.growS (G ^ 2 - (q.mismatch m j l / 2) ^ 2) z : ℂ))
  set c' := Complex.I * ((q.gain squm m j l 1 : ℝ) : ℂ) * (a 0 * (starRingEnd ℂ) (b 0)) * Complex.exp (Complex.I * ((-(q.mismatch m j l / 2) * z : ℝ) : ℂ)) *
    (Spec.growS (G ^ 2 - (q.mismatch m j l / 2) ^ 2) z : ℂ)
  have k1 : |‖b z‖ - ‖b'‖| ≤ ‖b 0‖ * depletion (q.photonRatio m j p0 s0) (G * z) :=
    (abs_norm_sub_norm_le _ _).trans (le_trans (le_add_of_nonneg_right (norm_nonneg _)) key)
  have k2 : |‖c z‖ - ‖c'‖| ≤ ‖b 0‖ * depletion (q.photonRatio m j p0 s0) (G * z) :=
    (abs_norm_sub_norm_le _ _).trans (le_trans (le_add_of_nonneg_left (norm_nonneg _)) key)
  rw [d1, hb] at k1
  rw [d2, hb] at k2
  constructor
  · rw [n2]
    calc _ = √(q.s.W j) * |‖b z‖ - ‖s0‖ / √(q.s.W j) * √(1 + (G * S) ^ 2)| := by
          rw [← abs_of_pos rs, ← abs_mul, abs_of_pos rs]; congr 1; field_simp
      _ ≤ √(q.s.W j) * (‖s0‖ / √(q.s.W j) * depletion (q.photonRatio m j p0 s0) (G * z)) := mul_le_mul_of_nonneg_left k1 rs.le
      _ = _ := by field_simp
  · rw [n3, Real.sqrt_div hW.2.le]
    calc _ = √(q.i.W l) * |‖c z‖ - ‖s0‖ / √(q.s.W j) * (G * |S|)| := by
          rw [← abs_of_pos ri, ← abs_mul, abs_of_pos ri]; congr 1; field_simp
      _ ≤ √(q.i.W l) * (‖s0‖ / √(q.s.W j) * depletion (q.photonRatio m j p0 s0) (G * z)) := mul_le_mul_of_nonneg_left k2 ri.le
      _ = _ := by field_simp

/-- C148, growth: within twice the gain the idler grows exponentially at the rate `√(G² - (Δ / 2)²)`, up to the depletion. -/
theorem C148_growth (W : Works q squm) (hq : q.mode ≠ "PP") {m j l : Fin N} (h : ((j : ℕ) : ℤ) + (l : ℕ) = (m : ℕ) + (N / 2 : ℕ))
    (hW : 0 < q.s.W j ∧ 0 < q.i.W l) (hd : q.deff ≠ 0) {p0 s0 : ℂ} (hp : p0 ≠ 0) (hΔ : |q.mismatch m j l| < 2 * q.opaRate squm m j l ‖p0‖)
    {Y : ℝ → Fin (3 * N) → ℂ} (hY : Solves q Y 0 q.len) (h0 : Y 0 = lines m j l p0 s0 0) {z : ℝ} (hz : z ∈ Icc 0 q.len) :
    let G := q.opaRate squm m j l ‖p0‖
    let γ := √(G ^ 2 - (q.mismatch m j l / 2) ^ 2)
    |‖Ai (Y z) l‖ - (√(q.i.W l / q.s.W j) * ‖s0‖ * (G / γ * Real.sinh (γ * z)))| ≤
      √(q.i.W l / q.s.W j) * ‖s0‖ * depletion (q.photonRatio m j p0 s0) (G * z) := by
  intro G γ
  have hG : 0 ≤ G := opaRate_nonneg _ _ _ (norm_nonneg _)
  have hx : 0 < G ^ 2 - (q.mismatch m j l / 2) ^ 2 := by
    have h1 : |q.mismatch m j l / 2| < G := by rw [abs_div, abs_two]; linarith
    have := sq_lt_sq' (by linarith [neg_abs_le (q.mismatch m j l / 2)]) (lt_of_le_of_lt (le_abs_self _) h1)
    linarith
  have hγ : 0 < γ := Real.sqrt_pos.2 hx
  have key := (C148_detuned W hq h hW hd hp hY h0 hz).2
  have e : Spec.growS (G ^ 2 - (q.mismatch m j l / 2) ^ 2) z = Real.sinh (γ * z) / γ := by rw [Spec.growS, if_pos hx]
  have e2 : G * |Spec.growS (G ^ 2 - (q.mismatch m j l / 2) ^ 2) z| = G / γ * Real.sinh (γ * z) := by
    rw [e, abs_div, abs_of_pos hγ, abs_of_nonneg (Real.sinh_nonneg_iff.2 (mul_nonneg hγ.le hz.1))]
    ring
  rw [← e2]
  exact key

/-- A quantity that the waves of a crystal without poling keep. -/
theorem Photons.detuning (P : Photons q Γ Δ E a b c) (hq : q.mode ≠ "PP") {z : ℝ} (hz : z ∈ Icc 0 q.len) :
    Δ * ‖c z‖ ^ 2 + 2 * Γ * ((starRingEnd ℂ) (a z) * (b z * c z) * Complex.exp (Complex.I * ((Δ * z : ℝ) : ℂ))).re =
      Δ * ‖c 0‖ ^ 2 + 2 * Γ * ((starRingEnd ℂ) (a 0) * (b 0 * c 0)).re := by
  have sub : Icc 0 z ⊆ Icc 0 q.len := Icc_subset_Icc_right hz.2
  have key := const_of_deriv_zero P.cnt hz.1 (f := fun t => Δ * ‖c t‖ ^ 2 + 2 * Γ * ((starRingEnd ℂ) (a t) * (b t * c t) * Complex.exp (Complex.I * ((Δ * t : ℝ) : ℂ))).re)
    ((continuousOn_const.mul ((P.cont.2.2.mono sub).norm.pow 2)).add (continuousOn_const.mul (Complex.continuous_re.comp_continuousOn
      (((Complex.continuous_conj.comp_continuousOn (P.cont.1.mono sub)).mul ((P.cont.2.1.mono sub).mul (P.cont.2.2.mono sub))).mul (continuous_phase Δ).continuousOn))))
    fun t ht => ?_
  · simpa using key
  · have ht' : t ∈ Ioo 0 q.len \ E := ⟨⟨ht.1.1, ht.1.2.trans_le hz.2⟩, ht.2⟩
    have da := P.da t ht'
    have db := P.db t ht'
    have dc := P.dc t ht'
    rw [unpoled_sign hq, Complex.ofReal_one, one_mul] at da db dc
    have cj : HasDerivAt (fun t => (starRingEnd ℂ) (a t)) ((starRingEnd ℂ) (Complex.I * (Γ : ℂ) * (b t * c t) * Complex.exp (Complex.I * ((Δ * t : ℝ) : ℂ)))) t := (Complex.conjCLE : ℂ ≃L[ℝ] ℂ).toContinuousLinearMap.hasFDerivAt.comp_hasDerivAt t da
    have dE : HasDerivAt (fun z : ℝ => Complex.exp (Complex.I * ((Δ * z : ℝ) : ℂ))) (Complex.exp (Complex.I * ((Δ * t : ℝ) : ℂ)) * (Complex.I * (Δ : ℂ))) t := by
      have l : HasDerivAt (fun z : ℝ => Δ * z) Δ t := by simpa using (hasDerivAt_id t).const_mul Δ
      exact (l.ofReal_comp.const_mul Complex.I).cexp
    set X := (starRingEnd ℂ) (a t) * (b t * c t) * Complex.exp (Complex.I * ((Δ * t : ℝ) : ℂ)) with hX
    set e := Complex.exp (Complex.I * ((Δ * t : ℝ) : ℂ)) with he
    have ce : Complex.exp (Complex.I * ((-Δ * t : ℝ) : ℂ)) = (starRingEnd ℂ) e := by rw [he, conj_exp_phase]
    have ee : e * (starRingEnd ℂ) e = 1 := by rw [Complex.mul_conj, Complex.normSq_eq_norm_sq, he, norm_phase]; simp
    have nn : ∀ x : ℂ, x * (starRingEnd ℂ) x = ((‖x‖ ^ 2 : ℝ) : ℂ) := fun x => by rw [Complex.mul_conj, Complex.normSq_eq_norm_sq]
    rw [ce] at db dc
    have dX : HasDerivAt (fun t => (starRingEnd ℂ) (a t) * (b t * c t) * Complex.exp (Complex.I * ((Δ * t : ℝ) : ℂ)))
        (Complex.I * ((Γ * (‖a t‖ ^ 2 * ‖c t‖ ^ 2 + ‖a t‖ ^ 2 * ‖b t‖ ^ 2 - ‖b t‖ ^ 2 * ‖c t‖ ^ 2) : ℝ) : ℂ) + Complex.I * (Δ : ℂ) * X) t := by
      refine ((cj.mul (db.mul dc)).mul dE).congr_deriv ?_
      simp only [Pi.mul_apply, ← he]
      simp only [Complex.ofReal_mul, Complex.ofReal_add, Complex.ofReal_sub, ← nn, hX, map_mul, Complex.conj_I, Complex.conj_ofReal]
      linear_combination (Complex.I * (Γ : ℂ) * (a t * (starRingEnd ℂ) (a t) * (c t * (starRingEnd ℂ) (c t)) + a t * (starRingEnd ℂ) (a t) * (b t * (starRingEnd ℂ) (b t)) -
        b t * (starRingEnd ℂ) (b t) * (c t * (starRingEnd ℂ) (c t)))) * ee
    have dre : HasDerivAt (fun t => ((starRingEnd ℂ) (a t) * (b t * c t) * Complex.exp (Complex.I * ((Δ * t : ℝ) : ℂ))).re) _ t :=
      Complex.reCLM.hasFDerivAt.comp_hasDerivAt t dX
    refine (((hasDerivAt_norm_sq dc).const_mul Δ).add (dre.const_mul (2 * Γ))).congr_deriv ?_
    have h1 : (starRingEnd ℂ) (c t) * (Complex.I * (Γ : ℂ) * (a t * (starRingEnd ℂ) (b t)) * (starRingEnd ℂ) e) = Complex.I * (Γ : ℂ) * (starRingEnd ℂ) X := by
      simp only [hX, map_mul, Complex.conj_conj]
      ring
    rw [h1]
    simp only [Complex.reCLM_apply, Complex.add_re, Complex.mul_re, Complex.mul_im, Complex.I_re, Complex.I_im, Complex.ofReal_re, Complex.ofReal_im, Complex.conj_re,
      Complex.conj_im]
    ring

/-- C148, bounded: beyond twice the gain the signal never exceeds the factor `Δ² / (Δ² - 4 G²)`, whatever the length and the depletion. -/
theorem C148_bounded (W : Works q squm) (hq : q.mode ≠ "PP") {m j l : Fin N} (h : ((j : ℕ) : ℤ) + (l : ℕ) = (m : ℕ) + (N / 2 : ℕ))
    (hW : 0 < q.s.W j ∧ 0 < q.i.W l) {p0 s0 : ℂ} (hΔ : 2 * q.opaRate squm m j l ‖p0‖ < |q.mismatch m j l|)
    {Y : ℝ → Fin (3 * N) → ℂ} (hY : Solves q Y 0 q.len) (h0 : Y 0 = lines m j l p0 s0 0) {z : ℝ} (hz : z ∈ Icc 0 q.len) :
    let G := q.opaRate squm m j l ‖p0‖
    let Δ := q.mismatch m j l
    ‖As (Y z) j‖ ^ 2 ≤ ‖s0‖ ^ 2 * (Δ ^ 2 / (Δ ^ 2 - 4 * G ^ 2)) ∧ ‖Ai (Y z) l‖ ^ 2 ≤ q.i.W l / q.s.W j * ‖s0‖ ^ 2 * (4 * G ^ 2 / (Δ ^ 2 - 4 * G ^ 2)) := by
  intro G Δ
  obtain ⟨E, a, b, c, P, ⟨ha, hb, hc⟩, hn⟩ := photons_of_lines W h hW hY h0
  have hWp : 0 < q.p.W m := by rw [W.matched m j l h]; exact add_pos hW.1 hW.2
  have hG : 0 ≤ G := opaRate_nonneg _ _ _ (norm_nonneg _)
  rw [zero_div] at hc
  have eG : |q.gain squm m j l 1| * ‖a 0‖ = G := by rw [ha, opaRate_gain ⟨hWp, hW.1.le⟩]
  obtain ⟨f1, f2⟩ := P.fluxes hz
  have hk := P.detuning hq hz
  rw [hc, norm_zero] at f1 f2
  rw [hc] at hk
  simp only [norm_zero, mul_zero, Complex.zero_re, ne_eq, OfNat.ofNat_ne_zero, not_false_eq_true, zero_pow, add_zero, sub_zero] at hk f1 f2
  set X := (starRingEnd ℂ) (a z) * (b z * c z) * Complex.exp (Complex.I * ((q.mismatch m j l * z : ℝ) : ℂ)) with hX
  have nX : |X.re| ≤ ‖a z‖ * (‖b z‖ * ‖c z‖) := by
    refine (Complex.abs_re_le_norm X).trans (le_of_eq ?_)
    rw [hX, norm_mul, norm_phase, mul_one, norm_mul, norm_mul, RCLike.norm_conj]
  have haz : ‖a z‖ ≤ ‖a 0‖ := (sq_le_sq₀ (norm_nonneg _) (norm_nonneg _)).1 (by nlinarith [sq_nonneg ‖c z‖])
  have hc1 : |Δ| * ‖c z‖ ^ 2 ≤ 2 * G * (‖b z‖ * ‖c z‖) := by
    have e : Δ * ‖c z‖ ^ 2 = -(2 * q.gain squm m j l 1 * X.re) := by linarith
    have e2 : |Δ| * ‖c z‖ ^ 2 = 2 * |q.gain squm m j l 1| * |X.re| := by
      rw [← abs_of_nonneg (sq_nonneg ‖c z‖), ← abs_mul, e, abs_neg, abs_mul, abs_mul, abs_two]
    rw [e2, ← eG]
    have h1 : ‖a z‖ * (‖b z‖ * ‖c z‖) ≤ ‖a 0‖ * (‖b z‖ * ‖c z‖) := mul_le_mul_of_nonneg_right haz (by positivity)
    have h2 := mul_le_mul_of_nonneg_left (nX.trans h1) (show 0 ≤ 2 * |q.gain squm m j l 1| by positivity)
    linarith
  have hc2 : |Δ| * ‖c z‖ ≤ 2 * G * ‖b z‖ := by
    rcases (norm_nonneg (c z)).eq_or_lt with h3 | h3
    · rw [← h3, mul_zero]; positivity
    · have : |Δ| * ‖c z‖ * ‖c z‖ ≤ 2 * G * ‖b z‖ * ‖c z‖ := by linarith
      exact le_of_mul_le_mul_right this h3
  have hc3 : Δ ^ 2 * ‖c z‖ ^ 2 ≤ 4 * G ^ 2 * ‖b z‖ ^ 2 := by
    have := pow_le_pow_left₀ (by positivity) hc2 2
    rw [mul_pow, sq_abs] at this
    linarith
  have hD : 0 < Δ ^ 2 - 4 * G ^ 2 := by
    have := pow_lt_pow_left₀ hΔ (by positivity) two_ne_zero
    rw [sq_abs] at this
    have e : (2 * q.opaRate squm m j l ‖p0‖) ^ 2 = 4 * G ^ 2 := by show _ = 4 * q.opaRate squm m j l ‖p0‖ ^ 2; ring
    have e' : q.mismatch m j l ^ 2 = Δ ^ 2 := rfl
    linarith
  have hb2 : ‖b 0‖ ^ 2 = ‖s0‖ ^ 2 / q.s.W j := by rw [hb, div_pow, Real.sq_sqrt hW.1.le]
  have hS : ‖As (Y z) j‖ ^ 2 ≤ ‖s0‖ ^ 2 * (Δ ^ 2 / (Δ ^ 2 - 4 * G ^ 2)) := by
    rw [(hn z hz).2.1, mul_pow, Real.sq_sqrt hW.1.le, mul_div_assoc', le_div_iff₀ hD]
    have h4 : ‖c z‖ ^ 2 = ‖b z‖ ^ 2 - ‖s0‖ ^ 2 / q.s.W j := by linarith
    rw [h4] at hc3
    have h5 : ‖b z‖ ^ 2 * (Δ ^ 2 - 4 * G ^ 2) ≤ Δ ^ 2 * (‖s0‖ ^ 2 / q.s.W j) := by linarith
    have h6 := mul_le_mul_of_nonneg_left h5 hW.1.le
    have e : q.s.W j * (Δ ^ 2 * (‖s0‖ ^ 2 / q.s.W j)) = ‖s0‖ ^ 2 * Δ ^ 2 := by
      have := hW.1.ne'
      field_simp
    linarith
  refine ⟨hS, ?_⟩
  rw [(C147_fluxes W h hW hY h0 hz).1, mul_assoc]
  refine mul_le_mul_of_nonneg_left ?_ (div_nonneg hW.2.le hW.1.le)
  have e : Δ ^ 2 / (Δ ^ 2 - 4 * G ^ 2) = 1 + 4 * G ^ 2 / (Δ ^ 2 - 4 * G ^ 2) := by field_simp; ring
  rw [e] at hS
  linarith

/-- C148, computed: what an integration that returns gives at any mismatch. -/
theorem C148_computed (W : Works q squm) {κ R ρ : ℝ} (S : Strength (q.wp squm) (q.ws squm) (q.wi squm) |q.deff| κ) (hq : q.mode ≠ "PP") {m j l : Fin N}
    (h : ((j : ℕ) : ℤ) + (l : ℕ) = (m : ℕ) + (N / 2 : ℕ)) (hW : 0 < q.s.W j ∧ 0 < q.i.W l) (hd : q.deff ≠ 0) {p0 s0 : ℂ} (hp : p0 ≠ 0)
    (hρ : 0 < ρ) (hR : √(‖p0‖ ^ 2 + ‖s0‖ ^ 2) + ρ < R) (hsm : q.len * Real.exp (26 * (2 * N * κ * R) * q.len) * (1e-27 * (N * κ * R ^ 2)) < ρ) :
    let G := q.opaRate squm m j l ‖p0‖
    let S := Spec.growS (G ^ 2 - (q.mismatch m j l / 2) ^ 2) q.len
    ∃ C h0, 0 ≤ C ∧ 0 < h0 ∧ ∀ hm ∈ Ioc 0 h0, ∀ (p : Ode.Prob (3 * N)) (con : Ode.Con) (h1 hmin : ℝ) (out : Ode.Out (3 * N)) (o' : Ode.Ode (3 * N)),
      p.f = q.rhs → Ode.Rounds p.fl → out.Usable → (Ode.Ode.new con (lines m j l p0 s0 0) 0 q.len h1 hmin out).integrate p = some (.ok (), o') →
      Ode.StepsLe hm 0 o'.visited →
      |‖Ai o'.ystart l‖ - (√(q.i.W l / q.s.W j) * ‖s0‖ * (G * |S|))| ≤ √(q.i.W l / q.s.W j) * ‖s0‖ * depletion (q.photonRatio m j p0 s0) (G * q.len) +
        (q.len * Real.exp (26 * (2 * N * κ * R) * q.len) * (1e-27 * (N * κ * R ^ 2)) + C * hm) := by
  intro G S'
  obtain ⟨C, h0, hC, hh0, hc⟩ := C121_converges W S (lines m j l p0 s0 0) hρ (by rw [lines_power]; simpa using hR) hsm
  obtain ⟨Y, hY0, hY, -, -⟩ := C121_solution W (lines m j l p0 s0 0)
  refine ⟨C, h0, hC, hh0, fun hm hhm p con h1 hmin out o' hp' hfl ho hr hst => ?_⟩
  have h2 := hc hm hhm p con h1 hmin out o' hp' hfl ho hr hst Y hY hY0
  have h3 := (C148_detuned W hq h hW hd hp hY hY0 ⟨W.len.le, le_refl _⟩).2
  have h4 : |‖Ai o'.ystart l‖ - ‖Ai (Y q.len) l‖| ≤ _ := (abs_norm_sub_norm_le _ _).trans ((norm_le_pi_norm (o'.ystart - Y q.len) _).trans h2)
  have := abs_sub_le (‖Ai o'.ystart l‖) (‖Ai (Y q.len) l‖) (√(q.i.W l / q.s.W j) * ‖s0‖ * (G * |S'|))
  linarith

/-! The hypotheses hold for the crystal of `C147_nonvacuous` with a wave vector `δ` at the signal; pump, signal and gain are the same, so a
small `δ` lies within twice the gain and a `δ` of 3 beyond. -/

noncomputable def exDetuned (δ : ℝ) : Prob 2 := { exOpa with s := ⟨![3, 4], ![0, 0], δ, fun _ => 3⟩ }

theorem exDetuned_works (δ : ℝ) : Works (exDetuned δ) 10 :=
  ⟨by norm_num, by norm_num, rfl, fun j => by norm_num [exDetuned, exOpa, exUnpoled, exGuided], rfl, exGuided_matched, .inr (.inr rfl),
    by norm_num [exDetuned, exOpa, exUnpoled, exGuided]⟩

theorem C148_nonvacuous : (∀ δ, Works (exDetuned δ) 10 ∧ (exDetuned δ).mode ≠ "PP" ∧ 0 < (exDetuned δ).s.W 0 ∧ 0 < (exDetuned δ).i.W 1 ∧ (exDetuned δ).deff ≠ 0) ∧
    (((0 : Fin 2) : ℕ) : ℤ) + ((1 : Fin 2) : ℕ) = ((0 : Fin 2) : ℕ) + (2 / 2 : ℕ) ∧
    (∃ δ, δ ≠ 0 ∧ (exDetuned δ).mismatch 0 0 1 = δ ∧ |(exDetuned δ).mismatch 0 0 1| < 2 * (exDetuned δ).opaRate 10 0 0 1 ‖(1 / 10 : ℂ)‖) ∧
    ∃ δ, 2 * (exDetuned δ).opaRate 10 0 0 1 ‖(1 / 10 : ℂ)‖ < |(exDetuned δ).mismatch 0 0 1| := by
  have hmm : ∀ δ, (exDetuned δ).mismatch 0 0 1 = δ := fun δ => by simp [Prob.mismatch, exDetuned, exOpa, exUnpoled, exGuided]
  have hop : ∀ δ, (exDetuned δ).opaRate 10 0 0 1 ‖(1 / 10 : ℂ)‖ = exOpa.opaRate 10 0 0 1 ‖(1 / 10 : ℂ)‖ := fun δ => rfl
  have hpos : 0 < exOpa.opaRate 10 0 0 1 ‖(1 / 10 : ℂ)‖ := by
    have := C147_nonvacuous.2.2.2.2.2.2.2.2.1
    rwa [show exOpa.len = 1 from rfl, mul_one] at this
  refine ⟨fun δ => ⟨exDetuned_works δ, by show ("simple" : String) ≠ "PP"; decide, by norm_num [exDetuned, exOpa, exUnpoled, exGuided],
    by norm_num [exDetuned, exOpa, exUnpoled, exGuided], by norm_num [exDetuned, exOpa, exUnpoled, exGuided]⟩, rfl,
    ⟨exOpa.opaRate 10 0 0 1 ‖(1 / 10 : ℂ)‖, hpos.ne', hmm _, ?_⟩, ⟨3 * exOpa.opaRate 10 0 0 1 ‖(1 / 10 : ℂ)‖, ?_⟩⟩
  · rw [hmm, hop, abs_of_pos hpos]; linarith
  · rw [hmm, hop, abs_of_pos (by positivity)]; linarith

end PyNLO.Dfg
