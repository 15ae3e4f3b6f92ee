import Verif.Props.DfgDetuned

/-!
# C183: frequency conversion by a strong signal

A weak pump and a strong signal enter a waveguide crystal without poling, with any phase mismatch.  The photons of the pump turn into photons of the
idler and back, like the two states of a driven system: the share in the idler is `(g/Ω)² sin²(Ω z)` with `Ω² = g² + (Δ/2)²`.
-/

open scoped BigOperators
open Set

namespace PyNLO.Spec

/-- Amplitude of the second of two states coupled with the strength `g` and detuned by `Δ`, after the length `z`. -/
noncomputable def rabi (g Δ z : ℝ) : ℝ := g / √(g ^ 2 + (Δ / 2) ^ 2) * |Real.sin (√(g ^ 2 + (Δ / 2) ^ 2) * z)|

end PyNLO.Spec

namespace PyNLO.Dfg

open Beam

variable {N : ℕ} {q : Prob N} {squm : ℝ} {Γ Δ : ℝ} {E : Set ℝ} {a b c : ℝ → ℂ}

/-- Without idler at the entrance the signal changes by no more than the photons of the pump allow. -/
theorem Photons.signal_near (P : Photons q Γ Δ E a b c) (h0 : c 0 = 0) {z : ℝ} (hz : z ∈ Icc 0 q.len) :
    ‖b z - b 0‖ ≤ |Γ| * (‖a 0‖ ^ 2 / 2) * z := by
  have sub : Icc 0 z ⊆ Icc 0 q.len := Icc_subset_Icc_right hz.2
  have hc : ContinuousOn (fun t => Complex.I * (Γ : ℂ) * (a t * (starRingEnd ℂ) (c t)) * Complex.exp (Complex.I * ((-Δ * t : ℝ) : ℂ))) (Icc 0 z) :=
    ((continuousOn_const.mul ((P.cont.1.mono sub).mul (Complex.continuous_conj.comp_continuousOn (P.cont.2.2.mono sub)))).mul
      (continuous_phase (-Δ)).continuousOn)
  rw [amplitude_integral (q := q) P.cnt hz.1 (P.cont.2.1.mono sub) hc fun x hx => P.db x ⟨⟨hx.1.1, hx.1.2.trans_le hz.2⟩, hx.2⟩]
  have h1 := intervalIntegral.norm_integral_le_of_norm_le_const (a := 0) (b := z) (C := |Γ| * (‖a 0‖ ^ 2 / 2))
    (f := fun t => ((q.sign t : ℝ) : ℂ) * (Complex.I * (Γ : ℂ) * (a t * (starRingEnd ℂ) (c t)) * Complex.exp (Complex.I * ((-Δ * t : ℝ) : ℂ)))) fun t ht => by
      rw [uIoc_of_le hz.1] at ht
      have hf := (P.fluxes (z := t) ⟨ht.1.le, ht.2.trans hz.2⟩).2
      rw [h0, norm_zero] at hf
      rw [norm_drive]
      refine mul_le_mul_of_nonneg_left ?_ (abs_nonneg _)
      nlinarith [sq_nonneg (‖a t‖ - ‖c t‖)]
  rwa [sub_zero, abs_of_nonneg hz.1] at h1

theorem phase_mul (x y : ℝ) : Complex.exp (Complex.I * (x : ℂ)) * Complex.exp (Complex.I * (y : ℂ)) = Complex.exp (Complex.I * ((x + y : ℝ) : ℂ)) := by
  rw [← Complex.exp_add]
  congr 1
  push_cast
  ring

/-- `u v + w x ≤ s` when `u² + w² = 1` and `v² + x² = s²`. -/
theorem cauchy_two {u v w x s : ℝ} (hs : 0 ≤ s) (h1 : u ^ 2 + w ^ 2 = 1) (h2 : v ^ 2 + x ^ 2 = s ^ 2) : u * v + w * x ≤ s := by
  refine abs_le_of_sq_le_sq' ?_ hs |>.2
  have e : s ^ 2 = (u ^ 2 + w ^ 2) * (v ^ 2 + x ^ 2) := by rw [h1, h2, one_mul]
  rw [e]
  nlinarith [sq_nonneg (u * x - w * v)]

/-- Pump and idler rotate into each other. -/
theorem Photons.convert (P : Photons q Γ Δ E a b c) (hq : q.mode ≠ "PP") (h0 : c 0 = 0) (hb : b 0 ≠ 0) (hΓ : Γ ≠ 0) {z : ℝ} (hz : z ∈ Icc 0 q.len) :
    |‖c z‖ - ‖a 0‖ * Spec.rabi (|Γ| * ‖b 0‖) Δ z| ≤ |Γ| ^ 2 * ‖a 0‖ ^ 3 / 4 * z ^ 2 := by
  set g := |Γ| * ‖b 0‖ with hg
  have hg0 : 0 < g := mul_pos (abs_pos.2 hΓ) (norm_pos_iff.2 hb)
  set x : ℝ := -(g ^ 2 + (Δ / 2) ^ 2) with hx
  have hx0 : x < 0 := by rw [hx]; nlinarith [sq_nonneg (Δ / 2)]
  have hgg : ((g ^ 2 : ℝ) : ℂ) = (Γ : ℂ) ^ 2 * (b 0 * (starRingEnd ℂ) (b 0)) := by
    rw [Complex.mul_conj, Complex.normSq_eq_norm_sq, hg, mul_pow, sq_abs]
    push_cast
    ring
  set C : ℝ → ℝ := fun t => Spec.growC x (z - t) with hC
  set S : ℝ → ℝ := fun t => Spec.growS x (z - t) with hS
  have dC : ∀ t, HasDerivAt C (-(x * S t)) t := fun t => by
    have := (hasDerivAt_grow x (z - t)).1.comp t ((hasDerivAt_id t).const_sub z)
    refine this.congr_deriv ?_
    simp only [hS]
    ring
  have dS : ∀ t, HasDerivAt S (-(C t)) t := fun t => by
    have := (hasDerivAt_grow x (z - t)).2.comp t ((hasDerivAt_id t).const_sub z)
    refine this.congr_deriv ?_
    simp only [hC]
    ring
  have dph : ∀ k t : ℝ, HasDerivAt (fun t : ℝ => Complex.exp (Complex.I * ((k * t : ℝ) : ℂ)))
      (Complex.exp (Complex.I * ((k * t : ℝ) : ℂ)) * (Complex.I * (k : ℂ))) t := fun k t => by
    have := ((((hasDerivAt_id t).const_mul k).ofReal_comp).const_mul Complex.I).cexp
    simpa using this
  set X : ℝ → ℂ := fun t => Complex.I * (Γ : ℂ) * (starRingEnd ℂ) (b 0) * (S t : ℂ) * Complex.exp (Complex.I * ((-(Δ / 2) * t : ℝ) : ℂ)) with hX
  set V : ℝ → ℂ := fun t => ((C t : ℂ) + Complex.I * ((Δ / 2 : ℝ) : ℂ) * (S t : ℂ)) * Complex.exp (Complex.I * ((Δ / 2 * t : ℝ) : ℂ)) with hV
  have dX : ∀ t, HasDerivAt X (-(Complex.I * (Γ : ℂ) * (starRingEnd ℂ) (b 0) * ((C t : ℂ) + Complex.I * ((Δ / 2 : ℝ) : ℂ) * (S t : ℂ)) *
      Complex.exp (Complex.I * ((-(Δ / 2) * t : ℝ) : ℂ)))) t := fun t => by
    refine (((dS t).ofReal_comp.const_mul (Complex.I * (Γ : ℂ) * (starRingEnd ℂ) (b 0))).mul (dph (-(Δ / 2)) t)).congr_deriv ?_
    push_cast
    ring
  have dV : ∀ t, HasDerivAt V (((g ^ 2 : ℝ) : ℂ) * (S t : ℂ) * Complex.exp (Complex.I * ((Δ / 2 * t : ℝ) : ℂ))) t := fun t => by
    refine (((dC t).ofReal_comp.add ((dS t).ofReal_comp.const_mul (Complex.I * ((Δ / 2 : ℝ) : ℂ)))).mul (dph (Δ / 2) t)).congr_deriv ?_
    rw [hx]
    simp only [Pi.add_apply]
    generalize Complex.exp (Complex.I * ((Δ / 2 * t : ℝ) : ℂ)) = e
    clear_value C S
    push_cast
    linear_combination ((Δ : ℂ) / 2) ^ 2 * (S t : ℂ) * e * Complex.I_sq
  have nX : ∀ t, ‖X t‖ = g * |S t| := fun t => by
    simp only [hX]
    rw [norm_mul, norm_phase, mul_one, norm_mul, norm_mul, norm_mul, Complex.norm_I, one_mul, Complex.norm_real, Complex.norm_real, RCLike.norm_conj,
      Real.norm_eq_abs, Real.norm_eq_abs]
  have nV : ∀ t, ‖V t‖ ^ 2 = C t ^ 2 + (Δ / 2 * S t) ^ 2 := fun t => by
    simp only [hV]
    rw [norm_mul, norm_phase, mul_one, ← Complex.normSq_eq_norm_sq, mul_assoc, ← Complex.ofReal_mul, mul_comm Complex.I, Complex.normSq_add_mul_I]
  have unit : ∀ t, ‖X t‖ ^ 2 + ‖V t‖ ^ 2 = 1 := fun t => by
    have := grow_identity x (z - t)
    rw [nX, nV, mul_pow, sq_abs]
    show g ^ 2 * Spec.growS x (z - t) ^ 2 + (Spec.growC x (z - t) ^ 2 + _) = 1
    rw [this, hx]
    simp only [hS]
    ring
  set J : ℝ → ℂ := fun t => X t * a t + V t * c t with hJ
  set D : ℝ → ℂ := fun t => X t * (Complex.I * (Γ : ℂ) * ((b t - b 0) * c t) * Complex.exp (Complex.I * ((Δ * t : ℝ) : ℂ))) +
    V t * (Complex.I * (Γ : ℂ) * (a t * (starRingEnd ℂ) (b t - b 0)) * Complex.exp (Complex.I * ((-Δ * t : ℝ) : ℂ))) with hD
  have sub : Icc 0 z ⊆ Icc 0 q.len := Icc_subset_Icc_right hz.2
  have cX : Continuous X := continuous_iff_continuousAt.2 fun t => (dX t).continuousAt
  have cV : Continuous V := continuous_iff_continuousAt.2 fun t => (dV t).continuousAt
  have ca := P.cont.1.mono sub
  have cb := P.cont.2.1.mono sub
  have cc := P.cont.2.2.mono sub
  have cJ : ContinuousOn J (Icc 0 z) := (cX.continuousOn.mul ca).add (cV.continuousOn.mul cc)
  have cbb : ContinuousOn (fun t => b t - b 0) (Icc 0 z) := cb.sub continuousOn_const
  have cD : ContinuousOn D (Icc 0 z) :=
    (cX.continuousOn.mul ((continuousOn_const.mul (cbb.mul cc)).mul (continuous_phase Δ).continuousOn)).add
      (cV.continuousOn.mul ((continuousOn_const.mul (ca.mul (Complex.continuous_conj.comp_continuousOn cbb))).mul (continuous_phase (-Δ)).continuousOn))
  have dJ : ∀ t ∈ Ioo 0 z \ E, HasDerivAt J (D t) t := fun t ht => by
    have ht' : t ∈ Ioo 0 q.len \ E := ⟨⟨ht.1.1, ht.1.2.trans_le hz.2⟩, ht.2⟩
    have da := P.da t ht'
    have dc := P.dc t ht'
    rw [unpoled_sign hq, Complex.ofReal_one, one_mul] at da dc
    refine (((dX t).mul da).add ((dV t).mul dc)).congr_deriv ?_
    have p1 : Complex.exp (Complex.I * ((-(Δ / 2) * t : ℝ) : ℂ)) * Complex.exp (Complex.I * ((Δ * t : ℝ) : ℂ)) = Complex.exp (Complex.I * ((Δ / 2 * t : ℝ) : ℂ)) := by
      rw [phase_mul]; congr 3; ring
    have p2 : Complex.exp (Complex.I * ((Δ / 2 * t : ℝ) : ℂ)) * Complex.exp (Complex.I * ((-Δ * t : ℝ) : ℂ)) = Complex.exp (Complex.I * ((-(Δ / 2) * t : ℝ) : ℂ)) := by
      rw [phase_mul]; congr 3; ring
    simp only [hD, hX, hV, map_sub]
    rw [hgg]
    clear_value C S
    generalize Complex.exp (Complex.I * ((-(Δ / 2) * t : ℝ) : ℂ)) = e1 at *
    generalize Complex.exp (Complex.I * ((Δ / 2 * t : ℝ) : ℂ)) = e2 at *
    generalize Complex.exp (Complex.I * ((Δ * t : ℝ) : ℂ)) = e3 at *
    generalize Complex.exp (Complex.I * ((-Δ * t : ℝ) : ℂ)) = e4 at *
    generalize (starRingEnd ℂ) (b 0) = β at *
    linear_combination (-(Γ : ℂ) ^ 2 * (b 0 * β) * (S t : ℂ) * c t) * p1 + Complex.I * Γ * β * a t * ((C t : ℂ) + Complex.I * ((Δ / 2 : ℝ) : ℂ) * (S t : ℂ)) * p2 +
      ((Γ : ℂ) ^ 2 * β * b 0 * (S t : ℂ) * c t * e1 * e3) * Complex.I_sq
  have hint := MeasureTheory.integral_eq_of_hasDerivAt_off_countable_of_le J D hz.1 P.cnt cJ dJ (cD.intervalIntegrable_of_Icc hz.1)
  have bD : ∀ t ∈ Ioc 0 z, ‖D t‖ ≤ |Γ| ^ 2 * ‖a 0‖ ^ 3 / 2 * t := fun t ht => by
    have ht' : t ∈ Icc 0 q.len := ⟨ht.1.le, ht.2.trans hz.2⟩
    have hf := (P.fluxes ht').2
    rw [h0, norm_zero] at hf
    have n1 : ‖D t‖ ≤ |Γ| * ‖b t - b 0‖ * (‖X t‖ * ‖c t‖ + ‖V t‖ * ‖a t‖) := by
      refine (norm_add_le _ _).trans (le_of_eq ?_)
      have key : ∀ (w u : ℂ) (y : ℝ), ‖w * (Complex.I * (Γ : ℂ) * u * Complex.exp (Complex.I * (y : ℂ)))‖ = ‖w‖ * (|Γ| * ‖u‖) := fun w u y => by
        rw [norm_mul, norm_mul, norm_phase, mul_one, norm_mul, norm_mul, Complex.norm_I, one_mul, Complex.norm_real, Real.norm_eq_abs]
      rw [key, key, norm_mul (b t - b 0), norm_mul (a t), RCLike.norm_conj]
      ring
    have n2 := cauchy_two (norm_nonneg (a 0)) (unit t) (v := ‖c t‖) (x := ‖a t‖) (by linarith)
    have n3 := P.signal_near h0 ht'
    calc ‖D t‖ ≤ _ := n1
      _ ≤ |Γ| * (|Γ| * (‖a 0‖ ^ 2 / 2) * t) * ‖a 0‖ :=
        mul_le_mul (mul_le_mul_of_nonneg_left n3 (abs_nonneg _)) n2 (by positivity) (mul_nonneg (abs_nonneg _) (mul_nonneg (by positivity) ht.1.le))
      _ = _ := by ring
  have hbound : ‖J z - J 0‖ ≤ |Γ| ^ 2 * ‖a 0‖ ^ 3 / 4 * z ^ 2 := by
    rw [← hint]
    refine (intervalIntegral.norm_integral_le_of_norm_le hz.1 (Filter.Eventually.of_forall fun t ht => bD t ht) (by
      exact (continuous_const.mul continuous_id).intervalIntegrable _ _)).trans (le_of_eq ?_)
    rw [intervalIntegral.integral_const_mul, integral_id]
    ring
  have Jz : ‖J z‖ = ‖c z‖ := by
    have e1 : X z = 0 := by
      simp only [hX, hS, sub_self, (grow_zero x).2]
      simp
    have e2 : ‖V z‖ = 1 := by
      have := unit z
      rw [e1, norm_zero] at this
      nlinarith [norm_nonneg (V z)]
    simp only [hJ]
    rw [e1, zero_mul, zero_add, norm_mul, e2, one_mul]
  have J0 : ‖J 0‖ = ‖a 0‖ * Spec.rabi g Δ z := by
    simp only [hJ]
    rw [h0, mul_zero, add_zero, norm_mul, nX]
    have : |S 0| = |Real.sin (√(g ^ 2 + (Δ / 2) ^ 2) * z)| / √(g ^ 2 + (Δ / 2) ^ 2) := by
      show |Spec.growS x (z - 0)| = _
      rw [sub_zero, Spec.growS, if_neg (by linarith), if_pos hx0, hx, neg_neg, abs_div, abs_of_nonneg (Real.sqrt_nonneg _)]
    rw [this, Spec.rabi]
    ring
  rw [← Jz, ← J0]
  exact (abs_norm_sub_norm_le _ _).trans hbound

theorem Works.kappa_pos (W : Works q squm) (m j l : Fin N) : 0 < q.kappa squm m j l := by
  obtain ⟨np, -, -⟩ := W.index m
  obtain ⟨-, ns, -⟩ := W.index j
  obtain ⟨-, -, ni⟩ := W.index l
  have hc := cMks_pos
  have he := eps0_pos
  have hA := W.area
  have h1 : 0 < √(eps0 * cMks * (squm * 1e-12) * (q.p.n m * q.s.n j * q.i.n l)) := Real.sqrt_pos.2 (by positivity)
  unfold Prob.kappa Spec.mixStrength
  positivity

/-- The rate at which a signal of the amplitude `S` converts the pump. -/
noncomputable def Prob.convRate (q : Prob N) (squm : ℝ) (m j l : Fin N) (S : ℝ) : ℝ := |q.deff * q.kappa squm m j l| * √(q.p.W m * q.i.W l) * S

theorem convRate_gain {m j l : Fin N} (hW : 0 ≤ q.p.W m ∧ 0 < q.s.W j) (S : ℝ) :
    |q.gain squm m j l 1| * (S / √(q.s.W j)) = q.convRate squm m j l S := by
  have h0 := Real.sqrt_pos.2 hW.2
  rw [gain_one ⟨hW.1, hW.2.le⟩, abs_mul, abs_mul (√(q.p.W m) * √(q.s.W j)), abs_mul (√(q.p.W m)), abs_of_pos h0, abs_of_nonneg (Real.sqrt_nonneg (q.p.W m)),
    abs_of_nonneg (Real.sqrt_nonneg (q.i.W l)), Prob.convRate, Real.sqrt_mul hW.1]
  field_simp

/-- C183, limit: no crystal, matched or not, poled or not, gives the idler more than the photons of the pump, and the pump keeps the rest. -/
theorem C183_limit (W : Works q squm) {m j l : Fin N} (h : ((j : ℕ) : ℤ) + (l : ℕ) = (m : ℕ) + (N / 2 : ℕ))
    (hW : 0 < q.s.W j ∧ 0 < q.i.W l) {p0 s0 : ℂ} {Y : ℝ → Fin (3 * N) → ℂ} (hY : Solves q Y 0 q.len) (h0 : Y 0 = lines m j l p0 s0 0) {z : ℝ}
    (hz : z ∈ Icc 0 q.len) :
    ‖Ai (Y z) l‖ ^ 2 ≤ q.i.W l / q.p.W m * ‖p0‖ ^ 2 ∧ ‖Ap (Y z) m‖ ^ 2 = ‖p0‖ ^ 2 - q.p.W m / q.i.W l * ‖Ai (Y z) l‖ ^ 2 := by
  have hWp : 0 < q.p.W m := by rw [W.matched m j l h]; exact add_pos hW.1 hW.2
  obtain ⟨f1, f2⟩ := C147_fluxes W h hW hY h0 hz
  have e : ‖Ap (Y z) m‖ ^ 2 = ‖p0‖ ^ 2 - q.p.W m / q.i.W l * ‖Ai (Y z) l‖ ^ 2 := by
    rw [f2, f1]
    have := hW.2.ne'
    have := hW.1.ne'
    field_simp
  refine ⟨?_, e⟩
  have h1 : q.p.W m / q.i.W l * ‖Ai (Y z) l‖ ^ 2 ≤ ‖p0‖ ^ 2 := by linarith [sq_nonneg ‖Ap (Y z) m‖]
  calc ‖Ai (Y z) l‖ ^ 2 = q.i.W l / q.p.W m * (q.p.W m / q.i.W l * ‖Ai (Y z) l‖ ^ 2) := by
        have := hW.2.ne'
        have := hWp.ne'
        field_simp
    _ ≤ _ := mul_le_mul_of_nonneg_left h1 (div_nonneg hW.2.le hWp.le)

/-- C183, converted: the idler of a strong signal in a crystal without poling, at any mismatch. The error is a quarter of `(g z)²` times the ratio of the
photons of the pump to those of the signal. -/
theorem C183_converted (W : Works q squm) (hq : q.mode ≠ "PP") {m j l : Fin N} (h : ((j : ℕ) : ℤ) + (l : ℕ) = (m : ℕ) + (N / 2 : ℕ))
    (hW : 0 < q.s.W j ∧ 0 < q.i.W l) (hd : q.deff ≠ 0) {p0 s0 : ℂ} (hs : s0 ≠ 0) {Y : ℝ → Fin (3 * N) → ℂ} (hY : Solves q Y 0 q.len)
    (h0 : Y 0 = lines m j l p0 s0 0) {z : ℝ} (hz : z ∈ Icc 0 q.len) :
    let g := q.convRate squm m j l ‖s0‖
    |‖Ai (Y z) l‖ - √(q.i.W l / q.p.W m) * ‖p0‖ * Spec.rabi g (q.mismatch m j l) z| ≤
      √(q.i.W l / q.p.W m) * ‖p0‖ * ((g * z) ^ 2 / 4 * ((‖p0‖ ^ 2 / q.p.W m) / (‖s0‖ ^ 2 / q.s.W j))) := by
  intro g
  obtain ⟨E, a, b, c, P, ⟨ha, hb, hc⟩, hn⟩ := photons_of_lines W h hW hY h0
  have hWp : 0 < q.p.W m := by rw [W.matched m j l h]; exact add_pos hW.1 hW.2
  have rp := Real.sqrt_pos.2 hWp
  have rs := Real.sqrt_pos.2 hW.1
  have ri := Real.sqrt_pos.2 hW.2
  have hs' : 0 < ‖s0‖ := norm_pos_iff.2 hs
  rw [zero_div] at hc
  have hb0 : b 0 ≠ 0 := by rw [← norm_pos_iff, hb]; positivity
  have hΓ : q.gain squm m j l 1 ≠ 0 := by
    rw [gain_one ⟨hWp.le, hW.1.le⟩]
    exact mul_ne_zero (mul_ne_zero hd (W.kappa_pos m j l).ne') (by positivity)
  have key := P.convert hq hc hb0 hΓ hz
  have eg : |q.gain squm m j l 1| * ‖b 0‖ = g := by rw [hb, convRate_gain ⟨hWp.le, hW.1⟩]
  rw [eg] at key
  have e1 : ‖Ai (Y z) l‖ = √(q.i.W l) * ‖c z‖ := (hn z hz).2.2
  have e2 : √(q.i.W l / q.p.W m) * ‖p0‖ = √(q.i.W l) * ‖a 0‖ := by
    rw [ha, Real.sqrt_div hW.2.le]
    ring
  have e3 : |q.gain squm m j l 1| ^ 2 * ‖a 0‖ ^ 3 / 4 * z ^ 2 = ‖a 0‖ * ((g * z) ^ 2 / 4 * ((‖p0‖ ^ 2 / q.p.W m) / (‖s0‖ ^ 2 / q.s.W j))) := by
    have k1 : ‖p0‖ ^ 2 / q.p.W m = ‖a 0‖ ^ 2 := by rw [ha, div_pow, Real.sq_sqrt hWp.le]
    have k2 : ‖s0‖ ^ 2 / q.s.W j = ‖b 0‖ ^ 2 := by rw [hb, div_pow, Real.sq_sqrt hW.1.le]
    have k3 : 0 < ‖b 0‖ := norm_pos_iff.2 hb0
    rw [k1, k2, ← eg]
    field_simp
  rw [e1, e2, mul_assoc, mul_assoc, ← mul_sub, abs_mul, abs_of_pos ri, ← e3]
  exact mul_le_mul_of_nonneg_left key ri.le

/-- C183, full: at the matched length `g z = π/2` the pump is used up but for a small share. -/
theorem C183_full (W : Works q squm) (hq : q.mode ≠ "PP") {m j l : Fin N} (h : ((j : ℕ) : ℤ) + (l : ℕ) = (m : ℕ) + (N / 2 : ℕ)) (hΔ : q.mismatch m j l = 0)
    (hW : 0 < q.s.W j ∧ 0 < q.i.W l) (hd : q.deff ≠ 0) {p0 s0 : ℂ} (hs : s0 ≠ 0) {Y : ℝ → Fin (3 * N) → ℂ} (hY : Solves q Y 0 q.len)
    (h0 : Y 0 = lines m j l p0 s0 0) {z : ℝ} (hz : z ∈ Icc 0 q.len) (hg : q.convRate squm m j l ‖s0‖ * z = Real.pi / 2) :
    let r := (‖p0‖ ^ 2 / q.p.W m) / (‖s0‖ ^ 2 / q.s.W j)
    ‖Ap (Y z) m‖ ^ 2 ≤ Real.pi ^ 2 / 8 * r * ‖p0‖ ^ 2 ∧ (1 - Real.pi ^ 2 / 8 * r) * (q.i.W l / q.p.W m * ‖p0‖ ^ 2) ≤ ‖Ai (Y z) l‖ ^ 2 := by
  intro r
  have hWp : 0 < q.p.W m := by rw [W.matched m j l h]; exact add_pos hW.1 hW.2
  have hz0 : 0 < z := by
    rcases hz.1.eq_or_lt with e | e
    · rw [← e, mul_zero] at hg
      linarith [Real.pi_pos]
    · exact e
  have hgp : 0 < q.convRate squm m j l ‖s0‖ := by
    by_contra hn
    have := mul_nonpos_of_nonpos_of_nonneg (not_lt.1 hn) hz0.le
    linarith [Real.pi_pos]
  have key := C183_converted W hq h hW hd hs hY h0 hz
  have e1 : Spec.rabi (q.convRate squm m j l ‖s0‖) (q.mismatch m j l) z = 1 := by
    rw [Spec.rabi, hΔ, zero_div, zero_pow two_ne_zero, add_zero, Real.sqrt_sq hgp.le, hg, Real.sin_pi_div_two, abs_one, mul_one, div_self hgp.ne']
  simp only [e1, hg, mul_one] at key
  have hr : 0 ≤ r := div_nonneg (div_nonneg (sq_nonneg _) hWp.le) (div_nonneg (sq_nonneg _) hW.1.le)
  have e2 : (Real.pi / 2) ^ 2 / 4 * r = Real.pi ^ 2 / 16 * r := by ring
  change |‖Ai (Y z) l‖ - √(q.i.W l / q.p.W m) * ‖p0‖| ≤ √(q.i.W l / q.p.W m) * ‖p0‖ * ((Real.pi / 2) ^ 2 / 4 * r) at key
  rw [e2] at key
  set B := √(q.i.W l / q.p.W m) * ‖p0‖ with hB
  have hB0 : 0 ≤ B := by positivity
  have hBB : q.i.W l / q.p.W m * ‖p0‖ ^ 2 = B ^ 2 := by rw [hB, mul_pow, Real.sq_sqrt (div_nonneg hW.2.le hWp.le)]
  have h2 : (1 - Real.pi ^ 2 / 8 * r) * B ^ 2 ≤ ‖Ai (Y z) l‖ ^ 2 := by
    have k := (abs_le.1 key).1
    have hπr : 0 ≤ Real.pi ^ 2 / 16 * r := by positivity
    have e : Real.pi ^ 2 / 8 * r = 2 * (Real.pi ^ 2 / 16 * r) := by ring
    rw [e]
    generalize Real.pi ^ 2 / 16 * r = y at *
    have k2 : B * (1 - y) ≤ ‖Ai (Y z) l‖ := by linarith
    rcases le_or_gt y 1 with hy | hy
    · have := pow_le_pow_left₀ (mul_nonneg hB0 (by linarith)) k2 2
      nlinarith [mul_nonneg (sq_nonneg B) (sq_nonneg y)]
    · have : (1 - 2 * y) * B ^ 2 ≤ 0 := mul_nonpos_of_nonpos_of_nonneg (by linarith) (sq_nonneg B)
      linarith [sq_nonneg ‖Ai (Y z) l‖]
  refine ⟨?_, by rw [hBB]; exact h2⟩
  rw [(C183_limit W h hW hY h0 hz).2]
  have h3 := mul_le_mul_of_nonneg_left h2 (div_nonneg hWp.le hW.2.le)
  have e3 : q.p.W m / q.i.W l * ((1 - Real.pi ^ 2 / 8 * r) * B ^ 2) = (1 - Real.pi ^ 2 / 8 * r) * ‖p0‖ ^ 2 := by
    rw [← hBB]
    have := hW.2.ne'
    have := hWp.ne'
    field_simp
  rw [e3] at h3
  linarith

/-- C183, detuned: with a mismatch the idler never gets the whole of the pump. -/
theorem C183_detuned (W : Works q squm) (hq : q.mode ≠ "PP") {m j l : Fin N} (h : ((j : ℕ) : ℤ) + (l : ℕ) = (m : ℕ) + (N / 2 : ℕ))
    (hW : 0 < q.s.W j ∧ 0 < q.i.W l) (hd : q.deff ≠ 0) {p0 s0 : ℂ} (hs : s0 ≠ 0) {Y : ℝ → Fin (3 * N) → ℂ} (hY : Solves q Y 0 q.len)
    (h0 : Y 0 = lines m j l p0 s0 0) {z : ℝ} (hz : z ∈ Icc 0 q.len) :
    let g := q.convRate squm m j l ‖s0‖
    ‖Ai (Y z) l‖ ≤ √(q.i.W l / q.p.W m) * ‖p0‖ * (g / √(g ^ 2 + (q.mismatch m j l / 2) ^ 2) +
      (g * z) ^ 2 / 4 * ((‖p0‖ ^ 2 / q.p.W m) / (‖s0‖ ^ 2 / q.s.W j))) := by
  intro g
  have hg : 0 ≤ g := by
    show 0 ≤ q.convRate squm m j l ‖s0‖
    rw [Prob.convRate]
    positivity
  have key := (abs_le.1 (C183_converted W hq h hW hd hs hY h0 hz)).2
  have hr : Spec.rabi g (q.mismatch m j l) z ≤ g / √(g ^ 2 + (q.mismatch m j l / 2) ^ 2) := by
    unfold Spec.rabi
    exact mul_le_of_le_one_right (by positivity) (Real.abs_sin_le_one _)
  have := mul_le_mul_of_nonneg_left hr (show 0 ≤ √(q.i.W l / q.p.W m) * ‖p0‖ by positivity)
  rw [mul_add]
  linarith

/-- C183, computed: what an integration that returns gives. -/
theorem C183_computed (W : Works q squm) {κ R ρ : ℝ} (S : Strength (q.wp squm) (q.ws squm) (q.wi squm) |q.deff| κ) (hq : q.mode ≠ "PP") {m j l : Fin N}
    (h : ((j : ℕ) : ℤ) + (l : ℕ) = (m : ℕ) + (N / 2 : ℕ)) (hW : 0 < q.s.W j ∧ 0 < q.i.W l) (hd : q.deff ≠ 0) {p0 s0 : ℂ} (hs : s0 ≠ 0)
    (hρ : 0 < ρ) (hR : √(‖p0‖ ^ 2 + ‖s0‖ ^ 2) + ρ < R) (hsm : q.len * Real.exp (26 * (2 * N * κ * R) * q.len) * (1e-27 * (N * κ * R ^ 2)) < ρ) :
    let g := q.convRate squm m j l ‖s0‖
    ∃ C h0, 0 ≤ C ∧ 0 < h0 ∧ ∀ hm ∈ Ioc 0 h0, ∀ (p : Ode.Prob (3 * N)) (con : Ode.Con) (h1 hmin : ℝ) (out : Ode.Out (3 * N)) (o' : Ode.Ode (3 * N)),
      p.f = q.rhs → Ode.Rounds p.fl → out.Usable → (Ode.Ode.new con (lines m j l p0 s0 0) 0 q.len h1 hmin out).integrate p = some (.ok (), o') →
      Ode.StepsLe hm 0 o'.visited →
      |‖Ai o'.ystart l‖ - √(q.i.W l / q.p.W m) * ‖p0‖ * Spec.rabi g (q.mismatch m j l) q.len| ≤
        √(q.i.W l / q.p.W m) * ‖p0‖ * ((g * q.len) ^ 2 / 4 * ((‖p0‖ ^ 2 / q.p.W m) / (‖s0‖ ^ 2 / q.s.W j))) +
        (q.len * Real.exp (26 * (2 * N * κ * R) * q.len) * (1e-27 * (N * κ * R ^ 2)) + C * hm) := by
  intro g
  obtain ⟨C, h0, hC, hh0, hc⟩ := C121_converges W S (lines m j l p0 s0 0) hρ (by rw [lines_power]; simpa using hR) hsm
  obtain ⟨Y, hY0, hY, -, -⟩ := C121_solution W (lines m j l p0 s0 0)
  refine ⟨C, h0, hC, hh0, fun hm hhm p con h1 hmin out o' hp' hfl ho hr hst => ?_⟩
  have h2 := hc hm hhm p con h1 hmin out o' hp' hfl ho hr hst Y hY hY0
  have h3 := C183_converted W hq h hW hd hs hY hY0 ⟨W.len.le, le_refl _⟩
  have h4 : |‖Ai o'.ystart l‖ - ‖Ai (Y q.len) l‖| ≤ _ := (abs_norm_sub_norm_le _ _).trans ((norm_le_pi_norm (o'.ystart - Y q.len) _).trans h2)
  have := abs_sub_le (‖Ai o'.ystart l‖) (‖Ai (Y q.len) l‖) (√(q.i.W l / q.p.W m) * ‖p0‖ * Spec.rabi g (q.mismatch m j l) q.len)
  linarith

/-! The hypotheses hold for the crystal of `C147_nonvacuous`, with a signal that makes the crystal as long as a full conversion takes and a pump of a
thousandth of its amplitude; and, with a wave vector at the signal, at every mismatch. -/

theorem C183_nonvacuous : (∀ δ, Works (exDetuned δ) 10 ∧ (exDetuned δ).mode ≠ "PP" ∧ 0 < (exDetuned δ).s.W 0 ∧ 0 < (exDetuned δ).i.W 1 ∧
      (exDetuned δ).deff ≠ 0 ∧ (exDetuned δ).mismatch 0 0 1 = δ) ∧
    (((0 : Fin 2) : ℕ) : ℤ) + ((1 : Fin 2) : ℕ) = ((0 : Fin 2) : ℕ) + (2 / 2 : ℕ) ∧
    ∃ s0 : ℂ, s0 ≠ 0 ∧ (exDetuned 0).convRate 10 0 0 1 ‖s0‖ * (exDetuned 0).len = Real.pi / 2 ∧
      Real.pi ^ 2 / 8 * ((‖s0 / 1000‖ ^ 2 / (exDetuned 0).p.W 0) / (‖s0‖ ^ 2 / (exDetuned 0).s.W 0)) < 1 / 10 ^ 5 := by
  refine ⟨fun δ => ⟨exDetuned_works δ, (C148_nonvacuous.1 δ).2.1, (C148_nonvacuous.1 δ).2.2.1, (C148_nonvacuous.1 δ).2.2.2.1, (C148_nonvacuous.1 δ).2.2.2.2,
    by simp [Prob.mismatch, exDetuned, exOpa, exUnpoled, exGuided]⟩, rfl, ?_⟩
  have hp : (exDetuned 0).p.W 0 = 5 := by norm_num [exDetuned, exOpa, exUnpoled, exGuided]
  have hs : (exDetuned 0).s.W 0 = 3 := by norm_num [exDetuned, exOpa, exUnpoled, exGuided]
  have hi : 0 < (exDetuned 0).i.W 1 := (C148_nonvacuous.1 0).2.2.2.1
  set k := |(exDetuned 0).deff * (exDetuned 0).kappa 10 0 0 1| * √((exDetuned 0).p.W 0 * (exDetuned 0).i.W 1) with hk
  have hk0 : 0 < k := mul_pos (abs_pos.2 (mul_ne_zero (C148_nonvacuous.1 0).2.2.2.2 ((exDetuned_works 0).kappa_pos 0 0 1).ne'))
    (Real.sqrt_pos.2 (mul_pos (by rw [hp]; norm_num) hi))
  have hπ := Real.pi_pos
  have hn : ‖((Real.pi / 2 / k : ℝ) : ℂ)‖ = Real.pi / 2 / k := by rw [Complex.norm_real, Real.norm_of_nonneg (by positivity)]
  have h0 : 0 < ‖((Real.pi / 2 / k : ℝ) : ℂ)‖ := by rw [hn]; positivity
  refine ⟨((Real.pi / 2 / k : ℝ) : ℂ), norm_pos_iff.1 h0, ?_, ?_⟩
  · have hl : (exDetuned 0).len = 1 := rfl
    rw [hl, mul_one, Prob.convRate, ← hk, hn]
    field_simp
  · rw [hp, hs, norm_div]
    have e : ‖(1000 : ℂ)‖ = 1000 := by norm_num
    rw [e]
    have e2 : (‖((Real.pi / 2 / k : ℝ) : ℂ)‖ / 1000) ^ 2 / 5 / (‖((Real.pi / 2 / k : ℝ) : ℂ)‖ ^ 2 / 3) = 3 / 5 / 10 ^ 6 := by
      field_simp
      norm_num
    rw [e2]
    have : Real.pi ^ 2 < 4 ^ 2 := pow_lt_pow_left₀ Real.pi_lt_four hπ.le two_ne_zero
    linarith

end PyNLO.Dfg
