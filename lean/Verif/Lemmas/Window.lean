import Verif.Lemmas.Tame
import Verif.Lemmas.Periodic
import Verif.Spec.Line
import Verif.Spec.Sobolev
import Mathlib.Analysis.SpecialFunctions.SmoothTransition

/-!
# Cutting a localised pulse to a window
-/

namespace PyNLO.Nlse

open Complex Polynomial Set Filter Topology

/-- smooth step from 0 to 1 on the unit interval -/
noncomputable def ramp (x : ℝ) : ℂ := ((Real.smoothTransition x : ℝ) : ℂ)

theorem ramp_contDiff : ContDiff ℝ (⊤ : ℕ∞) ramp := ofRealCLM.contDiff.comp Real.smoothTransition.contDiff

theorem ramp_bounded (k : ℕ) : ∃ C : ℝ, 0 ≤ C ∧ ∀ x, ‖iteratedDeriv k ramp x‖ ≤ C := by
  have hc : Continuous fun x => ‖iteratedDeriv k ramp x‖ := (ramp_contDiff.continuous_iteratedDeriv k (by exact_mod_cast le_top)).norm
  obtain ⟨C, hC⟩ := (isCompact_Icc (a := (0 : ℝ)) (b := 1)).bddAbove_image hc.continuousOn
  refine ⟨max C 1, by positivity, fun x => ?_⟩
  by_cases h0 : x < 0
  · have e : ramp =ᶠ[𝓝 x] fun _ => 0 := by
      filter_upwards [Iio_mem_nhds h0] with y hy
      simp [ramp, Real.smoothTransition.zero_of_nonpos (le_of_lt hy)]
    rw [e.iteratedDeriv_eq, iteratedDeriv_const]
    split <;> simp
  · by_cases h1 : 1 < x
    · have e : ramp =ᶠ[𝓝 x] fun _ => 1 := by
        filter_upwards [Ioi_mem_nhds h1] with y hy
        simp [ramp, Real.smoothTransition.one_of_one_le (le_of_lt hy)]
      rw [e.iteratedDeriv_eq, iteratedDeriv_const]
      split <;> simp
    · exact (hC ⟨x, ⟨not_lt.1 h0, not_lt.1 h1⟩, rfl⟩).trans (le_max_left _ _)

/-- 0 up to the distance `c` from the origin and 1 from the distance `c + 1` -/
noncomputable def edge (c t : ℝ) : ℂ := ramp (t - c) + ramp (-t - c)

theorem edge_even (c t : ℝ) : edge c (-t) = edge c t := by
  unfold edge
  rw [neg_neg, add_comm]

theorem edge_zero {c t : ℝ} (h : |t| ≤ c) : edge c t = 0 := by
  have := abs_le.1 h
  unfold edge ramp
  rw [Real.smoothTransition.zero_of_nonpos (by linarith), Real.smoothTransition.zero_of_nonpos (by linarith)]
  simp

theorem edge_one {c t : ℝ} (hc : 0 ≤ c) (h : c + 1 ≤ |t|) : edge c t = 1 := by
  unfold edge ramp
  rcases le_abs.1 h with h | h
  · rw [Real.smoothTransition.one_of_one_le (by linarith), Real.smoothTransition.zero_of_nonpos (by linarith)]
    simp
  · rw [Real.smoothTransition.one_of_one_le (x := -t - c) (by linarith), Real.smoothTransition.zero_of_nonpos (by linarith)]
    simp

theorem edge_real (c t : ℝ) : ∃ x : ℝ, edge c t = x := ⟨Real.smoothTransition (t - c) + Real.smoothTransition (-t - c), by simp [edge, ramp]⟩

theorem edge_contDiff (c : ℝ) : ContDiff ℝ (⊤ : ℕ∞) (edge c) :=
  (ramp_contDiff.comp (contDiff_id.sub contDiff_const)).add (ramp_contDiff.comp (contDiff_id.neg.sub contDiff_const))

theorem edge_tame : Tame (fun (c : {c : ℝ // 0 ≤ c}) t => if (c : ℝ) ≤ |t| then 1 else 0) fun c => edge c := by
  refine ⟨fun c => edge_contDiff c, fun k => ?_⟩
  obtain ⟨C, hC0, hC⟩ := ramp_bounded k
  refine ⟨C + C, fun c t => ?_⟩
  show ‖iteratedDeriv k (edge c) t‖ ≤ (C + C) * if (c : ℝ) ≤ |t| then 1 else 0
  split
  · have e1 : iteratedDeriv k (fun t => ramp (t - c)) t = iteratedDeriv k ramp (t - c) := congrFun (iteratedDeriv_comp_sub_const k ramp c) t
    have e2 : iteratedDeriv k (fun t => ramp (-t - c)) t = (-1 : ℝ) ^ k • iteratedDeriv k ramp (-(t + c)) := by
      have h1 : (fun t => ramp (-t - c)) = fun t => (fun s => ramp (-s)) (t + c) := by
        funext t
        congr 1
        ring
      rw [h1, congrFun (iteratedDeriv_comp_add_const k (fun s => ramp (-s)) c) t, iteratedDeriv_comp_neg]
    have e : iteratedDeriv k (edge c) t = iteratedDeriv k (fun t => ramp (t - c)) t + iteratedDeriv k (fun t => ramp (-t - c)) t :=
      iteratedDeriv_add (smooth_at (ramp_contDiff.comp (contDiff_id.sub contDiff_const)) k t)
        (smooth_at (ramp_contDiff.comp (contDiff_id.neg.sub contDiff_const)) k t)
    rw [e, e1, e2, mul_one]
    refine (norm_add_le _ _).trans (add_le_add (hC _) ?_)
    rw [norm_smul, norm_pow, norm_neg, norm_one, one_pow, one_mul]
    exact hC _
  · rename_i h
    have e : edge c =ᶠ[𝓝 t] fun _ => 0 := by
      have h1 : ∀ᶠ s in 𝓝 t, |s| < (c : ℝ) := continuous_abs.continuousAt.eventually (Iio_mem_nhds (not_le.1 h))
      filter_upwards [h1] with s hs
      exact edge_zero hs.le
    rw [e.iteratedDeriv_eq, iteratedDeriv_const]
    split <;> simp

theorem dispersion_sub {b : ℝ[X]} {f g : ℝ → ℂ} (hf : ContDiff ℝ (⊤ : ℕ∞) f) (hg : ContDiff ℝ (⊤ : ℕ∞) g) (t : ℝ) :
    dispersion b (fun t => f t - g t) t = dispersion b f t - dispersion b g t := by
  unfold dispersion Polynomial.sum
  rw [← Finset.sum_sub_distrib]
  refine Finset.sum_congr rfl fun m _ => ?_
  have e : iteratedDeriv m (fun t => f t - g t) t = iteratedDeriv m f t - iteratedDeriv m g t := iteratedDeriv_sub (smooth_at hf m t) (smooth_at hg m t)
  simp only [e]
  ring

theorem dispersion_per {T : ℝ} (hT : 0 < T) {f : ℝ → ℂ} (hf : ∀ x, T / 2 - 1 ≤ |x| → f x = 0) (b : ℝ[X]) (t : ℝ) :
    dispersion b (per T f) t = dispersion b f (t - round (t / T) * T) := by
  unfold dispersion Polynomial.sum
  simp only [per_iteratedDeriv hT hf]

theorem dispersion_congr {b : ℝ[X]} {f g : ℝ → ℂ} {t : ℝ} (h : f =ᶠ[𝓝 t] g) : dispersion b f t = dispersion b g t := by
  unfold dispersion Polynomial.sum
  exact Finset.sum_congr rfl fun m _ => by simp only [h.iteratedDeriv_eq]

/-- the part of the pulse beyond the distance `c` -/
noncomputable def outer (v : ℝ → ℝ → ℂ) (c z t : ℝ) : ℂ := edge c t * v z t

/-- the pulse without that part -/
noncomputable def inner (v : ℝ → ℝ → ℂ) (c z t : ℝ) : ℂ := v z t - outer v c z t

/-- by how much the cut pulse misses the equation -/
noncomputable def miss (b : ℝ[X]) (γ : ℝ) (v : ℝ → ℝ → ℂ) (c z t : ℝ) : ℂ :=
  edge c t * (I * γ * ((1 - edge c t) * (2 - edge c t) * (v z t * (starRingEnd ℂ) (v z t) * v z t)) - dispersion b (v z) t) + dispersion b (outer v c z) t

variable {b : ℝ[X]} {g γ μ L : ℝ} {v : ℝ → ℝ → ℂ}

theorem smooth_slice {v : ℝ → ℝ → ℂ} (hv : ContDiff ℝ (⊤ : ℕ∞) fun q : ℝ × ℝ => v q.1 q.2) (z : ℝ) : ContDiff ℝ (⊤ : ℕ∞) (v z) :=
  hv.comp (contDiff_const.prodMk contDiff_id)

theorem line_tame (hv : LineSolution b g γ μ L v) : Tame (fun (_ : Icc 0 L) t => Real.exp (-(μ * |t|))) fun z => v z :=
  ⟨fun z => smooth_slice hv.smooth z, fun k => by
    obtain ⟨C, hC⟩ := hv.decay k
    exact ⟨C, fun z t => hC z z.2.1 z.2.2 t⟩⟩

section

variable (hv : LineSolution b g γ μ L v) (hμ : 0 ≤ μ)

include hv hμ

theorem line_tame_one : Tame (fun (_ : Icc 0 L) _ => 1) fun z => v z :=
  (line_tame hv).mono (c := 1) (fun _ _ => (Real.exp_pos _).le) fun _ t => by
    rw [one_mul]
    exact Real.exp_le_one_iff.2 (neg_nonpos.2 (mul_nonneg hμ (abs_nonneg t)))

omit hv in
theorem outer_mono {f : {c : ℝ // 0 ≤ c} × Icc 0 L → ℝ → ℂ}
    (h : Tame (fun (i : {c : ℝ // 0 ≤ c} × Icc 0 L) t => (if (i.1 : ℝ) ≤ |t| then 1 else 0) * Real.exp (-(μ * |t|))) f) :
    Tame (fun i _ => Real.exp (-(μ * i.1))) f :=
  h.mono (c := 1) (fun i t => mul_nonneg (by split <;> norm_num) (Real.exp_pos _).le) fun i t => by
    rw [one_mul]
    split
    · rename_i h
      rw [one_mul]
      exact Real.exp_le_exp.2 (neg_le_neg (mul_le_mul_of_nonneg_left h hμ))
    · rw [zero_mul]
      exact (Real.exp_pos _).le

theorem outer_tame : Tame (fun (i : {c : ℝ // 0 ≤ c} × Icc 0 L) _ => Real.exp (-(μ * i.1))) fun i => outer v i.1 i.2 :=
  outer_mono hμ ((edge_tame.reindex Prod.fst).mul ((line_tame hv).reindex Prod.snd))

theorem inner_tame : Tame (fun (_ : {c : ℝ // 0 ≤ c} × Icc 0 L) _ => 1) fun i => inner v i.1 i.2 :=
  ((line_tame_one hv hμ).reindex Prod.snd).sub ((outer_tame hv hμ).mono (c := 1) (fun _ _ => (Real.exp_pos _).le) fun i _ => by
    rw [one_mul]
    exact Real.exp_le_one_iff.2 (neg_nonpos.2 (mul_nonneg hμ i.1.2)))

theorem miss_tame : Tame (fun (i : {c : ℝ // 0 ≤ c} × Icc 0 L) _ => Real.exp (-(μ * i.1))) fun i => miss b γ v i.1 i.2 := by
  have he : Tame (fun (_ : {c : ℝ // 0 ≤ c} × Icc 0 L) _ => 1) fun i => edge i.1 :=
    (edge_tame.reindex Prod.fst).mono (c := 1) (fun _ _ => by split <;> norm_num) fun _ _ => by split <;> norm_num
  have h1 := (line_tame hv).reindex (Prod.snd : {c : ℝ // 0 ≤ c} × Icc 0 L → Icc 0 L)
  have h2 := (line_tame_one hv hμ).reindex (Prod.snd : {c : ℝ // 0 ≤ c} × Icc 0 L → Icc 0 L)
  have k1 : Tame (fun (_ : {c : ℝ // 0 ≤ c} × Icc 0 L) _ => 1) fun i t => (1 - edge i.1 t) * (2 - edge i.1 t) :=
    (((Tame.const (fun _ => 1) (C := ‖(1 : ℂ)‖) fun _ => le_refl _).sub he).mul ((Tame.const (fun _ => 2) (C := ‖(2 : ℂ)‖) fun _ => le_refl _).sub he)).one_mul
  have h3 := ((k1.mul ((h2.mul h2.conj).one_mul.mul h1).one_mul).one_mul.const_mul (fun _ => I * γ) (C := ‖(I * γ : ℂ)‖) fun _ => le_refl _).sub (h1.dispersion b)
  exact (outer_mono hμ ((edge_tame.reindex Prod.fst).mul h3)).add ((outer_tame hv hμ).dispersion b)

omit hμ in
theorem outer_contDiff (c : ℝ) : ContDiff ℝ (⊤ : ℕ∞) fun q : ℝ × ℝ => outer v c q.1 q.2 := ((edge_contDiff c).comp contDiff_snd).mul hv.smooth

omit hμ in
theorem inner_contDiff (c : ℝ) : ContDiff ℝ (⊤ : ℕ∞) fun q : ℝ × ℝ => inner v c q.1 q.2 := hv.smooth.sub (outer_contDiff hv c)

omit hv hμ in
theorem inner_zero {c z t : ℝ} (hc : 0 ≤ c) (h : c + 1 ≤ |t|) : inner v c z t = 0 := by
  unfold inner outer
  rw [edge_one hc h, one_mul, sub_self]

omit hv hμ in
theorem miss_zero {c z t : ℝ} (hc : 0 ≤ c) (h : c + 1 < |t|) : miss b γ v c z t = 0 := by
  have e : outer v c z =ᶠ[𝓝 t] v z := by
    have h1 : ∀ᶠ s in 𝓝 t, c + 1 < |s| := continuous_abs.continuousAt.eventually (Ioi_mem_nhds h)
    filter_upwards [h1] with s hs
    unfold outer
    rw [edge_one hc hs.le, one_mul]
  unfold miss
  rw [edge_one hc h.le, dispersion_congr e]
  ring

omit hμ in
/-- the cut pulse satisfies the equation up to `miss` -/
theorem inner_equation (c : ℝ) {z : ℝ} (h0 : 0 ≤ z) (hL : z ≤ L) (t : ℝ) : HasDerivAt (fun z => inner v c z t)
    (dispersion b (inner v c z) t + g / 2 * inner v c z t + I * γ * inner v c z t * ((‖inner v c z t‖ ^ 2 : ℝ) : ℂ) + miss b γ v c z t) z := by
  have h1 := hv.equation z h0 hL t
  refine (h1.sub (h1.const_mul (edge c t))).congr_deriv ?_
  have e1 : dispersion b (inner v c z) t = dispersion b (v z) t - dispersion b (outer v c z) t :=
    dispersion_sub (smooth_slice hv.smooth z) (smooth_slice (outer_contDiff hv c) z) t
  obtain ⟨x, hx⟩ := edge_real c t
  have n1 : ((‖v z t‖ ^ 2 : ℝ) : ℂ) = v z t * (starRingEnd ℂ) (v z t) := by rw [mul_conj, normSq_eq_norm_sq]
  have n2 : ((‖inner v c z t‖ ^ 2 : ℝ) : ℂ) = (1 - x) ^ 2 * (v z t * (starRingEnd ℂ) (v z t)) := by
    have e : inner v c z t = ((1 - x : ℝ) : ℂ) * v z t := by
      unfold inner outer
      rw [hx]
      push_cast
      ring
    rw [← normSq_eq_norm_sq, ← mul_conj, e, map_mul, conj_ofReal]
    push_cast
    ring
  rw [e1, n1, n2]
  unfold miss inner outer
  rw [hx]
  ring

end

/-- a localised pulse, cut and continued with period `T`, satisfies the equation up to an error that falls exponentially with `T` -/
theorem line_near (hv : LineSolution b g γ μ L v) (hμ : 0 ≤ μ) : ∃ K : ℝ, 0 ≤ K ∧ ∀ T, 6 ≤ T →
    NearSolution b g γ T L (fun z => per T (inner v (T / 2 - 3) z)) (fun z => per T (miss b γ v (T / 2 - 3) z)) (K * Real.exp (-(μ * (T / 2 - 3)))) ∧
    ∀ z ∈ Icc 0 L, ∀ t, ‖per T (inner v (T / 2 - 3) z) t‖ ≤ K ∧ ‖_root_.deriv (per T (inner v (T / 2 - 3) z)) t‖ ≤ K ∧
      ‖outer v (T / 2 - 3) z t‖ ≤ K * Real.exp (-(μ * (T / 2 - 3))) ∧ ‖_root_.deriv (outer v (T / 2 - 3) z) t‖ ≤ K * Real.exp (-(μ * (T / 2 - 3))) := by
  obtain ⟨a0, ha0⟩ := (inner_tame hv hμ).bound 0
  obtain ⟨a1, ha1⟩ := (inner_tame hv hμ).bound 1
  obtain ⟨b0, hb0⟩ := (outer_tame hv hμ).bound 0
  obtain ⟨b1, hb1⟩ := (outer_tame hv hμ).bound 1
  obtain ⟨c0, hc0⟩ := (miss_tame hv hμ).bound 0
  obtain ⟨c1, hc1⟩ := (miss_tame hv hμ).bound 1
  simp only [iteratedDeriv_zero, iteratedDeriv_one, mul_one] at ha0 ha1 hb0 hb1 hc0 hc1
  have hle : ∀ x ∈ ([a0, a1, b0, b1, c0, c1] : List ℝ), x ≤ |a0| + |a1| + |b0| + |b1| + |c0| + |c1| := by
    have := abs_nonneg a0
    have := abs_nonneg a1
    have := abs_nonneg b0
    have := abs_nonneg b1
    have := abs_nonneg c0
    have := abs_nonneg c1
    intro x hx
    simp only [List.mem_cons, List.not_mem_nil, or_false] at hx
    rcases hx with rfl | rfl | rfl | rfl | rfl | rfl <;> linarith [le_abs_self x]
  set K := |a0| + |a1| + |b0| + |b1| + |c0| + |c1| with hK
  refine ⟨K, by positivity, fun T hT => ?_⟩
  have hT0 : 0 < T := by linarith
  set c := T / 2 - 3 with hc
  have hcn : 0 ≤ c := by rw [hc]; linarith
  set E := Real.exp (-(μ * c)) with hE
  have hE0 : 0 ≤ E := (Real.exp_pos _).le
  have hin : ∀ z x, T / 2 - 1 ≤ |x| → inner v c z x = 0 := fun z x hx => inner_zero hcn (by linarith)
  have hmi : ∀ z x, T / 2 - 1 ≤ |x| → miss b γ v c z x = 0 := fun z x hx => miss_zero hcn (by linarith)
  have ms : ∀ z ∈ Icc 0 L, ContDiff ℝ (⊤ : ℕ∞) (miss b γ v c z) := fun z hz => (miss_tame hv hμ).smooth (⟨c, hcn⟩, ⟨z, hz⟩)
  refine ⟨⟨per_contDiff₂ hT0 hin (inner_contDiff hv c), fun z => per_periodic hT0 _, fun z h0 hL t => ?_, fun z => per_periodic hT0 _, fun z h0 hL t => ?_,
    fun z h0 hL => ?_⟩, fun z hz t => ⟨?_, ?_, ?_, ?_⟩⟩
  · rw [dispersion_per hT0 (hin z)]
    exact inner_equation hv c h0 hL _
  · exact (hc0 (⟨c, hcn⟩, ⟨z, h0, hL⟩) _).trans (mul_le_mul_of_nonneg_right (hle _ (by simp)) hE0)
  · intro s t
    have hm := ms z ⟨h0, hL⟩
    have hd : Differentiable ℝ (per T (miss b γ v c z)) := (per_contDiff hT0 (hmi z) hm).differentiable (by simp)
    have := (convex_univ (𝕜 := ℝ) (E := ℝ)).norm_image_sub_le_of_norm_deriv_le (f := per T (miss b γ v c z)) (C := K * E) (fun x _ => hd x) (fun x _ => by
      rw [← iteratedDeriv_one, per_iteratedDeriv hT0 (hmi z), iteratedDeriv_one]
      exact (hc1 (⟨c, hcn⟩, ⟨z, h0, hL⟩) _).trans (mul_le_mul_of_nonneg_right (hle _ (by simp)) hE0)) (mem_univ t) (mem_univ s)
    rwa [Real.norm_eq_abs] at this
  · exact (ha0 (⟨c, hcn⟩, ⟨z, hz⟩) _).trans (hle _ (by simp))
  · rw [← iteratedDeriv_one, per_iteratedDeriv hT0 (hin z), iteratedDeriv_one]
    exact (ha1 (⟨c, hcn⟩, ⟨z, hz⟩) _).trans (hle _ (by simp))
  · exact (hb0 (⟨c, hcn⟩, ⟨z, hz⟩) _).trans (mul_le_mul_of_nonneg_right (hle _ (by simp)) hE0)
  · exact (hb1 (⟨c, hcn⟩, ⟨z, hz⟩) _).trans (mul_le_mul_of_nonneg_right (hle _ (by simp)) hE0)

end PyNLO.Nlse
