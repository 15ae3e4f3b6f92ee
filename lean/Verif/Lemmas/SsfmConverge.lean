import Verif.Lemmas.OneStep
import Verif.Lemmas.SsfmRhs
import Verif.Props.SsfmCtrl
import Mathlib.Analysis.ODE.ExistUnique

/-!
# Convergence of the extrapolated RK4IP steps, acceptance of small steps
-/

namespace PyNLO.Ssfm

open Complex RK Filter Asymptotics Set
open scoped Topology ContDiff

variable {n : ℕ}

theorem prop_contDiff {F : Type*} [NormedAddCommGroup F] [NormedSpace ℝ F] {m : WithTop ℕ∞} (d : Fin n → ℂ) {z : F → ℝ}
    {A : F → Fin n → ℂ} (hz : ContDiff ℝ m z) (hA : ContDiff ℝ m A) : ContDiff ℝ m (fun x => prop d (z x) (A x)) :=
  contDiff_iff_contDiffAt.2 fun _ => prop_contDiffAt d hz.contDiffAt hA.contDiffAt

theorem ipStep_contDiff {F : Type*} [NormedAddCommGroup F] [NormedSpace ℝ F] {m : WithTop ℕ∞} (d : Fin n → ℂ)
    {g : (Fin n → ℂ) → Fin n → ℂ} (hg : ContDiff ℝ m g) {h : F → ℝ} {A : F → Fin n → ℂ} (hh : ContDiff ℝ m h) (hA : ContDiff ℝ m A) :
    ContDiff ℝ m (fun x => ipStep d g (h x) (A x)) := by
  have h2 : ContDiff ℝ m fun x => h x / 2 := hh.div_const 2
  have cAI : ContDiff ℝ m fun x => prop d (h x / 2) (A x) := prop_contDiff d h2 hA
  have c1 : ContDiff ℝ m fun x => prop d (h x / 2) (h x • g (A x)) := prop_contDiff d h2 (hh.smul (hg.comp hA))
  have c2 := hh.smul (hg.comp (cAI.add (c1.const_smul (1 / 2 : ℝ))))
  have c3 := hh.smul (hg.comp (cAI.add (c2.const_smul (1 / 2 : ℝ))))
  have c4 := hh.smul (hg.comp (prop_contDiff d h2 (cAI.add c3)))
  exact (prop_contDiff d h2 (((cAI.add (c1.const_smul (1 / 6 : ℝ))).add (c2.const_smul (1 / 3 : ℝ))).add (c3.const_smul (1 / 3 : ℝ)))).add
    (c4.const_smul (1 / 6 : ℝ))

theorem ipStep_zero (d : Fin n → ℂ) (g : (Fin n → ℂ) → Fin n → ℂ) (A : Fin n → ℂ) : ipStep d g 0 A = A := by
  simp [ipStep, prop_zero]

/-- the accepted field -/
noncomputable def extra (d : Fin n → ℂ) (g : (Fin n → ℂ) → Fin n → ℂ) (h : ℝ) (A : Fin n → ℂ) : Fin n → ℂ :=
  (16 / 15 : ℝ) • ipStep d g h (ipStep d g h A) - (1 / 15 : ℝ) • ipStep d g (2 * h) A

theorem extra_zero (d : Fin n → ℂ) (g : (Fin n → ℂ) → Fin n → ℂ) (A : Fin n → ℂ) : extra d g 0 A = A := by
  unfold extra
  rw [mul_zero, ipStep_zero, ipStep_zero]
  module

theorem fine_contDiff (d : Fin n → ℂ) {g : (Fin n → ℂ) → Fin n → ℂ} {m : WithTop ℕ∞} (hg : ContDiff ℝ m g) :
    ContDiff ℝ m fun q : ℝ × (Fin n → ℂ) => ipStep d g q.1 (ipStep d g q.1 q.2) :=
  ipStep_contDiff d hg contDiff_fst (ipStep_contDiff d hg contDiff_fst contDiff_snd)

theorem coarse_contDiff (d : Fin n → ℂ) {g : (Fin n → ℂ) → Fin n → ℂ} {m : WithTop ℕ∞} (hg : ContDiff ℝ m g) :
    ContDiff ℝ m fun q : ℝ × (Fin n → ℂ) => ipStep d g (2 * q.1) q.2 :=
  ipStep_contDiff d hg (contDiff_const.mul contDiff_fst) contDiff_snd

theorem extra_contDiff (d : Fin n → ℂ) {g : (Fin n → ℂ) → Fin n → ℂ} {m : WithTop ℕ∞} (hg : ContDiff ℝ m g) :
    ContDiff ℝ m fun q : ℝ × (Fin n → ℂ) => extra d g q.1 q.2 :=
  ((fine_contDiff d hg).const_smul (16 / 15 : ℝ)).sub ((coarse_contDiff d hg).const_smul (1 / 15 : ℝ))

/-- Uniform consistency along a solution. -/
theorem extra_consistent {d : Fin n → ℂ} {g : (Fin n → ℂ) → Fin n → ℂ} (hg : ContDiff ℝ ∞ g) {Y : ℝ → Fin n → ℂ} {a b L : ℝ}
    (hgY : ∀ z ∈ Icc 0 L, ContDiffAt ℝ ω g (Y z))
    (ha : a < 0) (hb : L < b) (hY : ∀ z ∈ Ioo a b, HasDerivAt Y (applySpec d (Y z) + g (Y z)) z) :
    ∃ C h0, 0 ≤ C ∧ 0 < h0 ∧ h0 ≤ 1 ∧ ∀ z ∈ Icc 0 L, ∀ h ∈ Icc 0 h0, ‖extra d g h (Y z) - Y (z + 2 * h)‖ ≤ C * h ^ 6 := by
  have hf : ContDiff ℝ ∞ fun B => applySpec d B + g B :=
    (contDiff_iff_contDiffAt.2 fun _ => applySpec_contDiffAt contDiffAt_const contDiffAt_id).add hg
  have hYs := OneStep.solution_contDiffOn hf hY
  set U : Set (ℝ × ℝ) := {q | q.1 ∈ Ioo a b ∧ q.1 + 2 * q.2 ∈ Ioo a b} with hUdef
  have hUo : IsOpen U := by
    have h1 : IsOpen {q : ℝ × ℝ | q.1 ∈ Ioo a b} := isOpen_Ioo.preimage continuous_fst
    have h2 : IsOpen {q : ℝ × ℝ | q.1 + 2 * q.2 ∈ Ioo a b} := isOpen_Ioo.preimage (continuous_fst.add (continuous_const.mul continuous_snd))
    exact h1.inter h2
  have he : ContDiffOn ℝ ∞ (fun q : ℝ × ℝ => extra d g q.2 (Y q.1) - Y (q.1 + 2 * q.2)) U := by
    refine ContDiffOn.sub ?_ ?_
    · have h1 : ContDiffOn ℝ ∞ (fun q : ℝ × ℝ => (q.2, Y q.1)) U := by
        refine contDiff_snd.contDiffOn.prodMk ?_
        exact hYs.comp contDiff_fst.contDiffOn fun q hq => hq.1
      exact ContDiff.comp_contDiffOn (g := fun q : ℝ × (Fin n → ℂ) => extra d g q.1 q.2) (f := fun q : ℝ × ℝ => (q.2, Y q.1))
        (extra_contDiff d hg) h1
    · exact hYs.comp (contDiff_fst.add (contDiff_const.mul contDiff_snd)).contDiffOn fun q hq => hq.2
  have h0pos : 0 < min ((b - L) / 4) 1 := lt_min (by linarith) one_pos
  have hsub : Icc 0 L ×ˢ Icc 0 (min ((b - L) / 4) 1) ⊆ U := by
    rintro ⟨z, h⟩ ⟨hz, hh⟩
    have h1 : h ≤ (b - L) / 4 := hh.2.trans (min_le_left _ _)
    have h2 : 0 ≤ h := hh.1
    have hz1 : 0 ≤ z := hz.1
    have hz2 : z ≤ L := hz.2
    refine ⟨⟨by linarith, by linarith⟩, ⟨?_, ?_⟩⟩
    · show a < z + 2 * h
      linarith
    · show z + 2 * h < b
      linarith
  obtain ⟨C, hC, hb'⟩ := OneStep.uniform_of_pointwise hUo he isCompact_Icc h0pos hsub (m := 5) (by
    intro z hz
    have hzI : z ∈ Ioo a b := ⟨by linarith [hz.1], by linarith [hz.2]⟩
    have hYz : ∀ᶠ t in 𝓝 (0 : ℝ), HasDerivAt (fun t => Y (z + t)) (applySpec d (Y (z + t)) + g (Y (z + t))) t := by
      have hc : Tendsto (fun t : ℝ => z + t) (𝓝 0) (𝓝 z) := by
        have hcz : Continuous fun t : ℝ => z + t := by fun_prop
        have := hcz.tendsto 0
        rwa [add_zero] at this
      filter_upwards [hc.eventually (isOpen_Ioo.mem_nhds hzI)] with t ht
      exact (hY (z + t) ht).comp_const_add z t
    have h1 := (ipStep_orders (hgY z hz) (Y := fun t => Y (z + t)) (by simp) hYz).2.2
    have ht : Tendsto (fun x : ℝ => 2 * x) (𝓝[>] 0) (𝓝 0) := by
      have : Tendsto (fun x : ℝ => 2 * x) (𝓝 0) (𝓝 (2 * 0)) := (continuous_const.mul continuous_id).tendsto 0
      rw [mul_zero] at this
      exact this.mono_left nhdsWithin_le_nhds
    have h2 := h1.comp_tendsto ht
    refine (h2.trans (IsBigO.of_bound 64 (Eventually.of_forall fun x => ?_))).congr_left fun x => ?_
    · simp only [Function.comp]
      rw [mul_pow, norm_mul]
      norm_num
    · simp only [Function.comp, extra]
      rw [show 2 * x / 2 = x by ring])
  exact ⟨C, _, hC, h0pos, min_le_right _ _, hb'⟩

/-- a solution that starts away from zero stays away from zero -/
theorem solution_lower {f : (Fin n → ℂ) → Fin n → ℂ} (hf : ContDiff ℝ 1 f) (hf0 : f 0 = 0) {Y : ℝ → Fin n → ℂ} {a b L : ℝ}
    (ha : a < 0) (hb : L < b) (hL : 0 ≤ L) (hY : ∀ z ∈ Ioo a b, HasDerivAt Y (f (Y z)) z) (hne : Y 0 ≠ 0) :
    ∃ c R, 0 < c ∧ ∀ z ∈ Icc 0 L, c ≤ ‖Y z‖ ∧ ‖Y z‖ ≤ R := by
  have hcont : ContinuousOn Y (Icc 0 L) := fun z hz =>
    (hY z ⟨by linarith [hz.1], by linarith [hz.2]⟩).continuousAt.continuousWithinAt
  obtain ⟨R, hR⟩ := isCompact_Icc.exists_bound_of_continuousOn hcont
  obtain ⟨z0, hz0, hmin⟩ := isCompact_Icc.exists_isMinOn (nonempty_Icc.2 hL) hcont.norm
  refine ⟨‖Y z0‖, R, ?_, fun z hz => ⟨hmin hz, hR z hz⟩⟩
  rw [norm_pos_iff]
  intro h0
  have hR0 : 0 ≤ R := (norm_nonneg _).trans (hR z0 hz0)
  obtain ⟨K, hK⟩ := hf.contDiffOn.exists_lipschitzOnWith (s := Metric.closedBall (0 : Fin n → ℂ) R) one_ne_zero (convex_closedBall 0 R)
    (isCompact_closedBall 0 R)
  have hu := ODE_solution_unique_of_mem_Icc_left (v := fun _ => f) (s := fun _ => Metric.closedBall (0 : Fin n → ℂ) R) (K := K) (a := 0) (b := z0)
    (f := Y) (g := fun _ => 0) (fun _ _ => hK) (hcont.mono (Icc_subset_Icc_right hz0.2))
    (fun t ht => (hY t ⟨by linarith [ht.1], by linarith [ht.2, hz0.2]⟩).hasDerivWithinAt)
    (fun t ht => by rw [mem_closedBall_zero_iff]; exact hR t ⟨ht.1.le, ht.2.trans hz0.2⟩)
    continuousOn_const (fun t _ => by rw [hf0]; exact hasDerivWithinAt_const _ _ _)
    (fun t _ => by rw [mem_closedBall_zero_iff, norm_zero]; exact hR0) h0
  exact hne (hu ⟨le_refl 0, hz0.1⟩)

theorem near_id {φ : ℝ × (Fin n → ℂ) → Fin n → ℂ} (hφ : ContDiff ℝ 1 φ) (h0 : ∀ A, φ (0, A) = A) (R : ℝ) :
    ∃ K, 0 ≤ K ∧ ∀ h ∈ Icc (0 : ℝ) 1, ∀ A ∈ Metric.closedBall (0 : Fin n → ℂ) R, ‖φ (h, A) - A‖ ≤ K * h := by
  obtain ⟨K, hK⟩ := hφ.contDiffOn.exists_lipschitzOnWith (s := Icc (0 : ℝ) 1 ×ˢ Metric.closedBall (0 : Fin n → ℂ) R) one_ne_zero
    ((convex_Icc 0 1).prod (convex_closedBall 0 R)) (isCompact_Icc.prod (isCompact_closedBall 0 R))
  refine ⟨K, K.2, fun h hh A hA => ?_⟩
  have := hK.dist_le_mul (h, A) ⟨hh, hA⟩ (0, A) ⟨⟨le_refl 0, zero_le_one⟩, hA⟩
  rw [h0, dist_eq_norm, dist_eq_norm, Prod.mk_sub_mk, sub_self, sub_zero] at this
  refine this.trans (le_of_eq ?_)
  rw [Prod.norm_mk, norm_zero, max_eq_left (norm_nonneg _), Real.norm_eq_abs, abs_of_nonneg hh.1]

theorem norm_le_norm2 (x : Fin n → ℂ) : ‖x‖ ≤ norm2 x := by
  refine (pi_norm_le_iff_of_nonneg (Real.sqrt_nonneg _)).2 fun j => ?_
  refine Real.le_sqrt_of_sq_le ?_
  exact Finset.single_le_sum (f := fun j => ‖x j‖ ^ 2) (fun i _ => sq_nonneg _) (Finset.mem_univ j)

theorem norm2_le (x : Fin n → ℂ) : norm2 x ≤ n * ‖x‖ := by
  refine Real.sqrt_le_iff.2 ⟨by positivity, ?_⟩
  have h1 : ∑ j, ‖x j‖ ^ 2 ≤ n * ‖x‖ ^ 2 := by
    refine (Finset.sum_le_card_nsmul _ _ (‖x‖ ^ 2) fun j _ => pow_le_pow_left₀ (norm_nonneg _) (norm_le_pi_norm x j) 2).trans ?_
    simp
  refine h1.trans ?_
  rw [mul_pow]
  refine mul_le_mul_of_nonneg_right ?_ (sq_nonneg _)
  exact_mod_cast Nat.le_self_pow two_ne_zero n

/-- small steps from fields of moderate size have a small error estimate -/
theorem estimate_small (d : Fin n → ℂ) {g : (Fin n → ℂ) → Fin n → ℂ} (hg : ContDiff ℝ 1 g) {c R ε : ℝ} (hc : 0 < c) (hε : 0 < ε) :
    ∃ h2 > 0, ∀ h ∈ Icc 0 h2, ∀ A, c ≤ ‖A‖ → ‖A‖ ≤ R → localErr (ipStep d g h (ipStep d g h A)) (ipStep d g (2 * h) A) < ε := by
  obtain ⟨K1, hK1, h1⟩ := near_id (fine_contDiff d hg) (fun A => by simp [ipStep_zero]) R
  obtain ⟨K2, hK2, h2⟩ := near_id (coarse_contDiff d hg) (fun A => by simp [ipStep_zero]) R
  set D := 1 + 2 * K1 / c + 4 * (n * (K1 + K2)) / (c * ε) with hD
  have hDpos : 0 < D := by positivity
  refine ⟨min 1 (1 / D), by positivity, fun h hh A hcA hAR => ?_⟩
  have hh1 : h ∈ Icc (0 : ℝ) 1 := ⟨hh.1, hh.2.trans (min_le_left _ _)⟩
  have hhD : h * D ≤ 1 := by
    have := hh.2.trans (min_le_right _ _)
    rwa [le_div_iff₀ hDpos] at this
  have hA : A ∈ Metric.closedBall (0 : Fin n → ℂ) R := by rwa [mem_closedBall_zero_iff]
  have e1 := h1 h hh1 A hA
  have e2 := h2 h hh1 A hA
  simp only at e1 e2
  set Af := ipStep d g h (ipStep d g h A)
  set Ac := ipStep d g (2 * h) A
  have h3 : h * (2 * K1 / c) ≤ 1 := by
    refine le_trans (mul_le_mul_of_nonneg_left ?_ hh.1) hhD
    rw [hD]
    have : 0 ≤ 4 * (n * (K1 + K2)) / (c * ε) := by positivity
    linarith
  have h4 : h * (4 * (n * (K1 + K2)) / (c * ε)) ≤ 1 := by
    refine le_trans (mul_le_mul_of_nonneg_left ?_ hh.1) hhD
    rw [hD]
    have : 0 ≤ 2 * K1 / c := by positivity
    linarith
  have h5 : K1 * h ≤ c / 2 := by
    have : h * (2 * K1 / c) * (c / 2) ≤ 1 * (c / 2) := mul_le_mul_of_nonneg_right h3 (by positivity)
    calc K1 * h = h * (2 * K1 / c) * (c / 2) := by field_simp
      _ ≤ c / 2 := by linarith
  have h6 : n * ((K1 + K2) * h) ≤ ε * c / 4 := by
    have : h * (4 * (n * (K1 + K2)) / (c * ε)) * (c * ε / 4) ≤ 1 * (c * ε / 4) := mul_le_mul_of_nonneg_right h4 (by positivity)
    calc n * ((K1 + K2) * h) = h * (4 * (n * (K1 + K2)) / (c * ε)) * (c * ε / 4) := by field_simp
      _ ≤ ε * c / 4 := by linarith
  have hAf : c / 2 ≤ norm2 Af := by
    refine le_trans ?_ (norm_le_norm2 Af)
    have := norm_sub_norm_le A Af
    rw [norm_sub_rev] at this
    linarith
  have hdiff : norm2 (fun j => Af j - Ac j) ≤ ε * c / 4 := by
    refine (norm2_le _).trans (le_trans (mul_le_mul_of_nonneg_left ?_ (Nat.cast_nonneg n)) h6)
    have e : (fun j => Af j - Ac j) = (Af - A) - (Ac - A) := by funext j; simp
    rw [e]
    exact (norm_sub_le _ _).trans (by linarith)
  unfold localErr
  rw [if_pos (by intro h0; rw [h0] at hAf; linarith)]
  rw [div_lt_iff₀ (by linarith)]
  calc norm2 (fun j => Af j - Ac j) ≤ ε * c / 4 := hdiff
    _ < ε * (c / 2) := by nlinarith
    _ ≤ ε * norm2 Af := mul_le_mul_of_nonneg_left hAf hε.le

/-- One integration whose first step covers the distance and passes the error test is one step. -/
theorem integrate_one {p : Params n} (hp : p.Ok) {dir δ : ℝ} (hδ : 0 < δ) {f : Field n} (hdz : δ ≤ 2 * f.dz)
    (herr : localErr (Spec.adv p dir (δ / 2) (Spec.adv p dir (δ / 2) f.A)) (Spec.adv p dir (2 * (δ / 2)) f.A) < p.localError) :
    ∃ f', integrate p δ dir f = some f' ∧ δ ≤ 2 * f'.dz ∧
      f'.A = richardson p.eta (Spec.adv p dir (δ / 2) (Spec.adv p dir (δ / 2) f.A)) (Spec.adv p dir (2 * (δ / 2)) f.A) := by
  have hdz0 : 0 < f.dz := by linarith
  obtain ⟨f', e, hret⟩ := integrate_spec hp δ dir hdz0
  refine ⟨f', e, ?_⟩
  have hstart : ctrlStart f.dz δ = ⟨δ / 2, δ, none⟩ := by
    unfold ctrlStart
    split_ifs with h
    · rfl
    · rw [show f.dz = δ / 2 by linarith]
  set err := localErr (Spec.adv p dir (δ / 2) (Spec.adv p dir (δ / 2) f.A)) (Spec.adv p dir (2 * (δ / 2)) f.A) with herrd
  have hfac : 1 < p.cfg.factor := hp.cfg.2
  obtain ⟨dz', hj, hdz'⟩ : ∃ dz', judge p.cfg (δ / 2) (.val err) = (true, dz') ∧ δ / 2 ≤ dz' := by
    have hloc : p.cfg.localError = p.localError := rfl
    have he0 : 0 ≤ err := by
      rw [herrd]
      unfold localErr
      split_ifs
      · exact div_nonneg (Real.sqrt_nonneg _) (Real.sqrt_nonneg _)
      · exact Real.sqrt_nonneg _
    unfold judge
    simp only [Err.gt, Err.ge, Err.le, hloc]
    rw [if_neg (by linarith), if_neg (by intro h; linarith [h.1])]
    split_ifs
    · exact ⟨_, rfl, le_refl _⟩
    · refine ⟨_, rfl, ?_⟩
      nlinarith
  have hbody : Spec.body p.cfg p.eta (Spec.adv p dir) ⟨f.A, f.iter, ⟨δ / 2, δ, none⟩⟩ =
      ⟨richardson p.eta (Spec.adv p dir (δ / 2) (Spec.adv p dir (δ / 2) f.A)) (Spec.adv p dir (2 * (δ / 2)) f.A), f.iter + 1, ⟨dz', 0, none⟩⟩ := by
    have hcb : ctrlBody p.cfg ⟨δ / 2, δ, none⟩ (.val err) = (true, ⟨dz', 0, none⟩) := by
      unfold ctrlBody
      rw [hj]
      simp only [afterAccept]
      have hm : 0 < p.cfg.dzMin := hp.min_pos
      rw [show δ - 2 * (δ / 2) = 0 by ring, if_neg (by intro h; linarith [h.2])]
    unfold Spec.body
    simp only [Spec.stErr]
    rw [← herrd, hcb]
  have hmine : Spec.Returns p.cfg p.eta (Spec.adv p dir) δ f.A f.iter f.dz
      (richardson p.eta (Spec.adv p dir (δ / 2) (Spec.adv p dir (δ / 2) f.A)) (Spec.adv p dir (2 * (δ / 2)) f.A)) (f.iter + 1) dz' := by
    refine ⟨1, ?_⟩
    rw [hstart, Spec.run_succ_pos (k := 0) (by simpa [Spec.run] using hδ)]
    simp only [Spec.run, hbody]
    exact ⟨by simp, trivial, trivial, by simp [ctrlExit]⟩
  have hu := hret.unique hmine
  exact ⟨by rw [hu.2.2]; linarith, hu.1⟩

theorem nonPart_contDiff {p : Params n} (hs : p.disableSS = true) (dir : ℝ) {m : WithTop ℕ∞} : ContDiff ℝ m (nonPart p dir) :=
  contDiff_iff_contDiffAt.2 fun _ => nonPart_contDiffAt dir (Or.inl hs)

theorem applySpec_zero_right (d : Fin n → ℂ) : applySpec d (0 : Fin n → ℂ) = 0 := by
  funext j
  simp [applySpec, fft, ifft]

theorem richardson_adv {p : Params n} (hm : p.method = .rk4ip) (he : p.eta = 5) (dir h : ℝ) (A : Fin n → ℂ) :
    richardson p.eta (Spec.adv p dir h (Spec.adv p dir h A)) (Spec.adv p dir (2 * h) A) = extra (linPart p dir) (nonPart p dir) h A := by
  rw [he, richardson_five, adv_eq hm, adv_eq hm, adv_eq hm]
  rfl

/-- For small steps the stages of a step stay near its start, so that the step depends on the nonlinear part near the start only. -/
theorem ipStep_agree (d : Fin n → ℂ) {g : (Fin n → ℂ) → Fin n → ℂ} (hg : ContDiff ℝ 1 g) (R : ℝ) {ρ : ℝ} (hρ : 0 < ρ) :
    ∃ h3 > 0, ∀ h ∈ Icc 0 h3, ∀ B, ‖B‖ ≤ R → ∀ f : (Fin n → ℂ) → Fin n → ℂ, (∀ B', ‖B' - B‖ ≤ ρ → f B' = g B') →
      ipStep d f h B = ipStep d g h B ∧ ‖ipStep d g h B - B‖ ≤ ρ := by
  have ch : ContDiff ℝ 1 fun q : ℝ × (Fin n → ℂ) => q.1 := contDiff_fst
  have cA : ContDiff ℝ 1 fun q : ℝ × (Fin n → ℂ) => q.2 := contDiff_snd
  have h2 : ContDiff ℝ 1 fun q : ℝ × (Fin n → ℂ) => q.1 / 2 := ch.div_const 2
  have cAI : ContDiff ℝ 1 fun q : ℝ × (Fin n → ℂ) => prop d (q.1 / 2) q.2 := prop_contDiff d h2 cA
  have c1 : ContDiff ℝ 1 fun q : ℝ × (Fin n → ℂ) => prop d (q.1 / 2) (q.1 • g q.2) := prop_contDiff d h2 (ch.smul (hg.comp cA))
  have s2 : ContDiff ℝ 1 fun q : ℝ × (Fin n → ℂ) => prop d (q.1 / 2) q.2 + (1 / 2 : ℝ) • prop d (q.1 / 2) (q.1 • g q.2) :=
    cAI.add (c1.const_smul (1 / 2 : ℝ))
  have s3 : ContDiff ℝ 1 fun q : ℝ × (Fin n → ℂ) => prop d (q.1 / 2) q.2 +
      (1 / 2 : ℝ) • (q.1 • g (prop d (q.1 / 2) q.2 + (1 / 2 : ℝ) • prop d (q.1 / 2) (q.1 • g q.2))) :=
    cAI.add ((ch.smul (hg.comp s2)).const_smul (1 / 2 : ℝ))
  have s4 : ContDiff ℝ 1 fun q : ℝ × (Fin n → ℂ) => prop d (q.1 / 2) (prop d (q.1 / 2) q.2 + q.1 • g (prop d (q.1 / 2) q.2 +
      (1 / 2 : ℝ) • (q.1 • g (prop d (q.1 / 2) q.2 + (1 / 2 : ℝ) • prop d (q.1 / 2) (q.1 • g q.2))))) :=
    prop_contDiff d h2 (cAI.add (ch.smul (hg.comp s3)))
  have s5 : ContDiff ℝ 1 fun q : ℝ × (Fin n → ℂ) => ipStep d g q.1 q.2 := ipStep_contDiff d hg ch cA
  obtain ⟨K2, hK2, e2⟩ := near_id s2 (fun A => by simp [prop_zero]) R
  obtain ⟨K3, hK3, e3⟩ := near_id s3 (fun A => by simp [prop_zero]) R
  obtain ⟨K4, hK4, e4⟩ := near_id s4 (fun A => by simp [prop_zero]) R
  obtain ⟨K5, hK5, e5⟩ := near_id s5 (fun A => ipStep_zero d g A) R
  set K := 1 + K2 + K3 + K4 + K5 with hK
  have hKpos : 0 < K := by positivity
  refine ⟨min 1 (ρ / K), by positivity, fun h hh B hB f hf => ?_⟩
  have hh1 : h ∈ Icc (0 : ℝ) 1 := ⟨hh.1, hh.2.trans (min_le_left _ _)⟩
  have hB' : B ∈ Metric.closedBall (0 : Fin n → ℂ) R := by rwa [mem_closedBall_zero_iff]
  have hhK : K * h ≤ ρ := by
    have := hh.2.trans (min_le_right _ _)
    rw [le_div_iff₀ hKpos] at this
    linarith
  have le_of {k : ℝ} (hk : k ≤ K) : k * h ≤ ρ := (mul_le_mul_of_nonneg_right hk hh.1).trans hhK
  have a1 : f B = g B := hf B (by simpa using hρ.le)
  have a2 := hf _ ((e2 h hh1 B hB').trans (le_of (by linarith)))
  have a3 := hf _ ((e3 h hh1 B hB').trans (le_of (by linarith)))
  have a4 := hf _ ((e4 h hh1 B hB').trans (le_of (by linarith)))
  refine ⟨?_, (e5 h hh1 B hB').trans (le_of (by linarith))⟩
  dsimp only at a2 a3 a4
  unfold ipStep
  dsimp only
  rw [a1, a2, a3, a4]

/-- The segments of a propagation converge to the solution as their number grows, if the nonlinear part agrees near the solution with a
smooth function. -/
theorem segments_converge_near {p : Params n} (hp : p.Ok) (hm : p.method = .rk4ip) (he : p.eta = 5)
    (hle : 0 < p.localError) {dir : ℝ} {A : Fin n → ℂ} {dz0 : ℝ} (hdz0 : 0 < dz0) {L : ℝ} (hL : 0 < L) {Y : ℝ → Fin n → ℂ} {a b : ℝ}
    (ha : a < 0) (hb : L < b) (hY0 : Y 0 = A) {g : (Fin n → ℂ) → Fin n → ℂ} (hgi : ContDiff ℝ ∞ g)
    (hgY : ∀ z ∈ Icc 0 L, ContDiffAt ℝ ω g (Y z)) (hY : ∀ z ∈ Ioo a b, HasDerivAt Y (applySpec (linPart p dir) (Y z) + g (Y z)) z)
    {ρ : ℝ} (hρ : 0 < ρ) (hag : ∀ z ∈ Icc 0 L, ∀ B, ‖B - Y z‖ ≤ ρ → nonPart p dir B = g B)
    {c R : ℝ} (hc : 0 < c) (hcR : ∀ z ∈ Icc 0 L, c ≤ ‖Y z‖ ∧ ‖Y z‖ ≤ R) :
    ∃ (N0 : ℕ) (C : ℝ), 1 ≤ N0 ∧ ∀ N, N0 ≤ N → ∀ S : ℕ → Field n, (S 0).A = A → (S 0).dz = dz0 →
      (∀ i < N, integrate p (L / N) dir (S i) = some (S (i + 1))) → ∀ i ≤ N, ‖(S i).A - Y (i * (L / N))‖ ≤ C / N ^ 5 := by
  have hg1 : ContDiff ℝ 1 g := hgi.of_le (by exact_mod_cast le_top)
  obtain ⟨C1, h0, hC1, h0pos, h0le, cons⟩ := extra_consistent hgi hgY ha hb hY
  obtain ⟨K, hK, stab⟩ := OneStep.stable (extra_contDiff (linPart p dir) hgi) (fun B => extra_zero _ _ B) (R + 1)
  obtain ⟨h1, h1pos, h1le, hsmall, hconv⟩ := OneStep.converges (Ψ := fun h B => extra (linPart p dir) (g) h B) (Y := Y) (m := 4)
    hL.le hC1 hK h0pos (fun z hz h hh _ => cons z hz h hh) (fun h hh => stab h ⟨hh.1, hh.2.trans h0le⟩) (fun z hz => (hcR z hz).2)
  obtain ⟨h2, h2pos, hest⟩ := estimate_small (linPart p dir) hg1 (c := c / 2) (R := R + 1) (by positivity) hle
  obtain ⟨h3, h3pos, hagree⟩ := ipStep_agree (linPart p dir) hg1 (R + 2) (ρ := min 1 (ρ / 4)) (by positivity)
  set D := C1 * L * Real.exp (K * L) with hD
  have hD0 : 0 ≤ D := by positivity
  set H := min (min h1 h2) (min dz0 (min 1 (min (c / (2 * (D + 1))) (min (h3 / 2) (ρ / (2 * (D + 1))))))) with hH
  have hHpos : 0 < H := by positivity
  obtain ⟨N0, hN0⟩ := exists_nat_ge (L / 2 / H)
  refine ⟨max N0 1, D * (L / 2) ^ 5, le_max_right _ _, fun N hN S hS0 hSz hSi => ?_⟩
  have hN1 : 1 ≤ N := (le_max_right _ _).trans hN
  have hNr : (0 : ℝ) < N := by exact_mod_cast hN1
  set h := L / N / 2 with hh
  have hhpos : 0 < h := by positivity
  have hhH : h ≤ H := by
    have : L / 2 / H ≤ N := hN0.trans (by exact_mod_cast (le_max_left _ _).trans hN)
    rw [div_le_iff₀ hHpos] at this
    rw [hh, div_div, div_le_iff₀ (by positivity)]
    linarith
  have hh1 : h ≤ h1 := hhH.trans ((min_le_left _ _).trans (min_le_left _ _))
  have hh2 : h ≤ h2 := hhH.trans ((min_le_left _ _).trans (min_le_right _ _))
  have hh3 : h ≤ dz0 := hhH.trans ((min_le_right _ _).trans (min_le_left _ _))
  have hh4 : h ≤ 1 := hhH.trans ((min_le_right _ _).trans ((min_le_right _ _).trans (min_le_left _ _)))
  have hh5' := hhH.trans ((min_le_right _ _).trans ((min_le_right _ _).trans (min_le_right _ _)))
  have hh5 : h ≤ c / (2 * (D + 1)) := hh5'.trans (min_le_left _ _)
  have hh6 : h ≤ h3 / 2 := hh5'.trans ((min_le_right _ _).trans (min_le_left _ _))
  have hh7 : h ≤ ρ / (2 * (D + 1)) := hh5'.trans ((min_le_right _ _).trans (min_le_right _ _))
  have hDc : D * h ^ 5 ≤ c / 2 := by
    have e : h ^ 5 ≤ h := pow_le_of_le_one hhpos.le hh4 (by norm_num)
    rw [le_div_iff₀ (by positivity)] at hh5
    nlinarith
  have hDρ : D * h ^ 5 ≤ ρ / 2 := by
    have e : h ^ 5 ≤ h := pow_le_of_le_one hhpos.le hh4 (by norm_num)
    rw [le_div_iff₀ (by positivity)] at hh7
    nlinarith
  have hD1 : D * h ^ 5 ≤ 1 := (mul_le_mul_of_nonneg_left (pow_le_pow_left₀ hhpos.le hh1 5) hD0).trans hsmall
  have hNh : (N : ℝ) * (2 * h) = L := by rw [hh]; field_simp
  have h2h : 2 * h = L / N := by rw [hh]; ring
  have bound : ∀ i ≤ N, (∀ j < i, (S (j + 1)).A = extra (linPart p dir) (g) h (S j).A) → ‖(S i).A - Y (i * (L / N))‖ ≤ D * h ^ 5 := by
    intro i hi hstep
    have hsum : ∑ _j ∈ Finset.range i, 2 * h = i * (L / N) := by rw [Finset.sum_const, Finset.card_range, nsmul_eq_mul, h2h]
    have := hconv h ⟨hhpos, hh1⟩ (fun _ => h) (fun j => (S j).A) i (hS0.trans hY0.symm) (fun _ _ => ⟨hhpos.le, le_refl h⟩) hstep (by
      rw [hsum, ← h2h, ← hNh]
      exact mul_le_mul_of_nonneg_right (by exact_mod_cast hi) (by positivity))
    rwa [hsum] at this
  have main : ∀ i ≤ N, (∀ j < i, (S (j + 1)).A = extra (linPart p dir) (g) h (S j).A) ∧ L / N ≤ 2 * (S i).dz := by
    intro i
    induction i with
    | zero => exact fun _ => ⟨fun j hj => absurd hj (Nat.not_lt_zero j), by rw [hSz, ← h2h]; linarith⟩
    | succ i ih =>
      intro hi
      obtain ⟨hst, hdz⟩ := ih (by omega)
      have hb' := bound i (by omega) hst
      have hz : (i : ℝ) * (L / N) ∈ Icc 0 L := by
        refine ⟨by positivity, ?_⟩
        rw [← h2h, ← hNh]
        exact mul_le_mul_of_nonneg_right (by exact_mod_cast (by omega : i ≤ N)) (by positivity)
      obtain ⟨q1, q2⟩ := hcR _ hz
      have hlow : c / 2 ≤ ‖(S i).A‖ := by
        have := norm_sub_norm_le (Y (i * (L / N))) (S i).A
        rw [norm_sub_rev] at this
        linarith
      have hup : ‖(S i).A‖ ≤ R + 1 := by
        have := norm_sub_norm_le (S i).A (Y (i * (L / N)))
        linarith
      have hag' : ∀ B, ‖B - (S i).A‖ ≤ ρ / 2 → nonPart p dir B = g B := fun B hB => hag _ hz B (by
        have := norm_sub_le_norm_sub_add_norm_sub B (S i).A (Y (i * (L / N)))
        linarith)
      have hmin4 : min 1 (ρ / 4) ≤ ρ / 4 := min_le_right _ _
      obtain ⟨g1, g2⟩ := hagree h ⟨hhpos.le, by linarith⟩ (S i).A (by linarith) (nonPart p dir) fun B hB => hag' B (by linarith)
      obtain ⟨g3, -⟩ := hagree (2 * h) ⟨by linarith, by linarith⟩ (S i).A (by linarith) (nonPart p dir) fun B hB => hag' B (by linarith)
      have hup2 : ‖ipStep (linPart p dir) g h (S i).A‖ ≤ R + 2 := by
        have := norm_sub_norm_le (ipStep (linPart p dir) g h (S i).A) (S i).A
        have := min_le_left 1 (ρ / 4)
        linarith
      obtain ⟨g4, -⟩ := hagree h ⟨hhpos.le, by linarith⟩ _ hup2 (nonPart p dir) fun B hB => hag' B (by
        have := norm_sub_le_norm_sub_add_norm_sub B (ipStep (linPart p dir) g h (S i).A) (S i).A
        linarith)
      obtain ⟨f', e, e1, e2⟩ := integrate_one hp (dir := dir) (δ := L / N) (f := S i) (by positivity) hdz (by
        rw [← hh, adv_eq hm, adv_eq hm, adv_eq hm, g1, g3, g4]
        exact hest h ⟨hhpos.le, hh2⟩ (S i).A hlow hup)
      rw [hSi i (by omega)] at e
      obtain rfl := Option.some.inj e
      refine ⟨fun j hj => ?_, e1⟩
      rcases Nat.lt_succ_iff_lt_or_eq.mp hj with hj' | rfl
      · exact hst j hj'
      · rw [e2, ← hh, richardson_adv hm he, extra, g1, g3, g4, extra]
  intro i hi
  refine (bound i hi (main i hi).1).trans (le_of_eq ?_)
  rw [hh]
  field_simp

/-- The segments of a propagation converge to the solution as their number grows. -/
theorem segments_converge {p : Params n} (hp : p.Ok) (hm : p.method = .rk4ip) (he : p.eta = 5) (hs : p.disableSS = true)
    (hle : 0 < p.localError) {dir : ℝ} {A : Fin n → ℂ} (hA : A ≠ 0) {dz0 : ℝ} (hdz0 : 0 < dz0) {L : ℝ} (hL : 0 < L) {Y : ℝ → Fin n → ℂ} {a b : ℝ}
    (ha : a < 0) (hb : L < b) (hY0 : Y 0 = A)
    (hY : ∀ z ∈ Ioo a b, HasDerivAt Y (applySpec (linPart p dir) (Y z) + nonPart p dir (Y z)) z) :
    ∃ (N0 : ℕ) (C : ℝ), 1 ≤ N0 ∧ ∀ N, N0 ≤ N → ∀ S : ℕ → Field n, (S 0).A = A → (S 0).dz = dz0 →
      (∀ i < N, integrate p (L / N) dir (S i) = some (S (i + 1))) → ∀ i ≤ N, ‖(S i).A - Y (i * (L / N))‖ ≤ C / N ^ 5 := by
  have hg : ContDiff ℝ ω (nonPart p dir) := nonPart_contDiff hs dir
  have hg1 : ContDiff ℝ 1 (nonPart p dir) := nonPart_contDiff hs dir
  obtain ⟨c, R, hc, hcR⟩ := solution_lower (f := fun B => applySpec (linPart p dir) B + nonPart p dir B)
    ((contDiff_iff_contDiffAt.2 fun _ => applySpec_contDiffAt contDiffAt_const contDiffAt_id).add hg1)
    (by funext j; simp [nonPart, applySpec_zero_right]) ha hb hL.le hY (by rw [hY0]; exact hA)
  exact segments_converge_near hp hm he hle hdz0 hL ha hb hY0 (nonPart_contDiff hs dir) (fun _ _ => hg.contDiffAt) hY one_pos (fun _ _ _ _ => rfl) hc hcR

end PyNLO.Ssfm
