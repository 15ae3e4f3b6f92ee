import Verif.Lemmas.SsfmConverge

/-!
# Convergence of the extrapolated RK4IP steps when the coefficients change along the fibre
-/

namespace PyNLO.Ssfm

open Complex RK Filter Asymptotics Set
open scoped Topology ContDiff

variable {n : ℕ}

theorem prop_contDiff_family {F : Type*} [NormedAddCommGroup F] [NormedSpace ℝ F] {m : WithTop ℕ∞} {d : F → Fin n → ℂ} {z : F → ℝ}
    {A : F → Fin n → ℂ} (hd : ContDiff ℝ m d) (hz : ContDiff ℝ m z) (hA : ContDiff ℝ m A) : ContDiff ℝ m (fun x => prop (d x) (z x) (A x)) := by
  have h1 : ContDiff ℝ m fun x => fun k => exp ((z x : ℂ) * d x k) := by
    rw [contDiff_pi]
    intro k
    exact ((ofRealCLM.contDiff.comp hz).mul (contDiff_pi.1 hd k)).cexp
  exact contDiff_iff_contDiffAt.2 fun _ => applySpec_contDiffAt h1.contDiffAt hA.contDiffAt

theorem ipStep_contDiff_family {F : Type*} [NormedAddCommGroup F] [NormedSpace ℝ F] {m : WithTop ℕ∞} {d : F → Fin n → ℂ}
    {g : F → (Fin n → ℂ) → Fin n → ℂ} (hd : ContDiff ℝ m d) (hg : ContDiff ℝ m fun q : F × (Fin n → ℂ) => g q.1 q.2) {h : F → ℝ}
    {A : F → Fin n → ℂ} (hh : ContDiff ℝ m h) (hA : ContDiff ℝ m A) : ContDiff ℝ m (fun x => ipStep (d x) (g x) (h x) (A x)) := by
  have hG : ∀ {B : F → Fin n → ℂ}, ContDiff ℝ m B → ContDiff ℝ m fun x => g x (B x) := fun hB => hg.comp (contDiff_id.prodMk hB)
  have h2 : ContDiff ℝ m fun x => h x / 2 := hh.div_const 2
  have cAI : ContDiff ℝ m fun x => prop (d x) (h x / 2) (A x) := prop_contDiff_family hd h2 hA
  have c1 : ContDiff ℝ m fun x => prop (d x) (h x / 2) (h x • g x (A x)) := prop_contDiff_family hd h2 (hh.smul (hG hA))
  have c2 := hh.smul (hG (cAI.add (c1.const_smul (1 / 2 : ℝ))))
  have c3 := hh.smul (hG (cAI.add (c2.const_smul (1 / 2 : ℝ))))
  have c4 := hh.smul (hG (prop_contDiff_family hd h2 (cAI.add c3)))
  exact (prop_contDiff_family hd h2 (((cAI.add (c1.const_smul (1 / 6 : ℝ))).add (c2.const_smul (1 / 3 : ℝ))).add (c3.const_smul (1 / 3 : ℝ)))).add
    (c4.const_smul (1 / 6 : ℝ))

/-- smooth coefficients along the fibre -/
structure Smooth (d : ℝ → Fin n → ℂ) (g : ℝ → (Fin n → ℂ) → Fin n → ℂ) : Prop where
  lin : ContDiff ℝ ∞ d
  non : ContDiff ℝ ∞ fun q : ℝ × (Fin n → ℂ) => g q.1 q.2
  ana : ∀ z, ContDiff ℝ ω (g z)

variable {d : ℝ → Fin n → ℂ} {g : ℝ → (Fin n → ℂ) → Fin n → ℂ}

theorem Smooth.ipStep (hs : Smooth d g) {F : Type*} [NormedAddCommGroup F] [NormedSpace ℝ F] {z h : F → ℝ} {A : F → Fin n → ℂ}
    (hz : ContDiff ℝ ∞ z) (hh : ContDiff ℝ ∞ h) (hA : ContDiff ℝ ∞ A) : ContDiff ℝ ∞ fun x => Ssfm.ipStep (d (z x)) (g (z x)) (h x) (A x) := by
  refine ipStep_contDiff_family (d := fun x => d (z x)) (g := fun x => g (z x)) (hs.lin.comp hz) ?_ hh hA
  exact hs.non.comp ((hz.comp contDiff_fst).prodMk contDiff_snd)

theorem Smooth.fine (hs : Smooth d g) {F : Type*} [NormedAddCommGroup F] [NormedSpace ℝ F] {z h : F → ℝ} {A : F → Fin n → ℂ}
    (hz : ContDiff ℝ ∞ z) (hh : ContDiff ℝ ∞ h) (hA : ContDiff ℝ ∞ A) :
    ContDiff ℝ ∞ fun x => Ssfm.ipStep (d (z x)) (g (z x)) (h x) (Ssfm.ipStep (d (z x)) (g (z x)) (h x) (A x)) :=
  hs.ipStep hz hh (hs.ipStep hz hh hA)

theorem Smooth.extra (hs : Smooth d g) {F : Type*} [NormedAddCommGroup F] [NormedSpace ℝ F] {z h : F → ℝ} {A : F → Fin n → ℂ}
    (hz : ContDiff ℝ ∞ z) (hh : ContDiff ℝ ∞ h) (hA : ContDiff ℝ ∞ A) : ContDiff ℝ ∞ fun x => Ssfm.extra (d (z x)) (g (z x)) (h x) (A x) :=
  ((hs.fine hz hh hA).const_smul (16 / 15 : ℝ)).sub ((hs.ipStep hz (contDiff_const.mul hh) hA).const_smul (1 / 15 : ℝ))

theorem Smooth.rhs (hs : Smooth d g) : ContDiff ℝ ∞ fun q : ℝ × (Fin n → ℂ) => applySpec (d q.1) q.2 + g q.1 q.2 :=
  (contDiff_iff_contDiffAt.2 fun _ => applySpec_contDiffAt (hs.lin.comp contDiff_fst).contDiffAt contDiffAt_snd).add hs.non

/-- a smooth curve that vanishes to first order -/
theorem sq_of_deriv {E : Type*} [NormedAddCommGroup E] [NormedSpace ℝ E] {w : ℝ → E} (hw : ContDiffAt ℝ 2 w 0) (h0 : w 0 = 0)
    (hd : HasDerivAt w 0 0) : w =O[𝓝 0] fun t : ℝ => t ^ 2 := by
  have h1 : ContDiffAt ℝ 1 (_root_.deriv w) 0 := by
    have h := (hw.fderiv_right (m := 1) (by norm_num)).clm_apply (contDiffAt_const (c := (1 : ℝ)))
    exact h
  have h2 : _root_.deriv w =O[𝓝 0] fun t : ℝ => t := by
    have := (h1.differentiableAt one_ne_zero).hasDerivAt.isBigO_sub
    simpa [hd.deriv] using this
  obtain ⟨C, hC⟩ := h2.bound
  have h3 : ∀ᶠ t in 𝓝 (0 : ℝ), DifferentiableAt ℝ w t := by
    have := hw.eventually (by simp)
    filter_upwards [this] with t ht using ht.differentiableAt (by norm_num)
  obtain ⟨ε, hε, hb⟩ := Metric.eventually_nhds_iff_ball.1 (hC.and h3)
  refine IsBigO.of_bound C ?_
  filter_upwards [Metric.ball_mem_nhds (0 : ℝ) hε] with x hx
  have hsub : ∀ t ∈ segment ℝ 0 x, t ∈ Metric.ball (0 : ℝ) ε ∧ ‖t‖ ≤ ‖x‖ := by
    intro t ht
    obtain ⟨s, hs, rfl⟩ := segment_eq_image ℝ 0 x ▸ ht
    have h5 : ‖(1 - s) • (0 : ℝ) + s • x‖ ≤ ‖x‖ := by
      rw [smul_zero, zero_add, smul_eq_mul, norm_mul, Real.norm_eq_abs s, abs_of_nonneg hs.1]
      exact mul_le_of_le_one_left (norm_nonneg _) hs.2
    refine ⟨?_, h5⟩
    rw [mem_ball_zero_iff] at hx ⊢
    exact h5.trans_lt hx
  have hC0 : 0 ≤ C * ‖x‖ := (norm_nonneg _).trans (hb x hx).1
  have hCle : ∀ t ∈ segment ℝ 0 x, ‖_root_.deriv w t‖ ≤ C * ‖x‖ := by
    intro t ht
    obtain ⟨h6, h7⟩ := hsub t ht
    have h8 := (hb t h6).1
    rcases le_or_gt 0 C with hc | hc
    · exact h8.trans (mul_le_mul_of_nonneg_left h7 hc)
    · have : C * ‖t‖ ≤ 0 := mul_nonpos_of_nonpos_of_nonneg hc.le (norm_nonneg _)
      linarith
  have := Convex.norm_image_sub_le_of_norm_hasDerivWithin_le (f := w) (f' := _root_.deriv w) (s := segment ℝ 0 x) (C := C * ‖x‖) (x := 0) (y := x)
    (fun t ht => (hb t (hsub t ht).1).2.hasDerivAt.hasDerivWithinAt) hCle (convex_segment 0 x) (left_mem_segment ℝ 0 x) (right_mem_segment ℝ 0 x)
  rw [h0, sub_zero, sub_zero] at this
  rw [norm_pow]
  linarith [this]

/-- the accepted field to first order -/
theorem extra_hasDerivAt {d : Fin n → ℂ} {g : (Fin n → ℂ) → Fin n → ℂ} (hg : ContDiff ℝ ω g) (A : Fin n → ℂ) :
    HasDerivAt (fun h : ℝ => extra d g h A) ((2 : ℝ) • (applySpec d A + g A)) 0 := by
  have hf : ContDiff ℝ 1 fun B => applySpec d B + g B :=
    (contDiff_iff_contDiffAt.2 fun _ => applySpec_contDiffAt contDiffAt_const contDiffAt_id).add (hg.of_le le_top)
  obtain ⟨V, hV0, ε, hε, hV⟩ := ContDiffAt.exists_forall_mem_closedBall_exists_eq_forall_mem_Ioo_hasDerivAt₀ (hf.contDiffAt (x := A)) 0
  have hev : ∀ᶠ z in 𝓝 (0 : ℝ), HasDerivAt V (applySpec d (V z) + g (V z)) z := by
    filter_upwards [isOpen_Ioo.mem_nhds (show (0 : ℝ) ∈ Ioo (0 - ε) (0 + ε) from ⟨by linarith, by linarith⟩)] with z hz using hV z hz
  have h1 := (ipStep_orders hg.contDiffAt hV0 hev).2.2
  have ht : Tendsto (fun x : ℝ => 2 * x) (𝓝 0) (𝓝 0) := by
    have : Tendsto (fun x : ℝ => 2 * x) (𝓝 0) (𝓝 (2 * 0)) := (continuous_const.mul continuous_id).tendsto 0
    rwa [mul_zero] at this
  have h2 : (fun h : ℝ => extra d g h A - V (2 * h)) =O[𝓝 0] fun h : ℝ => h ^ 6 := by
    refine ((h1.comp_tendsto ht).trans (IsBigO.of_bound 64 (Eventually.of_forall fun x => ?_))).congr_left fun x => ?_
    · simp only [Function.comp]
      rw [mul_pow, norm_mul]
      norm_num
    · simp only [Function.comp, extra]
      rw [show 2 * x / 2 = x by ring]
  have h3 : HasDerivAt (fun h : ℝ => extra d g h A - V (2 * h)) 0 0 := by
    rw [hasDerivAt_iff_isLittleO]
    have h4 : (fun h : ℝ => extra d g h A - V (2 * h)) =o[𝓝 0] fun h : ℝ => h := h2.trans_isLittleO (isLittleO_pow_id (by norm_num))
    refine h4.congr_left (fun x => ?_) |>.congr_right fun x => (sub_zero x).symm
    simp [extra_zero, hV0]
  have h5 : HasDerivAt (fun h : ℝ => V (2 * h)) ((2 : ℝ) • (applySpec d A + g A)) 0 := by
    have h6 := hev.self_of_nhds
    rw [hV0] at h6
    have h7 : HasDerivAt (fun h : ℝ => 2 * h) (2 : ℝ) 0 := by simpa using (hasDerivAt_id (0 : ℝ)).const_mul (2 : ℝ)
    exact HasDerivAt.scomp (h := fun h : ℝ => 2 * h) (g₁ := V) 0 (by simpa using h6) h7
  have := h3.add h5
  rw [zero_add] at this
  refine this.congr_of_eventuallyEq (Eventually.of_forall fun h => ?_)
  simp

/-- Uniform consistency of order one along a solution. -/
theorem Smooth.consistent (hs : Smooth d g) {Y : ℝ → Fin n → ℂ} {a b L : ℝ} (ha : a < 0) (hb : L < b)
    (hY : ∀ z ∈ Ioo a b, HasDerivAt Y (applySpec (d z) (Y z) + g z (Y z)) z) :
    ∃ C h0, 0 ≤ C ∧ 0 < h0 ∧ h0 ≤ 1 ∧ ∀ z ∈ Icc 0 L, ∀ h ∈ Icc 0 h0, ‖Ssfm.extra (d z) (g z) h (Y z) - Y (z + 2 * h)‖ ≤ C * h ^ 2 := by
  have hYs : ContDiffOn ℝ ∞ Y (Ioo a b) := by
    have h1 : ContDiff ℝ ∞ fun q : ℝ × (Fin n → ℂ) => ((1 : ℝ), applySpec (d q.1) q.2 + g q.1 q.2) := contDiff_const.prodMk hs.rhs
    have h2 := OneStep.solution_contDiffOn h1 (Y := fun t => (t, Y t)) (a := a) (b := b) fun z hz => (hasDerivAt_id z).prodMk (hY z hz)
    exact contDiff_snd.comp_contDiffOn h2
  set U : Set (ℝ × ℝ) := {q | q.1 ∈ Ioo a b ∧ q.1 + 2 * q.2 ∈ Ioo a b} with hUdef
  have hUo : IsOpen U := by
    have h1 : IsOpen {q : ℝ × ℝ | q.1 ∈ Ioo a b} := isOpen_Ioo.preimage continuous_fst
    have h2 : IsOpen {q : ℝ × ℝ | q.1 + 2 * q.2 ∈ Ioo a b} := isOpen_Ioo.preimage (continuous_fst.add (continuous_const.mul continuous_snd))
    exact h1.inter h2
  have he : ContDiffOn ℝ ∞ (fun q : ℝ × ℝ => Ssfm.extra (d q.1) (g q.1) q.2 (Y q.1) - Y (q.1 + 2 * q.2)) U := by
    refine ContDiffOn.sub ?_ ?_
    · have h1 : ContDiffOn ℝ ∞ (fun q : ℝ × ℝ => ((q.1, q.2, Y q.1) : ℝ × ℝ × (Fin n → ℂ))) U := by
        refine contDiff_fst.contDiffOn.prodMk (contDiff_snd.contDiffOn.prodMk ?_)
        exact hYs.comp contDiff_fst.contDiffOn fun q hq => hq.1
      exact ContDiff.comp_contDiffOn (g := fun q : ℝ × ℝ × (Fin n → ℂ) => Ssfm.extra (d q.1) (g q.1) q.2.1 q.2.2)
        (f := fun q : ℝ × ℝ => ((q.1, q.2, Y q.1) : ℝ × ℝ × (Fin n → ℂ)))
        (hs.extra contDiff_fst (contDiff_fst.comp contDiff_snd) (contDiff_snd.comp contDiff_snd)) h1
    · exact hYs.comp (contDiff_fst.add (contDiff_const.mul contDiff_snd)).contDiffOn fun q hq => hq.2
  have h0pos : 0 < min ((b - L) / 4) 1 := lt_min (by linarith) one_pos
  have hsub : Icc 0 L ×ˢ Icc 0 (min ((b - L) / 4) 1) ⊆ U := by
    rintro ⟨z, h⟩ ⟨hz, hh⟩
    have h1 : h ≤ (b - L) / 4 := hh.2.trans (min_le_left _ _)
    have h2 : 0 ≤ h := hh.1
    have hz1 : 0 ≤ z := hz.1
    have hz2 : z ≤ L := hz.2
    refine ⟨⟨by linarith, by linarith⟩, ⟨?_, ?_⟩⟩
    · show a < z + 2 * h
      linarith
    · show z + 2 * h < b
      linarith
  obtain ⟨C, hC, hb'⟩ := OneStep.uniform_of_pointwise hUo he isCompact_Icc h0pos hsub (m := 1) (by
    intro z hz
    have hzU : (z, (0 : ℝ)) ∈ U := hsub ⟨hz, le_refl 0, h0pos.le⟩
    have hzI : z ∈ Ioo a b := hzU.1
    refine (sq_of_deriv ?_ ?_ ?_).mono nhdsWithin_le_nhds
    · have h1 := (he.contDiffAt (hUo.mem_nhds hzU)).comp (f := fun h : ℝ => ((z, h) : ℝ × ℝ)) 0 (contDiff_const.prodMk contDiff_id).contDiffAt
      exact h1.of_le (by norm_cast)
    · simp [extra_zero]
    · have h1 := extra_hasDerivAt (d := d z) (hs.ana z) (Y z)
      have h2 : HasDerivAt (fun h : ℝ => Y (z + 2 * h)) ((2 : ℝ) • (applySpec (d z) (Y z) + g z (Y z))) 0 := by
        have h7 : HasDerivAt (fun h : ℝ => z + 2 * h) (2 : ℝ) 0 := by simpa using ((hasDerivAt_id (0 : ℝ)).const_mul (2 : ℝ)).const_add z
        exact HasDerivAt.scomp (h := fun h : ℝ => z + 2 * h) (g₁ := Y) 0 (by simpa using hY z hzI) h7
      have := h1.sub h2
      rwa [sub_self] at this)
  exact ⟨C, _, hC, h0pos, min_le_right _ _, hb'⟩

theorem near_id_family {φ : ℝ × (ℝ × (Fin n → ℂ)) → Fin n → ℂ} (hφ : ContDiff ℝ 1 φ) (h0 : ∀ q, φ (0, q) = q.2) (R : ℝ) :
    ∃ K, 0 ≤ K ∧ ∀ h ∈ Icc (0 : ℝ) 1, ∀ z A, |z| ≤ R → ‖A‖ ≤ R → ‖φ (h, z, A) - A‖ ≤ K * h := by
  obtain ⟨K, hK⟩ := hφ.contDiffOn.exists_lipschitzOnWith (s := Icc (0 : ℝ) 1 ×ˢ Metric.closedBall (0 : ℝ × (Fin n → ℂ)) R) one_ne_zero
    ((convex_Icc 0 1).prod (convex_closedBall 0 R)) (isCompact_Icc.prod (isCompact_closedBall 0 R))
  refine ⟨K, K.2, fun h hh z A hz hA => ?_⟩
  have hq : (z, A) ∈ Metric.closedBall (0 : ℝ × (Fin n → ℂ)) R := by
    rw [mem_closedBall_zero_iff, Prod.norm_mk]
    exact max_le hz hA
  have := hK.dist_le_mul (h, z, A) ⟨hh, hq⟩ (0, z, A) ⟨⟨le_refl 0, zero_le_one⟩, hq⟩
  rw [h0, dist_eq_norm, dist_eq_norm, Prod.mk_sub_mk, sub_self, sub_zero] at this
  refine this.trans (le_of_eq ?_)
  rw [Prod.norm_mk, norm_zero, max_eq_left (norm_nonneg _), Real.norm_eq_abs, abs_of_nonneg hh.1]

/-- two fields near a third have a small error estimate -/
theorem localErr_small {Af Ac A : Fin n → ℂ} {c ε K1 K2 h : ℝ} (hc : 0 < c) (hε : 0 < ε) (hcA : c ≤ ‖A‖) (e1 : ‖Af - A‖ ≤ K1 * h)
    (e2 : ‖Ac - A‖ ≤ K2 * h) (h5 : K1 * h ≤ c / 2) (h6 : n * ((K1 + K2) * h) ≤ ε * c / 4) : localErr Af Ac < ε := by
  have hAf : c / 2 ≤ norm2 Af := by
    refine le_trans ?_ (norm_le_norm2 Af)
    have := norm_sub_norm_le A Af
    rw [norm_sub_rev] at this
    linarith
  have hdiff : norm2 (fun j => Af j - Ac j) ≤ ε * c / 4 := by
    refine (norm2_le _).trans (le_trans (mul_le_mul_of_nonneg_left ?_ (Nat.cast_nonneg n)) h6)
    have e : (fun j => Af j - Ac j) = (Af - A) - (Ac - A) := by funext j; simp
    rw [e]
    exact (norm_sub_le _ _).trans (by linarith)
  unfold localErr
  rw [if_pos (by intro h0; rw [h0] at hAf; linarith)]
  rw [div_lt_iff₀ (by linarith)]
  calc norm2 (fun j => Af j - Ac j) ≤ ε * c / 4 := hdiff
    _ < ε * (c / 2) := by nlinarith
    _ ≤ ε * norm2 Af := mul_le_mul_of_nonneg_left hAf hε.le

theorem Smooth.estimate_small (hs : Smooth d g) {c R ε : ℝ} (hc : 0 < c) (hε : 0 < ε) :
    ∃ h2 > 0, ∀ h ∈ Icc 0 h2, ∀ z A, |z| ≤ R → c ≤ ‖A‖ → ‖A‖ ≤ R →
      localErr (Ssfm.ipStep (d z) (g z) h (Ssfm.ipStep (d z) (g z) h A)) (Ssfm.ipStep (d z) (g z) (2 * h) A) < ε := by
  have le1 : (1 : WithTop ℕ∞) ≤ ∞ := by exact_mod_cast le_top
  obtain ⟨K1, hK1, h1⟩ := near_id_family (φ := fun q => Ssfm.ipStep (d q.2.1) (g q.2.1) q.1 (Ssfm.ipStep (d q.2.1) (g q.2.1) q.1 q.2.2))
    ((hs.fine (contDiff_fst.comp contDiff_snd) contDiff_fst (contDiff_snd.comp contDiff_snd)).of_le le1) (fun q => by simp [ipStep_zero]) R
  obtain ⟨K2, hK2, h2⟩ := near_id_family (φ := fun q => Ssfm.ipStep (d q.2.1) (g q.2.1) (2 * q.1) q.2.2)
    ((hs.ipStep (contDiff_fst.comp contDiff_snd) (contDiff_const.mul contDiff_fst) (contDiff_snd.comp contDiff_snd)).of_le le1)
    (fun q => by simp [ipStep_zero]) R
  set D := 1 + 2 * K1 / c + 4 * (n * (K1 + K2)) / (c * ε) with hD
  have hDpos : 0 < D := by positivity
  refine ⟨min 1 (1 / D), by positivity, fun h hh z A hz hcA hAR => ?_⟩
  have hh1 : h ∈ Icc (0 : ℝ) 1 := ⟨hh.1, hh.2.trans (min_le_left _ _)⟩
  have hhD : h * D ≤ 1 := by
    have := hh.2.trans (min_le_right _ _)
    rwa [le_div_iff₀ hDpos] at this
  have h3 : h * (2 * K1 / c) ≤ 1 := by
    refine le_trans (mul_le_mul_of_nonneg_left ?_ hh.1) hhD
    rw [hD]
    have : 0 ≤ 4 * (n * (K1 + K2)) / (c * ε) := by positivity
    linarith
  have h4 : h * (4 * (n * (K1 + K2)) / (c * ε)) ≤ 1 := by
    refine le_trans (mul_le_mul_of_nonneg_left ?_ hh.1) hhD
    rw [hD]
    have : 0 ≤ 2 * K1 / c := by positivity
    linarith
  refine localErr_small hc hε hcA (h1 h hh1 z A hz hAR) (h2 h hh1 z A hz hAR) ?_ ?_
  · have : h * (2 * K1 / c) * (c / 2) ≤ 1 * (c / 2) := mul_le_mul_of_nonneg_right h3 (by positivity)
    calc K1 * h = h * (2 * K1 / c) * (c / 2) := by field_simp
      _ ≤ c / 2 := by linarith
  · have : h * (4 * (n * (K1 + K2)) / (c * ε)) * (c * ε / 4) ≤ 1 * (c * ε / 4) := mul_le_mul_of_nonneg_right h4 (by positivity)
    calc n * ((K1 + K2) * h) = h * (4 * (n * (K1 + K2)) / (c * ε)) * (c * ε / 4) := by field_simp
      _ ≤ ε * c / 4 := by linarith

/-- solutions with the same start agree -/
theorem family_unique {f : ℝ → (Fin n → ℂ) → Fin n → ℂ} (hf : ContDiff ℝ 1 fun q : ℝ × (Fin n → ℂ) => f q.1 q.2) {Y Z : ℝ → Fin n → ℂ} {s t : ℝ}
    (hY : ∀ z ∈ Icc s t, HasDerivAt Y (f z (Y z)) z) (hZ : ∀ z ∈ Icc s t, HasDerivAt Z (f z (Z z)) z) {u : ℝ} (hu : u ∈ Icc s t) (h0 : Y u = Z u) :
    ∀ z ∈ Icc s t, Y z = Z z := by
  have hcY : ContinuousOn Y (Icc s t) := fun z hz => (hY z hz).continuousAt.continuousWithinAt
  have hcZ : ContinuousOn Z (Icc s t) := fun z hz => (hZ z hz).continuousAt.continuousWithinAt
  obtain ⟨RY, hRY⟩ := isCompact_Icc.exists_bound_of_continuousOn hcY
  obtain ⟨RZ, hRZ⟩ := isCompact_Icc.exists_bound_of_continuousOn hcZ
  obtain ⟨K, hK⟩ := hf.contDiffOn.exists_lipschitzOnWith (s := Icc s t ×ˢ Metric.closedBall (0 : Fin n → ℂ) (max RY RZ)) one_ne_zero
    ((convex_Icc s t).prod (convex_closedBall 0 _)) (isCompact_Icc.prod (isCompact_closedBall 0 _))
  have hK' : ∀ z ∈ Icc s t, LipschitzOnWith K (f z) (Metric.closedBall (0 : Fin n → ℂ) (max RY RZ)) := by
    intro z hz
    refine LipschitzOnWith.of_dist_le_mul fun x hx y hy => ?_
    have := hK.dist_le_mul (z, x) ⟨hz, hx⟩ (z, y) ⟨hz, hy⟩
    simpa [Prod.dist_eq] using this
  have mY : ∀ z ∈ Icc s t, Y z ∈ Metric.closedBall (0 : Fin n → ℂ) (max RY RZ) := fun z hz => by
    rw [mem_closedBall_zero_iff]; exact (hRY z hz).trans (le_max_left _ _)
  have mZ : ∀ z ∈ Icc s t, Z z ∈ Metric.closedBall (0 : Fin n → ℂ) (max RY RZ) := fun z hz => by
    rw [mem_closedBall_zero_iff]; exact (hRZ z hz).trans (le_max_right _ _)
  intro z hz
  rcases le_total z u with h | h
  · have sub : Icc s u ⊆ Icc s t := Icc_subset_Icc_right hu.2
    have := ODE_solution_unique_of_mem_Icc_left (v := f) (s := fun _ => Metric.closedBall (0 : Fin n → ℂ) (max RY RZ)) (K := K) (a := s) (b := u)
      (f := Y) (g := Z) (fun t ht => hK' t (sub ⟨ht.1.le, ht.2⟩)) (hcY.mono sub) (fun t ht => (hY t (sub ⟨ht.1.le, ht.2⟩)).hasDerivWithinAt)
      (fun t ht => mY t (sub ⟨ht.1.le, ht.2⟩)) (hcZ.mono sub) (fun t ht => (hZ t (sub ⟨ht.1.le, ht.2⟩)).hasDerivWithinAt)
      (fun t ht => mZ t (sub ⟨ht.1.le, ht.2⟩)) h0
    exact this ⟨hz.1, h⟩
  · have sub : Icc u t ⊆ Icc s t := Icc_subset_Icc_left hu.1
    have := ODE_solution_unique_of_mem_Icc_right (v := f) (s := fun _ => Metric.closedBall (0 : Fin n → ℂ) (max RY RZ)) (K := K) (a := u) (b := t)
      (f := Y) (g := Z) (fun t ht => hK' t (sub ⟨ht.1, ht.2.le⟩)) (hcY.mono sub) (fun t ht => (hY t (sub ⟨ht.1, ht.2.le⟩)).hasDerivWithinAt)
      (fun t ht => mY t (sub ⟨ht.1, ht.2.le⟩)) (hcZ.mono sub) (fun t ht => (hZ t (sub ⟨ht.1, ht.2.le⟩)).hasDerivWithinAt)
      (fun t ht => mZ t (sub ⟨ht.1, ht.2.le⟩)) h0
    exact this ⟨h, hz.2⟩

theorem family_lower {f : ℝ → (Fin n → ℂ) → Fin n → ℂ} (hf : ContDiff ℝ 1 fun q : ℝ × (Fin n → ℂ) => f q.1 q.2) (hf0 : ∀ z, f z 0 = 0)
    {Y : ℝ → Fin n → ℂ} {a b L : ℝ} (ha : a < 0) (hb : L < b) (hL : 0 ≤ L) (hY : ∀ z ∈ Ioo a b, HasDerivAt Y (f z (Y z)) z) (hne : Y 0 ≠ 0) :
    ∃ c R, 0 < c ∧ ∀ z ∈ Icc 0 L, c ≤ ‖Y z‖ ∧ ‖Y z‖ ≤ R := by
  have hin : ∀ z ∈ Icc 0 L, z ∈ Ioo a b := fun z hz => ⟨by linarith [hz.1], by linarith [hz.2]⟩
  have hcont : ContinuousOn Y (Icc 0 L) := fun z hz => (hY z (hin z hz)).continuousAt.continuousWithinAt
  obtain ⟨R, hR⟩ := isCompact_Icc.exists_bound_of_continuousOn hcont
  obtain ⟨z0, hz0, hmin⟩ := isCompact_Icc.exists_isMinOn (nonempty_Icc.2 hL) hcont.norm
  refine ⟨‖Y z0‖, R, ?_, fun z hz => ⟨hmin hz, hR z hz⟩⟩
  rw [norm_pos_iff]
  intro h0
  have := family_unique hf (Y := Y) (Z := fun _ => 0) (s := 0) (t := L) (fun z hz => hY z (hin z hz))
    (fun z _ => by rw [hf0]; exact hasDerivAt_const _ _) hz0 h0 0 ⟨le_refl 0, hL⟩
  exact hne this

/-- The segments of a propagation whose coefficients are those at the start of each segment converge to the solution. -/
theorem segments_converge_family {P : ℝ → Params n} (hp : ∀ z, (P z).Ok) (hm : ∀ z, (P z).method = .rk4ip) (he : ∀ z, (P z).eta = 5)
    {le : ℝ} (hle : 0 < le) (hle' : ∀ z, (P z).localError = le) {dir : ℝ}
    (hs : Smooth (fun z => linPart (P z) dir) fun z => nonPart (P z) dir) {A : Fin n → ℂ} (hA : A ≠ 0) {dz0 : ℝ} (hdz0 : 0 < dz0) {L : ℝ} (hL : 0 < L)
    {Y : ℝ → Fin n → ℂ} {a b : ℝ} (ha : a < 0) (hb : L < b) (hY0 : Y 0 = A)
    (hY : ∀ z ∈ Ioo a b, HasDerivAt Y (applySpec (linPart (P z) dir) (Y z) + nonPart (P z) dir (Y z)) z) :
    ∃ (N0 : ℕ) (C : ℝ), 1 ≤ N0 ∧ ∀ N, N0 ≤ N → ∀ S : ℕ → Field n, (S 0).A = A → (S 0).dz = dz0 →
      (∀ i < N, integrate (P (i * (L / N))) (L / N) dir (S i) = some (S (i + 1))) → ∀ i ≤ N, ‖(S i).A - Y (i * (L / N))‖ ≤ C / N := by
  set d : ℝ → Fin n → ℂ := fun z => linPart (P z) dir with hd
  set g : ℝ → (Fin n → ℂ) → Fin n → ℂ := fun z => nonPart (P z) dir with hg
  obtain ⟨c, R, hc, hcR⟩ := family_lower (f := fun z B => applySpec (d z) B + g z B) (hs.rhs.of_le (by exact_mod_cast le_top))
    (fun z => by funext j; simp [hg, nonPart, applySpec_zero_right]) ha hb hL.le hY (by rw [hY0]; exact hA)
  obtain ⟨C1, h0, hC1, h0pos, h0le, cons⟩ := hs.consistent ha hb hY
  have hR0 : 0 ≤ R := (norm_nonneg _).trans (hcR 0 ⟨le_refl 0, hL.le⟩).2
  set Q := max R L with hQ
  have hφ : ContDiff ℝ ∞ fun q : ℝ × (ℝ × (Fin n → ℂ)) => ((q.2.1 + 2 * q.1, Ssfm.extra (d q.2.1) (g q.2.1) q.1 q.2.2) : ℝ × (Fin n → ℂ)) :=
    ((contDiff_fst.comp contDiff_snd).add (contDiff_const.mul contDiff_fst)).prodMk
      (hs.extra (contDiff_fst.comp contDiff_snd) contDiff_fst (contDiff_snd.comp contDiff_snd))
  obtain ⟨K, hK, stab⟩ := OneStep.stable hφ (fun q => by simp [extra_zero]) (Q + 1)
  obtain ⟨h1, h1pos, h1le, hsmall, hconv⟩ := OneStep.converges
    (Ψ := fun h (q : ℝ × (Fin n → ℂ)) => ((q.1 + 2 * h, Ssfm.extra (d q.1) (g q.1) h q.2) : ℝ × (Fin n → ℂ))) (Y := fun t => (t, Y t)) (m := 0) (R := Q)
    hL.le hC1 hK h0pos (fun z hz h hh _ => by
      rw [Prod.mk_sub_mk, sub_self, Prod.norm_mk, norm_zero, max_eq_right (norm_nonneg _)]
      exact cons z hz h hh) (fun h hh => stab h ⟨hh.1, hh.2.trans h0le⟩) (fun z hz => by
      rw [Prod.norm_mk, Real.norm_eq_abs, abs_of_nonneg hz.1]
      exact max_le (hz.2.trans (le_max_right _ _)) ((hcR z hz).2.trans (le_max_left _ _)))
  obtain ⟨h2, h2pos, hest⟩ := hs.estimate_small (c := c / 2) (R := Q + 1) (by positivity) hle
  set D := C1 * L * Real.exp (K * L) with hD
  have hD0 : 0 ≤ D := by positivity
  rw [zero_add] at hsmall
  set H := min (min h1 h2) (min dz0 (min 1 (c / (2 * (D + 1))))) with hH
  have hHpos : 0 < H := by positivity
  obtain ⟨N0, hN0⟩ := exists_nat_ge (L / 2 / H)
  refine ⟨max N0 1, D * (L / 2), le_max_right _ _, fun N hN S hS0 hSz hSi => ?_⟩
  have hN1 : 1 ≤ N := (le_max_right _ _).trans hN
  have hNr : (0 : ℝ) < N := by exact_mod_cast hN1
  set h := L / N / 2 with hh
  have hhpos : 0 < h := by positivity
  have hhH : h ≤ H := by
    have : L / 2 / H ≤ N := hN0.trans (by exact_mod_cast (le_max_left _ _).trans hN)
    rw [div_le_iff₀ hHpos] at this
    rw [hh, div_div, div_le_iff₀ (by positivity)]
    linarith
  have hh1 : h ≤ h1 := hhH.trans ((min_le_left _ _).trans (min_le_left _ _))
  have hh2 : h ≤ h2 := hhH.trans ((min_le_left _ _).trans (min_le_right _ _))
  have hh3 : h ≤ dz0 := hhH.trans ((min_le_right _ _).trans (min_le_left _ _))
  have hh5 : h ≤ c / (2 * (D + 1)) := hhH.trans ((min_le_right _ _).trans ((min_le_right _ _).trans (min_le_right _ _)))
  have hDc : D * h ≤ c / 2 := by
    rw [le_div_iff₀ (by positivity)] at hh5
    nlinarith
  have hD1 : D * h ≤ 1 := by
    rw [pow_one] at hsmall
    exact (mul_le_mul_of_nonneg_left hh1 hD0).trans hsmall
  have hNh : (N : ℝ) * (2 * h) = L := by rw [hh]; field_simp
  have h2h : 2 * h = L / N := by rw [hh]; ring
  have hzi : ∀ i ≤ N, (i : ℝ) * (L / N) ∈ Icc 0 L := by
    intro i hi
    refine ⟨by positivity, ?_⟩
    rw [← h2h, ← hNh]
    exact mul_le_mul_of_nonneg_right (by exact_mod_cast hi) (by positivity)
  have bound : ∀ i ≤ N, (∀ j < i, (S (j + 1)).A = Ssfm.extra (d (j * (L / N))) (g (j * (L / N))) h (S j).A) →
      ‖(S i).A - Y (i * (L / N))‖ ≤ D * h := by
    intro i hi hstep
    have hsum : ∑ _j ∈ Finset.range i, 2 * h = i * (L / N) := by rw [Finset.sum_const, Finset.card_range, nsmul_eq_mul, h2h]
    have := hconv h ⟨hhpos, hh1⟩ (fun _ => h) (fun j => ((j : ℝ) * (L / N), (S j).A)) i (by simp [hS0, hY0]) (fun _ _ => ⟨hhpos.le, le_refl h⟩)
      (fun j hj => by
        simp only
        rw [← hstep j hj, h2h]
        refine Prod.ext ?_ rfl
        push_cast
        ring) (by
      rw [hsum]
      exact (hzi i hi).2)
    rw [hsum, Prod.mk_sub_mk, sub_self, Prod.norm_mk, norm_zero, max_eq_right (norm_nonneg _), zero_add, pow_one] at this
    exact this
  have main : ∀ i ≤ N, (∀ j < i, (S (j + 1)).A = Ssfm.extra (d (j * (L / N))) (g (j * (L / N))) h (S j).A) ∧ L / N ≤ 2 * (S i).dz := by
    intro i
    induction i with
    | zero => exact fun _ => ⟨fun j hj => absurd hj (Nat.not_lt_zero j), by rw [hSz, ← h2h]; linarith⟩
    | succ i ih =>
      intro hi
      obtain ⟨hst, hdz⟩ := ih (by omega)
      have hb' := bound i (by omega) hst
      have hz := hzi i (by omega)
      obtain ⟨q1, q2⟩ := hcR _ hz
      have hlow : c / 2 ≤ ‖(S i).A‖ := by
        have := norm_sub_norm_le (Y (i * (L / N))) (S i).A
        rw [norm_sub_rev] at this
        linarith
      have hup : ‖(S i).A‖ ≤ Q + 1 := by
        have := norm_sub_norm_le (S i).A (Y (i * (L / N)))
        have := le_max_left R L
        linarith
      have hzQ : |(i : ℝ) * (L / N)| ≤ Q + 1 := by
        rw [abs_of_nonneg hz.1]
        have := le_max_right R L
        linarith [hz.2]
      obtain ⟨f', e, e1, e2⟩ := integrate_one (hp (i * (L / N))) (dir := dir) (δ := L / N) (f := S i) (by positivity) hdz (by
        rw [← hh, adv_eq (hm _), adv_eq (hm _), adv_eq (hm _), hle']
        exact hest h ⟨hhpos.le, hh2⟩ _ (S i).A hzQ hlow hup)
      rw [hSi i (by omega)] at e
      obtain rfl := Option.some.inj e
      refine ⟨fun j hj => ?_, e1⟩
      rcases Nat.lt_succ_iff_lt_or_eq.mp hj with hj' | rfl
      · exact hst j hj'
      · rw [e2, ← hh, richardson_adv (hm _) (he _)]
  intro i hi
  refine (bound i hi (main i hi).1).trans (le_of_eq ?_)
  rw [hh]
  field_simp

end PyNLO.Ssfm
