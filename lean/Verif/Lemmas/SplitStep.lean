import Verif.Lemmas.Extrapolate
import Verif.Lemmas.SsfmConverge

/-!
# Segments integrated with an arbitrary smooth step; the split step
-/

namespace PyNLO.Ssfm

open Complex RK Filter Asymptotics Set
open scoped Topology ContDiff

variable {n : ℕ}

/-- small steps from fields of moderate size have a small error estimate -/
theorem estimate_small_step {φ : ℝ × (Fin n → ℂ) → Fin n → ℂ} (hφ : ContDiff ℝ 1 φ) (h0 : ∀ A, φ (0, A) = A) {c R ε : ℝ} (hc : 0 < c)
    (hε : 0 < ε) : ∃ h2 > 0, ∀ h ∈ Icc 0 h2, ∀ A, c ≤ ‖A‖ → ‖A‖ ≤ R → localErr (φ (h, φ (h, A))) (φ (2 * h, A)) < ε := by
  obtain ⟨K1, hK1, h1⟩ := near_id (OneStep.fine_contDiff hφ) (fun A => by simp [h0]) R
  obtain ⟨K2, hK2, h2⟩ := near_id (OneStep.coarse_contDiff hφ) (fun A => by simp [h0]) R
  set D := 1 + 2 * K1 / c + 4 * (n * (K1 + K2)) / (c * ε) with hD
  have hDpos : 0 < D := by positivity
  refine ⟨min 1 (1 / D), by positivity, fun h hh A hcA hAR => ?_⟩
  have hh1 : h ∈ Icc (0 : ℝ) 1 := ⟨hh.1, hh.2.trans (min_le_left _ _)⟩
  have hhD : h * D ≤ 1 := by
    have := hh.2.trans (min_le_right _ _)
    rwa [le_div_iff₀ hDpos] at this
  have hA : A ∈ Metric.closedBall (0 : Fin n → ℂ) R := by rwa [mem_closedBall_zero_iff]
  have e1 := h1 h hh1 A hA
  have e2 := h2 h hh1 A hA
  simp only at e1 e2
  set Af := φ (h, φ (h, A))
  set Ac := φ (2 * h, A)
  have h3 : h * (2 * K1 / c) ≤ 1 := by
    refine le_trans (mul_le_mul_of_nonneg_left ?_ hh.1) hhD
    rw [hD]
    have : 0 ≤ 4 * (n * (K1 + K2)) / (c * ε) := by positivity
    linarith
  have h4 : h * (4 * (n * (K1 + K2)) / (c * ε)) ≤ 1 := by
    refine le_trans (mul_le_mul_of_nonneg_left ?_ hh.1) hhD
    rw [hD]
    have : 0 ≤ 2 * K1 / c := by positivity
    linarith
  have h5 : K1 * h ≤ c / 2 := by
    have : h * (2 * K1 / c) * (c / 2) ≤ 1 * (c / 2) := mul_le_mul_of_nonneg_right h3 (by positivity)
    calc K1 * h = h * (2 * K1 / c) * (c / 2) := by field_simp
      _ ≤ c / 2 := by linarith
  have h6 : n * ((K1 + K2) * h) ≤ ε * c / 4 := by
    have : h * (4 * (n * (K1 + K2)) / (c * ε)) * (c * ε / 4) ≤ 1 * (c * ε / 4) := mul_le_mul_of_nonneg_right h4 (by positivity)
    calc n * ((K1 + K2) * h) = h * (4 * (n * (K1 + K2)) / (c * ε)) * (c * ε / 4) := by field_simp
      _ ≤ ε * c / 4 := by linarith
  have hAf : c / 2 ≤ norm2 Af := by
    refine le_trans ?_ (norm_le_norm2 Af)
    have := norm_sub_norm_le A Af
    rw [norm_sub_rev] at this
    linarith
  have hdiff : norm2 (fun j => Af j - Ac j) ≤ ε * c / 4 := by
    refine (norm2_le _).trans (le_trans (mul_le_mul_of_nonneg_left ?_ (Nat.cast_nonneg n)) h6)
    have e : (fun j => Af j - Ac j) = (Af - A) - (Ac - A) := by funext j; simp
    rw [e]
    exact (norm_sub_le _ _).trans (by linarith)
  unfold localErr
  rw [if_pos (by intro h0; rw [h0] at hAf; linarith)]
  rw [div_lt_iff₀ (by linarith)]
  calc norm2 (fun j => Af j - Ac j) ≤ ε * c / 4 := hdiff
    _ < ε * (c / 2) := by nlinarith
    _ ≤ ε * norm2 Af := mul_le_mul_of_nonneg_left hAf hε.le

/-- The segments of a propagation converge to `Y` with the order of consistency of the extrapolated step. -/
theorem segments_step {p : Params n} (hp : p.Ok) (hle : 0 < p.localError) {dir : ℝ} {φ : ℝ × (Fin n → ℂ) → Fin n → ℂ} (hφ : ContDiff ℝ ∞ φ)
    (h0 : ∀ A, φ (0, A) = A) (hadv : ∀ h A, Spec.adv p dir h A = φ (h, A)) {α β : ℝ} (hαβ : α - β = 1)
    (hr : ∀ x y : Fin n → ℂ, richardson p.eta x y = α • x - β • y)
    {A : Fin n → ℂ} {dz0 : ℝ} (hdz0 : 0 < dz0) {L : ℝ} (hL : 0 < L) {Y : ℝ → Fin n → ℂ} (hY0 : Y 0 = A) {m : ℕ}
    (hcons : ∃ C h0, 0 ≤ C ∧ 0 < h0 ∧ h0 ≤ 1 ∧ ∀ z ∈ Icc 0 L, ∀ h ∈ Icc 0 h0,
      ‖OneStep.double φ α β h (Y z) - Y (z + 2 * h)‖ ≤ C * h ^ (m + 2))
    {c R : ℝ} (hc : 0 < c) (hcR : ∀ z ∈ Icc 0 L, c ≤ ‖Y z‖ ∧ ‖Y z‖ ≤ R) :
    ∃ (N0 : ℕ) (C : ℝ), 1 ≤ N0 ∧ ∀ N, N0 ≤ N → ∀ S : ℕ → Field n, (S 0).A = A → (S 0).dz = dz0 →
      (∀ i < N, integrate p (L / N) dir (S i) = some (S (i + 1))) → ∀ i ≤ N, ‖(S i).A - Y (i * (L / N))‖ ≤ C / N ^ (m + 1) := by
  obtain ⟨C1, h00, hC1, h0pos, h0le, cons⟩ := hcons
  obtain ⟨K, hK, stab⟩ := OneStep.stable (OneStep.double_contDiff hφ α β) (fun B => OneStep.double_zero h0 hαβ B) (R + 1)
  obtain ⟨h1, h1pos, h1le, hsmall, hconv⟩ := OneStep.converges (Ψ := fun h B => OneStep.double φ α β h B) (Y := Y) (m := m)
    hL.le hC1 hK h0pos (fun z hz h hh _ => cons z hz h hh) (fun h hh => stab h ⟨hh.1, hh.2.trans h0le⟩) (fun z hz => (hcR z hz).2)
  obtain ⟨h2, h2pos, hest⟩ := estimate_small_step (hφ.of_le (by exact_mod_cast le_top)) h0 (c := c / 2) (R := R + 1) (by positivity) hle
  set D := C1 * L * Real.exp (K * L) with hD
  have hD0 : 0 ≤ D := by positivity
  set H := min (min h1 h2) (min dz0 (min 1 (c / (2 * (D + 1))))) with hH
  have hHpos : 0 < H := by positivity
  obtain ⟨N0, hN0⟩ := exists_nat_ge (L / 2 / H)
  refine ⟨max N0 1, D * (L / 2) ^ (m + 1), le_max_right _ _, fun N hN S hS0 hSz hSi => ?_⟩
  have hN1 : 1 ≤ N := (le_max_right _ _).trans hN
  have hNr : (0 : ℝ) < N := by exact_mod_cast hN1
  set h := L / N / 2 with hh
  have hhpos : 0 < h := by positivity
  have hhH : h ≤ H := by
    have : L / 2 / H ≤ N := hN0.trans (by exact_mod_cast (le_max_left _ _).trans hN)
    rw [div_le_iff₀ hHpos] at this
    rw [hh, div_div, div_le_iff₀ (by positivity)]
    linarith
  have hh1 : h ≤ h1 := hhH.trans ((min_le_left _ _).trans (min_le_left _ _))
  have hh2 : h ≤ h2 := hhH.trans ((min_le_left _ _).trans (min_le_right _ _))
  have hh3 : h ≤ dz0 := hhH.trans ((min_le_right _ _).trans (min_le_left _ _))
  have hh4 : h ≤ 1 := hhH.trans ((min_le_right _ _).trans ((min_le_right _ _).trans (min_le_left _ _)))
  have hh5 : h ≤ c / (2 * (D + 1)) := hhH.trans ((min_le_right _ _).trans ((min_le_right _ _).trans (min_le_right _ _)))
  have hDc : D * h ^ (m + 1) ≤ c / 2 := by
    have e : h ^ (m + 1) ≤ h := pow_le_of_le_one hhpos.le hh4 (by omega)
    rw [le_div_iff₀ (by positivity)] at hh5
    nlinarith
  have hD1 : D * h ^ (m + 1) ≤ 1 := (mul_le_mul_of_nonneg_left (pow_le_pow_left₀ hhpos.le hh1 (m + 1)) hD0).trans hsmall
  have hNh : (N : ℝ) * (2 * h) = L := by rw [hh]; field_simp
  have h2h : 2 * h = L / N := by rw [hh]; ring
  have bound : ∀ i ≤ N, (∀ j < i, (S (j + 1)).A = OneStep.double φ α β h (S j).A) → ‖(S i).A - Y (i * (L / N))‖ ≤ D * h ^ (m + 1) := by
    intro i hi hstep
    have hsum : ∑ _j ∈ Finset.range i, 2 * h = i * (L / N) := by rw [Finset.sum_const, Finset.card_range, nsmul_eq_mul, h2h]
    have := hconv h ⟨hhpos, hh1⟩ (fun _ => h) (fun j => (S j).A) i (hS0.trans hY0.symm) (fun _ _ => ⟨hhpos.le, le_refl h⟩) hstep (by
      rw [hsum, ← h2h, ← hNh]
      exact mul_le_mul_of_nonneg_right (by exact_mod_cast hi) (by positivity))
    rwa [hsum] at this
  have main : ∀ i ≤ N, (∀ j < i, (S (j + 1)).A = OneStep.double φ α β h (S j).A) ∧ L / N ≤ 2 * (S i).dz := by
    intro i
    induction i with
    | zero => exact fun _ => ⟨fun j hj => absurd hj (Nat.not_lt_zero j), by rw [hSz, ← h2h]; linarith⟩
    | succ i ih =>
      intro hi
      obtain ⟨hst, hdz⟩ := ih (by omega)
      have hb' := bound i (by omega) hst
      have hz : (i : ℝ) * (L / N) ∈ Icc 0 L := by
        refine ⟨by positivity, ?_⟩
        rw [← h2h, ← hNh]
        exact mul_le_mul_of_nonneg_right (by exact_mod_cast (by omega : i ≤ N)) (by positivity)
      obtain ⟨q1, q2⟩ := hcR _ hz
      have hlow : c / 2 ≤ ‖(S i).A‖ := by
        have := norm_sub_norm_le (Y (i * (L / N))) (S i).A
        rw [norm_sub_rev] at this
        linarith
      have hup : ‖(S i).A‖ ≤ R + 1 := by
        have := norm_sub_norm_le (S i).A (Y (i * (L / N)))
        linarith
      obtain ⟨f', e, e1, e2⟩ := integrate_one hp (dir := dir) (δ := L / N) (f := S i) (by positivity) hdz (by
        rw [← hh, hadv, hadv, hadv]
        exact hest h ⟨hhpos.le, hh2⟩ (S i).A hlow hup)
      rw [hSi i (by omega)] at e
      obtain rfl := Option.some.inj e
      refine ⟨fun j hj => ?_, e1⟩
      rcases Nat.lt_succ_iff_lt_or_eq.mp hj with hj' | rfl
      · exact hst j hj'
      · rw [e2, ← hh, hr, hadv, hadv, hadv]
        rfl
  intro i hi
  refine (bound i hi (main i hi).1).trans (le_of_eq ?_)
  rw [hh, div_pow, div_pow, div_pow]
  field_simp

/-- weights of the extrapolation -/
theorem richardson_weights {eta : ℝ} (h1 : eta ≠ 1) : ∃ a b : ℝ, a - b = 1 ∧ (eta = 2 → a = 2) ∧
    ∀ x y : Fin n → ℂ, richardson eta x y = a • x - b • y := by
  unfold richardson
  split_ifs with h3 h5
  · refine ⟨4 / 3, 1 / 3, by norm_num, fun h => by rw [h] at h3; norm_num at h3, fun x y => ?_⟩
    funext j
    simp only [Pi.sub_apply, Pi.smul_apply, real_smul]
    push_cast
    rfl
  · refine ⟨16 / 15, 1 / 15, by norm_num, fun h => by rw [h] at h5; norm_num at h5, fun x y => ?_⟩
    funext j
    simp only [Pi.sub_apply, Pi.smul_apply, real_smul]
    push_cast
    rfl
  · have hne : (2 : ℝ) ^ (eta - 1) - 1 ≠ 0 := by
      intro h
      have h2 : (2 : ℝ) ^ (eta - 1) = 1 := by linarith
      have h4 := congrArg Real.log h2
      rw [Real.log_rpow (by norm_num), Real.log_one] at h4
      rcases mul_eq_zero.1 h4 with h4 | h4
      · exact h1 (by linarith)
      · linarith [Real.log_pos (by norm_num : (1 : ℝ) < 2)]
    refine ⟨(2 : ℝ) ^ (eta - 1) / ((2 : ℝ) ^ (eta - 1) - 1), 1 / ((2 : ℝ) ^ (eta - 1) - 1), by rw [← sub_div, div_self hne], fun h => ?_, fun x y => ?_⟩
    swap
    · funext j
      simp only [Pi.sub_apply, Pi.smul_apply, real_smul]
    rw [h]
    norm_num

/-! ## RK4IP with any extrapolation -/

/-- Uniform consistency along a solution, for any weights. -/
theorem double_ip_consistent {d : Fin n → ℂ} {g : (Fin n → ℂ) → Fin n → ℂ} (hg : ContDiff ℝ ω g) {Y : ℝ → Fin n → ℂ} {a b L α β : ℝ}
    (hαβ : α - β = 1) (ha : a < 0) (hb : L < b) (hY : ∀ z ∈ Ioo a b, HasDerivAt Y (applySpec d (Y z) + g (Y z)) z) :
    ∃ C h0, 0 ≤ C ∧ 0 < h0 ∧ h0 ≤ 1 ∧ ∀ z ∈ Icc 0 L, ∀ h ∈ Icc 0 h0,
      ‖OneStep.double (fun q : ℝ × (Fin n → ℂ) => ipStep d g q.1 q.2) α β h (Y z) - Y (z + 2 * h)‖ ≤ C * h ^ 5 := by
  have hgi : ContDiff ℝ ∞ g := hg.of_le (by exact_mod_cast le_top)
  have hφ : ContDiff ℝ ∞ fun q : ℝ × (Fin n → ℂ) => ipStep d g q.1 q.2 := ipStep_contDiff d hgi contDiff_fst contDiff_snd
  have hf : ContDiff ℝ ∞ fun B => applySpec d B + g B :=
    (contDiff_iff_contDiffAt.2 fun _ => applySpec_contDiffAt contDiffAt_const contDiffAt_id).add hgi
  have hYs := OneStep.solution_contDiffOn hf hY
  set U : Set (ℝ × ℝ) := {q | q.1 ∈ Ioo a b ∧ q.1 + 2 * q.2 ∈ Ioo a b} with hUdef
  have hUo : IsOpen U := by
    have h1 : IsOpen {q : ℝ × ℝ | q.1 ∈ Ioo a b} := isOpen_Ioo.preimage continuous_fst
    have h2 : IsOpen {q : ℝ × ℝ | q.1 + 2 * q.2 ∈ Ioo a b} := isOpen_Ioo.preimage (continuous_fst.add (continuous_const.mul continuous_snd))
    exact h1.inter h2
  have he : ContDiffOn ℝ ∞ (fun q : ℝ × ℝ => OneStep.double (fun q : ℝ × (Fin n → ℂ) => ipStep d g q.1 q.2) α β q.2 (Y q.1) - Y (q.1 + 2 * q.2)) U := by
    refine ContDiffOn.sub ?_ ?_
    · have h1 : ContDiffOn ℝ ∞ (fun q : ℝ × ℝ => (q.2, Y q.1)) U := by
        refine contDiff_snd.contDiffOn.prodMk ?_
        exact hYs.comp contDiff_fst.contDiffOn fun q hq => hq.1
      exact ContDiff.comp_contDiffOn (g := fun q : ℝ × (Fin n → ℂ) => OneStep.double (fun q : ℝ × (Fin n → ℂ) => ipStep d g q.1 q.2) α β q.1 q.2)
        (f := fun q : ℝ × ℝ => (q.2, Y q.1)) (OneStep.double_contDiff hφ α β) h1
    · exact hYs.comp (contDiff_fst.add (contDiff_const.mul contDiff_snd)).contDiffOn fun q hq => hq.2
  have h0pos : 0 < min ((b - L) / 4) 1 := lt_min (by linarith) one_pos
  have hsub : Icc 0 L ×ˢ Icc 0 (min ((b - L) / 4) 1) ⊆ U := by
    rintro ⟨z, h⟩ ⟨hz, hh⟩
    have h1 : h ≤ (b - L) / 4 := hh.2.trans (min_le_left _ _)
    have h2 : 0 ≤ h := hh.1
    have hz1 : 0 ≤ z := hz.1
    have hz2 : z ≤ L := hz.2
    refine ⟨⟨by linarith, by linarith⟩, ⟨?_, ?_⟩⟩
    · show a < z + 2 * h
      linarith
    · show z + 2 * h < b
      linarith
  obtain ⟨C, hC, hb'⟩ := OneStep.uniform_of_pointwise hUo he isCompact_Icc h0pos hsub (m := 4) (by
    intro z hz
    have hzI : z ∈ Ioo a b := ⟨by linarith [hz.1], by linarith [hz.2]⟩
    have hYz : ∀ᶠ t in 𝓝 (0 : ℝ), HasDerivAt (fun t => Y (z + t)) (applySpec d (Y (z + t)) + g (Y (z + t))) t := by
      have hc : Tendsto (fun t : ℝ => z + t) (𝓝 0) (𝓝 z) := by
        have hcz : Continuous fun t : ℝ => z + t := by fun_prop
        have := hcz.tendsto 0
        rwa [add_zero] at this
      filter_upwards [hc.eventually (isOpen_Ioo.mem_nhds hzI)] with t ht
      exact (hY (z + t) ht).comp_const_add z t
    obtain ⟨h1, h2, -⟩ := ipStep_orders (hg.contDiffAt (x := Y z)) (Y := fun t => Y (z + t)) (by simp) hYz
    have ht : Tendsto (fun x : ℝ => 2 * x) (𝓝[>] 0) (𝓝 0) := by
      have : Tendsto (fun x : ℝ => 2 * x) (𝓝 0) (𝓝 (2 * 0)) := (continuous_const.mul continuous_id).tendsto 0
      rw [mul_zero] at this
      exact this.mono_left nhdsWithin_le_nhds
    have h3 := ((h2.const_smul_left α).sub (h1.const_smul_left β)).comp_tendsto ht
    refine (h3.trans (IsBigO.of_bound 32 (Eventually.of_forall fun x => ?_))).congr_left fun x => ?_
    · simp only [Function.comp]
      rw [mul_pow, norm_mul]
      norm_num
    · simp only [Function.comp, OneStep.double, Pi.smul_apply]
      rw [show 2 * x / 2 = x by ring]
      have : α = 1 + β := by linarith
      rw [this]
      module)
  exact ⟨C, _, hC, h0pos, min_le_right _ _, hb'⟩

/-- The segments of a propagation with RK4IP and any extrapolation converge to the solution with fourth order. -/
theorem ip_converge {p : Params n} (hp : p.Ok) (hm : p.method = .rk4ip) (hs : p.disableSS = true) (h1 : p.eta ≠ 1) (hle : 0 < p.localError) {dir : ℝ}
    {A : Fin n → ℂ} (hA : A ≠ 0) {dz0 : ℝ} (hdz0 : 0 < dz0) {L : ℝ} (hL : 0 < L) {Y : ℝ → Fin n → ℂ} {a b : ℝ}
    (ha : a < 0) (hb : L < b) (hY0 : Y 0 = A)
    (hY : ∀ z ∈ Ioo a b, HasDerivAt Y (applySpec (linPart p dir) (Y z) + nonPart p dir (Y z)) z) :
    ∃ (N0 : ℕ) (C : ℝ), 1 ≤ N0 ∧ ∀ N, N0 ≤ N → ∀ S : ℕ → Field n, (S 0).A = A → (S 0).dz = dz0 →
      (∀ i < N, integrate p (L / N) dir (S i) = some (S (i + 1))) → ∀ i ≤ N, ‖(S i).A - Y (i * (L / N))‖ ≤ C / N ^ 4 := by
  obtain ⟨c, R, hc, hcR⟩ := solution_lower (f := fun B => applySpec (linPart p dir) B + nonPart p dir B)
    ((contDiff_iff_contDiffAt.2 fun _ => applySpec_contDiffAt contDiffAt_const contDiffAt_id).add (nonPart_contDiff hs dir))
    (by funext j; simp [nonPart, applySpec_zero_right]) ha hb hL.le hY (by rw [hY0]; exact hA)
  obtain ⟨x, y, hxy, -, hr⟩ := richardson_weights (n := n) h1
  have hφ : ContDiff ℝ ∞ fun q : ℝ × (Fin n → ℂ) => ipStep (linPart p dir) (nonPart p dir) q.1 q.2 :=
    ipStep_contDiff _ (nonPart_contDiff hs dir) contDiff_fst contDiff_snd
  exact segments_step hp hle hφ (fun A => ipStep_zero _ _ A) (fun h A => adv_eq hm dir h A) hxy hr hdz0 hL hY0 (m := 3)
    (double_ip_consistent (nonPart_contDiff hs dir) hxy ha hb hY) hc hcR

/-! ## the split step -/

/-- the split step: dispersion over `h/2`, then the nonlinear phase over `h` -/
noncomputable def splitStep (p : Params n) (q : ℝ × (Fin n → ℂ)) : Fin n → ℂ :=
  kick p (prop (linPart p 1) (q.1 / 2) q.2) q.1 1

theorem adv_split {p : Params n} (hm : p.method = .ssfm) (h : ℝ) (A : Fin n → ℂ) : Spec.adv p 1 h A = splitStep p (h, A) := by
  unfold Spec.adv splitStep
  rw [hm]
  simp only [if_true]
  congr 1
  rw [prop_apply]
  congr 1
  funext k
  unfold Spec.halfStep linPart
  congr 1
  push_cast
  ring

theorem splitStep_zero (p : Params n) (A : Fin n → ℂ) : splitStep p (0, A) = A := by
  unfold splitStep kick
  funext j
  simp [prop_zero]

theorem splitStep_eq {p : Params n} (hs : p.disableSS = true) (q : ℝ × (Fin n → ℂ)) : splitStep p q = fun j =>
    exp ((q.1 : ℂ) * (1 * I * p.gamma * applySpec p.R (absSq (prop (linPart p 1) (q.1 / 2) q.2)) j)) * prop (linPart p 1) (q.1 / 2) q.2 j := by
  funext j
  unfold splitStep kick
  rw [nonlinear_eq, if_pos hs, mul_one]

theorem splitStep_contDiff {p : Params n} (hs : p.disableSS = true) {m : WithTop ℕ∞} : ContDiff ℝ m (splitStep p) := by
  have hB : ContDiff ℝ m fun q : ℝ × (Fin n → ℂ) => prop (linPart p 1) (q.1 / 2) q.2 := prop_contDiff _ (contDiff_fst.div_const 2) contDiff_snd
  have hI : ContDiff ℝ m fun q : ℝ × (Fin n → ℂ) => applySpec p.R (absSq (prop (linPart p 1) (q.1 / 2) q.2)) :=
    contDiff_iff_contDiffAt.2 fun _ => applySpec_contDiffAt contDiffAt_const (absSq_contDiff.comp hB).contDiffAt
  rw [show splitStep p = _ from funext (splitStep_eq hs), contDiff_pi]
  intro j
  rw [contDiff_pi] at hB hI
  have hr : ContDiff ℝ m fun q : ℝ × (Fin n → ℂ) => (q.1 : ℂ) := ofRealCLM.contDiff.comp contDiff_fst
  exact ((hr.mul (contDiff_const.mul (hI j))).cexp).mul (hB j)

/-- the split step follows the equation with half of the linear part -/
theorem splitStep_field {p : Params n} (hs : p.disableSS = true) (A : Fin n → ℂ) :
    OneStep.field (splitStep p) A = applySpec (fun k => linPart p 1 k / 2) A + nonPart p 1 A := by
  have hd := OneStep.deriv_fst (splitStep_contDiff hs) A 0
  refine hd.unique ?_
  rw [hasDerivAt_pi]
  intro j
  have hx : HasDerivAt (fun h : ℝ => h / 2) (1 / 2) (0 : ℝ) := (hasDerivAt_id (0 : ℝ)).div_const 2
  have hB : HasDerivAt (fun h : ℝ => prop (linPart p 1) (h / 2) A) ((1 / 2 : ℝ) • applySpec (linPart p 1) A) 0 := by
    refine (prop_hasDerivAt (linPart p 1) hx (hasDerivAt_const (0 : ℝ) A)).congr_deriv ?_
    rw [zero_div, prop_zero, add_zero]
  have hBj := (hasDerivAt_pi.1 hB) j
  have hIs : ContDiff ℝ 1 fun h : ℝ => applySpec p.R (absSq (prop (linPart p 1) (h / 2) A)) :=
    contDiff_iff_contDiffAt.2 fun _ => applySpec_contDiffAt contDiffAt_const
      (absSq_contDiff.comp (prop_contDiff (linPart p 1) (contDiff_id.div_const 2) contDiff_const)).contDiffAt
  rw [contDiff_pi] at hIs
  have hIj : HasDerivAt (fun h : ℝ => applySpec p.R (absSq (prop (linPart p 1) (h / 2) A)) j) _ 0 :=
    ((hIs j).differentiable (by simp) 0).hasDerivAt
  have hr : HasDerivAt (fun h : ℝ => (h : ℂ)) 1 (0 : ℝ) := ofRealCLM.hasDerivAt
  have hE := (hr.mul (hIj.const_mul (1 * I * p.gamma))).cexp
  have e : (fun h : ℝ => splitStep p (h, A) j) = fun h : ℝ => exp ((h : ℂ) * (1 * I * p.gamma * applySpec p.R (absSq (prop (linPart p 1) (h / 2) A)) j)) *
      prop (linPart p 1) (h / 2) A j := funext fun h => congrFun (splitStep_eq hs (h, A)) j
  rw [e]
  refine (hE.mul hBj).congr_deriv ?_
  have hl : applySpec (fun k => linPart p 1 k / 2) A j = (1 / 2 : ℂ) * applySpec (linPart p 1) A j := by
    simp only [applySpec, fft, Finset.mul_sum]
    exact Finset.sum_congr rfl fun k _ => by ring
  simp only [Pi.add_apply, Pi.mul_apply, hl, nonPart, nonlinear_eq, if_pos hs, Pi.smul_apply, real_smul, ofReal_zero, zero_mul, zero_div, prop_zero, exp_zero]
  push_cast
  ring

/-- The segments of a propagation with split steps converge to the solution of the equation with half of the linear part. -/
theorem split_converge {p : Params n} (hp : p.Ok) (hm : p.method = .ssfm) (hs : p.disableSS = true) (h1 : p.eta ≠ 1) (hle : 0 < p.localError)
    {A : Fin n → ℂ} (hA : A ≠ 0) {dz0 : ℝ} (hdz0 : 0 < dz0) {L : ℝ} (hL : 0 < L) {Y : ℝ → Fin n → ℂ} {a b : ℝ}
    (ha : a < 0) (hb : L < b) (hY0 : Y 0 = A)
    (hY : ∀ z ∈ Ioo a b, HasDerivAt Y (applySpec (fun k => linPart p 1 k / 2) (Y z) + nonPart p 1 (Y z)) z)
    (m : ℕ) (hmo : m = 1 ∨ m = 2 ∧ p.eta = 2) :
    ∃ (N0 : ℕ) (C : ℝ), 1 ≤ N0 ∧ ∀ N, N0 ≤ N → ∀ S : ℕ → Field n, (S 0).A = A → (S 0).dz = dz0 →
      (∀ i < N, integrate p (L / N) 1 (S i) = some (S (i + 1))) → ∀ i ≤ N, ‖(S i).A - Y (i * (L / N))‖ ≤ C / N ^ m := by
  obtain ⟨c, R, hc, hcR⟩ := solution_lower (f := fun B => applySpec (fun k => linPart p 1 k / 2) B + nonPart p 1 B)
    ((contDiff_iff_contDiffAt.2 fun _ => applySpec_contDiffAt contDiffAt_const contDiffAt_id).add (nonPart_contDiff hs 1))
    (by funext j; simp [nonPart, applySpec_zero_right]) ha hb hL.le hY (by rw [hY0]; exact hA)
  obtain ⟨x, y, hxy, hx2, hr⟩ := richardson_weights (n := n) h1
  have hcons := OneStep.double_consistent (splitStep_contDiff hs) (splitStep_zero p) hxy ha hb
    (fun z hz => by rw [splitStep_field hs]; exact hY z hz) m (by
      rcases hmo with h | ⟨h, h'⟩
      · exact Or.inl h
      · exact Or.inr ⟨h, hx2 h'⟩)
  obtain ⟨k, rfl⟩ : ∃ k, m = k + 1 := ⟨m - 1, by omega⟩
  exact segments_step hp hle (splitStep_contDiff hs) (splitStep_zero p) (fun h A => adv_split hm h A) hxy hr hdz0 hL hY0 hcons hc hcR

end PyNLO.Ssfm
