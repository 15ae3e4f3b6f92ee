import Verif.Lemmas.Aliasing
import Mathlib.Analysis.Calculus.ContDiff.Basic
import Mathlib.Analysis.Calculus.FDeriv.Comp

/-! # Stability of the equation on the grid, and uniform bounds on smooth periodic fields -/

namespace PyNLO.Nlse

open Complex Set OdeGlobal
open scoped Topology

variable {n : ℕ}

theorem abs_rate_le (A B : Fin n → ℂ) {c : ℝ} (hc : 0 < c) : |rate A B| ≤ c * en A + en B / c := by
  unfold rate en
  rw [Finset.mul_sum, Finset.sum_div, ← Finset.sum_add_distrib]
  refine (Finset.abs_sum_le_sum_abs _ _).trans (Finset.sum_le_sum fun j _ => ?_)
  have h1 := abs_real_inner_le_norm (A j) (B j)
  rw [abs_mul, abs_two]
  have h2 : 2 * (‖A j‖ * ‖B j‖) ≤ c * ‖A j‖ ^ 2 + ‖B j‖ ^ 2 / c := by
    have h3 : 0 ≤ (c * ‖A j‖ - ‖B j‖) ^ 2 / c := by positivity
    have h4 : (c * ‖A j‖ - ‖B j‖) ^ 2 / c = c * ‖A j‖ ^ 2 + ‖B j‖ ^ 2 / c - 2 * (‖A j‖ * ‖B j‖) := by
      field_simp
      ring
    linarith
  linarith

theorem rate_add (A B C : Fin n → ℂ) : rate A (B + C) = rate A B + rate A C := by
  unfold rate
  rw [← Finset.sum_add_distrib]
  refine Finset.sum_congr rfl fun j _ => ?_
  rw [Pi.add_apply, inner_add_right]
  ring

theorem sq_le_en (A : Fin n → ℂ) (j : Fin n) : ‖A j‖ ^ 2 ≤ en A :=
  Finset.single_le_sum (f := fun j => ‖A j‖ ^ 2) (fun _ _ => sq_nonneg _) (Finset.mem_univ j)

/-- a pointwise bound -/
theorem abs_rate_le_of (A B : Fin n → ℂ) {c : ℝ} (h : ∀ j, ‖B j‖ ≤ c * ‖A j‖) : |rate A B| ≤ 2 * c * en A := by
  unfold rate en
  rw [Finset.mul_sum]
  refine (Finset.abs_sum_le_sum_abs _ _).trans (Finset.sum_le_sum fun j _ => ?_)
  have h1 := abs_real_inner_le_norm (A j) (B j)
  rw [abs_mul, abs_two]
  have h2 := mul_le_mul_of_nonneg_left (h j) (norm_nonneg (A j))
  nlinarith

/-- response of the grid to a quantity -/
noncomputable def respond (R x : Fin n → ℂ) : Fin n → ℂ := Gnlse.toTime fun k => R k * Gnlse.toFreq x k

theorem respond_eq (R x : Fin n → ℂ) : respond R x = Ssfm.applySpec (fftshift R) x := toTime_mul R x

theorem respond_sub (R x y : Fin n → ℂ) : respond R (x - y) = respond R x - respond R y := by
  rw [respond_eq, respond_eq, respond_eq]
  exact map_sub (Ssfm.specL (fftshift R)) x y

/-- the response is bounded by `K`, for the largest value and for the energy -/
structure Bounded (R : Fin n → ℂ) (K : ℝ) : Prop where
  pos : 0 < K
  sup : ∀ (x : Fin n → ℂ) (M : ℝ), (∀ j, ‖x j‖ ≤ M) → ∀ j, ‖respond R x j‖ ≤ K * M
  sq : ∀ x : Fin n → ℂ, en (respond R x) ≤ K ^ 2 * en x

theorem bounded_one : Bounded (fun _ : Fin n => (1 : ℂ)) 1 := by
  have h : ∀ x : Fin n → ℂ, respond (fun _ => 1) x = x := by
    intro x
    unfold respond
    simp only [one_mul]
    exact toTime_toFreq x
  refine ⟨one_pos, fun x M hM j => ?_, fun x => ?_⟩
  · rw [h, one_mul]; exact hM j
  · rw [h]; simp

/-- power of a field -/
def power (U : Fin n → ℂ) : Fin n → ℂ := fun i => U i * (starRingEnd ℂ) (U i)

theorem power_eq (U : Fin n → ℂ) (i : Fin n) : power U i = ((‖U i‖ ^ 2 : ℝ) : ℂ) := by
  unfold power
  rw [mul_conj, normSq_eq_norm_sq]

theorem rhs_split (β : Fin n → ℝ) (g : ℝ) (R : Fin n → ℂ) (γ : ℝ) (U : Fin n → ℂ) :
    Gnlse.rhs β g R γ U = respond (fun k => I * β k + g / 2) U + fun j => I * γ * U j * respond R (power U) j := rfl

/-- growth rate in the estimate of the error -/
noncomputable def growth (g γ K M : ℝ) : ℝ := |g| + 6 * |γ| * K * (M + 1) ^ 2 + 1

theorem rate_le (β : Fin n → ℝ) (g : ℝ) {R : Fin n → ℂ} (γ : ℝ) {K M : ℝ} (hK : Bounded R K) (hM : 0 ≤ M) {U V r : Fin n → ℂ}
    (hV : ∀ j, ‖V j‖ ≤ M) (hU : ∀ j, ‖U j - V j‖ ≤ 1) :
    |rate (U - V) (Gnlse.rhs β g R γ U - (Gnlse.rhs β g R γ V + r))| ≤ growth g γ K M * en (U - V) + en r := by
  have hKp := hK.pos
  have hUM : ∀ j, ‖U j‖ ≤ M + 1 := fun j => by
    have := norm_add_le (V j) (U j - V j)
    rw [add_sub_cancel] at this
    linarith [hV j, hU j]
  set w := U - V with hw
  set N1 : Fin n → ℂ := fun j => I * γ * w j * respond R (power U) j with hN1
  set N2 : Fin n → ℂ := fun j => I * γ * V j * respond R (power U - power V) j with hN2
  have hsplit : Gnlse.rhs β g R γ U - (Gnlse.rhs β g R γ V + r) = respond (fun k => I * β k + g / 2) w + N1 + N2 + -r := by
    rw [rhs_split, rhs_split, hw, respond_sub]
    funext j
    simp only [hN1, hN2, Pi.add_apply, Pi.sub_apply, Pi.neg_apply, respond_sub, hw]
    ring
  rw [hsplit, rate_add, rate_add, rate_add]
  have hlin : rate w (respond (fun k => I * β k + g / 2) w) = g * en w := by
    have h := rate_rhs (β := β) (g := g) (R := fun _ => 0) (fun x j => by simp [Gnlse.toTime, fft, fftshift, ifftshift, roll]) (γ := 0) w
    rw [rhs_split] at h
    rw [← h]
    congr 1
    funext j
    simp
  have hp : ∀ j, ‖power U j‖ ≤ (M + 1) ^ 2 := fun j => by
    rw [power_eq, norm_real, Real.norm_eq_abs, abs_of_nonneg (by positivity)]
    exact pow_le_pow_left₀ (norm_nonneg _) (hUM j) 2
  have h1 : |rate w N1| ≤ 2 * (|γ| * (K * (M + 1) ^ 2)) * en w := by
    refine abs_rate_le_of _ _ fun j => ?_
    have := hK.sup _ _ hp j
    simp only [hN1, norm_mul, norm_I, one_mul, norm_real, Real.norm_eq_abs]
    calc |γ| * ‖w j‖ * ‖respond R (power U) j‖ ≤ |γ| * ‖w j‖ * (K * (M + 1) ^ 2) := mul_le_mul_of_nonneg_left this (by positivity)
      _ = _ := by ring
  have hd : en (power U - power V) ≤ (2 * (M + 1)) ^ 2 * en w := by
    unfold en
    rw [Finset.mul_sum]
    refine Finset.sum_le_sum fun j _ => ?_
    rw [← mul_pow]
    refine pow_le_pow_left₀ (norm_nonneg _) ?_ 2
    rw [Pi.sub_apply, power_eq, power_eq, ← ofReal_sub, norm_real, Real.norm_eq_abs, sq_sub_sq, abs_mul, abs_of_nonneg (by positivity)]
    refine mul_le_mul ?_ (abs_norm_sub_norm_le _ _) (abs_nonneg _) (by positivity)
    linarith [hUM j, hV j]
  have h2 : |rate w N2| ≤ 4 * (|γ| * (K * (M + 1) ^ 2)) * en w := by
    have e : N2 = fun j => (|γ| * M : ℝ) • ((if γ < 0 then -I else I) * (V j / M) * respond R (power U - power V) j) := by
      funext j
      by_cases hM0 : M = 0
      · have : V j = 0 := by
          have := hV j
          rw [hM0] at this
          exact norm_le_zero_iff.1 this
        simp [hN2, this]
      · have hM' : (M : ℂ) ≠ 0 := by exact_mod_cast hM0
        simp only [hN2, real_smul]
        split_ifs with hg
        · rw [abs_of_neg hg]; push_cast; field_simp
        · rw [abs_of_nonneg (not_lt.1 hg)]; push_cast; field_simp
    have hr : rate w N2 = (|γ| * M) * rate w (fun j => (if γ < 0 then -I else I) * (V j / M) * respond R (power U - power V) j) := by
      rw [e]
      exact rate_smul w _ _
    have hb := abs_rate_le w (fun j => (if γ < 0 then -I else I) * (V j / M) * respond R (power U - power V) j) (c := 2 * K * (M + 1)) (by positivity)
    have he : en (fun j => (if γ < 0 then -I else I) * (V j / M) * respond R (power U - power V) j) ≤ K ^ 2 * ((2 * (M + 1)) ^ 2 * en w) := by
      refine le_trans ?_ ((hK.sq _).trans (mul_le_mul_of_nonneg_left hd (by positivity)))
      refine Finset.sum_le_sum fun j _ => pow_le_pow_left₀ (norm_nonneg _) ?_ 2
      have hVM : ‖V j / (M : ℂ)‖ ≤ 1 := by
        rw [norm_div, norm_real, Real.norm_eq_abs, abs_of_nonneg hM]
        exact div_le_one_of_le₀ (hV j) hM
      have hI : ‖(if γ < 0 then -I else I : ℂ)‖ = 1 := by split_ifs <;> simp
      rw [norm_mul, norm_mul, hI, one_mul]
      exact mul_le_of_le_one_left (norm_nonneg _) hVM
    have hE := en_nonneg w
    have h3 : |rate w (fun j => (if γ < 0 then -I else I) * (V j / M) * respond R (power U - power V) j)| ≤ 4 * K * (M + 1) * en w := by
      refine hb.trans ?_
      have : en (fun j => (if γ < 0 then -I else I) * (V j / M) * respond R (power U - power V) j) / (2 * K * (M + 1)) ≤
          K ^ 2 * ((2 * (M + 1)) ^ 2 * en w) / (2 * K * (M + 1)) := div_le_div_of_nonneg_right he (by positivity)
      have e4 : K ^ 2 * ((2 * (M + 1)) ^ 2 * en w) / (2 * K * (M + 1)) = 2 * K * (M + 1) * en w := by
        field_simp
      linarith
    rw [hr, abs_mul, abs_of_nonneg (by positivity : 0 ≤ |γ| * M)]
    calc |γ| * M * |rate w (fun j => (if γ < 0 then -I else I) * (V j / M) * respond R (power U - power V) j)|
        ≤ |γ| * M * (4 * K * (M + 1) * en w) := mul_le_mul_of_nonneg_left h3 (by positivity)
      _ ≤ |γ| * (M + 1) * (4 * K * (M + 1) * en w) := by
          refine mul_le_mul_of_nonneg_right ?_ (by positivity)
          exact mul_le_mul_of_nonneg_left (by linarith) (abs_nonneg _)
      _ = _ := by ring
  have h3 : |rate w (-r)| ≤ en w + en r := by
    have := abs_rate_le w (-r) one_pos
    have e : en (-r) = en r := by simp [en]
    rwa [e, one_mul, div_one] at this
  have h0 : |rate w (respond (fun k => I * β k + g / 2) w)| ≤ |g| * en w := by
    rw [hlin, abs_mul, abs_of_nonneg (en_nonneg w)]
  have t1 := abs_add_le (rate w (respond (fun k => I * β k + g / 2) w) + rate w N1 + rate w N2) (rate w (-r))
  have t2 := abs_add_le (rate w (respond (fun k => I * β k + g / 2) w) + rate w N1) (rate w N2)
  have t3 := abs_add_le (rate w (respond (fun k => I * β k + g / 2) w)) (rate w N1)
  unfold growth
  nlinarith

/-- Two fields that satisfy the equation on the grid up to a residual stay close. -/
theorem stable {β : Fin n → ℝ} {g : ℝ} {R : Fin n → ℂ} {γ K M L e : ℝ} (hK : Bounded R K) (hM : 0 ≤ M) {U V r : ℝ → Fin n → ℂ}
    (hU : ∀ z ∈ Icc 0 L, HasDerivAt U (Gnlse.rhs β g R γ (U z)) z) (hV : ∀ z ∈ Icc 0 L, HasDerivAt V (Gnlse.rhs β g R γ (V z) + r z) z)
    (hVM : ∀ z ∈ Icc 0 L, ∀ j, ‖V z j‖ ≤ M) (hr : ∀ z ∈ Icc 0 L, en (r z) ≤ e) (h0 : U 0 = V 0)
    (hsmall : e * Real.exp (growth g γ K M * L) < 1) : ∀ z ∈ Icc 0 L, en (U z - V z) ≤ e * Real.exp (growth g γ K M * L) := by
  have hKp := hK.pos
  have ha : 1 ≤ growth g γ K M := by unfold growth; have : 0 ≤ |g| + 6 * |γ| * K * (M + 1) ^ 2 := by positivity
                                     linarith
  set a := growth g γ K M with hadef
  rcases lt_or_ge L 0 with hL | hL
  · intro z hz
    linarith [hz.1, hz.2]
  have he : 0 ≤ e := (en_nonneg _).trans (hr 0 ⟨le_refl _, hL⟩)
  have hder : ∀ z ∈ Icc 0 L, HasDerivAt (fun z => en (U z - V z)) (rate (U z - V z) (Gnlse.rhs β g R γ (U z) - (Gnlse.rhs β g R γ (V z) + r z))) z :=
    fun z hz => en_hasDerivAt ((hU z hz).sub (hV z hz))
  have hcont : ContinuousOn (fun z => en (U z - V z)) (Icc 0 L) := fun z hz => (hder z hz).continuousAt.continuousWithinAt
  -- while the difference is at most one, it obeys the bound
  have hstep : ∀ y ∈ Icc 0 L, (∀ z ∈ Ico 0 y, en (U z - V z) ≤ 1) → ∀ z ∈ Icc 0 y, en (U z - V z) ≤ e * Real.exp (a * L) := by
    intro y hy hle z hz
    have := norm_le_gronwallBound_of_norm_deriv_right_le (f := fun t => en (U t - V t))
      (f' := fun z => rate (U z - V z) (Gnlse.rhs β g R γ (U z) - (Gnlse.rhs β g R γ (V z) + r z))) (δ := 0) (K := a) (ε := e)
      (a := 0) (b := y) (hcont.mono (Icc_subset_Icc_right hy.2)) (fun t ht => (hder t ⟨ht.1, ht.2.le.trans hy.2⟩).hasDerivWithinAt)
      (by simp [h0, en]) (fun t ht => by
        have ht' : t ∈ Icc 0 L := ⟨ht.1, ht.2.le.trans hy.2⟩
        rw [Real.norm_eq_abs, Real.norm_eq_abs, abs_of_nonneg (en_nonneg _)]
        have hb := rate_le β g γ hK hM (U := U t) (V := V t) (r := r t) (hVM t ht') (fun j => by
          have h1 := (sq_le_en (U t - V t) j).trans (hle t ht)
          rw [Pi.sub_apply] at h1
          nlinarith [norm_nonneg (U t j - V t j)])
        linarith [hr t ht']) z hz
    rw [Real.norm_eq_abs, abs_of_nonneg (en_nonneg _), gronwallBound_of_K_ne_0 (by linarith)] at this
    simp only [zero_mul, zero_add, sub_zero] at this
    refine this.trans ?_
    have h1 : Real.exp (a * z) ≤ Real.exp (a * L) := Real.exp_le_exp.2 (mul_le_mul_of_nonneg_left (hz.2.trans hy.2) (by linarith))
    have h2 : e / a ≤ e := div_le_self he ha
    have h3 : 1 ≤ Real.exp (a * z) := Real.one_le_exp (mul_nonneg (by linarith) hz.1)
    exact mul_le_mul h2 (by linarith) (by linarith) he
  -- the set of distances up to which it is at most one is everything
  have hall : ∀ z ∈ Icc 0 L, en (U z - V z) ≤ 1 := by
    by_contra hcon
    push Not at hcon
    obtain ⟨z1, hz1, hgt⟩ := hcon
    set S := {z | z ∈ Icc 0 L ∧ 1 ≤ en (U z - V z)} with hS
    have hSc : IsCompact S := by
      have : S = Icc 0 L ∩ (fun z => en (U z - V z)) ⁻¹' Ici 1 := by ext z; simp [hS]
      rw [this]
      exact isCompact_Icc.of_isClosed_subset (hcont.preimage_isClosed_of_isClosed isClosed_Icc isClosed_Ici) inter_subset_left
    have hSn : S.Nonempty := ⟨z1, hz1, hgt.le⟩
    obtain ⟨y, hyS, hmin⟩ := hSc.exists_isLeast hSn
    have := hstep y hyS.1 (fun z hz => by
      by_contra hc
      have : z ∈ S := ⟨⟨hz.1, hz.2.le.trans hyS.1.2⟩, (not_le.1 hc).le⟩
      linarith [hmin this, hz.2]) y ⟨hyS.1.1, le_refl _⟩
    linarith [hyS.2]
  intro z hz
  exact hstep L ⟨hL, le_refl _⟩ (fun z hz => hall z ⟨hz.1, hz.2.le⟩) z hz

/-! ## Uniform bounds -/

theorem contDiff_partial {u : ℝ → ℝ → ℂ} (hu : ContDiff ℝ (⊤ : ℕ∞) fun q : ℝ × ℝ => u q.1 q.2) (m : ℕ) :
    ContDiff ℝ (⊤ : ℕ∞) fun q : ℝ × ℝ => iteratedDeriv m (u q.1) q.2 := by
  induction m with
  | zero => simpa using hu
  | succ m ih =>
    have h : (fun q : ℝ × ℝ => iteratedDeriv (m + 1) (u q.1) q.2) =
        fun q => fderiv ℝ (fun q : ℝ × ℝ => iteratedDeriv m (u q.1) q.2) q (0, 1) := by
      funext q
      rw [iteratedDeriv_succ]
      have h1 : HasFDerivAt (fun q : ℝ × ℝ => iteratedDeriv m (u q.1) q.2) (fderiv ℝ (fun q : ℝ × ℝ => iteratedDeriv m (u q.1) q.2) q) (q.1, q.2) :=
        (ih.differentiable (by simp) q).hasFDerivAt
      have h2 : HasDerivAt (fun t : ℝ => (q.1, t)) ((0 : ℝ), (1 : ℝ)) q.2 := (hasDerivAt_const q.2 q.1).prodMk (hasDerivAt_id q.2)
      exact (h1.comp_hasDerivAt q.2 h2).deriv
    rw [h]
    exact (ih.fderiv_right (m := (⊤ : ℕ∞)) (by norm_cast)).clm_apply contDiff_const

theorem slice_contDiff {u : ℝ → ℝ → ℂ} (hu : ContDiff ℝ (⊤ : ℕ∞) fun q : ℝ × ℝ => u q.1 q.2) (z : ℝ) : ContDiff ℝ (⊤ : ℕ∞) (u z) :=
  hu.comp (contDiff_const.prodMk contDiff_id)

theorem uniform_bound {u : ℝ → ℝ → ℂ} (hu : ContDiff ℝ (⊤ : ℕ∞) fun q : ℝ × ℝ => u q.1 q.2) {T : ℝ} (hT : 0 < T)
    (hp : ∀ z, Function.Periodic (u z) T) (L : ℝ) (m : ℕ) : ∃ B, 0 ≤ B ∧ ∀ z ∈ Icc 0 L, ∀ t, ‖iteratedDeriv m (u z) t‖ ≤ B := by
  obtain ⟨B, hB⟩ := (isCompact_Icc.prod isCompact_Icc).exists_bound_of_continuousOn (s := Icc 0 L ×ˢ Icc 0 (0 + T)) (contDiff_partial hu m).continuous.continuousOn
  refine ⟨max B 0, le_max_right _ _, fun z hz t => ?_⟩
  obtain ⟨y, hy, e⟩ := (Series.periodic_iteratedDeriv (hp z) m).exists_mem_Ico hT t 0
  rw [e]
  exact (hB (z, y) ⟨hz, hy.1, hy.2.le⟩).trans (le_max_left _ _)

end PyNLO.Nlse
