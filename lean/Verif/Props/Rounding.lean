import Verif.Lemmas.Perturbed
import Verif.Lemmas.Single
import Verif.Props.SsfmSteps

/-!
# C164: errors made in the steps add up; they are not amplified
-/

namespace PyNLO.Ssfm

open Complex RK Filter Asymptotics Set Pulse
open scoped Topology ContDiff

variable {n : ℕ}

/-- What a program that follows the step control of `integrate_over_dz` segment by segment may have computed, whatever its error
estimates are (rounded, overflowed or not a number), if an accepted step of length `h` leads from field `A` to any `A'` with `step h A A'`:
field, step control, distance covered and number of accepted steps. -/
inductive Computed (P : Params n) (δ hm : ℝ) (step : ℝ → (Fin n → ℂ) → (Fin n → ℂ) → Prop) (A0 : Fin n → ℂ) :
    (Fin n → ℂ) → Ctrl → ℝ → ℕ → Prop
  | start (dz : ℝ) (h : 0 < dz) : Computed P δ hm step A0 A0 (ctrlStart dz δ) 0 0
  | rejected {A : Fin n → ℂ} {c : Ctrl} {z : ℝ} {k : ℕ} (h : Computed P δ hm step A0 A c z k) (hd : c.dist > 0) (e : Err)
      (he : (ctrlBody P.cfg c e).1 = false) : Computed P δ hm step A0 A (ctrlBody P.cfg c e).2 z k
  | accepted {A A' : Fin n → ℂ} {c : Ctrl} {z : ℝ} {k : ℕ} (h : Computed P δ hm step A0 A c z k) (hd : c.dist > 0) (e : Err)
      (he : (ctrlBody P.cfg c e).1 = true) (hle : c.dz ≤ hm) (hs : step c.dz A A') :
      Computed P δ hm step A0 A' (ctrlBody P.cfg c e).2 (z + 2 * c.dz) (k + 1)
  | next {A : Fin n → ℂ} {c : Ctrl} {z : ℝ} {k : ℕ} (h : Computed P δ hm step A0 A c z k) (hd : ¬ c.dist > 0) :
      Computed P δ hm step A0 A (ctrlStart (ctrlExit c) δ) z k

/-- the exact accepted step -/
noncomputable def doubleStep (P : Params n) (h : ℝ) (A : Fin n → ℂ) : Fin n → ℂ :=
  richardson P.eta (Spec.adv P 1 h (Spec.adv P 1 h A)) (Spec.adv P 1 (2 * h) A)

theorem Computed.pos {P : Params n} (hP : P.Ok) {δ hm : ℝ} (hδ : 0 < δ) {step : ℝ → (Fin n → ℂ) → (Fin n → ℂ) → Prop} {A0 A : Fin n → ℂ} {c : Ctrl}
    {z : ℝ} {k : ℕ} (h : Computed P δ hm step A0 A c z k) : ∃ m, 0 < m ∧ m ≤ P.cfg.dzMin ∧ Inv P.cfg m c := by
  induction h with
  | start dz h => exact Inv.start h hδ hP.cfg
  | rejected h hd e he ih =>
    obtain ⟨m, h0, hm, hi⟩ := ih
    exact ⟨m, h0, hm, Inv.body hP.cfg hm h0 hi e⟩
  | accepted h hd e he hle hs ih =>
    obtain ⟨m, h0, hm, hi⟩ := ih
    exact ⟨m, h0, hm, Inv.body hP.cfg hm h0 hi e⟩
  | @next A c z k h hd ih =>
    obtain ⟨m, h0, hm, hi⟩ := ih
    refine Inv.start ?_ hδ hP.cfg
    unfold ctrlExit
    cases hr : c.ret with
    | none => exact h0.trans_le hi.lower
    | some r => exact h0.trans_le (hi.ret r hr)

/-- the accepted steps as a sequence -/
theorem Computed.sequence {P : Params n} (hP : P.Ok) {δ hm : ℝ} (hδ : 0 < δ) {step : ℝ → (Fin n → ℂ) → (Fin n → ℂ) → Prop} {A0 A : Fin n → ℂ}
    {c : Ctrl} {z : ℝ} {k : ℕ} (h : Computed P δ hm step A0 A c z k) : ∃ (H : ℕ → ℝ) (B : ℕ → Fin n → ℂ), B 0 = A0 ∧ B k = A ∧
      (∀ i < k, 0 < H i ∧ H i ≤ hm) ∧ (∀ i < k, step (H i) (B i) (B (i + 1))) ∧ ∑ i ∈ Finset.range k, 2 * H i = z := by
  induction h with
  | start dz h => exact ⟨fun _ => 0, fun _ => A0, rfl, rfl, by simp, by simp, by simp⟩
  | rejected h hd e he ih => exact ih
  | @accepted A A' c z k h hd e he hle hs ih =>
    obtain ⟨m, h0, -, hi⟩ := h.pos hP hδ
    obtain ⟨H, B, b0, b1, b2, b3, b4⟩ := ih
    refine ⟨fun i => if i < k then H i else c.dz, fun i => if i < k + 1 then B i else A', ?_, ?_, ?_, ?_, ?_⟩
    · simpa using b0
    · simp
    · intro i hi'
      by_cases hik : i < k
      · simpa [hik] using b2 i hik
      · simpa [hik] using ⟨h0.trans_le hi.lower, hle⟩
    · intro i hi'
      by_cases hik : i < k
      · simpa [hik, hi', (by omega : i < k + 1)] using b3 i hik
      · obtain rfl : i = k := by omega
        simpa [b1] using hs
    · have : ∑ i ∈ Finset.range k, 2 * (if i < k then H i else c.dz) = z := by
        rw [← b4]
        exact Finset.sum_congr rfl fun i hi' => by rw [if_pos (Finset.mem_range.1 hi')]
      simp only [Finset.sum_range_succ, this, lt_irrefl, if_false]
  | next h hd ih => exact ih

/-- weights and consistency of the extrapolated steps -/
theorem order_consistent {β : Fin n → ℝ} {g : ℝ} {R : Fin n → ℂ} {γ : ℝ} {eta : ℝ} {q : ℕ} (hq : Order eta q) {x b Λ : ℝ} (hx : x < 0)
    (hb : Λ < b) {U : ℝ → Fin n → ℂ} (hU : Solves β g R γ x b U) :
    ∃ (α α' : ℝ) (m : ℕ), α - α' = 1 ∧ (∀ x y : Fin n → ℂ, richardson eta x y = α • x - α' • y) ∧ q = m + 1 ∧
      ∃ C h0, 0 ≤ C ∧ 0 < h0 ∧ h0 ≤ 1 ∧ ∀ z ∈ Icc 0 Λ, ∀ h ∈ Icc 0 h0,
        ‖OneStep.double (fun q : ℝ × (Fin n → ℂ) => ipStep (linPart (someParams β g R γ) 1) (nonPart (someParams β g R γ) 1) q.1 q.2) α α' h
          (fftshift (U z)) - fftshift (U (z + 2 * h))‖ ≤ C * h ^ (m + 2) := by
  have hd := someParams_describes β g R γ
  have hYd := hU.shift hd
  rcases hq with ⟨rfl, rfl⟩ | ⟨h1, rfl⟩
  · have hr : ∀ x y : Fin n → ℂ, richardson 5 x y = (16 / 15 : ℝ) • x - (1 / 15 : ℝ) • y := by
      intro x y
      unfold richardson
      rw [if_neg (by norm_num), if_pos rfl]
      funext j
      simp only [Pi.sub_apply, Pi.smul_apply, real_smul]
      push_cast
      rfl
    refine ⟨_, _, 4, by norm_num, hr, rfl, ?_⟩
    obtain ⟨C1, h0, hC1, h0pos, h0le, cons⟩ := extra_consistent (nonPart_contDiff hd.ss 1) (fun _ _ => (nonPart_contDiff hd.ss 1).contDiffAt) hx hb hYd
    refine ⟨C1, h0, hC1, h0pos, h0le, fun z hz h hh => ?_⟩
    have := cons z hz h hh
    unfold extra at this
    exact this
  · obtain ⟨α, α', hα, -, hr⟩ := richardson_weights (n := n) h1
    exact ⟨α, α', 3, hα, hr, rfl, double_ip_consistent (nonPart_contDiff hd.ss 1) hα hx hb hYd⟩

/-- Core of C164, with the weights, and what rounding of single steps does to a double step. -/
theorem rounding_core {β : Fin n → ℝ} {g : ℝ} {R : Fin n → ℂ} {γ : ℝ} {eta : ℝ} {q : ℕ} (hq : Order eta q) {x b Λ : ℝ} (hx : x < 0) (hΛ : 0 ≤ Λ)
    (hb : Λ < b) {U : ℝ → Fin n → ℂ} (hU : Solves β g R γ x b U) :
    ∃ h1 > 0, h1 ≤ 1 / 2 ∧ ∃ ρ C, 0 ≤ ρ ∧ 1 ≤ C ∧ ∀ P : Params n, P.Ok → Describes P β g R γ → P.method = .rk4ip → P.eta = eta →
      ∀ δ > 0, ∀ hm ∈ Ioc 0 h1, ∀ (A0 A : Fin n → ℂ) (c : Ctrl) (z : ℝ) (k : ℕ) (e0 u : ℝ), 0 ≤ u → ‖A0 - fftshift (U 0)‖ ≤ e0 →
        Computed P δ hm (fun h A A' => ‖A‖ ≤ ρ → ‖A' - doubleStep P h A‖ ≤ u) A0 A c z k → z ≤ Λ → C * (e0 + k * u) ≤ 1 →
          ‖A - fftshift (U z)‖ ≤ C * (hm ^ q + e0 + k * u) := by
  obtain ⟨α, α', m, hα, hr, hqm, C1, h00, hC1, h0pos, h0le, cons⟩ := order_consistent hq hx hb hU
  set Q := someParams β g R γ with hQ
  have hd := someParams_describes β g R γ
  set Y : ℝ → Fin n → ℂ := fun z => fftshift (U z) with hY
  have hYd := hU.shift hd
  rw [← hQ] at hd hYd
  have hφ : ContDiff ℝ ∞ fun q : ℝ × (Fin n → ℂ) => ipStep (linPart Q 1) (nonPart Q 1) q.1 q.2 :=
    ipStep_contDiff _ (nonPart_contDiff hd.ss 1) contDiff_fst contDiff_snd
  have hz0 : ∀ A, (fun q : ℝ × (Fin n → ℂ) => ipStep (linPart Q 1) (nonPart Q 1) q.1 q.2) (0, A) = A := fun A => ipStep_zero _ _ A
  obtain ⟨M, hM⟩ : ∃ M, ∀ z ∈ Icc 0 Λ, ‖Y z‖ ≤ M := by
    have hc : ContinuousOn Y (Icc 0 Λ) := fun z hz => (hYd z ⟨by linarith [hz.1], by linarith [hz.2]⟩).continuousAt.continuousWithinAt
    exact isCompact_Icc.exists_bound_of_continuousOn hc
  have hM0 : 0 ≤ M := (norm_nonneg _).trans (hM 0 ⟨le_rfl, hΛ⟩)
  obtain ⟨K, hK, stab⟩ := OneStep.stable (OneStep.double_contDiff hφ α α') (fun B => OneStep.double_zero hz0 hα B) (M + 1)
  obtain ⟨h1, h1pos, h1le, hconv⟩ := OneStep.converges_perturbed
    (Ψ := fun h B => OneStep.double (fun q : ℝ × (Fin n → ℂ) => ipStep (linPart Q 1) (nonPart Q 1) q.1 q.2) α α' h B)
    (Y := Y) (m := m) hΛ hC1 hK h0pos (fun z hz h hh _ => cons z hz h hh) (fun h hh => stab h ⟨hh.1, hh.2.trans h0le⟩) hM
  have hE : 1 ≤ Real.exp (K * Λ) := Real.one_le_exp (by positivity)
  refine ⟨min h1 (1 / 2), by positivity, min_le_right _ _, M + 1, C1 * Λ * Real.exp (K * Λ) + 2 * Real.exp (K * Λ), by positivity, by nlinarith [mul_nonneg hC1 hΛ],
    fun P hOk hP hm he δ hδ hmx hhm A0 A c z k e0 u hu hA0 hcomp hzΛ hsmall => ?_⟩
  have e : Spec.adv P 1 = fun h A => ipStep (linPart Q 1) (nonPart Q 1) h A := by
    funext h A
    rw [adv_eq hm 1 h A, hP.linPart_eq hd, hP.nonPart_eq hd]
  obtain ⟨H, B, b0, b1, b2, b3, b4⟩ := hcomp.sequence hOk hδ
  have he0 : 0 ≤ e0 := (norm_nonneg _).trans hA0
  have hku : 0 ≤ e0 + k * u := by positivity
  set E := Real.exp (K * Λ) with hEdef
  have hCL : 0 ≤ C1 * Λ * E := by positivity
  have hs2 : (e0 + k * u) * E ≤ 1 / 2 := by nlinarith
  have := hconv hmx ⟨hhm.1, hhm.2.trans (min_le_left _ _)⟩ H B k e0 u hu (by rw [b0]; exact hA0) (fun i hi => ⟨(b2 i hi).1.le, (b2 i hi).2⟩)
    (fun i hi hn => by
      have h3 := b3 i hi hn
      unfold doubleStep at h3
      rw [e, he, hr] at h3
      exact h3) (by rw [b4]; exact hzΛ) hs2
  rw [b1, b4] at this
  refine this.trans ?_
  rw [hqm]
  have hp : 0 ≤ hmx ^ (m + 1) := pow_nonneg hhm.1.le _
  rw [mul_add, mul_add, add_mul]
  nlinarith [mul_nonneg (le_trans zero_le_one hE) hp, mul_nonneg hCL hku, mul_nonneg (le_trans zero_le_one hE) hku]

/-- C164: every accepted step may be off by `u` and the start by `e0`, from rounding or anything else; the error estimates may be
anything.  After `k` accepted steps, none longer than `hm`, that cover the distance `z`, the field is the solution at `z` up to
`C·(hm^q + e0 + k·u)`.  The constant depends on equation and pulse only. -/
theorem C164_rounding {β : Fin n → ℝ} {g : ℝ} {R : Fin n → ℂ} {γ : ℝ} {eta : ℝ} {q : ℕ} (hq : Order eta q) {x b Λ : ℝ} (hx : x < 0) (hΛ : 0 ≤ Λ)
    (hb : Λ < b) {U : ℝ → Fin n → ℂ} (hU : Solves β g R γ x b U) :
    ∃ h1 > 0, ∃ ρ C : ℝ, ∀ P : Params n, P.Ok → Describes P β g R γ → P.method = .rk4ip → P.eta = eta →
      ∀ δ > 0, ∀ hm ∈ Ioc 0 h1, ∀ (A0 A : Fin n → ℂ) (c : Ctrl) (z : ℝ) (k : ℕ) (e0 u : ℝ), 0 ≤ u → ‖A0 - fftshift (U 0)‖ ≤ e0 →
        Computed P δ hm (fun h A A' => ‖A‖ ≤ ρ → ‖A' - doubleStep P h A‖ ≤ u) A0 A c z k → z ≤ Λ → C * (e0 + k * u) ≤ 1 →
          ‖A - fftshift (U z)‖ ≤ C * (hm ^ q + e0 + k * u) := by
  obtain ⟨h1, h1pos, -, ρ, C, -, -, h⟩ := rounding_core hq hx hΛ hb hU
  exact ⟨h1, h1pos, ρ, C, h⟩

/-- the components rounded to the nearest single precision numbers -/
noncomputable def toSingle (A : Fin n → ℂ) : Fin n → ℂ := fun j => ⟨Single.nearest (A j).re, Single.nearest (A j).im⟩

theorem toSingle_near (A : Fin n → ℂ) {M : ℝ} (hM : 1 ≤ M) (hA : ‖A‖ ≤ M) : ‖toSingle A - A‖ ≤ M / 2 ^ 23 := by
  rw [pi_norm_le_iff_of_nonneg (by positivity)]
  intro j
  have key : ∀ y : ℝ, |y| ≤ M → |Single.nearest y - y| ≤ M / 2 ^ 24 := by
    intro y hy
    refine (Single.nearest_near y).trans (max_le ?_ ?_)
    · rw [zpow_neg, div_eq_inv_mul]
      exact mul_le_mul_of_nonneg_left hy (by positivity)
    · rw [zpow_neg, div_eq_inv_mul]
      calc ((2 : ℝ) ^ (150 : ℤ))⁻¹ ≤ (2 ^ 24)⁻¹ * 1 := by norm_num
        _ ≤ (2 ^ 24)⁻¹ * M := by gcongr
  have hj := (norm_le_pi_norm A j).trans hA
  refine (norm_le_abs_re_add_abs_im _).trans ?_
  have h1 := key (A j).re ((abs_re_le_norm _).trans hj)
  have h2 := key (A j).im ((abs_im_le_norm _).trans hj)
  have e : M / 2 ^ 24 + M / 2 ^ 24 = M / 2 ^ 23 := by ring
  rw [← e]
  exact add_le_add h1 h2

/-- the accepted step with every single step, and their combination, rounded to single precision -/
noncomputable def singleStep (P : Params n) (h : ℝ) (A : Fin n → ℂ) : Fin n → ℂ :=
  toSingle (richardson P.eta (toSingle (Spec.adv P 1 h (toSingle (Spec.adv P 1 h A)))) (toSingle (Spec.adv P 1 (2 * h) A)))

/-- C164: if the results of the steps are rounded to single precision, the error grows with the number of steps times `2⁻²⁴`. -/
theorem C164_single {β : Fin n → ℝ} {g : ℝ} {R : Fin n → ℂ} {γ : ℝ} {eta : ℝ} {q : ℕ} (hq : Order eta q) {x b Λ : ℝ} (hx : x < 0) (hΛ : 0 ≤ Λ)
    (hb : Λ < b) {U : ℝ → Fin n → ℂ} (hU : Solves β g R γ x b U) :
    ∃ h1 > 0, ∃ C : ℝ, 0 < C ∧ ∀ P : Params n, P.Ok → Describes P β g R γ → P.method = .rk4ip → P.eta = eta →
      ∀ δ > 0, ∀ hm ∈ Ioc 0 h1, ∀ (A : Fin n → ℂ) (c : Ctrl) (z : ℝ) (k : ℕ),
        Computed P δ hm (fun h A A' => A' = singleStep P h A) (toSingle (fftshift (U 0))) A c z k → z ≤ Λ → C * (k + 1) ≤ 2 ^ 24 →
          ‖A - fftshift (U z)‖ ≤ C * (hm ^ q + (k + 1) / 2 ^ 24) := by
  obtain ⟨h1, h1pos, h1le, ρ, C, hρ, hC, hcore⟩ := rounding_core hq hx hΛ hb hU
  obtain ⟨α, α', m, hα, hr, -, -⟩ := order_consistent hq hx hb hU
  set Q := someParams β g R γ with hQ
  have hd := someParams_describes β g R γ
  have hφ : ContDiff ℝ ∞ fun q : ℝ × (Fin n → ℂ) => ipStep (linPart Q 1) (nonPart Q 1) q.1 q.2 :=
    ipStep_contDiff _ (nonPart_contDiff hd.ss 1) contDiff_fst contDiff_snd
  have hz0 : ∀ A, (fun q : ℝ × (Fin n → ℂ) => ipStep (linPart Q 1) (nonPart Q 1) q.1 q.2) (0, A) = A := fun A => ipStep_zero _ _ A
  obtain ⟨ρ', D, hρρ', hD, hpert⟩ := double_perturbed hφ hz0 α α' ρ
  -- a bound for the exact steps on the ball
  obtain ⟨M1, hM1⟩ := (isCompact_Icc.prod (isCompact_closedBall (0 : Fin n → ℂ) ρ')).exists_bound_of_continuousOn
    (f := fun q : ℝ × (Fin n → ℂ) => ipStep (linPart Q 1) (nonPart Q 1) q.1 q.2) (s := Icc (0 : ℝ) 1 ×ˢ Metric.closedBall (0 : Fin n → ℂ) ρ')
    hφ.continuous.continuousOn
  obtain ⟨M2, hM2⟩ := (isCompact_Icc.prod (isCompact_closedBall (0 : Fin n → ℂ) ρ)).exists_bound_of_continuousOn
    (f := fun q : ℝ × (Fin n → ℂ) => OneStep.double (fun q : ℝ × (Fin n → ℂ) => ipStep (linPart Q 1) (nonPart Q 1) q.1 q.2) α α' q.1 q.2)
    (s := Icc (0 : ℝ) 1 ×ˢ Metric.closedBall (0 : Fin n → ℂ) ρ) (OneStep.double_contDiff hφ α α').continuous.continuousOn
  set M := max (max 1 ‖fftshift (U 0)‖) (max M1 (M2 + D)) with hMdef
  have m1 : 1 ≤ M := (le_max_left _ _).trans (le_max_left _ _)
  have m2 : ‖fftshift (U 0)‖ ≤ M := (le_max_right _ _).trans (le_max_left _ _)
  have m3 : M1 ≤ M := (le_max_left _ _).trans (le_max_right _ _)
  have m4 : M2 + D ≤ M := (le_max_right _ _).trans (le_max_right _ _)
  -- rounding error of a double step
  set W := 2 * M * (D + 1) with hW
  have hW2 : 2 ≤ W := by rw [hW]; nlinarith
  refine ⟨h1, h1pos, C * W, by positivity, fun P hOk hP hm he δ hδ hmx hhm A c z k hcomp hzΛ hsmall => ?_⟩
  have e : Spec.adv P 1 = fun h A => ipStep (linPart Q 1) (nonPart Q 1) h A := by
    funext h A
    rw [adv_eq hm 1 h A, hP.linPart_eq hd, hP.nonPart_eq hd]
  have hk0 : (0 : ℝ) ≤ k := Nat.cast_nonneg k
  have hC0 : 0 ≤ C := zero_le_one.trans hC
  have hM23 : M / 2 ^ 23 ≤ 1 := by
    rw [div_le_one (by positivity)]
    have : 2 * M ≤ 2 ^ 24 := by
      calc 2 * M ≤ W := by rw [hW]; nlinarith
        _ ≤ C * W * (k + 1) := by nlinarith [mul_nonneg (sub_nonneg.2 hC) (by linarith : 0 ≤ W), mul_nonneg (mul_nonneg hC0 (by linarith : 0 ≤ W)) hk0]
        _ ≤ 2 ^ 24 := hsmall
    linarith
  have hstep : ∀ h ∈ Icc (0 : ℝ) (1 / 2), ∀ B : Fin n → ℂ, ‖B‖ ≤ ρ → ‖singleStep P h B - doubleStep P h B‖ ≤ W / 2 ^ 24 := by
    intro h hh B hB
    set ψ : ℝ → (Fin n → ℂ) → Fin n → ℂ := fun h A => toSingle (ipStep (linPart Q 1) (nonPart Q 1) h A) with hψ
    have hnear : ∀ y ∈ Icc (0 : ℝ) 1, ∀ A : Fin n → ℂ, ‖A‖ ≤ ρ' → ‖ψ y A - ipStep (linPart Q 1) (nonPart Q 1) y A‖ ≤ M / 2 ^ 23 := fun y hy A hA =>
      toSingle_near _ m1 ((hM1 (y, A) ⟨hy, by rw [mem_closedBall_zero_iff]; exact hA⟩).trans m3)
    have hp := hpert ψ (M / 2 ^ 23) h hM23 hh (hnear h ⟨hh.1, by linarith [hh.2]⟩) (hnear (2 * h) ⟨by linarith [hh.1], by linarith [hh.2]⟩) B hB
    have hd2 : ‖OneStep.double (fun q : ℝ × (Fin n → ℂ) => ipStep (linPart Q 1) (nonPart Q 1) q.1 q.2) α α' h B‖ ≤ M2 :=
      hM2 (h, B) ⟨⟨hh.1, by linarith [hh.2]⟩, by rw [mem_closedBall_zero_iff]; exact hB⟩
    have eD : doubleStep P h B = OneStep.double (fun q : ℝ × (Fin n → ℂ) => ipStep (linPart Q 1) (nonPart Q 1) q.1 q.2) α α' h B := by
      unfold doubleStep
      rw [e, he, hr]
      rfl
    have eS : singleStep P h B = toSingle (α • ψ h (ψ h B) - α' • ψ (2 * h) B) := by
      unfold singleStep
      rw [e, he, hr]
    rw [eS, eD]
    set X := α • ψ h (ψ h B) - α' • ψ (2 * h) B with hX
    set Z := OneStep.double (fun q : ℝ × (Fin n → ℂ) => ipStep (linPart Q 1) (nonPart Q 1) q.1 q.2) α α' h B with hZ
    have hXn : ‖X‖ ≤ M := by
      calc ‖X‖ = ‖(X - Z) + Z‖ := by congr 1; abel
        _ ≤ ‖X - Z‖ + ‖Z‖ := norm_add_le _ _
        _ ≤ D * 1 + M2 := add_le_add (hp.trans (mul_le_mul_of_nonneg_left hM23 hD)) hd2
        _ ≤ M := by linarith
    calc ‖toSingle X - Z‖ = ‖(toSingle X - X) + (X - Z)‖ := by congr 1; abel
      _ ≤ M / 2 ^ 23 + D * (M / 2 ^ 23) := (norm_add_le _ _).trans (add_le_add (toSingle_near X m1 hXn) hp)
      _ = W / 2 ^ 24 := by rw [hW]; ring
  have hcomp' : Computed P δ hmx (fun h A A' => ‖A‖ ≤ ρ → ‖A' - doubleStep P h A‖ ≤ W / 2 ^ 24) (toSingle (fftshift (U 0))) A c z k := by
    clear hsmall hzΛ hk0
    induction hcomp with
    | start dz h => exact .start dz h
    | rejected h hd e he ih => exact .rejected ih hd e he
    | accepted h hd e he hle hs ih =>
      obtain ⟨m0, h0, -, hi⟩ := h.pos hOk hδ
      refine .accepted ih hd e he hle fun hA => ?_
      rw [hs]
      exact hstep _ ⟨(h0.trans_le hi.lower).le, hle.trans (hhm.2.trans h1le)⟩ _ hA
    | next h hd ih => exact .next ih hd
  have hstart : ‖toSingle (fftshift (U 0)) - fftshift (U 0)‖ ≤ W / 2 ^ 24 := by
    refine (toSingle_near _ m1 m2).trans ?_
    have : W / 2 ^ 24 = M / 2 ^ 23 * (D + 1) := by rw [hW]; ring
    rw [this]
    exact le_mul_of_one_le_right (by positivity) (by linarith)
  have hres := hcore P hOk hP hm he δ hδ hmx hhm _ A c z k (W / 2 ^ 24) (W / 2 ^ 24) (by positivity) hstart hcomp' hzΛ (by
    have : C * (W / 2 ^ 24 + k * (W / 2 ^ 24)) = C * W * (k + 1) / 2 ^ 24 := by ring
    rw [this, div_le_one (by positivity)]
    exact hsmall)
  refine hres.trans ?_
  have hp : 0 ≤ hmx ^ q := pow_nonneg hhm.1.le _
  have : C * W * (hmx ^ q + (k + 1) / 2 ^ 24) = C * (W * hmx ^ q + W / 2 ^ 24 + k * (W / 2 ^ 24)) := by ring
  rw [this]
  refine mul_le_mul_of_nonneg_left ?_ hC0
  have : hmx ^ q ≤ W * hmx ^ q := le_mul_of_one_le_left hp (by linarith)
  linarith

/-- one segment of the exact program is one of the computations -/
theorem Computed.run {P : Params n} {δ hm : ℝ} {step : ℝ → (Fin n → ℂ) → (Fin n → ℂ) → Prop} {A0 : Fin n → ℂ} {adv : ℝ → (Fin n → ℂ) → Fin n → ℂ}
    (hstep : ∀ h A, step h A (richardson P.eta (adv h (adv h A)) (adv (2 * h) A))) {s : Spec.St n} {z : ℝ} {m : ℕ}
    (h : Computed P δ hm step A0 s.A s.ctrl z m) (k : ℕ)
    (hle : ∀ x ∈ (ctrlRun P.cfg (fun j => .val (Spec.stErr adv (Spec.run P.cfg P.eta adv s j))) s.ctrl k).2, x.1 ≤ hm) :
    Computed P δ hm step A0 (Spec.run P.cfg P.eta adv s k).A (Spec.run P.cfg P.eta adv s k).ctrl
      (z + span ((ctrlRun P.cfg (fun j => .val (Spec.stErr adv (Spec.run P.cfg P.eta adv s j))) s.ctrl k).2.map Prod.fst))
      (m + (ctrlRun P.cfg (fun j => .val (Spec.stErr adv (Spec.run P.cfg P.eta adv s j))) s.ctrl k).2.length) := by
  induction k with
  | zero => simpa [Spec.run, ctrlRun] using h
  | succ k ih =>
    have hc := Spec.run_ctrl P.cfg P.eta adv s k
    by_cases hd : (Spec.run P.cfg P.eta adv s k).ctrl.dist > 0
    · have hd' := hd
      rw [hc] at hd'
      rw [ctrlRun_succ_pos hd'] at hle ⊢
      rw [Spec.run_succ_pos hd]
      set e : Err := .val (Spec.stErr adv (Spec.run P.cfg P.eta adv s k)) with he
      set l := (ctrlRun P.cfg (fun j => .val (Spec.stErr adv (Spec.run P.cfg P.eta adv s j))) s.ctrl k) with hl
      have hbody : Spec.body P.cfg P.eta adv (Spec.run P.cfg P.eta adv s k) = match ctrlBody P.cfg l.1 e with
          | (false, ctrl) => ⟨(Spec.run P.cfg P.eta adv s k).A, (Spec.run P.cfg P.eta adv s k).iter, ctrl⟩
          | (true, ctrl) => ⟨richardson P.eta (adv l.1.dz (adv l.1.dz (Spec.run P.cfg P.eta adv s k).A)) (adv (2 * l.1.dz) (Spec.run P.cfg P.eta adv s k).A),
              (Spec.run P.cfg P.eta adv s k).iter + 1, ctrl⟩ := by
        unfold Spec.body
        rw [hc, ← he]
        rcases ctrlBody P.cfg l.1 e with ⟨ok, ctrl⟩
        cases ok <;> rfl
      rw [hbody]
      rw [hc] at ih hd
      rcases hcb : ctrlBody P.cfg l.1 e with ⟨ok, ctrl⟩
      have hcb' : ctrlBody P.cfg l.1 e = (ok, ctrl) := hcb
      simp only [hcb'] at hle ⊢
      cases ok
      · simp only [Bool.false_eq_true, if_false] at hle ⊢
        have := Computed.rejected (ih hle) hd e (by rw [hcb'])
        rw [hcb'] at this
        exact this
      · simp only [if_true] at hle ⊢
        have h1 := ih fun x hx => hle x (List.mem_append_left _ hx)
        have h2 := Computed.accepted h1 hd e (by rw [hcb']) (hle (l.1.dz, e) (by simp)) (hstep l.1.dz _)
        rw [hcb'] at h2
        rw [List.map_append, span_append, List.length_append]
        simp only [List.map_cons, List.map_nil, span_cons, span_nil, add_zero, List.length_cons, List.length_nil, zero_add]
        rw [← add_assoc, ← add_assoc]
        exact h2
    · have hd' := hd
      rw [hc] at hd'
      rw [ctrlRun_succ_neg hd'] at hle ⊢
      rw [Spec.run_succ_neg hd]
      exact ih hle

/-- C164: the segments of the program itself are such a computation, one without errors. -/
theorem C164_exact {P : Params n} {δ hm : ℝ} {N : ℕ} {S : ℕ → Field n} (h0 : 0 < (S 0).dz) (hS : ∀ i < N, integrate P δ 1 (S i) = some (S (i + 1)))
    (hP : P.Ok) (hδ : 0 < δ) : ∃ l : ℕ → List ℝ, (∀ i < N, Accepts P δ 1 (S i) (l i) (S (i + 1))) ∧ ((∀ i < N, ∀ h ∈ l i, h ≤ hm) →
      ∀ i ≤ N, Computed P δ hm (fun h A A' => A' = doubleStep P h A) (S 0).A (S i).A (ctrlStart (S i).dz δ) (span (upTo l i)) (upTo l i).length) := by
  obtain ⟨l, hl⟩ := accepts_all hP hδ 1 h0 hS
  refine ⟨l, hl, fun hle i => ?_⟩
  induction i with
  | zero => exact fun _ => .start _ h0
  | succ i ih =>
    intro hi
    obtain ⟨s, lg, ⟨k, hk, hfin⟩, hl1, hdz⟩ := (hl i (by omega)).log
    have hlog := Spec.run_log P.cfg P.eta (Spec.adv P 1) ⟨(S i).A, (S i).iter, ctrlStart (S i).dz δ⟩ k
    have hctrl := Spec.run_ctrl P.cfg P.eta (Spec.adv P 1) ⟨(S i).A, (S i).iter, ctrlStart (S i).dz δ⟩ k
    have hk' : ctrlRun P.cfg (fun j => .val (Spec.stErr (Spec.adv P 1) (Spec.run P.cfg P.eta (Spec.adv P 1) ⟨(S i).A, (S i).iter, ctrlStart (S i).dz δ⟩ j)))
        (ctrlStart (S i).dz δ) k = (s, lg) := hk
    have hr := Computed.run (adv := Spec.adv P 1) (step := fun h A A' => A' = doubleStep P h A) (fun h A => rfl) (s := ⟨(S i).A, (S i).iter, ctrlStart (S i).dz δ⟩) (ih (by omega)) k (by
      simp only
      rw [hk']
      intro x hx
      exact hle i (by omega) x.1 (by rw [hl1]; exact List.mem_map_of_mem hx))
    rw [hctrl, hlog.1] at hr
    simp only at hr
    rw [hk'] at hr
    have h2 := Computed.next hr hfin
    simp only at h2
    rw [← hdz, ← hl1, ← (hl i (by omega)).field] at h2
    have e1 : lg.length = (l i).length := by rw [hl1, List.length_map]
    rw [e1] at h2
    rw [upTo, span_append, List.length_append]
    exact h2

/-- Steps rounded to single precision: a segment no longer than twice the stored step, done in one accepted step. -/
theorem C164_nonvacuous {P : Params n} {δ dz : ℝ} (hδ : 0 < δ) (hdz : δ < 2 * dz) (hl : 0 ≤ P.localError) (A : Fin n → ℂ) :
    ∃ c, Computed P δ (δ / 2) (fun h A A' => A' = singleStep P h A) A (singleStep P (δ / 2) A) c δ 1 := by
  have hs : (ctrlStart dz δ).dz = δ / 2 := by
    unfold ctrlStart
    rw [if_pos hdz]
  have hacc : (ctrlBody P.cfg (ctrlStart dz δ) (.val 0)).1 = true := by
    rcases ctrlBody_cases P.cfg (ctrlStart dz δ) (.val 0) with ⟨h1, h2⟩ | ⟨x, -, h1, -⟩
    · exfalso
      unfold ctrlBody at h1
      rcases judge_cases P.cfg (ctrlStart dz δ).dz (.val 0) with ⟨h, -, h3⟩ | ⟨h, -⟩ | ⟨h, -, -⟩ | ⟨h, -⟩
      · have : (0 : ℝ) > 2 * P.localError := h3
        linarith
      all_goals
        rw [h] at h1
        simp at h1
    · rw [h1]
  have h := Computed.accepted (step := fun h A A' => A' = singleStep P h A) (hm := δ / 2) (P := P) (.start (A0 := A) dz (by linarith)) (by exact hδ) (.val 0) hacc
    (by rw [hs]) rfl
  rw [hs] at h
  exact ⟨_, by simpa [mul_div_cancel₀] using h⟩

end PyNLO.Ssfm
