import Verif.Lemmas.SsfmSteep
import Verif.Props.SelfPhase
import Verif.Props.SsfmOrder

/-! # C125: `propagate` with its default settings (self-steepening and Raman response switched on) -/

namespace PyNLO

open Complex Ssfm Pulse Set
open scoped Topology ContDiff

variable {n : ℕ}

/-- `U` satisfies the propagation equation with self-steepening between `a` and `b` -/
def SolvesShock (β : Fin n → ℝ) (g : ℝ) (R : Fin n → ℂ) (γ w0 : ℝ) (Ω : Fin n → ℝ) (a b : ℝ) (U : ℝ → Fin n → ℂ) : Prop :=
  ∀ z ∈ Ioo a b, HasDerivAt U (Gnlse.rhs β g R γ (U z) + Gnlse.shock R γ w0 Ω (U z)) z

/-- the same for the equation that the code solves above its threshold: one term is multiplied by `U/(1e-20+U)` -/
def SolvesShockReg (β : Fin n → ℝ) (g : ℝ) (R : Fin n → ℂ) (γ w0 : ℝ) (Ω : Fin n → ℝ) (a b : ℝ) (U : ℝ → Fin n → ℂ) : Prop :=
  ∀ z ∈ Ioo a b, (∀ j, 10 ^ (-15 : ℤ) < ‖U z j‖) ∧
    HasDerivAt U (Gnlse.rhs β g R γ (U z) + Gnlse.shockReg (10 ^ (-20 : ℤ)) R γ w0 Ω (U z)) z

theorem response_shift (R U : Fin n → ℂ) : Gnlse.induced (fftshift R) (fftshift U) = fftshift (Gnlse.response R U) := by
  unfold Gnlse.response
  rw [toTime_mul]
  exact applySpec_roll (fftshift R) (fun i => U i * (starRingEnd ℂ) (U i)) _

theorem dt_shift (Ω : Fin n → ℝ) (U : Fin n → ℂ) : Gnlse.ddt (fftshift Ω) (fftshift U) = fftshift (Gnlse.dt Ω U) := by
  unfold Gnlse.dt
  rw [toTime_mul]
  exact applySpec_roll (fftshift fun k => -I * (Ω k : ℂ)) U _

theorem shockReg_shift (ε : ℂ) (R : Fin n → ℂ) (γ w0 : ℝ) (Ω : Fin n → ℝ) (U : Fin n → ℂ) :
    Gnlse.steepeningReg ε (fftshift R) γ w0 (fftshift Ω) (fftshift U) = fftshift (Gnlse.shockReg ε R γ w0 Ω U) := by
  funext j
  simp only [Gnlse.steepeningReg, response_shift, dt_shift]
  rfl

theorem rhs_shift_parts {P : Params n} {β : Fin n → ℝ} {g : ℝ} {R : Fin n → ℂ} {γ : ℝ} (h1 : P.betas = fftshift β) (h2 : P.alpha = fun _ => -g)
    (h3 : P.R = fftshift R) (h4 : P.gamma = γ) (U : Fin n → ℂ) :
    fftshift (Gnlse.rhs β g R γ U) = applySpec (linPart P 1) (fftshift U) + Gnlse.kerr P.R P.gamma (fftshift U) := by
  have h := rhs_shift (P := { P with disableSS := true }) (g := g) (γ := γ) (β := β) (R := R) ⟨h1, h2, h3, h4, rfl⟩ U
  rw [nonPart_kerr rfl, one_smul] at h
  exact h

/-- above the threshold the integrator's right-hand side is that of the equation -/
theorem rhs_shift_shock {P : Params n} {β : Fin n → ℝ} {g : ℝ} {R : Fin n → ℂ} {γ w0 : ℝ} {Ω : Fin n → ℝ} (h1 : P.betas = fftshift β)
    (h2 : P.alpha = fun _ => -g) (h3 : P.R = fftshift R) (h4 : P.gamma = γ) (h5 : P.disableSS = false) (h6 : P.omegas = fftshift Ω) (h7 : P.w0 = w0)
    {U : Fin n → ℂ} (hU : ∀ j, 10 ^ (-15 : ℤ) < ‖U j‖) :
    fftshift (Gnlse.rhs β g R γ U + Gnlse.shockReg (10 ^ (-20 : ℤ)) R γ w0 Ω U) =
      applySpec (linPart P 1) (fftshift U) + nonPart P 1 (fftshift U) := by
  have e1 := rhs_shift_parts h1 h2 h3 h4 U
  have e2 : nonPart P 1 (fftshift U) = Gnlse.kerr P.R P.gamma (fftshift U) + fftshift (Gnlse.shockReg (10 ^ (-20 : ℤ)) R γ w0 Ω U) := by
    rw [← shockReg_shift, ← h3, ← h6, ← h7, ← h4]
    funext j
    have := nonlinear_steep h5 (fftshift U) j (hU _)
    simp only [nonPart, ofReal_one, one_mul, this, Pi.add_apply]
  rw [e2, ← add_assoc, ← e1]
  rfl

section
variable {polyfit : Fiber.PolyFit} {spline : Fiber.Spline} {o : Obj} {p : Pulse} {F : FibObj} {f1 : Fiber.Fib} {β : Fin p.n → ℝ}
  {g γ fR : ℝ} {R : Fin p.n → ℂ} {Ω : Fin p.n → ℝ}

/-- C125: with self-steepening the columns of `AT` converge to the solution of the equation with the regularised steepening term, as long
as that solution has no sample at or below the threshold of 1e-15; the error is at most a constant divided by `n_steps⁵`. -/
theorem C125_converges {a : Fin p.n → ℂ} (hp : Holds p a) (he : p.n % 2 = 0) (hcf : p.cf ≠ 0) (h : Loads polyfit spline o p F f1 β g R γ fR)
    {L : ℝ} (hL : F.fib.length = some L) (hpos : 0 < L) (hm : o.method = .rk4ip) (heta : o.eta = 5) (hss : o.disableSS = false) (hdz : 0 < o.dz)
    (hmin : 0 < o.dzMin) (hle : 0 < o.localError) (hΩ : p.V_THz = .ok ⟨p.n, Ω⟩) {x b : ℝ} (hx : x < 0) (hb : L < b) {U : ℝ → Fin p.n → ℂ}
    (hU : SolvesShockReg β g R γ (2 * Real.pi * p.center_frequency_THz) Ω x b U) (hU0 : p.AT = .ok ⟨p.n, U 0⟩) :
    ∃ (N0 : ℕ) (C : ℝ), ∀ N, N0 ≤ N → ∃ r o' F', propagate polyfit spline o p F N false = some (.ok (r, o', F')) ∧ r.AT.length = N ∧
      ∀ i < N, ∃ v : Fin p.n → ℂ, r.AT[i]? = some ⟨p.n, v⟩ ∧ ∀ j, ‖v j - U ((i + 1) * (L / N)) j‖ ≤ C / N ^ 5 := by
  obtain ⟨P0, P, hs, hl, hc, -⟩ := setup_carries hp h
  have hA : U 0 = ifftT a := by
    rw [hp.AT_eq] at hU0
    have := Except.ok.inj hU0
    simp only [Vec.mk.injEq, heq_eq_eq, true_and] at this
    exact this.symm
  have hΩ' : Ω = fun i : Fin p.n => 2 * Real.pi * ((i : ℕ) - (p.n : ℝ) / 2) / p.tw := by
    have e : p.V_THz = .ok ⟨p.n, fun i => 2 * Real.pi * ((i : ℕ) - (p.n : ℝ) / 2) / p.tw⟩ := hp.V_eq
    rw [e] at hΩ
    have := Except.ok.inj hΩ
    simp only [Vec.mk.injEq, heq_eq_eq, true_and] at this
    exact this.symm
  have hP : P.Ok := ⟨by rw [hc.dzMin]; exact hmin, by rw [hc.eta, heta]; norm_num⟩
  obtain ⟨N0, C, hN0, hconv⟩ := segments_converge_above hp.pos hP (hc.method.trans hm) (hc.eta.trans heta) (by rw [hc.localError]; exact hle)
    (dir := 1) (A := fftshift (ifftT a)) (Y := fun z => fftshift (U z)) hdz hpos hx hb (by rw [hA]) (fun z hz => by
      rw [← rhs_shift_shock (Ω := Ω) (w0 := 2 * Real.pi * p.center_frequency_THz) hc.betas hc.alpha hc.resp hc.gamma (hc.ss.trans hss)
        (by rw [hc.omegas, hΩ']) (by rw [hc.w0]; show p.cf * 2 * Real.pi = 2 * Real.pi * p.cf; ring) (hU z hz).1, hasDerivAt_pi]
      intro j
      exact (hasDerivAt_pi.1 (hU z hz).2) _) (fun z hz j => (hU z hz).1 _)
  refine ⟨N0, C, fun N hN => ?_⟩
  obtain ⟨r, o', hr, -⟩ := C43_returns (hN0.trans hN) hL hpos hp hcf hs hl hdz hmin (by rw [heta]; norm_num)
  obtain ⟨S, s1, s2, s3, s4⟩ := propagate_trace hr hp he hL hs hl
  refine ⟨r, o', _, hr, by rw [s4]; simp, fun i hi => ⟨ifftshift (S (i + 1)).A, by rw [s4]; simp [hi], fun j => ?_⟩⟩
  have := hconv N hN S s1 s2 s3 (i + 1) (by omega)
  have h2 := (norm_le_pi_norm ((S (i + 1)).A - fftshift (U ((i + 1 : ℕ) * (L / N)))) (rollIdx (-((p.n / 2 : ℕ) : ℤ)) j)).trans this
  have e : fftshift (U ((i + 1 : ℕ) * (L / N))) (rollIdx (-((p.n / 2 : ℕ) : ℤ)) j) = U ((i + 1) * (L / N)) j := by
    have := congrFun (ifftshift_fftshift (U ((i + 1 : ℕ) * (L / N)))) j
    simpa [ifftshift, roll] using this
  rw [Pi.sub_apply, e] at h2
  exact h2

end

/-! ## the regularised term -/

/-- the regularised term differs from the steepening term by less than 1.0001e-5 of `|γ/ω₀|·|R∗|U|²|·|∂ₜU|` -/
theorem shock_close (R : Fin n → ℂ) (γ w0 : ℝ) (Ω : Fin n → ℝ) {U : Fin n → ℂ} {j : Fin n} (hj : 10 ^ (-15 : ℤ) < ‖U j‖) :
    ‖Gnlse.shockReg (10 ^ (-20 : ℤ)) R γ w0 Ω U j - Gnlse.shock R γ w0 Ω U j‖ ≤
      1.0001e-5 * (|γ / w0| * ‖Gnlse.response R U j‖ * ‖Gnlse.dt Ω U j‖) := by
  have e : ‖(10 : ℂ) ^ (-20 : ℤ)‖ = (10 : ℝ) ^ (-20 : ℤ) := by rw [norm_zpow]; norm_num
  have h1 : (10 : ℝ) ^ (-15 : ℤ) - 10 ^ (-20 : ℤ) < ‖(10 : ℂ) ^ (-20 : ℤ) + U j‖ := by
    have := norm_sub_norm_le (U j) (-(10 : ℂ) ^ (-20 : ℤ))
    rw [norm_neg, e, sub_neg_eq_add, add_comm (U j)] at this
    linarith
  have h2 : (0 : ℝ) < 10 ^ (-15 : ℤ) - 10 ^ (-20 : ℤ) := by norm_num
  have hq : ‖(10 : ℂ) ^ (-20 : ℤ)‖ / ‖(10 : ℂ) ^ (-20 : ℤ) + U j‖ ≤ 1.0001e-5 := by
    rw [e, div_le_iff₀ (h2.trans h1)]
    refine le_trans ?_ (mul_le_mul_of_nonneg_left h1.le (by norm_num))
    norm_num
  have hne : (10 : ℂ) ^ (-20 : ℤ) + U j ≠ 0 := norm_pos_iff.1 (h2.trans h1)
  have e2 : U j / ((10 : ℂ) ^ (-20 : ℤ) + U j) = 1 - (10 : ℂ) ^ (-20 : ℤ) / ((10 : ℂ) ^ (-20 : ℤ) + U j) := by
    rw [eq_sub_iff_add_eq, ← add_div, add_comm, div_self hne]
  have e3 : Gnlse.shockReg (10 ^ (-20 : ℤ)) R γ w0 Ω U j - Gnlse.shock R γ w0 Ω U j =
      ((γ / w0 : ℝ) : ℂ) * Gnlse.response R U j * Gnlse.dt Ω U j * ((10 : ℂ) ^ (-20 : ℤ) / ((10 : ℂ) ^ (-20 : ℤ) + U j)) := by
    simp only [Gnlse.shockReg, Gnlse.shock, e2]
    ring
  rw [e3, norm_mul, norm_mul, norm_mul, norm_div, norm_real, Real.norm_eq_abs, mul_comm]
  exact mul_le_mul_of_nonneg_right hq (by positivity)

/-- C125: a solution `V` of the regularised equation stays close to the solution `U` of the propagation equation with the same initial
field: `K` is a Lipschitz constant of that equation's right-hand side on the ball of radius `B` that holds both, and `M` bounds
`|γ/ω₀|·|R∗|V|²|·|∂ₜV|`. -/
theorem C125_regularised {β : Fin n → ℝ} {g : ℝ} {R : Fin n → ℂ} {γ w0 : ℝ} {Ω : Fin n → ℝ} {a b : ℝ} {U V : ℝ → Fin n → ℂ} (hn : 0 < n) (ha : a < 0)
    (hU : SolvesShock β g R γ w0 Ω a b U) (hV : SolvesShockReg β g R γ w0 Ω a b V) (h0 : U 0 = V 0) {L B M : ℝ} {K : NNReal} (hL : L < b)
    (hK : LipschitzOnWith K (fun W => Gnlse.rhs β g R γ W + Gnlse.shock R γ w0 Ω W) (Metric.closedBall 0 B))
    (hUB : ∀ z ∈ Icc 0 L, ‖U z‖ ≤ B) (hVB : ∀ z ∈ Icc 0 L, ‖V z‖ ≤ B)
    (hM : ∀ z ∈ Icc 0 L, ∀ j, |γ / w0| * ‖Gnlse.response R (V z) j‖ * ‖Gnlse.dt Ω (V z) j‖ ≤ M) :
    ∀ z ∈ Icc 0 L, ‖V z - U z‖ ≤ gronwallBound 0 K (1.0001e-5 * M) z := by
  intro z hz
  have hin : ∀ t ∈ Icc 0 L, t ∈ Ioo a b := fun t ht => ⟨by linarith [ht.1], by linarith [ht.2]⟩
  have hM0 : 0 ≤ M := le_trans (by positivity) (hM z hz ⟨0, hn⟩)
  have := dist_le_of_approx_trajectories_ODE_of_mem (v := fun _ W => Gnlse.rhs β g R γ W + Gnlse.shock R γ w0 Ω W)
    (s := fun _ => Metric.closedBall 0 B) (K := K) (a := 0) (b := L) (δ := 0) (εf := 1.0001e-5 * M) (εg := 0) (f := V) (g := U)
    (f' := fun t => Gnlse.rhs β g R γ (V t) + Gnlse.shockReg (10 ^ (-20 : ℤ)) R γ w0 Ω (V t))
    (g' := fun t => Gnlse.rhs β g R γ (U t) + Gnlse.shock R γ w0 Ω (U t))
    (fun _ _ => hK) (fun t ht => (hV t (hin t ht)).2.continuousAt.continuousWithinAt)
    (fun t ht => (hV t (hin t ⟨ht.1, ht.2.le⟩)).2.hasDerivWithinAt) (fun t ht => by
      rw [dist_eq_norm, add_sub_add_left_eq_sub]
      refine (pi_norm_le_iff_of_nonneg (by positivity)).2 fun j => ?_
      refine (shock_close R γ w0 Ω ((hV t (hin t ⟨ht.1, ht.2.le⟩)).1 j)).trans ?_
      exact mul_le_mul_of_nonneg_left (hM t ⟨ht.1, ht.2.le⟩ j) (by norm_num))
    (fun t ht => by rw [mem_closedBall_zero_iff]; exact hVB t ⟨ht.1, ht.2.le⟩)
    (fun t ht => (hU t (hin t ht)).continuousAt.continuousWithinAt)
    (fun t ht => (hU t (hin t ⟨ht.1, ht.2.le⟩)).hasDerivWithinAt) (fun t ht => by rw [dist_self])
    (fun t ht => by rw [mem_closedBall_zero_iff]; exact hUB t ⟨ht.1, ht.2.le⟩)
    (by rw [h0, dist_self]) z hz
  rwa [add_zero, sub_zero, dist_eq_norm] at this

/-- C125: the right-hand side of the equation is smooth, so that it has a Lipschitz constant on every ball. -/
theorem C125_lipschitz (β : Fin n → ℝ) (g : ℝ) (R : Fin n → ℂ) (γ w0 : ℝ) (Ω : Fin n → ℝ) (B : ℝ) :
    ∃ K : NNReal, LipschitzOnWith K (fun W => Gnlse.rhs β g R γ W + Gnlse.shock R γ w0 Ω W) (Metric.closedBall 0 B) := by
  have h1 : ContDiff ℝ 1 fun U : Fin n → ℂ => Gnlse.response R U := by
    have e : (fun U : Fin n → ℂ => Gnlse.response R U) = fun U => applySpec (fftshift R) (absSq U) := by
      funext U
      unfold Gnlse.response
      rw [toTime_mul, absSq_eq]
    rw [e]
    exact contDiff_iff_contDiffAt.2 fun _ => applySpec_contDiffAt contDiffAt_const absSq_contDiff.contDiffAt
  have hdt : ∀ f : (Fin n → ℂ) → Fin n → ℂ, ContDiff ℝ 1 f → ContDiff ℝ 1 fun U => Gnlse.dt Ω (f U) := by
    intro f hf
    have e : (fun U : Fin n → ℂ => Gnlse.dt Ω (f U)) = fun U => applySpec (fftshift fun k => -I * (Ω k : ℂ)) (f U) := by
      funext U
      unfold Gnlse.dt
      rw [toTime_mul]
    rw [e]
    exact contDiff_iff_contDiffAt.2 fun _ => applySpec_contDiffAt contDiffAt_const hf.contDiffAt
  have h2 := hdt _ h1
  have h3 := hdt _ contDiff_id
  have hs : ContDiff ℝ 1 fun W : Fin n → ℂ => Gnlse.shock R γ w0 Ω W := by
    rw [contDiff_pi] at h1 h2 h3 ⊢
    intro j
    exact contDiff_const.mul (((contDiff_apply ℝ ℂ j).mul (h2 j)).add ((h1 j).mul (h3 j)))
  have hf : ContDiff ℝ 1 fun W : Fin n → ℂ => Gnlse.rhs β g R γ W + Gnlse.shock R γ w0 Ω W := (rhs_contDiff β g R γ).add hs
  exact hf.contDiffOn.exists_lipschitzOnWith one_ne_zero (convex_closedBall 0 B) (isCompact_closedBall 0 B)

/-! ## solutions -/

/-- C125: from every initial field whose samples all exceed the threshold there is a solution over some distance. -/
theorem C125_exists (β : Fin n → ℝ) (g : ℝ) (R : Fin n → ℂ) (γ w0 : ℝ) (Ω : Fin n → ℝ) {A : Fin n → ℂ} (hA : ∀ j, 10 ^ (-15 : ℤ) < ‖A j‖) :
    ∃ T > 0, ∃ U, SolvesShockReg β g R γ w0 Ω (-T) T U ∧ U 0 = A := by
  obtain ⟨P, h1, h2, h3, h4, h5, h6, h7⟩ : ∃ P : Params n, P.betas = fftshift β ∧ (P.alpha = fun _ => -g) ∧ P.R = fftshift R ∧ P.gamma = γ ∧
      P.disableSS = false ∧ P.omegas = fftshift Ω ∧ P.w0 = w0 :=
    ⟨{ betas := fftshift β, alpha := fun _ => -g, omegas := fftshift Ω, R := fftshift R, gamma := γ, w0 := w0, disableSS := false, method := .rk4ip, eta := 5, localError := 1, dzMin := 1 }, rfl, rfl, rfl, rfl, rfl, rfl, rfl⟩
  have hA' : ∀ j, 10 ^ (-15 : ℤ) < ‖fftshift A j‖ := fun j => hA _
  have hcd : ContDiffAt ℝ 1 (fun B => applySpec (linPart P 1) B + nonPart P 1 B) (fftshift A) :=
    (applySpec_contDiffAt contDiffAt_const contDiffAt_id).add (nonPart_contDiffAt 1 (Or.inr hA'))
  obtain ⟨Y, hY0, ε, hε, hY⟩ := hcd.exists_forall_mem_closedBall_exists_eq_forall_mem_Ioo_hasDerivAt₀ 0
  have hc : ContinuousAt Y 0 := (hY 0 ⟨by linarith, by linarith⟩).continuousAt
  have hopen : ∀ᶠ z in 𝓝 (0 : ℝ), ∀ j, 10 ^ (-15 : ℤ) < ‖Y z j‖ := by
    rw [Filter.eventually_all]
    intro j
    have hc' : ContinuousAt (fun z => ‖Y z j‖) 0 := ((continuous_apply j).continuousAt.comp hc).norm
    refine hc'.eventually (lt_mem_nhds ?_)
    show 10 ^ (-15 : ℤ) < ‖Y 0 j‖
    rw [hY0]
    exact hA' j
  obtain ⟨δ, hδ, hball⟩ := Metric.eventually_nhds_iff.1 hopen
  refine ⟨min ε δ, lt_min hε hδ, fun z => ifftshift (Y z), fun z hz => ?_, ?_⟩
  · have hz1 : z ∈ Ioo (0 - ε) (0 + ε) := by
      have := min_le_left ε δ
      exact ⟨by linarith [hz.1], by linarith [hz.2]⟩
    have hz2 : ∀ j, 10 ^ (-15 : ℤ) < ‖Y z j‖ := hball (by
      have := min_le_right ε δ
      rw [Real.dist_eq, sub_zero, abs_lt]
      exact ⟨by linarith [hz.1], by linarith [hz.2]⟩)
    have hz3 : ∀ j, 10 ^ (-15 : ℤ) < ‖ifftshift (Y z) j‖ := fun j => hz2 _
    refine ⟨hz3, ?_⟩
    have e := rhs_shift_shock h1 h2 h3 h4 h5 h6 h7 hz3
    rw [fftshift_ifftshift] at e
    have hd := hY z hz1
    rw [← e] at hd
    rw [hasDerivAt_pi] at hd ⊢
    intro j
    have := hd (rollIdx (-((n / 2 : ℕ) : ℤ)) j)
    have e2 := congrFun (ifftshift_fftshift (Gnlse.rhs β g R γ (ifftshift (Y z)) + Gnlse.shockReg (10 ^ (-20 : ℤ)) R γ w0 Ω (ifftshift (Y z)))) j
    refine this.congr_deriv ?_
    rw [← e2]
    rfl
  · show ifftshift (Y 0) = A
    rw [hY0, ifftshift_fftshift]

theorem planeWave_smul (b g γ r : ℝ) {A : Fin n → ℂ} {k0 : Fin n} (h : OneBin A k0) (z : ℝ) : ∃ c : ℂ, planeWave b g γ r A z = fun i => c * A i := by
  by_cases hn : 0 < n
  · refine ⟨exp (I * ((b * z : ℝ) : ℂ) + ((g * z / 2 : ℝ) : ℂ) + I * ((γ * r * ‖A ⟨0, hn⟩‖ ^ 2 * Gnlse.leff g z : ℝ) : ℂ)), ?_⟩
    funext i
    rw [planeWave, h.norm i, h.norm ⟨0, hn⟩]
  · exact ⟨0, funext fun i => absurd i.pos hn⟩

theorem planeWave_norm (b g γ r : ℝ) (A : Fin n → ℂ) (z : ℝ) (j : Fin n) : ‖planeWave b g γ r A z j‖ ^ 2 = Real.exp (g * z) * ‖A j‖ ^ 2 := by
  rw [planeWave, norm_phase]

/-- C125: continuous waves of the equation with self-steepening: the nonlinear coefficient of a field in one bin is multiplied by its
frequency relative to the carrier's. -/
theorem C125_wave (hn : 0 < n) {A : Fin n → ℂ} {k0 : Fin n} (h : OneBin A k0) (β : Fin n → ℝ) (g : ℝ) {R : Fin n → ℂ} {r : ℝ}
    (hR : R (carrier hn) = r) (γ : ℝ) {w0 : ℝ} (hw0 : w0 ≠ 0) {Ω : Fin n → ℝ} (hΩ : Ω (carrier hn) = 0) (a b : ℝ) :
    SolvesShock β g R γ w0 Ω a b (planeWave (β k0) g (γ * ((w0 + Ω k0) / w0)) r A) ∧
      planeWave (β k0) g (γ * ((w0 + Ω k0) / w0)) r A 0 = A := by
  obtain ⟨h1, h2⟩ := C124_solution hn h β g hR (γ * ((w0 + Ω k0) / w0)) a b
  refine ⟨fun z hz => (h1 z hz).congr_deriv ?_, h2⟩
  obtain ⟨c, hc⟩ := planeWave_smul (β k0) g (γ * ((w0 + Ω k0) / w0)) r h z
  set W := planeWave (β k0) g (γ * ((w0 + Ω k0) / w0)) r A z with hW
  have hWb : OneBin W k0 := by rw [hc]; exact h.smul c
  obtain ⟨P, hP⟩ : ∃ P : ℝ, (fun i => W i * (starRingEnd ℂ) (W i)) = fun _ => (P : ℂ) := by
    refine ⟨‖Gnlse.toFreq W k0‖ ^ 2, funext fun i => ?_⟩
    rw [mul_conj, normSq_eq_norm_sq, hWb.norm i]
  have hresp : Gnlse.response R W = fun _ => ((r * P : ℝ) : ℂ) := by
    unfold Gnlse.response
    rw [hP, (oneBin_const hn _).multiply R, hR]
    funext _
    rw [ofReal_mul]
  have hd1 : Gnlse.dt Ω (Gnlse.response R W) = fun _ => 0 := by
    unfold Gnlse.dt
    rw [hresp, (oneBin_const hn _).multiply fun k => -I * (Ω k : ℂ), hΩ]
    simp
  have hd2 : Gnlse.dt Ω W = fun j => -I * Ω k0 * W j := by
    unfold Gnlse.dt
    rw [hWb.multiply fun k => -I * (Ω k : ℂ)]
  funext j
  have hr : ∀ γ' : ℝ, Gnlse.rhs β g R γ' W j = Gnlse.toTime (fun k => (I * β k + g / 2) * Gnlse.toFreq W k) j + I * γ' * W j * ((r * P : ℝ) : ℂ) := by
    intro γ'
    have := congrFun hresp j
    unfold Gnlse.response at this
    unfold Gnlse.rhs
    rw [this]
  simp only [Pi.add_apply, hr, Gnlse.shock, hd1, hd2]
  simp only [hresp]
  have hw : (w0 : ℂ) ≠ 0 := by exact_mod_cast hw0
  push_cast
  field_simp
  ring

/-- at the carrier the regularised term vanishes as well -/
theorem wave_regularised (hn : 0 < n) {A : Fin n → ℂ} {k0 : Fin n} (h : OneBin A k0) (β : Fin n → ℝ) {g : ℝ} {R : Fin n → ℂ} {r : ℝ}
    (hR : R (carrier hn) = r) (γ w0 : ℝ) {Ω : Fin n → ℝ} (hΩ : Ω (carrier hn) = 0) (hΩ0 : Ω k0 = 0) {a b : ℝ}
    (hA : ∀ z ∈ Ioo a b, ∀ j, 10 ^ (-30 : ℤ) < Real.exp (g * z) * ‖A j‖ ^ 2) :
    SolvesShockReg β g R γ w0 Ω a b (planeWave (β k0) g γ r A) := by
  obtain ⟨h1, -⟩ := C124_solution hn h β g hR γ a b
  refine fun z hz => ⟨fun j => ?_, (h1 z hz).congr_deriv ?_⟩
  · have := hA z hz j
    rw [← planeWave_norm (β k0) g γ r A z j] at this
    refine lt_of_pow_lt_pow_left₀ 2 (norm_nonneg _) (lt_of_eq_of_lt ?_ this)
    norm_num
  obtain ⟨c, hc⟩ := planeWave_smul (β k0) g γ r h z
  set W := planeWave (β k0) g γ r A z with hW
  have hWb : OneBin W k0 := by rw [hc]; exact h.smul c
  obtain ⟨P, hP⟩ : ∃ P : ℝ, (fun i => W i * (starRingEnd ℂ) (W i)) = fun _ => (P : ℂ) := by
    refine ⟨‖Gnlse.toFreq W k0‖ ^ 2, funext fun i => ?_⟩
    rw [mul_conj, normSq_eq_norm_sq, hWb.norm i]
  have hd1 : Gnlse.dt Ω (Gnlse.response R W) = fun _ => 0 := by
    unfold Gnlse.dt Gnlse.response
    rw [hP, (oneBin_const hn _).multiply R, (oneBin_const hn _).multiply fun k => -I * (Ω k : ℂ), hΩ]
    simp
  have hd2 : Gnlse.dt Ω W = fun j => 0 := by
    unfold Gnlse.dt
    rw [hWb.multiply fun k => -I * (Ω k : ℂ), hΩ0]
    simp
  funext j
  simp [Gnlse.shockReg, hd1, hd2]

/-- C125 applies to the default settings of the solver: a continuous wave at the centre of the grid, through any generated fibre without
loss, with self-steepening and Raman response. -/
theorem C125_nonvacuous (polyfit : Fiber.PolyFit) (spline : Fiber.Spline) {power cw tw : ℝ} (hcw : 1 < cw) (htw : 1 < tw) (hpow : 10 ^ (-29 : ℤ) < power)
    {N : ℕ} (hN : 2 ≤ N) (he : N % 2 = 0) {length wl gamma : ℝ} {b : Vec ℝ} {units label : String} (hwl : wl ≠ 0) (hL : 0 < length) :
    ∃ (q : Pulse) (x : Fin q.n → ℂ) (a : Fin q.n → ℂ) (k0 : Fin q.n) (β : Fin q.n → ℝ) (R : Fin q.n → ℂ) (fR : ℝ) (hp : Holds q a) (Ω : Fin q.n → ℝ),
      cwPulse power cw tw N none = .ok q ∧ q.n = N ∧ q.AT = .ok ⟨q.n, x⟩ ∧ (∀ m, ‖x m‖ ^ 2 = power) ∧ q.V_THz = .ok ⟨q.n, Ω⟩ ∧
      Loads polyfit spline Obj.default q ⟨Fiber.genFib length wl b gamma 0 units label Fiber.Fib.new, Fiber.genSpecs 0⟩
        (Fiber.genFib length wl b gamma 0 units label Fiber.Fib.new) β 0 R gamma fR ∧
      SolvesShockReg β 0 R gamma (2 * Real.pi * q.center_frequency_THz) Ω (-1) (length + 1) (planeWave (β k0) 0 gamma (R (carrier hp.pos)).re x) ∧
      ∃ (M0 : ℕ) (C : ℝ), ∀ M, M0 ≤ M → ∃ res o' F',
        propagate polyfit spline Obj.default q ⟨Fiber.genFib length wl b gamma 0 units label Fiber.Fib.new, Fiber.genSpecs 0⟩ M false =
          some (.ok (res, o', F')) ∧ res.AT.length = M ∧ ∀ i < M, ∃ v : Fin q.n → ℂ, res.AT[i]? = some ⟨q.n, v⟩ ∧
          ∀ j, ‖v j - planeWave (β k0) 0 gamma (R (carrier hp.pos)).re x ((i + 1) * (length / M)) j‖ ≤ C / M ^ 5 := by
  have hpow0 : 0 < power := lt_trans (by positivity) hpow
  obtain ⟨q, x, a, w, k0, h1, h2, h3, h4, h5, h6, h7, h9, -, h8⟩ := C25_cw_center hcw htw hpow0.le (N := N) (by omega)
  have hp := holds_of_accessors (by omega) h3 h4
  obtain rfl := hp.npts
  obtain ⟨β, R, fR, h⟩ := loads_generated polyfit spline Obj.default hp hN (length := length) (gamma := gamma) (gain := 0)
    (b := b) (units := units) (label := label) hwl (Or.inr (by norm_num [Obj.default]))
  have hcf8 : q.cf = cNmps / cw := h8
  have hcf : q.cf ≠ 0 := by
    rw [hcf8]
    have h0 : (cNmps : ℝ) ≠ 0 := by norm_num [cNmps, cMks]
    exact div_ne_zero h0 (by linarith)
  have hV : q.V_THz = .ok ⟨q.n, fun i => 2 * Real.pi * ((i : ℕ) - (q.n : ℝ) / 2) / q.tw⟩ := hp.V_eq
  have hcar : (((carrier hp.pos : Fin q.n) : ℕ) : ℝ) = (q.n : ℝ) / 2 := by
    rw [carrier_even hp.pos he, Nat.cast_div (Nat.dvd_of_mod_eq_zero he) two_ne_zero]
    rfl
  have hΩ0 : 2 * Real.pi * ((k0 : ℕ) - (q.n : ℝ) / 2) / q.tw = 0 := by
    have e := h4
    rw [show q.W_THz = q.W from rfl, hp.W_eq] at e
    have := congrFun (eq_of_heq (Vec.mk.inj (Except.ok.inj e)).2) k0
    rw [h9 he, hcf8] at this
    linarith
  have hA' : x = ifftT a := by
    rw [hp.AT_eq] at h2
    have := Except.ok.inj h2
    simp only [Vec.mk.injEq, heq_eq_eq, true_and] at this
    exact this.symm
  have hf : Gnlse.toFreq x = a := by
    rw [hA']
    exact fftT_ifftT a
  have hone : OneBin x k0 := fun k hkk => by rw [hf]; exact h6 k hkk
  have hsol := wave_regularised (g := 0) hp.pos hone β ((raman_real hp he h).carrier_real hp.pos) gamma (2 * Real.pi * q.center_frequency_THz)
    (Ω := fun i => 2 * Real.pi * ((i : ℕ) - (q.n : ℝ) / 2) / q.tw) (by rw [hcar]; simp) hΩ0 (a := -1) (b := length + 1) (by
      intro z _ j
      rw [zero_mul, Real.exp_zero, one_mul, h5]
      exact lt_trans (by norm_num) hpow)
  refine ⟨q, x, a, k0, β, R, fR, hp, _, h1, rfl, h2, h5, hV, h, hsol, ?_⟩
  have h0 : planeWave (β k0) 0 gamma (R (carrier hp.pos)).re x 0 = x :=
    (C124_solution hp.pos hone β 0 ((raman_real hp he h).carrier_real hp.pos) gamma 0 0).2
  exact C125_converges hp he hcf h rfl hL rfl rfl rfl (by norm_num [Obj.default]) (by norm_num [Obj.default]) (by norm_num [Obj.default]) hV
    (by norm_num : (-1 : ℝ) < 0) (by linarith : length < length + 1) hsol (by rw [h0]; exact h2)

end PyNLO
