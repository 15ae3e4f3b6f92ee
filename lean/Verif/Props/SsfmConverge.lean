import Verif.Lemmas.SsfmConverge
import Verif.Lemmas.OdeGlobal
import Verif.Props.Raman

/-! # C116, C117: `propagate` converges to the solution of the propagation equation -/

namespace PyNLO

open Complex Ssfm Pulse Set
open scoped Topology ContDiff

variable {n : ℕ}

/-- `U` satisfies the propagation equation between `a` and `b` -/
def Solves (β : Fin n → ℝ) (g : ℝ) (R : Fin n → ℂ) (γ a b : ℝ) (U : ℝ → Fin n → ℂ) : Prop :=
  ∀ z ∈ Ioo a b, HasDerivAt U (Gnlse.rhs β g R γ (U z)) z

theorem toTime_mul (m U : Fin n → ℂ) : Gnlse.toTime (fun k => m k * Gnlse.toFreq U k) = applySpec (fftshift m) U := by
  unfold Gnlse.toTime Gnlse.toFreq
  have e : fftshift (fun k => m k * ifftshift (ifft (fftshift U)) k) = fun k => fftshift m k * ifft (fftshift U) k := by
    have : (fun k => m k * ifftshift (ifft (fftshift U)) k) = ifftshift (fun k => fftshift m k * ifft (fftshift U) k) := by
      have h : m = ifftshift (fftshift m) := (ifftshift_fftshift m).symm
      conv_lhs => rw [h]
      rfl
    rw [this, fftshift_ifftshift]
  rw [e]
  show ifftshift (applySpec (fftshift m) (fftshift U)) = _
  rw [show applySpec (fftshift m) (fftshift U) = fftshift (applySpec (fftshift m) U) from applySpec_roll _ _ _, ifftshift_fftshift]

/-- the parameters describe the equation -/
structure Describes (P : Params n) (β : Fin n → ℝ) (g : ℝ) (R : Fin n → ℂ) (γ : ℝ) : Prop where
  betas : P.betas = fftshift β
  alpha : P.alpha = fun _ => -g
  resp : P.R = fftshift R
  gamma : P.gamma = γ
  ss : P.disableSS = true

theorem rhs_shift {P : Params n} {β : Fin n → ℝ} {g : ℝ} {R : Fin n → ℂ} {γ : ℝ} (h : Describes P β g R γ) (U : Fin n → ℂ) :
    fftshift (Gnlse.rhs β g R γ U) = applySpec (linPart P 1) (fftshift U) + nonPart P 1 (fftshift U) := by
  have h1 : applySpec (linPart P 1) (fftshift U) = fftshift (Gnlse.toTime fun k => (I * β k + g / 2) * Gnlse.toFreq U k) := by
    rw [toTime_mul, show linPart P 1 = fftshift (fun k => I * (β k : ℂ) + (g : ℂ) / 2) from ?_]
    · exact applySpec_roll _ _ _
    · funext k
      simp only [linPart, h.betas, h.alpha, fftshift, roll]
      push_cast
      ring
  have h2 : Gnlse.induced P.R (fftshift U) = fftshift (Gnlse.toTime fun k => R k * Gnlse.toFreq (fun i => U i * (starRingEnd ℂ) (U i)) k) := by
    rw [toTime_mul, h.resp]
    exact applySpec_roll (fftshift R) (fun i => U i * (starRingEnd ℂ) (U i)) _
  rw [h1, nonPart_kerr h.ss, one_smul]
  funext j
  simp only [Gnlse.kerr, h2, h.gamma, Pi.add_apply]
  rfl

/-- solutions in the order of the solver -/
theorem Solves.shift {P : Params n} {β : Fin n → ℝ} {g : ℝ} {R : Fin n → ℂ} {γ : ℝ} (h : Describes P β g R γ) {a b : ℝ} {U : ℝ → Fin n → ℂ}
    (hU : Solves β g R γ a b U) : ∀ z ∈ Ioo a b, HasDerivAt (fun z => fftshift (U z))
      (applySpec (linPart P 1) (fftshift (U z)) + nonPart P 1 (fftshift (U z))) z := by
  intro z hz
  rw [← rhs_shift h]
  rw [hasDerivAt_pi]
  intro j
  exact (hasDerivAt_pi.1 (hU z hz)) _

/-- what the fibre and the Raman model return for a pulse: propagation constants `β` and coefficient `γ` (the fibre becoming `f1`),
gain `g`, response `R` with fraction `fR` -/
structure Loads (polyfit : Fiber.PolyFit) (spline : Fiber.Spline) (o : Obj) (p : Pulse) (F : FibObj) (f1 : Fiber.Fib) (β : Fin p.n → ℝ) (g : ℝ)
    (R : Fin p.n → ℂ) (γ fR : ℝ) : Prop where
  betas : Fiber.getBetas polyfit spline F.specs p 0 F.fib = (.ok (.arr ⟨p.n, β⟩), f1)
  gamma : Fiber.getGamma f1 0 = .ok (some γ)
  gain : Fiber.getGain F.specs F.fib p = .ok ⟨p.n, fun _ => g⟩
  raman : ramanR o p = .ok (⟨p.n, R⟩, fR)

section
variable {polyfit : Fiber.PolyFit} {spline : Fiber.Spline} {o : Obj} {p : Pulse} {F : FibObj} {f1 : Fiber.Fib} {β : Fin p.n → ℝ}
  {g γ fR : ℝ} {R : Fin p.n → ℂ}

/-- the parameters the integrator works with, in the order of the transforms -/
structure Carries (P : Params p.n) (o : Obj) (β : Fin p.n → ℝ) (g : ℝ) (R : Fin p.n → ℂ) (γ : ℝ) : Prop where
  betas : P.betas = fftshift β
  alpha : P.alpha = fun _ => -g
  resp : P.R = fftshift R
  gamma : P.gamma = γ
  ss : P.disableSS = o.disableSS
  omegas : P.omegas = fftshift fun i : Fin p.n => 2 * Real.pi * ((i : ℕ) - (p.n : ℝ) / 2) / p.tw
  w0 : P.w0 = p.cf * 2 * Real.pi
  method : P.method = o.method
  eta : P.eta = o.eta
  localError : P.localError = o.localError
  dzMin : P.dzMin = o.dzMin

/-- the set-up and the loading of parameters -/
theorem setup_carries {a : Fin p.n → ℂ} (hp : Holds p a) (h : Loads polyfit spline o p F f1 β g R γ fR) :
    ∃ P0 P, setup o p F = .ok (P0, fftshift (ifftT a), fR) ∧ loadFiber polyfit spline p 0 P0 F = (.ok P, { F with fib := f1 }) ∧
      Carries P o β g R γ ∧ P0.R = P.R := by
  have hV : p.V_THz = .ok ⟨p.n, fun i => 2 * Real.pi * ((i : ℕ) - (p.n : ℝ) / 2) / p.tw⟩ := hp.V_eq
  obtain ⟨P0, hs, q1, q2, q3, q4, q5, q6, q7, q8, q9⟩ : ∃ P0 : Params p.n, setup o p F = .ok (P0, fftshift (ifftT a), fR) ∧
      P0.alpha = fftshift (fun _ => -1 * g) ∧ P0.R = fftshift R ∧ P0.disableSS = o.disableSS ∧ P0.method = o.method ∧ P0.eta = o.eta ∧
        P0.localError = o.localError ∧ P0.dzMin = o.dzMin ∧
        P0.omegas = (fftshift fun i : Fin p.n => 2 * Real.pi * ((i : ℕ) - (p.n : ℝ) / 2) / p.tw) ∧ P0.w0 = p.cf * 2 * Real.pi := by
    refine ⟨{ betas := fun _ => 0, alpha := fftshift (fun _ => -1 * g), omegas := fftshift fun i : Fin p.n => 2 * Real.pi * ((i : ℕ) - (p.n : ℝ) / 2) / p.tw, R := fftshift R, gamma := F.fib.gamma.getD 0, w0 := p.center_frequency_THz * 2 * Real.pi, disableSS := o.disableSS, method := o.method, eta := o.eta, localError := o.localError, dzMin := o.dzMin }, ?_, rfl, rfl, rfl, rfl, rfl, rfl, rfl, rfl, rfl⟩
    unfold setup
    simp only [hV, h.gain, h.raman, except_bind_ok, fill_mk, Vec.map_mk, hp.AT_eq]
  refine ⟨P0, { P0 with betas := fftshift β, gamma := γ }, hs, ?_, ⟨rfl, ?_, q2, rfl, q3, q8, q9, q4, q5, q6, q7⟩, rfl⟩
  · unfold loadFiber
    simp only [h.betas, betaArr, fill_mk, except_bind_ok, h.gamma, num]
  · show P0.alpha = _
    rw [q1]
    funext k
    show -1 * g = -g
    ring

theorem setup_describes {a : Fin p.n → ℂ} (hp : Holds p a) (h : Loads polyfit spline o p F f1 β g R γ fR) (hss : o.disableSS = true) :
    ∃ P0 P, setup o p F = .ok (P0, fftshift (ifftT a), fR) ∧ loadFiber polyfit spline p 0 P0 F = (.ok P, { F with fib := f1 }) ∧
      Describes P β g R γ ∧ P.method = o.method ∧ P.eta = o.eta ∧ P.localError = o.localError ∧ P.dzMin = o.dzMin ∧ P0.R = P.R := by
  obtain ⟨P0, P, hs, hl, hc, hR⟩ := setup_carries hp h
  exact ⟨P0, P, hs, hl, ⟨hc.betas, hc.alpha, hc.resp, hc.gamma, hc.ss.trans hss⟩, hc.method, hc.eta, hc.localError, hc.dzMin, hR⟩

/-- the fields of a propagation on an even grid without reloading, with the parameters they were integrated with -/
theorem propagate_trace {o' : Obj} {F' F1 : FibObj} {N : ℕ} {r : Result} (h : propagate polyfit spline o p F N false = some (.ok (r, o', F')))
    {a : Fin p.n → ℂ} (hp : Holds p a) (he : p.n % 2 = 0) {L : ℝ} (hL : F.fib.length = some L) {P0 P : Params p.n} {A : Fin p.n → ℂ}
    (hs : setup o p F = .ok (P0, A, fR)) (hl : loadFiber polyfit spline p 0 P0 F = (.ok P, F1)) :
    ∃ S : ℕ → Field p.n, (S 0).A = A ∧ (S 0).dz = o.dz ∧ (∀ i < N, integrate P (L / N) 1 (S i) = some (S (i + 1))) ∧
      r.AT = (List.range N).map (fun i => (⟨p.n, ifftshift (S (i + 1)).A⟩ : Vec ℂ)) := by
  obtain ⟨hN, L', out, P0', A', fR', P', F1', s, out', hL', hc, hs', hl', hseg, hset, hr, ho, -⟩ := propagate_cases h
  rw [hL] at hL'
  obtain rfl := Option.some.inj hL'
  rw [hs] at hs'
  have hs'' := Except.ok.inj hs'
  simp only [Prod.mk.injEq] at hs''
  obtain ⟨rfl, rfl, rfl⟩ := hs''
  rw [hl] at hl'
  simp only [Prod.mk.injEq, Except.ok.injEq] at hl'
  obtain ⟨rfl, rfl⟩ := hl'
  obtain ⟨S, h0, hm, hS⟩ := segLoop_trace N 0 hseg
  obtain ⟨hout, -, -⟩ := clone_holds hp hc
  have T := trace_even he hS (b := a) (by rw [h0]; exact hout) (by rw [h0]) (by rw [h0])
  obtain ⟨-, hAT, -, hint⟩ := T N (le_refl N)
  have hP : ∀ i, i ≤ N → (S i).P = P := by
    intro i
    induction i with
    | zero => intro _; rw [h0]
    | succ i ih =>
      intro hi
      have hst := (hS i (by omega)).load
      simp only [Bool.false_eq_true, if_false, Prod.mk.injEq, Except.ok.injEq] at hst
      rw [← hst.1, ih (by omega)]
  refine ⟨fun i => (S i).fld, by simp only [h0], by simp only [h0], fun i hi => ?_, ?_⟩
  · have := hint i hi
    rwa [hP (i + 1) (by omega)] at this
  · rw [hr]
    simp only
    rw [← hm, hAT]

/-- C116: with the default method and extrapolation and without self-steepening, the columns of `AT` returned by `propagate` converge to
the solution of the propagation equation as `n_steps` grows; the error is at most a constant divided by `n_steps⁵`. -/
theorem C116_converges {a : Fin p.n → ℂ} (hp : Holds p a) (he : p.n % 2 = 0) (hcf : p.cf ≠ 0) (h : Loads polyfit spline o p F f1 β g R γ fR)
    {L : ℝ} (hL : F.fib.length = some L) (hpos : 0 < L) (hm : o.method = .rk4ip) (heta : o.eta = 5) (hss : o.disableSS = true) (hdz : 0 < o.dz)
    (hmin : 0 < o.dzMin) (hle : 0 < o.localError) {x b : ℝ} (hx : x < 0) (hb : L < b) {U : ℝ → Fin p.n → ℂ} (hU : Solves β g R γ x b U)
    (hU0 : p.AT = .ok ⟨p.n, U 0⟩) (hne : U 0 ≠ 0) :
    ∃ (N0 : ℕ) (C : ℝ), ∀ N, N0 ≤ N → ∃ r o' F', propagate polyfit spline o p F N false = some (.ok (r, o', F')) ∧ r.AT.length = N ∧
      ∀ i < N, ∃ v : Fin p.n → ℂ, r.AT[i]? = some ⟨p.n, v⟩ ∧ ∀ j, ‖v j - U ((i + 1) * (L / N)) j‖ ≤ C / N ^ 5 := by
  obtain ⟨P0, P, hs, hl, hd, e1, e2, e3, e4, -⟩ := setup_describes hp h hss
  have hA : U 0 = ifftT a := by
    rw [hp.AT_eq] at hU0
    have := Except.ok.inj hU0
    simp only [Vec.mk.injEq, heq_eq_eq, true_and] at this
    exact this.symm
  have hP : P.Ok := ⟨by rw [e4]; exact hmin, by rw [e2, heta]; norm_num⟩
  have hne' : fftshift (ifftT a) ≠ 0 := by
    intro h0
    refine hne ?_
    rw [hA, ← ifftshift_fftshift (ifftT a), h0]
    rfl
  obtain ⟨N0, C, hN0, hconv⟩ := segments_converge hP (e1.trans hm) (e2.trans heta) hd.ss (by rw [e3]; exact hle) (dir := 1) hne' hdz hpos hx hb
    (by rw [hA]) (hU.shift hd)
  refine ⟨N0, C, fun N hN => ?_⟩
  obtain ⟨r, o', hr, -⟩ := C43_returns (hN0.trans hN) hL hpos hp hcf hs hl hdz hmin (by rw [heta]; norm_num)
  obtain ⟨S, s1, s2, s3, s4⟩ := propagate_trace hr hp he hL hs hl
  refine ⟨r, o', _, hr, by rw [s4]; simp, fun i hi => ⟨ifftshift (S (i + 1)).A, by rw [s4]; simp [hi], fun j => ?_⟩⟩
  have := hconv N hN S s1 s2 s3 (i + 1) (by omega)
  have h2 := (norm_le_pi_norm ((S (i + 1)).A - fftshift (U ((i + 1 : ℕ) * (L / N)))) (rollIdx (-((p.n / 2 : ℕ) : ℤ)) j)).trans this
  have e : fftshift (U ((i + 1 : ℕ) * (L / N))) (rollIdx (-((p.n / 2 : ℕ) : ℤ)) j) = U ((i + 1) * (L / N)) j := by
    have := congrFun (ifftshift_fftshift (U ((i + 1 : ℕ) * (L / N)))) j
    simpa [ifftshift, roll] using this
  rw [Pi.sub_apply, e] at h2
  exact h2

end

/-! ## solutions -/

/-- the response of a real signal is real -/
def RealResponse (R : Fin n → ℂ) : Prop :=
  ∀ (x : Fin n → ℝ) (j : Fin n), (Gnlse.toTime (fun k => R k * Gnlse.toFreq (fun i => (x i : ℂ)) k) j).im = 0

theorem rhs_eq (β : Fin n → ℝ) (g : ℝ) (R : Fin n → ℂ) (γ : ℝ) (U : Fin n → ℂ) : Gnlse.rhs β g R γ U = fun j =>
    applySpec (fftshift fun k => I * (β k : ℂ) + (g : ℂ) / 2) U j + I * γ * U j * applySpec (fftshift R) (absSq U) j := by
  funext j
  unfold Gnlse.rhs
  rw [toTime_mul, toTime_mul, absSq_eq]

theorem rhs_contDiff (β : Fin n → ℝ) (g : ℝ) (R : Fin n → ℂ) (γ : ℝ) {m : WithTop ℕ∞} : ContDiff ℝ m (Gnlse.rhs β g R γ) := by
  have h1 : ContDiff ℝ m fun U : Fin n → ℂ => applySpec (fftshift fun k => I * (β k : ℂ) + (g : ℂ) / 2) U :=
    contDiff_iff_contDiffAt.2 fun _ => applySpec_contDiffAt contDiffAt_const contDiffAt_id
  have h2 : ContDiff ℝ m fun U : Fin n → ℂ => applySpec (fftshift R) (absSq U) :=
    contDiff_iff_contDiffAt.2 fun _ => applySpec_contDiffAt contDiffAt_const absSq_contDiff.contDiffAt
  rw [contDiff_pi] at h1 h2
  have e : Gnlse.rhs β g R γ = fun U j => applySpec (fftshift fun k => I * (β k : ℂ) + (g : ℂ) / 2) U j +
      I * γ * U j * applySpec (fftshift R) (absSq U) j := funext fun U => rhs_eq β g R γ U
  rw [e, contDiff_pi]
  intro j
  exact (h1 j).add ((contDiff_const.mul (contDiff_apply ℝ ℂ j)).mul (h2 j))

theorem inner_applySpec (m U : Fin n → ℂ) : ∑ j, applySpec m U j * (starRingEnd ℂ) (U j) = n * ∑ k, m k * ((‖ifft U k‖ ^ 2 : ℝ) : ℂ) := by
  have h := inner_fft (fun k => m k * ifft U k) (ifft U)
  rw [fft_ifft] at h
  rw [show (∑ j, applySpec m U j * (starRingEnd ℂ) (U j)) = ∑ j, fft (fun k => m k * ifft U k) j * (starRingEnd ℂ) (U j) from rfl, h]
  congr 1
  refine Finset.sum_congr rfl fun k _ => ?_
  rw [mul_assoc, mul_conj, normSq_eq_norm_sq]

/-- the energy changes by the gain only -/
theorem rate_rhs {β : Fin n → ℝ} {g : ℝ} {R : Fin n → ℂ} (hR : RealResponse R) {γ : ℝ} (U : Fin n → ℂ) :
    OdeGlobal.rate U (Gnlse.rhs β g R γ U) = g * OdeGlobal.en U := by
  have h1 : ∀ j, inner ℝ (U j) (Gnlse.rhs β g R γ U j) =
      (applySpec (fftshift fun k => I * (β k : ℂ) + (g : ℂ) / 2) U j * (starRingEnd ℂ) (U j)).re := by
    intro j
    have him : (applySpec (fftshift R) (absSq U) j).im = 0 := by
      have := hR (fun i => ‖U i‖ ^ 2) j
      rw [toTime_mul] at this
      exact this
    obtain ⟨r, hr⟩ : ∃ r : ℝ, applySpec (fftshift R) (absSq U) j = r := ⟨_, Complex.ext rfl (by rw [him]; rfl)⟩
    rw [rhs_eq]
    simp only [hr]
    have e : I * γ * U j * r * (starRingEnd ℂ) (U j) = I * ((γ * r * ‖U j‖ ^ 2 : ℝ) : ℂ) := by
      have : U j * (starRingEnd ℂ) (U j) = ((‖U j‖ ^ 2 : ℝ) : ℂ) := by rw [mul_conj, normSq_eq_norm_sq]
      push_cast at this ⊢
      linear_combination I * γ * r * this
    rw [Complex.inner, add_mul, e, add_re, mul_comm I, re_ofReal_mul, I_re, mul_zero, add_zero]
  unfold OdeGlobal.rate OdeGlobal.en
  simp only [h1]
  rw [← Finset.mul_sum, ← re_sum, inner_applySpec, parseval_ifft U]
  have e : ∀ k, (fftshift (fun k => I * (β k : ℂ) + (g : ℂ) / 2) k * ((‖ifft U k‖ ^ 2 : ℝ) : ℂ)).re = g / 2 * ‖ifft U k‖ ^ 2 := by
    intro k
    rw [mul_comm, re_ofReal_mul]
    have : (fftshift (fun k => I * (β k : ℂ) + (g : ℂ) / 2) k).re = g / 2 := by
      simp [fftshift, roll]
    rw [this]
    ring
  rw [← ofReal_natCast, re_ofReal_mul, re_sum]
  simp only [e, ← Finset.mul_sum]
  ring

/-- C116: the equation has a solution over every distance, from every initial field. -/
theorem C116_exists (β : Fin n → ℝ) (g : ℝ) {R : Fin n → ℂ} (hR : RealResponse R) (γ : ℝ) (A : Fin n → ℂ) {T : ℝ} (hT : 0 < T) :
    ∃ U, Solves β g R γ (-T) T U ∧ U 0 = A := by
  obtain ⟨U, h0, hU⟩ := OdeGlobal.exists_solution (f := Gnlse.rhs β g R γ) (rhs_contDiff β g R γ) (K := |g|) (fun B => by
    rw [rate_rhs hR, abs_mul, abs_of_nonneg (OdeGlobal.en_nonneg B)]) A hT
  exact ⟨U, hU, h0⟩

/-- C116: and only one. -/
theorem C116_unique {β : Fin n → ℝ} {g : ℝ} {R : Fin n → ℂ} {γ a b : ℝ} {U V : ℝ → Fin n → ℂ} (hU : Solves β g R γ a b U)
    (hV : Solves β g R γ a b V) (ha : a < 0) (h0 : U 0 = V 0) {z : ℝ} (hz : 0 ≤ z) (hzb : z < b) : U z = V z := by
  have hcU : ContinuousOn U (Icc 0 z) := fun t ht => (hU t ⟨by linarith [ht.1], by linarith [ht.2]⟩).continuousAt.continuousWithinAt
  have hcV : ContinuousOn V (Icc 0 z) := fun t ht => (hV t ⟨by linarith [ht.1], by linarith [ht.2]⟩).continuousAt.continuousWithinAt
  obtain ⟨RU, hRU⟩ := isCompact_Icc.exists_bound_of_continuousOn hcU
  obtain ⟨RV, hRV⟩ := isCompact_Icc.exists_bound_of_continuousOn hcV
  have hf : ContDiff ℝ 1 (Gnlse.rhs β g R γ) := rhs_contDiff β g R γ
  obtain ⟨K, hK⟩ := hf.contDiffOn.exists_lipschitzOnWith (s := Metric.closedBall (0 : Fin n → ℂ) (max RU RV)) one_ne_zero (convex_closedBall 0 _)
    (isCompact_closedBall 0 _)
  have hu := ODE_solution_unique_of_mem_Icc_right (v := fun _ => Gnlse.rhs β g R γ) (s := fun _ => Metric.closedBall (0 : Fin n → ℂ) (max RU RV))
    (K := K) (a := 0) (b := z) (f := U) (g := V) (fun _ _ => hK) hcU
    (fun t ht => (hU t ⟨by linarith [ht.1], by linarith [ht.2]⟩).hasDerivWithinAt)
    (fun t ht => by rw [mem_closedBall_zero_iff]; exact (hRU t ⟨ht.1, ht.2.le⟩).trans (le_max_left _ _))
    hcV (fun t ht => (hV t ⟨by linarith [ht.1], by linarith [ht.2]⟩).hasDerivWithinAt)
    (fun t ht => by rw [mem_closedBall_zero_iff]; exact (hRV t ⟨ht.1, ht.2.le⟩).trans (le_max_right _ _)) h0
  exact hu ⟨hz, le_refl z⟩

/-- energy along a solution -/
theorem solution_energy {β : Fin n → ℝ} {g : ℝ} {R : Fin n → ℂ} (hR : RealResponse R) {γ a b : ℝ} {U : ℝ → Fin n → ℂ} (hU : Solves β g R γ a b U)
    (ha : a < 0) {z : ℝ} (hz : 0 ≤ z) (hzb : z < b) : Gnlse.energy (U z) = Real.exp (g * z) * Gnlse.energy (U 0) := by
  have hd : ∀ t ∈ Icc 0 z, HasDerivAt (fun t => Real.exp (-(g * t)) * OdeGlobal.en (U t)) 0 t := by
    intro t ht
    have h1 := OdeGlobal.en_hasDerivAt (hU t ⟨by linarith [ht.1], by linarith [ht.2]⟩)
    rw [rate_rhs hR] at h1
    have h2 : HasDerivAt (fun t : ℝ => Real.exp (-(g * t))) (Real.exp (-(g * t)) * -(g * 1)) t := (((hasDerivAt_id t).const_mul g).neg).exp
    have h3 := h2.mul h1
    have e : Real.exp (-(g * t)) * -(g * 1) * OdeGlobal.en (U t) + Real.exp (-(g * t)) * (g * OdeGlobal.en (U t)) = 0 := by ring
    rw [e] at h3
    exact h3
  have := constant_of_has_deriv_right_zero (f := fun t => Real.exp (-(g * t)) * OdeGlobal.en (U t)) (a := 0) (b := z)
    (fun t ht => (hd t ht).continuousAt.continuousWithinAt) (fun t ht => (hd t ⟨ht.1, ht.2.le⟩).hasDerivWithinAt) z ⟨hz, le_refl z⟩
  simp only [mul_zero, neg_zero, Real.exp_zero, one_mul] at this
  show OdeGlobal.en (U z) = Real.exp (g * z) * OdeGlobal.en (U 0)
  rw [← this, ← mul_assoc, ← Real.exp_add]
  simp

theorem applySpec_const (c : ℂ) (x : Fin n → ℂ) : applySpec (fun _ => c) x = fun j => c * x j := by
  unfold applySpec
  rw [fft_smul, fft_ifft]

section
variable {polyfit : Fiber.PolyFit} {spline : Fiber.Spline} {o : Obj} {p : Pulse} {F : FibObj} {f1 : Fiber.Fib} {β : Fin p.n → ℝ}
  {g γ fR : ℝ} {R : Fin p.n → ℂ}

/-- the Raman models of the solver have a real response -/
theorem raman_real {a : Fin p.n → ℂ} (hp : Holds p a) (he : p.n % 2 = 0) (h : Loads polyfit spline o p F f1 β g R γ fR) : RealResponse R := by
  obtain ⟨P0, P, hs, -, hd, hPR⟩ := setup_carries hp h
  intro x j
  rw [toTime_mul, ← hd.resp, ← hPR]
  by_cases hr : o.disableRaman = true
  · have : P0.R = fun _ => 1 := funext (C49_disabled hp hs hr)
    rw [this, applySpec_const]
    simp
  · obtain ⟨Z, hZ, -⟩ := C49_causal hp he hs (by simpa using hr)
    rw [hZ, add_im, ← ofReal_mul, ofReal_im, zero_add, im_ofReal_mul, im_sum]
    refine mul_eq_zero_of_right _ (Finset.sum_eq_zero fun m _ => ?_)
    split_ifs
    · rw [← ofReal_mul, ofReal_im]
    · rfl

theorem energy_close {u v : Fin n → ℂ} {ε B : ℝ} (hu : ∀ j, ‖u j‖ ≤ B) (h : ∀ j, ‖v j - u j‖ ≤ ε) :
    |Gnlse.energy v - Gnlse.energy u| ≤ n * (ε * (2 * B + ε)) := by
  unfold Gnlse.energy
  rw [← Finset.sum_sub_distrib]
  refine (Finset.abs_sum_le_sum_abs _ _).trans ?_
  refine (Finset.sum_le_card_nsmul _ _ (ε * (2 * B + ε)) fun j _ => ?_).trans (by simp)
  have h1 : |‖v j‖ - ‖u j‖| ≤ ε := (abs_norm_sub_norm_le _ _).trans (h j)
  have h2 : ‖v j‖ ≤ B + ε := by linarith [hu j, (abs_le.1 h1).2]
  have hε : 0 ≤ ε := (abs_nonneg _).trans h1
  rw [sq_sub_sq, abs_mul, mul_comm]
  refine mul_le_mul h1 ?_ (abs_nonneg _) hε
  rw [abs_of_nonneg (by positivity)]
  linarith [hu j]

/-- C117: with the default method and extrapolation and without self-steepening, the energies of the columns of `AT` are those of the input
times `exp(gain·z)`, up to a constant divided by `n_steps⁵`; without gain the energy is conserved to that accuracy, with or without Raman
response. -/
theorem C117_energy {a : Fin p.n → ℂ} (hp : Holds p a) (he : p.n % 2 = 0) (hcf : p.cf ≠ 0) (h : Loads polyfit spline o p F f1 β g R γ fR)
    {L : ℝ} (hL : F.fib.length = some L) (hpos : 0 < L) (hm : o.method = .rk4ip) (heta : o.eta = 5) (hss : o.disableSS = true) (hdz : 0 < o.dz)
    (hmin : 0 < o.dzMin) (hle : 0 < o.localError) {A : Fin p.n → ℂ} (hA : p.AT = .ok ⟨p.n, A⟩) (hne : A ≠ 0) :
    ∃ (N0 : ℕ) (C : ℝ), ∀ N, N0 ≤ N → ∃ r o' F', propagate polyfit spline o p F N false = some (.ok (r, o', F')) ∧ r.AT.length = N ∧
      ∀ i < N, ∃ v : Fin p.n → ℂ, r.AT[i]? = some ⟨p.n, v⟩ ∧
        |Gnlse.energy v - Real.exp (g * ((i + 1) * (L / N))) * Gnlse.energy A| ≤ C / N ^ 5 := by
  have hR := raman_real hp he h
  obtain ⟨U, hU, hU0⟩ := C116_exists β g hR γ A (T := L + 1) (by linarith)
  obtain ⟨N0, C, hc⟩ := C116_converges hp he hcf h hL hpos hm heta hss hdz hmin hle (by linarith : -(L + 1) < 0) (by linarith : L < L + 1) hU
    (by rw [hU0]; exact hA) (by rw [hU0]; exact hne)
  set B := 1 + Real.exp (|g| * L) * Gnlse.energy A with hB
  have hEA : 0 ≤ Gnlse.energy A := OdeGlobal.en_nonneg A
  refine ⟨max N0 1, p.n * (|C| * (2 * B + |C|)), fun N hN => ?_⟩
  have hN1 : (1 : ℝ) ≤ N := by exact_mod_cast (le_max_right _ _).trans hN
  obtain ⟨r, o', F', hr, hlen, hcol⟩ := hc N ((le_max_left _ _).trans hN)
  refine ⟨r, o', F', hr, hlen, fun i hi => ?_⟩
  obtain ⟨v, hv, hvj⟩ := hcol i hi
  refine ⟨v, hv, ?_⟩
  have hz0 : 0 ≤ ((i : ℝ) + 1) * (L / N) := by positivity
  have hzL : ((i : ℝ) + 1) * (L / N) ≤ L := by
    have : (i : ℝ) + 1 ≤ N := by exact_mod_cast hi
    calc ((i : ℝ) + 1) * (L / N) ≤ N * (L / N) := mul_le_mul_of_nonneg_right this (by positivity)
      _ = L := by field_simp
  have hen := solution_energy hR hU (by linarith) hz0 (by linarith)
  rw [hU0] at hen
  rw [← hen]
  have hub : ∀ j, ‖U ((i + 1) * (L / N)) j‖ ≤ B := by
    intro j
    refine (norm_le_pi_norm _ j).trans ((OdeGlobal.norm_le_en _).trans ?_)
    have : OdeGlobal.en (U ((i + 1) * (L / N))) = _ := hen
    rw [this, hB]
    have : g * ((i + 1) * (L / N)) ≤ |g| * L := by
      refine (mul_le_mul_of_nonneg_right (le_abs_self g) hz0).trans (mul_le_mul_of_nonneg_left hzL (abs_nonneg g))
    have := mul_le_mul_of_nonneg_right (Real.exp_le_exp.2 this) hEA
    linarith
  have hcl := energy_close (ε := |C| / N ^ 5) hub fun j => (hvj j).trans (by gcongr; exact le_abs_self C)
  refine hcl.trans ?_
  have hN5 : (1 : ℝ) ≤ N ^ 5 := one_le_pow₀ hN1
  have hs : |C| / N ^ 5 ≤ |C| := div_le_self (abs_nonneg C) hN5
  have hB0 : 0 ≤ B := by positivity
  rw [mul_div_assoc, mul_div_right_comm]
  gcongr

/-- what a generated fibre loads -/
theorem loads_generated (polyfit : Fiber.PolyFit) (spline : Fiber.Spline) (o : Obj) {p : Pulse} {a : Fin p.n → ℂ} (hp : Holds p a) (hn : 2 ≤ p.n)
    {length wl gamma gain : ℝ} {b : Vec ℝ} {units label : String} (hwl : wl ≠ 0) (ht : o.disableRaman = true ∨ o.tau1 * o.tau2 ^ 2 ≠ 0) :
    ∃ β R fR, Loads polyfit spline o p ⟨Fiber.genFib length wl b gamma gain units label Fiber.Fib.new, Fiber.genSpecs gain⟩
      (Fiber.genFib length wl b gamma gain units label Fiber.Fib.new) β gain R gamma fR := by
  have hT : p.T_ps = .ok ⟨p.n, fun i => ((i : ℕ) - (p.n : ℝ) / 2) * (p.tw / p.n)⟩ := hp.T_eq
  have hg : Fiber.getGain (Fiber.genSpecs gain) (Fiber.genFib length wl b gamma gain units label Fiber.Fib.new) p = .ok ⟨p.n, fun _ => gain⟩ := by
    unfold Fiber.getGain Fiber.genSpecs
    by_cases h : gain = 0
    · simp only [if_pos h, Fiber.key, except_bind_ok, Bool.false_eq_true, if_false]
      rw [h]
      rfl
    · simp only [if_neg h, Fiber.key, except_bind_ok, if_true, Fiber.genFib, Fiber.attr, one_mul]
  have hR : ∃ (R : Fin p.n → ℂ) (fR : ℝ), ramanR o p = .ok (⟨p.n, R⟩, fR) := by
    unfold ramanR
    by_cases h : o.disableRaman = true
    · rw [if_pos h]; exact ⟨_, _, rfl⟩
    · rw [if_neg h, if_neg (ht.resolve_left h), hT]
      simp only [except_bind_ok]
      split_ifs
      · exact ⟨_, _, rfl⟩
      · exact ⟨_, _, rfl⟩
  obtain ⟨R, fR, hR⟩ := hR
  obtain ⟨α, β, hb⟩ := getBetas_gvd polyfit spline (s := Fiber.genSpecs gain) (p := p) 0
    (f := Fiber.genFib length wl b gamma gain units label Fiber.Fib.new) hp.ready hn rfl rfl rfl rfl hwl
  exact ⟨_, R, fR, hb, rfl, hg, hR⟩

/-- C116 and C117 apply to every nonzero pulse on an even grid and every generated fibre, with the default settings of the solver except
that self-steepening is switched off. -/
theorem C116_nonvacuous (polyfit : Fiber.PolyFit) (spline : Fiber.Spline) {p : Pulse} {a : Fin p.n → ℂ} (hp : Holds p a) (hcf : p.cf ≠ 0)
    (hn : 2 ≤ p.n) (he : p.n % 2 = 0) (ha : a ≠ 0) {length wl gamma gain : ℝ} {b : Vec ℝ} {units label : String} (hwl : wl ≠ 0) (hL : 0 < length) :
    ∃ (β : Fin p.n → ℝ) (R : Fin p.n → ℂ) (A : Fin p.n → ℂ) (U : ℝ → Fin p.n → ℂ) (N0 : ℕ) (C : ℝ), p.AT = .ok ⟨p.n, A⟩ ∧ A ≠ 0 ∧ U 0 = A ∧
      Solves β gain R gamma (-(length + 1)) (length + 1) U ∧ ∀ N, N0 ≤ N → ∃ r o' F',
        propagate polyfit spline { Obj.default with disableSS := true } p ⟨Fiber.genFib length wl b gamma gain units label Fiber.Fib.new, Fiber.genSpecs gain⟩
          N false = some (.ok (r, o', F')) ∧ r.AT.length = N ∧
        ∀ i < N, ∃ v : Fin p.n → ℂ, r.AT[i]? = some ⟨p.n, v⟩ ∧ ∀ j, ‖v j - U ((i + 1) * (length / N)) j‖ ≤ C / N ^ 5 := by
  obtain ⟨β, R, fR, h⟩ := loads_generated polyfit spline { Obj.default with disableSS := true } hp hn (length := length) (gamma := gamma) (gain := gain)
    (b := b) (units := units) (label := label) hwl (Or.inr (by norm_num [Obj.default]))
  have hA : ifftT a ≠ 0 := by
    intro h0
    refine ha ?_
    rw [← fftT_ifftT a, h0]
    funext k
    have := congrFun (fftT_smul 0 (fun _ : Fin p.n => (0 : ℂ))) k
    simp only [zero_mul] at this
    exact this
  obtain ⟨U, hU, hU0⟩ := C116_exists β gain (raman_real hp he h) gamma (ifftT a) (T := length + 1) (by linarith)
  obtain ⟨N0, C, hc⟩ := C116_converges hp he hcf h rfl hL rfl rfl rfl (by norm_num [Obj.default]) (by norm_num [Obj.default])
    (by norm_num [Obj.default]) (by linarith : -(length + 1) < 0) (by linarith : length < length + 1) hU (by rw [hU0]; exact hp.AT_eq)
    (by rw [hU0]; exact hA)
  exact ⟨β, R, ifftT a, U, N0, C, hp.AT_eq, hA, hU0, hU, hc⟩

end

end PyNLO
