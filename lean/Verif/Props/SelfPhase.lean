import Verif.Props.SsfmConverge
import Verif.Props.DerivedPulses

/-! # C123, C124: closed-form solutions: self-phase modulation and continuous waves -/

namespace PyNLO

open Complex Ssfm Pulse Set

variable {n : ℕ}

theorem leff_zero (g : ℝ) : Gnlse.leff g 0 = 0 := by
  unfold Gnlse.leff
  split_ifs <;> simp

theorem leff_hasDerivAt (g z : ℝ) : HasDerivAt (Gnlse.leff g) (Real.exp (g * z)) z := by
  by_cases h : g = 0
  · have e : Gnlse.leff g = fun z => z := by funext z; unfold Gnlse.leff; rw [if_pos h]
    rw [e, h, zero_mul, Real.exp_zero]
    exact hasDerivAt_id z
  · have e : Gnlse.leff g = fun z => (Real.exp (g * z) - 1) / g := by funext z; unfold Gnlse.leff; rw [if_neg h]
    rw [e]
    have h1 : HasDerivAt (fun z : ℝ => Real.exp (g * z)) (Real.exp (g * z) * (g * 1)) z := ((hasDerivAt_id z).const_mul g).exp
    have h2 := (h1.sub_const 1).div_const g
    have e2 : Real.exp (g * z) * (g * 1) / g = Real.exp (g * z) := by field_simp
    rwa [e2] at h2

/-- a field multiplied by the exponential of something that grows like `c + i·d·exp(g·z)` -/
theorem phase_hasDerivAt (b g d : ℝ) (x : ℂ) (z : ℝ) :
    HasDerivAt (fun z : ℝ => exp (I * ((b * z : ℝ) : ℂ) + ((g * z / 2 : ℝ) : ℂ) + I * ((d * Gnlse.leff g z : ℝ) : ℂ)) * x)
      ((I * b + g / 2 + I * ((d * Real.exp (g * z) : ℝ) : ℂ)) *
        (exp (I * ((b * z : ℝ) : ℂ) + ((g * z / 2 : ℝ) : ℂ) + I * ((d * Gnlse.leff g z : ℝ) : ℂ)) * x)) z := by
  have h0 : HasDerivAt (fun z : ℝ => ((b * z : ℝ) : ℂ)) ((b * 1 : ℝ) : ℂ) z := ((hasDerivAt_id z).const_mul b).ofReal_comp
  have h1 : HasDerivAt (fun z : ℝ => ((g * z / 2 : ℝ) : ℂ)) ((g * 1 / 2 : ℝ) : ℂ) z := (((hasDerivAt_id z).const_mul g).div_const 2).ofReal_comp
  have h2 : HasDerivAt (fun z : ℝ => ((d * Gnlse.leff g z : ℝ) : ℂ)) ((d * Real.exp (g * z) : ℝ) : ℂ) z := ((leff_hasDerivAt g z).const_mul d).ofReal_comp
  have h3 := ((((h0.const_mul I).add h1).add (h2.const_mul I)).cexp).mul_const x
  refine h3.congr_deriv ?_
  push_cast
  simp only [Pi.add_apply]
  push_cast
  ring

theorem norm_phase (b g d z : ℝ) (x : ℂ) :
    ‖exp (I * ((b * z : ℝ) : ℂ) + ((g * z / 2 : ℝ) : ℂ) + I * ((d * Gnlse.leff g z : ℝ) : ℂ)) * x‖ ^ 2 = Real.exp (g * z) * ‖x‖ ^ 2 := by
  rw [norm_mul, mul_pow, Complex.norm_exp]
  simp only [add_re, mul_re, I_re, I_im, ofReal_re, ofReal_im, zero_mul, one_mul, mul_zero, sub_zero, add_zero, zero_add]
  rw [← Real.exp_nat_mul]
  congr 2
  push_cast
  ring

/-- C123: without dispersion and Raman scattering, amplification together with a rotation of every sample by its own power and the
effective length is a solution of the propagation equation. -/
theorem C123_solution (g γ : ℝ) (A : Fin n → ℂ) (a b : ℝ) :
    Solves (fun _ => 0) g (fun _ => 1) γ a b (Gnlse.selfPhase g γ A) ∧ Gnlse.selfPhase g γ A 0 = A := by
  constructor
  · intro z _
    rw [hasDerivAt_pi]
    intro j
    have h := phase_hasDerivAt 0 g (γ * ‖A j‖ ^ 2) (A j) z
    have e : ∀ z : ℝ, exp (I * ((0 * z : ℝ) : ℂ) + ((g * z / 2 : ℝ) : ℂ) + I * ((γ * ‖A j‖ ^ 2 * Gnlse.leff g z : ℝ) : ℂ)) * A j = Gnlse.selfPhase g γ A z j := by
      intro z
      simp only [Gnlse.selfPhase, zero_mul, ofReal_zero, mul_zero, zero_add]
    have hn := norm_phase 0 g (γ * ‖A j‖ ^ 2) z (A j)
    rw [e] at hn
    simp only [e] at h
    refine h.congr_deriv ?_
    rw [rhs_eq]
    have e1 : (fftshift fun _ : Fin n => I * ((0 : ℝ) : ℂ) + (g : ℂ) / 2) = fun _ => (g : ℂ) / 2 := by
      funext k; simp [fftshift, roll]
    have e2 : (fftshift fun _ : Fin n => (1 : ℂ)) = fun _ => 1 := rfl
    simp only [e1, e2, applySpec_const, one_mul, absSq]
    rw [hn]
    push_cast
    ring
  · funext j
    simp [Gnlse.selfPhase, leff_zero]

section
variable {polyfit : Fiber.PolyFit} {spline : Fiber.Spline} {o : Obj} {p : Pulse} {F : FibObj} {f1 : Fiber.Fib} {β : Fin p.n → ℝ}
  {g γ fR : ℝ} {R : Fin p.n → ℂ}

/-- the response is 1 with Raman scattering disabled -/
theorem Loads.raman_off (h : Loads polyfit spline o p F f1 β g R γ fR) (hr : o.disableRaman = true) : R = fun _ => 1 := by
  have := h.raman
  unfold ramanR at this
  rw [if_pos hr] at this
  have h2 := (Prod.mk.inj (Except.ok.inj this)).1
  simp only [Vec.mk.injEq, heq_eq_eq, true_and] at h2
  exact h2.symm

/-- C123: with the default method, without self-steepening and Raman scattering, in a fibre without dispersion, the columns of `AT`
converge to the closed form, with gain or loss. -/
theorem C123_converges {a : Fin p.n → ℂ} (hp : Holds p a) (he : p.n % 2 = 0) (hcf : p.cf ≠ 0) (h : Loads polyfit spline o p F f1 (fun _ => 0) g R γ fR)
    {L : ℝ} (hL : F.fib.length = some L) (hpos : 0 < L) (hm : o.method = .rk4ip) (heta : o.eta = 5) (hss : o.disableSS = true)
    (hr : o.disableRaman = true) (hdz : 0 < o.dz) (hmin : 0 < o.dzMin) (hle : 0 < o.localError) {A : Fin p.n → ℂ} (hA : p.AT = .ok ⟨p.n, A⟩) (hne : A ≠ 0) :
    ∃ (N0 : ℕ) (C : ℝ), ∀ N, N0 ≤ N → ∃ r o' F', propagate polyfit spline o p F N false = some (.ok (r, o', F')) ∧ r.AT.length = N ∧
      ∀ i < N, ∃ v : Fin p.n → ℂ, r.AT[i]? = some ⟨p.n, v⟩ ∧ ∀ j, ‖v j - Gnlse.selfPhase g γ A ((i + 1) * (L / N)) j‖ ≤ C / N ^ 5 := by
  obtain ⟨hU, hU0⟩ := C123_solution g γ A (-1) (L + 1)
  have h' := h
  rw [h.raman_off hr] at h'
  exact C116_converges hp he hcf h' hL hpos hm heta hss hdz hmin hle (by norm_num : (-1 : ℝ) < 0) (by linarith : L < L + 1) hU
    (by rw [hU0]; exact hA) (by rw [hU0]; exact hne)

end

/-! ## the split-step method -/

/-- rotation of every sample by its own power over the distance `s` -/
theorem adv_selfPhase {P : Params n} (hm : P.method = .ssfm) (hb : ∀ k, P.betas k = 0) (hα : ∀ k, P.alpha k = 0) (hR : ∀ k, P.R k = 1)
    (hss : P.disableSS = true) (dir h : ℝ) (A : Fin n → ℂ) :
    Ssfm.Spec.adv P dir h A = fun j => exp (I * ((P.gamma * ‖A j‖ ^ 2 * (h * dir) : ℝ) : ℂ)) * A j := by
  have e1 : Ssfm.Spec.halfStep P.betas P.alpha h dir = fun _ => 1 := by
    funext k
    simp [Ssfm.Spec.halfStep, hb, hα]
  have e2 : ∀ A, applySpec (fun _ : Fin n => (1 : ℂ)) A = A := fun A => by rw [applySpec_const]; simp
  have e3 : kick P A h dir = fun j => exp (I * ((P.gamma * ‖A j‖ ^ 2 * (h * dir) : ℝ) : ℂ)) * A j := by
    funext j
    unfold kick nonlinear
    simp only [if_pos hss, hR, one_mul, fft_ifft, absSq]
    congr 2
    push_cast
    ring
  unfold Ssfm.Spec.adv
  rw [hm]
  simp only
  split_ifs
  · rw [e1, e2, e3]
  · rw [e1, e2, e3]

/-- C123: with the split-step method the rotation is exact whatever the step control does, up to the integrated distance. -/
theorem selfPhase_run {P : Params n} (hm : P.method = .ssfm) (hb : ∀ k, P.betas k = 0) (hα : ∀ k, P.alpha k = 0) (hR : ∀ k, P.R k = 1)
    (hss : P.disableSS = true) (heta : P.eta ≠ 1) (dir : ℝ) (s : Ssfm.Spec.St n) (k : ℕ) :
    (∀ j, (Ssfm.Spec.run P.cfg P.eta (Ssfm.Spec.adv P dir) s k).A j =
      exp (I * ((P.gamma * ‖s.A j‖ ^ 2 * ((s.ctrl.dist - (Ssfm.Spec.run P.cfg P.eta (Ssfm.Spec.adv P dir) s k).ctrl.dist) * dir) : ℝ) : ℂ)) * s.A j) ∧
      Ssfm.Spec.stErr (Ssfm.Spec.adv P dir) (Ssfm.Spec.run P.cfg P.eta (Ssfm.Spec.adv P dir) s k) = 0 := by
  have hnorm : ∀ (x : ℝ) (y : ℂ), ‖exp (I * (x : ℂ)) * y‖ = ‖y‖ := by
    intro x y
    rw [norm_mul, mul_comm I, Complex.norm_exp_ofReal_mul_I, one_mul]
  have hadv : ∀ (h : ℝ) (A : Fin n → ℂ), Ssfm.Spec.adv P dir h (Ssfm.Spec.adv P dir h A) = Ssfm.Spec.adv P dir (2 * h) A := by
    intro h A
    rw [adv_selfPhase hm hb hα hR hss, adv_selfPhase hm hb hα hR hss, adv_selfPhase hm hb hα hR hss]
    funext j
    simp only [hnorm]
    rw [← mul_assoc, ← Complex.exp_add]
    congr 2
    push_cast
    ring
  have herr : ∀ s : Ssfm.Spec.St n, Ssfm.Spec.stErr (Ssfm.Spec.adv P dir) s = 0 := by
    intro s
    unfold Ssfm.Spec.stErr
    rw [hadv, localErr_self]
  refine ⟨?_, herr _⟩
  induction k with
  | zero => intro j; simp [Ssfm.Spec.run]
  | succ k ih =>
    intro j
    by_cases h : (Ssfm.Spec.run P.cfg P.eta (Ssfm.Spec.adv P dir) s k).ctrl.dist > 0
    · rw [Ssfm.Spec.run_succ_pos h]
      generalize Ssfm.Spec.run P.cfg P.eta (Ssfm.Spec.adv P dir) s k = t at ih h
      unfold Ssfm.Spec.body
      rcases ctrlBody_cases P.cfg t.ctrl (.val (Ssfm.Spec.stErr (Ssfm.Spec.adv P dir) t)) with ⟨h1, -⟩ | ⟨dz, -, h1, -⟩
      · rw [h1]
        exact ih j
      · rw [h1]
        simp only
        rw [hadv, C42_agreement heta, adv_selfPhase hm hb hα hR hss]
        simp only
        rw [ih j, hnorm, afterAccept_dist, ← mul_assoc, ← Complex.exp_add]
        congr 2
        push_cast
        ring
    · rw [Ssfm.Spec.run_succ_neg h]
      exact ih j

/-- C123: one integration with the split-step method. -/
theorem C123_split_step {P : Params n} (hp : P.Ok) (hm : P.method = .ssfm) (hb : ∀ k, P.betas k = 0) (hα : ∀ k, P.alpha k = 0) (hR : ∀ k, P.R k = 1)
    (hss : P.disableSS = true) (heta : P.eta ≠ 1) {deltaZ : ℝ} (hd : 0 < deltaZ) (dir : ℝ) {f : Field n} (hdz : 0 < f.dz) :
    ∃ f' s l, integrate P deltaZ dir f = some f' ∧ CtrlReturns P.cfg (fun _ => .val 0) f.dz deltaZ s l ∧
      (∀ j, f'.A j = exp (I * ((P.gamma * ‖f.A j‖ ^ 2 * (covered l * dir) : ℝ) : ℂ)) * f.A j) ∧ 0 < f'.dz ∧
      deltaZ ≤ covered l ∧
      ((∀ k, (ctrlRun P.cfg (fun _ => .val 0) (ctrlStart f.dz deltaZ) k).1.dist ≤ 0 ∨
        2 * P.dzMin < (ctrlRun P.cfg (fun _ => .val 0) (ctrlStart f.dz deltaZ) k).1.dist) → covered l = deltaZ) := by
  obtain ⟨f', ef, hret0⟩ := integrate_spec hp deltaZ dir hdz
  have hpos := spec_dz_pos hp.cfg hd hdz hret0
  obtain ⟨k, h1, h2, -, -⟩ := hret0
  have herr : (fun j => Err.val (Ssfm.Spec.stErr (Ssfm.Spec.adv P dir)
      (Ssfm.Spec.run P.cfg P.eta (Ssfm.Spec.adv P dir) ⟨f.A, f.iter, ctrlStart f.dz deltaZ⟩ j))) = fun _ => .val 0 := by
    funext j
    rw [(selfPhase_run hm hb hα hR hss heta dir _ j).2]
  have hctrl := Ssfm.Spec.run_ctrl P.cfg P.eta (Ssfm.Spec.adv P dir) ⟨f.A, f.iter, ctrlStart f.dz deltaZ⟩ k
  rw [herr] at hctrl
  have hret : CtrlReturns P.cfg (fun _ => .val 0) f.dz deltaZ (ctrlRun P.cfg (fun _ => .val 0) (ctrlStart f.dz deltaZ) k).1
      (ctrlRun P.cfg (fun _ => .val 0) (ctrlStart f.dz deltaZ) k).2 := ⟨k, rfl, by rw [hctrl] at h1; exact h1⟩
  refine ⟨f', _, _, ef, hret, ?_, hpos, C38_distance_partial hp.cfg hdz hd hret⟩
  intro j
  have := (selfPhase_run hm hb hα hR hss heta dir ⟨f.A, f.iter, ctrlStart f.dz deltaZ⟩ k).1 j
  rw [h2] at this
  rw [this, hctrl, covered_run]

section
variable {polyfit : Fiber.PolyFit} {spline : Fiber.Spline} {o : Obj} {p : Pulse} {F : FibObj} {f1 : Fiber.Fib} {γ fR : ℝ} {R : Fin p.n → ℂ}

/-- C123: with the split-step method every column of `AT` is the closed form at a distance that is at least the nominal one, for every
tolerance, stored step and number of steps. -/
theorem C123_propagate {o' : Obj} {F' : FibObj} {N : ℕ} {r : Result} (hrun : propagate polyfit spline o p F N false = some (.ok (r, o', F')))
    {a : Fin p.n → ℂ} (hp : Holds p a) (he : p.n % 2 = 0) (h : Loads polyfit spline o p F f1 (fun _ => 0) 0 R γ fR)
    {L : ℝ} (hL : F.fib.length = some L) (hpos : 0 < L) (hm : o.method = .ssfm) (heta : 0 < o.eta) (heta1 : o.eta ≠ 1) (hss : o.disableSS = true)
    (hr : o.disableRaman = true) (hdz : 0 < o.dz) (hmin : 0 < o.dzMin) {A : Fin p.n → ℂ} (hA : p.AT = .ok ⟨p.n, A⟩) :
    ∃ D : ℕ → ℝ, D 0 = 0 ∧ (∀ i < N, L / N ≤ D (i + 1) - D i) ∧ r.AT = (List.range N).map fun i => ⟨p.n, Gnlse.selfPhase 0 γ A (D (i + 1))⟩ := by
  obtain ⟨P0, P, hs, hl, hd, e1, e2, e3, e4, -⟩ := setup_describes hp h hss
  have hA' : A = ifftT a := by
    rw [hp.AT_eq] at hA
    have := Except.ok.inj hA
    simp only [Vec.mk.injEq, heq_eq_eq, true_and] at this
    exact this.symm
  have hP : P.Ok := ⟨by rw [e4]; exact hmin, by rw [e2]; exact heta⟩
  have hN : N ≠ 0 := (propagate_cases hrun).1
  have hNr : (0 : ℝ) < N := by exact_mod_cast Nat.pos_of_ne_zero hN
  obtain ⟨S, s1, s2, s3, s4⟩ := propagate_trace hrun hp he hL hs hl
  have hR1 : ∀ k, P.R k = 1 := by
    intro k
    rw [hd.resp, h.raman_off hr]
    rfl
  have hb0 : ∀ k, P.betas k = 0 := by
    intro k
    rw [hd.betas]
    rfl
  have ha0 : ∀ k, P.alpha k = 0 := by
    intro k
    rw [hd.alpha]
    simp
  have step : ∀ i < N, 0 < (S i).dz → ∃ d, L / N ≤ d ∧ (∀ j, (S (i + 1)).A j = exp (I * ((γ * ‖(S i).A j‖ ^ 2 * d : ℝ) : ℂ)) * (S i).A j) ∧
      0 < (S (i + 1)).dz := by
    intro i hi hdzi
    obtain ⟨f', s, l, q1, -, q3, q4, q5, -⟩ := C123_split_step hP (e1.trans hm) hb0 ha0 hR1 hd.ss (by rw [e2]; exact heta1) (div_pos hpos hNr) 1 hdzi
    rw [s3 i hi] at q1
    obtain rfl := Option.some.inj q1
    refine ⟨covered l, q5, fun j => ?_, q4⟩
    rw [q3 j, hd.gamma, mul_one]
  have hdzs : ∀ i ≤ N, 0 < (S i).dz := by
    intro i
    induction i with
    | zero => intro _; rw [s2]; exact hdz
    | succ i ih => intro hi; exact (step i (by omega) (ih (by omega))).choose_spec.2.2
  have hd' : ∀ i, ∃ d : ℝ, i < N → L / N ≤ d ∧ ∀ j, (S (i + 1)).A j = exp (I * ((γ * ‖(S i).A j‖ ^ 2 * d : ℝ) : ℂ)) * (S i).A j := by
    intro i
    by_cases hi : i < N
    · obtain ⟨d, h1, h2, -⟩ := step i hi (hdzs i hi.le)
      exact ⟨d, fun _ => ⟨h1, h2⟩⟩
    · exact ⟨0, fun h => absurd h hi⟩
  choose d hd2 using hd'
  have hAll : ∀ i ≤ N, ∀ j, (S i).A j = exp (I * ((γ * ‖fftshift A j‖ ^ 2 * ∑ m ∈ Finset.range i, d m : ℝ) : ℂ)) * fftshift A j := by
    intro i
    induction i with
    | zero => intro _ j; rw [s1, hA']; simp
    | succ i ih =>
      intro hi j
      rw [(hd2 i (by omega)).2 j, ih (by omega) j, norm_mul, mul_comm I (_ : ℂ), mul_comm I (_ : ℂ), Complex.norm_exp_ofReal_mul_I, one_mul, ← mul_assoc,
        ← Complex.exp_add, Finset.sum_range_succ]
      congr 2
      push_cast
      ring
  refine ⟨fun i => ∑ m ∈ Finset.range i, d m, by simp, fun i hi => ?_, ?_⟩
  · simp only [Finset.sum_range_succ, add_sub_cancel_left]
    exact (hd2 i hi).1
  · rw [s4]
    refine List.map_congr_left fun i hi => ?_
    have hi' : i + 1 ≤ N := List.mem_range.1 hi
    congr 1
    have e : (S (i + 1)).A = fftshift (Gnlse.selfPhase 0 γ A (∑ m ∈ Finset.range (i + 1), d m)) := by
      funext j
      rw [hAll (i + 1) hi' j]
      simp only [Gnlse.selfPhase, fftshift, roll, Gnlse.leff, if_pos, zero_mul, zero_div, ofReal_zero, zero_add]
    rw [e, ifftshift_fftshift]

/-- a generated fibre whose dispersion coefficients all vanish has vanishing propagation constants -/
theorem getBetas_flat (polyfit : Fiber.PolyFit) (spline : Fiber.Spline) {s : Fiber.Specs} {p : Pulse} (z : ℝ) {f : Fiber.Fib} {b : Vec ℝ} {wl : ℝ}
    (hr : p.ready = true) (hn : 2 ≤ p.n) (hs : s.format = some "GVD") (hd : f.dispChanges = false) (hb : f.betas = some b) (hb0 : ∀ i, b.val i = 0)
    (hwl : f.centerWl = some wl) (hwl0 : wl ≠ 0) : Fiber.getBetas polyfit spline s p z f = (.ok (.arr ⟨p.n, fun _ => 0⟩), f) := by
  obtain ⟨c, hc⟩ := argmin_ok (fun i : Fin p.n => |2 * Real.pi * ((i : ℕ) - (p.n : ℝ) / 2) / p.tw|) (by omega)
  have ht : ∀ v, Fiber.taylor b v = 0 := fun v => Finset.sum_eq_zero fun i _ => by rw [hb0]; simp
  have hraw : Fiber.rawGVD f p = .ok ⟨p.n, fun _ => 0⟩ := by
    unfold Fiber.rawGVD
    rw [hwl, hb, W_of_ready hr (by omega)]
    simp only [Fiber.attr, except_bind_ok, if_neg hwl0, Vec.map_mk, ht]
  unfold Fiber.getBetas
  rw [hs]
  simp only [Fiber.reload, hd, Bool.false_eq_true, if_false, show ¬ (("GVD" : String) = "D") by decide, if_true]
  rw [hraw, except_bind_ok, reference_eq hr hn hc]
  have hg : gradAt hn (fun _ => (0 : ℝ)) c = 0 := by
    unfold gradAt
    split_ifs <;> simp
  simp only [hg, zero_div, zero_mul, sub_zero]
  rfl

/-- what a generated fibre without dispersion loads -/
theorem loads_flat (polyfit : Fiber.PolyFit) (spline : Fiber.Spline) (o : Obj) {p : Pulse} {a : Fin p.n → ℂ} (hp : Holds p a) (hn : 2 ≤ p.n)
    {length wl gamma gain : ℝ} {m : ℕ} {units label : String} (hwl : wl ≠ 0) (hr : o.disableRaman = true) :
    ∃ R fR, Loads polyfit spline o p ⟨Fiber.genFib length wl ⟨m, fun _ => 0⟩ gamma gain units label Fiber.Fib.new, Fiber.genSpecs gain⟩
      (Fiber.genFib length wl ⟨m, fun _ => 0⟩ gamma gain units label Fiber.Fib.new) (fun _ => 0) gain R gamma fR := by
  obtain ⟨β, R, fR, h⟩ := loads_generated polyfit spline o hp hn (length := length) (wl := wl) (gamma := gamma) (gain := gain)
    (b := ⟨m, fun _ => 0⟩) (units := units) (label := label) hwl (Or.inl hr)
  refine ⟨R, fR, ?_, h.gamma, h.gain, h.raman⟩
  refine getBetas_flat (b := if units = "ps^n/km" then (⟨m, fun _ => 0⟩ : Vec ℝ).map (· * 10 ^ (-3 : ℤ)) else ⟨m, fun _ => 0⟩) polyfit spline 0 hp.ready hn rfl rfl rfl
    ?_ rfl hwl
  by_cases hu : units = "ps^n/km"
  · rw [if_pos hu]
    intro i
    simp [Vec.map]
  · rw [if_neg hu]
    intro i
    rfl

/-- C123 applies to every nonzero pulse on an even grid and every generated fibre with vanishing dispersion coefficients: the default
method converges to the closed form, and the split-step method returns it. -/
theorem C123_nonvacuous (polyfit : Fiber.PolyFit) (spline : Fiber.Spline) {p : Pulse} {a : Fin p.n → ℂ} (hp : Holds p a) (hcf : p.cf ≠ 0)
    (hn : 2 ≤ p.n) (he : p.n % 2 = 0) (ha : a ≠ 0) {length wl gamma gain : ℝ} {m : ℕ} {units label : String} (hwl : wl ≠ 0) (hL : 0 < length) :
    ∃ A : Fin p.n → ℂ, p.AT = .ok ⟨p.n, A⟩ ∧ A ≠ 0 ∧ (∃ (N0 : ℕ) (C : ℝ), ∀ N, N0 ≤ N → ∃ r o' F',
        propagate polyfit spline { Obj.default with disableSS := true, disableRaman := true } p
          ⟨Fiber.genFib length wl ⟨m, fun _ => 0⟩ gamma gain units label Fiber.Fib.new, Fiber.genSpecs gain⟩ N false = some (.ok (r, o', F')) ∧ r.AT.length = N ∧
        ∀ i < N, ∃ v : Fin p.n → ℂ, r.AT[i]? = some ⟨p.n, v⟩ ∧ ∀ j, ‖v j - Gnlse.selfPhase gain gamma A ((i + 1) * (length / N)) j‖ ≤ C / N ^ 5) ∧
      ∀ N, 1 ≤ N → ∃ r o' F', propagate polyfit spline { Obj.default with disableSS := true, disableRaman := true, method := .ssfm } p
          ⟨Fiber.genFib length wl ⟨m, fun _ => 0⟩ gamma 0 units label Fiber.Fib.new, Fiber.genSpecs 0⟩ N false = some (.ok (r, o', F')) ∧
        ∃ D : ℕ → ℝ, D 0 = 0 ∧ (∀ i < N, length / N ≤ D (i + 1) - D i) ∧ r.AT = (List.range N).map fun i => ⟨p.n, Gnlse.selfPhase 0 gamma A (D (i + 1))⟩ := by
  have hA : ifftT a ≠ 0 := by
    intro h0
    refine ha ?_
    rw [← fftT_ifftT a, h0]
    funext k
    have := congrFun (fftT_smul 0 (fun _ : Fin p.n => (0 : ℂ))) k
    simp only [zero_mul] at this
    exact this
  refine ⟨ifftT a, hp.AT_eq, hA, ?_, fun N hN => ?_⟩
  · obtain ⟨R, fR, h⟩ := loads_flat polyfit spline { Obj.default with disableSS := true, disableRaman := true } hp hn (length := length) (wl := wl)
      (gamma := gamma) (gain := gain) (m := m) (units := units) (label := label) hwl rfl
    exact C123_converges hp he hcf h rfl hL rfl rfl rfl rfl (by norm_num [Obj.default]) (by norm_num [Obj.default]) (by norm_num [Obj.default]) hp.AT_eq hA
  · obtain ⟨R, fR, h⟩ := loads_flat polyfit spline { Obj.default with disableSS := true, disableRaman := true, method := .ssfm } hp hn (length := length) (wl := wl)
      (gamma := gamma) (gain := 0) (m := m) (units := units) (label := label) hwl rfl
    obtain ⟨r, o', hr, -⟩ := generated_returns polyfit spline { Obj.default with disableSS := true, disableRaman := true, method := .ssfm } hp hcf hn
      (length := length) (wl := wl) (gamma := gamma) (gain := 0) (b := ⟨m, fun _ => 0⟩) (units := units) (label := label) hwl hL hN (Or.inl rfl)
      (by norm_num [Obj.default]) (by norm_num [Obj.default]) (by norm_num [Obj.default])
    exact ⟨r, o', _, hr, C123_propagate hr hp he h rfl hL rfl (by norm_num [Obj.default]) (by norm_num [Obj.default]) rfl rfl (by norm_num [Obj.default])
      (by norm_num [Obj.default]) hp.AT_eq⟩

end

/-! ## C124: continuous waves -/

/-- one spectral bin is occupied -/
def OneBin (A : Fin n → ℂ) (k0 : Fin n) : Prop := ∀ k, k ≠ k0 → Gnlse.toFreq A k = 0

theorem toTime_toFreq (A : Fin n → ℂ) : Gnlse.toTime (Gnlse.toFreq A) = A := by
  unfold Gnlse.toTime Gnlse.toFreq
  rw [fftshift_ifftshift, fft_ifft, ifftshift_fftshift]

theorem toTime_smul (c : ℂ) (X : Fin n → ℂ) : Gnlse.toTime (fun k => c * X k) = fun j => c * Gnlse.toTime X j := by
  unfold Gnlse.toTime
  have : fftshift (fun k => c * X k) = fun k => c * fftshift X k := rfl
  rw [this, fft_smul]
  rfl

theorem toFreq_smul (c : ℂ) (X : Fin n → ℂ) : Gnlse.toFreq (fun k => c * X k) = fun j => c * Gnlse.toFreq X j := by
  unfold Gnlse.toFreq
  have : fftshift (fun k => c * X k) = fun k => c * fftshift X k := rfl
  rw [this, ifft_smul]
  rfl

/-- a multiplier acts on a single bin as a number -/
theorem OneBin.multiply {A : Fin n → ℂ} {k0 : Fin n} (h : OneBin A k0) (m : Fin n → ℂ) :
    Gnlse.toTime (fun k => m k * Gnlse.toFreq A k) = fun j => m k0 * A j := by
  have : (fun k => m k * Gnlse.toFreq A k) = fun k => m k0 * Gnlse.toFreq A k := by
    funext k
    by_cases hk : k = k0
    · rw [hk]
    · rw [h k hk]; simp
  rw [this, toTime_smul, toTime_toFreq]

theorem OneBin.smul {A : Fin n → ℂ} {k0 : Fin n} (h : OneBin A k0) (c : ℂ) : OneBin (fun j => c * A j) k0 := by
  intro k hk
  rw [toFreq_smul]
  simp only [h k hk, mul_zero]

/-- the power of a single bin is the same at all times -/
theorem OneBin.norm {A : Fin n → ℂ} {k0 : Fin n} (h : OneBin A k0) (j : Fin n) : ‖A j‖ = ‖Gnlse.toFreq A k0‖ := by
  have e := congrFun (toTime_toFreq A) j
  rw [← e]
  have hz : ∀ l, l ≠ rollIdx (-((n / 2 : ℕ) : ℤ)) k0 → fftshift (Gnlse.toFreq A) l = 0 := by
    intro l hl
    refine h _ fun hk => hl ?_
    rw [← hk, rollIdx_rollIdx, show ((n / 2 : ℕ) : ℤ) + -((n / 2 : ℕ) : ℤ) = 0 by ring, rollIdx_zero]
  have h0 : fftshift (Gnlse.toFreq A) (rollIdx (-((n / 2 : ℕ) : ℤ)) k0) = Gnlse.toFreq A k0 := by
    show Gnlse.toFreq A (rollIdx _ (rollIdx _ k0)) = _
    rw [rollIdx_rollIdx, show -((n / 2 : ℕ) : ℤ) + ((n / 2 : ℕ) : ℤ) = 0 by ring, rollIdx_zero]
  show ‖fft (fftshift (Gnlse.toFreq A)) _‖ = _
  unfold fft
  rw [Finset.sum_eq_single (rollIdx (-((n / 2 : ℕ) : ℤ)) k0) (fun l _ hl => by rw [hz l hl, zero_mul]) (fun hh => absurd (Finset.mem_univ _) hh), h0, norm_mul,
    norm_rootE, mul_one]

/-- the bin of a constant: `n/2` on even grids -/
def carrier (h : 0 < n) : Fin n := rollIdx ((n / 2 : ℕ) : ℤ) ⟨0, h⟩

theorem carrier_even (h : 0 < n) (he : n % 2 = 0) : (carrier h : ℕ) = n / 2 := by
  have := rollIdx_coe ((n / 2 : ℕ) : ℤ) (⟨0, h⟩ : Fin n)
  have h2 : ((0 : ℕ) - ((n / 2 : ℕ) : ℤ)) % n = (n / 2 : ℕ) := by
    rw [← Int.add_emod_right, Int.emod_eq_of_lt] <;> omega
  show ((rollIdx ((n / 2 : ℕ) : ℤ) ⟨0, h⟩ : Fin n) : ℕ) = _
  rw [h2] at this
  exact_mod_cast this

/-- a constant occupies the carrier's bin -/
theorem oneBin_const (h : 0 < n) (c : ℂ) : OneBin (fun _ : Fin n => c) (carrier h) := by
  intro k hk
  show ifft (fun _ : Fin n => c) (rollIdx (-((n / 2 : ℕ) : ℤ)) k) = 0
  unfold ifft
  rw [← Finset.mul_sum]
  have e : ∑ j : Fin n, rootE n ((j : ℕ) * ((rollIdx (-((n / 2 : ℕ) : ℤ)) k : Fin n) : ℕ) : ℤ) = 0 := by
    rw [sum_rootE, if_neg]
    intro hd
    have hlt := (rollIdx (-((n / 2 : ℕ) : ℤ)) k).isLt
    have h0 : ((rollIdx (-((n / 2 : ℕ) : ℤ)) k : Fin n) : ℕ) = 0 := Nat.eq_zero_of_dvd_of_lt (by exact_mod_cast hd) hlt
    have h1 : rollIdx (-((n / 2 : ℕ) : ℤ)) k = ⟨0, h⟩ := Fin.ext h0
    refine hk ?_
    unfold carrier
    rw [← h1, rollIdx_rollIdx, show -((n / 2 : ℕ) : ℤ) + ((n / 2 : ℕ) : ℤ) = 0 by ring, rollIdx_zero]
  rw [e]
  simp

/-- the closed form: a plane wave picks up the phase `β·z`, the gain and the phase of its own power -/
noncomputable def planeWave (b g γ r : ℝ) (A : Fin n → ℂ) (z : ℝ) : Fin n → ℂ := fun j =>
  exp (I * ((b * z : ℝ) : ℂ) + ((g * z / 2 : ℝ) : ℂ) + I * ((γ * r * ‖A j‖ ^ 2 * Gnlse.leff g z : ℝ) : ℂ)) * A j

/-- C124: a field in a single bin stays there and rotates with `β` of that bin and with its power, for every dispersion, gain and
Raman response; `r` is the response at frequency zero. -/
theorem C124_solution (hn : 0 < n) {A : Fin n → ℂ} {k0 : Fin n} (h : OneBin A k0) (β : Fin n → ℝ) (g : ℝ) {R : Fin n → ℂ} {r : ℝ}
    (hR : R (carrier hn) = r) (γ a b : ℝ) : Solves β g R γ a b (planeWave (β k0) g γ r A) ∧ planeWave (β k0) g γ r A 0 = A := by
  constructor
  · intro z _
    rw [hasDerivAt_pi]
    intro j
    have hd := phase_hasDerivAt (β k0) g (γ * r * ‖A j‖ ^ 2) (A j) z
    refine hd.congr_deriv ?_
    have hc : ∀ i, ‖A i‖ = ‖A j‖ := fun i => by rw [h.norm i, h.norm j]
    have e : planeWave (β k0) g γ r A z = fun i =>
        exp (I * ((β k0 * z : ℝ) : ℂ) + ((g * z / 2 : ℝ) : ℂ) + I * ((γ * r * ‖A j‖ ^ 2 * Gnlse.leff g z : ℝ) : ℂ)) * A i := by
      funext i
      rw [planeWave, hc i]
    have hb := (h.smul (exp (I * ((β k0 * z : ℝ) : ℂ) + ((g * z / 2 : ℝ) : ℂ) + I * ((γ * r * ‖A j‖ ^ 2 * Gnlse.leff g z : ℝ) : ℂ)))).multiply
      (fun k => I * (β k : ℂ) + (g : ℂ) / 2)
    have hp : ∀ i, planeWave (β k0) g γ r A z i * (starRingEnd ℂ) (planeWave (β k0) g γ r A z i) = ((Real.exp (g * z) * ‖A j‖ ^ 2 : ℝ) : ℂ) := by
      intro i
      rw [mul_conj, normSq_eq_norm_sq, e, norm_phase, hc i]
    unfold Gnlse.rhs
    simp only [hp]
    rw [(oneBin_const hn _).multiply R, e, hb, hR]
    push_cast
    ring
  · funext j
    simp [planeWave, leff_zero]

/-- the response of a real signal is real, so its value at frequency zero is -/
theorem RealResponse.carrier_real {R : Fin n → ℂ} (h : RealResponse R) (hn : 0 < n) : R (carrier hn) = ((R (carrier hn)).re : ℂ) := by
  have h1 := h (fun _ => 1) (carrier hn)
  have h2 := congrFun ((oneBin_const hn (1 : ℂ)).multiply R) (carrier hn)
  simp only [ofReal_one] at h1
  rw [h2] at h1
  simp only [mul_one] at h1
  exact Complex.ext (by simp) (by simpa using h1)

section
variable {polyfit : Fiber.PolyFit} {spline : Fiber.Spline} {o : Obj} {p : Pulse} {F : FibObj} {f1 : Fiber.Fib} {β : Fin p.n → ℝ}
  {g γ fR : ℝ} {R : Fin p.n → ℂ}

/-- C124: `propagate` with the default method and without self-steepening converges to the plane wave, for every dispersion, gain and
Raman model. -/
theorem C124_converges {a : Fin p.n → ℂ} (hp : Holds p a) (he : p.n % 2 = 0) (hcf : p.cf ≠ 0) (h : Loads polyfit spline o p F f1 β g R γ fR)
    {L : ℝ} (hL : F.fib.length = some L) (hpos : 0 < L) (hm : o.method = .rk4ip) (heta : o.eta = 5) (hss : o.disableSS = true)
    (hdz : 0 < o.dz) (hmin : 0 < o.dzMin) (hle : 0 < o.localError) {A : Fin p.n → ℂ} (hA : p.AT = .ok ⟨p.n, A⟩) {k0 : Fin p.n}
    (hk : ∀ k, k ≠ k0 → a k = 0) (hk0 : a k0 ≠ 0) :
    ∃ (N0 : ℕ) (C : ℝ), ∀ N, N0 ≤ N → ∃ r o' F', propagate polyfit spline o p F N false = some (.ok (r, o', F')) ∧ r.AT.length = N ∧
      ∀ i < N, ∃ v : Fin p.n → ℂ, r.AT[i]? = some ⟨p.n, v⟩ ∧
        ∀ j, ‖v j - planeWave (β k0) g γ (R (carrier hp.pos)).re A ((i + 1) * (L / N)) j‖ ≤ C / N ^ 5 := by
  have hA' : A = ifftT a := by
    rw [hp.AT_eq] at hA
    have := Except.ok.inj hA
    simp only [Vec.mk.injEq, heq_eq_eq, true_and] at this
    exact this.symm
  have hf : Gnlse.toFreq A = a := by
    rw [hA']
    exact fftT_ifftT a
  have h1 : OneBin A k0 := fun k hkk => by rw [hf]; exact hk k hkk
  obtain ⟨hU, hU0⟩ := C124_solution hp.pos h1 β g ((raman_real hp he h).carrier_real hp.pos) γ (-1) (L + 1)
  refine C116_converges hp he hcf h hL hpos hm heta hss hdz hmin hle (by norm_num : (-1 : ℝ) < 0) (by linarith : L < L + 1) hU
    (by rw [hU0]; exact hA) ?_
  rw [hU0]
  intro h0
  have := congrFun hf k0
  rw [← this, h0] at hk0
  refine hk0 ?_
  have := congrFun (toFreq_smul 0 (fun _ : Fin p.n => (0 : ℂ))) k0
  simp only [zero_mul] at this
  exact this

/-- C124: without Raman scattering the response at frequency zero is 1, so the phase is that of the whole power. -/
theorem C124_no_raman (h : Loads polyfit spline o p F f1 β g R γ fR) (hr : o.disableRaman = true) (hn : 0 < p.n) : (R (carrier hn)).re = 1 := by
  rw [h.raman_off hr]
  simp

/-- C124: with Raman scattering it is 1 plus the Raman fraction times the half sample that the trapezoidal normalisation leaves out. -/
theorem C124_raman {a : Fin p.n → ℂ} (hp : Holds p a) (he : p.n % 2 = 0) (h : Loads polyfit spline o p F f1 β g R γ fR) (hss : o.disableSS = true)
    (hr : o.disableRaman = false) : ∃ Z : ℝ, Z = (p.tw / p.n) * (∑ m : Fin p.n, (if (m : ℕ) < p.n / 2 then kernelFun o ((m : ℕ) * (p.tw / p.n)) else 0) -
        kernelFun o (((p.n / 2 - 1 : ℕ) : ℝ) * (p.tw / p.n)) / 2) ∧
      (Z ≠ 0 → (R (carrier hp.pos)).re = 1 + fR * ((p.tw / p.n) * kernelFun o (((p.n / 2 - 1 : ℕ) : ℝ) * (p.tw / p.n)) / 2) / Z) := by
  obtain ⟨P0, P, hs, -, hd, -, -, -, -, hPR⟩ := setup_describes hp h hss
  obtain ⟨Z, hZ, hZ2, -⟩ := C49_causal hp he hs hr
  refine ⟨Z, hZ2, fun hZ0 => ?_⟩
  have h1 := hZ (fun _ => 1) (carrier hp.pos)
  rw [hPR, hd.resp, ← toTime_mul, (oneBin_const hp.pos (1 : ℂ)).multiply R] at h1
  have e : ∑ m : Fin p.n, (if (m : ℕ) < p.n / 2 then ((kernelFun o ((m : ℕ) * (p.tw / p.n)) / Z : ℝ) : ℂ) * (1 : ℂ) else 0) =
      (((∑ m : Fin p.n, (if (m : ℕ) < p.n / 2 then kernelFun o ((m : ℕ) * (p.tw / p.n)) else 0)) / Z : ℝ) : ℂ) := by
    rw [Finset.sum_div, ofReal_sum]
    refine Finset.sum_congr rfl fun m _ => ?_
    split_ifs <;> simp
  simp only [mul_one] at h1
  simp only [mul_one] at e
  rw [e, ← ofReal_mul, ← ofReal_add] at h1
  rw [h1, ofReal_re]
  generalize (∑ m : Fin p.n, (if (m : ℕ) < p.n / 2 then kernelFun o ((m : ℕ) * (p.tw / p.n)) else 0)) = S at hZ2 ⊢
  generalize kernelFun o (((p.n / 2 - 1 : ℕ) : ℝ) * (p.tw / p.n)) = q at hZ2 ⊢
  field_simp
  rw [hZ2]
  ring

end

/-- a pulse whose accessors answer holds its field -/
theorem holds_of_accessors {q : Pulse} {N : ℕ} (hN : 0 < N) {b : Fin N → ℂ} {w : Fin N → ℝ} (h1 : q.AW = .ok ⟨N, b⟩) (h2 : q.W_THz = .ok ⟨N, w⟩) : Holds q b := by
  have hw : q.ready = true ∧ q.n = N := by
    unfold W_THz W at h2
    split_ifs at h2 with hr
    have hr' : q.ready = true := by simpa using hr
    unfold V at h2
    rw [if_neg (by simp [hr'])] at h2
    simp only [except_bind_ok, Vec.map_mk] at h2
    have := congrArg Vec.len (Except.ok.inj h2)
    exact ⟨hr', this⟩
  refine ⟨hw.1, hw.2, hN, ?_⟩
  unfold AW at h1
  cases ha : q.aw with
  | none => rw [ha] at h1; simp at h1
  | some v => rw [ha] at h1; rw [Except.ok.inj h1]

/-- C124 applies to the continuous-wave pulses of the library and every generated fibre with every dispersion: the field is in one bin `k0`
and every sample of the propagated field tends to the plane wave. -/
theorem C124_nonvacuous (polyfit : Fiber.PolyFit) (spline : Fiber.Spline) {power cw tw : ℝ} (hcw : 1 < cw) (htw : 1 < tw) (hpow : 0 < power) {N : ℕ}
    (hN : 2 ≤ N) (he : N % 2 = 0) {length wl gamma gain : ℝ} {b : Vec ℝ} {units label : String} (hwl : wl ≠ 0) (hL : 0 < length) :
    ∃ (q : Pulse) (x : Fin q.n → ℂ) (a : Fin q.n → ℂ) (k0 : Fin q.n) (β : Fin q.n → ℝ) (R : Fin q.n → ℂ) (fR : ℝ) (hp : Holds q a),
      cwPulse power cw tw N none = .ok q ∧ q.n = N ∧ q.AT = .ok ⟨q.n, x⟩ ∧ (∀ m, ‖x m‖ ^ 2 = power) ∧ (∀ k, k ≠ k0 → a k = 0) ∧
      Loads polyfit spline { Obj.default with disableSS := true } q ⟨Fiber.genFib length wl b gamma gain units label Fiber.Fib.new, Fiber.genSpecs gain⟩
        (Fiber.genFib length wl b gamma gain units label Fiber.Fib.new) β gain R gamma fR ∧
      ∃ (M0 : ℕ) (C : ℝ), ∀ M, M0 ≤ M → ∃ res o' F',
        propagate polyfit spline { Obj.default with disableSS := true } q
          ⟨Fiber.genFib length wl b gamma gain units label Fiber.Fib.new, Fiber.genSpecs gain⟩ M false = some (.ok (res, o', F')) ∧ res.AT.length = M ∧
        ∀ i < M, ∃ v : Fin q.n → ℂ, res.AT[i]? = some ⟨q.n, v⟩ ∧
          ∀ j, ‖v j - planeWave (β k0) gain gamma (R (carrier hp.pos)).re x ((i + 1) * (length / M)) j‖ ≤ C / M ^ 5 := by
  obtain ⟨q, x, a, w, k0, h1, h2, h3, h4, h5, h6, h7, -, -, h8⟩ := C25_cw_center hcw htw hpow.le (N := N) (by omega)
  have hp := holds_of_accessors (by omega) h3 h4
  obtain rfl := hp.npts
  obtain ⟨β, R, fR, h⟩ := loads_generated polyfit spline { Obj.default with disableSS := true } hp hN (length := length) (gamma := gamma) (gain := gain)
    (b := b) (units := units) (label := label) hwl (Or.inr (by norm_num [Obj.default]))
  have hcf : q.cf ≠ 0 := by
    have : q.cf = cNmps / cw := h8
    rw [this]
    have h0 : (cNmps : ℝ) ≠ 0 := by norm_num [cNmps, cMks]
    exact div_ne_zero h0 (by linarith)
  refine ⟨q, x, a, k0, β, R, fR, hp, h1, rfl, h2, h5, h6, h, ?_⟩
  exact C124_converges hp he hcf h rfl hL rfl rfl rfl (by norm_num [Obj.default]) (by norm_num [Obj.default]) (by norm_num [Obj.default]) h2 h6
    (by rw [h7]; exact_mod_cast (Real.sqrt_pos.2 hpow).ne')

end PyNLO
