import Verif.Props.DfgMix

/-!
# C102, C103, C104, C107: symmetries of the DFG integrand

The derivative does not depend on the work buffers (C104) or on the speed of the reference frame (C102); it commutes with
common delays and with phase shifts that obey the mixing rule (C103), and is quadratic in the fields (C107).
-/

namespace PyNLO.Dfg

open Finset Beam

variable {N : ℕ}

/-! ## Mixing products and phases -/

/-- Unit factors of the three waves that agree on every triple of bins that mixes. -/
structure MixPhase (c : ℤ) (u v w : Fin N → ℂ) : Prop where
  unit : ∀ j, ‖u j‖ = 1 ∧ ‖v j‖ = 1 ∧ ‖w j‖ = 1
  rule : ∀ m i j : Fin N, ((i : ℕ) : ℤ) + (j : ℕ) = (m : ℕ) + c → u m = v i * w j

theorem MixPhase.symm {c : ℤ} {u v w : Fin N → ℂ} (h : MixPhase c u v w) : MixPhase c u w v where
  unit := fun j => ⟨(h.unit j).1, (h.unit j).2.2, (h.unit j).2.1⟩
  rule := fun m i j hij => by rw [h.rule m j i (by omega), mul_comm]

theorem sumMix_phase {c : ℤ} {u v w : Fin N → ℂ} (h : MixPhase c u v w) (x y : Fin N → ℂ) (m : Fin N) :
    Spec.sumMix c (fun i => v i * x i) (fun j => w j * y j) m = u m * Spec.sumMix c x y m := by
  rw [Spec.sumMix, Spec.sumMix, mul_sum]
  refine sum_congr rfl fun i _ => ?_
  rw [mul_sum]
  refine sum_congr rfl fun j _ => ?_
  split_ifs with hij
  · rw [h.rule m i j hij]
    ring
  · simp

theorem diffMix_phase {c : ℤ} {u v w : Fin N → ℂ} (h : MixPhase c u v w) (p s : Fin N → ℂ) (j : Fin N) :
    Spec.diffMix c (fun m => u m * p m) (fun i => v i * s i) j = w j * Spec.diffMix c p s j := by
  rw [Spec.diffMix, Spec.diffMix, mul_sum]
  refine sum_congr rfl fun m _ => ?_
  rw [mul_sum]
  refine sum_congr rfl fun i _ => ?_
  split_ifs with hij
  · rw [h.rule m i j (by omega), map_mul]
    have : v i * (starRingEnd ℂ) (v i) = 1 := by rw [Complex.mul_conj, Complex.normSq_eq_norm_sq, (h.unit i).2.1]; norm_num
    linear_combination (w j * p m * (starRingEnd ℂ) (s i)) * this
  · simp

/-! ## The derivative written out -/

/-- The three phase factors at `z`. -/
noncomputable def phi (q : Prob N) (w : Wave N) (g : Fin N → ℂ) (z : ℝ) (j : Fin N) : ℂ := w.phasor z (z / q.speed) j * g j

/-- The derivative by mixing products, without work buffers. -/
noncomputable def rhs (q : Prob N) (deff z : ℝ) (y : Fin (3 * N) → ℂ) : Fin (3 * N) → ℂ :=
  let a := q.scales (z - q.len / 2)
  let g := q.gouyFactors (z - q.len / 2)
  join
    (slice q.p deff a.1 fun m => (phi q q.p g.1 z m)⁻¹ * Spec.sumMix (N / 2 : ℕ) (mixS q z y) (mixI q z y) m)
    (slice q.s deff a.2.1 fun m => (phi q q.s g.2.1 z m)⁻¹ * Spec.diffMix (N - N / 2 : ℕ) (mixP q z y) (mixI q z y) m)
    (slice q.i deff a.2.2 fun m => (phi q q.i g.2.2 z m)⁻¹ * Spec.diffMix (N - N / 2 : ℕ) (mixP q z y) (mixS q z y) m)

theorem deriv_eq (q : Prob N) (fc : FftC N) (z : ℝ) (y : Fin (3 * N) → ℂ) : (q.deriv fc z y).1 =
    match q.deffAt z with
    | .error e => .error e
    | .ok deff => if q.disableSPM = false then .error .AttributeError else .ok (rhs q deff z y) := by
  unfold Prob.deriv
  cases hde : q.deffAt z with
  | error e => rfl
  | ok deff =>
    simp only
    split_ifs
    · rfl
    · simp only [C69_conv, C69_corr]
      rfl

/-- C104: the derivative depends on position and fields only, not on the contents of the FFT work buffers, hence not on any
earlier evaluation. -/
theorem C104_no_history (q : Prob N) (fc fc' : FftC N) (z : ℝ) (y : Fin (3 * N) → ℂ) :
    (q.deriv fc z y).1 = (q.deriv fc' z y).1 := by
  rw [deriv_eq, deriv_eq]

/-- The buffers after a sequence of evaluations. -/
noncomputable def buffersAfter (q : Prob N) (l : List (ℝ × (Fin (3 * N) → ℂ))) (fc : FftC N) : FftC N :=
  l.foldl (fun fc e => (q.deriv fc e.1 e.2).2) fc

/-- C104 for histories: evaluations before, at any positions with any fields, do not change the result. -/
theorem C104_after_any_calls (q : Prob N) (l : List (ℝ × (Fin (3 * N) → ℂ))) (fc : FftC N) (z : ℝ) (y : Fin (3 * N) → ℂ) :
    (q.deriv (buffersAfter q l fc) z y).1 = (q.deriv fc z y).1 := C104_no_history _ _ _ _ _

/-! ## Reference frame -/

theorem phasor_shift (w : Wave N) (z t t' : ℝ) (j : Fin N) :
    w.phasor z t j = Complex.exp (Complex.I * (((t' - t) * w.W j : ℝ) : ℂ)) * w.phasor z t' j := by
  rw [Wave.phasor, Wave.phasor, ← Complex.exp_add]
  congr 1
  push_cast
  ring

/-- Phases linear in frequency obey the mixing rule on matched grids. -/
theorem mixPhase_linear {q : Prob N} (hm : Matched q) (τ : ℝ) : MixPhase (N / 2 : ℕ)
    (fun j => Complex.exp (Complex.I * ((τ * q.p.W j : ℝ) : ℂ))) (fun j => Complex.exp (Complex.I * ((τ * q.s.W j : ℝ) : ℂ)))
    (fun j => Complex.exp (Complex.I * ((τ * q.i.W j : ℝ) : ℂ))) where
  unit := fun j => by
    refine ⟨?_, ?_, ?_⟩ <;> rw [mul_comm, Complex.norm_exp_ofReal_mul_I]
  rule := fun m i j h => by
    rw [hm m i j h, ← Complex.exp_add]
    congr 1
    push_cast
    ring

/-- C102: on matched grids with an even number of bins, the derivative is the same in every reference frame, for all beams,
fields and positions. -/
theorem C102_frame (he : N % 2 = 0) {q : Prob N} (hm : Matched q) (v : ℝ) (fc : FftC N) (z : ℝ) (y : Fin (3 * N) → ℂ) :
    (({ q with speed := v } : Prob N).deriv fc z y).1 = (q.deriv fc z y).1 := by
  set q' : Prob N := { q with speed := v } with hq'
  have hN : N - N / 2 = N / 2 := by omega
  rw [deriv_eq, deriv_eq, show q'.deffAt z = q.deffAt z from rfl, show q'.disableSPM = q.disableSPM from rfl]
  cases hde : q.deffAt z with
  | error e => rfl
  | ok deff =>
    simp only
    have key : rhs q' deff z y = rhs q deff z y := by
      have hph := mixPhase_linear hm (z / q.speed - z / v)
      set eP : Fin N → ℂ := fun j => Complex.exp (Complex.I * (((z / q.speed - z / v) * q.p.W j : ℝ) : ℂ)) with hP
      set eS : Fin N → ℂ := fun j => Complex.exp (Complex.I * (((z / q.speed - z / v) * q.s.W j : ℝ) : ℂ)) with hS
      set eI : Fin N → ℂ := fun j => Complex.exp (Complex.I * (((z / q.speed - z / v) * q.i.W j : ℝ) : ℂ)) with hI
      have nz : ∀ {e : Fin N → ℂ} {j}, ‖e j‖ = 1 → e j ≠ 0 := fun h hc => by rw [hc] at h; norm_num at h
      have mP : mixP q' z y = fun j => eP j * mixP q z y j := by
        funext j
        simp only [mixP, hP]
        rw [show q'.p.phasor z (z / q'.speed) j = _ from phasor_shift q.p z (z / v) (z / q.speed) j]
        show ((q.scales (z - q.len / 2)).1 j : ℂ) * Ap y j * (_ * (q.gouyFactors (z - q.len / 2)).1 j) = _
        ring
      have mS : mixS q' z y = fun j => eS j * mixS q z y j := by
        funext j
        simp only [mixS, hS]
        rw [show q'.s.phasor z (z / q'.speed) j = _ from phasor_shift q.s z (z / v) (z / q.speed) j]
        show ((q.scales (z - q.len / 2)).2.1 j : ℂ) * As y j * (_ * (q.gouyFactors (z - q.len / 2)).2.1 j) = _
        ring
      have mI : mixI q' z y = fun j => eI j * mixI q z y j := by
        funext j
        simp only [mixI, hI]
        rw [show q'.i.phasor z (z / q'.speed) j = _ from phasor_shift q.i z (z / v) (z / q.speed) j]
        show ((q.scales (z - q.len / 2)).2.2 j : ℂ) * Ai y j * (_ * (q.gouyFactors (z - q.len / 2)).2.2 j) = _
        ring
      have ph : ∀ (w : Wave N) (g : Fin N → ℂ) j, phi q' w g z j =
          Complex.exp (Complex.I * (((z / q.speed - z / v) * w.W j : ℝ) : ℂ)) * phi q w g z j := by
        intro w g j
        simp only [phi]
        rw [show w.phasor z (z / q'.speed) j = _ from phasor_shift w z (z / v) (z / q.speed) j]
        ring
      have cancel : ∀ {e a b : ℂ}, ‖e‖ = 1 → (e * a)⁻¹ * (e * b) = a⁻¹ * b := by
        intro e a b h
        have : e ≠ 0 := fun hc => by rw [hc] at h; norm_num at h
        rw [mul_inv]
        field_simp
      unfold rhs
      simp only [hN]
      rw [mP, mS, mI]
      congr 1
      · congr 1
        funext m
        rw [sumMix_phase hph]
        exact (congrArg (·⁻¹ * _) (ph q.p _ m)).trans (cancel (hph.unit m).1)
      · congr 1
        funext m
        rw [diffMix_phase hph.symm]
        exact (congrArg (·⁻¹ * _) (ph q.s _ m)).trans (cancel (hph.unit m).2.1)
      · congr 1
        funext m
        rw [diffMix_phase hph]
        exact (congrArg (·⁻¹ * _) (ph q.i _ m)).trans (cancel (hph.unit m).2.2)
    rw [key]

/-! ## Phases and delays -/

/-- Multiply the three fields by factors. -/
def mulFields (u v w : Fin N → ℂ) (y : Fin (3 * N) → ℂ) : Fin (3 * N) → ℂ :=
  join (fun j => u j * Ap y j) (fun j => v j * As y j) (fun j => w j * Ai y j)

theorem slice_mul (w : Wave N) (deff : ℝ) (a : Fin N → ℝ) (u mix : Fin N → ℂ) :
    slice w deff a (fun j => u j * mix j) = fun j => u j * slice w deff a mix j := by
  funext j
  simp only [slice]
  ring

theorem rhs_mul {q : Prob N} (he : N % 2 = 0) {u v w : Fin N → ℂ} (h : MixPhase (N / 2 : ℕ) u v w) (deff z : ℝ)
    (y : Fin (3 * N) → ℂ) : rhs q deff z (mulFields u v w y) = mulFields u v w (rhs q deff z y) := by
  have hN : N - N / 2 = N / 2 := by omega
  have mP : mixP q z (mulFields u v w y) = fun j => u j * mixP q z y j := by
    funext j; simp only [mixP, mulFields, Ap_join]; ring
  have mS : mixS q z (mulFields u v w y) = fun j => v j * mixS q z y j := by
    funext j; simp only [mixS, mulFields, As_join]; ring
  have mI : mixI q z (mulFields u v w y) = fun j => w j * mixI q z y j := by
    funext j; simp only [mixI, mulFields, Ai_join]; ring
  unfold rhs
  rw [mP, mS, mI]
  simp only [hN]
  rw [mulFields, Ap_join, As_join, Ai_join]
  congr 1
  · rw [← slice_mul]
    congr 1
    funext m
    rw [sumMix_phase h]
    ring
  · rw [← slice_mul]
    congr 1
    funext m
    rw [diffMix_phase h.symm]
    ring
  · rw [← slice_mul]
    congr 1
    funext m
    rw [diffMix_phase h]
    ring

theorem deriv_mul {q : Prob N} (he : N % 2 = 0) {u v w : Fin N → ℂ} (h : MixPhase (N / 2 : ℕ) u v w) {fc : FftC N} {z : ℝ}
    {y d : Fin (3 * N) → ℂ} (hd : (q.deriv fc z y).1 = .ok d) :
    (q.deriv fc z (mulFields u v w y)).1 = .ok (mulFields u v w d) := by
  rw [deriv_eq] at hd ⊢
  cases hde : q.deffAt z with
  | error e => rw [hde] at hd; simp at hd
  | ok deff =>
    rw [hde] at hd
    simp only at hd ⊢
    split_ifs at hd ⊢
    rw [rhs_mul he h, Except.ok.inj hd]

/-- C103, delay: on matched grids with an even number of bins, delaying the three fields by `τ` delays the three derivatives
by `τ`. -/
theorem C103_delay (he : N % 2 = 0) {q : Prob N} (hm : Matched q) (τ : ℝ) {fc : FftC N} {z : ℝ} {y d : Fin (3 * N) → ℂ}
    (hd : (q.deriv fc z y).1 = .ok d) :
    let e (w : Wave N) (j : Fin N) := Complex.exp (Complex.I * ((τ * w.W j : ℝ) : ℂ))
    (q.deriv fc z (mulFields (e q.p) (e q.s) (e q.i) y)).1 = .ok (mulFields (e q.p) (e q.s) (e q.i) d) :=
  deriv_mul he (mixPhase_linear hm τ) hd

/-- C103, phase: on every grid with an even number of bins, phase shifts `a` of the signal and `b` of the idler with `a + b`
of the pump shift the derivatives alike. -/
theorem C103_phase (he : N % 2 = 0) (q : Prob N) (a b : ℝ) {fc : FftC N} {z : ℝ} {y d : Fin (3 * N) → ℂ}
    (hd : (q.deriv fc z y).1 = .ok d) :
    let e (x : ℝ) (_ : Fin N) := Complex.exp (Complex.I * (x : ℂ))
    (q.deriv fc z (mulFields (e (a + b)) (e a) (e b) y)).1 = .ok (mulFields (e (a + b)) (e a) (e b) d) := by
  refine deriv_mul he ⟨fun j => ?_, fun m i j _ => ?_⟩ hd
  · refine ⟨?_, ?_, ?_⟩ <;> (beta_reduce; rw [mul_comm, Complex.norm_exp_ofReal_mul_I])
  · simp only
    rw [← Complex.exp_add]
    congr 1
    push_cast
    ring

/-! ## Scaling -/

theorem sumMix_scale (c : ℤ) (s : ℝ) (x y : Fin N → ℂ) (m : Fin N) :
    Spec.sumMix c (fun i => (s : ℂ) * x i) (fun j => (s : ℂ) * y j) m = (s : ℂ) ^ 2 * Spec.sumMix c x y m := by
  rw [Spec.sumMix, Spec.sumMix, mul_sum]
  refine sum_congr rfl fun i _ => ?_
  rw [mul_sum]
  refine sum_congr rfl fun j _ => ?_
  split_ifs
  · ring
  · simp

theorem diffMix_scale (c : ℤ) (s : ℝ) (x y : Fin N → ℂ) (m : Fin N) :
    Spec.diffMix c (fun i => (s : ℂ) * x i) (fun j => (s : ℂ) * y j) m = (s : ℂ) ^ 2 * Spec.diffMix c x y m := by
  rw [Spec.diffMix, Spec.diffMix, mul_sum]
  refine sum_congr rfl fun i _ => ?_
  rw [mul_sum]
  refine sum_congr rfl fun j _ => ?_
  split_ifs
  · rw [map_mul, Complex.conj_ofReal]
    ring
  · simp

/-- C107: the derivative is quadratic: scaling all fields by `s` scales it by `s²`; every grid and beam. -/
theorem C107_quadratic (q : Prob N) (s : ℝ) {fc : FftC N} {z : ℝ} {y d : Fin (3 * N) → ℂ} (hd : (q.deriv fc z y).1 = .ok d) :
    (q.deriv fc z fun k => (s : ℂ) * y k).1 = .ok fun k => (s : ℂ) ^ 2 * d k := by
  have hr : ∀ deff, rhs q deff z (fun k => (s : ℂ) * y k) = fun k => (s : ℂ) ^ 2 * rhs q deff z y k := by
    intro deff
    have mP : mixP q z (fun k => (s : ℂ) * y k) = fun j => (s : ℂ) * mixP q z y j := by funext j; simp only [mixP, Ap]; ring
    have mS : mixS q z (fun k => (s : ℂ) * y k) = fun j => (s : ℂ) * mixS q z y j := by funext j; simp only [mixS, As]; ring
    have mI : mixI q z (fun k => (s : ℂ) * y k) = fun j => (s : ℂ) * mixI q z y j := by funext j; simp only [mixI, Ai]; ring
    unfold rhs
    rw [mP, mS, mI]
    funext k
    simp only [join, slice, sumMix_scale, diffMix_scale]
    split_ifs <;> ring
  rw [deriv_eq] at hd ⊢
  cases hde : q.deffAt z with
  | error e => rw [hde] at hd; simp at hd
  | ok deff =>
    rw [hde] at hd
    simp only at hd ⊢
    split_ifs at hd ⊢
    rw [hr, Except.ok.inj hd]

/-- C107: fields that are zero in two of the three waves stay as they are: a single wave does not convert. -/
theorem C107_single_wave (q : Prob N) {fc : FftC N} {z : ℝ} {y d : Fin (3 * N) → ℂ} (hd : (q.deriv fc z y).1 = .ok d)
    (h : Ap y = 0 ∧ As y = 0 ∨ Ap y = 0 ∧ Ai y = 0 ∨ As y = 0 ∧ Ai y = 0) : d = 0 := by
  have mP : Ap y = 0 → mixP q z y = 0 := fun h => by funext j; simp [mixP, h]
  have mS : As y = 0 → mixS q z y = 0 := fun h => by funext j; simp [mixS, h]
  have mI : Ai y = 0 → mixI q z y = 0 := fun h => by funext j; simp [mixI, h]
  rw [deriv_eq] at hd
  cases hde : q.deffAt z with
  | error e => rw [hde] at hd; simp at hd
  | ok deff =>
    rw [hde] at hd
    simp only at hd
    split_ifs at hd
    rw [← Except.ok.inj hd]
    have s0 : ∀ (c : ℤ) (x : Fin N → ℂ), Spec.sumMix c 0 x = 0 := fun c x => by funext m; simp [Spec.sumMix]
    have s1 : ∀ (c : ℤ) (x : Fin N → ℂ), Spec.sumMix c x 0 = 0 := fun c x => by funext m; simp [Spec.sumMix]
    have d0 : ∀ (c : ℤ) (x : Fin N → ℂ), Spec.diffMix c 0 x = 0 := fun c x => by funext m; simp [Spec.diffMix]
    have d1 : ∀ (c : ℤ) (x : Fin N → ℂ), Spec.diffMix c x 0 = 0 := fun c x => by funext m; simp [Spec.diffMix]
    funext k
    rcases h with ⟨h1, h2⟩ | ⟨h1, h2⟩ | ⟨h1, h2⟩
    · simp [rhs, mP h1, mS h2, s0, d0, slice, join]
    · simp [rhs, mP h1, mI h2, s1, d0, slice, join]
    · simp [rhs, mS h1, mI h2, s0, d1, slice, join]

/-- The hypotheses of C102, C103 and C107 can be met with a derivative that is not zero. -/
theorem C102_nonvacuous : 2 % 2 = 0 ∧ Matched exGuided ∧ ∀ fc, ∃ d,
    (exGuided.deriv fc 0 (join ![1, 0] ![1, 0] ![0, Complex.I])).1 = .ok d ∧ d ≠ 0 := by
  refine ⟨rfl, exGuided_matched, fun fc => ?_⟩
  obtain ⟨-, -, -, h⟩ := C70_nonvacuous
  obtain ⟨d, hd, hr⟩ := h fc 0
  refine ⟨d, hd, fun hc => hr rfl ?_⟩
  subst hc
  simp [Spec.rate, Ap]

end PyNLO.Dfg
