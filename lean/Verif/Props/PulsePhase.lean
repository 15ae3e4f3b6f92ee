import Verif.Lemmas.PulseOps
import Verif.Props.Grids

/-!
# Properties C10–C14: energy, spectral phase, time offset
-/

namespace PyNLO

open Complex Pulse PyM

variable {p : Pulse} {n : ℕ} {a : Fin n → ℂ}

/-! ## C10 -/

/-- C10: after `set_epp(E)` the reported energy is `E` (any grid, any field of positive energy,
`E ≥ 0`). -/
theorem C10_set_epp (h : Holds p a) {e : ℝ} (he : calcEpp p = .ok e) (hpos : 0 < e) (E : ℝ)
    (hE : 0 ≤ E) : ∃ p', setEpp E p = (.ok (), p') ∧ calcEpp p' = .ok E ∧
      p'.n = p.n ∧ p'.tw = p.tw ∧ p'.cf = p.cf := by
  refine ⟨_, h.setEpp_eq he E, ?_, rfl, rfl, rfl⟩
  rw [(h.update _).calcEpp_eq, ifftT_fftT]
  rw [h.calcEpp_eq] at he
  injection he with he
  have : (fun i => ‖ifftT a i * (Real.sqrt (E / e) : ℂ)‖ ^ 2) =
      fun i => E / e * ‖ifftT a i‖ ^ 2 := by
    funext i
    rw [norm_mul, mul_pow, Complex.norm_real, Real.norm_eq_abs, sq_abs, Real.sq_sqrt (by positivity)]
    ring
  rw [this, trapz_smul]
  congr 1
  dsimp only
  rw [mul_left_comm, he]
  field_simp

/-- the energy of the sample pulse is positive, so C10 applies to it -/
theorem C10_nonvacuous : ∃ (p : Pulse) (a : Fin 2 → ℂ) (e : ℝ),
    Holds p a ∧ calcEpp p = .ok e ∧ 0 < e := by
  have hh : Holds { Pulse.blank with n := 2, ready := true, aw := some ⟨2, fun _ => 1⟩ }
    (n := 2) (fun _ => 1) := ⟨rfl, rfl, by norm_num, rfl⟩
  refine ⟨_, _, _, hh, hh.calcEpp_eq, ?_⟩
  have hpos : 0 < trapz fun i : Fin 2 => ‖ifftT (fun _ : Fin 2 => (1 : ℂ)) i‖ ^ 2 := by
    have h1 := trapz_eq_sum_sub (n := 1) fun i : Fin 2 => ‖ifftT (fun _ : Fin 2 => (1 : ℂ)) i‖ ^ 2
    have h2 := parseval_ifftT (fun _ : Fin 2 => (1 : ℂ))
    rw [Fin.sum_univ_two] at h1 h2
    simp only [Nat.cast_ofNat, norm_one, one_pow, Finset.sum_const, Finset.card_univ, Fintype.card_fin,
      smul_eq_mul, nsmul_eq_mul] at h2
    rw [h1]
    have : (Fin.last 1) = (1 : Fin 2) := rfl
    rw [this]
    linarith
  have : (0 : ℝ) < Pulse.blank.tw / ((2 : ℕ) : ℝ) * 10 ^ (-12 : ℤ) := by
    norm_num [Pulse.blank]
  exact mul_pos this hpos

/-! ## C11 -/

/-- The pulse after the call differs from the pulse before only by unimodular factors on `AW`. -/
def PhaseOnly (p p' : Pulse) {n : ℕ} (a : Fin n → ℂ) : Prop :=
  ∃ b : Fin n → ℂ, p' = { p with aw := some ⟨n, b⟩ } ∧ Holds p' b ∧ (∀ k, ‖b k‖ = ‖a k‖) ∧
    ∃ x y : Fin n → ℂ, p.AT = .ok ⟨n, x⟩ ∧ p'.AT = .ok ⟨n, y⟩ ∧ Spec.energy y = Spec.energy x

theorem phaseOnly_of {p p' : Pulse} {n : ℕ} {a b : Fin n → ℂ} (h : Holds p a)
    (hp : p' = { p with aw := some ⟨n, b⟩ }) (hn : ∀ k, ‖b k‖ = ‖a k‖) : PhaseOnly p p' a := by
  subst hp
  refine ⟨b, rfl, h.update b, hn, _, _, h.AT_eq, (h.update b).AT_eq, ?_⟩
  unfold Spec.energy
  rw [parseval_ifftT, parseval_ifftT]
  simp_rw [hn]

/-- C11 for `chirp_pulse_W`, all coefficients, with or without a reference frequency. -/
theorem C11_chirp_phase_only (h : Holds p a) (GDD TOD FOD : ℝ) (w0 : Option ℝ) :
    ∃ p', chirpPulseW GDD TOD FOD w0 p = (.ok (), p') ∧ PhaseOnly p p' a := by
  refine ⟨_, h.chirpPulseW_eq GDD TOD FOD w0, phaseOnly_of h rfl fun k => ?_⟩
  rw [norm_mul, norm_chirpFactor, one_mul]

/-- C11 for `apply_phase_W`. -/
theorem C11_apply_phase_only (h : Holds p a) (phase : Fin n → ℝ) :
    ∃ p', applyPhaseW ⟨n, phase⟩ p = (.ok (), p') ∧ PhaseOnly p p' a := by
  refine ⟨_, h.applyPhaseW_eq phase, phaseOnly_of h rfl fun k => ?_⟩
  rw [norm_mul, norm_exp_I_mul, mul_one]

/-- C11 for `add_time_offset`. -/
theorem C11_offset_phase_only (h : Holds p a) (t : ℝ) :
    ∃ p', addTimeOffset t p = (.ok (), p') ∧ PhaseOnly p p' a := by
  refine ⟨_, h.addTimeOffset_eq t, phaseOnly_of h rfl fun k => ?_⟩
  have : ∀ x : ℝ, -I * (x : ℂ) * (t : ℂ) = I * ((-(x * t) : ℝ) : ℂ) := fun x => by push_cast; ring
  rw [norm_mul, this, norm_exp_I_mul, mul_one]

/-- C11 for `dechirp_pulse` (degree 2) and `remove_time_delay` (degree 1), for every phase-unwrapping
result and every fitted polynomial; if the fit raises, the pulse is unchanged. -/
theorem C11_remove_poly_phase_only (h : Holds p a)
    (unwrap : {n : ℕ} → (Fin n → ℝ) → Fin n → ℝ)
    (polyfit : List (ℝ × ℝ) → ℕ → Except PyErr (ℝ → ℝ)) (deg : ℕ) (thr : ℝ) :
    (∃ p', removePolyPhase unwrap polyfit deg thr p = (.ok (), p') ∧ PhaseOnly p p' a) ∨
    (∃ e, removePolyPhase unwrap polyfit deg thr p = (.error e, p)) := by
  unfold removePolyPhase
  simp only [bind_apply, read_apply, W_THz, h.W_eq, h.AW_eq, dite_true, lift_apply]
  rcases polyfit _ deg with e | q
  · exact Or.inr ⟨e, rfl⟩
  · left
    dsimp only
    rw [h.setAW_eq]
    refine ⟨_, rfl, phaseOnly_of h rfl fun k => ?_⟩
    rw [norm_mul, norm_exp_I_mul, mul_one, Complex.norm_real, norm_norm]

/-- C11, exact effect of `dechirp_pulse` / `remove_time_delay`: if unwrapping only adds multiples of `2π`
(what `np.unwrap` is specified to do), the new field is the old one times `exp(-i q(W))` for the fitted
polynomial `q`. -/
theorem C11_remove_poly_exact (h : Holds p a)
    (unwrap : {n : ℕ} → (Fin n → ℝ) → Fin n → ℝ)
    (hunwrap : ∀ {n : ℕ} (x : Fin n → ℝ) i, ∃ m : ℤ, unwrap x i = x i + 2 * Real.pi * m)
    (polyfit : List (ℝ × ℝ) → ℕ → Except PyErr (ℝ → ℝ)) (deg : ℕ) (thr : ℝ) (p' : Pulse)
    (hok : removePolyPhase unwrap polyfit deg thr p = (.ok (), p')) :
    ∃ (q : ℝ → ℝ) (w : Fin n → ℝ) (b : Fin n → ℂ), p.W_THz = .ok ⟨n, w⟩ ∧ p'.AW = .ok ⟨n, b⟩ ∧
      ∀ k, b k = a k * exp (-(I * (q (w k) : ℂ))) := by
  unfold removePolyPhase at hok
  simp only [bind_apply, read_apply, W_THz, h.W_eq, h.AW_eq, dite_true, lift_apply] at hok
  rcases hq : polyfit _ deg with e | q
  · rw [hq] at hok; simp at hok
  · rw [hq] at hok
    dsimp only at hok
    rw [h.setAW_eq] at hok
    have hp : p' = _ := (Prod.mk.inj hok).2.symm
    refine ⟨q, _, _, h.W_eq, by rw [hp]; exact (h.update _).AW_eq, fun k => ?_⟩
    obtain ⟨m, hm⟩ := hunwrap (fun i => arg (a i)) k
    simp only [Fin.cast_eq_self]
    rw [hm]
    have e1 : I * ((arg (a k) + 2 * Real.pi * m -
        q (2 * Real.pi * ((k : ℕ) - (n : ℝ) / 2) / p.tw + 2 * Real.pi * p.cf) : ℝ) : ℂ) =
      (arg (a k) : ℂ) * I + m * (2 * Real.pi * I) +
        -(I * (q (2 * Real.pi * ((k : ℕ) - (n : ℝ) / 2) / p.tw + 2 * Real.pi * p.cf) : ℂ)) := by
      push_cast; ring
    rw [e1, exp_add, exp_add, exp_int_mul_two_pi_mul_I, mul_one, ← mul_assoc, norm_mul_exp_arg_mul_I]

theorem C11_nonvacuous : Holds samplePulse (n := 4) (fun i => ((i : ℕ) : ℂ) + 1 + I) ∧
    ∃ unwrap : {n : ℕ} → (Fin n → ℝ) → Fin n → ℝ,
      ∀ {n : ℕ} (x : Fin n → ℝ) i, ∃ m : ℤ, unwrap x i = x i + 2 * Real.pi * m :=
  ⟨samplePulse_holds, fun x => x, fun x i => ⟨0, by simp⟩⟩

/-! ## C12 -/

/-- C12: chirps add up (same reference), as states: the composite is the single chirp. -/
theorem C12_chirp_additive (h : Holds p a) (g t f g' t' f' : ℝ) (w0 : Option ℝ) :
    ∃ p1, chirpPulseW g t f w0 p = (.ok (), p1) ∧
      chirpPulseW g' t' f' w0 p1 = chirpPulseW (g + g') (t + t') (f + f') w0 p := by
  refine ⟨_, h.chirpPulseW_eq g t f w0, ?_⟩
  rw [(h.update _).chirpPulseW_eq, h.chirpPulseW_eq]
  congr 5
  funext i
  have : detuning { p with
    aw := some ⟨n, fun i => chirpFactor g t f (detuning p n w0 i) * a i⟩ } n w0 i = detuning p n w0 i := by
    cases w0 <;> rfl
  rw [this, ← mul_assoc, chirpFactor_mul]
  congr 2 <;> ring

/-- C12: the opposite chirp restores the pulse exactly. -/
theorem C12_chirp_undo (h : Holds p a) (g t f : ℝ) (w0 : Option ℝ) :
    ∃ p1, chirpPulseW g t f w0 p = (.ok (), p1) ∧
      chirpPulseW (-g) (-t) (-f) w0 p1 = (.ok (), p) := by
  obtain ⟨p1, h1, h2⟩ := C12_chirp_additive h g t f (-g) (-t) (-f) w0
  refine ⟨p1, h1, ?_⟩
  rw [h2, h.chirpPulseW_eq]
  have hf := h.field
  have : (fun i => chirpFactor (g + -g) (t + -t) (f + -f) (detuning p n w0 i) * a i) = a := by
    funext i; simp [chirpFactor_zero]
  rw [this, ← hf]

/-- C12, the documented phase: `E_new(ω) = exp(i(GDD ω²/2 + TOD ω³/6 + FOD ω⁴/24)) E(ω)` with `ω`
measured from the grid centre. -/
theorem C12_chirp_formula (h : Holds p a) (g t f : ℝ) :
    ∃ (p1 : Pulse) (v : Fin n → ℝ) (b : Fin n → ℂ), chirpPulseW g t f none p = (.ok (), p1) ∧
      p.V_THz = .ok ⟨n, v⟩ ∧ p1.AW = .ok ⟨n, b⟩ ∧
      ∀ k, b k = exp (I * ((1 / 2 * g * v k ^ 2 + 1 / 6 * t * v k ^ 3 + 1 / 24 * f * v k ^ 4 : ℝ) : ℂ))
        * a k := by
  refine ⟨_, _, _, h.chirpPulseW_eq g t f none, h.V_eq, (h.update _).AW_eq, fun k => ?_⟩
  rw [chirpFactor_eq]
  simp only [detuning]
  congr 4
  ring

/-! ## C13 -/

/-- `calc_epp` in terms of the fields: step size times (full sum minus half of the two end samples). -/
theorem epp_formula {m : ℕ} {a : Fin (m + 1) → ℂ} (h : Holds p a) :
    ∃ x : Fin (m + 1) → ℂ, p.AT = .ok ⟨m + 1, x⟩ ∧
      calcEpp p = .ok (p.tw / (m + 1 : ℕ) * 10 ^ (-12 : ℤ) *
        (Spec.energy x - (‖x 0‖ ^ 2 + ‖x (Fin.last m)‖ ^ 2) / 2)) := by
  refine ⟨_, h.AT_eq, ?_⟩
  rw [h.calcEpp_eq, trapz_eq_sum_sub]
  rfl

/-- C13, what holds: dispersion leaves `calc_epp` unchanged whenever the two end samples of the time
window carry the same total power before and after (in particular when they are dark). -/
theorem C13_epp_under_chirp_partial {m : ℕ} {a : Fin (m + 1) → ℂ} (h : Holds p a)
    (g t f : ℝ) (w0 : Option ℝ) (p' : Pulse) (hc : chirpPulseW g t f w0 p = (.ok (), p'))
    (x y : Fin (m + 1) → ℂ) (hx : p.AT = .ok ⟨m + 1, x⟩) (hy : p'.AT = .ok ⟨m + 1, y⟩)
    (hend : ‖x 0‖ ^ 2 + ‖x (Fin.last m)‖ ^ 2 = ‖y 0‖ ^ 2 + ‖y (Fin.last m)‖ ^ 2) :
    calcEpp p' = calcEpp p := by
  obtain ⟨p1, h1, b, hb, hhold, -, x', y', hx', hy', hen⟩ := C11_chirp_phase_only h g t f w0
  have : p1 = p' := by rw [h1] at hc; exact (Prod.mk.inj hc).2
  subst this
  obtain ⟨u, hu, hu'⟩ := epp_formula h
  obtain ⟨v, hv, hv'⟩ := epp_formula hhold
  rw [hu', hv']
  have htw : p1.tw = p.tw := by rw [hb]
  have e1 : u = x := by rw [hu] at hx; simpa using hx
  have e2 : v = y := by rw [hv] at hy; simpa using hy
  have e3 : x' = x := by rw [hx'] at hx; simpa using hx
  have e4 : y' = y := by rw [hy'] at hy; simpa using hy
  subst e1 e2 e3 e4
  rw [htw, hend, hen]

/-- The pulse used to refute C13: four points, unit window, two adjacent spectral lines. -/
noncomputable def beatPulse : Pulse :=
  { Pulse.blank with
    n := 4, ready := true, aw := some ⟨4, ![0, 1, 1, 0]⟩ }

theorem beatPulse_holds : Holds beatPulse ![0, 1, 1, 0] := ⟨rfl, rfl, by norm_num, rfl⟩

theorem rootE_four (a : ℤ) : rootE 4 a = I ^ (a % 4).toNat := by
  rw [← rootE_emod (by norm_num) a]
  have h4 : (0 : ℤ) < 4 := by norm_num
  have h1 := Int.emod_nonneg a (ne_of_gt h4)
  have h2 := Int.emod_lt_of_pos a h4
  have hI : rootE 4 1 = I := by
    unfold rootE
    have : 2 * (Real.pi : ℂ) * I * (((1 : ℤ) : ℂ) / ((4 : ℕ) : ℂ)) = (Real.pi : ℂ) / 2 * I := by
      push_cast; ring
    rw [this, exp_pi_div_two_mul_I]
  rw [← hI, rootE_pow]
  congr 1
  push_cast
  omega

theorem ifftT_four (x : Fin 4 → ℂ) (h0 : x 0 = 0) (h3 : x 3 = 0) :
    ifftT x = ![x 2 - x 1, x 2 - I * x 1, x 2 + x 1, x 2 + I * x 1] := by
  funext k
  rw [ifftT_apply_even (by norm_num)]
  fin_cases k <;>
    simp [Fin.sum_univ_four, rootE_four, h0, h3] <;> ring_nf <;> simp [pow_succ] <;> ring

/-- C13 refuted: a concrete four-point pulse whose reported energy drops from 7/4 to 5/4 (in units of
1e-12) under pure dispersion. -/
theorem C13_epp_under_chirp_refuted : ∃ (g : ℝ) (p' : Pulse) (e e' : ℝ),
    chirpPulseW g 0 0 none beatPulse = (.ok (), p') ∧ calcEpp beatPulse = .ok e ∧
    calcEpp p' = .ok e' ∧ e' ≠ e := by
  have h := beatPulse_holds
  refine ⟨1 / (2 * Real.pi), _, _, _, h.chirpPulseW_eq _ _ _ _, h.calcEpp_eq,
    (h.update _).calcEpp_eq, ?_⟩
  have hpi := Real.pi_ne_zero
  have hfac : ∀ i : Fin 4, chirpFactor (1 / (2 * Real.pi)) 0 0 (detuning beatPulse 4 none i) * ![0, 1, 1, 0] i =
      (![0, -1, 1, 0] : Fin 4 → ℂ) i := by
    intro i
    fin_cases i
    · simp
    · simp only [detuning, beatPulse, Pulse.blank]
      rw [chirpFactor_eq]
      have : (1 / (2 * Real.pi) / 2 * (2 * Real.pi * (((⟨1, by norm_num⟩ : Fin 4) : ℕ) - ((4 : ℕ) : ℝ) / 2) / 1) ^ 2
        + 0 / 6 * (2 * Real.pi * (((⟨1, by norm_num⟩ : Fin 4) : ℕ) - ((4 : ℕ) : ℝ) / 2) / 1) ^ 3
        + 0 / 24 * (2 * Real.pi * (((⟨1, by norm_num⟩ : Fin 4) : ℕ) - ((4 : ℕ) : ℝ) / 2) / 1) ^ 4) = Real.pi := by
        norm_num
        field_simp
      simp only [Fin.mk_one, Fin.isValue] at this ⊢
      rw [this, mul_comm I, exp_pi_mul_I]
      simp
    · norm_num [detuning, beatPulse, chirpFactor]
    · simp
  simp_rw [hfac]
  rw [ifftT_four _ (by simp) (by simp), ifftT_four _ (by simp) (by simp)]
  have n1 : ‖(1 : ℂ) + I‖ ^ 2 = 2 := by
    rw [← normSq_eq_norm_sq]; norm_num [normSq_apply]
  have n2 : ‖(1 : ℂ) - I‖ ^ 2 = 2 := by
    rw [← normSq_eq_norm_sq]; norm_num [normSq_apply]
  have n3 : ‖(1 : ℂ) + -I‖ ^ 2 = 2 := by rw [← sub_eq_add_neg]; exact n2
  simp only [trapz_eq_sum_sub, beatPulse, Pulse.blank]
  have l4 : (Fin.last 3) = (3 : Fin 4) := rfl
  have l5 : ∀ f : Fin (3 + 1) → ℝ, ∑ i, f i = f 0 + f 1 + f 2 + f 3 := fun f => Fin.sum_univ_four f
  rw [l5, l5]
  simp [l4, n1, n2, n3]
  norm_num

/-! ## C14 -/

/-- C14: an offset of `d` grid steps circularly shifts `AT` by `d` samples up to one unimodular constant:
`AT_new[m] = c · AT[(m + d) mod NPTS]`.  All sizes, all integers. -/
theorem C14_offset_is_roll (h : Holds p a) (htw : p.tw ≠ 0) (d : ℤ) :
    ∃ (p' : Pulse) (c : ℂ) (x y : Fin n → ℂ), addTimeOffset (d * (p.tw / n)) p = (.ok (), p') ∧ ‖c‖ = 1 ∧
      p.AT = .ok ⟨n, x⟩ ∧ p'.AT = .ok ⟨n, y⟩ ∧ y = fun m => c * roll (-d) x m := by
  have hn : (n : ℂ) ≠ 0 := by have := h.pos; exact_mod_cast this.ne'
  have htwc : (p.tw : ℂ) ≠ 0 := by exact_mod_cast htw
  set τ : ℝ := d * (p.tw / n) with hτ
  set φ : ℝ := Real.pi * d - 2 * Real.pi * p.cf * τ with hφ
  refine ⟨_, exp (I * (φ : ℂ)) * rootE n ((n / 2 : ℕ) * d), _, _, h.addTimeOffset_eq τ, ?_, h.AT_eq,
    (h.update _).AT_eq, ?_⟩
  · rw [norm_mul, norm_exp_I_mul, norm_rootE, one_mul]
  funext m
  have hroll : ∀ k : Fin n, ((rollIdx (-d) m : Fin n) : ℕ) = ((m : ℕ) + d : ℤ) % n := by
    intro k; rw [rollIdx_coe]; congr 1; ring
  rw [ifftT_apply]
  unfold roll
  rw [ifftT_apply, Finset.mul_sum]
  refine Finset.sum_congr rfl fun k _ => ?_
  have e1 : exp (-I * ((2 * Real.pi * ((k : ℕ) - (n : ℝ) / 2) / p.tw + 2 * Real.pi * p.cf : ℝ) : ℂ) * (τ : ℂ)) =
      exp (I * (φ : ℂ)) * rootE n (-((k : ℕ) * d)) := by
    rw [rootE_eq_exp, ← exp_add]
    congr 1
    rw [hφ, hτ]
    push_cast
    field_simp
    ring
  have e2 : rootE n (-((((k : ℕ) : ℤ) + (n / 2 : ℕ)) *
      ((((rollIdx (-d) m : Fin n) : ℕ) : ℤ) + (n / 2 : ℕ)))) =
      rootE n (-((((k : ℕ) : ℤ) + (n / 2 : ℕ)) * (((m : ℕ) : ℤ) + d + (n / 2 : ℕ)))) := by
    apply rootE_congr_of_dvd (by have := h.pos; omega)
    have : ((n : ℤ) ∣ (((m : ℕ) : ℤ) + d) - (((rollIdx (-d) m : Fin n) : ℕ) : ℤ)) := by
      rw [rollIdx_coe, sub_neg_eq_add]
      exact Int.dvd_self_sub_emod
    obtain ⟨q, hq⟩ := this
    refine ⟨(((k : ℕ) : ℤ) + (n / 2 : ℕ)) * q, ?_⟩
    rw [show (((m : ℕ) : ℤ) + d) = n * q + (((rollIdx (-d) m : Fin n) : ℕ) : ℤ) by linarith]
    ring
  rw [e1, e2]
  have e3 : rootE n ((n / 2 : ℕ) * d) *
      rootE n (-((((k : ℕ) : ℤ) + (n / 2 : ℕ)) * (((m : ℕ) : ℤ) + d + (n / 2 : ℕ)))) =
      rootE n (-((k : ℕ) * d)) * rootE n (-((((k : ℕ) : ℤ) + (n / 2 : ℕ)) * (((m : ℕ) : ℤ) + (n / 2 : ℕ)))) := by
    rw [← rootE_add, ← rootE_add]
    congr 1
    ring
  calc a k * (exp (I * (φ : ℂ)) * rootE n (-((k : ℕ) * d))) *
        rootE n (-((((k : ℕ) : ℤ) + (n / 2 : ℕ)) * (((m : ℕ) : ℤ) + (n / 2 : ℕ))))
      = exp (I * (φ : ℂ)) * (a k * (rootE n (-((k : ℕ) * d)) *
          rootE n (-((((k : ℕ) : ℤ) + (n / 2 : ℕ)) * (((m : ℕ) : ℤ) + (n / 2 : ℕ)))))) := by ring
    _ = _ := by rw [← e3]; ring

/-- C14: offsets add (every real offset), and offset zero is the identity. -/
theorem C14_offset_additive (h : Holds p a) (s t : ℝ) :
    ∃ p1, addTimeOffset s p = (.ok (), p1) ∧ addTimeOffset t p1 = addTimeOffset (s + t) p := by
  refine ⟨_, h.addTimeOffset_eq s, ?_⟩
  rw [(h.update _).addTimeOffset_eq, h.addTimeOffset_eq]
  congr 5
  funext i
  rw [mul_assoc, ← exp_add]
  congr 2
  push_cast
  ring

theorem C14_offset_zero (h : Holds p a) : addTimeOffset 0 p = (.ok (), p) := by
  rw [h.addTimeOffset_eq]
  have hf := h.field
  simp only [ofReal_zero, mul_zero, exp_zero, mul_one]
  rw [← hf]

/-- C14, direction refuted: a positive offset of one grid step moves a pulse sitting in sample 2 of a
four-sample window to sample 1, i.e. to *earlier* `T_ps`, not later. -/
theorem C14_direction_refuted : ∃ (p p' : Pulse) (x y : Fin 4 → ℂ) (g : Fin 4 → ℝ),
    0 < p.tw / 4 ∧ addTimeOffset (p.tw / 4) p = (.ok (), p') ∧ p.AT = .ok ⟨4, x⟩ ∧
    p'.AT = .ok ⟨4, y⟩ ∧ p.T_ps = .ok ⟨4, g⟩ ∧ (∀ m, x m ≠ 0 ↔ m = 2) ∧ (∀ m, y m ≠ 0 ↔ m = 1) ∧
    g 1 < g 2 := by
  set x : Fin 4 → ℂ := ![0, 0, 1, 0] with hx
  set p : Pulse := { Pulse.blank with n := 4, ready := true, aw := some ⟨4, fftT x⟩ } with hp
  have h : Holds p (fftT x) := ⟨rfl, rfl, by norm_num, rfl⟩
  have htw : p.tw = 1 := rfl
  obtain ⟨p', c, x', y, h1, hc, hx', hy, hroll⟩ := C14_offset_is_roll h (by rw [htw]; norm_num) 1
  have hxx : x' = x := by
    rw [h.AT_eq, ifftT_fftT] at hx'; simpa using hx'.symm
  subst hxx
  have hc0 : c ≠ 0 := by intro h0; rw [h0] at hc; simp at hc
  refine ⟨p, p', x, y, _, by rw [htw]; norm_num, ?_, hx', hy, h.T_eq, ?_, ?_, ?_⟩
  · simpa using h1
  · intro m; fin_cases m <;> simp [hx]
  · intro m
    rw [hroll]
    have r0 : rollIdx (n := 4) (-1) 0 = 1 := by decide
    have r1 : rollIdx (n := 4) (-1) 1 = 2 := by decide
    have r2 : rollIdx (n := 4) (-1) 2 = 3 := by decide
    have r3 : rollIdx (n := 4) (-1) 3 = 0 := by decide
    fin_cases m <;> simp [roll, r0, r1, r2, r3, hx, hc0]
  · rw [htw]; norm_num

theorem C14_nonvacuous : Holds samplePulse (n := 4) (fun i => ((i : ℕ) : ℂ) + 1 + I) ∧
    samplePulse.tw ≠ 0 := ⟨samplePulse_holds, by norm_num [samplePulse]⟩

end PyNLO
