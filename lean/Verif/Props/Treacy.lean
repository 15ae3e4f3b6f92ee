import Verif.Model.Treacy
import Verif.Lemmas.PulseCache
import Mathlib.Analysis.SpecialFunctions.Trigonometric.InverseDeriv
import Mathlib.Analysis.SpecialFunctions.Trigonometric.Deriv
import Mathlib.Analysis.Calculus.IteratedDeriv.Lemmas
import Mathlib.Tactic.LinearCombination

/-! # Grating compressor (C79, C80, C96) -/

namespace PyNLO.Treacy

open Real Filter Topology

/-- The grating diffracts the angular frequency `ω` at a real angle. -/
structure Diffracts (t : T) (ω : ℝ) : Prop where
  d : t.d ≠ 0
  pos : 0 < ω
  lo : -1 < t.sine (lOfW ω)
  hi : t.sine (lOfW ω) < 1

/-- Group delay of one pass, in seconds, as a function of the angular frequency. -/
noncomputable def T.tau (t : T) (G ω : ℝ) : ℝ := t.dphiOf G (t.g - arcsin (t.sine (lOfW ω)))

theorem sine_lOfW (t : T) (ω : ℝ) : t.sine (lOfW ω) = 2 * π * cMks / (ω * t.d) - sin t.g := by
  simp only [T.sine, lOfW]
  congr 1
  norm_num
  ring

theorem Diffracts.dphi {t : T} {ω : ℝ} (h : Diffracts t ω) (G : ℝ) : t.dphi ω G = .val (t.tau G ω) := by
  have : ¬ (t.sine (lOfW ω) < -1 ∨ 1 < t.sine (lOfW ω)) := by
    rintro (h1 | h1)
    · exact absurd h.lo (by linarith)
    · exact absurd h.hi (by linarith)
  simp only [T.dphi, T.theta, if_neg this, NFlt.map, T.tau]

theorem Diffracts.near {t : T} {ω : ℝ} (h : Diffracts t ω) : ∀ᶠ x in 𝓝 ω, Diffracts t x := by
  have hc : ContinuousAt (fun x => t.sine (lOfW x)) ω := by
    simp only [T.sine, lOfW]
    have := h.pos.ne'
    fun_prop (disch := exact this)
  filter_upwards [hc.eventually (lt_mem_nhds h.lo), hc.eventually (gt_mem_nhds h.hi), lt_mem_nhds h.pos] with x h1 h2 h3
  exact ⟨h.d, h3, h1, h2⟩

/-- Derivative of the group delay. -/
noncomputable def T.tau' (t : T) (G ω : ℝ) : ℝ :=
  -(4 * π ^ 2 * cMks * G) / (ω ^ 3 * t.d ^ 2 * √(1 - t.sine (lOfW ω) ^ 2) ^ 3)

theorem Diffracts.one_sub {t : T} {ω : ℝ} (h : Diffracts t ω) : 0 < 1 - t.sine (lOfW ω) ^ 2 := by
  nlinarith [h.lo, h.hi]

theorem Diffracts.hasDerivAt {t : T} {ω : ℝ} (h : Diffracts t ω) (G : ℝ) :
    HasDerivAt (t.tau G) (t.tau' G ω) ω := by
  have hω := h.pos
  have hd := h.d
  have hc : (0 : ℝ) < cMks := by norm_num [cMks]
  have h1 := h.one_sub
  have hs : HasDerivAt (fun x => t.sine (lOfW x)) (-(2 * π * cMks) / (ω ^ 2 * t.d)) ω := by
    have : (fun x => t.sine (lOfW x)) = fun x => 2 * π * cMks / t.d * x⁻¹ - sin t.g := by
      funext x
      rw [sine_lOfW, div_mul_eq_div_div, div_right_comm, div_eq_mul_inv _ x]
    rw [this]
    refine (((hasDerivAt_inv hω.ne').const_mul (2 * π * cMks / t.d)).sub_const (sin t.g)).congr_deriv ?_
    field_simp
  have ha := (Real.hasDerivAt_arcsin h.lo.ne' h.hi.ne).comp ω hs
  have hcos : cos (arcsin (t.sine (lOfW ω))) = √(1 - t.sine (lOfW ω) ^ 2) := cos_arcsin _
  have hsin : sin (arcsin (t.sine (lOfW ω))) = t.sine (lOfW ω) := sin_arcsin h.lo.le h.hi.le
  have hS : 0 < √(1 - t.sine (lOfW ω) ^ 2) := sqrt_pos.mpr h1
  have hS2 : √(1 - t.sine (lOfW ω) ^ 2) ^ 2 = 1 - t.sine (lOfW ω) ^ 2 := sq_sqrt h1.le
  have hnum := ((hasDerivAt_const ω t.g).sub ha).cos.const_add 1 |>.const_mul G
  have hden := ha.cos
  have hq := (hnum.div hden (by simp only [Function.comp]; rw [hcos]; exact hS.ne')).div_const cMks
  have e : t.tau G = fun x => (G * (1 + cos (t.g - (arcsin ∘ fun x => t.sine (lOfW x)) x))) /
      cos ((arcsin ∘ fun x => t.sine (lOfW x)) x) / cMks := by
    funext x
    simp only [T.tau, T.dphiOf, Function.comp, sub_sub_cancel]
    congr 1
    ring
  rw [e]
  refine hq.congr_deriv ?_
  simp only [Pi.sub_apply, Function.comp]
  rw [hcos, hsin, T.tau']
  have hadd : sin (t.g - arcsin (t.sine (lOfW ω))) * √(1 - t.sine (lOfW ω) ^ 2) +
      cos (t.g - arcsin (t.sine (lOfW ω))) * t.sine (lOfW ω) = 2 * π * cMks / (ω * t.d) - t.sine (lOfW ω) := by
    have e1 := sin_add (t.g - arcsin (t.sine (lOfW ω))) (arcsin (t.sine (lOfW ω)))
    rw [sub_add_cancel, hcos, hsin] at e1
    have e2 := sine_lOfW t ω
    linarith
  generalize sin (t.g - arcsin (t.sine (lOfW ω))) = x at *
  generalize cos (t.g - arcsin (t.sine (lOfW ω))) = y at *
  generalize √(1 - t.sine (lOfW ω) ^ 2) = S at *
  generalize t.sine (lOfW ω) = u at *
  have hadd' : x * S + (1 + y) * u = 2 * π * cMks / (ω * t.d) := by linarith
  rw [show (G * (-x * (0 - 1 / S * (-(2 * π * cMks) / (ω ^ 2 * t.d)))) * S -
      G * (1 + y) * (-u * (1 / S * (-(2 * π * cMks) / (ω ^ 2 * t.d))))) =
      -(G * (2 * π * cMks) / (ω ^ 2 * t.d) / S) * (x * S + (1 + y) * u) by field_simp; ring, hadd']
  field_simp
  norm_num

/-- C79: `calc_dt_dw_singlepass` is the derivative of `calc_dphi_domega` with respect to the angular frequency, and
`calc_compressor_gdd` is twice that, wherever there is a diffracted order. -/
theorem C79_derivative {t : T} {ω : ℝ} (h : Diffracts t ω) (G : ℝ) :
    ∃ τ : ℝ → ℝ, ∃ v : ℝ, (∀ᶠ x in 𝓝 ω, t.dphi x G = .val (τ x)) ∧ HasDerivAt τ v ω ∧
      t.dtdw (lOfW ω) G = .val v ∧ t.gdd (lOfW ω) G = .val (2 * v) := by
  have hω := h.pos
  have hd := h.d
  have hc : (0 : ℝ) < cMks := by norm_num [cMks]
  have hv : t.dtdw (lOfW ω) G = .val (t.tau' G ω) := by
    have : ¬ (t.sine (lOfW ω) < -1 ∨ 1 < t.sine (lOfW ω)) := by
      rintro (h1 | h1)
      · exact absurd h.lo (by linarith)
      · exact absurd h.hi (by linarith)
    simp only [T.dtdw, T.theta, if_neg this, NFlt.map, T.dtdwOf, sub_sub_cancel, NFlt.val.injEq]
    have hw : (2 * π * cMks / (lOfW ω * 1.0e-9) : ℝ) = ω := by
      simp only [lOfW]
      norm_num
      field_simp
      norm_num
    have e : (1 - (2 * π * cMks / (ω * t.d) - sin t.g) ^ 2 : ℝ) = √(1 - t.sine (lOfW ω) ^ 2) ^ 2 := by
      rw [sq_sqrt h.one_sub.le, sine_lOfW]
    have hS : 0 < √(1 - t.sine (lOfW ω) ^ 2) := sqrt_pos.mpr h.one_sub
    rw [hw, e, cos_arcsin, T.tau']
    generalize √(1 - t.sine (lOfW ω) ^ 2) = S at *
    field_simp
  refine ⟨t.tau G, t.tau' G ω, ?_, h.hasDerivAt G, hv, ?_⟩
  · filter_upwards [h.near] with x hx using hx.dphi G
  · rw [T.gdd, hv, NFlt.map]

theorem wOfL_lOfW {ω : ℝ} (h : 0 < ω) : wOfL (lOfW ω) = ω := by
  have hc : (0 : ℝ) < cMks := by norm_num [cMks]
  simp only [lOfW, wOfL]
  norm_num
  field_simp
  norm_num

/-- C79: the constructor stores the grating period, the inverse of the number of lines per metre, and the angle in
radians. -/
theorem C79_units (lines deg : ℝ) (hl : lines ≠ 0) :
    ∃ t, T.init lines deg = .ok t ∧ t.d * (lines * 1000) = 1 ∧ t.g * 180 = deg * π := by
  refine ⟨_, by rw [T.init, if_neg hl], ?_, ?_⟩
  · dsimp only
    field_simp
    norm_num
  · dsimp only
    ring

/-- C79: for an array `calc_theta` agrees with the scalar version at wavelengths that are diffracted; at longer ones it
returns the angle for a ray along the grating instead of NaN. -/
theorem C79_theta_array (t : T) (wl : ℝ) :
    (-1 ≤ t.sine wl → t.sine wl ≤ 1 → t.theta wl = .val (t.thetaArr wl)) ∧
    (1 < t.sine wl → t.theta wl = .bad ∧ t.thetaArr wl = t.g - π / 2) ∧
    (t.sine wl < -1 → t.theta wl = .bad ∧ t.thetaArr wl = t.g + π / 2) := by
  refine ⟨fun h1 h2 => ?_, fun h => ⟨?_, ?_⟩, fun h => ⟨?_, ?_⟩⟩
  · rw [T.theta, if_neg (by push Not; exact ⟨h1, h2⟩), T.thetaArr, min_eq_right h2, max_eq_right h1]
  · rw [T.theta, if_pos (Or.inr h)]
  · rw [T.thetaArr, min_eq_left h.le, max_eq_right (by norm_num), arcsin_one]
  · rw [T.theta, if_pos (Or.inl h)]
  · rw [T.thetaArr, min_eq_right (by linarith), max_eq_left h.le, arcsin_neg_one, sub_neg_eq_add]

/-- C79: 1000 lines/mm at normal incidence, 0.5 µm: the first order leaves at 30 degrees. -/
theorem C79_nonvacuous : ∃ t ω, T.init 1000 0 = .ok t ∧ Diffracts t ω ∧ t.sine (lOfW ω) = 1 / 2 := by
  have hc : (0 : ℝ) < cMks := by norm_num [cMks]
  have hs : ∀ ω, 0 < ω → ω = 4 * π * cMks * 10 ^ 6 → (⟨1 / 10 ^ 6, 0⟩ : T).sine (lOfW ω) = 1 / 2 := by
    intro ω h1 h2
    rw [sine_lOfW, h2]
    simp only [sin_zero]
    field_simp
    norm_num
  have hpos : 0 < 4 * π * cMks * 10 ^ 6 := by positivity
  have e := hs _ hpos rfl
  refine ⟨⟨1 / 10 ^ 6, 0⟩, 4 * π * cMks * 10 ^ 6, ?_, ⟨by norm_num, hpos, ?_, ?_⟩, e⟩
  · rw [T.init, if_neg (by norm_num)]
    norm_num
  · rw [e]; norm_num
  · rw [e]; norm_num

/-! ## Application to a pulse -/

section
open PyM

variable {strF : ℝ → String}

/-- The pulse is `p` up to its frequency cache. -/
def UpToCache (p q : Pulse) : Prop := ∃ k v, q = { p with wKey := k, wVal := v }

theorem pres_W_mks (p : Pulse) : Pres (UpToCache p) (Pulse.W_mks strF) := by
  unfold Pulse.W_mks
  refine Pres.bind Pres.get fun q => ?_
  split
  · split
    · exact Pres.pure _
    · exact Pres.throw _
  · refine Pres.bind (Pres.modify ?_) fun _ => Pres.bind (Pres.read _) fun w => Pres.bind (Pres.modify ?_) fun _ =>
      Pres.pure _
    · rintro s ⟨k, v, rfl⟩
      exact ⟨_, _, rfl⟩
    · rintro s ⟨k, v, rfl⟩
      exact ⟨_, _, rfl⟩

theorem pres_phase (quad : (ℝ → NFlt) → ℝ → ℝ → ℝ) (polyfit : Vec ℝ → Vec ℝ → Except PyErr (ℝ × ℝ × ℝ)) (t : T) (G : ℝ)
    (p : Pulse) : Pres (UpToCache p) (t.phase strF quad polyfit G) := by
  unfold T.phase
  refine Pres.bind Pres.get fun q => Pres.bind (pres_W_mks p) fun w => Pres.bind (pres_W_mks p) fun w' =>
    Pres.bind (Pres.lift _) fun cs => Pres.bind (Pres.read _) fun v => Pres.lift _

/-- C80: whatever the quadrature and the fit return, `apply_phase_to_pulse` changes only the phase of each spectral bin;
the grid and the repetition rate stay; when it raises, the field is untouched. -/
theorem C80_phase_only (quad : (ℝ → NFlt) → ℝ → ℝ → ℝ) (polyfit : Vec ℝ → Vec ℝ → Except PyErr (ℝ × ℝ × ℝ)) (t : T)
    (G : ℝ) {p : Pulse} {n : ℕ} {a : Fin n → ℂ} (h : p.Holds a) :
    ∃ b : Fin n → ℂ, (t.applyPhase strF quad polyfit G p).2.aw = some ⟨n, b⟩ ∧ (∀ i, ‖b i‖ = ‖a i‖) ∧
      ((t.applyPhase strF quad polyfit G p).1 ≠ .ok () → b = a) ∧
      (t.applyPhase strF quad polyfit G p).2.n = p.n ∧ (t.applyPhase strF quad polyfit G p).2.cf = p.cf ∧
      (t.applyPhase strF quad polyfit G p).2.tw = p.tw ∧ (t.applyPhase strF quad polyfit G p).2.frep = p.frep := by
  have h1 := pres_phase (strF := strF) quad polyfit t G p p ⟨p.wKey, p.wVal, rfl⟩
  unfold T.applyPhase
  rw [bind_apply]
  generalize (T.phase strF quad polyfit t G) p = r at h1
  obtain ⟨r, q⟩ := r
  obtain ⟨k, v, hq⟩ := h1
  simp only at hq
  subst hq
  rcases r with e | ph
  · exact ⟨a, h.field, fun _ => rfl, fun _ => rfl, rfl, rfl, rfl, rfl⟩
  · have hq : ({ p with wKey := k, wVal := v } : Pulse).Holds a := ⟨h.ready, h.npts, h.pos, h.field⟩
    simp only [Pulse.applyPhaseW]
    rw [bind_apply, read_apply, hq.AW_eq]
    simp only
    rw [bind_apply, lift_apply]
    by_cases hl : n = ph.len
    · obtain ⟨m, ph⟩ := ph
      simp only at hl
      subst hl
      rw [Vec.zip_mk]
      simp only
      rw [hq.setAW_eq]
      refine ⟨_, rfl, fun i => ?_, fun hne => absurd rfl hne, rfl, rfl, rfl, rfl⟩
      rw [norm_mul, mul_comm Complex.I, Complex.norm_exp_ofReal_mul_I, mul_one]
    · by_cases h1 : ph.len = 1
      · have : Vec.zip (fun (x : ℂ) (y : ℝ) => x * Complex.exp (Complex.I * (y : ℂ))) ⟨n, a⟩ ph =
            .ok ⟨n, fun i => a i * Complex.exp (Complex.I * (ph.val ⟨0, by omega⟩ : ℂ))⟩ := by
          rw [Vec.zip, dif_neg hl, dif_pos h1]
        rw [this]
        simp only
        rw [hq.setAW_eq]
        refine ⟨_, rfl, fun i => ?_, fun hne => absurd rfl hne, rfl, rfl, rfl, rfl⟩
        rw [norm_mul, mul_comm Complex.I, Complex.norm_exp_ofReal_mul_I, mul_one]
      · by_cases h2 : n = 1
        · subst h2
          have : Vec.zip (fun (x : ℂ) (y : ℝ) => x * Complex.exp (Complex.I * (y : ℂ))) ⟨1, a⟩ ph =
              .ok ⟨ph.len, fun i => a 0 * Complex.exp (Complex.I * (ph.val i : ℂ))⟩ := by
            simp [Vec.zip, hl, h1]
          rw [this]
          have e : Pulse.setAW ⟨ph.len, fun i => a 0 * Complex.exp (Complex.I * (ph.val i : ℂ))⟩
              { p with wKey := k, wVal := v } = (.error .ValueError, { p with wKey := k, wVal := v }) := by
            have h3 : (⟨1, a⟩ : Vec ℂ).assign ⟨ph.len, fun i => a 0 * Complex.exp (Complex.I * (ph.val i : ℂ))⟩ =
                .error .ValueError := by
              simp [Vec.assign, h1]
            simp only [Pulse.setAW, h.ready, h.field, Option.getD_some, h3, Bool.true_eq_false, if_false]
          simp only [e]
          exact ⟨a, h.field, fun _ => rfl, fun _ => rfl, by trivial, by trivial, by trivial, by trivial⟩
        · have : Vec.zip (fun (x : ℂ) (y : ℝ) => x * Complex.exp (Complex.I * (y : ℂ))) ⟨n, a⟩ ph =
              .error .ValueError := by
            simp [Vec.zip, hl, h1, h2]
          rw [this]
          exact ⟨a, h.field, fun _ => rfl, fun _ => rfl, rfl, rfl, rfl, rfl⟩

end

/-! ## Units of the higher orders -/

theorem ws_step (w0 : ℝ) : ws w0 1 - ws w0 0 = 2 * 10 ^ 11 := by
  simp only [ws]
  norm_num

/-- C96: what is differentiated is the group delay of one pass in seconds: at a frequency the grating diffracts, the array
call gives what the scalar call gives, the length of the path over the speed of light. -/
theorem C96_array {t : T} {ω : ℝ} (h : Diffracts t ω) (G : ℝ) :
    t.dphi ω G = .val (t.dphiArr ω G) ∧
    t.dphiArr ω G = G * (1 + cos (t.g - arcsin (2 * π * cMks / (ω * t.d) - sin t.g))) /
      (√(1 - (2 * π * cMks / (ω * t.d) - sin t.g) ^ 2) * cMks) := by
  have e : t.dphiArr ω G = t.tau G ω := by
    rw [T.dphiArr, T.tau, T.thetaArr, min_eq_right h.hi.le, max_eq_right h.lo.le]
  refine ⟨by rw [e]; exact h.dphi G, ?_⟩
  rw [e, T.tau, T.dphiOf, sub_sub_cancel, cos_arcsin, sine_lOfW]
  rw [div_mul_eq_mul_div, div_div]

/-- C96: for order 1 the result is the filter's estimate of the derivative of the group delay, in fs². -/
theorem C96_order1_partial (t : T) (wl G : ℝ) :
    t.dnphi wl G 1 = .ok (savgol50 (fun k => t.dphiArr (ws (wOfL wl) k) G) 1 / (2 * 10 ^ 11) ^ 1 * 10 ^ (15 * (1 + 1))) ∧
    t.dnphi wl G 0 = .error .ValueError := by
  constructor
  · rw [T.dnphi, if_neg (by norm_num)]
    simp only [ws_step]
    congr 1
    norm_num [zpow_neg, div_eq_mul_inv, mul_inv]
    ring
  · rw [T.dnphi, if_pos (by norm_num)]

/-- C96: for the higher orders it is not in fs^(n+1): the factor from seconds is `10^(15 n (n+1))` instead of
`10^(15 (n+1))`, already for order 2 and whenever the estimate is not zero. -/
theorem C96_units_refuted (t : T) (wl G : ℝ) {n : ℕ} (hn : 2 ≤ n)
    (h0 : savgol50 (fun k => t.dphiArr (ws (wOfL wl) k) G) n ≠ 0) :
    t.dnphi wl G n = .ok (savgol50 (fun k => t.dphiArr (ws (wOfL wl) k) G) n / (2 * 10 ^ 11) ^ n * 10 ^ (15 * n * (n + 1))) ∧
    t.dnphi wl G n ≠ .ok (savgol50 (fun k => t.dphiArr (ws (wOfL wl) k) G) n / (2 * 10 ^ 11) ^ n * 10 ^ (15 * (n + 1))) := by
  have e : t.dnphi wl G n =
      .ok (savgol50 (fun k => t.dphiArr (ws (wOfL wl) k) G) n / (2 * 10 ^ 11) ^ n * 10 ^ (15 * n * (n + 1))) := by
    rw [T.dnphi, if_neg (by omega)]
    simp only [ws_step]
    congr 1
    rw [mul_pow, ← zpow_natCast ((10 : ℝ) ^ (-15 * (1 + (n : ℤ)))) n, ← zpow_mul,
      show (-15 * (1 + (n : ℤ))) * n = -((15 * n * (n + 1) : ℕ) : ℤ) by push_cast; ring, zpow_neg, zpow_natCast]
    rw [div_mul_eq_div_div, div_inv_eq_mul]
  refine ⟨e, ?_⟩
  rw [e]
  intro h
  have h := Except.ok.inj h
  have h1 : savgol50 (fun k => t.dphiArr (ws (wOfL wl) k) G) n / (2 * 10 ^ 11) ^ n ≠ 0 := div_ne_zero h0 (by positivity)
  have h2 := mul_left_cancel₀ h1 h
  have h3 := (pow_right_injective₀ (by norm_num : (0 : ℝ) < 10) (by norm_num)) h2
  nlinarith

end PyNLO.Treacy
