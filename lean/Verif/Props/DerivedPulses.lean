import Verif.Lemmas.PulseOps
import Verif.Props.Grids
import Verif.Model.DerivedPulses
import Mathlib.Analysis.SpecialFunctions.Trigonometric.Bounds

/-!
# Properties C24–C26, C82: pulse constructors
-/

namespace PyNLO

open Complex Pulse PyM

/-! ## evaluation of the common body -/

theorem cNmps_ne_zero : cNmps ≠ 0 := by norm_num [cNmps, cMks]

theorem configure_eval {wl tw : ℝ} (hwl : 1 < wl) (htw : 1 < tw) (p : Pulse) :
    configure wl tw p = (.ok (), { p with cf := cNmps / wl, tw := tw, ready := true }) := by
  unfold configure
  rw [if_neg (not_not.mpr hwl), if_neg (not_not.mpr htw)]
  have : wl ≠ 0 := by linarith
  simp only [bind_apply, setCenterWavelengthNm, if_neg this, modify_apply, setCenterFrequency,
    setTimeWindowPs, setTimeWindow]

/-- The pulse object after configuration. -/
noncomputable def base (frep : Option ℝ) (wl tw : ℝ) (N : ℕ) : Pulse :=
  { init frep (some N) with cf := cNmps / wl, tw := tw, ready := true }

theorem base_n (frep : Option ℝ) (wl tw : ℝ) (N : ℕ) : (base frep wl tw N).n = N := by
  cases frep <;> rfl

theorem base_aw (frep : Option ℝ) (wl tw : ℝ) (N : ℕ) : (base frep wl tw N).aw = none := by
  cases frep <;> rfl

theorem base_holds (frep : Option ℝ) (wl tw : ℝ) {N : ℕ} (hN : 0 < N) (b : Fin N → ℂ) :
    Holds { base frep wl tw N with aw := some ⟨N, b⟩ } b := by
  refine ⟨rfl, ?_, hN, rfl⟩
  exact base_n frep wl tw N

theorem Pulse.Holds.chirpW_zero {p : Pulse} {n : ℕ} {a : Fin n → ℂ} (h : Holds p a) :
    chirpPulseW 0 0 0 none p = (.ok (), p) := by
  rw [h.chirpPulseW_eq]
  have hf := h.field
  simp only [chirpFactor_zero, one_mul]
  rw [← hf]

theorem norm_chirpT (c2 c3 y : ℝ) : ‖exp (-I * (c2 / 2 : ℝ) * ((y : ℝ) : ℂ) ^ 2 +
    -I * (c3 / 3 : ℝ) * ((y : ℝ) : ℂ) ^ 3)‖ = 1 := by
  have : -I * (c2 / 2 : ℝ) * ((y : ℝ) : ℂ) ^ 2 + -I * (c3 / 3 : ℝ) * ((y : ℝ) : ℂ) ^ 3 =
      I * ((-(c2 / 2 * y ^ 2 + c3 / 3 * y ^ 3) : ℝ) : ℂ) := by push_cast; ring
  rw [this, norm_exp_I_mul]

theorem Pulse.Holds.chirpT_eval {p : Pulse} {n : ℕ} {a : Fin n → ℂ} (h : Holds p a) (c2 c3 T0 : ℝ) :
    ∃ b : Fin n → ℂ, chirpPulseT c2 c3 T0 p = (.ok (), { p with aw := some ⟨n, fftT b⟩ }) ∧
      ∀ i, ‖b i‖ = ‖ifftT a i‖ := by
  unfold chirpPulseT
  simp only [bind_apply, read_apply, h.AT_eq, T_ps, h.T_eq, lift_apply, Vec.zip_mk, h.setAT_eq]
  refine ⟨_, rfl, fun i => ?_⟩
  rw [norm_mul, norm_chirpT, mul_one]

/-- What the analytic constructors produce without spectral chirp: a configured pulse whose field has the
given modulus. -/
theorem shaped_eval (shape : ℝ → ℝ) {wl tw frep : ℝ} (hwl : 1 < wl) (htw : 1 < tw) {N : ℕ} (hN : 0 < N)
    (c2 c3 T0 : ℝ) :
    ∃ (q : Pulse) (x : Fin N → ℂ) (t : Fin N → ℝ), shapedPulse shape none wl tw frep N 0 0 c2 c3 T0 = .ok q ∧
      q.AT = .ok ⟨N, x⟩ ∧ q.T_ps = .ok ⟨N, t⟩ ∧ (∀ i, ‖x i‖ = |shape (t i)|) ∧
      ∀ i, t i = ((i : ℕ) - (N : ℝ) / 2) * (tw / N) := by
  have hb := base_holds (some frep) wl tw hN
  set p0 := base (some frep) wl tw N with hp0
  have hn0 : p0.n = N := base_n _ _ _ _
  have hT : p0.T_ps = .ok ⟨N, fun i => ((i : ℕ) - (N : ℝ) / 2) * (tw / N)⟩ := by
    have := (hb fun _ => 0).T_eq
    exact this
  have hs : ∀ z : Fin N → ℂ, setAT ⟨N, z⟩ p0 = (.ok (), { p0 with aw := some ⟨N, fftT z⟩ }) :=
    fun z => setAT_fresh hN rfl (base_aw _ _ _ _) z
  set z : Fin N → ℂ := fun i => ((shape (((i : ℕ) - (N : ℝ) / 2) * (tw / N)) : ℝ) : ℂ) with hz
  obtain ⟨b, hb1, hb2⟩ := (hb (fftT z)).chirpT_eval c2 c3 T0
  have hH := hb (fftT b)
  refine ⟨{ p0 with aw := some ⟨N, fftT b⟩ }, b, _, ?_, by rw [hH.AT_eq, ifftT_fftT], hH.T_eq, ?_, fun _ => rfl⟩
  · unfold shapedPulse construct
    have hc : configure wl tw (init (some frep) (some N)) = (.ok (), p0) := configure_eval hwl htw _
    have hbody : (do
        configure wl tw
        let t ← PyM.read T_ps
        setAT (t.map fun x => ((shape x : ℝ) : ℂ))
        match (none : Option ℝ) with
        | none => Pure.pure ()
        | some power => scaleToAverage power frep
        chirpPulseW 0 0 0 none
        chirpPulseT c2 c3 T0 : PyM Pulse Unit) (init (some frep) (some N)) =
        (.ok (), { p0 with aw := some ⟨N, fftT b⟩ }) := by
      simp only [bind_apply, hc, read_apply, hT, Vec.map_mk, hs, pure_apply, (hb _).chirpW_zero]
      exact hb1
    rw [hbody]
  · intro i
    rw [hb2, ifftT_fftT, hz]
    simp only [Complex.norm_real, Real.norm_eq_abs]
    rfl

theorem trapz_pos {n : ℕ} (hn : 2 ≤ n) (y : Fin n → ℝ) (hy : ∀ i, 0 < y i) : 0 < trapz y := by
  unfold trapz
  refine Finset.sum_pos (fun i _ => ?_) ⟨⟨0, by omega⟩, Finset.mem_univ _⟩
  have h1 := hy ⟨i, by omega⟩
  have h2 := hy ⟨i + 1, by omega⟩
  linarith

/-- The same with rescaling to an average power; the field is a positive multiple of the shape and the
energy per pulse is `power / (frep·1e6)`. -/
theorem shaped_avg_eval (shape : ℝ → ℝ) {wl tw frep power : ℝ} (hwl : 1 < wl) (htw : 1 < tw) {N : ℕ}
    (hN : 2 ≤ N) (hf : 0 < frep) (hp : 0 ≤ power) (c2 c3 T0 : ℝ)
    (hshape : ∀ i : Fin N, shape (((i : ℕ) - (N : ℝ) / 2) * (tw / N)) ≠ 0) :
    ∃ (q : Pulse) (x : Fin N → ℂ) (t : Fin N → ℝ) (e s : ℝ),
      shapedPulse shape (some power) wl tw frep N 0 0 c2 c3 T0 = .ok q ∧
      q.AT = .ok ⟨N, x⟩ ∧ q.T_ps = .ok ⟨N, t⟩ ∧ q.frep_MHz = some frep ∧ calcEpp q = .ok e ∧
      e * (frep * 10 ^ 6) = power ∧ (0 < power → 0 < s) ∧ (∀ i, ‖x i‖ = s * |shape (t i)|) ∧
      ∀ i, t i = ((i : ℕ) - (N : ℝ) / 2) * (tw / N) := by
  have hN0 : 0 < N := by omega
  have hb := base_holds (some frep) wl tw hN0
  set p0 := base (some frep) wl tw N with hp0
  have hT : p0.T_ps = .ok ⟨N, fun i => ((i : ℕ) - (N : ℝ) / 2) * (tw / N)⟩ := by
    have := (hb fun _ => 0).T_eq
    exact this
  have hs : ∀ z : Fin N → ℂ, setAT ⟨N, z⟩ p0 = (.ok (), { p0 with aw := some ⟨N, fftT z⟩ }) :=
    fun z => setAT_fresh hN0 rfl (base_aw _ _ _ _) z
  set z : Fin N → ℂ := fun i => ((shape (((i : ℕ) - (N : ℝ) / 2) * (tw / N)) : ℝ) : ℂ) with hz
  have hNr : (0 : ℝ) < N := by exact_mod_cast hN0
  have htr : 0 < trapz fun i => ‖ifftT (fftT z) i‖ ^ 2 := by
    rw [ifftT_fftT]
    refine trapz_pos hN _ fun i => ?_
    have : z i ≠ 0 := by rw [hz]; simpa using hshape i
    have := norm_pos_iff.mpr this
    positivity
  have hE0 := (hb (fftT z)).calcEpp_eq
  set e0 := tw / N * 10 ^ (-12 : ℤ) * trapz fun i => ‖ifftT (fftT z) i‖ ^ 2 with he0
  have he0pos : 0 < e0 := by
    have : (0 : ℝ) < 10 ^ (-12 : ℤ) := by positivity
    have : 0 < tw / N := by positivity
    positivity
  set s := Real.sqrt (power / (frep * 10 ^ 6 * e0)) with hsdef
  obtain ⟨b, hb1, hb2⟩ := (hb (fftT fun i => z i * (s : ℂ))).chirpT_eval c2 c3 T0
  have hH := hb (fftT b)
  have hnb : ∀ i, ‖b i‖ = s * ‖z i‖ := by
    intro i
    have hs0 : ‖(s : ℂ)‖ = s := by
      rw [Complex.norm_real, Real.norm_eq_abs, hsdef, abs_of_nonneg (Real.sqrt_nonneg _)]
    rw [hb2, ifftT_fftT, norm_mul, hs0, mul_comm]
  refine ⟨{ p0 with aw := some ⟨N, fftT b⟩ }, b, _, _, s, ?_, by rw [hH.AT_eq, ifftT_fftT], hH.T_eq,
    rfl, hH.calcEpp_eq, ?_, fun h => Real.sqrt_pos.mpr (by positivity), ?_, fun i => rfl⟩
  · unfold shapedPulse construct
    have hc : configure wl tw (init (some frep) (some N)) = (.ok (), p0) := configure_eval hwl htw _
    have hsc : scaleToAverage power frep { p0 with aw := some ⟨N, fftT z⟩ } =
        (.ok (), { p0 with aw := some ⟨N, fftT fun i => z i * (s : ℂ)⟩ }) := by
      unfold scaleToAverage
      simp only [bind_apply, read_apply, (hb (fftT z)).AT_eq, hE0, ifftT_fftT, Vec.map_mk]
      rw [(hb (fftT z)).setAT_eq]
      simp only [hsdef, he0, ifftT_fftT]
      rfl
    have hbody : (do
        configure wl tw
        let t ← PyM.read T_ps
        setAT (t.map fun x => ((shape x : ℝ) : ℂ))
        match (some power : Option ℝ) with
        | none => Pure.pure ()
        | some power => scaleToAverage power frep
        chirpPulseW 0 0 0 none
        chirpPulseT c2 c3 T0 : PyM Pulse Unit) (init (some frep) (some N)) =
        (.ok (), { p0 with aw := some ⟨N, fftT b⟩ }) := by
      simp only [bind_apply, hc, read_apply, hT, Vec.map_mk, hs]
      rw [hsc]
      dsimp only
      rw [(hb _).chirpW_zero]
      dsimp only
      exact hb1
    rw [hbody]
  · rw [ifftT_fftT]
    have h1 : (fun i => ‖b i‖ ^ 2) = fun i => power / (frep * 10 ^ 6 * e0) * ‖z i‖ ^ 2 := by
      funext i
      rw [hnb, mul_pow, hsdef, Real.sq_sqrt (by positivity)]
    rw [h1, trapz_smul]
    have h2 : e0 = tw / N * 10 ^ (-12 : ℤ) * trapz fun i => ‖z i‖ ^ 2 := by rw [he0, ifftT_fftT]
    have h3 : ∀ K : ℝ, tw / N * 10 ^ (-12 : ℤ) * (K * trapz fun i => ‖z i‖ ^ 2) = K * e0 := by
      intro K; rw [h2]; ring
    show tw / N * 10 ^ (-12 : ℤ) * (_ * trapz fun i => ‖z i‖ ^ 2) * _ = _
    rw [h3]
    field_simp
  · intro i
    rw [hnb, hz]
    simp only [Complex.norm_real, Real.norm_eq_abs]
    rfl

/-! ## C24 -/

/-- Sample times of a configured even grid: the middle sample is at `T = 0`. -/
theorem T_center {q : Pulse} {N : ℕ} (hN : N % 2 = 0) (h0 : 0 < N) {x : Fin N → ℂ} {t : Fin N → ℝ}
    (hx : q.AT = .ok ⟨N, x⟩) (ht : q.T_ps = .ok ⟨N, t⟩) : t ⟨N / 2, by omega⟩ = 0 := by
  simp only [T_ps, T] at ht
  split at ht
  · cases ht
  · injection ht with ht
    obtain ⟨h1, h2⟩ := Vec.mk.inj ht
    subst h1
    have h2 := eq_of_heq h2
    rw [← h2]
    have : (((q.n / 2 : ℕ) : ℝ)) = (q.n : ℝ) / 2 := by
      obtain ⟨h, hh⟩ : ∃ h, q.n = 2 * h := ⟨q.n / 2, by omega⟩
      rw [hh, show 2 * h / 2 = h by omega]; push_cast; ring
    have hn : (q.n : ℝ) ≠ 0 := by positivity
    dsimp only
    rw [this]
    field_simp
    ring

/-- C24, `SechPulse` with peak power: `|AT|² = power·sech²(T/T0)` at every sample (any time-domain
chirp), hence exactly `power` at `T = 0`. -/
theorem C24_sech_peak {power T0 wl tw frep c2 c3 : ℝ} (hwl : 1 < wl) (htw : 1 < tw) (hp : 0 ≤ power)
    {N : ℕ} (hN : 0 < N) :
    ∃ (q : Pulse) (x : Fin N → ℂ) (t : Fin N → ℝ), sechPulse power T0 wl tw frep N 0 0 c2 c3 false = .ok q ∧
      q.AT = .ok ⟨N, x⟩ ∧ q.T_ps = .ok ⟨N, t⟩ ∧
      (∀ i, ‖x i‖ ^ 2 = power * (1 / Real.cosh (t i / T0)) ^ 2) ∧ (∀ i, t i = 0 → ‖x i‖ ^ 2 = power) ∧
      (N % 2 = 0 → ∃ i, t i = 0) := by
  obtain ⟨q, x, t, h1, h2, h3, h4, -⟩ := shaped_eval (frep := frep)
    (fun t => Real.sqrt power / Real.cosh (t / T0)) hwl htw hN c2 c3 T0
  have h5 : ∀ i, ‖x i‖ ^ 2 = power * (1 / Real.cosh (t i / T0)) ^ 2 := by
    intro i
    rw [h4, sq_abs, div_pow, Real.sq_sqrt hp]
    ring
  refine ⟨q, x, t, ?_, h2, h3, h5, ?_, fun he => ⟨_, T_center he hN h2 h3⟩⟩
  · unfold sechPulse; rw [if_pos rfl]; exact h1
  · intro i hi; rw [h5, hi]; simp

/-- C24, `GaussianPulse` with peak power. -/
theorem C24_gaussian_peak {power T0 wl tw frep c2 c3 : ℝ} (hwl : 1 < wl) (htw : 1 < tw) (hp : 0 ≤ power)
    {N : ℕ} (hN : 0 < N) :
    ∃ (q : Pulse) (x : Fin N → ℂ) (t : Fin N → ℝ), gaussianPulse power T0 wl tw frep N 0 0 c2 c3 false = .ok q ∧
      q.AT = .ok ⟨N, x⟩ ∧ q.T_ps = .ok ⟨N, t⟩ ∧
      (∀ i, ‖x i‖ ^ 2 = power * Real.exp (-2.77 * (t i / T0) ^ 2)) ∧ (∀ i, t i = 0 → ‖x i‖ ^ 2 = power) ∧
      (N % 2 = 0 → ∃ i, t i = 0) := by
  obtain ⟨q, x, t, h1, h2, h3, h4, -⟩ := shaped_eval (frep := frep)
    (fun t => Real.sqrt power * Real.exp (-2.77 * 0.5 * t ^ 2 / T0 ^ 2)) hwl htw hN c2 c3 T0
  have h5 : ∀ i, ‖x i‖ ^ 2 = power * Real.exp (-2.77 * (t i / T0) ^ 2) := by
    intro i
    rw [h4, sq_abs, mul_pow, Real.sq_sqrt hp, ← Real.exp_nat_mul]
    congr 2
    push_cast
    ring
  refine ⟨q, x, t, ?_, h2, h3, h5, ?_, fun he => ⟨_, T_center he hN h2 h3⟩⟩
  · unfold gaussianPulse; rw [if_pos rfl]; exact h1
  · intro i hi; rw [h5, hi]; simp

/-- C24, `SincPulse` with peak power: `|AT| = sqrt(power)·|sin(t/T0)/(t/T0)|`, `T0 = FWHM/3.7909885`. -/
theorem C24_sinc_peak {power fwhm wl tw frep c2 c3 : ℝ} (hwl : 1 < wl) (htw : 1 < tw) (hp : 0 ≤ power)
    (hw : 0 < fwhm) {N : ℕ} (hN : 0 < N) :
    ∃ (q : Pulse) (x : Fin N → ℂ) (t : Fin N → ℝ), sincPulse power fwhm wl tw frep N 0 0 c2 c3 false = .ok q ∧
      q.AT = .ok ⟨N, x⟩ ∧ q.T_ps = .ok ⟨N, t⟩ ∧
      (∀ i, t i ≠ 0 → ‖x i‖ ^ 2 = power *
        (Real.sin (t i / (fwhm / 3.7909885)) / (t i / (fwhm / 3.7909885))) ^ 2) ∧
      (∀ i, t i = 0 → ‖x i‖ ^ 2 = power) ∧ (N % 2 = 0 → ∃ i, t i = 0) ∧
      ∀ i, t i = ((i : ℕ) - (N : ℝ) / 2) * (tw / N) := by
  set T0 := fwhm / 3.7909885 with hT0
  have hT0p : 0 < T0 := by rw [hT0]; positivity
  have hpi := Real.pi_pos
  obtain ⟨q, x, t, h1, h2, h3, h4, hti⟩ := shaped_eval (frep := frep)
    (fun t => Real.sqrt power * npSinc (t / (T0 * Real.pi))) hwl htw hN c2 c3 T0
  refine ⟨q, x, t, ?_, h2, h3, ?_, ?_, fun he => ⟨_, T_center he hN h2 h3⟩, hti⟩
  · unfold sincPulse; dsimp only; rw [if_pos rfl]; exact h1
  · intro i hi
    have h0 : t i / (T0 * Real.pi) ≠ 0 := by positivity
    have e : Real.pi * (t i / (T0 * Real.pi)) = t i / T0 := by field_simp
    rw [h4, sq_abs, mul_pow, Real.sq_sqrt hp, npSinc, if_neg h0, e]
  · intro i hi
    rw [h4, sq_abs, mul_pow, Real.sq_sqrt hp, hi, npSinc, if_pos (by simp)]
    ring

/-- C24, `SechPulse` with average power: reported energy times repetition rate equals the power. -/
theorem C24_sech_average {power T0 wl tw frep c2 c3 : ℝ} (hwl : 1 < wl) (htw : 1 < tw) (hp : 0 ≤ power)
    (hf : 0 < frep) {N : ℕ} (hN : 2 ≤ N) :
    ∃ (q : Pulse) (e f : ℝ), sechPulse power T0 wl tw frep N 0 0 c2 c3 true = .ok q ∧
      calcEpp q = .ok e ∧ q.frep_mks = some f ∧ e * f = power := by
  obtain ⟨q, x, t, e, s, h1, h2, h3, h4, h5, h6, -, -, -⟩ := shaped_avg_eval
    (fun t => 1 / Real.cosh (t / T0)) hwl htw hN hf hp c2 c3 T0
    (fun i => by have := Real.cosh_pos (((i : ℕ) - (N : ℝ) / 2) * (tw / N) / T0); positivity)
  refine ⟨q, e, _, ?_, h5, by rw [frep_mks]; simp only [frep_MHz] at h4; rw [h4]; rfl, h6⟩
  unfold sechPulse; rw [if_neg (by simp)]; exact h1

/-- C24, `GaussianPulse` with average power (`power > 0`; zero power gives `nan`). -/
theorem C24_gaussian_average {power T0 wl tw frep c2 c3 : ℝ} (hwl : 1 < wl) (htw : 1 < tw) (hp : 0 < power)
    (hf : 0 < frep) {N : ℕ} (hN : 2 ≤ N) :
    ∃ (q : Pulse) (e f : ℝ), gaussianPulse power T0 wl tw frep N 0 0 c2 c3 true = .ok q ∧
      calcEpp q = .ok e ∧ q.frep_mks = some f ∧ e * f = power := by
  obtain ⟨q, x, t, e, s, h1, h2, h3, h4, h5, h6, -, -, -⟩ := shaped_avg_eval
    (fun t => Real.sqrt power * Real.exp (-2.77 * 0.5 * t ^ 2 / T0 ^ 2)) hwl htw hN hf hp.le c2 c3 T0
    (fun i => mul_ne_zero (Real.sqrt_ne_zero'.mpr hp) (Real.exp_pos _).ne')
  refine ⟨q, e, _, ?_, h5, by rw [frep_mks]; simp only [frep_MHz] at h4; rw [h4]; rfl, h6⟩
  unfold gaussianPulse; rw [if_neg (by simp)]; exact h1

theorem npSinc_zero : npSinc 0 = 1 := by simp [npSinc]

theorem abs_npSinc_lt {x : ℝ} (h : x ≠ 0) : |npSinc x| < 1 := by
  unfold npSinc
  rw [if_neg h]
  have hpi := Real.pi_pos
  have hx : Real.pi * x ≠ 0 := by positivity
  rw [abs_div, div_lt_one (abs_pos.mpr hx)]
  exact Real.abs_sin_lt_abs hx

/-- C24, `SincPulse` with average power, when no grid point hits a zero of the sinc (there the code
divides by zero): the average power is right ... -/
theorem C24_sinc_average {power fwhm wl tw frep c2 c3 : ℝ} (hwl : 1 < wl) (htw : 1 < tw) (hp : 0 ≤ power)
    (hf : 0 < frep) {N : ℕ} (hN : 2 ≤ N)
    (hz : ∀ i : Fin N, npSinc (Real.pi * (((i : ℕ) - (N : ℝ) / 2) * (tw / N)) /
      (fwhm / 3.7909885 * Real.pi)) ≠ 0) :
    ∃ (q : Pulse) (e f : ℝ), sincPulse power fwhm wl tw frep N 0 0 c2 c3 true = .ok q ∧
      calcEpp q = .ok e ∧ q.frep_mks = some f ∧ e * f = power := by
  obtain ⟨q, x, t, e, s, h1, h2, h3, h4, h5, h6, -, -, -⟩ := shaped_avg_eval
    (fun t => 1 / npSinc (Real.pi * t / (fwhm / 3.7909885 * Real.pi))) hwl htw hN hf hp c2 c3
    (fwhm / 3.7909885) (fun i => one_div_ne_zero (hz i))
  refine ⟨q, e, _, ?_, h5, by rw [frep_mks]; simp only [frep_MHz] at h4; rw [h4]; rfl, h6⟩
  unfold sincPulse; dsimp only; rw [if_neg (by simp)]; exact h1

/-- ... but the pulse is not a sinc: for every such pulse of positive power the sample at `T = 0` is
strictly *smaller* than every other sample (the code uses the reciprocal of the sinc). -/
theorem C24_sinc_average_shape_refuted {power fwhm wl tw frep c2 c3 : ℝ} (hwl : 1 < wl) (htw : 1 < tw)
    (hp : 0 < power) (hf : 0 < frep) (hw : 0 < fwhm) {N : ℕ} (hN : 2 ≤ N)
    (hz : ∀ i : Fin N, npSinc (Real.pi * (((i : ℕ) - (N : ℝ) / 2) * (tw / N)) /
      (fwhm / 3.7909885 * Real.pi)) ≠ 0) :
    ∃ (q : Pulse) (x : Fin N → ℂ) (t : Fin N → ℝ), sincPulse power fwhm wl tw frep N 0 0 c2 c3 true = .ok q ∧
      q.AT = .ok ⟨N, x⟩ ∧ q.T_ps = .ok ⟨N, t⟩ ∧ ∀ i j, t i = 0 → t j ≠ 0 → ‖x i‖ < ‖x j‖ := by
  obtain ⟨q, x, t, e, s, h1, h2, h3, h4, h5, h6, hs, hx, ht⟩ := shaped_avg_eval
    (fun t => 1 / npSinc (Real.pi * t / (fwhm / 3.7909885 * Real.pi))) hwl htw hN hf hp.le c2 c3
    (fwhm / 3.7909885) (fun i => one_div_ne_zero (hz i))
  refine ⟨q, x, t, ?_, h2, h3, ?_⟩
  · unfold sincPulse; dsimp only; rw [if_neg (by simp)]; exact h1
  · intro i j hi hj
    rw [hx, hx]
    refine mul_lt_mul_of_pos_left ?_ (hs hp)
    have hne : npSinc (Real.pi * t j / (fwhm / 3.7909885 * Real.pi)) ≠ 0 := by
      rw [ht]; exact hz j
    have hpi := Real.pi_pos
    rw [hi]
    simp only [mul_zero, zero_div, npSinc_zero, div_one, abs_one, abs_div]
    rw [lt_div_iff₀ (abs_pos.mpr hne), one_mul]
    exact abs_npSinc_lt (by positivity)

/-- the hypotheses of the C24 theorems are satisfiable, including the sinc one: two points, a 2 ps window
and `T0 = 2` -/
theorem C24_nonvacuous : (1 : ℝ) < 1550 ∧ (1 : ℝ) < 2 ∧ (0 : ℝ) < 2 * 3.7909885 ∧
    ∀ i : Fin 2, npSinc (Real.pi * (((i : ℕ) - ((2 : ℕ) : ℝ) / 2) * (2 / ((2 : ℕ) : ℝ))) /
      (2 * 3.7909885 / 3.7909885 * Real.pi)) ≠ 0 := by
  refine ⟨by norm_num, by norm_num, by norm_num, ?_⟩
  have hpi := Real.pi_pos
  intro i
  fin_cases i
  · have : Real.pi * ((((0 : ℕ) : ℝ) - ((2 : ℕ) : ℝ) / 2) * (2 / ((2 : ℕ) : ℝ))) /
      (2 * 3.7909885 / 3.7909885 * Real.pi) = -(1 / 2) := by
      field_simp; norm_num
    simp only [Fin.zero_eta, Fin.isValue, Fin.coe_ofNat_eq_mod, Nat.zero_mod]
    rw [this, npSinc, if_neg (by norm_num)]
    have h2 : Real.pi * -(1 / 2) = -(Real.pi / 2) := by ring
    rw [h2, Real.sin_neg, Real.sin_pi_div_two]
    have : Real.pi / 2 ≠ 0 := by positivity
    exact div_ne_zero (by norm_num) (neg_ne_zero.mpr this)
  · simp [npSinc]

/-! ## C25 -/

/-- A single spectral line of amplitude `s` in bin `k0`: constant power `s²` at every sample. -/
theorem ifftT_line {N : ℕ} (k0 : Fin N) (s : ℂ) (m : Fin N) :
    ‖ifftT (fun k => if k = k0 then s else 0) m‖ = ‖s‖ := by
  rw [ifftT_apply]
  rw [Finset.sum_eq_single k0]
  · rw [if_pos rfl, norm_mul, norm_rootE, mul_one]
  · intro b _ hb; rw [if_neg hb, zero_mul]
  · intro h; exact absurd (Finset.mem_univ _) h

/-- bin where the transform of a constant lands: `N/2` for even `N`, `(N+1)/2 mod N` for odd `N` -/
def cwBin (N : ℕ) (hN : 0 < N) : Fin N := ⟨(N - N / 2) % N, Nat.mod_lt _ hN⟩

theorem fftT_ones {N : ℕ} (hN : 0 < N) :
    fftT (fun _ : Fin N => (1 : ℂ)) = fun k => if k = cwBin N hN then 1 else 0 := by
  have : ifftT (fun k : Fin N => if k = cwBin N hN then (1 : ℂ) else 0) = fun _ => 1 := by
    funext m
    rw [ifftT_apply, Finset.sum_eq_single (cwBin N hN)]
    · rw [if_pos rfl, one_mul]
      have : rootE N 0 = 1 := rootE_zero
      rw [← this]
      apply rootE_congr_of_dvd (by omega)
      have hd : (N : ℤ) ∣ (((cwBin N hN : Fin N) : ℕ) : ℤ) + ((N / 2 : ℕ) : ℤ) := by
        have : N ∣ ((cwBin N hN : Fin N) : ℕ) + N / 2 := by
          simp only [cwBin]
          apply Nat.dvd_of_mod_eq_zero
          rw [Nat.mod_add_mod, show N - N / 2 + N / 2 = N by omega, Nat.mod_self]
        exact_mod_cast this
      obtain ⟨c, hc⟩ := hd
      rw [hc]
      exact ⟨-(c * (((m : ℕ) : ℤ) + ((N / 2 : ℕ) : ℤ))), by ring⟩
    · intro b _ hb; rw [if_neg hb, zero_mul]
    · intro h; exact absurd (Finset.mem_univ _) h
  rw [← this, fftT_ifftT]

/-- C25 without offset: constant power at every sample, a single spectral line, and for even `N` the line
is at exactly the requested optical frequency `c/λ`. -/
theorem C25_cw_center {power wl tw : ℝ} (hwl : 1 < wl) (htw : 1 < tw) (hp : 0 ≤ power) {N : ℕ} (hN : 0 < N) :
    ∃ (q : Pulse) (x b : Fin N → ℂ) (w : Fin N → ℝ) (k0 : Fin N), cwPulse power wl tw N none = .ok q ∧
      q.AT = .ok ⟨N, x⟩ ∧ q.AW = .ok ⟨N, b⟩ ∧ q.W_THz = .ok ⟨N, w⟩ ∧
      (∀ m, ‖x m‖ ^ 2 = power) ∧ (∀ k, k ≠ k0 → b k = 0) ∧ b k0 = (Real.sqrt power : ℂ) ∧
      (N % 2 = 0 → w k0 = 2 * Real.pi * (cNmps / wl)) ∧
      (N % 2 = 1 → 1 < N → w k0 = 2 * Real.pi * (cNmps / wl + 1 / (2 * tw))) ∧ q.center_frequency_THz = cNmps / wl := by
  have hb := base_holds none wl tw hN
  set p0 := base none wl tw N with hp0
  have hwl0 : wl ≠ 0 := by linarith
  have hs : ∀ z : Fin N → ℂ, setAT ⟨N, z⟩ p0 = (.ok (), { p0 with aw := some ⟨N, fftT z⟩ }) :=
    fun z => setAT_fresh hN rfl (base_aw _ _ _ _) z
  set k0 := cwBin N hN with hk0
  set b : Fin N → ℂ := fun k => if k = k0 then (Real.sqrt power : ℂ) else 0 with hbdef
  have hH := hb b
  have hsum : ∑ i : Fin N, ‖(if i = k0 then (1 : ℂ) else 0)‖ = 1 := by
    rw [Finset.sum_eq_single k0] <;> simp +contextual
  refine ⟨{ p0 with aw := some ⟨N, b⟩ }, _, _, _, k0, ?_, hH.AT_eq, hH.AW_eq, hH.W_eq, ?_, ?_, ?_, ?_, ?_, rfl⟩
  · unfold cwPulse construct
    rw [if_neg (not_not.mpr hwl), if_neg (not_not.mpr htw)]
    have hones := hs fun _ => 1
    rw [fftT_ones hN] at hones
    have hAW := (hb fun k => if k = k0 then (1 : ℂ) else 0).AW_eq
    have hset := (hb fun k => if k = k0 then (1 : ℂ) else 0).setAW_eq b
    have hfun : (fun i => (if i = k0 then (1 : ℂ) else 0) * (Real.sqrt power : ℂ) / ((1 : ℝ) : ℂ)) = b := by
      funext i; rw [hbdef]; simp
    have hbody : cwCentered power wl tw (init none (some N)) = (.ok (), { p0 with aw := some ⟨N, b⟩ }) := by
      have hc : setCenterWavelengthNm wl (init none (some N)) =
          (.ok (), setCenterFrequency (cNmps / wl) (init none (some N))) := by
        simp only [setCenterWavelengthNm, if_neg hwl0, modify_apply]
      have hm : setTimeWindowPs tw (setCenterFrequency (cNmps / wl) (init none (some N))) = p0 := rfl
      unfold cwCentered
      simp only [bind_apply, hc, modify_apply, hm, get_apply]
      have : (setAT ⟨p0.n, fun _ => 1⟩ p0) = _ := hones
      rw [this]
      simp only [read_apply]
      rw [hAW]
      simp only [Vec.map_mk, hsum]
      rw [hfun]
      exact hset
    dsimp only
    rw [hbody]
  · intro m
    rw [hbdef, ifftT_line, Complex.norm_real, Real.norm_eq_abs, sq_abs, Real.sq_sqrt hp]
  · intro k hk; rw [hbdef]; simp [hk]
  · rw [hbdef]; simp
  · intro he
    have hkv : (k0 : ℕ) = N / 2 := by
      simp only [hk0, cwBin]
      rw [show N - N / 2 = N / 2 by omega]
      exact Nat.mod_eq_of_lt (by omega)
    have : (((N / 2 : ℕ) : ℝ)) = (N : ℝ) / 2 := by
      obtain ⟨h, rfl⟩ : ∃ h, N = 2 * h := ⟨N / 2, by omega⟩
      rw [show 2 * h / 2 = h by omega]; push_cast; ring
    rw [hkv, this, sub_self]
    simp [hp0, base]
  · intro ho h1
    have hkv : (k0 : ℕ) = N / 2 + 1 := by
      simp only [hk0, cwBin]
      rw [show N - N / 2 = N / 2 + 1 by omega]
      exact Nat.mod_eq_of_lt (by omega)
    have : (((N / 2 + 1 : ℕ) : ℝ)) = (N : ℝ) / 2 + 1 / 2 := by
      obtain ⟨h, rfl⟩ : ∃ h, N = 2 * h + 1 := ⟨N / 2, by omega⟩
      rw [show (2 * h + 1) / 2 = h by omega]; push_cast; ring
    rw [hkv, this]
    have htw' : tw ≠ 0 := by linarith
    show 2 * Real.pi * ((N : ℝ) / 2 + 1 / 2 - N / 2) / tw + 2 * Real.pi * (cNmps / wl) = _
    field_simp
    ring

/-- C25 with an offset that keeps the line on the grid: constant power, one line, and for even `N` it is at
exactly the requested optical frequency, although the grid itself is centred elsewhere. -/
theorem C25_cw_offset {power wl tw off : ℝ} (hwl : 1 < wl) (htw : 1 < tw) (hp : 0 ≤ power) {N : ℕ}
    (hlo : 0 ≤ ((N / 2 : ℕ) : ℤ) + pyRound (off * tw)) (hhi : ((N / 2 : ℕ) : ℤ) + pyRound (off * tw) < N) :
    ∃ (q : Pulse) (x b : Fin N → ℂ) (w : Fin N → ℝ) (k0 : Fin N), cwPulse power wl tw N (some off) = .ok q ∧
      q.AT = .ok ⟨N, x⟩ ∧ q.AW = .ok ⟨N, b⟩ ∧ q.W_THz = .ok ⟨N, w⟩ ∧
      (∀ m, ‖x m‖ ^ 2 = power) ∧ (∀ k, k ≠ k0 → b k = 0) ∧ b k0 = (Real.sqrt power : ℂ) ∧
      (N % 2 = 0 → w k0 = 2 * Real.pi * (cNmps / wl)) ∧
      (N % 2 = 1 → w k0 = 2 * Real.pi * (cNmps / wl - 1 / (2 * tw))) ∧
      |q.center_frequency_THz + off - cNmps / wl| ≤ 1 / (2 * tw) := by
  have hN : 0 < N := by omega
  have htw0 : tw ≠ 0 := by linarith
  set r := pyRound (off * tw) with hr
  set cT : ℝ := cNmps / wl - r * (1 / tw) with hcT
  set p0 : Pulse := { init none (some N) with cf := cT, tw := tw, ready := true } with hp0
  have hb : ∀ b : Fin N → ℂ, Holds { p0 with aw := some ⟨N, b⟩ } b := fun b => ⟨rfl, rfl, hN, rfl⟩
  set k0 : Fin N := ⟨(((N / 2 : ℕ) : ℤ) + r).toNat, by omega⟩ with hk0
  set b : Fin N → ℂ := fun k => if k = k0 then (Real.sqrt power : ℂ) else 0 with hbdef
  have hH := hb b
  have hk0v : ((k0 : ℕ) : ℝ) = ((N / 2 : ℕ) : ℝ) + (r : ℝ) := by
    have : ((k0 : ℕ) : ℤ) = ((N / 2 : ℕ) : ℤ) + r := by simp only [hk0]; omega
    have := congrArg (fun z : ℤ => (z : ℝ)) this
    simpa only [Int.cast_natCast, Int.cast_add] using this
  refine ⟨{ p0 with aw := some ⟨N, b⟩ }, _, _, _, k0, ?_, hH.AT_eq, hH.AW_eq, hH.W_eq, ?_, ?_, ?_, ?_, ?_, ?_⟩
  · unfold cwPulse construct
    rw [if_neg (not_not.mpr hwl), if_neg (not_not.mpr htw)]
    have hoff : off / (1 / tw) = off * tw := by field_simp
    have hcen : setCenterViaNm cT (setTimeWindowPs tw (init none (some N))) = (.ok (), p0) := by
      unfold setCenterViaNm
      by_cases h0 : cT = 0
      · rw [if_pos h0, modify_apply, hp0, h0]; rfl
      · rw [if_neg h0]
        have h1 : cNmps / cT ≠ 0 := div_ne_zero cNmps_ne_zero h0
        have h2 : cNmps / (cNmps / cT) = cT := by
          have := cNmps_ne_zero
          field_simp
        simp only [setCenterWavelengthNm, if_neg h1, modify_apply, setCenterFrequency, h2]
        rfl
    have hitem : setItem (Vec.zeros p0.n) (((p0.n / 2 : ℕ) : ℤ) + r) (Real.sqrt power : ℂ) = .ok ⟨N, b⟩ := by
      have hpn : p0.n = N := rfl
      rw [hpn]
      unfold setItem
      have : (0 ≤ ((N / 2 : ℕ) : ℤ) + r ∧ ((N / 2 : ℕ) : ℤ) + r < ((Vec.zeros N : Vec ℂ).len : ℤ)) := ⟨hlo, hhi⟩
      rw [if_pos this]
      refine congrArg Except.ok (Vec.ext' rfl fun j h1 h2 => ?_)
      dsimp only
      rw [hbdef]
      have hj : ((j : ℤ) = ((N / 2 : ℕ) : ℤ) + r) ↔ (⟨j, h2⟩ : Fin N) = k0 := by
        rw [Fin.ext_iff]; simp only [hk0]; omega
      by_cases hc : (⟨j, h2⟩ : Fin N) = k0
      · rw [if_pos (hj.mpr hc)]; dsimp only; rw [if_pos hc]
      · rw [if_neg (fun h => hc (hj.mp h))]; dsimp only; rw [if_neg hc]; rfl
    have hset : setAW ⟨N, b⟩ p0 = (.ok (), { p0 with aw := some ⟨N, b⟩ }) :=
      setAW_of_ready rfl (by rw [hp0]; rfl)
    have hbody : cwOffset power wl tw off (init none (some N)) = (.ok (), { p0 with aw := some ⟨N, b⟩ }) := by
      unfold cwOffset
      rw [hoff]
      simp only [bind_apply, modify_apply, ← hr, ← hcT]
      rw [hcen]
      simp only [get_apply, PyM.lift_apply]
      rw [hitem]
      exact hset
    dsimp only
    rw [hbody]
  · intro m
    rw [hbdef, ifftT_line, Complex.norm_real, Real.norm_eq_abs, sq_abs, Real.sq_sqrt hp]
  · intro k hk; rw [hbdef]; simp [hk]
  · rw [hbdef]; simp
  · intro he
    have : (((N / 2 : ℕ) : ℝ)) = (N : ℝ) / 2 := by
      obtain ⟨h, hh⟩ : ∃ h, N = 2 * h := ⟨N / 2, by omega⟩
      rw [hh, show 2 * h / 2 = h by omega]; push_cast; ring
    rw [hk0v, this]
    show 2 * Real.pi * ((N : ℝ) / 2 + r - N / 2) / tw + 2 * Real.pi * cT = _
    rw [hcT]; field_simp; ring
  · intro he
    have : (((N / 2 : ℕ) : ℝ)) = (N : ℝ) / 2 - 1 / 2 := by
      obtain ⟨h, hh⟩ : ∃ h, N = 2 * h + 1 := ⟨N / 2, by omega⟩
      rw [hh, show (2 * h + 1) / 2 = h by omega]; push_cast; ring
    rw [hk0v, this]
    show 2 * Real.pi * ((N : ℝ) / 2 - 1 / 2 + r - N / 2) / tw + 2 * Real.pi * cT = _
    rw [hcT]; field_simp; ring
  · show |cT + off - cNmps / wl| ≤ _
    have h1 := pyRound_near (off * tw)
    have h2 : cT + off - cNmps / wl = -((r : ℝ) - off * tw) * (1 / tw) := by
      rw [hcT]; field_simp; ring
    have h3 : (0 : ℝ) < 1 / tw := by positivity
    rw [h2, abs_mul, abs_neg, abs_of_pos h3]
    calc |(r : ℝ) - off * tw| * (1 / tw) ≤ 1 / 2 * (1 / tw) := by gcongr
      _ = 1 / (2 * tw) := by ring

/-- C25 refuted for odd `N`: with an odd number of points the line is half a bin away from the requested
frequency, to the blue without an offset (concretely `N = 3`). -/
theorem C25_cw_odd_refuted : ∃ (q : Pulse) (b : Fin 3 → ℂ) (w : Fin 3 → ℝ),
    cwPulse 1 1000 10 3 none = .ok q ∧ q.AW = .ok ⟨3, b⟩ ∧ q.W_THz = .ok ⟨3, w⟩ ∧
    ∃ k, b k ≠ 0 ∧ w k ≠ 2 * Real.pi * (cNmps / 1000) := by
  obtain ⟨q, x, b, w, k0, h1, -, h3, h4, -, -, h7, -, h9, -⟩ :=
    C25_cw_center (power := 1) (wl := 1000) (tw := 10) (by norm_num) (by norm_num) (by norm_num)
      (N := 3) (by norm_num)
  refine ⟨q, b, w, h1, h3, h4, k0, by rw [h7]; simp, ?_⟩
  rw [h9 (by norm_num) (by norm_num)]
  have := Real.pi_pos
  intro h
  have h2 := mul_left_cancel₀ (by positivity : (2 * Real.pi) ≠ 0) h
  norm_num at h2

theorem C25_nonvacuous : (1 : ℝ) < 1550 ∧ (1 : ℝ) < 10 ∧
    0 ≤ ((8 / 2 : ℕ) : ℤ) + pyRound ((2 / 10 : ℝ) * 10) ∧ ((8 / 2 : ℕ) : ℤ) + pyRound ((2 / 10 : ℝ) * 10) < 8 := by
  have : (2 / 10 : ℝ) * 10 = ((2 : ℤ) : ℝ) := by norm_num
  rw [this, pyRound_int]
  norm_num

/-- `CWPulse` with an offset, after the spectrum was written to the array. -/
theorem cw_of_item {power wl tw off : ℝ} (hwl : 1 < wl) (htw : 1 < tw) {N : ℕ} {b : Fin N → ℂ}
    (hitem : setItem (Vec.zeros N) (((N / 2 : ℕ) : ℤ) + pyRound (off * tw)) (Real.sqrt power : ℂ) = .ok ⟨N, b⟩) :
    cwPulse power wl tw N (some off) = .ok { init none (some N) with cf := cNmps / wl - pyRound (off * tw) * (1 / tw), tw := tw, ready := true, aw := some ⟨N, b⟩ } := by
  have htw0 : tw ≠ 0 := by linarith
  set r := pyRound (off * tw) with hr
  set cT : ℝ := cNmps / wl - r * (1 / tw) with hcT
  set p0 : Pulse := { init none (some N) with cf := cT, tw := tw, ready := true } with hp0
  unfold cwPulse construct
  rw [if_neg (not_not.mpr hwl), if_neg (not_not.mpr htw)]
  have hoff : off / (1 / tw) = off * tw := by field_simp
  have hcen : setCenterViaNm cT (setTimeWindowPs tw (init none (some N))) = (.ok (), p0) := by
    unfold setCenterViaNm
    by_cases h0 : cT = 0
    · rw [if_pos h0, modify_apply, hp0, h0]; rfl
    · rw [if_neg h0]
      have h1 : cNmps / cT ≠ 0 := div_ne_zero cNmps_ne_zero h0
      have h2 : cNmps / (cNmps / cT) = cT := by
        have := cNmps_ne_zero
        field_simp
      simp only [setCenterWavelengthNm, if_neg h1, modify_apply, setCenterFrequency, h2]
      rfl
  have hitem' : setItem (Vec.zeros p0.n) (((p0.n / 2 : ℕ) : ℤ) + r) (Real.sqrt power : ℂ) = .ok ⟨N, b⟩ := hitem
  have hset : setAW ⟨N, b⟩ p0 = (.ok (), { p0 with aw := some ⟨N, b⟩ }) :=
    setAW_of_ready rfl (by rw [hp0]; rfl)
  have hbody : cwOffset power wl tw off (init none (some N)) = (.ok (), { p0 with aw := some ⟨N, b⟩ }) := by
    unfold cwOffset
    rw [hoff]
    simp only [bind_apply, modify_apply, ← hr, ← hcT]
    rw [hcen]
    simp only [get_apply, PyM.lift_apply]
    rw [hitem']
    exact hset
  dsimp only
  rw [hbody]

/-- C25 refuted for offsets below the grid: no exception is raised, the line wraps round to the other end of the
array, one full bandwidth `N/tw` above the requested optical frequency (even `N`). -/
theorem C25_cw_wrapped_refuted {power wl tw off : ℝ} (hwl : 1 < wl) (htw : 1 < tw) {N : ℕ} (hN : N % 2 = 0)
    (hlo : -(N : ℤ) ≤ ((N / 2 : ℕ) : ℤ) + pyRound (off * tw)) (hhi : ((N / 2 : ℕ) : ℤ) + pyRound (off * tw) < 0) :
    ∃ (q : Pulse) (b : Fin N → ℂ) (w : Fin N → ℝ) (k0 : Fin N), cwPulse power wl tw N (some off) = .ok q ∧
      q.AW = .ok ⟨N, b⟩ ∧ q.W_THz = .ok ⟨N, w⟩ ∧ b k0 = (Real.sqrt power : ℂ) ∧ (∀ k, k ≠ k0 → b k = 0) ∧
      w k0 = 2 * Real.pi * (cNmps / wl) + 2 * Real.pi * N / tw := by
  have hN0 : 0 < N := by omega
  have htw0 : tw ≠ 0 := by linarith
  set r := pyRound (off * tw) with hr
  set k0 : Fin N := ⟨(((N / 2 : ℕ) : ℤ) + r + N).toNat, by omega⟩ with hk0
  set b : Fin N → ℂ := fun k => if k = k0 then (Real.sqrt power : ℂ) else 0 with hbdef
  have hitem : setItem (Vec.zeros N) (((N / 2 : ℕ) : ℤ) + r) (Real.sqrt power : ℂ) = .ok ⟨N, b⟩ := by
    unfold setItem
    rw [if_neg (by omega), if_pos (show -(((Vec.zeros N : Vec ℂ).len : ℕ) : ℤ) ≤ _ ∧ _ from ⟨hlo, hhi⟩)]
    refine congrArg Except.ok (Vec.ext' rfl fun j h1 h2 => ?_)
    dsimp only
    rw [hbdef]
    have hj : ((j : ℤ) = ((N / 2 : ℕ) : ℤ) + r + N) ↔ (⟨j, h2⟩ : Fin N) = k0 := by
      rw [Fin.ext_iff]; simp only [hk0]; omega
    by_cases hc : (⟨j, h2⟩ : Fin N) = k0
    · rw [if_pos (show ((j : ℤ) = ((N / 2 : ℕ) : ℤ) + r + ((Vec.zeros N : Vec ℂ).len : ℤ)) from hj.mpr hc)]
      dsimp only; rw [if_pos hc]
    · rw [if_neg (show ¬ ((j : ℤ) = ((N / 2 : ℕ) : ℤ) + r + ((Vec.zeros N : Vec ℂ).len : ℤ)) from fun h => hc (hj.mp h))]
      dsimp only; rw [if_neg hc]; rfl
  have hH : Holds { init none (some N) with cf := cNmps / wl - r * (1 / tw), tw := tw, ready := true, aw := some ⟨N, b⟩ } b :=
    ⟨rfl, rfl, hN0, rfl⟩
  refine ⟨_, b, _, k0, cw_of_item hwl htw hitem, hH.AW_eq, hH.W_eq, by simp [hbdef], fun k hk => by simp [hbdef, hk], ?_⟩
  have hk0v : ((k0 : ℕ) : ℝ) = ((N / 2 : ℕ) : ℝ) + (r : ℝ) + N := by
    have : ((k0 : ℕ) : ℤ) = ((N / 2 : ℕ) : ℤ) + r + N := by simp only [hk0]; omega
    have := congrArg (fun z : ℤ => (z : ℝ)) this
    simpa only [Int.cast_natCast, Int.cast_add] using this
  have h2 : (((N / 2 : ℕ) : ℝ)) = (N : ℝ) / 2 := by
    obtain ⟨h, hh⟩ : ∃ h, N = 2 * h := ⟨N / 2, by omega⟩
    rw [hh, show 2 * h / 2 = h by omega]; push_cast; ring
  rw [hk0v, h2]
  show 2 * Real.pi * ((N : ℝ) / 2 + r + N - N / 2) / tw + 2 * Real.pi * (cNmps / wl - r * (1 / tw)) = _
  field_simp
  ring

/-- Offsets above the grid, or more than one and a half bandwidths below it, raise `IndexError`. -/
theorem C25_cw_offset_outside {power wl tw off : ℝ} (hwl : 1 < wl) (htw : 1 < tw) {N : ℕ}
    (h : (N : ℤ) ≤ ((N / 2 : ℕ) : ℤ) + pyRound (off * tw) ∨ ((N / 2 : ℕ) : ℤ) + pyRound (off * tw) < -N) :
    cwPulse power wl tw N (some off) = .error .IndexError := by
  have htw0 : tw ≠ 0 := by linarith
  set r := pyRound (off * tw) with hr
  set cT : ℝ := cNmps / wl - r * (1 / tw) with hcT
  set p0 : Pulse := { init none (some N) with cf := cT, tw := tw, ready := true } with hp0
  unfold cwPulse construct
  rw [if_neg (not_not.mpr hwl), if_neg (not_not.mpr htw)]
  have hoff : off / (1 / tw) = off * tw := by field_simp
  have hcen : setCenterViaNm cT (setTimeWindowPs tw (init none (some N))) = (.ok (), p0) := by
    unfold setCenterViaNm
    by_cases h0 : cT = 0
    · rw [if_pos h0, modify_apply, hp0, h0]; rfl
    · rw [if_neg h0]
      have h1 : cNmps / cT ≠ 0 := div_ne_zero cNmps_ne_zero h0
      have h2 : cNmps / (cNmps / cT) = cT := by
        have := cNmps_ne_zero
        field_simp
      simp only [setCenterWavelengthNm, if_neg h1, modify_apply, setCenterFrequency, h2]
      rfl
  have hitem' : setItem (Vec.zeros p0.n) (((p0.n / 2 : ℕ) : ℤ) + r) (Real.sqrt power : ℂ) = .error .IndexError := by
    have hpn : p0.n = N := rfl
    rw [hpn]
    unfold setItem
    have hl : ((Vec.zeros N : Vec ℂ).len : ℤ) = N := rfl
    rw [if_neg (by rw [hl]; omega), if_neg (by rw [hl]; omega)]
  have hbody : (cwOffset power wl tw off (init none (some N))).1 = .error .IndexError := by
    unfold cwOffset
    rw [hoff]
    simp only [bind_apply, modify_apply, ← hr, ← hcT]
    rw [hcen]
    simp only [get_apply, PyM.lift_apply]
    rw [hitem']
  dsimp only
  rcases hx : cwOffset power wl tw off (init none (some N)) with ⟨r', s⟩
  rw [hx] at hbody
  dsimp only at hbody
  subst hbody
  rfl

/-- an offset of -0.6 THz with 8 points in a window of 10 ps (grid from -0.4 to 0.3 THz) is such a case -/
theorem C25_wrapped_nonvacuous : -(8 : ℤ) ≤ ((8 / 2 : ℕ) : ℤ) + pyRound ((-6 / 10 : ℝ) * 10) ∧
    ((8 / 2 : ℕ) : ℤ) + pyRound ((-6 / 10 : ℝ) * 10) < 0 := by
  have : (-6 / 10 : ℝ) * 10 = ((-6 : ℤ) : ℝ) := by norm_num
  rw [this, pyRound_int]
  norm_num

/-! ## C26 -/

/-- C26 refuted: every bin of a `NoisePulse` is a positive real number (no random phase), of modulus
`1e-30·exp(-2π r)`, for every draw `r`; it equals `1e-30` only when `r = 0`. -/
theorem C26_noise_pulse_refuted (rand : ℕ → ℝ) {wl tw : ℝ} (hwl : wl ≠ 0) (frep : Option ℝ) (N : ℕ) :
    ∃ (q : Pulse) (b : Fin N → ℂ), noisePulse rand wl tw N frep = .ok q ∧ q.AW = .ok ⟨N, b⟩ ∧
      (∀ k, b k = ((10 ^ (-30 : ℤ) * Real.exp (-(2 * Real.pi * rand k)) : ℝ) : ℂ)) ∧
      (∀ k, arg (b k) = 0) ∧ (∀ k, ‖b k‖ = 10 ^ (-30 : ℤ) ↔ rand k = 0) := by
  have hpi := Real.pi_pos
  set p0 : Pulse := base frep wl tw N with hp0
  have hn0 : p0.n = N := base_n _ _ _ _
  set b : Fin N → ℂ := fun i => ((10 : ℝ) ^ (-30 : ℤ) : ℝ) * exp (I * 2 * Real.pi * I * (rand i : ℂ)) with hb
  have hval : ∀ k, b k = ((10 ^ (-30 : ℤ) * Real.exp (-(2 * Real.pi * rand k)) : ℝ) : ℂ) := by
    intro k
    rw [hb]
    have : I * 2 * Real.pi * I * (rand k : ℂ) = ((-(2 * Real.pi * rand k) : ℝ) : ℂ) := by
      push_cast
      linear_combination (2 * Real.pi * rand k : ℂ) * I_mul_I
    dsimp only
    rw [this, ← Complex.ofReal_exp]
    push_cast
    ring
  have hset : setAW ⟨N, b⟩ p0 = (.ok (), { p0 with aw := some ⟨N, b⟩ }) :=
    setAW_of_ready rfl (by rw [base_aw]; simp [Vec.zeros, hn0])
  refine ⟨{ p0 with aw := some ⟨N, b⟩ }, b, ?_, rfl, hval, ?_, ?_⟩
  · unfold noisePulse construct
    have hc : setCenterWavelengthNm wl (init frep (some N)) =
        (.ok (), setCenterFrequency (cNmps / wl) (init frep (some N))) := by
      simp only [setCenterWavelengthNm, if_neg hwl, modify_apply]
    have hm : setTimeWindowPs tw (setCenterFrequency (cNmps / wl) (init frep (some N))) = p0 := by
      rw [hp0]; cases frep <;> rfl
    have hvec : (⟨p0.n, fun i => ((10 : ℝ) ^ (-30 : ℤ) : ℝ) * exp (I * 2 * Real.pi * I * (rand i : ℂ))⟩ : Vec ℂ) =
        ⟨N, b⟩ := by
      refine Vec.ext' hn0 fun i h1 h2 => rfl
    simp only [bind_apply, hc, modify_apply, hm, get_apply]
    rw [hvec, hset]
  · intro k
    rw [hval]
    exact arg_ofReal_of_nonneg (by positivity)
  · intro k
    rw [hval, Complex.norm_real, Real.norm_eq_abs, abs_of_pos (by positivity)]
    constructor
    · intro h
      have h1 : Real.exp (-(2 * Real.pi * rand k)) = 1 := by
        have h10 : (10 : ℝ) ^ (-30 : ℤ) ≠ 0 := by positivity
        exact mul_left_cancel₀ h10 (by rw [h, mul_one])
      rw [Real.exp_eq_one_iff] at h1
      have : 2 * Real.pi * rand k = 0 := by linarith
      rcases mul_eq_zero.mp this with h | h
      · exact absurd h (by positivity)
      · exact h
    · intro h; rw [h]; simp

/-- The noise added to a bin of amplitude `a`, given the two draws, Planck's constant, the bin frequency
and the bin width. -/
noncomputable def Spec.shotNoise (onePhoton : Bool) (h df f : ℝ) (rnd ph : ℝ) (a : ℂ) : ℂ :=
  rnd * (if onePhoton then h * f * df else Real.sqrt (max (‖a‖ ^ 2 / df / (h * f)) 0) * (h * f) * df) *
    exp (I * (ph * 2 * Real.pi : ℝ))

theorem dF_mks_eval {strF : ℝ → String} {p p1 : Pulse} {n : ℕ} {w : Fin n → ℝ} (hn : 2 ≤ n)
    (hw : W_mks strF p = (.ok ⟨n, w⟩, p1)) (hw1 : W_mks strF p1 = (.ok ⟨n, w⟩, p1)) :
    dF_mks strF p = (.ok (|w ⟨1, by omega⟩ - w ⟨0, by omega⟩| / (2 * Real.pi)), p1) := by
  unfold dF_mks
  have i1 := Vec.item_of_lt (⟨n, w⟩ : Vec ℝ) (i := 1) (show 1 < n by omega)
  have i0 := Vec.item_of_lt (⟨n, w⟩ : Vec ℝ) (i := 0) (show 0 < n by omega)
  simp only [bind_apply, hw, PyM.lift_apply, i1, hw1, i0, pure_apply]

/-- C26: `add_noise` with an unknown type raises `ValueError` and the field is unchanged; with a known type
each bin gets exactly the stated noise for that bin's draws.  (`p1` is the pulse with its frequency cache
filled; the second hypothesis says a second read returns the same array.) -/
theorem C26_add_noise {strF : ℝ → String} {p p1 : Pulse} {n : ℕ} {a : Fin n → ℂ} (h1 : Holds p1 a)
    {w : Fin n → ℝ} (hn : 2 ≤ n)
    (hw : W_mks strF p = (.ok ⟨n, w⟩, p1)) (hw1 : W_mks strF p1 = (.ok ⟨n, w⟩, p1))
    (hP : ℝ) (rnd ph : ℕ → ℝ) (ty : String) :
    (ty ≠ "sqrt_N_freq" ∧ ty ≠ "one_photon_freq" → addNoise strF hP rnd ph ty p = (.error .ValueError, p1)) ∧
    (∀ one : Bool, ty = (if one then "one_photon_freq" else "sqrt_N_freq") →
      addNoise strF hP rnd ph ty p = (.ok (), { p1 with aw := some ⟨n, fun k => a k +
        Spec.shotNoise one hP (|w ⟨1, by omega⟩ - w ⟨0, by omega⟩| / (2 * Real.pi)) (w k / (2 * Real.pi))
          (rnd k) (ph k) (a k)⟩ })) := by
  have hF : F_mks strF p1 = (.ok ⟨n, fun k => w k / (2 * Real.pi)⟩, p1) := by
    unfold F_mks
    simp only [bind_apply, hw1, pure_apply, Vec.map_mk]
  have hdF := dF_mks_eval hn hw hw1
  set df := |w ⟨1, by omega⟩ - w ⟨0, by omega⟩| / (2 * Real.pi) with hdf
  constructor
  · rintro ⟨h2, h3⟩
    unfold addNoise
    simp only [bind_apply, hdF, read_apply, h1.AW_eq, hF, Vec.map_mk, PyM.lift_apply, Vec.zip_mk, if_neg h2,
      if_neg h3, throw_apply]
  · intro one hty
    cases one with
    | true =>
      have hne : ¬ (("one_photon_freq" : String) = "sqrt_N_freq") := by decide
      simp only [if_true] at hty
      subst hty
      unfold addNoise
      simp only [bind_apply, hdF, read_apply, h1.AW_eq, hF, Vec.map_mk, PyM.lift_apply, Vec.zip_mk, if_neg hne,
        if_true, pure_apply, h1.setAW_eq, Spec.shotNoise]
    | false =>
      simp only [Bool.false_eq_true, if_false] at hty
      subst hty
      unfold addNoise
      simp only [bind_apply, hdF, read_apply, h1.AW_eq, hF, Vec.map_mk, PyM.lift_apply, Vec.zip_mk,
        if_true, h1.setAW_eq, Spec.shotNoise, Bool.false_eq_true, if_false]
      congr 5
      funext k
      have : ∀ x : ℝ, (if x < 0 then 0 else x) = max x 0 := by
        intro x; rcases lt_or_ge x 0 with hx | hx
        · rw [if_pos hx, max_eq_right hx.le]
        · rw [if_neg (not_lt.mpr hx), max_eq_left hx]
      rw [this]

/-- C26: in a dark bin `sqrt_N_freq` adds nothing, whatever the draws. -/
theorem C26_dark_bin (h df f rnd ph : ℝ) : Spec.shotNoise false h df f rnd ph 0 = 0 := by
  simp [Spec.shotNoise]

theorem C26_nonvacuous (strF : ℝ → String) : ∃ (p1 : Pulse) (w : Fin 4 → ℝ),
    Holds p1 (n := 4) (fun i => ((i : ℕ) : ℂ) + 1 + I) ∧
    W_mks strF samplePulse = (.ok ⟨4, w⟩, p1) ∧ W_mks strF p1 = (.ok ⟨4, w⟩, p1) := by
  refine ⟨_, _, ?_, W_mks_miss rfl (by simp [samplePulse, Pulse.blank]), W_mks_hit rfl rfl⟩
  exact ⟨rfl, rfl, by norm_num, rfl⟩

/-! ## C82 -/

/-- wavelength grid of a configured pulse -/
noncomputable def frogGrid (wl tw : ℝ) (N : ℕ) (k : Fin N) : ℝ :=
  2 * Real.pi * cNmps / (2 * Real.pi * (-(N : ℝ) / 2 + (k : ℕ)) / (N * (tw / N)) + 2 * Real.pi * (cNmps / wl))

/-- spectrum read from the file, on the grid -/
noncomputable def frogField (inten phase : ℝ → ℝ) (flip : Bool) (wl tw : ℝ) (N : ℕ) (k : Fin N) : ℂ :=
  (inten (frogGrid wl tw N k) : ℂ) *
    exp (I * ((if flip then -phase (frogGrid wl tw N k) else phase (frogGrid wl tw N k) : ℝ) : ℂ))

/-- C82: a pulse loaded from a FROG trace has the requested energy: `power` joules, or
`power/(frep·1e6)` when `power_is_avg`; its spectrum is a positive multiple of the interpolated data.
Hypothesis: the interpolated trace has positive energy on this grid. -/
theorem C82_frog_energy (strF : ℝ → String) (inten phase : ℝ → ℝ) {tw wl power frep : ℝ} (hwl : 1 < wl)
    (htw : 1 < tw) (hp : 0 < power) (hf : 0 < frep) {N : ℕ} (hN : 0 < N) (avg flip : Bool)
    (hE : 0 < trapz fun i => ‖ifftT (frogField inten phase flip wl tw N) i‖ ^ 2) :
    ∃ (q : Pulse) (b : Fin N → ℂ) (s : ℝ), frogPulse strF (some (inten, phase)) tw wl power frep N avg flip = .ok q ∧
      calcEpp q = .ok (if avg then power / (frep * 10 ^ 6) else power) ∧ q.AW = .ok ⟨N, b⟩ ∧ 0 < s ∧
      ∀ k, b k = s * frogField inten phase flip wl tw N k := by
  set P := (if avg then power / (frep * 10 ^ 6) else power) with hP
  have hPpos : 0 < P := by rw [hP]; split_ifs <;> positivity
  set p0 : Pulse := base (some frep) wl tw N with hp0
  have hwl0 : wl ≠ 0 := by linarith
  have hNr : (0 : ℝ) < N := by exact_mod_cast hN
  have hmiss := wl_nm_miss (strF := strF) (p := p0) rfl (by simp [hp0, base, init, blank, setNPTS])
  have hgr : ((wGrid (p0.cf, p0.n) p0.tw).map fun w => 2 * Real.pi * cNmps / w) = ⟨N, frogGrid wl tw N⟩ := rfl
  rw [hgr] at hmiss
  set p1 : Pulse := { p0 with wlKey := some (cacheHash strF p0), wlVal := some ⟨N, frogGrid wl tw N⟩ } with hp1
  have hhit : wl_nm strF p1 = (.ok ⟨N, frogGrid wl tw N⟩, p1) := wl_nm_hit rfl rfl
  have hb : ∀ b : Fin N → ℂ, Holds { p1 with aw := some ⟨N, b⟩ } b := fun b => ⟨rfl, rfl, hN, rfl⟩
  set z := frogField inten phase flip wl tw N with hz
  have hset : setAW ⟨N, z⟩ p1 = (.ok (), { p1 with aw := some ⟨N, z⟩ }) :=
    setAW_of_ready rfl rfl
  have hE0 := (hb z).calcEpp_eq
  set e0 := tw / N * 10 ^ (-12 : ℤ) * trapz fun i => ‖ifftT z i‖ ^ 2 with he0
  have hE0' : calcEpp { p1 with aw := some ⟨N, z⟩ } = .ok e0 := hE0
  have he0pos : 0 < e0 := by
    have h1 : (0 : ℝ) < 10 ^ (-12 : ℤ) := by positivity
    have h2 : 0 < tw / N := by positivity
    positivity
  set s := Real.sqrt (P / e0) with hs
  have hspos : 0 < s := Real.sqrt_pos.mpr (by positivity)
  set y : Fin N → ℂ := fun i => ifftT z i * (s : ℂ) with hy
  have hfy : fftT y = fun k => (s : ℂ) * z k := by
    have : y = ifftT fun k => (s : ℂ) * z k := by
      rw [ifftT_smul, hy]; funext i; ring
    rw [this, fftT_ifftT]
  refine ⟨{ p1 with aw := some ⟨N, fftT y⟩ }, fftT y, s, ?_, ?_, (hb _).AW_eq, hspos, ?_⟩
  · unfold frogPulse construct
    rw [if_neg (not_not.mpr hwl), if_neg (not_not.mpr htw)]
    have hc : setCenterWavelengthNm wl (setTimeWindowPs tw (init (some frep) (some N))) = (.ok (), p0) := by
      simp only [setCenterWavelengthNm, if_neg hwl0, modify_apply]
      rfl
    have hzip : Vec.zip (fun (x y : ℝ) =>
        (inten x : ℂ) * exp (I * ((if flip then -phase y else phase y : ℝ) : ℂ)))
        (⟨N, frogGrid wl tw N⟩ : Vec ℝ) ⟨N, frogGrid wl tw N⟩ = .ok ⟨N, z⟩ := by
      rw [Vec.zip_mk]; rfl
    simp only [bind_apply, modify_apply, hc, hmiss, hhit, PyM.lift_apply, hzip, hset, read_apply, hE0',
      (hb z).AT_eq, Vec.map_mk]
    rw [(hb z).setAT_eq]
  · rw [(hb _).calcEpp_eq, ifftT_fftT]
    have h1 : (fun i => ‖y i‖ ^ 2) = fun i => P / e0 * ‖ifftT z i‖ ^ 2 := by
      funext i
      rw [hy]
      simp only
      rw [norm_mul, mul_pow, Complex.norm_real, Real.norm_eq_abs, sq_abs, hs, Real.sq_sqrt (by positivity)]
      ring
    rw [h1, trapz_smul]
    congr 1
    have h3 : tw / N * 10 ^ (-12 : ℤ) * (P / e0 * trapz fun i => ‖ifftT z i‖ ^ 2) = P / e0 * e0 := by
      rw [he0]; ring
    show tw / N * 10 ^ (-12 : ℤ) * (P / e0 * trapz fun i => ‖ifftT z i‖ ^ 2) = P
    rw [h3]
    field_simp
  · intro k; rw [hfy]

/-- C82: a file that cannot be opened raises nothing; the object is configured but reading its field
raises `RuntimeError`. -/
theorem C82_frog_missing_file (strF : ℝ → String) {tw wl power frep : ℝ} (hwl : 1 < wl) (htw : 1 < tw)
    (N : ℕ) (avg flip : Bool) :
    ∃ q, frogPulse strF none tw wl power frep N avg flip = .ok q ∧ q.n = N ∧
      q.AT = .error .RuntimeError ∧ q.AW = .error .RuntimeError := by
  have hwl0 : wl ≠ 0 := by linarith
  have hc : setCenterWavelengthNm wl (setTimeWindowPs tw (init (some frep) (some N))) =
      (.ok (), base (some frep) wl tw N) := by
    simp only [setCenterWavelengthNm, if_neg hwl0, modify_apply]
    rfl
  refine ⟨base (some frep) wl tw N, ?_, rfl, rfl, rfl⟩
  unfold frogPulse construct
  rw [if_neg (not_not.mpr hwl), if_neg (not_not.mpr htw)]
  simp only [bind_apply, modify_apply, hc, pure_apply]

/-- the energy hypothesis of C82 holds for a flat trace on two points -/
theorem C82_nonvacuous : 0 < trapz fun i => ‖ifftT (frogField (fun _ => 1) (fun x => x) true 1550 10 2) i‖ ^ 2 := by
  have h1 := trapz_eq_sum_sub (n := 1) fun i : Fin 2 =>
    ‖ifftT (frogField (fun _ => 1) (fun x => x) true 1550 10 2) i‖ ^ 2
  have h2 := parseval_ifftT (frogField (fun _ => 1) (fun x => x) true 1550 10 2)
  have h3 : ∀ k, ‖frogField (fun _ => 1) (fun x => x) true 1550 10 2 k‖ = 1 := by
    intro k; unfold frogField; rw [norm_mul, norm_exp_I_mul]; simp
  simp only [h3, one_pow] at h2
  rw [Fin.sum_univ_two] at h1 h2
  simp only [Nat.cast_ofNat, Finset.sum_const, Finset.card_univ, Fintype.card_fin, nsmul_eq_mul] at h2
  have : (Fin.last 1) = (1 : Fin 2) := rfl
  rw [h1, this]
  linarith

end PyNLO
