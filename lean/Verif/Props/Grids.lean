import Verif.Lemmas.Pulse
import Verif.Spec.Fourier

/-!
# Properties C01–C06: transforms, grids, units
-/

namespace PyNLO

open Complex Pulse

/-! ## a concrete pulse used to show that hypotheses can be met -/

/-- Four points, 2 ps window, 200 THz, a non-constant field. -/
noncomputable def samplePulse : Pulse :=
  { Pulse.blank with
    n := 4, cf := 200, tw := 2, ready := true, aw := some ⟨4, fun i => ((i : ℕ) : ℂ) + 1 + I⟩ }

theorem samplePulse_holds : Holds samplePulse (n := 4) (fun i => ((i : ℕ) : ℂ) + 1 + I) :=
  ⟨rfl, rfl, by norm_num, rfl⟩

/-! ## C01 -/

/-- C01, array level: the two transforms are mutually inverse for every non-empty array. -/
theorem C01_transforms_inverse (x : Vec ℂ) (hx : 0 < x.len) :
    (∃ y, FFT_t x = .ok y ∧ y.len = x.len ∧ IFFT_t y = .ok x) ∧
    (∃ y, IFFT_t x = .ok y ∧ y.len = x.len ∧ FFT_t y = .ok x) := by
  obtain ⟨n, v⟩ := x
  have hn : n ≠ 0 := by simpa [Nat.pos_iff_ne_zero] using hx
  refine ⟨⟨⟨n, fftT v⟩, ?_, rfl, ?_⟩, ⟨⟨n, ifftT v⟩, ?_, rfl, ?_⟩⟩
  · simp [FFT_t, hn]
  · simp [IFFT_t, hn, ifftT_fftT]
  · simp [IFFT_t, hn]
  · simp [FFT_t, hn, fftT_ifftT]

/-- C01, `set_AT` then `AT`: a pulse that is ready, has `NPTS ≥ 1` and whose stored field (if any) has
`NPTS` samples returns exactly what was set, whatever it held before. -/
theorem C01_set_AT_get_AT (p : Pulse) (x : Fin p.n → ℂ) (hr : p.ready = true) (hn : 0 < p.n)
    (hlen : ∀ b, p.aw = some b → b.len = p.n) :
    ∃ p', setAT ⟨p.n, x⟩ p = (.ok (), p') ∧ p'.AT = .ok ⟨p.n, x⟩ := by
  have hd : (p.aw.getD (Vec.zeros p.n)).len = p.n := by
    cases h : p.aw with
    | none => rfl
    | some b => exact hlen b h
  refine ⟨{ p with aw := some ⟨p.n, fftT x⟩ },
    setAT_eq' (q := ({ p with aw := some ⟨p.n, fftT x⟩ }, .ok ())) hn (setAW_of_ready hr hd), ?_⟩
  have hh : Holds { p with aw := some ⟨p.n, fftT x⟩ } (fftT x) := ⟨hr, rfl, hn, rfl⟩
  rw [hh.AT_eq, ifftT_fftT]

/-- C01, `set_AW` then `AW`. -/
theorem C01_set_AW_get_AW (p : Pulse) (x : Fin p.n → ℂ) (hr : p.ready = true)
    (hlen : ∀ b, p.aw = some b → b.len = p.n) :
    ∃ p', setAW ⟨p.n, x⟩ p = (.ok (), p') ∧ p'.AW = .ok ⟨p.n, x⟩ := by
  have hd : (p.aw.getD (Vec.zeros p.n)).len = p.n := by
    cases h : p.aw with
    | none => rfl
    | some b => exact hlen b h
  exact ⟨_, setAW_of_ready hr hd, rfl⟩

/-- The hypotheses of the C01 theorems are met by a pulse with and without a field, odd and even. -/
theorem C01_nonvacuous : samplePulse.ready = true ∧ 0 < samplePulse.n ∧
    (∀ b, samplePulse.aw = some b → b.len = samplePulse.n) ∧
    (Pulse.init none (some 5)).ready = true ∧ (Pulse.init none (some 5)).aw = none := by
  refine ⟨rfl, by simp [samplePulse], ?_, rfl, rfl⟩
  intro b hb
  simp only [samplePulse, Option.some.injEq] at hb
  rw [← hb]; rfl

/-! ## C02 -/

theorem rootE_eq_exp {n : ℕ} (a : ℤ) : rootE n a = exp (2 * Real.pi * I * (a / n : ℂ)) := rfl

/-- C02 for even NPTS: the arrays `AW`, `AT`, `T_ps`, `V_THz` the pulse reports form a Fourier pair. -/
theorem C02_fourier_pair_even_partial {p : Pulse} {n : ℕ} {a : Fin n → ℂ} (h : Holds p a)
    (he : n % 2 = 0) (htw : p.tw ≠ 0) :
    ∃ t v at', p.T_ps = .ok ⟨n, t⟩ ∧ p.V_THz = .ok ⟨n, v⟩ ∧ p.AT = .ok ⟨n, at'⟩ ∧
      p.AW = .ok ⟨n, a⟩ ∧ Spec.IsFourierPair t v at' a := by
  refine ⟨_, _, _, h.T_eq, h.V_eq, h.AT_eq, h.AW_eq, ?_⟩
  have hn : (n : ℝ) ≠ 0 := by have := h.pos; positivity
  have hnc : (n : ℂ) ≠ 0 := by exact_mod_cast hn
  have hhalf : ((n / 2 : ℕ) : ℂ) = (n : ℂ) / 2 := by
    obtain ⟨m, hm⟩ : ∃ m, n = 2 * m := ⟨n / 2, by omega⟩
    rw [hm, show 2 * m / 2 = m by omega]; push_cast; ring
  have htwc : (p.tw : ℂ) ≠ 0 := by exact_mod_cast htw
  have key : ∀ k m : Fin n,
      exp (I * ((2 * Real.pi * ((k : ℕ) - (n : ℝ) / 2) / p.tw : ℝ) : ℂ) *
        ((((m : ℕ) - (n : ℝ) / 2) * (p.tw / n) : ℝ) : ℂ)) =
      rootE n (((m : ℕ) - (n / 2 : ℕ) : ℤ) * ((k : ℕ) - (n / 2 : ℕ) : ℤ)) := by
    intro k m
    rw [rootE_eq_exp]
    congr 1
    have hq : ((((n / 2 : ℕ) : ℤ) : ℤ) : ℂ) = (n : ℂ) / 2 := by rw [← hhalf]; rfl
    generalize ((n / 2 : ℕ) : ℤ) = q at hq
    push_cast
    rw [hq]
    field_simp
  constructor
  · intro k
    simp_rw [key]
    rw [← fftT_apply_even he, fftT_ifftT]
  · intro m
    simp_rw [exp_neg, key, ← rootE_neg]
    rw [ifftT_apply_even he]
    refine Finset.sum_congr rfl fun j _ => ?_
    congr 2
    ring

/-- C02 fails for every odd NPTS: on the advertised grids some field is not transformed by the
documented sum (whatever the window). -/
theorem C02_fourier_pair_odd_refuted {p : Pulse} {n : ℕ} (ho : n % 2 = 1) (hr : p.ready = true)
    (hp : p.n = n) (htw : p.tw ≠ 0) :
    ∃ (a : Fin n → ℂ) (t v : Fin n → ℝ) (at' : Fin n → ℂ),
      Holds { p with aw := some ⟨n, a⟩ } a ∧
      Pulse.T_ps { p with aw := some ⟨n, a⟩ } = .ok ⟨n, t⟩ ∧
      Pulse.V_THz { p with aw := some ⟨n, a⟩ } = .ok ⟨n, v⟩ ∧
      Pulse.AT { p with aw := some ⟨n, a⟩ } = .ok ⟨n, at'⟩ ∧
      ¬ Spec.IsFourierPair t v at' a := by
  have hpos : 0 < n := by omega
  obtain ⟨h, rfl⟩ : ∃ h, n = 2 * h + 1 := ⟨n / 2, by omega⟩
  set i0 : Fin (2 * h + 1) := ⟨h, by omega⟩ with hi0
  set a : Fin (2 * h + 1) → ℂ := fun j => if j = i0 then 1 else 0 with ha
  have hh : Holds { p with aw := some ⟨2 * h + 1, a⟩ } a := ⟨hr, hp, hpos, rfl⟩
  refine ⟨a, _, _, _, hh, hh.T_eq, hh.V_eq, hh.AT_eq, ?_⟩
  rintro ⟨-, h2⟩
  have h3 := h2 i0
  rw [ifftT_apply] at h3
  simp only [ha, ite_mul, one_mul, zero_mul, Finset.sum_ite_eq', Finset.mem_univ, if_true] at h3
  have hdiv : (2 * h + 1) / 2 = h := by omega
  have hnc : ((2 * h + 1 : ℕ) : ℂ) ≠ 0 := by exact_mod_cast (by omega : 2 * h + 1 ≠ 0)
  have htwc : (p.tw : ℂ) ≠ 0 := by exact_mod_cast htw
  rw [hdiv, rootE_eq_exp] at h3
  have hsub : exp (2 * Real.pi * I * (((-(((i0 : ℕ) + (h : ℕ) : ℤ) * ((i0 : ℕ) + (h : ℕ) : ℤ)) : ℤ) : ℂ) /
      ((2 * h + 1 : ℕ) : ℂ)) + (I * ((2 * Real.pi * ((i0 : ℕ) - ((2 * h + 1 : ℕ) : ℝ) / 2) / p.tw : ℝ) : ℂ) *
        ((((i0 : ℕ) - ((2 * h + 1 : ℕ) : ℝ) / 2) * (p.tw / ((2 * h + 1 : ℕ) : ℝ)) : ℝ) : ℂ))) = 1 := by
    rw [exp_add, h3, ← exp_add]
    simp
  rw [exp_eq_one_iff] at hsub
  obtain ⟨m, hm⟩ := hsub
  have hpi : (2 * (Real.pi : ℂ) * I) ≠ 0 := by simp [Real.pi_ne_zero]
  have e1 : (2 * Real.pi * I * (((-(((i0 : ℕ) + (h : ℕ) : ℤ) * ((i0 : ℕ) + (h : ℕ) : ℤ)) : ℤ) : ℂ) /
      ((2 * h + 1 : ℕ) : ℂ)) + (I * ((2 * Real.pi * ((i0 : ℕ) - ((2 * h + 1 : ℕ) : ℝ) / 2) / p.tw : ℝ) : ℂ) *
        ((((i0 : ℕ) - ((2 * h + 1 : ℕ) : ℝ) / 2) * (p.tw / ((2 * h + 1 : ℕ) : ℝ)) : ℝ) : ℂ))) =
      (2 * Real.pi * I) * ((1 - 16 * (h : ℂ) ^ 2) / (4 * (2 * h + 1 : ℕ))) := by
    push_cast
    push_cast at hnc
    field_simp
    simp only [hi0]
    ring
  rw [e1, mul_comm (m : ℂ)] at hm
  have hm' := mul_left_cancel₀ hpi hm
  have h4 : (4 * ((2 * h + 1 : ℕ) : ℂ)) ≠ 0 := by simpa using hnc
  rw [div_eq_iff h4] at hm'
  have hz : (1 - 16 * (h : ℤ) ^ 2) = m * (4 * (2 * h + 1 : ℕ)) := by exact_mod_cast hm'
  have : (1 : ℤ) % 4 = 0 := by
    have h5 : (1 : ℤ) = 4 * (4 * (h : ℤ) ^ 2 + m * (2 * h + 1 : ℕ)) := by linarith
    omega
  omega

theorem C02_nonvacuous : (4 : ℕ) % 2 = 0 ∧ samplePulse.tw ≠ 0 ∧
    (Pulse.init none (some 5)).n % 2 = 1 ∧ (Pulse.init none (some 5)).tw ≠ 0 := by
  refine ⟨rfl, ?_, rfl, ?_⟩ <;> norm_num [samplePulse, Pulse.init, Pulse.blank, Pulse.setNPTS]

/-! ## C03 -/

/-- C03 Parseval: `Σ|AT|² = NPTS·Σ|AW|²` for every configured pulse. -/
theorem C03_parseval {p : Pulse} {n : ℕ} {a : Fin n → ℂ} (h : Holds p a) :
    ∃ at' : Fin n → ℂ, p.AT = .ok ⟨n, at'⟩ ∧ p.AW = .ok ⟨n, a⟩ ∧
      Spec.energy at' = n * Spec.energy a :=
  ⟨_, h.AT_eq, h.AW_eq, parseval_ifftT a⟩

/-! ## C04 -/

/-- C04 grid geometry, all sizes: NPTS samples, spacing `dT = window/NPTS` from `-window/2`, spacing
`2π/window` in `V`, and `W = V + 2π·centre`. -/
theorem C04_grid_geometry {p : Pulse} (hr : p.ready = true) (hn : 0 < p.n) :
    ∃ (t v w : Fin p.n → ℝ) (dt : ℝ),
      p.T_ps = .ok ⟨p.n, t⟩ ∧ p.V_THz = .ok ⟨p.n, v⟩ ∧ p.W_THz = .ok ⟨p.n, w⟩ ∧
      p.dT_ps = .ok dt ∧ dt * p.n = p.tw ∧
      t ⟨0, hn⟩ = -p.tw / 2 ∧ (∀ i (hi : i + 1 < p.n), t ⟨i + 1, hi⟩ - t ⟨i, by omega⟩ = dt) ∧
      (∀ i (hi : i + 1 < p.n), v ⟨i + 1, hi⟩ - v ⟨i, by omega⟩ = 2 * Real.pi / p.tw) ∧
      (∀ i, w i = v i + 2 * Real.pi * p.cf) := by
  have hne : (p.n : ℝ) ≠ 0 := by positivity
  set a : Fin p.n → ℂ := fun _ => 0
  have hh : Holds { p with aw := some ⟨p.n, a⟩ } a := ⟨hr, rfl, hn, rfl⟩
  refine ⟨_, _, _, _, hh.T_eq, hh.V_eq, hh.W_eq, hh.dT_eq, ?_, ?_, ?_, ?_, ?_⟩
  · dsimp only; field_simp
  · dsimp only; field_simp; push_cast; ring
  · intro i hi; dsimp only; push_cast; ring
  · intro i hi; dsimp only; push_cast; ring
  · intro i; rfl

/-- C04 for even NPTS: bin `NPTS/2` is zero delay and zero detuning, and `V` is antisymmetric about it. -/
theorem C04_centre_bin_even {p : Pulse} (hr : p.ready = true) (hn : 0 < p.n) (he : p.n % 2 = 0) :
    ∃ (t v w : Fin p.n → ℝ), p.T_ps = .ok ⟨p.n, t⟩ ∧ p.V_THz = .ok ⟨p.n, v⟩ ∧
      p.W_THz = .ok ⟨p.n, w⟩ ∧
      t ⟨p.n / 2, by omega⟩ = 0 ∧ v ⟨p.n / 2, by omega⟩ = 0 ∧
      w ⟨p.n / 2, by omega⟩ = 2 * Real.pi * p.cf ∧
      (∀ i (hi : 0 < i) (hi' : i < p.n), v ⟨p.n - i, by omega⟩ = -v ⟨i, hi'⟩) := by
  set a : Fin p.n → ℂ := fun _ => 0
  have hh : Holds { p with aw := some ⟨p.n, a⟩ } a := ⟨hr, rfl, hn, rfl⟩
  have hhalf : ((p.n / 2 : ℕ) : ℝ) = (p.n : ℝ) / 2 := by
    obtain ⟨m, hm⟩ : ∃ m, p.n = 2 * m := ⟨p.n / 2, by omega⟩
    rw [hm, show 2 * m / 2 = m by omega]; push_cast; ring
  refine ⟨_, _, _, hh.T_eq, hh.V_eq, hh.W_eq, ?_, ?_, ?_, ?_⟩
  · dsimp only; rw [hhalf]; ring
  · dsimp only; rw [hhalf]; ring
  · dsimp only; rw [hhalf]; ring
  · intro i hi hi'
    dsimp only
    rw [Nat.cast_sub hi'.le]
    ring

/-- C04 refuted for odd NPTS: no bin of `V_THz` is the centre frequency. -/
theorem C04_centre_bin_odd_refuted {p : Pulse} (hr : p.ready = true) (ho : p.n % 2 = 1)
    (htw : p.tw ≠ 0) : ∃ v : Fin p.n → ℝ, p.V_THz = .ok ⟨p.n, v⟩ ∧ ∀ i, v i ≠ 0 := by
  set a : Fin p.n → ℂ := fun _ => 0
  have hh : Holds { p with aw := some ⟨p.n, a⟩ } a := ⟨hr, rfl, by omega, rfl⟩
  refine ⟨_, hh.V_eq, fun i => ?_⟩
  have : ((i : ℕ) : ℝ) - (p.n : ℝ) / 2 ≠ 0 := by
    intro h
    have : (2 * (i : ℕ) : ℝ) = (p.n : ℝ) := by linarith
    have : 2 * (i : ℕ) = p.n := by exact_mod_cast this
    omega
  dsimp only
  refine div_ne_zero (mul_ne_zero ?_ this) htw
  positivity

/-- C04: `dF_THz · window = 1` for at least two points. -/
theorem C04_dF_times_window {p : Pulse} (hr : p.ready = true) (hn : 2 ≤ p.n) (htw : 0 < p.tw) :
    ∃ dF, p.dF_THz = .ok dF ∧ dF * p.time_window_ps = 1 := by
  set a : Fin p.n → ℂ := fun _ => 0
  have hh : Holds { p with aw := some ⟨p.n, a⟩ } a := ⟨hr, rfl, by omega, rfl⟩
  have hW : p.W = _ := hh.W_eq
  refine ⟨|2 * Real.pi / p.tw| / (2 * Real.pi), ?_, ?_⟩
  · simp only [dF_THz, W_THz, hW, bind, Except.bind]
    rw [Vec.item_of_lt _ (show 1 < p.n by omega)]
    dsimp only
    rw [Vec.item_of_lt _ (show 0 < p.n by omega)]
    dsimp only
    congr 3
    push_cast
    ring
  · rw [abs_of_pos (by positivity)]
    unfold time_window_ps
    field_simp

/-- C04: with fewer than two points there is no bin width and `dF_THz` raises. -/
theorem C04_dF_needs_two_points {p : Pulse} (hr : p.ready = true) (hn : p.n < 2) :
    p.dF_THz = .error .IndexError := by
  simp only [dF_THz, W_THz, W, V, hr, Bool.true_eq_false, if_false, bind, Except.bind]
  rw [Vec.item_of_ge _ (by show p.n ≤ 1; omega)]

theorem C04_nonvacuous : samplePulse.ready = true ∧ 2 ≤ samplePulse.n ∧ samplePulse.n % 2 = 0 ∧
    0 < samplePulse.tw := by
  refine ⟨rfl, ?_, rfl, ?_⟩ <;> norm_num [samplePulse]

/-! ## C05 -/

/-- C05: the SI grid accessors that do not go through a cache are exact unit conversions. -/
theorem C05_units {p : Pulse} (hr : p.ready = true) :
    ∃ (t t' v v' w f : Fin p.n → ℝ) (dt dt' : ℝ),
      p.T_ps = .ok ⟨p.n, t⟩ ∧ p.T_mks = .ok ⟨p.n, t'⟩ ∧ (∀ i, t' i * 10 ^ 12 = t i) ∧
      p.V_THz = .ok ⟨p.n, v⟩ ∧ p.V_mks = .ok ⟨p.n, v'⟩ ∧ (∀ i, v' i = v i * 10 ^ 12) ∧
      p.W_THz = .ok ⟨p.n, w⟩ ∧ p.F_THz = .ok ⟨p.n, f⟩ ∧ (∀ i, 2 * Real.pi * f i = w i) ∧
      p.dT_ps = .ok dt ∧ p.dT_mks = .ok dt' ∧ dt' * 10 ^ 12 = dt ∧
      p.time_window_mks * 10 ^ 12 = p.time_window_ps ∧
      p.center_frequency_mks = p.center_frequency_THz * 10 ^ 12 := by
  have e : (10 : ℝ) ^ (-12 : ℤ) * 10 ^ 12 = 1 := by norm_num
  have hpi := Real.pi_ne_zero
  obtain ⟨t, hT⟩ : ∃ t : Fin p.n → ℝ, p.T = .ok ⟨p.n, t⟩ :=
    ⟨_, by simp only [T, hr, Bool.true_eq_false, if_false]; rfl⟩
  obtain ⟨v, hV⟩ : ∃ v : Fin p.n → ℝ, p.V = .ok ⟨p.n, v⟩ :=
    ⟨_, by simp only [V, hr, Bool.true_eq_false, if_false]; rfl⟩
  have hW : p.W = .ok ⟨p.n, fun i => v i + w0 p⟩ := by
    simp only [W, hr, Bool.true_eq_false, if_false, hV]; rfl
  have hd : p.dT = .ok (p.tw / p.n) := by simp only [dT, hr, Bool.true_eq_false, if_false]
  refine ⟨t, fun i => t i * 10 ^ (-12 : ℤ), v, fun i => v i * 10 ^ 12, fun i => v i + w0 p,
    fun i => (v i + w0 p) / (2 * Real.pi), p.tw / p.n, p.tw / p.n * 10 ^ (-12 : ℤ),
    hT, ?_, ?_, hV, ?_, fun _ => rfl, hW, ?_, ?_, hd, ?_, ?_, ?_, rfl⟩
  · simp only [T_mks, hT]; rfl
  · intro i; rw [mul_assoc, e, mul_one]
  · simp only [V_mks, hV]; rfl
  · simp only [F_THz, hW]; rfl
  · intro i; dsimp only; field_simp
  · simp only [dT_mks, hd]; rfl
  · rw [mul_assoc, e, mul_one]
  · unfold time_window_mks time_window_ps; rw [mul_assoc, e, mul_one]

/-- C05 refuted for `center_wavelength_mks`: for every pulse (non-zero centre frequency) it is `10^18`
times the centre wavelength in metres. -/
theorem C05_center_wavelength_mks_refuted {p : Pulse} (h : p.cf ≠ 0) :
    ∃ nm m, p.center_wavelength_nm = .ok nm ∧ p.center_wavelength_mks = .ok m ∧
      m = (nm * 10 ^ (-9 : ℤ)) * 10 ^ 18 ∧ m ≠ nm * 10 ^ (-9 : ℤ) := by
  refine ⟨cNmps / p.cf, cNmps / p.cf * 10 ^ 9, by simp [center_wavelength_nm, h],
    by simp [center_wavelength_mks, h], ?_, ?_⟩
  · norm_num; ring
  · have : cNmps / p.cf ≠ 0 := div_ne_zero (by norm_num [cNmps, cMks]) h
    intro h'
    have := mul_left_cancel₀ this h'
    norm_num at this

theorem C05_nonvacuous : samplePulse.ready = true ∧ samplePulse.cf ≠ 0 := by
  refine ⟨rfl, ?_⟩; norm_num [samplePulse]

/-! ## C06 -/

/-- C06: time-window setters and getters, both units, any prior state. -/
theorem C06_time_window (p : Pulse) (T : ℝ) :
    (setTimeWindowPs T p).time_window_ps = T ∧ (setTimeWindowPs T p).ready = true ∧
    (setTimeWindowS T p).time_window_mks = T ∧ (setTimeWindowS T p).ready = true ∧
    (setTimeWindowS (T * 10 ^ (-12 : ℤ)) p) = setTimeWindowPs T p := by
  have e : (10 : ℝ) ^ (-12 : ℤ) * 10 ^ 12 = 1 := by norm_num
  have e' : (10 : ℝ) ^ 12 * 10 ^ (-12 : ℤ) = 1 := by norm_num
  refine ⟨rfl, rfl, ?_, rfl, ?_⟩
  · simp only [time_window_mks, setTimeWindowS, setTimeWindow]
    rw [mul_assoc, e', mul_one]
  · simp only [setTimeWindowS, setTimeWindowPs]; rw [mul_assoc, e, mul_one]

/-- C06: centre wavelength set in nm or m is the one reported; zero raises and changes nothing. -/
theorem C06_center_wavelength (p : Pulse) (wl : ℝ) (h : wl ≠ 0) :
    ∃ p' p'', setCenterWavelengthNm wl p = (.ok (), p') ∧ p'.center_wavelength_nm = .ok wl ∧
      setCenterWavelengthM wl p = (.ok (), p'') ∧ p''.center_wavelength_nm = .ok (wl * 10 ^ 9) ∧
      setCenterWavelengthM (wl * 10 ^ (-9 : ℤ)) p = (.ok (), p') ∧
      p'.tw = p.tw ∧ p'.n = p.n ∧ p'.aw = p.aw := by
  have hc : cNmps ≠ 0 := by norm_num [cNmps, cMks]
  have e : (10 : ℝ) ^ (-9 : ℤ) * 10 ^ 9 = 1 := by norm_num
  refine ⟨setCenterFrequency (cNmps / wl) p, setCenterFrequency (cNmps / (wl * 10 ^ 9)) p,
    by simp [setCenterWavelengthNm, h], ?_, by simp [setCenterWavelengthM, h], ?_, ?_, rfl, rfl, rfl⟩
  · have : (setCenterFrequency (cNmps / wl) p).cf = cNmps / wl := rfl
    simp only [center_wavelength_nm, this, div_eq_zero_iff, hc, h, or_self, if_false]
    congr 1
    field_simp
  · have : (setCenterFrequency (cNmps / (wl * 10 ^ 9)) p).cf = cNmps / (wl * 10 ^ 9) := rfl
    have h9 : wl * (10 : ℝ) ^ 9 ≠ 0 := by positivity
    simp only [center_wavelength_nm, this, div_eq_zero_iff, hc, h9, or_self, if_false]
    congr 1
    field_simp
  · have e2 : wl * (10 : ℝ) ^ (-9 : ℤ) * 10 ^ 9 = wl := by rw [mul_assoc, e, mul_one]
    simp only [setCenterWavelengthM, e2, h, if_false, PyM.modify_apply]

theorem C06_center_wavelength_zero (p : Pulse) :
    setCenterWavelengthNm 0 p = (.error .ZeroDivisionError, p) ∧
    setCenterWavelengthM 0 p = (.error .ZeroDivisionError, p) := by
  simp [setCenterWavelengthNm, setCenterWavelengthM]

/-- C06: setting a frequency window `DF > 0` makes `NPTS · dF_THz = DF`, and the mks setter agrees. -/
theorem C06_frequency_window (p : Pulse) (DF : ℝ) (h : 0 < DF) (hn : 2 ≤ p.n) :
    ∃ p' dF, setFrequencyWindowTHz DF p = (.ok (), p') ∧ p'.dF_THz = .ok dF ∧ p.n * dF = DF ∧
      setFrequencyWindowMks (DF * 10 ^ 12) p = (.ok (), p') := by
  have hne : (0 : ℝ) < p.n := by exact_mod_cast (by omega : 0 < p.n)
  obtain ⟨dF, h1, h2⟩ := C04_dF_times_window (p := setTimeWindow (p.n / DF) p) rfl
    (by exact hn) (by show 0 < (p.n : ℝ) / DF; positivity)
  refine ⟨setTimeWindow (p.n / DF) p, dF, ?_, h1, ?_, ?_⟩
  · simp [setFrequencyWindowTHz, PyM.bind_apply, h.ne']
  · have : dF * ((p.n : ℝ) / DF) = 1 := h2
    field_simp at this
    linarith
  · have e : (p.n : ℝ) / (DF * 10 ^ 12) * 10 ^ 12 = p.n / DF := by field_simp
    simp only [setFrequencyWindowMks, PyM.bind_apply, PyM.get_apply]
    rw [if_neg (by positivity), e]
    rfl

/-- C06: `set_NPTS` changes only the number of points. -/
theorem C06_npts (p : Pulse) (m : ℕ) :
    (setNPTS m p).n = m ∧ (setNPTS m p).tw = p.tw ∧ (setNPTS m p).cf = p.cf ∧
    (setNPTS m p).aw = p.aw ∧ (setNPTS m p).ready = true := ⟨rfl, rfl, rfl, rfl, rfl⟩

theorem C06_nonvacuous : (1550 : ℝ) ≠ 0 ∧ (0 : ℝ) < 10 ∧ 2 ≤ samplePulse.n := by
  refine ⟨by norm_num, by norm_num, by simp [samplePulse]⟩

end PyNLO
