import Verif.Props.CrystalGvd
import Mathlib.Analysis.Real.Pi.Bounds

/-! # C126: from a poling period back to the signal wavelength -/

namespace PyNLO.Xtal

open Set

/-- wavelength of the idler -/
noncomputable def idlerOf (p s : ℝ) : ℝ := 1 / (1 / p - 1 / s)

/-- mismatch left for the grating, in 1/nm, from the wave numbers in 1/nm -/
noncomputable def gratingDk (len : Option ℝ) (dkL : ℝ) : ℝ := match len with | none => 0 | some l => dkL / (l * 1e9)

theorem poling_eq (n : ℝ → NFlt) (len : Option ℝ) (hl : len ≠ some 0) (dkL : ℝ) {p s : ℝ} (hp : p ≠ 0) (hs : s ≠ 0) (hps : p ≠ s) :
    polingPeriod n len (some p) (some s) none dkL = .ok ((match NFlt.map₂ (fun x y => x - y - gratingDk len dkL)
        (NFlt.map₂ (fun x y => x - y) (kOf n p) (kOf n s)) (kOf n (idlerOf p s)) with
      | .bad => NFlt.bad
      | .val d => if d = 0 then .bad else .val (Real.pi / d * 1e-9)).map (· * 2), some (idlerOf p s)) := by
  have hne : 1 / p - 1 / s ≠ 0 := sub_ne_zero.2 fun h => hps (by field_simp at h; exact h.symm)
  have hf : fill (some p) (some s) none = .ok (p, s, idlerOf p s, some (idlerOf p s)) := by
    simp only [fill, inv_of_ne hp, inv_of_ne hs, except_bind_ok, inv_of_ne hne]; rfl
  unfold polingPeriod
  rw [hf]
  rcases len with _ | l
  · rfl
  · have : ¬ (l * 1e9 = 0) := by
      intro h
      rcases mul_eq_zero.mp h with h | h
      · exact hl (by rw [h])
      · norm_num at h
    simp only [except_bind_ok, if_neg this]
    rfl

/-- C126: the period does not change when signal and idler are exchanged. -/
theorem C126_symmetric (n : ℝ → NFlt) (len : Option ℝ) (hl : len ≠ some 0) (dkL : ℝ) {p s : ℝ} (hp : p ≠ 0) (hs : s ≠ 0) (hps : p ≠ s) :
    ∃ r, polingPeriod n len (some p) (some s) none dkL = .ok (r, some (idlerOf p s)) ∧ polingPeriod n len (some p) (some (idlerOf p s)) none dkL = .ok (r, some s) := by
  have hne : 1 / p - 1 / s ≠ 0 := sub_ne_zero.2 fun h => hps (by field_simp at h; exact h.symm)
  have hi : idlerOf p s ≠ 0 := one_div_ne_zero hne
  have e : idlerOf p (idlerOf p s) = s := by
    unfold idlerOf
    rw [one_div_one_div, sub_sub_cancel, one_div_one_div]
  have hpi : p ≠ idlerOf p s := by
    intro h
    have h2 : 1 / p = 1 / p - 1 / s := by
      conv_lhs => rw [h]
      unfold idlerOf
      rw [one_div_one_div]
    have : (1 : ℝ) / s = 0 := by linarith
    exact one_div_ne_zero hs this
  refine ⟨_, poling_eq n len hl dkL hp hs hps, ?_⟩
  rw [poling_eq n len hl dkL hp hi hpi, e]
  congr 3
  cases kOf n p <;> cases kOf n s <;> cases kOf n (idlerOf p s) <;> simp only [NFlt.map₂]
  rename_i a b c
  have : a - c - b - gratingDk len dkL = a - b - c - gratingDk len dkL := by ring
  rw [this]

/-- Of a signal and its idler one at least is not recovered from its period. -/
theorem C126_two_preimages (opt : (ℝ → Except PyErr NFlt) → ℝ → ℝ → Except PyErr ℝ) (n : ℝ → NFlt) (len : Option ℝ) (hl : len ≠ some 0) {p s Λ max : ℝ} {i : Option ℝ}
    (hp : p ≠ 0) (hs : s ≠ 0) (hps : p ≠ s) (hdeg : s ≠ idlerOf p s) (h : polingPeriod n len (some p) (some s) none = .ok (.val Λ, i)) :
    ∃ x j, (x = s ∨ x = idlerOf p s) ∧ polingPeriod n len (some p) (some x) none = .ok (.val Λ, j) ∧ invertQpm opt n len p Λ max ≠ .ok x := by
  obtain ⟨r, h1, h2⟩ := C126_symmetric n len hl 3.2 hp hs hps
  rw [h] at h1
  obtain ⟨rfl, rfl⟩ : NFlt.val Λ = r ∧ i = some (idlerOf p s) := by simpa using h1
  by_cases hx : invertQpm opt n len p Λ max = .ok s
  · refine ⟨idlerOf p s, _, Or.inr rfl, h2, ?_⟩
    rw [hx]
    intro e
    exact hdeg (Except.ok.inj e)
  · exact ⟨s, _, Or.inl rfl, h, hx⟩

/-- pump 800 nm, signal 1500 nm, idler 1714 nm in PPLN at 24.5 degrees -/
theorem ppln_800 : ∃ Λ, polingPeriod (PPLN.load 24.5).n (some 1) (some 800) (some 1500) none = .ok (.val Λ, some (12000 / 7)) := by
  have hi : idlerOf 800 1500 = 12000 / 7 := by norm_num [idlerOf]
  have hT : tempF (49 / 2) = 0 := by norm_num [tempF]
  have bound : ∀ wl lo hi : ℝ, 0 < lo → 0 < hi → lo ^ 2 ≤ gayer.nSq 24.5 wl → gayer.nSq 24.5 wl ≤ hi ^ 2 → 400 ≤ wl → wl ≤ 5000 →
      ∃ x, (PPLN.load 24.5).n wl = .val x ∧ lo ≤ x ∧ x ≤ hi := by
    intro wl lo hi h0 h0' h1 h2 h3 h4
    obtain ⟨e1, -, e3, e4⟩ := gayer_bounds (T := 24.5) (by norm_num) (by norm_num) h3 h4
    exact ⟨_, Sell.n_of (le_of_lt (lt_of_le_of_lt (by norm_num) e1)) e3 e4, Real.le_sqrt_of_sq_le h1, Real.sqrt_le_iff.2 ⟨h0'.le, h2⟩⟩
  obtain ⟨np, hp, p1, -⟩ := bound 800 2.167 3 (by norm_num) (by norm_num) (by norm_num [Sell.nSq, gayer, hT]) (by norm_num [Sell.nSq, gayer, hT]) (by norm_num) (by norm_num)
  obtain ⟨ns, hs, -, s2⟩ := bound 1500 1 2.1325 (by norm_num) (by norm_num) (by norm_num [Sell.nSq, gayer, hT]) (by norm_num [Sell.nSq, gayer, hT]) (by norm_num) (by norm_num)
  obtain ⟨ni, hni, -, i2⟩ := bound (12000 / 7) 1 2.1265 (by norm_num) (by norm_num) (by norm_num [Sell.nSq, gayer, hT]) (by norm_num [Sell.nSq, gayer, hT]) (by norm_num) (by norm_num)
  have h := poling_eq (PPLN.load 24.5).n (some 1) (by simp) 3.2 (p := 800) (s := 1500) (by norm_num) (by norm_num) (by norm_num)
  rw [hi] at h
  simp only [kOf, hp, hs, hni, NFlt.map, NFlt.map₂] at h
  rw [if_neg (by norm_num), if_neg (by norm_num), if_neg (by norm_num)] at h
  simp only [NFlt.map₂] at h
  have hd : 0 < np * 2 * Real.pi / 800 - ns * 2 * Real.pi / 1500 - ni * 2 * Real.pi / (12000 / 7) - gratingDk (some 1) 3.2 := by
    have e : np * 2 * Real.pi / 800 - ns * 2 * Real.pi / 1500 - ni * 2 * Real.pi / (12000 / 7) = 2 * Real.pi * (np / 800 - ns / 1500 - ni / (12000 / 7)) := by ring
    have h3 : 1e-5 ≤ np / 800 - ns / 1500 - ni / (12000 / 7) := by
      norm_num at *
      linarith
    have h4 : 6 * 1e-5 ≤ 2 * Real.pi * (np / 800 - ns / 1500 - ni / (12000 / 7)) :=
      mul_le_mul (by linarith [Real.pi_gt_three]) h3 (by norm_num) (by linarith [Real.pi_gt_three])
    rw [e]
    simp only [gratingDk]
    norm_num at *
    linarith
  rw [if_neg hd.ne'] at h
  simp only at h
  exact ⟨_, h⟩

/-- C126 refuted: whatever the optimiser does, `invert_dfg_qpm_to_signal_wl` does not invert `calculate_poling_period`: in PPLN pumped at 800 nm, 1500 nm and
1714 nm, both within the default bounds, have the same period. -/
theorem C126_round_trip_refuted (opt : (ℝ → Except PyErr NFlt) → ℝ → ℝ → Except PyErr ℝ) :
    ∃ x Λ j, 800 * 1.001 ≤ x ∧ x ≤ 2000 ∧ polingPeriod (PPLN.load 24.5).n (some 1) (some 800) (some x) none = .ok (.val Λ, j) ∧
      invertQpm opt (PPLN.load 24.5).n (some 1) 800 Λ ≠ .ok x := by
  have hi : idlerOf 800 1500 = 12000 / 7 := by norm_num [idlerOf]
  obtain ⟨Λ, h⟩ := ppln_800
  obtain ⟨x, j, hx, h5, h6⟩ := C126_two_preimages opt (PPLN.load 24.5).n (some 1) (max := 2000) (by simp) (p := 800) (s := 1500) (by norm_num) (by norm_num) (by norm_num)
    (by rw [hi]; norm_num) h
  refine ⟨x, _, j, ?_, ?_, h5, h6⟩
  · rcases hx with rfl | rfl
    · norm_num
    · rw [hi]; norm_num
  · rcases hx with rfl | rfl
    · norm_num
    · rw [hi]; norm_num

/-- C126: with the default bound every pump beyond 1998.1 nm is refused. -/
theorem C126_long_pump_refuted (opt : (ℝ → Except PyErr NFlt) → ℝ → ℝ → Except PyErr ℝ) (n : ℝ → NFlt) (len : Option ℝ) {p : ℝ} (hp : 1998.1 ≤ p) (Λ : ℝ) :
    invertQpm opt n len p Λ = .error .ValueError := by
  unfold invertQpm
  rw [if_pos]
  norm_num at *
  linarith

/-- C126, what holds: a wavelength at which the objective is at most `ε²` has a period within `ε` of the one asked for, with the idler from energy
conservation and quasi phase matching at its own period. -/
theorem C126_error_partial (n : ℝ → NFlt) (len : Option ℝ) {p Λ x e ε : ℝ} (hε : 0 ≤ ε) (h : qpmError n len p Λ x = .ok (.val e)) (he : e ≤ ε ^ 2) :
    ∃ Λ' I np nx ni, polingPeriod n len (some p) (some x) none = .ok (.val Λ', some I) ∧ |Λ' - Λ| ≤ ε ∧ Energy p x I ∧
      n p = .val np ∧ n x = .val nx ∧ n I = .val ni ∧
      waveNumber np p - waveNumber nx x - waveNumber ni I - 2 * Real.pi / Λ' = (match len with | none => 0 | some l => 3.2 / l) := by
  unfold qpmError at h
  rcases hr : polingPeriod n len (some p) (some x) none with _ | ⟨r, j⟩
  · rw [hr] at h; simp at h
  rw [hr] at h
  simp only [except_bind_ok] at h
  cases r with
  | bad => simp [NFlt.map, pure, Except.pure] at h
  | val Λ' =>
    simp only [NFlt.map, pure, Except.pure, Except.ok.injEq, NFlt.val.injEq] at h
    obtain ⟨-, P, S, I, np, ns, ni, a, b, c, d, hc⟩ := C61_qpm n len (some p) (some x) none 3.2 Λ' j hr
    rcases hc with ⟨-, -, h0, -⟩ | ⟨h0, -⟩ | ⟨-, h0, -⟩ | ⟨h1, h2, -, rfl, h4⟩
    · simp at h0
    · simp at h0
    · simp at h0
    · obtain rfl := Option.some.inj h1
      obtain rfl := Option.some.inj h2
      exact ⟨Λ', I, np, ns, ni, rfl, abs_le_of_sq_le_sq (by rw [h]; exact he) hε, h4, a, b, c, by cases len <;> exact d⟩

/-- An optimiser that, where it returns, returns a global minimiser between the bounds. -/
def Exact (opt : (ℝ → Except PyErr NFlt) → ℝ → ℝ → Except PyErr ℝ) : Prop :=
  ∀ f a b x, opt f a b = .ok x → a ≤ x ∧ x ≤ b ∧ ∀ y v, a ≤ y → y ≤ b → f y = .ok (.val v) → ∃ w, f x = .ok (.val w) ∧ w ≤ v

/-- C126, what holds: with an exact optimiser the wavelength returned has the period asked for, if any wavelength between the bounds has. -/
theorem C126_exact_partial {opt : (ℝ → Except PyErr NFlt) → ℝ → ℝ → Except PyErr ℝ} (ho : Exact opt) (n : ℝ → NFlt) (len : Option ℝ) {p Λ s x max : ℝ} {i : Option ℝ}
    (h1 : p * 1.001 ≤ s) (h2 : s ≤ max) (h : polingPeriod n len (some p) (some s) none = .ok (.val Λ, i)) (hx : invertQpm opt n len p Λ max = .ok x) :
    p * 1.001 ≤ x ∧ x ≤ max ∧ ∃ I, polingPeriod n len (some p) (some x) none = .ok (.val Λ, some I) := by
  unfold invertQpm at hx
  rw [if_neg (not_lt.2 (h1.trans h2))] at hx
  obtain ⟨a, b, c⟩ := ho _ _ _ _ hx
  have hs : qpmError n len p Λ s = .ok (.val 0) := by
    unfold qpmError
    rw [h]
    simp [NFlt.map, pure, Except.pure]
  obtain ⟨w, hw, hw0⟩ := c s 0 h1 h2 hs
  obtain ⟨Λ', I, -, -, -, h3, h4, -⟩ := C126_error_partial n len le_rfl hw (by simpa using hw0)
  have : Λ' = Λ := by
    have := abs_nonpos_iff.1 h4
    linarith
  rw [this] at h3
  exact ⟨a, b, I, h3⟩

/-! ## Uniqueness below degeneracy -/

/-- wave number over `2π` as a function of the inverse wavelength -/
noncomputable def kappa (src : Source) (T σ : ℝ) : ℝ := σ * √(src.sell.nSq T (1 / σ))

theorem kappa_convex (src : Source) {T : ℝ} (hT : 20 ≤ T) (hT' : T ≤ 250) : StrictConvexOn ℝ (Icc (1 / 1800) (1 / 500)) (kappa src T) := by
  have hmem : ∀ σ ∈ Ioo (1 / 1801 : ℝ) (1 / 499), 0 < σ ∧ 499 < 1 / σ ∧ 1 / σ < 1801 := by
    intro σ hσ
    have h0 : 0 < σ := lt_trans (by norm_num) hσ.1
    refine ⟨h0, ?_, ?_⟩
    · rw [lt_div_iff₀ h0]
      have := hσ.2
      rw [lt_div_iff₀ (by norm_num)] at this
      linarith
    · rw [div_lt_iff₀ h0]
      have := hσ.1
      rw [div_lt_iff₀ (by norm_num)] at this
      linarith
  have hi : ∀ σ : ℝ, σ ≠ 0 → HasDerivAt (fun σ : ℝ => 1 / σ) (-(1 / σ ^ 2)) σ := by
    intro σ h
    have := hasDerivAt_inv h
    simpa [one_div] using this
  have hd : ∀ σ ∈ Ioo (1 / 1801 : ℝ) (1 / 499), HasDerivAt (kappa src T) (√(src.sell.nSq T (1 / σ)) - deriv (fun w => √(src.sell.nSq T w)) (1 / σ) * (1 / σ)) σ := by
    intro σ hσ
    obtain ⟨h0, h1, h2⟩ := hmem σ hσ
    obtain ⟨n2, d1, -, -⟩ := ppln_derivs src hT hT' h1 h2
    have := (hasDerivAt_id σ).mul (HasDerivAt.comp σ d1.differentiableAt.hasDerivAt (hi σ h0.ne'))
    refine this.congr_deriv ?_
    simp only [id, Function.comp]
    field_simp
    ring
  have hsub : Icc (1 / 1800 : ℝ) (1 / 500) ⊆ Ioo (1 / 1801) (1 / 499) := by
    intro σ hσ
    exact ⟨lt_of_lt_of_le (by norm_num) hσ.1, lt_of_le_of_lt hσ.2 (by norm_num)⟩
  refine strictConvexOn_of_deriv2_pos' (convex_Icc _ _) (fun σ hσ => (hd σ (hsub hσ)).continuousAt.continuousWithinAt) ?_
  intro σ hσ
  obtain ⟨h0, h1, h2⟩ := hmem σ (hsub hσ)
  obtain ⟨n2, d1, d2, hn2⟩ := ppln_derivs src hT hT' h1 h2
  have he : deriv (kappa src T) =ᶠ[nhds σ] fun σ => √(src.sell.nSq T (1 / σ)) - deriv (fun w => √(src.sell.nSq T w)) (1 / σ) * (1 / σ) :=
    Filter.eventually_of_mem (isOpen_Ioo.mem_nhds (hsub hσ)) fun y hy => (hd y hy).deriv
  have hD : HasDerivAt (fun σ => √(src.sell.nSq T (1 / σ)) - deriv (fun w => √(src.sell.nSq T w)) (1 / σ) * (1 / σ)) (n2 / σ ^ 3) σ := by
    have a := HasDerivAt.comp σ d1.differentiableAt.hasDerivAt (hi σ h0.ne')
    have b := (HasDerivAt.comp σ d2 (hi σ h0.ne')).mul (hi σ h0.ne')
    refine (a.sub b).congr_deriv ?_
    simp only [Function.comp]
    field_simp
    ring
  show 0 < deriv (deriv (kappa src T)) σ
  rw [he.deriv_eq, hD.deriv]
  have : (0 : ℝ) < n2 := lt_of_lt_of_le (by norm_num) hn2
  positivity

/-- a strictly convex function: `f a + f (P - a)` grows with the distance of `a` from `P/2` -/
theorem convex_pair {f : ℝ → ℝ} {D : Set ℝ} (hf : StrictConvexOn ℝ D f) {a b P : ℝ} (ha : a ∈ D) (ha' : P - a ∈ D) (hb : P ≤ 2 * b) (hab : b < a) :
    f b + f (P - b) < f a + f (P - a) := by
  have hden : 0 < 2 * a - P := by linarith
  have hden' := hden.ne'
  have hne : a ≠ P - a := by intro h; linarith
  have t0 : 0 < (b - (P - a)) / (2 * a - P) := div_pos (by linarith) hden
  have t1 : 0 < (a - b) / (2 * a - P) := div_pos (by linarith) hden
  have hsum : (b - (P - a)) / (2 * a - P) + (a - b) / (2 * a - P) = 1 := by
    rw [← add_div, div_eq_one_iff_eq hden']
    ring
  have e1 := hf.2 ha ha' hne t0 t1 hsum
  have e2 := hf.2 ha ha' hne t1 t0 (by rw [add_comm]; exact hsum)
  simp only [smul_eq_mul] at e1 e2
  have x1 : (b - (P - a)) / (2 * a - P) * a + (a - b) / (2 * a - P) * (P - a) = b := by
    rw [div_mul_eq_mul_div, div_mul_eq_mul_div, ← add_div, div_eq_iff hden']
    ring
  have x2 : (a - b) / (2 * a - P) * a + (b - (P - a)) / (2 * a - P) * (P - a) = P - b := by
    rw [div_mul_eq_mul_div, div_mul_eq_mul_div, ← add_div, div_eq_iff hden']
    ring
  rw [x1] at e1
  rw [x2] at e2
  have : (b - (P - a)) / (2 * a - P) * f a + (a - b) / (2 * a - P) * f (P - a) + ((a - b) / (2 * a - P) * f a + (b - (P - a)) / (2 * a - P) * f (P - a)) = f a + f (P - a) := by
    linear_combination (f a + f (P - a)) * hsum
  linarith

theorem ppln_k (src : Source) {T w : ℝ} (hT : 20 ≤ T) (hT' : T ≤ 250) (h1 : 400 ≤ w) (h2 : w ≤ 5000) :
    kOf (PPLN.load T src).n w = .val (2 * Real.pi * kappa src T (1 / w)) := by
  have h0 : w ≠ 0 := by
    intro h
    linarith
  have hn : (PPLN.load T src).n w = .val √(src.sell.nSq T w) := by
    cases src with
    | Deng =>
      obtain ⟨e1, -, e3, e4⟩ := deng_bounds hT hT' h1 h2
      exact Sell.n_of (le_of_lt (lt_of_le_of_lt (by norm_num) e1)) e3 e4
    | Gayer_5pctMg =>
      obtain ⟨e1, -, e3, e4⟩ := gayer_bounds hT hT' h1 h2
      exact Sell.n_of (le_of_lt (lt_of_le_of_lt (by norm_num) e1)) e3 e4
  unfold kOf kappa
  rw [if_neg h0, hn, one_div_one_div]
  simp only [NFlt.map]
  congr 1
  ring

/-- the period as a function of the wave numbers -/
theorem ppln_period (src : Source) {T p s Λ : ℝ} {len i : Option ℝ} (hT : 20 ≤ T) (hT' : T ≤ 250) (hl : len ≠ some 0) (hp : 500 ≤ p) (hs : p < s) (hs' : s ≤ 2 * p)
    (hi : idlerOf p s ≤ 1800) (h : polingPeriod (PPLN.load T src).n len (some p) (some s) none = .ok (.val Λ, i)) :
    1 / s ∈ Icc (1 / 1800 : ℝ) (1 / 500) ∧ 1 / p - 1 / s ∈ Icc (1 / 1800 : ℝ) (1 / 500) ∧
      kappa src T (1 / s) + kappa src T (1 / p - 1 / s) = kappa src T (1 / p) - (gratingDk len 3.2 + 2e-9 * Real.pi / Λ) / (2 * Real.pi) := by
  have hp0 : 0 < p := by linarith
  have hs0 : 0 < s := by linarith
  have hps : 1 / s < 1 / p := one_div_lt_one_div_of_lt hp0 hs
  have hd0 : 0 < 1 / p - 1 / s := sub_pos.2 hps
  have hhalf : 1 / p ≤ 2 * (1 / s) := by
    rw [mul_one_div, div_le_div_iff₀ hp0 hs0]
    linarith
  have hi1 : 1 / 1800 ≤ 1 / p - 1 / s := by
    unfold idlerOf at hi
    rw [div_le_iff₀ hd0] at hi
    rw [div_le_iff₀ (by norm_num)]
    linarith
  have hp1 : 1 / p ≤ 1 / 500 := one_div_le_one_div_of_le (by norm_num) hp
  have hsi : 1 / p - 1 / s ≤ 1 / s := by linarith
  have m1 : 1 / s ∈ Icc (1 / 1800 : ℝ) (1 / 500) := ⟨by linarith, by linarith⟩
  have m2 : 1 / p - 1 / s ∈ Icc (1 / 1800 : ℝ) (1 / 500) := ⟨hi1, by linarith [m1.2]⟩
  have hs1800 : s ≤ 1800 := (one_div_le_one_div (by norm_num) hs0).1 m1.1
  have his : 500 ≤ idlerOf p s := by
    unfold idlerOf
    rw [le_div_iff₀ hd0]
    have := m2.2
    rw [le_div_iff₀ (by norm_num)] at this
    linarith
  refine ⟨m1, m2, ?_⟩
  rw [poling_eq _ _ hl _ hp0.ne' hs0.ne' hs.ne, ppln_k src hT hT' (by linarith) (by linarith), ppln_k src hT hT' (by linarith) (by linarith),
    ppln_k src hT hT' (by linarith) (by linarith)] at h
  have e : 1 / idlerOf p s = 1 / p - 1 / s := by unfold idlerOf; rw [one_div_one_div]
  rw [e] at h
  simp only [NFlt.map₂] at h
  have hpi := Real.pi_pos
  generalize kappa src T (1 / p) = kp at *
  generalize kappa src T (1 / s) = ks at *
  generalize kappa src T (1 / p - 1 / s) = ki at *
  by_cases hd : 2 * Real.pi * kp - 2 * Real.pi * ks - 2 * Real.pi * ki - gratingDk len 3.2 = 0
  · rw [if_pos hd] at h
    simp [NFlt.map] at h
  · rw [if_neg hd] at h
    simp only [NFlt.map, Except.ok.injEq, Prod.mk.injEq, NFlt.val.injEq] at h
    have h1 : 2e-9 * Real.pi / Λ = 2 * Real.pi * kp - 2 * Real.pi * ks - 2 * Real.pi * ki - gratingDk len 3.2 := by
      rw [← h.1]
      generalize 2 * Real.pi * kp - 2 * Real.pi * ks - 2 * Real.pi * ki - gratingDk len 3.2 = d at *
      field_simp
      norm_num
    rw [h1, eq_sub_iff_add_eq, ← eq_sub_iff_add_eq', div_eq_iff (by positivity)]
    ring

/-- C126, what holds: in PPLN, for wavelengths between 0.5 and 1.8 micrometres, two signals at or below twice the pump with the same period are equal. -/
theorem C126_unique_partial (src : Source) {T p s x Λ : ℝ} {len i j : Option ℝ} (hT : 20 ≤ T) (hT' : T ≤ 250) (hl : len ≠ some 0) (hp : 500 ≤ p)
    (hs : p < s) (hs' : s ≤ 2 * p) (hsi : idlerOf p s ≤ 1800) (hx : p < x) (hx' : x ≤ 2 * p) (hxi : idlerOf p x ≤ 1800)
    (h : polingPeriod (PPLN.load T src).n len (some p) (some s) none = .ok (.val Λ, i))
    (h2 : polingPeriod (PPLN.load T src).n len (some p) (some x) none = .ok (.val Λ, j)) : x = s := by
  obtain ⟨a1, a2, a3⟩ := ppln_period src hT hT' hl hp hs hs' hsi h
  obtain ⟨b1, b2, b3⟩ := ppln_period src hT hT' hl hp hx hx' hxi h2
  have half : ∀ y, p < y → y ≤ 2 * p → 1 / p ≤ 2 * (1 / y) := by
    intro y h1 h2
    rw [mul_one_div, div_le_div_iff₀ (by linarith) (by linarith)]
    linarith
  have hc := kappa_convex src hT hT'
  rcases lt_trichotomy (1 / x) (1 / s) with h | h | h
  · have := convex_pair hc a1 a2 (half x hx hx') h
    linarith
  · have := congrArg (fun y : ℝ => 1 / y) h
    simpa using this
  · have := convex_pair hc b1 b2 (half s hs hs') h
    linarith

/-- C126, what holds: the round trip with an exact optimiser, when the upper bound is at most twice the pump wavelength and the idlers are within 1.8 micrometres. -/
theorem C126_round_trip_partial {opt : (ℝ → Except PyErr NFlt) → ℝ → ℝ → Except PyErr ℝ} (ho : Exact opt) (src : Source) {T p s x Λ max : ℝ} {len i : Option ℝ}
    (hT : 20 ≤ T) (hT' : T ≤ 250) (hl : len ≠ some 0) (hp : 500 ≤ p) (hs : p * 1.001 ≤ s) (hs' : s ≤ max) (hm : max ≤ 2 * p) (hsi : idlerOf p s ≤ 1800)
    (h : polingPeriod (PPLN.load T src).n len (some p) (some s) none = .ok (.val Λ, i)) (hx : invertQpm opt (PPLN.load T src).n len p Λ max = .ok x)
    (hxi : idlerOf p x ≤ 1800) : x = s := by
  obtain ⟨a, b, I, h2⟩ := C126_exact_partial ho _ len hs hs' h hx
  have lt : p < p * 1.001 := by
    norm_num
    linarith
  exact C126_unique_partial src hT hT' hl hp (lt.trans_le hs) (hs'.trans hm) hsi (lt.trans_le a) (b.trans hm) hxi h h2

open Classical in
/-- C126: an exact optimiser exists, and returns for the period of a signal at 1500 nm with the pump at 800 nm, upper bound 1600 nm. -/
theorem C126_nonvacuous : ∃ opt, Exact opt ∧ idlerOf 800 1500 ≤ 1800 ∧ ∃ Λ x i, polingPeriod (PPLN.load 24.5).n (some 1) (some 800) (some 1500) none = .ok (.val Λ, i) ∧
    invertQpm opt (PPLN.load 24.5).n (some 1) 800 Λ 1600 = .ok x := by
  refine ⟨fun f a b => if h : ∃ x, a ≤ x ∧ x ≤ b ∧ ∀ y v, a ≤ y → y ≤ b → f y = .ok (.val v) → ∃ w, f x = .ok (.val w) ∧ w ≤ v then .ok h.choose else .error .ValueError, ?_,
    by norm_num [idlerOf], ?_⟩
  · intro f a b x hx
    dsimp only at hx
    split_ifs at hx with h
    obtain rfl := Except.ok.inj hx
    exact h.choose_spec
  · obtain ⟨Λ, h⟩ := ppln_800
    refine ⟨Λ, ?_⟩
    unfold invertQpm
    rw [if_neg (by norm_num)]
    dsimp only
    rw [dif_pos]
    · exact ⟨_, _, h, rfl⟩
    · refine ⟨1500, by norm_num, by norm_num, fun y v h1 h2 h3 => ⟨0, ?_, ?_⟩⟩
      · unfold qpmError
        rw [h]
        simp [NFlt.map, pure, Except.pure]
      · unfold qpmError at h3
        rcases hr : polingPeriod (PPLN.load 24.5).n (some 1) (some 800) (some y) none with _ | ⟨r, j⟩
        · rw [hr] at h3; simp at h3
        rw [hr] at h3
        cases r with
        | bad => simp [NFlt.map, pure, Except.pure] at h3
        | val Λ' =>
          have : (Λ' - Λ) ^ 2 = v := by simpa [NFlt.map, pure, Except.pure] using h3
          rw [← this]
          exact sq_nonneg _

end PyNLO.Xtal
