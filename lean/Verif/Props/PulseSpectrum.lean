import Verif.Lemmas.PulseOps
import Verif.Props.Grids
import Verif.Spec.Pulse

/-!
# Properties C15–C23: window expansion, rotation, filtering, copying, extraction, averages
-/

namespace PyNLO

open Complex Pulse PyM

variable {p : Pulse} {n : ℕ} {a : Fin n → ℂ}

/-! ## C15, C16 -/

theorem append_zeros_left (k N : ℕ) (x : Fin n → ℂ) (h : N = k + n) :
    Vec.append (Vec.zeros k) ⟨n, x⟩ = ⟨N, Spec.embedAt k N x⟩ := by
  subst h
  refine Vec.ext' rfl fun i h1 h2 => ?_
  simp only [Vec.append, Vec.zeros, Fin.append, Fin.addCases, Spec.embedAt]
  simp only [Vec.append, Vec.zeros] at h1
  by_cases hi : i < k
  · simp [hi]
  · have : k ≤ i := by omega
    simp [hi, this, h1]

theorem append_zeros_right (k N : ℕ) (x : Fin n → ℂ) (h : N = n + k) :
    Vec.append ⟨n, x⟩ (Vec.zeros k) = ⟨N, Spec.embedAt 0 N x⟩ := by
  subst h
  refine Vec.ext' rfl fun i h1 h2 => ?_
  simp only [Vec.append, Vec.zeros, Fin.append, Fin.addCases, Spec.embedAt]
  by_cases hi : i < n
  · simp [hi, Fin.castLT]
  · simp [hi]

theorem embed_embed (k M N : ℕ) (x : Fin n → ℂ) (hM : M = k + n) :
    Spec.embedAt 0 N (Spec.embedAt k M x) = Spec.embedAt k N x := by
  funext i
  simp only [Spec.embedAt]
  by_cases h1 : (i : ℕ) < M
  · simp [h1]
  · have : ¬ (k ≤ (i : ℕ) ∧ (i : ℕ) < k + n) := by omega
    simp [h1, this]

theorem energy_embedAt (k N : ℕ) (x : Fin n → ℂ) (h : k + n ≤ N) :
    Spec.energy (Spec.embedAt k N x) = Spec.energy x := by
  unfold Spec.energy
  symm
  apply Finset.sum_bij_ne_zero (fun (i : Fin n) _ _ => (⟨k + i, by have := i.isLt; omega⟩ : Fin N))
  · intros; simp
  · intro i _ _ j _ _ hij
    simpa [Fin.ext_iff] using hij
  · intro j _ hj
    simp only [Spec.embedAt] at hj
    by_cases hc : k ≤ (j : ℕ) ∧ (j : ℕ) < k + n
    · refine ⟨⟨j - k, by omega⟩, Finset.mem_univ _, ?_, ?_⟩
      · simpa [hc] using hj
      · ext; simp; omega
    · simp [hc] at hj
  · intro i _ _
    simp [Spec.embedAt]

/-- number of zeros put in front of the old field -/
def padBefore (n f : ℕ) (loc : String) : ℕ :=
  if loc = "before" then n * (2 ^ f - 1) else if loc = "after" then 0 else n * (2 ^ f - 1) / 2

theorem expand_eval (h : Holds p a) (f : ℕ) (loc : String)
    (hloc : loc = "before" ∨ loc = "after" ∨ loc = "even") :
    expandTimeWindow f loc p =
      (.ok (), { p with
        n := n * 2 ^ f, tw := p.tw * 2 ^ f, ready := true,
        aw := some ⟨n * 2 ^ f,
          fftT (Spec.embedAt (padBefore n f loc) (n * 2 ^ f) (ifftT a))⟩ }) := by
  have hn := h.npts
  have h2 : 1 ≤ 2 ^ f := Nat.one_le_two_pow
  have hN : n * (2 ^ f - 1) + n = n * 2 ^ f := by
    obtain ⟨m, hm⟩ := Nat.exists_eq_add_of_le h2
    rw [hm]; simp; ring
  have hpos : 0 < n * 2 ^ f := Nat.mul_pos h.pos (by positivity)
  let p1 : Pulse := { p with n := n * 2 ^ f, tw := p.tw * 2 ^ f, ready := true, aw := none }
  have key : ∀ x : Fin (n * 2 ^ f) → ℂ, setAT ⟨n * 2 ^ f, x⟩ p1 =
      (.ok (), { p1 with aw := some ⟨n * 2 ^ f, fftT x⟩ }) := fun x =>
    setAT_fresh (p := p1) hpos rfl rfl x
  unfold expandTimeWindow
  simp only [bind_apply, get_apply, read_apply, h.AT_eq, modify_apply, setNPTS, setTimeWindowPs,
    setTimeWindow]
  rcases hloc with rfl | rfl | rfl
  · simp only [if_true, padBefore]
    rw [append_zeros_left _ (n * 2 ^ f) _ (by rw [hn]; omega)]
    rw [hn]
    exact key _
  · simp only [show ¬ ("after" = "before") by decide, if_false, if_true, padBefore]
    rw [append_zeros_right _ (n * 2 ^ f) _ (by rw [hn]; omega)]
    rw [hn]
    exact key _
  · simp only [show ¬ ("even" = "before") by decide, show ¬ ("even" = "after") by decide, if_false,
      if_true, padBefore]
    rw [append_zeros_left _ (n * (2 ^ f - 1) / 2 + n) _ (by rw [hn]), append_zeros_right _ (n * 2 ^ f) _
      (by rw [hn]; omega), embed_embed _ _ _ _ (by rw [hn])]
    rw [hn]
    exact key _

/-- C15: `expand_time_window` multiplies the number of points and the window by `2^f`, keeps the time
step, and the new field is the old one surrounded by zeros; its sum of squares is unchanged.  The number
of zeros in front is all (`"before"`), none (`"after"`), or half rounded down (`"even"`). -/
theorem C15_expand (h : Holds p a) (f : ℕ) (loc : String)
    (hloc : loc = "before" ∨ loc = "after" ∨ loc = "even") :
    ∃ (p' : Pulse) (x : Fin n → ℂ) (y : Fin (n * 2 ^ f) → ℂ) (off : ℕ) (d : ℝ),
      expandTimeWindow f loc p = (.ok (), p') ∧ p'.n = n * 2 ^ f ∧
      p'.time_window_ps = p.time_window_ps * 2 ^ f ∧ p'.cf = p.cf ∧ p'.frep = p.frep ∧
      p.dT_ps = .ok d ∧ p'.dT_ps = .ok d ∧ p.AT = .ok ⟨n, x⟩ ∧ p'.AT = .ok ⟨n * 2 ^ f, y⟩ ∧
      y = Spec.embedAt off (n * 2 ^ f) x ∧ Spec.energy y = Spec.energy x ∧
      (loc = "before" → off + n = n * 2 ^ f) ∧ (loc = "after" → off = 0) ∧
      (loc = "even" → off = (n * 2 ^ f - n) / 2) := by
  have h2 : 1 ≤ 2 ^ f := Nat.one_le_two_pow
  have hN : n * (2 ^ f - 1) + n = n * 2 ^ f := by
    obtain ⟨m, hm⟩ := Nat.exists_eq_add_of_le h2
    rw [hm]; simp; ring
  have hpos : 0 < n * 2 ^ f := Nat.mul_pos h.pos (by positivity)
  have hoff : padBefore n f loc + n ≤ n * 2 ^ f := by
    unfold padBefore; split_ifs <;> omega
  have hd : p.dT_ps = .ok (p.tw / n) := h.dT_eq
  refine ⟨_, _, _, padBefore n f loc, _, expand_eval h f loc hloc, rfl, rfl, rfl, rfl, hd, ?_, h.AT_eq, ?_, rfl,
    energy_embedAt _ _ _ hoff, ?_, ?_, ?_⟩
  · have hn : (n : ℝ) ≠ 0 := by have := h.pos; positivity
    simp only [dT_ps, dT, Bool.true_eq_false, if_false]
    congr 1
    push_cast
    field_simp
  · simp only [AT, IFFT_t]
    rw [if_neg (by omega), ifftT_fftT]
  · rintro rfl; simp [padBefore]; omega
  · rintro rfl; simp [padBefore]
  · rintro rfl
    simp only [padBefore, show ¬ ("even" = "before") by decide, show ¬ ("even" = "after") by decide,
      if_false]
    omega

theorem C15_nonvacuous : Holds samplePulse (n := 4) (fun i => ((i : ℕ) : ℂ) + 1 + I) := samplePulse_holds

/-- C16 refuted, for every configured pulse and every invalid location: the call raises `ValueError` but
the pulse has lost its field (reading `AW` or `AT` raises) and its size is already multiplied. -/
theorem C16_expand_atomic_refuted (h : Holds p a) (f : ℕ) (loc : String)
    (hloc : loc ≠ "before" ∧ loc ≠ "after" ∧ loc ≠ "even") :
    ∃ p', expandTimeWindow f loc p = (.error .ValueError, p') ∧ p'.n = n * 2 ^ f ∧
      p'.time_window_ps = p.time_window_ps * 2 ^ f ∧
      p'.AW = .error .RuntimeError ∧ p'.AT = .error .RuntimeError ∧
      p.AW = .ok ⟨n, a⟩ := by
  have : expandTimeWindow f loc p = (.error .ValueError,
      { p with n := p.n * 2 ^ f, tw := p.tw * 2 ^ f, ready := true, aw := none }) := by
    unfold expandTimeWindow
    simp only [bind_apply, get_apply, read_apply, h.AT_eq, modify_apply, setNPTS, setTimeWindowPs,
      setTimeWindow, if_neg hloc.1, if_neg hloc.2.1, if_neg hloc.2.2, throw_apply]
  exact ⟨_, this, by rw [← h.npts], rfl, rfl, rfl, h.AW_eq⟩

/-- C16, the part that holds: if the pulse has no field yet, the call raises before changing anything. -/
theorem C16_expand_no_field_partial (p : Pulse) (hp : p.aw = none) (f : ℕ) (loc : String) :
    expandTimeWindow f loc p = (.error .RuntimeError, p) := by
  unfold expandTimeWindow
  simp only [bind_apply, get_apply, read_apply, AT, hp]

theorem C16_witness : Holds samplePulse (n := 4) (fun i => ((i : ℕ) : ℂ) + 1 + I) ∧
    ("middle" ≠ "before" ∧ "middle" ≠ "after" ∧ "middle" ≠ "even") :=
  ⟨samplePulse_holds, by decide⟩

/-! ## C17 -/

theorem Pulse.Holds.dF_eq (h : Holds p a) (hn : 2 ≤ n) : p.dF_THz = .ok (1 / |p.tw|) := by
  simp only [dF_THz, W_THz, h.W_eq, except_bind_ok]
  rw [Vec.item_of_lt _ (i := 1) (show 1 < n by omega), Vec.item_of_lt _ (i := 0) (show 0 < n by omega)]
  simp only [except_bind_ok]
  congr 1
  have : (2 * Real.pi * (((1 : ℕ) : ℝ) - (n : ℝ) / 2) / p.tw + 2 * Real.pi * p.cf -
    (2 * Real.pi * (((0 : ℕ) : ℝ) - (n : ℝ) / 2) / p.tw + 2 * Real.pi * p.cf)) = 2 * Real.pi * (1 / p.tw) := by
    push_cast; ring
  rw [this, abs_mul, abs_of_pos (by positivity : (0 : ℝ) < 2 * Real.pi), abs_div, abs_one]
  have := Real.pi_pos
  field_simp

theorem rotate_eval (h : Holds p a) (hn : 2 ≤ n) {wl : ℝ} (hwl : wl ≠ 0) :
    rotateSpectrum wl p = (.ok (), { p with
      aw := some ⟨n, roll (-1 * pyRound ((p.cf - cNmps / wl) / (1 / |p.tw|))) a⟩ }) := by
  unfold rotateSpectrum
  rw [bind_apply, get_apply]
  dsimp only
  rw [if_neg hwl]
  simp only [bind_apply, read_apply, h.dF_eq hn, h.AW_eq, h.setAW_eq]

/-- C17: the spectrum is rotated by a whole number `s` of bins: the content of bin `k` is found in bin
`(k + s) mod NPTS`.  The nominal centre moved by `s` bins lies within half a bin of the requested optical
frequency, and nothing else changes. -/
theorem C17_rotate (h : Holds p a) (hn : 2 ≤ n) (htw : 0 < p.tw) {wl : ℝ} (hwl : wl ≠ 0) :
    ∃ (p' : Pulse) (s : ℤ) (b : Fin n → ℂ) (dF : ℝ), rotateSpectrum wl p = (.ok (), p') ∧
      p.dF_THz = .ok dF ∧ p'.AW = .ok ⟨n, b⟩ ∧ p' = { p with aw := some ⟨n, b⟩ } ∧
      (∀ k j : Fin n, ((j : ℕ) : ℤ) = ((k : ℕ) + s) % n → b j = a k) ∧
      |p.cf + s * dF - cNmps / wl| ≤ dF / 2 ∧ Spec.energy b = Spec.energy a := by
  refine ⟨_, -1 * pyRound ((p.cf - cNmps / wl) / (1 / |p.tw|)), _, _, rotate_eval h hn hwl, h.dF_eq hn,
    (h.update _).AW_eq, rfl, ?_, ?_, ?_⟩
  · intro k j hj
    unfold roll
    congr 1
    apply Fin.ext
    have e := rollIdx_coe (-1 * pyRound ((p.cf - cNmps / wl) / (1 / |p.tw|))) j
    generalize (-1 * pyRound ((p.cf - cNmps / wl) / (1 / |p.tw|))) = s at e hj ⊢
    have hk := k.isLt
    have : ((((rollIdx s j : Fin n) : ℕ) : ℤ)) = ((k : ℕ) : ℤ) := by
      rw [e, hj, Int.emod_sub_emod, add_sub_cancel_right]
      exact Int.emod_eq_of_lt (by omega) (by omega)
    exact_mod_cast this
  · rw [abs_of_pos htw]
    set x := (p.cf - cNmps / wl) / (1 / p.tw) with hx
    have hr := pyRound_near x
    have hpx : p.cf - cNmps / wl = x * (1 / p.tw) := by rw [hx]; field_simp
    have : p.cf + ((-1 * pyRound x : ℤ) : ℝ) * (1 / p.tw) - cNmps / wl =
        -((pyRound x : ℝ) - x) * (1 / p.tw) := by
      push_cast
      linear_combination hpx
    rw [this, abs_mul, abs_neg, abs_of_pos (show (0 : ℝ) < 1 / p.tw by positivity)]
    have hp : (0 : ℝ) < 1 / p.tw := by positivity
    nlinarith
  · unfold Spec.energy
    exact norm_sum_roll _ _

/-- C17, error branches: zero wavelength raises `ZeroDivisionError`, a one-point grid `IndexError`; the
pulse is unchanged. -/
theorem C17_rotate_errors (p : Pulse) : rotateSpectrum 0 p = (.error .ZeroDivisionError, p) := by
  unfold rotateSpectrum
  rw [bind_apply, get_apply]
  dsimp only
  rw [if_pos rfl, throw_apply]

theorem C17_rotate_one_point {a : Fin 1 → ℂ} (h : Holds p a) {wl : ℝ} (hwl : wl ≠ 0) :
    rotateSpectrum wl p = (.error .IndexError, p) := by
  have : p.dF_THz = .error .IndexError := by
    simp only [dF_THz, W_THz, h.W_eq, except_bind_ok]
    rw [Vec.item_of_ge _ (i := 1) (by simp)]
    rfl
  unfold rotateSpectrum
  rw [bind_apply, get_apply]
  dsimp only
  rw [if_neg hwl]
  simp only [bind_apply, read_apply, this]

theorem C17_nonvacuous : Holds samplePulse (n := 4) (fun i => ((i : ℕ) : ℂ) + 1 + I) ∧
    0 < samplePulse.tw := ⟨samplePulse_holds, by norm_num [samplePulse]⟩

/-! ## cached grids: a second read returns the same array -/

theorem wl_nm_repeat {strF : ℝ → String} {p p1 : Pulse} {v : Vec ℝ} (hr : p.ready = true)
    (h : wl_nm strF p = (.ok v, p1)) :
    wl_nm strF p1 = (.ok v, p1) ∧ p1 = { p with wlKey := p1.wlKey, wlVal := p1.wlVal } := by
  by_cases hk : p.wlKey = some (cacheHash strF p)
  · rcases hv : p.wlVal with _ | u
    · unfold wl_nm at h
      rw [bind_apply, get_apply] at h
      dsimp only at h
      rw [if_pos hk, hv] at h
      simp at h
    · rw [wl_nm_hit hk hv] at h
      obtain ⟨h1, h2⟩ := Prod.mk.inj h
      injection h1 with h1
      subst h2 h1
      exact ⟨wl_nm_hit hk hv, rfl⟩
  · rw [wl_nm_miss hr hk] at h
    obtain ⟨h1, h2⟩ := Prod.mk.inj h
    injection h1 with h1
    subst h2 h1
    exact ⟨wl_nm_hit rfl rfl, rfl⟩

/-- Reading the wavelength grid does not depend on the field. -/
theorem wl_nm_field {strF : ℝ → String} {p p1 : Pulse} {v : Vec ℝ} (hr : p.ready = true)
    (h : wl_nm strF p = (.ok v, p1)) (f : Option (Vec ℂ)) :
    wl_nm strF { p with aw := f } = (.ok v, { p1 with aw := f }) := by
  by_cases hk : p.wlKey = some (cacheHash strF p)
  · rcases hv : p.wlVal with _ | u
    · unfold wl_nm at h
      rw [bind_apply, get_apply] at h
      dsimp only at h
      rw [if_pos hk, hv] at h
      simp at h
    · rw [wl_nm_hit hk hv] at h
      obtain ⟨h1, h2⟩ := Prod.mk.inj h
      injection h1 with h1
      subst h2 h1
      simpa only [hv] using wl_nm_hit (p := { p with aw := f }) hk hv
  · rw [wl_nm_miss hr hk] at h
    obtain ⟨h1, h2⟩ := Prod.mk.inj h
    injection h1 with h1
    subst h2 h1
    exact wl_nm_miss (p := { p with aw := f }) hr hk

theorem W_mks_field {strF : ℝ → String} {p p1 : Pulse} {v : Vec ℝ} (hr : p.ready = true)
    (h : W_mks strF p = (.ok v, p1)) (f : Option (Vec ℂ)) :
    W_mks strF { p with aw := f } = (.ok v, { p1 with aw := f }) := by
  by_cases hk : p.wKey = some (cacheHash strF p)
  · rcases hv : p.wVal with _ | u
    · unfold W_mks at h
      rw [bind_apply, get_apply] at h
      dsimp only at h
      rw [if_pos hk, hv] at h
      simp at h
    · rw [W_mks_hit hk hv] at h
      obtain ⟨h1, h2⟩ := Prod.mk.inj h
      injection h1 with h1
      subst h2 h1
      simpa only [hv] using W_mks_hit (p := { p with aw := f }) hk hv
  · rw [W_mks_miss hr hk] at h
    obtain ⟨h1, h2⟩ := Prod.mk.inj h
    injection h1 with h1
    subst h2 h1
    exact W_mks_miss (p := { p with aw := f }) hr hk

/-! ## C18 -/

open Classical in
theorem filter_eval {strF : ℝ → String} {p p1 : Pulse} (h : Holds p a) {g : Fin n → ℝ}
    (hg : wl_nm strF p = (.ok ⟨n, g⟩, p1)) (lo hi : ℝ) :
    filterByWavelengthNm strF lo hi p = (.ok (), { p1 with
      aw := some ⟨n, fun k => if lo ≤ g k ∧ g k ≤ hi then a k else 0⟩ }) := by
  obtain ⟨hg1, hp1⟩ := wl_nm_repeat h.ready hg
  have h1 : Holds p1 a := by rw [hp1]; exact ⟨h.ready, h.npts, h.pos, h.field⟩
  unfold filterByWavelengthNm
  have hz1 : zeroWhere ⟨n, a⟩ ⟨n, g⟩ (· < lo) = .ok ⟨n, fun k => if g k < lo then 0 else a k⟩ := by
    simp [zeroWhere]
  have hz2 : zeroWhere ⟨n, fun k => if g k < lo then 0 else a k⟩ ⟨n, g⟩ (hi < ·) =
      .ok ⟨n, fun k => if hi < g k then 0 else if g k < lo then 0 else a k⟩ := by
    simp [zeroWhere]
  have e : (fun k => if lo ≤ g k ∧ g k ≤ hi then a k else 0) =
      fun k => if hi < g k then 0 else if g k < lo then 0 else a k := by
    funext k
    by_cases c1 : hi < g k
    · rw [if_neg (by rintro ⟨_, h2⟩; exact absurd c1 (not_lt.mpr h2)), if_pos c1]
    · by_cases c2 : g k < lo
      · rw [if_neg (by rintro ⟨h2, _⟩; exact absurd c2 (not_lt.mpr h2)), if_neg c1, if_pos c2]
      · rw [if_pos ⟨not_lt.mp c2, not_lt.mp c1⟩, if_neg c1, if_neg c2]
  rw [e]
  simp only [bind_apply, read_apply, h.AW_eq, hg, lift_apply, hz1, hg1, hz2, h1.setAW_eq]

/-- C18: `filter_by_wavelength_nm` keeps exactly the bins whose reported wavelength is in
`[lower, upper]`, zeroes the others, does not increase energy, and is idempotent. -/
theorem C18_filter {strF : ℝ → String} {p p1 : Pulse} (h : Holds p a) {g : Fin n → ℝ}
    (hg : wl_nm strF p = (.ok ⟨n, g⟩, p1)) (lo hi : ℝ) :
    ∃ (p' : Pulse) (b : Fin n → ℂ), filterByWavelengthNm strF lo hi p = (.ok (), p') ∧
      p'.AW = .ok ⟨n, b⟩ ∧
      (∀ k, lo ≤ g k → g k ≤ hi → b k = a k) ∧
      (∀ k, g k < lo ∨ hi < g k → b k = 0) ∧
      Spec.energy b ≤ Spec.energy a ∧
      filterByWavelengthNm strF lo hi p' = (.ok (), p') ∧
      p'.n = p.n ∧ p'.tw = p.tw ∧ p'.cf = p.cf ∧ p'.frep = p.frep := by
  classical
  obtain ⟨hg1, hp1⟩ := wl_nm_repeat h.ready hg
  have h1 : Holds p1 a := by rw [hp1]; exact ⟨h.ready, h.npts, h.pos, h.field⟩
  set b : Fin n → ℂ := fun k => if lo ≤ g k ∧ g k ≤ hi then a k else 0 with hb
  have h2 := h1.update b
  refine ⟨_, b, filter_eval h hg lo hi, h2.AW_eq, ?_, ?_, ?_, ?_, ?_, ?_, ?_, ?_⟩
  · intro k ha hb'; simp [hb, ha, hb']
  · rintro k (hk | hk)
    · simp [hb, not_le.mpr hk]
    · simp [hb, not_le.mpr hk]
  · unfold Spec.energy
    refine Finset.sum_le_sum fun k _ => ?_
    rw [hb]
    dsimp only
    split_ifs
    · exact le_refl _
    · rw [norm_zero, zero_pow two_ne_zero]; positivity
  · have hg2 := wl_nm_field h1.ready hg1 (some ⟨n, b⟩)
    rw [filter_eval h2 hg2 lo hi]
    congr 5
    funext k
    rw [hb]; dsimp only; split_ifs <;> rfl
  all_goals (dsimp only; rw [hp1])

/-- the hypotheses of C18 hold for a fresh four-point pulse -/
theorem C18_nonvacuous (strF : ℝ → String) : ∃ (g : Fin 4 → ℝ) (p1 : Pulse),
    Holds samplePulse (n := 4) (fun i => ((i : ℕ) : ℂ) + 1 + I) ∧
    wl_nm strF samplePulse = (.ok ⟨4, g⟩, p1) :=
  ⟨_, _, samplePulse_holds, wl_nm_miss rfl (by simp [samplePulse, Pulse.blank])⟩

/-! ## C19, C20 -/

theorem clone_core (fr : Option ℝ) (h : Holds p a) (hcf : p.cf ≠ 0) (q0 : Pulse) (hq : q0.aw = none) :
    let q : Pulse := { q0 with n := n, tw := p.tw, cf := p.cf, ready := true, frep := fr }
    (do PyM.modify (setNPTS p.n)
        PyM.modify (setTimeWindowPs p.tw)
        setCenterWavelengthNm (cNmps / p.cf)
        PyM.modify fun p => { p with frep := fr }
        setAT ⟨n, ifftT a⟩ : PyM Pulse Unit) q0 = (.ok (), { q with aw := some ⟨n, a⟩ }) := by
  have hc : cNmps ≠ 0 := by norm_num [cNmps, cMks]
  have hwl : cNmps / p.cf ≠ 0 := div_ne_zero hc hcf
  have hcc : cNmps / (cNmps / p.cf) = p.cf := by field_simp
  have hs := setAT_fresh (p := { q0 with n := n, tw := p.tw, cf := p.cf, ready := true, frep := fr })
    h.pos rfl hq (ifftT a)
  rw [fftT_ifftT] at hs
  dsimp only
  rw [← hs]
  simp only [bind_apply, modify_apply, setNPTS, setTimeWindowPs, setTimeWindow, setCenterWavelengthNm,
    if_neg hwl, setCenterFrequency, hcc, h.npts]

/-- C19: a cloned pulse has the same size, window, centre frequency, repetition rate, `AW` and `AT`. -/
theorem C19_clone (h : Holds p a) (hcf : p.cf ≠ 0) :
    ∃ q, createClonedPulse p = .ok q ∧ q.n = p.n ∧ q.time_window_ps = p.time_window_ps ∧
      q.center_wavelength_nm = p.center_wavelength_nm ∧ q.center_frequency_THz = p.center_frequency_THz ∧
      q.frep_MHz = p.frep_MHz ∧ q.AW = p.AW ∧ q.AT = p.AT ∧ q.T_ps = p.T_ps ∧ q.W_THz = p.W_THz := by
  have hcl : clonePulse p (init none none) = (.ok (), { init none none with
      n := n, tw := p.tw, cf := p.cf, ready := true, frep := p.frep, aw := some ⟨n, a⟩ }) := by
    rw [← clone_core p.frep h hcf (init none none) rfl]
    unfold clonePulse
    have hw : center_wavelength_nm p = .ok (cNmps / p.cf) := by simp [center_wavelength_nm, hcf]
    simp only [bind_apply, modify_apply, lift_apply, hw, h.AT_eq]
  have hH : Holds { init none none with
      n := n, tw := p.tw, cf := p.cf, ready := true, frep := p.frep, aw := some ⟨n, a⟩ } a :=
    ⟨rfl, rfl, h.pos, rfl⟩
  have hcc : createClonedPulse p = .ok { init none none with
      n := n, tw := p.tw, cf := p.cf, ready := true, frep := p.frep, aw := some ⟨n, a⟩ } := by
    unfold createClonedPulse; rw [hcl]
  refine ⟨_, hcc, h.npts.symm, rfl, rfl, rfl, rfl, ?_, ?_, ?_, ?_⟩
  · rw [h.AW_eq, hH.AW_eq]
  · rw [h.AT_eq, hH.AT_eq]
  · rw [T_ps, T_ps, h.T_eq, hH.T_eq]
  · rw [W_THz, W_THz, h.W_eq, hH.W_eq]

/-- C19: `clone_pulse` into a pulse that already holds a field of another length (other than the
broadcastable source length 1) raises `ValueError`. -/
theorem C19_clone_wrong_length (h : Holds p a) (hcf : p.cf ≠ 0) (q : Pulse) {m : ℕ} {b : Fin m → ℂ}
    (hq : q.aw = some ⟨m, b⟩) (hmn : m ≠ n) (hn : n ≠ 1) :
    (clonePulse p q).1 = .error .ValueError ∧ (clonePulse p q).2.aw = q.aw := by
  have hc : cNmps ≠ 0 := by norm_num [cNmps, cMks]
  have hwl : cNmps / p.cf ≠ 0 := div_ne_zero hc hcf
  have hw : center_wavelength_nm p = .ok (cNmps / p.cf) := by simp [center_wavelength_nm, hcf]
  unfold clonePulse
  simp only [bind_apply, modify_apply, lift_apply, hw, h.AT_eq, setNPTS, setTimeWindowPs, setTimeWindow,
    setCenterWavelengthNm, if_neg hwl, setCenterFrequency, setAT, FFT_t_mk h.pos, setAW, hq]
  simp [Vec.assign, hmn.symm, hn]

theorem C19_nonvacuous : Holds samplePulse (n := 4) (fun i => ((i : ℕ) : ℂ) + 1 + I) ∧
    samplePulse.cf ≠ 0 := ⟨samplePulse_holds, by norm_num [samplePulse]⟩

/-- C20: writing a pulse to a dictionary and loading it into a new pulse reproduces it. -/
theorem C20_dict_round_trip (h : Holds p a) (hcf : p.cf ≠ 0) :
    ∃ (d : PulseDict) (q : Pulse), getPulseDict p = .ok d ∧
      loadPulseDict d (init none none) = (.ok (), q) ∧ q.n = p.n ∧
      q.time_window_ps = p.time_window_ps ∧
      q.center_wavelength_nm = p.center_wavelength_nm ∧ q.frep_MHz = p.frep_MHz ∧
      q.AW = p.AW ∧ q.AT = p.AT := by
  have hw : center_wavelength_nm p = .ok (cNmps / p.cf) := by simp [center_wavelength_nm, hcf]
  have hd : getPulseDict p = .ok ⟨p.n, p.tw, cNmps / p.cf, p.frep,
      ⟨n, fun i => (ifftT a i).re⟩, ⟨n, fun i => (ifftT a i).im⟩⟩ := by
    simp only [getPulseDict, hw, h.AT_eq, except_bind_ok, Vec.map_mk]
  have hz : (fun i => ((ifftT a i).re : ℂ) + I * ((ifftT a i).im : ℂ)) = ifftT a := by
    funext i; rw [mul_comm I]; exact re_add_im _
  have hl := clone_core p.frep h hcf (init none none) rfl
  dsimp only at hl
  have hH : Holds { init none none with
      n := n, tw := p.tw, cf := p.cf, ready := true, frep := p.frep, aw := some ⟨n, a⟩ } a :=
    ⟨rfl, rfl, h.pos, rfl⟩
  have hl2 : loadPulseDict ⟨p.n, p.tw, cNmps / p.cf, p.frep,
      ⟨n, fun i => (ifftT a i).re⟩, ⟨n, fun i => (ifftT a i).im⟩⟩ (init none none) = (.ok (), { init none none with
      n := n, tw := p.tw, cf := p.cf, ready := true, frep := p.frep, aw := some ⟨n, a⟩ }) := by
    rw [← hl]
    unfold loadPulseDict
    simp only [bind_apply, modify_apply, lift_apply, Vec.zip_mk, hz]
  refine ⟨_, _, hd, hl2, h.npts.symm, rfl, rfl, rfl, by rw [h.AW_eq, hH.AW_eq], by rw [h.AT_eq, hH.AT_eq]⟩

theorem C20_nonvacuous : Holds samplePulse (n := 4) (fun i => ((i : ℕ) : ℂ) + 1 + I) ∧
    samplePulse.cf ≠ 0 := C19_nonvacuous

/-! ## C21 -/

/-- C21: asking for at least as many points as the parent has raises `ValueError`, nothing changes. -/
theorem C21_too_many (strF : ℝ → String) (p : Pulse) (wl : ℝ) (M : ℕ) (hM : p.n ≤ M) :
    createSubsetPulse strF wl M p = (.error .ValueError, p) := by
  unfold createSubsetPulse
  rw [bind_apply, get_apply]
  dsimp only
  rw [if_pos hM, throw_apply]

theorem slice_len_mid (a : Fin n → ℂ) (c h : ℕ) (hc : c < n) :
    ((⟨n, a⟩ : Vec ℂ).slice ((c : ℤ) - h) ((c : ℤ) + h)).len =
      if h ≤ c then min (c + h) n - (c - h) else min (c + h) n - (n + c - h) := by
  simp only [Vec.slice, Vec.sliceBound]
  split_ifs <;> omega

theorem subset_eval {strF : ℝ → String} {p p1 : Pulse} (h : Holds p a)
    (hg : wl_nm strF p = (.ok ⟨n, fun k => 2 * Real.pi * cNmps /
      (2 * Real.pi * ((k : ℕ) - (n : ℝ) / 2) / p.tw + 2 * Real.pi * p.cf)⟩, p1))
    (hW : ∀ k : Fin n, 2 * Real.pi * ((k : ℕ) - (n : ℝ) / 2) / p.tw + 2 * Real.pi * p.cf ≠ 0)
    (wl : ℝ) (M : ℕ) (hM : M < n) :
    ∃ (c : Fin n),
      (∀ j : Fin n, |2 * Real.pi * cNmps / (2 * Real.pi * ((c : ℕ) - (n : ℝ) / 2) / p.tw + 2 * Real.pi * p.cf) - wl| ≤
        |2 * Real.pi * cNmps / (2 * Real.pi * ((j : ℕ) - (n : ℝ) / 2) / p.tw + 2 * Real.pi * p.cf) - wl|) ∧
      createSubsetPulse strF wl M p =
        (let q : Pulse := { init none none with
            frep := p.frep, tw := p.tw, n := M, ready := true,
            cf := (2 * Real.pi * ((c : ℕ) - (n : ℝ) / 2) / p.tw + 2 * Real.pi * p.cf) / (2 * Real.pi) }
         let r := setAW ((⟨n, a⟩ : Vec ℂ).slice ((c : ℕ) - (M / 2 : ℕ)) ((c : ℕ) + (M / 2 : ℕ))) q
         (r.1.map fun _ => r.2, p1)) := by
  obtain ⟨hg1, hp1⟩ := wl_nm_repeat h.ready hg
  have h1 : Holds p1 a := by rw [hp1]; exact ⟨h.ready, h.npts, h.pos, h.field⟩
  obtain ⟨c, hc⟩ := argmin_ok (fun i : Fin n => |2 * Real.pi * cNmps /
      (2 * Real.pi * ((i : ℕ) - (n : ℝ) / 2) / p.tw + 2 * Real.pi * p.cf) - wl|) h.pos
  refine ⟨c, (argmin_spec hc).1, ?_⟩
  have hcn : cNmps ≠ 0 := by norm_num [cNmps, cMks]
  have hx : 2 * Real.pi * cNmps / (2 * Real.pi * ((c : ℕ) - (n : ℝ) / 2) / p.tw + 2 * Real.pi * p.cf) ≠ 0 :=
    div_ne_zero (mul_ne_zero (by positivity) hcn) (hW c)
  have hcf : cNmps / (2 * Real.pi * cNmps /
      (2 * Real.pi * ((c : ℕ) - (n : ℝ) / 2) / p.tw + 2 * Real.pi * p.cf)) =
      (2 * Real.pi * ((c : ℕ) - (n : ℝ) / 2) / p.tw + 2 * Real.pi * p.cf) / (2 * Real.pi) := by
    have := hW c
    have := Real.pi_pos
    generalize (2 * Real.pi * ((c : ℕ) - (n : ℝ) / 2) / p.tw + 2 * Real.pi * p.cf) = w at *
    field_simp
  unfold createSubsetPulse
  rw [bind_apply, get_apply]
  dsimp only
  rw [if_neg (by rw [h.npts]; omega)]
  have hit := Vec.item_of_lt (⟨n, fun k => 2 * Real.pi * cNmps /
      (2 * Real.pi * ((k : ℕ) - (n : ℝ) / 2) / p.tw + 2 * Real.pi * p.cf)⟩ : Vec ℝ) (i := (c : ℕ)) c.isLt
  simp only [Fin.eta] at hit
  simp only [bind_apply, hg, PyM.lift_apply, hc, hg1, hit, setCenterWavelengthNm, if_neg hx, modify_apply,
    setCenterFrequency, hcf, setTimeWindowPs, setTimeWindow, setNPTS, read_apply, h1.AW_eq]
  rcases setAW _ _ with ⟨_ | _, r⟩ <;> rfl

/-- C21: for `M < NPTS` and a fresh wavelength grid, let `c` be the nearest bin.  The call succeeds exactly
when `M` is even and the window `[c - M/2, c + M/2)` lies inside the grid (otherwise `ValueError`); the new
pulse then has `M` points, the same bin width and window, and each of its bins has the absolute frequency
and amplitude of parent bin `c - M/2 + j`. -/
theorem C21_subset {strF : ℝ → String} {p p1 : Pulse} (h : Holds p a) {g w : Fin n → ℝ}
    (hw : p.W_THz = .ok ⟨n, w⟩) (hW : ∀ k, w k ≠ 0)
    (hg : wl_nm strF p = (.ok ⟨n, g⟩, p1)) (hfresh : ∀ k, g k = 2 * Real.pi * cNmps / w k)
    (wl : ℝ) (M : ℕ) (hM : M < n) :
    ∃ c : Fin n, (∀ j, |g c - wl| ≤ |g j - wl|) ∧
      (¬ (Even M ∧ M / 2 ≤ (c : ℕ) ∧ (c : ℕ) + M / 2 ≤ n) →
        createSubsetPulse strF wl M p = (.error .ValueError, p1)) ∧
      (Even M ∧ M / 2 ≤ (c : ℕ) ∧ (c : ℕ) + M / 2 ≤ n →
        ∃ (q : Pulse) (b : Fin M → ℂ) (w' : Fin M → ℝ),
          createSubsetPulse strF wl M p = (.ok q, p1) ∧ q.n = M ∧ q.time_window_ps = p.time_window_ps ∧
          q.frep_MHz = p.frep_MHz ∧ q.AW = .ok ⟨M, b⟩ ∧ q.W_THz = .ok ⟨M, w'⟩ ∧
          ∀ (j : Fin M) (k : Fin n), (k : ℕ) + M / 2 = c + j → b j = a k ∧ w' j = w k) := by
  have hw' : w = fun k : Fin n => 2 * Real.pi * ((k : ℕ) - (n : ℝ) / 2) / p.tw + 2 * Real.pi * p.cf := by
    rw [W_THz, h.W_eq] at hw; simpa using hw.symm
  subst hw'
  have hg' : g = fun k : Fin n => 2 * Real.pi * cNmps /
      (2 * Real.pi * ((k : ℕ) - (n : ℝ) / 2) / p.tw + 2 * Real.pi * p.cf) := funext hfresh
  subst hg'
  obtain ⟨c, hc, he⟩ := subset_eval h hg hW wl M hM
  have hl := slice_len_mid a c (M / 2) c.isLt
  refine ⟨c, hc, ?_, ?_⟩
  · intro hno
    rw [he]
    have hlen : ((⟨n, a⟩ : Vec ℂ).slice ((c : ℕ) - (M / 2 : ℕ)) ((c : ℕ) + (M / 2 : ℕ))).len ≠ M ∧
        ((⟨n, a⟩ : Vec ℂ).slice ((c : ℕ) - (M / 2 : ℕ)) ((c : ℕ) + (M / 2 : ℕ))).len ≠ 1 := by
      have hcl := c.isLt
      rw [hl]
      rw [Nat.even_iff] at hno
      split_ifs <;> omega
    simp only [setAW, Bool.true_eq_false, if_false, init, blank, Option.getD_none, Vec.assign, Vec.zeros,
      hlen.1, hlen.2, dite_false]
    rfl
  · rintro ⟨hev, h1, h2⟩
    have hlen : ((⟨n, a⟩ : Vec ℂ).slice ((c : ℕ) - (M / 2 : ℕ)) ((c : ℕ) + (M / 2 : ℕ))).len = M := by
      rw [hl]; rw [Nat.even_iff] at hev; split_ifs <;> omega
    have hsl : (⟨n, a⟩ : Vec ℂ).slice ((c : ℕ) - (M / 2 : ℕ)) ((c : ℕ) + (M / 2 : ℕ)) =
        ⟨M, fun j => a ⟨c - M / 2 + j, by
          have := j.isLt; rw [Nat.even_iff] at hev; omega⟩⟩ := by
      refine Vec.ext' hlen fun i hi1 hi2 => ?_
      simp only [Vec.slice, Vec.sliceBound]
      congr 1
      ext
      dsimp only
      rw [if_neg (by omega)]
      have : min (((c : ℕ) : ℤ) - ((M / 2 : ℕ) : ℤ)).toNat n = c - M / 2 := by
        have := c.isLt; omega
      rw [this]
    rw [he, hsl]
    dsimp only
    rw [setAW_of_ready rfl (by simp [init, blank, Vec.zeros])]
    refine ⟨_, _, _, rfl, rfl, rfl, rfl, rfl, rfl, ?_⟩
    intro j k hk
    refine ⟨?_, ?_⟩
    · congr 1
      ext
      dsimp only
      omega
    · dsimp only [w0]
      have hMj := j.isLt
      have hM0 : (M : ℝ) ≠ 0 := by
        have : M ≠ 0 := by omega
        exact_mod_cast this
      obtain ⟨r, hr⟩ := hev
      have hr2 : M / 2 = r := by omega
      rw [hr2] at hk
      have hkr : ((k : ℕ) : ℝ) + r = c + j := by exact_mod_cast hk
      have hMr : (M : ℝ) = r + r := by exact_mod_cast hr
      have hpi := Real.pi_pos
      rw [mul_div_cancel₀ _ hM0, mul_div_cancel₀ _ (by positivity : (2 * Real.pi) ≠ 0)]
      rw [show ((k : ℕ) : ℝ) = c + j - r by linarith, hMr]
      ring

/-- a four-point pulse with grid frequencies `2π(2,3,4,5)`, so no bin is at zero frequency -/
noncomputable def subsetSample : Pulse :=
  { Pulse.blank with n := 4, ready := true, cf := 4, aw := some ⟨4, fun i => ((i : ℕ) : ℂ) + 1⟩ }

/-- the hypotheses of C21 are met by a concrete pulse (and by both outcomes) -/
theorem C21_nonvacuous (strF : ℝ → String) : ∃ (g w : Fin 4 → ℝ) (p1 : Pulse),
    Holds subsetSample (n := 4) (fun i => ((i : ℕ) : ℂ) + 1) ∧
    subsetSample.W_THz = .ok ⟨4, w⟩ ∧ (∀ k, w k ≠ 0) ∧
    wl_nm strF subsetSample = (.ok ⟨4, g⟩, p1) ∧ (∀ k, g k = 2 * Real.pi * cNmps / w k) := by
  have h : Holds subsetSample (n := 4) (fun i => ((i : ℕ) : ℂ) + 1) := ⟨rfl, rfl, by norm_num, rfl⟩
  have hm := wl_nm_miss (strF := strF) (p := subsetSample) rfl (by simp [subsetSample, Pulse.blank])
  have hW := W_eq_wGrid (p := subsetSample) rfl
  refine ⟨_, _, _, h, hW, ?_, hm, fun k => rfl⟩
  intro k
  have hpi := Real.pi_pos
  have hk : (0 : ℝ) ≤ ((k : ℕ) : ℝ) := by positivity
  have : 2 * Real.pi * (-((subsetSample.n : ℕ) : ℝ) / 2 + (k : ℕ)) / (subsetSample.n * (subsetSample.tw / subsetSample.n))
      + 2 * Real.pi * subsetSample.cf = 2 * Real.pi * ((k : ℕ) + 2) := by
    simp only [subsetSample, Pulse.blank]; norm_num; ring
  dsimp only [wGrid]
  rw [this]
  positivity

/-! ## C22 -/

/-- C22: the spectral centroid is the `|AW|²`-weighted mean of the grid frequencies; it lies between any
bounds on the grid frequencies and does not change when the field is multiplied by a non-zero number. -/
theorem C22_centroid {strF : ℝ → String} {p p1 : Pulse} (h : Holds p a) (ha : ∃ k, a k ≠ 0)
    {w : Fin n → ℝ} (hw : W_mks strF p = (.ok ⟨n, w⟩, p1)) :
    ∃ r, weightedAvgFrequencyMks strF p = (.ok r, p1) ∧
      r * Spec.energy a = ∑ k, ‖a k‖ ^ 2 * (w k / (2 * Real.pi)) ∧
      (∀ lo hi, (∀ k, lo ≤ w k / (2 * Real.pi) ∧ w k / (2 * Real.pi) ≤ hi) → lo ≤ r ∧ r ≤ hi) ∧
      (∀ s : ℂ, s ≠ 0 → (weightedAvgFrequencyMks strF { p with aw := some ⟨n, fun k => s * a k⟩ }).1 = .ok r) := by
  have hpi := Real.pi_pos
  have hpos : 0 < ∑ k, ‖a k‖ ^ 2 := by
    obtain ⟨k, hk⟩ := ha
    refine Finset.sum_pos' (fun _ _ => by positivity) ⟨k, Finset.mem_univ _, ?_⟩
    have := norm_pos_iff.mpr hk
    positivity
  have hmain : (∑ i, ‖a i‖ ^ 2 * w i) / ((∑ i, ‖a i‖ ^ 2) * 2 * Real.pi) * ∑ k, ‖a k‖ ^ 2 =
      ∑ k, ‖a k‖ ^ 2 * (w k / (2 * Real.pi)) := by
    have : ∑ k, ‖a k‖ ^ 2 * (w k / (2 * Real.pi)) = (∑ i, ‖a i‖ ^ 2 * w i) / (2 * Real.pi) := by
      rw [div_eq_mul_inv, Finset.sum_mul]
      refine Finset.sum_congr rfl fun i _ => ?_
      rw [mul_assoc, div_eq_mul_inv]
    rw [this]
    field_simp
  refine ⟨_, ?_, hmain, ?_, ?_⟩
  · unfold weightedAvgFrequencyMks
    simp only [bind_apply, read_apply, h.AW_eq, hw, lift_apply, Vec.zip_mk, pure_apply]
  · intro lo hi hb
    constructor
    · refine le_of_mul_le_mul_right ?_ hpos
      rw [hmain, Finset.mul_sum]
      refine Finset.sum_le_sum fun k _ => ?_
      nlinarith [(hb k).1, sq_nonneg ‖a k‖]
    · refine le_of_mul_le_mul_right ?_ hpos
      rw [hmain, Finset.mul_sum]
      refine Finset.sum_le_sum fun k _ => ?_
      nlinarith [(hb k).2, sq_nonneg ‖a k‖]
  · intro s hs
    have hw' := W_mks_field h.ready hw (some ⟨n, fun k => s * a k⟩)
    have h' := h.update fun k => s * a k
    unfold weightedAvgFrequencyMks
    simp only [bind_apply, read_apply, h'.AW_eq, hw', lift_apply, Vec.zip_mk, pure_apply]
    congr 1
    have hs' : ‖s‖ ^ 2 ≠ 0 := by have := norm_ne_zero_iff.mpr hs; positivity
    have e1 : ∑ i, ‖s * a i‖ ^ 2 * w i = ‖s‖ ^ 2 * ∑ i, ‖a i‖ ^ 2 * w i := by
      rw [Finset.mul_sum]; refine Finset.sum_congr rfl fun i _ => ?_
      rw [norm_mul]; ring
    have e2 : ∑ i, ‖s * a i‖ ^ 2 = ‖s‖ ^ 2 * ∑ i, ‖a i‖ ^ 2 := by
      rw [Finset.mul_sum]; refine Finset.sum_congr rfl fun i _ => ?_
      rw [norm_mul]; ring
    rw [e1, e2, mul_assoc, mul_assoc, mul_div_mul_left _ _ hs', mul_assoc]

theorem C22_nonvacuous (strF : ℝ → String) : ∃ (w : Fin 4 → ℝ) (p1 : Pulse),
    Holds subsetSample (n := 4) (fun i => ((i : ℕ) : ℂ) + 1) ∧
    (∃ k : Fin 4, ((k : ℕ) : ℂ) + 1 ≠ 0) ∧ W_mks strF subsetSample = (.ok ⟨4, w⟩, p1) :=
  ⟨_, _, ⟨rfl, rfl, by norm_num, rfl⟩, ⟨0, by simp⟩,
    W_mks_miss rfl (by simp [subsetSample, Pulse.blank])⟩

/-! ## C23 -/

theorem correlateSame_eq (x v : Fin n → ℝ) (k : Fin n) :
    correlateSame x v k = ∑ t, v t * Spec.ext0 x ((t : ℕ) + ((k : ℕ) - (n / 2 : ℕ) : ℤ)) := by
  unfold correlateSame Spec.ext0
  refine Finset.sum_congr rfl fun m _ => ?_
  rw [show ((m : ℕ) : ℤ) + (((k : ℕ) : ℤ) - ((n / 2 : ℕ) : ℤ)) = (m : ℕ) + (k : ℕ) - (n / 2 : ℕ) by ring]
  by_cases h : 0 ≤ ((m : ℕ) + (k : ℕ) - (n / 2 : ℕ) : ℤ) ∧ ((m : ℕ) + (k : ℕ) - (n / 2 : ℕ) : ℤ) < n
  · rw [dif_pos h, dif_pos h, mul_comm]
  · rw [dif_neg h, dif_neg h, mul_zero]

theorem autocorr_eval (h : Holds p a) : intensityAutocorrelation p =
    .ok ⟨n, fun k => ∑ t, ‖ifftT a t‖ *
      Spec.ext0 (fun i => ‖ifftT a i‖ ^ 2) ((t : ℕ) + ((k : ℕ) - (n / 2 : ℕ) : ℤ))⟩ := by
  simp only [intensityAutocorrelation, h.AT_eq, except_bind_ok]
  congr 2
  funext k
  exact correlateSame_eq _ _ _

/-- C23, the part that holds: the result is the documented correlation when every sample of `|AT|` is 0
or 1. -/
theorem C23_autocorrelation_partial (h : Holds p a) {x : Fin n → ℂ} (hx : p.AT = .ok ⟨n, x⟩)
    (h01 : ∀ i, ‖x i‖ = 0 ∨ ‖x i‖ = 1) :
    intensityAutocorrelation p =
      .ok ⟨n, fun k => Spec.autocorr (fun i => ‖x i‖ ^ 2) ((k : ℕ) - (n / 2 : ℕ))⟩ := by
  have : x = ifftT a := by rw [h.AT_eq] at hx; simpa using hx.symm
  subst this
  rw [autocorr_eval h]
  congr 2
  funext k
  unfold Spec.autocorr
  refine Finset.sum_congr rfl fun t _ => ?_
  congr 1
  rcases h01 t with h0 | h0 <;> simp only [h0] <;> norm_num

theorem ext0_smul (c : ℝ) (x : Fin n → ℝ) (j : ℤ) :
    Spec.ext0 (fun i => c * x i) j = c * Spec.ext0 x j := by
  unfold Spec.ext0; split_ifs <;> simp

/-- C23, actual scaling: multiplying the field by `s` multiplies the returned trace by `|s|³`. -/
theorem C23_scaling (h : Holds p a) (s : ℂ) :
    ∃ r : Fin n → ℝ, intensityAutocorrelation p = .ok ⟨n, r⟩ ∧
      intensityAutocorrelation { p with aw := some ⟨n, fun k => s * a k⟩ } =
        .ok ⟨n, fun k => ‖s‖ ^ 3 * r k⟩ := by
  refine ⟨_, autocorr_eval h, ?_⟩
  rw [autocorr_eval (h.update _)]
  congr 2
  funext k
  rw [Finset.mul_sum]
  refine Finset.sum_congr rfl fun t _ => ?_
  rw [ifftT_smul]
  have : (fun i => ‖s * ifftT a i‖ ^ 2) = fun i => ‖s‖ ^ 2 * ‖ifftT a i‖ ^ 2 := by
    funext i; rw [norm_mul, mul_pow]
  rw [this, ext0_smul, norm_mul]
  ring

/-- C23 refuted for every non-zero pulse: doubling the field does not multiply the trace by `2⁴`. -/
theorem C23_scaling_refuted (h : Holds p a) (ha : ∃ k, ifftT a k ≠ 0) :
    ∃ r r' : Fin n → ℝ, intensityAutocorrelation p = .ok ⟨n, r⟩ ∧
      intensityAutocorrelation { p with aw := some ⟨n, fun k => 2 * a k⟩ } = .ok ⟨n, r'⟩ ∧
      ¬ ∀ k, r' k = 2 ^ 4 * r k := by
  obtain ⟨r, hr, hr'⟩ := C23_scaling h 2
  refine ⟨r, _, hr, hr', fun hall => ?_⟩
  have hn := h.pos
  have hk := hall ⟨n / 2, by omega⟩
  have hre := autocorr_eval h
  rw [hr] at hre
  have hre' : r = fun k : Fin n => ∑ t, ‖ifftT a t‖ *
      Spec.ext0 (fun i => ‖ifftT a i‖ ^ 2) ((t : ℕ) + ((k : ℕ) - (n / 2 : ℕ) : ℤ)) := by
    simpa using hre
  have hpos : 0 < r ⟨n / 2, by omega⟩ := by
    rw [hre']
    obtain ⟨k, hk⟩ := ha
    have hterm : ∀ t : Fin n, Spec.ext0 (fun i => ‖ifftT a i‖ ^ 2)
        ((t : ℕ) + (((n / 2 : ℕ) : ℤ) - ((n / 2 : ℕ) : ℤ))) = ‖ifftT a t‖ ^ 2 := by
      intro t
      have ht := t.isLt
      rw [sub_self, add_zero]
      unfold Spec.ext0
      rw [dif_pos (by omega)]
      simp
    refine Finset.sum_pos' (fun t _ => ?_) ⟨k, Finset.mem_univ _, ?_⟩
    · simp only [hterm]; positivity
    · simp only [hterm]
      have := norm_pos_iff.mpr hk
      positivity
  have h2 : ‖(2 : ℂ)‖ = 2 := by norm_num
  rw [h2] at hk
  linarith

/-- C23 refuted, symmetry: for `AT = (1, 2, 0, 0)` the values at delays -1 and +1 are 2 and 4. -/
theorem C23_symmetry_refuted : ∃ (p : Pulse) (x : Fin 4 → ℂ) (r : Fin 4 → ℝ),
    p.AT = .ok ⟨4, x⟩ ∧ x = ![1, 2, 0, 0] ∧ intensityAutocorrelation p = .ok ⟨4, r⟩ ∧ r 1 ≠ r 3 := by
  set x : Fin 4 → ℂ := ![1, 2, 0, 0] with hx
  set p : Pulse := { Pulse.blank with n := 4, ready := true, aw := some ⟨4, fftT x⟩ } with hp
  have h : Holds p (fftT x) := ⟨rfl, rfl, by norm_num, rfl⟩
  refine ⟨p, x, _, by rw [h.AT_eq, ifftT_fftT], rfl, autocorr_eval h, ?_⟩
  rw [ifftT_fftT]
  simp [Fin.sum_univ_four, hx, Spec.ext0]
  norm_num

end PyNLO
