import Verif.Lemmas.Pulse
import Verif.Lemmas.PyM
import Verif.Model.PulseOps

/-! # Cache coherence lemmas for the pulse model -/

namespace PyNLO.Pulse

open PyM

/-- Apply the `Pres` rules until only side goals remain. -/
macro "pres" : tactic => `(tactic| repeat' (first
  | assumption
  | with_reducible exact Pres.pure _ | with_reducible exact Pres.throw _
  | with_reducible exact Pres.lift _ | with_reducible exact Pres.read _
  | with_reducible exact Pres.get
  | with_reducible refine Pres.bind ?_ fun _ => ?_
  | with_reducible refine Pres.ite ?_ ?_
  | with_reducible refine Pres.dite (fun _ => ?_) (fun _ => ?_)))

/-- The absolute angular frequency grid as a function of the three parameters. -/
noncomputable def wGrid (x : ℝ × ℕ) (tw : ℝ) : Vec ℝ :=
  ⟨x.2, fun i => 2 * Real.pi * (-(x.2 : ℝ) / 2 + (i : ℕ)) / (x.2 * (tw / x.2)) + 2 * Real.pi * x.1⟩

theorem W_eq_wGrid {p : Pulse} (h : p.ready = true) : p.W = .ok (wGrid (p.cf, p.n) p.tw) := by
  simp only [W, V, h, Bool.true_eq_false, if_false, Bind.bind, Except.bind]
  rfl

theorem wl_nm_hit {strF : ℝ → String} {p : Pulse} {v : Vec ℝ}
    (h : p.wlKey = some (cacheHash strF p)) (hv : p.wlVal = some v) :
    wl_nm strF p = (.ok v, p) := by
  unfold wl_nm
  rw [bind_apply, get_apply]
  dsimp only
  rw [if_pos h, hv]
  rfl

theorem wl_nm_miss {strF : ℝ → String} {p : Pulse} (hr : p.ready = true)
    (h : p.wlKey ≠ some (cacheHash strF p)) :
    wl_nm strF p = (.ok ((wGrid (p.cf, p.n) p.tw).map fun w => 2 * Real.pi * cNmps / w),
      { p with
        wlKey := some (cacheHash strF p)
        wlVal := some ((wGrid (p.cf, p.n) p.tw).map fun w => 2 * Real.pi * cNmps / w) }) := by
  have hW : W_THz { p with wlKey := some (cacheHash strF p) } = .ok (wGrid (p.cf, p.n) p.tw) :=
    W_eq_wGrid (p := { p with wlKey := some (cacheHash strF p) }) hr
  unfold wl_nm
  rw [bind_apply, get_apply]
  dsimp only
  rw [if_neg h]
  simp only [bind_apply, modify_apply, read_apply, hW, pure_apply]

theorem W_mks_hit {strF : ℝ → String} {p : Pulse} {v : Vec ℝ}
    (h : p.wKey = some (cacheHash strF p)) (hv : p.wVal = some v) :
    W_mks strF p = (.ok v, p) := by
  unfold W_mks
  rw [bind_apply, get_apply]
  dsimp only
  rw [if_pos h, hv]
  rfl

theorem W_mks_miss {strF : ℝ → String} {p : Pulse} (hr : p.ready = true)
    (h : p.wKey ≠ some (cacheHash strF p)) :
    W_mks strF p = (.ok ((wGrid (p.cf, p.n) p.tw).map (· * 10 ^ 12)),
      { p with
        wKey := some (cacheHash strF p)
        wVal := some ((wGrid (p.cf, p.n) p.tw).map (· * 10 ^ 12)) }) := by
  have hW : W { p with wKey := some (cacheHash strF p) } = .ok (wGrid (p.cf, p.n) p.tw) :=
    W_eq_wGrid (p := { p with wKey := some (cacheHash strF p) }) hr
  unfold W_mks
  rw [bind_apply, get_apply]
  dsimp only
  rw [if_neg h]
  simp only [bind_apply, modify_apply, read_apply, hW, pure_apply]

section
variable (strF : ℝ → String) (S : Set (ℝ × ℕ)) (T0 : ℝ)

/-- cache key of a configuration -/
def key (x : ℝ × ℕ) : String := strF x.1 ++ toString x.2

/-- Both caches hold the grid of some configuration in `S` with window `T0`. -/
def CachesOk (p : Pulse) : Prop :=
  (∀ k, p.wlKey = some k → ∃ x ∈ S, k = key strF x ∧
    p.wlVal = some ((wGrid x T0).map fun w => 2 * Real.pi * cNmps / w)) ∧
  (∀ k, p.wKey = some k → ∃ x ∈ S, k = key strF x ∧
    p.wVal = some ((wGrid x T0).map (· * 10 ^ 12)))

/-- The pulse is configured, with the window `T0` and centre/NPTS in `S`. -/
def Cfg (p : Pulse) : Prop := p.ready = true ∧ p.tw = T0 ∧ (p.cf, p.n) ∈ S

/-- coherent and configured -/
def Coh (p : Pulse) : Prop := Cfg S T0 p ∧ CachesOk strF S T0 p

variable {strF S T0}

theorem wl_nm_coh (hinj : Set.InjOn (key strF) S) {p : Pulse} (h : Coh strF S T0 p) :
    (wl_nm strF p).1 = .ok ((wGrid (p.cf, p.n) p.tw).map fun w => 2 * Real.pi * cNmps / w) ∧
    Coh strF S T0 (wl_nm strF p).2 := by
  obtain ⟨⟨hr, htw, hS⟩, h1, h2⟩ := h
  unfold wl_nm
  rw [bind_apply, get_apply]
  dsimp only
  split
  · next hk =>
    obtain ⟨x, hx, hkx, hv⟩ := h1 _ hk
    have hxe : x = (p.cf, p.n) := hinj hx hS hkx.symm
    rw [hv]
    dsimp only
    rw [pure_apply, hxe, htw]
    exact ⟨rfl, ⟨hr, htw, hS⟩, h1, h2⟩
  · next hk =>
    have hW : W_THz { p with wlKey := some (cacheHash strF p) } = .ok (wGrid (p.cf, p.n) p.tw) :=
      W_eq_wGrid (p := { p with wlKey := some (cacheHash strF p) }) hr
    simp only [bind_apply, modify_apply, read_apply, hW, pure_apply, true_and]
    refine ⟨⟨hr, htw, hS⟩, ?_, h2⟩
    intro k hk'
    refine ⟨(p.cf, p.n), hS, ?_, ?_⟩
    · simpa [cacheHash, key] using hk'.symm
    · dsimp only; rw [htw]

theorem W_mks_coh (hinj : Set.InjOn (key strF) S) {p : Pulse} (h : Coh strF S T0 p) :
    (W_mks strF p).1 = .ok ((wGrid (p.cf, p.n) p.tw).map (· * 10 ^ 12)) ∧
    Coh strF S T0 (W_mks strF p).2 := by
  obtain ⟨⟨hr, htw, hS⟩, h1, h2⟩ := h
  unfold W_mks
  rw [bind_apply, get_apply]
  dsimp only
  split
  · next hk =>
    obtain ⟨x, hx, hkx, hv⟩ := h2 _ hk
    have hxe : x = (p.cf, p.n) := hinj hx hS hkx.symm
    rw [hv]
    dsimp only
    rw [pure_apply, hxe, htw]
    exact ⟨rfl, ⟨hr, htw, hS⟩, h1, h2⟩
  · next hk =>
    have hW : W { p with wKey := some (cacheHash strF p) } = .ok (wGrid (p.cf, p.n) p.tw) :=
      W_eq_wGrid (p := { p with wKey := some (cacheHash strF p) }) hr
    simp only [bind_apply, modify_apply, read_apply, hW, pure_apply, true_and]
    refine ⟨⟨hr, htw, hS⟩, h1, ?_⟩
    intro k hk'
    refine ⟨(p.cf, p.n), hS, ?_, ?_⟩
    · simpa [cacheHash, key] using hk'.symm
    · dsimp only; rw [htw]

theorem setAW_state (a : Vec ℂ) (p : Pulse) : ∃ b, (setAW a p).2 = { p with aw := b } := by
  unfold setAW
  split
  · exact ⟨p.aw, rfl⟩
  · dsimp only
    split
    · exact ⟨_, rfl⟩
    · exact ⟨_, rfl⟩

theorem pres_setAW {I : Pulse → Prop} (hI : ∀ p b, I p → I { p with aw := b }) (a : Vec ℂ) :
    Pres I (setAW a) := by
  intro p hp
  obtain ⟨b, hb⟩ := setAW_state a p
  rw [hb]
  exact hI p b hp

theorem pres_setAT {I : Pulse → Prop} (hI : ∀ p b, I p → I { p with aw := b }) (a : Vec ℂ) :
    Pres I (setAT a) := by
  have := pres_setAW hI
  unfold setAT
  pres
  exact this _

/-- Every call keeps the caches coherent. -/
theorem run_cachesOk (hinj : Set.InjOn (key strF) S) (op : PulseOp) {p : Pulse}
    (h : Coh strF S T0 p) : CachesOk strF S T0 (op.run strF p) := by
  have hC : ∀ (p : Pulse) b, CachesOk strF S T0 p → CachesOk strF S T0 { p with aw := b } :=
    fun p b h => h
  have hJ : ∀ (p : Pulse) b, Coh strF S T0 p → Coh strF S T0 { p with aw := b } := fun p b h => h
  have cAW := fun a => pres_setAW hC a
  have cAT := fun a => pres_setAT hC a
  have jAW := fun a => pres_setAW hJ a
  have jAT := fun a => pres_setAT hJ a
  have jwl : Pres (Coh strF S T0) (wl_nm strF) := fun s hs => (wl_nm_coh hinj hs).2
  have jw : Pres (Coh strF S T0) (W_mks strF) := fun s hs => (W_mks_coh hinj hs).2
  have jF : Pres (Coh strF S T0) (F_mks strF) := by unfold F_mks; pres
  have jdF : Pres (Coh strF S T0) (dF_mks strF) := by unfold dF_mks; pres
  have cwl : ∀ wl, Pres (CachesOk strF S T0) (Pulse.setCenterWavelengthNm wl) := by
    intro wl; unfold Pulse.setCenterWavelengthNm; pres; exact Pres.modify fun s hs => hs
  cases op with
  | setNPTS n => exact h.2
  | setTimeWindowPs T => exact h.2
  | setTimeWindowS T => exact h.2
  | setFrequencyWindowTHz DF =>
    have : Pres (CachesOk strF S T0) (Pulse.setFrequencyWindowTHz DF) := by
      unfold Pulse.setFrequencyWindowTHz; pres; exact Pres.modify fun s hs => hs
    exact this p h.2
  | setFrequencyWindowMks DF =>
    have : Pres (CachesOk strF S T0) (Pulse.setFrequencyWindowMks DF) := by
      unfold Pulse.setFrequencyWindowMks; pres; exact Pres.modify fun s hs => hs
    exact this p h.2
  | setCenterWavelengthNm wl => exact cwl wl p h.2
  | setCenterWavelengthM wl =>
    have : Pres (CachesOk strF S T0) (Pulse.setCenterWavelengthM wl) := by
      unfold Pulse.setCenterWavelengthM; pres; exact Pres.modify fun s hs => hs
    exact this p h.2
  | setFrepMHz f => exact h.2
  | setAW a => exact cAW a p h.2
  | setAT a => exact cAT a p h.2
  | readWlNm => exact (jwl p h).2
  | readWlMks =>
    have : Pres (Coh strF S T0) (wl_mks strF) := by unfold wl_mks; pres
    exact (this p h).2
  | readWMks => exact (jw p h).2
  | readFMks => exact (jF p h).2
  | readDFMks => exact (jdF p h).2
  | setEpp E =>
    have : Pres (CachesOk strF S T0) (Pulse.setEpp E) := by unfold Pulse.setEpp; pres; exact cAT _
    exact this p h.2
  | addNoise hP r ph k =>
    have : Pres (Coh strF S T0) (Pulse.addNoise strF hP r ph k) := by
      unfold Pulse.addNoise; pres; all_goals exact jAW _
    exact (this p h).2
  | chirpPulseW a b c w =>
    have : Pres (CachesOk strF S T0) (Pulse.chirpPulseW a b c w) := by
      unfold Pulse.chirpPulseW; cases w <;> pres <;> exact cAW _
    exact this p h.2
  | applyPhaseW ph =>
    have : Pres (CachesOk strF S T0) (Pulse.applyPhaseW ph) := by
      unfold Pulse.applyPhaseW; pres; exact cAW _
    exact this p h.2
  | chirpPulseT a b c =>
    have : Pres (CachesOk strF S T0) (Pulse.chirpPulseT a b c) := by
      unfold Pulse.chirpPulseT; pres; exact cAT _
    exact this p h.2
  | removePolyPhase u f d t =>
    have : Pres (CachesOk strF S T0) (Pulse.removePolyPhase u f d t) := by
      unfold Pulse.removePolyPhase; pres; exact cAW _
    exact this p h.2
  | addTimeOffset t =>
    have : Pres (CachesOk strF S T0) (Pulse.addTimeOffset t) := by
      unfold Pulse.addTimeOffset; pres; exact cAW _
    exact this p h.2
  | expandTimeWindow f l =>
    have : Pres (CachesOk strF S T0) (Pulse.expandTimeWindow f l) := by
      unfold Pulse.expandTimeWindow
      pres
      all_goals first | exact cAT _ | exact Pres.modify fun s hs => hs
    exact this p h.2
  | rotateSpectrum wl =>
    have : Pres (CachesOk strF S T0) (Pulse.rotateSpectrum wl) := by
      unfold Pulse.rotateSpectrum; pres; exact cAW _
    exact this p h.2
  | filterByWavelengthNm lo hi =>
    have : Pres (Coh strF S T0) (Pulse.filterByWavelengthNm strF lo hi) := by
      unfold Pulse.filterByWavelengthNm; pres; exact jAW _
    exact (this p h).2
  | clonePulse q =>
    have : Pres (CachesOk strF S T0) (Pulse.clonePulse q) := by
      unfold Pulse.clonePulse
      pres
      all_goals first | exact cAT _ | exact cwl _ | exact Pres.modify fun s hs => hs
    exact this p h.2
  | loadPulseDict d =>
    have : Pres (CachesOk strF S T0) (Pulse.loadPulseDict d) := by
      unfold Pulse.loadPulseDict
      pres
      all_goals first | exact cAT _ | exact cwl _ | exact Pres.modify fun s hs => hs
    exact this p h.2
  | createSubsetPulse wl M =>
    have : Pres (Coh strF S T0) (Pulse.createSubsetPulse strF wl M) := by
      unfold Pulse.createSubsetPulse
      pres
    exact (this p h).2
  | weightedAvgFrequencyMks =>
    have : Pres (Coh strF S T0) (Pulse.weightedAvgFrequencyMks strF) := by
      unfold Pulse.weightedAvgFrequencyMks; pres
    exact (this p h).2

end

end PyNLO.Pulse
