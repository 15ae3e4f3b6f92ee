import Verif.Lemmas.PulseCache
import Verif.Model.PulseHeap
import Verif.Props.Grids

/-!
# Properties C07–C09: cached grids, failed assignments, aliasing
-/

namespace PyNLO

open Complex Pulse PyM

/-! ## C07 -/

/-- The cached accessors agree with the uncached `W_THz` of the same moment. -/
def GridsFresh (strF : ℝ → String) (p : Pulse) : Prop :=
  ∃ w : Vec ℝ, p.W_THz = .ok w ∧
    (wl_nm strF p).1 = .ok (w.map fun x => 2 * Real.pi * cNmps / x) ∧
    (W_mks strF p).1 = .ok (w.map (· * 10 ^ 12)) ∧
    (F_mks strF p).1 = .ok (w.map (· * 10 ^ 12 / (2 * Real.pi))) ∧
    (wl_mks strF p).1 = .ok (w.map fun x => 2 * Real.pi * cMks / (x * 10 ^ 12))

/-- C07, what does hold: for every history of calls (of any length, with any arguments, successful or
not) along which the pulse is configured, the time window keeps one value and the cache keys of the
visited (centre frequency, NPTS) pairs are distinct, every cached grid is fresh. -/
theorem C07_grids_fresh_partial (strF : ℝ → String) (S : Set (ℝ × ℕ)) (T0 : ℝ)
    (hinj : Set.InjOn (fun x : ℝ × ℕ => strF x.1 ++ toString x.2) S)
    (p0 : Pulse) (hw : p0.wlKey = none) (hW : p0.wKey = none) (ops : List PulseOp)
    (hist : ∀ k ≤ ops.length, (runAll strF (ops.take k) p0).ready = true ∧
      (runAll strF (ops.take k) p0).tw = T0 ∧
      ((runAll strF (ops.take k) p0).cf, (runAll strF (ops.take k) p0).n) ∈ S) :
    GridsFresh strF (runAll strF ops p0) := by
  have hinj' : Set.InjOn (Pulse.key strF) S := hinj
  have key : ∀ k ≤ ops.length, Coh strF S T0 (runAll strF (ops.take k) p0) := by
    intro k
    induction k with
    | zero =>
      intro _
      refine ⟨hist 0 (Nat.zero_le _), ?_⟩
      constructor <;> intro k hk <;> simp [runAll, hw, hW] at hk
    | succ k ih =>
      intro hk
      refine ⟨hist (k + 1) hk, ?_⟩
      have h1 := ih (by omega)
      have : runAll strF (ops.take (k + 1)) p0 =
          (ops[k]'(by omega)).run strF (runAll strF (ops.take k) p0) := by
        unfold runAll
        rw [List.take_succ_eq_append_getElem (by omega), List.foldl_append]
        rfl
      rw [this]
      exact run_cachesOk hinj' _ h1
  have hfin := key ops.length le_rfl
  rw [List.take_length] at hfin
  set p := runAll strF ops p0
  have hwl := wl_nm_coh hinj' hfin
  have hwm := W_mks_coh hinj' hfin
  refine ⟨_, W_eq_wGrid hfin.1.1, hwl.1, hwm.1, ?_, ?_⟩
  · simp only [F_mks, bind_apply]
    rcases h : W_mks strF p with ⟨r, s⟩
    rw [h] at hwm
    have : r = _ := hwm.1
    subst this
    rfl
  · simp only [wl_mks, bind_apply]
    rcases h : W_mks strF p with ⟨r, s⟩
    rw [h] at hwm
    have : r = _ := hwm.1
    subst this
    rfl

/-- C05 for the accessors that go through a cache, on a pulse that has not filled it yet: the SI wavelength, frequency and bin width are those in nm, THz times the unit. -/
theorem C05_cached (strF : ℝ → String) {p : Pulse} (hr : p.ready = true) (hn : 2 ≤ p.n) (hw : p.wlKey = none) (hW : p.wKey = none) :
    ∃ (wl wl' w w' f f' : Fin p.n → ℝ) (dF dF' : ℝ),
      (wl_nm strF p).1 = .ok ⟨p.n, wl⟩ ∧ (wl_mks strF p).1 = .ok ⟨p.n, wl'⟩ ∧ (∀ i, wl' i * 10 ^ 9 = wl i) ∧
      p.W_THz = .ok ⟨p.n, w⟩ ∧ (W_mks strF p).1 = .ok ⟨p.n, w'⟩ ∧ (∀ i, w' i = w i * 10 ^ 12) ∧
      p.F_THz = .ok ⟨p.n, f⟩ ∧ (F_mks strF p).1 = .ok ⟨p.n, f'⟩ ∧ (∀ i, f' i = f i * 10 ^ 12) ∧
      p.dF_THz = .ok dF ∧ (dF_mks strF p).1 = .ok dF' ∧ dF' = dF * 10 ^ 12 := by
  have h1 := wl_nm_miss (strF := strF) hr (by rw [hw]; simp)
  have h2 := W_mks_miss (strF := strF) hr (by rw [hW]; simp)
  have hT : p.W_THz = _ := W_eq_wGrid hr
  have hT' : p.W = _ := W_eq_wGrid hr
  set g : Fin p.n → ℝ := (wGrid (p.cf, p.n) p.tw).val with hg
  have h0 : 0 < p.n := by omega
  refine ⟨fun i => 2 * Real.pi * cNmps / g i, fun i => 2 * Real.pi * cMks / (g i * 10 ^ 12), g, fun i => g i * 10 ^ 12, fun i => g i / (2 * Real.pi),
    fun i => g i * 10 ^ 12 / (2 * Real.pi), |g ⟨1, hn⟩ - g ⟨0, h0⟩| / (2 * Real.pi), |g ⟨1, hn⟩ * 10 ^ 12 - g ⟨0, h0⟩ * 10 ^ 12| / (2 * Real.pi),
    by rw [h1]; rfl, ?_, ?_, hT, by rw [h2]; rfl, fun i => rfl, ?_, ?_, ?_, ?_, ?_, ?_⟩
  · simp only [wl_mks, bind_apply, h2]
    rfl
  · intro i
    unfold cNmps
    beta_reduce
    rcases eq_or_ne (g i) 0 with h | h
    · rw [h]; simp
    · field_simp
  · simp only [F_THz, hT', hT, Bind.bind, Except.bind]
    rfl
  · simp only [F_mks, bind_apply, h2]
    rfl
  · intro i
    show g i * 10 ^ 12 / (2 * Real.pi) = g i / (2 * Real.pi) * 10 ^ 12
    ring
  · simp only [dF_THz, hT, Bind.bind, Except.bind]
    rw [Vec.item_of_lt _ (show 1 < p.n by omega)]
    dsimp only
    rw [Vec.item_of_lt _ (show 0 < p.n by omega)]
    rfl
  · simp only [dF_mks, bind_apply, h2]
    rw [Vec.item_of_lt _ (show 1 < p.n by omega)]
    simp only [PyM.lift_apply]
    rw [W_mks_hit rfl rfl]
    dsimp only
    rw [Vec.item_of_lt _ (show 0 < p.n by omega)]
    rfl
  · rw [← sub_mul, abs_mul, abs_of_pos (by norm_num : (0:ℝ) < 10 ^ 12)]
    ring

/-- C07 refuted: after a read of `wl_nm` and `W_mks`, changing the time window does not change what they
return, for *every* configured pulse with empty caches and every new window. -/
theorem C07_stale_after_window_change (strF : ℝ → String) (p : Pulse) (hr : p.ready = true)
    (hw : p.wlKey = none) (hW : p.wKey = none) (T' : ℝ) :
    let p1 := runAll strF [.readWlNm, .readWMks] p
    let p2 := runAll strF [.readWlNm, .readWMks, .setTimeWindowPs T'] p
    (wl_nm strF p2).1 = (wl_nm strF p1).1 ∧ (W_mks strF p2).1 = (W_mks strF p1).1 ∧
    p2.time_window_ps = T' := by
  have h1 := wl_nm_miss (strF := strF) hr (by rw [hw]; simp)
  set pa : Pulse := { p with
        wlKey := some (cacheHash strF p)
        wlVal := some ((wGrid (p.cf, p.n) p.tw).map fun w => 2 * Real.pi * cNmps / w) } with hpa
  have h2 := W_mks_miss (strF := strF) (p := pa) hr (by
    have : pa.wKey = none := hW
    rw [this]; simp)
  have e1 : runAll strF [.readWlNm, .readWMks] p = (W_mks strF pa).2 := by
    simp only [runAll, List.foldl, PulseOp.run, h1]
  have e2 : runAll strF [.readWlNm, .readWMks, .setTimeWindowPs T'] p =
      Pulse.setTimeWindowPs T' (W_mks strF pa).2 := by
    simp only [runAll, List.foldl, PulseOp.run, h1]
  rw [h2] at e1 e2
  dsimp only
  rw [e1, e2]
  refine ⟨?_, ?_, rfl⟩
  · rw [wl_nm_hit rfl rfl, wl_nm_hit rfl rfl]
  · rw [W_mks_hit rfl rfl, W_mks_hit rfl rfl]

/-- C07 refuted, concrete: two points at 1000 nm; the wavelength grid read after the window has been
doubled is not the wavelength grid of the pulse.  No assumption on `str`. -/
theorem C07_grids_fresh_refuted (strF : ℝ → String) :
    ∃ ops : List PulseOp, ¬ GridsFresh strF (runAll strF ops Pulse.blank) ∧
      (runAll strF ops Pulse.blank).ready = true := by
  refine ⟨[.setNPTS 2, .setTimeWindowPs 1, .readWMks, .setTimeWindowPs 2], ?_, ?_⟩
  · rintro ⟨w, h1, -, h2, -⟩
    set p0 : Pulse := { Pulse.blank with n := 2, ready := true } with hp0
    have e0 := W_mks_miss (strF := strF) (p := p0) rfl (by simp [hp0, Pulse.blank])
    have e1 : runAll strF [.setNPTS 2, .setTimeWindowPs 1, .readWMks, .setTimeWindowPs 2] Pulse.blank =
        Pulse.setTimeWindowPs 2 (W_mks strF p0).2 := rfl
    rw [e1, e0] at h1 h2
    rw [W_mks_hit rfl rfl] at h2
    have hw : _ = Except.ok w := h1
    rw [W_THz, W_eq_wGrid rfl] at h1
    injection h1 with h1
    subst h1
    injection h2 with h2
    simp only [wGrid, Vec.map_mk, Vec.mk.injEq, heq_eq_eq, setTimeWindowPs, setTimeWindow] at h2
    have := congrFun h2.2 ⟨0, by simp [hp0]⟩
    have hpi := Real.pi_ne_zero
    simp only [hp0, Pulse.blank] at this
    norm_num at this
    apply hpi
    linarith
  · simp only [runAll, List.foldl, PulseOp.run, Pulse.setTimeWindowPs, setTimeWindow]

/-- C07, second defect: the key is a concatenation of two decimal strings, so different grids share a
key.  With Python's `str(1.0) = "1.0"` and `str(1.02) = "1.02"`, the wavelength grid of (1.0 THz,
24 points) is returned for (1.02 THz, 4 points): even its length is wrong. -/
theorem C07_key_collision (strF : ℝ → String) (h1 : strF 1 = "1.0") (h2 : strF 1.02 = "1.02") :
    let p := runAll strF [.setNPTS 24, .readWlNm, .setCenterWavelengthNm (cNmps / 1.02), .setNPTS 4]
      Pulse.blank
    p.n = 4 ∧ p.cf = 1.02 ∧ ∃ w, (wl_nm strF p).1 = .ok w ∧ w.len = 24 := by
  have hc : cNmps / (1.02 : ℝ) ≠ 0 := by norm_num [cNmps, cMks]
  have hcf : cNmps / (cNmps / (1.02 : ℝ)) = 1.02 := by norm_num [cNmps, cMks]
  have hk : strF (1.02 : ℝ) ++ toString 4 = strF 1 ++ toString 24 := by rw [h1, h2]; decide
  set p0 : Pulse := { Pulse.blank with n := 24, ready := true } with hp0
  have e0 := wl_nm_miss (strF := strF) (p := p0) rfl (by simp [hp0, Pulse.blank])
  have e1 : runAll strF [.setNPTS 24, .readWlNm, .setCenterWavelengthNm (cNmps / 1.02), .setNPTS 4]
      Pulse.blank = Pulse.setNPTS 4 (setCenterFrequency 1.02 (wl_nm strF p0).2) := by
    simp only [runAll, List.foldl, PulseOp.run, Pulse.setCenterWavelengthNm, hc, if_false,
      modify_apply, hcf]
    rfl
  dsimp only
  rw [e1, e0]
  refine ⟨rfl, rfl, (wGrid (p0.cf, p0.n) p0.tw).map fun w => 2 * Real.pi * cNmps / w, ?_, rfl⟩
  rw [wl_nm_hit ?_ rfl]
  simp only [Pulse.setNPTS, setCenterFrequency, cacheHash, Option.some.injEq]
  exact hk.symm

/-- The hypotheses of `C07_grids_fresh_partial` are met by a history that reads, retunes and re-reads. -/
theorem C07_nonvacuous (strF : ℝ → String) (h : strF 300 ≠ strF 150) :
    ∃ (S : Set (ℝ × ℕ)) (p0 : Pulse) (ops : List PulseOp),
      Set.InjOn (fun x : ℝ × ℕ => strF x.1 ++ toString x.2) S ∧ p0.wlKey = none ∧ p0.wKey = none ∧
      2 ≤ ops.length ∧
      ∀ k ≤ ops.length, (runAll strF (ops.take k) p0).ready = true ∧
        (runAll strF (ops.take k) p0).tw = 1 ∧
        ((runAll strF (ops.take k) p0).cf, (runAll strF (ops.take k) p0).n) ∈ S := by
  have hc : cNmps / (300 : ℝ) ≠ 0 := by norm_num [cNmps, cMks]
  have hcf : cNmps / (cNmps / (300 : ℝ)) = 300 := by norm_num [cNmps, cMks]
  refine ⟨{(300, 4), (150, 4)}, { Pulse.blank with n := 4, cf := 150, ready := true },
    [.readWlNm, .setCenterWavelengthNm (cNmps / 300), .readWlNm], ?_, rfl, rfl, by simp, ?_⟩
  · have hne : strF 300 ++ toString 4 ≠ strF 150 ++ toString 4 := fun h' =>
      h (String.append_left_inj _ |>.mp h')
    rintro ⟨a, b⟩ hab ⟨c, d⟩ hcd he
    simp only [Set.mem_insert_iff, Set.mem_singleton_iff, Prod.mk.injEq] at hab hcd
    rcases hab with ⟨rfl, rfl⟩ | ⟨rfl, rfl⟩ <;> rcases hcd with ⟨rfl, rfl⟩ | ⟨rfl, rfl⟩
    · rfl
    · exact absurd he hne
    · exact absurd he.symm hne
    · rfl
  · intro k hk
    simp only [List.length_cons, List.length_nil] at hk
    set p0 : Pulse := { Pulse.blank with n := 4, cf := 150, ready := true } with hp0
    have e0 := wl_nm_miss (strF := strF) (p := p0) rfl (by simp [hp0, Pulse.blank])
    have e1 := wl_nm_miss (strF := strF) (p := setCenterFrequency 300 (wl_nm strF p0).2) rfl (by
      rw [e0]
      simp only [setCenterFrequency, cacheHash, hp0, ne_eq, Option.some.injEq]
      exact fun h' => h (String.append_left_inj _ |>.mp h').symm)
    rw [e0] at e1
    have : k = 0 ∨ k = 1 ∨ k = 2 ∨ k = 3 := by omega
    have hset : ∀ q, (Pulse.setCenterWavelengthNm (cNmps / 300) q).2 = setCenterFrequency 300 q := by
      intro q
      simp only [Pulse.setCenterWavelengthNm, hc, if_false, modify_apply, hcf]
    rcases this with rfl | rfl | rfl | rfl <;>
      simp only [runAll, List.take, List.foldl, PulseOp.run, hset, e1, e0] <;>
      simp [hp0, setCenterFrequency, Pulse.blank]

/-! ## C08 -/

/-- C08: before any grid setter, `set_AW` and `set_AT` raise and change nothing (`set_AT` of an empty
array raises `ValueError` from the transform instead). -/
theorem C08_not_ready (p : Pulse) (h : p.ready = false) (v : Vec ℂ) :
    setAW v p = (.error .RuntimeError, p) ∧
    setAT v p = (.error (if v.len = 0 then .ValueError else .RuntimeError), p) := by
  refine ⟨by simp [setAW, h], ?_⟩
  unfold setAT FFT_t
  split <;> simp [bind_apply, setAW, h]

/-- C08: reading a field that was never set raises `RuntimeError`. -/
theorem C08_no_field (p : Pulse) (h : p.aw = none) :
    p.AW = .error .RuntimeError ∧ p.AT = .error .RuntimeError := by
  simp [Pulse.AW, Pulse.AT, h]

/-- C08: an array whose length is neither the stored length nor 1 is rejected, and the whole pulse state
is exactly what it was. -/
theorem C08_bad_length_unchanged (p : Pulse) (hr : p.ready = true) (b v : Vec ℂ) (hb : p.aw = some b)
    (h1 : v.len ≠ b.len) (h2 : v.len ≠ 1) : setAW v p = (.error .ValueError, p) := by
  have : b.assign v = .error .ValueError := by simp [Vec.assign, h1, h2]
  cases p
  simp_all [setAW]

/-- C08 for `set_AT`. -/
theorem C08_bad_length_unchanged_AT (p : Pulse) (hr : p.ready = true) (b v : Vec ℂ)
    (hb : p.aw = some b) (h1 : v.len ≠ b.len) (h2 : v.len ≠ 1) :
    setAT v p = (.error .ValueError, p) := by
  unfold setAT FFT_t
  split
  · rfl
  · exact C08_bad_length_unchanged p hr b _ hb h1 h2

/-- C08, complete outcome: on a pulse with a field, `set_AW` succeeds exactly for length 1 or the stored
length; the stored length never changes. -/
theorem C08_length_stable (p : Pulse) (hr : p.ready = true) (b v : Vec ℂ) (hb : p.aw = some b) :
    ((setAW v p).1 = .ok () ↔ v.len = b.len ∨ v.len = 1) ∧
    ∃ b', (setAW v p).2.aw = some b' ∧ b'.len = b.len := by
  simp only [setAW, hr, Bool.true_eq_false, if_false, hb, Option.getD_some, Vec.assign]
  by_cases h1 : v.len = b.len
  · simp [h1]
  · by_cases h2 : v.len = 1
    · simp [h1, h2]
      by_cases h3 : b.len = 1 <;> simp_all
    · simp [h1, h2]

/-- C08, note: on a pulse *without* a field a rejected array leaves an all-zero field behind, so a later
read succeeds instead of raising. -/
theorem C08_rejected_first_assignment_leaves_zeros (p : Pulse) (hr : p.ready = true)
    (hb : p.aw = none) (v : Vec ℂ) (h1 : v.len ≠ p.n) (h2 : v.len ≠ 1) :
    (setAW v p).1 = .error .ValueError ∧ (setAW v p).2.AW = .ok (Vec.zeros p.n) := by
  have : (Vec.zeros p.n : Vec ℂ).assign v = .error .ValueError := by
    simp [Vec.assign, Vec.zeros, h1, h2]
  simp [setAW, hr, hb, this, Pulse.AW]

theorem C08_nonvacuous : Pulse.blank.ready = false ∧ samplePulse.ready = true ∧
    ∃ b : Vec ℂ, samplePulse.aw = some b ∧ (Vec.zeros 3 : Vec ℂ).len ≠ b.len ∧
      (Vec.zeros 3 : Vec ℂ).len ≠ 1 := by
  refine ⟨rfl, rfl, _, rfl, ?_, ?_⟩ <;> simp [Vec.zeros]

/-! ## C09 -/

namespace Heap

/-- Well-formedness: references point into the heap, and the field array is not shared with the caller. -/
structure Sep (w : World) : Prop where
  awIn : ∀ a, w.aw = some a → a < w.heapC.length
  userIn : ∀ a ∈ w.userC, a < w.heapC.length
  sep : ∀ a, w.aw = some a → a ∉ w.userC

theorem sep_start : Sep start := by constructor <;> simp [start]

theorem sep_giveC {w : World} (h : Sep w) (v : Vec ℂ) : Sep (giveC w v) := by
  constructor
  · intro a ha
    have := h.awIn a ha
    simp only [giveC, List.length_append, List.length_cons, List.length_nil]; omega
  · intro a ha
    simp only [giveC, List.mem_cons] at ha
    simp only [giveC, List.length_append, List.length_cons, List.length_nil]
    rcases ha with rfl | ha
    · omega
    · have := h.userIn a ha; omega
  · intro a ha
    have h1 := h.awIn a ha
    have h2 := h.sep a ha
    simp only [giveC, List.mem_cons, not_or]
    exact ⟨by omega, h2⟩

theorem sep_storeAW {g : Grid} {w : World} (h : Sep w) (v : Vec ℂ) : Sep (storeAW g w v) := by
  unfold storeAW
  split
  · next hn =>
    constructor
    · intro a ha
      simp only [Option.some.injEq] at ha
      simp only [List.length_append, List.length_cons, List.length_nil]; omega
    · intro a ha
      have := h.userIn a ha
      simp only [List.length_append, List.length_cons, List.length_nil]; omega
    · intro a ha hu
      have := h.userIn a hu
      simp only [Option.some.injEq] at ha
      omega
  · next a0 hs =>
    constructor
    · intro a ha; simpa using h.awIn a ha
    · intro a ha; simpa using h.userIn a ha
    · intro a ha; exact h.sep a ha

theorem sep_step {g : Grid} {w : World} (h : Sep w) (act : Act) : Sep (step g w act) := by
  cases act with
  | newC v => exact sep_giveC h v
  | writeC a v =>
    simp only [step]; split
    · exact ⟨fun a ha => by simpa using h.awIn a ha, fun a ha => by simpa using h.userIn a ha, h.sep⟩
    · exact h
  | writeR a v => simp only [step]; split <;> exact ⟨h.awIn, h.userIn, h.sep⟩
  | getAW => simp only [step]; split; exacts [h, sep_giveC h _]
  | getAT =>
    simp only [step]; split
    · exact h
    · split; exacts [sep_giveC h _, h]
  | setAW a => simp only [step]; split; exacts [sep_storeAW h _, h]
  | setAT a =>
    simp only [step]; split
    · split; exacts [sep_storeAW h _, h]
    · exact h
  | getWl => simp only [step]; split <;> exact ⟨h.awIn, h.userIn, h.sep⟩
  | getW => simp only [step]; split <;> exact ⟨h.awIn, h.userIn, h.sep⟩

theorem sep_run (g : Grid) (acts : List Act) {w : World} (h : Sep w) : Sep (run g acts w) := by
  induction acts generalizing w with
  | nil => exact h
  | cons a l ih => exact ih (sep_step h a)

end Heap

open Heap in
/-- C09: after any interleaving of pulse calls and caller writes, no caller write — to any array it ever
got from `AW`, `AT` or passed to `set_AW`/`set_AT` — changes the field of the pulse. -/
theorem C09_field_isolated_partial (g : Grid) (acts : List Act) (addr : ℕ) (v : Vec ℂ) (r : Vec ℝ) :
    fieldOf (step g (run g acts start) (.writeC addr v)) = fieldOf (run g acts start) ∧
    fieldOf (step g (run g acts start) (.writeR addr r)) = fieldOf (run g acts start) := by
  have h := sep_run g acts sep_start
  set w := run g acts start
  constructor
  · simp only [step]
    split
    · next hu =>
      simp only [fieldOf]
      cases ha : w.aw with
      | none => rfl
      | some a =>
        have hne : addr ≠ a := fun he => h.sep a ha (he ▸ hu)
        simp [List.getD, List.getElem?_set, hne]
    · rfl
  · simp only [step]; split <;> rfl

open Heap in
/-- C09: only `set_AW`/`set_AT` change the field: every other action, including all caller writes and
all reads, leaves it alone, after every interleaving. -/
theorem C09_only_setters_change_field (g : Grid) (acts : List Act) (act : Act)
    (hs : ∀ a, act ≠ .setAW a ∧ act ≠ .setAT a) :
    fieldOf (step g (run g acts start) act) = fieldOf (run g acts start) := by
  have h := sep_run g acts sep_start
  have hgive : ∀ v, fieldOf (giveC (run g acts start) v) = fieldOf (run g acts start) := by
    intro v
    simp only [fieldOf, giveC]
    cases ha : (run g acts start).aw with
    | none => rfl
    | some a =>
      have := h.awIn a ha
      simp [List.getD, List.getElem?_append_left this]
  cases act with
  | newC v => exact hgive v
  | writeC a v => exact (C09_field_isolated_partial g acts a v (Vec.zeros 0)).1
  | writeR a v => exact (C09_field_isolated_partial g acts a (Vec.zeros 0) v).2
  | getAW => simp only [step]; split; exacts [rfl, hgive _]
  | getAT =>
    simp only [step]; split
    · rfl
    · split; exacts [hgive _, rfl]
  | setAW a => exact absurd rfl (hs a).1
  | setAT a => exact absurd rfl (hs a).2
  | getWl => simp only [step]; split <;> rfl
  | getW => simp only [step]; split <;> rfl

open Heap in
/-- C09: `set_AW(arr)` stores the contents `arr` has at that moment. -/
theorem C09_set_stores_contents (g : Grid) (acts : List Act) (addr : ℕ) (v : Vec ℂ)
    (hu : addr ∈ (run g acts start).userC) (hv : (run g acts start).heapC[addr]? = some v)
    (hlen : v.len = ((fieldOf (run g acts start)).getD (Vec.zeros g.n)).len) :
    fieldOf (step g (run g acts start) (.setAW addr)) = some v := by
  have h := sep_run g acts sep_start
  set w := run g acts start
  have hget : w.heapC.getD addr (Vec.zeros 0) = v := by simp [List.getD, hv]
  simp only [step, hu, if_true, hget, storeAW, fieldOf]
  cases ha : w.aw with
  | none =>
    simp only [fieldOf, ha, Option.map_none, Option.getD_none] at hlen
    have : assignTo (Vec.zeros g.n) v = v := by simp [assignTo, Vec.assign, hlen]
    simp [this, List.getD]
  | some a =>
    simp only [fieldOf, ha, Option.map_some, Option.getD_some] at hlen
    have : assignTo (w.heapC.getD a (Vec.zeros 0)) v = v := by simp [assignTo, Vec.assign, hlen]
    have hlt := h.awIn a ha
    simp only [this, Option.map_some, Option.some.injEq]
    simp [List.getD, hlt]

open Heap in
/-- C09 refuted for the grid arrays: `wl_nm` hands out its cache, so a caller that scales the array it
received changes what every later read of `wl_nm` returns. -/
theorem C09_grid_alias_refuted (g : Grid) (bad : Vec ℝ) :
    wlOf g (run g [.getWl, .writeR 0 bad] start) = bad := by
  simp [run, step, start, wlOf, List.getD]

namespace Heap

/-- the caches point into the heap -/
structure CacheIn (w : World) : Prop where
  wl : ∀ a, w.wl = some a → a < w.heapR.length
  wHz : ∀ a, w.wHz = some a → a < w.heapR.length

theorem cacheIn_storeAW {g : Grid} {w : World} (h : CacheIn w) (v : Vec ℂ) : CacheIn (storeAW g w v) := by
  unfold storeAW; split <;> exact ⟨h.wl, h.wHz⟩

theorem cacheIn_step {g : Grid} {w : World} (h : CacheIn w) (act : Act) : CacheIn (step g w act) := by
  cases act with
  | newC v => exact ⟨h.wl, h.wHz⟩
  | writeC a v => simp only [step]; split <;> exact ⟨h.wl, h.wHz⟩
  | writeR a v =>
    simp only [step]; split
    · exact ⟨fun a ha => by simpa using h.wl a ha, fun a ha => by simpa using h.wHz a ha⟩
    · exact h
  | getAW => simp only [step]; split <;> exact ⟨h.wl, h.wHz⟩
  | getAT =>
    simp only [step]; split
    · exact h
    · split <;> exact ⟨h.wl, h.wHz⟩
  | setAW a => simp only [step]; split; exacts [cacheIn_storeAW h _, h]
  | setAT a =>
    simp only [step]; split
    · split; exacts [cacheIn_storeAW h _, h]
    · exact h
  | getWl =>
    simp only [step]; split
    · exact ⟨h.wl, h.wHz⟩
    · refine ⟨fun a ha => ?_, fun a ha => ?_⟩
      · simp only [Option.some.injEq] at ha
        simp only [List.length_append, List.length_singleton]; omega
      · have := h.wHz a ha
        simp only [List.length_append, List.length_singleton]; omega
  | getW =>
    simp only [step]; split
    · exact ⟨h.wl, h.wHz⟩
    · refine ⟨fun a ha => ?_, fun a ha => ?_⟩
      · have := h.wl a ha
        simp only [List.length_append, List.length_singleton]; omega
      · simp only [Option.some.injEq] at ha
        simp only [List.length_append, List.length_singleton]; omega

theorem cacheIn_run (g : Grid) (acts : List Act) {w : World} (h : CacheIn w) : CacheIn (run g acts w) := by
  induction acts generalizing w with
  | nil => exact h
  | cons a l ih => exact ih (cacheIn_step h a)

end Heap

open Heap in
/-- C09 refuted after every history: the array `wl_nm` (or `W_mks`) hands out is the cache itself, on the first and on every later
read; what the caller writes into it is what the next read returns. -/
theorem C09_grid_alias_always_refuted (g : Grid) (acts : List Act) (bad : Vec ℝ) :
    (∃ a, (step g (run g acts start) .getWl).userR.head? = some a ∧
      wlOf g (step g (step g (run g acts start) .getWl) (.writeR a bad)) = bad) ∧
    ∃ a, (step g (run g acts start) .getW).userR.head? = some a ∧
      ∃ b, (step g (step g (step g (run g acts start) .getW) (.writeR a bad)) .getW).userR.head? = some b ∧
        (step g (step g (step g (run g acts start) .getW) (.writeR a bad)) .getW).heapR[b]? = some bad := by
  have h := cacheIn_run g acts (w := start) ⟨fun a ha => by simp [start] at ha, fun a ha => by simp [start] at ha⟩
  set w := run g acts start
  constructor
  · rcases hw : w.wl with _ | a
    · refine ⟨w.heapR.length, by simp [step, hw], ?_⟩
      simp [step, hw, wlOf, List.getD]
    · have := h.wl a hw
      refine ⟨a, by simp [step, hw], ?_⟩
      simp [step, hw, wlOf, List.getD, this]
  · rcases hw : w.wHz with _ | a
    · refine ⟨w.heapR.length, by simp [step, hw], w.heapR.length, by simp [step, hw], ?_⟩
      simp [step, hw]
    · have := h.wHz a hw
      refine ⟨a, by simp [step, hw], a, by simp [step, hw], ?_⟩
      simp [step, hw, this]

theorem Heap.assignTo_len (d s : Vec ℂ) : (Heap.assignTo d s).len = d.len := by
  unfold Heap.assignTo Vec.assign
  by_cases h1 : s.len = d.len
  · simp [h1]
  · by_cases h2 : s.len = 1
    · rw [if_neg h1, dif_pos h2]
    · rw [if_neg h1, dif_neg h2]

theorem Heap.storeAW_len {g : Heap.Grid} {w : Heap.World} (hs : Heap.Sep w) (v : Vec ℂ)
    (ih : ∀ f, Heap.fieldOf w = some f → f.len = g.n) {f : Vec ℂ} (h : Heap.fieldOf (Heap.storeAW g w v) = some f) : f.len = g.n := by
  unfold Heap.storeAW Heap.fieldOf at h
  rcases ha : w.aw with _ | a
  · rw [ha] at h
    simp only [Option.map_some, Option.some.injEq] at h
    rw [← h]
    simp [List.getD, Heap.assignTo_len, Vec.zeros]
  · have hlt := hs.awIn a ha
    have := ih (w.heapC.getD a (Vec.zeros 0)) (by simp [Heap.fieldOf, ha])
    rw [ha] at h
    simp only [Option.map_some, Option.some.injEq] at h
    rw [← h, ← this]
    simp [List.getD, hlt, Heap.assignTo_len]

open Heap in
/-- C09: after every interleaving the field has as many points as the grid, whatever arrays the caller passed; the ones whose length does not fit
are rejected. -/
theorem C09_length (g : Grid) (acts : List Act) {f : Vec ℂ} (h : fieldOf (run g acts start) = some f) : f.len = g.n := by
  induction acts using List.reverseRecOn generalizing f with
  | nil => simp [run, start, fieldOf] at h
  | append_singleton acts act ih =>
    have hsep := sep_run g acts sep_start
    have hr : run g (acts ++ [act]) start = step g (run g acts start) act := by simp [run]
    rw [hr] at h
    by_cases hact : ∀ a, act ≠ .setAW a ∧ act ≠ .setAT a
    · rw [C09_only_setters_change_field g acts act hact] at h
      exact ih h
    · cases act with
      | setAW a =>
        simp only [step] at h
        split at h
        · exact storeAW_len hsep _ (fun f hf => ih hf) h
        · exact ih h
      | setAT a =>
        simp only [step] at h
        split at h
        · split at h
          · exact storeAW_len hsep _ (fun f hf => ih hf) h
          · exact ih h
        · exact ih h
      | _ => exact absurd (fun a => ⟨by simp, by simp⟩) hact

open Heap in
/-- C09: an array whose length is neither that of the grid nor 1 leaves the field as it was. -/
theorem C09_wrong_length (g : Grid) (acts : List Act) (addr : ℕ) {v f : Vec ℂ} (hf : fieldOf (run g acts start) = some f)
    (hv : (run g acts start).heapC[addr]? = some v) (h1 : v.len ≠ g.n) (h2 : v.len ≠ 1) :
    fieldOf (step g (run g acts start) (.setAW addr)) = some f := by
  have hl := C09_length g acts hf
  have h := sep_run g acts sep_start
  set w := run g acts start
  have hget : w.heapC.getD addr (Vec.zeros 0) = v := by simp [List.getD, hv]
  simp only [step, hget]
  split
  · unfold fieldOf at hf
    rcases ha : w.aw with _ | a
    · rw [ha] at hf
      simp at hf
    · rw [ha] at hf
      simp only [Option.map_some, Option.some.injEq] at hf
      have hlt := h.awIn a ha
      have e : assignTo f v = f := by
        unfold assignTo Vec.assign
        rw [hl]
        simp [h1, h2]
      simp only [storeAW, ha, fieldOf, Option.map_some, hf, e]
      simp [List.getD, hlt]
  · exact hf

open Heap in
theorem C09_nonvacuous : ∃ (g : Grid) (acts : List Act) (v : Vec ℂ),
    1 ∈ (run g acts start).userC ∧ fieldOf (run g acts start) = some v ∧ v.len = 2 := by
  refine ⟨⟨2, Vec.zeros 2, Vec.zeros 2⟩, [.newC ⟨2, fun _ => 1⟩, .newC ⟨2, fun _ => 3⟩, .setAW 0],
    ⟨2, fun _ => 1⟩, ?_, ?_, rfl⟩
  · simp [run, step, giveC, start, storeAW]
  · simp [run, step, giveC, start, storeAW, fieldOf, assignTo, Vec.zeros, List.getD]

end PyNLO
