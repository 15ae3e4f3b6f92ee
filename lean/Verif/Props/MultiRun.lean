import Verif.Model.MultiRun

/-!
# C75, C100, C106: saved DFG runs
-/

namespace PyNLO.MultiRun

open PyM

/-! ## What a stored run is (independent of the reader) -/

/-- A stored wave: samples per bin and position, window (ps), centre wavelength (nm). -/
structure Wave where
  rows : ℕ
  cols : ℕ
  val : Fin rows → Fin cols → ℂ
  tw : ℝ
  wl : ℝ

/-- A stored run. -/
structure Run where
  pump : Wave
  sgnl : Wave
  idlr : Wave
  frepHz : ℝ
  param : ℝ

/-- The nodes of a wave that was stored completely. -/
def Wave.leaf (w : Wave) : Leaf := ⟨some ⟨w.rows, w.cols, w.val⟩, some w.tw, some w.wl⟩

def Run.node (r : Run) : RunNode := ⟨r.pump.leaf, r.sgnl.leaf, r.idlr.leaf, some r.frepHz, some r.param⟩

/-- The file holds exactly the runs `runs 0, …, runs (k-1)` under the parameter name, and at least one. -/
structure Stores (file : String → Option Group) (param : String) (k : ℕ) (runs : ℕ → Run) : Prop where
  pos : 0 < k
  wl : ∀ i, (runs i).pump.wl ≠ 0 ∧ (runs i).sgnl.wl ≠ 0 ∧ (runs i).idlr.wl ≠ 0
  ex : ∃ g, file param = some g ∧ g.length = k ∧ ∀ i < k, g.lookup ("run" ++ toString (i : ℤ)) = some (runs i).node

/-- The pulse shows column `z` of the stored wave. -/
def Shows (p : Pulse) (w : Wave) (z : Fin w.cols) (frepMHz : ℝ) : Prop :=
  p.n = w.rows ∧ p.AW = .ok ⟨w.rows, fun i => w.val i z⟩ ∧ p.time_window_ps = w.tw ∧
    p.center_wavelength_nm = .ok w.wl ∧ p.frep_MHz = some frepMHz

/-- Position `z` of a Python index into a row of `len` columns. -/
def At (len : ℕ) (z : ℤ) (k : ℕ) : Prop := k < len ∧ (z = k ∨ z = (k : ℤ) - len)

theorem pyIndex_of_at {len : ℕ} {z : ℤ} {k : ℕ} (h : At len z k) : Dfg.pyIndex len z = .ok k := by
  obtain ⟨h1, rfl | rfl⟩ := h
  · unfold Dfg.pyIndex
    rw [if_pos ⟨by omega, by omega⟩]
    simp
  · unfold Dfg.pyIndex
    rw [if_neg (by omega), if_pos ⟨by omega, by omega⟩]
    simp

theorem pyIndex_error {len : ℕ} {z : ℤ} (h : ∀ k, ¬ At len z k) : Dfg.pyIndex len z = .error .IndexError := by
  have h1 : ¬ (0 ≤ z ∧ z < len) := fun hc => h z.toNat ⟨by omega, Or.inl (by omega)⟩
  have h2 : ¬ (-(len : ℤ) ≤ z ∧ z < 0) := fun hc => h (z + len).toNat ⟨by omega, Or.inr (by omega)⟩
  simp [Dfg.pyIndex, h1, h2]

/-! ## Reading -/

theorem readWave_ok (w : Wave) (f : ℝ) {z : ℤ} {k : ℕ} (hz : At w.cols z k) (hw : w.wl ≠ 0) :
    ∃ p, readWave w.leaf z f = .ok p ∧ Shows p w ⟨k, hz.1⟩ (f * 10 ^ (-6 : ℤ)) := by
  have hc : cNmps ≠ 0 := by norm_num [cNmps, cMks]
  have hcol : Mat.col ⟨w.rows, w.cols, w.val⟩ z = .ok ⟨w.rows, fun i => w.val i ⟨k, hz.1⟩⟩ := by
    simp only [Mat.col, pyIndex_of_at hz, dif_pos hz.1]
  refine ⟨⟨w.rows, cNmps / w.wl, w.tw, some ⟨w.rows, fun i => w.val i ⟨k, hz.1⟩⟩, some (f * 10 ^ (-6 : ℤ)), true, none, none,
    none, none⟩, ?_, rfl, rfl, rfl, ?_, rfl⟩
  · simp only [readWave, Wave.leaf, node, except_bind_ok, hcol, Pulse.construct, Pulse.init, bind_apply, modify_apply,
      Pulse.setCenterWavelengthNm, if_neg hw]
    simp [Pulse.setAW, Pulse.setNPTS, Pulse.blank, Pulse.setCenterFrequency, Pulse.setTimeWindowPs, Pulse.setTimeWindow,
      Pulse.setFrepMHz, Vec.zeros]
  · have : cNmps / w.wl ≠ 0 := div_ne_zero hc hw
    simp only [Pulse.center_wavelength_nm, if_neg this]
    congr 1
    field_simp

theorem readWave_index (w : Wave) (f : ℝ) {z : ℤ} (hz : ∀ k, ¬ At w.cols z k) :
    readWave w.leaf z f = .error .IndexError := by
  simp [readWave, Wave.leaf, node, Mat.col, pyIndex_error hz]

/-- The reader that `DFGReader(file, param)` returns. -/
theorem openReader_ok {file : String → Option Group} {param : String} {k : ℕ} {runs : ℕ → Run} (h : Stores file param k runs) :
    ∃ r, openReader file param = .ok r ∧ r.runCtr = k ∧ r.intCtr = 0 ∧ r.frepHz = (runs 0).frepHz ∧
      (∀ i < k, getGroup r.group (i : ℤ) = .ok (runs i).node) := by
  obtain ⟨g, hg, hl, hi⟩ := h.ex
  have h0 := hi 0 h.pos
  refine ⟨⟨g, g.length, 0, (runs 0).frepHz⟩, ?_, hl, rfl, rfl, fun i hk => ?_⟩
  · simp only [Nat.cast_zero] at h0
    simp only [openReader, hg, node, except_bind_ok, getGroup, h0]
    rfl
  · simp only [getGroup, hi i hk, node]

/-- A reader in use on a file with the given runs: the counter may have moved. -/
structure Reads (r : Reader) (k : ℕ) (runs : ℕ → Run) : Prop where
  ctr : r.runCtr = k
  le : r.intCtr ≤ k
  frep : r.frepHz = (runs 0).frepHz
  get : ∀ i < k, getGroup r.group (i : ℤ) = .ok (runs i).node
  wl : ∀ i, (runs i).pump.wl ≠ 0 ∧ (runs i).sgnl.wl ≠ 0 ∧ (runs i).idlr.wl ≠ 0

/-- C75: opening works and gives a reader at the start. -/
theorem C75_open {file : String → Option Group} {param : String} {k : ℕ} {runs : ℕ → Run} (h : Stores file param k runs) :
    ∃ r, openReader file param = .ok r ∧ Reads r k runs ∧ r.intCtr = 0 := by
  obtain ⟨r, h1, h2, h3, h4, h5⟩ := openReader_ok h
  exact ⟨r, h1, ⟨h2, by omega, h4, h5, h.wl⟩, h3⟩

/-- C75: `get_run(n, z)` for a run in range and a position that all three arrays have, returns the stored fields, windows and
centre wavelengths; by default the last run and the last position. -/
theorem C75_get_run {r : Reader} {k : ℕ} {runs : ℕ → Run} (h : Reads r k runs) (n z : Option ℤ) {i kp ks ki : ℕ} (hi : i < k)
    (hn : n = some (i : ℤ) ∨ n = none ∧ i + 1 = k) (hp : At (runs i).pump.cols (z.getD (-1)) kp)
    (hs : At (runs i).sgnl.cols (z.getD (-1)) ks) (hid : At (runs i).idlr.cols (z.getD (-1)) ki) :
    ∃ p s d, getRun r n z = .ok (p, s, d) ∧ Shows p (runs i).pump ⟨kp, hp.1⟩ ((runs 0).frepHz * 10 ^ (-6 : ℤ)) ∧
      Shows s (runs i).sgnl ⟨ks, hs.1⟩ ((runs 0).frepHz * 10 ^ (-6 : ℤ)) ∧
      Shows d (runs i).idlr ⟨ki, hid.1⟩ ((runs 0).frepHz * 10 ^ (-6 : ℤ)) := by
  obtain ⟨w1, w2, w3⟩ := h.wl i
  obtain ⟨p, e1, s1⟩ := readWave_ok (runs i).pump (runs 0).frepHz hp w1
  obtain ⟨s, e2, s2⟩ := readWave_ok (runs i).sgnl (runs 0).frepHz hs w2
  obtain ⟨d, e3, s3⟩ := readWave_ok (runs i).idlr (runs 0).frepHz hid w3
  refine ⟨p, s, d, ?_, s1, s2, s3⟩
  have hck : checkRun r n = .ok (i : ℤ) := by
    have : n.getD ((r.runCtr : ℤ) - 1) = i := by
      rcases hn with rfl | ⟨rfl, h2⟩
      · rfl
      · show (r.runCtr : ℤ) - 1 = i
        rw [h.ctr]
        omega
    simp only [checkRun, this]
    rw [if_neg]
    rw [h.ctr]
    omega
  simp only [getRun, hck, except_bind_ok, h.get i hi, h.frep, Run.node, e1, e2, e3]

/-- C75: a run number outside `0, …, k-1` raises `IndexError`, in `get_run` and in `get_run_param`. -/
theorem C75_out_of_range {r : Reader} {k : ℕ} {runs : ℕ → Run} (h : Reads r k runs) {n : ℤ} (hn : n < 0 ∨ (k : ℤ) ≤ n)
    (z : Option ℤ) : getRun r (some n) z = .error .IndexError ∧ getRunParam r (some n) = .error .IndexError := by
  have hck : checkRun r (some n) = .error .IndexError := by
    simp only [checkRun, Option.getD_some]
    rw [if_pos]
    rw [h.ctr]
    omega
  simp [getRun, getRunParam, hck]

/-- C75: `get_run_param` returns the stored parameter, by default that of the last run. -/
theorem C75_param {r : Reader} {k : ℕ} {runs : ℕ → Run} (h : Reads r k runs) {i : ℕ} (hi : i < k) :
    getRunParam r (some (i : ℤ)) = .ok (runs i).param ∧ (i + 1 = k → getRunParam r none = .ok (runs i).param) := by
  have h1 : getRunParam r (some (i : ℤ)) = .ok (runs i).param := by
    have hck : checkRun r (some (i : ℤ)) = .ok (i : ℤ) := by
      simp only [checkRun, Option.getD_some]
      rw [if_neg]
      rw [h.ctr]
      omega
    simp only [getRunParam, hck, except_bind_ok, h.get i hi, Run.node, node]
  refine ⟨h1, fun hk => ?_⟩
  rw [← h1]
  have : checkRun r none = checkRun r (some (i : ℤ)) := by
    simp only [checkRun, Option.getD_none, Option.getD_some]
    rw [h.ctr, show (k : ℤ) - 1 = i by omega]
  simp only [getRunParam, this]

/-- A call on the reader. -/
inductive Op where
  | next (z : Option ℤ)
  | run (n z : Option ℤ)
  | param (n : Option ℤ)

/-- The reader after a call, whatever it returned or raised. -/
noncomputable def after : Op → Reader → Reader
  | .next z, r => (getNextRun z r).2
  | .run _ _, r => r
  | .param _, r => r

/-- The number of `get_next_run` calls in a list of calls. -/
def nexts : List Op → ℕ
  | [] => 0
  | .next _ :: l => nexts l + 1
  | .run _ _ :: l => nexts l
  | .param _ :: l => nexts l

theorem getNextRun_eq (z : Option ℤ) (r : Reader) : getNextRun z r =
    if r.intCtr < r.runCtr then
      ((getRun r (some (r.intCtr : ℤ)) z).map some, { r with intCtr := r.intCtr + 1 })
    else (.ok none, r) := by
  have e : getRun { r with intCtr := r.intCtr + 1 } (some (r.intCtr : ℤ)) z = getRun r (some (r.intCtr : ℤ)) z := rfl
  unfold getNextRun
  simp only [bind_apply, get_apply]
  split
  · simp only [bind_apply, modify_apply, get_apply, lift_apply, Nat.cast_add, Nat.cast_one, add_sub_cancel_right, e]
    cases getRun r (some (r.intCtr : ℤ)) z <;> rfl
  · rfl

theorem after_reads {k : ℕ} {runs : ℕ → Run} (l : List Op) {r : Reader} (h : Reads r k runs) :
    Reads (l.foldl (fun r o => after o r) r) k runs ∧
      (l.foldl (fun r o => after o r) r).intCtr = min (r.intCtr + nexts l) k := by
  induction l generalizing r with
  | nil => exact ⟨h, by have := h.le; simp only [List.foldl_nil, nexts]; omega⟩
  | cons o l ih =>
    cases o with
    | next z =>
      have hr : Reads (after (.next z) r) k runs ∧ (after (.next z) r).intCtr = min (r.intCtr + 1) k := by
        simp only [after, getNextRun_eq]
        have h1 := h.ctr
        have h2 := h.le
        split
        · exact ⟨⟨h.ctr, by show r.intCtr + 1 ≤ k; omega, h.frep, h.get, h.wl⟩, by show r.intCtr + 1 = _; omega⟩
        · exact ⟨h, by show r.intCtr = _; omega⟩
      obtain ⟨i1, i2⟩ := ih hr.1
      exact ⟨i1, by rw [List.foldl_cons, i2, hr.2, nexts]; omega⟩
    | run n z => exact ih h
    | param n => exact ih h

/-- C75: after any sequence of calls on a new reader, of which `m` were `get_next_run` calls, the next `get_next_run` call
returns run `m` (as `get_run(m, z)` does) while `m < k`, and `None` from then on. -/
theorem C75_enumerates {file : String → Option Group} {param : String} {k : ℕ} {runs : ℕ → Run} (h : Stores file param k runs) :
    ∃ r, openReader file param = .ok r ∧ ∀ l z, (getNextRun z (l.foldl (fun r o => after o r) r)).1 =
      if nexts l < k then (getRun r (some (nexts l : ℤ)) z).map some else .ok none := by
  obtain ⟨r, h1, h2, h3⟩ := C75_open h
  refine ⟨r, h1, fun l z => ?_⟩
  obtain ⟨a1, a2⟩ := after_reads l h2
  have hg : ∀ (l : List Op) (r : Reader), (l.foldl (fun r o => after o r) r).group = r.group ∧
      (l.foldl (fun r o => after o r) r).runCtr = r.runCtr ∧ (l.foldl (fun r o => after o r) r).frepHz = r.frepHz := by
    intro l
    induction l with
    | nil => exact fun r => ⟨rfl, rfl, rfl⟩
    | cons o l ih =>
      intro r
      obtain ⟨i1, i2, i3⟩ := ih (after o r)
      have : (after o r).group = r.group ∧ (after o r).runCtr = r.runCtr ∧ (after o r).frepHz = r.frepHz := by
        cases o with
        | next z => simp only [after, getNextRun_eq]; split <;> exact ⟨rfl, rfl, rfl⟩
        | run n z => exact ⟨rfl, rfl, rfl⟩
        | param n => exact ⟨rfl, rfl, rfl⟩
      exact ⟨i1.trans this.1, i2.trans this.2.1, i3.trans this.2.2⟩
  rw [getNextRun_eq, a1.ctr, a2, h3, Nat.zero_add]
  obtain ⟨g1, g2, g3⟩ := hg l r
  have hgr : ∀ (n : Option ℤ), getRun (l.foldl (fun r o => after o r) r) n z = getRun r n z := by
    intro n
    simp only [getRun, checkRun, g1, g2, g3]
  by_cases hk : nexts l < k
  · rw [if_pos (by omega), if_pos hk, hgr, show min (nexts l) k = nexts l by omega]
  · rw [if_neg (by omega), if_neg hk]

/-- C75: with default positions every call of the enumeration succeeds, if every stored array has a column. -/
theorem C75_next_succeeds {file : String → Option Group} {param : String} {k : ℕ} {runs : ℕ → Run} (h : Stores file param k runs)
    (hc : ∀ i, 0 < (runs i).pump.cols ∧ 0 < (runs i).sgnl.cols ∧ 0 < (runs i).idlr.cols) :
    ∃ r, openReader file param = .ok r ∧ ∀ l, nexts l < k → ∃ p s d,
      (getNextRun none (l.foldl (fun r o => after o r) r)).1 = .ok (some (p, s, d)) ∧
      (∃ z, z.1 + 1 = (runs (nexts l)).pump.cols ∧ Shows p (runs (nexts l)).pump z ((runs 0).frepHz * 10 ^ (-6 : ℤ))) ∧
      (∃ z, z.1 + 1 = (runs (nexts l)).sgnl.cols ∧ Shows s (runs (nexts l)).sgnl z ((runs 0).frepHz * 10 ^ (-6 : ℤ))) ∧
      (∃ z, z.1 + 1 = (runs (nexts l)).idlr.cols ∧ Shows d (runs (nexts l)).idlr z ((runs 0).frepHz * 10 ^ (-6 : ℤ))) := by
  obtain ⟨r, h1, h2⟩ := C75_enumerates h
  obtain ⟨r', h1', h3, -⟩ := C75_open h
  obtain rfl : r = r' := Except.ok.inj (h1.symm.trans h1')
  refine ⟨r, h1, fun l hl => ?_⟩
  obtain ⟨c1, c2, c3⟩ := hc (nexts l)
  have key : ∀ n : ℕ, 0 < n → At n (-1) (n - 1) := fun n hn => ⟨by omega, Or.inr (by omega)⟩
  obtain ⟨p, s, d, e, s1, s2, s3⟩ := C75_get_run h3 (some (nexts l : ℤ)) none hl (Or.inl rfl) (key _ c1) (key _ c2) (key _ c3)
  refine ⟨p, s, d, ?_, ⟨_, by simp only; omega, s1⟩, ⟨_, by simp only; omega, s2⟩, ⟨_, by simp only; omega, s3⟩⟩
  rw [h2 l none, if_pos hl, e]
  rfl

/-- A call of `get_next_run` with a position that the pump array does not have raises, and the run is skipped. -/
theorem C75_failed_call_skips {r : Reader} {k : ℕ} {runs : ℕ → Run} (h : Reads r k runs) (hlt : r.intCtr < k) {z : ℤ}
    (hz : ∀ j, ¬ At (runs r.intCtr).pump.cols z j) :
    (getNextRun (some z) r).1 = .error .IndexError ∧ (getNextRun (some z) r).2.intCtr = r.intCtr + 1 := by
  rw [getNextRun_eq, if_pos (by rw [h.ctr]; exact hlt)]
  refine ⟨?_, rfl⟩
  have hck : checkRun r (some (r.intCtr : ℤ)) = .ok (r.intCtr : ℤ) := by
    simp only [checkRun, Option.getD_some]
    rw [if_neg]
    rw [h.ctr]
    omega
  simp only [getRun, hck, except_bind_ok, h.get _ hlt, Run.node, Option.getD_some, readWave_index _ _ hz, except_bind_error]
  rfl

/-! ## C106: the repetition rate -/

/-- C106, what holds: the pulses of run 0, and of every run stored with the same rate, have the stored rate. -/
theorem C106_rate_partial {r : Reader} {k : ℕ} {runs : ℕ → Run} (h : Reads r k runs) {i : ℕ} (hi : i < k) {z : Option ℤ}
    {p s d : Pulse} (he : getRun r (some (i : ℤ)) z = .ok (p, s, d)) {kp ks ki : ℕ}
    (hp : At (runs i).pump.cols (z.getD (-1)) kp) (hs : At (runs i).sgnl.cols (z.getD (-1)) ks)
    (hd : At (runs i).idlr.cols (z.getD (-1)) ki) :
    (p.frep_MHz = some ((runs i).frepHz * 10 ^ (-6 : ℤ)) ↔ (runs i).frepHz = (runs 0).frepHz) ∧
      s.frep_MHz = p.frep_MHz ∧ d.frep_MHz = p.frep_MHz := by
  obtain ⟨p', s', d', e, s1, s2, s3⟩ := C75_get_run h (some (i : ℤ)) z hi (Or.inl rfl) hp hs hd
  obtain ⟨rfl, rfl, rfl⟩ : p' = p ∧ s' = s ∧ d' = d := by
    have := Except.ok.inj (e.symm.trans he)
    simpa using this
  refine ⟨?_, s2.2.2.2.2.trans s1.2.2.2.2.symm, s3.2.2.2.2.trans s1.2.2.2.2.symm⟩
  rw [s1.2.2.2.2]
  constructor
  · intro hh
    exact (mul_right_cancel₀ (by norm_num) (Option.some.inj hh)).symm
  · intro hh
    rw [hh]

/-- Two runs of one bin and one position, with rates 0 and 1 Hz. -/
noncomputable def exWave : Wave := ⟨1, 1, fun _ _ => 1, 1, 1⟩
noncomputable def exRuns (i : ℕ) : Run := ⟨exWave, exWave, exWave, i, i⟩
noncomputable def exFile (s : String) : Option Group :=
  if s = "a" then some [("run0", (exRuns 0).node), ("run1", (exRuns 1).node)] else none

theorem exFile_stores : Stores exFile "a" 2 exRuns where
  pos := by norm_num
  wl := fun i => by simp [exRuns, exWave]
  ex := by
    refine ⟨_, if_pos rfl, rfl, fun i hi => ?_⟩
    have h0 : "run" ++ toString ((0 : ℕ) : ℤ) = "run0" := by decide
    have h1 : "run" ++ toString ((1 : ℕ) : ℤ) = "run1" := by decide
    have h2 : ("run1" == "run0") = false := by decide
    interval_cases i
    · rw [h0]; simp [List.lookup]
    · rw [h1]; simp [List.lookup, h2]

theorem C75_nonvacuous : ∃ file param runs, Stores file param 2 runs ∧
    ∀ i, 0 < (runs i).pump.cols ∧ 0 < (runs i).sgnl.cols ∧ 0 < (runs i).idlr.cols :=
  ⟨exFile, "a", exRuns, exFile_stores, fun i => by simp [exRuns, exWave]⟩

/-- C106 is refuted: the second run of a file is read with the rate of the first. -/
theorem C106_refuted : ∃ (file : String → Option Group) (runs : ℕ → Run), Stores file "a" 2 runs ∧
    ∃ r p s d, openReader file "a" = .ok r ∧ getRun r (some 1) none = .ok (p, s, d) ∧
      p.frep_MHz ≠ some ((runs 1).frepHz * 10 ^ (-6 : ℤ)) := by
  obtain ⟨r, h1, h2, -⟩ := C75_open exFile_stores
  have key : At 1 (-1) 0 := ⟨by omega, Or.inr (by omega)⟩
  obtain ⟨p, s, d, e, s1, -, -⟩ := C75_get_run h2 (some ((1 : ℕ) : ℤ)) none (by norm_num) (Or.inl rfl) key key key
  refine ⟨exFile, exRuns, exFile_stores, r, p, s, d, h1, e, ?_⟩
  rw [s1.2.2.2.2]
  norm_num [exRuns]

/-! ## C100: writing -/

/-- A call that raises whenever it is made. -/
def Raises {α : Type} (x : PyM Writer α) : Prop := ∀ w, ∃ e, (x w).1 = .error e

theorem Raises.bind_right {α β : Type} (x : PyM Writer α) {f : α → PyM Writer β} (h : ∀ a, Raises (f a)) : Raises (x >>= f) := by
  intro w
  rw [bind_apply]
  rcases hx : x w with ⟨_ | a, w'⟩
  · exact ⟨_, rfl⟩
  · exact h a w'

theorem Raises.bind_left {α β : Type} {x : PyM Writer α} (h : Raises x) (f : α → PyM Writer β) : Raises (x >>= f) := by
  intro w
  obtain ⟨e, he⟩ := h w
  rw [bind_apply]
  rcases hx : x w with ⟨_ | a, w'⟩
  · exact ⟨_, rfl⟩
  · rw [hx] at he
    simp at he

/-- C100 is refuted: under all library versions, with every solver output and in every state of the file, `add_run` raises,
so no run is ever stored completely. -/
theorem C100_refuted (v : Versions) (d : RunData) (param : ℝ) : Raises (addRun v d param) := by
  unfold addRun
  refine Raises.bind_right _ fun w => ?_
  iterate 12 refine Raises.bind_right _ fun _ => ?_
  exact Raises.bind_left (fun w => ⟨_, rfl⟩) _

/-- The runs that a writer's file can be read back from: those of `Stores`. -/
noncomputable def addRuns (v : Versions) (l : List (RunData × ℝ)) (w : Writer) : Writer :=
  l.foldl (fun w d => (addRun v d.1 d.2 w).2) w

theorem addRun_float {v : Versions} (hv : v.floatSlice = false) (d : RunData) (param : ℝ) (w : Writer) :
    (addRun v d param w).2 = (createGroup ("run" ++ toString (w.runCtr : ℤ)) w).2 := by
  unfold addRun
  simp only [bind_apply, get_apply]
  rcases hc : createGroup ("run" ++ toString (w.runCtr : ℤ)) w with ⟨_ | _, w'⟩
  · rfl
  · have : ∃ e, sliceFields v d w' = (.error e, w') := by
      unfold sliceFields
      cases d.fields
      · exact ⟨_, rfl⟩
      · simp [hv]
    obtain ⟨e, he⟩ := this
    simp only [he]

/-- With a NumPy that refuses float slice bounds, whatever sequence of `add_run` calls is made on a new writer, `DFGReader`
cannot open the result. -/
theorem C100_unreadable {v : Versions} (hv : v.floatSlice = false) (file : String → Option Group) (param : String)
    (l : List (RunData × ℝ)) : openReader (addRuns v l (openWriter file param)).file param = .error .NodeError := by
  have key : ∀ (l : List (RunData × ℝ)) (w : Writer), w.param = param → w.runCtr = 0 →
      (w.file param = some [] ∨ w.file param = some [("run0", .empty)]) →
      (addRuns v l w).file param = some [] ∨ (addRuns v l w).file param = some [("run0", .empty)] := by
    intro l
    induction l with
    | nil => exact fun w _ _ h => h
    | cons d l ih =>
      intro w hp hr h
      show (addRuns v l (addRun v d.1 d.2 w).2).file param = _ ∨ (addRuns v l (addRun v d.1 d.2 w).2).file param = _
      rw [addRun_float hv, hr]
      have h0 : "run" ++ toString ((0 : ℕ) : ℤ) = "run0" := by decide
      rw [h0]
      rcases h with h | h
      · have e : createGroup "run0" w = (.ok (), { w with file := fun s => if s = w.param then some [("run0", .empty)] else w.file s }) := by
          simp [createGroup, hp, h]
        rw [e]
        exact ih _ hp hr (Or.inr (by simp [hp]))
      · have e : createGroup "run0" w = (.error .NodeError, w) := by
          simp [createGroup, hp, h]
        rw [e]
        exact ih w hp hr (Or.inr h)
  have h0 : "run" ++ toString (0 : ℤ) = "run0" := by decide
  rcases key l (openWriter file param) rfl rfl (Or.inl (by simp [openWriter])) with h | h
  · simp [openReader, h, node, getGroup]
  · simp only [openReader, h, node, except_bind_ok, getGroup, h0]
    simp [List.lookup, RunNode.empty]

/-- What `add_run` leaves in the group of the run before it raises, with libraries old enough to get that far: all
three waves, the repetition rate zero, and no parameter. -/
def leftover (d : RunData) (m : Mat × Mat × Mat) : RunNode :=
  ⟨⟨some m.1, some d.tw.1, some d.wl.1⟩, ⟨some m.2.1, some d.tw.2.1, some d.wl.2.1⟩, ⟨some m.2.2, some d.tw.2.2, some d.wl.2.2⟩, some 0, none⟩

theorem addRun_old (d : RunData) {m : Mat × Mat × Mat} (hd : d.fields = some m) (param : ℝ) (file : String → Option Group) (name : String) :
    ∃ w, addRun ⟨true, true⟩ d param (openWriter file name) = (.error .AttributeError, w) ∧ w.param = name ∧ w.runCtr = 0 ∧
      w.file name = some [("run0", leftover d m)] ∧ ∀ s, s ≠ name → w.file s = file s := by
  have h0 : "run" ++ toString ((0 : ℕ) : ℤ) = "run0" := by decide
  have hc : createGroup "run0" (openWriter file name) =
      (.ok (), { openWriter file name with file := fun s => if s = name then some [("run0", .empty)] else (openWriter file name).file s }) := by
    simp [createGroup, openWriter]
    rfl
  have hr : (openWriter file name).runCtr = 0 := rfl
  unfold addRun
  simp only [bind_apply, get_apply, hr, h0, hc, sliceFields, hd, createArray, if_true, pumpFrepHz, throw_apply]
  refine ⟨_, rfl, rfl, rfl, ?_, fun s hs => ?_⟩
  · simp [setNode, openWriter, leftover, RunNode.empty]
  · simp [setNode, openWriter, hs]

/-- C100, what is left with old libraries: although `add_run` raised, the reader opens the file and `get_run(0, z)`
returns the three stored fields, windows and wavelengths, but with repetition rate zero; the parameter is missing; and
the writer refuses every further run because the name `run0` is taken. -/
theorem C100_old_libraries (d : RunData) {mp ms mi : Mat} (hd : d.fields = some (mp, ms, mi)) (param : ℝ)
    (hw : d.wl.1 ≠ 0 ∧ d.wl.2.1 ≠ 0 ∧ d.wl.2.2 ≠ 0) (file : String → Option Group) (name : String) :
    ∃ w r, addRun ⟨true, true⟩ d param (openWriter file name) = (.error .AttributeError, w) ∧
      openReader w.file name = .ok r ∧
      (∀ (z : ℤ) (kp ks ki : ℕ) (hp : At mp.cols z kp) (hs : At ms.cols z ks) (hi : At mi.cols z ki), ∃ p s i,
        getRun r none (some z) = .ok (p, s, i) ∧ Shows p ⟨mp.rows, mp.cols, mp.val, d.tw.1, d.wl.1⟩ ⟨kp, hp.1⟩ 0 ∧
        Shows s ⟨ms.rows, ms.cols, ms.val, d.tw.2.1, d.wl.2.1⟩ ⟨ks, hs.1⟩ 0 ∧
        Shows i ⟨mi.rows, mi.cols, mi.val, d.tw.2.2, d.wl.2.2⟩ ⟨ki, hi.1⟩ 0) ∧
      getRunParam r none = .error .NodeError ∧
      ∀ v d' param', addRun v d' param' w = (.error .NodeError, w) := by
  obtain ⟨w, h1, h2, h3, h4, -⟩ := addRun_old d hd param file name
  have h0 : "run" ++ toString (0 : ℤ) = "run0" := by decide
  have hg : getGroup [("run0", leftover d (mp, ms, mi))] 0 = .ok (leftover d (mp, ms, mi)) := by
    unfold getGroup
    rw [h0]
    simp [node, List.lookup]
  refine ⟨w, ⟨[("run0", leftover d (mp, ms, mi))], 1, 0, 0⟩, h1, ?_, ?_, ?_, ?_⟩
  · unfold openReader
    rw [h4]
    simp only [node, except_bind_ok, hg]
    rfl
  · intro z kp ks ki hp hs hi
    obtain ⟨p, a1, a2⟩ := readWave_ok ⟨mp.rows, mp.cols, mp.val, d.tw.1, d.wl.1⟩ 0 hp hw.1
    obtain ⟨s, b1, b2⟩ := readWave_ok ⟨ms.rows, ms.cols, ms.val, d.tw.2.1, d.wl.2.1⟩ 0 hs hw.2.1
    obtain ⟨i, c1, c2⟩ := readWave_ok ⟨mi.rows, mi.cols, mi.val, d.tw.2.2, d.wl.2.2⟩ 0 hi hw.2.2
    rw [zero_mul] at a2 b2 c2
    refine ⟨p, s, i, ?_, a2, b2, c2⟩
    have hck : checkRun ⟨[("run0", leftover d (mp, ms, mi))], 1, 0, 0⟩ none = .ok 0 := by simp [checkRun]
    unfold getRun
    rw [hck]
    simp only [except_bind_ok, Option.getD_some, hg]
    rw [show readWave (leftover d (mp, ms, mi)).pump z 0 = .ok p from a1, except_bind_ok,
      show readWave (leftover d (mp, ms, mi)).sgnl z 0 = .ok s from b1, except_bind_ok,
      show readWave (leftover d (mp, ms, mi)).idlr z 0 = .ok i from c1, except_bind_ok]
  · have hck : checkRun ⟨[("run0", leftover d (mp, ms, mi))], 1, 0, 0⟩ none = .ok 0 := by simp [checkRun]
    unfold getRunParam
    rw [hck]
    simp only [except_bind_ok, hg]
    rfl
  · intro v d' param'
    have hc : createGroup "run0" w = (.error .NodeError, w) := by
      unfold createGroup
      rw [h2, h4]
      simp
    unfold addRun
    simp only [bind_apply, get_apply, h3, show "run" ++ toString ((0 : ℕ) : ℤ) = "run0" by decide, hc]

/-- C100: opening a writer and adding runs never touches the groups of other parameters. -/
theorem C100_other_parameters (v : Versions) (l : List (RunData × ℝ)) (file : String → Option Group) (param s : String)
    (hs : s ≠ param) : (addRuns v l (openWriter file param)).file s = file s := by
  let Keeps : {α : Type} → PyM Writer α → Prop := fun {α} x =>
    ∀ w : Writer, w.param = param → (x w).2.param = param ∧ (x w).2.file s = w.file s
  have kbind : ∀ {α β : Type} {x : PyM Writer α} {f : α → PyM Writer β}, Keeps x → (∀ a, Keeps (f a)) → Keeps (x >>= f) := by
    intro α β x f hx hf w hw
    rw [bind_apply]
    have h1 := hx w hw
    rcases hxw : x w with ⟨_ | a, w'⟩
    · rw [hxw] at h1; exact h1
    · rw [hxw] at h1
      have h2 := hf a w' h1.1
      exact ⟨h2.1, h2.2.trans h1.2⟩
  have kset : ∀ (w : Writer) name f, w.param = param → (setNode w name f).param = param ∧ (setNode w name f).file s = w.file s := by
    intro w name f hw
    exact ⟨hw, if_neg (by rw [hw]; exact hs)⟩
  have karr : ∀ name f, Keeps (createArray v name f) := by
    intro name f w hw
    unfold createArray
    split_ifs
    · exact kset w name f hw
    · exact ⟨hw, rfl⟩
  have kadd : ∀ d p, Keeps (addRun v d p) := by
    intro d p
    unfold addRun
    refine kbind (fun w hw => ⟨hw, rfl⟩) fun w0 => ?_
    refine kbind (fun w hw => ?_) fun _ => ?_
    · unfold createGroup
      cases w.file w.param with
      | none => exact ⟨hw, rfl⟩
      | some g =>
        dsimp only
        split_ifs
        · exact ⟨hw, rfl⟩
        · exact ⟨hw, if_neg (by rw [hw]; exact hs)⟩
    refine kbind (fun w hw => ?_) fun m => ?_
    · unfold sliceFields
      cases d.fields with
      | none => exact ⟨hw, rfl⟩
      | some g =>
        dsimp only
        split_ifs
        · exact ⟨hw, rfl⟩
        · exact ⟨hw, rfl⟩
    iterate 10 refine kbind (karr _ _) fun _ => ?_
    refine kbind (fun w hw => ⟨hw, rfl⟩) fun _ => ?_
    refine kbind (fun w hw => kset w _ _ hw) fun _ => ?_
    refine kbind (karr _ _) fun _ => ?_
    exact fun w hw => ⟨hw, rfl⟩
  have key : ∀ (l : List (RunData × ℝ)) (w : Writer), w.param = param → (addRuns v l w).file s = w.file s := by
    intro l
    induction l with
    | nil => exact fun _ _ => rfl
    | cons d l ih =>
      intro w hw
      have h := kadd d.1 d.2 w hw
      exact (ih _ h.1).trans h.2
  rw [key l _ rfl]
  exact if_neg hs

end PyNLO.MultiRun
