import Verif.Model.PulseOps
import Verif.Model.DerivedPulses

/-!
# C141: which calls change the settings of a pulse
-/

namespace PyNLO.Pulse

/-- The settings a user makes on a pulse, as the public accessors report them. -/
inductive Setting
  | points | centre | window | rate
  deriving DecidableEq

/-- What `NPTS`, `center_frequency_THz`, `time_window_ps` and `frep_MHz` report. -/
def Setting.agree : Setting → Pulse → Pulse → Prop
  | .points, p, q => p.n = q.n
  | .centre, p, q => center_frequency_THz p = center_frequency_THz q
  | .window, p, q => time_window_ps p = time_window_ps q
  | .rate, p, q => frep_MHz p = frep_MHz q

/-- The settings that the documentation of a method allows it to change. -/
def PulseOp.mayChange : PulseOp → List Setting
  | .setNPTS _ => [.points]
  | .setTimeWindowPs _ => [.window]
  | .setTimeWindowS _ => [.window]
  | .setFrequencyWindowTHz _ => [.window]
  | .setFrequencyWindowMks _ => [.window]
  | .setCenterWavelengthNm _ => [.centre]
  | .setCenterWavelengthM _ => [.centre]
  | .setFrepMHz _ => [.rate]
  | .expandTimeWindow _ _ => [.points, .window]
  | .clonePulse _ => [.points, .centre, .window, .rate]
  | .loadPulseDict _ => [.points, .centre, .window, .rate]
  | _ => []

/-- a method body that keeps a setting, whether it returns or raises -/
def Keeps (s : Setting) {α : Type} (m : PyM Pulse α) : Prop := ∀ p, s.agree (m p).2 p

theorem Setting.agree_refl (s : Setting) (p : Pulse) : s.agree p p := by
  cases s <;> rfl

theorem Setting.agree_trans {s : Setting} {p q r : Pulse} (h : s.agree p q) (k : s.agree q r) : s.agree p r := by
  cases s <;> exact Eq.trans h k

namespace Keeps

variable {s : Setting} {α β : Type}

theorem pure' (a : α) : Keeps s (Pure.pure a : PyM Pulse α) := fun p => s.agree_refl p
theorem throw (e : PyErr) : Keeps s (PyM.throw e : PyM Pulse α) := fun p => s.agree_refl p
theorem get : Keeps s (PyM.get : PyM Pulse Pulse) := fun p => s.agree_refl p
theorem lift (x : Except PyErr α) : Keeps s (PyM.lift x : PyM Pulse α) := fun p => s.agree_refl p
theorem read (f : Pulse → Except PyErr α) : Keeps s (PyM.read f) := fun p => s.agree_refl p
theorem modify {f : Pulse → Pulse} (h : ∀ p, s.agree (f p) p) : Keeps s (PyM.modify f) := h

theorem seq {x : PyM Pulse α} {f : α → PyM Pulse β} (hx : Keeps s x) (hf : ∀ a, Keeps s (f a)) : Keeps s (x >>= f) := by
  intro p
  have h := hx p
  rw [PyM.bind_apply]
  revert h
  generalize x p = r
  obtain ⟨r, q⟩ := r
  intro h
  cases r with
  | ok a => exact Setting.agree_trans (hf a q) h
  | error e => exact h

theorem ite {c : Prop} [Decidable c] {x y : PyM Pulse α} (hx : Keeps s x) (hy : Keeps s y) : Keeps s (if c then x else y) := by
  split_ifs
  · exact hx
  · exact hy

end Keeps

open Keeps

variable {s : Setting} (strF : ℝ → String)

theorem keeps_setAW (a : Vec ℂ) : Keeps s (setAW a) := by
  intro p
  unfold setAW
  simp only
  split_ifs
  · exact s.agree_refl p
  · split <;> cases s <;> rfl

theorem keeps_setAT (a : Vec ℂ) : Keeps s (setAT a) := seq (lift _) fun w => keeps_setAW w

theorem keeps_wl_nm : Keeps s (wl_nm strF) := by
  refine seq get fun p => ite ?_ ?_
  · split
    · exact pure' _
    · exact throw _
  · exact seq (modify fun p => by cases s <;> rfl) fun _ => seq (read _) fun w => seq (modify fun p => by cases s <;> rfl) fun _ => pure' _

theorem keeps_W_mks : Keeps s (W_mks strF) := by
  refine seq get fun p => ite ?_ ?_
  · split
    · exact pure' _
    · exact throw _
  · exact seq (modify fun p => by cases s <;> rfl) fun _ => seq (read _) fun w => seq (modify fun p => by cases s <;> rfl) fun _ => pure' _

theorem keeps_F_mks : Keeps s (F_mks strF) := seq (keeps_W_mks strF) fun _ => pure' _
theorem keeps_wl_mks : Keeps s (wl_mks strF) := seq (keeps_W_mks strF) fun _ => pure' _
theorem keeps_dF_mks : Keeps s (dF_mks strF) :=
  seq (keeps_W_mks strF) fun _ => seq (lift _) fun _ => seq (keeps_W_mks strF) fun _ => seq (lift _) fun _ => pure' _
theorem keeps_setEpp (E : ℝ) : Keeps s (setEpp E) := seq (read _) fun _ => seq (read _) fun _ => keeps_setAT _

theorem keeps_addNoise (h : ℝ) (rnd ph : ℕ → ℝ) (kind : String) : Keeps s (addNoise strF h rnd ph kind) := by
  exact seq (keeps_dF_mks strF) fun sz => seq (read _) fun a => seq (keeps_F_mks strF) fun f => seq (lift _) fun ppb =>
    ite (seq (lift _) fun amp => seq (lift _) fun b => keeps_setAW _)
      (ite (seq (pure' _) fun amp => seq (lift _) fun b => keeps_setAW _) (seq (throw _) fun amp => seq (lift _) fun b => keeps_setAW _))

theorem keeps_chirpPulseW (GDD TOD FOD : ℝ) (w0 : Option ℝ) : Keeps s (chirpPulseW GDD TOD FOD w0) := by
  have k : ∀ v : Vec ℝ, Keeps s (PyM.read AW >>= fun a => PyM.lift (Vec.zip (fun x y => chirpFactor GDD TOD FOD x * y) v a) >>= fun b => setAW b) :=
    fun v => seq (read _) fun a => seq (lift _) fun b => keeps_setAW _
  cases w0 with
  | none => exact seq (read _) k
  | some w => exact seq (read _) fun _ => seq (pure' _) k

theorem keeps_applyPhaseW (ph : Vec ℝ) : Keeps s (applyPhaseW ph) := seq (read _) fun _ => seq (lift _) fun _ => keeps_setAW _
theorem keeps_chirpPulseT (a b c : ℝ) : Keeps s (chirpPulseT a b c) := seq (read _) fun _ => seq (read _) fun _ => seq (lift _) fun _ => keeps_setAT _

theorem keeps_removePolyPhase (unwrap : {n : ℕ} → (Fin n → ℝ) → Fin n → ℝ) (polyfit : List (ℝ × ℝ) → ℕ → Except PyErr (ℝ → ℝ)) (deg : ℕ) (thr : ℝ) :
    Keeps s (removePolyPhase unwrap polyfit deg thr) := by
  refine seq (read _) fun a => seq (read _) fun w => ?_
  split_ifs
  · exact seq (lift _) fun _ => keeps_setAW _
  · exact throw _

theorem keeps_addTimeOffset (t : ℝ) : Keeps s (addTimeOffset t) := seq (read _) fun _ => seq (read _) fun _ => seq (lift _) fun _ => keeps_setAW _
theorem keeps_rotateSpectrum (wl : ℝ) : Keeps s (rotateSpectrum wl) :=
  seq get fun _ => ite (throw _) (seq (read _) fun _ => seq (read _) fun _ => keeps_setAW _)
theorem keeps_filter (lo hi : ℝ) : Keeps s (filterByWavelengthNm strF lo hi) :=
  seq (read _) fun _ => seq (keeps_wl_nm strF) fun _ => seq (lift _) fun _ => seq (keeps_wl_nm strF) fun _ => seq (lift _) fun _ => keeps_setAW _
theorem keeps_weighted : Keeps s (weightedAvgFrequencyMks strF) :=
  seq (read _) fun _ => seq (keeps_W_mks strF) fun _ => seq (lift _) fun _ => pure' _
theorem keeps_subset (wl : ℝ) (M : ℕ) : Keeps s (createSubsetPulse strF wl M) :=
  seq get fun _ => ite (throw _) (seq (keeps_wl_nm strF) fun _ => seq (lift _) fun _ => seq (keeps_wl_nm strF) fun _ => seq (lift _) fun _ =>
    seq (lift _) fun _ => seq (read _) fun _ => seq (lift _) fun _ => pure' _)

theorem keeps_expand (hs : s = .centre ∨ s = .rate) (f : ℕ) (loc : String) : Keeps s (expandTimeWindow f loc) := by
  refine seq get fun _ => seq (read _) fun _ => seq (modify ?_) fun _ => seq (modify ?_) fun _ => seq (modify ?_) fun _ =>
    ite (keeps_setAT _) (ite (keeps_setAT _) (ite (keeps_setAT _) (throw _)))
  all_goals
    intro p
    rcases hs with rfl | rfl <;> rfl

/-- C141: a call changes a setting only if its documentation says so, whether it returns or raises. -/
theorem C141_frame (op : PulseOp) (s : Setting) (h : s ∉ op.mayChange) (p : Pulse) : s.agree (op.run strF p) p := by
  cases op with
  | setNPTS n => cases s <;> first | rfl | simp [PulseOp.mayChange] at h
  | setTimeWindowPs T => cases s <;> first | rfl | simp [PulseOp.mayChange] at h
  | setTimeWindowS T => cases s <;> first | rfl | simp [PulseOp.mayChange] at h
  | setFrequencyWindowTHz DF =>
    have : Keeps s (Pulse.setFrequencyWindowTHz DF) := seq get fun q => ite (throw _) (modify fun p => by cases s <;> first | rfl | simp [PulseOp.mayChange] at h)
    exact this p
  | setFrequencyWindowMks DF =>
    have : Keeps s (Pulse.setFrequencyWindowMks DF) := seq get fun q => ite (throw _) (modify fun p => by cases s <;> first | rfl | simp [PulseOp.mayChange] at h)
    exact this p
  | setCenterWavelengthNm wl =>
    have : Keeps s (Pulse.setCenterWavelengthNm wl) := ite (throw _) (modify fun p => by cases s <;> first | rfl | simp [PulseOp.mayChange] at h)
    exact this p
  | setCenterWavelengthM wl =>
    have : Keeps s (Pulse.setCenterWavelengthM wl) := ite (throw _) (modify fun p => by cases s <;> first | rfl | simp [PulseOp.mayChange] at h)
    exact this p
  | setFrepMHz f => cases s <;> first | rfl | simp [PulseOp.mayChange] at h
  | setAW a => exact keeps_setAW a p
  | setAT a => exact keeps_setAT a p
  | readWlNm => exact keeps_wl_nm strF p
  | readWlMks => exact keeps_wl_mks strF p
  | readWMks => exact keeps_W_mks strF p
  | readFMks => exact keeps_F_mks strF p
  | readDFMks => exact keeps_dF_mks strF p
  | setEpp E => exact keeps_setEpp E p
  | addNoise a b c d => exact keeps_addNoise strF a b c d p
  | chirpPulseW a b c w => exact keeps_chirpPulseW a b c w p
  | applyPhaseW a => exact keeps_applyPhaseW a p
  | chirpPulseT a b c => exact keeps_chirpPulseT a b c p
  | removePolyPhase u f d t => exact keeps_removePolyPhase u f d t p
  | addTimeOffset t => exact keeps_addTimeOffset t p
  | expandTimeWindow f loc =>
    refine keeps_expand ?_ f loc p
    cases s <;> simp [PulseOp.mayChange] at h ⊢
  | rotateSpectrum wl => exact keeps_rotateSpectrum wl p
  | filterByWavelengthNm lo hi => exact keeps_filter strF lo hi p
  | clonePulse q => cases s <;> simp [PulseOp.mayChange] at h
  | loadPulseDict d => cases s <;> simp [PulseOp.mayChange] at h
  | createSubsetPulse wl M => exact keeps_subset strF wl M p
  | weightedAvgFrequencyMks => exact keeps_weighted strF p

/-- C141: so a setting survives every history of calls none of which is documented to change it. -/
theorem C141_history (s : Setting) (ops : List PulseOp) (h : ∀ op ∈ ops, s ∉ op.mayChange) (p : Pulse) : s.agree (runAll strF ops p) p := by
  induction ops generalizing p with
  | nil => exact s.agree_refl p
  | cons op ops ih =>
    have h1 := ih (fun o ho => h o (List.mem_cons_of_mem _ ho)) (op.run strF p)
    exact Setting.agree_trans h1 (C141_frame strF op s (h op List.mem_cons_self) p)

/-- C141: the rate set last is the one reported, in both units. -/
theorem C141_rate (f : ℝ) (before after : List PulseOp) (h : ∀ op ∈ after, Setting.rate ∉ op.mayChange) (p : Pulse) :
    frep_MHz (runAll strF (before ++ .setFrepMHz f :: after) p) = some f ∧
      frep_mks (runAll strF (before ++ .setFrepMHz f :: after) p) = some (f * 10 ^ 6) := by
  have e : runAll strF (before ++ .setFrepMHz f :: after) p = runAll strF after (Pulse.setFrepMHz f (runAll strF before p)) := by
    unfold runAll
    rw [List.foldl_append]
    rfl
  have h1 : frep_MHz (runAll strF after (Pulse.setFrepMHz f (runAll strF before p))) = _ := C141_history strF .rate after h _
  rw [e, frep_mks, ← frep_MHz, h1]
  exact ⟨rfl, rfl⟩

/-- a constructor body keeps the rate that `Pulse.__init__` stored -/
theorem construct_rate {p q : Pulse} {body : PyM Pulse Unit} (h : Keeps .rate body) (hq : construct p body = .ok q) : q.frep = p.frep := by
  have := h p
  unfold construct at hq
  revert this hq
  generalize body p = r
  obtain ⟨r, q'⟩ := r
  cases r with
  | ok u =>
    intro e k
    injection e with e
    subst e
    exact k
  | error e => intro e k; simp at e

theorem keeps_setCenter (wl : ℝ) : Keeps .rate (setCenterWavelengthNm wl) := ite (throw _) (modify fun _ => rfl)

theorem keeps_configure (wl tw : ℝ) : Keeps .rate (configure wl tw) :=
  ite (throw _) (ite (throw _) (seq (keeps_setCenter wl) fun _ => modify fun _ => rfl))

theorem keeps_scale (power frep : ℝ) : Keeps s (scaleToAverage power frep) := seq (read _) fun _ => seq (read _) fun _ => keeps_setAT _

/-- C141: pulses of a given shape report the rate they were made with. -/
theorem C141_shaped {shape : ℝ → ℝ} {rescale : Option ℝ} {wl tw frep : ℝ} {N : ℕ} {GDD TOD c2 c3 T0 : ℝ} {q : Pulse}
    (h : shapedPulse shape rescale wl tw frep N GDD TOD c2 c3 T0 = .ok q) : frep_MHz q = some frep := by
  refine construct_rate (p := init (some frep) (some N)) ?_ h
  refine seq (keeps_configure wl tw) fun _ => seq (read _) fun t => seq (keeps_setAT _) fun _ => ?_
  cases rescale with
  | none => exact seq (keeps_chirpPulseW _ _ _ _) fun _ => keeps_chirpPulseT _ _ _
  | some p => exact seq (keeps_scale _ _) fun _ => seq (keeps_chirpPulseW _ _ _ _) fun _ => keeps_chirpPulseT _ _ _

/-- C141: the same for `FROGPulse`. -/
theorem C141_frog {file : Option ((ℝ → ℝ) × (ℝ → ℝ))} {tw wl power frep : ℝ} {N : ℕ} {avg flip : Bool} {q : Pulse}
    (h : frogPulse strF file tw wl power frep N avg flip = .ok q) : frep_MHz q = some frep := by
  refine construct_rate (p := init (some frep) (some N)) ?_ h
  refine ite (throw _) (ite (throw _) (seq (modify fun _ => rfl) fun _ => seq (keeps_setCenter wl) fun _ => ?_))
  rcases file with _ | ⟨i, ph⟩
  · exact pure' _
  · exact seq (keeps_wl_nm strF) fun _ => seq (keeps_wl_nm strF) fun _ => seq (lift _) fun _ => seq (keeps_setAW _) fun _ => seq (read _) fun _ =>
      seq (read _) fun _ => keeps_setAT _

/-- C141: `NoisePulse` reports the rate it was made with, 100 MHz if none was given. -/
theorem C141_noise {rand : ℕ → ℝ} {wl tw : ℝ} {N : ℕ} {frep : Option ℝ} {q : Pulse} (h : noisePulse rand wl tw N frep = .ok q) :
    frep_MHz q = some (frep.getD 100) := by
  have e : q.frep = (init frep (some N)).frep := by
    refine construct_rate ?_ h
    exact seq (keeps_setCenter wl) fun _ => seq (modify fun _ => rfl) fun _ => seq get fun _ => keeps_setAW _
  show q.frep = _
  rw [e]
  cases frep <;> rfl

/-- C141: `CWPulse` takes no rate and reports 100 MHz. -/
theorem C141_cw {power wl tw : ℝ} {N : ℕ} {offset : Option ℝ} {q : Pulse} (h : cwPulse power wl tw N offset = .ok q) : frep_MHz q = some 100 := by
  refine construct_rate (p := init none (some N)) ?_ h
  refine ite (throw _) (ite (throw _) ?_)
  cases offset with
  | none => exact seq (keeps_setCenter wl) fun _ => seq (modify fun _ => rfl) fun _ => seq get fun _ => seq (keeps_setAT _) fun _ => seq (read _) fun _ => keeps_setAW _
  | some off =>
    refine seq (modify fun _ => rfl) fun _ => seq ?_ fun _ => seq get fun _ => seq (lift _) fun _ => keeps_setAW _
    exact ite (modify fun _ => rfl) (keeps_setCenter _)

/-- C141: and so does a pulse made by `Pulse()` or `Pulse(n = N)`. -/
theorem C141_default (N : Option ℕ) : frep_MHz (init none N) = some 100 ∧ ∀ f, frep_MHz (init (some f) N) = some f := by
  cases N <;> exact ⟨rfl, fun _ => rfl⟩

/-- A history with setters, a failing call, noise and a filter keeps rate and centre; `set_time_window_ps` does change the window. -/
theorem C141_nonvacuous (p : Pulse) :
    let ops : List PulseOp := [.setNPTS 8, .setTimeWindowPs (p.tw + 1), .setAW ⟨3, fun _ => 1⟩, .addNoise 1 (fun _ => 0) (fun _ => 0) "x", .filterByWavelengthNm 1 2]
    Setting.rate.agree (runAll strF ops p) p ∧ Setting.centre.agree (runAll strF ops p) p ∧ ¬ Setting.window.agree (runAll strF ops p) p := by
  intro ops
  refine ⟨C141_history strF .rate ops (by simp [ops, PulseOp.mayChange]) p, C141_history strF .centre ops (by simp [ops, PulseOp.mayChange]) p, fun h => ?_⟩
  have h2 : Setting.window.agree (runAll strF ops p) (Pulse.setTimeWindowPs (p.tw + 1) (Pulse.setNPTS 8 p)) :=
    C141_history strF .window [.setAW ⟨3, fun _ => 1⟩, .addNoise 1 (fun _ => 0) (fun _ => 0) "x", .filterByWavelengthNm 1 2] (by simp [PulseOp.mayChange]) _
  have h3 : p.tw = p.tw + 1 := Eq.trans (Eq.symm h) h2
  linarith

end PyNLO.Pulse
