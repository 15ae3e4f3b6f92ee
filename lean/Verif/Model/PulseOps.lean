import Verif.Model.Pulse

/-!
# Histories of public calls on one `Pulse` object

Every constructor of `PulseOp` is one public method or cached property of
`src/pynlo/light/PulseBase.py`; exceptions are assumed to be caught by the caller, who then goes on.
The external routines a method needs (random draws, `unwrap`, `polyfit`) are part of the call, so a
history ranges over all their results.
-/

namespace PyNLO.Pulse

/-- One call on a pulse object. -/
inductive PulseOp where
  | setNPTS (n : ℕ)
  | setTimeWindowPs (T : ℝ)
  | setTimeWindowS (T : ℝ)
  | setFrequencyWindowTHz (DF : ℝ)
  | setFrequencyWindowMks (DF : ℝ)
  | setCenterWavelengthNm (wl : ℝ)
  | setCenterWavelengthM (wl : ℝ)
  | setFrepMHz (f : ℝ)
  | setAW (a : Vec ℂ)
  | setAT (a : Vec ℂ)
  | readWlNm
  | readWlMks
  | readWMks
  | readFMks
  | readDFMks
  | setEpp (E : ℝ)
  | addNoise (h : ℝ) (rnd ph : ℕ → ℝ) (kind : String)
  | chirpPulseW (GDD TOD FOD : ℝ) (w0 : Option ℝ)
  | applyPhaseW (phase : Vec ℝ)
  | chirpPulseT (c2 c3 T0 : ℝ)
  | removePolyPhase (unwrap : {n : ℕ} → (Fin n → ℝ) → Fin n → ℝ)
      (polyfit : List (ℝ × ℝ) → ℕ → Except PyErr (ℝ → ℝ)) (deg : ℕ) (thr : ℝ)
  | addTimeOffset (t : ℝ)
  | expandTimeWindow (f : ℕ) (loc : String)
  | rotateSpectrum (wl : ℝ)
  | filterByWavelengthNm (lo hi : ℝ)
  | clonePulse (q : Pulse)
  | loadPulseDict (d : PulseDict)
  | createSubsetPulse (wl : ℝ) (M : ℕ)
  | weightedAvgFrequencyMks

variable (strF : ℝ → String)

/-- Object state after a call, whether it returned or raised. -/
noncomputable def PulseOp.run : PulseOp → Pulse → Pulse
  | .setNPTS n, p => Pulse.setNPTS n p
  | .setTimeWindowPs T, p => Pulse.setTimeWindowPs T p
  | .setTimeWindowS T, p => Pulse.setTimeWindowS T p
  | .setFrequencyWindowTHz DF, p => (Pulse.setFrequencyWindowTHz DF p).2
  | .setFrequencyWindowMks DF, p => (Pulse.setFrequencyWindowMks DF p).2
  | .setCenterWavelengthNm wl, p => (Pulse.setCenterWavelengthNm wl p).2
  | .setCenterWavelengthM wl, p => (Pulse.setCenterWavelengthM wl p).2
  | .setFrepMHz f, p => Pulse.setFrepMHz f p
  | .setAW a, p => (Pulse.setAW a p).2
  | .setAT a, p => (Pulse.setAT a p).2
  | .readWlNm, p => (Pulse.wl_nm strF p).2
  | .readWlMks, p => (Pulse.wl_mks strF p).2
  | .readWMks, p => (Pulse.W_mks strF p).2
  | .readFMks, p => (Pulse.F_mks strF p).2
  | .readDFMks, p => (Pulse.dF_mks strF p).2
  | .setEpp E, p => (Pulse.setEpp E p).2
  | .addNoise h r ph k, p => (Pulse.addNoise strF h r ph k p).2
  | .chirpPulseW a b c w, p => (Pulse.chirpPulseW a b c w p).2
  | .applyPhaseW ph, p => (Pulse.applyPhaseW ph p).2
  | .chirpPulseT a b c, p => (Pulse.chirpPulseT a b c p).2
  | .removePolyPhase u f d t, p => (Pulse.removePolyPhase u f d t p).2
  | .addTimeOffset t, p => (Pulse.addTimeOffset t p).2
  | .expandTimeWindow f l, p => (Pulse.expandTimeWindow f l p).2
  | .rotateSpectrum wl, p => (Pulse.rotateSpectrum wl p).2
  | .filterByWavelengthNm lo hi, p => (Pulse.filterByWavelengthNm strF lo hi p).2
  | .clonePulse q, p => (Pulse.clonePulse q p).2
  | .loadPulseDict d, p => (Pulse.loadPulseDict d p).2
  | .createSubsetPulse wl M, p => (Pulse.createSubsetPulse strF wl M p).2
  | .weightedAvgFrequencyMks, p => (Pulse.weightedAvgFrequencyMks strF p).2

/-- State after a history of calls. -/
noncomputable def runAll (ops : List PulseOp) (p : Pulse) : Pulse :=
  ops.foldl (fun p op => op.run strF p) p

end PyNLO.Pulse
