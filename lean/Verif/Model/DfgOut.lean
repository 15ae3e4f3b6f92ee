import Verif.Model.DfgSetup

/-!
# Output of a DFG run

`process_stepper_output` and `dfg_results_interface`
(`src/pynlo/interactions/ThreeWaveMixing/DFG_integrand.py:450-577`).  The slices that are handed to the results object are
NumPy views: they share memory with the array of the solver.  They are modelled by keeping the solver output in the state
and reading it at each access.  Plot scales (`pump_max_field`…) and printing are not modelled, except that the maximum of an
empty array raises `ValueError`.
-/

namespace PyNLO.Dfg

open Real Beam

variable {N : ℕ}

/-- The saved steps of the solver: `count`, `xsave`, `ysave` (`steppers.py`); rows from `count` on are unused storage. -/
structure SolverOut (N : ℕ) where
  count : ℕ
  xsave : ℕ → ℝ
  ysave : ℕ → Fin (3 * N) → ℂ

/-- The results object (`DFG_integrand.py:537-558`): the pulse that all `get_*` calls share and three centre wavelengths. -/
structure Results where
  pulse : Pulse
  pumpWl : ℝ
  sgnlWl : ℝ
  idlrWl : ℝ

/-- One round of the loop (`DFG_integrand.py:478-489`): the row saved at `z`, with phases. -/
noncomputable def phased (q : Prob N) (c : Fin N) (z : ℝ) (y : Fin (3 * N) → ℂ) : Fin (3 * N) → ℂ :=
  let t := z / (cMks / q.p.n c)
  join (fun j => Ap y j * q.p.phasor z t j) (fun j => As y j * q.s.phasor z t j) (fun j => Ai y j * q.i.phasor z t j)

/-- The loop over the saved rows (`DFG_integrand.py:478-489`), in place. -/
noncomputable def addPhases (q : Prob N) (c : Fin N) (o : SolverOut N) : SolverOut N :=
  { o with ysave := fun r => if r < o.count then phased q c (o.xsave r) (o.ysave r) else o.ysave r }

/-- `process_stepper_output` (`DFG_integrand.py:450-492`) and the constructor of the results object (`537-558`). -/
noncomputable def processOutput (b : Built) : PyM (SolverOut b.N) Results := do
  PyM.modify (addPhases b.prob b.center)
  let o ← PyM.get
  let cl ← PyM.lift b.pump.createClonedPulse
  let wp ← PyM.lift b.pump.center_wavelength_nm
  let ws ← PyM.lift b.sgnl.center_wavelength_nm
  let wi ← PyM.lift b.idlr.center_wavelength_nm
  if o.count = 0 then PyM.throw .ValueError
  else pure ⟨cl, wp, ws, wi⟩

/-- Which of the three fields. -/
inductive Which where
  | pump
  | sgnl
  | idlr
  deriving DecidableEq

def Which.wl (r : Results) : Which → ℝ
  | .pump => r.pumpWl
  | .sgnl => r.sgnlWl
  | .idlr => r.idlrWl

def Which.field (y : Fin (3 * N) → ℂ) : Which → Fin N → ℂ
  | .pump => Ap y
  | .sgnl => As y
  | .idlr => Ai y

/-- Python index into an array of `len` rows. -/
def pyIndex (len : ℕ) (n : ℤ) : Except PyErr ℕ :=
  if 0 ≤ n ∧ n < len then .ok n.toNat
  else if -(len : ℤ) ≤ n ∧ n < 0 then .ok (n + len).toNat
  else .error .IndexError

/-- `get_z` (`DFG_integrand.py:561-562`). -/
def getZ (n : ℤ) : PyM (SolverOut N × Results) ℝ := fun s =>
  match pyIndex s.1.count n with
  | .error e => (.error e, s)
  | .ok k => (.ok (s.1.xsave k), s)

/-- The reference that `get_*` returns: always the one pulse of the results object. -/
inductive Handle where
  | shared

/-- The pulse that a reference denotes in a state. -/
def Handle.deref (s : SolverOut N × Results) : Handle → Pulse
  | .shared => s.2.pulse

/-- `get_pump`, `get_sgnl`, `get_idlr` (`DFG_integrand.py:564-577`). -/
noncomputable def getField (w : Which) (n : ℤ) : PyM (SolverOut N × Results) Handle := fun s =>
  match pyIndex s.1.count n with
  | .error e => (.error e, s)
  | .ok k =>
    match Pulse.setAW ⟨N, w.field (s.1.ysave k)⟩ s.2.pulse with
    | (.error e, p) => (.error e, (s.1, { s.2 with pulse := p }))
    | (.ok _, p) =>
      match Pulse.setCenterWavelengthNm (w.wl s.2) p with
      | (.error e, p') => (.error e, (s.1, { s.2 with pulse := p' }))
      | (.ok _, p') => (.ok .shared, (s.1, { s.2 with pulse := p' }))

end PyNLO.Dfg
