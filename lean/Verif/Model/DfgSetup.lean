import Verif.Model.Dfg

/-!
# Construction of a DFG problem

`dfg_problem.__init__` (`src/pynlo/interactions/ThreeWaveMixing/DFG_integrand.py:58-189`).

Pump and signal are two `Pulse` objects.  Handing in one object twice raises `ZeroDivisionError` at line 87, as two objects
with equal centres do.  The deep copies of lines 115-117 are made after `wl_nm` has been read and are only read from, so
that they answer like the originals, which are read here instead.  Centre wavelengths are Python floats.  Work spaces,
printing and plotting are not modelled.
-/

namespace PyNLO.Dfg

open Real Beam

/-- The parts of a crystal that a problem uses; `n axis wl` is the index at a wavelength in nm.  Index caching
(`CrystalContainer.py:63-71`) is off. -/
structure Crystal where
  mode : String
  deff : ℝ
  len : ℝ
  pp : ℝ → ℝ
  n : Option String → ℝ → ℝ

/-- Optional arguments of the constructor (`DFG_integrand.py:58-61`). -/
structure Args where
  disableSPM : Bool
  waist : ℝ
  gouy : Bool
  wg : Bool
  aeff : Option ℝ

/-- The problem with the three pulses, the starting vector and `_pump_center_idx`. -/
structure Built where
  N : ℕ
  prob : Prob N
  pump : Pulse
  sgnl : Pulse
  idlr : Pulse
  ystart : Fin (3 * N) → ℂ
  center : Fin N

/-- An operation on the pump. -/
def onP {α : Type} (x : PyM Pulse α) : PyM (Pulse × Pulse) α := fun s =>
  match x s.1 with
  | (r, p) => (r, (p, s.2))

/-- An operation on the signal. -/
def onS {α : Type} (x : PyM Pulse α) : PyM (Pulse × Pulse) α := fun s =>
  match x s.2 with
  | (r, p) => (r, (s.1, p))

/-- Python's `max` of an array. -/
noncomputable def pyMax (v : Vec ℝ) : Except PyErr ℝ :=
  if h : 0 < v.len then .ok (Finset.univ.sup' (show Finset.univ.Nonempty from ⟨⟨0, h⟩, Finset.mem_univ _⟩) v.val) else .error .ValueError

/-- Python's `min` of an array. -/
noncomputable def pyMin (v : Vec ℝ) : Except PyErr ℝ :=
  if h : 0 < v.len then .ok (Finset.univ.inf' (show Finset.univ.Nonempty from ⟨⟨0, h⟩, Finset.mem_univ _⟩) v.val) else .error .ValueError

/-- The centre wavelength of the idler (`DFG_integrand.py:88-89`). -/
noncomputable def idlerWl (p s : Pulse) : Except PyErr ℝ := do
  let lp ← p.center_wavelength_nm
  let ls ← s.center_wavelength_nm
  if 1 / lp - 1 / ls = 0 then .error .ZeroDivisionError else .ok (1 / (1 / lp - 1 / ls))

/-- The idler (`DFG_integrand.py:88-94`). -/
noncomputable def makeIdler (rand : ℕ → ℝ) (p s : Pulse) : Except PyErr Pulse := do
  let wl ← idlerWl p s
  Pulse.noisePulse rand wl p.tw p.n p.frep

/-- The overlap checks (`DFG_integrand.py:97-105`). -/
noncomputable def checkOverlap (strF : ℝ → String) (i : Pulse) : PyM (Pulse × Pulse) Unit := do
  let wp ← onP (Pulse.wl_nm strF)
  let a ← PyM.lift (pyMax wp)
  let ws ← onS (Pulse.wl_nm strF)
  let b ← PyM.lift (pyMin ws)
  if b < a then PyM.throw .ValueError
  else do
    let ws' ← onS (Pulse.wl_nm strF)
    let c ← PyM.lift (pyMax ws')
    let wi ← PyM.lift (Pulse.wl_nm strF i).1
    let d ← PyM.lift (pyMin wi)
    if d < c then PyM.throw .ValueError else pure ()

/-- An array used together with arrays of length `N`; other lengths do not broadcast. -/
def toFin {α : Type} (N : ℕ) (v : Vec α) : Except PyErr (Fin N → α) :=
  if h : v.len = N then .ok fun i => v.val (i.cast h.symm) else .error .ValueError

/-- The grids `W_mks`, `wl_nm`, `wl_mks` of a pulse, as arrays of length `N`. -/
noncomputable def gridsOf (strF : ℝ → String) (N : ℕ) : PyM Pulse ((Fin N → ℝ) × (Fin N → ℝ) × (Fin N → ℝ)) := do
  let w ← Pulse.W_mks strF
  let w ← PyM.lift (toFin N w)
  let l ← Pulse.wl_nm strF
  let l ← PyM.lift (toFin N l)
  let m ← Pulse.wl_mks strF
  let m ← PyM.lift (toFin N m)
  pure (w, l, m)

/-- The three beams (`DFG_integrand.py:125-146`). -/
noncomputable def makeBeams {N : ℕ} (a : Args) (mode : String) (lamP lamS lamI nP nS nI : Fin N → ℝ) :
    Except PyErr (Beams N) :=
  if a.wg = false then Beams.freeSpace a.waist lamP lamS lamI nP nS nI
  else if mode = "BPM" then .error .AssertionError
  else .ok (Beams.waveguide (a.aeff.getD 0))

/-- `approx_pulse_speed` (`DFG_integrand.py:184-186`). -/
noncomputable def approxSpeed {N : ℕ} (nP nS nI : Fin N → ℝ) : Except PyErr ℝ := do
  let a ← pyMax ⟨N, fun j => cMks / nP j⟩
  let b ← pyMax ⟨N, fun j => cMks / nS j⟩
  let c ← pyMax ⟨N, fun j => cMks / nI j⟩
  .ok (max (max a b) c)

/-- `DFG_integrand.py:116-189`, once the poling domains are known. -/
noncomputable def assemble (strF : ℝ → String) (a : Args) (X : Crystal) (dom : List ℝ × List ℝ) (i : Pulse) :
    PyM (Pulse × Pulse) Built := do
  let s ← PyM.get
  let N := s.2.n
  if ¬ (s.1.n = s.2.n ∧ s.2.n = i.n) then PyM.throw .ValueError
  else do
    let ax : Option String := if a.wg = false ∧ X.mode = "BPM" then some "o" else none
    let axP : Option String := if a.wg = false ∧ X.mode = "BPM" then some "mix" else none
    let gp ← onP (gridsOf strF N)
    let gs ← onS (gridsOf strF N)
    let gi ← PyM.lift (gridsOf strF N i).1
    let nP := fun j => X.n axP (gp.2.1 j)
    let nS := fun j => X.n ax (gs.2.1 j)
    let nI := fun j => X.n ax (gi.2.1 j)
    let b ← PyM.lift (makeBeams a X.mode gp.2.2 gs.2.2 gi.2.2 nP nS nI)
    let ap ← PyM.lift (s.1.AW >>= toFin N)
    let as ← PyM.lift (s.2.AW >>= toFin N)
    let ai ← PyM.lift (i.AW >>= toFin N)
    if h : N / 2 < N then do
      let c ← PyM.lift (argmin fun j => -‖ap j‖)
      let v ← PyM.lift (approxSpeed nP nS nI)
      pure
        { N := N
          prob :=
            { mode := X.mode, deff := X.deff, len := X.len, domains := dom
              p := Wave.make gp.1 gp.2.2 nP ⟨N / 2, h⟩
              s := Wave.make gs.1 gs.2.2 nS ⟨N / 2, h⟩
              i := Wave.make gi.1 gi.2.2 nI ⟨N / 2, h⟩
              speed := v, gouy := a.gouy, disableSPM := a.disableSPM, beams := b }
          pump := s.1, sgnl := s.2, idlr := i
          ystart := join ap as ai
          center := c }
    else PyM.throw .IndexError

/-- `dfg_problem.__init__` (`DFG_integrand.py:58-189`); the value `none` means that `precompute_poling` does not end. -/
noncomputable def dfgInit (strF : ℝ → String) (rand : ℕ → ℝ) (a : Args) (X : Crystal) :
    PyM (Pulse × Pulse) (Option Built) :=
  if a.wg = true ∧ a.aeff = none then PyM.throw .AssertionError
  else do
    let s ← PyM.get
    let i ← PyM.lift (makeIdler rand s.1 s.2)
    checkOverlap strF i
    match (if X.mode = "PP" then precomputePoling X.pp X.len else some ([], [])) with
    | none => pure none
    | some dom => do
      let b ← assemble strF a X dom i
      pure (some b)

end PyNLO.Dfg
