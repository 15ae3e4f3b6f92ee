import Verif.Model.DfgFft
import Verif.Model.Beam
import Verif.Model.DerivedPulses
import Verif.Py.Loop
import Mathlib.Order.Interval.Finset.Fin

/-!
# Difference frequency generation

`src/pynlo/interactions/ThreeWaveMixing/DFG_integrand.py`.  Printing and plotting are not modelled; the overlap integrals
of `deriv` are only plotted and are left out.  The arrays that the crystal returns for the three grids are arguments.
-/

namespace PyNLO.Dfg

open Real Beam

variable {N : ℕ}

/-! ## Poling -/

/-- State of the loop of `precompute_poling`. -/
structure PolSt where
  z : ℝ
  lb : List ℝ
  ub : List ℝ

/-- One round of `precompute_poling` (`DFG_integrand.py:271-277`); `len` is the crystal length, `pp` the period function.
The warning about short periods only prints. -/
noncomputable def polBody (pp : ℝ → ℝ) (len : ℝ) (s : PolSt) : PolSt ⊕ (List ℝ × List ℝ) :=
  if s.z < len then
    .inl ⟨s.z + pp s.z, s.lb ++ [s.z + pp s.z * (1 / 2)], s.ub ++ [s.z + pp s.z * 1]⟩
  else .inr (s.lb, s.ub)

/-- `precompute_poling` (`DFG_integrand.py:267-282`): `domain_lb`, `domain_ub`; `none` if the loop never ends. -/
noncomputable def precomputePoling (pp : ℝ → ℝ) (len : ℝ) : Option (List ℝ × List ℝ) :=
  runLoop (polBody pp len) ⟨0, [], []⟩

open Classical in
/-- `poling` (`DFG_integrand.py:244-265`). -/
noncomputable def poling (dom : List ℝ × List ℝ) (x : ℝ) : ℝ :=
  if ∃ d ∈ dom.1.zip dom.2, d.1 < x ∧ x < d.2 then -1 else 1

/-! ## The problem after construction -/

/-- What a problem holds about one of the three waves: `W_mks` of its pulse, relative wavenumbers and the central one,
indices (`DFG_integrand.py:166-180`). -/
structure Wave (N : ℕ) where
  W : Fin N → ℝ
  k : Fin N → ℝ
  k0 : ℝ
  n : Fin N → ℝ

/-- The three beams (`DFG_integrand.py:125-146`): pump, signal, idler. -/
inductive Beams (N : ℕ) where
  | free (p s i : OneD N)
  | wg (p s i : WG)

/-- A `dfg_problem`. -/
structure Prob (N : ℕ) where
  mode : String
  deff : ℝ
  len : ℝ
  domains : List ℝ × List ℝ
  p : Wave N
  s : Wave N
  i : Wave N
  speed : ℝ
  gouy : Bool
  disableSPM : Bool
  beams : Beams N

/-- `DFG_integrand.py:166-177` for one wave: index and wavelength grids to relative wavenumbers. -/
noncomputable def Wave.make (W lam n : Fin N → ℝ) (c : Fin N) : Wave N :=
  { W := W, k := fun j => pulseK n lam j - pulseK n lam c, k0 := pulseK n lam c, n := n }

/-- The three beams in waveguide mode (`DFG_integrand.py:142-146`). -/
noncomputable def Beams.waveguide (squm : ℝ) : Beams N := .wg (WG.init squm) (WG.init squm) (WG.init squm)

/-- The three beams in free space (`DFG_integrand.py:126-140`); `lamP`… are the wavelength grids, `nP`… the indices along
the axes of the three beams. -/
noncomputable def Beams.freeSpace (waist : ℝ) (lamP lamS lamI nP nS nI : Fin N → ℝ) : Except PyErr (Beams N) := do
  let p ← (OneD.init waist lamP).matchCentral waist nP
  let s := (OneD.init waist lamS).matchConfocal p nS nP
  let i := (OneD.init waist lamI).matchConfocal p nI nP
  pure (.free p s i)

/-! ## The integrand -/

/-- `Ap`, `As`, `Ai` (`DFG_integrand.py:285-290`). -/
def Ap (y : Fin (3 * N) → ℂ) : Fin N → ℂ := fun j => y ⟨j, by have := j.isLt; omega⟩
def As (y : Fin (3 * N) → ℂ) : Fin N → ℂ := fun j => y ⟨N + j, by have := j.isLt; omega⟩
def Ai (y : Fin (3 * N) → ℂ) : Fin N → ℂ := fun j => y ⟨2 * N + j, by have := j.isLt; omega⟩

/-- `dydx[0:L] = p; dydx[L:2*L] = s; dydx[2*L:3*L] = i` (`DFG_integrand.py:440-449`). -/
def join (p s i : Fin N → ℂ) : Fin (3 * N) → ℂ := fun k =>
  if h : (k : ℕ) < N then p ⟨k, h⟩
  else if h2 : (k : ℕ) < 2 * N then s ⟨k - N, by omega⟩
  else i ⟨k - 2 * N, by have := k.isLt; omega⟩

/-- Linear phasors (`DFG_integrand.py:310-313`). -/
noncomputable def Wave.phasor (w : Wave N) (z t : ℝ) : Fin N → ℂ := fun j =>
  Complex.exp (Complex.I * (((w.k j + w.k0) * z - t * w.W j : ℝ) : ℂ))

/-- `np.mean` -/
noncomputable def mean (x : Fin N → ℝ) : ℝ := (∑ j, x j) / N

/-- The three conversion factors at distance `f` from the focus (`DFG_integrand.py:325-391`). -/
noncomputable def Prob.scales (q : Prob N) (f : ℝ) : (Fin N → ℝ) × (Fin N → ℝ) × (Fin N → ℝ) :=
  match q.beams with
  | .wg p s i => (p.rtPToA q.p.n, s.rtPToA q.s.n, i.rtPToA q.i.n)
  | .free p s i =>
    let wp := p.waistAt f q.p.n
    let ws := s.waistAt f q.s.n
    let wi := i.waistAt f q.i.n
    if mean wp ≤ mean ws ∧ mean wp ≤ mean wi then
      (p.rtPToA2 q.p.n f none, s.rtPToA2 q.s.n 0 (some wp), i.rtPToA2 q.i.n 0 (some wp))
    else if mean ws ≤ mean wi then
      (p.rtPToA2 q.p.n 0 (some ws), s.rtPToA2 q.s.n f none, i.rtPToA2 q.i.n 0 (some ws))
    else (p.rtPToA2 q.p.n 0 (some wi), s.rtPToA2 q.s.n 0 (some wi), i.rtPToA2 q.i.n 0 (some wi))

/-- Gouy factors of the three beams (`DFG_integrand.py:316-320`). -/
noncomputable def Prob.gouyFactors (q : Prob N) (f : ℝ) : (Fin N → ℂ) × (Fin N → ℂ) × (Fin N → ℂ) :=
  if q.gouy then
    match q.beams with
    | .wg p s i => (p.gouy f q.p.n, s.gouy f q.s.n, i.gouy f q.i.n)
    | .free p s i => (p.gouy f q.p.n, s.gouy f q.s.n, i.gouy f q.i.n)
  else (fun _ => 1, fun _ => 1, fun _ => 1)

/-- The nonlinear coefficient at `z` (`DFG_integrand.py:302-307`). -/
noncomputable def Prob.deffAt (q : Prob N) (z : ℝ) : Except PyErr ℝ :=
  if q.mode = "PP" then .ok (poling q.domains z * q.deff)
  else if q.mode = "BPM" ∨ q.mode = "simple" then .ok q.deff
  else .error .AttributeError

/-- One slice of the derivative, e.g. `1j*2*AsAi*W*deff/(c*n)/P_to_a` (`DFG_integrand.py:440-449`). -/
noncomputable def slice (w : Wave N) (deff : ℝ) (a : Fin N → ℝ) (mix : Fin N → ℂ) : Fin N → ℂ := fun j =>
  Complex.I * 2 * mix j * (w.W j : ℂ) * (deff : ℂ) / ((cMks * w.n j : ℝ) : ℂ) / (a j : ℂ)

/-- `deriv` (`DFG_integrand.py:300-449`): the array written to `dydx` and the FFT buffers afterwards.  With
`disable_SPM=False` the call of `gen_jl` reads `self.pump.w_hz` (`DFG_integrand.py:215`), an attribute that no pulse has. -/
noncomputable def Prob.deriv (q : Prob N) (fc : FftC N) (z : ℝ) (y : Fin (3 * N) → ℂ) :
    Except PyErr (Fin (3 * N) → ℂ) × FftC N :=
  match q.deffAt z with
  | .error e => (.error e, fc)
  | .ok deff =>
    let t := z / q.speed
    let f := z - q.len / 2
    let g := q.gouyFactors f
    let phiP := fun j => q.p.phasor z t j * g.1 j
    let phiS := fun j => q.s.phasor z t j * g.2.1 j
    let phiI := fun j => q.i.phasor z t j * g.2.2 j
    if q.disableSPM = false then (.error .AttributeError, fc)
    else
      let a := q.scales f
      let c1 := fc.conv (fun j => (a.2.1 j : ℂ) * As y j * phiS j) (fun j => (a.2.2 j : ℂ) * Ai y j * phiI j)
      let AsAi := fun j => (phiP j)⁻¹ * c1.1 j
      let c2 := c1.2.corr (fun j => (a.1 j : ℂ) * Ap y j * phiP j) (fun j => (a.2.1 j : ℂ) * As y j * phiS j)
      let ApAs := fun j => (phiI j)⁻¹ * c2.1 j
      let c3 := c2.2.corr (fun j => (a.1 j : ℂ) * Ap y j * phiP j) (fun j => (a.2.2 j : ℂ) * Ai y j * phiI j)
      let ApAi := fun j => (phiS j)⁻¹ * c3.1 j
      (.ok (join (slice q.p deff a.1 AsAi) (slice q.s deff a.2.1 ApAi) (slice q.i deff a.2.2 ApAs)), c3.2)

end PyNLO.Dfg
