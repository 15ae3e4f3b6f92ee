import Verif.Model.Pulse
import Mathlib.Analysis.SpecialFunctions.Trigonometric.DerivHyp

/-!
# Model of `src/pynlo/light/DerivedPulses.py`

`CWPulse.gen_OSA` is in `Model/PulseFiles`.  Square roots of
negative powers and divisions by a zero width give `nan` in NumPy and are excluded by theorem hypotheses.
-/

namespace PyNLO

open Complex

namespace Pulse

/-- Run a constructor body on a freshly allocated object. -/
def construct (p : Pulse) (body : PyM Pulse Unit) : Except PyErr Pulse :=
  match body p with
  | (.ok _, q) => .ok q
  | (.error e, _) => .error e

/-- The common prologue `DerivedPulses.py:44-49` (= 77-81, 105-109): two assertions, then centre
wavelength and window. -/
noncomputable def configure (wl tw : ℝ) : PyM Pulse Unit :=
  if ¬ 1 < wl then .throw .AssertionError
  else if ¬ 1 < tw then .throw .AssertionError
  else do
    setCenterWavelengthNm wl
    PyM.modify (setTimeWindowPs tw)

/-- `DerivedPulses.py:57` (= 89, 118)
`set_AT(AT * sqrt(power / (frep_MHz*1e6*calc_epp())))`. -/
noncomputable def scaleToAverage (power frep : ℝ) : PyM Pulse Unit := do
  let a ← PyM.read AT
  let e ← PyM.read calcEpp
  setAT (a.map (· * (Real.sqrt (power / (frep * 10 ^ 6 * e)) : ℂ)))

/-- Common body of the three analytic pulses: prologue, `set_AT(shape(T_ps))`, optional rescaling to an
average power, then the two chirps (`DerivedPulses.py:44-60`, `76-91`, `104-121`). -/
noncomputable def shapedPulse (shape : ℝ → ℝ) (rescale : Option ℝ) (wl tw frep : ℝ) (N : ℕ)
    (GDD TOD c2 c3 T0 : ℝ) : Except PyErr Pulse :=
  construct (init (some frep) (some N)) do
    configure wl tw
    let t ← PyM.read T_ps
    setAT (t.map fun x => ((shape x : ℝ) : ℂ))
    match rescale with
    | none => pure ()
    | some power => scaleToAverage power frep
    chirpPulseW GDD TOD 0 none
    chirpPulseT c2 c3 T0

/-- `DerivedPulses.py:29-60` `SechPulse.__init__`. -/
noncomputable def sechPulse (power T0 wl tw frep : ℝ) (N : ℕ) (GDD TOD c2 c3 : ℝ) (avg : Bool) :
    Except PyErr Pulse :=
  if avg = false then
    shapedPulse (fun t => Real.sqrt power / Real.cosh (t / T0)) none wl tw frep N GDD TOD c2 c3 T0
  else
    shapedPulse (fun t => 1 / Real.cosh (t / T0)) (some power) wl tw frep N GDD TOD c2 c3 T0

/-- `DerivedPulses.py:62-91` `GaussianPulse.__init__`. -/
noncomputable def gaussianPulse (power T0 wl tw frep : ℝ) (N : ℕ) (GDD TOD c2 c3 : ℝ) (avg : Bool) :
    Except PyErr Pulse :=
  shapedPulse (fun t => Real.sqrt power * Real.exp (-2.77 * 0.5 * t ^ 2 / T0 ^ 2))
    (if avg = false then none else some power) wl tw frep N GDD TOD c2 c3 T0

/-- `np.sinc` -/
noncomputable def npSinc (x : ℝ) : ℝ := if x = 0 then 1 else Real.sin (Real.pi * x) / (Real.pi * x)

/-- `DerivedPulses.py:93-121` `SincPulse.__init__`. -/
noncomputable def sincPulse (power fwhm wl tw frep : ℝ) (N : ℕ) (GDD TOD c2 c3 : ℝ) (avg : Bool) :
    Except PyErr Pulse :=
  let T0 := fwhm / 3.7909885
  if avg = false then
    shapedPulse (fun t => Real.sqrt power * npSinc (t / (T0 * Real.pi))) none wl tw frep N GDD TOD c2 c3 T0
  else
    shapedPulse (fun t => 1 / npSinc (Real.pi * t / (T0 * Real.pi))) (some power)
      wl tw frep N GDD TOD c2 c3 T0

/-- `DerivedPulses.py:123-176` `FROGPulse.__init__`.  The data file is abstracted to the two interpolants
(`none`: the file cannot be opened, which is caught and only prints a message).  `strF` is `str` of floats
(wavelength cache). -/
noncomputable def frogPulse (strF : ℝ → String) (file : Option ((ℝ → ℝ) × (ℝ → ℝ))) (tw wl power frep : ℝ)
    (N : ℕ) (avg flip : Bool) : Except PyErr Pulse :=
  construct (init (some frep) (some N)) do
    if ¬ 1 < wl then PyM.throw .AssertionError
    else if ¬ 1 < tw then PyM.throw .AssertionError
    else do
      PyM.modify (setTimeWindowPs tw)
      setCenterWavelengthNm wl
      let power := if avg then power / (frep * 10 ^ 6) else power
      match file with
      | none => pure ()
      | some (inten, phase) => do
        let g1 ← wl_nm strF
        let g2 ← wl_nm strF
        let a ← PyM.lift (Vec.zip (fun (x y : ℝ) =>
          (inten x : ℂ) * exp (I * ((if flip then -phase y else phase y : ℝ) : ℂ))) g1 g2)
        setAW a
        let e ← PyM.read calcEpp
        let b ← PyM.read AT
        setAT (b.map (· * (Real.sqrt (power / e) : ℂ)))

/-- `DerivedPulses.py:178-186` `NoisePulse.__init__`; `rand` are the draws of `np.random.rand`. -/
noncomputable def noisePulse (rand : ℕ → ℝ) (wl tw : ℝ) (N : ℕ) (frep : Option ℝ) : Except PyErr Pulse :=
  construct (init frep (some N)) do
    setCenterWavelengthNm wl
    PyM.modify (setTimeWindowPs tw)
    let p ← PyM.get
    setAW ⟨p.n, fun i => ((10 : ℝ) ^ (-30 : ℤ) : ℝ) * exp (I * 2 * Real.pi * I * (rand i : ℂ))⟩

/-- `a[i] = v` on an array, Python index (negative counts from the end). -/
def setItem {α : Type} (a : Vec α) (i : ℤ) (v : α) : Except PyErr (Vec α) :=
  if 0 ≤ i ∧ i < a.len then .ok ⟨a.len, fun j => if ((j : ℕ) : ℤ) = i then v else a.val j⟩
  else if -(a.len : ℤ) ≤ i ∧ i < 0 then
    .ok ⟨a.len, fun j => if ((j : ℕ) : ℤ) = i + a.len then v else a.val j⟩
  else .error .IndexError

/-- `DerivedPulses.py:196-204`: `CWPulse.__init__` without offset. -/
noncomputable def cwCentered (power wl tw : ℝ) : PyM Pulse Unit := do
  setCenterWavelengthNm wl
  PyM.modify (setTimeWindowPs tw)
  let p ← PyM.get
  setAT ⟨p.n, fun _ => 1⟩
  let a ← PyM.read AW
  setAW (a.map (· * (Real.sqrt power : ℂ) / ((∑ i, ‖a.val i‖ : ℝ) : ℂ)))

/-- `DerivedPulses.py:209-214`: `set_center_wavelength_nm(c / center_THz)`.  These are NumPy floats: a zero
centre frequency becomes an infinite wavelength and comes back as frequency zero. -/
noncomputable def setCenterViaNm (centerTHz : ℝ) : PyM Pulse Unit :=
  if centerTHz = 0 then PyM.modify (setCenterFrequency 0)
  else setCenterWavelengthNm (cNmps / centerTHz)

/-- `DerivedPulses.py:206-217`: `CWPulse.__init__` with offset. -/
noncomputable def cwOffset (power wl tw off : ℝ) : PyM Pulse Unit := do
  PyM.modify (setTimeWindowPs tw)
  setCenterViaNm (cNmps / wl - pyRound (off / (1 / tw)) * (1 / tw))
  let p ← PyM.get
  let aws ← PyM.lift (setItem (Vec.zeros p.n) ((p.n / 2 : ℕ) + pyRound (off / (1 / tw))) (Real.sqrt power : ℂ))
  setAW aws

/-- `DerivedPulses.py:188-217` `CWPulse.__init__`. -/
noncomputable def cwPulse (power wl tw : ℝ) (N : ℕ) (offset : Option ℝ) : Except PyErr Pulse :=
  construct (init none (some N)) <|
    if ¬ 1 < wl then PyM.throw .AssertionError
    else if ¬ 1 < tw then PyM.throw .AssertionError
    else
      match offset with
      | none => cwCentered power wl tw
      | some off => cwOffset power wl tw off

end Pulse

end PyNLO
