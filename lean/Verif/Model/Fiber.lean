import Verif.Model.Pulse
import Mathlib.Data.Nat.Factorial.Basic

/-!
# Model of `src/pynlo/media/fibers/fiber.py` and `calculators.py`

External routines are arbitrary: `polyfit` (least-squares fit, highest order first), `spline`
(`InterpolatedUnivariateSpline`).  A `fiberspecs` dictionary is a record of optional entries; a missing
entry raises `KeyError` on access.  Array-valued division by zero (NumPy `inf`) is totalised; theorems
carry hypotheses that exclude it.
-/

namespace PyNLO

/-- `np.gradient(y)` with unit spacing: one-sided at the ends, central inside; fewer than two entries
raise `ValueError`. -/
noncomputable def npGradient (y : Vec ℝ) : Except PyErr (Vec ℝ) :=
  if h : 2 ≤ y.len then
    .ok ⟨y.len, fun i =>
      if (i : ℕ) = 0 then y.val ⟨1, by omega⟩ - y.val ⟨0, by omega⟩
      else if h1 : (i : ℕ) + 1 = y.len then y.val ⟨i, by omega⟩ - y.val ⟨i - 1, by omega⟩
      else (y.val ⟨i + 1, by omega⟩ - y.val ⟨i - 1, by omega⟩) / 2⟩
  else .error .ValueError

/-- `np.diff(y, 2)`: second differences (empty for fewer than three entries). -/
noncomputable def npDiff2 (y : Vec ℝ) : Vec ℝ :=
  ⟨y.len - 2, fun i => (y.val ⟨i + 2, by omega⟩ - y.val ⟨i + 1, by omega⟩) -
    (y.val ⟨i + 1, by omega⟩ - y.val ⟨i, by omega⟩)⟩

namespace Fiber

/-- least-squares polynomial fit: abscissae, ordinates, degree ↦ coefficients, highest order first -/
abbrev PolyFit := Vec ℝ → Vec ℝ → ℕ → Except PyErr (Vec ℝ)

/-- spline through the given points -/
abbrev Spline := Vec ℝ → Vec ℝ → Except PyErr (ℝ → ℝ)

/-! ## `calculators.py` -/

/-- Result of `DTabulationToBetas(..., return_diagnostics=True)`; without diagnostics only `betas`. -/
structure DTabResult where
  betas : Vec ℝ
  omegaAxis : Vec ℝ
  betaTwo : Vec ℝ
  polyFit : Vec ℝ

/-- `calculators.py:48` angular frequency axis, rad/ps after line 55. -/
noncomputable def omegaOf (lambda0 lam : ℝ) : ℝ :=
  (2 * Real.pi * cMks / (lam * 10 ^ (-9 : ℤ)) - 2 * Real.pi * cMks / (lambda0 * 10 ^ (-9 : ℤ))) * 10 ^ (-12 : ℤ)

/-- `calculators.py:51-53` `betaTwo`, ps²/m, from the converted `D` (s/m/m). -/
noncomputable def betaTwoOf (lam D : ℝ) : ℝ :=
  -D * (lam * 10 ^ (-9 : ℤ)) ^ 2 / (2 * Real.pi * cMks) * 10 ^ 24

/-- `calculators.py:45` in-place conversion of one table row `(λ, D)`. -/
noncomputable def convRow (r : ℝ × ℝ) : ℝ × ℝ :=
  (r.1, r.2 * 10 ^ (-12 : ℤ) * 10 ^ 9 * 10 ^ (-3 : ℤ))

/-- `calculators.py:31-86` `DTabulationToBetas` on an array argument (`DDataIsFile=False`).  The state is the
caller's array: `DTab = DData[:]` is a view, so line 45 writes through to it.  Plotting is off in the source.
`2πc/(λ0·1e-9)` is a division of Python floats and raises at zero. -/
noncomputable def dTabulationToBetas (polyfit : PolyFit) (lambda0 : ℝ) (order : ℕ) :
    PyM (Vec (ℝ × ℝ)) DTabResult := fun tab =>
  let tab := tab.map convRow
  if lambda0 = 0 then (.error .ZeroDivisionError, tab)
  else
    let om := tab.map fun r => omegaOf lambda0 r.1
    let b2 := tab.map fun r => betaTwoOf r.1 r.2
    match polyfit om b2 order with
    | .error e => (.error e, tab)
    | .ok co =>
      -- `Betas = polyFitCo[::-1]`, then `Betas[i] = Betas[i] * factorial(i)`
      let betas : Vec ℝ := ⟨co.len, fun i => co.val i.rev * (Nat.factorial i)⟩
      let fit := om.map fun w => ∑ i : Fin co.len, betas.val i / (Nat.factorial i) * w ^ (i : ℕ)
      (.ok ⟨betas, om, b2, fit⟩, tab)

/-- `calculators.py:38-39`: with `DDataIsFile=True` the table is a fresh array read from the file.  (The source passes `skiprows` to
`np.genfromtxt`; NumPy 1.10 and later reject that keyword with `TypeError`.  The model describes versions that accept it.) -/
noncomputable def dTabulationFile (polyfit : PolyFit) (lambda0 : ℝ) (file : Vec (ℝ × ℝ)) (order : ℕ) :
    Except PyErr DTabResult := (dTabulationToBetas polyfit lambda0 order file).1

/-! ## `fiber.py` -/

/-- The entries of a `fiberspecs` dictionary (`fiber.py:35-50`). -/
structure Specs where
  format : Option String := none
  isGain : Option Bool := none
  /-- `gain_x_data`: missing, present and `None`, or present with data -/
  gainX : Option (Option (Vec ℝ)) := none
  gainXUnits : Option String := none
  gainY : Option (Vec ℝ) := none
  gamma : Option ℝ := none
  gvdUnits : Option String := none
  gvdCenter : Option ℝ := none
  dispData : Option (Vec ℝ) := none
  xUnits : Option String := none
  yUnits : Option String := none
  xData : Option (Vec ℝ) := none
  yData : Option (Vec ℝ) := none

/-- What a user dispersion function returns.  Simplification: a return value of the wrong kind for the
current format raises `ValueError`. -/
inductive DispOut where
  | coeffs (b : Vec ℝ)
  | table (x y : Vec ℝ)

/-- Attributes of a `FiberInstance` other than `fiberspecs` (`fiber.py:52-67`).  `none` for an attribute
the class does not define (`AttributeError`) or defines as `None`. -/
structure Fib where
  betas : Option (Vec ℝ) := none
  length : Option ℝ := none
  fibertype : Option String := none
  polyOrder : Option ℕ := none
  gamma : Option ℝ := none
  gain : Option ℝ := none
  centerWl : Option ℝ := none
  x : Option (Vec ℝ) := none
  y : Option (Vec ℝ) := none
  dispChanges : Bool := false
  dispFun : Option (ℝ → DispOut) := none
  gammaChanges : Bool := false
  gammaFun : Option (ℝ → ℝ) := none

/-- `fiber.py:59-67` `__init__` -/
def Fib.new : Fib := {}

/-- missing dictionary key -/
def key {α : Type} : Option α → Except PyErr α
  | some a => .ok a
  | none => .error .KeyError

/-- missing attribute -/
def attr {α : Type} : Option α → Except PyErr α
  | some a => .ok a
  | none => .error .AttributeError

/-- `fiber.py:361-382` `generate_fiber`: the new `fiberspecs` dictionary … -/
noncomputable def genSpecs (gain : ℝ) : Specs :=
  { format := some "GVD", isGain := some (if gain = 0 then false else true), gainX := some none }

/-- … and the attributes.  `dispersion_changes_with_z`, `gamma_changes_with_z` are left alone. -/
noncomputable def genFib (length wl : ℝ) (betas : Vec ℝ) (gamma gain : ℝ) (units label : String) (f : Fib) : Fib :=
  { f with length := some length, fibertype := some label, gain := some gain, centerWl := some wl, gamma := some gamma, betas := some (if units = "ps^n/km" then betas.map (· * 10 ^ (-3 : ℤ)) else betas) }

/-- `fiber.py:109-129` `load_dispersion` -/
noncomputable def loadDispersion (s : Specs) : PyM Fib (Option Unit) := fun f =>
  match s.format with
  | none => (.error .KeyError, f)
  | some fmt =>
    if fmt = "D" then
      match s.xUnits, s.yUnits, s.xData, s.yData with
      | some _, some _, some x, some y => (.ok (some ()), { f with x := some x, y := some y })
      | some _, some _, some x, none => (.error .KeyError, { f with x := some x })
      | _, _, _, _ => (.error .KeyError, f)
    else if fmt = "GVD" then
      match s.gvdUnits, s.gvdCenter with
      | some u, some c =>
        let f := { f with centerWl := some c }
        if u = "ps^n/km" then
          match s.dispData with
          | some d => (.ok (some ()), { f with betas := some (d.map (· / 10 ^ 3)) })
          | none => (.error .KeyError, f)
        else (.ok (some ()), f)
      | _, _ => (.error .KeyError, f)
    else (.ok none, f)

/-- `fiber.py:70-78` `load_from_db`, after the dictionary `s` was found: attributes. -/
noncomputable def loadFromDb (s : Specs) (length : ℝ) (name : String) (order : ℕ) : PyM Fib (Option Unit) := fun f =>
  let f := { f with fibertype := some name, length := some length, betas := some ⟨1, fun _ => 0⟩ }
  match s.gamma with
  | none => (.error .KeyError, f)
  | some g => loadDispersion s { f with gamma := some g, polyOrder := some order }

/-- `fiber.py:80-107` `load_from_file` (file contents `x`, `y`): in-place changes to the dictionary … -/
noncomputable def fileSpecs (gain : ℝ) (s : Specs) : Specs :=
  { s with format := some "D", isGain := some (if gain = 0 then false else true), gainX := some none }

/-- … and attributes. -/
def fileFib (name : String) (length gamma gain : ℝ) (order : ℕ) (x y : Vec ℝ) (f : Fib) : Fib :=
  { f with fibertype := some name, polyOrder := some order, gain := some gain, length := some length, gamma := some gamma, x := some x, y := some y }

/-- `fiber.py:172-174` `set_dispersion_function` -/
def dispFunSpecs (fmt : String) (s : Specs) : Specs := { s with format := some fmt }
/-- `fiber.py:172-174` -/
def dispFunFib (g : ℝ → DispOut) (f : Fib) : Fib := { f with dispChanges := true, dispFun := some g }

/-- `fiber.py:176-189` `set_gamma_function` -/
def setGammaFunction (g : ℝ → ℝ) (f : Fib) : Fib := { f with gammaFun := some g, gammaChanges := true }

/-- `fiber.py:191-210` `get_gamma` -/
def getGamma (f : Fib) (z : ℝ) : Except PyErr (Option ℝ) :=
  if f.gammaChanges then (attr f.gammaFun).map fun g => some (g z) else .ok f.gamma

/-- `fiber.py:250-254`: reload when the dispersion changes with z -/
def reload (fmt : String) (z : ℝ) : PyM Fib Unit := fun f =>
  if f.dispChanges then
    match f.dispFun with
    | none => (.error .AttributeError, f)
    | some g =>
      if fmt = "D" ∨ fmt = "n" then
        match g z with
        | .table x y => (.ok (), { f with x := some x, y := some y })
        | .coeffs _ => (.error .ValueError, f)
      else if fmt = "GVD" then
        match g z with
        | .coeffs b => (.ok (), { f with betas := some b })
        | .table _ _ => (.error .ValueError, f)
      else (.ok (), f)
  else (.ok (), f)

/-- `np.transpose(np.vstack((x, y)))` -/
def stack (x y : Vec ℝ) : Except PyErr (Vec (ℝ × ℝ)) :=
  if h : x.len = y.len then .ok ⟨x.len, fun i => (x.val i, y.val (i.cast h))⟩ else .error .ValueError

/-- Taylor sum `Σ betas[i]/(i+2)! · v^(i+2)` (`fiber.py:263-264`, `273-275`) -/
noncomputable def taylor (b : Vec ℝ) (v : ℝ) : ℝ :=
  ∑ i : Fin b.len, b.val i / (Nat.factorial ((i : ℕ) + 2)) * v ^ ((i : ℕ) + 2)

/-- `fiber.py:257-265`, D format: new `self.betas` and the result -/
noncomputable def betasD (polyfit : PolyFit) (p : Pulse) : PyM Fib (Vec ℝ) := fun f =>
  match (do
    let lam ← p.center_wavelength_nm
    let x ← attr f.x
    let y ← attr f.y
    let tab ← stack x y
    let order ← (match f.polyOrder with
      | some o => .ok o
      | none => .error .TypeError)
    let r ← (dTabulationToBetas polyfit lam order tab).1
    let v ← p.V_THz
    .ok (r.betas, v) : Except PyErr (Vec ℝ × Vec ℝ)) with
  | .error e => (.error e, f)
  | .ok (b, v) => (.ok (v.map (taylor b)), { f with betas := some b })

/-- `fiber.py:267-275`, GVD format, before referencing.  `self.betas is None` raises `TypeError`. -/
noncomputable def rawGVD (f : Fib) (p : Pulse) : Except PyErr (Vec ℝ) := do
  let wl ← attr f.centerWl
  if wl = 0 then .error .ZeroDivisionError
  else do
    let b ← (match f.betas with
      | some b => .ok b
      | none => .error .TypeError)
    let w ← p.W_THz
    .ok (w.map fun w => taylor b (w - 2 * Real.pi * cNmps / wl))

/-- `a[::-1]` -/
def vrev (a : Vec ℝ) : Vec ℝ := ⟨a.len, fun i => a.val i.rev⟩

/-- `fiber.py:277-287`, n format, before referencing (`3e8` as in the source). -/
noncomputable def rawN (spline : Spline) (f : Fib) (p : Pulse) : Except PyErr (Vec ℝ) := do
  let x ← attr f.x
  let y ← attr f.y
  let w := x.map fun x => 2 * Real.pi * 10 ^ (-12 : ℤ) * (3 * 10 ^ 8) / (x * 10 ^ (-9 : ℤ))
  let b ← Vec.zip (fun y x => y * 2 * Real.pi / (x * 10 ^ (-9 : ℤ))) y x
  let g ← spline (vrev w) (vrev b)
  let wp ← p.W_THz
  .ok (wp.map g)

/-- `fiber.py:294-297`: move to the frame of the pulse -/
noncomputable def reference (p : Pulse) (B : Vec ℝ) : Except PyErr (Vec ℝ) := do
  let v ← p.V_THz
  let c ← argmin fun i => |v.val i|
  let gB ← npGradient B
  let w ← p.W_THz
  let gW ← npGradient w
  let slope ← Vec.zip (fun a b => a / b) gB gW
  let s ← slope.item c
  let b0 ← B.item c
  Vec.zip (fun b v => b - s * v - b0) B v

/-- Return value of `get_betas`: an array, or the integer `-1` for an unknown format. -/
inductive BetaRes where
  | arr (v : Vec ℝ)
  | minusOne

/-- `fiber.py:214-303` `get_betas` -/
noncomputable def getBetas (polyfit : PolyFit) (spline : Spline) (s : Specs) (p : Pulse) (z : ℝ) : PyM Fib BetaRes := fun f =>
  match s.format with
  | none => (.error .KeyError, f)
  | some fmt =>
    match reload fmt z f with
    | (.error e, f) => (.error e, f)
    | (.ok (), f) =>
      if fmt = "D" then
        match betasD polyfit p f with
        | (.ok v, f) => (.ok (.arr v), f)
        | (.error e, f) => (.error e, f)
      else if fmt = "GVD" then
        ((rawGVD f p >>= reference p).map .arr, f)
      else if fmt = "n" then
        ((rawN spline f p >>= reference p).map .arr, f)
      else (.ok .minusOne, f)

/-- `fiber.py:306-345` `get_gain`; `is_simple_fiber` is `False` for every instance (`fiber.py:63`).  With a
gain spectrum the objective passed to the minimiser reads `pulse.frep_Hz`, an attribute no pulse has. -/
noncomputable def getGain (s : Specs) (f : Fib) (p : Pulse) : Except PyErr (Vec ℝ) := do
  let g ← key s.isGain
  if g then do
    let gx ← key s.gainX
    match gx with
    | some _ => do
      let _ ← key s.gainXUnits
      let _ ← key s.gainY
      .error .AttributeError
    | none => do
      let g ← attr f.gain
      .ok ⟨p.n, fun _ => 1 * g⟩
  else .ok (Vec.zeros p.n)

/-- `fiber.py:351-357` `Beta2`.  With fewer than three points the second difference is empty and
`out[0]` raises `IndexError`; `get_betas` returning `-1` makes `np.diff` raise `ValueError`. -/
noncomputable def beta2 (polyfit : PolyFit) (spline : Spline) (s : Specs) (p : Pulse) : PyM Fib (Vec ℝ) := fun f =>
  match (do
    let v ← p.V_THz
    let a ← v.item 1
    let b ← v.item 0
    .ok (a - b) : Except PyErr ℝ) with
  | .error e => (.error e, f)
  | .ok dw =>
    match getBetas polyfit spline s p 0 f with
    | (.error e, f) => (.error e, f)
    | (.ok .minusOne, f) => (.error .ValueError, f)
    | (.ok (.arr B), f) =>
      let out := (npDiff2 B).map (· / dw ^ 2)
      (do
        let o ← out.item 0
        let out := Vec.append ⟨1, fun _ => o⟩ out
        let l ← out.item (out.len - 1)
        .ok (Vec.append out ⟨1, fun _ => l⟩), f)

/-- `fiber.py:347-349` `Beta2_to_D`, on a pulse whose wavelength grid is `wl` (see `Pulse.wl_nm`). -/
noncomputable def beta2ToD (polyfit : PolyFit) (spline : Spline) (s : Specs) (p : Pulse) (wl : Vec ℝ) : PyM Fib (Vec ℝ) := fun f =>
  match beta2 polyfit spline s p f with
  | (.error e, f) => (.error e, f)
  | (.ok b, f) => (Vec.zip (fun l b => -2 * Real.pi * cNmps / l ^ 2 * b * 1000) wl b, f)

end Fiber

end PyNLO
