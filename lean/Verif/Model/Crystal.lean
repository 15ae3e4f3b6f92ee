import Verif.Py.Basic
import Verif.Py.Flt
import Verif.Model.Pulse
import Mathlib.Analysis.SpecialFunctions.Pow.Real
import Mathlib.Analysis.SpecialFunctions.Trigonometric.Inverse
import Mathlib.Algebra.BigOperators.Fin

/-!
# Crystals

`src/pynlo/media/crystals/CrystalContainer.py`, `XTAL_PPLN.py`, `XTAL_AgGaSe2.py`; `XTAL_AgGaS.py` is in `CrystalAgGaS`, `Boyd.py` in `CrystalObj`.
Scalars are exact reals; a NumPy scalar that is NaN or infinite is `NFlt.bad`.  Wavelengths handed in by the
caller are Python floats, so that dividing by a zero wavelength raises `ZeroDivisionError`.  Printing is not
modelled.
-/

namespace PyNLO.Xtal

open Real

/-! ## `CrystalContainer.py` -/

/-- `scipy.constants.speed_of_light`. -/
def cMks : ℝ := 299792458

/-- `CrystalContainer.py:32`: speed of light in nm/ps. -/
noncomputable def cNmPs : ℝ := cMks * 1e9 / 1e12

/-- Weights of the 11-point first derivative, as `scipy.misc.central_diff_weights(11, 1)` defines them (the
solution of the Vandermonde system). -/
noncomputable def weights1 : Fin 11 → ℝ :=
  ![-1 / 1260, 5 / 504, -5 / 84, 5 / 21, -5 / 6, 0, 5 / 6, -5 / 21, 5 / 84, -5 / 504, 1 / 1260]

/-- Weights of the 11-point second derivative, `scipy.misc.central_diff_weights(11, 2)`. -/
noncomputable def weights2 : Fin 11 → ℝ :=
  ![1 / 3150, -5 / 1008, 5 / 126, -5 / 21, 5 / 3, -5269 / 1800, 5 / 3, -5 / 21, 5 / 126, -5 / 1008, 1 / 3150]

/-- `scipy.misc.derivative(fn, x0, dx, n, order=11)`: `Σ w[k] fn(x0 + (k-5) dx) / dx**n`. -/
noncomputable def derivative (w : Fin 11 → ℝ) (d : ℕ) (fn : ℝ → ℝ) (x dx : ℝ) : ℝ :=
  (∑ k : Fin 11, w k * fn (x + ((k : ℕ) - 5 : ℝ) * dx)) / dx ^ d

/-- `Crystal.calculate_group_velocity_nm_ps` (`CrystalContainer.py:78-85`) of a crystal with index `fn` along the
axis asked for. -/
noncomputable def groupVelocity (fn : ℝ → ℝ) (wl : ℝ) : ℝ :=
  1 / (1 / cNmPs * (fn wl - wl * derivative weights1 1 fn wl 0.1))

open Classical in
/-- The same with an index function that may raise or give NaN. -/
noncomputable def groupVelocityE (fn : ℝ → Except PyErr NFlt) (wl : ℝ) : Except PyErr NFlt := do
  let ys ← (List.finRange 11).mapM fun k : Fin 11 => fn (wl + ((k : ℕ) - 5 : ℝ) * 0.1)
  let y ← fn wl
  let dn := ((List.finRange 11).zip ys).foldr (fun ky acc => NFlt.map₂ (fun y acc => weights1 ky.1 * y + acc) ky.2 acc)
    (.val 0)
  let inverse := NFlt.map₂ (fun y dn => 1 / cNmPs * (y - wl * (dn / 0.1 ^ 1))) y dn
  match inverse with
  | .bad => pure .bad
  | .val v => pure (if v = 0 then .bad else .val (1 / v))

/-- `Crystal.calculate_pulse_delay_ps` (`CrystalContainer.py:86-97`); `len` is the length of the crystal and
`lenArg` the optional argument.  Where an inverse group velocity vanishes NumPy divides by infinity, giving 0,
as division by zero does here. -/
noncomputable def pulseDelay (fn : ℝ → ℝ) (len : ℝ) (wl1 wl2 : ℝ) (lenArg : Option ℝ := none) : ℝ :=
  let l := match lenArg with
    | none => len * 1e9
    | some a => 1e9 * a
  l / groupVelocity fn wl1 - l / groupVelocity fn wl2

/-- `Crystal.calculate_D_ps_nm_km` (`CrystalContainer.py:98-105`). -/
noncomputable def dispersionD (fn : ℝ → ℝ) (wl : ℝ) : ℝ :=
  wl / cNmPs * derivative weights2 2 fn wl 0.1 * 1e12

/-- `Crystal.calculate_D_fs_um_mm` (`CrystalContainer.py:106-111`). -/
noncomputable def dispersionDfs (fn : ℝ → ℝ) (wl : ℝ) : ℝ := dispersionD fn wl * 1

/-- `Crystal.calculate_mix_phasematching_bw` (`CrystalContainer.py:112-148`) for a scalar signal, when no wavelength
vanishes, the signal is not the pump and the group velocities of signal and idler differ from that of the pump (where one does not, NumPy takes
the other bandwidth and this definition gives 0). -/
noncomputable def mixBandwidth (fn : ℝ → ℝ) (pump signal : ℝ) : ℝ :=
  let idler := 1 / (1 / pump - 1 / signal)
  let vs := groupVelocity fn signal * 1e3
  let vi := groupVelocity fn idler * 1e3
  let vp := groupVelocity fn pump * 1e3
  min |0.886 * π / (1 / vs - 1 / vp)| |0.886 * π / (1 / vi - 1 / vp)| * 1 / cMks

/-! ## `XTAL_PPLN.py` -/

/-- Coefficients of one of the two Sellmeier classes. -/
structure Sell where
  a1 : ℝ
  a2 : ℝ
  a3 : ℝ
  a4 : ℝ
  a5 : ℝ
  a6 : ℝ
  b1 : ℝ
  b2 : ℝ
  b3 : ℝ
  b4 : ℝ
  b5 : ℝ

/-- `XTAL_PPLN.py:32-42`. -/
noncomputable def deng : Sell :=
  ⟨5.39121, 0.100473, 0.20692, 100, 11.34927, 1.544e-2, 4.96827e-7, 3.862e-8, -0.89e-8, 2.657e-5, 9.62119e-10⟩

/-- `XTAL_PPLN.py:58-67`; this class has no `b5`. -/
noncomputable def gayer : Sell :=
  ⟨5.756, 0.0983, 0.2020, 189.32, 12.52, 1.32e-2, 2.860e-6, 4.700e-8, 6.113e-8, 1.516e-4, 0⟩

/-- `XTAL_PPLN.py:50`, `75`. -/
noncomputable def tempF (T : ℝ) : ℝ := (T - 24.5) * (T + 570.82)

/-- The argument of the square root (`XTAL_PPLN.py:51-54`, `76-79`). -/
noncomputable def Sell.nSq (s : Sell) (T wl_nm : ℝ) : ℝ :=
  let u := wl_nm * 1e-3
  let f := tempF T
  s.a1 + s.b1 * f + (s.a2 + s.b2 * f) / (u ^ 2 - (s.a3 + s.b3 * f) ^ 2) + (s.a4 + s.b4 * f) / (u ^ 2 - s.a5 ^ 2)
    - (s.a6 + s.b5 * f) * u ^ 2

open Classical in
/-- `DengSellmeier.n`, `Gayer5PctSellmeier.n` (`XTAL_PPLN.py:48-54`, `73-79`); the axis is ignored.  NaN when the
square is negative, infinite or NaN when a denominator vanishes (for a wavelength that is an entry of a NumPy array or a NumPy scalar; for a
Python float Python raises `ZeroDivisionError`, which is not modelled). -/
noncomputable def Sell.n (s : Sell) (T wl_nm : ℝ) : NFlt :=
  let u := wl_nm * 1e-3
  if u ^ 2 - (s.a3 + s.b3 * tempF T) ^ 2 = 0 ∨ u ^ 2 - s.a5 ^ 2 = 0 ∨ s.nSq T wl_nm < 0 then .bad
  else .val √(s.nSq T wl_nm)

/-- The two data sources of `load` (`XTAL_PPLN.py:100-101`); any other string is a `KeyError`. -/
inductive Source where
  | Deng
  | Gayer_5pctMg
  deriving DecidableEq

noncomputable def Source.sell : Source → Sell
  | .Deng => deng
  | .Gayer_5pctMg => gayer

/-- `PPLN` (`XTAL_PPLN.py:80-118`): `T`, the source whose calculator `n` and `set_xtalT` are bound to, and the
temperatures of the two calculators. -/
structure PPLN where
  T : ℝ
  source : Source
  calcT : Source → ℝ

/-- `load` (`XTAL_PPLN.py:85-107`); the effect on the class-level properties is in `Classes.newPPLN`. -/
def PPLN.load (T : ℝ) (src : Source := .Gayer_5pctMg) : PPLN := ⟨T, src, fun _ => T⟩

/-- `set_T` (`XTAL_PPLN.py:116-118`). -/
def PPLN.setT (p : PPLN) (T : ℝ) : PPLN := { p with T := T, calcT := Function.update p.calcT p.source T }

/-- `n` (`XTAL_PPLN.py:102`). -/
noncomputable def PPLN.n (p : PPLN) (wl : ℝ) : NFlt := p.source.sell.n (p.calcT p.source) wl

/-- `1.0/x` of a Python float. -/
noncomputable def inv (x : ℝ) : Except PyErr ℝ := if x = 0 then .error .ZeroDivisionError else .ok (1 / x)

/-- `1.0/x` where `x` may be `None`. -/
noncomputable def invO : Option ℝ → Except PyErr ℝ
  | none => .error .TypeError
  | some x => inv x

/-- The missing wavelength (`XTAL_PPLN.py:125-144`, `XTAL_AgGaSe2.py:95-111`): pump, signal, idler, and the wavelength
that was filled in, if any.  In the first block `idlr` is inverted before `sgnl`, in the others the pump first. -/
noncomputable def fill (pump sgnl idlr : Option ℝ) : Except PyErr (ℝ × ℝ × ℝ × Option ℝ) := do
  match pump with
  | none =>
    let a ← invO idlr
    let b ← invO sgnl
    let p ← inv (a + b)
    match sgnl, idlr with
    | some s, some i => pure (p, s, i, some p)
    | _, _ => .error .TypeError
  | some p =>
    match sgnl with
    | none =>
      let a ← inv p
      let b ← invO idlr
      let s ← inv (a - b)
      match idlr with
      | some i => pure (p, s, i, some s)
      | none => .error .TypeError
    | some s =>
      match idlr with
      | none =>
        let a ← inv p
        let b ← inv s
        let i ← inv (a - b)
        pure (p, s, i, some i)
      | some i => pure (p, s, i, none)

/-- `n(wl)*2*np.pi/wl` in 1/nm; dividing a NumPy scalar by zero does not raise. -/
noncomputable def kOf (n : ℝ → NFlt) (wl : ℝ) : NFlt := if wl = 0 then .bad else (n wl).map fun x => x * 2 * π / wl

/-- `PPLN.calculate_poling_period` (`XTAL_PPLN.py:120-160`) of a crystal with index `n` and length `len` (`None`
allowed): the period in metres, and the wavelength that was filled in. -/
noncomputable def polingPeriod (n : ℝ → NFlt) (len : Option ℝ) (pump sgnl idlr : Option ℝ) (dkL : ℝ := 3.2) :
    Except PyErr (NFlt × Option ℝ) := do
  let (p, s, i, new) ← fill pump sgnl idlr
  let setPt ← match len with
    | none => pure 0
    | some l => if l * 1e9 = 0 then .error .ZeroDivisionError else pure (dkL / (l * 1e9))
  let deltak := NFlt.map₂ (fun x y => x - y - setPt) (NFlt.map₂ (fun x y => x - y) (kOf n p) (kOf n s)) (kOf n i)
  let period : NFlt := match deltak with
    | .bad => .bad
    | .val d => if d = 0 then .bad else .val (π / d * 1e-9)
  pure (period.map (· * 2), new)

/-- `err_fn` of `invert_dfg_qpm_to_signal_wl` (`CrystalContainer.py:168-169`) for a PPLN crystal: the idler is left out, so
`calculate_poling_period` returns a pair, whose first entry is taken. -/
noncomputable def qpmError (n : ℝ → NFlt) (len : Option ℝ) (pump period wl : ℝ) : Except PyErr NFlt := do
  let r ← polingPeriod n len (some pump) (some wl) none
  pure (r.1.map fun x => (x - period) ^ 2)

/-- `Crystal.invert_dfg_qpm_to_signal_wl` (`CrystalContainer.py:150-174`) for a PPLN crystal.  `opt` stands for
`optimize.minimize_scalar(.., method='bounded')`, an arbitrary function of the objective and the bounds, except that SciPy refuses bounds in
the wrong order. -/
noncomputable def invertQpm (opt : (ℝ → Except PyErr NFlt) → ℝ → ℝ → Except PyErr ℝ) (n : ℝ → NFlt) (len : Option ℝ) (pump period : ℝ)
    (max : ℝ := 2000) : Except PyErr ℝ :=
  if max < pump * 1.001 then .error .ValueError else opt (qpmError n len pump period) (pump * 1.001) max

/-! ## `XTAL_AgGaSe2.py` -/

/-- A uniaxial crystal: the two principal indices as functions of the wavelength in nm, and the angle. -/
structure Biref where
  no : ℝ → NFlt
  ne : ℝ → NFlt
  theta : ℝ

/-- `AgGaSe2.n(wl, 'mix')` (`XTAL_AgGaSe2.py:84-86`).  A vanishing principal index gives `bad` here (NumPy returns
0 or NaN). -/
noncomputable def mixIndex (theta : ℝ) : NFlt → NFlt → NFlt
  | .val no, .val ne =>
    if no = 0 ∨ ne = 0 then .bad else .val (1 / √(sin theta ^ 2 / ne ^ 2 + cos theta ^ 2 / no ^ 2))
  | _, _ => .bad

/-- `AgGaSe2.n` (`XTAL_AgGaSe2.py:66-91`). -/
noncomputable def Biref.n (b : Biref) (wl : ℝ) (axis : Option String := some "mix") : Except PyErr NFlt :=
  if axis = some "mix" then .ok (mixIndex b.theta (b.no wl) (b.ne wl))
  else if axis = some "o" then .ok (b.no wl)
  else if axis = some "e" then .ok (b.ne wl)
  else .error .ValueError

/-- `AgGaSe2.set_theta` (`XTAL_AgGaSe2.py:64-65`). -/
def Biref.setTheta (b : Biref) (t : ℝ) : Biref := { b with theta := t }

/-- The cosine that `phasematch` computes (`XTAL_AgGaSe2.py:117-126`) from `ks+ki`, `2*pi/pump` and the principal
indices at the pump.  `n_soln = 0` makes `c` infinite, and `x` infinite or NaN. -/
noncomputable def phaseX (nSoln ne no : ℝ) : NFlt :=
  let a := ne ^ 2 - no ^ 2
  let c := no ^ 2 - ne ^ 2 * no ^ 2 / nSoln ^ 2
  if nSoln = 0 ∨ a = 0 ∨ 0 ^ 2 - 4 * a * c < 0 then .bad
  else
    let x := (-0 + √(0 ^ 2 - 4 * a * c)) / (2 * a)
    .val (if x < 0 then (-0 - √(0 ^ 2 - 4 * a * c)) / (2 * a) else x)

/-- The angle of `phasematch` for three given wavelengths (`XTAL_AgGaSe2.py:113-129`).  `np.arccos` is NaN outside
`[-1, 1]`. -/
noncomputable def Biref.angle (b : Biref) (p s i : ℝ) : Except PyErr ℝ := do
  let kp ← if p = 0 then .error .ZeroDivisionError else pure (2 * π / p)
  let soln := NFlt.map₂ (fun x y => (x + y) / kp) (kOf b.no s) (kOf b.no i)
  let x : NFlt := match soln, b.ne p, b.no p with
    | .val q, .val ne, .val no => phaseX q ne no
    | _, _, _ => .bad
  match x with
  | .bad => .error .AttributeError
  | .val x => if x < -1 ∨ 1 < x then .error .AttributeError else pure (arccos x)

/-- `AgGaSe2.phasematch` (`XTAL_AgGaSe2.py:92-134`): the angle, and the filled-in wavelength if asked for. -/
noncomputable def Biref.phasematch (b : Biref) (pump sgnl idlr : Option ℝ) (ret : Bool := false) :
    Except PyErr (ℝ × Option ℝ) := do
  let (p, s, i, new) ← fill pump sgnl idlr
  let theta ← b.angle p s i
  pure (theta, if ret then new else none)

/-- One principal index of `XTAL_AgGaSe2.py:36-58`, `74-82`: `A + B/(u^a - C) + F/(u^b - G) + D/(1 - E/u^c)`. -/
noncomputable def robertsSq (A B C D E F G a b c wl_nm : ℝ) : ℝ :=
  let u := wl_nm * 1e-3
  A + B / (u ^ a - C) + F / (u ^ b - G) + D / (1 - E / u ^ c)

open Classical in
/-- Its square root, as a NumPy scalar; non-positive wavelengths are not modelled and give `bad`. -/
noncomputable def roberts (A B C D E F G a b c wl_nm : ℝ) : NFlt :=
  let u := wl_nm * 1e-3
  if u ≤ 0 ∨ u ^ a - C = 0 ∨ u ^ b - G = 0 ∨ 1 - E / u ^ c = 0 ∨ robertsSq A B C D E F G a b c wl_nm < 0 then .bad
  else .val √(robertsSq A B C D E F G a b c wl_nm)

/-- `AgGaSe2(theta)` (`XTAL_AgGaSe2.py:30-63`). -/
noncomputable def agGaSe2 (theta : ℝ := 0) : Biref :=
  { no := roberts 6.849065 0.417863 0.178080 1.209374 915.345 0.000442 0.889242 1.970203 0.340086 1.921292
    ne := roberts 6.675232 0.436579 0.229775 3.252722 3129.32 0.012063 0.213957 1.893694 4.269152 2.047204
    theta := theta }

/-- `calculate_group_velocity_nm_ps(wl, axis)` of an `AgGaSe2` crystal: here the axis, `None` by default, is passed on
to `n` (`CrystalContainer.py:78-82`). -/
noncomputable def Biref.groupVelocity (b : Biref) (wl : ℝ) (axis : Option String := none) : Except PyErr NFlt :=
  groupVelocityE (fun x => b.n x axis) wl

/-! ## Class-level state -/

/-- Kinds of crystals that can be created. -/
inductive Kind where
  | ppln
  | agGaSe2
  deriving DecidableEq

/-- Crystals alive in the process, and the damage threshold in the class-level dictionary `_crystal_properties`
(`CrystalContainer.py:37-38`), which `PPLN.load` writes through the instance (`XTAL_PPLN.py:108`). -/
structure Classes where
  crystals : List Kind
  threshold : ℝ

def Classes.start : Classes := ⟨[], 1⟩

/-- `PPLN(T)` or `AgGaSe2()`; the new crystal is the last one. -/
def Classes.create (w : Classes) : Kind → Classes
  | .ppln => ⟨w.crystals ++ [.ppln], 4⟩
  | .agGaSe2 => ⟨w.crystals ++ [.agGaSe2], w.threshold⟩

/-- `damage_threshold_mks` (`CrystalContainer.py:192-194`) of the `i`-th crystal. -/
noncomputable def Classes.damage (w : Classes) (i : ℕ) : Except PyErr ℝ :=
  match w.crystals[i]? with
  | none => .error .NameError
  | some _ => .ok (w.threshold * 1e13)

/-! ### `get_pulse_n` -/

/-- What `get_pulse_n` uses of a crystal: its index along an axis, and whether caching is on. -/
structure Idx where
  n : Option String → ℝ → Except PyErr NFlt
  caching : Bool

/-- `self.n(wl, axis)` on an array; with `axis=None` the argument is left out, so the default axis of the crystal
applies. -/
def Idx.array (x : Idx) (axis : Option String) (wl : Vec ℝ) : Except PyErr (List NFlt) :=
  (List.ofFn wl.val).mapM (x.n axis)

/-- `str(axis)` -/
def strAxis : Option String → String
  | none => "None"
  | some s => s

/-- `Crystal.get_pulse_n` (`CrystalContainer.py:60-77`): the class-level cache is a map from strings to arrays.
`hash` and `wl` are `cache_hash` and `wl_nm` of the pulse. -/
def getPulseN (x : Idx) (hash : String) (wl : Vec ℝ) (axis : Option String) (cache : String → Option (List NFlt)) :
    Except PyErr (List NFlt) × (String → Option (List NFlt)) :=
  if x.caching then
    match cache (hash ++ strAxis axis) with
    | some ns => (.ok ns, cache)
    | none =>
      match x.array axis wl with
      | .error e => (.error e, cache)
      | .ok ns => (.ok ns, Function.update cache (hash ++ strAxis axis) (some ns))
  else (x.array axis wl, cache)

/-- `PPLN` seen by `get_pulse_n`. -/
noncomputable def PPLN.idx (p : PPLN) (caching : Bool) : Idx := ⟨fun _ wl => .ok (p.n wl), caching⟩

/-- `AgGaSe2` seen by `get_pulse_n`. -/
noncomputable def Biref.idx (b : Biref) (caching : Bool) : Idx :=
  ⟨fun axis wl => match axis with
    | none => b.n wl
    | some a => b.n wl (some a), caching⟩

/-! ### Evaluating the poling profile -/

/-- The function stored in `self.pp`. -/
inductive Pp where
  | const (p : ℝ)
  | fn (f : ℝ → ℝ)
  | chirp (start stop : ℝ)
  | num (p : ℝ)

/-- What `set_pp` may be given (`XTAL_PPLN.py:111-115`): a tuple, of which the first entry is used, a function, or a plain number. -/
inductive PpArg where
  | tuple (p : ℝ)
  | fn (f : ℝ → ℝ)
  | num (p : ℝ)

/-- `set_pp(p)` (`XTAL_PPLN.py:111-115`).  Anything but a tuple is wrapped as `lambda x: p(x)`, a plain number as well. -/
def setPp : PpArg → Pp
  | .tuple p => .const p
  | .fn f => .fn f
  | .num p => .num p

/-- What `calculate_poling_period` hands back (`XTAL_PPLN.py:157-160`): a pair if a wavelength was filled in, else the plain period. -/
def periodArg (period : ℝ) : Option ℝ → PpArg
  | some _ => .tuple period
  | none => .num period

/-- `crystal.pp(x)` (`XTAL_PPLN.py:107`, `113-115`, `CrystalContainer.py:50-51`).  The chirp refers to `self.length`,
an attribute no crystal has; a number is not callable. -/
def Pp.eval : Pp → ℝ → Except PyErr ℝ
  | .const p, _ => .ok p
  | .fn f, x => .ok (f x)
  | .chirp _ _, _ => .error .AttributeError
  | .num _, _ => .error .TypeError

end PyNLO.Xtal
