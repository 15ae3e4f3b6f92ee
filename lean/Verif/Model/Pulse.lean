import Verif.Model.Ffts
import Verif.Py.Num
import Mathlib.Analysis.SpecialFunctions.Sqrt

/-!
# Model of `src/pynlo/light/PulseBase.py`

Floats are exact reals (complex numbers for fields).  `str` of a float, used only to build the cache
key, is an arbitrary function `strF`.  `NPTS` is a natural number (`int(NPTS)` of a negative number
is not modelled: NumPy rejects it at the first allocation).  Attributes that can only become `None`
through direct access to private names (`_n`, `_centerfrequency`, `_time_window`) are not optional.
-/

namespace PyNLO

open Complex

/-- `PulseBase.py:45` `_c_mks`: CODATA speed of light, m/s (exact). -/
def cMks : ℝ := 299792458

/-- `PulseBase.py:44` `_c_nmps = c*1e9/1e12`. -/
noncomputable def cNmps : ℝ := cMks * 10 ^ 9 / 10 ^ 12

/-- State of a `Pulse` object, `PulseBase.py:49-70`.  The two caches hold a key and an array. -/
structure Pulse where
  n : ℕ
  cf : ℝ
  tw : ℝ
  aw : Option (Vec ℂ)
  frep : Option ℝ
  ready : Bool
  wlKey : Option String
  wlVal : Option (Vec ℝ)
  wKey : Option String
  wVal : Option (Vec ℝ)

namespace Pulse

/-- Class attributes before any assignment, `PulseBase.py:49-70`. -/
def blank : Pulse where
  n := 0
  cf := 1
  tw := 1
  aw := none
  frep := some 100
  ready := false
  wlKey := none
  wlVal := none
  wKey := none
  wVal := none

/-- `PulseBase.py:506-519` `set_NPTS` (with `_check_ready`, 469-472, which is true as no attribute is
`None`). -/
def setNPTS (n : ℕ) (p : Pulse) : Pulse := { p with n := n, ready := true }

/-- `PulseBase.py:35-45` `__init__` (the warning for large `frep` is not modelled). -/
def init (frep : Option ℝ) (n : Option ℕ) : Pulse :=
  let p := match frep with
    | some f => { blank with frep := some f }
    | none => blank
  match n with
    | some m => setNPTS m p
    | none => p

/-- `PulseBase.py:462-464` `_set_centerfrequency`. -/
def setCenterFrequency (f : ℝ) (p : Pulse) : Pulse := { p with cf := f, ready := true }

/-- `PulseBase.py:465-467` `_set_time_window`. -/
def setTimeWindow (T : ℝ) (p : Pulse) : Pulse := { p with tw := T, ready := true }

/-- `PulseBase.py:485-494` `set_center_wavelength_nm`; `c/0.0` raises `ZeroDivisionError`. -/
noncomputable def setCenterWavelengthNm (wl : ℝ) : PyM Pulse Unit :=
  if wl = 0 then .throw .ZeroDivisionError else .modify (setCenterFrequency (cNmps / wl))

/-- `PulseBase.py:495-504` `set_center_wavelength_m`. -/
noncomputable def setCenterWavelengthM (wl : ℝ) : PyM Pulse Unit :=
  if wl * 10 ^ 9 = 0 then .throw .ZeroDivisionError
  else .modify (setCenterFrequency (cNmps / (wl * 10 ^ 9)))

/-- `PulseBase.py:520-532` `set_frep_MHz`. -/
def setFrepMHz (f : ℝ) (p : Pulse) : Pulse := { p with frep := some f }

/-- `PulseBase.py:533-549` `set_time_window_ps` (`_n is None` cannot happen). -/
def setTimeWindowPs (T : ℝ) (p : Pulse) : Pulse := setTimeWindow T p

/-- `PulseBase.py:550-563` `set_time_window_s`. -/
noncomputable def setTimeWindowS (T : ℝ) (p : Pulse) : Pulse := setTimeWindow (T * 10 ^ 12) p

/-- `PulseBase.py:565-582` `set_frequency_window_THz`. -/
noncomputable def setFrequencyWindowTHz (DF : ℝ) : PyM Pulse Unit := do
  let p ← PyM.get
  if DF = 0 then .throw .ZeroDivisionError
  else .modify (setTimeWindow (p.n / DF))

/-- `PulseBase.py:583-600` `set_frequency_window_mks`. -/
noncomputable def setFrequencyWindowMks (DF : ℝ) : PyM Pulse Unit := do
  let p ← PyM.get
  if DF = 0 then .throw .ZeroDivisionError
  else .modify (setTimeWindow (p.n / DF * 10 ^ 12))

/-! ## grids -/

/-- `PulseBase.py:78-82` `_w0`. -/
noncomputable def w0 (p : Pulse) : ℝ := 2 * Real.pi * p.cf

/-- `PulseBase.py:98-103` `_dT`.  (For `n = 0` NumPy gives `inf`; the grids are then empty.) -/
noncomputable def dT (p : Pulse) : Except PyErr ℝ :=
  if p.ready = false then .error .RuntimeError else .ok (p.tw / p.n)

/-- `PulseBase.py:89-97` `_T = linspace(-Tw/2, Tw/2, n, endpoint=False)`. -/
noncomputable def T (p : Pulse) : Except PyErr (Vec ℝ) :=
  if p.ready = false then .error .RuntimeError
  else .ok ⟨p.n, fun i => -p.tw / 2 + (i : ℕ) * ((p.tw / 2 - -p.tw / 2) / p.n)⟩

/-- `PulseBase.py:105-112` `_V = 2π·arange(-n/2, n/2)/(n·dT)`. -/
noncomputable def V (p : Pulse) : Except PyErr (Vec ℝ) :=
  if p.ready = false then .error .RuntimeError
  else .ok ⟨p.n, fun i => 2 * Real.pi * (-(p.n : ℝ) / 2 + (i : ℕ)) / (p.n * (p.tw / p.n))⟩

/-- `PulseBase.py:83-88` `_W = _V + _w0`. -/
noncomputable def W (p : Pulse) : Except PyErr (Vec ℝ) :=
  if p.ready = false then .error .RuntimeError
  else do
    let v ← V p
    .ok (v.map (· + w0 p))

/-- `PulseBase.py:159-160`. -/
noncomputable def W_THz (p : Pulse) : Except PyErr (Vec ℝ) := W p
/-- `PulseBase.py:161-162`. -/
noncomputable def F_THz (p : Pulse) : Except PyErr (Vec ℝ) := do
  let w ← W p
  .ok (w.map (· / (2 * Real.pi)))
/-- `PulseBase.py:163-164`. -/
noncomputable def dT_mks (p : Pulse) : Except PyErr ℝ := do
  let d ← dT p
  .ok (d * 10 ^ (-12 : ℤ))
/-- `PulseBase.py:165-166`. -/
noncomputable def dT_ps (p : Pulse) : Except PyErr ℝ := dT p
/-- `PulseBase.py:168-169`. -/
noncomputable def T_mks (p : Pulse) : Except PyErr (Vec ℝ) := do
  let t ← T p
  .ok (t.map (· * 10 ^ (-12 : ℤ)))
/-- `PulseBase.py:170-171`. -/
noncomputable def T_ps (p : Pulse) : Except PyErr (Vec ℝ) := T p
/-- `PulseBase.py:173-174`. -/
noncomputable def time_window_mks (p : Pulse) : ℝ := p.tw * 10 ^ (-12 : ℤ)
/-- `PulseBase.py:175-176`. -/
def time_window_ps (p : Pulse) : ℝ := p.tw
/-- `PulseBase.py:178-179`. -/
noncomputable def V_mks (p : Pulse) : Except PyErr (Vec ℝ) := do
  let v ← V p
  .ok (v.map (· * 10 ^ 12))
/-- `PulseBase.py:180-181`. -/
noncomputable def V_THz (p : Pulse) : Except PyErr (Vec ℝ) := V p
/-- `PulseBase.py:182-183` `dF_THz`. -/
noncomputable def dF_THz (p : Pulse) : Except PyErr ℝ := do
  let w ← W_THz p
  let a ← w.item 1
  let b ← w.item 0
  .ok (|a - b| / (2 * Real.pi))
/-- `PulseBase.py:137-138` `center_wavelength_nm`; division of Python floats raises at 0. -/
noncomputable def center_wavelength_nm (p : Pulse) : Except PyErr ℝ :=
  if p.cf = 0 then .error .ZeroDivisionError else .ok (cNmps / p.cf)
/-- `PulseBase.py:139-140` `center_wavelength_mks` (the factor is `1.0e9` in the source). -/
noncomputable def center_wavelength_mks (p : Pulse) : Except PyErr ℝ :=
  if p.cf = 0 then .error .ZeroDivisionError else .ok ((cNmps / p.cf) * 10 ^ 9)
/-- `PulseBase.py:141-142`. -/
def center_frequency_THz (p : Pulse) : ℝ := p.cf
/-- `PulseBase.py:143-144`. -/
noncomputable def center_frequency_mks (p : Pulse) : ℝ := p.cf * 10 ^ 12
/-- `PulseBase.py:186-187`. -/
def frep_MHz (p : Pulse) : Option ℝ := p.frep
/-- `PulseBase.py:188-192`. -/
noncomputable def frep_mks (p : Pulse) : Option ℝ := p.frep.map (· * 10 ^ 6)

variable (strF : ℝ → String)

/-- `PulseBase.py:148-149` `cache_hash = str(_centerfrequency)+str(NPTS)`. -/
def cacheHash (p : Pulse) : String := strF p.cf ++ toString p.n

/-- `PulseBase.py:127-133` `wl_nm`.  The key is stored before the grid is computed, as in the source.
A cached `None` (possible only after a failed read) is returned by Python as `None`; here it is
reported as the `TypeError` its first arithmetic use raises. -/
noncomputable def wl_nm : PyM Pulse (Vec ℝ) := do
  let p ← PyM.get
  if p.wlKey = some (cacheHash strF p) then
    match p.wlVal with
    | some v => pure v
    | none => .throw .TypeError
  else do
    PyM.modify fun p => { p with wlKey := some (cacheHash strF p) }
    let w ← PyM.read W_THz
    let v := w.map fun x => 2 * Real.pi * cNmps / x
    PyM.modify fun p => { p with wlVal := some v }
    pure v

/-- `PulseBase.py:150-156` `W_mks`, cached likewise. -/
noncomputable def W_mks : PyM Pulse (Vec ℝ) := do
  let p ← PyM.get
  if p.wKey = some (cacheHash strF p) then
    match p.wVal with
    | some v => pure v
    | none => .throw .TypeError
  else do
    PyM.modify fun p => { p with wKey := some (cacheHash strF p) }
    let w ← PyM.read W
    let v := w.map (· * 10 ^ 12)
    PyM.modify fun p => { p with wVal := some v }
    pure v

/-- `PulseBase.py:135-136` `wl_mks`. -/
noncomputable def wl_mks : PyM Pulse (Vec ℝ) := do
  let w ← W_mks strF
  pure (w.map fun x => 2 * Real.pi * cMks / x)

/-- `PulseBase.py:157-158` `F_mks`. -/
noncomputable def F_mks : PyM Pulse (Vec ℝ) := do
  let w ← W_mks strF
  pure (w.map (· / (2 * Real.pi)))

/-- `PulseBase.py:184-185` `dF_mks`. -/
noncomputable def dF_mks : PyM Pulse ℝ := do
  let w ← W_mks strF
  let a ← PyM.lift (w.item 1)
  let w' ← W_mks strF
  let b ← PyM.lift (w'.item 0)
  pure (|a - b| / (2 * Real.pi))

/-! ## fields -/

/-- `PulseBase.py:193-197` `AW` (returns a copy). -/
def AW (p : Pulse) : Except PyErr (Vec ℂ) :=
  match p.aw with
  | some a => .ok a
  | none => .error .RuntimeError

/-- `PulseBase.py:198-202` `AT`. -/
noncomputable def AT (p : Pulse) : Except PyErr (Vec ℂ) :=
  match p.aw with
  | some a => IFFT_t a
  | none => .error .RuntimeError

/-- `PulseBase.py:203-216` `set_AW`: not ready raises; a missing array is allocated first; then
`_AW[:] = AW_new`. -/
def setAW (new : Vec ℂ) : PyM Pulse Unit := fun p =>
  if p.ready = false then (.error .RuntimeError, p)
  else
    let dst := p.aw.getD (Vec.zeros p.n)
    match dst.assign new with
    | .ok a => (.ok (), { p with aw := some a })
    | .error e => (.error e, { p with aw := some dst })

/-- `PulseBase.py:218-227` `set_AT`. -/
noncomputable def setAT (new : Vec ℂ) : PyM Pulse Unit := do
  let w ← PyM.lift (FFT_t new)
  setAW w

/-! ## operations -/

/-- `PulseBase.py:603-612` `calc_epp = dT_mks · trapz(|AT|²)`. -/
noncomputable def calcEpp (p : Pulse) : Except PyErr ℝ := do
  let d ← dT_mks p
  let a ← AT p
  .ok (d * trapz fun i => ‖a.val i‖ ^ 2)

/-- `PulseBase.py:614-626` `set_epp`.  `E/0` and `sqrt` of a negative number give `inf`/`nan` in NumPy;
the theorems exclude them. -/
noncomputable def setEpp (E : ℝ) : PyM Pulse Unit := do
  let a ← PyM.read AT
  let e ← PyM.read calcEpp
  setAT (a.map (· * (Real.sqrt (E / e) : ℂ)))

/-- `PulseBase.py:629-675` `add_noise`.  `h` is Planck's constant, `rnd`, `ph` the two draws
(`np.random.normal`, `np.random.uniform`), one number per bin. -/
noncomputable def addNoise (h : ℝ) (rnd ph : ℕ → ℝ) (noiseType : String) : PyM Pulse Unit := do
  let sz ← dF_mks strF
  let a ← PyM.read AW
  let f ← F_mks strF
  let photonEnergy : Vec ℝ := f.map (h * ·)
  let ppb ← PyM.lift (Vec.zip (fun x e => ‖x‖ ^ 2 / sz / e) a photonEnergy)
  let ppb := ppb.map fun x => if x < 0 then 0 else x
  let amp : Vec ℝ ←
    if noiseType = "sqrt_N_freq" then
      PyM.lift (Vec.zip (fun x e => Real.sqrt x * e * sz) ppb photonEnergy)
    else if noiseType = "one_photon_freq" then
      pure (photonEnergy.map fun e => e * sz)
    else .throw .ValueError
  let noise : Vec ℂ := ⟨amp.len, fun i => rnd i * amp.val i * exp (I * (ph i * 2 * Real.pi : ℝ))⟩
  let b ← PyM.lift (Vec.zip (· + ·) a noise)
  setAW b

/-- Spectral phase of `chirp_pulse_W`, `PulseBase.py:709-716`. -/
noncomputable def chirpFactor (GDD TOD FOD V : ℝ) : ℂ :=
  exp (I * (GDD / 2 : ℝ) * (V : ℂ) ^ 2 + I * (TOD / 6 : ℝ) * (V : ℂ) ^ 3
    + I * (FOD / 24 : ℝ) * (V : ℂ) ^ 4)

/-- `PulseBase.py:679-716` `chirp_pulse_W`. -/
noncomputable def chirpPulseW (GDD TOD FOD : ℝ) (w0 : Option ℝ) : PyM Pulse Unit := do
  let v ← match w0 with
    | none => PyM.read V_THz
    | some w => do
        let x ← PyM.read W_THz
        pure (x.map (· - w))
  let a ← PyM.read AW
  let b ← PyM.lift (Vec.zip (fun x y => chirpFactor GDD TOD FOD x * y) v a)
  setAW b

/-- `PulseBase.py:717-718` `apply_phase_W`. -/
noncomputable def applyPhaseW (phase : Vec ℝ) : PyM Pulse Unit := do
  let a ← PyM.read AW
  let b ← PyM.lift (Vec.zip (fun (x : ℂ) (y : ℝ) => x * exp (I * (y : ℂ))) a phase)
  setAW b

/-- `PulseBase.py:719-721` `chirp_pulse_T` (`T0 = 0` gives `nan` in NumPy; excluded by theorems). -/
noncomputable def chirpPulseT (c2 c3 T0 : ℝ) : PyM Pulse Unit := do
  let a ← PyM.read AT
  let t ← PyM.read T_ps
  let b ← PyM.lift (Vec.zip (fun x y =>
    x * exp (-I * (c2 / 2 : ℝ) * ((y / T0 : ℝ) : ℂ) ^ 2 + -I * (c3 / 3 : ℝ) * ((y / T0 : ℝ) : ℂ) ^ 3)) a t)
  setAT b

/-- Elements of `x` selected by a Boolean mask, as a list of pairs (`W_THz[mask], phase[mask]`). -/
noncomputable def masked {n : ℕ} (x y : Fin n → ℝ) (mask : Fin n → Prop) : List (ℝ × ℝ) := by
  classical
  exact ((List.finRange n).filter fun i => decide (mask i)).map fun i => (x i, y i)

/-- Common body of `dechirp_pulse` (`PulseBase.py:723-730`, degree 2) and `remove_time_delay`
(`731-738`, degree 1).  `unwrap` stands for `np.unwrap`, `polyfit data deg` for
`np.poly1d(np.polyfit(.., deg))` (it may raise); entry `m` of the field attains `np.max(ampl)`.
Precondition for the model to follow the source: the field has `NPTS` samples (otherwise the Boolean
mask does not fit and NumPy raises `IndexError`, as here). -/
noncomputable def removePolyPhase (unwrap : {n : ℕ} → (Fin n → ℝ) → Fin n → ℝ)
    (polyfit : List (ℝ × ℝ) → ℕ → Except PyErr (ℝ → ℝ)) (deg : ℕ) (thr : ℝ) : PyM Pulse Unit := do
  let a ← PyM.read AW
  let phase : Fin a.len → ℝ := unwrap fun i => Complex.arg (a.val i)
  let w ← PyM.read W_THz
  if h : a.len = w.len then do
    let mask : Fin a.len → Prop := fun i => ∃ m, (∀ j, ‖a.val j‖ ≤ ‖a.val m‖) ∧ thr * ‖a.val m‖ ^ 2 < ‖a.val i‖ ^ 2
    let q ← PyM.lift (polyfit (masked (fun i => w.val (i.cast h)) phase mask) deg)
    setAW ⟨a.len, fun i => (‖a.val i‖ : ℂ) * exp (I * ((phase i - q (w.val (i.cast h)) : ℝ) : ℂ))⟩
  else .throw .IndexError

/-- `PulseBase.py:723-730` `dechirp_pulse`. -/
noncomputable def dechirpPulse (unwrap : {n : ℕ} → (Fin n → ℝ) → Fin n → ℝ)
    (polyfit : List (ℝ × ℝ) → ℕ → Except PyErr (ℝ → ℝ)) (thr : ℝ) : PyM Pulse Unit :=
  removePolyPhase unwrap polyfit 2 thr

/-- `PulseBase.py:731-738` `remove_time_delay`. -/
noncomputable def removeTimeDelay (unwrap : {n : ℕ} → (Fin n → ℝ) → Fin n → ℝ)
    (polyfit : List (ℝ × ℝ) → ℕ → Except PyErr (ℝ → ℝ)) (thr : ℝ) : PyM Pulse Unit :=
  removePolyPhase unwrap polyfit 1 thr

/-- `PulseBase.py:739-743` `add_time_offset`. -/
noncomputable def addTimeOffset (offset : ℝ) : PyM Pulse Unit := do
  let w ← PyM.read W_THz
  let ramp : Vec ℂ := w.map fun (x : ℝ) => exp (-I * (x : ℂ) * (offset : ℂ))
  let a ← PyM.read AW
  let b ← PyM.lift (Vec.zip (· * ·) a ramp)
  setAW b

/-- `PulseBase.py:744-771` `expand_time_window` for a non-negative integer `factor_log2`. -/
noncomputable def expandTimeWindow (f : ℕ) (loc : String) : PyM Pulse Unit := do
  let p ← PyM.get
  let numNew := p.n * (2 ^ f - 1)
  let cur ← PyM.read AT
  PyM.modify fun p => setNPTS (p.n * 2 ^ f) p
  PyM.modify fun p => setTimeWindowPs (p.tw * 2 ^ f) p
  PyM.modify fun p => { p with aw := none }
  if loc = "before" then setAT (Vec.append (Vec.zeros numNew) cur)
  else if loc = "after" then setAT (Vec.append cur (Vec.zeros numNew))
  else if loc = "even" then
    setAT (Vec.append (Vec.append (Vec.zeros (numNew / 2)) cur) (Vec.zeros (numNew - numNew / 2)))
  else .throw .ValueError

/-- `PulseBase.py:772-779` `rotate_spectrum_to_new_center_wl`. -/
noncomputable def rotateSpectrum (wl : ℝ) : PyM Pulse Unit := do
  let p ← PyM.get
  if wl = 0 then .throw .ZeroDivisionError
  else do
    let dF ← PyM.read dF_THz
    let rotation := (p.cf - cNmps / wl) / dF
    let a ← PyM.read AW
    setAW ⟨a.len, roll (-1 * pyRound rotation) a.val⟩

/-- `AW_new[mask] = 0.0`; a mask of another length raises `IndexError`. -/
noncomputable def zeroWhere (a : Vec ℂ) (wl : Vec ℝ) (bad : ℝ → Prop) : Except PyErr (Vec ℂ) := by
  classical
  exact if h : a.len = wl.len then
    .ok ⟨a.len, fun i => if bad (wl.val (i.cast h)) then 0 else a.val i⟩
  else .error .IndexError

/-- `PulseBase.py:802-806` `filter_by_wavelength_nm`. -/
noncomputable def filterByWavelengthNm (lower upper : ℝ) : PyM Pulse Unit := do
  let a ← PyM.read AW
  let w1 ← wl_nm strF
  let a1 ← PyM.lift (zeroWhere a w1 (· < lower))
  let w2 ← wl_nm strF
  let a2 ← PyM.lift (zeroWhere a1 w2 (upper < ·))
  setAW a2

/-- `PulseBase.py:807-813` `clone_pulse(self, q)`. -/
noncomputable def clonePulse (q : Pulse) : PyM Pulse Unit := do
  PyM.modify (setNPTS q.n)
  PyM.modify (setTimeWindowPs q.tw)
  let wl ← PyM.lift (center_wavelength_nm q)
  setCenterWavelengthNm wl
  PyM.modify fun p => { p with frep := q.frep }
  let a ← PyM.lift (AT q)
  setAT a

/-- `PulseBase.py:828-832` `create_cloned_pulse`: a new `Pulse()` filled by `clone_pulse`. -/
noncomputable def createClonedPulse (q : Pulse) : Except PyErr Pulse :=
  match clonePulse q (init none none) with
  | (.ok _, p) => .ok p
  | (.error e, _) => .error e

/-- Dictionary produced by `get_pulse_dict`, `PulseBase.py:814-821`. -/
structure PulseDict where
  NPTS : ℕ
  time_window_ps : ℝ
  center_wavelength_nm : ℝ
  frep_MHz : Option ℝ
  AT_re : Vec ℝ
  AT_im : Vec ℝ

/-- `PulseBase.py:814-821` `get_pulse_dict`. -/
noncomputable def getPulseDict (p : Pulse) : Except PyErr PulseDict := do
  let wl ← center_wavelength_nm p
  let a ← AT p
  .ok { NPTS := p.n, time_window_ps := p.tw, center_wavelength_nm := wl, frep_MHz := p.frep,
        AT_re := a.map Complex.re, AT_im := a.map Complex.im }

/-- `PulseBase.py:822-827` `load_pulse_dict`. -/
noncomputable def loadPulseDict (d : PulseDict) : PyM Pulse Unit := do
  PyM.modify (setNPTS d.NPTS)
  PyM.modify (setTimeWindowPs d.time_window_ps)
  setCenterWavelengthNm d.center_wavelength_nm
  PyM.modify fun p => { p with frep := d.frep_MHz }
  let a ← PyM.lift (Vec.zip (fun (x y : ℝ) => (x : ℂ) + I * (y : ℂ)) d.AT_re d.AT_im)
  setAT a

/-- `PulseBase.py:833-854` `create_subset_pulse`.  Returns the new pulse; the parent only changes
through its wavelength cache. -/
noncomputable def createSubsetPulse (wl : ℝ) (M : ℕ) : PyM Pulse Pulse := do
  let p ← PyM.get
  if p.n ≤ M then .throw .ValueError
  else do
    let g ← wl_nm strF
    let c ← PyM.lift (argmin fun i => |g.val i - wl|)
    let q := { init none none with frep := p.frep }
    let g' ← wl_nm strF
    let x ← PyM.lift (g'.item c)
    let (r1, q) := setCenterWavelengthNm x q
    let _ ← PyM.lift r1
    let q := setTimeWindowPs p.tw q
    let q := setNPTS M q
    let a ← PyM.read AW
    let h : ℤ := (M / 2 : ℕ)
    let (r2, q) := setAW (a.slice ((c : ℕ) - h) ((c : ℕ) + h)) q
    let _ ← PyM.lift r2
    pure q

/-- `PulseBase.py:856-860` `calculate_weighted_avg_frequency_mks` (zero field gives `nan`; excluded by
the theorems). -/
noncomputable def weightedAvgFrequencyMks : PyM Pulse ℝ := do
  let a ← PyM.read AW
  let w ← W_mks strF
  let s ← PyM.lift (Vec.zip (fun x y => ‖x‖ ^ 2 * y) a w)
  pure ((∑ i, s.val i) / ((∑ i, ‖a.val i‖ ^ 2) * 2 * Real.pi))

/-- `np.correlate(a, v, mode='same')` for equal lengths and real data:
entry `k` is `Σ_m a[m + k - n//2]·v[m]`, out-of-range terms absent. -/
noncomputable def correlateSame {n : ℕ} (a v : Fin n → ℝ) : Fin n → ℝ := fun k =>
  ∑ m : Fin n, if h : 0 ≤ ((m : ℕ) + (k : ℕ) - (n / 2 : ℕ) : ℤ) ∧ ((m : ℕ) + (k : ℕ) - (n / 2 : ℕ) : ℤ) < n
    then a ⟨((m : ℕ) + (k : ℕ) - (n / 2 : ℕ) : ℤ).toNat, by omega⟩ * v m else 0

/-- `PulseBase.py:865-876` `calculate_intensity_autocorrelation` (the source correlates `|AT|**2` with
`|AT|`). -/
noncomputable def intensityAutocorrelation (p : Pulse) : Except PyErr (Vec ℝ) := do
  let a ← AT p
  .ok ⟨a.len, correlateSame (fun i => ‖a.val i‖ ^ 2) fun i => ‖a.val i‖⟩

end Pulse

end PyNLO
