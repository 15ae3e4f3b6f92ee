import Verif.Model.Ssfm

/-!
# Model of `SSFM.py`: Raman response, set-up, `propagate`, `calculate_coherence`, `propagate_to_gain_goal`

Simplifications: printing is not modelled (the energies printed cannot raise where the surrounding calls do
not); the returned arrays are exact here, their `complex64` storage is in `SsfmSingle`; `gamma is None` is
reported as `TypeError` when the parameters are loaded (the source raises it at the first nonlinear step).
The fields handed out by a pulse (`AT`, `V_THz`, `T_ps`) are fresh arrays, so the in-place shifts of
`conditional_fftshift` do not reach the input pulse (see C07–C09).
-/

namespace PyNLO.Ssfm

open Complex

/-- Attributes of an `SSFM` object that survive between calls (`SSFM.py:51-70`). -/
structure Obj where
  dz : ℝ
  iter : ℕ
  fR : ℝ
  localError : ℝ
  dzMin : ℝ
  eta : ℝ
  method : Method
  disableRaman : Bool
  disableSS : Bool
  simpleRaman : Bool
  tau1 : ℝ
  tau2 : ℝ

/-- `SSFM.py:43-70` `__init__` with the keyword defaults -/
noncomputable def Obj.default : Obj where
  dz := 10 ^ (-5 : ℤ)
  iter := 0
  fR := 0.18
  localError := 0.001
  dzMin := 10 ^ (-12 : ℤ)
  eta := 5
  method := .rk4ip
  disableRaman := false
  disableSS := false
  simpleRaman := false
  tau1 := 0.0122
  tau2 := 0.0320

/-- `arr[:] = v` for an array `arr` of length `n` -/
def fill {α : Type} (n : ℕ) (v : Vec α) : Except PyErr (Fin n → α) :=
  if h : n = v.len then .ok fun i => v.val (i.cast h)
  else if h : v.len = 1 then .ok fun _ => v.val ⟨0, by omega⟩
  else .error .ValueError

/-- `np.trapz(y, x)` -/
noncomputable def trapzX {n : ℕ} (y x : Fin n → ℝ) : ℝ :=
  ∑ i : Fin (n - 1), (x ⟨i + 1, by omega⟩ - x ⟨i, by omega⟩) * (y ⟨i, by omega⟩ + y ⟨i + 1, by omega⟩) / 2

/-- `SSFM.py:273-274`: simple response before truncation -/
noncomputable def ramanSimple (tau1 tau2 t : ℝ) : ℝ :=
  (tau1 ^ 2 + tau2 ^ 2) / (tau1 * tau2 ^ 2) * Real.exp (-t / tau2) * Real.sin (t / tau1)

/-- `SSFM.py:283-290`: Lin & Agrawal response before truncation -/
noncomputable def ramanLin (tau1 tau2 t : ℝ) : ℝ :=
  (0.75 + 0.04) * (tau1 / (tau1 ^ 2 + tau2 ^ 2) * Real.exp (-t / tau2) * Real.sin (t / tau1)) +
    0.21 * ((2 * 0.096 - t) / 0.096 ^ 2 * Real.exp (-t / 0.096))

/-- `SSFM.py:275`, `291`: `RT[0:NPTS>>1] = 0` -/
noncomputable def truncate {n : ℕ} (x : Fin n → ℝ) : Fin n → ℝ := fun i => if (i : ℕ) < n / 2 then 0 else x i

/-- `SSFM.py:276`, `292`: `RT / np.trapz(RT, T)` -/
noncomputable def normalise {n : ℕ} (x T : Fin n → ℝ) : Fin n → ℝ := fun i => x i / trapzX x T

/-- `SSFM.py:278`, `293`: `(1-F_R) + time_window_ps*FFT_t_shift(F_R*RT)`, where `FFT_t_shift` (`695-700`) is
`ifftshift(ifft(fftshift(·)))` -/
noncomputable def responseFT {n : ℕ} (F tw : ℝ) (RT : Fin n → ℝ) : Fin n → ℂ := fun k =>
  ((1 - F : ℝ) : ℂ) + (tw : ℂ) * ifftshift (ifft (fftshift fun i => ((F * RT i : ℝ) : ℂ))) k

/-- `SSFM.py:243-296` `CalculateRamanResponseFT`: the array `R` (natural order) and the new `self.f_R`.  The array `R0` is
computed but, with `USE_FREQUENCY_DOMAIN_RAMAN = False`, not used; its constant `C` raises for vanishing time constants. -/
noncomputable def ramanR (o : Obj) (p : Pulse) : Except PyErr (Vec ℂ × ℝ) :=
  if o.disableRaman then .ok (⟨p.n, fun _ => 1⟩, o.fR)
  else if o.tau1 * o.tau2 ^ 2 = 0 then .error .ZeroDivisionError
  else do
    let T ← p.T_ps
    if o.simpleRaman then
      .ok (⟨T.len, responseFT o.fR p.time_window_ps
        (normalise (truncate fun i => ramanSimple o.tau1 o.tau2 (T.val i)) T.val)⟩, o.fR)
    else
      .ok (⟨T.len, responseFT 0.245 p.time_window_ps
        (normalise (truncate fun i => ramanLin o.tau1 o.tau2 (T.val i)) T.val)⟩, 0.245)

/-- a fibre object: attributes and dictionary -/
structure FibObj where
  fib : Fiber.Fib
  specs : Fiber.Specs

/-- `None` where a number is needed -/
def num : Option ℝ → Except PyErr ℝ
  | some g => .ok g
  | none => .error .TypeError

/-- result of `get_betas` assigned to an array -/
def betaArr (n : ℕ) : Fiber.BetaRes → Except PyErr (Fin n → ℝ)
  | .arr v => fill n v
  | .minusOne => .ok fun _ => -1

/-- `SSFM.py:73-82` `load_fiber_parameters`: new `betas` (shifted) and `gamma`; the fibre object may change -/
noncomputable def loadFiber (polyfit : Fiber.PolyFit) (spline : Fiber.Spline) (p : Pulse) (z : ℝ) {n : ℕ} (P : Params n) :
    PyM FibObj (Params n) := fun F =>
  match Fiber.getBetas polyfit spline F.specs p z F.fib with
  | (.error e, f) => (.error e, { F with fib := f })
  | (.ok b, f) =>
    match (do
      let B ← betaArr n b
      let g ← Fiber.getGamma f z
      let g ← num g
      .ok { P with betas := fftshift B, gamma := g } : Except PyErr (Params n)) with
    | .error e => (.error e, { F with fib := f })
    | .ok P => (.ok P, { F with fib := f })

/-- `SSFM.py:86-237` `setup_fftw`: parameters and field in shifted order, and the new `self.f_R`.
`betas` and `gamma` are overwritten by `load_fiber_parameters` before they are read. -/
noncomputable def setup (o : Obj) (p : Pulse) (F : FibObj) : Except PyErr (Params p.n × (Fin p.n → ℂ) × ℝ) := do
  let V ← p.V_THz
  let om ← fill p.n V
  let g ← Fiber.getGain F.specs F.fib p
  let al ← fill p.n (g.map (-1 * ·))
  let (R, fR) ← ramanR o p
  let R ← fill p.n R
  let a ← p.AT
  let A ← fill p.n a
  .ok ({ betas := fun _ => 0, alpha := fftshift al, omegas := fftshift om, R := fftshift R, gamma := F.fib.gamma.getD 0, w0 := p.center_frequency_THz * 2 * Real.pi, disableSS := o.disableSS, method := o.method, eta := o.eta, localError := o.localError, dzMin := o.dzMin }, fftshift A, fR)

/-- Result of `propagate`: positions, columns of `AW` and `AT`, output pulse -/
structure Result where
  z : List ℝ
  AW : List (Vec ℂ)
  AT : List (Vec ℂ)
  out : Pulse

/-- Loop state of `propagate` (`SSFM.py:526-537`) -/
structure Seg (n : ℕ) where
  P : Params n
  F : FibObj
  fld : Field n
  out : Pulse
  AW : List (Vec ℂ)
  AT : List (Vec ℂ)

/-- `SSFM.py:533-535`: what one segment does to the field array, the columns and `pulse_out` after integration.
`conditional_ifftshift` shifts `self.A` in place, so it is shifted twice here. -/
noncomputable def record {n : ℕ} (s : Seg n) : Except PyErr (Seg n) :=
  let A1 := ifftshift s.fld.A
  let A2 := ifftshift A1
  match Pulse.setAT ⟨n, A2⟩ s.out with
  | (.error e, _) => .error e
  | (.ok _, out) =>
    .ok { s with fld := { s.fld with A := A2 }, out := out, AW := s.AW ++ [⟨n, ifftshift (ifft s.fld.A)⟩], AT := s.AT ++ [⟨n, A1⟩] }

/-- `SSFM.py:526-537`: the segments; `none` if an integration never ends.  `p` is the input pulse. -/
noncomputable def segLoop (polyfit : Fiber.PolyFit) (spline : Fiber.Spline) (p : Pulse) (reload : Bool) (deltaZ : ℝ) {n : ℕ} :
    ℕ → ℕ → Seg n → Option (Except PyErr (Seg n))
  | 0, _, s => some (.ok s)
  | m + 1, i, s =>
    match (if reload then loadFiber polyfit spline p (i * deltaZ) s.P s.F else (.ok s.P, s.F)) with
    | (.error e, _) => some (.error e)
    | (.ok P, F) =>
      match integrate P deltaZ 1 s.fld with
      | none => none
      | some fld =>
        match record { s with P := P, F := F, fld := fld } with
        | .error e => some (.error e)
        | .ok s => segLoop polyfit spline p reload deltaZ m (i + 1) s

/-- `np.linspace(0, L, N+1)` for `N ≥ 1` -/
noncomputable def linspace0 (L : ℝ) (N : ℕ) : List ℝ := (List.range (N + 1)).map fun i : ℕ => (i : ℝ) * (L / N)

/-- `SSFM.py:456-544` `propagate`.  `none`: never returns.  The state is the solver object; on an exception its state is not
described further.  `n_steps = 0` fails at `z_positions[1]` (or already in `linspace` if the fibre has no length). -/
noncomputable def propagate (polyfit : Fiber.PolyFit) (spline : Fiber.Spline) (o : Obj) (p : Pulse) (F : FibObj) (nSteps : ℕ)
    (reload : Bool) : Option (Except PyErr (Result × Obj × FibObj)) :=
  if nSteps = 0 then some (.error (if F.fib.length.isNone then .TypeError else .IndexError))
  else
    match (do
      let L ← (match F.fib.length with
        | some L => .ok L
        | none => .error .TypeError)
      let out ← Pulse.createClonedPulse p
      let (P, A, fR) ← setup o p F
      .ok (L, out, P, A, fR) : Except PyErr (ℝ × Pulse × Params p.n × (Fin p.n → ℂ) × ℝ)) with
    | .error e => some (.error e)
    | .ok (L, out, P, A, fR) =>
      match loadFiber polyfit spline p 0 P F with
      | (.error e, _) => some (.error e)
      | (.ok P, F) =>
        let deltaZ := if nSteps = 1 then L else 1 * (L / nSteps) - 0 * (L / nSteps)
        match segLoop polyfit spline p reload deltaZ nSteps 0 ⟨P, F, ⟨A, ⟨none, 0, fun _ => 0⟩, o.iter, o.dz⟩, out, [], []⟩ with
        | none => none
        | some (.error e) => some (.error e)
        | some (.ok s) =>
          match Pulse.setAT ⟨p.n, ifftshift s.fld.A⟩ s.out with
          | (.error e, _) => some (.error e)
          | (.ok _, out) =>
            some (.ok (⟨linspace0 L nSteps, s.AW, s.AT, out⟩, { o with dz := s.fld.dz, iter := s.fld.iter, fR := fR }, s.F))

/-! ## coherence and gain goal -/

/-- `SSFM.py:583-591`: the trials, from trial `i` on; `draws i` are the two arrays drawn by `add_noise` in trial `i`.  The solver object
(its stored step) and the fibre go from one trial to the next. -/
noncomputable def trials (strF : ℝ → String) (polyfit : Fiber.PolyFit) (spline : Fiber.Spline) (hP : ℝ) (draws : ℕ → (ℕ → ℝ) × (ℕ → ℝ))
    (noiseType : String) (nSteps : ℕ) (p : Pulse) : ℕ → ℕ → Obj → FibObj → Option (Except PyErr (List Result))
  | 0, _, _, _ => some (.ok [])
  | m + 1, i, o, F =>
    match Pulse.createClonedPulse p with
    | .error e => some (.error e)
    | .ok q =>
      match Pulse.addNoise strF hP (draws i).1 (draws i).2 noiseType q with
      | (.error e, _) => some (.error e)
      | (.ok _, q) =>
        match propagate polyfit spline o q F nSteps false with
        | none => none
        | some (.error e) => some (.error e)
        | some (.ok (r, o, F)) =>
          match trials strF polyfit spline hP draws noiseType nSteps p m (i + 1) o F with
          | none => none
          | some (.error e) => some (.error e)
          | some (.ok l) => some (.ok (r :: l))

/-- `SSFM.py:598`: one entry of `g12`.  (Where a field vanishes the source gets NaN; the theorems exclude such bins.) -/
noncomputable def g12 (x y : ℂ) : ℂ := (starRingEnd ℂ) x * y / (Real.sqrt (‖x‖ ^ 2 * ‖y‖ ^ 2) : ℂ)

/-- entry `[k, i]` of the array `AW` of a result -/
noncomputable def Result.entry (r : Result) (k i : ℕ) : ℂ :=
  match r.AW[i]? with
  | some v => if h : k < v.len then v.val ⟨k, h⟩ else 0
  | none => 0

/-- `SSFM.py:594-602`: the values stacked along the third axis for one bin, `E t` being the value of trial `t` (the source stacks them in
reverse order; only their mean is used) -/
noncomputable def g12Stack {N : ℕ} (E : Fin N → ℂ) : List ℂ :=
  (List.finRange N).flatMap fun i => ((List.finRange N).filter fun j => i ≠ j).map fun j => g12 (E i) (E j)

/-- `SSFM.py:546-608` `calculate_coherence`: `g12W` and the results.  With fewer than two trials `g12_stack` is never assigned.
`random_seed`, `output_power` and `reload_fiber_each_step` are accepted and not used. -/
noncomputable def calculateCoherence (strF : ℝ → String) (polyfit : Fiber.PolyFit) (spline : Fiber.Spline) (hP : ℝ)
    (draws : ℕ → (ℕ → ℝ) × (ℕ → ℝ)) (o : Obj) (p : Pulse) (F : FibObj) (numTrials : ℕ) (_randomSeed : Option ℕ) (noiseType : String)
    (nSteps : ℕ) (_reload : Bool) : Option (Except PyErr ((Fin p.n → Fin nSteps → ℝ) × List Result)) :=
  match trials strF polyfit spline hP draws noiseType nSteps p numTrials 0 o F with
  | none => none
  | some (.error e) => some (.error e)
  | some (.ok l) =>
    if l.length < 2 then some (.error .UnboundLocalError)
    else
      some (.ok (fun k i =>
        let st := g12Stack fun t : Fin l.length => l[t].entry k i
        ‖st.sum / (st.length : ℂ)‖, l))

/-- `SSFM.py:612-659` `propagate_to_gain_goal`: after the first propagation the source reads `pulse_out.frep`; a `Pulse` has no such
attribute (`PulseBase.py:442-451` define `frep_MHz` and `frep_mks`).  `output_power` only matters for gain spectra, which fail earlier (C85). -/
noncomputable def gainGoal (polyfit : Fiber.PolyFit) (spline : Fiber.Spline) (o : Obj) (p : Pulse) (F : FibObj) (_nSteps : ℕ)
    (_powerGoal : ℝ) (_guess : Option ℝ) (_powertol : ℝ) : Option (Except PyErr (Result × ℝ)) :=
  match propagate polyfit spline o p F 1 false with
  | none => none
  | some (.error e) => some (.error e)
  | some (.ok _) => some (.error .AttributeError)

end PyNLO.Ssfm
