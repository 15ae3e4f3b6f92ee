import Verif.Model.SsfmProp

/-!
# Model of `SSFM.py` with its module-wide switches

`global_variables.py:31,35`: `USE_FREQUENCY_DOMAIN_RAMAN` and `PRE_FFTSHIFT`.  The functions of `Verif/Model/Ssfm.lean` and
`Verif/Model/SsfmProp.lean` fix the values the package ships with; here the same functions are written with both switches
as a parameter.  `C138_shipped` shows that the shipped values give the other model back.  Simplifications as there.
-/

namespace PyNLO.Ssfm

open Complex

/-- `global_variables.py:31,35` -/
structure Globals where
  preShift : Bool
  freqRaman : Bool

/-- the values in the file -/
def Globals.shipped : Globals := ⟨true, false⟩

variable {n : ℕ}

/-- `SSFM.py:669-681` `FFT_t` (and `707-719` `FFT_t_2`) -/
noncomputable def Globals.fwd (g : Globals) (A : Fin n → ℂ) : Fin n → ℂ := if g.preShift then ifft A else ifftshift (ifft (fftshift A))

/-- `SSFM.py:682-694` `IFFT_t` (and `720-745` `IFFT_t_2`, `IFFT_t_3`) -/
noncomputable def Globals.bwd (g : Globals) (A : Fin n → ℂ) : Fin n → ℂ := if g.preShift then fft A else ifftshift (fft (fftshift A))

/-- `SSFM.py:759-764` `conditional_ifftshift`: result (and new content of the argument) -/
def Globals.unshift {α : Type} (g : Globals) (x : Fin n → α) : Fin n → α := if g.preShift then ifftshift x else x

/-- `SSFM.py:765-770` `conditional_fftshift` -/
def Globals.shift {α : Type} (g : Globals) (x : Fin n → α) : Fin n → α := if g.preShift then fftshift x else x

/-- `SSFM.py:395`, 440, 445, 450: `IFFT_t(exp_D * FFT_t(A))` -/
noncomputable def applySpecG (g : Globals) (E A : Fin n → ℂ) : Fin n → ℂ := g.bwd fun k => E k * g.fwd A k

/-- `SSFM.py:390-396` `LinearStep` -/
noncomputable def linearStepG (g : Globals) (p : Params n) (A : Fin n → ℂ) (h dir : ℝ) (c : Cache n) : (Fin n → ℂ) × Cache n :=
  (applySpecG g (refresh p h dir c).expD A, refresh p h dir c)

/-- `SSFM.py:398-402` `Deriv` -/
noncomputable def derivG (g : Globals) (p : Params n) (Aw : Fin n → ℂ) : Fin n → ℂ := g.bwd fun k => -1 * I * p.omegas k * Aw k

open Classical in
/-- `SSFM.py:404-433` `NonlinearOperator` -/
noncomputable def nonlinearG (g : Globals) (p : Params n) (A : Fin n → ℂ) : Fin n → ℂ :=
  let A2w := g.fwd (absSq A)
  let RA2 := g.bwd fun k => p.R k * A2w k
  if p.disableSS then fun j => 1 * I * p.gamma * RA2 j
  else
    let dA := derivG g p (g.fwd A)
    let dA2 := derivG g p A2w
    let dRA2 := g.bwd fun k => p.R k * g.fwd dA2 k
    fun j => 1 * I * p.gamma * RA2 j - ((p.gamma / p.w0 : ℝ) : ℂ) *
      (dRA2 j + if ‖A j‖ > 10 ^ (-15 : ℤ) then dA j * RA2 j / (10 ^ (-20 : ℤ) + A j) else 0)

/-- `SSFM.py:436-451` `RK4IP` -/
noncomputable def rk4ipG (g : Globals) (p : Params n) (E A : Fin n → ℂ) (h dir : ℝ) : Fin n → ℂ :=
  let AI := applySpecG g E A
  let k1 := applySpecG g E fun j => ((h * dir : ℝ) : ℂ) * nonlinearG g p A j * A j
  let u2 : Fin n → ℂ := fun j => AI j + k1 j / 2
  let k2 : Fin n → ℂ := fun j => ((h * dir : ℝ) : ℂ) * nonlinearG g p u2 j * u2 j
  let u3 : Fin n → ℂ := fun j => AI j + k2 j / 2
  let k3 : Fin n → ℂ := fun j => ((h * dir : ℝ) : ℂ) * nonlinearG g p u3 j * u3 j
  let temp := applySpecG g E fun j => AI j + k3 j
  let k4 : Fin n → ℂ := fun j => ((h * dir : ℝ) : ℂ) * nonlinearG g p temp j * temp j
  fun j => applySpecG g E (fun j => AI j + k1 j / 6 + k2 j / 3 + k3 j / 3) j + k4 j / 6

/-- `SSFM.py:383`, 385 -/
noncomputable def kickG (g : Globals) (p : Params n) (A : Fin n → ℂ) (dz dir : ℝ) : Fin n → ℂ := fun j =>
  exp (((dz * dir : ℝ) : ℂ) * nonlinearG g p A j) * A j

open Classical in
/-- `SSFM.py:379-388` `Advance` -/
noncomputable def advanceG (g : Globals) (p : Params n) (A : Fin n → ℂ) (dz dir : ℝ) (c : Cache n) : (Fin n → ℂ) × Cache n :=
  match p.method with
  | .ssfm =>
    if dir = 1 then
      let (A, c) := linearStepG g p A dz dir c
      (kickG g p A dz dir, c)
    else
      linearStepG g p (kickG g p A dz dir) dz dir c
  | .rk4ip =>
    let c := refresh p dz dir c
    (rk4ipG g p c.expD A dz dir, c)

/-- `SSFM.py:318-372`: one iteration of the `while` loop -/
noncomputable def loopBodyG (g : Globals) (p : Params n) (dir : ℝ) (s : Loop n) : Loop n :=
  let (ac, c1) := advanceG g p s.A (2 * s.ctrl.dz) dir s.cache
  let (a1, c2) := advanceG g p s.A s.ctrl.dz dir c1
  let (af, c3) := advanceG g p a1 s.ctrl.dz dir c2
  match ctrlBody p.cfg s.ctrl (.val (localErr af ac)) with
  | (false, ctrl) => ⟨s.A, c3, s.iter, ctrl⟩
  | (true, ctrl) => ⟨richardson p.eta af ac, c3, s.iter + 1, ctrl⟩

open Classical in
/-- `k` iterations of the `while` loop (`SSFM.py:317`) -/
noncomputable def loopRunG (g : Globals) (p : Params n) (dir : ℝ) (s : Loop n) : ℕ → Loop n
  | 0 => s
  | k + 1 => if (loopRunG g p dir s k).ctrl.dist > 0 then loopBodyG g p dir (loopRunG g p dir s k) else loopRunG g p dir s k

open Classical in
/-- `SSFM.py:305-377` `integrate_over_dz` -/
noncomputable def integrateG (g : Globals) (p : Params n) (deltaZ dir : ℝ) (f : Field n) : Option (Field n) :=
  if h : ∃ k, ¬ (loopRunG g p dir (loopStart deltaZ f) k).ctrl.dist > 0 then
    let s := loopRunG g p dir (loopStart deltaZ f) (Nat.find h)
    some ⟨s.A, s.cache, s.iter, ctrlExit s.ctrl⟩
  else none

/-- `SSFM.py:257-265`: one entry of `R0`, the response of the time constants `tau1`, `tau2` with fraction `F` at angular frequency `w` -/
noncomputable def ramanR0 (tau1 tau2 F w : ℝ) : ℂ :=
  ((1 - F : ℝ) : ℂ) + (F : ℂ) * (((tau1 ^ 2 + tau2 ^ 2) / (tau1 * tau2 ^ 2) * tau1 * tau2 ^ 2 : ℝ) /
    ((tau1 ^ 2 + tau2 ^ 2 : ℝ) - 2 * I * w * (tau1 ^ 2 : ℝ) * tau2 - ((tau1 ^ 2 * tau2 ^ 2 : ℝ) : ℂ) * (w : ℂ) ^ 2))

/-- `SSFM.py:243-296` `CalculateRamanResponseFT`: `R` in natural order and the new `self.f_R`.  `R0` is computed with the `f_R` stored
before the call; `om` is `self.omegas`, still in natural order (`191`).  With the switch on it replaces `R` (`295-296`); the
early return for a disabled Raman term (`253-255`) comes first. -/
noncomputable def ramanG (g : Globals) (o : Obj) (p : Pulse) (om : Fin p.n → ℝ) : Except PyErr (Vec ℂ × ℝ) := do
  let (R, fR) ← ramanR o p
  if o.disableRaman = false ∧ g.freqRaman = true then .ok (⟨p.n, fun k => ramanR0 o.tau1 o.tau2 o.fR (om k)⟩, fR)
  else .ok (R, fR)

/-- `SSFM.py:73-82` `load_fiber_parameters` -/
noncomputable def loadFiberG (g : Globals) (polyfit : Fiber.PolyFit) (spline : Fiber.Spline) (p : Pulse) (z : ℝ) (P : Params n) :
    PyM FibObj (Params n) := fun F =>
  match Fiber.getBetas polyfit spline F.specs p z F.fib with
  | (.error e, f) => (.error e, { F with fib := f })
  | (.ok b, f) =>
    match (do
      let B ← betaArr n b
      let γ ← Fiber.getGamma f z
      let γ ← num γ
      .ok { P with betas := g.shift B, gamma := γ } : Except PyErr (Params n)) with
    | .error e => (.error e, { F with fib := f })
    | .ok P => (.ok P, { F with fib := f })

/-- `SSFM.py:86-237` `setup_fftw` -/
noncomputable def setupG (g : Globals) (o : Obj) (p : Pulse) (F : FibObj) : Except PyErr (Params p.n × (Fin p.n → ℂ) × ℝ) := do
  let V ← p.V_THz
  let om ← fill p.n V
  let gain ← Fiber.getGain F.specs F.fib p
  let al ← fill p.n (gain.map (-1 * ·))
  let (R, fR) ← ramanG g o p om
  let R ← fill p.n R
  let a ← p.AT
  let A ← fill p.n a
  .ok ({ betas := fun _ => 0, alpha := g.shift al, omegas := g.shift om, R := g.shift R, gamma := F.fib.gamma.getD 0, w0 := p.center_frequency_THz * 2 * Real.pi, disableSS := o.disableSS, method := o.method, eta := o.eta, localError := o.localError, dzMin := o.dzMin }, g.shift A, fR)

/-- `SSFM.py:533-535`: `conditional_ifftshift` works in place on `self.A` -/
noncomputable def recordG (g : Globals) (s : Seg n) : Except PyErr (Seg n) :=
  let A1 := g.unshift s.fld.A
  let A2 := g.unshift A1
  match Pulse.setAT ⟨n, A2⟩ s.out with
  | (.error e, _) => .error e
  | (.ok _, out) =>
    .ok { s with fld := { s.fld with A := A2 }, out := out, AW := s.AW ++ [⟨n, g.unshift (g.fwd s.fld.A)⟩], AT := s.AT ++ [⟨n, A1⟩] }

/-- `SSFM.py:526-537`: the segments -/
noncomputable def segLoopG (g : Globals) (polyfit : Fiber.PolyFit) (spline : Fiber.Spline) (p : Pulse) (reload : Bool) (deltaZ : ℝ) :
    ℕ → ℕ → Seg n → Option (Except PyErr (Seg n))
  | 0, _, s => some (.ok s)
  | m + 1, i, s =>
    match (if reload then loadFiberG g polyfit spline p (i * deltaZ) s.P s.F else (.ok s.P, s.F)) with
    | (.error e, _) => some (.error e)
    | (.ok P, F) =>
      match integrateG g P deltaZ 1 s.fld with
      | none => none
      | some fld =>
        match recordG g { s with P := P, F := F, fld := fld } with
        | .error e => some (.error e)
        | .ok s => segLoopG g polyfit spline p reload deltaZ m (i + 1) s

/-- `SSFM.py:456-544` `propagate` -/
noncomputable def propagateG (g : Globals) (polyfit : Fiber.PolyFit) (spline : Fiber.Spline) (o : Obj) (p : Pulse) (F : FibObj) (nSteps : ℕ)
    (reload : Bool) : Option (Except PyErr (Result × Obj × FibObj)) :=
  if nSteps = 0 then some (.error (if F.fib.length.isNone then .TypeError else .IndexError))
  else
    match (do
      let L ← (match F.fib.length with
        | some L => .ok L
        | none => .error .TypeError)
      let out ← Pulse.createClonedPulse p
      let (P, A, fR) ← setupG g o p F
      .ok (L, out, P, A, fR) : Except PyErr (ℝ × Pulse × Params p.n × (Fin p.n → ℂ) × ℝ)) with
    | .error e => some (.error e)
    | .ok (L, out, P, A, fR) =>
      match loadFiberG g polyfit spline p 0 P F with
      | (.error e, _) => some (.error e)
      | (.ok P, F) =>
        let deltaZ := if nSteps = 1 then L else 1 * (L / nSteps) - 0 * (L / nSteps)
        match segLoopG g polyfit spline p reload deltaZ nSteps 0 ⟨P, F, ⟨A, ⟨none, 0, fun _ => 0⟩, o.iter, o.dz⟩, out, [], []⟩ with
        | none => none
        | some (.error e) => some (.error e)
        | some (.ok s) =>
          match Pulse.setAT ⟨p.n, g.unshift s.fld.A⟩ s.out with
          | (.error e, _) => some (.error e)
          | (.ok _, out) =>
            some (.ok (⟨linspace0 L nSteps, s.AW, s.AT, out⟩, { o with dz := s.fld.dz, iter := s.fld.iter, fR := fR }, s.F))

end PyNLO.Ssfm
