import Verif.Model.SsfmCtrl
import Verif.Model.Fiber

/-!
# Model of `src/pynlo/interactions/FourWaveMixing/SSFM.py`: the integrator

Floats are exact.  The global `PRE_FFTSHIFT = True` (`global_variables.py:35`) is fixed, so `FFT_t` is `ifft`
and `IFFT_t` is `fft` (`SSFM.py:669-745`).  Scratch arrays that are always written before they are read
(`A_I, k1..k4, temp, A2, A2w, ...`) are local values; the only scratch array that carries information from
one call to the next is `exp_D`, which is part of the state together with its keys `last_h`, `last_dir`.
-/

namespace PyNLO.Ssfm

open Complex

/-- `SSFM.py:42` `METHOD_SSFM,METHOD_RK4IP = range(2)` -/
inductive Method where
  | ssfm
  | rk4ip
  deriving DecidableEq

/-- Parameters read by the integrator (`SSFM.py:43-82`, `191-194`): arrays in shifted order. -/
structure Params (n : ℕ) where
  betas : Fin n → ℝ
  alpha : Fin n → ℝ
  omegas : Fin n → ℝ
  R : Fin n → ℂ
  gamma : ℝ
  w0 : ℝ
  disableSS : Bool
  method : Method
  eta : ℝ
  localError : ℝ
  dzMin : ℝ

/-- `SSFM.py:312` and 69: the settings of the step-size control -/
noncomputable def Params.cfg {n : ℕ} (p : Params n) : Cfg := ⟨p.localError, p.dzMin, 2 ^ (1 / p.eta)⟩

/-- `exp_D`, `last_h`, `last_dir` -/
structure Cache (n : ℕ) where
  lastH : Option ℝ
  lastDir : ℝ
  expD : Fin n → ℂ

variable {n : ℕ}

/-- `SSFM.py:453-454` `Calculate_expD` -/
noncomputable def calcExpD (p : Params n) (h dir : ℝ) : Fin n → ℂ := fun k =>
  exp (((dir * h * 0.5 : ℝ) : ℂ) * (I * p.betas k - p.alpha k / 2))

open Classical in
/-- `SSFM.py:391-394`: refresh the cached operator if the key changed -/
noncomputable def refresh (p : Params n) (h dir : ℝ) (c : Cache n) : Cache n :=
  if c.lastH ≠ some h ∨ c.lastDir ≠ dir then ⟨some h, dir, calcExpD p h dir⟩ else c

/-- `SSFM.py:395`: `IFFT_t(exp_D * FFT_t(A))` -/
noncomputable def applySpec (E A : Fin n → ℂ) : Fin n → ℂ := fft fun k => E k * ifft A k

/-- `SSFM.py:390-396` `LinearStep` -/
noncomputable def linearStep (p : Params n) (A : Fin n → ℂ) (h dir : ℝ) (c : Cache n) : (Fin n → ℂ) × Cache n :=
  (applySpec (refresh p h dir c).expD A, refresh p h dir c)

/-- `SSFM.py:398-402` `Deriv` (argument in the frequency domain) -/
noncomputable def deriv (p : Params n) (Aw : Fin n → ℂ) : Fin n → ℂ := fft fun k => -1 * I * p.omegas k * Aw k

/-- `|A|**2` as a complex array (`SSFM.py:420`) -/
noncomputable def absSq (A : Fin n → ℂ) : Fin n → ℂ := fun j => ((‖A j‖ ^ 2 : ℝ) : ℂ)

open Classical in
/-- `SSFM.py:404-433` `NonlinearOperator` -/
noncomputable def nonlinear (p : Params n) (A : Fin n → ℂ) : Fin n → ℂ :=
  let A2w := ifft (absSq A)
  let RA2 := fft fun k => p.R k * A2w k
  if p.disableSS then fun j => 1 * I * p.gamma * RA2 j
  else
    let dA := deriv p (ifft A)
    let dA2 := deriv p A2w
    let dRA2 := fft fun k => p.R k * ifft dA2 k
    fun j => 1 * I * p.gamma * RA2 j - ((p.gamma / p.w0 : ℝ) : ℂ) *
      (dRA2 j + if ‖A j‖ > 10 ^ (-15 : ℤ) then dA j * RA2 j / (10 ^ (-20 : ℤ) + A j) else 0)

/-- `SSFM.py:436-451` `RK4IP` with the dispersion operator `E` in `exp_D` -/
noncomputable def rk4ipWith (p : Params n) (E A : Fin n → ℂ) (h dir : ℝ) : Fin n → ℂ :=
  let AI := applySpec E A
  let k1 := applySpec E fun j => ((h * dir : ℝ) : ℂ) * nonlinear p A j * A j
  let u2 : Fin n → ℂ := fun j => AI j + k1 j / 2
  let k2 : Fin n → ℂ := fun j => ((h * dir : ℝ) : ℂ) * nonlinear p u2 j * u2 j
  let u3 : Fin n → ℂ := fun j => AI j + k2 j / 2
  let k3 : Fin n → ℂ := fun j => ((h * dir : ℝ) : ℂ) * nonlinear p u3 j * u3 j
  let temp := applySpec E fun j => AI j + k3 j
  let k4 : Fin n → ℂ := fun j => ((h * dir : ℝ) : ℂ) * nonlinear p temp j * temp j
  fun j => applySpec E (fun j => AI j + k1 j / 6 + k2 j / 3 + k3 j / 3) j + k4 j / 6

/-- `np.exp(dz*direction*self.NonlinearOperator(A))*A` (`SSFM.py:383`, `385`) -/
noncomputable def kick (p : Params n) (A : Fin n → ℂ) (dz dir : ℝ) : Fin n → ℂ := fun j =>
  exp (((dz * dir : ℝ) : ℂ) * nonlinear p A j) * A j

open Classical in
/-- `SSFM.py:379-388` `Advance` -/
noncomputable def advance (p : Params n) (A : Fin n → ℂ) (dz dir : ℝ) (c : Cache n) : (Fin n → ℂ) × Cache n :=
  match p.method with
  | .ssfm =>
    if dir = 1 then
      let (A, c) := linearStep p A dz dir c
      (kick p A dz dir, c)
    else
      linearStep p (kick p A dz dir) dz dir c
  | .rk4ip =>
    let c := refresh p dz dir c
    (rk4ipWith p c.expD A dz dir, c)

/-- `np.linalg.norm` -/
noncomputable def norm2 (x : Fin n → ℂ) : ℝ := Real.sqrt (∑ j, ‖x j‖ ^ 2)

open Classical in
/-- `SSFM.py:753-758` `CalculateLocalError` -/
noncomputable def localErr (Af Ac : Fin n → ℂ) : ℝ :=
  if norm2 Af ≠ 0 then norm2 (fun j => Af j - Ac j) / norm2 Af else norm2 fun j => Af j - Ac j

open Classical in
/-- `SSFM.py:358-364`: the accepted field -/
noncomputable def richardson (eta : ℝ) (Af Ac : Fin n → ℂ) : Fin n → ℂ :=
  if eta = 3 then fun j => (4 / 3) * Af j - (1 / 3) * Ac j
  else if eta = 5 then fun j => (16 / 15) * Af j - (1 / 15) * Ac j
  else fun j => (((2 : ℝ) ^ (eta - 1) / ((2 : ℝ) ^ (eta - 1) - 1) : ℝ) : ℂ) * Af j -
    ((1 / ((2 : ℝ) ^ (eta - 1) - 1) : ℝ) : ℂ) * Ac j

/-- Loop state of `integrate_over_dz`: `self.A`, the cache, `self.iter` and the control variables. -/
structure Loop (n : ℕ) where
  A : Fin n → ℂ
  cache : Cache n
  iter : ℕ
  ctrl : Ctrl

/-- `SSFM.py:318-372`: one iteration of the `while` loop -/
noncomputable def loopBody (p : Params n) (dir : ℝ) (s : Loop n) : Loop n :=
  let (ac, c1) := advance p s.A (2 * s.ctrl.dz) dir s.cache
  let (a1, c2) := advance p s.A s.ctrl.dz dir c1
  let (af, c3) := advance p a1 s.ctrl.dz dir c2
  match ctrlBody p.cfg s.ctrl (.val (localErr af ac)) with
  | (false, ctrl) => ⟨s.A, c3, s.iter, ctrl⟩
  | (true, ctrl) => ⟨richardson p.eta af ac, c3, s.iter + 1, ctrl⟩

open Classical in
/-- `k` iterations of the `while` loop (`SSFM.py:317`) -/
noncomputable def loopRun (p : Params n) (dir : ℝ) (s : Loop n) : ℕ → Loop n
  | 0 => s
  | k + 1 => if (loopRun p dir s k).ctrl.dist > 0 then loopBody p dir (loopRun p dir s k) else loopRun p dir s k

/-- What `integrate_over_dz` reads and writes: `self.A`, the cache, `self.iter`, `self.dz`. -/
structure Field (n : ℕ) where
  A : Fin n → ℂ
  cache : Cache n
  iter : ℕ
  dz : ℝ

/-- `SSFM.py:307-315`: loop state on entry; `last_h = -1.0` invalidates the cache -/
noncomputable def loopStart (deltaZ : ℝ) (f : Field n) : Loop n :=
  ⟨f.A, { f.cache with lastH := some (-1) }, f.iter, ctrlStart f.dz deltaZ⟩

open Classical in
/-- `SSFM.py:305-377` `integrate_over_dz`; `none` if the loop never ends -/
noncomputable def integrate (p : Params n) (deltaZ dir : ℝ) (f : Field n) : Option (Field n) :=
  if h : ∃ k, ¬ (loopRun p dir (loopStart deltaZ f) k).ctrl.dist > 0 then
    let s := loopRun p dir (loopStart deltaZ f) (Nat.find h)
    some ⟨s.A, s.cache, s.iter, ctrlExit s.ctrl⟩
  else none

end PyNLO.Ssfm
