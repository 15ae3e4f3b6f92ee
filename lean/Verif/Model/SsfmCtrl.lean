import Mathlib.Analysis.SpecialFunctions.Pow.Real

/-!
# Step-size control of `SSFM.integrate_over_dz`

`src/pynlo/interactions/FourWaveMixing/SSFM.py:305-377`, without the field: the loop is driven by a stream of
local-error values.  A local error is a float, so it may be infinite or NaN; all comparisons with NaN are
false.  Distances and steps are reals.
-/

namespace PyNLO.Ssfm

/-- A float as far as comparisons are concerned. -/
inductive Err where
  | nan
  | inf
  | val (x : ℝ)

namespace Err

/-- `e > x` -/
def gt : Err → ℝ → Prop
  | nan, _ => False
  | inf, _ => True
  | val e, x => e > x

/-- `e >= x` -/
def ge : Err → ℝ → Prop
  | nan, _ => False
  | inf, _ => True
  | val e, x => e ≥ x

/-- `e <= x` -/
def le : Err → ℝ → Prop
  | nan, _ => False
  | inf, _ => False
  | val e, x => e ≤ x

end Err

/-- `self.local_error`, `self.dz_min` (1e-12, line 69), `factor = 2**(1.0/self.eta)` (line 312). -/
structure Cfg where
  localError : ℝ
  dzMin : ℝ
  factor : ℝ

/-- Loop variables: `dz`, `dist`, and `return_dz` when `force_last_dz` is true. -/
structure Ctrl where
  dz : ℝ
  dist : ℝ
  ret : Option ℝ

open Classical in
/-- `SSFM.py:327-357`: from the current `dz` and the error, whether the step is accepted and the new `dz`. -/
noncomputable def judge (c : Cfg) (dz : ℝ) (e : Err) : Bool × ℝ :=
  if e.gt (2 * c.localError) then
    if dz / 2 ≥ c.dzMin then (false, dz / 2) else (true, dz)
  else if e.ge c.localError ∧ e.le (2 * c.localError) then
    if dz / c.factor ≥ c.dzMin then (true, dz / c.factor) else (true, dz)
  else if e.ge (0.5 * c.localError) ∧ e.le c.localError then (true, dz)
  else (true, dz * c.factor)

open Classical in
/-- `SSFM.py:366-372`: after an accepted step of old size `s.dz`. -/
noncomputable def afterAccept (c : Cfg) (s : Ctrl) (dz : ℝ) : Ctrl :=
  let dist := s.dist - 2 * s.dz
  if 2 * dz > dist ∧ dist > 2 * c.dzMin then ⟨dist / 2, dist, some dz⟩ else ⟨dz, dist, s.ret⟩

/-- `SSFM.py:327-372`: one loop iteration (the first component tells whether the step was accepted). -/
noncomputable def ctrlBody (c : Cfg) (s : Ctrl) (e : Err) : Bool × Ctrl :=
  match judge c s.dz e with
  | (false, dz) => (false, { s with dz := dz })
  | (true, dz) => (true, afterAccept c s dz)

open Classical in
/-- `SSFM.py:307-315`: values on entry; `dz` is the stored `self.dz`. -/
noncomputable def ctrlStart (dz deltaZ : ℝ) : Ctrl :=
  ⟨if 2 * dz > deltaZ then deltaZ / 2 else dz, deltaZ, none⟩

open Classical in
/-- Control state and log of accepted steps (size `old_dz`, error) after `k` iterations of the `while`
loop (`SSFM.py:317`), for a stream of errors.  Once `dist <= 0` nothing happens any more. -/
noncomputable def ctrlRun (c : Cfg) (err : ℕ → Err) (s : Ctrl) : ℕ → Ctrl × List (ℝ × Err)
  | 0 => (s, [])
  | k + 1 =>
    let (s, l) := ctrlRun c err s k
    if s.dist > 0 then
      let (ok, s') := ctrlBody c s (err k)
      (s', if ok then l ++ [(s.dz, err k)] else l)
    else (s, l)

/-- `SSFM.py:375-377`: the step stored in `self.dz` on exit. -/
noncomputable def ctrlExit (s : Ctrl) : ℝ := s.ret.getD s.dz

/-- The call returns (for this error stream) with final control state `s'` and log `l`. -/
def CtrlReturns (c : Cfg) (err : ℕ → Err) (dz deltaZ : ℝ) (s' : Ctrl) (l : List (ℝ × Err)) : Prop :=
  ∃ k, ctrlRun c err (ctrlStart dz deltaZ) k = (s', l) ∧ ¬ s'.dist > 0

end PyNLO.Ssfm
