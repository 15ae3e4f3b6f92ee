import Verif.Model.SsfmCtrl

/-!
# Step-size control of `SSFM.integrate_over_dz` with rounded arithmetic

`src/pynlo/interactions/FourWaveMixing/SSFM.py:305-377`, as `Model/SsfmCtrl`, with the result of every multiplication, division and subtraction of lengths
rounded by `rnd`.  With `rnd x = x` it is the model of `Model/SsfmCtrl` (`C170_model`).  Overflow is not modelled; `C170_range` bounds all values.  The settings
`local_error`, `dz_min` and `factor` are the floats that the program holds.
-/

namespace PyNLO.Ssfm

variable (rnd : ℝ → ℝ)

open Classical in
/-- `SSFM.py:327-357`: from the current `dz` and the error, whether the step is accepted and the new `dz`. -/
noncomputable def judgeF (c : Cfg) (dz : ℝ) (e : Err) : Bool × ℝ :=
  if e.gt (rnd (2 * c.localError)) then
    if rnd (dz / 2) ≥ c.dzMin then (false, rnd (dz / 2)) else (true, dz)
  else if e.ge c.localError ∧ e.le (rnd (2 * c.localError)) then
    if rnd (dz / c.factor) ≥ c.dzMin then (true, rnd (dz / c.factor)) else (true, dz)
  else if e.ge (rnd (0.5 * c.localError)) ∧ e.le c.localError then (true, dz)
  else (true, rnd (dz * c.factor))

open Classical in
/-- `SSFM.py:366-372`: after an accepted step of old size `s.dz`. -/
noncomputable def afterAcceptF (c : Cfg) (s : Ctrl) (dz : ℝ) : Ctrl :=
  let dist := rnd (s.dist - rnd (2 * s.dz))
  if rnd (2 * dz) > dist ∧ dist > rnd (2 * c.dzMin) then ⟨rnd (dist / 2), dist, some dz⟩ else ⟨dz, dist, s.ret⟩

/-- `SSFM.py:327-372`: one loop iteration (the first component tells whether the step was accepted). -/
noncomputable def ctrlBodyF (c : Cfg) (s : Ctrl) (e : Err) : Bool × Ctrl :=
  match judgeF rnd c s.dz e with
  | (false, dz) => (false, { s with dz := dz })
  | (true, dz) => (true, afterAcceptF rnd c s dz)

open Classical in
/-- `SSFM.py:307-315`: values on entry; `dz` is the stored `self.dz`. -/
noncomputable def ctrlStartF (dz deltaZ : ℝ) : Ctrl :=
  ⟨if rnd (2 * dz) > deltaZ then rnd (deltaZ / 2) else dz, deltaZ, none⟩

open Classical in
/-- Control state and log of accepted steps (size `old_dz`, error) after `k` iterations of the `while`
loop (`SSFM.py:317`), for a stream of errors.  Once `dist <= 0` nothing happens any more. -/
noncomputable def ctrlRunF (c : Cfg) (err : ℕ → Err) (s : Ctrl) : ℕ → Ctrl × List (ℝ × Err)
  | 0 => (s, [])
  | k + 1 =>
    let (s, l) := ctrlRunF c err s k
    if s.dist > 0 then
      let (ok, s') := ctrlBodyF rnd c s (err k)
      (s', if ok then l ++ [(s.dz, err k)] else l)
    else (s, l)

/-- The call returns (for this error stream) with final control state `s'` and log `l`; it stores `ctrlExit s'` (`SSFM.py:375-377`). -/
def CtrlReturnsF (c : Cfg) (err : ℕ → Err) (dz deltaZ : ℝ) (s' : Ctrl) (l : List (ℝ × Err)) : Prop :=
  ∃ k, ctrlRunF rnd c err (ctrlStartF rnd dz deltaZ) k = (s', l) ∧ ¬ s'.dist > 0

end PyNLO.Ssfm
