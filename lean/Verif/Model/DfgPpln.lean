import Verif.Model.DfgSetup
import Verif.Model.Crystal

/-!
# A PPLN crystal in a DFG problem
-/

namespace PyNLO.Xtal

/-- What `dfg_problem` reads of a `PPLN(T, length=len)` crystal after `set_pp((period,))` (`XTAL_PPLN.py:82-115`,
`CrystalContainer.py:40-48`): `mode`, `deff`, `length_mks`, `pp` and `n`, which ignores its axis.  Where the index is NaN
or infinite it is 0 here. -/
noncomputable def PPLN.inProblem (c : PPLN) (len period : ℝ) : Dfg.Crystal where
  mode := "PP"
  deff := 14.9e-12
  len := len
  pp := fun _ => period
  n := fun _ wl => match c.n wl with
    | .val x => x
    | .bad => 0

end PyNLO.Xtal
