import Verif.Py.Basic
import Verif.Model.Pulse

/-!
# Group velocities of the DFG problem

`src/pynlo/interactions/ThreeWaveMixing/DFG_integrand.py:191-196`, for one-dimensional arrays.
-/

namespace PyNLO.Dfg

/-- The index of the difference that `helper_dxdy` uses for entry `i`: `i` itself, and the last but one for the last, since `np.append(delta, delta[-1])`
repeats the last difference (`DFG_integrand.py:192-193`). -/
def slopeIdx {N : ℕ} (i : Fin N) : ℕ := min (i : ℕ) (N - 2)

/-- `helper_dxdy(x, y)` (`DFG_integrand.py:191-193`) of arrays of the same length, at least two.  Vanishing differences of `x` are excluded by the theorems. -/
noncomputable def helperDxdy {N : ℕ} (h : 2 ≤ N) (x y : Fin N → ℝ) (i : Fin N) : ℝ :=
  (y ⟨slopeIdx i + 1, by unfold slopeIdx; omega⟩ - y ⟨slopeIdx i, by unfold slopeIdx; omega⟩) /
    (x ⟨slopeIdx i + 1, by unfold slopeIdx; omega⟩ - x ⟨slopeIdx i, by unfold slopeIdx; omega⟩)

/-- `vg(n, wl)` (`DFG_integrand.py:195-196`), with `self.c` the speed of light (`DFG_integrand.py:118`).  The quotient of the differences raises `ValueError` unless
their lengths agree or one of them is 1; an empty quotient raises `IndexError` at `delta[-1]`; the product and the difference in `vg` raise `ValueError` when the
arrays have different lengths.  A vanishing group index is excluded by the theorems. -/
noncomputable def vg (n wl : Vec ℝ) : Except PyErr (Vec ℝ) :=
  if n.len - 1 ≠ wl.len - 1 ∧ n.len - 1 ≠ 1 ∧ wl.len - 1 ≠ 1 then .error .ValueError
  else if h0 : n.len - 1 = 0 ∨ wl.len - 1 = 0 then .error .IndexError
  else if h : n.len = wl.len then
    .ok ⟨wl.len, fun i => cMks / (n.val (i.cast h.symm) - wl.val i * helperDxdy (by omega) wl.val (fun j => n.val (j.cast h.symm)) i)⟩
  else .error .ValueError

end PyNLO.Dfg
