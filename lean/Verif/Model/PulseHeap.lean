import Verif.Model.Pulse

/-!
# Array identity (aliasing) model of a `Pulse` and a caller

`Verif/Model/Pulse.lean` treats arrays as values.  Here arrays live in a heap and the caller may write to
any array whose reference it holds, at any time, in any order.  Covers
`src/pynlo/light/PulseBase.py:127-133, 150-156, 193-227`.

Simplification: the grid parameters are fixed (`n`, and the two grids the getters would compute), since
only identity of arrays matters here; the pulse is ready.
-/

namespace PyNLO.Heap

open Pulse

/-- A heap of complex arrays and one of real arrays; addresses are list positions.  `userC`/`userR` are
the references the caller holds. -/
structure World where
  heapC : List (Vec ℂ)
  heapR : List (Vec ℝ)
  /-- `_AW` -/
  aw : Option ℕ
  /-- `_cache_wl_nm` (valid for the current key) -/
  wl : Option ℕ
  /-- `_cache_W_Hz` (valid for the current key) -/
  wHz : Option ℕ
  userC : List ℕ
  userR : List ℕ

/-- `NPTS` and the grids that a recomputation of `wl_nm` / `W_mks` would produce. -/
structure Grid where
  n : ℕ
  wlGrid : Vec ℝ
  wGrid : Vec ℝ

/-- What may happen next: a call on the pulse, or a write by the caller. -/
inductive Act where
  /-- the caller creates an array -/
  | newC (v : Vec ℂ)
  /-- caller: `arr[:] = v` or any other in-place change, for an array it holds (result contents `v`) -/
  | writeC (addr : ℕ) (v : Vec ℂ)
  | writeR (addr : ℕ) (v : Vec ℝ)
  /-- `p.AW`, the caller keeps the result -/
  | getAW
  /-- `p.AT` -/
  | getAT
  /-- `p.set_AW(arr)` with an array the caller holds -/
  | setAW (addr : ℕ)
  /-- `p.set_AT(arr)` -/
  | setAT (addr : ℕ)
  /-- `p.wl_nm` -/
  | getWl
  /-- `p.W_mks` -/
  | getW

/-- Effect of `dst[:] = src` on an array object; unchanged when it raises. -/
def assignTo (dst src : Vec ℂ) : Vec ℂ :=
  match dst.assign src with
  | .ok v => v
  | .error _ => dst

/-- `set_AW` given the new contents (`PulseBase.py:214-216`): allocate if missing, then copy into the
existing array. -/
def storeAW (g : Grid) (w : World) (new : Vec ℂ) : World :=
  match w.aw with
  | none => { w with heapC := w.heapC ++ [assignTo (Vec.zeros g.n) new], aw := some w.heapC.length }
  | some a => { w with heapC := w.heapC.set a (assignTo (w.heapC.getD a (Vec.zeros 0)) new) }

/-- Hand a new complex array with contents `v` to the caller. -/
def giveC (w : World) (v : Vec ℂ) : World :=
  { w with heapC := w.heapC ++ [v], userC := w.heapC.length :: w.userC }

/-- One action.  A caller cannot use references it does not hold. -/
noncomputable def step (g : Grid) (w : World) : Act → World
  | .newC v => giveC w v
  | .writeC a v => if a ∈ w.userC then { w with heapC := w.heapC.set a v } else w
  | .writeR a v => if a ∈ w.userR then { w with heapR := w.heapR.set a v } else w
  -- `PulseBase.py:193-197`: `self._AW.copy()`
  | .getAW => match w.aw with
      | none => w
      | some a => giveC w (w.heapC.getD a (Vec.zeros 0))
  -- `PulseBase.py:198-202`: transforms build a new array
  | .getAT => match w.aw with
      | none => w
      | some a => match IFFT_t (w.heapC.getD a (Vec.zeros 0)) with
          | .ok v => giveC w v
          | .error _ => w
  | .setAW a => if a ∈ w.userC then storeAW g w (w.heapC.getD a (Vec.zeros 0)) else w
  | .setAT a => if a ∈ w.userC then
      (match FFT_t (w.heapC.getD a (Vec.zeros 0)) with
        | .ok v => storeAW g w v
        | .error _ => w) else w
  -- `PulseBase.py:127-133`: the cached array itself is returned
  | .getWl => match w.wl with
      | some a => { w with userR := a :: w.userR }
      | none => { w with
          heapR := w.heapR ++ [g.wlGrid], wl := some w.heapR.length,
          userR := w.heapR.length :: w.userR }
  -- `PulseBase.py:150-156`
  | .getW => match w.wHz with
      | some a => { w with userR := a :: w.userR }
      | none => { w with
          heapR := w.heapR ++ [g.wGrid], wHz := some w.heapR.length,
          userR := w.heapR.length :: w.userR }

/-- Run an interleaving. -/
noncomputable def run (g : Grid) (acts : List Act) (w : World) : World := acts.foldl (step g) w

/-- Nothing allocated yet. -/
def start : World := ⟨[], [], none, none, none, [], []⟩

/-- What `p.AW` would return now. -/
def fieldOf (w : World) : Option (Vec ℂ) := w.aw.map fun a => w.heapC.getD a (Vec.zeros 0)

/-- What `p.wl_nm` would return now. -/
def wlOf (g : Grid) (w : World) : Vec ℝ :=
  match w.wl with
  | some a => w.heapR.getD a (Vec.zeros 0)
  | none => g.wlGrid

end PyNLO.Heap
