import Verif.Model.DfgOut
import Verif.Model.DerivedPulses

/-!
# Saved DFG runs

`src/pynlo/interactions/ThreeWaveMixing/multi_run_rw.py` (lines 1-154).  An HDF5 file opened with PyTables is a map from the
parameter name to a group; the group holds one sub-group per run; the arrays of a run are optional nodes, since a run can be
written in part.  A missing node raises the PyTables `NoSuchNodeError` and a name that is taken raises `NodeError`; both are
`PyErr.NodeError`.  Scalars are stored as arrays of one double and modelled as the number.  Printing, flushing and the type
of the stored numbers are not modelled.
-/

namespace PyNLO.MultiRun

open Dfg (pyIndex)

/-- A two-dimensional array; the writer stores frequency bins as rows and saved positions as columns. -/
structure Mat where
  rows : ℕ
  cols : ℕ
  val : Fin rows → Fin cols → ℂ

/-- `m[:, z]`. -/
def Mat.col (m : Mat) (z : ℤ) : Except PyErr (Vec ℂ) :=
  match pyIndex m.cols z with
  | .error e => .error e
  | .ok k => if h : k < m.cols then .ok ⟨m.rows, fun i => m.val i ⟨k, h⟩⟩ else .error .IndexError

/-- The nodes of one wave in a run: `pump`, `pump_Twind`, `pump_center_nm`, and likewise `sgnl`, `idlr`. -/
structure Leaf where
  field : Option Mat
  twind : Option ℝ
  center : Option ℝ

/-- The nodes of a run. -/
structure RunNode where
  pump : Leaf
  sgnl : Leaf
  idlr : Leaf
  frep : Option ℝ
  param : Option ℝ

/-- A group without nodes. -/
def RunNode.empty : RunNode := ⟨⟨none, none, none⟩, ⟨none, none, none⟩, ⟨none, none, none⟩, none, none⟩

/-- The sub-groups of the group of a parameter, by name. -/
abbrev Group := List (String × RunNode)

/-- `get_node(name)[0]` or `get_node(name)` for an array node. -/
def node {α : Type} : Option α → Except PyErr α
  | some a => .ok a
  | none => .error .NodeError

/-- `get_node(root_name + '/run' + str(n))`. -/
def getGroup (g : Group) (n : ℤ) : Except PyErr RunNode := node (g.lookup ("run" ++ toString n))

/-- `DFGReader` (`multi_run_rw.py:15-31`). -/
structure Reader where
  group : Group
  runCtr : ℕ
  intCtr : ℕ
  frepHz : ℝ

/-- `DFGReader.__init__` (`multi_run_rw.py:23-31`). -/
def openReader (file : String → Option Group) (param : String) : Except PyErr Reader := do
  let g ← node (file param)
  let r0 ← getGroup g 0
  let f ← node r0.frep
  .ok ⟨g, g.length, 0, f⟩

/-- The default and the range check at the start of `get_run_param` and `get_run` (`multi_run_rw.py:37-40, 48-51`). -/
def checkRun (r : Reader) (n : Option ℤ) : Except PyErr ℤ :=
  let n := n.getD ((r.runCtr : ℤ) - 1)
  if n < 0 ∨ n ≥ r.runCtr then .error .IndexError else .ok n

/-- `get_run_param` (`multi_run_rw.py:34-43`). -/
def getRunParam (r : Reader) (n : Option ℤ) : Except PyErr ℝ := do
  let k ← checkRun r n
  let g ← getGroup r.group k
  node g.param

/-- One of the three blocks of `get_run` (`multi_run_rw.py:57-88`). -/
noncomputable def readWave (l : Leaf) (z : ℤ) (frepHz : ℝ) : Except PyErr Pulse := do
  let m ← node l.field
  let f ← m.col z
  let tw ← node l.twind
  let wl ← node l.center
  Pulse.construct (Pulse.init none none) do
    PyM.modify (Pulse.setNPTS f.len)
    Pulse.setCenterWavelengthNm wl
    PyM.modify (Pulse.setTimeWindowPs tw)
    Pulse.setAW f
    PyM.modify (Pulse.setFrepMHz (frepHz * 10 ^ (-6 : ℤ)))

/-- `get_run` (`multi_run_rw.py:45-90`). -/
noncomputable def getRun (r : Reader) (n z : Option ℤ) : Except PyErr (Pulse × Pulse × Pulse) := do
  let k ← checkRun r n
  let z := z.getD (-1)
  let g ← getGroup r.group k
  let p ← readWave g.pump z r.frepHz
  let s ← readWave g.sgnl z r.frepHz
  let i ← readWave g.idlr z r.frepHz
  .ok (p, s, i)

/-- `get_next_run` (`multi_run_rw.py:92-95`): the counter moves before the run is read; `None` at the end. -/
noncomputable def getNextRun (z : Option ℤ) : PyM Reader (Option (Pulse × Pulse × Pulse)) := do
  let r ← PyM.get
  if r.intCtr < r.runCtr then do
    PyM.modify fun r => { r with intCtr := r.intCtr + 1 }
    let r ← PyM.get
    let out ← PyM.lift (getRun r (some ((r.intCtr : ℤ) - 1)) z)
    pure (some out)
  else pure none

/-! ## The writer -/

/-- `DFGWriter`: the open file and the counter (`multi_run_rw.py:97-106`). -/
structure Writer where
  file : String → Option Group
  param : String
  runCtr : ℕ

/-- `DFGWriter.__init__` (`multi_run_rw.py:99-106`): an existing group of that name is replaced. -/
def openWriter (file : String → Option Group) (param : String) : Writer :=
  ⟨fun s => if s = param then some [] else file s, param, 0⟩

/-- What the writer runs on, where library versions differ: whether NumPy accepts a float as a slice bound (until 1.11) and
whether PyTables still has the old name `createCArray`. -/
structure Versions where
  floatSlice : Bool
  oldNames : Bool

/-- What `add_run` reads from the solver and the integrand (`multi_run_rw.py:108-154`). -/
structure RunData where
  nvar : ℕ
  nsave : ℕ
  /-- `ysave[0:count, lo:hi].T` for the three thirds, if the solver kept output -/
  fields : Option (Mat × Mat × Mat)
  tw : ℝ × ℝ × ℝ
  wl : ℝ × ℝ × ℝ

/-- Change the sub-group `name` of the writer's group. -/
def setNode (w : Writer) (name : String) (f : RunNode → RunNode) : Writer :=
  { w with file := fun s => if s = w.param then
      (w.file s).map fun g => g.map fun e => if e.1 = name then (e.1, f e.2) else e
    else w.file s }

/-- `create_group(root, name)`: raises if the name is taken. -/
def createGroup (name : String) : PyM Writer Unit := fun w =>
  match w.file w.param with
  | none => (.error .NodeError, w)
  | some g =>
    if (g.map (·.1)).contains name then (.error .NodeError, w)
    else (.ok (), { w with file := fun s => if s = w.param then some (g ++ [(name, .empty)]) else w.file s })

/-- `createCArray` followed by the assignment of the contents. -/
def createArray (v : Versions) (name : String) (f : RunNode → RunNode) : PyM Writer Unit := fun w =>
  if v.oldNames then (.ok (), setNode w name f) else (.error .AttributeError, w)

/-- `odesolver.out.ysave[0:count, 0:npts]` with `npts = nvar / 3`, a float (`multi_run_rw.py:110, 114`): `TypeError` unless
floats are accepted, and in any case if `ysave` is `None`. -/
def sliceFields (v : Versions) (d : RunData) : PyM Writer (Mat × Mat × Mat) := fun w =>
  match d.fields with
  | none => (.error .TypeError, w)
  | some m => if v.floatSlice then (.ok m, w) else (.error .TypeError, w)

/-- `integrand.pump.frep_Hz` (`multi_run_rw.py:146`): `Pulse` has `frep_MHz` and `frep_mks` but no `frep_Hz`. -/
def pumpFrepHz : PyM Writer ℝ := PyM.throw .AttributeError

/-- `add_run` (`multi_run_rw.py:108-154`). -/
def addRun (v : Versions) (d : RunData) (param : ℝ) : PyM Writer Unit := do
  let w ← PyM.get
  let name := "run" ++ toString (w.runCtr : ℤ)
  createGroup name
  let m ← sliceFields v d
  createArray v name fun n => { n with pump := { n.pump with field := some m.1 } }
  createArray v name fun n => { n with sgnl := { n.sgnl with field := some m.2.1 } }
  createArray v name fun n => { n with idlr := { n.idlr with field := some m.2.2 } }
  createArray v name fun n => { n with pump := { n.pump with twind := some d.tw.1 } }
  createArray v name fun n => { n with sgnl := { n.sgnl with twind := some d.tw.2.1 } }
  createArray v name fun n => { n with idlr := { n.idlr with twind := some d.tw.2.2 } }
  createArray v name fun n => { n with pump := { n.pump with center := some d.wl.1 } }
  createArray v name fun n => { n with sgnl := { n.sgnl with center := some d.wl.2.1 } }
  createArray v name fun n => { n with idlr := { n.idlr with center := some d.wl.2.2 } }
  createArray v name fun n => { n with frep := some 0 }
  let f ← pumpFrepHz
  PyM.modify fun w => setNode w name fun n => { n with frep := some f }
  createArray v name fun n => { n with param := some param }
  PyM.modify fun w => { w with runCtr := w.runCtr + 1 }

end PyNLO.MultiRun
