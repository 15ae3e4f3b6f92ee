import Verif.Py.Basic

/-!
# Containers for the three fields

`src/pynlo/interactions/ThreeWaveMixing/field_classes.py` (lines 1-101).  The module imports `exceptions`, which exists in
Python 2 only; the model describes what the classes do once imported.  Arrays are objects in a heap, addressed by list
position; `fields[r,:]` and `fields` are views, so a caller that holds one can write to the array at any later time.  The
array `ks` is never used by a method and is not modelled.  Arguments of `set_all` have three rows.
-/

namespace PyNLO.FieldClasses

/-! ## `beam_parameters` -/

/-- `beam_parameters` (`field_classes.py:34-46`): the list `waists`. -/
structure BeamParameters where
  waists : List ℝ

/-- `beam_parameters.__init__` (`field_classes.py:42-46`). -/
def BeamParameters.init (pump sgnl idlr : ℝ) : BeamParameters := ⟨[pump, sgnl, idlr]⟩

/-- An argument: an `int` or something of another type. -/
inductive Arg where
  | int (n : ℤ)
  | other

/-- `waists[A]` for a non-negative index. -/
def item (l : List ℝ) (n : ℤ) : Except PyErr ℝ :=
  match l[n.toNat]? with
  | some x => .ok x
  | none => .error .IndexError

/-- `calculate_overlap` (`field_classes.py:48-57`). -/
noncomputable def calculateOverlap (b : BeamParameters) (A B : Arg) : Except PyErr ℝ :=
  match A, B with
  | .int A, .int B =>
    if A < 0 ∨ A > 3 ∨ B < 0 ∨ B > 3 then .error .ValueError
    else do
      let x ← item b.waists A
      let y ← item b.waists B
      .ok ((x + y) / 2)
  | _, _ => .error .TypeError

/-! ## `ThreeFields` -/

/-- A complex array with three rows of `n` samples. -/
structure Rows where
  n : ℕ
  val : Fin 3 → Fin n → ℂ

/-- `np.zeros((3, n))`. -/
def Rows.zero (n : ℕ) : Rows := ⟨n, fun _ _ => 0⟩

/-- A `ThreeFields` instance (`field_classes.py:61-71`): size and the addresses of `fields` and `field_derivs`. -/
structure Obj where
  npts : ℕ
  fields : ℕ
  derivs : ℕ

/-- All arrays, all instances, and the list `k0s` of the class. -/
structure World where
  heap : List Rows
  objs : List Obj
  k0s : Fin 3 → ℝ

/-- `a[r,:] = v`: as many samples as the row, or one that is repeated. -/
def Rows.setRow (a : Rows) (r : Fin 3) (v : Vec ℂ) : Except PyErr Rows :=
  match Vec.assign ⟨a.n, a.val r⟩ v with
  | .error e => .error e
  | .ok _ => .ok ⟨a.n, fun s => if s = r then
      (if h : v.len = a.n then fun i => v.val (i.cast h.symm)
        else if h : v.len = 1 then fun _ => v.val ⟨0, by omega⟩ else a.val s) else a.val s⟩

/-- `a[:] = m` for `m` of three rows. -/
def Rows.setAll (a m : Rows) : Except PyErr Rows :=
  if h : m.n = a.n then .ok ⟨a.n, fun s i => m.val s (i.cast h.symm)⟩
  else if h : m.n = 1 then .ok ⟨a.n, fun s _ => m.val s ⟨0, by omega⟩⟩
  else .error .ValueError

/-- An instance of the world; ids are list positions. -/
def obj (o : ℕ) : PyM World Obj := fun w =>
  match w.objs[o]? with
  | some x => (.ok x, w)
  | none => (.error .NameError, w)

def array (a : ℕ) : PyM World Rows := fun w =>
  match w.heap[a]? with
  | some x => (.ok x, w)
  | none => (.error .NameError, w)

def store (a : ℕ) (m : Rows) : PyM World Unit := PyM.modify fun w => { w with heap := w.heap.set a m }

/-- A new array. -/
def alloc (m : Rows) : PyM World ℕ := fun w => (.ok w.heap.length, { w with heap := w.heap ++ [m] })

/-- `create_fields` (`field_classes.py:72-76`). -/
def createFields (o : ℕ) : PyM World Unit := do
  let x ← obj o
  let f ← alloc (Rows.zero x.npts)
  let d ← alloc (Rows.zero x.npts)
  PyM.modify fun w => { w with objs := w.objs.set o ⟨x.npts, f, d⟩ }

/-- `ThreeFields(n)` (`field_classes.py:69-76`). -/
def new (n : ℕ) : PyM World ℕ := do
  let f ← alloc (Rows.zero n)
  let d ← alloc (Rows.zero n)
  fun w => (.ok w.objs.length, { w with objs := w.objs ++ [⟨n, f, d⟩] })

/-- `set_pump`, `set_sgnl`, `set_idlr` (`field_classes.py:78-83`): row 0, 1, 2. -/
def setRow (o : ℕ) (r : Fin 3) (v : Vec ℂ) : PyM World Unit := do
  let x ← obj o
  let a ← array x.fields
  let b ← PyM.lift (a.setRow r v)
  store x.fields b

/-- `get_pump`, `get_sgnl`, `get_idlr` (`field_classes.py:85-90`): a view, that is the address of the array and the row. -/
def getRow (o : ℕ) (r : Fin 3) : PyM World (ℕ × Fin 3) := do
  let x ← obj o
  pure (x.fields, r)

/-- `set_all` (`field_classes.py:92-93`). -/
def setAll (o : ℕ) (m : Rows) : PyM World Unit := do
  let x ← obj o
  let a ← array x.fields
  let b ← PyM.lift (a.setAll m)
  store x.fields b

/-- `get_all` (`field_classes.py:94-95`): the array itself. -/
def getAll (o : ℕ) : PyM World ℕ := do
  let x ← obj o
  pure x.fields

/-- `create_copy` (`field_classes.py:97-100`). -/
def createCopy (o : ℕ) : PyM World ℕ := do
  let x ← obj o
  let c ← new x.npts
  let a ← getAll o
  let m ← array a
  setAll c m
  pure c

/-- The caller writes to an array it holds a view of. -/
def write (a : ℕ) (r : Fin 3) (i : ℕ) (z : ℂ) : PyM World Unit := do
  let m ← array a
  if i < m.n then store a ⟨m.n, fun s j => if s = r ∧ j.1 = i then z else m.val s j⟩
  else PyM.throw .IndexError

/-- The caller assigns `obj.k0s[r] = x`: the list belongs to the class (`field_classes.py:67`). -/
def setK0 (o : ℕ) (r : Fin 3) (x : ℝ) : PyM World Unit := do
  let _ ← obj o
  PyM.modify fun w => { w with k0s := fun s => if s = r then x else w.k0s s }

/-- `obj.k0s`. -/
def getK0 (o : ℕ) : PyM World (Fin 3 → ℝ) := do
  let _ ← obj o
  let w ← PyM.get
  pure w.k0s

end PyNLO.FieldClasses
