import Mathlib.Data.Real.Basic
import Mathlib.Data.Complex.Basic
import Mathlib.Data.Fin.Tuple.Basic

/-!
# Python/NumPy semantics used by the models: exceptions, state, one-dimensional arrays

This file models the *language and library* the repository is written in, not the
repository itself.
-/

namespace PyNLO

/-- The Python exception classes that occur in the modelled code. -/
inductive PyErr
  | RuntimeError | ValueError | TypeError | IndexError | AttributeError
  | ZeroDivisionError | AssertionError | KeyError | OverflowError | UnboundLocalError
  | NameError | NodeError
  deriving DecidableEq, Repr

@[simp] theorem except_bind_ok {α β : Type _} (a : α) (f : α → Except PyErr β) :
    ((Except.ok a : Except PyErr α) >>= f) = f a := rfl

@[simp] theorem except_bind_error {α β : Type _} (e : PyErr) (f : α → Except PyErr β) :
    ((Except.error e : Except PyErr α) >>= f) = .error e := rfl

/-- A Python method body acting on an object of state type `σ`: it always yields a new state, and
either a value or a raised exception.  State changes made *before* a raise persist. -/
def PyM (σ α : Type _) := σ → Except PyErr α × σ

namespace PyM

variable {σ α β : Type _}

/-- `return a` -/
def pure (a : α) : PyM σ α := fun s => (.ok a, s)

/-- Sequencing; a raise skips the rest. -/
def bind (x : PyM σ α) (f : α → PyM σ β) : PyM σ β := fun s =>
  match x s with
  | (.ok a, s') => f a s'
  | (.error e, s') => (.error e, s')

instance : Monad (PyM σ) where
  pure := PyM.pure
  bind := PyM.bind

/-- `raise e` -/
def throw (e : PyErr) : PyM σ α := fun s => (.error e, s)

/-- read the object state -/
def get : PyM σ σ := fun s => (.ok s, s)

/-- assign to object attributes -/
def modify (f : σ → σ) : PyM σ Unit := fun s => (.ok (), f s)

/-- a computation that may raise but does not touch the state -/
def lift (x : Except PyErr α) : PyM σ α := fun s => (x, s)

/-- a computation reading the state that may raise but does not change the state -/
def read (f : σ → Except PyErr α) : PyM σ α := fun s => (f s, s)

theorem pure_apply (a : α) (s : σ) : (Pure.pure a : PyM σ α) s = (.ok a, s) := rfl

theorem bind_apply (x : PyM σ α) (f : α → PyM σ β) (s : σ) :
    (x >>= f) s = match x s with
      | (.ok a, s') => f a s'
      | (.error e, s') => (.error e, s') := rfl

@[simp] theorem throw_apply (e : PyErr) (s : σ) : (throw e : PyM σ α) s = (.error e, s) := rfl
@[simp] theorem get_apply (s : σ) : (get : PyM σ σ) s = (.ok s, s) := rfl
@[simp] theorem modify_apply (f : σ → σ) (s : σ) : modify f s = (.ok (), f s) := rfl
@[simp] theorem lift_apply (x : Except PyErr α) (s : σ) : (lift x : PyM σ α) s = (x, s) := rfl
@[simp] theorem read_apply (f : σ → Except PyErr α) (s : σ) : (read f : PyM σ α) s = (f s, s) := rfl

theorem bind_ok {x : PyM σ α} {f : α → PyM σ β} {s s' : σ} {a : α} (h : x s = (.ok a, s')) :
    (x >>= f) s = f a s' := by rw [bind_apply, h]

theorem bind_err {x : PyM σ α} {f : α → PyM σ β} {s s' : σ} {e : PyErr}
    (h : x s = (.error e, s')) : (x >>= f) s = (.error e, s') := by rw [bind_apply, h]

end PyM

/-- A one-dimensional NumPy array: a length and that many entries. -/
structure Vec (α : Type _) where
  len : ℕ
  val : Fin len → α

namespace Vec

variable {α β γ : Type _}

theorem ext' {a b : Vec α} (h : a.len = b.len)
    (hv : ∀ i (h1 : i < a.len) (h2 : i < b.len), a.val ⟨i, h1⟩ = b.val ⟨i, h2⟩) : a = b := by
  obtain ⟨n, f⟩ := a
  obtain ⟨m, g⟩ := b
  dsimp only at h
  subst h
  congr 1
  funext ⟨i, hi⟩
  exact hv i hi hi

/-- element-wise function -/
def map (f : α → β) (a : Vec α) : Vec β := ⟨a.len, fun i => f (a.val i)⟩

@[simp] theorem map_len (f : α → β) (a : Vec α) : (a.map f).len = a.len := rfl
@[simp] theorem map_mk (f : α → β) (n : ℕ) (v : Fin n → α) :
    Vec.map f ⟨n, v⟩ = ⟨n, fun i => f (v i)⟩ := rfl

/-- Element-wise binary operation on two arrays.  NumPy broadcasting: equal lengths, or one operand
of length 1; anything else raises `ValueError`. -/
def zip (f : α → β → γ) (a : Vec α) (b : Vec β) : Except PyErr (Vec γ) :=
  if h : a.len = b.len then .ok ⟨a.len, fun i => f (a.val i) (b.val (i.cast h))⟩
  else if h : b.len = 1 then .ok ⟨a.len, fun i => f (a.val i) (b.val ⟨0, by omega⟩)⟩
  else if h : a.len = 1 then .ok ⟨b.len, fun i => f (a.val ⟨0, by omega⟩) (b.val i)⟩
  else .error .ValueError

@[simp] theorem zip_mk (f : α → β → γ) (n : ℕ) (u : Fin n → α) (v : Fin n → β) :
    zip f ⟨n, u⟩ ⟨n, v⟩ = .ok ⟨n, fun i => f (u i) (v i)⟩ := by
  simp [zip]

/-- `dst[:] = src`: same length, or `src` of length 1 (broadcast); otherwise `ValueError`. -/
def assign (dst src : Vec α) : Except PyErr (Vec α) :=
  if src.len = dst.len then .ok src
  else if h : src.len = 1 then .ok ⟨dst.len, fun _ => src.val ⟨0, by omega⟩⟩
  else .error .ValueError

@[simp] theorem assign_mk (n : ℕ) (u v : Fin n → α) :
    assign ⟨n, u⟩ ⟨n, v⟩ = .ok ⟨n, v⟩ := by simp [assign]

/-- `a[i]` for a non-negative index; `IndexError` when out of range. -/
def item (a : Vec α) (i : ℕ) : Except PyErr α :=
  if h : i < a.len then .ok (a.val ⟨i, h⟩) else .error .IndexError

theorem item_of_lt (a : Vec α) {i : ℕ} (h : i < a.len) : a.item i = .ok (a.val ⟨i, h⟩) := by
  simp [item, h]

theorem item_of_ge (a : Vec α) {i : ℕ} (h : a.len ≤ i) : a.item i = .error .IndexError := by
  have : ¬ i < a.len := by omega
  simp [item, this]

/-- One bound of a Python slice, normalised: negative counts from the end, then clipped to
`[0, len]`. -/
def sliceBound (len : ℕ) (b : ℤ) : ℕ :=
  if b < 0 then (b + len).toNat else min b.toNat len

theorem sliceBound_le (len : ℕ) (b : ℤ) : sliceBound len b ≤ len := by
  unfold sliceBound; split <;> omega

/-- `a[lo:hi]` with Python's treatment of negative and out-of-range bounds. -/
def slice (a : Vec α) (lo hi : ℤ) : Vec α :=
  ⟨sliceBound a.len hi - sliceBound a.len lo,
    fun i => a.val ⟨sliceBound a.len lo + i, by
      have h1 := sliceBound_le a.len hi
      have h2 := i.isLt
      omega⟩⟩

/-- `np.hstack((a, b))` -/
def append (a b : Vec α) : Vec α :=
  ⟨a.len + b.len, Fin.append a.val b.val⟩

/-- `np.zeros((n,))` -/
def zeros [Zero α] (n : ℕ) : Vec α := ⟨n, fun _ => 0⟩

end Vec

end PyNLO
