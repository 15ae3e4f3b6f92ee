import Verif.Model.Fiber

/-!
# Several fibre instances and the dictionaries they refer to

`fiberspecs = {}` at `fiber.py:56` is one dictionary object shared by every instance that has not rebound
the name.  Each instance owns its own loader (`fiber.py:64`, a fresh decode of the data base), so the
dictionaries of two loaders are different objects (`JSONFiberLoader.py:30-52`).
-/

namespace PyNLO.Fiber

/-- Identity of a dictionary object: the class-level one, an entry of the data base decoded by instance
`i`, or the `k`-th one created by `generate_fiber` on instance `i`. -/
inductive Addr where
  | cls
  | db (i : ℕ) (name : String)
  | gen (i k : ℕ)
  deriving DecidableEq

/-- All instances and dictionaries. -/
structure World where
  dict : Addr → Specs
  fib : ℕ → Fib
  ref : ℕ → Addr
  count : ℕ → ℕ

/-- Configuration calls. -/
inductive Call where
  | generate (length wl : ℝ) (betas : Vec ℝ) (gamma gain : ℝ) (units label : String)
  | loadDb (length : ℝ) (name : String) (order : ℕ)
  | loadFile (name : String) (length gamma gain : ℝ) (order : ℕ) (x y : Vec ℝ)
  | setDispersionFunction (g : ℝ → DispOut) (fmt : String)
  | setGammaFunction (g : ℝ → ℝ)
  | getBetas (p : Pulse) (z : ℝ)

variable (polyfit : PolyFit) (spline : Spline)
-- data base contents: instance, name
variable (db : ℕ → String → Option Specs)

/-- Fresh instances (`fiber.py:59-67`). -/
def World.start : World :=
  { dict := fun a => match a with
      | .db i n => (db i n).getD {}
      | _ => {}, fib := fun _ => Fib.new, ref := fun _ => .cls, count := fun _ => 0 }

/-- One call on instance `i`; exceptions are caught by the caller. -/
noncomputable def World.step (w : World) (i : ℕ) : Call → World
  | .generate length wl betas gamma gain units label =>
    { dict := Function.update w.dict (.gen i (w.count i)) (genSpecs gain), fib := Function.update w.fib i (genFib length wl betas gamma gain units label (w.fib i)), ref := Function.update w.ref i (.gen i (w.count i)), count := Function.update w.count i (w.count i + 1) }
  | .loadDb length name order =>
    match db i name with
    | none => { w with fib := Function.update w.fib i { w.fib i with fibertype := some name } }
    | some _ => { w with ref := Function.update w.ref i (.db i name), fib := Function.update w.fib i (loadFromDb (w.dict (.db i name)) length name order (w.fib i)).2 }
  | .loadFile name length gamma gain order x y =>
    { w with dict := Function.update w.dict (w.ref i) (fileSpecs gain (w.dict (w.ref i))), fib := Function.update w.fib i (fileFib name length gamma gain order x y (w.fib i)) }
  | .setDispersionFunction g fmt =>
    { w with dict := Function.update w.dict (w.ref i) (dispFunSpecs fmt (w.dict (w.ref i))), fib := Function.update w.fib i (dispFunFib g (w.fib i)) }
  | .setGammaFunction g => { w with fib := Function.update w.fib i (Fiber.setGammaFunction g (w.fib i)) }
  | .getBetas p z => { w with fib := Function.update w.fib i (Fiber.getBetas polyfit spline (w.dict (w.ref i)) p z (w.fib i)).2 }

/-- An interleaving of calls. -/
noncomputable def World.run (w : World) (calls : List (ℕ × Call)) : World :=
  calls.foldl (fun w c => w.step polyfit spline db c.1 c.2) w

/-- Everything instance `i` can report is a function of this. -/
def World.view (w : World) (i : ℕ) : Fib × Specs := (w.fib i, w.dict (w.ref i))

end PyNLO.Fiber
