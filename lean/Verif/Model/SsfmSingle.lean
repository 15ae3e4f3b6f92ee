import Verif.Model.SsfmProp
import Verif.Py.Single

/-!
# Model of `SSFM.py`: the arrays `propagate` returns, and the coherence computed from them, in single precision

`SSFM.py:514-515` create the two-dimensional arrays as `complex64`, so assigning a column rounds it; `calculate_coherence` works on these arrays and
stays in single precision.  The fields themselves (and `pulse_out`) are `complex128`, here exact complex numbers.
-/

namespace PyNLO.Ssfm

open Single

/-- `SSFM.py:514`, `533`: the columns of the array `AW` that is returned -/
noncomputable def Result.AW64 (r : Result) : List (Vec Cplx) := r.AW.map fun v => v.map store

/-- `SSFM.py:515`, `534`: the columns of the array `AT` that is returned -/
noncomputable def Result.AT64 (r : Result) : List (Vec Cplx) := r.AT.map fun v => v.map store

/-- entry `[k, i]` of the returned array `AW` -/
noncomputable def Result.entry64 (r : Result) (k i : ℕ) : Cplx := store (r.entry k i)

/-- `SSFM.py:598`: `np.conj(E1)*E2/np.sqrt(np.abs(E1)**2 * np.abs(E2)**2)` in single precision -/
noncomputable def g12S (x y : Cplx) : Cplx := (x.conj.mul y).divReal ((x.abs.mul x.abs).mul (y.abs.mul y.abs)).sqrt

/-- `SSFM.py:594-602`: the values stacked along the third axis for one bin; `np.dstack` puts the new one first -/
noncomputable def g12StackS {N : ℕ} (E : Fin N → Cplx) : List Cplx :=
  ((List.finRange N).flatMap fun i => ((List.finRange N).filter fun j => i ≠ j).map fun j => g12S (E i) (E j)).reverse

/-- `x` is a sum of the listed numbers in some order and some bracketing, starting from zeros or not (NumPy's `add.reduce` adds pairwise in blocks). -/
inductive SumsTo : List Cplx → Cplx → Prop
  | one (z : Cplx) : SumsTo [z] z
  | add {l m : List Cplx} {x y : Cplx} : SumsTo l x → SumsTo m y → SumsTo (l ++ m) (x.add y)
  | zero {l : List Cplx} {x : Cplx} : SumsTo l x → SumsTo l (x.add ⟨.val 0, .val 0⟩)
  | perm {l m : List Cplx} {x : Cplx} : l.Perm m → SumsTo l x → SumsTo m x

/-- `SSFM.py:606`: `np.abs(np.mean(…, axis=2))`; `sum` is the sum in the order NumPy chooses -/
noncomputable def meanAbs (sum : List Cplx → Cplx) (l : List Cplx) : Num := ((sum l).divReal (.val l.length)).abs

/-- `SSFM.py:546-608` `calculate_coherence` with the arrays in single precision: `g12W` and the results -/
noncomputable def calculateCoherenceS (sum : List Cplx → Cplx) (strF : ℝ → String) (polyfit : Fiber.PolyFit) (spline : Fiber.Spline) (hP : ℝ)
    (draws : ℕ → (ℕ → ℝ) × (ℕ → ℝ)) (o : Obj) (p : Pulse) (F : FibObj) (numTrials : ℕ) (_randomSeed : Option ℕ) (noiseType : String)
    (nSteps : ℕ) (_reload : Bool) : Option (Except PyErr ((Fin p.n → Fin nSteps → Num) × List Result)) :=
  match trials strF polyfit spline hP draws noiseType nSteps p numTrials 0 o F with
  | none => none
  | some (.error e) => some (.error e)
  | some (.ok l) =>
    if l.length < 2 then some (.error .UnboundLocalError)
    else some (.ok (fun k i => meanAbs sum (g12StackS fun t : Fin l.length => l[t].entry64 k i), l))

end PyNLO.Ssfm
