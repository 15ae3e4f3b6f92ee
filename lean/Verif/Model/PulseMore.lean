import Verif.Model.Pulse

/-!
# More of `src/pynlo/light/PulseBase.py`: unwrapping, interpolation onto a new centre, spectrogram
-/

namespace PyNLO

open Complex

/-! ## `np.unwrap`, `scipy.interpolate.interp1d` -/

/-- `np.mod(x, y)` for floats, `y > 0`. -/
noncomputable def fmod (x y : ℝ) : ℝ := x - y * ⌊x / y⌋

/-- The correction that `np.unwrap` adds for a jump `d`: `ddmod = mod(d+π, 2π) - π`, `-π` replaced by `π` for `d > 0`,
`ddmod - d`, and nothing if `|d| < π`. -/
noncomputable def unwrapStep (d : ℝ) : ℝ :=
  let m := fmod (d + Real.pi) (2 * Real.pi) - Real.pi
  let m := if m = -Real.pi ∧ 0 < d then Real.pi else m
  if |d| < Real.pi then 0 else m - d

/-- `np.unwrap` of a one-dimensional array: the running sum of the corrections is added. -/
noncomputable def npUnwrap {n : ℕ} (x : Fin n → ℝ) : Fin n → ℝ := fun i =>
  x i + ∑ j : Fin i, unwrapStep (x ⟨j + 1, by omega⟩ - x ⟨j, by omega⟩)

/-- `np.searchsorted(xs, x)` (left) for sorted `xs`: the number of entries below `x`. -/
noncomputable def searchSorted {n : ℕ} (xs : Fin n → ℝ) (x : ℝ) : ℕ := by
  classical exact (Finset.univ.filter fun i => xs i < x).card

/-- `scipy.interpolate.interp1d(xs, ys, bounds_error=False, fill_value=0.0)(x)` (linear, `_call_linear`) for at least two
points and sorted `xs`. -/
noncomputable def interp1d {n : ℕ} (hn : 2 ≤ n) (xs : Fin n → ℝ) (ys : Fin n → ℂ) (x : ℝ) : ℂ :=
  if x < xs ⟨0, by omega⟩ ∨ xs ⟨n - 1, by omega⟩ < x then 0
  else
    let hi := max 1 (min (searchSorted xs x) (n - 1))
    let lo := hi - 1
    let xl := xs ⟨lo, by omega⟩
    let xh := xs ⟨hi, by omega⟩
    let yl := ys ⟨lo, by omega⟩
    let yh := ys ⟨hi, by omega⟩
    (yh - yl) / ((xh - xl : ℝ) : ℂ) * ((x - xl : ℝ) : ℂ) + yl

namespace Pulse

variable (strF : ℝ → String)

/-- `PulseBase.py:780-800` `interpolate_to_new_center_wl`.  Returns the new pulse; the caches of `self` may be filled.
Grids with fewer than two points are rejected (`interp1d` raises `ValueError`), grids that are not sorted (negative time
window) are not modelled: `interp1d` sorts them. -/
noncomputable def interpolateToNewCenterWl (wl : ℝ) : PyM Pulse Pulse := do
  let p ← PyM.get
  let q ← PyM.lift (createClonedPulse p)
  match setCenterWavelengthNm wl q with
  | (.error e, _) => .throw e
  | (.ok _, q) => do
    let w ← W_mks strF
    let a ← PyM.read AW
    if h : 2 ≤ w.len ∧ a.len = w.len then do
      match W_mks strF q with
      | (.error e, _) => .throw e
      | (.ok w', q) =>
        match setAW (w'.map fun x => interp1d h.1 w.val (fun i => a.val (i.cast h.2.symm)) x) q with
        | (.error e, _) => .throw e
        | (.ok _, q) => pure q
    else .throw .ValueError

/-- `PulseBase.py:862-863` `calculate_weighted_avg_wavelength_nm`. -/
noncomputable def weightedAvgWavelengthNm : PyM Pulse ℝ := do
  let f ← weightedAvgFrequencyMks strF
  if f = 0 then .throw .ZeroDivisionError else pure (10 ^ 9 * cMks / f)

/-! ## spectrogram -/

/-- `np.min` of an array. -/
noncomputable def npMin (v : Vec ℝ) : Except PyErr ℝ :=
  if h : 0 < v.len then .ok (Finset.univ.inf' ⟨⟨0, h⟩, Finset.mem_univ _⟩ v.val) else .error .ValueError

/-- `np.max` of an array. -/
noncomputable def npMax (v : Vec ℝ) : Except PyErr ℝ :=
  if h : 0 < v.len then .ok (Finset.univ.sup' ⟨⟨0, h⟩, Finset.mem_univ _⟩ v.val) else .error .ValueError

/-- `np.linspace(a, b, m)`. -/
noncomputable def linspace (a b : ℝ) (m : ℕ) : Vec ℝ := ⟨m, fun j => a + (j : ℕ) * ((b - a) / ((m : ℝ) - 1))⟩

/-- `PulseBase.py:964-965` `gauss(x, mu=, sigma=)` with `A = 1`. -/
noncomputable def gauss (x mu sigma : ℝ) : ℝ := Real.exp (-(x - mu) ^ 2 / (2 * sigma ^ 2))

/-- The four results of `spectrogram`; the first two are the meshes. -/
structure Spectrogram where
  rows : ℕ
  cols : ℕ
  DELAYS : Fin rows → Fin cols → ℝ
  FREQS : Fin rows → Fin cols → ℝ
  extent : ℝ × ℝ × ℝ × ℝ
  S : Fin rows → Fin cols → ℝ

/-- `PulseBase.py:977-993`: the gate function at time `t` and delay `d`.  `mapc` stands for
`scipy.ndimage.map_coordinates` on the columns of the (constant along the delay axis) arrays. -/
noncomputable def gate (mapc : Vec ℝ → ℝ → ℝ) (kind : String) (sigma : ℝ) (t delay : Vec ℝ) (a : Vec ℂ) :
    Except PyErr (ℝ → ℝ → ℂ) :=
  if kind = "xfrog" then .ok fun t d => (gauss t d sigma : ℂ)
  else if kind = "frog" then do
    let _ ← delay.item 1
    let t1 ← t.item 1
    let t0 ← t.item 0
    let tmin ← npMin t
    .ok fun t d => (mapc (a.map Complex.re) ((t - d - tmin) / (t1 - t0)) : ℂ)
      + I * (mapc (a.map Complex.im) ((t - d - tmin) / (t1 - t0)) : ℂ)
  else .error .ValueError

/-- `PulseBase.py:900-1012` `spectrogram`.  `np.unwrap` acts along the delay axis, along which the phase is constant, so it
changes nothing.  The field must have `NPTS` samples. -/
noncomputable def spectrogram (mapc : Vec ℝ → ℝ → ℝ) (kind : String) (sigma : ℝ) (steps : ℕ) (p : Pulse) :
    Except PyErr Spectrogram := do
  let t ← T_ps p
  let tmin ← npMin t
  let tmax ← npMax t
  let delay := linspace tmin tmax steps
  let a ← AT p
  let g ← gate mapc kind sigma t delay a
  if h : a.len = t.len then do
    let E : Fin t.len → Fin steps → ℂ := fun m j =>
      (‖a.val (m.cast h.symm)‖ : ℂ) * g (t.val m) (delay.val j)
        * exp (I * ((2 * Real.pi * t.val m * p.cf + arg (a.val (m.cast h.symm)) : ℝ) : ℂ))
    let t1 ← t.item 1
    let t0 ← t.item 0
    let rows := t.len / 2
    let freq : Fin rows → ℝ := fun k => (k : ℕ) * (1 / (t.len * (t1 - t0)))
    let dmin ← npMin delay
    let dmax ← npMax delay
    let fmin ← npMin ⟨rows, freq⟩
    let fmax ← npMax ⟨rows, freq⟩
    .ok ⟨rows, steps, fun _ j => delay.val j, fun k _ => freq k, (dmin, dmax, fmin, fmax),
      fun k j => ‖fft (fun m => E m j) ⟨k, by omega⟩‖⟩
  else .error .ValueError

end Pulse

end PyNLO
