import Verif.Model.Pulse
import Verif.Py.Flt
import Mathlib.Analysis.SpecialFunctions.Trigonometric.Inverse
import Mathlib.LinearAlgebra.Vandermonde
import Mathlib.LinearAlgebra.Matrix.NonsingularInverse

/-!
# Grating compressor

`src/pynlo/devices/grating_compressor.py`.  Scalars are exact reals, `NFlt.bad` when NumPy returns NaN or infinity.
Printing is not modelled.
-/

namespace PyNLO.Treacy

open Real

/-- `TreacyCompressor` (`grating_compressor.py:66-67`): grating period in metres and angle of incidence in radians. -/
structure T where
  d : ℝ
  g : ℝ

/-- `__init__` (`grating_compressor.py:69-73`). -/
noncomputable def T.init (lines_per_mm angle_deg : ℝ) : Except PyErr T :=
  if lines_per_mm = 0 then .error .ZeroDivisionError
  else .ok ⟨1.0e-3 / lines_per_mm, angle_deg * 2 * π / 360⟩

/-- Argument of `arcsin` (`grating_compressor.py:76`, `81`). -/
noncomputable def T.sine (t : T) (wl_nm : ℝ) : ℝ := wl_nm * 1.0e-9 / t.d - sin t.g

open Classical in
/-- `calc_theta` of a scalar (`grating_compressor.py:75-92`): `np.arcsin` is NaN outside `[-1, 1]`. -/
noncomputable def T.theta (t : T) (wl_nm : ℝ) : NFlt :=
  if t.sine wl_nm < -1 ∨ 1 < t.sine wl_nm then .bad else .val (t.g - arcsin (t.sine wl_nm))

/-- `calc_theta` of one entry of an array, where the argument is coerced to `[-1, 1]` (`grating_compressor.py:82-84`). -/
noncomputable def T.thetaArr (t : T) (wl_nm : ℝ) : ℝ := t.g - arcsin (max (-1) (min 1 (t.sine wl_nm)))

/-- The expression of `calc_dt_dw_singlepass` for a given `theta` (`grating_compressor.py:96-105`). -/
noncomputable def T.dtdwOf (t : T) (wl_nm G theta : ℝ) : ℝ :=
  let c := cMks
  let l := wl_nm * 1.0e-9
  let w := 2 * π * c / l
  let gamma := t.g
  let b := G / cos (gamma - theta)
  (-4 * π ^ 2 * c * b) / (w ^ 3 * t.d ^ 2 * (1 - (2 * π * c / (w * t.d) - sin gamma) ^ 2))

/-- `calc_dt_dw_singlepass` (`grating_compressor.py:93-105`) of a scalar; vanishing denominators are excluded by the
theorems. -/
noncomputable def T.dtdw (t : T) (wl_nm G : ℝ) : NFlt := (t.theta wl_nm).map (t.dtdwOf wl_nm G)

/-- The expression of `calc_dphi_domega` for a given `theta` (`grating_compressor.py:114-117`). -/
noncomputable def T.dphiOf (t : T) (G theta : ℝ) : ℝ :=
  let b := G / cos (t.g - theta)
  let p := b * (1 + cos theta)
  p / cMks

/-- `wavelength_nm = 1.0e9*2.0*np.pi*c/omega` (`grating_compressor.py:111`, `131`). -/
noncomputable def lOfW (omega : ℝ) : ℝ := 1.0e9 * 2 * π * cMks / omega

/-- `2.0*np.pi*c/(x*1.0e-9)` (`grating_compressor.py:130`, `146`). -/
noncomputable def wOfL (x : ℝ) : ℝ := 2 * π * cMks / (x * 1.0e-9)

/-- `calc_dphi_domega` (`grating_compressor.py:107-117`) of a scalar. -/
noncomputable def T.dphi (t : T) (omega G : ℝ) : NFlt := (t.theta (lOfW omega)).map (t.dphiOf G)

/-- `calc_dphi_domega` of one entry of an array. -/
noncomputable def T.dphiArr (t : T) (omega G : ℝ) : ℝ := t.dphiOf G (t.thetaArr (lOfW omega))

/-- `calc_compressor_gdd` (`grating_compressor.py:119-122`). -/
noncomputable def T.gdd (t : T) (wl_nm G : ℝ) : NFlt := (t.dtdw wl_nm G).map (2 * ·)

/-- `dx = 2.0*np.pi*100.0e6` (`grating_compressor.py:137`). -/
noncomputable def dxHod : ℝ := 2 * π * 100.0e6

/-- The points `-50, …, 50` of `central_diff_weights(101, n)`. -/
noncomputable def node (k : Fin 101) : ℝ := (k : ℕ) - 50

/-- `scipy.misc.central_diff_weights(101, n)`, which `misc.derivative` uses with `order = 101`
(`grating_compressor.py:134-138`): `n!` times row `n` of the inverse of the Vandermonde matrix of the points.  The
inverse is the exact one; in double precision that matrix is badly conditioned. -/
noncomputable def weights101 (n k : Fin 101) : ℝ := (Nat.factorial n : ℝ) * (Matrix.vandermonde node)⁻¹ n k

/-- `scipy.misc.derivative(fn, x0, dx, n, order=101)` (`grating_compressor.py:134-138`): raises when `order < n + 1`,
else `Σ w[k] fn(x0 + (k-50) dx)`, summed from the left, over `dx**n`. -/
noncomputable def derivative101 (fn : ℝ → NFlt) (x0 : ℝ) (n : ℕ) : Except PyErr NFlt :=
  if h : n < 101 then
    .ok (((List.finRange 101).foldl (fun acc k => NFlt.map₂ (fun acc y => acc + weights101 ⟨n, h⟩ k * y) acc
      (fn (x0 + node k * dxHod))) (.val 0)).map (· / dxHod ^ n))
  else .error .ValueError

/-- `calc_compressor_HOD` (`grating_compressor.py:125-138`). -/
noncomputable def T.hod (t : T) (wl_nm G : ℝ) (order : ℕ) : Except PyErr NFlt :=
  if order < 3 then .error .ValueError
  else derivative101 (fun x => t.gdd (lOfW x) G) (wOfL wl_nm) (order - 2)

/-- `np.linspace(w0 - 10.0e12, w0 + 10.0e12, 101)` (`grating_compressor.py:149`). -/
noncomputable def ws (w0 : ℝ) : Fin 101 → ℝ := fun k =>
  (w0 - 10.0e12) + (k : ℕ) * ((w0 + 10.0e12 - (w0 - 10.0e12)) / 100)

/-- The matrix of `scipy.signal.savgol_coeffs(11, 7)`: entry `(j, k)` is `(k-5)**j`. -/
noncomputable def savgolA : Matrix (Fin 8) (Fin 11) ℝ := Matrix.of fun j k => ((k : ℕ) - 5 : ℝ) ^ (j : ℕ)

/-- `scipy.signal.savgol_coeffs(11, 7, deriv=n)` in the order of the samples: the solution of least norm, which `lstsq` returns, of
`A c = n! e_n`; zero when `n > 7`. -/
noncomputable def savgolCoeffs (n : ℕ) (k : Fin 11) : ℝ :=
  if h : n < 8 then (Nat.factorial n : ℝ) * (savgolA.transpose * (savgolA * savgolA.transpose)⁻¹) k ⟨n, h⟩ else 0

/-- Entry 50 of `signal.savgol_filter(v, window_length=11, polyorder=7, deriv=n)` (`grating_compressor.py:151-154`), which is not one
of the five at each end that are treated differently. -/
noncomputable def savgol50 (v : Fin 101 → ℝ) (n : ℕ) : ℝ := ∑ k : Fin 11, savgolCoeffs n k * v ⟨45 + k, by have := k.isLt; omega⟩

/-- `calc_compressor_dnphi_domega_n` (`grating_compressor.py:141-154`). -/
noncomputable def T.dnphi (t : T) (wl_nm G : ℝ) (order : ℕ) : Except PyErr ℝ :=
  if order < 1 then .error .ValueError
  else
    let w := ws (wOfL wl_nm)
    let y50 := savgol50 (fun k => t.dphiArr (w k) G) order
    let dw := (w 1 - w 0) * (10 : ℝ) ^ (-15 * (1 + (order : ℤ)))
    .ok (y50 / dw ^ order)

/-- The phase handed to `apply_phase_W` (`grating_compressor.py:157-167`).  `quad f a b` stands for the first component
of `integrate.quad(f, a, b)`, assumed to be a number; `polyfit x y` for the coefficients of `np.polyfit(x, y, 2)`, highest
power first.  `np.polyder(..)[0]` is twice the first of them. -/
noncomputable def T.phase (strF : ℝ → String) (quad : (ℝ → NFlt) → ℝ → ℝ → ℝ)
    (polyfit : Vec ℝ → Vec ℝ → Except PyErr (ℝ × ℝ × ℝ)) (t : T) (G : ℝ) : PyM Pulse (Vec ℝ) := do
  let p ← PyM.get
  let w0 := p.cf * 2 * π * 1.0e12
  let w ← Pulse.W_mks strF
  let phase := w.map (quad (fun x => (t.dphi x G).map (2 * ·)) w0)
  let w' ← Pulse.W_mks strF
  let cs ← PyM.lift (polyfit w' phase)
  let groupdelay := 2 * cs.1
  let v ← PyM.read Pulse.V_mks
  PyM.lift (Vec.zip (fun x v => x + v * groupdelay) phase v)

/-- `apply_phase_to_pulse` (`grating_compressor.py:157-167`). -/
noncomputable def T.applyPhase (strF : ℝ → String) (quad : (ℝ → NFlt) → ℝ → ℝ → ℝ)
    (polyfit : Vec ℝ → Vec ℝ → Except PyErr (ℝ × ℝ × ℝ)) (t : T) (G : ℝ) : PyM Pulse Unit := do
  let ph ← t.phase strF quad polyfit G
  Pulse.applyPhaseW ph

end PyNLO.Treacy
