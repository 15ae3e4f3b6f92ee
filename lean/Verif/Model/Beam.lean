import Verif.Model.Pulse
import Mathlib.Analysis.SpecialFunctions.Trigonometric.Arctan
import Mathlib.Analysis.SpecialFunctions.Complex.Arg

/-!
# Beams

`src/pynlo/light/beam.py` and `src/pynlo/light/high_V_waveguide.py`.  Arrays of one beam share one length `N`; a scalar
waist is broadcast.  The arrays that `get_n_in_crystal` and `get_k_in_crystal` return are arguments.  Entries are
exact reals; the theorems exclude vanishing denominators and negative radicands.
-/

namespace PyNLO.Beam

open Real

variable {N : ℕ}

/-- `OneDBeam` (`beam.py:28-61`): `_w0`, `_lambda0`. -/
structure OneD (N : ℕ) where
  w0 : Fin N → ℝ
  lam : Fin N → ℝ

/-- `OneDBeam.__init__` (`beam.py:43-50`) for a scalar waist and a pulse with grid `wl_mks = lam`. -/
def OneD.init (waist : ℝ) (lam : Fin N → ℝ) : OneD N := ⟨fun _ => waist, lam⟩

/-- `set_w0` (`beam.py:55-56`). -/
def OneD.setW0 (b : OneD N) (w0 : Fin N → ℝ) : OneD N := { b with w0 := w0 }

/-- `calc_confocal` (`beam.py:52-53`). -/
noncomputable def OneD.confocal (b : OneD N) (n : Fin N → ℝ) : Fin N → ℝ := fun i =>
  2 * π * b.w0 i ^ 2 * (n i / b.lam i)

/-- `calculate_waist` (`beam.py:63-68`). -/
noncomputable def OneD.waistAt (b : OneD N) (z : ℝ) (n : Fin N → ℝ) : Fin N → ℝ := fun i =>
  b.w0 i * √(1 + (2 * z / b.confocal n i) ^ 2)

/-- `calculate_zR` (`beam.py:70-72`). -/
noncomputable def OneD.zR (b : OneD N) (n : Fin N → ℝ) : Fin N → ℝ := fun i => b.confocal n i / 2

/-- `calculate_R` (`beam.py:74-78`). -/
noncomputable def OneD.curvature (b : OneD N) (z : ℝ) (n : Fin N → ℝ) : Fin N → ℝ := fun i =>
  z * (1 + (b.zR n i / z) ^ 2)

/-- `np.arctan2(y, x)` -/
noncomputable def arctan2 (y x : ℝ) : ℝ := Complex.arg ⟨x, y⟩

/-- `calculate_gouy_phase` (`beam.py:80-86`). -/
noncomputable def OneD.gouy (b : OneD N) (z : ℝ) (n : Fin N → ℝ) : Fin N → ℂ := fun i =>
  Complex.exp (Complex.I * (arctan2 z (b.zR n i) : ℂ))

/-- `scipy.constants.epsilon_0` (CODATA 2018). -/
noncomputable def eps0 : ℝ := 8.8541878128e-12

/-- `_rtP_to_a` (`beam.py:88-94`). -/
noncomputable def OneD.rtPToA' (b : OneD N) (n : Fin N → ℝ) (z : ℝ) (waist : Option (Fin N → ℝ)) : Fin N → ℝ := fun i =>
  let w := match waist with
    | none => b.waistAt z n
    | some w => w
  1 / √(π * w i ^ 2 * n i * eps0 * cMks)

/-- `rtP_to_a` (`beam.py:96-99`). -/
noncomputable def OneD.rtPToA (b : OneD N) (n : Fin N → ℝ) (z : ℝ) : Fin N → ℝ := b.rtPToA' n z (some b.w0)

/-- `rtP_to_a_2` (`beam.py:101-105`). -/
noncomputable def OneD.rtPToA2 (b : OneD N) (n : Fin N → ℝ) (z : ℝ) (waist : Option (Fin N → ℝ)) : Fin N → ℝ :=
  b.rtPToA' n z waist

/-- `calc_overlap_integral` (`beam.py:107-122`); `n`, `k` index and wavenumber arrays of the two pulses. -/
noncomputable def OneD.overlap (b o : OneD N) (z : ℝ) (n1 n2 k1 k2 : Fin N → ℝ) : Fin N → ℝ := fun i =>
  let zr1 := b.zR n1 i
  let zr2 := o.zR n2 i
  4 * k1 i * k2 i * zr1 * zr2 /
    (k2 i ^ 2 * (z ^ 2 + zr1 ^ 2) - 2 * k1 i * k2 i * (z ^ 2 - zr1 * zr2) + k1 i ^ 2 * (z ^ 2 + zr2 ^ 2))

/-- `set_waist_to_match_confocal` (`beam.py:124-132`). -/
noncomputable def OneD.matchConfocal (b o : OneD N) (n1 n2 : Fin N → ℝ) : OneD N :=
  b.setW0 fun i => √(2 * o.zR n2 i * b.lam i / (2 * π * n1 i))

/-- `set_waist_to_match_central_waist` (`beam.py:134-141`); indexing an empty array raises `IndexError`. -/
noncomputable def OneD.matchCentral (b : OneD N) (w0c : ℝ) (n1 : Fin N → ℝ) : Except PyErr (OneD N) :=
  if h : N / 2 < N then
    let zr := π * w0c ^ 2 * (n1 ⟨N / 2, h⟩ / b.lam ⟨N / 2, h⟩)
    .ok (b.setW0 fun i => √(2 * zr * b.lam i / (2 * π * n1 i)))
  else .error .IndexError

/-- One term of the objective of `calc_optimal_beam_overlap_in_crystal` (`beam.py:158-160`); `zr2 = |zR|` of the other
beam. -/
noncomputable def objTerm (k1 k2 zr2 L zr1 : ℝ) : ℝ :=
  4 * k1 * k2 * zr1 * |zr2| * arctan ((k1 - k2) * L / (k2 * zr1 + k1 * |zr2|)) / ((k1 - k2) * (k2 * zr1 + k1 * |zr2|))

/-- The objective of `calc_optimal_beam_overlap_in_crystal` (`beam.py:143-160`), to be minimised over `zr1`. -/
noncomputable def objective (k1 k2 zr2 : Fin N → ℝ) (L : ℝ) (zr1 : Fin N → ℝ) : ℝ :=
  -1 * ∑ i, objTerm (k1 i) (k2 i) (zr2 i) L (zr1 i)

/-- The waist that `calc_optimal_beam_overlap_in_crystal` returns for the minimiser `x` (`beam.py:162-165`). -/
noncomputable def OneD.optimalWaist (b : OneD N) (n1 x : Fin N → ℝ) : Fin N → ℝ := fun i =>
  √(2 * x i * b.lam i / (2 * π * n1 i))

/-- `Crystal.get_pulse_k` (`CrystalContainer.py:52-59`), the wavenumber array. -/
noncomputable def pulseK (n lam : Fin N → ℝ) : Fin N → ℝ := fun i => 2 * π * n i / lam i

/-! ## `high_V_waveguide.py` -/

/-- `OneDBeam_highV_WG` (`high_V_waveguide.py:28-52`): the effective area in square metres. -/
structure WG where
  aeff : ℝ

/-- `__init__` (`high_V_waveguide.py:38-43`). -/
noncomputable def WG.init (squm : ℝ) : WG := ⟨squm * 1e-12⟩

/-- `calculate_gouy_phase` (`high_V_waveguide.py:55-57`). -/
def WG.gouy (_ : WG) (_ : ℝ) (_ : Fin N → ℝ) : Fin N → ℂ := fun _ => 1

/-- `_rtP_to_a`, `rtP_to_a`, `rtP_to_a_2` (`high_V_waveguide.py:59-74`). -/
noncomputable def WG.rtPToA (b : WG) (n : Fin N → ℝ) : Fin N → ℝ := fun i => 1 / √(b.aeff * n i * eps0 * cMks)

end PyNLO.Beam
