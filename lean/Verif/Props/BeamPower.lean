import Verif.Props.Beam
import Mathlib.Analysis.Real.Pi.Bounds

/-!
# C134: the power carried by the fields of beams
-/

namespace PyNLO.Beam

open Real MeasureTheory

variable {N : ℕ}

/-- the magnetic constant `4π·10⁻⁷` -/
noncomputable def mu0 : ℝ := 4 * π * 10 ^ (-7 : ℤ)

/-- power through a plane of the wave `a·g(x, y)·exp(-iωt) + c.c.` in a medium of index `n`: the intensity is half of `n/(μ₀c)` times the squared
amplitude `2|a·g|` -/
noncomputable def wavePower (n a : ℝ) (g : ℝ × ℝ → ℂ) : ℝ := ∫ p, 1 / 2 * (n / (mu0 * 299792458)) * (2 * (|a| * ‖g p‖)) ^ 2

theorem eps0_mu0 : |eps0 * mu0 * cMks ^ 2 - 1| ≤ 1e-9 := by
  have h1 := pi_gt_d20
  have h2 := pi_lt_d20
  have e : eps0 * mu0 * cMks ^ 2 = π * (8.8541878128e-12 * 4 * 10 ^ (-7 : ℤ) * 299792458 ^ 2) := by
    unfold eps0 mu0 cMks
    ring
  rw [e, abs_le]
  norm_num
  constructor <;> nlinarith

/-- power of a Gaussian mode -/
theorem mode_power {b : OneD N} {n : Fin N → ℝ} {i : Fin N} (h : Pos b n i) (z a : ℝ) :
    wavePower (n i) a (Spec.gaussField (pulseK n b.lam i) z (b.zR n i)) = n i / (mu0 * 299792458) * a ^ 2 * (π * b.waistAt z n i ^ 2) := by
  have hw : 0 < b.waistAt z n i := by
    unfold OneD.waistAt
    have := h.w
    positivity
  unfold wavePower
  have e : ∀ p : ℝ × ℝ, 1 / 2 * (n i / (mu0 * 299792458)) * (2 * (|a| * ‖Spec.gaussField (pulseK n b.lam i) z (b.zR n i) p‖)) ^ 2 =
      2 * (n i / (mu0 * 299792458)) * a ^ 2 * (Real.exp (-(2 / b.waistAt z n i ^ 2) * p.1 ^ 2) * Real.exp (-(2 / b.waistAt z n i ^ 2) * p.2 ^ 2)) := by
    intro p
    rw [C76_mode_radius h, mul_pow, mul_pow, sq_abs, ← Real.exp_nat_mul, ← Real.exp_add]
    have : ((2 : ℕ) : ℝ) * -((p.1 ^ 2 + p.2 ^ 2) / b.waistAt z n i ^ 2) = -(2 / b.waistAt z n i ^ 2) * p.1 ^ 2 + -(2 / b.waistAt z n i ^ 2) * p.2 ^ 2 := by
      push_cast
      ring
    rw [this]
    ring
  simp only [e]
  rw [integral_const_mul, integral_plane_real (by positivity)]
  field_simp

theorem scale_sq {b : OneD N} {n w : Fin N → ℝ} {i : Fin N} (hn : 0 < n i) (hw : 0 < w i) (z P : ℝ) (hP : 0 ≤ P) :
    (b.rtPToA' n z (some w) i * √P) ^ 2 = P / (π * w i ^ 2 * n i * eps0 * cMks) := by
  have h1 : 0 < eps0 := by norm_num [eps0]
  have h2 : (0 : ℝ) < cMks := by norm_num [cMks]
  rw [mul_pow, Real.sq_sqrt hP]
  unfold OneD.rtPToA'
  rw [div_pow, Real.sq_sqrt (by positivity)]
  ring

theorem unit_inv : |1 / (eps0 * mu0 * cMks ^ 2) - 1| ≤ 2e-9 := by
  have h := eps0_mu0
  generalize eps0 * mu0 * cMks ^ 2 = x at h
  rw [abs_le] at h ⊢
  norm_num at h ⊢
  have hx : 0 < x := by linarith [h.1]
  constructor
  · have : (1 : ℝ) - 2e-9 ≤ x⁻¹ := by
      rw [le_inv_comm₀ (by norm_num) hx]
      have : (1 - 2e-9 : ℝ)⁻¹ ≥ 1 + 1e-9 := by norm_num
      linarith [h.2]
    norm_num at this ⊢
    linarith
  · have : x⁻¹ ≤ 1 + 2e-9 := by
      rw [inv_le_comm₀ hx (by norm_num)]
      have : (1 + 2e-9 : ℝ)⁻¹ ≤ 1 - 1e-9 := by norm_num
      linarith [h.1]
    norm_num at this ⊢
    linarith

/-- C134: the amplitude that `rtP_to_a_2` assigns to a power `P` carries that power, at every distance from the focus. -/
theorem C134_power {b : OneD N} {n : Fin N → ℝ} {i : Fin N} (h : Pos b n i) (z : ℝ) {P : ℝ} (hP : 0 ≤ P) :
    |wavePower (n i) (b.rtPToA2 n z none i * √P) (Spec.gaussField (pulseK n b.lam i) z (b.zR n i)) - P| ≤ 2e-9 * P := by
  have hw : 0 < b.waistAt z n i := by
    unfold OneD.waistAt
    have := h.w
    positivity
  have hn := h.n
  have h1 : 0 < eps0 := by norm_num [eps0]
  have h3 : 0 < mu0 := by unfold mu0; positivity
  have e : wavePower (n i) (b.rtPToA2 n z none i * √P) (Spec.gaussField (pulseK n b.lam i) z (b.zR n i)) = 1 / (eps0 * mu0 * cMks ^ 2) * P := by
    rw [mode_power h]
    have : b.rtPToA2 n z none i = b.rtPToA' n z (some (b.waistAt z n)) i := rfl
    rw [this, scale_sq hn hw z P hP]
    unfold cMks
    field_simp
  have := unit_inv
  calc |wavePower (n i) (b.rtPToA2 n z none i * √P) (Spec.gaussField (pulseK n b.lam i) z (b.zR n i)) - P|
      = |1 / (eps0 * mu0 * cMks ^ 2) - 1| * P := by
        rw [e, ← abs_of_nonneg hP, abs_of_nonneg hP, show 1 / (eps0 * mu0 * cMks ^ 2) * P - P = (1 / (eps0 * mu0 * cMks ^ 2) - 1) * P by ring, abs_mul, abs_of_nonneg hP]
    _ ≤ 2e-9 * P := mul_le_mul_of_nonneg_right this hP

/-- C134: `rtP_to_a` ignores its argument `z`: at the distance `z` from the focus the field it assigns to the power `P`
carries `P·(1 + (2z/b)²)`. -/
theorem C134_fixed_waist {b : OneD N} {n : Fin N → ℝ} {i : Fin N} (h : Pos b n i) (z : ℝ) {P : ℝ} (hP : 0 ≤ P) :
    |wavePower (n i) (b.rtPToA n z i * √P) (Spec.gaussField (pulseK n b.lam i) z (b.zR n i)) - P * (1 + (2 * z / b.confocal n i) ^ 2)| ≤
      2e-9 * (P * (1 + (2 * z / b.confocal n i) ^ 2)) := by
  have hw := h.w
  have hn := h.n
  have h1 : 0 < eps0 := by norm_num [eps0]
  have h3 : 0 < mu0 := by unfold mu0; positivity
  set q := 1 + (2 * z / b.confocal n i) ^ 2 with hq
  have hq0 : 0 < q := by positivity
  have e : wavePower (n i) (b.rtPToA n z i * √P) (Spec.gaussField (pulseK n b.lam i) z (b.zR n i)) = 1 / (eps0 * mu0 * cMks ^ 2) * (P * q) := by
    rw [mode_power h]
    have : b.rtPToA n z i = b.rtPToA' n z (some b.w0) i := rfl
    rw [this, scale_sq hn hw z P hP]
    have e2 : b.waistAt z n i ^ 2 = b.w0 i ^ 2 * q := by
      unfold OneD.waistAt
      rw [mul_pow, Real.sq_sqrt hq0.le]
    rw [e2]
    unfold cMks
    field_simp
  have := unit_inv
  rw [e, show 1 / (eps0 * mu0 * cMks ^ 2) * (P * q) - P * q = (1 / (eps0 * mu0 * cMks ^ 2) - 1) * (P * q) by ring, abs_mul, abs_of_nonneg (by positivity : 0 ≤ P * q)]
  exact mul_le_mul_of_nonneg_right this (by positivity)

/-- C134 fails for `rtP_to_a` away from the focus: at the Rayleigh range its field carries twice the power. -/
theorem C134_rayleigh_refuted {b : OneD N} {n : Fin N → ℝ} {i : Fin N} (h : Pos b n i) {P : ℝ} (hP : 0 < P) :
    1.9 * P ≤ wavePower (n i) (b.rtPToA n (b.zR n i) i * √P) (Spec.gaussField (pulseK n b.lam i) (b.zR n i) (b.zR n i)) := by
  have e : 2 * b.zR n i / b.confocal n i = 1 := by
    have := h.confocal
    unfold OneD.zR
    field_simp
  have := C134_fixed_waist h (b.zR n i) hP.le
  rw [e, abs_le] at this
  norm_num at this ⊢
  linarith [this.1]

/-- C134: a waveguide of effective area `πw²` assigns the amplitude that a Gaussian beam of waist `w` has at its focus. -/
theorem C134_waveguide {b : OneD N} {n : Fin N → ℝ} {i : Fin N} (g : WG) (hg : g.aeff = π * b.w0 i ^ 2) (z : ℝ) : g.rtPToA n i = b.rtPToA n z i := by
  unfold WG.rtPToA OneD.rtPToA OneD.rtPToA'
  rw [hg]

/-- C134: a beam of 10 µm at 1 µm in glass, and the waveguide of the same area -/
theorem C134_nonvacuous : ∃ (b : OneD 1) (n : Fin 1 → ℝ) (g : WG), Pos b n 0 ∧ b.zR n 0 ≠ 0 ∧ g.aeff = π * b.w0 0 ^ 2 ∧ 0 < g.aeff := by
  have h : Pos (OneD.init 1e-5 ![1e-6] : OneD 1) ![1.5] 0 := ⟨by norm_num [OneD.init], by norm_num [OneD.init], by norm_num⟩
  refine ⟨OneD.init 1e-5 ![1e-6], ![1.5], ⟨π * (1e-5) ^ 2⟩, h, h.zR.ne', rfl, ?_⟩
  show 0 < π * (1e-5) ^ 2
  positivity

end PyNLO.Beam
