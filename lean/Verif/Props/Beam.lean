import Verif.Model.Beam
import Verif.Spec.Beam
import Mathlib.Analysis.SpecialFunctions.Gaussian.GaussianIntegral
import Mathlib.MeasureTheory.Integral.Prod
import Mathlib.Analysis.SpecialFunctions.Integrals.Basic
import Mathlib.Tactic.LinearCombination

/-! # Gaussian beams (C76, C77, C78, C94, C95) -/

namespace PyNLO.Beam

open Real

variable {N : ℕ}

/-- A beam with positive waist and wavelength in a medium with positive index, in bin `i`. -/
structure Pos (b : OneD N) (n : Fin N → ℝ) (i : Fin N) : Prop where
  w : 0 < b.w0 i
  lam : 0 < b.lam i
  n : 0 < n i

theorem Pos.confocal {b : OneD N} {n : Fin N → ℝ} {i : Fin N} (h : Pos b n i) : 0 < b.confocal n i := by
  have := h.w; have := h.lam; have := h.n
  unfold OneD.confocal; positivity

theorem Pos.zR {b : OneD N} {n : Fin N → ℝ} {i : Fin N} (h : Pos b n i) : 0 < b.zR n i := by
  have := h.confocal
  unfold OneD.zR; positivity

theorem waistAt_sq {b : OneD N} {n : Fin N → ℝ} {i : Fin N} (h : Pos b n i) (z : ℝ) :
    b.waistAt z n i ^ 2 = b.w0 i ^ 2 * (1 + (z / b.zR n i) ^ 2) := by
  have hc := h.confocal
  rw [OneD.waistAt, mul_pow, sq_sqrt (by positivity), OneD.zR]
  field_simp

/-- C76: the radius is smallest at the focus, and only there equal to the waist; it is even in `z`; it is `√2 w₀` one
Rayleigh range away; it grows with the distance; far away it spreads at the diffraction angle `λ/(π n w₀)`. -/
theorem C76_radius {b : OneD N} {n : Fin N → ℝ} {i : Fin N} (h : Pos b n i) :
    (∀ z, b.w0 i ≤ b.waistAt z n i) ∧ (∀ z, b.waistAt z n i = b.w0 i ↔ z = 0) ∧
    (∀ z, b.waistAt (-z) n i = b.waistAt z n i) ∧ b.waistAt (b.zR n i) n i = √2 * b.w0 i ∧
    (∀ z z', |z| < |z'| → b.waistAt z n i < b.waistAt z' n i) ∧
    (∀ z, b.waistAt z n i ^ 2 = b.w0 i ^ 2 + (b.lam i / (π * n i * b.w0 i) * z) ^ 2) := by
  have hw := h.w
  have hz := h.zR
  have hpos : ∀ z, 0 ≤ b.waistAt z n i := fun z => mul_nonneg hw.le (sqrt_nonneg _)
  refine ⟨fun z => ?_, fun z => ⟨fun e => ?_, fun e => ?_⟩, fun z => ?_, ?_, fun z z' hlt => ?_, fun z => ?_⟩
  · refine (pow_le_pow_iff_left₀ hw.le (hpos z) two_ne_zero).mp ?_
    rw [waistAt_sq h]
    nlinarith [mul_nonneg (sq_nonneg (b.w0 i)) (sq_nonneg (z / b.zR n i))]
  · have := waistAt_sq h z
    rw [e] at this
    have h0 : b.w0 i ^ 2 * (z / b.zR n i) ^ 2 = 0 := by linarith
    have : z / b.zR n i = 0 := by
      rcases mul_eq_zero.mp h0 with h1 | h1
      · exact absurd h1 (by positivity)
      · exact pow_eq_zero_iff (by norm_num) |>.mp h1
    rcases div_eq_zero_iff.mp this with h1 | h1
    · exact h1
    · exact absurd h1 hz.ne'
  · subst e; simp [OneD.waistAt]
  · simp only [OneD.waistAt]
    congr 3
    ring
  · have h1 : b.waistAt (b.zR n i) n i ^ 2 = (√2 * b.w0 i) ^ 2 := by
      rw [waistAt_sq h, div_self hz.ne', mul_pow, sq_sqrt (by norm_num)]; ring
    exact (sq_eq_sq₀ (hpos _) (by positivity)).mp h1
  · refine lt_of_pow_lt_pow_left₀ 2 (hpos _) ?_
    rw [waistAt_sq h, waistAt_sq h, div_pow, div_pow]
    have : z ^ 2 < z' ^ 2 := sq_lt_sq.mpr hlt
    gcongr
  · rw [waistAt_sq h, OneD.zR, OneD.confocal]
    have := h.lam; have := h.n
    field_simp

open Complex in
/-- C76: radius and curvature are those of one complex beam parameter: `1/q = 1/R(z) - i λ/(π n w(z)²)` for
`q = z + i zR` away from the focus. -/
theorem C76_q {b : OneD N} {n : Fin N → ℝ} {i : Fin N} (h : Pos b n i) {z : ℝ} (hz : z ≠ 0) :
    (Spec.beamQ z (b.zR n i))⁻¹ =
      ((1 / b.curvature z n i : ℝ) : ℂ) - I * ((b.lam i / (π * n i * b.waistAt z n i ^ 2) : ℝ) : ℂ) := by
  have hzR := h.zR
  have hw := h.w
  have hl := h.lam
  have hn := h.n
  have e1 : 1 / b.curvature z n i = z / (z ^ 2 + b.zR n i ^ 2) := by
    rw [OneD.curvature]; field_simp
  have e2 : b.lam i / (π * n i * b.waistAt z n i ^ 2) = b.zR n i / (z ^ 2 + b.zR n i ^ 2) := by
    rw [waistAt_sq h]
    have : b.w0 i ^ 2 = b.zR n i * b.lam i / (π * n i) := by
      rw [OneD.zR, OneD.confocal]; field_simp
    rw [this]
    field_simp
    ring
  rw [e1, e2]
  have hD : (z ^ 2 + b.zR n i ^ 2 : ℝ) ≠ 0 := by positivity
  have hD' : ((z : ℂ) ^ 2 + (b.zR n i : ℂ) ^ 2) ≠ 0 := by exact_mod_cast hD
  have hq : Spec.beamQ z (b.zR n i) ≠ 0 := by
    intro e
    have := congrArg Complex.re e
    simp [Spec.beamQ] at this
    exact hz this
  rw [eq_comm]
  apply eq_inv_of_mul_eq_one_left
  push_cast
  rw [Spec.beamQ]
  field_simp
  linear_combination (-(b.zR n i : ℂ) ^ 2) * I_sq

/-- C76: the Gouy factor is a phase factor, the one of `zR + i z`; it is 1 at the focus, and the phase it adds between
`-z` and `z` is the square of the factor at `z`. -/
theorem C76_gouy {b : OneD N} {n : Fin N → ℝ} {i : Fin N} (h : Pos b n i) (z : ℝ) :
    ‖b.gouy z n i‖ = 1 ∧
    b.gouy z n i = ((b.zR n i : ℂ) + Complex.I * z) / ((√(b.zR n i ^ 2 + z ^ 2) : ℝ) : ℂ) ∧ b.gouy 0 n i = 1 := by
  have hz := h.zR
  have key : ∀ z : ℝ, b.gouy z n i = ((b.zR n i : ℂ) + Complex.I * z) / ((√(b.zR n i ^ 2 + z ^ 2) : ℝ) : ℂ) := by
    intro z
    have hx : (⟨b.zR n i, z⟩ : ℂ) = (b.zR n i : ℂ) + Complex.I * z := by
      apply Complex.ext <;> simp
    have hne : (⟨b.zR n i, z⟩ : ℂ) ≠ 0 := by
      intro e; exact hz.ne' (congrArg Complex.re e)
    have hnorm : ‖(⟨b.zR n i, z⟩ : ℂ)‖ = √(b.zR n i ^ 2 + z ^ 2) := by
      rw [Complex.norm_def, Complex.normSq_mk]; congr 1; ring
    have h3 := Complex.norm_mul_exp_arg_mul_I (⟨b.zR n i, z⟩ : ℂ)
    rw [hnorm] at h3
    have hs : ((√(b.zR n i ^ 2 + z ^ 2) : ℝ) : ℂ) ≠ 0 := by
      have : 0 < √(b.zR n i ^ 2 + z ^ 2) := by positivity
      exact_mod_cast this.ne'
    rw [OneD.gouy, arctan2, eq_div_iff hs, ← hx, mul_comm Complex.I, mul_comm]
    exact h3
  refine ⟨?_, key z, ?_⟩
  · rw [OneD.gouy, mul_comm, Complex.norm_exp_ofReal_mul_I]
  · rw [key]
    rw [zero_pow two_ne_zero, add_zero, sqrt_sq hz.le]
    have : (b.zR n i : ℂ) ≠ 0 := by exact_mod_cast hz.ne'
    simp [this]

/-- C76: a beam of 10 µm waist at 1 µm in a medium of index 2 meets the hypotheses. -/
theorem C76_nonvacuous : Pos (OneD.init 1e-5 (fun _ : Fin 2 => 1e-6)) (fun _ => 2) 0 := by
  constructor <;> norm_num [OneD.init]

/-! ## Confocal matching -/

/-- C77: after `set_waist_to_match_confocal` the confocal parameter equals the other beam's in every bin, so both beams
spread alike, whatever the waist was before. -/
theorem C77_confocal {b o : OneD N} {n1 n2 : Fin N → ℝ} {i : Fin N} (hl : 0 < b.lam i) (hn : 0 < n1 i)
    (ho : Pos o n2 i) :
    (b.matchConfocal o n1 n2).confocal n1 i = o.confocal n2 i ∧ 0 < (b.matchConfocal o n1 n2).w0 i ∧
    (b.matchConfocal o n1 n2).lam = b.lam := by
  have hz := ho.zR
  refine ⟨?_, ?_, rfl⟩
  · simp only [OneD.matchConfocal, OneD.confocal, OneD.setW0]
    rw [sq_sqrt (by positivity)]
    simp only [OneD.zR, OneD.confocal]
    field_simp
  · simp only [OneD.matchConfocal, OneD.setW0]
    exact sqrt_pos.mpr (by positivity)

/-- C77: after `set_waist_to_match_central_waist` all colours have the same confocal parameter, and the centre colour
has the requested waist. -/
theorem C77_central {b : OneD N} {n1 : Fin N → ℝ} {w : ℝ} (hN : 0 < N) (hw : 0 < w) (hl : ∀ i, 0 < b.lam i)
    (hn : ∀ i, 0 < n1 i) :
    ∃ b', b.matchCentral w n1 = .ok b' ∧ (∀ i j, b'.confocal n1 i = b'.confocal n1 j) ∧
      b'.w0 ⟨N / 2, Nat.div_lt_self hN one_lt_two⟩ = w ∧ b'.lam = b.lam := by
  have h : N / 2 < N := Nat.div_lt_self hN one_lt_two
  have hl0 := hl ⟨N / 2, h⟩
  have hn0 := hn ⟨N / 2, h⟩
  have e : b.matchCentral w n1 = .ok (b.setW0 fun i =>
      √(2 * (π * w ^ 2 * (n1 ⟨N / 2, h⟩ / b.lam ⟨N / 2, h⟩)) * b.lam i / (2 * π * n1 i))) := by
    simp only [OneD.matchCentral, dif_pos h]
  have hc : ∀ i, (b.setW0 fun i =>
      √(2 * (π * w ^ 2 * (n1 ⟨N / 2, h⟩ / b.lam ⟨N / 2, h⟩)) * b.lam i / (2 * π * n1 i))).confocal n1 i
      = 2 * π * w ^ 2 * (n1 ⟨N / 2, h⟩ / b.lam ⟨N / 2, h⟩) := by
    intro i
    have := hl i; have := hn i
    simp only [OneD.confocal, OneD.setW0]
    rw [sq_sqrt (by positivity)]
    field_simp
  refine ⟨_, e, fun i j => by rw [hc, hc], ?_, rfl⟩
  simp only [OneD.setW0]
  rw [show 2 * (π * w ^ 2 * (n1 ⟨N / 2, h⟩ / b.lam ⟨N / 2, h⟩)) * b.lam ⟨N / 2, h⟩ / (2 * π * n1 ⟨N / 2, h⟩) = w ^ 2 by
    field_simp]
  exact sqrt_sq hw.le

/-- C77: the hypotheses can be met, for a grid with two colours. -/
theorem C77_nonvacuous : ∃ b' : OneD 2, (OneD.init 1 ![1e-6, 2e-6] : OneD 2).matchCentral 1e-5 ![2, 3] = .ok b' ∧
    b'.w0 1 = 1e-5 ∧ b'.confocal ![2, 3] 0 = b'.confocal ![2, 3] 1 := by
  obtain ⟨b', h1, h2, h3, -⟩ := C77_central (b := OneD.init 1 ![1e-6, 2e-6]) (n1 := ![2, 3]) (w := 1e-5) (by norm_num)
    (by norm_num) (by intro i; fin_cases i <;> norm_num [OneD.init]) (by intro i; fin_cases i <;> norm_num)
  exact ⟨b', h1, h3, h2 _ _⟩

/-! ## Overlap -/

/-- The denominator as a sum of squares. -/
theorem overlap_den (k1 k2 z a c : ℝ) :
    k2 ^ 2 * (z ^ 2 + a ^ 2) - 2 * k1 * k2 * (z ^ 2 - a * c) + k1 ^ 2 * (z ^ 2 + c ^ 2) =
      (k2 - k1) ^ 2 * z ^ 2 + (k2 * a + k1 * c) ^ 2 := by ring

/-- C78: the overlap is in `(0, 1]`, symmetric in the two beams, 1 exactly when the fields have the same shape
(`k₂ z₁ = k₁ z₂` and, away from the focus, equal wavenumbers), and never larger than at the focus. -/
theorem C78_range {b o : OneD N} {n1 n2 k1 k2 : Fin N → ℝ} {i : Fin N} (hb : Pos b n1 i) (ho : Pos o n2 i)
    (hk1 : 0 < k1 i) (hk2 : 0 < k2 i) (z : ℝ) :
    0 < b.overlap o z n1 n2 k1 k2 i ∧ b.overlap o z n1 n2 k1 k2 i ≤ 1 ∧
    b.overlap o z n1 n2 k1 k2 i = o.overlap b z n2 n1 k2 k1 i ∧
    (b.overlap o z n1 n2 k1 k2 i = 1 ↔ (z = 0 ∨ k1 i = k2 i) ∧ k2 i * b.zR n1 i = k1 i * o.zR n2 i) ∧
    b.overlap o z n1 n2 k1 k2 i ≤ b.overlap o 0 n1 n2 k1 k2 i := by
  have h1 := hb.zR
  have h2 := ho.zR
  simp only [OneD.overlap]
  generalize b.zR n1 i = a at *
  generalize o.zR n2 i = c at *
  generalize k1 i = k1 at *
  generalize k2 i = k2 at *
  simp only [overlap_den]
  have hD : ∀ z : ℝ, 0 < (k2 - k1) ^ 2 * z ^ 2 + (k2 * a + k1 * c) ^ 2 := fun z => by positivity
  refine ⟨div_pos (by positivity) (hD z), ?_, ?_, ⟨fun e => ?_, fun e => ?_⟩, ?_⟩
  · rw [div_le_one (hD z)]
    nlinarith [sq_nonneg (k2 * a - k1 * c), mul_nonneg (sq_nonneg (k2 - k1)) (sq_nonneg z)]
  · congr 1 <;> ring
  · rw [div_eq_one_iff_eq (hD z).ne'] at e
    have e2 : (k2 - k1) ^ 2 * z ^ 2 + (k2 * a - k1 * c) ^ 2 = 0 := by nlinarith
    have p1 : 0 ≤ (k2 - k1) ^ 2 * z ^ 2 := by positivity
    have p2 := sq_nonneg (k2 * a - k1 * c)
    have q1 : (k2 - k1) ^ 2 * z ^ 2 = 0 := by linarith
    have q2 : (k2 * a - k1 * c) ^ 2 = 0 := by linarith
    refine ⟨?_, by nlinarith [pow_eq_zero_iff (n := 2) (by norm_num) |>.mp q2]⟩
    rcases mul_eq_zero.mp q1 with q | q
    · right; nlinarith [pow_eq_zero_iff (n := 2) (by norm_num) |>.mp q]
    · left; exact pow_eq_zero_iff (by norm_num) |>.mp q
  · obtain ⟨e1, e2⟩ := e
    rw [div_eq_one_iff_eq (hD z).ne', e2]
    rcases e1 with e1 | e1
    · subst e1; linear_combination (4 * k1 * c) * e2
    · subst e1; linear_combination (4 * k1 * c) * e2
  · have hD0 := hD 0
    apply div_le_div_of_nonneg_left (by positivity) hD0
    nlinarith [mul_nonneg (sq_nonneg (k2 - k1)) (sq_nonneg z)]

/-- C78: identical beams overlap fully at every distance. -/
theorem C78_identical {b : OneD N} {n k : Fin N → ℝ} {i : Fin N} (hb : Pos b n i) (hk : 0 < k i) (z : ℝ) :
    b.overlap b z n n k k i = 1 :=
  (C78_range hb hb hk hk z).2.2.2.1.mpr ⟨.inr rfl, rfl⟩

section
open MeasureTheory Complex

/-- Coefficient of `-r²` in the exponent of the field. -/
noncomputable def coef (k z zR : ℝ) : ℂ := ⟨k * zR / (2 * (z ^ 2 + zR ^ 2)), k * z / (2 * (z ^ 2 + zR ^ 2))⟩

theorem gaussField_eq (k z : ℝ) {zR : ℝ} (hz : 0 < zR) (p : ℝ × ℝ) :
    Spec.gaussField k z zR p = cexp (-coef k z zR * (p.1 : ℂ) ^ 2) * cexp (-coef k z zR * (p.2 : ℂ) ^ 2) := by
  rw [Spec.gaussField, ← Complex.exp_add]
  congr 1
  have hD : (z ^ 2 + zR ^ 2 : ℝ) ≠ 0 := by positivity
  have hD' : ((z : ℂ) ^ 2 + (zR : ℂ) ^ 2) ≠ 0 := by exact_mod_cast hD
  have hq : (z : ℂ) + I * zR ≠ 0 := by
    intro e
    have := congrArg Complex.im e
    simp at this
    exact hz.ne' this
  have hx : coef k z zR = (k * zR + I * (k * z)) / (2 * (z ^ 2 + zR ^ 2)) := by
    have e : (2 * ((z : ℂ) ^ 2 + (zR : ℂ) ^ 2)) = ((2 * (z ^ 2 + zR ^ 2) : ℝ) : ℂ) := by push_cast; ring
    rw [e]
    apply Complex.ext
    · rw [Complex.div_ofReal_re]; simp [coef]
    · rw [Complex.div_ofReal_im]; simp [coef]
  rw [hx, Spec.beamQ]
  field_simp
  linear_combination ((p.1 : ℂ) ^ 2 + (p.2 : ℂ) ^ 2) * z * k * zR * I_sq

theorem integral_plane {s : ℂ} (hs : 0 < s.re) :
    ∫ p : ℝ × ℝ, cexp (-s * (p.1 : ℂ) ^ 2) * cexp (-s * (p.2 : ℂ) ^ 2) = π / s := by
  rw [Measure.volume_eq_prod, integral_prod_mul (fun x : ℝ => cexp (-s * (x : ℂ) ^ 2)) fun x : ℝ => cexp (-s * (x : ℂ) ^ 2),
    integral_gaussian_complex hs]
  have h0 : (π / s : ℂ) ≠ 0 := div_ne_zero (by exact_mod_cast pi_ne_zero) (fun h => by simp [h] at hs)
  rw [← Complex.cpow_add _ _ h0]
  norm_num

theorem integral_plane_real {s : ℝ} (hs : 0 < s) :
    ∫ p : ℝ × ℝ, Real.exp (-s * p.1 ^ 2) * Real.exp (-s * p.2 ^ 2) = π / s := by
  rw [Measure.volume_eq_prod, integral_prod_mul (fun x : ℝ => Real.exp (-s * x ^ 2)) fun x : ℝ => Real.exp (-s * x ^ 2),
    integral_gaussian, ← sq, sq_sqrt (by positivity)]

/-- C78: what `calc_overlap_integral` returns is the overlap integral of the two fundamental Gaussian modes with
wavenumbers `k₁`, `k₂` and the Rayleigh ranges of the beams, a distance `z` from their common focus. -/
theorem C78_mode_overlap {b o : OneD N} {n1 n2 k1 k2 : Fin N → ℝ} {i : Fin N} (hb : Pos b n1 i) (ho : Pos o n2 i)
    (hk1 : 0 < k1 i) (hk2 : 0 < k2 i) (z : ℝ) :
    b.overlap o z n1 n2 k1 k2 i =
      Spec.coupling (Spec.gaussField (k1 i) z (b.zR n1 i)) (Spec.gaussField (k2 i) z (o.zR n2 i)) := by
  have h1 := hb.zR
  have h2 := ho.zR
  simp only [OneD.overlap]
  generalize b.zR n1 i = a at *
  generalize o.zR n2 i = c at *
  generalize k1 i = k1 at *
  generalize k2 i = k2 at *
  have hre : ∀ {k zR : ℝ}, 0 < k → 0 < zR → 0 < (coef k z zR).re := by
    intro k zR hk hz; simp only [coef]; positivity
  have hself : ∀ {k zR : ℝ}, 0 < k → 0 < zR →
      ∫ p, ‖Spec.gaussField k z zR p‖ ^ 2 = π / (2 * (coef k z zR).re) := by
    intro k zR hk hz
    rw [← integral_plane_real (mul_pos two_pos (hre hk hz))]
    congr 1
    funext p
    rw [gaussField_eq k z hz, norm_mul, Complex.norm_exp, Complex.norm_exp, mul_pow, ← Real.exp_nat_mul, ← Real.exp_nat_mul]
    have : ∀ x : ℝ, (-coef k z zR * (x : ℂ) ^ 2).re = -(coef k z zR).re * x ^ 2 := by
      intro x
      rw [← Complex.ofReal_pow, Complex.re_mul_ofReal, Complex.neg_re]
    rw [this, this]
    push_cast
    congr 2 <;> ring
  have hcross : ∫ p, (starRingEnd ℂ) (Spec.gaussField k1 z a p) * Spec.gaussField k2 z c p =
      π / ((starRingEnd ℂ) (coef k1 z a) + coef k2 z c) := by
    rw [← integral_plane (by rw [Complex.add_re, Complex.conj_re]; exact add_pos (hre hk1 h1) (hre hk2 h2))]
    congr 1
    funext p
    rw [gaussField_eq k1 z h1, gaussField_eq k2 z h2, map_mul, ← Complex.exp_conj, ← Complex.exp_conj, ← Complex.exp_add,
      ← Complex.exp_add, ← Complex.exp_add, ← Complex.exp_add]
    congr 1
    simp only [map_mul, map_neg, map_pow, Complex.conj_ofReal]
    ring
  rw [Spec.coupling, hself hk1 h1, hself hk2 h2, hcross, norm_div, div_pow, ← Complex.normSq_eq_norm_sq,
    ← Complex.normSq_eq_norm_sq, Complex.normSq_ofReal, Complex.normSq_apply]
  simp only [Complex.add_re, Complex.add_im, Complex.conj_re, Complex.conj_im, coef]
  have d1 : 0 < z ^ 2 + a ^ 2 := by positivity
  have d2 : 0 < z ^ 2 + c ^ 2 := by positivity
  have key : (k1 * a / (2 * (z ^ 2 + a ^ 2)) + k2 * c / (2 * (z ^ 2 + c ^ 2))) * (k1 * a / (2 * (z ^ 2 + a ^ 2)) + k2 * c / (2 * (z ^ 2 + c ^ 2)))
      + (-(k1 * z / (2 * (z ^ 2 + a ^ 2))) + k2 * z / (2 * (z ^ 2 + c ^ 2))) * (-(k1 * z / (2 * (z ^ 2 + a ^ 2))) + k2 * z / (2 * (z ^ 2 + c ^ 2)))
      = (k2 ^ 2 * (z ^ 2 + a ^ 2) - 2 * k1 * k2 * (z ^ 2 - a * c) + k1 ^ 2 * (z ^ 2 + c ^ 2)) / (4 * (z ^ 2 + a ^ 2) * (z ^ 2 + c ^ 2)) := by
    field_simp
    ring
  rw [key]
  have hden : 0 < k2 ^ 2 * (z ^ 2 + a ^ 2) - 2 * k1 * k2 * (z ^ 2 - a * c) + k1 ^ 2 * (z ^ 2 + c ^ 2) := by
    rw [overlap_den]; positivity
  generalize k2 ^ 2 * (z ^ 2 + a ^ 2) - 2 * k1 * k2 * (z ^ 2 - a * c) + k1 ^ 2 * (z ^ 2 + c ^ 2) = D at *
  field_simp

/-- C76: for the wavenumber `get_pulse_k` assigns, `calculate_waist` is the `1/e` radius of the modulus of that mode. -/
theorem C76_mode_radius {b : OneD N} {n : Fin N → ℝ} {i : Fin N} (h : Pos b n i) (z : ℝ) (p : ℝ × ℝ) :
    ‖Spec.gaussField (pulseK n b.lam i) z (b.zR n i) p‖ =
      Real.exp (-((p.1 ^ 2 + p.2 ^ 2) / b.waistAt z n i ^ 2)) := by
  have hz := h.zR
  have hw := h.w
  have hl := h.lam
  have hn := h.n
  rw [gaussField_eq _ _ hz, norm_mul, Complex.norm_exp, Complex.norm_exp, ← Real.exp_add]
  congr 1
  have : ∀ x : ℝ, (-coef (pulseK n b.lam i) z (b.zR n i) * (x : ℂ) ^ 2).re =
      -(coef (pulseK n b.lam i) z (b.zR n i)).re * x ^ 2 := by
    intro x
    rw [← Complex.ofReal_pow, Complex.re_mul_ofReal, Complex.neg_re]
  rw [this, this, waistAt_sq h]
  have e : b.w0 i ^ 2 = b.zR n i * b.lam i / (π * n i) := by
    rw [OneD.zR, OneD.confocal]; field_simp
  rw [e]
  simp only [coef, pulseK]
  field_simp
  ring

end

/-- C78: two different beams meet the hypotheses, and their overlap is below 1. -/
theorem C78_nonvacuous : ∃ b o : OneD 1, ∃ n k : Fin 1 → ℝ, Pos b n 0 ∧ Pos o n 0 ∧ 0 < k 0 ∧
    b.overlap o 0 n n k k 0 < 1 := by
  have hb : Pos (OneD.init 1 (fun _ : Fin 1 => 1)) (fun _ => 1) 0 := by constructor <;> norm_num [OneD.init]
  have ho : Pos (OneD.init 2 (fun _ : Fin 1 => 1)) (fun _ => 1) 0 := by constructor <;> norm_num [OneD.init]
  refine ⟨_, _, _, fun _ => 1, hb, ho, one_pos, ?_⟩
  have h := C78_range hb ho (k1 := fun _ => 1) (k2 := fun _ => 1) one_pos one_pos 0
  refine lt_of_le_of_ne h.2.1 fun e => ?_
  have := (h.2.2.2.1.mp e).2
  simp [OneD.zR, OneD.confocal, OneD.init] at this
  nlinarith [pi_pos]

/-! ## Power and field -/

/-- C94: `A = rtP_to_a·√P` is the peak field (in the units of the class) whose intensity `n ε₀ c A²` over the area
`π w²` carries the power `P`: with the radius at `z`, with an explicit radius, with the waist, and for a waveguide with
its effective area. -/
theorem C94_power {b : OneD N} {n : Fin N → ℝ} {i : Fin N} (h : Pos b n i) (z : ℝ) (w : Fin N → ℝ) (hw : 0 < w i)
    {P : ℝ} (hP : 0 ≤ P) (g : WG) (hg : 0 < g.aeff) :
    n i * eps0 * cMks * (b.rtPToA2 n z none i * √P) ^ 2 * (π * b.waistAt z n i ^ 2) = P ∧
    n i * eps0 * cMks * (b.rtPToA2 n z (some w) i * √P) ^ 2 * (π * w i ^ 2) = P ∧
    n i * eps0 * cMks * (b.rtPToA n z i * √P) ^ 2 * (π * b.w0 i ^ 2) = P ∧
    n i * eps0 * cMks * (g.rtPToA n i * √P) ^ 2 * g.aeff = P := by
  have hn := h.n
  have hw0 := h.w
  have he : 0 < eps0 := by norm_num [eps0]
  have hc : 0 < cMks := by norm_num [cMks]
  have hwz : 0 < b.waistAt z n i := mul_pos hw0 (sqrt_pos.mpr (by positivity))
  simp only [OneD.rtPToA2, OneD.rtPToA, OneD.rtPToA', WG.rtPToA, mul_pow, div_pow, sq_sqrt hP]
  refine ⟨?_, ?_, ?_, ?_⟩ <;> rw [sq_sqrt (by positivity)] <;> field_simp

/-- C94: a waveguide made with an area in square micrometres. -/
theorem C94_waveguide {N : ℕ} (n : Fin N → ℝ) (i : Fin N) (hn : 0 < n i) {squm P : ℝ} (hs : 0 < squm) (hP : 0 ≤ P) :
    n i * eps0 * cMks * ((WG.init squm).rtPToA n i * √P) ^ 2 * (squm * (1 / 10 ^ 6) ^ 2) = P := by
  have he : 0 < eps0 := by norm_num [eps0]
  have hc : 0 < cMks := by norm_num [cMks]
  have ha : squm * (1 / 10 ^ 6) ^ 2 = (WG.init squm).aeff := by simp only [WG.init]; norm_num
  have ha' : 0 < (WG.init squm).aeff := by rw [← ha]; positivity
  rw [ha]
  simp only [WG.rtPToA, mul_pow, div_pow, sq_sqrt hP]
  rw [sq_sqrt (by positivity)]
  field_simp

/-- C94: a waveguide of 10 square micrometres. -/
theorem C94_nonvacuous : 0 < (WG.init 10).aeff := by norm_num [WG.init]

/-! ## The objective of the overlap optimisation -/

/-- Integral of the overlap between two distances from the focus. -/
theorem integral_overlap {k1 k2 zr2 zr1 : ℝ} (hk1 : 0 < k1) (hk2 : 0 < k2) (hne : k1 ≠ k2) (h1 : 0 < zr1)
    (h2 : 0 < zr2) (A L : ℝ) :
    ∫ z in A..L, 4 * k1 * k2 * zr1 * zr2 /
      (k2 ^ 2 * (z ^ 2 + zr1 ^ 2) - 2 * k1 * k2 * (z ^ 2 - zr1 * zr2) + k1 ^ 2 * (z ^ 2 + zr2 ^ 2)) =
      objTerm k1 k2 zr2 L zr1 - objTerm k1 k2 zr2 A zr1 := by
  have hS : 0 < k2 * zr1 + k1 * zr2 := by positivity
  have hd : k1 - k2 ≠ 0 := sub_ne_zero.mpr hne
  have hderiv : ∀ z ∈ Set.uIcc A L, HasDerivAt (fun z => objTerm k1 k2 zr2 z zr1) (4 * k1 * k2 * zr1 * zr2 /
      (k2 ^ 2 * (z ^ 2 + zr1 ^ 2) - 2 * k1 * k2 * (z ^ 2 - zr1 * zr2) + k1 ^ 2 * (z ^ 2 + zr2 ^ 2))) z := by
    intro z _
    have h := ((((hasDerivAt_id z).const_mul (k1 - k2)).div_const (k2 * zr1 + k1 * zr2)).arctan.const_mul
      (4 * k1 * k2 * zr1 * zr2)).div_const ((k1 - k2) * (k2 * zr1 + k1 * zr2))
    simp only [objTerm, abs_of_pos h2]
    refine h.congr_deriv ?_
    rw [overlap_den]
    have : 0 < (k2 - k1) ^ 2 * z ^ 2 + (k2 * zr1 + k1 * zr2) ^ 2 := by positivity
    have h3 : 0 < 1 + ((k1 - k2) * z / (k2 * zr1 + k1 * zr2)) ^ 2 := by positivity
    simp only [id]
    rw [div_eq_div_iff (by positivity) this.ne']
    field_simp
    ring
  rw [intervalIntegral.integral_eq_sub_of_hasDerivAt hderiv]
  apply ContinuousOn.intervalIntegrable
  apply ContinuousOn.div
  · fun_prop
  · fun_prop
  · intro z _
    rw [overlap_den]; positivity

/-- C95: for different wavenumbers, the objective is minus the overlap integrated over distances from 0 to `L` from the
focus. -/
theorem C95_objective_partial {k1 k2 zr2 zr1 : ℝ} (hk1 : 0 < k1) (hk2 : 0 < k2) (hne : k1 ≠ k2) (h1 : 0 < zr1)
    (h2 : 0 < zr2) (L : ℝ) :
    objTerm k1 k2 zr2 L zr1 = ∫ z in (0 : ℝ)..L, 4 * k1 * k2 * zr1 * zr2 /
      (k2 ^ 2 * (z ^ 2 + zr1 ^ 2) - 2 * k1 * k2 * (z ^ 2 - zr1 * zr2) + k1 ^ 2 * (z ^ 2 + zr2 ^ 2)) := by
  rw [integral_overlap hk1 hk2 hne h1 h2]
  simp [objTerm]

/-- C95 for arrays: the function handed to the minimiser is minus the sum of the integrated overlaps, so minimising it maximises them. -/
theorem C95_objective_sum_partial {k1 k2 zr2 zr1 : Fin N → ℝ} (hk1 : ∀ i, 0 < k1 i) (hk2 : ∀ i, 0 < k2 i) (hne : ∀ i, k1 i ≠ k2 i)
    (h1 : ∀ i, 0 < zr1 i) (h2 : ∀ i, 0 < zr2 i) (L : ℝ) :
    objective k1 k2 zr2 L zr1 = -∑ i, ∫ z in (0 : ℝ)..L, 4 * k1 i * k2 i * zr1 i * zr2 i /
      (k2 i ^ 2 * (z ^ 2 + zr1 i ^ 2) - 2 * k1 i * k2 i * (z ^ 2 - zr1 i * zr2 i) + k1 i ^ 2 * (z ^ 2 + zr2 i ^ 2)) := by
  unfold objective
  rw [neg_one_mul]
  congr 1
  exact Finset.sum_congr rfl fun i _ => C95_objective_partial (hk1 i) (hk2 i) (hne i) (h1 i) (h2 i) L

/-- C95: it is not the overlap integrated along a crystal of length `L` with the focus in its centre, where the DFG
solver puts it (`DFG_integrand.py:316`). -/
theorem C95_centred_refuted : ¬ ∀ k1 k2 zr2 zr1 L : ℝ, 0 < k1 → 0 < k2 → k1 ≠ k2 → 0 < zr1 → 0 < zr2 → 0 < L →
    objTerm k1 k2 zr2 L zr1 = ∫ z in (-(L / 2))..(L / 2), 4 * k1 * k2 * zr1 * zr2 /
      (k2 ^ 2 * (z ^ 2 + zr1 ^ 2) - 2 * k1 * k2 * (z ^ 2 - zr1 * zr2) + k1 ^ 2 * (z ^ 2 + zr2 ^ 2)) := by
  intro h
  have h1 := h 3 1 (1 / 3) 1 1 (by norm_num) (by norm_num) (by norm_num) (by norm_num) (by norm_num) (by norm_num)
  rw [integral_overlap (by norm_num) (by norm_num) (by norm_num) (by norm_num) (by norm_num)] at h1
  have e2 := two_mul_arctan (x := 1 / 2) (by norm_num) (by norm_num)
  norm_num [objTerm, abs_of_pos] at h1 e2
  have e3 : arctan 1 = arctan (4 / 3) := by rw [← e2, arctan_one]; linarith
  have := arctan_injective e3
  norm_num at this

/-- C95: the waist returned for the minimiser has that minimiser as its Rayleigh range. -/
theorem C95_waist {b : OneD N} {n x : Fin N → ℝ} {i : Fin N} (hl : 0 < b.lam i) (hn : 0 < n i) (hx : 0 < x i) :
    (b.setW0 (b.optimalWaist n x)).zR n i = x i := by
  simp only [OneD.zR, OneD.confocal, OneD.setW0, OneD.optimalWaist]
  rw [sq_sqrt (by positivity)]
  field_simp

end PyNLO.Beam
