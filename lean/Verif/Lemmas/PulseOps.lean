import Verif.Lemmas.PulseCache

/-! # Helper lemmas for the pulse operations -/

namespace PyNLO

open Complex PyM

variable {n : ℕ}

theorem trapz_smul (c : ℝ) (y : Fin n → ℝ) : trapz (fun i => c * y i) = c * trapz y := by
  unfold trapz
  rw [Finset.mul_sum]
  refine Finset.sum_congr rfl fun i _ => ?_
  ring

/-- `trapz` is the plain sum minus half the two end samples. -/
theorem trapz_eq_sum_sub (y : Fin (n + 1) → ℝ) :
    trapz y = ∑ i, y i - (y 0 + y (Fin.last n)) / 2 := by
  have h1 : trapz y = ∑ i : Fin n, (y i.castSucc + y i.succ) / 2 := rfl
  have h2 : ∑ i : Fin n, y i.castSucc = ∑ i, y i - y (Fin.last n) := by
    rw [Fin.sum_univ_castSucc]; ring
  have h3 : ∑ i : Fin n, y i.succ = ∑ i, y i - y 0 := by
    rw [Fin.sum_univ_succ]; ring
  simp_rw [h1, add_div, Finset.sum_add_distrib, div_eq_mul_inv, ← Finset.sum_mul, h2, h3]
  ring

theorem norm_exp_I_mul (x : ℝ) : ‖exp (I * (x : ℂ))‖ = 1 := by
  rw [mul_comm]; exact norm_exp_ofReal_mul_I x

namespace Pulse

theorem chirpFactor_eq (a b c v : ℝ) :
    chirpFactor a b c v = exp (I * ((a / 2 * v ^ 2 + b / 6 * v ^ 3 + c / 24 * v ^ 4 : ℝ) : ℂ)) := by
  unfold chirpFactor
  congr 1
  push_cast
  ring

theorem norm_chirpFactor (a b c v : ℝ) : ‖chirpFactor a b c v‖ = 1 := by
  rw [chirpFactor_eq, norm_exp_I_mul]

theorem chirpFactor_mul (a b c a' b' c' v : ℝ) :
    chirpFactor a b c v * chirpFactor a' b' c' v = chirpFactor (a + a') (b + b') (c + c') v := by
  unfold chirpFactor
  rw [← exp_add]
  congr 1
  push_cast
  ring

theorem chirpFactor_zero (v : ℝ) : chirpFactor 0 0 0 v = 1 := by
  simp [chirpFactor]

variable {p : Pulse} {a : Fin n → ℂ}

/-- detuning seen by `chirp_pulse_W` -/
noncomputable def detuning (p : Pulse) (n : ℕ) (w0 : Option ℝ) (i : Fin n) : ℝ :=
  match w0 with
  | none => 2 * Real.pi * ((i : ℕ) - (n : ℝ) / 2) / p.tw
  | some w => 2 * Real.pi * ((i : ℕ) - (n : ℝ) / 2) / p.tw + 2 * Real.pi * p.cf - w

theorem Holds.chirpPulseW_eq (h : Holds p a) (x y z : ℝ) (w0 : Option ℝ) :
    chirpPulseW x y z w0 p =
      (.ok (), { p with aw := some ⟨n, fun i => chirpFactor x y z (detuning p n w0 i) * a i⟩ }) := by
  unfold chirpPulseW
  cases w0 with
  | none =>
    simp only [bind_apply, read_apply, V_THz, h.V_eq, h.AW_eq, lift_apply, Vec.zip_mk, h.setAW_eq,
      detuning]
  | some w =>
    simp only [bind_apply, read_apply, W_THz, h.W_eq, h.AW_eq, lift_apply, Vec.map_mk, pure_apply,
      Vec.zip_mk, h.setAW_eq, detuning]

theorem Holds.applyPhaseW_eq (h : Holds p a) (ph : Fin n → ℝ) :
    applyPhaseW ⟨n, ph⟩ p =
      (.ok (), { p with aw := some ⟨n, fun i => a i * exp (I * (ph i : ℂ))⟩ }) := by
  unfold applyPhaseW
  simp only [bind_apply, read_apply, h.AW_eq, lift_apply, Vec.zip_mk, h.setAW_eq]

theorem Holds.addTimeOffset_eq (h : Holds p a) (t : ℝ) :
    addTimeOffset t p = (.ok (), { p with aw := some ⟨n, fun i => a i *
      exp (-I * ((2 * Real.pi * ((i : ℕ) - (n : ℝ) / 2) / p.tw + 2 * Real.pi * p.cf : ℝ) : ℂ) *
        (t : ℂ))⟩ }) := by
  unfold addTimeOffset
  simp only [bind_apply, read_apply, W_THz, h.W_eq, h.AW_eq, lift_apply, Vec.map_mk, Vec.zip_mk,
    h.setAW_eq]

theorem Holds.calcEpp_eq (h : Holds p a) :
    calcEpp p = .ok (p.tw / n * 10 ^ (-12 : ℤ) * trapz fun i => ‖ifftT a i‖ ^ 2) := by
  simp only [calcEpp, dT_mks, h.dT_eq, h.AT_eq, except_bind_ok]

theorem Holds.setEpp_eq (h : Holds p a) {e : ℝ} (he : calcEpp p = .ok e) (E : ℝ) :
    setEpp E p = (.ok (), { p with
      aw := some ⟨n, fftT fun i => ifftT a i * (Real.sqrt (E / e) : ℂ)⟩ }) := by
  unfold setEpp
  simp only [bind_apply, read_apply, h.AT_eq, he, Vec.map_mk, h.setAT_eq]

end Pulse

end PyNLO
