import Verif.Lemmas.Rk4
import Verif.Lemmas.SsfmOps

/-!
# RK4IP is the classical Runge–Kutta method in the interaction picture
-/

namespace PyNLO.Ssfm

open Complex RK

variable {n : ℕ}

/-- multiplication of the spectrum, as a linear map -/
noncomputable def specL (E : Fin n → ℂ) : (Fin n → ℂ) →ₗ[ℂ] (Fin n → ℂ) where
  toFun := applySpec E
  map_add' x y := by
    unfold applySpec
    have : ifft (x + y) = fun k => ifft x k + ifft y k := ifft_add x y
    rw [this]
    funext k
    have e : (fun k => E k * (ifft x k + ifft y k)) = fun k => E k * ifft x k + E k * ifft y k := by
      funext k; ring
    rw [e, fft_add]
    rfl
  map_smul' c x := by
    have := applySpec_smul E x c
    funext k
    exact congrFun this k

/-- linear propagation over `z` -/
noncomputable def prop (d : Fin n → ℂ) (z : ℝ) : (Fin n → ℂ) →ₗ[ℝ] (Fin n → ℂ) :=
  (specL fun k => exp ((z : ℂ) * d k)).restrictScalars ℝ

theorem prop_apply (d : Fin n → ℂ) (z : ℝ) (A : Fin n → ℂ) : prop d z A = applySpec (fun k => exp ((z : ℂ) * d k)) A := rfl

theorem prop_prop (d : Fin n → ℂ) (z w : ℝ) (A : Fin n → ℂ) : prop d z (prop d w A) = prop d (z + w) A := by
  simp only [prop_apply, applySpec_applySpec]
  congr 1
  funext k
  rw [← exp_add]
  push_cast
  congr 1
  ring

theorem prop_zero (d : Fin n → ℂ) (A : Fin n → ℂ) : prop d 0 A = A := by
  rw [prop_apply]
  have : (fun k => exp (((0 : ℝ) : ℂ) * d k)) = fun _ : Fin n => (1 : ℂ) := by funext k; simp
  rw [this, applySpec_one]

/-- the equation in the interaction picture, made autonomous -/
noncomputable def ip (d : Fin n → ℂ) (g : (Fin n → ℂ) → Fin n → ℂ) (y : ℝ × (Fin n → ℂ)) : ℝ × (Fin n → ℂ) :=
  (1, prop d (-y.1) (g (prop d y.1 y.2)))

/-- the RK4IP step for a linear part `d` and a nonlinear part `g` -/
noncomputable def ipStep (d : Fin n → ℂ) (g : (Fin n → ℂ) → Fin n → ℂ) (h : ℝ) (A : Fin n → ℂ) : Fin n → ℂ :=
  let AI := prop d (h / 2) A
  let k1 := prop d (h / 2) (h • g A)
  let k2 := h • g (AI + (1 / 2 : ℝ) • k1)
  let k3 := h • g (AI + (1 / 2 : ℝ) • k2)
  let k4 := h • g (prop d (h / 2) (AI + k3))
  prop d (h / 2) (AI + (1 / 6 : ℝ) • k1 + (1 / 3 : ℝ) • k2 + (1 / 3 : ℝ) • k3) + (1 / 6 : ℝ) • k4

/-- One RK4IP step is one Runge–Kutta step in the interaction picture. -/
theorem rk4_ip (d : Fin n → ℂ) (g : (Fin n → ℂ) → Fin n → ℂ) (h z : ℝ) (A : Fin n → ℂ) :
    rk4 (ip d g) h (z, prop d (-z) A) = (z + h, prop d (-(z + h)) (ipStep d g h A)) := by
  have e1 : ip d g (z, prop d (-z) A) = (1, prop d (-z) (g A)) := by
    simp only [ip, prop_prop, add_neg_cancel, prop_zero]
  have key : ∀ (w : ℝ) (K B : Fin n → ℂ), prop d (w + z) (prop d (-z) A + K) = B →
      ip d g ((z, prop d (-z) A) + (w, K)) = (1, prop d (-(w + z)) (g B)) := by
    intro w K B hB
    simp only [ip, Prod.mk_add_mk, add_comm z w, hB]
  set AI := prop d (h / 2) A with hAI
  set k1 := prop d (h / 2) (h • g A) with hk1
  set k2 := h • g (AI + (1 / 2 : ℝ) • k1) with hk2
  set k3 := h • g (AI + (1 / 2 : ℝ) • k2) with hk3
  set k4 := h • g (prop d (h / 2) (AI + k3)) with hk4
  have e2 : ip d g ((z, prop d (-z) A) + (h / 2) • (1, prop d (-z) (g A))) =
      (1, prop d (-(h / 2 + z)) (g (AI + (1 / 2 : ℝ) • k1))) := by
    rw [Prod.smul_mk, smul_eq_mul, mul_one]
    apply key
    simp only [map_add, map_smul, prop_prop, hAI, hk1]
    congr 1
    · congr 2; ring
    · rw [smul_smul]; congr 1
      · ring
      · congr 2; ring
  have e3 : ip d g ((z, prop d (-z) A) + (h / 2) • (1, prop d (-(h / 2 + z)) (g (AI + (1 / 2 : ℝ) • k1)))) =
      (1, prop d (-(h / 2 + z)) (g (AI + (1 / 2 : ℝ) • k2))) := by
    rw [Prod.smul_mk, smul_eq_mul, mul_one]
    apply key
    simp only [map_add, map_smul, prop_prop, hAI, hk2, add_neg_cancel, prop_zero]
    congr 1
    · congr 2; ring
    · rw [smul_smul]; congr 1; ring
  have e4 : ip d g ((z, prop d (-z) A) + h • (1, prop d (-(h / 2 + z)) (g (AI + (1 / 2 : ℝ) • k2)))) =
      (1, prop d (-(h + z)) (g (prop d (h / 2) (AI + k3)))) := by
    rw [Prod.smul_mk, smul_eq_mul, mul_one]
    apply key
    simp only [map_add, map_smul, prop_prop, hAI, hk3]
    congr 1
    · congr 2; ring
    · congr 2; congr 1; ring
  unfold rk4
  simp only [e1, e2, e3, e4]
  have hz : prop d (-z) A = prop d (-(z + h)) (prop d h A) := by rw [prop_prop]; congr 2; ring
  rw [Prod.ext_iff]
  constructor
  · simp
    ring
  · simp only [ipStep, Prod.snd_add, Prod.smul_snd]
    rw [← hAI, ← hk1, ← hk2, ← hk3, ← hk4]
    simp only [map_add, map_smul, prop_prop, hAI, hk1, hk2, hk3, hk4, smul_add]
    rw [show -(z + h) + (h / 2 + h / 2) = -z by ring, show -(z + h) + h / 2 = -(h / 2 + z) by ring, show -(z + h) = -(h + z) by ring]
    module

end PyNLO.Ssfm
