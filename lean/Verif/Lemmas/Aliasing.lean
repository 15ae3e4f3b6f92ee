import Verif.Lemmas.FourierSeries
import Verif.Spec.Nlse
import Verif.Props.SelfPhase
import Mathlib.Algebra.Polynomial.Eval.Degree

/-! # Samples of smooth periodic functions: the discrete dispersion operator against the continuous one -/

namespace PyNLO.Alias

open Complex Set Polynomial

variable {n : ℕ}

/-- time of sample `j` -/
noncomputable def time (T : ℝ) (n : ℕ) (j : Fin n) : ℝ := ((j : ℕ) - (n : ℝ) / 2) * (T / n)

/-- bin in which the wave number `k` appears -/
def bin (hn : 0 < n) (k : ℤ) : Fin n := ⟨((k + (n / 2 : ℕ)) % n).toNat, by
  have h1 := Int.emod_nonneg (k + (n / 2 : ℕ)) (by omega : (n : ℤ) ≠ 0)
  have h2 := Int.emod_lt_of_pos (k + (n / 2 : ℕ)) (by omega : (0 : ℤ) < n)
  omega⟩

theorem bin_coe (hn : 0 < n) (k : ℤ) : (((bin hn k : Fin n) : ℕ) : ℤ) = (k + (n / 2 : ℕ)) % n := by
  have h1 := Int.emod_nonneg (k + (n / 2 : ℕ)) (by omega : (n : ℤ) ≠ 0)
  exact Int.toNat_of_nonneg h1

/-- samples of `exp(-2πikt/T)` -/
noncomputable def wave (n : ℕ) (k : ℤ) : Fin n → ℂ := fun j => rootE n (-(k * ((j : ℕ) - (n / 2 : ℕ) : ℤ)))

theorem wave_eq {T : ℝ} (hT : 0 < T) (he : n % 2 = 0) (k : ℤ) (j : Fin n) : wave n k j = exp (-(2 * Real.pi * I * k * (time T n j : ℝ) / T)) := by
  have hn : (n : ℂ) ≠ 0 := by
    have := j.isLt
    exact_mod_cast (by omega : n ≠ 0)
  have hT' : (T : ℂ) ≠ 0 := by exact_mod_cast hT.ne'
  unfold wave rootE time
  obtain ⟨m, rfl⟩ : ∃ m, n = 2 * m := ⟨n / 2, by omega⟩
  rw [show 2 * m / 2 = m by omega]
  congr 1
  push_cast at hn ⊢
  field_simp

theorem wave_oneBin (hn : 0 < n) (he : n % 2 = 0) (k : ℤ) : OneBin (wave n k) (bin hn k) := by
  intro l hl
  show fftT (wave n k) l = 0
  rw [fftT_apply_even he]
  have : ∀ j : Fin n, wave n k j * rootE n (((j : ℕ) - (n / 2 : ℕ) : ℤ) * ((l : ℕ) - (n / 2 : ℕ) : ℤ)) =
      rootE n (-((n / 2 : ℕ) * ((l : ℕ) - (n / 2 : ℕ) - k : ℤ))) * rootE n ((j : ℕ) * ((l : ℕ) - (n / 2 : ℕ) - k : ℤ)) := by
    intro j
    unfold wave
    rw [← rootE_add, ← rootE_add]
    congr 1
    ring
  simp only [this]
  rw [← Finset.mul_sum, sum_rootE, if_neg, mul_zero, mul_zero]
  intro hd
  refine hl (Fin.ext ?_)
  have h1 := bin_coe hn k
  have h2 : (k + (n / 2 : ℕ)) % n = ((l : ℕ) : ℤ) % n := by
    have : (n : ℤ) ∣ ((l : ℕ) : ℤ) - (k + (n / 2 : ℕ)) := by
      have e : ((l : ℕ) : ℤ) - (k + (n / 2 : ℕ)) = (l : ℕ) - (n / 2 : ℕ) - k := by ring
      rwa [e]
    exact (Int.emod_emod_of_dvd _ (dvd_refl _)).symm.trans (by rw [Int.emod_emod_of_dvd _ (dvd_refl _)]; exact Int.modEq_iff_dvd.2 this)
  have h3 : ((l : ℕ) : ℤ) % n = (l : ℕ) := Int.emod_eq_of_lt (by omega) (by have := l.isLt; omega)
  omega

/-- the discrete operator with multiplier `m` acts on the samples wave by wave -/
theorem hasSum_toTime {T : ℝ} (hT : 0 < T) (hn : 0 < n) (he : n % 2 = 0) {f : ℝ → ℂ} (hf : ContDiff ℝ (⊤ : ℕ∞) f) (hp : Function.Periodic f T)
    (m : Fin n → ℂ) (j : Fin n) : HasSum (fun k : ℤ => m (bin hn k) * Series.coef T f k * exp (-(2 * Real.pi * I * k * (time T n j : ℝ) / T)))
      (Gnlse.toTime (fun k => m k * Gnlse.toFreq (fun i => f (time T n i)) k) j) := by
  have h1 : HasSum (fun k : ℤ => (Series.coef T f k • wave n k : Fin n → ℂ)) (fun i => f (time T n i)) := by
    refine Pi.hasSum.2 fun i => ?_
    have := Series.hasSum_coef hT hf hp (time T n i)
    have e : (fun k : ℤ => (Series.coef T f k • wave n k : Fin n → ℂ) i) =
        fun k : ℤ => Series.coef T f k * exp (-(2 * Real.pi * I * k * (time T n i : ℝ) / T)) := by
      funext k
      rw [Pi.smul_apply, smul_eq_mul, wave_eq hT he]
    rw [e]
    exact this
  have h2 := h1.mapL (LinearMap.toContinuousLinearMap (Ssfm.specL (fftshift m)))
  have h3 := Pi.hasSum.1 h2 j
  rw [toTime_mul]
  have h4 : HasSum (fun k : ℤ => (LinearMap.toContinuousLinearMap (Ssfm.specL (fftshift m))) (Series.coef T f k • wave n k) j)
      (Ssfm.applySpec (fftshift m) (fun i => f (time T n i)) j) := h3
  convert h4 using 1
  funext k
  have e : (LinearMap.toContinuousLinearMap (Ssfm.specL (fftshift m))) (Series.coef T f k • wave n k) = Series.coef T f k • Ssfm.applySpec (fftshift m) (wave n k) := by
    rw [map_smul]; rfl
  rw [e, ← toTime_mul, (wave_oneBin hn he k).multiply, Pi.smul_apply, smul_eq_mul, wave_eq hT he]
  ring

theorem hasSum_dispersion {T : ℝ} (hT : 0 < T) {f : ℝ → ℂ} (hf : ContDiff ℝ (⊤ : ℕ∞) f) (hp : Function.Periodic f T) (b : ℝ[X]) (t : ℝ) :
    HasSum (fun k : ℤ => I * ((b.eval (2 * Real.pi * k / T) : ℝ) : ℂ) * Series.coef T f k * exp (-(2 * Real.pi * I * k * t / T)))
      (Nlse.dispersion b f t) := by
  unfold Nlse.dispersion Polynomial.sum
  have h : ∀ m ∈ b.support, HasSum (fun k : ℤ => I * (b.coeff m : ℂ) * I ^ m * ((-(2 * Real.pi * I * k / T)) ^ m * Series.coef T f k *
      exp (-(2 * Real.pi * I * k * t / T)))) (I * (b.coeff m : ℂ) * I ^ m * iteratedDeriv m f t) := fun m _ =>
    (Series.hasSum_iteratedDeriv hT hf hp m t).mul_left _
  have h2 := hasSum_sum h
  convert h2 using 1
  funext k
  rw [Polynomial.eval_eq_sum, Polynomial.sum]
  push_cast
  rw [Finset.mul_sum, Finset.sum_mul, Finset.sum_mul]
  refine Finset.sum_congr rfl fun m _ => ?_
  have e : (I ^ m : ℂ) * (-(2 * Real.pi * I * k / T)) ^ m = (2 * Real.pi * k / T) ^ m := by
    rw [← mul_pow]
    congr 1
    linear_combination (-(2 * Real.pi * k / T) : ℂ) * I_mul_I
  linear_combination (-(I * b.coeff m * Series.coef T f k * exp (-(2 * Real.pi * I * k * t / T)))) * e

/-- size of the coefficients of `b` on the grid of frequencies -/
noncomputable def size (b : ℝ[X]) (T : ℝ) : ℝ := b.sum fun m c => |c| * (2 * Real.pi / T) ^ m

theorem size_nonneg (b : ℝ[X]) {T : ℝ} (hT : 0 < T) : 0 ≤ size b T :=
  Finset.sum_nonneg fun m _ => (by positivity : 0 ≤ |b.coeff m| * (2 * Real.pi / T) ^ m)

theorem eval_le (b : ℝ[X]) {T : ℝ} (hT : 0 < T) {x K : ℝ} (hK : 1 ≤ K) (hx : |x| ≤ K) : |b.eval (2 * Real.pi * x / T)| ≤ size b T * K ^ b.natDegree := by
  rw [Polynomial.eval_eq_sum, size, Polynomial.sum, Polynomial.sum, Finset.sum_mul]
  refine le_trans (Finset.abs_sum_le_sum_abs _ _) (Finset.sum_le_sum fun m hm => ?_)
  have hd : m ≤ b.natDegree := Polynomial.le_natDegree_of_mem_supp m hm
  rw [abs_mul, abs_pow, mul_assoc |b.coeff m|]
  refine mul_le_mul_of_nonneg_left ?_ (abs_nonneg (b.coeff m))
  rw [show 2 * Real.pi * x / T = 2 * Real.pi / T * x by ring, abs_mul, mul_pow, abs_of_pos (by positivity : 0 < 2 * Real.pi / T)]
  refine mul_le_mul_of_nonneg_left ?_ (by positivity)
  exact (pow_le_pow_left₀ (abs_nonneg x) hx m).trans (pow_le_pow_right₀ hK hd)

/-- frequency number of a bin -/
theorem bin_freq (hn : 0 < n) (he : n % 2 = 0) (k : ℤ) : -((n : ℤ) / 2) ≤ ((bin hn k : Fin n) : ℕ) - ((n / 2 : ℕ) : ℤ) ∧
    ((bin hn k : Fin n) : ℕ) - ((n / 2 : ℕ) : ℤ) < (n : ℤ) / 2 := by
  have h1 := (bin hn k).isLt
  omega

theorem bin_inside (hn : 0 < n) (he : n % 2 = 0) {k : ℤ} (h1 : -((n : ℤ) / 2) ≤ k) (h2 : k < (n : ℤ) / 2) :
    (((bin hn k : Fin n) : ℕ) : ℤ) - ((n / 2 : ℕ) : ℤ) = k := by
  rw [bin_coe, Int.emod_eq_of_lt (by omega) (by omega)]
  ring

/-- constant of the aliasing error -/
noncomputable def aliasC (b : ℝ[X]) (T : ℝ) (s : ℕ) : ℝ :=
  2 * size b T * (T / (2 * Real.pi)) ^ (b.natDegree + s + 2) * 2 ^ s * ∑' k : ℤ, 1 / (k : ℝ) ^ 2

theorem aliasC_nonneg (b : ℝ[X]) {T : ℝ} (hT : 0 < T) (s : ℕ) : 0 ≤ aliasC b T s := by
  unfold aliasC
  have := size_nonneg b hT
  have h2 : 0 ≤ ∑' k : ℤ, 1 / (k : ℝ) ^ 2 := tsum_nonneg fun k => by positivity
  positivity

/-- The discrete dispersion operator on the samples of a smooth periodic function differs from the derivative by less than every power of the step. -/
theorem dispersion_error {T : ℝ} (hT : 0 < T) (hn : 0 < n) (he : n % 2 = 0) {f : ℝ → ℂ} (hf : ContDiff ℝ (⊤ : ℕ∞) f) (hp : Function.Periodic f T)
    (b : ℝ[X]) (s : ℕ) {B : ℝ} (hB : ∀ t, ‖iteratedDeriv (b.natDegree + s + 2) f t‖ ≤ B) {β : Fin n → ℝ}
    (hβ : ∀ k, β k = b.eval (2 * Real.pi * ((k : ℕ) - (n : ℝ) / 2) / T)) (j : Fin n) :
    ‖Nlse.dispersion b f (time T n j) - Gnlse.toTime (fun k => I * β k * Gnlse.toFreq (fun i => f (time T n i)) k) j‖ ≤ aliasC b T s * B / n ^ s := by
  have hB0 : 0 ≤ B := (norm_nonneg _).trans (hB 0)
  have h1 := (hasSum_dispersion hT hf hp b (time T n j)).sub (hasSum_toTime hT hn he hf hp (fun k => I * β k) j)
  have hsum : HasSum (fun k : ℤ => 2 * size b T * (T / (2 * Real.pi)) ^ (b.natDegree + s + 2) * 2 ^ s * B / n ^ s * (1 / (k : ℝ) ^ 2))
      (aliasC b T s * B / n ^ s) := by
    have := (Real.summable_one_div_int_pow.2 (by norm_num : 1 < 2)).hasSum.mul_left
      (2 * size b T * (T / (2 * Real.pi)) ^ (b.natDegree + s + 2) * 2 ^ s * B / n ^ s)
    unfold aliasC
    have e : 2 * size b T * (T / (2 * Real.pi)) ^ (b.natDegree + s + 2) * 2 ^ s * (∑' k : ℤ, 1 / (k : ℝ) ^ 2) * B / (n : ℝ) ^ s =
      2 * size b T * (T / (2 * Real.pi)) ^ (b.natDegree + s + 2) * 2 ^ s * B / n ^ s * ∑' k : ℤ, 1 / (k : ℝ) ^ 2 := by ring
    rw [e]
    exact this
  rw [← h1.tsum_eq]
  refine tsum_of_norm_bounded hsum fun k => ?_
  have hS := size_nonneg b hT
  by_cases hk : -((n : ℤ) / 2) ≤ k ∧ k < (n : ℤ) / 2
  · have e := bin_inside hn he hk.1 hk.2
    have e2 : ((bin hn k : ℕ) : ℝ) - (n : ℝ) / 2 = k := by
      obtain ⟨m, hm⟩ : ∃ m, n = 2 * m := ⟨n / 2, by omega⟩
      have e3 : (((bin hn k : Fin n) : ℕ) : ℝ) - ((n / 2 : ℕ) : ℝ) = k := by exact_mod_cast e
      have e4 : ((n / 2 : ℕ) : ℝ) = (n : ℝ) / 2 := by
        rw [Nat.cast_div (by omega) (by norm_num)]; norm_num
      rw [← e4]; exact e3
    rw [hβ, e2, sub_self, norm_zero]
    positivity
  · have hkn : (n : ℤ) / 2 ≤ |k| := by
      rcases abs_cases k with h | h <;> omega
    have hk1 : (1 : ℤ) ≤ |k| := by omega
    have hkn' : (n : ℝ) / 2 ≤ |(k : ℝ)| := by
      have : ((n / 2 : ℕ) : ℝ) ≤ |(k : ℝ)| := by
        have : ((n / 2 : ℕ) : ℤ) ≤ |k| := by omega
        have h : (((n / 2 : ℕ) : ℤ) : ℝ) ≤ ((|k| : ℤ) : ℝ) := Int.cast_le.2 this
        rwa [Int.cast_natCast, Int.cast_abs] at h
      rwa [Nat.cast_div (by omega) (by norm_num), Nat.cast_ofNat] at this
    have hk1' : (1 : ℝ) ≤ |(k : ℝ)| := by exact_mod_cast hk1
    have hk0 : (0 : ℝ) < |(k : ℝ)| := by linarith
    have hbin : |((bin hn k : ℕ) : ℝ) - (n : ℝ) / 2| ≤ |(k : ℝ)| := by
      have h2 := (bin hn k).isLt
      have h3 : ((bin hn k : ℕ) : ℝ) ≤ n := by exact_mod_cast h2.le
      have h4 : (0 : ℝ) ≤ ((bin hn k : ℕ) : ℝ) := by positivity
      rw [abs_le]
      constructor <;> linarith
    have hw : ‖exp (-(2 * Real.pi * I * k * (time T n j : ℝ) / T))‖ = 1 := by
      rw [show -(2 * (Real.pi : ℂ) * I * k * (time T n j : ℝ) / T) = ((-(2 * Real.pi * k * time T n j / T) : ℝ) : ℂ) * I by push_cast; ring,
        Complex.norm_exp_ofReal_mul_I]
    have e1 := eval_le b hT hk1' (le_refl |(k : ℝ)|)
    have e2 := eval_le b hT hk1' hbin
    have hdec := Series.coef_decay hT hf hp hB k
    have hβ' : |β (bin hn k)| ≤ size b T * |(k : ℝ)| ^ b.natDegree := by rw [hβ]; exact e2
    have hterm : ‖I * ((b.eval (2 * Real.pi * k / T) : ℝ) : ℂ) * Series.coef T f k * exp (-(2 * Real.pi * I * k * (time T n j : ℝ) / T)) -
        I * β (bin hn k) * Series.coef T f k * exp (-(2 * Real.pi * I * k * (time T n j : ℝ) / T))‖ ≤
        2 * (size b T * |(k : ℝ)| ^ b.natDegree) * ‖Series.coef T f k‖ := by
      rw [← sub_mul, ← sub_mul, norm_mul, norm_mul, hw, mul_one, ← mul_sub, norm_mul, norm_I, one_mul]
      refine mul_le_mul_of_nonneg_right ?_ (norm_nonneg _)
      rw [← ofReal_sub, norm_real, Real.norm_eq_abs]
      refine (abs_sub _ _).trans ?_
      linarith
    refine hterm.trans ?_
    have hc : ‖Series.coef T f k‖ ≤ B * (T / (2 * Real.pi)) ^ (b.natDegree + s + 2) / |(k : ℝ)| ^ (b.natDegree + s + 2) := by
      rw [le_div_iff₀ (by positivity)]
      have : (2 * Real.pi / T * |(k : ℝ)|) ^ (b.natDegree + s + 2) * ‖Series.coef T f k‖ * (T / (2 * Real.pi)) ^ (b.natDegree + s + 2) ≤
          B * (T / (2 * Real.pi)) ^ (b.natDegree + s + 2) := mul_le_mul_of_nonneg_right hdec (by positivity)
      refine le_trans (le_of_eq ?_) this
      rw [mul_right_comm, ← mul_pow, show 2 * Real.pi / T * |(k : ℝ)| * (T / (2 * Real.pi)) = |(k : ℝ)| by field_simp]
      ring
    have hs : (1 : ℝ) / |(k : ℝ)| ^ s ≤ 2 ^ s / n ^ s := by
      have hn' : (0 : ℝ) < n := by exact_mod_cast hn
      rw [← div_pow, ← one_div_pow]
      refine pow_le_pow_left₀ (by positivity) ?_ s
      rw [div_le_div_iff₀ hk0 hn']
      linarith
    have hkd : |(k : ℝ)| ^ b.natDegree / |(k : ℝ)| ^ (b.natDegree + s + 2) = 1 / |(k : ℝ)| ^ s * (1 / (k : ℝ) ^ 2) := by
      rw [← sq_abs (k : ℝ), pow_add, pow_add]
      field_simp
    calc 2 * (size b T * |(k : ℝ)| ^ b.natDegree) * ‖Series.coef T f k‖
        ≤ 2 * (size b T * |(k : ℝ)| ^ b.natDegree) * (B * (T / (2 * Real.pi)) ^ (b.natDegree + s + 2) / |(k : ℝ)| ^ (b.natDegree + s + 2)) :=
          mul_le_mul_of_nonneg_left hc (by positivity)
      _ = 2 * size b T * B * (T / (2 * Real.pi)) ^ (b.natDegree + s + 2) * (1 / |(k : ℝ)| ^ s * (1 / (k : ℝ) ^ 2)) := by
          rw [← hkd]; ring
      _ ≤ 2 * size b T * B * (T / (2 * Real.pi)) ^ (b.natDegree + s + 2) * (2 ^ s / n ^ s * (1 / (k : ℝ) ^ 2)) := by
          refine mul_le_mul_of_nonneg_left ?_ (by positivity)
          exact mul_le_mul_of_nonneg_right hs (by positivity)
      _ = _ := by ring

end PyNLO.Alias
