import Verif.Props.Hamiltonian
import Verif.Props.SsfmSteep
import Verif.Lemmas.Aliasing

/-!
# Self-steepening and the number of photons

The product rule on a grid fails only for products whose frequencies leave the band; so the photon number changes only as far as there is light outside
the central third of the band.
-/

namespace PyNLO.Photon

open Complex Ssfm Pulse Set Alias Modulation Hamiltonian

variable {n : ℕ}

/-- number of photons up to a constant factor: the spectrum weighted with the inverse optical frequencies `w` -/
noncomputable def photons (w : Fin n → ℝ) (U : Fin n → ℂ) : ℝ := ∑ k, ‖Gnlse.toFreq U k‖ ^ 2 / w k

/-- sum of the moduli of the spectrum -/
noncomputable def total (U : Fin n → ℂ) : ℝ := ∑ k, ‖Gnlse.toFreq U k‖

/-- the same for the frequencies outside the central third of the band -/
noncomputable def outside (U : Fin n → ℂ) : ℝ := ∑ k : Fin n, if (n : ℤ) ≤ 6 * |((k : ℕ) : ℤ) - ((n / 2 : ℕ) : ℤ)| then ‖Gnlse.toFreq U k‖ else 0

/-! ## waves -/

theorem wave_mul (k l : ℤ) (j : Fin n) : wave n k j * wave n l j = wave n (k + l) j := by
  unfold wave
  rw [← rootE_add]
  congr 1
  ring

theorem wave_conj (k : ℤ) (j : Fin n) : (starRingEnd ℂ) (wave n k j) = wave n (-k) j := by
  unfold wave
  rw [conj_rootE]
  congr 1
  ring

theorem norm_wave (k : ℤ) (j : Fin n) : ‖wave n k j‖ = 1 := norm_rootE _

theorem wave_bin (hn : 0 < n) (k : ℤ) : wave n k = tone (bin hn k) := by
  funext j
  unfold wave tone
  refine rootE_congr_of_dvd hn.ne' ?_
  rw [bin_coe]
  have := Int.emod_add_mul_ediv (k + (n / 2 : ℕ)) n
  refine ⟨-((k + (n / 2 : ℕ)) / n) * (((j : ℕ) : ℤ) - ((n / 2 : ℕ) : ℤ)), ?_⟩
  have e : (k + (n / 2 : ℕ)) % n = k + (n / 2 : ℕ) - n * ((k + (n / 2 : ℕ)) / n) := by linarith
  rw [e]
  ring

/-- signed index of a bin -/
def idx (k : Fin n) : ℤ := ((k : ℕ) : ℤ) - ((n / 2 : ℕ) : ℤ)

theorem wave_idx (k : Fin n) : wave n (idx k) = tone k := rfl

/-- multiplication of the spectrum -/
noncomputable def filt (m : Fin n → ℂ) : (Fin n → ℂ) →ₗ[ℂ] (Fin n → ℂ) where
  toFun x := Gnlse.toTime fun k => m k * Gnlse.toFreq x k
  map_add' x y := by
    have h := toFreq_add x y
    have e : (fun k => m k * Gnlse.toFreq (x + y) k) = fun k => m k * Gnlse.toFreq x k + m k * Gnlse.toFreq y k := by
      funext k
      have := congrFun h k
      rw [show Gnlse.toFreq (x + y) k = Gnlse.toFreq (fun j => x j + y j) k from rfl, this]
      ring
    rw [e, toTime_add]
    rfl
  map_smul' c x := by
    have h := toFreq_smul c x
    have e : (fun k => m k * Gnlse.toFreq (c • x) k) = fun k => c * (m k * Gnlse.toFreq x k) := by
      funext k
      have := congrFun h k
      rw [show Gnlse.toFreq (c • x) k = Gnlse.toFreq (fun j => c * x j) k from rfl, this]
      ring
    rw [e, toTime_smul]
    rfl

theorem filt_wave (hn : 0 < n) (he : n % 2 = 0) (m : Fin n → ℂ) (k : ℤ) : filt m (wave n k) = m (bin hn k) • wave n k := by
  show Gnlse.toTime (fun l => m l * Gnlse.toFreq (wave n k) l) = _
  rw [wave_bin hn, toFreq_tone he]
  have e : (fun l => m l * (if l = bin hn k then (1 : ℂ) else 0)) = fun l => m (bin hn k) * (if l = bin hn k then (1 : ℂ) else 0) := by
    funext l
    split_ifs with h
    · rw [h]
    · simp
  rw [e, toTime_smul, toTime_single he]
  rfl

/-- a field is the sum of its spectral components -/
theorem expand (he : n % 2 = 0) (U : Fin n → ℂ) : U = ∑ a, Gnlse.toFreq U a • wave n (idx a) := by
  funext j
  have h := congrFun (toTime_toFreq U) j
  rw [Finset.sum_apply, ← h]
  show ifftT (Gnlse.toFreq U) j = _
  rw [ifftT_apply_even he]
  rfl

/-- the power and its response -/
theorem expand_response (hn : 0 < n) (he : n % 2 = 0) (R U : Fin n → ℂ) : Gnlse.response R U =
    ∑ a, ∑ b, (Gnlse.toFreq U a * (starRingEnd ℂ) (Gnlse.toFreq U b) * R (bin hn (idx a - idx b))) • wave n (idx a - idx b) := by
  have h1 : (fun i => U i * (starRingEnd ℂ) (U i)) = ∑ a, ∑ b, (Gnlse.toFreq U a * (starRingEnd ℂ) (Gnlse.toFreq U b)) • wave n (idx a - idx b) := by
    funext j
    have e : U j = ∑ a, Gnlse.toFreq U a * wave n (idx a) j := by
      have := congrFun (expand he U) j
      rw [Finset.sum_apply] at this
      exact this
    conv_lhs => rw [e, map_sum, Finset.sum_mul_sum]
    simp only [Finset.sum_apply, Pi.smul_apply, smul_eq_mul]
    refine Finset.sum_congr rfl fun a _ => Finset.sum_congr rfl fun b _ => ?_
    rw [map_mul, wave_conj, sub_eq_add_neg, ← wave_mul]
    ring
  show filt R (fun i => U i * (starRingEnd ℂ) (U i)) = _
  rw [h1]
  simp only [map_sum, map_smul, filt_wave hn he, smul_smul]

/-- failure of the product rule -/
noncomputable def defect (R : Fin n → ℂ) (Ω : Fin n → ℝ) (U : Fin n → ℂ) : Fin n → ℂ := fun j =>
  Gnlse.dt Ω (fun i => U i * Gnlse.response R U i) j - (U j * Gnlse.dt Ω (Gnlse.response R U) j + Gnlse.response R U j * Gnlse.dt Ω U j)

theorem dt_eq (Ω : Fin n → ℝ) (x : Fin n → ℂ) : Gnlse.dt Ω x = filt (fun k => -I * Ω k) x := rfl

theorem defect_eq (hn : 0 < n) (he : n % 2 = 0) (R : Fin n → ℂ) (Ω : Fin n → ℝ) (U : Fin n → ℂ) (j : Fin n) : defect R Ω U j =
    ∑ c, ∑ a, ∑ b, Gnlse.toFreq U c * (Gnlse.toFreq U a * (starRingEnd ℂ) (Gnlse.toFreq U b) * R (bin hn (idx a - idx b))) *
      (-I * ((Ω (bin hn (idx c + (idx a - idx b))) - Ω (bin hn (idx a - idx b)) - Ω (bin hn (idx c)) : ℝ) : ℂ)) * wave n (idx c + (idx a - idx b)) j := by
  have hU : ∀ j, U j = ∑ c, Gnlse.toFreq U c * wave n (idx c) j := fun j => by
    have := congrFun (expand he U) j
    rw [Finset.sum_apply] at this
    exact this
  have hR : ∀ j, Gnlse.response R U j = ∑ a, ∑ b, (Gnlse.toFreq U a * (starRingEnd ℂ) (Gnlse.toFreq U b) * R (bin hn (idx a - idx b))) * wave n (idx a - idx b) j := fun j => by
    have := congrFun (expand_response hn he R U) j
    simp only [Finset.sum_apply] at this
    exact this
  have h1 : (fun i => U i * Gnlse.response R U i) = ∑ c, ∑ a, ∑ b, (Gnlse.toFreq U c *
      (Gnlse.toFreq U a * (starRingEnd ℂ) (Gnlse.toFreq U b) * R (bin hn (idx a - idx b)))) • wave n (idx c + (idx a - idx b)) := by
    funext j
    rw [hU j, hR j, Finset.sum_mul]
    simp only [Finset.sum_apply, Pi.smul_apply, smul_eq_mul, Finset.mul_sum]
    refine Finset.sum_congr rfl fun c _ => Finset.sum_congr rfl fun a _ => Finset.sum_congr rfl fun b _ => ?_
    rw [← wave_mul]
    ring
  have h2 : Gnlse.dt Ω (fun i => U i * Gnlse.response R U i) j = ∑ c, ∑ a, ∑ b, Gnlse.toFreq U c *
      (Gnlse.toFreq U a * (starRingEnd ℂ) (Gnlse.toFreq U b) * R (bin hn (idx a - idx b))) * (-I * Ω (bin hn (idx c + (idx a - idx b)))) * wave n (idx c + (idx a - idx b)) j := by
    rw [dt_eq, h1]
    simp only [map_sum, map_smul, filt_wave hn he, smul_smul, Finset.sum_apply, Pi.smul_apply, smul_eq_mul]
  have h3 : Gnlse.dt Ω U j = ∑ c, Gnlse.toFreq U c * (-I * Ω (bin hn (idx c))) * wave n (idx c) j := by
    rw [dt_eq]
    conv_lhs => rw [expand he U]
    simp only [map_sum, map_smul, filt_wave hn he, smul_smul, Finset.sum_apply, Pi.smul_apply, smul_eq_mul]
  have h4 : Gnlse.dt Ω (Gnlse.response R U) j = ∑ a, ∑ b, (Gnlse.toFreq U a * (starRingEnd ℂ) (Gnlse.toFreq U b) * R (bin hn (idx a - idx b))) *
      (-I * Ω (bin hn (idx a - idx b))) * wave n (idx a - idx b) j := by
    rw [dt_eq, expand_response hn he R U]
    simp only [map_sum, map_smul, filt_wave hn he, smul_smul, Finset.sum_apply, Pi.smul_apply, smul_eq_mul]
  unfold defect
  rw [h2, h3, h4, hR j]
  rw [show U j * (∑ a, ∑ b, (Gnlse.toFreq U a * (starRingEnd ℂ) (Gnlse.toFreq U b) * R (bin hn (idx a - idx b))) *
      (-I * Ω (bin hn (idx a - idx b))) * wave n (idx a - idx b) j) = (∑ c, Gnlse.toFreq U c * wave n (idx c) j) * (∑ a, ∑ b, (Gnlse.toFreq U a *
      (starRingEnd ℂ) (Gnlse.toFreq U b) * R (bin hn (idx a - idx b))) * (-I * Ω (bin hn (idx a - idx b))) * wave n (idx a - idx b) j) by rw [← hU j]]
  rw [mul_comm (∑ a, ∑ b, (Gnlse.toFreq U a * (starRingEnd ℂ) (Gnlse.toFreq U b) * R (bin hn (idx a - idx b))) * wave n (idx a - idx b) j), Finset.sum_mul, Finset.sum_mul,
    ← Finset.sum_add_distrib, ← Finset.sum_sub_distrib]
  refine Finset.sum_congr rfl fun c _ => ?_
  rw [Finset.mul_sum, Finset.mul_sum, ← Finset.sum_add_distrib, ← Finset.sum_sub_distrib]
  refine Finset.sum_congr rfl fun a _ => ?_
  rw [Finset.mul_sum, Finset.mul_sum, ← Finset.sum_add_distrib, ← Finset.sum_sub_distrib]
  refine Finset.sum_congr rfl fun b _ => ?_
  rw [← wave_mul]
  push_cast
  ring

/-- the frequencies of the grid -/
def Grid (T : ℝ) (Ω : Fin n → ℝ) : Prop := ∀ k : Fin n, Ω k = 2 * Real.pi * ((k : ℕ) - (n : ℝ) / 2) / T

theorem Grid.le {T : ℝ} (hT : 0 < T) {Ω : Fin n → ℝ} (h : Grid T Ω) (k : Fin n) : |Ω k| ≤ Real.pi * n / T := by
  have hk : ((k : ℕ) : ℝ) < n := by exact_mod_cast k.isLt
  have hk0 : (0 : ℝ) ≤ ((k : ℕ) : ℝ) := by positivity
  rw [h k, abs_div, abs_of_pos hT, abs_mul, abs_of_pos (by positivity : 0 < 2 * Real.pi)]
  refine div_le_div_of_nonneg_right ?_ hT.le
  have : |((k : ℕ) : ℝ) - (n : ℝ) / 2| ≤ n / 2 := by
    rw [abs_le]
    constructor <;> linarith
  nlinarith [Real.pi_pos]

theorem Grid.inside {T : ℝ} {Ω : Fin n → ℝ} (h : Grid T Ω) (hn : 0 < n) (he : n % 2 = 0) {k : ℤ} (hk : 2 * |k| < n) : Ω (bin hn k) = 2 * Real.pi * k / T := by
  have h1 := bin_inside hn he (k := k) (by rcases abs_cases k with h | h <;> omega) (by rcases abs_cases k with h | h <;> omega)
  rw [h]
  have h2 : (((bin hn k : Fin n) : ℕ) : ℝ) - ((n / 2 : ℕ) : ℝ) = k := by exact_mod_cast h1
  rw [Nat.cast_div (by omega) (by norm_num), Nat.cast_ofNat] at h2
  rw [h2]

theorem defect_le (hn : 0 < n) (he : n % 2 = 0) {R : Fin n → ℂ} {K : ℝ} (hK : ∀ k, ‖R k‖ ≤ K) {T : ℝ} (hT : 0 < T) {Ω : Fin n → ℝ} (hΩ : Grid T Ω) (U : Fin n → ℂ)
    (j : Fin n) : ‖defect R Ω U j‖ ≤ 9 * (Real.pi * n / T) * K * (total U ^ 2 * outside U) := by
  have hK0 : 0 ≤ K := (norm_nonneg _).trans (hK (bin hn 0))
  have hpi := Real.pi_pos
  set x : Fin n → ℝ := fun k => ‖Gnlse.toFreq U k‖ with hx
  set y : Fin n → ℝ := fun k => if (n : ℤ) ≤ 6 * |idx k| then x k else 0 with hy
  have hx0 : ∀ k, 0 ≤ x k := fun k => norm_nonneg _
  have hy0 : ∀ k, 0 ≤ y k := fun k => by
    simp only [hy]
    split_ifs
    · exact hx0 k
    · exact le_rfl
  have hS : total U = ∑ k, x k := rfl
  have hO : outside U = ∑ k, y k := rfl
  rw [defect_eq hn he]
  have hterm : ∀ c a b, ‖Gnlse.toFreq U c * (Gnlse.toFreq U a * (starRingEnd ℂ) (Gnlse.toFreq U b) * R (bin hn (idx a - idx b))) *
      (-I * ((Ω (bin hn (idx c + (idx a - idx b))) - Ω (bin hn (idx a - idx b)) - Ω (bin hn (idx c)) : ℝ) : ℂ)) * wave n (idx c + (idx a - idx b)) j‖ ≤
      3 * (Real.pi * n / T) * K * (y c * x a * x b + x c * y a * x b + x c * x a * y b) := by
    intro c a b
    rw [norm_mul, norm_wave, mul_one, norm_mul, norm_mul, norm_mul, norm_mul, norm_mul, norm_neg, norm_I, one_mul, RCLike.norm_conj, norm_real, Real.norm_eq_abs]
    have hsum0 : 0 ≤ y c * x a * x b + x c * y a * x b + x c * x a * y b := by
      have := hx0 c; have := hx0 a; have := hx0 b; have := hy0 c; have := hy0 a; have := hy0 b
      positivity
    by_cases hin : 6 * |idx c| < n ∧ 6 * |idx a| < n ∧ 6 * |idx b| < n
    · have e1 : 2 * |idx a - idx b| < n := by
        have := abs_sub (idx a) (idx b)
        omega
      have e2 : 2 * |idx c + (idx a - idx b)| < n := by
        have h1 := abs_sub (idx a) (idx b)
        have h2 := abs_add_le (idx c) (idx a - idx b)
        omega
      have e3 : 2 * |idx c| < n := by omega
      rw [hΩ.inside hn he e1, hΩ.inside hn he e2, hΩ.inside hn he e3]
      have : (2 * Real.pi * ((idx c + (idx a - idx b) : ℤ) : ℝ) / T - 2 * Real.pi * ((idx a - idx b : ℤ) : ℝ) / T - 2 * Real.pi * ((idx c : ℤ) : ℝ) / T) = 0 := by
        push_cast
        ring
      rw [this, abs_zero, mul_zero]
      positivity
    · have hΩ3 : |Ω (bin hn (idx c + (idx a - idx b))) - Ω (bin hn (idx a - idx b)) - Ω (bin hn (idx c))| ≤ 3 * (Real.pi * n / T) := by
        have h1 := hΩ.le hT (bin hn (idx c + (idx a - idx b)))
        have h2 := hΩ.le hT (bin hn (idx a - idx b))
        have h3 := hΩ.le hT (bin hn (idx c))
        rw [abs_le] at *
        constructor <;> linarith [h1.1, h1.2, h2.1, h2.2, h3.1, h3.2]
      have hxy : x c * x a * x b ≤ y c * x a * x b + x c * y a * x b + x c * x a * y b := by
        have hc := hx0 c; have ha := hx0 a; have hb := hx0 b; have hc' := hy0 c; have ha' := hy0 a; have hb' := hy0 b
        have p1 : 0 ≤ y c * x a * x b := by positivity
        have p2 : 0 ≤ x c * y a * x b := by positivity
        have p3 : 0 ≤ x c * x a * y b := by positivity
        by_cases h1 : 6 * |idx c| < n
        · by_cases h2 : 6 * |idx a| < n
          · have h3 : (n : ℤ) ≤ 6 * |idx b| := by
              by_contra h3
              exact hin ⟨h1, h2, by omega⟩
            have : y b = x b := by simp only [hy]; rw [if_pos h3]
            rw [this] at p3 ⊢
            linarith
          · have : y a = x a := by simp only [hy]; rw [if_pos (by omega)]
            rw [this] at p2 ⊢
            linarith
        · have : y c = x c := by simp only [hy]; rw [if_pos (by omega)]
          rw [this] at p1 ⊢
          linarith
      calc ‖Gnlse.toFreq U c‖ * (‖Gnlse.toFreq U a‖ * ‖Gnlse.toFreq U b‖ * ‖R (bin hn (idx a - idx b))‖) *
            |Ω (bin hn (idx c + (idx a - idx b))) - Ω (bin hn (idx a - idx b)) - Ω (bin hn (idx c))|
          ≤ ‖Gnlse.toFreq U c‖ * (‖Gnlse.toFreq U a‖ * ‖Gnlse.toFreq U b‖ * K) * (3 * (Real.pi * n / T)) := by
            gcongr
            exact hK _
        _ = 3 * (Real.pi * n / T) * K * (x c * x a * x b) := by
            simp only [hx]
            ring
        _ ≤ _ := mul_le_mul_of_nonneg_left hxy (by positivity)
  have hsum : ∀ f g h : Fin n → ℝ, ∑ c, ∑ a, ∑ b, f c * g a * h b = (∑ c, f c) * (∑ a, g a) * ∑ b, h b := by
    intro f g h
    rw [Finset.sum_mul_sum, Finset.sum_mul]
    refine Finset.sum_congr rfl fun c _ => ?_
    rw [Finset.sum_mul]
    refine Finset.sum_congr rfl fun a _ => ?_
    rw [Finset.mul_sum]
  calc _ ≤ ∑ c, ∑ a, ∑ b, 3 * (Real.pi * n / T) * K * (y c * x a * x b + x c * y a * x b + x c * x a * y b) := by
        refine (norm_sum_le _ _).trans (Finset.sum_le_sum fun c _ => ?_)
        refine (norm_sum_le _ _).trans (Finset.sum_le_sum fun a _ => ?_)
        exact (norm_sum_le _ _).trans (Finset.sum_le_sum fun b _ => hterm c a b)
    _ = 3 * (Real.pi * n / T) * K * (∑ c, ∑ a, ∑ b, y c * x a * x b + ∑ c, ∑ a, ∑ b, x c * y a * x b + ∑ c, ∑ a, ∑ b, x c * x a * y b) := by
        simp only [← Finset.mul_sum, Finset.sum_add_distrib]
    _ = _ := by
        rw [hsum, hsum, hsum, ← hS, ← hO]
        ring

/-! ## the rate -/

theorem response_real {R : Fin n → ℂ} (hR : RealResponse R) (U : Fin n → ℂ) (j : Fin n) : (Gnlse.response R U j).im = 0 := by
  have h := hR (fun i => ‖U i‖ ^ 2) j
  have e : (fun i => (((‖U i‖ ^ 2 : ℝ)) : ℂ)) = fun i => U i * (starRingEnd ℂ) (U i) := by
    funext i
    rw [mul_conj, normSq_eq_norm_sq]
  rw [e] at h
  exact h

theorem norm_toFreq_le (hn : 0 < n) (he : n % 2 = 0) {x : Fin n → ℂ} {B : ℝ} (hB : ∀ j, ‖x j‖ ≤ B) (k : Fin n) : ‖Gnlse.toFreq x k‖ ≤ B := by
  show ‖fftT x k‖ ≤ B
  have hn' : (0 : ℝ) < n := by exact_mod_cast hn
  rw [fftT_apply_even he, norm_mul, norm_div, norm_one, Complex.norm_natCast]
  have h1 : ‖∑ j, x j * rootE n (((j : ℕ) - (n / 2 : ℕ) : ℤ) * ((k : ℕ) - (n / 2 : ℕ) : ℤ))‖ ≤ ∑ _j : Fin n, B := by
    refine (norm_sum_le _ _).trans (Finset.sum_le_sum fun j _ => ?_)
    rw [norm_mul, norm_rootE, mul_one]
    exact hB j
  have h2 : ∑ _j : Fin n, B = n * B := by simp
  rw [h2] at h1
  calc 1 / (n : ℝ) * ‖∑ j, x j * rootE n (((j : ℕ) - (n / 2 : ℕ) : ℤ) * ((k : ℕ) - (n / 2 : ℕ) : ℤ))‖ ≤ 1 / (n : ℝ) * (n * B) :=
        mul_le_mul_of_nonneg_left h1 (by positivity)
    _ = B := by field_simp

/-- rate of change of the photon number -/
theorem photons_hasDerivAt (hn : 0 < n) {β : Fin n → ℝ} {g : ℝ} {R : Fin n → ℂ} (hR : RealResponse R) {γ w0 : ℝ} (hw0 : w0 ≠ 0) {Ω : Fin n → ℝ}
    (hw : ∀ k, w0 + Ω k ≠ 0) {U : ℝ → Fin n → ℂ} {e : Fin n → ℂ} {z : ℝ}
    (h : HasDerivAt U (Gnlse.rhs β g R γ (U z) + Gnlse.shock R γ w0 Ω (U z) + e) z) :
    HasDerivAt (fun z => photons (fun k => w0 + Ω k) (U z)) (g * photons (fun k => w0 + Ω k) (U z) +
      ∑ k, 2 * (Gnlse.toFreq (fun j => ((γ / w0 : ℝ) : ℂ) * defect R Ω (U z) j + e j) k * (starRingEnd ℂ) (Gnlse.toFreq (U z) k)).re / (w0 + Ω k)) z := by
  set V := U z with hV
  set A : Fin n → ℂ := fun i => V i * Gnlse.response R V i with hA
  set d : Fin n → ℂ := fun j => ((γ / w0 : ℝ) : ℂ) * defect R Ω V j + e j with hd
  have h1 : HasDerivAt (fun z => photons (fun k => w0 + Ω k) (U z))
      (∑ k, 2 * (Gnlse.toFreq (Gnlse.rhs β g R γ V + Gnlse.shock R γ w0 Ω V + e) k * (starRingEnd ℂ) (Gnlse.toFreq V k)).re / (w0 + Ω k)) z :=
    HasDerivAt.fun_sum fun k _ => (normSq_hasDerivAt (toFreq_hasDerivAt h k)).div_const _
  refine h1.congr_deriv ?_
  have hsplit : Gnlse.rhs β g R γ V + Gnlse.shock R γ w0 Ω V + e = fun j =>
      (Gnlse.toTime (fun k => (I * β k + g / 2) * Gnlse.toFreq V k) j + (I * γ * A j + (-((γ / w0 : ℝ) : ℂ)) * Gnlse.dt Ω A j)) + d j := by
    funext j
    simp only [Pi.add_apply, Gnlse.rhs, Gnlse.shock, hd, defect, hA, Gnlse.response]
    ring
  have hfreq : ∀ k, Gnlse.toFreq (Gnlse.rhs β g R γ V + Gnlse.shock R γ w0 Ω V + e) k =
      (I * β k + g / 2) * Gnlse.toFreq V k + I * ((γ * ((w0 + Ω k) / w0) : ℝ) : ℂ) * Gnlse.toFreq A k + Gnlse.toFreq d k := by
    intro k
    rw [hsplit, toFreq_add, toFreq_add, toFreq_add]
    simp only [toFreq_smul, toFreq_toTime, Gnlse.dt]
    have hw0' : (w0 : ℂ) ≠ 0 := by exact_mod_cast hw0
    push_cast
    field_simp
  have hzero : ∑ k, (I * ((γ * ((w0 + Ω k) / w0) : ℝ) : ℂ) * Gnlse.toFreq A k * (starRingEnd ℂ) (Gnlse.toFreq V k)).re / (w0 + Ω k) = 0 := by
    have e1 : ∀ k, (I * ((γ * ((w0 + Ω k) / w0) : ℝ) : ℂ) * Gnlse.toFreq A k * (starRingEnd ℂ) (Gnlse.toFreq V k)).re / (w0 + Ω k) =
        γ / w0 * (I * (Gnlse.toFreq A k * (starRingEnd ℂ) (Gnlse.toFreq V k))).re := by
      intro k
      rw [show I * ((γ * ((w0 + Ω k) / w0) : ℝ) : ℂ) * Gnlse.toFreq A k * (starRingEnd ℂ) (Gnlse.toFreq V k) =
        ((γ * ((w0 + Ω k) / w0) : ℝ) : ℂ) * (I * (Gnlse.toFreq A k * (starRingEnd ℂ) (Gnlse.toFreq V k))) by ring, re_ofReal_mul]
      have := hw k
      field_simp
    rw [Finset.sum_congr rfl fun k _ => e1 k, ← Finset.mul_sum, ← re_sum, ← Finset.mul_sum]
    have e2 := adjoint (Gnlse.toFreq V) A
    rw [toTime_toFreq] at e2
    have e3 : (∑ j, A j * (starRingEnd ℂ) (V j)).im = 0 := by
      rw [im_sum]
      refine Finset.sum_eq_zero fun j _ => ?_
      simp only [hA]
      rw [show V j * Gnlse.response R V j * (starRingEnd ℂ) (V j) = (V j * (starRingEnd ℂ) (V j)) * Gnlse.response R V j by ring, mul_conj, im_ofReal_mul,
        response_real hR, mul_zero]
    have e4 : (∑ k, Gnlse.toFreq A k * (starRingEnd ℂ) (Gnlse.toFreq V k)).im = 0 := by
      have e5 := congrArg Complex.im e2
      rw [e3, show (n : ℂ) = ((n : ℝ) : ℂ) by push_cast; rfl, im_ofReal_mul] at e5
      rcases mul_eq_zero.1 e5 with h | h
      · exact absurd h (by exact_mod_cast hn.ne')
      · exact h
    rw [I_mul_re, e4]
    simp
  have hk : ∀ k, 2 * (Gnlse.toFreq (Gnlse.rhs β g R γ V + Gnlse.shock R γ w0 Ω V + e) k * (starRingEnd ℂ) (Gnlse.toFreq V k)).re / (w0 + Ω k) =
      g * (‖Gnlse.toFreq V k‖ ^ 2 / (w0 + Ω k)) + 2 * ((I * ((γ * ((w0 + Ω k) / w0) : ℝ) : ℂ) * Gnlse.toFreq A k * (starRingEnd ℂ) (Gnlse.toFreq V k)).re / (w0 + Ω k)) +
        2 * (Gnlse.toFreq d k * (starRingEnd ℂ) (Gnlse.toFreq V k)).re / (w0 + Ω k) := by
    intro k
    rw [hfreq k, add_mul, add_mul, add_re, add_re]
    have : ((I * β k + g / 2) * Gnlse.toFreq V k * (starRingEnd ℂ) (Gnlse.toFreq V k)).re = g / 2 * ‖Gnlse.toFreq V k‖ ^ 2 := by
      rw [mul_assoc, mul_conj, normSq_eq_norm_sq]
      have : ∀ (b y : ℝ), ((I * (b : ℂ) + (g : ℂ) / 2) * (y : ℂ)).re = g / 2 * y := fun b y => by
        simp
      exact this _ _
    rw [this]
    ring
  rw [Finset.sum_congr rfl fun k _ => hk k, Finset.sum_add_distrib, Finset.sum_add_distrib, ← Finset.mul_sum, ← Finset.mul_sum, hzero, mul_zero, add_zero]
  rfl

/-- bound of the rate -/
theorem rate_le (hn : 0 < n) (he : n % 2 = 0) {R : Fin n → ℂ} {K : ℝ} (hK : ∀ k, ‖R k‖ ≤ K) {T : ℝ} (hT : 0 < T) {Ω : Fin n → ℝ} (hΩ : Grid T Ω) (γ : ℝ) {w0 m : ℝ}
    (hw0 : 0 < w0) (hm : 0 < m) (hw : ∀ k, m ≤ w0 + Ω k) (U : Fin n → ℂ) {e : Fin n → ℂ} {ε : ℝ} (hε : ∀ j, ‖e j‖ ≤ ε) :
    |∑ k, 2 * (Gnlse.toFreq (fun j => ((γ / w0 : ℝ) : ℂ) * defect R Ω U j + e j) k * (starRingEnd ℂ) (Gnlse.toFreq U k)).re / (w0 + Ω k)| ≤
      2 * total U / m * (|γ| / w0 * (9 * (Real.pi * n / T) * K * (total U ^ 2 * outside U)) + ε) := by
  set B := |γ| / w0 * (9 * (Real.pi * n / T) * K * (total U ^ 2 * outside U)) + ε with hB
  have hb : ∀ j, ‖((γ / w0 : ℝ) : ℂ) * defect R Ω U j + e j‖ ≤ B := by
    intro j
    refine (norm_add_le _ _).trans (add_le_add ?_ (hε j))
    rw [norm_mul, norm_real, Real.norm_eq_abs, abs_div, abs_of_pos hw0]
    exact mul_le_mul_of_nonneg_left (defect_le hn he hK hT hΩ U j) (by positivity)
  have hB0 : 0 ≤ B := (norm_nonneg _).trans (hb (bin hn 0))
  calc _ ≤ ∑ k, |2 * (Gnlse.toFreq (fun j => ((γ / w0 : ℝ) : ℂ) * defect R Ω U j + e j) k * (starRingEnd ℂ) (Gnlse.toFreq U k)).re / (w0 + Ω k)| :=
        Finset.abs_sum_le_sum_abs _ _
    _ ≤ ∑ k, 2 * B / m * ‖Gnlse.toFreq U k‖ := by
        refine Finset.sum_le_sum fun k _ => ?_
        have hwk : 0 < w0 + Ω k := hm.trans_le (hw k)
        rw [abs_div, abs_mul, abs_two, abs_of_pos hwk]
        have h1 : |(Gnlse.toFreq (fun j => ((γ / w0 : ℝ) : ℂ) * defect R Ω U j + e j) k * (starRingEnd ℂ) (Gnlse.toFreq U k)).re| ≤ B * ‖Gnlse.toFreq U k‖ := by
          refine (abs_re_le_norm _).trans ?_
          rw [norm_mul, RCLike.norm_conj]
          exact mul_le_mul_of_nonneg_right (norm_toFreq_le hn he hb k) (norm_nonneg _)
        calc _ ≤ 2 * (B * ‖Gnlse.toFreq U k‖) / (w0 + Ω k) := by gcongr
          _ ≤ 2 * (B * ‖Gnlse.toFreq U k‖) / m := div_le_div_of_nonneg_left (by positivity) hm (hw k)
          _ = _ := by ring
    _ = _ := by
        rw [← Finset.mul_sum]
        unfold total
        ring

/-- growth of a quantity with rate `g` and a bounded disturbance -/
theorem drift {f : ℝ → ℝ} {g K L : ℝ} {r : ℝ → ℝ} (hf : ∀ s ∈ Icc 0 L, HasDerivAt f (g * f s + r s) s) (hr : ∀ s ∈ Icc 0 L, |r s| ≤ K) {z : ℝ} (hz : z ∈ Icc 0 L) :
    |f z - Real.exp (g * z) * f 0| ≤ Real.exp (|g| * z) * K * z := by
  have hsub : Icc 0 z ⊆ Icc 0 L := Icc_subset_Icc_right hz.2
  have hK : 0 ≤ K := (abs_nonneg _).trans (hr z hz)
  have hk : ∀ s ∈ Icc 0 z, HasDerivWithinAt (fun s => Real.exp (g * (z - s)) * f s) (Real.exp (g * (z - s)) * r s) (Icc 0 z) s := by
    intro s hs
    have h1 : HasDerivAt (fun s => g * (z - s)) (g * (-1)) s := ((hasDerivAt_id s).const_sub z).const_mul g
    have h2 := h1.exp.mul (hf s (hsub hs))
    refine (h2.congr_deriv ?_).hasDerivWithinAt
    ring
  have hb : ∀ s ∈ Icc 0 z, ‖Real.exp (g * (z - s)) * r s‖ ≤ Real.exp (|g| * z) * K := by
    intro s hs
    rw [Real.norm_eq_abs, abs_mul, Real.abs_exp]
    refine mul_le_mul (Real.exp_le_exp.2 ?_) (hr s (hsub hs)) (abs_nonneg _) (Real.exp_pos _).le
    have h1 : g * (z - s) ≤ |g| * (z - s) := mul_le_mul_of_nonneg_right (le_abs_self g) (by linarith [hs.2])
    have h2 : |g| * (z - s) ≤ |g| * z := mul_le_mul_of_nonneg_left (by linarith [hs.1]) (abs_nonneg g)
    linarith
  have := (convex_Icc 0 z).norm_image_sub_le_of_norm_hasDerivWithin_le hk hb (left_mem_Icc.2 hz.1) (right_mem_Icc.2 hz.1)
  simpa [abs_of_nonneg hz.1] using this

end PyNLO.Photon
