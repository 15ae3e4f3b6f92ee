import Verif.Lemmas.NlseStable
import Verif.Spec.Sobolev

/-! # Stability of the equation on the grid in a norm that controls the largest value, uniformly in the number of points -/

namespace PyNLO.Nlse

open Complex Set OdeGlobal
open scoped Topology

variable {n : ℕ}

theorem next_eq (j : Fin n) : next j = rollIdx (-1) j := by
  apply Fin.ext
  have h1 : (((rollIdx (-1) j : Fin n) : ℕ) : ℤ) = ((j : ℕ) - (-1) : ℤ) % n := rollIdx_coe (-1) j
  have h2 : (((next j : Fin n) : ℕ) : ℤ) = (((j : ℕ) : ℤ) + 1) % n := by
    simp [next]
  have : (((next j : Fin n) : ℕ) : ℤ) = ((rollIdx (-1) j : Fin n) : ℕ) := by
    rw [h1, h2, sub_neg_eq_add]
  exact_mod_cast this

theorem sum_next {β : Type _} [AddCommMonoid β] (f : Fin n → β) : ∑ j, f (next j) = ∑ j, f j := by
  simp only [next_eq]
  exact sum_roll (-1) f

theorem slopes_eq (h : ℝ) (f : Fin n → ℂ) : slopes h f = ((h : ℂ)⁻¹) • (roll (-1) f - f) := by
  funext j
  simp only [slopes, next_eq, Pi.smul_apply, Pi.sub_apply, roll, smul_eq_mul]
  rw [div_eq_inv_mul]

theorem slopes_respond (h : ℝ) (R f : Fin n → ℂ) : slopes h (respond R f) = respond R (slopes h f) := by
  rw [slopes_eq, slopes_eq, respond_eq, respond_eq, ← Ssfm.applySpec_roll]
  have h1 := map_smul (Ssfm.specL (fftshift R)) ((h : ℂ)⁻¹) (roll (-1) f - f)
  have h2 := map_sub (Ssfm.specL (fftshift R)) (roll (-1) f) f
  rw [h2] at h1
  exact h1.symm

theorem slopes_add (h : ℝ) (f k : Fin n → ℂ) : slopes h (f + k) = slopes h f + slopes h k := by
  funext j
  simp only [slopes, Pi.add_apply]
  ring

theorem slopes_neg (h : ℝ) (f : Fin n → ℂ) : slopes h (-f) = -slopes h f := by
  funext j
  simp only [slopes, Pi.neg_apply]
  ring

theorem sobolev_eq (T : ℝ) (f : Fin n → ℂ) : sobolev T f = T / n * (en f + en (slopes (T / n) f)) := by
  unfold sobolev en
  rw [Finset.sum_add_distrib]

theorem sobolev_nonneg {T : ℝ} (hT : 0 ≤ T) (f : Fin n → ℂ) : 0 ≤ sobolev T f := by
  unfold sobolev
  positivity

/-! ## largest value -/

theorem walk {τ W : Fin n → ℝ} (h : ∀ j, |W (next j) - W j| ≤ τ j) (i : Fin n) (m : ℕ) (hm : (i : ℕ) + m < n) :
    |W ⟨i + m, hm⟩ - W i| ≤ ∑ l ∈ Finset.univ.filter (fun l : Fin n => (i : ℕ) ≤ l ∧ (l : ℕ) < i + m), τ l := by
  induction m with
  | zero =>
    simp only [add_zero, Fin.eta, sub_self, abs_zero]
    exact Finset.sum_nonneg fun l _ => (abs_nonneg _).trans (h l)
  | succ m ih =>
    have hm' : (i : ℕ) + m < n := by omega
    have hn : next (⟨i + m, hm'⟩ : Fin n) = ⟨i + (m + 1), hm⟩ := by
      apply Fin.ext
      show (i + m + 1) % n = i + (m + 1)
      rw [Nat.mod_eq_of_lt (by omega)]
      omega
    have hset : Finset.univ.filter (fun l : Fin n => (i : ℕ) ≤ l ∧ (l : ℕ) < i + (m + 1)) =
        insert ⟨i + m, hm'⟩ (Finset.univ.filter (fun l : Fin n => (i : ℕ) ≤ l ∧ (l : ℕ) < i + m)) := by
      ext l
      simp only [Finset.mem_filter, Finset.mem_univ, true_and, Finset.mem_insert, Fin.ext_iff]
      omega
    rw [hset, Finset.sum_insert (by simp)]
    have h1 := h ⟨i + m, hm'⟩
    rw [hn] at h1
    have h2 := abs_add_le (W ⟨i + (m + 1), hm⟩ - W ⟨i + m, hm'⟩) (W ⟨i + m, hm'⟩ - W i)
    rw [sub_add_sub_cancel] at h2
    linarith [ih hm']

theorem walk_le {τ W : Fin n → ℝ} (h : ∀ j, |W (next j) - W j| ≤ τ j) (i j : Fin n) : |W j - W i| ≤ ∑ l, τ l := by
  have h0 : ∀ l, 0 ≤ τ l := fun l => (abs_nonneg _).trans (h l)
  have key : ∀ i j : Fin n, (i : ℕ) ≤ j → |W j - W i| ≤ ∑ l, τ l := fun i j hij => by
    have := walk h i (j - i) (by omega)
    have e : (⟨i + (j - i), by omega⟩ : Fin n) = j := Fin.ext (by show (i : ℕ) + (j - i) = j; omega)
    rw [e] at this
    exact this.trans (Finset.sum_le_sum_of_subset_of_nonneg (Finset.filter_subset _ _) fun l _ _ => h0 l)
  rcases le_total (i : ℕ) j with hij | hij
  · exact key i j hij
  · rw [abs_sub_comm]
    exact key j i hij

/-- the largest value is controlled by the norm -/
theorem sq_le_sobolev {T : ℝ} (hT : 0 < T) (w : Fin n → ℂ) (j : Fin n) : ‖w j‖ ^ 2 ≤ (1 + 1 / T) * sobolev T w := by
  have hn : 0 < n := by have := j.isLt; omega
  have hn' : (0 : ℝ) < n := by exact_mod_cast hn
  set h := T / n with hh
  have hpos : 0 < h := by positivity
  have hτ : ∀ l, |‖w (next l)‖ ^ 2 - ‖w l‖ ^ 2| ≤ h * (‖slopes h w l‖ ^ 2 + (‖w (next l)‖ ^ 2 + ‖w l‖ ^ 2) / 2) := fun l => by
    have e : ‖w (next l) - w l‖ = h * ‖slopes h w l‖ := by
      unfold slopes
      rw [norm_div, norm_real, Real.norm_eq_abs, abs_of_pos hpos]
      field_simp
    have h1 := abs_norm_sub_norm_le (w (next l)) (w l)
    rw [e] at h1
    rw [sq_sub_sq, abs_mul, abs_of_nonneg (by positivity)]
    have h2 : (‖w (next l)‖ + ‖w l‖) * |‖w (next l)‖ - ‖w l‖| ≤ (‖w (next l)‖ + ‖w l‖) * (h * ‖slopes h w l‖) :=
      mul_le_mul_of_nonneg_left h1 (by positivity)
    refine h2.trans ?_
    have h3 : (‖w (next l)‖ + ‖w l‖) * ‖slopes h w l‖ ≤ ‖slopes h w l‖ ^ 2 + (‖w (next l)‖ ^ 2 + ‖w l‖ ^ 2) / 2 := by
      nlinarith [sq_nonneg (‖slopes h w l‖ - (‖w (next l)‖ + ‖w l‖) / 2), sq_nonneg (‖w (next l)‖ - ‖w l‖)]
    nlinarith
  have hsum : ∑ l, h * (‖slopes h w l‖ ^ 2 + (‖w (next l)‖ ^ 2 + ‖w l‖ ^ 2) / 2) = sobolev T w := by
    rw [← Finset.mul_sum, Finset.sum_add_distrib, ← Finset.sum_div, Finset.sum_add_distrib, sum_next fun l => ‖w l‖ ^ 2, sobolev_eq]
    unfold en
    rw [← hh]
    ring
  have hkey : ∀ i, ‖w j‖ ^ 2 ≤ ‖w i‖ ^ 2 + sobolev T w := fun i => by
    have := (le_abs_self _).trans (walk_le (W := fun l => ‖w l‖ ^ 2) hτ i j)
    rw [hsum] at this
    linarith
  have htot : n * ‖w j‖ ^ 2 ≤ en w + n * sobolev T w := by
    have := Finset.sum_le_sum fun i (_ : i ∈ Finset.univ) => hkey i
    rw [Finset.sum_add_distrib] at this
    simpa [en] using this
  have hen : h * en w ≤ sobolev T w := by
    rw [sobolev_eq]
    exact mul_le_mul_of_nonneg_left (le_add_of_nonneg_right (en_nonneg _)) hpos.le
  have e1 : en w = n / T * (h * en w) := by
    rw [hh]
    field_simp
  have h3 : n * ‖w j‖ ^ 2 ≤ n * ((1 + 1 / T) * sobolev T w) := by
    have : n / T * (h * en w) ≤ n / T * sobolev T w := mul_le_mul_of_nonneg_left hen (by positivity)
    have e2 : n * ((1 + 1 / T) * sobolev T w) = n / T * sobolev T w + n * sobolev T w := by
      field_simp
      ring
    linarith
  exact le_of_mul_le_mul_left h3 hn'

/-! ## the nonlinear term -/

/-- `|a|²a` -/
noncomputable def cube (a : ℂ) : ℂ := a * (a * (starRingEnd ℂ) a)

theorem cube_lip {m : ℝ} {a b : ℂ} (ha : ‖a‖ ≤ m) (hb : ‖b‖ ≤ m) : ‖cube a - cube b‖ ≤ 3 * m ^ 2 * ‖a - b‖ := by
  have hm : 0 ≤ m := (norm_nonneg a).trans ha
  have e : cube a - cube b = (a - b) * a * (starRingEnd ℂ) a + b * (a - b) * (starRingEnd ℂ) a + b * b * (starRingEnd ℂ) (a - b) := by
    unfold cube
    rw [map_sub]
    ring
  have h0 := norm_nonneg (a - b)
  have h1 : ‖(a - b) * a * (starRingEnd ℂ) a‖ ≤ m ^ 2 * ‖a - b‖ := by
    rw [norm_mul, norm_mul, RCLike.norm_conj]
    have := mul_le_mul ha ha (norm_nonneg _) hm
    nlinarith
  have h2 : ‖b * (a - b) * (starRingEnd ℂ) a‖ ≤ m ^ 2 * ‖a - b‖ := by
    rw [norm_mul, norm_mul, RCLike.norm_conj]
    have := mul_le_mul hb ha (norm_nonneg _) hm
    nlinarith
  have h3 : ‖b * b * (starRingEnd ℂ) (a - b)‖ ≤ m ^ 2 * ‖a - b‖ := by
    rw [norm_mul, norm_mul, RCLike.norm_conj]
    have := mul_le_mul hb hb (norm_nonneg _) hm
    nlinarith
  rw [e]
  have t1 := norm_add_le ((a - b) * a * (starRingEnd ℂ) a + b * (a - b) * (starRingEnd ℂ) a) (b * b * (starRingEnd ℂ) (a - b))
  have t2 := norm_add_le ((a - b) * a * (starRingEnd ℂ) a) (b * (a - b) * (starRingEnd ℂ) a)
  linarith

theorem cube_second {M : ℝ} {v v' w : ℂ} (hv : ‖v‖ ≤ M) (hv' : ‖v'‖ ≤ M) (hw : ‖w‖ ≤ 1) :
    ‖(cube (v' + w) - cube v') - (cube (v + w) - cube v)‖ ≤ (6 * M + 3) * ‖v' - v‖ * ‖w‖ := by
  have hM : 0 ≤ M := (norm_nonneg v).trans hv
  set d := v' - v with hd
  have hv'' : v' = v + d := by rw [hd]; ring
  have e : (cube (v' + w) - cube v') - (cube (v + w) - cube v) = 2 * (d * (starRingEnd ℂ) v' * w) + 2 * (v * (starRingEnd ℂ) d * w) +
      d * v' * (starRingEnd ℂ) w + d * v * (starRingEnd ℂ) w + 2 * (d * w * (starRingEnd ℂ) w) + (starRingEnd ℂ) d * w * w := by
    unfold cube
    rw [hv'']
    simp only [map_add]
    ring
  set x := ‖d‖ * ‖w‖ with hx
  have hx0 : 0 ≤ x := by positivity
  have h1 : ‖2 * (d * (starRingEnd ℂ) v' * w)‖ ≤ 2 * (M * x) := by
    rw [norm_mul, norm_mul, norm_mul, RCLike.norm_conj, RCLike.norm_ofNat]
    have : ‖d‖ * ‖v'‖ * ‖w‖ = ‖v'‖ * x := by rw [hx]; ring
    rw [this]
    have := mul_le_mul_of_nonneg_right hv' hx0
    linarith
  have h2 : ‖2 * (v * (starRingEnd ℂ) d * w)‖ ≤ 2 * (M * x) := by
    rw [norm_mul, norm_mul, norm_mul, RCLike.norm_conj, RCLike.norm_ofNat]
    have : ‖v‖ * ‖d‖ * ‖w‖ = ‖v‖ * x := by rw [hx]; ring
    rw [this]
    have := mul_le_mul_of_nonneg_right hv hx0
    linarith
  have h3 : ‖d * v' * (starRingEnd ℂ) w‖ ≤ M * x := by
    rw [norm_mul, norm_mul, RCLike.norm_conj]
    have : ‖d‖ * ‖v'‖ * ‖w‖ = ‖v'‖ * x := by rw [hx]; ring
    rw [this]
    exact mul_le_mul_of_nonneg_right hv' hx0
  have h4 : ‖d * v * (starRingEnd ℂ) w‖ ≤ M * x := by
    rw [norm_mul, norm_mul, RCLike.norm_conj]
    have : ‖d‖ * ‖v‖ * ‖w‖ = ‖v‖ * x := by rw [hx]; ring
    rw [this]
    exact mul_le_mul_of_nonneg_right hv hx0
  have h5 : ‖2 * (d * w * (starRingEnd ℂ) w)‖ ≤ 2 * x := by
    rw [norm_mul, norm_mul, norm_mul, RCLike.norm_conj, RCLike.norm_ofNat]
    have := mul_le_of_le_one_right hx0 hw
    linarith
  have h6 : ‖(starRingEnd ℂ) d * w * w‖ ≤ x := by
    rw [norm_mul, norm_mul, RCLike.norm_conj]
    exact mul_le_of_le_one_right hx0 hw
  rw [e]
  have t1 := norm_add_le (2 * (d * (starRingEnd ℂ) v' * w) + 2 * (v * (starRingEnd ℂ) d * w) +
      d * v' * (starRingEnd ℂ) w + d * v * (starRingEnd ℂ) w + 2 * (d * w * (starRingEnd ℂ) w)) ((starRingEnd ℂ) d * w * w)
  have t2 := norm_add_le (2 * (d * (starRingEnd ℂ) v' * w) + 2 * (v * (starRingEnd ℂ) d * w) +
      d * v' * (starRingEnd ℂ) w + d * v * (starRingEnd ℂ) w) (2 * (d * w * (starRingEnd ℂ) w))
  have t3 := norm_add_le (2 * (d * (starRingEnd ℂ) v' * w) + 2 * (v * (starRingEnd ℂ) d * w) + d * v' * (starRingEnd ℂ) w) (d * v * (starRingEnd ℂ) w)
  have t4 := norm_add_le (2 * (d * (starRingEnd ℂ) v' * w) + 2 * (v * (starRingEnd ℂ) d * w)) (d * v' * (starRingEnd ℂ) w)
  have t5 := norm_add_le (2 * (d * (starRingEnd ℂ) v' * w)) (2 * (v * (starRingEnd ℂ) d * w))
  have : (6 * M + 3) * ‖d‖ * ‖w‖ = (6 * M + 3) * x := by rw [hx]; ring
  rw [this]
  linarith

/-- slopes of the difference of the nonlinear terms -/
theorem cube_slopes {h M M1 : ℝ} (hh : 0 < h) {U V : Fin n → ℂ} (hV : ∀ j, ‖V j‖ ≤ M) (hV1 : ∀ j, ‖slopes h V j‖ ≤ M1) (hU : ∀ j, ‖U j - V j‖ ≤ 1)
    (j : Fin n) : ‖slopes h (fun j => cube (U j) - cube (V j)) j‖ ≤ 3 * (M + 1) ^ 2 * ‖slopes h (U - V) j‖ + (6 * M + 3) * M1 * ‖(U - V) j‖ := by
  have hM : 0 ≤ M := (norm_nonneg (V j)).trans (hV j)
  set w := U - V with hw
  have hUw : ∀ i, U i = V i + w i := fun i => by rw [hw, Pi.sub_apply]; ring
  have hw1 : ∀ i, ‖w i‖ ≤ 1 := hU
  have e : slopes h (fun j => cube (U j) - cube (V j)) j = ((cube (V (next j) + w (next j)) - cube (V (next j) + w j)) +
      ((cube (V (next j) + w j) - cube (V (next j))) - (cube (V j + w j) - cube (V j)))) / h := by
    simp only [slopes]
    rw [hUw, hUw]
    congr 1
    ring
  have hb : ∀ i k, ‖V i + w k‖ ≤ M + 1 := fun i k => (norm_add_le _ _).trans (add_le_add (hV i) (hw1 k))
  have h1 := cube_lip (hb (next j) (next j)) (hb (next j) j)
  rw [add_sub_add_left_eq_sub] at h1
  have h2 := cube_second (hV j) (hV (next j)) (hw1 j)
  have s1 : ‖w (next j) - w j‖ = h * ‖slopes h w j‖ := by
    unfold slopes
    rw [norm_div, norm_real, Real.norm_eq_abs, abs_of_pos hh]
    field_simp
  have s2 : ‖V (next j) - V j‖ = h * ‖slopes h V j‖ := by
    unfold slopes
    rw [norm_div, norm_real, Real.norm_eq_abs, abs_of_pos hh]
    field_simp
  rw [s1] at h1
  rw [s2] at h2
  rw [e, norm_div, norm_real, Real.norm_eq_abs, abs_of_pos hh, div_le_iff₀ hh]
  refine (norm_add_le _ _).trans ?_
  have h3 : (6 * M + 3) * (h * ‖slopes h V j‖) * ‖w j‖ ≤ (6 * M + 3) * (h * M1) * ‖w j‖ := by
    refine mul_le_mul_of_nonneg_right (mul_le_mul_of_nonneg_left ?_ (by positivity)) (norm_nonneg _)
    exact mul_le_mul_of_nonneg_left (hV1 j) hh.le
  calc _ ≤ 3 * (M + 1) ^ 2 * (h * ‖slopes h w j‖) + (6 * M + 3) * (h * M1) * ‖w j‖ := add_le_add h1 (h2.trans h3)
    _ = _ := by ring

/-! ## growth of the norm of a difference -/

theorem abs_rate_le_of₂ (A B E : Fin n → ℂ) {c d : ℝ} (hd : 0 ≤ d) (h : ∀ j, ‖B j‖ ≤ c * ‖A j‖ + d * ‖E j‖) :
    |rate A B| ≤ 2 * c * en A + d * (en A + en E) := by
  unfold rate en
  rw [mul_add, Finset.mul_sum, Finset.mul_sum, Finset.mul_sum, ← Finset.sum_add_distrib, ← Finset.sum_add_distrib]
  refine (Finset.abs_sum_le_sum_abs _ _).trans (Finset.sum_le_sum fun j _ => ?_)
  have h1 := abs_real_inner_le_norm (A j) (B j)
  rw [abs_mul, abs_two]
  have h2 := mul_le_mul_of_nonneg_left (h j) (norm_nonneg (A j))
  have h3 : d * (2 * (‖A j‖ * ‖E j‖)) ≤ d * (‖A j‖ ^ 2 + ‖E j‖ ^ 2) := mul_le_mul_of_nonneg_left (by nlinarith [sq_nonneg (‖A j‖ - ‖E j‖)]) hd
  nlinarith

theorem rate_linear (β : Fin n → ℝ) (g : ℝ) (w : Fin n → ℂ) : rate w (respond (fun k => I * β k + g / 2) w) = g * en w := by
  have h := rate_rhs (β := β) (g := g) (R := fun _ => 0) (fun x j => by simp [Gnlse.toTime, fft, fftshift, ifftshift, roll]) (γ := 0) w
  rw [rhs_split] at h
  rw [← h]
  congr 1
  funext j
  simp

theorem respond_one (x : Fin n → ℂ) : respond (fun _ => 1) x = x := by
  unfold respond
  simp only [one_mul]
  exact toTime_toFreq x

theorem rhs_one (β : Fin n → ℝ) (g γ : ℝ) (U : Fin n → ℂ) :
    Gnlse.rhs β g (fun _ => 1) γ U = respond (fun k => I * β k + g / 2) U + fun j => I * γ * cube (U j) := by
  rw [rhs_split, respond_one]
  funext j
  simp only [Pi.add_apply, power, cube]
  ring

/-- growth rate in the estimate of the error -/
noncomputable def growth1 (g γ M M1 : ℝ) : ℝ := |g| + |γ| * (6 * (M + 1) ^ 2 + (6 * M + 3) * M1) + 1

theorem rate_sobolev (β : Fin n → ℝ) (g γ : ℝ) {h M M1 : ℝ} (hh : 0 < h) (hM : 0 ≤ M) (hM1 : 0 ≤ M1) {U V r : Fin n → ℂ} (hV : ∀ j, ‖V j‖ ≤ M)
    (hV1 : ∀ j, ‖slopes h V j‖ ≤ M1) (hU : ∀ j, ‖U j - V j‖ ≤ 1) :
    |rate (U - V) (Gnlse.rhs β g (fun _ => 1) γ U - (Gnlse.rhs β g (fun _ => 1) γ V + r)) +
      rate (slopes h (U - V)) (slopes h (Gnlse.rhs β g (fun _ => 1) γ U - (Gnlse.rhs β g (fun _ => 1) γ V + r)))| ≤
      growth1 g γ M M1 * (en (U - V) + en (slopes h (U - V))) + (en r + en (slopes h r)) := by
  set w := U - V with hw
  set N : Fin n → ℂ := fun j => I * γ * (cube (U j) - cube (V j)) with hN
  have hsplit : Gnlse.rhs β g (fun _ => 1) γ U - (Gnlse.rhs β g (fun _ => 1) γ V + r) = respond (fun k => I * β k + g / 2) w + N + -r := by
    rw [rhs_one, rhs_one, hw, respond_sub]
    funext j
    simp only [hN, Pi.add_apply, Pi.sub_apply, Pi.neg_apply]
    ring
  have hUM : ∀ j, ‖U j‖ ≤ M + 1 := fun j => by
    have := norm_add_le (V j) (U j - V j)
    rw [add_sub_cancel] at this
    linarith [hV j, hU j]
  rw [hsplit, slopes_add, slopes_add, slopes_neg, slopes_respond, rate_add, rate_add, rate_add, rate_add, rate_linear, rate_linear]
  have h1 : |rate w N| ≤ 2 * (|γ| * (3 * (M + 1) ^ 2)) * en w := by
    refine abs_rate_le_of _ _ fun j => ?_
    have := cube_lip (hUM j) ((hV j).trans (by linarith : M ≤ M + 1))
    simp only [hN, norm_mul, norm_I, one_mul, norm_real, Real.norm_eq_abs]
    rw [mul_assoc]
    exact mul_le_mul_of_nonneg_left this (abs_nonneg _)
  have h2 : |rate (slopes h w) (slopes h N)| ≤ 2 * (|γ| * (3 * (M + 1) ^ 2)) * en (slopes h w) + |γ| * ((6 * M + 3) * M1) * (en (slopes h w) + en w) := by
    refine abs_rate_le_of₂ _ _ _ (by positivity) fun j => ?_
    have := cube_slopes hh hV hV1 hU j
    have e : slopes h N j = I * γ * slopes h (fun j => cube (U j) - cube (V j)) j := by
      simp only [slopes, hN]
      ring
    rw [e, norm_mul, norm_mul, norm_I, one_mul, norm_real, Real.norm_eq_abs]
    calc |γ| * ‖slopes h (fun j => cube (U j) - cube (V j)) j‖ ≤ |γ| * (3 * (M + 1) ^ 2 * ‖slopes h w j‖ + (6 * M + 3) * M1 * ‖w j‖) :=
          mul_le_mul_of_nonneg_left this (abs_nonneg _)
      _ = _ := by ring
  have h3 : |rate w (-r)| ≤ en w + en r := by
    have := abs_rate_le w (-r) one_pos
    have e : en (-r) = en r := by simp [en]
    rwa [e, one_mul, div_one] at this
  have h4 : |rate (slopes h w) (-slopes h r)| ≤ en (slopes h w) + en (slopes h r) := by
    have := abs_rate_le (slopes h w) (-slopes h r) one_pos
    have e : en (-slopes h r) = en (slopes h r) := by simp [en]
    rwa [e, one_mul, div_one] at this
  have h5 : |g * en w| ≤ |g| * en w := by rw [abs_mul, abs_of_nonneg (en_nonneg w)]
  have h6 : |g * en (slopes h w)| ≤ |g| * en (slopes h w) := by rw [abs_mul, abs_of_nonneg (en_nonneg _)]
  have t1 := abs_add_le (g * en w + rate w N + rate w (-r)) (g * en (slopes h w) + rate (slopes h w) (slopes h N) + rate (slopes h w) (-slopes h r))
  have t2 := abs_add_le (g * en w + rate w N) (rate w (-r))
  have t3 := abs_add_le (g * en w) (rate w N)
  have t4 := abs_add_le (g * en (slopes h w) + rate (slopes h w) (slopes h N)) (rate (slopes h w) (-slopes h r))
  have t5 := abs_add_le (g * en (slopes h w)) (rate (slopes h w) (slopes h N))
  unfold growth1
  have e : (|g| + |γ| * (6 * (M + 1) ^ 2 + (6 * M + 3) * M1) + 1) * (en w + en (slopes h w)) + (en r + en (slopes h r)) =
      |g| * en w + |g| * en (slopes h w) + 2 * (|γ| * (3 * (M + 1) ^ 2)) * en w + (2 * (|γ| * (3 * (M + 1) ^ 2)) * en (slopes h w) +
        |γ| * ((6 * M + 3) * M1) * (en (slopes h w) + en w)) + (en w + en r) + (en (slopes h w) + en (slopes h r)) := by ring
  rw [e]
  linarith

/-- a quantity that obeys a linear bound as long as it is below `c` stays below `c` -/
theorem barrier {S S' : ℝ → ℝ} {L a d e c : ℝ} (hL : 0 ≤ L) (hder : ∀ z ∈ Icc 0 L, HasDerivAt S (S' z) z) (hS : ∀ z, 0 ≤ S z) (h0 : S 0 ≤ d) (ha : 1 ≤ a)
    (he : 0 ≤ e) (hb : ∀ z ∈ Icc 0 L, S z ≤ c → |S' z| ≤ a * S z + e) (hsmall : (d + e) * Real.exp (a * L) < c) :
    ∀ z ∈ Icc 0 L, S z ≤ (d + e) * Real.exp (a * L) := by
  have hd : 0 ≤ d := (hS 0).trans h0
  have hcont : ContinuousOn S (Icc 0 L) := fun z hz => (hder z hz).continuousAt.continuousWithinAt
  have hstep : ∀ y ∈ Icc 0 L, (∀ z ∈ Ico 0 y, S z ≤ c) → ∀ z ∈ Icc 0 y, S z ≤ (d + e) * Real.exp (a * L) := by
    intro y hy hle z hz
    have := norm_le_gronwallBound_of_norm_deriv_right_le (f := S) (f' := S') (δ := d) (K := a) (ε := e)
      (a := 0) (b := y) (hcont.mono (Icc_subset_Icc_right hy.2)) (fun t ht => (hder t ⟨ht.1, ht.2.le.trans hy.2⟩).hasDerivWithinAt)
      (by rw [Real.norm_eq_abs, abs_of_nonneg (hS 0)]; exact h0) (fun t ht => by
        rw [Real.norm_eq_abs, Real.norm_eq_abs, abs_of_nonneg (hS t)]
        exact hb t ⟨ht.1, ht.2.le.trans hy.2⟩ (hle t ht)) z hz
    rw [Real.norm_eq_abs, abs_of_nonneg (hS z), gronwallBound_of_K_ne_0 (by linarith), sub_zero] at this
    refine this.trans ?_
    have h1 : Real.exp (a * z) ≤ Real.exp (a * L) := Real.exp_le_exp.2 (mul_le_mul_of_nonneg_left (hz.2.trans hy.2) (by linarith))
    have h2 : e / a ≤ e := div_le_self he ha
    have h3 : 1 ≤ Real.exp (a * z) := Real.one_le_exp (mul_nonneg (by linarith) hz.1)
    have h4 : d * Real.exp (a * z) ≤ d * Real.exp (a * L) := mul_le_mul_of_nonneg_left h1 hd
    have h5 : e / a * (Real.exp (a * z) - 1) ≤ e * Real.exp (a * L) := mul_le_mul h2 (by linarith) (by linarith) he
    rw [add_mul]
    exact add_le_add h4 h5
  have hall : ∀ z ∈ Icc 0 L, S z ≤ c := by
    by_contra hcon
    push Not at hcon
    obtain ⟨z1, hz1, hgt⟩ := hcon
    set A := {z | z ∈ Icc 0 L ∧ c ≤ S z} with hA
    have hAc : IsCompact A := by
      have : A = Icc 0 L ∩ S ⁻¹' Ici c := by ext z; simp [hA]
      rw [this]
      exact isCompact_Icc.of_isClosed_subset (hcont.preimage_isClosed_of_isClosed isClosed_Icc isClosed_Ici) inter_subset_left
    have hAn : A.Nonempty := ⟨z1, hz1, hgt.le⟩
    obtain ⟨y, hyA, hmin⟩ := hAc.exists_isLeast hAn
    have := hstep y hyA.1 (fun z hz => by
      by_contra hc
      have : z ∈ A := ⟨⟨hz.1, hz.2.le.trans hyA.1.2⟩, (not_le.1 hc).le⟩
      linarith [hmin this, hz.2]) y ⟨hyA.1.1, le_refl _⟩
    linarith [hyA.2]
  intro z hz
  exact hstep L ⟨hL, le_refl _⟩ (fun z hz => hall z ⟨hz.1, hz.2.le⟩) z hz

theorem slopes_hasDerivAt (h : ℝ) {Y : ℝ → Fin n → ℂ} {Y' : Fin n → ℂ} {z : ℝ} (hY : HasDerivAt Y Y' z) :
    HasDerivAt (fun z => slopes h (Y z)) (slopes h Y') z := by
  rw [hasDerivAt_pi] at hY ⊢
  intro j
  exact ((hY (next j)).sub (hY j)).div_const (h : ℂ)

/-- Two fields that satisfy the equation on the grid up to a residual, and that are close at the start, stay close. -/
theorem stable_sobolev {β : Fin n → ℝ} {g γ M M1 L T d e : ℝ} (hn : 0 < n) (hT : 0 < T) (hL : 0 ≤ L) (hM : 0 ≤ M) (hM1 : 0 ≤ M1) {U V r : ℝ → Fin n → ℂ}
    (hU : ∀ z ∈ Icc 0 L, HasDerivAt U (Gnlse.rhs β g (fun _ => 1) γ (U z)) z)
    (hV : ∀ z ∈ Icc 0 L, HasDerivAt V (Gnlse.rhs β g (fun _ => 1) γ (V z) + r z) z) (hVM : ∀ z ∈ Icc 0 L, ∀ j, ‖V z j‖ ≤ M)
    (hVM1 : ∀ z ∈ Icc 0 L, ∀ j, ‖slopes (T / n) (V z) j‖ ≤ M1) (hr : ∀ z ∈ Icc 0 L, sobolev T (r z) ≤ e) (h0 : sobolev T (U 0 - V 0) ≤ d)
    (hsmall : (1 + 1 / T) * ((d + e) * Real.exp (growth1 g γ M M1 * L)) < 1) :
    ∀ z ∈ Icc 0 L, sobolev T (U z - V z) ≤ (d + e) * Real.exp (growth1 g γ M M1 * L) := by
  have hn' : (0 : ℝ) < n := by exact_mod_cast hn
  have hpos : 0 < T / n := by positivity
  have hc : 0 < 1 + 1 / T := by positivity
  have ha : 1 ≤ growth1 g γ M M1 := by
    unfold growth1
    have : 0 ≤ |g| + |γ| * (6 * (M + 1) ^ 2 + (6 * M + 3) * M1) := by positivity
    linarith
  refine barrier (S' := fun z => T / n * (rate (U z - V z) (Gnlse.rhs β g (fun _ => 1) γ (U z) - (Gnlse.rhs β g (fun _ => 1) γ (V z) + r z)) +
      rate (slopes (T / n) (U z - V z)) (slopes (T / n) (Gnlse.rhs β g (fun _ => 1) γ (U z) - (Gnlse.rhs β g (fun _ => 1) γ (V z) + r z)))))
    (c := 1 / (1 + 1 / T)) hL (fun z hz => ?_) (fun z => sobolev_nonneg hT.le _) h0 ha ((sobolev_nonneg hT.le _).trans (hr 0 ⟨le_refl _, hL⟩)) (fun z hz hle => ?_) ?_
  · have h1 := (hU z hz).sub (hV z hz)
    have h2 := ((en_hasDerivAt h1).add (en_hasDerivAt (slopes_hasDerivAt (T / n) h1))).const_mul (T / n)
    refine h2.congr_of_eventuallyEq (Filter.Eventually.of_forall fun y => ?_)
    exact sobolev_eq T _
  · have h1 := rate_sobolev β g γ hpos hM hM1 (U := U z) (V := V z) (r := r z) (hVM z hz) (hVM1 z hz) (fun j => by
      have h2 := sq_le_sobolev hT (U z - V z) j
      have h3 : (1 + 1 / T) * sobolev T (U z - V z) ≤ 1 := by
        rw [le_div_iff₀ hc] at hle
        linarith
      rw [Pi.sub_apply] at h2
      nlinarith [norm_nonneg (U z j - V z j)])
    rw [abs_mul, abs_of_pos hpos]
    have h2 := mul_le_mul_of_nonneg_left h1 hpos.le
    refine h2.trans ?_
    have h3 := hr z hz
    rw [sobolev_eq] at h3 ⊢
    nlinarith
  · rw [lt_div_iff₀ hc]
    linarith

end PyNLO.Nlse
