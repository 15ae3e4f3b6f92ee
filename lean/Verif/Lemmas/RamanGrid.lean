import Verif.Lemmas.NlseStable
import Mathlib.Analysis.Calculus.MeanValue
import Mathlib.MeasureTheory.Integral.IntervalIntegral.FundThmCalculus

/-! # The delayed response as a sum over the grid and as an integral -/

namespace PyNLO.Nlse

open Complex Set OdeGlobal Alias MeasureTheory

variable {n : ℕ}

/-! ## Riemann sums -/

theorem riemann {f : ℝ → ℝ} {d D : ℝ} (hd : 0 ≤ d) (hD : 0 ≤ D) (h : ℕ) (hc : ContinuousOn f (Icc 0 (h * d)))
    (hL : ∀ s ∈ Icc 0 (h * d), ∀ s' ∈ Icc 0 (h * d), |f s - f s'| ≤ D * |s - s'|) :
    |(∫ s in (0 : ℝ)..h * d, f s) - d * ∑ m ∈ Finset.range h, f (m * d)| ≤ D * d * (h * d) := by
  have hmono : ∀ m : ℕ, m < h → Icc ((m : ℝ) * d) ((m + 1 : ℕ) * d) ⊆ Icc 0 (h * d) := by
    intro m hm s hs
    have h1 : (m : ℝ) + 1 ≤ h := by exact_mod_cast hm
    have h2 : ((m + 1 : ℕ) : ℝ) * d ≤ h * d := by push_cast; exact mul_le_mul_of_nonneg_right h1 hd
    exact ⟨le_trans (by positivity) hs.1, hs.2.trans h2⟩
  have hle : ∀ m : ℕ, (m : ℝ) * d ≤ (m + 1 : ℕ) * d := fun m => mul_le_mul_of_nonneg_right (by push_cast; linarith) hd
  have hint : ∀ m < h, IntervalIntegrable f volume ((m : ℝ) * d) ((m + 1 : ℕ) * d) := fun m hm =>
    (hc.mono (by rw [uIcc_of_le (hle m)]; exact hmono m hm)).intervalIntegrable
  have hsum := intervalIntegral.sum_integral_adjacent_intervals (a := fun m : ℕ => (m : ℝ) * d) (n := h) hint
  simp only [Nat.cast_zero, zero_mul] at hsum
  rw [← hsum, Finset.mul_sum, ← Finset.sum_sub_distrib]
  refine (Finset.abs_sum_le_sum_abs _ _).trans ?_
  have hterm : ∀ m ∈ Finset.range h, |(∫ s in ((m : ℝ) * d)..((m + 1 : ℕ) * d), f s) - d * f (m * d)| ≤ D * d * d := by
    intro m hm
    have hm' := Finset.mem_range.1 hm
    have hw : ((m + 1 : ℕ) : ℝ) * d - m * d = d := by push_cast; ring
    have e : d * f (m * d) = ∫ _s in ((m : ℝ) * d)..((m + 1 : ℕ) * d), f (m * d) := by
      rw [intervalIntegral.integral_const, hw, smul_eq_mul]
    rw [e, ← intervalIntegral.integral_sub (hint m hm') intervalIntegrable_const]
    have := intervalIntegral.norm_integral_le_of_norm_le_const (a := (m : ℝ) * d) (b := (m + 1 : ℕ) * d) (f := fun s => f s - f (m * d)) (C := D * d)
      (fun s hs => by
        rw [uIoc_of_le (hle m)] at hs
        have hs' : s ∈ Icc ((m : ℝ) * d) ((m + 1 : ℕ) * d) := ⟨hs.1.le, hs.2⟩
        rw [Real.norm_eq_abs]
        refine (hL s (hmono m hm' hs') _ (hmono m hm' (left_mem_Icc.2 (hle m)))).trans ?_
        refine mul_le_mul_of_nonneg_left ?_ hD
        rw [abs_of_nonneg (by linarith [hs.1])]
        linarith [hs.2])
    rw [Real.norm_eq_abs, hw, abs_of_nonneg hd] at this
    exact this
  refine (Finset.sum_le_sum hterm).trans (le_of_eq ?_)
  simp
  ring

theorem lipschitz_of_contDiff {k : ℝ → ℝ} (hk : ContDiff ℝ 1 k) (X : ℝ) :
    ∃ D, 0 ≤ D ∧ ∀ s ∈ Icc 0 X, ∀ s' ∈ Icc 0 X, |k s - k s'| ≤ D * |s - s'| := by
  obtain ⟨D, hD⟩ := isCompact_Icc.exists_bound_of_continuousOn (s := Icc 0 X) (hk.continuous_deriv le_rfl).continuousOn
  refine ⟨max D 0, le_max_right _ _, fun s hs s' hs' => ?_⟩
  have := (convex_Icc 0 X).norm_image_sub_le_of_norm_deriv_le (f := k) (C := max D 0) (fun x _ => hk.differentiable (by norm_num) x)
    (fun x hx => (hD x hx).trans (le_max_left _ _)) hs' hs
  simpa only [Real.norm_eq_abs] using this

theorem bounded_of_continuous {k : ℝ → ℝ} (hk : Continuous k) (X : ℝ) : ∃ B, 0 ≤ B ∧ ∀ s ∈ Icc 0 X, |k s| ≤ B := by
  obtain ⟨B, hB⟩ := isCompact_Icc.exists_bound_of_continuousOn (s := Icc 0 X) hk.continuousOn
  exact ⟨max B 0, le_max_right _ _, fun s hs => (hB s hs).trans (le_max_left _ _)⟩

theorem sum_half {M : Type*} [AddCommMonoid M] (n : ℕ) (F : ℕ → M) :
    (∑ m : Fin n, if (m : ℕ) < n / 2 then F m else 0) = ∑ m ∈ Finset.range (n / 2), F m := by
  rw [Fin.sum_univ_eq_sum_range (fun m => if m < n / 2 then F m else 0) n, ← Finset.sum_filter]
  congr 1
  ext m
  simp only [Finset.mem_filter, Finset.mem_range]
  omega

/-! ## Convolutions on the grid -/

/-- circular convolution -/
noncomputable def conv (c x : Fin n → ℂ) : Fin n → ℂ := fun j => ∑ m : Fin n, c m * x (rollIdx ((m : ℕ) : ℤ) j)

theorem conv_sup {c x : Fin n → ℂ} {M : ℝ} (hx : ∀ j, ‖x j‖ ≤ M) (j : Fin n) : ‖conv c x j‖ ≤ (∑ m, ‖c m‖) * M := by
  unfold conv
  refine (norm_sum_le _ _).trans ?_
  rw [Finset.sum_mul]
  refine Finset.sum_le_sum fun m _ => ?_
  rw [norm_mul]
  exact mul_le_mul_of_nonneg_left (hx _) (norm_nonneg _)

theorem conv_sq (c x : Fin n → ℂ) : en (conv c x) ≤ (∑ m, ‖c m‖) ^ 2 * en x := by
  have h1 : ∀ j, ‖conv c x j‖ ^ 2 ≤ (∑ m, ‖c m‖) * ∑ m : Fin n, ‖c m‖ * ‖x (rollIdx ((m : ℕ) : ℤ) j)‖ ^ 2 := by
    intro j
    have h2 : ‖conv c x j‖ ≤ ∑ m : Fin n, √‖c m‖ * (√‖c m‖ * ‖x (rollIdx ((m : ℕ) : ℤ) j)‖) := by
      unfold conv
      refine (norm_sum_le _ _).trans (le_of_eq (Finset.sum_congr rfl fun m _ => ?_))
      rw [norm_mul, ← mul_assoc, Real.mul_self_sqrt (norm_nonneg _)]
    have h3 := Finset.sum_mul_sq_le_sq_mul_sq Finset.univ (fun m : Fin n => √‖c m‖) (fun m : Fin n => √‖c m‖ * ‖x (rollIdx ((m : ℕ) : ℤ) j)‖)
    refine (pow_le_pow_left₀ (norm_nonneg _) h2 2).trans (h3.trans (le_of_eq ?_))
    simp only [mul_pow, Real.sq_sqrt (norm_nonneg _)]
  calc en (conv c x) ≤ ∑ j : Fin n, (∑ m, ‖c m‖) * ∑ m : Fin n, ‖c m‖ * ‖x (rollIdx ((m : ℕ) : ℤ) j)‖ ^ 2 := Finset.sum_le_sum fun j _ => h1 j
    _ = (∑ m, ‖c m‖) * ∑ m : Fin n, ‖c m‖ * ∑ j : Fin n, ‖x (rollIdx ((m : ℕ) : ℤ) j)‖ ^ 2 := by
        rw [← Finset.mul_sum, Finset.sum_comm]
        simp only [Finset.mul_sum]
    _ = (∑ m, ‖c m‖) * ∑ m : Fin n, ‖c m‖ * en x := by
        congr 1
        refine Finset.sum_congr rfl fun m _ => ?_
        congr 1
        exact sum_roll ((m : ℕ) : ℤ) fun j => ‖x j‖ ^ 2
    _ = _ := by
        rw [← Finset.sum_mul]
        ring

/-! ## The response of the solver -/

/-- the response as the solver computes it: fraction `f`, kernel `k`, step `d`, normalisation `Z` -/
noncomputable def gridResponse (f : ℝ) (k : ℝ → ℝ) (d Z : ℝ) (x : Fin n → ℂ) : Fin n → ℂ := fun j => ((1 - f : ℝ) : ℂ) * x j +
  ((f * d : ℝ) : ℂ) * ∑ m : Fin n, if (m : ℕ) < n / 2 then ((k ((m : ℕ) * d) / Z : ℝ) : ℂ) * x (rollIdx ((m : ℕ) : ℤ) j) else 0

/-- the normalisation -/
noncomputable def gridArea (n : ℕ) (k : ℝ → ℝ) (d : ℝ) : ℝ :=
  d * (∑ m : Fin n, (if (m : ℕ) < n / 2 then k ((m : ℕ) * d) else 0) - k (((n / 2 - 1 : ℕ) : ℝ) * d) / 2)

theorem half_width (he : n % 2 = 0) (hn : 0 < n) (T : ℝ) : ((n / 2 : ℕ) : ℝ) * (T / n) = T / 2 := by
  have : ((n / 2 : ℕ) : ℝ) = (n : ℝ) / 2 := by rw [Nat.cast_div (by omega) (by norm_num)]; norm_num
  have hn' : (n : ℝ) ≠ 0 := by positivity
  rw [this]
  field_simp

theorem area_error {k : ℝ → ℝ} {T B D : ℝ} (hT : 0 < T) (hk : Continuous k) (hB : ∀ s ∈ Icc 0 (T / 2), |k s| ≤ B) (hD : 0 ≤ D)
    (hL : ∀ s ∈ Icc 0 (T / 2), ∀ s' ∈ Icc 0 (T / 2), |k s - k s'| ≤ D * |s - s'|) (hn : 0 < n) (he : n % 2 = 0) :
    |gridArea n k (T / n) - ∫ s in (0 : ℝ)..T / 2, k s| ≤ (D * (T / 2) + B / 2) * (T / n) := by
  have hn' : (0 : ℝ) < n := by exact_mod_cast hn
  have hw := half_width he hn T
  have h1 := riemann (f := k) (d := T / n) (by positivity) hD (n / 2) hk.continuousOn (by rw [hw]; exact hL)
  rw [hw] at h1
  unfold gridArea
  rw [sum_half n fun m => k (m * (T / n))]
  have hlast : (((n / 2 - 1 : ℕ) : ℝ) * (T / n)) ∈ Icc 0 (T / 2) := by
    refine ⟨by positivity, ?_⟩
    rw [← hw]
    exact mul_le_mul_of_nonneg_right (by exact_mod_cast Nat.sub_le _ _) (by positivity)
  have h2 := hB _ hlast
  have hd : 0 < T / n := by positivity
  rw [abs_le] at h1 h2 ⊢
  constructor <;> nlinarith [h1.1, h1.2, h2.1, h2.2]

theorem gridResponse_eq (f : ℝ) (k : ℝ → ℝ) (d Z : ℝ) (x : Fin n → ℂ) : gridResponse f k d Z x = conv (fun m : Fin n =>
    (if (m : ℕ) = 0 then ((1 - f : ℝ) : ℂ) else 0) + if (m : ℕ) < n / 2 then ((f * d * (k ((m : ℕ) * d) / Z) : ℝ) : ℂ) else 0) x := by
  funext j
  have hpos : 0 < n := by have := j.isLt; omega
  unfold gridResponse conv
  simp only [add_mul, Finset.sum_add_distrib]
  congr 1
  · rw [Finset.sum_eq_single (⟨0, hpos⟩ : Fin n)]
    · simp [rollIdx_zero]
    · intro m _ hm
      rw [if_neg (fun h => hm (Fin.ext h)), zero_mul]
    · intro h; exact absurd (Finset.mem_univ _) h
  · rw [Finset.mul_sum]
    refine Finset.sum_congr rfl fun m _ => ?_
    split_ifs
    · push_cast; ring
    · simp

/-- bound of the response -/
noncomputable def respC (f T B A : ℝ) : ℝ := |1 - f| + |f| * (T * B / A) + 1

theorem gridResponse_bounded {R : Fin n → ℂ} {f : ℝ} {k : ℝ → ℝ} {T B A Z : ℝ} (hT : 0 < T) (hn : 0 < n) (he : n % 2 = 0)
    (hB0 : 0 ≤ B) (hB : ∀ s ∈ Icc 0 (T / 2), |k s| ≤ B) (hA : 0 < A) (hZ : A / 2 ≤ Z) (hR : ∀ x, respond R x = gridResponse f k (T / n) Z x) :
    Bounded R (respC f T B A) := by
  have hn' : (0 : ℝ) < n := by exact_mod_cast hn
  have hZ0 : 0 < Z := by linarith
  set c : Fin n → ℂ := fun m => (if (m : ℕ) = 0 then ((1 - f : ℝ) : ℂ) else 0) +
    if (m : ℕ) < n / 2 then ((f * (T / n) * (k ((m : ℕ) * (T / n)) / Z) : ℝ) : ℂ) else 0 with hc
  have hsum : ∑ m, ‖c m‖ ≤ respC f T B A := by
    have h1 : ∀ m : Fin n, ‖c m‖ ≤ (if (m : ℕ) = 0 then |1 - f| else 0) + if (m : ℕ) < n / 2 then |f| * (T / n) * (B / (A / 2)) else 0 := by
      intro m
      refine (norm_add_le _ _).trans (add_le_add ?_ ?_)
      · split_ifs <;> simp [norm_real, ← ofReal_one, ← ofReal_sub]
      · split_ifs with hm
        · have hmem : ((m : ℕ) : ℝ) * (T / n) ∈ Icc 0 (T / 2) := by
            refine ⟨by positivity, ?_⟩
            rw [← half_width he hn T]
            exact mul_le_mul_of_nonneg_right (by exact_mod_cast hm.le) (by positivity)
          rw [norm_real, Real.norm_eq_abs, abs_mul, abs_mul, abs_of_pos (by positivity : 0 < T / n), abs_div, abs_of_pos hZ0]
          refine mul_le_mul_of_nonneg_left ?_ (by positivity)
          exact div_le_div₀ hB0 (hB _ hmem) (by linarith) hZ
        · simp
    refine (Finset.sum_le_sum fun m _ => h1 m).trans ?_
    rw [Finset.sum_add_distrib]
    have e1 : (∑ m : Fin n, if (m : ℕ) = 0 then |1 - f| else 0) = |1 - f| := by
      rw [Finset.sum_eq_single (⟨0, hn⟩ : Fin n)]
      · simp
      · intro m _ hm
        rw [if_neg fun h => hm (Fin.ext h)]
      · intro h; exact absurd (Finset.mem_univ _) h
    have e2 : (∑ m : Fin n, if (m : ℕ) < n / 2 then |f| * (T / n) * (B / (A / 2)) else 0) = |f| * (T * B / A) := by
      rw [sum_half n fun _ => |f| * (T / n) * (B / (A / 2))]
      simp only [Finset.sum_const, Finset.card_range, nsmul_eq_mul]
      have := half_width he hn T
      calc ((n / 2 : ℕ) : ℝ) * (|f| * (T / n) * (B / (A / 2))) = |f| * (((n / 2 : ℕ) : ℝ) * (T / n)) * (B / (A / 2)) := by ring
        _ = _ := by rw [this]; field_simp
    rw [e1, e2]
    unfold respC
    linarith
  have hK : 0 < respC f T B A := by unfold respC; positivity
  have hS : 0 ≤ ∑ m, ‖c m‖ := Finset.sum_nonneg fun _ _ => norm_nonneg _
  refine ⟨hK, fun x M hM j => ?_, fun x => ?_⟩
  · rw [hR, gridResponse_eq]
    have hM0 : 0 ≤ M := (norm_nonneg _).trans (hM j)
    exact (conv_sup hM j).trans (mul_le_mul_of_nonneg_right hsum hM0)
  · rw [hR, gridResponse_eq]
    exact (conv_sq _ _).trans (mul_le_mul_of_nonneg_right (pow_le_pow_left₀ hS hsum 2) (en_nonneg _))

/-- a delayed sample of a periodic function -/
theorem time_roll {T : ℝ} {P : ℝ → ℝ} (hP : Function.Periodic P T) {m : ℕ} (hm : m ≤ n) (j : Fin n) :
    P (time T n (rollIdx ((m : ℕ) : ℤ) j)) = P (time T n j - m * (T / n)) := by
  have hj := j.isLt
  have hn' : (n : ℝ) ≠ 0 := by
    have : 0 < n := by omega
    positivity
  have hc := rollIdx_coe ((m : ℕ) : ℤ) j
  unfold time
  by_cases h : m ≤ (j : ℕ)
  · have e : ((rollIdx ((m : ℕ) : ℤ) j : Fin n) : ℕ) = j - m := by
      rw [Int.emod_eq_of_lt (by omega) (by omega)] at hc
      omega
    rw [e, Nat.cast_sub h]
    congr 1
    ring
  · have e : ((rollIdx ((m : ℕ) : ℤ) j : Fin n) : ℕ) = j + n - m := by
      rw [← Int.add_emod_right, Int.emod_eq_of_lt (by omega) (by omega)] at hc
      omega
    rw [e, Nat.cast_sub (by omega), Nat.cast_add, ← hP (((j : ℕ) - (n : ℝ) / 2) * (T / n) - m * (T / n))]
    congr 1
    field_simp
    ring

theorem response_error {f : ℝ} {k P : ℝ → ℝ} {T B D A Z M E : ℝ} (hT : 0 < T) (hn : 0 < n) (he : n % 2 = 0) (hk : Continuous k)
    (hB0 : 0 ≤ B) (hB : ∀ s ∈ Icc 0 (T / 2), |k s| ≤ B) (hD : 0 ≤ D)
    (hL : ∀ s ∈ Icc 0 (T / 2), ∀ s' ∈ Icc 0 (T / 2), |k s - k s'| ≤ D * |s - s'|) (hAdef : A = ∫ s in (0 : ℝ)..T / 2, k s) (hA : 0 < A)
    (hZdef : Z = gridArea n k (T / n)) (hZ : A / 2 ≤ Z) (hP : Function.Periodic P T) (hPc : Continuous P) (hM0 : 0 ≤ M) (hM : ∀ t, |P t| ≤ M)
    (hE0 : 0 ≤ E) (hE : ∀ t t', |P t - P t'| ≤ E * |t - t'|) (j : Fin n) :
    ‖((response f k T P (time T n j) : ℝ) : ℂ) - gridResponse f k (T / n) Z (fun i => ((P (time T n i) : ℝ) : ℂ)) j‖ ≤
      |f| * ((D * M + B * E) * T / A + B * M * T * (D * (T / 2) + B / 2) / A ^ 2) * (T / n) := by
  have hn' : (0 : ℝ) < n := by exact_mod_cast hn
  have hZ0 : 0 < Z := by linarith
  have hd : 0 < T / n := by positivity
  set t := time T n j with ht
  set d := T / n with hdd
  have hw := half_width he hn T
  rw [← hdd] at hw
  set S := d * ∑ m ∈ Finset.range (n / 2), k (m * d) * P (t - m * d) with hS
  set J := ∫ s in (0 : ℝ)..T / 2, k s * P (t - s) with hJ
  have e1 : gridResponse f k d Z (fun i => ((P (time T n i) : ℝ) : ℂ)) j = (((1 - f) * P t + f * (S / Z) : ℝ) : ℂ) := by
    unfold gridResponse
    have : (∑ m : Fin n, if (m : ℕ) < n / 2 then ((k ((m : ℕ) * d) / Z : ℝ) : ℂ) * ((P (time T n (rollIdx ((m : ℕ) : ℤ) j)) : ℝ) : ℂ) else 0) =
        ((∑ m ∈ Finset.range (n / 2), k (m * d) * P (t - m * d) / Z : ℝ) : ℂ) := by
      rw [ofReal_sum, ← sum_half n fun m => ((k (m * d) * P (t - m * d) / Z : ℝ) : ℂ)]
      refine Finset.sum_congr rfl fun m _ => ?_
      split_ifs with hm
      · rw [time_roll hP (by omega : (m : ℕ) ≤ n) j]
        push_cast
        ring
      · rfl
    rw [this, hS, ← Finset.sum_div]
    push_cast
    ring
  have e2 : response f k T P t = (1 - f) * P t + f * (J / A) := by
    unfold response
    rw [← hAdef]
  rw [e1, e2, ← ofReal_sub, norm_real, Real.norm_eq_abs, show (1 - f) * P t + f * (J / A) - ((1 - f) * P t + f * (S / Z)) = f * (J / A - S / Z) by ring,
    abs_mul, mul_assoc]
  refine mul_le_mul_of_nonneg_left ?_ (abs_nonneg _)
  have h1 : |J - S| ≤ (D * M + B * E) * d * (T / 2) := by
    have hc : Continuous fun s => k s * P (t - s) := hk.mul (hPc.comp (continuous_const.sub continuous_id))
    have := riemann (f := fun s => k s * P (t - s)) (d := d) (D := D * M + B * E) hd.le (by positivity) (n / 2) hc.continuousOn (by
      rw [hw]
      intro s hs s' hs'
      have a1 : k s * P (t - s) - k s' * P (t - s') = (k s - k s') * P (t - s) + k s' * (P (t - s) - P (t - s')) := by ring
      rw [a1]
      refine (abs_add_le _ _).trans ?_
      rw [abs_mul, abs_mul]
      have b1 : |k s - k s'| * |P (t - s)| ≤ D * |s - s'| * M := mul_le_mul (hL s hs s' hs') (hM _) (abs_nonneg _) (by positivity)
      have b2 : |P (t - s) - P (t - s')| ≤ E * |s - s'| := by
        have := hE (t - s) (t - s')
        rwa [show t - s - (t - s') = s' - s by ring, abs_sub_comm s' s] at this
      have b3 : |k s'| * |P (t - s) - P (t - s')| ≤ B * (E * |s - s'|) := mul_le_mul (hB s' hs') b2 (abs_nonneg _) hB0
      linarith)
    rw [hw] at this
    exact this
  have h2 : |J| ≤ B * M * (T / 2) := by
    have := intervalIntegral.norm_integral_le_of_norm_le_const (a := 0) (b := T / 2) (f := fun s => k s * P (t - s)) (C := B * M) (fun s hs => by
      rw [uIoc_of_le (by positivity)] at hs
      rw [norm_mul]
      exact mul_le_mul (hB s ⟨hs.1.le, hs.2⟩) (hM _) (norm_nonneg _) hB0)
    rwa [Real.norm_eq_abs, sub_zero, abs_of_pos (by positivity : 0 < T / 2)] at this
  have h3 := area_error hT hk hB hD hL hn he
  rw [← hZdef, ← hAdef, ← hdd] at h3
  have e3 : J / A - S / Z = (J - S) / Z + J * (Z - A) / (A * Z) := by
    field_simp
    ring
  rw [e3]
  refine (abs_add_le _ _).trans ?_
  rw [abs_div, abs_div, abs_mul, abs_of_pos hZ0, abs_of_pos (by positivity : 0 < A * Z)]
  have c1 : |J - S| / Z ≤ (D * M + B * E) * d * (T / 2) / (A / 2) := div_le_div₀ (by positivity) h1 (by positivity) hZ
  have c2 : |J| * |Z - A| / (A * Z) ≤ B * M * (T / 2) * ((D * (T / 2) + B / 2) * d) / (A * (A / 2)) := by
    refine div_le_div₀ (by positivity) (mul_le_mul h2 h3 (abs_nonneg _) (by positivity)) (by positivity) ?_
    exact mul_le_mul_of_nonneg_left hZ hA.le
  refine (add_le_add c1 c2).trans (le_of_eq ?_)
  field_simp

end PyNLO.Nlse
