import Verif.Props.Modulation
import Mathlib.Analysis.SpecialFunctions.Trigonometric.ArctanDeriv

/-!
# C162, C163: the Hamiltonian, the width of the spectrum and the peak power

Without Raman scattering, self-steepening and gain the equation on the grid conserves the sum of the dispersive and of the nonlinear energy.
-/

namespace PyNLO.Hamiltonian

open Complex Ssfm Pulse Set Nlse OdeGlobal Modulation

variable {n : ℕ}

/-- dispersive energy: `β` averaged over the spectrum -/
noncomputable def dispersive (β : Fin n → ℝ) (U : Fin n → ℂ) : ℝ := ∑ k, β k * ‖Gnlse.toFreq U k‖ ^ 2

/-- mean square of the power -/
noncomputable def quartic (U : Fin n → ℂ) : ℝ := (∑ j, (‖U j‖ ^ 2) ^ 2) / n

/-- the Hamiltonian of the equation without Raman scattering and self-steepening -/
noncomputable def hamiltonian (β : Fin n → ℝ) (γ : ℝ) (U : Fin n → ℂ) : ℝ := dispersive β U + γ / 2 * quartic U

theorem toFreq_hasDerivAt {U : ℝ → Fin n → ℂ} {U' : Fin n → ℂ} {z : ℝ} (h : HasDerivAt U U' z) (k : Fin n) :
    HasDerivAt (fun z => Gnlse.toFreq (U z) k) (Gnlse.toFreq U' k) z := by
  show HasDerivAt (fun z => (1 / (n : ℂ)) * ∑ j : Fin n, fftshift (U z) j * rootE n ((j : ℕ) * ((rollIdx (-((n / 2 : ℕ) : ℤ)) k : Fin n) : ℕ) : ℤ))
    ((1 / (n : ℂ)) * ∑ j : Fin n, fftshift U' j * rootE n ((j : ℕ) * ((rollIdx (-((n / 2 : ℕ) : ℤ)) k : Fin n) : ℕ) : ℤ)) z
  refine HasDerivAt.const_mul _ (HasDerivAt.fun_sum fun j _ => HasDerivAt.mul_const ?_ _)
  exact hasDerivAt_pi.1 h _

/-- the transforms are adjoint up to the number of points -/
theorem adjoint (X V : Fin n → ℂ) : n * ∑ k, Gnlse.toFreq V k * (starRingEnd ℂ) (X k) = ∑ j, V j * (starRingEnd ℂ) (Gnlse.toTime X j) := by
  have h := inner_fft (fftshift (Gnlse.toFreq V)) (fftshift X)
  have e1 : ∑ j, V j * (starRingEnd ℂ) (Gnlse.toTime X j) = ∑ k, fft (fftshift (Gnlse.toFreq V)) k * (starRingEnd ℂ) (fft (fftshift X) k) := by
    have e := sum_roll (-((n / 2 : ℕ) : ℤ)) fun k => fft (fftshift (Gnlse.toFreq V)) k * (starRingEnd ℂ) (fft (fftshift X) k)
    rw [← e]
    refine Finset.sum_congr rfl fun j _ => ?_
    have := congrFun (toTime_toFreq V) j
    conv_lhs => rw [← this]
    rfl
  have e2 : ∑ j, fftshift (Gnlse.toFreq V) j * (starRingEnd ℂ) (fftshift X j) = ∑ k, Gnlse.toFreq V k * (starRingEnd ℂ) (X k) :=
    sum_roll ((n / 2 : ℕ) : ℤ) fun k => Gnlse.toFreq V k * (starRingEnd ℂ) (X k)
  rw [e1, h, e2]

theorem normSq_hasDerivAt {f : ℝ → ℂ} {f' : ℂ} {z : ℝ} (h : HasDerivAt f f' z) :
    HasDerivAt (fun z => ‖f z‖ ^ 2) (2 * (f' * (starRingEnd ℂ) (f z)).re) z := by
  have h1 := h.norm_sq
  refine h1.congr_deriv ?_
  rw [Complex.inner]

theorem hamiltonian_hasDerivAt (hn : 0 < n) {β : Fin n → ℝ} {γ : ℝ} {U : ℝ → Fin n → ℂ} {z : ℝ}
    (h : HasDerivAt U (Gnlse.rhs β 0 (fun _ => 1) γ (U z)) z) : HasDerivAt (fun z => hamiltonian β γ (U z)) 0 z := by
  set U' := Gnlse.rhs β 0 (fun _ => 1) γ (U z) with hU'
  have hn' : (n : ℝ) ≠ 0 := by exact_mod_cast hn.ne'
  have h1 : HasDerivAt (fun z => dispersive β (U z)) (∑ k, β k * (2 * (Gnlse.toFreq U' k * (starRingEnd ℂ) (Gnlse.toFreq (U z) k)).re)) z :=
    HasDerivAt.fun_sum fun k _ => (normSq_hasDerivAt (toFreq_hasDerivAt h k)).const_mul (β k)
  have h2 : HasDerivAt (fun z => quartic (U z)) ((∑ j, 2 * ‖U z j‖ ^ 2 * (2 * (U' j * (starRingEnd ℂ) (U z j)).re)) / n) z := by
    refine HasDerivAt.div_const (HasDerivAt.fun_sum fun j _ => ?_) _
    refine ((normSq_hasDerivAt (hasDerivAt_pi.1 h j)).pow 2).congr_deriv ?_
    simp
  refine (h1.add (h2.const_mul (γ / 2))).congr_deriv ?_
  -- the dispersive part in time
  set B : Fin n → ℂ := Gnlse.toTime fun k => (β k : ℂ) * Gnlse.toFreq (U z) k with hB
  have e1 : ∑ k, β k * (2 * (Gnlse.toFreq U' k * (starRingEnd ℂ) (Gnlse.toFreq (U z) k)).re) = 2 / n * (∑ j, U' j * (starRingEnd ℂ) (B j)).re := by
    rw [hB, ← adjoint]
    rw [show ((n : ℂ) * ∑ k, Gnlse.toFreq U' k * (starRingEnd ℂ) ((β k : ℂ) * Gnlse.toFreq (U z) k)).re =
      n * (∑ k, Gnlse.toFreq U' k * (starRingEnd ℂ) ((β k : ℂ) * Gnlse.toFreq (U z) k)).re by
        rw [show (n : ℂ) = ((n : ℝ) : ℂ) by push_cast; rfl, re_ofReal_mul], re_sum, ← mul_assoc, div_mul_cancel₀ _ hn', Finset.mul_sum]
    refine Finset.sum_congr rfl fun k _ => ?_
    rw [map_mul, conj_ofReal, show Gnlse.toFreq U' k * ((β k : ℂ) * (starRingEnd ℂ) (Gnlse.toFreq (U z) k)) =
      (β k : ℂ) * (Gnlse.toFreq U' k * (starRingEnd ℂ) (Gnlse.toFreq (U z) k)) by ring, re_ofReal_mul]
    ring
  have e2 : γ / 2 * ((∑ j, 2 * ‖U z j‖ ^ 2 * (2 * (U' j * (starRingEnd ℂ) (U z j)).re)) / n) =
      2 / n * (∑ j, U' j * (starRingEnd ℂ) (((γ * ‖U z j‖ ^ 2 : ℝ) : ℂ) * U z j)).re := by
    rw [re_sum, Finset.mul_sum, ← mul_div_assoc, Finset.mul_sum, Finset.sum_div]
    refine Finset.sum_congr rfl fun j _ => ?_
    rw [map_mul, conj_ofReal, show U' j * (((γ * ‖U z j‖ ^ 2 : ℝ) : ℂ) * (starRingEnd ℂ) (U z j)) =
      ((γ * ‖U z j‖ ^ 2 : ℝ) : ℂ) * (U' j * (starRingEnd ℂ) (U z j)) by ring, re_ofReal_mul]
    ring
  rw [e1, e2, ← mul_add, ← add_re, ← Finset.sum_add_distrib]
  have e3 : ∀ j, U' j = I * (B j + ((γ * ‖U z j‖ ^ 2 : ℝ) : ℂ) * U z j) := by
    intro j
    have hr : respond (fun _ => 1) (power (U z)) = power (U z) := by
      unfold respond
      simp only [one_mul]
      exact toTime_toFreq _
    have hl : respond (fun k => I * (β k : ℂ) + ((0 : ℝ) : ℂ) / 2) (U z) = fun j => I * B j := by
      rw [hB, ← toTime_smul]
      unfold respond
      congr 1
      funext k
      push_cast
      ring
    rw [hU', rhs_split, hr, Pi.add_apply, hl]
    simp only [power_eq]
    push_cast
    ring
  have e4 : (∑ j, (U' j * (starRingEnd ℂ) (B j) + U' j * (starRingEnd ℂ) (((γ * ‖U z j‖ ^ 2 : ℝ) : ℂ) * U z j))).re = 0 := by
    rw [re_sum]
    refine Finset.sum_eq_zero fun j _ => ?_
    rw [← mul_add, ← map_add, e3, mul_assoc, mul_conj, I_mul_re, ofReal_im, neg_zero]
  rw [e4, mul_zero]

/-- C162: the equation on the grid conserves the Hamiltonian. -/
theorem C162_conserved (hn : 0 < n) {β : Fin n → ℝ} {γ lo hi : ℝ} {U : ℝ → Fin n → ℂ} (hU : Solves β 0 (fun _ => 1) γ lo hi U) (hlo : lo < 0)
    {z : ℝ} (hz : 0 ≤ z) (hhi : z < hi) : hamiltonian β γ (U z) = hamiltonian β γ (U 0) := by
  have hd : ∀ t ∈ Icc 0 z, HasDerivAt (fun z => hamiltonian β γ (U z)) 0 t := fun t ht => hamiltonian_hasDerivAt hn (hU t ⟨by linarith [ht.1], by linarith [ht.2]⟩)
  exact constant_of_has_deriv_right_zero (fun t ht => (hd t ht).continuousAt.continuousWithinAt)
    (fun t ht => (hd t ⟨ht.1, ht.2.le⟩).hasDerivWithinAt) z ⟨hz, le_refl z⟩

/-- angular frequencies of the bins -/
noncomputable def omega (T : ℝ) (k : Fin n) : ℝ := 2 * Real.pi * ((k : ℕ) - (n : ℝ) / 2) / T

/-- second moment of the spectrum about the centre frequency -/
noncomputable def spread (T : ℝ) (U : Fin n → ℂ) : ℝ := ∑ k, omega T k ^ 2 * ‖Gnlse.toFreq U k‖ ^ 2

/-- mean power -/
noncomputable def meanPower (U : Fin n → ℂ) : ℝ := (∑ j, ‖U j‖ ^ 2) / n

theorem spread_nonneg (T : ℝ) (U : Fin n → ℂ) : 0 ≤ spread T U := Finset.sum_nonneg fun _ _ => by positivity

theorem quartic_nonneg (U : Fin n → ℂ) : 0 ≤ quartic U := div_nonneg (Finset.sum_nonneg fun _ _ => by positivity) (Nat.cast_nonneg n)

theorem meanPower_nonneg (U : Fin n → ℂ) : 0 ≤ meanPower U := div_nonneg (Finset.sum_nonneg fun _ _ => by positivity) (Nat.cast_nonneg n)

theorem meanPower_eq (hn : 0 < n) (U : Fin n → ℂ) : meanPower U = ∑ k, ‖Gnlse.toFreq U k‖ ^ 2 := by
  have h : ∑ j, ‖U j‖ ^ 2 = n * ∑ k, ‖Gnlse.toFreq U k‖ ^ 2 := parseval_fftT U
  have hn' : (n : ℝ) ≠ 0 := by exact_mod_cast hn.ne'
  unfold meanPower
  rw [h, mul_div_cancel_left₀ _ hn']

/-- the mean of the squares is at least the square of the mean -/
theorem sq_meanPower_le (U : Fin n → ℂ) : meanPower U ^ 2 ≤ quartic U := by
  rcases Nat.eq_zero_or_pos n with h | h
  · subst h
    simp [meanPower, quartic]
  have hn' : (0 : ℝ) < n := by exact_mod_cast h
  have h1 := Finset.sum_mul_sq_le_sq_mul_sq (Finset.univ : Finset (Fin n)) (fun j => ‖U j‖ ^ 2) fun _ => (1 : ℝ)
  simp only [mul_one, one_pow, Finset.sum_const, Finset.card_univ, Fintype.card_fin, nsmul_eq_mul] at h1
  unfold meanPower quartic
  rw [div_pow, div_le_div_iff₀ (by positivity) hn']
  nlinarith

theorem quartic_le {U : Fin n → ℂ} {M : ℝ} (hM : ∀ j, ‖U j‖ ^ 2 ≤ M) : quartic U ≤ M * meanPower U := by
  unfold quartic meanPower
  rw [← mul_div_assoc, Finset.mul_sum]
  refine div_le_div_of_nonneg_right (Finset.sum_le_sum fun j _ => ?_) (Nat.cast_nonneg n)
  rw [sq (‖U j‖ ^ 2)]
  exact mul_le_mul_of_nonneg_right (hM j) (by positivity)

theorem dispersive_quadratic {β₂ T : ℝ} {β : Fin n → ℝ} (hβ : ∀ k, β k = β₂ / 2 * omega T k ^ 2) (U : Fin n → ℂ) :
    dispersive β U = β₂ / 2 * spread T U := by
  unfold dispersive spread
  rw [Finset.mul_sum]
  exact Finset.sum_congr rfl fun k _ => by rw [hβ]; ring

theorem meanPower_conserved {β : Fin n → ℝ} {γ lo hi : ℝ} {U : ℝ → Fin n → ℂ} (hU : Solves β 0 (fun _ => 1) γ lo hi U) (hlo : lo < 0)
    {z : ℝ} (hz : 0 ≤ z) (hhi : z < hi) : meanPower (U z) = meanPower (U 0) := by
  have h := solution_energy real_response_one hU hlo hz hhi
  rw [zero_mul, Real.exp_zero, one_mul] at h
  unfold meanPower
  exact congrArg (· / (n : ℝ)) h

/-- C162: with second-order dispersion the spectrum widens exactly as the mean square of the power changes. -/
theorem C162_exchange (hn : 0 < n) {β₂ T : ℝ} {β : Fin n → ℝ} (hβ : ∀ k, β k = β₂ / 2 * omega T k ^ 2) (hβ₂ : β₂ ≠ 0) {γ lo hi : ℝ}
    {U : ℝ → Fin n → ℂ} (hU : Solves β 0 (fun _ => 1) γ lo hi U) (hlo : lo < 0) {z : ℝ} (hz : 0 ≤ z) (hhi : z < hi) :
    spread T (U z) - spread T (U 0) = γ / β₂ * (quartic (U 0) - quartic (U z)) := by
  have h := C162_conserved hn hU hlo hz hhi
  unfold hamiltonian at h
  rw [dispersive_quadratic hβ, dispersive_quadratic hβ] at h
  field_simp
  linarith

/-- C162: with dispersion and nonlinearity of the same sign the spectrum never gets wider than this, over any length. -/
theorem C162_normal (hn : 0 < n) {β₂ T : ℝ} {β : Fin n → ℝ} (hβ : ∀ k, β k = β₂ / 2 * omega T k ^ 2) {γ lo hi : ℝ} (hγ : 0 < γ / β₂)
    {U : ℝ → Fin n → ℂ} (hU : Solves β 0 (fun _ => 1) γ lo hi U) (hlo : lo < 0) {z : ℝ} (hz : 0 ≤ z) (hhi : z < hi) :
    spread T (U z) ≤ spread T (U 0) + γ / β₂ * (quartic (U 0) - meanPower (U 0) ^ 2) := by
  have hβ₂ : β₂ ≠ 0 := fun h => by rw [h] at hγ; simp at hγ
  have h := C162_exchange hn hβ hβ₂ hU hlo hz hhi
  have h1 := sq_meanPower_le (U z)
  rw [meanPower_conserved hU hlo hz hhi] at h1
  have h2 := mul_le_mul_of_nonneg_left h1 hγ.le
  linarith

/-! ## Peak power -/

theorem arctan_sub_ge {x y : ℝ} (hx : 0 ≤ x) (hxy : x ≤ y) : (y - x) / (1 + y ^ 2) ≤ Real.arctan y - Real.arctan x := by
  have hy : 0 ≤ y := hx.trans hxy
  have hm : MonotoneOn (fun t => Real.arctan t - t / (1 + y ^ 2)) (Icc x y) := by
    refine monotoneOn_of_deriv_nonneg (convex_Icc x y) ?_ ?_ ?_
    · exact (Real.continuous_arctan.sub (continuous_id.div_const _)).continuousOn
    · intro t _
      exact ((Real.hasDerivAt_arctan t).sub ((hasDerivAt_id t).div_const _)).differentiableAt.differentiableWithinAt
    · intro t ht
      rw [interior_Icc] at ht
      have hd := ((Real.hasDerivAt_arctan t).sub ((hasDerivAt_id t).div_const (1 + y ^ 2))).deriv
      have e : deriv (fun t => Real.arctan t - t / (1 + y ^ 2)) t = 1 / (1 + t ^ 2) - 1 / (1 + y ^ 2) := hd
      rw [e, sub_nonneg]
      refine one_div_le_one_div_of_le (by positivity) ?_
      have : t ^ 2 ≤ y ^ 2 := pow_le_pow_left₀ (hx.trans ht.1.le) ht.2.le 2
      linarith
  have := hm ⟨le_refl x, hxy⟩ ⟨hxy, le_refl y⟩ hxy
  simp only at this
  rw [sub_div]
  linarith

theorem lorentz_sum {c : ℝ} (hc : 0 < c) (h : ℕ) : ∑ i ∈ Finset.range h, 1 / (1 + (c * ((i : ℝ) + 1)) ^ 2) ≤ Real.pi / (2 * c) := by
  have h1 : ∀ i : ℕ, 1 / (1 + (c * ((i : ℝ) + 1)) ^ 2) ≤ (Real.arctan (c * ((i + 1 : ℕ) : ℝ)) - Real.arctan (c * (i : ℝ))) / c := by
    intro i
    have := arctan_sub_ge (x := c * (i : ℝ)) (y := c * ((i : ℝ) + 1)) (by positivity) (by nlinarith)
    rw [le_div_iff₀ hc]
    push_cast
    refine le_trans (le_of_eq ?_) this
    rw [show c * ((i : ℝ) + 1) - c * i = c by ring]
    ring
  refine (Finset.sum_le_sum fun i _ => h1 i).trans ?_
  rw [← Finset.sum_div, Finset.sum_range_sub (fun i : ℕ => Real.arctan (c * (i : ℝ)))]
  have := (Real.arctan_lt_pi_div_two (c * (h : ℝ))).le
  simp only [Nat.cast_zero, mul_zero, Real.arctan_zero, sub_zero]
  rw [div_le_div_iff₀ hc (by positivity)]
  nlinarith [Real.pi_pos]

/-- sum of a Lorentzian over the bins -/
theorem lorentz_bins (he : n % 2 = 0) {T κ : ℝ} (hT : 0 < T) (hκ : 0 < κ) : ∑ k : Fin n, 1 / (1 + κ ^ 2 * omega T k ^ 2) ≤ 1 + T / (2 * κ) := by
  obtain ⟨h, rfl⟩ : ∃ h, n = h + h := ⟨n / 2, by omega⟩
  have hpi := Real.pi_pos
  set c := 2 * Real.pi * κ / T with hc
  have hc0 : 0 < c := by positivity
  have e : ∀ k : Fin (h + h), 1 / (1 + κ ^ 2 * omega T k ^ 2) = (fun m : ℕ => 1 / (1 + (c * ((m : ℝ) - h)) ^ 2)) k := by
    intro k
    unfold omega
    simp only
    congr 2
    rw [hc]
    push_cast
    ring
  rw [Finset.sum_congr rfl fun k _ => e k, Fin.sum_univ_eq_sum_range (fun m : ℕ => 1 / (1 + (c * ((m : ℝ) - h)) ^ 2)),
    Finset.sum_range_add]
  have e1 : ∑ i ∈ Finset.range h, 1 / (1 + (c * ((i : ℝ) - h)) ^ 2) = ∑ i ∈ Finset.range h, 1 / (1 + (c * ((i : ℝ) + 1)) ^ 2) := by
    rw [← Finset.sum_range_reflect]
    refine Finset.sum_congr rfl fun i hi => ?_
    have hi' := Finset.mem_range.1 hi
    congr 2
    have : ((h - 1 - i : ℕ) : ℝ) = (h : ℝ) - 1 - i := by rw [Nat.sub_sub, Nat.cast_sub (by omega)]; push_cast; ring
    rw [this]
    ring
  have e2 : ∑ i ∈ Finset.range h, 1 / (1 + (c * (((h + i : ℕ) : ℝ) - h)) ^ 2) ≤ 1 + ∑ i ∈ Finset.range h, 1 / (1 + (c * ((i : ℝ) + 1)) ^ 2) := by
    have e3 : ∀ i ∈ Finset.range h, 1 / (1 + (c * (((h + i : ℕ) : ℝ) - h)) ^ 2) = (fun i : ℕ => 1 / (1 + (c * (i : ℝ)) ^ 2)) i := by
      intro i _
      simp only
      congr 2
      push_cast
      ring
    rw [Finset.sum_congr rfl e3]
    have e4 := Finset.sum_range_succ' (fun i : ℕ => 1 / (1 + (c * (i : ℝ)) ^ 2)) h
    have e5 := Finset.sum_range_succ (fun i : ℕ => 1 / (1 + (c * (i : ℝ)) ^ 2)) h
    rw [e5] at e4
    simp only [Nat.cast_zero, mul_zero, ne_eq, OfNat.ofNat_ne_zero, not_false_eq_true, zero_pow, add_zero, div_one] at e4
    have e6 : 0 ≤ 1 / (1 + (c * (h : ℝ)) ^ 2) := by positivity
    push_cast at e4 ⊢
    linarith
  have h3 := lorentz_sum hc0 h
  have e7 : 2 * (Real.pi / (2 * c)) = T / (2 * κ) := by
    rw [hc]
    field_simp
  rw [e1]
  linarith

theorem norm_toTime_le (X : Fin n → ℂ) (j : Fin n) : ‖Gnlse.toTime X j‖ ≤ ∑ k, ‖X k‖ := by
  show ‖fft (fftshift X) _‖ ≤ _
  unfold fft
  refine (norm_sum_le _ _).trans ?_
  have e : ∑ k, ‖fftshift X k‖ = ∑ k, ‖X k‖ := sum_roll ((n / 2 : ℕ) : ℤ) fun k => ‖X k‖
  rw [← e]
  exact Finset.sum_le_sum fun k _ => by rw [norm_mul, norm_rootE, mul_one]

/-- the peak power is bounded by the mean power and the width of the spectrum -/
theorem peak_le (he : n % 2 = 0) {T κ : ℝ} (hT : 0 < T) (hκ : 0 < κ) (U : Fin n → ℂ) (j : Fin n) :
    ‖U j‖ ^ 2 ≤ (meanPower U + κ ^ 2 * spread T U) * (1 + T / (2 * κ)) := by
  have hn : 0 < n := by have := j.isLt; omega
  have h1 : ‖U j‖ ≤ ∑ k, ‖Gnlse.toFreq U k‖ := by
    have := norm_toTime_le (Gnlse.toFreq U) j
    rwa [toTime_toFreq] at this
  have h2 : (∑ k, ‖Gnlse.toFreq U k‖) ^ 2 ≤ (∑ k, (1 + κ ^ 2 * omega T k ^ 2) * ‖Gnlse.toFreq U k‖ ^ 2) * ∑ k : Fin n, 1 / (1 + κ ^ 2 * omega T k ^ 2) := by
    have h3 := Finset.sum_mul_sq_le_sq_mul_sq Finset.univ (fun k : Fin n => Real.sqrt (1 + κ ^ 2 * omega T k ^ 2) * ‖Gnlse.toFreq U k‖)
      (fun k => 1 / Real.sqrt (1 + κ ^ 2 * omega T k ^ 2))
    have e1 : ∀ k : Fin n, Real.sqrt (1 + κ ^ 2 * omega T k ^ 2) * ‖Gnlse.toFreq U k‖ * (1 / Real.sqrt (1 + κ ^ 2 * omega T k ^ 2)) = ‖Gnlse.toFreq U k‖ := by
      intro k
      have : Real.sqrt (1 + κ ^ 2 * omega T k ^ 2) ≠ 0 := (Real.sqrt_pos.2 (by positivity)).ne'
      field_simp
    have e2 : ∀ k : Fin n, (Real.sqrt (1 + κ ^ 2 * omega T k ^ 2) * ‖Gnlse.toFreq U k‖) ^ 2 = (1 + κ ^ 2 * omega T k ^ 2) * ‖Gnlse.toFreq U k‖ ^ 2 := by
      intro k
      rw [mul_pow, Real.sq_sqrt (by positivity)]
    have e3 : ∀ k : Fin n, (1 / Real.sqrt (1 + κ ^ 2 * omega T k ^ 2)) ^ 2 = 1 / (1 + κ ^ 2 * omega T k ^ 2) := by
      intro k
      rw [div_pow, one_pow, Real.sq_sqrt (by positivity)]
    simp only [e1, e2, e3] at h3
    exact h3
  have e : ∑ k, (1 + κ ^ 2 * omega T k ^ 2) * ‖Gnlse.toFreq U k‖ ^ 2 = meanPower U + κ ^ 2 * spread T U := by
    rw [meanPower_eq hn]
    unfold spread
    rw [Finset.mul_sum, ← Finset.sum_add_distrib]
    exact Finset.sum_congr rfl fun k _ => by ring
  rw [e] at h2
  have h4 := mul_le_mul_of_nonneg_left (lorentz_bins he hT hκ) (add_nonneg (meanPower_nonneg U) (mul_nonneg (sq_nonneg κ) (spread_nonneg T U)))
  exact (pow_le_pow_left₀ (norm_nonneg _) h1 2).trans (h2.trans h4)

/-- the same with the best choice of `κ` -/
theorem peak_le' (he : n % 2 = 0) {T S : ℝ} (hT : 0 < T) {U : Fin n → ℂ} (hS : 0 < S) (hU : spread T U ≤ S) (hP : 0 < meanPower U) (j : Fin n) :
    ‖U j‖ ^ 2 ≤ 2 * meanPower U + T * Real.sqrt (meanPower U * S) := by
  set P := meanPower U with hPd
  have hκ : 0 < Real.sqrt (P / S) := Real.sqrt_pos.2 (by positivity)
  have h := peak_le he hT hκ U j
  rw [← hPd, Real.sq_sqrt (by positivity)] at h
  refine h.trans ?_
  have h1 : P / S * spread T U ≤ P := by
    have := mul_le_mul_of_nonneg_left hU (by positivity : 0 ≤ P / S)
    rwa [div_mul_cancel₀ _ hS.ne'] at this
  have h2 : (P + P / S * spread T U) * (1 + T / (2 * Real.sqrt (P / S))) ≤ (P + P) * (1 + T / (2 * Real.sqrt (P / S))) :=
    mul_le_mul_of_nonneg_right (by linarith) (by positivity)
  refine h2.trans (le_of_eq ?_)
  have h3 : Real.sqrt (P * S) * Real.sqrt (P / S) = P := by
    rw [← Real.sqrt_mul (by positivity), show P * S * (P / S) = P ^ 2 by field_simp, Real.sqrt_sq hP.le]
  have h4 : P / Real.sqrt (P / S) = Real.sqrt (P * S) := by
    rw [div_eq_iff hκ.ne', h3]
  rw [show (P + P) * (1 + T / (2 * Real.sqrt (P / S))) = 2 * P + T * (P / Real.sqrt (P / S)) by field_simp; ring, h4]

/-- bound on the width of the spectrum -/
noncomputable def widest (T a S0 P : ℝ) : ℝ := 2 * S0 + 4 * a * P ^ 2 + a ^ 2 * P ^ 3 * T ^ 2

/-- C163: with dispersion and nonlinearity of opposite signs the width of the spectrum and the peak power stay bounded over every length, by
numbers that depend on the input, the ratio of nonlinearity and dispersion and the window, but not on the length or the number of points. -/
theorem C163_bounded (he : n % 2 = 0) {β₂ T : ℝ} (hT : 0 < T) {β : Fin n → ℝ} (hβ : ∀ k, β k = β₂ / 2 * omega T k ^ 2) {γ lo hi : ℝ} (hγ : γ / β₂ < 0)
    {U : ℝ → Fin n → ℂ} (hU : Solves β 0 (fun _ => 1) γ lo hi U) (hlo : lo < 0) {z : ℝ} (hz : 0 ≤ z) (hhi : z < hi) (h0 : 0 < meanPower (U 0)) :
    spread T (U z) ≤ widest T (-(γ / β₂)) (spread T (U 0)) (meanPower (U 0)) ∧
      ∀ j, ‖U z j‖ ^ 2 ≤ 2 * meanPower (U 0) + T * Real.sqrt (meanPower (U 0) * widest T (-(γ / β₂)) (spread T (U 0)) (meanPower (U 0))) := by
  have hn : 0 < n := by
    rcases Nat.eq_zero_or_pos n with h | h
    · subst h; simp [meanPower] at h0
    · exact h
  have hβ₂ : β₂ ≠ 0 := fun h => by rw [h] at hγ; simp at hγ
  have hex := C162_exchange hn hβ hβ₂ hU hlo hz hhi
  have hP := meanPower_conserved hU hlo hz hhi
  set a := -(γ / β₂) with ha
  have ha0 : 0 < a := by linarith
  set P := meanPower (U 0) with hPd
  set S0 := spread T (U 0) with hS0
  have hS00 : 0 ≤ S0 := spread_nonneg T _
  have hw : 0 < widest T a S0 P := by unfold widest; positivity
  have hs : spread T (U z) ≤ widest T a S0 P := by
    rcases (spread_nonneg T (U z)).eq_or_lt with hs0 | hs0
    · rw [← hs0]; exact hw.le
    set S := spread T (U z) with hS
    have hq := quartic_le (U := U z) fun j => peak_le' he hT hs0 (le_refl S) (by rw [hP]; exact h0) j
    rw [hP] at hq
    have hq0 := quartic_nonneg (U 0)
    have h1 : S ≤ S0 + a * ((2 * P + T * Real.sqrt (P * S)) * P) := by
      have := mul_le_mul_of_nonneg_left hq ha0.le
      have := mul_nonneg ha0.le hq0
      have : γ / β₂ = -a := by rw [ha]; ring
      rw [this] at hex
      nlinarith
    have h2 : a * T * P * Real.sqrt (P * S) ≤ S / 2 + a ^ 2 * P ^ 3 * T ^ 2 / 2 := by
      have hr : Real.sqrt (P * S) ^ 2 = P * S := Real.sq_sqrt (by positivity)
      have hr2 : Real.sqrt (P * S) = Real.sqrt P * Real.sqrt S := Real.sqrt_mul h0.le S
      have hrP : Real.sqrt P ^ 2 = P := Real.sq_sqrt h0.le
      have hrS : Real.sqrt S ^ 2 = S := Real.sq_sqrt hs0.le
      rw [hr2]
      have h3 : 0 ≤ (a * T * P * Real.sqrt P - Real.sqrt S) ^ 2 := sq_nonneg _
      have h4 : (a * T * P * Real.sqrt P - Real.sqrt S) ^ 2 = a ^ 2 * T ^ 2 * P ^ 2 * Real.sqrt P ^ 2 - 2 * (a * T * P * (Real.sqrt P * Real.sqrt S)) + Real.sqrt S ^ 2 := by
        ring
      rw [h4, hrP, hrS] at h3
      nlinarith
    unfold widest
    nlinarith
  refine ⟨hs, fun j => ?_⟩
  have := peak_le' he hT hw hs (by rw [hP]; exact h0) j
  rwa [hP] at this

/-! ## columns of `propagate` -/

section Columns

variable {polyfit : Fiber.PolyFit} {spline : Fiber.Spline} {o : Obj} {p : Pulse} {F : FibObj} {f1 : Fiber.Fib} {β : Fin p.n → ℝ} {g : ℝ} {R : Fin p.n → ℂ}
  {γ fR : ℝ}

/-- every smooth function of the field takes on every column the value it has on the solution of the equation, up to a multiple of the
fifth power of the step -/
theorem observable {E : Type*} [NormedAddCommGroup E] [NormedSpace ℝ E] {a : Fin p.n → ℂ} (hp : Holds p a) (he : p.n % 2 = 0) (hcf : p.cf ≠ 0)
    (h : Loads polyfit spline o p F f1 β g R γ fR) {L : ℝ} (hL : F.fib.length = some L) (hpos : 0 < L) (hm : o.method = .rk4ip) (heta : o.eta = 5)
    (hss : o.disableSS = true) (hdz : 0 < o.dz) (hmin : 0 < o.dzMin) (hle : 0 < o.localError) {x b : ℝ} (hx : x < 0) (hb : L < b) {U : ℝ → Fin p.n → ℂ}
    (hU : Solves β g R γ x b U) (hU0 : p.AT = .ok ⟨p.n, U 0⟩) (hne : U 0 ≠ 0) {Φ : (Fin p.n → ℂ) → E} (hΦ : ContDiff ℝ 1 Φ) :
    ∃ (N0 : ℕ) (C : ℝ), ∀ N, N0 ≤ N → ∃ r o' F', propagate polyfit spline o p F N false = some (.ok (r, o', F')) ∧ r.AT.length = N ∧
      ∀ i < N, ∃ v : Fin p.n → ℂ, r.AT[i]? = some ⟨p.n, v⟩ ∧ ((i : ℝ) + 1) * (L / N) ∈ Icc 0 L ∧ ‖Φ v - Φ (U ((i + 1) * (L / N)))‖ ≤ C / N ^ 5 := by
  obtain ⟨N0, C, hconv⟩ := C116_converges hp he hcf h hL hpos hm heta hss hdz hmin hle hx hb hU hU0 hne
  have hcU : ContinuousOn U (Icc 0 L) := fun t ht => (hU t ⟨by linarith [ht.1], by linarith [ht.2]⟩).continuousAt.continuousWithinAt
  obtain ⟨B, hB⟩ := isCompact_Icc.exists_bound_of_continuousOn hcU
  obtain ⟨K, hK⟩ := hΦ.contDiffOn.exists_lipschitzOnWith (s := Metric.closedBall (0 : Fin p.n → ℂ) (B + |C|)) one_ne_zero (convex_closedBall 0 _)
    (isCompact_closedBall 0 _)
  refine ⟨max N0 1, K * |C|, fun N hN => ?_⟩
  obtain ⟨r, o', F', hr, hlr, hcol⟩ := hconv N ((le_max_left _ _).trans hN)
  refine ⟨r, o', F', hr, hlr, fun i hi => ?_⟩
  obtain ⟨v, hv, herr⟩ := hcol i hi
  have hNr : (1 : ℝ) ≤ N := by exact_mod_cast (le_max_right _ _).trans hN
  have hz : ((i : ℝ) + 1) * (L / N) ∈ Icc 0 L := by
    refine ⟨by positivity, ?_⟩
    have : (i : ℝ) + 1 ≤ N := by exact_mod_cast hi
    calc ((i : ℝ) + 1) * (L / N) ≤ N * (L / N) := mul_le_mul_of_nonneg_right this (by positivity)
      _ = L := by field_simp
  refine ⟨v, hv, hz, ?_⟩
  have h1 : ‖v - U ((i + 1) * (L / N))‖ ≤ |C| / N ^ 5 := by
    refine (pi_norm_le_iff_of_nonneg (by positivity)).2 fun j => (herr j).trans ?_
    exact div_le_div_of_nonneg_right (le_abs_self C) (by positivity)
  have h2 : |C| / (N : ℝ) ^ 5 ≤ |C| := div_le_self (abs_nonneg C) (one_le_pow₀ hNr)
  have h3 := hB _ hz
  have h4 : ‖v‖ ≤ B + |C| := by
    have := norm_le_norm_add_norm_sub' v (U ((i + 1) * (L / N)))
    linarith
  have h5 := hK.norm_sub_le (mem_closedBall_zero_iff.2 h4) (mem_closedBall_zero_iff.2 (by linarith [abs_nonneg C] : ‖U ((i + 1) * (L / N))‖ ≤ B + |C|))
  refine h5.trans ?_
  rw [mul_div_assoc]
  exact mul_le_mul_of_nonneg_left h1 K.2

end Columns

theorem toFreq_contDiff (k : Fin n) : ContDiff ℝ 1 (fun U : Fin n → ℂ => Gnlse.toFreq U k) := by
  show ContDiff ℝ 1 (fun U : Fin n → ℂ => (1 / (n : ℂ)) *
    ∑ j : Fin n, fftshift U j * rootE n ((j : ℕ) * ((rollIdx (-((n / 2 : ℕ) : ℤ)) k : Fin n) : ℕ) : ℤ))
  refine contDiff_const.mul (ContDiff.sum fun j _ => ContDiff.mul ?_ contDiff_const)
  exact contDiff_apply ℝ ℂ _

theorem dispersive_contDiff (β : Fin n → ℝ) : ContDiff ℝ 1 (dispersive β) := by
  unfold dispersive
  exact ContDiff.sum fun k _ => contDiff_const.mul ((toFreq_contDiff k).norm_sq ℝ)

theorem power_contDiff (j : Fin n) : ContDiff ℝ 1 (fun U : Fin n → ℂ => ‖U j‖ ^ 2) := (contDiff_apply ℝ ℂ j).norm_sq ℝ

theorem quartic_contDiff : ContDiff ℝ 1 (quartic (n := n)) := by
  unfold quartic
  exact (ContDiff.sum fun j _ => (power_contDiff j).pow 2).div_const _

theorem hamiltonian_contDiff (β : Fin n → ℝ) (γ : ℝ) : ContDiff ℝ 1 (hamiltonian β γ) := by
  unfold hamiltonian
  exact (dispersive_contDiff β).add (contDiff_const.mul quartic_contDiff)

theorem spread_contDiff (T : ℝ) : ContDiff ℝ 1 (spread (n := n) T) := by
  unfold spread
  exact ContDiff.sum fun k _ => contDiff_const.mul ((toFreq_contDiff k).norm_sq ℝ)

section Propagate

variable {polyfit : Fiber.PolyFit} {spline : Fiber.Spline} {o : Obj} {p : Pulse} {F : FibObj} {f1 : Fiber.Fib} {β : Fin p.n → ℝ} {R : Fin p.n → ℂ} {γ fR : ℝ}

/-- C162: `propagate` with the default method, without self-steepening, Raman scattering and gain, for every dispersion: all columns have the
Hamiltonian of the pulse, up to a multiple of the fifth power of the step. -/
theorem C162_propagate {a A : Fin p.n → ℂ} (hp : Holds p a) (he : p.n % 2 = 0) (hcf : p.cf ≠ 0) (h : Loads polyfit spline o p F f1 β 0 R γ fR)
    (hram : o.disableRaman = true) {L : ℝ} (hL : F.fib.length = some L) (hpos : 0 < L) (hm : o.method = .rk4ip) (heta : o.eta = 5)
    (hss : o.disableSS = true) (hdz : 0 < o.dz) (hmin : 0 < o.dzMin) (hle : 0 < o.localError) (hA : p.AT = .ok ⟨p.n, A⟩) (hne : A ≠ 0) :
    ∃ (N0 : ℕ) (C : ℝ), ∀ N, N0 ≤ N → ∃ r o' F', propagate polyfit spline o p F N false = some (.ok (r, o', F')) ∧ r.AT.length = N ∧
      ∀ i < N, ∃ v : Fin p.n → ℂ, r.AT[i]? = some ⟨p.n, v⟩ ∧ |hamiltonian β γ v - hamiltonian β γ A| ≤ C / N ^ 5 := by
  have hR := h.raman_off hram
  subst hR
  have hn : 0 < p.n := by
    rcases Nat.eq_zero_or_pos p.n with h0 | h0
    · exact absurd (funext fun j => absurd j.isLt (by omega)) hne
    · exact h0
  obtain ⟨U, hU, hU0⟩ := C116_exists β 0 (raman_real hp he h) γ A (T := L + 1) (by linarith)
  obtain ⟨N0, C, hN⟩ := observable hp he hcf h hL hpos hm heta hss hdz hmin hle (by linarith : -(L + 1) < 0) (by linarith : L < L + 1) hU
    (by rw [hU0]; exact hA) (by rw [hU0]; exact hne) (hamiltonian_contDiff β γ)
  refine ⟨N0, C, fun N hN0 => ?_⟩
  obtain ⟨r, o', F', hr, hlr, hcol⟩ := hN N hN0
  refine ⟨r, o', F', hr, hlr, fun i hi => ?_⟩
  obtain ⟨v, hv, hz, herr⟩ := hcol i hi
  refine ⟨v, hv, ?_⟩
  have := C162_conserved hn hU (by linarith) hz.1 (by linarith [hz.2])
  rw [this, hU0, Real.norm_eq_abs] at herr
  exact herr

/-- the columns and their distance from a solution, for three observables at once -/
theorem columns_near {a A : Fin p.n → ℂ} (hp : Holds p a) (he : p.n % 2 = 0) (hcf : p.cf ≠ 0) (h : Loads polyfit spline o p F f1 β 0 R γ fR)
    (hram : o.disableRaman = true) {L : ℝ} (hL : F.fib.length = some L) (hpos : 0 < L) (hm : o.method = .rk4ip) (heta : o.eta = 5)
    (hss : o.disableSS = true) (hdz : 0 < o.dz) (hmin : 0 < o.dzMin) (hle : 0 < o.localError) (hA : p.AT = .ok ⟨p.n, A⟩) (hne : A ≠ 0) (T : ℝ)
    {ε : ℝ} (hε : 0 < ε) :
    ∃ U : ℝ → Fin p.n → ℂ, Solves β 0 (fun _ => 1) γ (-(L + 1)) (L + 1) U ∧ U 0 = A ∧
    ∃ N0 : ℕ, ∀ N, N0 ≤ N → ∃ r o' F', propagate polyfit spline o p F N false = some (.ok (r, o', F')) ∧ r.AT.length = N ∧
      ∀ i < N, ∃ v : Fin p.n → ℂ, r.AT[i]? = some ⟨p.n, v⟩ ∧ ((i : ℝ) + 1) * (L / N) ∈ Icc 0 L ∧
        |spread T v - spread T (U ((i + 1) * (L / N)))| ≤ ε ∧ |quartic v - quartic (U ((i + 1) * (L / N)))| ≤ ε ∧
        ∀ j, |‖v j‖ ^ 2 - ‖U ((i + 1) * (L / N)) j‖ ^ 2| ≤ ε := by
  have hR := h.raman_off hram
  subst hR
  obtain ⟨U, hU, hU0⟩ := C116_exists β 0 (raman_real hp he h) γ A (T := L + 1) (by linarith)
  have hΦ : ContDiff ℝ 1 (fun V : Fin p.n → ℂ => ((spread T V, quartic V), fun j => ‖V j‖ ^ 2)) :=
    ((spread_contDiff T).prodMk quartic_contDiff).prodMk (contDiff_pi.2 fun j => power_contDiff j)
  obtain ⟨N0, C, hN⟩ := observable hp he hcf h hL hpos hm heta hss hdz hmin hle (by linarith : -(L + 1) < 0) (by linarith : L < L + 1) hU
    (by rw [hU0]; exact hA) (by rw [hU0]; exact hne) hΦ
  obtain ⟨N1, hN1⟩ := exists_nat_gt (|C| / ε)
  refine ⟨U, hU, hU0, max (max N0 N1) 1, fun N hNN => ?_⟩
  have hNr : (1 : ℝ) ≤ N := by exact_mod_cast (le_max_right _ _).trans hNN
  have hN1' : (N1 : ℝ) ≤ N := by exact_mod_cast (le_max_right _ _).trans ((le_max_left _ _).trans hNN)
  have hC : C / (N : ℝ) ^ 5 ≤ ε := by
    rw [div_le_iff₀ (by positivity)]
    rw [div_lt_iff₀ hε] at hN1
    have e2 : (N : ℝ) ≤ (N : ℝ) ^ 5 := le_self_pow₀ hNr (by norm_num)
    have e4 : (N1 : ℝ) * ε ≤ (N : ℝ) ^ 5 * ε := mul_le_mul_of_nonneg_right (hN1'.trans e2) hε.le
    linarith [le_abs_self C]
  obtain ⟨r, o', F', hr, hlr, hcol⟩ := hN N ((le_max_left _ _).trans ((le_max_left _ _).trans hNN))
  refine ⟨r, o', F', hr, hlr, fun i hi => ?_⟩
  obtain ⟨v, hv, hz, herr⟩ := hcol i hi
  have herr' := herr.trans hC
  have h1 := (norm_fst_le _).trans herr'
  have h2 := (norm_snd_le _).trans herr'
  refine ⟨v, hv, hz, (norm_fst_le _).trans h1, (norm_snd_le _).trans h1, fun j => (norm_le_pi_norm _ j).trans h2⟩

end Propagate

/-- what is claimed about every column, given what holds along every solution from the pulse -/
theorem columns_of_solution (polyfit : Fiber.PolyFit) (spline : Fiber.Spline) {β₂ γ L wl T : ℝ} (frep : ℝ) (label : String) (hL : 0 < L) (hwl : wl ≠ 0)
    (hT : 0 < T) (hn : 4 ≤ n) (he : n % 2 = 0) {A : Fin n → ℂ} (hne : A ≠ 0) {ε : ℝ} (hε : 0 < ε) {post : (Fin n → ℂ) → Prop}
    (hpost : ∀ (β : Fin n → ℝ) (U : ℝ → Fin n → ℂ), (∀ k, β k = β₂ / 2 * omega T k ^ 2) → Solves β 0 (fun _ => 1) γ (-(L + 1)) (L + 1) U → U 0 = A → ∀ z ∈ Icc 0 L,
      ∀ v : Fin n → ℂ, |spread T v - spread T (U z)| ≤ ε → |quartic v - quartic (U z)| ≤ ε → (∀ j, |‖v j‖ ^ 2 - ‖U z j‖ ^ 2| ≤ ε) → post v) :
    Columns polyfit spline β₂ γ L wl frep T label n A fun _ => post := by
  intro b
  set p : Pulse := { base (some frep) wl T n with aw := some ⟨n, fftT A⟩ } with hp
  have hold : Holds p (fftT A) := base_holds (some frep) wl T (by omega) (fftT A)
  have hAT : p.AT = .ok ⟨n, A⟩ := by
    have := hold.AT_eq
    rwa [ifftT_fftT] at this
  have hb : Holds { base (some frep) wl T n with aw := some ⟨n, b⟩ } b := base_holds (some frep) wl T (by omega) b
  refine ⟨p, hb.setAT_eq A, hAT, ?_⟩
  have hcw : p.cf ≠ 0 := div_ne_zero (by norm_num [cNmps, cMks]) hwl
  have hload := C132_fiber polyfit spline plain (p := p) hold hn he hT.ne' rfl (length := L) (gamma := γ)
    (gain := 0) (b := fun _ : Fin 1 => β₂) (units := "ps^n/m") (label := label) (by decide) hwl
  have hd : 2 * Real.pi * p.cf - 2 * Real.pi * cNmps / wl = 0 := by
    show 2 * Real.pi * (cNmps / wl) - 2 * Real.pi * cNmps / wl = 0
    ring
  rw [hd] at hload
  have hβ : ∀ k : Fin n, (fiberPoly (fun _ : Fin 1 => β₂) 0 p.tw).eval (2 * Real.pi * ((k : ℕ) - (p.n : ℝ) / 2) / p.tw) = β₂ / 2 * omega T k ^ 2 := by
    intro k
    rw [fiberPoly_second, Polynomial.eval_mul, Polynomial.eval_C, Polynomial.eval_pow, Polynomial.eval_X]
    rfl
  obtain ⟨U, hU, hU0, N0, hN⟩ := columns_near (p := p) (A := A) hold he hcw hload rfl rfl hL rfl rfl rfl (by norm_num [plain, Obj.default])
    (by norm_num [plain, Obj.default]) (by norm_num [plain, Obj.default]) hAT hne T hε
  refine ⟨N0, fun N hNN => ?_⟩
  obtain ⟨r, o', F', hr, hlr, hcol⟩ := hN N hNN
  refine ⟨r, o', F', hr, hlr, fun i hi => ?_⟩
  obtain ⟨v, hv, hz, h1, h2, h3⟩ := hcol i hi
  exact ⟨v, hv, hpost _ U hβ hU hU0 _ hz v h1 h2 h3⟩

/-- C162: a pulse in a generated fibre with second-order dispersion. In every column the width of the spectrum and the mean square of the power
have changed together. -/
theorem C162_fiber (polyfit : Fiber.PolyFit) (spline : Fiber.Spline) {β₂ γ L wl T : ℝ} (frep : ℝ) (label : String) (hL : 0 < L) (hwl : wl ≠ 0) (hT : 0 < T)
    (hn : 4 ≤ n) (he : n % 2 = 0) {A : Fin n → ℂ} (hne : A ≠ 0) (hβ₂ : β₂ ≠ 0) {ε : ℝ} (hε : 0 < ε) :
    Columns polyfit spline β₂ γ L wl frep T label n A fun _ v => |spread T v - spread T A - γ / β₂ * (quartic A - quartic v)| ≤ ε := by
  have hden : 0 < 1 + |γ / β₂| := by positivity
  refine columns_of_solution polyfit spline frep label hL hwl hT hn he hne (div_pos hε hden) fun β U hβ hU hU0 z hz v h1 h2 _ => ?_
  have h := C162_exchange (by omega) hβ hβ₂ hU (by linarith) hz.1 (by linarith [hz.2])
  rw [hU0] at h
  have e : spread T v - spread T A - γ / β₂ * (quartic A - quartic v) = (spread T v - spread T (U z)) + γ / β₂ * (quartic v - quartic (U z)) := by
    linear_combination h
  rw [e]
  refine (abs_add_le _ _).trans ?_
  rw [abs_mul]
  have h4 := mul_le_mul_of_nonneg_left h2 (abs_nonneg (γ / β₂))
  calc _ ≤ ε / (1 + |γ / β₂|) + |γ / β₂| * (ε / (1 + |γ / β₂|)) := add_le_add h1 h4
    _ = ε := by field_simp

/-- C162: in a fibre with `γ/β₂ > 0` the spectrum of every column is bounded, whatever the length of the fibre. -/
theorem C162_fiber_normal (polyfit : Fiber.PolyFit) (spline : Fiber.Spline) {β₂ γ L wl T : ℝ} (frep : ℝ) (label : String) (hL : 0 < L) (hwl : wl ≠ 0) (hT : 0 < T)
    (hn : 4 ≤ n) (he : n % 2 = 0) {A : Fin n → ℂ} (hne : A ≠ 0) (hγ : 0 < γ / β₂) {ε : ℝ} (hε : 0 < ε) :
    Columns polyfit spline β₂ γ L wl frep T label n A fun _ v =>
      spread T v ≤ spread T A + γ / β₂ * (quartic A - meanPower A ^ 2) + ε := by
  refine columns_of_solution polyfit spline frep label hL hwl hT hn he hne hε fun β U hβ hU hU0 z hz v h1 _ _ => ?_
  have h := C162_normal (by omega) hβ hγ hU (by linarith) hz.1 (by linarith [hz.2])
  rw [hU0] at h
  linarith [(abs_le.1 h1).2]

theorem meanPower_pos (hn : 0 < n) {A : Fin n → ℂ} (hne : A ≠ 0) : 0 < meanPower A := by
  refine (meanPower_nonneg A).lt_of_ne' fun h => hne ?_
  have hn' : (n : ℝ) ≠ 0 := by exact_mod_cast hn.ne'
  unfold meanPower at h
  rw [div_eq_zero_iff, or_iff_left hn', Finset.sum_eq_zero_iff_of_nonneg fun _ _ => by positivity] at h
  funext j
  simpa using h j (Finset.mem_univ j)

/-- C163: in a fibre with `γ/β₂ < 0` the spectrum and the peak power of every column are bounded, by numbers that do not depend on the length of
the fibre or the number of points. -/
theorem C163_fiber (polyfit : Fiber.PolyFit) (spline : Fiber.Spline) {β₂ γ L wl T : ℝ} (frep : ℝ) (label : String) (hL : 0 < L) (hwl : wl ≠ 0) (hT : 0 < T)
    (hn : 4 ≤ n) (he : n % 2 = 0) {A : Fin n → ℂ} (hne : A ≠ 0) (hγ : γ / β₂ < 0) {ε : ℝ} (hε : 0 < ε) :
    Columns polyfit spline β₂ γ L wl frep T label n A fun _ v => spread T v ≤ widest T (-(γ / β₂)) (spread T A) (meanPower A) + ε ∧
      ∀ j, ‖v j‖ ^ 2 ≤ 2 * meanPower A + T * Real.sqrt (meanPower A * widest T (-(γ / β₂)) (spread T A) (meanPower A)) + ε := by
  refine columns_of_solution polyfit spline frep label hL hwl hT hn he hne hε fun β U hβ hU hU0 z hz v h1 _ h3 => ?_
  have h := C163_bounded he hT hβ hγ hU (by linarith) hz.1 (by linarith [hz.2]) (by rw [hU0]; exact meanPower_pos (by omega) hne)
  rw [hU0] at h
  exact ⟨by linarith [(abs_le.1 h1).2, h.1], fun j => by linarith [(abs_le.1 (h3 j)).2, h.2 j]⟩

/-- a pulse in a single point of four: mean power and mean square of the power -/
theorem pulse_four : meanPower (Pi.single 0 1 : Fin 4 → ℂ) = 1 / 4 ∧ quartic (Pi.single 0 1 : Fin 4 → ℂ) = 1 / 4 := by
  constructor <;> simp [meanPower, quartic, Fin.sum_univ_four, Pi.single_apply]

/-- C162: the bounds hold for a fibre of any length and a pulse whose power is not constant -/
theorem C162_nonvacuous (polyfit : Fiber.PolyFit) (spline : Fiber.Spline) (frep : ℝ) (label : String) {L ε : ℝ} (hL : 0 < L) (hε : 0 < ε) :
    Columns polyfit spline 1 1 L 1550 frep (2 * Real.pi) label 4 (Pi.single 0 1) (fun _ v =>
      spread (2 * Real.pi) v ≤ spread (2 * Real.pi) (Pi.single 0 1 : Fin 4 → ℂ) + 3 / 16 + ε) ∧
    Columns polyfit spline (-1) 1 L 1550 frep (2 * Real.pi) label 4 (Pi.single 0 1) (fun _ v =>
      |spread (2 * Real.pi) v - spread (2 * Real.pi) (Pi.single 0 1 : Fin 4 → ℂ) - (quartic v - 1 / 4)| ≤ ε) := by
  have hpi := Real.pi_pos
  have hne : (Pi.single 0 1 : Fin 4 → ℂ) ≠ 0 := fun h => by simpa using congrFun h 0
  have h1 := C162_fiber_normal polyfit spline (β₂ := 1) (γ := 1) (wl := 1550) frep label hL (by norm_num) (by positivity : 0 < 2 * Real.pi) (le_refl 4) rfl hne
    (by norm_num) hε
  have h2 := C162_fiber polyfit spline (β₂ := -1) (γ := 1) (wl := 1550) frep label hL (by norm_num) (by positivity : 0 < 2 * Real.pi) (le_refl 4) rfl hne
    (by norm_num) hε
  rw [pulse_four.1, pulse_four.2] at h1
  rw [pulse_four.2] at h2
  refine ⟨h1.imp (fun z _ v h => ?_) hL, h2.imp (fun z _ v h => ?_) hL⟩
  · norm_num at h ⊢
    exact h
  · rw [show spread (2 * Real.pi) v - spread (2 * Real.pi) (Pi.single 0 1 : Fin 4 → ℂ) - (quartic v - 1 / 4) =
      spread (2 * Real.pi) v - spread (2 * Real.pi) (Pi.single 0 1 : Fin 4 → ℂ) - 1 / -1 * (1 / 4 - quartic v) by ring]
    exact h

/-- C163: a fibre of any length with `γ/β₂ < 0` -/
theorem C163_nonvacuous (polyfit : Fiber.PolyFit) (spline : Fiber.Spline) (frep : ℝ) (label : String) {L ε : ℝ} (hL : 0 < L) (hε : 0 < ε) :
    ∃ S0 : ℝ, S0 = spread 1 (Pi.single 0 1 : Fin 4 → ℂ) ∧
    Columns polyfit spline (-1) 1 L 1550 frep 1 label 4 (Pi.single 0 1) fun _ v => spread 1 v ≤ 2 * S0 + 1 / 4 + 1 / 64 + ε ∧
      ∀ j, ‖v j‖ ^ 2 ≤ 1 / 2 + Real.sqrt ((2 * S0 + 1 / 4 + 1 / 64) / 4) + ε := by
  have hne : (Pi.single 0 1 : Fin 4 → ℂ) ≠ 0 := fun h => by simpa using congrFun h 0
  have h := C163_fiber polyfit spline (β₂ := -1) (γ := 1) (wl := 1550) frep label hL (by norm_num) one_pos (le_refl 4) rfl hne (by norm_num) hε
  rw [pulse_four.1] at h
  refine ⟨_, rfl, h.imp (fun z _ v h => ?_) hL⟩
  have e : widest 1 (-(1 / -1)) (spread 1 (Pi.single 0 1 : Fin 4 → ℂ)) (1 / 4) = 2 * spread 1 (Pi.single 0 1 : Fin 4 → ℂ) + 1 / 4 + 1 / 64 := by
    unfold widest; norm_num
  rw [e] at h
  refine ⟨h.1, fun j => (h.2 j).trans (le_of_eq ?_)⟩
  rw [one_mul, show (1 / 4 : ℝ) * (2 * spread 1 (Pi.single 0 1 : Fin 4 → ℂ) + 1 / 4 + 1 / 64) = (2 * spread 1 (Pi.single 0 1 : Fin 4 → ℂ) + 1 / 4 + 1 / 64) / 4 by ring]
  norm_num

end PyNLO.Hamiltonian
