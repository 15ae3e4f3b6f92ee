import Verif.Props.Globals
import Verif.Props.NlseRaman
import Verif.Props.RamanKernel

/-! # C137: the Raman response computed in the frequency domain -/

namespace PyNLO

open Complex Ssfm Pulse MeasureTheory Set Nlse

/-! ## the transform of the isotropic response -/

theorem r0_den {τ1 τ2 : ℝ} (h1 : 0 < τ1) (h2 : 0 < τ2) (w : ℝ) :
    ((τ1 ^ 2 + τ2 ^ 2 : ℝ) : ℂ) - 2 * I * w * (τ1 ^ 2 : ℝ) * τ2 - ((τ1 ^ 2 * τ2 ^ 2 : ℝ) : ℂ) * (w : ℂ) ^ 2 ≠ 0 := by
  intro h
  have him := congrArg Complex.im h
  have hre := congrArg Complex.re h
  simp only [Complex.sub_im, Complex.mul_im, Complex.mul_re, Complex.ofReal_re, Complex.ofReal_im, Complex.I_re, Complex.I_im, Complex.zero_im,
    Complex.sub_re, Complex.zero_re, Complex.re_ofNat, Complex.im_ofNat, pow_two (w : ℂ)] at him hre
  have hw : w = 0 := by
    have : 2 * w * τ1 ^ 2 * τ2 = 0 := by linarith
    have h3 : 2 * τ1 ^ 2 * τ2 ≠ 0 := by positivity
    have h4 : w * (2 * τ1 ^ 2 * τ2) = 0 := by linarith
    exact (mul_eq_zero.1 h4).resolve_right h3
  subst hw
  have : τ1 ^ 2 + τ2 ^ 2 = 0 := by nlinarith
  have : 0 < τ1 ^ 2 + τ2 ^ 2 := by positivity
  linarith

/-- `exp(-t/τ₂)·sin(t/τ₁)·exp(iwt)` -/
theorem damped_wave {τ1 τ2 : ℝ} (h1 : 0 < τ1) (h2 : 0 < τ2) (w : ℝ) :
    IntegrableOn (fun t : ℝ => ((Real.exp (-t / τ2) * Real.sin (t / τ1) : ℝ) : ℂ) * exp (I * w * t)) (Ioi 0) ∧
      ∫ t in Ioi (0 : ℝ), ((Real.exp (-t / τ2) * Real.sin (t / τ1) : ℝ) : ℂ) * exp (I * w * t) = ((τ1 * τ2 ^ 2 : ℝ) : ℂ) /
        (((τ1 ^ 2 + τ2 ^ 2 : ℝ) : ℂ) - 2 * I * w * (τ1 ^ 2 : ℝ) * τ2 - ((τ1 ^ 2 * τ2 ^ 2 : ℝ) : ℂ) * (w : ℂ) ^ 2) := by
  set a : ℂ := ((-1 / τ2 : ℝ) : ℂ) + ((w + 1 / τ1 : ℝ) : ℂ) * I with ha
  set b : ℂ := ((-1 / τ2 : ℝ) : ℂ) + ((w - 1 / τ1 : ℝ) : ℂ) * I with hb
  have hra : a.re < 0 := by
    have : a.re = -1 / τ2 := by rw [ha]; simp
    rw [this]
    exact div_neg_of_neg_of_pos (by norm_num) h2
  have hrb : b.re < 0 := by
    have : b.re = -1 / τ2 := by rw [hb]; simp
    rw [this]
    exact div_neg_of_neg_of_pos (by norm_num) h2
  have e : ∀ t : ℝ, ((Real.exp (-t / τ2) * Real.sin (t / τ1) : ℝ) : ℂ) * exp (I * w * t) = -(I / 2) * exp (a * t) + I / 2 * exp (b * t) := by
    intro t
    rw [show a * t = ((-t / τ2 : ℝ) : ℂ) + I * w * t + ((t / τ1 : ℝ) : ℂ) * I by rw [ha]; push_cast; ring,
      show b * t = ((-t / τ2 : ℝ) : ℂ) + I * w * t + (-((t / τ1 : ℝ) : ℂ)) * I by rw [hb]; push_cast; ring,
      exp_add, exp_add, exp_add, exp_add, exp_mul_I, exp_mul_I]
    rw [Complex.cos_neg, Complex.sin_neg]
    push_cast
    ring_nf
    rw [I_sq]
    ring
  have ia := integrableOn_exp_mul_complex_Ioi hra 0
  have ib := integrableOn_exp_mul_complex_Ioi hrb 0
  simp only [e]
  refine ⟨(ia.const_mul _).add (ib.const_mul _), ?_⟩
  rw [integral_add (ia.const_mul _) (ib.const_mul _), integral_const_mul, integral_const_mul, integral_exp_mul_complex_Ioi hra 0,
    integral_exp_mul_complex_Ioi hrb 0]
  simp only [Complex.ofReal_zero, mul_zero, Complex.exp_zero]
  have ha0 : a ≠ 0 := fun h => by rw [h] at hra; simp at hra
  have hb0 : b ≠ 0 := fun h => by rw [h] at hrb; simp at hrb
  have hden := r0_den h1 h2 w
  have c1 : (τ1 : ℂ) ≠ 0 := by exact_mod_cast h1.ne'
  have c2 : (τ2 : ℂ) ≠ 0 := by exact_mod_cast h2.ne'
  have hab : a * b * ((τ1 ^ 2 * τ2 ^ 2 : ℝ) : ℂ) = ((τ1 ^ 2 + τ2 ^ 2 : ℝ) : ℂ) - 2 * I * w * (τ1 ^ 2 : ℝ) * τ2 - ((τ1 ^ 2 * τ2 ^ 2 : ℝ) : ℂ) * (w : ℂ) ^ 2 := by
    rw [ha, hb]
    push_cast
    field_simp
    ring_nf
    rw [I_sq]
    ring
  have hd : a - b = 2 * I / τ1 := by
    rw [ha, hb]
    push_cast
    ring
  rw [← hab]
  have : -(I / 2) * (-1 / a) + I / 2 * (-1 / b) = -(I / 2) * (a - b) / (a * b) := by
    field_simp
    ring
  rw [this, hd]
  push_cast
  field_simp
  rw [I_sq]
  ring

/-- C137: the array computed in the frequency domain is, at each frequency, the transform of the published time response. -/
theorem C137_transform {τ1 τ2 : ℝ} (h1 : 0 < τ1) (h2 : 0 < τ2) (f w : ℝ) : ramanR0 τ1 τ2 f w =
    ((1 - f : ℝ) : ℂ) + (f : ℂ) * ∫ t in Ioi (0 : ℝ), (RamanSpec.isotropic τ1 τ2 t : ℂ) * exp (I * w * t) := by
  obtain ⟨-, hv⟩ := damped_wave h1 h2 w
  have e : ∀ t : ℝ, (RamanSpec.isotropic τ1 τ2 t : ℂ) * exp (I * w * t) = ((τ1 * (1 / τ1 ^ 2 + 1 / τ2 ^ 2) : ℝ) : ℂ) *
      (((Real.exp (-t / τ2) * Real.sin (t / τ1) : ℝ) : ℂ) * exp (I * w * t)) := by
    intro t
    unfold RamanSpec.isotropic
    push_cast
    ring
  simp only [e]
  rw [integral_const_mul, hv]
  unfold ramanR0
  congr 2
  rw [← mul_div_assoc, ← Complex.ofReal_mul]
  congr 2
  field_simp
  ring

/-- C137: it is 1 at the centre of the spectrum … -/
theorem C137_centre {τ1 τ2 : ℝ} (h1 : 0 < τ1) (h2 : 0 < τ2) (f : ℝ) : ramanR0 τ1 τ2 f 0 = 1 := by
  unfold ramanR0
  have h : τ1 ^ 2 + τ2 ^ 2 ≠ 0 := by positivity
  have e : (τ1 ^ 2 + τ2 ^ 2) / (τ1 * τ2 ^ 2) * τ1 * τ2 ^ 2 = τ1 ^ 2 + τ2 ^ 2 := by field_simp
  rw [e]
  simp only [Complex.ofReal_zero, mul_zero, zero_mul, sub_zero, ne_eq, OfNat.ofNat_ne_zero, not_false_eq_true, zero_pow]
  rw [div_self (by exact_mod_cast h)]
  push_cast
  ring

/-- … and its imaginary part has the sign of the frequency: loss on the blue side of a pump, gain on the red side. -/
theorem C137_stokes {τ1 τ2 f : ℝ} (h1 : 0 < τ1) (h2 : 0 < τ2) (hf : 0 < f) (w : ℝ) :
    (0 < w → 0 < (ramanR0 τ1 τ2 f w).im) ∧ (w < 0 → (ramanR0 τ1 τ2 f w).im < 0) := by
  set x : ℝ := τ1 ^ 2 + τ2 ^ 2 - τ1 ^ 2 * τ2 ^ 2 * w ^ 2 with hx
  set y : ℝ := 2 * w * τ1 ^ 2 * τ2 with hy
  have hden : ((τ1 ^ 2 + τ2 ^ 2 : ℝ) : ℂ) - 2 * I * w * (τ1 ^ 2 : ℝ) * τ2 - ((τ1 ^ 2 * τ2 ^ 2 : ℝ) : ℂ) * (w : ℂ) ^ 2 = (x : ℂ) - y * I := by
    rw [hx, hy]
    push_cast
    ring
  have h0 := r0_den h1 h2 w
  rw [hden] at h0
  have hn : 0 < x ^ 2 + y ^ 2 := by
    have : 0 < Complex.normSq ((x : ℂ) - y * I) := Complex.normSq_pos.2 h0
    rw [Complex.normSq_apply] at this
    simp at this
    nlinarith
  have him : (ramanR0 τ1 τ2 f w).im = f * ((τ1 ^ 2 + τ2 ^ 2) / (τ1 * τ2 ^ 2) * τ1 * τ2 ^ 2) * y / (x ^ 2 + y ^ 2) := by
    unfold ramanR0
    rw [hden, div_eq_mul_inv]
    simp only [Complex.add_im, Complex.mul_im, Complex.mul_re, Complex.ofReal_re, Complex.ofReal_im, Complex.inv_im, Complex.inv_re, Complex.normSq_apply,
      Complex.sub_re, Complex.sub_im, Complex.I_re, Complex.I_im, zero_mul, mul_zero, add_zero, zero_add, mul_one, sub_zero, zero_sub]
    rw [show x * x + -y * -y = x ^ 2 + y ^ 2 by ring]
    ring
  have hc : 0 < f * ((τ1 ^ 2 + τ2 ^ 2) / (τ1 * τ2 ^ 2) * τ1 * τ2 ^ 2) := by positivity
  rw [him]
  constructor
  · intro hw
    have : 0 < y := by rw [hy]; positivity
    positivity
  · intro hw
    have : y < 0 := by
      rw [hy]
      have : 0 < 2 * τ1 ^ 2 * τ2 := by positivity
      nlinarith
    rw [div_lt_iff₀ hn, zero_mul]
    exact mul_neg_of_pos_of_neg hc this

/-! ## the sampled response, bin by bin -/

/-- bin of the sampled response at angular frequency `w = 2π(k - n/2)/tw`: a sum over the delays on the grid -/
theorem response_bin {o : Obj} {n : ℕ} (he : n % 2 = 0) {tw : ℝ} (htw : tw ≠ 0) (f : ℝ) (k : Fin n) {w : ℝ}
    (hw : w = 2 * Real.pi * ((k : ℕ) - (n : ℝ) / 2) / tw) :
    responseFT f tw (normalise (truncate fun i : Fin n => kernelFun o (((i : ℕ) - (n : ℝ) / 2) * (tw / n)))
      fun i : Fin n => ((i : ℕ) - (n : ℝ) / 2) * (tw / n)) k = ((1 - f : ℝ) : ℂ) + (f : ℂ) *
        ((((tw / n : ℝ) : ℂ) * ∑ m ∈ Finset.range (n / 2), ((kernelFun o (m * (tw / n)) : ℝ) : ℂ) * exp (I * w * ((m * (tw / n) : ℝ) : ℂ))) /
          (gridArea n (kernelFun o) (tw / n) : ℝ)) := by
  have hn0 : 0 < n := by have := k.isLt; omega
  have hn : (n : ℂ) ≠ 0 := by exact_mod_cast hn0.ne'
  obtain ⟨q, hq⟩ : ∃ q, n = q + 1 := ⟨n - 1, by omega⟩
  have hZ : trapzX (truncate fun i : Fin n => kernelFun o (((i : ℕ) - (n : ℝ) / 2) * (tw / n))) (fun i : Fin n => ((i : ℕ) - (n : ℝ) / 2) * (tw / n)) =
      gridArea n (kernelFun o) (tw / n) := trapz_kernel he q hq (tw / n)
  unfold responseFT normalise
  rw [hZ]
  generalize gridArea n (kernelFun o) (tw / n) = Z
  have e0 : ifftshift (ifft (fftshift fun i : Fin n =>
      ((f * (truncate (fun i : Fin n => kernelFun o (((i : ℕ) - (n : ℝ) / 2) * (tw / n))) i / Z) : ℝ) : ℂ))) k =
      fftT (fun i : Fin n => ((f * (truncate (fun i : Fin n => kernelFun o (((i : ℕ) - (n : ℝ) / 2) * (tw / n))) i / Z) : ℝ) : ℂ)) k := rfl
  rw [e0, fftT_apply_even he, ← sum_roll ((n / 2 : ℕ) : ℤ)]
  have e1 : ∀ m : Fin n, ((f * (truncate (fun i : Fin n => kernelFun o (((i : ℕ) - (n : ℝ) / 2) * (tw / n))) (rollIdx ((n / 2 : ℕ) : ℤ) m) / Z) : ℝ) : ℂ) *
      rootE n (((rollIdx ((n / 2 : ℕ) : ℤ) m : ℕ) - (n / 2 : ℕ) : ℤ) * ((k : ℕ) - (n / 2 : ℕ) : ℤ)) =
      if (m : ℕ) < n / 2 then (f : ℂ) / Z * (((kernelFun o ((m : ℕ) * (tw / n)) : ℝ) : ℂ) * exp (I * w * (((m : ℕ) * (tw / n) : ℝ) : ℂ))) else 0 := by
    intro m
    rw [kernel_at he]
    split_ifs with hm
    · have hi : ((rollIdx ((n / 2 : ℕ) : ℤ) m : Fin n) : ℕ) = m + n / 2 := by
        have hc := rollIdx_coe (n := n) ((n / 2 : ℕ) : ℤ) m
        have : (((m : ℕ) : ℤ) - ((n / 2 : ℕ) : ℤ)) % n = m + n / 2 := by
          rw [← Int.add_emod_right, Int.emod_eq_of_lt] <;> omega
        omega
      rw [hi]
      have h2 : ((n / 2 : ℕ) : ℝ) = (n : ℝ) / 2 := by rw [Nat.cast_div (by omega) (by norm_num)]; norm_num
      have h3 : ((n / 2 : ℕ) : ℂ) = (n : ℂ) / 2 := by rw [Nat.cast_div (by omega) (by norm_num)]; norm_num
      have htw' : (tw : ℂ) ≠ 0 := by exact_mod_cast htw
      have e2 : rootE n ((((m : ℕ) + n / 2 : ℕ) - (n / 2 : ℕ) : ℤ) * ((k : ℕ) - (n / 2 : ℕ) : ℤ)) = exp (I * w * (((m : ℕ) * (tw / n) : ℝ) : ℂ)) := by
        have ec : ∀ q : ℕ, ((((((m : ℕ) + q : ℕ) : ℤ) - (q : ℤ)) * (((k : ℕ) : ℤ) - (q : ℤ)) : ℤ) : ℂ) = ((m : ℕ) : ℂ) * (((k : ℕ) : ℂ) - (q : ℂ)) := by
          intro q
          push_cast
          ring
        unfold rootE
        congr 1
        rw [ec, h3, hw]
        push_cast
        field_simp
      rw [e2]
      push_cast
      ring
    · simp
  simp only [e1]
  rw [sum_half n fun m => (f : ℂ) / Z * (((kernelFun o ((m : ℕ) * (tw / n)) : ℝ) : ℂ) * exp (I * w * (((m : ℕ) * (tw / n) : ℝ) : ℂ))), ← Finset.mul_sum]
  push_cast
  ring

theorem complex_riemann {k : ℝ → ℝ} (hk : ContDiff ℝ 1 k) {T : ℝ} (hT : 0 < T) (w : ℝ) : ∃ C, 0 ≤ C ∧ ∀ n : ℕ, 0 < n → n % 2 = 0 →
    ‖((T / n : ℝ) : ℂ) * ∑ m ∈ Finset.range (n / 2), ((k (m * (T / n)) : ℝ) : ℂ) * exp (I * w * ((m * (T / n) : ℝ) : ℂ)) -
      ∫ t in (0 : ℝ)..T / 2, (k t : ℂ) * exp (I * w * t)‖ ≤ C / n := by
  have hc : ContDiff ℝ 1 fun t => k t * Real.cos (w * t) := hk.mul (Real.contDiff_cos.comp (contDiff_const.mul contDiff_id))
  have hs : ContDiff ℝ 1 fun t => k t * Real.sin (w * t) := hk.mul (Real.contDiff_sin.comp (contDiff_const.mul contDiff_id))
  obtain ⟨D1, hD1, hL1⟩ := lipschitz_of_contDiff hc (T / 2)
  obtain ⟨D2, hD2, hL2⟩ := lipschitz_of_contDiff hs (T / 2)
  refine ⟨(D1 + D2) * T * (T / 2), by positivity, fun n hn he => ?_⟩
  have hn' : (0 : ℝ) < n := by exact_mod_cast hn
  have hw := half_width he hn T
  have r1 := riemann (f := fun t => k t * Real.cos (w * t)) (d := T / n) (by positivity) hD1 (n / 2) hc.continuous.continuousOn (by rw [hw]; exact hL1)
  have r2 := riemann (f := fun t => k t * Real.sin (w * t)) (d := T / n) (by positivity) hD2 (n / 2) hs.continuous.continuousOn (by rw [hw]; exact hL2)
  rw [hw] at r1 r2
  have ex : ∀ t : ℝ, (k t : ℂ) * exp (I * w * t) = ((k t * Real.cos (w * t) : ℝ) : ℂ) + ((k t * Real.sin (w * t) : ℝ) : ℂ) * I := by
    intro t
    rw [show I * w * t = ((w * t : ℝ) : ℂ) * I by push_cast; ring, exp_mul_I]
    push_cast
    ring
  have i1 : (∫ t in (0 : ℝ)..T / 2, (k t : ℂ) * exp (I * w * t)) =
      ((∫ t in (0 : ℝ)..T / 2, k t * Real.cos (w * t) : ℝ) : ℂ) + ((∫ t in (0 : ℝ)..T / 2, k t * Real.sin (w * t) : ℝ) : ℂ) * I := by
    simp only [ex]
    rw [intervalIntegral.integral_add, intervalIntegral.integral_mul_const, intervalIntegral.integral_ofReal, intervalIntegral.integral_ofReal]
    · exact (Complex.continuous_ofReal.comp hc.continuous).intervalIntegrable _ _
    · exact ((Complex.continuous_ofReal.comp hs.continuous).mul continuous_const).intervalIntegrable _ _
  rw [i1]
  simp only [ex, Finset.sum_add_distrib, ← Finset.sum_mul, ← Complex.ofReal_sum]
  set S1 := ∑ m ∈ Finset.range (n / 2), k (m * (T / n)) * Real.cos (w * (m * (T / n)))
  set S2 := ∑ m ∈ Finset.range (n / 2), k (m * (T / n)) * Real.sin (w * (m * (T / n)))
  set J1 := ∫ t in (0 : ℝ)..T / 2, k t * Real.cos (w * t)
  set J2 := ∫ t in (0 : ℝ)..T / 2, k t * Real.sin (w * t)
  have e : ((T / n : ℝ) : ℂ) * ((S1 : ℂ) + (S2 : ℂ) * I) - ((J1 : ℂ) + (J2 : ℂ) * I) = -((J1 - T / n * S1 : ℝ) : ℂ) - ((J2 - T / n * S2 : ℝ) : ℂ) * I := by
    push_cast
    ring
  rw [e]
  refine (norm_sub_le _ _).trans ?_
  rw [norm_neg, norm_mul, norm_I, mul_one, Complex.norm_real, Complex.norm_real, Real.norm_eq_abs, Real.norm_eq_abs]
  calc |J1 - T / n * S1| + |J2 - T / n * S2| ≤ D1 * (T / n) * (T / 2) + D2 * (T / n) * (T / 2) := add_le_add r1 r2
    _ = _ := by ring

/-- the normalised sum over the delays tends to the normalised integral -/
theorem sample_limit {k : ℝ → ℝ} (hk : ContDiff ℝ 1 k) {T : ℝ} (hT : 0 < T) (hA : 0 < ∫ t in (0 : ℝ)..T / 2, k t) (w : ℝ) :
    ∃ (C : ℝ) (n0 : ℕ), 0 ≤ C ∧ ∀ n : ℕ, n0 ≤ n → 0 < n → n % 2 = 0 →
      ‖(((T / n : ℝ) : ℂ) * ∑ m ∈ Finset.range (n / 2), ((k (m * (T / n)) : ℝ) : ℂ) * exp (I * w * ((m * (T / n) : ℝ) : ℂ))) / (gridArea n k (T / n) : ℝ) -
        (∫ t in (0 : ℝ)..T / 2, (k t : ℂ) * exp (I * w * t)) / ((∫ t in (0 : ℝ)..T / 2, k t : ℝ) : ℂ)‖ ≤ C / n := by
  obtain ⟨C1, hC1, h1⟩ := complex_riemann hk hT w
  obtain ⟨B, hB0, hB⟩ := bounded_of_continuous hk.continuous (T / 2)
  obtain ⟨D, hD0, hD⟩ := lipschitz_of_contDiff hk (T / 2)
  set A := ∫ t in (0 : ℝ)..T / 2, k t with hAdef
  set J := ∫ t in (0 : ℝ)..T / 2, (k t : ℂ) * exp (I * w * t) with hJ
  set C2 := (D * (T / 2) + B / 2) * T with hC2
  have hC2' : 0 ≤ C2 := by positivity
  obtain ⟨n0, hn0⟩ := exists_nat_ge (2 * C2 / A)
  refine ⟨2 / A * C1 + ‖J‖ * (2 / A ^ 2) * C2, n0, by positivity, fun n hnn hn he => ?_⟩
  have hn' : (0 : ℝ) < n := by exact_mod_cast hn
  have h2 := area_error (n := n) hT hk.continuous hB hD0 hD hn he
  rw [← hAdef] at h2
  set Z := gridArea n k (T / n) with hZ
  have h2' : |Z - A| ≤ C2 / n := h2.trans (le_of_eq (by rw [hC2]; ring))
  have hsmall : C2 / n ≤ A / 2 := by
    rw [div_le_iff₀ hn']
    have : 2 * C2 / A ≤ n := hn0.trans (by exact_mod_cast hnn)
    rw [div_le_iff₀ hA] at this
    nlinarith
  have hZA : A / 2 ≤ Z := by
    have := (abs_le.1 h2').1
    linarith
  have hZ0 : 0 < Z := by linarith
  have h3 := h1 n hn he
  set S := ((T / n : ℝ) : ℂ) * ∑ m ∈ Finset.range (n / 2), ((k (m * (T / n)) : ℝ) : ℂ) * exp (I * w * ((m * (T / n) : ℝ) : ℂ)) with hS
  have cZ : (Z : ℂ) ≠ 0 := by exact_mod_cast hZ0.ne'
  have cA : (A : ℂ) ≠ 0 := by exact_mod_cast hA.ne'
  have e : S / Z - J / A = (S - J) / Z + J * (((A - Z : ℝ) : ℂ) / ((Z * A : ℝ) : ℂ)) := by
    push_cast
    field_simp
    ring
  rw [e]
  refine (norm_add_le _ _).trans ?_
  rw [norm_div, norm_mul, norm_div, Complex.norm_real, Complex.norm_real, Complex.norm_real, Real.norm_eq_abs, Real.norm_eq_abs, Real.norm_eq_abs,
    abs_of_pos hZ0, abs_of_pos (mul_pos hZ0 hA), abs_sub_comm]
  have b1 : ‖S - J‖ / Z ≤ 2 / A * (C1 / n) := by
    rw [div_le_iff₀ hZ0]
    have : 1 ≤ 2 / A * Z := by
      rw [div_mul_eq_mul_div, le_div_iff₀ hA]
      linarith
    calc ‖S - J‖ ≤ C1 / n := h3
      _ ≤ C1 / n * (2 / A * Z) := le_mul_of_one_le_right (by positivity) this
      _ = _ := by ring
  have b2 : |Z - A| / (Z * A) ≤ 2 / A ^ 2 * (C2 / n) := by
    rw [div_le_iff₀ (mul_pos hZ0 hA)]
    have : 1 ≤ 2 / A ^ 2 * (Z * A) := by
      rw [div_mul_eq_mul_div, le_div_iff₀ (by positivity)]
      nlinarith
    calc |Z - A| ≤ C2 / n := h2'
      _ ≤ C2 / n * (2 / A ^ 2 * (Z * A)) := le_mul_of_one_le_right (by positivity) this
      _ = _ := by ring
  calc ‖S - J‖ / Z + ‖J‖ * (|Z - A| / (Z * A)) ≤ 2 / A * (C1 / n) + ‖J‖ * (2 / A ^ 2 * (C2 / n)) :=
        add_le_add b1 (mul_le_mul_of_nonneg_left b2 (norm_nonneg _))
    _ = _ := by ring

/-! ## the rest of the response beyond the window -/

/-- bound for the total variation of the isotropic response -/
noncomputable def ramanMass (τ1 τ2 : ℝ) : ℝ := (τ1 ^ 2 + τ2 ^ 2) / (τ1 * τ2)

theorem isotropic_le {τ1 τ2 : ℝ} (h1 : 0 < τ1) (h2 : 0 < τ2) (t : ℝ) :
    |RamanSpec.isotropic τ1 τ2 t| ≤ ramanMass τ1 τ2 / τ2 * Real.exp (-(1 / τ2) * t) := by
  unfold RamanSpec.isotropic ramanMass
  have e : τ1 * (1 / τ1 ^ 2 + 1 / τ2 ^ 2) = (τ1 ^ 2 + τ2 ^ 2) / (τ1 * τ2) / τ2 := by
    field_simp
    ring
  rw [e, show -(1 / τ2) * t = -t / τ2 by ring, abs_mul, abs_of_pos (by positivity)]
  exact mul_le_of_le_one_right (by positivity) (Real.abs_sin_le_one _)

theorem wave_integrable {τ1 τ2 : ℝ} (h1 : 0 < τ1) (h2 : 0 < τ2) (w : ℝ) :
    IntegrableOn (fun t : ℝ => (RamanSpec.isotropic τ1 τ2 t : ℂ) * exp (I * w * t)) (Ioi 0) := by
  obtain ⟨hi, -⟩ := damped_wave h1 h2 w
  have e : (fun t : ℝ => (RamanSpec.isotropic τ1 τ2 t : ℂ) * exp (I * w * t)) = fun t : ℝ => ((τ1 * (1 / τ1 ^ 2 + 1 / τ2 ^ 2) : ℝ) : ℂ) *
      (((Real.exp (-t / τ2) * Real.sin (t / τ1) : ℝ) : ℂ) * exp (I * w * t)) := by
    funext t
    unfold RamanSpec.isotropic
    push_cast
    ring
  rw [e]
  exact hi.const_mul _

theorem norm_wave (w t x : ℝ) : ‖(x : ℂ) * exp (I * w * t)‖ = |x| := by
  rw [norm_mul, show I * w * t = ((w * t : ℝ) : ℂ) * I by push_cast; ring, Complex.norm_exp_ofReal_mul_I, mul_one, Complex.norm_real, Real.norm_eq_abs]

theorem wave_le {τ1 τ2 : ℝ} (h1 : 0 < τ1) (h2 : 0 < τ2) (w : ℝ) {X : ℝ} :
    ‖∫ t in Ioi X, (RamanSpec.isotropic τ1 τ2 t : ℂ) * exp (I * w * t)‖ ≤ ramanMass τ1 τ2 * Real.exp (-X / τ2) := by
  have hneg : -(1 / τ2) < 0 := by
    have : 0 < 1 / τ2 := by positivity
    linarith
  have hint : IntegrableOn (fun t : ℝ => ramanMass τ1 τ2 / τ2 * Real.exp (-(1 / τ2) * t)) (Ioi X) := (integrableOn_exp_mul_Ioi hneg X).const_mul _
  refine (norm_integral_le_of_norm_le hint (Filter.Eventually.of_forall fun t => ?_)).trans (le_of_eq ?_)
  · rw [norm_wave]
    exact isotropic_le h1 h2 t
  · rw [integral_const_mul, integral_exp_mul_Ioi hneg, show -(1 / τ2) * X = -X / τ2 by ring]
    field_simp

theorem wave_tail {τ1 τ2 : ℝ} (h1 : 0 < τ1) (h2 : 0 < τ2) (w : ℝ) {X : ℝ} (hX : 0 ≤ X) :
    ‖(∫ t in (0 : ℝ)..X, (RamanSpec.isotropic τ1 τ2 t : ℂ) * exp (I * w * t)) - ∫ t in Ioi (0 : ℝ), (RamanSpec.isotropic τ1 τ2 t : ℂ) * exp (I * w * t)‖ ≤
      ramanMass τ1 τ2 * Real.exp (-X / τ2) := by
  rw [← intervalIntegral.integral_Ioi_sub_Ioi (wave_integrable h1 h2 w) hX, sub_sub_cancel_left, norm_neg]
  exact wave_le h1 h2 w

/-- cutting the response off at `X` and normalising what is left -/
theorem cut_error {τ1 τ2 : ℝ} (h1 : 0 < τ1) (h2 : 0 < τ2) (w : ℝ) {X : ℝ} (hX : 0 ≤ X) (hsmall : ramanMass τ1 τ2 * Real.exp (-X / τ2) ≤ 1 / 2) :
    ‖(∫ t in (0 : ℝ)..X, (RamanSpec.isotropic τ1 τ2 t : ℂ) * exp (I * w * t)) / ((∫ t in (0 : ℝ)..X, RamanSpec.isotropic τ1 τ2 t : ℝ) : ℂ) -
      ∫ t in Ioi (0 : ℝ), (RamanSpec.isotropic τ1 τ2 t : ℂ) * exp (I * w * t)‖ ≤ 2 * (1 + ramanMass τ1 τ2) * (ramanMass τ1 τ2 * Real.exp (-X / τ2)) := by
  set ε := ramanMass τ1 τ2 * Real.exp (-X / τ2) with hε
  set A := ∫ t in (0 : ℝ)..X, RamanSpec.isotropic τ1 τ2 t with hA
  set J := ∫ t in (0 : ℝ)..X, (RamanSpec.isotropic τ1 τ2 t : ℂ) * exp (I * w * t) with hJ
  set H := ∫ t in Ioi (0 : ℝ), (RamanSpec.isotropic τ1 τ2 t : ℂ) * exp (I * w * t) with hH
  have t1 : ‖J - H‖ ≤ ε := wave_tail h1 h2 w hX
  have t2 : |A - 1| ≤ ε := by
    have := wave_tail h1 h2 0 hX
    simp only [Complex.ofReal_zero, mul_zero, zero_mul, Complex.exp_zero, mul_one] at this
    have hI : (∫ t in Ioi (0 : ℝ), (RamanSpec.isotropic τ1 τ2 t : ℂ)) = ((∫ t in Ioi (0 : ℝ), RamanSpec.isotropic τ1 τ2 t : ℝ) : ℂ) := integral_ofReal
    rw [intervalIntegral.integral_ofReal, hI, (isotropic_integral h1 h2).2] at this
    rw [← Real.norm_eq_abs, ← Complex.norm_real]
    push_cast at this ⊢
    exact this
  have t3 : ‖H‖ ≤ ramanMass τ1 τ2 := by
    have := wave_le h1 h2 w (X := 0)
    simpa using this
  have hA2 : 1 / 2 ≤ A := by
    have := (abs_le.1 t2).1
    linarith
  have hA0 : 0 < A := by linarith
  have cA : (A : ℂ) ≠ 0 := by exact_mod_cast hA0.ne'
  have e : J / A - H = ((J - H) - H * ((A - 1 : ℝ) : ℂ)) / A := by
    push_cast
    field_simp
    ring
  have hε0 : 0 ≤ ε := (norm_nonneg _).trans t1
  rw [e, norm_div, Complex.norm_real, Real.norm_eq_abs, abs_of_pos hA0, div_le_iff₀ hA0]
  have hm : 0 ≤ ramanMass τ1 τ2 := (norm_nonneg _).trans t3
  calc ‖(J - H) - H * ((A - 1 : ℝ) : ℂ)‖ ≤ ‖J - H‖ + ‖H‖ * |A - 1| := by
        refine (norm_sub_le _ _).trans ?_
        rw [norm_mul, Complex.norm_real, Real.norm_eq_abs]
    _ ≤ ε + ramanMass τ1 τ2 * ε := add_le_add t1 (mul_le_mul t3 t2 (abs_nonneg _) hm)
    _ = (1 + ramanMass τ1 τ2) * ε := by ring
    _ ≤ 2 * (1 + ramanMass τ1 τ2) * ε * A := by
        have : 0 ≤ (1 + ramanMass τ1 τ2) * ε := by positivity
        nlinarith

/-! ## what the solver loads -/

theorem shift_index {n : ℕ} (g : Globals) (i : Fin n) : ∃ k : Fin n, ∀ {α : Type} (x : Fin n → α), g.shift x i = x k := by
  unfold Globals.shift
  rcases g.preShift
  · exact ⟨i, fun _ => rfl⟩
  · exact ⟨rollIdx ((n / 2 : ℕ) : ℤ) i, fun _ => rfl⟩

theorem setupG_cases {g : Globals} {o : Obj} {p : Pulse} {F : FibObj} {a : Fin p.n → ℂ} (h : Holds p a) {P : Params p.n} {A : Fin p.n → ℂ} {fR : ℝ}
    (hs : setupG g o p F = .ok (P, A, fR)) : ∃ R0 R, ramanG g o p (fun i : Fin p.n => 2 * Real.pi * ((i : ℕ) - (p.n : ℝ) / 2) / p.tw) = .ok (R0, fR) ∧
      fill p.n R0 = .ok R ∧ P.R = g.shift R ∧ P.omegas = g.shift fun i : Fin p.n => 2 * Real.pi * ((i : ℕ) - (p.n : ℝ) / 2) / p.tw := by
  unfold setupG at hs
  have hV : p.V_THz = .ok ⟨p.n, fun i => 2 * Real.pi * ((i : ℕ) - (p.n : ℝ) / 2) / p.tw⟩ := h.V_eq
  rw [hV] at hs
  simp only [except_bind_ok, fill_mk] at hs
  rcases hg : Fiber.getGain F.specs F.fib p with e | gain
  · rw [hg] at hs; simp [Bind.bind, Except.bind] at hs
  rw [hg] at hs
  simp only [except_bind_ok] at hs
  rcases ha : fill p.n (gain.map (-1 * ·)) with e | al
  · rw [ha] at hs; simp [Bind.bind, Except.bind] at hs
  rw [ha] at hs
  simp only [except_bind_ok] at hs
  rcases hr : ramanG g o p (fun i : Fin p.n => 2 * Real.pi * ((i : ℕ) - (p.n : ℝ) / 2) / p.tw) with e | ⟨R0, f⟩
  · rw [hr] at hs; simp [Bind.bind, Except.bind] at hs
  rw [hr] at hs
  simp only [except_bind_ok] at hs
  rcases hf : fill p.n R0 with e | R
  · rw [hf] at hs; simp [Bind.bind, Except.bind] at hs
  rw [hf, h.AT_eq] at hs
  simp only [except_bind_ok, fill_mk, Except.ok.injEq, Prod.mk.injEq] at hs
  obtain ⟨e1, -, e3⟩ := hs
  subst e3
  exact ⟨R0, R, rfl, hf, by rw [← e1], by rw [← e1]⟩

/-- the response loaded with the switch off -/
theorem loaded_time {pre : Bool} {o : Obj} {p : Pulse} {F : FibObj} {a : Fin p.n → ℂ} (h : Holds p a) (hR : o.disableRaman = false) {P : Params p.n}
    {A : Fin p.n → ℂ} {fR : ℝ} (hs : setupG ⟨pre, false⟩ o p F = .ok (P, A, fR)) : fR = fraction o ∧
      P.R = Globals.shift ⟨pre, false⟩ (responseFT fR p.tw (normalise (truncate fun i : Fin p.n => kernelFun o (((i : ℕ) - (p.n : ℝ) / 2) * (p.tw / p.n)))
        fun i : Fin p.n => ((i : ℕ) - (p.n : ℝ) / 2) * (p.tw / p.n))) := by
  obtain ⟨R0, R, hr, hf, e, -⟩ := setupG_cases h hs
  rw [on_raman] at hr
  have hT : p.T_ps = .ok ⟨p.n, fun i => ((i : ℕ) - (p.n : ℝ) / 2) * (p.tw / p.n)⟩ := h.T_eq
  unfold ramanR at hr
  rw [hR, if_neg (by simp)] at hr
  by_cases ht : o.tau1 * o.tau2 ^ 2 = 0
  · rw [if_pos ht] at hr; simp at hr
  rw [if_neg ht, hT] at hr
  simp only [except_bind_ok] at hr
  unfold kernelFun fraction
  rcases hS : o.simpleRaman
  · rw [hS] at hr
    simp only [Bool.false_eq_true, if_false, Except.ok.injEq, Prod.mk.injEq] at hr
    obtain ⟨q1, q2⟩ := hr
    rw [← q1, fill_mk] at hf
    rw [e, ← Except.ok.inj hf, ← q2]
    exact ⟨by simp, rfl⟩
  · rw [hS] at hr
    simp only [if_true, Except.ok.injEq, Prod.mk.injEq] at hr
    obtain ⟨q1, q2⟩ := hr
    rw [← q1, fill_mk] at hf
    rw [e, ← Except.ok.inj hf, ← q2]
    exact ⟨by simp, rfl⟩

/-- the response loaded with the switch on -/
theorem loaded_freq {pre : Bool} {o : Obj} {p : Pulse} {F : FibObj} {a : Fin p.n → ℂ} (h : Holds p a) (hR : o.disableRaman = false) {P : Params p.n}
    {A : Fin p.n → ℂ} {fR : ℝ} (hs : setupG ⟨pre, true⟩ o p F = .ok (P, A, fR)) :
      (∃ R, ramanR o p = .ok (R, fR)) ∧ ∀ i, P.R i = ramanR0 o.tau1 o.tau2 o.fR (P.omegas i) := by
  obtain ⟨R0, R, hr, hf, e, eo⟩ := setupG_cases h hs
  unfold ramanG at hr
  rcases hq : ramanR o p with e' | ⟨R', f'⟩
  · rw [hq] at hr; simp [Bind.bind, Except.bind] at hr
  rw [hq] at hr
  simp only [except_bind_ok] at hr
  rw [if_pos ⟨hR, trivial⟩] at hr
  obtain ⟨q1, q2⟩ := Prod.mk.inj (Except.ok.inj hr)
  rw [← q1, fill_mk] at hf
  refine ⟨⟨R', by rw [q2]⟩, fun i => ?_⟩
  rw [e, eo, ← Except.ok.inj hf]
  obtain ⟨k, hk⟩ := shift_index ⟨pre, true⟩ i
  rw [hk, hk]

/-- C137, switch off (any kernel): at a fixed frequency the response tends, with the number of points, to the transform of the kernel cut off
at half the window and normalised, at the rate of one over the number of points. -/
theorem C137_sampled {o : Obj} (hR : o.disableRaman = false) (h1 : 0 < o.tau1) (h2 : 0 < o.tau2) {T : ℝ} (hT : 0 < T) (w : ℝ) :
    ∃ (C : ℝ) (n0 : ℕ), 0 ≤ C ∧ ∀ {p : Pulse} {a : Fin p.n → ℂ}, Holds p a → p.tw = T → p.n % 2 = 0 → n0 ≤ p.n → ∀ {pre : Bool} {F : FibObj} {P A fR},
      setupG ⟨pre, false⟩ o p F = .ok (P, A, fR) → ∀ i, P.omegas i = w → ‖P.R i - (((1 - fraction o : ℝ) : ℂ) + (fraction o : ℂ) *
        ((∫ t in (0 : ℝ)..T / 2, (kernelFun o t : ℂ) * exp (I * w * t)) / ((∫ t in (0 : ℝ)..T / 2, kernelFun o t : ℝ) : ℂ)))‖ ≤ |fraction o| * (C / p.n) := by
  obtain ⟨C, n0, hC, h⟩ := sample_limit ((kernel_contDiff o).of_le (by exact_mod_cast le_top)) hT (kernel_area_pos h1 h2 (half_pos hT)) w
  refine ⟨C, n0, hC, fun {p a} hp htw he hn {pre F P A fR} hs i hi => ?_⟩
  obtain ⟨hf, hPR⟩ := loaded_time hp hR hs
  obtain ⟨-, -, -, -, -, hom⟩ := setupG_cases hp hs
  obtain ⟨k, hk⟩ := shift_index ⟨pre, false⟩ i
  rw [hom, hk] at hi
  rw [hPR, hk, htw]
  rw [htw] at hi
  rw [response_bin he hT.ne' fR k hi.symm, hf, add_sub_add_left_eq_sub, ← mul_sub, norm_mul, Complex.norm_real, Real.norm_eq_abs]
  exact mul_le_mul_of_nonneg_left (h p.n hn hp.pos he) (abs_nonneg _)

/-- C137: for the simple kernel the two ways to compute the response agree, at each frequency, up to a term that falls like one over the number of
points and a term that falls exponentially with the width of the time window. -/
theorem C137_agree {o : Obj} (hS : o.simpleRaman = true) (hR : o.disableRaman = false) (h1 : 0 < o.tau1) (h2 : 0 < o.tau2) {T : ℝ} (hT : 0 < T)
    (hw : ramanMass o.tau1 o.tau2 * Real.exp (-(T / 2) / o.tau2) ≤ 1 / 2) (w : ℝ) :
    ∃ (C : ℝ) (n0 : ℕ), 0 ≤ C ∧ ∀ {p : Pulse} {a : Fin p.n → ℂ}, Holds p a → p.tw = T → p.n % 2 = 0 → n0 ≤ p.n → ∀ {pre : Bool} {F : FibObj} {P0 A0 f0 P1 A1 f1},
      setupG ⟨pre, false⟩ o p F = .ok (P0, A0, f0) → setupG ⟨pre, true⟩ o p F = .ok (P1, A1, f1) → ∀ i, P0.omegas i = w →
        ‖P0.R i - P1.R i‖ ≤ |o.fR| * (C / p.n + 2 * (1 + ramanMass o.tau1 o.tau2) * (ramanMass o.tau1 o.tau2 * Real.exp (-(T / 2) / o.tau2))) := by
  obtain ⟨C, n0, hC, h⟩ := C137_sampled hR h1 h2 hT w
  refine ⟨C, n0, hC, fun {p a} hp htw he hn {pre F P0 A0 f0 P1 A1 f1} hs0 hs1 i hi => ?_⟩
  have e1 := h hp htw he hn hs0 i hi
  have hfr : fraction o = o.fR := by unfold fraction; rw [if_pos hS]
  obtain ⟨-, -, -, -, -, hom0⟩ := setupG_cases hp hs0
  obtain ⟨-, -, -, -, -, hom1⟩ := setupG_cases hp hs1
  have hi1 : P1.omegas i = w := by rw [hom1, ← hi, hom0]; rfl
  have e2 := (loaded_freq hp hR hs1).2 i
  rw [hi1, C137_transform h1 h2] at e2
  rw [hfr, C131_simple hS h1.ne' h2.ne'] at e1
  have e3 := cut_error h1 h2 w (half_pos hT).le hw
  set J := (∫ t in (0 : ℝ)..T / 2, (RamanSpec.isotropic o.tau1 o.tau2 t : ℂ) * exp (I * w * t)) / ((∫ t in (0 : ℝ)..T / 2, RamanSpec.isotropic o.tau1 o.tau2 t : ℝ) : ℂ)
  set H := ∫ t in Ioi (0 : ℝ), (RamanSpec.isotropic o.tau1 o.tau2 t : ℂ) * exp (I * w * t)
  rw [e2]
  have e : P0.R i - (((1 - o.fR : ℝ) : ℂ) + (o.fR : ℂ) * H) = (P0.R i - (((1 - o.fR : ℝ) : ℂ) + (o.fR : ℂ) * J)) + (o.fR : ℂ) * (J - H) := by ring
  rw [e, mul_add]
  refine (norm_add_le _ _).trans (add_le_add e1 ?_)
  rw [norm_mul, Complex.norm_real, Real.norm_eq_abs]
  exact mul_le_mul_of_nonneg_left e3 (abs_nonneg _)

theorem ramanR0_ne {τ1 τ2 : ℝ} (h1 : 0 < τ1) (h2 : 0 < τ2) {f f' w : ℝ} (hf : f ≠ f') (hw : w ≠ 0) : ramanR0 τ1 τ2 f w ≠ ramanR0 τ1 τ2 f' w := by
  intro h
  have him := (C137_stokes h1 h2 one_pos w)
  have e : ∀ f : ℝ, (ramanR0 τ1 τ2 f w).im = f * (ramanR0 τ1 τ2 1 w).im := by
    intro f
    unfold ramanR0
    simp only [Complex.add_im, Complex.ofReal_im, Complex.im_ofReal_mul, zero_add, one_mul, sub_self]
  have h3 := congrArg Complex.im h
  rw [e f, e f'] at h3
  have h4 : (ramanR0 τ1 τ2 1 w).im ≠ 0 := by
    rcases lt_or_gt_of_ne hw with hw | hw
    · exact (him.2 hw).ne
    · exact (him.1 hw).ne'
  exact hf (mul_right_cancel₀ h4 h3)

/-- C137 fails for the default settings: with the switch on, the response uses the fraction the user gave, but the call then stores 0.245; the
next call with the same solver object uses another response, at every frequency but the centre. -/
theorem C137_repeat_refuted {pre : Bool} {o : Obj} {p : Pulse} {F : FibObj} {a : Fin p.n → ℂ} (h : Holds p a) (hR : o.disableRaman = false)
    (hS : o.simpleRaman = false) (h1 : 0 < o.tau1) (h2 : 0 < o.tau2) (hf : o.fR ≠ 0.245) {P : Params p.n} {A : Fin p.n → ℂ} {fR : ℝ}
    (hs : setupG ⟨pre, true⟩ o p F = .ok (P, A, fR)) {P' : Params p.n} {A' : Fin p.n → ℂ} {fR' : ℝ}
    (hs' : setupG ⟨pre, true⟩ { o with fR := fR } p F = .ok (P', A', fR')) : P'.omegas = P.omegas ∧ ∀ i, P.omegas i ≠ 0 → P'.R i ≠ P.R i := by
  obtain ⟨⟨R, hr⟩, e⟩ := loaded_freq h hR hs
  have hfR : fR = 0.245 := (C49_fraction_refuted o.fR (p := p) hR hS).2 R fR hr
  obtain ⟨-, e'⟩ := loaded_freq h (o := { o with fR := fR }) hR hs'
  obtain ⟨-, -, -, -, -, ho⟩ := setupG_cases h hs
  obtain ⟨-, -, -, -, -, ho'⟩ := setupG_cases h hs'
  have hoo : P'.omegas = P.omegas := ho'.trans ho.symm
  refine ⟨hoo, fun i hi => ?_⟩
  rw [e, e', hoo]
  exact ramanR0_ne h1 h2 (by show fR ≠ o.fR; rw [hfR]; exact hf.symm) hi

theorem setupG_ok {o : Obj} {p : Pulse} {F : FibObj} {a : Fin p.n → ℂ} (h : Holds p a) {P : Params p.n} {A : Fin p.n → ℂ} {fR : ℝ}
    (hs : setup o p F = .ok (P, A, fR)) (g : Globals) : ∃ P' A' fR', setupG g o p F = .ok (P', A', fR') := by
  obtain ⟨gain, al, R0, R, hg, ha, hr, hf, -, -⟩ := setup_cases h hs
  have hV : p.V_THz = .ok ⟨p.n, fun i => 2 * Real.pi * ((i : ℕ) - (p.n : ℝ) / 2) / p.tw⟩ := h.V_eq
  have hG : ∃ R1 R2, ramanG g o p (fun i : Fin p.n => 2 * Real.pi * ((i : ℕ) - (p.n : ℝ) / 2) / p.tw) = .ok (R1, fR) ∧ fill p.n R1 = .ok R2 := by
    unfold ramanG
    rw [hr]
    simp only [except_bind_ok]
    split_ifs
    · exact ⟨_, _, rfl, fill_mk _⟩
    · exact ⟨_, _, rfl, hf⟩
  obtain ⟨R1, R2, h1, h2⟩ := hG
  unfold setupG
  rw [hV]
  simp only [except_bind_ok, fill_mk]
  rw [hg]
  simp only [except_bind_ok]
  rw [ha]
  simp only [except_bind_ok]
  rw [h1]
  simp only [except_bind_ok]
  rw [h2, h.AT_eq]
  simp only [except_bind_ok, fill_mk]
  exact ⟨_, _, _, rfl⟩

/-- C137 is not vacuous: with either value of the switch a generated fibre is set up for every pulse on at least two points, and the default time
constants with a window of 10 ps meet the condition on the window. -/
theorem C137_nonvacuous (polyfit : Fiber.PolyFit) (spline : Fiber.Spline) (g : Globals) : (∃ (p : Pulse) (a : Fin p.n → ℂ) (F : FibObj) (P : Params p.n) (A : Fin p.n → ℂ) (fR : ℝ),
    Holds p a ∧ p.n % 2 = 0 ∧ setupG g Obj.default p F = .ok (P, A, fR)) ∧
      ramanMass Obj.default.tau1 Obj.default.tau2 * Real.exp (-((10 : ℝ) / 2) / Obj.default.tau2) ≤ 1 / 2 := by
  constructor
  · have hp : Holds { gridPulse 4 with aw := some ⟨4, fun _ => 1⟩ } (fun _ : Fin 4 => (1 : ℂ)) := ⟨rfl, rfl, by norm_num, rfl⟩
    obtain ⟨r, o', F', h⟩ := C43_nonvacuous polyfit spline hp (by simp [gridPulse, Pulse.blank]) (le_of_eq_of_le (by rfl) (show 2 ≤ 4 by norm_num))
      (length := 1) (wl := 1) (gamma := 1) (gain := 0) (b := ⟨1, fun _ => 1⟩) (units := "") (label := "") (N := 2) one_ne_zero one_pos (by norm_num)
    obtain ⟨hN, L, out, P0, A, fR, P, F1, s, out', hL, hc, hs, hl, hseg, hset, hr, ho, -⟩ := propagate_cases h
    obtain ⟨P', A', f', h'⟩ := setupG_ok hp hs g
    exact ⟨_, _, _, P', A', f', hp, rfl, h'⟩
  · have e1 : ramanMass Obj.default.tau1 Obj.default.tau2 ≤ 4 := by
      unfold ramanMass
      norm_num [Obj.default]
    have e2 : Real.exp (-((10 : ℝ) / 2) / Obj.default.tau2) ≤ 1 / 8 := by
      have h1 : -((10 : ℝ) / 2) / Obj.default.tau2 ≤ -7 := by norm_num [Obj.default]
      have h2 := Real.add_one_le_exp (7 : ℝ)
      calc Real.exp (-((10 : ℝ) / 2) / Obj.default.tau2) ≤ Real.exp (-7) := Real.exp_le_exp.2 h1
        _ = (Real.exp 7)⁻¹ := Real.exp_neg 7
        _ ≤ (8 : ℝ)⁻¹ := inv_anti₀ (by norm_num) (by linarith)
        _ = 1 / 8 := by norm_num
    have h0 := Real.exp_pos (-((10 : ℝ) / 2) / Obj.default.tau2)
    nlinarith

end PyNLO
