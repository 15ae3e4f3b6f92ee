import Verif.Lemmas.Aliasing
import Verif.Props.Nlse

/-!
# The same field described about another centre frequency
-/

namespace PyNLO.Series

open Complex Set MeasureTheory

variable {T : ℝ}

/-- coefficients of a delayed and modulated function -/
theorem coef_shift (hT : 0 < T) {f : ℝ → ℂ} (hp : Function.Periodic f T) (m : ℤ) (c : ℂ) (τ : ℝ) (k : ℤ) :
    coef T (fun t => c * (exp (2 * Real.pi * I * m * (t + τ : ℝ) / T) * f (t + τ))) k =
      c * exp (-(2 * Real.pi * I * k * τ / T)) * coef T f (k + m) := by
  have hT' : (T : ℂ) ≠ 0 := by exact_mod_cast hT.ne'
  set g : ℝ → ℂ := fun x => exp (2 * Real.pi * I * (k + m : ℤ) * x / T) * f x with hg
  have hgp : Function.Periodic g T := fun x => by
    simp only [hg]
    rw [hp x]
    congr 1
    have e : 2 * (Real.pi : ℂ) * I * ((k + m : ℤ) : ℂ) * ((x + T : ℝ) : ℂ) / T = 2 * Real.pi * I * ((k + m : ℤ) : ℂ) * x / T + ((k + m : ℤ) : ℂ) * (2 * Real.pi * I) := by
      push_cast
      field_simp
    rw [e, Complex.exp_add, Complex.exp_int_mul_two_pi_mul_I, mul_one]
  have e1 : ∀ x : ℝ, exp (2 * Real.pi * I * k * x / T) * (c * (exp (2 * Real.pi * I * m * (x + τ : ℝ) / T) * f (x + τ))) =
      c * exp (-(2 * Real.pi * I * k * τ / T)) * g (x + τ) := by
    intro x
    simp only [hg]
    rw [show c * exp (-(2 * Real.pi * I * k * τ / T)) * (exp (2 * Real.pi * I * (k + m : ℤ) * (x + τ : ℝ) / T) * f (x + τ)) =
      c * (exp (-(2 * Real.pi * I * k * τ / T)) * exp (2 * Real.pi * I * (k + m : ℤ) * (x + τ : ℝ) / T)) * f (x + τ) by ring, ← Complex.exp_add,
      show exp (2 * Real.pi * I * k * x / T) * (c * (exp (2 * Real.pi * I * m * (x + τ : ℝ) / T) * f (x + τ))) =
      c * (exp (2 * Real.pi * I * k * x / T) * exp (2 * Real.pi * I * m * (x + τ : ℝ) / T)) * f (x + τ) by ring, ← Complex.exp_add]
    congr 3
    push_cast
    ring
  unfold coef
  simp only [e1]
  rw [intervalIntegral.integral_const_mul, intervalIntegral.integral_comp_add_right g τ, zero_add, add_comm T τ, hgp.intervalIntegral_add_eq τ 0, zero_add]
  ring

end PyNLO.Series

namespace PyNLO

open Complex Polynomial Set
open Alias
open Nlse hiding slope

/-- the discrete spectrum of the samples of a function: its coefficients, up to aliasing -/
theorem hasSum_toFreq {n : ℕ} {T : ℝ} (hT : 0 < T) (hn : 0 < n) (he : n % 2 = 0) {f : ℝ → ℂ} (hf : ContDiff ℝ (⊤ : ℕ∞) f) (hp : Function.Periodic f T) (l : Fin n) :
    HasSum (fun k : ℤ => if bin hn k = l then Series.coef T f k else 0) (fftT (fun i => f (time T n i)) l) := by
  have h1 : HasSum (fun k : ℤ => (Series.coef T f k • wave n k : Fin n → ℂ)) (fun i => f (time T n i)) := by
    refine Pi.hasSum.2 fun i => ?_
    have := Series.hasSum_coef hT hf hp (time T n i)
    have e : (fun k : ℤ => (Series.coef T f k • wave n k : Fin n → ℂ) i) =
        fun k : ℤ => Series.coef T f k * exp (-(2 * Real.pi * I * k * (time T n i : ℝ) / T)) := by
      funext k
      rw [Pi.smul_apply, smul_eq_mul, wave_eq hT he]
    rw [e]
    exact this
  have hfft : ∀ x : Fin n → ℂ, fftT x l = 1 / n * ∑ j, x j * rootE n (((j : ℕ) - (n / 2 : ℕ) : ℤ) * ((l : ℕ) - (n / 2 : ℕ) : ℤ)) := fun x => by
    rw [fftT_apply_even he]
  have h2 : HasSum (fun k : ℤ => fftT (Series.coef T f k • wave n k) l) (fftT (fun i => f (time T n i)) l) := by
    simp only [hfft]
    refine HasSum.mul_left _ (hasSum_sum fun j _ => ?_)
    exact (Pi.hasSum.1 h1 j).mul_right _
  convert h2 using 1
  funext k
  have e : fftT (Series.coef T f k • wave n k) l = Series.coef T f k * fftT (wave n k) l := by
    rw [hfft, hfft]
    simp only [Pi.smul_apply, smul_eq_mul, Finset.mul_sum]
    exact Finset.sum_congr rfl fun j _ => by ring
  rw [e]
  split_ifs with hb
  · subst hb
    have hone : fftT (wave n k) (bin hn k) = 1 := by
      rw [hfft]
      have hd : ∀ j : Fin n, wave n k j * rootE n (((j : ℕ) - (n / 2 : ℕ) : ℤ) * (((bin hn k : Fin n) : ℕ) - (n / 2 : ℕ) : ℤ)) = 1 := by
        intro j
        have h3 : ∃ q : ℤ, (((bin hn k : Fin n) : ℕ) : ℤ) - (n / 2 : ℕ) = k + n * q := by
          refine ⟨-((k + (n / 2 : ℕ)) / n), ?_⟩
          rw [bin_coe]
          have := Int.emod_add_mul_ediv (k + (n / 2 : ℕ)) n
          linarith
        obtain ⟨q, hq⟩ := h3
        rw [hq]
        unfold wave
        rw [← rootE_add, show -(k * ((j : ℕ) - (n / 2 : ℕ) : ℤ)) + ((j : ℕ) - (n / 2 : ℕ) : ℤ) * (k + n * q) = n * (((j : ℕ) - (n / 2 : ℕ) : ℤ) * q) by ring]
        unfold rootE
        rw [show 2 * (Real.pi : ℂ) * I * ((((n : ℤ) * ((((j : ℕ) : ℤ) - ((n / 2 : ℕ) : ℤ)) * q) : ℤ) : ℂ) / n) =
          (((((j : ℕ) : ℤ) - ((n / 2 : ℕ) : ℤ)) * q : ℤ) : ℂ) * (2 * Real.pi * I) by
          have : (n : ℂ) ≠ 0 := by exact_mod_cast hn.ne'
          push_cast
          field_simp]
        exact Complex.exp_int_mul_two_pi_mul_I _
      simp only [hd, Finset.sum_const, Finset.card_univ, Fintype.card_fin, nsmul_eq_mul, mul_one]
      have : (n : ℂ) ≠ 0 := by exact_mod_cast hn.ne'
      field_simp
    rw [hone, mul_one]
  · rw [show fftT (wave n k) l = 0 from wave_oneBin hn he k l (fun h => hb h.symm), mul_zero]

/-- aliasing in the spectrum of samples -/
theorem spectrum_error {n : ℕ} {T : ℝ} (hT : 0 < T) (hn : 0 < n) (he : n % 2 = 0) {f : ℝ → ℂ} (hf : ContDiff ℝ (⊤ : ℕ∞) f) (hp : Function.Periodic f T)
    (s : ℕ) {B : ℝ} (hB : ∀ t, ‖iteratedDeriv (s + 2) f t‖ ≤ B) {k : ℤ} (h1 : -((n : ℤ) / 2) ≤ k) (h2 : k < (n : ℤ) / 2) :
    ‖fftT (fun i => f (time T n i)) (bin hn k) - Series.coef T f k‖ ≤
      (T / (2 * Real.pi)) ^ (s + 2) * 2 ^ s * (∑' k : ℤ, 1 / (k : ℝ) ^ 2) * B / n ^ s := by
  classical
  have hB0 : 0 ≤ B := (norm_nonneg _).trans (hB 0)
  have hs1 := (hasSum_toFreq hT hn he hf hp (bin hn k)).sub (hasSum_ite_eq k (Series.coef T f k))
  have hsum : HasSum (fun k : ℤ => (T / (2 * Real.pi)) ^ (s + 2) * 2 ^ s * B / n ^ s * (1 / (k : ℝ) ^ 2))
      ((T / (2 * Real.pi)) ^ (s + 2) * 2 ^ s * (∑' k : ℤ, 1 / (k : ℝ) ^ 2) * B / n ^ s) := by
    have := (Real.summable_one_div_int_pow.2 (by norm_num : 1 < 2)).hasSum.mul_left ((T / (2 * Real.pi)) ^ (s + 2) * 2 ^ s * B / n ^ s)
    rwa [show (T / (2 * Real.pi)) ^ (s + 2) * 2 ^ s * B / n ^ s * (∑' k : ℤ, 1 / (k : ℝ) ^ 2) =
      (T / (2 * Real.pi)) ^ (s + 2) * 2 ^ s * (∑' k : ℤ, 1 / (k : ℝ) ^ 2) * B / n ^ s by ring] at this
  rw [← hs1.tsum_eq]
  refine tsum_of_norm_bounded hsum fun l => ?_
  have hpos : 0 ≤ (T / (2 * Real.pi)) ^ (s + 2) * 2 ^ s * B / n ^ s * (1 / (l : ℝ) ^ 2) := by positivity
  by_cases hl : l = k
  · subst hl
    simpa using hpos
  rw [if_neg hl, sub_zero]
  by_cases hb : bin hn l = bin hn k
  · rw [if_pos hb]
    have hout : (n : ℤ) / 2 ≤ |l| := by
      by_contra hc
      have h3 : -((n : ℤ) / 2) ≤ l ∧ l < (n : ℤ) / 2 := by
        rcases abs_cases l with h | h <;> omega
      have e1 := bin_inside hn he h1 h2
      have e2 := bin_inside hn he h3.1 h3.2
      rw [hb] at e2
      omega
    have hk1 : (1 : ℤ) ≤ |l| := by omega
    have hkn : (n : ℝ) / 2 ≤ |(l : ℝ)| := by
      have h : (((n / 2 : ℕ) : ℤ) : ℝ) ≤ ((|l| : ℤ) : ℝ) := Int.cast_le.2 (by omega)
      rw [Int.cast_natCast, Int.cast_abs, Nat.cast_div (by omega) (by norm_num), Nat.cast_ofNat] at h
      exact h
    have hk1' : (1 : ℝ) ≤ |(l : ℝ)| := by exact_mod_cast hk1
    have hl0 : 0 < |(l : ℝ)| := by linarith
    have hdec := Series.coef_decay hT hf hp hB l
    have hn' : (0 : ℝ) < n := by exact_mod_cast hn
    have hpi := Real.pi_pos
    have h4 : ‖Series.coef T f l‖ ≤ B / (2 * Real.pi / T * |(l : ℝ)|) ^ (s + 2) := by
      rw [le_div_iff₀ (by positivity), mul_comm]
      exact hdec
    refine h4.trans ?_
    have h5 : (2 * Real.pi / T * |(l : ℝ)|) ^ (s + 2) = (2 * Real.pi / T) ^ (s + 2) * |(l : ℝ)| ^ s * (l : ℝ) ^ 2 := by
      rw [mul_pow, pow_add |(l : ℝ)|, sq_abs]
      ring
    have h6 : ((n : ℝ) / 2) ^ s ≤ |(l : ℝ)| ^ s := pow_le_pow_left₀ (by positivity) hkn s
    have hl2 : 0 < (l : ℝ) ^ 2 := by rw [← sq_abs]; positivity
    rw [h5]
    calc B / ((2 * Real.pi / T) ^ (s + 2) * |(l : ℝ)| ^ s * (l : ℝ) ^ 2) ≤ B / ((2 * Real.pi / T) ^ (s + 2) * ((n : ℝ) / 2) ^ s * (l : ℝ) ^ 2) := by
          gcongr
      _ = _ := by
          rw [div_pow, div_pow, div_pow]
          field_simp
  · rw [if_neg hb, norm_zero]
    exact hpos

/-- the field of `u` described about a centre frequency higher by `Ω`, in a frame that is slower by `c1` per length and with a phase `c0` per length less -/
noncomputable def recentred (Ω c0 c1 : ℝ) (u : ℝ → ℝ → ℂ) (z t : ℝ) : ℂ := exp (I * ((Ω * (t + c1 * z) - c0 * z : ℝ) : ℂ)) * u z (t + c1 * z)

theorem norm_recentred (Ω c0 c1 : ℝ) (u : ℝ → ℝ → ℂ) (z t : ℝ) : ‖recentred Ω c0 c1 u z t‖ = ‖u z (t + c1 * z)‖ := by
  unfold recentred
  rw [norm_mul, mul_comm I, Complex.norm_exp_ofReal_mul_I, one_mul]

theorem recentred_eq {T : ℝ} (m : ℤ) (c0 c1 : ℝ) (u : ℝ → ℝ → ℂ) (z t : ℝ) : recentred (2 * Real.pi * m / T) c0 c1 u z t =
    exp (-(I * ((c0 * z : ℝ) : ℂ))) * (exp (2 * Real.pi * I * m * (t + c1 * z : ℝ) / T) * u z (t + c1 * z)) := by
  unfold recentred
  rw [← mul_assoc, ← Complex.exp_add]
  congr 2
  push_cast
  ring

theorem coef_recentred {T : ℝ} (hT : 0 < T) {u : ℝ → ℝ → ℂ} (m : ℤ) (c0 c1 z : ℝ) (hp : Function.Periodic (u z) T) (k : ℤ) :
    Series.coef T (recentred (2 * Real.pi * m / T) c0 c1 u z) k =
      exp (-(I * ((c0 * z : ℝ) : ℂ))) * exp (-(2 * Real.pi * I * k * (c1 * z : ℝ) / T)) * Series.coef T (u z) (k + m) := by
  rw [← Series.coef_shift hT hp m]
  congr 1
  funext t
  exact recentred_eq m c0 c1 u z t

/-- the spectra have the same modulus at the same optical frequency -/
theorem norm_coef_recentred {T : ℝ} (hT : 0 < T) {u : ℝ → ℝ → ℂ} (m : ℤ) (c0 c1 z : ℝ) (hp : Function.Periodic (u z) T) (k : ℤ) :
    ‖Series.coef T (recentred (2 * Real.pi * m / T) c0 c1 u z) k‖ = ‖Series.coef T (u z) (k + m)‖ := by
  rw [coef_recentred hT m c0 c1 z hp, norm_mul, norm_mul,
    show -(I * ((c0 * z : ℝ) : ℂ)) = ((-(c0 * z) : ℝ) : ℂ) * I by push_cast; ring,
    show -(2 * (Real.pi : ℂ) * I * k * (c1 * z : ℝ) / T) = ((-(2 * Real.pi * k * (c1 * z) / T) : ℝ) : ℂ) * I by push_cast; ring,
    Complex.norm_exp_ofReal_mul_I, Complex.norm_exp_ofReal_mul_I, one_mul, one_mul]

theorem response_delayed (fR : ℝ) (h : ℝ → ℝ) (T τ : ℝ) (x : ℝ → ℝ) (t : ℝ) : response fR h T (fun t => x (t + τ)) t = response fR h T x (t + τ) := by
  unfold response
  have : ∀ s, t - s + τ = t + τ - s := fun s => by ring
  simp only [this]

theorem hasSum_of_terms {f g : ℤ → ℂ} {a : ℂ} (h : HasSum g a) (e : ∀ k, f k = g k) : HasSum f a := by
  rwa [show f = g from funext e]

/-- A change of the centre frequency turns solutions into solutions. -/
theorem recentred_solution {b b' : ℝ[X]} {g γ fR : ℝ} {h : ℝ → ℝ} {T L : ℝ} (hT : 0 < T) {u : ℝ → ℝ → ℂ} (hu : Solution b g γ fR h T L u) (m : ℤ) {c0 c1 : ℝ}
    (hb : ∀ x, b'.eval x = b.eval (x + 2 * Real.pi * m / T) - c0 - c1 * x) :
    Solution b' g γ fR h T L (recentred (2 * Real.pi * m / T) c0 c1 u) := by
  have hT' : (T : ℂ) ≠ 0 := by exact_mod_cast hT.ne'
  set Ω := 2 * Real.pi * m / T with hΩ
  have hpair : ContDiff ℝ (⊤ : ℕ∞) fun q : ℝ × ℝ => (q.1, q.2 + c1 * q.1) := contDiff_fst.prodMk (contDiff_snd.add (contDiff_const.mul contDiff_fst))
  have hus : ContDiff ℝ (⊤ : ℕ∞) fun q : ℝ × ℝ => u q.1 (q.2 + c1 * q.1) := hu.smooth.comp hpair
  have hph : ContDiff ℝ (⊤ : ℕ∞) fun q : ℝ × ℝ => exp (I * ((Ω * (q.2 + c1 * q.1) - c0 * q.1 : ℝ) : ℂ)) := by
    refine (contDiff_const.mul (Complex.ofRealCLM.contDiff.comp ?_)).cexp
    exact (contDiff_const.mul (contDiff_snd.add (contDiff_const.mul contDiff_fst))).sub (contDiff_const.mul contDiff_fst)
  have hws : ContDiff ℝ (⊤ : ℕ∞) fun q : ℝ × ℝ => recentred Ω c0 c1 u q.1 q.2 := hph.mul hus
  have hper : ∀ z, Function.Periodic (recentred Ω c0 c1 u z) T := by
    intro z t
    rw [recentred_eq, recentred_eq, show t + T + c1 * z = t + c1 * z + T by ring, hu.periodic z]
    congr 2
    rw [show 2 * (Real.pi : ℂ) * I * m * ((t + c1 * z + T : ℝ) : ℂ) / T = 2 * Real.pi * I * m * ((t + c1 * z : ℝ) : ℂ) / T + m * (2 * Real.pi * I) by
      push_cast
      field_simp, Complex.exp_add, Complex.exp_int_mul_two_pi_mul_I, mul_one]
  refine ⟨hws, hper, fun z hz0 hzL t => ?_⟩
  have hwz : ContDiff ℝ (⊤ : ℕ∞) (recentred Ω c0 c1 u z) := slice_contDiff hws z
  have huz : ContDiff ℝ (⊤ : ℕ∞) (u z) := slice_contDiff hu.smooth z
  set τ := c1 * z with hτ
  set E := exp (I * ((Ω * (t + c1 * z) - c0 * z : ℝ) : ℂ)) with hE
  -- derivative in time
  have hut : HasDerivAt (u z) (deriv (u z) (t + τ)) (t + τ) := (huz.differentiable (by simp) (t + τ)).hasDerivAt
  have hwt : HasDerivAt (recentred Ω c0 c1 u z) (I * Ω * recentred Ω c0 c1 u z t + E * deriv (u z) (t + τ)) t := by
    have h1 : HasDerivAt (fun t : ℝ => exp (I * ((Ω * (t + c1 * z) - c0 * z : ℝ) : ℂ))) (E * (I * Ω)) t := by
      have h2 : HasDerivAt (fun t : ℝ => I * ((Ω * (t + c1 * z) - c0 * z : ℝ) : ℂ)) (I * Ω) t := by
        have h3 : HasDerivAt (fun t : ℝ => Ω * (t + c1 * z) - c0 * z) Ω t := by
          simpa using (((hasDerivAt_id t).add_const (c1 * z)).const_mul Ω).sub_const (c0 * z)
        exact h3.ofReal_comp.const_mul I
      exact h2.cexp
    have h4 : HasDerivAt (fun t => u z (t + c1 * z)) (deriv (u z) (t + τ)) t := hut.comp_add_const t (c1 * z)
    have := h1.mul h4
    refine this.congr_deriv ?_
    unfold recentred
    rw [← hE]
    ring
  -- the dispersion
  have hdisp : dispersion b' (recentred Ω c0 c1 u z) t = E * dispersion b (u z) (t + τ) - I * c0 * recentred Ω c0 c1 u z t +
      c1 * deriv (recentred Ω c0 c1 u z) t := by
    have h1 := hasSum_dispersion hT hwz (hper z) b' t
    have h2 := hasSum_dispersion hT huz (hu.periodic z) b (t + τ)
    have h3 := (Series.hasSum_coef hT hwz (hper z) t).mul_left (I * c0)
    have h4 := (Series.hasSum_iteratedDeriv hT hwz (hper z) 1 t).mul_left (c1 : ℂ)
    rw [iteratedDeriv_one] at h4
    have h5 : HasSum (fun k : ℤ => E * (I * ((b.eval (2 * Real.pi * ((k + m : ℤ) : ℝ) / T) : ℝ) : ℂ) * Series.coef T (u z) (k + m) *
        exp (-(2 * Real.pi * I * ((k + m : ℤ) : ℂ) * ((t + τ : ℝ) : ℂ) / T)))) (E * dispersion b (u z) (t + τ)) :=
      ((Equiv.addRight m).hasSum_iff.2 h2).mul_left E
    have h6 := (h5.sub h3).add h4
    refine h1.unique ?_
    refine hasSum_of_terms h6 fun k => ?_
    rw [hb, hΩ, coef_recentred hT m c0 c1 z (hu.periodic z)]
    have e1 : E * exp (-(2 * Real.pi * I * ((k + m : ℤ) : ℂ) * ((t + τ : ℝ) : ℂ) / T)) =
        exp (-(I * ((c0 * z : ℝ) : ℂ))) * exp (-(2 * Real.pi * I * k * (c1 * z : ℝ) / T)) * exp (-(2 * Real.pi * I * k * t / T)) := by
      rw [hE, ← Complex.exp_add, ← Complex.exp_add, ← Complex.exp_add]
      congr 1
      rw [hΩ, hτ]
      push_cast
      field_simp
      ring
    have e2 : (2 * Real.pi * k / T + 2 * Real.pi * m / T : ℝ) = 2 * Real.pi * ((k + m : ℤ) : ℝ) / T := by
      push_cast
      ring
    rw [e2]
    generalize b.eval (2 * Real.pi * ((k + m : ℤ) : ℝ) / T) = y
    have e3 : ∀ X : ℂ, E * (I * (y : ℂ) * X * exp (-(2 * Real.pi * I * ((k + m : ℤ) : ℂ) * ((t + τ : ℝ) : ℂ) / T))) =
        I * (y : ℂ) * X * (E * exp (-(2 * Real.pi * I * ((k + m : ℤ) : ℂ) * ((t + τ : ℝ) : ℂ) / T))) := fun X => by ring
    rw [e3, e1]
    push_cast
    have hI : I * I = -1 := Complex.I_mul_I
    ring_nf
  -- derivative in distance
  have hd : DifferentiableAt ℝ (fun q : ℝ × ℝ => u q.1 q.2) (z, t + τ) := hu.smooth.differentiable (by simp) _
  have hz1 : HasDerivAt (fun z => u z (t + τ)) (fderiv ℝ (fun q : ℝ × ℝ => u q.1 q.2) (z, t + τ) (1, 0)) z :=
    HasFDerivAt.comp_hasDerivAt (l := fun q : ℝ × ℝ => u q.1 q.2) (f := fun z => (z, t + τ)) z hd.hasFDerivAt ((hasDerivAt_id z).prodMk (hasDerivAt_const z (t + τ)))
  have ht1 : HasDerivAt (u z) (fderiv ℝ (fun q : ℝ × ℝ => u q.1 q.2) (z, t + τ) (0, 1)) (t + τ) :=
    HasFDerivAt.comp_hasDerivAt (l := fun q : ℝ × ℝ => u q.1 q.2) (f := fun t => (z, t)) (t + τ) hd.hasFDerivAt
      ((hasDerivAt_const (t + τ) z).prodMk (hasDerivAt_id (t + τ)))
  have huz1 : HasDerivAt (fun z => u z (t + c1 * z)) ((dispersion b (u z) (t + τ) + g / 2 * u z (t + τ) +
      I * γ * u z (t + τ) * (response fR h T (fun t => ‖u z t‖ ^ 2) (t + τ) : ℝ)) + c1 * deriv (u z) (t + τ)) z := by
    have hline : HasDerivAt (fun z : ℝ => ((z, t + c1 * z) : ℝ × ℝ)) (1, c1) z := by
      refine (hasDerivAt_id z).prodMk ?_
      simpa using ((hasDerivAt_id z).const_mul c1).const_add t
    have h1 : HasDerivAt (fun z => u z (t + c1 * z)) (fderiv ℝ (fun q : ℝ × ℝ => u q.1 q.2) (z, t + τ) (1, c1)) z :=
      HasFDerivAt.comp_hasDerivAt (l := fun q : ℝ × ℝ => u q.1 q.2) (f := fun z => (z, t + c1 * z)) z hd.hasFDerivAt hline
    refine h1.congr_deriv ?_
    rw [show ((1, c1) : ℝ × ℝ) = (1, 0) + c1 • (0, 1) by simp, map_add, map_smul, hz1.unique (hu.equation z hz0 hzL (t + τ)), ← ht1.deriv, Complex.real_smul]
  have hphz : HasDerivAt (fun z : ℝ => exp (I * ((Ω * (t + c1 * z) - c0 * z : ℝ) : ℂ))) (E * (I * ((Ω * c1 - c0 : ℝ) : ℂ))) z := by
    have h3 : HasDerivAt (fun z : ℝ => Ω * (t + c1 * z) - c0 * z) (Ω * c1 - c0) z := by
      have := ((((hasDerivAt_id z).const_mul c1).const_add t).const_mul Ω).sub ((hasDerivAt_id z).const_mul c0)
      simp only [mul_one] at this
      exact this
    exact (h3.ofReal_comp.const_mul I).cexp
  have hfin := hphz.mul huz1
  refine hfin.congr_deriv ?_
  have hresp : response fR h T (fun t => ‖recentred Ω c0 c1 u z t‖ ^ 2) t = response fR h T (fun t => ‖u z t‖ ^ 2) (t + τ) := by
    simp only [norm_recentred]
    exact response_delayed fR h T τ (fun t => ‖u z t‖ ^ 2) t
  rw [hresp, hdisp, hwt.deriv]
  unfold recentred
  rw [← hE, ← hτ]
  push_cast
  ring

end PyNLO
