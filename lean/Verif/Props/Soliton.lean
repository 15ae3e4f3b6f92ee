import Verif.Props.NlseRobust
import Verif.Props.DerivedPulses
import Verif.Lemmas.SolitonShape
import Verif.Spec.Soliton

/-!
# A fundamental soliton keeps its shape
-/

namespace PyNLO

open Complex Set Polynomial Ssfm Pulse OdeGlobal Nlse Alias

variable {n : ℕ}

/-! ## A periodic field close to the soliton -/

/-- periodic shape times the phase of the soliton -/
noncomputable def train (A T0 κ W : ℝ) (f : ℝ → ℝ) (z t : ℝ) : ℂ := ((A * per W f (t / T0) : ℝ) : ℂ) * exp (I * ((κ * z : ℝ) : ℂ))

theorem norm_train (A T0 κ W : ℝ) (f : ℝ → ℝ) (z t : ℝ) : ‖train A T0 κ W f z t‖ = |A| * |per W f (t / T0)| := by
  unfold train
  rw [norm_mul, mul_comm I, norm_exp_ofReal_mul_I, mul_one, norm_real, Real.norm_eq_abs, abs_mul]

theorem train_periodic {T0 W : ℝ} (hT0 : 0 < T0) (hW : 0 < W) (A κ : ℝ) (f : ℝ → ℝ) (z : ℝ) : Function.Periodic (train A T0 κ W f z) (W * T0) := fun t => by
  unfold train
  rw [add_div, mul_div_cancel_right₀ _ hT0.ne', per_periodic hW f]

theorem train_dt {A T0 κ W : ℝ} {f f' : ℝ → ℝ} (h : ∀ x, HasDerivAt (per W f) (per W f' x) x) (z t : ℝ) :
    HasDerivAt (train A T0 κ W f z) (train (A / T0) T0 κ W f' z t) t := by
  have h1 : HasDerivAt (fun t : ℝ => t / T0) (1 / T0) t := (hasDerivAt_id t).div_const T0
  have h2 := (((h (t / T0)).comp t h1).const_mul A).ofReal_comp
  have h3 := h2.mul_const (exp (I * ((κ * z : ℝ) : ℂ)))
  refine h3.congr_deriv ?_
  unfold train
  congr 2
  ring

theorem train_dz (A T0 κ W : ℝ) (f : ℝ → ℝ) (z t : ℝ) : HasDerivAt (fun z => train A T0 κ W f z t) (I * κ * train A T0 κ W f z t) z := by
  have h1 : HasDerivAt (fun z : ℝ => κ * z) κ z := by simpa using (hasDerivAt_id z).const_mul κ
  have h2 := ((h1.ofReal_comp.const_mul I).cexp).const_mul ((A * per W f (t / T0) : ℝ) : ℂ)
  refine h2.congr_deriv ?_
  unfold train
  ring

theorem train_smooth {T0 W : ℝ} (A κ : ℝ) {f : ℝ → ℝ} (h : ContDiff ℝ (⊤ : ℕ∞) (per W f)) :
    ContDiff ℝ (⊤ : ℕ∞) fun q : ℝ × ℝ => train A T0 κ W f q.1 q.2 := by
  unfold train
  refine ContDiff.mul (ofRealCLM.contDiff.comp (contDiff_const.mul (h.comp (contDiff_snd.div_const T0)))) ?_
  exact (contDiff_const.mul (ofRealCLM.contDiff.comp (contDiff_const.mul contDiff_fst))).cexp

/-- the cut soliton satisfies the equation up to what the cut leaves -/
theorem train_near {β₂ γ T0 W ε B L : ℝ} (hβ : β₂ < 0) (hγ : 0 < γ) (hT0 : 0 < T0) (hW : 0 < W) (hε : 0 < ε) (hB : 0 ≤ B)
    (hcut : ∀ x, W / 2 - 1 ≤ |x| → sech x < ε) (h1 : ∀ x, |rest ε x| ≤ B * ε) (h2 : ∀ x, |rest1 ε x| ≤ B * ε) :
    NearSolution (C (β₂ / 2) * X ^ 2) 0 γ (W * T0) L (train (Real.sqrt (solitonPower β₂ γ T0)) T0 (γ * solitonPower β₂ γ T0 / 2) W (cut ε))
      (fun z t => I * train (γ * solitonPower β₂ γ T0 / 2 * Real.sqrt (solitonPower β₂ γ T0)) T0 (γ * solitonPower β₂ γ T0 / 2) W (rest ε) z t)
      (γ * solitonPower β₂ γ T0 / 2 * Real.sqrt (solitonPower β₂ γ T0) * (1 + 1 / T0) * B * ε) := by
  have hP : 0 < solitonPower β₂ γ T0 := by
    unfold solitonPower
    have : 0 < |β₂| := abs_pos.2 hβ.ne
    positivity
  set P := solitonPower β₂ γ T0 with hPdef
  set A := Real.sqrt P with hA
  have hA0 : 0 < A := Real.sqrt_pos.2 hP
  set κ := γ * P / 2 with hκ
  have hκ0 : 0 < κ := by positivity
  have hκβ : β₂ = -(2 * κ * T0 ^ 2) := by
    rw [hκ, hPdef, solitonPower, abs_of_neg hβ]
    field_simp
  have hvan : ∀ x, W / 2 - 1 ≤ |x| → cut ε x = 0 := fun x hx => cut_zero hε (hcut x hx).le
  have hvan' : ∀ x, W / 2 - 1 ≤ |x| → rest ε x = 0 := fun x hx => rest_zero hε (hcut x hx)
  have d1 := per_hasDerivAt hW hvan (cut_hasDerivAt hε)
  have d2 := per_hasDerivAt₂ hW hvan (cut_hasDerivAt hε) (cut1_hasDerivAt hε)
  have d3 := per_hasDerivAt hW hvan' (rest_hasDerivAt hε)
  refine ⟨train_smooth A κ (per_contDiff hW hvan (cut_contDiff ε)), fun z => train_periodic hT0 hW A κ _ z, ?_, ?_, ?_, ?_⟩
  · intro z _ _ t
    refine (train_dz A T0 κ W (cut ε) z t).congr_deriv ?_
    have e2 : iteratedDeriv 2 (train A T0 κ W (cut ε) z) t = train (A / T0 / T0) T0 κ W (cut2 ε) z t := by
      rw [iteratedDeriv_succ, iteratedDeriv_one, show _root_.deriv (train A T0 κ W (cut ε) z) = _ from funext fun t => (train_dt d1 z t).deriv]
      exact (train_dt d2 z t).deriv
    rw [dispersion_quadratic, e2, norm_train]
    have heq := cut_equation hε (t / T0 - round (t / T0 / W) * W)
    have hsq : A ^ 2 = P := Real.sq_sqrt hP.le
    have hn2 : (|A| * |per W (cut ε) (t / T0)|) ^ 2 = P * per W (cut ε) (t / T0) ^ 2 := by rw [mul_pow, sq_abs, sq_abs, hsq]
    rw [hn2]
    unfold train per
    rw [← heq]
    generalize t / T0 - round (t / T0 / W) * W = x
    generalize cut ε x = q
    generalize cut2 ε x = q2
    generalize exp (I * ((κ * z : ℝ) : ℂ)) = e
    have hgP : γ * P = 2 * κ := by rw [hκ]; ring
    have hgP' : (γ : ℂ) * (P : ℂ) = 2 * (κ : ℂ) := by exact_mod_cast hgP
    rw [hκβ]
    have hT0' : (T0 : ℂ) ≠ 0 := by exact_mod_cast hT0.ne'
    have hc : (-(2 * κ * T0 ^ 2) / 2 : ℂ) * (A / T0 / T0) = -(κ * A) := by
      field_simp
    push_cast
    linear_combination (I * q2 * e) * hc - (I * A * q ^ 3 * e) * hgP'
  · intro z t
    show I * train (κ * A) T0 κ W (rest ε) z (t + W * T0) = _
    rw [train_periodic hT0 hW]
  · intro z _ _ t
    rw [norm_mul, norm_I, one_mul, norm_train, abs_of_pos (by positivity)]
    have h3 : |per W (rest ε) (t / T0)| ≤ B * ε := h1 _
    have h4 : 0 ≤ κ * A * (1 / T0) * (B * ε) := by positivity
    have h5 := mul_le_mul_of_nonneg_left h3 (by positivity : 0 ≤ κ * A)
    linarith
  · intro z _ _ s t
    rw [← mul_sub, norm_mul, norm_I, one_mul]
    have h3 := lipschitz_of_deriv (f := train (κ * A) T0 κ W (rest ε) z) (c := κ * A / T0 * (B * ε)) (fun t => (train_dt d3 z t).differentiableAt)
      (fun t => by
        rw [(train_dt d3 z t).deriv, norm_train, abs_of_pos (by positivity)]
        exact mul_le_mul_of_nonneg_left (h2 _) (by positivity)) s t
    refine h3.trans (mul_le_mul_of_nonneg_right ?_ (abs_nonneg _))
    have h4 : 0 ≤ κ * A * B * ε := by positivity
    have h5 : κ * A / T0 * (B * ε) = κ * A * (1 / T0) * B * ε := by ring
    rw [h5]
    linarith

theorem even_next {T : ℝ} {f : ℝ → ℂ} (hf : ∀ t, f (-t) = f t) (j : Fin n) : f (time T n (next j)) = f (time T n j + T / n) := by
  have hn : 0 < n := by have := j.isLt; omega
  have hn' : (n : ℝ) ≠ 0 := by exact_mod_cast hn.ne'
  by_cases h : (j : ℕ) + 1 < n
  · have e : ((next j : Fin n) : ℕ) = j + 1 := Nat.mod_eq_of_lt h
    congr 1
    unfold time
    rw [e]
    push_cast
    ring
  · have e0 : (j : ℕ) + 1 = n := by have := j.isLt; omega
    have e : ((next j : Fin n) : ℕ) = 0 := by
      show ((j : ℕ) + 1) % n = 0
      rw [e0, Nat.mod_self]
    have e1 : ((j : ℕ) : ℝ) = n - 1 := by
      have : ((j : ℕ) : ℝ) + 1 = n := by exact_mod_cast e0
      linarith
    have e2 : time T n j + T / n = -time T n (next j) := by
      unfold time
      rw [e, e1]
      field_simp
      push_cast
      ring
    rw [e2, hf]

theorem slopes_even_le {T c : ℝ} (hT : 0 < T) {f : ℝ → ℂ} (hf : ∀ t, f (-t) = f t) (hl : ∀ s t, ‖f s - f t‖ ≤ c * |s - t|) (j : Fin n) :
    ‖slopes (T / n) (fun i => f (time T n i)) j‖ ≤ c := by
  have hn : 0 < n := by have := j.isLt; omega
  have hn' : (0 : ℝ) < n := by exact_mod_cast hn
  have hpos : 0 < T / n := by positivity
  simp only [slopes]
  rw [even_next hf, norm_div, norm_real, Real.norm_eq_abs, abs_of_pos hpos, div_le_iff₀ hpos]
  have := hl (time T n j + T / n) (time T n j)
  rwa [add_sub_cancel_left, abs_of_pos hpos] at this

theorem abs_time_le {T : ℝ} (hT : 0 < T) (j : Fin n) : |time T n j| ≤ T / 2 := by
  have hn : 0 < n := by have := j.isLt; omega
  have hn' : (0 : ℝ) < n := by exact_mod_cast hn
  have h1 : ((j : ℕ) : ℝ) ≤ n := by exact_mod_cast j.isLt.le
  have h2 : (0 : ℝ) ≤ ((j : ℕ) : ℝ) := by positivity
  unfold time
  rw [abs_mul, abs_of_pos (by positivity : 0 < T / n)]
  have h3 : |((j : ℕ) : ℝ) - n / 2| ≤ n / 2 := abs_le.2 ⟨by linarith, by linarith⟩
  calc |((j : ℕ) : ℝ) - n / 2| * (T / n) ≤ n / 2 * (T / n) := mul_le_mul_of_nonneg_right h3 (by positivity)
    _ = T / 2 := by field_simp

/-- distance between the samples of the soliton and those of the cut soliton -/
theorem train_start {A T0 κ W ε B : ℝ} (hA : 0 ≤ A) (hT0 : 0 < T0) (hW : 0 < W) (hε : 0 < ε) (hB : 0 ≤ B)
    (hcut : ∀ x, W / 2 - 1 ≤ |x| → sech x < ε) (h1 : ∀ x, |sech x - cut ε x| ≤ B * ε) (h2 : ∀ x, |sech1 x - cut1 ε x| ≤ B * ε) (hn : 0 < n) :
    sobolev (W * T0) ((fun j => ((A * sech (time (W * T0) n j / T0) : ℝ) : ℂ)) - samples (train A T0 κ W (cut ε)) (W * T0) n 0) ≤
      W * T0 * (A ^ 2 * (1 + (1 / T0) ^ 2) * (B * ε) ^ 2) := by
  have hT : 0 < W * T0 := by positivity
  have hn' : (0 : ℝ) < n := by exact_mod_cast hn
  have hvan : ∀ x, W / 2 - 1 ≤ |x| → cut ε x = 0 := fun x hx => cut_zero hε (hcut x hx).le
  set f : ℝ → ℂ := fun t => ((A * (sech (t / T0) - cut ε (t / T0)) : ℝ) : ℂ) with hf
  have hfd : ((fun j => ((A * sech (time (W * T0) n j / T0) : ℝ) : ℂ)) - samples (train A T0 κ W (cut ε)) (W * T0) n 0) = fun j => f (time (W * T0) n j) := by
    funext j
    have e0 : per W (cut ε) (time (W * T0) n j / T0) = cut ε (time (W * T0) n j / T0) := by
      have := per_local hW hvan (x := time (W * T0) n j / T0) (k := 0) (by
        rw [Int.cast_zero, zero_mul, sub_zero, abs_div, abs_of_pos hT0, div_lt_iff₀ hT0]
        have := abs_time_le (n := n) hT j
        nlinarith)
      rwa [Int.cast_zero, zero_mul, sub_zero] at this
    simp only [Pi.sub_apply, samples, train, hf, e0, mul_zero, ofReal_zero, exp_zero, mul_one]
    push_cast
    ring
  have heven : ∀ t, f (-t) = f t := fun t => by
    simp only [hf]
    have : cut ε (-t / T0) = cut ε (t / T0) := by
      unfold cut
      rw [neg_div, sech_even]
    rw [this, neg_div, sech_even]
  have hder : ∀ t, HasDerivAt f ((A / T0 * (sech1 (t / T0) - cut1 ε (t / T0)) : ℝ) : ℂ) t := fun t => by
    have d1 : HasDerivAt (fun t : ℝ => t / T0) (1 / T0) t := (hasDerivAt_id t).div_const T0
    have d2 := ((((sech_hasDerivAt (t / T0)).sub (cut_hasDerivAt hε (t / T0))).comp t d1).const_mul A).ofReal_comp
    refine d2.congr_deriv ?_
    congr 1
    ring
  have hlip : ∀ s t, ‖f s - f t‖ ≤ A / T0 * (B * ε) * |s - t| := lipschitz_of_deriv (fun t => (hder t).differentiableAt) fun t => by
    rw [(hder t).deriv, norm_real, Real.norm_eq_abs, abs_mul, abs_of_nonneg (by positivity)]
    exact mul_le_mul_of_nonneg_left (h2 _) (by positivity)
  rw [hfd]
  unfold sobolev
  have hterm : ∀ j : Fin n, ‖f (time (W * T0) n j)‖ ^ 2 + ‖slopes (W * T0 / n) (fun j => f (time (W * T0) n j)) j‖ ^ 2 ≤ A ^ 2 * (1 + (1 / T0) ^ 2) * (B * ε) ^ 2 := by
    intro j
    have t1 : ‖f (time (W * T0) n j)‖ ≤ A * (B * ε) := by
      simp only [hf]
      rw [norm_real, Real.norm_eq_abs, abs_mul, abs_of_nonneg hA]
      exact mul_le_mul_of_nonneg_left (h1 _) hA
    have t2 := slopes_even_le (n := n) hT heven hlip j
    have t3 := pow_le_pow_left₀ (norm_nonneg _) t1 2
    have t4 := pow_le_pow_left₀ (norm_nonneg _) t2 2
    have t5 : A ^ 2 * (1 + (1 / T0) ^ 2) * (B * ε) ^ 2 = (A * (B * ε)) ^ 2 + (A / T0 * (B * ε)) ^ 2 := by ring
    rw [t5]
    linarith
  refine (mul_le_mul_of_nonneg_left (Finset.sum_le_sum fun j _ => hterm j) (by positivity)).trans (le_of_eq ?_)
  rw [Finset.sum_const, Finset.card_univ, Fintype.card_fin, nsmul_eq_mul]
  field_simp

/-- the initial error and the residual, both of the order of `exp(-T/(2·T0))` -/
theorem soliton_window {c T0 : ℝ} (hc : 0 ≤ c) (hT0 : 0 < T0) : ∃ T1 : ℝ, 0 < T1 ∧ ∀ T, T1 ≤ T → (T + 1) * (c * Real.exp (-T / (2 * T0)) ^ 2) ≤ 1 / 4 ∧
    4 * Real.exp 1 * Real.exp (-T / (2 * T0)) ≤ 1 := by
  have h0 : Filter.Tendsto (fun T : ℝ => T / T0) Filter.atTop Filter.atTop := Filter.tendsto_id.atTop_div_const hT0
  have h1 := ((Real.tendsto_pow_mul_exp_neg_atTop_nhds_zero 1).comp h0).const_mul (c * T0)
  have h2 := ((Real.tendsto_pow_mul_exp_neg_atTop_nhds_zero 0).comp h0).const_mul c
  have h3 := h1.add h2
  simp only [mul_zero, add_zero] at h3
  have h4 := h3.eventually (eventually_le_nhds (by norm_num : (0 : ℝ) < 1 / 4))
  have h00 : Filter.Tendsto (fun T : ℝ => T / (2 * T0)) Filter.atTop Filter.atTop := Filter.tendsto_id.atTop_div_const (by positivity)
  have h5 := ((Real.tendsto_pow_mul_exp_neg_atTop_nhds_zero 0).comp h00).const_mul (4 * Real.exp 1)
  rw [mul_zero] at h5
  have h6 := h5.eventually (eventually_le_nhds (by norm_num : (0 : ℝ) < 1))
  obtain ⟨T1, hT1⟩ := Filter.eventually_atTop.1 (h4.and h6)
  refine ⟨max T1 1, by positivity, fun T hT => ?_⟩
  obtain ⟨a1, a2⟩ := hT1 T ((le_max_left _ _).trans hT)
  simp only [Function.comp, pow_one, pow_zero, one_mul] at a1 a2
  constructor
  · have e : Real.exp (-T / (2 * T0)) ^ 2 = Real.exp (-(T / T0)) := by
      rw [← Real.exp_nat_mul]
      congr 1
      push_cast
      field_simp
    rw [e]
    refine le_trans (le_of_eq ?_) a1
    field_simp
  · refine le_trans (le_of_eq ?_) a2
    rw [neg_div]

theorem le_add_of_sq_le {c x y w v : ℝ} (hc : 0 ≤ c) (hx : 0 ≤ x) (hy : 0 ≤ y) (h : c ^ 2 ≤ w + v) (hw : w ≤ x ^ 2) (hv : v ≤ y ^ 2) : c ≤ x + y := by
  refine (pow_le_pow_iff_left₀ hc (by positivity) two_ne_zero).1 (h.trans ?_)
  nlinarith

theorem sq_add_le (x y : ℝ) : (x + y) ^ 2 ≤ 2 * x ^ 2 + 2 * y ^ 2 := by nlinarith [sq_nonneg (x - y)]

theorem in_window {T T0 W : ℝ} (hT : 0 < T) (hT0 : 0 < T0) (hW : W * T0 = T) (j : Fin n) : |time T n j / T0| < W / 2 + 1 := by
  rw [abs_div, abs_of_pos hT0, div_lt_iff₀ hT0]
  have := abs_time_le (n := n) hT j
  nlinarith

/-- C150 on the grid: the equation that the solver follows, started from the samples of a fundamental soliton, keeps it up to an error that falls
exponentially with the time window and faster than any power of the number of points. -/
theorem C150_grid {β₂ γ T0 L : ℝ} (hβ : β₂ < 0) (hγ : 0 < γ) (hT0 : 0 < T0) (hL : 0 ≤ L) : ∃ K T1 : ℝ, 0 < T1 ∧ ∀ T, T1 ≤ T → ∀ s : ℕ,
    ∃ (C : ℝ) (n0 : ℕ), ∀ n : ℕ, n0 ≤ n → n % 2 = 0 → ∀ β : Fin n → ℝ,
      (∀ k, β k = β₂ / 2 * (2 * Real.pi * ((k : ℕ) - (n : ℝ) / 2) / T) ^ 2) → ∀ (x y : ℝ) (U : ℝ → Fin n → ℂ), x < 0 → L < y →
      Solves β 0 (fun _ => 1) γ x y U → (U 0 = fun j => soliton β₂ γ T0 0 (time T n j)) →
      ∀ z ∈ Icc 0 L, ∀ j, ‖U z j - soliton β₂ γ T0 z (time T n j)‖ ≤ K * Real.sqrt (T + 1) * Real.exp (-T / (2 * T0)) + C / n ^ s := by
  obtain ⟨B, hB, hbounds⟩ := cut_bounds
  have hP : 0 < solitonPower β₂ γ T0 := by
    unfold solitonPower
    have : 0 < |β₂| := abs_pos.2 hβ.ne
    positivity
  set P := solitonPower β₂ γ T0 with hPdef
  set A := Real.sqrt P with hA
  have hA0 : 0 < A := Real.sqrt_pos.2 hP
  set κ := γ * P / 2 with hκ
  have hκ0 : 0 < κ := by positivity
  set G := Real.exp (growth1 0 γ A (A / T0 * B) * L) with hG
  have hG0 : 0 < G := Real.exp_pos _
  set k0 := κ * A * (1 + 1 / T0) * B with hk0
  have hk00 : 0 ≤ k0 := by positivity
  set k1 := A ^ 2 * (1 + (1 / T0) ^ 2) * B ^ 2 + 4 * k0 ^ 2 with hk1
  have hk10 : 0 ≤ k1 := by positivity
  set e4 := 4 * Real.exp 1 with he4
  have he40 : 0 < e4 := by positivity
  obtain ⟨T1, hT10, hT1⟩ := soliton_window (c := G * k1 * e4 ^ 2) (by positivity) hT0
  refine ⟨(Real.sqrt (G * k1) + A * B) * e4, T1, hT10, fun T hT s => ?_⟩
  have hTp : 0 < T := lt_of_lt_of_le hT10 hT
  obtain ⟨hw1, hw2⟩ := hT1 T hT
  set E := Real.exp (-T / (2 * T0)) with hE
  have hE0 : 0 < E := Real.exp_pos _
  set W := T / T0 with hWdef
  have hW : 0 < W := by positivity
  have hWT : W * T0 = T := by rw [hWdef]; field_simp
  set ε := 2 * sech (W / 2 - 1) with hε
  have hε0 : 0 < ε := by have := sech_pos (W / 2 - 1); positivity
  have hεE : ε ≤ e4 * E := by
    have h1 := sech_le_exp (W / 2 - 1)
    have h2 : Real.exp (-(W / 2 - 1)) = Real.exp 1 * E := by
      rw [hE, ← Real.exp_add]
      congr 1
      rw [hWdef]
      field_simp
      ring
    rw [h2] at h1
    rw [hε, he4]
    linarith
  have hε1 : ε ≤ 1 := hεE.trans hw2
  have hcut : ∀ x, W / 2 - 1 ≤ |x| → sech x < ε := fun x hx => by
    have hpos := sech_pos x
    by_cases h0 : 0 ≤ W / 2 - 1
    · have := sech_anti (x := W / 2 - 1) (y := x) (by rwa [abs_of_nonneg h0])
      rw [hε]
      linarith [sech_pos (W / 2 - 1)]
    · exfalso
      have h3 : e4 * E ≤ 1 := hw2
      have h4 : Real.exp (-(W / 2 - 1)) = Real.exp 1 * E := by
        rw [hE, ← Real.exp_add]
        congr 1
        rw [hWdef]
        field_simp
        ring
      have h5 : 1 < Real.exp (-(W / 2 - 1)) := Real.one_lt_exp_iff.2 (by linarith)
      rw [h4] at h5
      rw [he4] at h3
      linarith
  have hb := hbounds ε hε0 hε1
  have hnear := train_near (L := L) hβ hγ hT0 hW hε0 hB hcut (fun x => (hb x).2.2.2.1) (fun x => (hb x).2.2.2.2)
  rw [hWT] at hnear
  have hM : ∀ z ∈ Icc 0 L, ∀ t, ‖train A T0 κ W (cut ε) z t‖ ≤ A := fun z _ t => by
    rw [norm_train, abs_of_pos hA0]
    have h1 : |per W (cut ε) (t / T0)| ≤ 1 := by
      unfold per
      rw [abs_of_nonneg (cut_nonneg hε0 _)]
      exact (cut_le hε0 _).trans (sech_le_one _)
    exact mul_le_of_le_one_right hA0.le h1
  have hvan : ∀ x, W / 2 - 1 ≤ |x| → cut ε x = 0 := fun x hx => cut_zero hε0 (hcut x hx).le
  have d1 := per_hasDerivAt hW hvan (cut_hasDerivAt hε0)
  have hM1 : ∀ z ∈ Icc 0 L, ∀ t, ‖_root_.deriv (train A T0 κ W (cut ε) z) t‖ ≤ A / T0 * B := fun z _ t => by
    rw [(train_dt d1 z t).deriv, norm_train, abs_of_pos (by positivity)]
    exact mul_le_mul_of_nonneg_left ((hb _).1) (by positivity)
  obtain ⟨Ca, hCa, H⟩ := semidiscrete_near hnear hTp hL hM hM1 (s + 1)
  refine ⟨Real.sqrt (4 * (T + 1) * G) * Ca, ⌊4 * (T + 1) * G * Ca ^ 2 * 4⌋₊ + 1, ?_⟩
  intro n hn0 he β hβk x y U hx hy hU hU0 z hz j
  have hn : 0 < n := by omega
  have hn' : (0 : ℝ) < n := by exact_mod_cast hn
  have hn1 : (1 : ℝ) ≤ n := by exact_mod_cast hn
  have hbig : 4 * (T + 1) * G * Ca ^ 2 * 4 < n := by
    have h1 := Nat.lt_floor_add_one (4 * (T + 1) * G * Ca ^ 2 * 4)
    have h2 : ((⌊4 * (T + 1) * G * Ca ^ 2 * 4⌋₊ + 1 : ℕ) : ℝ) ≤ n := by exact_mod_cast hn0
    push_cast at h2
    linarith
  have hrest : 4 * (T + 1) * G * (Ca / (n : ℝ) ^ (s + 1)) ^ 2 < 1 / 4 := by
    rw [div_pow, ← mul_div_assoc, div_lt_iff₀ (by positivity)]
    have h1 : (n : ℝ) ≤ ((n : ℝ) ^ (s + 1)) ^ 2 := by
      rw [← pow_mul]
      exact le_self_pow₀ hn1 (by omega)
    linarith
  set a := Ca / (n : ℝ) ^ (s + 1) with ha
  have ha0 : 0 ≤ a := by positivity
  have hstart := train_start (κ := κ) hA0.le hT0 hW hε0 hB hcut (fun x => (hb x).2.1) (fun x => (hb x).2.2.1) hn
  rw [hWT] at hstart
  have hU0' : U 0 = fun j => ((A * sech (time T n j / T0) : ℝ) : ℂ) := by
    rw [hU0]
    funext i
    unfold soliton sech
    rw [← hPdef, ← hA]
    simp only [mul_zero, ofReal_zero, exp_zero, mul_one]
    rw [div_eq_mul_inv]
  rw [← hU0'] at hstart
  have htot : (1 + 1 / T) * ((T * (A ^ 2 * (1 + (1 / T0) ^ 2) * (B * ε) ^ 2) + 2 * T * (k0 * ε + a) ^ 2) * G) ≤
      (T + 1) * (G * k1 * ε ^ 2) + 4 * (T + 1) * G * a ^ 2 := by
    have e1 : (1 + 1 / T) * ((T * (A ^ 2 * (1 + (1 / T0) ^ 2) * (B * ε) ^ 2) + 2 * T * (k0 * ε + a) ^ 2) * G) =
        (T + 1) * G * (A ^ 2 * (1 + (1 / T0) ^ 2) * (B * ε) ^ 2 + 2 * (k0 * ε + a) ^ 2) := by
      generalize (1 / T0) ^ 2 = w
      field_simp
    have e2 : (k0 * ε + a) ^ 2 ≤ 2 * (k0 * ε) ^ 2 + 2 * a ^ 2 := sq_add_le _ _
    have e3 : (T + 1) * (G * k1 * ε ^ 2) + 4 * (T + 1) * G * a ^ 2 =
        (T + 1) * G * (A ^ 2 * (1 + (1 / T0) ^ 2) * (B * ε) ^ 2 + 2 * (2 * (k0 * ε) ^ 2 + 2 * a ^ 2)) := by
      rw [hk1]
      ring
    rw [e1, e3]
    refine mul_le_mul_of_nonneg_left ?_ (by positivity)
    linarith
  have hε2 : ε ^ 2 ≤ e4 ^ 2 * E ^ 2 := by
    rw [← mul_pow]
    exact pow_le_pow_left₀ hε0.le hεE 2
  have hmain : (T + 1) * (G * k1 * ε ^ 2) ≤ (T + 1) * (G * k1 * e4 ^ 2 * E ^ 2) := by
    refine mul_le_mul_of_nonneg_left ?_ (by positivity)
    rw [mul_assoc (G * k1)]
    exact mul_le_mul_of_nonneg_left hε2 (by positivity)
  have h1 := H n hn he β (fun k => by rw [hβk k]; simp) _ U (fun z hz => hU z ⟨by linarith [hz.1], by linarith [hz.2]⟩) hstart
    (lt_of_le_of_lt htot (by linarith)) z hz j
  have h2 := h1.trans (htot.trans (add_le_add_left hmain _))
  have hS : Real.sqrt (T + 1) ^ 2 = T + 1 := Real.sq_sqrt (by linarith)
  have hS1 : 1 ≤ Real.sqrt (T + 1) := Real.one_le_sqrt.2 (by linarith)
  have hq1 : (T + 1) * (G * k1 * e4 ^ 2 * E ^ 2) = (Real.sqrt (G * k1) * e4 * Real.sqrt (T + 1) * E) ^ 2 := by
    have hX : Real.sqrt (G * k1) ^ 2 = G * k1 := Real.sq_sqrt (by positivity)
    linear_combination -(e4 ^ 2 * E ^ 2 * Real.sqrt (T + 1) ^ 2) * hX - (e4 ^ 2 * E ^ 2 * (G * k1)) * hS
  have hq2 : 4 * (T + 1) * G * a ^ 2 ≤ (Real.sqrt (4 * (T + 1) * G) * Ca / (n : ℝ) ^ s) ^ 2 := by
    rw [ha, div_pow, div_pow, mul_pow, Real.sq_sqrt (by positivity), ← mul_div_assoc]
    refine div_le_div_of_nonneg_left (by positivity) (by positivity) ?_
    exact pow_le_pow_left₀ (by positivity) (pow_le_pow_right₀ hn1 (Nat.le_succ s)) 2
  have h3 : ‖U z j - train A T0 κ W (cut ε) z (time T n j)‖ ≤
      Real.sqrt (G * k1) * e4 * Real.sqrt (T + 1) * E + Real.sqrt (4 * (T + 1) * G) * Ca / (n : ℝ) ^ s := by
    exact le_add_of_sq_le (norm_nonneg _) (by positivity) (by positivity) h2 hq1.le hq2
  have h4 : ‖train A T0 κ W (cut ε) z (time T n j) - soliton β₂ γ T0 z (time T n j)‖ ≤ A * B * (e4 * E) := by
    have e0 : per W (cut ε) (time T n j / T0) = cut ε (time T n j / T0) := by
      have := per_local hW hvan (x := time T n j / T0) (k := 0) (by
        rw [Int.cast_zero, zero_mul, sub_zero]
        exact in_window hTp hT0 hWT j)
      rwa [Int.cast_zero, zero_mul, sub_zero] at this
    have e1 : train A T0 κ W (cut ε) z (time T n j) - soliton β₂ γ T0 z (time T n j) =
        ((-(A * (sech (time T n j / T0) - cut ε (time T n j / T0))) : ℝ) : ℂ) * exp (I * ((κ * z : ℝ) : ℂ)) := by
      unfold train soliton
      rw [e0, ← hPdef, ← hA, ← hκ, ← sub_mul, ← ofReal_sub]
      congr 2
      unfold sech
      ring
    rw [e1, norm_mul, mul_comm I, norm_exp_ofReal_mul_I, mul_one, norm_real, Real.norm_eq_abs, abs_neg, abs_mul, abs_of_pos hA0, mul_assoc]
    refine mul_le_mul_of_nonneg_left (((hb _).2.1).trans ?_) hA0.le
    exact mul_le_mul_of_nonneg_left hεE hB
  have h5 := norm_sub_le_norm_sub_add_norm_sub (U z j) (train A T0 κ W (cut ε) z (time T n j)) (soliton β₂ γ T0 z (time T n j))
  have h6 : A * B * (e4 * E) ≤ A * B * e4 * Real.sqrt (T + 1) * E := by
    have : A * B * e4 * E * 1 ≤ A * B * e4 * E * Real.sqrt (T + 1) := mul_le_mul_of_nonneg_left hS1 (by positivity)
    linarith
  have h7 : (Real.sqrt (G * k1) + A * B) * e4 * Real.sqrt (T + 1) * E = Real.sqrt (G * k1) * e4 * Real.sqrt (T + 1) * E + A * B * e4 * Real.sqrt (T + 1) * E := by
    ring
  rw [h7]
  linarith

/-! ## The constructor and the solver -/

open PyM in
/-- the analytic constructors without chirp -/
theorem shaped_plain (shape : ℝ → ℝ) {wl tw frep : ℝ} (hwl : 1 < wl) (htw : 1 < tw) {N : ℕ} (hN : 0 < N) (T0 : ℝ) :
    shapedPulse shape none wl tw frep N 0 0 0 0 T0 =
      .ok { base (some frep) wl tw N with aw := some ⟨N, fftT fun i => ((shape (time tw N i) : ℝ) : ℂ)⟩ } := by
  have hb := base_holds (some frep) wl tw hN
  set p0 := base (some frep) wl tw N with hp0
  have hT : p0.T_ps = .ok ⟨N, fun i => ((i : ℕ) - (N : ℝ) / 2) * (tw / N)⟩ := (hb fun _ => 0).T_eq
  have hs : ∀ z : Fin N → ℂ, setAT ⟨N, z⟩ p0 = (.ok (), { p0 with aw := some ⟨N, fftT z⟩ }) :=
    fun z => setAT_fresh hN rfl (base_aw _ _ _ _) z
  set z : Fin N → ℂ := fun i => ((shape (((i : ℕ) - (N : ℝ) / 2) * (tw / N)) : ℝ) : ℂ) with hz
  have hchirp : chirpPulseT 0 0 T0 { p0 with aw := some ⟨N, fftT z⟩ } = (.ok (), { p0 with aw := some ⟨N, fftT z⟩ }) := by
    have h := hb (fftT z)
    unfold chirpPulseT
    simp only [bind_apply, read_apply, h.AT_eq, T_ps, h.T_eq, lift_apply, Vec.zip_mk, h.setAT_eq, ifftT_fftT]
    simp
  unfold shapedPulse construct
  have hc : configure wl tw (init (some frep) (some N)) = (.ok (), p0) := configure_eval hwl htw _
  have hbody : (do
      configure wl tw
      let t ← PyM.read T_ps
      setAT (t.map fun x => ((shape x : ℝ) : ℂ))
      match (none : Option ℝ) with
      | none => Pure.pure ()
      | some power => scaleToAverage power frep
      chirpPulseW 0 0 0 none
      chirpPulseT 0 0 T0 : PyM Pulse Unit) (init (some frep) (some N)) = (.ok (), { p0 with aw := some ⟨N, fftT z⟩ }) := by
    simp only [bind_apply, hc, read_apply, hT, Vec.map_mk, hs, pure_apply, (hb _).chirpW_zero]
    exact hchirp
  rw [hbody]
  rfl

theorem fiberPoly_second (β₂ T : ℝ) : fiberPoly (fun _ : Fin 1 => β₂) 0 T = C (β₂ / 2) * X ^ 2 := by
  have h : taylorPoly (fun _ : Fin 1 => β₂) = C (β₂ / 2) * X ^ 2 := by
    unfold taylorPoly
    simp
  unfold fiberPoly Nlse.slope
  rw [h]
  simp

/-- C150: `SechPulse` with the peak power of the fundamental soliton, sent through a generated fibre with anomalous dispersion `β₂` and nonlinear coefficient
`γ` by `propagate`, comes out as the soliton at every stored position.  The error falls exponentially with the time window and faster than any power
of the number of points, once the number of steps is large enough. -/
theorem C150_soliton {β₂ γ T0 L : ℝ} (hβ : β₂ < 0) (hγ : 0 < γ) (hT0 : 0 < T0) (hL : 0 < L) : ∃ K T1 : ℝ, ∀ T, T1 ≤ T → ∀ s : ℕ,
    ∃ (C : ℝ) (n0 : ℕ), ∀ n : ℕ, n0 ≤ n → n % 2 = 0 → ∀ (polyfit : Fiber.PolyFit) (spline : Fiber.Spline) (wl frep : ℝ) (label : String), 1 < wl →
      ∃ p : Pulse, sechPulse (solitonPower β₂ γ T0) T0 wl T frep n 0 0 0 0 false = .ok p ∧ p.T_ps = .ok ⟨n, time T n⟩ ∧
      p.AT = .ok ⟨n, fun j => soliton β₂ γ T0 0 (time T n j)⟩ ∧ ∃ N0 : ℕ, ∀ N, N0 ≤ N → ∃ r o' F',
        propagate polyfit spline { Obj.default with disableSS := true, disableRaman := true } p
          ⟨Fiber.genFib L wl ⟨1, fun _ => β₂⟩ γ 0 "ps^n/m" label Fiber.Fib.new, Fiber.genSpecs 0⟩ N false = some (.ok (r, o', F')) ∧ r.AT.length = N ∧
        ∀ i < N, ∃ v : Fin n → ℂ, r.AT[i]? = some ⟨n, v⟩ ∧ ∀ j, ‖v j - soliton β₂ γ T0 ((i + 1) * (L / N)) (time T n j)‖ ≤
          K * Real.sqrt (T + 1) * Real.exp (-T / (2 * T0)) + C / n ^ s := by
  obtain ⟨K, T1, hT1, H⟩ := C150_grid hβ hγ hT0 hL.le
  refine ⟨K, max T1 2, fun T hT s => ?_⟩
  have hT2 : 2 ≤ T := (le_max_right _ _).trans hT
  have hTp : 0 < T := by linarith
  obtain ⟨C, n0, hC⟩ := H T ((le_max_left _ _).trans hT) s
  refine ⟨C + 1, max n0 4, fun n hn he polyfit spline wl frep label hwl => ?_⟩
  have hn0 : n0 ≤ n := (le_max_left _ _).trans hn
  have hn4 : 4 ≤ n := (le_max_right _ _).trans hn
  have hnp : (0 : ℝ) < n := by have : 0 < n := by omega
                               exact_mod_cast this
  have hP : 0 < solitonPower β₂ γ T0 := by
    unfold solitonPower
    have : 0 < |β₂| := abs_pos.2 hβ.ne
    positivity
  set A : Fin n → ℂ := fun j => soliton β₂ γ T0 0 (time T n j) with hA
  have hAe : (fun i => ((Real.sqrt (solitonPower β₂ γ T0) / Real.cosh (time T n i / T0) : ℝ) : ℂ)) = A := by
    funext j
    rw [hA]
    unfold soliton
    simp only [mul_zero, ofReal_zero, exp_zero, mul_one]
  have hsech : sechPulse (solitonPower β₂ γ T0) T0 wl T frep n 0 0 0 0 false = .ok { base (some frep) wl T n with aw := some ⟨n, fftT A⟩ } := by
    unfold sechPulse
    rw [if_pos rfl, shaped_plain _ hwl (by linarith) (by omega), hAe]
  set p : Pulse := { base (some frep) wl T n with aw := some ⟨n, fftT A⟩ } with hp
  have hold : Holds p (fftT A) := base_holds (some frep) wl T (by omega) (fftT A)
  have hAT : p.AT = .ok ⟨n, A⟩ := by
    have := hold.AT_eq
    rwa [ifftT_fftT] at this
  refine ⟨p, hsech, hold.T_eq, hAT, ?_⟩
  have hwl0 : wl ≠ 0 := by linarith
  have hcw : p.cf ≠ 0 := div_ne_zero (by norm_num [cNmps, cMks]) hwl0
  have hload := C132_fiber polyfit spline { Obj.default with disableSS := true, disableRaman := true } (p := p) hold hn4 he hTp.ne' rfl (length := L) (gamma := γ)
    (gain := 0) (b := fun _ : Fin 1 => β₂) (units := "ps^n/m") (label := label) (by decide) hwl0
  have hd : 2 * Real.pi * p.cf - 2 * Real.pi * cNmps / wl = 0 := by
    show 2 * Real.pi * (cNmps / wl) - 2 * Real.pi * cNmps / wl = 0
    ring
  have hne : A ≠ 0 := by
    intro h0
    have h1 := congrFun h0 ⟨0, by omega⟩
    rw [← hAe] at h1
    have h2 : Real.sqrt (solitonPower β₂ γ T0) / Real.cosh (time T n ⟨0, by omega⟩ / T0) = 0 := by
      have : ((Real.sqrt (solitonPower β₂ γ T0) / Real.cosh (time T n ⟨0, by omega⟩ / T0) : ℝ) : ℂ) = 0 := h1
      exact_mod_cast this
    have h3 := Real.sqrt_pos.2 hP
    have h4 := Real.cosh_pos (time T n ⟨0, by omega⟩ / T0)
    have h5 := div_pos h3 h4
    linarith
  obtain ⟨U, hU, hU0, hconv⟩ := solver_close polyfit spline hold he hcw hAT hne hload rfl hL rfl (by norm_num [Obj.default]) rfl rfl
    (by norm_num [Obj.default]) (by norm_num [Obj.default]) (by norm_num [Obj.default])
  obtain ⟨N0, hN0⟩ := hconv (1 / (n : ℝ) ^ s) (by positivity)
  refine ⟨N0, fun N hN => ?_⟩
  obtain ⟨r, o', F', hr, hlr, hcol⟩ := hN0 N hN
  refine ⟨r, o', F', hr, hlr, fun i hi => ?_⟩
  obtain ⟨hz, v, hv, herr⟩ := hcol i hi
  refine ⟨v, hv, fun j => ?_⟩
  have h1 := hC n hn0 he _ (fun k => by
    rw [hd, fiberPoly_second, eval_mul, eval_C, eval_pow, eval_X]
    rfl) _ _ U (by linarith : -(L + 1) < 0) (by linarith : L < L + 1) hU hU0 _ hz j
  have h2 := norm_sub_le_norm_sub_add_norm_sub (v j) (U ((i + 1) * (L / N)) j) (soliton β₂ γ T0 ((i + 1) * (L / N)) (time T n j))
  have h3 := herr j
  have e : K * Real.sqrt (T + 1) * Real.exp (-T / (2 * T0)) + (C + 1) / (n : ℝ) ^ s =
      1 / (n : ℝ) ^ s + (K * Real.sqrt (T + 1) * Real.exp (-T / (2 * T0)) + C / (n : ℝ) ^ s) := by ring
  rw [e]
  linarith

/-- C150: every accuracy is reached by a window, a number of points and a number of steps that are large enough. -/
theorem C150_accuracy {β₂ γ T0 L η : ℝ} (hβ : β₂ < 0) (hγ : 0 < γ) (hT0 : 0 < T0) (hL : 0 < L) (hη : 0 < η) : ∃ T1 : ℝ, ∀ T, T1 ≤ T →
    ∃ n0 : ℕ, ∀ n : ℕ, n0 ≤ n → n % 2 = 0 → ∀ (polyfit : Fiber.PolyFit) (spline : Fiber.Spline) (wl frep : ℝ) (label : String), 1 < wl →
      ∃ p : Pulse, sechPulse (solitonPower β₂ γ T0) T0 wl T frep n 0 0 0 0 false = .ok p ∧ ∃ N0 : ℕ, ∀ N, N0 ≤ N → ∃ r o' F',
        propagate polyfit spline { Obj.default with disableSS := true, disableRaman := true } p
          ⟨Fiber.genFib L wl ⟨1, fun _ => β₂⟩ γ 0 "ps^n/m" label Fiber.Fib.new, Fiber.genSpecs 0⟩ N false = some (.ok (r, o', F')) ∧
        ∀ i < N, ∃ v : Fin n → ℂ, r.AT[i]? = some ⟨n, v⟩ ∧ ∀ j, ‖v j - soliton β₂ γ T0 ((i + 1) * (L / N)) (time T n j)‖ ≤ η := by
  obtain ⟨K, T1, H⟩ := C150_soliton hβ hγ hT0 hL
  obtain ⟨T2, hT2, hw⟩ := soliton_window (c := K ^ 2 / η ^ 2) (by positivity) hT0
  refine ⟨max T1 T2, fun T hT => ?_⟩
  have hTp : 0 < T := hT2.trans_le ((le_max_right _ _).trans hT)
  have h1 : K * Real.sqrt (T + 1) * Real.exp (-T / (2 * T0)) ≤ η / 2 := by
    have h2 := (hw T ((le_max_right _ _).trans hT)).1
    refine abs_le_of_sq_le_sq' ?_ (by positivity) |>.2
    rw [mul_pow, mul_pow, Real.sq_sqrt (by linarith)]
    have e : (T + 1) * (K ^ 2 / η ^ 2 * Real.exp (-T / (2 * T0)) ^ 2) = K ^ 2 * (T + 1) * Real.exp (-T / (2 * T0)) ^ 2 / η ^ 2 := by ring
    rw [e, div_le_iff₀ (by positivity)] at h2
    linarith
  obtain ⟨C, n0, hC⟩ := H T ((le_max_left _ _).trans hT) 1
  obtain ⟨n1, hn1⟩ := exists_nat_gt (C / (η / 2))
  refine ⟨max (max n0 n1) 1, fun n hn he polyfit spline wl frep label hwl => ?_⟩
  obtain ⟨p, hp, -, -, N0, hN⟩ := hC n ((le_max_left _ _).trans ((le_max_left _ _).trans hn)) he polyfit spline wl frep label hwl
  refine ⟨p, hp, N0, fun N hN0 => ?_⟩
  obtain ⟨r, o', F', hr, -, hcol⟩ := hN N hN0
  refine ⟨r, o', F', hr, fun i hi => ?_⟩
  obtain ⟨v, hv, hb⟩ := hcol i hi
  refine ⟨v, hv, fun j => (hb j).trans ?_⟩
  have hnn : n1 ≤ n := (le_max_right _ _).trans ((le_max_left _ _).trans hn)
  have hnr : (n1 : ℝ) ≤ n := by exact_mod_cast hnn
  have hn0 : 1 ≤ n := (le_max_right _ _).trans hn
  have hnp : (0 : ℝ) < n := by exact_mod_cast hn0
  have h3 : C / (n : ℝ) ^ 1 ≤ η / 2 := by
    rw [pow_one, div_le_iff₀ hnp]
    rw [div_lt_iff₀ (by positivity)] at hn1
    nlinarith
  linarith

/-- C150: the shape of the power does not depend on the distance; only the phase grows, by half the nonlinear phase at the peak. -/
theorem C150_shape {β₂ γ T0 : ℝ} (z t : ℝ) (hP : 0 ≤ solitonPower β₂ γ T0) : ‖soliton β₂ γ T0 z t‖ ^ 2 = solitonPower β₂ γ T0 * (1 / Real.cosh (t / T0)) ^ 2 := by
  unfold soliton
  rw [norm_mul, mul_comm I, norm_exp_ofReal_mul_I, mul_one, norm_real, Real.norm_eq_abs, sq_abs, div_pow, Real.sq_sqrt hP]
  ring

/-- C150, a concrete case: `β₂ = -0.02 ps²/m`, `γ = 1/(W·m)`, `T0 = 0.1 ps`, peak power 2 W -/
example : ((-0.02 : ℝ) < 0) ∧ ((0 : ℝ) < 1) ∧ ((0 : ℝ) < 0.1) ∧ ((0 : ℝ) < 10) ∧ solitonPower (-0.02) 1 0.1 = 2 := by
  refine ⟨by norm_num, by norm_num, by norm_num, by norm_num, ?_⟩
  unfold solitonPower
  rw [abs_of_neg (by norm_num)]
  norm_num

end PyNLO
