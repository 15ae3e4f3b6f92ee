import Verif.Props.TreacyHod
import Verif.Lemmas.Savgol
import Mathlib.Analysis.SpecialFunctions.Pow.Deriv

/-! # Derivatives of the group delay by the Savitzky-Golay filter (C96) -/

namespace PyNLO.Treacy

open Real Filter Topology Set
open scoped Nat

/-- nine-point first derivative -/
noncomputable def nine1 : Fin 11 → ℝ := ![0, 1 / 280, -4 / 105, 1 / 5, -4 / 5, 0, 4 / 5, -1 / 5, 4 / 105, -1 / 280, 0]
/-- nine-point second derivative -/
noncomputable def nine2 : Fin 11 → ℝ := ![0, -1 / 560, 8 / 315, -1 / 5, 8 / 5, -205 / 72, 8 / 5, -1 / 5, 8 / 315, -1 / 560, 0]

theorem size1 : (∑ k : Fin 11, |savgolCoeffs 1 k| * |((k : ℕ) - 5 : ℝ)| ^ 8) ≤ 16.3 * (8 ! : ℕ) := by
  refine savgol_size (by norm_num) (c := nine1) ?_ (by norm_num) ?_
  · intro j hj
    interval_cases j <;> simp [Fin.sum_univ_succ, nine1] <;> norm_num
  · simp [Fin.sum_univ_succ, nine1]
    norm_num

theorem size2 : (∑ k : Fin 11, |savgolCoeffs 2 k| * |((k : ℕ) - 5 : ℝ)| ^ 8) ≤ 51 * (8 ! : ℕ) := by
  refine savgol_size (by norm_num) (c := nine2) ?_ (by norm_num) ?_
  · intro j hj
    interval_cases j <;> simp [Fin.sum_univ_succ, nine2] <;> norm_num
  · simp [Fin.sum_univ_succ, nine2]
    norm_num

theorem Diffracts.dphiArr {t : T} {ω : ℝ} (h : Diffracts t ω) (G : ℝ) : t.dphiArr ω G = t.tau G ω := by
  rw [T.dphiArr, T.tau, T.thetaArr, min_eq_right h.hi.le, max_eq_right h.lo.le]

/-- the filter applied to the group delay around `ω` -/
theorem savgol_tau {t : T} {ω : ℝ} (hin : ∀ x, |x - ω| ≤ 1e12 → Diffracts t x) (G : ℝ) {n : ℕ} (hn : n < 8) {q M : ℝ}
    (hq : (∑ k : Fin 11, |savgolCoeffs n k| * |((k : ℕ) - 5 : ℝ)| ^ 8) ≤ q * (8 ! : ℕ)) (hM : ∀ x, |x - ω| ≤ 1e12 → |iteratedDeriv 8 (t.tau G) x| ≤ M) :
    |savgol50 (fun k => t.dphiArr (ws ω k) G) n - 2e11 ^ n * iteratedDeriv n (t.tau G) ω| ≤ q * (M * 2e11 ^ 8) := by
  have hI : ∀ y ∈ Icc (ω - 5 * 2e11) (ω + 5 * 2e11), |y - ω| ≤ 1e12 := by
    intro y hy
    rw [abs_le]
    constructor <;> norm_num at hy ⊢ <;> linarith [hy.1, hy.2]
  have e : savgol50 (fun k => t.dphiArr (ws ω k) G) n = ∑ k : Fin 11, savgolCoeffs n k * t.tau G (ω + ((k : ℕ) - 5 : ℝ) * 2e11) := by
    refine Finset.sum_congr rfl fun k _ => ?_
    have hw : ws ω ⟨45 + k, by have := k.isLt; omega⟩ = ω + ((k : ℕ) - 5 : ℝ) * 2e11 := by
      simp only [ws]
      push_cast
      ring
    have h1 : (0 : ℝ) ≤ ((k : ℕ) : ℝ) := Nat.cast_nonneg _
    have h2 : ((k : ℕ) : ℝ) ≤ 10 := by exact_mod_cast Nat.lt_succ_iff.1 k.isLt
    simp only
    rw [hw, (hin _ (by rw [add_sub_cancel_left, abs_le]; constructor <;> norm_num <;> linarith)).dphiArr G]
  rw [e]
  refine (savgol_error hn (by norm_num) (fun y hy => (hin y (hI y hy)).contDiffAt G 8) (fun y hy => hM y (hI y hy))).trans ?_
  have hM0 : 0 ≤ M := (abs_nonneg _).trans (hM ω (by norm_num))
  have h8 : (0 : ℝ) < (8 ! : ℕ) := by exact_mod_cast Nat.factorial_pos 8
  calc _ ≤ q * (8 ! : ℕ) * (M * 2e11 ^ 8 / (8 ! : ℕ)) := mul_le_mul_of_nonneg_right hq (by positivity)
    _ = _ := by
      field_simp

theorem order1_tau {t : T} {ω : ℝ} (hin : ∀ x, |x - ω| ≤ 1e12 → Diffracts t x) (G : ℝ) {M : ℝ} (hM : ∀ x, |x - ω| ≤ 1e12 → |iteratedDeriv 8 (t.tau G) x| ≤ M) :
    ∃ v r, t.dtdw (lOfW ω) G = .val v ∧ t.dnphi (lOfW ω) G 1 = .ok r ∧ |r - v * 10 ^ 30| ≤ 16.3 * (2e11 ^ 7 * M) * 10 ^ 30 := by
  have h := hin ω (by norm_num)
  obtain ⟨τ, v, h1, h2, h3, -⟩ := C79_derivative h G
  have hv : deriv (t.tau G) ω = v := by
    have e : τ =ᶠ[𝓝 ω] t.tau G := by
      filter_upwards [h1, h.near] with y hy hy'
      rw [hy'.dphi G] at hy
      exact (NFlt.val.inj hy).symm
    rw [← e.deriv_eq, h2.deriv]
  have b := savgol_tau hin G (by norm_num) size1 hM
  rw [iteratedDeriv_one, hv, pow_one] at b
  refine ⟨v, _, h3, (C96_order1_partial t (lOfW ω) G).1, ?_⟩
  rw [wOfL_lOfW h.pos]
  generalize savgol50 (fun k => t.dphiArr (ws ω k) G) 1 = s at *
  have e : s / (2 * 10 ^ 11) ^ 1 * 10 ^ (15 * (1 + 1)) - v * 10 ^ 30 = (s - 2e11 * v) * (10 ^ 30 / 2e11) := by
    norm_num
    ring
  rw [e, abs_mul, abs_of_pos (by norm_num : (0 : ℝ) < 10 ^ 30 / 2e11)]
  calc _ ≤ 16.3 * (M * 2e11 ^ 8) * (10 ^ 30 / 2e11) := mul_le_mul_of_nonneg_right b (by norm_num)
    _ = _ := by
      norm_num
      ring

/-- C96: order 1 is `calc_dt_dw_singlepass` in fs², up to the error of the filter, when the grating diffracts the frequencies the filter uses. -/
theorem C96_order1 {t : T} {ω : ℝ} (hlo : Diffracts t (ω - 1e12)) (hhi : Diffracts t (ω + 1e12)) (G : ℝ) :
    ∃ τ : ℝ → ℝ, (∀ x, |x - ω| ≤ 1e12 → t.dphi x G = .val (τ x)) ∧ ∀ M, (∀ x, |x - ω| ≤ 1e12 → |iteratedDeriv 8 τ x| ≤ M) →
      ∃ v r, t.dtdw (lOfW ω) G = .val v ∧ t.dnphi (lOfW ω) G 1 = .ok r ∧ |r - v * 10 ^ 30| ≤ 16.3 * (2e11 ^ 7 * M) * 10 ^ 30 := by
  have hin : ∀ x, |x - ω| ≤ 1e12 → Diffracts t x := by
    intro x hx
    rw [abs_le] at hx
    exact hlo.between hhi (by linarith [hx.1]) (by linarith [hx.2])
  exact ⟨t.tau G, fun x hx => (hin x hx).dphi G, fun M hM => order1_tau hin G hM⟩

/-- C96, size of the error: when every complex frequency within `R` of `ω` is diffracted at a sine of modulus at most `q < 1`. -/
theorem C96_order1_error {t : T} {ω R q : ℝ} (hd : t.d ≠ 0) (hr : 1e12 < R) (hR : R < ω)
    (hq : |t.sine (lOfW ω)| + 2 * π * cMks * R / (|t.d| * ω * (ω - R)) ≤ q) (hq1 : q < 1) (G : ℝ) :
    ∃ v r, t.dtdw (lOfW ω) G = .val v ∧ t.dnphi (lOfW ω) G 1 = .ok r ∧
      |r - v * 10 ^ 30| ≤ 16.3 * (2e11 ^ 7 * (5040 * (4 * π ^ 2 * cMks * |G| / (t.d ^ 2 * (ω - R) ^ 3 * √(1 - q ^ 2) ^ 3)) / (R - 1e12) ^ 7)) * 10 ^ 30 := by
  have hr0 : (0 : ℝ) ≤ 1e12 := by norm_num
  have hin : ∀ x : ℝ, |x - ω| ≤ 1e12 → Diffracts t x := by
    intro x hx
    refine T.diffracts_of_dom hd (T.disc hd (hr0.trans_lt hr) hR hq hq1 (z := x) ?_).1
    rw [← Complex.ofReal_sub, Complex.norm_real]
    exact hx.trans hr.le
  have h7 : ((7 ! : ℕ) : ℝ) = 5040 := by norm_num [Nat.factorial]
  exact order1_tau hin G fun x hx => by
    have := T.tau_bound hd hr0 hr hR hq hq1 G hx 7
    rwa [h7] at this

/-! ## A grating at normal incidence -/

/-- 1000 lines/mm at normal incidence -/
noncomputable def tn : T := ⟨1 / 10 ^ 6, 0⟩
/-- the frequency below which nothing is diffracted -/
noncomputable def an : ℝ := 2 * π * cMks * 10 ^ 6

theorem an_pos : 0 < an := by
  have : (0 : ℝ) < cMks := by norm_num [cMks]
  unfold an
  positivity

theorem an_large : 1.7e15 < an := by
  have h := Real.pi_gt_three
  unfold an
  simp only [cMks]
  nlinarith

theorem sine_tn (x : ℝ) : tn.sine (lOfW x) = an / x := by
  rw [sine_lOfW]
  simp only [tn, an, sin_zero, sub_zero]
  rw [mul_one_div, div_div_eq_mul_div]

/-- C96: the hypotheses of the error bound are met at twice that frequency. -/
theorem C96_nonvacuous : T.init 1000 0 = .ok tn ∧ tn.d ≠ 0 ∧ 1e12 < an / 2 ∧ an / 2 < 2 * an ∧
    |tn.sine (lOfW (2 * an))| + 2 * π * cMks * (an / 2) / (|tn.d| * (2 * an) * (2 * an - an / 2)) ≤ 2 / 3 := by
  have ha := an_pos
  have hl := an_large
  refine ⟨?_, by norm_num [tn], by norm_num at hl ⊢; linarith, by linarith, ?_⟩
  · rw [T.init, if_neg (by norm_num), tn]
    norm_num
  · have e : 2 * π * cMks = an / 10 ^ 6 := by unfold an; ring
    rw [sine_tn, e, show |tn.d| = 1 / 10 ^ 6 by simp only [tn]; rw [abs_of_pos (by norm_num)]]
    rw [show an / (2 * an) = 1 / 2 by field_simp, abs_of_pos (by norm_num)]
    have : an / 10 ^ 6 * (an / 2) / (1 / 10 ^ 6 * (2 * an) * (2 * an - an / 2)) = 1 / 6 := by
      have : 2 * an - an / 2 = 3 / 2 * an := by ring
      rw [this]
      field_simp
      norm_num
    rw [this]
    norm_num

/-- second derivative of the group delay there -/
theorem tau_second (G : ℝ) : HasDerivAt (deriv (tn.tau G)) (2 / (3 * √3) * (4 * π ^ 2 * cMks * G * 10 ^ 12) / an ^ 4) (2 * an) := by
  have ha := an_pos
  set K := 4 * π ^ 2 * cMks * G * 10 ^ 12 with hK
  have hder : ∀ x, an < x → deriv (tn.tau G) x = -K * (x ^ 2 - an ^ 2) ^ (-(3 / 2) : ℝ) := by
    intro x hx
    have hx0 : 0 < x := ha.trans hx
    have hlt : an / x < 1 := (div_lt_one hx0).2 hx
    have hpos : 0 < an / x := div_pos ha hx0
    have hD : Diffracts tn x := ⟨by norm_num [tn], hx0, by rw [sine_tn]; linarith, by rw [sine_tn]; exact hlt⟩
    have hu : 0 < x ^ 2 - an ^ 2 := by nlinarith
    rw [(hD.hasDerivAt G).deriv, T.tau', sine_tn, rpow_neg hu.le]
    have e1 : 1 - (an / x) ^ 2 = (x ^ 2 - an ^ 2) / x ^ 2 := by field_simp
    have e2 : (x ^ 2 - an ^ 2) ^ (3 / 2 : ℝ) = √(x ^ 2 - an ^ 2) ^ 3 := by
      clear e1
      generalize x ^ 2 - an ^ 2 = u at hu
      rw [Real.sqrt_eq_rpow, ← Real.rpow_natCast, ← Real.rpow_mul hu.le]
      norm_num
    have hS : 0 < √(x ^ 2 - an ^ 2) := sqrt_pos.2 hu
    rw [e1, sqrt_div hu.le, sqrt_sq hx0.le, e2, hK]
    simp only [tn]
    generalize √(x ^ 2 - an ^ 2) = S at hS
    field_simp
  have hn : deriv (tn.tau G) =ᶠ[𝓝 (2 * an)] fun x => -K * (x ^ 2 - an ^ 2) ^ (-(3 / 2) : ℝ) := by
    filter_upwards [lt_mem_nhds (show an < 2 * an by linarith)] with x hx using hder x hx
  have hu : (0 : ℝ) < (2 * an) ^ 2 - an ^ 2 := by nlinarith
  have hd : HasDerivAt (fun x : ℝ => x ^ 2 - an ^ 2) (2 * (2 * an)) (2 * an) := by
    simpa using (hasDerivAt_pow 2 (2 * an)).sub_const (an ^ 2)
  refine HasDerivAt.congr_of_eventuallyEq ?_ hn
  refine ((hd.rpow_const (p := -(3 / 2)) (Or.inl hu.ne')).const_mul (-K)).congr_deriv ?_
  have e3 : (2 * an) ^ 2 - an ^ 2 = 3 * an ^ 2 := by ring
  have e4 : (3 * an ^ 2) ^ (-(3 / 2) - 1 : ℝ) = (9 * √3 * an ^ 5)⁻¹ := by
    rw [show (-(3 / 2) - 1 : ℝ) = -(5 / 2) by norm_num, rpow_neg (by positivity)]
    congr 1
    rw [show (5 / 2 : ℝ) = (1 / 2) * (5 : ℕ) by norm_num, Real.rpow_mul (by positivity), ← Real.sqrt_eq_rpow, Real.rpow_natCast,
      sqrt_mul (by norm_num), sqrt_sq ha.le, mul_pow]
    have : √3 ^ 5 = 9 * √3 := by
      have h3 : √3 ^ 2 = (3 : ℝ) := sq_sqrt (by norm_num)
      calc √3 ^ 5 = (√3 ^ 2) ^ 2 * √3 := by ring
        _ = _ := by rw [h3]; norm_num
    rw [this]
  rw [e3, e4]
  have h3 : 0 < √3 := sqrt_pos.2 (by norm_num)
  generalize √3 = r at h3
  field_simp
  ring

/-- C96 refuted with numbers: for 1000 lines/mm at normal incidence and 0.5 µm the second order comes out more than `10^44` times as large as the
second derivative of the group delay in fs³. -/
theorem C96_order2_refuted {G : ℝ} (hG : 0 < G) : ∃ τ : ℝ → ℝ, ∃ r, T.init 1000 0 = .ok tn ∧ (∀ᶠ x in 𝓝 (2 * an), tn.dphi x G = .val (τ x)) ∧
    0 < iteratedDeriv 2 τ (2 * an) ∧ tn.dnphi (lOfW (2 * an)) G 2 = .ok r ∧ 10 ^ 44 * (iteratedDeriv 2 τ (2 * an) * 10 ^ 45) < r := by
  obtain ⟨h0, hd, hr, hR, hq⟩ := C96_nonvacuous
  have ha := an_pos
  have hl := an_large
  have hr0 : (0 : ℝ) ≤ 1e12 := by norm_num
  have hin : ∀ x : ℝ, |x - 2 * an| ≤ 1e12 → Diffracts tn x := by
    intro x hx
    refine T.diffracts_of_dom hd (T.disc hd (hr0.trans_lt hr) hR hq (by norm_num) (z := x) ?_).1
    rw [← Complex.ofReal_sub, Complex.norm_real]
    exact hx.trans hr.le
  have h := hin (2 * an) (by norm_num)
  have hc : (0 : ℝ) < cMks := by norm_num [cMks]
  have hv : iteratedDeriv 2 (tn.tau G) (2 * an) = 2 / (3 * √3) * (4 * π ^ 2 * cMks * G * 10 ^ 12) / an ^ 4 := by
    rw [iteratedDeriv_succ, iteratedDeriv_one]
    exact (tau_second G).deriv
  have h7 : ((7 ! : ℕ) : ℝ) = 5040 := by norm_num [Nat.factorial]
  have b := savgol_tau hin G (by norm_num) size2 fun x hx => T.tau_bound hd hr0 hr hR hq (by norm_num) G hx 7
  have hK0 : 0 < 4 * π ^ 2 * cMks * G * 10 ^ 12 := by positivity
  have hB : 4 * π ^ 2 * cMks * |G| / (tn.d ^ 2 * (2 * an - an / 2) ^ 3 * √(1 - (2 / 3) ^ 2) ^ 3) ≤ 4 * π ^ 2 * cMks * G * 10 ^ 12 / an ^ 3 := by
    have hS : (0.7 : ℝ) ≤ √(1 - (2 / 3) ^ 2) := Real.le_sqrt_of_sq_le (by norm_num)
    have hS3 : (0.7 : ℝ) ^ 3 ≤ √(1 - (2 / 3) ^ 2) ^ 3 := by gcongr
    rw [abs_of_pos hG, show tn.d ^ 2 = 1 / 10 ^ 12 by norm_num [tn], show 2 * an - an / 2 = 3 / 2 * an by ring]
    generalize √(1 - (2 / 3) ^ 2 : ℝ) ^ 3 = S at hS3
    have hS0 : 0 < S := lt_of_lt_of_le (by norm_num) hS3
    rw [div_le_div_iff₀ (by positivity) (by positivity)]
    have : an ^ 3 ≤ 27 / 8 * an ^ 3 * S := by
      have h3 : 0 < an ^ 3 := by positivity
      have hS1 : (1 : ℝ) ≤ 27 / 8 * S := by norm_num at hS3; linarith
      nlinarith
    calc 4 * π ^ 2 * cMks * G * an ^ 3 ≤ 4 * π ^ 2 * cMks * G * (27 / 8 * an ^ 3 * S) := mul_le_mul_of_nonneg_left this (by positivity)
      _ = _ := by ring
  have hRr : (0.49 * an : ℝ) ≤ an / 2 - 1e12 := by norm_num at hl ⊢; linarith
  generalize 4 * π ^ 2 * cMks * |G| / (tn.d ^ 2 * (2 * an - an / 2) ^ 3 * √(1 - (2 / 3) ^ 2) ^ 3) = B at b hB
  rw [hv, h7] at b
  have h3 : (0 : ℝ) < √3 := sqrt_pos.2 (by norm_num)
  have h3' : √3 < 1.8 := by
    rw [sqrt_lt' (by norm_num)]
    norm_num
  have hv1 : 0.37 / an ^ 4 * (4 * π ^ 2 * cMks * G * 10 ^ 12) ≤ 2 / (3 * √3) * (4 * π ^ 2 * cMks * G * 10 ^ 12) / an ^ 4 := by
    have : (0.37 : ℝ) ≤ 2 / (3 * √3) := by
      rw [le_div_iff₀ (by positivity)]
      norm_num at h3' ⊢
      linarith
    rw [div_mul_eq_mul_div]
    gcongr
  generalize 4 * π ^ 2 * cMks * G * 10 ^ 12 = K at *
  set v := 2 / (3 * √3) * K / an ^ 4 with hvdef
  have hv0 : 0 < v := by positivity
  -- the error is small
  have herr : 51 * (5040 * B / (an / 2 - 1e12) ^ 7 * 2e11 ^ 8) ≤ 2e11 ^ 2 * (v / 2) := by
    have hB2 : 5040 * B / (an / 2 - 1e12) ^ 7 ≤ 5040 * (K / an ^ 3) / (0.49 * an) ^ 7 := by gcongr
    have h6 : (1.7e15 : ℝ) ^ 6 ≤ an ^ 6 := by gcongr
    calc 51 * (5040 * B / (an / 2 - 1e12) ^ 7 * 2e11 ^ 8) ≤ 51 * (5040 * (K / an ^ 3) / (0.49 * an) ^ 7 * 2e11 ^ 8) := by gcongr
      _ = 2e11 ^ 2 * (K / an ^ 4) * (51 * 5040 * 2e11 ^ 6 / 0.49 ^ 7 / an ^ 6) := by
        rw [mul_pow]
        field_simp
      _ ≤ 2e11 ^ 2 * (K / an ^ 4) * (51 * 5040 * 2e11 ^ 6 / 0.49 ^ 7 / 1.7e15 ^ 6) :=
        mul_le_mul_of_nonneg_left (div_le_div_of_nonneg_left (by norm_num) (by norm_num) h6) (by positivity)
      _ ≤ 2e11 ^ 2 * (K / an ^ 4) * (0.37 / 2) := mul_le_mul_of_nonneg_left (by norm_num) (by positivity)
      _ ≤ 2e11 ^ 2 * (v / 2) := by
        have : K / an ^ 4 * (0.37 / 2) ≤ v / 2 := by
          calc K / an ^ 4 * (0.37 / 2) = 0.37 / an ^ 4 * K / 2 := by ring
            _ ≤ v / 2 := by linarith
        calc 2e11 ^ 2 * (K / an ^ 4) * (0.37 / 2) = 2e11 ^ 2 * (K / an ^ 4 * (0.37 / 2)) := by ring
          _ ≤ _ := by gcongr
  have hs := (abs_le.1 (b.trans herr)).1
  have hpos : (0 : ℝ) < savgol50 (fun k => tn.dphiArr (ws (2 * an) k) G) 2 := by
    have : (0 : ℝ) < 2e11 ^ 2 * (v / 2) := by positivity
    linarith
  have e := (C96_units_refuted tn (lOfW (2 * an)) G (n := 2) le_rfl (by rw [wOfL_lOfW h.pos]; exact hpos.ne')).1
  rw [wOfL_lOfW h.pos] at e
  refine ⟨tn.tau G, _, h0, ?_, by rw [hv]; exact hv0, e, ?_⟩
  · filter_upwards [h.near] with x hx using hx.dphi G
  · rw [hv]
    generalize savgol50 (fun k => tn.dphiArr (ws (2 * an) k) G) 2 = s at *
    have h2 : v / 2 ≤ s / (2 * 10 ^ 11) ^ 2 := by
      rw [le_div_iff₀ (by norm_num)]
      norm_num at hs ⊢
      linarith
    calc (10 : ℝ) ^ 44 * (v * 10 ^ 45) = v / 2 * (2 * 10 ^ 89) := by ring
      _ < v / 2 * 10 ^ 90 := by
        refine mul_lt_mul_of_pos_left ?_ (by positivity)
        norm_num
      _ ≤ s / (2 * 10 ^ 11) ^ 2 * 10 ^ (15 * 2 * (2 + 1)) := by
        norm_num at h2 ⊢
        linarith

end PyNLO.Treacy
