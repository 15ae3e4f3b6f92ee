import Verif.Lemmas.WienerSolution

/-! # From coefficients to smooth solutions -/

namespace PyNLO.Wiener

open Complex Set Filter Topology MeasureTheory Polynomial

/-- rapidly decaying coefficients that solve the equation between `a` and `d` -/
structure CSol (b : ℤ → ℝ) (r : ℤ → ℂ) (g γ a d : ℝ) (c : ℤ → ℝ → ℂ) : Prop where
  rapid : Rapid (Ioo a d) c
  eq : ∀ k, ∀ z ∈ Ioo a d, HasDerivAt (c k) (I * b k * c k z + (g / 2 : ℝ) * c k z + I * γ * cubicSum r (fun k => c k z) k) z

/-- propagation constants of a polynomial -/
noncomputable def betas (b : ℝ[X]) (T : ℝ) (k : ℤ) : ℝ := b.eval (2 * Real.pi * k / T)

theorem betas_tempered (b : ℝ[X]) {T : ℝ} (hT : 0 < T) : Tempered fun k => (betas b T k : ℂ) := by
  refine ⟨Alias.size b T, b.natDegree, fun k => ?_⟩
  rw [Complex.norm_real, Real.norm_eq_abs]
  exact Alias.eval_le b hT (one_le_br k) (by unfold br; linarith)

theorem bounded_tempered {r : ℤ → ℂ} {K : ℝ} (hr : ∀ k, ‖r k‖ ≤ K) : Tempered r := ⟨K, 0, fun k => by simpa using hr k⟩

/-- smooth map of the line into `Ioo a d` that keeps a neighbourhood of `[0, L]` -/
theorem exists_clamp {a d L : ℝ} (ha : a < 0) (hL : 0 ≤ L) (hd : L < d) :
    ∃ Φ : ℝ → ℝ, ContDiff ℝ (⊤ : ℕ∞) Φ ∧ (∀ z, Φ z ∈ Ioo a d) ∧ ∀ z ∈ Icc 0 L, Φ =ᶠ[𝓝 z] id := by
  obtain ⟨ε, hε, h1, h2⟩ : ∃ ε : ℝ, 0 < ε ∧ 2 * ε ≤ -a ∧ 2 * ε ≤ d - L :=
    ⟨min (-a) (d - L) / 2, by have := lt_min (neg_pos.2 ha) (sub_pos.2 hd); linarith, by have := min_le_left (-a) (d - L); linarith,
      by have := min_le_right (-a) (d - L); linarith⟩
  let χ : ContDiffBump (L / 2) := ⟨L / 2 + ε, L / 2 + 2 * ε, by positivity, by linarith⟩
  refine ⟨fun z => L / 2 + (z - L / 2) * χ z, contDiff_const.add ((contDiff_id.sub contDiff_const).mul χ.contDiff), fun z => ?_, fun z hz => ?_⟩
  · have h0 : 0 ≤ χ z := χ.nonneg
    have h3 : χ z ≤ 1 := χ.le_one
    rcases le_or_gt (L / 2 + 2 * ε) |z - L / 2| with h | h
    · have : χ z = 0 := χ.zero_of_le_dist (by rw [Real.dist_eq]; exact h)
      simp only [this, mul_zero, add_zero]
      exact ⟨by linarith, by linarith⟩
    · have h4 : |(z - L / 2) * χ z| < L / 2 + 2 * ε := by
        rw [abs_mul, abs_of_nonneg h0]
        exact lt_of_le_of_lt (mul_le_of_le_one_right (abs_nonneg _) h3) h
      rw [abs_lt] at h4
      exact ⟨by linarith, by linarith⟩
  · have hm : Metric.closedBall (L / 2) (L / 2 + ε) ∈ 𝓝 z := by
      refine Metric.closedBall_mem_nhds_of_mem ?_
      rw [Metric.mem_ball, Real.dist_eq, abs_lt]
      exact ⟨by linarith [hz.1], by linarith [hz.2]⟩
    filter_upwards [hm] with y hy
    have : χ y = 1 := χ.one_of_mem_closedBall hy
    simp only [this, mul_one, id]
    ring

theorem CSol.solution {b : ℝ[X]} {g γ fR : ℝ} {h : ℝ → ℝ} {T a d L : ℝ} {c : ℤ → ℝ → ℂ} (hT : 0 < T) (hh : IntervalIntegrable h volume 0 (T / 2))
    (hc : CSol (betas b T) (spectrum fR h T) g γ a d c) (ha : a < 0) (hL : 0 ≤ L) (hd : L < d) :
    ∃ u, Nlse.Solution b g γ fR h T L u ∧ (∀ z ∈ Icc 0 L, ∀ t, u z t = series T c (z, t)) ∧ ∀ z ∈ Icc 0 L, ∀ k, Series.coef T (u z) k = c k z := by
  have ho : IsOpen (Ioo a d) := isOpen_Ioo
  have hcn : IsPreconnected (Ioo a d) := isPreconnected_Ioo
  obtain ⟨Φ, h1, h2, h3⟩ := exists_clamp ha hL hd
  have hsm := fun m => smooth_coefficients ho hcn (betas_tempered b hT) (bounded_tempered (spectrum_le fR h hT)) hc.rapid hc.eq m
  have hser : ContDiffOn ℝ (⊤ : ℕ∞) (series T c) (Ioo a d ×ˢ univ) := contDiffOn_infty.2 fun m => series_contDiffOn ho hcn (hsm m)
  have hs : ContDiff ℝ (⊤ : ℕ∞) fun q : ℝ × ℝ => series T c (Φ q.1, q.2) := by
    rw [← contDiffOn_univ]
    exact hser.comp (t := Ioo a d ×ˢ (univ : Set ℝ)) ((h1.comp contDiff_fst).prodMk contDiff_snd).contDiffOn fun q _ => ⟨h2 q.1, trivial⟩
  have hz : ∀ z ∈ Icc 0 L, Φ z = z := fun z hz => (h3 z hz).self_of_nhds
  have hper : ∀ z, Function.Periodic (fun t => series T c (Φ z, t)) T := by
    intro z t
    unfold series
    refine tsum_congr fun k => ?_
    have := wave_period hT.ne' k t
    unfold wave at this
    simp only [this]
  have hval : ∀ z (hz : z ∈ Ioo a d) t, series T c (z, t) = val T (Wiener.mk (fun k => c k z) (hc.rapid.summable hz)) t := fun z hz t => rfl
  have hcoef : ∀ z ∈ Icc 0 L, ∀ k, Series.coef T (fun t => series T c (Φ z, t)) k = c k z := by
    intro z hzL k
    have hzJ := h2 z
    rw [show (fun t => series T c (Φ z, t)) = val T (Wiener.mk (fun k => c k (Φ z)) (hc.rapid.summable hzJ)) from rfl, coef_val hT, mk_apply, hz z hzL]
  refine ⟨fun z t => series T c (Φ z, t), ⟨hs, hper, fun z h0 hzL t => ?_⟩, fun z hzL t => by beta_reduce; rw [hz z hzL], hcoef⟩
  have hzI : z ∈ Icc 0 L := ⟨h0, hzL⟩
  have hzJ : z ∈ Ioo a d := by rw [← hz z hzI]; exact h2 z
  obtain ⟨-, c', hc', hsm'⟩ := hsm 1
  have hD := series_hasFDerivAt (T := T) ho hcn hc.rapid hsm'.rapid hc' (q := (z, t)) ⟨hzJ, trivial⟩
  have hline : HasDerivAt (fun z : ℝ => ((z, t) : ℝ × ℝ)) (1, 0) z := (hasDerivAt_id z).prodMk (hasDerivAt_const z t)
  have hD2 : HasDerivAt (fun z => series T c (z, t)) (series T c' (z, t)) z := by
    have := hD.comp_hasDerivAt z hline
    refine this.congr_deriv ?_
    simp
  have hD3 : HasDerivAt (fun z => series T c (Φ z, t)) (series T c' (z, t)) z := by
    refine hD2.congr_of_eventuallyEq ?_
    filter_upwards [h3 z hzI] with y hy
    rw [hy]
    rfl
  refine hD3.congr_deriv ?_
  let x : E := Wiener.mk (fun k => c k z) (hc.rapid.summable hzJ)
  have hu : ∀ t, series T c (Φ z, t) = val T x t := fun t => by rw [hz z hzI]; rfl
  have hr := spectrum_le fR h hT
  have hP : ∀ t, ((‖series T c (Φ z, t)‖ ^ 2 : ℝ) : ℂ) = val T (conv one x (star x)) t := fun t => by rw [hu, val_power]
  have hcub : series T c (Φ z, t) * ((Nlse.response fR h T (fun t => ‖series T c (Φ z, t)‖ ^ 2) t : ℝ) : ℂ) = val T (cubic one hr x) t := by
    rw [val_response hT hh hP t, hu, val_mul]
    rfl
  have hsz : ContDiff ℝ (⊤ : ℕ∞) fun t => series T c (Φ z, t) := hs.comp (contDiff_const.prodMk contDiff_id)
  have hdisp : HasSum (fun k : ℤ => I * ((b.eval (2 * Real.pi * k / T) : ℝ) : ℂ) * c k z * exp (-(2 * Real.pi * I * k * t / T)))
      (Nlse.dispersion b (fun t => series T c (Φ z, t)) t) := by
    refine (Alias.hasSum_dispersion hT hsz (hper z) b t).congr_fun fun k => ?_
    rw [hcoef z hzI]
  have h4 := (hdisp.add ((val_hasSum T x t).mul_left ((g / 2 : ℝ) : ℂ))).add ((val_hasSum T (cubic one hr x) t).mul_left (I * γ))
  have h5 : HasSum (fun k => c' k z * exp (-(2 * Real.pi * I * k * t / T)))
      (Nlse.dispersion b (fun t => series T c (Φ z, t)) t + ((g / 2 : ℝ) : ℂ) * val T x t + I * γ * val T (cubic one hr x) t) := by
    refine h4.congr_fun fun k => ?_
    have e := (hc' k z hzJ).unique (hc.eq k z hzJ)
    have e2 : cubic one hr x k = cubicSum (spectrum fR h T) (fun k => c k z) k := cubic_one hr x k
    rw [e, e2]
    simp only [betas, wave, x, mk_apply]
    ring
  have h6 : series T c' (z, t) = _ := h5.tsum_eq
  rw [h6, ← hcub, ← hu]
  push_cast
  ring

theorem rapid_coef {T : ℝ} (hT : 0 < T) {f : ℝ → ℂ} (hf : ContDiff ℝ (⊤ : ℕ∞) f) (hp : Function.Periodic f T) (s : ℕ) :
    Summable fun k : ℤ => (1 + |(k : ℝ)|) ^ s * ‖Series.coef T f k‖ := by
  have hb : ∀ q : ℕ, ∃ C, 0 ≤ C ∧ ∀ k : ℤ, |(k : ℝ)| ^ q * ‖Series.coef T f k‖ ≤ C := by
    intro q
    obtain ⟨B, hB⟩ := Series.periodic_bounded hT (hf.continuous_iteratedDeriv q (by exact_mod_cast le_top)) (Series.periodic_iteratedDeriv hp q)
    have hpi : 0 < (2 * Real.pi / T) ^ q := by positivity
    have hB0 : 0 ≤ B := (norm_nonneg _).trans (hB 0)
    refine ⟨B / (2 * Real.pi / T) ^ q, by positivity, fun k => ?_⟩
    have := Series.coef_decay hT hf hp hB k
    rw [mul_pow] at this
    rw [le_div_iff₀ hpi]
    linarith
  obtain ⟨C0, hC0, h0⟩ := hb 0
  obtain ⟨C, hC, h1⟩ := hb (s + 2)
  refine (summable_br.mul_left (2 ^ (s + 2) * (C0 + C))).of_nonneg_of_le (fun k => by positivity) fun k => ?_
  have hbr := br_pos k
  rw [mul_one_div, le_div_iff₀ (by positivity)]
  have e : (1 + |(k : ℝ)|) ^ s * ‖Series.coef T f k‖ * br k ^ 2 = br k ^ (s + 2) * ‖Series.coef T f k‖ := by
    unfold br
    rw [pow_add]
    ring
  rw [e]
  have h2 := h0 k
  have h3 := h1 k
  rw [pow_zero, one_mul] at h2
  have hn := norm_nonneg (Series.coef T f k)
  rcases le_total |(k : ℝ)| 1 with hk | hk
  · have : br k ^ (s + 2) ≤ 2 ^ (s + 2) := pow_le_pow_left₀ hbr.le (by unfold br; linarith) _
    have h4 : ‖Series.coef T f k‖ ≤ C0 + C := by linarith
    gcongr
  · have : br k ^ (s + 2) ≤ 2 ^ (s + 2) * |(k : ℝ)| ^ (s + 2) := by
      rw [← mul_pow]
      exact pow_le_pow_left₀ hbr.le (by unfold br; linarith) _
    calc br k ^ (s + 2) * ‖Series.coef T f k‖ ≤ 2 ^ (s + 2) * |(k : ℝ)| ^ (s + 2) * ‖Series.coef T f k‖ := by gcongr
      _ = 2 ^ (s + 2) * (|(k : ℝ)| ^ (s + 2) * ‖Series.coef T f k‖) := by ring
      _ ≤ 2 ^ (s + 2) * (C0 + C) := by gcongr; linarith

/-- room for a slightly larger size and distance -/
theorem exists_room {L p q A : ℝ} (h : L * (p + q * A ^ 2) < 1) : ∃ ε : ℝ, 0 < ε ∧ (L + ε) * (p + q * (A + ε) ^ 2) < 1 := by
  have hc : Continuous fun ε : ℝ => (L + ε) * (p + q * (A + ε) ^ 2) := by fun_prop
  have h0 : (L + 0) * (p + q * (A + 0) ^ 2) < 1 := by simpa using h
  have h1 := (hc.tendsto 0).eventually (gt_mem_nhds h0)
  obtain ⟨ε, h2, h3⟩ := ((h1.filter_mono nhdsWithin_le_nhds).and (self_mem_nhdsWithin (s := Ioi (0 : ℝ)))).exists
  exact ⟨ε, h3, h2⟩

/-- solutions around `0` over a distance that depends only on the size of the datum -/
theorem exists_csol (b : ℤ → ℝ) {r : ℤ → ℂ} {K : ℝ} (hr : ∀ k, ‖r k‖ ≤ K) (g γ : ℝ) {c0 : ℤ → ℂ}
    (hc : ∀ s : ℕ, Summable fun k : ℤ => (1 + |(k : ℝ)|) ^ s * ‖c0 k‖) {L : ℝ} (hL : 0 ≤ L) (hs : L * (|g| + 8 * |γ| * K * (∑' k, ‖c0 k‖) ^ 2) < 1) :
    ∃ L1, L < L1 ∧ ∃ c, CSol b r g γ (-L1) L1 c ∧ ∀ k, c k 0 = c0 k := by
  obtain ⟨ε, hε, h⟩ := exists_room hs
  have hA : 0 ≤ ∑' k, ‖c0 k‖ := tsum_nonneg fun _ => norm_nonneg _
  obtain ⟨c, h1, h2, h3⟩ := exists_coefficients hr b g γ hc (A := (∑' k, ‖c0 k‖) + ε) (L := L + ε) (by linarith) (by linarith) (by
    calc (L + ε) * (|g| * ((∑' k, ‖c0 k‖) + ε) + 8 * (|γ| * K * ((∑' k, ‖c0 k‖) + ε) ^ 3))
        = ((L + ε) * (|g| + 8 * |γ| * K * ((∑' k, ‖c0 k‖) + ε) ^ 2)) * ((∑' k, ‖c0 k‖) + ε) := by ring
      _ ≤ 1 * ((∑' k, ‖c0 k‖) + ε) := mul_le_mul_of_nonneg_right h.le (by linarith)
      _ = _ := one_mul _)
  exact ⟨L + ε, by linarith, c, ⟨h2, h3⟩, h1⟩

/-- every smooth periodic pulse has a smooth solution over some distance -/
theorem exists_nlse (b : ℝ[X]) (g γ fR : ℝ) {h : ℝ → ℝ} {T : ℝ} (hT : 0 < T) (hh : IntervalIntegrable h volume 0 (T / 2)) {f : ℝ → ℂ}
    (hf : ContDiff ℝ (⊤ : ℕ∞) f) (hp : Function.Periodic f T) {L : ℝ} (hL : 0 ≤ L)
    (hs : L * (|g| + 8 * |γ| * strength fR h T * (∑' k, ‖Series.coef T f k‖) ^ 2) < 1) :
    ∃ u, Nlse.Solution b g γ fR h T L u ∧ u 0 = f := by
  obtain ⟨L1, h1, c, hc, h0⟩ := exists_csol (betas b T) (spectrum_le fR h hT) g γ (rapid_coef hT hf hp) hL hs
  obtain ⟨u, hu, hv, -⟩ := hc.solution hT hh (by linarith) hL h1
  refine ⟨u, hu, funext fun t => ?_⟩
  rw [hv 0 ⟨le_rfl, hL⟩]
  unfold series
  simp only [h0]
  exact (Series.hasSum_coef hT hf hp t).tsum_eq

end PyNLO.Wiener
