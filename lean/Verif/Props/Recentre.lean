import Verif.Lemmas.Recentre
import Verif.Props.NlseExamples
import Verif.Props.NlseRaman

/-!
# The spectrum that `propagate` returns, and the choice of the centre frequency of the grid
-/

namespace PyNLO

open Complex Set Polynomial Ssfm Pulse OdeGlobal Nlse Alias

/-- the columns of `AW` are the transforms of the columns of `AT` -/
theorem AW_column {polyfit : Fiber.PolyFit} {spline : Fiber.Spline} {o o' : Obj} {p : Pulse} {F F' : FibObj} {N : ℕ} {reload : Bool} {r : Result}
    (h : propagate polyfit spline o p F N reload = some (.ok (r, o', F'))) {a : Fin p.n → ℂ} (hp : Holds p a) (he : p.n % 2 = 0) {i : ℕ} {v : Fin p.n → ℂ}
    (hv : r.AT[i]? = some ⟨p.n, v⟩) : r.AW[i]? = some ⟨p.n, fftT v⟩ := by
  obtain ⟨-, L, S, P, -, -, -, -, -, -, -, hAT, hlen, hAW, -⟩ := C43_bookkeeping h hp he
  have hl : r.AT.length = N := by rw [hAT]; simp
  have hi : i < N := by
    have := List.getElem?_eq_some_iff.1 hv
    rw [← hl]
    exact this.1
  have h1 := hAW i (by omega) (by omega)
  have h2 : r.AT[i]'(by omega) = ⟨p.n, v⟩ := (List.getElem?_eq_some_iff.1 hv).2
  rw [h2] at h1
  have hpos := hp.pos
  unfold FFT_t at h1
  rw [if_neg (by show ¬ p.n = 0; omega)] at h1
  rw [List.getElem?_eq_getElem (by omega : i < r.AW.length)]
  exact congrArg some (Except.ok.inj h1).symm

/-- one bin of a spectrum is bounded by the mean square of the samples -/
theorem fftT_le_mean {n : ℕ} (hn : 0 < n) (he : n % 2 = 0) (x : Fin n → ℂ) (l : Fin n) : ‖fftT x l‖ ^ 2 ≤ 1 / (n : ℝ) * ∑ j, ‖x j‖ ^ 2 := by
  have hn' : (0 : ℝ) < n := by exact_mod_cast hn
  rw [fftT_apply_even he, norm_mul, mul_pow]
  have h1 : ‖∑ j, x j * rootE n (((j : ℕ) - (n / 2 : ℕ) : ℤ) * ((l : ℕ) - (n / 2 : ℕ) : ℤ))‖ ≤ ∑ j : Fin n, 1 * ‖x j‖ := by
    refine (norm_sum_le _ _).trans (Finset.sum_le_sum fun j _ => ?_)
    rw [norm_mul, one_mul]
    have : ‖rootE n (((j : ℕ) - (n / 2 : ℕ) : ℤ) * ((l : ℕ) - (n / 2 : ℕ) : ℤ))‖ = 1 := by
      unfold rootE
      rw [show 2 * (Real.pi : ℂ) * I * (((((j : ℕ) - (n / 2 : ℕ) : ℤ) * ((l : ℕ) - (n / 2 : ℕ) : ℤ) : ℤ) : ℂ) / n) =
        ((2 * Real.pi * (((((j : ℕ) - (n / 2 : ℕ) : ℤ) * ((l : ℕ) - (n / 2 : ℕ) : ℤ) : ℤ) : ℝ) / n) : ℝ) : ℂ) * I by push_cast; ring]
      exact norm_exp_ofReal_mul_I _
    rw [this, mul_one]
  have h2 := Finset.sum_mul_sq_le_sq_mul_sq Finset.univ (fun _ : Fin n => (1 : ℝ)) fun j => ‖x j‖
  have h3 : ∑ _j : Fin n, (1 : ℝ) ^ 2 = n := by simp
  rw [h3] at h2
  have h4 := (pow_le_pow_left₀ (norm_nonneg _) h1 2).trans h2
  have h5 : ‖(1 / n : ℂ)‖ ^ 2 = 1 / (n : ℝ) ^ 2 := by
    rw [norm_div, norm_one, Complex.norm_natCast, div_pow, one_pow]
  rw [h5]
  calc 1 / (n : ℝ) ^ 2 * ‖∑ j, x j * rootE n (((j : ℕ) - (n / 2 : ℕ) : ℤ) * ((l : ℕ) - (n / 2 : ℕ) : ℤ))‖ ^ 2 ≤ 1 / (n : ℝ) ^ 2 * (n * ∑ j, ‖x j‖ ^ 2) :=
        mul_le_mul_of_nonneg_left h4 (by positivity)
    _ = _ := by field_simp

theorem fftT_diff {n : ℕ} (he : n % 2 = 0) (x y : Fin n → ℂ) (l : Fin n) : fftT (fun j => x j - y j) l = fftT x l - fftT y l := by
  rw [fftT_apply_even he, fftT_apply_even he, fftT_apply_even he, ← mul_sub, ← Finset.sum_sub_distrib]
  congr 1
  exact Finset.sum_congr rfl fun j _ => by ring

/-- a field close to the samples of a smooth function has a spectrum close to the coefficients of the function -/
theorem spectrum_close {u : ℝ → ℝ → ℂ} (hu : ContDiff ℝ (⊤ : ℕ∞) fun q : ℝ × ℝ => u q.1 q.2) {T : ℝ} (hT : 0 < T) (hper : ∀ z, Function.Periodic (u z) T) (L : ℝ)
    (s : ℕ) {C : ℝ} : ∃ C', ∀ n : ℕ, 0 < n → n % 2 = 0 → ∀ z ∈ Icc 0 L, ∀ v : Fin n → ℂ,
      1 / (n : ℝ) * ∑ j, ‖v j - u z (time T n j)‖ ^ 2 ≤ (C / n ^ s) ^ 2 → ∀ l : Fin n, ‖fftT v l - Series.coef T (u z) ((l : ℕ) - (n / 2 : ℕ))‖ ≤ C' / n ^ s := by
  obtain ⟨B, hB0, hB⟩ := uniform_bound hu hT hper L (s + 2)
  refine ⟨|C| + (T / (2 * Real.pi)) ^ (s + 2) * 2 ^ s * (∑' k : ℤ, 1 / (k : ℝ) ^ 2) * B, fun n hn he z hz v hv l => ?_⟩
  have h1 := spectrum_error hT hn he (slice_contDiff hu z) (hper z) s (hB z hz) (k := (l : ℕ) - (n / 2 : ℕ)) (by have := l.isLt; omega) (by have := l.isLt; omega)
  have hbin : bin hn ((l : ℕ) - (n / 2 : ℕ)) = l := by
    have := bin_inside hn he (k := (l : ℕ) - (n / 2 : ℕ)) (by have := l.isLt; omega) (by have := l.isLt; omega)
    exact Fin.ext (by omega)
  rw [hbin] at h1
  have h2 : ‖fftT v l - fftT (fun i => u z (time T n i)) l‖ ≤ |C| / n ^ s := by
    rw [← fftT_diff he]
    have := (fftT_le_mean hn he (fun j => v j - u z (time T n j)) l).trans hv
    have h3 := sq_le_sq.1 this
    rwa [abs_norm, abs_div, abs_of_pos (by positivity : (0 : ℝ) < (n : ℝ) ^ s)] at h3
  calc _ ≤ ‖fftT v l - fftT (fun i => u z (time T n i)) l‖ + ‖fftT (fun i => u z (time T n i)) l - Series.coef T (u z) ((l : ℕ) - (n / 2 : ℕ))‖ :=
        norm_sub_le_norm_sub_add_norm_sub _ _ _
    _ ≤ |C| / n ^ s + (T / (2 * Real.pi)) ^ (s + 2) * 2 ^ s * (∑' k : ℤ, 1 / (k : ℝ) ^ 2) * B / n ^ s := add_le_add h2 h1
    _ = _ := by ring

theorem column_position {L : ℝ} (hL : 0 < L) {i N : ℕ} (hi : i < N) : ((i : ℝ) + 1) * (L / N) ∈ Icc 0 L := by
  have hN : (0 : ℝ) < N := by exact_mod_cast (by omega : 0 < N)
  refine ⟨by positivity, ?_⟩
  have : (i : ℝ) + 1 ≤ N := by exact_mod_cast hi
  calc ((i : ℝ) + 1) * (L / N) ≤ N * (L / N) := mul_le_mul_of_nonneg_right this (by positivity)
    _ = L := by field_simp

/-- C165 (Raman off): the spectra that `propagate` returns are the Fourier coefficients of the solution, up to an error that falls faster than
every power of the number of points. -/
theorem C165_spectrum {b : ℝ[X]} {g γ : ℝ} {h : ℝ → ℝ} {T L : ℝ} {u : ℝ → ℝ → ℂ} (hu : Solution b g γ 0 h T L u) (hT : 0 < T) (hL : 0 < L) (s : ℕ) :
    ∃ (C : ℝ) (n0 : ℕ), ∀ (polyfit : Fiber.PolyFit) (spline : Fiber.Spline) (o : Obj) (p : Pulse) (F : FibObj) (f1 : Fiber.Fib) (β : Fin p.n → ℝ)
      (R : Fin p.n → ℂ) (fR : ℝ) (a : Fin p.n → ℂ), Holds p a → n0 ≤ p.n → p.n % 2 = 0 → p.cf ≠ 0 → p.AT = .ok ⟨p.n, samples u T p.n 0⟩ →
      samples u T p.n 0 ≠ 0 → Loads polyfit spline o p F f1 β g R γ fR → (∀ k, β k = b.eval (2 * Real.pi * ((k : ℕ) - (p.n : ℝ) / 2) / T)) →
      F.fib.length = some L → o.method = .rk4ip → o.eta = 5 → o.disableSS = true → o.disableRaman = true → 0 < o.dz → 0 < o.dzMin →
      0 < o.localError →
      ∃ N0 : ℕ, ∀ N, N0 ≤ N → ∃ r o' F', propagate polyfit spline o p F N false = some (.ok (r, o', F')) ∧ r.AW.length = N ∧
        ∀ i < N, ∃ w : Fin p.n → ℂ, r.AW[i]? = some ⟨p.n, w⟩ ∧
          ∀ l, ‖w l - Series.coef T (u ((i + 1) * (L / N))) ((l : ℕ) - (p.n / 2 : ℕ))‖ ≤ C / p.n ^ s := by
  obtain ⟨C, n0, H⟩ := C132_converges hu hT hL s
  obtain ⟨C', hC'⟩ := spectrum_close hu.smooth hT hu.periodic L s (C := C)
  refine ⟨C', n0, fun polyfit spline o p F f1 β R fR a hp hn he hcf hA hne hl hβ hlen hm heta hss hram hdz hmin hle => ?_⟩
  obtain ⟨N0, HN⟩ := H polyfit spline o p F f1 β R fR a hp hn he hcf hA hne hl hβ hlen hm heta hss hram hdz hmin hle
  refine ⟨N0, fun N hN => ?_⟩
  obtain ⟨r, o', F', hr, hlr, hcol⟩ := HN N hN
  refine ⟨r, o', F', hr, ?_, fun i hi => ?_⟩
  · obtain ⟨-, L, S, P, -, -, -, -, -, -, -, -, hlen, -⟩ := C43_bookkeeping hr hp he
    exact hlen
  · obtain ⟨v, hv, herr⟩ := hcol i hi
    refine ⟨fftT v, AW_column hr hp he hv, hC' p.n hp.pos he _ (column_position hL hi) v ?_⟩
    have hn' : (0 : ℝ) < p.n := by exact_mod_cast hp.pos
    calc 1 / (p.n : ℝ) * ∑ j, ‖v j - u ((i + 1) * (L / N)) (time T p.n j)‖ ^ 2 ≤ 1 / (p.n : ℝ) * ∑ _j : Fin p.n, (C / p.n ^ s) ^ 2 :=
          mul_le_mul_of_nonneg_left (Finset.sum_le_sum fun j _ => pow_le_pow_left₀ (norm_nonneg _) (herr j) 2) (by positivity)
      _ = _ := by
          simp only [Finset.sum_const, Finset.card_univ, Fintype.card_fin, nsmul_eq_mul]
          field_simp

/-- C165 (Raman on): the spectra that `propagate` returns are the Fourier coefficients of the solution, up to an error of the order of `1/NPTS`. -/
theorem C165_spectrum_raman (o : Obj) (h1 : 0 < o.tau1) (h2 : 0 < o.tau2) {b : ℝ[X]} {g γ : ℝ} {T L : ℝ} {u : ℝ → ℝ → ℂ}
    (hu : Solution b g γ (fraction o) (kernelFun o) T L u) (hT : 0 < T) (hL : 0 < L) (hm : o.method = .rk4ip) (heta : o.eta = 5)
    (hss : o.disableSS = true) (hram : o.disableRaman = false) (hdz : 0 < o.dz) (hmin : 0 < o.dzMin) (hle : 0 < o.localError) :
    ∃ (C : ℝ) (n0 : ℕ), ∀ (polyfit : Fiber.PolyFit) (spline : Fiber.Spline) (p : Pulse) (F : FibObj) (f1 : Fiber.Fib) (β : Fin p.n → ℝ)
      (R : Fin p.n → ℂ) (fR : ℝ) (a : Fin p.n → ℂ), Holds p a → n0 ≤ p.n → p.n % 2 = 0 → p.cf ≠ 0 → p.tw = T → p.AT = .ok ⟨p.n, samples u T p.n 0⟩ →
      samples u T p.n 0 ≠ 0 → Loads polyfit spline o p F f1 β g R γ fR → (∀ k, β k = b.eval (2 * Real.pi * ((k : ℕ) - (p.n : ℝ) / 2) / T)) →
      F.fib.length = some L →
      ∃ N0 : ℕ, ∀ N, N0 ≤ N → ∃ r o' F', propagate polyfit spline o p F N false = some (.ok (r, o', F')) ∧ r.AW.length = N ∧
        ∀ i < N, ∃ w : Fin p.n → ℂ, r.AW[i]? = some ⟨p.n, w⟩ ∧
          ∀ l, ‖w l - Series.coef T (u ((i + 1) * (L / N))) ((l : ℕ) - (p.n / 2 : ℕ))‖ ≤ C / p.n := by
  obtain ⟨C, n0, H⟩ := C133_converges o h1 h2 hu hT hL hm heta hss hram hdz hmin hle
  obtain ⟨C', hC'⟩ := spectrum_close hu.smooth hT hu.periodic L 1 (C := C)
  refine ⟨C', n0, fun polyfit spline p F f1 β R fR a hp hn he hcf htw hA hne hl hβ hlen => ?_⟩
  obtain ⟨N0, HN⟩ := H polyfit spline p F f1 β R fR a hp hn he hcf htw hA hne hl hβ hlen
  refine ⟨N0, fun N hN => ?_⟩
  obtain ⟨r, o', F', hr, hlr, hcol⟩ := HN N hN
  refine ⟨r, o', F', hr, ?_, fun i hi => ?_⟩
  · obtain ⟨-, L, S, P, -, -, -, -, -, -, -, -, hlen, -⟩ := C43_bookkeeping hr hp he
    exact hlen
  · obtain ⟨v, hv, herr⟩ := hcol i hi
    refine ⟨fftT v, AW_column hr hp he hv, fun l => ?_⟩
    have := hC' p.n hp.pos he _ (column_position hL hi) v (by rw [pow_one]; exact herr) l
    rwa [pow_one] at this

/-! ## The centre frequency -/

/-- phase per length between the descriptions about two centre frequencies that differ by `Ω` -/
noncomputable def phaseRate {m : ℕ} (b : Fin m → ℝ) (d Ω T : ℝ) : ℝ :=
  (taylorPoly b).eval (d + Ω) - (taylorPoly b).eval d - Nlse.slope ((taylorPoly b).comp (X + C d)) T * Ω

/-- delay per length between the frames of two centre frequencies that differ by `Ω` -/
noncomputable def delayRate {m : ℕ} (b : Fin m → ℝ) (d Ω T : ℝ) : ℝ :=
  Nlse.slope ((taylorPoly b).comp (X + C (d + Ω))) T - Nlse.slope ((taylorPoly b).comp (X + C d)) T

theorem fiberPoly_shift {m : ℕ} (b : Fin m → ℝ) (d Ω T x : ℝ) :
    (fiberPoly b (d + Ω) T).eval x = (fiberPoly b d T).eval (x + Ω) - phaseRate b d Ω T - delayRate b d Ω T * x := by
  unfold fiberPoly phaseRate delayRate
  simp only [Polynomial.eval_sub, Polynomial.eval_mul, Polynomial.eval_C, Polynomial.eval_X, Polynomial.eval_comp, Polynomial.eval_add]
  rw [show x + (d + Ω) = x + Ω + d by ring]
  ring

/-- C165: a solution for the fibre as loaded about one centre frequency, described about another one, is the solution for the fibre as loaded about the other. -/
theorem C165_frame {m : ℕ} {b : Fin m → ℝ} {d g γ fR : ℝ} {h : ℝ → ℝ} {T L : ℝ} (hT : 0 < T) {u : ℝ → ℝ → ℂ} (hu : Solution (fiberPoly b d T) g γ fR h T L u) (k : ℤ) :
    Solution (fiberPoly b (d + 2 * Real.pi * k / T) T) g γ fR h T L
      (recentred (2 * Real.pi * k / T) (phaseRate b d (2 * Real.pi * k / T) T) (delayRate b d (2 * Real.pi * k / T) T) u) :=
  recentred_solution hT hu k fun x => fiberPoly_shift b d _ T x

/-- samples of the field of `f` with respect to a centre frequency that is higher by `Ω` -/
noncomputable def shiftedSamples (Ω : ℝ) (f : ℝ → ℂ) (T : ℝ) (n : ℕ) : Fin n → ℂ := fun j => exp (I * ((Ω * time T n j : ℝ) : ℂ)) * f (time T n j)

theorem samples_recentred (Ω c0 c1 : ℝ) (u : ℝ → ℝ → ℂ) (T : ℝ) (n : ℕ) : samples (recentred Ω c0 c1 u) T n 0 = shiftedSamples Ω (u 0) T n := by
  funext j
  simp [samples, recentred, shiftedSamples]

theorem shiftedSamples_ne {Ω : ℝ} {u : ℝ → ℝ → ℂ} {T : ℝ} {n : ℕ} (h : samples u T n 0 ≠ 0) : shiftedSamples Ω (u 0) T n ≠ 0 := by
  intro h0
  refine h (funext fun j => ?_)
  have := congrFun h0 j
  exact (mul_eq_zero.1 this).resolve_left (exp_ne_zero _)

/-- spectra at the same optical frequency -/
theorem same_frequency {p p' : Pulse} {a : Fin p.n → ℂ} {a' : Fin p'.n → ℂ} (hp : Holds p a) (hp' : Holds p' a') (he : p.n % 2 = 0) (he' : p'.n % 2 = 0) {T : ℝ}
    (hT : 0 < T) (htw : p.tw = T) (htw' : p'.tw = T) {m : ℤ} (hcf : p'.cf = p.cf + m / T) {u : ℝ → ℝ → ℂ} {z c0 c1 : ℝ} (hper : Function.Periodic (u z) T)
    {w : Fin p.n → ℂ} {w' : Fin p'.n → ℂ} {e e' : ℝ} (hw : ∀ l, ‖w l - Series.coef T (u z) ((l : ℕ) - (p.n / 2 : ℕ))‖ ≤ e)
    (hw' : ∀ l, ‖w' l - Series.coef T (recentred (2 * Real.pi * m / T) c0 c1 u z) ((l : ℕ) - (p'.n / 2 : ℕ))‖ ≤ e')
    {W : Fin p.n → ℝ} {W' : Fin p'.n → ℝ} (hW : p.W_THz = .ok ⟨p.n, W⟩) (hW' : p'.W_THz = .ok ⟨p'.n, W'⟩) {l : Fin p.n} {l' : Fin p'.n} (hl : W l = W' l') :
    |‖w l‖ - ‖w' l'‖| ≤ e + e' := by
  rw [W_of_ready hp.ready hp.pos] at hW
  rw [W_of_ready hp'.ready hp'.pos] at hW'
  have hW1 := eq_of_heq (Vec.mk.inj (Except.ok.inj hW)).2
  have hW1' := eq_of_heq (Vec.mk.inj (Except.ok.inj hW')).2
  rw [← hW1, ← hW1'] at hl
  simp only [htw, htw', hcf] at hl
  have hk : ((l : ℕ) : ℤ) - (p.n / 2 : ℕ) = ((l' : ℕ) : ℤ) - (p'.n / 2 : ℕ) + m := by
    have h1 : ((l : ℕ) : ℝ) - (p.n : ℝ) / 2 = ((l' : ℕ) : ℝ) - (p'.n : ℝ) / 2 + m := by
      have hpi := Real.pi_pos
      have h2 : 2 * Real.pi / T * (((l : ℕ) : ℝ) - (p.n : ℝ) / 2) = 2 * Real.pi / T * (((l' : ℕ) : ℝ) - (p'.n : ℝ) / 2 + m) := by
        linear_combination hl
      exact mul_left_cancel₀ (by positivity) h2
    have e1 : ((p.n / 2 : ℕ) : ℝ) = (p.n : ℝ) / 2 := by rw [Nat.cast_div (by omega) (by norm_num)]; norm_num
    have e2 : ((p'.n / 2 : ℕ) : ℝ) = (p'.n : ℝ) / 2 := by rw [Nat.cast_div (by omega) (by norm_num)]; norm_num
    rw [← e1, ← e2] at h1
    exact_mod_cast h1
  have h3 := hw l
  have h4 := hw' l'
  have h5 := norm_coef_recentred hT m c0 c1 z hper ((l' : ℕ) - (p'.n / 2 : ℕ))
  rw [← hk] at h5
  have h6 := abs_norm_sub_norm_le (w l) (Series.coef T (u z) ((l : ℕ) - (p.n / 2 : ℕ)))
  have h7 := abs_norm_sub_norm_le (w' l') (Series.coef T (recentred (2 * Real.pi * m / T) c0 c1 u z) ((l' : ℕ) - (p'.n / 2 : ℕ)))
  rw [h5] at h7
  rw [abs_le] at *
  constructor <;> linarith [h6.1, h6.2, h7.1, h7.2]

section
variable {m : ℕ} {b : Fin m → ℝ} {wl gamma gain cf T L : ℝ} {u : ℝ → ℝ → ℂ}

/-- C165 (Raman off): the choice of the centre frequency of the grid does not matter.  Let `u` be the field in a generated fibre, described about the centre
frequency `cf`, and let `p`, `p'` be pulses with the same time window that hold its samples about `cf` and about `cf + k/T`.  Both are propagated, and at
every stored position and every optical frequency that is on both grids, the moduli of the two spectra agree up to `C/nˢ + C/n'ˢ`. -/
theorem C165_centre {h : ℝ → ℝ} (hu : Solution (fiberPoly b (2 * Real.pi * cf - 2 * Real.pi * cNmps / wl) T) gain gamma 0 h T L u) (hT : 0 < T) (hL : 0 < L)
    (hwl : wl ≠ 0) (k : ℤ) (s : ℕ) :
    ∃ (K : ℝ) (n0 : ℕ), ∀ (polyfit : Fiber.PolyFit) (spline : Fiber.Spline) (o : Obj) (units label : String) (p p' : Pulse) (a : Fin p.n → ℂ) (a' : Fin p'.n → ℂ),
      units ≠ "ps^n/km" → Holds p a → Holds p' a' → n0 ≤ p.n → n0 ≤ p'.n → p.n % 2 = 0 → p'.n % 2 = 0 → p.cf = cf → p'.cf = cf + k / T → p.cf ≠ 0 → p'.cf ≠ 0 →
      p.tw = T → p'.tw = T → p.AT = .ok ⟨p.n, samples u T p.n 0⟩ → p'.AT = .ok ⟨p'.n, shiftedSamples (2 * Real.pi * k / T) (u 0) T p'.n⟩ →
      samples u T p.n 0 ≠ 0 → samples u T p'.n 0 ≠ 0 →
      o.method = .rk4ip → o.eta = 5 → o.disableSS = true → o.disableRaman = true → 0 < o.dz → 0 < o.dzMin → 0 < o.localError →
      ∃ N0 : ℕ, ∀ N, N0 ≤ N → ∃ r r' o1 o2 F1 F2,
        propagate polyfit spline o p ⟨Fiber.genFib L wl ⟨m, b⟩ gamma gain units label Fiber.Fib.new, Fiber.genSpecs gain⟩ N false = some (.ok (r, o1, F1)) ∧
        propagate polyfit spline o p' ⟨Fiber.genFib L wl ⟨m, b⟩ gamma gain units label Fiber.Fib.new, Fiber.genSpecs gain⟩ N false = some (.ok (r', o2, F2)) ∧
        r.AW.length = N ∧ r'.AW.length = N ∧
        ∀ i < N, ∃ (w : Fin p.n → ℂ) (w' : Fin p'.n → ℂ), r.AW[i]? = some ⟨p.n, w⟩ ∧ r'.AW[i]? = some ⟨p'.n, w'⟩ ∧
          ∀ W W', p.W_THz = .ok ⟨p.n, W⟩ → p'.W_THz = .ok ⟨p'.n, W'⟩ → ∀ l l', W l = W' l' → |‖w l‖ - ‖w' l'‖| ≤ K / p.n ^ s + K / p'.n ^ s := by
  obtain ⟨C1, n1, H1⟩ := C165_spectrum hu hT hL s
  obtain ⟨C2, n2, H2⟩ := C165_spectrum (C165_frame hT hu k) hT hL s
  refine ⟨max C1 C2, max (max n1 n2) 4, ?_⟩
  intro polyfit spline o units label p p' a a' hun hp hp' hn hn' he he' hcf hcf' hc0 hc0' htw htw' hA hA' hne hne' hm heta hss hram hdz hmin hle
  have hn1 : n1 ≤ p.n := le_trans (le_trans (le_max_left _ _) (le_max_left _ _)) hn
  have hn2 : n2 ≤ p'.n := le_trans (le_trans (le_max_right _ _) (le_max_left _ _)) hn'
  have hl := C132_fiber polyfit spline o hp (le_trans (le_max_right _ _) hn) he (by rw [htw]; exact hT.ne') hram (length := L) (gamma := gamma) (gain := gain)
    (b := b) (label := label) hun hwl
  have hl' := C132_fiber polyfit spline o hp' (le_trans (le_max_right _ _) hn') he' (by rw [htw']; exact hT.ne') hram (length := L) (gamma := gamma) (gain := gain)
    (b := b) (label := label) hun hwl
  obtain ⟨N1, G1⟩ := H1 polyfit spline o p _ _ _ _ _ a hp hn1 he hc0 hA hne hl (fun j => by rw [hcf, htw]) rfl hm heta hss hram hdz hmin hle
  obtain ⟨N2, G2⟩ := H2 polyfit spline o p' _ _ _ _ _ a' hp' hn2 he' hc0' (by rw [samples_recentred]; exact hA') (by rw [samples_recentred]; exact shiftedSamples_ne hne')
    hl' (fun j => by
      rw [hcf', htw']
      congr 2
      ring) rfl hm heta hss hram hdz hmin hle
  refine ⟨max N1 N2, fun N hN => ?_⟩
  obtain ⟨r, o1, F1, hr, hlr, hcol⟩ := G1 N (le_trans (le_max_left _ _) hN)
  obtain ⟨r', o2, F2, hr', hlr', hcol'⟩ := G2 N (le_trans (le_max_right _ _) hN)
  refine ⟨r, r', o1, o2, F1, F2, hr, hr', hlr, hlr', fun i hi => ?_⟩
  obtain ⟨w, hw, herr⟩ := hcol i hi
  obtain ⟨w', hw', herr'⟩ := hcol' i hi
  refine ⟨w, w', hw, hw', fun W W' hW hW' l l' hll => ?_⟩
  refine (same_frequency hp hp' he he' hT htw htw' (m := k) (by rw [hcf', hcf]) (hu.periodic _) herr herr' hW hW' hll).trans (add_le_add ?_ ?_)
  · exact div_le_div_of_nonneg_right (le_max_left _ _) (by positivity)
  · exact div_le_div_of_nonneg_right (le_max_right _ _) (by positivity)

/-- C165 (Raman on): the same with the delayed response; the moduli agree up to an error of the order of `1/NPTS`. -/
theorem C165_centre_raman (o : Obj) (h1 : 0 < o.tau1) (h2 : 0 < o.tau2)
    (hu : Solution (fiberPoly b (2 * Real.pi * cf - 2 * Real.pi * cNmps / wl) T) gain gamma (fraction o) (kernelFun o) T L u) (hT : 0 < T) (hL : 0 < L)
    (hwl : wl ≠ 0) (k : ℤ) (hm : o.method = .rk4ip) (heta : o.eta = 5)
    (hss : o.disableSS = true) (hram : o.disableRaman = false) (hdz : 0 < o.dz) (hmin : 0 < o.dzMin) (hle : 0 < o.localError) :
    ∃ (K : ℝ) (n0 : ℕ), ∀ (polyfit : Fiber.PolyFit) (spline : Fiber.Spline) (units label : String) (p p' : Pulse) (a : Fin p.n → ℂ) (a' : Fin p'.n → ℂ),
      units ≠ "ps^n/km" → Holds p a → Holds p' a' → n0 ≤ p.n → n0 ≤ p'.n → p.n % 2 = 0 → p'.n % 2 = 0 → p.cf = cf → p'.cf = cf + k / T → p.cf ≠ 0 → p'.cf ≠ 0 →
      p.tw = T → p'.tw = T → p.AT = .ok ⟨p.n, samples u T p.n 0⟩ → p'.AT = .ok ⟨p'.n, shiftedSamples (2 * Real.pi * k / T) (u 0) T p'.n⟩ →
      samples u T p.n 0 ≠ 0 → samples u T p'.n 0 ≠ 0 →
      ∃ N0 : ℕ, ∀ N, N0 ≤ N → ∃ r r' o1 o2 F1 F2,
        propagate polyfit spline o p ⟨Fiber.genFib L wl ⟨m, b⟩ gamma gain units label Fiber.Fib.new, Fiber.genSpecs gain⟩ N false = some (.ok (r, o1, F1)) ∧
        propagate polyfit spline o p' ⟨Fiber.genFib L wl ⟨m, b⟩ gamma gain units label Fiber.Fib.new, Fiber.genSpecs gain⟩ N false = some (.ok (r', o2, F2)) ∧
        r.AW.length = N ∧ r'.AW.length = N ∧
        ∀ i < N, ∃ (w : Fin p.n → ℂ) (w' : Fin p'.n → ℂ), r.AW[i]? = some ⟨p.n, w⟩ ∧ r'.AW[i]? = some ⟨p'.n, w'⟩ ∧
          ∀ W W', p.W_THz = .ok ⟨p.n, W⟩ → p'.W_THz = .ok ⟨p'.n, W'⟩ → ∀ l l', W l = W' l' → |‖w l‖ - ‖w' l'‖| ≤ K / p.n + K / p'.n := by
  obtain ⟨C1, n1, H1⟩ := C165_spectrum_raman o h1 h2 hu hT hL hm heta hss hram hdz hmin hle
  obtain ⟨C2, n2, H2⟩ := C165_spectrum_raman o h1 h2 (C165_frame hT hu k) hT hL hm heta hss hram hdz hmin hle
  refine ⟨max C1 C2, max (max n1 n2) 4, ?_⟩
  intro polyfit spline units label p p' a a' hun hp hp' hn hn' he he' hcf hcf' hc0 hc0' htw htw' hA hA' hne hne'
  have hn1 : n1 ≤ p.n := le_trans (le_trans (le_max_left _ _) (le_max_left _ _)) hn
  have hn2 : n2 ≤ p'.n := le_trans (le_trans (le_max_right _ _) (le_max_left _ _)) hn'
  obtain ⟨R, fR, hl⟩ := C133_fiber polyfit spline o hp (le_trans (le_max_right _ _) hn) he (by rw [htw]; exact hT.ne') h1 h2 (length := L) (gamma := gamma)
    (gain := gain) (b := b) (label := label) hun hwl
  obtain ⟨R', fR', hl'⟩ := C133_fiber polyfit spline o hp' (le_trans (le_max_right _ _) hn') he' (by rw [htw']; exact hT.ne') h1 h2 (length := L) (gamma := gamma)
    (gain := gain) (b := b) (label := label) hun hwl
  obtain ⟨N1, G1⟩ := H1 polyfit spline p _ _ _ _ _ a hp hn1 he hc0 htw hA hne hl (fun j => by rw [hcf, htw]) rfl
  obtain ⟨N2, G2⟩ := H2 polyfit spline p' _ _ _ _ _ a' hp' hn2 he' hc0' htw' (by rw [samples_recentred]; exact hA')
    (by rw [samples_recentred]; exact shiftedSamples_ne hne') hl' (fun j => by
      rw [hcf', htw']
      congr 2
      ring) rfl
  refine ⟨max N1 N2, fun N hN => ?_⟩
  obtain ⟨r, o1, F1, hr, hlr, hcol⟩ := G1 N (le_trans (le_max_left _ _) hN)
  obtain ⟨r', o2, F2, hr', hlr', hcol'⟩ := G2 N (le_trans (le_max_right _ _) hN)
  refine ⟨r, r', o1, o2, F1, F2, hr, hr', hlr, hlr', fun i hi => ?_⟩
  obtain ⟨w, hw, herr⟩ := hcol i hi
  obtain ⟨w', hw', herr'⟩ := hcol' i hi
  refine ⟨w, w', hw, hw', fun W W' hW hW' l l' hll => ?_⟩
  refine (same_frequency hp hp' he he' hT htw htw' (m := k) (by rw [hcf', hcf]) (hu.periodic _) herr herr' hW hW' hll).trans (add_le_add ?_ ?_)
  · exact div_le_div_of_nonneg_right (le_max_left _ _) (by positivity)
  · exact div_le_div_of_nonneg_right (le_max_right _ _) (by positivity)

end

/-- C165 applies to the breather and to a grid whose centre is `k` bins away: there are a solution, and pulses of every even size about both centres. -/
theorem C165_nonvacuous {p q : ℝ} (hp : 0 < p) (hq0 : 0 ≤ q) (hq1 : q < 1) (hpq : p ^ 2 + q ^ 2 = 1) {wl : ℝ} (L : ℝ) (k : ℤ) {n : ℕ} (hn : 0 < n) :
    Solution (fiberPoly (fun _ : Fin 1 => (-1 : ℝ)) (2 * Real.pi * (cNmps / wl) - 2 * Real.pi * cNmps / wl) (Real.pi / p)) 0 1 0 (fun _ => 0) (Real.pi / p) L (breather p q) ∧
      ∃ (P : Pulse) (a : Fin P.n → ℂ), P.n = n ∧ Holds P a ∧ P.cf = cNmps / wl + k / (Real.pi / p) ∧ P.tw = Real.pi / p ∧
        P.AT = .ok ⟨P.n, shiftedSamples (2 * Real.pi * k / (Real.pi / p)) (breather p q 0) (Real.pi / p) P.n⟩ := by
  refine ⟨?_, ?_⟩
  · rw [show 2 * Real.pi * (cNmps / wl) - 2 * Real.pi * cNmps / wl = 0 by ring, fiberPoly_quadratic]
    exact C132_breather hp hq0 hq1 hpq _ L
  · set A : Fin n → ℂ := shiftedSamples (2 * Real.pi * k / (Real.pi / p)) (breather p q 0) (Real.pi / p) n with hA
    have hold : Holds (heldPulse n (cNmps / wl + k / (Real.pi / p)) (Real.pi / p) A) (fftT A) := ⟨rfl, rfl, hn, rfl⟩
    refine ⟨heldPulse n (cNmps / wl + k / (Real.pi / p)) (Real.pi / p) A, fftT A, rfl, hold, rfl, rfl, ?_⟩
    have := hold.AT_eq
    rwa [ifftT_fftT] at this

/-- C165 (Raman on) applies to pulses of every shape in a fibre without dispersion. -/
theorem C165_nonvacuous_raman (o : Obj) (γ d : ℝ) (T L : ℝ) {f : ℝ → ℂ} (hf : ContDiff ℝ (⊤ : ℕ∞) f) (hper : Function.Periodic f T) :
    Solution (fiberPoly (fun _ : Fin 1 => (0 : ℝ)) d T) 0 γ (fraction o) (kernelFun o) T L (modulated γ (fraction o) (kernelFun o) T f) := by
  have e : fiberPoly (fun _ : Fin 1 => (0 : ℝ)) d T = 0 := by
    have : taylorPoly (fun _ : Fin 1 => (0 : ℝ)) = 0 := by simp [taylorPoly]
    simp [fiberPoly, this, Nlse.slope]
  rw [e]
  exact C133_modulated γ (fraction o) (kernel_contDiff o).continuous T L hf hper

end PyNLO
