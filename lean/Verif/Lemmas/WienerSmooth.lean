import Verif.Lemmas.Wiener
import Verif.Lemmas.FourierSeries
import Mathlib.Analysis.Calculus.SmoothSeries
import Mathlib.Analysis.Calculus.BumpFunction.InnerProduct

/-! # Fourier series whose coefficients move smoothly -/

namespace PyNLO.Wiener

open Complex Set Filter Topology

/-- size of a frequency -/
noncomputable def br (k : ℤ) : ℝ := 1 + |(k : ℝ)|

theorem one_le_br (k : ℤ) : 1 ≤ br k := by
  have := abs_nonneg (k : ℝ)
  unfold br
  linarith

theorem br_pos (k : ℤ) : 0 < br k := lt_of_lt_of_le one_pos (one_le_br k)

theorem br_sub (k j : ℤ) : br k ≤ br (k - j) * br j := by
  unfold br
  have h1 := abs_nonneg ((k : ℝ) - j)
  have h2 := abs_nonneg (j : ℝ)
  have h3 := abs_add_le ((k : ℝ) - j) j
  rw [sub_add_cancel] at h3
  push_cast
  nlinarith [mul_nonneg h1 h2]

theorem summable_br : Summable fun k : ℤ => 1 / br k ^ 2 := by
  have hs : Summable fun k : ℤ => 1 / (k : ℝ) ^ 2 := Real.summable_one_div_int_pow.2 (by norm_num)
  refine Summable.of_norm_bounded_eventually hs ?_
  have : {k : ℤ | ¬ ‖1 / br k ^ 2‖ ≤ 1 / (k : ℝ) ^ 2} ⊆ {0} := by
    intro k hk
    by_contra h0
    refine hk ?_
    have hk0 : (k : ℝ) ≠ 0 := by exact_mod_cast h0
    have hb := br_pos k
    rw [Real.norm_of_nonneg (by positivity)]
    have h1 : 0 < |(k : ℝ)| := abs_pos.2 hk0
    rw [← sq_abs (k : ℝ)]
    have : |(k : ℝ)| ≤ br k := by unfold br; linarith
    gcongr
  exact (Set.finite_singleton 0).subset this

/-- faster than any power, uniformly on `J` -/
def Rapid (J : Set ℝ) (f : ℤ → ℝ → ℂ) : Prop := ∀ s : ℕ, ∃ C, ∀ k : ℤ, ∀ z ∈ J, br k ^ s * ‖f k z‖ ≤ C

variable {J : Set ℝ} {f g : ℤ → ℝ → ℂ}

theorem Rapid.bound (hf : Rapid J f) (s : ℕ) : ∃ C, 0 ≤ C ∧ ∀ k : ℤ, ∀ z ∈ J, ‖f k z‖ ≤ C * (1 / br k ^ s) := by
  obtain ⟨C, hC⟩ := hf s
  refine ⟨max C 0, le_max_right _ _, fun k z hz => ?_⟩
  have hb := br_pos k
  rw [mul_one_div, le_div_iff₀ (by positivity), mul_comm]
  exact (hC k z hz).trans (le_max_left _ _)

theorem Rapid.summable (hf : Rapid J f) {z : ℝ} (hz : z ∈ J) : Summable fun k => ‖f k z‖ := by
  obtain ⟨C, -, h⟩ := hf.bound 2
  exact (summable_br.mul_left C).of_nonneg_of_le (fun _ => norm_nonneg _) fun k => h k z hz

theorem Rapid.add (hf : Rapid J f) (hg : Rapid J g) : Rapid J fun k z => f k z + g k z := by
  intro s
  obtain ⟨C, h1⟩ := hf s
  obtain ⟨D, h2⟩ := hg s
  refine ⟨C + D, fun k z hz => ?_⟩
  have hb := br_pos k
  calc br k ^ s * ‖f k z + g k z‖ ≤ br k ^ s * (‖f k z‖ + ‖g k z‖) := by gcongr; exact norm_add_le _ _
    _ = br k ^ s * ‖f k z‖ + br k ^ s * ‖g k z‖ := by ring
    _ ≤ C + D := add_le_add (h1 k z hz) (h2 k z hz)

/-- at most polynomial growth -/
def Tempered (p : ℤ → ℂ) : Prop := ∃ (C : ℝ) (q : ℕ), ∀ k, ‖p k‖ ≤ C * br k ^ q

theorem Rapid.mult (hf : Rapid J f) {p : ℤ → ℂ} (hp : Tempered p) : Rapid J fun k z => p k * f k z := by
  obtain ⟨D, q, hp⟩ := hp
  intro s
  obtain ⟨C, h1⟩ := hf (s + q)
  have hD : 0 ≤ D := by
    have := (norm_nonneg _).trans (hp 0)
    simpa [br] using this
  refine ⟨D * C, fun k z hz => ?_⟩
  have hb := br_pos k
  calc br k ^ s * ‖p k * f k z‖ = br k ^ s * (‖p k‖ * ‖f k z‖) := by rw [norm_mul]
    _ ≤ br k ^ s * (D * br k ^ q * ‖f k z‖) := by gcongr; exact hp k
    _ = D * (br k ^ (s + q) * ‖f k z‖) := by rw [pow_add]; ring
    _ ≤ D * C := by gcongr; exact h1 k z hz

theorem Rapid.star (hf : Rapid J f) : Rapid J fun k z => (starRingEnd ℂ) (f (-k) z) := by
  intro s
  obtain ⟨C, h1⟩ := hf s
  refine ⟨C, fun k z hz => ?_⟩
  have := h1 (-k) z hz
  rw [RCLike.norm_conj]
  have e : br (-k) = br k := by simp [br]
  rwa [e] at this

/-- bound of one term of a convolution -/
theorem term_bound {C D : ℝ} {s : ℕ} {z : ℝ} (hC : 0 ≤ C) (hf : ∀ k, ‖f k z‖ ≤ C * (1 / br k ^ s)) (hg : ∀ k, ‖g k z‖ ≤ D * (1 / br k ^ (s + 2))) (k j : ℤ) :
    br k ^ s * ‖f (k - j) z * g j z‖ ≤ C * D * (1 / br j ^ 2) := by
  have h1 := br_pos (k - j)
  have h2 := br_pos j
  have h3 := br_pos k
  have hD : 0 ≤ D := by
    have := (norm_nonneg _).trans (hg 0)
    simpa [br] using this
  rw [norm_mul]
  calc br k ^ s * (‖f (k - j) z‖ * ‖g j z‖) ≤ (br (k - j) * br j) ^ s * ((C * (1 / br (k - j) ^ s)) * (D * (1 / br j ^ (s + 2)))) := by
        gcongr
        · exact br_sub k j
        · exact hf _
        · exact hg _
    _ = C * D * (1 / br j ^ 2) := by
        rw [mul_pow, pow_add]
        field_simp

noncomputable def fold (f g : ℤ → ℝ → ℂ) (k : ℤ) (z : ℝ) : ℂ := ∑' j, f (k - j) z * g j z

theorem Rapid.fold (hf : Rapid J f) (hg : Rapid J g) : Rapid J (fold f g) := by
  intro s
  obtain ⟨C, hC, h1⟩ := hf.bound s
  obtain ⟨D, -, h2⟩ := hg.bound (s + 2)
  refine ⟨∑' j, C * D * (1 / br j ^ 2), fun k z hz => ?_⟩
  have hb := br_pos k
  have h := fun j => term_bound hC (fun k => h1 k z hz) (fun k => h2 k z hz) k j
  have e : br k ^ s * ‖Wiener.fold f g k z‖ = ‖∑' j, ((br k ^ s : ℝ) : ℂ) * (f (k - j) z * g j z)‖ := by
    rw [tsum_mul_left, norm_mul, Complex.norm_real, Real.norm_of_nonneg (by positivity)]
    rfl
  rw [e]
  refine tsum_of_norm_bounded (summable_br.mul_left _).hasSum fun j => ?_
  rw [norm_mul, Complex.norm_real, Real.norm_of_nonneg (by positivity)]
  exact h j

theorem Rapid.term_le (hf : Rapid J f) (hg : Rapid J g) : ∃ C, ∀ k j : ℤ, ∀ z ∈ J, ‖f (k - j) z * g j z‖ ≤ C * (1 / br j ^ 2) := by
  obtain ⟨C, hC, h1⟩ := hf.bound 0
  obtain ⟨D, -, h2⟩ := hg.bound (0 + 2)
  refine ⟨C * D, fun k j z hz => ?_⟩
  have h := term_bound hC (fun k => h1 k z hz) (fun k => h2 k z hz) k j
  simpa using h

/-- `m` derivatives in `z`, all of them rapidly decaying -/
def Sm (J : Set ℝ) : ℕ → (ℤ → ℝ → ℂ) → Prop
  | 0, f => Rapid J f ∧ ∀ k, ContinuousOn (f k) J
  | m + 1, f => Rapid J f ∧ ∃ f', (∀ k, ∀ z ∈ J, HasDerivAt (f k) (f' k z) z) ∧ Sm J m f'

theorem Sm.rapid {m : ℕ} (hf : Sm J m f) : Rapid J f := by
  cases m with
  | zero => exact hf.1
  | succ m => exact hf.1

theorem Sm.continuousOn {m : ℕ} (hf : Sm J m f) (k : ℤ) : ContinuousOn (f k) J := by
  cases m with
  | zero => exact hf.2 k
  | succ m =>
    obtain ⟨-, f', h, -⟩ := hf
    exact fun z hz => (h k z hz).continuousAt.continuousWithinAt

theorem Sm.pred {m : ℕ} : ∀ {f}, Sm J (m + 1) f → Sm J m f := by
  induction m with
  | zero => exact fun hf => ⟨hf.rapid, hf.continuousOn⟩
  | succ m ih =>
    rintro f ⟨h1, f', h2, h3⟩
    exact ⟨h1, f', h2, ih h3⟩

theorem Sm.add {m : ℕ} : ∀ {f g}, Sm J m f → Sm J m g → Sm J m fun k z => f k z + g k z := by
  induction m with
  | zero => exact fun hf hg => ⟨hf.1.add hg.1, fun k => (hf.2 k).add (hg.2 k)⟩
  | succ m ih =>
    rintro f g ⟨h1, f', h2, h3⟩ ⟨k1, g', k2, k3⟩
    exact ⟨h1.add k1, _, fun k z hz => (h2 k z hz).fun_add (k2 k z hz), ih h3 k3⟩

theorem Sm.mult {m : ℕ} {p : ℤ → ℂ} (hp : Tempered p) : ∀ {f}, Sm J m f → Sm J m fun k z => p k * f k z := by
  induction m with
  | zero => exact fun hf => ⟨hf.1.mult hp, fun k => continuousOn_const.mul (hf.2 k)⟩
  | succ m ih =>
    rintro f ⟨h1, f', h2, h3⟩
    exact ⟨h1.mult hp, _, fun k z hz => (h2 k z hz).const_mul (p k), ih h3⟩

theorem Sm.star {m : ℕ} : ∀ {f}, Sm J m f → Sm J m fun k z => (starRingEnd ℂ) (f (-k) z) := by
  induction m with
  | zero => exact fun hf => ⟨hf.1.star, fun k => Complex.continuous_conj.comp_continuousOn (hf.2 (-k))⟩
  | succ m ih =>
    rintro f ⟨h1, f', h2, h3⟩
    refine ⟨h1.star, _, fun k z hz => ?_, ih h3⟩
    exact Complex.conjCLE.toContinuousLinearMap.hasFDerivAt.comp_hasDerivAt z (h2 (-k) z hz)

theorem summable_fold (hf : Rapid J f) (hg : Rapid J g) (k : ℤ) {z : ℝ} (hz : z ∈ J) : Summable fun j => f (k - j) z * g j z := by
  obtain ⟨C, h⟩ := hf.term_le hg
  exact Summable.of_norm_bounded (summable_br.mul_left C) fun j => h k j z hz

theorem Sm.fold (ho : IsOpen J) (hc : IsPreconnected J) {m : ℕ} : ∀ {f g}, Sm J m f → Sm J m g → Sm J m (fold f g) := by
  induction m with
  | zero =>
    intro f g hf hg
    refine ⟨hf.1.fold hg.1, fun k => ?_⟩
    obtain ⟨C, h⟩ := hf.1.term_le hg.1
    exact continuousOn_tsum (fun j => (hf.2 (k - j)).mul (hg.2 j)) (summable_br.mul_left C) fun j z hz => h k j z hz
  | succ m ih =>
    intro f g hf hg
    have hf0 := hf.pred
    have hg0 := hg.pred
    obtain ⟨h1, f', h2, h3⟩ := hf
    obtain ⟨k1, g', k2, k3⟩ := hg
    refine ⟨h1.fold k1, _, fun k z hz => ?_, (ih h3 hg0).add (ih hf0 k3)⟩
    obtain ⟨C, hC⟩ := h3.rapid.term_le k1
    obtain ⟨D, hD⟩ := h1.term_le k3.rapid
    have := hasDerivAt_tsum_of_isPreconnected (g := fun j z => f (k - j) z * g j z) (g' := fun j z => f' (k - j) z * g j z + f (k - j) z * g' j z)
      ((summable_br.mul_left C).add (summable_br.mul_left D)) ho hc (fun j z hz => (h2 (k - j) z hz).fun_mul (k2 j z hz))
      (fun j z hz => (norm_add_le _ _).trans (add_le_add (hC k j z hz) (hD k j z hz))) hz (summable_fold h1 k1 k hz) hz
    refine this.congr_deriv ?_
    exact (summable_fold h3.rapid k1 k hz).tsum_add (summable_fold h1 k3.rapid k hz)

/-- solutions of the equation for the coefficients are smooth -/
theorem smooth_coefficients (ho : IsOpen J) (hc : IsPreconnected J) {b : ℤ → ℝ} {r : ℤ → ℂ} {g γ : ℝ} {c : ℤ → ℝ → ℂ} (hb : Tempered fun k => (b k : ℂ))
    (hr : Tempered r) (h1 : Rapid J c)
    (h2 : ∀ k, ∀ z ∈ J, HasDerivAt (c k) (I * b k * c k z + (g / 2 : ℝ) * c k z + I * γ * cubicSum r (fun k => c k z) k) z) (m : ℕ) : Sm J m c := by
  have ht : ∀ a : ℂ, Tempered fun _ => a := fun a => ⟨‖a‖, 0, fun k => by simp⟩
  induction m with
  | zero => exact ⟨h1, fun k z hz => (h2 k z hz).continuousAt.continuousWithinAt⟩
  | succ m ih =>
    refine ⟨h1, _, h2, ?_⟩
    have hb' : Tempered fun k => I * (b k : ℂ) := by
      obtain ⟨C, q, h⟩ := hb
      exact ⟨C, q, fun k => by rw [norm_mul, Complex.norm_I, one_mul]; exact h k⟩
    have h3 : Sm J m (Wiener.fold c fun k z => r k * Wiener.fold c (fun k z => (starRingEnd ℂ) (c (-k) z)) k z) :=
      ih.fold ho hc ((ih.fold ho hc ih.star).mult hr)
    exact ((ih.mult hb').add (ih.mult (ht _))).add (h3.mult (ht _))

/-! ## the series -/

/-- `Σ f(k, z)·exp(-2πikt/T)` -/
noncomputable def series (T : ℝ) (f : ℤ → ℝ → ℂ) (q : ℝ × ℝ) : ℂ := ∑' k, f k q.1 * exp (-(2 * Real.pi * I * k * q.2 / T))

theorem norm_wave (T t : ℝ) (k : ℤ) : ‖exp (-(2 * Real.pi * I * k * t / T))‖ = 1 := by
  rw [show -(2 * (Real.pi : ℂ) * I * k * t / T) = ((-(2 * Real.pi * k * t / T) : ℝ) : ℂ) * I by push_cast; ring]
  exact Complex.norm_exp_ofReal_mul_I _

/-- multiplier of the time derivative -/
noncomputable def freq (T : ℝ) (k : ℤ) : ℂ := -(2 * Real.pi * I * k / T)

theorem freq_tempered (T : ℝ) : Tempered (freq T) := by
  refine ⟨2 * Real.pi / |T|, 1, fun k => ?_⟩
  have e : ‖freq T k‖ = 2 * Real.pi / |T| * |(k : ℝ)| := by
    unfold freq
    rw [norm_neg, show (2 * Real.pi * I * k / T : ℂ) = ((2 * Real.pi * k / T : ℝ) : ℂ) * I by push_cast; ring, norm_mul, Complex.norm_I, mul_one, Complex.norm_real,
      Real.norm_eq_abs, abs_div, abs_mul, abs_of_pos (by positivity : (0 : ℝ) < 2 * Real.pi)]
    ring
  rw [e, pow_one]
  have : 0 ≤ 2 * Real.pi / |T| := by positivity
  have h2 : |(k : ℝ)| ≤ br k := by unfold br; linarith
  gcongr

theorem wave_deriv (T : ℝ) (k : ℤ) (t : ℝ) : HasDerivAt (fun t : ℝ => exp (-(2 * Real.pi * I * k * t / T))) (freq T k * exp (-(2 * Real.pi * I * k * t / T))) t := by
  have h := Series.wave_hasDerivAt (freq T k) t
  have e : ∀ t : ℝ, exp (freq T k * t) = exp (-(2 * Real.pi * I * k * t / T)) := by
    intro t
    congr 1
    unfold freq
    ring
  simpa only [e] using h

theorem series_continuousOn {T : ℝ} (hf : Rapid J f) (hc : ∀ k, ContinuousOn (f k) J) : ContinuousOn (series T f) (J ×ˢ univ) := by
  obtain ⟨C, -, h⟩ := hf.bound 2
  refine continuousOn_tsum (fun k => ?_) (summable_br.mul_left C) fun k q hq => ?_
  · refine ContinuousOn.mul ((hc k).comp continuousOn_fst fun q hq => hq.1) ?_
    fun_prop
  · rw [norm_mul, norm_wave, mul_one]
    exact h k q.1 hq.1

theorem series_hasFDerivAt {T : ℝ} (ho : IsOpen J) (hcn : IsPreconnected J) {f' : ℤ → ℝ → ℂ} (hf : Rapid J f) (hf' : Rapid J f')
    (hd : ∀ k, ∀ z ∈ J, HasDerivAt (f k) (f' k z) z) {q : ℝ × ℝ} (hq : q ∈ J ×ˢ (univ : Set ℝ)) :
    HasFDerivAt (series T f) ((ContinuousLinearMap.fst ℝ ℝ ℝ).smulRight (series T f' q) +
      (ContinuousLinearMap.snd ℝ ℝ ℝ).smulRight (series T (fun k z => freq T k * f k z) q)) q := by
  have hm : Rapid J fun k z => freq T k * f k z := hf.mult (freq_tempered T)
  obtain ⟨C, hC0, hC⟩ := hf'.bound 2
  obtain ⟨D, hD0, hD⟩ := hm.bound 2
  have hterm : ∀ (k : ℤ) (q : ℝ × ℝ), q ∈ J ×ˢ (univ : Set ℝ) → HasFDerivAt (fun q : ℝ × ℝ => f k q.1 * exp (-(2 * Real.pi * I * k * q.2 / T)))
      ((ContinuousLinearMap.fst ℝ ℝ ℝ).smulRight (f' k q.1 * exp (-(2 * Real.pi * I * k * q.2 / T))) +
        (ContinuousLinearMap.snd ℝ ℝ ℝ).smulRight (freq T k * f k q.1 * exp (-(2 * Real.pi * I * k * q.2 / T)))) q := by
    intro k q hq
    have h1 : HasFDerivAt (fun q : ℝ × ℝ => f k q.1) ((ContinuousLinearMap.toSpanSingleton ℝ (f' k q.1)).comp (ContinuousLinearMap.fst ℝ ℝ ℝ)) q :=
      HasFDerivAt.comp q (hd k q.1 hq.1).hasFDerivAt hasFDerivAt_fst
    have h2 : HasFDerivAt (fun q : ℝ × ℝ => exp (-(2 * Real.pi * I * k * q.2 / T)))
        ((ContinuousLinearMap.toSpanSingleton ℝ (freq T k * exp (-(2 * Real.pi * I * k * q.2 / T)))).comp (ContinuousLinearMap.snd ℝ ℝ ℝ)) q :=
      HasFDerivAt.comp q (wave_deriv T k q.2).hasFDerivAt hasFDerivAt_snd
    have h3 := h1.mul h2
    refine h3.congr_fderiv ?_
    ext <;> simp <;> ring
  have hs : ∀ {h : ℤ → ℝ → ℂ}, Rapid J h → ∀ q ∈ J ×ˢ (univ : Set ℝ), Summable fun k => h k q.1 * exp (-(2 * Real.pi * I * k * q.2 / T)) := by
    intro h hh q hq
    refine Summable.of_norm ?_
    simp only [norm_mul, norm_wave, mul_one]
    exact hh.summable hq.1
  have h := hasFDerivAt_tsum_of_isPreconnected ((summable_br.mul_left C).add (summable_br.mul_left D)) (ho.prod isOpen_univ) (hcn.prod isPreconnected_univ)
    hterm (fun k q hq => ?_) hq (hs hf q hq) hq
  · refine h.congr_fderiv ?_
    have h1 : HasSum (fun k => (ContinuousLinearMap.fst ℝ ℝ ℝ).smulRight (f' k q.1 * exp (-(2 * Real.pi * I * k * q.2 / T))))
        ((ContinuousLinearMap.fst ℝ ℝ ℝ).smulRight (series T f' q)) :=
      (hs hf' q hq).hasSum.mapL (ContinuousLinearMap.smulRightL ℝ (ℝ × ℝ) ℂ (ContinuousLinearMap.fst ℝ ℝ ℝ))
    have h2 : HasSum (fun k => (ContinuousLinearMap.snd ℝ ℝ ℝ).smulRight (freq T k * f k q.1 * exp (-(2 * Real.pi * I * k * q.2 / T))))
        ((ContinuousLinearMap.snd ℝ ℝ ℝ).smulRight (series T (fun k z => freq T k * f k z) q)) :=
      (hs hm q hq).hasSum.mapL (ContinuousLinearMap.smulRightL ℝ (ℝ × ℝ) ℂ (ContinuousLinearMap.snd ℝ ℝ ℝ))
    exact (h1.add h2).tsum_eq
  · refine (norm_add_le _ _).trans (add_le_add ?_ ?_)
    · rw [ContinuousLinearMap.norm_smulRight_apply, norm_mul, norm_wave, mul_one]
      exact (mul_le_of_le_one_left (norm_nonneg _) (ContinuousLinearMap.opNorm_le_bound _ zero_le_one fun q => by rw [one_mul]; exact norm_fst_le q)).trans (hC k q.1 hq.1)
    · rw [ContinuousLinearMap.norm_smulRight_apply, norm_mul, norm_wave, mul_one]
      exact (mul_le_of_le_one_left (norm_nonneg _) (ContinuousLinearMap.opNorm_le_bound _ zero_le_one fun q => by rw [one_mul]; exact norm_snd_le q)).trans (hD k q.1 hq.1)

theorem series_contDiffOn {T : ℝ} (ho : IsOpen J) (hcn : IsPreconnected J) {m : ℕ} : ∀ {f}, Sm J m f → ContDiffOn ℝ m (series T f) (J ×ˢ univ) := by
  induction m with
  | zero =>
    intro f hf
    rw [Nat.cast_zero, contDiffOn_zero]
    exact series_continuousOn hf.1 hf.2
  | succ m ih =>
    intro f hf
    have h0 := hf.pred
    obtain ⟨h1, f', h2, h3⟩ := hf
    have hopen : IsOpen (J ×ˢ (univ : Set ℝ)) := ho.prod isOpen_univ
    have hd := fun (q : ℝ × ℝ) (hq : q ∈ J ×ˢ (univ : Set ℝ)) => series_hasFDerivAt (T := T) ho hcn h1 h3.rapid h2 hq
    push_cast
    refine (contDiffOn_succ_iff_fderiv_of_isOpen hopen).2 ⟨fun q hq => (hd q hq).differentiableAt.differentiableWithinAt, by simp, ?_⟩
    have hc : ContDiffOn ℝ m (fun q => (ContinuousLinearMap.fst ℝ ℝ ℝ).smulRight (series T f' q) +
        (ContinuousLinearMap.snd ℝ ℝ ℝ).smulRight (series T (fun k z => freq T k * f k z) q)) (J ×ˢ univ) :=
      ((ContinuousLinearMap.smulRightL ℝ (ℝ × ℝ) ℂ (ContinuousLinearMap.fst ℝ ℝ ℝ)).contDiff.comp_contDiffOn (ih h3)).add
        ((ContinuousLinearMap.smulRightL ℝ (ℝ × ℝ) ℂ (ContinuousLinearMap.snd ℝ ℝ ℝ)).contDiff.comp_contDiffOn (ih (h0.mult (freq_tempered T))))
    exact hc.congr fun q hq => (hd q hq).fderiv

end PyNLO.Wiener
