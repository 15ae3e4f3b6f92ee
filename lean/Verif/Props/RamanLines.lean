import Verif.Props.FourWave
import Verif.Props.RedShiftSign

/-!
# C179: of two lines the redder one is amplified
-/

namespace PyNLO.RamanLines

open Complex Set Ssfm Pulse Modulation Spec Nlse FourWave OdeGlobal Alias

variable {n : ℕ}

/-! ## The response of the solver at one frequency -/

/-- the gain of the delayed response between lines whose frequencies differ by `m/T` -/
noncomputable def lineGain (o : Obj) (T : ℝ) (m : ℤ) : ℝ :=
  fraction o * ((∫ s in (0 : ℝ)..T / 2, kernelFun o s * Real.sin (2 * Real.pi * m / T * s)) / ∫ s in (0 : ℝ)..T / 2, kernelFun o s)

theorem lineGain_neg (o : Obj) (T : ℝ) (m : ℤ) : lineGain o T (-m) = -lineGain o T m := by
  unfold lineGain
  have : ∀ s : ℝ, kernelFun o s * Real.sin (2 * Real.pi * ((-m : ℤ) : ℝ) / T * s) = -(kernelFun o s * Real.sin (2 * Real.pi * m / T * s)) := fun s => by
    rw [show 2 * Real.pi * ((-m : ℤ) : ℝ) / T * s = -(2 * Real.pi * m / T * s) by push_cast; ring, Real.sin_neg]
    ring
  simp only [this, intervalIntegral.integral_neg]
  ring

theorem middle_time (T : ℝ) (hn : 0 < n) (he : n % 2 = 0) : time T n ⟨n / 2, by omega⟩ = 0 := by
  unfold time
  have : ((n / 2 : ℕ) : ℝ) = (n : ℝ) / 2 := by rw [Nat.cast_div (by omega) (by norm_num)]; norm_num
  show (((n / 2 : ℕ) : ℝ) - (n : ℝ) / 2) * _ = 0
  rw [this]
  ring

theorem tone_eq {T : ℝ} (hT : 0 < T) (he : n % 2 = 0) {k : Fin n} {m : ℤ} (hk : ((k : ℕ) : ℤ) = ((n / 2 : ℕ) : ℤ) + m) (i : Fin n) :
    tone k i = exp (((-(2 * Real.pi * m / T * time T n i) : ℝ) : ℂ) * I) := by
  have hn : (n : ℝ) ≠ 0 := by
    have := i.isLt
    exact_mod_cast (by omega : n ≠ 0)
  have hn' : (n : ℂ) ≠ 0 := by exact_mod_cast hn
  unfold tone time
  rw [hk, rootE_eq_exp]
  congr 1
  have e : (n : ℂ) = 2 * ((n / 2 : ℕ) : ℂ) := by exact_mod_cast (by omega : n = 2 * (n / 2))
  generalize n / 2 = H at e
  have hT' : (T : ℂ) ≠ 0 := by exact_mod_cast hT.ne'
  have hH : (H : ℂ) ≠ 0 := fun h => hn' (by rw [e, h, mul_zero])
  push_cast
  rw [e]
  field_simp
  ring

theorem tone_middle (hn : 0 < n) (k : Fin n) : tone k ⟨n / 2, by omega⟩ = 1 := by
  unfold tone
  rw [show -((((k : ℕ) : ℤ) - ((n / 2 : ℕ) : ℤ)) * ((((⟨n / 2, by omega⟩ : Fin n) : ℕ) : ℤ) - ((n / 2 : ℕ) : ℤ))) = 0 by simp, rootE_zero]

/-- the response acts on the imaginary part of a signal -/
theorem gridResponse_im (f : ℝ) (k : ℝ → ℝ) (d Z : ℝ) (x : Fin n → ℂ) (j : Fin n) :
    gridResponse f k d Z (fun i => (((x i).im : ℝ) : ℂ)) j = (((gridResponse f k d Z x j).im : ℝ) : ℂ) := by
  unfold gridResponse
  rw [add_im, im_ofReal_mul, im_ofReal_mul, im_sum]
  push_cast
  congr 2
  refine Finset.sum_congr rfl fun m _ => ?_
  split_ifs
  · rw [← ofReal_div, im_ofReal_mul]
    push_cast
    ring
  · simp

/-- a bin of the response -/
theorem response_bin {R : Fin n → ℂ} {f : ℝ} {h : ℝ → ℝ} {d Z : ℝ} (hn : 0 < n) (he : n % 2 = 0) (hR : ∀ x, respond R x = gridResponse f h d Z x) (k : Fin n) :
    R k = gridResponse f h d Z (tone k) ⟨n / 2, by omega⟩ := by
  rw [← hR]
  have := respond_tone he R k ⟨n / 2, by omega⟩
  rw [tone_middle hn, mul_one] at this
  exact this.symm

theorem response_zero {R : Fin n → ℂ} {f : ℝ} {h : ℝ → ℝ} {d Z : ℝ} (hn : 0 < n) (he : n % 2 = 0) (hR : ∀ x, respond R x = gridResponse f h d Z x) {k : Fin n}
    (hk : (k : ℕ) = n / 2) : (R k).im = 0 := by
  have h1 := gridResponse_im f h d Z (tone k) ⟨n / 2, by omega⟩
  rw [← response_bin hn he hR k] at h1
  have h2 : (fun i => (((tone k i).im : ℝ) : ℂ)) = fun _ => 0 := by
    funext i
    rw [tone_eq (T := 1) one_pos he (m := 0) (by rw [hk]; simp)]
    simp
  rw [h2] at h1
  have h3 : gridResponse f h d Z (fun _ : Fin n => (0 : ℂ)) ⟨n / 2, by omega⟩ = 0 := by
    unfold gridResponse
    simp
  rw [h3] at h1
  exact_mod_cast h1.symm

/-- on fine grids the response is bounded, and its imaginary part at a fixed frequency is close to the gain of the delayed response -/
theorem response_fine (o : Obj) (h1 : 0 < o.tau1) (h2 : 0 < o.tau2) {T : ℝ} (hT : 0 < T) (m : ℤ) :
    ∃ (K C : ℝ) (n0 : ℕ), 0 < K ∧ ∀ n, n0 ≤ n → n % 2 = 0 → ∀ R : Fin n → ℂ,
      (∀ x, respond R x = gridResponse (fraction o) (kernelFun o) (T / n) (gridArea n (kernelFun o) (T / n)) x) →
      (∀ k, ‖R k‖ ≤ K) ∧ ∀ k : Fin n, ((k : ℕ) : ℤ) = ((n / 2 : ℕ) : ℤ) + m → |(R k).im - lineGain o T m| ≤ C / n := by
  obtain ⟨B, D, hB0, hB, hD0, hD⟩ := kernel_bounds o T
  set A := ∫ s in (0 : ℝ)..T / 2, kernelFun o s with hA
  have hA0 : 0 < A := kernel_area_pos h1 h2 (by positivity)
  set f := fraction o with hf
  set w := 2 * Real.pi * m / T with hw
  refine ⟨respC f T B A, |f| * ((D * 1 + B * |w|) * T / A + B * 1 * T * (D * (T / 2) + B / 2) / A ^ 2) * T,
    max 1 ⌈2 * ((D * (T / 2) + B / 2) * T) / A⌉₊, by unfold respC; positivity, fun n hn0 he R hR => ?_⟩
  have hn : 0 < n := (le_max_left _ _).trans hn0
  have hn' : (0 : ℝ) < n := by exact_mod_cast hn
  have hZ : A / 2 ≤ gridArea n (kernelFun o) (T / n) := by
    have e1 := area_error hT (kernel_contDiff o).continuous hB hD0 hD hn he
    rw [← hA] at e1
    have e2 : 2 * ((D * (T / 2) + B / 2) * T) / A ≤ n := (Nat.le_ceil _).trans (by exact_mod_cast (le_max_right _ _).trans hn0)
    rw [div_le_iff₀ hA0] at e2
    have e3 : (D * (T / 2) + B / 2) * (T / n) ≤ A / 2 := by
      rw [← mul_div_assoc, div_le_iff₀ hn']
      linarith
    rw [abs_le] at e1
    linarith [e1.1]
  have hbd : Bounded R (respC f T B A) := gridResponse_bounded hT hn he hB0 hB hA0 hZ hR
  refine ⟨fun k => ?_, fun k hk => ?_⟩
  · have e1 := hbd.sup (tone k) 1 (fun j => (norm_tone k j).le) ⟨n / 2, by omega⟩
    have e2 : respond R (tone k) ⟨n / 2, by omega⟩ = R k := by rw [response_bin hn he hR k, hR]
    rwa [e2, mul_one] at e1
  · have hper : Function.Periodic (fun t => Real.sin (-(w * t))) T := fun t => by
      show Real.sin (-(w * (t + T))) = Real.sin (-(w * t))
      rw [show -(w * (t + T)) = -(w * t) - m * (2 * Real.pi) by rw [hw]; field_simp; ring]
      exact Real.sin_sub_int_mul_two_pi _ _
    have hlip : ∀ t t' : ℝ, |Real.sin (-(w * t)) - Real.sin (-(w * t'))| ≤ |w| * |t - t'| := fun t t' => by
      refine (Real.abs_sin_sub_sin_le _ _).trans (le_of_eq ?_)
      rw [← abs_mul, ← abs_neg]
      congr 1
      ring
    have e1 := response_error (f := f) (k := kernelFun o) (P := fun t => Real.sin (-(w * t))) (M := 1) (E := |w|) hT hn he (kernel_contDiff o).continuous
      hB0 hB hD0 hD hA hA0 rfl hZ hper (by fun_prop) (by norm_num) (fun t => Real.abs_sin_le_one _) (abs_nonneg _) hlip ⟨n / 2, by omega⟩
    have e2 : (fun i => ((Real.sin (-(w * time T n i)) : ℝ) : ℂ)) = fun i => (((tone k i).im : ℝ) : ℂ) := by
      funext i
      rw [tone_eq hT he hk, exp_ofReal_mul_I_im]
    have e3 : Nlse.response f (kernelFun o) T (fun t => Real.sin (-(w * t))) 0 = lineGain o T m := by
      unfold Nlse.response lineGain
      simp only [mul_zero, neg_zero, Real.sin_zero, zero_add, zero_sub, mul_neg, neg_neg]
      rw [← hw]
    rw [middle_time T hn he, e3, e2, gridResponse_im, ← response_bin hn he hR k, ← ofReal_sub, norm_real, Real.norm_eq_abs, abs_sub_comm] at e1
    refine e1.trans (le_of_eq ?_)
    ring

theorem beat_zero (he : n % 2 = 0) (c : Fin n) : ((beat c c : Fin n) : ℕ) = n / 2 := by
  have hc := c.isLt
  show (c + (n - c) + n / 2) % n = n / 2
  rw [show (c : ℕ) + (n - c) + n / 2 = n / 2 + n by omega, Nat.add_mod_right]
  exact Nat.mod_eq_of_lt (by omega)

theorem beat_val {l s : Fin n} {m : ℤ} (hm : ((l : ℕ) : ℤ) - ((s : ℕ) : ℤ) = m) (h : 3 * |m| < n) : ((beat l s : Fin n) : ℤ) = ((n / 2 : ℕ) : ℤ) + m := by
  have hs := s.isLt
  have hl := l.isLt
  have := beat_dvd l s
  rw [hm] at this
  have hb := (beat l s).isLt
  have h1 : m - (((beat l s : ℕ) : ℤ) - ((n / 2 : ℕ) : ℤ)) = 0 := by
    refine Int.eq_zero_of_abs_lt_dvd this ?_
    rw [abs_lt]
    rcases abs_cases m with h2 | h2 <;> constructor <;> omega
  omega

/-! ## Two lines -/

/-- growth of the redder line and loss of the bluer one, for any response on the grid -/
theorem amplitude_lower {X : ℂ} {y : ℝ} : 1 - y * X.im ≤ ‖1 + I * ((y : ℝ) : ℂ) * X‖ := by
  have h := Complex.re_le_norm (1 + I * ((y : ℝ) : ℂ) * X)
  have e : (1 + I * ((y : ℝ) : ℂ) * X).re = 1 - y * X.im := by simp [sub_eq_add_neg]
  rwa [e] at h

theorem amplitude_upper {X : ℂ} {y M : ℝ} (hM : ‖X‖ ≤ M) : ‖1 + I * ((y : ℝ) : ℂ) * X‖ ≤ 1 - y * X.im + (y * M) ^ 2 / 2 := by
  have hsq : ‖1 + I * ((y : ℝ) : ℂ) * X‖ ^ 2 = 1 - 2 * y * X.im + y ^ 2 * ‖X‖ ^ 2 := by
    rw [← normSq_eq_norm_sq, ← normSq_eq_norm_sq, normSq_apply, normSq_apply]
    simp
    ring
  have h1 : y ^ 2 * ‖X‖ ^ 2 ≤ (y * M) ^ 2 := by
    rw [mul_pow]
    exact mul_le_mul_of_nonneg_left (pow_le_pow_left₀ (norm_nonneg _) hM 2) (sq_nonneg _)
  nlinarith [sq_nonneg (‖1 + I * ((y : ℝ) : ℂ) * X‖ - 1)]

section
variable {polyfit : Fiber.PolyFit} {spline : Fiber.Spline} {o : Obj} {p : Pulse} {F : FibObj} {f1 : Fiber.Fib} {β : Fin p.n → ℝ}
  {γ fR : ℝ} {R : Fin p.n → ℂ}

/-- two lines, on one grid -/
theorem two_lines {a : Fin p.n → ℂ} (hp : Holds p a) (he : p.n % 2 = 0) (hcf : p.cf ≠ 0) (h : Loads polyfit spline o p F f1 β 0 R γ fR)
    {L : ℝ} (hL : F.fib.length = some L) (hpos : 0 < L) (hm : o.method = .rk4ip) (heta : o.eta = 5)
    (hss : o.disableSS = true) (hdz : 0 < o.dz) (hmin : 0 < o.dzMin) (hle : 0 < o.localError) {c q : Fin p.n} (hcq : c ≠ q)
    (hnear : 3 * |((c : ℕ) : ℤ) - ((q : ℕ) : ℤ)| < p.n) (ha : ∀ k, k ≠ c → k ≠ q → a k = 0) (hne : a ≠ 0) (hγ : 0 ≤ γ)
    {K κ : ℝ} (hK : ∀ k, ‖R k‖ ≤ K) (hRc : (R (beat c c)).im = 0) (hRq : (R (beat q q)).im = 0) (hRqc : (R (beat q c)).im ≤ -κ) (hRcq : κ ≤ (R (beat c q)).im)
    (hsmall : γ * K * (‖a c‖ + ‖a q‖) ^ 2 * L ≤ 1 / 8) :
    ∃ (N0 : ℕ) (C : ℝ), ∀ N, N0 ≤ N → ∃ r o' F', propagate polyfit spline o p F N false = some (.ok (r, o', F')) ∧ r.AW.length = N ∧
      ∀ i < N, ∃ w : Fin p.n → ℂ, r.AW[i]? = some ⟨p.n, w⟩ ∧ ∀ z ε : ℝ, z = (i + 1) * (L / N) →
        ε = 14 * (γ * K * (‖a c‖ + ‖a q‖) ^ 2 * z) ^ 2 * (‖a c‖ + ‖a q‖) + C / N ^ 5 →
        ‖a q‖ * (1 + κ * γ * z * ‖a c‖ ^ 2) - ε ≤ ‖w q‖ ∧ ‖w c‖ ≤ ‖a c‖ * (1 - κ * γ * z * ‖a q‖ ^ 2) + ε := by
  have htot : total a = ‖a c‖ + ‖a q‖ := Fintype.sum_eq_add c q hcq fun k hk => by rw [ha k hk.1 hk.2, norm_zero]
  have hK0 : 0 ≤ K := (norm_nonneg _).trans (hK c)
  obtain ⟨N0, C, hN0⟩ := C177_computed hp he hcf h hL hpos hm heta hss hdz hmin hle hK hne (by
    rw [htot, abs_of_nonneg hγ]
    simpa using hsmall)
  refine ⟨N0 + 1, C, fun N hN => ?_⟩
  obtain ⟨r, o', F', hr, hlr, hcol⟩ := hN0 N (by omega)
  refine ⟨r, o', F', hr, hlr, fun i hi => ?_⟩
  obtain ⟨w, hw, herr⟩ := hcol i hi
  refine ⟨w, hw, fun z ε hz hε => ?_⟩
  rw [← hz] at herr
  simp only [abs_zero, zero_mul, zero_div, Real.exp_zero, mul_one, one_mul, ofReal_zero, add_zero, htot, abs_of_nonneg hγ] at herr
  have hNr : (0 : ℝ) < N := by exact_mod_cast (by omega : 0 < N)
  have hz0 : 0 ≤ z := by rw [hz]; positivity
  set S := ‖a c‖ + ‖a q‖ with hS
  set Q := (γ * K * S ^ 2 * z) ^ 2 with hQ
  have hQ0 : 0 ≤ Q := sq_nonneg _
  have hA0 := norm_nonneg (a c)
  have hB0 := norm_nonneg (a q)
  have hbin : ∀ k, ‖w k - exp (I * β k * z) * (a k + fourWave β 0 R γ a z k)‖ ≤ 12 * Q * S + C / N ^ 5 := fun k =>
    (Finset.single_le_sum (f := fun k => ‖w k - exp (I * β k * z) * (a k + fourWave β 0 R γ a z k)‖) (fun _ _ => norm_nonneg _)
      (Finset.mem_univ k)).trans herr
  have hexp : ∀ k, ‖exp (I * β k * (z : ℂ))‖ = 1 := fun k => by
    rw [show I * (β k : ℂ) * z = ((β k * z : ℝ) : ℂ) * I by push_cast; ring, norm_exp_ofReal_mul_I]
  have hs : stretch ((0 : ℝ) : ℂ) z = z := by unfold stretch; simp
  have hy : 0 ≤ γ * z := mul_nonneg hγ hz0
  have main : ∀ (k : Fin p.n) (X : ℂ), fourWave β 0 R γ a z k = I * ((γ * z : ℝ) : ℂ) * X * a k →
      |‖w k‖ - ‖1 + I * ((γ * z : ℝ) : ℂ) * X‖ * ‖a k‖| ≤ 12 * Q * S + C / N ^ 5 := by
    intro k X hX
    have h1 := (abs_norm_sub_norm_le _ _).trans (hbin k)
    rw [norm_mul, hexp, one_mul, hX, show a k + I * ((γ * z : ℝ) : ℂ) * X * a k = (1 + I * ((γ * z : ℝ) : ℂ) * X) * a k by ring, norm_mul] at h1
    exact h1
  constructor
  · set X : ℂ := R (beat q q) * (‖a q‖ ^ 2 : ℝ) + (R (beat c c) + R (beat q c)) * (‖a c‖ ^ 2 : ℝ) with hX
    have h1 := abs_le.1 (main q X (by
      rw [fourWave_line β 0 R γ hcq hnear ha, hs, ← hX]
      push_cast
      ring))
    have hXi : X.im ≤ -(κ * ‖a c‖ ^ 2) := by
      rw [hX, add_im, im_mul_ofReal, im_mul_ofReal, add_im, hRq, hRc]
      linarith [mul_le_mul_of_nonneg_right hRqc (sq_nonneg ‖a c‖)]
    have h2 := amplitude_lower (X := X) (y := γ * z)
    have h3 : 1 + κ * γ * z * ‖a c‖ ^ 2 ≤ ‖1 + I * ((γ * z : ℝ) : ℂ) * X‖ := by linarith [mul_le_mul_of_nonneg_left hXi hy]
    have h4 := mul_le_mul_of_nonneg_right h3 hB0
    have h5 : 0 ≤ Q * S := by positivity
    rw [hε, mul_comm ‖a q‖]
    linarith [h1.1]
  · set X : ℂ := R (beat c c) * (‖a c‖ ^ 2 : ℝ) + (R (beat q q) + R (beat c q)) * (‖a q‖ ^ 2 : ℝ) with hX
    have h1 := abs_le.1 (main c X (by
      rw [fourWave_line β 0 R γ hcq.symm (by rw [abs_sub_comm]; exact hnear) (fun k h1 h2 => ha k h2 h1), hs, ← hX]
      push_cast
      ring))
    have hXi : κ * ‖a q‖ ^ 2 ≤ X.im := by
      rw [hX, add_im, im_mul_ofReal, im_mul_ofReal, add_im, hRq, hRc]
      linarith [mul_le_mul_of_nonneg_right hRcq (sq_nonneg ‖a q‖)]
    have hXn : ‖X‖ ≤ 2 * (K * S ^ 2) := by
      have e1 : ‖R (beat c c) * ((‖a c‖ ^ 2 : ℝ) : ℂ)‖ ≤ K * ‖a c‖ ^ 2 := by
        rw [norm_mul, norm_real, Real.norm_of_nonneg (sq_nonneg _)]
        exact mul_le_mul_of_nonneg_right (hK _) (sq_nonneg _)
      have e2 : ‖(R (beat q q) + R (beat c q)) * ((‖a q‖ ^ 2 : ℝ) : ℂ)‖ ≤ 2 * K * ‖a q‖ ^ 2 := by
        rw [norm_mul, norm_real, Real.norm_of_nonneg (sq_nonneg _)]
        refine mul_le_mul_of_nonneg_right ((norm_add_le _ _).trans ?_) (sq_nonneg _)
        linarith [hK (beat q q), hK (beat c q)]
      have e3 := (norm_add_le (R (beat c c) * ((‖a c‖ ^ 2 : ℝ) : ℂ)) ((R (beat q q) + R (beat c q)) * ((‖a q‖ ^ 2 : ℝ) : ℂ))).trans (add_le_add e1 e2)
      refine e3.trans ?_
      have : ‖a c‖ ^ 2 + 2 * ‖a q‖ ^ 2 ≤ 2 * S ^ 2 := by rw [hS]; nlinarith [mul_nonneg hA0 hB0, sq_nonneg ‖a c‖]
      linarith [mul_le_mul_of_nonneg_left this hK0]
    have h2 := amplitude_upper (y := γ * z) hXn
    have e : (γ * z * (2 * (K * S ^ 2))) ^ 2 / 2 = 2 * Q := by rw [hQ]; ring
    rw [e] at h2
    have h3 : ‖1 + I * ((γ * z : ℝ) : ℂ) * X‖ ≤ 1 - κ * γ * z * ‖a q‖ ^ 2 + 2 * Q := by linarith [mul_le_mul_of_nonneg_left hXi hy]
    have h4 := mul_le_mul_of_nonneg_right h3 hA0
    have h5 : Q * ‖a c‖ ≤ Q * S := mul_le_mul_of_nonneg_left (by rw [hS]; linarith) hQ0
    rw [hε, mul_comm ‖a c‖]
    linarith [h1.2]

end

/-- C179: with the default Raman response and without self-steepening, of two lines `m/T` apart in a window `T` of at least 0.3 ps the one of lower
frequency grows and the one of higher frequency decays from the first column of `AW` to the last, in every short generated fibre without gain or loss.
The rate does not depend on the grid, on the dispersion or on the position of the lines. -/
theorem C179_lines {T : ℝ} (hT : 0.3 ≤ T) {m : ℕ} (hm : 0 < m) : ∃ κ : ℝ, 0 < κ ∧ ∃ n0 : ℕ, ∀ (A B : ℂ) (γ : ℝ), A ≠ 0 → B ≠ 0 → 0 < γ → ∃ L0 : ℝ, 0 < L0 ∧
    ∀ (polyfit : Fiber.PolyFit) (spline : Fiber.Spline) (p : Pulse) (a : Fin p.n → ℂ), Holds p a → n0 ≤ p.n → p.n % 2 = 0 → p.cf ≠ 0 → p.tw = T →
    ∀ c q : Fin p.n, (c : ℕ) = (q : ℕ) + m → a c = A → a q = B → (∀ k, k ≠ c → k ≠ q → a k = 0) →
    ∀ (L wl : ℝ) (j : ℕ) (b : Fin j → ℝ) (label : String), 0 < L → L ≤ L0 → wl ≠ 0 →
    ∃ N0 : ℕ, ∀ N, N0 ≤ N → ∃ r o' F', propagate polyfit spline { Obj.default with disableSS := true } p
        ⟨Fiber.genFib L wl ⟨j, b⟩ γ 0 "ps^n/m" label Fiber.Fib.new, Fiber.genSpecs 0⟩ N false = some (.ok (r, o', F')) ∧ r.AW.length = N ∧
      ∀ i < N, ∃ w : Fin p.n → ℂ, r.AW[i]? = some ⟨p.n, w⟩ ∧ ∀ z : ℝ, z = (i + 1) * (L / N) →
        ‖B‖ * (1 + κ * γ * z * ‖A‖ ^ 2) ≤ ‖w q‖ ∧ ‖w c‖ ≤ ‖A‖ * (1 - κ * γ * z * ‖B‖ ^ 2) := by
  have hT0 : 0 < T := by linarith
  set o : Obj := { Obj.default with disableSS := true } with ho
  have ht1 : 0 < o.tau1 := by norm_num [ho, Obj.default]
  have ht2 : 0 < o.tau2 := by norm_num [ho, Obj.default]
  have et1 : o.tau1 = 0.0122 := rfl
  have et2 : o.tau2 = 0.032 := by norm_num [ho, Obj.default]
  have ef : fraction o = 0.245 := by simp [fraction, ho, Obj.default]
  have hG : 0 < lineGain o T m := by
    have h1 := C178_gain et1 et2 rfl hT hm
    have h2 := kernel_area_pos ht1 ht2 (show 0 < T / 2 by positivity)
    unfold lineGain
    rw [ef]
    push_cast
    positivity
  obtain ⟨K, C1, n1, hK0, H1⟩ := response_fine o ht1 ht2 hT0 (m : ℤ)
  obtain ⟨K2, C2, n2, -, H2⟩ := response_fine o ht1 ht2 hT0 (-(m : ℤ))
  set G := lineGain o T m with hGd
  refine ⟨G / 4, by positivity, max (max n1 n2) (max (3 * m + 4) (⌈2 * max |C1| |C2| / G⌉₊ + 1)), fun A B γ hA hB hγ => ?_⟩
  have hA0 : 0 < ‖A‖ := norm_pos_iff.2 hA
  have hB0 : 0 < ‖B‖ := norm_pos_iff.2 hB
  set S := ‖A‖ + ‖B‖ with hS
  have hS0 : 0 < S := by positivity
  set μ := min (‖A‖ * ‖B‖ ^ 2) (‖B‖ * ‖A‖ ^ 2) * (G / 4 * γ) with hμ
  have hμ0 : 0 < μ := by positivity
  have hμ1 : μ ≤ ‖A‖ * ‖B‖ ^ 2 * (G / 4 * γ) := mul_le_mul_of_nonneg_right (min_le_left _ _) (by positivity)
  have hμ2 : μ ≤ ‖B‖ * ‖A‖ ^ 2 * (G / 4 * γ) := mul_le_mul_of_nonneg_right (min_le_right _ _) (by positivity)
  refine ⟨min (μ / (28 * (γ * K * S ^ 2) ^ 2 * S)) (1 / (8 * (γ * K * S ^ 2))), by positivity, ?_⟩
  intro polyfit spline p a hp hn0 he hcf htw c q hcq hac haq hdark L wl j b label hL hL0 hwl
  have hn1 : n1 ≤ p.n := ((le_max_left _ _).trans (le_max_left _ _)).trans hn0
  have hn2 : n2 ≤ p.n := ((le_max_right _ _).trans (le_max_left _ _)).trans hn0
  have hn3 : 3 * m + 4 ≤ p.n := ((le_max_left _ _).trans (le_max_right _ _)).trans hn0
  have hn4 : ⌈2 * max |C1| |C2| / G⌉₊ + 1 ≤ p.n := ((le_max_right _ _).trans (le_max_right _ _)).trans hn0
  have hnr : (0 : ℝ) < p.n := by exact_mod_cast (by omega : 0 < p.n)
  have hCn : max |C1| |C2| / p.n ≤ G / 2 := by
    have e1 : 2 * max |C1| |C2| / G ≤ p.n := (Nat.le_ceil _).trans (by exact_mod_cast (by omega : ⌈2 * max |C1| |C2| / G⌉₊ ≤ p.n))
    rw [div_le_iff₀ hG] at e1
    rw [div_le_iff₀ hnr]
    linarith
  have hC1 : C1 / p.n ≤ G / 2 := (div_le_div_of_nonneg_right ((le_abs_self _).trans (le_max_left _ _)) hnr.le).trans hCn
  have hC2 : C2 / p.n ≤ G / 2 := (div_le_div_of_nonneg_right ((le_abs_self _).trans (le_max_right _ _)) hnr.le).trans hCn
  obtain ⟨R, fR, hload⟩ := C133_fiber polyfit spline o (p := p) hp (by omega : 4 ≤ p.n) he (by rw [htw]; exact hT0.ne') ht1 ht2 (length := L) (gamma := γ) (gain := 0)
    (b := b) (units := "ps^n/m") (label := label) (by decide) hwl
  have hR := hload.response hp he rfl
  rw [htw] at hR
  have hpn : 0 < p.n := by omega
  have k1 := H1 p.n hn1 he R hR
  have k2 := H2 p.n hn2 he R hR
  have hne : c ≠ q := fun h => by rw [h] at hcq; omega
  have hd1 : ((c : ℕ) : ℤ) - ((q : ℕ) : ℤ) = m := by omega
  have hd2 : ((q : ℕ) : ℤ) - ((c : ℕ) : ℤ) = -m := by omega
  have hm3 : 3 * |(m : ℤ)| < p.n := by rw [abs_of_nonneg (by positivity)]; omega
  have hRcq := abs_le.1 ((k1.2 (beat c q) (beat_val hd1 hm3)).trans hC1)
  have hRqc := abs_le.1 ((k2.2 (beat q c) (beat_val hd2 (by rw [abs_neg]; exact hm3))).trans hC2)
  rw [lineGain_neg, ← hGd] at hRqc
  have hsm : γ * K * S ^ 2 * L ≤ 1 / 8 := by
    have e1 := hL0.trans (min_le_right _ _)
    rw [le_div_iff₀ (by positivity)] at e1
    linarith
  obtain ⟨N0, C, H⟩ := two_lines (o := o) (c := c) (q := q) (κ := G / 2) hp he hcf hload rfl hL rfl rfl rfl (by norm_num [ho, Obj.default]) (by norm_num [ho, Obj.default])
    (by norm_num [ho, Obj.default]) hne (by rw [hd1]; exact hm3) hdark (fun h0 => hA (by rw [← hac, h0]; rfl)) hγ.le k1.1
    (response_zero hpn he hR (beat_zero he c)) (response_zero hpn he hR (beat_zero he q)) (by linarith [hRqc.2]) (by linarith [hRcq.1])
    (by rw [hac, haq]; exact hsm)
  refine ⟨max (N0 + 1) (⌈2 * |C| / (μ * L)⌉₊ + 1), fun N hN => ?_⟩
  have hNa : N0 + 1 ≤ N := (le_max_left _ _).trans hN
  have hNb : ⌈2 * |C| / (μ * L)⌉₊ + 1 ≤ N := (le_max_right _ _).trans hN
  obtain ⟨r, o', F', hr, hlr, hcol⟩ := H N (by omega)
  refine ⟨r, o', F', hr, hlr, fun i hi => ?_⟩
  obtain ⟨w, hw, hall⟩ := hcol i hi
  refine ⟨w, hw, fun z hz => ?_⟩
  have hNr : (1 : ℝ) ≤ N := by exact_mod_cast (by omega : 1 ≤ N)
  have hNp : (0 : ℝ) < N := by linarith
  have hzlo : L / N ≤ z := by
    rw [hz]
    have : (0 : ℝ) ≤ i := Nat.cast_nonneg i
    nlinarith [div_pos hL hNp]
  have hzhi : z ≤ L := by
    have : (i : ℝ) + 1 ≤ N := by exact_mod_cast hi
    rw [hz]
    calc ((i : ℝ) + 1) * (L / N) ≤ N * (L / N) := mul_le_mul_of_nonneg_right this (by positivity)
      _ = L := by field_simp
  have hz0 : 0 < z := lt_of_lt_of_le (div_pos hL hNp) hzlo
  have hstep : C / (N : ℝ) ^ 5 ≤ μ / 2 * z := by
    have e1 : 2 * |C| / (μ * L) ≤ N := (Nat.le_ceil _).trans (by exact_mod_cast (by omega : ⌈2 * |C| / (μ * L)⌉₊ ≤ N))
    rw [div_le_iff₀ (by positivity)] at e1
    have e2 : C / (N : ℝ) ^ 5 ≤ |C| / (N : ℝ) ^ 2 := by
      refine div_le_div₀ (abs_nonneg _) (le_abs_self _) (by positivity) ?_
      exact pow_le_pow_right₀ hNr (by norm_num)
    have e3 : |C| / (N : ℝ) ^ 2 ≤ μ / 2 * (L / N) := by
      rw [div_le_iff₀ (by positivity)]
      have : μ / 2 * (L / N) * (N : ℝ) ^ 2 = N * (μ * L) / 2 := by field_simp
      rw [this]
      linarith
    exact e2.trans (e3.trans (mul_le_mul_of_nonneg_left hzlo (by positivity)))
  have hquad : 14 * (γ * K * S ^ 2 * z) ^ 2 * S ≤ μ / 2 * z := by
    have e1 := (hzhi.trans hL0).trans (min_le_left _ _)
    rw [le_div_iff₀ (by positivity)] at e1
    have e2 := mul_le_mul_of_nonneg_right e1 hz0.le
    calc 14 * (γ * K * S ^ 2 * z) ^ 2 * S = z * (28 * (γ * K * S ^ 2) ^ 2 * S) * z / 2 := by ring
      _ ≤ μ * z / 2 := by linarith
      _ = μ / 2 * z := by ring
  have h1 := hall z _ hz rfl
  rw [hac, haq] at h1
  have hA1 := mul_le_mul_of_nonneg_right hμ1 hz0.le
  have hB1 := mul_le_mul_of_nonneg_right hμ2 hz0.le
  constructor
  · linarith [h1.1]
  · linarith [h1.2]

/-- C179 applies: two lines 1 THz apart around 1550 nm in a window of 10 ps, set with `set_AW` on grids of every even size that is large enough, in a
fibre with dispersion. -/
theorem C179_nonvacuous (polyfit : Fiber.PolyFit) (spline : Fiber.Spline) (frep : ℝ) (label : String) : ∃ κ : ℝ, 0 < κ ∧ ∃ (n0 : ℕ) (L0 : ℝ), 0 < L0 ∧
    ∀ n, n0 ≤ n → n % 2 = 0 → ∀ (f : Fin n → ℂ) (c q : Fin n), (c : ℕ) = n / 2 + 5 → (q : ℕ) = n / 2 - 5 →
    ∃ p : Pulse, setAW ⟨n, fun k => if k = c then 3 else if k = q then 1 else 0⟩ { base (some frep) 1550 10 n with aw := some ⟨n, f⟩ } = (.ok (), p) ∧
    ∃ N0 : ℕ, ∀ N, N0 ≤ N → ∃ r o' F', propagate polyfit spline { Obj.default with disableSS := true } p
        ⟨Fiber.genFib L0 1550 ⟨2, ![-0.02, 0.0001]⟩ 1.3 0 "ps^n/m" label Fiber.Fib.new, Fiber.genSpecs 0⟩ N false = some (.ok (r, o', F')) ∧
      ∀ i < N, ∃ w : Fin n → ℂ, r.AW[i]? = some ⟨n, w⟩ ∧ 1 < ‖w q‖ ∧ ‖w c‖ < 3 := by
  obtain ⟨κ, hκ, n0, H⟩ := C179_lines (T := 10) (by norm_num) (m := 10) (by norm_num)
  obtain ⟨L0, hL0, H⟩ := H 3 1 1.3 (by norm_num) one_ne_zero (by norm_num)
  refine ⟨κ, hκ, max n0 12, L0, hL0, fun n hn he f c q hc hq => ?_⟩
  have hn0 : n0 ≤ n := (le_max_left _ _).trans hn
  have hn12 : 12 ≤ n := (le_max_right _ _).trans hn
  set a : Fin n → ℂ := fun k => if k = c then 3 else if k = q then 1 else 0 with ha
  set p : Pulse := { base (some frep) 1550 10 n with aw := some ⟨n, a⟩ } with hp
  have hold : Holds p a := base_holds (some frep) 1550 10 (by omega) a
  have hb : Holds { base (some frep) 1550 10 n with aw := some ⟨n, f⟩ } f := base_holds (some frep) 1550 10 (by omega) f
  have hqc : q ≠ c := fun h => by rw [h] at hq; omega
  have hcf : p.cf ≠ 0 := div_ne_zero (by norm_num [cNmps, cMks]) (by norm_num)
  refine ⟨p, hb.setAW_eq a, ?_⟩
  obtain ⟨N0, HN⟩ := H polyfit spline p a hold hn0 he hcf rfl c q (by omega) (if_pos rfl) (by simp [ha, hqc]) (fun k h1 h2 => (if_neg h1).trans (if_neg h2))
    L0 1550 2 ![-0.02, 0.0001] label hL0 le_rfl (by norm_num)
  refine ⟨N0 + 1, fun N hN => ?_⟩
  obtain ⟨r, o', F', hr, -, hcol⟩ := HN N (by omega)
  refine ⟨r, o', F', hr, fun i hi => ?_⟩
  obtain ⟨w, hw, hall⟩ := hcol i hi
  refine ⟨w, hw, ?_⟩
  have h1 := hall _ rfl
  have hNp : (0 : ℝ) < N := by exact_mod_cast (by omega : 0 < N)
  have hz : 0 < ((i : ℝ) + 1) * (L0 / N) := by positivity
  have hpos : 0 < κ * 1.3 * (((i : ℝ) + 1) * (L0 / N)) := by positivity
  rw [norm_one, show ‖(3 : ℂ)‖ = 3 by norm_num] at h1
  constructor
  · nlinarith [h1.1]
  · nlinarith [h1.2]

end PyNLO.RamanLines
