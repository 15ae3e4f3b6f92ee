import Verif.Props.OdeDenseConverge

/-!
# C119: a row inside the second step that is far off

`y' = 1000 (x - 7/8)^7` over `[0, 1]` with absolute tolerance 1, a first step of 1/8 and 8 output intervals: the steps end at
1/8, 7/8 and 1.  The row at 1/4, inside the second step, is extrapolated from the third.
-/

open scoped BigOperators
open Set

namespace PyNLO.Ode

open RK dc

/-- The right-hand side. -/
noncomputable def g7 (x : ℝ) : ℝ := 1000 * (x - 7 / 8) ^ 7

/-- Its integral. -/
noncomputable def G7 (y0 x : ℝ) : ℝ := y0 + 125 * ((x - 7 / 8) ^ 8 - (7 / 8) ^ 8)

noncomputable def sevenProb : Prob 1 := ⟨fun x _ _ => (g7 x : ℂ), 1, 0, true, id⟩

theorem seven_solution (y0 x : ℝ) : HasDerivAt (fun x => (fun _ => (G7 y0 x : ℂ) : V 1)) (sevenProb.f x (fun _ => (G7 y0 x : ℂ))) x := by
  rw [hasDerivAt_pi]
  intro i
  have h1 : HasDerivAt (G7 y0) (g7 x) x := by
    unfold G7 g7
    have := (((((hasDerivAt_id x).sub_const (7 / 8)).pow 8).sub_const ((7 / 8) ^ 8)).const_mul 125).const_add y0
    refine this.congr_deriv ?_
    simp
    ring
  exact h1.ofReal_comp

/-- The weighted sums of a step. -/
noncomputable def sumE5 (x h : ℝ) : ℝ :=
  er1 * g7 x + er6 * g7 (x + c6 * h) + er7 * g7 (x + c7 * h) + er8 * g7 (x + c8 * h) + er9 * g7 (x + c9 * h) + er10 * g7 (x + c10 * h)
    + er11 * g7 (x + c11 * h) + er12 * g7 (x + h)

noncomputable def sumB (x h : ℝ) : ℝ :=
  b1 * g7 x + b6 * g7 (x + c6 * h) + b7 * g7 (x + c7 * h) + b8 * g7 (x + c8 * h) + b9 * g7 (x + c9 * h) + b10 * g7 (x + c10 * h)
    + b11 * g7 (x + c11 * h) + b12 * g7 (x + h)

noncomputable def sumE3 (x h : ℝ) : ℝ := sumB x h - bhh1 * g7 x - bhh2 * g7 (x + c9 * h) - bhh3 * g7 (x + h)

theorem seven_stages (x : ℝ) (y : V 1) (h : ℝ) :
    (dy sevenProb.f x y (sevenProb.f x y) h).yout = y + (fun _ => ((h * sumB x h : ℝ) : ℂ)) ∧
    (dy sevenProb.f x y (sevenProb.f x y) h).yerr2 = (fun _ => (sumE5 x h : ℂ)) ∧
    (dy sevenProb.f x y (sevenProb.f x y) h).yerr = (fun _ => (sumE3 x h : ℂ)) := by
  refine ⟨?_, ?_, ?_⟩ <;> funext i <;> simp [dy, sevenProb, sumE5, sumE3, sumB]
  ring

theorem real_error (y : V 1) (st : Stages 1) (h ε β : ℝ) (h2 : st.yerr2 = fun _ => (ε : ℂ)) (h3 : st.yerr = fun _ => (β : ℂ)) (h0 : h ≠ 0)
    (hε : ε ≠ 0) (hβ : β ≠ 0) : ∃ e, error 1 0 y st h = .val e ∧ 0 < e ∧ e ≤ |h| * ε ^ 2 * (10 / |β|) := by
  have hs1 : errSum (errScale 1 0 y st.yout) st.yerr2 = ε ^ 2 := by
    rw [h2]; simp [errSum, errScale]
  have hs2 : errSum (errScale 1 0 y st.yout) st.yerr = β ^ 2 := by
    rw [h3]; simp [errSum, errScale]
  have hpos : 0 < ε ^ 2 := by positivity
  have hpos' : 0 < β ^ 2 := by positivity
  have hden : 0 < ε ^ 2 + 0.01 * β ^ 2 := by positivity
  unfold error
  simp only [hs1, hs2]
  rw [if_neg (not_lt.mpr hden.le), if_neg (by
    push Not
    refine ⟨fun i => by simp [errScale], ?_⟩
    simp only [Nat.cast_one, mul_one]
    exact hden.ne')]
  refine ⟨_, rfl, by positivity, ?_⟩
  simp only [Nat.cast_one, mul_one]
  have hsq : √(1 / (ε ^ 2 + 0.01 * β ^ 2)) ≤ 10 / |β| := by
    rw [show 10 / |β| = √(1 / (0.01 * β ^ 2)) by
      rw [Real.sqrt_div zero_le_one, Real.sqrt_one, Real.sqrt_mul (by norm_num), Real.sqrt_sq_eq_abs,
        show (0.01 : ℝ) = 0.1 ^ 2 by norm_num, Real.sqrt_sq (by norm_num)]
      field_simp
      norm_num]
    apply Real.sqrt_le_sqrt
    apply one_div_le_one_div_of_le (by positivity)
    linarith
  rw [abs_of_nonneg (by positivity), abs_of_pos hpos]
  exact mul_le_mul_of_nonneg_left hsq (by positivity)

theorem acceptScale_small {e : ℝ} (h0 : 0 < e) (h1 : e ≤ (1 / 7) ^ 8) : acceptScale e = 6 := by
  have hp : (7 : ℝ) ≤ e ^ (-(1 / 8 : ℝ)) := by
    have : (((1 / 7) ^ 8 : ℝ)) ^ (-(1 / 8 : ℝ)) = 7 := by
      rw [← Real.rpow_natCast, ← Real.rpow_mul (by norm_num)]
      norm_num
    rw [← this]
    exact Real.rpow_le_rpow_of_nonpos h0 h1 (by norm_num)
  unfold acceptScale
  simp only
  have h2 : ¬ 0.9 * e ^ (-(1 / 8 : ℝ)) < 0.333 := by norm_num at *; linarith
  have h3 : 0.9 * e ^ (-(1 / 8 : ℝ)) > 6 := by norm_num at *; linarith
  rw [if_neg h0.ne', if_neg h2, if_pos h3]

/-- A step. -/
theorem seven_step (s : Stepper 1) (hd : s.dydx = sevenProb.f s.x s.y) (h : ℝ) (c : Con) (hc : c.reject = false) (h0 : h ≠ 0)
    (hε : sumE5 s.x h ≠ 0) (hβ : sumE3 s.x h ≠ 0) (hle : |h| * sumE5 s.x h ^ 2 * (10 / |sumE3 s.x h|) ≤ 1) :
    ∃ s' c', step sevenProb s h c = some (.ok (), s', c') ∧ s'.x = s.x + h ∧ s'.hdid = h ∧
      s'.y = s.y + (fun _ => ((h * sumB s.x h : ℝ) : ℂ)) ∧ s'.dydx = sevenProb.f s'.x s'.y ∧ c'.reject = false ∧
      (|h| * sumE5 s.x h ^ 2 * (10 / |sumE3 s.x h|) ≤ (1 / 7) ^ 8 → s'.hnext = 6 * h) ∧ 0.333 ≤ s'.hnext / h := by
  obtain ⟨g0, g1, g2⟩ := seven_stages s.x s.y h
  obtain ⟨e, he, e0, e1⟩ := real_error s.y _ h _ _ g1 g2 h0 hε hβ
  have hloop : stepLoop sevenProb.fl (fun h => error sevenProb.atol sevenProb.rtol s.y
      (dy sevenProb.f s.x s.y s.dydx h) h) s.x h c = some (.ok h,
        ⟨if c.reject then h * min (acceptScale e) 1 else h * acceptScale e, max e 1e-4, false⟩) := by
    refine runLoop_inr ?_
    rcases stepBody_cases sevenProb.fl (fun h => error sevenProb.atol sevenProb.rtol s.y
      (dy sevenProb.f s.x s.y s.dydx h) h) s.x ⟨.val h, c⟩ with
        ⟨h2, -⟩ | ⟨h', h2, h3, -⟩ | ⟨h', e', h2, h3, -, h4⟩ | ⟨h', e', h2, h3, h4, -⟩ | ⟨h', e', h2, h3, h4, -⟩
    · simp at h2
    all_goals
      obtain rfl : h = h' := by injection h2
      rw [hd] at h3
      rw [show sevenProb.atol = 1 from rfl, show sevenProb.rtol = 0 from rfl, he] at h3
    · simp at h3
    · simp only [Flt.val.injEq] at h3
      subst h3
      exact h4
    · simp only [Flt.val.injEq] at h3
      subst h3
      linarith
    · simp only [Flt.val.injEq] at h3
      subst h3
      linarith
  unfold step
  rw [hloop]
  refine ⟨_, _, rfl, rfl, rfl, ?_, rfl, rfl, ?_, ?_⟩
  · simp only
    rw [hd, g0]
  · intro hsm
    simp only [hc]
    rw [acceptScale_small e0 (e1.trans hsm)]
    simp
    ring
  · simp only [hc]
    have : 0.333 ≤ acceptScale e := by
      unfold acceptScale
      simp only
      split_ifs <;> norm_num
      rename_i h1 h2 h3
      norm_num at h2
      exact h2
    simp
    rw [mul_div_cancel_left₀ _ h0]
    exact this

theorem bound_le {h ε β E B T : ℝ} (hh : 0 ≤ h) (hε : |ε| ≤ E) (hβ : B ≤ |β|) (hB : 0 < B) (hT : h * E ^ 2 * (10 / B) ≤ T) :
    |h| * ε ^ 2 * (10 / |β|) ≤ T := by
  refine le_trans ?_ hT
  rw [abs_of_nonneg hh]
  have h1 : ε ^ 2 ≤ E ^ 2 := by
    rw [← sq_abs]
    exact pow_le_pow_left₀ (abs_nonneg _) hε 2
  have h2 : 10 / |β| ≤ 10 / B := div_le_div_of_nonneg_left (by norm_num) hB hβ
  exact mul_le_mul (mul_le_mul_of_nonneg_left h1 hh) h2 (by positivity) (by positivity)

theorem num1 : sumE5 0 (1 / 8) ≠ 0 ∧ sumE3 0 (1 / 8) ≠ 0 ∧ |(1 / 8 : ℝ)| * sumE5 0 (1 / 8) ^ 2 * (10 / |sumE3 0 (1 / 8)|) ≤ (1 / 7) ^ 8 := by
  have h1 : -0.0002 ≤ sumE5 0 (1 / 8) ∧ sumE5 0 (1 / 8) ≤ -0.0001 := by
    constructor <;> norm_num [sumE5, g7, er1, er6, er7, er8, er9, er10, er11, er12, c6, c7, c8, c9, c10, c11]
  have h2 : 0.7 ≤ sumE3 0 (1 / 8) := by
    norm_num [sumE3, sumB, g7, b1, b6, b7, b8, b9, b10, b11, b12, bhh1, bhh2, bhh3, c6, c7, c8, c9, c10, c11]
  refine ⟨by intro h; rw [h] at h1; norm_num at h1, by intro h; rw [h] at h2; norm_num at h2, ?_⟩
  refine bound_le (E := 0.0002) (B := 0.7) (by norm_num) (by rw [abs_le]; exact ⟨h1.1, h1.2.trans (by norm_num)⟩) (h2.trans (le_abs_self _)) (by norm_num)
    (by norm_num)

theorem num2 : sumE5 (1 / 8) (3 / 4) ≠ 0 ∧ sumE3 (1 / 8) (3 / 4) ≠ 0 ∧
    |(3 / 4 : ℝ)| * sumE5 (1 / 8) (3 / 4) ^ 2 * (10 / |sumE3 (1 / 8) (3 / 4)|) ≤ 1 / 10 := by
  have h1 : -0.33 ≤ sumE5 (1 / 8) (3 / 4) ∧ sumE5 (1 / 8) (3 / 4) ≤ -0.1 := by
    constructor <;> norm_num [sumE5, g7, er1, er6, er7, er8, er9, er10, er11, er12, c6, c7, c8, c9, c10, c11]
  have h2 : 15 ≤ sumE3 (1 / 8) (3 / 4) := by
    norm_num [sumE3, sumB, g7, b1, b6, b7, b8, b9, b10, b11, b12, bhh1, bhh2, bhh3, c6, c7, c8, c9, c10, c11]
  refine ⟨by intro h; rw [h] at h1; norm_num at h1, by intro h; rw [h] at h2; norm_num at h2, ?_⟩
  refine bound_le (E := 0.33) (B := 15) (by norm_num) (by rw [abs_le]; exact ⟨h1.1, h1.2.trans (by norm_num)⟩) (h2.trans (le_abs_self _)) (by norm_num)
    (by norm_num)

theorem num3 : sumE5 (7 / 8) (1 / 8) ≠ 0 ∧ sumE3 (7 / 8) (1 / 8) ≠ 0 ∧
    |(1 / 8 : ℝ)| * sumE5 (7 / 8) (1 / 8) ^ 2 * (10 / |sumE3 (7 / 8) (1 / 8)|) ≤ 1 / 10 := by
  have h1 : -2e-6 ≤ sumE5 (7 / 8) (1 / 8) ∧ sumE5 (7 / 8) (1 / 8) ≤ -1e-6 := by
    constructor <;> norm_num [sumE5, g7, er1, er6, er7, er8, er9, er10, er11, er12, c6, c7, c8, c9, c10, c11]
  have h2 : 3e-5 ≤ sumE3 (7 / 8) (1 / 8) := by
    norm_num [sumE3, sumB, g7, b1, b6, b7, b8, b9, b10, b11, b12, bhh1, bhh2, bhh3, c6, c7, c8, c9, c10, c11]
  refine ⟨by intro h; rw [h] at h1; norm_num at h1, by intro h; rw [h] at h2; norm_num at h2, ?_⟩
  refine bound_le (E := 2e-6) (B := 3e-5) (by norm_num) (by rw [abs_le]; exact ⟨h1.1, h1.2.trans (by norm_num)⟩) (h2.trans (le_abs_self _)) (by norm_num)
    (by norm_num)

/-- The two steps before the third, and all three. -/
theorem num_sum : |(1 / 8 : ℝ) * sumB 0 (1 / 8) + 3 / 4 * sumB (1 / 8) (3 / 4) - 125 * (0 - (7 / 8) ^ 8)| ≤ 1e-20 ∧
    |(1 / 8 : ℝ) * sumB 0 (1 / 8) + 3 / 4 * sumB (1 / 8) (3 / 4) + 1 / 8 * sumB (7 / 8) (1 / 8) - 125 * ((1 / 8) ^ 8 - (7 / 8) ^ 8)| ≤ 1e-20 := by
  simp only [abs_le]
  norm_num [sumB, g7, b1, b6, b7, b8, b9, b10, b11, b12, c6, c7, c8, c9, c10, c11]

/-- The extrapolated increment. -/
noncomputable def extra : ℝ := ∑ j, basis (-5) j * (1 / 8 * ∑ i ∈ Finset.range 16, dw j i * g7 (7 / 8 + dn i * (1 / 8)))

theorem seven_between (y : V 1) : between sevenProb.f (7 / 8) y (1 / 8) (-5) = y + fun _ => (extra : ℂ) := by
  rw [between_eq]
  congr 1
  funext i
  have h1 : ∀ i, nst da dn sevenProb.f (7 / 8) y (1 / 8) i = fun _ => (g7 (7 / 8 + dn i * (1 / 8)) : ℂ) := by
    intro i
    rw [nst_eq]; rfl
  simp only [h1, extra, Finset.sum_apply, Pi.smul_apply, Complex.real_smul, Complex.ofReal_sum, Complex.ofReal_mul]

set_option maxHeartbeats 2000000 in
theorem num_extra : extra ≤ 125 * (5 / 8) ^ 8 - 5.9 := by
  unfold extra
  have h : ∀ i, g7 (7 / 8 + dn i * (1 / 8)) = 1000 * (1 / 8) ^ 7 * dn i ^ 7 := by intro i; unfold g7; ring
  have e0 : basis (-5) 0 = -5 := by
    rfl
  have e1 : basis (-5) 1 = -30 := by
    show (-5 : ℝ) * (1 - -5) = -30
    norm_num
  have e2 : basis (-5) 2 = 150 := by
    show (-5 : ℝ) * (1 - -5) * -5 = 150
    norm_num
  have e3 : basis (-5) 3 = 900 := by
    show (-5 : ℝ) * (1 - -5) * -5 * (1 - -5) = 900
    norm_num
  have e4 : basis (-5) 4 = -4500 := by
    show (-5 : ℝ) * (1 - -5) * -5 * (1 - -5) * -5 = -4500
    norm_num
  have e5 : basis (-5) 5 = -27000 := by
    show (-5 : ℝ) * (1 - -5) * -5 * (1 - -5) * -5 * (1 - -5) = -27000
    norm_num
  have e6 : basis (-5) 6 = 135000 := by
    show (-5 : ℝ) * (1 - -5) * -5 * (1 - -5) * -5 * (1 - -5) * -5 = 135000
    norm_num
  simp only [h, Fin.sum_univ_seven, e0, e1, e2, e3, e4, e5, e6]
  norm_num [Finset.sum_range_succ, dw, rowsW, dn, b1, b6, b7, b8, b9, b10, b11, b12, c2, c3, c4, c5, c6, c7, c8, c9, c10, c11, c14, c15, c16,
    d41, d46, d47, d48, d49, d410, d411, d412, d413, d414, d415, d416, d51, d56, d57, d58, d59, d510, d511, d512, d513, d514, d515, d516,
    d61, d66, d67, d68, d69, d610, d611, d612, d613, d614, d615, d616, d71, d76, d77, d78, d79, d710, d711, d712, d713, d714, d715, d716]

/-- State of the integration. -/
structure SevenAt (o : Ode 1) (x h : ℝ) : Prop where
  hx1 : o.x1 = 0
  hx2 : o.x2 = 1
  hmin : o.hmin = 0
  pos : o.s.x = x
  dydx : o.s.dydx = sevenProb.f o.s.x o.s.y
  step : o.h = h
  rej : o.con.reject = false

/-- One pass up to the recording of the point. -/
theorem seven_iter {o : Ode 1} {x h : ℝ} (ho : SevenAt o x h) (k : ℕ) (h' : ℝ)
    (hh : h' = if x + h * 1.0001 - 1 > 0 then 1 - x else h) (h0 : 0 < h')
    (hε : sumE5 x h' ≠ 0) (hβ : sumE3 x h' ≠ 0) (hle : |h'| * sumE5 x h' ^ 2 * (10 / |sumE3 x h'|) ≤ 1) :
    ∃ o1 : Ode 1, o1.out = o.out ∧ SevenAt o1 (x + h') h' ∧ o1.s.hdid = h' ∧ o1.s.y = o.s.y + (fun _ => ((h' * sumB x h' : ℝ) : ℂ)) ∧
      o1.visited = o.visited ++ [x + h'] ∧
      (|h'| * sumE5 x h' ^ 2 * (10 / |sumE3 x h'|) ≤ (1 / 7) ^ 8 → o1.s.hnext = 6 * h') ∧ 0.333 * h' ≤ o1.s.hnext ∧
      (∃ c c', PyNLO.Ode.step sevenProb o.s h' c = some (.ok (), o1.s, c')) ∧
      ∀ o2, o1.record sevenProb k o1.s.x o1.s.y o1.s.hdid = some (.ok (), o2) → o.iter sevenProb k = some o2.after := by
  have hclip : o.clip = { o with h := h' } := by
    have hc : (o.s.x + o.h * 1.0001 - o.x2) / (o.x2 - o.x1) = x + h * 1.0001 - 1 := by
      rw [ho.hx1, ho.hx2, ho.pos, ho.step, sub_zero, div_one]
    unfold Ode.clip
    rw [hc, hh]
    by_cases hp : x + h * 1.0001 - 1 > 0
    · rw [if_pos hp, if_pos hp, ho.hx2, ho.pos]
    · rw [if_neg hp, if_neg hp, ← ho.step]
  have hx := ho.pos
  obtain ⟨s', c', h2, h3, h4, h5, h6, h7, h8, h9⟩ := seven_step o.s ho.dydx h' o.con ho.rej h0.ne' (by rw [hx]; exact hε) (by rw [hx]; exact hβ)
    (by rw [hx]; exact hle)
  rw [hx] at h3 h5 h8
  refine ⟨Ode.took { o with h := h' } s' c', rfl, ⟨ho.hx1, ho.hx2, ho.hmin, h3, h6, rfl, h7⟩, h4, h5, ?_, h8, ?_, ⟨o.con, c', h2⟩, ?_⟩
  · simp only [Ode.took, h3]
  · have := mul_le_mul_of_nonneg_right h9 h0.le
    rwa [div_mul_cancel₀ _ h0.ne'] at this
  · intro o2 hrec
    unfold Ode.iter
    rw [hclip]
    simp only
    rw [h2]
    simp only
    have hrec' : Ode.record sevenProb (Ode.took { o with h := h' } s' c') k s'.x s'.y s'.hdid = some (.ok (), o2) := hrec
    rw [hrec']

theorem seven_continue {o : Ode 1} {x h : ℝ} (ho : SevenAt o x h) (hx : x < 1) (h0 : 0 < o.s.hnext) :
    o.after = (.ok false, { o with h := o.s.hnext }) := by
  unfold Ode.after
  rw [ho.hx1, ho.hx2, ho.pos, ho.hmin, if_neg (by simp; linarith), if_neg (by simp; exact h0.ne')]

/-- C119 refuted for rows inside the second step: the integration of `y' = 1000 (x - 7/8)^7` from 0 to 1 with absolute tolerance 1,
a first step of 1/8 and 8 output intervals returns, and its result is right to 20 digits, but the row at 1/4 is
off by more than 5.  The estimated error of each step is below a tenth of the tolerance. -/
theorem C119_row_refuted (y0 : ℝ) : ∃ o', (Ode.new Con.new (fun _ => (G7 y0 0 : ℂ)) 0 1 (1 / 8) 0 (Out.new (some 8))).integrate sevenProb =
      some (.ok (), o') ∧ o'.visited = [1 / 8, 7 / 8, 1] ∧ (∀ i, ‖o'.ystart i - G7 y0 1‖ ≤ 1e-20) ∧
      ∃ r ∈ o'.out.saved, r.1 = 1 / 4 ∧ ∀ i, 5 < ‖r.2 i - G7 y0 (1 / 4)‖ := by
  obtain ⟨o, hrun, hl, hsaved, hox1, hox2, hx1, hx2, hsx, hsy, hdydx, hh, hcon, hmin, hgrid⟩ :=
    integrate_start sevenProb rfl Con.new (fun _ => (G7 y0 0 : ℂ)) 0 1 (1 / 8) 0 8 (by norm_num)
  have hv : o.visited = [] := List.length_eq_zero_iff.1 hl.len
  have hc0 : o.out.count = 0 := by rw [← Out.saved_length hl.ok, hsaved]; rfl
  have hG0 : G7 y0 0 = y0 := by unfold G7; norm_num
  have hu : SevenAt o 0 (1 / 8) := by
    refine ⟨hx1, hx2, hmin, hsx, by rw [hdydx, hsx, hsy], ?_, by rw [hcon]; rfl⟩
    rw [hh]; norm_num
  -- first pass
  obtain ⟨o1, a1, a2, a3, a4, a5, a6, a6', -, a7⟩ := seven_iter hu 0 (1 / 8) (by norm_num) (by norm_num) num1.1 num1.2.1
    (num1.2.2.trans (by norm_num))
  obtain ⟨⟨r, u⟩, hout⟩ := Out.out_returns (o := o1.out) (by rw [a1]; exact hgrid) 0 o1.s.x o1.s.y o1.s o1.s.hdid
  have hdom := Out.out_dom hout
  rw [a1] at hdom
  have hout' := hout
  rw [a1] at hout'
  obtain ⟨rfl, uok, uxo, umax, m, uc, um, us⟩ := Out.out_grid (a := 0) hl.ok hl.xout hl.dense (by norm_num) hout'
  have hm : m = 1 := by
    rw [uxo, uc, hc0, hdom.2.2.2.1, hl.hdx, hox1, hox2, a2.pos] at umax
    rw [hc0, hl.hdx, hox1, hox2, a2.pos] at um
    have h2 : 1 ≤ m := by
      by_contra hlt
      have : m = 0 := by omega
      subst this
      apply umax
      norm_num
    by_contra hne
    have := um 1 (by omega)
    norm_num at this
  subst hm
  have hrec1 : o1.record sevenProb (0 : ℕ) o1.s.x o1.s.y o1.s.hdid = some (.ok (), { o1 with out := u }) := by
    unfold Ode.record
    rw [show sevenProb.dense = true from rfl, if_pos rfl]
    rw [show (((0 : ℕ) : ℤ)) = 0 from rfl, hout]
  have hit1 := a7 _ hrec1
  have hu1 : SevenAt { o1 with out := u } (0 + 1 / 8) (1 / 8) := ⟨a2.hx1, a2.hx2, a2.hmin, a2.pos, a2.dydx, a2.step, a2.rej⟩
  rw [seven_continue hu1 (by norm_num) (lt_of_lt_of_le (by norm_num) a6')] at hit1
  have hn : o1.s.hnext = 3 / 4 := by rw [a6 num1.2.2]; norm_num
  have hu2 : SevenAt { ({ o1 with out := u } : Ode 1) with h := o1.s.hnext } (1 / 8) (3 / 4) :=
    ⟨a2.hx1, a2.hx2, a2.hmin, by simp only; rw [a2.pos]; norm_num, a2.dydx, hn, a2.rej⟩
  -- second pass
  obtain ⟨o2, b1, b2, b3, b4, b5, -, b6, -, b7⟩ := seven_iter hu2 1 (3 / 4) (by norm_num) (by norm_num) num2.1 num2.2.1
    (num2.2.2.trans (by norm_num))
  have hdom1 : u.Grid := hgrid.congr hdom
  obtain ⟨⟨r, w⟩, hout2⟩ := Out.out_returns (o := o2.out) (by rw [b1]; exact hdom1) 1 o2.s.x o2.s.y o2.s o2.s.hdid
  have hdom2 := Out.out_dom hout2
  rw [b1] at hdom2
  have hout2' := hout2
  rw [b1] at hout2'
  obtain ⟨rfl, wok, wxo, wc, ws⟩ := Out.out_second (a := 0) (o := u) uok uxo (by rw [hdom.1]; exact hl.dense) hout2'
  have hrec2 : o2.record sevenProb (1 : ℕ) o2.s.x o2.s.y o2.s.hdid = some (.ok (), { o2 with out := w }) := by
    unfold Ode.record
    rw [show sevenProb.dense = true from rfl, if_pos rfl]
    rw [show (((1 : ℕ) : ℤ)) = 1 from rfl, hout2]
  have hit2 := b7 _ hrec2
  have hu3 : SevenAt { o2 with out := w } (1 / 8 + 3 / 4) (3 / 4) := ⟨b2.hx1, b2.hx2, b2.hmin, b2.pos, b2.dydx, b2.step, b2.rej⟩
  rw [seven_continue hu3 (by norm_num) (lt_of_lt_of_le (by norm_num) b6)] at hit2
  have hb : o2.s.x = 7 / 8 := by rw [b2.pos]; norm_num
  have hu4 : SevenAt { ({ o2 with out := w } : Ode 1) with h := o2.s.hnext } (7 / 8) o2.s.hnext :=
    ⟨b2.hx1, b2.hx2, b2.hmin, hb, b2.dydx, rfl, b2.rej⟩
  -- third pass
  obtain ⟨o3, g1, g2, g3, g4, g5, -, -, ⟨cc, cc', gst⟩, g7⟩ := seven_iter hu4 2 (1 / 8) (by
      rw [if_pos (by norm_num at b6 ⊢; linarith)]; norm_num) (by norm_num) num3.1 num3.2.1 (num3.2.2.trans (by norm_num))
  have hdom2' : w.Grid := hdom1.congr hdom2
  obtain ⟨⟨r, z⟩, hout3⟩ := Out.out_returns (o := o3.out) (by rw [g1]; exact hdom2') 2 o3.s.x o3.s.y o3.s o3.s.hdid
  have hdom3 := Out.out_dom hout3
  rw [g1] at hdom3
  have hout3' := hout3
  rw [g1] at hout3'
  have hwd : w.dense = true := by rw [hdom2.1, hdom.1]; exact hl.dense
  have hwx : w.dxout = 1 / 8 := by rw [hdom2.2.2.2.1, hdom.2.2.2.1, hl.hdx]; norm_num
  have hw1 : w.x1 = 0 ∧ w.x2 = 1 := by
    rw [hdom2.2.1, hdom2.2.2.1, hdom.2.1, hdom.2.2.1]
    exact ⟨hox1, hox2⟩
  have hwc : w.count = 2 := by rw [wc, uc, hc0]
  obtain ⟨rfl, zok, zxo, zmax, m, zc, zm, zs⟩ := Out.out_grid (a := 0) (o := w) wok wxo hwd (by norm_num) hout3'
  have hm : 1 ≤ m := by
    by_contra hlt
    have : m = 0 := by omega
    subst this
    apply zmax
    rw [zxo, zc, hdom3.2.2.2.1, hwx, hw1.1, hw1.2, g2.pos, hwc]
    norm_num
  have hrec3 : o3.record sevenProb (2 : ℕ) o3.s.x o3.s.y o3.s.hdid = some (.ok (), { o3 with out := z }) := by
    unfold Ode.record
    rw [show sevenProb.dense = true from rfl, if_pos rfl]
    rw [show (((2 : ℕ) : ℤ)) = 2 from rfl, hout3]
  have hit3 := g7 _ hrec3
  have hrow : ((1 / 4 : ℝ), denseOut o3.s (1 / 4) (1 / 8)) ∈ z.saved := by
    rw [zs, List.mem_append]
    right
    refine List.mem_map.2 ⟨0, List.mem_range.2 hm, ?_⟩
    rw [hwc, hwx, g3]
    norm_num
  have hden : denseOut o3.s (1 / 4) (1 / 8) = o2.s.y + fun _ => (extra : ℂ) := by
    have h1 := C119_method sevenProb rfl o2.s o3.s (1 / 8) cc cc' b2.dydx gst (1 / 4)
    rw [g3, hb, show ((1 / 4 : ℝ) - 7 / 8) / (1 / 8) = -5 by norm_num, seven_between] at h1
    exact h1
  have hy2 : o2.s.y = fun _ => ((y0 + (1 / 8 * sumB 0 (1 / 8) + 3 / 4 * sumB (1 / 8) (3 / 4)) : ℝ) : ℂ) := by
    rw [b4]
    show o1.s.y + _ = _
    rw [a4, hsy, hG0]
    funext i
    simp only [Pi.add_apply]
    push_cast; ring
  have hy3 : o3.s.y = fun _ => ((y0 + (1 / 8 * sumB 0 (1 / 8) + 3 / 4 * sumB (1 / 8) (3 / 4) + 1 / 8 * sumB (7 / 8) (1 / 8)) : ℝ) : ℂ) := by
    rw [g4]
    show o2.s.y + _ = _
    rw [hy2]
    funext i
    simp only [Pi.add_apply]
    push_cast; ring
  have hfin : ∀ q, q ∈ z.saved → ∃ o', ({ o3 with out := z } : Ode 1).after = (.ok true, o') ∧ q ∈ o'.out.saved ∧ o'.ystart = o3.s.y ∧
      o'.visited = o3.visited := by
    intro q hq
    have hend : (o3.s.x - o3.x2) * (o3.x2 - o3.x1) ≥ 0 := by
      rw [g2.pos, g2.hx1, g2.hx2]; norm_num
    rcases after_cases (o := ({ o3 with out := z } : Ode 1)) (Or.inr zok) with ⟨-, v, -, hv', ha⟩ | ⟨hn', -⟩ | ⟨hn', -⟩
    · refine ⟨_, ha, ?_, rfl, rfl⟩
      rcases hv' with rfl | ⟨hv', -⟩
      · exact hq
      · obtain ⟨t, ht, -, hts, -⟩ := Out.save_ok zok o3.s.x o3.s.y
        have hv2 : z.save o3.s.x o3.s.y = (.ok (), v) := hv'
        rw [ht] at hv2
        simp only [Prod.mk.injEq, true_and] at hv2
        subst hv2
        show q ∈ t.saved
        rw [hts]
        exact List.mem_append_left _ hq
    · exact absurd hend hn'
    · exact absurd hend hn'
  obtain ⟨o', ho', hmem, hys, hvis⟩ := hfin _ hrow
  rw [ho'] at hit3
  refine ⟨o', ?_, ?_, fun i => ?_, _, hmem, rfl, fun i => ?_⟩
  · rw [hrun, show (50000 : ℕ) = 49997 + 1 + 1 + 1 by norm_num]
    unfold Ode.loop
    rw [hit1]
    simp only
    unfold Ode.loop
    rw [hit2]
    simp only
    unfold Ode.loop
    rw [hit3]
  · rw [hvis, g5]
    show o2.visited ++ _ = _
    rw [b5]
    show o1.visited ++ _ ++ _ = _
    rw [a5, hv]
    norm_num
  · rw [hys, hy3]
    have h1 := num_sum.2
    dsimp only
    rw [← Complex.ofReal_sub, Complex.norm_real, Real.norm_eq_abs]
    have e : y0 + (1 / 8 * sumB 0 (1 / 8) + 3 / 4 * sumB (1 / 8) (3 / 4) + 1 / 8 * sumB (7 / 8) (1 / 8)) - G7 y0 1 =
        1 / 8 * sumB 0 (1 / 8) + 3 / 4 * sumB (1 / 8) (3 / 4) + 1 / 8 * sumB (7 / 8) (1 / 8) - 125 * ((1 / 8) ^ 8 - (7 / 8) ^ 8) := by
      unfold G7; ring
    rw [e]
    exact h1
  · dsimp only
    rw [hden, hy2]
    simp only [Pi.add_apply]
    rw [← Complex.ofReal_add, ← Complex.ofReal_sub, Complex.norm_real, Real.norm_eq_abs, lt_abs]
    right
    have h1 := abs_le.1 num_sum.1
    have h2 := num_extra
    unfold G7
    norm_num at h1 h2 ⊢
    linarith

end PyNLO.Ode
