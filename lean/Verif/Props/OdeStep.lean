import Verif.Model.Ode
import Mathlib.Analysis.Calculus.Deriv.Pow
import Mathlib.Analysis.Calculus.Deriv.Add
import Mathlib.Analysis.Calculus.Deriv.Mul
import Mathlib.Analysis.Complex.RealDeriv
import Mathlib.Analysis.SpecificLimits.Basic

/-!
# One step of the integrator: acceptance, termination, dense output, zero error (C54, C55, C56, C58)
-/

namespace PyNLO.Ode

variable {n : ℕ}

/-- What is assumed of the rounding of a rejected step: the result is the trial step times a factor between
`0` and `0.95` (the exact factor is at most `0.9`).  True of exact arithmetic, of flushing to zero and of
rounding to nearest above the subnormal range. -/
def Rounds (fl : ℝ → ℝ) : Prop := ∀ h s, 0 ≤ s → s ≤ 0.9 → ∃ r, 0 ≤ r ∧ r ≤ 0.95 ∧ fl (h * s) = r * h

/-- Small enough results are rounded to zero. -/
def Underflows (fl : ℝ → ℝ) : Prop := ∃ η > 0, ∀ x, |x| < η → fl x = 0

theorem rounds_id : Rounds id := fun h s h0 h1 => ⟨s, h0, by linarith, mul_comm _ _⟩

open Classical in
/-- Exact arithmetic with results below `η` flushed to zero. -/
noncomputable def flush (η x : ℝ) : ℝ := if |x| < η then 0 else x

theorem rounds_flush (η : ℝ) : Rounds (flush η) := by
  intro h s h0 h1
  unfold flush
  split_ifs
  · exact ⟨0, le_refl _, by norm_num, by simp⟩
  · exact ⟨s, h0, by linarith, mul_comm _ _⟩

theorem underflows_flush {η : ℝ} (h : 0 < η) : Underflows (flush η) := ⟨η, h, fun x hx => if_pos hx⟩

theorem rejectScale_bounds {e : ℝ} (he : 1 < e) : 0.333 ≤ rejectScale e ∧ rejectScale e ≤ 0.9 := by
  unfold rejectScale
  have : e ^ (-(1 / 8 : ℝ)) ≤ 1 := Real.rpow_le_one_of_one_le_of_nonpos he.le (by norm_num)
  refine ⟨le_max_right _ _, max_le (by nlinarith) (by norm_num)⟩

theorem acceptScale_bounds (e : ℝ) : 0.333 ≤ acceptScale e ∧ acceptScale e ≤ 6 := by
  unfold acceptScale
  simp only
  split_ifs with h0 h1 h2 h3
  · norm_num
  · norm_num at h2
  · norm_num
  · norm_num
  · exact ⟨not_lt.mp h1, not_lt.mp h3⟩

/-! ## The loop of `step` -/

/-- What the body of the loop can do. -/
theorem stepBody_cases (fl : ℝ → ℝ) (errF : ℝ → Flt) (x : ℝ) (t : Trial) :
    (t.h = .nan ∧ stepBody fl errF x t = .inr (.error .AssertionError, t.con)) ∨
    (∃ h, t.h = .val h ∧ errF h = .nan ∧ stepBody fl errF x t = .inl ⟨.nan, { t.con with reject := true }⟩) ∨
    (∃ h e, t.h = .val h ∧ errF h = .val e ∧ e ≤ 1 ∧ stepBody fl errF x t = .inr (.ok h,
      ⟨if t.con.reject then h * min (acceptScale e) 1 else h * acceptScale e, max e 1e-4, false⟩)) ∨
    (∃ h e, t.h = .val h ∧ errF h = .val e ∧ 1 < e ∧ |fl (h * rejectScale e)| ≤ |x| * EPS ∧
      stepBody fl errF x t = .inr (.error .OverflowError, { t.con with reject := true })) ∨
    (∃ h e, t.h = .val h ∧ errF h = .val e ∧ 1 < e ∧ |x| * EPS < |fl (h * rejectScale e)| ∧
      stepBody fl errF x t = .inl ⟨.val (fl (h * rejectScale e)), { t.con with reject := true }⟩) := by
  obtain ⟨h, c⟩ := t
  cases h with
  | nan => left; simp [stepBody, success]
  | val h =>
    right
    cases he : errF h with
    | nan => left; exact ⟨h, rfl, he, by simp [stepBody, success, he]⟩
    | val e =>
      right
      by_cases h1 : e ≤ 1
      · left; exact ⟨h, e, rfl, he, h1, by simp [stepBody, success, he, h1]⟩
      · right
        by_cases h2 : |fl (h * rejectScale e)| ≤ |x| * EPS
        · left; exact ⟨h, e, rfl, he, not_le.mp h1, h2, by simp [stepBody, success, he, h1, h2]⟩
        · right; exact ⟨h, e, rfl, he, not_le.mp h1, not_le.mp h2, by simp [stepBody, success, he, h1, h2]⟩

theorem EPS_pos : 0 < EPS := by unfold EPS; positivity

/-- The result of a successful loop. -/
theorem stepLoop_ok {fl : ℝ → ℝ} (hfl : Rounds fl) {errF : ℝ → Flt} {x htry : ℝ} {c c' : Con} {h : ℝ}
    (hr : stepLoop fl errF x htry c = some (.ok h, c')) :
    (∃ e, errF h = .val e ∧ e ≤ 1) ∧ (∃ r, 0 < r ∧ r ≤ 1 ∧ h = r * htry) ∧
      (∃ q, 0.333 ≤ q ∧ q ≤ 6 ∧ c'.hnext = q * h ∧ (h ≠ htry ∨ c.reject = true → q ≤ 1)) ∧ c'.reject = false := by
  let I : Trial → Prop := fun t => t.h = .nan ∨ ∃ r, 0 < r ∧ r ≤ 1 ∧ t.h = .val (r * htry) ∧
    (r * htry ≠ htry ∨ c.reject = true → t.con.reject = true)
  let Q : Except PyErr ℝ × Con → Prop := fun o => ∀ h, o.1 = .ok h →
    (∃ e, errF h = .val e ∧ e ≤ 1) ∧ (∃ r, 0 < r ∧ r ≤ 1 ∧ h = r * htry) ∧
      (∃ q, 0.333 ≤ q ∧ q ≤ 6 ∧ o.2.hnext = q * h ∧ (h ≠ htry ∨ c.reject = true → q ≤ 1)) ∧ o.2.reject = false
  have key : Q (.ok h, c') := by
    refine runLoop_invariant (I := I) (Q := Q) ?_ ?_ ?_ hr
    · rintro t t' hI hb
      rcases stepBody_cases fl errF x t with ⟨_, h2⟩ | ⟨h, _, _, h2⟩ | ⟨h, e, _, _, _, h2⟩ |
        ⟨h, e, _, _, _, _, h2⟩ | ⟨h, e, h0, he, h1, hlt, h2⟩
      · rw [h2] at hb; simp at hb
      · rw [h2] at hb; rw [← Sum.inl.inj hb]; exact Or.inl rfl
      · rw [h2] at hb; simp at hb
      · rw [h2] at hb; simp at hb
      · rw [h2] at hb
        rw [← Sum.inl.inj hb]
        right
        rcases hI with hI | ⟨r, hr0, hr1, hrh, -⟩
        · rw [h0] at hI; simp at hI
        rw [h0] at hrh
        have hrh : h = r * htry := by injection hrh
        obtain ⟨s0, s1⟩ := rejectScale_bounds h1
        obtain ⟨r', a, b, d⟩ := hfl h (rejectScale e) (by linarith) s1
        have hne : 0 < |fl (h * rejectScale e)| := lt_of_le_of_lt (mul_nonneg (abs_nonneg _) EPS_pos.le) hlt
        have hr' : 0 < r' := by
          rcases a.lt_or_eq with a | a
          · exact a
          · rw [d, ← a] at hne; simp at hne
        refine ⟨r' * r, by positivity, by nlinarith, by rw [d, hrh, mul_assoc], fun _ => rfl⟩
    · intro t o hI hb
      intro h ho
      rcases stepBody_cases fl errF x t with ⟨_, h2⟩ | ⟨h', _, _, h2⟩ | ⟨h', e, h0, he, h1, h2⟩ |
        ⟨h', e, _, _, _, _, h2⟩ | ⟨h', e, _, _, _, _, h2⟩
      · rw [h2] at hb; rw [← Sum.inr.inj hb] at ho; simp at ho
      · rw [h2] at hb; simp at hb
      · rw [h2] at hb
        rw [← Sum.inr.inj hb] at ho ⊢
        simp only [Except.ok.injEq] at ho
        subst ho
        rcases hI with hI | ⟨r, hr0, hr1, hrh, hrj⟩
        · rw [h0] at hI; simp at hI
        rw [h0] at hrh
        have hrh : h' = r * htry := by injection hrh
        obtain ⟨a1, a2⟩ := acceptScale_bounds e
        refine ⟨⟨e, he, h1⟩, ⟨r, hr0, hr1, hrh⟩, ?_, rfl⟩
        by_cases hj : t.con.reject = true
        · refine ⟨min (acceptScale e) 1, le_min a1 (by norm_num), (min_le_left _ _).trans a2, ?_,
            fun _ => min_le_right _ _⟩
          simp [hj, mul_comm]
        · refine ⟨acceptScale e, a1, a2, by simp [hj, mul_comm], fun hx => absurd (hrj (by rwa [← hrh])) hj⟩
      · rw [h2] at hb; rw [← Sum.inr.inj hb] at ho; simp at ho
      · rw [h2] at hb; simp at hb
    · right; exact ⟨1, one_pos, le_refl _, by simp, by simp⟩
  exact key h rfl

/-- What a successful `step` does. -/
theorem step_ok {p : Prob n} {s s' : Stepper n} {htry : ℝ} {c c' : Con}
    (hr : step p s htry c = some (.ok (), s', c')) :
    stepLoop p.fl (fun h => error p.atol p.rtol s.y (dy p.f s.x s.y s.dydx h) h) s.x htry c = some (.ok s'.hdid, c') ∧
    s'.x = s.x + s'.hdid ∧ s'.xold = s.x ∧ s'.hnext = c'.hnext ∧ s'.y = (dy p.f s.x s.y s.dydx s'.hdid).yout ∧
    s'.dydx = p.f s'.x s'.y ∧
    s'.rc = if p.dense then prepareDense p.f s.x s.y s.dydx s'.dydx (dy p.f s.x s.y s.dydx s'.hdid) s'.hdid else s.rc := by
  unfold step at hr
  rcases h : stepLoop p.fl (fun h => error p.atol p.rtol s.y (dy p.f s.x s.y s.dydx h) h) s.x htry c with
    _ | ⟨_ | h', c''⟩
  · rw [h] at hr; simp at hr
  · rw [h] at hr; simp at hr
  · rw [h] at hr
    simp only [Option.some.injEq, Prod.mk.injEq, true_and] at hr
    obtain ⟨h1, h2⟩ := hr
    subst h1 h2
    refine ⟨rfl, rfl, rfl, rfl, ?_, ?_, ?_⟩ <;> simp only

theorem step_error {p : Prob n} {s s' : Stepper n} {htry : ℝ} {c c' : Con} {e : PyErr}
    (hr : step p s htry c = some (.error e, s', c')) : s' = s := by
  unfold step at hr
  rcases h : stepLoop p.fl (fun h => error p.atol p.rtol s.y (dy p.f s.x s.y s.dydx h) h) s.x htry c with
    _ | ⟨_ | h', c''⟩
  · rw [h] at hr; simp at hr
  · rw [h] at hr
    simp only [Option.some.injEq, Prod.mk.injEq] at hr
    exact hr.2.1.symm
  · rw [h] at hr; simp at hr

/-! ## C54: acceptance -/

/-- C54: if `step` returns, the error of the step taken is at most one; the step is the trial step times a
factor in `(0, 1]`; the proposed next step is that step times a factor in `[0.333, 6]`, which is at most one if
the trial step was not taken as it was. -/
theorem C54_acceptance (p : Prob n) (hfl : Rounds p.fl) (s s' : Stepper n) (htry : ℝ) (c c' : Con)
    (hr : step p s htry c = some (.ok (), s', c')) :
    (∃ e, error p.atol p.rtol s.y (dy p.f s.x s.y s.dydx s'.hdid) s'.hdid = .val e ∧ e ≤ 1) ∧
    (∃ r, 0 < r ∧ r ≤ 1 ∧ s'.hdid = r * htry) ∧ s'.x = s.x + s'.hdid ∧
    (∃ q, 0.333 ≤ q ∧ q ≤ 6 ∧ s'.hnext = q * s'.hdid ∧ (s'.hdid ≠ htry → q ≤ 1)) := by
  obtain ⟨h1, h2, -, h3, -⟩ := step_ok hr
  obtain ⟨a, b, ⟨q, q0, q1, q2, q3⟩, -⟩ := stepLoop_ok hfl h1
  exact ⟨a, b, h2, q, q0, q1, by rw [h3, q2], fun h => q3 (Or.inl h)⟩

/-! ## C55: termination -/

theorem loop_shrinks {fl : ℝ → ℝ} (hfl : Rounds fl) (errF : ℝ → Flt) (x : ℝ) (k : ℕ) (t t' : Trial) (b : ℝ)
    (hb : t.h = .nan ∨ ∃ h, t.h = .val h ∧ |h| ≤ b) (ht : loopAt (stepBody fl errF x) k t = .inl t') :
    t'.h = .nan ∨ ∃ h, t'.h = .val h ∧ |h| ≤ 0.95 ^ k * b := by
  induction k generalizing t b with
  | zero =>
    simp only [loopAt, Sum.inl.injEq] at ht
    subst ht
    simpa using hb
  | succ k ih =>
    unfold loopAt at ht
    rcases stepBody_cases fl errF x t with ⟨_, h2⟩ | ⟨h, _, _, h2⟩ | ⟨h, e, _, _, _, h2⟩ |
      ⟨h, e, _, _, _, _, h2⟩ | ⟨h, e, h0, he, h1, hlt, h2⟩
    · rw [h2] at ht; simp at ht
    · rw [h2] at ht
      simp only at ht
      have := ih _ (0.95 * b) (Or.inl rfl) ht
      rw [pow_succ, mul_assoc]; exact this
    · rw [h2] at ht; simp at ht
    · rw [h2] at ht; simp at ht
    · rw [h2] at ht
      simp only at ht
      have := ih _ (0.95 * b) (Or.inr ⟨_, rfl, ?_⟩) ht
      · rw [pow_succ, mul_assoc]; exact this
      · rcases hb with hb | ⟨h', hb, hb'⟩
        · rw [h0] at hb; simp at hb
        rw [h0] at hb
        obtain rfl : h = h' := by injection hb
        obtain ⟨s0, s1⟩ := rejectScale_bounds h1
        obtain ⟨r', a, b', d⟩ := hfl h (rejectScale e) (by linarith) s1
        rw [d, abs_mul, abs_of_nonneg a]
        nlinarith [abs_nonneg h]

/-- C55: for every right-hand side or error sequence, every trial step and controller state, the loop of
`step` is left, provided the position is not zero or reduced steps underflow to zero eventually. -/
theorem C55_terminates {fl : ℝ → ℝ} (hfl : Rounds fl) (errF : ℝ → Flt) (x htry : ℝ) (c : Con)
    (hx : x ≠ 0 ∨ Underflows fl) : ∃ r, stepLoop fl errF x htry c = some r := by
  by_contra hcon
  push Not at hcon
  have hnone : runLoop (stepBody fl errF x) ⟨.val htry, c⟩ = none := by
    rcases h : runLoop (stepBody fl errF x) ⟨.val htry, c⟩ with _ | r
    · rfl
    · exact absurd h (hcon r)
  rw [runLoop_none_iff] at hnone
  -- a bound below which a rejected step is fatal
  obtain ⟨δ, hδ, hfatal⟩ : ∃ δ > 0, ∀ h e, |h| < δ → 1 < e → |fl (h * rejectScale e)| ≤ |x| * EPS := by
    rcases hx with hx | ⟨η, hη, hu⟩
    · refine ⟨|x| * EPS, mul_pos (abs_pos.mpr hx) EPS_pos, fun h e hh he => ?_⟩
      obtain ⟨s0, s1⟩ := rejectScale_bounds he
      obtain ⟨r', a, b', d⟩ := hfl h (rejectScale e) (by linarith) s1
      rw [d, abs_mul, abs_of_nonneg a]
      nlinarith [abs_nonneg h]
    · refine ⟨η, hη, fun h e hh he => ?_⟩
      obtain ⟨s0, s1⟩ := rejectScale_bounds he
      rw [hu _ (by rw [abs_mul, abs_of_nonneg (by linarith : (0:ℝ) ≤ rejectScale e)]; nlinarith [abs_nonneg h])]
      simpa using mul_nonneg (abs_nonneg x) EPS_pos.le
  obtain ⟨k, hk⟩ : ∃ k : ℕ, (0.95 : ℝ) ^ k * |htry| < δ := by
    obtain ⟨k, hk⟩ := exists_pow_lt_of_lt_one (div_pos hδ (by positivity : 0 < |htry| + 1)) (by norm_num : (0.95 : ℝ) < 1)
    refine ⟨k, ?_⟩
    rw [lt_div_iff₀ (by positivity)] at hk
    nlinarith [pow_nonneg (by norm_num : (0:ℝ) ≤ 0.95) k, abs_nonneg htry]
  obtain ⟨t, ht⟩ := hnone k
  have hsmall := loop_shrinks hfl errF x k _ t |htry| (Or.inr ⟨htry, rfl, le_refl _⟩) ht
  -- the loop is left within two more passes
  obtain ⟨t2, ht2⟩ := hnone (k + 2)
  rw [loopAt_comp _ ht 2] at ht2
  unfold loopAt at ht2
  rcases stepBody_cases fl errF x t with ⟨_, h2⟩ | ⟨h, _, _, h2⟩ | ⟨h, e, _, _, _, h2⟩ |
      ⟨h, e, _, _, _, _, h2⟩ | ⟨h, e, h0, he, h1, hlt, h2⟩
  · rw [h2] at ht2; simp at ht2
  · rw [h2] at ht2
    simp [loopAt, stepBody, success] at ht2
  · rw [h2] at ht2; simp at ht2
  · rw [h2] at ht2; simp at ht2
  · rcases hsmall with hs | ⟨h', hs, hs'⟩
    · rw [h0] at hs; simp at hs
    rw [h0] at hs
    obtain rfl : h = h' := by injection hs
    exact absurd (hfatal h e (lt_of_le_of_lt hs' hk) h1) (not_le.mpr hlt)

/-- C55: the same for `step` itself. -/
theorem C55_step (p : Prob n) (hfl : Rounds p.fl) (s : Stepper n) (htry : ℝ) (c : Con)
    (hx : s.x ≠ 0 ∨ Underflows p.fl) : ∃ r, step p s htry c = some r := by
  obtain ⟨r, hr⟩ := C55_terminates hfl (fun h => error p.atol p.rtol s.y (dy p.f s.x s.y s.dydx h) h) s.x htry c hx
  unfold step
  rw [hr]
  rcases r with ⟨_ | h, c'⟩ <;> exact ⟨_, rfl⟩

/-- C55: the refusal "stepsize underflow" has a reason: `step` raises it only after an error above one at a trial step `h` not larger than the requested one that, reduced once
more, would be at most the double-precision rounding unit `2⁻⁵²` of the position. -/
theorem C55_refusal {fl : ℝ → ℝ} (hfl : Rounds fl) {errF : ℝ → Flt} {x htry : ℝ} {c c' : Con}
    (hr : stepLoop fl errF x htry c = some (.error .OverflowError, c')) :
    ∃ h e s, errF h = .val e ∧ 1 < e ∧ |h| ≤ |htry| ∧ 0.333 ≤ s ∧ s ≤ 0.9 ∧ |fl (h * s)| ≤ |x| * (1 / 4503599627370496) := by
  let I : Trial → Prop := fun t => t.h = .nan ∨ ∃ h, t.h = .val h ∧ |h| ≤ |htry|
  let Q : Except PyErr ℝ × Con → Prop := fun o => o.1 = .error .OverflowError →
    ∃ h e s, errF h = .val e ∧ 1 < e ∧ |h| ≤ |htry| ∧ 0.333 ≤ s ∧ s ≤ 0.9 ∧ |fl (h * s)| ≤ |x| * (1 / 4503599627370496)
  have key : Q (.error .OverflowError, c') := by
    refine runLoop_invariant (I := I) (Q := Q) ?_ ?_ ?_ hr
    · rintro t t' hI hb
      rcases stepBody_cases fl errF x t with ⟨_, h2⟩ | ⟨h, _, _, h2⟩ | ⟨h, e, _, _, _, h2⟩ |
        ⟨h, e, _, _, _, _, h2⟩ | ⟨h, e, h0, he, h1, hlt, h2⟩
      · rw [h2] at hb; simp at hb
      · rw [h2] at hb; rw [← Sum.inl.inj hb]; exact Or.inl rfl
      · rw [h2] at hb; simp at hb
      · rw [h2] at hb; simp at hb
      · rw [h2] at hb
        rw [← Sum.inl.inj hb]
        rcases hI with hI | ⟨h', hI, hle⟩
        · rw [h0] at hI; simp at hI
        rw [h0] at hI
        obtain rfl : h = h' := by injection hI
        obtain ⟨s0, s1⟩ := rejectScale_bounds h1
        obtain ⟨r', a, b, d⟩ := hfl h (rejectScale e) (by linarith) s1
        refine Or.inr ⟨_, rfl, ?_⟩
        rw [d, abs_mul, abs_of_nonneg a]
        nlinarith [abs_nonneg h]
    · intro t o hI hb ho
      rcases stepBody_cases fl errF x t with ⟨_, h2⟩ | ⟨h, _, _, h2⟩ | ⟨h, e, _, _, _, h2⟩ |
        ⟨h, e, h0, he, h1, hlt, h2⟩ | ⟨h, e, _, _, _, _, h2⟩
      · rw [h2] at hb; rw [← Sum.inr.inj hb] at ho; simp at ho
      · rw [h2] at hb; simp at hb
      · rw [h2] at hb; rw [← Sum.inr.inj hb] at ho; simp at ho
      · rcases hI with hI | ⟨h', hI, hle⟩
        · rw [h0] at hI; simp at hI
        rw [h0] at hI
        obtain rfl : h = h' := by injection hI
        obtain ⟨s0, s1⟩ := rejectScale_bounds h1
        refine ⟨h, e, _, he, h1, hle, s0, s1, hlt.trans_eq ?_⟩
        unfold EPS
        norm_num
      · rw [h2] at hb; simp at hb
    · exact Or.inr ⟨htry, rfl, le_refl _⟩
  exact key rfl

theorem stepLoop_error {fl : ℝ → ℝ} {errF : ℝ → Flt} {x htry : ℝ} {c c' : Con} {e : PyErr} (herr : ∀ h, ∃ e, errF h = .val e)
    (hr : stepLoop fl errF x htry c = some (.error e, c')) : e = .OverflowError := by
  refine runLoop_invariant (I := fun t => ∃ h, t.h = .val h) (Q := fun o => o.1 = .error e → e = .OverflowError) ?_ ?_ ⟨htry, rfl⟩ hr rfl
  · rintro t t' ⟨h, hI⟩ hb
    rcases stepBody_cases fl errF x t with ⟨h0, _⟩ | ⟨h, _, hn, h2⟩ | ⟨h, e, _, _, _, h2⟩ | ⟨h, e, _, _, _, _, h2⟩ | ⟨h, e, h0, he, h1, hlt, h2⟩
    · rw [h0] at hI; simp at hI
    · obtain ⟨e, he⟩ := herr h; rw [he] at hn; simp at hn
    · rw [h2] at hb; simp at hb
    · rw [h2] at hb; simp at hb
    · rw [h2] at hb
      rw [← Sum.inl.inj hb]
      exact ⟨_, rfl⟩
  · rintro t o ⟨h, hI⟩ hb ho
    rcases stepBody_cases fl errF x t with ⟨h0, _⟩ | ⟨h, _, hn, h2⟩ | ⟨h, e, _, _, _, h2⟩ | ⟨h, e, _, _, _, _, h2⟩ | ⟨h, e, h0, he, h1, hlt, h2⟩
    · rw [h0] at hI; simp at hI
    · obtain ⟨e, he⟩ := herr h; rw [he] at hn; simp at hn
    · rw [h2] at hb; rw [← Sum.inr.inj hb] at ho; simp at ho
    · rw [h2] at hb; rw [← Sum.inr.inj hb] at ho; simpa using ho.symm
    · rw [h2] at hb; simp at hb

/-- C55: in exact arithmetic a solver whose error estimate is met by every step up to `δ`, with `δ` at least `2⁻⁵⁰` of the position, is never refused at that position: the call
returns a step. -/
theorem C55_returns {errF : ℝ → Flt} {x htry δ : ℝ} (c : Con) (hx : x ≠ 0) (hδ : |x| * (1 / 1125899906842624) ≤ δ)
    (herr : ∀ h, ∃ e, errF h = .val e ∧ (|h| ≤ δ → e ≤ 1)) : ∃ h c', stepLoop id errF x htry c = some (.ok h, c') := by
  obtain ⟨⟨r, c'⟩, hr⟩ := C55_terminates rounds_id errF x htry c (Or.inl hx)
  rcases r with e | h
  · exfalso
    obtain rfl : e = .OverflowError := stepLoop_error (fun h => ⟨_, (herr h).choose_spec.1⟩) hr
    · obtain ⟨h, e, s, he, h1, -, s0, -, hs⟩ := C55_refusal rounds_id hr
      obtain ⟨e', he', hok⟩ := herr h
      rw [he] at he'
      obtain rfl : e = e' := by injection he'
      refine absurd (hok ?_) (not_le.2 h1)
      rw [id, abs_mul, abs_of_nonneg (by linarith : (0:ℝ) ≤ s)] at hs
      nlinarith [abs_nonneg h, abs_pos.2 hx]
  · exact ⟨h, c', hr⟩

/-- C55: both kinds of hypothesis can be met. -/
theorem C55_nonvacuous : Rounds (flush (2⁻¹ ^ 1000)) ∧ Underflows (flush (2⁻¹ ^ 1000)) ∧ Rounds id :=
  ⟨rounds_flush _, underflows_flush (by positivity), rounds_id⟩

/-- C55: the proviso is needed: at position zero the guard `abs(h) <= abs(self.x)*self.EPS` never fires in
exact arithmetic, and a persistently large error keeps the loop running. -/
theorem C55_exact_at_zero (htry : ℝ) (h0 : htry ≠ 0) (c : Con) :
    stepLoop id (fun _ => .val 2) 0 htry c = none := by
  refine runLoop_forever (I := fun t => ∃ h, t.h = .val h ∧ h ≠ 0) ?_ ⟨htry, rfl, h0⟩
  rintro t ⟨h, ht, hne⟩
  obtain ⟨s0, s1⟩ := rejectScale_bounds (e := 2) (by norm_num)
  rcases stepBody_cases id (fun _ => .val 2) 0 t with ⟨h1, h2⟩ | ⟨h', _, h1, h2⟩ | ⟨h', e, _, he, h1, h2⟩ |
      ⟨h', e, h3, he, _, h1, h2⟩ | ⟨h', e, h3, he, h1, hlt, h2⟩
  · rw [ht] at h1; simp at h1
  · simp at h1
  · simp only [Flt.val.injEq] at he; linarith
  · rw [ht] at h3
    obtain rfl : h = h' := by injection h3
    simp only [Flt.val.injEq] at he
    subst he
    simp only [id, abs_zero, zero_mul, abs_nonpos_iff, mul_eq_zero] at h1
    rcases h1 with h1 | h1
    · exact absurd h1 hne
    · linarith
  · rw [ht] at h3
    obtain rfl : h = h' := by injection h3
    simp only [Flt.val.injEq] at he
    subst he
    refine ⟨_, h2, _, rfl, mul_ne_zero hne (by linarith)⟩

/-! ## C56: dense output -/

/-- C56: after a step with dense output, the interpolant takes the old value at the start of the step and the
new value at its end. -/
theorem C56_values (p : Prob n) (hd : p.dense = true) (s s' : Stepper n) (htry : ℝ) (c c' : Con)
    (hr : step p s htry c = some (.ok (), s', c')) (h0 : s'.hdid ≠ 0) :
    denseOut s' s.x s'.hdid = s.y ∧ denseOut s' s'.x s'.hdid = s'.y := by
  obtain ⟨-, h2, h3, -, h5, -, h7⟩ := step_ok hr
  rw [hd, if_pos rfl] at h7
  constructor
  · simp only [denseOut, h3, h7]
    simp [prepareDense]
  · have : (s'.x - s'.xold) / s'.hdid = 1 := by rw [h2, h3]; field_simp; ring
    simp only [denseOut, this, h7]
    simp [prepareDense, h5]

theorem hasDerivAt_horner {a : ℝ} (t : ℝ → ℝ) (x : ℝ) (ht : HasDerivAt t a x) (r : Fin 8 → ℂ) :
    HasDerivAt (fun x => r 0 + (t x : ℂ) * (r 1 + (1 - t x : ℂ) * (r 2 + (t x : ℂ) * (r 3 + (1 - t x : ℂ) * (r 4
        + (t x : ℂ) * (r 5 + (1 - t x : ℂ) * (r 6 + (t x : ℂ) * r 7)))))))
      ((a : ℂ) * ((r 1 + (1 - t x : ℂ) * (r 2 + (t x : ℂ) * (r 3 + (1 - t x : ℂ) * (r 4 + (t x : ℂ) * (r 5
          + (1 - t x : ℂ) * (r 6 + (t x : ℂ) * r 7))))))
        + (t x : ℂ) * (-(r 2 + (t x : ℂ) * (r 3 + (1 - t x : ℂ) * (r 4 + (t x : ℂ) * (r 5
          + (1 - t x : ℂ) * (r 6 + (t x : ℂ) * r 7)))))
          + (1 - t x : ℂ) * ((r 3 + (1 - t x : ℂ) * (r 4 + (t x : ℂ) * (r 5 + (1 - t x : ℂ) * (r 6 + (t x : ℂ) * r 7))))
          + (t x : ℂ) * (-(r 4 + (t x : ℂ) * (r 5 + (1 - t x : ℂ) * (r 6 + (t x : ℂ) * r 7)))
          + (1 - t x : ℂ) * ((r 5 + (1 - t x : ℂ) * (r 6 + (t x : ℂ) * r 7))
          + (t x : ℂ) * (-(r 6 + (t x : ℂ) * r 7) + (1 - t x : ℂ) * r 7))))))) x := by
  have hT : HasDerivAt (fun x => (t x : ℂ)) (a : ℂ) x := ht.ofReal_comp
  have hS : HasDerivAt (fun x => (1 - t x : ℂ)) (-(a : ℂ)) x := by simpa using hT.const_sub 1
  have h7 := hT.mul_const (r 7)
  have h6 := hS.mul (h7.const_add (r 6))
  have h5 := hT.mul (h6.const_add (r 5))
  have h4 := hS.mul (h5.const_add (r 4))
  have h3 := hT.mul (h4.const_add (r 3))
  have h2 := hS.mul (h3.const_add (r 2))
  have h1 := hT.mul (h2.const_add (r 1))
  refine (h1.const_add (r 0)).congr_deriv ?_
  simp only [Pi.mul_apply]
  ring

/-- C56: and it has the old and the new derivative there. -/
theorem C56_derivatives (p : Prob n) (hd : p.dense = true) (s s' : Stepper n) (htry : ℝ) (c c' : Con)
    (hr : step p s htry c = some (.ok (), s', c')) (h0 : s'.hdid ≠ 0) (i : Fin n) :
    HasDerivAt (fun x => denseOut s' x s'.hdid i) (s.dydx i) s.x ∧
      HasDerivAt (fun x => denseOut s' x s'.hdid i) (p.f s'.x s'.y i) s'.x := by
  obtain ⟨-, h2, h3, -, h5, h6, h7⟩ := step_ok hr
  rw [hd, if_pos rfl] at h7
  have ht : ∀ x, HasDerivAt (fun x => (x - s.x) / s'.hdid) (1 / s'.hdid) x := fun x =>
    ((hasDerivAt_id x).sub_const _).div_const _
  have hh : (s'.hdid : ℂ) ≠ 0 := by exact_mod_cast h0
  have hfun : (fun x => denseOut s' x s'.hdid i) = fun x => (fun j => s'.rc j i) 0
      + (((x - s.x) / s'.hdid : ℝ) : ℂ) * ((fun j => s'.rc j i) 1 + (1 - ((x - s.x) / s'.hdid : ℝ) : ℂ) * ((fun j => s'.rc j i) 2
      + (((x - s.x) / s'.hdid : ℝ) : ℂ) * ((fun j => s'.rc j i) 3 + (1 - ((x - s.x) / s'.hdid : ℝ) : ℂ) * ((fun j => s'.rc j i) 4
      + (((x - s.x) / s'.hdid : ℝ) : ℂ) * ((fun j => s'.rc j i) 5 + (1 - ((x - s.x) / s'.hdid : ℝ) : ℂ) * ((fun j => s'.rc j i) 6
      + (((x - s.x) / s'.hdid : ℝ) : ℂ) * (fun j => s'.rc j i) 7)))))) := by
    funext x
    simp only [denseOut, h3, Pi.add_apply, Pi.smul_apply, Complex.real_smul]
    push_cast
    rfl
  rw [hfun]
  constructor
  · refine (hasDerivAt_horner _ _ (ht s.x) (fun j => s'.rc j i)).congr_deriv ?_
    simp only [sub_self, zero_div, h7]
    simp [prepareDense]
    field_simp
  · refine (hasDerivAt_horner _ _ (ht s'.x) (fun j => s'.rc j i)).congr_deriv ?_
    have : (s'.x - s.x) / s'.hdid = 1 := by rw [h2]; field_simp; ring
    rw [← h6]
    simp only [this, h7]
    simp [prepareDense]
    field_simp

end PyNLO.Ode
