import Verif.Model.SsfmCtrlFloat
import Verif.Lemmas.Double
import Verif.Props.SsfmCtrl
import Mathlib.Order.WellFounded
import Mathlib.Data.Prod.Lex

/-! # C170: the step-size control of the split-step solver in double precision -/

namespace PyNLO

open Ssfm Double

/-- C170: without rounding the model is that of C35 to C39. -/
theorem C170_model : (∀ c dz e, judgeF id c dz e = judge c dz e) ∧ (∀ c s e, ctrlBodyF id c s e = ctrlBody c s e) ∧
    ∀ c err dz deltaZ s l, CtrlReturnsF id c err dz deltaZ s l ↔ CtrlReturns c err dz deltaZ s l := by
  have hb : ∀ c s e, ctrlBodyF id c s e = ctrlBody c s e := fun c s e => rfl
  have hr : ∀ c err s k, ctrlRunF id c err s k = ctrlRun c err s k := by
    intro c err s k
    induction k with
    | zero => rfl
    | succ k ih =>
      unfold ctrlRunF ctrlRun
      rw [ih]
      rfl
  refine ⟨fun c dz e => rfl, hb, fun c err dz deltaZ s l => ?_⟩
  unfold CtrlReturnsF CtrlReturns
  simp only [hr]
  rfl

/-- The settings of the step control as floats: a minimum step, and a growth factor `2^(1/η)` with `η ≥ 1`. -/
structure Ssfm.Cfg.OkF (c : Cfg) : Prop where
  float : IsFloat c.dzMin
  factor_gt : 1 < c.factor
  factor_le : c.factor ≤ 2

/-- what an iteration does to the step -/
theorem judgeF_cases {c : Cfg} (hc : c.OkF) {dz : ℝ} (hf : IsFloat dz) (hdz : 2 ^ (-1000 : ℤ) ≤ dz) (e : Err) :
    (judgeF nearest c dz e = (false, dz / 2) ∧ c.dzMin ≤ dz / 2) ∨
    ∃ d, judgeF nearest c dz e = (true, d) ∧ IsFloat d ∧ (c.dzMin ≤ d ∨ dz ≤ d) ∧ d ≤ 2 * dz ∧ (e.gt (nearest (2 * c.localError)) → d = dz ∧ dz / 2 < c.dzMin) := by
  have hpos : 0 < dz := lt_of_lt_of_le (by positivity) hdz
  have hh : nearest (dz / 2) = dz / 2 := nearest_exact (hf.half (by rwa [abs_of_pos hpos]))
  unfold judgeF
  rw [hh]
  split_ifs with h1 h2 h3 h4 h5
  · exact Or.inl ⟨rfl, h2⟩
  · exact Or.inr ⟨dz, rfl, hf, Or.inr le_rfl, by linarith, fun _ => ⟨rfl, not_le.1 h2⟩⟩
  · refine Or.inr ⟨_, rfl, nearest_isFloat _, Or.inl h4, ?_, fun h => absurd h h1⟩
    have : dz / c.factor ≤ dz := div_le_self hpos.le hc.factor_gt.le
    have := nearest_mono this
    rw [nearest_exact hf] at this
    linarith
  · exact Or.inr ⟨dz, rfl, hf, Or.inr le_rfl, by linarith, fun h => absurd h h1⟩
  · exact Or.inr ⟨dz, rfl, hf, Or.inr le_rfl, by linarith, fun h => absurd h h1⟩
  · refine Or.inr ⟨_, rfl, nearest_isFloat _, Or.inr ?_, ?_, fun h => absurd h h1⟩
    · have : dz ≤ dz * c.factor := le_mul_of_one_le_right hpos.le hc.factor_gt.le
      have := nearest_mono this
      rwa [nearest_exact hf] at this
    · have : dz * c.factor ≤ 2 * dz := by rw [mul_comm]; exact mul_le_mul_of_nonneg_right hc.factor_le hpos.le
      have := nearest_mono this
      rwa [nearest_exact hf.twice] at this

/-- Loop invariant in double precision for a segment of the length `D`. -/
structure InvF (c : Cfg) (m D : ℝ) (s : Ctrl) : Prop where
  dz_float : IsFloat s.dz
  dist_float : IsFloat s.dist
  ret_float : ∀ r, s.ret = some r → IsFloat r ∧ m ≤ r ∧ r ≤ 2 * D
  lower : m ≤ s.dz
  upper : s.dz ≤ 2 * D ∧ (0 < s.dist → s.dz ≤ D)
  dist_le : s.dist ≤ D ∧ -(2 * D) ≤ s.dist
  fits : 2 * s.dz ≤ s.dist ∨ s.dist ≤ 2 * c.dzMin

/-- the distance left after an accepted step -/
theorem afterAcceptF_dist (c : Cfg) {s : Ctrl} (hf : IsFloat s.dz) (dz : ℝ) : (afterAcceptF nearest c s dz).dist = nearest (s.dist - 2 * s.dz) := by
  unfold afterAcceptF
  rw [nearest_exact hf.twice]
  simp only
  split_ifs <;> rfl

theorem ctrlBodyF_cases {c : Cfg} (hc : c.OkF) {s : Ctrl} (hf : IsFloat s.dz) (hdz : 2 ^ (-1000 : ℤ) ≤ s.dz) (e : Err) :
    (ctrlBodyF nearest c s e = (false, { s with dz := s.dz / 2 }) ∧ c.dzMin ≤ s.dz / 2) ∨
    ∃ d, ctrlBodyF nearest c s e = (true, afterAcceptF nearest c s d) ∧ IsFloat d ∧ (c.dzMin ≤ d ∨ s.dz ≤ d) ∧ d ≤ 2 * s.dz ∧
      (e.gt (nearest (2 * c.localError)) → d = s.dz ∧ s.dz / 2 < c.dzMin) := by
  unfold ctrlBodyF
  rcases judgeF_cases hc hf hdz e with ⟨h, h2⟩ | ⟨d, h, h2⟩ <;> rw [h]
  · exact Or.inl ⟨rfl, h2⟩
  · exact Or.inr ⟨d, rfl, h2⟩

/-- the invariant is kept by every iteration while there is distance left -/
theorem InvF.body {c : Cfg} (hc : c.OkF) {m D : ℝ} (hm0 : 2 ^ (-1000 : ℤ) ≤ m) (hm : m ≤ c.dzMin) {s : Ctrl} (h : InvF c m D s) (hs : 0 < s.dist)
    (e : Err) : InvF c m D (ctrlBodyF nearest c s e).2 := by
  have hdz := hm0.trans h.lower
  have hpos : 0 < s.dz := lt_of_lt_of_le (by positivity) hdz
  have hD : 0 < D := hs.trans_le h.dist_le.1
  rcases ctrlBodyF_cases hc h.dz_float hdz e with ⟨h1, h2⟩ | ⟨d, h1, h2, h3, h4, -⟩
  · rw [h1]
    have hu := h.upper.2 hs
    exact ⟨h.dz_float.half (by rwa [abs_of_pos hpos]), h.dist_float, h.ret_float, hm.trans h2, ⟨show s.dz / 2 ≤ 2 * D by linarith, fun _ => show s.dz / 2 ≤ D by linarith⟩,
      h.dist_le, h.fits.imp (fun hf => show 2 * (s.dz / 2) ≤ s.dist by linarith) id⟩
  · rw [h1]
    have hml : m ≤ d := h3.elim hm.trans h.lower.trans
    have hd2 : d ≤ 2 * D := by
      have := h.upper.2 hs
      linarith
    set x := nearest (s.dist - 2 * s.dz) with hx
    have hxf : IsFloat x := nearest_isFloat _
    have hxle : x ≤ s.dist := by
      have := nearest_mono (show s.dist - 2 * s.dz ≤ s.dist by linarith)
      rwa [nearest_exact h.dist_float] at this
    have hxge : -(2 * s.dz) ≤ x := by
      have hn : IsFloat (-(2 * s.dz)) := by
        obtain ⟨a, b, ha, hb, e⟩ := h.dz_float.twice
        exact ⟨-a, b, by rwa [abs_neg], hb, by rw [e]; push_cast; ring⟩
      have := nearest_mono (show -(2 * s.dz) ≤ s.dist - 2 * s.dz by linarith)
      rwa [nearest_exact hn] at this
    have hxx : x ≤ D ∧ -(2 * D) ≤ x := by
      have := h.upper.2 hs
      exact ⟨hxle.trans h.dist_le.1, by linarith⟩
    unfold afterAcceptF
    rw [nearest_exact h.dz_float.twice, ← hx, nearest_exact h2.twice, nearest_exact hc.float.twice]
    simp only
    split_ifs with hif
    · have hx0 : 0 < x := by
        have : 0 < m := lt_of_lt_of_le (by positivity) hm0
        linarith [hif.2]
      have hx1000 : 2 ^ (-1000 : ℤ) ≤ |x| := by
        rw [abs_of_pos hx0]
        have h0 : (0 : ℝ) < 2 ^ (-1000 : ℤ) := by positivity
        generalize (2 : ℝ) ^ (-1000 : ℤ) = c0 at *
        linarith [hif.2]
      have hxh := hxf.half hx1000
      rw [nearest_exact hxh]
      refine ⟨hxh, hxf, ?_, ?_, ⟨?_, fun _ => ?_⟩, hxx, Or.inl ?_⟩
      · intro r hr
        have hr' : d = r := by simpa using hr
        rw [← hr']
        exact ⟨h2, hml, hd2⟩
      · show m ≤ x / 2
        linarith [hif.2]
      · show x / 2 ≤ 2 * D
        linarith [hxx.1]
      · show x / 2 ≤ D
        linarith [hxx.1]
      · show 2 * (x / 2) ≤ x
        linarith
    · refine ⟨h2, hxf, h.ret_float, hml, ⟨hd2, fun hx0 => ?_⟩, hxx, ?_⟩
      · show d ≤ D
        have hx0 : 0 < x := hx0
        rcases le_or_gt (2 * s.dz) s.dist with hcase | hcase
        · linarith [h.dist_le.1]
        · exfalso
          have := nearest_mono (show s.dist - 2 * s.dz ≤ 0 by linarith)
          rw [nearest_zero, ← hx] at this
          linarith
      · show 2 * d ≤ x ∨ x ≤ 2 * c.dzMin
        by_contra hcon
        rw [not_or, not_le, not_le] at hcon
        exact hif ⟨hcon.1, hcon.2⟩

/-- the invariant holds on entry -/
theorem InvF.start {c : Cfg} {m dz D : ℝ} (hm0 : 2 ^ (-1000 : ℤ) ≤ m) (hm : m ≤ dz) (hf : IsFloat dz) (hD : IsFloat D) (hmD : 2 * m ≤ D) :
    InvF c m D (ctrlStartF nearest dz D) := by
  have h0 : (0 : ℝ) < 2 ^ (-1000 : ℤ) := by positivity
  have hm1 : 0 < m := h0.trans_le hm0
  have hD0 : 0 < D := by linarith
  have hDh : IsFloat (D / 2) := hD.half (by
    rw [abs_of_pos hD0]
    generalize (2 : ℝ) ^ (-1000 : ℤ) = c0 at *
    linarith)
  unfold ctrlStartF
  rw [nearest_exact hf.twice, nearest_exact hDh]
  split_ifs with h
  · exact ⟨hDh, hD, fun r hr => by simp at hr, show m ≤ D / 2 by linarith, ⟨show D / 2 ≤ 2 * D by linarith, fun _ => show D / 2 ≤ D by linarith⟩,
      ⟨le_rfl, show -(2 * D) ≤ D by linarith⟩, Or.inl (show 2 * (D / 2) ≤ D by linarith)⟩
  · have h := not_lt.1 h
    exact ⟨hf, hD, fun r hr => by simp at hr, hm, ⟨show dz ≤ 2 * D by linarith, fun _ => show dz ≤ D by linarith⟩,
      ⟨le_rfl, show -(2 * D) ≤ D by linarith⟩, Or.inl h⟩

theorem ctrlRunF_succ_pos {c : Cfg} {err : ℕ → Err} {s : Ctrl} {k : ℕ} (h : (ctrlRunF nearest c err s k).1.dist > 0) :
    ctrlRunF nearest c err s (k + 1) = ((ctrlBodyF nearest c (ctrlRunF nearest c err s k).1 (err k)).2,
      if (ctrlBodyF nearest c (ctrlRunF nearest c err s k).1 (err k)).1 then
        (ctrlRunF nearest c err s k).2 ++ [((ctrlRunF nearest c err s k).1.dz, err k)] else (ctrlRunF nearest c err s k).2) := by
  conv_lhs => unfold ctrlRunF
  simp only
  rw [if_pos h]

theorem ctrlRunF_succ_neg {c : Cfg} {err : ℕ → Err} {s : Ctrl} {k : ℕ} (h : ¬ (ctrlRunF nearest c err s k).1.dist > 0) :
    ctrlRunF nearest c err s (k + 1) = ctrlRunF nearest c err s k := by
  conv_lhs => unfold ctrlRunF
  simp only
  rw [if_neg h]

theorem InvF.run {c : Cfg} (hc : c.OkF) {m D : ℝ} (hm0 : 2 ^ (-1000 : ℤ) ≤ m) (hm : m ≤ c.dzMin) {s : Ctrl} (h : InvF c m D s) (err : ℕ → Err) (k : ℕ) :
    InvF c m D (ctrlRunF nearest c err s k).1 := by
  induction k with
  | zero => exact h
  | succ k ih =>
    by_cases hd : (ctrlRunF nearest c err s k).1.dist > 0
    · rw [ctrlRunF_succ_pos hd]
      exact ih.body hc hm0 hm hd _
    · rw [ctrlRunF_succ_neg hd]
      exact ih

/-- a float in units of the smallest one -/
theorem Double.IsFloat.units {x : ℝ} (h : IsFloat x) : ∃ k : ℤ, x = k * 2 ^ (-1074 : ℤ) := by
  rcases h.cases (-1074) le_rfl with h | ⟨h, -⟩
  · exact h
  · omega

/-- the number of smallest units in a float -/
noncomputable def units (x : ℝ) : ℕ := ⌊x / 2 ^ (-1074 : ℤ)⌋.toNat

theorem units_lt {x y : ℝ} (hx : IsFloat x) (hy : IsFloat y) (h : x < y) (hy0 : 0 < y) : units x < units y := by
  obtain ⟨a, rfl⟩ := hx.units
  obtain ⟨b, rfl⟩ := hy.units
  have hp : (0 : ℝ) < 2 ^ (-1074 : ℤ) := by positivity
  unfold units
  generalize (2 : ℝ) ^ (-1074 : ℤ) = q at *
  rw [mul_div_assoc, mul_div_assoc, div_self hp.ne', mul_one, mul_one, Int.floor_intCast, Int.floor_intCast]
  have h1 : (a : ℝ) < b := lt_of_mul_lt_mul_right h hp.le
  have h2 : (0 : ℝ) < b := by
    by_contra hc
    have := mul_nonpos_of_nonpos_of_nonneg (not_lt.1 hc) hp.le
    linarith
  have h1' : a < b := by exact_mod_cast h1
  have h2' : 0 < b := by exact_mod_cast h2
  omega

/-- one iteration makes progress in the lexicographic order of distance and step -/
theorem InvF.progress {c : Cfg} (hc : c.OkF) {m D : ℝ} (hm0 : 2 ^ (-1000 : ℤ) ≤ m) (hD : D < 2 ^ 54 * m) {s : Ctrl} (h : InvF c m D s) (hs : 0 < s.dist)
    (e : Err) : Prod.Lex (· < ·) (· < ·) (units (ctrlBodyF nearest c s e).2.dist, units (ctrlBodyF nearest c s e).2.dz) (units s.dist, units s.dz) := by
  have hdz := hm0.trans h.lower
  have hpos : 0 < s.dz := lt_of_lt_of_le (by positivity) hdz
  rcases ctrlBodyF_cases hc h.dz_float hdz e with ⟨h1, h2⟩ | ⟨d, h1, -⟩
  · rw [h1]
    exact Prod.Lex.right _ (units_lt (h.dz_float.half (by rwa [abs_of_pos hpos])) h.dz_float (by linarith) hpos)
  · rw [h1]
    refine Prod.Lex.left _ _ ?_
    show units (afterAcceptF nearest c s d).dist < units s.dist
    rw [afterAcceptF_dist c h.dz_float]
    refine units_lt (nearest_isFloat _) h.dist_float (sub_lt hs ?_ ?_) hs
    · generalize (2 : ℝ) ^ (-1000 : ℤ) = c0 at *
      linarith
    · have h1 : s.dist < 2 ^ 54 * s.dz := by
        have := h.lower
        have := h.dist_le.1
        have : (2 : ℝ) ^ 54 * m ≤ 2 ^ 54 * s.dz := by gcongr
        linarith
      calc s.dist * 2 ^ (-53 : ℤ) < 2 ^ 54 * s.dz * 2 ^ (-53 : ℤ) := by gcongr
        _ = 2 * s.dz := by
          rw [show (2 : ℝ) ^ (-53 : ℤ) = 1 / 2 ^ 53 by norm_num]
          ring

/-- C170: in double precision, a call with a length below `2^54` times the smaller one of stored step and minimum step returns, whatever the error estimates
are (infinite and NaN included). -/
theorem C170_returns {c : Cfg} (hc : c.OkF) {m dz D : ℝ} (hm0 : 2 ^ (-1000 : ℤ) ≤ m) (hm : m ≤ c.dzMin) (hmdz : m ≤ dz) (hf : IsFloat dz) (hDf : IsFloat D)
    (hmD : 2 * m ≤ D) (hD : D < 2 ^ 54 * m) (err : ℕ → Err) : ∃ s l, CtrlReturnsF nearest c err dz D s l := by
  by_contra hcon
  have hpos : ∀ k, 0 < (ctrlRunF nearest c err (ctrlStartF nearest dz D) k).1.dist := by
    intro k
    by_contra hk
    exact hcon ⟨_, _, k, rfl, hk⟩
  have wf : WellFounded (Prod.Lex (· < · : ℕ → ℕ → Prop) (· < · : ℕ → ℕ → Prop)) := WellFounded.prod_lex wellFounded_lt wellFounded_lt
  have : IsWellFounded (ℕ × ℕ) (Prod.Lex (· < ·) (· < ·)) := ⟨wf⟩
  obtain ⟨k, hk⟩ := WellFounded.not_rel_apply_succ (r := Prod.Lex (· < · : ℕ → ℕ → Prop) (· < · : ℕ → ℕ → Prop))
    (fun k => (units (ctrlRunF nearest c err (ctrlStartF nearest dz D) k).1.dist, units (ctrlRunF nearest c err (ctrlStartF nearest dz D) k).1.dz))
  refine hk ?_
  rw [ctrlRunF_succ_pos (hpos k)]
  exact ((InvF.start hm0 hmdz hf hDf hmD).run hc hm0 hm err k).progress hc hm0 hD (hpos k) (err k)

/-- C170: no value exceeds four times the length of the segment, so nothing overflows. -/
theorem C170_range {c : Cfg} (hc : c.OkF) {m dz D : ℝ} (hm0 : 2 ^ (-1000 : ℤ) ≤ m) (hm : m ≤ c.dzMin) (hmdz : m ≤ dz) (hf : IsFloat dz) (hDf : IsFloat D)
    (hmD : 2 * m ≤ D) (err : ℕ → Err) (k : ℕ) :
    let s := (ctrlRunF nearest c err (ctrlStartF nearest dz D) k).1
    (m ≤ s.dz ∧ nearest (2 * s.dz) ≤ 4 * D) ∧ |s.dist| ≤ 2 * D ∧ ∀ r, s.ret = some r → m ≤ r ∧ nearest (2 * r) ≤ 4 * D := by
  intro s
  have h : InvF c m D s := (InvF.start hm0 hmdz hf hDf hmD).run hc hm0 hm err k
  have hD0 : 0 < D := by
    have : (0 : ℝ) < 2 ^ (-1000 : ℤ) := by positivity
    linarith
  refine ⟨⟨h.lower, ?_⟩, abs_le.2 ⟨h.dist_le.2, by linarith [h.dist_le.1]⟩, fun r hr => ?_⟩
  · rw [nearest_exact h.dz_float.twice]
    linarith [h.upper.1]
  · obtain ⟨h1, h2, h3⟩ := h.ret_float r hr
    rw [nearest_exact h1.twice]
    exact ⟨h2, by linarith⟩

/-- the accepted steps and the distance that the loop believes to be left add up, apart from the rounding of the subtractions -/
theorem covered_runF {c : Cfg} (hc : c.OkF) {m D : ℝ} (hm0 : 2 ^ (-1000 : ℤ) ≤ m) (hm : m ≤ c.dzMin) {s : Ctrl} (h : InvF c m D s) (hs : s.dist = D)
    (hD : 2 ^ (-1000 : ℤ) ≤ D) (err : ℕ → Err) (k : ℕ) :
    |covered (ctrlRunF nearest c err s k).2 + (ctrlRunF nearest c err s k).1.dist - D| ≤ (ctrlRunF nearest c err s k).2.length * (D * 2 ^ (-52 : ℤ)) := by
  induction k with
  | zero => simp [ctrlRunF, covered, hs]
  | succ k ih =>
    by_cases hd : (ctrlRunF nearest c err s k).1.dist > 0
    · have hI := h.run hc hm0 hm err k
      rw [ctrlRunF_succ_pos hd]
      rcases ctrlBodyF_cases hc hI.dz_float (hm0.trans hI.lower) (err k) with ⟨h1, -⟩ | ⟨d, h1, -⟩
      · rw [h1]
        exact ih
      · rw [h1]
        show |covered ((ctrlRunF nearest c err s k).2 ++ [((ctrlRunF nearest c err s k).1.dz, err k)]) +
          (afterAcceptF nearest c (ctrlRunF nearest c err s k).1 d).dist - D| ≤
          ((ctrlRunF nearest c err s k).2 ++ [((ctrlRunF nearest c err s k).1.dz, err k)]).length * (D * 2 ^ (-52 : ℤ))
        rw [afterAcceptF_dist c hI.dz_float]
        have hl : covered ((ctrlRunF nearest c err s k).2 ++ [((ctrlRunF nearest c err s k).1.dz, err k)]) =
            covered (ctrlRunF nearest c err s k).2 + 2 * (ctrlRunF nearest c err s k).1.dz := by
          simp [covered]
        rw [hl, List.length_append, List.length_singleton, Nat.cast_add, Nat.cast_one, add_mul, one_mul]
        generalize (ctrlRunF nearest c err s k) = q at *
        have hu := hI.upper.2 hd
        have hlow := hI.lower
        have hmpos : 0 < m := lt_of_lt_of_le (by positivity) hm0
        have hn := nearest_near (x := q.1.dist - 2 * q.1.dz) (D := 2 * D) (abs_le.2 ⟨by linarith, by linarith [hI.dist_le.1]⟩) (by linarith)
        have e : 2 * D * (2 : ℝ) ^ (-53 : ℤ) = D * 2 ^ (-52 : ℤ) := by
          rw [show (2 : ℝ) ^ (-52 : ℤ) = 2 * 2 ^ (-53 : ℤ) by norm_num]; ring
        rw [e] at hn
        have e2 : covered q.2 + 2 * q.1.dz + nearest (q.1.dist - 2 * q.1.dz) - D =
            (covered q.2 + q.1.dist - D) + (nearest (q.1.dist - 2 * q.1.dz) - (q.1.dist - 2 * q.1.dz)) := by ring
        rw [e2]
        exact (abs_add_le _ _).trans (add_le_add ih hn)
    · rw [ctrlRunF_succ_neg hd]
      exact ih

/-- C170: the accepted steps cover the length that was asked for, up to the rounding of one subtraction per step; unless a remainder of at most twice the
minimum step is left, they do not cover more either. -/
theorem C170_distance {c : Cfg} (hc : c.OkF) {m dz D : ℝ} (hm0 : 2 ^ (-1000 : ℤ) ≤ m) (hm : m ≤ c.dzMin) (hmdz : m ≤ dz) (hf : IsFloat dz) (hDf : IsFloat D)
    (hmD : 2 * m ≤ D) {err : ℕ → Err} {s : Ctrl} {l : List (ℝ × Err)} (h : CtrlReturnsF nearest c err dz D s l) :
    D - l.length * (D * 2 ^ (-52 : ℤ)) ≤ covered l ∧
    ((∀ k, (ctrlRunF nearest c err (ctrlStartF nearest dz D) k).1.dist ≤ 0 ∨
        2 * c.dzMin < (ctrlRunF nearest c err (ctrlStartF nearest dz D) k).1.dist) →
      s.dist = 0 ∧ |covered l - D| ≤ l.length * (D * 2 ^ (-52 : ℤ))) := by
  obtain ⟨k, hk, hs⟩ := h
  have hI := InvF.start (c := c) hm0 hmdz hf hDf hmD
  have hmpos : 0 < m := lt_of_lt_of_le (by positivity) hm0
  have hcov := covered_runF hc hm0 hm hI rfl (by linarith) err k
  rw [hk] at hcov
  simp only at hcov
  have hs := not_lt.1 hs
  refine ⟨by linarith [(abs_le.1 hcov).1], fun hrem => ?_⟩
  have hnn : ∀ j, 0 ≤ (ctrlRunF nearest c err (ctrlStartF nearest dz D) j).1.dist := by
    intro j
    induction j with
    | zero => exact (show (0 : ℝ) ≤ D by linarith)
    | succ j ih =>
      by_cases hd : (ctrlRunF nearest c err (ctrlStartF nearest dz D) j).1.dist > 0
      · have hIj := hI.run hc hm0 hm err j
        rw [ctrlRunF_succ_pos hd]
        rcases ctrlBodyF_cases hc hIj.dz_float (hm0.trans hIj.lower) (err j) with ⟨h1, -⟩ | ⟨d, h1, -⟩
        · rw [h1]
          exact ih
        · rw [h1]
          show 0 ≤ (afterAcceptF nearest c _ d).dist
          rw [afterAcceptF_dist c hIj.dz_float]
          have hfit : 2 * (ctrlRunF nearest c err (ctrlStartF nearest dz D) j).1.dz ≤ (ctrlRunF nearest c err (ctrlStartF nearest dz D) j).1.dist := by
            rcases hIj.fits with h2 | h2
            · exact h2
            · rcases hrem j with h3 | h3 <;> linarith
          have := nearest_mono (sub_nonneg.2 hfit)
          rwa [nearest_zero] at this
      · rw [ctrlRunF_succ_neg hd]
        exact ih
  have h0 : s.dist = 0 := by
    have := hnn k
    rw [hk] at this
    exact le_antisymm hs this
  rw [h0, add_zero] at hcov
  exact ⟨h0, hcov⟩

/-- a history of calls in double precision, each with its own length and error stream, from the stored step `dz` to the stored step `dz'` -/
inductive CallsF (c : Cfg) : ℝ → List (ℝ × (ℕ → Err)) → ℝ → Prop
  | nil (dz : ℝ) : CallsF c dz [] dz
  | cons {dz dz' D : ℝ} {err : ℕ → Err} {hist : List (ℝ × (ℕ → Err))} {s : Ctrl} {l : List (ℝ × Err)}
      (h : CtrlReturnsF nearest c err dz D s l) (t : CallsF c (ctrlExit s) hist dz') : CallsF c dz ((D, err) :: hist) dz'

/-- the stored step on exit -/
theorem exitF {c : Cfg} (hc : c.OkF) {m dz D : ℝ} (hm0 : 2 ^ (-1000 : ℤ) ≤ m) (hm : m ≤ c.dzMin) (hmdz : m ≤ dz) (hf : IsFloat dz) (hDf : IsFloat D)
    (hmD : 2 * m ≤ D) {err : ℕ → Err} {s : Ctrl} {l : List (ℝ × Err)} (h : CtrlReturnsF nearest c err dz D s l) : IsFloat (ctrlExit s) ∧ m ≤ ctrlExit s := by
  obtain ⟨k, hk, -⟩ := h
  have hI := (InvF.start (c := c) hm0 hmdz hf hDf hmD).run hc hm0 hm err k
  rw [hk] at hI
  unfold ctrlExit
  cases hr : s.ret with
  | none => exact ⟨hI.dz_float, hI.lower⟩
  | some r => exact ⟨(hI.ret_float r hr).1, (hI.ret_float r hr).2.1⟩

/-- C170: after any history of calls with lengths from `2·m` to `2^54·m` the stored step is still at least `m`, and the next call of such a length returns. -/
theorem C170_history {c : Cfg} (hc : c.OkF) {m : ℝ} (hm0 : 2 ^ (-1000 : ℤ) ≤ m) (hm : m ≤ c.dzMin) {dz dz' : ℝ} (hmdz : m ≤ dz) (hf : IsFloat dz)
    {hist : List (ℝ × (ℕ → Err))} (hlen : ∀ x ∈ hist, IsFloat x.1 ∧ 2 * m ≤ x.1 ∧ x.1 < 2 ^ 54 * m) (h : CallsF c dz hist dz') :
    m ≤ dz' ∧ IsFloat dz' ∧ ∀ (D : ℝ) (err : ℕ → Err), IsFloat D → 2 * m ≤ D → D < 2 ^ 54 * m → ∃ s l, CtrlReturnsF nearest c err dz' D s l := by
  suffices hs : m ≤ dz' ∧ IsFloat dz' from
    ⟨hs.1, hs.2, fun D err h1 h2 h3 => C170_returns hc hm0 hm hs.1 hs.2 h1 h2 h3 err⟩
  induction h with
  | nil dz => exact ⟨hmdz, hf⟩
  | cons h1 t ih =>
    have hx := hlen _ (List.mem_cons_self ..)
    have he := exitF hc hm0 hm hmdz hf hx.1 hx.2.1 h1
    exact ih he.2 he.1 fun x hx => hlen x (List.mem_cons_of_mem _ hx)

/-- C170: the limit is a real one. With a length of `2^57` times the minimum step or more, and an error estimate that stays above twice the tolerance, the call
never returns: the accepted steps are too small to change the distance that is left. -/
theorem C170_stuck {c : Cfg} (hc : c.OkF) {dz D : ℝ} (hm0 : 2 ^ (-1000 : ℤ) ≤ c.dzMin) (hdz : 2 ^ (-1000 : ℤ) ≤ dz) (hf : IsFloat dz) (hDf : IsFloat D)
    (hD : 2 ^ 57 * c.dzMin ≤ D) {err : ℕ → Err} (herr : ∀ k, (err k).gt (nearest (2 * c.localError))) :
    (∀ k, (ctrlRunF nearest c err (ctrlStartF nearest dz D) k).1.dist = D) ∧ ¬ ∃ s l, CtrlReturnsF nearest c err dz D s l := by
  have h0 : (0 : ℝ) < 2 ^ (-1000 : ℤ) := by positivity
  have hmpos : 0 < c.dzMin := h0.trans_le hm0
  have hD0 : 0 < D := by linarith
  have hinv : ∀ k, (ctrlRunF nearest c err (ctrlStartF nearest dz D) k).1.dist = D ∧ IsFloat (ctrlRunF nearest c err (ctrlStartF nearest dz D) k).1.dz ∧
      2 ^ (-1000 : ℤ) ≤ (ctrlRunF nearest c err (ctrlStartF nearest dz D) k).1.dz := by
    intro k
    induction k with
    | zero =>
      have hh : 2 ^ (-1000 : ℤ) ≤ D / 2 := by
        generalize (2 : ℝ) ^ (-1000 : ℤ) = c0 at *
        linarith
      have hDh : IsFloat (D / 2) := hDf.half (by
        rw [abs_of_pos hD0]
        generalize (2 : ℝ) ^ (-1000 : ℤ) = c0 at *
        linarith)
      show (ctrlStartF nearest dz D).dist = D ∧ IsFloat (ctrlStartF nearest dz D).dz ∧ 2 ^ (-1000 : ℤ) ≤ (ctrlStartF nearest dz D).dz
      refine ⟨rfl, ?_⟩
      unfold ctrlStartF
      rw [nearest_exact hDh]
      simp only
      split_ifs
      · exact ⟨hDh, hh⟩
      · exact ⟨hf, hdz⟩
    | succ k ih =>
      obtain ⟨i1, i2, i3⟩ := ih
      rw [ctrlRunF_succ_pos (by rw [i1]; exact hD0)]
      generalize (ctrlRunF nearest c err (ctrlStartF nearest dz D) k).1 = s at *
      have hpos : 0 < s.dz := h0.trans_le i3
      rcases ctrlBodyF_cases hc i2 i3 (err k) with ⟨h1, h2⟩ | ⟨d, h1, -, -, -, h2⟩
      · rw [h1]
        exact ⟨i1, i2.half (by rwa [abs_of_pos hpos]), hm0.trans h2⟩
      · rw [h1]
        obtain ⟨rfl, h3⟩ := h2 (herr k)
        have hkeep : nearest (D - 2 * s.dz) = D := by
          refine sub_same hDf (by linarith) ?_
          have : D * (2 : ℝ) ^ (-55 : ℤ) ≥ 2 ^ 57 * c.dzMin * 2 ^ (-55 : ℤ) := by gcongr
          have e : (2 : ℝ) ^ 57 * c.dzMin * 2 ^ (-55 : ℤ) = 4 * c.dzMin := by
            rw [show (2 : ℝ) ^ (-55 : ℤ) = 1 / 2 ^ 55 by norm_num]; ring
          rw [e] at this
          refine le_trans ?_ this
          linarith
        have hd : (afterAcceptF nearest c s s.dz).dist = D := by rw [afterAcceptF_dist c i2, i1, hkeep]
        have hz : (afterAcceptF nearest c s s.dz).dz = s.dz := by
          unfold afterAcceptF
          rw [nearest_exact i2.twice, i1, hkeep]
          simp only
          rw [if_neg]
          rintro ⟨h4, -⟩
          linarith
        show (afterAcceptF nearest c s s.dz).dist = D ∧ IsFloat (afterAcceptF nearest c s s.dz).dz ∧ _ ≤ (afterAcceptF nearest c s s.dz).dz
        rw [hd, hz]
        exact ⟨rfl, i2, i3⟩
  refine ⟨fun k => (hinv k).1, ?_⟩
  rintro ⟨s, l, k, hk, hs⟩
  have := (hinv k).1
  rw [hk] at this
  simp only at this
  rw [this] at hs
  exact hs hD0

/-- the settings of a solver with default arguments, as floats -/
noncomputable def defaultCfgF : Cfg := ⟨nearest 0.001, nearest (10 ^ (-12 : ℤ)), nearest (2 ^ (1 / (5 : ℝ)))⟩

theorem defaultCfgF_ok : defaultCfgF.OkF := by
  refine ⟨nearest_isFloat _, ?_, ?_⟩
  · have h1 : IsFloat (1 + 1 / 1024) := ⟨1025, -10, by norm_num, by norm_num, by norm_num⟩
    have h2 : (1 + 1 / 1024 : ℝ) ≤ 2 ^ (1 / (5 : ℝ)) := by
      refine le_of_pow_le_pow_left₀ (n := 5) (by norm_num) (by positivity) ?_
      rw [← Real.rpow_natCast, ← Real.rpow_natCast, ← Real.rpow_mul (by norm_num)]
      norm_num
    have h3 := nearest_mono h2
    rw [nearest_exact h1] at h3
    show 1 < nearest (2 ^ (1 / (5 : ℝ)))
    linarith
  · have h1 : IsFloat 2 := ⟨1, 1, by norm_num, by norm_num, by norm_num⟩
    have h2 : (2 : ℝ) ^ (1 / (5 : ℝ)) ≤ 2 := by
      calc (2 : ℝ) ^ (1 / (5 : ℝ)) ≤ 2 ^ (1 : ℝ) := Real.rpow_le_rpow_of_exponent_le (by norm_num) (by norm_num)
        _ = 2 := Real.rpow_one _
    have h3 := nearest_mono h2
    rwa [nearest_exact h1] at h3

/-- C170 applies: with default settings every call for up to 16 kilometres returns, and a call for 262 kilometres does not if the estimates stay above the tolerance. -/
theorem C170_nonvacuous : (∀ D, IsFloat D → 2 * 10 ^ (-11 : ℤ) ≤ D → D ≤ 2 ^ 14 → ∀ err, ∃ s l, CtrlReturnsF nearest defaultCfgF err (nearest 1e-5) D s l) ∧
    ¬ ∃ s l, CtrlReturnsF nearest defaultCfgF (fun _ => .inf) (nearest 1e-5) (2 ^ 18) s l := by
  have lo : (2 : ℝ) ^ (-40 : ℤ) < defaultCfgF.dzMin := by
    have h1 : IsFloat (2 ^ (-40 : ℤ) + 2 ^ (-60 : ℤ)) := ⟨2 ^ 20 + 1, -60, by norm_num, by norm_num, by norm_num⟩
    have := nearest_mono (show (2 : ℝ) ^ (-40 : ℤ) + 2 ^ (-60 : ℤ) ≤ 10 ^ (-12 : ℤ) by norm_num)
    rw [nearest_exact h1] at this
    exact lt_of_lt_of_le (by norm_num) this
  have up : defaultCfgF.dzMin ≤ 2 ^ (-39 : ℤ) := by
    have h1 : IsFloat ((2 : ℝ) ^ (-39 : ℤ)) := ⟨1, -39, by norm_num, by norm_num, by norm_num⟩
    have := nearest_mono (show (10 : ℝ) ^ (-12 : ℤ) ≤ 2 ^ (-39 : ℤ) by norm_num)
    rwa [nearest_exact h1] at this
  have hdz : defaultCfgF.dzMin ≤ nearest 1e-5 := nearest_mono (by norm_num)
  have h1000 : (2 : ℝ) ^ (-1000 : ℤ) ≤ defaultCfgF.dzMin :=
    (zpow_le_zpow_right₀ (by norm_num) (by norm_num : (-1000 : ℤ) ≤ -40)).trans lo.le
  constructor
  · intro D hD h1 h2 err
    refine C170_returns defaultCfgF_ok h1000 le_rfl hdz (nearest_isFloat _) hD ?_ ?_ err
    · refine le_trans ?_ h1
      have : (2 : ℝ) ^ (-39 : ℤ) ≤ 10 ^ (-11 : ℤ) := by norm_num
      linarith
    · refine h2.trans_lt ?_
      calc (2 : ℝ) ^ 14 = 2 ^ 54 * 2 ^ (-40 : ℤ) := by norm_num
        _ < _ := by gcongr
  · refine (C170_stuck defaultCfgF_ok h1000 (h1000.trans hdz) (nearest_isFloat _) ⟨1, 18, by norm_num, by norm_num, by norm_num⟩ ?_ (err := fun _ => .inf) fun k => trivial).2
    calc (2 : ℝ) ^ 57 * defaultCfgF.dzMin ≤ 2 ^ 57 * 2 ^ (-39 : ℤ) := by gcongr
      _ = 2 ^ 18 := by norm_num

end PyNLO
