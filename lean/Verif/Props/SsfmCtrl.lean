import Verif.Model.SsfmCtrl
import Mathlib.Tactic.Linarith
import Mathlib.Tactic.FieldSimp
import Mathlib.Tactic.Ring
import Mathlib.Tactic.NormNum
import Mathlib.Analysis.SpecificLimits.Basic

/-! # C35–C39: adaptive step-size control of the split-step solver -/

namespace PyNLO

open Ssfm

/-- the configuration is sane: positive minimum step, growth factor above one -/
structure Ssfm.Cfg.Ok (c : Cfg) : Prop where
  min_pos : 0 < c.dzMin
  factor_gt : 1 < c.factor

/-- `factor = 2**(1/eta)` is above one for every positive `eta`; in particular for the default 5. -/
theorem factor_gt_one {eta : ℝ} (h : 0 < eta) : 1 < (2 : ℝ) ^ (1 / eta) :=
  Real.one_lt_rpow (by norm_num) (by positivity)

/-- the default configuration -/
noncomputable def defaultCfg : Cfg := ⟨0.001, 10 ^ (-12 : ℤ), 2 ^ (1 / (5 : ℝ))⟩

theorem defaultCfg_ok : defaultCfg.Ok :=
  ⟨by unfold defaultCfg; norm_num, factor_gt_one (by norm_num)⟩

/-! ## lemmas about one iteration -/

theorem judge_cases (c : Cfg) (dz : ℝ) (e : Err) :
    (judge c dz e = (false, dz / 2) ∧ c.dzMin ≤ dz / 2 ∧ e.gt (2 * c.localError)) ∨
    (judge c dz e = (true, dz) ∧ (e.gt (2 * c.localError) → dz / 2 < c.dzMin)) ∨
    (judge c dz e = (true, dz / c.factor) ∧ c.dzMin ≤ dz / c.factor ∧ ¬ e.gt (2 * c.localError)) ∨
    (judge c dz e = (true, dz * c.factor) ∧ ¬ e.gt (2 * c.localError)) := by
  unfold judge
  split_ifs with h1 h2 h3 h4 h5
  · exact Or.inl ⟨rfl, h2, h1⟩
  · exact Or.inr (Or.inl ⟨rfl, fun _ => not_le.mp h2⟩)
  · exact Or.inr (Or.inr (Or.inl ⟨rfl, h4, h1⟩))
  · exact Or.inr (Or.inl ⟨rfl, fun h => absurd h h1⟩)
  · exact Or.inr (Or.inl ⟨rfl, fun h => absurd h h1⟩)
  · exact Or.inr (Or.inr (Or.inr ⟨rfl, h1⟩))

/-- after any verdict the new step is at least `min dz dzMin` -/
theorem judge_lower {c : Cfg} (hc : c.Ok) {m dz : ℝ} (hm : m ≤ c.dzMin) (hm0 : 0 < m) (hdz : m ≤ dz) (e : Err) :
    m ≤ (judge c dz e).2 := by
  rcases judge_cases c dz e with ⟨h, h2, -⟩ | ⟨h, -⟩ | ⟨h, h2, -⟩ | ⟨h, -⟩ <;> rw [h]
  · exact hm.trans h2
  · exact hdz
  · exact hm.trans h2
  · have h1 := hc.factor_gt
    simp only
    nlinarith

/-- Loop invariant: steps are bounded below, the stored step to return is positive, and either the next step fits
into the remaining distance or that distance is at most twice the minimum step. -/
structure Inv (c : Cfg) (m : ℝ) (s : Ctrl) : Prop where
  lower : m ≤ s.dz
  ret : ∀ r, s.ret = some r → m ≤ r
  fits : 2 * s.dz ≤ s.dist ∨ s.dist ≤ 2 * c.dzMin

theorem ctrlBody_cases (c : Cfg) (s : Ctrl) (e : Err) :
    (ctrlBody c s e = (false, { s with dz := s.dz / 2 }) ∧ c.dzMin ≤ s.dz / 2) ∨
    (∃ dz, judge c s.dz e = (true, dz) ∧ ctrlBody c s e = (true, afterAccept c s dz) ∧
      (e.gt (2 * c.localError) → s.dz / 2 < c.dzMin)) := by
  unfold ctrlBody
  rcases judge_cases c s.dz e with ⟨h, h2, -⟩ | ⟨h, h2⟩ | ⟨h, h2, h3⟩ | ⟨h, h3⟩ <;> rw [h]
  · exact Or.inl ⟨rfl, h2⟩
  · exact Or.inr ⟨_, rfl, rfl, h2⟩
  · exact Or.inr ⟨_, rfl, rfl, fun h => absurd h h3⟩
  · exact Or.inr ⟨_, rfl, rfl, fun h => absurd h h3⟩

theorem afterAccept_dist (c : Cfg) (s : Ctrl) (dz : ℝ) : (afterAccept c s dz).dist = s.dist - 2 * s.dz := by
  unfold afterAccept
  simp only
  split_ifs <;> rfl

theorem Inv.body {c : Cfg} (hc : c.Ok) {m : ℝ} (hm : m ≤ c.dzMin) (hm0 : 0 < m) {s : Ctrl} (h : Inv c m s)
    (e : Err) : Inv c m (ctrlBody c s e).2 := by
  rcases ctrlBody_cases c s e with ⟨h1, h2⟩ | ⟨dz, hj, h1, -⟩
  · rw [h1]
    refine ⟨hm.trans h2, h.ret, ?_⟩
    rcases h.fits with hf | hf
    · left
      have := h.lower
      show 2 * (s.dz / 2) ≤ s.dist
      linarith
    · right; exact hf
  · rw [h1]
    have hl := judge_lower hc hm hm0 h.lower e
    rw [hj] at hl
    simp only at hl
    unfold afterAccept
    simp only
    split_ifs with h2
    · refine ⟨?_, ?_, ?_⟩
      · show m ≤ (s.dist - 2 * s.dz) / 2
        linarith [h2.2]
      · intro r hr
        have : dz = r := by simpa using hr
        rw [← this]; exact hl
      · left
        show 2 * ((s.dist - 2 * s.dz) / 2) ≤ s.dist - 2 * s.dz
        linarith
    · refine ⟨hl, h.ret, ?_⟩
      show 2 * dz ≤ s.dist - 2 * s.dz ∨ s.dist - 2 * s.dz ≤ 2 * c.dzMin
      by_contra hcon
      rw [not_or, not_le, not_le] at hcon
      exact h2 ⟨hcon.1, hcon.2⟩

theorem Inv.start {c : Cfg} {dz deltaZ : ℝ} (hdz : 0 < dz) (hd : 0 < deltaZ) (hc : c.Ok) :
    ∃ m, 0 < m ∧ m ≤ c.dzMin ∧ Inv c m (ctrlStart dz deltaZ) := by
  have hmin := hc.min_pos
  have hpos : 0 < (ctrlStart dz deltaZ).dz := by
    unfold ctrlStart
    simp only
    split_ifs <;> linarith
  refine ⟨min c.dzMin (ctrlStart dz deltaZ).dz, lt_min hmin hpos, min_le_left _ _, ⟨min_le_right _ _, ?_, ?_⟩⟩
  · intro r hr
    simp [ctrlStart] at hr
  · left
    unfold ctrlStart
    simp only
    split_ifs with h <;> linarith

theorem ctrlRun_zero (c : Cfg) (err : ℕ → Err) (s : Ctrl) : ctrlRun c err s 0 = (s, []) := rfl

theorem ctrlRun_succ_pos {c : Cfg} {err : ℕ → Err} {s : Ctrl} {k : ℕ} (h : (ctrlRun c err s k).1.dist > 0) :
    ctrlRun c err s (k + 1) = ((ctrlBody c (ctrlRun c err s k).1 (err k)).2,
      if (ctrlBody c (ctrlRun c err s k).1 (err k)).1 then
        (ctrlRun c err s k).2 ++ [((ctrlRun c err s k).1.dz, err k)] else (ctrlRun c err s k).2) := by
  conv_lhs => unfold ctrlRun
  simp only
  rw [if_pos h]

theorem ctrlRun_succ_neg {c : Cfg} {err : ℕ → Err} {s : Ctrl} {k : ℕ} (h : ¬ (ctrlRun c err s k).1.dist > 0) :
    ctrlRun c err s (k + 1) = ctrlRun c err s k := by
  conv_lhs => unfold ctrlRun
  simp only
  rw [if_neg h]

theorem Inv.run {c : Cfg} (hc : c.Ok) {m : ℝ} (hm : m ≤ c.dzMin) (hm0 : 0 < m) {s : Ctrl} (h : Inv c m s)
    (err : ℕ → Err) (k : ℕ) : Inv c m (ctrlRun c err s k).1 := by
  induction k with
  | zero => exact h
  | succ k ih =>
    by_cases hd : (ctrlRun c err s k).1.dist > 0
    · rw [ctrlRun_succ_pos hd]
      exact Inv.body hc hm hm0 ih (err k)
    · rw [ctrlRun_succ_neg hd]
      exact ih

/-! ## C35 -/

theorem eventually_accept {c : Cfg} (hc : c.Ok) {err : ℕ → Err} {s : Ctrl}
    (hpos : ∀ k, (ctrlRun c err s k).1.dist > 0) (k : ℕ) :
    ∃ j, k ≤ j ∧ (ctrlRun c err s (j + 1)).1.dist = (ctrlRun c err s j).1.dist - 2 * (ctrlRun c err s j).1.dz ∧
      (ctrlRun c err s j).1.dist = (ctrlRun c err s k).1.dist := by
  by_contra hno
  have hno' : ∀ j, k ≤ j → (ctrlRun c err s j).1.dist = (ctrlRun c err s k).1.dist →
      (ctrlRun c err s (j + 1)).1.dist ≠ (ctrlRun c err s j).1.dist - 2 * (ctrlRun c err s j).1.dz := by
    intro j hj hd he
    exact hno ⟨j, hj, he, hd⟩
  -- from k on, every step is a rejection
  have step : ∀ i, (ctrlRun c err s (k + i)).1.dist = (ctrlRun c err s k).1.dist ∧
      (ctrlRun c err s (k + i)).1.dz = (ctrlRun c err s k).1.dz / 2 ^ i ∧
      (0 < i → c.dzMin ≤ (ctrlRun c err s (k + i)).1.dz) := by
    intro i
    induction i with
    | zero => exact ⟨rfl, by simp, by simp⟩
    | succ i ih =>
      obtain ⟨h1, h2, -⟩ := ih
      have hstep : (ctrlRun c err s (k + (i + 1))).1 = (ctrlBody c (ctrlRun c err s (k + i)).1 (err (k + i))).2 := by
        rw [← add_assoc]
        conv_lhs => unfold ctrlRun
        simp only
        rw [if_pos (hpos (k + i))]
      rcases ctrlBody_cases c (ctrlRun c err s (k + i)).1 (err (k + i)) with ⟨h3, h4⟩ | ⟨dz, -, h3, -⟩
      · rw [hstep, h3]
        refine ⟨h1, ?_, fun _ => h4⟩
        show (ctrlRun c err s (k + i)).1.dz / 2 = _
        rw [h2, pow_succ, div_div]
      · exfalso
        apply hno' (k + i) (by omega) h1
        have : (ctrlRun c err s (k + i + 1)).1 = afterAccept c (ctrlRun c err s (k + i)).1 dz := by
          rw [add_assoc, hstep, h3]
        rw [this, afterAccept_dist]
  set d := (ctrlRun c err s k).1.dz with hd
  have hmin := hc.min_pos
  obtain ⟨i, hi⟩ := exists_pow_lt_of_lt_one (show (0 : ℝ) < c.dzMin / (|d| + 1) by positivity)
    (show (1 / 2 : ℝ) < 1 by norm_num)
  have hs := step (i + 1)
  have h3 := hs.2.2 (by omega)
  rw [hs.2.1] at h3
  have h4 : (1 / 2 : ℝ) ^ i * (|d| + 1) < c.dzMin := by
    rwa [lt_div_iff₀ (by positivity)] at hi
  have h5 : d / 2 ^ (i + 1) ≤ (1 / 2 : ℝ) ^ i * (|d| + 1) := by
    have h6 : (1 / 2 : ℝ) ^ i = 1 / 2 ^ i := by rw [div_pow, one_pow]
    have h7 : (0 : ℝ) < 2 ^ i := by positivity
    rw [h6, pow_succ, div_le_iff₀ (by positivity)]
    have h8 : 1 / 2 ^ i * (|d| + 1) * (2 ^ i * 2) = 2 * (|d| + 1) := by field_simp
    rw [h8]
    have := le_abs_self d
    have := abs_nonneg d
    linarith
  linarith

/-- C35: for positive stored step and minimum step, every length (also zero or negative) and every stream of local
errors, the call returns. -/
theorem C35_terminates {c : Cfg} (hc : c.Ok) {dz : ℝ} (hdz : 0 < dz) (deltaZ : ℝ) (err : ℕ → Err) :
    ∃ s' l, CtrlReturns c err dz deltaZ s' l := by
  by_contra hno
  have hpos : ∀ k, (ctrlRun c err (ctrlStart dz deltaZ) k).1.dist > 0 := by
    intro k
    by_contra hd
    exact hno ⟨_, _, k, rfl, hd⟩
  have hd0 : 0 < deltaZ := hpos 0
  obtain ⟨m, hm0, hm, hinv⟩ := Inv.start hdz hd0 hc
  have dec : ∀ K : ℕ, ∃ k, (ctrlRun c err (ctrlStart dz deltaZ) k).1.dist ≤ deltaZ - 2 * m * K := by
    intro K
    induction K with
    | zero => exact ⟨0, by simp [ctrlRun, ctrlStart]⟩
    | succ K ih =>
      obtain ⟨k, hk⟩ := ih
      obtain ⟨j, -, h1, h2⟩ := eventually_accept hc hpos k
      refine ⟨j + 1, ?_⟩
      have := (hinv.run hc hm hm0 err j).lower
      push_cast
      rw [h1, h2]
      linarith
  obtain ⟨K, hK⟩ := exists_nat_gt (deltaZ / (2 * m))
  obtain ⟨k, hk⟩ := dec K
  have h1 := hpos k
  rw [div_lt_iff₀ (by positivity)] at hK
  linarith

theorem C35_nonvacuous : defaultCfg.Ok ∧ (0 : ℝ) < 1e-5 := ⟨defaultCfg_ok, by norm_num⟩

/-- the result does not depend on how long the finished loop is watched -/
theorem ctrlRun_stable {c : Cfg} {err : ℕ → Err} {s : Ctrl} {k : ℕ} (h : ¬ (ctrlRun c err s k).1.dist > 0) (j : ℕ) :
    ctrlRun c err s (k + j) = ctrlRun c err s k := by
  induction j with
  | zero => rfl
  | succ j ih =>
    rw [← add_assoc]
    conv_lhs => unfold ctrlRun
    simp only
    rw [ih, if_neg h]

theorem CtrlReturns.unique {c : Cfg} {err : ℕ → Err} {dz deltaZ : ℝ} {s1 s2 : Ctrl} {l1 l2 : List (ℝ × Err)}
    (h1 : CtrlReturns c err dz deltaZ s1 l1) (h2 : CtrlReturns c err dz deltaZ s2 l2) : s1 = s2 ∧ l1 = l2 := by
  obtain ⟨k1, e1, d1⟩ := h1
  obtain ⟨k2, e2, d2⟩ := h2
  have q1 := ctrlRun_stable (c := c) (err := err) (s := ctrlStart dz deltaZ) (k := k1) (by rw [e1]; exact d1) k2
  have q2 := ctrlRun_stable (c := c) (err := err) (s := ctrlStart dz deltaZ) (k := k2) (by rw [e2]; exact d2) k1
  rw [add_comm, q2, e1, e2] at q1
  exact ⟨(Prod.mk.inj q1).1.symm, (Prod.mk.inj q1).2.symm⟩

/-! ## C36 -/

/-- a history of calls with positive lengths, each with its own error stream; `Calls c dz hist dz'`: starting
from stored step `dz` all calls return and leave the stored step `dz'` -/
inductive Calls (c : Cfg) : ℝ → List (ℝ × (ℕ → Err)) → ℝ → Prop
  | nil (dz : ℝ) : Calls c dz [] dz
  | cons {dz deltaZ : ℝ} {err : ℕ → Err} {s : Ctrl} {l : List (ℝ × Err)} {hist : List (ℝ × (ℕ → Err))} {dz' : ℝ}
      (h : CtrlReturns c err dz deltaZ s l) (t : Calls c (ctrlExit s) hist dz') : Calls c dz ((deltaZ, err) :: hist) dz'

theorem exit_pos {c : Cfg} (hc : c.Ok) {dz deltaZ : ℝ} (hdz : 0 < dz) (hd : 0 < deltaZ) {err : ℕ → Err} {s : Ctrl}
    {l : List (ℝ × Err)} (h : CtrlReturns c err dz deltaZ s l) : 0 < ctrlExit s := by
  obtain ⟨k, hk, -⟩ := h
  obtain ⟨m, hm0, hm, hinv⟩ := Inv.start hdz hd hc
  have := hinv.run hc hm hm0 err k
  rw [hk] at this
  unfold ctrlExit
  cases hr : s.ret with
  | none => exact lt_of_lt_of_le hm0 this.lower
  | some r => exact lt_of_lt_of_le hm0 (this.ret r hr)

/-- C36: after any history of calls with positive lengths the stored step is positive and the next call, of any
length and with any errors, returns. -/
theorem C36_step_stays_positive {c : Cfg} (hc : c.Ok) {dz dz' : ℝ} (hdz : 0 < dz) {hist : List (ℝ × (ℕ → Err))}
    (hpos : ∀ x ∈ hist, 0 < x.1) (h : Calls c dz hist dz') :
    0 < dz' ∧ ∀ (deltaZ : ℝ) (err : ℕ → Err), ∃ s l, CtrlReturns c err dz' deltaZ s l := by
  have main : 0 < dz' := by
    induction h with
    | nil dz => exact hdz
    | cons h _ ih =>
      refine ih (exit_pos hc hdz (hpos (_, _) List.mem_cons_self) h) fun x hx => hpos x (List.mem_cons_of_mem _ hx)
  exact ⟨main, fun deltaZ err => C35_terminates hc main deltaZ err⟩

/-- every such history exists (nothing gets stuck) -/
theorem C36_nonvacuous {c : Cfg} (hc : c.Ok) : ∀ (hist : List (ℝ × (ℕ → Err))) (dz : ℝ), 0 < dz →
    (∀ x ∈ hist, 0 < x.1) → ∃ dz', Calls c dz hist dz' := by
  intro hist
  induction hist with
  | nil => intro dz _ _; exact ⟨dz, .nil dz⟩
  | cons x t ih =>
    intro dz hdz hpos
    obtain ⟨s, l, h⟩ := C35_terminates hc hdz x.1 x.2
    obtain ⟨dz', h'⟩ := ih _ (exit_pos hc hdz (hpos x (by simp)) h) fun y hy => hpos y (by simp [hy])
    exact ⟨dz', .cons h h'⟩

/-! ## C37 -/

/-- C37 fails: after a zero-length segment the stored step is zero, and the next segment of any positive length
never returns, whatever the errors are. -/
theorem C37_zero_length_refuted {c : Cfg} (hc : c.Ok) {dz : ℝ} (hdz : 0 < dz) (err err' : ℕ → Err) {deltaZ : ℝ}
    (hd : 0 < deltaZ) :
    ∃ s l, CtrlReturns c err dz 0 s l ∧ ctrlExit s = 0 ∧ ¬ ∃ s' l', CtrlReturns c err' (ctrlExit s) deltaZ s' l' := by
  have hstart : ctrlStart dz 0 = ⟨0, 0, none⟩ := by
    unfold ctrlStart
    rw [if_pos (by linarith)]
    norm_num
  refine ⟨⟨0, 0, none⟩, [], ⟨0, ?_, by simp⟩, rfl, ?_⟩
  · simp [ctrlRun, hstart]
  · rintro ⟨s', l', k, hk, hfin⟩
    have hs2 : ctrlStart (ctrlExit ⟨0, 0, none⟩) deltaZ = ⟨0, deltaZ, none⟩ := by
      unfold ctrlStart ctrlExit
      simp only [Option.getD_none]
      rw [if_neg (by simp [hd.le])]
    rw [hs2] at hk
    have inv : ∀ k, (ctrlRun c err' ⟨0, deltaZ, none⟩ k).1 = ⟨0, deltaZ, none⟩ := by
      intro k
      induction k with
      | zero => rfl
      | succ k ih =>
        unfold ctrlRun
        simp only
        rw [ih, if_pos hd]
        show (ctrlBody c ⟨0, deltaZ, none⟩ (err' k)).2 = _
        have hmin := hc.min_pos
        rcases ctrlBody_cases c ⟨0, deltaZ, none⟩ (err' k) with ⟨-, h2⟩ | ⟨x, hj, h1, -⟩
        · simp at h2; linarith
        · have hx : x = 0 := by
            rcases judge_cases c 0 (err' k) with ⟨h, -⟩ | ⟨h, -⟩ | ⟨h, -⟩ | ⟨h, -⟩ <;> rw [h] at hj <;> simp at hj
            · exact hj.symm
            · exact hj.symm
            · exact hj.symm
          rw [h1, hx]
          unfold afterAccept
          simp only [mul_zero, sub_zero]
          rw [if_neg (by rintro ⟨h, -⟩; linarith)]
    have := inv k
    rw [hk] at this
    simp only at this
    rw [this] at hfin
    exact hfin hd

/-- C37 (missing: the same after a zero-length segment): what does hold is that a zero-length segment itself
returns at once and accepts no step. -/
theorem C37_zero_length_returns_partial {c : Cfg} (dz : ℝ) (err : ℕ → Err) :
    ∃ s, CtrlReturns c err dz 0 s [] :=
  ⟨ctrlStart dz 0, 0, rfl, by simp [ctrlStart]⟩

/-! ## C38 -/

/-- length covered by the accepted steps: each accepted step advances by twice its `dz` -/
noncomputable def covered (l : List (ℝ × Err)) : ℝ := (l.map fun x => 2 * x.1).sum

theorem covered_run (c : Cfg) (err : ℕ → Err) (s : Ctrl) (k : ℕ) :
    covered (ctrlRun c err s k).2 = s.dist - (ctrlRun c err s k).1.dist := by
  induction k with
  | zero => simp [ctrlRun, covered]
  | succ k ih =>
    by_cases h : (ctrlRun c err s k).1.dist > 0
    · rw [ctrlRun_succ_pos h]
      rcases ctrlBody_cases c (ctrlRun c err s k).1 (err k) with ⟨h1, -⟩ | ⟨dz, -, h1, -⟩
      · rw [h1]
        exact ih
      · rw [h1]
        have hl : covered ((ctrlRun c err s k).2 ++ [((ctrlRun c err s k).1.dz, err k)]) =
            covered (ctrlRun c err s k).2 + 2 * (ctrlRun c err s k).1.dz := by
          simp [covered]
        show covered ((ctrlRun c err s k).2 ++ [((ctrlRun c err s k).1.dz, err k)]) = s.dist - (afterAccept c _ dz).dist
        rw [hl, ih, afterAccept_dist]
        ring
    · rw [ctrlRun_succ_neg h]
      exact ih

/-- C38 fails: with a stream of errors in the "keep the step" range, a stored step of 1 and a segment of length
2 + 1e-12, the accepted steps cover length 4. -/
theorem C38_overshoot_refuted : ∃ s l,
    CtrlReturns ⟨1, 10 ^ (-12 : ℤ), 2 ^ (1 / (5 : ℝ))⟩ (fun _ => .val 0.75) 1 (2 + 10 ^ (-12 : ℤ)) s l ∧ covered l = 4 := by
  have hj : judge ⟨1, 10 ^ (-12 : ℤ), 2 ^ (1 / (5 : ℝ))⟩ 1 (.val 0.75) = (true, 1) := by
    unfold judge Err.gt Err.ge Err.le
    norm_num
  have hb : ∀ (d : ℝ) (r : Option ℝ), d - 2 ≤ 2 * 10 ^ (-12 : ℤ) →
      ctrlBody ⟨1, 10 ^ (-12 : ℤ), 2 ^ (1 / (5 : ℝ))⟩ ⟨1, d, r⟩ (.val 0.75) = (true, ⟨1, d - 2, r⟩) := by
    intro d r hd
    unfold ctrlBody
    rw [hj]
    simp only [afterAccept]
    rw [if_neg (by rintro ⟨-, h⟩; linarith), mul_one]
  have hs : ctrlStart 1 (2 + 10 ^ (-12 : ℤ)) = ⟨1, 2 + 10 ^ (-12 : ℤ), none⟩ := by
    unfold ctrlStart
    rw [if_neg (by norm_num)]
  have r1 : ctrlRun ⟨1, 10 ^ (-12 : ℤ), 2 ^ (1 / (5 : ℝ))⟩ (fun _ => .val 0.75) ⟨1, 2 + 10 ^ (-12 : ℤ), none⟩ 1 =
      (⟨1, 2 + 10 ^ (-12 : ℤ) - 2, none⟩, [(1, .val 0.75)]) := by
    rw [ctrlRun_succ_pos (by simp only [ctrlRun]; norm_num)]
    rw [ctrlRun_zero, hb _ _ (by norm_num)]
    rfl
  have r2 : ctrlRun ⟨1, 10 ^ (-12 : ℤ), 2 ^ (1 / (5 : ℝ))⟩ (fun _ => .val 0.75) ⟨1, 2 + 10 ^ (-12 : ℤ), none⟩ 2 =
      (⟨1, 2 + 10 ^ (-12 : ℤ) - 2 - 2, none⟩, [(1, .val 0.75), (1, .val 0.75)]) := by
    rw [ctrlRun_succ_pos (by rw [r1]; simp only; norm_num), r1]
    simp only
    rw [hb _ _ (by norm_num)]
    rfl
  refine ⟨⟨1, 2 + 10 ^ (-12 : ℤ) - 2 - 2, none⟩, [(1, .val 0.75), (1, .val 0.75)], ⟨2, by rw [hs]; exact r2, ?_⟩, ?_⟩
  · show ¬ (2 + (10 : ℝ) ^ (-12 : ℤ) - 2 - 2) > 0
    norm_num
  · simp [covered]; norm_num

/-- C38 (missing: exactness when a remainder of at most twice the minimum step is left over): for every error
stream the accepted steps cover at least the requested length; they cover exactly that length unless
some iteration of the loop started with a remaining distance in (0, 2·dz_min]. -/
theorem C38_distance_partial {c : Cfg} (hc : c.Ok) {dz deltaZ : ℝ} (hdz : 0 < dz) (hd : 0 < deltaZ) {err : ℕ → Err}
    {s : Ctrl} {l : List (ℝ × Err)} (h : CtrlReturns c err dz deltaZ s l) :
    deltaZ ≤ covered l ∧
    ((∀ k, (ctrlRun c err (ctrlStart dz deltaZ) k).1.dist ≤ 0 ∨
        2 * c.dzMin < (ctrlRun c err (ctrlStart dz deltaZ) k).1.dist) → covered l = deltaZ) := by
  obtain ⟨k, hk, hfin⟩ := h
  have hcov := covered_run c err (ctrlStart dz deltaZ) k
  rw [hk] at hcov
  have hs : (ctrlStart dz deltaZ).dist = deltaZ := rfl
  rw [hs] at hcov
  simp only at hcov
  have hfin' : s.dist ≤ 0 := not_lt.mp hfin
  refine ⟨by linarith, ?_⟩
  intro hno
  obtain ⟨m, hm0, hm, hinv⟩ := Inv.start hdz hd hc
  have hge : ∀ k, 0 ≤ (ctrlRun c err (ctrlStart dz deltaZ) k).1.dist := by
    intro k
    induction k with
    | zero => exact hd.le
    | succ k ih =>
      have hi := hinv.run hc hm hm0 err k
      have hn := hno k
      by_cases hp : (ctrlRun c err (ctrlStart dz deltaZ) k).1.dist > 0
      · rw [ctrlRun_succ_pos hp]
        have h2 : 2 * (ctrlRun c err (ctrlStart dz deltaZ) k).1.dz ≤ (ctrlRun c err (ctrlStart dz deltaZ) k).1.dist := by
          rcases hi.fits with h | h
          · exact h
          · rcases hn with h' | h'
            · exact absurd hp (not_lt.mpr h')
            · exact absurd h (not_le.mpr h')
        rcases ctrlBody_cases c (ctrlRun c err (ctrlStart dz deltaZ) k).1 (err k) with ⟨h1, -⟩ | ⟨x, -, h1, -⟩
        · rw [h1]; exact ih
        · rw [h1]
          show 0 ≤ (afterAccept c _ x).dist
          rw [afterAccept_dist]
          linarith
      · rw [ctrlRun_succ_neg hp]; exact ih
  have := hge k
  rw [hk] at this
  simp only at this
  linarith

/-- C38: in particular a segment no longer than twice the stored step, with errors that never force a rejection,
is covered exactly, in one step. -/
theorem C38_single_step {c : Cfg} {dz deltaZ : ℝ} (hd : 0 < deltaZ) (hlong : deltaZ < 2 * dz)
    (err : ℕ → Err) (hok : ¬ (err 0).gt (2 * c.localError)) :
    ∃ s, CtrlReturns c err dz deltaZ s [(deltaZ / 2, err 0)] := by
  have hs : ctrlStart dz deltaZ = ⟨deltaZ / 2, deltaZ, none⟩ := by
    unfold ctrlStart; rw [if_pos hlong]
  rcases ctrlBody_cases c ⟨deltaZ / 2, deltaZ, none⟩ (err 0) with ⟨h1, -⟩ | ⟨x, -, h1, -⟩
  · exfalso
    unfold ctrlBody at h1
    rcases judge_cases c (deltaZ / 2) (err 0) with ⟨h, -, h3⟩ | ⟨h, -⟩ | ⟨h, -⟩ | ⟨h, -⟩
    · exact hok h3
    all_goals simp only [h] at h1; simp at h1
  · refine ⟨afterAccept c ⟨deltaZ / 2, deltaZ, none⟩ x, 1, ?_, ?_⟩
    · rw [hs, ctrlRun_succ_pos (by simpa [ctrlRun] using hd)]
      rw [ctrlRun_zero, h1]
      rfl
    · rw [afterAccept_dist]
      simp only
      intro h
      linarith

/-! ## C39 -/

/-- C39 (missing: NaN errors): every accepted step whose error is a number (or infinite) has error at most
`2·local_error`, unless half of it would be below the minimum step. -/
theorem C39_error_control_partial {c : Cfg} {err : ℕ → Err} {dz deltaZ : ℝ} {s : Ctrl} {l : List (ℝ × Err)}
    (h : CtrlReturns c err dz deltaZ s l) : ∀ x ∈ l, (match x.2 with
      | .val e => e ≤ 2 * c.localError
      | .inf => False
      | .nan => True) ∨ x.1 / 2 < c.dzMin := by
  obtain ⟨k, hk, -⟩ := h
  have main : ∀ k, ∀ x ∈ (ctrlRun c err (ctrlStart dz deltaZ) k).2, ¬ x.2.gt (2 * c.localError) ∨ x.1 / 2 < c.dzMin := by
    intro k
    induction k with
    | zero => intro x hx; simp [ctrlRun] at hx
    | succ k ih =>
      intro x hx
      by_cases hp : (ctrlRun c err (ctrlStart dz deltaZ) k).1.dist > 0
      · rw [ctrlRun_succ_pos hp] at hx
        rcases ctrlBody_cases c (ctrlRun c err (ctrlStart dz deltaZ) k).1 (err k) with ⟨h1, -⟩ | ⟨y, -, h1, h2⟩
        · rw [h1] at hx; exact ih x hx
        · rw [h1] at hx
          simp only [if_true, List.mem_append, List.mem_singleton] at hx
          rcases hx with hx | rfl
          · exact ih x hx
          · by_cases hg : (err k).gt (2 * c.localError)
            · right; exact h2 hg
            · left; exact hg
      · rw [ctrlRun_succ_neg hp] at hx; exact ih x hx
  intro x hx
  have hx' : x ∈ (ctrlRun c err (ctrlStart dz deltaZ) k).2 := by rw [hk]; exact hx
  rcases main k x hx' with h | h
  · left
    cases he : x.2 with
    | nan => trivial
    | inf => rw [he] at h; exact h trivial
    | val e => rw [he] at h; exact not_lt.mp h
  · right; exact h

/-- C39: the log the statement ranges over is not empty: a positive segment accepts at least one step. -/
theorem C39_nonvacuous {c : Cfg} {err : ℕ → Err} {dz deltaZ : ℝ} (hd : 0 < deltaZ) {s : Ctrl} {l : List (ℝ × Err)}
    (h : CtrlReturns c err dz deltaZ s l) : l ≠ [] := by
  obtain ⟨k, hk, hfin⟩ := h
  have hcov := covered_run c err (ctrlStart dz deltaZ) k
  rw [hk] at hcov
  rintro rfl
  have hs : (ctrlStart dz deltaZ).dist = deltaZ := rfl
  rw [hs] at hcov
  simp [covered] at hcov
  exact hfin (by linarith)

/-- every logged error comes from the stream -/
theorem log_errors (c : Cfg) (err : ℕ → Err) (s : Ctrl) (k : ℕ) : ∀ x ∈ (ctrlRun c err s k).2, ∃ i, x.2 = err i := by
  induction k with
  | zero => intro x hx; simp [ctrlRun] at hx
  | succ k ih =>
    intro x hx
    by_cases hp : (ctrlRun c err s k).1.dist > 0
    · rw [ctrlRun_succ_pos hp] at hx
      simp only at hx
      split_ifs at hx
      · rcases List.mem_append.mp hx with hx | hx
        · exact ih x hx
        · rw [List.mem_singleton] at hx
          exact ⟨k, by rw [hx]⟩
      · exact ih x hx
    · rw [ctrlRun_succ_neg hp] at hx; exact ih x hx

/-- C39 fails for NaN: an integration whose local error is NaN at every step returns as if it had succeeded, every
one of its steps having been accepted with a NaN error. -/
theorem C39_nan_refuted {c : Cfg} (hc : c.Ok) {dz deltaZ : ℝ} (hdz : 0 < dz) (hd : 0 < deltaZ) :
    ∃ s l, CtrlReturns c (fun _ => .nan) dz deltaZ s l ∧ l ≠ [] ∧ ∀ x ∈ l, x.2 = .nan := by
  obtain ⟨s, l, h⟩ := C35_terminates hc hdz deltaZ fun _ => Err.nan
  refine ⟨s, l, h, C39_nonvacuous hd h, fun x hx => ?_⟩
  obtain ⟨k, hk, -⟩ := h
  obtain ⟨i, hi⟩ := log_errors c (fun _ => Err.nan) (ctrlStart dz deltaZ) k x (by rw [hk]; exact hx)
  exact hi

/-- C39: a NaN error never shortens the step: a segment shorter than twice the stored step is done in one step, whatever the tolerance. -/
theorem C39_nan_one_step_refuted {c : Cfg} {dz deltaZ : ℝ} (hd : 0 < deltaZ) (hlong : deltaZ < 2 * dz) :
    ∃ s, CtrlReturns c (fun _ => .nan) dz deltaZ s [(deltaZ / 2, .nan)] :=
  C38_single_step hd hlong (fun _ => Err.nan) (by simp [Err.gt])

end PyNLO
