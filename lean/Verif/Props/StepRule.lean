import Verif.Props.SsfmCtrl

/-!
# C185: the rule for the next step

What `integrate_over_dz` stores in `self.dz` after a segment done in one step, as a function of the error of that step; a larger error does not lead to a
larger step, except next to the minimum step.
-/

namespace PyNLO

open Ssfm

/-- a segment of at most twice the stored step, whose first error is not above the limit, is one step; the verdict on it is stored -/
theorem one_step_exit {c : Cfg} (hc : 0 < c.dzMin) {dz deltaZ : ℝ} (hd : 0 < deltaZ) (hlong : deltaZ ≤ 2 * dz) (err : ℕ → Err) {x : ℝ}
    (hj : judge c (deltaZ / 2) (err 0) = (true, x)) :
    ∃ s, CtrlReturns c err dz deltaZ s [(deltaZ / 2, err 0)] ∧ ctrlExit s = x := by
  have hs : ctrlStart dz deltaZ = ⟨deltaZ / 2, deltaZ, none⟩ := by
    unfold ctrlStart
    split_ifs with h
    · rfl
    · rw [show dz = deltaZ / 2 by linarith [not_lt.mp h]]
  have hb : ctrlBody c ⟨deltaZ / 2, deltaZ, none⟩ (err 0) = (true, afterAccept c ⟨deltaZ / 2, deltaZ, none⟩ x) := by
    unfold ctrlBody
    simp only [hj]
  refine ⟨afterAccept c ⟨deltaZ / 2, deltaZ, none⟩ x, ⟨1, ?_, ?_⟩, ?_⟩
  · rw [hs, ctrlRun_succ_pos (by simpa [ctrlRun] using hd), ctrlRun_zero, hb]
    rfl
  · rw [afterAccept_dist]
    simp only
    intro h
    linarith
  · unfold afterAccept
    simp only
    rw [if_neg (by rintro ⟨-, h⟩; linarith)]
    rfl

/-- C185: the step stored after a segment done in one step of size `h = deltaZ/2` with the error `e` within the limit: larger below half of the tolerance, unchanged
up to the tolerance, smaller from the tolerance to twice the tolerance unless that is below the minimum.  The step stored before does not matter: a short
segment replaces it. -/
theorem C185_next {c : Cfg} (hc : c.Ok) (hε : 0 < c.localError) {dz deltaZ : ℝ} (hd : 0 < deltaZ) (hlong : deltaZ ≤ 2 * dz) (err : ℕ → Err) {e : ℝ}
    (he : err 0 = .val e) (hle : e ≤ 2 * c.localError) :
    ∃ s, CtrlReturns c err dz deltaZ s [(deltaZ / 2, .val e)] ∧
      (e < c.localError / 2 → ctrlExit s = deltaZ / 2 * c.factor) ∧
      (c.localError / 2 ≤ e → e < c.localError → ctrlExit s = deltaZ / 2) ∧
      (c.localError ≤ e → c.dzMin ≤ deltaZ / 2 / c.factor → ctrlExit s = deltaZ / 2 / c.factor) ∧
      (c.localError ≤ e → deltaZ / 2 / c.factor < c.dzMin → ctrlExit s = deltaZ / 2) := by
  rcases lt_or_ge e (c.localError / 2) with h1 | h1
  · have hj : judge c (deltaZ / 2) (err 0) = (true, deltaZ / 2 * c.factor) := by
      rw [he]
      unfold judge Err.gt Err.ge Err.le
      simp only
      rw [if_neg (by linarith), if_neg (by rintro ⟨h, -⟩; linarith), if_neg (by rintro ⟨h, -⟩; linarith)]
    obtain ⟨s, hr, hx⟩ := one_step_exit hc.min_pos hd hlong err hj
    rw [he] at hr
    exact ⟨s, hr, fun _ => hx, fun h => by linarith, fun h => by linarith, fun h => by linarith⟩
  rcases lt_or_ge e c.localError with h2 | h2
  · have hj : judge c (deltaZ / 2) (err 0) = (true, deltaZ / 2) := by
      rw [he]
      unfold judge Err.gt Err.ge Err.le
      simp only
      rw [if_neg (by linarith), if_neg (by rintro ⟨h, -⟩; linarith), if_pos ⟨by linarith, h2.le⟩]
    obtain ⟨s, hr, hx⟩ := one_step_exit hc.min_pos hd hlong err hj
    rw [he] at hr
    exact ⟨s, hr, fun h => by linarith, fun _ _ => hx, fun h => by linarith, fun h => by linarith⟩
  rcases le_or_gt c.dzMin (deltaZ / 2 / c.factor) with h3 | h3
  · have hj : judge c (deltaZ / 2) (err 0) = (true, deltaZ / 2 / c.factor) := by
      rw [he]
      unfold judge Err.gt Err.ge Err.le
      simp only
      rw [if_neg (by linarith), if_pos ⟨h2, hle⟩, if_pos h3]
    obtain ⟨s, hr, hx⟩ := one_step_exit hc.min_pos hd hlong err hj
    rw [he] at hr
    exact ⟨s, hr, fun h => by linarith, fun _ h => by linarith, fun _ _ => hx, fun _ h => by linarith⟩
  · have hj : judge c (deltaZ / 2) (err 0) = (true, deltaZ / 2) := by
      rw [he]
      unfold judge Err.gt Err.ge Err.le
      simp only
      rw [if_neg (by linarith), if_pos ⟨h2, hle⟩, if_neg (by linarith)]
    obtain ⟨s, hr, hx⟩ := one_step_exit hc.min_pos hd hlong err hj
    rw [he] at hr
    exact ⟨s, hr, fun h => by linarith, fun _ h => by linarith, fun _ h => by linarith, fun _ _ => hx⟩

/-- C185 (missing: errors above the limit next to the minimum step): of two segments of the same length, each done in one step with an error within the limit, the one
with the larger error does not leave the larger step, whatever the steps stored before. -/
theorem C185_monotone_partial {c : Cfg} (hc : c.Ok) (hε : 0 < c.localError) {dz dz' deltaZ : ℝ} (hd : 0 < deltaZ) (hlong : deltaZ ≤ 2 * dz)
    (hlong' : deltaZ ≤ 2 * dz') (err err' : ℕ → Err) {e e' : ℝ} (he : err 0 = .val e) (he' : err' 0 = .val e') (h : e ≤ e') (hle : e' ≤ 2 * c.localError)
    {s s' : Ctrl} {l l' : List (ℝ × Err)} (hr : CtrlReturns c err dz deltaZ s l) (hr' : CtrlReturns c err' dz' deltaZ s' l') :
    ctrlExit s' ≤ ctrlExit s := by
  obtain ⟨s1, hr1, a1, a2, a3, a4⟩ := C185_next hc hε hd hlong err he (h.trans hle)
  obtain ⟨s2, hr2, b1, b2, b3, b4⟩ := C185_next hc hε hd hlong' err' he' hle
  obtain ⟨rfl, -⟩ := CtrlReturns.unique hr hr1
  obtain ⟨rfl, -⟩ := CtrlReturns.unique hr' hr2
  have f := hc.factor_gt
  have up : deltaZ / 2 ≤ deltaZ / 2 * c.factor := le_mul_of_one_le_right (by linarith) f.le
  have dn : deltaZ / 2 / c.factor ≤ deltaZ / 2 := div_le_self (by linarith) f.le
  rcases lt_or_ge e (c.localError / 2) with h1 | h1
  · rw [a1 h1]
    rcases lt_or_ge e' (c.localError / 2) with h2 | h2
    · rw [b1 h2]
    rcases lt_or_ge e' c.localError with h3 | h3
    · rw [b2 h2 h3]; exact up
    rcases le_or_gt c.dzMin (deltaZ / 2 / c.factor) with h4 | h4
    · rw [b3 h3 h4]; exact dn.trans up
    · rw [b4 h3 h4]; exact up
  rcases lt_or_ge e c.localError with h2 | h2
  · rw [a2 h1 h2]
    rcases lt_or_ge e' c.localError with h3 | h3
    · rw [b2 (h1.trans h) h3]
    rcases le_or_gt c.dzMin (deltaZ / 2 / c.factor) with h4 | h4
    · rw [b3 h3 h4]; exact dn
    · rw [b4 h3 h4]
  rcases le_or_gt c.dzMin (deltaZ / 2 / c.factor) with h4 | h4
  · rw [a3 h2 h4, b3 (h2.trans h) h4]
  · rw [a4 h2 h4, b4 (h2.trans h) h4]

/-- C185: inside a long segment, away from the minimum step, errors above the limit included: after one iteration the step tried next is not larger for the larger
error. -/
theorem C185_iteration {c : Cfg} (hf : 1 < c.factor) (hf2 : c.factor ≤ 2) (hε : 0 < c.localError) {s : Ctrl} (hm : 0 < c.dzMin) (hdz : c.dzMin ≤ s.dz / 2)
    (hdist : 2 * s.dz * (1 + c.factor) ≤ s.dist) {e e' : ℝ} (h : e ≤ e') :
    (ctrlBody c s (.val e')).2.dz ≤ (ctrlBody c s (.val e)).2.dz := by
  have pos : 0 < s.dz := by linarith
  have up : s.dz ≤ s.dz * c.factor := le_mul_of_one_le_right pos.le hf.le
  have dn : s.dz / c.factor ≤ s.dz := div_le_self pos.le hf.le
  have dn2 : s.dz / 2 ≤ s.dz / c.factor := div_le_div_of_nonneg_left pos.le (by linarith) hf2
  have keep : ∀ x, x ≤ s.dz * c.factor → (afterAccept c s x).dz = x := fun x hx => by
    unfold afterAccept
    simp only
    rw [if_neg (by rintro ⟨h1, -⟩; nlinarith)]
  have rule : ∀ e, (ctrlBody c s (.val e)).2.dz = if 2 * c.localError < e then s.dz / 2 else if c.localError ≤ e then s.dz / c.factor
      else if c.localError / 2 ≤ e then s.dz else s.dz * c.factor := fun e => by
    unfold ctrlBody judge Err.gt Err.ge Err.le
    simp only
    by_cases h1 : 2 * c.localError < e
    · rw [if_pos h1, if_pos h1, if_pos hdz]
    rw [if_neg h1, if_neg h1]
    by_cases h2 : c.localError ≤ e
    · rw [if_pos h2, if_pos ⟨h2, not_lt.mp h1⟩, if_pos (hdz.trans dn2)]
      exact keep _ (dn.trans up)
    rw [if_neg h2, if_neg (by rintro ⟨h, -⟩; exact h2 h)]
    by_cases h3 : c.localError / 2 ≤ e
    · rw [if_pos h3, if_pos ⟨by linarith, (not_le.mp h2).le⟩]
      exact keep _ up
    · rw [if_neg h3, if_neg (by rintro ⟨h, -⟩; exact h3 (by linarith))]
      exact keep _ le_rfl
  rw [rule, rule]
  split_ifs <;> linarith

/-- C185 fails next to the minimum step, with the default settings: an error of two and a half times the tolerance leaves a larger step than an error of one and a half
times the tolerance, for the same segment. -/
theorem C185_monotone_refuted : ∃ dz deltaZ s s' l l', 0 < deltaZ ∧ deltaZ ≤ 2 * dz ∧
    CtrlReturns defaultCfg (fun _ => .val 0.0015) dz deltaZ s l ∧ CtrlReturns defaultCfg (fun _ => .val 0.0025) dz deltaZ s' l' ∧
    ctrlExit s < ctrlExit s' := by
  have f1 := defaultCfg_ok.factor_gt
  have f2 : defaultCfg.factor ≤ 1.5 := by
    have h : ((2 : ℝ) ^ (1 / (5 : ℝ))) ^ (5 : ℕ) = 2 := by
      rw [← Real.rpow_natCast, ← Real.rpow_mul (by norm_num)]
      norm_num
    change (2 : ℝ) ^ (1 / (5 : ℝ)) ≤ 1.5
    by_contra hc
    have : (1.5 : ℝ) ^ 5 < ((2 : ℝ) ^ (1 / (5 : ℝ))) ^ 5 := pow_lt_pow_left₀ (not_le.mp hc) (by norm_num) (by norm_num)
    rw [h] at this
    norm_num at this
  have hmin : defaultCfg.dzMin = 1e-12 := by norm_num [defaultCfg]
  have heps : defaultCfg.localError = 0.001 := rfl
  have hfit : defaultCfg.dzMin ≤ 3e-12 / 2 / defaultCfg.factor := by
    rw [hmin, le_div_iff₀ (by linarith)]
    nlinarith
  obtain ⟨s, hr, -, -, hx, -⟩ := C185_next defaultCfg_ok (by rw [heps]; norm_num) (dz := 1.5e-12) (deltaZ := 3e-12) (by norm_num) (by norm_num)
    (fun _ => .val 0.0015) rfl (by rw [heps]; norm_num)
  have hj : judge defaultCfg (3e-12 / 2) (Err.val 0.0025) = (true, 3e-12 / 2) := by
    unfold judge Err.gt
    simp only
    rw [if_pos (by rw [heps]; norm_num), if_neg (by rw [hmin]; norm_num)]
  obtain ⟨s', hr', hx'⟩ := one_step_exit defaultCfg_ok.min_pos (dz := 1.5e-12) (deltaZ := 3e-12) (by norm_num) (by norm_num) (fun _ => Err.val 0.0025) hj
  refine ⟨1.5e-12, 3e-12, s, s', _, _, by norm_num, by norm_num, hr, hr', ?_⟩
  rw [hx (by rw [heps]; norm_num) hfit, hx']
  exact div_lt_self (by norm_num) f1

/-- C185: the default settings and a millimetre segment meet the assumptions, and the three outcomes differ. -/
theorem C185_nonvacuous : defaultCfg.Ok ∧ 0 < defaultCfg.localError ∧ defaultCfg.factor ≤ 2 ∧
    (1e-3 : ℝ) / 2 / defaultCfg.factor < 1e-3 / 2 ∧ (1e-3 : ℝ) / 2 < 1e-3 / 2 * defaultCfg.factor ∧ defaultCfg.dzMin ≤ 1e-3 / 2 / defaultCfg.factor := by
  have f1 := defaultCfg_ok.factor_gt
  have f2 : defaultCfg.factor ≤ 2 := by
    change (2 : ℝ) ^ (1 / (5 : ℝ)) ≤ 2
    calc (2 : ℝ) ^ (1 / (5 : ℝ)) ≤ 2 ^ (1 : ℝ) := Real.rpow_le_rpow_of_exponent_le (by norm_num) (by norm_num)
      _ = 2 := Real.rpow_one 2
  refine ⟨defaultCfg_ok, by norm_num [defaultCfg], f2, div_lt_self (by norm_num) f1, lt_mul_of_one_lt_right (by norm_num) f1, ?_⟩
  rw [show defaultCfg.dzMin = 1e-12 by norm_num [defaultCfg], le_div_iff₀ (by linarith)]
  nlinarith

end PyNLO
