import Verif.Props.StepRule
import Verif.Props.SsfmDouble

/-!
# C185 in double precision

The rule for the next step with the arithmetic of the program: the thresholds and the half of the segment are exact, only the new step is rounded, and rounding
keeps the order.
-/

namespace PyNLO

open Ssfm Double

/-- the step stored after a step of size `h` with the error `e` within the limit, in double precision -/
theorem judgeF_rule {c : Cfg} (hεf : IsFloat c.localError) (hε : 2 ^ (-1000 : ℤ) ≤ c.localError) (h : ℝ) {e : ℝ} (hle : e ≤ 2 * c.localError) :
    judgeF nearest c h (.val e) = (true, if c.localError ≤ e then (if c.dzMin ≤ nearest (h / c.factor) then nearest (h / c.factor) else h)
      else if c.localError / 2 ≤ e then h else nearest (h * c.factor)) := by
  have hpos : 0 < c.localError := lt_of_lt_of_le (by positivity) hε
  have t2 : nearest (2 * c.localError) = 2 * c.localError := nearest_exact hεf.twice
  have th : nearest (0.5 * c.localError) = c.localError / 2 := by
    rw [show (0.5 : ℝ) * c.localError = c.localError / 2 by ring]
    exact nearest_exact (hεf.half (by rwa [abs_of_pos hpos]))
  unfold judgeF
  rw [t2, th]
  unfold Err.gt Err.ge Err.le
  simp only
  rw [if_neg (not_lt.mpr hle)]
  by_cases h1 : c.localError ≤ e
  · rw [if_pos ⟨h1, hle⟩, if_pos h1]
    by_cases h2 : c.dzMin ≤ nearest (h / c.factor)
    · rw [if_pos h2, if_pos h2]
    · rw [if_neg h2, if_neg h2]
  · rw [if_neg (by rintro ⟨h', -⟩; exact h1 h'), if_neg h1]
    by_cases h2 : c.localError / 2 ≤ e
    · rw [if_pos ⟨h2, (not_le.mp h1).le⟩, if_pos h2]
    · rw [if_neg (by rintro ⟨h', -⟩; exact h2 h'), if_neg h2]

/-- C185 in double precision: after a segment done in one step with an error `e` within the limit the stored step is, in this order of cases, the rounded quotient, the
same or the rounded product; thresholds are exact. -/
theorem C185_double_next {c : Cfg} (hc : c.OkF) (hmin : 0 < c.dzMin) (hεf : IsFloat c.localError) (hε : 2 ^ (-1000 : ℤ) ≤ c.localError) {dz deltaZ : ℝ}
    (hf : IsFloat dz) (hF : IsFloat deltaZ) (hd : 2 ^ (-1000 : ℤ) ≤ deltaZ) (hlong : deltaZ ≤ 2 * dz) (err : ℕ → Err) {e : ℝ} (he : err 0 = .val e)
    (hle : e ≤ 2 * c.localError) :
    ∃ s, CtrlReturnsF nearest c err dz deltaZ s [(deltaZ / 2, .val e)] ∧
      (e < c.localError / 2 → ctrlExit s = nearest (deltaZ / 2 * c.factor)) ∧
      (c.localError / 2 ≤ e → e < c.localError → ctrlExit s = deltaZ / 2) ∧
      (c.localError ≤ e → c.dzMin ≤ nearest (deltaZ / 2 / c.factor) → ctrlExit s = nearest (deltaZ / 2 / c.factor)) ∧
      (c.localError ≤ e → nearest (deltaZ / 2 / c.factor) < c.dzMin → ctrlExit s = deltaZ / 2) := by
  have hdpos : 0 < deltaZ := lt_of_lt_of_le (by positivity) hd
  have hεpos : 0 < c.localError := lt_of_lt_of_le (by positivity) hε
  have hs : ctrlStartF nearest dz deltaZ = ⟨deltaZ / 2, deltaZ, none⟩ := by
    unfold ctrlStartF
    rw [nearest_exact hf.twice]
    split_ifs with h
    · rw [nearest_exact (hF.half (by rwa [abs_of_pos hdpos]))]
    · rw [show dz = deltaZ / 2 by linarith [not_lt.mp h]]
  have hfin : ∀ x, afterAcceptF nearest c ⟨deltaZ / 2, deltaZ, none⟩ x = ⟨x, 0, none⟩ := fun x => by
    unfold afterAcceptF
    simp only
    have e0 : nearest (deltaZ - nearest (2 * (deltaZ / 2))) = 0 := by
      rw [show 2 * (deltaZ / 2) = deltaZ by ring, nearest_exact hF, sub_self, nearest_zero]
    rw [e0, nearest_exact hc.float.twice, if_neg (by rintro ⟨-, h⟩; linarith)]
  obtain ⟨x, hx, hj⟩ : ∃ x, x = (if c.localError ≤ e then (if c.dzMin ≤ nearest (deltaZ / 2 / c.factor) then nearest (deltaZ / 2 / c.factor) else deltaZ / 2)
      else if c.localError / 2 ≤ e then deltaZ / 2 else nearest (deltaZ / 2 * c.factor)) ∧ judgeF nearest c (deltaZ / 2) (.val e) = (true, x) :=
    ⟨_, rfl, judgeF_rule hεf hε (deltaZ / 2) hle⟩
  have hb : ctrlBodyF nearest c ⟨deltaZ / 2, deltaZ, none⟩ (err 0) = (true, ⟨x, 0, none⟩) := by
    unfold ctrlBodyF
    rw [he]
    simp only [hj, hfin]
  refine ⟨⟨x, 0, none⟩, ⟨1, ?_, by simp⟩, ?_⟩
  · rw [hs, ctrlRunF_succ_pos (by simpa [ctrlRunF] using hdpos), ctrlRunF, hb, he]
    rfl
  · have hxe : ctrlExit ⟨x, 0, none⟩ = x := rfl
    rw [hxe, hx]
    refine ⟨fun h => ?_, fun h1 h2 => ?_, fun h1 h2 => ?_, fun h1 h2 => ?_⟩
    · rw [if_neg (by linarith), if_neg (by linarith)]
    · rw [if_neg (by linarith), if_pos h1]
    · rw [if_pos h1, if_pos h2]
    · rw [if_pos h1, if_neg (by linarith)]

/-- the control state after a return is unique -/
theorem CtrlReturnsF.unique {rnd : ℝ → ℝ} {c : Cfg} {err : ℕ → Err} {dz deltaZ : ℝ} {s s' : Ctrl} {l l' : List (ℝ × Err)}
    (h : CtrlReturnsF rnd c err dz deltaZ s l) (h' : CtrlReturnsF rnd c err dz deltaZ s' l') : s = s' ∧ l = l' := by
  have key : ∀ (s0 : Ctrl) k j, ¬ (ctrlRunF rnd c err s0 k).1.dist > 0 → ctrlRunF rnd c err s0 (k + j) = ctrlRunF rnd c err s0 k := by
    intro s0 k j hk
    induction j with
    | zero => rfl
    | succ j ih =>
      rw [← add_assoc]
      conv_lhs => unfold ctrlRunF
      rw [ih]
      simp only
      rw [if_neg hk]
  obtain ⟨k, hk, hs⟩ := h
  obtain ⟨k', hk', hs'⟩ := h'
  rcases le_total k k' with hle | hle <;> obtain ⟨j, rfl⟩ := Nat.exists_eq_add_of_le hle
  · rw [key _ k j (by rw [hk]; exact hs), hk] at hk'
    exact Prod.mk.inj hk'
  · rw [key _ k' j (by rw [hk']; exact hs'), hk'] at hk
    exact ⟨(Prod.mk.inj hk).1.symm, (Prod.mk.inj hk).2.symm⟩

/-- C185 in double precision (missing, as without rounding: errors above the limit next to the minimum step): of two segments of the same length, each done in one step
with an error within the limit, the one with the larger error does not leave the larger step. -/
theorem C185_double_monotone_partial {c : Cfg} (hc : c.OkF) (hmin : 0 < c.dzMin) (hεf : IsFloat c.localError) (hε : 2 ^ (-1000 : ℤ) ≤ c.localError)
    {dz dz' deltaZ : ℝ} (hf : IsFloat dz) (hf' : IsFloat dz') (hF : IsFloat deltaZ) (hd : 2 ^ (-1000 : ℤ) ≤ deltaZ) (hlong : deltaZ ≤ 2 * dz)
    (hlong' : deltaZ ≤ 2 * dz') (err err' : ℕ → Err) {e e' : ℝ} (he : err 0 = .val e) (he' : err' 0 = .val e') (h : e ≤ e') (hle : e' ≤ 2 * c.localError)
    {s s' : Ctrl} {l l' : List (ℝ × Err)} (hr : CtrlReturnsF nearest c err dz deltaZ s l) (hr' : CtrlReturnsF nearest c err' dz' deltaZ s' l') :
    ctrlExit s' ≤ ctrlExit s := by
  obtain ⟨s1, hr1, a1, a2, a3, a4⟩ := C185_double_next hc hmin hεf hε hf hF hd hlong err he (h.trans hle)
  obtain ⟨s2, hr2, b1, b2, b3, b4⟩ := C185_double_next hc hmin hεf hε hf' hF hd hlong' err' he' hle
  obtain ⟨rfl, -⟩ := CtrlReturnsF.unique hr hr1
  obtain ⟨rfl, -⟩ := CtrlReturnsF.unique hr' hr2
  have f := hc.factor_gt
  have hdpos : 0 < deltaZ := lt_of_lt_of_le (by positivity) hd
  have ex : nearest (deltaZ / 2) = deltaZ / 2 := nearest_exact (hF.half (by rwa [abs_of_pos hdpos]))
  have up : deltaZ / 2 ≤ nearest (deltaZ / 2 * c.factor) := by
    have := nearest_mono (le_mul_of_one_le_right (by linarith : 0 ≤ deltaZ / 2) f.le)
    rwa [ex] at this
  have dn : nearest (deltaZ / 2 / c.factor) ≤ deltaZ / 2 := by
    have := nearest_mono (div_le_self (by linarith : 0 ≤ deltaZ / 2) f.le)
    rwa [ex] at this
  rcases lt_or_ge e (c.localError / 2) with h1 | h1
  · rw [a1 h1]
    rcases lt_or_ge e' (c.localError / 2) with h2 | h2
    · rw [b1 h2]
    rcases lt_or_ge e' c.localError with h3 | h3
    · rw [b2 h2 h3]; exact up
    rcases le_or_gt c.dzMin (nearest (deltaZ / 2 / c.factor)) with h4 | h4
    · rw [b3 h3 h4]; exact dn.trans up
    · rw [b4 h3 h4]; exact up
  rcases lt_or_ge e c.localError with h2 | h2
  · rw [a2 h1 h2]
    rcases lt_or_ge e' c.localError with h3 | h3
    · rw [b2 (h1.trans h) h3]
    rcases le_or_gt c.dzMin (nearest (deltaZ / 2 / c.factor)) with h4 | h4
    · rw [b3 h3 h4]; exact dn
    · rw [b4 h3 h4]
  rcases le_or_gt c.dzMin (nearest (deltaZ / 2 / c.factor)) with h4 | h4
  · rw [a3 h2 h4, b3 (h2.trans h) h4]
  · rw [a4 h2 h4, b4 (h2.trans h) h4]

/-- settings and a segment that meet the hypotheses: tolerance `2^-10`, minimum step `2^-40`, factor `5/4`, a segment of `2^-10` with half of it stored -/
theorem C185_double_nonvacuous : ∃ c : Cfg, c.OkF ∧ 0 < c.dzMin ∧ IsFloat c.localError ∧ (2 : ℝ) ^ (-1000 : ℤ) ≤ c.localError ∧
    IsFloat ((2 : ℝ) ^ (-11 : ℤ)) ∧ IsFloat ((2 : ℝ) ^ (-10 : ℤ)) ∧ (2 : ℝ) ^ (-1000 : ℤ) ≤ 2 ^ (-10 : ℤ) ∧ (2 : ℝ) ^ (-10 : ℤ) ≤ 2 * 2 ^ (-11 : ℤ) := by
  have fl : ∀ k : ℤ, -1074 ≤ k → IsFloat ((2 : ℝ) ^ k) := fun k hk => ⟨1, k, by norm_num, hk, by simp⟩
  have mono : (2 : ℝ) ^ (-1000 : ℤ) ≤ 2 ^ (-10 : ℤ) := zpow_le_zpow_right₀ (by norm_num) (by norm_num)
  refine ⟨{ localError := 2 ^ (-10 : ℤ), dzMin := 2 ^ (-40 : ℤ), factor := 5 / 4 }, ⟨fl _ (by norm_num), by norm_num, by norm_num⟩, by positivity, fl _ (by norm_num),
    mono, fl _ (by norm_num), fl _ (by norm_num), mono, ?_⟩
  norm_num

end PyNLO
