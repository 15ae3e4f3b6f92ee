import Verif.Py.Single
import Mathlib.Tactic.Positivity
import Mathlib.Tactic.Linarith
import Mathlib.Tactic.FieldSimp

/-! # Rounding errors of single precision -/

namespace PyNLO.Single

theorem round_half_even_zero {x : ℝ} (h : |x| ≤ 1 / 2) : pyRound x = 0 := by
  obtain ⟨h1, h2⟩ := abs_le.1 h
  unfold pyRound
  rcases lt_or_ge x 0 with hx | hx
  · have hf : ⌊x⌋ = -1 := by rw [Int.floor_eq_iff]; push_cast; constructor <;> linarith
    rw [hf]
    push_cast
    rcases h1.lt_or_eq with h1 | h1
    · rw [if_neg (by linarith), if_pos (by linarith)]
    · rw [← h1]; norm_num
  · have hf : ⌊x⌋ = 0 := by rw [Int.floor_eq_iff]; push_cast; constructor <;> linarith
    rw [hf]
    push_cast
    rcases h2.lt_or_eq with h2 | h2
    · rw [if_pos (by linarith)]
    · rw [h2]; norm_num

theorem expo_ulp (x : ℝ) : (2 : ℝ) ^ expo x ≤ max (2 ^ (-23 : ℤ) * |x|) (2 ^ (-149 : ℤ)) ∨ x = 0 := by
  rcases eq_or_ne x 0 with h | h
  · exact Or.inr h
  left
  unfold expo
  rcases max_cases (Int.log 2 |x| - 23) (-149) with ⟨e, -⟩ | ⟨e, -⟩ <;> rw [e]
  · refine le_max_of_le_left ?_
    rw [sub_eq_add_neg, zpow_add₀ two_ne_zero, mul_comm]
    have := Int.zpow_log_le_self (b := 2) (by norm_num) (abs_pos.2 h)
    gcongr
    exact_mod_cast this
  · exact le_max_right _ _

theorem nearest_zero : nearest 0 = 0 := by
  unfold nearest
  rw [zero_div]
  have : pyRound 0 = 0 := by simpa using pyRound_int 0
  rw [this]
  simp

/-- The rounding error is at most half a unit in the last place. -/
theorem nearest_near (x : ℝ) : |nearest x - x| ≤ max (2 ^ (-24 : ℤ) * |x|) (2 ^ (-150 : ℤ)) := by
  rcases expo_ulp x with h | rfl
  · have hp : (0 : ℝ) < 2 ^ expo x := by positivity
    have e : nearest x - x = 2 ^ expo x * ((pyRound (x / 2 ^ expo x) : ℝ) - x / 2 ^ expo x) := by
      unfold nearest
      field_simp
    rw [e, abs_mul, abs_of_pos hp]
    have h1 := pyRound_near (x / 2 ^ expo x)
    have h2 : (2 : ℝ) ^ expo x * |(pyRound (x / 2 ^ expo x) : ℝ) - x / 2 ^ expo x| ≤ 2 ^ expo x * (1 / 2) := by gcongr
    refine h2.trans ?_
    have h3 : max ((2 : ℝ) ^ (-24 : ℤ) * |x|) (2 ^ (-150 : ℤ)) = max ((2 : ℝ) ^ (-23 : ℤ) * |x|) (2 ^ (-149 : ℤ)) * (1 / 2) := by
      rw [max_mul_of_nonneg _ _ (by norm_num)]
      congr 1
      · rw [show (-24 : ℤ) = -23 + -1 by norm_num, zpow_add₀ two_ne_zero]; norm_num; ring
      · rw [show (-150 : ℤ) = -149 + -1 by norm_num, zpow_add₀ two_ne_zero]; norm_num
    rw [h3]
    gcongr
  · rw [nearest_zero, sub_zero, abs_zero]
    positivity

/-- Numbers of magnitude up to `2^-150` are rounded to zero. -/
theorem nearest_tiny {x : ℝ} (h : |x| ≤ 2 ^ (-150 : ℤ)) : nearest x = 0 := by
  rcases eq_or_ne x 0 with rfl | hx
  · exact nearest_zero
  have hl : Int.log 2 |x| < -149 := by
    rw [← Int.lt_zpow_iff_log_lt (b := 2) (by norm_num) (abs_pos.2 hx)]
    refine h.trans_lt ?_
    norm_num
  have he : expo x = -149 := by
    unfold expo
    exact max_eq_right (by omega)
  unfold nearest
  rw [he, round_half_even_zero, Int.cast_zero, mul_zero]
  rw [abs_div, abs_of_pos (by positivity : (0 : ℝ) < 2 ^ (-149 : ℤ)), div_le_iff₀ (by positivity)]
  refine h.trans_eq ?_
  rw [show (-150 : ℤ) = -1 + -149 by norm_num, zpow_add₀ two_ne_zero]
  norm_num

/-- `x` is a single-precision number: at most 24 binary digits, not below the smallest subnormal one. -/
def Representable (x : ℝ) : Prop := ∃ (m e : ℤ), |m| < 2 ^ 24 ∧ -149 ≤ e ∧ e ≤ 104 ∧ x = m * 2 ^ e

theorem nearest_exact {x : ℝ} (h : Representable x) : nearest x = x := by
  obtain ⟨m, e, hm, he, -, rfl⟩ := h
  rcases eq_or_ne m 0 with rfl | hm0
  · simpa using nearest_zero
  have hx : 0 < |(m : ℝ) * 2 ^ e| := abs_pos.2 (by positivity)
  have hlt : |(m : ℝ) * 2 ^ e| < (2 : ℝ) ^ (24 + e) := by
    rw [abs_mul, abs_of_pos (by positivity : (0 : ℝ) < 2 ^ e), zpow_add₀ two_ne_zero]
    have : |(m : ℝ)| < 2 ^ (24 : ℤ) := by exact_mod_cast hm
    gcongr
  have hl : Int.log 2 |(m : ℝ) * 2 ^ e| < 24 + e := by
    rw [← Int.lt_zpow_iff_log_lt (b := 2) (by norm_num) hx]
    exact_mod_cast hlt
  have hle : expo ((m : ℝ) * 2 ^ e) ≤ e := by
    unfold expo
    exact max_le (by omega) he
  obtain ⟨k, hk⟩ : ∃ k : ℕ, e = expo ((m : ℝ) * 2 ^ e) + k := ⟨(e - expo ((m : ℝ) * 2 ^ e)).toNat, by omega⟩
  unfold nearest
  generalize expo ((m : ℝ) * 2 ^ e) = q at hk
  subst hk
  have hq : (m : ℝ) * 2 ^ (q + k) / 2 ^ q = ((m * 2 ^ k : ℤ) : ℝ) := by
    rw [zpow_add₀ two_ne_zero]
    push_cast
    rw [zpow_natCast]
    field_simp
  rw [hq, pyRound_int]
  push_cast
  rw [zpow_add₀ two_ne_zero, zpow_natCast]
  ring

/-- Rounding gives a number within half a unit in the last place, if the result fits. -/
theorem round_near {x : ℝ} (h : |x| ≤ 2 ^ 127) : ∃ y, round x = .val y ∧ |y - x| ≤ max (2 ^ (-24 : ℤ) * |x|) (2 ^ (-150 : ℤ)) := by
  have h1 := nearest_near x
  refine ⟨nearest x, ?_, h1⟩
  unfold round
  rw [if_pos]
  have h2 : max ((2 : ℝ) ^ (-24 : ℤ) * |x|) (2 ^ (-150 : ℤ)) ≤ 2 ^ 126 := by
    refine max_le ?_ (by norm_num)
    calc (2 : ℝ) ^ (-24 : ℤ) * |x| ≤ 2 ^ (-24 : ℤ) * 2 ^ 127 := by gcongr
      _ ≤ 2 ^ 126 := by norm_num
  have h3 : |nearest x| ≤ |nearest x - x| + |x| := by
    have := abs_add_le (nearest x - x) x
    rwa [sub_add_cancel] at this
  calc |nearest x| ≤ 2 ^ 126 + 2 ^ 127 := by linarith
    _ < 2 ^ 128 := by norm_num

theorem round_exact {x : ℝ} (h : Representable x) : round x = .val x := by
  unfold round
  rw [nearest_exact h, if_pos]
  obtain ⟨m, e, hm, -, he, rfl⟩ := h
  rw [abs_mul, abs_of_pos (by positivity : (0 : ℝ) < 2 ^ e)]
  have h1 : |(m : ℝ)| < 2 ^ (24 : ℤ) := by exact_mod_cast hm
  have h2 : (2 : ℝ) ^ e ≤ 2 ^ (104 : ℤ) := zpow_le_zpow_right₀ (by norm_num) he
  calc |(m : ℝ)| * 2 ^ e ≤ |(m : ℝ)| * 2 ^ (104 : ℤ) := by gcongr
    _ < 2 ^ (24 : ℤ) * 2 ^ (104 : ℤ) := by gcongr
    _ = 2 ^ 128 := by norm_num

theorem round_tiny {x : ℝ} (h : |x| ≤ 2 ^ (-150 : ℤ)) : round x = .val 0 := by
  unfold round
  rw [nearest_tiny h, abs_zero, if_pos (by norm_num)]

/-- Numbers of `2^128` and more become infinite. -/
theorem round_huge {x : ℝ} (h : 2 ^ 128 ≤ |x|) : round x = .inf (decide (x < 0)) := by
  unfold round
  rw [if_neg]
  rw [not_lt]
  have hx : 0 < |x| := lt_of_lt_of_le (by positivity) h
  have hl : 128 ≤ Int.log 2 |x| := by
    rw [← Int.zpow_le_iff_le_log (b := 2) (by norm_num) hx]
    exact_mod_cast h
  have he : expo x = Int.log 2 |x| - 23 := max_eq_left (by omega)
  have hlow := Int.zpow_log_le_self (b := 2) (by norm_num) hx
  unfold nearest
  rw [he]
  generalize Int.log 2 |x| = l at *
  have hp : (0 : ℝ) < 2 ^ (l - 23) := by positivity
  have hl2 : (2 : ℝ) ^ l = 2 ^ (l - 23) * 2 ^ 23 := by
    rw [← zpow_natCast (2 : ℝ) 23, ← zpow_add₀ two_ne_zero]
    congr 1
    norm_num
  have hy : (2 : ℝ) ^ 23 ≤ |x / 2 ^ (l - 23)| := by
    rw [abs_div, abs_of_pos hp, le_div_iff₀ hp]
    have : (2 : ℝ) ^ l ≤ |x| := by exact_mod_cast hlow
    rw [hl2] at this
    linarith
  have hr : (2 : ℝ) ^ 23 ≤ |(pyRound (x / 2 ^ (l - 23)) : ℝ)| := by
    have h1 := pyRound_near (x / 2 ^ (l - 23))
    generalize x / 2 ^ (l - 23) = y at *
    generalize pyRound y = r at *
    have h2 : |y| ≤ |(r : ℝ)| + 1 / 2 := by
      have := abs_sub_abs_le_abs_sub y (r : ℝ)
      rw [abs_sub_comm] at this
      linarith
    have h3 : (2 : ℝ) ^ 23 - 1 < ((|r| : ℤ) : ℝ) := by
      rw [Int.cast_abs]
      linarith
    have h4 : (2 : ℤ) ^ 23 - 1 < |r| := by exact_mod_cast h3
    have h5 : (2 : ℤ) ^ 23 ≤ |r| := by omega
    exact_mod_cast h5
  rw [abs_mul, abs_of_pos hp]
  calc (2 : ℝ) ^ 128 = 2 ^ (128 : ℤ) := by norm_num
    _ ≤ 2 ^ l := zpow_le_zpow_right₀ (by norm_num) hl
    _ = 2 ^ (l - 23) * 2 ^ 23 := hl2
    _ ≤ _ := by gcongr

/-! ## Errors relative to a bound on the result -/

/-- Rounding a number of magnitude at most `K` in the normal range costs at most `2^-24 K`. -/
theorem round_le {x K : ℝ} (hx : |x| ≤ K) (h1 : 2 ^ (-126 : ℤ) ≤ K) (h2 : K ≤ 2 ^ 127) : ∃ y, round x = .val y ∧ |y - x| ≤ K / 16777216 := by
  obtain ⟨y, hy, he⟩ := round_near (hx.trans h2)
  refine ⟨y, hy, he.trans (max_le ?_ ?_)⟩
  · have : (2 : ℝ) ^ (-24 : ℤ) = 1 / 16777216 := by norm_num
    rw [this]
    linarith
  · have : (2 : ℝ) ^ (-150 : ℤ) = 2 ^ (-126 : ℤ) / 16777216 := by norm_num
    rw [this]
    gcongr

theorem round_zero : round 0 = .val 0 := round_tiny (by rw [abs_zero]; positivity)

/-- Normal positive numbers are rounded with relative error `2^-24`. -/
theorem round_pos {x : ℝ} (h1 : 2 ^ (-126 : ℤ) ≤ x) (h2 : x ≤ 2 ^ 127) :
    ∃ y, round x = .val y ∧ x * (1 - 1 / 16777216) ≤ y ∧ y ≤ x * (1 + 1 / 16777216) := by
  have h0 : 0 < x := lt_of_lt_of_le (by positivity) h1
  obtain ⟨y, hy, he⟩ := round_le (abs_of_pos h0).le h1 h2
  have := abs_le.1 he
  exact ⟨y, hy, by linarith, by linarith⟩

/-- Rounding a rounded number changes nothing. -/
theorem round_idem {x y : ℝ} (h : round x = .val y) : round y = .val y := by
  unfold round at h
  split at h
  · rename_i hlt
    injection h with h
    rw [h] at hlt
    rcases eq_or_ne x 0 with rfl | hx
    · rw [nearest_zero] at h; rw [← h, round_zero]
    set e := expo x with he
    set m := pyRound (x / 2 ^ e) with hm
    have hy : y = m * 2 ^ e := by rw [← h]; unfold nearest; rw [mul_comm]
    have hp : (0 : ℝ) < 2 ^ e := by positivity
    have hx0 : 0 < |x| := abs_pos.2 hx
    have hge : -149 ≤ e := le_max_right _ _
    have hlog : Int.log 2 |x| ≤ e + 23 := by
      have : Int.log 2 |x| - 23 ≤ e := le_max_left _ _
      linarith
    have hxlt : |x| < 2 ^ (e + 24) := by
      have := Int.lt_zpow_succ_log_self (b := 2) (by norm_num) |x|
      refine this.trans_le ?_
      push_cast
      exact zpow_le_zpow_right₀ (by norm_num) (by linarith)
    have hr := pyRound_near (x / 2 ^ e)
    rw [← hm] at hr
    have hq : |x / 2 ^ e| < 2 ^ 24 := by
      rw [abs_div, abs_of_pos hp, div_lt_iff₀ hp]
      rw [zpow_add₀ (by norm_num)] at hxlt
      norm_num at hxlt ⊢
      linarith
    have hmle : |m| ≤ 2 ^ 24 := by
      have : |(m : ℝ)| < 2 ^ 24 + 1 := by
        rw [abs_lt] at hq ⊢
        rw [abs_le] at hr
        constructor <;> linarith
      have h2 : ((|m| : ℤ) : ℝ) < ((2 ^ 24 + 1 : ℤ) : ℝ) := by push_cast; linarith
      have := Int.cast_lt.1 h2
      omega
    have habs : |y| = |(m : ℝ)| * 2 ^ e := by rw [hy, abs_mul, abs_of_pos hp]
    have small : ∀ k : ℕ, (2 : ℝ) ^ k ≤ |(m : ℝ)| → e + k < 128 := by
      intro k hk
      by_contra hcon
      push Not at hcon
      have : (2 : ℝ) ^ 128 ≤ |y| := by
        rw [habs]
        calc (2 : ℝ) ^ 128 = 2 ^ (128 : ℤ) := by norm_num
          _ ≤ 2 ^ (e + k) := zpow_le_zpow_right₀ (by norm_num) hcon
          _ = 2 ^ k * 2 ^ e := by rw [zpow_add₀ (by norm_num), zpow_natCast, mul_comm]
          _ ≤ |(m : ℝ)| * 2 ^ e := by gcongr
      linarith
    refine round_exact ?_
    rcases eq_or_lt_of_le hmle with heq | hlt'
    · have hmR : |(m : ℝ)| = 2 ^ 24 := by
        have : ((|m| : ℤ) : ℝ) = ((2 ^ 24 : ℤ) : ℝ) := by rw [heq]
        push_cast at this
        linarith
      have h104 := small 24 (by rw [hmR])
      have h2 : (2 : ℝ) ^ (e + 1) = 2 ^ e * 2 := by rw [zpow_add₀ (by norm_num)]; norm_num
      rcases abs_eq (by norm_num : (0 : ℤ) ≤ 2 ^ 24) |>.1 heq with hmm | hmm
      · refine ⟨2 ^ 23, e + 1, by norm_num, by linarith, by push_cast at h104; linarith, ?_⟩
        rw [hy, hmm, h2]
        push_cast
        ring
      · refine ⟨-2 ^ 23, e + 1, by norm_num, by linarith, by push_cast at h104; linarith, ?_⟩
        rw [hy, hmm, h2]
        push_cast
        ring
    · refine ⟨m, e, hlt', hge, ?_, hy⟩
      by_contra hcon
      push Not at hcon
      have hel : e = Int.log 2 |x| - 23 := by
        rcases le_total (Int.log 2 |x| - 23) (-149) with hc | hc
        · have : e = -149 := max_eq_right hc
          omega
        · exact max_eq_left hc
      have hxge : (2 : ℝ) ^ (e + 23) ≤ |x| := by
        have := Int.zpow_log_le_self (b := 2) (by norm_num) hx0
        rw [hel, sub_add_cancel]
        exact_mod_cast this
      have hqge : (2 : ℝ) ^ 23 ≤ |x / 2 ^ e| := by
        rw [abs_div, abs_of_pos hp, le_div_iff₀ hp]
        rw [zpow_add₀ (by norm_num)] at hxge
        norm_num at hxge ⊢
        linarith
      have hmge : 2 ^ 23 ≤ |m| := by
        have : (2 : ℝ) ^ 23 - 1 < |(m : ℝ)| := by
          have := abs_sub_abs_le_abs_sub (x / 2 ^ e) m
          rw [abs_sub_comm] at this
          linarith
        have h2 : ((2 ^ 23 - 1 : ℤ) : ℝ) < ((|m| : ℤ) : ℝ) := by push_cast; linarith
        have := Int.cast_lt.1 h2
        omega
      have := small 23 (by
        have h2 : ((2 ^ 23 : ℤ) : ℝ) ≤ ((|m| : ℤ) : ℝ) := Int.cast_le.2 hmge
        push_cast at h2
        linarith)
      push_cast at this
      linarith
  · cases h

end PyNLO.Single
