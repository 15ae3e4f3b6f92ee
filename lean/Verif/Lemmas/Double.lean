import Verif.Py.Double
import Mathlib.Tactic.Positivity
import Mathlib.Tactic.Linarith
import Mathlib.Tactic.FieldSimp

/-! # Rounding in double precision -/

namespace PyNLO.Double

theorem expo_ge (x : ℝ) : -1074 ≤ expo x := le_max_right _ _

/-- the unit in the last place of a number below `2^k` -/
theorem expo_le {x : ℝ} {k : ℤ} (h : |x| < 2 ^ k) (hx : x ≠ 0) : expo x ≤ max (k - 53) (-1074) := by
  have hl : Int.log 2 |x| < k := by
    rw [← Int.lt_zpow_iff_log_lt (b := 2) (by norm_num) (abs_pos.2 hx)]
    exact_mod_cast h
  exact max_le_max (by omega) le_rfl

/-- above the smallest unit, a number has 53 binary digits in units of the last place -/
theorem le_of_expo {x : ℝ} (h : -1074 < expo x) (hx : x ≠ 0) : (2 : ℝ) ^ (expo x + 52) ≤ |x| := by
  have he : expo x = Int.log 2 |x| - 52 := by
    unfold expo at h ⊢
    rcases max_cases (Int.log 2 |x| - 52) (-1074) with ⟨e, -⟩ | ⟨e, -⟩
    · exact e
    · omega
  rw [he, sub_add_cancel]
  exact_mod_cast Int.zpow_log_le_self (b := 2) (by norm_num) (abs_pos.2 hx)

theorem abs_lt_expo (x : ℝ) : |x| < (2 : ℝ) ^ (expo x + 53) := by
  rcases eq_or_ne x 0 with rfl | hx
  · rw [abs_zero]; positivity
  have h := Int.lt_zpow_succ_log_self (b := 2) (by norm_num) |x|
  have h' : |x| < (2 : ℝ) ^ (Int.log 2 |x| + 1) := by exact_mod_cast h
  refine h'.trans_le (zpow_le_zpow_right₀ (by norm_num) ?_)
  have := le_max_left (Int.log 2 |x| - 52) (-1074)
  unfold expo
  omega

theorem nearest_zero : nearest 0 = 0 := by
  unfold nearest
  rw [zero_div]
  have : pyRound 0 = 0 := by simpa using pyRound_int 0
  rw [this]
  simp

/-- no integer is nearer than the rounded one -/
theorem pyRound_nearest (x : ℝ) (k : ℤ) : |(pyRound x : ℝ) - x| ≤ |(k : ℝ) - x| := by
  rcases eq_or_ne k (pyRound x) with rfl | hk
  · exact le_rfl
  have h1 := pyRound_near x
  have h2 : (1 : ℝ) ≤ |(k : ℝ) - pyRound x| := by
    have : (1 : ℤ) ≤ |k - pyRound x| := Int.one_le_abs (sub_ne_zero.2 hk)
    exact_mod_cast this
  have h3 : |(k : ℝ) - pyRound x| ≤ |(k : ℝ) - x| + |(pyRound x : ℝ) - x| := by
    have := abs_sub_le (k : ℝ) x (pyRound x)
    rwa [abs_sub_comm x] at this
  linarith

theorem nearest_sub (x : ℝ) : |nearest x - x| = 2 ^ expo x * |(pyRound (x / 2 ^ expo x) : ℝ) - x / 2 ^ expo x| := by
  have hp : (0 : ℝ) < 2 ^ expo x := by positivity
  have e : nearest x - x = 2 ^ expo x * ((pyRound (x / 2 ^ expo x) : ℝ) - x / 2 ^ expo x) := by
    unfold nearest
    field_simp
  rw [e, abs_mul, abs_of_pos hp]

/-- no multiple of the unit in the last place is nearer -/
theorem nearest_multiple (x : ℝ) (k : ℤ) : |nearest x - x| ≤ |(k : ℝ) * 2 ^ expo x - x| := by
  have hp : (0 : ℝ) < 2 ^ expo x := by positivity
  rw [nearest_sub]
  have e : (k : ℝ) * 2 ^ expo x - x = 2 ^ expo x * ((k : ℝ) - x / 2 ^ expo x) := by field_simp
  rw [e, abs_mul, abs_of_pos hp]
  exact mul_le_mul_of_nonneg_left (pyRound_nearest _ _) hp.le

/-- the error is at most half a unit in the last place -/
theorem nearest_half (x : ℝ) : |nearest x - x| ≤ 2 ^ expo x / 2 := by
  rw [nearest_sub]
  have := pyRound_near (x / 2 ^ expo x)
  have hp : (0 : ℝ) < 2 ^ expo x := by positivity
  calc (2 : ℝ) ^ expo x * |(pyRound (x / 2 ^ expo x) : ℝ) - x / 2 ^ expo x| ≤ 2 ^ expo x * (1 / 2) := by gcongr
    _ = _ := by ring

/-- a float is a multiple of `2^E`, or it has fewer digits than a number in units of `2^E` -/
theorem IsFloat.cases {r : ℝ} (hr : IsFloat r) (E : ℤ) (hE : -1074 ≤ E) : (∃ k : ℤ, r = k * 2 ^ E) ∨ (-1074 < E ∧ |r| < 2 ^ (E + 52)) := by
  obtain ⟨m, e, hm, he, rfl⟩ := hr
  rcases le_or_gt E e with h | h
  · left
    obtain ⟨k, rfl⟩ : ∃ k : ℕ, e = E + k := ⟨(e - E).toNat, by omega⟩
    refine ⟨m * 2 ^ k, ?_⟩
    push_cast
    rw [zpow_add₀ two_ne_zero, zpow_natCast]
    ring
  · right
    refine ⟨by omega, ?_⟩
    rw [abs_mul, abs_of_pos (by positivity : (0 : ℝ) < 2 ^ e)]
    have h1 : |(m : ℝ)| < 2 ^ (53 : ℤ) := by exact_mod_cast hm
    calc |(m : ℝ)| * 2 ^ e < 2 ^ (53 : ℤ) * 2 ^ e := by gcongr
      _ = 2 ^ (e + 53) := by rw [← zpow_add₀ two_ne_zero, add_comm]
      _ ≤ 2 ^ (E + 52) := zpow_le_zpow_right₀ (by norm_num) (by omega)

/-- no float is nearer to `x` than the rounded number -/
theorem nearest_best {r : ℝ} (hr : IsFloat r) (x : ℝ) : |nearest x - x| ≤ |r - x| := by
  rcases eq_or_ne x 0 with rfl | hx
  · rw [nearest_zero, sub_zero, abs_zero]; exact abs_nonneg _
  rcases hr.cases (expo x) (expo_ge x) with ⟨k, rfl⟩ | ⟨h1, h2⟩
  · exact nearest_multiple x k
  · have h3 := le_of_expo h1 hx
    have hq : (0 : ℝ) < 2 ^ (expo x + 52) := by positivity
    have e52 : ((2 ^ 52 : ℤ) : ℝ) * 2 ^ expo x = 2 ^ (expo x + 52) := by
      rw [zpow_add₀ two_ne_zero, mul_comm]; norm_num
    obtain ⟨r1, r2⟩ := abs_lt.1 h2
    rcases lt_or_gt_of_ne hx with hn | hn
    · rw [abs_of_neg hn] at h3
      refine (nearest_multiple x (-2 ^ 52)).trans ?_
      have : (((-2 ^ 52 : ℤ)) : ℝ) * 2 ^ expo x = -2 ^ (expo x + 52) := by rw [← e52]; push_cast; ring
      rw [this, abs_of_nonneg (by linarith), abs_of_nonneg (by linarith)]
      linarith
    · rw [abs_of_pos hn] at h3
      refine (nearest_multiple x (2 ^ 52)).trans ?_
      rw [e52, abs_of_nonpos (by linarith), abs_of_nonpos (by linarith)]
      linarith

/-- floats are not changed -/
theorem nearest_exact {x : ℝ} (h : IsFloat x) : nearest x = x := by
  have := nearest_best h x
  rw [sub_self, abs_zero] at this
  exact sub_eq_zero.1 (abs_nonpos_iff.1 this)

/-- the result of rounding is a float -/
theorem nearest_isFloat (x : ℝ) : IsFloat (nearest x) := by
  have h1 := abs_lt_expo x
  have hp : (0 : ℝ) < 2 ^ expo x := by positivity
  have h2 : |x / 2 ^ expo x| < 2 ^ 53 := by
    rw [abs_div, abs_of_pos hp, div_lt_iff₀ hp]
    rw [add_comm, zpow_add₀ two_ne_zero] at h1
    exact_mod_cast h1
  have h3 : |pyRound (x / 2 ^ expo x)| ≤ 2 ^ 53 := by
    have h4 := pyRound_near (x / 2 ^ expo x)
    obtain ⟨a1, a2⟩ := abs_le.1 h4
    obtain ⟨b1, b2⟩ := abs_lt.1 h2
    have c1 : (pyRound (x / 2 ^ expo x) : ℝ) < ((2 ^ 53 + 1 : ℤ) : ℝ) := by push_cast; linarith
    have c2 : ((-(2 ^ 53 + 1) : ℤ) : ℝ) < pyRound (x / 2 ^ expo x) := by push_cast; linarith
    have d1 := Int.cast_lt.1 c1
    have d2 := Int.cast_lt.1 c2
    rw [abs_le]
    constructor <;> omega
  rcases h3.lt_or_eq with h | h
  · exact ⟨_, _, h, expo_ge x, by unfold nearest; ring⟩
  · rcases abs_choice (pyRound (x / 2 ^ expo x)) with hc | hc
    · refine ⟨2 ^ 52, expo x + 1, by norm_num, by have := expo_ge x; omega, ?_⟩
      unfold nearest
      rw [← hc, h, zpow_add₀ two_ne_zero]
      push_cast
      norm_num
      ring
    · refine ⟨-2 ^ 52, expo x + 1, by norm_num, by have := expo_ge x; omega, ?_⟩
      unfold nearest
      have : pyRound (x / 2 ^ expo x) = -2 ^ 53 := by omega
      rw [this, zpow_add₀ two_ne_zero]
      push_cast
      norm_num
      ring

/-- rounding keeps the order -/
theorem nearest_mono {x y : ℝ} (h : x ≤ y) : nearest x ≤ nearest y := by
  rcases h.eq_or_lt with rfl | h
  · exact le_rfl
  by_contra hc
  rw [not_le] at hc
  have h1 := nearest_best (nearest_isFloat y) x
  have h2 := nearest_best (nearest_isFloat x) y
  have a : (nearest x + nearest y) / 2 ≤ x := by
    by_contra hx
    rw [not_le] at hx
    rw [abs_of_pos (by linarith)] at h1
    rcases abs_cases (nearest y - x) with ⟨e, -⟩ | ⟨e, -⟩ <;> rw [e] at h1 <;> linarith
  have b : y ≤ (nearest x + nearest y) / 2 := by
    by_contra hy
    rw [not_le] at hy
    rw [abs_of_neg (by linarith : nearest y - y < 0)] at h2
    rcases abs_cases (nearest x - y) with ⟨e, -⟩ | ⟨e, -⟩ <;> rw [e] at h2 <;> linarith
  linarith

theorem IsFloat.zero : IsFloat 0 := ⟨0, 0, by norm_num, by norm_num, by simp⟩

/-- doubling is exact -/
theorem IsFloat.twice {x : ℝ} (h : IsFloat x) : IsFloat (2 * x) := by
  obtain ⟨m, e, hm, he, rfl⟩ := h
  exact ⟨m, e + 1, hm, by omega, by rw [zpow_add₀ two_ne_zero]; ring⟩

/-- halving is exact away from the smallest numbers -/
theorem IsFloat.half {x : ℝ} (h : IsFloat x) (hx : 2 ^ (-1000 : ℤ) ≤ |x|) : IsFloat (x / 2) := by
  obtain ⟨m, e, hm, he, rfl⟩ := h
  rcases he.eq_or_lt with rfl | he
  · exfalso
    rw [abs_mul, abs_of_pos (by positivity : (0 : ℝ) < 2 ^ (-1074 : ℤ))] at hx
    have h1 : |(m : ℝ)| < 2 ^ (53 : ℤ) := by exact_mod_cast hm
    have h2 : |(m : ℝ)| * 2 ^ (-1074 : ℤ) < 2 ^ (53 : ℤ) * 2 ^ (-1074 : ℤ) := by gcongr
    rw [← zpow_add₀ two_ne_zero] at h2
    have h3 : (2 : ℝ) ^ ((53 : ℤ) + -1074) ≤ 2 ^ (-1000 : ℤ) := zpow_le_zpow_right₀ (by norm_num) (by norm_num)
    linarith
  · refine ⟨m, e - 1, hm, by omega, ?_⟩
    rw [zpow_sub₀ two_ne_zero]
    ring

/-- relative error of rounding -/
theorem nearest_near {x : ℝ} {D : ℝ} (hx : |x| ≤ D) (hD : 2 ^ (-1000 : ℤ) ≤ D) : |nearest x - x| ≤ D * 2 ^ (-53 : ℤ) := by
  have hD0 : 0 < D := lt_of_lt_of_le (by positivity) hD
  rcases eq_or_ne x 0 with rfl | hx0
  · rw [nearest_zero, sub_zero, abs_zero]; positivity
  refine (nearest_half x).trans ?_
  have h53 : (2 : ℝ) ^ (-53 : ℤ) = 2 ^ (-52 : ℤ) / 2 := by
    rw [show (-53 : ℤ) = -52 - 1 by norm_num, zpow_sub₀ two_ne_zero]; norm_num
  suffices (2 : ℝ) ^ expo x ≤ D * 2 ^ (-52 : ℤ) by
    rw [h53, ← mul_div_assoc]; gcongr
  rcases (expo_ge x).lt_or_eq with h | h
  · have h1 := (le_of_expo h hx0).trans hx
    rw [zpow_add₀ two_ne_zero] at h1
    calc (2 : ℝ) ^ expo x = 2 ^ expo x * 2 ^ (52 : ℤ) * 2 ^ (-52 : ℤ) := by
          rw [mul_assoc, ← zpow_add₀ two_ne_zero]; norm_num
      _ ≤ D * 2 ^ (-52 : ℤ) := by gcongr
  · rw [← h]
    calc (2 : ℝ) ^ (-1074 : ℤ) ≤ 2 ^ (-1000 : ℤ) * 2 ^ (-52 : ℤ) := by
          rw [← zpow_add₀ two_ne_zero]; exact zpow_le_zpow_right₀ (by norm_num) (by norm_num)
      _ ≤ D * 2 ^ (-52 : ℤ) := by gcongr

/-- a subtraction that is not too small against the number makes it smaller -/
theorem sub_lt {d t : ℝ} (hd0 : 0 < d) (ht : 2 ^ (-1000 : ℤ) ≤ t) (h : d * 2 ^ (-53 : ℤ) < t) : nearest (d - t) < d := by
  have ht0 : 0 < t := lt_of_lt_of_le (by positivity) ht
  rcases le_or_gt (d - t) 0 with hy | hy
  · have := nearest_mono hy
    rw [nearest_zero] at this
    linarith
  · have h1 := nearest_near (x := d - t) (D := d) (by rw [abs_of_pos hy]; linarith) (by linarith)
    have := (abs_le.1 h1).2
    linarith

/-- a subtraction that is too small is lost -/
theorem sub_same {d t : ℝ} (hd : IsFloat d) (ht0 : 0 < t) (h : t ≤ d * 2 ^ (-55 : ℤ)) : nearest (d - t) = d := by
  have hd0 : 0 < d := by
    by_contra hc
    have : d * 2 ^ (-55 : ℤ) ≤ 0 := mul_nonpos_of_nonpos_of_nonneg (not_lt.1 hc) (by positivity)
    linarith
  have hle : nearest (d - t) ≤ d := by
    have := nearest_mono (show d - t ≤ d by linarith)
    rwa [nearest_exact hd] at this
  have hb := nearest_best hd (d - t)
  rw [show d - (d - t) = t by ring, abs_of_pos ht0] at hb
  have hb1 := (abs_le.1 hb).1
  have h55 : (2 : ℝ) ^ (-55 : ℤ) ≤ 1 / 4 := by norm_num
  have ht4 : t ≤ d * (1 / 4) := h.trans (by gcongr)
  have hy : 0 < d - t := by linarith
  have hx := abs_lt_expo (d - t)
  rw [abs_of_pos hy, add_comm, zpow_add₀ two_ne_zero] at hx
  have hgap : d - nearest (d - t) < 2 ^ expo (d - t) := by
    have h1 : d - nearest (d - t) ≤ 2 * t := by linarith
    have h2 : (d - t) * 2 ^ (-53 : ℤ) < 2 ^ expo (d - t) := by
      have : (2 : ℝ) ^ expo (d - t) = 2 ^ (53 : ℤ) * 2 ^ expo (d - t) * 2 ^ (-53 : ℤ) := by
        rw [mul_comm ((2 : ℝ) ^ (53 : ℤ)), mul_assoc, ← zpow_add₀ two_ne_zero]; norm_num
      rw [this]
      gcongr
    have h3 : (2 : ℝ) ^ (-53 : ℤ) = 4 * 2 ^ (-55 : ℤ) := by norm_num
    rw [h3] at h2
    have h4 : t * 2 ^ (-55 : ℤ) ≤ d * (1 / 4) * 2 ^ (-55 : ℤ) := by gcongr
    have h5 : (d - t) * (4 * (2 : ℝ) ^ (-55 : ℤ)) = 4 * (d * 2 ^ (-55 : ℤ)) - 4 * (t * 2 ^ (-55 : ℤ)) := by ring
    have h6 : d * (1 / 4) * (2 : ℝ) ^ (-55 : ℤ) = d * 2 ^ (-55 : ℤ) / 4 := by ring
    have h7 : 0 < d * (2 : ℝ) ^ (-55 : ℤ) := by positivity
    clear h3 hx
    generalize (2 : ℝ) ^ expo (d - t) = q at *
    generalize (2 : ℝ) ^ (-55 : ℤ) = c at *
    linarith
  rcases hd.cases (expo (d - t)) (expo_ge _) with ⟨k, hk⟩ | ⟨h1, h2⟩
  · have hn : nearest (d - t) = (pyRound ((d - t) / 2 ^ expo (d - t)) : ℝ) * 2 ^ expo (d - t) := by unfold nearest; ring
    set q := expo (d - t)
    have hp : (0 : ℝ) < 2 ^ q := by positivity
    rw [hn] at hle hgap ⊢
    rw [hk] at hle hgap ⊢
    generalize pyRound ((k * 2 ^ q - t) / 2 ^ q) = j at *
    have e1 : (j : ℝ) ≤ k := le_of_mul_le_mul_right hle hp
    have e2 : (k : ℝ) - j < 1 := by
      have : ((k : ℝ) - j) * 2 ^ q < 1 * 2 ^ q := by linarith
      exact lt_of_mul_lt_mul_right this hp.le
    have f1 : j ≤ k := by exact_mod_cast e1
    have f2 : k - j < 1 := by exact_mod_cast e2
    have : j = k := by omega
    rw [this]
  · have h3 := le_of_expo h1 hy.ne'
    rw [abs_of_pos hy] at h3
    rw [abs_of_pos hd0] at h2
    linarith

end PyNLO.Double
