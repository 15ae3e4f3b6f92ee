import Verif.Model.OdeFloat
import Verif.Lemmas.Double
import Verif.Props.OdeRuns

/-!
# C173: end point and saved positions of the integrator in double precision
-/

namespace PyNLO.Ode

open Double

variable {n : ℕ}

/-- C173: without rounding the model is that of C52 to C60. -/
theorem C173_model (p : Prob n) (con : Con) (y0 : V n) (x1 x2 h1 hmin : ℝ) (out : Out n) :
    (Ode.newF id con y0 x1 x2 h1 hmin out).integrateF id p = (Ode.new con y0 x1 x2 h1 hmin out).integrate p := by
  have hb : ∀ (s : Stepper n) (x h : ℝ), Out.outBodyF id s x h = Out.outBody s x h := fun s x h => rfl
  have ho : ∀ (o : Out n) k x y (s : Stepper n) h, o.outF id k x y s h = o.out k x y s h := by
    intro o k x y s h
    unfold Out.outF Out.out
    rw [hb]
    rfl
  have hr : ∀ (o : Ode n) k x y h, o.recordF id p k x y h = o.record p k x y h := by
    intro o k x y h
    unfold Ode.recordF Ode.record
    rw [ho]
    rfl
  have hi : ∀ (o : Ode n) k, o.iterF id p k = o.iter p k := by
    intro o k
    have hc : o.clipF id = o.clip := rfl
    unfold Ode.iterF Ode.iter
    rw [hc, show stepF id p o.clip.s o.clip.h o.clip.con = step p o.clip.s o.clip.h o.clip.con from rfl]
    simp only [hr]
    rfl
  have hl : ∀ m k (o : Ode n), o.loopF id p m k = Ode.loop p m k o := by
    intro m
    induction m with
    | zero => intro k o; rfl
    | succ m ih =>
      intro k o
      unfold Ode.loopF Ode.loop
      rw [hi]
      simp only [ih]
      rfl
  unfold Ode.integrateF Ode.integrate
  simp only [hr, hl]
  rfl

/-! ## Positions are floats -/

/-- neighbouring floats -/
theorem float_gap {x y : ℝ} (hx : IsFloat x) (hy : IsFloat y) (h : x < y) : y * 2 ^ (-55 : ℤ) < y - x := by
  by_contra hc
  have := sub_same hy (sub_pos.2 h) (not_lt.1 hc)
  rw [sub_sub_cancel, nearest_exact hx] at this
  exact h.ne this

theorem IsFloat.add_exp {x y : ℝ} (hx : IsFloat x) (hy : IsFloat y) : ∃ (k e : ℤ), -1074 ≤ e ∧ y - x = k * 2 ^ e ∧
    ((∃ m : ℤ, |m| < 2 ^ 53 ∧ x = m * 2 ^ e) ∨ (∃ m : ℤ, |m| < 2 ^ 53 ∧ y = m * 2 ^ e)) := by
  obtain ⟨a, e, ha, he, rfl⟩ := hx
  obtain ⟨b, f, hb, hf, rfl⟩ := hy
  rcases le_total e f with h | h
  · obtain ⟨k, rfl⟩ : ∃ k : ℕ, f = e + k := ⟨(f - e).toNat, by omega⟩
    refine ⟨b * 2 ^ k - a, e, he, ?_, Or.inl ⟨a, ha, rfl⟩⟩
    rw [zpow_add₀ two_ne_zero, zpow_natCast]; push_cast; ring
  · obtain ⟨k, rfl⟩ : ∃ k : ℕ, e = f + k := ⟨(e - f).toNat, by omega⟩
    refine ⟨b - a * 2 ^ k, f, hf, ?_, Or.inr ⟨b, hb, rfl⟩⟩
    rw [zpow_add₀ two_ne_zero, zpow_natCast]; push_cast; ring

/-- the difference of distinct floats is at least the smallest float -/
theorem float_diff {x y : ℝ} (hx : IsFloat x) (hy : IsFloat y) (h : x < y) : (2 : ℝ) ^ (-1074 : ℤ) ≤ y - x := by
  obtain ⟨k, e, he, hk, -⟩ := IsFloat.add_exp hx hy
  have hp : (0 : ℝ) < 2 ^ e := by positivity
  have h1 : (0 : ℝ) < k * 2 ^ e := by rw [← hk]; linarith
  have h2 : (0 : ℝ) < k := by
    by_contra hc
    have := mul_nonpos_of_nonpos_of_nonneg (not_lt.1 hc) hp.le
    linarith
  have h3 : (1 : ℤ) ≤ k := by exact_mod_cast h2
  have h4 : (1 : ℝ) ≤ k := by exact_mod_cast h3
  have h5 : (2 : ℝ) ^ (-1074 : ℤ) ≤ 2 ^ e := zpow_le_zpow_right₀ (by norm_num) he
  rw [hk]
  calc (2 : ℝ) ^ (-1074 : ℤ) ≤ 1 * 2 ^ e := by rw [one_mul]; exact h5
    _ ≤ k * 2 ^ e := by gcongr

/-- Sterbenz: the difference of floats within a factor two is a float -/
theorem sterbenz {x y : ℝ} (hx : IsFloat x) (hy : IsFloat y) (h1 : y / 2 ≤ x) (h2 : x ≤ y) : IsFloat (y - x) := by
  obtain ⟨k, e, he, hk, hm⟩ := IsFloat.add_exp hx hy
  have hp : (0 : ℝ) < 2 ^ e := by positivity
  refine ⟨k, e, ?_, he, hk⟩
  have h0 : 0 ≤ y - x := by linarith
  have hk0 : (0 : ℝ) ≤ k := by
    by_contra hc
    have := mul_neg_of_neg_of_pos (not_le.1 hc) hp
    linarith
  have key : ∀ m : ℤ, |m| < 2 ^ 53 → (k : ℝ) * 2 ^ e ≤ m * 2 ^ e → |k| < 2 ^ 53 := by
    intro m hm hle
    have h3 : (k : ℝ) ≤ m := le_of_mul_le_mul_right hle hp
    have h4 : k ≤ m := by exact_mod_cast h3
    have h5 : 0 ≤ k := by exact_mod_cast hk0
    rw [abs_of_nonneg h5]
    exact (h4.trans (le_abs_self m)).trans_lt hm
  rcases hm with ⟨m, hm, e1⟩ | ⟨m, hm, e1⟩
  · exact key m hm (by rw [← hk, ← e1]; linarith)
  · exact key m hm (by rw [← hk, ← e1]; linarith)

theorem isFloat_tiny : IsFloat ((2 : ℝ) ^ (-1074 : ℤ)) := ⟨1, -1074, by norm_num, le_rfl, by simp⟩

theorem nearest_nonneg {x : ℝ} (h : 0 ≤ x) : 0 ≤ nearest x := by
  have := nearest_mono h
  rwa [nearest_zero] at this

theorem nearest_nonpos {x : ℝ} (h : x ≤ 0) : nearest x ≤ 0 := by
  have := nearest_mono h
  rwa [nearest_zero] at this

theorem nearest_pos {x : ℝ} (h : 2 ^ (-1074 : ℤ) ≤ x) : 0 < nearest x := by
  have := nearest_mono h
  rw [nearest_exact isFloat_tiny] at this
  exact lt_of_lt_of_le (by positivity) this

/-- rounding keeps at least half of a number that is not too small -/
theorem nearest_half_le {x : ℝ} (h : 2 ^ (-1000 : ℤ) ≤ x) : x / 2 ≤ nearest x ∧ nearest x ≤ 2 * x := by
  have h0 : 0 < x := lt_of_lt_of_le (by positivity) h
  have h1 := nearest_near (x := x) (D := x) (by rw [abs_of_pos h0]) h
  have h2 : x * (2 : ℝ) ^ (-53 : ℤ) ≤ x * (1 / 2) := by
    have : (2 : ℝ) ^ (-53 : ℤ) ≤ 1 / 2 := by norm_num
    gcongr
  rw [abs_le] at h1
  generalize x * (2 : ℝ) ^ (-53 : ℤ) = c at h1 h2
  constructor <;> linarith [h1.1, h1.2]

theorem nearest_neg {x : ℝ} (h : x ≤ -2 ^ (-1000 : ℤ)) : nearest x ≤ x / 2 := by
  have h0 : x < 0 := lt_of_le_of_lt h (by simp)
  have h1 := nearest_near (x := x) (D := -x) (by rw [abs_of_neg h0]) (by linarith)
  have h2 : -x * (2 : ℝ) ^ (-53 : ℤ) ≤ -x * (1 / 2) := by
    have : (2 : ℝ) ^ (-53 : ℤ) ≤ 1 / 2 := by norm_num
    exact mul_le_mul_of_nonneg_left this (by linarith)
  rw [abs_le] at h1
  generalize -x * (2 : ℝ) ^ (-53 : ℤ) = c at h1 h2
  linarith [h1.2]

theorem half_chain {a b c : ℝ} (h1 : a ≤ b) (h2 : b / 2 ≤ c) : a / 2 ≤ c := by linarith

/-- An interval of integration as the program holds it: floats, not negative, increasing, not absurdly small. -/
structure Ends (x1 x2 : ℝ) : Prop where
  float1 : IsFloat x1
  float2 : IsFloat x2
  nonneg : 0 ≤ x1
  lt : x1 < x2
  large : 2 ^ (-400 : ℤ) ≤ x2

theorem pow_le_large {x2 : ℝ} (h : (2 : ℝ) ^ (-400 : ℤ) ≤ x2) {k j : ℤ} (hk : j ≤ k - 400) : (2 : ℝ) ^ j ≤ x2 * 2 ^ k := by
  calc (2 : ℝ) ^ j ≤ 2 ^ (-400 + k) := zpow_le_zpow_right₀ (by norm_num) (by omega)
    _ = 2 ^ (-400 : ℤ) * 2 ^ k := zpow_add₀ two_ne_zero _ _
    _ ≤ x2 * 2 ^ k := by gcongr

theorem Ends.pos {x1 x2 : ℝ} (h : Ends x1 x2) : 0 < x2 := lt_of_lt_of_le (by positivity) h.large

/-- the length of the interval, rounded -/
theorem Ends.len {x1 x2 : ℝ} (h : Ends x1 x2) : x2 * 2 ^ (-56 : ℤ) ≤ nearest (x2 - x1) ∧ nearest (x2 - x1) ≤ 2 * x2 := by
  have h1 := float_gap h.float1 h.float2 h.lt
  have h2 := nearest_half_le ((pow_le_large h.large (k := -55) (j := -1000) (by norm_num)).trans h1.le)
  have h3 : x2 * (2 : ℝ) ^ (-56 : ℤ) = x2 * 2 ^ (-55 : ℤ) / 2 := by
    rw [show (-56 : ℤ) = -55 - 1 by norm_num, zpow_sub₀ two_ne_zero]; ring
  refine ⟨by rw [h3]; exact half_chain h1.le h2.1, ?_⟩
  linarith [h2.2, h.nonneg]

/-- the test that ends an integration is exact -/
theorem Ends.done {x1 x2 x : ℝ} (h : Ends x1 x2) (hx : IsFloat x) : nearest (nearest (x - x2) * nearest (x2 - x1)) ≥ 0 ↔ x2 ≤ x := by
  constructor
  · intro hc
    by_contra hlt
    rw [not_le] at hlt
    have h1 := float_gap hx h.float2 hlt
    have hL := h.len.1
    have h2 : nearest (x - x2) ≤ (x - x2) / 2 := nearest_neg (by linarith [pow_le_large h.large (k := -55) (j := -1000) (by norm_num)])
    have h3 : x2 * (2 : ℝ) ^ (-56 : ℤ) ≤ -nearest (x - x2) := by
      have h3 : x2 * (2 : ℝ) ^ (-56 : ℤ) = x2 * 2 ^ (-55 : ℤ) / 2 := by
        rw [show (-56 : ℤ) = -55 - 1 by norm_num, zpow_sub₀ two_ne_zero]; ring
      rw [h3]; exact half_chain h1.le (by linarith)
    have h4 : (2 : ℝ) ^ (-456 : ℤ) ≤ x2 * 2 ^ (-56 : ℤ) := pow_le_large h.large (by norm_num)
    have h5 : (2 : ℝ) ^ (-456 : ℤ) * 2 ^ (-456 : ℤ) ≤ -nearest (x - x2) * nearest (x2 - x1) :=
      mul_le_mul (h4.trans h3) (h4.trans hL) (by positivity) ((by positivity : (0 : ℝ) ≤ 2 ^ (-456 : ℤ)).trans (h4.trans h3))
    have h6 : (2 : ℝ) ^ (-1000 : ℤ) ≤ 2 ^ (-456 : ℤ) * 2 ^ (-456 : ℤ) := by
      rw [← zpow_add₀ two_ne_zero]; exact zpow_le_zpow_right₀ (by norm_num) (by norm_num)
    have h7 := nearest_neg (x := nearest (x - x2) * nearest (x2 - x1)) (by linarith)
    have h8 : (0 : ℝ) < 2 ^ (-1000 : ℤ) := by positivity
    linarith
  · intro hle
    have h1 := nearest_nonneg (sub_nonneg.2 hle)
    have h2 := nearest_nonneg (sub_nonneg.2 h.lt.le)
    exact nearest_nonneg (mul_nonneg h1 h2)

/-- the test that shortens a step is exact -/
theorem Ends.clips {x1 x2 A : ℝ} (h : Ends x1 x2) (hA : IsFloat A) : nearest (nearest (A - x2) / nearest (x2 - x1)) > 0 ↔ x2 < A := by
  have hL := h.len
  have hp := h.pos
  have hL0 : 0 < nearest (x2 - x1) := lt_of_lt_of_le (by positivity) hL.1
  constructor
  · intro hc
    by_contra hle
    rw [not_lt] at hle
    have h1 := nearest_nonpos (sub_nonpos.2 hle)
    have h2 := nearest_nonpos (div_nonpos_of_nonpos_of_nonneg h1 hL0.le)
    linarith
  · intro hlt
    have h1 := float_gap h.float2 hA hlt
    have h2 : x2 * (2 : ℝ) ^ (-55 : ℤ) ≤ A * 2 ^ (-55 : ℤ) := by gcongr
    have h3 := (nearest_half_le ((pow_le_large h.large (k := -55) (j := -1000) (by norm_num)).trans (h2.trans h1.le))).1
    apply nearest_pos
    rw [le_div_iff₀ hL0]
    calc (2 : ℝ) ^ (-1074 : ℤ) * nearest (x2 - x1) ≤ 2 ^ (-57 : ℤ) * (2 * x2) := by
          apply mul_le_mul _ hL.2 hL0.le (by positivity)
          exact zpow_le_zpow_right₀ (by norm_num) (by norm_num)
      _ = x2 * 2 ^ (-55 : ℤ) / 2 := by
          rw [show (-55 : ℤ) = -57 + 2 by norm_num, zpow_add₀ two_ne_zero]; norm_num; ring
      _ ≤ nearest (A - x2) := half_chain (h2.trans h1.le) h3

/-- the test for a row to be saved: never early -/
theorem Ends.row {x1 x2 x xo : ℝ} (h : Ends x1 x2) (hc : nearest (nearest (x - xo) * nearest (x2 - x1)) > 0) : xo < x := by
  by_contra hle
  rw [not_lt] at hle
  have h1 := nearest_nonpos (sub_nonpos.2 hle)
  have h2 := nearest_nonneg (sub_nonneg.2 h.lt.le)
  have := nearest_nonpos (mul_nonpos_of_nonpos_of_nonneg h1 h2)
  linarith

/-- at the end of the interval the test for a row to be saved is exact -/
theorem Ends.row_end {x1 x2 x xo : ℝ} (h : Ends x1 x2) (hx : IsFloat x) (hxo : IsFloat xo) (hle : x2 ≤ x) (hlt : xo < x) :
    nearest (nearest (x - xo) * nearest (x2 - x1)) > 0 := by
  have h1 := float_gap hxo hx hlt
  have h2 : x2 * (2 : ℝ) ^ (-55 : ℤ) ≤ x * 2 ^ (-55 : ℤ) := by gcongr
  have h3 := (nearest_half_le ((pow_le_large h.large (k := -55) (j := -1000) (by norm_num)).trans (h2.trans h1.le))).1
  have h4 : x2 * (2 : ℝ) ^ (-56 : ℤ) ≤ nearest (x - xo) := by
    have h4 : x2 * (2 : ℝ) ^ (-56 : ℤ) = x2 * 2 ^ (-55 : ℤ) / 2 := by
      rw [show (-56 : ℤ) = -55 - 1 by norm_num, zpow_sub₀ two_ne_zero]; ring
    rw [h4]; exact half_chain (h2.trans h1.le) h3
  have h5 : (2 : ℝ) ^ (-456 : ℤ) ≤ x2 * 2 ^ (-56 : ℤ) := pow_le_large h.large (by norm_num)
  apply nearest_pos
  calc (2 : ℝ) ^ (-1074 : ℤ) ≤ 2 ^ (-456 + -456 : ℤ) := zpow_le_zpow_right₀ (by norm_num) (by norm_num)
    _ = 2 ^ (-456 : ℤ) * 2 ^ (-456 : ℤ) := zpow_add₀ two_ne_zero _ _
    _ ≤ nearest (x - xo) * nearest (x2 - x1) :=
      mul_le_mul (h5.trans h4) (h5.trans h.len.1) (by positivity) ((by positivity : (0 : ℝ) ≤ 2 ^ (-456 : ℤ)).trans (h5.trans h4))

/-- a step of the length that is left ends within a few units in the last place of the end -/
theorem Ends.last {x1 x2 x : ℝ} (h : Ends x1 x2) (h0 : 0 ≤ x) (hlt : x < x2) :
    |nearest (x + nearest (x2 - x)) - x2| ≤ x2 * 2 ^ (-51 : ℤ) := by
  have hp := h.pos
  have hl : (2 : ℝ) ^ (-1000 : ℤ) ≤ x2 := le_trans (zpow_le_zpow_right₀ (by norm_num) (by norm_num)) h.large
  have h1 := nearest_near (x := x2 - x) (D := x2) (by rw [abs_of_pos (by linarith)]; linarith) hl
  have hc : x2 * (2 : ℝ) ^ (-53 : ℤ) ≤ x2 := by
    have : (2 : ℝ) ^ (-53 : ℤ) ≤ 1 := by norm_num
    exact mul_le_of_le_one_right hp.le this
  have h2 := nearest_near (x := x + nearest (x2 - x)) (D := 2 * x2) (by
    rw [abs_le] at h1 ⊢
    generalize x2 * (2 : ℝ) ^ (-53 : ℤ) = c at *
    constructor <;> linarith [h1.1, h1.2]) (by linarith)
  have h3 : x2 * (2 : ℝ) ^ (-51 : ℤ) = 4 * (x2 * 2 ^ (-53 : ℤ)) := by
    rw [show (-51 : ℤ) = -53 + 2 by norm_num, zpow_add₀ two_ne_zero]; norm_num; ring
  have hc0 : 0 < x2 * (2 : ℝ) ^ (-53 : ℤ) := by positivity
  rw [h3]
  rw [mul_assoc] at h2
  generalize x2 * (2 : ℝ) ^ (-53 : ℤ) = c at *
  rw [abs_le] at *
  constructor <;> linarith [h1.1, h1.2, h2.1, h2.2]

/-- from the second half of the interval, or from zero, it ends at the end -/
theorem Ends.last_exact {x1 x2 x : ℝ} (h : Ends x1 x2) (hx : IsFloat x) (hlt : x < x2) (hh : x = 0 ∨ x2 / 2 ≤ x) :
    nearest (x + nearest (x2 - x)) = x2 := by
  have hf : IsFloat (x2 - x) := by
    rcases hh with rfl | hh
    · rw [sub_zero]; exact h.float2
    · exact sterbenz hx h.float2 hh hlt.le
  rw [nearest_exact hf, add_sub_cancel, nearest_exact h.float2]

theorem isFloat_one : IsFloat 1 := ⟨1, 0, by norm_num, by norm_num, by norm_num⟩

/-- lengthening a step by the factor of the test does not shorten it -/
theorem le_stretch {h : ℝ} (hf : IsFloat h) (h0 : 0 ≤ h) : h ≤ nearest (h * nearest 1.0001) := by
  have h1 : 1 ≤ nearest 1.0001 := by
    have := nearest_mono (show (1 : ℝ) ≤ 1.0001 by norm_num)
    rwa [nearest_exact isFloat_one] at this
  have := nearest_mono (le_mul_of_one_le_right h0 h1)
  rwa [nearest_exact hf] at this

/-! ## The loop -/

variable {rnd : ℝ → ℝ}

theorem Out.outF_inv {o : Out n} (h : o.Inv) {k : ℤ} {x : ℝ} {y : V n} {s : Stepper n} {hh : ℝ}
    {r : Except PyErr Unit} {u : Out n} (hr : o.outF rnd k x y s hh = some (r, u)) : u.Inv := by
  unfold outF at hr
  by_cases hd : o.dense = true
  · rw [if_pos hd] at hr
    by_cases hk : k = 1
    · rw [if_pos hk] at hr
      have hs := Out.save_inv h x y
      rcases hsv : o.save x y with ⟨_ | _, v⟩
      · rw [hsv] at hr hs
        simp only [Option.some.injEq, Prod.mk.injEq] at hr
        rw [← hr.2]; exact hs
      · rw [hsv] at hr hs
        simp only [Option.some.injEq, Prod.mk.injEq] at hr
        rw [← hr.2]; exact Out.inv_xout hs _
    · rw [if_neg hk] at hr
      refine runLoop_invariant (I := Out.Inv) (Q := fun r => r.2.Inv) ?_ ?_ h hr
      · intro a b ha hb
        unfold outBodyF at hb
        split_ifs at hb
        have hs := Out.saveDense_inv ha a.xout (denseOut s a.xout hh)
        rcases hsv : a.saveDense a.xout (denseOut s a.xout hh) with ⟨_ | _, v⟩
        · rw [hsv] at hb; simp at hb
        · rw [hsv] at hb hs
          simp only [Sum.inl.injEq] at hb
          rw [← hb]; exact Out.inv_xout hs _
      · intro a b ha hb
        unfold outBodyF at hb
        split_ifs at hb
        · have hs := Out.saveDense_inv ha a.xout (denseOut s a.xout hh)
          rcases hsv : a.saveDense a.xout (denseOut s a.xout hh) with ⟨_ | _, v⟩
          · rw [hsv] at hb hs
            simp only [Sum.inr.injEq] at hb
            rw [← hb]; exact hs
          · rw [hsv] at hb; simp at hb
        · simp only [Sum.inr.injEq] at hb
          rw [← hb]; exact ha
  · rw [if_neg hd] at hr
    simp only [Option.some.injEq, Prod.mk.injEq] at hr
    rw [← hr.2]; exact h

theorem recordF_cases {p : Prob n} {o o' : Ode n} {k : ℤ} {x : ℝ} {y : V n} {h : ℝ} {r : Except PyErr Unit}
    (hr : o.recordF rnd p k x y h = some (r, o')) :
    ∃ u, o' = { o with out := u } ∧ (p.dense = true ∧ o.out.outF rnd k x y o.s h = some (r, u) ∨
      p.dense = false ∧ o.out.save x y = (r, u)) := by
  unfold Ode.recordF at hr
  cases hd : p.dense
  · rw [hd] at hr
    simp only [Bool.false_eq_true, if_false] at hr
    rcases hs : o.out.save x y with ⟨r', u⟩
    rw [hs] at hr
    simp only [Option.some.injEq, Prod.mk.injEq] at hr
    exact ⟨u, hr.2.symm, Or.inr ⟨rfl, by rw [hr.1]⟩⟩
  · rw [hd] at hr
    simp only [if_true] at hr
    rcases hs : o.out.outF rnd k x y o.s h with _ | ⟨r', u⟩
    · rw [hs] at hr; simp at hr
    · rw [hs] at hr
      simp only [Option.some.injEq, Prod.mk.injEq] at hr
      exact ⟨u, hr.2.symm, Or.inl ⟨rfl, by rw [hr.1]⟩⟩

theorem recordF_inv {p : Prob n} {o o' : Ode n} {k : ℤ} {x : ℝ} {y : V n} {h : ℝ} {r : Except PyErr Unit}
    (hi : o.out.Inv) (hr : o.recordF rnd p k x y h = some (r, o')) : ∃ u : Out n, u.Inv ∧ o' = { o with out := u } := by
  obtain ⟨u, rfl, ⟨-, hu⟩ | ⟨-, hu⟩⟩ := recordF_cases hr
  · exact ⟨u, Out.outF_inv hi hu, rfl⟩
  · exact ⟨u, by have := Out.save_inv hi x y; rwa [hu] at this, rfl⟩

theorem afterF_cases {o : Ode n} (hi : o.out.Inv) :
    (rnd (rnd (o.s.x - o.x2) * rnd (o.x2 - o.x1)) ≥ 0 ∧ ∃ u : Out n, u.Inv ∧
      (u = o.out ∧ (0 < o.out.kmax → |rnd (o.out.lastX - o.x2)| ≤ rnd (rnd (100 * |o.x2|) * EPS)) ∨
        o.out.save o.s.x o.s.y = (.ok (), u) ∧ |rnd (o.out.lastX - o.x2)| > rnd (rnd (100 * |o.x2|) * EPS)) ∧
      o.afterF rnd = (.ok true, { o with ystart := o.s.y, out := u })) ∨
    (¬ rnd (rnd (o.s.x - o.x2) * rnd (o.x2 - o.x1)) ≥ 0 ∧ |o.s.hnext| ≤ o.hmin ∧ o.afterF rnd = (.error .RuntimeError, o)) ∨
    (¬ rnd (rnd (o.s.x - o.x2) * rnd (o.x2 - o.x1)) ≥ 0 ∧ ¬ |o.s.hnext| ≤ o.hmin ∧ o.afterF rnd = (.ok false, { o with h := o.s.hnext })) := by
  unfold Ode.afterF
  by_cases hf : rnd (rnd (o.s.x - o.x2) * rnd (o.x2 - o.x1)) ≥ 0
  · left
    refine ⟨hf, ?_⟩
    rw [if_pos hf]
    by_cases hs : o.out.kmax > 0 ∧ |rnd (o.out.lastX - o.x2)| > rnd (rnd (100 * |o.x2|) * EPS)
    · simp only [if_pos hs]
      obtain ⟨u, h1, h2, -⟩ := Out.save_ok (hi.resolve_left (by omega)) o.s.x o.s.y
      exact ⟨u, Or.inr h2, Or.inr ⟨h1, hs.2⟩, by rw [h1]⟩
    · simp only [if_neg hs]
      refine ⟨o.out, hi, Or.inl ⟨rfl, fun hk => ?_⟩, rfl⟩
      by_contra hc
      exact hs ⟨hk, not_le.1 hc⟩
  · right
    rw [if_neg hf]
    by_cases hm : |o.s.hnext| ≤ o.hmin
    · left; exact ⟨hf, hm, by rw [if_pos hm]⟩
    · right; exact ⟨hf, hm, by rw [if_neg hm]⟩

theorem stepF_ok {p : Prob n} {s s' : Stepper n} {htry : ℝ} {c c' : Con} (hr : stepF rnd p s htry c = some (.ok (), s', c')) :
    ∃ c'', stepLoop p.fl (fun h => error p.atol p.rtol s.y (dy p.f s.x s.y s.dydx h) h) s.x htry c = some (.ok s'.hdid, c'') ∧
    s'.x = rnd (s.x + s'.hdid) ∧ s'.hnext = rnd c''.hnext := by
  unfold stepF at hr
  rcases h : stepLoop p.fl (fun h => error p.atol p.rtol s.y (dy p.f s.x s.y s.dydx h) h) s.x htry c with
    _ | ⟨_ | h', c''⟩
  · rw [h] at hr; simp at hr
  · rw [h] at hr; simp at hr
  · rw [h] at hr
    simp only [Option.some.injEq, Prod.mk.injEq, true_and] at hr
    obtain ⟨h1, h2⟩ := hr
    subst h1 h2
    exact ⟨c'', rfl, rfl, rfl⟩

/-- Positions, beginning with `x1`, never go back and stay below the end. -/
structure RunF (x1 x2 : ℝ) (y0 : V n) (o : Ode n) : Prop where
  hx1 : o.x1 = x1
  hx2 : o.x2 = x2
  hy : o.ystart = y0
  out : o.out.Inv
  float : IsFloat o.s.x
  past : ∃ l, x1 :: o.visited = l ++ [o.s.x]
  sorted : (x1 :: o.visited).Pairwise (· ≤ ·)
  before : ∀ x ∈ x1 :: o.visited, x < x2
  step : IsFloat o.h ∧ 0 ≤ o.h

/-- What is left behind when an integration ends at the end of the interval. -/
structure DoneF (x1 x2 : ℝ) (o : Ode n) : Prop where
  hy : o.ystart = o.s.y
  x_ge : x2 ≤ o.s.x
  x_le : o.s.x ≤ x2 * (1 + 2 ^ (-51 : ℤ))
  past : ∃ l a, x1 :: o.visited = l ++ [a, o.s.x] ∧ (a = 0 ∨ x2 / 2 ≤ a → o.s.x = x2) ∧ ∀ x ∈ l ++ [a], x < x2
  sorted : (x1 :: o.visited).Pairwise (· ≤ ·)

theorem clipF_spec {x1 x2 : ℝ} (he : Ends x1 x2) {y0 : V n} {o : Ode n} (h : RunF x1 x2 y0 o) :
    ∃ h', o.clipF nearest = { o with h := h' } ∧ IsFloat h' ∧ 0 ≤ h' ∧
      ∀ d, 0 ≤ d → d ≤ h' → o.s.x ≤ nearest (o.s.x + d) ∧ nearest (o.s.x + d) ≤ x2 * (1 + 2 ^ (-51 : ℤ)) ∧
        (o.s.x = 0 ∨ x2 / 2 ≤ o.s.x → nearest (o.s.x + d) ≤ x2) := by
  have hmem : o.s.x ∈ x1 :: o.visited := by
    obtain ⟨l, hl⟩ := h.past
    rw [hl]; simp
  have hlt := h.before _ hmem
  have h0 : 0 ≤ o.s.x := by
    rcases List.mem_cons.1 hmem with h1 | h1
    · rw [h1]; exact he.nonneg
    · exact he.nonneg.trans ((List.pairwise_cons.1 h.sorted).1 _ h1)
  have hup : ∀ d, 0 ≤ d → o.s.x ≤ nearest (o.s.x + d) := by
    intro d hd
    have := nearest_mono (show o.s.x ≤ o.s.x + d by linarith)
    rwa [nearest_exact h.float] at this
  have hp := he.pos
  have hx2 : x2 ≤ x2 * (1 + (2 : ℝ) ^ (-51 : ℤ)) := le_mul_of_one_le_right hp.le (by norm_num)
  unfold Ode.clipF
  by_cases hc : nearest (nearest (nearest (o.s.x + nearest (o.h * nearest 1.0001)) - o.x2) / nearest (o.x2 - o.x1)) > 0
  · rw [if_pos hc]
    refine ⟨nearest (x2 - o.s.x), by rw [h.hx2], nearest_isFloat _, nearest_nonneg (by linarith), fun d d0 d1 => ⟨hup d d0, ?_, fun hx => ?_⟩⟩
    · have h1 := nearest_mono (show o.s.x + d ≤ o.s.x + nearest (x2 - o.s.x) by linarith)
      have h2 := (abs_le.1 (he.last h0 hlt)).2
      rw [mul_add, mul_one]
      exact h1.trans (by linarith)
    · have h1 := nearest_mono (show o.s.x + d ≤ o.s.x + nearest (x2 - o.s.x) by linarith)
      rwa [he.last_exact h.float hlt hx] at h1
  · rw [if_neg hc]
    rw [h.hx1, h.hx2, he.clips (nearest_isFloat _), not_lt] at hc
    refine ⟨o.h, rfl, h.step.1, h.step.2, fun d d0 d1 => ?_⟩
    have h1 := nearest_mono (show o.s.x + d ≤ o.s.x + nearest (o.h * nearest 1.0001) by
      linarith [le_stretch h.step.1 h.step.2])
    have h2 := h1.trans hc
    exact ⟨hup d d0, h2.trans hx2, fun _ => h2⟩

/-- One pass of the loop. -/
theorem iterF_spec {p : Prob n} (hfl : Rounds p.fl) {x1 x2 : ℝ} (he : Ends x1 x2) {y0 : V n} {o o' : Ode n} {k : ℕ}
    {r : Except PyErr Bool} (h : RunF x1 x2 y0 o) (hr : o.iterF nearest p k = some (r, o')) :
    (r = .ok true ∧ DoneF x1 x2 o') ∨ (r = .ok false ∧ RunF x1 x2 y0 o') ∨ (∃ e, r = .error e ∧ o'.ystart = y0) := by
  obtain ⟨h', hclip, hf', h0', hstep⟩ := clipF_spec he h
  unfold Ode.iterF at hr
  rw [hclip] at hr
  simp only at hr
  rcases hst : stepF nearest p o.s h' o.con with _ | ⟨_ | _, s, c⟩
  · rw [hst] at hr; simp at hr
  · rw [hst] at hr
    simp only [Option.some.injEq, Prod.mk.injEq] at hr
    right; right
    exact ⟨_, hr.1.symm, by rw [← hr.2]; exact h.hy⟩
  · rw [hst] at hr
    simp only at hr
    obtain ⟨c'', hl, hsx, hnx⟩ := stepF_ok hst
    obtain ⟨-, ⟨ρ, ρ0, ρ1, hρ⟩, ⟨q, q0, -, hq, -⟩, -⟩ := stepLoop_ok hfl hl
    have hd0 : 0 ≤ s.hdid := by rw [hρ]; positivity
    have hd1 : s.hdid ≤ h' := by rw [hρ]; exact mul_le_of_le_one_left h0' ρ1
    obtain ⟨g1, g2, g3⟩ := hstep s.hdid hd0 hd1
    rw [← hsx] at g1 g2 g3
    obtain ⟨l, hl⟩ := h.past
    have hsort : (x1 :: (o.visited ++ [s.x])).Pairwise (· ≤ ·) := by
      rw [← List.cons_append, List.pairwise_append]
      refine ⟨h.sorted, List.pairwise_singleton _ _, fun a ha b hb => ?_⟩
      rw [List.mem_singleton.mp hb]
      refine le_trans ?_ g1
      have hs := h.sorted
      rw [hl] at hs ha
      rcases List.mem_append.1 ha with h1 | h1
      · exact (List.pairwise_append.1 hs).2.2 a h1 _ (by simp)
      · rw [List.mem_singleton.1 h1]
    rcases hrec : (Ode.took { o with h := h' } s c).recordF nearest p k s.x s.y s.hdid with _ | ⟨_ | _, o2⟩
    · rw [hrec] at hr; simp at hr
    · rw [hrec] at hr
      simp only [Option.some.injEq, Prod.mk.injEq] at hr
      obtain ⟨u, hu, rfl⟩ := recordF_inv (o := Ode.took { o with h := h' } s c) h.out hrec
      right; right
      exact ⟨_, hr.1.symm, by rw [← hr.2]; exact h.hy⟩
    · rw [hrec] at hr
      simp only [Option.some.injEq] at hr
      obtain ⟨u, hu, rfl⟩ := recordF_inv (o := Ode.took { o with h := h' } s c) h.out hrec
      have hfx : IsFloat s.x := by rw [hsx]; exact nearest_isFloat _
      have hdone : nearest (nearest (s.x - o.x2) * nearest (o.x2 - o.x1)) ≥ 0 ↔ x2 ≤ s.x := by
        rw [h.hx1, h.hx2]; exact he.done hfx
      rcases afterF_cases (rnd := nearest) (o := { Ode.took { o with h := h' } s c with out := u }) hu with
        ⟨hf, w, hw, -, ha⟩ | ⟨-, -, ha⟩ | ⟨hf, -, ha⟩
      · left
        rw [ha] at hr
        simp only [Prod.mk.injEq] at hr
        have hge : x2 ≤ s.x := hdone.1 hf
        refine ⟨hr.1.symm, ?_⟩
        rw [← hr.2]
        refine ⟨rfl, hge, g2, ⟨l, o.s.x, ?_, fun hx => le_antisymm (g3 hx) hge, ?_⟩, hsort⟩
        · show x1 :: (o.visited ++ [s.x]) = l ++ [o.s.x, s.x]
          rw [← List.cons_append, hl]
          simp
        · intro x hx
          rw [← hl] at hx
          exact h.before x hx
      · right; right
        rw [ha] at hr
        simp only [Prod.mk.injEq] at hr
        exact ⟨_, hr.1.symm, by rw [← hr.2]; exact h.hy⟩
      · right; left
        rw [ha] at hr
        simp only [Prod.mk.injEq] at hr
        refine ⟨hr.1.symm, ?_⟩
        have hlt : s.x < x2 := not_le.1 fun hc => hf (hdone.2 hc)
        rw [← hr.2]
        refine ⟨h.hx1, h.hx2, h.hy, hu, hfx, ⟨x1 :: o.visited, rfl⟩, hsort, ?_, ?_, ?_⟩
        · intro x hx
          have hx' : x ∈ (x1 :: o.visited) ++ [s.x] := hx
          rcases List.mem_append.1 hx' with h1 | h1
          · exact h.before x h1
          · rw [List.mem_singleton.1 h1]; exact hlt
        · show IsFloat s.hnext
          rw [hnx]; exact nearest_isFloat _
        · show 0 ≤ s.hnext
          rw [hnx, hq]
          exact nearest_nonneg (mul_nonneg (by linarith) hd0)

theorem loopF_spec {p : Prob n} (hfl : Rounds p.fl) {x1 x2 : ℝ} (he : Ends x1 x2) {y0 : V n} (m k : ℕ) {o o' : Ode n}
    {r : Except PyErr Unit} (h : RunF x1 x2 y0 o) (hr : o.loopF nearest p m k = some (r, o')) :
    (r = .ok () ∧ DoneF x1 x2 o') ∨ (∃ e, r = .error e ∧ o'.ystart = y0) := by
  induction m generalizing k o with
  | zero =>
    simp only [Ode.loopF, Option.some.injEq, Prod.mk.injEq] at hr
    right
    exact ⟨_, hr.1.symm, by rw [← hr.2]; exact h.hy⟩
  | succ m ih =>
    unfold Ode.loopF at hr
    rcases hi : o.iterF nearest p k with _ | ⟨r1, o1⟩
    · rw [hi] at hr; simp at hr
    · rw [hi] at hr
      rcases iterF_spec hfl he h hi with ⟨rfl, a⟩ | ⟨rfl, a⟩ | ⟨e, rfl, a⟩
      · simp only [Option.some.injEq, Prod.mk.injEq] at hr
        left; rw [← hr.2]; exact ⟨hr.1.symm, a⟩
      · exact ih _ a hr
      · simp only [Option.some.injEq, Prod.mk.injEq] at hr
        right; rw [← hr.2]; exact ⟨e, hr.1.symm, a⟩

theorem Out.initF_inv {o : Out n} (h : o.Usable) (x1 x2 : ℝ) : (o.initF rnd x1 x2).Inv := by
  have h1 := Out.init_inv h x1 x2
  unfold init at h1
  unfold initF
  by_cases hm : o.kmax = -1
  · rwa [if_pos hm] at h1 ⊢
  · rw [if_neg hm] at h1 ⊢
    cases hd : o.dense
    · rw [hd] at h1; exact h1
    · rw [hd] at h1; exact h1

theorem runF_new {x1 x2 : ℝ} (he : Ends x1 x2) (con : Con) (y0 : V n) {h1 : ℝ} (hh : IsFloat h1) (hmin : ℝ) (o : Out n) (ho : o.Usable) :
    RunF x1 x2 y0 (Ode.newF nearest con y0 x1 x2 h1 hmin o) := by
  refine ⟨rfl, rfl, rfl, Out.initF_inv ho x1 x2, he.float1, ⟨[], rfl⟩, by simp [Ode.newF, Ode.new], ?_, ?_⟩
  · intro x hx
    have : x = x1 := by simpa [Ode.newF, Ode.new] using hx
    rw [this]; exact he.lt
  · have : (Ode.newF nearest con y0 x1 x2 h1 hmin o).h = |h1| := by
      show |h1| * ((SignType.sign (x2 - x1) : SignType) : ℝ) = |h1|
      rw [sign_pos (sub_pos.2 he.lt)]; simp
    rw [this]
    refine ⟨?_, abs_nonneg _⟩
    obtain ⟨a, e, ha, hee, rfl⟩ := hh
    exact ⟨|a|, e, by rwa [abs_abs], hee, by rw [abs_mul, abs_of_pos (by positivity : (0 : ℝ) < 2 ^ e)]; push_cast; rfl⟩

/-- C173: in double precision an integration that returns ends at or behind the end point, by at most the fraction `2^-51` of it; exactly there if its last step began in the second half of
the interval or at zero.  Positions never go back and all but the last lie before the end point; the caller's array holds the stepper's last value.  If the integration
raises, the caller's array is untouched. -/
theorem C173_end (p : Prob n) (hfl : Rounds p.fl) (con : Con) (y0 : V n) {x1 x2 : ℝ} (he : Ends x1 x2) {h1 : ℝ} (hh : IsFloat h1) (hmin : ℝ) (out : Out n)
    (ho : out.Usable) (r : Except PyErr Unit) (o' : Ode n) (hr : (Ode.newF nearest con y0 x1 x2 h1 hmin out).integrateF nearest p = some (r, o')) :
    (r = .ok () ∧ o'.ystart = o'.s.y ∧ x2 ≤ o'.s.x ∧ o'.s.x ≤ x2 * (1 + 2 ^ (-51 : ℤ)) ∧ (x1 :: o'.visited).Pairwise (· ≤ ·) ∧
      ∃ l a, x1 :: o'.visited = l ++ [a, o'.s.x] ∧ (∀ x ∈ l ++ [a], x < x2) ∧ (a = 0 ∨ x2 / 2 ≤ a → o'.s.x = x2)) ∨
    ∃ e, r = .error e ∧ o'.ystart = y0 := by
  have h0 := runF_new he con y0 hh hmin out ho
  have key : (r = .ok () ∧ DoneF x1 x2 o') ∨ ∃ e, r = .error e ∧ o'.ystart = y0 := by
    unfold Ode.integrateF at hr
    generalize Ode.newF nearest con y0 x1 x2 h1 hmin out = o at h0 hr
    simp only at hr
    rcases hrec : Ode.recordF nearest p { o with s := { o.s with dydx := p.f o.x1 o.ystart } } (-1) o.x1 o.ystart o.h with
      _ | ⟨_ | _, o2⟩
    · rw [hrec] at hr; simp at hr
    · rw [hrec] at hr
      simp only [Option.some.injEq, Prod.mk.injEq] at hr
      obtain ⟨u, hu, rfl⟩ := recordF_inv (o := { o with s := { o.s with dydx := p.f o.x1 o.ystart } }) h0.out hrec
      right
      exact ⟨_, hr.1.symm, by rw [← hr.2]; exact h0.hy⟩
    · rw [hrec] at hr
      obtain ⟨u, hu, rfl⟩ := recordF_inv (o := { o with s := { o.s with dydx := p.f o.x1 o.ystart } }) h0.out hrec
      have h2 : RunF x1 x2 y0 { ({ o with s := { o.s with dydx := p.f o.x1 o.ystart } } : Ode n) with out := u } :=
        ⟨h0.hx1, h0.hx2, h0.hy, hu, h0.float, h0.past, h0.sorted, h0.before, h0.step⟩
      exact loopF_spec hfl he _ _ h2 hr
  rcases key with ⟨h1, h2⟩ | h1
  · obtain ⟨l, a, p1, p2, p3⟩ := h2.past
    exact Or.inl ⟨h1, h2.hy, h2.x_ge, h2.x_le, h2.sorted, l, a, p1, p3, p2⟩
  · exact Or.inr h1

/-! ## The saved positions -/

/-- The positions at which rows are due: `x1` and sums of the rounded spacing, each rounded. -/
noncomputable def gridF (rnd : ℝ → ℝ) (x1 dx : ℝ) : ℕ → ℝ
  | 0 => x1
  | j + 1 => rnd (gridF rnd x1 dx j + dx)

theorem Out.outF_dom {o u : Out n} {k : ℤ} {x : ℝ} {y : V n} {s : Stepper n} {h : ℝ} {r : Except PyErr Unit}
    (hr : o.outF rnd k x y s h = some (r, u)) : o.SameDom u := by
  unfold outF at hr
  by_cases hd : o.dense = true
  · rw [if_pos hd] at hr
    by_cases hk : k = 1
    · rw [if_pos hk] at hr
      have hs := Out.save_dom o x y
      rcases hsv : o.save x y with ⟨_ | _, v⟩
      · rw [hsv] at hr hs
        simp only [Option.some.injEq, Prod.mk.injEq] at hr
        rw [← hr.2]; exact hs.1
      · rw [hsv] at hr hs
        simp only [Option.some.injEq, Prod.mk.injEq] at hr
        rw [← hr.2]; exact hs.1
    · rw [if_neg hk] at hr
      refine runLoop_invariant (I := fun a => o.SameDom a) (Q := fun r => o.SameDom r.2) ?_ ?_ (.rfl' o) hr
      · intro a b ha hb
        unfold outBodyF at hb
        split_ifs at hb
        have hs := Out.saveDense_dom a a.xout (denseOut s a.xout h)
        rcases hsv : a.saveDense a.xout (denseOut s a.xout h) with ⟨_ | _, v⟩
        · rw [hsv] at hb; simp at hb
        · rw [hsv] at hb hs
          simp only [Sum.inl.injEq] at hb
          rw [← hb]; exact ha.trans hs.1
      · intro a b ha hb
        unfold outBodyF at hb
        split_ifs at hb
        · have hs := Out.saveDense_dom a a.xout (denseOut s a.xout h)
          rcases hsv : a.saveDense a.xout (denseOut s a.xout h) with ⟨_ | _, v⟩
          · rw [hsv] at hb hs
            simp only [Sum.inr.injEq] at hb
            rw [← hb]; exact ha.trans hs.1
          · rw [hsv] at hb; simp at hb
        · simp only [Sum.inr.injEq] at hb
          rw [← hb]; exact ha
  · rw [if_neg hd] at hr
    simp only [Option.some.injEq, Prod.mk.injEq] at hr
    rw [← hr.2]; exact .rfl' _

/-- Outside the second step, `out` appends the due positions below the current one. -/
theorem Out.outF_grid {o u : Out n} {a : ℝ} (hok : o.Ok) (hx : o.xout = gridF rnd a o.dxout o.count) (hd : o.dense = true)
    {k : ℤ} (hk : k ≠ 1) {x h : ℝ} {y : V n} {s : Stepper n} {r : Except PyErr Unit}
    (hr : o.outF rnd k x y s h = some (r, u)) :
    r = .ok () ∧ u.Ok ∧ u.xout = gridF rnd a u.dxout u.count ∧ ¬ rnd (rnd (x - u.xout) * rnd (o.x2 - o.x1)) > 0 ∧
    ∃ m, u.count = o.count + m ∧
      (∀ i < m, rnd (rnd (x - gridF rnd a o.dxout (o.count + i)) * rnd (o.x2 - o.x1)) > 0) ∧
      u.saved = o.saved ++ (List.range m).map fun i => (gridF rnd a o.dxout (o.count + i),
        denseOut s (gridF rnd a o.dxout (o.count + i)) h) := by
  unfold outF at hr
  rw [if_pos hd, if_neg hk] at hr
  let I : Out n → Prop := fun v => v.Ok ∧ v.xout = gridF rnd a v.dxout v.count ∧ o.SameDom v ∧
    ∃ m, v.count = o.count + m ∧
      (∀ i < m, rnd (rnd (x - gridF rnd a o.dxout (o.count + i)) * rnd (o.x2 - o.x1)) > 0) ∧
      v.saved = o.saved ++ (List.range m).map fun i => (gridF rnd a o.dxout (o.count + i),
        denseOut s (gridF rnd a o.dxout (o.count + i)) h)
  have key := runLoop_invariant (I := I) (Q := fun q => q.1 = .ok () ∧ I q.2 ∧
      ¬ rnd (rnd (x - q.2.xout) * rnd (o.x2 - o.x1)) > 0) ?_ ?_ (⟨hok, hx, .rfl' o, 0, rfl, by simp, by simp⟩ : I o) hr
  · exact ⟨key.1, key.2.1.1, key.2.1.2.1, key.2.2, key.2.1.2.2.2⟩
  · rintro v w ⟨v1, v2, v3, m, v4, v5, v6⟩ hb
    unfold outBodyF at hb
    by_cases hc : rnd (rnd (x - v.xout) * rnd (v.x2 - v.x1)) > 0
    · rw [if_pos hc] at hb
      obtain ⟨z, hz, zok, zs, zc, zg⟩ := Out.saveDense_ok v1 v.xout (denseOut s v.xout h)
      rw [hz] at hb
      simp only [Sum.inl.injEq] at hb
      subst hb
      obtain ⟨g1, g2, g3, g4, g5, g6⟩ := zg
      have hxo : v.xout = gridF rnd a o.dxout (o.count + m) := by rw [v2, v4, v3.2.2.2.1]
      refine ⟨Out.ok_xout zok _, ?_, v3.trans ⟨g1, g2, g3, g5, g6⟩, m + 1, by simp only; omega, ?_, ?_⟩
      · simp only
        rw [g4, g5, zc, v2, gridF]
      · intro i hi
        rcases Nat.lt_succ_iff_lt_or_eq.mp hi with hi | rfl
        · exact v5 i hi
        · rw [← hxo]; rwa [v3.2.1, v3.2.2.1] at hc
      · show z.saved = _
        rw [zs, v6, List.range_succ, List.map_append, ← List.append_assoc, hxo]
        rfl
    · rw [if_neg hc] at hb; simp at hb
  · rintro v q ⟨v1, v2, v3, v4⟩ hb
    unfold outBodyF at hb
    by_cases hc : rnd (rnd (x - v.xout) * rnd (v.x2 - v.x1)) > 0
    · rw [if_pos hc] at hb
      obtain ⟨z, hz, -⟩ := Out.saveDense_ok v1 v.xout (denseOut s v.xout h)
      rw [hz] at hb; simp at hb
    · rw [if_neg hc] at hb
      simp only [Sum.inr.injEq] at hb
      subst hb
      refine ⟨rfl, ⟨v1, v2, v3, v4⟩, ?_⟩
      rwa [v3.2.1, v3.2.2.1] at hc

/-- At the second step it appends the current point and skips one due position. -/
theorem Out.outF_second {o u : Out n} {a : ℝ} (hok : o.Ok) (hx : o.xout = gridF rnd a o.dxout o.count) (hd : o.dense = true)
    {x h : ℝ} {y : V n} {s : Stepper n} {r : Except PyErr Unit} (hr : o.outF rnd 1 x y s h = some (r, u)) :
    r = .ok () ∧ u.Ok ∧ u.xout = gridF rnd a u.dxout u.count ∧ u.count = o.count + 1 ∧ u.saved = o.saved ++ [(x, y)] := by
  unfold outF at hr
  rw [if_pos hd, if_pos rfl] at hr
  obtain ⟨z, hz, zok, zs, zc, zg⟩ := Out.save_ok hok x y
  rw [hz] at hr
  simp only [Option.some.injEq, Prod.mk.injEq] at hr
  obtain ⟨h1, rfl⟩ := hr
  obtain ⟨g1, g2, g3, g4, g5, g6⟩ := zg
  refine ⟨h1.symm, Out.ok_xout zok _, ?_, zc, zs⟩
  simp only
  rw [g4, g5, zc, hx, gridF]

/-- All saved abscissae are due positions with their index, but for the one numbered `m`, which is the position after the second step. -/
def OnGridF (g : ℕ → ℝ) (visited : List ℝ) (l : List (ℝ × V n)) : Prop :=
  ∃ m, ∀ j (hj : j < l.length), l[j].1 = g j ∨ (j = m ∧ visited[1]? = some l[j].1)

/-- All saved abscissae are due positions. -/
def OnGridF0 (g : ℕ → ℝ) (l : List (ℝ × V n)) : Prop := ∀ j (hj : j < l.length), l[j].1 = g j

/-- State of the output during an integration with dense output. -/
structure LoggedF (rnd : ℝ → ℝ) (a dx : ℝ) (o : Ode n) (v : ℕ) : Prop where
  ok : o.out.Ok
  dense : o.out.dense = true
  hdx : o.out.dxout = dx
  xout : o.out.xout = gridF rnd a o.out.dxout o.out.count
  len : o.visited.length = v
  first : v ≤ 1 → OnGridF0 (gridF rnd a dx) o.out.saved
  grid : OnGridF (gridF rnd a dx) o.visited o.out.saved

theorem gridF0_append {g : ℕ → ℝ} {l : List (ℝ × V n)} (h : OnGridF0 g l) (m : ℕ) (f : ℝ → V n) :
    OnGridF0 g (l ++ (List.range m).map fun i => (g (l.length + i), f (g (l.length + i)))) := by
  intro j hj
  rcases getElem_fst_append hj with ⟨h1, h2⟩ | ⟨h1, h2, h3⟩
  · rw [h2]; exact h j h1
  · rw [h3]
    simp only [List.getElem_map, List.getElem_range]
    rw [Nat.add_sub_cancel' h1]

theorem gridF_append {g : ℕ → ℝ} {v : List ℝ} {l : List (ℝ × V n)} (h : OnGridF g v l) (m : ℕ) (f : ℝ → V n) :
    OnGridF g v (l ++ (List.range m).map fun i => (g (l.length + i), f (g (l.length + i)))) := by
  obtain ⟨m', h⟩ := h
  refine ⟨m', fun j hj => ?_⟩
  rcases getElem_fst_append hj with ⟨h1, h2⟩ | ⟨h1, h2, h3⟩
  · rw [h2]; exact h j h1
  · left
    rw [h3]
    simp only [List.getElem_map, List.getElem_range]
    rw [Nat.add_sub_cancel' h1]

theorem OnGridF0.weaken {g : ℕ → ℝ} {l : List (ℝ × V n)} (h : OnGridF0 g l) (v : List ℝ) : OnGridF g v l :=
  ⟨0, fun j hj => Or.inl (h j hj)⟩

theorem recordF_logged {p : Prob n} (hp : p.dense = true) {a dx : ℝ} {o o' : Ode n} {k : ℕ} (hlen : o.visited.length = k + 1)
    (hok : o.out.Ok) (hd : o.out.dense = true) (hdx : o.out.dxout = dx) (hx : o.out.xout = gridF rnd a o.out.dxout o.out.count)
    (hfirst : k ≤ 1 → OnGridF0 (gridF rnd a dx) o.out.saved) (hgrid : OnGridF (gridF rnd a dx) o.visited o.out.saved)
    (hlast : o.visited[k]? = some o.s.x) {h : ℝ} {r : Except PyErr Unit}
    (hr : o.recordF rnd p k o.s.x o.s.y h = some (r, o')) : r = .ok () ∧ LoggedF rnd a dx o' (k + 1) := by
  obtain ⟨u, rfl, ⟨-, hu⟩ | ⟨hp', -⟩⟩ := recordF_cases hr
  · have hdom := Out.outF_dom hu
    have hl := Out.saved_length hok
    by_cases hk : k = 1
    · subst hk
      obtain ⟨h1, h2, h3, h4, h5⟩ := Out.outF_second (a := a) hok hx hd hu
      refine ⟨h1, h2, by simp only; rw [hdom.1, hd], by simp only; rw [hdom.2.2.2.1, hdx], h3, hlen, fun h => by omega, ?_⟩
      have h0 := hfirst (le_refl _)
      refine ⟨o.out.saved.length, fun j hj => ?_⟩
      simp only [h5] at hj ⊢
      rcases getElem_fst_append hj with ⟨g1, g2⟩ | ⟨g1, g2, g3⟩
      · left; rw [g2]; exact h0 j g1
      · right
        simp only [List.length_singleton] at g2
        refine ⟨by omega, ?_⟩
        rw [g3, hlast]
        simp
    · obtain ⟨h1, h2, h3, -, m, h4, -, h5⟩ := Out.outF_grid (a := a) hok hx hd (by exact_mod_cast hk) hu
      rw [hdx, ← hl] at h5
      refine ⟨h1, h2, by simp only; rw [hdom.1, hd], by simp only; rw [hdom.2.2.2.1, hdx], h3, hlen, ?_, ?_⟩
      · intro hk1
        simp only; rw [h5]
        exact gridF0_append (hfirst (by omega)) m (fun z => denseOut o.s z h)
      · simp only; rw [h5]
        exact gridF_append hgrid m (fun z => denseOut o.s z h)
  · rw [hp] at hp'; simp at hp'

/-- One pass of the loop. -/
theorem iterF_logged {p : Prob n} (hp : p.dense = true) {a dx : ℝ} {o o' : Ode n} {k : ℕ} (hl : LoggedF rnd a dx o k)
    {r : Except PyErr Bool} (hr : o.iterF rnd p k = some (r, o')) :
    (r = .ok false → LoggedF rnd a dx o' (k + 1)) ∧
    (∃ l, OnGridF (gridF rnd a dx) o'.visited l ∧ (o'.out.saved = l ∨ r = .ok true ∧ o'.out.saved = l ++ [(o'.s.x, o'.s.y)])) := by
  have hclip : ∃ h', o.clipF rnd = { o with h := h' } := by
    unfold Ode.clipF; split_ifs
    · exact ⟨_, rfl⟩
    · exact ⟨o.h, rfl⟩
  obtain ⟨h', hclip⟩ := hclip
  unfold Ode.iterF at hr
  rw [hclip] at hr
  simp only at hr
  rcases hst : stepF rnd p o.s h' o.con with _ | ⟨_ | _, s, c⟩
  · rw [hst] at hr; simp at hr
  · rw [hst] at hr
    simp only [Option.some.injEq, Prod.mk.injEq] at hr
    obtain ⟨rfl, rfl⟩ := hr
    exact ⟨by simp, _, hl.grid, Or.inl rfl⟩
  · rw [hst] at hr
    simp only at hr
    set o1 := Ode.took { o with h := h' } s c with ho1
    have hv1 : o1.visited = o.visited ++ [s.x] := rfl
    have hlast : o1.visited[k]? = some o1.s.x := by
      rw [hv1, ← hl.len]; simp [ho1, Ode.took]
    have hgrid1 : OnGridF (gridF rnd a dx) o1.visited o1.out.saved := by
      obtain ⟨m, hm⟩ := hl.grid
      by_cases hk : k ≤ 1
      · exact (hl.first hk).weaken _
      · refine ⟨m, fun j hj => ?_⟩
        rcases hm j hj with h1 | ⟨h1, h2⟩
        · exact Or.inl h1
        · right
          refine ⟨h1, ?_⟩
          rw [hv1, List.getElem?_append_left (by have := hl.len; omega)]
          exact h2
    rcases hrec : o1.recordF rnd p k s.x s.y s.hdid with _ | ⟨r2, o2⟩
    · rw [hrec] at hr; simp at hr
    · obtain ⟨rfl, hlog⟩ := recordF_logged hp (o := o1) (k := k) (by rw [hv1]; simp [hl.len]) hl.ok hl.dense hl.hdx hl.xout
        hl.first hgrid1 hlast hrec
      rw [hrec] at hr
      simp only [Option.some.injEq] at hr
      rcases afterF_cases (rnd := rnd) (o := o2) (Or.inr hlog.ok) with ⟨-, u, -, hu, ha⟩ | ⟨-, -, ha⟩ | ⟨-, -, ha⟩
      · rw [ha] at hr
        simp only [Prod.mk.injEq] at hr
        obtain ⟨rfl, rfl⟩ := hr
        refine ⟨by simp, o2.out.saved, hlog.grid, ?_⟩
        rcases hu with ⟨rfl, -⟩ | ⟨hu, -⟩
        · exact Or.inl rfl
        · obtain ⟨z, hz, -, hzs, -⟩ := Out.save_ok hlog.ok o2.s.x o2.s.y
          rw [hz] at hu
          simp only [Prod.mk.injEq, true_and] at hu
          subst hu
          exact Or.inr ⟨rfl, hzs⟩
      · rw [ha] at hr
        simp only [Prod.mk.injEq] at hr
        obtain ⟨rfl, rfl⟩ := hr
        exact ⟨by simp, _, hlog.grid, Or.inl rfl⟩
      · rw [ha] at hr
        simp only [Prod.mk.injEq] at hr
        obtain ⟨rfl, rfl⟩ := hr
        exact ⟨fun _ => ⟨hlog.ok, hlog.dense, hlog.hdx, hlog.xout, hlog.len, hlog.first, hlog.grid⟩, _, hlog.grid, Or.inl rfl⟩

theorem loopF_logged {p : Prob n} (hp : p.dense = true) {a dx : ℝ} (m k : ℕ) {o o' : Ode n} (hl : LoggedF rnd a dx o k)
    {r : Except PyErr Unit} (hr : o.loopF rnd p m k = some (r, o')) :
    ∃ l, OnGridF (gridF rnd a dx) o'.visited l ∧ (o'.out.saved = l ∨ r = .ok () ∧ o'.out.saved = l ++ [(o'.s.x, o'.s.y)]) := by
  induction m generalizing k o with
  | zero =>
    simp only [Ode.loopF, Option.some.injEq, Prod.mk.injEq] at hr
    obtain ⟨rfl, rfl⟩ := hr
    exact ⟨_, hl.grid, Or.inl rfl⟩
  | succ m ih =>
    unfold Ode.loopF at hr
    rcases hi : o.iterF rnd p k with _ | ⟨r1, o1⟩
    · rw [hi] at hr; simp at hr
    · rw [hi] at hr
      obtain ⟨h1, l, h2, h3⟩ := iterF_logged hp hl hi
      rcases r1 with e | _ | _
      · simp only [Option.some.injEq, Prod.mk.injEq] at hr
        obtain ⟨rfl, rfl⟩ := hr
        exact ⟨l, h2, by simpa using h3⟩
      · exact ih _ (h1 rfl) hr
      · simp only [Option.some.injEq, Prod.mk.injEq] at hr
        obtain ⟨rfl, rfl⟩ := hr
        exact ⟨l, h2, by simpa using h3⟩

/-- The state in which the loop of a fresh dense integration is entered. -/
theorem integrateF_start (h0 : rnd 0 = 0) (p : Prob n) (hp : p.dense = true) (con : Con) (y0 : V n) (x1 x2 h1 hmin : ℝ) (ns : ℕ) (hns : 0 < ns) :
    ∃ o, (Ode.newF rnd con y0 x1 x2 h1 hmin (Out.new (some ns))).integrateF rnd p = o.loopF rnd p 50000 0 ∧
      LoggedF rnd x1 (rnd (rnd (x2 - x1) / ns)) o 0 ∧ o.out.saved = [] ∧ o.out.x1 = x1 ∧ o.out.x2 = x2 ∧ o.x1 = x1 ∧ o.x2 = x2 ∧
      o.s.x = x1 ∧ o.s.y = y0 ∧ o.s.dydx = p.f x1 y0 ∧ o.h = |h1| * SignType.sign (x2 - x1) ∧ o.con = con ∧ o.hmin = hmin ∧ o.visited = [] ∧ o.ystart = y0 := by
  have hdo : (Out.new (some ns) : Out n).dense = true := by simpa [Out.new] using hns
  have hi : (Out.new (some ns) : Out n).initF rnd x1 x2 = { (Out.new (some ns) : Out n).init x1 x2 with dxout := rnd (rnd (x2 - x1) / ns) } := by
    have hk : (Out.new (some ns) : Out n).kmax ≠ -1 := by simp [Out.new]
    unfold Out.initF Out.init
    simp only [if_neg hk, hdo, if_true]
    rfl
  obtain ⟨i1, i2, i3, i4, i5, i6⟩ := Out.init_dense (o := (Out.new (some ns) : Out n)) (by simp [Out.new]) hdo x1 x2
  obtain ⟨j1, j2⟩ := Out.init_ok (o := (Out.new (some ns) : Out n)) (by simp [Out.new]) (by simp [Out.new]) x1 x2
  have j3 : ((Out.new (some ns) : Out n).init x1 x2).count = 0 := j2
  have j4 : ((Out.new (some ns) : Out n).init x1 x2).saved = [] := by
    rw [← List.length_eq_zero_iff, Out.saved_length j1, j3]
  unfold Ode.integrateF Ode.newF
  rw [hi]
  simp only
  set u : Out n := (Out.new (some ns) : Out n).init x1 x2 with hu
  set o : Ode n := { Ode.new con y0 x1 x2 h1 hmin (Out.new (some ns)) with
    s := { (Ode.new con y0 x1 x2 h1 hmin (Out.new (some ns))).s with
      dydx := p.f (Ode.new con y0 x1 x2 h1 hmin (Out.new (some ns))).x1
        (Ode.new con y0 x1 x2 h1 hmin (Out.new (some ns))).ystart }
    out := { u with dxout := rnd (rnd (x2 - x1) / ns) } } with ho
  have hrec : o.recordF rnd p (-1) x1 y0 o.h = some (.ok (), o) := by
    unfold Ode.recordF
    rw [hp, if_pos rfl]
    have : o.out.outF rnd (-1) x1 y0 o.s o.h = some (.ok (), o.out) := by
      unfold Out.outF
      have h1 : o.out.dense = true := i1
      rw [if_pos h1, if_neg (by norm_num)]
      apply runLoop_inr
      unfold Out.outBodyF
      rw [if_neg]
      have h2 : o.out.xout = x1 := i4
      rw [h2, sub_self, h0, zero_mul, h0]; simp
    rw [this]
  have hx1 : (Ode.new con y0 x1 x2 h1 hmin (Out.new (some ns))).x1 = x1 := rfl
  have hys : (Ode.new con y0 x1 x2 h1 hmin (Out.new (some ns))).ystart = y0 := rfl
  have hh : (Ode.new con y0 x1 x2 h1 hmin (Out.new (some ns))).h = o.h := rfl
  refine ⟨o, ?_, ⟨j1, i1, rfl, ?_, rfl, ?_, ?_⟩, j4, i2, i3, rfl, rfl, rfl, rfl, rfl, rfl, rfl, rfl, rfl, rfl⟩
  · rw [hx1, hys, hh, hrec]
  · show u.xout = gridF rnd x1 _ u.count
    rw [i4, j3]; rfl
  · intro _ j hj
    have : o.out.saved = [] := j4
    simp [this] at hj
  · refine ⟨0, fun j hj => ?_⟩
    have : o.out.saved = [] := j4
    simp [this] at hj

/-- C173: the rows of a dense integration in double precision, however it ends: the `j`-th saved abscissa is the sum of `j` rounded spacings, each rounded, with at most two exceptions: one is the position
after the second step, the other is the last one, the position where the integration ended, with the final value. -/
theorem C173_rows (p : Prob n) (hp : p.dense = true) (hfl : Rounds p.fl) (con : Con) (y0 : V n) {x1 x2 : ℝ} (he : Ends x1 x2) {h1 : ℝ} (hh : IsFloat h1) (hmin : ℝ)
    (ns : ℕ) (hns : 0 < ns) (r : Except PyErr Unit) (o' : Ode n)
    (hr : (Ode.newF nearest con y0 x1 x2 h1 hmin (Out.new (some ns))).integrateF nearest p = some (r, o')) :
    ∃ m, ∀ j (hj : j < o'.out.saved.length), o'.out.saved[j].1 = gridF nearest x1 (nearest (nearest (x2 - x1) / ns)) j ∨
      (j = m ∧ o'.visited[1]? = some o'.out.saved[j].1) ∨
      (r = .ok () ∧ j + 1 = o'.out.saved.length ∧ o'.out.saved[j] = (o'.s.x, o'.ystart)) := by
  have hend := C173_end p hfl con y0 he hh hmin _ (Out.usable_new (some ns)) r o' hr
  obtain ⟨o, h0, hl, -⟩ := integrateF_start nearest_zero p hp con y0 x1 x2 h1 hmin ns hns
  rw [h0] at hr
  obtain ⟨l, ⟨m, hm⟩, hs⟩ := loopF_logged hp _ _ hl hr
  refine ⟨m, fun j hj => ?_⟩
  rcases hs with hs | ⟨hok, hs⟩
  · simp only [hs] at hj ⊢
    rcases hm j hj with h | h
    · exact Or.inl h
    · exact Or.inr (Or.inl h)
  · simp only [hs] at hj ⊢
    by_cases hjl : j < l.length
    · rw [List.getElem_append_left hjl]
      rcases hm j hjl with h | h
      · exact Or.inl h
      · exact Or.inr (Or.inl h)
    · right; right
      have : j = l.length := by simp at hj; omega
      subst this
      rcases hend with ⟨-, e1, -⟩ | ⟨e, he, -⟩
      · refine ⟨hok, by simp, ?_⟩
        rw [List.getElem_append_right (le_refl _)]
        simp [e1]
      · rw [hok] at he; simp at he

end PyNLO.Ode
