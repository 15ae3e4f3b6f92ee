import Verif.Lemmas.RkTrees
import Mathlib.Tactic.Module

/-!
# The classical Runge–Kutta method with step doubling

Two steps of length `h`, one step of length `2h` and their extrapolation, as one method with twelve stages and step `2h`.
-/

open scoped BigOperators Topology
open Asymptotics Filter

namespace PyNLO.RK

section
variable {E : Type*} [AddCommGroup E] [Module ℝ E]

/-- The stages of an explicit method. -/
noncomputable def kk (a : ℕ → ℕ → ℝ) (f : E → E) (y : E) (h : ℝ) : ℕ → E
  | i => f (y + h • ∑ j : Fin i, a i j • kk a f y h j)

theorem kk_eq (a : ℕ → ℕ → ℝ) (f : E → E) (y : E) (h : ℝ) (i : ℕ) :
    kk a f y h i = f (y + h • ∑ j ∈ Finset.range i, a i j • kk a f y h j) := by
  conv_lhs => unfold kk
  rw [Finset.sum_range]

/-- The classical Runge–Kutta step. -/
noncomputable def rk4 (f : E → E) (h : ℝ) (y : E) : E :=
  let k1 := f y
  let k2 := f (y + (h / 2) • k1)
  let k3 := f (y + (h / 2) • k2)
  let k4 := f (y + h • k3)
  y + h • ((1 / 6 : ℝ) • k1 + (1 / 3 : ℝ) • k2 + (1 / 3 : ℝ) • k3 + (1 / 6 : ℝ) • k4)

end

/-- Rows of the combined method, times 180, for the step `2h`. -/
def dRows : List (List ℤ) :=
  [ [],
    [45],
    [0, 45],
    [0, 0, 90],
    [15, 30, 30, 15],
    [15, 30, 30, 15, 45],
    [15, 30, 30, 15, 0, 45],
    [15, 30, 30, 15, 0, 0, 90],
    [0, 0, 0, 0, 0, 0, 0, 0],
    [0, 0, 0, 0, 0, 0, 0, 0, 90],
    [0, 0, 0, 0, 0, 0, 0, 0, 0, 90],
    [0, 0, 0, 0, 0, 0, 0, 0, 0, 0, 180]]

/-- Weights of the two short steps, of the long step and of the extrapolation, times 180. -/
def dFine : List ℤ := [15, 30, 30, 15, 15, 30, 30, 15, 0, 0, 0, 0]
def dCoarse : List ℤ := [0, 0, 0, 0, 0, 0, 0, 0, 30, 60, 60, 30]
def dRich : List ℤ := [16, 32, 32, 16, 16, 32, 32, 16, -2, -4, -4, -2]

noncomputable def da (i l : ℕ) : ℝ := (((dRows.getD i []).getD l 0 : ℤ) : ℝ) / 180
noncomputable def wt (b : List ℤ) (i : ℕ) : ℝ := ((b.getD i 0 : ℤ) : ℝ) / 180

theorem dScaled : Scaled 180 dRows da where
  len := by decide
  coef i hi l _ := by
    have e : dRows.getD i [] = dRows[i] := by simp [List.getD_eq_getElem?_getD, hi]
    unfold da
    rw [e]
    ring

/-- A set of weights meets the order conditions up to `m`. -/
def orderTest (b : List ℤ) (m : ℕ) : Bool :=
  (levels m).all fun l => l.all fun t => dotp b (t.ints dRows) * ((t.ord * t.rdens : ℕ) : ℤ) == 180 ^ t.ord

theorem order_of_test {K : ℕ} {b : List ℤ} {m : ℕ} (hb : b.length = 12) (h : orderTest b m = true) (t : Tr K 12) (ht : t.ord ≤ m) :
    t.weight 12 da (wt b) - 1 / t.density = 0 := by
  have h1 := all_levels (q := fun t => dotp b (t.ints dRows) * ((t.ord * t.rdens : ℕ) : ℤ) == 180 ^ t.ord) h t.toBT
    (by rw [toBT_ord]; exact ht)
  have h2 : dotp b (t.toBT.ints dRows) * ((t.toBT.ord * t.toBT.rdens : ℕ) : ℤ) = 180 ^ t.toBT.ord := by simpa using h1
  have h3 := weight_eq dScaled b (wt b) hb (fun i _ => by unfold wt; field_simp) t
  have h4 : ((dotp b (t.toBT.ints dRows) : ℤ) : ℝ) * ((t.toBT.ord * t.toBT.rdens : ℕ) : ℝ) = 180 ^ t.toBT.ord := by exact_mod_cast h2
  rw [h3, toBT_density, toBT_ord, show dRows.length = 12 from rfl] at h4
  have h5 := density_pos t
  have h6 : (180 : ℝ) ^ t.ord ≠ 0 := by positivity
  have h7 : t.weight 12 da (wt b) * t.density = 1 := by
    apply mul_left_cancel₀ h6
    rw [← mul_assoc, h4, mul_one]
  rw [eq_div_of_mul_eq h5.ne' h7, sub_self]

theorem fine_test : orderTest dFine 4 = true := by decide +kernel
theorem coarse_test : orderTest dCoarse 4 = true := by decide +kernel
theorem rich_test : orderTest dRich 5 = true := by decide +kernel

section
variable {E : Type*} [AddCommGroup E] [Module ℝ E]

theorem sum_da (k : ℕ → E) :
    (∑ j ∈ Finset.range 0, da 0 j • k j = 0) ∧
    (∑ j ∈ Finset.range 1, da 1 j • k j = (1 / 4 : ℝ) • k 0) ∧
    (∑ j ∈ Finset.range 2, da 2 j • k j = (1 / 4 : ℝ) • k 1) ∧
    (∑ j ∈ Finset.range 3, da 3 j • k j = (1 / 2 : ℝ) • k 2) ∧
    (∑ j ∈ Finset.range 4, da 4 j • k j = (1 / 12 : ℝ) • k 0 + (1 / 6 : ℝ) • k 1 + (1 / 6 : ℝ) • k 2 + (1 / 12 : ℝ) • k 3) ∧
    (∑ j ∈ Finset.range 5, da 5 j • k j = (1 / 12 : ℝ) • k 0 + (1 / 6 : ℝ) • k 1 + (1 / 6 : ℝ) • k 2 + (1 / 12 : ℝ) • k 3 + (1 / 4 : ℝ) • k 4) ∧
    (∑ j ∈ Finset.range 6, da 6 j • k j = (1 / 12 : ℝ) • k 0 + (1 / 6 : ℝ) • k 1 + (1 / 6 : ℝ) • k 2 + (1 / 12 : ℝ) • k 3 + (1 / 4 : ℝ) • k 5) ∧
    (∑ j ∈ Finset.range 7, da 7 j • k j = (1 / 12 : ℝ) • k 0 + (1 / 6 : ℝ) • k 1 + (1 / 6 : ℝ) • k 2 + (1 / 12 : ℝ) • k 3 + (1 / 2 : ℝ) • k 6) ∧
    (∑ j ∈ Finset.range 8, da 8 j • k j = 0) ∧
    (∑ j ∈ Finset.range 9, da 9 j • k j = (1 / 2 : ℝ) • k 8) ∧
    (∑ j ∈ Finset.range 10, da 10 j • k j = (1 / 2 : ℝ) • k 9) ∧
    (∑ j ∈ Finset.range 11, da 11 j • k j = k 10) := by
  refine ⟨?_, ?_, ?_, ?_, ?_, ?_, ?_, ?_, ?_, ?_, ?_, ?_⟩ <;>
    (simp only [Finset.sum_range_succ, Finset.sum_range_zero, da, dRows, List.getD_cons_succ, List.getD_cons_zero]; try norm_num)

/-- The stages of the combined method. -/
theorem kk_double (f : E → E) (y : E) (h : ℝ) :
    let k := kk da f y (2 * h)
    rk4 f h y = y + h • ((1 / 6 : ℝ) • k 0 + (1 / 3 : ℝ) • k 1 + (1 / 3 : ℝ) • k 2 + (1 / 6 : ℝ) • k 3) ∧
    rk4 f h (rk4 f h y) = rk4 f h y + h • ((1 / 6 : ℝ) • k 4 + (1 / 3 : ℝ) • k 5 + (1 / 3 : ℝ) • k 6 + (1 / 6 : ℝ) • k 7) ∧
    rk4 f (2 * h) y = y + (2 * h) • ((1 / 6 : ℝ) • k 8 + (1 / 3 : ℝ) • k 9 + (1 / 3 : ℝ) • k 10 + (1 / 6 : ℝ) • k 11) := by
  intro k
  obtain ⟨e0, e1, e2, e3, e4, e5, e6, e7, e8, e9, e10, e11⟩ := sum_da k
  have H := fun i => kk_eq da f y (2 * h) i
  have h0 : k 0 = f y := by rw [show k 0 = _ from H 0, show ∑ j ∈ Finset.range 0, da 0 j • kk da f y (2 * h) j = _ from e0]; simp
  have h1 : k 1 = f (y + (h / 2) • k 0) := by
    rw [show k 1 = _ from H 1, show ∑ j ∈ Finset.range 1, da 1 j • kk da f y (2 * h) j = _ from e1]; congr 1; module
  have h2 : k 2 = f (y + (h / 2) • k 1) := by
    rw [show k 2 = _ from H 2, show ∑ j ∈ Finset.range 2, da 2 j • kk da f y (2 * h) j = _ from e2]; congr 1; module
  have h3 : k 3 = f (y + h • k 2) := by
    rw [show k 3 = _ from H 3, show ∑ j ∈ Finset.range 3, da 3 j • kk da f y (2 * h) j = _ from e3]; congr 1; module
  have r1 : rk4 f h y = y + h • ((1 / 6 : ℝ) • k 0 + (1 / 3 : ℝ) • k 1 + (1 / 3 : ℝ) • k 2 + (1 / 6 : ℝ) • k 3) := by
    unfold rk4; simp only [← h0, ← h1, ← h2, ← h3]
  have h4 : k 4 = f (rk4 f h y) := by
    rw [show k 4 = _ from H 4, show ∑ j ∈ Finset.range 4, da 4 j • kk da f y (2 * h) j = _ from e4, r1]; congr 1; module
  have h5 : k 5 = f (rk4 f h y + (h / 2) • k 4) := by
    rw [show k 5 = _ from H 5, show ∑ j ∈ Finset.range 5, da 5 j • kk da f y (2 * h) j = _ from e5, r1]; congr 1; module
  have h6 : k 6 = f (rk4 f h y + (h / 2) • k 5) := by
    rw [show k 6 = _ from H 6, show ∑ j ∈ Finset.range 6, da 6 j • kk da f y (2 * h) j = _ from e6, r1]; congr 1; module
  have h7 : k 7 = f (rk4 f h y + h • k 6) := by
    rw [show k 7 = _ from H 7, show ∑ j ∈ Finset.range 7, da 7 j • kk da f y (2 * h) j = _ from e7, r1]; congr 1; module
  have h8 : k 8 = f y := by rw [show k 8 = _ from H 8, show ∑ j ∈ Finset.range 8, da 8 j • kk da f y (2 * h) j = _ from e8]; simp
  have h9 : k 9 = f (y + (2 * h / 2) • k 8) := by
    rw [show k 9 = _ from H 9, show ∑ j ∈ Finset.range 9, da 9 j • kk da f y (2 * h) j = _ from e9]; congr 1; module
  have h10 : k 10 = f (y + (2 * h / 2) • k 9) := by
    rw [show k 10 = _ from H 10, show ∑ j ∈ Finset.range 10, da 10 j • kk da f y (2 * h) j = _ from e10]; congr 1; module
  have h11 : k 11 = f (y + (2 * h) • k 10) := by
    rw [show k 11 = _ from H 11, show ∑ j ∈ Finset.range 11, da 11 j • kk da f y (2 * h) j = _ from e11]
  refine ⟨r1, ?_, ?_⟩
  · rw [h7, h6, h5, h4]
    conv_lhs => unfold rk4
    rfl
  · rw [h11, h10, h9, h8]
    conv_lhs => unfold rk4

/-- Weighted sums of the stages. -/
theorem wt_sums (k : ℕ → E) :
    (∑ i ∈ Finset.range 12, wt dFine i • k i = (1 / 2 : ℝ) • ((1 / 6 : ℝ) • k 0 + (1 / 3 : ℝ) • k 1 + (1 / 3 : ℝ) • k 2 + (1 / 6 : ℝ) • k 3)
      + (1 / 2 : ℝ) • ((1 / 6 : ℝ) • k 4 + (1 / 3 : ℝ) • k 5 + (1 / 3 : ℝ) • k 6 + (1 / 6 : ℝ) • k 7)) ∧
    (∑ i ∈ Finset.range 12, wt dCoarse i • k i = (1 / 6 : ℝ) • k 8 + (1 / 3 : ℝ) • k 9 + (1 / 3 : ℝ) • k 10 + (1 / 6 : ℝ) • k 11) ∧
    (∑ i ∈ Finset.range 12, wt dRich i • k i = (16 / 15 : ℝ) • ∑ i ∈ Finset.range 12, wt dFine i • k i
      - (1 / 15 : ℝ) • ∑ i ∈ Finset.range 12, wt dCoarse i • k i) := by
  simp only [Finset.sum_range_succ, Finset.sum_range_zero, wt, dFine, dCoarse, dRich, List.getD_cons_succ, List.getD_cons_zero]
  refine ⟨?_, ?_, ?_⟩ <;> (push_cast; module)

theorem fine_isStep (f : E → E) (y : E) (H : ℝ) : IsStep 12 da (wt dFine) f y H (kk da f y H) (rk4 f (H / 2) (rk4 f (H / 2) y)) := by
  refine ⟨fun i _ => kk_eq da f y H i, ?_⟩
  obtain ⟨r1, r2, -⟩ := kk_double f y (H / 2)
  rw [mul_div_cancel₀ H (two_ne_zero)] at r1 r2
  rw [(wt_sums _).1, r2, r1]
  module

theorem coarse_isStep (f : E → E) (y : E) (H : ℝ) : IsStep 12 da (wt dCoarse) f y H (kk da f y H) (rk4 f H y) := by
  refine ⟨fun i _ => kk_eq da f y H i, ?_⟩
  obtain ⟨-, -, r3⟩ := kk_double f y (H / 2)
  rw [mul_div_cancel₀ H (two_ne_zero)] at r3
  rw [(wt_sums _).2.1, r3]

theorem rich_isStep (f : E → E) (y : E) (H : ℝ) : IsStep 12 da (wt dRich) f y H (kk da f y H)
    ((16 / 15 : ℝ) • rk4 f (H / 2) (rk4 f (H / 2) y) - (1 / 15 : ℝ) • rk4 f H y) := by
  refine ⟨fun i _ => kk_eq da f y H i, ?_⟩
  rw [(wt_sums _).2.2, (fine_isStep f y H).2, (coarse_isStep f y H).2]
  module

end

variable {E : Type*} [NormedAddCommGroup E] [NormedSpace ℝ E] [CompleteSpace E] {f : E → E} {y : E} {Y : ℝ → E}

theorem order_of_weights {b : List ℤ} (hb : b.length = 12) {m : ℕ} (hm : m ≤ 10) (ht : orderTest b (m + 1) = true)
    (hf : AnalyticAt ℝ f y) (hY0 : Y 0 = y) (hY : ∀ᶠ h in 𝓝 (0 : ℝ), HasDerivAt Y (f (Y h)) h) {yout : ℝ → E}
    (hs : ∀ H, IsStep 12 da (wt b) f y H (kk da f y H) (yout H)) :
    (fun H => yout H - Y H) =O[𝓝 0] fun H : ℝ => H ^ (m + 2) := by
  obtain ⟨p, hp⟩ := hf
  refine (local_error (K := m) hp 12 (by omega) da (wt b) (kk da f y) yout hs hY0 hY).congr_left fun H => ?_
  rw [Finset.sum_eq_zero, sub_zero]
  intro t _
  split_ifs with hto
  · rw [order_of_test hb ht t hto, mul_zero, zero_smul]
  · rfl

/-- The classical method has order four, also as two half steps; the extrapolation has order five. -/
theorem rk4_orders (hf : AnalyticAt ℝ f y) (hY0 : Y 0 = y) (hY : ∀ᶠ h in 𝓝 (0 : ℝ), HasDerivAt Y (f (Y h)) h) :
    ((fun H => rk4 f H y - Y H) =O[𝓝 0] fun H : ℝ => H ^ 5) ∧
    ((fun H => rk4 f (H / 2) (rk4 f (H / 2) y) - Y H) =O[𝓝 0] fun H : ℝ => H ^ 5) ∧
    ((fun H => (16 / 15 : ℝ) • rk4 f (H / 2) (rk4 f (H / 2) y) - (1 / 15 : ℝ) • rk4 f H y - Y H) =O[𝓝 0] fun H : ℝ => H ^ 6) :=
  ⟨order_of_weights (m := 3) rfl (by norm_num) coarse_test hf hY0 hY (coarse_isStep f y),
    order_of_weights (m := 3) rfl (by norm_num) fine_test hf hY0 hY (fine_isStep f y),
    order_of_weights (m := 4) rfl (by norm_num) rich_test hf hY0 hY (rich_isStep f y)⟩

end PyNLO.RK
