import Verif.Model.DfgVg
import Mathlib.Analysis.Calculus.Deriv.MeanValue

/-!
# C189: group velocities from a sampled index

`vg(n, wl)` of the DFG problem, compared with `c/(n - λ dn/dλ)`.
-/

namespace PyNLO

open Dfg

theorem vg_eq {N : ℕ} (h : 2 ≤ N) (n wl : Fin N → ℝ) : vg ⟨N, n⟩ ⟨N, wl⟩ = .ok ⟨N, fun i => cMks / (n i - wl i * helperDxdy h wl n i)⟩ := by
  unfold vg
  rw [if_neg (by simp), dif_neg (by simp only; omega), dif_pos rfl]
  rfl

/-- C189: exact for an index that is linear in the wavelength, the last sample included. -/
theorem C189_linear {N : ℕ} (h : 2 ≤ N) (a b : ℝ) (wl : Fin N → ℝ) (hwl : ∀ (i : ℕ) (hi : i + 1 < N), wl ⟨i, by omega⟩ ≠ wl ⟨i + 1, hi⟩) :
    vg ⟨N, fun i => a + b * wl i⟩ ⟨N, wl⟩ = .ok ⟨N, fun _ => cMks / a⟩ := by
  rw [vg_eq h]
  congr 2
  funext i
  have hi : slopeIdx i + 1 < N := by unfold slopeIdx; omega
  have e : helperDxdy h wl (fun i => a + b * wl i) i = b := by
    unfold helperDxdy
    have : wl ⟨slopeIdx i + 1, hi⟩ - wl ⟨slopeIdx i, by omega⟩ ≠ 0 := sub_ne_zero.mpr (hwl _ hi).symm
    rw [div_eq_iff this]
    ring
  rw [e]
  congr 1
  ring

/-- C189: for an index quadratic in the wavelength, `a + b λ + q λ²` with group index `a - q λ²`, entry `i` is `c/(a - q λᵢ λᵢ₊₁)` and the last one has the wavelength before it. -/
theorem C189_quadratic {N : ℕ} (h : 2 ≤ N) (a b q : ℝ) (wl : Fin N → ℝ) (hwl : ∀ (i : ℕ) (hi : i + 1 < N), wl ⟨i, by omega⟩ ≠ wl ⟨i + 1, hi⟩) :
    ∃ v, vg ⟨N, fun i => a + b * wl i + q * wl i ^ 2⟩ ⟨N, wl⟩ = .ok ⟨N, v⟩ ∧
      (∀ (i : ℕ) (hi : i + 1 < N), v ⟨i, by omega⟩ = cMks / (a - q * wl ⟨i, by omega⟩ * wl ⟨i + 1, hi⟩)) ∧
      v ⟨N - 1, by omega⟩ = cMks / (a - q * wl ⟨N - 1, by omega⟩ * wl ⟨N - 2, by omega⟩) := by
  have key : ∀ (j : ℕ) (hj : j + 1 < N) (i : Fin N), slopeIdx i = j →
      helperDxdy h wl (fun i => a + b * wl i + q * wl i ^ 2) i = b + q * (wl ⟨j, by omega⟩ + wl ⟨j + 1, hj⟩) := by
    rintro j hj i rfl
    unfold helperDxdy
    have : wl ⟨slopeIdx i + 1, hj⟩ - wl ⟨slopeIdx i, by omega⟩ ≠ 0 := sub_ne_zero.mpr (hwl _ hj).symm
    rw [div_eq_iff this]
    ring
  refine ⟨_, vg_eq h _ wl, fun i hi => ?_, ?_⟩
  · rw [key i hi _ (by unfold slopeIdx; simp only; omega)]
    congr 1
    ring
  · rw [key (N - 2) (by omega) _ (by unfold slopeIdx; simp only; omega)]
    have : (⟨N - 2 + 1, by omega⟩ : Fin N) = ⟨N - 1, by omega⟩ := Fin.ext (by simp only; omega)
    rw [this]
    congr 1
    ring

/-- a difference quotient is a derivative in between -/
theorem slope_between {f f' : ℝ → ℝ} {x y : ℝ} (hxy : x ≠ y) (hf : ∀ z ∈ Set.uIcc x y, HasDerivAt f (f' z) z) :
    ∃ z ∈ Set.uIcc x y, f' z = (f y - f x) / (y - x) := by
  rcases lt_or_gt_of_ne hxy with h | h
  · rw [Set.uIcc_of_le h.le] at *
    obtain ⟨z, hz, e⟩ := exists_hasDerivAt_eq_slope f f' h (fun z hz => (hf z hz).continuousAt.continuousWithinAt) fun z hz => hf z (Set.Ioo_subset_Icc_self hz)
    exact ⟨z, Set.Ioo_subset_Icc_self hz, e⟩
  · rw [Set.uIcc_of_ge h.le] at *
    obtain ⟨z, hz, e⟩ := exists_hasDerivAt_eq_slope f f' h (fun z hz => (hf z hz).continuousAt.continuousWithinAt) fun z hz => hf z (Set.Ioo_subset_Icc_self hz)
    refine ⟨z, Set.Ioo_subset_Icc_self hz, ?_⟩
    rw [e, ← neg_sub (f y), ← neg_sub y, neg_div_neg_eq]

/-- C189: for samples of an index with a slope that changes by at most `M` per unit of wavelength, neighbours at most `h` apart, in increasing or decreasing order, the
reported velocity is within `2 c λ M h / g²` of the group velocity, when the group index is at least `g` and the samples resolve it. -/
theorem C189_error {N : ℕ} (hN : 2 ≤ N) {f f' : ℝ → ℝ} {wl : Fin N → ℝ} {lo hi M h g : ℝ} (hM : 0 ≤ M) (hg : 0 < g) (hlo : 0 ≤ lo)
    (hmem : ∀ i, wl i ∈ Set.Icc lo hi) (hf : ∀ x ∈ Set.Icc lo hi, HasDerivAt f (f' x) x)
    (hLip : ∀ x ∈ Set.Icc lo hi, ∀ y ∈ Set.Icc lo hi, |f' x - f' y| ≤ M * |x - y|)
    (hne : ∀ (i : ℕ) (hi : i + 1 < N), wl ⟨i, by omega⟩ ≠ wl ⟨i + 1, hi⟩) (hh : ∀ (i : ℕ) (hi : i + 1 < N), |wl ⟨i, by omega⟩ - wl ⟨i + 1, hi⟩| ≤ h)
    (hgrp : ∀ i, g ≤ f (wl i) - wl i * f' (wl i)) (hfine : hi * M * h ≤ g / 2) :
    ∃ v, vg ⟨N, fun i => f (wl i)⟩ ⟨N, wl⟩ = .ok ⟨N, v⟩ ∧
      ∀ i, |v i - cMks / (f (wl i) - wl i * f' (wl i))| ≤ 2 * cMks * wl i * M * h / g ^ 2 := by
  refine ⟨_, vg_eq hN _ wl, fun i => ?_⟩
  have hc : 0 < cMks := by norm_num [cMks]
  obtain ⟨x, hx⟩ : ∃ x, x = wl i := ⟨_, rfl⟩
  have hj : slopeIdx i + 1 < N := by unfold slopeIdx; omega
  obtain ⟨p, hp⟩ : ∃ p, p = wl ⟨slopeIdx i, by omega⟩ := ⟨_, rfl⟩
  obtain ⟨q, hq⟩ : ∃ q, q = wl ⟨slopeIdx i + 1, hj⟩ := ⟨_, rfl⟩
  have hpq : p ≠ q := by rw [hp, hq]; exact hne _ hj
  have hd : |p - q| ≤ h := by rw [hp, hq]; exact hh _ hj
  have hpm : p ∈ Set.Icc lo hi := by rw [hp]; exact hmem _
  have hqm : q ∈ Set.Icc lo hi := by rw [hq]; exact hmem _
  have hsub : Set.uIcc p q ⊆ Set.Icc lo hi := Set.uIcc_subset_Icc hpm hqm
  obtain ⟨z, hz, ez⟩ := slope_between hpq fun z hz => hf z (hsub hz)
  have hxm : x ∈ Set.Icc lo hi := by rw [hx]; exact hmem i
  have hxpq : x ∈ Set.uIcc p q := by
    have : (⟨slopeIdx i, by omega⟩ : Fin N) = i ∨ (⟨slopeIdx i + 1, hj⟩ : Fin N) = i := by
      simp only [Fin.ext_iff]
      unfold slopeIdx
      omega
    rcases this with h' | h'
    · rw [hx, ← h', ← hp]; exact Set.left_mem_uIcc
    · rw [hx, ← h', ← hq]; exact Set.right_mem_uIcc
  have hslope : helperDxdy hN wl (fun i => f (wl i)) i = f' z := by
    rw [ez, hp, hq]
    rfl
  have hzx : |f' z - f' x| ≤ M * h := (hLip z (hsub hz) x hxm).trans
    (mul_le_mul_of_nonneg_left ((Set.abs_sub_le_of_uIcc_subset_uIcc (Set.uIcc_subset_uIcc hxpq hz)).trans (by rwa [abs_sub_comm])) hM)
  have hx0 : 0 ≤ x := hlo.trans hxm.1
  have hh0 : 0 ≤ h := (abs_nonneg _).trans hd
  obtain ⟨D, hD⟩ : ∃ D, D = f x - x * f' z := ⟨_, rfl⟩
  obtain ⟨E, hE⟩ : ∃ E, E = f x - x * f' x := ⟨_, rfl⟩
  have hDE : |E - D| ≤ x * (M * h) := by
    rw [hE, hD, show f x - x * f' x - (f x - x * f' z) = x * (f' z - f' x) by ring, abs_mul, abs_of_nonneg hx0]
    exact mul_le_mul_of_nonneg_left hzx hx0
  have hEg : g ≤ E := by rw [hE, hx]; exact hgrp i
  have hxM : x * (M * h) ≤ g / 2 := by
    have := mul_le_mul_of_nonneg_right hxm.2 (mul_nonneg hM hh0)
    linarith
  have hDg : g / 2 ≤ D := by linarith [(abs_le.mp hDE).2]
  show |cMks / (f (wl i) - wl i * helperDxdy hN wl (fun i => f (wl i)) i) - cMks / (f (wl i) - wl i * f' (wl i))| ≤ _
  rw [hslope, ← hx, ← hD, ← hE]
  have hD0 : 0 < D := by linarith
  have hE0 : 0 < E := by linarith
  have e : cMks / D - cMks / E = cMks * (E - D) / (D * E) := by field_simp
  rw [e, abs_div, abs_mul, abs_of_pos hc, abs_of_pos (mul_pos hD0 hE0), div_le_div_iff₀ (mul_pos hD0 hE0) (by positivity)]
  have h1 : g ^ 2 ≤ 2 * (D * E) := by
    have := mul_le_mul hDg hEg hg.le hD0.le
    nlinarith
  have h2 : 0 ≤ cMks * (x * (M * h)) := by positivity
  calc cMks * |E - D| * g ^ 2 ≤ cMks * (x * (M * h)) * g ^ 2 := by gcongr
    _ ≤ cMks * (x * (M * h)) * (2 * (D * E)) := mul_le_mul_of_nonneg_left h1 h2
    _ = 2 * cMks * x * M * h * (D * E) := by ring

/-- C189: what fails: one sample or none, and arrays of different lengths. -/
theorem C189_fails (n wl : Vec ℝ) : (n.len ≤ 1 → wl.len ≤ 1 → vg n wl = .error .IndexError) ∧
    (n.len ≠ wl.len → vg n wl = .error .ValueError ∨ vg n wl = .error .IndexError) := by
  constructor
  · intro h1 h2
    unfold vg
    rw [if_neg (by omega), dif_pos (by omega)]
  · intro h
    unfold vg
    split_ifs with h1 h2
    · exact Or.inl rfl
    · exact Or.inr rfl
    · exact Or.inl rfl

/-- C189: given angular frequencies, which is what `gen_jl` is written to pass (`DFG_integrand.py:215-217`), the result is not the group velocity `c/(n + ω dn/dω)`: for an
index that grows linearly with the frequency every entry is above the phase velocity `c/n`, the group velocity below it. -/
theorem C189_frequency {N : ℕ} (h : 2 ≤ N) {a b : ℝ} (ha : 0 < a) (hb : 0 < b) (w : Fin N → ℝ) (hw : StrictMono w) (hpos : ∀ i, 0 < w i) :
    ∃ v, vg ⟨N, fun i => a + b * w i⟩ ⟨N, w⟩ = .ok ⟨N, v⟩ ∧ ∀ i, cMks / ((a + b * w i) + w i * b) < cMks / (a + b * w i) ∧ cMks / (a + b * w i) < v i := by
  have hc : 0 < cMks := by norm_num [cMks]
  refine ⟨_, C189_linear h a b w fun i hi => (hw (by simp [Fin.lt_def])).ne, fun i => ⟨?_, ?_⟩⟩
  · have := mul_pos hb (hpos i)
    exact div_lt_div_of_pos_left hc (by linarith) (by nlinarith)
  · have := mul_pos hb (hpos i)
    exact div_lt_div_of_pos_left hc ha (by linarith)

/-- C189: the index `3 - x/4 + x²/16` (wavelength `x` in micrometres between 1 and 2) at three decreasing samples meets the assumptions of `C189_error`. -/
theorem C189_nonvacuous : ∃ (f f' : ℝ → ℝ) (wl : Fin 3 → ℝ) (lo hi M h g : ℝ), 0 < M ∧ 0 < g ∧ 0 ≤ lo ∧ (∀ i, wl i ∈ Set.Icc lo hi) ∧
    (∀ x ∈ Set.Icc lo hi, HasDerivAt f (f' x) x) ∧ (∀ x ∈ Set.Icc lo hi, ∀ y ∈ Set.Icc lo hi, |f' x - f' y| ≤ M * |x - y|) ∧
    (∀ (i : ℕ) (hi : i + 1 < 3), wl ⟨i, by omega⟩ ≠ wl ⟨i + 1, hi⟩) ∧ (∀ (i : ℕ) (hi : i + 1 < 3), |wl ⟨i, by omega⟩ - wl ⟨i + 1, hi⟩| ≤ h) ∧
    (∀ i, g ≤ f (wl i) - wl i * f' (wl i)) ∧ hi * M * h ≤ g / 2 := by
  refine ⟨fun x => 3 - x / 4 + x ^ 2 / 16, fun x => -1 / 4 + x / 8, ![2, 3 / 2, 1], 1, 2, 1 / 8, 1 / 2, 2, by norm_num, by norm_num, by norm_num, ?_, ?_, ?_, ?_, ?_, ?_, by norm_num⟩
  · intro i; fin_cases i <;> norm_num
  · intro x _
    have h1 := ((hasDerivAt_id x).div_const 4).const_sub 3
    have h2 := ((hasDerivAt_pow 2 x).div_const 16)
    exact (h1.add h2).congr_deriv (by norm_num; ring)
  · intro x _ y _
    rw [show -1 / 4 + x / 8 - (-1 / 4 + y / 8) = 1 / 8 * (x - y) by ring, abs_mul]
    norm_num
  · intro i hi
    obtain rfl | rfl : i = 0 ∨ i = 1 := by omega
    all_goals norm_num
  · intro i hi
    obtain rfl | rfl : i = 0 ∨ i = 1 := by omega
    all_goals norm_num [abs_of_pos]
  · intro i; fin_cases i <;> norm_num

end PyNLO
