import Verif.Props.OdeTableau
import Verif.Props.OdeStep
import Verif.Props.OdeRuns

/-!
# C109: accuracy of the output between steps

On a right-hand side that is a polynomial of degree at most 6 in the independent variable, the interpolant that
`Output` evaluates between the ends of a step is the exact solution up to the rounding of the printed literals.
-/

open scoped BigOperators

namespace PyNLO.Ode

variable {n : ℕ}

open dc

/-- The coefficients of the interpolant for the right-hand side `t^k` on the unit step, as the code forms them. -/
noncomputable def denseMoment : Fin 7 → ℕ → ℝ
  | 0, k => quadMoment k
  | 1, k => 0 ^ k - quadMoment k
  | 2, k => quadMoment k - 1 - (0 ^ k - quadMoment k)
  | 3, k => d41 * 0 ^ k + d46 * c6 ^ k + d47 * c7 ^ k + d48 * c8 ^ k + d49 * c9 ^ k + d410 * c10 ^ k + d411 * c11 ^ k + d412
      + d413 + d414 * c14 ^ k + d415 * c15 ^ k + d416 * c16 ^ k
  | 4, k => d51 * 0 ^ k + d56 * c6 ^ k + d57 * c7 ^ k + d58 * c8 ^ k + d59 * c9 ^ k + d510 * c10 ^ k + d511 * c11 ^ k + d512
      + d513 + d514 * c14 ^ k + d515 * c15 ^ k + d516 * c16 ^ k
  | 5, k => d61 * 0 ^ k + d66 * c6 ^ k + d67 * c7 ^ k + d68 * c8 ^ k + d69 * c9 ^ k + d610 * c10 ^ k + d611 * c11 ^ k + d612
      + d613 + d614 * c14 ^ k + d615 * c15 ^ k + d616 * c16 ^ k
  | 6, k => d71 * 0 ^ k + d76 * c6 ^ k + d77 * c7 ^ k + d78 * c8 ^ k + d79 * c9 ^ k + d710 * c10 ^ k + d711 * c11 ^ k + d712
      + d713 + d714 * c14 ^ k + d715 * c15 ^ k + d716 * c16 ^ k

/-- The nested form the code evaluates. -/
noncomputable def nest (r : Fin 7 → ℝ) (t : ℝ) : ℝ :=
  t * (r 0 + (1 - t) * (r 1 + t * (r 2 + (1 - t) * (r 3 + t * (r 4 + (1 - t) * (r 5 + t * r 6))))))

/-- The coefficients for which the nested form is `t^(k+1)/(k+1)`. -/
noncomputable def denseExact (k : ℕ) : Fin 7 → ℝ
  | 0 => 1 / (k + 1)
  | 1 => 0 ^ k - 1 / (k + 1)
  | 2 => 2 / (k + 1) - 1 - 0 ^ k
  | 3 => [0, 0, 0, 1 / 4, 2 / 5, 1 / 2, 4 / 7].getD k 0
  | 4 => [0, 0, 0, 0, 1 / 5, 1 / 2, 6 / 7].getD k 0
  | 5 => [0, 0, 0, 0, 0, -1 / 6, -3 / 7].getD k 0
  | 6 => [0, 0, 0, 0, 0, 0, -1 / 7].getD k 0

theorem nest_exact (k : ℕ) (hk : k < 7) (t : ℝ) : nest (denseExact k) t = t ^ (k + 1) / (k + 1) := by
  interval_cases k <;> simp [nest, denseExact] <;> ring

theorem dense_moments (k : ℕ) (hk : k < 7) (j : Fin 7) : |denseMoment j k - denseExact k j| ≤ 1e-26 := by
  have hq := C59_quadrature k (by omega)
  fin_cases j
  · show |quadMoment k - 1 / (k + 1)| ≤ _
    exact hq.trans (by norm_num)
  · show |0 ^ k - quadMoment k - (0 ^ k - 1 / (k + 1))| ≤ _
    rw [show (0 : ℝ) ^ k - quadMoment k - (0 ^ k - 1 / (k + 1)) = -(quadMoment k - 1 / (k + 1)) by ring, abs_neg]
    exact hq.trans (by norm_num)
  · show |quadMoment k - 1 - (0 ^ k - quadMoment k) - (2 / (k + 1) - 1 - 0 ^ k)| ≤ _
    rw [show quadMoment k - 1 - (0 ^ k - quadMoment k) - (2 / (k + 1) - 1 - 0 ^ k) = 2 * (quadMoment k - 1 / (k + 1)) by ring,
      abs_mul, abs_two]
    linarith [show (2 : ℝ) * 1e-29 ≤ 1e-26 by norm_num]
  · show |denseMoment 3 k - denseExact k 3| ≤ _
    rw [abs_le]
    interval_cases k <;> norm_num [denseMoment, denseExact, d41, d46, d47, d48, d49, d410, d411, d412, d413, d414, d415, d416,
      c6, c7, c8, c9, c10, c11, c14, c15, c16]
  · show |denseMoment 4 k - denseExact k 4| ≤ _
    rw [abs_le]
    interval_cases k <;> norm_num [denseMoment, denseExact, d51, d56, d57, d58, d59, d510, d511, d512, d513, d514, d515, d516,
      c6, c7, c8, c9, c10, c11, c14, c15, c16]
  · show |denseMoment 5 k - denseExact k 5| ≤ _
    rw [abs_le]
    interval_cases k <;> norm_num [denseMoment, denseExact, d61, d66, d67, d68, d69, d610, d611, d612, d613, d614, d615, d616,
      c6, c7, c8, c9, c10, c11, c14, c15, c16]
  · show |denseMoment 6 k - denseExact k 6| ≤ _
    rw [abs_le]
    interval_cases k <;> norm_num [denseMoment, denseExact, d71, d76, d77, d78, d79, d710, d711, d712, d713, d714, d715, d716,
      c6, c7, c8, c9, c10, c11, c14, c15, c16]

theorem nest_close (r e : Fin 7 → ℝ) (δ t : ℝ) (h0 : 0 ≤ t) (h1 : t ≤ 1) (hr : ∀ j, |r j - e j| ≤ δ) :
    |nest r t - nest e t| ≤ 7 * δ := by
  have key : ∀ a b c d s : ℝ, 0 ≤ s → s ≤ 1 → |a + s * b - (c + s * d)| ≤ |a - c| + |b - d| := by
    intro a b c d s s0 s1
    rw [show a + s * b - (c + s * d) = (a - c) + s * (b - d) by ring]
    refine (abs_add_le _ _).trans ?_
    rw [abs_mul, abs_of_nonneg s0]
    have := mul_le_of_le_one_left (abs_nonneg (b - d)) s1
    linarith
  have t0 : 0 ≤ 1 - t := by linarith
  have t1 : 1 - t ≤ 1 := by linarith
  have k5 := key (r 5) (r 6) (e 5) (e 6) t h0 h1
  have k4 := key (r 4) (r 5 + t * r 6) (e 4) (e 5 + t * e 6) (1 - t) t0 t1
  have k3 := key (r 3) (r 4 + (1 - t) * (r 5 + t * r 6)) (e 3) (e 4 + (1 - t) * (e 5 + t * e 6)) t h0 h1
  have k2 := key (r 2) (r 3 + t * (r 4 + (1 - t) * (r 5 + t * r 6))) (e 2) (e 3 + t * (e 4 + (1 - t) * (e 5 + t * e 6))) (1 - t) t0 t1
  have k1 := key (r 1) (r 2 + (1 - t) * (r 3 + t * (r 4 + (1 - t) * (r 5 + t * r 6)))) (e 1)
    (e 2 + (1 - t) * (e 3 + t * (e 4 + (1 - t) * (e 5 + t * e 6)))) t h0 h1
  have k0 := key (r 0) (r 1 + t * (r 2 + (1 - t) * (r 3 + t * (r 4 + (1 - t) * (r 5 + t * r 6))))) (e 0)
    (e 1 + t * (e 2 + (1 - t) * (e 3 + t * (e 4 + (1 - t) * (e 5 + t * e 6))))) (1 - t) t0 t1
  have k := key 0 (r 0 + (1 - t) * (r 1 + t * (r 2 + (1 - t) * (r 3 + t * (r 4 + (1 - t) * (r 5 + t * r 6)))))) 0
    (e 0 + (1 - t) * (e 1 + t * (e 2 + (1 - t) * (e 3 + t * (e 4 + (1 - t) * (e 5 + t * e 6)))))) t h0 h1
  simp only [zero_add, sub_self, abs_zero] at k
  unfold nest
  have := hr 0
  have := hr 1
  have := hr 2
  have := hr 3
  have := hr 4
  have := hr 5
  have := hr 6
  linarith

theorem vec8 {r : Fin 8 → V n} {a0 a1 a2 a3 a4 a5 a6 a7 : V n} (h : r = ![a0, a1, a2, a3, a4, a5, a6, a7]) :
    r 0 = a0 ∧ r 1 = a1 ∧ r 2 = a2 ∧ r 3 = a3 ∧ r 4 = a4 ∧ r 5 = a5 ∧ r 6 = a6 ∧ r 7 = a7 := by
  subst h
  exact ⟨rfl, rfl, rfl, rfl, rfl, rfl, rfl, rfl⟩

theorem prepareDense_poly (m : ℕ) (x : ℝ) (v : ℕ → V n) (y y' : V n) (h : ℝ) (r : Fin 8 → V n)
    (hr : r = prepareDense (polyRhs m x v) x y (polyRhs m x v x y) (polyRhs m x v (x + h) y')
        (dy (polyRhs m x v) x y (polyRhs m x v x y) h) h) :
    r 0 = y ∧
    r 1 = ∑ k ∈ Finset.range m, (h ^ (k + 1) * denseMoment 0 k) • v k ∧
    r 2 = ∑ k ∈ Finset.range m, (h ^ (k + 1) * denseMoment 1 k) • v k ∧
    r 3 = ∑ k ∈ Finset.range m, (h ^ (k + 1) * denseMoment 2 k) • v k ∧
    r 4 = ∑ k ∈ Finset.range m, (h ^ (k + 1) * denseMoment 3 k) • v k ∧
    r 5 = ∑ k ∈ Finset.range m, (h ^ (k + 1) * denseMoment 4 k) • v k ∧
    r 6 = ∑ k ∈ Finset.range m, (h ^ (k + 1) * denseMoment 5 k) • v k ∧
    r 7 = ∑ k ∈ Finset.range m, (h ^ (k + 1) * denseMoment 6 k) • v k := by
  have hout := (dy_poly m x v y h).1
  unfold prepareDense at hr
  rw [hout] at hr
  simp only [dy, polyRhs_one, polyRhs_zero m x v h, add_sub_cancel_left, Finset.smul_sum, ← Finset.sum_add_distrib,
    ← Finset.sum_sub_distrib, smul_smul, ← add_smul, ← sub_smul] at hr
  obtain ⟨e0, e1, e2, e3, e4, e5, e6, e7⟩ := vec8 hr
  refine ⟨e0, e1.trans ?_, e2.trans ?_, e3.trans ?_, e4.trans ?_, e5.trans ?_, e6.trans ?_, e7.trans ?_⟩
  all_goals
    refine Finset.sum_congr rfl fun k _ => ?_
    first
    | rfl
    | congr 1
      simp only [denseMoment]
      ring

/-- C109: after an accepted step on the polynomial right-hand side `Σ_{k≤6} (t-x)^k v_k`, the value the integrator
saves at any position inside the step is `y + Σ (X-x)^(k+1)/(k+1) v_k`, to 25 digits. -/
theorem C109_interpolant (p : Prob n) (hd : p.dense = true) (s s' : Stepper n) (htry : ℝ) (c c' : Con) (v : ℕ → V n)
    (hf : p.f = polyRhs 7 s.x v) (hs : s.dydx = p.f s.x s.y) (hr : step p s htry c = some (.ok (), s', c'))
    (h0 : s'.hdid ≠ 0) (θ : ℝ) (t0 : 0 ≤ θ) (t1 : θ ≤ 1) (i : Fin n) :
    ‖denseOut s' (s.x + θ * s'.hdid) s'.hdid i -
        (s.y i + ∑ k ∈ Finset.range 7, (((θ * s'.hdid) ^ (k + 1) / (k + 1) : ℝ) : ℂ) * v k i)‖
      ≤ 1e-25 * ∑ k ∈ Finset.range 7, |s'.hdid| ^ (k + 1) * ‖v k i‖ := by
  obtain ⟨-, hx, hxo, -, hy, hdn, hrc⟩ := step_ok hr
  rw [if_pos hd, hdn, hx, hs, hf] at hrc
  obtain ⟨e0, e1, e2, e3, e4, e5, e6, e7⟩ := prepareDense_poly 7 s.x v s.y s'.y s'.hdid s'.rc hrc
  unfold denseOut
  rw [e0, e1, e2, e3, e4, e5, e6, e7, hxo]
  have ht : (s.x + θ * s'.hdid - s.x) / s'.hdid = θ := by
    rw [add_sub_cancel_left, mul_div_assoc, div_self h0, mul_one]
  simp only [ht]
  have : (s.y + θ • (∑ k ∈ Finset.range 7, (s'.hdid ^ (k + 1) * denseMoment 0 k) • v k +
      (1 - θ) • (∑ k ∈ Finset.range 7, (s'.hdid ^ (k + 1) * denseMoment 1 k) • v k +
      θ • (∑ k ∈ Finset.range 7, (s'.hdid ^ (k + 1) * denseMoment 2 k) • v k +
      (1 - θ) • (∑ k ∈ Finset.range 7, (s'.hdid ^ (k + 1) * denseMoment 3 k) • v k +
      θ • (∑ k ∈ Finset.range 7, (s'.hdid ^ (k + 1) * denseMoment 4 k) • v k +
      (1 - θ) • (∑ k ∈ Finset.range 7, (s'.hdid ^ (k + 1) * denseMoment 5 k) • v k +
      θ • ∑ k ∈ Finset.range 7, (s'.hdid ^ (k + 1) * denseMoment 6 k) • v k)))))))
      = s.y + ∑ k ∈ Finset.range 7, (s'.hdid ^ (k + 1) * nest (fun j => denseMoment j k) θ) • v k := by
    simp only [Finset.smul_sum, ← Finset.sum_add_distrib, smul_smul, ← add_smul, nest]
    congr 1
    refine Finset.sum_congr rfl fun k _ => ?_
    congr 1
    ring
  rw [this]
  simp only [Pi.add_apply, Finset.sum_apply, Pi.smul_apply, Complex.real_smul, add_sub_add_left_eq_sub,
    ← Finset.sum_sub_distrib, Finset.mul_sum]
  refine (norm_sum_le _ _).trans (Finset.sum_le_sum fun k hk => ?_)
  have hk7 := Finset.mem_range.mp hk
  have hq := nest_close (fun j => denseMoment j k) (denseExact k) 1e-26 θ t0 t1 (dense_moments k hk7)
  rw [nest_exact k hk7] at hq
  rw [← sub_mul, ← Complex.ofReal_sub, norm_mul, Complex.norm_real, Real.norm_eq_abs, mul_pow,
    show s'.hdid ^ (k + 1) * nest (fun j => denseMoment j k) θ - θ ^ (k + 1) * s'.hdid ^ (k + 1) / (k + 1)
      = s'.hdid ^ (k + 1) * (nest (fun j => denseMoment j k) θ - θ ^ (k + 1) / (k + 1)) by ring, abs_mul, abs_pow]
  have hq' : |nest (fun j => denseMoment j k) θ - θ ^ (k + 1) / (k + 1)| ≤ 1e-25 := hq.trans (by norm_num)
  calc |s'.hdid| ^ (k + 1) * |nest (fun j => denseMoment j k) θ - θ ^ (k + 1) / (k + 1)| * ‖v k i‖
      ≤ |s'.hdid| ^ (k + 1) * 1e-25 * ‖v k i‖ := by gcongr
    _ = 1e-25 * (|s'.hdid| ^ (k + 1) * ‖v k i‖) := by ring

/-- C109: degree 7 is not covered: at the middle of a unit step the interpolant of `t^7` is off by more than `1e-5`. -/
theorem C109_sharp : (1e-5 : ℝ) ≤ |nest (fun j => denseMoment j 7) (1 / 2) - (1 / 2) ^ 8 / 8| := by
  rw [le_abs]
  right
  norm_num [nest, denseMoment, quadMoment, b1, b6, b7, b8, b9, b10, b11, b12, d41, d46, d47, d48, d49, d410, d411, d412, d413,
    d414, d415, d416, d51, d56, d57, d58, d59, d510, d511, d512, d513, d514, d515, d516, d61, d66, d67, d68, d69, d610, d611,
    d612, d613, d614, d615, d616, d71, d76, d77, d78, d79, d710, d711, d712, d713, d714, d715, d716, c6, c7, c8, c9, c10, c11,
    c14, c15, c16]

/-- `y' = 1` meets the hypotheses. -/
theorem C109_nonvacuous (y0 : V 1) : ∃ (s : Stepper 1) (s' : Stepper 1) (c' : Con) (v : ℕ → V 1), (unitProb true).dense = true ∧
    (unitProb true).f = polyRhs 7 s.x v ∧ s.dydx = (unitProb true).f s.x s.y ∧
    step (unitProb true) s 1 Con.new = some (.ok (), s', c') ∧ s'.hdid ≠ 0 := by
  obtain ⟨s', c', h1, -, h2, -⟩ := unit_step true ⟨0, 0, 0, 0, y0, fun _ => 1, 0⟩ rfl 1 one_ne_zero (by simp) Con.new
  refine ⟨⟨0, 0, 0, 0, y0, fun _ => 1, 0⟩, s', c', fun k => if k = 0 then 1 else 0, rfl, ?_, rfl, h1, ?_⟩
  · funext t y
    simp only [polyRhs, smul_ite, smul_zero]
    rw [Finset.sum_ite_eq' (Finset.range 7) 0 (fun k => (t - 0) ^ k • (1 : V 1))]
    simp only [Finset.mem_range, Nat.ofNat_pos, if_true, pow_zero, one_smul]
    rfl
  · rw [h2]; exact one_ne_zero

end PyNLO.Ode
