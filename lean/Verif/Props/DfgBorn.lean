import Verif.Props.DfgPoledGain

/-!
# C176: first-order response of a crystal to pulses

For fields of any shape, what every frequency of the three waves gains is the sum over all pairs of frequencies that mix to it of the
product of their input amplitudes times the contribution of the crystal for the mismatch of that pair, up to an explicit bound of the terms
of higher order.  A crystal thin against all mismatches generates the product of the input fields.
-/

open scoped BigOperators
open Set

namespace PyNLO.Spec

/-- What frequency `m` receives from all pairs of frequencies `j` of `x` and `l` of `y` whose sum it is, each with its strength `u m j l`. -/
noncomputable def pairSum {n : ℕ} (c : ℤ) (u : Fin n → Fin n → Fin n → ℂ) (x y : Fin n → ℂ) (m : Fin n) : ℂ :=
  ∑ j : Fin n, ∑ l : Fin n, if ((j : ℕ) : ℤ) + (l : ℕ) = (m : ℕ) + c then u m j l * (x j * y l) else 0

/-- What frequency `l` receives from all pairs of frequencies `m` of `x` and `j` of `y` whose difference it is, each with its strength `u m j l`. -/
noncomputable def pairDiff {n : ℕ} (c : ℤ) (u : Fin n → Fin n → Fin n → ℂ) (x y : Fin n → ℂ) (l : Fin n) : ℂ :=
  ∑ m : Fin n, ∑ j : Fin n, if ((j : ℕ) : ℤ) + (l : ℕ) = (m : ℕ) + c then u m j l * (x m * (starRingEnd ℂ) (y j)) else 0

end PyNLO.Spec

namespace PyNLO.Dfg

open Beam

variable {N : ℕ} {q : Prob N} {squm : ℝ}

/-- The first-order change of the fields `y` up to `z`. -/
noncomputable def Prob.born (q : Prob N) (squm : ℝ) (y : Fin (3 * N) → ℂ) (z : ℝ) : Fin (3 * N) → ℂ :=
  join
    (Spec.pairSum (N / 2 : ℕ) (fun m j l => Complex.I * ((q.deff * q.kappa squm m j l * q.p.W m : ℝ) : ℂ) * q.grating (q.mismatch m j l) z) (As y) (Ai y))
    (Spec.pairDiff (N / 2 : ℕ) (fun m l j => Complex.I * ((q.deff * q.kappa squm m j l * q.s.W j : ℝ) : ℂ) * q.grating (-q.mismatch m j l) z) (Ap y) (Ai y))
    (Spec.pairDiff (N / 2 : ℕ) (fun m j l => Complex.I * ((q.deff * q.kappa squm m j l * q.i.W l : ℝ) : ℂ) * q.grating (-q.mismatch m j l) z) (Ap y) (As y))

/-! ## The derivative as a sum over pairs -/

/-- The rate of change as a sum over pairs of frequencies. -/
noncomputable def Prob.pairRate (q : Prob N) (squm d : ℝ) (z : ℝ) (y : Fin (3 * N) → ℂ) : Fin (3 * N) → ℂ :=
  join
    (Spec.pairSum (N / 2 : ℕ) (fun m j l => Complex.I * ((d * q.kappa squm m j l * q.p.W m : ℝ) : ℂ) *
      Complex.exp (Complex.I * ((q.mismatch m j l * z : ℝ) : ℂ))) (As y) (Ai y))
    (Spec.pairDiff (N / 2 : ℕ) (fun m l j => Complex.I * ((d * q.kappa squm m j l * q.s.W j : ℝ) : ℂ) *
      Complex.exp (Complex.I * ((-q.mismatch m j l * z : ℝ) : ℂ))) (Ap y) (Ai y))
    (Spec.pairDiff (N / 2 : ℕ) (fun m j l => Complex.I * ((d * q.kappa squm m j l * q.i.W l : ℝ) : ℂ) *
      Complex.exp (Complex.I * ((-q.mismatch m j l * z : ℝ) : ℂ))) (Ap y) (As y))

theorem pair_term {d g a b W κ : ℝ} (hg : g * a * b = W * κ) {E1 E2 E3 E : ℂ} (hE : E1 * (E2 * E3) = E) (x y : ℂ) :
    Complex.I * ((d * g : ℝ) : ℂ) * E1 * ((a : ℂ) * x * E2 * ((b : ℂ) * y * E3)) = Complex.I * ((d * κ * W : ℝ) : ℂ) * E * (x * y) := by
  have hg' : (g : ℂ) * a * b = W * κ := by exact_mod_cast hg
  rw [← hE]
  push_cast
  linear_combination Complex.I * d * E1 * x * E2 * y * E3 * hg'

theorem Works.pairRate (W : Works q squm) (d z : ℝ) (y : Fin (3 * N) → ℂ) :
    threeWave (q.wp squm) (q.ws squm) (q.wi squm) d z y = q.pairRate squm d z y := by
  have hA : 0 < (WG.init squm).aeff := by have := W.area; simp only [WG.init]; positivity
  have eA : (WG.init squm).aeff = squm * 1e-12 := rfl
  have hΔ : ∀ m j l : Fin N, ((j : ℕ) : ℤ) + (l : ℕ) = (m : ℕ) + (N / 2 : ℕ) → (q.ws squm).β j + (q.wi squm).β l - (q.wp squm).β m = q.mismatch m j l := by
    intro m j l h
    have hW := W.matched m j l h
    simp only [Prob.ws, Prob.wi, Prob.wp, Wave.spec, Prob.mismatch, hW]
    ring
  have gp : ∀ m j l, (q.wp squm).g m * (q.ws squm).a j * (q.wi squm).a l = q.p.W m * q.kappa squm m j l := by
    intro m j l
    have := coupling_alg (W := q.p.W m) cMks_pos eps0_pos hA (W.index m).1 (W.index j).2.1 (W.index l).2.2
    rw [Prob.kappa, ← eA, ← this]; rfl
  have gs : ∀ m j l, (q.ws squm).g j * (q.wp squm).a m * (q.wi squm).a l = q.s.W j * q.kappa squm m j l := by
    intro m j l
    have := coupling_alg (W := q.s.W j) cMks_pos eps0_pos hA (W.index j).2.1 (W.index m).1 (W.index l).2.2
    rw [Prob.kappa, ← eA, ← (coupling_swap _ _ _ _ _ _).1, ← this]; rfl
  have gi : ∀ m j l, (q.wi squm).g l * (q.wp squm).a m * (q.ws squm).a j = q.i.W l * q.kappa squm m j l := by
    intro m j l
    have := coupling_alg (W := q.i.W l) cMks_pos eps0_pos hA (W.index l).2.2 (W.index m).1 (W.index j).2.1
    rw [Prob.kappa, ← eA, ← (coupling_swap _ _ _ _ _ _).2, ← this]; rfl
  unfold threeWave Prob.pairRate
  congr 1
  · funext m
    simp only [Spec.Wave.driven, Spec.sumMix, Spec.pairSum, Finset.mul_sum, mul_ite, mul_zero]
    refine Finset.sum_congr rfl fun j _ => Finset.sum_congr rfl fun l _ => ?_
    by_cases h : ((j : ℕ) : ℤ) + (l : ℕ) = (m : ℕ) + (N / 2 : ℕ)
    · rw [if_pos h, if_pos h]
      refine pair_term (gp m j l) ?_ _ _
      rw [exp_phases, hΔ m j l h]
    · rw [if_neg h, if_neg h]
  · funext j
    simp only [Spec.Wave.driven, Spec.diffMix, Spec.pairDiff, Finset.mul_sum, mul_ite, mul_zero]
    refine Finset.sum_congr rfl fun m _ => Finset.sum_congr rfl fun l _ => ?_
    by_cases h : ((j : ℕ) : ℤ) + (l : ℕ) = (m : ℕ) + (N / 2 : ℕ)
    · rw [if_pos (by omega), if_pos (by omega)]
      simp only [Spec.Wave.field]
      rw [map_mul, map_mul, Complex.conj_ofReal, conj_exp_phase]
      refine pair_term (gs m j l) ?_ _ _
      rw [exp_phases, ← hΔ m j l h]
      congr 4; ring
    · rw [if_neg (by omega), if_neg (by omega)]
  · funext l
    simp only [Spec.Wave.driven, Spec.diffMix, Spec.pairDiff, Finset.mul_sum, mul_ite, mul_zero]
    refine Finset.sum_congr rfl fun m _ => Finset.sum_congr rfl fun j _ => ?_
    by_cases h : ((j : ℕ) : ℤ) + (l : ℕ) = (m : ℕ) + (N / 2 : ℕ)
    · rw [if_pos (by omega), if_pos h]
      simp only [Spec.Wave.field]
      rw [map_mul, map_mul, Complex.conj_ofReal, conj_exp_phase]
      refine pair_term (gi m j l) ?_ _ _
      rw [exp_phases, ← hΔ m j l h]
      congr 4; ring
    · rw [if_neg (by omega), if_neg h]

/-! ## Bounds by the power -/

/-- The square root of the power of a field. -/
noncomputable def root {n : ℕ} (A : Fin n → ℂ) : ℝ := √(∑ k, ‖A k‖ ^ 2)

theorem pairs_le (P : Fin N → Fin N → Prop) [∀ i j, Decidable (P i j)] (h1 : ∀ i j k, P i j → P i k → j = k) (h2 : ∀ i j k, P i k → P j k → i = j)
    (A B : Fin N → ℂ) : ∑ i, ∑ j, (if P i j then ‖A i‖ * ‖B j‖ else 0) ≤ root A * root B := by
  have e : ∑ i, ∑ j, (if P i j then ‖A i‖ * ‖B j‖ else 0) =
      ∑ x : Fin N × Fin N, (if P x.1 x.2 then ‖A x.1‖ else 0) * (if P x.1 x.2 then ‖B x.2‖ else 0) := by
    rw [Fintype.sum_prod_type]
    refine Finset.sum_congr rfl fun i _ => Finset.sum_congr rfl fun j _ => ?_
    split_ifs <;> simp
  rw [e]
  refine (Real.sum_mul_le_sqrt_mul_sqrt _ _ _).trans ?_
  refine mul_le_mul (Real.sqrt_le_sqrt ?_) (Real.sqrt_le_sqrt ?_) (Real.sqrt_nonneg _) (Real.sqrt_nonneg _)
  · rw [Fintype.sum_prod_type]
    refine Finset.sum_le_sum fun i _ => ?_
    by_cases h : ∃ j, P i j
    · obtain ⟨j, hj⟩ := h
      rw [Finset.sum_eq_single j (fun k _ hk => by rw [if_neg fun h => hk (h1 i k j h hj)]; simp) (fun h => absurd (Finset.mem_univ j) h)]
      simp [hj]
    · push Not at h
      simp [h]
  · rw [Fintype.sum_prod_type_right]
    refine Finset.sum_le_sum fun k _ => ?_
    by_cases h : ∃ j, P j k
    · obtain ⟨j, hj⟩ := h
      rw [Finset.sum_eq_single j (fun i _ hi => by rw [if_neg fun h => hi (h2 i j k h hj)]; simp) (fun h => absurd (Finset.mem_univ j) h)]
      simp [hj]
    · push Not at h
      simp [h]

theorem mix_root_le (P : Fin N → Fin N → Prop) [∀ i j, Decidable (P i j)] (h1 : ∀ i j k, P i j → P i k → j = k) (h2 : ∀ i j k, P i k → P j k → i = j)
    {t : Fin N → Fin N → ℂ} {A B : Fin N → ℂ} {g κ : ℝ} (hg : 0 ≤ g) (hκ : 0 ≤ κ) (h : ∀ i j, g * ‖t i j‖ ≤ κ * (‖A i‖ * ‖B j‖)) :
    g * ‖∑ i, ∑ j, if P i j then t i j else 0‖ ≤ κ * (root A * root B) := by
  have h3 : ‖∑ i, ∑ j, if P i j then t i j else 0‖ ≤ ∑ i, ∑ j, if P i j then ‖t i j‖ else 0 := by
    refine (norm_sum_le _ _).trans (Finset.sum_le_sum fun i _ => (norm_sum_le _ _).trans (Finset.sum_le_sum fun j _ => ?_))
    split_ifs <;> simp
  refine (mul_le_mul_of_nonneg_left h3 hg).trans (le_trans ?_ (mul_le_mul_of_nonneg_left (pairs_le P h1 h2 A B) hκ))
  simp only [Finset.mul_sum]
  refine Finset.sum_le_sum fun i _ => Finset.sum_le_sum fun j _ => ?_
  split_ifs
  · exact h i j
  · simp

theorem sum_root_le {wp ws wi : Spec.Wave N} {D κ d : ℝ} (S : Strength wp ws wi D κ) (hd : |d| ≤ D) (z : ℝ) (A B : Fin N → ℂ) (j : Fin N) :
    ‖wp.driven d z (Spec.sumMix (N / 2 : ℕ) (ws.field z A) (wi.field z B)) j‖ ≤ κ * (root A * root B) := by
  have hD : 0 ≤ D := (abs_nonneg d).trans hd
  rw [norm_driven]
  refine le_trans (mul_le_mul_of_nonneg_right (mul_le_mul_of_nonneg_right hd (abs_nonneg _)) (norm_nonneg _)) ?_
  unfold Spec.sumMix
  refine mix_root_le (fun i k : Fin N => ((i : ℕ) : ℤ) + (k : ℕ) = (j : ℕ) + (N / 2 : ℕ)) (fun i j k _ _ => Fin.ext (by omega)) (fun i j k _ _ => Fin.ext (by omega))
    (by positivity) S.nonneg fun m l => ?_
  rw [norm_mul, norm_field, norm_field]
  exact pair_le (S.pump j m l) (by positivity) (abs_nonneg _) (abs_nonneg _) (norm_nonneg _) (norm_nonneg _) le_rfl le_rfl

theorem diff_root_le {w1 w2 w3 : Spec.Wave N} {D κ d : ℝ} (hκ : 0 ≤ κ) (S : ∀ j m l, D * |w1.g j| * (|w2.a m| * |w3.a l|) ≤ κ) (hd : |d| ≤ D) (z : ℝ)
    (A B : Fin N → ℂ) (j : Fin N) :
    ‖w1.driven d z (Spec.diffMix (N / 2 : ℕ) (w2.field z A) (w3.field z B)) j‖ ≤ κ * (root A * root B) := by
  have hD : 0 ≤ D := (abs_nonneg d).trans hd
  rw [norm_driven]
  refine le_trans (mul_le_mul_of_nonneg_right (mul_le_mul_of_nonneg_right hd (abs_nonneg _)) (norm_nonneg _)) ?_
  unfold Spec.diffMix
  refine mix_root_le (fun i k : Fin N => ((i : ℕ) : ℤ) - (k : ℕ) = (j : ℕ) - (N / 2 : ℕ)) (fun i j k _ _ => Fin.ext (by omega)) (fun i j k _ _ => Fin.ext (by omega))
    (by positivity) hκ fun m l => ?_
  rw [norm_mul, RCLike.norm_conj, norm_field, norm_field]
  exact pair_le (S j m l) (by positivity) (abs_nonneg _) (abs_nonneg _) (norm_nonneg _) (norm_nonneg _) le_rfl le_rfl

theorem root_nonneg {n : ℕ} (A : Fin n → ℂ) : 0 ≤ root A := Real.sqrt_nonneg _

theorem root_sq {n : ℕ} (A : Fin n → ℂ) : root A ^ 2 = ∑ k, ‖A k‖ ^ 2 := Real.sq_sqrt (Finset.sum_nonneg fun _ _ => sq_nonneg _)

theorem root_parts (y : Fin (3 * N) → ℂ) : root (Ap y) ^ 2 + root (As y) ^ 2 + root (Ai y) ^ 2 = root y ^ 2 := by
  rw [root_sq, root_sq, root_sq, root_sq, sum_parts]
  rfl

theorem root_part_le (y : Fin (3 * N) → ℂ) : root (Ap y) ≤ root y ∧ root (As y) ≤ root y ∧ root (Ai y) ≤ root y := by
  have := root_parts y
  refine ⟨?_, ?_, ?_⟩ <;> refine abs_le_of_sq_le_sq' ?_ (root_nonneg y) |>.2 <;>
    nlinarith [sq_nonneg (root (Ap y)), sq_nonneg (root (As y)), sq_nonneg (root (Ai y))]

theorem root_le_norm {n : ℕ} (A : Fin n → ℂ) : root A ≤ √n * ‖A‖ := by
  have h : ∑ k, ‖A k‖ ^ 2 ≤ n * ‖A‖ ^ 2 := by
    refine (Finset.sum_le_sum fun k _ => pow_le_pow_left₀ (norm_nonneg _) (norm_le_pi_norm A k) 2).trans ?_
    simp
  refine (Real.sqrt_le_sqrt h).trans (le_of_eq ?_)
  rw [Real.sqrt_mul (by positivity), Real.sqrt_sq (norm_nonneg _)]

theorem threeWave_root {wp ws wi : Spec.Wave N} {D κ d : ℝ} (S : Strength wp ws wi D κ) (hd : |d| ≤ D) (z : ℝ) (y : Fin (3 * N) → ℂ) :
    ‖threeWave wp ws wi d z y‖ ≤ κ * (root y ^ 2 / 2) := by
  have hκ := S.nonneg
  have h := root_parts y
  have two : ∀ a b c : ℝ, a ^ 2 + b ^ 2 + c ^ 2 = root y ^ 2 → κ * (a * b) ≤ κ * (root y ^ 2 / 2) := fun a b c h =>
    mul_le_mul_of_nonneg_left (by nlinarith [sq_nonneg (a - b), sq_nonneg c]) hκ
  refine norm_join_le (by positivity) (fun j => ?_) (fun j => ?_) fun j => ?_
  · exact (sum_root_le S hd z _ _ j).trans (two _ _ (root (Ap y)) (by linarith))
  · exact (diff_root_le hκ S.sgnl hd z _ _ j).trans (two _ _ (root (As y)) (by linarith))
  · exact (diff_root_le hκ S.idlr hd z _ _ j).trans (two _ _ (root (Ai y)) (by linarith))

theorem threeWave_root_sub {wp ws wi : Spec.Wave N} {D κ d : ℝ} (S : Strength wp ws wi D κ) (hd : |d| ≤ D) (z : ℝ) (y y' : Fin (3 * N) → ℂ) {R : ℝ}
    (hy : root y ≤ R) (hy' : root y' ≤ R) :
    ‖threeWave wp ws wi d z y - threeWave wp ws wi d z y'‖ ≤ 2 * κ * R * root (y - y') := by
  have hκ := S.nonneg
  have hR : 0 ≤ R := (root_nonneg y).trans hy
  have h0 := root_nonneg (y - y')
  have e : 2 * κ * R * root (y - y') = κ * (root (y - y') * R) + κ * (R * root (y - y')) := by ring
  rw [e]
  unfold threeWave
  rw [join_sub, driven_sub, driven_sub, driven_sub]
  have key : ∀ (w : Spec.Wave N) (P Q : Fin N → ℂ) (a b : ℝ) (j : Fin N), ‖w.driven d z P j‖ ≤ a → ‖w.driven d z Q j‖ ≤ b →
      ‖w.driven d z (P + Q) j‖ ≤ a + b := by
    intro w P Q a b j h1 h2
    have : w.driven d z (P + Q) j = w.driven d z P j + w.driven d z Q j := by simp only [Spec.Wave.driven, Pi.add_apply]; ring
    rw [this]
    exact (norm_add_le _ _).trans (add_le_add h1 h2)
  have hs : ∀ x x' y y' : Fin N → ℂ, Spec.sumMix (N / 2 : ℕ) x y - Spec.sumMix (N / 2 : ℕ) x' y' =
      Spec.sumMix (N / 2 : ℕ) (x - x') y + Spec.sumMix (N / 2 : ℕ) x' (y - y') := fun x x' y y' => funext fun m => sumMix_sub _ x y x' y' m
  have hf : ∀ x x' y y' : Fin N → ℂ, Spec.diffMix (N / 2 : ℕ) x y - Spec.diffMix (N / 2 : ℕ) x' y' =
      Spec.diffMix (N / 2 : ℕ) (x - x') y + Spec.diffMix (N / 2 : ℕ) x' (y - y') := fun x x' y y' => funext fun m => diffMix_sub _ x y x' y' m
  simp only [hs, hf, field_sub]
  obtain ⟨p1, p2, p3⟩ := root_part_le (y - y')
  obtain ⟨a1, a2, a3⟩ := root_part_le y
  obtain ⟨b1, b2, b3⟩ := root_part_le y'
  have two : ∀ {a b a' b' : ℝ}, 0 ≤ a → 0 ≤ b → a ≤ a' → b ≤ b' → κ * (a * b) ≤ κ * (a' * b') := fun ha hb h1 h2 =>
    mul_le_mul_of_nonneg_left (mul_le_mul h1 h2 hb (ha.trans h1)) hκ
  refine norm_join_le (by positivity) (fun j => ?_) (fun j => ?_) fun j => ?_
  · exact key _ _ _ _ _ j ((sum_root_le S hd z (As (y - y')) (Ai y) j).trans (two (root_nonneg _) (root_nonneg _) p2 (a3.trans hy)))
      ((sum_root_le S hd z (As y') (Ai (y - y')) j).trans (two (root_nonneg _) (root_nonneg _) (b2.trans hy') p3))
  · exact key _ _ _ _ _ j ((diff_root_le hκ S.sgnl hd z (Ap (y - y')) (Ai y) j).trans (two (root_nonneg _) (root_nonneg _) p1 (a3.trans hy)))
      ((diff_root_le hκ S.sgnl hd z (Ap y') (Ai (y - y')) j).trans (two (root_nonneg _) (root_nonneg _) (b1.trans hy') p3))
  · exact key _ _ _ _ _ j ((diff_root_le hκ S.idlr hd z (Ap (y - y')) (As y) j).trans (two (root_nonneg _) (root_nonneg _) p1 (a2.trans hy)))
      ((diff_root_le hκ S.idlr hd z (Ap y') (As (y - y')) j).trans (two (root_nonneg _) (root_nonneg _) (b1.trans hy') p2))

/-! ## The response -/

theorem threeWave_scale (wp ws wi : Spec.Wave N) (σ d z : ℝ) (y : Fin (3 * N) → ℂ) (k : Fin (3 * N)) :
    threeWave wp ws wi (σ * d) z y k = ((σ : ℝ) : ℂ) * threeWave wp ws wi d z y k := by
  simp only [threeWave, join]
  split_ifs <;> simp only [Spec.Wave.driven] <;> push_cast <;> ring

theorem grating_sum_integral (q : Prob N) (C : Fin N → Fin N → ℂ) (Δ : Fin N → Fin N → ℝ) (z : ℝ) :
    ∑ j, ∑ l, C j l * q.grating (Δ j l) z =
      ∫ t in (0)..z, ((q.sign t : ℝ) : ℂ) * ∑ j, ∑ l, C j l * Complex.exp (Complex.I * ((Δ j l * t : ℝ) : ℂ)) := by
  have e : ∀ t, ((q.sign t : ℝ) : ℂ) * ∑ j, ∑ l, C j l * Complex.exp (Complex.I * ((Δ j l * t : ℝ) : ℂ)) =
      ∑ j, ∑ l, C j l * (((q.sign t : ℝ) : ℂ) * Complex.exp (Complex.I * ((Δ j l * t : ℝ) : ℂ))) := by
    intro t
    rw [Finset.mul_sum]
    refine Finset.sum_congr rfl fun j _ => ?_
    rw [Finset.mul_sum]
    exact Finset.sum_congr rfl fun l _ => by ring
  have hi : ∀ j l, IntervalIntegrable (fun t => C j l * (((q.sign t : ℝ) : ℂ) * Complex.exp (Complex.I * ((Δ j l * t : ℝ) : ℂ)))) MeasureTheory.volume 0 z :=
    fun j l => (grating_integrable q (Δ j l) 0 z).const_mul (C j l)
  simp only [e]
  rw [intervalIntegral.integral_finsetSum fun j _ => ?_]
  · refine Finset.sum_congr rfl fun j _ => ?_
    rw [intervalIntegral.integral_finsetSum fun l _ => hi _ _]
    refine Finset.sum_congr rfl fun l _ => ?_
    rw [intervalIntegral.integral_const_mul]
    rfl
  · have := IntervalIntegrable.sum Finset.univ fun l _ => hi j l
    refine this.congr fun t _ => ?_
    simp

theorem pairSum_integral (q : Prob N) (c : ℤ) (x y : Fin N → ℂ) (u : Fin N → Fin N → Fin N → ℂ) (Δ : Fin N → Fin N → Fin N → ℝ) (z : ℝ) (m : Fin N) :
    Spec.pairSum c (fun m j l => u m j l * q.grating (Δ m j l) z) x y m =
      ∫ t in (0)..z, ((q.sign t : ℝ) : ℂ) * Spec.pairSum c (fun m j l => u m j l * Complex.exp (Complex.I * ((Δ m j l * t : ℝ) : ℂ))) x y m := by
  have e : ∀ g : Fin N → Fin N → ℂ, Spec.pairSum c (fun m j l => u m j l * g j l) x y m =
      ∑ j : Fin N, ∑ l : Fin N, (if ((j : ℕ) : ℤ) + (l : ℕ) = (m : ℕ) + c then u m j l * (x j * y l) else 0) * g j l := by
    intro g
    refine Finset.sum_congr rfl fun j _ => Finset.sum_congr rfl fun l _ => ?_
    split_ifs <;> ring
  have h := grating_sum_integral q (fun j l => if ((j : ℕ) : ℤ) + (l : ℕ) = (m : ℕ) + c then u m j l * (x j * y l) else 0) (fun j l => Δ m j l) z
  refine ((e fun j l => q.grating (Δ m j l) z).trans h).trans ?_
  refine intervalIntegral.integral_congr fun t _ => ?_
  exact congrArg _ (e fun j l => Complex.exp (Complex.I * ((Δ m j l * t : ℝ) : ℂ))).symm

theorem pairDiff_integral (q : Prob N) (c : ℤ) (x y : Fin N → ℂ) (u : Fin N → Fin N → Fin N → ℂ) (Δ : Fin N → Fin N → Fin N → ℝ) (z : ℝ) (l : Fin N) :
    Spec.pairDiff c (fun m j l => u m j l * q.grating (Δ m j l) z) x y l =
      ∫ t in (0)..z, ((q.sign t : ℝ) : ℂ) * Spec.pairDiff c (fun m j l => u m j l * Complex.exp (Complex.I * ((Δ m j l * t : ℝ) : ℂ))) x y l := by
  have e : ∀ g : Fin N → Fin N → ℂ, Spec.pairDiff c (fun m j l => u m j l * g m j) x y l =
      ∑ m : Fin N, ∑ j : Fin N, (if ((j : ℕ) : ℤ) + (l : ℕ) = (m : ℕ) + c then u m j l * (x m * (starRingEnd ℂ) (y j)) else 0) * g m j := by
    intro g
    refine Finset.sum_congr rfl fun j _ => Finset.sum_congr rfl fun l _ => ?_
    split_ifs <;> ring
  have h := grating_sum_integral q (fun m j => if ((j : ℕ) : ℤ) + (l : ℕ) = (m : ℕ) + c then u m j l * (x m * (starRingEnd ℂ) (y j)) else 0)
    (fun m j => Δ m j l) z
  refine ((e fun m j => q.grating (Δ m j l) z).trans h).trans ?_
  refine intervalIntegral.integral_congr fun t _ => ?_
  exact congrArg _ (e fun m j => Complex.exp (Complex.I * ((Δ m j l * t : ℝ) : ℂ))).symm

/-- The first order is the integral of the rate of change at the input. -/
theorem Works.born_integral (W : Works q squm) (y : Fin (3 * N) → ℂ) (z : ℝ) (k : Fin (3 * N)) :
    q.born squm y z k = ∫ t in (0)..z, ((q.sign t : ℝ) : ℂ) * threeWave (q.wp squm) (q.ws squm) (q.wi squm) q.deff t y k := by
  simp only [W.pairRate, Prob.pairRate, Prob.born, join]
  split_ifs
  · exact pairSum_integral q _ _ _ _ _ z _
  · exact pairDiff_integral q _ _ _ _ (fun m l j => -q.mismatch m j l) z _
  · exact pairDiff_integral q _ _ _ _ (fun m j l => -q.mismatch m j l) z _

/-- The bound of the terms of higher order. -/
noncomputable def bornError (N : ℕ) (κ R z : ℝ) : ℝ := √(3 * N) * (κ * z) ^ 2 * R ^ 3 / 2

/-- C176: to first order every frequency changes by the sum over the pairs of frequencies that mix to it. -/
theorem C176_first_order (W : Works q squm) {κ : ℝ} (S : Strength (q.wp squm) (q.ws squm) (q.wi squm) |q.deff| κ) {Y : ℝ → Fin (3 * N) → ℂ}
    (hY : Solves q Y 0 q.len) {z : ℝ} (hz : z ∈ Icc 0 q.len) :
    ‖Y z - Y 0 - q.born squm (Y 0) z‖ ≤ bornError N κ √(∑ k, ‖Y 0 k‖ ^ 2) z := by
  have hκ := S.nonneg
  set R := √(∑ k, ‖Y 0 k‖ ^ 2) with hR
  have hR0 : 0 ≤ R := Real.sqrt_nonneg _
  have hroot : ∀ t ∈ Icc 0 q.len, root (Y t) = R := fun t ht => by rw [root, W.power hY ht]
  set F : ℝ → (Fin (3 * N) → ℂ) → Fin (3 * N) → ℂ := threeWave (q.wp squm) (q.ws squm) (q.wi squm) q.deff with hF
  have hFc : Continuous fun u : ℝ × (Fin (3 * N) → ℂ) => F u.1 u.2 := (threeWave_smooth _ _ _ _).continuous
  have hsub : ∀ t ∈ Icc 0 q.len, Icc 0 t ⊆ Icc 0 q.len := fun t ht => Icc_subset_Icc_right ht.2
  have hc : ∀ (X : ℝ → Fin (3 * N) → ℂ) (t : ℝ), ContinuousOn X (Icc 0 t) → ∀ k, ContinuousOn (fun x => F x (X x) k) (Icc 0 t) := by
    intro X t hX k
    have := hFc.comp_continuousOn (continuousOn_id.prodMk hX)
    exact (continuous_apply k).comp_continuousOn this
  obtain ⟨hcont, E, hE, hd⟩ := hY
  have hint : ∀ t ∈ Icc 0 q.len, ∀ k, Y t k - Y 0 k = ∫ x in (0)..t, ((q.sign x : ℝ) : ℂ) * F x (Y x) k := by
    intro t ht k
    refine amplitude_integral (q := q) hE ht.1 ((continuous_apply k).comp_continuousOn (hcont.mono (hsub t ht))) (hc Y t (hcont.mono (hsub t ht)) k)
      fun x hx => ?_
    obtain ⟨fc, d, hd', hx'⟩ := hd x ⟨⟨hx.1.1, hx.1.2.trans_le ht.2⟩, hx.2⟩
    rw [W.deriv] at hd'
    rw [← Except.ok.inj hd'] at hx'
    refine ((hasDerivAt_pi.1 hx') k).congr_deriv ?_
    exact threeWave_scale _ _ _ _ _ _ _ _
  have hnear : ∀ t ∈ Icc 0 q.len, ‖Y t - Y 0‖ ≤ κ * (R ^ 2 / 2) * t := by
    intro t ht
    refine (pi_norm_le_iff_of_nonneg (by have := ht.1; positivity)).2 fun k => ?_
    rw [Pi.sub_apply, hint t ht k]
    refine (intervalIntegral.norm_integral_le_of_norm_le_const (C := κ * (R ^ 2 / 2)) fun x hx => ?_).trans (le_of_eq ?_)
    · rw [uIoc_of_le ht.1] at hx
      rw [norm_mul, norm_sign, one_mul]
      have := threeWave_root S le_rfl x (Y x)
      rw [hroot x ⟨hx.1.le, hx.2.trans ht.2⟩] at this
      exact (norm_le_pi_norm _ k).trans this
    · rw [sub_zero, abs_of_nonneg ht.1]
  have hE0 : 0 ≤ bornError N κ R z := by unfold bornError; positivity
  refine (pi_norm_le_iff_of_nonneg hE0).2 fun k => ?_
  rw [Pi.sub_apply, Pi.sub_apply, hint z hz k, W.born_integral, ← intervalIntegral.integral_sub
    (sign_mul_integrable q hz.1 (hc Y z (hcont.mono (hsub z hz)) k)) (sign_mul_integrable q hz.1 (hc (fun _ => Y 0) z continuousOn_const k))]
  have hb : ∀ t ∈ Ioc 0 z, ‖((q.sign t : ℝ) : ℂ) * F t (Y t) k - ((q.sign t : ℝ) : ℂ) * F t (Y 0) k‖ ≤ √(3 * N) * κ ^ 2 * R ^ 3 * t := by
    intro t ht
    have ht' : t ∈ Icc 0 q.len := ⟨ht.1.le, ht.2.trans hz.2⟩
    rw [← mul_sub, norm_mul, norm_sign, one_mul]
    have h1 := threeWave_root_sub S le_rfl t (Y t) (Y 0) (hroot t ht').le (hroot 0 ⟨le_rfl, W.len.le⟩).le
    have h2 : root (Y t - Y 0) ≤ √(3 * N) * (κ * (R ^ 2 / 2) * t) := by
      refine (root_le_norm _).trans ?_
      push_cast
      exact mul_le_mul_of_nonneg_left (hnear t ht') (Real.sqrt_nonneg _)
    refine (norm_le_pi_norm (F t (Y t) - F t (Y 0)) k).trans (h1.trans ?_)
    calc 2 * κ * R * root (Y t - Y 0) ≤ 2 * κ * R * (√(3 * N) * (κ * (R ^ 2 / 2) * t)) := mul_le_mul_of_nonneg_left h2 (by positivity)
      _ = _ := by ring
  refine (intervalIntegral.norm_integral_le_of_norm_le hz.1 (Filter.Eventually.of_forall hb) (Continuous.intervalIntegrable (by fun_prop) _ _)).trans (le_of_eq ?_)
  rw [intervalIntegral.integral_const_mul, integral_id]
  unfold bornError
  ring

/-- C176, the idler: the sum over all pairs of a pump and a signal frequency that differ by it. -/
theorem C176_idler (W : Works q squm) {κ : ℝ} (S : Strength (q.wp squm) (q.ws squm) (q.wi squm) |q.deff| κ) {Y : ℝ → Fin (3 * N) → ℂ}
    (hY : Solves q Y 0 q.len) {z : ℝ} (hz : z ∈ Icc 0 q.len) (l : Fin N) :
    ‖Ai (Y z) l - Ai (Y 0) l - ∑ m : Fin N, ∑ j : Fin N, if ((j : ℕ) : ℤ) + (l : ℕ) = (m : ℕ) + (N / 2 : ℕ) then
      Complex.I * ((q.deff * q.kappa squm m j l * q.i.W l : ℝ) : ℂ) * q.grating (-q.mismatch m j l) z * (Ap (Y 0) m * (starRingEnd ℂ) (As (Y 0) j)) else 0‖ ≤
      bornError N κ √(∑ k, ‖Y 0 k‖ ^ 2) z := by
  have h := (norm_le_pi_norm (Y z - Y 0 - q.born squm (Y 0) z) ⟨2 * N + l, by omega⟩).trans (C176_first_order W S hY hz)
  have e : Ai (q.born squm (Y 0) z) l = _ := congrFun (Ai_join _ _ _) l
  rw [Pi.sub_apply, Pi.sub_apply] at h
  change ‖Ai (Y z) l - Ai (Y 0) l - Ai (q.born squm (Y 0) z) l‖ ≤ _ at h
  rw [e] at h
  exact h

theorem grating_thin (hq : q.mode ≠ "PP") (Δ : ℝ) {z : ℝ} (hz : 0 ≤ z) : ‖q.grating Δ z - z‖ ≤ |Δ| * z ^ 2 / 2 := by
  have hs : ∀ t, q.sign t = 1 := fun t => by rw [Prob.sign, if_neg hq]
  have e : q.grating Δ z - z = ∫ t in (0)..z, (Complex.exp (Complex.I * ((Δ * t : ℝ) : ℂ)) - 1) := by
    rw [intervalIntegral.integral_sub ((continuous_phase Δ).intervalIntegrable _ _) (continuous_const.intervalIntegrable _ _)]
    unfold Prob.grating
    simp [hs]
  rw [e]
  have hb : ∀ t ∈ Ioc 0 z, ‖Complex.exp (Complex.I * ((Δ * t : ℝ) : ℂ)) - 1‖ ≤ |Δ| * t := by
    intro t ht
    refine Real.norm_exp_I_mul_ofReal_sub_one_le.trans (le_of_eq ?_)
    rw [Real.norm_eq_abs, abs_mul, abs_of_pos ht.1]
  refine (intervalIntegral.norm_integral_le_of_norm_le hz (Filter.Eventually.of_forall hb) (Continuous.intervalIntegrable (by fun_prop) _ _)).trans (le_of_eq ?_)
  rw [intervalIntegral.integral_const_mul, integral_id]
  ring

theorem Works.idler_strength (W : Works q squm) {κ : ℝ} (S : Strength (q.wp squm) (q.ws squm) (q.wi squm) |q.deff| κ) (m j l : Fin N) :
    |q.deff * q.kappa squm m j l * q.i.W l| ≤ κ := by
  have hA : 0 < (WG.init squm).aeff := by have := W.area; simp only [WG.init]; positivity
  have eA : (WG.init squm).aeff = squm * 1e-12 := rfl
  have gi : (q.wi squm).g l * (q.wp squm).a m * (q.ws squm).a j = q.i.W l * q.kappa squm m j l := by
    have := coupling_alg (W := q.i.W l) cMks_pos eps0_pos hA (W.index l).2.2 (W.index m).1 (W.index j).2.1
    rw [Prob.kappa, ← eA, ← (coupling_swap _ _ _ _ _ _).2, ← this]; rfl
  have h := S.idlr l m j
  rw [← abs_mul, ← abs_mul, ← abs_mul, ← mul_assoc, mul_assoc q.deff, mul_assoc q.deff, gi] at h
  rwa [mul_assoc, mul_comm (q.kappa squm m j l)]

/-- C176, thin crystal: where all mismatches are small against the inverse length, the idler is the product of the pump and the conjugate
of the signal, and grows with the length. -/
theorem C176_thin (W : Works q squm) (hq : q.mode ≠ "PP") {κ δ : ℝ} (S : Strength (q.wp squm) (q.ws squm) (q.wi squm) |q.deff| κ)
    (hδ : ∀ m j l : Fin N, ((j : ℕ) : ℤ) + (l : ℕ) = (m : ℕ) + (N / 2 : ℕ) → |q.mismatch m j l| ≤ δ) {Y : ℝ → Fin (3 * N) → ℂ}
    (hY : Solves q Y 0 q.len) {z : ℝ} (hz : z ∈ Icc 0 q.len) (l : Fin N) :
    ‖Ai (Y z) l - Ai (Y 0) l - ∑ m : Fin N, ∑ j : Fin N, if ((j : ℕ) : ℤ) + (l : ℕ) = (m : ℕ) + (N / 2 : ℕ) then
      Complex.I * ((q.deff * q.kappa squm m j l * q.i.W l : ℝ) : ℂ) * z * (Ap (Y 0) m * (starRingEnd ℂ) (As (Y 0) j)) else 0‖ ≤
      bornError N κ √(∑ k, ‖Y 0 k‖ ^ 2) z + κ * (|δ| * z ^ 2 / 2) * (root (Ap (Y 0)) * root (As (Y 0))) := by
  have h := C176_idler W S hY hz l
  refine le_trans ?_ (add_le_add h (?_ : ‖∑ m : Fin N, ∑ j : Fin N, if ((j : ℕ) : ℤ) + (l : ℕ) = (m : ℕ) + (N / 2 : ℕ) then
    Complex.I * ((q.deff * q.kappa squm m j l * q.i.W l : ℝ) : ℂ) * (if ((j : ℕ) : ℤ) + (l : ℕ) = (m : ℕ) + (N / 2 : ℕ) then
      q.grating (-q.mismatch m j l) z - z else 0) * (Ap (Y 0) m * (starRingEnd ℂ) (As (Y 0) j)) else 0‖ ≤ _))
  · refine le_trans (le_of_eq ?_) (norm_add_le _ _)
    congr 1
    rw [sub_add, ← Finset.sum_sub_distrib]
    congr 1
    refine Finset.sum_congr rfl fun m _ => ?_
    rw [← Finset.sum_sub_distrib]
    refine Finset.sum_congr rfl fun j _ => ?_
    split_ifs
    · ring
    · simp
  · have hκ := S.nonneg
    have := mix_root_le (fun m j : Fin N => ((j : ℕ) : ℤ) + (l : ℕ) = (m : ℕ) + (N / 2 : ℕ)) (fun i j k _ _ => Fin.ext (by omega)) (fun i j k _ _ => Fin.ext (by omega))
      (t := fun m j => Complex.I * ((q.deff * q.kappa squm m j l * q.i.W l : ℝ) : ℂ) * (if ((j : ℕ) : ℤ) + (l : ℕ) = (m : ℕ) + (N / 2 : ℕ) then
      q.grating (-q.mismatch m j l) z - z else 0) * (Ap (Y 0) m * (starRingEnd ℂ) (As (Y 0) j))) (A := Ap (Y 0)) (B := As (Y 0)) (g := 1)
      (κ := κ * (|δ| * z ^ 2 / 2)) zero_le_one (by positivity) fun m j => ?_
    · rwa [one_mul] at this
    · rw [one_mul, norm_mul, norm_mul, norm_mul, norm_mul, RCLike.norm_conj, Complex.norm_I, one_mul, Complex.norm_real, Real.norm_eq_abs]
      refine mul_le_mul_of_nonneg_right (mul_le_mul (W.idler_strength S m j l) ?_ (norm_nonneg _) hκ) (by positivity)
      split_ifs with hm
      · refine (grating_thin hq _ hz.1).trans ?_
        rw [abs_neg]
        have := (hδ m j l hm).trans (le_abs_self δ)
        gcongr
      · rw [norm_zero]; positivity

/-- C176, computed: the fields that an integration returns. -/
theorem C176_computed (W : Works q squm) {κ R ρ : ℝ} (S : Strength (q.wp squm) (q.ws squm) (q.wi squm) |q.deff| κ) (y0 : Fin (3 * N) → ℂ)
    (hρ : 0 < ρ) (hR : √(∑ k, ‖y0 k‖ ^ 2) + ρ < R) (hsm : q.len * Real.exp (26 * (2 * N * κ * R) * q.len) * (1e-27 * (N * κ * R ^ 2)) < ρ) :
    ∃ C h0, 0 ≤ C ∧ 0 < h0 ∧ ∀ hm ∈ Ioc 0 h0, ∀ (p : Ode.Prob (3 * N)) (con : Ode.Con) (h1 hmin : ℝ) (out : Ode.Out (3 * N)) (o' : Ode.Ode (3 * N)),
      p.f = q.rhs → Ode.Rounds p.fl → out.Usable → (Ode.Ode.new con y0 0 q.len h1 hmin out).integrate p = some (.ok (), o') →
      Ode.StepsLe hm 0 o'.visited →
      ‖o'.ystart - y0 - q.born squm y0 q.len‖ ≤ bornError N κ √(∑ k, ‖y0 k‖ ^ 2) q.len +
        (q.len * Real.exp (26 * (2 * N * κ * R) * q.len) * (1e-27 * (N * κ * R ^ 2)) + C * hm) := by
  obtain ⟨C, h0, hC, hh0, hc⟩ := C121_converges W S y0 hρ hR hsm
  obtain ⟨Y, hY0, hY, -, -⟩ := C121_solution W y0
  refine ⟨C, h0, hC, hh0, fun hm hhm p con h1 hmin out o' hp hfl ho hr hst => ?_⟩
  have h2 := hc hm hhm p con h1 hmin out o' hp hfl ho hr hst Y hY hY0
  have h3 := C176_first_order W S hY ⟨W.len.le, le_refl _⟩
  rw [hY0] at h3
  have e : o'.ystart - y0 - q.born squm y0 q.len = (Y q.len - y0 - q.born squm y0 q.len) + (o'.ystart - Y q.len) := by abel
  rw [e]
  exact (norm_add_le _ _).trans (add_le_add h3 h2)

/-! The hypotheses hold for a pump and a signal of two frequencies each, and the idler exceeds the bound of the higher orders. -/

theorem C176_nonvacuous : let y0 : Fin (3 * 2) → ℂ := join ![1 / 10, 1 / 10] ![1 / 10, 1 / 10] 0
    Works exUnpoled 10 ∧ exUnpoled.mode ≠ "PP" ∧ Strength (exUnpoled.wp 10) (exUnpoled.ws 10) (exUnpoled.wi 10) |exUnpoled.deff| 0.2 ∧
    (∀ m j l : Fin 2, |exUnpoled.mismatch m j l| ≤ 0) ∧
    bornError 2 0.2 √(∑ k, ‖y0 k‖ ^ 2) exUnpoled.len < ‖∑ m : Fin 2, ∑ j : Fin 2, if ((j : ℕ) : ℤ) + ((1 : Fin 2) : ℕ) = (m : ℕ) + (2 / 2 : ℕ) then
      Complex.I * ((exUnpoled.deff * exUnpoled.kappa 10 m j 1 * exUnpoled.i.W 1 : ℝ) : ℂ) * (exUnpoled.len : ℂ) * (Ap y0 m * (starRingEnd ℂ) (As y0 j)) else 0‖ := by
  intro y0
  have hk : ∀ m j, exUnpoled.kappa 10 m j 1 = 2 / (cMks * √(eps0 * cMks * (10 * 1e-12) * (2 * 2 * 2))) := fun m j => rfl
  have hr : √(eps0 * cMks * (10 * 1e-12) * (2 * 2 * 2)) ≤ 6e-7 := Real.sqrt_le_iff.2 ⟨by norm_num, by norm_num [eps0, cMks]⟩
  have hr0 : 0 < √(eps0 * cMks * (10 * 1e-12) * (2 * 2 * 2)) := Real.sqrt_pos.2 (by norm_num [eps0, cMks])
  have hP : ∑ k, ‖y0 k‖ ^ 2 = 0.2 ^ 2 := by
    rw [sum_parts]
    change ∑ k, ‖Ap y0 k‖ ^ 2 + ∑ k, ‖As y0 k‖ ^ 2 + ∑ k, ‖Ai y0 k‖ ^ 2 = _
    rw [show Ap y0 = _ from Ap_join _ _ _, show As y0 = _ from As_join _ _ _, show Ai y0 = _ from Ai_join _ _ _]
    norm_num [Fin.sum_univ_two]
  refine ⟨exUnpoled_works, by show ("simple" : String) ≠ "PP"; decide, exGuided_strength, fun m j l => ?_, ?_⟩
  · fin_cases m <;> fin_cases j <;> fin_cases l <;> simp [Prob.mismatch, exUnpoled, exGuided]
  · rw [hP, Real.sqrt_sq (by norm_num)]
    simp only [hk]
    generalize √(eps0 * cMks * (10 * 1e-12) * (2 * 2 * 2)) = r at hr hr0
    have hc := cMks_pos
    have hκ : 0.0111 ≤ 2 / (cMks * r) := by
      rw [le_div_iff₀ (by positivity)]
      have := mul_le_mul_of_nonneg_left hr hc.le
      norm_num [cMks] at this ⊢
      linarith
    generalize 2 / (cMks * r) = κ at hκ
    rw [show Ap y0 = _ from Ap_join _ _ _, show As y0 = _ from As_join _ _ _, show exUnpoled.deff = 1 from rfl, show exUnpoled.len = 1 from rfl,
      show exUnpoled.i.W 1 = 2 from rfl]
    have e : (∑ m : Fin 2, ∑ j : Fin 2, if ((j : ℕ) : ℤ) + ((1 : Fin 2) : ℕ) = (m : ℕ) + (2 / 2 : ℕ) then
        Complex.I * ((1 * κ * 2 : ℝ) : ℂ) * ((1 : ℝ) : ℂ) * ((![1 / 10, 1 / 10] : Fin 2 → ℂ) m * (starRingEnd ℂ) ((![1 / 10, 1 / 10] : Fin 2 → ℂ) j)) else 0) =
        Complex.I * ((κ * 0.04 : ℝ) : ℂ) := by
      have h10 : (starRingEnd ℂ) (10 : ℂ) = 10 := Complex.conj_ofNat 10
      simp [Fin.sum_univ_two, h10]
      ring
    rw [e, norm_mul, Complex.norm_I, one_mul, Complex.norm_real, Real.norm_eq_abs, abs_of_nonneg (by linarith)]
    have h6 : √(3 * ((2 : ℕ) : ℝ)) ≤ 2.5 := Real.sqrt_le_iff.2 ⟨by norm_num, by norm_num⟩
    unfold bornError
    generalize √(3 * ((2 : ℕ) : ℝ)) = x at h6
    linarith

end PyNLO.Dfg
