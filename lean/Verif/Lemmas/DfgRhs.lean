import Verif.Props.DfgSymm
import Verif.Lemmas.OdeGlobal

/-!
# The right-hand side of three-wave mixing in a waveguide as an analytic quadratic map
-/

open scoped BigOperators ContDiff
open Set

namespace PyNLO.Dfg

open Finset Beam

variable {N : ℕ}

/-! ## Bounds of mixing products -/

theorem norm_ite_sum_le (P : Fin N → Prop) [DecidablePred P] (hP : ∀ i j, P i → P j → i = j) {x : Fin N → ℂ} {c X : ℝ} (hX : 0 ≤ X)
    (hx : ∀ i, c * ‖x i‖ ≤ X) : c * ‖∑ j, if P j then x j else 0‖ ≤ X := by
  by_cases h : ∃ j, P j
  · obtain ⟨j, hj⟩ := h
    rw [sum_eq_single j (fun i _ hi => if_neg fun h => hi (hP i j h hj)) (fun h => absurd (Finset.mem_univ j) h), if_pos hj]
    exact hx j
  · push Not at h
    simp only [h, if_false, sum_const_zero, norm_zero, mul_zero]
    exact hX

theorem norm_sumMix_le (c : ℤ) {x y : Fin N → ℂ} {g X : ℝ} (hg : 0 ≤ g) (hX : 0 ≤ X) (h : ∀ i j, g * (‖x i‖ * ‖y j‖) ≤ X) (m : Fin N) :
    g * ‖Spec.sumMix c x y m‖ ≤ N * X := by
  unfold Spec.sumMix
  refine (mul_le_mul_of_nonneg_left (norm_sum_le _ _) hg).trans ?_
  rw [mul_sum]
  calc _ ≤ ∑ i : Fin N, X := sum_le_sum fun i _ => by
        refine norm_ite_sum_le _ (fun j k hj hk => Fin.ext (by omega)) hX fun j => ?_
        rw [norm_mul]
        exact h i j
    _ = _ := by simp

theorem norm_diffMix_le (c : ℤ) {x y : Fin N → ℂ} {g X : ℝ} (hg : 0 ≤ g) (hX : 0 ≤ X) (h : ∀ i j, g * (‖x i‖ * ‖y j‖) ≤ X) (m : Fin N) :
    g * ‖Spec.diffMix c x y m‖ ≤ N * X := by
  unfold Spec.diffMix
  refine (mul_le_mul_of_nonneg_left (norm_sum_le _ _) hg).trans ?_
  rw [mul_sum]
  calc _ ≤ ∑ i : Fin N, X := sum_le_sum fun i _ => by
        refine norm_ite_sum_le _ (fun j k hj hk => Fin.ext (by omega)) hX fun j => ?_
        rw [norm_mul, RCLike.norm_conj]
        exact h i j
    _ = _ := by simp

theorem sumMix_sub (c : ℤ) (x y x' y' : Fin N → ℂ) (m : Fin N) :
    Spec.sumMix c x y m - Spec.sumMix c x' y' m = Spec.sumMix c (x - x') y m + Spec.sumMix c x' (y - y') m := by
  simp only [Spec.sumMix, ← sum_sub_distrib, ← sum_add_distrib]
  refine sum_congr rfl fun i _ => sum_congr rfl fun j _ => ?_
  split_ifs
  · simp only [Pi.sub_apply]; ring
  · simp

theorem diffMix_sub (c : ℤ) (x y x' y' : Fin N → ℂ) (m : Fin N) :
    Spec.diffMix c x y m - Spec.diffMix c x' y' m = Spec.diffMix c (x - x') y m + Spec.diffMix c x' (y - y') m := by
  simp only [Spec.diffMix, ← sum_sub_distrib, ← sum_add_distrib]
  refine sum_congr rfl fun i _ => sum_congr rfl fun j _ => ?_
  split_ifs
  · simp only [Pi.sub_apply, map_sub]; ring
  · simp

/-! ## The coupled equations -/

/-- The coupled equations of three waves on aligned grids of `N` frequencies with nonlinear coefficient `d`. -/
noncomputable def threeWave (wp ws wi : Spec.Wave N) (d z : ℝ) (y : Fin (3 * N) → ℂ) : Fin (3 * N) → ℂ :=
  join (wp.driven d z (Spec.sumMix (N / 2 : ℕ) (ws.field z (As y)) (wi.field z (Ai y))))
    (ws.driven d z (Spec.diffMix (N / 2 : ℕ) (wp.field z (Ap y)) (wi.field z (Ai y))))
    (wi.driven d z (Spec.diffMix (N / 2 : ℕ) (wp.field z (Ap y)) (ws.field z (As y))))

/-- The constants of a wave with conversion factors `a`. -/
noncomputable def Wave.spec (w : Wave N) (speed : ℝ) (a : Fin N → ℝ) : Spec.Wave N :=
  ⟨fun j => 2 * w.W j / (cMks * w.n j * a j), a, fun j => w.k j + w.k0 - w.W j / speed⟩

theorem phasor_spec (w : Wave N) (speed : ℝ) (a : Fin N → ℝ) (z : ℝ) (j : Fin N) :
    w.phasor z (z / speed) j = Complex.exp (Complex.I * (((w.spec speed a).β j * z : ℝ) : ℂ)) := by
  unfold Wave.phasor Wave.spec
  congr 3
  ring

theorem slice_spec (w : Wave N) (speed d z : ℝ) (a : Fin N → ℝ) (P : Fin N → ℂ) :
    slice w d a (fun j => (w.phasor z (z / speed) j)⁻¹ * P j) = (w.spec speed a).driven d z P := by
  funext j
  simp only [slice, Spec.Wave.driven, phasor_spec w speed a, ← Complex.exp_neg]
  simp only [Wave.spec]
  push_cast
  rw [div_div]
  ring

/-- In waveguide mode on an even grid the derivative is the right-hand side of the coupled equations. -/
theorem deriv_threeWave (he : N % 2 = 0) {q : Prob N} {squm : ℝ} (hb : q.beams = .waveguide squm) (hs : q.disableSPM = true) {z d : ℝ}
    (hd : q.deffAt z = .ok d) (fc : FftC N) (y : Fin (3 * N) → ℂ) :
    (q.deriv fc z y).1 = .ok (threeWave (q.p.spec q.speed ((WG.init squm).rtPToA q.p.n)) (q.s.spec q.speed ((WG.init squm).rtPToA q.s.n))
      (q.i.spec q.speed ((WG.init squm).rtPToA q.i.n)) d z y) := by
  have hg : q.gouyFactors (z - q.len / 2) = (fun _ => 1, fun _ => 1, fun _ => 1) := by
    unfold Prob.gouyFactors
    rw [hb]
    simp only [Beams.waveguide]
    split_ifs <;> rfl
  have e : q.scales (z - q.len / 2) = ((WG.init squm).rtPToA q.p.n, (WG.init squm).rtPToA q.s.n, (WG.init squm).rtPToA q.i.n) := by
    simp only [Prob.scales, hb, Beams.waveguide]
  unfold Prob.deriv
  rw [hd]
  simp only [hg, e, hs, mul_one, Bool.true_eq_false, if_false, (C69_aligned he _ _ _).1, (C69_aligned he _ _ _).2]
  unfold threeWave
  rw [slice_spec, slice_spec, slice_spec]
  simp only [phasor_spec q.p q.speed ((WG.init squm).rtPToA q.p.n), phasor_spec q.s q.speed ((WG.init squm).rtPToA q.s.n),
    phasor_spec q.i q.speed ((WG.init squm).rtPToA q.i.n)]
  rfl

/-! ## Bounds -/

theorem norm_field (w : Spec.Wave N) (z : ℝ) (A : Fin N → ℂ) (j : Fin N) : ‖w.field z A j‖ = |w.a j| * ‖A j‖ := by
  rw [Spec.Wave.field, norm_mul, norm_mul, Complex.norm_real, Real.norm_eq_abs, mul_comm Complex.I, Complex.norm_exp_ofReal_mul_I, mul_one]

theorem norm_driven (w : Spec.Wave N) (d z : ℝ) (P : Fin N → ℂ) (j : Fin N) : ‖w.driven d z P j‖ = |d| * |w.g j| * ‖P j‖ := by
  have : -(Complex.I * ((w.β j * z : ℝ) : ℂ)) = ((-(w.β j * z) : ℝ) : ℂ) * Complex.I := by push_cast; ring
  rw [Spec.Wave.driven, norm_mul, norm_mul, norm_mul, Complex.norm_I, Complex.norm_real, Real.norm_eq_abs, this, Complex.norm_exp_ofReal_mul_I,
    one_mul, mul_one, abs_mul]

theorem field_sub (w : Spec.Wave N) (z : ℝ) (A A' : Fin N → ℂ) : w.field z A - w.field z A' = w.field z (A - A') := by
  funext j
  simp only [Spec.Wave.field, Pi.sub_apply]
  ring

theorem driven_sub (w : Spec.Wave N) (d z : ℝ) (P P' : Fin N → ℂ) : w.driven d z P - w.driven d z P' = w.driven d z (P - P') := by
  funext j
  simp only [Spec.Wave.driven, Pi.sub_apply]
  ring

theorem join_sub (p s i p' s' i' : Fin N → ℂ) : join p s i - join p' s' i' = join (p - p') (s - s') (i - i') := by
  funext k
  simp only [join, Pi.sub_apply]
  split_ifs <;> rfl

theorem norm_join_le {p s i : Fin N → ℂ} {c : ℝ} (hc : 0 ≤ c) (hp : ∀ j, ‖p j‖ ≤ c) (hs : ∀ j, ‖s j‖ ≤ c) (hi : ∀ j, ‖i j‖ ≤ c) :
    ‖join p s i‖ ≤ c := by
  refine (pi_norm_le_iff_of_nonneg hc).2 fun k => ?_
  unfold join
  split_ifs
  · exact hp _
  · exact hs _
  · exact hi _

/-- `κ` bounds the strength of the coupling between any three frequencies, for nonlinear coefficients up to `D`. -/
structure Strength (wp ws wi : Spec.Wave N) (D κ : ℝ) : Prop where
  nonneg : 0 ≤ κ
  pump : ∀ j m l, D * |wp.g j| * (|ws.a m| * |wi.a l|) ≤ κ
  sgnl : ∀ j m l, D * |ws.g j| * (|wp.a m| * |wi.a l|) ≤ κ
  idlr : ∀ j m l, D * |wi.g j| * (|wp.a m| * |ws.a l|) ≤ κ

theorem pair_le {g a b κ u v U V : ℝ} (h : g * (a * b) ≤ κ) (hg : 0 ≤ g) (ha : 0 ≤ a) (hb : 0 ≤ b) (hu : 0 ≤ u) (hv : 0 ≤ v)
    (hU : u ≤ U) (hV : v ≤ V) : g * (a * u * (b * v)) ≤ κ * (U * V) := by
  have h1 : u * v ≤ U * V := mul_le_mul hU hV hv (hu.trans hU)
  have h2 : 0 ≤ g * (a * b) := by positivity
  calc g * (a * u * (b * v)) = g * (a * b) * (u * v) := by ring
    _ ≤ κ * (U * V) := mul_le_mul h h1 (mul_nonneg hu hv) (h2.trans h)

variable {wp ws wi : Spec.Wave N} {D κ d : ℝ}

theorem sum_term_le (S : Strength wp ws wi D κ) (hd : |d| ≤ D) (z : ℝ) {A B : Fin N → ℂ} {U V : ℝ} (hU : ∀ j, ‖A j‖ ≤ U) (hV : ∀ j, ‖B j‖ ≤ V) (j : Fin N) :
    ‖wp.driven d z (Spec.sumMix (N / 2 : ℕ) (ws.field z A) (wi.field z B)) j‖ ≤ N * (κ * (U * V)) := by
  have hD : 0 ≤ D := (abs_nonneg d).trans hd
  have hU0 := (norm_nonneg _).trans (hU j)
  have hV0 := (norm_nonneg _).trans (hV j)
  have hκ := S.nonneg
  rw [norm_driven]
  refine le_trans (mul_le_mul_of_nonneg_right (mul_le_mul_of_nonneg_right hd (abs_nonneg _)) (norm_nonneg _)) ?_
  refine norm_sumMix_le _ (by positivity) (by positivity) (fun m l => ?_) j
  rw [norm_field, norm_field]
  exact pair_le (S.pump j m l) (by positivity) (abs_nonneg _) (abs_nonneg _) (norm_nonneg _) (norm_nonneg _) (hU m) (hV l)

theorem diff_term_le {w1 w2 w3 : Spec.Wave N} (hκ : 0 ≤ κ) (S : ∀ j m l, D * |w1.g j| * (|w2.a m| * |w3.a l|) ≤ κ) (hd : |d| ≤ D) (z : ℝ) {A B : Fin N → ℂ} {U V : ℝ}
    (hU : ∀ j, ‖A j‖ ≤ U) (hV : ∀ j, ‖B j‖ ≤ V) (j : Fin N) :
    ‖w1.driven d z (Spec.diffMix (N / 2 : ℕ) (w2.field z A) (w3.field z B)) j‖ ≤ N * (κ * (U * V)) := by
  have hD : 0 ≤ D := (abs_nonneg d).trans hd
  have hU0 := (norm_nonneg _).trans (hU j)
  have hV0 := (norm_nonneg _).trans (hV j)
  rw [norm_driven]
  refine le_trans (mul_le_mul_of_nonneg_right (mul_le_mul_of_nonneg_right hd (abs_nonneg _)) (norm_nonneg _)) ?_
  refine norm_diffMix_le _ (by positivity) (by positivity) (fun m l => ?_) j
  rw [norm_field, norm_field]
  exact pair_le (S j m l) (by positivity) (abs_nonneg _) (abs_nonneg _) (norm_nonneg _) (norm_nonneg _) (hU m) (hV l)

theorem Ap_le (y : Fin (3 * N) → ℂ) (j : Fin N) : ‖Ap y j‖ ≤ ‖y‖ := norm_le_pi_norm y _
theorem As_le (y : Fin (3 * N) → ℂ) (j : Fin N) : ‖As y j‖ ≤ ‖y‖ := norm_le_pi_norm y _
theorem Ai_le (y : Fin (3 * N) → ℂ) (j : Fin N) : ‖Ai y j‖ ≤ ‖y‖ := norm_le_pi_norm y _

theorem threeWave_le (S : Strength wp ws wi D κ) (hd : |d| ≤ D) (z : ℝ) (y : Fin (3 * N) → ℂ) :
    ‖threeWave wp ws wi d z y‖ ≤ N * κ * ‖y‖ ^ 2 := by
  have hκ := S.nonneg
  have e : N * κ * ‖y‖ ^ 2 = N * (κ * (‖y‖ * ‖y‖)) := by ring
  rw [e]
  refine norm_join_le (by positivity) (fun j => ?_) (fun j => ?_) fun j => ?_
  · exact sum_term_le S hd z (As_le y) (Ai_le y) j
  · exact diff_term_le hκ S.sgnl hd z (Ap_le y) (Ai_le y) j
  · exact diff_term_le hκ S.idlr hd z (Ap_le y) (As_le y) j

theorem threeWave_lip (S : Strength wp ws wi D κ) (hd : |d| ≤ D) (z : ℝ) (y y' : Fin (3 * N) → ℂ) :
    ‖threeWave wp ws wi d z y - threeWave wp ws wi d z y'‖ ≤ N * κ * (‖y‖ + ‖y'‖) * ‖y - y'‖ := by
  have hκ := S.nonneg
  have e : N * κ * (‖y‖ + ‖y'‖) * ‖y - y'‖ = N * (κ * (‖y - y'‖ * ‖y‖)) + N * (κ * (‖y'‖ * ‖y - y'‖)) := by ring
  rw [e]
  unfold threeWave
  rw [join_sub, driven_sub, driven_sub, driven_sub]
  have key : ∀ (w : Spec.Wave N) (P Q : Fin N → ℂ) (a b : ℝ) (j : Fin N), ‖w.driven d z P j‖ ≤ a → ‖w.driven d z Q j‖ ≤ b →
      ‖w.driven d z (P + Q) j‖ ≤ a + b := by
    intro w P Q a b j h1 h2
    have : w.driven d z (P + Q) j = w.driven d z P j + w.driven d z Q j := by simp only [Spec.Wave.driven, Pi.add_apply]; ring
    rw [this]
    exact (norm_add_le _ _).trans (add_le_add h1 h2)
  have hs : ∀ x x' y y' : Fin N → ℂ, Spec.sumMix (N / 2 : ℕ) x y - Spec.sumMix (N / 2 : ℕ) x' y' =
      Spec.sumMix (N / 2 : ℕ) (x - x') y + Spec.sumMix (N / 2 : ℕ) x' (y - y') := fun x x' y y' => funext fun m => sumMix_sub _ x y x' y' m
  have hf : ∀ x x' y y' : Fin N → ℂ, Spec.diffMix (N / 2 : ℕ) x y - Spec.diffMix (N / 2 : ℕ) x' y' =
      Spec.diffMix (N / 2 : ℕ) (x - x') y + Spec.diffMix (N / 2 : ℕ) x' (y - y') := fun x x' y y' => funext fun m => diffMix_sub _ x y x' y' m
  simp only [hs, hf, field_sub]
  refine norm_join_le (by positivity) (fun j => ?_) (fun j => ?_) fun j => ?_
  · exact key _ _ _ _ _ j (sum_term_le S hd z (fun k => As_le (y - y') k) (Ai_le y) j) (sum_term_le S hd z (As_le y') (fun k => Ai_le (y - y') k) j)
  · exact key _ _ _ _ _ j (diff_term_le hκ S.sgnl hd z (fun k => Ap_le (y - y') k) (Ai_le y) j)
      (diff_term_le hκ S.sgnl hd z (Ap_le y') (fun k => Ai_le (y - y') k) j)
  · exact key _ _ _ _ _ j (diff_term_le hκ S.idlr hd z (fun k => Ap_le (y - y') k) (As_le y) j)
      (diff_term_le hκ S.idlr hd z (Ap_le y') (fun k => As_le (y - y') k) j)

/-! ## The dependence on the position -/

/-- The phase that a wave acquires over the distance `t`. -/
noncomputable def turn (w : Spec.Wave N) (t : ℝ) (A : Fin N → ℂ) : Fin N → ℂ := fun j => Complex.exp (((w.β j * t : ℝ) : ℂ) * Complex.I) * A j

theorem norm_turn (w : Spec.Wave N) (t : ℝ) (A : Fin N → ℂ) (j : Fin N) : ‖turn w t A j‖ = ‖A j‖ := by
  rw [turn, norm_mul, Complex.norm_exp_ofReal_mul_I, one_mul]

theorem norm_turn_sub (w : Spec.Wave N) {b : ℝ} (hb : ∀ j, |w.β j| ≤ b) (t : ℝ) (A : Fin N → ℂ) (j : Fin N) :
    ‖turn w t A j - A j‖ ≤ b * |t| * ‖A j‖ := by
  have : turn w t A j - A j = (Complex.exp (Complex.I * ((w.β j * t : ℝ) : ℂ)) - 1) * A j := by rw [turn, mul_comm Complex.I]; ring
  rw [this, norm_mul]
  refine mul_le_mul_of_nonneg_right ?_ (norm_nonneg _)
  refine (Real.norm_exp_I_mul_ofReal_sub_one_le).trans ?_
  rw [Real.norm_eq_abs, abs_mul]
  exact mul_le_mul_of_nonneg_right (hb j) (abs_nonneg _)

theorem field_turn (w : Spec.Wave N) (z t : ℝ) (A : Fin N → ℂ) : w.field (z + t) A = w.field z (turn w t A) := by
  funext j
  simp only [Spec.Wave.field, turn]
  rw [show Complex.I * ((w.β j * (z + t) : ℝ) : ℂ) = Complex.I * ((w.β j * z : ℝ) : ℂ) + ((w.β j * t : ℝ) : ℂ) * Complex.I by push_cast; ring, Complex.exp_add]
  ring

theorem driven_turn (w : Spec.Wave N) (d z t : ℝ) (P : Fin N → ℂ) : w.driven d (z + t) P = turn w (-t) (w.driven d z P) := by
  funext j
  simp only [Spec.Wave.driven, turn]
  rw [show -(Complex.I * ((w.β j * (z + t) : ℝ) : ℂ)) = ((w.β j * -t : ℝ) : ℂ) * Complex.I + -(Complex.I * ((w.β j * z : ℝ) : ℂ)) by push_cast; ring, Complex.exp_add]
  ring

/-- The coupled equations at a later position are those with the phases acquired in between. -/
theorem threeWave_turn (wp ws wi : Spec.Wave N) (d z t : ℝ) (y : Fin (3 * N) → ℂ) :
    threeWave wp ws wi d (z + t) y = join (turn wp (-t) (Ap (threeWave wp ws wi d z (join (turn wp t (Ap y)) (turn ws t (As y)) (turn wi t (Ai y))))))
      (turn ws (-t) (As (threeWave wp ws wi d z (join (turn wp t (Ap y)) (turn ws t (As y)) (turn wi t (Ai y))))))
      (turn wi (-t) (Ai (threeWave wp ws wi d z (join (turn wp t (Ap y)) (turn ws t (As y)) (turn wi t (Ai y)))))) := by
  unfold threeWave
  simp only [Ap_join, As_join, Ai_join, driven_turn, field_turn]

theorem join_parts (y : Fin (3 * N) → ℂ) : join (Ap y) (As y) (Ai y) = y := by
  funext k
  simp only [join, Ap, As, Ai]
  split_ifs with h1 h2
  · rfl
  · congr 1; apply Fin.ext; simp only; omega
  · congr 1; apply Fin.ext; simp only; omega

theorem threeWave_lipz (S : Strength wp ws wi D κ) (hd : |d| ≤ D) {b : ℝ} (hb : ∀ j, |wp.β j| ≤ b ∧ |ws.β j| ≤ b ∧ |wi.β j| ≤ b) (hb0 : 0 ≤ b) (z z' : ℝ)
    (y : Fin (3 * N) → ℂ) : ‖threeWave wp ws wi d z y - threeWave wp ws wi d z' y‖ ≤ 3 * (N * κ * ‖y‖ ^ 2) * b * |z - z'| := by
  have hκ := S.nonneg
  set t := z - z' with ht
  have hz : z = z' + t := by rw [ht]; ring
  set u := join (turn wp t (Ap y)) (turn ws t (As y)) (turn wi t (Ai y)) with hu
  set V := threeWave wp ws wi d z' y with hV
  set U := threeWave wp ws wi d z' u with hU
  have hun : ‖u‖ ≤ ‖y‖ := norm_join_le (norm_nonneg _) (fun j => (norm_turn wp t _ j).le.trans (Ap_le y j)) (fun j => (norm_turn ws t _ j).le.trans (As_le y j))
    fun j => (norm_turn wi t _ j).le.trans (Ai_le y j)
  have hsc : ∀ {x : ℝ}, x ≤ ‖y‖ → b * |t| * x ≤ b * |t| * ‖y‖ := fun hx => mul_le_mul_of_nonneg_left hx (by positivity)
  have huy : ‖u - y‖ ≤ b * |t| * ‖y‖ := by
    conv_lhs => rw [← join_parts y]
    rw [hu, join_sub]
    exact norm_join_le (by positivity) (fun j => (norm_turn_sub wp (fun j => (hb j).1) t _ j).trans (hsc (Ap_le y j)))
      (fun j => (norm_turn_sub ws (fun j => (hb j).2.1) t _ j).trans (hsc (As_le y j)))
      fun j => (norm_turn_sub wi (fun j => (hb j).2.2) t _ j).trans (hsc (Ai_le y j))
  have h1 : ‖U - V‖ ≤ 2 * (N * κ * ‖y‖ ^ 2) * b * |t| := by
    refine (threeWave_lip S hd z' u y).trans ?_
    calc N * κ * (‖u‖ + ‖y‖) * ‖u - y‖ ≤ N * κ * (‖y‖ + ‖y‖) * (b * |t| * ‖y‖) := by
          refine mul_le_mul (mul_le_mul_of_nonneg_left (by linarith) (by positivity)) huy (norm_nonneg _) (by positivity)
      _ = _ := by ring
  have hVn : ‖V‖ ≤ N * κ * ‖y‖ ^ 2 := threeWave_le S hd z' y
  have key : ∀ (w : Spec.Wave N) (X X' : Fin N → ℂ), (∀ j, |w.β j| ≤ b) → (∀ j, ‖X j - X' j‖ ≤ ‖U - V‖) → (∀ j, ‖X' j‖ ≤ ‖V‖) → ∀ j,
      ‖(turn w (-t) X - X') j‖ ≤ 3 * (N * κ * ‖y‖ ^ 2) * b * |t| := by
    intro w X X' hw h2 h3 j
    have e : (turn w (-t) X - X') j = turn w (-t) (X - X') j + (turn w (-t) X' j - X' j) := by
      simp only [turn, Pi.sub_apply]; ring
    rw [e]
    refine (norm_add_le _ _).trans ?_
    rw [norm_turn]
    have h4 := norm_turn_sub w hw (-t) X' j
    rw [abs_neg] at h4
    have h5 : b * |t| * ‖X' j‖ ≤ b * |t| * (N * κ * ‖y‖ ^ 2) := mul_le_mul_of_nonneg_left ((h3 j).trans hVn) (by positivity)
    have h6 := (h2 j).trans h1
    rw [Pi.sub_apply]
    linarith
  rw [hz, threeWave_turn, ← hu, ← hU]
  conv_lhs => rw [← join_parts V]
  rw [join_sub]
  exact norm_join_le (by positivity) (key wp _ _ (fun j => (hb j).1) (fun j => Ap_le (U - V) j) (Ap_le V))
    (key ws _ _ (fun j => (hb j).2.1) (fun j => As_le (U - V) j) (As_le V)) (key wi _ _ (fun j => (hb j).2.2) (fun j => Ai_le (U - V) j) (Ai_le V))

/-! ## Analyticity -/

theorem contDiff_coord {n : ℕ} (k : Fin n) : ContDiff ℝ ω fun q : ℝ × (Fin n → ℂ) => q.2 k :=
  (contDiff_apply ℝ ℂ k).comp contDiff_snd

theorem contDiff_phase {n : ℕ} (β : ℝ) : ContDiff ℝ ω fun q : ℝ × (Fin n → ℂ) => Complex.exp (Complex.I * ((β * q.1 : ℝ) : ℂ)) := by
  refine ContDiff.cexp (contDiff_const.mul ?_)
  exact Complex.ofRealCLM.contDiff.comp (contDiff_const.mul contDiff_fst)

theorem threeWave_smooth (wp ws wi : Spec.Wave N) (d : ℝ) : ContDiff ℝ ω fun q : ℝ × (Fin (3 * N) → ℂ) => threeWave wp ws wi d q.1 q.2 := by
  have hfield : ∀ (w : Spec.Wave N) (A : (Fin (3 * N) → ℂ) → Fin N → ℂ), (∀ j, ContDiff ℝ ω fun q : ℝ × (Fin (3 * N) → ℂ) => A q.2 j) → ∀ j,
      ContDiff ℝ ω fun q : ℝ × (Fin (3 * N) → ℂ) => w.field q.1 (A q.2) j := by
    intro w A hA j
    exact (contDiff_const.mul (hA j)).mul (contDiff_phase _)
  have hdriven : ∀ (w : Spec.Wave N) (P : ℝ × (Fin (3 * N) → ℂ) → Fin N → ℂ), (∀ j, ContDiff ℝ ω fun q => P q j) → ∀ j,
      ContDiff ℝ ω fun q : ℝ × (Fin (3 * N) → ℂ) => w.driven d q.1 (P q) j := by
    intro w P hP j
    refine (contDiff_const.mul (ContDiff.cexp (ContDiff.neg (contDiff_const.mul ?_)))).mul (hP j)
    exact Complex.ofRealCLM.contDiff.comp (contDiff_const.mul contDiff_fst)
  have hsum : ∀ (c : ℤ) (x y : ℝ × (Fin (3 * N) → ℂ) → Fin N → ℂ), (∀ j, ContDiff ℝ ω fun q => x q j) → (∀ j, ContDiff ℝ ω fun q => y q j) → ∀ m,
      ContDiff ℝ ω fun q => Spec.sumMix c (x q) (y q) m := by
    intro c x y hx hy m
    refine ContDiff.sum fun i _ => ContDiff.sum fun j _ => ?_
    split_ifs
    · exact (hx i).mul (hy j)
    · exact contDiff_const
  have hdiff : ∀ (c : ℤ) (x y : ℝ × (Fin (3 * N) → ℂ) → Fin N → ℂ), (∀ j, ContDiff ℝ ω fun q => x q j) → (∀ j, ContDiff ℝ ω fun q => y q j) → ∀ m,
      ContDiff ℝ ω fun q => Spec.diffMix c (x q) (y q) m := by
    intro c x y hx hy m
    refine ContDiff.sum fun i _ => ContDiff.sum fun j _ => ?_
    split_ifs
    · exact (hx i).mul (Complex.conjCLE.contDiff.comp (hy j))
    · exact contDiff_const
  have hP : ∀ j, ContDiff ℝ ω fun q : ℝ × (Fin (3 * N) → ℂ) => Ap q.2 j := fun j => contDiff_coord _
  have hS : ∀ j, ContDiff ℝ ω fun q : ℝ × (Fin (3 * N) → ℂ) => As q.2 j := fun j => contDiff_coord _
  have hI : ∀ j, ContDiff ℝ ω fun q : ℝ × (Fin (3 * N) → ℂ) => Ai q.2 j := fun j => contDiff_coord _
  refine contDiff_pi.2 fun k => ?_
  unfold threeWave join
  split_ifs
  · exact hdriven wp _ (hsum _ _ _ (hfield ws As hS) (hfield wi Ai hI)) _
  · exact hdriven ws _ (hdiff _ _ _ (hfield wp Ap hP) (hfield wi Ai hI)) _
  · exact hdriven wi _ (hdiff _ _ _ (hfield wp Ap hP) (hfield ws As hS)) _

end PyNLO.Dfg
