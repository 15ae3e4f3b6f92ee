import Verif.Lemmas.RkGlobal

/-!
# Explicit Runge–Kutta methods for right-hand sides that jump at finitely many positions

A step that touches no jump has the order of the method; a step that touches one has an error of first order in its length.
-/

open scoped BigOperators Topology ContDiff
open Filter Set

namespace PyNLO.RK

variable {E : Type*} [NormedAddCommGroup E] [NormedSpace ℝ E]
variable {s : ℕ} {a : ℕ → ℕ → ℝ} {b : ℕ → ℝ} {A B : ℝ}

/-! ## Stability without regularity in the position -/

/-- A right-hand side that is bounded and Lipschitz in the value, at each position of a set. -/
structure Tame (f : ℝ → E → E) (X : Set ℝ) (R L G : ℝ) : Prop where
  lip : ∀ x ∈ X, ∀ y y', ‖y‖ ≤ R → ‖y'‖ ≤ R → ‖f x y - f x y'‖ ≤ L * ‖y - y'‖
  bound : ∀ x ∈ X, ∀ y, ‖y‖ ≤ R → ‖f x y‖ ≤ G
  lip_nonneg : 0 ≤ L
  bound_nonneg : 0 ≤ G

variable {f : ℝ → E → E} {X : Set ℝ} {R L G : ℝ}

theorem tame_in (hb : Bounded s a b A B) (hn : Tame f X R L G) {c : ℕ → ℝ} {x h : ℝ} (hh : 0 ≤ h)
    (hc : ∀ i < s, x + c i * h ∈ X) {y : E} (hy : ‖y‖ + h * (A * G) ≤ R) (i : ℕ) (hi : i < s) :
    ‖nst a c f x y h i‖ ≤ G ∧ ‖y + h • ∑ j ∈ Finset.range i, a i j • nst a c f x y h j‖ ≤ R := by
  induction i using Nat.strong_induction_on with
  | _ i ih =>
    have h1 : ‖y + h • ∑ j ∈ Finset.range i, a i j • nst a c f x y h j‖ ≤ R := by
      refine (norm_add_le _ _).trans (le_trans (add_le_add_right ?_ _) hy)
      rw [norm_smul, Real.norm_eq_abs, abs_of_nonneg hh]
      exact mul_le_mul_of_nonneg_left (norm_row_le hb hi hn.bound_nonneg fun j hj => (ih j hj (hj.trans hi)).1) hh
    refine ⟨?_, h1⟩
    rw [nst_eq]
    exact hn.bound _ (hc i hi) _ h1

theorem tame_diff (hb : Bounded s a b A B) (hn : Tame f X R L G) {c : ℕ → ℝ} {x h : ℝ} (hh : 0 ≤ h)
    (hc : ∀ i < s, x + c i * h ∈ X) {y y' : E} (hy : ‖y‖ + h * (A * G) ≤ R) (hy' : ‖y'‖ + h * (A * G) ≤ R)
    (hs : h * (L * A) ≤ 1 / 2) (i : ℕ) (hi : i < s) : ‖nst a c f x y h i - nst a c f x y' h i‖ ≤ 2 * L * ‖y - y'‖ := by
  have hL := hn.lip_nonneg
  induction i using Nat.strong_induction_on with
  | _ i ih =>
    rw [nst_eq a c f x y, nst_eq a c f x y']
    refine (hn.lip _ (hc i hi) _ _ (tame_in hb hn hh hc hy i hi).2 (tame_in hb hn hh hc hy' i hi).2).trans ?_
    have h2 : ‖y + h • ∑ j ∈ Finset.range i, a i j • nst a c f x y h j - (y' + h • ∑ j ∈ Finset.range i, a i j • nst a c f x y' h j)‖ ≤
        ‖y - y'‖ + h * (A * (2 * L * ‖y - y'‖)) := by
      have e : y + h • ∑ j ∈ Finset.range i, a i j • nst a c f x y h j - (y' + h • ∑ j ∈ Finset.range i, a i j • nst a c f x y' h j) =
          (y - y') + h • ∑ j ∈ Finset.range i, a i j • (nst a c f x y h j - nst a c f x y' h j) := by
        simp only [smul_sub, Finset.sum_sub_distrib]
        abel
      rw [e]
      refine (norm_add_le _ _).trans (add_le_add_right ?_ _)
      rw [norm_smul, Real.norm_eq_abs, abs_of_nonneg hh]
      exact mul_le_mul_of_nonneg_left (norm_row_le hb hi (by positivity) fun j hj => ih j hj (hj.trans hi)) hh
    calc L * _ ≤ L * (‖y - y'‖ + h * (A * (2 * L * ‖y - y'‖))) := mul_le_mul_of_nonneg_left h2 hL
      _ = L * ‖y - y'‖ + 2 * (h * (L * A)) * (L * ‖y - y'‖) := by ring
      _ ≤ L * ‖y - y'‖ + 1 * (L * ‖y - y'‖) := by
          refine add_le_add_right (mul_le_mul_of_nonneg_right (by linarith) (by positivity)) _
      _ = 2 * L * ‖y - y'‖ := by ring

theorem sum_wt_le (hb : Bounded s a b A B) {k : ℕ → E} {M : ℝ} (hM : 0 ≤ M) (hk : ∀ i < s, ‖k i‖ ≤ M) :
    ‖∑ i ∈ Finset.range s, b i • k i‖ ≤ B * M := by
  calc ‖∑ i ∈ Finset.range s, b i • k i‖ ≤ ∑ i ∈ Finset.range s, |b i| * M := by
        refine (norm_sum_le _ _).trans (Finset.sum_le_sum fun i hi => ?_)
        rw [norm_smul, Real.norm_eq_abs]
        exact mul_le_mul_of_nonneg_left (hk i (Finset.mem_range.1 hi)) (abs_nonneg _)
    _ = (∑ i ∈ Finset.range s, |b i|) * M := by rw [Finset.sum_mul]
    _ ≤ _ := mul_le_mul_of_nonneg_right hb.wt hM

theorem tame_stable (hb : Bounded s a b A B) (hn : Tame f X R L G) {c : ℕ → ℝ} {x h : ℝ} (hh : 0 ≤ h)
    (hc : ∀ i < s, x + c i * h ∈ X) {y y' : E} (hy : ‖y‖ + h * (A * G) ≤ R) (hy' : ‖y'‖ + h * (A * G) ≤ R)
    (hs : h * (L * A) ≤ 1 / 2) : ‖nstep s a b c f x y h - nstep s a b c f x y' h‖ ≤ (1 + 2 * B * L * h) * ‖y - y'‖ := by
  have hL := hn.lip_nonneg
  have e : nstep s a b c f x y h - nstep s a b c f x y' h =
      (y - y') + h • ∑ i ∈ Finset.range s, b i • (nst a c f x y h i - nst a c f x y' h i) := by
    unfold nstep
    simp only [smul_sub, Finset.sum_sub_distrib]
    abel
  have h1 := sum_wt_le hb (k := fun i => nst a c f x y h i - nst a c f x y' h i) (M := 2 * L * ‖y - y'‖) (by positivity)
    fun i hi => tame_diff hb hn hh hc hy hy' hs i hi
  rw [e]
  refine (norm_add_le _ _).trans ?_
  rw [norm_smul, Real.norm_eq_abs, abs_of_nonneg hh]
  have := mul_le_mul_of_nonneg_left h1 hh
  calc ‖y - y'‖ + h * _ ≤ ‖y - y'‖ + h * (B * (2 * L * ‖y - y'‖)) := add_le_add_right this _
    _ = _ := by ring

theorem tame_small (hb : Bounded s a b A B) (hn : Tame f X R L G) {c : ℕ → ℝ} {x h : ℝ} (hh : 0 ≤ h)
    (hc : ∀ i < s, x + c i * h ∈ X) {y : E} (hy : ‖y‖ + h * (A * G) ≤ R) : ‖nstep s a b c f x y h - y‖ ≤ B * G * h := by
  unfold nstep
  rw [add_sub_cancel_left, norm_smul, Real.norm_eq_abs, abs_of_nonneg hh]
  have := mul_le_mul_of_nonneg_left (sum_wt_le hb hn.bound_nonneg fun i hi => (tame_in hb hn hh hc hy i hi).1) hh
  calc _ ≤ h * (B * G) := this
    _ = _ := by ring

/-- Two right-hand sides that agree at the nodes give the same step. -/
theorem nstep_congr {f g : ℝ → E → E} {c : ℕ → ℝ} {x h : ℝ} (y : E) (hfg : ∀ i < s, ∀ y, f (x + c i * h) y = g (x + c i * h) y) :
    nstep s a b c f x y h = nstep s a b c g x y h := by
  have key : ∀ i < s, nst a c f x y h i = nst a c g x y h i := by
    intro i
    induction i using Nat.strong_induction_on with
    | _ i ih =>
      intro hi
      rw [nst_eq a c f, nst_eq a c g, hfg i hi]
      congr 3
      exact Finset.sum_congr rfl fun j hj => by rw [ih j (Finset.mem_range.1 hj) ((Finset.mem_range.1 hj).trans hi)]
  unfold nstep
  congr 2
  exact Finset.sum_congr rfl fun i hi => by rw [key i (Finset.mem_range.1 hi)]

/-! ## One piece -/

/-- Accuracy of steps from the solution of an analytic equation. -/
theorem local_step [FiniteDimensional ℝ E] {K s : ℕ} (hs : K + 2 ≤ s) {a : ℕ → ℕ → ℝ} {b c : ℕ → ℝ} {A B : ℝ} (hb : Bounded s a b A B)
    {F : ℝ → E → E} (hf : ContDiff ℝ ω fun q : ℝ × E => F q.1 q.2) {Z : ℝ → E} {α β p q : ℝ} (hα : α < p) (hpq : p ≤ q) (hβ : q < β)
    (hZ : ∀ z ∈ Ioo α β, HasDerivAt Z (F z (Z z)) z) {η δ : ℝ} (hη' : 0 ≤ η) (hδ : 0 ≤ δ)
    (hη : ∀ t : Tr K s, t.ord ≤ K + 1 → |t.weight s a b - 1 / t.density| ≤ η)
    (hc : ∀ i < s, 0 ≤ c i ∧ c i ≤ 2 ∧ 0 ≤ rowSum a i ∧ rowSum a i ≤ 2 ∧ |c i - rowSum a i| ≤ δ) {M R L : ℝ}
    (hM : ∀ z ∈ Icc p q, diffSum K s (aug F) (z, Z z) ≤ M) (hR : ∀ z ∈ Icc p q, ‖Z z‖ < R)
    (hL : 0 ≤ L) (hlip : ∀ x ∈ Icc α β, ∀ x' ∈ Icc α β, ∀ y y', ‖y‖ ≤ R → ‖y'‖ ≤ R → ‖F x y - F x' y'‖ ≤ L * (|x - x'| + ‖y - y'‖)) :
    ∃ C h0, 0 ≤ C ∧ 0 < h0 ∧ ∀ hm ∈ Ioc 0 h0, ∀ x ∈ Icc p q, ∀ h ∈ Icc 0 hm,
      ‖nstep s a b c F x (Z x) h - Z (x + h)‖ ≤ (η * M + 2 * B * L * δ * hm + C * hm ^ (K + 1)) * h := by
  have : ProperSpace E := FiniteDimensional.proper_real E
  have hf0 : Continuous fun q : ℝ × E => F q.1 q.2 := hf.continuous
  obtain ⟨G, hG⟩ := (isCompact_Icc (a := α) (b := β)).prod (isCompact_closedBall (0 : E) R) |>.exists_bound_of_continuousOn hf0.continuousOn
  have hR0 : 0 ≤ R := (norm_nonneg _).trans (hR p ⟨le_refl _, hpq⟩).le
  have hG0 : 0 ≤ G := (norm_nonneg _).trans (hG (p, 0) ⟨⟨hα.le, by linarith⟩, by simpa using hR0⟩)
  have hn : Nice F α β R L G := ⟨hlip, fun x hx y hy => hG (x, y) ⟨hx, by simpa using hy⟩, hL, hG0⟩
  obtain ⟨C, h1, hC, h1pos, h1le, cons⟩ := consistent hs a b hf hα hβ hZ hη' hη hM
  have hA := hb.nonneg
  have hB : 0 ≤ B := (Finset.sum_nonneg fun i _ => abs_nonneg _).trans hb.wt
  obtain ⟨τ, hτ, hRτ⟩ : ∃ τ > 0, ∀ z ∈ Icc p q, ‖Z z‖ + τ ≤ R := by
    have hcont : ContinuousOn (fun z => ‖Z z‖) (Icc p q) := fun z hz =>
      ((hZ z ⟨by linarith [hz.1], by linarith [hz.2]⟩).continuousAt.norm).continuousWithinAt
    obtain ⟨z0, hz0, hmax⟩ := isCompact_Icc.exists_isMaxOn (nonempty_Icc.2 hpq) hcont
    refine ⟨R - ‖Z z0‖, by have := hR z0 hz0; linarith, fun z hz => ?_⟩
    have : ‖Z z‖ ≤ ‖Z z0‖ := hmax hz
    linarith
  set h0 := min h1 (min ((β - q) / 2) (min (τ / (A * G + 1)) (1 / (2 * (L * A + 1))))) with hh0
  have h0pos : 0 < h0 := by
    have : 0 < β - q := by linarith
    positivity
  refine ⟨C, h0, hC, h0pos, fun hm hhm x hxx h hh => ?_⟩
  have hm1 : hm ≤ h1 := hhm.2.trans (min_le_left _ _)
  have hm3 : hm ≤ (β - q) / 2 := hhm.2.trans ((min_le_right _ _).trans (min_le_left _ _))
  have hm4 : hm ≤ τ / (A * G + 1) := hhm.2.trans ((min_le_right _ _).trans ((min_le_right _ _).trans (min_le_left _ _)))
  have hm5 : hm ≤ 1 / (2 * (L * A + 1)) := hhm.2.trans ((min_le_right _ _).trans ((min_le_right _ _).trans (min_le_right _ _)))
  have hm0 := hhm.1.le
  have hnode : ∀ c' : ℝ, 0 ≤ c' → c' ≤ 2 → x + c' * h ∈ Icc α β := by
    intro c' h0' h2'
    have e1 : 0 ≤ c' * h := mul_nonneg h0' hh.1
    have e2 : c' * h ≤ 2 * hm := mul_le_mul h2' hh.2 hh.1 (by norm_num)
    exact ⟨by linarith [hxx.1], by linarith [hxx.2]⟩
  have hAG : h * (A * G) ≤ τ := by
    rw [le_div_iff₀ (by positivity)] at hm4
    calc h * (A * G) ≤ hm * (A * G + 1) := mul_le_mul hh.2 (by linarith) (by positivity) hm0
      _ ≤ τ := hm4
  have hLA : h * (L * A) ≤ 1 / 2 := by
    rw [le_div_iff₀ (by positivity)] at hm5
    have : h * (L * A) ≤ hm * (L * A + 1) := mul_le_mul hh.2 (by linarith) (by positivity) hm0
    linarith
  have hYR : ‖Z x‖ + h * (A * G) ≤ R := by linarith [hRτ x hxx]
  have node := nstep_diff hb hn (c := c) (c' := rowSum a) (δ := δ) hh.1 hδ (fun i hi => hnode _ (hc i hi).1 (hc i hi).2.1)
    (fun i hi => hnode _ (hc i hi).2.2.1 (hc i hi).2.2.2.1) (fun i hi => (hc i hi).2.2.2.2) hYR hYR hLA
  rw [sub_self, norm_zero, mul_zero, zero_add] at node
  have con := cons x hxx h ⟨hh.1, hh.2.trans hm1⟩
  have h3 := norm_add_le (nstep s a b c F x (Z x) h - nstep s a b (rowSum a) F x (Z x) h) (nstep s a b (rowSum a) F x (Z x) h - Z (x + h))
  rw [sub_add_sub_cancel] at h3
  refine h3.trans ?_
  have h4 : C * h ^ (K + 2) ≤ C * hm ^ (K + 1) * h := by
    rw [pow_succ, ← mul_assoc]
    exact mul_le_mul_of_nonneg_right (mul_le_mul_of_nonneg_left (pow_le_pow_left₀ hh.1 hh.2 _) hC) hh.1
  have h5 : 2 * B * L * h * (h * δ) ≤ 2 * B * L * δ * hm * h := by
    have : 2 * B * L * δ * h * h ≤ 2 * B * L * δ * hm * h := by
      refine mul_le_mul_of_nonneg_right (mul_le_mul_of_nonneg_left hh.2 (by positivity)) hh.1
    linarith
  calc _ ≤ 2 * B * L * δ * hm * h + (h * (η * M) + C * hm ^ (K + 1) * h) := by linarith
    _ = _ := by ring

/-! ## Pieces -/

/-- How often steps up to `x` can have touched one of the positions `w 1, …, w (m - 1)`: a position behind `x` counts twice,
the position `x` itself once. -/
noncomputable def touched (m : ℕ) (w : ℕ → ℝ) (x : ℝ) : ℝ :=
  open Classical in ∑ k ∈ Finset.Ioo 0 m, ((if w k < x then 1 else 0) + (if w k ≤ x then 1 else 0))

theorem touched_le (m : ℕ) (w : ℕ → ℝ) (x : ℝ) : touched m w x ≤ 2 * ((m - 1 : ℕ) : ℝ) := by
  classical
  unfold touched
  calc _ ≤ ∑ k ∈ Finset.Ioo 0 m, (2 : ℝ) := Finset.sum_le_sum fun k _ => by split_ifs <;> norm_num
    _ = _ := by simp; ring

theorem touched_nonneg (m : ℕ) (w : ℕ → ℝ) (x : ℝ) : 0 ≤ touched m w x := by
  classical
  unfold touched
  exact Finset.sum_nonneg fun k _ => by split_ifs <;> norm_num

theorem touched_term {w x x' : ℝ} (h : x ≤ x') : (if w < x then (1 : ℝ) else 0) + (if w ≤ x then 1 else 0) ≤
    (if w < x' then 1 else 0) + (if w ≤ x' then 1 else 0) := by
  split_ifs <;> first | (exfalso; linarith) | norm_num

theorem touched_mono (m : ℕ) (w : ℕ → ℝ) {x x' : ℝ} (h : x ≤ x') : touched m w x ≤ touched m w x' := by
  classical
  unfold touched
  exact Finset.sum_le_sum fun k _ => touched_term h

theorem touched_hit {m : ℕ} {w : ℕ → ℝ} {x x' : ℝ} (h : x < x') {k : ℕ} (h0 : 0 < k) (hk : k < m) (hw : w k ∈ Icc x x') :
    touched m w x + 1 ≤ touched m w x' := by
  classical
  unfold touched
  rw [← Finset.add_sum_erase _ _ (Finset.mem_Ioo.2 ⟨h0, hk⟩),
    ← Finset.add_sum_erase (Finset.Ioo 0 m) (fun k => (if w k < x' then (1 : ℝ) else 0) + (if w k ≤ x' then 1 else 0)) (Finset.mem_Ioo.2 ⟨h0, hk⟩)]
  have h1 : ∑ k ∈ (Finset.Ioo 0 m).erase k, ((if w k < x then (1 : ℝ) else 0) + (if w k ≤ x then 1 else 0)) ≤
      ∑ k ∈ (Finset.Ioo 0 m).erase k, ((if w k < x' then (1 : ℝ) else 0) + (if w k ≤ x' then 1 else 0)) :=
    Finset.sum_le_sum fun k _ => touched_term h.le
  have h2 : (if w k < x then (1 : ℝ) else 0) + (if w k ≤ x then 1 else 0) + 1 ≤ (if w k < x' then 1 else 0) + (if w k ≤ x' then 1 else 0) := by
    obtain ⟨h3, h4⟩ := hw
    split_ifs <;> first | (exfalso; linarith) | norm_num
  linarith

/-- A position between the first and the last lies between two neighbours. -/
theorem find_piece {w : ℕ → ℝ} {x : ℝ} : ∀ {m : ℕ}, w 0 ≤ x → x ≤ w m → 0 < m → ∃ k < m, w k ≤ x ∧ x ≤ w (k + 1)
  | 0, _, _, h => absurd h (lt_irrefl 0)
  | m + 1, h0, h1, _ => by
    by_cases hx : w m ≤ x
    · exact ⟨m, Nat.lt_succ_self m, hx, h1⟩
    · push Not at hx
      rcases Nat.eq_zero_or_pos m with rfl | hm
      · linarith
      · obtain ⟨k, hk, h⟩ := find_piece h0 hx.le hm
        exact ⟨k, hk.trans (Nat.lt_succ_self m), h⟩

/-- A step that touches none of the inner positions lies in one piece. -/
theorem find_open {w : ℕ → ℝ} {m : ℕ} {x h : ℝ} (h0 : w 0 ≤ x) (h1 : x + h ≤ w m) (hh : 0 ≤ h) (hm : 0 < m)
    (hw : ∀ k, 0 < k → k < m → w k ∉ Icc x (x + h)) : ∃ k < m, w k ≤ x ∧ x + h ≤ w (k + 1) := by
  obtain ⟨k, hk, a, b⟩ := find_piece h0 (by linarith) hm
  refine ⟨k, hk, a, ?_⟩
  by_contra hc
  push Not at hc
  rcases Nat.lt_or_ge (k + 1) m with h2 | h2
  · exact hw (k + 1) (Nat.succ_pos k) h2 ⟨b, hc.le⟩
  · rw [show k + 1 = m by omega] at hc
    linarith

/-- The equation on one piece `[p, q]`: analytic, with the solution `Z`. -/
structure Piece (K s : ℕ) (F : ℝ → E → E) (Z : ℝ → E) (p q M R L' G : ℝ) : Prop where
  smooth : ContDiff ℝ ω fun q : ℝ × E => F q.1 q.2
  le : p ≤ q
  diffs : ∀ z ∈ Icc p q, diffSum K s (aug F) (z, Z z) ≤ M
  bound : ∀ x ∈ Icc p q, ∀ y, ‖y‖ ≤ R → ‖F x y‖ ≤ G
  beyond : ∃ α β, α < p ∧ q < β ∧ (∀ z ∈ Ioo α β, HasDerivAt Z (F z (Z z)) z) ∧
    ∀ x ∈ Icc α β, ∀ x' ∈ Icc α β, ∀ y y', ‖y‖ ≤ R → ‖y'‖ ≤ R → ‖F x y - F x' y'‖ ≤ L' * (|x - x'| + ‖y - y'‖)

/-- Uniform accuracy over finitely many pieces. -/
theorem pieces_local [FiniteDimensional ℝ E] {K s : ℕ} (hs : K + 2 ≤ s) {a : ℕ → ℕ → ℝ} {b c : ℕ → ℝ} {A B : ℝ} (hb : Bounded s a b A B)
    {F : ℕ → ℝ → E → E} {Y : ℝ → E} {Z : ℕ → ℝ → E} {w : ℕ → ℝ} {η δ : ℝ} (hη' : 0 ≤ η) (hδ : 0 ≤ δ)
    (hη : ∀ t : Tr K s, t.ord ≤ K + 1 → |t.weight s a b - 1 / t.density| ≤ η)
    (hc : ∀ i < s, 0 ≤ c i ∧ c i ≤ 2 ∧ 0 ≤ rowSum a i ∧ rowSum a i ≤ 2 ∧ |c i - rowSum a i| ≤ δ) {M R L' G : ℝ} (hL : 0 ≤ L') :
    ∀ m, (∀ k < m, Piece K s (F k) (Z k) (w k) (w (k + 1)) M R L' G) → (∀ k < m, EqOn Y (Z k) (Icc (w k) (w (k + 1)))) →
      (∀ k < m, ∀ z ∈ Icc (w k) (w (k + 1)), ‖Y z‖ < R) →
    ∃ C h0, 0 ≤ C ∧ 0 < h0 ∧ ∀ hm ∈ Ioc 0 h0, ∀ k < m, ∀ x ∈ Icc (w k) (w (k + 1)), ∀ h ∈ Icc 0 hm, x + h ≤ w (k + 1) →
      ‖nstep s a b c (F k) x (Y x) h - Y (x + h)‖ ≤ (η * M + 2 * B * L' * δ * hm + C * hm ^ (K + 1)) * h := by
  intro m
  induction m with
  | zero => exact fun _ _ _ => ⟨0, 1, le_refl _, one_pos, fun _ _ k hk => absurd hk (Nat.not_lt_zero k)⟩
  | succ m ih =>
    intro hP hE hR
    obtain ⟨C, h0, hC, h0pos, hC'⟩ := ih (fun k hk => hP k (by omega)) (fun k hk => hE k (by omega)) (fun k hk => hR k (by omega))
    have P := hP m (Nat.lt_succ_self m)
    obtain ⟨α, β, hα, hβ, hZ, hlip⟩ := P.beyond
    obtain ⟨C', h0', hC0', h0pos', hb'⟩ := local_step hs hb P.smooth hα P.le hβ hZ hη' hδ hη hc P.diffs
      (fun z hz => by rw [← hE m (Nat.lt_succ_self m) hz]; exact hR m (Nat.lt_succ_self m) z hz) hL hlip
    refine ⟨max C C', min h0 h0', le_max_of_le_left hC, lt_min h0pos h0pos', fun hm hhm k hk x hx h hh hxh => ?_⟩
    have hmp : 0 ≤ hm ^ (K + 1) := pow_nonneg hhm.1.le _
    rcases Nat.lt_succ_iff_lt_or_eq.1 hk with hk | rfl
    · refine (hC' hm ⟨hhm.1, hhm.2.trans (min_le_left _ _)⟩ k hk x hx h hh hxh).trans (mul_le_mul_of_nonneg_right ?_ hh.1)
      exact add_le_add_right (mul_le_mul_of_nonneg_right (le_max_left _ _) hmp) _
    · have h1 := hb' hm ⟨hhm.1, hhm.2.trans (min_le_right _ _)⟩ x hx h hh
      rw [← hE k (Nat.lt_succ_self k) hx, ← hE k (Nat.lt_succ_self k) ⟨by linarith [hx.1, hh.1], hxh⟩] at h1
      refine h1.trans (mul_le_mul_of_nonneg_right ?_ hh.1)
      exact add_le_add_right (mul_le_mul_of_nonneg_right (le_max_right _ _) hmp) _

/-- The solution moves at most at the rate `G`. -/
theorem pieces_speed {K s : ℕ} {F : ℕ → ℝ → E → E} {Y : ℝ → E} {Z : ℕ → ℝ → E} {w : ℕ → ℝ} {M R L' G : ℝ} {m : ℕ} (hG : 0 ≤ G)
    (hP : ∀ k < m, Piece K s (F k) (Z k) (w k) (w (k + 1)) M R L' G) (hE : ∀ k < m, EqOn Y (Z k) (Icc (w k) (w (k + 1))))
    (hR : ∀ k < m, ∀ z ∈ Icc (w k) (w (k + 1)), ‖Y z‖ < R) {x x' : ℝ} (h0 : w 0 ≤ x) (hxx : x ≤ x') (h1 : x' ≤ w m) :
    ‖Y x' - Y x‖ ≤ G * (x' - x) := by
  have hone : ∀ k < m, ∀ u ∈ Icc (w k) (w (k + 1)), ∀ v ∈ Icc (w k) (w (k + 1)), u ≤ v → ‖Y v - Y u‖ ≤ G * (v - u) := by
    intro k hk u hu v hv huv
    obtain ⟨α, β, hα, hβ, hZ, -⟩ := (hP k hk).beyond
    rw [hE k hk hu, hE k hk hv]
    have hd : ∀ z ∈ Icc u v, HasDerivAt (Z k) (F k z (Z k z)) z := fun z hz => hZ z ⟨by linarith [hz.1, hu.1], by linarith [hz.2, hv.2]⟩
    refine norm_image_sub_le_of_norm_deriv_right_le_segment (f := Z k) (f' := fun z => F k z (Z k z)) (a := u) (b := v)
      (fun z hz => (hd z hz).continuousAt.continuousWithinAt) (fun z hz => (hd z ⟨hz.1, hz.2.le⟩).hasDerivWithinAt) ?_ v ⟨huv, le_refl v⟩
    intro z hz
    have hzk : z ∈ Icc (w k) (w (k + 1)) := ⟨by linarith [hz.1, hu.1], by linarith [hz.2, hv.2]⟩
    exact (hP k hk).bound z hzk _ (by rw [← hE k hk hzk]; exact (hR k hk z hzk).le)
  clear hR
  induction m generalizing x x' with
  | zero =>
    have : x' = x := le_antisymm (by linarith) hxx
    simp [this]
  | succ m ih =>
    have ih' := fun {x x'} => ih (x := x) (x' := x') (fun k hk => hP k (by omega)) (fun k hk => hE k (by omega))
    have hone' : ∀ k < m, ∀ u ∈ Icc (w k) (w (k + 1)), ∀ v ∈ Icc (w k) (w (k + 1)), u ≤ v → ‖Y v - Y u‖ ≤ G * (v - u) :=
      fun k hk => hone k (by omega)
    have hmm := (hP m (Nat.lt_succ_self m)).le
    rcases le_total x' (w m) with h | h
    · exact ih' h0 hxx h hone'
    · rcases le_total x (w m) with h2 | h2
      · have e1 := ih' h0 h2 (le_refl _) hone'
        have e2 := hone m (Nat.lt_succ_self m) (w m) ⟨le_refl _, hmm⟩ x' ⟨h, h1⟩ h
        calc ‖Y x' - Y x‖ = ‖(Y x' - Y (w m)) + (Y (w m) - Y x)‖ := by rw [sub_add_sub_cancel]
          _ ≤ G * (x' - w m) + G * (w m - x) := (norm_add_le _ _).trans (add_le_add e2 e1)
          _ = G * (x' - x) := by ring
      · exact hone m (Nat.lt_succ_self m) x ⟨h2, hxx.trans h1⟩ x' ⟨h, h1⟩ hxx

/-- The error bound at `x` for steps up to `hm`: the one of the smooth case, and a first-order term for each contact with one of
the inner positions `w`; `L` is the Lipschitz constant in the value, `L'` the one in both variables. -/
noncomputable def jumpBound (K : ℕ) (η M B L L' G δ C : ℝ) (m : ℕ) (w : ℕ → ℝ) (hm x : ℝ) : ℝ :=
  ((η * M + 2 * B * L' * δ * hm + C * hm ^ (K + 1)) * (x - w 0) + (B + 1) * G * hm * touched m w x) * Real.exp (2 * B * L * (x - w 0))

/-- Convergence of a method with variable steps that knows nothing about the jumps. -/
theorem pieces_step [FiniteDimensional ℝ E] {K s : ℕ} (hs : K + 2 ≤ s) {a : ℕ → ℕ → ℝ} {b c : ℕ → ℝ} {A B : ℝ} (hb : Bounded s a b A B)
    {f : ℝ → E → E} {F : ℕ → ℝ → E → E} {Y : ℝ → E} {Z : ℕ → ℝ → E} {m : ℕ} (hm0 : 0 < m) {w : ℕ → ℝ} {η δ : ℝ} (hη' : 0 ≤ η) (hδ : 0 ≤ δ)
    (hη : ∀ t : Tr K s, t.ord ≤ K + 1 → |t.weight s a b - 1 / t.density| ≤ η)
    (hc : ∀ i < s, 0 ≤ c i ∧ c i ≤ 1 ∧ 0 ≤ rowSum a i ∧ rowSum a i ≤ 2 ∧ |c i - rowSum a i| ≤ δ) {M R L L' G ρ : ℝ} (hM : 0 ≤ M)
    (hT : Tame f (Icc (w 0) (w m)) R L G) (hL' : 0 ≤ L')
    (hag : ∀ k < m, ∀ x ∈ Icc (w k) (w (k + 1)), (∀ j, 0 < j → j < m → x ≠ w j) → ∀ y, f x y = F k x y)
    (hP : ∀ k < m, Piece K s (F k) (Z k) (w k) (w (k + 1)) M R L' G) (hE : ∀ k < m, EqOn Y (Z k) (Icc (w k) (w (k + 1))))
    (hρ : 0 < ρ) {τ : ℝ} (hτ : 0 < τ) (hR : ∀ z ∈ Icc (w 0) (w m), ‖Y z‖ + ρ + τ ≤ R)
    (hsmall : η * M * (w m - w 0) * Real.exp (2 * B * L * (w m - w 0)) < ρ) :
    ∃ C h0, 0 ≤ C ∧ 0 < h0 ∧ ∀ hm ∈ Ioc 0 h0, ∀ x ∈ Icc (w 0) (w m), jumpBound K η M B L L' G δ C m w hm x ≤ ρ ∧
      ∀ h ∈ Icc 0 hm, x + h ≤ w m → ∀ y, ‖y - Y x‖ ≤ jumpBound K η M B L L' G δ C m w hm x →
        ‖nstep s a b c f x y h - Y (x + h)‖ ≤ jumpBound K η M B L L' G δ C m w hm (x + h) := by
  have hL := hT.lip_nonneg
  have hG := hT.bound_nonneg
  have hA := hb.nonneg
  have hB : 0 ≤ B := (Finset.sum_nonneg fun i _ => abs_nonneg _).trans hb.wt
  have hw0 : ∀ k ≤ m, w 0 ≤ w k := by
    intro k
    induction k with
    | zero => exact fun _ => le_refl _
    | succ k ih => exact fun hk => (ih (by omega)).trans (hP k (by omega)).le
  have hwm : ∀ j k, j + k = m → w k ≤ w m := by
    intro j
    induction j with
    | zero => intro k hk; rw [show k = m by omega]
    | succ j ih => exact fun k hk => ((hP k (by omega)).le).trans (ih (k + 1) (by omega))
  have hin : ∀ k < m, ∀ z ∈ Icc (w k) (w (k + 1)), z ∈ Icc (w 0) (w m) := fun k hk z hz =>
    ⟨(hw0 k hk.le).trans hz.1, hz.2.trans (hwm (m - (k + 1)) (k + 1) (by omega))⟩
  have hRk : ∀ k < m, ∀ z ∈ Icc (w k) (w (k + 1)), ‖Y z‖ < R := fun k hk z hz => by
    have := hR z (hin k hk z hz)
    linarith
  obtain ⟨C, h1, hC, h1pos, hloc⟩ := pieces_local hs hb hη' hδ hη (c := c)
    (fun i hi => ⟨(hc i hi).1, by linarith [(hc i hi).2.1], (hc i hi).2.2⟩) hL' m hP hE hRk
  have hηM : 0 ≤ η * M := mul_nonneg hη' hM
  have hspan : 0 ≤ w m - w 0 := by linarith [hw0 m (le_refl m)]
  set ex := Real.exp (2 * B * L * (w m - w 0)) with hex
  have hexp : 0 < ex := Real.exp_pos _
  set D := (B + 1) * G * (2 * ((m - 1 : ℕ) : ℝ)) with hD
  have hD0 : 0 ≤ D := by positivity
  obtain ⟨h2, h2pos, h2small⟩ : ∃ h2 > 0, ∀ hm ∈ Ioc 0 h2,
      ((η * M + 2 * B * L' * δ * hm + C * hm ^ (K + 1)) * (w m - w 0) + D * hm) * ex ≤ ρ := by
    have ht : Tendsto (fun h : ℝ => ((η * M + 2 * B * L' * δ * h + C * h ^ (K + 1)) * (w m - w 0) + D * h) * ex) (𝓝[>] 0) (𝓝 (η * M * (w m - w 0) * ex)) := by
      have : Continuous fun h : ℝ => ((η * M + 2 * B * L' * δ * h + C * h ^ (K + 1)) * (w m - w 0) + D * h) * ex := by fun_prop
      have := (this.tendsto 0).mono_left (nhdsWithin_le_nhds (s := Ioi (0 : ℝ)))
      simpa using this
    obtain ⟨u, hu, hsub⟩ := mem_nhdsGT_iff_exists_Ioc_subset.1 (ht.eventually (gt_mem_nhds hsmall))
    exact ⟨u, hu, fun hm hhm => (hsub hhm).le⟩
  set h0 := min (min h1 h2) (min (τ / (A * G + 1)) (1 / (2 * (L * A + 1)))) with hh0
  have h0pos : 0 < h0 := by positivity
  refine ⟨C, h0, hC, h0pos, fun hm hhm x hxx => ?_⟩
  have hm1 : hm ≤ h1 := hhm.2.trans ((min_le_left _ _).trans (min_le_left _ _))
  have hm2 : hm ≤ h2 := hhm.2.trans ((min_le_left _ _).trans (min_le_right _ _))
  have hm4 : hm ≤ τ / (A * G + 1) := hhm.2.trans ((min_le_right _ _).trans (min_le_left _ _))
  have hm5 : hm ≤ 1 / (2 * (L * A + 1)) := hhm.2.trans ((min_le_right _ _).trans (min_le_right _ _))
  have hmp := hhm.1.le
  set γ := η * M + 2 * B * L' * δ * hm + C * hm ^ (K + 1) with hγdef
  have hγ : 0 ≤ γ := by positivity
  have hκ : 0 ≤ 2 * B * L := by positivity
  have hDm : 0 ≤ (B + 1) * G * hm := by positivity
  have hxρ : jumpBound K η M B L L' G δ C m w hm x ≤ ρ := by
    refine le_trans ?_ (h2small hm ⟨hhm.1, hm2⟩)
    unfold jumpBound
    rw [← hγdef]
    have hx0 : 0 ≤ x - w 0 := by linarith [hxx.1]
    refine mul_le_mul (add_le_add (mul_le_mul_of_nonneg_left (by linarith [hxx.2]) hγ) ?_) ?_ (Real.exp_pos _).le ?_
    · calc (B + 1) * G * hm * touched m w x ≤ (B + 1) * G * hm * (2 * ((m - 1 : ℕ) : ℝ)) := mul_le_mul_of_nonneg_left (touched_le m w x) hDm
        _ = D * hm := by rw [hD]; ring
    · exact Real.exp_le_exp.2 (mul_le_mul_of_nonneg_left (by linarith [hxx.2]) hκ)
    · positivity
  refine ⟨hxρ, fun h hh hxh y hy => ?_⟩
  rcases hh.1.eq_or_lt with rfl | hpos
  · have e : nstep s a b c f x y 0 = y := by simp [nstep]
    rw [e, add_zero]
    exact hy
  have hnode : ∀ i < s, x + c i * h ∈ Icc x (x + h) := by
    intro i hi
    obtain ⟨c0, c1, -⟩ := hc i hi
    exact ⟨by have := mul_nonneg c0 hh.1; linarith, by have := mul_le_of_le_one_left hh.1 c1; linarith⟩
  have hnode' : ∀ i < s, x + c i * h ∈ Icc (w 0) (w m) := fun i hi =>
    ⟨hxx.1.trans (hnode i hi).1, (hnode i hi).2.trans hxh⟩
  have hAG : h * (A * G) ≤ τ := by
    rw [le_div_iff₀ (by positivity)] at hm4
    calc h * (A * G) ≤ hm * (A * G + 1) := mul_le_mul hh.2 (by linarith) (by positivity) hmp
      _ ≤ τ := hm4
  have hLA : h * (L * A) ≤ 1 / 2 := by
    rw [le_div_iff₀ (by positivity)] at hm5
    have : h * (L * A) ≤ hm * (L * A + 1) := mul_le_mul hh.2 (by linarith) (by positivity) hmp
    linarith
  have hYx := hR x hxx
  have hyR : ‖y‖ + h * (A * G) ≤ R := by
    have h3 : ‖y‖ ≤ ‖y - Y x‖ + ‖Y x‖ := by
      have := norm_add_le (y - Y x) (Y x)
      rwa [sub_add_cancel] at this
    linarith
  have hYR : ‖Y x‖ + h * (A * G) ≤ R := by linarith
  have stab := tame_stable hb hT hh.1 hnode' hyR hYR hLA
  -- the error of one step from the solution
  have hloc' : ‖nstep s a b c f x (Y x) h - Y (x + h)‖ ≤ γ * h + (B + 1) * G * hm * (touched m w (x + h) - touched m w x) := by
    by_cases hit : ∃ k, 0 < k ∧ k < m ∧ w k ∈ Icc x (x + h)
    · obtain ⟨k, hk0, hk, hkw⟩ := hit
      have h3 := touched_hit (m := m) (w := w) (show x < x + h by linarith) hk0 hk hkw
      have h4 := tame_small hb hT hh.1 hnode' hYR
      have h5 := pieces_speed hG hP hE hRk hxx.1 (show x ≤ x + h by linarith) hxh
      rw [add_sub_cancel_left] at h5
      have h6 : ‖nstep s a b c f x (Y x) h - Y (x + h)‖ ≤ B * G * h + G * h := by
        have := norm_sub_le (nstep s a b c f x (Y x) h - Y x) (Y (x + h) - Y x)
        rw [sub_sub_sub_cancel_right] at this
        linarith
      have h7 : B * G * h + G * h ≤ (B + 1) * G * hm := by
        have := mul_le_mul_of_nonneg_left hh.2 (show 0 ≤ (B + 1) * G by positivity)
        linarith
      have h8 : (B + 1) * G * hm ≤ (B + 1) * G * hm * (touched m w (x + h) - touched m w x) :=
        le_mul_of_one_le_right hDm (by linarith)
      have h9 := mul_nonneg hγ hh.1
      linarith
    · push Not at hit
      obtain ⟨k, hk, hk1, hk2⟩ := find_open hxx.1 hxh hh.1 hm0 hit
      rw [nstep_congr (g := F k) (Y x) fun i hi y => hag k hk _ ⟨by linarith [(hnode i hi).1], by linarith [(hnode i hi).2]⟩
        (fun j hj0 hj e => hit j hj0 hj (e ▸ hnode i hi)) y]
      have h3 := hloc hm ⟨hhm.1, hm1⟩ k hk x ⟨hk1, by linarith⟩ h hh hk2
      have h4 := mul_nonneg hDm (sub_nonneg.2 (touched_mono m w (show x ≤ x + h by linarith)))
      linarith
  unfold jumpBound at hy ⊢
  rw [← hγdef] at hy ⊢
  set T := touched m w x
  set T' := touched m w (x + h)
  have hTT : T ≤ T' := touched_mono m w (show x ≤ x + h by linarith)
  have e1 : 1 + 2 * B * L * h ≤ Real.exp (2 * B * L * h) := by
    have := Real.add_one_le_exp (2 * B * L * h)
    linarith
  have e2 : Real.exp (2 * B * L * (x + h - w 0)) = Real.exp (2 * B * L * h) * Real.exp (2 * B * L * (x - w 0)) := by rw [← Real.exp_add]; ring_nf
  have e3 : 1 ≤ Real.exp (2 * B * L * (x + h - w 0)) := Real.one_le_exp (mul_nonneg hκ (by linarith [hxx.1]))
  have e4 : 0 ≤ γ * h + (B + 1) * G * hm * (T' - T) := add_nonneg (mul_nonneg hγ hh.1) (mul_nonneg hDm (by linarith))
  calc ‖nstep s a b c f x y h - Y (x + h)‖ = ‖(nstep s a b c f x y h - nstep s a b c f x (Y x) h) + (nstep s a b c f x (Y x) h - Y (x + h))‖ := by
        rw [sub_add_sub_cancel]
    _ ≤ (1 + 2 * B * L * h) * ‖y - Y x‖ + (γ * h + (B + 1) * G * hm * (T' - T)) := (norm_add_le _ _).trans (add_le_add stab hloc')
    _ ≤ Real.exp (2 * B * L * h) * ((γ * (x - w 0) + (B + 1) * G * hm * T) * Real.exp (2 * B * L * (x - w 0))) +
        (γ * h + (B + 1) * G * hm * (T' - T)) * Real.exp (2 * B * L * (x + h - w 0)) := by
        refine add_le_add (mul_le_mul e1 hy (norm_nonneg _) (Real.exp_pos _).le) ?_
        exact le_mul_of_one_le_right e4 e3
    _ = _ := by rw [e2]; ring

end PyNLO.RK
