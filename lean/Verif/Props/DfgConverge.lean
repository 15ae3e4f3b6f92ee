import Verif.Lemmas.DfgRhs
import Verif.Lemmas.OdePieces
import Verif.Props.OdeJump
import Mathlib.Analysis.Complex.ExponentialBounds

/-!
# C121: integrations of three-wave mixing in a waveguide converge

The differential equation of a waveguide crystal, poled or not, has exactly one solution for any input; it keeps the total power.
An integration that returns has reached it up to the rounding of the literals of the method, a first-order term for each domain wall
and a higher power of the longest step.
-/

open scoped BigOperators Topology ContDiff NNReal
open Set

namespace PyNLO.Dfg

open Beam

variable {N : ℕ}

/-! ## The problem -/

/-- A crystal with a waveguide, on matched grids of an even number of frequencies, without self-phase modulation, in one of the modes
for which the nonlinear coefficient is defined. -/
structure Works (q : Prob N) (squm : ℝ) : Prop where
  even : N % 2 = 0
  area : 0 < squm
  beams : q.beams = .waveguide squm
  index : ∀ j, 0 < q.p.n j ∧ 0 < q.s.n j ∧ 0 < q.i.n j
  spm : q.disableSPM = true
  matched : Matched q
  mode : q.mode = "PP" ∨ q.mode = "BPM" ∨ q.mode = "simple"
  len : 0 < q.len

/-- The right-hand side that the integrator evaluates; it does not depend on the FFT buffers (C104). -/
noncomputable def Prob.rhs (q : Prob N) : Ode.Rhs (3 * N) := fun z y =>
  match (q.deriv (FftC.zeros N) z y).1 with
  | .ok d => d
  | .error _ => 0

/-- The constants of the three waves. -/
noncomputable def Prob.wp (q : Prob N) (squm : ℝ) : Spec.Wave N := q.p.spec q.speed ((WG.init squm).rtPToA q.p.n)
noncomputable def Prob.ws (q : Prob N) (squm : ℝ) : Spec.Wave N := q.s.spec q.speed ((WG.init squm).rtPToA q.s.n)
noncomputable def Prob.wi (q : Prob N) (squm : ℝ) : Spec.Wave N := q.i.spec q.speed ((WG.init squm).rtPToA q.i.n)

open Classical in
/-- The sign of the nonlinear coefficient. -/
noncomputable def Prob.sign (q : Prob N) (z : ℝ) : ℝ := if q.mode = "PP" then poling q.domains z else 1

open Classical in
/-- The domain boundaries of a poled crystal. -/
noncomputable def Prob.walls (q : Prob N) : Finset ℝ :=
  if q.mode = "PP" then (q.domains.1 ++ q.domains.2).toFinset.filter (fun s => s ∈ Icc 0 q.len) else ∅

theorem walls_mem (q : Prob N) : ∀ s ∈ q.walls, s ∈ Icc 0 q.len := by
  intro s hs
  unfold Prob.walls at hs
  split_ifs at hs
  · exact (Finset.mem_filter.1 hs).2
  · simp at hs

theorem sign_abs (q : Prob N) (z : ℝ) : |q.sign z| = 1 := by
  unfold Prob.sign poling
  split_ifs <;> simp

/-- The sign does not change between positions of the crystal that no domain boundary separates. -/
theorem sign_between (q : Prob N) {x x' : ℝ} (hx : x ∈ Icc 0 q.len) (hx' : x' ∈ Icc 0 q.len) (h : x ∉ q.walls) (h' : x' ∉ q.walls)
    (hb : ∀ s ∈ q.walls, s < x ↔ s < x') : q.sign x = q.sign x' := by
  unfold Prob.sign
  split_ifs with hm
  swap
  · rfl
  have hw : q.walls = (q.domains.1 ++ q.domains.2).toFinset.filter (fun s => s ∈ Icc 0 q.len) := by rw [Prob.walls, if_pos hm]
  have hall : ∀ s ∈ q.domains.1 ++ q.domains.2, (s < x ↔ s < x') ∧ (x < s ↔ x' < s) := by
    intro s hs
    by_cases hi : s ∈ Icc 0 q.len
    · have hsw : s ∈ q.walls := by rw [hw]; exact Finset.mem_filter.2 ⟨List.mem_toFinset.2 hs, hi⟩
      have h1 : s ≠ x := fun e => h (e ▸ hsw)
      have h2 : s ≠ x' := fun e => h' (e ▸ hsw)
      have h3 := hb s hsw
      refine ⟨h3, ?_, ?_⟩
      · intro h4
        exact lt_of_le_of_ne (not_lt.1 fun h5 => absurd (h3.2 h5) (not_lt.2 h4.le)) h2.symm
      · intro h4
        exact lt_of_le_of_ne (not_lt.1 fun h5 => absurd (h3.1 h5) (not_lt.2 h4.le)) h1.symm
    · have hi' : s < 0 ∨ q.len < s := by
        by_contra hc
        push Not at hc
        exact hi ⟨hc.1, hc.2⟩
      rcases hi' with hi' | hi'
      · exact ⟨⟨fun _ => by linarith [hx'.1], fun _ => by linarith [hx.1]⟩, ⟨fun _ => by linarith [hx.1], fun _ => by linarith [hx'.1]⟩⟩
      · exact ⟨⟨fun _ => by linarith [hx.2], fun _ => by linarith [hx'.2]⟩, ⟨fun _ => by linarith [hx'.2], fun _ => by linarith [hx.2]⟩⟩
  have hiff : (∃ d ∈ q.domains.1.zip q.domains.2, d.1 < x ∧ x < d.2) ↔ ∃ d ∈ q.domains.1.zip q.domains.2, d.1 < x' ∧ x' < d.2 := by
    refine exists_congr fun d => and_congr_right fun hd => ?_
    obtain ⟨m1, m2⟩ := List.of_mem_zip (a := d.1) (b := d.2) hd
    rw [(hall d.1 (List.mem_append_left _ m1)).1, (hall d.2 (List.mem_append_right _ m2)).2]
  unfold poling
  simp only [hiff]

variable {q : Prob N} {squm : ℝ}

theorem Works.deffAt (W : Works q squm) (z : ℝ) : q.deffAt z = .ok (q.sign z * q.deff) := by
  unfold Prob.deffAt Prob.sign
  rcases W.mode with h | h | h <;> simp [h]

/-- The derivative is that of the coupled equations. -/
theorem Works.deriv (W : Works q squm) (fc : FftC N) (z : ℝ) (y : Fin (3 * N) → ℂ) :
    (q.deriv fc z y).1 = .ok (threeWave (q.wp squm) (q.ws squm) (q.wi squm) (q.sign z * q.deff) z y) :=
  deriv_threeWave W.even W.beams W.spm (W.deffAt z) fc y

theorem Works.rhs (W : Works q squm) (z : ℝ) (y : Fin (3 * N) → ℂ) :
    q.rhs z y = threeWave (q.wp squm) (q.ws squm) (q.wi squm) (q.sign z * q.deff) z y := by
  unfold Prob.rhs
  rw [W.deriv]

theorem sum_parts (g : Fin (3 * N) → ℝ) : ∑ k, g k = ∑ j : Fin N, g ⟨j, by omega⟩ + ∑ j : Fin N, g ⟨N + j, by omega⟩ + ∑ j : Fin N, g ⟨2 * N + j, by omega⟩ := by
  have e : 3 * N = N + N + N := by ring
  rw [← (finCongr e.symm).sum_comp, Fin.sum_univ_add, Fin.sum_univ_add]
  congr 1
  refine Finset.sum_congr rfl fun j _ => ?_
  congr 1
  apply Fin.ext
  simp
  omega

/-- The coupled equations keep the total power, whatever the nonlinear coefficient. -/
theorem Works.rate (W : Works q squm) (d z : ℝ) (y : Fin (3 * N) → ℂ) :
    OdeGlobal.rate y (threeWave (q.wp squm) (q.ws squm) (q.wi squm) d z y) = 0 := by
  set q' : Prob N := { q with mode := "simple", deff := d } with hq
  have hd : q'.deffAt z = .ok d := by simp [hq, Prob.deffAt]
  have h1 := deriv_threeWave W.even (q := q') W.beams W.spm hd (FftC.zeros N) y
  have h2 := C70_power W.even (q := q') ⟨⟨squm, W.area, W.beams⟩, W.index⟩ W.matched h1
  rw [← h2]
  unfold OdeGlobal.rate Spec.rate
  rw [sum_parts]
  have hi : ∀ a b : ℂ, (2 : ℝ) * inner ℝ a b = 1 * (2 * ((starRingEnd ℂ) a * b).re) := by
    intro a b
    rw [Complex.inner, mul_comm b]
    ring
  simp only [hi]
  rfl

/-! ## The solution -/

open Classical in
/-- The sign on the piece `[a, b]`. -/
noncomputable def Prob.pieceSign (q : Prob N) (a b : ℝ) : ℝ :=
  if h : ∃ x ∈ Icc a b, x ∉ q.walls then q.sign h.choose else 1

theorem pieceSign_abs (q : Prob N) (a b : ℝ) : |q.pieceSign a b| = 1 := by
  unfold Prob.pieceSign
  split_ifs
  · exact sign_abs _ _
  · simp

variable {m : ℕ} {w : ℕ → ℝ}

theorem pieceSign_eq (Q : OdeGlobal.Walls q.walls 0 q.len m w) {k : ℕ} (hk : k < m) {x : ℝ} (hx : x ∈ Icc (w k) (w (k + 1))) (hxw : x ∉ q.walls) :
    q.sign x = q.pieceSign (w k) (w (k + 1)) := by
  have h : ∃ x ∈ Icc (w k) (w (k + 1)), x ∉ q.walls := ⟨x, hx, hxw⟩
  rw [Prob.pieceSign, dif_pos h]
  obtain ⟨h1, h2⟩ := h.choose_spec
  have hsub : Icc (w k) (w (k + 1)) ⊆ Icc 0 q.len := Icc_subset_Icc (Q.mem hk.le).1 (Q.mem (Nat.succ_le_of_lt hk)).2
  exact sign_between q (hsub hx) (hsub h1) hxw h2 fun s hs => Q.between hk hx h1 hxw h2 hs

/-- The right-hand side of a piece. -/
noncomputable def Prob.piece (q : Prob N) (squm : ℝ) (w : ℕ → ℝ) (k : ℕ) : Ode.Rhs (3 * N) :=
  threeWave (q.wp squm) (q.ws squm) (q.wi squm) (q.pieceSign (w k) (w (k + 1)) * q.deff)

theorem Works.solution (W : Works q squm) (Q : OdeGlobal.Walls q.walls 0 q.len m w) (y0 : Fin (3 * N) → ℂ) :
    ∃ (Y : ℝ → Fin (3 * N) → ℂ) (Z : ℕ → ℝ → Fin (3 * N) → ℂ), Y 0 = y0 ∧ ∀ k < m, EqOn Y (Z k) (Icc (w k) (w (k + 1))) ∧
      ∀ z ∈ Ioo (w k - (q.len + 1)) (w k + (q.len + 1)), HasDerivAt (Z k) (q.piece squm w k z (Z k z)) z := by
  have hex : ∀ (k : ℕ) (A : Fin (3 * N) → ℂ), ∃ Z : ℝ → Fin (3 * N) → ℂ, Z (w k) = A ∧
      ∀ z ∈ Ioo (w k - (q.len + 1)) (w k + (q.len + 1)), HasDerivAt Z (q.piece squm w k z (Z z)) z := fun k A =>
    OdeGlobal.exists_solution_from (f := q.piece squm w k) ((threeWave_smooth _ _ _ _).of_le (by exact_mod_cast le_top)) (K := 0)
      (fun z A => by rw [Prob.piece, W.rate]; simp) (w k) A (by linarith [W.len])
  choose sol h0 hs using hex
  let v : ℕ → Fin (3 * N) → ℂ := fun k => Nat.rec y0 (fun k a => sol k a (w (k + 1))) k
  obtain ⟨Y, hY⟩ := OdeGlobal.glue (w := w) (fun k => sol k (v k)) (fun k => h0 _ _) m Q.le
  refine ⟨Y, fun k => sol k (v k), ?_, fun k hk => ⟨hY k hk, hs k (v k)⟩⟩
  have := hY 0 Q.pos ⟨le_refl _, Q.le 0 Q.pos⟩
  rw [Q.first] at this
  rw [this]
  have h1 := h0 0 (v 0)
  rw [Q.first] at h1
  exact h1

theorem wall_of_lt (Q : OdeGlobal.Walls q.walls 0 q.len m w) {k : ℕ} (hk : k ≤ m) (h0 : 0 < w k) (h1 : w k < q.len) : w k ∈ q.walls := by
  refine Q.inner k (Nat.pos_of_ne_zero ?_) (lt_of_le_of_ne hk ?_)
  · rintro rfl; rw [Q.first] at h0; exact lt_irrefl _ h0
  · rintro rfl; rw [Q.last] at h1; exact lt_irrefl _ h1

theorem Works.solves (W : Works q squm) (Q : OdeGlobal.Walls q.walls 0 q.len m w) {Y : ℝ → Fin (3 * N) → ℂ} {Z : ℕ → ℝ → Fin (3 * N) → ℂ}
    (h : ∀ k < m, EqOn Y (Z k) (Icc (w k) (w (k + 1))) ∧
      ∀ z ∈ Ioo (w k - (q.len + 1)) (w k + (q.len + 1)), HasDerivAt (Z k) (q.piece squm w k z (Z k z)) z) : Solves q Y 0 q.len := by
  have hin : ∀ k < m, ∀ z ∈ Icc (w k) (w (k + 1)), z ∈ Ioo (w k - (q.len + 1)) (w k + (q.len + 1)) := by
    intro k hk z hz
    have h1 := Q.mem hk.le
    have h2 := Q.mem (Nat.succ_le_of_lt hk)
    exact ⟨by linarith [hz.1, W.len], by linarith [hz.2, h1.1, h2.2]⟩
  refine ⟨Q.continuousOn fun k hk => ?_, q.walls, q.walls.countable_toSet, fun z hz => ?_⟩
  · exact ContinuousOn.congr (fun z hz => ((h k hk).2 z (hin k hk z hz)).continuousAt.continuousWithinAt) (h k hk).1
  · obtain ⟨k, hk, hzk⟩ := Q.piece ⟨hz.1.1.le, hz.1.2.le⟩
    have hzw : z ∉ q.walls := hz.2
    have h1 : w k < z := lt_of_le_of_ne hzk.1 fun e => hzw (e ▸ wall_of_lt Q hk.le (e ▸ hz.1.1) (e ▸ hz.1.2))
    have h2 : z < w (k + 1) := lt_of_le_of_ne hzk.2 fun e => hzw (e ▸ wall_of_lt Q (Nat.succ_le_of_lt hk) (e ▸ hz.1.1) (e ▸ hz.1.2))
    refine ⟨FftC.zeros N, _, W.deriv _ z (Y z), ?_⟩
    rw [pieceSign_eq Q hk hzk hzw, (h k hk).1 hzk]
    exact ((h k hk).2 z (hin k hk z hzk)).congr_of_eventuallyEq
      (Filter.mem_of_superset (Icc_mem_nhds h1 h2) fun x hx => (h k hk).1 hx)

theorem Works.unique (W : Works q squm) (Q : OdeGlobal.Walls q.walls 0 q.len m w) {Y Y' : ℝ → Fin (3 * N) → ℂ}
    (h : Solves q Y 0 q.len) (h' : Solves q Y' 0 q.len) (h0 : Y' 0 = Y 0) : EqOn Y' Y (Icc 0 q.len) := by
  have hstep : ∀ k < m, Y' (w k) = Y (w k) → EqOn Y' Y (Icc (w k) (w (k + 1))) := by
    intro k hk hs
    have hsub : Icc (w k) (w (k + 1)) ⊆ Icc 0 q.len := Icc_subset_Icc (Q.mem hk.le).1 (Q.mem (Nat.succ_le_of_lt hk)).2
    have hc : ContDiff ℝ 1 fun u : ℝ × (Fin (3 * N) → ℂ) => q.piece squm w k u.1 u.2 := (threeWave_smooth _ _ _ _).of_le (by exact_mod_cast le_top)
    have hder : ∀ X : ℝ → Fin (3 * N) → ℂ, Solves q X 0 q.len → ∃ E : Set ℝ, E.Countable ∧
        ∀ z ∈ Ioo (w k) (w (k + 1)) \ E, HasDerivAt X (q.piece squm w k z (X z)) z := by
      rintro X ⟨-, E, hE, he⟩
      refine ⟨E, hE, fun z hz => ?_⟩
      have hz0 : z ∈ Ioo 0 q.len := ⟨lt_of_le_of_lt (Q.mem hk.le).1 hz.1.1, lt_of_lt_of_le hz.1.2 (Q.mem (Nat.succ_le_of_lt hk)).2⟩
      obtain ⟨fc, d, hd, hX⟩ := he z ⟨hz0, hz.2⟩
      rw [W.deriv, pieceSign_eq Q hk ⟨hz.1.1.le, hz.1.2.le⟩ (fun hw => Q.none hk hw hz.1)] at hd
      rw [← Except.ok.inj hd] at hX
      exact hX
    obtain ⟨E, hE, he⟩ := hder Y h
    obtain ⟨E', hE', he'⟩ := hder Y' h'
    refine OdeGlobal.unique_piece (F := q.piece squm w k) hc.continuous (Q.le k hk) (fun R => ?_) (h'.cont.mono hsub) (h.cont.mono hsub) hE' hE he' he hs
    obtain ⟨L, hL, hl⟩ := OdeGlobal.lipschitz_box hc (w k) (w (k + 1)) R
    refine ⟨⟨L, hL⟩, fun t ht => LipschitzOnWith.of_dist_le_mul fun a ha b hb => ?_⟩
    have := hl t ht t ht a b (mem_closedBall_zero_iff.1 ha) (mem_closedBall_zero_iff.1 hb)
    rw [sub_self, abs_zero, zero_add] at this
    rw [dist_eq_norm, dist_eq_norm]
    exact this
  have hw : ∀ k ≤ m, Y' (w k) = Y (w k) := by
    intro k
    induction k with
    | zero => intro _; rw [Q.first, h0]
    | succ k ih => exact fun hk => hstep k hk (ih (by omega)) ⟨Q.le k hk, le_refl _⟩
  intro z hz
  obtain ⟨k, hk, hzk⟩ := Q.piece hz
  exact hstep k hk (hw k hk.le) hzk

theorem Solves.mono {y : ℝ → Fin (3 * N) → ℂ} {a b b' : ℝ} (h : Solves q y a b) (hb : b' ≤ b) : Solves q y a b' := by
  obtain ⟨hc, E, hE, he⟩ := h
  exact ⟨hc.mono (Icc_subset_Icc_right hb), E, hE, fun z hz => he z ⟨⟨hz.1.1, hz.1.2.trans_le hb⟩, hz.2⟩⟩

theorem Works.power (W : Works q squm) {Y : ℝ → Fin (3 * N) → ℂ} (h : Solves q Y 0 q.len) {z : ℝ} (hz : z ∈ Icc 0 q.len) :
    ∑ k, ‖Y z k‖ ^ 2 = ∑ k, ‖Y 0 k‖ ^ 2 := by
  have := conserved hz.1 (h.mono hz.2) (fun _ => 1) (fun _ => 1) (fun _ => 1) fun fc z d hd =>
    C70_power W.even ⟨⟨squm, W.area, W.beams⟩, W.index⟩ W.matched hd
  rw [sum_parts, sum_parts]
  simp only [Spec.weighted, one_mul] at this
  exact this

/-- C121: for every input the equations of a waveguide crystal have exactly one solution, over its whole length and through all its
domain walls; it keeps the total power. -/
theorem C121_solution (W : Works q squm) (y0 : Fin (3 * N) → ℂ) : ∃ Y, Y 0 = y0 ∧ Solves q Y 0 q.len ∧
    (∀ Y', Solves q Y' 0 q.len → Y' 0 = y0 → EqOn Y' Y (Icc 0 q.len)) ∧ ∀ z ∈ Icc 0 q.len, ∑ k, ‖Y z k‖ ^ 2 = ∑ k, ‖y0 k‖ ^ 2 := by
  obtain ⟨m, w, Q⟩ := OdeGlobal.walls_exist q.walls W.len.le (walls_mem q)
  obtain ⟨Y, Z, h0, h⟩ := W.solution Q y0
  have hs := W.solves Q h
  exact ⟨Y, h0, hs, fun Y' h' h0' => W.unique Q hs h' (h0'.trans h0.symm), fun z hz => by rw [W.power hs hz, h0]⟩

/-! ## The integration -/

theorem norm_le_root {n : ℕ} (y : Fin n → ℂ) : ‖y‖ ≤ √(∑ k, ‖y k‖ ^ 2) := by
  refine (pi_norm_le_iff_of_nonneg (Real.sqrt_nonneg _)).2 fun j => Real.le_sqrt_of_sq_le ?_
  exact Finset.single_le_sum (f := fun j => ‖y j‖ ^ 2) (fun i _ => sq_nonneg _) (Finset.mem_univ j)

theorem Works.jumpEqn {K : ℕ} (W : Works q squm) (Q : OdeGlobal.Walls q.walls 0 q.len m w) {κ b R ρ M : ℝ}
    (S : Strength (q.wp squm) (q.ws squm) (q.wi squm) |q.deff| κ)
    (hb : ∀ j, |(q.wp squm).β j| ≤ b ∧ |(q.ws squm).β j| ≤ b ∧ |(q.wi squm).β j| ≤ b) (hb0 : 0 ≤ b) {Y : ℝ → Fin (3 * N) → ℂ} {Z : ℕ → ℝ → Fin (3 * N) → ℂ}
    (h : ∀ k < m, EqOn Y (Z k) (Icc (w k) (w (k + 1))) ∧
      ∀ z ∈ Ioo (w k - (q.len + 1)) (w k + (q.len + 1)), HasDerivAt (Z k) (q.piece squm w k z (Z k z)) z)
    (hM0 : 0 ≤ M) (hM : ∀ d, |d| = |q.deff| → ∀ z ∈ Icc 0 q.len, ∀ y, ‖y‖ ≤ R →
      RK.diffSum K 12 (RK.aug (threeWave (q.wp squm) (q.ws squm) (q.wi squm) d)) (z, y) ≤ M)
    (hρ : 0 < ρ) (hR : √(∑ k, ‖Y 0 k‖ ^ 2) + ρ < R) (hsm : q.len * Real.exp (26 * (2 * N * κ * R) * q.len) * (1e-27 * M) < ρ) :
    Ode.JumpEqn K q.rhs Y m w (q.piece squm w) M (2 * N * κ * R) (2 * N * κ * R + 3 * N * κ * R ^ 2 * b) (N * κ * R ^ 2) := by
  have hκ := S.nonneg
  have hR0 : 0 ≤ R := by have := Real.sqrt_nonneg (∑ k, ‖Y 0 k‖ ^ 2); linarith
  have hs := W.solves Q h
  have hY : ∀ z ∈ Icc 0 q.len, ‖Y z‖ ≤ √(∑ k, ‖Y 0 k‖ ^ 2) := fun z hz => by rw [← W.power hs hz]; exact norm_le_root _
  have hpd : ∀ k, |q.pieceSign (w k) (w (k + 1)) * q.deff| = |q.deff| := fun k => by rw [abs_mul, pieceSign_abs, one_mul]
  have hsd : ∀ z, |q.sign z * q.deff| = |q.deff| := fun k => by rw [abs_mul, sign_abs, one_mul]
  have hsub : ∀ k < m, Icc (w k) (w (k + 1)) ⊆ Icc 0 q.len := fun k hk => Icc_subset_Icc (Q.mem hk.le).1 (Q.mem (Nat.succ_le_of_lt hk)).2
  have hG : ∀ d z y, |d| = |q.deff| → ‖y‖ ≤ R → ‖threeWave (q.wp squm) (q.ws squm) (q.wi squm) d z y‖ ≤ N * κ * R ^ 2 := fun d z y hd hy =>
    (threeWave_le S hd.le z y).trans (mul_le_mul_of_nonneg_left (pow_le_pow_left₀ (norm_nonneg _) hy 2) (by positivity))
  have hL : ∀ d z y y', |d| = |q.deff| → ‖y‖ ≤ R → ‖y'‖ ≤ R → ‖threeWave (q.wp squm) (q.ws squm) (q.wi squm) d z y -
      threeWave (q.wp squm) (q.ws squm) (q.wi squm) d z y'‖ ≤ 2 * N * κ * R * ‖y - y'‖ := fun d z y y' hd hy hy' => by
    refine (threeWave_lip S hd.le z y y').trans (mul_le_mul_of_nonneg_right ?_ (norm_nonneg _))
    calc N * κ * (‖y‖ + ‖y'‖) ≤ N * κ * (R + R) := mul_le_mul_of_nonneg_left (by linarith) (by positivity)
      _ = _ := by ring
  refine ⟨Q.pos, Q.le, fun k _ => threeWave_smooth _ _ _ _, fun k hk x hx hj y => ?_, fun k hk z hz => ?_,
    ⟨hM0, by positivity, by positivity, by positivity⟩, R, ρ, R - ρ - √(∑ k, ‖Y 0 k‖ ^ 2), hρ, by linarith, fun z hz => ?_, fun x _ y hy => ?_,
    fun k _ x _ y hy => hG _ x y (hpd k) hy, fun k hk => ?_, ?_⟩
  · rw [W.rhs, pieceSign_eq Q hk hx, Prob.piece]
    intro hw
    obtain ⟨j, j0, jm, e⟩ := Q.hit x hw
    exact hj j j0 jm e.symm
  · exact hM _ (hpd k) z (hsub k hk hz) _ ((hY z (hsub k hk hz)).trans (by linarith))
  · rw [Q.first, Q.last] at hz
    have := hY z hz
    linarith
  · refine ⟨by rw [W.rhs]; exact hG _ x y (hsd x) hy, fun y' hy' => ?_⟩
    rw [W.rhs, W.rhs]
    exact hL _ x y y' (hsd x) hy hy'
  · refine ⟨w k - (q.len + 1), w k + (q.len + 1), Z k, by linarith [W.len], ?_, (h k hk).1, (h k hk).2, fun x _ x' _ y y' hy hy' => ?_⟩
    · have h1 := (Q.mem hk.le).1
      have h2 := (Q.mem (Nat.succ_le_of_lt hk)).2
      linarith
    · have h1 := hL _ x y y' (hpd k) hy hy'
      have h2 := threeWave_lipz S (hpd k).le hb hb0 x x' y'
      have h3 : 3 * (N * κ * ‖y'‖ ^ 2) * b * |x - x'| ≤ 3 * N * κ * R ^ 2 * b * |x - x'| := by
        refine mul_le_mul_of_nonneg_right (mul_le_mul_of_nonneg_right ?_ hb0) (abs_nonneg _)
        have := mul_le_mul_of_nonneg_left (pow_le_pow_left₀ (norm_nonneg _) hy' 2) (show 0 ≤ N * κ by positivity)
        linarith
      have h4 : 0 ≤ 2 * N * κ * R * |x - x'| := by positivity
      have h5 : 0 ≤ 3 * N * κ * R ^ 2 * b * ‖y - y'‖ := by positivity
      have h6 := norm_sub_le_norm_sub_add_norm_sub (q.piece squm w k x y) (q.piece squm w k x y') (q.piece squm w k x' y')
      unfold Prob.piece at h6 ⊢
      linarith
  · rw [Q.first, Q.last, sub_zero]
    exact hsm

/-- The error of an integration of the crystal: the rounding of the literals, the first order of `C120_bound` for each wall, and the
order `K + 1` elsewhere. -/
noncomputable def Prob.allowed (q : Prob N) (K : ℕ) (κ b R M C hm : ℝ) : ℝ :=
  Real.exp (26 * (2 * N * κ * R) * q.len) * (q.len * (1e-27 * M + 2.6e-27 * (2 * N * κ * R + 3 * N * κ * R ^ 2 * b) * hm + C * hm ^ (K + 1)) +
    28 * q.walls.card * (N * κ * R ^ 2) * hm)

/-- C121: an integration of a waveguide crystal that returns ends within the allowed error of the solution, whatever the tolerances,
the first step, the output grid and the step control, provided that no step was longer than `hm`.  `κ` bounds the coupling of any
three frequencies, `b` their propagation constants in the frame of reference, `R` the amplitudes, and `M` the elementary differentials
up to order `K + 1` of the equations. -/
theorem C121_order {K : ℕ} (hK : K ≤ 7) (W : Works q squm) {κ b R ρ M : ℝ} (S : Strength (q.wp squm) (q.ws squm) (q.wi squm) |q.deff| κ)
    (hb : ∀ j, |(q.wp squm).β j| ≤ b ∧ |(q.ws squm).β j| ≤ b ∧ |(q.wi squm).β j| ≤ b) (hb0 : 0 ≤ b) (y0 : Fin (3 * N) → ℂ)
    (hM0 : 0 ≤ M) (hM : ∀ d, |d| = |q.deff| → ∀ z ∈ Icc 0 q.len, ∀ y, ‖y‖ ≤ R →
      RK.diffSum K 12 (RK.aug (threeWave (q.wp squm) (q.ws squm) (q.wi squm) d)) (z, y) ≤ M)
    (hρ : 0 < ρ) (hR : √(∑ k, ‖y0 k‖ ^ 2) + ρ < R) (hsm : q.len * Real.exp (26 * (2 * N * κ * R) * q.len) * (1e-27 * M) < ρ) :
    ∃ C h0, 0 ≤ C ∧ 0 < h0 ∧ ∀ hm ∈ Ioc 0 h0, ∀ (p : Ode.Prob (3 * N)) (con : Ode.Con) (h1 hmin : ℝ) (out : Ode.Out (3 * N)) (o' : Ode.Ode (3 * N)),
      p.f = q.rhs → Ode.Rounds p.fl → out.Usable → (Ode.Ode.new con y0 0 q.len h1 hmin out).integrate p = some (.ok (), o') →
      Ode.StepsLe hm 0 o'.visited → ∀ Y, Solves q Y 0 q.len → Y 0 = y0 →
      ‖o'.ystart - Y q.len‖ ≤ q.allowed K κ b R M C hm := by
  obtain ⟨m, w, Q⟩ := OdeGlobal.walls_exist q.walls W.len.le (walls_mem q)
  obtain ⟨Y0, Z, h0, h⟩ := W.solution Q y0
  have hs := W.solves Q h
  subst h0
  have E := W.jumpEqn Q S hb hb0 h hM0 hM hρ hR hsm
  obtain ⟨C, h0, hC, h0pos, hc⟩ := Ode.C120_converges hK E
  refine ⟨C, h0, hC, h0pos, fun hm hhm p con h1 hmin out o' hp hfl ho hr hst Y hY hY0 => ?_⟩
  have h2 := W.unique Q hs hY hY0 ⟨W.len.le, le_refl _⟩
  simp only [Q.first, Q.last] at hc
  refine h2 ▸ ((hc hm hhm p con h1 hmin out o' hp hfl ho hr hst).1.trans ((Ode.C120_bound K m w E.nonneg.2.2.2 hhm.1.le _).trans (le_of_eq ?_)))
  rw [Q.first, sub_zero, Q.card, Nat.add_sub_cancel, Prob.allowed]

/-- C121 with explicit constants: the rounding of the literals and a multiple of the longest step. -/
theorem C121_converges (W : Works q squm) {κ R ρ : ℝ} (S : Strength (q.wp squm) (q.ws squm) (q.wi squm) |q.deff| κ) (y0 : Fin (3 * N) → ℂ)
    (hρ : 0 < ρ) (hR : √(∑ k, ‖y0 k‖ ^ 2) + ρ < R) (hsm : q.len * Real.exp (26 * (2 * N * κ * R) * q.len) * (1e-27 * (N * κ * R ^ 2)) < ρ) :
    ∃ C h0, 0 ≤ C ∧ 0 < h0 ∧ ∀ hm ∈ Ioc 0 h0, ∀ (p : Ode.Prob (3 * N)) (con : Ode.Con) (h1 hmin : ℝ) (out : Ode.Out (3 * N)) (o' : Ode.Ode (3 * N)),
      p.f = q.rhs → Ode.Rounds p.fl → out.Usable → (Ode.Ode.new con y0 0 q.len h1 hmin out).integrate p = some (.ok (), o') →
      Ode.StepsLe hm 0 o'.visited → ∀ Y, Solves q Y 0 q.len → Y 0 = y0 →
      ‖o'.ystart - Y q.len‖ ≤ q.len * Real.exp (26 * (2 * N * κ * R) * q.len) * (1e-27 * (N * κ * R ^ 2)) + C * hm := by
  have hκ := S.nonneg
  obtain ⟨b, hb0, hb⟩ : ∃ b, 0 ≤ b ∧ ∀ j, |(q.wp squm).β j| ≤ b ∧ |(q.ws squm).β j| ≤ b ∧ |(q.wi squm).β j| ≤ b := by
    refine ⟨∑ j, (|(q.wp squm).β j| + |(q.ws squm).β j| + |(q.wi squm).β j|), Finset.sum_nonneg fun _ _ => by positivity, fun j => ?_⟩
    have := Finset.single_le_sum (f := fun j => |(q.wp squm).β j| + |(q.ws squm).β j| + |(q.wi squm).β j|) (fun i _ => by positivity) (Finset.mem_univ j)
    have h1 := abs_nonneg ((q.wp squm).β j)
    have h2 := abs_nonneg ((q.ws squm).β j)
    have h3 := abs_nonneg ((q.wi squm).β j)
    exact ⟨by linarith, by linarith, by linarith⟩
  have hR0 : 0 ≤ R := by have := Real.sqrt_nonneg (∑ k, ‖y0 k‖ ^ 2); linarith
  obtain ⟨C, h0, hC, h0pos, hc⟩ := C121_order (K := 0) (by norm_num) W S hb hb0 y0 (M := N * κ * R ^ 2) (by positivity)
    (fun d hd z _ y hy => by
      rw [Ode.diffSum_zero 11]
      exact (threeWave_le S hd.le z y).trans (mul_le_mul_of_nonneg_left (pow_le_pow_left₀ (norm_nonneg _) hy 2) (by positivity))) hρ hR hsm
  have hl := W.len.le
  refine ⟨Real.exp (26 * (2 * N * κ * R) * q.len) * (q.len * (2.6e-27 * (2 * N * κ * R + 3 * N * κ * R ^ 2 * b) + C) +
    28 * q.walls.card * (N * κ * R ^ 2)), h0, by positivity, h0pos, fun hm hhm p con h1 hmin out o' hp hfl ho hr hst Y hY hY0 => ?_⟩
  refine (hc hm hhm p con h1 hmin out o' hp hfl ho hr hst Y hY hY0).trans (le_of_eq ?_)
  unfold Prob.allowed
  ring

/-- The power computed differs from the power that enters by no more than the error allows. -/
theorem C121_power (W : Works q squm) {Y : ℝ → Fin (3 * N) → ℂ} (h : Solves q Y 0 q.len) {y : Fin (3 * N) → ℂ} {ε : ℝ} (hε : ‖y - Y q.len‖ ≤ ε) :
    |∑ k, ‖y k‖ ^ 2 - ∑ k, ‖Y 0 k‖ ^ 2| ≤ 3 * N * (ε * (2 * √(∑ k, ‖Y 0 k‖ ^ 2) + ε)) := by
  rw [← W.power h ⟨W.len.le, le_refl _⟩, ← Finset.sum_sub_distrib]
  refine (Finset.abs_sum_le_sum_abs _ _).trans ?_
  calc _ ≤ ∑ _k : Fin (3 * N), ε * (2 * √(∑ k, ‖Y q.len k‖ ^ 2) + ε) := Finset.sum_le_sum fun k _ => by
        have h1 : ‖y k - Y q.len k‖ ≤ ε := (norm_le_pi_norm (y - Y q.len) k).trans hε
        have h2 : ‖Y q.len k‖ ≤ √(∑ k, ‖Y q.len k‖ ^ 2) := (norm_le_pi_norm _ k).trans (norm_le_root _)
        have h3 : |‖y k‖ - ‖Y q.len k‖| ≤ ε := (abs_norm_sub_norm_le _ _).trans h1
        rw [show ‖y k‖ ^ 2 - ‖Y q.len k‖ ^ 2 = (‖y k‖ - ‖Y q.len k‖) * (‖y k‖ + ‖Y q.len k‖) by ring, abs_mul]
        refine mul_le_mul h3 ?_ (abs_nonneg _) ((abs_nonneg _).trans h3)
        rw [abs_of_nonneg (by positivity)]
        have := (abs_le.1 h3).2
        linarith
    _ = _ := by simp

theorem weighted_close {n : ℕ} {u : Fin n → ℝ} {w B ε : ℝ} (hw : 0 < w) (hu : ∀ j, w ≤ |u j|) {a b : Fin n → ℂ} (hb : ∀ j, ‖b j‖ ≤ B) (hab : ∀ j, ‖a j - b j‖ ≤ ε) :
    |Spec.weighted (fun j => 1 / u j) a - Spec.weighted (fun j => 1 / u j) b| ≤ n / w * (ε * (2 * B + ε)) := by
  unfold Spec.weighted
  rw [← Finset.sum_sub_distrib]
  refine (Finset.abs_sum_le_sum_abs _ _).trans ?_
  calc _ ≤ ∑ _j : Fin n, 1 / w * (ε * (2 * B + ε)) := Finset.sum_le_sum fun j _ => by
        have h3 : |‖a j‖ - ‖b j‖| ≤ ε := (abs_norm_sub_norm_le _ _).trans (hab j)
        rw [← mul_sub, abs_mul, abs_div, abs_one]
        refine mul_le_mul (one_div_le_one_div_of_le hw (hu j)) ?_ (abs_nonneg _) (by positivity)
        rw [show ‖a j‖ ^ 2 - ‖b j‖ ^ 2 = (‖a j‖ - ‖b j‖) * (‖a j‖ + ‖b j‖) by ring, abs_mul]
        refine mul_le_mul h3 ?_ (abs_nonneg _) ((abs_nonneg _).trans h3)
        rw [abs_of_nonneg (by positivity)]
        have := (abs_le.1 h3).2
        linarith [hb j]
    _ = _ := by
        rw [Finset.sum_const, Finset.card_univ, Fintype.card_fin, nsmul_eq_mul]
        ring

/-- C121: Manley–Rowe for the computed fields.  The photons that signal and idler have gained are those that the pump has lost, up to what the error
allows; `w` is a lower bound of the optical frequencies on the three grids. -/
theorem C121_photons (W : Works q squm) {Y : ℝ → Fin (3 * N) → ℂ} (h : Solves q Y 0 q.len) {y : Fin (3 * N) → ℂ} {ε w : ℝ} (hε : ‖y - Y q.len‖ ≤ ε) (hw : 0 < w)
    (hW : ∀ j, w ≤ |q.p.W j| ∧ w ≤ |q.s.W j| ∧ w ≤ |q.i.W j|) :
    |(Spec.weighted (fun j => 1 / q.s.W j) (As y) - Spec.weighted (fun j => 1 / q.s.W j) (As (Y 0))) -
      (Spec.weighted (fun j => 1 / q.p.W j) (Ap (Y 0)) - Spec.weighted (fun j => 1 / q.p.W j) (Ap y))| ≤
      2 * N / w * (ε * (2 * √(∑ k, ‖Y 0 k‖ ^ 2) + ε)) ∧
    |(Spec.weighted (fun j => 1 / q.i.W j) (Ai y) - Spec.weighted (fun j => 1 / q.i.W j) (Ai (Y 0))) -
      (Spec.weighted (fun j => 1 / q.p.W j) (Ap (Y 0)) - Spec.weighted (fun j => 1 / q.p.W j) (Ap y))| ≤
      2 * N / w * (ε * (2 * √(∑ k, ‖Y 0 k‖ ^ 2) + ε)) := by
  have hne : ∀ {x : ℝ}, w ≤ |x| → x ≠ 0 := fun hx h0 => by rw [h0, abs_zero] at hx; linarith
  obtain ⟨e0, e1, e2⟩ := C70_trajectory W.even ⟨⟨squm, W.area, W.beams⟩, W.index⟩ W.matched (fun j => ⟨hne (hW j).1, hne (hW j).2.1, hne (hW j).2.2⟩) W.len.le h
  have hB : ∀ k, ‖Y q.len k‖ ≤ √(∑ k, ‖Y 0 k‖ ^ 2) := fun k => by
    rw [← e0]
    exact (norm_le_pi_norm _ k).trans (norm_le_root _)
  have hd : ∀ k, ‖y k - Y q.len k‖ ≤ ε := fun k => (norm_le_pi_norm (y - Y q.len) k).trans hε
  have cp := weighted_close hw (fun j => (hW j).1) (a := Ap y) (b := Ap (Y q.len)) (fun j => hB _) (fun j => hd _)
  have cs := weighted_close hw (fun j => (hW j).2.1) (a := As y) (b := As (Y q.len)) (fun j => hB _) (fun j => hd _)
  have ci := weighted_close hw (fun j => (hW j).2.2) (a := Ai y) (b := Ai (Y q.len)) (fun j => hB _) (fun j => hd _)
  rw [show 2 * (N : ℝ) / w * (ε * (2 * √(∑ k, ‖Y 0 k‖ ^ 2) + ε)) =
    N / w * (ε * (2 * √(∑ k, ‖Y 0 k‖ ^ 2) + ε)) + N / w * (ε * (2 * √(∑ k, ‖Y 0 k‖ ^ 2) + ε)) by ring]
  rw [abs_le] at cp cs ci
  constructor <;> rw [abs_le] <;> constructor <;> linarith [cp.1, cp.2, cs.1, cs.2, ci.1, ci.2]

/-! The hypotheses hold for the poled crystal of `C70_nonvacuous`: two domains, with the boundary in the middle of the crystal. -/

theorem exGuided_works : Works exGuided 10 :=
  ⟨by norm_num, by norm_num, rfl, fun j => by norm_num [exGuided], rfl, exGuided_matched, .inl rfl, by norm_num [exGuided]⟩

theorem exGuided_strength : Strength (exGuided.wp 10) (exGuided.ws 10) (exGuided.wi 10) |exGuided.deff| 0.2 := by
  have h1 : (1.1e-7 : ℝ) ≤ √(10 * 1e-12 * 2 * eps0 * cMks) := Real.le_sqrt_of_sq_le (by norm_num [eps0, cMks])
  have hs : 0 < √(10 * 1e-12 * 2 * eps0 * cMks) := lt_of_lt_of_le (by norm_num) h1
  have key : ∀ W : ℝ, 0 ≤ W → W ≤ 6 → |exGuided.deff| * |2 * W / (cMks * 2 * (1 / √(10 * 1e-12 * 2 * eps0 * cMks)))| *
      (|1 / √(10 * 1e-12 * 2 * eps0 * cMks)| * |1 / √(10 * 1e-12 * 2 * eps0 * cMks)|) ≤ 0.2 := by
    intro W w0 w6
    have hc := cMks_pos
    generalize √(10 * 1e-12 * 2 * eps0 * cMks) = r at h1 hs
    rw [show exGuided.deff = 1 from rfl, abs_one, one_mul, abs_of_nonneg (by positivity), abs_of_nonneg (by positivity)]
    have e : 2 * W / (cMks * 2 * (1 / r)) * (1 / r * (1 / r)) = W / (cMks * r) := by field_simp
    rw [e, div_le_iff₀ (by positivity)]
    have : cMks * 1.1e-7 ≤ cMks * r := mul_le_mul_of_nonneg_left h1 hc.le
    norm_num [cMks] at this ⊢
    linarith
  refine ⟨by norm_num, fun j m l => ?_, fun j m l => ?_, fun j m l => ?_⟩
  · exact key (exGuided.p.W j) (by fin_cases j <;> norm_num [exGuided]) (by fin_cases j <;> norm_num [exGuided])
  · exact key (exGuided.s.W j) (by fin_cases j <;> norm_num [exGuided]) (by fin_cases j <;> norm_num [exGuided])
  · exact key (exGuided.i.W j) (by fin_cases j <;> norm_num [exGuided]) (by fin_cases j <;> norm_num [exGuided])

theorem C121_nonvacuous : Works exGuided 10 ∧ Strength (exGuided.wp 10) (exGuided.ws 10) (exGuided.wi 10) |exGuided.deff| 0.2 ∧
    (1 / 2 : ℝ) ∈ exGuided.walls ∧ exGuided.rhs 0 (join ![1 / 4, 0] ![1 / 4, 0] ![0, Complex.I / 4]) ≠ 0 ∧
    √(∑ k, ‖join (N := 2) ![1 / 4, 0] ![1 / 4, 0] ![0, Complex.I / 4] k‖ ^ 2) + 0.1 < 1 ∧
    exGuided.len * Real.exp (26 * (2 * (2 : ℕ) * 0.2 * 1) * exGuided.len) * (1e-27 * ((2 : ℕ) * 0.2 * 1 ^ 2)) < 0.1 := by
  have e : join (N := 2) ![1 / 4, 0] ![1 / 4, 0] ![0, Complex.I / 4] = fun k => ((1 / 4 : ℝ) : ℂ) * join (N := 2) ![1, 0] ![1, 0] ![0, Complex.I] k := by
    funext k
    unfold join
    split_ifs
    · generalize (⟨(k : ℕ), _⟩ : Fin 2) = i
      fin_cases i <;> simp
    · generalize (⟨(k : ℕ) - 2, _⟩ : Fin 2) = i
      fin_cases i <;> simp
    · generalize (⟨(k : ℕ) - 2 * 2, _⟩ : Fin 2) = i
      fin_cases i <;> simp [div_eq_inv_mul]
  refine ⟨exGuided_works, exGuided_strength, ?_, ?_, ?_, ?_⟩
  · norm_num [Prob.walls, exGuided]
  · obtain ⟨-, -, -, h⟩ := C70_nonvacuous
    obtain ⟨d, hd, h2⟩ := h (FftC.zeros 2) 0
    have h3 := h2 rfl
    have h4 := C107_quadratic exGuided (1 / 4) hd
    intro h5
    rw [e, Prob.rhs, h4] at h5
    refine h3 ?_
    have h6 : d = 0 := by
      funext k
      have := congrFun h5 k
      simpa using this
    rw [h6]
    simp [Spec.rate, Ap]
  · have h1 : ∑ k, ‖join (N := 2) ![1 / 4, 0] ![1 / 4, 0] ![0, Complex.I / 4] k‖ ^ 2 = 3 / 16 := by
      rw [sum_parts]
      change ∑ j, ‖Ap (join (N := 2) ![1 / 4, 0] ![1 / 4, 0] ![0, Complex.I / 4]) j‖ ^ 2 + ∑ j, ‖As (join (N := 2) ![1 / 4, 0] ![1 / 4, 0] ![0, Complex.I / 4]) j‖ ^ 2 +
        ∑ j, ‖Ai (join (N := 2) ![1 / 4, 0] ![1 / 4, 0] ![0, Complex.I / 4]) j‖ ^ 2 = _
      rw [Ap_join, As_join, Ai_join]
      norm_num [Fin.sum_univ_two]
    rw [h1]
    have : √(3 / 16 : ℝ) ≤ 0.5 := Real.sqrt_le_iff.2 ⟨by norm_num, by norm_num⟩
    linarith
  · have h1 : Real.exp (26 * (2 * (2 : ℕ) * 0.2 * 1) * exGuided.len) ≤ 3 ^ 21 := by
      have : Real.exp (26 * (2 * (2 : ℕ) * 0.2 * 1) * exGuided.len) ≤ Real.exp 1 ^ 21 := by
        rw [← Real.exp_nat_mul]
        refine Real.exp_le_exp.2 ?_
        norm_num [exGuided]
      exact this.trans (pow_le_pow_left₀ (Real.exp_pos _).le Real.exp_one_lt_three.le _)
    rw [show exGuided.len = 1 from rfl] at h1 ⊢
    norm_num at h1 ⊢
    linarith

end PyNLO.Dfg
