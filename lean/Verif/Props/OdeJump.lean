import Verif.Lemmas.RkPieces
import Verif.Props.OdeDenseBad

/-!
# C120: right-hand sides that jump

For an equation whose right-hand side is analytic between finitely many positions and jumps there (a periodically poled crystal),
an integration that returns has reached the exact solution up to a first-order term for each jump, and the eighth power of the
longest step elsewhere.  The first order cannot be improved.
-/

open scoped BigOperators Topology ContDiff
open Filter Set

namespace PyNLO.Ode

open RK dc

variable {n : ℕ}

theorem nodes_le_one (i : ℕ) (hi : i < 12) : 0 ≤ tc i ∧ tc i ≤ 1 ∧ 0 ≤ rowSum ta i ∧ rowSum ta i ≤ 2 ∧ |tc i - rowSum ta i| ≤ 1e-28 := by
  obtain ⟨h1, -, h2⟩ := nodes i hi
  refine ⟨h1, ?_, h2⟩
  interval_cases i <;> norm_num [tc, c2, c3, c4, c5, c6, c7, c8, c9, c10, c11]

/-- The error allowed at `x` when no step is longer than `hm`: per unit length the rounding of the literals and `C hm ^ (K + 1)`, and
`14 G hm` for each contact of a step with one of the inner positions `w 1, …, w (m - 1)` up to `x`. -/
noncomputable def allowedJump (K : ℕ) (M L L' G C : ℝ) (m : ℕ) (w : ℕ → ℝ) (hm x : ℝ) : ℝ :=
  Real.exp (26 * L * (x - w 0)) * ((x - w 0) * (1e-27 * M + 2.6e-27 * L' * hm + C * hm ^ (K + 1)) + 14 * G * hm * touched m w x)

theorem allowedJump_eq (K : ℕ) (M L L' G C : ℝ) (m : ℕ) (w : ℕ → ℝ) (hm x : ℝ) :
    allowedJump K M L L' G C m w hm x = jumpBound K 1e-27 M 13 L L' G 1e-28 C m w hm x := by
  unfold allowedJump jumpBound
  rw [show (2 : ℝ) * 13 * L = 26 * L by ring]
  ring

/-- An equation `y' = f(x, y)` on `[w 0, w m]` whose right-hand side is the analytic function `F k` between `w k` and `w (k + 1)`,
with its solution `Y` and the constants of the estimate.  At the inner positions `w k` themselves `f` may take any bounded value.
`K + 1` is the order that is made use of. -/
structure JumpEqn (K : ℕ) (f : Rhs n) (Y : ℝ → V n) (m : ℕ) (w : ℕ → ℝ) (F : ℕ → Rhs n) (M L L' G : ℝ) : Prop where
  pos : 0 < m
  le : ∀ k < m, w k ≤ w (k + 1)
  smooth : ∀ k < m, ContDiff ℝ ω fun q : ℝ × V n => F k q.1 q.2
  agree : ∀ k < m, ∀ x ∈ Icc (w k) (w (k + 1)), (∀ j, 0 < j → j < m → x ≠ w j) → ∀ y, f x y = F k x y
  /-- the elementary differentials up to order `K + 1` along the solution -/
  diffs : ∀ k < m, ∀ z ∈ Icc (w k) (w (k + 1)), diffSum K 12 (aug (F k)) (z, Y z) ≤ M
  nonneg : 0 ≤ M ∧ 0 ≤ L ∧ 0 ≤ L' ∧ 0 ≤ G
  /-- on a tube of radius more than `ρ` around the solution the right-hand sides are bounded by `G` and have the Lipschitz constant
  `L` in the value and `L'` in both variables; on each piece the solution can be continued beyond both ends -/
  tube : ∃ R ρ τ, 0 < ρ ∧ 0 < τ ∧ (∀ z ∈ Icc (w 0) (w m), ‖Y z‖ + ρ + τ ≤ R) ∧
    (∀ x ∈ Icc (w 0) (w m), ∀ y, ‖y‖ ≤ R → ‖f x y‖ ≤ G ∧ ∀ y', ‖y'‖ ≤ R → ‖f x y - f x y'‖ ≤ L * ‖y - y'‖) ∧
    (∀ k < m, ∀ x ∈ Icc (w k) (w (k + 1)), ∀ y, ‖y‖ ≤ R → ‖F k x y‖ ≤ G) ∧
    (∀ k < m, ∃ α β, ∃ Z : ℝ → V n, α < w k ∧ w (k + 1) < β ∧ EqOn Y Z (Icc (w k) (w (k + 1))) ∧ (∀ z ∈ Ioo α β, HasDerivAt Z (F k z (Z z)) z) ∧
      ∀ x ∈ Icc α β, ∀ x' ∈ Icc α β, ∀ y y', ‖y‖ ≤ R → ‖y'‖ ≤ R → ‖F k x y - F k x' y'‖ ≤ L' * (|x - x'| + ‖y - y'‖)) ∧
    (w m - w 0) * Real.exp (26 * L * (w m - w 0)) * (1e-27 * M) < ρ

/-- C120: integrations of any part of the interval, from values within the allowed error, with whatever tolerances, first step,
output grid and history of the step control, end within the allowed error, provided that no step was longer than `hm`.  So is,
without dense output, every row of the log.  The steps need not know the jumps. -/
theorem C120_part {K : ℕ} (hK : K ≤ 7) {f : Rhs n} {Y : ℝ → V n} {m : ℕ} {w : ℕ → ℝ} {F : ℕ → Rhs n} {M L L' G : ℝ} (E : JumpEqn K f Y m w F M L L' G) :
    ∃ C h0, 0 ≤ C ∧ 0 < h0 ∧ ∀ hm ∈ Ioc 0 h0, ∀ (p : Prob n) (xa xb : ℝ) (y0 : V n) (con : Con) (h1 hmin : ℝ) (out : Out n) (o' : Ode n),
      p.f = f → Rounds p.fl → w 0 ≤ xa → xa ≤ xb → xb ≤ w m → out.Usable → ‖y0 - Y xa‖ ≤ allowedJump K M L L' G C m w hm xa →
      (Ode.new con y0 xa xb h1 hmin out).integrate p = some (.ok (), o') → StepsLe hm xa o'.visited →
      ‖o'.ystart - Y xb‖ ≤ allowedJump K M L L' G C m w hm xb ∧
        (p.dense = false → (∃ ns, out = Out.new ns) → ∀ r ∈ o'.out.saved, ‖r.2 - Y r.1‖ ≤ allowedJump K M L L' G C m w hm r.1) := by
  obtain ⟨R, ρ, τ, hρ, hτ, hR, hf, hF, hk, hsm⟩ := E.tube
  choose! α β Z hα hβ hE hZ hlip using hk
  obtain ⟨hM, hL, hL', hG⟩ := E.nonneg
  obtain ⟨C, h0, hC, h0pos, hb⟩ := pieces_step (K := K) (s := 12) (by omega) bounded (c := tc) (f := f) (F := F) (Y := Y) (Z := Z) E.pos (w := w)
    (η := 1e-27) (δ := 1e-28) (by norm_num) (by norm_num) (fun t ht => weight_error t (by omega)) nodes_le_one (R := R) (L := L) (G := G) hM
    ⟨fun x hx y y' hy hy' => (hf x hx y hy).2 y' hy', fun x hx y hy => (hf x hx y hy).1, hL, hG⟩ hL' E.agree
    (fun k hk => ⟨E.smooth k hk, E.le k hk, fun z hz => by rw [← hE k hk hz]; exact E.diffs k hk z hz, hF k hk,
      α k, β k, hα k hk, hβ k hk, hZ k hk, hlip k hk⟩) hE hρ hτ hR (by
      rw [show (2 : ℝ) * 13 * L = 26 * L by ring]
      linarith)
  refine ⟨C, h0, hC, h0pos, fun hm hhm p xa xb y0 con h1 hmin out o' hf hfl hxa hab hxb ho h0' hr hs => ?_⟩
  simp only [allowedJump_eq] at h0' ⊢
  refine integrate_kept (Good := fun x y => ‖y - Y x‖ ≤ jumpBound K 1e-27 M 13 L L' G 1e-28 C m w hm x) hfl ?_ h0' ho hr hs
  intro θ η y t0 e0 hθη hle hg
  rw [hf, dy_nodes]
  have hd : 0 ≤ xb - xa := by linarith
  have e1 : 0 ≤ θ * (xb - xa) := mul_nonneg t0 hd
  have e2 : 0 ≤ η * (xb - xa) := mul_nonneg e0 hd
  have e3 : θ * (xb - xa) + η * (xb - xa) ≤ xb - xa := by
    rw [← add_mul]
    exact mul_le_of_le_one_left hd hθη
  rw [abs_of_nonneg e2] at hle
  exact (hb hm hhm _ ⟨by linarith, by linarith⟩).2 _ ⟨e2, hle⟩ (by linarith) y hg

theorem JumpEqn.mono {K : ℕ} {f : Rhs n} {Y : ℝ → V n} {m : ℕ} {w : ℕ → ℝ} {F : ℕ → Rhs n} {M L L' G : ℝ} (E : JumpEqn K f Y m w F M L L' G) :
    ∀ k ≤ m, w 0 ≤ w k := by
  intro k
  induction k with
  | zero => exact fun _ => le_refl _
  | succ k ih => exact fun hk => (ih (by omega)).trans (E.le k (by omega))

/-- C120: an integration from the exact initial value that returns ends within the allowed error of the exact solution. -/
theorem C120_converges {K : ℕ} (hK : K ≤ 7) {f : Rhs n} {Y : ℝ → V n} {m : ℕ} {w : ℕ → ℝ} {F : ℕ → Rhs n} {M L L' G : ℝ} (E : JumpEqn K f Y m w F M L L' G) :
    ∃ C h0, 0 ≤ C ∧ 0 < h0 ∧ ∀ hm ∈ Ioc 0 h0, ∀ (p : Prob n) (con : Con) (h1 hmin : ℝ) (out : Out n) (o' : Ode n),
      p.f = f → Rounds p.fl → out.Usable → (Ode.new con (Y (w 0)) (w 0) (w m) h1 hmin out).integrate p = some (.ok (), o') →
      StepsLe hm (w 0) o'.visited → ‖o'.ystart - Y (w m)‖ ≤ allowedJump K M L L' G C m w hm (w m) ∧
        (p.dense = false → (∃ ns, out = Out.new ns) → ∀ r ∈ o'.out.saved, ‖r.2 - Y r.1‖ ≤ allowedJump K M L L' G C m w hm r.1) := by
  obtain ⟨C, h0, hC, h0pos, hb⟩ := C120_part hK E
  refine ⟨C, h0, hC, h0pos, fun hm hhm p con h1 hmin out o' hf hfl ho hr hs => ?_⟩
  refine hb hm hhm p (w 0) (w m) (Y (w 0)) con h1 hmin out o' hf hfl (le_refl _) (E.mono m (le_refl m)) (le_refl _) ho ?_ hr hs
  have h1 := touched_nonneg m w (w 0)
  have h2 := E.nonneg.2.2.2
  have h3 := hhm.1.le
  simp only [sub_self, norm_zero, allowedJump, zero_mul, zero_add, mul_zero, Real.exp_zero, one_mul]
  positivity

/-- The allowed error without the counter of contacts. -/
theorem C120_bound (K : ℕ) {M L L' G C : ℝ} (m : ℕ) (w : ℕ → ℝ) {hm : ℝ} (hG : 0 ≤ G) (h0 : 0 ≤ hm) (x : ℝ) :
    allowedJump K M L L' G C m w hm x ≤ Real.exp (26 * L * (x - w 0)) *
      ((x - w 0) * (1e-27 * M + 2.6e-27 * L' * hm + C * hm ^ (K + 1)) + 28 * ((m - 1 : ℕ) : ℝ) * G * hm) := by
  unfold allowedJump
  refine mul_le_mul_of_nonneg_left ?_ (Real.exp_pos _).le
  have h1 := mul_le_mul_of_nonneg_left (touched_le m w x) (show 0 ≤ 14 * G * hm by positivity)
  linarith

/-- Without jumps (`m = 1`) the first-order term is absent. -/
theorem C120_smooth (K : ℕ) (M L L' G C : ℝ) (w : ℕ → ℝ) (hm x : ℝ) : allowedJump K M L L' G C 1 w hm x =
    Real.exp (26 * L * (x - w 0)) * ((x - w 0) * (1e-27 * M + 2.6e-27 * L' * hm + C * hm ^ (K + 1))) := by
  have : Finset.Ioo 0 1 = ∅ := rfl
  simp [allowedJump, touched, this]

/-- The only elementary differential of order 1 is the right-hand side. -/
theorem diffSum_zero {f : Rhs n} (d : ℕ) (x : ℝ) (y : V n) : diffSum 0 (d + 1) (aug f) (x, y) = ‖f x y‖ := by
  have : Subsingleton (Tr 0 (d + 1)) := by
    refine ⟨fun t t' => ?_⟩
    obtain ⟨k, ts⟩ := t
    obtain ⟨k', ts'⟩ := t'
    fin_cases k
    fin_cases k'
    congr 1
    funext j
    exact j.elim0
  unfold diffSum
  have t0 : ∃ t0 : Tr 0 (d + 1), t0.ord ≤ 0 + 1 ∧ ∀ p : ∀ k : ℕ, (Fin k → ℝ × V n) → ℝ × V n, ∃ v, t0.diff p = p 0 v :=
    ⟨(⟨0, fun j => j.elim0⟩ : Σ k : Fin (0 + 1), (Fin k → Tr 0 d)), by simp [Tr.ord, Tr.below], fun p => ⟨_, rfl⟩⟩
  obtain ⟨t0, h1, h2⟩ := t0
  obtain ⟨v, h3⟩ := h2 (fun k => taylorAt (aug f) (x, y) k)
  rw [Fintype.sum_subsingleton _ t0, if_pos h1, h3]
  simp [taylorAt, aug]

/-! ## A run of one step -/

/-- An iteration without dense output whose trial step covers the rest of the interval and is accepted. -/
theorem iter_single (p : Prob n) (hp : p.dense = false) (o : Ode n) (hok : o.out.Ok) (k : ℕ) (hx : o.s.x < o.x2) (h12 : o.x1 < o.x2)
    (hh : o.x2 - o.s.x ≤ o.h) {e : ℝ}
    (he : error p.atol p.rtol o.s.y (dy p.f o.s.x o.s.y o.s.dydx (o.x2 - o.s.x)) (o.x2 - o.s.x) = .val e) (he1 : e ≤ 1) :
    ∃ o', Ode.iter p o k = some (.ok true, o') ∧ o'.ystart = (dy p.f o.s.x o.s.y o.s.dydx (o.x2 - o.s.x)).yout ∧
      o'.visited = o.visited ++ [o.x2] := by
  have hclip : Ode.clip o = { o with h := o.x2 - o.s.x } := by
    unfold Ode.clip
    rw [if_pos]
    refine div_pos ?_ (by linarith)
    norm_num
    linarith
  have hloop : stepLoop p.fl (fun h => error p.atol p.rtol o.s.y (dy p.f o.s.x o.s.y o.s.dydx h) h) o.s.x (o.x2 - o.s.x) o.con =
      some (.ok (o.x2 - o.s.x),
        ⟨if o.con.reject then (o.x2 - o.s.x) * min (acceptScale e) 1 else (o.x2 - o.s.x) * acceptScale e, max e 1e-4, false⟩) := by
    refine runLoop_inr ?_
    unfold stepBody success
    simp only [he]
    rw [if_pos he1]
  obtain ⟨s', c', hst, hsx, hsy⟩ : ∃ s' c', step p o.s (o.x2 - o.s.x) o.con = some (.ok (), s', c') ∧ s'.x = o.x2 ∧
      s'.y = (dy p.f o.s.x o.s.y o.s.dydx (o.x2 - o.s.x)).yout := by
    unfold step
    rw [hloop]
    refine ⟨_, _, rfl, ?_, rfl⟩
    show o.s.x + (o.x2 - o.s.x) = o.x2
    ring
  obtain ⟨v, hv, vok, vs, -⟩ := Out.save_ok hok s'.x s'.y
  have hrec2 : (Ode.took { o with h := o.x2 - o.s.x } s' c').record p (k : ℤ) s'.x s'.y s'.hdid =
      some (.ok (), { Ode.took { o with h := o.x2 - o.s.x } s' c' with out := v }) := by
    unfold Ode.record
    rw [hp]
    have : (Ode.took { o with h := o.x2 - o.s.x } s' c').out = o.out := rfl
    simp [this, hv]
  have hafter : Ode.after { Ode.took { o with h := o.x2 - o.s.x } s' c' with out := v } =
      (.ok true, { Ode.took { o with h := o.x2 - o.s.x } s' c' with out := v, ystart := s'.y }) := by
    unfold Ode.after
    have h2 : (s'.x - o.x2) * (o.x2 - o.x1) ≥ 0 := by rw [hsx]; simp
    have h3 : ¬ (v.kmax > 0 ∧ |v.lastX - o.x2| > 100 * |o.x2| * EPS) := by
      rintro ⟨-, h3⟩
      have h4 : v.lastX = s'.x := Out.lastX_eq vok vs
      rw [h4, hsx, sub_self, abs_zero] at h3
      have : 0 ≤ 100 * |o.x2| * EPS := by unfold EPS; positivity
      linarith
    have h2' : ({ Ode.took { o with h := o.x2 - o.s.x } s' c' with out := v } : Ode n).s.x = s'.x := rfl
    simp only [Ode.took] at *
    rw [if_pos h2]
    rw [if_neg h3]
  refine ⟨{ Ode.took { o with h := o.x2 - o.s.x } s' c' with out := v, ystart := s'.y }, ?_, hsy, ?_⟩
  · unfold Ode.iter
    rw [hclip]
    simp only
    rw [hst]
    simp only
    rw [hrec2]
    simp only
    rw [hafter]
  · show o.visited ++ [s'.x] = _
    rw [hsx]

/-- An integration without dense output whose first trial step covers the interval and is accepted. -/
theorem integrate_single (p : Prob n) (hp : p.dense = false) (con : Con) (y0 : V n) {x1 x2 h1 : ℝ} (hx : x1 < x2) (hh : x2 - x1 ≤ |h1|) (hmin : ℝ)
    {e : ℝ} (he : error p.atol p.rtol y0 (dy p.f x1 y0 (p.f x1 y0) (x2 - x1)) (x2 - x1) = .val e) (he1 : e ≤ 1) :
    ∃ o', (Ode.new con y0 x1 x2 h1 hmin (Out.new (some 0))).integrate p = some (.ok (), o') ∧
      o'.ystart = (dy p.f x1 y0 (p.f x1 y0) (x2 - x1)).yout ∧ o'.visited = [x2] := by
  obtain ⟨j1, -⟩ := Out.init_ok (o := (Out.new (some 0) : Out n)) (by simp [Out.new]) (by simp [Out.new]) x1 x2
  have hsg : ((SignType.sign (x2 - x1) : SignType) : ℝ) = 1 := by rw [sign_pos (by linarith)]; rfl
  obtain ⟨o, hrun, hok, q1, q2, q3, q4, q5, q6, q7, q8⟩ : ∃ o : Ode n, (Ode.new con y0 x1 x2 h1 hmin (Out.new (some 0))).integrate p = o.loop p 50000 0 ∧
      o.out.Ok ∧ o.s.x = x1 ∧ o.s.y = y0 ∧ o.s.dydx = p.f x1 y0 ∧ o.x1 = x1 ∧ o.x2 = x2 ∧ o.h = |h1| ∧ o.con = con ∧ o.visited = [] := by
    obtain ⟨u, hu, uok, -, -⟩ := Out.save_ok j1 x1 y0
    unfold Ode.integrate
    simp only
    unfold Ode.record
    rw [hp]
    simp only [Ode.new, hu, Bool.false_eq_true, if_false]
    refine ⟨_, rfl, uok, rfl, rfl, rfl, rfl, rfl, ?_, rfl, rfl⟩
    show |h1| * (SignType.sign (x2 - x1) : ℝ) = |h1|
    rw [hsg, mul_one]
  obtain ⟨o', hit, hy, hv⟩ := iter_single p hp o hok 0 (by rw [q1, q5]; exact hx) (by rw [q4, q5]; exact hx) (by rw [q5, q1, q6]; exact hh) (e := e)
    (by rw [q1, q2, q3, q5]; exact he) he1
  refine ⟨o', ?_, ?_, ?_⟩
  · rw [hrun, show (50000 : ℕ) = 49999 + 1 by norm_num]
    unfold Ode.loop
    rw [hit]
  · rw [hy, q1, q2, q3, q5]
  · rw [hv, q8, q5]; rfl

/-! ## The first order is sharp -/

/-- The step function. -/
noncomputable def heav (x : ℝ) : ℝ := open Classical in if 0 < x then 1 else 0

/-- `y' = 0` before the position 0 and `y' = 1` after it. -/
noncomputable def heavProb : Prob 1 := ⟨fun x _ _ => (heav x : ℂ), 1, 0, false, id⟩

/-- Its solution. -/
noncomputable def ramp (y0 : V 1) (x : ℝ) : V 1 := y0 + fun _ => ((max x 0 : ℝ) : ℂ)

theorem heav_stages (y : V 1) {h : ℝ} (h0 : 0 < h) :
    (dy heavProb.f (-(h / 2)) y (heavProb.f (-(h / 2)) y) h).yout = y + (fun _ => ((h * (b9 + b10 + b11 + b12) : ℝ) : ℂ)) ∧
    (dy heavProb.f (-(h / 2)) y (heavProb.f (-(h / 2)) y) h).yerr2 = (fun _ => ((er9 + er10 + er11 + er12 : ℝ) : ℂ)) ∧
    (dy heavProb.f (-(h / 2)) y (heavProb.f (-(h / 2)) y) h).yerr = (fun _ => ((b9 + b10 + b11 + b12 - bhh2 - bhh3 : ℝ) : ℂ)) := by
  have hneg : ∀ c : ℝ, c ≤ 1 / 2 → heav (-(h / 2) + c * h) = 0 := by
    intro c hc
    have : c * h ≤ 1 / 2 * h := mul_le_mul_of_nonneg_right hc h0.le
    rw [heav, if_neg (by linarith)]
  have hpos : ∀ c : ℝ, 1 / 2 < c → heav (-(h / 2) + c * h) = 1 := by
    intro c hc
    have : 1 / 2 * h < c * h := mul_lt_mul_of_pos_right hc h0
    rw [heav, if_pos (by linarith)]
  have e0 : heav (-(h / 2)) = 0 := by have := hneg 0 (by norm_num); rwa [zero_mul, add_zero] at this
  have e12 : heav (-(h / 2) + h) = 1 := by have := hpos 1 (by norm_num); rwa [one_mul] at this
  have e6 := hneg c6 (by norm_num [c6])
  have e7 := hneg c7 (by norm_num [c7])
  have e8 := hneg c8 (by norm_num [c8])
  have e9 := hpos c9 (by norm_num [c9])
  have e10 := hpos c10 (by norm_num [c10])
  have e11 := hpos c11 (by norm_num [c11])
  refine ⟨?_, ?_, ?_⟩ <;> funext i <;> simp [dy, heavProb, e0, e6, e7, e8, e9, e10, e11, e12]
  ring

theorem ramp_solution (y0 : V 1) {x : ℝ} (hx : x ≠ 0) : HasDerivAt (ramp y0) (heavProb.f x (ramp y0 x)) x := by
  rw [hasDerivAt_pi]
  intro i
  show HasDerivAt (fun x => y0 i + ((max x 0 : ℝ) : ℂ)) (heav x : ℂ) x
  refine HasDerivAt.const_add _ ?_
  rcases lt_or_gt_of_ne hx with h | h
  · rw [heav, if_neg (by linarith)]
    refine HasDerivAt.ofReal_comp ((hasDerivAt_const x (0 : ℝ)).congr_of_eventuallyEq ?_)
    filter_upwards [Iio_mem_nhds h] with t ht using max_eq_right (le_of_lt ht)
  · rw [heav, if_pos h]
    refine HasDerivAt.ofReal_comp ((hasDerivAt_id x).congr_of_eventuallyEq ?_)
    filter_upwards [Ioi_mem_nhds h] with t ht using max_eq_left (le_of_lt ht)

/-- C120, sharpness: for `y' = 0` before 0 and `y' = 1` after it, with absolute tolerance 1, the step of length `h` across the jump
is accepted with an error of more than `h / 20`, however small `h` is. -/
theorem C120_first_order (y0 : V 1) {h : ℝ} (h0 : 0 < h) (h1 : h ≤ 2) :
    ∃ o', (Ode.new Con.new (ramp y0 (-(h / 2))) (-(h / 2)) (h / 2) h 0 (Out.new (some 0))).integrate heavProb = some (.ok (), o') ∧
      StepsLe h (-(h / 2)) o'.visited ∧ ∀ i, h / 20 < ‖o'.ystart i - ramp y0 (h / 2) i‖ := by
  obtain ⟨g0, g1, g2⟩ := heav_stages (ramp y0 (-(h / 2))) h0
  have hl : h / 2 - -(h / 2) = h := by ring
  have hε : er9 + er10 + er11 + er12 ≠ 0 := by norm_num [er9, er10, er11, er12]
  have hβ : b9 + b10 + b11 + b12 - bhh2 - bhh3 ≠ 0 := by norm_num [b9, b10, b11, b12, bhh2, bhh3]
  obtain ⟨e, he, -, e1⟩ := real_error (ramp y0 (-(h / 2))) _ h _ _ g1 g2 h0.ne' hε hβ
  have he1 : e ≤ 1 := by
    refine e1.trans (bound_le (E := 0.05) (B := 0.3) h0.le ?_ ?_ (by norm_num) (by norm_num; linarith))
    · norm_num [er9, er10, er11, er12, abs_le]
    · norm_num [b9, b10, b11, b12, bhh2, bhh3, le_abs]
  obtain ⟨o', hr, hy, hv⟩ := integrate_single heavProb rfl Con.new (ramp y0 (-(h / 2))) (x1 := -(h / 2)) (x2 := h / 2) (h1 := h) (by linarith)
    (by rw [hl]; exact le_abs_self h) 0 (by rw [hl]; exact he) he1
  refine ⟨o', hr, ?_, fun i => ?_⟩
  · rw [hv]
    exact ⟨by rw [hl, abs_of_pos h0], trivial⟩
  · rw [hy, hl, g0]
    have e2 : ((ramp y0 (-(h / 2)) + fun _ => ((h * (b9 + b10 + b11 + b12) : ℝ) : ℂ)) : V 1) i - ramp y0 (h / 2) i =
        ((h * (b9 + b10 + b11 + b12 - 1 / 2) : ℝ) : ℂ) := by
      simp only [ramp, Pi.add_apply]
      rw [max_eq_right (show -(h / 2) ≤ 0 by linarith), max_eq_left (show 0 ≤ h / 2 by linarith)]
      push_cast; ring
    rw [e2, Complex.norm_real, Real.norm_eq_abs, abs_mul, abs_of_pos h0, div_eq_mul_inv]
    refine mul_lt_mul_of_pos_left ?_ h0
    norm_num [b9, b10, b11, b12, lt_abs]

/-! The hypotheses hold for the equation of `C120_first_order` on `[-1, 1]`, with the jump at 0. -/

/-- The positions -1, 0, 1. -/
noncomputable def heavWalls (k : ℕ) : ℝ := (k : ℝ) - 1

/-- The pieces `y' = 0` and `y' = 1`. -/
noncomputable def heavPiece (k : ℕ) : Rhs 1 := fun _ _ _ => (k : ℂ)

theorem heav_eqn : ∃ M, JumpEqn 7 heavProb.f (ramp 0) 2 heavWalls heavPiece M 0 0 1 := by
  have hs : ∀ k, ContDiff ℝ ω fun q : ℝ × V 1 => heavPiece k q.1 q.2 := fun k => contDiff_const
  have hc : Continuous (ramp 0) := by
    unfold ramp
    fun_prop
  choose M hM using fun k => diffs_bound 7 12 (hs k) (Y := ramp 0) (x1 := heavWalls k) (x2 := heavWalls (k + 1)) hc.continuousOn
  have hM' : ∀ k < 2, ∀ z ∈ Icc (heavWalls k) (heavWalls (k + 1)), diffSum 7 12 (aug (heavPiece k)) (z, ramp 0 z) ≤ max 0 (max (M 0) (M 1)) := by
    intro k hk z hz
    refine (hM k z hz).trans ?_
    interval_cases k <;> simp
  have hn : ∀ k : ℕ, k < 2 → ∀ x y, ‖heavPiece k x y‖ ≤ 1 := by
    intro k hk x y
    refine (pi_norm_le_iff_of_nonneg (by norm_num)).2 fun i => ?_
    interval_cases k <;> simp [heavPiece]
  have w0 : heavWalls 0 = -1 := by norm_num [heavWalls]
  have w1 : heavWalls 1 = 0 := by norm_num [heavWalls]
  have w2 : heavWalls 2 = 1 := by norm_num [heavWalls]
  have hM0 : 0 ≤ max 0 (max (M 0) (M 1)) := le_max_left _ _
  generalize max 0 (max (M 0) (M 1)) = N at hM' hM0
  refine ⟨N, ⟨by norm_num, fun k _ => ?_, fun k _ => hs k, ?_, hM', ⟨hM0, le_refl _, le_refl _, by norm_num⟩,
    ⟨1 + (N + 1) + 1, N + 1, 1, by linarith, by norm_num, ?_, ?_, fun k hk x _ y _ => hn k hk x y, ?_, ?_⟩⟩⟩
  · unfold heavWalls
    push_cast
    linarith
  · intro k hk x hx hj y
    have hx0 : x ≠ 0 := w1 ▸ hj 1 (by norm_num) (by norm_num)
    funext i
    show ((heav x : ℝ) : ℂ) = (k : ℂ)
    interval_cases k
    · simp only [w1] at hx
      rw [heav, if_neg (not_lt.2 hx.2)]; simp
    · simp only [w1] at hx
      rw [heav, if_pos (lt_of_le_of_ne hx.1 hx0.symm)]; simp
  · intro z hz
    rw [w0, w2] at hz
    have : ‖ramp 0 z‖ ≤ 1 := by
      refine (pi_norm_le_iff_of_nonneg (by norm_num)).2 fun i => ?_
      simp only [ramp, zero_add, Complex.norm_real, Real.norm_eq_abs]
      rw [abs_of_nonneg (le_max_right _ _)]
      exact max_le hz.2 (by norm_num)
    linarith
  · intro x _ y _
    refine ⟨(pi_norm_le_iff_of_nonneg (by norm_num)).2 fun i => ?_, fun y' _ => ?_⟩
    · simp only [heavProb, heav]
      split_ifs <;> simp
    · simp [heavProb]
  · intro k hk
    refine ⟨heavWalls k - 1, heavWalls (k + 1) + 1, fun x _ => ((k * x : ℝ) : ℂ), by linarith, by linarith, ?_, ?_, ?_⟩
    · intro z hz
      funext i
      interval_cases k
      · simp only [w1] at hz
        simp [ramp, max_eq_right hz.2]
      · simp only [w1] at hz
        simp [ramp, max_eq_left hz.1]
    · intro z _
      rw [hasDerivAt_pi]
      intro i
      have := (((hasDerivAt_id z).const_mul (k : ℝ))).ofReal_comp
      simpa [heavPiece] using this
    · intro x _ x' _ y y' _ _
      rw [show heavPiece k x y = heavPiece k x' y' from rfl]
      simp
  · rw [w0, w2]
    simp only [mul_zero, zero_mul, Real.exp_zero, mul_one]
    linarith

/-- The hypotheses of `C120_converges` hold for this equation, and an integration across the jump returns. -/
theorem C120_nonvacuous :
    (∃ M, JumpEqn 7 heavProb.f (ramp 0) 2 heavWalls heavPiece M 0 0 1) ∧ Rounds heavProb.fl ∧ (Out.new (some 0) : Out 1).Usable ∧
    ∃ o', (Ode.new Con.new (ramp 0 (heavWalls 0)) (heavWalls 0) (heavWalls 2) 2 0 (Out.new (some 0))).integrate heavProb = some (.ok (), o') := by
  refine ⟨heav_eqn, rounds_id, Out.usable_new _, ?_⟩
  obtain ⟨o', h, -⟩ := C120_first_order 0 (h := 2) (by norm_num) (le_refl _)
  refine ⟨o', ?_⟩
  rw [show heavWalls 0 = -(2 / 2) by norm_num [heavWalls], show heavWalls 2 = 2 / 2 by norm_num [heavWalls]]
  exact h

end PyNLO.Ode
