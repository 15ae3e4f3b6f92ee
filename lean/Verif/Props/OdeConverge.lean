import Verif.Lemmas.RkGlobal
import Verif.Props.OdeOrder
import Verif.Props.OdeTableau

/-!
# C118: convergence of the integrator

For an equation `y' = f(x, y)` with analytic right-hand side, an integration that returns has reached the exact solution up to
a multiple of the eighth power of the largest step it took, and the rounding of the literals in the 27th digit.
-/

open scoped BigOperators Topology ContDiff
open Filter Set

namespace PyNLO.Ode

open RK dc

variable {n : ℕ}

/-! ## The tableau -/

/-- The nodes. -/
noncomputable def tc (i : ℕ) : ℝ := [0, c2, c3, c4, c5, c6, c7, c8, c9, c10, c11, 1].getD i 0

/-- `dy` is the Runge–Kutta method with these nodes. -/
theorem dy_nodes (f : Rhs n) (x : ℝ) (y : V n) (h : ℝ) :
    (dy f x y (f x y) h).yout = nstep 12 ta tb tc f x y h := by
  unfold nstep
  generalize hst : dy f x y (f x y) h = st
  have s1 : nst ta tc f x y h 0 = f x y := by rw [nst_eq]; simp [tc]
  unfold dy at hst
  extract_lets k2 k3 k4 k5 k6 k7 k8 k9 k10 k11 k12 inc at hst
  have s2 : nst ta tc f x y h 1 = k2 := by
    rw [nst_eq]; simp [Finset.sum_range_succ, ta, tc, rowsR, s1, k2, smul_smul]
  have s3 : nst ta tc f x y h 2 = k3 := by
    rw [nst_eq]; simp [Finset.sum_range_succ, ta, tc, rowsR, s1, s2, k3]
  have s4 : nst ta tc f x y h 3 = k4 := by
    rw [nst_eq]; simp [Finset.sum_range_succ, ta, tc, rowsR, s1, s2, s3, k4]
  have s5 : nst ta tc f x y h 4 = k5 := by
    rw [nst_eq]; simp [Finset.sum_range_succ, ta, tc, rowsR, s1, s2, s3, s4, k5]
  have s6 : nst ta tc f x y h 5 = k6 := by
    rw [nst_eq]; simp [Finset.sum_range_succ, ta, tc, rowsR, s1, s2, s3, s4, s5, k6]
  have s7 : nst ta tc f x y h 6 = k7 := by
    rw [nst_eq]; simp [Finset.sum_range_succ, ta, tc, rowsR, s1, s2, s3, s4, s5, s6, k7]
  have s8 : nst ta tc f x y h 7 = k8 := by
    rw [nst_eq]; simp [Finset.sum_range_succ, ta, tc, rowsR, s1, s2, s3, s4, s5, s6, s7, k8]
  have s9 : nst ta tc f x y h 8 = k9 := by
    rw [nst_eq]; simp [Finset.sum_range_succ, ta, tc, rowsR, s1, s2, s3, s4, s5, s6, s7, s8, k9]
  have s10 : nst ta tc f x y h 9 = k10 := by
    rw [nst_eq]; simp [Finset.sum_range_succ, ta, tc, rowsR, s1, s2, s3, s4, s5, s6, s7, s8, s9, k10]
  have s11 : nst ta tc f x y h 10 = k11 := by
    rw [nst_eq]; simp [Finset.sum_range_succ, ta, tc, rowsR, s1, s2, s3, s4, s5, s6, s7, s8, s9, s10, k11]
  have s12 : nst ta tc f x y h 11 = k12 := by
    rw [nst_eq]; simp [Finset.sum_range_succ, ta, tc, rowsR, s1, s2, s3, s4, s5, s6, s7, s8, s9, s10, s11, k12]
  subst hst
  simp [Finset.sum_range_succ, tb, s1, s2, s3, s4, s5, s6, s7, s8, s9, s10, s11, s12, inc]

theorem bounded : Bounded 12 ta tb 150 13 where
  row := by
    intro i hi
    interval_cases i <;>
      norm_num [Finset.sum_range_succ, ta, rowsR, a21, a31, a32, a41, a43, a51, a53, a54, a61, a64, a65, a71, a74, a75, a76, a81, a84, a85, a86, a87,
        a91, a94, a95, a96, a97, a98, a101, a104, a105, a106, a107, a108, a109, a111, a114, a115, a116, a117, a118, a119, a1110,
        a121, a124, a125, a126, a127, a128, a129, a1210, a1211, abs_of_pos, abs_of_neg]
  wt := by
    norm_num [Finset.sum_range_succ, tb, b1, b6, b7, b8, b9, b10, b11, b12, abs_of_pos, abs_of_neg]
  nonneg := by norm_num

theorem nodes (i : ℕ) (hi : i < 12) : 0 ≤ tc i ∧ tc i ≤ 2 ∧ 0 ≤ rowSum ta i ∧ rowSum ta i ≤ 2 ∧ |tc i - rowSum ta i| ≤ 1e-28 := by
  unfold rowSum
  simp only [abs_le]
  interval_cases i <;>
    norm_num [Finset.sum_range_succ, ta, rowsR, tc, a21, a31, a32, a41, a43, a51, a53, a54, a61, a64, a65, a71, a74, a75, a76, a81, a84, a85, a86, a87,
      a91, a94, a95, a96, a97, a98, a101, a104, a105, a106, a107, a108, a109, a111, a114, a115, a116, a117, a118, a119, a1110,
      a121, a124, a125, a126, a127, a128, a129, a1210, a1211, c2, c3, c4, c5, c6, c7, c8, c9, c10, c11]

theorem weight_error {K d : ℕ} (t : Tr K d) (ht : t.ord ≤ 8) : |t.weight 12 ta tb - 1 / t.density| ≤ 1e-27 := by
  have h4 := C110_order_conditions t ht
  have h5 := density_ge_one t
  have e : t.weight 12 ta tb - 1 / t.density = (t.density * t.weight 12 ta tb - 1) / t.density := by
    field_simp
  rw [e, abs_div, abs_of_pos (by linarith : 0 < t.density)]
  exact (div_le_self (abs_nonneg _) h5).trans h4

/-! ## Invariants of an integration -/

/-- No step of `x, l[0], l[1], ...` is longer than `hm`. -/
def StepsLe (hm : ℝ) : ℝ → List ℝ → Prop
  | _, [] => True
  | a, b :: l => |b - a| ≤ hm ∧ StepsLe hm b l

theorem stepsLe_append {hm : ℝ} (l : List ℝ) (a b : ℝ) : StepsLe hm a (l ++ [b]) ↔ StepsLe hm a l ∧ |b - l.getLastD a| ≤ hm := by
  induction l generalizing a with
  | nil => simp [StepsLe]
  | cons c l ih =>
    simp only [List.cons_append, StepsLe, ih, List.getLastD_cons, and_assoc]

theorem StepsLe.mono {hm hm' : ℝ} (h : hm ≤ hm') : ∀ {a : ℝ} {l : List ℝ}, StepsLe hm a l → StepsLe hm' a l
  | _, [], _ => trivial
  | _, _ :: _, hs => ⟨hs.1.trans h, hs.2.mono h⟩

/-- A property of position and value that every step of at most `hm` inside the interval keeps. -/
def Kept (p : Prob n) (x1 x2 hm : ℝ) (Good : ℝ → V n → Prop) : Prop :=
  ∀ θ η y, 0 ≤ θ → 0 ≤ η → θ + η ≤ 1 → |η * (x2 - x1)| ≤ hm → Good (x1 + θ * (x2 - x1)) y →
    Good (x1 + θ * (x2 - x1) + η * (x2 - x1)) (dy p.f (x1 + θ * (x2 - x1)) y (p.f (x1 + θ * (x2 - x1)) y) (η * (x2 - x1))).yout

/-- The rows saved so far have the property. -/
def Out.Holds (P : ℝ → V n → Prop) (o : Out n) : Prop := (o.buf = none ∨ o.Ok) ∧ ∀ r ∈ o.saved, P r.1 r.2

theorem Out.save_holds {P : ℝ → V n → Prop} {o : Out n} (h : o.Holds P) {x : ℝ} {y : V n} (hy : P x y) : (o.save x y).2.Holds P := by
  obtain ⟨hb | hok, hr⟩ := h
  · unfold save
    rw [hb]
    exact ⟨Or.inl hb, hr⟩
  · obtain ⟨o', e, ok, hs, -⟩ := Out.save_ok hok x y
    rw [e]
    refine ⟨Or.inr ok, fun r hr' => ?_⟩
    rw [hs, List.mem_append] at hr'
    rcases hr' with h | h
    · exact hr r h
    · rw [List.mem_singleton.mp h]; exact hy

theorem Out.new_init_holds (P : ℝ → V n → Prop) (ns : Option ℕ) (x1 x2 : ℝ) : ((Out.new ns : Out n).init x1 x2).Holds P := by
  rcases ns with _ | k
  · refine ⟨Or.inl (by simp [Out.new, Out.init]), fun r hr => ?_⟩
    simp [Out.new, Out.init, Out.saved] at hr
  · obtain ⟨ok, hc⟩ := Out.init_ok (o := (Out.new (some k) : Out n)) (by simp [Out.new]) (by simp [Out.new]) x1 x2
    refine ⟨Or.inr ok, fun r hr => ?_⟩
    obtain ⟨-, -, xs, ys, hb, -⟩ := ok
    have h0 : ((Out.new (some k) : Out n).init x1 x2).count = 0 := by rw [hc]; rfl
    simp only [Out.saved, hb, h0, List.take_zero, List.zip_nil_left] at hr
    simp at hr

/-- The invariant of the loop. -/
structure Track (p : Prob n) (x1 hm : ℝ) (Good : ℝ → V n → Prop) (o : Ode n) : Prop where
  last : o.visited.getLastD x1 = o.s.x
  dydx : o.s.dydx = p.f o.s.x o.s.y
  good : StepsLe hm x1 o.visited → Good o.s.x o.s.y

/-- The rows, without dense output. -/
def TrackRows (p : Prob n) (x1 hm : ℝ) (Good : ℝ → V n → Prop) (o : Ode n) : Prop :=
  p.dense = false → StepsLe hm x1 o.visited → o.out.Holds Good

theorem after_holds {P : ℝ → V n → Prop} {o : Ode n} (h : o.out.Holds P) (hs : P o.s.x o.s.y) : o.after.2.out.Holds P := by
  unfold Ode.after
  by_cases hf : (o.s.x - o.x2) * (o.x2 - o.x1) ≥ 0
  · rw [if_pos hf]
    by_cases hc : o.out.kmax > 0 ∧ |o.out.lastX - o.x2| > 100 * |o.x2| * EPS
    · simp only [if_pos hc]
      have := Out.save_holds h hs
      rcases hsv : o.out.save o.s.x o.s.y with ⟨_ | _, u⟩ <;> rw [hsv] at this <;> exact this
    · simp only [if_neg hc]; exact h
  · rw [if_neg hf]; split_ifs <;> exact h

theorem after_fields (o : Ode n) : o.after.2.visited = o.visited ∧ o.after.2.s = o.s := by
  unfold Ode.after
  by_cases hf : (o.s.x - o.x2) * (o.x2 - o.x1) ≥ 0
  · rw [if_pos hf]
    by_cases hs : o.out.kmax > 0 ∧ |o.out.lastX - o.x2| > 100 * |o.x2| * EPS
    · simp only [if_pos hs]
      rcases o.out.save o.s.x o.s.y with ⟨_ | _, u⟩ <;> exact ⟨rfl, rfl⟩
    · simp only [if_neg hs]; simp
  · rw [if_neg hf]; split_ifs <;> exact ⟨rfl, rfl⟩

theorem iter_track {p : Prob n} (hfl : Rounds p.fl) {x1 x2 hm : ℝ} {Good : ℝ → V n → Prop} (hk : Kept p x1 x2 hm Good) {y0 : V n}
    {o o' : Ode n} {k : ℕ} {b : Bool} (h : Running x1 x2 y0 o) (ht : Track p x1 hm Good o) (hr : o.iter p k = some (.ok b, o')) :
    Track p x1 hm Good o' ∧ (TrackRows p x1 hm Good o → TrackRows p x1 hm Good o') := by
  obtain ⟨h', hclip, θ, t0, t1, hx, -, η, e0, hθη, hh⟩ := clip_spec h
  unfold Ode.iter at hr
  rw [hclip] at hr
  simp only at hr
  rcases hst : step p o.s h' o.con with _ | ⟨_ | _, s, c⟩
  · rw [hst] at hr; simp at hr
  · rw [hst] at hr; simp at hr
  · rw [hst] at hr
    simp only at hr
    obtain ⟨-, ⟨ρ, ρ0, ρ1, hρ⟩, hsx, -⟩ := C54_acceptance p hfl _ _ _ _ _ hst
    obtain ⟨-, -, -, -, hy, hd, -⟩ := step_ok hst
    rcases hrec : (Ode.took { o with h := h' } s c).record p k s.x s.y s.hdid with _ | ⟨_ | _, o2⟩
    · rw [hrec] at hr; simp at hr
    · rw [hrec] at hr; simp at hr
    · rw [hrec] at hr
      simp only [Option.some.injEq] at hr
      obtain ⟨u, rfl, hu⟩ := record_cases hrec
      have ha := after_fields { Ode.took { o with h := h' } s c with out := u }
      rw [hr] at ha
      obtain ⟨hv, hs⟩ := ha
      have hv' : o'.visited = o.visited ++ [s.x] := hv
      have hs' : o'.s = s := hs
      have hT : Track p x1 hm Good o' := by
        refine ⟨by rw [hv', hs']; simp, by rw [hs']; exact hd, fun hsl => ?_⟩
        rw [hv', stepsLe_append, ht.last] at hsl
        have hg := ht.good hsl.1
        have hstep : s.hdid = ρ * η * (x2 - x1) := by rw [hρ, hh]; ring
        have hle : |ρ * η * (x2 - x1)| ≤ hm := by
          have := hsl.2
          rwa [hsx, add_sub_cancel_left, hstep] at this
        rw [hx] at hg
        have := hk θ (ρ * η) o.s.y t0 (by positivity) (by nlinarith) hle hg
        rw [hs', hsx, hy, ht.dydx, hstep, hx]
        exact this
      refine ⟨hT, fun hrows hp hsl => ?_⟩
      have hg := hT.good hsl
      rw [hs'] at hg
      rw [hv', stepsLe_append] at hsl
      rcases hu with ⟨hp', -⟩ | ⟨-, hu⟩
      · rw [hp] at hp'; simp at hp'
      · have h1 := Out.save_holds (x := s.x) (y := s.y) (hrows hp hsl.1) hg
        have hu' : o.out.save s.x s.y = (.ok (), u) := hu
        rw [hu'] at h1
        have h2 := after_holds (o := { Ode.took { o with h := h' } s c with out := u }) h1 hg
        rw [hr] at h2
        exact h2

theorem loop_track {p : Prob n} (hfl : Rounds p.fl) {x1 x2 hm : ℝ} {Good : ℝ → V n → Prop} (hk : Kept p x1 x2 hm Good) {y0 : V n}
    (m k : ℕ) {o o' : Ode n} (h : Running x1 x2 y0 o) (ht : Track p x1 hm Good o) (hr : Ode.loop p m k o = some (.ok (), o')) :
    Track p x1 hm Good o' ∧ (TrackRows p x1 hm Good o → TrackRows p x1 hm Good o') := by
  induction m generalizing k o with
  | zero => simp [Ode.loop] at hr
  | succ m ih =>
    unfold Ode.loop at hr
    rcases hi : o.iter p k with _ | ⟨_ | ⟨_ | _⟩, o1⟩
    · rw [hi] at hr; simp at hr
    · rw [hi] at hr; simp at hr
    · rw [hi] at hr
      rcases iter_spec hfl h hi with ⟨he, -⟩ | ⟨-, hrun⟩ | ⟨e, he, -⟩
      · simp at he
      · have h1 := iter_track hfl hk h ht hi
        have h2 := ih _ hrun h1.1 hr
        exact ⟨h2.1, fun hrows => h2.2 (h1.2 hrows)⟩
      · simp at he
    · rw [hi] at hr
      simp only [Option.some.injEq, Prod.mk.injEq, true_and] at hr
      rw [← hr]
      exact iter_track hfl hk h ht hi

/-- A kept property holds at the end. -/
theorem integrate_kept {p : Prob n} (hfl : Rounds p.fl) {x1 x2 hm : ℝ} {Good : ℝ → V n → Prop} (hk : Kept p x1 x2 hm Good) {y0 : V n}
    (h0 : Good x1 y0) {con : Con} {h1 hmin : ℝ} {out : Out n} (ho : out.Usable) {o' : Ode n}
    (hr : (Ode.new con y0 x1 x2 h1 hmin out).integrate p = some (.ok (), o')) (hs : StepsLe hm x1 o'.visited) :
    Good x2 o'.ystart ∧ (p.dense = false → (∃ ns, out = Out.new ns) → ∀ r ∈ o'.out.saved, Good r.1 r.2) := by
  obtain ⟨hx, hy, -⟩ := C53_lands p hfl con y0 x1 x2 h1 hmin out ho o' hr
  have hrun := running_new con y0 x1 x2 h1 hmin out ho
  have hT : Track p x1 hm Good o' ∧ ((∃ ns, out = Out.new ns) → TrackRows p x1 hm Good o') := by
    unfold Ode.integrate at hr
    have hnew : (Ode.new con y0 x1 x2 h1 hmin out).x1 = x1 ∧ (Ode.new con y0 x1 x2 h1 hmin out).ystart = y0 ∧
        (Ode.new con y0 x1 x2 h1 hmin out).s.x = x1 ∧ (Ode.new con y0 x1 x2 h1 hmin out).s.y = y0 ∧
        (Ode.new con y0 x1 x2 h1 hmin out).visited = [] ∧
        (Ode.new con y0 x1 x2 h1 hmin out).out = out.init x1 x2 := ⟨rfl, rfl, rfl, rfl, rfl, rfl⟩
    generalize Ode.new con y0 x1 x2 h1 hmin out = o at hrun hr hnew
    obtain ⟨n1, n2, n3, n4, n5, n6⟩ := hnew
    simp only at hr
    have h0' : Running x1 x2 y0 { o with s := { o.s with dydx := p.f o.x1 o.ystart } } :=
      ⟨hrun.hx1, hrun.hx2, hrun.hy, hrun.out, hrun.pos, hrun.dir⟩
    rcases hrec : Ode.record p { o with s := { o.s with dydx := p.f o.x1 o.ystart } } (-1) o.x1 o.ystart o.h with
      _ | ⟨_ | _, o2⟩
    · rw [hrec] at hr; simp at hr
    · rw [hrec] at hr; simp at hr
    · rw [hrec] at hr
      obtain ⟨u, hu, rfl⟩ := record_inv h0'.out hrec
      have h2 : Running x1 x2 y0 { ({ o with s := { o.s with dydx := p.f o.x1 o.ystart } } : Ode n) with out := u } :=
        ⟨hrun.hx1, hrun.hx2, hrun.hy, hu, hrun.pos, hrun.dir⟩
      have h3 := loop_track hfl hk _ _ h2 (Good := Good) (hm := hm) ⟨?_, ?_, ?_⟩ hr
      · refine ⟨h3.1, fun hnew => h3.2 fun hp _ => ?_⟩
        obtain ⟨ns, rfl⟩ := hnew
        obtain ⟨w, hw, ⟨hp', -⟩ | ⟨-, hw2⟩⟩ := record_cases hrec
        · rw [hp] at hp'; simp at hp'
        · have h4 : o.out.Holds Good := by rw [n6]; exact Out.new_init_holds _ _ _ _
          have h5 := Out.save_holds (x := o.x1) (y := o.ystart) h4 (by rw [n1, n2]; exact h0)
          have hw3 : o.out.save o.x1 o.ystart = (.ok (), w) := hw2
          rw [hw3] at h5
          have hw4 : u = w := congrArg Ode.out hw
          show u.Holds Good
          rw [hw4]; exact h5
      · show o.visited.getLastD x1 = o.s.x
        rw [n5, n3]; rfl
      · show p.f o.x1 o.ystart = p.f o.s.x o.s.y
        rw [n1, n2, n3, n4]
      · intro _
        show Good o.s.x o.s.y
        rw [n3, n4]; exact h0
  have := hT.1.good hs
  rw [hx, ← hy] at this
  exact ⟨this, fun hp hnew => (hT.2 hnew hp hs).2⟩

/-! ## Convergence -/

/-- The error allowed at `x` when no step is longer than `hm`. -/
noncomputable def allowed (M L C x1 hm x : ℝ) : ℝ :=
  (x - x1) * Real.exp (26 * L * (x - x1)) * (1e-27 * M + 2.6e-27 * L * hm + C * hm ^ 8)

theorem allowed_eq (M L C x1 hm x : ℝ) : allowed M L C x1 hm x = errBound 7 1e-27 M 13 L 1e-28 C x1 hm x := by
  unfold allowed errBound
  rw [show (2 : ℝ) * 13 * L = 26 * L by ring]
  ring

/-- An equation `y' = f(x, y)` with its solution `Y` and the constants of the estimate. -/
structure Eqn (f : Rhs n) (Y : ℝ → V n) (x1 x2 M L : ℝ) : Prop where
  /-- the right-hand side is analytic -/
  smooth : ContDiff ℝ ω fun q : ℝ × V n => f q.1 q.2
  /-- the interval -/
  le : x1 ≤ x2
  /-- the elementary differentials up to order 8 along the solution -/
  diffs : ∀ z ∈ Icc x1 x2, diffSum 7 12 (aug f) (z, Y z) ≤ M
  nonneg : 0 ≤ L
  /-- the solution exists beyond both ends; the right-hand side has the Lipschitz constant `L` on a tube around it that is
  wide enough for the rounding of the literals -/
  tube : ∃ α β R ρ, α < x1 ∧ x2 < β ∧ 0 < ρ ∧ (∀ z ∈ Ioo α β, HasDerivAt Y (f z (Y z)) z) ∧ (∀ z ∈ Icc x1 x2, ‖Y z‖ + ρ < R) ∧
    (∀ x ∈ Icc α β, ∀ x' ∈ Icc α β, ∀ y y', ‖y‖ ≤ R → ‖y'‖ ≤ R → ‖f x y - f x' y'‖ ≤ L * (|x - x'| + ‖y - y'‖)) ∧
    (x2 - x1) * Real.exp (26 * L * (x2 - x1)) * (1e-27 * M) < ρ

/-- C118: integrations of any part of the interval, from values within the allowed error, with whatever tolerances, first step,
output grid and history of the step control, end within the allowed error, provided that no step was longer than `hm`.  So is,
without dense output, every row of the log. -/
theorem C118_part {f : Rhs n} {Y : ℝ → V n} {x1 x2 M L : ℝ} (E : Eqn f Y x1 x2 M L) :
    ∃ C h0, 0 ≤ C ∧ 0 < h0 ∧ ∀ hm ∈ Ioc 0 h0, ∀ (p : Prob n) (xa xb : ℝ) (y0 : V n) (con : Con) (h1 hmin : ℝ) (out : Out n) (o' : Ode n),
      p.f = f → Rounds p.fl → x1 ≤ xa → xa ≤ xb → xb ≤ x2 → out.Usable → ‖y0 - Y xa‖ ≤ allowed M L C x1 hm xa →
      (Ode.new con y0 xa xb h1 hmin out).integrate p = some (.ok (), o') → StepsLe hm xa o'.visited →
      ‖o'.ystart - Y xb‖ ≤ allowed M L C x1 hm xb ∧
        (p.dense = false → (∃ ns, out = Out.new ns) → ∀ r ∈ o'.out.saved, ‖r.2 - Y r.1‖ ≤ allowed M L C x1 hm r.1) := by
  obtain ⟨α, β, R, ρ, hα, hβ, hρ, hY, hR, hlip, hsm⟩ := E.tube
  obtain ⟨C, h0, hC, h0pos, hb⟩ := global_step (K := 7) (s := 12) (by norm_num) bounded (c := tc) E.smooth hα E.le hβ hY
    (η := 1e-27) (δ := 1e-28) (by norm_num) (by norm_num) (fun t ht => weight_error t ht) nodes E.diffs hρ hR E.nonneg hlip (by
      rw [show (2 : ℝ) * 13 * L = 26 * L by ring]
      linarith)
  refine ⟨C, h0, hC, h0pos, fun hm hhm p xa xb y0 con h1 hmin out o' hf hfl hxa hab hxb ho h0' hr hs => ?_⟩
  simp only [allowed_eq] at h0' ⊢
  refine integrate_kept (Good := fun x y => ‖y - Y x‖ ≤ errBound 7 1e-27 M 13 L 1e-28 C x1 hm x) hfl ?_ h0' ho hr hs
  intro θ η y t0 e0 hθη hle hg
  rw [hf, dy_nodes]
  have hd : 0 ≤ xb - xa := by linarith
  have e1 : 0 ≤ θ * (xb - xa) := mul_nonneg t0 hd
  have e2 : 0 ≤ η * (xb - xa) := mul_nonneg e0 hd
  have e3 : θ * (xb - xa) + η * (xb - xa) ≤ xb - xa := by
    rw [← add_mul]
    exact mul_le_of_le_one_left hd hθη
  rw [abs_of_nonneg e2] at hle
  exact (hb hm hhm _ ⟨by linarith, by linarith⟩).2 _ ⟨e2, hle⟩ (by linarith) y hg

/-- C118: an integration from the exact initial value that returns ends within the allowed error of the exact solution: the eighth
power of the longest step it took, and the rounding of the literals. -/
theorem C118_converges {f : Rhs n} {Y : ℝ → V n} {x1 x2 M L : ℝ} (E : Eqn f Y x1 x2 M L) :
    ∃ C h0, 0 ≤ C ∧ 0 < h0 ∧ ∀ hm ∈ Ioc 0 h0, ∀ (p : Prob n) (con : Con) (h1 hmin : ℝ) (out : Out n) (o' : Ode n),
      p.f = f → Rounds p.fl → out.Usable → (Ode.new con (Y x1) x1 x2 h1 hmin out).integrate p = some (.ok (), o') →
      StepsLe hm x1 o'.visited → ‖o'.ystart - Y x2‖ ≤ allowed M L C x1 hm x2 ∧
        (p.dense = false → (∃ ns, out = Out.new ns) → ∀ r ∈ o'.out.saved, ‖r.2 - Y r.1‖ ≤ allowed M L C x1 hm r.1) := by
  obtain ⟨C, h0, hC, h0pos, hb⟩ := C118_part E
  refine ⟨C, h0, hC, h0pos, fun hm hhm p con h1 hmin out o' hf hfl ho hr hs => ?_⟩
  refine hb hm hhm p x1 x2 (Y x1) con h1 hmin out o' hf hfl (le_refl _) E.le (le_refl _) ho ?_ hr hs
  simp [allowed]

theorem within_steps {xa xb : ℝ} {v : List ℝ} (h : Within xa xb v) : StepsLe |xb - xa| xa v := by
  obtain ⟨φ, rfl, hpw, hφ⟩ := h
  have key : ∀ (φ : List ℝ) (s : ℝ), 0 ≤ s → s ≤ 1 → (∀ t ∈ φ, s ≤ t ∧ t ≤ 1) → φ.Pairwise (· ≤ ·) →
      StepsLe |xb - xa| (xa + s * (xb - xa)) (φ.map fun t => xa + t * (xb - xa)) := by
    intro φ
    induction φ with
    | nil => intros; trivial
    | cons t φ ih =>
      intro s s0 s1 hs hp
      obtain ⟨a, b⟩ := hs t List.mem_cons_self
      refine ⟨?_, ih t (s0.trans a) b (fun u hu => ⟨(List.pairwise_cons.1 hp).1 u hu, (hs u (List.mem_cons_of_mem _ hu)).2⟩)
        (List.pairwise_cons.1 hp).2⟩
      rw [show xa + t * (xb - xa) - (xa + s * (xb - xa)) = (t - s) * (xb - xa) by ring, abs_mul, abs_of_nonneg (by linarith)]
      exact mul_le_of_le_one_left (abs_nonneg _) (by linarith)
  have := key φ 0 (le_refl _) zero_le_one hφ hpw
  rwa [zero_mul, add_zero] at this

/-- C118: integrating over `N` equal parts in turn, the error falls with the eighth power of their number, whatever the
tolerances: no assumption on the steps is needed. -/
theorem C118_segments {f : Rhs n} {Y : ℝ → V n} {x1 x2 M L : ℝ} (E : Eqn f Y x1 x2 M L) (hlt : x1 < x2) :
    ∃ C, 0 ≤ C ∧ ∃ N0 : ℕ, ∀ N ≥ N0, ∀ (p : Prob n) (ys : ℕ → V n), p.f = f → Rounds p.fl → ys 0 = Y x1 →
      (∀ k < N, ∃ con h1 hmin out o', Out.Usable out ∧ o'.ystart = ys (k + 1) ∧
        (Ode.new con (ys k) (x1 + k * ((x2 - x1) / N)) (x1 + (k + 1 : ℕ) * ((x2 - x1) / N)) h1 hmin out).integrate p = some (.ok (), o')) →
      ‖ys N - Y x2‖ ≤ allowed M L C x1 ((x2 - x1) / N) x2 := by
  obtain ⟨C, h0, hC, h0pos, hb⟩ := C118_part E
  obtain ⟨N0, hN0⟩ := exists_nat_gt ((x2 - x1) / h0)
  refine ⟨C, hC, max N0 1, fun N hN p ys hf hfl h0' hrun => ?_⟩
  have hN1 : (0 : ℝ) < N := by exact_mod_cast (le_max_right _ _).trans hN
  have hd : 0 < (x2 - x1) / N := div_pos (by linarith) hN1
  have hdh : (x2 - x1) / N ≤ h0 := by
    rw [div_le_iff₀ hN1]
    rw [div_lt_iff₀ h0pos] at hN0
    have : (N0 : ℝ) ≤ N := by exact_mod_cast (le_max_left _ _).trans hN
    nlinarith
  have hmul : (N : ℝ) * ((x2 - x1) / N) = x2 - x1 := mul_div_cancel₀ _ hN1.ne'
  have key : ∀ k ≤ N, ‖ys k - Y (x1 + k * ((x2 - x1) / N))‖ ≤ allowed M L C x1 ((x2 - x1) / N) (x1 + k * ((x2 - x1) / N)) := by
    intro k
    induction k with
    | zero =>
      intro _
      rw [h0']
      simp [allowed]
    | succ k ih =>
      intro hk
      obtain ⟨con, h1, hmin, out, o', ho, hy, hr⟩ := hrun k (by omega)
      have hw : Within (x1 + k * ((x2 - x1) / N)) (x1 + (k + 1 : ℕ) * ((x2 - x1) / N)) o'.visited := by
        rcases integrate_spec hfl ho hr with ⟨-, -, -, hw⟩ | ⟨e, he, -⟩
        · exact hw
        · simp at he
      have hs := within_steps hw
      rw [show x1 + (k + 1 : ℕ) * ((x2 - x1) / N) - (x1 + k * ((x2 - x1) / N)) = (x2 - x1) / N by push_cast; ring, abs_of_pos hd] at hs
      rw [← hy]
      have hkN : ((k + 1 : ℕ) : ℝ) ≤ N := by exact_mod_cast hk
      refine (hb _ ⟨hd, hdh⟩ p _ _ (ys k) con h1 hmin out o' hf hfl ?_ ?_ ?_ ho (ih (by omega)) hr hs).1
      · have : 0 ≤ (k : ℝ) * ((x2 - x1) / N) := by positivity
        linarith
      · push_cast; nlinarith
      · have := mul_le_mul_of_nonneg_right hkN hd.le
        linarith
  have := key N le_rfl
  rwa [hmul, add_sub_cancel] at this

/-! ## Cases -/

/-- For a globally Lipschitz right-hand side no tube has to be given. -/
theorem eqn_of_lipschitz {f : Rhs n} (hf : ContDiff ℝ ω fun q : ℝ × V n => f q.1 q.2) {Y : ℝ → V n} {α β x1 x2 M L : ℝ} (hα : α < x1)
    (hx : x1 ≤ x2) (hβ : x2 < β) (hY : ∀ z ∈ Ioo α β, HasDerivAt Y (f z (Y z)) z)
    (hM : ∀ z ∈ Icc x1 x2, diffSum 7 12 (aug f) (z, Y z) ≤ M) (hL : 0 ≤ L)
    (hlip : ∀ x x' y y', ‖f x y - f x' y'‖ ≤ L * (|x - x'| + ‖y - y'‖)) : Eqn f Y x1 x2 M L := by
  have hcont : ContinuousOn Y (Icc x1 x2) := fun z hz =>
    (hY z ⟨by linarith [hz.1], by linarith [hz.2]⟩).continuousAt.continuousWithinAt
  obtain ⟨B, hB⟩ := isCompact_Icc.exists_bound_of_continuousOn hcont
  set q := (x2 - x1) * Real.exp (26 * L * (x2 - x1)) * (1e-27 * M) with hq
  refine ⟨hf, hx, hM, hL, α, β, B + (|q| + 1) + 1, |q| + 1, hα, hβ, by positivity, hY, fun z hz => ?_, fun x _ x' _ y y' _ _ => hlip x x' y y', ?_⟩
  · have := hB z hz
    linarith
  · have := le_abs_self q
    linarith

/-- The bound on the elementary differentials exists. -/
theorem diffs_bound (K d : ℕ) {f : Rhs n} (hf : ContDiff ℝ ω fun q : ℝ × V n => f q.1 q.2) {Y : ℝ → V n} {x1 x2 : ℝ}
    (hY : ContinuousOn Y (Icc x1 x2)) : ∃ M, ∀ z ∈ Icc x1 x2, diffSum K d (aug f) (z, Y z) ≤ M := by
  have h1 := diffSum_continuous K d (aug_contDiff (hf.of_le (m := ∞) le_top))
  have h2 : ContinuousOn (fun z => diffSum K d (aug f) (z, Y z)) (Icc x1 x2) :=
    h1.comp_continuousOn (continuousOn_id.prodMk hY)
  obtain ⟨M, hM⟩ := isCompact_Icc.exists_bound_of_continuousOn h2
  exact ⟨M, fun z hz => (le_abs_self _).trans (hM z hz)⟩

/-- `y' = 1` on `[0, 1]` meets the hypotheses, with an integration that returns. -/
theorem C118_nonvacuous (y0 : V 1) :
    (∃ M, Eqn (unitProb false).f (fun x => y0 + x • (1 : V 1)) 0 1 M 0) ∧ Rounds (unitProb false).fl ∧
    ∃ o', (Ode.new Con.new (y0 + (0 : ℝ) • (1 : V 1)) 0 1 (1 / 10) 0 (Out.new (some 0))).integrate (unitProb false) = some (.ok (), o') := by
  have hf : ContDiff ℝ ω fun q : ℝ × V 1 => (unitProb false).f q.1 q.2 := contDiff_const
  have hY : ∀ z : ℝ, HasDerivAt (fun x => y0 + x • (1 : V 1)) ((unitProb false).f z (y0 + z • (1 : V 1))) z := by
    intro z
    have h1 := ((hasDerivAt_id z).smul_const (1 : V 1)).const_add y0
    rw [one_smul] at h1
    exact h1
  obtain ⟨M, hM⟩ := diffs_bound 7 12 hf (Y := fun x => y0 + x • (1 : V 1)) (x1 := 0) (x2 := 1)
    fun z _ => (hY z).continuousAt.continuousWithinAt
  refine ⟨⟨M, eqn_of_lipschitz hf (α := -1) (β := 2) (by norm_num) (by norm_num) (by norm_num) (fun z _ => hY z) hM (le_refl _) ?_⟩,
    rounds_id, ?_⟩
  · intro x x' y y'
    simp [unitProb]
  · obtain ⟨o', h, -⟩ := plain_fresh Con.new rfl (y0 + (0 : ℝ) • (1 : V 1))
    exact ⟨o', h⟩

end PyNLO.Ode
