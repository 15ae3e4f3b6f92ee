import Mathlib.Algebra.Module.Submodule.Ker
import Verif.Props.OdeInt

/-!
# C108: what the right-hand side cannot change, the integrator does not change
-/

namespace PyNLO.Ode

variable {n : ℕ}

/-- The stages of a step from `y` in `y0 + U` stay in `U`, its end stays in `y0 + U`. -/
structure StagesIn (U : Submodule ℝ (V n)) (y0 : V n) (st : Stages n) : Prop where
  k2 : st.k2 ∈ U
  k3 : st.k3 ∈ U
  k6 : st.k6 ∈ U
  k7 : st.k7 ∈ U
  k8 : st.k8 ∈ U
  k9 : st.k9 ∈ U
  k10 : st.k10 ∈ U
  yout : st.yout - y0 ∈ U

theorem dy_in (U : Submodule ℝ (V n)) (f : Rhs n) (y0 : V n) (hf : ∀ x y, y - y0 ∈ U → f x y ∈ U) (x : ℝ) (y d : V n)
    (h : ℝ) (hy : y - y0 ∈ U) (hd : d ∈ U) : StagesIn U y0 (dy f x y d h) := by
  have hw : ∀ w ∈ U, y + w - y0 ∈ U := fun w hw => by
    rw [add_sub_right_comm]; exact U.add_mem hy hw
  have hk : ∀ t w, w ∈ U → f t (y + w) ∈ U := fun t w h => hf _ _ (hw w h)
  have ha : ∀ u v, u ∈ U → v ∈ U → u + v ∈ U := fun u v => U.add_mem
  have hs : ∀ (r : ℝ) u, u ∈ U → r • u ∈ U := fun r u => U.smul_mem r
  unfold dy
  extract_lets k2 k3 k4 k5 k6 k7 k8 k9 k10 k11 k12 inc
  have h2 : k2 ∈ U := hk _ _ (hs _ _ hd)
  have h3 : k3 ∈ U := hk _ _ (hs _ _ (by repeat' first | apply ha | apply hs | assumption))
  have h4 : k4 ∈ U := hk _ _ (hs _ _ (by repeat' first | apply ha | apply hs | assumption))
  have h5 : k5 ∈ U := hk _ _ (hs _ _ (by repeat' first | apply ha | apply hs | assumption))
  have h6 : k6 ∈ U := hk _ _ (hs _ _ (by repeat' first | apply ha | apply hs | assumption))
  have h7 : k7 ∈ U := hk _ _ (hs _ _ (by repeat' first | apply ha | apply hs | assumption))
  have h8 : k8 ∈ U := hk _ _ (hs _ _ (by repeat' first | apply ha | apply hs | assumption))
  have h9 : k9 ∈ U := hk _ _ (hs _ _ (by repeat' first | apply ha | apply hs | assumption))
  have h10 : k10 ∈ U := hk _ _ (hs _ _ (by repeat' first | apply ha | apply hs | assumption))
  have h11 : k11 ∈ U := hk _ _ (hs _ _ (by repeat' first | apply ha | apply hs | assumption))
  have h12 : k12 ∈ U := hk _ _ (hs _ _ (by repeat' first | apply ha | apply hs | assumption))
  have hi : inc ∈ U := by repeat' first | apply ha | apply hs | assumption
  exact ⟨h11, h12, h6, h7, h8, h9, h10, hw _ (hs _ _ hi)⟩

/-- The coefficients of the interpolant: the first in `y0 + U`, the others in `U`. -/
def RcIn (U : Submodule ℝ (V n)) (y0 : V n) (rc : Fin 8 → V n) : Prop :=
  rc 0 - y0 ∈ U ∧ rc 1 ∈ U ∧ rc 2 ∈ U ∧ rc 3 ∈ U ∧ rc 4 ∈ U ∧ rc 5 ∈ U ∧ rc 6 ∈ U ∧ rc 7 ∈ U

theorem prepareDense_in (U : Submodule ℝ (V n)) (f : Rhs n) (y0 : V n) (hf : ∀ x y, y - y0 ∈ U → f x y ∈ U) (x : ℝ)
    (y d d' : V n) (st : Stages n) (h : ℝ) (hy : y - y0 ∈ U) (hd : d ∈ U) (hd' : d' ∈ U) (hst : StagesIn U y0 st) :
    RcIn U y0 (prepareDense f x y d d' st h) := by
  obtain ⟨h2, h3, h6, h7, h8, h9, h10, ho⟩ := hst
  have hw : ∀ w ∈ U, y + w - y0 ∈ U := fun w hw => by
    rw [add_sub_right_comm]; exact U.add_mem hy hw
  have hk : ∀ t w, w ∈ U → f t (y + w) ∈ U := fun t w h => hf _ _ (hw w h)
  have ha : ∀ u v, u ∈ U → v ∈ U → u + v ∈ U := fun u v => U.add_mem
  have hs : ∀ (r : ℝ) u, u ∈ U → r • u ∈ U := fun r u => U.smul_mem r
  have hm : ∀ u v, u ∈ U → v ∈ U → u - v ∈ U := fun u v => U.sub_mem
  unfold prepareDense
  extract_lets ydiff bspl r5 r6 r7 r8 k14 k15 k16
  have hyd : ydiff ∈ U := by
    have : ydiff = (st.yout - y0) - (y - y0) := by simp only [ydiff]; abel
    rw [this]; exact hm _ _ ho hy
  have hb : bspl ∈ U := hm _ _ (hs _ _ hd) hyd
  have e5 : r5 ∈ U := by repeat' first | apply ha | apply hs | assumption
  have e6 : r6 ∈ U := by repeat' first | apply ha | apply hs | assumption
  have e7 : r7 ∈ U := by repeat' first | apply ha | apply hs | assumption
  have e8 : r8 ∈ U := by repeat' first | apply ha | apply hs | assumption
  have h14 : k14 ∈ U := hk _ _ (hs _ _ (by repeat' first | apply ha | apply hs | assumption))
  have h15 : k15 ∈ U := hk _ _ (hs _ _ (by repeat' first | apply ha | apply hs | assumption))
  have h16 : k16 ∈ U := hk _ _ (hs _ _ (by repeat' first | apply ha | apply hs | assumption))
  refine ⟨hy, hyd, hb, hm _ _ (hm _ _ hyd (hs _ _ hd')) hb, ?_, ?_, ?_, ?_⟩
  · show h • (r5 + _ + _ + _ + _) ∈ U
    repeat' first | apply ha | apply hs | assumption
  · show h • (r6 + _ + _ + _ + _) ∈ U
    repeat' first | apply ha | apply hs | assumption
  · show h • (r7 + _ + _ + _ + _) ∈ U
    repeat' first | apply ha | apply hs | assumption
  · show h • (r8 + _ + _ + _ + _) ∈ U
    repeat' first | apply ha | apply hs | assumption

theorem denseOut_in (U : Submodule ℝ (V n)) (y0 : V n) (s : Stepper n) (hs : RcIn U y0 s.rc) (x h : ℝ) :
    denseOut s x h - y0 ∈ U := by
  obtain ⟨h0, h1, h2, h3, h4, h5, h6, h7⟩ := hs
  have ha : ∀ u v, u ∈ U → v ∈ U → u + v ∈ U := fun u v => U.add_mem
  have hs : ∀ (r : ℝ) u, u ∈ U → r • u ∈ U := fun r u => U.smul_mem r
  unfold denseOut
  extract_lets t t1
  rw [add_sub_right_comm]
  repeat' first | apply ha | apply hs | assumption

/-! ## The output buffer -/

/-- Every saved row has its value in `y0 + U`. -/
def Out.RowsIn (U : Submodule ℝ (V n)) (y0 : V n) (o : Out n) : Prop :=
  (o.buf = none ∨ o.Ok) ∧ ∀ r ∈ o.saved, r.2 - y0 ∈ U

theorem Out.save_rows {U : Submodule ℝ (V n)} {y0 : V n} {o : Out n} (h : o.RowsIn U y0) (x : ℝ) {y : V n}
    (hy : y - y0 ∈ U) : (o.save x y).2.RowsIn U y0 := by
  obtain ⟨hb | hok, hr⟩ := h
  · unfold save
    rw [hb]
    exact ⟨Or.inl hb, hr⟩
  · obtain ⟨o', e, ok, hs, -⟩ := Out.save_ok hok x y
    rw [e]
    refine ⟨Or.inr ok, fun r hr' => ?_⟩
    rw [hs, List.mem_append] at hr'
    rcases hr' with h | h
    · exact hr r h
    · rw [List.mem_singleton.mp h]; exact hy

theorem Out.saveDense_rows {U : Submodule ℝ (V n)} {y0 : V n} {o : Out n} (h : o.RowsIn U y0) (x : ℝ) {y : V n}
    (hy : y - y0 ∈ U) : (o.saveDense x y).2.RowsIn U y0 := by
  obtain ⟨hb | hok, hr⟩ := h
  · unfold saveDense
    have hb' : (if (o.count : ℤ) = o.kmax then o.resize else o).buf = none := by
      split_ifs <;> simp [resize, hb]
    simp only
    rw [hb']
    refine ⟨Or.inl hb', fun r hr' => ?_⟩
    simp only [Out.saved, hb'] at hr'
    simp at hr'
  · obtain ⟨o', e, ok, hs, -⟩ := Out.saveDense_ok hok x y
    rw [e]
    refine ⟨Or.inr ok, fun r hr' => ?_⟩
    rw [hs, List.mem_append] at hr'
    rcases hr' with h | h
    · exact hr r h
    · rw [List.mem_singleton.mp h]; exact hy

theorem Out.rows_xout {U : Submodule ℝ (V n)} {y0 : V n} {o : Out n} (h : o.RowsIn U y0) (z : ℝ) :
    ({ o with xout := z } : Out n).RowsIn U y0 := h

/-- `Output.out` keeps the rows in `y0 + U` if the interpolant is there, or if nothing has to be interpolated. -/
theorem Out.out_rows {U : Submodule ℝ (V n)} {y0 : V n} {o : Out n} (h : o.RowsIn U y0) {k : ℤ} {x : ℝ} {y : V n}
    (hy : y - y0 ∈ U) {s : Stepper n} {hh : ℝ} (hs : RcIn U y0 s.rc ∨ x = o.xout ∧ k ≠ 1) {r : Except PyErr Unit} {u : Out n}
    (hr : o.out k x y s hh = some (r, u)) : u.RowsIn U y0 := by
  unfold out at hr
  by_cases hd : o.dense = true
  · rw [if_pos hd] at hr
    by_cases hk : k = 1
    · rw [if_pos hk] at hr
      have hs := Out.save_rows h x hy
      rcases hsv : o.save x y with ⟨_ | _, v⟩
      · rw [hsv] at hr hs
        simp only [Option.some.injEq, Prod.mk.injEq] at hr
        rw [← hr.2]; exact hs
      · rw [hsv] at hr hs
        simp only [Option.some.injEq, Prod.mk.injEq] at hr
        rw [← hr.2]; exact Out.rows_xout hs _
    · rw [if_neg hk] at hr
      rcases hs with hs | ⟨hx, -⟩
      · refine runLoop_invariant (I := Out.RowsIn U y0) (Q := fun r => r.2.RowsIn U y0) ?_ ?_ h hr
        · intro a b ha hb
          unfold outBody at hb
          by_cases hc : (x - a.xout) * (a.x2 - a.x1) > 0
          · rw [if_pos hc] at hb
            have hs := Out.saveDense_rows ha a.xout (denseOut_in U y0 s hs a.xout hh)
            rcases hsv : a.saveDense a.xout (denseOut s a.xout hh) with ⟨_ | _, v⟩
            · rw [hsv] at hb; simp at hb
            · rw [hsv] at hb hs
              simp only [Sum.inl.injEq] at hb
              rw [← hb]; exact Out.rows_xout hs _
          · rw [if_neg hc] at hb; simp at hb
        · intro a b ha hb
          unfold outBody at hb
          by_cases hc : (x - a.xout) * (a.x2 - a.x1) > 0
          · rw [if_pos hc] at hb
            have hs := Out.saveDense_rows ha a.xout (denseOut_in U y0 s hs a.xout hh)
            rcases hsv : a.saveDense a.xout (denseOut s a.xout hh) with ⟨_ | _, v⟩
            · rw [hsv] at hb hs
              simp only [Sum.inr.injEq] at hb
              rw [← hb]; exact hs
            · rw [hsv] at hb; simp at hb
          · rw [if_neg hc] at hb
            simp only [Sum.inr.injEq] at hb
            rw [← hb]; exact ha
      · have : outBody s x hh o = .inr (.ok (), o) := by
          unfold outBody
          rw [hx, if_neg (by simp)]
        rw [runLoop_inr this] at hr
        simp only [Option.some.injEq, Prod.mk.injEq] at hr
        rw [← hr.2]; exact h
  · rw [if_neg hd] at hr
    simp only [Option.some.injEq, Prod.mk.injEq] at hr
    rw [← hr.2]; exact h

/-! ## The integration -/

/-- The invariant of the loop. -/
structure InU (U : Submodule ℝ (V n)) (y0 : V n) (p : Prob n) (o : Ode n) : Prop where
  start : o.ystart - y0 ∈ U
  y : o.s.y - y0 ∈ U
  dydx : o.s.dydx ∈ U
  rows : o.out.RowsIn U y0

theorem clip_in {U : Submodule ℝ (V n)} {y0 : V n} {p : Prob n} {o : Ode n} (h : InU U y0 p o) : InU U y0 p o.clip := by
  unfold Ode.clip
  split_ifs
  · exact ⟨h.start, h.y, h.dydx, h.rows⟩
  · exact h

theorem after_in {U : Submodule ℝ (V n)} {y0 : V n} {p : Prob n} {o : Ode n} (h : InU U y0 p o) : InU U y0 p o.after.2 := by
  unfold Ode.after
  by_cases h1 : (o.s.x - o.x2) * (o.x2 - o.x1) ≥ 0
  · rw [if_pos h1]
    by_cases h2 : o.out.kmax > 0 ∧ |o.out.lastX - o.x2| > 100 * |o.x2| * EPS
    · simp only [if_pos h2]
      have hs := Out.save_rows h.rows o.s.x h.y
      rcases hsv : o.out.save o.s.x o.s.y with ⟨_ | _, v⟩
      · rw [hsv] at hs; exact ⟨h.y, h.y, h.dydx, hs⟩
      · rw [hsv] at hs; exact ⟨h.y, h.y, h.dydx, hs⟩
    · simp only [if_neg h2]
      exact ⟨h.y, h.y, h.dydx, h.rows⟩
  · rw [if_neg h1]
    by_cases h3 : |o.s.hnext| ≤ o.hmin
    · rw [if_pos h3]; exact h
    · rw [if_neg h3]; exact ⟨h.start, h.y, h.dydx, h.rows⟩

theorem iter_in {U : Submodule ℝ (V n)} {y0 : V n} {p : Prob n} (hf : ∀ x y, y - y0 ∈ U → p.f x y ∈ U) {o o' : Ode n} {k : ℕ}
    {r : Except PyErr Bool} (h : InU U y0 p o) (hr : o.iter p k = some (r, o')) : InU U y0 p o' := by
  have hc := clip_in h
  unfold Ode.iter at hr
  generalize o.clip = q at hc hr
  rcases hst : step p q.s q.h q.con with _ | ⟨_ | _, s, c⟩
  · rw [hst] at hr; simp at hr
  · rw [hst] at hr
    simp only [Option.some.injEq, Prod.mk.injEq] at hr
    rw [← hr.2, step_error hst]
    exact ⟨hc.start, hc.y, hc.dydx, hc.rows⟩
  · rw [hst] at hr
    simp only at hr
    obtain ⟨-, hx, -, -, hy, hd, hrc⟩ := step_ok hst
    have hsty := dy_in U p.f y0 hf q.s.x q.s.y q.s.dydx s.hdid hc.y hc.dydx
    have hy' : s.y - y0 ∈ U := by rw [hy]; exact hsty.yout
    have hd' : s.dydx ∈ U := by rw [hd]; exact hf _ _ hy'
    have htook : InU U y0 p (q.took s c) := ⟨hc.start, hy', hd', hc.rows⟩
    have key : ∀ r1 o1, (q.took s c).record p k s.x s.y s.hdid = some (r1, o1) → InU U y0 p o1 := by
      intro r1 o1 hrec
      obtain ⟨u, rfl, ⟨hp, hu⟩ | ⟨-, hu⟩⟩ := record_cases hrec
      · rw [if_pos hp] at hrc
        refine ⟨htook.start, htook.y, htook.dydx, Out.out_rows htook.rows hy' (Or.inl ?_) hu⟩
        show RcIn U y0 s.rc
        rw [hrc]
        exact prepareDense_in U p.f y0 hf _ _ _ _ _ _ hc.y hc.dydx hd' hsty
      · refine ⟨htook.start, htook.y, htook.dydx, ?_⟩
        have := Out.save_rows htook.rows s.x hy'
        rwa [hu] at this
    rcases hrec : (q.took s c).record p k s.x s.y s.hdid with _ | ⟨_ | _, o2⟩
    · rw [hrec] at hr; simp at hr
    · rw [hrec] at hr
      simp only [Option.some.injEq, Prod.mk.injEq] at hr
      rw [← hr.2]; exact key _ _ hrec
    · rw [hrec] at hr
      simp only [Option.some.injEq] at hr
      have := after_in (key _ _ hrec)
      rw [hr] at this
      exact this

theorem loop_in {U : Submodule ℝ (V n)} {y0 : V n} {p : Prob n} (hf : ∀ x y, y - y0 ∈ U → p.f x y ∈ U) (m k : ℕ) {o o' : Ode n}
    {r : Except PyErr Unit} (h : InU U y0 p o) (hr : Ode.loop p m k o = some (r, o')) : InU U y0 p o' := by
  induction m generalizing k o with
  | zero =>
    simp only [Ode.loop, Option.some.injEq, Prod.mk.injEq] at hr
    rw [← hr.2]; exact h
  | succ m ih =>
    unfold Ode.loop at hr
    rcases hi : o.iter p k with _ | ⟨_ | ⟨_ | _⟩, o1⟩
    · rw [hi] at hr; simp at hr
    · rw [hi] at hr
      simp only [Option.some.injEq, Prod.mk.injEq] at hr
      rw [← hr.2]; exact iter_in hf h hi
    · rw [hi] at hr
      exact ih _ (iter_in hf h hi) hr
    · rw [hi] at hr
      simp only [Option.some.injEq, Prod.mk.injEq] at hr
      rw [← hr.2]; exact iter_in hf h hi

theorem Out.new_init_rows (U : Submodule ℝ (V n)) (y0 : V n) (ns : Option ℕ) (x1 x2 : ℝ) :
    ((Out.new ns : Out n).init x1 x2).RowsIn U y0 := by
  rcases ns with _ | k
  · refine ⟨Or.inl (by simp [Out.new, Out.init]), fun r hr => ?_⟩
    simp [Out.new, Out.init, Out.saved] at hr
  · obtain ⟨ok, hc⟩ := Out.init_ok (o := (Out.new (some k) : Out n)) (by simp [Out.new]) (by simp [Out.new]) x1 x2
    refine ⟨Or.inr ok, fun r hr => ?_⟩
    obtain ⟨-, -, xs, ys, hb, -⟩ := ok
    have h0 : ((Out.new (some k) : Out n).init x1 x2).count = 0 := by rw [hc]; rfl
    simp only [Out.saved, hb, h0, List.take_zero, List.zip_nil_left] at hr
    simp at hr

theorem Out.init_xout {o : Out n} {x1 x2 : ℝ} (hk : o.kmax ≠ -1) (hd : (o.init x1 x2).dense = true) :
    (o.init x1 x2).xout = x1 := by
  unfold init at hd ⊢
  rw [if_neg hk] at hd ⊢
  rcases hb : o.dense with _ | _
  · simp only [hb, Bool.false_eq_true, if_false] at hd
  · simp only [if_true]

/-- C108: let the right-hand side, on the affine subspace `y0 + U` through the initial value, take values in the
real subspace `U`.  Then whatever the tolerances, the step control and the output grid do, and however the
integration ends, every saved row and the caller's array are in `y0 + U`. -/
theorem C108_affine (U : Submodule ℝ (V n)) (p : Prob n) (y0 : V n) (hf : ∀ x y, y - y0 ∈ U → p.f x y ∈ U) (con : Con)
    (x1 x2 h1 hmin : ℝ) (ns : Option ℕ) (r : Except PyErr Unit) (o' : Ode n)
    (hr : (Ode.new con y0 x1 x2 h1 hmin (Out.new ns)).integrate p = some (r, o')) :
    (∀ row ∈ o'.out.saved, row.2 - y0 ∈ U) ∧ o'.ystart - y0 ∈ U := by
  have h00 : y0 - y0 ∈ U := by rw [sub_self]; exact U.zero_mem
  have hout := Out.new_init_rows U y0 ns x1 x2
  unfold Ode.integrate at hr
  simp only [Ode.new] at hr
  have key : ∀ r1 o1, Ode.record p { Ode.new con y0 x1 x2 h1 hmin (Out.new ns) with
        s := { (Ode.new con y0 x1 x2 h1 hmin (Out.new ns)).s with dydx := p.f x1 y0 } } (-1) x1 y0
        (|h1| * SignType.sign (x2 - x1)) = some (r1, o1) → InU U y0 p o1 := by
    intro r1 o1 hrec
    obtain ⟨u, rfl, ⟨-, hu⟩ | ⟨-, hu⟩⟩ := record_cases hrec
    · refine ⟨h00, h00, hf _ _ h00, ?_⟩
      by_cases hd : ((Out.new ns : Out n).init x1 x2).dense = true
      · refine Out.out_rows hout h00 (Or.inr ⟨?_, by norm_num⟩) hu
        show x1 = ((Out.new ns : Out n).init x1 x2).xout
        rcases ns with _ | k
        · simp [Out.new, Out.init] at hd
        · exact (Out.init_xout (by simp [Out.new]) hd).symm
      · unfold Out.out at hu
        have hd' : ¬ (Ode.new con y0 x1 x2 h1 hmin (Out.new ns)).out.dense = true := hd
        simp only [if_neg hd', Option.some.injEq, Prod.mk.injEq] at hu
        rw [← hu.2]; exact hout
    · refine ⟨h00, h00, hf _ _ h00, ?_⟩
      have := Out.save_rows hout x1 h00
      have hu' : ((Out.new ns : Out n).init x1 x2).save x1 y0 = (r1, u) := hu
      rw [hu'] at this
      exact this
  simp only [Ode.new] at key
  generalize hrec : Ode.record p _ (-1) x1 y0 (|h1| * SignType.sign (x2 - x1)) = q at hr
  rcases q with _ | ⟨_ | _, o2⟩
  · simp at hr
  · simp only [Option.some.injEq, Prod.mk.injEq] at hr
    have := key _ _ hrec
    rw [hr.2] at this
    exact ⟨this.rows.2, this.start⟩
  · have := loop_in hf _ _ (key _ _ hrec) hr
    exact ⟨this.rows.2, this.start⟩

/-- C108: a linear quantity that the equations conserve has the same value in every saved row and in the final
value as at the start. -/
theorem C108_linear_invariant (ℓ : V n →ₗ[ℝ] ℝ) (p : Prob n) (hf : ∀ x y, ℓ (p.f x y) = 0) (con : Con) (y0 : V n)
    (x1 x2 h1 hmin : ℝ) (ns : Option ℕ) (r : Except PyErr Unit) (o' : Ode n)
    (hr : (Ode.new con y0 x1 x2 h1 hmin (Out.new ns)).integrate p = some (r, o')) :
    (∀ row ∈ o'.out.saved, ℓ row.2 = ℓ y0) ∧ ℓ o'.ystart = ℓ y0 := by
  obtain ⟨a, b⟩ := C108_affine (LinearMap.ker ℓ) p y0 (fun x y _ => LinearMap.mem_ker.mpr (hf x y)) con x1 x2 h1 hmin ns r o' hr
  refine ⟨fun row hrow => ?_, ?_⟩
  · have := LinearMap.mem_ker.mp (a row hrow)
    rwa [map_sub, sub_eq_zero] at this
  · have := LinearMap.mem_ker.mp b
    rwa [map_sub, sub_eq_zero] at this

/-- The real vectors. -/
def realVecs (n : ℕ) : Submodule ℝ (V n) where
  carrier := {v | ∀ i, (v i).im = 0}
  zero_mem' := fun i => rfl
  add_mem' := fun {a b} ha hb i => by simp [ha i, hb i]
  smul_mem' := fun c v hv i => by simp [hv i]

/-- C108: equations with real right-hand sides on real values, started at a real value, give real rows. -/
theorem C108_real (p : Prob n) (hf : ∀ x y, (∀ i, (y i).im = 0) → ∀ i, (p.f x y i).im = 0) (con : Con) (y0 : V n)
    (hy : ∀ i, (y0 i).im = 0) (x1 x2 h1 hmin : ℝ) (ns : Option ℕ) (r : Except PyErr Unit) (o' : Ode n)
    (hr : (Ode.new con y0 x1 x2 h1 hmin (Out.new ns)).integrate p = some (r, o')) :
    (∀ row ∈ o'.out.saved, ∀ i, (row.2 i).im = 0) ∧ ∀ i, (o'.ystart i).im = 0 := by
  have him : ∀ y : V n, y - y0 ∈ realVecs n → ∀ i, (y i).im = 0 := by
    intro y h i
    have := h i
    simpa [hy i] using this
  obtain ⟨a, b⟩ := C108_affine (realVecs n) p y0 (fun x y h => hf x y (him y h)) con x1 x2 h1 hmin ns r o' hr
  exact ⟨fun row hrow => him _ (a row hrow), him _ b⟩

/-- C108: the hypotheses are met, e.g. two populations exchanging members at a rate that depends on both and on the
position: the sum is conserved, the equations are real, and neither population is constant. -/
theorem C108_nonvacuous : ∃ (f : Rhs 2) (ℓ : V 2 →ₗ[ℝ] ℝ), (∀ x y, ℓ (f x y) = 0) ∧
    (∀ x y, (∀ i, (y i).im = 0) → ∀ i, (f x y i).im = 0) ∧ f 1 (fun _ => 1) 0 ≠ 0 ∧ ℓ (fun _ => 1) ≠ 0 := by
  refine ⟨fun x y => ![x * y 0 * y 1, -(x * y 0 * y 1)],
    { toFun := fun v => (v 0).re + (v 1).re, map_add' := fun a b => by simp; ring, map_smul' := fun c v => by simp; ring },
    ?_, ?_, ?_, ?_⟩
  · intro x y; simp
  · intro x y hy i
    fin_cases i <;> simp [hy 0, hy 1]
  · simp
  · simp

end PyNLO.Ode
