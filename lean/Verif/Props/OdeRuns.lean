import Verif.Props.OdeGrid

/-!
# Whole integrations: saved grid, independence of history (C57, C60)
-/

namespace PyNLO.Ode

variable {n : ℕ}

/-! ## The dense-output loop -/

theorem Out.saved_length {o : Out n} (h : o.Ok) : o.saved.length = o.count := by
  obtain ⟨h0, h1, xs, ys, hb, hx, hy⟩ := h
  simp only [saved, hb, List.length_zip, List.length_take]
  omega

theorem Out.ok_xout {o : Out n} (h : o.Ok) (z : ℝ) : ({ o with xout := z } : Out n).Ok := h

/-- Outside the second step, `out` appends the grid points below the current position, interpolated from
the current step. -/
theorem Out.out_grid {o u : Out n} {a : ℝ} (hok : o.Ok) (hx : o.xout = a + o.count * o.dxout) (hd : o.dense = true)
    {k : ℤ} (hk : k ≠ 1) {x h : ℝ} {y : V n} {s : Stepper n} {r : Except PyErr Unit}
    (hr : o.out k x y s h = some (r, u)) :
    r = .ok () ∧ u.Ok ∧ u.xout = a + u.count * u.dxout ∧ ¬ (x - u.xout) * (o.x2 - o.x1) > 0 ∧
    ∃ m, u.count = o.count + m ∧
      (∀ i < m, (x - (a + ((o.count + i : ℕ) : ℝ) * o.dxout)) * (o.x2 - o.x1) > 0) ∧
      u.saved = o.saved ++ (List.range m).map fun i => (a + ((o.count + i : ℕ) : ℝ) * o.dxout,
        denseOut s (a + ((o.count + i : ℕ) : ℝ) * o.dxout) h) := by
  unfold out at hr
  rw [if_pos hd, if_neg hk] at hr
  let I : Out n → Prop := fun v => v.Ok ∧ v.xout = a + v.count * v.dxout ∧ o.SameDom v ∧
    ∃ m, v.count = o.count + m ∧
      (∀ i < m, (x - (a + ((o.count + i : ℕ) : ℝ) * o.dxout)) * (o.x2 - o.x1) > 0) ∧
      v.saved = o.saved ++ (List.range m).map fun i => (a + ((o.count + i : ℕ) : ℝ) * o.dxout,
        denseOut s (a + ((o.count + i : ℕ) : ℝ) * o.dxout) h)
  have key := runLoop_invariant (I := I) (Q := fun q => q.1 = .ok () ∧ I q.2 ∧
      ¬ (x - q.2.xout) * (o.x2 - o.x1) > 0) ?_ ?_ (⟨hok, hx, .rfl' o, 0, rfl, by simp, by simp⟩ : I o) hr
  · exact ⟨key.1, key.2.1.1, key.2.1.2.1, key.2.2, key.2.1.2.2.2⟩
  · rintro v w ⟨v1, v2, v3, m, v4, v5, v6⟩ hb
    unfold outBody at hb
    by_cases hc : (x - v.xout) * (v.x2 - v.x1) > 0
    · rw [if_pos hc] at hb
      obtain ⟨z, hz, zok, zs, zc, zg⟩ := Out.saveDense_ok v1 v.xout (denseOut s v.xout h)
      rw [hz] at hb
      simp only [Sum.inl.injEq] at hb
      subst hb
      obtain ⟨g1, g2, g3, g4, g5, g6⟩ := zg
      have hxo : v.xout = a + ((o.count + m : ℕ) : ℝ) * o.dxout := by rw [v2, v4, v3.2.2.2.1]
      refine ⟨Out.ok_xout zok _, ?_, v3.trans ⟨g1, g2, g3, g5, g6⟩, m + 1, by simp only; omega, ?_, ?_⟩
      · simp only
        rw [g4, g5, zc, v2]; push_cast; ring
      · intro i hi
        rcases Nat.lt_succ_iff_lt_or_eq.mp hi with hi | rfl
        · exact v5 i hi
        · rw [← hxo]; rwa [v3.2.1, v3.2.2.1] at hc
      · show z.saved = _
        rw [zs, v6, List.range_succ, List.map_append, ← List.append_assoc, hxo]
        rfl
    · rw [if_neg hc] at hb; simp at hb
  · rintro v q ⟨v1, v2, v3, v4⟩ hb
    unfold outBody at hb
    by_cases hc : (x - v.xout) * (v.x2 - v.x1) > 0
    · rw [if_pos hc] at hb
      obtain ⟨z, hz, -⟩ := Out.saveDense_ok v1 v.xout (denseOut s v.xout h)
      rw [hz] at hb; simp at hb
    · rw [if_neg hc] at hb
      simp only [Sum.inr.injEq] at hb
      subst hb
      refine ⟨rfl, ⟨v1, v2, v3, v4⟩, ?_⟩
      rwa [v3.2.1, v3.2.2.1] at hc

/-- At the second step it appends the current point and skips one grid point. -/
theorem Out.out_second {o u : Out n} {a : ℝ} (hok : o.Ok) (hx : o.xout = a + o.count * o.dxout) (hd : o.dense = true)
    {x h : ℝ} {y : V n} {s : Stepper n} {r : Except PyErr Unit} (hr : o.out 1 x y s h = some (r, u)) :
    r = .ok () ∧ u.Ok ∧ u.xout = a + u.count * u.dxout ∧ u.count = o.count + 1 ∧ u.saved = o.saved ++ [(x, y)] := by
  unfold out at hr
  rw [if_pos hd, if_pos rfl] at hr
  obtain ⟨z, hz, zok, zs, zc, zg⟩ := Out.save_ok hok x y
  rw [hz] at hr
  simp only [Option.some.injEq, Prod.mk.injEq] at hr
  obtain ⟨h1, rfl⟩ := hr
  obtain ⟨g1, g2, g3, g4, g5, g6⟩ := zg
  refine ⟨h1.symm, Out.ok_xout zok _, ?_, zc, zs⟩
  simp only
  rw [g4, g5, zc, hx]; push_cast; ring

/-! ## C57: the saved abscissae -/

/-- All saved abscissae are grid points with their index, but for the one numbered `m`, which is the position
after the second step. -/
def OnGrid (a dx : ℝ) (visited : List ℝ) (l : List (ℝ × V n)) : Prop :=
  ∃ m, ∀ j (hj : j < l.length), l[j].1 = a + j * dx ∨ (j = m ∧ visited[1]? = some l[j].1)

/-- All saved abscissae are grid points. -/
def OnGrid0 (a dx : ℝ) (l : List (ℝ × V n)) : Prop := ∀ j (hj : j < l.length), l[j].1 = a + j * dx

/-- State of the output during an integration with dense output. -/
structure Logged (a dx : ℝ) (o : Ode n) (v : ℕ) : Prop where
  ok : o.out.Ok
  dense : o.out.dense = true
  hdx : o.out.dxout = dx
  xout : o.out.xout = a + o.out.count * o.out.dxout
  len : o.visited.length = v
  first : v ≤ 1 → OnGrid0 a dx o.out.saved
  grid : OnGrid a dx o.visited o.out.saved

theorem getElem_fst_append {l l' : List (ℝ × V n)} {j : ℕ} (hj : j < (l ++ l').length) :
    (∃ h : j < l.length, (l ++ l')[j].1 = l[j].1) ∨
      (l.length ≤ j ∧ ∃ h : j - l.length < l'.length, (l ++ l')[j].1 = l'[j - l.length].1) := by
  by_cases h : j < l.length
  · left; exact ⟨h, by rw [List.getElem_append_left h]⟩
  · right
    have h' : l.length ≤ j := not_lt.mp h
    refine ⟨h', by simp at hj; omega, by rw [List.getElem_append_right h']⟩

theorem grid0_append {a dx : ℝ} {l : List (ℝ × V n)} (h : OnGrid0 a dx l) (m : ℕ) (f : ℝ → V n) :
    OnGrid0 a dx (l ++ (List.range m).map fun i => (a + ((l.length + i : ℕ) : ℝ) * dx,
      f (a + ((l.length + i : ℕ) : ℝ) * dx))) := by
  intro j hj
  rcases getElem_fst_append hj with ⟨h1, h2⟩ | ⟨h1, h2, h3⟩
  · rw [h2]; exact h j h1
  · rw [h3]
    simp only [List.getElem_map, List.getElem_range]
    rw [Nat.add_sub_cancel' h1]

theorem grid_append {a dx : ℝ} {v : List ℝ} {l : List (ℝ × V n)} (h : OnGrid a dx v l) (m : ℕ) (f : ℝ → V n) :
    OnGrid a dx v (l ++ (List.range m).map fun i => (a + ((l.length + i : ℕ) : ℝ) * dx,
      f (a + ((l.length + i : ℕ) : ℝ) * dx))) := by
  obtain ⟨m', h⟩ := h
  refine ⟨m', fun j hj => ?_⟩
  rcases getElem_fst_append hj with ⟨h1, h2⟩ | ⟨h1, h2, h3⟩
  · rw [h2]; exact h j h1
  · left
    rw [h3]
    simp only [List.getElem_map, List.getElem_range]
    rw [Nat.add_sub_cancel' h1]

theorem OnGrid0.weaken {a dx : ℝ} {l : List (ℝ × V n)} (h : OnGrid0 a dx l) (v : List ℝ) : OnGrid a dx v l :=
  ⟨0, fun j hj => Or.inl (h j hj)⟩

/-- Recording the point after a step keeps the log on the grid. -/
theorem record_logged {p : Prob n} (hp : p.dense = true) {a dx : ℝ} {o o' : Ode n} {k : ℕ} (hlen : o.visited.length = k + 1)
    (hok : o.out.Ok) (hd : o.out.dense = true) (hdx : o.out.dxout = dx) (hx : o.out.xout = a + o.out.count * o.out.dxout)
    (hfirst : k ≤ 1 → OnGrid0 a dx o.out.saved) (hgrid : OnGrid a dx o.visited o.out.saved)
    (hlast : o.visited[k]? = some o.s.x) {h : ℝ} {r : Except PyErr Unit}
    (hr : o.record p k o.s.x o.s.y h = some (r, o')) : r = .ok () ∧ Logged a dx o' (k + 1) := by
  obtain ⟨u, rfl, ⟨-, hu⟩ | ⟨hp', -⟩⟩ := record_cases hr
  · have hdom := Out.out_dom hu
    have hl := Out.saved_length hok
    by_cases hk : k = 1
    · subst hk
      obtain ⟨h1, h2, h3, h4, h5⟩ := Out.out_second (a := a) hok hx hd hu
      refine ⟨h1, h2, by simp only; rw [hdom.1, hd], by simp only; rw [hdom.2.2.2.1, hdx], h3, hlen, fun h => by omega, ?_⟩
      have h0 := hfirst (le_refl _)
      refine ⟨o.out.saved.length, fun j hj => ?_⟩
      simp only [h5] at hj ⊢
      rcases getElem_fst_append hj with ⟨g1, g2⟩ | ⟨g1, g2, g3⟩
      · left; rw [g2]; exact h0 j g1
      · right
        simp only [List.length_singleton] at g2
        refine ⟨by omega, ?_⟩
        rw [g3, hlast]
        simp
    · obtain ⟨h1, h2, h3, -, m, h4, -, h5⟩ := Out.out_grid (a := a) hok hx hd (by exact_mod_cast hk) hu
      rw [hdx, ← hl] at h5
      refine ⟨h1, h2, by simp only; rw [hdom.1, hd], by simp only; rw [hdom.2.2.2.1, hdx], h3, hlen, ?_, ?_⟩
      · intro hk1
        simp only; rw [h5]
        exact grid0_append (hfirst (by omega)) m (fun z => denseOut o.s z h)
      · simp only; rw [h5]
        exact grid_append hgrid m (fun z => denseOut o.s z h)
  · rw [hp] at hp'; simp at hp'

/-- One pass of the loop. -/
theorem iter_logged {p : Prob n} (hp : p.dense = true) {a dx : ℝ} {o o' : Ode n} {k : ℕ} (hl : Logged a dx o k)
    {r : Except PyErr Bool} (hr : o.iter p k = some (r, o')) :
    (r = .ok false → Logged a dx o' (k + 1)) ∧
    (∃ l, OnGrid a dx o'.visited l ∧ (o'.out.saved = l ∨ r = .ok true ∧ o'.out.saved = l ++ [(o'.s.x, o'.s.y)])) := by
  have hclip : ∃ h', o.clip = { o with h := h' } := by
    unfold Ode.clip; split_ifs
    · exact ⟨_, rfl⟩
    · exact ⟨o.h, rfl⟩
  obtain ⟨h', hclip⟩ := hclip
  unfold Ode.iter at hr
  rw [hclip] at hr
  simp only at hr
  rcases hst : step p o.s h' o.con with _ | ⟨_ | _, s, c⟩
  · rw [hst] at hr; simp at hr
  · rw [hst] at hr
    simp only [Option.some.injEq, Prod.mk.injEq] at hr
    obtain ⟨rfl, rfl⟩ := hr
    exact ⟨by simp, _, hl.grid, Or.inl rfl⟩
  · rw [hst] at hr
    simp only at hr
    set o1 := Ode.took { o with h := h' } s c with ho1
    have hv1 : o1.visited = o.visited ++ [s.x] := rfl
    have hlast : o1.visited[k]? = some o1.s.x := by
      rw [hv1, ← hl.len]; simp [ho1, Ode.took]
    have hgrid1 : OnGrid a dx o1.visited o1.out.saved := by
      obtain ⟨m, hm⟩ := hl.grid
      by_cases hk : k ≤ 1
      · exact (hl.first hk).weaken _
      · refine ⟨m, fun j hj => ?_⟩
        rcases hm j hj with h1 | ⟨h1, h2⟩
        · exact Or.inl h1
        · right
          refine ⟨h1, ?_⟩
          rw [hv1, List.getElem?_append_left (by have := hl.len; omega)]
          exact h2
    rcases hrec : o1.record p k s.x s.y s.hdid with _ | ⟨r2, o2⟩
    · rw [hrec] at hr; simp at hr
    · obtain ⟨rfl, hlog⟩ := record_logged hp (o := o1) (k := k) (by rw [hv1]; simp [hl.len]) hl.ok hl.dense hl.hdx hl.xout
        hl.first hgrid1 hlast hrec
      rw [hrec] at hr
      simp only [Option.some.injEq] at hr
      rcases after_cases (o := o2) (Or.inr hlog.ok) with ⟨-, u, -, hu, ha⟩ | ⟨-, -, ha⟩ | ⟨-, -, ha⟩
      · rw [ha] at hr
        simp only [Prod.mk.injEq] at hr
        obtain ⟨rfl, rfl⟩ := hr
        refine ⟨by simp, o2.out.saved, hlog.grid, ?_⟩
        rcases hu with rfl | ⟨hu, -⟩
        · exact Or.inl rfl
        · obtain ⟨z, hz, -, hzs, -⟩ := Out.save_ok hlog.ok o2.s.x o2.s.y
          rw [hz] at hu
          simp only [Prod.mk.injEq, true_and] at hu
          subst hu
          exact Or.inr ⟨rfl, hzs⟩
      · rw [ha] at hr
        simp only [Prod.mk.injEq] at hr
        obtain ⟨rfl, rfl⟩ := hr
        exact ⟨by simp, _, hlog.grid, Or.inl rfl⟩
      · rw [ha] at hr
        simp only [Prod.mk.injEq] at hr
        obtain ⟨rfl, rfl⟩ := hr
        exact ⟨fun _ => ⟨hlog.ok, hlog.dense, hlog.hdx, hlog.xout, hlog.len, hlog.first, hlog.grid⟩, _, hlog.grid, Or.inl rfl⟩

theorem loop_logged {p : Prob n} (hp : p.dense = true) {a dx : ℝ} (m k : ℕ) {o o' : Ode n} (hl : Logged a dx o k)
    {r : Except PyErr Unit} (hr : Ode.loop p m k o = some (r, o')) :
    ∃ l, OnGrid a dx o'.visited l ∧ (o'.out.saved = l ∨ r = .ok () ∧ o'.out.saved = l ++ [(o'.s.x, o'.s.y)]) := by
  induction m generalizing k o with
  | zero =>
    simp only [Ode.loop, Option.some.injEq, Prod.mk.injEq] at hr
    obtain ⟨rfl, rfl⟩ := hr
    exact ⟨_, hl.grid, Or.inl rfl⟩
  | succ m ih =>
    unfold Ode.loop at hr
    rcases hi : o.iter p k with _ | ⟨r1, o1⟩
    · rw [hi] at hr; simp at hr
    · rw [hi] at hr
      obtain ⟨h1, l, h2, h3⟩ := iter_logged hp hl hi
      rcases r1 with e | _ | _
      · simp only [Option.some.injEq, Prod.mk.injEq] at hr
        obtain ⟨rfl, rfl⟩ := hr
        exact ⟨l, h2, by simpa using h3⟩
      · exact ih _ (h1 rfl) hr
      · simp only [Option.some.injEq, Prod.mk.injEq] at hr
        obtain ⟨rfl, rfl⟩ := hr
        exact ⟨l, h2, by simpa using h3⟩

/-- The state in which the loop of a fresh dense integration is entered. -/
theorem integrate_start (p : Prob n) (hp : p.dense = true) (con : Con) (y0 : V n) (x1 x2 h1 hmin : ℝ) (ns : ℕ) (hns : 0 < ns) :
    ∃ o, (Ode.new con y0 x1 x2 h1 hmin (Out.new (some ns))).integrate p = Ode.loop p 50000 0 o ∧
      Logged x1 ((x2 - x1) / ns) o 0 ∧ o.out.saved = [] ∧ o.out.x1 = x1 ∧ o.out.x2 = x2 ∧ o.x1 = x1 ∧ o.x2 = x2 ∧
      o.s.x = x1 ∧ o.s.y = y0 ∧ o.s.dydx = p.f x1 y0 ∧ o.h = |h1| * SignType.sign (x2 - x1) ∧ o.con = con ∧ o.hmin = hmin ∧ o.out.Grid := by
  have hdo : (Out.new (some ns) : Out n).dense = true := by simpa [Out.new] using hns
  obtain ⟨i1, i2, i3, i4, i5, i6⟩ := Out.init_dense (o := (Out.new (some ns) : Out n)) (by simp [Out.new]) hdo x1 x2
  obtain ⟨j1, j2⟩ := Out.init_ok (o := (Out.new (some ns) : Out n)) (by simp [Out.new]) (by simp [Out.new]) x1 x2
  have j3 : ((Out.new (some ns) : Out n).init x1 x2).count = 0 := j2
  have j4 : ((Out.new (some ns) : Out n).init x1 x2).saved = [] := by
    rw [← List.length_eq_zero_iff, Out.saved_length j1, j3]
  unfold Ode.integrate
  simp only
  set o : Ode n := { Ode.new con y0 x1 x2 h1 hmin (Out.new (some ns)) with
    s := { (Ode.new con y0 x1 x2 h1 hmin (Out.new (some ns))).s with
      dydx := p.f (Ode.new con y0 x1 x2 h1 hmin (Out.new (some ns))).x1
        (Ode.new con y0 x1 x2 h1 hmin (Out.new (some ns))).ystart } } with ho
  have hrec : o.record p (-1) x1 y0 o.h = some (.ok (), o) := by
    unfold Ode.record
    rw [hp, if_pos rfl]
    have : o.out.out (-1) x1 y0 o.s o.h = some (.ok (), o.out) := by
      unfold Out.out
      have h1 : o.out.dense = true := i1
      rw [if_pos h1, if_neg (by norm_num)]
      apply runLoop_inr
      unfold Out.outBody
      rw [if_neg]
      have h2 : o.out.xout = x1 := i4
      rw [h2]; simp
    rw [this]
  have hx1 : (Ode.new con y0 x1 x2 h1 hmin (Out.new (some ns))).x1 = x1 := rfl
  have hys : (Ode.new con y0 x1 x2 h1 hmin (Out.new (some ns))).ystart = y0 := rfl
  have hh : (Ode.new con y0 x1 x2 h1 hmin (Out.new (some ns))).h = o.h := rfl
  refine ⟨o, ?_, ⟨j1, i1, i5, ?_, rfl, ?_, ?_⟩, j4, i2, i3, rfl, rfl, rfl, rfl, rfl, rfl, rfl, rfl,
    Out.init_grid (some ns) x1 x2⟩
  · rw [hx1, hys, hh, hrec]
  · show ((Out.new (some ns) : Out n).init x1 x2).xout = _
    rw [i4]
    show x1 = x1 + ((((Out.new (some ns) : Out n).init x1 x2).count : ℕ) : ℝ) * _
    rw [j3]; simp
  · intro _ j hj
    have : o.out.saved = [] := j4
    simp [this] at hj
  · refine ⟨0, fun j hj => ?_⟩
    have : o.out.saved = [] := j4
    simp [this] at hj

/-- C57, what holds of every dense integration, however it ends: the `j`-th saved abscissa is
`x1 + j*(x2-x1)/nsave`, with at most two exceptions: one is the position after the second step, the other is
the last one, the end point.  Missing (and false in general): the order of the abscissae, that no grid
point is left out, and that each is interpolated from the step that contains it. -/
theorem C57_grid_partial (p : Prob n) (hp : p.dense = true) (hfl : Rounds p.fl) (con : Con) (y0 : V n) (x1 x2 h1 hmin : ℝ)
    (ns : ℕ) (hns : 0 < ns) (r : Except PyErr Unit) (o' : Ode n)
    (hr : (Ode.new con y0 x1 x2 h1 hmin (Out.new (some ns))).integrate p = some (r, o')) :
    ∃ m, ∀ j (hj : j < o'.out.saved.length), o'.out.saved[j].1 = x1 + j * ((x2 - x1) / ns) ∨
      (j = m ∧ o'.visited[1]? = some o'.out.saved[j].1) ∨
      (r = .ok () ∧ j + 1 = o'.out.saved.length ∧ o'.out.saved[j] = (x2, o'.ystart)) := by
  have hend := integrate_spec hfl (Out.usable_new (some ns)) hr
  obtain ⟨o, h0, hl, -⟩ := integrate_start p hp con y0 x1 x2 h1 hmin ns hns
  rw [h0] at hr
  obtain ⟨l, ⟨m, hm⟩, hs⟩ := loop_logged hp _ _ hl hr
  refine ⟨m, fun j hj => ?_⟩
  rcases hs with hs | ⟨hok, hs⟩
  · simp only [hs] at hj ⊢
    rcases hm j hj with h | h
    · exact Or.inl h
    · exact Or.inr (Or.inl h)
  · simp only [hs] at hj ⊢
    by_cases hjl : j < l.length
    · rw [List.getElem_append_left hjl]
      rcases hm j hjl with h | h
      · exact Or.inl h
      · exact Or.inr (Or.inl h)
    · right; right
      have : j = l.length := by simp at hj; omega
      subst this
      rcases hend with ⟨-, e1, e2, -⟩ | ⟨e, he, -⟩
      · refine ⟨hok, by simp, ?_⟩
        rw [List.getElem_append_right (le_refl _)]
        simp [e1, e2]
      · rw [hok] at he; simp at he

/-! ## The problem `y' = 1` -/

/-- `y' = 1`, one component, absolute tolerance one. -/
noncomputable def unitProb (dense : Bool) : Prob 1 := ⟨fun _ _ _ => 1, 1, 0, dense, id⟩

open dc in
theorem unit_stages (x : ℝ) (y : V 1) (h : ℝ) :
    (dy (fun _ _ _ => 1) x y (fun _ => 1) h).yerr2 = (fun _ => ((er1 + er6 + er7 + er8 + er9 + er10 + er11 + er12 : ℝ) : ℂ)) ∧
    (dy (fun _ _ _ => 1) x y (fun _ => 1) h).yerr =
      (fun _ => ((b1 + b6 + b7 + b8 + b9 + b10 + b11 + b12 - bhh1 - bhh2 - bhh3 : ℝ) : ℂ)) := by
  constructor <;> funext i <;> simp [dy]

open dc in
theorem unit_error (x : ℝ) (y : V 1) (h : ℝ) (h0 : h ≠ 0) (h1 : |h| ≤ 1) :
    ∃ e, error 1 0 y (dy (fun _ _ _ => 1) x y (fun _ => 1) h) h = .val e ∧ 0 < e ∧ e ≤ 1e-8 := by
  obtain ⟨g1, g2⟩ := unit_stages x y h
  set ε := er1 + er6 + er7 + er8 + er9 + er10 + er11 + er12 with hε
  set β := b1 + b6 + b7 + b8 + b9 + b10 + b11 + b12 - bhh1 - bhh2 - bhh3
  have hε0 : ε ≠ 0 := by
    rw [hε]; norm_num [er1, er6, er7, er8, er9, er10, er11, er12]
  have hε1 : |ε| ≤ 1e-8 := by
    rw [hε, abs_le]; constructor <;> norm_num [er1, er6, er7, er8, er9, er10, er11, er12]
  clear_value ε β
  have hs1 : errSum (errScale 1 0 y (dy (fun _ _ _ => 1) x y (fun _ => 1) h).yout)
      (dy (fun _ _ _ => 1) x y (fun _ => 1) h).yerr2 = ε ^ 2 := by
    rw [g1]; simp [errSum, errScale]
  have hs2 : errSum (errScale 1 0 y (dy (fun _ _ _ => 1) x y (fun _ => 1) h).yout)
      (dy (fun _ _ _ => 1) x y (fun _ => 1) h).yerr = β ^ 2 := by
    rw [g2]; simp [errSum, errScale]
  have hpos : 0 < ε ^ 2 := by positivity
  have hden : 0 < ε ^ 2 + 0.01 * β ^ 2 := by positivity
  unfold error
  simp only [hs1, hs2]
  rw [if_neg (not_lt.mpr hden.le), if_neg (by
    push Not
    refine ⟨fun i => by simp [errScale], ?_⟩
    simp only [Nat.cast_one, mul_one]
    exact hden.ne')]
  refine ⟨_, rfl, by positivity, ?_⟩
  simp only [Nat.cast_one, mul_one]
  have hsq : √(1 / (ε ^ 2 + 0.01 * β ^ 2)) ≤ 1 / |ε| := by
    rw [show 1 / |ε| = √(1 / ε ^ 2) by
      rw [Real.sqrt_div zero_le_one, Real.sqrt_one, Real.sqrt_sq_eq_abs]]
    apply Real.sqrt_le_sqrt
    apply one_div_le_one_div_of_le hpos
    nlinarith [sq_nonneg β]
  have hε2 : |ε ^ 2| = |ε| * |ε| := by rw [abs_pow]; ring
  rw [abs_of_nonneg (by positivity), hε2]
  have habs : 0 < |ε| := abs_pos.mpr hε0
  calc |h| * (|ε| * |ε|) * √(1 / (ε ^ 2 + 0.01 * β ^ 2)) ≤ 1 * (|ε| * |ε|) * (1 / |ε|) := by gcongr
    _ = |ε| := by field_simp
    _ ≤ 1e-8 := hε1

theorem acceptScale_tiny {e : ℝ} (h0 : 0 < e) (h1 : e ≤ 1e-8) : acceptScale e = 6 := by
  have hp : (10 : ℝ) ≤ e ^ (-(1 / 8 : ℝ)) := by
    have : ((1e-8 : ℝ)) ^ (-(1 / 8 : ℝ)) = 10 := by
      rw [show (1e-8 : ℝ) = 10 ^ (-8 : ℝ) by
        rw [Real.rpow_neg (by norm_num), show (8 : ℝ) = ((8 : ℕ) : ℝ) by norm_num, Real.rpow_natCast]; norm_num,
        ← Real.rpow_mul (by norm_num)]
      norm_num
    rw [← this]
    exact Real.rpow_le_rpow_of_nonpos h0 h1 (by norm_num)
  unfold acceptScale
  simp only
  have h2 : ¬ 0.9 * e ^ (-(1 / 8 : ℝ)) < 0.333 := by norm_num at *; linarith
  have h3 : 0.9 * e ^ (-(1 / 8 : ℝ)) > 6 := by norm_num at *; linarith
  rw [if_neg h0.ne', if_neg h2, if_pos h3]

/-- A step of the unit problem. -/
theorem unit_step (b : Bool) (s : Stepper 1) (hd : s.dydx = fun _ => 1) (h : ℝ) (h0 : h ≠ 0) (h1 : |h| ≤ 1) (c : Con) :
    ∃ s' c', step (unitProb b) s h c = some (.ok (), s', c') ∧ s'.x = s.x + h ∧ s'.hdid = h ∧
      s'.hnext = (if c.reject then h else 6 * h) ∧ s'.dydx = (fun _ => 1) ∧ c'.reject = false := by
  obtain ⟨e, he, e0, e1⟩ := unit_error s.x s.y h h0 h1
  have hloop : stepLoop (unitProb b).fl (fun h => error (unitProb b).atol (unitProb b).rtol s.y
      (dy (unitProb b).f s.x s.y s.dydx h) h) s.x h c = some (.ok h,
        ⟨if c.reject then h * min (acceptScale e) 1 else h * acceptScale e, max e 1e-4, false⟩) := by
    refine runLoop_inr ?_
    rcases stepBody_cases (unitProb b).fl (fun h => error (unitProb b).atol (unitProb b).rtol s.y
      (dy (unitProb b).f s.x s.y s.dydx h) h) s.x ⟨.val h, c⟩ with
        ⟨h2, -⟩ | ⟨h', h2, h3, -⟩ | ⟨h', e', h2, h3, -, h4⟩ | ⟨h', e', h2, h3, h4, -⟩ | ⟨h', e', h2, h3, h4, -⟩
    · simp at h2
    all_goals
      obtain rfl : h = h' := by injection h2
      rw [hd] at h3
      simp only [unitProb] at h3
      rw [he] at h3
    · simp at h3
    · simp only [Flt.val.injEq] at h3
      subst h3
      exact h4
    · simp only [Flt.val.injEq] at h3
      subst h3
      norm_num at e1 h4
      linarith
    · simp only [Flt.val.injEq] at h3
      subst h3
      norm_num at e1 h4
      linarith
  unfold step
  rw [hloop]
  refine ⟨_, _, rfl, rfl, rfl, ?_, rfl, rfl⟩
  simp only [acceptScale_tiny e0 e1]
  split_ifs
  · norm_num
  · ring

theorem Out.lastX_eq {o : Out n} (h : o.Ok) {l : List (ℝ × V n)} {x : ℝ} {y : V n} (hs : o.saved = l ++ [(x, y)]) :
    o.lastX = x := by
  have hlen := Out.saved_length h
  obtain ⟨h0, h1, xs, ys, hb, hx, hy⟩ := h
  have hc : o.count = l.length + 1 := by rw [← hlen, hs]; simp
  simp only [lastX, hb]
  rw [if_neg (by omega)]
  have hsaved : o.saved = (xs.take o.count).zip (ys.take o.count) := by simp [saved, hb]
  have hj : l.length < o.saved.length := by rw [hs]; simp
  have e1 : (o.saved[l.length]'hj).1 = x := by
    have : o.saved[l.length]'hj = (l ++ [(x, y)])[l.length]'(by simp) := by congr 1
    rw [this]; simp
  have e2 : (o.saved[l.length]'hj).1 = xs[l.length]'(by omega) := by
    have : o.saved[l.length]'hj = ((xs.take o.count).zip (ys.take o.count))[l.length]'(by rw [← hsaved]; exact hj) := by
      congr 1
    rw [this, List.getElem_zip]
    simp
  rw [show o.count - 1 = l.length by omega, List.getD_eq_getElem?_getD, List.getElem?_eq_getElem (by omega)]
  simp only [Option.getD_some]
  rw [← e2, e1]

/-- State of an integration of the unit problem from 0 to 1. -/
structure UnitAt (o : Ode 1) (x h : ℝ) (rej : Bool) : Prop where
  hx1 : o.x1 = 0
  hx2 : o.x2 = 1
  hmin : o.hmin = 0
  pos : o.s.x = x
  dydx : o.s.dydx = fun _ => 1
  step : o.h = h
  rej : o.con.reject = rej

/-- One pass up to the recording of the point. -/
theorem unit_iter (b : Bool) {o : Ode 1} {x h : ℝ} {rej : Bool} (ho : UnitAt o x h rej) (k : ℕ) (h' : ℝ)
    (hh : h' = if x + h * 1.0001 - 1 > 0 then 1 - x else h) (h0 : 0 < h') (h1 : h' ≤ 1) :
    ∃ o1 : Ode 1, o1.out = o.out ∧ o1.s.x = x + h' ∧ UnitAt o1 (x + h') h' false ∧ o1.s.hdid = h' ∧
      o1.s.hnext = (if rej then h' else 6 * h') ∧ o1.visited = o.visited ++ [x + h'] ∧
      ∀ o2, o1.record (unitProb b) k o1.s.x o1.s.y o1.s.hdid = some (.ok (), o2) → o.iter (unitProb b) k = some o2.after := by
  have hclip : o.clip = { o with h := h' } := by
    have hc : (o.s.x + o.h * 1.0001 - o.x2) / (o.x2 - o.x1) = x + h * 1.0001 - 1 := by
      rw [ho.hx1, ho.hx2, ho.pos, ho.step, sub_zero, div_one]
    unfold Ode.clip
    rw [hc, hh]
    by_cases hp : x + h * 1.0001 - 1 > 0
    · rw [if_pos hp, if_pos hp, ho.hx2, ho.pos]
    · rw [if_neg hp, if_neg hp, ← ho.step]
  obtain ⟨s', c', h2, h3, h4, h5, h6, h7⟩ := unit_step b o.s ho.dydx h' h0.ne' (by rw [abs_of_pos h0]; exact h1) o.con
  rw [ho.pos] at h3
  rw [ho.rej] at h5
  refine ⟨Ode.took { o with h := h' } s' c', rfl, h3, ⟨ho.hx1, ho.hx2, ho.hmin, h3, h6, rfl, h7⟩, h4, h5, ?_, ?_⟩
  · simp only [Ode.took, h3]
  · intro o2 hrec
    unfold Ode.iter
    rw [hclip]
    simp only
    rw [h2]
    simp only
    have hrec' : Ode.record (unitProb b) (Ode.took { o with h := h' } s' c') k s'.x s'.y s'.hdid = some (.ok (), o2) := hrec
    rw [hrec']

/-- After a step that does not reach the end. -/
theorem unit_continue {o : Ode 1} {x h h' : ℝ} {rej : Bool} (ho : UnitAt o x h rej) (hx : x < 1) (h0 : 0 < h')
    (hn : o.s.hnext = h') : o.after = (.ok false, { o with h := h' }) := by
  unfold Ode.after
  rw [ho.hx1, ho.hx2, ho.pos, ho.hmin, hn, if_neg (by simp; linarith), if_neg (by simp; exact h0.ne')]

/-- After the step that reaches the end, when the end point has been recorded. -/
theorem unit_finish {o : Ode 1} {h : ℝ} {rej : Bool} (ho : UnitAt o 1 h rej) (hl : o.out.lastX = 1) :
    o.after = (.ok true, { o with ystart := o.s.y }) := by
  unfold Ode.after
  rw [ho.hx1, ho.hx2, ho.pos, if_pos (by norm_num)]
  simp only [hl]
  rw [if_neg]
  have := EPS_pos
  rintro ⟨-, h2⟩
  norm_num at h2
  linarith

/-- C57 refuted: integrating `y' = 1` over `[0, 1]` in two steps of one half with four requested intervals
returns normally, but the saved abscissae are 0, 1/4 and 1: the grid points 1/2 and 3/4 are missing. -/
theorem C57_missing_refuted (y0 : V 1) :
    ∃ o', (Ode.new Con.new y0 0 1 (1 / 2) 0 (Out.new (some 4))).integrate (unitProb true) = some (.ok (), o') ∧
      o'.out.saved.map Prod.fst = [0, 1 / 4, 1] := by
  obtain ⟨o, hrun, hl, hsaved, hox1, hox2, hx1, hx2, hsx, hsy, hdydx, hh, hcon, hmin, hgrid⟩ :=
    integrate_start (unitProb true) rfl Con.new y0 0 1 (1 / 2) 0 4 (by norm_num)
  have hu : UnitAt o 0 (1 / 2) false := by
    refine ⟨hx1, hx2, hmin, hsx, by rw [hdydx]; rfl, ?_, by rw [hcon]; rfl⟩
    rw [hh]; norm_num
  -- first pass
  obtain ⟨o1, a1, a2, a3, a4, a5, -, a6⟩ := unit_iter true hu 0 (1 / 2) (by norm_num) (by norm_num) (by norm_num)
  obtain ⟨⟨r, u⟩, hout⟩ := Out.out_returns (o := o1.out) (by rw [a1]; exact hgrid) 0 o1.s.x o1.s.y o1.s o1.s.hdid
  have hdom := Out.out_dom hout
  rw [a1] at hdom
  have hout' := hout
  rw [a1] at hout'
  obtain ⟨rfl, uok, uxo, umax, m, uc, um, us⟩ := Out.out_grid (a := 0) hl.ok hl.xout hl.dense (by norm_num) hout'
  have hc0 : o.out.count = 0 := by rw [← Out.saved_length hl.ok, hsaved]; rfl
  have hm : m = 2 := by
    rw [uxo, uc, hc0, hdom.2.2.2.1, hl.hdx, hox1, hox2, a2] at umax
    rw [hc0, hl.hdx, hox1, hox2, a2] at um
    have h2 : 2 ≤ m := by
      by_contra hlt
      have : m ≤ 1 := by omega
      apply umax
      have : (m : ℝ) ≤ 1 := by exact_mod_cast this
      norm_num; linarith
    by_contra hne
    have := um 2 (by omega)
    norm_num at this
  subst hm
  have hus : u.saved.map Prod.fst = [0, 1 / 4] := by
    rw [us, hsaved, hc0, hl.hdx]
    simp [List.range_succ]
  have hrec1 : o1.record (unitProb true) (0 : ℕ) o1.s.x o1.s.y o1.s.hdid = some (.ok (), { o1 with out := u }) := by
    unfold Ode.record
    rw [show (unitProb true).dense = true from rfl, if_pos rfl]
    rw [show (((0 : ℕ) : ℤ)) = 0 from rfl, hout]
  have hit1 := a6 _ hrec1
  have hu1 : UnitAt { o1 with out := u } (0 + 1 / 2) (1 / 2) false :=
    ⟨a3.hx1, a3.hx2, a3.hmin, a3.pos, a3.dydx, a3.step, a3.rej⟩
  rw [unit_continue (h' := 3) hu1 (by norm_num) (by norm_num) (by simp only; rw [a5]; norm_num)] at hit1
  have hu2 : UnitAt { ({ o1 with out := u } : Ode 1) with h := 3 } (1 / 2) 3 false :=
    ⟨a3.hx1, a3.hx2, a3.hmin, by simp only; rw [a2]; norm_num, a3.dydx, rfl, a3.rej⟩
  -- second pass
  obtain ⟨o3, b1, b2, b3, b4, b5, -, b6⟩ := unit_iter true hu2 1 (1 / 2) (by norm_num) (by norm_num) (by norm_num)
  have hdom2 : u.Grid := hgrid.congr hdom
  obtain ⟨⟨r, w⟩, hout2⟩ := Out.out_returns (o := o3.out) (by rw [b1]; exact hdom2) 1 o3.s.x o3.s.y o3.s o3.s.hdid
  have hout2' := hout2
  rw [b1] at hout2'
  obtain ⟨rfl, wok, wxo, wc, ws⟩ := Out.out_second (a := 0) (o := u) uok uxo (by rw [hdom.1]; exact hl.dense) hout2'
  have hrec2 : o3.record (unitProb true) (1 : ℕ) o3.s.x o3.s.y o3.s.hdid = some (.ok (), { o3 with out := w }) := by
    unfold Ode.record
    rw [show (unitProb true).dense = true from rfl, if_pos rfl]
    rw [show (((1 : ℕ) : ℤ)) = 1 from rfl, hout2]
  have hit2 := b6 _ hrec2
  have hu3 : UnitAt { o3 with out := w } 1 (1 / 2) false :=
    ⟨b3.hx1, b3.hx2, b3.hmin, by simp only; rw [b2]; norm_num, b3.dydx, b3.step, b3.rej⟩
  rw [unit_finish hu3 (by simp only; rw [Out.lastX_eq wok ws, b2]; norm_num)] at hit2
  refine ⟨{ ({ o3 with out := w } : Ode 1) with ystart := o3.s.y }, ?_, ?_⟩
  · rw [hrun, show (50000 : ℕ) = 49998 + 1 + 1 by norm_num]
    unfold Ode.loop
    rw [hit1]
    simp only
    unfold Ode.loop
    rw [hit2]
  · simp only
    rw [ws, List.map_append, hus, b2]
    norm_num

/-! ### Integrations of one step -/

theorem iter_visited {p : Prob n} {o o' : Ode n} {k : ℕ} {b : Bool} (hr : o.iter p k = some (.ok b, o')) :
    o'.visited.length = o.visited.length + 1 := by
  unfold Ode.iter at hr
  have hv : o.clip.visited = o.visited := by unfold Ode.clip; split_ifs <;> rfl
  rcases hst : step p o.clip.s o.clip.h o.clip.con with _ | ⟨_ | _, s, c⟩
  · rw [hst] at hr; simp at hr
  · rw [hst] at hr; simp at hr
  · rw [hst] at hr
    simp only at hr
    rcases hrec : (o.clip.took s c).record p k s.x s.y s.hdid with _ | ⟨_ | _, o2⟩
    · rw [hrec] at hr; simp at hr
    · rw [hrec] at hr; simp at hr
    · rw [hrec] at hr
      simp only [Option.some.injEq] at hr
      obtain ⟨u, rfl, -⟩ := record_cases hrec
      have : ∀ q : Ode n, q.after.2.visited = q.visited := by
        intro q
        unfold Ode.after
        by_cases hf : (q.s.x - q.x2) * (q.x2 - q.x1) ≥ 0
        · rw [if_pos hf]
          by_cases hs : q.out.kmax > 0 ∧ |q.out.lastX - q.x2| > 100 * |q.x2| * EPS
          · simp only [if_pos hs]
            rcases q.out.save q.s.x q.s.y with ⟨_ | _, u⟩ <;> rfl
          · simp only [if_neg hs]
        · rw [if_neg hf]; split_ifs <;> rfl
      have h2 := this { o.clip.took s c with out := u }
      rw [hr] at h2
      simp only at h2
      rw [h2]
      simp [Ode.took, hv]

theorem loop_visited {p : Prob n} (m k : ℕ) {o o' : Ode n} (hr : Ode.loop p m k o = some (.ok (), o')) :
    o.visited.length + 1 ≤ o'.visited.length := by
  induction m generalizing k o with
  | zero => simp [Ode.loop] at hr
  | succ m ih =>
    unfold Ode.loop at hr
    rcases hi : o.iter p k with _ | ⟨_ | _ | _, o1⟩
    · rw [hi] at hr; simp at hr
    · rw [hi] at hr; simp at hr
    · rw [hi] at hr
      have := ih _ hr
      have := iter_visited hi
      omega
    · rw [hi] at hr
      simp only [Option.some.injEq, Prod.mk.injEq, true_and] at hr
      rw [← hr]
      exact (iter_visited hi).ge

/-- C57, integrations that take a single step: the log holds exactly the points
`x1, x1+dx, ..., x1+(nsave-1)*dx`, each interpolated from that step, and possibly the end point. -/
theorem C57_one_step_partial (p : Prob n) (hp : p.dense = true) (hfl : Rounds p.fl) (con : Con) (y0 : V n) (x1 x2 h1 hmin : ℝ)
    (hx : x1 ≠ x2) (ns : ℕ) (hns : 0 < ns) (o' : Ode n)
    (hr : (Ode.new con y0 x1 x2 h1 hmin (Out.new (some ns))).integrate p = some (.ok (), o'))
    (hone : o'.visited.length = 1) :
    ∃ t, o'.out.saved = ((List.range ns).map fun i : ℕ => (x1 + i * ((x2 - x1) / ns),
        denseOut o'.s (x1 + i * ((x2 - x1) / ns)) o'.s.hdid)) ++ t ∧ (t = [] ∨ t = [(x2, o'.ystart)]) := by
  have hend := C53_lands p hfl con y0 x1 x2 h1 hmin _ (Out.usable_new (some ns)) o' hr
  obtain ⟨o, h0, hl, hs0, hox1, hox2, -⟩ := integrate_start p hp con y0 x1 x2 h1 hmin ns hns
  rw [h0, show (50000 : ℕ) = 49999 + 1 by norm_num] at hr
  unfold Ode.loop at hr
  rcases hi : o.iter p 0 with _ | ⟨_ | _ | _, o1⟩
  · rw [hi] at hr; simp at hr
  · rw [hi] at hr; simp at hr
  · rw [hi] at hr
    have := loop_visited _ _ hr
    have := iter_visited hi
    omega
  · rw [hi] at hr
    simp only [Option.some.injEq, Prod.mk.injEq, true_and] at hr
    subst hr
    have hclip : ∃ h', o.clip = { o with h := h' } := by
      unfold Ode.clip; split_ifs
      · exact ⟨_, rfl⟩
      · exact ⟨o.h, rfl⟩
    obtain ⟨h', hclip⟩ := hclip
    unfold Ode.iter at hi
    rw [hclip] at hi
    simp only at hi
    rcases hst : step p o.s h' o.con with _ | ⟨_ | _, s, c⟩
    · rw [hst] at hi; simp at hi
    · rw [hst] at hi; simp at hi
    rw [hst] at hi
    simp only at hi
    rcases hrec : (Ode.took { o with h := h' } s c).record p (0 : ℕ) s.x s.y s.hdid with _ | ⟨_ | _, o2⟩
    · rw [hrec] at hi; simp at hi
    · rw [hrec] at hi; simp at hi
    rw [hrec] at hi
    simp only [Option.some.injEq] at hi
    obtain ⟨u, rfl, ⟨-, hu⟩ | ⟨hp', -⟩⟩ := record_cases hrec
    · obtain ⟨-, uok, uxo, umax, m, uc, um, us⟩ := Out.out_grid (o := o.out) (a := x1) hl.ok hl.xout hl.dense (by norm_num) hu
      have hdom := Out.out_dom (o := o.out) hu
      have hc0 : o.out.count = 0 := by rw [← Out.saved_length hl.ok, hs0]; rfl
      have hall : o1.s = s ∧ (o1.out = u ∨ u.save s.x s.y = (.ok (), o1.out)) := by
        rcases after_cases (o := { Ode.took { o with h := h' } s c with out := u }) (Or.inr uok) with
          ⟨-, w, -, hw, ha⟩ | ⟨-, -, ha⟩ | ⟨-, -, ha⟩
        · rw [ha] at hi
          simp only [Prod.mk.injEq, true_and] at hi
          subst hi
          refine ⟨rfl, ?_⟩
          rcases hw with rfl | ⟨hw, -⟩
          · exact Or.inl rfl
          · exact Or.inr hw
        · rw [ha] at hi; simp at hi
        · rw [ha] at hi; simp at hi
      have hsx : s.x = x2 := by rw [← hall.1]; exact hend.1
      have hd : 0 < (x2 - x1) ^ 2 := by have := sub_ne_zero.mpr hx.symm; positivity
      have hns' : (0 : ℝ) < ns := by exact_mod_cast hns
      have hval : ∀ i : ℕ, (x2 - (x1 + i * ((x2 - x1) / ns))) * (x2 - x1) = (x2 - x1) ^ 2 * (1 - i / ns) := by
        intro i; field_simp; ring
      have hm : m = ns := by
        rw [uxo, uc, hc0, hdom.2.2.2.1, hl.hdx, hox1, hox2, hsx, zero_add, hval] at umax
        rw [hc0, hl.hdx, hox1, hox2, hsx] at um
        have g1 : ns ≤ m := by
          by_contra hlt
          apply umax
          have : (m : ℝ) < ns := by exact_mod_cast not_le.mp hlt
          have : (m : ℝ) / ns < 1 := by rw [div_lt_one hns']; exact this
          exact mul_pos hd (by linarith)
        by_contra hne
        have := um ns (by omega)
        rw [zero_add, hval, div_self hns'.ne'] at this
        simp at this
      subst hm
      have hus : u.saved = (List.range m).map fun i : ℕ => (x1 + i * ((x2 - x1) / m),
          denseOut o1.s (x1 + i * ((x2 - x1) / m)) o1.s.hdid) := by
        rw [us, hs0, hc0, hl.hdx, hall.1]
        simp [Ode.took]
      rcases hall.2 with ho | ho
      · exact ⟨[], by rw [ho, hus]; simp, Or.inl rfl⟩
      · obtain ⟨z, hz, -, hzs, -⟩ := Out.save_ok uok s.x s.y
        rw [hz] at ho
        simp only [Prod.mk.injEq, true_and] at ho
        refine ⟨[(x2, o1.ystart)], ?_, Or.inr rfl⟩
        rw [← ho, hzs, hus, hsx, hend.2.1, hall.1]
    · rw [hp] at hp'; simp at hp'

/-! ## C60: independence of history -/

/-- What a caller sees of an integration: exception or not, result, log, positions, step counts. -/
def Ode.seen (r : Option (Except PyErr Unit × Ode n)) :
    Option (Except PyErr Unit × V n × Out n × Stepper n × List ℝ × ℕ × ℕ) :=
  r.map fun (r, o) => (r, o.ystart, o.out, o.s, o.visited, o.nok, o.nbad)

/-- The shared controllers agree on whether the last step was rejected. -/
def Same (c c' : Con) : Prop := c.reject = c'.reject

theorem stepLoop_same (fl : ℝ → ℝ) (errF : ℝ → Flt) (x h : ℝ) {c c' : Con} (hc : Same c c') :
    (stepLoop fl errF x h c = none ∧ stepLoop fl errF x h c' = none) ∨
      ∃ r r', stepLoop fl errF x h c = some r ∧ stepLoop fl errF x h c' = some r' ∧ r.1 = r'.1 ∧ Same r.2 r'.2 ∧
        (∀ a, r.1 = .ok a → r.2 = r'.2) := by
  refine runLoop_rel (R := fun t t' : Trial => t.h = t'.h ∧ Same t.con t'.con)
    (Q := fun r r' : Except PyErr ℝ × Con => r.1 = r'.1 ∧ Same r.2 r'.2 ∧ (∀ a, r.1 = .ok a → r.2 = r'.2)) ?_ ⟨rfl, hc⟩
  rintro ⟨h, c⟩ ⟨h', c'⟩ ⟨h1, h2⟩
  simp only at h1
  subst h1
  unfold Same at h2
  simp only at h2
  rcases stepBody_cases fl errF x ⟨h, c⟩ with ⟨a1, a2⟩ | ⟨y, a1, a3, a2⟩ | ⟨y, e, a1, a3, a4, a2⟩ |
      ⟨y, e, a1, a3, a4, a5, a2⟩ | ⟨y, e, a1, a3, a4, a5, a2⟩
  all_goals
    simp only at a1
    subst a1
  · right
    exact ⟨_, (.error .AssertionError, c'), a2, by simp [stepBody, success], rfl, h2, by simp⟩
  · left
    exact ⟨_, ⟨.nan, { c' with reject := true }⟩, a2, by simp [stepBody, success, a3], rfl, rfl⟩
  · right
    exact ⟨_, (.ok y, ⟨if c'.reject then y * min (acceptScale e) 1 else y * acceptScale e, max e 1e-4, false⟩), a2,
      by simp [stepBody, success, a3, a4], rfl, rfl, by simp [h2]⟩
  · right
    exact ⟨_, (.error .OverflowError, { c' with reject := true }), a2,
      by simp [stepBody, success, a3, not_le.mpr a4, a5], rfl, rfl, by simp⟩
  · left
    exact ⟨_, ⟨.val (fl (y * rejectScale e)), { c' with reject := true }⟩, a2,
      by simp [stepBody, success, a3, not_le.mpr a4, not_le.mpr a5], rfl, rfl⟩

theorem step_same (p : Prob n) (s : Stepper n) (h : ℝ) {c c' : Con} (hc : Same c c') :
    (step p s h c = none ∧ step p s h c' = none) ∨
      ∃ r s' d d', step p s h c = some (r, s', d) ∧ step p s h c' = some (r, s', d') ∧ Same d d' := by
  rcases stepLoop_same p.fl (fun h => error p.atol p.rtol s.y (dy p.f s.x s.y s.dydx h) h) s.x h hc with
    ⟨h1, h2⟩ | ⟨⟨r, d⟩, ⟨r', d'⟩, h1, h2, h3, h4, h5⟩
  · left; constructor
    · unfold step; rw [h1]
    · unfold step; rw [h2]
  · right
    simp only at h3 h4 h5
    subst h3
    rcases r with e | a
    · exact ⟨_, _, _, _, by unfold step; rw [h1], by unfold step; rw [h2], h4⟩
    · have := h5 a rfl
      subst this
      exact ⟨_, _, _, _, by unfold step; rw [h1], by unfold step; rw [h2], rfl⟩

theorem record_con (p : Prob n) (o : Ode n) (c : Con) (k : ℤ) (x : ℝ) (y : V n) (h : ℝ) :
    Ode.record p { o with con := c } k x y h = (o.record p k x y h).map fun (r, o) => (r, { o with con := c }) := by
  unfold Ode.record
  cases p.dense
  · simp
  · simp only [if_true]
    rcases o.out.out k x y o.s h with _ | ⟨r, u⟩ <;> rfl

theorem after_con (o : Ode n) (c : Con) :
    Ode.after { o with con := c } = (o.after.1, { o.after.2 with con := c }) ∧ o.after.2.con = o.con := by
  unfold Ode.after
  by_cases hf : (o.s.x - o.x2) * (o.x2 - o.x1) ≥ 0
  · simp only [if_pos hf]
    by_cases hs : o.out.kmax > 0 ∧ |o.out.lastX - o.x2| > 100 * |o.x2| * EPS
    · simp only [if_pos hs]
      rcases o.out.save o.s.x o.s.y with ⟨_ | _, u⟩ <;> exact ⟨rfl, rfl⟩
    · simp only [if_neg hs, and_self]
  · simp only [if_neg hf]
    split_ifs <;> exact ⟨rfl, rfl⟩

theorem iter_same (p : Prob n) (k : ℕ) (o : Ode n) (c : Con) (hc : Same o.con c) :
    (o.iter p k = none ∧ Ode.iter p { o with con := c } k = none) ∨
      ∃ r o1 d, o.iter p k = some (r, o1) ∧ Ode.iter p { o with con := c } k = some (r, { o1 with con := d }) ∧
        Same o1.con d := by
  have hclip : Ode.clip { o with con := c } = { o.clip with con := c } := by
    unfold Ode.clip; simp only; split_ifs <;> rfl
  have hcon : o.clip.con = o.con := by unfold Ode.clip; split_ifs <;> rfl
  unfold Ode.iter
  rw [hclip]
  simp only
  rcases step_same p o.clip.s o.clip.h (c := o.clip.con) (c' := c) (by rw [hcon]; exact hc) with
    ⟨h1, h2⟩ | ⟨r, s', d, d', h1, h2, h3⟩
  · left; rw [h1, h2]; exact ⟨rfl, rfl⟩
  · rw [h1, h2]
    rcases r with e | _
    · right; exact ⟨_, _, d', rfl, rfl, h3⟩
    · simp only
      have hr2 : Ode.record p (Ode.took { o.clip with con := c } s' d') k s'.x s'.y s'.hdid =
        ((o.clip.took s' d).record p k s'.x s'.y s'.hdid).map fun (r, o) => (r, { o with con := d' }) :=
        record_con p (o.clip.took s' d) d' k s'.x s'.y s'.hdid
      rw [hr2]
      rcases hrec : (o.clip.took s' d).record p k s'.x s'.y s'.hdid with _ | ⟨_ | _, o2⟩
      · left; exact ⟨rfl, rfl⟩
      · right
        obtain ⟨u, rfl, -⟩ := record_cases hrec
        exact ⟨_, _, d', rfl, rfl, h3⟩
      · right
        obtain ⟨u, rfl, -⟩ := record_cases hrec
        simp only [Option.map_some]
        obtain ⟨e1, e2⟩ := after_con { o.clip.took s' d with out := u } d'
        exact ⟨(Ode.after { o.clip.took s' d with out := u }).1, (Ode.after { o.clip.took s' d with out := u }).2, d', rfl,
          congrArg some e1, (congrArg Con.reject e2).trans h3⟩

theorem loop_same (p : Prob n) (m k : ℕ) (o : Ode n) (c : Con) (hc : Same o.con c) :
    Ode.seen (Ode.loop p m k o) = Ode.seen (Ode.loop p m k { o with con := c }) := by
  induction m generalizing k o c with
  | zero => rfl
  | succ m ih =>
    unfold Ode.loop
    rcases iter_same p k o c hc with ⟨h1, h2⟩ | ⟨r, o1, d, h1, h2, h3⟩
    · rw [h1, h2]
    · rw [h1, h2]
      rcases r with e | _ | _
      · rfl
      · exact ih _ _ _ h3
      · rfl

/-- C60, what holds: an integration sees the process's history only through the controller's rejection flag. -/
theorem C60_flag_partial (p : Prob n) (con con' : Con) (hc : con.reject = con'.reject) (y0 : V n) (x1 x2 h1 hmin : ℝ) (out : Out n) :
    Ode.seen ((Ode.new con y0 x1 x2 h1 hmin out).integrate p) = Ode.seen ((Ode.new con' y0 x1 x2 h1 hmin out).integrate p) := by
  have hnew : Ode.new con' y0 x1 x2 h1 hmin out = { Ode.new con y0 x1 x2 h1 hmin out with con := con' } := rfl
  rw [hnew]
  have hcon : Same (Ode.new con y0 x1 x2 h1 hmin out).con con' := hc
  generalize Ode.new con y0 x1 x2 h1 hmin out = o at hcon
  unfold Ode.integrate
  simp only
  have hre : ({ o with s := { o.s with dydx := p.f o.x1 o.ystart }, con := con' } : Ode n) =
    { ({ o with s := { o.s with dydx := p.f o.x1 o.ystart } } : Ode n) with con := con' } := rfl
  have := record_con p { o with s := { o.s with dydx := p.f o.x1 o.ystart } } con' (-1) o.x1 o.ystart o.h
  simp only at this
  rw [this]
  rcases hrec : Ode.record p { o with s := { o.s with dydx := p.f o.x1 o.ystart } } (-1) o.x1 o.ystart o.h with
    _ | ⟨_ | _, o2⟩
  · rfl
  · rfl
  · obtain ⟨u, rfl, -⟩ := record_cases hrec
    exact loop_same p _ _ _ _ hcon

theorem loop_flag {p : Prob n} (hfl : Rounds p.fl) (m k : ℕ) {o o' : Ode n} (hr : Ode.loop p m k o = some (.ok (), o')) :
    o'.con.reject = false := by
  induction m generalizing k o with
  | zero => simp [Ode.loop] at hr
  | succ m ih =>
    unfold Ode.loop at hr
    rcases hi : o.iter p k with _ | ⟨_ | _ | _, o1⟩
    · rw [hi] at hr; simp at hr
    · rw [hi] at hr; simp at hr
    · rw [hi] at hr; exact ih _ hr
    · rw [hi] at hr
      simp only [Option.some.injEq, Prod.mk.injEq, true_and] at hr
      subst hr
      unfold Ode.iter at hi
      rcases hst : step p o.clip.s o.clip.h o.clip.con with _ | ⟨_ | _, s, c⟩
      · rw [hst] at hi; simp at hi
      · rw [hst] at hi; simp at hi
      · rw [hst] at hi
        simp only at hi
        rcases hrec : (o.clip.took s c).record p k s.x s.y s.hdid with _ | ⟨_ | _, o2⟩
        · rw [hrec] at hi; simp at hi
        · rw [hrec] at hi; simp at hi
        · rw [hrec] at hi
          simp only [Option.some.injEq] at hi
          obtain ⟨u, rfl, -⟩ := record_cases hrec
          have h2 := (after_con { o.clip.took s c with out := u } c).2
          rw [hi] at h2
          simp only at h2
          rw [h2]
          obtain ⟨hs1, -⟩ := step_ok hst
          exact (stepLoop_ok hfl hs1).2.2.2

/-- C60, what holds: after any history whose last integration returned normally, the next integration gives
exactly what it gives in a fresh process. -/
theorem C60_after_success_partial (p q : Prob n) (hq : Rounds q.fl) (con : Con) (o : Ode n)
    (yq : V n) (x1q x2q h1q hminq : ℝ) (outq : Out n)
    (hprev : (Ode.new con yq x1q x2q h1q hminq outq).integrate q = some (.ok (), o))
    (y0 : V n) (x1 x2 h1 hmin : ℝ) (out : Out n) :
    Ode.seen ((Ode.new o.con y0 x1 x2 h1 hmin out).integrate p) = Ode.seen ((Ode.new Con.new y0 x1 x2 h1 hmin out).integrate p) := by
  apply C60_flag_partial
  show o.con.reject = false
  generalize Ode.new con yq x1q x2q h1q hminq outq = o0 at hprev
  unfold Ode.integrate at hprev
  simp only at hprev
  rcases hrec : Ode.record q { o0 with s := { o0.s with dydx := q.f o0.x1 o0.ystart } } (-1) o0.x1 o0.ystart o0.h with
    _ | ⟨_ | _, o2⟩
  · rw [hrec] at hprev; simp at hprev
  · rw [hrec] at hprev; simp at hprev
  · rw [hrec] at hprev
    exact loop_flag hq _ _ hprev

/-! ### A failed integration changes the next one -/

/-- State of a run of the unit problem without dense output, with the abscissae saved so far. -/
def Plain (o : Ode 1) (x h : ℝ) (rej : Bool) (l : List ℝ) : Prop :=
  UnitAt o x h rej ∧ o.out.Ok ∧ o.out.saved.map Prod.fst = l

theorem plain_record (o : Ode 1) (hok : o.out.Ok) (k : ℤ) (x : ℝ) (y : V 1) (h : ℝ) :
    ∃ u : Out 1, o.record (unitProb false) k x y h = some (.ok (), { o with out := u }) ∧ u.Ok ∧
      u.saved = o.out.saved ++ [(x, y)] := by
  obtain ⟨u, hu, h1, h2, -⟩ := Out.save_ok hok x y
  refine ⟨u, ?_, h1, h2⟩
  unfold Ode.record
  simp [unitProb, hu]

theorem plain_continue {o : Ode 1} {x h : ℝ} {rej : Bool} {l : List ℝ} (ho : Plain o x h rej l) (h0 : 0 < h) (hx0 : 0 ≤ x)
    (hx : x + h * 1.0001 ≤ 1) (m k : ℕ) :
    ∃ o', Ode.loop (unitProb false) (m + 1) k o = Ode.loop (unitProb false) m (k + 1) o' ∧
      Plain o' (x + h) (if rej then h else 6 * h) false (l ++ [x + h]) := by
  obtain ⟨hu, hok, hl⟩ := ho
  obtain ⟨o1, a1, a2, a3, a4, a5, -, a6⟩ := unit_iter false hu k h (by rw [if_neg (by linarith)]) h0 (by norm_num at hx; linarith)
  obtain ⟨u, hrec, uok, us⟩ := plain_record o1 (by rw [a1]; exact hok) k o1.s.x o1.s.y o1.s.hdid
  have hit := a6 _ hrec
  have hu1 : UnitAt { o1 with out := u } (x + h) h false := ⟨a3.hx1, a3.hx2, a3.hmin, a3.pos, a3.dydx, a3.step, a3.rej⟩
  have hpos : 0 < (if rej then h else 6 * h) := by split_ifs <;> linarith
  rw [unit_continue hu1 (by norm_num at hx; linarith) hpos (by simp only; rw [a5])] at hit
  refine ⟨{ ({ o1 with out := u } : Ode 1) with h := if rej then h else 6 * h }, ?_,
    ⟨a3.hx1, a3.hx2, a3.hmin, a3.pos, a3.dydx, rfl, a3.rej⟩, uok, ?_⟩
  · conv_lhs => unfold Ode.loop
    rw [hit]
  · show u.saved.map Prod.fst = _
    rw [us, List.map_append, a1, hl, a2]
    rfl

theorem plain_finish {o : Ode 1} {x h : ℝ} {rej : Bool} {l : List ℝ} (ho : Plain o x h rej l) (hx0 : 0 ≤ x) (hx1 : x < 1)
    (hx : x + h * 1.0001 > 1) (m k : ℕ) :
    ∃ o', Ode.loop (unitProb false) (m + 1) k o = some (.ok (), o') ∧ o'.out.saved.map Prod.fst = l ++ [1] := by
  obtain ⟨hu, hok, hl⟩ := ho
  obtain ⟨o1, a1, a2, a3, a4, a5, -, a6⟩ := unit_iter false hu k (1 - x) (by rw [if_pos (by linarith)]) (by linarith) (by linarith)
  obtain ⟨u, hrec, uok, us⟩ := plain_record o1 (by rw [a1]; exact hok) k o1.s.x o1.s.y o1.s.hdid
  have hit := a6 _ hrec
  have hx' : o1.s.x = 1 := by rw [a2]; ring
  have hu1 : UnitAt { o1 with out := u } 1 (1 - x) false := ⟨a3.hx1, a3.hx2, a3.hmin, hx', a3.dydx, a3.step, a3.rej⟩
  rw [unit_finish hu1 (by simp only; rw [Out.lastX_eq uok us, hx'])] at hit
  refine ⟨{ ({ o1 with out := u } : Ode 1) with ystart := o1.s.y }, ?_, ?_⟩
  · unfold Ode.loop
    rw [hit]
  · show u.saved.map Prod.fst = _
    rw [us, List.map_append, a1, hl, hx']
    rfl

theorem plain_start (con : Con) (y0 : V 1) :
    ∃ o, (Ode.new con y0 0 1 (1 / 10) 0 (Out.new (some 0))).integrate (unitProb false) = Ode.loop (unitProb false) 50000 0 o ∧
      Plain o 0 (1 / 10) con.reject [0] := by
  obtain ⟨j1, j2⟩ := Out.init_ok (o := (Out.new (some 0) : Out 1)) (by simp [Out.new]) (by simp [Out.new]) 0 1
  have j3 : ((Out.new (some 0) : Out 1).init 0 1).count = 0 := j2
  have j4 : ((Out.new (some 0) : Out 1).init 0 1).saved = [] := by
    rw [← List.length_eq_zero_iff, Out.saved_length j1, j3]
  have hh : |(1 / 10 : ℝ)| * ((SignType.sign ((1 : ℝ) - 0) : SignType) : ℝ) = 1 / 10 := by
    rw [sub_zero, sign_pos one_pos, abs_of_pos (by norm_num)]; simp
  unfold Ode.integrate
  simp only
  set o : Ode 1 := { Ode.new con y0 0 1 (1 / 10) 0 (Out.new (some 0)) with
    s := { (Ode.new con y0 0 1 (1 / 10) 0 (Out.new (some 0))).s with
      dydx := (unitProb false).f (Ode.new con y0 0 1 (1 / 10) 0 (Out.new (some 0))).x1
        (Ode.new con y0 0 1 (1 / 10) 0 (Out.new (some 0))).ystart } } with ho
  obtain ⟨u, hrec, uok, us⟩ := plain_record o j1 (-1) 0 y0 o.h
  refine ⟨{ o with out := u }, ?_, ⟨rfl, rfl, rfl, rfl, rfl, hh, rfl⟩, uok, ?_⟩
  · have hrec' : Ode.record (unitProb false) o (-1) (Ode.new con y0 0 1 (1 / 10) 0 (Out.new (some 0))).x1
      (Ode.new con y0 0 1 (1 / 10) 0 (Out.new (some 0))).ystart (Ode.new con y0 0 1 (1 / 10) 0 (Out.new (some 0))).h
        = some (.ok (), { o with out := u }) := hrec
    rw [hrec']
  · show u.saved.map Prod.fst = _
    have : o.out.saved = [] := j4
    rw [us, this]; rfl

/-- The unit problem in a fresh process. -/
theorem plain_fresh (con : Con) (hc : con.reject = false) (y0 : V 1) :
    ∃ o', (Ode.new con y0 0 1 (1 / 10) 0 (Out.new (some 0))).integrate (unitProb false) = some (.ok (), o') ∧
      o'.out.saved.map Prod.fst = [0, 1 / 10, 7 / 10, 1] := by
  obtain ⟨o, h1, h2⟩ := plain_start con y0
  rw [hc] at h2
  obtain ⟨o1, h3, h4⟩ := plain_continue h2 (by norm_num) (by norm_num) (by norm_num) 49999 0
  obtain ⟨o2, h5, h6⟩ := plain_continue h4 (by norm_num) (by norm_num) (by norm_num) 49998 1
  obtain ⟨o3, h7, h8⟩ := plain_finish h6 (by norm_num) (by norm_num) (by norm_num) 49997 2
  refine ⟨o3, ?_, ?_⟩
  · rw [h1, h3, h5, h7]
  · rw [h8]; norm_num

/-- The unit problem after a failed integration. -/
theorem plain_after_failure (con : Con) (hc : con.reject = true) (y0 : V 1) :
    ∃ o', (Ode.new con y0 0 1 (1 / 10) 0 (Out.new (some 0))).integrate (unitProb false) = some (.ok (), o') ∧
      o'.out.saved.map Prod.fst = [0, 1 / 10, 2 / 10, 8 / 10, 1] := by
  obtain ⟨o, h1, h2⟩ := plain_start con y0
  rw [hc] at h2
  obtain ⟨o1, h3, h4⟩ := plain_continue h2 (by norm_num) (by norm_num) (by norm_num) 49999 0
  obtain ⟨o2, h5, h6⟩ := plain_continue h4 (by norm_num) (by norm_num) (by norm_num) 49998 1
  obtain ⟨o3, h7, h8⟩ := plain_continue h6 (by norm_num) (by norm_num) (by norm_num) 49997 2
  obtain ⟨o4, h9, h10⟩ := plain_finish h8 (by norm_num) (by norm_num) (by norm_num) 49996 3
  refine ⟨o4, ?_, ?_⟩
  · rw [h1, h3, h5, h7, h9]
  · rw [h10]; norm_num

/-- C60 refuted: in a fresh process, integrating `y' = 1` from 0 to 1 with initial step 1/10 records the
positions 0, 0.1, 0.7, 1; after a failed attempt to integrate `y' = 0` it records 0, 0.1, 0.2, 0.8, 1. -/
theorem C60_history_refuted (y0 : V 1) :
    ∃ failed fresh after : Ode 1,
      (Ode.new Con.new y0 0 1 1 0 (Out.new (some 1))).integrate ⟨fun _ _ => 0, 1, 1, true, id⟩ = some (.error .AssertionError, failed) ∧
      (Ode.new Con.new y0 0 1 (1 / 10) 0 (Out.new (some 0))).integrate (unitProb false) = some (.ok (), fresh) ∧
      (Ode.new failed.con y0 0 1 (1 / 10) 0 (Out.new (some 0))).integrate (unitProb false) = some (.ok (), after) ∧
      fresh.out.saved.map Prod.fst = [0, 1 / 10, 7 / 10, 1] ∧
      after.out.saved.map Prod.fst = [0, 1 / 10, 2 / 10, 8 / 10, 1] := by
  obtain ⟨o1, h1, h2, -⟩ := C58_raises_refuted (n := 1) ⟨fun _ _ => 0, 1, 1, true, id⟩ rfl y0 (fun _ => rfl) Con.new 0 1 1 0 1 one_pos
  obtain ⟨o2, h3, h4⟩ := plain_fresh Con.new rfl y0
  obtain ⟨o3, h5, h6⟩ := plain_after_failure o1.con h2 y0
  exact ⟨o1, o2, o3, h1, h3, h5, h4, h6⟩

/-- C53: integrations that return, and that raise, exist. -/
theorem C53_nonvacuous (y0 : V 1) :
    (∃ o', (Ode.new Con.new y0 0 1 (1 / 10) 0 (Out.new (some 0))).integrate (unitProb false) = some (.ok (), o')) ∧
    (∃ o', (Ode.new Con.new y0 0 1 1 0 (Out.new (some 1))).integrate ⟨fun _ _ => 0, 1, 1, true, id⟩
      = some (.error .AssertionError, o')) := by
  obtain ⟨a, b, _, h1, h2, -⟩ := C60_history_refuted y0
  exact ⟨⟨b, h2⟩, ⟨a, h1⟩⟩

/-- C54, C56: a step that is taken, of non-zero length. -/
theorem C54_nonvacuous (y0 : V 1) :
    ∃ s' c', step (unitProb true) ⟨0, 0, 0, 0, y0, fun _ => 1, 0⟩ 1 Con.new = some (.ok (), s', c') ∧ s'.hdid ≠ 0 := by
  obtain ⟨s', c', h1, -, h2, -⟩ := unit_step true ⟨0, 0, 0, 0, y0, fun _ => 1, 0⟩ rfl 1 one_ne_zero (by simp) Con.new
  exact ⟨s', c', h1, by rw [h2]; exact one_ne_zero⟩

end PyNLO.Ode
