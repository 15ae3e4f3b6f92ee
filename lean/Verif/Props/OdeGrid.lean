import Verif.Props.OdeInt
import Mathlib.Algebra.Order.Floor.Ring

/-!
# Whole integrations: termination and trivial equations (C55, C58)
-/

namespace PyNLO.Ode

variable {n : ℕ}

/-- The requested grid is the same. -/
def Out.SameDom (o o' : Out n) : Prop :=
  o'.dense = o.dense ∧ o'.x1 = o.x1 ∧ o'.x2 = o.x2 ∧ o'.dxout = o.dxout ∧ o'.nsave = o.nsave

theorem Out.SameDom.rfl' (o : Out n) : o.SameDom o := ⟨rfl, rfl, rfl, rfl, rfl⟩

theorem Out.SameDom.trans {a b c : Out n} (h : a.SameDom b) (h' : b.SameDom c) : a.SameDom c := by
  obtain ⟨h1, h2, h3, h5, h6⟩ := h
  obtain ⟨k1, k2, k3, k5, k6⟩ := h'
  exact ⟨k1.trans h1, k2.trans h2, k3.trans h3, k5.trans h5, k6.trans h6⟩

theorem Out.store_dom (o : Out n) (x : ℝ) (y : V n) :
    o.SameDom (o.store x y).2 ∧ (o.store x y).2.xout = o.xout := by
  unfold store
  rcases o.buf with _ | ⟨xs, ys⟩
  · exact ⟨.rfl' _, rfl⟩
  · simp only
    by_cases h : o.count < ys.length
    · rw [if_pos h]; exact ⟨⟨rfl, rfl, rfl, rfl, rfl⟩, rfl⟩
    · rw [if_neg h]; exact ⟨.rfl' _, rfl⟩

theorem Out.room_dom (o : Out n) :
    o.SameDom (if (o.count : ℤ) = o.kmax then o.resize else o) ∧
      (if (o.count : ℤ) = o.kmax then o.resize else o).xout = o.xout := by
  split_ifs
  · exact ⟨⟨rfl, rfl, rfl, rfl, rfl⟩, rfl⟩
  · exact ⟨.rfl' _, rfl⟩

theorem Out.save_dom (o : Out n) (x : ℝ) (y : V n) :
    o.SameDom (o.save x y).2 ∧ (o.save x y).2.xout = o.xout := by
  unfold save
  rcases o.buf with _ | ⟨xs, ys⟩
  · exact ⟨.rfl' _, rfl⟩
  · simp only
    by_cases h : o.kmax ≤ 0
    · rw [if_pos h]; exact ⟨.rfl' _, rfl⟩
    · rw [if_neg h]
      have h1 := Out.room_dom o
      have h2 := Out.store_dom (if (o.count : ℤ) = o.kmax then o.resize else o) x y
      exact ⟨h1.1.trans h2.1, h2.2.trans h1.2⟩

theorem Out.saveDense_dom (o : Out n) (x : ℝ) (y : V n) :
    o.SameDom (o.saveDense x y).2 ∧ (o.saveDense x y).2.xout = o.xout := by
  have h1 := Out.room_dom o
  unfold saveDense
  simp only
  rcases hb : (if (o.count : ℤ) = o.kmax then o.resize else o).buf with _ | ⟨xs, ys⟩
  · exact h1
  · have h2 := Out.store_dom (if (o.count : ℤ) = o.kmax then o.resize else o) x y
    exact ⟨h1.1.trans h2.1, h2.2.trans h1.2⟩

/-- The grid spacing is a fraction of the interval. -/
def Out.Grid (o : Out n) : Prop := o.dense = true → 0 < o.nsave ∧ o.dxout = (o.x2 - o.x1) / o.nsave

theorem Out.Grid.congr {o o' : Out n} (h : o.Grid) (hs : o.SameDom o') : o'.Grid := by
  obtain ⟨h1, h2, h3, h5, h6⟩ := hs
  intro hd
  rw [h1] at hd
  rw [h2, h3, h5, h6]
  exact h hd

theorem Out.init_dense {o : Out n} (hk : o.kmax ≠ -1) (hd : o.dense = true) (x1 x2 : ℝ) :
    (o.init x1 x2).dense = true ∧ (o.init x1 x2).x1 = x1 ∧ (o.init x1 x2).x2 = x2 ∧ (o.init x1 x2).xout = x1 ∧
      (o.init x1 x2).dxout = (x2 - x1) / o.nsave ∧ (o.init x1 x2).nsave = o.nsave := by
  unfold init
  rw [if_neg hk]
  simp only [hd, if_true, and_self]

theorem Out.init_not_dense {o : Out n} (hd : o.dense = false) (x1 x2 : ℝ) : (o.init x1 x2).dense = false := by
  unfold init
  by_cases hk : o.kmax = -1
  · rw [if_pos hk]; exact hd
  · rw [if_neg hk]
    simp only [hd, Bool.false_eq_true, if_false]

theorem Out.init_grid (ns : Option ℕ) (x1 x2 : ℝ) : ((Out.new ns : Out n).init x1 x2).Grid := by
  intro h
  have hd : (Out.new ns : Out n).dense = true := by
    by_contra hd
    rw [Out.init_not_dense (by simpa using hd)] at h
    simp at h
  rcases ns with _ | k
  · simp [new] at hd
  · have hk : 0 < k := by simpa [new] using hd
    obtain ⟨-, h1, h2, -, h4, h5⟩ := Out.init_dense (o := (Out.new (some k) : Out n)) (by simp [Out.new]) hd x1 x2
    rw [h1, h2, h4, h5]
    exact ⟨hk, rfl⟩

/-! ## C55: the integration as a whole comes back -/

theorem Out.out_returns {o : Out n} (hg : o.Grid) (k : ℤ) (x : ℝ) (y : V n) (s : Stepper n) (h : ℝ) :
    ∃ r, o.out k x y s h = some r := by
  unfold out
  by_cases hd : o.dense = true
  · rw [if_pos hd]
    by_cases hk : k = 1
    · rw [if_pos hk]
      rcases o.save x y with ⟨_ | _, u⟩ <;> exact ⟨_, rfl⟩
    · rw [if_neg hk]
      obtain ⟨hn, hdx⟩ := hg hd
      have hn' : (0 : ℝ) < o.nsave := by exact_mod_cast hn
      refine runLoop_terminates (I := fun a => o.SameDom a) (fun a => ⌈(x - a.xout) / o.dxout⌉₊) ?_ (.rfl' o)
      intro a b ha hb
      unfold outBody at hb
      by_cases hc : (x - a.xout) * (a.x2 - a.x1) > 0
      · rw [if_pos hc] at hb
        have hs := Out.saveDense_dom a a.xout (denseOut s a.xout h)
        rcases hsv : a.saveDense a.xout (denseOut s a.xout h) with ⟨_ | _, v⟩
        · rw [hsv] at hb; simp at hb
        · rw [hsv] at hb hs
          simp only [Sum.inl.injEq] at hb
          subst hb
          obtain ⟨hs1, hs2⟩ := hs
          refine ⟨ha.trans hs1, ?_⟩
          simp only
          have hx : v.xout = a.xout := hs2
          have hv : v.dxout = o.dxout := (ha.trans hs1).2.2.2.1
          rw [hx, hv]
          rw [ha.2.1, ha.2.2.1] at hc
          have hd0 : o.x2 - o.x1 ≠ 0 := right_ne_zero_of_mul hc.ne'
          have hdx0 : o.dxout ≠ 0 := by rw [hdx]; positivity
          have hpos : 0 < (x - a.xout) / o.dxout := by
            rw [hdx, div_div_eq_mul_div]
            rcases lt_or_gt_of_ne hd0 with h1 | h1
            · have : x - a.xout < 0 := by by_contra h2; nlinarith
              exact div_pos_of_neg_of_neg (by nlinarith) h1
            · have : 0 < x - a.xout := by by_contra h2; nlinarith
              positivity
          have : (x - (a.xout + o.dxout)) / o.dxout = (x - a.xout) / o.dxout - 1 := by field_simp; ring
          rw [this, Nat.ceil_sub_one]
          have := Nat.ceil_pos.mpr hpos
          omega
      · rw [if_neg hc] at hb; simp at hb
  · rw [if_neg hd]; exact ⟨_, rfl⟩

theorem Out.out_dom {o u : Out n} {k : ℤ} {x : ℝ} {y : V n} {s : Stepper n} {h : ℝ} {r : Except PyErr Unit}
    (hr : o.out k x y s h = some (r, u)) : o.SameDom u := by
  unfold out at hr
  by_cases hd : o.dense = true
  · rw [if_pos hd] at hr
    by_cases hk : k = 1
    · rw [if_pos hk] at hr
      have hs := Out.save_dom o x y
      rcases hsv : o.save x y with ⟨_ | _, v⟩
      · rw [hsv] at hr hs
        simp only [Option.some.injEq, Prod.mk.injEq] at hr
        rw [← hr.2]; exact hs.1
      · rw [hsv] at hr hs
        simp only [Option.some.injEq, Prod.mk.injEq] at hr
        rw [← hr.2]; exact hs.1
    · rw [if_neg hk] at hr
      refine runLoop_invariant (I := fun a => o.SameDom a) (Q := fun r => o.SameDom r.2) ?_ ?_ (.rfl' o) hr
      · intro a b ha hb
        unfold outBody at hb
        by_cases hc : (x - a.xout) * (a.x2 - a.x1) > 0
        · rw [if_pos hc] at hb
          have hs := Out.saveDense_dom a a.xout (denseOut s a.xout h)
          rcases hsv : a.saveDense a.xout (denseOut s a.xout h) with ⟨_ | _, v⟩
          · rw [hsv] at hb; simp at hb
          · rw [hsv] at hb hs
            simp only [Sum.inl.injEq] at hb
            rw [← hb]; exact ha.trans hs.1
        · rw [if_neg hc] at hb; simp at hb
      · intro a b ha hb
        unfold outBody at hb
        by_cases hc : (x - a.xout) * (a.x2 - a.x1) > 0
        · rw [if_pos hc] at hb
          have hs := Out.saveDense_dom a a.xout (denseOut s a.xout h)
          rcases hsv : a.saveDense a.xout (denseOut s a.xout h) with ⟨_ | _, v⟩
          · rw [hsv] at hb hs
            simp only [Sum.inr.injEq] at hb
            rw [← hb]; exact ha.trans hs.1
          · rw [hsv] at hb; simp at hb
        · rw [if_neg hc] at hb
          simp only [Sum.inr.injEq] at hb
          rw [← hb]; exact ha
  · rw [if_neg hd] at hr
    simp only [Option.some.injEq, Prod.mk.injEq] at hr
    rw [← hr.2]; exact .rfl' _

theorem record_returns {p : Prob n} {o : Ode n} (hg : o.out.Grid) (k : ℤ) (x : ℝ) (y : V n) (h : ℝ) :
    ∃ r u, o.record p k x y h = some (r, { o with out := u }) ∧ o.out.SameDom u := by
  unfold Ode.record
  cases p.dense
  · simp only [Bool.false_eq_true, if_false]
    exact ⟨_, _, rfl, (Out.save_dom o.out x y).1⟩
  · simp only [if_true]
    obtain ⟨⟨r, u⟩, hr⟩ := Out.out_returns hg k x y o.s h
    rw [hr]
    exact ⟨_, _, rfl, Out.out_dom hr⟩

theorem after_dom (o : Ode n) : o.out.SameDom o.after.2.out := by
  unfold Ode.after
  by_cases hf : (o.s.x - o.x2) * (o.x2 - o.x1) ≥ 0
  · rw [if_pos hf]
    by_cases hs : o.out.kmax > 0 ∧ |o.out.lastX - o.x2| > 100 * |o.x2| * EPS
    · simp only [if_pos hs]
      have := Out.save_dom o.out o.s.x o.s.y
      rcases hsv : o.out.save o.s.x o.s.y with ⟨_ | _, u⟩ <;> rw [hsv] at this <;> exact this.1
    · simp only [if_neg hs]; exact .rfl' _
  · rw [if_neg hf]
    split_ifs <;> exact .rfl' _

theorem clip_out (o : Ode n) : o.clip.out = o.out := by unfold Ode.clip; split_ifs <;> rfl

theorem loop_returns {p : Prob n} (hfl : Rounds p.fl) (hu : Underflows p.fl) (m k : ℕ) (o : Ode n) (hg : o.out.Grid) :
    ∃ r, Ode.loop p m k o = some r := by
  induction m generalizing k o with
  | zero => exact ⟨_, rfl⟩
  | succ m ih =>
    unfold Ode.loop Ode.iter
    obtain ⟨⟨r, s, c⟩, hs⟩ := C55_step p hfl o.clip.s o.clip.h o.clip.con (Or.inr hu)
    rw [hs]
    rcases r with e | _
    · exact ⟨_, rfl⟩
    · simp only
      have hg' : (o.clip.took s c).out.Grid := by
        have : (o.clip.took s c).out = o.out := by simp only [Ode.took]; exact clip_out o
        rw [this]; exact hg
      obtain ⟨r, u, hrec, hdom⟩ := record_returns (p := p) hg' k s.x s.y s.hdid
      rw [hrec]
      rcases r with e | _
      · exact ⟨_, rfl⟩
      · simp only
        have hd := after_dom { o.clip.took s c with out := u }
        rcases hafter : Ode.after { o.clip.took s c with out := u } with ⟨e | b, o2⟩
        · exact ⟨_, rfl⟩
        · rw [hafter] at hd
          cases b
          · exact ih _ _ ((hg'.congr hdom).congr hd)
          · exact ⟨_, rfl⟩

/-- C55: an integration with a fresh `Output` returns or raises, whatever the right-hand side, the interval,
the steps and the tolerances. -/
theorem C55_integrate (p : Prob n) (hfl : Rounds p.fl) (hu : Underflows p.fl) (con : Con) (y0 : V n)
    (x1 x2 h1 hmin : ℝ) (ns : Option ℕ) :
    ∃ r, (Ode.new con y0 x1 x2 h1 hmin (Out.new ns)).integrate p = some r := by
  have hg : (Ode.new con y0 x1 x2 h1 hmin (Out.new ns)).out.Grid := Out.init_grid ns x1 x2
  generalize Ode.new con y0 x1 x2 h1 hmin (Out.new ns) = o at hg
  unfold Ode.integrate
  simp only
  obtain ⟨r, u, hrec, hdom⟩ := record_returns (p := p)
    (o := { o with s := { o.s with dydx := p.f o.x1 o.ystart } }) hg (-1) o.x1 o.ystart o.h
  rw [hrec]
  rcases r with e | _
  · exact ⟨_, rfl⟩
  · exact loop_returns hfl hu _ _ _ (hg.congr hdom)

/-! ## C58: trivial equations -/

theorem dy_equilibrium (f : Rhs n) (y0 : V n) (hf : ∀ x, f x y0 = 0) (x h : ℝ) :
    (dy f x y0 0 h).yerr = 0 ∧ (dy f x y0 0 h).yerr2 = 0 ∧ (dy f x y0 0 h).yout = y0 := by
  simp [dy, hf]

theorem error_equilibrium (f : Rhs n) (y0 : V n) (hf : ∀ x, f x y0 = 0) (atol rtol x h : ℝ) :
    error atol rtol y0 (dy f x y0 0 h) h = .nan := by
  obtain ⟨h1, h2, -⟩ := dy_equilibrium f y0 hf x h
  unfold error
  simp only
  rw [if_pos]
  right
  simp [errSum, h1, h2]

theorem step_equilibrium (p : Prob n) (y0 : V n) (hf : ∀ x, p.f x y0 = 0) (s : Stepper n) (hs : s.y = y0)
    (hd : s.dydx = 0) (h : ℝ) (c : Con) :
    step p s h c = some (.error .AssertionError, s, { c with reject := true }) := by
  have : stepLoop p.fl (fun h => error p.atol p.rtol s.y (dy p.f s.x s.y s.dydx h) h) s.x h c =
      some (.error .AssertionError, { c with reject := true }) := by
    rw [hs, hd]
    have e : (fun h => error p.atol p.rtol y0 (dy p.f s.x y0 0 h) h) = fun _ => .nan := by
      funext h; exact error_equilibrium p.f y0 hf _ _ _ _
    rw [e]
    unfold stepLoop
    rw [runLoop_inl (s' := ⟨.nan, { c with reject := true }⟩) (by simp [stepBody, success])]
    exact runLoop_inr (by simp [stepBody, success])
  unfold step
  rw [this]

/-- C58: integrating from an equilibrium (in particular `y' = 0`) with dense output never returns the initial
value: all stages vanish, the error estimate is `0 * sqrt(1/0)`, i.e. NaN, and the second trial raises
`AssertionError`.  The controller is left in the state after a rejection. -/
theorem C58_raises_refuted (p : Prob n) (hd : p.dense = true) (y0 : V n) (hf : ∀ x, p.f x y0 = 0) (con : Con)
    (x1 x2 h1 hmin : ℝ) (k : ℕ) (hk : 0 < k) :
    ∃ o', (Ode.new con y0 x1 x2 h1 hmin (Out.new (some k))).integrate p = some (.error .AssertionError, o')
      ∧ o'.con.reject = true ∧ o'.ystart = y0 := by
  unfold Ode.integrate
  simp only
  set o : Ode n := { Ode.new con y0 x1 x2 h1 hmin (Out.new (some k)) with
    s := { (Ode.new con y0 x1 x2 h1 hmin (Out.new (some k))).s with
      dydx := p.f (Ode.new con y0 x1 x2 h1 hmin (Out.new (some k))).x1
        (Ode.new con y0 x1 x2 h1 hmin (Out.new (some k))).ystart } } with ho
  have hrec : o.record p (-1) x1 y0 o.h = some (.ok (), o) := by
    unfold Ode.record
    rw [hd, if_pos rfl]
    have : o.out.out (-1) x1 y0 o.s o.h = some (.ok (), o.out) := by
      unfold Out.out
      have hdo : (Out.new (some k) : Out n).dense = true := by simpa [Out.new] using hk
      have hi := Out.init_dense (o := (Out.new (some k) : Out n)) (by simp [Out.new]) hdo x1 x2
      have h1 : o.out.dense = true := hi.1
      rw [if_pos h1, if_neg (by norm_num)]
      apply runLoop_inr
      unfold Out.outBody
      rw [if_neg]
      have h2 : o.out.xout = x1 := hi.2.2.2.1
      rw [h2]; simp
    rw [this]
  have hx1 : (Ode.new con y0 x1 x2 h1 hmin (Out.new (some k))).x1 = x1 := rfl
  have hys : (Ode.new con y0 x1 x2 h1 hmin (Out.new (some k))).ystart = y0 := rfl
  have hh : (Ode.new con y0 x1 x2 h1 hmin (Out.new (some k))).h = o.h := rfl
  rw [hx1, hys, hh, hrec]
  simp only
  have hy : o.clip.s.y = y0 := by unfold Ode.clip; split_ifs <;> rfl
  have hdy : o.clip.s.dydx = 0 := by
    have : o.s.dydx = 0 := hf x1
    unfold Ode.clip; split_ifs <;> exact this
  have hst := step_equilibrium p y0 hf o.clip.s hy hdy o.clip.h o.clip.con
  have hloop : Ode.loop p 50000 0 o
      = some (.error .AssertionError, { o.clip with s := o.clip.s, con := { o.clip.con with reject := true } }) := by
    rw [show (50000 : ℕ) = 49999 + 1 by norm_num]
    unfold Ode.loop Ode.iter
    rw [hst]
  refine ⟨_, hloop, rfl, ?_⟩
  show o.clip.ystart = y0
  unfold Ode.clip; split_ifs <;> rfl

/-- C58: the hypotheses are met by `y' = 0`. -/
theorem C58_nonvacuous : ∃ p : Prob 1, p.dense = true ∧ ∀ y0 x, p.f x y0 = 0 :=
  ⟨⟨fun _ _ => 0, 1e-9, 1e-9, true, id⟩, rfl, fun _ _ => rfl⟩

end PyNLO.Ode
