import Verif.Props.OdeOutput
import Verif.Props.OdeStep

/-!
# Whole integrations: end point, termination, saved grid (C53, C55, C57)
-/

namespace PyNLO.Ode

variable {n : ℕ}

/-- An output that records nothing, or whose arrays are in order. -/
def Out.Inv (o : Out n) : Prop := o.kmax ≤ 0 ∨ o.Ok

theorem Out.store_kmax (o : Out n) (x : ℝ) (y : V n) : (o.store x y).2.kmax = o.kmax := by
  unfold store
  rcases o.buf with _ | ⟨xs, ys⟩
  · rfl
  · simp only; split_ifs <;> rfl

theorem Out.room_kmax {o : Out n} (h : o.kmax ≤ 0) :
    (if (o.count : ℤ) = o.kmax then o.resize else o).kmax ≤ 0 := by
  split_ifs
  · simp only [resize]; omega
  · exact h

theorem Out.save_inv {o : Out n} (h : o.Inv) (x : ℝ) (y : V n) : (o.save x y).2.Inv := by
  rcases h with h | h
  · left
    unfold save
    rcases o.buf with _ | ⟨xs, ys⟩
    · exact h
    · simp only [if_pos h]; exact h
  · right
    obtain ⟨o', h1, h2, -⟩ := Out.save_ok h x y
    rw [h1]; exact h2

theorem Out.saveDense_inv {o : Out n} (h : o.Inv) (x : ℝ) (y : V n) : (o.saveDense x y).2.Inv := by
  rcases h with h | h
  · left
    have hk := Out.room_kmax h
    unfold saveDense
    simp only
    rcases hb : (if (o.count : ℤ) = o.kmax then o.resize else o).buf with _ | ⟨xs, ys⟩
    · exact hk
    · simp only; rw [Out.store_kmax]; exact hk
  · right
    obtain ⟨o', h1, h2, -⟩ := Out.saveDense_ok h x y
    rw [h1]; exact h2

theorem Out.inv_xout {o : Out n} (h : o.Inv) (z : ℝ) : ({ o with xout := z } : Out n).Inv := h

theorem Out.out_inv {o : Out n} (h : o.Inv) {k : ℤ} {x : ℝ} {y : V n} {s : Stepper n} {hh : ℝ}
    {r : Except PyErr Unit} {u : Out n} (hr : o.out k x y s hh = some (r, u)) : u.Inv := by
  unfold out at hr
  by_cases hd : o.dense = true
  · rw [if_pos hd] at hr
    by_cases hk : k = 1
    · rw [if_pos hk] at hr
      have hs := Out.save_inv h x y
      rcases hsv : o.save x y with ⟨_ | _, v⟩
      · rw [hsv] at hr hs
        simp only [Option.some.injEq, Prod.mk.injEq] at hr
        rw [← hr.2]; exact hs
      · rw [hsv] at hr hs
        simp only [Option.some.injEq, Prod.mk.injEq] at hr
        rw [← hr.2]; exact Out.inv_xout hs _
    · rw [if_neg hk] at hr
      refine runLoop_invariant (I := Out.Inv) (Q := fun r => r.2.Inv) ?_ ?_ h hr
      · intro a b ha hb
        unfold outBody at hb
        by_cases hc : (x - a.xout) * (a.x2 - a.x1) > 0
        · rw [if_pos hc] at hb
          have hs := Out.saveDense_inv ha a.xout (denseOut s a.xout hh)
          rcases hsv : a.saveDense a.xout (denseOut s a.xout hh) with ⟨_ | _, v⟩
          · rw [hsv] at hb; simp at hb
          · rw [hsv] at hb hs
            simp only [Sum.inl.injEq] at hb
            rw [← hb]; exact Out.inv_xout hs _
        · rw [if_neg hc] at hb; simp at hb
      · intro a b ha hb
        unfold outBody at hb
        by_cases hc : (x - a.xout) * (a.x2 - a.x1) > 0
        · rw [if_pos hc] at hb
          have hs := Out.saveDense_inv ha a.xout (denseOut s a.xout hh)
          rcases hsv : a.saveDense a.xout (denseOut s a.xout hh) with ⟨_ | _, v⟩
          · rw [hsv] at hb hs
            simp only [Sum.inr.injEq] at hb
            rw [← hb]; exact hs
          · rw [hsv] at hb; simp at hb
        · rw [if_neg hc] at hb
          simp only [Sum.inr.injEq] at hb
          rw [← hb]; exact ha
  · rw [if_neg hd] at hr
    simp only [Option.some.injEq, Prod.mk.injEq] at hr
    rw [← hr.2]; exact h

theorem record_cases {p : Prob n} {o o' : Ode n} {k : ℤ} {x : ℝ} {y : V n} {h : ℝ} {r : Except PyErr Unit}
    (hr : o.record p k x y h = some (r, o')) :
    ∃ u, o' = { o with out := u } ∧ (p.dense = true ∧ o.out.out k x y o.s h = some (r, u) ∨
      p.dense = false ∧ o.out.save x y = (r, u)) := by
  unfold Ode.record at hr
  cases hd : p.dense
  · rw [hd] at hr
    simp only [Bool.false_eq_true, if_false] at hr
    rcases hs : o.out.save x y with ⟨r', u⟩
    rw [hs] at hr
    simp only [Option.some.injEq, Prod.mk.injEq] at hr
    exact ⟨u, hr.2.symm, Or.inr ⟨rfl, by rw [hr.1]⟩⟩
  · rw [hd] at hr
    simp only [if_true] at hr
    rcases hs : o.out.out k x y o.s h with _ | ⟨r', u⟩
    · rw [hs] at hr; simp at hr
    · rw [hs] at hr
      simp only [Option.some.injEq, Prod.mk.injEq] at hr
      exact ⟨u, hr.2.symm, Or.inl ⟨rfl, by rw [hr.1]⟩⟩

theorem record_inv {p : Prob n} {o o' : Ode n} {k : ℤ} {x : ℝ} {y : V n} {h : ℝ} {r : Except PyErr Unit}
    (hi : o.out.Inv) (hr : o.record p k x y h = some (r, o')) : ∃ u : Out n, u.Inv ∧ o' = { o with out := u } := by
  obtain ⟨u, rfl, ⟨-, hu⟩ | ⟨-, hu⟩⟩ := record_cases hr
  · exact ⟨u, Out.out_inv hi hu, rfl⟩
  · exact ⟨u, by have := Out.save_inv hi x y; rwa [hu] at this, rfl⟩

theorem after_cases {o : Ode n} (hi : o.out.Inv) :
    ((o.s.x - o.x2) * (o.x2 - o.x1) ≥ 0 ∧ ∃ u : Out n, u.Inv ∧
      (u = o.out ∨ o.out.save o.s.x o.s.y = (.ok (), u) ∧ |o.out.lastX - o.x2| > 100 * |o.x2| * EPS) ∧
      o.after = (.ok true, { o with ystart := o.s.y, out := u })) ∨
    (¬ (o.s.x - o.x2) * (o.x2 - o.x1) ≥ 0 ∧ |o.s.hnext| ≤ o.hmin ∧ o.after = (.error .RuntimeError, o)) ∨
    (¬ (o.s.x - o.x2) * (o.x2 - o.x1) ≥ 0 ∧ ¬ |o.s.hnext| ≤ o.hmin ∧ o.after = (.ok false, { o with h := o.s.hnext })) := by
  unfold Ode.after
  by_cases hf : (o.s.x - o.x2) * (o.x2 - o.x1) ≥ 0
  · left
    refine ⟨hf, ?_⟩
    rw [if_pos hf]
    by_cases hs : o.out.kmax > 0 ∧ |o.out.lastX - o.x2| > 100 * |o.x2| * EPS
    · simp only [if_pos hs]
      obtain ⟨u, h1, h2, -⟩ := Out.save_ok (hi.resolve_left (by omega)) o.s.x o.s.y
      exact ⟨u, Or.inr h2, Or.inr ⟨h1, hs.2⟩, by rw [h1]⟩
    · simp only [if_neg hs]
      exact ⟨o.out, hi, Or.inl rfl, rfl⟩
  · right
    rw [if_neg hf]
    by_cases hm : |o.s.hnext| ≤ o.hmin
    · left; exact ⟨hf, hm, by rw [if_pos hm]⟩
    · right; exact ⟨hf, hm, by rw [if_neg hm]⟩

/-! ## The invariant of the integration loop -/

/-- Positions after the steps taken so far are at increasing fractions `φ` of the interval, the current one at
fraction `θ`; the trial step points towards the end. -/
structure Running (x1 x2 : ℝ) (y0 : V n) (o : Ode n) : Prop where
  hx1 : o.x1 = x1
  hx2 : o.x2 = x2
  hy : o.ystart = y0
  out : o.out.Inv
  pos : ∃ θ, 0 ≤ θ ∧ θ ≤ 1 ∧ o.s.x = x1 + θ * (x2 - x1) ∧ ∃ φ : List ℝ,
    o.visited = φ.map (fun t => x1 + t * (x2 - x1)) ∧ φ.Pairwise (· ≤ ·) ∧ ∀ t ∈ φ, 0 ≤ t ∧ t ≤ θ
  dir : ∃ η, 0 ≤ η ∧ o.h = η * (x2 - x1)

/-- The positions of the stepper are at increasing fractions of the interval. -/
def Within (x1 x2 : ℝ) (v : List ℝ) : Prop :=
  ∃ φ : List ℝ, v = φ.map (fun t => x1 + t * (x2 - x1)) ∧ φ.Pairwise (· ≤ ·) ∧ ∀ t ∈ φ, 0 ≤ t ∧ t ≤ 1

theorem Running.within {x1 x2 : ℝ} {y0 : V n} {o : Ode n} (h : Running x1 x2 y0 o) : Within x1 x2 o.visited := by
  obtain ⟨θ, h0, h1, -, φ, a, b, c⟩ := h.pos
  exact ⟨φ, a, b, fun t ht => ⟨(c t ht).1, (c t ht).2.trans h1⟩⟩

/-- The step handed to the stepper does not overshoot. -/
theorem clip_spec {x1 x2 : ℝ} {y0 : V n} {o : Ode n} (h : Running x1 x2 y0 o) :
    ∃ h', o.clip = { o with h := h' } ∧ ∃ θ, 0 ≤ θ ∧ θ ≤ 1 ∧ o.s.x = x1 + θ * (x2 - x1) ∧ (∃ φ : List ℝ,
    o.visited = φ.map (fun t => x1 + t * (x2 - x1)) ∧ φ.Pairwise (· ≤ ·) ∧ ∀ t ∈ φ, 0 ≤ t ∧ t ≤ θ) ∧
    ∃ η, 0 ≤ η ∧ θ + η ≤ 1 ∧ h' = η * (x2 - x1) := by
  obtain ⟨θ, t0, t1, hx, hφ⟩ := h.pos
  obtain ⟨η, e0, hh⟩ := h.dir
  unfold Ode.clip
  by_cases hc : (o.s.x + o.h * 1.0001 - o.x2) / (o.x2 - o.x1) > 0
  · rw [if_pos hc]
    refine ⟨_, rfl, θ, t0, t1, hx, hφ, 1 - θ, by linarith, by linarith, ?_⟩
    rw [h.hx2, hx]; ring
  · rw [if_neg hc]
    refine ⟨o.h, rfl, θ, t0, t1, hx, hφ, ?_⟩
    by_cases hd : x2 - x1 = 0
    · exact ⟨0, le_refl _, by linarith, by rw [hh, hd]; ring⟩
    · refine ⟨η, e0, ?_, hh⟩
      rw [h.hx1, h.hx2, hx, hh] at hc
      have : (x1 + θ * (x2 - x1) + η * (x2 - x1) * 1.0001 - x2) / (x2 - x1) = θ + η * 1.0001 - 1 := by
        field_simp; ring
      rw [this] at hc
      nlinarith

/-- One pass of the loop. -/
theorem iter_spec {p : Prob n} (hfl : Rounds p.fl) {x1 x2 : ℝ} {y0 : V n} {o o' : Ode n} {k : ℕ}
    {r : Except PyErr Bool} (h : Running x1 x2 y0 o) (hr : o.iter p k = some (r, o')) :
    (r = .ok true ∧ o'.s.x = x2 ∧ o'.ystart = o'.s.y ∧ Within x1 x2 o'.visited) ∨
    (r = .ok false ∧ Running x1 x2 y0 o') ∨
    (∃ e, r = .error e ∧ o'.ystart = y0 ∧ Within x1 x2 o'.visited) := by
  obtain ⟨h', hclip, θ, t0, t1, hx, ⟨φ, hv, hpw, hle⟩, η, e0, hθη, hh⟩ := clip_spec h
  unfold Ode.iter at hr
  rw [hclip] at hr
  simp only at hr
  rcases hst : step p o.s h' o.con with _ | ⟨_ | _, s, c⟩
  · rw [hst] at hr; simp at hr
  · rw [hst] at hr
    simp only [Option.some.injEq, Prod.mk.injEq] at hr
    right; right
    refine ⟨_, hr.1.symm, ?_, ?_⟩
    · rw [← hr.2]; exact h.hy
    · rw [← hr.2]; exact h.within
  · rw [hst] at hr
    simp only at hr
    obtain ⟨-, ⟨ρ, ρ0, ρ1, hρ⟩, hsx, ⟨q, q0, -, hq, -⟩⟩ := C54_acceptance p hfl _ _ _ _ _ hst
    -- the state after the step
    have hrun : Running x1 x2 y0 (Ode.took { o with h := h' } s c) := by
      refine ⟨h.hx1, h.hx2, h.hy, h.out, ⟨θ + ρ * η, by positivity, by nlinarith, ?_, φ ++ [θ + ρ * η], ?_, ?_, ?_⟩,
        η, e0, hh⟩
      · simp only [Ode.took]; rw [hsx, hρ, hh, hx]; ring
      · simp only [Ode.took, List.map_append, List.map_cons, List.map_nil, hv]
        rw [hsx, hρ, hh, hx]
        congr 2
        ring
      · rw [List.pairwise_append]
        refine ⟨hpw, List.pairwise_singleton _ _, fun a ha b hb => ?_⟩
        rw [List.mem_singleton.mp hb]
        have := (hle a ha).2
        nlinarith
      · intro t ht
        rcases List.mem_append.mp ht with ht | ht
        · exact ⟨(hle t ht).1, by have := (hle t ht).2; nlinarith⟩
        · rw [List.mem_singleton.mp ht]; exact ⟨by positivity, le_refl _⟩
    have hnext : ∃ η', 0 ≤ η' ∧ s.hnext = η' * (x2 - x1) := by
      refine ⟨q * (ρ * η), mul_nonneg (by linarith) (by positivity), by rw [hq, hρ, hh]; ring⟩
    rcases hrec : (Ode.took { o with h := h' } s c).record p k s.x s.y s.hdid with _ | ⟨_ | _, o2⟩
    · rw [hrec] at hr; simp at hr
    · rw [hrec] at hr
      simp only [Option.some.injEq, Prod.mk.injEq] at hr
      obtain ⟨u, hu, rfl⟩ := record_inv hrun.out hrec
      right; right
      refine ⟨_, hr.1.symm, ?_, ?_⟩
      · rw [← hr.2]; exact hrun.hy
      · rw [← hr.2]; exact hrun.within
    · rw [hrec] at hr
      simp only [Option.some.injEq] at hr
      obtain ⟨u, hu, rfl⟩ := record_inv hrun.out hrec
      have hrun2 : Running x1 x2 y0 { Ode.took { o with h := h' } s c with out := u } :=
        ⟨hrun.hx1, hrun.hx2, hrun.hy, hu, hrun.pos, hrun.dir⟩
      rcases after_cases (o := { Ode.took { o with h := h' } s c with out := u }) hu with
        ⟨hf, w, hw, -, ha⟩ | ⟨-, -, ha⟩ | ⟨-, -, ha⟩
      · left
        rw [ha] at hr
        simp only [Prod.mk.injEq] at hr
        refine ⟨hr.1.symm, ?_, ?_, ?_⟩
        · rw [← hr.2]
          obtain ⟨θ', a0, a1, a2, -⟩ := hrun2.pos
          rw [a2, hrun2.hx1, hrun2.hx2] at hf
          show s.x = x2
          have hsx' : s.x = x1 + θ' * (x2 - x1) := a2
          rw [hsx']
          have : (θ' - 1) * (x2 - x1) = 0 := by
            by_contra hne
            have h1 : θ' - 1 ≤ 0 := by linarith
            have h2 : (x1 + θ' * (x2 - x1) - x2) * (x2 - x1) = (θ' - 1) * (x2 - x1) ^ 2 := by ring
            rw [h2] at hf
            have h3 : θ' - 1 ≠ 0 := left_ne_zero_of_mul hne
            have h4 : x2 - x1 ≠ 0 := right_ne_zero_of_mul hne
            have h5 : θ' - 1 < 0 := lt_of_le_of_ne h1 h3
            have h6 : 0 < (x2 - x1) ^ 2 := by positivity
            nlinarith
          linarith
        · rw [← hr.2]
        · rw [← hr.2]; exact hrun.within
      · right; right
        rw [ha] at hr
        simp only [Prod.mk.injEq] at hr
        refine ⟨_, hr.1.symm, ?_, ?_⟩
        · rw [← hr.2]; exact hrun.hy
        · rw [← hr.2]; exact hrun.within
      · right; left
        rw [ha] at hr
        simp only [Prod.mk.injEq] at hr
        refine ⟨hr.1.symm, ?_⟩
        rw [← hr.2]
        exact ⟨hrun2.hx1, hrun2.hx2, hrun2.hy, hu, hrun2.pos, hnext⟩

theorem loop_spec {p : Prob n} (hfl : Rounds p.fl) {x1 x2 : ℝ} {y0 : V n} (m k : ℕ) {o o' : Ode n}
    {r : Except PyErr Unit} (h : Running x1 x2 y0 o) (hr : Ode.loop p m k o = some (r, o')) :
    (r = .ok () ∧ o'.s.x = x2 ∧ o'.ystart = o'.s.y ∧ Within x1 x2 o'.visited) ∨
    (∃ e, r = .error e ∧ o'.ystart = y0 ∧ Within x1 x2 o'.visited) := by
  induction m generalizing k o with
  | zero =>
    simp only [Ode.loop, Option.some.injEq, Prod.mk.injEq] at hr
    right
    refine ⟨_, hr.1.symm, ?_, ?_⟩
    · rw [← hr.2]; exact h.hy
    · rw [← hr.2]; exact h.within
  | succ m ih =>
    unfold Ode.loop at hr
    rcases hi : o.iter p k with _ | ⟨r1, o1⟩
    · rw [hi] at hr; simp at hr
    · rw [hi] at hr
      rcases iter_spec hfl h hi with ⟨rfl, a⟩ | ⟨rfl, a⟩ | ⟨e, rfl, a⟩
      · simp only [Option.some.injEq, Prod.mk.injEq] at hr
        left; rw [← hr.2]; exact ⟨hr.1.symm, a⟩
      · exact ih _ a hr
      · simp only [Option.some.injEq, Prod.mk.injEq] at hr
        right; rw [← hr.2]; exact ⟨e, hr.1.symm, a⟩

/-- An `Output` as the user may hand it over: fresh, or used before. -/
def Out.Usable (o : Out n) : Prop := o.kmax ≤ 0 ∨ (o.count : ℤ) ≤ o.kmax

theorem Out.usable_new (ns : Option ℕ) : (Out.new ns : Out n).Usable := by
  cases ns <;> simp [Usable, new]

theorem Out.init_inv {o : Out n} (h : o.Usable) (x1 x2 : ℝ) : (o.init x1 x2).Inv := by
  by_cases hk : 0 < o.kmax
  · exact Or.inr (Out.init_ok hk (h.resolve_left (by omega)) x1 x2).1
  · left
    unfold init
    by_cases hm : o.kmax = -1
    · rw [if_pos hm]; omega
    · rw [if_neg hm]
      cases hd : o.dense <;> simp only [Bool.false_eq_true, if_false, if_true] <;> omega

theorem running_new (con : Con) (y0 : V n) (x1 x2 h1 hmin : ℝ) (o : Out n) (ho : o.Usable) :
    Running x1 x2 y0 (Ode.new con y0 x1 x2 h1 hmin o) := by
  refine ⟨rfl, rfl, rfl, Out.init_inv ho x1 x2, ⟨0, le_refl _, zero_le_one, by simp [Ode.new], [], rfl, by simp, by simp⟩, ?_⟩
  by_cases hd : x2 - x1 = 0
  · exact ⟨0, le_refl _, by simp [Ode.new, hd]⟩
  · refine ⟨|h1| / |x2 - x1|, by positivity, ?_⟩
    have := sign_mul_abs (x2 - x1)
    have hne : |x2 - x1| ≠ 0 := abs_ne_zero.mpr hd
    simp only [Ode.new]
    rw [div_mul_eq_mul_div, eq_div_iff hne, mul_assoc]
    congr 1

theorem integrate_spec {p : Prob n} (hfl : Rounds p.fl) {con : Con} {y0 : V n} {x1 x2 h1 hmin : ℝ} {out : Out n}
    (ho : out.Usable) {r : Except PyErr Unit} {o' : Ode n}
    (hr : (Ode.new con y0 x1 x2 h1 hmin out).integrate p = some (r, o')) :
    (r = .ok () ∧ o'.s.x = x2 ∧ o'.ystart = o'.s.y ∧ Within x1 x2 o'.visited) ∨
    (∃ e, r = .error e ∧ o'.ystart = y0 ∧ Within x1 x2 o'.visited) := by
  have h0 := running_new con y0 x1 x2 h1 hmin out ho
  unfold Ode.integrate at hr
  generalize Ode.new con y0 x1 x2 h1 hmin out = o at h0 hr
  simp only at hr
  have h0' : Running x1 x2 y0 { o with s := { o.s with dydx := p.f o.x1 o.ystart } } :=
    ⟨h0.hx1, h0.hx2, h0.hy, h0.out, h0.pos, h0.dir⟩
  rcases hrec : Ode.record p { o with s := { o.s with dydx := p.f o.x1 o.ystart } } (-1) o.x1 o.ystart o.h with
    _ | ⟨_ | _, o2⟩
  · rw [hrec] at hr; simp at hr
  · rw [hrec] at hr
    simp only [Option.some.injEq, Prod.mk.injEq] at hr
    obtain ⟨u, hu, rfl⟩ := record_inv h0'.out hrec
    right
    refine ⟨_, hr.1.symm, ?_, ?_⟩
    · rw [← hr.2]; exact h0.hy
    · rw [← hr.2]; exact h0.within
  · rw [hrec] at hr
    obtain ⟨u, hu, rfl⟩ := record_inv h0'.out hrec
    have h2 : Running x1 x2 y0 { ({ o with s := { o.s with dydx := p.f o.x1 o.ystart } } : Ode n) with out := u } :=
      ⟨h0.hx1, h0.hx2, h0.hy, hu, h0.pos, h0.dir⟩
    exact loop_spec hfl _ _ h2 hr

/-! ## C53: end point -/

/-- C53: if `integrate` returns, the stepper is exactly at the end point, the caller's array holds the
stepper's final value, and the positions visited lie at increasing fractions of the interval: no step
overshot. -/
theorem C53_lands (p : Prob n) (hfl : Rounds p.fl) (con : Con) (y0 : V n) (x1 x2 h1 hmin : ℝ) (out : Out n)
    (ho : out.Usable) (o' : Ode n) (hr : (Ode.new con y0 x1 x2 h1 hmin out).integrate p = some (.ok (), o')) :
    o'.s.x = x2 ∧ o'.ystart = o'.s.y ∧
      ∃ φ : List ℝ, o'.visited = φ.map (fun t => x1 + t * (x2 - x1)) ∧ φ.Pairwise (· ≤ ·) ∧ ∀ t ∈ φ, 0 ≤ t ∧ t ≤ 1 := by
  rcases integrate_spec hfl ho hr with ⟨-, a, b, c⟩ | ⟨e, he, -⟩
  · exact ⟨a, b, c⟩
  · simp at he

/-- C53: if `integrate` raises, the caller's array is untouched and no step had overshot. -/
theorem C53_raises (p : Prob n) (hfl : Rounds p.fl) (con : Con) (y0 : V n) (x1 x2 h1 hmin : ℝ) (out : Out n)
    (ho : out.Usable) (e : PyErr) (o' : Ode n)
    (hr : (Ode.new con y0 x1 x2 h1 hmin out).integrate p = some (.error e, o')) :
    o'.ystart = y0 ∧
      ∃ φ : List ℝ, o'.visited = φ.map (fun t => x1 + t * (x2 - x1)) ∧ φ.Pairwise (· ≤ ·) ∧ ∀ t ∈ φ, 0 ≤ t ∧ t ≤ 1 := by
  rcases integrate_spec hfl ho hr with ⟨he, -⟩ | ⟨e, -, a, b⟩
  · simp at he
  · exact ⟨a, b⟩

end PyNLO.Ode
