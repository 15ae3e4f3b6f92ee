import Verif.Props.OdeRuns

/-!
# C54: components that start at zero; C122: the step counters
-/

namespace PyNLO.Ode

variable {n : ℕ}

/-- C54: the scaled error uses the larger of the moduli before and after the step.  With `atol = 0` it is a number for a
field that starts at zero, as soon as every component has left zero; a component that is zero before and after makes it
NaN. -/
theorem C54_from_zero {rtol : ℝ} (hr : 0 < rtol) (y : V n) (st : Stages n) (h : ℝ) :
    ((∀ i, y i ≠ 0 ∨ st.yout i ≠ 0) → (∃ i, st.yerr i ≠ 0 ∨ st.yerr2 i ≠ 0) → ∃ e, error 0 rtol y st h = .val e) ∧
    ((∃ i, y i = 0 ∧ st.yout i = 0) → error 0 rtol y st h = .nan) := by
  refine ⟨fun hy he => ?_, fun ⟨i, h1, h2⟩ => ?_⟩
  · have hsk : ∀ i, 0 < errScale 0 rtol y st.yout i := by
      intro i
      unfold errScale
      rw [zero_add]
      refine mul_pos hr ?_
      rcases hy i with h | h
      · exact lt_max_of_lt_left (norm_pos_iff.mpr h)
      · exact lt_max_of_lt_right (norm_pos_iff.mpr h)
    have hnn : ∀ e : V n, 0 ≤ errSum (errScale 0 rtol y st.yout) e := fun e => Finset.sum_nonneg fun i _ => sq_nonneg _
    have hpos : ∀ (e : V n) (i : Fin n), e i ≠ 0 → 0 < errSum (errScale 0 rtol y st.yout) e := by
      intro e i hi
      refine Finset.sum_pos' (fun i _ => sq_nonneg _) ⟨i, Finset.mem_univ _, ?_⟩
      have := div_pos (norm_pos_iff.mpr hi) (hsk i)
      positivity
    have hdeno : 0 < errSum (errScale 0 rtol y st.yout) st.yerr2 + 0.01 * errSum (errScale 0 rtol y st.yout) st.yerr := by
      obtain ⟨i, hi | hi⟩ := he
      · have h1 := hpos _ i hi
        have h2 := hnn st.yerr2
        norm_num
        linarith
      · have h1 := hpos _ i hi
        have h2 := hnn st.yerr
        norm_num
        linarith
    have hn : (0 : ℝ) < n := by
      obtain ⟨i, -⟩ := he
      exact_mod_cast i.pos
    unfold error
    dsimp only
    rw [if_neg (not_lt.mpr hdeno.le), if_neg (by
      rintro (⟨i, hi⟩ | hi)
      · exact (hsk i).ne' hi
      · exact (mul_pos hdeno hn).ne' hi)]
    exact ⟨_, rfl⟩
  · unfold error
    dsimp only
    rw [if_pos (Or.inl ⟨i, by simp [errScale, h1, h2]⟩)]

theorem record_kept {p : Prob n} {o o' : Ode n} {k : ℤ} {x : ℝ} {y : V n} {h : ℝ} {r : Except PyErr Unit}
    (hr : o.record p k x y h = some (r, o')) : ∃ u, o' = { o with out := u } := by
  obtain ⟨u, rfl, -⟩ := record_cases hr
  exact ⟨u, rfl⟩

theorem after_kept (o : Ode n) : o.after.2.nok = o.nok ∧ o.after.2.nbad = o.nbad ∧ o.after.2.visited = o.visited ∧
    o.after.2.s = o.s := by
  unfold Ode.after
  dsimp only
  split_ifs
  · rcases o.out.save o.s.x o.s.y with ⟨_ | _, u⟩ <;> exact ⟨rfl, rfl, rfl, rfl⟩
  all_goals exact ⟨rfl, rfl, rfl, rfl⟩

theorem clip_kept (o : Ode n) : o.clip.nok = o.nok ∧ o.clip.nbad = o.nbad ∧ o.clip.visited = o.visited := by
  unfold Ode.clip
  split_ifs <;> exact ⟨rfl, rfl, rfl⟩

/-- C122: one pass of the loop either takes no step and raises, or takes one step and counts it: as good if the step has
the length that was tried (cut at the end of the interval), else as bad. -/
theorem C122_pass {p : Prob n} {o o' : Ode n} {k : ℕ} {r : Except PyErr Bool} (hr : o.iter p k = some (r, o')) :
    (o'.visited = o.visited ∧ o'.nok = o.nok ∧ o'.nbad = o.nbad ∧ ∃ e, r = .error e) ∨
    (o'.visited = o.visited ++ [o'.s.x] ∧
      ((o'.s.hdid = o.clip.h ∧ o'.nok = o.nok + 1 ∧ o'.nbad = o.nbad) ∨
        (o'.s.hdid ≠ o.clip.h ∧ o'.nok = o.nok ∧ o'.nbad = o.nbad + 1))) := by
  obtain ⟨c1, c2, c3⟩ := clip_kept o
  unfold Ode.iter at hr
  split at hr
  · cases hr
  · rename_i e s c hs
    obtain ⟨rfl, rfl⟩ := Prod.mk.inj (Option.some.inj hr)
    exact Or.inl ⟨c3, c1, c2, e, rfl⟩
  · rename_i s c hs
    right
    have htook : (o.clip.took s c).visited = o.visited ++ [s.x] := by rw [← c3]; rfl
    have hcount : (s.hdid = o.clip.h ∧ (o.clip.took s c).nok = o.nok + 1 ∧ (o.clip.took s c).nbad = o.nbad) ∨
        (s.hdid ≠ o.clip.h ∧ (o.clip.took s c).nok = o.nok ∧ (o.clip.took s c).nbad = o.nbad + 1) := by
      by_cases hh : s.hdid = o.clip.h
      · left
        refine ⟨hh, ?_, ?_⟩
        · simp only [Ode.took, if_pos hh, c1]
        · simp only [Ode.took, if_pos hh, c2]
      · right
        refine ⟨hh, ?_, ?_⟩
        · simp only [Ode.took, if_neg hh, c1]
        · simp only [Ode.took, if_neg hh, c2]
    split at hr
    · cases hr
    · rename_i e u hrec
      obtain ⟨rfl, rfl⟩ := Prod.mk.inj (Option.some.inj hr)
      obtain ⟨v, rfl⟩ := record_kept hrec
      exact ⟨htook, hcount⟩
    · rename_i u hrec
      obtain ⟨v, rfl⟩ := record_kept hrec
      have ho : o' = ({ o.clip.took s c with out := v } : Ode n).after.2 := by rw [Option.some.inj hr]
      obtain ⟨a1, a2, a3, a4⟩ := after_kept ({ o.clip.took s c with out := v } : Ode n)
      rw [ho, a1, a2, a3, a4]
      exact ⟨htook, hcount⟩

theorem loop_counts {p : Prob n} (m : ℕ) : ∀ {k : ℕ} {o o' : Ode n} {r : Except PyErr Unit},
    o.nok + o.nbad = o.visited.length → Ode.loop p m k o = some (r, o') →
      o'.nok + o'.nbad = o'.visited.length ∧ o'.visited.length ≤ o.visited.length + m := by
  induction m with
  | zero =>
    intro k o o' r h hr
    obtain ⟨-, rfl⟩ := Prod.mk.inj (Option.some.inj hr)
    exact ⟨h, le_rfl⟩
  | succ m ih =>
    intro k o o' r h hr
    have key : ∀ {r' : Except PyErr Bool} {o1 : Ode n}, o.iter p k = some (r', o1) →
        o1.nok + o1.nbad = o1.visited.length ∧ o1.visited.length ≤ o.visited.length + 1 := by
      intro r' o1 h1
      rcases C122_pass h1 with ⟨hv, h2, h3, -⟩ | ⟨hv, ⟨-, h2, h3⟩ | ⟨-, h2, h3⟩⟩ <;> rw [hv, h2, h3] <;>
        (try simp only [List.length_append, List.length_singleton]) <;> omega
    unfold Ode.loop at hr
    split at hr
    · cases hr
    · rename_i e o1 h1
      obtain ⟨-, rfl⟩ := Prod.mk.inj (Option.some.inj hr)
      have := key h1
      omega
    · rename_i o1 h1
      obtain ⟨-, rfl⟩ := Prod.mk.inj (Option.some.inj hr)
      have := key h1
      omega
    · rename_i o1 h1
      have h2 := key h1
      have h3 := ih h2.1 hr
      omega

/-- C122: whether `integrate` returns or raises, `nok + nbad` is the number of steps taken, at most `MAXSTP`. -/
theorem C122_total {p : Prob n} {con : Con} {y0 : V n} {x1 x2 h1 hmin : ℝ} {u : Out n} {o' : Ode n} {r : Except PyErr Unit}
    (hr : (Ode.new con y0 x1 x2 h1 hmin u).integrate p = some (r, o')) :
    o'.nok + o'.nbad = o'.visited.length ∧ o'.visited.length ≤ 50000 := by
  have h0 : (Ode.new con y0 x1 x2 h1 hmin u).nok + (Ode.new con y0 x1 x2 h1 hmin u).nbad =
      (Ode.new con y0 x1 x2 h1 hmin u).visited.length := rfl
  have hv : (Ode.new con y0 x1 x2 h1 hmin u).visited.length = 0 := rfl
  generalize Ode.new con y0 x1 x2 h1 hmin u = o at hr h0 hv
  unfold Ode.integrate at hr
  dsimp only at hr
  split at hr
  · cases hr
  · rename_i e o1 hrec
    obtain ⟨-, rfl⟩ := Prod.mk.inj (Option.some.inj hr)
    obtain ⟨v, rfl⟩ := record_kept hrec
    exact ⟨h0, by show o.visited.length ≤ 50000; omega⟩
  · rename_i o1 hrec
    obtain ⟨v, rfl⟩ := record_kept hrec
    obtain ⟨h1, h2⟩ := loop_counts 50000 (by exact h0) hr
    refine ⟨h1, h2.trans ?_⟩
    show o.visited.length + 50000 ≤ 50000
    omega

/-- An integration that returns. -/
theorem C122_nonvacuous (y0 : V 1) : ∃ o',
    (Ode.new Con.new y0 0 1 (1 / 10) 0 (Out.new (some 0))).integrate (unitProb false) = some (.ok (), o') ∧
    o'.nok + o'.nbad = o'.visited.length := by
  obtain ⟨o', h⟩ := (C53_nonvacuous y0).1
  exact ⟨o', h, (C122_total h).1⟩

end PyNLO.Ode
