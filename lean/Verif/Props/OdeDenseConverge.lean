import Verif.Props.OdeDenseOrder

/-!
# C119: accuracy of the rows of an integration with dense output
-/

open scoped BigOperators Topology ContDiff
open Filter Set

namespace PyNLO.Ode

open RK

variable {n : ℕ}

/-! ## Rows of an integration -/

/-- Inside the second step, at least the spacing of the rows behind its start. -/
def InSecond (dx : ℝ) (visited : List ℝ) (x : ℝ) : Prop :=
  ∃ a b, visited[0]? = some a ∧ visited[1]? = some b ∧ a + dx ≤ x ∧ x < b

theorem InSecond.append {dx : ℝ} {v : List ℝ} {x : ℝ} (h : InSecond dx v x) (w : List ℝ) : InSecond dx (v ++ w) x := by
  obtain ⟨a, b, h1, h2, h3⟩ := h
  exact ⟨a, b, by rw [List.getElem?_append_left (List.getElem?_eq_some_iff.1 h1).1, h1],
    by rw [List.getElem?_append_left (List.getElem?_eq_some_iff.1 h2).1, h2], h3⟩

/-- Every position in a step of at most `hm` from a good value gives a good row. -/
def KeptRow (p : Prob n) (x1 x2 hm : ℝ) (Good Row : ℝ → V n → Prop) : Prop :=
  (∀ x y, Good x y → Row x y) ∧
  ∀ x h θ y, x1 ≤ x → 0 ≤ h → x + h ≤ x2 → h ≤ hm → θ ∈ Icc (0 : ℝ) 1 → Good x y → Row (x + θ * h) (between p.f x y h θ)

/-- The rows so far. -/
def RowsHold (x1 hm dx : ℝ) (Row : ℝ → V n → Prop) (visited : List ℝ) (l : List (ℝ × V n)) : Prop :=
  StepsLe hm x1 visited → ∀ r ∈ l, Row r.1 r.2 ∨ InSecond dx visited r.1

/-- The invariant of the loop with dense output. -/
structure TrackDense (p : Prob n) (x1 x2 hm dx : ℝ) (Good Row : ℝ → V n → Prop) (o : Ode n) (k : ℕ) : Prop where
  track : Track p x1 hm Good o
  ok : o.out.Ok
  dense : o.out.dense = true
  hdx : o.out.dxout = dx
  xout : o.out.xout = x1 + o.out.count * o.out.dxout
  ends : o.out.x1 = x1 ∧ o.out.x2 = x2
  len : o.visited.length = k
  ahead : k ≠ 2 → o.s.x ≤ o.out.xout
  second : k = 2 → ∃ a, o.visited[0]? = some a ∧ a + dx ≤ o.out.xout
  rows : RowsHold x1 hm dx Row o.visited o.out.saved

theorem iter_dense {p : Prob n} (hp : p.dense = true) (hfl : Rounds p.fl) {x1 x2 hm dx : ℝ} (hx12 : x1 < x2) (hdx : 0 < dx)
    {Good Row : ℝ → V n → Prop} (hk : Kept p x1 x2 hm Good) (hkr : KeptRow p x1 x2 hm Good Row) {y0 : V n}
    {o o' : Ode n} {k : ℕ} {b : Bool} (h : Running x1 x2 y0 o) (ht : TrackDense p x1 x2 hm dx Good Row o k)
    (hr : o.iter p k = some (.ok b, o')) :
    RowsHold x1 hm dx Row o'.visited o'.out.saved ∧ (b = false → TrackDense p x1 x2 hm dx Good Row o' (k + 1)) := by
  have hT := (iter_track hfl hk h ht.track hr).1
  obtain ⟨h', hclip, θ, t0, t1, hx, -, η, e0, hθη, hh⟩ := clip_spec h
  unfold Ode.iter at hr
  rw [hclip] at hr
  simp only at hr
  rcases hst : step p o.s h' o.con with _ | ⟨_ | _, s, c⟩
  · rw [hst] at hr; simp at hr
  · rw [hst] at hr; simp at hr
  · rw [hst] at hr
    simp only at hr
    obtain ⟨-, ⟨ρ, ρ0, ρ1, hρ⟩, hsx, -⟩ := C54_acceptance p hfl _ _ _ _ _ hst
    rcases hrec : (Ode.took { o with h := h' } s c).record p k s.x s.y s.hdid with _ | ⟨_ | _, o2⟩
    · rw [hrec] at hr; simp at hr
    · rw [hrec] at hr; simp at hr
    · rw [hrec] at hr
      simp only [Option.some.injEq] at hr
      obtain ⟨u, rfl, ⟨-, hu⟩ | ⟨hp', -⟩⟩ := record_cases hrec
      swap
      · rw [hp] at hp'; simp at hp'
      have hu' : o.out.out k s.x s.y s s.hdid = some (.ok (), u) := hu
      have hdom := Out.out_dom hu'
      have hfields := after_fields { Ode.took { o with h := h' } s c with out := u }
      rw [hr] at hfields
      obtain ⟨hv, hs⟩ := hfields
      have hv' : o'.visited = o.visited ++ [s.x] := hv
      have hs' : o'.s = s := hs
      have hxd : 0 < x2 - x1 := by linarith
      have hstep : s.hdid = ρ * η * (x2 - x1) := by rw [hρ, hh]; ring
      have hge : 0 ≤ s.hdid := by rw [hstep]; positivity
      have hox1 : x1 ≤ o.s.x := by rw [hx]; have := mul_nonneg t0 hxd.le; linarith
      have hox2 : o.s.x + s.hdid ≤ x2 := by
        rw [hx, hstep]
        have : θ + ρ * η ≤ 1 := by nlinarith
        have := mul_le_of_le_one_left hxd.le this
        linarith
      have hsteps : StepsLe hm x1 o'.visited → StepsLe hm x1 o.visited ∧ s.hdid ≤ hm := by
        intro hsl
        rw [hv', stepsLe_append, ht.track.last, hsx, add_sub_cancel_left, abs_of_nonneg hge] at hsl
        exact hsl
      have hgood : StepsLe hm x1 o'.visited → Good s.x s.y := by
        intro hsl
        have := hT.good hsl
        rwa [hs'] at this
      have hlen : o'.visited.length = k + 1 := by rw [hv']; simp [ht.len]
      -- the output after recording
      have key : u.Ok ∧ u.xout = x1 + u.count * u.dxout ∧ (k + 1 ≠ 2 → s.x ≤ u.xout) ∧
          (k + 1 = 2 → ∃ a, o'.visited[0]? = some a ∧ a + dx ≤ u.xout) ∧ RowsHold x1 hm dx Row o'.visited u.saved := by
        have hold : StepsLe hm x1 o'.visited → ∀ r ∈ o.out.saved, Row r.1 r.2 ∨ InSecond dx o'.visited r.1 := by
          intro hsl r hr'
          rcases ht.rows (hsteps hsl).1 r hr' with h1 | h1
          · exact Or.inl h1
          · rw [hv']; exact Or.inr (h1.append _)
        by_cases hk1 : k = 1
        · subst hk1
          obtain ⟨-, q1, q2, q3, q4⟩ := Out.out_second (a := x1) ht.ok ht.xout ht.dense hu'
          refine ⟨q1, q2, fun h => absurd rfl h, fun _ => ?_, fun hsl r hr' => ?_⟩
          · have hv0 : o.visited[0]? = some o.s.x := by
              have hl := ht.track.last
              have hlen1 := ht.len
              match hov : o.visited, hlen1 with
              | [a], _ => rw [hov] at hl; simpa using hl
            refine ⟨o.s.x, by rw [hv', List.getElem?_append_left (by rw [ht.len]; norm_num), hv0], ?_⟩
            have h1 := ht.ahead (by norm_num)
            rw [ht.xout, ht.hdx] at h1
            rw [q2, q3, hdom.2.2.2.1, ht.hdx]
            push_cast
            linarith
          · rw [q4, List.mem_append] at hr'
            rcases hr' with h1 | h1
            · exact hold hsl r h1
            · rw [List.mem_singleton.mp h1]
              exact Or.inl (hkr.1 _ _ (hgood hsl))
        · obtain ⟨-, q1, q2, q3, m, q4, q5, q6⟩ := Out.out_grid (a := x1) ht.ok ht.xout ht.dense (by exact_mod_cast hk1) hu'
          rw [ht.ends.1, ht.ends.2] at q3 q5
          refine ⟨q1, q2, fun _ => ?_, fun h => absurd (by omega) hk1, fun hsl r hr' => ?_⟩
          · by_contra hc
            push Not at hc
            exact q3 (mul_pos (by linarith) hxd)
          · rw [q6, List.mem_append] at hr'
            rcases hr' with h1 | h1
            · exact hold hsl r h1
            · obtain ⟨i, hi, rfl⟩ := List.mem_map.mp h1
              have hi' := q5 i (List.mem_range.mp hi)
              dsimp only
              generalize hX : x1 + ((o.out.count + i : ℕ) : ℝ) * o.out.dxout = X at hi' ⊢
              have hXx : X < s.x := by
                by_contra hc
                push Not at hc
                have := mul_nonpos_of_nonpos_of_nonneg (by linarith : s.x - X ≤ 0) hxd.le
                linarith
              have hXout : o.out.xout ≤ X := by
                rw [ht.xout, ← hX, ht.hdx]
                push_cast
                have : 0 ≤ (i : ℝ) * dx := by positivity
                nlinarith
              by_cases hin : o.s.x ≤ X
              · left
                have hpos : 0 < s.hdid := by linarith
                have hθ1 : (X - o.s.x) / s.hdid ∈ Icc (0 : ℝ) 1 :=
                  ⟨div_nonneg (by linarith) hge, by rw [div_le_one hpos]; linarith⟩
                rw [C119_method p hp o.s s h' o.con c ht.track.dydx hst X]
                have := hkr.2 o.s.x s.hdid _ o.s.y hox1 hge hox2 (hsteps hsl).2 hθ1 (ht.track.good (hsteps hsl).1)
                rwa [div_mul_cancel₀ _ hpos.ne', add_sub_cancel] at this
              · right
                push Not at hin
                have hk2 : k = 2 := by
                  by_contra hc
                  have := ht.ahead hc
                  linarith
                obtain ⟨a, ha, had⟩ := ht.second hk2
                have hv1 : o.visited[1]? = some o.s.x := by
                  have hl := ht.track.last
                  have hlen1 := ht.len
                  rw [hk2] at hlen1
                  match hov : o.visited, hlen1 with
                  | [a, b], _ => rw [hov] at hl; simpa using hl
                rw [hv']
                refine InSecond.append ⟨a, o.s.x, ha, hv1, by linarith, hin⟩ _
      obtain ⟨k1, k2, k3, k4, k5⟩ := key
      rcases after_cases (o := { Ode.took { o with h := h' } s c with out := u }) (Or.inr k1) with ⟨-, w, -, hw, ha⟩ | ⟨-, -, ha⟩ | ⟨-, -, ha⟩
      · rw [ha] at hr
        simp only [Prod.mk.injEq, Except.ok.injEq] at hr
        obtain ⟨rfl, rfl⟩ := hr
        refine ⟨?_, by simp⟩
        rcases hw with rfl | ⟨hw, -⟩
        · exact k5
        · obtain ⟨z, hz, -, hzs, -⟩ := Out.save_ok k1 s.x s.y
          have hw' : u.save s.x s.y = (.ok (), w) := hw
          rw [hz] at hw'
          simp only [Prod.mk.injEq, true_and] at hw'
          subst hw'
          intro hsl r hr'
          have hr2 : r ∈ z.saved := hr'
          rw [hzs, List.mem_append] at hr2
          rcases hr2 with h1 | h1
          · exact k5 hsl r h1
          · rw [List.mem_singleton.mp h1]
            exact Or.inl (hkr.1 _ _ (hgood hsl))
      · rw [ha] at hr
        simp at hr
      · rw [ha] at hr
        simp only [Prod.mk.injEq, Except.ok.injEq] at hr
        obtain ⟨rfl, rfl⟩ := hr
        refine ⟨k5, fun _ => ⟨hT, k1, ?_, ?_, k2, ?_, hlen, k3, k4, k5⟩⟩
        · show u.dense = true
          rw [hdom.1, ht.dense]
        · show u.dxout = dx
          rw [hdom.2.2.2.1, ht.hdx]
        · show u.x1 = x1 ∧ u.x2 = x2
          rw [hdom.2.1, hdom.2.2.1]
          exact ht.ends

theorem loop_dense {p : Prob n} (hp : p.dense = true) (hfl : Rounds p.fl) {x1 x2 hm dx : ℝ} (hx12 : x1 < x2) (hdx : 0 < dx)
    {Good Row : ℝ → V n → Prop} (hk : Kept p x1 x2 hm Good) (hkr : KeptRow p x1 x2 hm Good Row) {y0 : V n}
    (m k : ℕ) {o o' : Ode n} (h : Running x1 x2 y0 o) (ht : TrackDense p x1 x2 hm dx Good Row o k)
    (hr : Ode.loop p m k o = some (.ok (), o')) : RowsHold x1 hm dx Row o'.visited o'.out.saved := by
  induction m generalizing k o with
  | zero => simp [Ode.loop] at hr
  | succ m ih =>
    unfold Ode.loop at hr
    rcases hi : o.iter p k with _ | ⟨_ | ⟨_ | _⟩, o1⟩
    · rw [hi] at hr; simp at hr
    · rw [hi] at hr; simp at hr
    · rw [hi] at hr
      rcases iter_spec hfl h hi with ⟨he, -⟩ | ⟨-, hrun⟩ | ⟨e, he, -⟩
      · simp at he
      · exact ih _ hrun ((iter_dense hp hfl hx12 hdx hk hkr h ht hi).2 rfl) hr
      · simp at he
    · rw [hi] at hr
      simp only [Option.some.injEq, Prod.mk.injEq, true_and] at hr
      rw [← hr]
      exact (iter_dense hp hfl hx12 hdx hk hkr h ht hi).1

/-- A kept property holds at the end and along the rows. -/
theorem integrate_dense {p : Prob n} (hp : p.dense = true) (hfl : Rounds p.fl) {x1 x2 hm : ℝ} (hx12 : x1 < x2)
    {Good Row : ℝ → V n → Prop} (hk : Kept p x1 x2 hm Good) (hkr : KeptRow p x1 x2 hm Good Row) {y0 : V n}
    (h0 : Good x1 y0) {con : Con} {h1 hmin : ℝ} {ns : ℕ} (hns : 0 < ns) {o' : Ode n}
    (hr : (Ode.new con y0 x1 x2 h1 hmin (Out.new (some ns))).integrate p = some (.ok (), o')) (hs : StepsLe hm x1 o'.visited) :
    ∀ r ∈ o'.out.saved, Row r.1 r.2 ∨ InSecond ((x2 - x1) / ns) o'.visited r.1 := by
  have hdx : 0 < (x2 - x1) / ns := div_pos (by linarith) (by exact_mod_cast hns)
  obtain ⟨o, e, hl, hsv, a1, a2, a3, a4, a5, a6, a7, a8, -⟩ := integrate_start p hp con y0 x1 x2 h1 hmin ns hns
  have hv : o.visited = [] := List.length_eq_zero_iff.1 hl.len
  rw [e] at hr
  have hrun : Running x1 x2 o.ystart o := by
    refine ⟨a3, a4, rfl, Or.inr hl.ok, ⟨0, le_refl _, zero_le_one, by rw [a5]; ring, [], by rw [hv]; rfl, List.Pairwise.nil, by simp⟩, ?_⟩
    refine ⟨|h1| / (x2 - x1), div_nonneg (abs_nonneg _) (by linarith), ?_⟩
    rw [a8, sign_pos (by linarith)]
    rw [div_mul_cancel₀ _ (by linarith : x2 - x1 ≠ 0)]
    simp
  have hxo : o.out.xout = x1 := by
    rw [hl.xout, ← Out.saved_length hl.ok, hsv]; simp
  refine loop_dense hp hfl hx12 hdx hk hkr _ _ hrun ⟨⟨?_, ?_, fun _ => ?_⟩, hl.ok, hl.dense, hl.hdx, hl.xout, ⟨a1, a2⟩, hl.len, fun _ => ?_,
    fun h => by omega, fun _ r hr' => ?_⟩ hr hs
  · rw [hv, a5]; rfl
  · rw [a7, a5, a6]
  · rw [a5, a6]; exact h0
  · rw [a5, hxo]
  · rw [hsv] at hr'; simp at hr'

/-! ## Accuracy -/

/-- The error allowed in a row. -/
noncomputable def rowAllowed (M M' L C x1 hm x : ℝ) : ℝ :=
  (1 + 7460 * L * hm) * allowed M L C x1 hm x + hm * (7e-26 * M' + 7.46e-24 * L * hm + C * hm ^ 7)

theorem diffSum_nonneg {E : Type*} [NormedAddCommGroup E] [NormedSpace ℝ E] (K d : ℕ) (g : ℝ × E → ℝ × E) (y : ℝ × E) : 0 ≤ diffSum K d g y := by
  unfold diffSum
  refine Finset.sum_nonneg fun t _ => ?_
  split_ifs
  · exact norm_nonneg _
  · exact le_refl _

theorem allowed_mono {M L C x1 hm x x' : ℝ} (hM : 0 ≤ M) (hL : 0 ≤ L) (hC : 0 ≤ C) (hh : 0 ≤ hm) (h1 : x1 ≤ x) (h2 : x ≤ x') :
    allowed M L C x1 hm x ≤ allowed M L C x1 hm x' := by
  unfold allowed
  refine mul_le_mul_of_nonneg_right ?_ (by positivity)
  refine mul_le_mul (by linarith) (Real.exp_le_exp.2 (mul_le_mul_of_nonneg_left (by linarith) (by positivity))) (Real.exp_pos _).le (by linarith)

theorem allowed_nonneg {M L C x1 hm x : ℝ} (hM : 0 ≤ M) (hL : 0 ≤ L) (hC : 0 ≤ C) (hh : 0 ≤ hm) (h1 : x1 ≤ x) :
    0 ≤ allowed M L C x1 hm x := by
  unfold allowed
  have : 0 ≤ x - x1 := by linarith
  positivity

theorem allowed_C {M L C C' x1 hm x : ℝ} (hC : C ≤ C') (hh : 0 ≤ hm) (h1 : x1 ≤ x) : allowed M L C x1 hm x ≤ allowed M L C' x1 hm x := by
  unfold allowed
  refine mul_le_mul_of_nonneg_left ?_ (mul_nonneg (by linarith) (Real.exp_pos _).le)
  have := mul_le_mul_of_nonneg_right hC (pow_nonneg hh 8)
  linarith

/-- C119: the rows of an integration with dense output, the default of `ODEint`, are within the allowed error of the exact solution,
whatever the tolerances, the first step and the number of rows, provided that no step was longer than `hm`.  Excepted are rows inside
the second step. -/
theorem C119_rows_partial {f : Rhs n} {Y : ℝ → V n} {x1 x2 M M' L : ℝ} (E : Eqn f Y x1 x2 M L) (hlt : x1 < x2)
    (hM' : ∀ z ∈ Icc x1 x2, diffSum 6 16 (aug f) (z, Y z) ≤ M') :
    ∃ C h0, 0 ≤ C ∧ 0 < h0 ∧ ∀ hm ∈ Ioc 0 h0, ∀ (p : Prob n) (con : Con) (h1 hmin : ℝ) (ns : ℕ) (o' : Ode n),
      p.f = f → p.dense = true → Rounds p.fl → 0 < ns →
      (Ode.new con (Y x1) x1 x2 h1 hmin (Out.new (some ns))).integrate p = some (.ok (), o') → StepsLe hm x1 o'.visited →
      ‖o'.ystart - Y x2‖ ≤ allowed M L C x1 hm x2 ∧
      ∀ r ∈ o'.out.saved, ‖r.2 - Y r.1‖ ≤ rowAllowed M M' L C x1 hm r.1 ∨ InSecond ((x2 - x1) / ns) o'.visited r.1 := by
  obtain ⟨α, β, R, ρ, hα, hβ, hρ, hY, hR, hlip, hsm⟩ := E.tube
  obtain ⟨C, h0, hC, h0pos, hb⟩ := global_step (K := 7) (s := 12) (by norm_num) bounded (c := tc) E.smooth hα E.le hβ hY
    (η := 1e-27) (δ := 1e-28) (by norm_num) (by norm_num) (fun t ht => weight_error t ht) nodes E.diffs hρ hR E.nonneg hlip (by
      rw [show (2 : ℝ) * 13 * L = 26 * L by ring]
      linarith)
  obtain ⟨C', h0', hC', h0pos', hb'⟩ := dense_step (K := 6) (s := 16) (by norm_num) (a := da) (W := dw) (φ := basis) (c := dn)
    (fun θ hθ j => basis_le hθ j) (fun θ hθ => boundedD hθ) E.smooth hα E.le hβ hY
    (η := 7e-26) (δ := 1e-27) (by norm_num) (by norm_num) (fun θ hθ t ht => C119_order_conditions t ht hθ) nodesD hM' hρ hR E.nonneg hlip
  simp only [← allowed_eq] at hb
  have hM0 : 0 ≤ M := (diffSum_nonneg _ _ _ _).trans (E.diffs x1 ⟨le_refl _, E.le⟩)
  have hM0' : 0 ≤ M' := (diffSum_nonneg _ _ _ _).trans (hM' x1 ⟨le_refl _, E.le⟩)
  have hL := E.nonneg
  refine ⟨max C C', min h0 h0', le_max_of_le_left hC, lt_min h0pos h0pos', fun hm hhm p con h1 hmin ns o' hf hp hfl hns hr hs => ?_⟩
  have hm0 := hhm.1.le
  have hm1 : hm ∈ Ioc 0 h0 := ⟨hhm.1, hhm.2.trans (min_le_left _ _)⟩
  have hm2 : hm ≤ h0' := hhm.2.trans (min_le_right _ _)
  have hkept : Kept p x1 x2 hm fun x y => ‖y - Y x‖ ≤ allowed M L C x1 hm x := by
    intro θ η y t0 e0 hθη hle hg
    rw [hf, dy_nodes]
    have hd : 0 ≤ x2 - x1 := by linarith
    have e1 : 0 ≤ θ * (x2 - x1) := mul_nonneg t0 hd
    have e2 : 0 ≤ η * (x2 - x1) := mul_nonneg e0 hd
    have e3 : θ * (x2 - x1) + η * (x2 - x1) ≤ x2 - x1 := by
      rw [← add_mul]
      exact mul_le_of_le_one_left hd hθη
    rw [abs_of_nonneg e2] at hle
    exact (hb hm hm1 _ ⟨by linarith, by linarith⟩).2 _ ⟨e2, hle⟩ (by linarith) y hg
  have hstart : ‖Y x1 - Y x1‖ ≤ allowed M L C x1 hm x1 := by simp [allowed]
  refine ⟨((integrate_kept (Good := fun x y => ‖y - Y x‖ ≤ allowed M L C x1 hm x) hfl hkept hstart (Out.usable_new (some ns)) hr hs).1).trans
    (allowed_C (le_max_left _ _) hm0 E.le), ?_⟩
  refine integrate_dense (Good := fun x y => x ∈ Icc x1 x2 ∧ ‖y - Y x‖ ≤ allowed M L C x1 hm x)
    (Row := fun x y => ‖y - Y x‖ ≤ rowAllowed M M' L (max C C') x1 hm x) hp hfl hlt ?_ ⟨?_, ?_⟩ ⟨⟨le_refl _, E.le⟩, hstart⟩ hns hr hs
  · intro θ η y t0 e0 hθη hle hg
    refine ⟨?_, hkept θ η y t0 e0 hθη hle hg.2⟩
    have hd : 0 ≤ x2 - x1 := by linarith
    have e1 : 0 ≤ θ * (x2 - x1) := mul_nonneg t0 hd
    have e2 : 0 ≤ η * (x2 - x1) := mul_nonneg e0 hd
    have e3 : θ * (x2 - x1) + η * (x2 - x1) ≤ x2 - x1 := by
      rw [← add_mul]
      exact mul_le_of_le_one_left hd hθη
    exact ⟨by linarith, by linarith⟩
  · rintro x y ⟨hx, hg⟩
    refine hg.trans ?_
    unfold rowAllowed
    have h2 := allowed_C (M := M) (L := L) (le_max_left C C') hm0 hx.1
    have h3 := allowed_nonneg (C := max C C') hM0 hL (le_max_of_le_left hC) hm0 hx.1
    have h4 : 0 ≤ 7460 * L * hm * allowed M L (max C C') x1 hm x := by positivity
    have h5 : 0 ≤ max C C' := le_max_of_le_left hC
    have h6 : 0 ≤ hm * (7e-26 * M' + 7.46e-24 * L * hm + max C C' * hm ^ 7) := by positivity
    linarith
  · rintro x h θ y hx1 hh hxh hle hθ ⟨hx, hg⟩
    rw [hf]
    have h2 := hb' x hx h ⟨hh, hle.trans hm2⟩ θ hθ y (hg.trans (hb hm hm1 x hx).1)
    refine (show ‖between f x y h θ - Y (x + θ * h)‖ ≤ _ from h2).trans ?_
    unfold rowAllowed
    have hθh : 0 ≤ θ * h := mul_nonneg hθ.1 hh
    have h5 : 0 ≤ max C C' := le_max_of_le_left hC
    have h3 : ‖y - Y x‖ ≤ allowed M L (max C C') x1 hm (x + θ * h) :=
      hg.trans ((allowed_C (le_max_left _ _) hm0 hx.1).trans (allowed_mono hM0 hL h5 hm0 hx.1 (by linarith)))
    refine add_le_add ?_ ?_
    · refine mul_le_mul ?_ h3 (norm_nonneg _) (by positivity)
      have := mul_le_mul_of_nonneg_left hle (by positivity : 0 ≤ 7460 * L)
      linarith
    · refine mul_le_mul hle ?_ (by positivity) hm0
      have h6 : 7.46e-24 * L * h ≤ 7.46e-24 * L * hm := mul_le_mul_of_nonneg_left hle (by positivity)
      have h7 : C' * h ^ (6 + 1) ≤ max C C' * hm ^ 7 := mul_le_mul (le_max_right _ _) (pow_le_pow_left₀ hh hle _) (by positivity) h5
      have e : 2 * 3730 * L * 1e-27 * h = 7.46e-24 * L * h := by ring
      rw [e]
      exact add_le_add (add_le_add (le_refl _) h6) h7

/-- C119: if the second step is not longer than the spacing of the rows, or there is none, every row is within the allowed error. -/
theorem C119_all_rows {f : Rhs n} {Y : ℝ → V n} {x1 x2 M M' L : ℝ} (E : Eqn f Y x1 x2 M L) (hlt : x1 < x2)
    (hM' : ∀ z ∈ Icc x1 x2, diffSum 6 16 (aug f) (z, Y z) ≤ M') :
    ∃ C h0, 0 ≤ C ∧ 0 < h0 ∧ ∀ hm ∈ Ioc 0 h0, ∀ (p : Prob n) (con : Con) (h1 hmin : ℝ) (ns : ℕ) (o' : Ode n),
      p.f = f → p.dense = true → Rounds p.fl → 0 < ns →
      (Ode.new con (Y x1) x1 x2 h1 hmin (Out.new (some ns))).integrate p = some (.ok (), o') → StepsLe hm x1 o'.visited →
      (∀ a b, o'.visited[0]? = some a → o'.visited[1]? = some b → b - a ≤ (x2 - x1) / ns) →
      ∀ r ∈ o'.out.saved, ‖r.2 - Y r.1‖ ≤ rowAllowed M M' L C x1 hm r.1 := by
  obtain ⟨C, h0, hC, h0pos, hb⟩ := C119_rows_partial E hlt hM'
  refine ⟨C, h0, hC, h0pos, fun hm hhm p con h1 hmin ns o' hf hp hfl hns hr hs hsec r hr' => ?_⟩
  rcases (hb hm hhm p con h1 hmin ns o' hf hp hfl hns hr hs).2 r hr' with h | ⟨a, b, ha, hb', h3, h4⟩
  · exact h
  · have := hsec a b ha hb'
    linarith

/-- `y' = 1` on `[0, 1]` meets the hypotheses, with an integration that returns. -/
theorem C119_nonvacuous (y0 : V 1) :
    (∃ M M', Eqn (unitProb true).f (fun x => y0 + x • (1 : V 1)) 0 1 M 0 ∧
      ∀ z ∈ Icc (0 : ℝ) 1, diffSum 6 16 (aug (unitProb true).f) (z, y0 + z • (1 : V 1)) ≤ M') ∧
    ∃ o', (Ode.new Con.new (y0 + (0 : ℝ) • (1 : V 1)) 0 1 (1 / 2) 0 (Out.new (some 4))).integrate (unitProb true) = some (.ok (), o') ∧
      o'.out.saved.length = 3 := by
  obtain ⟨⟨M, hM⟩, -⟩ := C118_nonvacuous y0
  have hf : ContDiff ℝ ω fun q : ℝ × V 1 => (unitProb true).f q.1 q.2 := contDiff_const
  obtain ⟨M', hM'⟩ := diffs_bound 6 16 hf (Y := fun x => y0 + x • (1 : V 1)) (x1 := 0) (x2 := 1) (by fun_prop)
  refine ⟨⟨M, M', hM, hM'⟩, ?_⟩
  obtain ⟨o', h1, h2⟩ := C57_missing_refuted (y0 + (0 : ℝ) • (1 : V 1))
  refine ⟨o', h1, ?_⟩
  rw [← List.length_map (f := Prod.fst), h2]; rfl

end PyNLO.Ode
