import Verif.Props.OdeDouble

/-!
# C173: drift and number of the saved rows in double precision
-/

namespace PyNLO.Ode

open Double

variable {n : ℕ} {rnd : ℝ → ℝ}

/-! ## The drift of the saved positions -/

/-- spacing of the rows -/
noncomputable def spacing (x1 x2 : ℝ) (N : ℕ) : ℝ := nearest (nearest (x2 - x1) / N)

/-- positions of the rows -/
noncomputable def rowAt (x1 x2 : ℝ) (N : ℕ) (j : ℕ) : ℝ := gridF nearest x1 (spacing x1 x2 N) j

theorem rowAt_float {x1 x2 : ℝ} (he : Ends x1 x2) (N j : ℕ) : IsFloat (rowAt x1 x2 N j) := by
  cases j with
  | zero => exact he.float1
  | succ j => exact nearest_isFloat _

theorem large_div {x2 : ℝ} (hl : (2 : ℝ) ^ (-400 : ℤ) ≤ x2) {N : ℕ} (hN : 0 < N) (hN2 : N ≤ 2 ^ 40) : (2 : ℝ) ^ (-1000 : ℤ) ≤ x2 / N := by
  have hN' : (0 : ℝ) < N := by exact_mod_cast hN
  have hN2' : (N : ℝ) ≤ 2 ^ (40 : ℤ) := by exact_mod_cast hN2
  rw [le_div_iff₀ hN']
  calc (2 : ℝ) ^ (-1000 : ℤ) * N ≤ 2 ^ (-1000 : ℤ) * 2 ^ (40 : ℤ) := by gcongr
    _ = 2 ^ (-960 : ℤ) := by rw [← zpow_add₀ two_ne_zero]; norm_num
    _ ≤ 2 ^ (-400 : ℤ) := zpow_le_zpow_right₀ (by norm_num) (by norm_num)
    _ ≤ x2 := hl

theorem spacing_near {x1 x2 : ℝ} (he : Ends x1 x2) {N : ℕ} (hN : 0 < N) (hN2 : N ≤ 2 ^ 40) :
    N * |spacing x1 x2 N - (x2 - x1) / N| ≤ 2.001 * (x2 * 2 ^ (-53 : ℤ)) := by
  have hp := he.pos
  have h0 := he.nonneg
  have hlt := he.lt
  have hN' : (0 : ℝ) < N := by exact_mod_cast hN
  have hl : (2 : ℝ) ^ (-1000 : ℤ) ≤ x2 := le_trans (zpow_le_zpow_right₀ (by norm_num) (by norm_num)) he.large
  have h1 := nearest_near (x := x2 - x1) (D := x2) (by rw [abs_of_pos (by linarith)]; linarith) hl
  have hc : x2 * (2 : ℝ) ^ (-53 : ℤ) ≤ x2 * (1 / 1000) := by
    have : (2 : ℝ) ^ (-53 : ℤ) ≤ 1 / 1000 := by norm_num
    gcongr
  have hD : |nearest (x2 - x1) / N| ≤ 1.001 * x2 / N := by
    rw [abs_div, abs_of_pos hN']
    apply div_le_div_of_nonneg_right _ hN'.le
    rw [abs_le] at h1 ⊢
    generalize x2 * (2 : ℝ) ^ (-53 : ℤ) = c at *
    constructor <;> norm_num <;> linarith [h1.1, h1.2]
  have h2 := nearest_near hD ((large_div he.large hN hN2).trans (by
    apply div_le_div_of_nonneg_right _ hN'.le
    norm_num; linarith))
  have h3 : 1.001 * x2 / N * (2 : ℝ) ^ (-53 : ℤ) = 1.001 * (x2 * 2 ^ (-53 : ℤ)) / N := by ring
  rw [h3] at h2
  unfold spacing
  generalize x2 * (2 : ℝ) ^ (-53 : ℤ) = c at *
  have h4 : |nearest (x2 - x1) / N - (x2 - x1) / N| ≤ c / N := by
    rw [← sub_div, abs_div, abs_of_pos hN']
    exact div_le_div_of_nonneg_right h1 hN'.le
  have h5 := abs_sub_le (nearest (nearest (x2 - x1) / N)) (nearest (x2 - x1) / N) ((x2 - x1) / N)
  calc (N : ℝ) * |nearest (nearest (x2 - x1) / N) - (x2 - x1) / N| ≤ N * (1.001 * c / N + c / N) := by
        gcongr; exact h5.trans (add_le_add h2 h4)
    _ = 2.001 * c := by field_simp; norm_num

theorem spacing_nonneg {x1 x2 : ℝ} (he : Ends x1 x2) (N : ℕ) : 0 ≤ spacing x1 x2 N :=
  nearest_nonneg (div_nonneg (nearest_nonneg (sub_nonneg.2 he.lt.le)) (by positivity))

theorem rows_sum {x1 x2 : ℝ} (he : Ends x1 x2) {N : ℕ} (hN : 0 < N) (hN2 : N ≤ 2 ^ 40) (j : ℕ) (hj : j ≤ N) :
    |rowAt x1 x2 N j - (x1 + j * spacing x1 x2 N)| ≤ 1.001 * j * (x2 * 2 ^ (-53 : ℤ)) := by
  have hp := he.pos
  have h0 := he.nonneg
  have hlt := he.lt
  have hN' : (0 : ℝ) < N := by exact_mod_cast hN
  have hs := spacing_near he hN hN2
  have hs0 := spacing_nonneg he N
  have hl : (2 : ℝ) ^ (-1000 : ℤ) ≤ x2 := le_trans (zpow_le_zpow_right₀ (by norm_num) (by norm_num)) he.large
  have hc0 : 0 < x2 * (2 : ℝ) ^ (-53 : ℤ) := by positivity
  have hNc : N * (x2 * (2 : ℝ) ^ (-53 : ℤ)) ≤ x2 / 8192 := by
    have hN2' : (N : ℝ) ≤ 2 ^ 40 := by exact_mod_cast hN2
    calc N * (x2 * (2 : ℝ) ^ (-53 : ℤ)) ≤ 2 ^ 40 * (x2 * (2 : ℝ) ^ (-53 : ℤ)) := by gcongr
      _ = x2 / 8192 := by norm_num; ring
  have hc1 : x2 * (2 : ℝ) ^ (-53 : ℤ) ≤ x2 / 100000 := by
    rw [div_eq_mul_one_div]
    have : (2 : ℝ) ^ (-53 : ℤ) ≤ 1 / 100000 := by norm_num
    gcongr
  induction j with
  | zero => simp [rowAt, gridF]
  | succ j ih =>
    have ih := ih (by omega)
    have hj' : ((j : ℝ) + 1) ≤ N := by exact_mod_cast hj
    have e1 : rowAt x1 x2 N (j + 1) = nearest (rowAt x1 x2 N j + spacing x1 x2 N) := rfl
    have hD : |rowAt x1 x2 N j + spacing x1 x2 N| ≤ 1.001 * x2 := by
      have h1 : (j + 1) * spacing x1 x2 N ≤ (x2 - x1) + 2.001 * (x2 * 2 ^ (-53 : ℤ)) := by
        have h2 : N * spacing x1 x2 N - (x2 - x1) ≤ 2.001 * (x2 * 2 ^ (-53 : ℤ)) := by
          refine le_trans ?_ hs
          have := le_abs_self (spacing x1 x2 N - (x2 - x1) / N)
          calc N * spacing x1 x2 N - (x2 - x1) = N * (spacing x1 x2 N - (x2 - x1) / N) := by field_simp
            _ ≤ _ := by gcongr
        have h3 : (j + 1) * spacing x1 x2 N ≤ N * spacing x1 x2 N := by gcongr
        generalize x2 * (2 : ℝ) ^ (-53 : ℤ) = c at *
        linarith
      have h2 : 1.001 * j * (x2 * (2 : ℝ) ^ (-53 : ℤ)) ≤ 1.001 * (x2 / 8192) := by
        rw [mul_assoc]
        have : j * (x2 * (2 : ℝ) ^ (-53 : ℤ)) ≤ N * (x2 * (2 : ℝ) ^ (-53 : ℤ)) := by gcongr; linarith
        have := this.trans hNc
        gcongr
      have h3 : 0 ≤ j * spacing x1 x2 N := by positivity
      rw [abs_le] at ih ⊢
      generalize x2 * (2 : ℝ) ^ (-53 : ℤ) = c at *
      generalize 1.001 * (j : ℝ) * c = d at *
      norm_num at h1 h2 ⊢
      constructor <;> linarith [ih.1, ih.2]
    have h1 := nearest_near hD (hl.trans (by norm_num; linarith))
    rw [mul_assoc] at h1
    rw [e1]
    push_cast
    generalize x2 * (2 : ℝ) ^ (-53 : ℤ) = c at *
    have e2 : 1.001 * ((j : ℝ) + 1) * c = 1.001 * c + 1.001 * j * c := by ring
    rw [e2]
    rw [show nearest (rowAt x1 x2 N j + spacing x1 x2 N) - (x1 + (j + 1) * spacing x1 x2 N) =
      (nearest (rowAt x1 x2 N j + spacing x1 x2 N) - (rowAt x1 x2 N j + spacing x1 x2 N)) + (rowAt x1 x2 N j - (x1 + j * spacing x1 x2 N)) by ring]
    exact (abs_add_le _ _).trans (add_le_add h1 ih)

/-- C173: the saved positions drift from the requested ones by at most about half a unit in the last place of the end point per row. -/
theorem C173_drift {x1 x2 : ℝ} (he : Ends x1 x2) {N : ℕ} (hN : 0 < N) (hN2 : N ≤ 2 ^ 40) (j : ℕ) (hj : j ≤ N) :
    |gridF nearest x1 (nearest (nearest (x2 - x1) / N)) j - (x1 + j * ((x2 - x1) / N))| ≤ (1.001 * j + 3) * (x2 * 2 ^ (-53 : ℤ)) := by
  have h1 := rows_sum he hN hN2 j hj
  have h2 := spacing_near he hN hN2
  have hp := he.pos
  have hc0 : 0 < x2 * (2 : ℝ) ^ (-53 : ℤ) := by positivity
  have hj' : (j : ℝ) ≤ N := by exact_mod_cast hj
  change |rowAt x1 x2 N j - _| ≤ _
  generalize x2 * (2 : ℝ) ^ (-53 : ℤ) = c at *
  have h3 : |(j : ℝ) * spacing x1 x2 N - j * ((x2 - x1) / N)| ≤ 2.001 * c := by
    rw [← mul_sub, abs_mul, abs_of_nonneg (by positivity : (0 : ℝ) ≤ j)]
    exact le_trans (by gcongr) h2
  rw [show rowAt x1 x2 N j - (x1 + j * ((x2 - x1) / N)) = (rowAt x1 x2 N j - (x1 + j * spacing x1 x2 N)) +
    (j * spacing x1 x2 N - j * ((x2 - x1) / N)) by ring]
  refine (abs_add_le _ _).trans ((add_le_add h1 h3).trans ?_)
  norm_num
  nlinarith

/-! ## Integrations of one step -/

theorem iterF_visited {p : Prob n} {o o' : Ode n} {k : ℕ} {b : Bool} (hr : o.iterF rnd p k = some (.ok b, o')) :
    o'.visited.length = o.visited.length + 1 := by
  unfold Ode.iterF at hr
  have hv : (o.clipF rnd).visited = o.visited := by unfold Ode.clipF; split_ifs <;> rfl
  rcases hst : stepF rnd p (o.clipF rnd).s (o.clipF rnd).h (o.clipF rnd).con with _ | ⟨_ | _, s, c⟩
  · rw [hst] at hr; simp at hr
  · rw [hst] at hr; simp at hr
  · rw [hst] at hr
    simp only at hr
    rcases hrec : ((o.clipF rnd).took s c).recordF rnd p k s.x s.y s.hdid with _ | ⟨_ | _, o2⟩
    · rw [hrec] at hr; simp at hr
    · rw [hrec] at hr; simp at hr
    · rw [hrec] at hr
      simp only [Option.some.injEq] at hr
      obtain ⟨u, rfl, -⟩ := recordF_cases hrec
      have : ∀ q : Ode n, (q.afterF rnd).2.visited = q.visited := by
        intro q
        unfold Ode.afterF
        by_cases hf : rnd (rnd (q.s.x - q.x2) * rnd (q.x2 - q.x1)) ≥ 0
        · rw [if_pos hf]
          by_cases hs : q.out.kmax > 0 ∧ |rnd (q.out.lastX - q.x2)| > rnd (rnd (100 * |q.x2|) * EPS)
          · simp only [if_pos hs]
            rcases q.out.save q.s.x q.s.y with ⟨_ | _, u⟩ <;> rfl
          · simp only [if_neg hs]
        · rw [if_neg hf]; split_ifs <;> rfl
      have h2 := this { (o.clipF rnd).took s c with out := u }
      rw [hr] at h2
      simp only at h2
      rw [h2]
      simp [Ode.took, hv]

theorem loopF_visited {p : Prob n} (m k : ℕ) {o o' : Ode n} (hr : o.loopF rnd p m k = some (.ok (), o')) :
    o.visited.length + 1 ≤ o'.visited.length := by
  induction m generalizing k o with
  | zero => simp [Ode.loopF] at hr
  | succ m ih =>
    unfold Ode.loopF at hr
    rcases hi : o.iterF rnd p k with _ | ⟨_ | _ | _, o1⟩
    · rw [hi] at hr; simp at hr
    · rw [hi] at hr; simp at hr
    · rw [hi] at hr
      have := ih _ hr
      have := iterF_visited hi
      omega
    · rw [hi] at hr
      simp only [Option.some.injEq, Prod.mk.injEq, true_and] at hr
      rw [← hr]
      exact (iterF_visited hi).ge

/-- C173, integrations that take a single step: the log holds the due positions below the position reached, each interpolated from that step, and the position reached as a further row
unless the last of them lies within `100 EPS` of the end point. -/
theorem C173_one_step (p : Prob n) (hp : p.dense = true) (hfl : Rounds p.fl) (con : Con) (y0 : V n) {x1 x2 : ℝ} (he : Ends x1 x2) {h1 : ℝ} (hh : IsFloat h1) (hmin : ℝ)
    (ns : ℕ) (hns : 0 < ns) (o' : Ode n)
    (hr : (Ode.newF nearest con y0 x1 x2 h1 hmin (Out.new (some ns))).integrateF nearest p = some (.ok (), o'))
    (hone : o'.visited.length = 1) :
    ∃ m : ℕ, (∀ i ≤ m, rowAt x1 x2 ns i < o'.s.x) ∧ o'.s.x ≤ rowAt x1 x2 ns (m + 1) ∧ ∃ t, o'.out.saved =
        ((List.range (m + 1)).map fun i : ℕ => (rowAt x1 x2 ns i, denseOut o'.s (rowAt x1 x2 ns i) o'.s.hdid)) ++ t ∧
      (t = [] ∧ |nearest (rowAt x1 x2 ns m - x2)| ≤ nearest (nearest (100 * x2) * EPS) ∨
        t = [(o'.s.x, o'.ystart)] ∧ |nearest (rowAt x1 x2 ns m - x2)| > nearest (nearest (100 * x2) * EPS)) := by
  have hend := C173_end p hfl con y0 he hh hmin _ (Out.usable_new (some ns)) _ o' hr
  have hfin : x2 ≤ o'.s.x := by
    rcases hend with ⟨-, -, h, -⟩ | ⟨e, h, -⟩
    · exact h
    · simp at h
  obtain ⟨o, h0, hl, hs0, hox1, hox2, hx1, hx2, -⟩ := integrateF_start nearest_zero p hp con y0 x1 x2 h1 hmin ns hns
  rw [h0, show (50000 : ℕ) = 49999 + 1 by norm_num] at hr
  unfold Ode.loopF at hr
  rcases hi : o.iterF nearest p 0 with _ | ⟨_ | _ | _, o1⟩
  · rw [hi] at hr; simp at hr
  · rw [hi] at hr; simp at hr
  · rw [hi] at hr
    have := loopF_visited _ _ hr
    have := iterF_visited hi
    omega
  · rw [hi] at hr
    simp only [Option.some.injEq, Prod.mk.injEq, true_and] at hr
    subst hr
    have hclip : ∃ h', o.clipF nearest = { o with h := h' } := by
      unfold Ode.clipF; split_ifs
      · exact ⟨_, rfl⟩
      · exact ⟨o.h, rfl⟩
    obtain ⟨h', hclip⟩ := hclip
    unfold Ode.iterF at hi
    rw [hclip] at hi
    simp only at hi
    rcases hst : stepF nearest p o.s h' o.con with _ | ⟨_ | _, s, c⟩
    · rw [hst] at hi; simp at hi
    · rw [hst] at hi; simp at hi
    rw [hst] at hi
    simp only at hi
    rcases hrec : (Ode.took { o with h := h' } s c).recordF nearest p (0 : ℕ) s.x s.y s.hdid with _ | ⟨_ | _, o2⟩
    · rw [hrec] at hi; simp at hi
    · rw [hrec] at hi; simp at hi
    rw [hrec] at hi
    simp only [Option.some.injEq] at hi
    obtain ⟨u, rfl, ⟨-, hu⟩ | ⟨hp', -⟩⟩ := recordF_cases hrec
    · obtain ⟨-, uok, uxo, umax, m, uc, um, us⟩ := Out.outF_grid (o := o.out) (a := x1) hl.ok hl.xout hl.dense (by norm_num) hu
      have hdom := Out.outF_dom (o := o.out) hu
      have hc0 : o.out.count = 0 := by rw [← Out.saved_length hl.ok, hs0]; rfl
      have hall : o1.s = s ∧ (o1.out = u ∧ |nearest (u.lastX - x2)| ≤ nearest (nearest (100 * x2) * EPS) ∨
          u.save s.x s.y = (.ok (), o1.out) ∧ |nearest (u.lastX - x2)| > nearest (nearest (100 * x2) * EPS)) ∧ o1.ystart = s.y := by
        have hkm : 0 < u.kmax := uok.1
        have hab : |o.x2| = x2 := by rw [hx2, abs_of_pos he.pos]
        rcases afterF_cases (rnd := nearest) (o := { Ode.took { o with h := h' } s c with out := u }) (Or.inr uok) with
          ⟨-, w, -, hw, ha⟩ | ⟨-, -, ha⟩ | ⟨-, -, ha⟩
        · rw [ha] at hi
          simp only [Prod.mk.injEq, true_and] at hi
          subst hi
          refine ⟨rfl, ?_, rfl⟩
          have e1 : (Ode.took { o with h := h' } s c).x2 = x2 := hx2
          simp only [e1, abs_of_pos he.pos] at hw
          rcases hw with ⟨rfl, hw⟩ | ⟨hw, hw'⟩
          · exact Or.inl ⟨rfl, hw hkm⟩
          · exact Or.inr ⟨hw, hw'⟩
        · rw [ha] at hi; simp at hi
        · rw [ha] at hi; simp at hi
      rw [hall.1] at hfin ⊢
      have hfx : IsFloat s.x := by
        obtain ⟨-, -, hsx, -⟩ := stepF_ok hst
        rw [hsx]; exact nearest_isFloat _
      rw [uxo, uc, hc0, hdom.2.2.2.1, hl.hdx, hox1, hox2, zero_add] at umax
      rw [hc0, hl.hdx, hox1, hox2] at um
      have hlow : ∀ i < m, rowAt x1 x2 ns i < s.x := by
        intro i hi
        have := um i hi
        rw [zero_add] at this
        exact he.row this
      have hup : s.x ≤ rowAt x1 x2 ns m := by
        by_contra hc
        exact umax (he.row_end hfx (rowAt_float he ns m) hfin (not_le.1 hc))
      obtain ⟨m, rfl⟩ : ∃ k, m = k + 1 := by
        refine ⟨m - 1, ?_⟩
        rcases Nat.eq_zero_or_pos m with rfl | h
        · have : s.x ≤ x1 := hup
          linarith [he.lt]
        · omega
      have hus : u.saved = (List.range (m + 1)).map fun i : ℕ => (rowAt x1 x2 ns i, denseOut s (rowAt x1 x2 ns i) s.hdid) := by
        rw [us, hs0, hc0, hl.hdx]
        simp [Ode.took, rowAt, spacing]
      have hlast : u.lastX = rowAt x1 x2 ns m := by
        rw [List.range_succ, List.map_append] at hus
        exact Out.lastX_eq uok hus
      rw [hlast] at hall
      refine ⟨m, fun i hi => hlow i (by omega), hup, ?_⟩
      rcases hall.2.1 with ⟨ho, hd⟩ | ⟨ho, hd⟩
      · exact ⟨[], by rw [ho, hus]; simp, Or.inl ⟨rfl, hd⟩⟩
      · obtain ⟨z, hz, -, hzs, -⟩ := Out.save_ok uok s.x s.y
        rw [hz] at ho
        simp only [Prod.mk.injEq, true_and] at ho
        refine ⟨[(s.x, o1.ystart)], ?_, Or.inr ⟨rfl, hd⟩⟩
        rw [← ho, hzs, hus, hall.2.2]
    · rw [hp] at hp'; simp at hp'

/-- the threshold of the last row -/
theorem threshold {x2 : ℝ} (hl : (2 : ℝ) ^ (-400 : ℤ) ≤ x2) :
    199 * (x2 * 2 ^ (-53 : ℤ)) ≤ nearest (nearest (100 * x2) * EPS) ∧ nearest (nearest (100 * x2) * EPS) ≤ 201 * (x2 * 2 ^ (-53 : ℤ)) := by
  have hp : 0 < x2 := lt_of_lt_of_le (by positivity) hl
  have hl' : (2 : ℝ) ^ (-1000 : ℤ) ≤ x2 := le_trans (zpow_le_zpow_right₀ (by norm_num) (by norm_num)) hl
  have h1 := nearest_near (x := 100 * x2) (D := 100 * x2) (by rw [abs_of_pos (by linarith)]) (by linarith)
  have hc : (2 : ℝ) ^ (-53 : ℤ) ≤ 1 / 1000 := by norm_num
  have h1' : |nearest (100 * x2) - 100 * x2| ≤ 100 * x2 * (1 / 1000) := h1.trans (by gcongr)
  rw [abs_le] at h1'
  have hE : EPS = 2 * (2 : ℝ) ^ (-53 : ℤ) := by unfold EPS; norm_num
  have hc0 : (0 : ℝ) < 2 ^ (-53 : ℤ) := by positivity
  have hD1 : nearest (100 * x2) * EPS ≤ 200.2 * (x2 * 2 ^ (-53 : ℤ)) := by
    rw [hE]
    calc nearest (100 * x2) * (2 * (2 : ℝ) ^ (-53 : ℤ)) ≤ (100.1 * x2) * (2 * 2 ^ (-53 : ℤ)) := by
          gcongr; norm_num; linarith [h1'.2]
      _ = _ := by ring
  have hD2 : 199.8 * (x2 * 2 ^ (-53 : ℤ)) ≤ nearest (100 * x2) * EPS := by
    rw [hE]
    calc 199.8 * (x2 * (2 : ℝ) ^ (-53 : ℤ)) = (99.9 * x2) * (2 * 2 ^ (-53 : ℤ)) := by ring
      _ ≤ nearest (100 * x2) * (2 * (2 : ℝ) ^ (-53 : ℤ)) := by
          gcongr; norm_num; linarith [h1'.1]
  have hb : (2 : ℝ) ^ (-1000 : ℤ) ≤ x2 * 2 ^ (-53 : ℤ) := pow_le_large hl (by norm_num)
  generalize nearest (100 * x2) * EPS = y at *
  have h0 : 0 < x2 * (2 : ℝ) ^ (-53 : ℤ) := by positivity
  have h2 := nearest_near (x := y) (D := 200.2 * (x2 * 2 ^ (-53 : ℤ))) (by
    rw [abs_le]
    generalize x2 * (2 : ℝ) ^ (-53 : ℤ) = c at *
    norm_num at *
    constructor <;> linarith) (hb.trans (by
      generalize x2 * (2 : ℝ) ^ (-53 : ℤ) = c at *
      norm_num; linarith))
  have h3 : |nearest y - y| ≤ 200.2 * (x2 * 2 ^ (-53 : ℤ)) * (1 / 1000) := h2.trans (by gcongr)
  rw [abs_le] at h3
  generalize x2 * (2 : ℝ) ^ (-53 : ℤ) = c at *
  norm_num at *
  constructor <;> linarith [h3.1, h3.2]

/-- rows before the last requested one lie well before the end, the one after it well behind -/
theorem rows_around {x1 x2 : ℝ} (he : Ends x1 x2) (hlen : x2 ≤ 2 ^ 20 * (x2 - x1)) {N : ℕ} (hN : 0 < N) (hN2 : N ≤ 190) :
    (∀ j < N, rowAt x1 x2 N j ≤ x2 - 2 ^ 24 * (x2 * 2 ^ (-53 : ℤ))) ∧ |rowAt x1 x2 N N - x2| ≤ 194 * (x2 * 2 ^ (-53 : ℤ)) ∧
      x2 + 5 * (x2 * 2 ^ (-53 : ℤ)) ≤ rowAt x1 x2 N (N + 1) := by
  have hp := he.pos
  have h0 := he.nonneg
  have hlt := he.lt
  have hN' : (0 : ℝ) < N := by exact_mod_cast hN
  have hN2' : (N : ℝ) ≤ 190 := by exact_mod_cast hN2
  have hd := fun j hj => C173_drift he hN (hN2.trans (by norm_num)) j hj
  have hs := spacing_near he hN (hN2.trans (by norm_num))
  have hd' : ∀ j ≤ N, |rowAt x1 x2 N j - (x1 + j * ((x2 - x1) / N))| ≤ 194 * (x2 * 2 ^ (-53 : ℤ)) := by
    intro j hj
    refine (hd j hj).trans ?_
    have : (j : ℝ) ≤ 190 := by exact_mod_cast hj.trans hN2
    gcongr
    norm_num; linarith
  have hstep : 2 ^ 25 * (x2 * (2 : ℝ) ^ (-53 : ℤ)) ≤ (x2 - x1) / N := by
    rw [le_div_iff₀ hN']
    calc 2 ^ 25 * (x2 * (2 : ℝ) ^ (-53 : ℤ)) * N ≤ 2 ^ 25 * (x2 * (2 : ℝ) ^ (-53 : ℤ)) * 256 := by gcongr; linarith
      _ = x2 / 2 ^ 20 := by norm_num; ring
      _ ≤ x2 - x1 := by rw [div_le_iff₀ (by norm_num)]; linarith
  have hc0 : 0 < x2 * (2 : ℝ) ^ (-53 : ℤ) := by positivity
  have hc1 : x2 * (2 : ℝ) ^ (-53 : ℤ) ≤ x2 * (1 / 100000) := by
    have : (2 : ℝ) ^ (-53 : ℤ) ≤ 1 / 100000 := by norm_num
    gcongr
  have hNd : N * ((x2 - x1) / N) = x2 - x1 := by field_simp
  have hNN : |rowAt x1 x2 N N - x2| ≤ 194 * (x2 * 2 ^ (-53 : ℤ)) := by
    have := hd' N le_rfl
    rwa [hNd, show x1 + (x2 - x1) = x2 by ring] at this
  refine ⟨fun j hj => ?_, hNN, ?_⟩
  · have h1 := (abs_le.1 (hd' j hj.le)).2
    have h2 : (j : ℝ) + 1 ≤ N := by exact_mod_cast hj
    have h3 : (j + 1) * ((x2 - x1) / N) ≤ N * ((x2 - x1) / N) := by
      have : 0 ≤ (x2 - x1) / N := div_nonneg (by linarith) hN'.le
      gcongr
    rw [hNd] at h3
    generalize x2 * (2 : ℝ) ^ (-53 : ℤ) = c at *
    generalize (x2 - x1) / (N : ℝ) = d at *
    norm_num at *
    linarith
  · have hl : (2 : ℝ) ^ (-1000 : ℤ) ≤ x2 := le_trans (zpow_le_zpow_right₀ (by norm_num) (by norm_num)) he.large
    have h4 : |spacing x1 x2 N - (x2 - x1) / N| ≤ 2.001 * (x2 * 2 ^ (-53 : ℤ)) := by
      refine le_trans ?_ hs
      have : (1 : ℝ) ≤ N := by exact_mod_cast hN
      exact le_mul_of_one_le_left (abs_nonneg _) this
    have h5 : (x2 - x1) / N ≤ x2 := by
      rw [div_le_iff₀ hN']
      have : (1 : ℝ) ≤ N := by exact_mod_cast hN
      nlinarith
    have e1 : rowAt x1 x2 N (N + 1) = nearest (rowAt x1 x2 N N + spacing x1 x2 N) := rfl
    rw [abs_le] at hNN h4
    have hD : |rowAt x1 x2 N N + spacing x1 x2 N| ≤ 3 * x2 := by
      rw [abs_le]
      generalize x2 * (2 : ℝ) ^ (-53 : ℤ) = c at *
      generalize (x2 - x1) / (N : ℝ) = d at *
      norm_num at *
      constructor <;> linarith [hNN.1, hNN.2, h4.1, h4.2]
    have h6 := (abs_le.1 (nearest_near hD (hl.trans (by linarith)))).1
    rw [e1]
    rw [mul_assoc] at h6
    generalize x2 * (2 : ℝ) ^ (-53 : ℤ) = c at *
    generalize (x2 - x1) / (N : ℝ) = d at *
    norm_num at *
    linarith [hNN.1, hNN.2, h4.1, h4.2]

/-- C173: an integration of a single step with at most 190 requested intervals saves exactly one row more than intervals were requested, in double precision too, unless the interval is very short compared to
its distance from zero. -/
theorem C173_count (p : Prob n) (hp : p.dense = true) (hfl : Rounds p.fl) (con : Con) (y0 : V n) {x1 x2 : ℝ} (he : Ends x1 x2) (hlen : x2 ≤ 2 ^ 20 * (x2 - x1)) {h1 : ℝ}
    (hh : IsFloat h1) (hmin : ℝ) (N : ℕ) (hN : 0 < N) (hN2 : N ≤ 190) (o' : Ode n)
    (hr : (Ode.newF nearest con y0 x1 x2 h1 hmin (Out.new (some N))).integrateF nearest p = some (.ok (), o'))
    (hone : o'.visited.length = 1) : o'.out.saved.length = N + 1 := by
  have hend := C173_end p hfl con y0 he hh hmin _ (Out.usable_new (some N)) _ o' hr
  have hfin : x2 ≤ o'.s.x ∧ o'.s.x ≤ x2 * (1 + 2 ^ (-51 : ℤ)) := by
    rcases hend with ⟨-, -, h, h', -⟩ | ⟨e, h, -⟩
    · exact ⟨h, h'⟩
    · simp at h
  obtain ⟨m, ha, hb, t, ht, hc⟩ := C173_one_step p hp hfl con y0 he hh hmin N hN o' hr hone
  obtain ⟨r1, r2, r3⟩ := rows_around he hlen hN hN2
  obtain ⟨t1, t2⟩ := threshold he.large
  have h51 : x2 * (1 + (2 : ℝ) ^ (-51 : ℤ)) = x2 + 4 * (x2 * 2 ^ (-53 : ℤ)) := by norm_num; ring
  rw [h51] at hfin
  have hp' := he.pos
  have hc0 : 0 < x2 * (2 : ℝ) ^ (-53 : ℤ) := by positivity
  have hu : (2 : ℝ) ^ (-1000 : ℤ) ≤ x2 * 2 ^ (-53 : ℤ) := pow_le_large he.large (by norm_num)
  have hcc : x2 * (2 : ℝ) ^ (-53 : ℤ) * 2 ^ (-53 : ℤ) ≤ x2 * 2 ^ (-53 : ℤ) * (1 / 1000) := by
    have : (2 : ℝ) ^ (-53 : ℤ) ≤ 1 / 1000 := by norm_num
    gcongr
  have hlen : o'.out.saved.length = m + 1 + t.length := by rw [ht]; simp
  have hm1 : N ≤ m + 1 := by
    by_contra hlt
    have := r1 (m + 1) (by omega)
    generalize x2 * (2 : ℝ) ^ (-53 : ℤ) = c at *
    linarith
  have hm2 : m ≤ N := by
    by_contra hlt
    have := ha (N + 1) (by omega)
    generalize x2 * (2 : ℝ) ^ (-53 : ℤ) = c at *
    linarith
  rcases hc with ⟨rfl, hc⟩ | ⟨rfl, hc⟩
  · rw [hlen]
    rcases Nat.lt_or_ge m N with h | h
    · exfalso
      have h2 := r1 m h
      have h3 : nearest (rowAt x1 x2 N m - x2) ≤ (rowAt x1 x2 N m - x2) / 2 := nearest_neg (by
        generalize x2 * (2 : ℝ) ^ (-53 : ℤ) = c at *
        linarith)
      have h4 := neg_le_of_abs_le hc
      generalize x2 * (2 : ℝ) ^ (-53 : ℤ) = c at *
      linarith
    · simp; omega
  · rw [hlen]
    rcases Nat.lt_or_ge m N with h | h
    · simp; omega
    · exfalso
      have hmN : m = N := le_antisymm hm2 h
      subst hmN
      have h2 := nearest_near r2 (by
        generalize x2 * (2 : ℝ) ^ (-53 : ℤ) = c at *
        linarith)
      have h3 : |nearest (rowAt x1 x2 m m - x2)| ≤ |nearest (rowAt x1 x2 m m - x2) - (rowAt x1 x2 m m - x2)| + |rowAt x1 x2 m m - x2| := by
        have := abs_add_le (nearest (rowAt x1 x2 m m - x2) - (rowAt x1 x2 m m - x2)) (rowAt x1 x2 m m - x2)
        rwa [sub_add_cancel] at this
      rw [mul_assoc] at h2
      generalize x2 * (2 : ℝ) ^ (-53 : ℤ) * 2 ^ (-53 : ℤ) = e at *
      generalize x2 * (2 : ℝ) ^ (-53 : ℤ) = c at *
      linarith

/-! ## Runs of `y' = 1` -/

/-- rounding a number whose binade is known -/
theorem nearest_unit {x : ℝ} {e : ℤ} (h1 : (2 : ℝ) ^ (e + 52) ≤ x) (h2 : x < 2 ^ (e + 53)) (he : -1074 ≤ e) :
    nearest x = 2 ^ e * pyRound (x / 2 ^ e) := by
  have hx : 0 < x := lt_of_lt_of_le (by positivity) h1
  have h3 := expo_le (x := x) (k := e + 53) (by rwa [abs_of_pos hx]) hx.ne'
  have h4 := abs_lt_expo x
  rw [abs_of_pos hx] at h4
  have h5 := (zpow_lt_zpow_iff_right₀ (by norm_num : (1 : ℝ) < 2)).1 (h1.trans_lt h4)
  have : expo x = e := by
    rw [show e + 53 - 53 = e by ring, max_eq_left he] at h3
    omega
  unfold nearest
  rw [this]

theorem pyRound_add (k : ℤ) {t : ℝ} (h0 : 0 ≤ t) (h1 : t < 1) :
    pyRound (k + t) = if t < 1 / 2 then k else if 1 / 2 < t then k + 1 else if k % 2 = 0 then k else k + 1 := by
  have hf : ⌊(k : ℝ) + t⌋ = k := by
    rw [Int.floor_eq_iff]; constructor <;> linarith
  unfold pyRound
  rw [hf, add_sub_cancel_left]

/-- numbers between `1/2` and `1` in units of `2^-53` -/
theorem nearest_mid {k : ℤ} (hk : 2 ^ 52 ≤ k) (hk2 : k < 2 ^ 53) {t : ℝ} (h0 : 0 ≤ t) (h1 : t < 1) :
    nearest (((k : ℝ) + t) * 2 ^ (-53 : ℤ)) = ((if t < 1 / 2 then k else if 1 / 2 < t then k + 1 else if k % 2 = 0 then k else k + 1 : ℤ) : ℝ) * 2 ^ (-53 : ℤ) := by
  have hp : (0 : ℝ) < 2 ^ (-53 : ℤ) := by positivity
  have hk' : (2 : ℝ) ^ 52 ≤ k := by exact_mod_cast hk
  have hk2' : (k : ℝ) + 1 ≤ 2 ^ 53 := by exact_mod_cast hk2
  rw [nearest_unit (e := -53) _ _ (by norm_num), mul_div_assoc, div_self hp.ne', mul_one, pyRound_add k h0 h1, mul_comm]
  · rw [show (2 : ℝ) ^ (-53 + 52 : ℤ) = 2 ^ 52 * 2 ^ (-53 : ℤ) by norm_num]
    gcongr; linarith
  · rw [show (2 : ℝ) ^ (-53 + 53 : ℤ) = 2 ^ 53 * 2 ^ (-53 : ℤ) by norm_num]
    gcongr; linarith

theorem isFloat_mid {k : ℤ} (hk : |k| < 2 ^ 53) : IsFloat ((k : ℝ) * 2 ^ (-53 : ℤ)) := ⟨k, -53, hk, by norm_num, rfl⟩

/-- the output ends its loop when some due position is not below the current one -/
theorem Out.outF_returns {o : Out n} {a : ℝ} (hok : o.Ok) (hx : o.xout = gridF rnd a o.dxout o.count) (hd : o.dense = true)
    {k : ℤ} (hk : k ≠ 1) {x h : ℝ} {y : V n} {s : Stepper n} {m : ℕ}
    (hm : ¬ rnd (rnd (x - gridF rnd a o.dxout (o.count + m)) * rnd (o.x2 - o.x1)) > 0) :
    ∃ r, o.outF rnd k x y s h = some r := by
  unfold outF
  rw [if_pos hd, if_neg hk]
  refine runLoop_terminates (I := fun v => v.Ok ∧ v.xout = gridF rnd a v.dxout v.count ∧ o.SameDom v ∧ v.count ≤ o.count + m)
    (fun v => o.count + m - v.count) ?_ ⟨hok, hx, .rfl' o, by omega⟩
  rintro v w ⟨v1, v2, v3, v4⟩ hb
  unfold outBodyF at hb
  by_cases hc : rnd (rnd (x - v.xout) * rnd (v.x2 - v.x1)) > 0
  · rw [if_pos hc] at hb
    obtain ⟨z, hz, zok, zs, zc, zg⟩ := Out.saveDense_ok v1 v.xout (denseOut s v.xout h)
    rw [hz] at hb
    simp only [Sum.inl.injEq] at hb
    subst hb
    obtain ⟨g1, g2, g3, g4, g5, g6⟩ := zg
    have hne : v.count ≠ o.count + m := by
      intro heq
      rw [v2, heq, v3.2.1, v3.2.2.1, v3.2.2.2.1] at hc
      exact hm hc
    refine ⟨⟨Out.ok_xout zok _, ?_, v3.trans ⟨g1, g2, g3, g5, g6⟩, by simp only; omega⟩, by simp only; omega⟩
    simp only
    rw [g4, g5, zc, v2, gridF]
  · rw [if_neg hc] at hb; simp at hb

/-- A step of the unit problem. -/
theorem unit_stepF (b : Bool) (s : Stepper 1) (hd : s.dydx = fun _ => 1) (h : ℝ) (h0 : h ≠ 0) (h1 : |h| ≤ 1) (c : Con) :
    ∃ s' c', stepF rnd (unitProb b) s h c = some (.ok (), s', c') ∧ s'.x = rnd (s.x + h) ∧ s'.hdid = h := by
  obtain ⟨s', c', hs, -, h2, -⟩ := unit_step b s hd h h0 h1 c
  unfold step at hs
  unfold stepF
  rcases hl : stepLoop (unitProb b).fl (fun h => error (unitProb b).atol (unitProb b).rtol s.y (dy (unitProb b).f s.x s.y s.dydx h) h) s.x h c with
    _ | ⟨_ | h', c''⟩
  · rw [hl] at hs; simp at hs
  · rw [hl] at hs; simp at hs
  · rw [hl] at hs
    simp only [Option.some.injEq, Prod.mk.injEq, true_and] at hs
    have hh : h' = h := by rw [← h2, ← hs.1]
    subst hh
    exact ⟨_, _, rfl, rfl, rfl⟩

/-- the state before the only step is recorded -/
theorem unit_iterF {x1 x2 : ℝ} (he : Ends x1 x2) (hx : x2 < 1) {o : Ode 1} (hx1 : o.x1 = x1) (hx2 : o.x2 = x2) (hsx : o.s.x = x1)
    (hd : o.s.dydx = fun _ => 1) (hh : o.h = 1) :
    ∃ s c, s.x = nearest (x1 + nearest (x2 - x1)) ∧ o.iterF nearest (unitProb true) 0 =
      match Ode.recordF nearest (unitProb true) (Ode.took { o with h := nearest (x2 - x1) } s c) (0 : ℕ) s.x s.y s.hdid with
      | none => none
      | some (.error e, o) => some (.error e, o)
      | some (.ok _, o) => some (o.afterF nearest) := by
  have hclip : o.clipF nearest = { o with h := nearest (x2 - x1) } := by
    unfold Ode.clipF
    rw [if_pos]
    · rw [hx2, hsx]
    · rw [hx1, hx2, hsx, hh, he.clips (nearest_isFloat _)]
      have h1 := le_stretch isFloat_one zero_le_one
      have h2 := nearest_mono (show (1 : ℝ) ≤ x1 + nearest (1 * nearest 1.0001) by linarith [he.nonneg])
      rw [nearest_exact isFloat_one] at h2
      linarith
  have hp : 0 < nearest (x2 - x1) := lt_of_lt_of_le (by have := he.pos; positivity) he.len.1
  have hle : nearest (x2 - x1) ≤ 1 := by
    have := nearest_mono (show x2 - x1 ≤ 1 by linarith [he.nonneg])
    rwa [nearest_exact isFloat_one] at this
  obtain ⟨s, c, h2, h3, h4⟩ := unit_stepF (rnd := nearest) true o.s hd (nearest (x2 - x1)) hp.ne' (by rw [abs_of_pos hp]; exact hle) o.con
  rw [hsx] at h3
  refine ⟨s, c, h3, ?_⟩
  unfold Ode.iterF
  rw [hclip]
  simp only [h2]
  rcases Ode.recordF nearest (unitProb true) (Ode.took { o with h := nearest (x2 - x1) } s c) (0 : ℕ) s.x s.y s.hdid with _ | ⟨_ | _, _⟩ <;> rfl

theorem unit_runF {x1 x2 : ℝ} (he : Ends x1 x2) (hx : x2 < 1) {N : ℕ} (hN : 0 < N) (hland : x2 ≤ nearest (x1 + nearest (x2 - x1)))
    {m : ℕ} (hm : nearest (x1 + nearest (x2 - x1)) ≤ rowAt x1 x2 N m) (y0 : V 1) :
    ∃ o', (Ode.newF nearest Con.new y0 x1 x2 1 0 (Out.new (some N))).integrateF nearest (unitProb true) = some (.ok (), o') ∧
      o'.visited.length = 1 ∧ o'.s.x = nearest (x1 + nearest (x2 - x1)) := by
  obtain ⟨o, h0, hl, hs0, hox1, hox2, hx1, hx2, hsx, hsy, hdy, hh, hcon, hmin, hvis, hys⟩ :=
    integrateF_start nearest_zero (unitProb true) rfl Con.new y0 x1 x2 1 0 N hN
  rw [h0, show (50000 : ℕ) = 49999 + 1 by norm_num]
  unfold Ode.loopF
  obtain ⟨s, c, h3, hit⟩ := unit_iterF he hx hx1 hx2 hsx (by rw [hdy]; rfl) (by
    rw [hh, sign_pos (sub_pos.2 he.lt)]; simp)
  have hc0 : o.out.count = 0 := by rw [← Out.saved_length hl.ok, hs0]; rfl
  obtain ⟨⟨r, u⟩, hout⟩ := Out.outF_returns (o := o.out) (a := x1) hl.ok hl.xout hl.dense (k := ((0 : ℕ) : ℤ)) (by norm_num) (x := s.x) (h := s.hdid) (y := s.y) (s := s) (m := m) (by
    rw [hox1, hox2, hc0, zero_add, hl.hdx, h3]
    intro hc
    have := he.row hc
    exact absurd this (not_lt.2 hm))
  obtain ⟨rfl, uok, -⟩ := Out.outF_grid (o := o.out) (a := x1) hl.ok hl.xout hl.dense (by norm_num) hout
  have hrec : (Ode.took { o with h := nearest (x2 - x1) } s c).recordF nearest (unitProb true) (0 : ℕ) s.x s.y s.hdid =
      some (.ok (), { Ode.took { o with h := nearest (x2 - x1) } s c with out := u }) := by
    unfold Ode.recordF
    rw [show (unitProb true).dense = true from rfl, if_pos rfl]
    have : (Ode.took { o with h := nearest (x2 - x1) } s c).out.outF nearest ((0 : ℕ) : ℤ) s.x s.y (Ode.took { o with h := nearest (x2 - x1) } s c).s s.hdid =
      some (.ok (), u) := hout
    rw [this]
  rw [hrec] at hit
  simp only at hit
  have hdone : nearest (nearest (s.x - o.x2) * nearest (o.x2 - o.x1)) ≥ 0 := by
    rw [hx1, hx2, he.done (by rw [h3]; exact nearest_isFloat _), h3]
    exact hland
  rcases afterF_cases (rnd := nearest) (o := { Ode.took { o with h := nearest (x2 - x1) } s c with out := u }) (Or.inr uok) with
    ⟨-, w, -, -, ha⟩ | ⟨hf, -, -⟩ | ⟨hf, -, -⟩
  · rw [ha] at hit
    rw [hit]
    refine ⟨_, rfl, ?_, h3⟩
    simp [Ode.took, hvis]
  · exact absurd hdone hf
  · exact absurd hdone hf

/-- C173 refuted, exact landing: integrating `y' = 1` from `3/2` units of `2^-53` to `1/2` and 3 units returns, but ends at `1/2` and 4 units. -/
theorem C173_exact_refuted (y0 : V 1) : ∃ x1 x2 : ℝ, Ends x1 x2 ∧ x2 = 1 / 2 + 3 * 2 ^ (-53 : ℤ) ∧
    ∃ o', (Ode.newF nearest Con.new y0 x1 x2 1 0 (Out.new (some 1))).integrateF nearest (unitProb true) = some (.ok (), o') ∧
      o'.s.x = 1 / 2 + 4 * 2 ^ (-53 : ℤ) := by
  have hx1 : IsFloat (3 * (2 : ℝ) ^ (-54 : ℤ)) := ⟨3, -54, by norm_num, by norm_num, by norm_num⟩
  have hx2 : IsFloat (((2 ^ 52 + 3 : ℤ) : ℝ) * 2 ^ (-53 : ℤ)) := isFloat_mid (by norm_num)
  have he : Ends (3 * (2 : ℝ) ^ (-54 : ℤ)) (((2 ^ 52 + 3 : ℤ) : ℝ) * 2 ^ (-53 : ℤ)) := by
    refine ⟨hx1, hx2, by positivity, by norm_num, ?_⟩
    calc (2 : ℝ) ^ (-400 : ℤ) ≤ 2 ^ (-1 : ℤ) := zpow_le_zpow_right₀ (by norm_num) (by norm_num)
      _ ≤ _ := by norm_num
  have e1 : nearest (((2 ^ 52 + 3 : ℤ) : ℝ) * 2 ^ (-53 : ℤ) - 3 * 2 ^ (-54 : ℤ)) = ((2 ^ 52 + 2 : ℤ) : ℝ) * 2 ^ (-53 : ℤ) := by
    have := nearest_mid (k := 2 ^ 52 + 1) (by norm_num) (by norm_num) (t := 1 / 2) (by norm_num) (by norm_num)
    rw [show ((2 ^ 52 + 3 : ℤ) : ℝ) * (2 : ℝ) ^ (-53 : ℤ) - 3 * 2 ^ (-54 : ℤ) = (((2 ^ 52 + 1 : ℤ) : ℝ) + 1 / 2) * 2 ^ (-53 : ℤ) by norm_num, this]
    norm_num
  have e2 : nearest (3 * (2 : ℝ) ^ (-54 : ℤ) + nearest (((2 ^ 52 + 3 : ℤ) : ℝ) * 2 ^ (-53 : ℤ) - 3 * 2 ^ (-54 : ℤ))) = ((2 ^ 52 + 4 : ℤ) : ℝ) * 2 ^ (-53 : ℤ) := by
    have := nearest_mid (k := 2 ^ 52 + 3) (by norm_num) (by norm_num) (t := 1 / 2) (by norm_num) (by norm_num)
    rw [e1, show 3 * (2 : ℝ) ^ (-54 : ℤ) + ((2 ^ 52 + 2 : ℤ) : ℝ) * (2 : ℝ) ^ (-53 : ℤ) = (((2 ^ 52 + 3 : ℤ) : ℝ) + 1 / 2) * 2 ^ (-53 : ℤ) by norm_num, this]
    norm_num
  obtain ⟨o', h1, -, h2⟩ := unit_runF he (by norm_num) (N := 1) one_pos (by rw [e2]; norm_num) (m := 1) (by
    have : rowAt (3 * (2 : ℝ) ^ (-54 : ℤ)) (((2 ^ 52 + 3 : ℤ) : ℝ) * 2 ^ (-53 : ℤ)) 1 1 =
      nearest (3 * (2 : ℝ) ^ (-54 : ℤ) + nearest (nearest (((2 ^ 52 + 3 : ℤ) : ℝ) * 2 ^ (-53 : ℤ) - 3 * 2 ^ (-54 : ℤ)) / (1 : ℕ))) := rfl
    rw [this, Nat.cast_one, div_one, nearest_exact (nearest_isFloat _)]) y0
  refine ⟨_, _, he, by norm_num, o', h1, ?_⟩
  rw [h2, e2]
  norm_num

/-- the rows of the example below lose almost half a unit each -/
theorem rows_lose (j : ℕ) (hj : j ≤ 512) :
    rowAt (1 / 2) (((2 ^ 53 - 257 : ℤ) : ℝ) * 2 ^ (-53 : ℤ)) 512 j = ((2 ^ 52 + j * (2 ^ 43 - 1) : ℤ) : ℝ) * 2 ^ (-53 : ℤ) := by
  have hL : nearest (((2 ^ 53 - 257 : ℤ) : ℝ) * 2 ^ (-53 : ℤ) - 1 / 2) = ((2 ^ 52 - 257 : ℤ) : ℝ) * 2 ^ (-53 : ℤ) := by
    rw [show ((2 ^ 53 - 257 : ℤ) : ℝ) * (2 : ℝ) ^ (-53 : ℤ) - 1 / 2 = ((2 ^ 52 - 257 : ℤ) : ℝ) * 2 ^ (-53 : ℤ) by norm_num]
    exact nearest_exact (isFloat_mid (by norm_num))
  have hS : spacing (1 / 2) (((2 ^ 53 - 257 : ℤ) : ℝ) * 2 ^ (-53 : ℤ)) 512 = ((2 ^ 52 - 257 : ℤ) : ℝ) * 2 ^ (-62 : ℤ) := by
    unfold spacing
    rw [hL, show ((2 ^ 52 - 257 : ℤ) : ℝ) * (2 : ℝ) ^ (-53 : ℤ) / (512 : ℕ) = ((2 ^ 52 - 257 : ℤ) : ℝ) * 2 ^ (-62 : ℤ) by norm_num]
    exact nearest_exact ⟨_, -62, by norm_num, by norm_num, rfl⟩
  induction j with
  | zero => show (1 / 2 : ℝ) = _; norm_num
  | succ j ih =>
    have e1 : rowAt (1 / 2) (((2 ^ 53 - 257 : ℤ) : ℝ) * 2 ^ (-53 : ℤ)) 512 (j + 1) = nearest (rowAt (1 / 2) (((2 ^ 53 - 257 : ℤ) : ℝ) * 2 ^ (-53 : ℤ)) 512 j +
      spacing (1 / 2) (((2 ^ 53 - 257 : ℤ) : ℝ) * 2 ^ (-53 : ℤ)) 512) := rfl
    have := nearest_mid (k := 2 ^ 52 + (j + 1) * (2 ^ 43 - 1)) (by omega) (by omega) (t := 255 / 512) (by norm_num) (by norm_num)
    rw [if_pos (by norm_num)] at this
    rw [e1, ih (by omega), hS]
    push_cast
    push_cast at this
    rw [← this]
    congr 1
    norm_num
    ring

/-- C173 refuted, number of rows: 512 intervals requested between `1/2` and `1 - 257*2^-53`, a single step of `y' = 1`: 514 rows, the last two `255*2^-53` apart. -/
theorem C173_extra_row_refuted (y0 : V 1) : ∃ x2 : ℝ, Ends (1 / 2) x2 ∧ x2 = 1 - 257 * 2 ^ (-53 : ℤ) ∧
    ∃ o', (Ode.newF nearest Con.new y0 (1 / 2) x2 1 0 (Out.new (some 512))).integrateF nearest (unitProb true) = some (.ok (), o') ∧
      o'.out.saved.length = 514 ∧ o'.out.saved[512]?.map Prod.fst = some (x2 - 255 * 2 ^ (-53 : ℤ)) ∧ o'.out.saved[513]?.map Prod.fst = some x2 := by
  have hx1 : IsFloat (1 / 2) := ⟨1, -1, by norm_num, by norm_num, by norm_num⟩
  have hx2 : IsFloat (((2 ^ 53 - 257 : ℤ) : ℝ) * 2 ^ (-53 : ℤ)) := isFloat_mid (by norm_num)
  have he : Ends (1 / 2) (((2 ^ 53 - 257 : ℤ) : ℝ) * 2 ^ (-53 : ℤ)) := by
    refine ⟨hx1, hx2, by norm_num, by norm_num, ?_⟩
    calc (2 : ℝ) ^ (-400 : ℤ) ≤ 2 ^ (-1 : ℤ) := zpow_le_zpow_right₀ (by norm_num) (by norm_num)
      _ ≤ _ := by norm_num
  have hland : nearest (1 / 2 + nearest (((2 ^ 53 - 257 : ℤ) : ℝ) * 2 ^ (-53 : ℤ) - 1 / 2)) = ((2 ^ 53 - 257 : ℤ) : ℝ) * 2 ^ (-53 : ℤ) :=
    he.last_exact hx1 he.lt (Or.inr (by norm_num))
  have h512 : rowAt (1 / 2) (((2 ^ 53 - 257 : ℤ) : ℝ) * 2 ^ (-53 : ℤ)) 512 512 = ((2 ^ 53 - 257 - 255 : ℤ) : ℝ) * 2 ^ (-53 : ℤ) := by
    rw [rows_lose 512 le_rfl]; norm_num
  have h513 : ((2 ^ 53 - 257 : ℤ) : ℝ) * 2 ^ (-53 : ℤ) ≤ rowAt (1 / 2) (((2 ^ 53 - 257 : ℤ) : ℝ) * 2 ^ (-53 : ℤ)) 512 513 := by
    have e1 : rowAt (1 / 2) (((2 ^ 53 - 257 : ℤ) : ℝ) * 2 ^ (-53 : ℤ)) 512 513 = nearest (rowAt (1 / 2) (((2 ^ 53 - 257 : ℤ) : ℝ) * 2 ^ (-53 : ℤ)) 512 512 +
      spacing (1 / 2) (((2 ^ 53 - 257 : ℤ) : ℝ) * 2 ^ (-53 : ℤ)) 512) := rfl
    have h2 := spacing_near he (N := 512) (by norm_num) (by norm_num)
    have h3 := (abs_le.1 ((mul_le_mul_of_nonneg_right (by norm_num : (1 : ℝ) ≤ ((512 : ℕ) : ℝ)) (abs_nonneg _)).trans h2 |> fun h => by rwa [one_mul] at h)).1
    have h4 : ((2 ^ 53 - 257 : ℤ) : ℝ) * 2 ^ (-53 : ℤ) ≤ rowAt (1 / 2) (((2 ^ 53 - 257 : ℤ) : ℝ) * 2 ^ (-53 : ℤ)) 512 512 +
        spacing (1 / 2) (((2 ^ 53 - 257 : ℤ) : ℝ) * 2 ^ (-53 : ℤ)) 512 := by
      rw [h512]
      generalize spacing (1 / 2) (((2 ^ 53 - 257 : ℤ) : ℝ) * 2 ^ (-53 : ℤ)) 512 = q at *
      norm_num at h3 ⊢
      linarith
    have := nearest_mono h4
    rw [nearest_exact hx2] at this
    rw [e1]; exact this
  obtain ⟨o', h1, hone, h2⟩ := unit_runF he (by norm_num) (N := 512) (by norm_num) (by rw [hland]) (m := 513) (by rw [hland]; exact h513) y0
  obtain ⟨m, ha, hb, t, ht, hc⟩ := C173_one_step (unitProb true) rfl C55_nonvacuous.2.2 Con.new y0 he isFloat_one 0 512 (by norm_num) o' h1 hone
  rw [h2, hland] at ha hb
  have hm : m = 512 := by
    rcases lt_trichotomy m 512 with h | h | h
    · exfalso
      rw [rows_lose (m + 1) (by omega)] at hb
      have h3 : ((2 ^ 53 - 257 : ℤ) : ℝ) ≤ ((2 ^ 52 + (m + 1 : ℕ) * (2 ^ 43 - 1) : ℤ) : ℝ) := le_of_mul_le_mul_right hb (by positivity)
      have h4 : (2 ^ 53 - 257 : ℤ) ≤ (2 ^ 52 + (m + 1 : ℕ) * (2 ^ 43 - 1) : ℤ) := by exact_mod_cast h3
      norm_num at h4
      omega
    · exact h
    · exfalso
      have := ha 513 (by omega)
      linarith
  subst hm
  have hd : |nearest (rowAt (1 / 2) (((2 ^ 53 - 257 : ℤ) : ℝ) * 2 ^ (-53 : ℤ)) 512 512 - ((2 ^ 53 - 257 : ℤ) : ℝ) * 2 ^ (-53 : ℤ))| = 255 * 2 ^ (-53 : ℤ) := by
    rw [h512, show ((2 ^ 53 - 257 - 255 : ℤ) : ℝ) * (2 : ℝ) ^ (-53 : ℤ) - ((2 ^ 53 - 257 : ℤ) : ℝ) * 2 ^ (-53 : ℤ) = ((-255 : ℤ) : ℝ) * 2 ^ (-53 : ℤ) by push_cast; ring,
      nearest_exact (isFloat_mid (by norm_num)), abs_mul, abs_of_pos (by positivity : (0 : ℝ) < 2 ^ (-53 : ℤ))]
    norm_num
  have hT := (threshold he.large).2
  have hT2 : 201 * (((2 ^ 53 - 257 : ℤ) : ℝ) * 2 ^ (-53 : ℤ) * 2 ^ (-53 : ℤ)) < 255 * (2 : ℝ) ^ (-53 : ℤ) := by norm_num
  have ht' : t = [(o'.s.x, o'.ystart)] := by
    rcases hc with ⟨-, hc⟩ | ⟨rfl, -⟩
    · rw [hd] at hc
      exact absurd (hc.trans hT) (not_le.2 hT2)
    · rfl
  subst ht'
  refine ⟨_, he, by norm_num, o', h1, by rw [ht]; simp, ?_, ?_⟩
  · rw [ht, List.getElem?_append_left (by simp)]
    simp only [List.getElem?_map, List.getElem?_range (show 512 < 512 + 1 by norm_num), Option.map_some, h512]
    congr 1
    norm_num
  · rw [ht, List.getElem?_append_right (by simp), h2, hland]
    simp

/-- C173 refuted, an interval of `K` units in the last place with `2K` requested intervals: the spacing is lost in every sum and the loop that saves rows never ends. -/
theorem C173_hang_refuted (K : ℕ) (hK : 0 < K) (hK2 : K ≤ 2 ^ 40) (y0 : V 1) : Ends (1 / 2) (1 / 2 + K * 2 ^ (-53 : ℤ)) ∧
    (Ode.newF nearest Con.new y0 (1 / 2) (1 / 2 + K * 2 ^ (-53 : ℤ)) 1 0 (Out.new (some (2 * K)))).integrateF nearest (unitProb true) = none := by
  have hK' : (1 : ℝ) ≤ K := by exact_mod_cast hK
  have hK2' : (K : ℝ) ≤ 2 ^ 40 := by exact_mod_cast hK2
  have hp53 : (0 : ℝ) < 2 ^ (-53 : ℤ) := by positivity
  have hx1 : IsFloat (1 / 2) := ⟨1, -1, by norm_num, by norm_num, by norm_num⟩
  have hx2e : (1 / 2 + K * 2 ^ (-53 : ℤ) : ℝ) = ((2 ^ 52 + K : ℤ) : ℝ) * 2 ^ (-53 : ℤ) := by
    push_cast; norm_num; ring
  have hx2 : IsFloat (1 / 2 + K * 2 ^ (-53 : ℤ)) := by
    rw [hx2e]
    refine isFloat_mid ?_
    have : (K : ℤ) ≤ 2 ^ 40 := by exact_mod_cast hK2
    rw [abs_of_nonneg (by positivity)]
    linarith [show (2 : ℤ) ^ 40 + 2 ^ 52 < 2 ^ 53 by norm_num]
  have hlt : (1 / 2 : ℝ) < 1 / 2 + K * 2 ^ (-53 : ℤ) := by
    have : 0 < (K : ℝ) * 2 ^ (-53 : ℤ) := by positivity
    linarith
  have he : Ends (1 / 2) (1 / 2 + K * 2 ^ (-53 : ℤ)) := by
    refine ⟨hx1, hx2, by norm_num, hlt, ?_⟩
    calc (2 : ℝ) ^ (-400 : ℤ) ≤ 2 ^ (-1 : ℤ) := zpow_le_zpow_right₀ (by norm_num) (by norm_num)
      _ ≤ _ := by rw [show (2 : ℝ) ^ (-1 : ℤ) = 1 / 2 by norm_num]; exact hlt.le
  refine ⟨he, ?_⟩
  have hlt1 : (1 / 2 + K * 2 ^ (-53 : ℤ) : ℝ) < 1 := by
    calc (1 / 2 + K * 2 ^ (-53 : ℤ) : ℝ) ≤ 1 / 2 + 2 ^ 40 * 2 ^ (-53 : ℤ) := by gcongr
      _ < 1 := by norm_num
  have hdx : spacing (1 / 2) (1 / 2 + K * 2 ^ (-53 : ℤ)) (2 * K) = 2 ^ (-54 : ℤ) := by
    unfold spacing
    have e1 : nearest (1 / 2 + K * 2 ^ (-53 : ℤ) - 1 / 2) = K * 2 ^ (-53 : ℤ) := by
      rw [add_sub_cancel_left]
      refine nearest_exact ⟨K, -53, ?_, by norm_num, by norm_num⟩
      rw [abs_of_nonneg (by positivity)]
      exact_mod_cast lt_of_le_of_lt hK2 (by norm_num)
    rw [e1]
    have e2 : (K : ℝ) * 2 ^ (-53 : ℤ) / ((2 * K : ℕ) : ℝ) = 2 ^ (-54 : ℤ) := by
      have : (K : ℝ) ≠ 0 := by positivity
      push_cast
      field_simp
    rw [e2]
    exact nearest_exact ⟨1, -54, by norm_num, by norm_num, by norm_num⟩
  have hstuck : nearest (1 / 2 + (2 : ℝ) ^ (-54 : ℤ)) = 1 / 2 := by
    have := nearest_mid (k := 2 ^ 52) (by norm_num) (by norm_num) (t := 1 / 2) (by norm_num) (by norm_num)
    rw [show (1 / 2 + (2 : ℝ) ^ (-54 : ℤ)) = (((2 ^ 52 : ℤ) : ℝ) + 1 / 2) * 2 ^ (-53 : ℤ) by norm_num, this]
    norm_num
  have hland : nearest (1 / 2 + nearest (1 / 2 + K * 2 ^ (-53 : ℤ) - 1 / 2)) = 1 / 2 + K * 2 ^ (-53 : ℤ) := by
    refine he.last_exact hx1 hlt (Or.inr ?_)
    linarith
  obtain ⟨o, h0, hl, hs0, hox1, hox2, ho1, ho2, hsx, hsy, hdy, hh, hcon, hmin, hvis, hys⟩ :=
    integrateF_start nearest_zero (unitProb true) rfl Con.new y0 (1 / 2) (1 / 2 + K * 2 ^ (-53 : ℤ)) 1 0 (2 * K) (by omega)
  rw [h0, show (50000 : ℕ) = 49999 + 1 by norm_num]
  unfold Ode.loopF
  obtain ⟨s, c, h3, hit⟩ := unit_iterF he hlt1 ho1 ho2 hsx (by rw [hdy]; rfl) (by
    rw [hh, sign_pos (sub_pos.2 he.lt)]; simp)
  rw [hland] at h3
  have hc0 : o.out.count = 0 := by rw [← Out.saved_length hl.ok, hs0]; rfl
  have hout : o.out.outF nearest ((0 : ℕ) : ℤ) s.x s.y s s.hdid = none := by
    unfold Out.outF
    rw [if_pos hl.dense, if_neg (by norm_num)]
    refine runLoop_forever (I := fun v => v.Ok ∧ v.xout = 1 / 2 ∧ o.out.SameDom v) ?_ ⟨hl.ok, by rw [hl.xout, hc0]; rfl, .rfl' _⟩
    rintro v ⟨v1, v2, v3⟩
    obtain ⟨z, hz, zok, zs, zc, zg⟩ := Out.saveDense_ok v1 v.xout (denseOut s v.xout s.hdid)
    obtain ⟨g1, g2, g3, g4, g5, g6⟩ := zg
    refine ⟨{ z with xout := nearest (z.xout + z.dxout) }, ?_, Out.ok_xout zok _, ?_, v3.trans ⟨g1, g2, g3, g5, g6⟩⟩
    · unfold Out.outBodyF
      rw [if_pos]
      · rw [hz]
      · rw [v2, v3.2.1, v3.2.2.1, hox1, hox2, h3]
        exact he.row_end hx2 hx1 le_rfl hlt
    · have hd : o.out.dxout = 2 ^ (-54 : ℤ) := by rw [hl.hdx]; exact hdx
      show nearest (z.xout + z.dxout) = 1 / 2
      rw [g4, v2, g5, v3.2.2.2.1, hd, hstuck]
  have hrec : (Ode.took { o with h := nearest (1 / 2 + K * 2 ^ (-53 : ℤ) - 1 / 2) } s c).recordF nearest (unitProb true) (0 : ℕ) s.x s.y s.hdid = none := by
    unfold Ode.recordF
    rw [show (unitProb true).dense = true from rfl, if_pos rfl]
    have : (Ode.took { o with h := nearest (1 / 2 + K * 2 ^ (-53 : ℤ) - 1 / 2) } s c).out.outF nearest ((0 : ℕ) : ℤ) s.x s.y
      (Ode.took { o with h := nearest (1 / 2 + K * 2 ^ (-53 : ℤ) - 1 / 2) } s c).s s.hdid = none := hout
    rw [this]
  rw [hrec] at hit
  rw [hit]

/-- C173: a run that meets the hypotheses of the theorems above: `y' = 1` from 0 to 1/2 with two intervals, in one step, ends exactly and saves three rows. -/
theorem C173_nonvacuous (y0 : V 1) : Ends 0 (1 / 2) ∧ (1 / 2 : ℝ) ≤ 2 ^ 20 * (1 / 2 - 0) ∧ Rounds (unitProb true).fl ∧
    ∃ o', (Ode.newF nearest Con.new y0 0 (1 / 2) 1 0 (Out.new (some 2))).integrateF nearest (unitProb true) = some (.ok (), o') ∧
      o'.visited.length = 1 ∧ o'.s.x = 1 / 2 ∧ o'.out.saved.length = 3 := by
  have hx2 : IsFloat (1 / 2) := ⟨1, -1, by norm_num, by norm_num, by norm_num⟩
  have hx4 : IsFloat (1 / 4) := ⟨1, -2, by norm_num, by norm_num, by norm_num⟩
  have he : Ends 0 (1 / 2) := by
    refine ⟨IsFloat.zero, hx2, le_rfl, by norm_num, ?_⟩
    calc (2 : ℝ) ^ (-400 : ℤ) ≤ 2 ^ (-1 : ℤ) := zpow_le_zpow_right₀ (by norm_num) (by norm_num)
      _ = 1 / 2 := by norm_num
  have hland : nearest (0 + nearest (1 / 2 - 0)) = 1 / 2 := he.last_exact IsFloat.zero he.lt (Or.inl rfl)
  have hrow : rowAt 0 (1 / 2) 2 2 = 1 / 2 := by
    have e1 : rowAt 0 (1 / 2) 2 2 = nearest (nearest (0 + spacing 0 (1 / 2) 2) + spacing 0 (1 / 2) 2) := rfl
    have e2 : spacing 0 (1 / 2) 2 = 1 / 4 := by
      unfold spacing
      rw [sub_zero, nearest_exact hx2, show (1 / 2 : ℝ) / (2 : ℕ) = 1 / 4 by norm_num, nearest_exact hx4]
    rw [e1, e2, zero_add, nearest_exact hx4, show (1 / 4 + 1 / 4 : ℝ) = 1 / 2 by norm_num, nearest_exact hx2]
  have hlen : (1 / 2 : ℝ) ≤ 2 ^ 20 * (1 / 2 - 0) := by norm_num
  obtain ⟨o', h1, h2, h3⟩ := unit_runF he (by norm_num) (N := 2) (by norm_num) hland.ge (m := 2) (by rw [hland, hrow]) y0
  exact ⟨he, hlen, C55_nonvacuous.2.2, o', h1, h2, h3.trans hland,
    C173_count (unitProb true) rfl C55_nonvacuous.2.2 Con.new y0 he hlen isFloat_one 0 2 (by norm_num) (by norm_num) o' h1 h2⟩

end PyNLO.Ode
