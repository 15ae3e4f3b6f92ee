import Verif.Props.Crystal

/-! # C64–C67, C88–C92: cached indices, class-level properties, dispersion, Sellmeier equations -/

namespace PyNLO.Xtal

open Real

/-! ## C67: Sellmeier equations -/

theorem tempF_bounds {T : ℝ} (h1 : 20 ≤ T) (h2 : T ≤ 250) : -2700 ≤ tempF T ∧ tempF T ≤ 186000 := by
  unfold tempF
  constructor <;> nlinarith

theorem tempF_strictMono {T T' : ℝ} (h1 : 20 ≤ T) (h : T < T') : tempF T < tempF T' := by
  unfold tempF; nlinarith

/-- Square of the wavelength in micrometres. -/
theorem wl_sq_bounds {wl : ℝ} (h1 : 400 ≤ wl) (h2 : wl ≤ 5000) : 0.16 ≤ (wl * 1e-3) ^ 2 ∧ (wl * 1e-3) ^ 2 ≤ 25 := by
  constructor <;> norm_num <;> nlinarith

theorem gayer_bounds {T wl : ℝ} (hT : 20 ≤ T) (hT' : T ≤ 250) (h1 : 400 ≤ wl) (h2 : wl ≤ 5000) :
    1.9 ^ 2 < gayer.nSq T wl ∧ gayer.nSq T wl < 2.75 ^ 2 ∧
    0 < (wl * 1e-3) ^ 2 - (gayer.a3 + gayer.b3 * tempF T) ^ 2 ∧ (wl * 1e-3) ^ 2 - gayer.a5 ^ 2 < 0 := by
  obtain ⟨f1, f2⟩ := tempF_bounds hT hT'
  obtain ⟨w1, w2⟩ := wl_sq_bounds h1 h2
  simp only [Sell.nSq, gayer]
  set f := tempF T
  set w := (wl * 1e-3) ^ 2
  have g1 : (0.2020 + 6.113e-8 * f) ^ 2 ≤ 0.0456 := by norm_num at *; nlinarith
  have d1 : 0.1144 ≤ w - (0.2020 + 6.113e-8 * f) ^ 2 := by norm_num at *; linarith
  have d1' : 0 < w - (0.2020 + 6.113e-8 * f) ^ 2 := lt_of_lt_of_le (by norm_num) d1
  have n1 : 0 < 0.0983 + 4.700e-8 * f := by norm_num at *; linarith
  have n1' : 0.0983 + 4.700e-8 * f ≤ 0.1071 := by norm_num at *; linarith
  have t1 : 0 < (0.0983 + 4.700e-8 * f) / (w - (0.2020 + 6.113e-8 * f) ^ 2) := div_pos n1 d1'
  have t1' : (0.0983 + 4.700e-8 * f) / (w - (0.2020 + 6.113e-8 * f) ^ 2) ≤ 0.94 := by
    rw [div_le_iff₀ d1']; norm_num at *; linarith
  have d2 : w - 12.52 ^ 2 < 0 := by norm_num at *; linarith
  have n2 : 0 < 189.32 + 1.516e-4 * f := by norm_num at *; linarith
  have t2 : (189.32 + 1.516e-4 * f) / (w - 12.52 ^ 2) < 0 := div_neg_of_pos_of_neg n2 d2
  have t2' : -1.66 ≤ (189.32 + 1.516e-4 * f) / (w - 12.52 ^ 2) := by
    rw [le_div_iff_of_neg d2]; norm_num at *; linarith
  refine ⟨?_, ?_, d1', d2⟩
  · norm_num at *; linarith
  · norm_num at *; linarith

theorem deng_bounds {T wl : ℝ} (hT : 20 ≤ T) (hT' : T ≤ 250) (h1 : 400 ≤ wl) (h2 : wl ≤ 5000) :
    1.9 ^ 2 < deng.nSq T wl ∧ deng.nSq T wl < 2.75 ^ 2 ∧
    0 < (wl * 1e-3) ^ 2 - (deng.a3 + deng.b3 * tempF T) ^ 2 ∧ (wl * 1e-3) ^ 2 - deng.a5 ^ 2 < 0 := by
  obtain ⟨f1, f2⟩ := tempF_bounds hT hT'
  obtain ⟨w1, w2⟩ := wl_sq_bounds h1 h2
  simp only [Sell.nSq, deng]
  set f := tempF T
  set w := (wl * 1e-3) ^ 2
  have g1 : (0.20692 + -0.89e-8 * f) ^ 2 ≤ 0.0456 := by norm_num at *; nlinarith
  have d1 : 0.1144 ≤ w - (0.20692 + -0.89e-8 * f) ^ 2 := by norm_num at *; linarith
  have d1' : 0 < w - (0.20692 + -0.89e-8 * f) ^ 2 := lt_of_lt_of_le (by norm_num) d1
  have n1 : 0 < 0.100473 + 3.862e-8 * f := by norm_num at *; linarith
  have n1' : 0.100473 + 3.862e-8 * f ≤ 0.108 := by norm_num at *; linarith
  have t1 : 0 < (0.100473 + 3.862e-8 * f) / (w - (0.20692 + -0.89e-8 * f) ^ 2) := div_pos n1 d1'
  have t1' : (0.100473 + 3.862e-8 * f) / (w - (0.20692 + -0.89e-8 * f) ^ 2) ≤ 0.95 := by
    rw [div_le_iff₀ d1']; norm_num at *; linarith
  have d2 : w - 11.34927 ^ 2 < 0 := by norm_num at *; linarith
  have n2 : 0 < 100 + 2.657e-5 * f := by norm_num at *; linarith
  have t2 : (100 + 2.657e-5 * f) / (w - 11.34927 ^ 2) < 0 := div_neg_of_pos_of_neg n2 d2
  have t2' : -1.02 ≤ (100 + 2.657e-5 * f) / (w - 11.34927 ^ 2) := by
    rw [le_div_iff_of_neg d2]; norm_num at *; linarith
  have t3 : 0 ≤ (1.544e-2 + 9.62119e-10 * f) * w := mul_nonneg (by norm_num at *; linarith) (by norm_num at *; linarith)
  have t3' : (1.544e-2 + 9.62119e-10 * f) * w ≤ 0.0157 * 25 := by
    apply mul_le_mul
    · norm_num at *; linarith
    · exact w2
    · norm_num at *; linarith
    · norm_num
  refine ⟨?_, ?_, d1', d2⟩
  · norm_num at *; linarith
  · norm_num at *; linarith

theorem Sell.n_of {s : Sell} {T wl : ℝ} (h : 0 ≤ s.nSq T wl) (h1 : 0 < (wl * 1e-3) ^ 2 - (s.a3 + s.b3 * tempF T) ^ 2)
    (h2 : (wl * 1e-3) ^ 2 - s.a5 ^ 2 < 0) : s.n T wl = .val √(s.nSq T wl) := by
  unfold Sell.n
  simp only
  rw [if_neg]
  rintro (e | e | e)
  · exact h1.ne' e
  · exact h2.ne e
  · linarith

/-- C67: between 0.4 and 5 micrometres and between 20 and 250 degrees the index of PPLN, from either source, is a
number between 1.9 and 2.75. -/
theorem C67_physical (src : Source) (T wl : ℝ) (hT : 20 ≤ T) (hT' : T ≤ 250) (h1 : 400 ≤ wl) (h2 : wl ≤ 5000) :
    ∃ x, (PPLN.load T src).n wl = .val x ∧ 1.9 < x ∧ x < 2.75 := by
  have key : ∀ s : Sell, 1.9 ^ 2 < s.nSq T wl → s.nSq T wl < 2.75 ^ 2 → 1.9 < √(s.nSq T wl) ∧ √(s.nSq T wl) < 2.75 := by
    intro s e1 e2
    exact ⟨lt_sqrt_of_sq_lt e1, by rw [sqrt_lt' (by norm_num)]; exact e2⟩
  cases src with
  | Deng =>
    obtain ⟨e1, e2, e3, e4⟩ := deng_bounds hT hT' h1 h2
    exact ⟨_, Sell.n_of (le_of_lt (lt_of_le_of_lt (by norm_num) e1)) e3 e4, key deng e1 e2⟩
  | Gayer_5pctMg =>
    obtain ⟨e1, e2, e3, e4⟩ := gayer_bounds hT hT' h1 h2
    exact ⟨_, Sell.n_of (le_of_lt (lt_of_le_of_lt (by norm_num) e1)) e3 e4, key gayer e1 e2⟩

/-- C67: the range is used: 1550 nm at 24.5 degrees. -/
theorem C67_nonvacuous : ∃ x, (PPLN.load 24.5).n 1550 = .val x ∧ 1.9 < x :=
  let ⟨x, h, h1, _⟩ := C67_physical .Gayer_5pctMg 24.5 1550 (by norm_num) (by norm_num) (by norm_num) (by norm_num)
  ⟨x, h, h1⟩

/-! ## C91: normal dispersion -/

theorem nSq_anti {s : Sell} {T u v : ℝ} (h0 : 0 < u) (huv : u < v) (hA : 0 < s.a2 + s.b2 * tempF T) (hB : 0 < s.a4 + s.b4 * tempF T)
    (hC : 0 ≤ s.a6 + s.b5 * tempF T) (hu : 0 < (u * 1e-3) ^ 2 - (s.a3 + s.b3 * tempF T) ^ 2)
    (hv : (v * 1e-3) ^ 2 - s.a5 ^ 2 < 0) : s.nSq T v < s.nSq T u := by
  have hw : (u * 1e-3) ^ 2 < (v * 1e-3) ^ 2 := by norm_num; nlinarith
  unfold Sell.nSq
  simp only
  have t1 : (s.a2 + s.b2 * tempF T) / ((v * 1e-3) ^ 2 - (s.a3 + s.b3 * tempF T) ^ 2)
      < (s.a2 + s.b2 * tempF T) / ((u * 1e-3) ^ 2 - (s.a3 + s.b3 * tempF T) ^ 2) :=
    div_lt_div_of_pos_left hA hu (by linarith)
  have t2 : (s.a4 + s.b4 * tempF T) / ((v * 1e-3) ^ 2 - s.a5 ^ 2) < (s.a4 + s.b4 * tempF T) / ((u * 1e-3) ^ 2 - s.a5 ^ 2) := by
    rw [← neg_lt_neg_iff, ← div_neg, ← div_neg]
    exact div_lt_div_of_pos_left hB (by linarith) (by linarith)
  have t3 : (s.a6 + s.b5 * tempF T) * (u * 1e-3) ^ 2 ≤ (s.a6 + s.b5 * tempF T) * (v * 1e-3) ^ 2 :=
    mul_le_mul_of_nonneg_left hw.le hC
  linarith

/-- C91: in that range the index of PPLN decreases with the wavelength, so that the signal and idler indices are
ordered. -/
theorem C91_normal_dispersion (src : Source) (T u v : ℝ) (hT : 20 ≤ T) (hT' : T ≤ 250) (h1 : 400 ≤ u) (huv : u < v) (h2 : v ≤ 5000) :
    ∃ x y, (PPLN.load T src).n u = .val x ∧ (PPLN.load T src).n v = .val y ∧ y < x := by
  obtain ⟨f1, f2⟩ := tempF_bounds hT hT'
  cases src with
  | Deng =>
    obtain ⟨u1, -, u3, u4⟩ := deng_bounds hT hT' h1 (by linarith)
    obtain ⟨v1, -, v3, v4⟩ := deng_bounds hT hT' (by linarith : 400 ≤ v) h2
    refine ⟨_, _, Sell.n_of (le_of_lt (lt_of_le_of_lt (by norm_num) u1)) u3 u4,
      Sell.n_of (le_of_lt (lt_of_le_of_lt (by norm_num) v1)) v3 v4, ?_⟩
    apply sqrt_lt_sqrt (le_of_lt (lt_of_le_of_lt (by norm_num) v1))
    apply nSq_anti (by linarith) huv _ _ _ u3 v4
    · simp only [deng]; norm_num; linarith
    · simp only [deng]; norm_num; linarith
    · simp only [deng]; norm_num; linarith
  | Gayer_5pctMg =>
    obtain ⟨u1, -, u3, u4⟩ := gayer_bounds hT hT' h1 (by linarith)
    obtain ⟨v1, -, v3, v4⟩ := gayer_bounds hT hT' (by linarith : 400 ≤ v) h2
    refine ⟨_, _, Sell.n_of (le_of_lt (lt_of_le_of_lt (by norm_num) u1)) u3 u4,
      Sell.n_of (le_of_lt (lt_of_le_of_lt (by norm_num) v1)) v3 v4, ?_⟩
    apply sqrt_lt_sqrt (le_of_lt (lt_of_le_of_lt (by norm_num) v1))
    apply nSq_anti (by linarith) huv _ _ _ u3 v4
    · simp only [gayer]; norm_num; linarith
    · simp only [gayer]; norm_num; linarith
    · simp only [gayer]; norm_num

/-! ## C90: temperature -/

/-- C90: whatever temperatures were set before, the index is that of a crystal created at the last one. -/
theorem C90_temperature (src : Source) (T0 : ℝ) (Ts : List ℝ) (T wl : ℝ) :
    ((Ts.foldl PPLN.setT (PPLN.load T0 src)).setT T).n wl = (PPLN.load T src).n wl ∧
    ((Ts.foldl PPLN.setT (PPLN.load T0 src)).setT T).T = T := by
  have : ∀ (Ts : List ℝ) (p : PPLN), p.source = src → (Ts.foldl PPLN.setT p).source = src := by
    intro Ts
    induction Ts with
    | nil => intro p h; exact h
    | cons a l ih => intro p h; exact ih _ h
  have h := this Ts (PPLN.load T0 src) rfl
  refine ⟨?_, rfl⟩
  generalize Ts.foldl PPLN.setT (PPLN.load T0 src) = p at h
  subst h
  simp only [PPLN.n, PPLN.setT, PPLN.load, Function.update_self]

/-- C90: with the default data the index rises with the temperature, between 0.5 and 4 micrometres. -/
theorem C90_thermal (T T' wl : ℝ) (hT : 20 ≤ T) (h : T < T') (hT' : T' ≤ 250) (h1 : 500 ≤ wl) (h2 : wl ≤ 4000) :
    ∃ x y, (PPLN.load T).n wl = .val x ∧ (PPLN.load T').n wl = .val y ∧ x < y := by
  obtain ⟨u1, -, u3, u4⟩ := gayer_bounds (T := T) (wl := wl) hT (by linarith) (by linarith) (by linarith)
  obtain ⟨v1, -, v3, v4⟩ := gayer_bounds (T := T') (wl := wl) (by linarith) hT' (by linarith) (by linarith)
  refine ⟨_, _, Sell.n_of (le_of_lt (lt_of_le_of_lt (by norm_num) u1)) u3 u4,
    Sell.n_of (le_of_lt (lt_of_le_of_lt (by norm_num) v1)) v3 v4, ?_⟩
  apply sqrt_lt_sqrt (le_of_lt (lt_of_le_of_lt (by norm_num) u1))
  obtain ⟨f1, f2⟩ := tempF_bounds hT (by linarith : T ≤ 250)
  obtain ⟨g1, g2⟩ := tempF_bounds (by linarith : 20 ≤ T') hT'
  have hf := tempF_strictMono hT h
  have hw : (wl * 1e-3) ^ 2 ≤ 16 := by norm_num; nlinarith
  show gayer.nSq T wl < gayer.nSq T' wl
  simp only [Sell.nSq, gayer] at *
  set f := tempF T
  set g := tempF T'
  set w := (wl * 1e-3) ^ 2
  have t1 : (0.0983 + 4.700e-8 * f) / (w - (0.2020 + 6.113e-8 * f) ^ 2) ≤ (0.0983 + 4.700e-8 * g) / (w - (0.2020 + 6.113e-8 * g) ^ 2) := by
    apply div_le_div₀
    · norm_num at *; linarith
    · norm_num at *; linarith
    · exact v3
    · have : (0.2020 + 6.113e-8 * f) ^ 2 ≤ (0.2020 + 6.113e-8 * g) ^ 2 := by
        apply pow_le_pow_left₀
        · norm_num at *; linarith
        · norm_num at *; linarith
      linarith
  have t2 : (189.32 + 1.516e-4 * g) / (w - 12.52 ^ 2) - (189.32 + 1.516e-4 * f) / (w - 12.52 ^ 2) ≥ -1.1e-6 * (g - f) := by
    rw [← sub_div, ge_iff_le, le_div_iff_of_neg u4]
    norm_num at *
    nlinarith
  generalize (0.0983 + 4.700e-8 * f) / (w - (0.2020 + 6.113e-8 * f) ^ 2) = A at t1 ⊢
  generalize (0.0983 + 4.700e-8 * g) / (w - (0.2020 + 6.113e-8 * g) ^ 2) = B at t1 ⊢
  generalize (189.32 + 1.516e-4 * g) / (w - 12.52 ^ 2) = C at t2 ⊢
  generalize (189.32 + 1.516e-4 * f) / (w - 12.52 ^ 2) = D at t2 ⊢
  norm_num at t2 ⊢
  linarith

/-! ## C64: the class-level index cache -/

/-- A `get_pulse_n` call: the crystal as it is at that time, and the pulse's hash, grid and axis. -/
structure NCall where
  x : Idx
  hash : String
  wl : Vec ℝ
  axis : Option String

/-- The cache after a history of calls. -/
def cacheAfter (l : List NCall) : String → Option (List NFlt) :=
  l.foldl (fun c q => (getPulseN q.x q.hash q.wl q.axis c).2) fun _ => none

/-- The call with caching switched off. -/
def NCall.uncached (q : NCall) : Except PyErr (List NFlt) :=
  (getPulseN { q.x with caching := false } q.hash q.wl q.axis fun _ => none).1

/-- C64, what holds: if every earlier call with the same cache string would have computed the same array (one crystal,
unchanged, and pulses whose hash determines their grid), the cached call agrees with the uncached one. -/
theorem C64_cached_partial (hist : List NCall) (q : NCall)
    (h : ∀ c ∈ hist, c.hash ++ strAxis c.axis = q.hash ++ strAxis q.axis → c.uncached = q.uncached) :
    (getPulseN q.x q.hash q.wl q.axis (cacheAfter hist)).1 = q.uncached := by
  have inv : ∀ l : List NCall, (∀ c ∈ l, c.hash ++ strAxis c.axis = q.hash ++ strAxis q.axis → c.uncached = q.uncached) →
      ∀ c0 : String → Option (List NFlt), (∀ ns, c0 (q.hash ++ strAxis q.axis) = some ns → q.uncached = .ok ns) →
      ∀ ns, (l.foldl (fun c q => (getPulseN q.x q.hash q.wl q.axis c).2) c0) (q.hash ++ strAxis q.axis) = some ns →
        q.uncached = .ok ns := by
    intro l
    induction l with
    | nil => intro _ c0 h0; exact h0
    | cons c l ih =>
      intro hl c0 h0
      refine ih (fun c' hc' => hl c' (List.mem_cons_of_mem _ hc')) _ ?_
      intro ns
      simp only [getPulseN]
      by_cases hc : c.x.caching
      · rw [if_pos hc]
        rcases hh : c0 (c.hash ++ strAxis c.axis) with _ | ns'
        · simp only
          rcases ha : c.x.array c.axis c.wl with e | ns'
          · exact h0 ns
          · simp only
            by_cases hk : c.hash ++ strAxis c.axis = q.hash ++ strAxis q.axis
            · rw [hk, Function.update_self]
              intro h1
              have := hl c (List.mem_cons_self) hk
              rw [← this]
              unfold NCall.uncached getPulseN
              simp only [Bool.false_eq_true, if_false]
              show c.x.array c.axis c.wl = _
              rw [ha, Option.some.inj h1]
            · rw [Function.update_of_ne (Ne.symm hk)]; exact h0 ns
        · exact h0 ns
      · rw [if_neg hc]; exact h0 ns
  have h1 := inv hist h (fun _ => none) (by simp)
  unfold getPulseN
  by_cases hc : q.x.caching
  · rw [if_pos hc]
    rcases hh : cacheAfter hist (q.hash ++ strAxis q.axis) with _ | ns
    · simp only
      rcases ha : q.x.array q.axis q.wl with e | ns'
      · simp only; rw [← ha]; simp only [NCall.uncached, getPulseN, Bool.false_eq_true, if_false]; rfl
      · simp only; rw [← ha]; simp only [NCall.uncached, getPulseN, Bool.false_eq_true, if_false]; rfl
    · simp only
      exact (h1 ns hh).symm
  · rw [if_neg hc]
    simp only [NCall.uncached, getPulseN, Bool.false_eq_true, if_false]; rfl

theorem ppln_array (p : PPLN) (b : Bool) (axis : Option String) (wl : Vec ℝ) :
    (p.idx b).array axis wl = .ok ((List.ofFn wl.val).map p.n) := by
  unfold Idx.array PPLN.idx
  generalize List.ofFn wl.val = l
  simp only
  induction l with
  | nil => rfl
  | cons a l ih => rw [List.mapM_cons, ih]; rfl

/-- C64: with caching off, a crystal answers with its own index whatever is in the cache, and leaves the cache alone. -/
theorem C64_off (p : PPLN) (b : Biref) (hash : String) (wl : Vec ℝ) (axis : Option String) (cache : String → Option (List NFlt)) :
    getPulseN (p.idx false) hash wl axis cache = (.ok ((List.ofFn wl.val).map p.n), cache) ∧
    getPulseN (b.idx false) hash wl axis cache = ((b.idx false).array axis wl, cache) := by
  constructor
  · rw [← ppln_array p false]
    rfl
  · rfl

/-- C64 refuted: two PPLN crystals with caching on, at 24.5 and 124.5 degrees, or one crystal whose temperature is
changed between the calls.  For every pulse whose grid lies between 500 and 4000 nm the second call returns the index at
the first temperature, which is not the index of the crystal. -/
theorem C64_stale_refuted (hash : String) (wl : Vec ℝ) (hn : 0 < wl.len) (h : ∀ i, 500 ≤ wl.val i ∧ wl.val i ≤ 4000)
    (second : PPLN) (hsecond : second = PPLN.load 124.5 ∨ second = (PPLN.load 24.5).setT 124.5) :
    (getPulseN (second.idx true) hash wl none (cacheAfter [⟨(PPLN.load 24.5).idx true, hash, wl, none⟩])).1 =
      .ok ((List.ofFn wl.val).map (PPLN.load 24.5).n) ∧
    (NCall.mk (second.idx true) hash wl none).uncached = .ok ((List.ofFn wl.val).map (PPLN.load 124.5).n) ∧
    (List.ofFn wl.val).map (PPLN.load 24.5).n ≠ (List.ofFn wl.val).map (PPLN.load 124.5).n := by
  refine ⟨?_, ?_, ?_⟩
  · have hc : cacheAfter [⟨(PPLN.load 24.5).idx true, hash, wl, none⟩] (hash ++ strAxis none) =
        some ((List.ofFn wl.val).map (PPLN.load 24.5).n) := by
      unfold cacheAfter
      simp only [List.foldl_cons, List.foldl_nil, getPulseN]
      rw [if_pos (show ((PPLN.load 24.5).idx true).caching = true from rfl), ppln_array]
      simp only
      rw [Function.update_self]
    unfold getPulseN
    rw [if_pos (show (second.idx true).caching = true from rfl), hc]
  · unfold NCall.uncached getPulseN
    simp only [Bool.false_eq_true, if_false]
    show (second.idx false).array none wl = _
    rw [ppln_array]
    have : second.n = (PPLN.load 124.5).n := by
      rcases hsecond with rfl | rfl
      · rfl
      · funext x; exact (C90_temperature .Gayer_5pctMg 24.5 [] 124.5 x).1
    rw [this]
  · intro he
    obtain ⟨x, y, hx, hy, hxy⟩ := C90_thermal 24.5 124.5 (wl.val ⟨0, hn⟩) (by norm_num) (by norm_num) (by norm_num) (h _).1 (h _).2
    rw [List.map_inj_left] at he
    have := he (wl.val ⟨0, hn⟩) (by rw [List.mem_ofFn]; exact ⟨_, rfl⟩)
    rw [hx, hy, NFlt.val.injEq] at this
    linarith

/-- C64 refuted: an AgGaSe2 crystal with caching on, asked once for the index along its default axis, afterwards also
answers for the axis called `"None"`, which is no axis; without caching that raises `ValueError`. -/
theorem C64_none_axis_refuted (b : Biref) (hash : String) (wl : Vec ℝ) (hn : 0 < wl.len) :
    let first : NCall := ⟨b.idx true, hash, wl, none⟩
    let second : NCall := ⟨b.idx true, hash, wl, some "None"⟩
    (∃ ns, first.uncached = .ok ns ∧
      (getPulseN second.x second.hash second.wl second.axis (cacheAfter [first])).1 = .ok ns) ∧
    second.uncached = .error .ValueError := by
  intro first second
  have harr : ∀ c : Bool, (b.idx c).array none wl =
      .ok ((List.ofFn wl.val).map fun x => mixIndex b.theta (b.no x) (b.ne x)) := by
    intro c
    show (List.ofFn wl.val).mapM (fun x => (Except.ok (mixIndex b.theta (b.no x) (b.ne x)) : Except PyErr NFlt)) = _
    induction List.ofFn wl.val with
    | nil => rfl
    | cons x l ih => rw [List.mapM_cons, ih]; rfl
  refine ⟨⟨_, harr false, ?_⟩, ?_⟩
  · show (getPulseN (b.idx true) hash wl (some "None") (cacheAfter [first])).1 = _
    have hc : cacheAfter [first] (hash ++ strAxis (some "None")) =
        some ((List.ofFn wl.val).map fun x => mixIndex b.theta (b.no x) (b.ne x)) := by
      show (getPulseN (b.idx true) hash wl none fun _ => none).2 (hash ++ "None") = _
      unfold getPulseN
      rw [if_pos (show (b.idx true).caching = true from rfl), harr]
      simp only [strAxis]
      rw [Function.update_self]
    unfold getPulseN
    rw [if_pos (show (b.idx true).caching = true from rfl), hc]
  · show (b.idx false).array (some "None") wl = _
    obtain ⟨n, v⟩ := wl
    obtain ⟨k, rfl⟩ : ∃ k, n = k + 1 := ⟨n - 1, by simp only at hn; omega⟩
    unfold Idx.array
    rw [List.ofFn_succ, List.mapM_cons]
    rfl

/-- C64: such grids exist. -/
theorem C64_nonvacuous : ∃ wl : Vec ℝ, 0 < wl.len ∧ ∀ i, 500 ≤ wl.val i ∧ wl.val i ≤ 4000 :=
  ⟨⟨1, fun _ => 1550⟩, one_pos, fun _ => by norm_num⟩

/-! ## C65: class-level properties -/

/-- C65 refuted: creating a PPLN crystal changes the damage threshold of every crystal that was there before, if none of
those was PPLN. -/
theorem C65_refuted (k : ℕ) (i : ℕ) (hi : i < k) :
    let before := (List.replicate k Kind.agGaSe2).foldl Classes.create Classes.start
    before.damage i = .ok 1e13 ∧ (before.create .ppln).damage i = .ok 4e13 := by
  have h : ∀ k, (List.replicate k Kind.agGaSe2).foldl Classes.create Classes.start = ⟨List.replicate k .agGaSe2, 1⟩ := by
    intro k
    induction k with
    | zero => rfl
    | succ k ih =>
      rw [List.replicate_succ', List.foldl_append, ih]
      rfl
  simp only [h]
  constructor
  · simp [Classes.damage, hi]
  · simp only [Classes.damage, Classes.create]
    rw [List.getElem?_append_left (by simpa using hi), List.getElem?_replicate, if_pos hi]
    norm_num

/-- C65, what holds: creating an AgGaSe2 crystal changes nothing, and once there is a PPLN crystal neither does
creating another one. -/
theorem C65_partial (w : List Kind) (new : Kind) (h : new = .agGaSe2 ∨ .ppln ∈ w) (i : ℕ) (hi : i < w.length) :
    ((w.foldl Classes.create Classes.start).create new).damage i = (w.foldl Classes.create Classes.start).damage i := by
  have inv : ∀ (w : List Kind) (c : Classes), (w.foldl Classes.create c).crystals = c.crystals ++ w ∧
      ((.ppln ∈ w ∨ c.threshold = 4) → (w.foldl Classes.create c).threshold = 4) := by
    intro w
    induction w with
    | nil => intro c; exact ⟨by simp, by simp⟩
    | cons a l ih =>
      intro c
      obtain ⟨h1, h2⟩ := ih (c.create a)
      refine ⟨?_, ?_⟩
      · rw [List.foldl_cons, h1]; cases a <;> simp [Classes.create]
      · intro hm
        rw [List.foldl_cons]
        apply h2
        cases a with
        | ppln => exact Or.inr rfl
        | agGaSe2 =>
          rcases hm with hm | hm
          · left; simpa using hm
          · right; exact hm
  obtain ⟨h1, h2⟩ := inv w Classes.start
  have hc : (w.foldl Classes.create Classes.start).crystals = w := by rw [h1]; rfl
  cases new with
  | agGaSe2 =>
    simp only [Classes.damage, Classes.create, hc]
    rw [List.getElem?_append_left hi]
  | ppln =>
    have h3 := h2 (Or.inl (h.resolve_left (by simp)))
    simp only [Classes.damage, Classes.create, hc, h3]
    rw [List.getElem?_append_left hi]

/-! ## C66: group delay and dispersion -/

/-- C66: delays are antisymmetric and additive in the wavelengths. -/
theorem C66_delay_algebra (fn : ℝ → ℝ) (len : ℝ) (arg : Option ℝ) (a b c : ℝ) :
    pulseDelay fn len a b arg = -pulseDelay fn len b a arg ∧
    pulseDelay fn len a b arg + pulseDelay fn len b c arg = pulseDelay fn len a c arg ∧
    pulseDelay fn len a a arg = 0 := by
  unfold pulseDelay
  refine ⟨by ring, by ring, by ring⟩

/-- The weights satisfy the moment conditions that define them. -/
theorem weights_moments (j : ℕ) (hj : j < 11) :
    (∑ k : Fin 11, weights1 k * ((k : ℕ) - 5 : ℝ) ^ j = if j = 1 then 1 else 0) ∧
    (∑ k : Fin 11, weights2 k * ((k : ℕ) - 5 : ℝ) ^ j = if j = 2 then 2 else 0) := by
  interval_cases j <;> simp [Fin.sum_univ_succ, weights1, weights2] <;> norm_num

open Polynomial in
theorem derivative_poly (w : Fin 11 → ℝ) (P : ℝ[X]) (hP : P.natDegree ≤ 10) (x dx : ℝ) (hdx : dx ≠ 0) (d : ℕ) (hd : d < 11) (a : ℝ)
    (hw : ∀ j < 11, ∑ k : Fin 11, w k * ((k : ℕ) - 5 : ℝ) ^ j = if j = d then a else 0) :
    derivative w d (fun x => P.eval x) x dx = a * (taylor x P).coeff d := by
  unfold derivative
  have hev : ∀ y, P.eval (x + y) = ∑ j ∈ Finset.range 11, (taylor x P).coeff j * y ^ j := by
    intro y
    rw [add_comm, ← taylor_eval, eval_eq_sum_range' (n := 11)]
    rw [natDegree_taylor]; omega
  simp only [hev, mul_pow]
  have : ∑ k : Fin 11, w k * ∑ j ∈ Finset.range 11, (taylor x P).coeff j * (((k : ℕ) - 5 : ℝ) ^ j * dx ^ j)
      = ∑ j ∈ Finset.range 11, (taylor x P).coeff j * dx ^ j * ∑ k : Fin 11, w k * ((k : ℕ) - 5 : ℝ) ^ j := by
    simp only [Finset.mul_sum]
    rw [Finset.sum_comm]
    refine Finset.sum_congr rfl fun j _ => Finset.sum_congr rfl fun k _ => by ring
  rw [this, Finset.sum_eq_single d]
  · rw [hw d hd, if_pos rfl]
    field_simp
  · intro j hj hjd
    rw [hw j (Finset.mem_range.mp hj), if_neg hjd, mul_zero]
  · intro h; exact absurd (Finset.mem_range.mpr hd) h

open Polynomial in
theorem derivative_poly_one (P : ℝ[X]) (hP : P.natDegree ≤ 10) (x : ℝ) :
    derivative weights1 1 (fun x => P.eval x) x 0.1 = P.derivative.eval x := by
  rw [derivative_poly weights1 P hP x 0.1 (by norm_num) 1 (by norm_num) 1 fun j hj => (weights_moments j hj).1, one_mul,
    taylor_coeff_one]

open Polynomial in
theorem derivative_poly_two (P : ℝ[X]) (hP : P.natDegree ≤ 10) (x : ℝ) :
    derivative weights2 2 (fun x => P.eval x) x 0.1 = P.derivative.derivative.eval x := by
  rw [derivative_poly weights2 P hP x 0.1 (by norm_num) 2 (by norm_num) 2 fun j hj => (weights_moments j hj).2, taylor_coeff]
  have h := factorial_smul_hasseDeriv (R := ℝ) (k := 2)
  have h2 : (2 : ℝ[X]) * hasseDeriv 2 P = P.derivative.derivative := by
    have := congrFun h P
    simpa using this
  rw [← h2, eval_mul]
  simp

open Polynomial in
/-- C66: for every index that is a polynomial of degree at most 10 in the wavelength, the group velocity is
`c/(n - wl*dn/dwl)` and the delay is the difference of the transit times. -/
theorem C66_group_velocity (P : ℝ[X]) (hP : P.natDegree ≤ 10) (len wl1 wl2 : ℝ) :
    groupVelocity (fun x => P.eval x) wl1 = cNmPs / (P.eval wl1 - wl1 * P.derivative.eval wl1) ∧
    pulseDelay (fun x => P.eval x) len wl1 wl2 = len * 1e9 / cNmPs *
      ((P.eval wl1 - wl1 * P.derivative.eval wl1) - (P.eval wl2 - wl2 * P.derivative.eval wl2)) := by
  have hg : ∀ wl, groupVelocity (fun x => P.eval x) wl = 1 / (1 / cNmPs * (P.eval wl - wl * P.derivative.eval wl)) := by
    intro wl
    unfold groupVelocity
    rw [derivative_poly_one P hP]
  constructor
  · rw [hg, one_div, mul_inv, one_div, inv_inv, div_eq_mul_inv]
  · unfold pulseDelay
    simp only [hg]
    rw [div_div_eq_mul_div, div_div_eq_mul_div]
    ring

open Polynomial in
/-- C66, sign of the dispersion: for these indices the code's D is minus the derivative of the inverse group velocity
(in ps/nm/km, that derivative times 1e12). -/
theorem C66_sign_refuted (P : ℝ[X]) (hP : P.natDegree ≤ 10) (wl : ℝ) :
    HasDerivAt (fun l => 1 / groupVelocity (fun x => P.eval x) l) (-(dispersionD (fun x => P.eval x) wl / 1e12)) wl ∧
    (wl ≠ 0 → P.derivative.derivative.eval wl ≠ 0 →
      dispersionD (fun x => P.eval x) wl / 1e12 ≠ deriv (fun l => 1 / groupVelocity (fun x => P.eval x) l) wl) := by
  have hg : (fun l => 1 / groupVelocity (fun x => P.eval x) l) = fun l => 1 / cNmPs * (P.eval l - l * P.derivative.eval l) := by
    funext l
    unfold groupVelocity
    rw [derivative_poly_one P hP, one_div_one_div]
  have hD : dispersionD (fun x => P.eval x) wl / 1e12 = wl / cNmPs * P.derivative.derivative.eval wl := by
    unfold dispersionD
    rw [derivative_poly_two P hP]
    field_simp
  have hd : HasDerivAt (fun l => 1 / groupVelocity (fun x => P.eval x) l) (-(dispersionD (fun x => P.eval x) wl / 1e12)) wl := by
    rw [hg, hD]
    have h1 := P.hasDerivAt wl
    have h2 := P.derivative.hasDerivAt wl
    have h3 := ((h1.sub ((hasDerivAt_id wl).mul h2)).const_mul (1 / cNmPs))
    refine h3.congr_deriv ?_
    simp only [id, Pi.sub_apply, one_mul]
    ring
  refine ⟨hd, fun h0 h2 => ?_⟩
  rw [hd.deriv, hD]
  intro h
  have hc : cNmPs ≠ 0 := by unfold cNmPs cMks; norm_num
  have : wl / cNmPs * P.derivative.derivative.eval wl ≠ 0 := mul_ne_zero (div_ne_zero h0 hc) h2
  apply this
  linarith

/-- C66: `calculate_D_fs_um_mm`, in femtoseconds per micrometre and millimetre, is the same quantity as
`calculate_D_ps_nm_km`, in picoseconds per nanometre and kilometre. -/
theorem C66_units (fn : ℝ → ℝ) (wl : ℝ) :
    dispersionDfs fn wl * (10 ^ (-15 : ℤ) / (10 ^ (-6 : ℤ) * 10 ^ (-3 : ℤ))) =
      dispersionD fn wl * (10 ^ (-12 : ℤ) / (10 ^ (-9 : ℤ) * 10 ^ (3 : ℤ))) := by
  rw [dispersionDfs]
  norm_num

open Polynomial in
/-- C66: an index with non-zero second derivative. -/
theorem C66_nonvacuous : ((X : ℝ[X]) ^ 2).natDegree ≤ 10 ∧ ((X : ℝ[X]) ^ 2).derivative.derivative.eval 1000 ≠ 0 := by
  constructor
  · rw [natDegree_X_pow]; norm_num
  · simp

/-! ## C88, C89: defaults that do not work -/

/-- C88 refuted: `calculate_group_velocity_nm_ps(wl)` with the default axis raises `ValueError` for every AgGaSe2 crystal
and wavelength, although `get_pulse_n` with the default axis works. -/
theorem C88_default_axis_refuted (b : Biref) (wl : ℝ) (hash : String) (grid : Vec ℝ) :
    b.groupVelocity wl = .error .ValueError ∧
    (getPulseN (b.idx false) hash grid none fun _ => none).1 = .ok ((List.ofFn grid.val).map fun x => mixIndex b.theta (b.no x) (b.ne x)) := by
  constructor
  · unfold Biref.groupVelocity groupVelocityE
    have h : ∀ x, b.n x none = .error .ValueError := fun x => C63_axis b x none (by simp)
    simp only [h]
    rw [show List.finRange 11 = 0 :: (List.finRange 10).map Fin.succ from List.finRange_succ, List.mapM_cons]
    rfl
  · unfold getPulseN
    simp only [Biref.idx, Bool.false_eq_true, if_false, Idx.array]
    generalize List.ofFn grid.val = l
    induction l with
    | nil => rfl
    | cons a l ih => rw [List.mapM_cons, ih]; rfl

/-- C88, what holds: with axis `'o'` the group velocity is that of the ordinary index. -/
theorem C88_ordinary_partial (b : Biref) (f : ℝ → ℝ) (hf : ∀ x, b.no x = .val (f x)) (wl : ℝ)
    (h : f wl - wl * derivative weights1 1 f wl 0.1 ≠ 0) :
    b.groupVelocity wl (some "o") = .ok (.val (groupVelocity f wl)) := by
  unfold Biref.groupVelocity groupVelocityE
  have hn : ∀ x, b.n x (some "o") = .ok (.val (f x)) := by
    intro x; simp [Biref.n, hf]
  simp only [hn]
  have hm : ∀ (l : List (Fin 11)), (l.mapM fun k : Fin 11 => (Except.ok (NFlt.val (f (wl + ((k : ℕ) - 5 : ℝ) * 0.1))) : Except PyErr NFlt))
      = .ok (l.map fun k : Fin 11 => NFlt.val (f (wl + ((k : ℕ) - 5 : ℝ) * 0.1))) := by
    intro l
    induction l with
    | nil => rfl
    | cons a l ih => rw [List.mapM_cons, ih]; rfl
  rw [hm]
  simp only [except_bind_ok]
  have hs : ∀ l : List (Fin 11), ((l.zip (l.map fun k : Fin 11 => NFlt.val (f (wl + ((k : ℕ) - 5 : ℝ) * 0.1)))).foldr
      (fun ky acc => NFlt.map₂ (fun y acc => weights1 ky.1 * y + acc) ky.2 acc) (.val 0))
      = .val (l.map fun k : Fin 11 => weights1 k * f (wl + ((k : ℕ) - 5 : ℝ) * 0.1)).sum := by
    intro l
    induction l with
    | nil => rfl
    | cons a l ih => rw [List.map_cons, List.zip_cons_cons, List.foldr_cons, ih, List.map_cons, List.sum_cons]; rfl
  rw [hs]
  have hsum : ((List.finRange 11).map fun k : Fin 11 => weights1 k * f (wl + ((k : ℕ) - 5 : ℝ) * 0.1)).sum
      = ∑ k : Fin 11, weights1 k * f (wl + ((k : ℕ) - 5 : ℝ) * 0.1) := by
    rw [← List.ofFn_eq_map, List.sum_ofFn]
  rw [hsum]
  simp only [NFlt.map₂]
  have hc : (1 : ℝ) / cNmPs ≠ 0 := by unfold cNmPs cMks; norm_num
  have hv : 1 / cNmPs * (f wl - wl * ((∑ k : Fin 11, weights1 k * f (wl + ((k : ℕ) - 5 : ℝ) * 0.1)) / 0.1 ^ 1)) ≠ 0 :=
    mul_ne_zero hc h
  rw [if_neg hv]
  rfl

/-- C89 refuted: after `set_pp_chirp` every evaluation of the poling period raises `AttributeError`; the other ways of
setting it work. -/
theorem C89_chirp_refuted (start stop x p : ℝ) (f : ℝ → ℝ) :
    (Pp.chirp start stop).eval x = .error .AttributeError ∧
    (setPp (.tuple p)).eval x = .ok p ∧ (setPp (.fn f)).eval x = .ok (f x) := ⟨rfl, rfl, rfl⟩

/-- C89: `set_pp(calculate_poling_period(..))` gives back the computed period at every position exactly when one of the three wavelengths was `None`; with all three given
it raises `TypeError` at every position. -/
theorem C89_own_period_refuted (n : ℝ → NFlt) (len pump sgnl idlr : Option ℝ) (dkL Λ x : ℝ) (new : Option ℝ)
    (h : polingPeriod n len pump sgnl idlr dkL = .ok (.val Λ, new)) :
    ((pump = none ∨ sgnl = none ∨ idlr = none) → (setPp (periodArg Λ new)).eval x = .ok Λ) ∧
    (¬ (pump = none ∨ sgnl = none ∨ idlr = none) → (setPp (periodArg Λ new)).eval x = .error .TypeError) := by
  obtain ⟨-, P, S, I, np, ns, ni, -, -, -, -, hc⟩ := C61_qpm _ _ _ _ _ _ _ _ h
  rcases hc with ⟨rfl, rfl, rfl, rfl⟩ | ⟨rfl, rfl, rfl, rfl, -⟩ | ⟨rfl, rfl, rfl, rfl, -⟩ | ⟨rfl, rfl, rfl, rfl, -⟩ <;>
    simp [periodArg, setPp, Pp.eval]

/-- beside C89: the same beams, with the idler left out and with the idler given. -/
theorem C89_own_period_nonvacuous : ∃ n Λ new, polingPeriod n none (some 1000) (some 2000) none 3.2 = .ok (.val Λ, new) ∧
    polingPeriod n none (some 1000) (some 2000) (some 2000) 3.2 = .ok (.val Λ, none) ∧ Λ ≠ 0 := by
  refine ⟨_, _, _, C61_nonvacuous, ?_, by norm_num⟩
  have hf : fill (some 1000) (some 2000) (some 2000) = .ok (1000, 2000, 2000, none) := rfl
  unfold polingPeriod
  rw [hf]
  have hpi := pi_ne_zero
  have hd : (2 + 1000 / 1000 : ℝ) * 2 * π / 1000 - (2 + 1000 / 2000) * 2 * π / 2000 - (2 + 1000 / 2000) * 2 * π / 2000 - 0
      = π / 1000 := by ring
  simp only [except_bind_ok, kOf, NFlt.map, NFlt.map₂, pure, Except.pure]
  rw [if_neg (by norm_num), if_neg (by norm_num)]
  simp only [NFlt.map₂]
  rw [hd, if_neg (by positivity)]
  simp only [NFlt.map]
  congr 3
  field_simp
  norm_num

/-! ## C93: AgGaSe2 -/

/-- Bounds for one principal index when every denominator is away from zero. -/
theorem roberts_bounds {A B C D E F G a b c wl M lo hi : ℝ} (h1 : 1000 ≤ wl) (ha : 0 ≤ a) (hb : 0 ≤ b) (hB : 0 ≤ B) (hC : C < 1)
    (hF : 0 ≤ F) (hG : G < 1) (hD : 0 ≤ D) (hE : M < E) (hM : 0 < M) (hc : (wl * 1e-3) ^ c ≤ M) (hlo : 0 ≤ lo) (hhi : 0 < hi)
    (h2 : lo ^ 2 < A - D * M / (E - M)) (h3 : A + B / (1 - C) + F / (1 - G) < hi ^ 2) :
    ∃ x, roberts A B C D E F G a b c wl = .val x ∧ lo < x ∧ x < hi := by
  have hu : (1 : ℝ) ≤ wl * 1e-3 := by norm_num; linarith
  have hu0 : (0 : ℝ) < wl * 1e-3 := by linarith
  have pa := one_le_rpow hu ha
  have pb := one_le_rpow hu hb
  have pc : 0 < (wl * 1e-3) ^ c := rpow_pos_of_pos hu0 c
  have hEc : (wl * 1e-3) ^ c < E := lt_of_le_of_lt hc hE
  have d : 1 - E / (wl * 1e-3) ^ c < 0 := by rw [sub_neg, lt_div_iff₀ pc]; linarith
  have t1 : 0 ≤ B / ((wl * 1e-3) ^ a - C) := div_nonneg hB (by linarith)
  have t1' : B / ((wl * 1e-3) ^ a - C) ≤ B / (1 - C) := div_le_div_of_nonneg_left hB (by linarith) (by linarith)
  have t2 : 0 ≤ F / ((wl * 1e-3) ^ b - G) := div_nonneg hF (by linarith)
  have t2' : F / ((wl * 1e-3) ^ b - G) ≤ F / (1 - G) := div_le_div_of_nonneg_left hF (by linarith) (by linarith)
  have t3 : D / (1 - E / (wl * 1e-3) ^ c) ≤ 0 := div_nonpos_of_nonneg_of_nonpos hD d.le
  have t3' : -(D * M / (E - M)) ≤ D / (1 - E / (wl * 1e-3) ^ c) := by
    have e : D / (1 - E / (wl * 1e-3) ^ c) = -(D * (wl * 1e-3) ^ c / (E - (wl * 1e-3) ^ c)) := by
      have : E - (wl * 1e-3) ^ c ≠ 0 := by linarith
      have h' : (wl * 1e-3) ^ c - E ≠ 0 := by linarith
      rw [show 1 - E / (wl * 1e-3) ^ c = ((wl * 1e-3) ^ c - E) / (wl * 1e-3) ^ c by field_simp, div_div_eq_mul_div,
        ← div_neg, neg_sub]
    rw [e, neg_le_neg_iff]
    apply div_le_div₀
    · positivity
    · exact mul_le_mul_of_nonneg_left hc hD
    · linarith
    · linarith
  have hpos : lo ^ 2 < robertsSq A B C D E F G a b c wl := by unfold robertsSq; simp only; linarith
  have hub : robertsSq A B C D E F G a b c wl < hi ^ 2 := by unfold robertsSq; simp only; linarith
  refine ⟨√(robertsSq A B C D E F G a b c wl), ?_, lt_sqrt_of_sq_lt hpos, (sqrt_lt' hhi).mpr hub⟩
  unfold roberts
  simp only
  rw [if_neg]
  rintro (h | h | h | h | h)
  · linarith
  · linarith
  · linarith
  · linarith
  · nlinarith [sq_nonneg lo]

theorem rpow_small {u c : ℝ} (h1 : 1 ≤ u) (h2 : u ≤ 17) (hc : c ≤ 9 / 4) : u ^ c ≤ 590 := by
  have e1 : u ^ c ≤ u ^ (9 / 4 : ℝ) := rpow_le_rpow_of_exponent_le h1 hc
  have e2 : u ^ (9 / 4 : ℝ) ≤ (17 : ℝ) ^ (9 / 4 : ℝ) := rpow_le_rpow (by linarith) h2 (by norm_num)
  have e3 : (17 : ℝ) ^ (9 / 4 : ℝ) ≤ 590 := by
    have h4 : ((17 : ℝ) ^ (9 / 4 : ℝ)) ^ (4 : ℕ) = 17 ^ (9 : ℕ) := by
      rw [← rpow_natCast, ← rpow_mul (by norm_num), ← rpow_natCast]; norm_num
    by_contra h
    push Not at h
    have : (590 : ℝ) ^ (4 : ℕ) < ((17 : ℝ) ^ (9 / 4 : ℝ)) ^ (4 : ℕ) := by gcongr
    rw [h4] at this
    norm_num at this
  linarith

/-- C93: between 1 and 17 micrometres both principal indices of AgGaSe2 are numbers between 1.9 and 2.8, and so is the
mixed index at every angle. -/
theorem C93_physical (theta wl : ℝ) (h1 : 1000 ≤ wl) (h2 : wl ≤ 17000) :
    ∃ no ne m, (agGaSe2 theta).no wl = .val no ∧ (agGaSe2 theta).ne wl = .val ne ∧ (agGaSe2 theta).n wl = .ok (.val m) ∧
      (1.9 < no ∧ no < 2.8) ∧ (1.9 < ne ∧ ne < 2.8) ∧ (1.9 < m ∧ m < 2.8) := by
  have hu : (1 : ℝ) ≤ wl * 1e-3 := by norm_num; linarith
  have hu2 : wl * 1e-3 ≤ 17 := by norm_num; linarith
  obtain ⟨no, e1, e2, e3⟩ : ∃ x, (agGaSe2 theta).no wl = .val x ∧ 1.9 < x ∧ x < 2.8 :=
    roberts_bounds (M := 590) h1 (by norm_num) (by norm_num) (by norm_num) (by norm_num) (by norm_num) (by norm_num) (by norm_num)
      (by norm_num) (by norm_num) (rpow_small hu hu2 (by norm_num)) (by norm_num) (by norm_num) (by norm_num) (by norm_num)
  obtain ⟨ne, f1, f2, f3⟩ : ∃ x, (agGaSe2 theta).ne wl = .val x ∧ 1.9 < x ∧ x < 2.8 :=
    roberts_bounds (M := 590) h1 (by norm_num) (by norm_num) (by norm_num) (by norm_num) (by norm_num) (by norm_num) (by norm_num)
      (by norm_num) (by norm_num) (rpow_small hu hu2 (by norm_num)) (by norm_num) (by norm_num) (by norm_num) (by norm_num)
  obtain ⟨m, g1, g2, g3⟩ := C63_between (agGaSe2 theta) wl no ne e1 f1 (lt_trans (by norm_num) e2) (lt_trans (by norm_num) f2)
  exact ⟨no, ne, m, e1, f1, g1, ⟨e2, e3⟩, ⟨f2, f3⟩, lt_of_lt_of_le (lt_min e2 f2) g2, lt_of_le_of_lt g3 (max_lt e3 f3)⟩

/-! ## C92: phase-matching bandwidth -/

/-- C92: exchanging signal and idler does not change the phase-matching bandwidth. -/
theorem C92_symmetric (fn : ℝ → ℝ) (pump signal : ℝ) :
    mixBandwidth fn pump (1 / (1 / pump - 1 / signal)) = mixBandwidth fn pump signal := by
  unfold mixBandwidth
  simp only [one_div_one_div, sub_sub_cancel]
  rw [min_comm]

end PyNLO.Xtal
