import Verif.Props.SsfmProp
import Verif.Props.DerivedPulses

/-! # C50: coherence, C51: gain goal, C86: repeatability of the coherence calculation -/

namespace PyNLO

open Complex Ssfm Pulse

/-! ## C50 -/

theorem norm_g12 {x y : ℂ} (hx : x ≠ 0) (hy : y ≠ 0) : ‖g12 x y‖ = 1 := by
  unfold g12
  have hx' : 0 < ‖x‖ := norm_pos_iff.mpr hx
  have hy' : 0 < ‖y‖ := norm_pos_iff.mpr hy
  have hs : Real.sqrt (‖x‖ ^ 2 * ‖y‖ ^ 2) = ‖x‖ * ‖y‖ := by
    rw [← mul_pow, Real.sqrt_sq (by positivity)]
  rw [hs, norm_div, norm_mul, RCLike.norm_conj, norm_real, Real.norm_of_nonneg (by positivity)]
  field_simp

theorem g12_self {x : ℂ} (hx : x ≠ 0) : g12 x x = 1 := by
  unfold g12
  have hx' : 0 < ‖x‖ := norm_pos_iff.mpr hx
  have hs : Real.sqrt (‖x‖ ^ 2 * ‖x‖ ^ 2) = ‖x‖ ^ 2 := by
    rw [← mul_pow, Real.sqrt_sq (by positivity)]; ring
  rw [hs, Complex.conj_mul', ofReal_pow, div_self]
  have : (‖x‖ : ℂ) ≠ 0 := by exact_mod_cast hx'.ne'
  exact pow_ne_zero 2 this

theorem mem_g12Stack {N : ℕ} {E : Fin N → ℂ} {z : ℂ} (h : z ∈ g12Stack E) : ∃ i j, i ≠ j ∧ z = g12 (E i) (E j) := by
  unfold g12Stack at h
  simp only [List.mem_flatMap, List.mem_map, List.mem_filter, List.mem_finRange, true_and, decide_eq_true_eq] at h
  obtain ⟨i, j, hij, rfl⟩ := h
  exact ⟨i, j, hij, rfl⟩

theorem g12Stack_ne_nil {N : ℕ} (hN : 2 ≤ N) (E : Fin N → ℂ) : g12Stack E ≠ [] := by
  intro h
  have : g12 (E ⟨0, by omega⟩) (E ⟨1, by omega⟩) ∈ g12Stack E := by
    unfold g12Stack
    simp only [List.mem_flatMap, List.mem_map, List.mem_filter, List.mem_finRange, true_and, decide_eq_true_eq]
    exact ⟨⟨0, by omega⟩, ⟨1, by omega⟩, by simp, rfl⟩
  rw [h] at this
  simp at this

theorem norm_list_sum_le {l : List ℂ} (h : ∀ z ∈ l, ‖z‖ ≤ 1) : ‖l.sum‖ ≤ l.length := by
  induction l with
  | nil => simp
  | cons z t ih =>
    rw [List.sum_cons, List.length_cons]
    have h1 := h z List.mem_cons_self
    have h2 := ih fun w hw => h w (List.mem_cons_of_mem _ hw)
    push_cast
    linarith [norm_add_le z t.sum]

theorem list_sum_one {l : List ℂ} (h : ∀ z ∈ l, z = 1) : l.sum = l.length := by
  induction l with
  | nil => simp
  | cons z t ih =>
    rw [List.sum_cons, List.length_cons, h z List.mem_cons_self, ih fun w hw => h w (List.mem_cons_of_mem _ hw)]
    push_cast
    ring

/-- C50: whenever `calculate_coherence` returns, then in every bin of every step where all trial spectra are non-zero the value
lies in `[0, 1]`, and it is exactly 1 where all trials coincide. -/
theorem C50_bounds {strF : ℝ → String} {polyfit : Fiber.PolyFit} {spline : Fiber.Spline} {hP : ℝ} {draws : ℕ → (ℕ → ℝ) × (ℕ → ℝ)}
    {o : Obj} {p : Pulse} {F : FibObj} {T : ℕ} {seed : Option ℕ} {ty : String} {N : ℕ} {reload : Bool} {g : Fin p.n → Fin N → ℝ} {l : List Result}
    (h : calculateCoherence strF polyfit spline hP draws o p F T seed ty N reload = some (.ok (g, l))) (k : Fin p.n) (i : Fin N)
    (h0 : ∀ r ∈ l, r.entry k i ≠ 0) :
    0 ≤ g k i ∧ g k i ≤ 1 ∧ ((∀ r ∈ l, ∀ r' ∈ l, r.entry k i = r'.entry k i) → g k i = 1) := by
  unfold calculateCoherence at h
  rcases ht : trials strF polyfit spline hP draws ty N p T 0 o F with _ | e | l'
  · rw [ht] at h; simp at h
  · rw [ht] at h; simp at h
  rw [ht] at h
  simp only at h
  by_cases hl : l'.length < 2
  · rw [if_pos hl] at h; simp at h
  rw [if_neg hl] at h
  simp only [Option.some.injEq, Except.ok.injEq, Prod.mk.injEq] at h
  obtain ⟨hg, rfl⟩ := h
  rw [← hg]
  simp only
  have hne := g12Stack_ne_nil (by omega : 2 ≤ l'.length) fun t : Fin l'.length => l'[t].entry k i
  have hmem := fun z => mem_g12Stack (E := fun t : Fin l'.length => l'[t].entry k i) (z := z)
  generalize g12Stack (fun t : Fin l'.length => l'[t].entry k i) = st at hne hmem
  have hpos : (0 : ℝ) < st.length := by
    have := List.length_pos_iff.mpr hne
    exact_mod_cast this
  refine ⟨norm_nonneg _, ?_, ?_⟩
  · rw [norm_div, Complex.norm_natCast, div_le_one hpos]
    refine norm_list_sum_le fun z hz => ?_
    obtain ⟨a, b, -, rfl⟩ := hmem z hz
    exact (norm_g12 (h0 _ (List.getElem_mem _)) (h0 _ (List.getElem_mem _))).le
  · intro hall
    have : st.sum = st.length := by
      refine list_sum_one fun z hz => ?_
      obtain ⟨a, b, -, rfl⟩ := hmem z hz
      have e : l'[a].entry k i = l'[b].entry k i := hall _ (List.getElem_mem a.isLt) _ (List.getElem_mem b.isLt)
      rw [e]
      exact g12_self (h0 _ (List.getElem_mem b.isLt))
    have hc : (st.length : ℂ) ≠ 0 := by exact_mod_cast hpos.ne'
    rw [this, div_self hc, norm_one]

theorem sum_flatMap {α : Type*} (l : List α) (f : α → List ℂ) : (l.flatMap f).sum = (l.map fun x => (f x).sum).sum := by
  induction l with
  | nil => simp
  | cons a t ih => simp [ih]

/-- C50: the value returned for bin `k` of step `i`, from the `AW` arrays of the trials: the modulus of the mean over all ordered pairs of
different trials of `E₁* E₂ / √(|E₁|²|E₂|²)`. -/
theorem C50_value {strF : ℝ → String} {polyfit : Fiber.PolyFit} {spline : Fiber.Spline} {hP : ℝ} {draws : ℕ → (ℕ → ℝ) × (ℕ → ℝ)}
    {o : Obj} {p : Pulse} {F : FibObj} {T : ℕ} {seed : Option ℕ} {ty : String} {N : ℕ} {reload : Bool} {g : Fin p.n → Fin N → ℝ} {l : List Result}
    (h : calculateCoherence strF polyfit spline hP draws o p F T seed ty N reload = some (.ok (g, l))) (k : Fin p.n) (i : Fin N)
    {A : Fin l.length → Fin p.n → ℂ} (hA : ∀ t : Fin l.length, l[t].AW[(i : ℕ)]? = some ⟨p.n, A t⟩) :
    g k i = ‖(∑ t, ∑ u ∈ Finset.univ.filter (fun u => t ≠ u), (starRingEnd ℂ) (A t k) * A u k / (Real.sqrt (‖A t k‖ ^ 2 * ‖A u k‖ ^ 2) : ℂ)) /
      ((l.length * (l.length - 1) : ℕ) : ℂ)‖ := by
  unfold calculateCoherence at h
  rcases ht : trials strF polyfit spline hP draws ty N p T 0 o F with _ | e | l'
  · rw [ht] at h; simp at h
  · rw [ht] at h; simp at h
  rw [ht] at h
  simp only at h
  by_cases hl : l'.length < 2
  · rw [if_pos hl] at h; simp at h
  rw [if_neg hl] at h
  simp only [Option.some.injEq, Except.ok.injEq, Prod.mk.injEq] at h
  obtain ⟨hg, rfl⟩ := h
  rw [← hg]
  have he : ∀ t : Fin l'.length, l'[t].entry k i = A t k := by
    intro t
    unfold Result.entry
    rw [hA t]
    simp
  simp only [he]
  have hfs : ∀ t : Fin l'.length, (((List.finRange l'.length).filter fun j => decide (t ≠ j)).map fun j => g12 (A t k) (A j k)).sum =
      ∑ u ∈ Finset.univ.filter (fun u => t ≠ u), g12 (A t k) (A u k) := by
    intro t
    rw [← List.sum_toFinset _ ((List.nodup_finRange _).filter _)]
    congr 1
    ext u
    simp
  have hlen : ∀ t : Fin l'.length, (((List.finRange l'.length).filter fun j => decide (t ≠ j)).map fun j => g12 (A t k) (A j k)).length =
      l'.length - 1 := by
    intro t
    rw [List.length_map, ← List.toFinset_card_of_nodup ((List.nodup_finRange _).filter _)]
    have : ((List.finRange l'.length).filter fun j => decide (t ≠ j)).toFinset = Finset.univ.erase t := by
      ext u
      rw [List.mem_toFinset, List.mem_filter, Finset.mem_erase]
      simp only [List.mem_finRange, true_and, decide_eq_true_eq, Finset.mem_univ, and_true]
      exact ne_comm
    rw [this, Finset.card_erase_of_mem (Finset.mem_univ _)]
    simp
  unfold g12Stack
  rw [sum_flatMap, List.length_flatMap]
  simp only [hfs, hlen]
  rw [← Fin.sum_univ_def, ← Fin.sum_univ_def]
  simp only [Finset.sum_const, Finset.card_univ, Fintype.card_fin, smul_eq_mul]
  rfl

theorem trials_length {strF : ℝ → String} {polyfit : Fiber.PolyFit} {spline : Fiber.Spline} {hP : ℝ} {draws : ℕ → (ℕ → ℝ) × (ℕ → ℝ)}
    {p : Pulse} {ty : String} {N : ℕ} : ∀ (m i : ℕ) (o : Obj) (F : FibObj) (l : List Result),
    trials strF polyfit spline hP draws ty N p m i o F = some (.ok l) → l.length = m := by
  intro m
  induction m with
  | zero =>
    intro i o F l h
    unfold trials at h
    simp only [Option.some.injEq, Except.ok.injEq] at h
    rw [← h]; rfl
  | succ m ih =>
    intro i o F l h
    unfold trials at h
    rcases hc : createClonedPulse p with e | q
    · rw [hc] at h; simp at h
    rw [hc] at h
    simp only at h
    rcases hn : addNoise strF hP (draws i).1 (draws i).2 ty q with ⟨e | u, q'⟩
    · rw [hn] at h; simp at h
    rw [hn] at h
    simp only at h
    rcases hp : propagate polyfit spline o q' F N false with _ | e | ⟨r, o', F'⟩
    · rw [hp] at h; simp at h
    · rw [hp] at h; simp at h
    rw [hp] at h
    simp only at h
    rcases ht : trials strF polyfit spline hP draws ty N p m (i + 1) o' F' with _ | e | l'
    · rw [ht] at h; simp at h
    · rw [ht] at h; simp at h
    rw [ht] at h
    simp only [Option.some.injEq, Except.ok.injEq] at h
    rw [← h, List.length_cons, ih _ _ _ _ ht]

/-- C50: with fewer than two trials the call never returns a result: whenever the trials themselves succeed it raises `UnboundLocalError`. -/
theorem C50_too_few (strF : ℝ → String) (polyfit : Fiber.PolyFit) (spline : Fiber.Spline) (hP : ℝ) (draws : ℕ → (ℕ → ℝ) × (ℕ → ℝ))
    (o : Obj) (p : Pulse) (F : FibObj) {T : ℕ} (hT : T < 2) (seed : Option ℕ) (ty : String) (N : ℕ) (reload : Bool) :
    (∀ x, calculateCoherence strF polyfit spline hP draws o p F T seed ty N reload ≠ some (.ok x)) ∧
    (∀ l, trials strF polyfit spline hP draws ty N p T 0 o F = some (.ok l) →
      calculateCoherence strF polyfit spline hP draws o p F T seed ty N reload = some (.error .UnboundLocalError)) := by
  have key : ∀ l, trials strF polyfit spline hP draws ty N p T 0 o F = some (.ok l) →
      calculateCoherence strF polyfit spline hP draws o p F T seed ty N reload = some (.error .UnboundLocalError) := by
    intro l h
    unfold calculateCoherence
    rw [h]
    simp only
    rw [if_pos (by rw [trials_length _ _ _ _ _ h]; exact hT)]
  refine ⟨fun x hx => ?_, key⟩
  rcases ht : trials strF polyfit spline hP draws ty N p T 0 o F with _ | e | l'
  · unfold calculateCoherence at hx; rw [ht] at hx; simp at hx
  · unfold calculateCoherence at hx; rw [ht] at hx; simp at hx
  · rw [key l' ht] at hx; simp at hx

/-- absolute angular frequency of a bin in SI units -/
noncomputable def binW (p : Pulse) (k : ℕ) : ℝ :=
  (2 * Real.pi * (-(p.n : ℝ) / 2 + (k : ℕ)) / (p.n * (p.tw / p.n)) + 2 * Real.pi * p.cf) * 10 ^ 12

/-- a noisy copy of a pulse -/
theorem noisy_clone (strF : ℝ → String) (hP : ℝ) {p : Pulse} {a : Fin p.n → ℂ} (hp : Holds p a) (hcf : p.cf ≠ 0) (hn : 2 ≤ p.n) :
    ∃ c, createClonedPulse p = .ok c ∧ ∀ rnd ph : ℕ → ℝ, ∃ q, addNoise strF hP rnd ph "one_photon_freq" c = (.ok (), q) ∧
      q.n = p.n ∧ q.cf = p.cf ∧ q.tw = p.tw ∧ Holds q (fun k : Fin p.n => a k + Spec.shotNoise true hP
        (|binW p 1 - binW p 0| / (2 * Real.pi)) (binW p k / (2 * Real.pi)) (rnd k) (ph k) (a k)) := by
  refine ⟨_, clone_explicit hp hcf, fun rnd ph => ?_⟩
  have hw := W_mks_miss (strF := strF) (p := { init none none with n := p.n, tw := p.tw, cf := p.cf, ready := true, frep := p.frep, aw := some ⟨p.n, a⟩ }) rfl
    (by simp [init, Pulse.blank])
  have key := C26_add_noise (strF := strF) (p := { init none none with n := p.n, tw := p.tw, cf := p.cf, ready := true, frep := p.frep, aw := some ⟨p.n, a⟩ })
    (n := p.n) (a := a) (w := fun k => binW p k) ?h1 hn hw (W_mks_hit rfl rfl) hP rnd ph "one_photon_freq"
  case h1 => exact ⟨rfl, rfl, hp.pos, rfl⟩
  refine ⟨_, key.2 true rfl, rfl, rfl, rfl, rfl, rfl, hp.pos, rfl⟩

/-- all trials through a generated fibre return -/
theorem trials_return (strF : ℝ → String) (polyfit : Fiber.PolyFit) (spline : Fiber.Spline) (hP : ℝ) (draws : ℕ → (ℕ → ℝ) × (ℕ → ℝ))
    {p : Pulse} {a : Fin p.n → ℂ} (hp : Holds p a) (hcf : p.cf ≠ 0) (hn : 2 ≤ p.n) {length wl gamma gain : ℝ} {b : Vec ℝ} {units label : String}
    (hwl : wl ≠ 0) (hL : 0 < length) {N : ℕ} (hN : 1 ≤ N) : ∀ (m i : ℕ) (o : Obj), (o.disableRaman = true ∨ o.tau1 * o.tau2 ^ 2 ≠ 0) →
    0 < o.dz → 0 < o.dzMin → 0 < o.eta → ∃ l, trials strF polyfit spline hP draws "one_photon_freq" N p m i o
      ⟨Fiber.genFib length wl b gamma gain units label Fiber.Fib.new, Fiber.genSpecs gain⟩ = some (.ok l) := by
  obtain ⟨c, hc, hq⟩ := noisy_clone strF hP hp hcf hn
  intro m
  induction m with
  | zero => intro i o _ _ _ _; exact ⟨[], rfl⟩
  | succ m ih =>
    intro i o ht hdz hmin heta
    obtain ⟨q, q1, q2, q3, -, q5⟩ := hq (draws i).1 (draws i).2
    have q6 : ∃ b : Fin q.n → ℂ, Holds q b := by rw [q2]; exact ⟨_, q5⟩
    obtain ⟨a', q6⟩ := q6
    obtain ⟨r, o', h1, h2, h3⟩ := generated_returns polyfit spline o q6 (by rw [q3]; exact hcf) (by rw [q2]; exact hn)
      (gamma := gamma) (gain := gain) (b := b) (units := units) (label := label) hwl hL hN ht hdz hmin heta
    obtain ⟨l, hl⟩ := ih (i + 1) o' (by rw [h2]; exact ht) h3 (by rw [h2]; exact hmin) (by rw [h2]; exact heta)
    refine ⟨r :: l, ?_⟩
    unfold trials
    simp only [hc, q1, h1, hl]

/-- C50 is not vacuous: with default settings the calculation returns for every number of trials from two on, all draws, every field on a
grid of at least two points and every generated fibre of positive length. -/
theorem C50_nonvacuous (strF : ℝ → String) (polyfit : Fiber.PolyFit) (spline : Fiber.Spline) (hP : ℝ) (draws : ℕ → (ℕ → ℝ) × (ℕ → ℝ))
    {p : Pulse} {a : Fin p.n → ℂ} (hp : Holds p a) (hcf : p.cf ≠ 0) (hn : 2 ≤ p.n) {length wl gamma gain : ℝ} {b : Vec ℝ} {units label : String}
    (hwl : wl ≠ 0) (hL : 0 < length) {N : ℕ} (hN : 1 ≤ N) {T : ℕ} (hT : 2 ≤ T) (seed : Option ℕ) (reload : Bool) :
    ∃ g l, calculateCoherence strF polyfit spline hP draws Obj.default p ⟨Fiber.genFib length wl b gamma gain units label Fiber.Fib.new, Fiber.genSpecs gain⟩
      T seed "one_photon_freq" N reload = some (.ok (g, l)) := by
  obtain ⟨l, h⟩ := trials_return strF polyfit spline hP draws hp hcf hn (gamma := gamma) (gain := gain) (b := b) (units := units) (label := label) hwl hL hN T 0
    Obj.default (Or.inr (by norm_num [Obj.default])) (by norm_num [Obj.default]) (by norm_num [Obj.default]) (by norm_num [Obj.default])
  unfold calculateCoherence
  rw [h]
  simp only
  rw [if_neg (by rw [trials_length _ _ _ _ _ h]; omega)]
  exact ⟨_, _, rfl⟩

/-! ## C86 -/

/-- two points, window 1 ps, centre 1 THz, dark -/
noncomputable def darkPulse : Pulse := { gridPulse 2 with aw := some ⟨2, fun _ => 0⟩ }

theorem dark_holds : Holds darkPulse (fun _ : Fin 2 => (0 : ℂ)) := ⟨rfl, rfl, by norm_num, rfl⟩

/-- the linear fibre of the counterexample -/
noncomputable def linFib : FibObj := ⟨Fiber.genFib 1 1 ⟨1, fun _ => 1⟩ 0 0 "" "" Fiber.Fib.new, Fiber.genSpecs 0⟩

/-- spectrum of the first result in bin 1, for given draws of the first trial -/
theorem first_trial (strF : ℝ → String) (polyfit : Fiber.PolyFit) (spline : Fiber.Spline) (hP : ℝ) (draws : ℕ → (ℕ → ℝ) × (ℕ → ℝ)) :
    ∃ (r : Result) (l : List Result) (D : ℂ), trials strF polyfit spline hP draws "one_photon_freq" 1 darkPulse 2 0 Obj.default linFib = some (.ok (r :: l)) ∧
      D ≠ 0 ∧ ∃ v : Fin 2 → ℂ, r.out.AW = .ok ⟨2, v⟩ ∧ v 1 = D * Spec.shotNoise true hP (|binW darkPulse 1 - binW darkPulse 0| / (2 * Real.pi))
        (binW darkPulse 1 / (2 * Real.pi)) ((draws 0).1 1) ((draws 0).2 1) 0 := by
  obtain ⟨l, h⟩ := trials_return strF polyfit spline hP draws dark_holds (by simp [darkPulse, gridPulse, Pulse.blank]) (le_refl 2)
    (gamma := 0) (gain := 0) (b := ⟨1, fun _ => 1⟩) (units := "") (label := "") (wl := 1) one_ne_zero one_pos (le_refl 1) 2 0
    Obj.default (Or.inr (by norm_num [Obj.default])) (by norm_num [Obj.default]) (by norm_num [Obj.default]) (by norm_num [Obj.default])
  have h' := h
  obtain ⟨c, hc, hq⟩ := noisy_clone strF hP dark_holds (by simp [darkPulse, gridPulse, Pulse.blank]) (le_refl 2)
  obtain ⟨q, q1, q2, q3, q4, q5⟩ := hq (draws 0).1 (draws 0).2
  unfold trials at h'
  rw [hc] at h'
  simp only at h'
  rw [q1] at h'
  simp only at h'
  rcases hpr : propagate polyfit spline Obj.default q ⟨Fiber.genFib 1 1 ⟨1, fun _ => 1⟩ 0 0 "" "" Fiber.Fib.new, Fiber.genSpecs 0⟩ 1 false with _ | e | ⟨r, o', F'⟩
  · rw [hpr] at h'; simp at h'
  · rw [hpr] at h'; simp at h'
  rw [hpr] at h'
  simp only at h'
  rcases ht : trials strF polyfit spline hP draws "one_photon_freq" 1 darkPulse 1 (0 + 1) o' F' with _ | e | l'
  · rw [ht] at h'; simp at h'
  · rw [ht] at h'; simp at h'
  rw [ht] at h'
  simp only [Option.some.injEq, Except.ok.injEq] at h'
  rw [← h'] at h
  have hgen : ∀ (n : ℕ) (a : Fin n → ℂ), q.n = n → n = 2 → Holds q a → ∃ (D : Fin n → ℂ), (∀ k, D k ≠ 0) ∧ r.out.AW = .ok ⟨n, fun k => D k * a k⟩ := by
    intro n a hn h2 hH
    subst hn
    obtain ⟨α, β, hb⟩ := getBetas_gvd polyfit spline (s := Fiber.genSpecs 0) (p := q) 0
      (f := Fiber.genFib 1 1 ⟨1, fun _ => 1⟩ 0 0 "" "" Fiber.Fib.new) hH.ready (by omega) rfl rfl rfl rfl one_ne_zero
    obtain ⟨D, b, B, g, G, -, -, -, -, -, hAW⟩ := C41_propagate hpr hH (by omega) rfl one_pos
      (by intro f hf; simp only at hf; rw [hb] at hf; rw [← hf]; rfl) rfl (by norm_num [Obj.default]) (by norm_num [Obj.default]) (by norm_num [Obj.default])
      (by norm_num [Obj.default])
    exact ⟨_, fun k => Complex.exp_ne_zero _, hAW⟩
  obtain ⟨D, hD, hAW⟩ := hgen 2 _ q2 rfl q5
  refine ⟨r, l', D 1, h, hD 1, _, hAW, ?_⟩
  rw [zero_add]
  rfl

/-- C86 fails: `random_seed` has no effect.  Two calls with the same arguments, including the same `random_seed`, return different results
when the global generator is in different states. -/
theorem C86_seed_refuted (strF : ℝ → String) (polyfit : Fiber.PolyFit) (spline : Fiber.Spline) {hP : ℝ} (hP0 : hP ≠ 0) (seed : ℕ) :
    ∃ (d0 d1 : ℕ → (ℕ → ℝ) × (ℕ → ℝ)) (g0 g1 : Fin darkPulse.n → Fin 1 → ℝ) (l0 l1 : List Result),
      calculateCoherence strF polyfit spline hP d0 Obj.default darkPulse linFib 2 (some seed) "one_photon_freq" 1 false = some (.ok (g0, l0)) ∧
      calculateCoherence strF polyfit spline hP d1 Obj.default darkPulse linFib 2 (some seed) "one_photon_freq" 1 false = some (.ok (g1, l1)) ∧
      l0 ≠ l1 := by
  have run : ∀ d, ∃ (g : Fin darkPulse.n → Fin 1 → ℝ) (r : Result) (l : List Result) (D : ℂ),
      calculateCoherence strF polyfit spline hP d Obj.default darkPulse linFib 2 (some seed) "one_photon_freq" 1 false = some (.ok (g, r :: l)) ∧
      D ≠ 0 ∧ ∃ v : Fin 2 → ℂ, r.out.AW = .ok ⟨2, v⟩ ∧ v 1 = D * Spec.shotNoise true hP (|binW darkPulse 1 - binW darkPulse 0| / (2 * Real.pi))
        (binW darkPulse 1 / (2 * Real.pi)) ((d 0).1 1) ((d 0).2 1) 0 := by
    intro d
    obtain ⟨r, l, D, h, hD, hv⟩ := first_trial strF polyfit spline hP d
    unfold calculateCoherence
    rw [h]
    simp only
    rw [if_neg (by rw [trials_length _ _ _ _ _ h]; omega)]
    exact ⟨_, r, l, D, rfl, hD, hv⟩
  obtain ⟨g0, r0, l0, D0, h0, -, v0, e0, f0⟩ := run fun _ => (fun _ => 0, fun _ => 0)
  obtain ⟨g1, r1, l1, D1, h1, hD1, v1, e1, f1⟩ := run fun _ => (fun _ => 1, fun _ => 0)
  refine ⟨_, _, g0, g1, r0 :: l0, r1 :: l1, h0, h1, ?_⟩
  intro heq
  have hr : r0 = r1 := (List.cons.inj heq).1
  rw [hr, e1] at e0
  have hv : v1 = v0 := eq_of_heq (Vec.mk.inj (Except.ok.inj e0)).2
  rw [← hv, f1] at f0
  have hz : Spec.shotNoise true hP (|binW darkPulse 1 - binW darkPulse 0| / (2 * Real.pi)) (binW darkPulse 1 / (2 * Real.pi)) 0 0 0 = 0 := by
    simp [Spec.shotNoise]
  simp only at f0
  rw [hz, mul_zero] at f0
  have hpi := Real.pi_pos
  have hb1 : binW darkPulse 1 = 2 * Real.pi * 10 ^ 12 := by
    unfold binW
    simp [darkPulse, gridPulse, Pulse.blank]
  have hb0 : binW darkPulse 0 = 0 := by
    unfold binW
    simp [darkPulse, gridPulse, Pulse.blank]
  rcases mul_eq_zero.mp f0 with h | h
  · exact hD1 h
  · rw [hb1, hb0] at h
    unfold Spec.shotNoise at h
    simp only [if_true, ofReal_one, one_mul] at h
    rcases mul_eq_zero.mp h with h | h
    · have h' : hP * (2 * Real.pi * 10 ^ 12 / (2 * Real.pi)) * (|2 * Real.pi * 10 ^ 12 - 0| / (2 * Real.pi)) = 0 := by exact_mod_cast h
      rw [sub_zero, abs_of_pos (by positivity)] at h'
      have : (2 * Real.pi * 10 ^ 12 / (2 * Real.pi)) = 10 ^ 12 := by field_simp
      rw [this] at h'
      simp at h'
      exact hP0 h'
    · exact Complex.exp_ne_zero _ h

/-! ## C51 -/

/-- C51 fails: `propagate_to_gain_goal` never returns a result, for any pulse, fibre and goal … -/
theorem C51_never_returns_refuted (polyfit : Fiber.PolyFit) (spline : Fiber.Spline) (o : Obj) (p : Pulse) (F : FibObj) (N : ℕ) (goal : ℝ) (guess : Option ℝ)
    (tol : ℝ) (x : Result × ℝ) : gainGoal polyfit spline o p F N goal guess tol ≠ some (.ok x) := by
  unfold gainGoal
  rcases propagate polyfit spline o p F 1 false with _ | e | r <;> simp

/-- … and where the propagation itself works it raises `AttributeError`. -/
theorem C51_raises (polyfit : Fiber.PolyFit) (spline : Fiber.Spline) {p : Pulse} {a : Fin p.n → ℂ} (hp : Holds p a) (hcf : p.cf ≠ 0)
    (hn : 2 ≤ p.n) {length wl gamma gain : ℝ} {b : Vec ℝ} {units label : String} (hwl : wl ≠ 0) (hL : 0 < length) (N : ℕ) (goal : ℝ) (guess : Option ℝ) (tol : ℝ) :
    gainGoal polyfit spline Obj.default p ⟨Fiber.genFib length wl b gamma gain units label Fiber.Fib.new, Fiber.genSpecs gain⟩ N goal guess tol =
      some (.error .AttributeError) := by
  obtain ⟨r, o', F', h⟩ := C43_nonvacuous polyfit spline hp hcf hn (gamma := gamma) (gain := gain) (b := b) (units := units) (label := label) hwl hL (le_refl 1)
  unfold gainGoal
  rw [h]

end PyNLO
