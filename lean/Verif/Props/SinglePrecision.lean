import Verif.Lemmas.SingleCoherence
import Verif.Props.SelfPhase
import Verif.Props.Coherence

/-!
# C154, C155: the arrays `propagate` returns and the coherence computed from them

The fields are computed as `complex128` (here exactly); `propagate` stores them as `complex64`, and `calculate_coherence` computes with the stored
arrays.
-/

namespace PyNLO

open Complex Pulse PyM Ssfm Single

/-! ## C154 -/

/-- `z` as it would be returned without loss -/
def Spec.exactly (z : ℂ) (w : Cplx) : Prop := w = ⟨.val z.re, .val z.im⟩

/-- `w` agrees with `z` to 24 binary digits in either part, or to `2^-150` near zero -/
def Spec.toSingle (z : ℂ) (w : Cplx) : Prop :=
  ∃ a b : ℝ, w = ⟨.val a, .val b⟩ ∧ |a - z.re| ≤ max (2 ^ (-24 : ℤ) * |z.re|) (2 ^ (-150 : ℤ)) ∧ |b - z.im| ≤ max (2 ^ (-24 : ℤ) * |z.im|) (2 ^ (-150 : ℤ))

theorem toSingle_store {z : ℂ} (h1 : |z.re| ≤ 2 ^ 127) (h2 : |z.im| ≤ 2 ^ 127) : Spec.toSingle z (store z) := by
  obtain ⟨a, ha, ea⟩ := round_near h1
  obtain ⟨b, hb, eb⟩ := round_near h2
  exact ⟨a, b, by unfold store; rw [ha, hb], ea, eb⟩

/-- C154: the returned arrays have `n_steps` columns of `NPTS` entries; every entry agrees with the computed field to 24 binary digits in either
part, as long as the parts are at most `2^127`, and exactly where the computed parts need no more digits than a `float32` has.  The last column
of `AT` agrees in the same sense with `pulse_out.AT`. -/
theorem C154_stored {polyfit : Fiber.PolyFit} {spline : Fiber.Spline} {o o' : Obj} {p : Pulse} {F F' : FibObj} {N : ℕ} {reload : Bool} {r : Result}
    (h : propagate polyfit spline o p F N reload = some (.ok (r, o', F'))) {a : Fin p.n → ℂ} (hp : Holds p a) (he : p.n % 2 = 0) :
    r.AT64.length = N ∧ r.AW64.length = N ∧ ∃ v : Fin p.n → ℂ, r.out.AT = .ok ⟨p.n, v⟩ ∧
      (∃ w : Fin p.n → Cplx, r.AT64.getLast? = some ⟨p.n, w⟩ ∧ ∀ j, |(v j).re| ≤ 2 ^ 127 → |(v j).im| ≤ 2 ^ 127 → Spec.toSingle (v j) (w j)) ∧
      ∀ i < N, ∃ (v x : Fin p.n → ℂ) (w y : Fin p.n → Cplx), r.AT[i]? = some ⟨p.n, v⟩ ∧ r.AT64[i]? = some ⟨p.n, w⟩ ∧ r.AW[i]? = some ⟨p.n, x⟩ ∧
        r.AW64[i]? = some ⟨p.n, y⟩ ∧
        (∀ j, |(v j).re| ≤ 2 ^ 127 → |(v j).im| ≤ 2 ^ 127 → Spec.toSingle (v j) (w j)) ∧
        (∀ k, |(x k).re| ≤ 2 ^ 127 → |(x k).im| ≤ 2 ^ 127 → Spec.toSingle (x k) (y k)) ∧
        (∀ j, Representable (v j).re → Representable (v j).im → Spec.exactly (v j) (w j)) ∧
        (∀ k, Representable (x k).re → Representable (x k).im → Spec.exactly (x k) (y k)) := by
  obtain ⟨hN, L, S, P, -, -, -, -, -, -, -, hAT, hlen, hfft, -, hlast, -, -⟩ := C43_bookkeeping h hp he
  have hl : r.AT.length = N := by rw [hAT]; simp
  have exact_store : ∀ z : ℂ, Representable z.re → Representable z.im → Spec.exactly z (store z) := by
    intro z h1 h2
    unfold Spec.exactly store
    rw [round_exact h1, round_exact h2]
  have hATi : ∀ i < N, r.AT[i]? = some ⟨p.n, ifftshift (S (i + 1)).A⟩ := by
    intro i hi
    rw [hAT]
    simp [hi]
  refine ⟨by simp [Result.AT64, hl], by simp [Result.AW64, hlen], ifftshift (S N).A, ?_, ?_, ?_⟩
  · have h1 : r.AT.getLast? = some ⟨p.n, ifftshift (S N).A⟩ := by
      rw [List.getLast?_eq_getElem?, hl, hATi (N - 1) (by omega), Nat.sub_add_cancel hN]
    rw [h1] at hlast
    simpa using hlast.symm
  · refine ⟨fun j => store (ifftshift (S N).A j), ?_, fun j h1 h2 => toSingle_store h1 h2⟩
    rw [List.getLast?_eq_getElem?]
    simp only [Result.AT64, List.length_map, hl, List.getElem?_map, hATi (N - 1) (by omega), Nat.sub_add_cancel hN, Option.map_some, Vec.map_mk]
  · intro i hi
    have hx : ∃ x : Fin p.n → ℂ, r.AW[i]? = some ⟨p.n, x⟩ := by
      have h2 : i < r.AW.length := by omega
      have h1 : i < r.AT.length := by omega
      have e := hfft i h1 h2
      have e1 : r.AT[i] = ⟨p.n, ifftshift (S (i + 1)).A⟩ := by
        have := hATi i hi
        rw [List.getElem?_eq_getElem h1] at this
        exact Option.some.inj this
      rw [e1] at e
      rw [List.getElem?_eq_getElem h2]
      rcases hv : r.AW[i] with ⟨m, x⟩
      rw [hv] at e
      have hm : m = p.n := by
        unfold FFT_t at e
        simp only at e
        split at e
        · cases e
        · injection e with e
          exact (congrArg Vec.len e).symm
      subst hm
      exact ⟨x, rfl⟩
    obtain ⟨x, hx⟩ := hx
    refine ⟨ifftshift (S (i + 1)).A, x, fun j => store (ifftshift (S (i + 1)).A j), fun k => store (x k), hATi i hi, ?_, hx, ?_,
      fun j h1 h2 => toSingle_store h1 h2, fun k h1 h2 => toSingle_store h1 h2, fun j => exact_store _, fun k => exact_store _⟩
    · simp only [Result.AT64, List.getElem?_map, hATi i hi, Option.map_some, Vec.map_mk]
    · simp only [Result.AW64, List.getElem?_map, hx, Option.map_some, Vec.map_mk]

/-- C154, ends of the range: parts of at most `2^-150` are returned as zero, parts of `2^128` and more as infinite. -/
theorem C154_range (z : ℂ) : (|z.re| ≤ 2 ^ (-150 : ℤ) → (store z).re = .val 0) ∧ (2 ^ 128 ≤ |z.re| → (store z).re = .inf (decide (z.re < 0))) ∧
    (|z.im| ≤ 2 ^ (-150 : ℤ) → (store z).im = .val 0) ∧ (2 ^ 128 ≤ |z.im| → (store z).im = .inf (decide (z.im < 0))) :=
  ⟨round_tiny, round_huge, round_tiny, round_huge⟩

/-- the last columns are the field of `pulse_out` -/
theorem last_columns {polyfit : Fiber.PolyFit} {spline : Fiber.Spline} {o o' : Obj} {p : Pulse} {F F' : FibObj} {N : ℕ} {reload : Bool} {r : Result}
    (h : propagate polyfit spline o p F N reload = some (.ok (r, o', F'))) {a : Fin p.n → ℂ} (hp : Holds p a) (he : p.n % 2 = 0)
    {v : Fin p.n → ℂ} (hv : r.out.AW = .ok ⟨p.n, v⟩) : r.AT[N - 1]? = some ⟨p.n, ifftT v⟩ ∧ r.AW[N - 1]? = some ⟨p.n, v⟩ := by
  obtain ⟨hN, L, S, P, -, -, -, -, -, -, -, hAT, hlen, hfft, -, hlast, -, -⟩ := C43_bookkeeping h hp he
  have hpos := hp.pos
  have hl : r.AT.length = N := by rw [hAT]; simp
  have hout : r.out.AT = .ok ⟨p.n, ifftT v⟩ := by
    unfold Pulse.AT
    unfold Pulse.AW at hv
    rcases hw : r.out.aw with _ | w
    · rw [hw] at hv; simp at hv
    · rw [hw] at hv
      simp only [Except.ok.injEq] at hv
      rw [hv]
      unfold IFFT_t
      simp only
      rw [if_neg (by omega)]
  have hA : r.AT[N - 1]? = some ⟨p.n, ifftT v⟩ := by
    rw [hout, List.getLast?_eq_getElem?, hl] at hlast
    rcases hx : r.AT[N - 1]? with _ | x
    · rw [hx] at hlast; simp at hlast
    · rw [hx] at hlast
      simp only [Option.map_some, Option.some.injEq, Except.ok.injEq] at hlast
      rw [hlast]
  refine ⟨hA, ?_⟩
  have h1 : N - 1 < r.AT.length := by omega
  have h2 : N - 1 < r.AW.length := by omega
  have e := hfft (N - 1) h1 h2
  rw [List.getElem?_eq_getElem h1] at hA
  rw [Option.some.inj hA, FFT_t_mk hpos, fftT_ifftT] at e
  rw [List.getElem?_eq_getElem h2, ← Except.ok.inj e]

/-- a pulse with given samples on an even grid: window 1 ps, centre 1 THz -/
noncomputable def sampledPulse (n : ℕ) (A : Fin n → ℂ) : Pulse := { gridPulse n with aw := some ⟨n, fftT A⟩ }

/-- A sample that a `float32` cannot hold. -/
theorem round_lossy : Single.round (1 + 2 ^ (-30 : ℤ)) = .val 1 := by
  have hlog : Int.log 2 |(1 : ℝ) + 2 ^ (-30 : ℤ)| = 0 := by
    have h1 : (1 : ℝ) ≤ |(1 : ℝ) + 2 ^ (-30 : ℤ)| := by rw [abs_of_pos (by positivity)]; norm_num
    rw [Int.log_of_one_le_right 2 h1]
    have : ⌊|(1 : ℝ) + 2 ^ (-30 : ℤ)|⌋₊ = 1 := by
      rw [Nat.floor_eq_iff (abs_nonneg _), abs_of_pos (by positivity)]
      norm_num
    rw [this]
    simp
  have he : expo (1 + 2 ^ (-30 : ℤ)) = -23 := by
    unfold expo
    rw [hlog]
    norm_num
  have hm : pyRound (((1 : ℝ) + 2 ^ (-30 : ℤ)) / 2 ^ (-23 : ℤ)) = 2 ^ 23 := by
    have h := abs_le.1 (pyRound_near (((1 : ℝ) + 2 ^ (-30 : ℤ)) / 2 ^ (-23 : ℤ)))
    set m := pyRound (((1 : ℝ) + 2 ^ (-30 : ℤ)) / 2 ^ (-23 : ℤ)) with hm
    have e : ((1 : ℝ) + 2 ^ (-30 : ℤ)) / 2 ^ (-23 : ℤ) = 8388608 + 1 / 128 := by norm_num
    rw [e] at h
    have h1 : (m : ℝ) < ((8388609 : ℤ) : ℝ) := by push_cast; linarith
    have h2 : ((8388607 : ℤ) : ℝ) < (m : ℝ) := by push_cast; linarith
    have h1' := Int.cast_lt.1 h1
    have h2' := Int.cast_lt.1 h2
    omega
  unfold Single.round nearest
  rw [he, hm]
  norm_num

/-- a fibre without nonlinearity and gain: the spectrum of `pulse_out`, and the last columns, keep their magnitude -/
theorem transparent_run (polyfit : Fiber.PolyFit) (spline : Fiber.Spline) (o : Obj) (ht : o.disableRaman = true ∨ o.tau1 * o.tau2 ^ 2 ≠ 0) (hm : o.method = .rk4ip)
    (hdz : 0 < o.dz) (hmin : 0 < o.dzMin) (heta : 0 < o.eta) (heta1 : o.eta ≠ 1) {p : Pulse} {a : Fin p.n → ℂ} (hp : Holds p a) (hcf : p.cf ≠ 0)
    (hn : 2 ≤ p.n) (he : p.n % 2 = 0) {L wl : ℝ} (hL : 0 < L) (hwl : wl ≠ 0) {b : Vec ℝ} {units label : String} {N : ℕ} (hN : 1 ≤ N) :
    ∃ r o', propagate polyfit spline o p ⟨Fiber.genFib L wl b 0 0 units label Fiber.Fib.new, Fiber.genSpecs 0⟩ N false =
        some (.ok (r, o', ⟨Fiber.genFib L wl b 0 0 units label Fiber.Fib.new, Fiber.genSpecs 0⟩)) ∧
      o' = { o with dz := o'.dz, iter := o'.iter, fR := o'.fR } ∧ 0 < o'.dz ∧
      ∃ (θ : Fin p.n → ℝ), r.out.AW = .ok ⟨p.n, fun k => exp (I * (θ k : ℂ)) * a k⟩ ∧ ((∀ i, b.val i = 0) → ∀ k, θ k = 0) := by
  obtain ⟨r, o', h, ho, hdz'⟩ := generated_returns polyfit spline o hp hcf hn (gamma := 0) (gain := 0) (b := b) (units := units) (label := label) hwl hL hN
    ht hdz hmin heta
  refine ⟨r, o', h, ho, hdz', ?_⟩
  obtain ⟨α, β, hb'⟩ := getBetas_gvd polyfit spline (s := Fiber.genSpecs 0) (p := p) 0 (f := Fiber.genFib L wl b 0 0 units label Fiber.Fib.new) hp.ready hn
    rfl rfl rfl rfl hwl
  obtain ⟨D, b', B, g, G, -, hb, hB, hg, hG, hAW⟩ := C41_propagate h hp he rfl hL
    (by intro f hf; simp only at hf; rw [hb'] at hf; rw [← hf]; rfl) hm hdz hmin heta heta1
  have hg0 : Fiber.getGain (Fiber.genSpecs 0) (Fiber.genFib L wl b 0 0 units label Fiber.Fib.new) p = .ok ⟨p.n, fun _ => 0⟩ :=
    C30_gain p L wl 0 0 b units label Fiber.Fib.new
  rw [hg0] at hg
  rw [← Except.ok.inj hg, fill_mk] at hG
  have hG0 : G = fun _ => 0 := (Except.ok.inj hG).symm
  refine ⟨fun k => D * B k, ?_, ?_⟩
  · rw [hAW]
    congr 2
    funext k
    rw [hG0]
    push_cast
    congr 2
    ring
  · intro hb0 k
    have hfl := getBetas_flat (b := if units = "ps^n/km" then b.map (· * 10 ^ (-3 : ℤ)) else b) polyfit spline
      (s := Fiber.genSpecs 0) (f := Fiber.genFib L wl b 0 0 units label Fiber.Fib.new) 0 hp.ready hn rfl rfl rfl (by
        by_cases hu : units = "ps^n/km"
        · rw [if_pos hu]; exact fun i => mul_eq_zero_of_left (hb0 i) _
        · rw [if_neg hu]; exact hb0) rfl hwl
    simp only at hb
    rw [hfl] at hb
    rw [← Except.ok.inj hb] at hB
    simp only [betaArr, fill_mk] at hB
    have hB0 : B = fun _ => 0 := (Except.ok.inj hB).symm
    show D * B k = 0
    rw [hB0, mul_zero]

/-- C154 fails: with default settings a pulse with samples `1 + 2^-30` passes unchanged through a fibre without dispersion, gain or nonlinearity;
`pulse_out.AT` holds the samples, the last column of the returned array holds `1`. -/
theorem C154_refuted (polyfit : Fiber.PolyFit) (spline : Fiber.Spline) {n : ℕ} (hn : 2 ≤ n) (he : n % 2 = 0) {L wl : ℝ} (hL : 0 < L) (hwl : wl ≠ 0)
    (units label : String) {N : ℕ} (hN : 1 ≤ N) :
    ∃ r o' F', propagate polyfit spline Obj.default (sampledPulse n fun _ => ((1 + 2 ^ (-30 : ℤ) : ℝ) : ℂ))
        ⟨Fiber.genFib L wl ⟨1, fun _ => 0⟩ 0 0 units label Fiber.Fib.new, Fiber.genSpecs 0⟩ N false = some (.ok (r, o', F')) ∧
      r.out.AT = .ok ⟨n, fun _ => ((1 + 2 ^ (-30 : ℤ) : ℝ) : ℂ)⟩ ∧ r.AT64[N - 1]? = some ⟨n, fun _ => ⟨.val 1, .val 0⟩⟩ := by
  set A : Fin n → ℂ := fun _ => ((1 + 2 ^ (-30 : ℤ) : ℝ) : ℂ) with hA
  have hp : Holds (sampledPulse n A) (fftT A) := ⟨rfl, rfl, by omega, rfl⟩
  obtain ⟨r, o', h, -, -, θ, hAW, hθ⟩ := transparent_run polyfit spline Obj.default (Or.inr (by norm_num [Obj.default])) rfl (by norm_num [Obj.default])
    (by norm_num [Obj.default]) (by norm_num [Obj.default]) (by norm_num [Obj.default]) hp (by simp [sampledPulse, gridPulse, Pulse.blank]) hn he hL hwl
    (b := ⟨1, fun _ => 0⟩) (units := units) (label := label) hN
  have hv : r.out.AW = .ok ⟨n, fftT A⟩ := by
    rw [hAW]
    congr 2
    funext k
    rw [hθ (fun _ => rfl) k]
    simp
  have hn0 : n ≠ 0 := by omega
  refine ⟨r, o', _, h, ?_, ?_⟩
  · unfold Pulse.AT
    unfold Pulse.AW at hv
    rcases hw : r.out.aw with _ | w
    · rw [hw] at hv; simp at hv
    · rw [hw] at hv
      simp only [Except.ok.injEq] at hv
      rw [hv]
      unfold IFFT_t
      simp only
      rw [if_neg hn0, ifftT_fftT]
  · obtain ⟨hT, -⟩ := last_columns h hp he hv
    have hT' : r.AT[N - 1]? = some ⟨n, A⟩ := by
      rw [hT]
      show some (⟨n, ifftT (fftT A)⟩ : Vec ℂ) = _
      rw [ifftT_fftT]
    simp only [Result.AT64, List.getElem?_map, hT', Option.map_some, Vec.map_mk]
    congr 2
    funext j
    simp only [hA, store, ofReal_re, ofReal_im, round_lossy, Single.round_zero]

/-! ## C155 -/

/-- Some order of summation exists, for instance from left to right. -/
theorem C155_sum : ∃ sum : List Cplx → Cplx, ∀ l, l ≠ [] → SumsTo l (sum l) := by
  have h : ∀ l : List Cplx, l ≠ [] → ∃ x, SumsTo l x := by
    intro l
    induction l with
    | nil => intro h; exact absurd rfl h
    | cons z l ih =>
      intro _
      rcases l with _ | ⟨y, l⟩
      · exact ⟨z, .one z⟩
      · obtain ⟨x, hx⟩ := ih (by simp)
        exact ⟨_, SumsTo.add (.one z) hx⟩
  classical
  refine ⟨fun l => if hl : l ≠ [] then (h l hl).choose else ⟨.nan, .nan⟩, fun l hl => ?_⟩
  simp only [dif_pos hl]
  exact (h l hl).choose_spec

/-- C155: with `2 ≤ T ≤ 1024` trials, where the magnitudes of all fields lie between `2^-30` and `2^30` the result is a number that differs from the
exact coherence by at most `(41 + 3·T(T-1))·2^-24`, whatever the order of summation; the exact coherence is in `[0, 1]`, and 1 if all trials coincide. -/
theorem C155_accuracy {sum : List Cplx → Cplx} (hsum : ∀ l, l ≠ [] → SumsTo l (sum l)) {strF : ℝ → String} {polyfit : Fiber.PolyFit} {spline : Fiber.Spline}
    {hP : ℝ} {draws : ℕ → (ℕ → ℝ) × (ℕ → ℝ)} {o : Obj} {p : Pulse} {F : FibObj} {T : ℕ} {seed : Option ℕ} {ty : String} {N : ℕ} {reload : Bool}
    {g : Fin p.n → Fin N → Num} {l : List Result}
    (h : calculateCoherenceS sum strF polyfit spline hP draws o p F T seed ty N reload = some (.ok (g, l))) (hT : T ≤ 1024) :
    ∃ e : Fin p.n → Fin N → ℝ, calculateCoherence strF polyfit spline hP draws o p F T seed ty N reload = some (.ok (e, l)) ∧
      ∀ (k : Fin p.n) (i : Fin N), (∀ r ∈ l, 2 ^ (-30 : ℤ) ≤ ‖r.entry k i‖ ∧ ‖r.entry k i‖ ≤ 2 ^ 30) →
        ∃ x, g k i = .val x ∧ |x - e k i| ≤ (41 + 3 * (T * (T - 1) : ℕ)) / 2 ^ 24 ∧ 0 ≤ e k i ∧ e k i ≤ 1 ∧
          ((∀ r ∈ l, ∀ r' ∈ l, r.entry k i = r'.entry k i) → e k i = 1) := by
  have h0 := h
  unfold calculateCoherenceS at h
  rcases ht : trials strF polyfit spline hP draws ty N p T 0 o F with _ | e | l'
  · rw [ht] at h; simp at h
  · rw [ht] at h; simp at h
  rw [ht] at h
  simp only at h
  have hlen := trials_length _ _ _ _ _ ht
  by_cases hl : l'.length < 2
  · rw [if_pos hl] at h; simp at h
  rw [if_neg hl] at h
  simp only [Option.some.injEq, Except.ok.injEq, Prod.mk.injEq] at h
  obtain ⟨hg, rfl⟩ := h
  have hc : calculateCoherence strF polyfit spline hP draws o p F T seed ty N reload = some (.ok (fun k i =>
        let st := g12Stack fun t : Fin l'.length => l'[t].entry k i
        ‖st.sum / (st.length : ℂ)‖, l')) := by
    unfold calculateCoherence
    rw [ht]
    simp only
    rw [if_neg hl]
  refine ⟨_, hc, fun k i hE => ?_⟩
  obtain ⟨x, hx, ex⟩ := coherence_near (by omega : 2 ≤ l'.length) (by omega) (fun t : Fin l'.length => l'[t].entry k i)
    (fun t => (hE _ (List.getElem_mem _)).1) (fun t => (hE _ (List.getElem_mem _)).2) hsum
  obtain ⟨b1, b2, b3⟩ := C50_bounds hc k i (fun r hr => norm_pos_iff.1 (lt_of_lt_of_le (by positivity) (hE r hr).1))
  refine ⟨x, ?_, ?_, b1, b2, b3⟩
  · rw [← hg]
    exact hx
  · have hTT : ((T * (T - 1) : ℕ) : ℝ) = ((l'.length * (l'.length - 1) : ℕ) : ℝ) := by rw [hlen]
    rw [hTT]
    refine ex.trans (le_of_eq ?_)
    norm_num

/-- C155: where two trials have fields of magnitude at most `2^-39` in a bin, the result for this bin is `nan`, whatever the other trials. -/
theorem C155_underflow {sum : List Cplx → Cplx} (hsum : ∀ l, l ≠ [] → SumsTo l (sum l)) {strF : ℝ → String} {polyfit : Fiber.PolyFit} {spline : Fiber.Spline}
    {hP : ℝ} {draws : ℕ → (ℕ → ℝ) × (ℕ → ℝ)} {o : Obj} {p : Pulse} {F : FibObj} {T : ℕ} {seed : Option ℕ} {ty : String} {N : ℕ} {reload : Bool}
    {g : Fin p.n → Fin N → Num} {l : List Result}
    (h : calculateCoherenceS sum strF polyfit spline hP draws o p F T seed ty N reload = some (.ok (g, l))) (k : Fin p.n) (i : Fin N)
    {s t : ℕ} (hs : s < l.length) (ht : t < l.length) (hst : s ≠ t) (h1 : ‖l[s].entry k i‖ ≤ 2 ^ (-39 : ℤ)) (h2 : ‖l[t].entry k i‖ ≤ 2 ^ (-39 : ℤ)) :
    g k i = .nan := by
  unfold calculateCoherenceS at h
  rcases htr : trials strF polyfit spline hP draws ty N p T 0 o F with _ | e | l'
  · rw [htr] at h; simp at h
  · rw [htr] at h; simp at h
  rw [htr] at h
  simp only at h
  by_cases hl : l'.length < 2
  · rw [if_pos hl] at h; simp at h
  rw [if_neg hl] at h
  simp only [Option.some.injEq, Except.ok.injEq, Prod.mk.injEq] at h
  obtain ⟨hg, rfl⟩ := h
  rw [← hg]
  exact coherence_nan (fun t : Fin l'.length => l'[t].entry k i) (s := ⟨s, hs⟩) (t := ⟨t, ht⟩) (by simpa using hst) h1 h2 hsum

/-- the fields of all trials through a linear fibre, one segment: the noisy input up to a phase -/
theorem linear_trials (strF : ℝ → String) (polyfit : Fiber.PolyFit) (spline : Fiber.Spline) (hP : ℝ) (draws : ℕ → (ℕ → ℝ) × (ℕ → ℝ))
    {p : Pulse} {a : Fin p.n → ℂ} (hp : Holds p a) (hcf : p.cf ≠ 0) (hn : 2 ≤ p.n) (he : p.n % 2 = 0) {L wl : ℝ} {b : Vec ℝ} {units label : String}
    (hwl : wl ≠ 0) (hL : 0 < L) : ∀ (m i : ℕ) (o : Obj), (o.disableRaman = true ∨ o.tau1 * o.tau2 ^ 2 ≠ 0) → o.method = .rk4ip →
    0 < o.dz → 0 < o.dzMin → 0 < o.eta → o.eta ≠ 1 → ∃ l, trials strF polyfit spline hP draws "one_photon_freq" 1 p m i o
      ⟨Fiber.genFib L wl b 0 0 units label Fiber.Fib.new, Fiber.genSpecs 0⟩ = some (.ok l) ∧
      ∀ r ∈ l, ∃ t, ∀ k : Fin p.n, ‖r.entry k 0‖ = ‖a k + Spec.shotNoise true hP (|binW p 1 - binW p 0| / (2 * Real.pi)) (binW p k / (2 * Real.pi))
        ((draws t).1 k) ((draws t).2 k) (a k)‖ := by
  obtain ⟨c, hc, hq⟩ := noisy_clone strF hP hp hcf hn
  intro m
  induction m with
  | zero => intro i o _ _ _ _ _ _; exact ⟨[], rfl, by simp⟩
  | succ m ih =>
    intro i o ht hm hdz hmin heta heta1
    obtain ⟨q, q1, q2, q3, -, q5⟩ := hq (draws i).1 (draws i).2
    have key : ∀ (n : ℕ) (a' : Fin n → ℂ), q.n = n → 2 ≤ n → n % 2 = 0 → Holds q a' → ∃ r o',
        propagate polyfit spline o q ⟨Fiber.genFib L wl b 0 0 units label Fiber.Fib.new, Fiber.genSpecs 0⟩ 1 false =
          some (.ok (r, o', ⟨Fiber.genFib L wl b 0 0 units label Fiber.Fib.new, Fiber.genSpecs 0⟩)) ∧
        o' = { o with dz := o'.dz, iter := o'.iter, fR := o'.fR } ∧ 0 < o'.dz ∧ ∀ k : Fin n, ‖r.entry k 0‖ = ‖a' k‖ := by
      intro n a' hn' h2 he' hH
      subst hn'
      obtain ⟨r, o', h, h1, h2', θ, hAW, -⟩ := transparent_run polyfit spline o ht hm hdz hmin heta heta1 hH (by rw [q3]; exact hcf) h2 he' hL hwl
        (b := b) (units := units) (label := label) (le_refl 1)
      refine ⟨r, o', h, h1, h2', fun k => ?_⟩
      obtain ⟨-, hW⟩ := last_columns h hH he' hAW
      rw [Nat.sub_self] at hW
      unfold Result.entry
      rw [hW]
      simp only [k.isLt, dif_pos]
      rw [norm_mul, mul_comm I, norm_exp_ofReal_mul_I, one_mul]
    obtain ⟨r, o', h1, h2, h3, h4⟩ := key p.n _ q2 hn he q5
    obtain ⟨l, hl, hlr⟩ := ih (i + 1) o' (by rw [h2]; exact ht) (by rw [h2]; exact hm) h3 (by rw [h2]; exact hmin) (by rw [h2]; exact heta)
      (by rw [h2]; exact heta1)
    refine ⟨r :: l, ?_, ?_⟩
    · unfold trials
      simp only [hc, q1, h1, hl]
    · intro r' hr'
      rcases List.mem_cons.1 hr' with rfl | hr'
      · exact ⟨i, h4⟩
      · exact hlr r' hr'

/-- two points, window 1 ns, centre 1 THz, dark -/
noncomputable def nightPulse : Pulse := { gridPulse 2 with tw := 1000, aw := some ⟨2, fun _ => 0⟩ }

/-- C155 fails: a dark pulse with one photon of noise per bin (Planck's constant as in SciPy, draws of at most two standard deviations).
The spectra of all trials are non-zero, and the coherence is `nan`. -/
theorem C155_refuted {sum : List Cplx → Cplx} (hsum : ∀ l, l ≠ [] → SumsTo l (sum l)) (strF : ℝ → String) (polyfit : Fiber.PolyFit) (spline : Fiber.Spline)
    {draws : ℕ → (ℕ → ℝ) × (ℕ → ℝ)} (hd : ∀ t, (draws t).1 1 ≠ 0 ∧ |(draws t).1 1| ≤ 2) {T : ℕ} (hT : 2 ≤ T) (seed : Option ℕ) (reload : Bool) :
    ∃ (g : Fin nightPulse.n → Fin 1 → Num) (l : List Result),
      calculateCoherenceS sum strF polyfit spline (6.62607015 * 10 ^ (-34 : ℤ)) draws Obj.default nightPulse linFib T seed "one_photon_freq" 1 reload =
        some (.ok (g, l)) ∧ l.length = T ∧ (∀ r ∈ l, r.entry 1 0 ≠ 0) ∧ g (1 : Fin 2) 0 = .nan := by
  have hp : Holds nightPulse (fun _ : Fin 2 => (0 : ℂ)) := ⟨rfl, rfl, by norm_num, rfl⟩
  obtain ⟨l, hl, hlr⟩ := linear_trials strF polyfit spline (6.62607015 * 10 ^ (-34 : ℤ)) draws hp (by simp [nightPulse, gridPulse, Pulse.blank]) (le_refl 2)
    rfl (L := 1) (wl := 1) (b := ⟨1, fun _ => 1⟩) (units := "") (label := "") one_ne_zero one_pos T 0 Obj.default (Or.inr (by norm_num [Obj.default])) rfl
    (by norm_num [Obj.default]) (by norm_num [Obj.default]) (by norm_num [Obj.default]) (by norm_num [Obj.default])
  have hlen := trials_length _ _ _ _ _ hl
  have h : calculateCoherenceS sum strF polyfit spline (6.62607015 * 10 ^ (-34 : ℤ)) draws Obj.default nightPulse linFib T seed "one_photon_freq" 1 reload =
      some (.ok (fun k i => meanAbs sum (g12StackS fun t : Fin l.length => l[t].entry64 k i), l)) := by
    unfold calculateCoherenceS linFib
    rw [hl]
    simp only
    rw [if_neg (by omega)]
  have hn : ∀ r ∈ l, 0 < ‖r.entry 1 0‖ ∧ ‖r.entry 1 0‖ ≤ 2 ^ (-39 : ℤ) := by
    intro r hr
    obtain ⟨t, ht⟩ := hlr r hr
    obtain ⟨d0, d1⟩ := hd t
    have e := ht (1 : Fin 2)
    have hpi : (0 : ℝ) < Real.pi := Real.pi_pos
    have hf : binW nightPulse (((1 : Fin 2) : ℕ)) / (2 * Real.pi) = 10 ^ 12 := by
      simp [binW, nightPulse, gridPulse, Pulse.blank]
    have hdf : |binW nightPulse 1 - binW nightPulse 0| / (2 * Real.pi) = 10 ^ 9 := by
      have : binW nightPulse 1 - binW nightPulse 0 = 10 ^ 9 * (2 * Real.pi) := by
        simp [binW, nightPulse, gridPulse, Pulse.blank]
        ring
      rw [this, abs_of_pos (by positivity)]
      field_simp
    have hval : ‖r.entry 1 0‖ = |(draws t).1 1| * (6.62607015 * 10 ^ (-13 : ℤ)) := by
      have e' : ‖r.entry 1 0‖ = _ := e
      rw [e', hf, hdf, zero_add]
      unfold Spec.shotNoise
      rw [if_pos rfl, norm_mul, norm_mul, mul_comm I, norm_exp_ofReal_mul_I, mul_one]
      rw [Complex.norm_real, Complex.norm_real, Real.norm_eq_abs, Real.norm_eq_abs, abs_of_pos (by positivity : (0 : ℝ) < 6.62607015 * 10 ^ (-34 : ℤ) * 10 ^ 12 * 10 ^ 9)]
      norm_num
    rw [hval]
    refine ⟨mul_pos (abs_pos.2 d0) (by norm_num), ?_⟩
    calc |(draws t).1 1| * (6.62607015 * 10 ^ (-13 : ℤ)) ≤ 2 * (6.62607015 * 10 ^ (-13 : ℤ)) := by gcongr
      _ ≤ 2 ^ (-39 : ℤ) := by norm_num
  refine ⟨_, l, h, hlen, fun r hr => norm_pos_iff.1 (hn r hr).1, ?_⟩
  exact C155_underflow hsum h (1 : Fin 2) 0 (s := 0) (t := 1) (by omega) (by omega) (by norm_num) (hn _ (List.getElem_mem _)).2 (hn _ (List.getElem_mem _)).2

/-- C155 is not vacuous: every even grid and every spectrum of unit magnitude, any draws that add at most half of it; for every number of trials from 2 to 1024 the
result is a number in every bin, at most `(41 + 3·T(T-1))·2^-24` above one. -/
theorem C155_nonvacuous {sum : List Cplx → Cplx} (hsum : ∀ l, l ≠ [] → SumsTo l (sum l)) (strF : ℝ → String) (polyfit : Fiber.PolyFit) (spline : Fiber.Spline)
    {hP : ℝ} {draws : ℕ → (ℕ → ℝ) × (ℕ → ℝ)} {p : Pulse} {a : Fin p.n → ℂ} (hp : Holds p a) (hcf : p.cf ≠ 0) (hn : 2 ≤ p.n) (he : p.n % 2 = 0)
    (ha : ∀ k, ‖a k‖ = 1) (hd : ∀ t (k : Fin p.n), ‖Spec.shotNoise true hP (|binW p 1 - binW p 0| / (2 * Real.pi)) (binW p k / (2 * Real.pi)) ((draws t).1 k) ((draws t).2 k) (a k)‖ ≤ 1 / 2)
    {T : ℕ} (hT : 2 ≤ T) (hT' : T ≤ 1024) (seed : Option ℕ) (reload : Bool) :
    ∃ (g : Fin p.n → Fin 1 → Num) (l : List Result),
      calculateCoherenceS sum strF polyfit spline hP draws Obj.default p linFib T seed "one_photon_freq" 1 reload = some (.ok (g, l)) ∧
      ∀ k, ∃ x, g k 0 = .val x ∧ x ≤ 1 + (41 + 3 * (T * (T - 1) : ℕ)) / 2 ^ 24 := by
  obtain ⟨l, hl, hlr⟩ := linear_trials strF polyfit spline hP draws hp hcf hn he (L := 1) (wl := 1) (b := ⟨1, fun _ => 1⟩) (units := "") (label := "")
    one_ne_zero one_pos T 0 Obj.default (Or.inr (by norm_num [Obj.default])) rfl (by norm_num [Obj.default]) (by norm_num [Obj.default]) (by norm_num [Obj.default])
    (by norm_num [Obj.default])
  have hlen := trials_length _ _ _ _ _ hl
  have h : calculateCoherenceS sum strF polyfit spline hP draws Obj.default p linFib T seed "one_photon_freq" 1 reload =
      some (.ok (fun k i => meanAbs sum (g12StackS fun t : Fin l.length => l[t].entry64 k i), l)) := by
    unfold calculateCoherenceS linFib
    rw [hl]
    simp only
    rw [if_neg (by omega)]
  obtain ⟨e, -, H⟩ := C155_accuracy hsum h hT'
  refine ⟨_, l, h, fun k => ?_⟩
  obtain ⟨x, hx, ex, -, e1, -⟩ := H k 0 (by
    intro r hr
    obtain ⟨t, ht⟩ := hlr r hr
    have hE : ‖r.entry k 0‖ = _ := ht k
    have h1 := norm_sub_le_norm_add (a k) (Spec.shotNoise true hP (|binW p 1 - binW p 0| / (2 * Real.pi)) (binW p k / (2 * Real.pi)) ((draws t).1 k) ((draws t).2 k) (a k))
    have h2 := norm_add_le (a k) (Spec.shotNoise true hP (|binW p 1 - binW p 0| / (2 * Real.pi)) (binW p k / (2 * Real.pi)) ((draws t).1 k) ((draws t).2 k) (a k))
    rw [← hE, ha k] at h1 h2
    have h3 := hd t k
    have e0 : (((0 : Fin 1) : ℕ)) = 0 := rfl
    rw [e0]
    constructor
    · norm_num; linarith
    · norm_num; linarith)
  refine ⟨x, hx, ?_⟩
  have := (abs_le.1 ex).2
  linarith

end PyNLO
