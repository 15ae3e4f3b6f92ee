import Verif.Lemmas.SsfmSym
import Verif.Props.Nlse

/-! # C45, C46, C156, C157, C158: symmetries of a whole call of `propagate` -/

namespace PyNLO

open Complex Ssfm Pulse

section
variable {polyfit : Fiber.PolyFit} {spline : Fiber.Spline} {o : Obj} {p : Pulse} {F : FibObj}

/-- the fields after the segments of a call of `propagate` without reloading, and what is left in the solver -/
theorem propagate_trace_full {fR : ℝ} {o' : Obj} {F' F1 : FibObj} {N : ℕ} {r : Result} (h : propagate polyfit spline o p F N false = some (.ok (r, o', F')))
    {a : Fin p.n → ℂ} (hp : Holds p a) (he : p.n % 2 = 0) {L : ℝ} (hL : F.fib.length = some L) {P0 P : Params p.n} {A : Fin p.n → ℂ}
    (hs : setup o p F = .ok (P0, A, fR)) (hl : loadFiber polyfit spline p 0 P0 F = (.ok P, F1)) :
    ∃ S : ℕ → Field p.n, (S 0).A = A ∧ (S 0).dz = o.dz ∧ (S 0).iter = o.iter ∧ (∀ i < N, integrate P (L / N) 1 (S i) = some (S (i + 1))) ∧
      r.z = linspace0 L N ∧ r.AT = (List.range N).map (fun i => (⟨p.n, ifftshift (S (i + 1)).A⟩ : Vec ℂ)) ∧
      r.AW = (List.range N).map (fun i => (⟨p.n, fftT (ifftshift (S (i + 1)).A)⟩ : Vec ℂ)) ∧
      o' = { o with dz := (S N).dz, iter := (S N).iter, fR := fR } := by
  obtain ⟨hN, L', out, P0', A', fR', P', F1', s, out', hL', hc, hs', hl', hseg, hset, hr, ho, -⟩ := propagate_cases h
  rw [hL] at hL'
  obtain rfl := Option.some.inj hL'
  rw [hs] at hs'
  have hs'' := Except.ok.inj hs'
  simp only [Prod.mk.injEq] at hs''
  obtain ⟨rfl, rfl, rfl⟩ := hs''
  rw [hl] at hl'
  simp only [Prod.mk.injEq, Except.ok.injEq] at hl'
  obtain ⟨rfl, rfl⟩ := hl'
  obtain ⟨S, h0, hm, hS⟩ := segLoop_trace N 0 hseg
  obtain ⟨hout, -, -⟩ := clone_holds hp hc
  have T := trace_even he hS (b := a) (by rw [h0]; exact hout) (by rw [h0]) (by rw [h0])
  obtain ⟨-, hAT, hAW, hint⟩ := T N (le_refl N)
  have hP : ∀ i, i ≤ N → (S i).P = P := by
    intro i
    induction i with
    | zero => intro _; rw [h0]
    | succ i ih =>
      intro hi
      have hst := (hS i (by omega)).load
      simp only [Bool.false_eq_true, if_false, Prod.mk.injEq, Except.ok.injEq] at hst
      rw [← hst.1, ih (by omega)]
  refine ⟨fun i => (S i).fld, by simp only [h0], by simp only [h0], by simp only [h0], fun i hi => ?_, ?_, ?_, ?_, ?_⟩
  · have := hint i hi
    rwa [hP (i + 1) (by omega)] at this
  · rw [hr]
  · rw [hr]
    simp only
    rw [← hm, hAT]
  · rw [hr]
    simp only
    rw [← hm, hAW]
  · rw [ho]
    simp only [hm]

/-- parameters read from a pulse do not depend on its field -/
theorem Loads.replace {f1 : Fiber.Fib} {β : Fin p.n → ℝ} {g γ fR : ℝ} {R : Fin p.n → ℂ} (h : Loads polyfit spline o p F f1 β g R γ fR) (b : Option (Vec ℂ)) :
    Loads polyfit spline o { p with aw := b } F f1 β g R γ fR := by
  exact ⟨h.betas, h.gamma, h.gain, h.raman⟩

/-- two calls of `propagate` on the same grid, related by a map of the fields that sends the integrations to each other -/
theorem propagate_sends {T : (Fin p.n → ℂ) → Fin p.n → ℂ} {a b : Fin p.n → ℂ} (hp : Holds p a) (he : p.n % 2 = 0) (hcf : p.cf ≠ 0) {F' : FibObj}
    {f1 f1' : Fiber.Fib} {β β' : Fin p.n → ℝ} {g g' γ γ' fR : ℝ} {R R' : Fin p.n → ℂ} (h : Loads polyfit spline o p F f1 β g R γ fR)
    (h' : Loads polyfit spline o p F' f1' β' g' R' γ' fR) {L : ℝ} (hL : F.fib.length = some L) (hL' : F'.fib.length = some L) (hpos : 0 < L)
    (hdz : 0 < o.dz) (hmin : 0 < o.dzMin) (heta : 0 < o.eta)
    (hT : ∀ P P' : Params p.n, Carries P o β g R γ → Carries P' o β' g' R' γ' → Sends P P' 1 1 T)
    (hab : fftshift (ifftT b) = T (fftshift (ifftT a))) {N : ℕ} (hN : 1 ≤ N) :
    ∃ r r' o', propagate polyfit spline o p F N false = some (.ok (r, o', { F with fib := f1 })) ∧
      propagate polyfit spline o { p with aw := some ⟨p.n, b⟩ } F' N false = some (.ok (r', o', { F' with fib := f1' })) ∧ r.AT.length = N ∧ r'.AT.length = N ∧ r'.z = r.z ∧
      ∀ i < N, ∃ v w : Fin p.n → ℂ, r.AT[i]? = some ⟨p.n, v⟩ ∧ r'.AT[i]? = some ⟨p.n, w⟩ ∧ fftshift w = T (fftshift v) ∧
        r.AW[i]? = some ⟨p.n, fftT v⟩ ∧ r'.AW[i]? = some ⟨p.n, fftT w⟩ := by
  obtain ⟨P0, P, hs, hl, hc, -⟩ := setup_carries hp h
  have hp' : Holds { p with aw := some ⟨p.n, b⟩ } b := ⟨hp.ready, rfl, hp.pos, rfl⟩
  obtain ⟨P0', P', hs', hl', hc', -⟩ := setup_carries hp' (h'.replace (some ⟨p.n, b⟩))
  have hTT := hT P P' hc ⟨hc'.betas, hc'.alpha, hc'.resp, hc'.gamma, hc'.ss, hc'.omegas, hc'.w0, hc'.method, hc'.eta, hc'.localError, hc'.dzMin⟩
  obtain ⟨r, o1, hr, -, -⟩ := C43_returns hN hL hpos hp hcf hs hl hdz hmin heta
  obtain ⟨r', o2, hr', -, -⟩ := C43_returns hN hL' hpos hp' hcf hs' hl' hdz hmin heta
  obtain ⟨S, s0, s1, s2, s3, s4, s5, s6, s7⟩ := propagate_trace_full hr hp he hL hs hl
  obtain ⟨S', t0, t1, t2, t3, t4, t5, t6, t7⟩ := propagate_trace_full hr' hp' he hL' hs' hl'
  have hP : P.Ok := ⟨by rw [hc.dzMin]; exact hmin, by rw [hc.eta]; exact heta⟩
  have hrel : ∀ i ≤ N, 0 < (S i).dz ∧ (S' i).A = T (S i).A ∧ (S' i).dz = (S i).dz ∧ (S' i).iter = (S i).iter := by
    intro i
    induction i with
    | zero => exact fun _ => ⟨by rw [s1]; exact hdz, by rw [s0, t0]; exact hab, by rw [s1, t1], by rw [s2, t2]⟩
    | succ i ih =>
      intro hi
      obtain ⟨q1, q2, q3, q4⟩ := ih (by omega)
      obtain ⟨f', g', e1, e2, e3, e4, e5⟩ := hTT.integrate hP (L / N) (f := S i) (g := S' i) q1 q2 q3 q4
      have u1 := (s3 i (by omega)).symm.trans e1
      have u2 := (t3 i (by omega)).symm.trans e2
      obtain rfl := Option.some.inj u1
      obtain rfl := Option.some.inj u2
      refine ⟨?_, e3, e4, e5⟩
      obtain ⟨f2, e6, e7⟩ := integrate_spec hP (L / N) 1 q1
      obtain rfl := Option.some.inj (e1.symm.trans e6)
      exact spec_dz_pos hP.cfg (div_pos hpos (by exact_mod_cast hN)) q1 e7
  have ho : o2 = o1 := by
    rw [s7, t7, (hrel N le_rfl).2.2.1, (hrel N le_rfl).2.2.2]
  refine ⟨r, r', o1, hr, ho ▸ hr', by rw [s5]; simp, by rw [t5]; simp, by rw [s4, t4], fun i hi => ?_⟩
  refine ⟨ifftshift (S (i + 1)).A, ifftshift (S' (i + 1)).A, ?_, ?_, ?_, ?_, ?_⟩
  · rw [s5]; simp [hi]
  · rw [t5]; simp [hi]
  · rw [fftshift_ifftshift, fftshift_ifftshift]
    exact (hrel (i + 1) (by omega)).2.1
  · rw [s6]; simp [hi]
  · rw [t6]; simp [hi]


/-- the fibre and the solver determine the parameters -/
theorem Carries.eq {P P' : Params p.n} {β : Fin p.n → ℝ} {g γ : ℝ} {R : Fin p.n → ℂ} (h : Carries P o β g R γ) (h' : Carries P' o β g R γ) : P = P' := by
  obtain ⟨⟩ := P
  obtain ⟨⟩ := P'
  obtain ⟨rfl, rfl, rfl, rfl, rfl, rfl, rfl, rfl, rfl, rfl, rfl⟩ := h
  obtain ⟨h1, h2, h3, h4, h5, h6, h7, h8, h9, h10, h11⟩ := h'
  simp only at h1 h2 h3 h4 h5 h6 h7 h8 h9 h10 h11
  subst h1 h2 h3 h4 h5 h6 h7 h8 h9 h10 h11
  rfl

/-- a pulse whose field is replaced -/
theorem setAT_second {a : Fin p.n → ℂ} (hp : Holds p a) (B : Fin p.n → ℂ) : (Pulse.setAT ⟨p.n, B⟩ p).2 = { p with aw := some ⟨p.n, fftT B⟩ } := by
  rw [hp.setAT_eq]

/-- the field of a pulse -/
theorem AT_inj {a A : Fin p.n → ℂ} (hp : Holds p a) (hA : p.AT = .ok ⟨p.n, A⟩) : A = ifftT a := by
  rw [hp.AT_eq] at hA
  have := Except.ok.inj hA
  simp only [Vec.mk.injEq, heq_eq_eq, true_and] at this
  exact this.symm

/-! ## C45, C46: a constant phase, a circular shift -/

variable {f1 : Fiber.Fib} {β : Fin p.n → ℝ} {g γ fR : ℝ} {R : Fin p.n → ℂ}

/-- C45: without self-steepening, a pulse with a constant phase added gives the same columns with that phase added, the same steps and the same
solver and fibre afterwards. -/
theorem C45_propagate {a A : Fin p.n → ℂ} (hp : Holds p a) (hA : p.AT = .ok ⟨p.n, A⟩) (he : p.n % 2 = 0) (hcf : p.cf ≠ 0)
    (h : Loads polyfit spline o p F f1 β g R γ fR) {L : ℝ} (hL : F.fib.length = some L) (hpos : 0 < L) (hdz : 0 < o.dz) (hmin : 0 < o.dzMin) (heta : 0 < o.eta)
    (hss : o.disableSS = true) {u : ℂ} (hu : ‖u‖ = 1) {N : ℕ} (hN : 1 ≤ N) :
    ∃ r r' o' F1, propagate polyfit spline o p F N false = some (.ok (r, o', F1)) ∧
      propagate polyfit spline o (Pulse.setAT ⟨p.n, fun j => u * A j⟩ p).2 F N false = some (.ok (r', o', F1)) ∧ r.AT.length = N ∧ r'.AT.length = N ∧
      ∀ i < N, ∃ v : Fin p.n → ℂ, r.AT[i]? = some ⟨p.n, v⟩ ∧ r'.AT[i]? = some ⟨p.n, fun j => u * v j⟩ := by
  obtain ⟨r, r', o', h1, h2, h3, h4, -, h5⟩ := propagate_sends (T := fun A j => u * A j) (b := fftT fun j => u * A j) hp he hcf h h hL hL hpos hdz hmin heta
    (fun P P' hc hc' => by
      obtain rfl : P = P' := hc.eq hc'
      exact sends_phase (hc.ss.trans hss) hu 1) (by rw [ifftT_fftT, AT_inj hp hA]; rfl) hN
  rw [setAT_second hp]
  refine ⟨r, r', o', _, h1, h2, h3, h4, fun i hi => ?_⟩
  obtain ⟨v, w, q1, q2, q3, -⟩ := h5 i hi
  refine ⟨v, q1, ?_⟩
  rw [q2, ← ifftshift_fftshift w, q3]
  exact congrArg _ (congrArg _ (show ifftshift (fftshift fun j => u * v j) = _ from ifftshift_fftshift _))

/-- C46: a pulse shifted circularly in time gives the same columns shifted, the same steps and the same solver and fibre afterwards. -/
theorem C46_propagate {a A : Fin p.n → ℂ} (hp : Holds p a) (hA : p.AT = .ok ⟨p.n, A⟩) (he : p.n % 2 = 0) (hcf : p.cf ≠ 0)
    (h : Loads polyfit spline o p F f1 β g R γ fR) {L : ℝ} (hL : F.fib.length = some L) (hpos : 0 < L) (hdz : 0 < o.dz) (hmin : 0 < o.dzMin) (heta : 0 < o.eta)
    (s : ℤ) {N : ℕ} (hN : 1 ≤ N) :
    ∃ r r' o' F1, propagate polyfit spline o p F N false = some (.ok (r, o', F1)) ∧
      propagate polyfit spline o (Pulse.setAT ⟨p.n, fun j => A (rollIdx s j)⟩ p).2 F N false = some (.ok (r', o', F1)) ∧ r.AT.length = N ∧ r'.AT.length = N ∧
      ∀ i < N, ∃ v : Fin p.n → ℂ, r.AT[i]? = some ⟨p.n, v⟩ ∧ r'.AT[i]? = some ⟨p.n, fun j => v (rollIdx s j)⟩ := by
  have hcomm : ∀ x : Fin p.n → ℂ, fftshift (roll s x) = roll s (fftshift x) := fun x => by
    unfold fftshift
    rw [roll_roll, roll_roll, add_comm]
  obtain ⟨r, r', o', h1, h2, h3, h4, -, h5⟩ := propagate_sends (T := roll s) (b := fftT (roll s A)) hp he hcf h h hL hL hpos hdz hmin heta
    (fun P P' hc hc' => by
      obtain rfl : P = P' := hc.eq hc'
      exact sends_roll P s 1) (by rw [ifftT_fftT, AT_inj hp hA, hcomm]) hN
  rw [show (fun j => A (rollIdx s j)) = roll s A from rfl, setAT_second hp]
  refine ⟨r, r', o', _, h1, h2, h3, h4, fun i hi => ?_⟩
  obtain ⟨v, w, q1, q2, q3, -⟩ := h5 i hi
  refine ⟨v, q1, ?_⟩
  rw [q2, ← ifftshift_fftshift w, q3, ← hcomm, ifftshift_fftshift]
  rfl

/-! ## C156: scaling -/

/-- C156: with either method, one step of a field multiplied by a constant, with the nonlinear coefficient divided by its squared modulus, is the
step of the field multiplied by the constant. -/
theorem C156_step {n : ℕ} {P Q : Params n} (hP : P.disableSS = true) {c : ℂ} (hc : c ≠ 0) (hQ : Q = { P with gamma := P.gamma / ‖c‖ ^ 2 }) (dir h : ℝ)
    (A : Fin n → ℂ) : Spec.adv Q dir h (fun j => c * A j) = fun j => c * Spec.adv P dir h A j := by
  subst hQ
  exact ((moves_scale (q := { P with gamma := P.gamma / ‖c‖ ^ 2 }) hP hP hc rfl rfl rfl rfl rfl rfl rfl rfl dir).adv h A).symm

/-- C156: with the split-step method and without self-steepening, a pulse multiplied by a constant in a fibre with the nonlinear coefficient divided by
the squared modulus of the constant gives the same columns multiplied by the constant, with the same steps. -/
theorem C156_propagate {a A : Fin p.n → ℂ} (hp : Holds p a) (hA : p.AT = .ok ⟨p.n, A⟩) (he : p.n % 2 = 0) (hcf : p.cf ≠ 0)
    (h : Loads polyfit spline o p F f1 β g R γ fR) {F' : FibObj} {f1' : Fiber.Fib} {c : ℂ} (hc : c ≠ 0) (h' : Loads polyfit spline o p F' f1' β g R (γ / ‖c‖ ^ 2) fR)
    {L : ℝ} (hL : F.fib.length = some L) (hL' : F'.fib.length = some L) (hpos : 0 < L) (hdz : 0 < o.dz) (hmin : 0 < o.dzMin) (heta : 0 < o.eta)
    (hss : o.disableSS = true) (hm : o.method = .ssfm) {N : ℕ} (hN : 1 ≤ N) :
    ∃ r r' o' F1 F1', propagate polyfit spline o p F N false = some (.ok (r, o', F1)) ∧
      propagate polyfit spline o (Pulse.setAT ⟨p.n, fun j => c * A j⟩ p).2 F' N false = some (.ok (r', o', F1')) ∧ r.AT.length = N ∧ r'.AT.length = N ∧
      ∀ i < N, ∃ v : Fin p.n → ℂ, r.AT[i]? = some ⟨p.n, v⟩ ∧ r'.AT[i]? = some ⟨p.n, fun j => c * v j⟩ := by
  obtain ⟨r, r', o', h1, h2, h3, h4, -, h5⟩ := propagate_sends (T := fun A j => c * A j) (b := fftT fun j => c * A j) hp he hcf h h' hL hL' hpos hdz hmin heta
    (fun P P' e e' => (moves_scale (e.ss.trans hss) (e'.ss.trans hss) hc (e'.betas.trans e.betas.symm) (e'.alpha.trans e.alpha.symm)
      (e'.resp.trans e.resp.symm) (by rw [e.gamma, e'.gamma]) (e'.method.trans e.method.symm) (e'.eta.trans e.eta.symm)
      (e'.localError.trans e.localError.symm) (e'.dzMin.trans e.dzMin.symm) 1).sends_scale hc (e.method.trans hm))
    (by rw [ifftT_fftT, AT_inj hp hA]; rfl) hN
  rw [setAT_second hp]
  refine ⟨r, r', o', _, _, h1, h2, h3, h4, fun i hi => ?_⟩
  obtain ⟨v, w, q1, q2, q3, -⟩ := h5 i hi
  refine ⟨v, q1, ?_⟩
  rw [q2, ← ifftshift_fftshift w, q3]
  exact congrArg _ (congrArg _ (show ifftshift (fftshift fun j => c * v j) = _ from ifftshift_fftshift _))

/-- C156: for a generated fibre without Raman scattering. -/
theorem C156_generated (polyfit : Fiber.PolyFit) (spline : Fiber.Spline) {a A : Fin p.n → ℂ} (hp : Holds p a) (hA : p.AT = .ok ⟨p.n, A⟩) (hn : 4 ≤ p.n)
    (he : p.n % 2 = 0) (hcf : p.cf ≠ 0) (htw : p.tw ≠ 0) (hram : o.disableRaman = true) {length wl gamma gain : ℝ} {m : ℕ} {b : Fin m → ℝ} {units label : String}
    (hu : units ≠ "ps^n/km") (hwl : wl ≠ 0) (hpos : 0 < length) {c : ℂ} (hc : c ≠ 0) (hdz : 0 < o.dz) (hmin : 0 < o.dzMin) (heta : 0 < o.eta)
    (hss : o.disableSS = true) (hm : o.method = .ssfm) {N : ℕ} (hN : 1 ≤ N) :
    ∃ r r' o' F1 F1', propagate polyfit spline o p ⟨Fiber.genFib length wl ⟨m, b⟩ gamma gain units label Fiber.Fib.new, Fiber.genSpecs gain⟩ N false = some (.ok (r, o', F1)) ∧
      propagate polyfit spline o (Pulse.setAT ⟨p.n, fun j => c * A j⟩ p).2
        ⟨Fiber.genFib length wl ⟨m, b⟩ (gamma / ‖c‖ ^ 2) gain units label Fiber.Fib.new, Fiber.genSpecs gain⟩ N false = some (.ok (r', o', F1')) ∧
      r.AT.length = N ∧ r'.AT.length = N ∧
      ∀ i < N, ∃ v : Fin p.n → ℂ, r.AT[i]? = some ⟨p.n, v⟩ ∧ r'.AT[i]? = some ⟨p.n, fun j => c * v j⟩ :=
  C156_propagate hp hA he hcf (C132_fiber polyfit spline o hp hn he htw hram hu hwl) hc (C132_fiber polyfit spline o hp hn he htw hram hu hwl)
    rfl rfl hpos hdz hmin heta hss hm hN

/-! ## C157: mirror images -/

theorem mirror_shift {n : ℕ} {α : Type _} (he : n % 2 = 0) (x : Fin n → α) : fftshift (mirror x) = mirror (fftshift x) := by
  funext k
  show x (negIdx (rollIdx _ k)) = x (rollIdx _ (negIdx k))
  congr 1
  refine (negIdx_unique ?_).symm
  rw [rollIdx_coe, rollIdx_coe]
  have hk := negIdx_dvd k
  have e1 := Int.emod_add_mul_ediv (((negIdx k : ℕ) : ℤ) - ((n / 2 : ℕ) : ℤ)) n
  have e2 := Int.emod_add_mul_ediv (((k : ℕ) : ℤ) - ((n / 2 : ℕ) : ℤ)) n
  have e3 : (n : ℤ) = 2 * ((n / 2 : ℕ) : ℤ) := by omega
  rw [show (((negIdx k : ℕ) : ℤ) - ((n / 2 : ℕ) : ℤ)) % n + (((k : ℕ) : ℤ) - ((n / 2 : ℕ) : ℤ)) % n =
    (((negIdx k : ℕ) : ℤ) + (k : ℕ)) - (n : ℤ) * (1 + (((negIdx k : ℕ) : ℤ) - ((n / 2 : ℕ) : ℤ)) / n + (((k : ℕ) : ℤ) - ((n / 2 : ℕ) : ℤ)) / n) by linarith]
  exact dvd_sub hk (Dvd.intro _ rfl)

theorem mirror_unshift {n : ℕ} {α : Type _} (he : n % 2 = 0) (x : Fin n → α) : ifftshift (mirror x) = mirror (ifftshift x) := by
  have := mirror_shift he (ifftshift x)
  rw [fftshift_ifftshift] at this
  rw [← this, ifftshift_fftshift]

theorem fftT_mirror {n : ℕ} (he : n % 2 = 0) (x : Fin n → ℂ) : fftT (mirror x) = mirror (fftT x) := by
  unfold fftT
  rw [mirror_shift he, ifft_mirror, mirror_unshift he]

/-- `y` is the mirror image of `x`: the values at opposite indices (modulo the number of points) agree -/
theorem mirror_iff {n : ℕ} {α : Type _} {x y : Fin n → α} : (∀ j k : Fin n, ((j : ℕ) + k) % n = 0 → y j = x k) ↔ y = mirror x := by
  constructor
  · intro h
    funext j
    refine h j _ ?_
    have := negIdx_dvd j
    rw [add_comm]
    exact Nat.mod_eq_zero_of_dvd (by exact_mod_cast this)
  · rintro rfl j k hjk
    show x (negIdx j) = x k
    congr 1
    refine (negIdx_unique ?_).symm
    have := Nat.dvd_of_mod_eq_zero hjk
    rw [add_comm] at this
    exact_mod_cast this

/-- C157: without Raman scattering and self-steepening, the time-reversed pulse in a fibre with the spectrum of the propagation constant reversed gives the
time-reversed columns, and reversed spectra, with the same steps. -/
theorem C157_mirror {a A B : Fin p.n → ℂ} (hp : Holds p a) (hA : p.AT = .ok ⟨p.n, A⟩) (hB : ∀ j k : Fin p.n, ((j : ℕ) + k) % p.n = 0 → B j = A k)
    (he : p.n % 2 = 0) (hcf : p.cf ≠ 0) (h : Loads polyfit spline o p F f1 β g R γ fR) {F' : FibObj} {f1' : Fiber.Fib} {β' : Fin p.n → ℝ}
    (h' : Loads polyfit spline o p F' f1' β' g R γ fR) (hβ : ∀ j k : Fin p.n, ((j : ℕ) + k) % p.n = 0 → β' j = β k)
    {L : ℝ} (hL : F.fib.length = some L) (hL' : F'.fib.length = some L) (hpos : 0 < L) (hdz : 0 < o.dz) (hmin : 0 < o.dzMin) (heta : 0 < o.eta)
    (hss : o.disableSS = true) (hram : o.disableRaman = true) {N : ℕ} (hN : 1 ≤ N) :
    ∃ r r' o' F1 F1', propagate polyfit spline o p F N false = some (.ok (r, o', F1)) ∧
      propagate polyfit spline o (Pulse.setAT ⟨p.n, B⟩ p).2 F' N false = some (.ok (r', o', F1')) ∧ r.AT.length = N ∧ r'.AT.length = N ∧
      ∀ i < N, ∃ v w V W : Fin p.n → ℂ, r.AT[i]? = some ⟨p.n, v⟩ ∧ r'.AT[i]? = some ⟨p.n, w⟩ ∧ r.AW[i]? = some ⟨p.n, V⟩ ∧ r'.AW[i]? = some ⟨p.n, W⟩ ∧
        ∀ j k : Fin p.n, ((j : ℕ) + k) % p.n = 0 → w j = v k ∧ W j = V k := by
  have hB' := mirror_iff.1 hB
  have hβ' := mirror_iff.1 hβ
  have hR := h.raman_off hram
  obtain ⟨r, r', o', h1, h2, h3, h4, -, h5⟩ := propagate_sends (T := mirror) (b := fftT B) hp he hcf h h' hL hL' hpos hdz hmin heta
    (fun P P' e e' => sends_mirror (e.ss.trans hss) (e'.ss.trans hss) (by rw [e.betas, e'.betas, hβ', mirror_shift he]) (by rw [e.alpha, e'.alpha]; rfl)
      (by rw [e.resp, e'.resp, hR]; rfl) (by rw [e.gamma, e'.gamma]) (e'.method.trans e.method.symm) (e'.eta.trans e.eta.symm)
      (e'.localError.trans e.localError.symm) (e'.dzMin.trans e.dzMin.symm) 1)
    (by rw [ifftT_fftT, hB', AT_inj hp hA, mirror_shift he]) hN
  rw [setAT_second hp]
  refine ⟨r, r', o', _, _, h1, h2, h3, h4, fun i hi => ?_⟩
  obtain ⟨v, w, q1, q2, q3, q4, q5⟩ := h5 i hi
  have hw : w = mirror v := by rw [← ifftshift_fftshift w, q3, mirror_unshift he, ifftshift_fftshift]
  exact ⟨v, w, _, _, q1, q2, q4, q5, fun j k hjk => ⟨mirror_iff.2 hw j k hjk, mirror_iff.2 (by rw [hw, fftT_mirror he]) j k hjk⟩⟩

/-- C157: with a symmetric propagation constant a symmetric pulse stays symmetric in time and frequency. -/
theorem C157_symmetric {a A : Fin p.n → ℂ} (hp : Holds p a) (hA : p.AT = .ok ⟨p.n, A⟩) (hsym : ∀ j k : Fin p.n, ((j : ℕ) + k) % p.n = 0 → A j = A k)
    (he : p.n % 2 = 0) (hcf : p.cf ≠ 0) (h : Loads polyfit spline o p F f1 β g R γ fR) (hβ : ∀ j k : Fin p.n, ((j : ℕ) + k) % p.n = 0 → β j = β k)
    {L : ℝ} (hL : F.fib.length = some L) (hpos : 0 < L) (hdz : 0 < o.dz) (hmin : 0 < o.dzMin) (heta : 0 < o.eta)
    (hss : o.disableSS = true) (hram : o.disableRaman = true) {N : ℕ} (hN : 1 ≤ N) :
    ∃ r o' F1, propagate polyfit spline o p F N false = some (.ok (r, o', F1)) ∧ r.AT.length = N ∧
      ∀ i < N, ∃ v V : Fin p.n → ℂ, r.AT[i]? = some ⟨p.n, v⟩ ∧ r.AW[i]? = some ⟨p.n, V⟩ ∧
        ∀ j k : Fin p.n, ((j : ℕ) + k) % p.n = 0 → v j = v k ∧ V j = V k := by
  obtain ⟨r, r', o', F1, F1', h1, h2, h3, -, h5⟩ := C157_mirror hp hA hsym he hcf h h hβ hL hL hpos hdz hmin heta hss hram hN
  have hq : (Pulse.setAT ⟨p.n, A⟩ p).2 = p := by
    rw [setAT_second hp, AT_inj hp hA, fftT_ifftT, ← hp.field]
  rw [hq, h1] at h2
  have h6 := Except.ok.inj (Option.some.inj h2)
  simp only [Prod.mk.injEq] at h6
  obtain ⟨rfl, -, -⟩ := h6
  refine ⟨r, o', F1, h1, h3, fun i hi => ?_⟩
  obtain ⟨v, w, V, W, q1, q2, q3, q4, q5⟩ := h5 i hi
  have e1 := Option.some.inj (q1.symm.trans q2)
  have e2 := Option.some.inj (q3.symm.trans q4)
  simp only [Vec.mk.injEq, heq_eq_eq, true_and] at e1 e2
  subst e1 e2
  exact ⟨v, V, q1, q3, q5⟩

/-- negating the odd orders of a fibre at the centre of the pulse mirrors the polynomial -/
theorem fiberPoly_mirror {m : ℕ} {b b' : Fin m → ℝ} (hb : ∀ i : Fin m, b' i = (-1) ^ (i : ℕ) * b i) (T x : ℝ) :
    (Nlse.fiberPoly b' 0 T).eval (-x) = (Nlse.fiberPoly b 0 T).eval x := by
  have h : ∀ x, (Nlse.taylorPoly b').eval (-x) = (Nlse.taylorPoly b).eval x := fun x => by
    unfold Nlse.taylorPoly
    simp only [Polynomial.eval_finsetSum, Polynomial.eval_mul, Polynomial.eval_C, Polynomial.eval_pow, Polynomial.eval_X]
    refine Finset.sum_congr rfl fun i _ => ?_
    have h1 : ((-1 : ℝ) ^ (i : ℕ)) * (-1) ^ (i : ℕ) = 1 := by
      rw [← mul_pow]
      norm_num
    rw [hb, neg_pow x, pow_add]
    linear_combination (b i / ((i : ℕ) + 2).factorial * x ^ ((i : ℕ) + 2)) * h1
  have h2 : ∀ x, (Nlse.taylorPoly b').eval x = (Nlse.taylorPoly b).eval (-x) := fun x => by rw [← h, neg_neg]
  unfold Nlse.fiberPoly
  simp only [Polynomial.C_0, add_zero, Polynomial.comp_X, Polynomial.eval_sub, Polynomial.eval_mul, Polynomial.eval_C, Polynomial.eval_X, h]
  unfold Nlse.slope
  rw [h, h2, h2, neg_zero]
  ring

/-- the propagation constant of a generated fibre at opposite indices -/
theorem fiberPoly_opposite {n m : ℕ} {b b' : Fin m → ℝ} (hb : ∀ i : Fin m, b' i = (-1) ^ (i : ℕ) * b i) (T : ℝ) (j k : Fin n) (hjk : ((j : ℕ) + k) % n = 0)
    (hz : (k : ℕ) = 0 → (Nlse.fiberPoly b' 0 T).eval (2 * Real.pi * ((k : ℕ) - (n : ℝ) / 2) / T) = (Nlse.fiberPoly b 0 T).eval (2 * Real.pi * ((k : ℕ) - (n : ℝ) / 2) / T)) :
    (Nlse.fiberPoly b' 0 T).eval (2 * Real.pi * ((j : ℕ) - (n : ℝ) / 2) / T) = (Nlse.fiberPoly b 0 T).eval (2 * Real.pi * ((k : ℕ) - (n : ℝ) / 2) / T) := by
  have hj := j.isLt
  have hk := k.isLt
  obtain ⟨m, hm⟩ := Nat.dvd_of_mod_eq_zero hjk
  have hm2 : m < 2 := by
    by_contra hcon
    have : n * 2 ≤ n * m := Nat.mul_le_mul_left _ (by omega)
    omega
  interval_cases m
  · have e1 : (j : ℕ) = 0 := by omega
    have e2 : (k : ℕ) = 0 := by omega
    rw [e1.trans e2.symm]
    exact hz e2
  · have e : ((j : ℕ) : ℝ) = n - (k : ℕ) := by
      have : ((j : ℕ) : ℝ) + (k : ℕ) = n := by exact_mod_cast (by omega : (j : ℕ) + k = n)
      linarith
    rw [← fiberPoly_mirror hb]
    congr 1
    rw [e]
    ring

/-- C157: for a generated fibre with even-order coefficients only, whose centre is that of the pulse. -/
theorem C157_generated (polyfit : Fiber.PolyFit) (spline : Fiber.Spline) {a A : Fin p.n → ℂ} (hp : Holds p a) (hA : p.AT = .ok ⟨p.n, A⟩)
    (hsym : ∀ j k : Fin p.n, ((j : ℕ) + k) % p.n = 0 → A j = A k) (hn : 4 ≤ p.n) (he : p.n % 2 = 0) (htw : p.tw ≠ 0)
    {length wl gamma gain : ℝ} {m : ℕ} {b : Fin m → ℝ} {units label : String} (hu : units ≠ "ps^n/km") (hwl : wl ≠ 0) (hcen : p.cf = cNmps / wl)
    (hb : ∀ i : Fin m, (i : ℕ) % 2 = 1 → b i = 0) (hpos : 0 < length) (hdz : 0 < o.dz) (hmin : 0 < o.dzMin) (heta : 0 < o.eta)
    (hss : o.disableSS = true) (hram : o.disableRaman = true) {N : ℕ} (hN : 1 ≤ N) :
    ∃ r o' F1, propagate polyfit spline o p ⟨Fiber.genFib length wl ⟨m, b⟩ gamma gain units label Fiber.Fib.new, Fiber.genSpecs gain⟩ N false = some (.ok (r, o', F1)) ∧
      r.AT.length = N ∧ ∀ i < N, ∃ v V : Fin p.n → ℂ, r.AT[i]? = some ⟨p.n, v⟩ ∧ r.AW[i]? = some ⟨p.n, V⟩ ∧
        ∀ j k : Fin p.n, ((j : ℕ) + k) % p.n = 0 → v j = v k ∧ V j = V k := by
  have hcf : p.cf ≠ 0 := by
    rw [hcen]
    exact div_ne_zero (by norm_num [cNmps, cMks]) hwl
  refine C157_symmetric hp hA hsym he hcf (C132_fiber polyfit spline o hp hn he htw hram hu hwl) (fun j k hjk => ?_) rfl hpos hdz hmin heta hss hram hN
  have h0 : 2 * Real.pi * p.cf - 2 * Real.pi * cNmps / wl = 0 := by rw [hcen]; ring
  rw [h0]
  refine fiberPoly_opposite (fun i => ?_) p.tw j k hjk fun _ => rfl
  rcases Nat.mod_two_eq_zero_or_one (i : ℕ) with h | h
  · rw [Even.neg_one_pow (Nat.even_iff.2 h), one_mul]
  · rw [hb i h, mul_zero]

end

/-- the hypotheses of C45, C46, C156 and C157 hold for a symmetric pulse that is not constant, with its field in a pulse of four points -/
theorem C157_nonvacuous : ∃ (p : Pulse) (a A : Fin p.n → ℂ), Holds p a ∧ p.AT = .ok ⟨p.n, A⟩ ∧ 4 ≤ p.n ∧ p.n % 2 = 0 ∧ p.tw ≠ 0 ∧ p.cf = cNmps / 1550 ∧
    (∀ j k : Fin p.n, ((j : ℕ) + k) % p.n = 0 → A j = A k) ∧ (∃ j k, A j ≠ A k) ∧
    (∀ i : Fin 3, (i : ℕ) % 2 = 1 → (![-20, 0, 1] : Fin 3 → ℝ) i = 0) ∧ ("ps^n/m" : String) ≠ "ps^n/km" := by
  have hp : Holds ({ init none none with n := 4, tw := 1, cf := cNmps / 1550, ready := true, aw := some ⟨4, fftT ![0, 1, 2, 1]⟩ } : Pulse) (fftT (![0, 1, 2, 1] : Fin 4 → ℂ)) :=
    ⟨rfl, rfl, by norm_num, rfl⟩
  refine ⟨_, _, ![0, 1, 2, 1], hp, ?_, le_refl 4, rfl, one_ne_zero, rfl, ?_, ⟨(0 : Fin 4), (1 : Fin 4), ?_⟩, ?_, by decide⟩
  · rw [hp.AT_eq, ifftT_fftT]
  · show ∀ j k : Fin 4, ((j : ℕ) + k) % 4 = 0 → (![0, 1, 2, 1] : Fin 4 → ℂ) j = ![0, 1, 2, 1] k
    intro j k
    fin_cases j <;> fin_cases k <;> simp
  · show (![0, 1, 2, 1] : Fin 4 → ℂ) 0 ≠ ![0, 1, 2, 1] 1
    simp
  · intro i
    fin_cases i <;> simp

/-! ## C158: conjugation and time reversal of the integration -/

/-- C158: with the default method, without gain and self-steepening, with an even propagation constant and the spectrum of a real response,
integrating the conjugate field against the direction gives the conjugate of what integrating the field along it gives, with the same steps. -/
theorem C158_conjugate {n : ℕ} {P : Params n} (hP : P.Ok) (hm : P.method = .rk4ip) (hs : P.disableSS = true) (ha : ∀ k, P.alpha k = 0)
    (hb : ∀ j k : Fin n, ((j : ℕ) + k) % n = 0 → P.betas j = P.betas k) (hR : ∀ j k : Fin n, ((j : ℕ) + k) % n = 0 → P.R j = (starRingEnd ℂ) (P.R k))
    (deltaZ dir : ℝ) {f g : Field n} (hdz : 0 < f.dz) (hA : ∀ j, g.A j = (starRingEnd ℂ) (f.A j)) (hz : g.dz = f.dz) (hi : g.iter = f.iter) :
    ∃ f' g', integrate P deltaZ dir f = some f' ∧ integrate P deltaZ (-dir) g = some g' ∧
      (∀ j, g'.A j = (starRingEnd ℂ) (f'.A j)) ∧ g'.dz = f'.dz ∧ g'.iter = f'.iter := by
  obtain ⟨f', g', h1, h2, h3, h4⟩ := (sends_conj (p := P) (q := P) hs hs hm (mirror_iff.1 hb) (fun k => by rw [ha, ha, neg_zero])
    ((mirror_iff (x := conjF P.R)).1 hR) rfl rfl rfl rfl rfl dir).integrate hP deltaZ hdz (funext hA) hz hi
  exact ⟨f', g', h1, h2, congrFun h3, h4⟩

/-- C158: with the default method, without gain, self-steepening and delayed response, whatever the dispersion: integrating the conjugated time-reversed field against the
direction gives the conjugated time-reversed result, with the same steps. -/
theorem C158_reversal {n : ℕ} {P : Params n} (hP : P.Ok) (hm : P.method = .rk4ip) (hs : P.disableSS = true) (ha : ∀ k, P.alpha k = 0)
    (hR : ∀ k, P.R k = 1) (deltaZ dir : ℝ) {f g : Field n} (hdz : 0 < f.dz)
    (hA : ∀ j k : Fin n, ((j : ℕ) + k) % n = 0 → g.A j = (starRingEnd ℂ) (f.A k)) (hz : g.dz = f.dz) (hi : g.iter = f.iter) :
    ∃ f' g', integrate P deltaZ dir f = some f' ∧ integrate P deltaZ (-dir) g = some g' ∧
      (∀ j k : Fin n, ((j : ℕ) + k) % n = 0 → g'.A j = (starRingEnd ℂ) (f'.A k)) ∧ g'.dz = f'.dz ∧ g'.iter = f'.iter := by
  let Q : Params n := { P with betas := mirror P.betas }
  have hQ : Q.Ok := ⟨hP.1, hP.2⟩
  let m : Field n := { f with A := conjF f.A }
  obtain ⟨f', m', h1, h2, h3, h4, h5⟩ := (sends_conj (p := P) (q := Q) hs hs hm rfl (fun k => by show P.alpha k = _; rw [ha, ha, neg_zero])
    (by funext k; show P.R k = (starRingEnd ℂ) (P.R (negIdx k)); rw [hR, hR, map_one]) rfl rfl rfl rfl rfl dir).integrate hP deltaZ hdz (g := m) rfl rfl rfl
  obtain ⟨m2, g', k1, k2, k3, k4, k5⟩ := (sends_mirror (p := Q) (q := P) hs hs (mirror_mirror _).symm (by funext k; show P.alpha k = P.alpha (negIdx k); rw [ha, ha])
    (by funext k; show P.R k = P.R (negIdx k); rw [hR, hR]) rfl rfl rfl rfl rfl (-dir)).integrate hQ deltaZ (f := m) (g := g) hdz
    ((mirror_iff (x := conjF f.A)).1 hA) hz hi
  obtain rfl := Option.some.inj (h2.symm.trans k1)
  refine ⟨f', g', h1, k2, (mirror_iff (x := conjF f'.A)).2 (by rw [k3, h3]), k4.trans h4, k5.trans h5⟩

/-- the hypotheses of C158 hold for a field that is neither real nor symmetric -/
theorem C158_nonvacuous : ∃ P : Params 4, P.Ok ∧ P.method = .rk4ip ∧ P.disableSS = true ∧ (∀ k, P.alpha k = 0) ∧ (∀ k, P.R k = 1) ∧
    (∀ j k : Fin 4, ((j : ℕ) + k) % 4 = 0 → P.betas j = P.betas k) ∧ (∃ k, P.betas k ≠ 0) ∧ P.gamma ≠ 0 ∧
    ∃ f g : Field 4, 0 < f.dz ∧ (∀ j, g.A j = (starRingEnd ℂ) (f.A j)) ∧ g.dz = f.dz ∧ g.iter = f.iter ∧ g.A ≠ f.A := by
  refine ⟨⟨![0, 1, 4, 1], fun _ => 0, fun _ => 0, fun _ => 1, 1, 1, true, .rk4ip, 5, 1, 1⟩, ⟨?_, ?_⟩, rfl, rfl, fun _ => rfl, fun _ => rfl, ?_, ⟨1, ?_⟩, one_ne_zero,
    ⟨![I, 1, 0, 2], ⟨none, 0, fun _ => 0⟩, 0, 1⟩, ⟨conjF ![I, 1, 0, 2], ⟨none, 0, fun _ => 0⟩, 0, 1⟩, one_pos, fun _ => rfl, rfl, rfl, ?_⟩
  · exact one_pos
  · norm_num
  · intro j k
    fin_cases j <;> fin_cases k <;> simp
  · simp
  · intro h
    have := congrArg Complex.im (congrFun h 0)
    simp [conjF] at this
    norm_num at this

end PyNLO
