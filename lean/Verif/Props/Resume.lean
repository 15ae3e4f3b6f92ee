import Verif.Props.SsfmConverge

/-! # C135, C136: a run can be split; reloading an unchanging fibre -/

namespace PyNLO

open Complex Ssfm Pulse

namespace Fiber

/-- two pulses with the same grid and centre -/
structure SameAxes (p q : Pulse) : Prop where
  n : q.n = p.n
  tw : q.tw = p.tw
  cf : q.cf = p.cf
  ready : q.ready = p.ready

/-- the attributes `get_betas` may assign -/
def Touched (f g : Fib) : Prop := g = { f with x := g.x, y := g.y, betas := g.betas }

theorem reload_len (fmt : String) (z : ℝ) (f : Fib) (l : Option ℝ) :
    reload fmt z { f with length := l } = ((reload fmt z f).1, { (reload fmt z f).2 with length := l }) := by
  obtain ⟨bs, len, ft, po, gm, gn, cw, x, y, dc, df, gc, gf⟩ := f
  unfold reload
  dsimp only
  rcases df with _ | g
  · split_ifs <;> rfl
  · rcases h : g z with ⟨x, y⟩ | b <;> simp only [h] <;> split_ifs <;> rfl

/-- fitting the table of a fibre -/
noncomputable def tableFit (polyfit : PolyFit) (p : Pulse) (x y : Option (Vec ℝ)) (po : Option ℕ) : Except PyErr (Vec ℝ × Vec ℝ) := do
  let lam ← p.center_wavelength_nm
  let x ← attr x
  let y ← attr y
  let tab ← stack x y
  let order ← (match po with
    | some o => .ok o
    | none => .error .TypeError)
  let r ← (dTabulationToBetas polyfit lam order tab).1
  let v ← p.V_THz
  .ok (r.betas, v)

theorem betasD_eq (polyfit : PolyFit) (p : Pulse) (f : Fib) : betasD polyfit p f = match tableFit polyfit p f.x f.y f.polyOrder with
    | .error e => (.error e, f)
    | .ok (b, v) => (.ok (v.map (taylor b)), { f with betas := some b }) := rfl

theorem getBetas_len (polyfit : PolyFit) (spline : Spline) (s : Specs) {p q : Pulse} (hpq : SameAxes p q) (z : ℝ) (f : Fib) (l : Option ℝ) :
    getBetas polyfit spline s q z { f with length := l } =
      ((getBetas polyfit spline s p z f).1, { (getBetas polyfit spline s p z f).2 with length := l }) := by
  obtain ⟨n, cf, tw, aw, frep, rd, k1, v1, k2, v2⟩ := p
  obtain ⟨n', cf', tw', aw', frep', rd', k1', v1', k2', v2'⟩ := q
  obtain ⟨h1, h2, h3, h4⟩ := hpq
  simp only at h1 h2 h3 h4
  subst h1 h2 h3 h4
  unfold getBetas
  rcases s.format with _ | fmt
  · rfl
  simp only
  rw [reload_len]
  rcases hr : reload fmt z f with ⟨e | u, f1⟩
  · rfl
  simp only
  split_ifs
  · rw [betasD_eq, betasD_eq]
    show _ = ((match (match tableFit polyfit ⟨n', cf', tw', aw', frep', rd', k1', v1', k2', v2'⟩ f1.x f1.y f1.polyOrder with
      | .error e => (.error e, f1)
      | .ok (b, v) => (.ok (v.map (taylor b)), { f1 with betas := some b }) : Except PyErr (Vec ℝ) × Fib) with
      | (.ok v, f) => (.ok (.arr v), f)
      | (.error e, f) => (.error e, f) : Except PyErr BetaRes × Fib).1, _)
    rcases hA : tableFit polyfit ⟨n', cf', tw', aw', frep', rd', k1', v1', k2', v2'⟩ f1.x f1.y f1.polyOrder with e | ⟨b, v⟩
    · have hB : tableFit polyfit ⟨n', cf', tw', aw, frep, rd', k1, v1, k2, v2⟩ f1.x f1.y f1.polyOrder = .error e := hA
      simp only [hB]
    · have hB : tableFit polyfit ⟨n', cf', tw', aw, frep, rd', k1, v1, k2, v2⟩ f1.x f1.y f1.polyOrder = .ok (b, v) := hA
      simp only [hB]
  · rfl
  · rfl
  · rfl

theorem reload_fix {fmt : String} {z : ℝ} {f f1 : Fib} (h : reload fmt z f = (.ok (), f1)) :
    reload fmt z f1 = (.ok (), f1) ∧ Touched f f1 ∧ (fmt = "D" → ∀ b, reload fmt z { f1 with betas := b } = (.ok (), { f1 with betas := b })) := by
  obtain ⟨bs, len, ft, po, gm, gn, cw, x, y, dc, df, gc, gf⟩ := f
  unfold reload at h ⊢
  dsimp only at h
  rcases dc with _ | _
  · simp only [Bool.false_eq_true, if_false, Prod.mk.injEq, true_and] at h
    subst h
    exact ⟨rfl, rfl, fun _ _ => rfl⟩
  · simp only [if_true] at h
    rcases df with _ | g
    · simp at h
    simp only at h
    split_ifs at h with c1 c2
    · rcases hg : g z with b | ⟨x, y⟩
      · rw [hg] at h; simp at h
      · rw [hg] at h
        simp only [Prod.mk.injEq, true_and] at h
        subst h
        simp only [if_true, if_pos c1, hg]
        exact ⟨trivial, rfl, fun _ _ => trivial⟩
    · rcases hg : g z with b | ⟨x, y⟩
      · rw [hg] at h
        simp only [Prod.mk.injEq, true_and] at h
        subst h
        simp only [if_true, if_neg c1, if_pos c2, hg]
        exact ⟨trivial, rfl, fun c => absurd (Or.inl c) c1⟩
      · rw [hg] at h; simp at h
    · simp only [Prod.mk.injEq, true_and] at h
      subst h
      simp only [if_true, if_neg c1, if_neg c2]
      exact ⟨trivial, rfl, fun _ _ => trivial⟩

theorem betasD_fix {polyfit : PolyFit} {p : Pulse} {f f1 : Fib} {v : Vec ℝ} (h : betasD polyfit p f = (.ok v, f1)) :
    betasD polyfit p f1 = (.ok v, f1) ∧ f1 = { f with betas := f1.betas } := by
  obtain ⟨bs, len, ft, po, gm, gn, cw, x, y, dc, df, gc, gf⟩ := f
  rw [betasD_eq] at h ⊢
  rcases hA : tableFit polyfit p x y po with e | ⟨b, w⟩
  · simp only [hA] at h
    simp at h
  simp only [hA, Prod.mk.injEq, Except.ok.injEq] at h
  obtain ⟨h1, rfl⟩ := h
  simp only [hA, h1, and_self]

theorem getBetas_fix {polyfit : PolyFit} {spline : Spline} {s : Specs} {p : Pulse} {z : ℝ} {f f1 : Fib} {b : BetaRes}
    (h : getBetas polyfit spline s p z f = (.ok b, f1)) :
    getBetas polyfit spline s p z f1 = (.ok b, f1) ∧ Touched f f1 := by
  unfold getBetas at h ⊢
  rcases hf : s.format with _ | fmt
  · rw [hf] at h; simp at h
  rw [hf] at h
  simp only at h ⊢
  rcases hr : reload fmt z f with ⟨e | u, f2⟩
  · rw [hr] at h; simp at h
  rw [hr] at h
  obtain ⟨k1, k2, k3⟩ := reload_fix hr
  simp only at h
  split_ifs at h ⊢ with c1 c2 c3
  · rcases hb : betasD polyfit p f2 with ⟨e | v, f3⟩
    · rw [hb] at h; simp at h
    rw [hb] at h
    simp only [Prod.mk.injEq, Except.ok.injEq] at h
    obtain ⟨rfl, rfl⟩ := h
    obtain ⟨m1, m2⟩ := betasD_fix hb
    have : reload fmt z f3 = (.ok (), f3) := by
      rw [m2]; exact k3 c1 _
    rw [this]
    simp only
    rw [m1]
    refine ⟨rfl, ?_⟩
    unfold Touched at k2 ⊢
    rw [m2]
    conv_lhs => rw [k2]
  · simp only [Prod.mk.injEq] at h
    obtain ⟨h1, rfl⟩ := h
    rw [k1]
    exact ⟨by simp only [h1], k2⟩
  · simp only [Prod.mk.injEq] at h
    obtain ⟨h1, rfl⟩ := h
    rw [k1]
    exact ⟨by simp only [h1], k2⟩
  · simp only [Prod.mk.injEq] at h
    obtain ⟨h1, rfl⟩ := h
    rw [k1]
    exact ⟨by simp only [h1], k2⟩

end Fiber

open Fiber (SameAxes Touched)

/-- the pulse returned for an input pulse `p` when the field is `b` -/
def outPulse (p : Pulse) (b : Fin p.n → ℂ) : Pulse :=
  { init none none with n := p.n, tw := p.tw, cf := p.cf, ready := true, frep := p.frep, aw := some ⟨p.n, b⟩ }

/-- the same fibre cut to another length (`fiber.length = l`) -/
def Ssfm.FibObj.cut (F : FibObj) (l : ℝ) : FibObj := { F with fib := { F.fib with length := some l } }

section
variable {polyfit : Fiber.PolyFit} {spline : Fiber.Spline} {o : Obj} {p : Pulse} {F : FibObj}

theorem load_cut {q : Pulse} (hpq : SameAxes p q) {z : ℝ} {n : ℕ} {P P' : Params n} {F1 : FibObj} (h : loadFiber polyfit spline p z P F = (.ok P', F1)) (l : ℝ) :
    loadFiber polyfit spline q z P (F.cut l) = (.ok P', F1.cut l) ∧ loadFiber polyfit spline q z P (F1.cut l) = (.ok P', F1.cut l) ∧
      F1.specs = F.specs ∧ Touched F.fib F1.fib := by
  obtain ⟨b, B, g, h1, h2, h3, h4, h5⟩ := load_cases h
  obtain ⟨k1, k2⟩ := Fiber.getBetas_fix h1
  have e1 := Fiber.getBetas_len polyfit spline F.specs hpq z F.fib (some l)
  have e2 := Fiber.getBetas_len polyfit spline F.specs hpq z F1.fib (some l)
  rw [h1] at e1
  rw [k1] at e2
  have e3 : Fiber.getGamma { F1.fib with length := some l } z = .ok (some g) := h3
  refine ⟨?_, ?_, h4, k2⟩
  · unfold loadFiber FibObj.cut
    simp only [e1, h2, except_bind_ok, e3, num, h5, h4]
  · unfold loadFiber FibObj.cut
    simp only [h4, e2, h2, except_bind_ok, e3, num, h5]

/-- everything observable about a run on an even grid without reloading -/
theorem propagate_full {o' : Obj} {F' : FibObj} {N : ℕ} {r : Result} (h : propagate polyfit spline o p F N false = some (.ok (r, o', F')))
    {a : Fin p.n → ℂ} (hp : Holds p a) (he : p.n % 2 = 0) : p.cf ≠ 0 ∧ 1 ≤ N ∧
    ∃ (L fR : ℝ) (P0 P : Params p.n) (S : ℕ → Field p.n), F.fib.length = some L ∧ setup o p F = .ok (P0, fftshift (ifftT a), fR) ∧
      loadFiber polyfit spline p 0 P0 F = (.ok P, F') ∧ (S 0).A = fftshift (ifftT a) ∧ (S 0).iter = o.iter ∧ (S 0).dz = o.dz ∧
      (∀ i < N, integrate P (L / N) 1 (S i) = some (S (i + 1))) ∧
      r = ⟨(List.range (N + 1)).map fun i : ℕ => (i : ℝ) * (L / N), (List.range N).map fun i => (⟨p.n, fftT (ifftshift (S (i + 1)).A)⟩ : Vec ℂ),
        (List.range N).map fun i => (⟨p.n, ifftshift (S (i + 1)).A⟩ : Vec ℂ),
        outPulse p (fftT (ifftshift (S N).A))⟩ ∧
      o' = { o with dz := (S N).dz, iter := (S N).iter, fR := fR } := by
  obtain ⟨hN, L, out, P0, A, fR, P, F1, s, out', hL, hc, hs, hl, hseg, hset, hr, ho, hF⟩ := propagate_cases h
  obtain ⟨S, h0, hm, hS⟩ := segLoop_trace N 0 hseg
  obtain ⟨hout, -, hcf⟩ := clone_holds hp hc
  have hA := setup_field hp hs
  have T := trace_even he hS (b := a) (by rw [h0]; exact hout) (by rw [h0]) (by rw [h0])
  obtain ⟨⟨b, hb, hbo⟩, hAT, hAW, hint⟩ := T N (le_refl N)
  have hP : ∀ i, i ≤ N → (S i).P = P ∧ (S i).F = F1 := by
    intro i
    induction i with
    | zero => intro _; rw [h0]; exact ⟨rfl, rfl⟩
    | succ i ih =>
      intro hi
      have hst := (hS i (by omega)).load
      simp only [Bool.false_eq_true, if_false, Prod.mk.injEq, Except.ok.injEq] at hst
      rw [← hst.1, ← hst.2]
      exact ih (by omega)
  rw [hm] at hb hbo hAT hAW
  rw [hb.setAT_eq] at hset
  have hout' : out' = { s.out with aw := some ⟨p.n, fftT (ifftshift s.fld.A)⟩ } := (Prod.mk.inj hset).2.symm
  rw [clone_explicit hp hcf] at hc
  have hc' := Except.ok.inj hc
  have hF1 : F' = F1 := by rw [hF, ← hm]; exact (hP N le_rfl).2
  refine ⟨hcf, by omega, L, fR, P0, P, fun i => (S i).fld, hL, by rw [hs, hA], by rw [hF1]; exact hl, by simp only [h0, hA], by simp only [h0],
    by simp only [h0], fun i hi => ?_, ?_, ?_⟩
  · have := hint i hi
    rwa [(hP (i + 1) (by omega)).1] at this
  · rw [hr, hAT, hAW, hout', hbo, h0, ← hc']
    simp only [hm]
    rfl
  · rw [ho]
    simp only [hm]

/-- the field, the number of iterations and the stored step after an integration do not depend on the cached operator -/
theorem integrate_same {n : ℕ} {P : Params n} (hP : P.Ok) {δ : ℝ} {f g f' g' : Field n} (hdz : 0 < f.dz) (hA : f.A = g.A) (hi : f.iter = g.iter)
    (hd : f.dz = g.dz) (h1 : integrate P δ 1 f = some f') (h2 : integrate P δ 1 g = some g') : f'.A = g'.A ∧ f'.iter = g'.iter ∧ f'.dz = g'.dz := by
  obtain ⟨x, e1, r1⟩ := integrate_spec hP δ 1 hdz
  obtain ⟨y, e2, r2⟩ := integrate_spec hP δ 1 (f := g) (by rw [← hd]; exact hdz)
  rw [h1] at e1
  rw [h2] at e2
  obtain rfl := Option.some.inj e1
  obtain rfl := Option.some.inj e2
  rw [← hA, ← hi, ← hd] at r2
  exact Ssfm.Spec.Returns.unique r1 r2

theorem run_same {n : ℕ} {P : Params n} (hP : P.Ok) {δ : ℝ} (hδ : 0 < δ) {S T : ℕ → Field n} {m : ℕ} (hdz : 0 < (S 0).dz) (hA : (S 0).A = (T 0).A)
    (hi : (S 0).iter = (T 0).iter) (hd : (S 0).dz = (T 0).dz) (h1 : ∀ i < m, integrate P δ 1 (S i) = some (S (i + 1)))
    (h2 : ∀ i < m, integrate P δ 1 (T i) = some (T (i + 1))) :
    ∀ i ≤ m, (S i).A = (T i).A ∧ (S i).iter = (T i).iter ∧ (S i).dz = (T i).dz ∧ 0 < (S i).dz := by
  intro i
  induction i with
  | zero => intro _; exact ⟨hA, hi, hd, hdz⟩
  | succ i ih =>
    intro him
    obtain ⟨q1, q2, q3, q4⟩ := ih (by omega)
    obtain ⟨k1, k2, k3⟩ := integrate_same hP q4 q1 q2 q3 (h1 i (by omega)) (h2 i (by omega))
    refine ⟨k1, k2, k3, ?_⟩
    obtain ⟨f', e, r⟩ := integrate_spec hP δ 1 q4
    rw [h1 i (by omega)] at e
    obtain rfl := Option.some.inj e
    exact spec_dz_pos hP.cfg hδ q4 r

theorem outPulse_holds {a : Fin p.n → ℂ} (hp : Holds p a) (b : Fin p.n → ℂ) : Holds (outPulse p b) b := ⟨rfl, rfl, hp.pos, rfl⟩

theorem outPulse_axes {a : Fin p.n → ℂ} (hp : Holds p a) (b : Fin p.n → ℂ) : SameAxes p (outPulse p b) := ⟨rfl, rfl, rfl, hp.ready.symm⟩

theorem raman_again {a b : Fin p.n → ℂ} (hp : Holds p a) {R0 : Vec ℂ} {fR : ℝ} (h : ramanR o p = .ok (R0, fR)) (d : ℝ) (i : ℕ) :
    ramanR { o with dz := d, iter := i, fR := fR } (outPulse p b) = .ok (R0, fR) := by
  have hT : p.T_ps = .ok ⟨p.n, fun i => ((i : ℕ) - (p.n : ℝ) / 2) * (p.tw / p.n)⟩ := hp.T_eq
  have hT' : (outPulse p b).T_ps = .ok ⟨p.n, fun i => ((i : ℕ) - (p.n : ℝ) / 2) * (p.tw / p.n)⟩ := (outPulse_holds hp b).T_eq
  unfold ramanR at h ⊢
  rw [hT] at h
  rw [hT']
  simp only [except_bind_ok] at h ⊢
  split_ifs at h ⊢ with c1 c2 c3
  · simp only [Except.ok.injEq, Prod.mk.injEq] at h ⊢
    exact ⟨h.1, trivial⟩
  · simp only [Except.ok.injEq, Prod.mk.injEq] at h ⊢
    obtain ⟨h1, h2⟩ := h
    rw [← h1, ← h2]
    exact ⟨rfl, trivial⟩
  · exact h

/-- the set-up for a pulse on the same grid with a solver that was used before -/
theorem setup_again {a : Fin p.n → ℂ} (hp : Holds p a) {P0 : Params p.n} {A : Fin p.n → ℂ} {fR : ℝ} (hs : setup o p F = .ok (P0, A, fR)) (d : ℝ) (i : ℕ)
    (b : Fin p.n → ℂ) {F2 : FibObj} (h1 : F2.specs = F.specs) (h2 : F2.fib.gain = F.fib.gain) (h3 : F2.fib.gamma = F.fib.gamma) :
    setup { o with dz := d, iter := i, fR := fR } (outPulse p b) F2 = .ok (P0, fftshift (ifftT b), fR) := by
  obtain ⟨g, al, R0, R, k1, k2, k3, k4, k5, k6⟩ := setup_cases hp hs
  have hq := outPulse_holds hp b
  have hV : (outPulse p b).V_THz = .ok ⟨p.n, fun i => 2 * Real.pi * ((i : ℕ) - (p.n : ℝ) / 2) / p.tw⟩ := hq.V_eq
  have hg : Fiber.getGain F2.specs F2.fib (outPulse p b) = .ok g := by
    rw [← k1]
    unfold Fiber.getGain
    rw [h1, h2]
    rfl
  have hA : (outPulse p b).AT = .ok ⟨p.n, ifftT b⟩ := hq.AT_eq
  have hf : ∀ {α : Type} (v : Fin p.n → α), fill (outPulse p b).n ⟨p.n, v⟩ = .ok v := fun v => fill_mk v
  have k2' : fill (outPulse p b).n (g.map (-1 * ·)) = .ok al := k2
  have k4' : fill (outPulse p b).n R0 = .ok R := k4
  unfold setup
  rw [hV, hg, raman_again hp k3, hA]
  simp only [except_bind_ok, hf, k2', k4', h3]
  rw [k6]
  rfl

theorem setup_cut {P0 : Params p.n} {A : Fin p.n → ℂ} {fR : ℝ} (hs : setup o p F = .ok (P0, A, fR)) (l : ℝ) : setup o p (F.cut l) = .ok (P0, A, fR) := by
  rw [← hs]
  rfl

theorem params_ok {a : Fin p.n → ℂ} (hp : Holds p a) {P0 P : Params p.n} {A : Fin p.n → ℂ} {fR : ℝ} {F1 : FibObj} (hs : setup o p F = .ok (P0, A, fR))
    (hl : loadFiber polyfit spline p 0 P0 F = (.ok P, F1)) (hmin : 0 < o.dzMin) (heta : 0 < o.eta) : P.Ok := by
  obtain ⟨g, al, R0, R, -, -, -, -, -, e0⟩ := setup_cases hp hs
  obtain ⟨b, B, g, -, -, -, -, e1⟩ := load_cases hl
  rw [e1, e0]
  exact ⟨hmin, heta⟩

theorem Touched.keeps {f g : Fiber.Fib} (h : Touched f g) : g.gain = f.gain ∧ g.gamma = f.gamma ∧ g.length = f.length := by
  unfold Touched at h
  rw [h]
  exact ⟨rfl, rfl, rfl⟩

/-- C135: a run that returned can be continued.  Propagating the returned pulse with the same solver through a further piece of the fibre
(the fibre object returned or a new one, cut to the length `L2`) with segments of the same length gives exactly the further columns, the output
pulse and the solver state of one run through a fibre of length `L1 + L2`. -/
theorem C135_resume {a : Fin p.n → ℂ} (hp : Holds p a) (he : p.n % 2 = 0) {N M : ℕ} {r1 : Result} {o1 : Obj} {F1 F2 : FibObj}
    (h1 : propagate polyfit spline o p F N false = some (.ok (r1, o1, F1))) {L1 L2 : ℝ} (hL1 : F.fib.length = some L1) (hpos1 : 0 < L1) (hpos2 : 0 < L2)
    (hM : 1 ≤ M) (hstep : L1 / N = L2 / M) (hdz : 0 < o.dz) (hmin : 0 < o.dzMin) (heta : 0 < o.eta) (hF2 : F2 = F.cut L2 ∨ F2 = F1.cut L2) :
    ∃ r2 r o2, propagate polyfit spline o1 r1.out F2 M false = some (.ok (r2, o2, F1.cut L2)) ∧
      propagate polyfit spline o p (F.cut (L1 + L2)) (N + M) false = some (.ok (r, o2, F1.cut (L1 + L2))) ∧
      r.AT = r1.AT ++ r2.AT ∧ r.AW = r1.AW ++ r2.AW ∧ r.out = r2.out ∧ r.z = r1.z ++ r2.z.tail.map (L1 + ·) := by
  obtain ⟨hcf, hN, L, fR, P0, P, S, e1, e2, e3, e4, e5, e6, e7, e8, e9⟩ := propagate_full h1 hp he
  rw [hL1] at e1
  obtain rfl := Option.some.inj e1
  have hNr : (0 : ℝ) < N := by exact_mod_cast hN
  have hMr : (0 : ℝ) < M := by exact_mod_cast hM
  have hP := params_ok hp e2 e3 hmin heta
  have hδ : 0 < L1 / N := div_pos hpos1 hNr
  -- the long run
  have hsl := setup_cut e2 (L1 + L2)
  have hll := (load_cut (q := p) ⟨rfl, rfl, rfl, rfl⟩ e3 (L1 + L2)).1
  obtain ⟨r, o', hr, -, -⟩ := C43_returns (N := N + M) (by omega) (F := F.cut (L1 + L2)) (L := L1 + L2) rfl (by linarith) hp hcf hsl hll hdz hmin heta
  obtain ⟨-, -, L', fR', P0', P', T, f1, f2, f3, f4, f5, f6, f7, f8, f9⟩ := propagate_full hr hp he
  obtain rfl := Option.some.inj f1
  rw [hsl] at f2
  have f2' := Except.ok.inj f2
  simp only [Prod.mk.injEq, true_and] at f2'
  obtain ⟨rfl, rfl⟩ := f2'
  rw [hll] at f3
  simp only [Prod.mk.injEq, Except.ok.injEq, and_true] at f3
  subst f3
  have hx : (L1 + L2) / ((N + M : ℕ) : ℝ) = L1 / N := by
    push_cast
    rw [div_eq_div_iff hNr.ne' hMr.ne'] at hstep
    rw [div_eq_div_iff (by positivity) hNr.ne']
    linarith
  rw [hx] at f7 f8
  -- the first part
  have g1 := run_same hP hδ (S := S) (T := T) (m := N) (by rw [e6]; exact hdz) (by rw [e4, f4]) (by rw [e5, f5]) (by rw [e6, f6]) e7
    (fun i hi => f7 i (by omega))
  obtain ⟨gA, gi, gd, gpos⟩ := g1 N le_rfl
  -- the second part
  obtain ⟨-, -, k3, k4⟩ := load_cut (q := p) ⟨rfl, rfl, rfl, rfl⟩ e3 L2
  obtain ⟨m1, m2, m3⟩ := Touched.keeps k4
  have hout : r1.out = outPulse p (fftT (ifftshift (S N).A)) := by rw [e8]
  have hq := outPulse_holds hp (fftT (ifftshift (S N).A))
  have hax := outPulse_axes hp (fftT (ifftshift (S N).A))
  have hload := load_cut hax e3 L2
  have hF2s : F2.specs = F.specs ∧ F2.fib.gain = F.fib.gain ∧ F2.fib.gamma = F.fib.gamma ∧ F2.fib.length = some L2 ∧
      loadFiber polyfit spline (outPulse p (fftT (ifftshift (S N).A))) 0 P0 F2 = (.ok P, F1.cut L2) := by
    rcases hF2 with rfl | rfl
    · exact ⟨rfl, rfl, rfl, rfl, hload.1⟩
    · exact ⟨k3, m1, m2, rfl, hload.2.1⟩
  obtain ⟨q1, q2, q3, q4, q5⟩ := hF2s
  have hs2 := setup_again hp e2 (S N).dz (S N).iter (fftT (ifftshift (S N).A)) q1 q2 q3
  rw [← e9] at hs2
  obtain ⟨r2, o2, hr2, -, -⟩ := C43_returns (p := outPulse p (fftT (ifftshift (S N).A))) (N := M) hM q4 hpos2 hq hcf hs2 q5
    (by rw [e9]; exact gpos) (by rw [e9]; exact hmin) (by rw [e9]; exact heta)
  obtain ⟨-, -, L', fR', P0', P', U, u1, u2, u3, u4, u5, u6, u7, u8, u9⟩ := propagate_full hr2 hq he
  rw [q4] at u1
  obtain rfl := Option.some.inj u1
  rw [hs2] at u2
  have u2' := Except.ok.inj u2
  obtain ⟨v1, v2⟩ := Prod.mk.inj u2'
  obtain ⟨-, v3⟩ := Prod.mk.inj v2
  subst v1 v3
  have u3' := q5.symm.trans u3
  have v4 : P = P' := Except.ok.inj (Prod.mk.inj u3').1
  subst v4
  rw [← hstep] at u7 u8
  have u4' : (U 0).A = (S N).A := by
    have : fftshift (ifftT (fftT (ifftshift (S N).A))) = (S N).A := by rw [ifftT_fftT, fftshift_ifftshift]
    exact u4.trans this
  have u7' : ∀ i < M, integrate P (L1 / N) 1 (U i) = some (U (i + 1)) := u7
  have g2 := run_same hP hδ (S := U) (T := fun i => T (N + i)) (m := M) (by rw [u6, e9]; exact gpos) (by rw [u4', gA]; rfl)
    (by rw [u5, e9]; exact gi) (by rw [u6, e9]; exact gd) u7' (fun i hi => f7 (N + i) (by omega))
  obtain ⟨cA, ci, cd, -⟩ := g2 M le_rfl
  refine ⟨r2, r, o', ?_, hr, ?_, ?_, ?_, ?_⟩
  · rw [hout, hr2, u9, f9, e9]
    simp only [ci, cd]
  · rw [f8, e8, u8]
    simp only
    rw [List.range_add, List.map_append, List.map_map]
    congr 1
    · refine List.map_congr_left fun i hi => ?_
      rw [(g1 (i + 1) (by have := List.mem_range.1 hi; omega)).1]
    · refine List.map_congr_left fun i hi => ?_
      have := (g2 (i + 1) (by have := List.mem_range.1 hi; omega)).1
      show (⟨p.n, ifftshift (T (N + i + 1)).A⟩ : Vec ℂ) = ⟨p.n, ifftshift (U (i + 1)).A⟩
      rw [show (U (i + 1)).A = (T (N + i + 1)).A from this]
  · rw [f8, e8, u8]
    simp only
    rw [List.range_add, List.map_append, List.map_map]
    congr 1
    · refine List.map_congr_left fun i hi => ?_
      rw [(g1 (i + 1) (by have := List.mem_range.1 hi; omega)).1]
    · refine List.map_congr_left fun i hi => ?_
      have := (g2 (i + 1) (by have := List.mem_range.1 hi; omega)).1
      show (⟨p.n, fftT (ifftshift (T (N + i + 1)).A)⟩ : Vec ℂ) = ⟨p.n, fftT (ifftshift (U (i + 1)).A)⟩
      rw [show (U (i + 1)).A = (T (N + i + 1)).A from this]
  · rw [f8, u8]
    show outPulse p (fftT (ifftshift (T (N + M)).A)) = outPulse p (fftT (ifftshift (U M).A))
    rw [cA]
  · rw [f8, e8, u8]
    simp only
    rw [show N + M + 1 = N + 1 + M by omega, List.range_add, List.map_append, List.map_map]
    congr 1
    rw [List.range_succ_eq_map, List.map_cons, List.tail_cons, List.map_map, List.map_map]
    refine List.map_congr_left fun i _ => ?_
    simp only [Function.comp, Nat.succ_eq_add_one]
    have : L1 = N * (L1 / N) := by field_simp
    push_cast
    nth_rw 2 [this]
    ring

/-- C135 applies to every pulse on an even grid and every generated fibre of length 3 cm with the default solver: two thirds of the fibre in two
segments, then the rest in one. -/
theorem C135_nonvacuous (polyfit : Fiber.PolyFit) (spline : Fiber.Spline) {p : Pulse} {a : Fin p.n → ℂ} (hp : Holds p a) (hcf : p.cf ≠ 0) (hn : 2 ≤ p.n)
    (he : p.n % 2 = 0) {wl gamma gain : ℝ} {b : Vec ℝ} {units label : String} (hwl : wl ≠ 0) :
    let G : ℝ → FibObj := fun l => ⟨Fiber.genFib l wl b gamma gain units label Fiber.Fib.new, Fiber.genSpecs gain⟩
    ∃ r1 o1 r2 o2 r, propagate polyfit spline Obj.default p (G 0.02) 2 false = some (.ok (r1, o1, G 0.02)) ∧
      propagate polyfit spline o1 r1.out (G 0.01) 1 false = some (.ok (r2, o2, G 0.01)) ∧
      propagate polyfit spline Obj.default p (G (0.02 + 0.01)) 3 false = some (.ok (r, o2, G (0.02 + 0.01))) ∧ r.AT = r1.AT ++ r2.AT ∧ r.out = r2.out := by
  intro G
  obtain ⟨β, R, fR, h⟩ := loads_generated polyfit spline Obj.default hp hn (length := 0.02) (gamma := gamma) (gain := gain)
    (b := b) (units := units) (label := label) hwl (Or.inr (by norm_num [Obj.default]))
  obtain ⟨P0, P, hs, hl, -, -⟩ := setup_carries hp h
  obtain ⟨r1, o1, h1, -, -⟩ := C43_returns (N := 2) (by norm_num) (F := G 0.02) (L := 0.02) rfl (by norm_num) hp hcf hs hl (by norm_num [Obj.default])
    (by norm_num [Obj.default]) (by norm_num [Obj.default])
  obtain ⟨r2, r, o2, q1, q2, q3, -, q5, -⟩ := C135_resume hp he h1 (L2 := 0.01) (M := 1) (F2 := G 0.01) rfl (by norm_num) (by norm_num) le_rfl (by norm_num)
    (by norm_num [Obj.default]) (by norm_num [Obj.default]) (by norm_num [Obj.default]) (Or.inl rfl)
  exact ⟨r1, o1, r2, o2, r, h1, q1, q2, q3, q5⟩

/-! ## C136 -/

theorem getBetas_still {s : Fiber.Specs} {f : Fiber.Fib} (h : f.dispChanges = false) (z z' : ℝ) :
    Fiber.getBetas polyfit spline s p z f = Fiber.getBetas polyfit spline s p z' f := by
  unfold Fiber.getBetas Fiber.reload
  simp only [h, Bool.false_eq_true, if_false]

theorem load_still {n : ℕ} {P P' : Params n} {F1 : FibObj} (h : loadFiber polyfit spline p 0 P F = (.ok P', F1)) (hd : F.fib.dispChanges = false)
    (hg : F.fib.gammaChanges = false) (z : ℝ) : loadFiber polyfit spline p z P' F1 = (.ok P', F1) := by
  obtain ⟨b, B, g, h1, h2, h3, h4, h5⟩ := load_cases h
  obtain ⟨k1, k2⟩ := Fiber.getBetas_fix h1
  have hd' : F1.fib.dispChanges = false := by unfold Touched at k2; rw [k2]; exact hd
  have hg' : F1.fib.gammaChanges = false := by unfold Touched at k2; rw [k2]; exact hg
  have h3' : Fiber.getGamma F1.fib z = .ok (some g) := by
    rw [← h3]
    unfold Fiber.getGamma
    simp only [hg', Bool.false_eq_true, if_false]
  unfold loadFiber
  rw [h4, getBetas_still hd' z 0, k1]
  simp only [h2, except_bind_ok, h3', num, h5]
  rw [← h4]

theorem segLoop_still {n : ℕ} {δ : ℝ} : ∀ (m i : ℕ) (s : Seg n), (∀ z, loadFiber polyfit spline p z s.P s.F = (.ok s.P, s.F)) →
    segLoop polyfit spline p true δ m i s = segLoop polyfit spline p false δ m i s := by
  intro m
  induction m with
  | zero => intro i s _; rfl
  | succ m ih =>
    intro i s hs
    unfold segLoop
    simp only [if_true, Bool.false_eq_true, if_false, hs]
    rcases integrate s.P δ 1 s.fld with _ | fld
    · rfl
    simp only
    rcases hr : record { s with P := s.P, F := s.F, fld := fld } with e | s1
    · rfl
    simp only
    obtain ⟨q1, q2⟩ := record_PF hr
    exact ih (i + 1) s1 (by rw [q1, q2]; exact hs)

/-- C136: for a fibre whose dispersion and nonlinearity do not depend on the position, `reload_fiber_each_step` has no effect: same columns, same
output, same solver and fibre state, same exceptions, and the run ends in the same cases. -/
theorem C136_reload (polyfit : Fiber.PolyFit) (spline : Fiber.Spline) (o : Obj) (p : Pulse) {F : FibObj} (N : ℕ) (hd : F.fib.dispChanges = false)
    (hg : F.fib.gammaChanges = false) : propagate polyfit spline o p F N true = propagate polyfit spline o p F N false := by
  unfold propagate
  by_cases hN : N = 0
  · rw [if_pos hN, if_pos hN]
  rw [if_neg hN, if_neg hN]
  split
  · rfl
  rename_i L out P A fR heq
  rcases hl : loadFiber polyfit spline p 0 P F with ⟨e | P', F1⟩
  · rfl
  simp only
  rw [segLoop_still N 0 _ (load_still hl hd hg)]

/-- C136 applies to every generated fibre, where the runs do return a result. -/
theorem C136_nonvacuous (polyfit : Fiber.PolyFit) (spline : Fiber.Spline) {p : Pulse} {a : Fin p.n → ℂ} (hp : Holds p a) (hcf : p.cf ≠ 0) (hn : 2 ≤ p.n)
    {length wl gamma gain : ℝ} {b : Vec ℝ} {units label : String} (hwl : wl ≠ 0) (hL : 0 < length) {N : ℕ} (hN : 1 ≤ N) : ∃ r o' F',
    propagate polyfit spline Obj.default p ⟨Fiber.genFib length wl b gamma gain units label Fiber.Fib.new, Fiber.genSpecs gain⟩ N true =
      some (.ok (r, o', F')) := by
  obtain ⟨r, o', F', h⟩ := C43_nonvacuous polyfit spline hp hcf hn (gamma := gamma) (gain := gain) (b := b) (units := units) (label := label) hwl hL hN
  exact ⟨r, o', F', by rw [C136_reload polyfit spline _ p N rfl rfl]; exact h⟩

end

end PyNLO
