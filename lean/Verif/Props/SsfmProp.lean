import Verif.Lemmas.SsfmProp
import Verif.Props.Ssfm
import Verif.Props.Fiber

/-! # C41 (end to end), C43, C44 (set-up), C49–C51: `propagate`, Raman response, coherence, gain goal -/

namespace PyNLO

open Complex Ssfm Pulse

/-! ## C43 -/

/-- the pulse grid a result refers to -/
def SameGrid (p q : Pulse) : Prop := q.n = p.n ∧ q.tw = p.tw ∧ q.cf = p.cf ∧ q.frep = p.frep

section
open PyM

theorem clone_explicit {p : Pulse} {n : ℕ} {a : Fin n → ℂ} (h : Holds p a) (hcf : p.cf ≠ 0) :
    createClonedPulse p = .ok { init none none with n := n, tw := p.tw, cf := p.cf, ready := true, frep := p.frep, aw := some ⟨n, a⟩ } := by
  have hcl : clonePulse p (init none none) = (.ok (), { init none none with
      n := n, tw := p.tw, cf := p.cf, ready := true, frep := p.frep, aw := some ⟨n, a⟩ }) := by
    rw [← clone_core p.frep h hcf (init none none) rfl]
    unfold clonePulse
    have hw : center_wavelength_nm p = .ok (cNmps / p.cf) := by simp [center_wavelength_nm, hcf]
    simp only [bind_apply, modify_apply, lift_apply, hw, h.AT_eq]
  unfold createClonedPulse; rw [hcl]

theorem clone_holds {p : Pulse} {n : ℕ} {a : Fin n → ℂ} (h : Holds p a) {q : Pulse} (hq : createClonedPulse p = .ok q) :
    Holds q a ∧ SameGrid p q ∧ p.cf ≠ 0 := by
  have hcf : p.cf ≠ 0 := by
    intro h0
    unfold createClonedPulse clonePulse at hq
    have hw : center_wavelength_nm p = .error .ZeroDivisionError := by simp [center_wavelength_nm, h0]
    simp [bind_apply, modify_apply, lift_apply, hw] at hq
  rw [clone_explicit h hcf] at hq
  have e' := Except.ok.inj hq
  rw [← e']
  exact ⟨⟨rfl, rfl, h.pos, rfl⟩, ⟨h.npts.symm, rfl, rfl, rfl⟩, hcf⟩

end

/-- what a successful set-up contains -/
theorem setup_cases {o : Obj} {p : Pulse} {F : FibObj} {a : Fin p.n → ℂ} (h : Holds p a) {P0 : Params p.n} {A : Fin p.n → ℂ}
    {fR : ℝ} (hs : setup o p F = .ok (P0, A, fR)) : ∃ g al R0 R, Fiber.getGain F.specs F.fib p = .ok g ∧
      fill p.n (g.map (-1 * ·)) = .ok al ∧ ramanR o p = .ok (R0, fR) ∧ fill p.n R0 = .ok R ∧ A = fftshift (ifftT a) ∧
      P0 = { betas := fun _ => 0, alpha := fftshift al, omegas := fftshift fun i : Fin p.n => 2 * Real.pi * ((i : ℕ) - (p.n : ℝ) / 2) / p.tw, R := fftshift R, gamma := F.fib.gamma.getD 0, w0 := p.center_frequency_THz * 2 * Real.pi, disableSS := o.disableSS, method := o.method, eta := o.eta, localError := o.localError, dzMin := o.dzMin } := by
  unfold setup at hs
  have hV : p.V_THz = .ok ⟨p.n, fun i => 2 * Real.pi * ((i : ℕ) - (p.n : ℝ) / 2) / p.tw⟩ := h.V_eq
  rw [hV] at hs
  simp only [except_bind_ok, fill_mk] at hs
  rcases hg : Fiber.getGain F.specs F.fib p with e | g
  · rw [hg] at hs; simp at hs
  rw [hg] at hs
  simp only [except_bind_ok] at hs
  rcases hal : fill p.n (g.map (-1 * ·)) with e | al
  · rw [hal] at hs; simp at hs
  rw [hal] at hs
  simp only [except_bind_ok] at hs
  rcases hR : ramanR o p with e | ⟨R, fR'⟩
  · rw [hR] at hs; simp at hs
  rw [hR] at hs
  simp only [except_bind_ok] at hs
  rcases hR2 : fill p.n R with e | R2
  · rw [hR2] at hs; simp at hs
  rw [hR2] at hs
  simp only [except_bind_ok, h.AT_eq, fill_mk, Except.ok.injEq, Prod.mk.injEq] at hs
  exact ⟨g, al, R, R2, rfl, hal, by rw [hs.2.2], hR2, hs.2.1.symm, hs.1.symm⟩

theorem setup_field {o : Obj} {p : Pulse} {F : FibObj} {a : Fin p.n → ℂ} (h : Holds p a) {P0 : Params p.n} {A : Fin p.n → ℂ}
    {fR : ℝ} (hs : setup o p F = .ok (P0, A, fR)) : A = fftshift (ifftT a) := by
  obtain ⟨-, -, -, -, -, -, -, -, h, -⟩ := setup_cases h hs
  exact h

/-- what a successful loading of fibre parameters does -/
theorem load_cases {polyfit : Fiber.PolyFit} {spline : Fiber.Spline} {p : Pulse} {z : ℝ} {n : ℕ} {P P' : Params n} {F F' : FibObj}
    (h : loadFiber polyfit spline p z P F = (.ok P', F')) : ∃ b B g, Fiber.getBetas polyfit spline F.specs p z F.fib = (.ok b, F'.fib) ∧
      betaArr n b = .ok B ∧ Fiber.getGamma F'.fib z = .ok (some g) ∧ F'.specs = F.specs ∧
      P' = { P with betas := fftshift B, gamma := g } := by
  unfold loadFiber at h
  rcases hb : Fiber.getBetas polyfit spline F.specs p z F.fib with ⟨e | b, f⟩
  · rw [hb] at h; simp at h
  rw [hb] at h
  simp only at h
  rcases hB : betaArr n b with e | B
  · rw [hB] at h; simp at h
  rw [hB] at h
  simp only [except_bind_ok] at h
  rcases hg : Fiber.getGamma f z with e | g
  · rw [hg] at h; simp at h
  rw [hg] at h
  simp only [except_bind_ok] at h
  rcases g with _ | g
  · simp [num] at h
  simp only [num, except_bind_ok, Prod.mk.injEq, Except.ok.injEq] at h
  obtain ⟨h1, h2⟩ := h
  subst h2
  exact ⟨b, B, g, rfl, hB, hg, rfl, h1.symm⟩

/-- C43 (even grids): whatever `propagate` returns, there are fields `S 0, …, S N` and parameters such that `S 0` is the
input pulse and `S (i+1)` is `S i` integrated over `length/n_steps`; `AT[:,i]` is `S (i+1)` in the time order of the
pulse; `AW[:,i]` is the transform of `AT[:,i]`; `pulse_out` has the grid of the input pulse and its `AT` is the last
column; positions are equally spaced.  Without reloading, the parameters are the same for all segments. -/
theorem C43_bookkeeping {polyfit : Fiber.PolyFit} {spline : Fiber.Spline} {o o' : Obj} {p : Pulse} {F F' : FibObj} {N : ℕ}
    {reload : Bool} {r : Result} (h : propagate polyfit spline o p F N reload = some (.ok (r, o', F'))) {a : Fin p.n → ℂ}
    (hp : Holds p a) (he : p.n % 2 = 0) :
    1 ≤ N ∧ ∃ (L : ℝ) (S : ℕ → Field p.n) (P : ℕ → Params p.n), F.fib.length = some L ∧
      ifftshift (S 0).A = ifftT a ∧ (S 0).dz = o.dz ∧ (S 0).iter = o.iter ∧
      (∀ i < N, integrate (P i) (L / N) 1 (S i) = some (S (i + 1))) ∧
      (reload = false → ∀ i, P i = P 0) ∧
      r.z = (List.range (N + 1)).map (fun i : ℕ => (i : ℝ) * (L / N)) ∧
      r.AT = (List.range N).map (fun i => (⟨p.n, ifftshift (S (i + 1)).A⟩ : Vec ℂ)) ∧
      r.AW.length = N ∧ (∀ i (h1 : i < r.AT.length) (h2 : i < r.AW.length), FFT_t r.AT[i] = .ok r.AW[i]) ∧
      SameGrid p r.out ∧ r.AT.getLast?.map Except.ok = some (r.out.AT) ∧
      o'.dz = (S N).dz ∧ o'.iter = (S N).iter := by
  obtain ⟨hN, L, out, P0, A, fR, P, F1, s, out', hL, hc, hs, hl, hseg, hset, hr, ho, -⟩ := propagate_cases h
  obtain ⟨S, h0, hm, hS⟩ := segLoop_trace N 0 hseg
  obtain ⟨hout, hgrid, -⟩ := clone_holds hp hc
  have hA := setup_field hp hs
  have T := trace_even he hS (b := a) (by rw [h0]; exact hout) (by rw [h0]) (by rw [h0])
  obtain ⟨⟨b, hb, hbo⟩, hAT, hAW, hint⟩ := T N (le_refl N)
  rw [hm] at hb hbo hAT hAW
  rw [hb.setAT_eq] at hset
  have hout' : out' = { s.out with aw := some ⟨p.n, fftT (ifftshift s.fld.A)⟩ } := (Prod.mk.inj hset).2.symm
  have hpos : 0 < p.n := hp.pos
  have hlen : r.AT.length = N := by rw [hr]; simp [hAT]
  refine ⟨by omega, L, fun i => (S i).fld, fun i => (if reload then (S (i + 1)).P else P), hL, ?_, ?_, ?_, ?_, ?_, ?_, ?_, ?_, ?_, ?_, ?_, ?_, ?_⟩
  · simp only [h0, hA, ifftshift_fftshift]
  · simp only [h0]
  · simp only [h0]
  · intro i hi
    have := hint i hi
    cases reload with
    | true => simpa using this
    | false =>
      have hP : ∀ i, i ≤ N → (S i).P = P := by
        intro i
        induction i with
        | zero => intro _; rw [h0]
        | succ i ih =>
          intro hi
          have hst := (hS i (by omega)).load
          simp only [Bool.false_eq_true, if_false, Prod.mk.injEq, Except.ok.injEq] at hst
          rw [← hst.1, ih (by omega)]
      rw [hP (i + 1) (by omega)] at this
      simpa using this
  · intro hrl i
    simp [hrl]
  · rw [hr]; rfl
  · rw [hr]; exact hAT
  · rw [hr]; simp [hAW]
  · intro i h1 h2
    have e1 : r.AT[i] = ⟨p.n, ifftshift (S (i + 1)).fld.A⟩ := by
      subst hr
      simp only [hAT, List.getElem_map, List.getElem_range]
    have e2 : r.AW[i] = ⟨p.n, fftT (ifftshift (S (i + 1)).fld.A)⟩ := by
      subst hr
      simp only [hAW, List.getElem_map, List.getElem_range]
    rw [e1, e2, FFT_t_mk hpos]
  · rw [hr]
    simp only [hout', hbo, h0]
    exact hgrid
  · have e1 : r.AT.getLast? = some ⟨p.n, ifftshift s.fld.A⟩ := by
      rw [hr]
      simp only
      rw [hAT]
      obtain ⟨M, rfl⟩ : ∃ M, N = M + 1 := ⟨N - 1, by omega⟩
      rw [List.range_succ, List.map_append, List.map_singleton, List.getLast?_concat, hm]
    rw [e1]
    simp only [Option.map_some, Option.some.injEq]
    rw [hr]
    simp only [hout']
    rw [(hb.update _).AT_eq, ifftT_fftT]
  · rw [ho]
    simp only [hm]
  · rw [ho]
    simp only [hm]

/-- C43: `n_steps = 0` raises `IndexError`. -/
theorem C43_zero_steps (polyfit : Fiber.PolyFit) (spline : Fiber.Spline) (o : Obj) (p : Pulse) (F : FibObj) (reload : Bool)
    {L : ℝ} (hL : F.fib.length = some L) : propagate polyfit spline o p F 0 reload = some (.error .IndexError) := by
  unfold propagate; rw [if_pos rfl, hL]; rfl

/-- the segments always return when the parameters are not reloaded -/
theorem segLoop_returns {polyfit : Fiber.PolyFit} {spline : Fiber.Spline} {p : Pulse} {deltaZ : ℝ} (hd : 0 < deltaZ) {n : ℕ} :
    ∀ (m i : ℕ) (s : Seg n) (b : Fin n → ℂ), s.P.Ok → 0 < s.fld.dz → Holds s.out b →
      ∃ s', segLoop polyfit spline p false deltaZ m i s = some (.ok s') ∧ (∃ b' : Fin n → ℂ, Holds s'.out b') ∧ 0 < s'.fld.dz ∧ s'.F = s.F := by
  intro m
  induction m with
  | zero => intro i s b _ hdz hb; exact ⟨s, rfl, ⟨b, hb⟩, hdz, rfl⟩
  | succ m ih =>
    intro i s b hP hdz hb
    obtain ⟨f', e, r⟩ := integrate_spec hP deltaZ 1 hdz
    have hdz' := spec_dz_pos hP.cfg hd hdz r
    have hrec := record_eq (s := { s with P := s.P, F := s.F, fld := f' }) (b := b) hb
    obtain ⟨s', h1, h2⟩ := ih (i + 1) { s with fld := { f' with A := ifftshift (ifftshift f'.A) }, out := { s.out with aw := some ⟨n, fftT (ifftshift (ifftshift f'.A))⟩ }, AW := s.AW ++ [⟨n, ifftshift (ifft f'.A)⟩], AT := s.AT ++ [⟨n, ifftshift f'.A⟩] } _ hP hdz' (hb.update (fftT (ifftshift (ifftshift f'.A))))
    refine ⟨s', ?_, h2⟩
    unfold segLoop
    simp only [Bool.false_eq_true, if_false, e, hrec]
    exact h1

/-- C43: `propagate` (without reloading) returns whenever its set-up succeeds, the fibre has a positive length and the
solver positive steps: there is no hidden way to fail or to loop. -/
theorem C43_returns {polyfit : Fiber.PolyFit} {spline : Fiber.Spline} {o : Obj} {p : Pulse} {F F1 : FibObj} {N : ℕ} {L : ℝ}
    {P0 P : Params p.n} {A : Fin p.n → ℂ} {fR : ℝ} (hN : 1 ≤ N) (hL : F.fib.length = some L) (hpos : 0 < L) {a : Fin p.n → ℂ}
    (hp : Holds p a) (hcf : p.cf ≠ 0) (hs : setup o p F = .ok (P0, A, fR)) (hl : loadFiber polyfit spline p 0 P0 F = (.ok P, F1))
    (hdz : 0 < o.dz) (hmin : 0 < o.dzMin) (heta : 0 < o.eta) :
    ∃ r o', propagate polyfit spline o p F N false = some (.ok (r, o', F1)) ∧ o' = { o with dz := o'.dz, iter := o'.iter, fR := o'.fR } ∧ 0 < o'.dz := by
  have hN0 : N ≠ 0 := by omega
  have hNr : (0 : ℝ) < N := by exact_mod_cast hN
  have hP : P.Ok := by
    obtain ⟨g, al, R0, R, -, -, -, -, -, e0⟩ := setup_cases hp hs
    obtain ⟨b, B, g, -, -, -, -, e1⟩ := load_cases hl
    rw [e1, e0]
    exact ⟨hmin, heta⟩
  have hdel : (if N = 1 then L else 1 * (L / N) - 0 * (L / N)) = L / N := by
    split_ifs with h1
    · rw [h1]; simp
    · ring
  have hc := clone_explicit hp hcf
  obtain ⟨s', h1, ⟨b', h2⟩, h3, h4⟩ := segLoop_returns (polyfit := polyfit) (spline := spline) (p := p) (div_pos hpos hNr) N 0
    ⟨P, F1, ⟨A, ⟨none, 0, fun _ => 0⟩, o.iter, o.dz⟩, { init none none with n := p.n, tw := p.tw, cf := p.cf, ready := true, frep := p.frep, aw := some ⟨p.n, a⟩ }, [], []⟩
    a hP hdz ⟨rfl, rfl, hp.pos, rfl⟩
  unfold propagate
  rw [if_neg hN0, hL, hc, hs]
  simp only [except_bind_ok, hl, hdel, h1, h2.setAT_eq]
  exact ⟨_, _, by rw [h4], rfl, h3⟩

/-- the set-up of a generated fibre succeeds -/
theorem setup_generated (o : Obj) {p : Pulse} {a : Fin p.n → ℂ} (hp : Holds p a) (length wl gamma gain : ℝ) (b : Vec ℝ) (units label : String)
    (ht : o.disableRaman = true ∨ o.tau1 * o.tau2 ^ 2 ≠ 0) :
    ∃ P0 A fR, setup o p ⟨Fiber.genFib length wl b gamma gain units label Fiber.Fib.new, Fiber.genSpecs gain⟩ = .ok (P0, A, fR) := by
  have hV : p.V_THz = .ok ⟨p.n, fun i => 2 * Real.pi * ((i : ℕ) - (p.n : ℝ) / 2) / p.tw⟩ := hp.V_eq
  have hT : p.T_ps = .ok ⟨p.n, fun i => ((i : ℕ) - (p.n : ℝ) / 2) * (p.tw / p.n)⟩ := hp.T_eq
  have hg : ∃ g : Fin p.n → ℝ, Fiber.getGain (Fiber.genSpecs gain) (Fiber.genFib length wl b gamma gain units label Fiber.Fib.new) p = .ok ⟨p.n, g⟩ := by
    unfold Fiber.getGain Fiber.genSpecs
    by_cases h : gain = 0
    · simp only [if_pos h, Fiber.key, except_bind_ok, Bool.false_eq_true, if_false]
      exact ⟨_, rfl⟩
    · simp only [if_neg h, Fiber.key, except_bind_ok, if_true, Fiber.genFib, Fiber.attr]
      exact ⟨_, rfl⟩
  obtain ⟨g, hg⟩ := hg
  have hR : ∃ (R : Fin p.n → ℂ) (fR : ℝ), ramanR o p = .ok (⟨p.n, R⟩, fR) := by
    unfold ramanR
    by_cases h : o.disableRaman = true
    · rw [if_pos h]; exact ⟨_, _, rfl⟩
    · rw [if_neg h, if_neg (ht.resolve_left h), hT]
      simp only [except_bind_ok]
      split_ifs
      · exact ⟨_, _, rfl⟩
      · exact ⟨_, _, rfl⟩
  obtain ⟨R, fR, hR⟩ := hR
  unfold setup
  simp only [hV, hg, hR, except_bind_ok, fill_mk, Vec.map_mk, hp.AT_eq]
  exact ⟨_, _, _, rfl⟩

/-- propagation through a generated fibre -/
theorem generated_returns (polyfit : Fiber.PolyFit) (spline : Fiber.Spline) (o : Obj) {p : Pulse} {a : Fin p.n → ℂ} (hp : Holds p a) (hcf : p.cf ≠ 0)
    (hn : 2 ≤ p.n) {length wl gamma gain : ℝ} {b : Vec ℝ} {units label : String} (hwl : wl ≠ 0) (hL : 0 < length) {N : ℕ} (hN : 1 ≤ N)
    (ht : o.disableRaman = true ∨ o.tau1 * o.tau2 ^ 2 ≠ 0) (hdz : 0 < o.dz) (hmin : 0 < o.dzMin) (heta : 0 < o.eta) :
    ∃ r o', propagate polyfit spline o p ⟨Fiber.genFib length wl b gamma gain units label Fiber.Fib.new, Fiber.genSpecs gain⟩ N false =
      some (.ok (r, o', ⟨Fiber.genFib length wl b gamma gain units label Fiber.Fib.new, Fiber.genSpecs gain⟩)) ∧
      o' = { o with dz := o'.dz, iter := o'.iter, fR := o'.fR } ∧ 0 < o'.dz := by
  obtain ⟨P0, A, fR, hs⟩ := setup_generated o hp length wl gamma gain b units label ht
  obtain ⟨α, β, hb⟩ := getBetas_gvd polyfit spline (s := Fiber.genSpecs gain) (p := p) 0
    (f := Fiber.genFib length wl b gamma gain units label Fiber.Fib.new) hp.ready hn rfl rfl rfl rfl hwl
  have hl : ∃ P, loadFiber polyfit spline p 0 P0 ⟨Fiber.genFib length wl b gamma gain units label Fiber.Fib.new, Fiber.genSpecs gain⟩ =
      (.ok P, ⟨Fiber.genFib length wl b gamma gain units label Fiber.Fib.new, Fiber.genSpecs gain⟩) := by
    unfold loadFiber
    simp only [hb, betaArr, fill_mk, except_bind_ok]
    exact ⟨_, rfl⟩
  obtain ⟨P, hl⟩ := hl
  exact C43_returns hN rfl hL hp hcf hs hl hdz hmin heta

/-- C43 is not vacuous: with default settings every even or odd grid of at least two points, every field and every
generated fibre of positive length propagates. -/
theorem C43_nonvacuous (polyfit : Fiber.PolyFit) (spline : Fiber.Spline) {p : Pulse} {a : Fin p.n → ℂ} (hp : Holds p a) (hcf : p.cf ≠ 0)
    (hn : 2 ≤ p.n) {length wl gamma gain : ℝ} {b : Vec ℝ} {units label : String} (hwl : wl ≠ 0) (hL : 0 < length) {N : ℕ} (hN : 1 ≤ N) :
    ∃ r o' F', propagate polyfit spline Obj.default p ⟨Fiber.genFib length wl b gamma gain units label Fiber.Fib.new, Fiber.genSpecs gain⟩ N false =
      some (.ok (r, o', F')) := by
  obtain ⟨r, o', h, -⟩ := generated_returns polyfit spline Obj.default hp hcf hn (gamma := gamma) (gain := gain) (b := b) (units := units) (label := label) hwl hL hN
    (Or.inr (by norm_num [Obj.default])) (by norm_num [Obj.default]) (by norm_num [Obj.default]) (by norm_num [Obj.default])
  exact ⟨r, o', _, h⟩

/-- the last segment on any grid -/
theorem trace_last {polyfit : Fiber.PolyFit} {spline : Fiber.Spline} {p : Pulse} {reload : Bool} {deltaZ : ℝ} {n : ℕ} {m : ℕ}
    {S : ℕ → Seg n} (hS : ∀ j < m, Step polyfit spline p reload deltaZ (0 + j) (S j) (S (j + 1))) {b : Fin n → ℂ}
    (h0 : Holds (S 0).out b) (j : ℕ) (hj : j ≤ m) : (∃ b : Fin n → ℂ, Holds (S j).out b) ∧
      ∀ i, j = i + 1 → ∃ fld, integrate (S j).P deltaZ 1 (S i).fld = some fld ∧ (S j).fld.A = ifftshift (ifftshift fld.A) ∧
        (S j).AT = (S i).AT ++ [⟨n, ifftshift fld.A⟩] := by
  induction j with
  | zero => exact ⟨⟨b, h0⟩, fun i hi => by omega⟩
  | succ j ih =>
    obtain ⟨⟨b, hb⟩, -⟩ := ih (by omega)
    obtain ⟨hl, fld, hi, hr⟩ := hS j (by omega)
    rw [record_eq (s := { S j with P := (S (j + 1)).P, F := (S (j + 1)).F, fld := fld }) (b := b) hb] at hr
    have hr' := Except.ok.inj hr
    refine ⟨⟨fftT (ifftshift (ifftshift fld.A)), ?_⟩, ?_⟩
    · rw [← hr']; exact hb.update _
    · intro i hij
      obtain rfl : j = i := by omega
      exact ⟨fld, hi, by rw [← hr'], by rw [← hr']⟩

/-- C43 on odd grids: `pulse_out` is the last column rotated by one sample, in every successful call. -/
theorem C43_odd_rotation {polyfit : Fiber.PolyFit} {spline : Fiber.Spline} {o o' : Obj} {p : Pulse} {F F' : FibObj} {N : ℕ}
    {reload : Bool} {r : Result} (h : propagate polyfit spline o p F N reload = some (.ok (r, o', F'))) {a : Fin p.n → ℂ}
    (hp : Holds p a) (he : p.n % 2 = 1) : ∃ x : Fin p.n → ℂ, r.AT.getLast? = some ⟨p.n, x⟩ ∧ r.out.AT = .ok ⟨p.n, roll 1 x⟩ := by
  obtain ⟨hN, L, out, P0, A, fR, P, F1, s, out', hL, hc, hs, hl, hseg, hset, hr, ho, -⟩ := propagate_cases h
  obtain ⟨S, h0, hm, hS⟩ := segLoop_trace N 0 hseg
  obtain ⟨hout, -, -⟩ := clone_holds hp hc
  obtain ⟨M, rfl⟩ : ∃ M, N = M + 1 := ⟨N - 1, by omega⟩
  obtain ⟨⟨b, hb⟩, hlast⟩ := trace_last hS (b := a) (by rw [h0]; exact hout) (M + 1) (le_refl _)
  obtain ⟨fld, -, hA, hAT⟩ := hlast M rfl
  rw [hm] at hb hA hAT
  rw [hb.setAT_eq] at hset
  have hout' : out' = { s.out with aw := some ⟨p.n, fftT (ifftshift s.fld.A)⟩ } := (Prod.mk.inj hset).2.symm
  refine ⟨ifftshift fld.A, ?_, ?_⟩
  · rw [hr]; simp only; rw [hAT, List.getLast?_concat]
  · rw [hr]
    simp only [hout']
    rw [(hb.update _).AT_eq, ifftT_fftT, hA]
    congr 2
    generalize ifftshift fld.A = x
    unfold ifftshift
    rw [roll_roll]
    have := roll_of_dvd (n := p.n) (s := -(p.n : ℤ)) (by simp) x
    conv_rhs => rw [← this, roll_roll]
    congr 1
    omega

theorem roll_one_false {n : ℕ} (hn : 2 ≤ n) {x f : Fin n → ℂ} {e : Fin n → ℂ} (h1 : x = roll 1 x) (h2 : x = ifftshift f)
    (he : ∀ k, e k ≠ 0) (hf : ∀ k, ifft f k = e k * ifft (fftshift (ifftT fun _ => 1)) k) : False := by
  have h3 := ifft_roll 1 x ⟨1, hn⟩
  rw [← h1] at h3
  have h4 : ifft x ⟨1, hn⟩ ≠ 0 := by
    rw [h2]
    unfold ifftshift
    rw [ifft_roll, hf]
    refine mul_ne_zero (rootE_ne_zero _) (mul_ne_zero (he _) ?_)
    have : ifft (fftshift (ifftT fun _ : Fin n => (1 : ℂ))) = fftshift (fftT (ifftT fun _ : Fin n => (1 : ℂ))) := by
      unfold fftT; rw [fftshift_ifftshift]
    rw [this, fftT_ifftT]
    exact one_ne_zero
  have h5 : rootE n (1 * ((⟨1, hn⟩ : Fin n) : ℕ)) = 1 := by
    have h6 : 1 * ifft x ⟨1, hn⟩ = rootE n (1 * ((⟨1, hn⟩ : Fin n) : ℕ)) * ifft x ⟨1, hn⟩ := by rw [one_mul]; exact h3
    exact (mul_right_cancel₀ h4 h6).symm
  rw [rootE_eq_one_iff (by omega)] at h5
  have := Int.le_of_dvd (by norm_num) h5
  push_cast at this
  omega

theorem C43_odd_refuted' (polyfit : Fiber.PolyFit) (spline : Fiber.Spline) : ∃ (o : Obj) (p : Pulse) (F : FibObj) (r : Result) (o' : Obj) (F' : FibObj)
    (a : Fin p.n → ℂ), Holds p a ∧ propagate polyfit spline o p F 1 false = some (.ok (r, o', F')) ∧ r.AT.getLast?.map Except.ok ≠ some (r.out.AT) := by
  have hp : Holds { gridPulse 3 with aw := some ⟨3, fun _ => 1⟩ } (fun _ : Fin 3 => (1 : ℂ)) := ⟨rfl, rfl, by norm_num, rfl⟩
  obtain ⟨r, o', F', h⟩ := C43_nonvacuous polyfit spline hp (by simp [gridPulse, Pulse.blank]) (le_of_eq_of_le (by rfl) (show 2 ≤ 3 by norm_num))
    (length := 1) (wl := 1) (gamma := 0) (gain := 0) (b := ⟨1, fun _ => 1⟩) (units := "") (label := "") one_ne_zero one_pos (le_refl 1)
  refine ⟨_, _, _, r, o', F', _, hp, h, ?_⟩
  obtain ⟨hN, L, out, P0, A, fR, P, F1, s, out', hL, hc, hs, hl, hseg, hset, hr, ho, -⟩ := propagate_cases h
  obtain ⟨S, h0, hm, hS⟩ := segLoop_trace 1 0 hseg
  obtain ⟨hout, -, -⟩ := clone_holds hp hc
  obtain ⟨⟨b, hb⟩, hlast⟩ := trace_last hS (b := fun _ => 1) (by rw [h0]; exact hout) 1 (le_refl _)
  obtain ⟨fld, hint, hA, hAT⟩ := hlast 0 rfl
  obtain ⟨x, hx1, hx2⟩ := C43_odd_rotation h hp rfl
  rw [hx1, hx2]
  intro heq
  simp only [Option.map_some, Option.some.injEq, Except.ok.injEq] at heq
  have hx : x = roll 1 x := eq_of_heq (Vec.mk.inj heq).2
  have hxf : x = ifftshift fld.A := by
    rw [hr] at hx1
    simp only at hx1
    rw [hm] at hAT
    rw [hAT, List.getLast?_concat] at hx1
    exact (eq_of_heq (Vec.mk.inj (Option.some.inj hx1)).2).symm
  obtain ⟨g, al, R0, R, -, -, -, -, hA0, e0⟩ := setup_cases hp hs
  obtain ⟨b1, B, g1, hb1, -, hg1, -, e1⟩ := load_cases hl
  obtain ⟨α, β, hb2⟩ := getBetas_gvd polyfit spline (s := Fiber.genSpecs 0) (p := { gridPulse 3 with aw := some ⟨3, fun _ => 1⟩ }) 0
    (f := Fiber.genFib 1 1 ⟨1, fun _ => 1⟩ 0 0 "" "" Fiber.Fib.new) hp.ready (show 2 ≤ 3 by norm_num) rfl rfl rfl rfl one_ne_zero
  rw [hb2] at hb1
  rw [← (Prod.mk.inj hb1).2] at hg1
  have hg0 : g1 = 0 := by
    have : (Except.ok (some 0) : Except PyErr (Option ℝ)) = .ok (some g1) := hg1
    simpa using this.symm
  have hPS : (S 1).P = P := by
    have := (hS 0 (by norm_num)).load
    simp only [Bool.false_eq_true, if_false, Prod.mk.injEq, Except.ok.injEq, h0] at this
    exact this.1.symm
  rw [hPS, h0] at hint
  have hL1 : L = 1 := by
    have : (some 1 : Option ℝ) = some L := hL
    simpa using this.symm
  obtain ⟨f', -, l, ef, -, hlin, -⟩ := C41_linear_exact (p := P) (by rw [e1, e0]; exact ⟨by norm_num [Obj.default], by norm_num [Obj.default]⟩)
    (by rw [e1, e0]; norm_num [Obj.default]) (by rw [e1, hg0]) (by rw [e1, e0]; rfl) (deltaZ := L / ((1 : ℕ) : ℝ)) (by rw [hL1]; norm_num) 1
    (f := ⟨A, ⟨none, 0, fun _ => 0⟩, Obj.default.iter, Obj.default.dz⟩) (by norm_num [Obj.default])
  rw [ef] at hint
  have hf : f' = fld := Option.some.inj hint
  rw [hA0, hf] at hlin
  exact roll_one_false (show 2 ≤ 3 by norm_num) (x := x) (f := fld.A) hx hxf (fun k => Complex.exp_ne_zero _) hlin

/-- C43 fails on odd grids: three points, a linear fibre; `pulse_out` is not the last column. -/
theorem C43_odd_refuted (polyfit : Fiber.PolyFit) (spline : Fiber.Spline) : ∃ (o : Obj) (p : Pulse) (F : FibObj) (r : Result) (o' : Obj) (F' : FibObj),
    propagate polyfit spline o p F 1 false = some (.ok (r, o', F')) ∧ r.AT.getLast?.map Except.ok ≠ some (r.out.AT) := by
  obtain ⟨o, p, F, r, o', F', -, -, h⟩ := C43_odd_refuted' polyfit spline
  exact ⟨o, p, F, r, o', F', h⟩

/-! ## C41 end to end -/

/-- C41 through `propagate` (even grid, Runge–Kutta method): with `gamma = 0` the spectrum of `pulse_out` is the input
spectrum times `exp(D(iβ + g/2))`, with `β = get_betas` and `g = get_gain` in the order of the pulse's own frequency grid;
the integrated distance `D` is at least the fibre length. -/
theorem C41_propagate {polyfit : Fiber.PolyFit} {spline : Fiber.Spline} {o o' : Obj} {p : Pulse} {F F' : FibObj} {N : ℕ}
    {r : Result} (h : propagate polyfit spline o p F N false = some (.ok (r, o', F'))) {a : Fin p.n → ℂ}
    (hp : Holds p a) (he : p.n % 2 = 0) {L : ℝ} (hL : F.fib.length = some L) (hpos : 0 < L)
    (hgam : ∀ f, Fiber.getBetas polyfit spline F.specs p 0 F.fib = f → Fiber.getGamma f.2 0 = .ok (some 0))
    (hm : o.method = .rk4ip) (hdz : 0 < o.dz) (hmin : 0 < o.dzMin) (heta : 0 < o.eta) (heta1 : o.eta ≠ 1) :
    ∃ (D : ℝ) (b : Fiber.BetaRes) (B : Fin p.n → ℝ) (g : Vec ℝ) (G : Fin p.n → ℝ), L ≤ D ∧
      (Fiber.getBetas polyfit spline F.specs p 0 F.fib).1 = .ok b ∧ betaArr p.n b = .ok B ∧
      Fiber.getGain F.specs F.fib p = .ok g ∧ fill p.n g = .ok G ∧
      r.out.AW = .ok ⟨p.n, fun k => exp ((D : ℂ) * (I * (B k : ℂ) + (G k : ℂ) / 2)) * a k⟩ := by
  obtain ⟨hN, L', out, P0, A, fR, P, F1, s, out', hL', hc, hs, hl, hseg, hset, hr, ho, -⟩ := propagate_cases h
  obtain rfl : L' = L := by rw [hL] at hL'; exact (Option.some.inj hL').symm
  obtain ⟨S, h0, hmm, hS⟩ := segLoop_trace N 0 hseg
  obtain ⟨hout, hgrid, -⟩ := clone_holds hp hc
  obtain ⟨g, al, R0, R, hg, hal, -, -, hA0, e0⟩ := setup_cases hp hs
  obtain ⟨b, B, g1, hb, hB, hg1, -, e1⟩ := load_cases hl
  have hg10 : g1 = 0 := by
    have := hgam _ hb
    rw [hg1] at this
    simpa using this
  have T := trace_even he hS (b := a) (by rw [h0]; exact hout) (by rw [h0]) (by rw [h0])
  obtain ⟨⟨b', hb', hbo⟩, -, -, hint⟩ := T N (le_refl N)
  have hP : ∀ i, i ≤ N → (S i).P = P := by
    intro i
    induction i with
    | zero => intro _; rw [h0]
    | succ i ih =>
      intro hi
      have hst := (hS i (by omega)).load
      simp only [Bool.false_eq_true, if_false, Prod.mk.injEq, Except.ok.injEq] at hst
      rw [← hst.1, ih (by omega)]
  have hPok : P.Ok := by rw [e1, e0]; exact ⟨hmin, heta⟩
  have hNr : (0 : ℝ) < N := by exact_mod_cast Nat.pos_of_ne_zero hN
  have hdel : 0 < L' / N := div_pos hpos hNr
  have key : ∀ i, i ≤ N → 0 < (S i).fld.dz ∧ ∃ D : ℝ, i * (L' / N) ≤ D ∧ ∀ k, ifft (S i).fld.A k =
      exp ((D : ℂ) * (I * (P.betas k : ℂ) - (P.alpha k : ℂ) / 2)) * ifft A k := by
    intro i
    induction i with
    | zero =>
      intro _
      rw [h0]
      exact ⟨hdz, 0, by simp, fun k => by simp⟩
    | succ i ih =>
      intro hi
      obtain ⟨hz, D, hD, hk⟩ := ih (by omega)
      have h1 := hint i (by omega)
      rw [hP (i + 1) hi] at h1
      obtain ⟨f', -, l, ef, -, hlin, hcov, -⟩ := C41_linear_exact hPok (by rw [e1, e0]; exact heta1) (by rw [e1, hg10]) (by rw [e1, e0]; exact hm)
        hdel 1 hz
      obtain ⟨f2, ef2, hsp⟩ := integrate_spec hPok (L' / N) 1 hz
      have hff : f' = (S (i + 1)).fld := by rw [ef] at h1; exact Option.some.inj h1
      have hff2 : f2 = (S (i + 1)).fld := by rw [ef2] at h1; exact Option.some.inj h1
      refine ⟨by rw [← hff2]; exact spec_dz_pos hPok.cfg hdel hz hsp, D + covered l, by push_cast; linarith, fun k => ?_⟩
      rw [← hff, hlin k, hk k, ← mul_assoc, ← Complex.exp_add]
      congr 2
      push_cast
      ring
  obtain ⟨-, D, hD, hk⟩ := key N (le_refl N)
  rw [hmm] at hb' hbo hk
  rw [hb'.setAT_eq] at hset
  have hout' : out' = { s.out with aw := some ⟨p.n, fftT (ifftshift s.fld.A)⟩ } := (Prod.mk.inj hset).2.symm
  have hG : ∃ G, fill p.n g = .ok G ∧ ∀ k, al k = -1 * G k := by
    unfold fill at hal ⊢
    by_cases h1 : p.n = g.len
    · rw [dif_pos (show p.n = (g.map (-1 * ·)).len from h1)] at hal
      rw [dif_pos h1]
      refine ⟨_, rfl, fun k => ?_⟩
      have := congrFun (Except.ok.inj hal) k
      rw [← this]
      rfl
    · rw [dif_neg (show ¬ p.n = (g.map (-1 * ·)).len from h1)] at hal
      rw [dif_neg h1]
      by_cases h2 : g.len = 1
      · rw [dif_pos (show (g.map (-1 * ·)).len = 1 from h2)] at hal
        rw [dif_pos h2]
        refine ⟨_, rfl, fun k => ?_⟩
        have := congrFun (Except.ok.inj hal) k
        rw [← this]
        rfl
      · rw [dif_neg (show ¬ (g.map (-1 * ·)).len = 1 from h2)] at hal
        simp at hal
  obtain ⟨G, hG, hGal⟩ := hG
  refine ⟨D, b, B, g, G, ?_, by rw [hb], hB, hg, hG, ?_⟩
  · calc L' = N * (L' / N) := by field_simp
      _ ≤ D := hD
  · rw [hr]
    simp only [hout']
    rw [(hb'.update _).AW_eq, fftT_ifftshift]
    congr 2
    funext k
    have e2 : ifftshift (ifft s.fld.A) k = ifft s.fld.A (rollIdx (-((p.n / 2 : ℕ) : ℤ)) k) := rfl
    have e3 : P.betas (rollIdx (-((p.n / 2 : ℕ) : ℤ)) k) = B k := by
      rw [e1]
      exact congrFun (ifftshift_fftshift B) k
    have e4 : P.alpha (rollIdx (-((p.n / 2 : ℕ) : ℤ)) k) = -1 * G k := by
      rw [e1, e0, ← hGal]
      exact congrFun (ifftshift_fftshift al) k
    have e5 : ifft A (rollIdx (-((p.n / 2 : ℕ) : ℤ)) k) = a k := by
      have : ifft A (rollIdx (-((p.n / 2 : ℕ) : ℤ)) k) = fftT (ifftT a) k := by rw [hA0]; rfl
      rw [this, fftT_ifftT]
    rw [e2, hk, e3, e4, e5]
    congr 2
    push_cast
    ring

/-! ## C44 through the set-up -/

/-- C44: a solver created with `disable_Raman=True, disable_self_steepening=True` uses `iγ|A|²`, on every pulse and fibre. -/
theorem C44_setup {o : Obj} {p : Pulse} {F : FibObj} {a : Fin p.n → ℂ} (hp : Holds p a) {P0 : Params p.n} {A : Fin p.n → ℂ} {fR : ℝ}
    (hs : setup o p F = .ok (P0, A, fR)) (hR : o.disableRaman = true) (hS : o.disableSS = true) (x : Fin p.n → ℂ) (j : Fin p.n) :
    nonlinear P0 x j = I * P0.gamma * ((‖x j‖ ^ 2 : ℝ) : ℂ) := by
  obtain ⟨g, al, R0, R, -, -, hr, hf, -, e0⟩ := setup_cases hp hs
  unfold ramanR at hr
  rw [if_pos hR] at hr
  have hR0 : R0 = ⟨p.n, fun _ => 1⟩ := (Prod.mk.inj (Except.ok.inj hr)).1.symm
  rw [hR0, fill_mk] at hf
  have hR1 := Except.ok.inj hf
  refine C44_kerr (fun k => ?_) (by rw [e0]; exact hS) x j
  rw [e0, ← hR1]
  rfl

end PyNLO
