import Verif.Lemmas.Taper
import Verif.Props.SsfmConverge

/-! # C129, C130: propagation in fibres whose dispersion and nonlinearity change along their length -/

namespace PyNLO

open Complex Ssfm Pulse Set
open scoped Topology ContDiff

variable {n : ℕ}

/-- `U` satisfies the propagation equation with coefficients that depend on the position -/
def SolvesTaper (β : ℝ → Fin n → ℝ) (g : ℝ) (R : Fin n → ℂ) (γ : ℝ → ℝ) (a b : ℝ) (U : ℝ → Fin n → ℂ) : Prop :=
  ∀ z ∈ Ioo a b, HasDerivAt U (Gnlse.rhs (β z) g R (γ z) (U z)) z

theorem taper_rhs_contDiff {β : ℝ → Fin n → ℝ} (hβ : ContDiff ℝ ∞ β) (g : ℝ) (R : Fin n → ℂ) {γ : ℝ → ℝ} (hγ : ContDiff ℝ ∞ γ) :
    ContDiff ℝ ∞ fun q : ℝ × (Fin n → ℂ) => Gnlse.rhs (β q.1) g R (γ q.1) q.2 := by
  have hE : ContDiff ℝ ∞ fun q : ℝ × (Fin n → ℂ) => fftshift fun k => I * (β q.1 k : ℂ) + (g : ℂ) / 2 := by
    rw [contDiff_pi]
    intro k
    have h1 : ContDiff ℝ ∞ fun q : ℝ × (Fin n → ℂ) => β q.1 (rollIdx ((n / 2 : ℕ) : ℤ) k) :=
      (contDiff_pi.1 hβ (rollIdx ((n / 2 : ℕ) : ℤ) k)).comp contDiff_fst
    exact (contDiff_const.mul (ofRealCLM.contDiff.comp h1)).add contDiff_const
  have h1 : ContDiff ℝ ∞ fun q : ℝ × (Fin n → ℂ) => applySpec (fftshift fun k => I * (β q.1 k : ℂ) + (g : ℂ) / 2) q.2 :=
    contDiff_iff_contDiffAt.2 fun _ => applySpec_contDiffAt hE.contDiffAt contDiffAt_snd
  have h2 : ContDiff ℝ ∞ fun q : ℝ × (Fin n → ℂ) => applySpec (fftshift R) (absSq q.2) :=
    contDiff_iff_contDiffAt.2 fun _ => applySpec_contDiffAt contDiffAt_const (absSq_contDiff.comp contDiff_snd).contDiffAt
  have h3 : ContDiff ℝ ∞ fun q : ℝ × (Fin n → ℂ) => ((γ q.1 : ℝ) : ℂ) := ofRealCLM.contDiff.comp (hγ.comp contDiff_fst)
  rw [contDiff_pi] at h1 h2 ⊢
  intro j
  have h4 : ContDiff ℝ ∞ fun q : ℝ × (Fin n → ℂ) => q.2 j := (contDiff_apply ℝ ℂ j).comp contDiff_snd
  have e : (fun q : ℝ × (Fin n → ℂ) => Gnlse.rhs (β q.1) g R (γ q.1) q.2 j) = fun q =>
      applySpec (fftshift fun k => I * (β q.1 k : ℂ) + (g : ℂ) / 2) q.2 j + I * (γ q.1 : ℂ) * q.2 j * applySpec (fftshift R) (absSq q.2) j := by
    funext q
    rw [rhs_eq]
  rw [e]
  exact (h1 j).add (((contDiff_const (c := I)).mul h3).mul h4 |>.mul (h2 j))

/-- C129: the equation with smooth coefficients has a solution over every distance, from every initial field. -/
theorem C129_exists {β : ℝ → Fin n → ℝ} (hβ : ContDiff ℝ ∞ β) (g : ℝ) {R : Fin n → ℂ} (hR : RealResponse R) {γ : ℝ → ℝ} (hγ : ContDiff ℝ ∞ γ)
    (A : Fin n → ℂ) {T : ℝ} (hT : 0 < T) : ∃ U, SolvesTaper β g R γ (-T) T U ∧ U 0 = A := by
  obtain ⟨U, h0, hU⟩ := OdeGlobal.exists_solution_at (f := fun z => Gnlse.rhs (β z) g R (γ z))
    ((taper_rhs_contDiff hβ g R hγ).of_le (by exact_mod_cast le_top)) (K := |g|) (fun z B => by
      rw [rate_rhs hR, abs_mul, abs_of_nonneg (OdeGlobal.en_nonneg B)]) A hT
  exact ⟨U, hU, h0⟩

/-- C129: and only one. -/
theorem C129_unique {β : ℝ → Fin n → ℝ} (hβ : ContDiff ℝ ∞ β) {g : ℝ} {R : Fin n → ℂ} {γ : ℝ → ℝ} (hγ : ContDiff ℝ ∞ γ) {a b : ℝ}
    {U V : ℝ → Fin n → ℂ} (hU : SolvesTaper β g R γ a b U) (hV : SolvesTaper β g R γ a b V) (ha : a < 0) (h0 : U 0 = V 0) {z : ℝ} (hz : 0 ≤ z)
    (hzb : z < b) : U z = V z :=
  family_unique (f := fun z => Gnlse.rhs (β z) g R (γ z)) ((taper_rhs_contDiff hβ g R hγ).of_le (by exact_mod_cast le_top)) (s := 0) (t := z)
    (fun t ht => hU t ⟨by linarith [ht.1], by linarith [ht.2]⟩) (fun t ht => hV t ⟨by linarith [ht.1], by linarith [ht.2]⟩)
    ⟨le_refl 0, hz⟩ h0 z ⟨hz, le_refl z⟩

/-- energy along a solution -/
theorem taper_energy {β : ℝ → Fin n → ℝ} {g : ℝ} {R : Fin n → ℂ} (hR : RealResponse R) {γ : ℝ → ℝ} {a b : ℝ} {U : ℝ → Fin n → ℂ}
    (hU : SolvesTaper β g R γ a b U) (ha : a < 0) {z : ℝ} (hz : 0 ≤ z) (hzb : z < b) :
    Gnlse.energy (U z) = Real.exp (g * z) * Gnlse.energy (U 0) := by
  have hd : ∀ t ∈ Icc 0 z, HasDerivAt (fun t => Real.exp (-(g * t)) * OdeGlobal.en (U t)) 0 t := by
    intro t ht
    have h1 := OdeGlobal.en_hasDerivAt (hU t ⟨by linarith [ht.1], by linarith [ht.2]⟩)
    rw [rate_rhs hR] at h1
    have h2 : HasDerivAt (fun t : ℝ => Real.exp (-(g * t))) (Real.exp (-(g * t)) * -(g * 1)) t := (((hasDerivAt_id t).const_mul g).neg).exp
    have h3 := h2.mul h1
    have e : Real.exp (-(g * t)) * -(g * 1) * OdeGlobal.en (U t) + Real.exp (-(g * t)) * (g * OdeGlobal.en (U t)) = 0 := by ring
    rw [e] at h3
    exact h3
  have := constant_of_has_deriv_right_zero (f := fun t => Real.exp (-(g * t)) * OdeGlobal.en (U t)) (a := 0) (b := z)
    (fun t ht => (hd t ht).continuousAt.continuousWithinAt) (fun t ht => (hd t ⟨ht.1, ht.2.le⟩).hasDerivWithinAt) z ⟨hz, le_refl z⟩
  simp only [mul_zero, neg_zero, Real.exp_zero, one_mul] at this
  show OdeGlobal.en (U z) = Real.exp (g * z) * OdeGlobal.en (U 0)
  rw [← this, ← mul_assoc, ← Real.exp_add]
  simp

/-- What a fibre returns along its length `L`: propagation constants `β z` and coefficient `γ z`; the fibre object stays in `K` (it
remembers the dispersion it returned last).  Gain and Raman response are read once. -/
structure LoadsAlong (polyfit : Fiber.PolyFit) (spline : Fiber.Spline) (o : Obj) (p : Pulse) (F : FibObj) (K : Set Fiber.Fib) (L : ℝ)
    (β : ℝ → Fin p.n → ℝ) (g : ℝ) (R : Fin p.n → ℂ) (γ : ℝ → ℝ) (fR : ℝ) : Prop where
  start : F.fib ∈ K
  betas : ∀ z ∈ Ico 0 L, ∀ f ∈ K, ∃ f1 ∈ K, Fiber.getBetas polyfit spline F.specs p z f = (.ok (.arr ⟨p.n, β z⟩), f1)
  gamma : ∀ z ∈ Ico 0 L, ∀ f ∈ K, Fiber.getGamma f z = .ok (some (γ z))
  gain : Fiber.getGain F.specs F.fib p = .ok ⟨p.n, fun _ => g⟩
  raman : ramanR o p = .ok (⟨p.n, R⟩, fR)

section
variable {polyfit : Fiber.PolyFit} {spline : Fiber.Spline} {o : Obj} {p : Pulse} {F : FibObj} {K : Set Fiber.Fib} {L : ℝ} {β : ℝ → Fin p.n → ℝ}
  {g fR : ℝ} {γ : ℝ → ℝ} {R : Fin p.n → ℂ}

theorem LoadsAlong.at_start (h : LoadsAlong polyfit spline o p F K L β g R γ fR) (hL : 0 < L) :
    ∃ f1 ∈ K, Loads polyfit spline o p F f1 (β 0) g R (γ 0) fR := by
  obtain ⟨f1, hf, hb⟩ := h.betas 0 ⟨le_refl 0, hL⟩ _ h.start
  exact ⟨f1, hf, hb, h.gamma 0 ⟨le_refl 0, hL⟩ f1 hf, h.gain, h.raman⟩

theorem LoadsAlong.load (h : LoadsAlong polyfit spline o p F K L β g R γ fR) {z : ℝ} (hz : z ∈ Ico 0 L) (P : Params p.n) {G : FibObj}
    (hG : G.specs = F.specs) (hK : G.fib ∈ K) : ∃ f1 ∈ K, loadFiber polyfit spline p z P G =
      (.ok { P with betas := fftshift (β z), gamma := γ z }, { G with fib := f1 }) := by
  obtain ⟨f1, hf, hb⟩ := h.betas z hz _ hK
  refine ⟨f1, hf, ?_⟩
  unfold loadFiber
  rw [hG]
  simp only [hb, betaArr, fill_mk, except_bind_ok, h.gamma z hz f1 hf, num]

/-- the parameters in force at a position -/
noncomputable def paramsAt (P : Params p.n) (β : ℝ → Fin p.n → ℝ) (γ : ℝ → ℝ) (z : ℝ) : Params p.n :=
  { P with betas := fftshift (β z), gamma := γ z }

/-- the segments return when the parameters are reloaded -/
theorem segLoop_along (h : LoadsAlong polyfit spline o p F K L β g R γ fR) {δ : ℝ} (hδ : 0 < δ) :
    ∀ (m i : ℕ) (s : Seg p.n) (b : Fin p.n → ℂ), (∀ j < m, ((i + j : ℕ) : ℝ) * δ ∈ Ico 0 L) → s.F.specs = F.specs → s.F.fib ∈ K → s.P.Ok →
      0 < s.fld.dz → Holds s.out b → ∃ s', segLoop polyfit spline p true δ m i s = some (.ok s') ∧ ∃ b' : Fin p.n → ℂ, Holds s'.out b' := by
  intro m
  induction m with
  | zero => intro i s b _ _ _ _ _ hb; exact ⟨s, rfl, b, hb⟩
  | succ m ih =>
    intro i s b hz hF hK hP hdz hb
    obtain ⟨f1, hf1, hl⟩ := h.load (hz 0 (by omega)) s.P hF hK
    have hP' : (paramsAt s.P β γ ((i + 0 : ℕ) * δ)).Ok := ⟨hP.1, hP.2⟩
    obtain ⟨f', e, r⟩ := integrate_spec hP' δ 1 hdz
    have hdz' := spec_dz_pos hP'.cfg hδ hdz r
    have hrec := record_eq (s := { s with P := paramsAt s.P β γ ((i + 0 : ℕ) * δ), F := { s.F with fib := f1 }, fld := f' }) (b := b) hb
    obtain ⟨s', h1, h2⟩ := ih (i + 1) { s with P := paramsAt s.P β γ ((i + 0 : ℕ) * δ), F := { s.F with fib := f1 }, fld := { f' with A := ifftshift (ifftshift f'.A) }, out := { s.out with aw := some ⟨p.n, fftT (ifftshift (ifftshift f'.A))⟩ }, AW := s.AW ++ [⟨p.n, ifftshift (ifft f'.A)⟩], AT := s.AT ++ [⟨p.n, ifftshift f'.A⟩] } _
      (fun j hj => by have := hz (j + 1) (by omega); rwa [show i + 1 + j = i + (j + 1) by omega]) hF hf1 hP' hdz' (hb.update (fftT (ifftshift (ifftshift f'.A))))
    refine ⟨s', ?_, h2⟩
    unfold segLoop
    simp only [if_true]
    rw [Nat.add_zero] at hl e hrec h1
    rw [hl]
    simp only
    rw [show ({ s.P with betas := fftshift (β (i * δ)), gamma := γ (i * δ) } : Params p.n) = paramsAt s.P β γ (i * δ) from rfl, e]
    simp only
    rw [hrec]
    exact h1

theorem grid_mem {N i : ℕ} (hL : 0 < L) (hi : i < N) : (i : ℝ) * (L / N) ∈ Ico 0 L := by
  have hN : (0 : ℝ) < N := by exact_mod_cast (by omega : 0 < N)
  refine ⟨by positivity, ?_⟩
  have : (i : ℝ) < N := by exact_mod_cast hi
  calc (i : ℝ) * (L / N) < N * (L / N) := mul_lt_mul_of_pos_right this (by positivity)
    _ = L := by field_simp

/-- With reloading `propagate` returns, and integrates each segment with the parameters at its start. -/
theorem propagate_along {a : Fin p.n → ℂ} (hp : Holds p a) (he : p.n % 2 = 0) (hcf : p.cf ≠ 0)
    (h : LoadsAlong polyfit spline o p F K L β g R γ fR) (hL : F.fib.length = some L) (hpos : 0 < L) (hdz : 0 < o.dz) (hmin : 0 < o.dzMin)
    (heta : 0 < o.eta) : ∃ P : Params p.n, Carries P o (β 0) g R (γ 0) ∧ ∀ N : ℕ, 1 ≤ N → ∃ r o' F', propagate polyfit spline o p F N true = some (.ok (r, o', F')) ∧
      ∃ S : ℕ → Field p.n, (S 0).A = fftshift (ifftT a) ∧ (S 0).dz = o.dz ∧
        (∀ i < N, integrate (paramsAt P β γ (i * (L / N))) (L / N) 1 (S i) = some (S (i + 1))) ∧
        r.AT = (List.range N).map (fun i => (⟨p.n, ifftshift (S (i + 1)).A⟩ : Vec ℂ)) ∧
        r.AW = (List.range N).map (fun i => (⟨p.n, fftT (ifftshift (S (i + 1)).A)⟩ : Vec ℂ)) := by
  obtain ⟨f1, hf1, hld⟩ := h.at_start hpos
  obtain ⟨P0, P, hs, hl, hd, -⟩ := setup_carries hp hld
  refine ⟨P, hd, fun N hN => ?_⟩
  have hN0 : N ≠ 0 := by omega
  have hNr : (0 : ℝ) < N := by exact_mod_cast hN
  have hP : P.Ok := ⟨by rw [hd.dzMin]; exact hmin, by rw [hd.eta]; exact heta⟩
  have hdel : (if N = 1 then L else 1 * (L / N) - 0 * (L / N)) = L / N := by
    split_ifs with h1
    · rw [h1]; simp
    · ring
  have hc := clone_explicit hp hcf
  obtain ⟨s', h1, ⟨b', h2⟩⟩ := segLoop_along h (div_pos hpos hNr) N 0
    ⟨P, { F with fib := f1 }, ⟨fftshift (ifftT a), ⟨none, 0, fun _ => 0⟩, o.iter, o.dz⟩, { init none none with n := p.n, tw := p.tw, cf := p.cf, ready := true, frep := p.frep, aw := some ⟨p.n, a⟩ }, [], []⟩
    a (fun j hj => by rw [Nat.zero_add]; exact grid_mem hpos hj) rfl hf1 hP hdz ⟨rfl, rfl, hp.pos, rfl⟩
  obtain ⟨r, o', F', hr⟩ : ∃ r o' F', propagate polyfit spline o p F N true = some (.ok (r, o', F')) := by
    unfold propagate
    rw [if_neg hN0, hL, hc, hs]
    simp only [except_bind_ok, hl, hdel, h1, h2.setAT_eq]
    exact ⟨_, _, _, rfl⟩
  refine ⟨r, o', F', hr, ?_⟩
  obtain ⟨-, L', out, P0', A', fR', P', F1', s, out', hL', hc', hs', hl', hseg, hset, hrr, ho, -⟩ := propagate_cases hr
  rw [hL] at hL'
  obtain rfl := Option.some.inj hL'
  rw [hs] at hs'
  have hs'' := Except.ok.inj hs'
  simp only [Prod.mk.injEq] at hs''
  obtain ⟨rfl, rfl, rfl⟩ := hs''
  rw [hl] at hl'
  simp only [Prod.mk.injEq, Except.ok.injEq] at hl'
  obtain ⟨rfl, rfl⟩ := hl'
  obtain ⟨S, h0, hm, hS⟩ := segLoop_trace N 0 hseg
  obtain ⟨hout, -, -⟩ := clone_holds hp hc'
  have T := trace_even he hS (b := a) (by rw [h0]; exact hout) (by rw [h0]) (by rw [h0])
  obtain ⟨-, hAT, hAW, hint⟩ := T N (le_refl N)
  have hK : ∀ i ≤ N, (S i).F.specs = F.specs ∧ (S i).F.fib ∈ K ∧ (∀ z, paramsAt (S i).P β γ z = paramsAt P β γ z) ∧
      ∀ j, i = j + 1 → (S i).P = paramsAt P β γ (j * (L / N)) := by
    intro i
    induction i with
    | zero => intro _; rw [h0]; exact ⟨rfl, hf1, fun _ => rfl, fun j hj => by omega⟩
    | succ i ih =>
      intro hi
      obtain ⟨k1, k2, k3, -⟩ := ih (by omega)
      have hst := (hS i (by omega)).load
      simp only [if_true, Nat.zero_add] at hst
      obtain ⟨f2, hf2, hl2⟩ := h.load (grid_mem hpos (show i < N by omega)) (S i).P k1 k2
      rw [hl2] at hst
      simp only [Prod.mk.injEq, Except.ok.injEq] at hst
      have e1 : (S (i + 1)).P = paramsAt P β γ (i * (L / N)) := by rw [← hst.1]; exact k3 (i * (L / N))
      refine ⟨by rw [← hst.2]; exact k1, by rw [← hst.2]; exact hf2, fun z => by rw [e1]; rfl, fun j hj => ?_⟩
      obtain rfl : i = j := by omega
      exact e1
  refine ⟨fun i => (S i).fld, by simp only [h0], by simp only [h0], fun i hi => ?_, ?_, ?_⟩
  · have := hint i hi
    rwa [(hK (i + 1) (by omega)).2.2.2 i rfl] at this
  · rw [hrr]
    simp only
    rw [← hm, hAT]
  · rw [hrr]
    simp only
    rw [← hm, hAW]

theorem paramsAt_describes {P : Params p.n} (hP : Carries P o (β 0) g R (γ 0)) (hss : o.disableSS = true) (z : ℝ) :
    Describes (paramsAt P β γ z) (β z) g R (γ z) := ⟨rfl, hP.alpha, hP.resp, rfl, hP.ss.trans hss⟩

theorem paramsAt_smooth {P : Params p.n} (hP : Carries P o (β 0) g R (γ 0)) (hss : o.disableSS = true) (hβ : ContDiff ℝ ∞ β)
    (hγ : ContDiff ℝ ∞ γ) : Smooth (fun z => linPart (paramsAt P β γ z) 1) fun z => nonPart (paramsAt P β γ z) 1 := by
  have hs : ∀ z, (paramsAt P β γ z).disableSS = true := fun z => hP.ss.trans hss
  refine ⟨?_, ?_, fun z => nonPart_contDiff (hs z) 1⟩
  · rw [contDiff_pi]
    intro k
    have h1 : ContDiff ℝ ∞ fun z => β z (rollIdx ((p.n / 2 : ℕ) : ℤ) k) := contDiff_pi.1 hβ _
    exact contDiff_const.mul ((contDiff_const.mul (ofRealCLM.contDiff.comp h1)).sub (contDiff_const (c := (P.alpha k : ℂ) / 2)))
  · have h2 : ContDiff ℝ ∞ fun q : ℝ × (Fin p.n → ℂ) => applySpec P.R (absSq q.2) :=
      contDiff_iff_contDiffAt.2 fun _ => applySpec_contDiffAt contDiffAt_const (absSq_contDiff.comp contDiff_snd).contDiffAt
    have h3 : ContDiff ℝ ∞ fun q : ℝ × (Fin p.n → ℂ) => ((γ q.1 : ℝ) : ℂ) := ofRealCLM.contDiff.comp (hγ.comp contDiff_fst)
    rw [contDiff_pi] at h2 ⊢
    intro j
    have h4 : ContDiff ℝ ∞ fun q : ℝ × (Fin p.n → ℂ) => q.2 j := (contDiff_apply ℝ ℂ j).comp contDiff_snd
    have e : (fun q : ℝ × (Fin p.n → ℂ) => nonPart (paramsAt P β γ q.1) 1 q.2 j) = fun q =>
        ((1 : ℝ) : ℂ) * (1 * I * (γ q.1 : ℂ) * applySpec P.R (absSq q.2) j) * q.2 j := by
      funext q
      simp only [nonPart, nonlinear_eq, if_pos (hs q.1)]
      rfl
    rw [e]
    exact ((contDiff_const (c := ((1 : ℝ) : ℂ))).mul (((contDiff_const (c := 1 * I)).mul h3).mul (h2 j))).mul h4

/-- C129: with `reload_fiber_each_step=True`, the default method and extrapolation and without self-steepening, the columns of `AT` converge
to the solution of the propagation equation whose dispersion and nonlinearity follow the functions given to the fibre; the error is at most
a constant divided by `n_steps`. -/
theorem C129_converges {a : Fin p.n → ℂ} (hp : Holds p a) (he : p.n % 2 = 0) (hcf : p.cf ≠ 0) (h : LoadsAlong polyfit spline o p F K L β g R γ fR)
    (hβ : ContDiff ℝ ∞ β) (hγ : ContDiff ℝ ∞ γ) (hL : F.fib.length = some L) (hpos : 0 < L) (hm : o.method = .rk4ip) (heta : o.eta = 5)
    (hss : o.disableSS = true) (hdz : 0 < o.dz) (hmin : 0 < o.dzMin) (hle : 0 < o.localError) {x b : ℝ} (hx : x < 0) (hb : L < b)
    {U : ℝ → Fin p.n → ℂ} (hU : SolvesTaper β g R γ x b U) (hU0 : p.AT = .ok ⟨p.n, U 0⟩) (hne : U 0 ≠ 0) :
    ∃ (N0 : ℕ) (C : ℝ), ∀ N, N0 ≤ N → ∃ r o' F', propagate polyfit spline o p F N true = some (.ok (r, o', F')) ∧ r.AT.length = N ∧
      ∀ i < N, ∃ v : Fin p.n → ℂ, r.AT[i]? = some ⟨p.n, v⟩ ∧ ∀ j, ‖v j - U ((i + 1) * (L / N)) j‖ ≤ C / N := by
  have hA : U 0 = ifftT a := by
    rw [hp.AT_eq] at hU0
    have := Except.ok.inj hU0
    simp only [Vec.mk.injEq, heq_eq_eq, true_and] at this
    exact this.symm
  have hne' : fftshift (ifftT a) ≠ 0 := by
    intro h0
    refine hne ?_
    rw [hA, ← ifftshift_fftshift (ifftT a), h0]
    rfl
  obtain ⟨P, hP, hprop⟩ := propagate_along hp he hcf h hL hpos hdz hmin (by rw [heta]; norm_num)
  obtain ⟨N0, C, hN0, hconv⟩ := segments_converge_family (P := paramsAt P β γ) (fun z => ⟨by show 0 < P.dzMin; rw [hP.dzMin]; exact hmin, by show 0 < P.eta; rw [hP.eta, heta]; norm_num⟩)
    (fun z => hP.method.trans hm) (fun z => hP.eta.trans heta) hle (fun z => hP.localError) (dir := 1) (paramsAt_smooth hP hss hβ hγ) hne' hdz hpos hx hb
    (Y := fun z => fftshift (U z)) (by rw [hA]) (fun z hz => by
      rw [← rhs_shift (paramsAt_describes hP hss z), hasDerivAt_pi]
      intro j
      exact (hasDerivAt_pi.1 (hU z hz)) _)
  refine ⟨N0, C, fun N hN => ?_⟩
  obtain ⟨r, o', F', hr, S, s1, s2, s3, s4, -⟩ := hprop N (hN0.trans hN)
  refine ⟨r, o', F', hr, by rw [s4]; simp, fun i hi => ⟨ifftshift (S (i + 1)).A, by rw [s4]; simp [hi], fun j => ?_⟩⟩
  have := hconv N hN S s1 s2 s3 (i + 1) (by omega)
  have h2 := (norm_le_pi_norm ((S (i + 1)).A - fftshift (U ((i + 1 : ℕ) * (L / N)))) (rollIdx (-((p.n / 2 : ℕ) : ℤ)) j)).trans this
  have e : fftshift (U ((i + 1 : ℕ) * (L / N))) (rollIdx (-((p.n / 2 : ℕ) : ℤ)) j) = U ((i + 1) * (L / N)) j := by
    have := congrFun (ifftshift_fftshift (U ((i + 1 : ℕ) * (L / N)))) j
    simpa [ifftshift, roll] using this
  rw [Pi.sub_apply, e] at h2
  exact h2

/-- C129: without reloading (the default of `propagate`) the functions of the position are evaluated at the input end only: the columns converge to
the solution for the constant coefficients `β 0`, `γ 0`. -/
theorem C129_without_reload {a : Fin p.n → ℂ} (hp : Holds p a) (he : p.n % 2 = 0) (hcf : p.cf ≠ 0) (h : LoadsAlong polyfit spline o p F K L β g R γ fR)
    (hL : F.fib.length = some L) (hpos : 0 < L) (hm : o.method = .rk4ip) (heta : o.eta = 5) (hss : o.disableSS = true) (hdz : 0 < o.dz)
    (hmin : 0 < o.dzMin) (hle : 0 < o.localError) {x b : ℝ} (hx : x < 0) (hb : L < b) {U : ℝ → Fin p.n → ℂ} (hU : Solves (β 0) g R (γ 0) x b U)
    (hU0 : p.AT = .ok ⟨p.n, U 0⟩) (hne : U 0 ≠ 0) :
    ∃ (N0 : ℕ) (C : ℝ), ∀ N, N0 ≤ N → ∃ r o' F', propagate polyfit spline o p F N false = some (.ok (r, o', F')) ∧ r.AT.length = N ∧
      ∀ i < N, ∃ v : Fin p.n → ℂ, r.AT[i]? = some ⟨p.n, v⟩ ∧ ∀ j, ‖v j - U ((i + 1) * (L / N)) j‖ ≤ C / N ^ 5 := by
  obtain ⟨f1, -, hld⟩ := h.at_start hpos
  exact C116_converges hp he hcf hld hL hpos hm heta hss hdz hmin hle hx hb hU hU0 hne

/-- C129: the energies of the columns are those of the input times `exp(g·z)` up to a constant divided by `n_steps`. -/
theorem C129_energy {a : Fin p.n → ℂ} (hp : Holds p a) (he : p.n % 2 = 0) (hcf : p.cf ≠ 0) (h : LoadsAlong polyfit spline o p F K L β g R γ fR)
    (hβ : ContDiff ℝ ∞ β) (hγ : ContDiff ℝ ∞ γ) (hL : F.fib.length = some L) (hpos : 0 < L) (hm : o.method = .rk4ip) (heta : o.eta = 5)
    (hss : o.disableSS = true) (hdz : 0 < o.dz) (hmin : 0 < o.dzMin) (hle : 0 < o.localError) {A : Fin p.n → ℂ} (hA : p.AT = .ok ⟨p.n, A⟩)
    (hne : A ≠ 0) :
    ∃ (N0 : ℕ) (C : ℝ), ∀ N, N0 ≤ N → ∃ r o' F', propagate polyfit spline o p F N true = some (.ok (r, o', F')) ∧ r.AT.length = N ∧
      ∀ i < N, ∃ v : Fin p.n → ℂ, r.AT[i]? = some ⟨p.n, v⟩ ∧
        |Gnlse.energy v - Real.exp (g * ((i + 1) * (L / N))) * Gnlse.energy A| ≤ C / N := by
  obtain ⟨f1, -, hld⟩ := h.at_start hpos
  have hR := raman_real hp he hld
  obtain ⟨U, hU, hU0⟩ := C129_exists hβ g hR hγ A (T := L + 1) (by linarith)
  obtain ⟨N0, C, hc⟩ := C129_converges hp he hcf h hβ hγ hL hpos hm heta hss hdz hmin hle (by linarith : -(L + 1) < 0) (by linarith : L < L + 1) hU
    (by rw [hU0]; exact hA) (by rw [hU0]; exact hne)
  have hcont : ContinuousOn U (Icc 0 L) := fun z hz => (hU z ⟨by linarith [hz.1], by linarith [hz.2]⟩).continuousAt.continuousWithinAt
  obtain ⟨B, hB⟩ := (isCompact_Icc.image_of_continuousOn hcont).isBounded.exists_norm_le
  have hB0 : 0 ≤ B := (norm_nonneg _).trans (hB _ ⟨0, ⟨le_refl 0, hpos.le⟩, rfl⟩)
  refine ⟨max N0 1, p.n * (|C| * (2 * B + |C|)), fun N hN => ?_⟩
  obtain ⟨r, o', F', hr, hlen, hcols⟩ := hc N ((le_max_left _ _).trans hN)
  refine ⟨r, o', F', hr, hlen, fun i hi => ?_⟩
  obtain ⟨v, hv, hvj⟩ := hcols i hi
  refine ⟨v, hv, ?_⟩
  have hN1 : (1 : ℝ) ≤ N := by exact_mod_cast (le_max_right N0 1).trans hN
  have hNr : (0 : ℝ) < N := by linarith
  have hz0 : 0 ≤ ((i : ℝ) + 1) * (L / N) := by positivity
  have hzL : ((i : ℝ) + 1) * (L / N) ≤ L := by
    have h1 : (i : ℝ) + 1 ≤ N := by exact_mod_cast hi
    calc ((i : ℝ) + 1) * (L / N) ≤ N * (L / N) := mul_le_mul_of_nonneg_right h1 (by positivity)
      _ = L := by field_simp
  have hE := taper_energy hR hU (by linarith) hz0 (by linarith)
  rw [hU0] at hE
  rw [← hE]
  have hub : ∀ j, ‖U ((i + 1) * (L / N)) j‖ ≤ B := fun j => (norm_le_pi_norm _ j).trans (hB _ ⟨_, ⟨hz0, hzL⟩, rfl⟩)
  refine (energy_close (ε := |C| / N) hub fun j => (hvj j).trans (by gcongr; exact le_abs_self C)).trans ?_
  have hs : |C| / N ≤ |C| := div_le_self (abs_nonneg C) hN1
  rw [mul_div_assoc, mul_div_right_comm]
  gcongr

/-- C130: without nonlinearity every spectral component of column `i` of `AW` has been multiplied by `exp(iβ·δ + g·δ/2)` once per segment,
with `β` taken at the start of the segment: the phase is the left Riemann sum of the propagation constants.  No smoothness is needed. -/
theorem C130_riemann {a : Fin p.n → ℂ} (hp : Holds p a) (he : p.n % 2 = 0) (hcf : p.cf ≠ 0) (h : LoadsAlong polyfit spline o p F K L β g R γ fR)
    (hγ : ∀ z ∈ Ico 0 L, γ z = 0) (hL : F.fib.length = some L) (hpos : 0 < L) (hm : o.method = .rk4ip) (heta : 0 < o.eta) (heta1 : o.eta ≠ 1)
    (hdz : 0 < o.dz) (hmin : 0 < o.dzMin) (hle : 0 < o.localError) {N : ℕ} (hN : 1 ≤ N) (hshort : L / N ≤ 2 * o.dz) :
    ∃ r o' F', propagate polyfit spline o p F N true = some (.ok (r, o', F')) ∧ r.AW = (List.range N).map (fun i => (⟨p.n, fun k =>
      exp (∑ m ∈ Finset.range (i + 1), ((L / N : ℝ) : ℂ) * (I * (β (m * (L / N)) k : ℂ) + (g : ℂ) / 2)) * a k⟩ : Vec ℂ)) ∧
      r.AT = (List.range N).map fun i => (⟨p.n, ifftT fun k =>
      exp (∑ m ∈ Finset.range (i + 1), ((L / N : ℝ) : ℂ) * (I * (β (m * (L / N)) k : ℂ) + (g : ℂ) / 2)) * a k⟩ : Vec ℂ) := by
  obtain ⟨P, hP, hprop⟩ := propagate_along hp he hcf h hL hpos hdz hmin heta
  obtain ⟨r, o', F', hr, S, s1, s2, s3, s4, s5⟩ := hprop N hN
  refine ⟨r, o', F', hr, ?_⟩
  have hNr : (0 : ℝ) < N := by exact_mod_cast hN
  have hδ : 0 < L / N := div_pos hpos hNr
  have hag : P.alpha = fun _ => -g := hP.alpha
  have key : ∀ i ≤ N, L / N ≤ 2 * (S i).dz ∧ ∀ k, fftT (ifftshift (S i).A) k =
      exp (∑ m ∈ Finset.range i, ((L / N : ℝ) : ℂ) * (I * (β (m * (L / N)) k : ℂ) + (g : ℂ) / 2)) * a k := by
    intro i
    induction i with
    | zero =>
      intro _
      refine ⟨by rw [s2]; exact hshort, fun k => ?_⟩
      rw [s1, ifftshift_fftshift, fftT_ifftT]
      simp
    | succ i ih =>
      intro hi
      obtain ⟨h1, h2⟩ := ih (by omega)
      have hz := grid_mem hpos (show i < N by omega)
      have hPz : (paramsAt P β γ (i * (L / N))).Ok := ⟨by show 0 < P.dzMin; rw [hP.dzMin]; exact hmin, by show 0 < P.eta; rw [hP.eta]; exact heta⟩
      have hgz : (paramsAt P β γ (i * (L / N))).gamma = 0 := hγ _ hz
      have hmz : (paramsAt P β γ (i * (L / N))).method = .rk4ip := hP.method.trans hm
      have hez : (paramsAt P β γ (i * (L / N))).eta ≠ 1 := by show P.eta ≠ 1; rw [hP.eta]; exact heta1
      have hadv : ∀ A : Fin p.n → ℂ, Ssfm.Spec.adv (paramsAt P β γ (i * (L / N))) 1 (L / N / 2) (Ssfm.Spec.adv (paramsAt P β γ (i * (L / N))) 1 (L / N / 2) A) =
          Ssfm.Spec.adv (paramsAt P β γ (i * (L / N))) 1 (2 * (L / N / 2)) A := by
        intro A
        rw [adv_linear hgz hmz, adv_linear hgz hmz, adv_linear hgz hmz, applySpec_applySpec]
        congr 1
        funext k
        rw [← Complex.exp_add]
        congr 1
        push_cast
        ring
      obtain ⟨f', e, hd', hA⟩ := integrate_one hPz hδ h1 (by
        rw [hadv, localErr_self]
        show 0 < P.localError
        rw [hP.localError]
        exact hle) (dir := 1)
      rw [s3 i (by omega)] at e
      obtain rfl := Option.some.inj e
      refine ⟨hd', fun k => ?_⟩
      rw [hA, hadv, C42_agreement hez, adv_linear hgz hmz, fftT_ifftshift, ifft_applySpec, Finset.sum_range_succ, add_comm, Complex.exp_add, mul_assoc,
        ← h2 k, fftT_ifftshift]
      simp only [ifftshift, roll]
      congr 1
      have hb : (paramsAt P β γ (i * (L / N))).betas (rollIdx (-((p.n / 2 : ℕ) : ℤ)) k) = β (i * (L / N)) k := by
        exact congrFun (ifftshift_fftshift (β (i * (L / N)))) k
      have ha' : (paramsAt P β γ (i * (L / N))).alpha (rollIdx (-((p.n / 2 : ℕ) : ℤ)) k) = -g := by
        show P.alpha _ = -g
        rw [hag]
      rw [hb, ha']
      congr 1
      push_cast
      ring
  rw [s5, s4]
  refine ⟨List.map_congr_left fun i hi => ?_, List.map_congr_left fun i hi => ?_⟩
  · simp only [Vec.mk.injEq, heq_eq_eq, true_and]
    exact funext (key (i + 1) (by have := List.mem_range.1 hi; omega)).2
  · simp only [Vec.mk.injEq, heq_eq_eq, true_and]
    rw [← ifftT_fftT (ifftshift (S (i + 1)).A)]
    congr 1
    exact funext (key (i + 1) (by have := List.mem_range.1 hi; omega)).2

end

/-! ## Fibres with functions for dispersion and nonlinearity -/

section
open Fiber

/-- `generate_fiber`, then `set_dispersion_function(b, 'GVD')` and `set_gamma_function(γ)` -/
noncomputable def taperFib {m : ℕ} (length wl : ℝ) (b0 : Vec ℝ) (gamma0 gain : ℝ) (units label : String) (b : ℝ → Fin m → ℝ) (γ : ℝ → ℝ) : FibObj :=
  ⟨setGammaFunction γ (dispFunFib (fun z => .coeffs ⟨m, b z⟩) (genFib length wl b0 gamma0 gain units label Fib.new)), dispFunSpecs "GVD" (genSpecs gain)⟩

/-- propagation constants of a Taylor series about the frequency of `wl`, relative to value and slope at the bin `c` -/
noncomputable def taperBeta {p : Pulse} (hn : 2 ≤ p.n) (c : Fin p.n) (wl : ℝ) {m : ℕ} (b : Fin m → ℝ) : Fin p.n → ℝ :=
  let B : Fin p.n → ℝ := fun k => taylor ⟨m, b⟩ (2 * Real.pi * ((k : ℕ) - (p.n : ℝ) / 2) / p.tw + 2 * Real.pi * p.cf - 2 * Real.pi * cNmps / wl)
  fun k => B k - gradAt hn B c / (2 * Real.pi / p.tw) * (2 * Real.pi * ((k : ℕ) - (p.n : ℝ) / 2) / p.tw) - B c

/-- C129: `set_dispersion_function(g, 'GVD')` takes effect on every fibre that has a centre wavelength, however it was described before: at `z` it has
the dispersion of a fibre generated with the coefficients `g(z)`. -/
theorem C129_set_dispersion (polyfit : PolyFit) (spline : Spline) (s : Specs) (f : Fib) (g : ℝ → DispOut) (p : Pulse) {wl z : ℝ} {b : Vec ℝ}
    (hw : f.centerWl = some wl) (hz : g z = .coeffs b) (length gamma gain : ℝ) (label : String) :
    (getBetas polyfit spline (dispFunSpecs "GVD" s) p z (dispFunFib g f)).1 =
      (getBetas polyfit spline (genSpecs gain) p 0 (genFib length wl b gamma gain "ps^n/m" label Fib.new)).1 := by
  have e1 : "GVD" ≠ "D" := by decide
  have e2 : "GVD" ≠ "n" := by decide
  have e3 : "ps^n/m" ≠ "ps^n/km" := by decide
  simp only [getBetas, dispFunSpecs, dispFunFib, genSpecs, genFib, Fib.new, Fiber.reload, e1, e2, hz, rawGVD, hw, if_true, or_self, if_false, e3,
    Bool.false_eq_true]

theorem taperBeta_contDiff {p : Pulse} (hn : 2 ≤ p.n) (c : Fin p.n) (wl : ℝ) {m : ℕ} {b : ℝ → Fin m → ℝ} (hb : ContDiff ℝ ∞ b) :
    ContDiff ℝ ∞ fun z => taperBeta hn c wl (b z) := by
  have hB : ∀ v : ℝ, ContDiff ℝ ∞ fun z => taylor ⟨m, b z⟩ v := by
    intro v
    show ContDiff ℝ ∞ fun z => ∑ i : Fin m, b z i / (Nat.factorial ((i : ℕ) + 2)) * v ^ ((i : ℕ) + 2)
    exact ContDiff.sum fun i _ => ((contDiff_pi.1 hb i).div_const _).mul contDiff_const
  rw [contDiff_pi]
  intro k
  unfold taperBeta gradAt
  dsimp only
  split_ifs
  · exact ((hB _).sub ((((hB _).sub (hB _)).div_const _).mul contDiff_const)).sub (hB _)
  · exact ((hB _).sub ((((hB _).sub (hB _)).div_const _).mul contDiff_const)).sub (hB _)
  · exact ((hB _).sub (((((hB _).sub (hB _)).div_const 2).div_const _).mul contDiff_const)).sub (hB _)

theorem taper_loads (polyfit : PolyFit) (spline : Spline) (o : Obj) {p : Pulse} {a : Fin p.n → ℂ} (hp : Holds p a) (hn : 2 ≤ p.n) {c : Fin p.n}
    (hc : argmin (fun i : Fin p.n => |2 * Real.pi * ((i : ℕ) - (p.n : ℝ) / 2) / p.tw|) = .ok c) {length wl gamma0 gain : ℝ} {b0 : Vec ℝ}
    {units label : String} {m : ℕ} (b : ℝ → Fin m → ℝ) (γ : ℝ → ℝ) (hwl : wl ≠ 0) (ht : o.disableRaman = true ∨ o.tau1 * o.tau2 ^ 2 ≠ 0) :
    ∃ R fR, LoadsAlong polyfit spline o p (taperFib length wl b0 gamma0 gain units label b γ)
      {f | f.dispChanges = true ∧ f.dispFun = some (fun z => .coeffs ⟨m, b z⟩) ∧ f.centerWl = some wl ∧ f.gammaChanges = true ∧ f.gammaFun = some γ}
      length (fun z => taperBeta hn c wl (b z)) gain R γ fR := by
  obtain ⟨β0, R, fR, h⟩ := loads_generated polyfit spline o hp hn (length := length) (gamma := gamma0) (gain := gain) (b := b0) (units := units)
    (label := label) hwl ht
  refine ⟨R, fR, ⟨rfl, rfl, rfl, rfl, rfl⟩, ?_, ?_, h.gain, h.raman⟩
  · rintro z - f ⟨h1, h2, h3, h4, h5⟩
    refine ⟨{ f with betas := some ⟨m, b z⟩ }, ⟨h1, h2, h3, h4, h5⟩, ?_⟩
    have hrel : reload "GVD" z f = (.ok (), { f with betas := some ⟨m, b z⟩ }) := by
      unfold reload
      rw [h1, h2]
      simp
    have hraw : rawGVD { f with betas := some ⟨m, b z⟩ } p = .ok ⟨p.n, fun k => taylor ⟨m, b z⟩ (2 * Real.pi * ((k : ℕ) - (p.n : ℝ) / 2) / p.tw +
        2 * Real.pi * p.cf - 2 * Real.pi * cNmps / wl)⟩ := by
      unfold rawGVD
      simp only [h3, W_of_ready hp.ready (by omega : 0 < p.n), attr, except_bind_ok, if_neg hwl, Vec.map_mk]
    unfold getBetas
    rw [show (taperFib length wl b0 gamma0 gain units label b γ).specs.format = some "GVD" from rfl]
    simp only [hrel, show ¬ (("GVD" : String) = "D") by decide, if_false, if_true]
    rw [hraw, except_bind_ok, reference_eq hp.ready hn hc]
    rfl
  · rintro z - f ⟨h1, h2, h3, h4, h5⟩
    unfold getGamma
    rw [h4, h5]
    rfl

/-- C129 applies to every nonzero pulse on an even grid and every fibre given by smooth functions for the Taylor coefficients and the nonlinear
coefficient, with the default settings of the solver except that self-steepening is switched off. -/
theorem C129_nonvacuous (polyfit : PolyFit) (spline : Spline) {p : Pulse} {a : Fin p.n → ℂ} (hp : Holds p a) (hcf : p.cf ≠ 0)
    (hn : 2 ≤ p.n) (he : p.n % 2 = 0) (ha : a ≠ 0) {length wl gamma0 gain : ℝ} {b0 : Vec ℝ} {units label : String} {m : ℕ} {b : ℝ → Fin m → ℝ}
    {γ : ℝ → ℝ} (hb : ContDiff ℝ ∞ b) (hγ : ContDiff ℝ ∞ γ) (hwl : wl ≠ 0) (hL : 0 < length) :
    ∃ (c : Fin p.n) (R : Fin p.n → ℂ) (A : Fin p.n → ℂ) (U : ℝ → Fin p.n → ℂ) (N0 : ℕ) (C : ℝ), p.AT = .ok ⟨p.n, A⟩ ∧ A ≠ 0 ∧ U 0 = A ∧
      SolvesTaper (fun z => taperBeta hn c wl (b z)) gain R γ (-(length + 1)) (length + 1) U ∧ ∀ N, N0 ≤ N → ∃ r o' F',
        propagate polyfit spline { Obj.default with disableSS := true } p (taperFib length wl b0 gamma0 gain units label b γ) N true =
          some (.ok (r, o', F')) ∧ r.AT.length = N ∧
        ∀ i < N, ∃ v : Fin p.n → ℂ, r.AT[i]? = some ⟨p.n, v⟩ ∧ ∀ j, ‖v j - U ((i + 1) * (length / N)) j‖ ≤ C / N := by
  obtain ⟨c, hc⟩ := argmin_ok (fun i : Fin p.n => |2 * Real.pi * ((i : ℕ) - (p.n : ℝ) / 2) / p.tw|) (by omega)
  obtain ⟨R, fR, h⟩ := taper_loads polyfit spline { Obj.default with disableSS := true } hp hn hc (length := length) (gamma0 := gamma0) (gain := gain)
    (b0 := b0) (units := units) (label := label) b γ hwl (Or.inr (by norm_num [Obj.default]))
  have hA : ifftT a ≠ 0 := by
    intro h0
    refine ha ?_
    rw [← fftT_ifftT a, h0]
    funext k
    have := congrFun (fftT_smul 0 (fun _ : Fin p.n => (0 : ℂ))) k
    simp only [zero_mul] at this
    exact this
  obtain ⟨f1, -, hld⟩ := h.at_start hL
  have hβ := taperBeta_contDiff hn c wl hb
  obtain ⟨U, hU, hU0⟩ := C129_exists hβ gain (raman_real hp he hld) hγ (ifftT a) (T := length + 1) (by linarith)
  obtain ⟨N0, C, hcv⟩ := C129_converges hp he hcf h hβ hγ rfl hL rfl rfl rfl (by norm_num [Obj.default]) (by norm_num [Obj.default])
    (by norm_num [Obj.default]) (by linarith : -(length + 1) < 0) (by linarith : length < length + 1) hU (by rw [hU0]; exact hp.AT_eq)
    (by rw [hU0]; exact hA)
  exact ⟨c, R, ifftT a, U, N0, C, hp.AT_eq, hA, hU0, hU, hcv⟩

/-- a fibre whose only coefficient is `β₂`, expanded about the frequency of the pulse -/
theorem taperBeta_quadratic {p : Pulse} {h : ℕ} (hh : p.n = 2 * h) (h2 : 2 ≤ h) (hn : 2 ≤ p.n) {wl : ℝ} (hwl : p.cf = cNmps / wl) (b2 : ℝ) (k : Fin p.n) :
    taperBeta hn ⟨h, by omega⟩ wl (fun _ : Fin 1 => b2) k = b2 / 2 * (2 * Real.pi * ((k : ℕ) - (p.n : ℝ) / 2) / p.tw) ^ 2 := by
  have e : ∀ v : ℝ, taylor ⟨1, fun _ : Fin 1 => b2⟩ v = b2 / 2 * v ^ 2 := by
    intro v
    simp [taylor, Nat.factorial]
  have e0 : (p.n : ℝ) / 2 = h := by rw [hh]; push_cast; ring
  have ew : ∀ x : ℝ, x + 2 * Real.pi * p.cf - 2 * Real.pi * cNmps / wl = x := by
    intro x
    rw [hwl]
    ring
  unfold taperBeta gradAt
  dsimp only
  have hc1 : ((h - 1 : ℕ) : ℝ) = (h : ℝ) - 1 := by rw [Nat.cast_sub (by omega)]; simp
  rw [if_neg (by omega), dif_neg (by omega)]
  simp only [e, e0, ew, hc1]
  push_cast
  ring

theorem norm_fftT_le {n : ℕ} {x : Fin n → ℂ} {C : ℝ} (h : ∀ j, ‖x j‖ ≤ C) (k : Fin n) : ‖fftT x k‖ ≤ C := by
  have hn : (0 : ℝ) < n := by exact_mod_cast (show 0 < n from by have := k.isLt; omega)
  rw [fftT_apply, norm_mul]
  calc ‖(1 / (n : ℂ))‖ * ‖∑ j : Fin n, x j * rootE n (((j : ℕ) + (n / 2 : ℕ) : ℤ) * ((k : ℕ) + (n / 2 : ℕ) : ℤ))‖
      ≤ ‖(1 / (n : ℂ))‖ * ∑ _j : Fin n, C := by
        refine mul_le_mul_of_nonneg_left ((norm_sum_le _ _).trans (Finset.sum_le_sum fun j _ => ?_)) (norm_nonneg _)
        rw [norm_mul, norm_rootE, mul_one]
        exact h j
    _ = C := by
        rw [Finset.sum_const, Finset.card_univ, Fintype.card_fin, nsmul_eq_mul, norm_div, norm_one, Complex.norm_natCast]
        field_simp

theorem exp_sub_lower {x y : ℝ} (h : |y - x| ≤ Real.pi / 2) : 2 / Real.pi * |y - x| ≤ ‖exp (I * x) - exp (I * y)‖ := by
  have e : exp (I * (x : ℂ)) - exp (I * (y : ℂ)) = -(exp (I * (x : ℂ)) * (exp (((y - x : ℝ) : ℂ) * I) - 1)) := by
    rw [mul_sub, ← Complex.exp_add]
    push_cast
    rw [show I * (x : ℂ) + ((y : ℂ) - x) * I = I * y by ring]
    ring
  rw [e, norm_neg, norm_mul, mul_comm I, Complex.norm_exp_ofReal_mul_I, one_mul]
  have h1 : |Real.sin (y - x)| ≤ ‖exp (((y - x : ℝ) : ℂ) * I) - 1‖ := by
    have := Complex.abs_im_le_norm (exp (((y - x : ℝ) : ℂ) * I) - 1)
    rwa [Complex.sub_im, Complex.one_im, sub_zero, Complex.exp_ofReal_mul_I_im] at this
  refine le_trans ?_ h1
  have h2 := Real.mul_le_sin (abs_nonneg (y - x)) h
  refine h2.trans ?_
  rcases abs_cases (y - x) with ⟨h3, -⟩ | ⟨h3, -⟩
  · rw [h3]; exact le_abs_self _
  · rw [h3, Real.sin_neg]; exact neg_le_abs _

/-- C130: the first order of C129 is the actual order.  For a fibre without nonlinearity whose `β₂` grows in proportion to the distance, and
any pulse at its centre wavelength with some light away from the carrier, no bound by a constant over `n_steps²` holds. -/
theorem C130_second_order_refuted (polyfit : PolyFit) (spline : Spline) {p : Pulse} {a : Fin p.n → ℂ} (hp : Holds p a) (he : p.n % 2 = 0)
    (hn : 4 ≤ p.n) (htw : p.tw ≠ 0) (hcf : p.cf ≠ 0) {k : Fin p.n} (hk : (k : ℕ) ≠ p.n / 2) (hak : a k ≠ 0) {L wl b2 : ℝ} (hwl0 : wl ≠ 0)
    (hwl : p.cf = cNmps / wl) (hb2 : b2 ≠ 0) (hL : 0 < L) {b0 : Vec ℝ} {units label : String} :
    ∃ (R : Fin p.n → ℂ) (U : ℝ → Fin p.n → ℂ),
      SolvesTaper (fun z k => z * b2 / 2 * (2 * Real.pi * ((k : ℕ) - (p.n : ℝ) / 2) / p.tw) ^ 2) 0 R (fun _ => 0) (-(L + 1)) (L + 1) U ∧
      p.AT = .ok ⟨p.n, U 0⟩ ∧ ¬ ∃ (N0 : ℕ) (C : ℝ), ∀ N, N0 ≤ N → ∃ r o' F',
        propagate polyfit spline { Obj.default with disableSS := true } p (taperFib L wl b0 0 0 units label (fun z (_ : Fin 1) => z * b2) fun _ => 0) N true =
          some (.ok (r, o', F')) ∧
        ∀ i < N, ∃ v : Fin p.n → ℂ, r.AT[i]? = some ⟨p.n, v⟩ ∧ ∀ j, ‖v j - U ((i + 1) * (L / N)) j‖ ≤ C / N ^ 2 := by
  obtain ⟨h, hh⟩ : ∃ h, p.n = 2 * h := ⟨p.n / 2, by omega⟩
  have hn2 : 2 ≤ p.n := by omega
  set B : Fin p.n → ℝ := fun k => b2 / 2 * (2 * Real.pi * ((k : ℕ) - (p.n : ℝ) / 2) / p.tw) ^ 2 with hB
  obtain ⟨R, fR, hl⟩ := taper_loads polyfit spline { Obj.default with disableSS := true } hp hn2 (argmin_even hh (by omega) htw) (length := L) (gamma0 := 0)
    (gain := 0) (b0 := b0) (units := units) (label := label) (fun z (_ : Fin 1) => z * b2) (fun _ => 0) hwl0 (Or.inr (by norm_num [Obj.default]))
  have hβ : (fun z => taperBeta hn2 ⟨h, by omega⟩ wl (fun _ : Fin 1 => z * b2)) = fun z k => z * B k := by
    funext z k
    rw [taperBeta_quadratic hh (by omega) hn2 hwl, hB]
    ring
  rw [hβ] at hl
  set X : ℝ → Fin p.n → ℂ := fun z k => exp (I * ((z ^ 2 / 2 * B k : ℝ) : ℂ)) * a k with hX
  have hfreq : ∀ x : Fin p.n → ℂ, Gnlse.toFreq (ifftT x) = x := fun x => fftT_ifftT x
  have hsol : ∀ z, HasDerivAt (fun z => ifftT (X z)) (Gnlse.rhs (fun k => z * B k) 0 R 0 (ifftT (X z))) z := by
    intro z
    have hd : ∀ k, HasDerivAt (fun z => X z k) ((I * ((z * B k : ℝ) : ℂ) + ((0 : ℝ) : ℂ) / 2) * X z k) z := by
      intro k
      have h1 : HasDerivAt (fun z : ℝ => z ^ 2 / 2 * B k) (z * B k) z := by
        have h0 : HasDerivAt (fun z : ℝ => z ^ 2 / 2 * B k) (((2 : ℕ) : ℝ) * z ^ (2 - 1) / 2 * B k) z := ((hasDerivAt_pow 2 z).div_const 2).mul_const (B k)
        rwa [show ((2 : ℕ) : ℝ) * z ^ (2 - 1) / 2 * B k = z * B k by norm_num] at h0
      have h2 : HasDerivAt (fun z => X z k) (exp (I * ((z ^ 2 / 2 * B k : ℝ) : ℂ)) * (I * ((z * B k : ℝ) : ℂ)) * a k) z :=
        ((h1.ofReal_comp.const_mul I).cexp).mul_const (a k)
      have e : (I * ((z * B k : ℝ) : ℂ) + ((0 : ℝ) : ℂ) / 2) * X z k = exp (I * ((z ^ 2 / 2 * B k : ℝ) : ℂ)) * (I * ((z * B k : ℝ) : ℂ)) * a k := by
        show (I * ((z * B k : ℝ) : ℂ) + ((0 : ℝ) : ℂ) / 2) * (exp (I * ((z ^ 2 / 2 * B k : ℝ) : ℂ)) * a k) = _
        rw [Complex.ofReal_zero]
        ring
      rw [e]
      exact h2
    have e : Gnlse.rhs (fun k => z * B k) 0 R 0 (ifftT (X z)) = ifftT fun k => (I * ((z * B k : ℝ) : ℂ) + ((0 : ℝ) : ℂ) / 2) * X z k := by
      funext j
      unfold Gnlse.rhs
      rw [hfreq]
      simp only [Complex.ofReal_zero, mul_zero, zero_mul, add_zero]
      rfl
    rw [e, hasDerivAt_pi]
    intro j
    simp only [ifftT_apply]
    exact HasDerivAt.fun_sum fun i _ => (hd i).mul_const _
  refine ⟨R, fun z => ifftT (X z), fun z _ => ?_, ?_, ?_⟩
  · have := hsol z
    have e : (fun k : Fin p.n => z * b2 / 2 * (2 * Real.pi * ((k : ℕ) - (p.n : ℝ) / 2) / p.tw) ^ 2) = fun k => z * B k := by
      funext k
      rw [hB]
      ring
    simp only [e]
    exact this
  · rw [hp.AT_eq]
    have : X 0 = a := by
      funext k
      simp [hX]
    show Except.ok (⟨p.n, ifftT a⟩ : Vec ℂ) = .ok ⟨p.n, ifftT (X 0)⟩
    rw [this]
  · rintro ⟨N0, C, hconv⟩
    have hBk : B k ≠ 0 := by
      rw [hB]
      have e0 : (p.n : ℝ) / 2 = h := by rw [hh]; push_cast; ring
      have h1 : ((k : ℕ) : ℝ) - (p.n : ℝ) / 2 ≠ 0 := by
        rw [e0, sub_ne_zero]
        exact_mod_cast (show (k : ℕ) ≠ h by omega)
      have := Real.pi_ne_zero
      simp only
      positivity
    have hD : 0 < |B k| * L ^ 2 / 2 := by positivity
    set D := |B k| * L ^ 2 / 2 with hDd
    have hκ : 0 < 2 / Real.pi * D * ‖a k‖ := by
      have := Real.pi_pos
      have := norm_pos_iff.2 hak
      positivity
    obtain ⟨M, hM⟩ := exists_nat_gt (max (C / (2 / Real.pi * D * ‖a k‖)) (max (D / (Real.pi / 2)) (L / (2 * Obj.default.dz))))
    have hM1 := (le_max_left _ _).trans_lt hM
    have hM2 := ((le_max_left _ _).trans (le_max_right _ _)).trans_lt hM
    have hM3 := ((le_max_right _ _).trans (le_max_right _ _)).trans_lt hM
    set N := max (max N0 1) M with hNd
    have hNM : M ≤ N := le_max_right _ _
    have hN1 : 1 ≤ N := (le_max_right N0 1).trans (le_max_left _ _)
    have hN0 : N0 ≤ N := (le_max_left N0 1).trans (le_max_left _ _)
    have hNr : (0 : ℝ) < N := by exact_mod_cast hN1
    have hMN : (M : ℝ) ≤ N := by exact_mod_cast hNM
    have hdz : (0 : ℝ) < Obj.default.dz := by norm_num [Obj.default]
    obtain ⟨r, o', F', hr, -, hAT⟩ := C130_riemann hp he hcf hl (fun _ _ => rfl) rfl hL rfl (by norm_num [Obj.default]) (by norm_num [Obj.default])
      hdz (by norm_num [Obj.default]) (by norm_num [Obj.default]) hN1 (by
        show L / N ≤ 2 * Obj.default.dz
        rw [div_lt_iff₀ (by positivity)] at hM3
        rw [div_le_iff₀ hNr]
        nlinarith)
    obtain ⟨r1, o1, F1, hr1, hb⟩ := hconv N hN0
    rw [hr] at hr1
    have hr2 := Except.ok.inj (Option.some.inj hr1)
    simp only [Prod.mk.injEq] at hr2
    obtain ⟨rfl, -, -⟩ := hr2
    obtain ⟨v, hv, hbound⟩ := hb (N - 1) (by omega)
    rw [hAT] at hv
    simp only [List.getElem?_map, List.getElem?_range (show N - 1 < N by omega), Option.map_some, Option.some.injEq, Vec.mk.injEq, heq_eq_eq, true_and] at hv
    have ec : ((N - 1 : ℕ) : ℝ) + 1 = N := by
      rw [Nat.cast_sub hN1]
      simp
    have hLN : (((N - 1 : ℕ) : ℝ) + 1) * (L / N) = L := by rw [ec]; field_simp
    rw [Nat.sub_add_cancel hN1] at hv
    have hbound : ∀ j, ‖v j - ifftT (X L) j‖ ≤ C / N ^ 2 := by
      intro j
      have := hbound j
      rw [hLN] at this
      exact this
    have hfin := norm_fftT_le (x := fun j => v j - ifftT (X L) j) hbound k
    have hsum : ∑ m ∈ Finset.range N, ((L / N : ℝ) : ℂ) * (I * (((m : ℝ) * (L / N) * B k : ℝ) : ℂ) + ((0 : ℝ) : ℂ) / 2) =
        I * ((L ^ 2 / 2 * B k - B k * L ^ 2 / 2 / N : ℝ) : ℂ) := by
      have h1 : ∀ M : ℕ, ∑ m ∈ Finset.range M, ((L / N : ℝ) : ℂ) * (I * (((m : ℝ) * (L / N) * B k : ℝ) : ℂ) + ((0 : ℝ) : ℂ) / 2) =
          I * (((L / N) ^ 2 * B k * (M * (M - 1) / 2) : ℝ) : ℂ) := by
        intro M
        induction M with
        | zero => simp
        | succ M ih =>
          rw [Finset.sum_range_succ, ih]
          push_cast
          ring
      rw [h1]
      congr 2
      field_simp
    have hdiff : fftT (fun j => v j - ifftT (X L) j) k =
        (exp (I * ((L ^ 2 / 2 * B k - B k * L ^ 2 / 2 / N : ℝ) : ℂ)) - exp (I * ((L ^ 2 / 2 * B k : ℝ) : ℂ))) * a k := by
      have hlin : fftT (fun j => v j - ifftT (X L) j) k = fftT v k - fftT (ifftT (X L)) k := by
        simp only [fftT_apply, sub_mul, Finset.sum_sub_distrib, mul_sub]
      rw [hlin, ← hv, fftT_ifftT, fftT_ifftT, hsum, hX]
      ring
    have hgap : |L ^ 2 / 2 * B k - (L ^ 2 / 2 * B k - B k * L ^ 2 / 2 / N)| = D / N := by
      rw [show L ^ 2 / 2 * B k - (L ^ 2 / 2 * B k - B k * L ^ 2 / 2 / N) = B k * (L ^ 2 / 2 / N) by ring, abs_mul,
        abs_of_pos (show 0 < L ^ 2 / 2 / (N : ℝ) by positivity), hDd]
      ring
    have hlow := exp_sub_lower (x := L ^ 2 / 2 * B k - B k * L ^ 2 / 2 / N) (y := L ^ 2 / 2 * B k) (by
      rw [hgap, div_le_iff₀ hNr]
      rw [div_lt_iff₀ (by have := Real.pi_pos; positivity)] at hM2
      have := Real.pi_pos
      nlinarith)
    rw [hgap] at hlow
    rw [hdiff, norm_mul] at hfin
    have h3 : 2 / Real.pi * (D / N) * ‖a k‖ ≤ C / N ^ 2 := (mul_le_mul_of_nonneg_right hlow (norm_nonneg _)).trans hfin
    rw [le_div_iff₀ (by positivity)] at h3
    have h4 : 2 / Real.pi * (D / N) * ‖a k‖ * N ^ 2 = 2 / Real.pi * D * ‖a k‖ * N := by
      field_simp
    rw [h4] at h3
    rw [div_lt_iff₀ hκ] at hM1
    nlinarith

/-- the hypotheses of C130 are met by a four-point pulse -/
theorem C130_nonvacuous : ∃ (p : Pulse) (a : Fin p.n → ℂ) (k : Fin p.n), Holds p a ∧ p.n % 2 = 0 ∧ 4 ≤ p.n ∧ p.tw ≠ 0 ∧ p.cf ≠ 0 ∧
    (k : ℕ) ≠ p.n / 2 ∧ a k ≠ 0 ∧ ∃ wl : ℝ, wl ≠ 0 ∧ p.cf = cNmps / wl := by
  refine ⟨{ Pulse.blank with n := 4, ready := true, tw := 1, cf := cNmps / 1550, aw := some ⟨4, fun _ => 1⟩ }, (fun _ => 1 : Fin 4 → ℂ), (0 : Fin 4), ⟨rfl, rfl, by norm_num, rfl⟩, rfl, le_refl 4,
    one_ne_zero, ?_, by norm_num, one_ne_zero, 1550, by norm_num, rfl⟩
  show cNmps / 1550 ≠ 0
  norm_num [cNmps, cMks]

end

end PyNLO
