import Verif.Props.Resume
import Verif.Props.PulsePhase
import Verif.Props.Nlse
import Verif.Props.Symmetry
import Verif.Lemmas.SsfmConverge

/-! # C174: a fibre without nonlinearity is a chirp -/

namespace PyNLO

open Complex Ssfm Pulse Polynomial Nlse

/-- the propagation constant of a fibre with three dispersion coefficients, in the frame of `get_betas` -/
theorem fiberPoly_three (b2 b3 b4 d x : ℝ) {T : ℝ} (hT : T ≠ 0) : (fiberPoly ![b2, b3, b4] d T).eval x =
    (b2 + b3 * d + b4 * d ^ 2 / 2) / 2 * x ^ 2 + (b3 + b4 * d) / 6 * (x ^ 3 - (2 * Real.pi / T) ^ 2 * x) + b4 / 24 * x ^ 4 := by
  have h : ∀ y, (taylorPoly ![b2, b3, b4]).eval y = b2 / 2 * y ^ 2 + b3 / 6 * y ^ 3 + b4 / 24 * y ^ 4 := by
    intro y
    rw [taylorPoly_eval]
    simp [Fiber.taylor, Fin.sum_univ_three, Nat.factorial]
    ring
  have hδ : 2 * Real.pi / T ≠ 0 := div_ne_zero (mul_ne_zero two_ne_zero Real.pi_ne_zero) hT
  unfold fiberPoly Nlse.slope
  simp only [Polynomial.eval_sub, Polynomial.eval_mul, Polynomial.eval_C, Polynomial.eval_X, Polynomial.eval_comp, Polynomial.eval_add, h]
  generalize 2 * Real.pi / T = δ at *
  field_simp
  ring

section
variable {polyfit : Fiber.PolyFit} {spline : Fiber.Spline} {o : Obj} {p : Pulse} {F : FibObj} {f1 : Fiber.Fib} {β : Fin p.n → ℝ}
  {g fR : ℝ} {R : Fin p.n → ℂ}

/-- a fibre without nonlinearity: every stored spectrum is the input spectrum times `exp(D·(iβ + g/2))` -/
theorem linear_columns {a : Fin p.n → ℂ} (hp : Holds p a) (he : p.n % 2 = 0) (hcf : p.cf ≠ 0) (h : Loads polyfit spline o p F f1 β g R 0 fR) {L : ℝ}
    (hL : F.fib.length = some L) (hpos : 0 < L) (hm : o.method = .rk4ip) (heta : 0 < o.eta) (heta1 : o.eta ≠ 1)
    (hdz : 0 < o.dz) (hmin : 0 < o.dzMin) (hle : 0 < o.localError) {N : ℕ} (hN : 1 ≤ N) :
    ∃ (r : Result) (o' : Obj) (F' : FibObj) (D : ℕ → ℝ), propagate polyfit spline o p F N false = some (.ok (r, o', F')) ∧
      (∀ i < N, (i + 1) * (L / N) ≤ D i) ∧ (L / N ≤ 2 * o.dz → ∀ i < N, D i = (i + 1) * (L / N)) ∧
      r.AW = (List.range N).map (fun i => (⟨p.n, fun k => exp ((D i : ℂ) * (I * (β k : ℂ) + (g : ℂ) / 2)) * a k⟩ : Vec ℂ)) ∧
      r.out = outPulse p fun k => exp ((D (N - 1) : ℂ) * (I * (β k : ℂ) + (g : ℂ) / 2)) * a k := by
  obtain ⟨P0, P, hs, hl, hc, -⟩ := setup_carries hp h
  obtain ⟨r, o', hr, -, -⟩ := C43_returns hN hL hpos hp hcf hs hl hdz hmin heta
  obtain ⟨-, -, L', fR', P0', P', S, hL', hs', hl', hA, -, hz, hint, hres, -⟩ := propagate_full hr hp he
  obtain rfl : L = L' := Option.some.inj (hL.symm.trans hL')
  rw [hs] at hs'
  have hs2 := Except.ok.inj hs'
  simp only [Prod.mk.injEq] at hs2
  obtain ⟨rfl, -, rfl⟩ := hs2
  rw [hl] at hl'
  simp only [Prod.mk.injEq, Except.ok.injEq, and_true] at hl'
  subst hl'
  have hP : P.Ok := ⟨by rw [hc.dzMin]; exact hmin, by rw [hc.eta]; exact heta⟩
  have hNr : (0 : ℝ) < N := by exact_mod_cast hN
  have hδ : 0 < L / N := div_pos hpos hNr
  have hag : P.alpha = fun _ => -g := hc.alpha
  have step : ∀ i < N, 0 < (S i).dz → 0 < (S (i + 1)).dz ∧ ∃ c : ℝ, L / N ≤ c ∧ (L / N ≤ 2 * (S i).dz → c = L / N ∧ L / N ≤ 2 * (S (i + 1)).dz) ∧
      ∀ k, ifft (S (i + 1)).A k = exp ((c : ℂ) * (I * (P.betas k : ℂ) - (P.alpha k : ℂ) / 2)) * ifft (S i).A k := by
    intro i hi hzi
    have hpos' : 0 < (S (i + 1)).dz := by
      obtain ⟨f2, ef2, hsp⟩ := integrate_spec hP (L / N) 1 hzi
      rw [hint i hi] at ef2
      rw [Option.some.inj ef2]
      exact spec_dz_pos hP.cfg hδ hzi hsp
    refine ⟨hpos', ?_⟩
    by_cases hshort : L / N ≤ 2 * (S i).dz
    · have hadv : ∀ A : Fin p.n → ℂ, Ssfm.Spec.adv P 1 (L / N / 2) (Ssfm.Spec.adv P 1 (L / N / 2) A) = Ssfm.Spec.adv P 1 (2 * (L / N / 2)) A := by
        intro A
        rw [adv_linear hc.gamma (hc.method.trans hm), adv_linear hc.gamma (hc.method.trans hm), adv_linear hc.gamma (hc.method.trans hm), applySpec_applySpec]
        congr 1
        funext k
        rw [← Complex.exp_add]
        congr 1
        push_cast
        ring
      obtain ⟨f', e, hd', hA'⟩ := integrate_one hP hδ hshort (by
        rw [hadv, localErr_self]
        rw [hc.localError]
        exact hle) (dir := 1)
      rw [hint i hi] at e
      obtain rfl := Option.some.inj e
      refine ⟨L / N, le_refl _, fun _ => ⟨rfl, hd'⟩, fun k => ?_⟩
      rw [hA', hadv, C42_agreement (by rw [hc.eta]; exact heta1), adv_linear hc.gamma (hc.method.trans hm), ifft_applySpec]
      congr 2
      push_cast
      ring
    · obtain ⟨f', -, l, ef, -, hlin, hcov, -⟩ := C41_linear_exact hP (by rw [hc.eta]; exact heta1) hc.gamma (hc.method.trans hm) hδ 1 hzi
      rw [hint i hi] at ef
      obtain rfl := Option.some.inj ef
      refine ⟨covered l, hcov, fun h => absurd h hshort, fun k => ?_⟩
      rw [hlin k]
      congr 2
      push_cast
      ring
  have key : ∀ i ≤ N, 0 < (S i).dz ∧ ∃ D : ℝ, (i * (L / N) ≤ D) ∧ (L / N ≤ 2 * o.dz → D = i * (L / N) ∧ L / N ≤ 2 * (S i).dz) ∧
      ∀ k, ifft (S i).A k = exp ((D : ℂ) * (I * (P.betas k : ℂ) - (P.alpha k : ℂ) / 2)) * ifft (S 0).A k := by
    intro i
    induction i with
    | zero => exact fun _ => ⟨by rw [hz]; exact hdz, 0, by simp, fun h => ⟨by simp, by rw [hz]; exact h⟩, fun k => by simp⟩
    | succ i ih =>
      intro hi
      obtain ⟨h1, D, h2, h3, h4⟩ := ih (by omega)
      obtain ⟨h5, c, h6, h7, h8⟩ := step i (by omega) h1
      refine ⟨h5, D + c, by push_cast; linarith, fun hsh => ?_, fun k => ?_⟩
      · obtain ⟨e1, e2⟩ := h3 hsh
        obtain ⟨e3, e4⟩ := h7 e2
        exact ⟨by rw [e1, e3]; push_cast; ring, e4⟩
      · rw [h8 k, h4 k, ← mul_assoc, ← Complex.exp_add]
        congr 2
        push_cast
        ring
  have col : ∀ i, i < N → ∃ D : ℝ, ((i + 1) * (L / N) ≤ D) ∧ (L / N ≤ 2 * o.dz → D = (i + 1) * (L / N)) ∧
      fftT (ifftshift (S (i + 1)).A) = fun k => exp ((D : ℂ) * (I * (β k : ℂ) + (g : ℂ) / 2)) * a k := by
    intro i hi
    obtain ⟨-, D, h1, h2, h3⟩ := key (i + 1) (by omega)
    refine ⟨D, by push_cast at h1; exact h1, fun h => by rw [(h2 h).1]; push_cast; ring, funext fun k => ?_⟩
    have h4 : fftT (ifftshift (S 0).A) k = a k := by rw [hA, ifftshift_fftshift, fftT_ifftT]
    rw [fftT_ifftshift] at h4 ⊢
    simp only [ifftshift, roll] at h4 ⊢
    rw [h3, h4]
    congr 2
    have hb : P.betas (rollIdx (-((p.n / 2 : ℕ) : ℤ)) k) = β k := by
      rw [hc.betas]
      exact congrFun (ifftshift_fftshift β) k
    rw [hb, hag]
    push_cast
    ring
  choose! D hD1 hD2 hD3 using col
  refine ⟨r, o', _, D, hr, hD1, fun h i hi => hD2 i hi h, ?_, ?_⟩
  · rw [hres]
    refine List.map_congr_left fun i hi => ?_
    rw [hD3 i (List.mem_range.1 hi)]
  · rw [hres]
    have := hD3 (N - 1) (by omega)
    rw [show N - 1 + 1 = N by omega] at this
    rw [this]

end

/-- `generate_fiber` with three dispersion coefficients and without nonlinearity -/
noncomputable def linearFibre (L wl b2 b3 b4 gain : ℝ) (units label : String) : FibObj :=
  ⟨Fiber.genFib L wl ⟨3, ![b2, b3, b4]⟩ 0 gain units label Fiber.Fib.new, Fiber.genSpecs gain⟩

/-- settings of the solver the theorems below apply to; those of a new solver are among them -/
structure Usable (o : Obj) : Prop where
  method : o.method = .rk4ip
  eta : 0 < o.eta
  eta1 : o.eta ≠ 1
  dz : 0 < o.dz
  dzMin : 0 < o.dzMin
  localError : 0 < o.localError
  raman : o.disableRaman = true ∨ o.tau1 * o.tau2 ^ 2 ≠ 0

theorem usable_default : Usable Obj.default :=
  ⟨rfl, by norm_num [Obj.default], by norm_num [Obj.default], by norm_num [Obj.default], by norm_num [Obj.default], by norm_num [Obj.default],
    Or.inr (by norm_num [Obj.default])⟩

section
variable (polyfit : Fiber.PolyFit) (spline : Fiber.Spline) {o : Obj} {p : Pulse} {a : Fin p.n → ℂ} {L wl gain : ℝ} {units label : String}

/-- C174: the propagation constants of the fibre, with `V` the angular frequency from the centre of the pulse and `d` the distance of the centre of the pulse
from the centre of the fibre.  The numerical slope at the centre bin leaves a multiple of `V` behind where there is third order dispersion. -/
theorem C174_betas (hp : Holds p a) (hn : 4 ≤ p.n) (he : p.n % 2 = 0) (htw : p.tw ≠ 0) (hwl : wl ≠ 0) (hu : units ≠ "ps^n/km") (b2 b3 b4 : ℝ) :
    ∃ V B : Fin p.n → ℝ, p.V_THz = .ok ⟨p.n, V⟩ ∧
      (Fiber.getBetas polyfit spline (linearFibre L wl b2 b3 b4 gain units label).specs p 0 (linearFibre L wl b2 b3 b4 gain units label).fib).1 =
        .ok (.arr ⟨p.n, B⟩) ∧ ∀ k, B k =
        (b2 + b3 * (2 * Real.pi * p.cf - 2 * Real.pi * cNmps / wl) + b4 * (2 * Real.pi * p.cf - 2 * Real.pi * cNmps / wl) ^ 2 / 2) / 2 * V k ^ 2 +
        (b3 + b4 * (2 * Real.pi * p.cf - 2 * Real.pi * cNmps / wl)) / 6 * (V k ^ 3 - (2 * Real.pi / p.tw) ^ 2 * V k) + b4 / 24 * V k ^ 4 := by
  have hV : p.V_THz = .ok ⟨p.n, fun i => 2 * Real.pi * ((i : ℕ) - (p.n : ℝ) / 2) / p.tw⟩ := hp.V_eq
  refine ⟨_, _, hV, ?_, fun k => (fiberPoly_three b2 b3 b4 _ _ htw)⟩
  rw [fiberPoly_betas polyfit spline 0 (s := (linearFibre L wl b2 b3 b4 gain units label).specs) (b := ![b2, b3, b4]) (wl := wl) hp.ready hn he htw rfl rfl
    (by simp only [linearFibre, Fiber.genFib, if_neg hu]) rfl hwl]

theorem linearFibre_loads (hp : Holds p a) (hn : 4 ≤ p.n) (he : p.n % 2 = 0) (htw : p.tw ≠ 0) (hwl : wl ≠ 0) (hu : units ≠ "ps^n/km") (ho : Usable o) (b2 b3 b4 : ℝ) :
    ∃ R fR, Loads polyfit spline o p (linearFibre L wl b2 b3 b4 gain units label) (linearFibre L wl b2 b3 b4 gain units label).fib
      (fun k => (fiberPoly ![b2, b3, b4] (2 * Real.pi * p.cf - 2 * Real.pi * cNmps / wl) p.tw).eval (2 * Real.pi * ((k : ℕ) - (p.n : ℝ) / 2) / p.tw))
      gain R 0 fR := by
  obtain ⟨β, R, fR, h⟩ := loads_generated polyfit spline o hp (by omega : 2 ≤ p.n) (length := L) (gamma := 0) (gain := gain)
    (b := ⟨3, ![b2, b3, b4]⟩) (units := units) (label := label) hwl ho.raman
  exact ⟨R, fR, fiberPoly_betas polyfit spline 0 hp.ready hn he htw rfl rfl (by simp only [linearFibre, Fiber.genFib, if_neg hu]) rfl hwl, h.gamma, h.gain, h.raman⟩

/-- C174: what `propagate` returns for a fibre without nonlinearity.  Every stored spectrum is what `chirp_pulse_W` and `add_time_offset` make of the input,
up to a constant phase and the gain; the distance is at least the length of fibre passed, and exactly that where the segments are at most two initial steps long. -/
theorem C174_chirp (hp : Holds p a) (hn : 4 ≤ p.n) (he : p.n % 2 = 0) (htw : p.tw ≠ 0) (hcf : p.cf ≠ 0) (hwl : wl ≠ 0) (hu : units ≠ "ps^n/km")
    (ho : Usable o) (hL : 0 < L) (b2 b3 b4 : ℝ) {B2 B3 d : ℝ} (hd : d = 2 * Real.pi * p.cf - 2 * Real.pi * cNmps / wl)
    (hB2 : B2 = b2 + b3 * d + b4 * d ^ 2 / 2) (hB3 : B3 = b3 + b4 * d) {N : ℕ} (hN : 1 ≤ N) :
    ∃ (r : Result) (o' : Obj) (F' : FibObj) (D : ℕ → ℝ),
      propagate polyfit spline o p (linearFibre L wl b2 b3 b4 gain units label) N false = some (.ok (r, o', F')) ∧ r.AW.length = N ∧
      (∀ i < N, (i + 1) * (L / N) ≤ D i) ∧ (L / N ≤ 2 * o.dz → ∀ i < N, D i = (i + 1) * (L / N)) ∧
      ∀ i < N, ∃ (p1 p2 : Pulse) (v : Fin p.n → ℂ), chirpPulseW (B2 * D i) (B3 * D i) (b4 * D i) none p = (.ok (), p1) ∧
        addTimeOffset (B3 * D i / 6 * (2 * Real.pi / p.tw) ^ 2) p1 = (.ok (), p2) ∧ p2.AW = .ok ⟨p.n, v⟩ ∧
        r.AW[i]? = some ⟨p.n, fun k => exp (I * ((2 * Real.pi * p.cf * (B3 * D i / 6 * (2 * Real.pi / p.tw) ^ 2) : ℝ) : ℂ)) *
          ((Real.exp (gain * D i / 2) : ℝ) : ℂ) * v k⟩ := by
  obtain ⟨R, fR, hl⟩ := linearFibre_loads polyfit spline (L := L) (gain := gain) (label := label) hp hn he htw hwl hu ho b2 b3 b4
  obtain ⟨r, o', F', D, hr, h1, h2, h3, -⟩ := linear_columns hp he hcf hl rfl hL ho.method ho.eta ho.eta1 ho.dz ho.dzMin ho.localError hN
  refine ⟨r, o', F', D, hr, by rw [h3]; simp, h1, h2, fun i hi => ?_⟩
  refine ⟨_, _, _, hp.chirpPulseW_eq _ _ _ none, (hp.update _).addTimeOffset_eq _, ((hp.update _).update _).AW_eq, ?_⟩
  rw [h3, List.getElem?_map, List.getElem?_range hi, Option.map_some]
  congr 2
  funext k
  rw [fiberPoly_three _ _ _ _ _ htw, ← hd, ← hB2, ← hB3, chirpFactor_eq]
  simp only [detuning]
  rw [Complex.ofReal_exp]
  generalize 2 * Real.pi * ((k : ℕ) - (p.n : ℝ) / 2) / p.tw = V
  generalize 2 * Real.pi / p.tw = δ
  rw [mul_comm (exp _ * a k) (exp _), ← mul_assoc, ← mul_assoc, ← Complex.exp_add, ← Complex.exp_add, ← Complex.exp_add]
  congr 2
  push_cast
  ring

/-- C174: without third order dispersion and gain `pulse_out` has exactly the spectrum that `chirp_pulse_W` gives the input pulse. -/
theorem C174_exact (hp : Holds p a) (hn : 4 ≤ p.n) (he : p.n % 2 = 0) (htw : p.tw ≠ 0) (hcf : p.cf = cNmps / wl) (hwl : wl ≠ 0) (hu : units ≠ "ps^n/km")
    (ho : Usable o) (hL : 0 < L) (b2 b4 : ℝ) {N : ℕ} (hN : 1 ≤ N) (hshort : L / N ≤ 2 * o.dz) :
    ∃ (r : Result) (o' : Obj) (F' : FibObj) (p1 : Pulse),
      propagate polyfit spline o p (linearFibre L wl b2 0 b4 0 units label) N false = some (.ok (r, o', F')) ∧
      chirpPulseW (b2 * L) 0 (b4 * L) none p = (.ok (), p1) ∧ r.out.AW = p1.AW ∧ r.out.AT = p1.AT ∧
      ∃ p3, chirpPulseW (-(b2 * L)) 0 (-(b4 * L)) none r.out = (.ok (), p3) ∧ p3.AW = p.AW := by
  have hcf0 : p.cf ≠ 0 := by rw [hcf]; exact div_ne_zero (by norm_num [cNmps, cMks]) hwl
  obtain ⟨R, fR, hl⟩ := linearFibre_loads polyfit spline (L := L) (gain := 0) (label := label) hp hn he htw hwl hu ho b2 0 b4
  obtain ⟨r, o', F', D, hr, -, h2, -, h4⟩ := linear_columns hp he hcf0 hl rfl hL ho.method ho.eta ho.eta1 ho.dz ho.dzMin ho.localError hN
  have hNr : (N : ℝ) ≠ 0 := by exact_mod_cast (by omega : N ≠ 0)
  have hD : D (N - 1) = L := by
    rw [h2 hshort (N - 1) (by omega), Nat.cast_sub hN]
    field_simp
    ring
  have hv : (fun k : Fin p.n => exp ((D (N - 1) : ℂ) * (I * (((fiberPoly ![b2, 0, b4] (2 * Real.pi * p.cf - 2 * Real.pi * cNmps / wl) p.tw).eval
      (2 * Real.pi * ((k : ℕ) - (p.n : ℝ) / 2) / p.tw) : ℝ) : ℂ) + ((0 : ℝ) : ℂ) / 2)) * a k) =
      fun k => chirpFactor (b2 * L) 0 (b4 * L) (detuning p p.n none k) * a k := by
    funext k
    have hd0 : 2 * Real.pi * p.cf - 2 * Real.pi * cNmps / wl = 0 := by rw [hcf]; ring
    rw [hd0, fiberPoly_three _ _ _ _ _ htw, hD, chirpFactor_eq]
    simp only [detuning]
    congr 2
    push_cast
    ring
  rw [hv] at h4
  have hq := outPulse_holds hp fun k => chirpFactor (b2 * L) 0 (b4 * L) (detuning p p.n none k) * a k
  refine ⟨r, o', F', _, hr, hp.chirpPulseW_eq _ _ _ none, ?_, ?_, ?_⟩
  · rw [h4, hq.AW_eq, (hp.update _).AW_eq]
  · rw [h4, hq.AT_eq, (hp.update _).AT_eq]
  · rw [h4]
    refine ⟨_, hq.chirpPulseW_eq _ _ _ none, ?_⟩
    rw [(hq.update _).AW_eq, hp.AW_eq]
    congr 2
    funext k
    have e : detuning (outPulse p fun k => chirpFactor (b2 * L) 0 (b4 * L) (detuning p p.n none k) * a k) p.n none k = detuning p p.n none k := rfl
    show chirpFactor _ _ _ (detuning (outPulse p _) p.n none k) * _ = _
    rw [e, chirpFactor_eq, chirpFactor_eq, ← mul_assoc, ← Complex.exp_add]
    have : (I * ((-(b2 * L) / 2 * detuning p p.n none k ^ 2 + 0 / 6 * detuning p p.n none k ^ 3 + -(b4 * L) / 24 * detuning p p.n none k ^ 4 : ℝ) : ℂ) +
      I * ((b2 * L / 2 * detuning p p.n none k ^ 2 + 0 / 6 * detuning p p.n none k ^ 3 + b4 * L / 24 * detuning p p.n none k ^ 4 : ℝ) : ℂ)) = 0 := by
      push_cast
      ring
    rw [this, Complex.exp_zero, one_mul]

/-- C174: a pulse with a chirp given to it by `chirp_pulse_W` is compressed again by a fibre with the opposite dispersion: the chirp of the fibre takes it away.
The constructors of the analytic pulses chirp with `chirp_pulse_W`. -/
theorem C174_compress (hp : Holds p a) (hn : 4 ≤ p.n) (he : p.n % 2 = 0) (htw : p.tw ≠ 0) (hcf : p.cf = cNmps / wl) (hwl : wl ≠ 0) (hu : units ≠ "ps^n/km")
    (ho : Usable o) (hL : 0 < L) {b2 b4 GDD FOD : ℝ} (h2 : GDD + b2 * L = 0) (h4 : FOD + b4 * L = 0) {N : ℕ} (hN : 1 ≤ N) (hshort : L / N ≤ 2 * o.dz) :
    ∃ (r : Result) (o' : Obj) (F' : FibObj) (p1 : Pulse), chirpPulseW GDD 0 FOD none p = (.ok (), p1) ∧
      propagate polyfit spline o p1 (linearFibre L wl b2 0 b4 0 units label) N false = some (.ok (r, o', F')) ∧ r.out.AW = p.AW ∧ r.out.AT = p.AT := by
  obtain ⟨p1, hc1, hc2⟩ := C12_chirp_additive hp GDD 0 FOD (b2 * L) 0 (b4 * L) none
  have e1 := hp.chirpPulseW_eq GDD 0 FOD none
  rw [hc1] at e1
  obtain rfl := (Prod.mk.inj e1).2
  obtain ⟨r, o', F', p2, hr, hch, hAW, hAT, -⟩ := C174_exact polyfit spline (hp.update fun i => chirpFactor GDD 0 FOD (detuning p p.n none i) * a i) hn he htw hcf hwl hu ho hL
    b2 b4 (label := label) hN hshort
  refine ⟨r, o', F', _, hc1, hr, ?_⟩
  rw [hch, h2, h4, add_zero, hp.chirpPulseW_eq] at hc2
  obtain rfl := (Prod.mk.inj hc2).2
  have e : (fun i => chirpFactor 0 0 0 (detuning p p.n none i) * a i) = a := by
    funext i
    rw [chirpFactor_eq]
    simp
  rw [hAW, hAT, (hp.update _).AW_eq, (hp.update _).AT_eq, hp.AW_eq, hp.AT_eq, e]
  exact ⟨rfl, rfl⟩

/-- C174: two fibres, of lengths `L` and `L'`, whose dispersion adds up to nothing: `pulse_out` of the second has the spectrum of the input of the first.
This holds for every order and wherever the pulse is centred, for the artificial delay is compensated as well. -/
theorem C174_pair (hp : Holds p a) (hn : 4 ≤ p.n) (he : p.n % 2 = 0) (htw : p.tw ≠ 0) (hcf : p.cf ≠ 0) (hwl : wl ≠ 0) (hu : units ≠ "ps^n/km")
    {o1 : Obj} (ho : Usable o) (ho1 : Usable o1) {L' : ℝ} (hL : 0 < L) (hL' : 0 < L') {b2 b3 b4 b2' b3' b4' : ℝ} (e2 : b2 * L + b2' * L' = 0) (e3 : b3 * L + b3' * L' = 0)
    (e4 : b4 * L + b4' * L' = 0) {N N' : ℕ} (hN : 1 ≤ N) (hN' : 1 ≤ N') (hshort : L / N ≤ 2 * o.dz) (hshort' : L' / N' ≤ 2 * o1.dz) :
    ∃ (r r' : Result) (o' o1' : Obj) (F' F1' : FibObj),
      propagate polyfit spline o p (linearFibre L wl b2 b3 b4 0 units label) N false = some (.ok (r, o', F')) ∧
      propagate polyfit spline o1 r.out (linearFibre L' wl b2' b3' b4' 0 units label) N' false = some (.ok (r', o1', F1')) ∧ r'.out.AW = p.AW := by
  obtain ⟨R, fR, hl⟩ := linearFibre_loads polyfit spline (L := L) (gain := 0) (label := label) hp hn he htw hwl hu ho b2 b3 b4
  obtain ⟨r, o', F', D, hr, -, h2, -, h4⟩ := linear_columns hp he hcf hl rfl hL ho.method ho.eta ho.eta1 ho.dz ho.dzMin ho.localError hN
  have hD : ∀ {M : ℕ} {l : ℝ}, 1 ≤ M → (((M - 1 : ℕ) : ℝ) + 1) * (l / M) = l := by
    intro M l hM
    have : (M : ℝ) ≠ 0 := by exact_mod_cast (by omega : M ≠ 0)
    rw [Nat.cast_sub hM]
    field_simp
    ring
  rw [h2 hshort (N - 1) (by omega), hD hN] at h4
  set b : Fin p.n → ℂ := fun k => exp ((L : ℂ) * (I * (((fiberPoly ![b2, b3, b4] (2 * Real.pi * p.cf - 2 * Real.pi * cNmps / wl) p.tw).eval
      (2 * Real.pi * ((k : ℕ) - (p.n : ℝ) / 2) / p.tw) : ℝ) : ℂ) + ((0 : ℝ) : ℂ) / 2)) * a k with hb
  have hq : Holds (outPulse p b) (n := (outPulse p b).n) b := outPulse_holds hp b
  obtain ⟨R', fR', hl'⟩ := linearFibre_loads polyfit spline (o := o1) (L := L') (gain := 0) (label := label) hq hn he htw hwl hu ho1 b2' b3' b4'
  obtain ⟨r', o1', F1', D', hr', -, h2', -, h4'⟩ := linear_columns hq he hcf hl' rfl hL' ho1.method ho1.eta ho1.eta1 ho1.dz ho1.dzMin ho1.localError hN'
  rw [h2' hshort' (N' - 1) (by omega), hD hN'] at h4'
  refine ⟨r, r', o', o1', F', F1', hr, by rw [h4]; exact hr', ?_⟩
  rw [h4', (outPulse_holds hq _).AW_eq, hp.AW_eq]
  show Except.ok (Vec.mk p.n _) = _
  congr 2
  funext k
  show exp ((L' : ℂ) * (I * (((fiberPoly ![b2', b3', b4'] (2 * Real.pi * p.cf - 2 * Real.pi * cNmps / wl) p.tw).eval
      (2 * Real.pi * ((k : ℕ) - (p.n : ℝ) / 2) / p.tw) : ℝ) : ℂ) + ((0 : ℝ) : ℂ) / 2)) * b k = a k
  rw [hb]
  simp only
  rw [← mul_assoc, ← Complex.exp_add, fiberPoly_three _ _ _ _ _ htw, fiberPoly_three _ _ _ _ _ htw]
  generalize 2 * Real.pi * ((k : ℕ) - (p.n : ℝ) / 2) / p.tw = V
  generalize 2 * Real.pi / p.tw = δ
  generalize 2 * Real.pi * p.cf - 2 * Real.pi * cNmps / wl = d
  have e2' : (b2 : ℂ) * L + b2' * L' = 0 := by exact_mod_cast e2
  have e3' : (b3 : ℂ) * L + b3' * L' = 0 := by exact_mod_cast e3
  have e4' : (b4 : ℂ) * L + b4' * L' = 0 := by exact_mod_cast e4
  rw [show (L' : ℂ) * (I * (((b2' + b3' * d + b4' * d ^ 2 / 2) / 2 * V ^ 2 + (b3' + b4' * d) / 6 * (V ^ 3 - δ ^ 2 * V) + b4' / 24 * V ^ 4 : ℝ) : ℂ) +
      ((0 : ℝ) : ℂ) / 2) + (L : ℂ) * (I * (((b2 + b3 * d + b4 * d ^ 2 / 2) / 2 * V ^ 2 + (b3 + b4 * d) / 6 * (V ^ 3 - δ ^ 2 * V) + b4 / 24 * V ^ 4 : ℝ) : ℂ) +
      ((0 : ℝ) : ℂ) / 2) = 0 by
    push_cast
    linear_combination (I * V ^ 2 / 2) * e2' + I * (d * V ^ 2 / 2 + (V ^ 3 - δ ^ 2 * V) / 6) * e3' +
      I * (d ^ 2 * V ^ 2 / 4 + d * (V ^ 3 - δ ^ 2 * V) / 6 + V ^ 4 / 24) * e4', Complex.exp_zero, one_mul]

/-- C174: with third order dispersion the spectrum is not that of the chirped pulse: away from the centre the phases differ. -/
theorem C174_third_order (hp : Holds p a) (hn : 4 ≤ p.n) (he : p.n % 2 = 0) (htw : 0 < p.tw) (hcf : p.cf = cNmps / wl) (hwl : wl ≠ 0) (hu : units ≠ "ps^n/km")
    (ho : Usable o) (hL : 0 < L) (b2 b4 : ℝ) {b3 : ℝ} (hb3 : b3 ≠ 0) {N : ℕ} (hN : 1 ≤ N) (hshort : L / N ≤ 2 * o.dz) {k : Fin p.n} (hk : (k : ℕ) ≠ p.n / 2)
    (hak : a k ≠ 0) (hsmall : |b3| * L / 6 * (2 * Real.pi / p.tw) ^ 3 * p.n ≤ 1) :
    ∃ (r : Result) (o' : Obj) (F' : FibObj) (p1 : Pulse),
      propagate polyfit spline o p (linearFibre L wl b2 b3 b4 0 units label) N false = some (.ok (r, o', F')) ∧
      chirpPulseW (b2 * L) (b3 * L) (b4 * L) none p = (.ok (), p1) ∧ r.out.AW ≠ p1.AW := by
  have hcf0 : p.cf ≠ 0 := by rw [hcf]; exact div_ne_zero (by norm_num [cNmps, cMks]) hwl
  obtain ⟨R, fR, hl⟩ := linearFibre_loads polyfit spline (L := L) (gain := 0) (label := label) hp hn he htw.ne' hwl hu ho b2 b3 b4
  obtain ⟨r, o', F', D, hr, -, h2, -, h4⟩ := linear_columns hp he hcf0 hl rfl hL ho.method ho.eta ho.eta1 ho.dz ho.dzMin ho.localError hN
  have hNr : (N : ℝ) ≠ 0 := by exact_mod_cast (by omega : N ≠ 0)
  have hD : D (N - 1) = L := by
    rw [h2 hshort (N - 1) (by omega), Nat.cast_sub hN]
    field_simp
    ring
  refine ⟨r, o', F', _, hr, hp.chirpPulseW_eq _ _ _ none, ?_⟩
  rw [h4, (outPulse_holds hp _).AW_eq, (hp.update _).AW_eq]
  intro h
  have h' := congrFun (eq_of_heq (Vec.mk.inj (Except.ok.inj h)).2) k
  have hd0 : 2 * Real.pi * p.cf - 2 * Real.pi * cNmps / wl = 0 := by rw [hcf]; ring
  have h'' := mul_right_cancel₀ hak h'
  rw [hd0, fiberPoly_three _ _ _ _ _ htw.ne', hD, chirpFactor_eq] at h''
  simp only [detuning] at h''
  have hV : |2 * Real.pi * ((k : ℕ) - (p.n : ℝ) / 2) / p.tw| ≤ 2 * Real.pi / p.tw * p.n := by
    have hkn : ((k : ℕ) : ℝ) ≤ p.n := by exact_mod_cast k.2.le
    have hk0 : (0 : ℝ) ≤ ((k : ℕ) : ℝ) := by positivity
    rw [mul_div_right_comm, abs_mul, abs_of_pos (show 0 < 2 * Real.pi / p.tw by have := Real.pi_pos; positivity)]
    gcongr
    rw [abs_le]
    constructor <;> linarith
  have hV0 : 2 * Real.pi * ((k : ℕ) - (p.n : ℝ) / 2) / p.tw ≠ 0 := by
    obtain ⟨m, hm⟩ : ∃ m, p.n = 2 * m := ⟨p.n / 2, by omega⟩
    have e0 : (p.n : ℝ) / 2 = m := by rw [hm]; push_cast; ring
    have : ((k : ℕ) : ℝ) - (p.n : ℝ) / 2 ≠ 0 := by
      rw [e0, sub_ne_zero]
      exact_mod_cast (show (k : ℕ) ≠ m by omega)
    have := Real.pi_ne_zero
    have := htw.ne'
    positivity
  have hδ : 2 * Real.pi / p.tw ≠ 0 := by
    have := Real.pi_ne_zero
    have := htw.ne'
    positivity
  have hδ0 : 0 < 2 * Real.pi / p.tw := by
    have := Real.pi_pos
    positivity
  generalize 2 * Real.pi * ((k : ℕ) - (p.n : ℝ) / 2) / p.tw = V at *
  generalize 2 * Real.pi / p.tw = δ at *
  have hθ : exp (I * ((b3 * L / 6 * δ ^ 2 * V : ℝ) : ℂ)) = 1 := by
    have e : exp (I * ((b3 * L / 6 * δ ^ 2 * V : ℝ) : ℂ)) * exp ((L : ℂ) * (I * (((b2 + b3 * 0 + b4 * 0 ^ 2 / 2) / 2 * V ^ 2 + (b3 + b4 * 0) / 6 * (V ^ 3 - δ ^ 2 * V) +
        b4 / 24 * V ^ 4 : ℝ) : ℂ) + ((0 : ℝ) : ℂ) / 2)) = exp (I * ((b2 * L / 2 * V ^ 2 + b3 * L / 6 * V ^ 3 + b4 * L / 24 * V ^ 4 : ℝ) : ℂ)) := by
      rw [← Complex.exp_add]
      congr 1
      push_cast
      ring
    rw [h''] at e
    exact mul_left_eq_self₀.1 e |>.resolve_right (Complex.exp_ne_zero _)
  obtain ⟨m, hm⟩ := Complex.exp_eq_one_iff.1 hθ
  have hm' : b3 * L / 6 * δ ^ 2 * V = m * (2 * Real.pi) := by
    have : (I : ℂ) * ((b3 * L / 6 * δ ^ 2 * V : ℝ) : ℂ) = I * ((m * (2 * Real.pi) : ℝ) : ℂ) := by
      rw [hm]
      push_cast
      ring
    exact_mod_cast mul_left_cancel₀ I_ne_zero this
  have habs : |b3 * L / 6 * δ ^ 2 * V| ≤ 1 := by
    rw [abs_mul, abs_mul, abs_div, abs_mul, abs_of_pos hL, abs_of_pos (show 0 < δ ^ 2 by positivity), abs_of_pos (show (0 : ℝ) < 6 by norm_num)]
    calc |b3| * L / 6 * δ ^ 2 * |V| ≤ |b3| * L / 6 * δ ^ 2 * (δ * p.n) := by gcongr
      _ = |b3| * L / 6 * δ ^ 3 * p.n := by ring
      _ ≤ 1 := hsmall
  have hne : b3 * L / 6 * δ ^ 2 * V ≠ 0 := by
    have := hL.ne'
    positivity
  have hm0 : m ≠ 0 := by
    rintro rfl
    exact hne (by rw [hm']; simp)
  have h1 : (1 : ℝ) ≤ |(m : ℝ)| := by exact_mod_cast Int.one_le_abs hm0
  rw [hm', abs_mul, abs_of_pos (show 0 < 2 * Real.pi by have := Real.pi_pos; positivity)] at habs
  have := Real.pi_gt_three
  nlinarith

/-- C174 is not vacuous: a pulse on four points and a metre of fibre with all three orders, passed in segments of 10 µm -/
theorem C174_nonvacuous : ∃ (p : Pulse) (r : Result) (o' : Obj) (F' : FibObj) (p1 : Pulse), p.AW = .ok ⟨4, fun _ => 1⟩ ∧
    propagate polyfit spline Obj.default p (linearFibre 1 1550 (-0.02) 0.0001 0.000001 0 "ps^n/m" "smf") 100000 false = some (.ok (r, o', F')) ∧
    chirpPulseW (-0.02 * 1) (0.0001 * 1) (0.000001 * 1) none p = (.ok (), p1) ∧ r.out.AW ≠ p1.AW := by
  set p : Pulse := { Pulse.blank with n := 4, ready := true, tw := 10, cf := cNmps / 1550, aw := some ⟨4, fun _ => 1⟩ } with hpd
  have hp : Holds p (n := p.n) (fun _ => 1) := ⟨rfl, rfl, by show 0 < 4; norm_num, rfl⟩
  obtain ⟨r, o', F', p1, h1, h2, h3⟩ := C174_third_order polyfit spline (o := Obj.default) (L := 1) (wl := 1550) (units := "ps^n/m") (label := "smf") (N := 100000) hp
    (le_refl 4) (show 4 % 2 = 0 by norm_num) (show (0 : ℝ) < 10 by norm_num) rfl (by norm_num) (by decide) usable_default one_pos (-0.02) 0.000001 (b3 := 0.0001) (by norm_num) (by norm_num)
    (by norm_num [Obj.default]) (k := ⟨0, by show 0 < 4; norm_num⟩) (by show 0 ≠ 4 / 2; norm_num) one_ne_zero (by
      have h0 := Real.pi_pos
      have h4 := Real.pi_lt_four
      have h5 : (2 * Real.pi / 10) ^ 3 ≤ 1 := pow_le_one₀ (by positivity) (by linarith)
      show |(0.0001 : ℝ)| * 1 / 6 * (2 * Real.pi / 10) ^ 3 * ((4 : ℕ) : ℝ) ≤ 1
      rw [abs_of_pos (by norm_num)]
      push_cast
      linarith)
  exact ⟨p, r, o', F', p1, hp.AW_eq, h1, h2, h3⟩

end

end PyNLO
