import Verif.Lemmas.SsfmScale
import Verif.Props.Symmetry
import Verif.Props.NlseExamples

/-!
# C186: similar problems have the same solution

Only ratios of times and ratios of lengths matter for a call of `propagate`: in a window `a` times as long, at an optical frequency `a` times lower, in a fibre `l` times as
long with the coefficients in the new units, the same samples give the same columns, with self-steepening and adaptive steps, without Raman response or with the simple one,
its two time constants being scaled as well.  The default response has a third time constant, 96 fs, written into the code: it cannot be scaled.
-/

namespace PyNLO

open Complex Ssfm Pulse Nlse Polynomial

theorem taylor_scale {m : ℕ} (b : Fin m → ℝ) {a : ℝ} (ha : a ≠ 0) (l x : ℝ) :
    (taylorPoly fun i => b i * a ^ ((i : ℕ) + 2) / l).eval (x / a) = (taylorPoly b).eval x / l := by
  unfold taylorPoly
  simp only [eval_finset_sum, eval_mul, eval_C, eval_pow, eval_X]
  rw [Finset.sum_div]
  refine Finset.sum_congr rfl fun i _ => ?_
  rw [div_pow]
  have : a ^ ((i : ℕ) + 2) ≠ 0 := pow_ne_zero _ ha
  field_simp

theorem fiberPoly_scale {m : ℕ} (b : Fin m → ℝ) {a : ℝ} (ha : a ≠ 0) (l d T x : ℝ) :
    (fiberPoly (fun i => b i * a ^ ((i : ℕ) + 2) / l) (d / a) (a * T)).eval (x / a) = (fiberPoly b d T).eval x / l := by
  unfold fiberPoly Nlse.slope
  simp only [eval_sub, eval_comp, eval_add, eval_mul, eval_C, eval_X]
  rw [show x / a + d / a = (x + d) / a by ring, show 2 * Real.pi / (a * T) = 2 * Real.pi / T / a by rw [div_div, mul_comm a]]
  rw [show 2 * Real.pi / T / a + d / a = (2 * Real.pi / T + d) / a by ring, show -(2 * Real.pi / T / a) + d / a = (-(2 * Real.pi / T) + d) / a by ring]
  simp only [taylor_scale b ha]
  generalize (taylorPoly b).eval (2 * Real.pi / T + d) = u
  generalize (taylorPoly b).eval (-(2 * Real.pi / T) + d) = v
  rw [show (u / l - v / l) / (2 * (2 * Real.pi / T / a)) * (x / a) = (u - v) / (2 * (2 * Real.pi / T)) * x / l * (a / a) by
    rw [show 2 * (2 * Real.pi / T / a) = 2 * (2 * Real.pi / T) / a by ring, div_div_eq_mul_div]; ring, div_self ha]
  ring

theorem linspace_scale (l L : ℝ) (N : ℕ) : linspace0 (l * L) N = (linspace0 L N).map (l * ·) := by
  unfold linspace0
  simp only [List.map_map]
  refine List.map_congr_left fun i _ => ?_
  simp only [Function.comp]
  ring

/-- the coefficients of a fibre in units of time `a` times smaller and units of length `l` times smaller -/
noncomputable def inUnits {m : ℕ} (a l : ℝ) (b : Fin m → ℝ) : Fin m → ℝ := fun i => b i * a ^ ((i : ℕ) + 2) / l

/-- the settings in the new units -/
noncomputable def objIn (a l : ℝ) (o : Obj) : Obj := { o with dz := l * o.dz, dzMin := l * o.dzMin, tau1 := a * o.tau1, tau2 := a * o.tau2 }

theorem ramanSimple_scale {a : ℝ} (ha : a ≠ 0) (t1 t2 t : ℝ) : ramanSimple (a * t1) (a * t2) (a * t) = ramanSimple t1 t2 t / a := by
  unfold ramanSimple
  rw [show -(a * t) / (a * t2) = -t / t2 by rw [← mul_neg, mul_div_mul_left _ _ ha], mul_div_mul_left _ _ ha,
    show ((a * t1) ^ 2 + (a * t2) ^ 2) / (a * t1 * (a * t2) ^ 2) = (t1 ^ 2 + t2 ^ 2) / (t1 * t2 ^ 2) / a by
      rw [show (a * t1) ^ 2 + (a * t2) ^ 2 = a ^ 2 * (t1 ^ 2 + t2 ^ 2) by ring, show a * t1 * (a * t2) ^ 2 = a ^ 2 * (t1 * t2 ^ 2 * a) by ring,
        mul_div_mul_left _ _ (pow_ne_zero 2 ha), div_div]]
  ring

/-- the response the solver loads is the same -/
theorem raman_scale {o : Obj} (hram : o.disableRaman = true ∨ o.simpleRaman = true ∧ o.tau1 * o.tau2 ^ 2 ≠ 0) {n : ℕ} (hn : 0 < n) (A : Fin n → ℂ) (T cf : ℝ) {a : ℝ}
    (ha : a ≠ 0) (l : ℝ) : ramanR (objIn a l o) (heldPulse n (cf / a) (a * T) A) = ramanR o (heldPulse n cf T A) := by
  have hp : Holds (heldPulse n cf T A) (fftT A) := ⟨rfl, rfl, hn, rfl⟩
  have hp' : Holds (heldPulse n (cf / a) (a * T) A) (fftT A) := ⟨rfl, rfl, hn, rfl⟩
  unfold ramanR
  by_cases hd : o.disableRaman = true
  · rw [if_pos hd, if_pos (show (objIn a l o).disableRaman = true from hd)]
    rfl
  obtain ⟨hs, ht⟩ := hram.resolve_left hd
  have ht' : (objIn a l o).tau1 * (objIn a l o).tau2 ^ 2 ≠ 0 := by
    show a * o.tau1 * (a * o.tau2) ^ 2 ≠ 0
    rw [show a * o.tau1 * (a * o.tau2) ^ 2 = a ^ 3 * (o.tau1 * o.tau2 ^ 2) by ring]
    exact mul_ne_zero (pow_ne_zero 3 ha) ht
  rw [if_neg hd, if_neg (show ¬(objIn a l o).disableRaman = true from hd), if_neg ht, if_neg ht']
  have hT : (heldPulse n cf T A).T_ps = .ok ⟨n, fun i => ((i : ℕ) - (n : ℝ) / 2) * (T / n)⟩ := hp.T_eq
  have hT' : (heldPulse n (cf / a) (a * T) A).T_ps = .ok ⟨n, fun i => ((i : ℕ) - (n : ℝ) / 2) * (a * T / n)⟩ := hp'.T_eq
  have hax : (fun i : Fin n => (((i : ℕ) : ℝ) - (n : ℝ) / 2) * (a * T / n)) = fun i : Fin n => a * ((((i : ℕ) : ℝ) - (n : ℝ) / 2) * (T / n)) := by
    funext i
    ring
  rw [hT, hT', hax]
  simp only [except_bind_ok, show (objIn a l o).simpleRaman = true from hs, hs, if_true]
  set t : Fin n → ℝ := fun i => (((i : ℕ) : ℝ) - (n : ℝ) / 2) * (T / n)
  have hk : (truncate fun i => ramanSimple (a * o.tau1) (a * o.tau2) (a * t i)) = fun i => truncate (fun i => ramanSimple o.tau1 o.tau2 (t i)) i / a := by
    funext i
    have e := ramanSimple_scale ha o.tau1 o.tau2 (t i)
    unfold truncate
    split_ifs
    · exact (zero_div a).symm
    · exact e
  set x : Fin n → ℝ := truncate fun i => ramanSimple o.tau1 o.tau2 (t i)
  have htr : trapzX (fun i => x i / a) (fun i => a * t i) = trapzX x t := by
    unfold trapzX
    refine Finset.sum_congr rfl fun i _ => ?_
    field_simp
  have hnorm : normalise (fun i => x i / a) (fun i => a * t i) = fun i => normalise x t i / a := by
    funext i
    unfold normalise
    rw [htr]
    ring
  have main : responseFT o.fR (a * T) (normalise (truncate fun i => ramanSimple (a * o.tau1) (a * o.tau2) (a * t i)) fun i => a * t i) =
      responseFT o.fR T (normalise x t) := by
    rw [hk, hnorm]
    have e : (fun i => ((o.fR * (normalise x t i / a) : ℝ) : ℂ)) = fun i => ((1 / a : ℝ) : ℂ) * ((o.fR * normalise x t i : ℝ) : ℂ) := by
      funext i
      push_cast
      ring
    funext k
    unfold responseFT
    rw [e]
    have e2 : (ifftshift (ifft (fftshift fun i => ((1 / a : ℝ) : ℂ) * ((o.fR * normalise x t i : ℝ) : ℂ)))) k =
        ((1 / a : ℝ) : ℂ) * ifftshift (ifft (fftshift fun i => ((o.fR * normalise x t i : ℝ) : ℂ))) k := by
      exact congrFun (ifft_smul ((1 / a : ℝ) : ℂ) (fftshift fun i => ((o.fR * normalise x t i : ℝ) : ℂ))) _
    rw [e2, ← mul_assoc, ← Complex.ofReal_mul, show a * T * (1 / a) = T by field_simp]
  exact congrArg (fun R => (Except.ok ((⟨n, R⟩ : Vec ℂ), o.fR) : Except PyErr (Vec ℂ × ℝ))) main

/-- C186: two calls of `propagate` that differ in the units of time and length: all stored fields and spectra are equal, the positions and the stored step are scaled, the
number of steps is the same; both methods, with or without self-steepening, without Raman response or with the simple one, any dispersion, nonlinearity and gain. -/
theorem C186_similar (polyfit : Fiber.PolyFit) (spline : Fiber.Spline) {o : Obj} (hram : o.disableRaman = true ∨ o.simpleRaman = true ∧ o.tau1 * o.tau2 ^ 2 ≠ 0)
    (hdz : 0 < o.dz) (hmin : 0 < o.dzMin) (heta : 0 < o.eta) {n : ℕ} (hn : 4 ≤ n) (he : n % 2 = 0) (A : Fin n → ℂ) {T cf wl L : ℝ} (hT : T ≠ 0) (hcf : cf ≠ 0) (hwl : wl ≠ 0) (hL : 0 < L) {m : ℕ}
    (b : Fin m → ℝ) (γ gain : ℝ) (label : String) {a l : ℝ} (ha : 0 < a) (hl : 0 < l) {N : ℕ} (hN : 1 ≤ N) :
    ∃ r r' o1 o2 F1 F2,
      propagate polyfit spline o (heldPulse n cf T A)
        ⟨Fiber.genFib L wl ⟨m, b⟩ γ gain "ps^n/m" label Fiber.Fib.new, Fiber.genSpecs gain⟩ N false = some (.ok (r, o1, F1)) ∧
      propagate polyfit spline (objIn a l o) (heldPulse n (cf / a) (a * T) A)
        ⟨Fiber.genFib (l * L) (a * wl) ⟨m, inUnits a l b⟩ (γ / l) (gain / l) "ps^n/m" label Fiber.Fib.new, Fiber.genSpecs (gain / l)⟩ N false =
          some (.ok (r', o2, F2)) ∧
      r.AT.length = N ∧ r'.AT = r.AT ∧ r'.AW = r.AW ∧ r'.z = r.z.map (l * ·) ∧ o2.dz = l * o1.dz ∧ o2.iter = o1.iter := by
  have hn0 : 0 < n := by omega
  set o2 : Obj := objIn a l o with ho2
  have hp : Holds (heldPulse n cf T A) (fftT A) := ⟨rfl, rfl, hn0, rfl⟩
  have hp' : Holds (heldPulse n (cf / a) (a * T) A) (fftT A) := ⟨rfl, rfl, hn0, rfl⟩
  obtain ⟨β0, R, fR, g0⟩ := loads_generated polyfit spline o hp (show 2 ≤ n by omega) (length := L) (gamma := γ) (gain := gain) (b := ⟨m, b⟩) (units := "ps^n/m")
    (label := label) hwl (hram.imp_right And.right)
  have hR := g0.raman
  have h : Loads polyfit spline o (heldPulse n cf T A) ⟨Fiber.genFib L wl ⟨m, b⟩ γ gain "ps^n/m" label Fiber.Fib.new, Fiber.genSpecs gain⟩ _
      (fun k => (fiberPoly b (2 * Real.pi * cf - 2 * Real.pi * cNmps / wl) T).eval (2 * Real.pi * ((k : ℕ) - (n : ℝ) / 2) / T)) gain R γ fR :=
    ⟨fiberPoly_betas polyfit spline 0 hp.ready hn he hT rfl rfl rfl rfl hwl, g0.gamma, g0.gain, hR⟩
  obtain ⟨β0', R', fR', g0'⟩ := loads_generated polyfit spline o2 hp' (show 2 ≤ n by omega) (length := l * L) (gamma := γ / l) (gain := gain / l) (b := ⟨m, inUnits a l b⟩)
    (units := "ps^n/m") (label := label) (mul_ne_zero ha.ne' hwl) (hram.imp_right fun h => by
      show a * o.tau1 * (a * o.tau2) ^ 2 ≠ 0
      rw [show a * o.tau1 * (a * o.tau2) ^ 2 = a ^ 3 * (o.tau1 * o.tau2 ^ 2) by ring]
      exact mul_ne_zero (pow_ne_zero 3 ha.ne') h.2)
  have hR' : ramanR o2 (heldPulse n (cf / a) (a * T) A) = .ok (⟨n, R⟩, fR) := (raman_scale hram hn0 A T cf ha.ne' l).trans hR
  have h' : Loads polyfit spline o2 (heldPulse n (cf / a) (a * T) A)
      ⟨Fiber.genFib (l * L) (a * wl) ⟨m, inUnits a l b⟩ (γ / l) (gain / l) "ps^n/m" label Fiber.Fib.new, Fiber.genSpecs (gain / l)⟩ _
      (fun k => (fiberPoly (inUnits a l b) (2 * Real.pi * (cf / a) - 2 * Real.pi * cNmps / (a * wl)) (a * T)).eval (2 * Real.pi * ((k : ℕ) - (n : ℝ) / 2) / (a * T)))
      (gain / l) R (γ / l) fR :=
    ⟨fiberPoly_betas polyfit spline 0 hp'.ready hn he (mul_ne_zero ha.ne' hT) rfl rfl rfl rfl (mul_ne_zero ha.ne' hwl), g0'.gamma, g0'.gain, hR'⟩
  obtain ⟨P0, P, hs, hload, hc, -⟩ := setup_carries hp h
  obtain ⟨P0', P', hs', hload', hc', -⟩ := setup_carries hp' h'
  obtain ⟨r, o3, hr, -, -⟩ := C43_returns hN rfl hL hp hcf hs hload hdz hmin heta
  obtain ⟨r', o4, hr', -, -⟩ := C43_returns hN rfl (mul_pos hl hL) hp' (div_ne_zero hcf ha.ne') hs' hload' (mul_pos hl hdz) (mul_pos hl hmin) heta
  obtain ⟨S, s0, s1, s2, s3, s4, s5, s6, s7⟩ := propagate_trace_full hr hp he rfl hs hload
  obtain ⟨S', t0, t1, t2, t3, t4, t5, t6, t7⟩ := propagate_trace_full hr' hp' he rfl hs' hload'
  have hP : P.Ok := ⟨by rw [hc.dzMin]; exact hmin, by rw [hc.eta]; exact heta⟩
  have freq : ∀ k : Fin n, 2 * Real.pi * (((k : ℕ) : ℝ) - (n : ℝ) / 2) / (a * T) = 2 * Real.pi * (((k : ℕ) : ℝ) - (n : ℝ) / 2) / T / a := fun k => by
    rw [div_div, mul_comm T]
  have alike : Alike (n := n) l (1 / a) P P' := by
    refine ⟨fun k => ?_, fun k => ?_, fun k => ?_, ?_, ?_, ?_, hc'.ss.trans hc.ss.symm, hc'.method.trans hc.method.symm, hc'.eta.trans hc.eta.symm,
      hc'.localError.trans hc.localError.symm, ?_⟩
    · rw [hc.betas, hc'.betas]
      show (fiberPoly (inUnits a l b) (2 * Real.pi * (cf / a) - 2 * Real.pi * cNmps / (a * wl)) (a * T)).eval
        (2 * Real.pi * (((rollIdx _ k : Fin n) : ℕ) - (n : ℝ) / 2) / (a * T)) = (fiberPoly b (2 * Real.pi * cf - 2 * Real.pi * cNmps / wl) T).eval
        (2 * Real.pi * (((rollIdx _ k : Fin n) : ℕ) - (n : ℝ) / 2) / T) / l
      rw [freq, show 2 * Real.pi * (cf / a) - 2 * Real.pi * cNmps / (a * wl) = (2 * Real.pi * cf - 2 * Real.pi * cNmps / wl) / a by
        rw [sub_div, div_div, mul_comm a wl]; ring]
      exact fiberPoly_scale b ha.ne' l _ _ _
    · rw [hc.alpha, hc'.alpha]
      show -(gain / l) = -gain / l
      ring
    · rw [hc.omegas, hc'.omegas]
      have key : ∀ x : Fin n, 2 * Real.pi * (((x : ℕ) : ℝ) - (n : ℝ) / 2) / (a * T) = 1 / a * (2 * Real.pi * (((x : ℕ) : ℝ) - (n : ℝ) / 2) / T) := fun x => by
        rw [freq]
        ring
      exact key (rollIdx _ k)
    · rw [hc.w0, hc'.w0]
      show cf / a * 2 * Real.pi = 1 / a * (cf * 2 * Real.pi)
      ring
    · rw [hc.resp, hc'.resp]; rfl
    · rw [hc.gamma, hc'.gamma]
    · rw [hc.dzMin, hc'.dzMin]
      rfl
  have hNr : (0 : ℝ) < N := by exact_mod_cast hN
  have hrel : ∀ i ≤ N, 0 < (S i).dz ∧ (S' i).A = (S i).A ∧ (S' i).dz = l * (S i).dz ∧ (S' i).iter = (S i).iter := by
    intro i
    induction i with
    | zero => exact fun _ => ⟨by rw [s1]; exact hdz, by rw [s0, t0]; rfl, s1 ▸ t1, s2 ▸ t2⟩
    | succ i ih =>
      intro hi
      obtain ⟨q1, q2, q3, q4⟩ := ih (by omega)
      obtain ⟨f', g', e1, e2, e3, e4, e5⟩ := alike.integrate hl (by positivity) hP 1 (L / N) (f := S i) (g := S' i) q1 q2 q3 q4
      have u1 := (s3 i (by omega)).symm.trans e1
      have u2 := (t3 i (by omega)).symm.trans ((congrArg (fun x => integrate P' x 1 (S' i)) (mul_div_assoc l L (N : ℝ))).trans e2)
      obtain rfl := Option.some.inj u1
      obtain rfl := Option.some.inj u2
      refine ⟨?_, e3, e4, e5⟩
      obtain ⟨f2, e6, e7⟩ := integrate_spec hP (L / N) 1 q1
      obtain rfl := Option.some.inj (e1.symm.trans e6)
      exact spec_dz_pos hP.cfg (div_pos hL hNr) q1 e7
  refine ⟨r, r', o3, o4, _, _, hr, hr', by rw [s5]; simp, ?_, ?_, ?_, ?_, ?_⟩
  · rw [s5, t5]
    refine List.map_congr_left fun i hi => ?_
    rw [(hrel (i + 1) (by have := List.mem_range.1 hi; omega)).2.1]
    rfl
  · rw [s6, t6]
    refine List.map_congr_left fun i hi => ?_
    rw [(hrel (i + 1) (by have := List.mem_range.1 hi; omega)).2.1]
    rfl
  · rw [s4, t4]
    exact linspace_scale l L N
  · rw [s7, t7]
    exact (hrel N le_rfl).2.2.1
  · rw [s7, t7]
    exact (hrel N le_rfl).2.2.2

/-- C186: the default settings with the simple Raman response meet the assumptions, and the two problems differ: a fibre for picoseconds and kilometres, one for
femtoseconds and metres. -/
theorem C186_nonvacuous : let o : Obj := { Obj.default with simpleRaman := true }
    (o.disableRaman = true ∨ o.simpleRaman = true ∧ o.tau1 * o.tau2 ^ 2 ≠ 0) ∧ o.disableRaman = false ∧ o.disableSS = false ∧ 0 < o.dz ∧ 0 < o.dzMin ∧ 0 < o.eta ∧
    inUnits (1 / 10) (1 / 100) ![(-20 : ℝ), 3] = ![-20, 3 / 10] ∧ (2 : ℝ) / (1 / 100) = 200 := by
  refine ⟨Or.inr ⟨rfl, by norm_num [Obj.default]⟩, rfl, rfl, by norm_num [Obj.default], by norm_num [Obj.default], by norm_num [Obj.default], ?_, by norm_num⟩
  funext i
  fin_cases i <;> norm_num [inUnits]

end PyNLO
