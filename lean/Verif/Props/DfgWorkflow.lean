import Verif.Model.DfgPpln
import Verif.Props.DfgPeriod
import Verif.Props.DfgSetup
import Verif.Props.Crystal
import Verif.Props.CrystalDisp
import Verif.Props.CrystalInvert

/-!
# C145: the poling period that the library calculates is the one that converts

`calculate_poling_period` of a PPLN crystal, `set_pp` with its result, a `dfg_problem` with that crystal, and the difference frequency that it
generates.
-/

open scoped BigOperators
open Set

namespace PyNLO.Dfg

open Beam Spec Xtal

variable {N : ℕ} {strF : ℝ → String} {p s : Pulse}

theorem wave_bin (n f : ℝ) : n * (2 * Real.pi * f * 10 ^ 12) / cMks = waveNumber n (cNmps / f) := by
  have hc : cMks ≠ 0 := by norm_num [cMks]
  unfold waveNumber
  rcases eq_or_ne f 0 with rfl | hf
  · simp
  · unfold cNmps
    field_simp
    ring

/-- Indices of a PPLN crystal in its range of transparency. -/
theorem inProblem_n (src : Source) {T wl len period : ℝ} (hT : 20 ≤ T) (hT' : T ≤ 250) (h1 : 400 ≤ wl) (h2 : wl ≤ 5000) (ax : Option String) :
    (PPLN.load T src).n wl = .val (((PPLN.load T src).inProblem len period).n ax wl) ∧ 0 < ((PPLN.load T src).inProblem len period).n ax wl := by
  obtain ⟨x, hx, h3, -⟩ := C67_physical src T wl hT hT' h1 h2
  simp only [PPLN.inProblem, hx, true_and]
  linarith

/-- C145, mismatch: in a problem with a PPLN crystal that is poled with the period calculated for a pump and a signal bin, the mismatch of these
bins and their idler bin is that of the grating and the set point. -/
theorem C145_mismatch {a : Args} {fp fs : Fin N → ℂ} (rand : ℕ → ℝ) (src : Source) {T len P dkL A : ℝ} {new : Option ℝ} (hT : 20 ≤ T) (hT' : T ≤ 250)
    (hlen : 0 < len) (h : Call strF a ((PPLN.load T src).inProblem len P) p s fp fs)
    (ho : ¬ (GridsOverlap cNmps p.cf p.tw N s.cf s.tw N ∨ GridsOverlap cNmps s.cf s.tw N (p.cf - s.cf) p.tw N))
    (he : N % 2 = 0) (htp : p.tw ≠ 0) (hts : s.tw = p.tw) (hw : a.wg = true) (hA : a.aeff = some A) (hA0 : 0 < A) (hspm : a.disableSPM = true)
    (hr : ∀ j : Fin N, (400 ≤ cNmps / binFreq p.cf p.tw N j ∧ cNmps / binFreq p.cf p.tw N j ≤ 5000) ∧
      (400 ≤ cNmps / binFreq s.cf s.tw N j ∧ cNmps / binFreq s.cf s.tw N j ≤ 5000) ∧
      (400 ≤ cNmps / binFreq (p.cf - s.cf) p.tw N j ∧ cNmps / binFreq (p.cf - s.cf) p.tw N j ≤ 5000))
    {m j l : Fin N} (hmjl : ((j : ℕ) : ℤ) + (l : ℕ) = (m : ℕ) + (N / 2 : ℕ))
    (hP : polingPeriod (PPLN.load T src).n (some len) (some (cNmps / binFreq p.cf p.tw N m)) (some (cNmps / binFreq s.cf s.tw N j)) none dkL = .ok (.val P, new)) :
    ∃ (q : Prob N) (c : Fin N) (p' s' i : Pulse) (y : Fin (3 * N) → ℂ),
      (dfgInit strF rand a ((PPLN.load T src).inProblem len P) (p, s)).1 = .ok (some ⟨N, q, p', s', i, y, c⟩) ∧
      Works q A ∧ q.mode = "PP" ∧ q.len = len ∧ q.deff = 14.9e-12 ∧ precomputePoling (fun _ => P) q.len = some q.domains ∧
      (0 < q.p.W m ∧ 0 < q.s.W j ∧ 0 < q.i.W l) ∧ new = some (cNmps / binFreq (p.cf - s.cf) p.tw N l) ∧
      q.mismatch m j l = -(2 * Real.pi / P + dkL / len) := by
  obtain ⟨q, c, p', s', i, y, hb, hm⟩ := C98_matched_iff rand h ho he htp (hts ▸ htp)
  obtain ⟨q', c', p'', s'', i', fi, hb', -, -, -, -, -, q1, q2, q3, q4, -, q5, wp, ws, wi, hwg, ⟨gp, gs, gi⟩, -⟩ := dfgInit_built rand h ho
  rw [hb] at hb'
  have := Option.some.inj (Except.ok.inj hb')
  simp only [Built.mk.injEq, heq_eq_eq, true_and] at this
  obtain ⟨rfl, -⟩ := this
  obtain ⟨b1, b2, b3, b4⟩ := hwg hw
  have hM : Matched q := hm.mpr hts.symm
  have idx : ∀ j, 0 < q.p.n j ∧ 0 < q.s.n j ∧ 0 < q.i.n j := by
    intro j
    rw [b2, b3, b4]
    obtain ⟨r1, r2, r3⟩ := hr j
    exact ⟨(inProblem_n src hT hT' r1.1 r1.2 none).2, (inProblem_n src hT hT' r2.1 r2.2 none).2, (inProblem_n src hT hT' r3.1 r3.2 none).2⟩
  have hcp : 0 < cNmps := by norm_num [cNmps, cMks]
  have fpos : ∀ f : ℝ, 400 ≤ cNmps / f → 0 < f := by
    intro f hf
    by_contra hc
    have := div_nonpos_of_nonneg_of_nonpos hcp.le (not_lt.1 hc)
    linarith
  have f1 := fpos _ (hr m).1.1
  have f2 := fpos _ (hr j).2.1.1
  have f3 := fpos _ (hr l).2.2.1
  have hpi := Real.pi_pos
  have hsum : binFreq p.cf p.tw N m = binFreq s.cf s.tw N j + binFreq (p.cf - s.cf) p.tw N l := by
    have := hM m j l hmjl
    rw [wp, ws, wi] at this
    have h2 : (2 * Real.pi * 10 ^ 12) * binFreq p.cf p.tw N m = (2 * Real.pi * 10 ^ 12) * (binFreq s.cf s.tw N j + binFreq (p.cf - s.cf) p.tw N l) := by
      linear_combination this
    exact mul_left_cancel₀ (by positivity) h2
  refine ⟨q, c, p', s', i, y, hb, ⟨he, hA0, by rw [b1, hA]; rfl, idx, by rw [q4, hspm], hM, .inl (by rw [q1]; rfl), by rw [q3]; exact hlen⟩, by rw [q1]; rfl,
    by rw [q3]; rfl, by rw [q2]; rfl, ?_, ⟨by rw [wp]; positivity, by rw [ws]; positivity, by rw [wi]; positivity⟩, ?_⟩
  · have := q5 rfl
    rw [q3]
    exact this
  obtain ⟨-, P', S', I', np, ns, ni, e1, e2, e3, hk, hc⟩ := C61_qpm _ _ _ _ _ _ _ _ hP
  simp only [Option.some.injEq, reduceCtorEq, false_and, and_false, false_or] at hc
  obtain ⟨rfl, rfl, -, hn, -, -, hI0, hE⟩ := hc
  have hI : I' = cNmps / binFreq (p.cf - s.cf) p.tw N l := by
    have : 1 / I' = binFreq (p.cf - s.cf) p.tw N l / cNmps := by
      have h3 : 1 / I' = 1 / (cNmps / binFreq p.cf p.tw N m) - 1 / (cNmps / binFreq s.cf s.tw N j) := by linarith
      rw [h3, one_div_div, one_div_div, hsum]
      ring
    rw [← one_div_one_div I', this, one_div_div]
  refine ⟨by rw [hn, hI], ?_⟩
  have n1 : np = q.p.n m := by
    have := (inProblem_n src (len := len) (period := P) hT hT' (hr m).1.1 (hr m).1.2 none).1
    rw [e1] at this
    rw [b2]
    exact NFlt.val.inj this
  have n2 : ns = q.s.n j := by
    have := (inProblem_n src (len := len) (period := P) hT hT' (hr j).2.1.1 (hr j).2.1.2 none).1
    rw [e2] at this
    rw [b3]
    exact NFlt.val.inj this
  have n3 : ni = q.i.n l := by
    have := (inProblem_n src (len := len) (period := P) hT hT' (hr l).2.2.1 (hr l).2.2.2 none).1
    rw [hI] at e3
    rw [e3] at this
    rw [b4]
    exact NFlt.val.inj this
  rw [hI, n1, n2, n3] at hk
  unfold Prob.mismatch
  rw [gp.k, gs.k, gi.k, wp, ws, wi, wave_bin, wave_bin, wave_bin]
  linarith

/-- C145, calculated period: for a pump and a longer signal within the range of the crystal the calculation returns the period that leaves the set
point, and the period is positive and short when the mismatch over the length of the crystal is large against the set point. -/
theorem C145_period (src : Source) {T P S : ℝ} (hT : 20 ≤ T) (hT' : T ≤ 250) (h1 : 400 ≤ P) (hPS : P < S) (h2 : S ≤ 5000) (h3 : idlerOf P S ≤ 5000) :
    ∃ np ns ni D, (PPLN.load T src).n P = .val np ∧ (PPLN.load T src).n S = .val ns ∧ (PPLN.load T src).n (idlerOf P S) = .val ni ∧
      D = waveNumber np P - waveNumber ns S - waveNumber ni (idlerOf P S) ∧ 0 < D ∧
      ∀ len dkL : ℝ, 0 < len → 8 * |dkL| ≤ len * D →
        polingPeriod (PPLN.load T src).n (some len) (some P) (some S) none dkL = .ok (.val (2 * Real.pi / (D - dkL / len)), some (idlerOf P S)) ∧
        0 < 2 * Real.pi / (D - dkL / len) ∧ |dkL| * (2 * Real.pi / (D - dkL / len)) ≤ 2 * len := by
  have hP0 : 0 < P := by linarith
  have hS0 : 0 < S := by linarith
  have hsub : 0 < 1 / P - 1 / S := sub_pos.2 (one_div_lt_one_div_of_lt hP0 hPS)
  have hI0 : 0 < idlerOf P S := by unfold idlerOf; positivity
  have hI : 1 / idlerOf P S = 1 / P - 1 / S := by unfold idlerOf; rw [one_div_one_div]
  have hPI : P < idlerOf P S := by
    have : 1 / idlerOf P S < 1 / P := by
      rw [hI]
      have : 0 < 1 / S := by positivity
      linarith
    exact (one_div_lt_one_div hI0 hP0).1 this
  obtain ⟨np, ns, e1, e2, l1⟩ := C91_normal_dispersion src T P S hT hT' h1 hPS h2
  obtain ⟨np', ni, e1', e3, l2⟩ := C91_normal_dispersion src T P (idlerOf P S) hT hT' h1 hPI h3
  obtain rfl : np = np' := NFlt.val.inj (e1.symm.trans e1')
  set I := idlerOf P S with hIdef
  have hD : waveNumber np P - waveNumber ns S - waveNumber ni I = 2 * Real.pi * 1e9 * ((np - ns) * (1 / S) + (np - ni) * (1 / I)) := by
    have hk : ∀ n w : ℝ, waveNumber n w = 2 * Real.pi * 1e9 * (n * (1 / w)) := by
      intro n w
      unfold waveNumber
      rcases eq_or_ne w 0 with rfl | hw
      · simp
      · field_simp
        ring
    rw [hk, hk, hk]
    have : 1 / P = 1 / S + 1 / I := by rw [hI]; ring
    rw [this]
    ring
  have hpi := Real.pi_pos
  have hDpos : 0 < waveNumber np P - waveNumber ns S - waveNumber ni I := by
    rw [hD]
    have a1 : 0 < (np - ns) * (1 / S) := mul_pos (by linarith) (by positivity)
    have a2 : 0 < (np - ni) * (1 / I) := mul_pos (by linarith) (by positivity)
    have : (0 : ℝ) < 2 * Real.pi * 1e9 := by positivity
    exact mul_pos this (by linarith)
  refine ⟨np, ns, ni, _, e1, e2, e3, rfl, hDpos, fun len dkL hlen hd => ?_⟩
  set D := waveNumber np P - waveNumber ns S - waveNumber ni I with hDdef
  have hq : |dkL| / len ≤ D / 8 := by
    rw [div_le_div_iff₀ hlen (by norm_num)]
    linarith
  have hdl : |dkL / len| ≤ D / 8 := by rwa [abs_div, abs_of_pos hlen]
  have hlow : 7 * D / 8 ≤ D - dkL / len := by
    have := (abs_le.1 hdl).2
    linarith
  have hpos : 0 < D - dkL / len := by linarith
  refine ⟨?_, by positivity, ?_⟩
  · have h := poling_eq (PPLN.load T src).n (some len) (by simp [hlen.ne']) dkL hP0.ne' hS0.ne' hPS.ne
    rw [← hIdef] at h
    simp only [kOf, e1, e2, e3, NFlt.map, NFlt.map₂, gratingDk] at h
    rw [if_neg hP0.ne', if_neg hS0.ne', if_neg hI0.ne'] at h
    simp only at h
    have hval : ∀ x : ℝ, x = (D - dkL / len) / 1e9 → x ≠ 0 ∧ Real.pi / x * 1e-9 * 2 = 2 * Real.pi / (D - dkL / len) := by
      rintro x rfl
      refine ⟨by positivity, ?_⟩
      field_simp
      norm_num
    obtain ⟨v1, v2⟩ := hval (np * 2 * Real.pi / P - ns * 2 * Real.pi / S - ni * 2 * Real.pi / I - dkL / (len * 1e9)) (by
      rw [hDdef]
      unfold waveNumber
      field_simp
      norm_num
      try ring)
    rw [if_neg v1] at h
    simp only [v2] at h
    exact h
  · have h7 : 0 < 7 * D / 8 := by linarith
    calc |dkL| * (2 * Real.pi / (D - dkL / len)) ≤ (len * D / 8) * (2 * Real.pi / (7 * D / 8)) := by
          apply mul_le_mul (by linarith) _ (by positivity) (by positivity)
          exact div_le_div_of_nonneg_left (by positivity) h7 hlow
      _ = 2 * Real.pi / 7 * len := by field_simp
      _ ≤ 2 * len := by
          have := Real.pi_lt_four
          nlinarith

/-- C145: a PPLN crystal that is poled with the period which `calculate_poling_period` returns for a pump and a signal bin generates the idler of
these bins with `2 / π` of the amplitude of a matched crystal, lowered by the set point. -/
theorem C145_converts {a : Args} {fp fs : Fin N → ℂ} (rand : ℕ → ℝ) (src : Source) {T len P dkL A : ℝ} {new : Option ℝ} (hT : 20 ≤ T) (hT' : T ≤ 250)
    (hlen : 0 < len) (h : Call strF a ((PPLN.load T src).inProblem len P) p s fp fs)
    (ho : ¬ (GridsOverlap cNmps p.cf p.tw N s.cf s.tw N ∨ GridsOverlap cNmps s.cf s.tw N (p.cf - s.cf) p.tw N))
    (he : N % 2 = 0) (htp : p.tw ≠ 0) (hts : s.tw = p.tw) (hw : a.wg = true) (hA : a.aeff = some A) (hA0 : 0 < A) (hspm : a.disableSPM = true)
    (hr : ∀ j : Fin N, (400 ≤ cNmps / binFreq p.cf p.tw N j ∧ cNmps / binFreq p.cf p.tw N j ≤ 5000) ∧
      (400 ≤ cNmps / binFreq s.cf s.tw N j ∧ cNmps / binFreq s.cf s.tw N j ≤ 5000) ∧
      (400 ≤ cNmps / binFreq (p.cf - s.cf) p.tw N j ∧ cNmps / binFreq (p.cf - s.cf) p.tw N j ≤ 5000))
    {m j l : Fin N} (hmjl : ((j : ℕ) : ℤ) + (l : ℕ) = (m : ℕ) + (N / 2 : ℕ))
    (hP : polingPeriod (PPLN.load T src).n (some len) (some (cNmps / binFreq p.cf p.tw N m)) (some (cNmps / binFreq s.cf s.tw N j)) none dkL = .ok (.val P, new))
    (hP0 : 0 < P) (hδ : |dkL| * P ≤ 2 * len) :
    ∃ (q : Prob N) (c : Fin N) (p' s' i : Pulse) (y : Fin (3 * N) → ℂ),
      (dfgInit strF rand a ((PPLN.load T src).inProblem len P) (p, s)).1 = .ok (some ⟨N, q, p', s', i, y, c⟩) ∧
      ∀ (p0 s0 : ℂ) (Y : ℝ → Fin (3 * N) → ℂ), Solves q Y 0 len → Y 0 = lines m j l p0 s0 0 →
        |‖Ai (Y len) l‖ - 14.9e-12 * |q.kappa A m j l| * q.i.W l * (‖p0‖ * ‖s0‖) * (2 / Real.pi * len * |Real.sinc (dkL / 2)|)| ≤
          14.9e-12 * |q.kappa A m j l| * q.i.W l * (‖p0‖ * ‖s0‖) * ((2 + |dkL| / 6) * P) + q.pumped A m j l p0 s0 len := by
  obtain ⟨q, c, p', s', i, y, hb, W, q1, q2, q3, q4, ⟨-, w2, w3⟩, -, hm⟩ :=
    C145_mismatch rand src hT hT' hlen h ho he htp hts hw hA hA0 hspm hr hmjl hP
  refine ⟨q, c, p', s', i, y, hb, fun p0 s0 Y hY h0 => ?_⟩
  have hpi := Real.pi_pos
  have habs : |q.mismatch m j l| = 2 * Real.pi / P + dkL / q.len := by
    rw [hm, abs_neg, q2]
    apply abs_of_nonneg
    have h1 : |dkL| / len ≤ 2 / P := by
      rw [div_le_div_iff₀ hlen hP0]
      linarith
    have h2 : 2 / P ≤ 2 * Real.pi / P := by
      apply div_le_div_of_nonneg_right _ hP0.le
      linarith [Real.pi_gt_three]
    have h3 : -(|dkL| / len) ≤ dkL / len := by
      rw [← neg_div]
      exact div_le_div_of_nonneg_right (neg_abs_le _) hlen.le
    linarith
  rw [← q2] at hY
  have key := C145_idler W q1 hmjl ⟨w2.le, w3.le⟩ hP0 q4 (by rw [q2]; exact hδ) habs hY h0
  rw [abs_mul, q3, abs_of_pos (by norm_num : (0 : ℝ) < 14.9e-12), q2] at key
  exact key

/-- C145, default: the default set point 3.2 gives between 0.6247 and 0.625 of the amplitude that a set point of 0 gives, two fifths of the power. -/
theorem C145_default : (0.6247 ≤ |Real.sinc (3.2 / 2)| ∧ |Real.sinc (3.2 / 2)| ≤ 0.625) ∧ Real.sinc (0 / 2) = 1 := by
  have e : (3.2 / 2 : ℝ) = 1.6 := by norm_num
  have hs : Real.sinc 1.6 = Real.sin 1.6 / 1.6 := Real.sinc_of_ne_zero (by norm_num)
  have h1 : Real.sin 1.6 = Real.cos (1.6 - Real.pi / 2) := by rw [← Real.cos_neg, neg_sub, Real.cos_pi_div_two_sub]
  have h2 := Real.one_sub_sq_div_two_le_cos (x := 1.6 - Real.pi / 2)
  have h3 := Real.pi_gt_d2
  have h4 := Real.pi_lt_d2
  have h5 : (1.6 - Real.pi / 2) ^ 2 ≤ 0.03 ^ 2 := by
    apply sq_le_sq'
    · linarith
    · linarith
  have h6 := Real.sin_le_one 1.6
  rw [← h1] at h2
  refine ⟨?_, by norm_num⟩
  rw [e, hs, abs_of_nonneg (by apply div_nonneg _ (by norm_num); linarith)]
  constructor
  · rw [le_div_iff₀ (by norm_num)]
    norm_num at h2 h5 ⊢
    linarith
  · rw [div_le_iff₀ (by norm_num)]
    norm_num
    linarith

/-! The hypotheses hold for pulses at 300 and 200 THz in a crystal that is long enough. -/

theorem ex_range (b : Fin 2) : (299.9 ≤ binFreq 300 10 2 b ∧ binFreq 300 10 2 b ≤ 300) ∧ (199.9 ≤ binFreq 200 10 2 b ∧ binFreq 200 10 2 b ≤ 200) ∧
    (99.9 ≤ binFreq (300 - 200) 10 2 b ∧ binFreq (300 - 200) 10 2 b ≤ 100) := by
  fin_cases b <;> simp [binFreq] <;> norm_num

theorem ex_wave {f : ℝ} (h1 : 99.9 ≤ f) (h2 : f ≤ 300) : 400 ≤ cNmps / f ∧ cNmps / f ≤ 5000 := by
  have h0 : 0 < f := by linarith
  rw [le_div_iff₀ h0, div_le_iff₀ h0]
  have hc : cNmps = 299792.458 := by norm_num [cNmps, cMks]
  rw [hc]
  constructor <;> linarith

/-- The term of the period is a hundredth of the length here, against two fifths for the converted amplitude. -/
theorem C145_nonvacuous (rand : ℕ → ℝ) (src : Source) : ∃ (len P : ℝ) (new : Option ℝ) (q : Prob 2) (c : Fin 2) (p' s' i : Pulse) (y : Fin (3 * 2) → ℂ),
    0 < len ∧ 0 < P ∧ (2 + |3.2| / 6) * P ≤ len / 100 ∧
    polingPeriod (PPLN.load 25 src).n (some len) (some (cNmps / binFreq 300 10 2 1)) (some (cNmps / binFreq 200 10 2 1)) none = .ok (.val P, new) ∧
    (dfgInit strF rand exArgs ((PPLN.load 25 src).inProblem len P) (exPulse 300 10, exPulse 200 10)).1 = .ok (some ⟨2, q, p', s', i, y, c⟩) ∧
    ∃ Y : ℝ → Fin (3 * 2) → ℂ, Solves q Y 0 len ∧ Y 0 = lines 1 1 1 1 1 0 ∧
      |‖Ai (Y len) 1‖ - 14.9e-12 * |q.kappa 10 1 1 1| * q.i.W 1 * (‖(1 : ℂ)‖ * ‖(1 : ℂ)‖) * (2 / Real.pi * len * |Real.sinc (3.2 / 2)|)| ≤
        14.9e-12 * |q.kappa 10 1 1 1| * q.i.W 1 * (‖(1 : ℂ)‖ * ‖(1 : ℂ)‖) * ((2 + |3.2| / 6) * P) + q.pumped 10 1 1 1 1 1 len := by
  have w1 := ex_wave (by linarith [(ex_range 1).1.1]) (ex_range 1).1.2
  have w2 := ex_wave (f := binFreq 200 10 2 ((1 : Fin 2) : ℕ)) (by linarith [(ex_range 1).2.1.1]) (by linarith [(ex_range 1).2.1.2])
  have hc : (0 : ℝ) < cNmps := by norm_num [cNmps, cMks]
  have f1 : binFreq 300 10 2 ((1 : Fin 2) : ℕ) = 300 := by simp [binFreq]
  have f2 : binFreq 200 10 2 ((1 : Fin 2) : ℕ) = 200 := by simp [binFreq]
  have hid : idlerOf (cNmps / 300) (cNmps / 200) = cNmps / 100 := by
    unfold idlerOf
    field_simp
    norm_num
  obtain ⟨np, ns, ni, D, -, -, -, -, hD, hall⟩ := C145_period src (T := 25) (P := cNmps / binFreq 300 10 2 ((1 : Fin 2) : ℕ))
    (S := cNmps / binFreq 200 10 2 ((1 : Fin 2) : ℕ)) (by norm_num) (by norm_num) w1.1
    (by rw [f1, f2]; exact div_lt_div_of_pos_left hc (by norm_num) (by norm_num)) w2.2
    (by rw [f1, f2, hid]; exact (ex_wave (by norm_num) (by norm_num)).2)
  have hlen : 0 < 3200 / D := by positivity
  obtain ⟨k1, k2, k3⟩ := hall (3200 / D) 3.2 hlen (by rw [div_mul_cancel₀ _ hD.ne', abs_of_pos (by norm_num)]; norm_num)
  set P := 2 * Real.pi / (D - 3.2 / (3200 / D)) with hPdef
  have hshort : (2 + |3.2| / 6) * P ≤ 3200 / D / 100 := by
    have e : P = 2 * Real.pi / 0.999 / D := by
      rw [hPdef]
      field_simp
      norm_num
    rw [e, abs_of_pos (by norm_num), ← mul_div_assoc, div_div, mul_comm D, ← div_div]
    apply div_le_div_of_nonneg_right _ hD.le
    have := Real.pi_lt_four
    norm_num
    linarith
  have hcall : Call strF exArgs ((PPLN.load 25 src).inProblem (3200 / D) P) (exPulse 300 10) (exPulse 200 10) (fun _ : Fin 2 => 1) (fun _ : Fin 2 => 1) :=
    { pump := exPulse_ready strF _ _
      sgnl := exPulse_ready strF _ _
      pos := by norm_num
      centre := by norm_num [exPulse]
      area := fun _ => by simp [exArgs]
      guided := fun _ => by simp [PPLN.inProblem]
      poled := fun _ => by
        obtain ⟨dom, hd⟩ := C68_terminates (pp := ((PPLN.load 25 src).inProblem (3200 / D) P).pp) (ε := P) k2 (fun _ => le_rfl)
          ((PPLN.load 25 src).inProblem (3200 / D) P).len
        rw [hd]
        simp }
  have hr : ∀ j : Fin 2, (400 ≤ cNmps / binFreq 300 10 2 j ∧ cNmps / binFreq 300 10 2 j ≤ 5000) ∧
      (400 ≤ cNmps / binFreq 200 10 2 j ∧ cNmps / binFreq 200 10 2 j ≤ 5000) ∧
      (400 ≤ cNmps / binFreq (300 - 200) 10 2 j ∧ cNmps / binFreq (300 - 200) 10 2 j ≤ 5000) := by
    intro j
    obtain ⟨⟨a1, a2⟩, ⟨b1, b2⟩, ⟨c1, c2⟩⟩ := ex_range j
    exact ⟨ex_wave (by linarith) a2, ex_wave (by linarith) (by linarith), ex_wave c1 (by linarith)⟩
  obtain ⟨q, c, p', s', i, y, hb, hres⟩ := C145_converts rand src (by norm_num) (by norm_num) hlen hcall (exNoOverlap (by norm_num) (by norm_num)) rfl
    (by norm_num [exPulse]) rfl rfl rfl (by norm_num) rfl hr (m := 1) (j := 1) (l := 1) (by norm_num) k1 k2 k3
  obtain ⟨q', c', p'', s'', i', y', hb', W, -, e2, -⟩ := C145_mismatch rand src (by norm_num) (by norm_num) hlen hcall
    (exNoOverlap (by norm_num) (by norm_num)) rfl
    (by norm_num [exPulse]) rfl rfl rfl (by norm_num) rfl hr (m := 1) (j := 1) (l := 1) (by norm_num) k1
  rw [hb] at hb'
  have hqq := Option.some.inj (Except.ok.inj hb')
  simp only [Built.mk.injEq, heq_eq_eq, true_and] at hqq
  obtain ⟨rfl, -⟩ := hqq
  obtain ⟨Y, hY0, hY, -⟩ := C121_solution W (lines 1 1 1 1 1 0)
  rw [e2] at hY
  exact ⟨3200 / D, P, _, q, c, p', s', i, y, hlen, k2, hshort, k1, hb, Y, hY, hY0, hres 1 1 Y hY hY0⟩

end PyNLO.Dfg
