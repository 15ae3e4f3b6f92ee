import Verif.Model.Dfg
import Verif.Props.DfgFft
import Mathlib.MeasureTheory.Integral.DivergenceTheorem
import Mathlib.Analysis.InnerProductSpace.Calculus
import Mathlib.Analysis.Calculus.Deriv.Prod
import Verif.Props.Beam

/-! # Conservation laws of three-wave mixing (C70, C74, C99) -/

namespace PyNLO.Dfg

open Finset Beam

variable {N : ℕ}

theorem norm_phasor (w : Wave N) (z t : ℝ) (j : Fin N) : ‖w.phasor z t j‖ = 1 := by
  rw [Wave.phasor, mul_comm]
  exact Complex.norm_exp_ofReal_mul_I _

theorem norm_gouyFactors (q : Prob N) (f : ℝ) (j : Fin N) :
    ‖(q.gouyFactors f).1 j‖ = 1 ∧ ‖(q.gouyFactors f).2.1 j‖ = 1 ∧ ‖(q.gouyFactors f).2.2 j‖ = 1 := by
  have h : ∀ b : OneD N, ∀ n, ‖b.gouy f n j‖ = 1 := by
    intro b n
    rw [OneD.gouy, mul_comm]
    exact Complex.norm_exp_ofReal_mul_I _
  unfold Prob.gouyFactors
  split
  · split
    · simp [WG.gouy]
    · simp [h]
  · simp

/-- Triple products over matching bins. -/
noncomputable def tri (h : ℤ) (w : Fin N → Fin N → Fin N → ℝ) (P S I : Fin N → ℂ) : ℂ :=
  ∑ m : Fin N, ∑ i : Fin N, ∑ j : Fin N,
    if ((i : ℕ) : ℤ) + (j : ℕ) = (m : ℕ) + h then (w m i j : ℂ) * ((starRingEnd ℂ) (P m) * S i * I j) else 0

theorem tri_pump (h : ℤ) (w : Fin N → ℝ) (P S I : Fin N → ℂ) :
    ∑ m, (w m : ℂ) * ((starRingEnd ℂ) (P m) * Spec.sumMix h S I m) = tri h (fun m _ _ => w m) P S I := by
  refine sum_congr rfl fun m _ => ?_
  rw [Spec.sumMix, mul_sum, mul_sum]
  refine sum_congr rfl fun i _ => ?_
  rw [mul_sum, mul_sum]
  refine sum_congr rfl fun j _ => ?_
  split_ifs <;> ring

theorem tri_sgnl (h : ℤ) (w : Fin N → ℝ) (P S I : Fin N → ℂ) :
    ∑ i, (w i : ℂ) * ((starRingEnd ℂ) (S i) * Spec.diffMix h P I i) =
      (starRingEnd ℂ) (tri h (fun _ i _ => w i) P S I) := by
  rw [tri, map_sum]
  simp only [map_sum]
  rw [sum_comm]
  refine sum_congr rfl fun i _ => ?_
  rw [Spec.diffMix, mul_sum, mul_sum]
  refine sum_congr rfl fun m _ => ?_
  rw [mul_sum, mul_sum]
  refine sum_congr rfl fun j _ => ?_
  by_cases hc : ((i : ℕ) : ℤ) + (j : ℕ) = (m : ℕ) + h
  · rw [if_pos hc, if_pos (by omega)]
    simp only [map_mul, Complex.conj_conj, Complex.conj_ofReal]
    ring
  · rw [if_neg hc, if_neg (by omega)]
    simp

theorem tri_idlr (h : ℤ) (w : Fin N → ℝ) (P S I : Fin N → ℂ) :
    ∑ j, (w j : ℂ) * ((starRingEnd ℂ) (I j) * Spec.diffMix h P S j) =
      (starRingEnd ℂ) (tri h (fun _ _ j => w j) P S I) := by
  rw [tri, map_sum]
  simp only [map_sum]
  rw [sum_congr rfl fun m _ => sum_comm, sum_comm]
  refine sum_congr rfl fun j _ => ?_
  rw [Spec.diffMix, mul_sum, mul_sum]
  refine sum_congr rfl fun m _ => ?_
  rw [mul_sum, mul_sum]
  refine sum_congr rfl fun i _ => ?_
  by_cases hc : ((i : ℕ) : ℤ) + (j : ℕ) = (m : ℕ) + h
  · rw [if_pos hc, if_pos (by omega)]
    simp only [map_mul, Complex.conj_conj, Complex.conj_ofReal]
    ring
  · rw [if_neg hc, if_neg (by omega)]
    simp

theorem tri_add {h : ℤ} {w w1 w2 : Fin N → Fin N → Fin N → ℝ} (P S I : Fin N → ℂ)
    (hw : ∀ m i j : Fin N, ((i : ℕ) : ℤ) + (j : ℕ) = (m : ℕ) + h → w m i j = w1 m i j + w2 m i j) :
    tri h w P S I = tri h w1 P S I + tri h w2 P S I := by
  simp only [tri, ← sum_add_distrib]
  refine sum_congr rfl fun m _ => sum_congr rfl fun i _ => sum_congr rfl fun j _ => ?_
  split_ifs with hc
  · rw [hw m i j hc]; push_cast; ring
  · ring

/-- One slice of the derivative seen from the field with its conversion factor and phasor. -/
theorem conj_mul_slice (w : Wave N) (deff : ℝ) {a : Fin N → ℝ} {phi A mix : Fin N → ℂ} {j : Fin N} (ha : a j ≠ 0)
    (hphi : ‖phi j‖ = 1) : (starRingEnd ℂ) (A j) * slice w deff a (fun j => (phi j)⁻¹ * mix j) j =
      Complex.I * ((2 * deff * w.W j / (cMks * w.n j * a j ^ 2) : ℝ) : ℂ) *
        ((starRingEnd ℂ) ((a j : ℂ) * A j * phi j) * mix j) := by
  have hinv : (phi j)⁻¹ = (starRingEnd ℂ) (phi j) := by
    rw [Complex.inv_def, Complex.normSq_eq_norm_sq, hphi]
    simp
  have ha' : (a j : ℂ) ≠ 0 := by exact_mod_cast ha
  simp only [slice, hinv, map_mul, Complex.conj_ofReal]
  push_cast
  field_simp

theorem Ap_join (p s i : Fin N → ℂ) : Ap (join p s i) = p := by
  funext j
  have := j.isLt
  simp [Ap, join]

theorem As_join (p s i : Fin N → ℂ) : As (join p s i) = s := by
  funext j
  have := j.isLt
  simp only [As, join]
  rw [dif_neg (by simp), dif_pos (by omega)]
  simp

theorem Ai_join (p s i : Fin N → ℂ) : Ai (join p s i) = i := by
  funext j
  have := j.isLt
  simp only [Ai, join]
  rw [dif_neg (by omega), dif_neg (by simp)]
  simp

/-- The factor by which the triple product of a bin enters the rate of its square modulus. -/
noncomputable def kap (w : Wave N) (a : Fin N → ℝ) (j : Fin N) : ℝ := w.W j / (cMks * w.n j * a j ^ 2)

/-- The fields that mix at `z`, with conversion factors and phasors. -/
noncomputable def mixP (q : Prob N) (z : ℝ) (y : Fin (3 * N) → ℂ) (j : Fin N) : ℂ :=
  ((q.scales (z - q.len / 2)).1 j : ℂ) * Ap y j * (q.p.phasor z (z / q.speed) j * (q.gouyFactors (z - q.len / 2)).1 j)
noncomputable def mixS (q : Prob N) (z : ℝ) (y : Fin (3 * N) → ℂ) (j : Fin N) : ℂ :=
  ((q.scales (z - q.len / 2)).2.1 j : ℂ) * As y j * (q.s.phasor z (z / q.speed) j * (q.gouyFactors (z - q.len / 2)).2.1 j)
noncomputable def mixI (q : Prob N) (z : ℝ) (y : Fin (3 * N) → ℂ) (j : Fin N) : ℂ :=
  ((q.scales (z - q.len / 2)).2.2 j : ℂ) * Ai y j * (q.i.phasor z (z / q.speed) j * (q.gouyFactors (z - q.len / 2)).2.2 j)

/-- The three rates of weighted square norms as triple products, whatever the beams. -/
theorem rates (he : N % 2 = 0) (q : Prob N) {fc : FftC N} {z : ℝ} {y d : Fin (3 * N) → ℂ} (hd : (q.deriv fc z y).1 = .ok d)
    (ha : ∀ j, (q.scales (z - q.len / 2)).1 j ≠ 0 ∧ (q.scales (z - q.len / 2)).2.1 j ≠ 0 ∧
      (q.scales (z - q.len / 2)).2.2 j ≠ 0) :
    ∃ deff : ℝ, q.deffAt z = .ok deff ∧ ∀ u : Fin N → ℝ,
      Spec.rate u (Ap y) (Ap d) = -(4 * deff) *
        (tri (N / 2 : ℕ) (fun m _ _ => u m * kap q.p (q.scales (z - q.len / 2)).1 m) (mixP q z y) (mixS q z y) (mixI q z y)).im ∧
      Spec.rate u (As y) (As d) = 4 * deff *
        (tri (N / 2 : ℕ) (fun _ i _ => u i * kap q.s (q.scales (z - q.len / 2)).2.1 i) (mixP q z y) (mixS q z y) (mixI q z y)).im ∧
      Spec.rate u (Ai y) (Ai d) = 4 * deff *
        (tri (N / 2 : ℕ) (fun _ _ j => u j * kap q.i (q.scales (z - q.len / 2)).2.2 j) (mixP q z y) (mixS q z y) (mixI q z y)).im := by
  unfold Prob.deriv at hd
  cases hde : q.deffAt z with
  | error e => rw [hde] at hd; simp at hd
  | ok deff =>
    rw [hde] at hd
    simp only at hd
    split_ifs at hd with hspm
    simp only [Except.ok.injEq] at hd
    subst hd
    set a := q.scales (z - q.len / 2)
    set g := q.gouyFactors (z - q.len / 2) with hg
    have hgn := norm_gouyFactors q (z - q.len / 2)
    rw [← hg] at hgn
    set phiP : Fin N → ℂ := fun j => q.p.phasor z (z / q.speed) j * g.1 j with hP
    set phiS : Fin N → ℂ := fun j => q.s.phasor z (z / q.speed) j * g.2.1 j with hS
    set phiI : Fin N → ℂ := fun j => q.i.phasor z (z / q.speed) j * g.2.2 j with hI
    have nP : ∀ j, ‖phiP j‖ = 1 := fun j => by rw [hP, norm_mul, norm_phasor, (hgn j).1, one_mul]
    have nS : ∀ j, ‖phiS j‖ = 1 := fun j => by rw [hS, norm_mul, norm_phasor, (hgn j).2.1, one_mul]
    have nI : ∀ j, ‖phiI j‖ = 1 := fun j => by rw [hI, norm_mul, norm_phasor, (hgn j).2.2, one_mul]
    refine ⟨deff, rfl, fun u => ⟨?_, ?_, ?_⟩⟩
    · rw [Ap_join, C69_conv, ← tri_pump, Spec.rate, Complex.im_sum, mul_sum]
      refine sum_congr rfl fun j _ => ?_
      show _ = -(4 * deff) * (((u j * kap q.p a.1 j : ℝ) : ℂ) * ((starRingEnd ℂ) ((a.1 j : ℂ) * Ap y j * phiP j) *
        Spec.sumMix (N / 2 : ℕ) (fun j => (a.2.1 j : ℂ) * As y j * phiS j) (fun j => (a.2.2 j : ℂ) * Ai y j * phiI j) j)).im
      rw [conj_mul_slice _ _ (ha j).1 (nP j), mul_assoc, Complex.I_mul_re, Complex.im_ofReal_mul, Complex.im_ofReal_mul, kap]
      ring
    · have e := congrArg Complex.im (tri_sgnl (N / 2 : ℕ) (fun i => u i * kap q.s a.2.1 i)
        (fun j => (a.1 j : ℂ) * Ap y j * phiP j) (fun j => (a.2.1 j : ℂ) * As y j * phiS j)
        (fun j => (a.2.2 j : ℂ) * Ai y j * phiI j))
      rw [Complex.conj_im, Complex.im_sum] at e
      change _ = -(tri _ _ (mixP q z y) (mixS q z y) (mixI q z y)).im at e
      rw [show ∀ x : ℝ, 4 * deff * x = -(4 * deff) * -x from fun x => by ring, ← e, As_join, (C69_aligned he _ _ _).2,
        Spec.rate, mul_sum]
      refine sum_congr rfl fun j _ => ?_
      rw [conj_mul_slice _ _ (ha j).2.1 (nS j), mul_assoc, Complex.I_mul_re, Complex.im_ofReal_mul, Complex.im_ofReal_mul, kap]
      ring
    · have e := congrArg Complex.im (tri_idlr (N / 2 : ℕ) (fun i => u i * kap q.i a.2.2 i)
        (fun j => (a.1 j : ℂ) * Ap y j * phiP j) (fun j => (a.2.1 j : ℂ) * As y j * phiS j)
        (fun j => (a.2.2 j : ℂ) * Ai y j * phiI j))
      rw [Complex.conj_im, Complex.im_sum] at e
      change _ = -(tri _ _ (mixP q z y) (mixS q z y) (mixI q z y)).im at e
      rw [show ∀ x : ℝ, 4 * deff * x = -(4 * deff) * -x from fun x => by ring, ← e, Ai_join, (C69_aligned he _ _ _).2,
        Spec.rate, mul_sum]
      refine sum_congr rfl fun j _ => ?_
      rw [conj_mul_slice _ _ (ha j).2.2 (nI j), mul_assoc, Complex.I_mul_re, Complex.im_ofReal_mul, Complex.im_ofReal_mul, kap]
      ring

/-- Energy matching of the three grids: the frequencies of bins that mix add up. -/
def Matched (q : Prob N) : Prop :=
  ∀ m i j : Fin N, ((i : ℕ) : ℤ) + (j : ℕ) = (m : ℕ) + (N / 2 : ℕ) → q.p.W m = q.s.W i + q.i.W j

/-- A waveguide problem with positive area and indices. -/
structure Guided (q : Prob N) : Prop where
  beams : ∃ squm : ℝ, 0 < squm ∧ q.beams = .waveguide squm
  index : ∀ j, 0 < q.p.n j ∧ 0 < q.s.n j ∧ 0 < q.i.n j

theorem eps0_pos : 0 < eps0 := by norm_num [eps0]
theorem cMks_pos : (0 : ℝ) < cMks := by norm_num [cMks]

theorem wg_scale {g : WG} (hg : 0 < g.aeff) {n : Fin N → ℝ} {j : Fin N} (hn : 0 < n j) :
    g.rtPToA n j ≠ 0 ∧ cMks * n j * g.rtPToA n j ^ 2 = 1 / (g.aeff * eps0) := by
  have h1 := eps0_pos
  have h2 := cMks_pos
  have h : 0 < g.aeff * n j * eps0 * cMks := by positivity
  constructor
  · exact (one_div_pos.mpr (Real.sqrt_pos.mpr h)).ne'
  · rw [WG.rtPToA, div_pow, Real.sq_sqrt h.le]
    field_simp

theorem Guided.scales {q : Prob N} (h : Guided q) : ∃ κ : ℝ, 0 < κ ∧ ∀ f j,
    (q.scales f).1 j ≠ 0 ∧ (q.scales f).2.1 j ≠ 0 ∧ (q.scales f).2.2 j ≠ 0 ∧
    kap q.p (q.scales f).1 j = κ * q.p.W j ∧ kap q.s (q.scales f).2.1 j = κ * q.s.W j ∧
    kap q.i (q.scales f).2.2 j = κ * q.i.W j := by
  obtain ⟨squm, hs, hb⟩ := h.beams
  have hg : 0 < (WG.init squm).aeff := by simp only [WG.init]; positivity
  have h1 := eps0_pos
  refine ⟨(WG.init squm).aeff * eps0, by positivity, fun f j => ?_⟩
  obtain ⟨n1, n2, n3⟩ := h.index j
  have e : q.scales f = ((WG.init squm).rtPToA q.p.n, (WG.init squm).rtPToA q.s.n, (WG.init squm).rtPToA q.i.n) := by
    simp only [Prob.scales, hb, Beams.waveguide]
  rw [e]
  refine ⟨(wg_scale hg n1).1, (wg_scale hg n2).1, (wg_scale hg n3).1, ?_, ?_, ?_⟩
  · rw [kap, (wg_scale hg n1).2]; field_simp
  · rw [kap, (wg_scale hg n2).2]; field_simp
  · rw [kap, (wg_scale hg n3).2]; field_simp

/-- C70: in waveguide mode, on an even grid and with matched frequency grids, the derivative keeps the total power, at
every position and poling sign, whatever the fields, indices and wavenumbers. -/
theorem C70_power (he : N % 2 = 0) {q : Prob N} (hg : Guided q) (hm : Matched q) {fc : FftC N} {z : ℝ}
    {y d : Fin (3 * N) → ℂ} (hd : (q.deriv fc z y).1 = .ok d) :
    Spec.rate (fun _ => 1) (Ap y) (Ap d) + Spec.rate (fun _ => 1) (As y) (As d) +
      Spec.rate (fun _ => 1) (Ai y) (Ai d) = 0 := by
  obtain ⟨κ, -, hk⟩ := hg.scales
  obtain ⟨deff, -, hr⟩ := rates he q hd fun j =>
    ⟨(hk _ j).1, (hk _ j).2.1, (hk _ j).2.2.1⟩
  obtain ⟨r1, r2, r3⟩ := hr fun _ => 1
  rw [r1, r2, r3, tri_add (w1 := fun _ i _ => 1 * kap q.s (q.scales (z - q.len / 2)).2.1 i)
    (w2 := fun _ _ j => 1 * kap q.i (q.scales (z - q.len / 2)).2.2 j) _ _ _, Complex.add_im]
  · ring
  · intro m i j hc
    rw [(hk _ m).2.2.2.1, (hk _ i).2.2.2.2.1, (hk _ j).2.2.2.2.2, hm m i j hc]
    ring

/-- C70: Manley-Rowe.  In waveguide mode the photon fluxes of signal and idler grow at the rate at which that of the pump
falls; the frequency grids need not be matched. -/
theorem C70_manley_rowe (he : N % 2 = 0) {q : Prob N} (hg : Guided q)
    (hW : ∀ j, q.p.W j ≠ 0 ∧ q.s.W j ≠ 0 ∧ q.i.W j ≠ 0) {fc : FftC N} {z : ℝ}
    {y d : Fin (3 * N) → ℂ} (hd : (q.deriv fc z y).1 = .ok d) :
    Spec.rate (fun j => 1 / q.s.W j) (As y) (As d) = -Spec.rate (fun j => 1 / q.p.W j) (Ap y) (Ap d) ∧
    Spec.rate (fun j => 1 / q.i.W j) (Ai y) (Ai d) = -Spec.rate (fun j => 1 / q.p.W j) (Ap y) (Ap d) := by
  obtain ⟨κ, -, hk⟩ := hg.scales
  obtain ⟨deff, -, hr⟩ := rates he q hd fun j =>
    ⟨(hk _ j).1, (hk _ j).2.1, (hk _ j).2.2.1⟩
  rw [(hr _).1, (hr _).2.1, (hr _).2.2]
  have e1 : ∀ j, 1 / q.p.W j * kap q.p (q.scales (z - q.len / 2)).1 j = κ := fun j => by
    have := (hW j).1
    rw [(hk _ j).2.2.2.1]; field_simp
  have e2 : ∀ j, 1 / q.s.W j * kap q.s (q.scales (z - q.len / 2)).2.1 j = κ := fun j => by
    have := (hW j).2.1
    rw [(hk _ j).2.2.2.2.1]; field_simp
  have e3 : ∀ j, 1 / q.i.W j * kap q.i (q.scales (z - q.len / 2)).2.2 j = κ := fun j => by
    have := (hW j).2.2
    rw [(hk _ j).2.2.2.2.2]; field_simp
  simp only [e1, e2, e3]
  constructor <;> ring

/-! ## Along a trajectory -/

theorem hasDerivAt_weighted {y : ℝ → Fin N → ℂ} {d : Fin N → ℂ} {z : ℝ} (u : Fin N → ℝ)
    (h : ∀ j, HasDerivAt (fun z => y z j) (d j) z) :
    HasDerivAt (fun z => Spec.weighted u (y z)) (Spec.rate u (y z) d) z := by
  have : ∀ j ∈ univ, HasDerivAt (fun z => u j * ‖y z j‖ ^ 2) (u j * (2 * ((starRingEnd ℂ) (y z j) * d j).re)) z := by
    intro j _
    have := ((h j).norm_sq).const_mul (u j)
    rw [Complex.inner, mul_comm (d j)] at this
    exact this
  exact HasDerivAt.fun_sum this

/-- A curve that is an exact solution of the problem between `a` and `b`, except at countably many positions (the domain
walls of a poled crystal), where it is only continuous. -/
structure Solves (q : Prob N) (y : ℝ → Fin (3 * N) → ℂ) (a b : ℝ) : Prop where
  cont : ContinuousOn y (Set.Icc a b)
  eqn : ∃ E : Set ℝ, E.Countable ∧ ∀ z ∈ Set.Ioo a b \ E, ∃ fc d, (q.deriv fc z (y z)).1 = .ok d ∧ HasDerivAt y d z

theorem conserved {q : Prob N} {y : ℝ → Fin (3 * N) → ℂ} {a b : ℝ} (hab : a ≤ b) (h : Solves q y a b) (u v w : Fin N → ℝ)
    (hz : ∀ fc z d, (q.deriv fc z (y z)).1 = .ok d → Spec.rate u (Ap (y z)) (Ap d) + Spec.rate v (As (y z)) (As d) +
      Spec.rate w (Ai (y z)) (Ai d) = 0) :
    Spec.weighted u (Ap (y b)) + Spec.weighted v (As (y b)) + Spec.weighted w (Ai (y b)) =
      Spec.weighted u (Ap (y a)) + Spec.weighted v (As (y a)) + Spec.weighted w (Ai (y a)) := by
  obtain ⟨E, hE, he⟩ := h.eqn
  have hc : ∀ k, ContinuousOn (fun z => y z k) (Set.Icc a b) := fun k => (continuousOn_pi.mp h.cont) k
  have key := MeasureTheory.integral_eq_of_hasDerivAt_off_countable_of_le
    (fun z => Spec.weighted u (Ap (y z)) + Spec.weighted v (As (y z)) + Spec.weighted w (Ai (y z))) (fun _ => 0) hab hE
    ?_ ?_ ?_
  · simp only [intervalIntegral.integral_zero] at key
    linarith
  · have hw : ∀ (u : Fin N → ℝ) (x : ℝ → Fin N → ℂ), (∀ k, ContinuousOn (fun z => x z k) (Set.Icc a b)) →
        ContinuousOn (fun z => Spec.weighted u (x z)) (Set.Icc a b) := by
      intro u x hx
      exact continuousOn_finsetSum _ fun j _ => continuousOn_const.mul ((hx j).norm.pow 2)
    exact ((hw u _ fun k => hc _).add (hw v _ fun k => hc _)).add (hw w _ fun k => hc _)
  · intro z hzE
    obtain ⟨fc, d, hd, hy⟩ := he z hzE
    have hk : ∀ k, HasDerivAt (fun z => y z k) (d k) z := fun k => (hasDerivAt_pi.mp hy) k
    exact (((hasDerivAt_weighted u (y := fun z => Ap (y z)) (d := Ap d) fun j => hk _).add
      (hasDerivAt_weighted v (y := fun z => As (y z)) (d := As d) fun j => hk _)).add
      (hasDerivAt_weighted w (y := fun z => Ai (y z)) (d := Ai d) fun j => hk _)).congr_deriv (hz fc z d hd)
  · exact intervalIntegrable_const

/-- C70 along a solution: the total power and the two photon sums are the same at both ends. -/
theorem C70_trajectory (he : N % 2 = 0) {q : Prob N} (hg : Guided q) (hm : Matched q)
    (hW : ∀ j, q.p.W j ≠ 0 ∧ q.s.W j ≠ 0 ∧ q.i.W j ≠ 0) {y : ℝ → Fin (3 * N) → ℂ} {a b : ℝ} (hab : a ≤ b)
    (h : Solves q y a b) :
    ∑ k, ‖y b k‖ ^ 2 = ∑ k, ‖y a k‖ ^ 2 ∧
    Spec.weighted (fun j => 1 / q.p.W j) (Ap (y b)) + Spec.weighted (fun j => 1 / q.s.W j) (As (y b)) =
      Spec.weighted (fun j => 1 / q.p.W j) (Ap (y a)) + Spec.weighted (fun j => 1 / q.s.W j) (As (y a)) ∧
    Spec.weighted (fun j => 1 / q.p.W j) (Ap (y b)) + Spec.weighted (fun j => 1 / q.i.W j) (Ai (y b)) =
      Spec.weighted (fun j => 1 / q.p.W j) (Ap (y a)) + Spec.weighted (fun j => 1 / q.i.W j) (Ai (y a)) := by
  have hsplit : ∀ x : Fin (3 * N) → ℂ, ∑ k, ‖x k‖ ^ 2 = Spec.weighted (fun _ => 1) (Ap x) + Spec.weighted (fun _ => 1) (As x) +
      Spec.weighted (fun _ => 1) (Ai x) := by
    intro x
    have e : 3 * N = N + N + N := by ring
    simp only [Spec.weighted, one_mul]
    rw [← (finCongr e.symm).sum_comp, Fin.sum_univ_add, Fin.sum_univ_add]
    congr 1
    refine sum_congr rfl fun j _ => ?_
    simp only [Ai]
    congr 3
    apply Fin.ext
    simp
    omega
  have hzero : ∀ x : Fin N → ℂ, Spec.weighted (fun _ => 0) x = 0 := fun x => by simp [Spec.weighted]
  have hrz : ∀ x d : Fin N → ℂ, Spec.rate (fun _ => 0) x d = 0 := fun x d => by simp [Spec.rate]
  refine ⟨?_, ?_, ?_⟩
  · rw [hsplit, hsplit]
    exact conserved hab h _ _ _ fun fc z d hd => C70_power he hg hm hd
  · have := conserved hab h (fun j => 1 / q.p.W j) (fun j => 1 / q.s.W j) (fun _ => 0) fun fc z d hd => by
      rw [(C70_manley_rowe he hg hW hd).1, hrz]; ring
    simpa only [hzero, add_zero] using this
  · have := conserved hab h (fun j => 1 / q.p.W j) (fun _ => 0) (fun j => 1 / q.i.W j) fun fc z d hd => by
      rw [(C70_manley_rowe he hg hW hd).2, hrz]; ring
    simpa only [hzero, add_zero] using this

/-- The hypotheses of C70 can be met: two bins, and the derivative is not zero. -/
noncomputable def exGuided : Prob 2 where
  mode := "PP"
  deff := 1
  len := 1
  domains := ([1 / 2], [1])
  p := ⟨![5, 6], ![0, 0], 0, fun _ => 2⟩
  s := ⟨![3, 4], ![0, 0], 0, fun _ => 2⟩
  i := ⟨![1, 2], ![0, 0], 0, fun _ => 2⟩
  speed := 1
  gouy := false
  disableSPM := true
  beams := .waveguide 10

theorem exGuided_matched : Matched exGuided := by
  intro m i j h
  fin_cases m <;> fin_cases i <;> fin_cases j <;> simp [exGuided] at h ⊢ <;> norm_num

theorem deriv_ok {q : Prob N} (hs : q.disableSPM = true) {z deff : ℝ} (hd : q.deffAt z = .ok deff) (fc : FftC N)
    (y : Fin (3 * N) → ℂ) : ∃ d, (q.deriv fc z y).1 = .ok d := by
  simp [Prob.deriv, hd, hs]

theorem poling_eq_one {dom : List ℝ × List ℝ} {x : ℝ} (h : ∀ d ∈ dom.1.zip dom.2, ¬ (d.1 < x ∧ x < d.2)) :
    poling dom x = 1 := by
  rw [poling, if_neg]
  rintro ⟨d, hd, h'⟩
  exact h d hd h'

/-- Two bins, the pump in bin 0, the signal in bin 0, the idler in bin 1, at the entrance of the crystal. -/
theorem tri_single (q : Prob 2) (hg : q.gouy = false) (w : Fin 2 → Fin 2 → Fin 2 → ℝ) :
    (tri (2 / 2 : ℕ) w (mixP q 0 (join ![1, 0] ![1, 0] ![0, Complex.I])) (mixS q 0 (join ![1, 0] ![1, 0] ![0, Complex.I]))
      (mixI q 0 (join ![1, 0] ![1, 0] ![0, Complex.I]))).im =
    w 0 0 1 * ((q.scales (0 - q.len / 2)).1 0 * (q.scales (0 - q.len / 2)).2.1 0 * (q.scales (0 - q.len / 2)).2.2 1) := by
  have hgg : q.gouyFactors (0 - q.len / 2) = (fun _ => 1, fun _ => 1, fun _ => 1) := by simp [Prob.gouyFactors, hg]
  have h1 : ∀ w : Wave 2, ∀ j, w.phasor 0 (0 / q.speed) j = 1 := by intro w j; simp [Wave.phasor]
  simp only [tri, Fin.sum_univ_two, mixP, mixS, mixI, h1, hgg, Ap_join, As_join, Ai_join]
  simp

theorem C70_nonvacuous : Guided exGuided ∧ Matched exGuided ∧
    (∀ j, exGuided.p.W j ≠ 0 ∧ exGuided.s.W j ≠ 0 ∧ exGuided.i.W j ≠ 0) ∧
    ∀ fc z, ∃ d, (exGuided.deriv fc z (join ![1, 0] ![1, 0] ![0, Complex.I])).1 = .ok d ∧
      (z = 0 → Spec.rate (fun _ => 1) (Ap (join ![1, 0] ![1, 0] ![0, Complex.I])) (Ap d) ≠ 0) := by
  have hG : Guided exGuided := ⟨⟨10, by norm_num, rfl⟩, fun j => by norm_num [exGuided]⟩
  refine ⟨hG, exGuided_matched, ?_, fun fc z => ?_⟩
  · intro j
    fin_cases j <;> simp [exGuided]
  · obtain ⟨d, hd⟩ := deriv_ok (q := exGuided) rfl (z := z) (deff := poling ([1 / 2], [1]) z * 1) (by simp [Prob.deffAt, exGuided])
      fc (join ![1, 0] ![1, 0] ![0, Complex.I])
    refine ⟨d, hd, fun hz => ?_⟩
    subst hz
    obtain ⟨κ, hκ, hk⟩ := hG.scales
    obtain ⟨deff, hde, hr⟩ := rates (by norm_num) exGuided hd fun j => ⟨(hk _ j).1, (hk _ j).2.1, (hk _ j).2.2.1⟩
    have hdeff : deff = 1 := by
      have : exGuided.deffAt 0 = .ok 1 := by
        rw [Prob.deffAt, if_pos (by rfl), poling_eq_one]
        · norm_num [exGuided]
        · intro d hd
          have : d = (1 / 2, 1) := by simpa [exGuided] using hd
          rw [this]
          norm_num
      rw [this] at hde
      exact (Except.ok.inj hde).symm
    rw [(hr _).1, hdeff, tri_single exGuided (by rfl), (hk _ _).2.2.2.1]
    have h1 := (hk (0 - exGuided.len / 2) 0).1
    have h2 := (hk (0 - exGuided.len / 2) 0).2.1
    have h3 := (hk (0 - exGuided.len / 2) 1).2.2.1
    have h4 : exGuided.p.W 0 ≠ 0 := by simp [exGuided]
    have := hκ.ne'
    norm_num
    tauto

/-! ## Free space -/

theorem free_scale {n w : Fin N → ℝ} {j : Fin N} {b : OneD N} {f : ℝ} (hn : 0 < n j) (hw : 0 < w j) :
    b.rtPToA2 n f (some w) j ≠ 0 ∧ cMks * n j * b.rtPToA2 n f (some w) j ^ 2 = 1 / (Real.pi * w j ^ 2 * eps0) := by
  have h1 := eps0_pos
  have h2 := cMks_pos
  have h3 := Real.pi_pos
  have h : 0 < Real.pi * w j ^ 2 * n j * eps0 * cMks := by positivity
  simp only [OneD.rtPToA2, OneD.rtPToA']
  constructor
  · exact (one_div_pos.mpr (Real.sqrt_pos.mpr h)).ne'
  · rw [div_pow, Real.sq_sqrt h.le]
    field_simp

/-- The three beams of a free-space problem share one Rayleigh range. -/
theorem freeSpace_waists {waist : ℝ} (hN : 0 < N) (hw : 0 < waist) {lamP lamS lamI nP nS nI : Fin N → ℝ}
    (hl : ∀ j, 0 < lamP j ∧ 0 < lamS j ∧ 0 < lamI j) (hn : ∀ j, 0 < nP j ∧ 0 < nS j ∧ 0 < nI j) :
    ∃ p s i, Beams.freeSpace waist lamP lamS lamI nP nS nI = .ok (.free p s i) ∧ ∃ zr, 0 < zr ∧ ∀ f j,
      p.waistAt f nP j = √(zr * lamP j / (Real.pi * nP j) * (1 + (f / zr) ^ 2)) ∧
      s.waistAt f nS j = √(zr * lamS j / (Real.pi * nS j) * (1 + (f / zr) ^ 2)) ∧
      i.waistAt f nI j = √(zr * lamI j / (Real.pi * nI j) * (1 + (f / zr) ^ 2)) := by
  have hlt : N / 2 < N := Nat.div_lt_self hN one_lt_two
  have hpi := Real.pi_pos
  have hl0 := (hl ⟨N / 2, hlt⟩).1
  have hn0 := (hn ⟨N / 2, hlt⟩).1
  set zr := Real.pi * waist ^ 2 * (nP ⟨N / 2, hlt⟩ / lamP ⟨N / 2, hlt⟩) with hzr
  have hz : 0 < zr := by positivity
  let p : OneD N := ⟨fun j => √(2 * zr * lamP j / (2 * Real.pi * nP j)), lamP⟩
  have key : ∀ (lam n : Fin N → ℝ) (j : Fin N), 0 < lam j → 0 < n j → ∀ (b : OneD N),
      b.w0 j = √(2 * zr * lam j / (2 * Real.pi * n j)) → b.lam j = lam j →
      b.confocal n j = 2 * zr ∧ ∀ f, b.waistAt f n j = √(zr * lam j / (Real.pi * n j) * (1 + (f / zr) ^ 2)) := by
    intro lam n j h1 h2 b hb hbl
    have hc : b.confocal n j = 2 * zr := by
      rw [OneD.confocal, hb, hbl, Real.sq_sqrt (by positivity)]
      field_simp
    refine ⟨hc, fun f => ?_⟩
    rw [OneD.waistAt, hc, hb, ← Real.sqrt_mul (by positivity)]
    congr 1
    field_simp
  have hp : ∀ j, p.confocal nP j = 2 * zr := fun j => (key lamP nP j (hl j).1 (hn j).1 p rfl rfl).1
  have hpz : ∀ j, p.zR nP j = zr := fun j => by rw [OneD.zR, hp]; ring
  refine ⟨p, (OneD.init waist lamS).matchConfocal p nS nP, (OneD.init waist lamI).matchConfocal p nI nP, ?_, zr, hz,
    fun f j => ⟨?_, ?_, ?_⟩⟩
  · simp only [Beams.freeSpace, OneD.matchCentral, dif_pos hlt, OneD.init, OneD.setW0]
    rfl
  · exact (key lamP nP j (hl j).1 (hn j).1 p rfl rfl).2 f
  · refine (key lamS nS j (hl j).2.1 (hn j).2.1 _ ?_ rfl).2 f
    simp only [OneD.matchConfocal, OneD.setW0, OneD.init, hpz]
  · refine (key lamI nI j (hl j).2.2 (hn j).2.2 _ ?_ rfl).2 f
    simp only [OneD.matchConfocal, OneD.setW0, OneD.init, hpz]

/-- Three grids of two bins with matched frequencies; index 1 everywhere. -/
noncomputable def exW (k : Fin 3) (j : Fin 2) : ℝ := (5 - 2 * (k : ℕ) + (j : ℕ)) * 10 ^ 15

noncomputable def exLam (k : Fin 3) (j : Fin 2) : ℝ := 2 * Real.pi * cMks / exW k j

noncomputable def exFree (B : Beams 2) : Prob 2 where
  mode := "simple"
  deff := 1
  len := 1
  domains := ([], [])
  p := Wave.make (exW 0) (exLam 0) (fun _ => 1) 1
  s := Wave.make (exW 1) (exLam 1) (fun _ => 1) 1
  i := Wave.make (exW 2) (exLam 2) (fun _ => 1) 1
  speed := cMks
  gouy := false
  disableSPM := true
  beams := B

theorem exW_pos (k : Fin 3) (j : Fin 2) : 0 < exW k j := by
  fin_cases k <;> fin_cases j <;> norm_num [exW]

theorem exLam_pos (k : Fin 3) (j : Fin 2) : 0 < exLam k j := by
  have := exW_pos k j
  have := cMks_pos
  have := Real.pi_pos
  unfold exLam
  positivity

theorem exLam_le {k l : Fin 3} {i j : Fin 2} (h : exW l j ≤ exW k i) : exLam k i ≤ exLam l j := by
  have := exW_pos l j
  have := cMks_pos
  have := Real.pi_pos
  unfold exLam
  gcongr

/-- C99 is refuted: in free space the derivative does not keep the total power, although the three frequency grids are
matched, the beams are those that the constructor makes, and the confocal parameters agree. -/
theorem C99_free_refuted : ∃ B, Beams.freeSpace (1 / 10 ^ 5) (exLam 0) (exLam 1) (exLam 2) (fun _ => 1) (fun _ => 1) (fun _ => 1) = .ok B ∧
    Matched (exFree B) ∧ ∀ fc, ∃ y d, ((exFree B).deriv fc 0 y).1 = .ok d ∧
      Spec.rate (fun _ => 1) (Ap y) (Ap d) + Spec.rate (fun _ => 1) (As y) (As d) + Spec.rate (fun _ => 1) (Ai y) (Ai d) ≠ 0 := by
  obtain ⟨p, s, i, hB, zr, hzr, hw⟩ := freeSpace_waists (N := 2) (waist := 1 / 10 ^ 5) (by norm_num) (by norm_num)
    (lamP := exLam 0) (lamS := exLam 1) (lamI := exLam 2) (nP := fun _ => 1) (nS := fun _ => 1) (nI := fun _ => 1)
    (fun j => ⟨exLam_pos 0 j, exLam_pos 1 j, exLam_pos 2 j⟩) (fun j => ⟨one_pos, one_pos, one_pos⟩)
  refine ⟨_, hB, ?_, fun fc => ?_⟩
  · intro m i j h
    fin_cases m <;> fin_cases i <;> fin_cases j <;> simp at h <;> norm_num [exFree, Wave.make, exW]
  · set q := exFree (.free p s i) with hq
    set y : Fin (3 * 2) → ℂ := join ![1, 0] ![1, 0] ![0, Complex.I]
    obtain ⟨d, hd⟩ := deriv_ok (q := q) rfl (z := 0) (deff := 1) (by simp [hq, Prob.deffAt, exFree]) fc y
    refine ⟨y, d, hd, ?_⟩
    have hpi := Real.pi_pos
    set f : ℝ := 0 - q.len / 2 with hf
    have hpos : ∀ j, 0 < p.waistAt f (fun _ => 1) j := by
      intro j
      have := exLam_pos 0 j
      rw [(hw f j).1]
      apply Real.sqrt_pos.mpr
      positivity
    have hle1 : mean (p.waistAt f fun _ => 1) ≤ mean (s.waistAt f fun _ => 1) := by
      unfold mean
      gcongr with j
      rw [(hw f j).1, (hw f j).2.1]
      have : exLam 0 j ≤ exLam 1 j := exLam_le (by fin_cases j <;> norm_num [exW])
      apply Real.sqrt_le_sqrt
      gcongr
    have hle2 : mean (p.waistAt f fun _ => 1) ≤ mean (i.waistAt f fun _ => 1) := by
      unfold mean
      gcongr with j
      rw [(hw f j).1, (hw f j).2.2]
      have : exLam 0 j ≤ exLam 2 j := exLam_le (by fin_cases j <;> norm_num [exW])
      apply Real.sqrt_le_sqrt
      gcongr
    have hsc : q.scales f = (p.rtPToA2 (fun _ => 1) f (some (p.waistAt f fun _ => 1)),
        s.rtPToA2 (fun _ => 1) 0 (some (p.waistAt f fun _ => 1)), i.rtPToA2 (fun _ => 1) 0 (some (p.waistAt f fun _ => 1))) := by
      simp only [Prob.scales, hq, exFree, Wave.make]
      rw [if_pos ⟨hle1, hle2⟩]
      rfl
    have hne : ∀ (b : OneD 2) g j, b.rtPToA2 (fun _ => 1) g (some (p.waistAt f fun _ => 1)) j ≠ 0 :=
      fun b g j => (free_scale one_pos (hpos j)).1
    have hk : ∀ (W lam : Fin 2 → ℝ) (b : OneD 2) g j,
        kap (Wave.make W lam (fun _ => 1) 1) (b.rtPToA2 (fun _ => 1) g (some (p.waistAt f fun _ => 1))) j =
          W j * (Real.pi * p.waistAt f (fun _ => 1) j ^ 2 * eps0) := by
      intro W lam b g j
      have := (free_scale (b := b) (f := g) (n := fun _ => 1) one_pos (hpos j)).2
      simp only [kap, Wave.make]
      rw [this]
      have := hpos j
      have := eps0_pos
      field_simp
    obtain ⟨deff, hde, hr⟩ := rates (by norm_num) q hd fun j => by
      rw [hsc]
      exact ⟨hne p f j, hne s 0 j, hne i 0 j⟩
    have hdeff : deff = 1 := by
      have : q.deffAt 0 = .ok 1 := by simp [hq, Prob.deffAt, exFree]
      rw [this] at hde
      exact (Except.ok.inj hde).symm
    rw [(hr _).1, (hr _).2.1, (hr _).2.2, hdeff, tri_single q rfl, tri_single q rfl, tri_single q rfl, hsc]
    have e1 : kap q.p (p.rtPToA2 (fun _ => 1) f (some (p.waistAt f fun _ => 1))) 0 = _ := hk _ _ _ _ _
    have e2 : kap q.s (s.rtPToA2 (fun _ => 1) 0 (some (p.waistAt f fun _ => 1))) 0 = _ := hk _ _ _ _ _
    have e3 : kap q.i (i.rtPToA2 (fun _ => 1) 0 (some (p.waistAt f fun _ => 1))) 1 = _ := hk _ _ _ _ _
    simp only [e1, e2, e3]
    set A := p.rtPToA2 (fun _ => 1) f (some (p.waistAt f fun _ => 1)) 0
    set B := s.rtPToA2 (fun _ => 1) 0 (some (p.waistAt f fun _ => 1)) 0
    set C := i.rtPToA2 (fun _ => 1) 0 (some (p.waistAt f fun _ => 1)) 1
    have hA : A ≠ 0 := hne _ _ _
    have hBB : B ≠ 0 := hne _ _ _
    have hC : C ≠ 0 := hne _ _ _
    have hlt : p.waistAt f (fun _ => 1) 1 < p.waistAt f (fun _ => 1) 0 := by
      rw [(hw f 0).1, (hw f 1).1]
      have h0 := exLam_pos 0 1
      have : exLam 0 1 < exLam 0 0 := by
        have := cMks_pos
        unfold exLam
        have : exW 0 0 < exW 0 1 := by norm_num [exW]
        have := exW_pos 0 0
        gcongr
      apply Real.sqrt_lt_sqrt (by positivity)
      gcongr
    have hsq : p.waistAt f (fun _ => 1) 1 ^ 2 < p.waistAt f (fun _ => 1) 0 ^ 2 := by
      have := hpos 1
      gcongr
    have h53 : exW 0 0 = exW 1 0 + exW 2 1 := by norm_num [exW]
    have hI : exW 2 1 ≠ 0 := (exW_pos 2 1).ne'
    rw [h53]
    have heps := eps0_pos.ne'
    intro h0
    have : 4 * (exW 2 1 * Real.pi * eps0 * (A * B * C)) *
        (p.waistAt f (fun _ => 1) 1 ^ 2 - p.waistAt f (fun _ => 1) 0 ^ 2) = 0 := by linarith
    rcases mul_eq_zero.mp this with h | h
    · simp [hI, hA, hBB, hC, heps, hpi.ne'] at h
    · linarith

/-- C99, what holds: in free space the total power is kept when the waist in use is the same in all bins. -/
theorem C99_uniform_partial (he : N % 2 = 0) {q : Prob N} (hm : Matched q) {fc : FftC N} {z κ : ℝ} {y d : Fin (3 * N) → ℂ}
    (hd : (q.deriv fc z y).1 = .ok d)
    (ha : ∀ j, (q.scales (z - q.len / 2)).1 j ≠ 0 ∧ (q.scales (z - q.len / 2)).2.1 j ≠ 0 ∧ (q.scales (z - q.len / 2)).2.2 j ≠ 0)
    (hκ : ∀ j, q.p.n j * (q.scales (z - q.len / 2)).1 j ^ 2 = κ ∧ q.s.n j * (q.scales (z - q.len / 2)).2.1 j ^ 2 = κ ∧
      q.i.n j * (q.scales (z - q.len / 2)).2.2 j ^ 2 = κ) :
    Spec.rate (fun _ => 1) (Ap y) (Ap d) + Spec.rate (fun _ => 1) (As y) (As d) +
      Spec.rate (fun _ => 1) (Ai y) (Ai d) = 0 := by
  obtain ⟨deff, -, hr⟩ := rates he q hd ha
  obtain ⟨r1, r2, r3⟩ := hr fun _ => 1
  rw [r1, r2, r3, tri_add (w1 := fun _ i _ => 1 * kap q.s (q.scales (z - q.len / 2)).2.1 i)
    (w2 := fun _ _ j => 1 * kap q.i (q.scales (z - q.len / 2)).2.2 j) _ _ _, Complex.add_im]
  · ring
  · intro m i j hc
    simp only [kap, mul_assoc]
    rw [(hκ m).1, (hκ i).2.1, (hκ j).2.2, hm m i j hc]
    ring

/-! ## The default problem -/

/-- C74 is refuted: with `disable_SPM=False`, the default, `deriv` raises `AttributeError` for every field, position and
crystal. -/
theorem C74_default_refuted (q : Prob N) (h : q.disableSPM = false) (fc : FftC N) (z : ℝ) (y : Fin (3 * N) → ℂ) :
    (q.deriv fc z y).1 = .error .AttributeError := by
  unfold Prob.deriv
  cases hde : q.deffAt z with
  | error e =>
    simp only
    unfold Prob.deffAt at hde
    split_ifs at hde
    · rw [← Except.error.inj hde]
  | ok deff => simp [h]

/-- C74, what holds: with `disable_SPM=True` the derivative is defined at every position of a crystal of a known mode, and
only there. -/
theorem C74_chi2_partial (q : Prob N) (h : q.disableSPM = true) (fc : FftC N) (z : ℝ) (y : Fin (3 * N) → ℂ) :
    (∃ d, (q.deriv fc z y).1 = .ok d) ↔ q.mode = "PP" ∨ q.mode = "BPM" ∨ q.mode = "simple" := by
  constructor
  · rintro ⟨d, hd⟩
    by_contra hc
    push Not at hc
    have : q.deffAt z = .error .AttributeError := by simp [Prob.deffAt, hc]
    simp [Prob.deriv, this] at hd
  · intro hc
    have : ∃ deff, q.deffAt z = .ok deff := by
      unfold Prob.deffAt
      split_ifs with h1 h2
      · exact ⟨_, rfl⟩
      · exact ⟨_, rfl⟩
      · tauto
    obtain ⟨deff, hde⟩ := this
    exact deriv_ok h hde fc y

theorem C74_nonvacuous : exGuided.disableSPM = true ∧ ({ exGuided with disableSPM := false } : Prob 2).disableSPM = false :=
  ⟨rfl, rfl⟩

end PyNLO.Dfg
