import Verif.Props.DfgConverge
import Mathlib.Analysis.SpecialFunctions.Trigonometric.DerivHyp
import Mathlib.MeasureTheory.Integral.IntervalIntegral.FundThmCalculus
import Mathlib.Analysis.Real.Pi.Bounds

/-!
# C143: continuous waves in a waveguide crystal

Three continuous waves whose frequencies add up stay continuous waves.  When they are phase matched and enter with equal photon fluxes,
the sum frequency grows with the square of a hyperbolic tangent.
-/

open scoped BigOperators
open Set

namespace PyNLO.Spec

/-- Coupling constant of three waves with indices `np`, `ns`, `ni` in a waveguide of area `A` (SI units). -/
noncomputable def mixStrength (c ε A np ns ni : ℝ) : ℝ := 2 / (c * √(ε * c * A * (np * ns * ni)))

end PyNLO.Spec

namespace PyNLO.Dfg

open Beam

variable {N : ℕ} {q : Prob N} {squm : ℝ}

/-! ## Single lines -/

/-- One line in each of the three fields. -/
noncomputable def lines (m j l : Fin N) (p s i : ℂ) : Fin (3 * N) → ℂ := join (Pi.single m p) (Pi.single j s) (Pi.single l i)

theorem sumMix_single {c : ℤ} {m j l : Fin N} (h : ((j : ℕ) : ℤ) + (l : ℕ) = (m : ℕ) + c) (x y : ℂ) :
    Spec.sumMix c (Pi.single j x) (Pi.single l y) = Pi.single m (x * y) := by
  funext k
  rw [Spec.sumMix, Finset.sum_eq_single j, Finset.sum_eq_single l]
  · by_cases hk : k = m
    · subst hk; rw [if_pos h]; simp
    · have : ¬ ((j : ℕ) : ℤ) + (l : ℕ) = (k : ℕ) + c := fun h' => hk (Fin.ext (by omega))
      rw [if_neg this, Pi.single_eq_of_ne hk]
  · intro i _ hi; rw [Pi.single_eq_of_ne hi]; simp
  · intro h; exact absurd (Finset.mem_univ _) h
  · intro i _ hi; rw [Pi.single_eq_of_ne hi]; simp
  · intro h; exact absurd (Finset.mem_univ _) h

theorem diffMix_single {c : ℤ} {m j l : Fin N} (h : ((j : ℕ) : ℤ) + (l : ℕ) = (m : ℕ) + c) (x y : ℂ) :
    Spec.diffMix c (Pi.single m x) (Pi.single l y) = Pi.single j (x * (starRingEnd ℂ) y) := by
  funext k
  rw [Spec.diffMix, Finset.sum_eq_single m, Finset.sum_eq_single l]
  · by_cases hk : k = j
    · subst hk; rw [if_pos (by omega)]; simp
    · have : ¬ ((m : ℕ) : ℤ) - (l : ℕ) = (k : ℕ) - c := fun h' => hk (Fin.ext (by omega))
      rw [if_neg this, Pi.single_eq_of_ne hk]
  · intro i _ hi; rw [Pi.single_eq_of_ne hi]; simp
  · intro h; exact absurd (Finset.mem_univ _) h
  · intro i _ hi; rw [Pi.single_eq_of_ne hi]; simp
  · intro h; exact absurd (Finset.mem_univ _) h

theorem field_single (w : Spec.Wave N) (z : ℝ) (j : Fin N) (x : ℂ) :
    w.field z (Pi.single j x) = Pi.single j ((w.a j : ℂ) * x * Complex.exp (Complex.I * ((w.β j * z : ℝ) : ℂ))) := by
  funext k
  by_cases hk : k = j
  · subst hk; simp [Spec.Wave.field]
  · simp [Spec.Wave.field, Pi.single_eq_of_ne hk]

theorem driven_single (w : Spec.Wave N) (d z : ℝ) (j : Fin N) (x : ℂ) :
    w.driven d z (Pi.single j x) =
      Pi.single j (Complex.I * ((d * w.g j : ℝ) : ℂ) * Complex.exp (-(Complex.I * ((w.β j * z : ℝ) : ℂ))) * x) := by
  funext k
  by_cases hk : k = j
  · subst hk; simp [Spec.Wave.driven]
  · simp [Spec.Wave.driven, Pi.single_eq_of_ne hk]

/-- The phase mismatch of three lines. -/
noncomputable def Prob.mismatch (q : Prob N) (m j l : Fin N) : ℝ := (q.s.k j + q.s.k0) + (q.i.k l + q.i.k0) - (q.p.k m + q.p.k0)

/-- The coupling of three lines in a waveguide of `squm` square micrometres. -/
noncomputable def Prob.kappa (q : Prob N) (squm : ℝ) (m j l : Fin N) : ℝ :=
  Spec.mixStrength cMks eps0 (squm * 1e-12) (q.p.n m) (q.s.n j) (q.i.n l)

theorem coupling_alg {c ε A np ns ni W : ℝ} (hc : 0 < c) (he : 0 < ε) (hA : 0 < A) (hp : 0 < np) (hs : 0 < ns) (hi : 0 < ni) :
    2 * W / (c * np * (1 / √(A * np * ε * c))) * (1 / √(A * ns * ε * c)) * (1 / √(A * ni * ε * c)) = W * Spec.mixStrength c ε A np ns ni := by
  have e1 : √(A * np * ε * c) = √(A * ε * c) * √np := by rw [← Real.sqrt_mul (by positivity)]; congr 1; ring
  have e2 : √(A * ns * ε * c) = √(A * ε * c) * √ns := by rw [← Real.sqrt_mul (by positivity)]; congr 1; ring
  have e3 : √(A * ni * ε * c) = √(A * ε * c) * √ni := by rw [← Real.sqrt_mul (by positivity)]; congr 1; ring
  have e4 : √(ε * c * A * (np * ns * ni)) = √(A * ε * c) * √np * √ns * √ni := by
    rw [← Real.sqrt_mul (by positivity), ← Real.sqrt_mul (by positivity), ← Real.sqrt_mul (by positivity)]; congr 1; ring
  have h1 : 0 < √(A * ε * c) := Real.sqrt_pos.2 (by positivity)
  have h2 : 0 < √np := Real.sqrt_pos.2 hp
  have h3 : 0 < √ns := Real.sqrt_pos.2 hs
  have h4 : 0 < √ni := Real.sqrt_pos.2 hi
  have h5 : np = √np ^ 2 := (Real.sq_sqrt hp.le).symm
  unfold Spec.mixStrength
  rw [e1, e2, e3, e4]
  generalize √(A * ε * c) = r at *
  generalize √np = x at *
  subst h5
  field_simp

theorem coupling_swap (c ε A np ns ni : ℝ) : Spec.mixStrength c ε A ns np ni = Spec.mixStrength c ε A np ns ni ∧
    Spec.mixStrength c ε A ni np ns = Spec.mixStrength c ε A np ns ni := by
  unfold Spec.mixStrength
  constructor <;> congr 4 <;> ring

theorem exp_phases (a b c x : ℝ) : Complex.exp (-(Complex.I * ((c * x : ℝ) : ℂ))) * (Complex.exp (Complex.I * ((a * x : ℝ) : ℂ)) *
    Complex.exp (Complex.I * ((b * x : ℝ) : ℂ))) = Complex.exp (Complex.I * (((a + b - c) * x : ℝ) : ℂ)) := by
  rw [← Complex.exp_add, ← Complex.exp_add]
  congr 1
  push_cast
  ring

theorem conj_exp_phase (a x : ℝ) : (starRingEnd ℂ) (Complex.exp (Complex.I * ((a * x : ℝ) : ℂ))) = Complex.exp (Complex.I * ((-a * x : ℝ) : ℂ)) := by
  rw [← Complex.exp_conj, map_mul, Complex.conj_I, Complex.conj_ofReal]
  congr 1
  push_cast
  ring

/-- The derivative at three lines whose frequencies add up. -/
theorem Works.lines (W : Works q squm) {m j l : Fin N} (h : ((j : ℕ) : ℤ) + (l : ℕ) = (m : ℕ) + (N / 2 : ℕ)) (d z : ℝ) (p s i : ℂ) :
    threeWave (q.wp squm) (q.ws squm) (q.wi squm) d z (lines m j l p s i) = Dfg.lines m j l
      (Complex.I * ((d * q.kappa squm m j l * q.p.W m : ℝ) : ℂ) * (s * i) * Complex.exp (Complex.I * ((q.mismatch m j l * z : ℝ) : ℂ)))
      (Complex.I * ((d * q.kappa squm m j l * q.s.W j : ℝ) : ℂ) * (p * (starRingEnd ℂ) i) * Complex.exp (Complex.I * ((-q.mismatch m j l * z : ℝ) : ℂ)))
      (Complex.I * ((d * q.kappa squm m j l * q.i.W l : ℝ) : ℂ) * (p * (starRingEnd ℂ) s) * Complex.exp (Complex.I * ((-q.mismatch m j l * z : ℝ) : ℂ))) := by
  have hA : 0 < (WG.init squm).aeff := by have := W.area; simp only [WG.init]; positivity
  have eA : (WG.init squm).aeff = squm * 1e-12 := rfl
  obtain ⟨np, -, -⟩ := W.index m
  obtain ⟨-, ns, -⟩ := W.index j
  obtain ⟨-, -, ni⟩ := W.index l
  have hW := W.matched m j l h
  have hΔ : (q.ws squm).β j + (q.wi squm).β l - (q.wp squm).β m = q.mismatch m j l := by
    simp only [Prob.ws, Prob.wi, Prob.wp, Wave.spec, Prob.mismatch, hW]
    ring
  have gp : (q.wp squm).g m * (q.ws squm).a j * (q.wi squm).a l = q.p.W m * q.kappa squm m j l := by
    have := coupling_alg (W := q.p.W m) cMks_pos eps0_pos hA np ns ni
    rw [Prob.kappa, ← eA, ← this]; rfl
  have gs : (q.ws squm).g j * (q.wp squm).a m * (q.wi squm).a l = q.s.W j * q.kappa squm m j l := by
    have := coupling_alg (W := q.s.W j) cMks_pos eps0_pos hA ns np ni
    rw [Prob.kappa, ← eA, ← (coupling_swap _ _ _ _ _ _).1, ← this]; rfl
  have gi : (q.wi squm).g l * (q.wp squm).a m * (q.ws squm).a j = q.i.W l * q.kappa squm m j l := by
    have := coupling_alg (W := q.i.W l) cMks_pos eps0_pos hA ni np ns
    rw [Prob.kappa, ← eA, ← (coupling_swap _ _ _ _ _ _).2, ← this]; rfl
  unfold threeWave Dfg.lines
  rw [Ap_join, As_join, Ai_join]
  simp only [field_single]
  rw [sumMix_single h, diffMix_single h, diffMix_single (show ((l : ℕ) : ℤ) + (j : ℕ) = (m : ℕ) + (N / 2 : ℕ) by omega)]
  simp only [driven_single]
  have key : ∀ (g a b W : ℝ), g * a * b = W * q.kappa squm m j l → ∀ x y E1 E2 E3 E : ℂ, E1 * (E2 * E3) = E →
      Complex.I * ((d * g : ℝ) : ℂ) * E1 * ((a : ℂ) * x * E2 * ((b : ℂ) * y * E3)) = Complex.I * ((d * q.kappa squm m j l * W : ℝ) : ℂ) * (x * y) * E := by
    intro g a b W hg x y E1 E2 E3 E hE
    have hg' : (g : ℂ) * a * b = W * q.kappa squm m j l := by exact_mod_cast hg
    rw [← hE]
    push_cast
    linear_combination Complex.I * d * E1 * x * E2 * y * E3 * hg'
  congr 2
  · refine key _ _ _ _ gp _ _ _ _ _ _ ?_
    rw [exp_phases, hΔ]
  · rw [map_mul, map_mul, Complex.conj_ofReal, conj_exp_phase]
    refine key _ _ _ _ gs _ _ _ _ _ _ ?_
    rw [exp_phases, ← hΔ]
    congr 4; ring
  · rw [map_mul, map_mul, Complex.conj_ofReal, conj_exp_phase]
    refine key _ _ _ _ gi _ _ _ _ _ _ ?_
    rw [exp_phases, ← hΔ]
    congr 4; ring

/-! ## Lines stay lines -/

theorem hasDerivAt_mulFields (u v w : Fin N → ℂ) {y : ℝ → Fin (3 * N) → ℂ} {d : Fin (3 * N) → ℂ} {z : ℝ} (h : HasDerivAt y d z) :
    HasDerivAt (fun z => mulFields u v w (y z)) (mulFields u v w d) z := by
  have hk := hasDerivAt_pi.1 h
  refine hasDerivAt_pi.2 fun k => ?_
  unfold mulFields join
  split_ifs
  · exact (hk _).const_mul _
  · exact (hk _).const_mul _
  · exact (hk _).const_mul _

theorem continuousOn_mulFields (u v w : Fin N → ℂ) {y : ℝ → Fin (3 * N) → ℂ} {s : Set ℝ} (h : ContinuousOn y s) :
    ContinuousOn (fun z => mulFields u v w (y z)) s := by
  have hk := continuousOn_pi.1 h
  refine continuousOn_pi.2 fun k => ?_
  unfold mulFields join
  split_ifs
  · exact continuousOn_const.mul (hk _)
  · exact continuousOn_const.mul (hk _)
  · exact continuousOn_const.mul (hk _)

theorem Solves.mulFields (he : N % 2 = 0) {u v w : Fin N → ℂ} (h : MixPhase (N / 2 : ℕ) u v w) {y : ℝ → Fin (3 * N) → ℂ} {a b : ℝ}
    (hy : Solves q y a b) : Solves q (fun z => mulFields u v w (y z)) a b := by
  obtain ⟨hc, E, hE, hd⟩ := hy
  refine ⟨continuousOn_mulFields u v w hc, E, hE, fun z hz => ?_⟩
  obtain ⟨fc, d, h1, h2⟩ := hd z hz
  exact ⟨fc, _, deriv_mul he h h1, hasDerivAt_mulFields u v w h2⟩

/-- The phases of a shift of the three grids that leaves the bins `m`, `j` and `l` alone. -/
noncomputable def shiftPhase (m k : Fin N) : ℂ := Complex.exp (Complex.I * (((((k : ℕ) : ℝ) - (m : ℕ)) / N : ℝ) : ℂ))

theorem shiftPhase_self (m : Fin N) : shiftPhase m m = 1 := by simp [shiftPhase]

theorem shiftPhase_ne {m k : Fin N} (h : k ≠ m) : shiftPhase m k ≠ 1 := by
  have hN : (0 : ℝ) < N := by exact_mod_cast Fin.pos m
  have hk : ((k : ℕ) : ℝ) < N := by exact_mod_cast k.isLt
  have hm : ((m : ℕ) : ℝ) < N := by exact_mod_cast m.isLt
  have hk0 : (0 : ℝ) ≤ ((k : ℕ) : ℝ) := Nat.cast_nonneg _
  have hm0 : (0 : ℝ) ≤ ((m : ℕ) : ℝ) := Nat.cast_nonneg _
  intro he
  obtain ⟨n, hn⟩ := Complex.exp_eq_one_iff.1 he
  have hr : (((k : ℕ) : ℝ) - (m : ℕ)) / N = n * (2 * Real.pi) := by
    have h2 : Complex.I * (((((k : ℕ) : ℝ) - (m : ℕ)) / N : ℝ) : ℂ) = Complex.I * ((n * (2 * Real.pi) : ℝ) : ℂ) := by
      rw [hn]; push_cast; ring
    exact_mod_cast mul_left_cancel₀ Complex.I_ne_zero h2
  have hb : |(((k : ℕ) : ℝ) - (m : ℕ)) / N| < 1 := by
    rw [abs_div, abs_of_pos hN, div_lt_one hN, abs_lt]
    constructor <;> linarith
  rw [hr, abs_mul] at hb
  have hpi := Real.pi_gt_three
  have hn0 : n = 0 := by
    by_contra hc
    have : (1 : ℝ) ≤ |(n : ℝ)| := by exact_mod_cast Int.one_le_abs hc
    rw [abs_of_pos (by linarith : 0 < 2 * Real.pi)] at hb
    nlinarith
  rw [hn0, Int.cast_zero, zero_mul, div_eq_zero_iff] at hr
  rcases hr with hr | hr
  · exact h (Fin.ext (by exact_mod_cast sub_eq_zero.1 hr))
  · exact hN.ne' hr

theorem mixPhase_shift {m j l : Fin N} (h : ((j : ℕ) : ℤ) + (l : ℕ) = (m : ℕ) + (N / 2 : ℕ)) :
    MixPhase (N / 2 : ℕ) (shiftPhase m) (shiftPhase j) (shiftPhase l) where
  unit := fun k => by
    unfold shiftPhase
    refine ⟨?_, ?_, ?_⟩ <;> rw [mul_comm, Complex.norm_exp_ofReal_mul_I]
  rule := fun m' j' l' h' => by
    rw [shiftPhase, shiftPhase, shiftPhase, ← Complex.exp_add, ← mul_add, ← Complex.ofReal_add, ← add_div]
    congr 4
    have : ((m' : ℕ) : ℤ) - (m : ℕ) = ((j' : ℕ) : ℤ) - (j : ℕ) + (((l' : ℕ) : ℤ) - (l : ℕ)) := by omega
    exact_mod_cast this

theorem mulFields_lines (m j l : Fin N) (p s i : ℂ) :
    mulFields (shiftPhase m) (shiftPhase j) (shiftPhase l) (lines m j l p s i) = lines m j l p s i := by
  have e : ∀ (m : Fin N) (x : ℂ), (fun k => shiftPhase m k * (Pi.single m x : Fin N → ℂ) k) = Pi.single m x := by
    intro m x
    funext k
    by_cases hk : k = m
    · subst hk; simp [shiftPhase_self]
    · simp [Pi.single_eq_of_ne hk]
  unfold mulFields lines
  rw [Ap_join, As_join, Ai_join, e, e, e]

theorem eq_lines {m j l : Fin N} {y : Fin (3 * N) → ℂ} (h : mulFields (shiftPhase m) (shiftPhase j) (shiftPhase l) y = y) :
    y = lines m j l (Ap y m) (As y j) (Ai y l) := by
  have e : ∀ (m : Fin N) (x : Fin N → ℂ), (∀ k, shiftPhase m k * x k = x k) → x = Pi.single m (x m) := by
    intro m x hx
    funext k
    by_cases hk : k = m
    · subst hk; simp
    · rw [Pi.single_eq_of_ne hk]
      by_contra h0
      exact shiftPhase_ne hk (mul_right_cancel₀ h0 ((hx k).trans (one_mul _).symm))
  have h1 := congrArg Ap h
  have h2 := congrArg As h
  have h3 := congrArg Ai h
  unfold mulFields at h1 h2 h3
  rw [Ap_join] at h1
  rw [As_join] at h2
  rw [Ai_join] at h3
  unfold lines
  rw [← e m (Ap y) fun k => congrFun h1 k, ← e j (As y) fun k => congrFun h2 k, ← e l (Ai y) fun k => congrFun h3 k, join_parts]

/-- C143, lines: three continuous waves whose frequencies add up stay continuous waves, in every waveguide crystal, poled or not; their
amplitudes obey the equations of three coupled waves. -/
theorem C143_lines (W : Works q squm) {m j l : Fin N} (h : ((j : ℕ) : ℤ) + (l : ℕ) = (m : ℕ) + (N / 2 : ℕ)) {p0 s0 i0 : ℂ}
    {Y : ℝ → Fin (3 * N) → ℂ} (hY : Solves q Y 0 q.len) (h0 : Y 0 = lines m j l p0 s0 i0) :
    ∃ p s i : ℝ → ℂ, (∀ z ∈ Icc 0 q.len, Y z = lines m j l (p z) (s z) (i z)) ∧
      (p 0 = p0 ∧ s 0 = s0 ∧ i 0 = i0) ∧ (ContinuousOn p (Icc 0 q.len) ∧ ContinuousOn s (Icc 0 q.len) ∧ ContinuousOn i (Icc 0 q.len)) ∧
      ∃ E : Set ℝ, E.Countable ∧ ∀ z ∈ Ioo 0 q.len \ E,
        let γ := q.sign z * q.deff * q.kappa squm m j l
        let e (x : ℝ) := Complex.exp (Complex.I * ((x * z : ℝ) : ℂ))
        HasDerivAt p (Complex.I * ((γ * q.p.W m : ℝ) : ℂ) * (s z * i z) * e (q.mismatch m j l)) z ∧
        HasDerivAt s (Complex.I * ((γ * q.s.W j : ℝ) : ℂ) * (p z * (starRingEnd ℂ) (i z)) * e (-q.mismatch m j l)) z ∧
        HasDerivAt i (Complex.I * ((γ * q.i.W l : ℝ) : ℂ) * (p z * (starRingEnd ℂ) (s z)) * e (-q.mismatch m j l)) z := by
  obtain ⟨Y1, -, -, hu, -⟩ := C121_solution W (lines m j l p0 s0 i0)
  have hfix : ∀ z ∈ Icc 0 q.len, mulFields (shiftPhase m) (shiftPhase j) (shiftPhase l) (Y z) = Y z := by
    intro z hz
    have h1 := hu _ (hY.mulFields W.even (mixPhase_shift h)) (by rw [h0, mulFields_lines])
    have h2 := hu _ hY h0
    exact (h1 hz).trans (h2 hz).symm
  have hl : ∀ z ∈ Icc 0 q.len, Y z = lines m j l (Ap (Y z) m) (As (Y z) j) (Ai (Y z) l) := fun z hz => eq_lines (hfix z hz)
  obtain ⟨hc, E, hE, hd⟩ := hY
  have hk := continuousOn_pi.1 hc
  refine ⟨fun z => Ap (Y z) m, fun z => As (Y z) j, fun z => Ai (Y z) l, hl, ?_, ⟨hk _, hk _, hk _⟩, E, hE, fun z hz => ?_⟩
  · simp only [h0, lines, Ap_join, As_join, Ai_join, Pi.single_eq_same, and_self]
  · obtain ⟨fc, d, h1, h2⟩ := hd z hz
    rw [W.deriv, hl z ⟨hz.1.1.le, hz.1.2.le⟩, W.lines h] at h1
    have h1 := Except.ok.inj h1
    have h3 := hasDerivAt_pi.1 h2
    have dp : HasDerivAt (fun z => Ap (Y z) m) (Ap d m) z := h3 _
    have ds : HasDerivAt (fun z => As (Y z) j) (As d j) z := h3 _
    have di : HasDerivAt (fun z => Ai (Y z) l) (Ai d l) z := h3 _
    rw [← h1, lines, Ap_join, Pi.single_eq_same] at dp
    rw [← h1, lines, As_join, Pi.single_eq_same] at ds
    rw [← h1, lines, Ai_join, Pi.single_eq_same] at di
    exact ⟨dp, ds, di⟩

/-! ## Solutions from the amplitudes -/

theorem hasDerivAt_join {p s i : ℝ → Fin N → ℂ} {p' s' i' : Fin N → ℂ} {z : ℝ} (hp : HasDerivAt p p' z) (hs : HasDerivAt s s' z)
    (hi : HasDerivAt i i' z) : HasDerivAt (fun z => join (p z) (s z) (i z)) (join p' s' i') z := by
  refine hasDerivAt_pi.2 fun k => ?_
  unfold join
  split_ifs
  · exact hasDerivAt_pi.1 hp _
  · exact hasDerivAt_pi.1 hs _
  · exact hasDerivAt_pi.1 hi _

theorem hasDerivAt_single {p : ℝ → ℂ} {p' : ℂ} {z : ℝ} (m : Fin N) (hp : HasDerivAt p p' z) :
    HasDerivAt (fun z => (Pi.single m (p z) : Fin N → ℂ)) (Pi.single m p') z := by
  refine hasDerivAt_pi.2 fun k => ?_
  by_cases hk : k = m
  · subst hk; simpa using hp
  · simpa [Pi.single_eq_of_ne hk] using hasDerivAt_const z (0 : ℂ)

theorem continuousOn_lines {p s i : ℝ → ℂ} {t : Set ℝ} (m j l : Fin N) (hp : ContinuousOn p t) (hs : ContinuousOn s t) (hi : ContinuousOn i t) :
    ContinuousOn (fun z => lines m j l (p z) (s z) (i z)) t := by
  have e : ∀ (m k : Fin N) (x : ℝ → ℂ), ContinuousOn x t → ContinuousOn (fun z => (Pi.single m (x z) : Fin N → ℂ) k) t := by
    intro m k x hx
    by_cases hk : k = m
    · subst hk; simpa using hx
    · simpa [Pi.single_eq_of_ne hk] using continuousOn_const
  refine continuousOn_pi.2 fun k => ?_
  unfold lines join
  split_ifs
  · exact e _ _ _ hp
  · exact e _ _ _ hs
  · exact e _ _ _ hi

/-! ## Distance travelled with the sign of the domains -/

/-- The length of the positive domains before `z` minus that of the negative ones. -/
noncomputable def Prob.signed (q : Prob N) (z : ℝ) : ℝ := ∫ t in (0)..z, q.sign t

theorem sign_measurable (q : Prob N) : Measurable q.sign := by
  unfold Prob.sign
  split_ifs
  · unfold poling
    refine Measurable.ite ?_ measurable_const measurable_const
    have : {x : ℝ | ∃ d ∈ q.domains.1.zip q.domains.2, d.1 < x ∧ x < d.2} = ⋃ d ∈ (q.domains.1.zip q.domains.2).toFinset, Ioo d.1 d.2 := by
      ext x; simp only [mem_setOf_eq, mem_iUnion, List.mem_toFinset, mem_Ioo, exists_prop]
    rw [this]
    exact Finset.measurableSet_biUnion _ fun d _ => measurableSet_Ioo
  · exact measurable_const

theorem sign_integrable (q : Prob N) (a b : ℝ) : IntervalIntegrable q.sign MeasureTheory.volume a b := by
  refine (intervalIntegrable_const (c := (1 : ℝ))).mono_fun (sign_measurable q).aestronglyMeasurable.restrict (Filter.Eventually.of_forall fun z => ?_)
  simp [Real.norm_eq_abs, sign_abs]

theorem signed_unpoled {q : Prob N} (h : q.mode ≠ "PP") (z : ℝ) : q.signed z = z := by
  have : ∀ t, q.sign t = 1 := fun t => by rw [Prob.sign, if_neg h]
  simp [Prob.signed, this]

theorem sign_continuousAt {z : ℝ} (hz : z ∈ Ioo 0 q.len) (hw : z ∉ q.walls) : ContinuousAt q.sign z := by
  have h1 : ∀ᶠ x in nhds z, ∀ s ∈ q.walls, x ≠ s ∧ (s < x ↔ s < z) := by
    rw [Filter.eventually_all_finset]
    intro s hs
    rcases lt_trichotomy s z with h | h | h
    · filter_upwards [lt_mem_nhds h] with x hx
      exact ⟨ne_of_gt hx, ⟨fun _ => h, fun _ => hx⟩⟩
    · exact absurd (h ▸ hs) hw
    · filter_upwards [gt_mem_nhds h] with x hx
      exact ⟨ne_of_lt hx, ⟨fun h' => absurd h' (not_lt.2 hx.le), fun h' => absurd h' (not_lt.2 h.le)⟩⟩
  refine ContinuousAt.congr continuousAt_const (f := fun _ => q.sign z) ?_
  filter_upwards [h1, Ioo_mem_nhds hz.1 hz.2] with x hx hx2
  exact (sign_between q ⟨hx2.1.le, hx2.2.le⟩ ⟨hz.1.le, hz.2.le⟩ (fun h => (hx x h).1 rfl) hw fun s hs => (hx s hs).2).symm

theorem signed_hasDerivAt {z : ℝ} (hz : z ∈ Ioo 0 q.len) (hw : z ∉ q.walls) : HasDerivAt q.signed (q.sign z) z :=
  intervalIntegral.integral_hasDerivAt_right (sign_integrable q 0 z) ((sign_measurable q).stronglyMeasurable.stronglyMeasurableAtFilter)
    (sign_continuousAt hz hw)

theorem signed_continuous (q : Prob N) : Continuous q.signed :=
  intervalIntegral.continuous_primitive (fun a b => sign_integrable q a b) 0

theorem signed_zero (q : Prob N) : q.signed 0 = 0 := by simp [Prob.signed]

/-! ## Equal photon fluxes -/

/-- Waves with photon amplitude `f sech x` in signal and idler and `f tanh x` in the pump, with the phases `u` and `v` of the signal and
the idler. -/
noncomputable def conversion (q : Prob N) (m j l : Fin N) (f : ℝ) (u v : ℂ) (x : ℝ) : Fin (3 * N) → ℂ :=
  lines m j l (Complex.I * ((√(q.p.W m) * f * Real.tanh x : ℝ) : ℂ) * (u * v)) (((√(q.s.W j) * f * (Real.cosh x)⁻¹ : ℝ) : ℂ) * u)
    (((√(q.i.W l) * f * (Real.cosh x)⁻¹ : ℝ) : ℂ) * v)

/-- The conversion rate per length of waves with the photon amplitude `f`. -/
noncomputable def Prob.gain (q : Prob N) (squm : ℝ) (m j l : Fin N) (f : ℝ) : ℝ :=
  q.deff * q.kappa squm m j l * √(q.p.W m * q.s.W j * q.i.W l) * f

theorem hasDerivAt_tanh' (x : ℝ) : HasDerivAt Real.tanh ((Real.cosh x)⁻¹ ^ 2) x := by
  have hc := (Real.cosh_pos x).ne'
  have h := (Real.hasDerivAt_sinh x).div (Real.hasDerivAt_cosh x) hc
  have e : Real.tanh = Real.sinh / Real.cosh := by funext y; exact Real.tanh_eq_sinh_div_cosh y
  rw [e]
  refine h.congr_deriv ?_
  have := Real.cosh_sq x
  field_simp
  nlinarith

theorem hasDerivAt_sech (x : ℝ) : HasDerivAt (fun y => (Real.cosh y)⁻¹) (-(Real.tanh x * (Real.cosh x)⁻¹)) x := by
  have hc := (Real.cosh_pos x).ne'
  refine ((Real.hasDerivAt_cosh x).fun_inv hc).congr_deriv ?_
  rw [Real.tanh_eq_sinh_div_cosh]
  field_simp

theorem continuous_tanh' : Continuous Real.tanh := continuous_iff_continuousAt.2 fun x => (hasDerivAt_tanh' x).continuousAt

theorem continuous_sech : Continuous fun x => (Real.cosh x)⁻¹ := continuous_iff_continuousAt.2 fun x => (hasDerivAt_sech x).continuousAt

/-- C143, solution: phase-matched waves that enter with equal photon fluxes convert as a hyperbolic tangent of the length travelled, counted
with the sign of the domains. -/
theorem C143_solution (W : Works q squm) {m j l : Fin N} (h : ((j : ℕ) : ℤ) + (l : ℕ) = (m : ℕ) + (N / 2 : ℕ))
    (hΔ : q.mismatch m j l = 0) (hW : 0 < q.s.W j ∧ 0 < q.i.W l) (f x0 : ℝ) {u v : ℂ} (hu : ‖u‖ = 1) (hv : ‖v‖ = 1) :
    Solves q (fun z => conversion q m j l f u v (q.gain squm m j l f * q.signed z + x0)) 0 q.len := by
  set x : ℝ → ℝ := fun z => q.gain squm m j l f * q.signed z + x0 with hx
  have hxc : Continuous x := (continuous_const.mul (signed_continuous q)).add continuous_const
  have hWp : 0 < q.p.W m := by rw [W.matched m j l h]; exact add_pos hW.1 hW.2
  have ct : Continuous fun z => Real.tanh (x z) := continuous_tanh'.comp hxc
  have cs : Continuous fun z => (Real.cosh (x z))⁻¹ := continuous_sech.comp hxc
  refine ⟨?_, q.walls, q.walls.countable_toSet, fun z hz => ⟨FftC.zeros N, _, W.deriv _ _ _, ?_⟩⟩
  · have hp : Continuous fun z => Complex.I * ((√(q.p.W m) * f * Real.tanh (x z) : ℝ) : ℂ) * (u * v) := by fun_prop
    have hs : ∀ (a : ℝ) (u : ℂ), Continuous fun z => ((a * f * (Real.cosh (x z))⁻¹ : ℝ) : ℂ) * u := by
      intro a u
      exact (Complex.continuous_ofReal.comp (continuous_const.mul cs)).mul continuous_const
    exact continuousOn_lines m j l hp.continuousOn (hs _ _).continuousOn (hs _ _).continuousOn
  have hd : HasDerivAt x (q.gain squm m j l f * q.sign z) z := ((signed_hasDerivAt hz.1 hz.2).const_mul _).add_const _
  have dt : HasDerivAt (fun z => Real.tanh (x z)) ((Real.cosh (x z))⁻¹ ^ 2 * (q.gain squm m j l f * q.sign z)) z :=
    (hasDerivAt_tanh' (x z)).comp z hd
  have ds : HasDerivAt (fun z => (Real.cosh (x z))⁻¹) (-(Real.tanh (x z) * (Real.cosh (x z))⁻¹) * (q.gain squm m j l f * q.sign z)) z :=
    (hasDerivAt_sech (x z)).comp z hd
  have hp : HasDerivAt (fun z => Complex.I * ((√(q.p.W m) * f * Real.tanh (x z) : ℝ) : ℂ) * (u * v))
      (Complex.I * ((√(q.p.W m) * f * ((Real.cosh (x z))⁻¹ ^ 2 * (q.gain squm m j l f * q.sign z)) : ℝ) : ℂ) * (u * v)) z :=
    (((dt.const_mul (√(q.p.W m) * f)).ofReal_comp).const_mul Complex.I).mul_const (u * v)
  have hs : ∀ (a : ℝ) (u : ℂ), HasDerivAt (fun z => ((a * f * (Real.cosh (x z))⁻¹ : ℝ) : ℂ) * u)
      (((a * f * (-(Real.tanh (x z) * (Real.cosh (x z))⁻¹) * (q.gain squm m j l f * q.sign z)) : ℝ) : ℂ) * u) z := fun a u =>
    ((ds.const_mul (a * f)).ofReal_comp).mul_const u
  refine (hasDerivAt_join (hasDerivAt_single m hp) (hasDerivAt_single j (hs _ u)) (hasDerivAt_single l (hs _ v))).congr_deriv ?_
  show _ = threeWave _ _ _ _ z (conversion q m j l f u v (x z))
  rw [conversion, W.lines h, hΔ]
  have eg : q.gain squm m j l f = q.deff * q.kappa squm m j l * (√(q.p.W m) * √(q.s.W j) * √(q.i.W l)) * f := by
    rw [Prob.gain, Real.sqrt_mul (mul_nonneg hWp.le hW.1.le), Real.sqrt_mul hWp.le]
  have ep : ((q.p.W m : ℝ) : ℂ) = ((√(q.p.W m) : ℝ) : ℂ) ^ 2 := by rw [← Complex.ofReal_pow, Real.sq_sqrt hWp.le]
  have es : ((q.s.W j : ℝ) : ℂ) = ((√(q.s.W j) : ℝ) : ℂ) ^ 2 := by rw [← Complex.ofReal_pow, Real.sq_sqrt hW.1.le]
  have ei : ((q.i.W l : ℝ) : ℂ) = ((√(q.i.W l) : ℝ) : ℂ) ^ 2 := by rw [← Complex.ofReal_pow, Real.sq_sqrt hW.2.le]
  have uu : u * (starRingEnd ℂ) u = 1 := by rw [Complex.mul_conj, Complex.normSq_eq_norm_sq, hu]; simp
  have vv : v * (starRingEnd ℂ) v = 1 := by rw [Complex.mul_conj, Complex.normSq_eq_norm_sq, hv]; simp
  have I2 := Complex.I_mul_I
  rw [lines, eg]
  simp only [neg_zero, zero_mul, Complex.ofReal_zero, mul_zero, Complex.exp_zero, mul_one, map_mul, Complex.conj_ofReal]
  clear_value x
  generalize Real.tanh (x z) = t
  generalize (Real.cosh (x z))⁻¹ = c
  push_cast
  rw [ep, es, ei]
  congr 2
  · ring
  · generalize ((√(q.p.W m) : ℝ) : ℂ) = a, ((√(q.s.W j) : ℝ) : ℂ) = b, ((√(q.i.W l) : ℝ) : ℂ) = e, ((q.sign z : ℝ) : ℂ) = g,
      ((q.deff : ℝ) : ℂ) = d, ((q.kappa squm m j l : ℝ) : ℂ) = k
    linear_combination (-(g * d * k * b ^ 2 * a * e * f ^ 2 * t * c * u * v * (starRingEnd ℂ) v)) * I2 + (g * d * k * b ^ 2 * a * e * f ^ 2 * t * c * u) * vv
  · generalize ((√(q.p.W m) : ℝ) : ℂ) = a, ((√(q.s.W j) : ℝ) : ℂ) = b, ((√(q.i.W l) : ℝ) : ℂ) = e, ((q.sign z : ℝ) : ℂ) = g,
      ((q.deff : ℝ) : ℂ) = d, ((q.kappa squm m j l : ℝ) : ℂ) = k
    linear_combination (-(g * d * k * e ^ 2 * a * b * f ^ 2 * t * c * v * u * (starRingEnd ℂ) u)) * I2 + (g * d * k * e ^ 2 * a * b * f ^ 2 * t * c * v) * uu

theorem unit_part {x : ℂ} {r : ℝ} (hr : 0 < r) (h : ‖x‖ = r) : ∃ u : ℂ, ‖u‖ = 1 ∧ x = (r : ℂ) * u := by
  refine ⟨x / r, ?_, ?_⟩
  · rw [norm_div, h, Complex.norm_real, Real.norm_eq_abs, abs_of_pos hr, div_self hr.ne']
  · have : (r : ℂ) ≠ 0 := by exact_mod_cast hr.ne'
    field_simp

theorem norm_of_flux {x : ℂ} {w f : ℝ} (hw : 0 ≤ w) (hf : 0 ≤ f) (h : ‖x‖ ^ 2 = w * f ^ 2) : ‖x‖ = √w * f := by
  rw [← Real.sqrt_sq (norm_nonneg x), h, Real.sqrt_mul hw, Real.sqrt_sq hf]

/-- The state of signal and idler that enter with the photon flux `f ^ 2` each and no pump. -/
theorem conversion_input {m j l : Fin N} (hW : 0 < q.s.W j ∧ 0 < q.i.W l) {f : ℝ} (hf : 0 < f) {s0 i0 : ℂ}
    (hs : ‖s0‖ ^ 2 = q.s.W j * f ^ 2) (hi : ‖i0‖ ^ 2 = q.i.W l * f ^ 2) :
    ∃ u v : ℂ, ‖u‖ = 1 ∧ ‖v‖ = 1 ∧ conversion q m j l f u v 0 = lines m j l 0 s0 i0 := by
  obtain ⟨u, hu, eu⟩ := unit_part (mul_pos (Real.sqrt_pos.2 hW.1) hf) (norm_of_flux hW.1.le hf.le hs)
  obtain ⟨v, hv, ev⟩ := unit_part (mul_pos (Real.sqrt_pos.2 hW.2) hf) (norm_of_flux hW.2.le hf.le hi)
  refine ⟨u, v, hu, hv, ?_⟩
  rw [conversion, eu, ev]
  simp

theorem conversion_powers (q : Prob N) {m j l : Fin N} (hW : 0 ≤ q.p.W m ∧ 0 ≤ q.s.W j ∧ 0 ≤ q.i.W l) (f : ℝ) {u v : ℂ} (hu : ‖u‖ = 1)
    (hv : ‖v‖ = 1) (x : ℝ) :
    ‖Ap (conversion q m j l f u v x) m‖ ^ 2 = q.p.W m * f ^ 2 * Real.tanh x ^ 2 ∧
    ‖As (conversion q m j l f u v x) j‖ ^ 2 = q.s.W j * f ^ 2 * (1 - Real.tanh x ^ 2) ∧
    ‖Ai (conversion q m j l f u v x) l‖ ^ 2 = q.i.W l * f ^ 2 * (1 - Real.tanh x ^ 2) := by
  have hc : (Real.cosh x)⁻¹ ^ 2 = 1 - Real.tanh x ^ 2 := by
    have h0 := (Real.cosh_pos x).ne'
    have := Real.cosh_sq x
    rw [Real.tanh_eq_sinh_div_cosh]
    field_simp
    linarith
  unfold conversion lines
  rw [Ap_join, As_join, Ai_join]
  rw [← hc]
  simp only [Pi.single_eq_same, norm_mul, hu, hv, Complex.norm_I, Complex.norm_real, one_mul, mul_one, mul_pow, Real.norm_eq_abs, sq_abs, abs_inv,
    Real.sq_sqrt hW.1, Real.sq_sqrt hW.2.1, Real.sq_sqrt hW.2.2, inv_pow, and_self]

/-- C143, powers: signal and idler that enter with equal photon fluxes and no pump, phase matched, give the sum frequency the share
`tanh²` of the power that entered and keep the rest, in proportion. -/
theorem C143_powers (W : Works q squm) {m j l : Fin N} (h : ((j : ℕ) : ℤ) + (l : ℕ) = (m : ℕ) + (N / 2 : ℕ))
    (hΔ : q.mismatch m j l = 0) (hW : 0 < q.s.W j ∧ 0 < q.i.W l) {f : ℝ} (hf : 0 < f) {s0 i0 : ℂ}
    (hs : ‖s0‖ ^ 2 = q.s.W j * f ^ 2) (hi : ‖i0‖ ^ 2 = q.i.W l * f ^ 2) {Y : ℝ → Fin (3 * N) → ℂ} (hY : Solves q Y 0 q.len)
    (h0 : Y 0 = lines m j l 0 s0 i0) {z : ℝ} (hz : z ∈ Icc 0 q.len) :
    let T := Real.tanh (q.gain squm m j l f * q.signed z) ^ 2
    ‖Ap (Y z) m‖ ^ 2 = (‖s0‖ ^ 2 + ‖i0‖ ^ 2) * T ∧ ‖As (Y z) j‖ ^ 2 = ‖s0‖ ^ 2 * (1 - T) ∧ ‖Ai (Y z) l‖ ^ 2 = ‖i0‖ ^ 2 * (1 - T) := by
  obtain ⟨u, v, hu, hv, e0⟩ := conversion_input (q := q) (m := m) (j := j) (l := l) hW hf hs hi
  obtain ⟨Y1, -, -, hun, -⟩ := C121_solution W (lines m j l 0 s0 i0)
  have h1 := hun _ (C143_solution W h hΔ hW f 0 hu hv) (by simp only [signed_zero, mul_zero, add_zero]; exact e0) hz
  have h2 : Y z = conversion q m j l f u v (q.gain squm m j l f * q.signed z) := by
    rw [hun _ hY h0 hz, ← h1]; simp only [add_zero]
  have hp := W.matched m j l h
  obtain ⟨p1, p2, p3⟩ := conversion_powers q (m := m) (j := j) (l := l) ⟨by rw [hp]; linarith [hW.1, hW.2], hW.1.le, hW.2.le⟩ f hu hv
    (q.gain squm m j l f * q.signed z)
  refine ⟨?_, ?_, ?_⟩
  · rw [h2, p1, hs, hi, hp]; ring
  · rw [h2, p2, hs]
  · rw [h2, p3, hi]

theorem tanh_sq_bounds (x : ℝ) : 1 - 4 * Real.exp (-(2 * |x|)) ≤ Real.tanh x ^ 2 ∧ Real.tanh x ^ 2 < 1 := by
  have h0 := Real.cosh_pos x
  have h1 := Real.cosh_sq x
  have e : Real.tanh x ^ 2 = 1 - 1 / Real.cosh x ^ 2 := by
    rw [Real.tanh_eq_sinh_div_cosh]
    field_simp
    linarith
  have h2 : Real.exp |x| / 2 ≤ Real.cosh x := by
    rw [← Real.cosh_abs, Real.cosh_eq]
    have := Real.exp_pos (-|x|)
    linarith
  have h3 : 1 / Real.cosh x ^ 2 ≤ 4 * Real.exp (-(2 * |x|)) := by
    have h4 : (Real.exp |x| / 2) ^ 2 ≤ Real.cosh x ^ 2 := pow_le_pow_left₀ (by positivity) h2 2
    calc 1 / Real.cosh x ^ 2 ≤ 1 / (Real.exp |x| / 2) ^ 2 := one_div_le_one_div_of_le (by positivity) h4
      _ = 4 * Real.exp (-(2 * |x|)) := by
        rw [Real.exp_neg, two_mul, Real.exp_add]
        have := Real.exp_pos |x|
        field_simp
        norm_num
  rw [e]
  have : 0 < 1 / Real.cosh x ^ 2 := by positivity
  constructor <;> linarith

theorem tanh_sq_strictMono {x y : ℝ} (hx : 0 ≤ x) (h : x < y) : Real.tanh x ^ 2 < Real.tanh y ^ 2 := by
  have e : ∀ x, Real.tanh x ^ 2 = 1 - 1 / Real.cosh x ^ 2 := by
    intro x
    have h0 := Real.cosh_pos x
    have h1 := Real.cosh_sq x
    rw [Real.tanh_eq_sinh_div_cosh]
    field_simp
    linarith
  have h2 : Real.cosh x < Real.cosh y := by
    rw [Real.cosh_lt_cosh, abs_of_nonneg hx, abs_of_nonneg (hx.trans h.le)]
    exact h
  have h3 : 1 / Real.cosh y ^ 2 < 1 / Real.cosh x ^ 2 :=
    one_div_lt_one_div_of_lt (by have := Real.cosh_pos x; positivity) (pow_lt_pow_left₀ h2 (Real.cosh_pos x).le (by norm_num))
  rw [e, e]
  linarith

/-- C143, growth: in an unpoled crystal the sum frequency keeps growing along the crystal and takes all the power but a part that falls
exponentially with the length; it never takes all of it. -/
theorem C143_growth (W : Works q squm) (hq : q.mode ≠ "PP") {m j l : Fin N} (h : ((j : ℕ) : ℤ) + (l : ℕ) = (m : ℕ) + (N / 2 : ℕ))
    (hΔ : q.mismatch m j l = 0) (hW : 0 < q.s.W j ∧ 0 < q.i.W l) (hd : q.deff ≠ 0) {f : ℝ} (hf : 0 < f) {s0 i0 : ℂ}
    (hs : ‖s0‖ ^ 2 = q.s.W j * f ^ 2) (hi : ‖i0‖ ^ 2 = q.i.W l * f ^ 2) {Y : ℝ → Fin (3 * N) → ℂ} (hY : Solves q Y 0 q.len)
    (h0 : Y 0 = lines m j l 0 s0 i0) :
    StrictMonoOn (fun z => ‖Ap (Y z) m‖ ^ 2) (Icc 0 q.len) ∧ ∀ z ∈ Icc 0 q.len,
      (‖s0‖ ^ 2 + ‖i0‖ ^ 2) * (1 - 4 * Real.exp (-(2 * |q.gain squm m j l f| * z))) ≤ ‖Ap (Y z) m‖ ^ 2 ∧
      ‖Ap (Y z) m‖ ^ 2 < ‖s0‖ ^ 2 + ‖i0‖ ^ 2 := by
  have hP : 0 < ‖s0‖ ^ 2 + ‖i0‖ ^ 2 := by
    rw [hs, hi]
    have := mul_pos hW.1 (pow_pos hf 2)
    have := mul_pos hW.2 (pow_pos hf 2)
    linarith
  have hg : 0 < |q.gain squm m j l f| := by
    have hWp : 0 < q.p.W m := by rw [W.matched m j l h]; exact add_pos hW.1 hW.2
    refine abs_pos.2 (mul_ne_zero (mul_ne_zero (mul_ne_zero hd ?_) (Real.sqrt_pos.2 (mul_pos (mul_pos hWp hW.1) hW.2)).ne') hf.ne')
    obtain ⟨np, -, -⟩ := W.index m
    obtain ⟨-, ns, -⟩ := W.index j
    obtain ⟨-, -, ni⟩ := W.index l
    have := W.area
    have hc := cMks_pos
    have he := eps0_pos
    have h1 : 0 < √(eps0 * cMks * (squm * 1e-12) * (q.p.n m * q.s.n j * q.i.n l)) := Real.sqrt_pos.2 (by positivity)
    unfold Prob.kappa Spec.mixStrength
    positivity
  have key : ∀ z ∈ Icc 0 q.len, ‖Ap (Y z) m‖ ^ 2 = (‖s0‖ ^ 2 + ‖i0‖ ^ 2) * Real.tanh (|q.gain squm m j l f| * z) ^ 2 := by
    intro z hz
    have := (C143_powers W h hΔ hW hf hs hi hY h0 hz).1
    rw [this, signed_unpoled hq]
    congr 1
    rcases abs_choice (q.gain squm m j l f) with h | h
    · rw [h]
    · rw [h, neg_mul, Real.tanh_neg, neg_sq]
  refine ⟨fun z hz z' hz' hlt => ?_, fun z hz => ?_⟩
  · simp only [key z hz, key z' hz']
    exact mul_lt_mul_of_pos_left (tanh_sq_strictMono (mul_nonneg hg.le hz.1) (mul_lt_mul_of_pos_left hlt hg)) hP
  · obtain ⟨h1, h2⟩ := tanh_sq_bounds (|q.gain squm m j l f| * z)
    rw [abs_of_nonneg (mul_nonneg hg.le hz.1), ← mul_assoc] at h1
    rw [key z hz]
    exact ⟨mul_le_mul_of_nonneg_left h1 hP.le, (mul_lt_iff_lt_one_right hP).2 h2⟩

/-- C143, computed: an integration that returns gives the sum frequency this power up to the rounding of the literals and a multiple of
the longest step. -/
theorem C143_computed (W : Works q squm) {κ R ρ : ℝ} (S : Strength (q.wp squm) (q.ws squm) (q.wi squm) |q.deff| κ) {m j l : Fin N}
    (h : ((j : ℕ) : ℤ) + (l : ℕ) = (m : ℕ) + (N / 2 : ℕ)) (hΔ : q.mismatch m j l = 0) (hW : 0 < q.s.W j ∧ 0 < q.i.W l) {f : ℝ} (hf : 0 < f)
    {s0 i0 : ℂ} (hs : ‖s0‖ ^ 2 = q.s.W j * f ^ 2) (hi : ‖i0‖ ^ 2 = q.i.W l * f ^ 2) (hρ : 0 < ρ) (hR : √(‖s0‖ ^ 2 + ‖i0‖ ^ 2) + ρ < R)
    (hsm : q.len * Real.exp (26 * (2 * N * κ * R) * q.len) * (1e-27 * (N * κ * R ^ 2)) < ρ) :
    ∃ C h0, 0 ≤ C ∧ 0 < h0 ∧ ∀ hm ∈ Ioc 0 h0, ∀ (p : Ode.Prob (3 * N)) (con : Ode.Con) (h1 hmin : ℝ) (out : Ode.Out (3 * N)) (o' : Ode.Ode (3 * N)),
      p.f = q.rhs → Ode.Rounds p.fl → out.Usable → (Ode.Ode.new con (lines m j l 0 s0 i0) 0 q.len h1 hmin out).integrate p = some (.ok (), o') →
      Ode.StepsLe hm 0 o'.visited → |‖Ap o'.ystart m‖ - (√(‖s0‖ ^ 2 + ‖i0‖ ^ 2) * |Real.tanh (q.gain squm m j l f * q.signed q.len)|)| ≤
        q.len * Real.exp (26 * (2 * N * κ * R) * q.len) * (1e-27 * (N * κ * R ^ 2)) + C * hm := by
  have hsum : ∑ k, ‖lines m j l 0 s0 i0 k‖ ^ 2 = ‖s0‖ ^ 2 + ‖i0‖ ^ 2 := by
    have e : ∀ (m : Fin N) (x : ℂ), ∑ k, ‖(Pi.single m x : Fin N → ℂ) k‖ ^ 2 = ‖x‖ ^ 2 := by
      intro m x
      rw [Finset.sum_eq_single m]
      · simp
      · intro k _ hk; simp [Pi.single_eq_of_ne hk]
      · intro h; exact absurd (Finset.mem_univ _) h
    rw [sum_parts]
    change ∑ k, ‖Ap (lines m j l 0 s0 i0) k‖ ^ 2 + ∑ k, ‖As (lines m j l 0 s0 i0) k‖ ^ 2 + ∑ k, ‖Ai (lines m j l 0 s0 i0) k‖ ^ 2 = _
    rw [lines, Ap_join, As_join, Ai_join, e, e, e]
    simp
  obtain ⟨C, h0, hC, hh0, hc⟩ := C121_converges W S (lines m j l 0 s0 i0) hρ (by rw [hsum]; exact hR) hsm
  obtain ⟨Y, hY0, hY, -, -⟩ := C121_solution W (lines m j l 0 s0 i0)
  refine ⟨C, h0, hC, hh0, fun hm hhm p con h1 hmin out o' hp hfl ho hr hst => ?_⟩
  have h2 := hc hm hhm p con h1 hmin out o' hp hfl ho hr hst Y hY hY0
  have h3 := (C143_powers W h hΔ hW hf hs hi hY hY0 ⟨W.len.le, le_refl _⟩).1
  have h4 : ‖Ap (Y q.len) m‖ = √(‖s0‖ ^ 2 + ‖i0‖ ^ 2) * |Real.tanh (q.gain squm m j l f * q.signed q.len)| := by
    rw [← Real.sqrt_sq (norm_nonneg _), h3, Real.sqrt_mul (by positivity), Real.sqrt_sq_eq_abs]
  rw [← h4]
  refine (abs_norm_sub_norm_le _ _).trans (le_trans ?_ h2)
  exact norm_le_pi_norm (o'.ystart - Y q.len) _

/-! The hypotheses hold for the crystal of `C70_nonvacuous` without its poling: 3 and 2 in, 5 out. -/

noncomputable def exUnpoled : Prob 2 := { exGuided with mode := "simple" }

theorem exUnpoled_works : Works exUnpoled 10 :=
  ⟨by norm_num, by norm_num, rfl, fun j => by norm_num [exUnpoled, exGuided], rfl, exGuided_matched, .inr (.inr rfl), by norm_num [exUnpoled, exGuided]⟩

theorem C143_nonvacuous : Works exUnpoled 10 ∧ exUnpoled.mode ≠ "PP" ∧
    (((0 : Fin 2) : ℕ) : ℤ) + ((1 : Fin 2) : ℕ) = ((0 : Fin 2) : ℕ) + (2 / 2 : ℕ) ∧ exUnpoled.mismatch 0 0 1 = 0 ∧
    0 < exUnpoled.s.W 0 ∧ 0 < exUnpoled.i.W 1 ∧ exUnpoled.deff ≠ 0 ∧
    ‖((√3 / 10 : ℝ) : ℂ)‖ ^ 2 = exUnpoled.s.W 0 * (1 / 10) ^ 2 ∧ ‖((√2 / 10 : ℝ) : ℂ)‖ ^ 2 = exUnpoled.i.W 1 * (1 / 10) ^ 2 ∧
    Strength (exUnpoled.wp 10) (exUnpoled.ws 10) (exUnpoled.wi 10) |exUnpoled.deff| 0.2 ∧
    √(‖((√3 / 10 : ℝ) : ℂ)‖ ^ 2 + ‖((√2 / 10 : ℝ) : ℂ)‖ ^ 2) + 0.1 < 1 ∧
    exUnpoled.len * Real.exp (26 * (2 * (2 : ℕ) * 0.2 * 1) * exUnpoled.len) * (1e-27 * ((2 : ℕ) * 0.2 * 1 ^ 2)) < 0.1 ∧
    exUnpoled.gain 10 0 0 1 (1 / 10) ≠ 0 := by
  have n3 : ‖((√3 / 10 : ℝ) : ℂ)‖ ^ 2 = 3 * (1 / 10) ^ 2 := by
    rw [Complex.norm_real, Real.norm_eq_abs, sq_abs, div_pow, Real.sq_sqrt (by norm_num)]; norm_num
  have n2 : ‖((√2 / 10 : ℝ) : ℂ)‖ ^ 2 = 2 * (1 / 10) ^ 2 := by
    rw [Complex.norm_real, Real.norm_eq_abs, sq_abs, div_pow, Real.sq_sqrt (by norm_num)]; norm_num
  refine ⟨exUnpoled_works, by decide, rfl, by norm_num [Prob.mismatch, exUnpoled, exGuided], by norm_num [exUnpoled, exGuided],
    by norm_num [exUnpoled, exGuided], by norm_num [exUnpoled, exGuided], by rw [n3]; norm_num [exUnpoled, exGuided],
    by rw [n2]; norm_num [exUnpoled, exGuided], exGuided_strength, ?_, C121_nonvacuous.2.2.2.2.2, ?_⟩
  · rw [n3, n2]
    have : √(3 * (1 / 10) ^ 2 + 2 * (1 / 10) ^ 2 : ℝ) ≤ 0.5 := Real.sqrt_le_iff.2 ⟨by norm_num, by norm_num⟩
    linarith
  · have hc := cMks_pos
    have he := eps0_pos
    have h1 : 0 < √(eps0 * cMks * (10 * 1e-12) * (2 * 2 * 2)) := Real.sqrt_pos.2 (by positivity)
    have h2 : 0 < √(5 * 3 * 2 : ℝ) := Real.sqrt_pos.2 (by norm_num)
    show (1 : ℝ) * (2 / (cMks * √(eps0 * cMks * (10 * 1e-12) * (2 * 2 * 2)))) * √(5 * 3 * 2 : ℝ) * (1 / 10) ≠ 0
    positivity

end PyNLO.Dfg
