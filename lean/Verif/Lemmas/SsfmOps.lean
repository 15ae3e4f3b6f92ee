import Verif.Lemmas.Ssfm

/-! # Algebra of the field operators of the split-step solver -/

namespace PyNLO.Ssfm

open Complex

variable {n : ℕ}

theorem ifft_applySpec (E A : Fin n → ℂ) : ifft (applySpec E A) = fun k => E k * ifft A k := ifft_fft _

theorem applySpec_applySpec (E F A : Fin n → ℂ) : applySpec E (applySpec F A) = applySpec (fun k => E k * F k) A := by
  unfold applySpec
  rw [ifft_fft]
  congr 1
  funext k
  ring

theorem applySpec_one (A : Fin n → ℂ) : applySpec (fun _ => 1) A = A := by
  unfold applySpec
  simp only [one_mul]
  exact fft_ifft A

theorem applySpec_zero (E : Fin n → ℂ) : applySpec E (fun _ => 0) = fun _ => 0 := by
  unfold applySpec
  rw [ifft_zero]
  simp only [mul_zero]
  exact fft_zero

theorem applySpec_smul (E A : Fin n → ℂ) (u : ℂ) : applySpec E (fun j => u * A j) = fun j => u * applySpec E A j := by
  unfold applySpec
  rw [ifft_smul, ← fft_smul]
  congr 1
  funext k
  ring

theorem applySpec_roll (E A : Fin n → ℂ) (s : ℤ) : applySpec E (roll s A) = roll s (applySpec E A) := by
  unfold applySpec
  rw [← fft_mod]
  congr 1
  funext k
  rw [ifft_roll]
  ring

theorem absSq_smul {u : ℂ} (hu : ‖u‖ = 1) (A : Fin n → ℂ) : absSq (fun j => u * A j) = absSq A := by
  funext j
  simp only [absSq, norm_mul, hu, one_mul]

theorem absSq_roll (s : ℤ) (A : Fin n → ℂ) : absSq (roll s A) = roll s (absSq A) := rfl

open Classical in
/-- the nonlinear operator in terms of spectral multipliers -/
theorem nonlinear_eq (p : Params n) (A : Fin n → ℂ) : nonlinear p A =
    if p.disableSS then fun j => 1 * I * p.gamma * applySpec p.R (absSq A) j
    else fun j => 1 * I * p.gamma * applySpec p.R (absSq A) j - ((p.gamma / p.w0 : ℝ) : ℂ) *
      (applySpec p.R (applySpec (fun k => -1 * I * p.omegas k) (absSq A)) j +
        if ‖A j‖ > 10 ^ (-15 : ℤ) then
          applySpec (fun k => -1 * I * p.omegas k) A j * applySpec p.R (absSq A) j / (10 ^ (-20 : ℤ) + A j) else 0) := by
  rfl

theorem nonlinear_gamma_zero {p : Params n} (h : p.gamma = 0) (A : Fin n → ℂ) : nonlinear p A = fun _ => 0 := by
  rw [nonlinear_eq, h]
  split_ifs <;> funext j <;> simp

theorem nonlinear_phase {p : Params n} (h : p.disableSS = true) {u : ℂ} (hu : ‖u‖ = 1) (A : Fin n → ℂ) :
    nonlinear p (fun j => u * A j) = nonlinear p A := by
  rw [nonlinear_eq, nonlinear_eq, if_pos h, if_pos h, absSq_smul hu]

theorem nonlinear_roll (p : Params n) (s : ℤ) (A : Fin n → ℂ) : nonlinear p (roll s A) = roll s (nonlinear p A) := by
  rw [nonlinear_eq, nonlinear_eq]
  by_cases h : p.disableSS = true
  · rw [if_pos h, if_pos h, absSq_roll, applySpec_roll]
    rfl
  · rw [if_neg h, if_neg h, absSq_roll, applySpec_roll, applySpec_roll, applySpec_roll, applySpec_roll]
    rfl

/-- a map of fields compatible with everything the integrator does to fields -/
structure Sym (p : Params n) (T : (Fin n → ℂ) → Fin n → ℂ) : Prop where
  spec : ∀ E A, T (applySpec E A) = applySpec E (T A)
  lin : ∀ (a b : ℂ) (x y : Fin n → ℂ), T (fun j => a * x j + b * y j) = fun j => a * T x j + b * T y j
  nl : ∀ (h : ℂ) A, T (fun j => h * nonlinear p A j * A j) = fun j => h * nonlinear p (T A) j * T A j
  kick : ∀ (h : ℂ) A, T (fun j => exp (h * nonlinear p A j) * A j) = fun j => exp (h * nonlinear p (T A) j) * T A j
  norm : ∀ A, norm2 (T A) = norm2 A

theorem sym_phase {p : Params n} (h : p.disableSS = true) {u : ℂ} (hu : ‖u‖ = 1) : Sym p fun A j => u * A j where
  spec E A := (applySpec_smul E A u).symm
  lin a b x y := by funext j; ring
  nl h' A := by funext j; rw [nonlinear_phase h hu]; ring
  kick h' A := by funext j; rw [nonlinear_phase h hu]; ring
  norm A := by unfold norm2; simp only [norm_mul, hu, one_mul]

theorem sym_roll (p : Params n) (s : ℤ) : Sym p (roll s) where
  spec E A := (applySpec_roll E A s).symm
  lin _ _ _ _ := rfl
  nl h A := by rw [nonlinear_roll]; rfl
  kick h A := by rw [nonlinear_roll]; rfl
  norm A := by
    unfold norm2
    congr 1
    exact sum_roll s fun j => ‖A j‖ ^ 2

variable {p : Params n} {T : (Fin n → ℂ) → Fin n → ℂ}

theorem Sym.add2 (hT : Sym p T) (x y : Fin n → ℂ) (b : ℂ) : T (fun j => x j + y j / b) = fun j => T x j + T y j / b := by
  have := hT.lin 1 (1 / b) x y
  simp only [one_mul, one_div_mul_eq_div] at this
  exact this

theorem Sym.sub (hT : Sym p T) (x y : Fin n → ℂ) : T (fun j => x j - y j) = fun j => T x j - T y j := by
  have := hT.lin 1 (-1) x y
  simp only [one_mul, neg_one_mul, ← sub_eq_add_neg] at this
  exact this

theorem Sym.sub2 (hT : Sym p T) (a b : ℂ) (x y : Fin n → ℂ) : T (fun j => a * x j - b * y j) = fun j => a * T x j - b * T y j := by
  have := hT.lin a (-b) x y
  simp only [neg_mul, ← sub_eq_add_neg] at this
  exact this

theorem Sym.rk4ip (hT : Sym p T) (E A : Fin n → ℂ) (h dir : ℝ) : T (rk4ipWith p E A h dir) = rk4ipWith p E (T A) h dir := by
  have h2 := fun x y => hT.add2 x y 1
  simp only [div_one] at h2
  let N : (Fin n → ℂ) → Fin n → ℂ := fun u j => ((h * dir : ℝ) : ℂ) * nonlinear p u j * u j
  have hN : ∀ u, T (N u) = N (T u) := fun u => hT.nl _ u
  let K1 : (Fin n → ℂ) → Fin n → ℂ := fun A => applySpec E (N A)
  have hK1 : ∀ u, T (K1 u) = K1 (T u) := fun u => by simp only [K1, hT.spec, hN]
  let K2 : (Fin n → ℂ) → Fin n → ℂ := fun A => N fun j => applySpec E A j + K1 A j / 2
  have hK2 : ∀ u, T (K2 u) = K2 (T u) := fun u => by simp only [K2, hN, hT.add2, hT.spec, hK1]
  let K3 : (Fin n → ℂ) → Fin n → ℂ := fun A => N fun j => applySpec E A j + K2 A j / 2
  have hK3 : ∀ u, T (K3 u) = K3 (T u) := fun u => by simp only [K3, hN, hT.add2, hT.spec, hK2]
  let K4 : (Fin n → ℂ) → Fin n → ℂ := fun A => N (applySpec E fun j => applySpec E A j + K3 A j)
  have hK4 : ∀ u, T (K4 u) = K4 (T u) := fun u => by simp only [K4, hN, hT.spec, h2, hK3]
  have e : ∀ A, rk4ipWith p E A h dir = fun j => applySpec E (fun j => applySpec E A j + K1 A j / 6 + K2 A j / 3 + K3 A j / 3) j
      + K4 A j / 6 := fun A => rfl
  rw [e, e, hT.add2, hT.spec, hT.add2, hT.add2, hT.add2, hT.spec, hK1, hK2, hK3, hK4]

theorem Sym.adv (hT : Sym p T) (dir h : ℝ) (A : Fin n → ℂ) : T (Spec.adv p dir h A) = Spec.adv p dir h (T A) := by
  unfold Spec.adv
  cases p.method with
  | rk4ip => exact hT.rk4ip _ _ _ _
  | ssfm =>
    simp only
    split_ifs with hd
    · unfold PyNLO.Ssfm.kick
      rw [hT.kick, hT.spec]
    · unfold PyNLO.Ssfm.kick
      rw [hT.spec, hT.kick]

theorem Sym.localErr (hT : Sym p T) (x y : Fin n → ℂ) : localErr (T x) (T y) = localErr x y := by
  unfold PyNLO.Ssfm.localErr
  rw [← hT.sub, hT.norm, hT.norm]

theorem Sym.richardson (hT : Sym p T) (eta : ℝ) (x y : Fin n → ℂ) : T (richardson eta x y) = richardson eta (T x) (T y) := by
  unfold PyNLO.Ssfm.richardson
  split_ifs
  · rw [hT.sub2]
  · rw [hT.sub2]
  · rw [hT.sub2]

theorem Sym.body (hT : Sym p T) (c : Cfg) (eta dir : ℝ) (s : Spec.St n) :
    Spec.body c eta (Spec.adv p dir) ⟨T s.A, s.iter, s.ctrl⟩ =
      ⟨T (Spec.body c eta (Spec.adv p dir) s).A, (Spec.body c eta (Spec.adv p dir) s).iter, (Spec.body c eta (Spec.adv p dir) s).ctrl⟩ := by
  unfold Spec.body Spec.stErr
  simp only [← hT.adv, hT.localErr]
  rcases ctrlBody c s.ctrl (.val (PyNLO.Ssfm.localErr (Spec.adv p dir s.ctrl.dz (Spec.adv p dir s.ctrl.dz s.A))
    (Spec.adv p dir (2 * s.ctrl.dz) s.A))) with ⟨ok, ctrl⟩
  cases ok
  · rfl
  · simp only [hT.richardson]

theorem Sym.run (hT : Sym p T) (c : Cfg) (eta dir : ℝ) (s : Spec.St n) (k : ℕ) :
    Spec.run c eta (Spec.adv p dir) ⟨T s.A, s.iter, s.ctrl⟩ k =
      ⟨T (Spec.run c eta (Spec.adv p dir) s k).A, (Spec.run c eta (Spec.adv p dir) s k).iter,
        (Spec.run c eta (Spec.adv p dir) s k).ctrl⟩ := by
  induction k with
  | zero => rfl
  | succ k ih =>
    by_cases h : (Spec.run c eta (Spec.adv p dir) s k).ctrl.dist > 0
    · rw [Spec.run_succ_pos h, Spec.run_succ_pos (by rw [ih]; exact h), ih, hT.body]
    · rw [Spec.run_succ_neg h, Spec.run_succ_neg (by rw [ih]; exact h), ih]

/-- equivariance of the whole adaptive integration -/
theorem Sym.integrate (hT : Sym p T) (hp : p.Ok) (deltaZ dir : ℝ) {f g : Field n} (hdz : 0 < f.dz) (hA : g.A = T f.A)
    (hz : g.dz = f.dz) (hi : g.iter = f.iter) : ∃ f' g', integrate p deltaZ dir f = some f' ∧
      integrate p deltaZ dir g = some g' ∧ g'.A = T f'.A ∧ g'.dz = f'.dz ∧ g'.iter = f'.iter := by
  obtain ⟨f', ef, k, h1, h2, h3, h4⟩ := integrate_spec hp deltaZ dir hdz
  obtain ⟨g', eg, hg⟩ := integrate_spec hp deltaZ dir (f := g) (by rw [hz]; exact hdz)
  rw [hA, hz, hi] at hg
  have hr : Spec.Returns p.cfg p.eta (Spec.adv p dir) deltaZ (T f.A) f.iter f.dz (T f'.A) f'.iter f'.dz := by
    have := hT.run p.cfg p.eta dir ⟨f.A, f.iter, ctrlStart f.dz deltaZ⟩ k
    refine ⟨k, ?_, ?_, ?_, ?_⟩
    all_goals simp only at this; rw [this]; simp only
    · exact h1
    · rw [h2]
    · exact h3
    · exact h4
  obtain ⟨q1, q2, q3⟩ := Spec.Returns.unique hg hr
  exact ⟨f', g', ef, eg, q1, q3, q2⟩

end PyNLO.Ssfm
