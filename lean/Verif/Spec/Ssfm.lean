import Verif.Model.Ssfm

/-!
# Split-step integration without any cached operator

The adaptive loop over an arbitrary field propagator `adv h A`, and the propagators that compute the
dispersion operator `exp(dir·h/2·(iβ − α/2))` from the current parameters at every step.
-/

namespace PyNLO.Ssfm.Spec

open Complex

variable {n : ℕ}

/-- dispersion operator for half a step `h` -/
noncomputable def halfStep (β α : Fin n → ℝ) (h dir : ℝ) : Fin n → ℂ := fun k =>
  exp ((dir : ℂ) * (h / 2 : ℝ) * (I * (β k : ℂ) - (α k : ℂ) / 2))

/-- one step of length `h`, computed from the current parameters only -/
noncomputable def adv (p : Params n) (dir h : ℝ) (A : Fin n → ℂ) : Fin n → ℂ :=
  match p.method with
  | .rk4ip => rk4ipWith p (halfStep p.betas p.alpha h dir) A h dir
  | .ssfm => by
    classical
    exact if dir = 1 then kick p (applySpec (halfStep p.betas p.alpha h dir) A) h dir
    else applySpec (halfStep p.betas p.alpha h dir) (kick p A h dir)

/-- field, number of accepted steps, step control -/
structure St (n : ℕ) where
  A : Fin n → ℂ
  iter : ℕ
  ctrl : Ctrl

/-- local error of a double step against two single steps -/
noncomputable def stErr (adv : ℝ → (Fin n → ℂ) → Fin n → ℂ) (s : St n) : ℝ :=
  localErr (adv s.ctrl.dz (adv s.ctrl.dz s.A)) (adv (2 * s.ctrl.dz) s.A)

/-- one iteration -/
noncomputable def body (c : Cfg) (eta : ℝ) (adv : ℝ → (Fin n → ℂ) → Fin n → ℂ) (s : St n) : St n :=
  match ctrlBody c s.ctrl (.val (stErr adv s)) with
  | (false, ctrl) => ⟨s.A, s.iter, ctrl⟩
  | (true, ctrl) => ⟨richardson eta (adv s.ctrl.dz (adv s.ctrl.dz s.A)) (adv (2 * s.ctrl.dz) s.A), s.iter + 1, ctrl⟩

open Classical in
/-- `k` iterations -/
noncomputable def run (c : Cfg) (eta : ℝ) (adv : ℝ → (Fin n → ℂ) → Fin n → ℂ) (s : St n) : ℕ → St n
  | 0 => s
  | k + 1 => if (run c eta adv s k).ctrl.dist > 0 then body c eta adv (run c eta adv s k) else run c eta adv s k

/-- integrating over `deltaZ` from field `A`, counter `iter`, stored step `dz` returns `A'`, `iter'`, `dz'` -/
def Returns (c : Cfg) (eta : ℝ) (adv : ℝ → (Fin n → ℂ) → Fin n → ℂ) (deltaZ : ℝ) (A : Fin n → ℂ) (iter : ℕ) (dz : ℝ)
    (A' : Fin n → ℂ) (iter' : ℕ) (dz' : ℝ) : Prop :=
  ∃ k, ¬ (run c eta adv ⟨A, iter, ctrlStart dz deltaZ⟩ k).ctrl.dist > 0 ∧
    (run c eta adv ⟨A, iter, ctrlStart dz deltaZ⟩ k).A = A' ∧
    (run c eta adv ⟨A, iter, ctrlStart dz deltaZ⟩ k).iter = iter' ∧
    ctrlExit (run c eta adv ⟨A, iter, ctrlStart dz deltaZ⟩ k).ctrl = dz'

end PyNLO.Ssfm.Spec
