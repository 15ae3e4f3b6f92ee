import Verif.Lemmas.SsfmSym

/-! # Integrations that differ in the units of length and time -/

namespace PyNLO.Ssfm

open Complex

variable {n : ℕ}

/-- the parameters `q` are the parameters `p` with lengths multiplied by `l` and frequencies by `s` -/
structure Alike (l s : ℝ) (p q : Params n) : Prop where
  betas : ∀ k, q.betas k = p.betas k / l
  alpha : ∀ k, q.alpha k = p.alpha k / l
  omegas : ∀ k, q.omegas k = s * p.omegas k
  w0 : q.w0 = s * p.w0
  R : q.R = p.R
  gamma : q.gamma = p.gamma / l
  ss : q.disableSS = p.disableSS
  method : q.method = p.method
  eta : q.eta = p.eta
  localError : q.localError = p.localError
  dzMin : q.dzMin = l * p.dzMin

section
variable {l s : ℝ} {p q : Params n}

theorem Alike.deriv (h : Alike l s p q) (x : Fin n → ℂ) : deriv q x = fun j => (s : ℂ) * deriv p x j := by
  unfold PyNLO.Ssfm.deriv
  rw [← fft_smul]
  congr 1
  funext k
  rw [h.omegas]
  push_cast
  ring

theorem Alike.nonlinear (h : Alike l s p q) (hs : s ≠ 0) (A : Fin n → ℂ) (j : Fin n) : nonlinear q A j = nonlinear p A j / l := by
  unfold PyNLO.Ssfm.nonlinear
  simp only [h.ss, h.R, h.gamma, h.deriv, h.w0]
  have hs' : (s : ℂ) ≠ 0 := by exact_mod_cast hs
  split_ifs with h1
  · push_cast; ring
  simp only [ifft_smul]
  rw [show (fun k => p.R k * ((s : ℂ) * ifft (PyNLO.Ssfm.deriv p (ifft (absSq A))) k)) =
    fun k => (s : ℂ) * (p.R k * ifft (PyNLO.Ssfm.deriv p (ifft (absSq A))) k) from funext fun k => by ring]
  simp only [fft_smul]
  generalize fft (fun k => p.R k * ifft (PyNLO.Ssfm.deriv p (ifft (absSq A))) k) j = a
  generalize fft (fun k => p.R k * ifft (absSq A) k) j = b
  generalize PyNLO.Ssfm.deriv p (ifft A) j = d
  generalize ((10 : ℂ) ^ (-20 : ℤ) + A j) = e
  rw [show ((p.gamma / l / (s * p.w0) : ℝ) : ℂ) = ((p.gamma / p.w0 : ℝ) : ℂ) / l / s by push_cast; rw [div_div, div_div, div_div]; congr 1; ring]
  rw [show (if ‖A j‖ > 10 ^ (-15 : ℤ) then (s : ℂ) * d * b / e else 0) = s * if ‖A j‖ > 10 ^ (-15 : ℤ) then d * b / e else 0 by split_ifs <;> ring]
  generalize (if ‖A j‖ > 10 ^ (-15 : ℤ) then d * b / e else 0) = x
  generalize ((p.gamma / p.w0 : ℝ) : ℂ) = y
  push_cast
  rw [show y / l / s * (s * a + s * x) = y / l * (a + x) * (s / s) by ring, div_self hs']
  ring

theorem Alike.push (h : Alike l s p q) (hl : l ≠ 0) (hs : s ≠ 0) (d x : ℝ) (A : Fin n → ℂ) (j : Fin n) :
    ((l * x * d : ℝ) : ℂ) * PyNLO.Ssfm.nonlinear q A j = ((x * d : ℝ) : ℂ) * PyNLO.Ssfm.nonlinear p A j := by
  rw [h.nonlinear hs]
  have hl' : (l : ℂ) ≠ 0 := by exact_mod_cast hl
  push_cast
  field_simp

theorem Alike.halfStep (h : Alike l s p q) (hl : l ≠ 0) (d x : ℝ) : Spec.halfStep q.betas q.alpha (l * x) d = Spec.halfStep p.betas p.alpha x d := by
  funext k
  unfold Spec.halfStep
  congr 1
  rw [h.betas, h.alpha]
  have hl' : (l : ℂ) ≠ 0 := by exact_mod_cast hl
  push_cast
  field_simp

theorem Alike.adv (h : Alike l s p q) (hl : l ≠ 0) (hs : s ≠ 0) (d x : ℝ) (A : Fin n → ℂ) : Spec.adv q d (l * x) A = Spec.adv p d x A := by
  have hk : ∀ A, kick q A (l * x) d = kick p A x d := fun A => by
    funext j
    unfold kick
    rw [h.push hl hs]
  unfold Spec.adv
  rw [h.method, h.halfStep hl]
  rcases p.method with _ | _
  · simp only [hk]
  · simp only
    unfold rk4ipWith
    simp only [h.push hl hs]

/-- state of the step control in the other unit of length -/
def Ctrl.scale (l : ℝ) (c : Ctrl) : Ctrl := ⟨l * c.dz, l * c.dist, c.ret.map (l * ·)⟩

theorem judge_scale {c : Cfg} {l : ℝ} (hl : 0 < l) (dz : ℝ) (e : Err) :
    judge { c with dzMin := l * c.dzMin } (l * dz) e = ((judge c dz e).1, l * (judge c dz e).2) := by
  have k : ∀ x, (l * x ≥ l * c.dzMin) = (x ≥ c.dzMin) := fun x => propext (mul_le_mul_iff_right₀ hl)
  unfold judge
  simp only [mul_div_assoc, k]
  split_ifs <;> simp only [mul_assoc]

theorem afterAccept_scale {c : Cfg} {l : ℝ} (hl : 0 < l) (s : Ctrl) (dz : ℝ) :
    afterAccept { c with dzMin := l * c.dzMin } (s.scale l) (l * dz) = (afterAccept c s dz).scale l := by
  unfold afterAccept Ctrl.scale
  simp only
  rw [show l * s.dist - 2 * (l * s.dz) = l * (s.dist - 2 * s.dz) by ring, show 2 * (l * dz) = l * (2 * dz) by ring, show 2 * (l * c.dzMin) = l * (2 * c.dzMin) by ring]
  simp only [gt_iff_lt, mul_lt_mul_iff_right₀ hl]
  split_ifs
  · simp only [Option.map_some, mul_div_assoc]
  · rfl

theorem ctrlBody_scale {c : Cfg} {l : ℝ} (hl : 0 < l) (s : Ctrl) (e : Err) :
    ctrlBody { c with dzMin := l * c.dzMin } (s.scale l) e = ((ctrlBody c s e).1, (ctrlBody c s e).2.scale l) := by
  unfold ctrlBody
  have h := judge_scale (c := c) hl s.dz e
  rw [show (s.scale l).dz = l * s.dz from rfl, h]
  rcases judge c s.dz e with ⟨ok, x⟩
  cases ok
  · rfl
  · simp only [afterAccept_scale hl]

theorem ctrlStart_scale {l : ℝ} (hl : 0 < l) (dz deltaZ : ℝ) : ctrlStart (l * dz) (l * deltaZ) = (ctrlStart dz deltaZ).scale l := by
  unfold ctrlStart Ctrl.scale
  simp only [Option.map_none]
  rw [show 2 * (l * dz) = l * (2 * dz) by ring]
  simp only [gt_iff_lt, mul_lt_mul_iff_right₀ hl]
  split_ifs
  · rw [mul_div_assoc]
  · rfl

theorem ctrlExit_scale (l : ℝ) (s : Ctrl) : ctrlExit (s.scale l) = l * ctrlExit s := by
  unfold ctrlExit Ctrl.scale
  rcases s.ret with _ | x <;> rfl

theorem Alike.cfg (h : Alike l s p q) : q.cfg = { p.cfg with dzMin := l * p.cfg.dzMin } := by
  unfold Params.cfg
  rw [h.localError, h.dzMin, h.eta]

theorem Alike.body (h : Alike l s p q) (hl : 0 < l) (hs : s ≠ 0) (d : ℝ) (t : Spec.St n) :
    Spec.body q.cfg q.eta (Spec.adv q d) ⟨t.A, t.iter, t.ctrl.scale l⟩ =
      ⟨(Spec.body p.cfg p.eta (Spec.adv p d) t).A, (Spec.body p.cfg p.eta (Spec.adv p d) t).iter, (Spec.body p.cfg p.eta (Spec.adv p d) t).ctrl.scale l⟩ := by
  have e1 : (t.ctrl.scale l).dz = l * t.ctrl.dz := rfl
  unfold Spec.body Spec.stErr
  simp only [e1, show 2 * (l * t.ctrl.dz) = l * (2 * t.ctrl.dz) by ring, h.adv hl.ne' hs, h.cfg, ctrlBody_scale hl, h.eta]
  rcases ctrlBody p.cfg t.ctrl (.val (localErr (Spec.adv p d t.ctrl.dz (Spec.adv p d t.ctrl.dz t.A)) (Spec.adv p d (2 * t.ctrl.dz) t.A))) with ⟨ok, ctrl⟩
  cases ok <;> rfl

theorem Alike.run (h : Alike l s p q) (hl : 0 < l) (hs : s ≠ 0) (d : ℝ) (t : Spec.St n) (k : ℕ) :
    Spec.run q.cfg q.eta (Spec.adv q d) ⟨t.A, t.iter, t.ctrl.scale l⟩ k =
      ⟨(Spec.run p.cfg p.eta (Spec.adv p d) t k).A, (Spec.run p.cfg p.eta (Spec.adv p d) t k).iter, (Spec.run p.cfg p.eta (Spec.adv p d) t k).ctrl.scale l⟩ := by
  induction k with
  | zero => rfl
  | succ k ih =>
    have e : ∀ c : Ctrl, (c.scale l).dist > 0 ↔ c.dist > 0 := fun c => mul_pos_iff_of_pos_left hl
    by_cases hd : (Spec.run p.cfg p.eta (Spec.adv p d) t k).ctrl.dist > 0
    · rw [Spec.run_succ_pos hd, Spec.run_succ_pos (by rw [ih]; exact (e _).2 hd), ih, h.body hl hs]
    · rw [Spec.run_succ_neg hd, Spec.run_succ_neg (by rw [ih]; exact fun hc => hd ((e _).1 hc)), ih]

/-- the whole adaptive integration in other units: the same fields, the same number of steps, the stored step in the other unit -/
theorem Alike.integrate (h : Alike l s p q) (hl : 0 < l) (hs : s ≠ 0) (hp : p.Ok) (d deltaZ : ℝ) {f g : Field n} (hdz : 0 < f.dz) (hA : g.A = f.A)
    (hz : g.dz = l * f.dz) (hi : g.iter = f.iter) : ∃ f' g', integrate p deltaZ d f = some f' ∧
      integrate q (l * deltaZ) d g = some g' ∧ g'.A = f'.A ∧ g'.dz = l * f'.dz ∧ g'.iter = f'.iter := by
  have hq : q.Ok := ⟨by rw [h.dzMin]; exact mul_pos hl hp.1, by rw [h.eta]; exact hp.2⟩
  obtain ⟨f', ef, k, h1, h2, h3, h4⟩ := integrate_spec hp deltaZ d hdz
  obtain ⟨g', eg, hg⟩ := integrate_spec hq (l * deltaZ) d (f := g) (by rw [hz]; exact mul_pos hl hdz)
  rw [hA, hz, hi] at hg
  have hr : Spec.Returns q.cfg q.eta (Spec.adv q d) (l * deltaZ) f.A f.iter (l * f.dz) f'.A f'.iter (l * f'.dz) := by
    have := h.run hl hs d ⟨f.A, f.iter, ctrlStart f.dz deltaZ⟩ k
    refine ⟨k, ?_, ?_, ?_, ?_⟩
    all_goals simp only at this; rw [ctrlStart_scale hl, this]; simp only
    · exact fun hc => h1 ((mul_pos_iff_of_pos_left hl).1 hc)
    · exact h2
    · exact h3
    · rw [ctrlExit_scale, h4]
  obtain ⟨q1, q2, q3⟩ := Spec.Returns.unique hg hr
  exact ⟨f', g', ef, eg, q1, q3, q2⟩

end

end PyNLO.Ssfm
