import Verif.Lemmas.FftT
import Verif.Model.Pulse

/-! # Behaviour of the pulse model on configured pulses -/

namespace PyNLO

open Complex

namespace Pulse

/-- The pulse has its grid set (a positive number of points) and holds the field `a`. -/
structure Holds (p : Pulse) {n : ℕ} (a : Fin n → ℂ) : Prop where
  ready : p.ready = true
  npts : p.n = n
  pos : 0 < n
  field : p.aw = some ⟨n, a⟩

variable {p : Pulse} {n : ℕ} {a : Fin n → ℂ}

theorem Holds.T_eq (h : Holds p a) : p.T = .ok ⟨n, fun i => ((i : ℕ) - (n : ℝ) / 2) * (p.tw / n)⟩ := by
  obtain ⟨h1, rfl, h3, h4⟩ := h
  have : (p.n : ℝ) ≠ 0 := by positivity
  simp only [T, h1, Bool.true_eq_false, if_false]
  congr 2
  funext i
  field_simp
  ring

theorem Holds.V_eq (h : Holds p a) :
    p.V = .ok ⟨n, fun i => 2 * Real.pi * ((i : ℕ) - (n : ℝ) / 2) / p.tw⟩ := by
  obtain ⟨h1, rfl, h3, h4⟩ := h
  have : (p.n : ℝ) ≠ 0 := by positivity
  simp only [V, h1, Bool.true_eq_false, if_false]
  congr 2
  funext i
  rw [mul_div_cancel₀ _ this]
  congr 1
  ring

theorem Holds.W_eq (h : Holds p a) :
    p.W = .ok ⟨n, fun i => 2 * Real.pi * ((i : ℕ) - (n : ℝ) / 2) / p.tw + 2 * Real.pi * p.cf⟩ := by
  simp only [W, h.ready, Bool.true_eq_false, if_false, h.V_eq]
  rfl

theorem Holds.dT_eq (h : Holds p a) : p.dT = .ok (p.tw / n) := by
  simp only [dT, h.ready, Bool.true_eq_false, if_false, h.npts]

theorem Holds.AW_eq (h : Holds p a) : p.AW = .ok ⟨n, a⟩ := by
  simp only [AW, h.field]

theorem Holds.AT_eq (h : Holds p a) : p.AT = .ok ⟨n, ifftT a⟩ := by
  have := h.pos
  simp only [AT, h.field, IFFT_t]
  rw [if_neg (by omega)]

theorem setAW_of_ready {b : Fin n → ℂ} (hr : p.ready = true)
    (hlen : (p.aw.getD (Vec.zeros p.n)).len = n) :
    setAW ⟨n, b⟩ p = (.ok (), { p with aw := some ⟨n, b⟩ }) := by
  have : (p.aw.getD (Vec.zeros p.n)).assign ⟨n, b⟩ = .ok ⟨n, b⟩ := by
    simp [Vec.assign, hlen]
  simp only [setAW, hr, Bool.true_eq_false, if_false, this]

theorem Holds.setAW_eq (h : Holds p a) (b : Fin n → ℂ) :
    setAW ⟨n, b⟩ p = (.ok (), { p with aw := some ⟨n, b⟩ }) :=
  setAW_of_ready h.ready (by simp [h.field])

theorem setAW_fresh (hr : p.ready = true) (ha : p.aw = none) (b : Fin p.n → ℂ) :
    setAW ⟨p.n, b⟩ p = (.ok (), { p with aw := some ⟨p.n, b⟩ }) :=
  setAW_of_ready hr (by simp [ha, Vec.zeros])

theorem FFT_t_mk (hn : 0 < n) (b : Fin n → ℂ) : FFT_t ⟨n, b⟩ = .ok ⟨n, fftT b⟩ := by
  simp only [FFT_t]; rw [if_neg (by omega)]

theorem setAT_eq' {b : Fin n → ℂ} (hn : 0 < n) {q : Pulse × Except PyErr Unit}
    (h : setAW ⟨n, fftT b⟩ p = (q.2, q.1)) : setAT ⟨n, b⟩ p = (q.2, q.1) := by
  unfold setAT
  rw [FFT_t_mk hn]
  exact h

theorem Holds.setAT_eq (h : Holds p a) (b : Fin n → ℂ) :
    setAT ⟨n, b⟩ p = (.ok (), { p with aw := some ⟨n, fftT b⟩ }) :=
  setAT_eq' (q := ({ p with aw := some ⟨n, fftT b⟩ }, .ok ())) h.pos (h.setAW_eq _)

theorem setAT_fresh (hn : 0 < p.n) (hr : p.ready = true) (ha : p.aw = none) (b : Fin p.n → ℂ) :
    setAT ⟨p.n, b⟩ p = (.ok (), { p with aw := some ⟨p.n, fftT b⟩ }) :=
  setAT_eq' (q := ({ p with aw := some ⟨p.n, fftT b⟩ }, .ok ())) hn (setAW_fresh hr ha _)

theorem Holds.update (h : Holds p a) (b : Fin n → ℂ) : Holds { p with aw := some ⟨n, b⟩ } b :=
  ⟨h.ready, h.npts, h.pos, rfl⟩

end Pulse

end PyNLO
