import Verif.Lemmas.Pulse
import Verif.Model.FiberWorld
import Mathlib.Algebra.Polynomial.Derivative
import Mathlib.Algebra.Polynomial.Eval.Degree
import Mathlib.Tactic.Linarith
import Mathlib.Tactic.FieldSimp
import Mathlib.Tactic.Ring
import Mathlib.Tactic.NormNum

/-! # C27–C34, C83–C85: fibres -/

namespace PyNLO

open Fiber Polynomial

/-! ## grids without a field -/

theorem V_of_ready {p : Pulse} (hr : p.ready = true) (hn : 0 < p.n) :
    p.V_THz = .ok ⟨p.n, fun i => 2 * Real.pi * ((i : ℕ) - (p.n : ℝ) / 2) / p.tw⟩ := by
  have : (p.n : ℝ) ≠ 0 := by positivity
  unfold Pulse.V_THz
  simp only [Pulse.V, hr, Bool.true_eq_false, if_false]
  congr 2
  funext i
  rw [mul_div_cancel₀ _ this]
  congr 1
  ring

theorem W_of_ready {p : Pulse} (hr : p.ready = true) (hn : 0 < p.n) :
    p.W_THz = .ok ⟨p.n, fun i => 2 * Real.pi * ((i : ℕ) - (p.n : ℝ) / 2) / p.tw + 2 * Real.pi * p.cf⟩ := by
  have h := V_of_ready hr hn
  unfold Pulse.V_THz at h
  simp only [Pulse.W_THz, Pulse.W, hr, Bool.true_eq_false, if_false, h]
  rfl

/-- discrete slope of a sequence at index `i` -/
noncomputable def gradAt {n : ℕ} (hn : 2 ≤ n) (y : Fin n → ℝ) (i : Fin n) : ℝ :=
  if (i : ℕ) = 0 then y ⟨1, by omega⟩ - y ⟨0, by omega⟩
  else if h1 : (i : ℕ) + 1 = n then y i - y ⟨i - 1, by omega⟩
  else (y ⟨i + 1, by omega⟩ - y ⟨i - 1, by omega⟩) / 2

theorem npGradient_mk {n : ℕ} (hn : 2 ≤ n) (y : Fin n → ℝ) : npGradient ⟨n, y⟩ = .ok ⟨n, gradAt hn y⟩ := by
  unfold npGradient
  rw [dif_pos (show 2 ≤ (⟨n, y⟩ : Vec ℝ).len from hn)]
  rfl

theorem gradAt_grid {n : ℕ} (hn : 2 ≤ n) (tw c d : ℝ) (i : Fin n) :
    gradAt hn (fun i => 2 * Real.pi * ((i : ℕ) - c) / tw + d) i = 2 * Real.pi / tw := by
  unfold gradAt
  split_ifs with h1 h2
  · push_cast; ring
  · have : ((i : ℕ) : ℝ) = (((i : ℕ) - 1 : ℕ) : ℝ) + 1 := by
      have : (i : ℕ) = (i : ℕ) - 1 + 1 := by omega
      exact_mod_cast this
    simp only [this]; ring
  · have : ((i : ℕ) : ℝ) = (((i : ℕ) - 1 : ℕ) : ℝ) + 1 := by
      have : (i : ℕ) = (i : ℕ) - 1 + 1 := by omega
      exact_mod_cast this
    push_cast
    rw [this]; ring

theorem reference_eq {p : Pulse} (hr : p.ready = true) (hn : 2 ≤ p.n) {c : Fin p.n}
    (hc : argmin (fun i : Fin p.n => |2 * Real.pi * ((i : ℕ) - (p.n : ℝ) / 2) / p.tw|) = .ok c) (B : Fin p.n → ℝ) :
    reference p ⟨p.n, B⟩ = .ok ⟨p.n, fun i =>
      B i - gradAt hn B c / (2 * Real.pi / p.tw) * (2 * Real.pi * ((i : ℕ) - (p.n : ℝ) / 2) / p.tw) - B c⟩ := by
  unfold reference
  rw [V_of_ready hr (by omega), W_of_ready hr (by omega)]
  have hi : ∀ y : Fin p.n → ℝ, (⟨p.n, y⟩ : Vec ℝ).item c = .ok (y c) := fun y => Vec.item_of_lt ⟨p.n, y⟩ c.isLt
  simp only [except_bind_ok, hc, npGradient_mk hn, Vec.zip_mk, hi, gradAt_grid]

theorem argmin_even {p : Pulse} {h : ℕ} (hn : p.n = 2 * h) (hh : 0 < h) (htw : p.tw ≠ 0) :
    argmin (fun i : Fin p.n => |2 * Real.pi * ((i : ℕ) - (p.n : ℝ) / 2) / p.tw|) = .ok ⟨h, by omega⟩ := by
  apply argmin_eq_of_unique
  intro j hj
  have h0 : (p.n : ℝ) / 2 = h := by rw [hn]; push_cast; ring
  simp only [h0, sub_self, mul_zero, zero_div, abs_zero]
  apply abs_pos.mpr
  apply div_ne_zero _ htw
  apply mul_ne_zero (by positivity)
  intro h1
  apply hj
  ext
  have : ((j : ℕ) : ℝ) = h := by linarith
  exact_mod_cast this

/-! ## C27 -/

/-- the property of being referenced to the pulse frame, for an array on a grid of `2h` points: zero at the
centre bin, and equal neighbours (zero discrete slope); on two points the only neighbour is zero too -/
structure Spec.Referenced (h : ℕ) (v : Vec ℝ) : Prop where
  len : v.len = 2 * h
  center : ∀ hc : h < v.len, v.val ⟨h, hc⟩ = 0
  slope : ∀ hc : h + 1 < v.len, v.val ⟨h + 1, hc⟩ = v.val ⟨h - 1, by omega⟩
  two : h = 1 → ∀ hc : 0 < v.len, v.val ⟨0, hc⟩ = 0

theorem reference_spec {p : Pulse} (hr : p.ready = true) {h : ℕ} (hn : p.n = 2 * h) (hh : 0 < h) (htw : p.tw ≠ 0)
    {B : Vec ℝ} (hB : B.len = p.n) {v : Vec ℝ} (hv : reference p B = .ok v) : Spec.Referenced h v := by
  obtain ⟨m, B⟩ := B
  dsimp only at hB
  subst hB
  rw [reference_eq hr (by omega) (argmin_even hn hh htw)] at hv
  have hv := Except.ok.inj hv
  subst hv
  have h0 : (p.n : ℝ) / 2 = h := by rw [hn]; push_cast; ring
  have hpi : (2 * Real.pi / p.tw) ≠ 0 := by
    have := Real.pi_ne_zero
    positivity
  have key : ∀ g x : ℝ, g / (2 * Real.pi / p.tw) * (2 * Real.pi * x / p.tw) = g * x := by
    intro g x
    have : 2 * Real.pi * x / p.tw = (2 * Real.pi / p.tw) * x := by ring
    rw [this, ← mul_assoc, div_mul_cancel₀ _ hpi]
  refine ⟨hn, ?_, ?_, ?_⟩
  · intro hc
    simp only [h0, key]
    ring
  · intro hc
    simp only [h0, key]
    have hc : h + 1 < p.n := hc
    have e : (((h - 1 : ℕ) : ℕ) : ℝ) = h - 1 := by
      rw [Nat.cast_sub (by omega)]; simp
    unfold gradAt
    rw [if_neg (by simp only; omega), dif_neg (by simp only; omega)]
    simp only [e]
    push_cast
    ring
  · intro h1 hc
    subst h1
    simp only [h0, key]
    unfold gradAt
    rw [if_neg (by simp), dif_pos (by simp only; omega)]
    push_cast
    ring

/-- C27: for GVD and n formats on an even grid the result is referenced to the pulse frame, whatever the
coefficients, dispersion function or interpolator. -/
theorem C27_frame (polyfit : PolyFit) (spline : Spline) {s : Specs} {p : Pulse} {z : ℝ} {f f' : Fib} {v : Vec ℝ}
    (hr : p.ready = true) {h : ℕ} (hn : p.n = 2 * h) (hh : 0 < h) (htw : p.tw ≠ 0)
    (hs : s.format = some "GVD" ∨ s.format = some "n")
    (hb : getBetas polyfit spline s p z f = (.ok (.arr v), f')) : Spec.Referenced h v := by
  have lemMap : ∀ {g : ℝ → ℝ} {w : Vec ℝ}, p.W_THz = .ok w → (w.map g).len = p.n := by
    intro g w hw
    rw [W_of_ready hr (by omega)] at hw
    have hw := Except.ok.inj hw
    subst hw
    rfl
  have fin : ∀ x : Except PyErr (Vec ℝ), (∀ B, x = .ok B → B.len = p.n) →
      ((x >>= reference p).map BetaRes.arr) = .ok (.arr v) → Spec.Referenced h v := by
    intro x hx he
    cases x with
    | error e => exact absurd he (by simp [Except.map])
    | ok B =>
      simp only [except_bind_ok] at he
      rcases hv : reference p B with e | v'
      · rw [hv] at he; exact absurd he (by simp [Except.map])
      · rw [hv] at he
        have : v' = v := by simpa [Except.map] using he
        subst this
        exact reference_spec hr hn hh htw (hx B rfl) hv
  unfold getBetas at hb
  rcases hs with hs | hs
  · rw [hs] at hb
    simp only at hb
    rcases hrl : reload "GVD" z f with ⟨r, f1⟩
    rw [hrl] at hb
    cases r with
    | error e => simp at hb
    | ok u =>
      simp only [show ¬ (("GVD" : String) = "D") by decide, if_false, if_true, Prod.mk.injEq] at hb
      apply fin _ _ hb.1
      intro B hB
      unfold rawGVD at hB
      cases h1 : f1.centerWl with
      | none => rw [h1] at hB; simp [attr] at hB
      | some wl =>
        rw [h1] at hB
        simp only [attr, except_bind_ok] at hB
        split_ifs at hB
        cases h2 : f1.betas with
        | none => rw [h2] at hB; simp at hB
        | some b =>
          rw [h2, W_of_ready hr (by omega)] at hB
          simp only [except_bind_ok, Vec.map_mk, Except.ok.injEq] at hB
          subst hB
          rfl
  · rw [hs] at hb
    simp only at hb
    rcases hrl : reload "n" z f with ⟨r, f1⟩
    rw [hrl] at hb
    cases r with
    | error e => simp at hb
    | ok u =>
      simp only [show ¬ (("n" : String) = "D") by decide, show ¬ (("n" : String) = "GVD") by decide, if_false,
        if_true, Prod.mk.injEq] at hb
      apply fin _ _ hb.1
      intro B hB
      unfold rawN at hB
      cases h1 : f1.x with
      | none => rw [h1] at hB; simp [attr] at hB
      | some x =>
        cases h2 : f1.y with
        | none => rw [h1, h2] at hB; simp [attr] at hB
        | some y =>
          rw [h1, h2, W_of_ready hr (by omega)] at hB
          simp only [attr, except_bind_ok] at hB
          rcases hz : Vec.zip (fun y x => y * 2 * Real.pi / (x * 10 ^ (-9 : ℤ))) y x with e | b
          · rw [hz] at hB; simp at hB
          · rw [hz] at hB
            simp only [except_bind_ok] at hB
            rcases hg : spline (vrev (x.map fun x => 2 * Real.pi * 10 ^ (-12 : ℤ) * (3 * 10 ^ 8) / (x * 10 ^ (-9 : ℤ)))) (vrev b) with e | g
            · rw [hg] at hB; simp at hB
            · rw [hg] at hB
              simp only [except_bind_ok, Vec.map_mk, Except.ok.injEq] at hB
              subst hB
              rfl

/-- A generated (GVD) fibre whose dispersion is not z-dependent: `get_betas` succeeds on every grid of at
least two points and differs from the Taylor expansion about the fibre's centre by an affine function of V. -/
theorem getBetas_gvd (polyfit : PolyFit) (spline : Spline) {s : Specs} {p : Pulse} (z : ℝ) {f : Fib} {b : Vec ℝ} {wl : ℝ}
    (hr : p.ready = true) (hn : 2 ≤ p.n) (hs : s.format = some "GVD")
    (hd : f.dispChanges = false) (hb : f.betas = some b) (hwl : f.centerWl = some wl) (hwl0 : wl ≠ 0) :
    ∃ α β : ℝ, getBetas polyfit spline s p z f = (.ok (.arr ⟨p.n, fun k =>
      taylor b (2 * Real.pi * ((k : ℕ) - (p.n : ℝ) / 2) / p.tw + 2 * Real.pi * p.cf - 2 * Real.pi * cNmps / wl) -
        α * (2 * Real.pi * ((k : ℕ) - (p.n : ℝ) / 2) / p.tw) - β⟩), f) := by
  obtain ⟨c, hc⟩ := argmin_ok (fun i : Fin p.n => |2 * Real.pi * ((i : ℕ) - (p.n : ℝ) / 2) / p.tw|) (by omega)
  have hraw : rawGVD f p = .ok ⟨p.n, fun k => taylor b (2 * Real.pi * ((k : ℕ) - (p.n : ℝ) / 2) / p.tw +
      2 * Real.pi * p.cf - 2 * Real.pi * cNmps / wl)⟩ := by
    unfold rawGVD
    rw [hwl, hb, W_of_ready hr (by omega)]
    simp only [attr, except_bind_ok, if_neg hwl0, Vec.map_mk]
  refine ⟨gradAt hn (fun k => taylor b (2 * Real.pi * ((k : ℕ) - (p.n : ℝ) / 2) / p.tw +
      2 * Real.pi * p.cf - 2 * Real.pi * cNmps / wl)) c / (2 * Real.pi / p.tw),
    taylor b (2 * Real.pi * ((c : ℕ) - (p.n : ℝ) / 2) / p.tw + 2 * Real.pi * p.cf - 2 * Real.pi * cNmps / wl), ?_⟩
  · unfold getBetas
    rw [hs]
    simp only [reload, hd, Bool.false_eq_true, if_false, show ¬ (("GVD" : String) = "D") by decide, if_true]
    rw [hraw, except_bind_ok, reference_eq hr hn hc]
    rfl

theorem C27_gvd_returns (polyfit : PolyFit) (spline : Spline) {p : Pulse} (z : ℝ) {length wl gamma gain : ℝ} {b : Vec ℝ}
    {units label : String} (hr : p.ready = true) (hn : 2 ≤ p.n) (hwl : wl ≠ 0) :
    ∃ v, getBetas polyfit spline (genSpecs gain) p z (genFib length wl b gamma gain units label Fib.new) =
      (.ok (.arr v), genFib length wl b gamma gain units label Fib.new) := by
  obtain ⟨α, β, h⟩ := getBetas_gvd polyfit spline (s := genSpecs gain) z
    (f := genFib length wl b gamma gain units label Fib.new) hr hn rfl rfl rfl rfl hwl
  exact ⟨_, h⟩

/-- C27, D format: a Taylor polynomial in V that starts at second order. -/
theorem C27_d_format (polyfit : PolyFit) (spline : Spline) {s : Specs} {p : Pulse} {z : ℝ} {f f' : Fib} {v : Vec ℝ}
    (hr : p.ready = true) (hn : 0 < p.n) (hs : s.format = some "D")
    (hb : getBetas polyfit spline s p z f = (.ok (.arr v), f')) :
    ∃ (m : ℕ) (c : Fin m → ℝ), f'.betas = some ⟨m, c⟩ ∧ v = ⟨p.n, fun k =>
      ∑ i : Fin m, c i / (Nat.factorial ((i : ℕ) + 2)) * (2 * Real.pi * ((k : ℕ) - (p.n : ℝ) / 2) / p.tw) ^ ((i : ℕ) + 2)⟩ := by
  unfold getBetas at hb
  rw [hs] at hb
  simp only at hb
  rcases hrl : reload "D" z f with ⟨r, f1⟩
  rw [hrl] at hb
  cases r with
  | error e => simp at hb
  | ok u =>
    simp only [if_true] at hb
    rcases hd : betasD polyfit p f1 with ⟨r, f2⟩
    rw [hd] at hb
    cases r with
    | error e => simp at hb
    | ok w =>
      simp only [Prod.mk.injEq, Except.ok.injEq, BetaRes.arr.injEq] at hb
      obtain ⟨rfl, rfl⟩ := hb
      unfold betasD at hd
      split at hd
      · simp at hd
      · next b w' heq =>
        simp only [Prod.mk.injEq, Except.ok.injEq] at hd
        obtain ⟨rfl, rfl⟩ := hd
        have hw : w' = ⟨p.n, fun i => 2 * Real.pi * ((i : ℕ) - (p.n : ℝ) / 2) / p.tw⟩ := by
          rw [V_of_ready hr hn] at heq
          generalize p.center_wavelength_nm = e1 at heq
          rcases e1 with e | lam
          · simp at heq
          generalize attr f1.x = e1 at heq
          rcases e1 with e | x
          · simp at heq
          generalize attr f1.y = e1 at heq
          rcases e1 with e | y
          · simp at heq
          simp only [except_bind_ok] at heq
          generalize stack x y = e1 at heq
          rcases e1 with e | tab
          · simp at heq
          simp only [except_bind_ok] at heq
          cases ho : f1.polyOrder with
          | none => rw [ho] at heq; simp at heq
          | some o =>
            rw [ho] at heq
            simp only [except_bind_ok] at heq
            generalize (dTabulationToBetas polyfit lam o tab).1 = e1 at heq
            rcases e1 with e | r
            · simp at heq
            simp only [except_bind_ok, Except.ok.injEq, Prod.mk.injEq] at heq
            exact heq.2.symm
        subst hw
        exact ⟨b.len, b.val, rfl, rfl⟩

/-- a ready pulse with `n` points, window 1 ps, centre 1 THz -/
noncomputable def gridPulse (n : ℕ) : Pulse := { Pulse.blank with n := n, ready := true }

/-- C27 fails for odd grids: three points, β₂ = 1 about the pulse centre itself; the centre bin is not zero. -/
theorem C27_odd_refuted (polyfit : PolyFit) (spline : Spline) : ∃ v f',
    getBetas polyfit spline (genSpecs 0) (gridPulse 3) 0 (genFib 1 cNmps ⟨1, fun _ => 1⟩ 0 0 "ps^n/m" "x" Fib.new) = (.ok (.arr v), f') ∧
    ∃ x, v.item 1 = .ok x ∧ x ≠ 0 := by
  have hcn : cNmps ≠ 0 := by unfold cNmps cMks; norm_num
  have hr : (gridPulse 3).ready = true := rfl
  have hn : (gridPulse 3).n = 3 := rfl
  have ht : (gridPulse 3).tw = 1 := rfl
  have hcf : (gridPulse 3).cf = 1 := rfl
  have hpi := Real.pi_pos
  have hc : argmin (fun i : Fin (gridPulse 3).n => |2 * Real.pi * ((i : ℕ) - ((gridPulse 3).n : ℝ) / 2) / (gridPulse 3).tw|) =
      .ok ⟨1, by rw [hn]; norm_num⟩ := by
    obtain ⟨c, hc⟩ := argmin_ok (fun i : Fin (gridPulse 3).n => |2 * Real.pi * ((i : ℕ) - ((gridPulse 3).n : ℝ) / 2) / (gridPulse 3).tw|)
      (by rw [hn]; norm_num)
    rw [hc]
    have h := argmin_spec hc
    have e0 : |2 * Real.pi * (((0 : ℕ) : ℝ) - (3 : ℝ) / 2) / 1| = 3 * Real.pi := by
      rw [abs_of_nonpos] <;> push_cast <;> linarith
    have e1 : |2 * Real.pi * (((1 : ℕ) : ℝ) - (3 : ℝ) / 2) / 1| = Real.pi := by
      rw [abs_of_nonpos] <;> push_cast <;> linarith
    have e2 : |2 * Real.pi * (((2 : ℕ) : ℝ) - (3 : ℝ) / 2) / 1| = Real.pi := by
      rw [abs_of_nonneg] <;> push_cast <;> linarith
    rcases c with ⟨c, hlt⟩
    have hlt' : c < 3 := hlt
    congr 2
    have h1 := h.1 ⟨1, by rw [hn]; norm_num⟩
    simp only [hn, ht, Nat.cast_ofNat, e1] at h1
    have h2 := h.2
    interval_cases c
    · rw [e0] at h1; linarith
    · rfl
    · exfalso
      have h3 := h2 ⟨1, by rw [hn]; norm_num⟩ (by simp [Fin.lt_def])
      simp only [hn, ht, Nat.cast_ofNat, e1] at h3
      have e2' : |2 * Real.pi * ((2 : ℝ) - 3 / 2) / 1| = Real.pi := by
        have : (2 : ℝ) = ((2 : ℕ) : ℝ) := by norm_num
        rw [abs_of_nonneg] <;> linarith
      rw [e2'] at h3
      exact lt_irrefl _ h3
  have hraw : rawGVD (genFib 1 cNmps ⟨1, fun _ => 1⟩ 0 0 "ps^n/m" "x" Fib.new) (gridPulse 3) =
      .ok ⟨(gridPulse 3).n, fun k => (2 * Real.pi * ((k : ℕ) - (3 : ℝ) / 2)) ^ 2 / 2⟩ := by
    unfold rawGVD
    rw [W_of_ready hr (by rw [hn]; norm_num)]
    simp only [genFib, attr, except_bind_ok, if_neg hcn, show ¬ (("ps^n/m" : String) = "ps^n/km") by decide, if_false,
      Vec.map_mk, taylor, ht, hcf]
    congr 2
    funext k
    have e3 : (((gridPulse 3).n : ℕ) : ℝ) = 3 := by rw [hn]; norm_num
    rw [e3, mul_div_assoc (2 * Real.pi) cNmps cNmps, div_self hcn]
    simp [Nat.factorial]
    ring
  have hlt : 1 < (gridPulse 3).n := by rw [hn]; norm_num
  have hget : getBetas polyfit spline (genSpecs 0) (gridPulse 3) 0 (genFib 1 cNmps ⟨1, fun _ => 1⟩ 0 0 "ps^n/m" "x" Fib.new) =
      ((reference (gridPulse 3) ⟨(gridPulse 3).n, fun k => (2 * Real.pi * ((k : ℕ) - (3 : ℝ) / 2)) ^ 2 / 2⟩).map BetaRes.arr,
        genFib 1 cNmps ⟨1, fun _ => 1⟩ 0 0 "ps^n/m" "x" Fib.new) := by
    unfold getBetas
    have e1 : (genSpecs 0).format = some "GVD" := rfl
    have e2 : reload "GVD" 0 (genFib 1 cNmps ⟨1, fun _ => 1⟩ 0 0 "ps^n/m" "x" Fib.new) =
      (.ok (), genFib 1 cNmps ⟨1, fun _ => 1⟩ 0 0 "ps^n/m" "x" Fib.new) := rfl
    simp only [e1, e2, show ¬ (("GVD" : String) = "D") by decide, if_false, if_true, hraw, except_bind_ok]
  rw [reference_eq hr (by rw [hn]; norm_num) hc] at hget
  refine ⟨_, _, hget, _, Vec.item_of_lt _ hlt, ?_⟩
  have e3 : (((gridPulse 3).n : ℕ) : ℝ) = 3 := by rw [hn]; norm_num
  have hp2 : 0 < Real.pi ^ 2 := by positivity
  simp only [gradAt, e3, ht, Nat.cast_one, one_ne_zero, if_false]
  rw [dif_neg (by rw [hn]; norm_num)]
  norm_num
  intro h0
  field_simp at h0
  nlinarith

/-! ## C28 -/

theorem append_const {a b : Vec ℝ} {c : ℝ} (ha : ∀ i, a.val i = c) (hb : ∀ i, b.val i = c) :
    ∀ i, (Vec.append a b).val i = c := by
  intro i
  unfold Vec.append at i ⊢
  refine Fin.addCases (fun j => ?_) (fun j => ?_) i
  · simp only [Fin.append_left]; exact ha j
  · simp only [Fin.append_right]; exact hb j

/-- C28: for a fibre generated with the single coefficient `b2`, `Beta2` is `b2` at every grid point. -/
theorem C28_beta2 (polyfit : PolyFit) (spline : Spline) {p : Pulse} {length wl b2 gamma gain : ℝ} {label : String}
    (hr : p.ready = true) (hn : 3 ≤ p.n) (htw : p.tw ≠ 0) (hwl : wl ≠ 0) :
    ∃ v f', beta2 polyfit spline (genSpecs gain) p (genFib length wl ⟨1, fun _ => b2⟩ gamma gain "ps^n/m" label Fib.new) = (.ok v, f') ∧
      v.len = p.n ∧ ∀ i, v.val i = b2 := by
  obtain ⟨α, β, h⟩ := getBetas_gvd polyfit spline (s := genSpecs gain) (p := p) 0
    (f := genFib length wl ⟨1, fun _ => b2⟩ gamma gain "ps^n/m" label Fib.new) (b := ⟨1, fun _ => b2⟩) hr (by omega) rfl rfl
    (by simp only [genFib, show ¬ (("ps^n/m" : String) = "ps^n/km") by decide, if_false]) rfl hwl
  set B : Fin p.n → ℝ := fun k => taylor ⟨1, fun _ => b2⟩ (2 * Real.pi * ((k : ℕ) - (p.n : ℝ) / 2) / p.tw +
    2 * Real.pi * p.cf - 2 * Real.pi * cNmps / wl) - α * (2 * Real.pi * ((k : ℕ) - (p.n : ℝ) / 2) / p.tw) - β with hB
  have hpi := Real.pi_ne_zero
  have hdw : 2 * Real.pi / p.tw ≠ 0 := by positivity
  have hout : ∀ i, ((npDiff2 ⟨p.n, B⟩).map (· / (2 * Real.pi / p.tw) ^ 2)).val i = b2 := by
    intro i
    simp only [Vec.map, npDiff2, hB, taylor]
    rw [div_eq_iff (pow_ne_zero 2 hdw)]
    simp [Nat.factorial]
    field_simp
    ring
  set out := (npDiff2 ⟨p.n, B⟩).map (· / (2 * Real.pi / p.tw) ^ 2) with hout'
  have hlen : out.len = p.n - 2 := rfl
  have i0 := Vec.item_of_lt out (i := 0) (by omega)
  set out1 := Vec.append ⟨1, fun _ => out.val ⟨0, by omega⟩⟩ out with ho1
  have hlen1 : out1.len = 1 + (p.n - 2) := rfl
  have il := Vec.item_of_lt out1 (i := out1.len - 1) (by omega)
  refine ⟨Vec.append out1 ⟨1, fun _ => out1.val ⟨out1.len - 1, by omega⟩⟩, ?f, ?h1, ?h2, ?h3⟩
  case h1 =>
    unfold beta2
    have v1 := Vec.item_of_lt (⟨p.n, fun i : Fin p.n => 2 * Real.pi * ((i : ℕ) - (p.n : ℝ) / 2) / p.tw⟩ : Vec ℝ) (i := 1) (show 1 < p.n by omega)
    have v0 := Vec.item_of_lt (⟨p.n, fun i : Fin p.n => 2 * Real.pi * ((i : ℕ) - (p.n : ℝ) / 2) / p.tw⟩ : Vec ℝ) (i := 0) (show 0 < p.n by omega)
    have hd : 2 * Real.pi * (((1 : ℕ) : ℝ) - (p.n : ℝ) / 2) / p.tw - 2 * Real.pi * (((0 : ℕ) : ℝ) - (p.n : ℝ) / 2) / p.tw = 2 * Real.pi / p.tw := by
      push_cast; ring
    simp only [V_of_ready hr (show 0 < p.n by omega), except_bind_ok, v1, v0, hd, h]
    rw [← hout', i0, except_bind_ok]
    rw [← ho1, il]
    rfl
  case h2 =>
    show out1.len + 1 = p.n
    omega
  case h3 =>
    have h1 : ∀ i, out1.val i = b2 := append_const (fun _ => hout _) hout
    exact append_const h1 (fun _ => h1 _)

/-- a grid, wavelengths and coefficient satisfying the hypotheses of C27/C28 -/
theorem C28_nonvacuous : (gridPulse 4).ready = true ∧ 3 ≤ (gridPulse 4).n ∧ (gridPulse 4).tw ≠ 0 ∧ (1550 : ℝ) ≠ 0 := by
  refine ⟨rfl, by decide, ?_, by norm_num⟩
  show (1 : ℝ) ≠ 0
  norm_num

/-! ## C29 -/

/-- C29, generated fibres: coefficients per km give the same fibre as the coefficients divided by 1000
given per m (any unit string other than `ps^n/km`). -/
theorem C29_generate (length wl gamma gain : ℝ) (b : Vec ℝ) (units label : String) (hu : units ≠ "ps^n/km") (f : Fib) :
    genFib length wl b gamma gain "ps^n/km" label f = genFib length wl (b.map (· / 1000)) gamma gain units label f := by
  have : b.map (fun x => x * 10 ^ (-3 : ℤ)) = b.map (fun x => x / 1000) := by
    congr 1; funext x; norm_num; ring
  simp only [genFib, if_true, if_neg hu, this]

/-- C29, data base: a GVD entry given per km behaves like a fibre generated with the coefficients divided by
1000 per m, for every pulse and position. -/
theorem C29_db (polyfit : PolyFit) (spline : Spline) {s : Specs} {d : Vec ℝ} {c g : ℝ} (hf : s.format = some "GVD")
    (hu : s.gvdUnits = some "ps^n/km") (hc : s.gvdCenter = some c) (hd : s.dispData = some d) (hg : s.gamma = some g)
    (length : ℝ) (name : String) (order : ℕ) (f : Fib) (hz : f.dispChanges = false) :
    (loadFromDb s length name order f).1 = .ok (some ()) ∧
    ∀ (p : Pulse) (z gamma gain : ℝ) (label : String),
      (getBetas polyfit spline s p z (loadFromDb s length name order f).2).1 =
      (getBetas polyfit spline (genSpecs gain) p z (genFib length c (d.map (· / 1000)) gamma gain "ps^n/m" label Fib.new)).1 := by
  have e : (fun x : ℝ => x / 10 ^ 3) = fun x => x / 1000 := by funext x; norm_num
  constructor
  · simp [loadFromDb, loadDispersion, hf, hu, hc, hd, hg]
  · intro p z gamma gain label
    simp [loadFromDb, loadDispersion, hf, hu, hc, hd, hg, getBetas, genSpecs, genFib, reload, hz, Fib.new, rawGVD, e]

/-- C29 fails for data base entries given per m: the coefficients are dropped and the fibre is loaded with
zero dispersion, without an error. -/
theorem C29_db_per_m_refuted : ∃ s : Specs, s.format = some "GVD" ∧ s.gvdUnits = some "ps^n/m" ∧
    s.dispData = some ⟨1, fun _ => 1⟩ ∧ ∀ f : Fib, (loadFromDb s 1 "x" 2 f).1 = .ok (some ()) ∧
      (loadFromDb s 1 "x" 2 f).2.betas = some ⟨1, fun _ => 0⟩ := by
  refine ⟨{ format := some "GVD", gvdUnits := some "ps^n/m", gvdCenter := some 1550, dispData := some ⟨1, fun _ => 1⟩, gamma := some 1 }, rfl, rfl, rfl, ?_⟩
  intro f
  simp [loadFromDb, loadDispersion]

/-- an entry like the ones shipped with the library meets the hypotheses of `C29_db` -/
theorem C29_nonvacuous : ∃ (s : Specs) (d : Vec ℝ), s.format = some "GVD" ∧ s.gvdUnits = some "ps^n/km" ∧
    s.gvdCenter = some 835 ∧ s.dispData = some d ∧ s.gamma = some 0.11 ∧ d.len = 2 ∧ Fib.new.dispChanges = false :=
  ⟨{ format := some "GVD", gvdUnits := some "ps^n/km", gvdCenter := some 835, dispData := some ⟨2, ![-11.83, 0.081038]⟩, gamma := some 0.11 },
    ⟨2, ![-11.83, 0.081038]⟩, rfl, rfl, rfl, rfl, rfl, rfl, rfl⟩

/-! ## C30, C85 -/

/-- C30: a generated fibre reports its gain in every bin (in particular zero for gain zero). -/
theorem C30_gain (p : Pulse) (length wl gamma gain : ℝ) (b : Vec ℝ) (units label : String) (f : Fib) :
    getGain (genSpecs gain) (genFib length wl b gamma gain units label f) p = .ok ⟨p.n, fun _ => gain⟩ := by
  by_cases hg : gain = 0
  · subst hg
    simp [getGain, genSpecs, key, Vec.zeros]
  · simp [getGain, genSpecs, key, hg, genFib, attr]

/-- C30: the same after `load_from_file`. -/
theorem C30_gain_file (p : Pulse) (s : Specs) (name : String) (length gamma gain : ℝ) (order : ℕ) (x y : Vec ℝ) (f : Fib) :
    getGain (fileSpecs gain s) (fileFib name length gamma gain order x y f) p = .ok ⟨p.n, fun _ => gain⟩ := by
  by_cases hg : gain = 0
  · subst hg
    simp [getGain, fileSpecs, key, Vec.zeros]
  · simp [getGain, fileSpecs, key, hg, fileFib, attr]

/-- C30: a fibre whose description says nothing about gain raises `KeyError` from `get_gain`, as a dictionary does; so does one that says it has gain
but holds neither a spectrum nor its absence.  With a constant gain that was never set it raises `AttributeError`. -/
theorem C30_missing (s : Specs) (f : Fib) (p : Pulse) : (s.isGain = none → getGain s f p = .error .KeyError) ∧
    (s.isGain = some true → s.gainX = none → getGain s f p = .error .KeyError) ∧
    (s.isGain = some true → s.gainX = some none → f.gain = none → getGain s f p = .error .AttributeError) := by
  refine ⟨?_, ?_, ?_⟩
  · intro h
    simp only [getGain, h, key, except_bind_error]
  · intro h h'
    simp only [getGain, h, h', key, except_bind_ok, if_true, except_bind_error]
  · intro h h' h''
    simp only [getGain, h, h', h'', key, attr, except_bind_ok, if_true, except_bind_error]

/-- C85 fails: for every fibre with a gain spectrum and every pulse `get_gain` raises. -/
theorem C85_gain_spectrum_refuted (s : Specs) (f : Fib) (p : Pulse) (x : Vec ℝ) (hg : s.isGain = some true)
    (hx : s.gainX = some (some x)) : ∃ e, getGain s f p = .error e := by
  simp only [getGain, hg, key, except_bind_ok, if_true, hx]
  cases s.gainXUnits with
  | none => exact ⟨_, rfl⟩
  | some u => cases s.gainY with
    | none => exact ⟨_, rfl⟩
    | some y => exact ⟨_, rfl⟩

/-! ## C31 -/

/-- Calls that never write into the dictionary shared by all instances: `load_from_file` and
`set_dispersion_function` only on instances configured before by `generate_fiber` or `load_from_db`. -/
def Spec.OwnDictOnly (db : ℕ → String → Option Specs) : (ℕ → Bool) → List (ℕ × Call) → Prop
  | _, [] => True
  | conf, (i, .generate ..) :: t => Spec.OwnDictOnly db (Function.update conf i true) t
  | conf, (i, .loadDb _ name _) :: t =>
      Spec.OwnDictOnly db (if (db i name).isSome then Function.update conf i true else conf) t
  | conf, (i, .loadFile ..) :: t => conf i = true ∧ Spec.OwnDictOnly db conf t
  | conf, (i, .setDispersionFunction ..) :: t => conf i = true ∧ Spec.OwnDictOnly db conf t
  | conf, (_, .setGammaFunction _) :: t => Spec.OwnDictOnly db conf t
  | conf, (_, .getBetas ..) :: t => Spec.OwnDictOnly db conf t

/-- who may hold a dictionary -/
def Fiber.Addr.ownedBy : Addr → ℕ → Prop
  | .cls, _ => True
  | .db i _, j => i = j
  | .gen i _, j => i = j

/-- simulation relation between the full run and the run of instance `j` alone -/
structure Sim (j : ℕ) (conf : ℕ → Bool) (w w' : World) : Prop where
  owned : ∀ i, (w.ref i).ownedBy i
  conf_ref : ∀ i, conf i = true → w.ref i ≠ .cls
  fib : w.fib j = w'.fib j
  ref : w.ref j = w'.ref j
  count : w.count j = w'.count j
  dict : ∀ a, a.ownedBy j → w.dict a = w'.dict a

theorem Sim.run (polyfit : PolyFit) (spline : Spline) (db : ℕ → String → Option Specs) (j : ℕ) :
    ∀ (calls : List (ℕ × Call)) (conf : ℕ → Bool) (w w' : World), Sim j conf w w' → Spec.OwnDictOnly db conf calls →
      ∃ conf', Sim j conf' (w.run polyfit spline db calls) (w'.run polyfit spline db (calls.filter fun c => c.1 = j)) := by
  intro calls
  induction calls with
  | nil => intro conf w w' h _; exact ⟨conf, h⟩
  | cons c t ih =>
    intro conf w w' h hs
    obtain ⟨i, c⟩ := c
    -- one step
    have main : ∃ conf1, Spec.OwnDictOnly db conf1 t ∧
        Sim j conf1 (w.step polyfit spline db i c) (if i = j then w'.step polyfit spline db i c else w') := by
      have hfib := h.fib
      have href := h.ref
      have hcnt := h.count
      have hdict := h.dict
      have hdictref : w.dict (w.ref j) = w'.dict (w'.ref j) := by
        rw [← href]; exact hdict _ (h.owned j)
      -- rewriting of an address not owned by j
      have notown : ∀ {a : Addr}, i ≠ j → a.ownedBy i → a ≠ .cls → ¬ a.ownedBy j := by
        intro a hij ha hcls haj
        cases a with
        | cls => exact hcls rfl
        | db k n => exact hij (ha.symm.trans haj)
        | gen k n => exact hij (ha.symm.trans haj)
      cases c with
      | generate length wl betas gamma gain units label =>
        refine ⟨_, hs, ?_⟩
        by_cases hij : i = j
        · subst hij
          rw [if_pos rfl]
          refine ⟨?_, ?_, ?_, ?_, ?_, ?_⟩
          · intro k
            by_cases hk : k = i
            · subst hk; simp [World.step, Addr.ownedBy]
            · simp only [World.step, Function.update_of_ne hk]; exact h.owned k
          · intro k hk
            by_cases hki : k = i
            · subst hki; simp [World.step]
            · rw [Function.update_of_ne hki] at hk
              simp only [World.step, Function.update_of_ne hki]; exact h.conf_ref k hk
          · simp [World.step, hfib]
          · simp [World.step, hcnt]
          · simp [World.step, hcnt]
          · intro a ha
            simp only [World.step, hcnt]
            by_cases hk : a = .gen i (w'.count i)
            · subst hk; simp
            · rw [Function.update_of_ne hk, Function.update_of_ne hk]; exact hdict a ha
        · rw [if_neg hij]
          have hji : j ≠ i := fun e => hij e.symm
          refine ⟨?_, ?_, ?_, ?_, ?_, ?_⟩
          · intro k
            by_cases hk : k = i
            · subst hk; simp [World.step, Addr.ownedBy]
            · simp only [World.step, Function.update_of_ne hk]; exact h.owned k
          · intro k hk
            by_cases hki : k = i
            · subst hki; simp [World.step]
            · rw [Function.update_of_ne hki] at hk
              simp only [World.step, Function.update_of_ne hki]; exact h.conf_ref k hk
          · simp only [World.step, Function.update_of_ne hji]; exact hfib
          · simp only [World.step, Function.update_of_ne hji]; exact href
          · simp only [World.step, Function.update_of_ne hji]; exact hcnt
          · intro a ha
            have hk : a ≠ .gen i (w.count i) := by
              rintro rfl
              exact hij ha
            simp only [World.step, Function.update_of_ne hk]; exact hdict a ha
      | loadDb length name order =>
        simp only [Spec.OwnDictOnly] at hs
        refine ⟨_, hs, ?_⟩
        cases hdb : db i name with
        | none =>
          by_cases hij : i = j
          · subst hij
            rw [if_pos rfl]
            refine ⟨?_, ?_, ?_, ?_, ?_, ?_⟩ <;> simp only [World.step, hdb, Option.isSome_none, Bool.false_eq_true, if_false]
            · exact h.owned
            · exact h.conf_ref
            · simp [hfib]
            · exact href
            · exact hcnt
            · exact hdict
          · rw [if_neg hij]
            have hji : j ≠ i := fun e => hij e.symm
            refine ⟨?_, ?_, ?_, ?_, ?_, ?_⟩ <;> simp only [World.step, hdb, Option.isSome_none, Bool.false_eq_true, if_false]
            · exact h.owned
            · exact h.conf_ref
            · rw [Function.update_of_ne hji]; exact hfib
            · exact href
            · exact hcnt
            · exact hdict
        | some sp =>
          have own : ∀ k, (Function.update w.ref i (Addr.db i name) k).ownedBy k := by
            intro k
            by_cases hk : k = i
            · subst hk; simp [Addr.ownedBy]
            · rw [Function.update_of_ne hk]; exact h.owned k
          have cr : ∀ k, Function.update conf i true k = true → Function.update w.ref i (Addr.db i name) k ≠ .cls := by
            intro k hk
            by_cases hki : k = i
            · subst hki; simp
            · rw [Function.update_of_ne hki] at hk ⊢; exact h.conf_ref k hk
          by_cases hij : i = j
          · subst hij
            rw [if_pos rfl]
            refine ⟨?_, ?_, ?_, ?_, ?_, ?_⟩ <;> simp only [World.step, hdb, Option.isSome_some, if_true]
            · exact own
            · exact cr
            · simp only [Function.update_self]
              rw [hfib, hdict (.db i name) rfl]
            · simp
            · exact hcnt
            · exact hdict
          · rw [if_neg hij]
            have hji : j ≠ i := fun e => hij e.symm
            refine ⟨?_, ?_, ?_, ?_, ?_, ?_⟩ <;> simp only [World.step, hdb, Option.isSome_some, if_true]
            · exact own
            · exact cr
            · rw [Function.update_of_ne hji]; exact hfib
            · rw [Function.update_of_ne hji]; exact href
            · exact hcnt
            · exact hdict
      | loadFile name length gamma gain order x y =>
        obtain ⟨hci, hs⟩ := hs
        refine ⟨_, hs, ?_⟩
        have hne := h.conf_ref i hci
        by_cases hij : i = j
        · subst hij
          rw [if_pos rfl]
          refine ⟨h.owned, h.conf_ref, ?_, href, hcnt, ?_⟩
          · simp [World.step, hfib]
          · intro a ha
            simp only [World.step, ← href]
            by_cases hk : a = w.ref i
            · subst hk; simp [hdict _ ha]
            · rw [Function.update_of_ne hk, Function.update_of_ne hk]; exact hdict a ha
        · rw [if_neg hij]
          have hji : j ≠ i := fun e => hij e.symm
          refine ⟨h.owned, h.conf_ref, ?_, href, hcnt, ?_⟩
          · simp only [World.step, Function.update_of_ne hji]; exact hfib
          · intro a ha
            have hk : a ≠ w.ref i := by
              rintro rfl
              exact notown hij (h.owned i) hne ha
            simp only [World.step, Function.update_of_ne hk]; exact hdict a ha
      | setDispersionFunction g fmt =>
        obtain ⟨hci, hs⟩ := hs
        refine ⟨_, hs, ?_⟩
        have hne := h.conf_ref i hci
        by_cases hij : i = j
        · subst hij
          rw [if_pos rfl]
          refine ⟨h.owned, h.conf_ref, ?_, href, hcnt, ?_⟩
          · simp [World.step, hfib]
          · intro a ha
            simp only [World.step, ← href]
            by_cases hk : a = w.ref i
            · subst hk; simp [hdict _ ha]
            · rw [Function.update_of_ne hk, Function.update_of_ne hk]; exact hdict a ha
        · rw [if_neg hij]
          have hji : j ≠ i := fun e => hij e.symm
          refine ⟨h.owned, h.conf_ref, ?_, href, hcnt, ?_⟩
          · simp only [World.step, Function.update_of_ne hji]; exact hfib
          · intro a ha
            have hk : a ≠ w.ref i := by
              rintro rfl
              exact notown hij (h.owned i) hne ha
            simp only [World.step, Function.update_of_ne hk]; exact hdict a ha
      | setGammaFunction g =>
        refine ⟨_, hs, ?_⟩
        by_cases hij : i = j
        · subst hij
          rw [if_pos rfl]
          refine ⟨h.owned, h.conf_ref, ?_, href, hcnt, hdict⟩
          simp [World.step, hfib]
        · rw [if_neg hij]
          have hji : j ≠ i := fun e => hij e.symm
          refine ⟨h.owned, h.conf_ref, ?_, href, hcnt, hdict⟩
          simp only [World.step, Function.update_of_ne hji]; exact hfib
      | getBetas p z =>
        refine ⟨_, hs, ?_⟩
        by_cases hij : i = j
        · subst hij
          rw [if_pos rfl]
          refine ⟨h.owned, h.conf_ref, ?_, href, hcnt, hdict⟩
          simp only [World.step, Function.update_self]
          rw [hfib, hdictref]
        · rw [if_neg hij]
          have hji : j ≠ i := fun e => hij e.symm
          refine ⟨h.owned, h.conf_ref, ?_, href, hcnt, hdict⟩
          simp only [World.step, Function.update_of_ne hji]; exact hfib
    obtain ⟨conf1, hs1, hsim⟩ := main
    have := ih conf1 _ _ hsim hs1
    by_cases hij : i = j
    · rw [if_pos hij] at this
      rw [List.filter_cons_of_pos (by simp [hij])]
      exact this
    · rw [if_neg hij] at this
      rw [List.filter_cons_of_neg (by simp [hij])]
      exact this

/-- C31 (missing: calls that write into the dictionary shared by unconfigured instances): for every
interleaving of calls on any number of fibres that never writes into the shared dictionary, what fibre `j`
reports – dispersion, gain, nonlinearity – is what it would report had only its own calls been made. -/
theorem C31_independent_partial (polyfit : PolyFit) (spline : Spline) (db : ℕ → String → Option Specs) (j : ℕ)
    (calls : List (ℕ × Call)) (hs : Spec.OwnDictOnly db (fun _ => false) calls) :
    ((World.start db).run polyfit spline db calls).view j =
      ((World.start db).run polyfit spline db (calls.filter fun c => c.1 = j)).view j := by
  have h0 : Sim j (fun _ => false) (World.start db) (World.start db) :=
    ⟨fun _ => trivial, fun _ h => by simp at h, rfl, rfl, rfl, fun _ _ => rfl⟩
  obtain ⟨conf', h⟩ := Sim.run polyfit spline db j calls _ _ _ h0 hs
  unfold World.view
  rw [h.fib, ← h.ref, h.dict _ (h.owned j)]

/-- C31 fails: fibre 0 is loaded from a file with gain 2 and reports gain 2; loading fibre 1 from a file
without gain makes fibre 0 report zero gain. -/
theorem C31_shared_dictionary_refuted (polyfit : PolyFit) (spline : Spline) (db : ℕ → String → Option Specs) (p : Pulse) (x y : Vec ℝ) :
    let a : ℕ × Call := (0, .loadFile "a" 1 0 2 3 x y)
    let b : ℕ × Call := (1, .loadFile "b" 1 0 0 3 x y)
    let v1 := ((World.start db).run polyfit spline db [a]).view 0
    let v2 := ((World.start db).run polyfit spline db [a, b]).view 0
    getGain v1.2 v1.1 p = .ok ⟨p.n, fun _ => 2⟩ ∧ getGain v2.2 v2.1 p = .ok ⟨p.n, fun _ => 0⟩ := by
  simp [World.run, World.step, World.view, World.start, fileSpecs, fileFib, getGain, key, attr, Vec.zeros]

/-- an interleaving of two fibres that satisfies the hypothesis of `C31_independent_partial` -/
theorem C31_nonvacuous (db : ℕ → String → Option Specs) (b x : Vec ℝ) (g : ℝ → DispOut) :
    Spec.OwnDictOnly db (fun _ => false)
      [(0, .generate 1 1550 b 0 0 "ps^n/m" "a"), (1, .generate 1 800 b 0 0 "ps^n/m" "b"),
       (0, .setDispersionFunction g "GVD"), (1, .loadFile "f" 1 0 2 3 x x), (2, .setGammaFunction fun z => z)] := by
  simp [Spec.OwnDictOnly, Function.update]

/-! ## C32 -/

/-- C32 fails: the caller's table is overwritten (D scaled by 1e-6). -/
theorem C32_mutates_refuted (polyfit : PolyFit) : ∃ tab : Vec (ℝ × ℝ), (dTabulationToBetas polyfit 1550 2 tab).2 ≠ tab := by
  refine ⟨⟨1, fun _ => (1550, 1)⟩, ?_⟩
  intro h
  have h2 : (dTabulationToBetas polyfit 1550 2 ⟨1, fun _ => (1550, 1)⟩).2 =
      (⟨1, fun _ => convRow (1550, 1)⟩ : Vec (ℝ × ℝ)) := by
    unfold dTabulationToBetas
    simp only [Vec.map_mk]
    rw [if_neg (by norm_num)]
    split <;> rfl
  rw [h2] at h
  have h3 : (fun _ : Fin 1 => convRow (1550, 1)) = fun _ => ((1550 : ℝ), (1 : ℝ)) := by
    injection h with h4 h5
  have h4 := congrFun h3 0
  simp only [convRow, Prod.mk.injEq] at h4
  norm_num at h4

/-- C32: exactly what happens to the caller's table, for every table, order and outcome: wavelengths are kept
and every D is multiplied by 1e-6.  (Missing: the table is not left unchanged.) -/
theorem C32_effect_partial (polyfit : PolyFit) (lambda0 : ℝ) (order : ℕ) (tab : Vec (ℝ × ℝ)) :
    (dTabulationToBetas polyfit lambda0 order tab).2 = tab.map fun r => (r.1, r.2 / 10 ^ 6) := by
  have e : (convRow : ℝ × ℝ → ℝ × ℝ) = fun r => (r.1, r.2 / 10 ^ 6) := by
    funext r
    unfold convRow
    congr 1
    norm_num
    ring
  unfold dTabulationToBetas
  simp only
  split_ifs
  · rw [e]
  · split <;> rw [e]

/-- C32: hence a second call on the same array sees data a million times smaller, and a tabulation whose
fit depends on the data gives other betas: with a fit that returns the first ordinate, one row, `D = 1`. -/
theorem C32_second_call_refuted :
    let fit : PolyFit := fun _ y _ => (y.item 0).map fun a => ⟨1, fun _ => a⟩
    let tab : Vec (ℝ × ℝ) := ⟨1, fun _ => (1550, 1)⟩
    let r1 := dTabulationToBetas fit 1550 0 tab
    let r2 := dTabulationToBetas fit 1550 0 r1.2
    ∃ b1 b2 : ℝ, r1.1 >>= (fun r => r.betas.item 0) = .ok b1 ∧ r2.1 >>= (fun r => r.betas.item 0) = .ok b2 ∧ b1 ≠ b2 := by
  intro fit tab r1 r2
  have hr1 : r1.2 = ⟨1, fun _ => ((1550 : ℝ), (1 : ℝ) / 10 ^ 6)⟩ := C32_effect_partial fit 1550 0 tab
  have run : ∀ D : ℝ, (dTabulationToBetas fit 1550 0 ⟨1, fun _ => (1550, D)⟩).1 >>= (fun r => r.betas.item 0) =
      .ok (betaTwoOf 1550 (D * 10 ^ (-12 : ℤ) * 10 ^ 9 * 10 ^ (-3 : ℤ))) := by
    intro D
    unfold dTabulationToBetas
    simp only [Vec.map_mk]
    rw [if_neg (by norm_num)]
    simp [fit, Vec.item, Except.map, convRow]
  refine ⟨?b1, ?b2, ?h0, ?h1, ?h2⟩
  case h0 => exact run 1
  case h1 =>
    show (dTabulationToBetas fit 1550 0 r1.2).1 >>= _ = _
    rw [hr1]
    exact run _
  case h2 =>
    unfold betaTwoOf
    intro h
    have := Real.pi_ne_zero
    have hc : cMks ≠ 0 := by unfold cMks; norm_num
    field_simp at h
    norm_num at h

/-! ## C33 -/

theorem reload_idem {fmt : String} {z : ℝ} {f f1 : Fib} {r : Except PyErr Unit} (h : reload fmt z f = (r, f1)) :
    reload fmt z f1 = (r, f1) := by
  unfold reload at h ⊢
  by_cases hd : f.dispChanges
  · rw [if_pos hd] at h
    cases hg : f.dispFun with
    | none =>
      rw [hg] at h
      simp only [Prod.mk.injEq] at h
      obtain ⟨rfl, rfl⟩ := h
      rw [if_pos hd, hg]
    | some g =>
      rw [hg] at h
      simp only at h
      split_ifs at h with h1 h2
      · cases hz : g z with
        | coeffs b =>
          rw [hz] at h
          simp only [Prod.mk.injEq] at h
          obtain ⟨rfl, rfl⟩ := h
          simp [hd, hg, h1, hz]
        | table x y =>
          rw [hz] at h
          simp only [Prod.mk.injEq] at h
          obtain ⟨rfl, rfl⟩ := h
          simp [hd, hg, h1, hz]
      · cases hz : g z with
        | coeffs b =>
          rw [hz] at h
          simp only [Prod.mk.injEq] at h
          obtain ⟨rfl, rfl⟩ := h
          simp [hd, hg, h2, hz]
        | table x y =>
          rw [hz] at h
          simp only [Prod.mk.injEq] at h
          obtain ⟨rfl, rfl⟩ := h
          simp [hd, hg, h2, hz]
      · simp only [Prod.mk.injEq] at h
        obtain ⟨rfl, rfl⟩ := h
        simp [hd, hg, h1, h2]
  · rw [if_neg hd] at h
    simp only [Prod.mk.injEq] at h
    obtain ⟨rfl, rfl⟩ := h
    rw [if_neg hd]

theorem reload_betas {z : ℝ} {f : Fib} (b : Vec ℝ) (h : reload "D" z f = (.ok (), f)) :
    reload "D" z { f with betas := some b } = (.ok (), { f with betas := some b }) := by
  unfold reload at h ⊢
  by_cases hd : f.dispChanges
  · rw [if_pos hd] at h
    cases hg : f.dispFun with
    | none => rw [hg] at h; simp at h
    | some g =>
      rw [hg] at h
      simp only at h
      cases hz : g z with
      | coeffs c => rw [hz] at h; simp at h
      | table x y =>
        rw [hz] at h
        simp only [true_or, if_true, Prod.mk.injEq, true_and] at h
        have hx : f.x = some x := by rw [← h]
        have hy : f.y = some y := by rw [← h]
        simp [hd, hg, hz, hx, hy]
  · simp [hd]

/-- C33: in every configuration and format, a second `get_betas` with the same pulse and position returns the
same result (or raises the same exception), and leaves the fibre as the first call left it. -/
theorem C33_repeatable (polyfit : PolyFit) (spline : Spline) (s : Specs) (p : Pulse) (z : ℝ) {f f' : Fib}
    {r : Except PyErr BetaRes} (h : getBetas polyfit spline s p z f = (r, f')) :
    getBetas polyfit spline s p z f' = (r, f') := by
  unfold getBetas at h ⊢
  cases hs : s.format with
  | none =>
    rw [hs] at h
    simp only [Prod.mk.injEq] at h ⊢
    exact ⟨h.1, trivial⟩
  | some fmt =>
    rw [hs] at h
    simp only at h ⊢
    rcases hr : reload fmt z f with ⟨q, f1⟩
    rw [hr] at h
    have hr1 := reload_idem hr
    cases q with
    | error e =>
      simp only [Prod.mk.injEq] at h
      obtain ⟨rfl, rfl⟩ := h
      rw [hr1]
    | ok u =>
      simp only at h
      by_cases h1 : fmt = "D"
      · subst h1
        simp only [if_true] at h ⊢
        rcases hd : betasD polyfit p f1 with ⟨q, f2⟩
        rw [hd] at h
        have hd0 := hd
        unfold betasD at hd
        split at hd
        · next e heq =>
          simp only [Prod.mk.injEq] at hd
          obtain ⟨rfl, rfl⟩ := hd
          simp only [Prod.mk.injEq] at h
          obtain ⟨rfl, rfl⟩ := h
          rw [hr1]
          simp only [hd0]
        · next b v heq =>
          simp only [Prod.mk.injEq] at hd
          obtain ⟨rfl, rfl⟩ := hd
          simp only [Prod.mk.injEq] at h
          obtain ⟨rfl, rfl⟩ := h
          rw [reload_betas b hr1]
          simp only
          have : betasD polyfit p { f1 with betas := some b } = (.ok (v.map (taylor b)), { f1 with betas := some b }) := by
            unfold betasD
            simp only
            rw [heq]
          rw [this]
      · simp only [if_neg h1] at h ⊢
        by_cases h2 : fmt = "GVD"
        · simp only [if_pos h2, Prod.mk.injEq] at h
          obtain ⟨rfl, rfl⟩ := h
          rw [hr1]
          simp only [if_pos h2]
        · simp only [if_neg h2] at h ⊢
          by_cases h3 : fmt = "n"
          · simp only [if_pos h3, Prod.mk.injEq] at h
            obtain ⟨rfl, rfl⟩ := h
            rw [hr1]
            simp only [if_pos h3]
          · simp only [if_neg h3, Prod.mk.injEq] at h
            obtain ⟨rfl, rfl⟩ := h
            rw [hr1]
            simp only [if_neg h3]

/-! ## C34 -/

/-- C34: whenever the fit returns coefficients `co` (highest order first), the returned betas are
`i!` times the coefficient of order `i`, the axis is the detuning in rad/ps, `betaTwo` is `-Dλ²/(2πc)` in
ps²/m, and the reported fit is the fitted polynomial on the axis. -/
theorem C34_conversion {polyfit : PolyFit} {lambda0 : ℝ} {order : ℕ} {tab : Vec (ℝ × ℝ)} {r : DTabResult}
    (hr : (dTabulationToBetas polyfit lambda0 order tab).1 = .ok r) :
    ∃ co : Vec ℝ, polyfit r.omegaAxis r.betaTwo order = .ok co ∧
      r.omegaAxis = tab.map (fun x => 2 * Real.pi * cNmps / x.1 - 2 * Real.pi * cNmps / lambda0) ∧
      r.betaTwo = tab.map (fun x => -x.2 * x.1 ^ 2 / (2 * Real.pi * cMks)) ∧
      r.betas = ⟨co.len, fun i => (Nat.factorial i) * co.val i.rev⟩ ∧
      r.polyFit = r.omegaAxis.map fun w => ∑ i : Fin co.len, co.val i.rev * w ^ (i : ℕ) := by
  unfold dTabulationToBetas at hr
  simp only at hr
  split_ifs at hr with h0
  split at hr
  · simp at hr
  · next co hco =>
    have hr := Except.ok.inj hr
    subst hr
    refine ⟨co, hco, ?_, ?_, ?_, ?_⟩
    · simp only [Vec.map, omegaOf, convRow, cNmps]
      congr 1
      funext i
      rcases eq_or_ne (tab.val i).1 0 with hx | hx
      · rw [hx]; norm_num; ring
      · field_simp
    · simp only [Vec.map, betaTwoOf, convRow]
      congr 1
      funext i
      norm_num
      ring
    · show (⟨co.len, _⟩ : Vec ℝ) = ⟨co.len, _⟩
      congr 1
      funext i
      ring
    · simp only [Vec.map]
      congr 1
      funext k
      apply Finset.sum_congr rfl
      intro i _
      have : (Nat.factorial (i : ℕ) : ℝ) ≠ 0 := by positivity
      rw [mul_div_cancel_right₀ _ this]

/-- C34: if the tabulated β₂ lies on a polynomial `P` of degree at most `order` and the fit recovers it, the
reported fit equals the data. -/
theorem C34_exact_data {polyfit : PolyFit} {lambda0 : ℝ} {order : ℕ} {tab : Vec (ℝ × ℝ)} {r : DTabResult} (P : ℝ[X])
    (hP : P.natDegree ≤ order) (hr : (dTabulationToBetas polyfit lambda0 order tab).1 = .ok r)
    (hdata : r.betaTwo = r.omegaAxis.map fun w => P.eval w)
    (hfit : polyfit r.omegaAxis r.betaTwo order = .ok ⟨order + 1, fun i => P.coeff (order - i)⟩) :
    r.polyFit = r.betaTwo ∧ r.betas = ⟨order + 1, fun i => (Nat.factorial i) * P.coeff i⟩ := by
  obtain ⟨co, h1, -, -, h4, h5⟩ := C34_conversion hr
  rw [hfit] at h1
  have h1 := Except.ok.inj h1
  subst h1
  have hrev : ∀ i : Fin (order + 1), order - (i.rev : ℕ) = i := by
    intro i; rw [Fin.val_rev]; omega
  simp only [hrev] at h4 h5
  refine ⟨?_, h4⟩
  rw [h5, hdata]
  congr 1
  funext w
  rw [eval_eq_sum_range' (Nat.lt_succ_of_le hP), ← Fin.sum_univ_eq_sum_range (fun i => P.coeff i * w ^ i)]

/-- C34 for a tabulation read from a file (`DDataIsFile=True`): the fit is of the given order to the rows of the file, and a file whose β₂ lies on a
polynomial of that degree is reproduced. -/
theorem C34_file {polyfit : PolyFit} {lambda0 : ℝ} {order : ℕ} {file : Vec (ℝ × ℝ)} {r : DTabResult} (P : ℝ[X]) (hP : P.natDegree ≤ order)
    (hr : dTabulationFile polyfit lambda0 file order = .ok r) (hdata : r.betaTwo = r.omegaAxis.map fun w => P.eval w)
    (hfit : polyfit r.omegaAxis r.betaTwo order = .ok ⟨order + 1, fun i => P.coeff (order - i)⟩) :
    r.omegaAxis = file.map (fun x => 2 * Real.pi * cNmps / x.1 - 2 * Real.pi * cNmps / lambda0) ∧
      r.betaTwo = file.map (fun x => -x.2 * x.1 ^ 2 / (2 * Real.pi * cMks)) ∧ r.polyFit = r.betaTwo ∧
      r.betas = ⟨order + 1, fun i => (Nat.factorial i) * P.coeff i⟩ := by
  obtain ⟨co, -, h2, h3, -, -⟩ := C34_conversion hr
  obtain ⟨h4, h5⟩ := C34_exact_data P hP hr hdata hfit
  exact ⟨h2, h3, h4, h5⟩

/-- C34: the propagation constant built from those betas (`get_betas`, D format) is a polynomial in V whose
second derivative is `P` and which vanishes with its slope at V = 0. -/
theorem C34_propagation_constant (P : ℝ[X]) {order : ℕ} (hP : P.natDegree ≤ order) : ∃ Q : ℝ[X],
    (∀ v : ℝ, Q.eval v = taylor ⟨order + 1, fun i => (Nat.factorial i) * P.coeff i⟩ v) ∧
    derivative (derivative Q) = P ∧ Q.eval 0 = 0 ∧ (derivative Q).eval 0 = 0 := by
  refine ⟨∑ i : Fin (order + 1), C ((Nat.factorial i : ℝ) * P.coeff i / (Nat.factorial ((i : ℕ) + 2))) * X ^ ((i : ℕ) + 2), ?_, ?_, ?_, ?_⟩
  · intro v
    rw [eval_finsetSum]
    unfold taylor
    apply Finset.sum_congr rfl
    intro i _
    simp
  · rw [derivative_sum, derivative_sum]
    conv_rhs => rw [P.as_sum_range' (order + 1) (Nat.lt_succ_of_le hP),
      ← Fin.sum_univ_eq_sum_range (fun i => monomial i (P.coeff i))]
    apply Finset.sum_congr rfl
    intro i _
    have e : (Nat.factorial ((i : ℕ) + 2) : ℝ) = ((i : ℕ) + 2) * (((i : ℕ) + 1) * Nat.factorial i) := by
      rw [Nat.factorial_succ, Nat.factorial_succ]; push_cast; ring
    have hf : (Nat.factorial (i : ℕ) : ℝ) ≠ 0 := by positivity
    rw [derivative_C_mul_X_pow, derivative_C_mul_X_pow, e, ← C_mul_X_pow_eq_monomial]
    have h1 : (((i : ℕ) : ℝ) + 1) ≠ 0 := by positivity
    have h2 : (((i : ℕ) : ℝ) + 2) ≠ 0 := by positivity
    congr 2
    simp only [show (i : ℕ) + 2 - 1 = i + 1 by omega]
    push_cast
    field_simp
  · rw [eval_finsetSum]
    simp
  · rw [derivative_sum, eval_finsetSum]
    apply Finset.sum_eq_zero
    intro i _
    rw [derivative_C_mul_X_pow]
    simp

/-- data lying on the line `P = 2 + 3X`, fitted with order 1, meet the hypotheses of `C34_exact_data` -/
theorem C34_nonvacuous : (C 2 + C 3 * X : ℝ[X]).natDegree ≤ 1 := by
  compute_degree

/-! ## C83 -/

/-- C83: converting `b2` to D with `Beta2_to_D` on any wavelength grid without zeros and feeding the
(wavelength, D) table to `DTabulationToBetas` gives back `b2` at every point. -/
theorem C83_round_trip (polyfit : PolyFit) (spline : Spline) {p : Pulse} {length wl b2 gamma gain : ℝ} {label : String}
    (hr : p.ready = true) (hn : 3 ≤ p.n) (htw : p.tw ≠ 0) (hwl : wl ≠ 0) (g : Fin p.n → ℝ) (hg : ∀ i, g i ≠ 0) :
    ∃ (D : Fin p.n → ℝ) (f' : Fib),
      beta2ToD polyfit spline (genSpecs gain) p ⟨p.n, g⟩ (genFib length wl ⟨1, fun _ => b2⟩ gamma gain "ps^n/m" label Fib.new) =
        (.ok ⟨p.n, D⟩, f') ∧
      ∀ (fit : PolyFit) (lambda0 : ℝ) (order : ℕ) (r : DTabResult),
        (dTabulationToBetas fit lambda0 order ⟨p.n, fun i => (g i, D i)⟩).1 = .ok r → r.betaTwo = ⟨p.n, fun _ => b2⟩ := by
  obtain ⟨v, f', h1, h2, h3⟩ := C28_beta2 polyfit spline (p := p) (length := length) (wl := wl) (b2 := b2) (gamma := gamma)
    (gain := gain) (label := label) hr hn htw hwl
  obtain ⟨m, v⟩ := v
  dsimp only at h2
  subst h2
  refine ⟨fun i => -2 * Real.pi * cNmps / g i ^ 2 * v i * 1000, f', ?_, ?_⟩
  · unfold beta2ToD
    rw [h1]
    simp only [Vec.zip_mk]
  · intro fit lambda0 order r hr
    obtain ⟨co, -, -, h, -, -⟩ := C34_conversion hr
    rw [h]
    simp only [Vec.map_mk]
    congr 1
    funext i
    have hgi := hg i
    have hc : cMks ≠ 0 := by unfold cMks; norm_num
    have hpi := Real.pi_ne_zero
    rw [show v i = b2 from h3 i, cNmps]
    field_simp
    norm_num
    ring

/-! ## C84 -/

/-- C84 (missing: fibres with a dispersion or gamma function set before): `generate_fiber` determines
everything the fibre reports, whatever was configured before. -/
theorem C84_generate_resets_partial (polyfit : PolyFit) (spline : Spline) (f : Fib) (hd : f.dispChanges = false)
    (hg : f.gammaChanges = false) (length wl gamma gain : ℝ) (b : Vec ℝ) (units label : String) (p : Pulse) (z : ℝ) :
    let old := genFib length wl b gamma gain units label f
    let new := genFib length wl b gamma gain units label Fib.new
    (getBetas polyfit spline (genSpecs gain) p z old).1 = (getBetas polyfit spline (genSpecs gain) p z new).1 ∧
    getGain (genSpecs gain) old p = getGain (genSpecs gain) new p ∧ getGamma old z = getGamma new z ∧
    old.length = new.length := by
  refine ⟨?_, ?_, ?_, rfl⟩
  · simp [getBetas, genSpecs, genFib, reload, hd, Fib.new, rawGVD]
  · rw [C30_gain, C30_gain]
  · simp [getGamma, genFib, hg, Fib.new]

/-- C84 fails after `set_dispersion_function` or `set_gamma_function`: generating the fibre anew does not
clear the functions; the old ones still determine `self.betas` and gamma. -/
theorem C84_stale_functions_refuted (g : ℝ → ℝ) (d : ℝ → DispOut) (length wl gamma gain z : ℝ) (b c : Vec ℝ)
    (units label : String) (hdz : d z = .coeffs c) :
    let f := genFib length wl b gamma gain units label (dispFunFib d (Fiber.setGammaFunction g Fib.new))
    getGamma f z = .ok (some (g z)) ∧ ((reload "GVD" z f).2).betas = some c := by
  constructor
  · simp [getGamma, genFib, dispFunFib, Fiber.setGammaFunction, attr, Except.map]
  · simp [reload, genFib, dispFunFib, Fiber.setGammaFunction, hdz]

end PyNLO
