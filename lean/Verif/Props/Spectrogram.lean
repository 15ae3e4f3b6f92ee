import Verif.Model.PulseMore
import Verif.Props.Grids
import Mathlib.Analysis.SpecialFunctions.Complex.Circle

/-!
# C112: what `spectrogram` computes

The gated spectrum at the frequency mirrored about the centre of the grid, at the delays and frequencies of the two meshes.
-/

open scoped BigOperators

namespace PyNLO.Pulse

open Complex

variable {n : ℕ} {p : Pulse} {a : Fin n → ℂ}

/-- The gated spectrum of the field `A` on the times `t` at the optical frequency `f`, for the carrier `f0` and the convention
of the package (`AW` is the sum of `AT·exp(i V T)`): a line of frequency `f` in the spectrum contributes to `gated f`. -/
noncomputable def gated {n : ℕ} (t : Fin n → ℝ) (A : Fin n → ℂ) (g : ℝ → ℂ) (f0 f : ℝ) : ℂ :=
  ∑ m, A m * g (t m) * exp (I * ((2 * Real.pi * (f - f0) * t m : ℝ) : ℂ))

theorem npMin_pos (v : Vec ℝ) (h : 0 < v.len) : npMin v = .ok (Finset.univ.inf' ⟨⟨0, h⟩, Finset.mem_univ _⟩ v.val) := dif_pos h

theorem npMax_pos (v : Vec ℝ) (h : 0 < v.len) : npMax v = .ok (Finset.univ.sup' ⟨⟨0, h⟩, Finset.mem_univ _⟩ v.val) := dif_pos h

theorem polar_phase (z : ℂ) (g : ℂ) (x : ℝ) : (‖z‖ : ℂ) * g * exp (I * ((x + arg z : ℝ) : ℂ)) = z * g * exp (I * (x : ℂ)) := by
  conv_rhs => rw [← norm_mul_exp_arg_mul_I z]
  push_cast
  rw [mul_add, exp_add, mul_comm I (arg z : ℂ)]
  ring

/-- The rows of the transform, for an arbitrary gate. -/
theorem fft_gated (hn : 0 < n) (htw : p.tw ≠ 0) (A : Fin n → ℂ) (g : ℝ → ℂ) (k : Fin n) :
    ‖fft (fun m : Fin n => (‖A m‖ : ℂ) * g (((m : ℕ) - (n : ℝ) / 2) * (p.tw / n)) *
      exp (I * ((2 * Real.pi * (((m : ℕ) - (n : ℝ) / 2) * (p.tw / n)) * p.cf + arg (A m) : ℝ) : ℂ))) k‖ =
    ‖gated (fun m : Fin n => ((m : ℕ) - (n : ℝ) / 2) * (p.tw / n)) A g p.cf (2 * p.cf - (k : ℕ) / p.tw)‖ := by
  have hnr : (n : ℝ) ≠ 0 := by positivity
  have hnc : (n : ℂ) ≠ 0 := by exact_mod_cast hnr
  have htc : (p.tw : ℂ) ≠ 0 := by exact_mod_cast htw
  have e : fft (fun m : Fin n => (‖A m‖ : ℂ) * g (((m : ℕ) - (n : ℝ) / 2) * (p.tw / n)) *
      exp (I * ((2 * Real.pi * (((m : ℕ) - (n : ℝ) / 2) * (p.tw / n)) * p.cf + arg (A m) : ℝ) : ℂ))) k =
      exp (I * ((-(Real.pi * (k : ℕ)) : ℝ) : ℂ)) *
        gated (fun m : Fin n => ((m : ℕ) - (n : ℝ) / 2) * (p.tw / n)) A g p.cf (2 * p.cf - (k : ℕ) / p.tw) := by
    unfold fft gated
    rw [Finset.mul_sum]
    refine Finset.sum_congr rfl fun m _ => ?_
    dsimp only
    rw [polar_phase]
    unfold rootE
    rw [mul_assoc, ← exp_add]
    rw [show ∀ x y z : ℂ, x * (y * z) = y * (x * z) from fun x y z => by ring, ← exp_add]
    congr 2
    push_cast
    field_simp
    ring
  rw [e, norm_mul, mul_comm I, norm_exp_ofReal_mul_I, one_mul]

/-- The grid of times. -/
noncomputable def tgrid (p : Pulse) (n : ℕ) (m : Fin n) : ℝ := ((m : ℕ) - (n : ℝ) / 2) * (p.tw / n)

theorem mk_congr {r c : ℕ} {D D' F F' S S' : Fin r → Fin c → ℝ} {e : ℝ × ℝ × ℝ × ℝ} (hD : ∀ k j, D k j = D' k j)
    (hF : ∀ k j, F k j = F' k j) (hS : ∀ k j, S k j = S' k j) : (⟨r, c, D, F, e, S⟩ : Spectrogram) = ⟨r, c, D', F', e, S'⟩ := by
  obtain rfl : D = D' := funext fun k => funext fun j => hD k j
  obtain rfl : F = F' := funext fun k => funext fun j => hF k j
  obtain rfl : S = S' := funext fun k => funext fun j => hS k j
  rfl

theorem spectrogram_eq (h : Holds p a) (hn : 2 ≤ n) (htw : p.tw ≠ 0) (mapc : Vec ℝ → ℝ → ℝ) (kind : String) (sigma : ℝ) (steps : ℕ)
    (hs : 0 < steps) (lo hi : ℝ) (hlo : npMin ⟨n, tgrid p n⟩ = .ok lo) (hhi : npMax ⟨n, tgrid p n⟩ = .ok hi) (g : ℝ → ℝ → ℂ)
    (hg : gate mapc kind sigma ⟨n, tgrid p n⟩ (linspace lo hi steps) ⟨n, ifftT a⟩ = .ok g) :
    ∃ ext, (spectrogram mapc kind sigma steps p = .ok ⟨n / 2, steps, fun _ j => lo + (j : ℕ) * ((hi - lo) / ((steps : ℝ) - 1)),
        fun k _ => (k : ℕ) / p.tw, ext, fun k j => ‖gated (tgrid p n) (ifftT a)
          (fun x => g x (lo + (j : ℕ) * ((hi - lo) / ((steps : ℝ) - 1)))) p.cf (2 * p.cf - (k : ℕ) / p.tw)‖⟩) ∧
      npMin (linspace lo hi steps) = .ok ext.1 ∧ npMax (linspace lo hi steps) = .ok ext.2.1 ∧
      npMin ⟨n / 2, fun k => (k : ℕ) / p.tw⟩ = .ok ext.2.2.1 ∧ npMax ⟨n / 2, fun k => (k : ℕ) / p.tw⟩ = .ok ext.2.2.2 := by
  have hn0 : 0 < n := by omega
  have hne : (n : ℝ) ≠ 0 := by positivity
  have hrow : 0 < n / 2 := by omega
  have hT : p.T_ps = .ok ⟨n, tgrid p n⟩ := h.T_eq
  unfold spectrogram
  simp only [hT, h.AT_eq, except_bind_ok, hlo, hhi, hg, dite_true, Vec.item_of_lt _ (show 0 < (⟨n, tgrid p n⟩ : Vec ℝ).len from hn0),
    Vec.item_of_lt _ (show 1 < (⟨n, tgrid p n⟩ : Vec ℝ).len from hn), npMin_pos (linspace lo hi steps) hs, npMax_pos (linspace lo hi steps) hs,
    Fin.cast_eq_self]
  have ef : (fun k : Fin (n / 2) => ((k : ℕ) : ℝ) * (1 / (n * (tgrid p n ⟨1, hn⟩ - tgrid p n ⟨0, hn0⟩)))) = fun k : Fin (n / 2) => ((k : ℕ) : ℝ) / p.tw := by
    funext k
    simp only [tgrid]
    push_cast
    field_simp
    ring
  rw [ef, npMin_pos _ hrow, npMax_pos _ hrow]
  exact ⟨_, congrArg Except.ok (mk_congr (fun _ _ => rfl) (fun k _ => congrFun ef k) fun k j =>
    fft_gated hn0 htw (ifftT a) (fun x => g x (lo + (j : ℕ) * ((hi - lo) / ((steps : ℝ) - 1)))) ⟨k, by omega⟩), rfl, rfl, rfl, rfl⟩

/-- extrema of an increasing array -/
theorem npMin_mono {m : ℕ} (hm : 0 < m) {f : Fin m → ℝ} (hf : Monotone f) : npMin ⟨m, f⟩ = .ok (f ⟨0, hm⟩) := by
  rw [npMin_pos _ hm]
  refine congrArg Except.ok (le_antisymm (Finset.inf'_le _ (Finset.mem_univ (⟨0, hm⟩ : Fin m))) (Finset.le_inf' _ _ fun i _ => ?_))
  exact hf (Fin.mk_le_of_le_val (Nat.zero_le _))

theorem npMax_mono {m : ℕ} (hm : 0 < m) {f : Fin m → ℝ} (hf : Monotone f) : npMax ⟨m, f⟩ = .ok (f ⟨m - 1, by omega⟩) := by
  rw [npMax_pos _ hm]
  refine congrArg Except.ok (le_antisymm (Finset.sup'_le _ _ fun i _ => ?_) (Finset.le_sup' _ (Finset.mem_univ (⟨m - 1, by omega⟩ : Fin m))))
  exact hf (Fin.le_def.2 (by have hi : (i : ℕ) < m := i.isLt; simp only; omega))

theorem tgrid_mono (hn : 0 < n) (htw : 0 < p.tw) {i j : Fin n} (hij : (i : ℕ) ≤ j) : tgrid p n i ≤ tgrid p n j := by
  unfold tgrid
  have : 0 < p.tw / n := by positivity
  have h1 : ((i : ℕ) : ℝ) ≤ (j : ℕ) := by exact_mod_cast hij
  exact mul_le_mul_of_nonneg_right (by linarith) this.le

theorem tgrid_min (hn : 0 < n) (htw : 0 < p.tw) : npMin ⟨n, tgrid p n⟩ = .ok (-p.tw / 2) := by
  rw [npMin_pos _ hn]
  refine congrArg Except.ok (le_antisymm ?_ ?_)
  · refine (Finset.inf'_le _ (Finset.mem_univ ⟨0, hn⟩)).trans (le_of_eq ?_)
    simp only [tgrid]; field_simp; push_cast; ring
  · refine Finset.le_inf' _ _ fun i _ => (le_of_eq ?_).trans (tgrid_mono hn htw (i := ⟨0, hn⟩) (Nat.zero_le _))
    simp only [tgrid]; field_simp; push_cast; ring

theorem tgrid_max (hn : 0 < n) (htw : 0 < p.tw) : npMax ⟨n, tgrid p n⟩ = .ok (p.tw / 2 - p.tw / n) := by
  have e : ((n - 1 : ℕ) : ℝ) = n - 1 := by rw [Nat.cast_sub hn]; simp
  have hne : (n : ℝ) ≠ 0 := by positivity
  rw [npMax_pos _ hn]
  refine congrArg Except.ok (le_antisymm ?_ ?_)
  · refine Finset.sup'_le _ _ fun i _ => (tgrid_mono hn htw (j := ⟨n - 1, by omega⟩) (by simp only; omega)).trans (le_of_eq ?_)
    simp only [tgrid, e]; field_simp; ring
  · refine (le_of_eq ?_).trans (Finset.le_sup' _ (Finset.mem_univ (⟨n - 1, by omega⟩ : Fin n)))
    simp only [tgrid, e]; field_simp; ring

/-- C112: on a grid of at least two points, `spectrogram('xfrog')` returns rows at the frequencies `k/window`, columns at equally
spaced delays from the first to the last time, and the modulus of the spectrum gated by a Gaussian of the given width, taken at
the frequency mirrored about the centre frequency. -/
theorem C112_value (h : Holds p a) (hn : 2 ≤ n) (htw : 0 < p.tw) (mapc : Vec ℝ → ℝ → ℝ) (sigma : ℝ) (steps : ℕ) (hs : 0 < steps) :
    ∃ (t : Fin n → ℝ) (A : Fin n → ℂ) (D : Fin steps → ℝ) (ext : ℝ × ℝ × ℝ × ℝ), p.T_ps = .ok ⟨n, t⟩ ∧ p.AT = .ok ⟨n, A⟩ ∧
      spectrogram mapc "xfrog" sigma steps p = .ok ⟨n / 2, steps, fun _ j => D j, fun k _ => (k : ℕ) / p.tw, ext,
        fun k j => ‖gated t A (fun x => ((Real.exp (-(x - D j) ^ 2 / (2 * sigma ^ 2)) : ℝ) : ℂ)) p.cf (2 * p.cf - (k : ℕ) / p.tw)‖⟩ ∧
      ∀ j, D j = -p.tw / 2 + (j : ℕ) * ((p.tw - p.tw / n) / ((steps : ℝ) - 1)) := by
  have hn0 : 0 < n := by omega
  obtain ⟨ext, he, -⟩ := spectrogram_eq h hn htw.ne' mapc "xfrog" sigma steps hs _ _ (tgrid_min hn0 htw) (tgrid_max hn0 htw)
    (fun t d => (gauss t d sigma : ℂ)) (by simp [gate])
  refine ⟨_, _, _, ext, h.T_eq, h.AT_eq, he, fun j => ?_⟩
  ring

/-- C112, time axis: a pulse concentrated at one time sample appears in every row with the gate centred at that time. -/
theorem C112_time (h : Holds p a) (hn : 2 ≤ n) (htw : 0 < p.tw) (mapc : Vec ℝ → ℝ → ℝ) (sigma : ℝ) (steps : ℕ) (hs : 0 < steps)
    (m0 : Fin n) (c : ℂ) (hA : p.AT = .ok ⟨n, fun m => if m = m0 then c else 0⟩) :
    ∃ (t : Fin n → ℝ) (sp : Spectrogram), p.T_ps = .ok ⟨n, t⟩ ∧ spectrogram mapc "xfrog" sigma steps p = .ok sp ∧
      ∀ k j, sp.S k j = ‖c‖ * Real.exp (-(t m0 - sp.DELAYS k j) ^ 2 / (2 * sigma ^ 2)) := by
  obtain ⟨t, A, D, ext, hT, hA', hsp, -⟩ := C112_value h hn htw mapc sigma steps hs
  refine ⟨t, _, hT, hsp, fun k j => ?_⟩
  have hAe : A = fun m => if m = m0 then c else 0 := by
    have : (Except.ok ⟨n, A⟩ : Except PyErr (Vec ℂ)) = _ := hA'.symm.trans hA
    injection this with this
    injection this with _ this
  simp only
  unfold gated
  rw [hAe, Finset.sum_eq_single m0]
  · dsimp only
    rw [if_pos rfl, norm_mul, norm_mul, mul_comm I, norm_exp_ofReal_mul_I, mul_one, Complex.norm_real, Real.norm_eq_abs, Real.abs_exp]
  · intro m _ hm
    dsimp only
    rw [if_neg hm]; simp
  · simp

/-- C112: global phase and amplitude. -/
theorem C112_scale {b : Fin n → ℂ} {q : Pulse} (h : Holds p a) (h' : Holds q b) (c : ℂ) (hb : ∀ i, b i = c * a i) (hcf : q.cf = p.cf)
    (htw' : q.tw = p.tw) (hn : 2 ≤ n) (htw : 0 < p.tw) (mapc : Vec ℝ → ℝ → ℝ) (sigma : ℝ) (steps : ℕ) (hs : 0 < steps) :
    ∃ sp sp', spectrogram mapc "xfrog" sigma steps p = .ok sp ∧ spectrogram mapc "xfrog" sigma steps q = .ok sp' ∧
      ∃ (hr : sp'.rows = sp.rows) (hc : sp'.cols = sp.cols), ∀ k j, sp'.S k j = ‖c‖ * sp.S (k.cast hr) (j.cast hc) := by
  have hn0 : 0 < n := by omega
  obtain ⟨ext, he, -⟩ := spectrogram_eq h hn htw.ne' mapc "xfrog" sigma steps hs _ _ (tgrid_min hn0 htw) (tgrid_max hn0 htw)
    (fun t d => (gauss t d sigma : ℂ)) (by simp [gate])
  obtain ⟨ext', he', -⟩ := spectrogram_eq h' hn (htw'.trans_ne htw.ne') mapc "xfrog" sigma steps hs _ _ (tgrid_min hn0 (htw' ▸ htw))
    (tgrid_max hn0 (htw' ▸ htw)) (fun t d => (gauss t d sigma : ℂ)) (by simp [gate])
  refine ⟨_, _, he, he', rfl, rfl, fun k j => ?_⟩
  have hg : tgrid q n = tgrid p n := by funext m; simp only [tgrid, htw']
  simp only [Fin.cast_eq_self, hcf, htw', hg]
  rw [← norm_mul]
  congr 1
  unfold gated
  rw [Finset.mul_sum]
  refine Finset.sum_congr rfl fun m _ => ?_
  have : ifftT b m = c * ifftT a m := by
    rw [ifftT_apply, ifftT_apply, Finset.mul_sum]
    exact Finset.sum_congr rfl fun i _ => by rw [hb]; ring
  rw [this]; ring

/-- The property a reader of the frequency axis relies on: the value in row `k` is the gated spectrum at the frequency of row `k`. -/
def AxisCorrect (p : Pulse) (n : ℕ) (sigma : ℝ) (steps : ℕ) : Prop :=
  ∀ (mapc : Vec ℝ → ℝ → ℝ) (t : Fin n → ℝ) (A : Fin n → ℂ) (sp : Spectrogram), p.T_ps = .ok ⟨n, t⟩ → p.AT = .ok ⟨n, A⟩ →
    spectrogram mapc "xfrog" sigma steps p = .ok sp →
    ∀ k j, sp.S k j = ‖gated t A (fun x => ((Real.exp (-(x - sp.DELAYS k j) ^ 2 / (2 * sigma ^ 2)) : ℝ) : ℂ)) p.cf (sp.FREQS k j)‖

/-- C112: the row at the centre frequency is right. -/
theorem C112_centre_partial (h : Holds p a) (hn : 2 ≤ n) (htw : 0 < p.tw) (mapc : Vec ℝ → ℝ → ℝ) (sigma : ℝ) (steps : ℕ) (hs : 0 < steps) :
    ∃ (t : Fin n → ℝ) (A : Fin n → ℂ) (sp : Spectrogram), p.T_ps = .ok ⟨n, t⟩ ∧ p.AT = .ok ⟨n, A⟩ ∧
      spectrogram mapc "xfrog" sigma steps p = .ok sp ∧ ∀ k j, sp.FREQS k j = p.cf →
        sp.S k j = ‖gated t A (fun x => ((Real.exp (-(x - sp.DELAYS k j) ^ 2 / (2 * sigma ^ 2)) : ℝ) : ℂ)) p.cf (sp.FREQS k j)‖ := by
  obtain ⟨t, A, D, ext, hT, hA, hsp, -⟩ := C112_value h hn htw mapc sigma steps hs
  refine ⟨t, A, _, hT, hA, hsp, fun k j hk => ?_⟩
  simp only at hk ⊢
  rw [hk, show 2 * p.cf - p.cf = p.cf by ring]

/-- Four points, window 4 ps, centre 1/4 THz, a single line at frequency zero. -/
noncomputable def linePulse : Pulse :=
  { Pulse.blank with n := 4, cf := 1 / 4, tw := 4, ready := true, aw := some ⟨4, fftT fun m : Fin 4 => exp (I * ((Real.pi / 2 * ((m : ℕ) - 2) : ℝ) : ℂ))⟩ }

theorem linePulse_holds : Holds linePulse (fftT fun m : Fin 4 => exp (I * ((Real.pi / 2 * ((m : ℕ) - 2) : ℝ) : ℂ))) :=
  ⟨rfl, rfl, by norm_num, rfl⟩

/-- C112 refuted: the frequency axis is mirrored. -/
theorem C112_axis_refuted (sigma : ℝ) (steps : ℕ) (hs : 0 < steps) : ¬ AxisCorrect linePulse 4 sigma steps := by
  intro hax
  have htw : (0 : ℝ) < linePulse.tw := by norm_num [linePulse]
  obtain ⟨t, A, D, ext, hT, hA, hsp, -⟩ := C112_value linePulse_holds (by norm_num) htw (fun _ _ => 0) sigma steps hs
  have h1 := hax (fun _ _ => 0) t A _ hT hA hsp ⟨0, by norm_num⟩ ⟨0, hs⟩
  have hAe : A = fun m : Fin 4 => exp (I * ((Real.pi / 2 * ((m : ℕ) - 2) : ℝ) : ℂ)) := by
    have : (Except.ok ⟨4, A⟩ : Except PyErr (Vec ℂ)) = _ := hA.symm.trans linePulse_holds.AT_eq
    injection this with this
    injection this with _ this
    rw [this]
    exact ifftT_fftT _
  have hTe : t = fun m : Fin 4 => ((m : ℕ) : ℝ) - 2 := by
    have : (Except.ok ⟨4, t⟩ : Except PyErr (Vec ℝ)) = _ := hT.symm.trans linePulse_holds.T_eq
    injection this with this
    injection this with _ this
    rw [this]
    funext m
    norm_num [linePulse]
  set w : Fin 4 → ℝ := fun m => Real.exp (-(t m - D ⟨0, hs⟩) ^ 2 / (2 * sigma ^ 2)) with hw
  have hwp : ∀ m, 0 < w m := fun m => Real.exp_pos _
  have hcf : linePulse.cf = 1 / 4 := rfl
  have hR : gated t A (fun x => ((Real.exp (-(x - D ⟨0, hs⟩) ^ 2 / (2 * sigma ^ 2)) : ℝ) : ℂ)) linePulse.cf
      (((0 : ℕ) : ℝ) / linePulse.tw) = ((w 0 + w 1 + w 2 + w 3 : ℝ) : ℂ) := by
    unfold gated
    have : ∀ m : Fin 4, A m * ((Real.exp (-(t m - D ⟨0, hs⟩) ^ 2 / (2 * sigma ^ 2)) : ℝ) : ℂ) *
        exp (I * ((2 * Real.pi * (((0 : ℕ) : ℝ) / linePulse.tw - linePulse.cf) * t m : ℝ) : ℂ)) = ((w m : ℝ) : ℂ) := by
      intro m
      rw [hAe, hcf, mul_comm, ← mul_assoc, ← exp_add]
      have : I * ((2 * Real.pi * (((0 : ℕ) : ℝ) / linePulse.tw - 1 / 4) * t m : ℝ) : ℂ) +
          I * ((Real.pi / 2 * ((m : ℕ) - 2) : ℝ) : ℂ) = 0 := by
        rw [hTe]; push_cast; ring
      rw [this, exp_zero, one_mul]
    simp only [this, Fin.sum_univ_four]
    push_cast; rfl
  have hL : gated t A (fun x => ((Real.exp (-(x - D ⟨0, hs⟩) ^ 2 / (2 * sigma ^ 2)) : ℝ) : ℂ)) linePulse.cf
      (2 * linePulse.cf - ((0 : ℕ) : ℝ) / linePulse.tw) = ((w 0 - w 1 + w 2 - w 3 : ℝ) : ℂ) := by
    unfold gated
    have : ∀ m : Fin 4, A m * ((Real.exp (-(t m - D ⟨0, hs⟩) ^ 2 / (2 * sigma ^ 2)) : ℝ) : ℂ) *
        exp (I * ((2 * Real.pi * (2 * linePulse.cf - ((0 : ℕ) : ℝ) / linePulse.tw - linePulse.cf) * t m : ℝ) : ℂ)) =
        exp (Real.pi * I) ^ (m : ℕ) * ((w m : ℝ) : ℂ) := by
      intro m
      rw [hAe, hcf, mul_comm, ← mul_assoc, ← exp_add, ← exp_nat_mul]
      congr 1
      rw [exp_eq_exp_iff_exists_int]
      refine ⟨-1, ?_⟩
      rw [hTe]; push_cast; ring
    simp only [this, Fin.sum_univ_four, exp_pi_mul_I]
    push_cast
    simp
    ring
  simp only at h1
  rw [hR, hL, Complex.norm_real, Complex.norm_real, Real.norm_eq_abs, Real.norm_eq_abs] at h1
  have p0 := hwp 0; have p1 := hwp 1; have p2 := hwp 2; have p3 := hwp 3
  rw [abs_of_pos (by linarith : 0 < w 0 + w 1 + w 2 + w 3)] at h1
  rcases abs_cases (w 0 - w 1 + w 2 - w 3) with ⟨h2, -⟩ | ⟨h2, -⟩ <;> linarith

/-- C112: an unknown gate type raises `ValueError`. -/
theorem C112_errors (h : Holds p a) (htw : 0 < p.tw) (mapc : Vec ℝ → ℝ → ℝ) (kind : String)
    (h1 : kind ≠ "xfrog") (h2 : kind ≠ "frog") (sigma : ℝ) (steps : ℕ) :
    spectrogram mapc kind sigma steps p = .error .ValueError := by
  have hT : p.T_ps = .ok ⟨n, tgrid p n⟩ := h.T_eq
  unfold spectrogram
  simp only [hT, h.AT_eq, except_bind_ok, tgrid_min h.pos htw, tgrid_max h.pos htw, gate, if_neg h1, if_neg h2, except_bind_error]

/-- C112: the returned extent is (first delay, last delay, lowest frequency, highest frequency), for every gate. -/
theorem C112_extent (h : Holds p a) (hn : 2 ≤ n) (htw : 0 < p.tw) (mapc : Vec ℝ → ℝ → ℝ) {kind : String} (hk : kind = "xfrog" ∨ kind = "frog")
    (sigma : ℝ) (steps : ℕ) (hs : 2 ≤ steps) : ∃ sp, spectrogram mapc kind sigma steps p = .ok sp ∧
      sp.extent = (-p.tw / 2, p.tw / 2 - p.tw / n, 0, ((n / 2 : ℕ) - 1 : ℝ) / p.tw) := by
  have hn0 : 0 < n := by omega
  have hnr : (0 : ℝ) < n := by exact_mod_cast hn0
  obtain ⟨g, hg⟩ : ∃ g, gate mapc kind sigma ⟨n, tgrid p n⟩ (linspace (-p.tw / 2) (p.tw / 2 - p.tw / n) steps) ⟨n, ifftT a⟩ = .ok g := by
    rcases hk with rfl | rfl
    · exact ⟨_, by simp [gate]; rfl⟩
    · unfold gate
      rw [if_neg (by decide), if_pos rfl, Vec.item_of_lt _ (show 1 < (linspace (-p.tw / 2) (p.tw / 2 - p.tw / n) steps).len from hs),
        Vec.item_of_lt _ (show 1 < (⟨n, tgrid p n⟩ : Vec ℝ).len from hn), Vec.item_of_lt _ (show 0 < (⟨n, tgrid p n⟩ : Vec ℝ).len from hn0),
        tgrid_min hn0 htw]
      exact ⟨_, rfl⟩
  obtain ⟨ext, he, e1, e2, e3, e4⟩ := spectrogram_eq h hn htw.ne' mapc kind sigma steps (by omega) _ _ (tgrid_min hn0 htw) (tgrid_max hn0 htw) g hg
  have hsr : (0 : ℝ) < (steps : ℝ) - 1 := by
    have : (2 : ℝ) ≤ steps := by exact_mod_cast hs
    linarith
  have hspan : 0 ≤ p.tw / 2 - p.tw / n - -p.tw / 2 := by
    have : p.tw / n ≤ p.tw := div_le_self htw.le (by exact_mod_cast hn0)
    linarith
  have hm1 : Monotone fun j : Fin steps => -p.tw / 2 + (j : ℕ) * ((p.tw / 2 - p.tw / n - -p.tw / 2) / ((steps : ℝ) - 1)) := by
    intro i j hij
    have : ((i : ℕ) : ℝ) ≤ (j : ℕ) := by exact_mod_cast hij
    have := mul_le_mul_of_nonneg_right this (div_nonneg hspan hsr.le)
    simp only
    linarith
  have hm2 : Monotone fun k : Fin (n / 2) => ((k : ℕ) : ℝ) / p.tw := by
    intro i j hij
    have : ((i : ℕ) : ℝ) ≤ (j : ℕ) := by exact_mod_cast hij
    exact div_le_div_of_nonneg_right this htw.le
  rw [show linspace (-p.tw / 2) (p.tw / 2 - p.tw / n) steps =
    ⟨steps, fun j : Fin steps => -p.tw / 2 + (j : ℕ) * ((p.tw / 2 - p.tw / n - -p.tw / 2) / ((steps : ℝ) - 1))⟩ from rfl] at e1 e2
  rw [npMin_mono (by omega) hm1] at e1
  rw [npMax_mono (by omega) hm1] at e2
  rw [npMin_mono (by omega) hm2] at e3
  rw [npMax_mono (by omega) hm2] at e4
  refine ⟨_, he, ?_⟩
  have c1 : ((steps - 1 : ℕ) : ℝ) = (steps : ℝ) - 1 := by rw [Nat.cast_sub (by omega)]; simp
  have c2 : ((n / 2 - 1 : ℕ) : ℝ) = ((n / 2 : ℕ) : ℝ) - 1 := by rw [Nat.cast_sub (by omega)]; simp
  refine Prod.ext ?_ (Prod.ext ?_ (Prod.ext ?_ ?_))
  · simpa using (Except.ok.inj e1).symm
  · refine (Except.ok.inj e2).symm.trans ?_
    simp only [c1]
    field_simp
    ring
  · simpa using (Except.ok.inj e3).symm
  · refine (Except.ok.inj e4).symm.trans ?_
    simp only [c2]

/-- C112 for the gate `frog`: the gate is the field itself, delayed.  Whatever the interpolation does between samples, it must
reproduce the samples; then at every time and delay whose difference is a time of the grid the gate is the field at that time. -/
theorem C112_frog (h : Holds p a) (hn : 2 ≤ n) (htw : 0 < p.tw) (mapc : Vec ℝ → ℝ → ℝ) (hm : ∀ (v : Vec ℝ) (i : Fin v.len), mapc v (i : ℕ) = v.val i)
    (sigma : ℝ) (steps : ℕ) (hs : 2 ≤ steps) : ∃ (t : Fin n → ℝ) (A : Fin n → ℂ) (g : ℝ → ℝ → ℂ) (sp : Spectrogram), p.T_ps = .ok ⟨n, t⟩ ∧
      p.AT = .ok ⟨n, A⟩ ∧ spectrogram mapc "frog" sigma steps p = .ok sp ∧ sp.rows = n / 2 ∧ sp.cols = steps ∧
      (∀ k j, sp.S k j = ‖gated t A (fun x => g x (sp.DELAYS k j)) p.cf (2 * p.cf - sp.FREQS k j)‖) ∧
      ∀ x d q, x - d = t q → g x d = A q := by
  have hn0 : 0 < n := by omega
  have hnr : (n : ℝ) ≠ 0 := by positivity
  obtain ⟨g, hg, hgv⟩ : ∃ g, gate mapc "frog" sigma ⟨n, tgrid p n⟩ (linspace (-p.tw / 2) (p.tw / 2 - p.tw / n) steps) ⟨n, ifftT a⟩ = .ok g ∧
      ∀ x d q, x - d = tgrid p n q → g x d = ifftT a q := by
    unfold gate
    rw [if_neg (by decide), if_pos rfl, Vec.item_of_lt _ (show 1 < (linspace (-p.tw / 2) (p.tw / 2 - p.tw / n) steps).len from hs),
      Vec.item_of_lt _ (show 1 < (⟨n, tgrid p n⟩ : Vec ℝ).len from hn), Vec.item_of_lt _ (show 0 < (⟨n, tgrid p n⟩ : Vec ℝ).len from hn0),
      tgrid_min hn0 htw]
    refine ⟨_, rfl, fun x d q hq => ?_⟩
    have hc : (x - d - -p.tw / 2) / (tgrid p n ⟨1, hn⟩ - tgrid p n ⟨0, hn0⟩) = ((q : ℕ) : ℝ) := by
      rw [hq]
      simp only [tgrid]
      push_cast
      field_simp
      ring
    simp only
    rw [hc]
    have h1 := hm (Vec.map Complex.re ⟨n, ifftT a⟩) q
    have h2 := hm (Vec.map Complex.im ⟨n, ifftT a⟩) q
    rw [h1, h2]
    show ((ifftT a q).re : ℂ) + I * ((ifftT a q).im : ℂ) = _
    rw [mul_comm]
    exact re_add_im _
  obtain ⟨ext, he, -⟩ := spectrogram_eq h hn htw.ne' mapc "frog" sigma steps (by omega) _ _ (tgrid_min hn0 htw) (tgrid_max hn0 htw) g hg
  exact ⟨_, _, g, _, h.T_eq, h.AT_eq, he, rfl, rfl, fun _ _ => rfl, hgv⟩

/-- C112: no row shows a frequency at or above half the sampling rate, whatever the centre frequency. -/
theorem C112_rows_below_nyquist (h : Holds p a) (hn : 2 ≤ n) (htw : 0 < p.tw) (mapc : Vec ℝ → ℝ → ℝ) (sigma : ℝ) (steps : ℕ)
    (hs : 0 < steps) : ∃ sp, spectrogram mapc "xfrog" sigma steps p = .ok sp ∧
      ∀ k j, 0 ≤ sp.FREQS k j ∧ sp.FREQS k j < n / (2 * p.tw) := by
  obtain ⟨t, A, D, ext, hT, hA, hsp, -⟩ := C112_value h hn htw mapc sigma steps hs
  refine ⟨_, hsp, fun k j => ⟨by positivity, ?_⟩⟩
  simp only
  have hk : (k : ℕ) < n / 2 := k.isLt
  have h1 : (2 * (k : ℕ) : ℕ) < n := by omega
  have h2 : 2 * ((k : ℕ) : ℝ) < n := by exact_mod_cast h1
  rw [div_lt_div_iff₀ htw (by positivity)]
  nlinarith

theorem C112_nonvacuous : Holds linePulse (fftT fun m : Fin 4 => exp (I * ((Real.pi / 2 * ((m : ℕ) - 2) : ℝ) : ℂ))) ∧
    0 < linePulse.tw ∧ ((⟨1, by norm_num⟩ : Fin 2) : ℕ) / linePulse.tw = linePulse.cf :=
  ⟨linePulse_holds, by norm_num [linePulse], by norm_num [linePulse]⟩

end PyNLO.Pulse
