import Verif.Model.PulseMore
import Verif.Props.PulsePhase
import Mathlib.Algebra.Polynomial.Eval.Degree
import Mathlib.LinearAlgebra.Lagrange
import Mathlib.Analysis.Real.Pi.Bounds
import Mathlib.Algebra.BigOperators.Group.Finset.Basic

/-!
# C111: `dechirp_pulse` and `remove_time_delay` undo chirp and delay

For the unwrapping that `np.unwrap` performs and every fit that reproduces polynomial data.
-/

open scoped BigOperators

namespace PyNLO.Pulse

open Complex PyM

variable {n : ℕ} {p : Pulse} {a : Fin n → ℂ}

/-! ## Unwrapping -/

theorem unwrapStep_eq {d e : ℝ} (k : ℤ) (hd : d = e + 2 * Real.pi * k) (he : |e| < Real.pi) : unwrapStep d = e - d := by
  have hpi := Real.pi_pos
  obtain ⟨e1, e2⟩ := abs_lt.mp he
  have hm : fmod (d + Real.pi) (2 * Real.pi) = e + Real.pi := by
    unfold fmod
    have hf : ⌊(d + Real.pi) / (2 * Real.pi)⌋ = k := by
      rw [Int.floor_eq_iff, le_div_iff₀ (by positivity), div_lt_iff₀ (by positivity)]
      constructor <;> nlinarith
    rw [hf, hd]; ring
  unfold unwrapStep
  have hne : ¬ (e = -Real.pi ∧ 0 < d) := fun h => by linarith [h.1]
  simp only [hm, add_sub_cancel_right, if_neg hne]
  split_ifs with h
  · obtain ⟨d1, d2⟩ := abs_lt.mp h
    have hk : k = 0 := by
      have h1 : (k : ℝ) < 1 := by by_contra hc; push Not at hc; nlinarith
      have h2 : (-1 : ℝ) < k := by by_contra hc; push Not at hc; nlinarith
      have h3 : k < 1 := by exact_mod_cast h1
      have h4 : -1 < k := by exact_mod_cast h2
      omega
    rw [hd, hk]; simp
  · rfl

/-- `np.unwrap` recovers, up to a constant, every sequence whose steps are below `π`. -/
theorem npUnwrap_eq (x φ : Fin n → ℝ) (hx : ∀ i, ∃ k : ℤ, x i = φ i + 2 * Real.pi * k)
    (hφ : ∀ i (h : i + 1 < n), |φ ⟨i + 1, h⟩ - φ ⟨i, by omega⟩| < Real.pi) (i : Fin n) :
    npUnwrap x i = φ i + (x ⟨0, by have := i.isLt; omega⟩ - φ ⟨0, by have := i.isLt; omega⟩) := by
  have hi := i.isLt
  set u : ℕ → ℝ := fun j => if h : j < n then φ ⟨j, h⟩ - x ⟨j, h⟩ else 0 with hu
  have hu' : ∀ j (h : j < n), u j = φ ⟨j, h⟩ - x ⟨j, h⟩ := fun j h => dif_pos h
  have h1 : ∑ j : Fin i, unwrapStep (x ⟨j + 1, by omega⟩ - x ⟨j, by omega⟩) = u i - u 0 := by
    rw [← Finset.sum_range_sub u, ← Fin.sum_univ_eq_sum_range (fun j => u (j + 1) - u j)]
    refine Finset.sum_congr rfl fun j _ => ?_
    have hj : (j : ℕ) + 1 < n := by omega
    obtain ⟨k1, hk1⟩ := hx ⟨j + 1, hj⟩
    obtain ⟨k0, hk0⟩ := hx ⟨j, by omega⟩
    rw [unwrapStep_eq (e := φ ⟨j + 1, hj⟩ - φ ⟨j, by omega⟩) (k1 - k0) (by rw [hk1, hk0]; push_cast; ring) (hφ j hj),
      hu' _ hj, hu' j (by omega)]
    ring
  unfold npUnwrap
  rw [h1, hu' i hi, hu' 0 (by omega)]
  ring

/-- `np.unwrap` only adds multiples of `2π`, as C11 assumes. -/
theorem npUnwrap_int (x : Fin n → ℝ) (i : Fin n) : ∃ m : ℤ, npUnwrap x i = x i + 2 * Real.pi * m := by
  have key : ∀ d, ∃ m : ℤ, unwrapStep d = 2 * Real.pi * m := by
    intro d
    unfold unwrapStep
    simp only
    split_ifs with h1 h2 h3
    · exact ⟨0, by simp⟩
    · have h4 := h2.1
      unfold fmod at h4
      refine ⟨1 - ⌊(d + Real.pi) / (2 * Real.pi)⌋, ?_⟩
      push_cast
      linarith
    · refine ⟨-⌊(d + Real.pi) / (2 * Real.pi)⌋, ?_⟩
      unfold fmod
      push_cast
      ring
  choose f hf using key
  refine ⟨∑ j : Fin i, f (x ⟨j + 1, by omega⟩ - x ⟨j, by omega⟩), ?_⟩
  unfold npUnwrap
  rw [Int.cast_sum, Finset.mul_sum]
  congr 1
  exact Finset.sum_congr rfl fun j _ => hf _

/-! ## The fit -/

/-- A polynomial fit that reproduces polynomials: data on a polynomial of the fitted degree, at more abscissae than that
degree, yield that polynomial.  (Specification of `np.polyfit`.) -/
def ExactFit (polyfit : List (ℝ × ℝ) → ℕ → Except PyErr (ℝ → ℝ)) : Prop :=
  ∀ (data : List (ℝ × ℝ)) (deg : ℕ) (q : Polynomial ℝ), q.natDegree ≤ deg → deg < (data.map Prod.fst).toFinset.card →
    (∀ d ∈ data, d.2 = q.eval d.1) → polyfit data deg = .ok fun x => q.eval x

theorem masked_card (x y : Fin n → ℝ) (hx : Function.Injective x) (mask : Fin n → Prop) [DecidablePred mask] :
    ((masked x y mask).map Prod.fst).toFinset.card = (Finset.univ.filter mask).card := by
  classical
  have e : ((masked x y mask).map Prod.fst).toFinset = (Finset.univ.filter mask).image x := by
    ext z
    simp only [masked, List.mem_toFinset, List.mem_map, List.mem_filter, List.mem_finRange, true_and, decide_eq_true_eq,
      Finset.mem_image, Finset.mem_filter, Finset.mem_univ]
    constructor
    · rintro ⟨_, ⟨i, hi, rfl⟩, rfl⟩; exact ⟨i, hi, rfl⟩
    · rintro ⟨i, hi, rfl⟩; exact ⟨_, ⟨i, hi, rfl⟩, rfl⟩
  rw [e, Finset.card_image_of_injective _ hx]

theorem masked_mem {x y : Fin n → ℝ} {mask : Fin n → Prop} {d : ℝ × ℝ} (h : d ∈ masked x y mask) : ∃ i, d = (x i, y i) := by
  simp only [masked, List.mem_map] at h
  obtain ⟨i, -, rfl⟩ := h
  exact ⟨i, rfl⟩

/-- The indices of the fit: intensity above the threshold relative to the maximum. -/
def Bright (r : Fin n → ℝ) (thr : ℝ) (i : Fin n) : Prop := ∃ m, (∀ j, r j ≤ r m) ∧ thr * r m ^ 2 < r i ^ 2

open Classical in
theorem removePoly_exact (h : Holds p a) (htw : p.tw ≠ 0) (polyfit : List (ℝ × ℝ) → ℕ → Except PyErr (ℝ → ℝ))
    (hfit : ExactFit polyfit) (deg : ℕ) (thr : ℝ) (q : Polynomial ℝ) (hq : q.natDegree ≤ deg) (w : Fin n → ℝ)
    (hw : p.W_THz = .ok ⟨n, w⟩) (r : Fin n → ℝ) (hr : ∀ k, 0 < r k) (ha : ∀ k, a k = r k * exp (I * ((q.eval (w k) : ℝ) : ℂ)))
    (hstep : ∀ i (h : i + 1 < n), |q.eval (w ⟨i + 1, h⟩) - q.eval (w ⟨i, by omega⟩)| < Real.pi)
    (hmask : deg < (Finset.univ.filter (Bright r thr)).card) :
    removePolyPhase npUnwrap polyfit deg thr p = (.ok (), { p with aw := some ⟨n, fun k => (r k : ℂ)⟩ }) := by
  have hnorm : ∀ k, ‖a k‖ = r k := by
    intro k
    rw [ha, norm_mul, norm_exp_I_mul, mul_one, Complex.norm_real, Real.norm_eq_abs, abs_of_pos (hr k)]
  have hn := h.pos
  set c : ℝ := arg (a ⟨0, hn⟩) - q.eval (w ⟨0, hn⟩) with hc
  have hphase : ∀ k, npUnwrap (fun i => arg (a i)) k = q.eval (w k) + c := by
    intro k
    rw [npUnwrap_eq (fun i => arg (a i)) (fun i => q.eval (w i)) (fun i => ?_) hstep k]
    have h1 := norm_mul_exp_arg_mul_I (a i)
    rw [hnorm] at h1
    have h2 : exp (arg (a i) * I) = exp (I * ((q.eval (w i) : ℝ) : ℂ)) := by
      have := h1.trans (ha i)
      exact mul_left_cancel₀ (by exact_mod_cast (hr i).ne') this
    rw [exp_eq_exp_iff_exists_int] at h2
    obtain ⟨k, hk⟩ := h2
    refine ⟨k, ?_⟩
    have h3 : ((arg (a i) : ℝ) : ℂ) * I = ((q.eval (w i) + 2 * Real.pi * k : ℝ) : ℂ) * I := by
      rw [hk]; push_cast; ring
    have h4 := mul_right_cancel₀ I_ne_zero h3
    exact_mod_cast h4
  have hWeq := h.W_eq
  have hw' : w = fun i : Fin n => 2 * Real.pi * (((i : ℕ) : ℝ) - (n : ℝ) / 2) / p.tw + 2 * Real.pi * p.cf := by
    have : (Except.ok ⟨n, w⟩ : Except PyErr (Vec ℝ)) = _ := hw.symm.trans hWeq
    injection this with this
    injection this with _ this
  have hinj : Function.Injective w := by
    intro i j hij
    rw [hw'] at hij
    have hpi := Real.pi_pos
    have h1 : 2 * Real.pi * (((i : ℕ) : ℝ) - (n : ℝ) / 2) / p.tw = 2 * Real.pi * (((j : ℕ) : ℝ) - (n : ℝ) / 2) / p.tw := by
      simpa using hij
    rw [div_left_inj' htw] at h1
    have h2 := mul_left_cancel₀ (by positivity : (2 * Real.pi) ≠ 0) h1
    have h3 : ((i : ℕ) : ℝ) = (j : ℕ) := by linarith
    exact Fin.ext (by exact_mod_cast h3)
  have hcoinc : polyfit (masked w (npUnwrap fun i => arg (a i))
      (fun i => ∃ m, (∀ j, ‖a j‖ ≤ ‖a m‖) ∧ thr * ‖a m‖ ^ 2 < ‖a i‖ ^ 2)) deg = .ok fun x => (q + Polynomial.C c).eval x := by
    refine hfit _ _ _ ?_ ?_ ?_
    · exact (Polynomial.natDegree_add_C).trans_le hq
    · rw [masked_card _ _ hinj]
      refine hmask.trans_eq ?_
      congr 1
      refine Finset.filter_congr fun i _ => ?_
      simp only [Bright, hnorm]
    · intro d hd
      obtain ⟨i, rfl⟩ := masked_mem hd
      simp only [hphase, Polynomial.eval_add, Polynomial.eval_C]
  unfold removePolyPhase
  simp only [bind_apply, read_apply, hw, h.AW_eq, dite_true, PyM.lift_apply, Fin.cast_eq_self]
  rw [hcoinc]
  dsimp only
  rw [h.setAW_eq]
  congr 4
  funext k
  rw [hphase, hnorm, Polynomial.eval_add, Polynomial.eval_C, sub_self]
  simp

open Classical in
/-- C111: `dechirp_pulse` leaves exactly the amplitude of a pulse with quadratic spectral phase. -/
theorem C111_dechirp (h : Holds p a) (htw : p.tw ≠ 0) (polyfit : List (ℝ × ℝ) → ℕ → Except PyErr (ℝ → ℝ))
    (hfit : ExactFit polyfit) (thr : ℝ) (q : Polynomial ℝ) (hq : q.natDegree ≤ 2) (w : Fin n → ℝ)
    (hw : p.W_THz = .ok ⟨n, w⟩) (r : Fin n → ℝ) (hr : ∀ k, 0 < r k) (ha : ∀ k, a k = r k * exp (I * ((q.eval (w k) : ℝ) : ℂ)))
    (hstep : ∀ i (h : i + 1 < n), |q.eval (w ⟨i + 1, h⟩) - q.eval (w ⟨i, by omega⟩)| < Real.pi)
    (hmask : 2 < (Finset.univ.filter (Bright r thr)).card) :
    ∃ p', dechirpPulse npUnwrap polyfit thr p = (.ok (), p') ∧ p'.AW = .ok ⟨n, fun k => (r k : ℂ)⟩ ∧
      p'.W_THz = p.W_THz ∧ p'.T_ps = p.T_ps :=
  ⟨_, removePoly_exact h htw polyfit hfit 2 thr q hq w hw r hr ha hstep hmask, rfl, rfl, rfl⟩

open Classical in
/-- C111: chirping a transform-limited pulse by `GDD` and then calling `dechirp_pulse` restores it, as long as the phase step
between neighbouring frequencies stays below `π`: `2π·NPTS·|GDD| < window²`. -/
theorem C111_chirp_dechirp {r : Fin n → ℝ} (h : Holds p (fun k => (r k : ℂ))) (htw : p.tw ≠ 0) (hr : ∀ k, 0 < r k)
    (polyfit : List (ℝ × ℝ) → ℕ → Except PyErr (ℝ → ℝ)) (hfit : ExactFit polyfit) (thr GDD : ℝ)
    (hG : 2 * Real.pi * n * |GDD| < p.tw ^ 2) (hmask : 2 < (Finset.univ.filter (Bright r thr)).card) :
    ∃ p1 p2, chirpPulseW GDD 0 0 none p = (.ok (), p1) ∧ dechirpPulse npUnwrap polyfit thr p1 = (.ok (), p2) ∧ p2 = p := by
  have hpi := Real.pi_pos
  have h1 := h.chirpPulseW_eq GDD 0 0 none
  refine ⟨_, _, h1, ?_, rfl⟩
  have hfield : p.aw = some ⟨n, fun k => (r k : ℂ)⟩ := h.field
  have hback : p = { ({ p with aw := some ⟨n, fun i => chirpFactor GDD 0 0 (detuning p n none i) * (r i : ℂ)⟩ } : Pulse) with
      aw := some ⟨n, fun k => (r k : ℂ)⟩ } := by
    rw [← hfield]
  conv_rhs => rw [hback]
  set q : Polynomial ℝ := Polynomial.C (GDD / 2) * (Polynomial.X - Polynomial.C (2 * Real.pi * p.cf)) ^ 2 with hqdef
  have hev : ∀ x, q.eval x = GDD / 2 * (x - 2 * Real.pi * p.cf) ^ 2 := by intro x; simp [hqdef]
  refine removePoly_exact (h.update _) htw polyfit hfit 2 thr q ?_ _ (h.update _).W_eq r hr ?_ ?_ hmask
  · refine (Polynomial.natDegree_C_mul_le _ _).trans ((Polynomial.natDegree_pow_le).trans ?_)
    have := Polynomial.natDegree_X_sub_C_le (2 * Real.pi * p.cf)
    omega
  · intro k
    rw [hev, mul_comm, chirpFactor_eq]
    congr 2
    simp only [detuning]
    push_cast
    ring_nf
  · intro i hi
    rw [hev, hev]
    have hn : (0 : ℝ) < n := by exact_mod_cast h.pos
    have e : GDD / 2 * (2 * Real.pi * (((i + 1 : ℕ) : ℝ) - (n : ℝ) / 2) / p.tw + 2 * Real.pi * p.cf - 2 * Real.pi * p.cf) ^ 2 -
        GDD / 2 * (2 * Real.pi * ((i : ℝ) - (n : ℝ) / 2) / p.tw + 2 * Real.pi * p.cf - 2 * Real.pi * p.cf) ^ 2 =
        2 * Real.pi ^ 2 * GDD / p.tw ^ 2 * (2 * i + 1 - n) := by
      push_cast; field_simp; ring
    show |GDD / 2 * (2 * Real.pi * (((i + 1 : ℕ) : ℝ) - (n : ℝ) / 2) / p.tw + 2 * Real.pi * p.cf - 2 * Real.pi * p.cf) ^ 2 -
        GDD / 2 * (2 * Real.pi * ((i : ℝ) - (n : ℝ) / 2) / p.tw + 2 * Real.pi * p.cf - 2 * Real.pi * p.cf) ^ 2| < Real.pi
    rw [e, abs_mul]
    have h2 : |(2 * (i : ℝ) + 1 - n)| ≤ n := by
      have : (i : ℝ) + 1 < n := by exact_mod_cast hi
      have h0 : (0 : ℝ) ≤ i := Nat.cast_nonneg i
      rw [abs_le]; constructor <;> linarith
    have h3 : |2 * Real.pi ^ 2 * GDD / p.tw ^ 2| = 2 * Real.pi ^ 2 * |GDD| / p.tw ^ 2 := by
      rw [abs_div, abs_mul, abs_of_pos (by positivity : 0 < 2 * Real.pi ^ 2), abs_of_pos (by positivity : 0 < p.tw ^ 2)]
    have htw2 : 0 < p.tw ^ 2 := by positivity
    calc |2 * Real.pi ^ 2 * GDD / p.tw ^ 2| * |(2 * (i : ℝ) + 1 - n)|
        ≤ |2 * Real.pi ^ 2 * GDD / p.tw ^ 2| * n := mul_le_mul_of_nonneg_left h2 (abs_nonneg _)
      _ = Real.pi * ((2 * Real.pi * n * |GDD|) / p.tw ^ 2) := by rw [h3]; ring
      _ < Real.pi * 1 := mul_lt_mul_of_pos_left ((div_lt_one htw2).mpr hG) hpi
      _ = Real.pi := mul_one _

open Classical in
/-- C111: delaying a transform-limited pulse and then calling `remove_time_delay` restores it, for every delay that is not an
odd multiple of half the time window. -/
theorem C111_delay {r : Fin n → ℝ} (h : Holds p (fun k => (r k : ℂ))) (htw : p.tw ≠ 0) (hr : ∀ k, 0 < r k)
    (polyfit : List (ℝ × ℝ) → ℕ → Except PyErr (ℝ → ℝ)) (hfit : ExactFit polyfit) (thr t : ℝ)
    (ht : ∀ m : ℤ, t ≠ (2 * m + 1) * (p.tw / 2)) (hmask : 1 < (Finset.univ.filter (Bright r thr)).card) :
    ∃ p1 p2, addTimeOffset t p = (.ok (), p1) ∧ removeTimeDelay npUnwrap polyfit thr p1 = (.ok (), p2) ∧ p2 = p := by
  have hpi := Real.pi_pos
  have h1 := h.addTimeOffset_eq t
  refine ⟨_, _, h1, ?_, rfl⟩
  have hfield : p.aw = some ⟨n, fun k => (r k : ℂ)⟩ := h.field
  -- the whole number of turns per frequency step
  set m : ℤ := ⌊t / p.tw + 1 / 2⌋ with hm
  have hlo : (m : ℝ) ≤ t / p.tw + 1 / 2 := Int.floor_le _
  have hhi : t / p.tw + 1 / 2 < m + 1 := Int.lt_floor_add_one _
  have hne : t / p.tw ≠ m - 1 / 2 := by
    intro he
    refine ht (m - 1) ?_
    rw [div_eq_iff htw] at he
    rw [he]; push_cast; ring
  have habs : |t / p.tw - m| < 1 / 2 := by
    rw [abs_lt]
    refine ⟨?_, by linarith⟩
    rcases lt_or_eq_of_le hlo with h2 | h2
    · linarith
    · exact absurd (by linarith) hne
  set w0 : ℝ := 2 * Real.pi * ((0 : ℝ) - (n : ℝ) / 2) / p.tw + 2 * Real.pi * p.cf with hw0
  set q : Polynomial ℝ := Polynomial.C (-t) * Polynomial.X + Polynomial.C (m * p.tw) * (Polynomial.X - Polynomial.C w0) with hqdef
  have hev : ∀ x, q.eval x = -t * x + m * p.tw * (x - w0) := by intro x; simp [hqdef]
  have key := removePoly_exact (p := { p with aw := some ⟨n, fun k => (r k : ℂ) * exp (-I *
      ((2 * Real.pi * ((k : ℕ) - (n : ℝ) / 2) / p.tw + 2 * Real.pi * p.cf : ℝ) : ℂ) * (t : ℂ))⟩ }) (h.update _) htw polyfit hfit 1 thr q
      ?_ _ (h.update _).W_eq r hr ?_ ?_ hmask
  · refine key.trans ?_
    rw [← hfield]
  · refine (Polynomial.natDegree_add_le _ _).trans (max_le ?_ ?_)
    · exact (Polynomial.natDegree_C_mul_le _ _).trans Polynomial.natDegree_X_le
    · exact (Polynomial.natDegree_C_mul_le _ _).trans (Polynomial.natDegree_X_sub_C_le _)
  · intro k
    rw [hev]
    congr 1
    rw [exp_eq_exp_iff_exists_int]
    refine ⟨-(m * (k : ℕ)), ?_⟩
    have e : m * p.tw * (2 * Real.pi * ((k : ℕ) - (n : ℝ) / 2) / p.tw + 2 * Real.pi * p.cf - w0) = 2 * Real.pi * (m * (k : ℕ)) := by
      rw [hw0]; field_simp; ring
    rw [e]
    push_cast
    ring
  · intro i hi
    rw [hev, hev]
    show |-t * (2 * Real.pi * (((i + 1 : ℕ) : ℝ) - (n : ℝ) / 2) / p.tw + 2 * Real.pi * p.cf) +
        m * p.tw * (2 * Real.pi * (((i + 1 : ℕ) : ℝ) - (n : ℝ) / 2) / p.tw + 2 * Real.pi * p.cf - w0) -
        (-t * (2 * Real.pi * ((i : ℝ) - (n : ℝ) / 2) / p.tw + 2 * Real.pi * p.cf) +
        m * p.tw * (2 * Real.pi * ((i : ℝ) - (n : ℝ) / 2) / p.tw + 2 * Real.pi * p.cf - w0))| < Real.pi
    have e : -t * (2 * Real.pi * (((i + 1 : ℕ) : ℝ) - (n : ℝ) / 2) / p.tw + 2 * Real.pi * p.cf) +
        m * p.tw * (2 * Real.pi * (((i + 1 : ℕ) : ℝ) - (n : ℝ) / 2) / p.tw + 2 * Real.pi * p.cf - w0) -
        (-t * (2 * Real.pi * ((i : ℝ) - (n : ℝ) / 2) / p.tw + 2 * Real.pi * p.cf) +
        m * p.tw * (2 * Real.pi * ((i : ℝ) - (n : ℝ) / 2) / p.tw + 2 * Real.pi * p.cf - w0)) = -(2 * Real.pi) * (t / p.tw - m) := by
      push_cast; field_simp; ring
    rw [e, abs_mul, abs_neg, abs_of_pos (by positivity : 0 < 2 * Real.pi)]
    nlinarith

/-- A fit as specified exists. -/
theorem exists_exactFit : ∃ polyfit, ExactFit polyfit := by
  classical
  refine ⟨fun data deg => if h : ∃ q : Polynomial ℝ, q.natDegree ≤ deg ∧ ∀ d ∈ data, d.2 = q.eval d.1 then
    .ok fun x => h.choose.eval x else .error .ValueError, fun data deg q hq hc hd => ?_⟩
  have hex : ∃ q : Polynomial ℝ, q.natDegree ≤ deg ∧ ∀ d ∈ data, d.2 = q.eval d.1 := ⟨q, hq, hd⟩
  show (if h : _ then _ else _) = _
  rw [dif_pos hex]
  obtain ⟨h1, h2⟩ := hex.choose_spec
  have : hex.choose = q := by
    refine Polynomial.eq_of_degrees_lt_of_eval_finset_eq (data.map Prod.fst).toFinset ?_ ?_ ?_
    · exact (Polynomial.degree_le_of_natDegree_le h1).trans_lt (by exact_mod_cast hc)
    · exact (Polynomial.degree_le_of_natDegree_le hq).trans_lt (by exact_mod_cast hc)
    · intro x hx
      simp only [List.mem_toFinset, List.mem_map] at hx
      obtain ⟨d, hd', rfl⟩ := hx
      rw [← h2 d hd', ← hd d hd']
  rw [this]

open Classical in
/-- A flat spectrum of eight points on a window of 10 ps meets the hypotheses with chirp 1 ps² and delay 1 ps. -/
theorem C111_nonvacuous : ∃ p : Pulse, Holds p (fun _ : Fin 8 => ((1 : ℝ) : ℂ)) ∧ p.tw = 10 ∧
    2 * Real.pi * (8 : ℕ) * |(1 : ℝ)| < p.tw ^ 2 ∧ 2 < (Finset.univ.filter (Bright (fun _ : Fin 8 => (1 : ℝ)) 0.05)).card ∧
    (∀ m : ℤ, (1 : ℝ) ≠ (2 * m + 1) * (p.tw / 2)) ∧ ∃ polyfit, ExactFit polyfit := by
  refine ⟨{ Pulse.blank with n := 8, cf := 200, tw := 10, ready := true, aw := some ⟨8, fun _ => ((1 : ℝ) : ℂ)⟩ },
    ⟨rfl, rfl, by norm_num, rfl⟩, rfl, ?_, ?_, ?_, exists_exactFit⟩
  · have := Real.pi_lt_d2
    norm_num
    linarith
  · rw [Finset.filter_true_of_mem]
    · simp
    · intro i _
      exact ⟨i, fun _ => le_refl _, by norm_num⟩
  · intro m hm
    have h1 : (1 : ℝ) = ((5 * (2 * m + 1) : ℤ) : ℝ) := by push_cast; linarith
    have h2 : (1 : ℤ) = 5 * (2 * m + 1) := by exact_mod_cast h1
    omega

end PyNLO.Pulse
