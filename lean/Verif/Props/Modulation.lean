import Verif.Lemmas.NlseStable
import Verif.Props.SelfPhase
import Verif.Props.Soliton

/-!
# C161: modulation instability

Weak sidebands of a continuous wave: their growth, or its absence, in the equation on the grid and in what `propagate` returns.
-/

namespace PyNLO.Modulation

open Complex Ssfm Pulse Set Nlse OdeGlobal

variable {n : ℕ}

/-- the wave of unit amplitude in bin `k`: `exp(-i·Ω_k·t_j)` with `Ω_k = 2π(k - n/2)/T` and `t_j = (j - n/2)·T/n` -/
noncomputable def tone (k : Fin n) : Fin n → ℂ := fun j => rootE n (-((((k : ℕ) : ℤ) - ((n / 2 : ℕ) : ℤ)) * (((j : ℕ) : ℤ) - ((n / 2 : ℕ) : ℤ))))

theorem norm_tone (k j : Fin n) : ‖tone k j‖ = 1 := norm_rootE _

theorem tone_conj (k j : Fin n) : tone k j * (starRingEnd ℂ) (tone k j) = 1 := by
  rw [mul_conj, normSq_eq_norm_sq, norm_tone]
  simp

theorem toTime_single (he : n % 2 = 0) (k : Fin n) : Gnlse.toTime (fun l => if l = k then 1 else 0) = tone k := by
  funext j
  have hn : n ≠ 0 := by have := j.isLt; omega
  show fft (fftshift fun l => if l = k then (1 : ℂ) else 0) (rollIdx (-((n / 2 : ℕ) : ℤ)) j) = _
  unfold fft
  rw [Finset.sum_eq_single (rollIdx (-((n / 2 : ℕ) : ℤ)) k)]
  · have h1 : fftshift (fun l => if l = k then (1 : ℂ) else 0) (rollIdx (-((n / 2 : ℕ) : ℤ)) k) = 1 := by
      show (if rollIdx _ (rollIdx _ k) = k then (1 : ℂ) else 0) = 1
      rw [rollIdx_rollIdx, show -((n / 2 : ℕ) : ℤ) + ((n / 2 : ℕ) : ℤ) = 0 by ring, rollIdx_zero, if_pos rfl]
    rw [h1, one_mul]
    unfold tone
    refine rootE_congr_of_dvd hn ?_
    rw [rollIdx_coe, rollIdx_coe]
    have e : ∀ k : Fin n, ∃ c : ℤ, ((k : ℕ) - -((n / 2 : ℕ) : ℤ)) % n = ((k : ℕ) : ℤ) - ((n / 2 : ℕ) : ℤ) + n * c := by
      intro k
      refine ⟨1 - ((k : ℕ) - -((n / 2 : ℕ) : ℤ)) / n, ?_⟩
      have h2 := Int.emod_add_mul_ediv ((k : ℕ) - -((n / 2 : ℕ) : ℤ)) n
      have h3 : ((n : ℕ) : ℤ) = 2 * ((n / 2 : ℕ) : ℤ) := by omega
      have h4 : (n : ℤ) * (1 - ((k : ℕ) - -((n / 2 : ℕ) : ℤ)) / n) = n - n * (((k : ℕ) - -((n / 2 : ℕ) : ℤ)) / n) := by ring
      rw [h4]
      linarith
    obtain ⟨c, hc⟩ := e k
    obtain ⟨d, hd⟩ := e j
    rw [hc, hd]
    refine ⟨-((((k : ℕ) : ℤ) - ((n / 2 : ℕ) : ℤ)) * d + c * (((j : ℕ) : ℤ) - ((n / 2 : ℕ) : ℤ)) + n * c * d), ?_⟩
    ring
  · intro l _ hl
    have h1 : fftshift (fun l => if l = k then (1 : ℂ) else 0) l = 0 := by
      show (if rollIdx _ l = k then (1 : ℂ) else 0) = 0
      refine if_neg fun hk => hl ?_
      rw [← hk, rollIdx_rollIdx, show ((n / 2 : ℕ) : ℤ) + -((n / 2 : ℕ) : ℤ) = 0 by ring, rollIdx_zero]
    rw [h1, zero_mul]
  · exact fun h => absurd (Finset.mem_univ _) h

theorem toFreq_toTime (X : Fin n → ℂ) : Gnlse.toFreq (Gnlse.toTime X) = X := by
  unfold Gnlse.toTime Gnlse.toFreq
  rw [fftshift_ifftshift, ifft_fft, ifftshift_fftshift]

theorem toFreq_tone (he : n % 2 = 0) (k : Fin n) : Gnlse.toFreq (tone k) = fun l => if l = k then 1 else 0 := by
  rw [← toTime_single he, toFreq_toTime]

theorem tone_oneBin (he : n % 2 = 0) (k : Fin n) : OneBin (tone k) k := fun l hl => by rw [toFreq_tone he]; exact if_neg hl

/-- waves at equal distances from a third -/
theorem tone_mul {c p m : Fin n} (h : (p : ℕ) + (m : ℕ) = 2 * (c : ℕ)) (j : Fin n) : tone p j * tone m j = tone c j * tone c j := by
  unfold tone
  rw [← rootE_add, ← rootE_add]
  congr 1
  have h' : ((p : ℕ) : ℤ) + ((m : ℕ) : ℤ) = 2 * ((c : ℕ) : ℤ) := by exact_mod_cast h
  linear_combination -(((j : ℕ) : ℤ) - ((n / 2 : ℕ) : ℤ)) * h'

/-- `E_c²·conj E_m = E_p` -/
theorem tone_conj_mul {c p m : Fin n} (h : (p : ℕ) + (m : ℕ) = 2 * (c : ℕ)) (j : Fin n) :
    tone c j * tone c j * (starRingEnd ℂ) (tone m j) = tone p j := by
  rw [← tone_mul h, mul_assoc, tone_conj, mul_one]

/-- two sidebands of amplitudes `x` and `y` -/
noncomputable def pair (p m : Fin n) (x y : ℂ) : Fin n → ℂ := fun j => x * tone p j + y * tone m j

theorem norm_pair_le (p m : Fin n) (x y : ℂ) (j : Fin n) : ‖pair p m x y j‖ ≤ ‖x‖ + ‖y‖ := by
  unfold pair
  refine (norm_add_le _ _).trans ?_
  rw [norm_mul, norm_mul, norm_tone, norm_tone, mul_one, mul_one]

/-- amplitude of a sideband: `C` and `S` solve `C' = Γ·S`, `S' = C` with `Γ = q² - (σ+q)²` -/
noncomputable def side (q σ δ : ℝ) (C S : ℝ → ℝ) (x0 y0 : ℂ) (z : ℝ) : ℂ :=
  exp (I * ((δ * z : ℝ) : ℂ)) * ((C z : ℂ) * x0 + (S z : ℂ) * (I * ((σ + q : ℝ) : ℂ) * x0 + I * (q : ℂ) * (starRingEnd ℂ) y0))

/-- the two functions that describe the growth -/
structure Growth (Γ : ℝ) (C S : ℝ → ℝ) : Prop where
  c : ∀ z, HasDerivAt C (Γ * S z) z
  s : ∀ z, HasDerivAt S (C z) z
  c0 : C 0 = 1
  s0 : S 0 = 0

theorem side_hasDerivAt {q σ δ : ℝ} {C S : ℝ → ℝ} (h : Growth (q ^ 2 - (σ + q) ^ 2) C S) (x0 y0 : ℂ) (z : ℝ) :
    HasDerivAt (side q σ δ C S x0 y0) (I * ((σ + δ + q : ℝ) : ℂ) * side q σ δ C S x0 y0 z +
      I * (q : ℂ) * (starRingEnd ℂ) (side q σ (-δ) C S y0 x0 z)) z := by
  have h0 : HasDerivAt (fun z : ℝ => ((δ * z : ℝ) : ℂ)) ((δ * 1 : ℝ) : ℂ) z := ((hasDerivAt_id z).const_mul δ).ofReal_comp
  have h1 := (h0.const_mul I).cexp
  have h2 := ((h.c z).ofReal_comp.mul_const x0).add ((h.s z).ofReal_comp.mul_const (I * ((σ + q : ℝ) : ℂ) * x0 + I * (q : ℂ) * (starRingEnd ℂ) y0))
  have h3 := h1.mul h2
  refine h3.congr_deriv ?_
  unfold side
  have e : (starRingEnd ℂ) (exp (I * ((-δ * z : ℝ) : ℂ))) = exp (I * ((δ * z : ℝ) : ℂ)) := by
    rw [← exp_conj, map_mul, conj_I, conj_ofReal]
    congr 1
    push_cast
    ring
  simp only [map_mul, map_add, e, conj_ofReal, conj_I, conj_conj, Pi.add_apply]
  push_cast
  generalize exp (I * (↑δ * ↑z)) = E
  linear_combination E * (S z : ℂ) * q * ((σ + q) * (starRingEnd ℂ) y0 + q * x0 - (σ + q) * (starRingEnd ℂ) y0 - q * x0) - E * (S z : ℂ) * x0 * (σ + q) ^ 2 * (I_sq) - E * (S z : ℂ) * x0 * (-(q:ℂ) ^ 2) * I_sq

theorem side_zero {q σ δ Γ : ℝ} {C S : ℝ → ℝ} (h : Growth Γ C S) (x0 y0 : ℂ) : side q σ δ C S x0 y0 0 = x0 := by
  unfold side
  rw [h.c0, h.s0]
  simp

/-- the field with weak sidebands: `e^{iφ}·(a·E_c + ε·(x·E_p + y·E_m))` -/
noncomputable def comb (c p m : Fin n) (φ a ε : ℝ) (x y : ℂ) : Fin n → ℂ := fun j =>
  exp (I * (φ : ℂ)) * ((a : ℂ) * tone c j + (ε : ℂ) * pair p m x y j)

theorem norm_comb_le (c p m : Fin n) (φ a : ℝ) {ε : ℝ} (hε : 0 ≤ ε) (x y : ℂ) (j : Fin n) :
    ‖comb c p m φ a ε x y j‖ ≤ |a| + ε * (‖x‖ + ‖y‖) := by
  unfold comb
  rw [norm_mul, mul_comm I, norm_exp_ofReal_mul_I, one_mul]
  refine (norm_add_le _ _).trans ?_
  rw [norm_mul, norm_mul, norm_tone, mul_one, norm_real, norm_real, Real.norm_eq_abs, Real.norm_eq_abs, abs_of_nonneg hε]
  gcongr
  exact norm_pair_le _ _ _ _ _

theorem toFreq_add (A B : Fin n → ℂ) : Gnlse.toFreq (fun j => A j + B j) = fun k => Gnlse.toFreq A k + Gnlse.toFreq B k := by
  have h : Gnlse.toFreq (A + B) = Gnlse.toFreq A + Gnlse.toFreq B := by
    unfold Gnlse.toFreq
    rw [show fftshift (A + B) = fun j => fftshift A j + fftshift B j from rfl, ifft_add]
    rfl
  exact h

theorem toTime_add (A B : Fin n → ℂ) : Gnlse.toTime (fun j => A j + B j) = fun k => Gnlse.toTime A k + Gnlse.toTime B k := by
  have h : Gnlse.toTime (A + B) = Gnlse.toTime A + Gnlse.toTime B := by
    unfold Gnlse.toTime
    rw [show fftshift (A + B) = fun j => fftshift A j + fftshift B j from rfl, fft_add]
    rfl
  exact h

/-- spectrum of the field with sidebands -/
theorem toFreq_comb (he : n % 2 = 0) (c p m : Fin n) (φ a ε : ℝ) (x y : ℂ) (k : Fin n) : Gnlse.toFreq (comb c p m φ a ε x y) k =
    exp (I * (φ : ℂ)) * ((a : ℂ) * (if k = c then 1 else 0) + (ε : ℂ) * (x * (if k = p then 1 else 0) + y * (if k = m then 1 else 0))) := by
  unfold comb pair
  rw [toFreq_smul, toFreq_add, toFreq_smul, toFreq_smul, toFreq_add, toFreq_smul, toFreq_smul, toFreq_tone he, toFreq_tone he, toFreq_tone he]

/-- dispersion of the field with sidebands -/
theorem respond_comb (he : n % 2 = 0) (c p m : Fin n) (φ a ε : ℝ) (x y : ℂ) (b : Fin n → ℂ) : respond b (comb c p m φ a ε x y) = fun j =>
    exp (I * (φ : ℂ)) * ((a : ℂ) * (b c * tone c j) + (ε : ℂ) * (x * (b p * tone p j) + y * (b m * tone m j))) := by
  have key : ∀ k, b k * Gnlse.toFreq (comb c p m φ a ε x y) k = Gnlse.toFreq (fun j =>
    exp (I * (φ : ℂ)) * ((a : ℂ) * (b c * tone c j) + (ε : ℂ) * (x * (b p * tone p j) + y * (b m * tone m j)))) k := by
    intro k
    rw [toFreq_comb he, toFreq_smul, toFreq_add, toFreq_smul, toFreq_smul, toFreq_smul, toFreq_add, toFreq_smul, toFreq_smul, toFreq_smul, toFreq_smul,
      toFreq_tone he, toFreq_tone he, toFreq_tone he]
    have e : ∀ l, b k * (if k = l then (1 : ℂ) else 0) = b l * (if k = l then 1 else 0) := by
      intro l
      split_ifs with h
      · rw [h]
      · simp
    linear_combination exp (I * (φ : ℂ)) * (a * e c + ε * (x * e p + y * e m))
  unfold respond
  rw [show (fun k => b k * Gnlse.toFreq (comb c p m φ a ε x y) k) = _ from funext key, toTime_toFreq]

/-- what the linear theory leaves out -/
noncomputable def rest (γ : ℝ) (c p m : Fin n) (φ a ε : ℝ) (x y : ℂ) : Fin n → ℂ := fun j =>
  let A : ℂ := (a : ℂ) * tone c j;
  let B : ℂ := (ε : ℂ) * pair p m x y j;
  -(I * γ * exp (I * (φ : ℂ)) * (2 * A * (B * (starRingEnd ℂ) B) + (starRingEnd ℂ) A * B * B + B * (starRingEnd ℂ) B * B))

theorem norm_rest_le (γ : ℝ) (c p m : Fin n) (φ a : ℝ) {ε W : ℝ} (hε : 0 ≤ ε) (hε1 : ε ≤ 1) {x y : ℂ} (hW : ‖x‖ + ‖y‖ ≤ W) (j : Fin n) :
    ‖rest γ c p m φ a ε x y j‖ ≤ |γ| * (3 * |a| * W ^ 2 + W ^ 3) * ε ^ 2 := by
  have hA : ‖(a : ℂ) * tone c j‖ = |a| := by rw [norm_mul, norm_tone, mul_one, norm_real, Real.norm_eq_abs]
  have hB : ‖(ε : ℂ) * pair p m x y j‖ ≤ ε * W := by
    rw [norm_mul, norm_real, Real.norm_eq_abs, abs_of_nonneg hε]
    exact mul_le_mul_of_nonneg_left ((norm_pair_le _ _ _ _ _).trans hW) hε
  have hW0 : 0 ≤ W := le_trans (by positivity) hW
  unfold rest
  simp only
  generalize (a : ℂ) * tone c j = A at hA ⊢
  generalize (ε : ℂ) * pair p m x y j = B at hB ⊢
  rw [norm_neg, norm_mul, norm_mul, norm_mul, norm_I, one_mul, norm_real, Real.norm_eq_abs, mul_comm I, norm_exp_ofReal_mul_I, mul_one, mul_assoc |γ|]
  refine mul_le_mul_of_nonneg_left ?_ (abs_nonneg γ)
  refine (norm_add₃_le).trans ?_
  simp only [norm_mul, RCLike.norm_conj, hA, Complex.norm_ofNat]
  have h1 : ‖B‖ * ‖B‖ ≤ ε * W * (ε * W) := mul_le_mul hB hB (norm_nonneg _) (by positivity)
  have h2 : ‖B‖ * ‖B‖ * ‖B‖ ≤ ε * W * (ε * W) * (ε * W) := mul_le_mul h1 hB (norm_nonneg _) (by positivity)
  have h3 : |a| * (‖B‖ * ‖B‖) ≤ |a| * (ε * W * (ε * W)) := mul_le_mul_of_nonneg_left h1 (abs_nonneg a)
  have h4 : ε * W * (ε * W) * (ε * W) ≤ W ^ 3 * ε ^ 2 := by
    have : ε * (W ^ 3 * ε ^ 2) ≤ 1 * (W ^ 3 * ε ^ 2) := mul_le_mul_of_nonneg_right hε1 (by positivity)
    nlinarith
  nlinarith

/-- the right-hand side on a field with sidebands -/
theorem rhs_comb (he : n % 2 = 0) {c p m : Fin n} (h : (p : ℕ) + (m : ℕ) = 2 * (c : ℕ)) (β : Fin n → ℝ) (γ φ a ε : ℝ) (x y : ℂ) :
    Gnlse.rhs β 0 (fun _ => 1) γ (comb c p m φ a ε x y) + rest γ c p m φ a ε x y = fun j =>
      exp (I * (φ : ℂ)) * ((a : ℂ) * (I * ((β c + γ * a ^ 2 : ℝ) : ℂ) * tone c j) + (ε : ℂ) *
        ((I * ((β p + 2 * (γ * a ^ 2) : ℝ) : ℂ) * x + I * ((γ * a ^ 2 : ℝ) : ℂ) * (starRingEnd ℂ) y) * tone p j +
          (I * ((β m + 2 * (γ * a ^ 2) : ℝ) : ℂ) * y + I * ((γ * a ^ 2 : ℝ) : ℂ) * (starRingEnd ℂ) x) * tone m j)) := by
  have h' : (m : ℕ) + (p : ℕ) = 2 * (c : ℕ) := by omega
  have hr : ∀ x : Fin n → ℂ, respond (fun _ => 1) x = x := by
    intro x
    unfold respond
    simp only [one_mul]
    exact toTime_toFreq x
  funext j
  rw [rhs_split, respond_comb he, hr]
  simp only [Pi.add_apply]
  have e1 := tone_conj c j
  have e2 := tone_conj_mul h j
  have e3 := tone_conj_mul h' j
  have e4 : exp (I * (φ : ℂ)) * (starRingEnd ℂ) (exp (I * (φ : ℂ))) = 1 := by
    rw [mul_conj, normSq_eq_norm_sq, mul_comm I, norm_exp_ofReal_mul_I]
    simp
  unfold power rest comb pair
  simp only [map_mul, map_add, conj_ofReal]
  generalize exp (I * (φ : ℂ)) = E at e4 ⊢
  generalize (starRingEnd ℂ) E = E' at e4 ⊢
  generalize tone c j = tc at e1 e2 e3 ⊢
  generalize tone p j = tp at e2 e3 ⊢
  generalize tone m j = tm at e2 e3 ⊢
  generalize (starRingEnd ℂ) tc = tc' at e1 e2 e3 ⊢
  generalize (starRingEnd ℂ) tp = tp' at e2 e3 ⊢
  generalize (starRingEnd ℂ) tm = tm' at e2 e3 ⊢
  generalize (starRingEnd ℂ) x = x'
  generalize (starRingEnd ℂ) y = y'
  push_cast
  set D : ℂ := a * tc + ε * (x * tp + y * tm) with hD
  set D' : ℂ := a * tc' + ε * (x' * tp' + y' * tm') with hD'
  have f1 : I * γ * (E * D) * (E * D * (E' * D')) = I * γ * E * (D * D * D') := by
    linear_combination I * γ * E * D * D * D' * e4
  rw [f1]
  have f2 : D * D * D' = a ^ 3 * tc + 2 * a ^ 2 * ε * (x * tp + y * tm) + a ^ 2 * ε * (x' * tm + y' * tp) +
      (2 * (a * tc) * (ε * (x * tp + y * tm) * (ε * (x' * tp' + y' * tm'))) + a * tc' * (ε * (x * tp + y * tm)) * (ε * (x * tp + y * tm)) +
        ε * (x * tp + y * tm) * (ε * (x' * tp' + y' * tm')) * (ε * (x * tp + y * tm))) := by
    rw [hD, hD']
    linear_combination (a ^ 3 * tc + 2 * a ^ 2 * ε * (x * tp + y * tm)) * e1 + a ^ 2 * ε * y' * e2 + a ^ 2 * ε * x' * e3
  rw [f2]
  ring

/-- mean of the mismatches of the two sidebands against the wave -/
noncomputable def mean (β : Fin n → ℝ) (c p m : Fin n) : ℝ := (β p + β m) / 2 - β c

/-- half the difference of the mismatches -/
noncomputable def walk (β : Fin n → ℝ) (p m : Fin n) : ℝ := (β p - β m) / 2

/-- linear theory: the wave turns with `β_c + γ·a²`, the sidebands follow `side` -/
noncomputable def linear (β : Fin n → ℝ) (γ a ε : ℝ) (c p m : Fin n) (C S : ℝ → ℝ) (x0 y0 : ℂ) (z : ℝ) : Fin n → ℂ :=
  comb c p m ((β c + γ * a ^ 2) * z) a ε (side (γ * a ^ 2) (mean β c p m) (walk β p m) C S x0 y0 z)
    (side (γ * a ^ 2) (mean β c p m) (-walk β p m) C S y0 x0 z)

theorem linear_hasDerivAt (he : n % 2 = 0) {c p m : Fin n} (h : (p : ℕ) + (m : ℕ) = 2 * (c : ℕ)) (β : Fin n → ℝ) (γ a ε : ℝ) {C S : ℝ → ℝ}
    (hg : Growth ((γ * a ^ 2) ^ 2 - (mean β c p m + γ * a ^ 2) ^ 2) C S) (x0 y0 : ℂ) (z : ℝ) :
    HasDerivAt (linear β γ a ε c p m C S x0 y0) (Gnlse.rhs β 0 (fun _ => 1) γ (linear β γ a ε c p m C S x0 y0 z) +
      rest γ c p m ((β c + γ * a ^ 2) * z) a ε (side (γ * a ^ 2) (mean β c p m) (walk β p m) C S x0 y0 z)
        (side (γ * a ^ 2) (mean β c p m) (-walk β p m) C S y0 x0 z)) z := by
  unfold linear
  rw [rhs_comb he h, hasDerivAt_pi]
  intro j
  have hx := side_hasDerivAt (δ := walk β p m) hg x0 y0 z
  have hy := side_hasDerivAt (δ := -walk β p m) hg y0 x0 z
  rw [neg_neg] at hy
  have h0 : HasDerivAt (fun z : ℝ => (((β c + γ * a ^ 2) * z : ℝ) : ℂ)) (((β c + γ * a ^ 2) * 1 : ℝ) : ℂ) z :=
    ((hasDerivAt_id z).const_mul (β c + γ * a ^ 2)).ofReal_comp
  have h1 := (h0.const_mul I).cexp
  have h2 := (((hx.mul_const (tone p j)).add (hy.mul_const (tone m j))).const_mul (ε : ℂ)).const_add ((a : ℂ) * tone c j)
  refine (h1.mul h2).congr_deriv ?_
  simp only [Pi.add_apply]
  generalize side (γ * a ^ 2) (mean β c p m) (walk β p m) C S x0 y0 z = x
  generalize side (γ * a ^ 2) (mean β c p m) (-walk β p m) C S y0 x0 z = y
  generalize exp (I * (((β c + γ * a ^ 2) * z : ℝ) : ℂ)) = E
  unfold mean walk
  push_cast
  ring

/-- constant of the error of the linear theory -/
noncomputable def second (n : ℕ) (γ a W L : ℝ) : ℝ := n * (|γ| * (3 * |a| * W ^ 2 + W ^ 3)) ^ 2 * Real.exp ((6 * |γ| * (|a| + W + 1) ^ 2 + 1) * L)

theorem second_nonneg (n : ℕ) (γ a W L : ℝ) : 0 ≤ second n γ a W L := by unfold second; positivity

/-- C161: the equation on the grid, without Raman scattering, gain and self-steepening: a continuous wave with weak sidebands at equal
distances follows the linear theory up to the square of the amplitude of the sidebands, over every length. -/
theorem C161_linear (he : n % 2 = 0) {c p m : Fin n} (h : (p : ℕ) + (m : ℕ) = 2 * (c : ℕ)) (β : Fin n → ℝ) (γ a : ℝ) {C S : ℝ → ℝ}
    (hg : Growth ((γ * a ^ 2) ^ 2 - (mean β c p m + γ * a ^ 2) ^ 2) C S) (x0 y0 : ℂ) {L W ε : ℝ} (hε : 0 < ε) (hε1 : ε * (second n γ a W L + 1) ≤ 1)
    (hW : ∀ z ∈ Icc 0 L, ‖side (γ * a ^ 2) (mean β c p m) (walk β p m) C S x0 y0 z‖ + ‖side (γ * a ^ 2) (mean β c p m) (-walk β p m) C S y0 x0 z‖ ≤ W)
    {lo hi : ℝ} (hlo : lo < 0) (hhi : L < hi) {U : ℝ → Fin n → ℂ} (hU : Solves β 0 (fun _ => 1) γ lo hi U)
    (hU0 : U 0 = fun j => (a : ℂ) * tone c j + (ε : ℂ) * (x0 * tone p j + y0 * tone m j)) {z : ℝ} (hz : z ∈ Icc 0 L) (j : Fin n) :
    ‖U z j - linear β γ a ε c p m C S x0 y0 z j‖ ≤ Real.sqrt (second n γ a W L) * ε ^ 2 := by
  have hD := second_nonneg n γ a W L
  have hle1 : ε ≤ 1 := by nlinarith
  have hW0 : 0 ≤ W := le_trans (by positivity) (hW 0 ⟨le_refl _, hz.1.trans hz.2⟩)
  have hgr : growth 0 γ 1 (|a| + W) = 6 * |γ| * (|a| + W + 1) ^ 2 + 1 := by unfold growth; simp
  have hs := stable (e := n * (|γ| * (3 * |a| * W ^ 2 + W ^ 3)) ^ 2 * ε ^ 4) (L := L) (M := |a| + W) bounded_one (by positivity) (U := U) (V := linear β γ a ε c p m C S x0 y0)
    (fun t ht => hU t ⟨by linarith [ht.1], by linarith [ht.2]⟩)
    (fun t _ => linear_hasDerivAt he h β γ a ε hg x0 y0 t)
    (fun t ht i => by
      refine (norm_comb_le c p m _ a hε.le _ _ i).trans ?_
      have h1 := hW t ht
      have h2 : ε * (‖side (γ * a ^ 2) (mean β c p m) (walk β p m) C S x0 y0 t‖ + ‖side (γ * a ^ 2) (mean β c p m) (-walk β p m) C S y0 x0 t‖) ≤ 1 * W :=
        mul_le_mul hle1 h1 (by positivity) zero_le_one
      linarith)
    (fun t ht => by
      unfold en
      refine (Finset.sum_le_sum fun i _ => pow_le_pow_left₀ (norm_nonneg _) (norm_rest_le γ c p m _ a hε.le hle1 (hW t ht) i) 2).trans ?_
      rw [Finset.sum_const, Finset.card_univ, Fintype.card_fin, nsmul_eq_mul]
      refine le_of_eq ?_
      ring)
    (by
      rw [hU0]
      funext i
      unfold linear comb pair
      rw [side_zero hg, side_zero hg]
      simp)
  rw [hgr] at hs
  have hprod : n * (|γ| * (3 * |a| * W ^ 2 + W ^ 3)) ^ 2 * ε ^ 4 * Real.exp ((6 * |γ| * (|a| + W + 1) ^ 2 + 1) * L) = second n γ a W L * ε ^ 4 := by
    unfold second
    ring
  rw [hprod] at hs
  have hsm : second n γ a W L * ε ^ 4 < 1 := by
    have h1 : ε ^ 4 ≤ ε := by
      have := pow_le_pow_of_le_one hε.le hle1 (show 1 ≤ 4 by norm_num)
      simpa using this
    have h2 := mul_le_mul_of_nonneg_left h1 hD
    nlinarith
  have h1 := (sq_le_en _ j).trans (hs hsm z hz)
  rw [Pi.sub_apply] at h1
  have h2 : second n γ a W L * ε ^ 4 = (Real.sqrt (second n γ a W L) * ε ^ 2) ^ 2 := by
    rw [mul_pow, Real.sq_sqrt hD]
    ring
  rw [h2] at h1
  exact (sq_le_sq₀ (norm_nonneg _) (by positivity)).1 h1

/-- a bin of the spectrum is at most the largest sample -/
theorem norm_toFreq_le {A : Fin n → ℂ} {M : ℝ} (hM : ∀ j, ‖A j‖ ≤ M) (k : Fin n) : ‖Gnlse.toFreq A k‖ ≤ M := by
  have hn : (0 : ℝ) < n := by have := k.isLt; exact_mod_cast (by omega : 0 < n)
  show ‖ifft (fftshift A) _‖ ≤ M
  unfold ifft
  rw [norm_mul, norm_div, norm_one, Complex.norm_natCast]
  have h1 : ‖∑ j : Fin n, fftshift A j * rootE n ((j : ℕ) * ((rollIdx (-((n / 2 : ℕ) : ℤ)) k : Fin n) : ℕ) : ℤ)‖ ≤ ∑ _j : Fin n, M :=
    (norm_sum_le _ _).trans (Finset.sum_le_sum fun j _ => by rw [norm_mul, norm_rootE, mul_one]; exact hM _)
  rw [Finset.sum_const, Finset.card_univ, Fintype.card_fin, nsmul_eq_mul] at h1
  have h2 := mul_le_mul_of_nonneg_left h1 (by positivity : (0 : ℝ) ≤ 1 / n)
  refine h2.trans (le_of_eq ?_)
  field_simp

theorem toFreq_sub (A B : Fin n → ℂ) (k : Fin n) : Gnlse.toFreq (fun j => A j - B j) k = Gnlse.toFreq A k - Gnlse.toFreq B k := by
  have h : (fun j => A j - B j) = fun j => A j + (-1) * B j := by funext j; ring
  rw [h, toFreq_add, toFreq_smul]
  ring

/-- a close field has close sidebands -/
theorem sideband_close (he : n % 2 = 0) {c p m : Fin n} (h : (p : ℕ) + (m : ℕ) = 2 * (c : ℕ)) (hpc : p ≠ c) {φ a ε : ℝ} (hε : 0 ≤ ε) {x y : ℂ} {u : Fin n → ℂ} {e : ℝ}
    (hu : ∀ j, ‖u j - comb c p m φ a ε x y j‖ ≤ e) : |‖Gnlse.toFreq u p‖ - ε * ‖x‖| ≤ e ∧ |‖Gnlse.toFreq u m‖ - ε * ‖y‖| ≤ e := by
  have hpm : p ≠ m := fun hh => hpc (Fin.ext (by rw [hh] at h ⊢; omega))
  have hmc : m ≠ c := fun hh => hpc (Fin.ext (by rw [hh] at h; omega))
  have h1 := fun k => norm_toFreq_le hu k
  simp only [toFreq_sub, toFreq_comb he] at h1
  have key : ∀ (k : Fin n) (w : ℂ), ‖Gnlse.toFreq u k - exp (I * (φ : ℂ)) * (ε * w)‖ ≤ e → |‖Gnlse.toFreq u k‖ - ε * ‖w‖| ≤ e := by
    intro k w hk
    refine le_trans ?_ hk
    have h2 := abs_norm_sub_norm_le (Gnlse.toFreq u k) (exp (I * (φ : ℂ)) * (ε * w))
    rwa [norm_mul, norm_mul, mul_comm I, norm_exp_ofReal_mul_I, one_mul, norm_real, Real.norm_eq_abs, abs_of_nonneg hε, mul_comm _ I] at h2
  constructor
  · refine key p x ?_
    have := h1 p
    simpa [hpc, hpm] using this
  · refine key m y ?_
    have := h1 m
    simpa [hmc, hpm.symm] using this

/-! ## What the linear theory says -/

/-- the growth is the same whatever `C` and `S` are used: `C² - Γ·S² = 1` -/
theorem Growth.invariant {Γ : ℝ} {C S : ℝ → ℝ} (h : Growth Γ C S) (z : ℝ) : C z ^ 2 - Γ * S z ^ 2 = 1 := by
  have hd : ∀ z, HasDerivAt (fun z => C z ^ 2 - Γ * S z ^ 2) 0 z := by
    intro z
    have h1 := ((h.c z).pow 2).sub (((h.s z).pow 2).const_mul Γ)
    refine h1.congr_deriv ?_
    simp
    ring
  have h2 := is_const_of_deriv_eq_zero (f := fun z => C z ^ 2 - Γ * S z ^ 2) (fun z => (hd z).differentiableAt) (fun z => (hd z).deriv) z 0
  simp only [h.c0, h.s0] at h2
  rw [h2]
  ring

/-- hyperbolic growth -/
theorem growth_pos {G : ℝ} (hG : G ≠ 0) : Growth (G ^ 2) (fun z => Real.cosh (G * z)) fun z => Real.sinh (G * z) / G where
  c z := by
    have h1 := ((hasDerivAt_id z).const_mul G).cosh
    refine h1.congr_deriv ?_
    simp only [id]
    field_simp
  s z := by
    have h1 := (((hasDerivAt_id z).const_mul G).sinh).div_const G
    refine h1.congr_deriv ?_
    simp only [id]
    field_simp
  c0 := by simp
  s0 := by simp

/-- oscillation -/
theorem growth_neg {G : ℝ} (hG : G ≠ 0) : Growth (-G ^ 2) (fun z => Real.cos (G * z)) fun z => Real.sin (G * z) / G where
  c z := by
    have h1 := ((hasDerivAt_id z).const_mul G).cos
    refine h1.congr_deriv ?_
    simp only [id]
    field_simp
  s z := by
    have h1 := (((hasDerivAt_id z).const_mul G).sin).div_const G
    refine h1.congr_deriv ?_
    simp only [id]
    field_simp
  c0 := by simp
  s0 := by simp

/-- on the boundary -/
theorem growth_zero : Growth 0 (fun _ => 1) fun z => z where
  c z := by simpa using hasDerivAt_const z (1 : ℝ)
  s z := hasDerivAt_id z
  c0 := rfl
  s0 := rfl

/-- such functions always exist -/
theorem growth_exists (Γ : ℝ) : ∃ C S, Growth Γ C S := by
  rcases lt_trichotomy Γ 0 with h | h | h
  · have h1 := growth_neg (G := Real.sqrt (-Γ)) (Real.sqrt_pos.2 (by linarith)).ne'
    rw [Real.sq_sqrt (by linarith), neg_neg] at h1
    exact ⟨_, _, h1⟩
  · rw [h]; exact ⟨_, _, growth_zero⟩
  · have h1 := growth_pos (G := Real.sqrt Γ) (Real.sqrt_pos.2 h).ne'
    rw [Real.sq_sqrt h.le] at h1
    exact ⟨_, _, h1⟩

theorem norm_side (q σ δ : ℝ) (C S : ℝ → ℝ) (x0 y0 : ℂ) (z : ℝ) : ‖side q σ δ C S x0 y0 z‖ =
    ‖(C z : ℂ) * x0 + (S z : ℂ) * (I * ((σ + q : ℝ) : ℂ) * x0 + I * (q : ℂ) * (starRingEnd ℂ) y0)‖ := by
  unfold side
  rw [norm_mul, mul_comm I ((δ * z : ℝ) : ℂ), norm_exp_ofReal_mul_I, one_mul]

/-- parametric gain: with one sideband at the input, it gains `1 + (q·S)²` in power and the other appears with `(q·S)²` -/
theorem side_seeded {q σ : ℝ} (δ : ℝ) {C S : ℝ → ℝ} (h : Growth (q ^ 2 - (σ + q) ^ 2) C S) (x0 : ℂ) (z : ℝ) :
    ‖side q σ δ C S x0 0 z‖ ^ 2 = ‖x0‖ ^ 2 * (1 + (q * S z) ^ 2) ∧ ‖side q σ (-δ) C S 0 x0 z‖ ^ 2 = ‖x0‖ ^ 2 * (q * S z) ^ 2 := by
  have hi := h.invariant z
  constructor
  · rw [norm_side]
    have e : (C z : ℂ) * x0 + (S z : ℂ) * (I * ((σ + q : ℝ) : ℂ) * x0 + I * (q : ℂ) * (starRingEnd ℂ) 0) = ((C z : ℂ) + ((S z * (σ + q) : ℝ) : ℂ) * I) * x0 := by
      simp only [map_zero]
      push_cast
      ring
    rw [e, norm_mul, mul_pow, ← normSq_eq_norm_sq, normSq_add_mul_I]
    linear_combination ‖x0‖ ^ 2 * hi
  · rw [norm_side]
    simp only [mul_zero, zero_add]
    rw [norm_mul, norm_mul, norm_mul, norm_I, RCLike.norm_conj, norm_real, norm_real, Real.norm_eq_abs, Real.norm_eq_abs]
    rw [one_mul, mul_pow, mul_pow, sq_abs, sq_abs]
    ring

/-- the phase of the second sideband for which both grow without the decaying part -/
noncomputable def partner (q σ G : ℝ) (x0 : ℂ) : ℂ := (I * (G : ℂ) - ((σ + q : ℝ) : ℂ)) / q * (starRingEnd ℂ) x0

theorem norm_partner {q σ G : ℝ} (hq : q ≠ 0) (hG : G ^ 2 = q ^ 2 - (σ + q) ^ 2) (x0 : ℂ) : ‖partner q σ G x0‖ = ‖x0‖ := by
  unfold partner
  rw [norm_mul, RCLike.norm_conj, norm_div]
  have h1 : ‖I * (G : ℂ) - ((σ + q : ℝ) : ℂ)‖ = ‖(q : ℂ)‖ := by
    have h2 : ‖I * (G : ℂ) - ((σ + q : ℝ) : ℂ)‖ ^ 2 = ‖(q : ℂ)‖ ^ 2 := by
      rw [← normSq_eq_norm_sq, ← normSq_eq_norm_sq, show I * (G : ℂ) - ((σ + q : ℝ) : ℂ) = ((-(σ + q) : ℝ) : ℂ) + (G : ℂ) * I by push_cast; ring,
        normSq_add_mul_I, normSq_ofReal]
      linear_combination hG
    exact (pow_left_inj₀ (norm_nonneg _) (norm_nonneg _) two_ne_zero).1 h2
  rw [h1, div_self (by rw [norm_ne_zero_iff]; exact_mod_cast hq), one_mul]

/-- with that phase both sidebands grow as `e^{Gz}` -/
theorem side_partner {q σ G : ℝ} (δ : ℝ) (hq : q ≠ 0) (hG : G ^ 2 = q ^ 2 - (σ + q) ^ 2) (hG0 : G ≠ 0) (x0 : ℂ) (z : ℝ) :
    ‖side q σ δ (fun z => Real.cosh (G * z)) (fun z => Real.sinh (G * z) / G) x0 (partner q σ G x0) z‖ = ‖x0‖ * Real.exp (G * z) ∧
      ‖side q σ (-δ) (fun z => Real.cosh (G * z)) (fun z => Real.sinh (G * z) / G) (partner q σ G x0) x0 z‖ = ‖x0‖ * Real.exp (G * z) := by
  have hq' : (q : ℂ) ≠ 0 := by exact_mod_cast hq
  have hG' : (G : ℂ) ≠ 0 := by exact_mod_cast hG0
  have hGc : (G : ℂ) ^ 2 = (q : ℂ) ^ 2 - ((σ : ℂ) + q) ^ 2 := by exact_mod_cast hG
  have hex : ((Real.cosh (G * z) : ℝ) : ℂ) + ((Real.sinh (G * z) / G : ℝ) : ℂ) * G = ((Real.exp (G * z) : ℝ) : ℂ) := by
    rw [← Real.cosh_add_sinh, ofReal_add, ofReal_div]
    field_simp
  constructor
  · rw [norm_side]
    have e1 : I * (q : ℂ) * (starRingEnd ℂ) (partner q σ G x0) = (G - I * ((σ + q : ℝ) : ℂ)) * x0 := by
      unfold partner
      simp only [map_mul, map_div₀, map_sub, conj_I, conj_ofReal, conj_conj]
      field_simp
      linear_combination (-(G : ℂ) * x0) * I_sq
    have e2 : ((Real.cosh (G * z) : ℝ) : ℂ) * x0 + ((Real.sinh (G * z) / G : ℝ) : ℂ) * (I * ((σ + q : ℝ) : ℂ) * x0 +
        I * (q : ℂ) * (starRingEnd ℂ) (partner q σ G x0)) = ((Real.exp (G * z) : ℝ) : ℂ) * x0 := by
      rw [e1]
      linear_combination x0 * hex
    rw [e2, norm_mul, norm_real, Real.norm_of_nonneg (Real.exp_pos _).le, mul_comm]
  · rw [norm_side]
    have e1 : I * (q : ℂ) * (starRingEnd ℂ) x0 = (G - I * ((σ + q : ℝ) : ℂ)) * partner q σ G x0 := by
      unfold partner
      push_cast
      field_simp
      linear_combination (starRingEnd ℂ) x0 * (-I * hGc + (σ + q) * G * I_sq)
    have e2 : ((Real.cosh (G * z) : ℝ) : ℂ) * partner q σ G x0 + ((Real.sinh (G * z) / G : ℝ) : ℂ) * (I * ((σ + q : ℝ) : ℂ) * partner q σ G x0 +
        I * (q : ℂ) * (starRingEnd ℂ) x0) = ((Real.exp (G * z) : ℝ) : ℂ) * partner q σ G x0 := by
      rw [e1]
      linear_combination partner q σ G x0 * hex
    rw [e2, norm_mul, norm_real, Real.norm_of_nonneg (Real.exp_pos _).le, norm_partner hq hG, mul_comm]

/-- without gain the sidebands stay bounded over all lengths -/
theorem side_bounded {q σ G : ℝ} (δ : ℝ) (hG0 : 0 < G) (x0 y0 : ℂ) (z : ℝ) :
    ‖side q σ δ (fun z => Real.cos (G * z)) (fun z => Real.sin (G * z) / G) x0 y0 z‖ ≤ ‖x0‖ + (|σ + q| * ‖x0‖ + |q| * ‖y0‖) / G := by
  rw [norm_side]
  refine (norm_add_le _ _).trans (add_le_add ?_ ?_)
  · rw [norm_mul, norm_real, Real.norm_eq_abs]
    exact (mul_le_mul_of_nonneg_right (Real.abs_cos_le_one _) (norm_nonneg _)).trans (one_mul _).le
  · rw [norm_mul, norm_real, Real.norm_eq_abs, abs_div, abs_of_pos hG0]
    have h1 : ‖I * ((σ + q : ℝ) : ℂ) * x0 + I * (q : ℂ) * (starRingEnd ℂ) y0‖ ≤ |σ + q| * ‖x0‖ + |q| * ‖y0‖ := by
      refine (norm_add_le _ _).trans (le_of_eq ?_)
      simp only [norm_mul, norm_I, one_mul, norm_real, Real.norm_eq_abs, RCLike.norm_conj]
    have h2 := mul_le_mul (Real.abs_sin_le_one (G * z)) h1 (norm_nonneg _) zero_le_one
    rw [div_mul_eq_mul_div]
    gcongr
    linarith

/-- C161: the sidebands gain exactly when `-2·γ·P < σ < 0` or the other way around. -/
theorem C161_threshold (q σ : ℝ) : 0 < q ^ 2 - (σ + q) ^ 2 ↔ (0 < q ∧ -2 * q < σ ∧ σ < 0) ∨ (q < 0 ∧ 0 < σ ∧ σ < -2 * q) := by
  have e : q ^ 2 - (σ + q) ^ 2 = -(σ * (σ + 2 * q)) := by ring
  rw [e]
  constructor
  · intro h
    rcases lt_trichotomy σ 0 with hs | hs | hs
    · refine Or.inl ?_
      have : 0 < σ + 2 * q := by by_contra hc; nlinarith
      exact ⟨by linarith, by linarith, hs⟩
    · rw [hs] at h; simp at h
    · refine Or.inr ?_
      have : σ + 2 * q < 0 := by by_contra hc; nlinarith
      exact ⟨by linarith, hs, by linarith⟩
  · rintro (⟨h1, h2, h3⟩ | ⟨h1, h2, h3⟩)
    · nlinarith
    · nlinarith

/-- C161: the rate of gain is at most `|γ|·P`, and it is that just at `σ = -γ·P`. -/
theorem C161_peak {q σ G : ℝ} (hG0 : 0 ≤ G) (hG : G ^ 2 = q ^ 2 - (σ + q) ^ 2) : G ≤ |q| ∧ (G = |q| ↔ σ = -q) := by
  constructor
  · refine abs_le_of_sq_le_sq' ?_ (abs_nonneg q) |>.2
    rw [sq_abs, hG]
    nlinarith [sq_nonneg (σ + q)]
  · constructor
    · intro h
      rw [h, sq_abs] at hG
      have : (σ + q) ^ 2 = 0 := by linarith
      have := pow_eq_zero_iff (two_ne_zero) |>.1 this
      linarith
    · intro h
      rw [h] at hG
      have h1 : G ^ 2 = |q| ^ 2 := by rw [sq_abs, hG]; ring
      exact (pow_left_inj₀ hG0 (abs_nonneg q) two_ne_zero).1 h1

/-! ## What `propagate` returns -/

section
variable {polyfit : Fiber.PolyFit} {spline : Fiber.Spline} {o : Obj} {p : Pulse} {F : FibObj} {f1 : Fiber.Fib} {β : Fin p.n → ℝ}
  {γ fR : ℝ} {R : Fin p.n → ℂ}

theorem wave_ne_zero (he : p.n % 2 = 0) {c u d : Fin p.n} (h : (u : ℕ) + (d : ℕ) = 2 * (c : ℕ)) (huc : u ≠ c) {a : ℝ} (ha : a ≠ 0) (ε : ℝ) (x0 y0 : ℂ) :
    (fun j => (a : ℂ) * tone c j + (ε : ℂ) * (x0 * tone u j + y0 * tone d j)) ≠ (0 : Fin p.n → ℂ) := by
  intro h0
  have hdc : d ≠ c := fun hh => huc (Fin.ext (by rw [hh] at h; omega))
  have h1 : comb c u d 0 a ε x0 y0 = fun j => (a : ℂ) * tone c j + (ε : ℂ) * (x0 * tone u j + y0 * tone d j) := by
    funext j
    unfold comb pair
    simp
  have h2 := toFreq_comb he c u d 0 a ε x0 y0 c
  have h3 : Gnlse.toFreq (0 : Fin p.n → ℂ) c = 0 := by
    have := congrFun (toFreq_smul 0 (fun _ : Fin p.n => (0 : ℂ))) c
    simp only [zero_mul] at this
    exact this
  rw [h1, h0, h3] at h2
  simp [huc.symm, hdc.symm] at h2
  exact ha (by exact_mod_cast h2.symm)

/-- C161: `propagate` with the default method, without self-steepening, Raman scattering and gain: for every pulse of a continuous wave
with weak sidebands at equal distances every column follows the linear theory, for all large numbers of columns. -/
theorem C161_propagate {b : Fin p.n → ℂ} (hp : Holds p b) (he : p.n % 2 = 0) (hcf : p.cf ≠ 0) (h : Loads polyfit spline o p F f1 β 0 R γ fR)
    (hram : o.disableRaman = true) {L : ℝ} (hL : F.fib.length = some L) (hpos : 0 < L) (hm : o.method = .rk4ip) (heta : o.eta = 5)
    (hss : o.disableSS = true) (hdz : 0 < o.dz) (hmin : 0 < o.dzMin) (hle : 0 < o.localError) {c u d : Fin p.n}
    (hcud : (u : ℕ) + (d : ℕ) = 2 * (c : ℕ)) (huc : u ≠ c) {a : ℝ} (ha : a ≠ 0) {C S : ℝ → ℝ}
    (hg : Growth ((γ * a ^ 2) ^ 2 - (mean β c u d + γ * a ^ 2) ^ 2) C S) (x0 y0 : ℂ) {W ε : ℝ} (hε : 0 < ε) (hε1 : ε * (second p.n γ a W L + 1) ≤ 1)
    (hW : ∀ z ∈ Icc 0 L, ‖side (γ * a ^ 2) (mean β c u d) (walk β u d) C S x0 y0 z‖ + ‖side (γ * a ^ 2) (mean β c u d) (-walk β u d) C S y0 x0 z‖ ≤ W)
    (hA : p.AT = .ok ⟨p.n, fun j => (a : ℂ) * tone c j + (ε : ℂ) * (x0 * tone u j + y0 * tone d j)⟩) :
    ∃ N0 : ℕ, ∀ N, N0 ≤ N → ∃ r o' F', propagate polyfit spline o p F N false = some (.ok (r, o', F')) ∧ r.AT.length = N ∧
      ∀ i < N, ∃ v : Fin p.n → ℂ, r.AT[i]? = some ⟨p.n, v⟩ ∧
        (∀ j, ‖v j - linear β γ a ε c u d C S x0 y0 ((i + 1) * (L / N)) j‖ ≤ (Real.sqrt (second p.n γ a W L) + 1) * ε ^ 2) ∧
        |‖Gnlse.toFreq v u‖ - ε * ‖side (γ * a ^ 2) (mean β c u d) (walk β u d) C S x0 y0 ((i + 1) * (L / N))‖| ≤ (Real.sqrt (second p.n γ a W L) + 1) * ε ^ 2 ∧
        |‖Gnlse.toFreq v d‖ - ε * ‖side (γ * a ^ 2) (mean β c u d) (-walk β u d) C S y0 x0 ((i + 1) * (L / N))‖| ≤
          (Real.sqrt (second p.n γ a W L) + 1) * ε ^ 2 := by
  have hR := h.raman_off hram
  subst hR
  obtain ⟨U, hU, hU0⟩ := C116_exists β 0 (raman_real hp he h) γ (fun j => (a : ℂ) * tone c j + (ε : ℂ) * (x0 * tone u j + y0 * tone d j))
    (T := L + 1) (by linarith)
  obtain ⟨N0, C5, hconv⟩ := C116_converges hp he hcf h hL hpos hm heta hss hdz hmin hle (by linarith : -(L + 1) < 0) (by linarith : L < L + 1) hU
    (by rw [hU0]; exact hA) (by rw [hU0]; exact wave_ne_zero he hcud huc ha ε x0 y0)
  obtain ⟨N1, hN1⟩ := exists_nat_gt (|C5| / ε ^ 2)
  refine ⟨max (max N0 N1) 1, fun N hN => ?_⟩
  have hN0 : N0 ≤ N := le_trans (le_trans (le_max_left _ _) (le_max_left _ _)) hN
  have hN1' : N1 ≤ N := le_trans (le_trans (le_max_right _ _) (le_max_left _ _)) hN
  have hNpos : 1 ≤ N := le_trans (le_max_right _ _) hN
  obtain ⟨r, o', F', hr, hlr, hcol⟩ := hconv N hN0
  refine ⟨r, o', F', hr, hlr, fun i hi => ?_⟩
  obtain ⟨v, hv, herr⟩ := hcol i hi
  have hNr : (1 : ℝ) ≤ N := by exact_mod_cast hNpos
  have hz : ((i : ℝ) + 1) * (L / N) ∈ Icc 0 L := by
    refine ⟨by positivity, ?_⟩
    have : (i : ℝ) + 1 ≤ N := by exact_mod_cast hi
    calc ((i : ℝ) + 1) * (L / N) ≤ N * (L / N) := mul_le_mul_of_nonneg_right this (by positivity)
      _ = L := by field_simp
  have hclose : ∀ j, ‖v j - linear β γ a ε c u d C S x0 y0 ((i + 1) * (L / N)) j‖ ≤ (Real.sqrt (second p.n γ a W L) + 1) * ε ^ 2 := by
    intro j
    have h1 := C161_linear he hcud β γ a hg x0 y0 hε hε1 hW (by linarith : -(L + 1) < 0) (by linarith : L < L + 1) hU hU0 hz j
    have h2 : C5 / (N : ℝ) ^ 5 ≤ ε ^ 2 := by
      rw [div_le_iff₀ (by positivity)]
      rw [div_lt_iff₀ (by positivity)] at hN1
      have e1 : (N1 : ℝ) ≤ N := by exact_mod_cast hN1'
      have e2 : (N : ℝ) ≤ (N : ℝ) ^ 5 := le_self_pow₀ hNr (by norm_num)
      have e3 : C5 ≤ |C5| := le_abs_self _
      have e4 : (N1 : ℝ) * ε ^ 2 ≤ (N : ℝ) ^ 5 * ε ^ 2 := mul_le_mul_of_nonneg_right (e1.trans e2) (by positivity)
      linarith
    have h3 := norm_sub_le_norm_sub_add_norm_sub (v j) (U ((i + 1) * (L / N)) j) (linear β γ a ε c u d C S x0 y0 ((i + 1) * (L / N)) j)
    have h4 := herr j
    linarith
  exact ⟨v, hv, hclose, sideband_close he hcud huc hε.le hclose⟩

end

theorem norm_side_walk (q σ δ δ' : ℝ) (C S : ℝ → ℝ) (x0 y0 : ℂ) (z : ℝ) : ‖side q σ δ C S x0 y0 z‖ = ‖side q σ δ' C S x0 y0 z‖ := by
  rw [norm_side, norm_side]

theorem propagate_side {polyfit : Fiber.PolyFit} {spline : Fiber.Spline} {o : Obj} {p : Pulse} {F : FibObj} {f1 : Fiber.Fib} {β : Fin p.n → ℝ}
    {γ fR : ℝ} {R : Fin p.n → ℂ} {b : Fin p.n → ℂ} (hp : Holds p b) (he : p.n % 2 = 0) (hcf : p.cf ≠ 0) (h : Loads polyfit spline o p F f1 β 0 R γ fR)
    (hram : o.disableRaman = true) {L : ℝ} (hL : F.fib.length = some L) (hpos : 0 < L) (hm : o.method = .rk4ip) (heta : o.eta = 5)
    (hss : o.disableSS = true) (hdz : 0 < o.dz) (hmin : 0 < o.dzMin) (hle : 0 < o.localError) {c u d : Fin p.n}
    (hcud : (u : ℕ) + (d : ℕ) = 2 * (c : ℕ)) (huc : u ≠ c) {a : ℝ} (ha : a ≠ 0) {σ : ℝ} (hσ : mean β c u d = σ) {C S : ℝ → ℝ}
    (hg : Growth ((γ * a ^ 2) ^ 2 - (σ + γ * a ^ 2) ^ 2) C S) (x0 y0 : ℂ) {W ε : ℝ} (hε : 0 < ε) (hε1 : ε * (second p.n γ a W L + 1) ≤ 1)
    (hW : ∀ z ∈ Icc 0 L, ‖side (γ * a ^ 2) σ 0 C S x0 y0 z‖ + ‖side (γ * a ^ 2) σ 0 C S y0 x0 z‖ ≤ W)
    (hA : p.AT = .ok ⟨p.n, fun j => (a : ℂ) * tone c j + (ε : ℂ) * (x0 * tone u j + y0 * tone d j)⟩) :
    ∃ N0 : ℕ, ∀ N, N0 ≤ N → ∃ r o' F', propagate polyfit spline o p F N false = some (.ok (r, o', F')) ∧ r.AT.length = N ∧
      ∀ i < N, ∃ v : Fin p.n → ℂ, r.AT[i]? = some ⟨p.n, v⟩ ∧
        |‖Gnlse.toFreq v u‖ - ε * ‖side (γ * a ^ 2) σ 0 C S x0 y0 ((i + 1) * (L / N))‖| ≤ (Real.sqrt (second p.n γ a W L) + 1) * ε ^ 2 ∧
        |‖Gnlse.toFreq v d‖ - ε * ‖side (γ * a ^ 2) σ 0 C S y0 x0 ((i + 1) * (L / N))‖| ≤ (Real.sqrt (second p.n γ a W L) + 1) * ε ^ 2 := by
  subst hσ
  obtain ⟨N0, hN0⟩ := C161_propagate hp he hcf h hram hL hpos hm heta hss hdz hmin hle hcud huc ha hg x0 y0 hε hε1 (fun z hz => by
    rw [norm_side_walk _ _ (walk β u d) 0, norm_side_walk _ _ (-walk β u d) 0]
    exact hW z hz) hA
  refine ⟨N0, fun N hN => ?_⟩
  obtain ⟨r, o', F', hr, hlr, hcol⟩ := hN0 N hN
  refine ⟨r, o', F', hr, hlr, fun i hi => ?_⟩
  obtain ⟨v, hv, -, h1, h2⟩ := hcol i hi
  rw [norm_side_walk _ _ (walk β u d) 0] at h1
  rw [norm_side_walk _ _ (-walk β u d) 0] at h2
  exact ⟨v, hv, h1, h2⟩

/-- dispersion of the second order in the bins -/
noncomputable def detuning (β₂ T : ℝ) (c u : Fin n) : ℝ := β₂ / 2 * (2 * Real.pi * (((u : ℕ) : ℝ) - ((c : ℕ) : ℝ)) / T) ^ 2

theorem mean_quadratic {β₂ T : ℝ} {c u d : Fin n} (h : (u : ℕ) + (d : ℕ) = 2 * (c : ℕ)) {β : Fin n → ℝ}
    (hβ : ∀ k, β k = β₂ / 2 * (2 * Real.pi * ((k : ℕ) - (n : ℝ) / 2) / T) ^ 2) : mean β c u d = detuning β₂ T c u := by
  have h' : ((d : ℕ) : ℝ) = 2 * ((c : ℕ) : ℝ) - ((u : ℕ) : ℝ) := by
    have : (((u : ℕ) : ℝ) + ((d : ℕ) : ℝ)) = 2 * ((c : ℕ) : ℝ) := by exact_mod_cast h
    linarith
  unfold mean detuning
  rw [hβ, hβ, hβ, h']
  ring

/-- the settings: default method, no self-steepening and no Raman scattering -/
noncomputable def plain : Obj := { Obj.default with disableSS := true, disableRaman := true }

/-- sidebands of the columns that `propagate` returns for a pulse with these samples in a generated fibre -/
def Columns (polyfit : Fiber.PolyFit) (spline : Fiber.Spline) (β₂ γ L wl frep T : ℝ) (label : String) (n : ℕ) (A : Fin n → ℂ)
    (post : ℝ → (Fin n → ℂ) → Prop) : Prop :=
  ∀ b : Fin n → ℂ, ∃ p : Pulse, setAT ⟨n, A⟩ { base (some frep) wl T n with aw := some ⟨n, b⟩ } = (.ok (), p) ∧ p.AT = .ok ⟨n, A⟩ ∧ ∃ N0 : ℕ, ∀ N, N0 ≤ N →
    ∃ r o' F', propagate polyfit spline plain p ⟨Fiber.genFib L wl ⟨1, fun _ => β₂⟩ γ 0 "ps^n/m" label Fiber.Fib.new, Fiber.genSpecs 0⟩ N false =
        some (.ok (r, o', F')) ∧ r.AT.length = N ∧
      ∀ i < N, ∃ v : Fin n → ℂ, r.AT[i]? = some ⟨n, v⟩ ∧ post ((i + 1) * (L / N)) v

theorem Columns.imp {polyfit : Fiber.PolyFit} {spline : Fiber.Spline} {β₂ γ L wl frep T : ℝ} {label : String} {A : Fin n → ℂ}
    {P Q : ℝ → (Fin n → ℂ) → Prop} (h : Columns polyfit spline β₂ γ L wl frep T label n A P) (hPQ : ∀ z ∈ Icc 0 L, ∀ v, P z v → Q z v) (hL : 0 < L) :
    Columns polyfit spline β₂ γ L wl frep T label n A Q := by
  intro b
  obtain ⟨p, h1, h2, N0, h3⟩ := h b
  refine ⟨p, h1, h2, max N0 1, fun N hN => ?_⟩
  obtain ⟨r, o', F', hr, hlr, hcol⟩ := h3 N ((le_max_left _ _).trans hN)
  refine ⟨r, o', F', hr, hlr, fun i hi => ?_⟩
  obtain ⟨v, hv, hP⟩ := hcol i hi
  refine ⟨v, hv, hPQ _ ?_ v hP⟩
  have hNr : (1 : ℝ) ≤ N := by exact_mod_cast (le_max_right _ _).trans hN
  refine ⟨by positivity, ?_⟩
  have : (i : ℝ) + 1 ≤ N := by exact_mod_cast hi
  calc ((i : ℝ) + 1) * (L / N) ≤ N * (L / N) := mul_le_mul_of_nonneg_right this (by positivity)
    _ = L := by field_simp

/-- C161: a pulse of a continuous wave and weak sidebands in a generated fibre with second-order dispersion: the amplitudes of the two
sidebands in every column are those of the linear theory, up to a multiple of the square of `ε`. -/
theorem C161_fiber (polyfit : Fiber.PolyFit) (spline : Fiber.Spline) {β₂ γ L wl T : ℝ} (frep : ℝ) (label : String) (hL : 0 < L) (hwl : 1 < wl) (hT : 0 < T)
    (hn : 4 ≤ n) (he : n % 2 = 0) {c u d : Fin n} (hcud : (u : ℕ) + (d : ℕ) = 2 * (c : ℕ)) (huc : u ≠ c) {a : ℝ} (ha : a ≠ 0) {C S : ℝ → ℝ}
    (hg : Growth ((γ * a ^ 2) ^ 2 - (detuning β₂ T c u + γ * a ^ 2) ^ 2) C S) (x0 y0 : ℂ) {W ε : ℝ} (hε : 0 < ε) (hε1 : ε * (second n γ a W L + 1) ≤ 1)
    (hW : ∀ z ∈ Icc 0 L, ‖side (γ * a ^ 2) (detuning β₂ T c u) 0 C S x0 y0 z‖ + ‖side (γ * a ^ 2) (detuning β₂ T c u) 0 C S y0 x0 z‖ ≤ W) :
    Columns polyfit spline β₂ γ L wl frep T label n (fun j => (a : ℂ) * tone c j + (ε : ℂ) * (x0 * tone u j + y0 * tone d j)) fun z v =>
      |‖Gnlse.toFreq v u‖ - ε * ‖side (γ * a ^ 2) (detuning β₂ T c u) 0 C S x0 y0 z‖| ≤ (Real.sqrt (second n γ a W L) + 1) * ε ^ 2 ∧
      |‖Gnlse.toFreq v d‖ - ε * ‖side (γ * a ^ 2) (detuning β₂ T c u) 0 C S y0 x0 z‖| ≤ (Real.sqrt (second n γ a W L) + 1) * ε ^ 2 := by
  intro b
  set A : Fin n → ℂ := fun j => (a : ℂ) * tone c j + (ε : ℂ) * (x0 * tone u j + y0 * tone d j) with hA
  set p : Pulse := { base (some frep) wl T n with aw := some ⟨n, fftT A⟩ } with hp
  have hold : Holds p (fftT A) := base_holds (some frep) wl T (by omega) (fftT A)
  have hAT : p.AT = .ok ⟨n, A⟩ := by
    have := hold.AT_eq
    rwa [ifftT_fftT] at this
  have hb : Holds { base (some frep) wl T n with aw := some ⟨n, b⟩ } b := base_holds (some frep) wl T (by omega) b
  have hset := hb.setAT_eq A
  refine ⟨p, hset, hAT, ?_⟩
  have hwl0 : wl ≠ 0 := by linarith
  have hcw : p.cf ≠ 0 := div_ne_zero (by norm_num [cNmps, cMks]) hwl0
  have hload := C132_fiber polyfit spline plain (p := p) hold hn he hT.ne' rfl (length := L) (gamma := γ)
    (gain := 0) (b := fun _ : Fin 1 => β₂) (units := "ps^n/m") (label := label) (by decide) hwl0
  have hd : 2 * Real.pi * p.cf - 2 * Real.pi * cNmps / wl = 0 := by
    show 2 * Real.pi * (cNmps / wl) - 2 * Real.pi * cNmps / wl = 0
    ring
  rw [hd] at hload
  have hβ : ∀ k : Fin n, (fiberPoly (fun _ : Fin 1 => β₂) 0 p.tw).eval (2 * Real.pi * ((k : ℕ) - (p.n : ℝ) / 2) / p.tw) =
      β₂ / 2 * (2 * Real.pi * ((k : ℕ) - (n : ℝ) / 2) / T) ^ 2 := by
    intro k
    rw [fiberPoly_second, Polynomial.eval_mul, Polynomial.eval_C, Polynomial.eval_pow, Polynomial.eval_X]
    rfl
  have hmean := mean_quadratic hcud hβ
  obtain ⟨N0, hN0⟩ := propagate_side (p := p) (c := c) (u := u) (d := d) hold he hcw hload rfl rfl hL rfl rfl rfl (by norm_num [plain, Obj.default])
    (by norm_num [plain, Obj.default]) (by norm_num [plain, Obj.default]) hcud huc ha hmean hg x0 y0 hε hε1 hW hAT
  exact ⟨N0, hN0⟩

/-- C161: modulation instability. Where the sidebands gain, and with the right phase between them, both grow as `e^{G·z}` with
`G² = -σ·(σ + 2·γ·P)`, `σ = β₂·Ω²/2`. -/
theorem C161_instability (polyfit : Fiber.PolyFit) (spline : Fiber.Spline) {β₂ γ L wl T : ℝ} (frep : ℝ) (label : String) (hL : 0 < L) (hwl : 1 < wl) (hT : 0 < T)
    (hn : 4 ≤ n) (he : n % 2 = 0) {c u d : Fin n} (hcud : (u : ℕ) + (d : ℕ) = 2 * (c : ℕ)) (huc : u ≠ c) {a : ℝ} (ha : a ≠ 0) (hγ : γ ≠ 0) {G : ℝ} (hG0 : 0 < G)
    (hG : G ^ 2 = (γ * a ^ 2) ^ 2 - (detuning β₂ T c u + γ * a ^ 2) ^ 2) (x0 : ℂ) {ε : ℝ} (hε : 0 < ε)
    (hε1 : ε * (second n γ a (2 * ‖x0‖ * Real.exp (G * L)) L + 1) ≤ 1) :
    Columns polyfit spline β₂ γ L wl frep T label n
      (fun j => (a : ℂ) * tone c j + (ε : ℂ) * (x0 * tone u j + partner (γ * a ^ 2) (detuning β₂ T c u) G x0 * tone d j)) fun z v =>
      |‖Gnlse.toFreq v u‖ - ε * (‖x0‖ * Real.exp (G * z))| ≤ (Real.sqrt (second n γ a (2 * ‖x0‖ * Real.exp (G * L)) L) + 1) * ε ^ 2 ∧
      |‖Gnlse.toFreq v d‖ - ε * (‖x0‖ * Real.exp (G * z))| ≤ (Real.sqrt (second n γ a (2 * ‖x0‖ * Real.exp (G * L)) L) + 1) * ε ^ 2 := by
  have hq : γ * a ^ 2 ≠ 0 := mul_ne_zero hγ (pow_ne_zero 2 ha)
  have hs := side_partner 0 hq hG hG0.ne' x0
  simp only [neg_zero] at hs
  have hg := growth_pos hG0.ne'
  rw [hG] at hg
  have key := C161_fiber polyfit spline frep label hL hwl hT hn he hcud huc ha hg x0 (partner (γ * a ^ 2) (detuning β₂ T c u) G x0) hε hε1 (fun z hz => by
    rw [(hs z).1, (hs z).2]
    have h1 : Real.exp (G * z) ≤ Real.exp (G * L) := Real.exp_le_exp.2 (mul_le_mul_of_nonneg_left hz.2 hG0.le)
    have h2 := mul_le_mul_of_nonneg_left h1 (norm_nonneg x0)
    linarith)
  refine key.imp (fun z _ v hv => ?_) hL
  rw [(hs z).1, (hs z).2] at hv
  exact hv

/-- C161: parametric gain. With one sideband at the input, its power gains `1 + (γ·P·S)²` and the other sideband appears with
`(γ·P·S)²`, where `S` is `sinh(G·z)/G`, `z` or `sin(G·z)/G`. -/
theorem C161_parametric (polyfit : Fiber.PolyFit) (spline : Fiber.Spline) {β₂ γ L wl T : ℝ} (frep : ℝ) (label : String) (hL : 0 < L) (hwl : 1 < wl) (hT : 0 < T)
    (hn : 4 ≤ n) (he : n % 2 = 0) {c u d : Fin n} (hcud : (u : ℕ) + (d : ℕ) = 2 * (c : ℕ)) (huc : u ≠ c) {a : ℝ} (ha : a ≠ 0) {C S : ℝ → ℝ}
    (hg : Growth ((γ * a ^ 2) ^ 2 - (detuning β₂ T c u + γ * a ^ 2) ^ 2) C S) (x0 : ℂ) {W ε : ℝ} (hε : 0 < ε) (hε1 : ε * (second n γ a W L + 1) ≤ 1)
    (hW : ∀ z ∈ Icc 0 L, ‖x0‖ * (Real.sqrt (1 + (γ * a ^ 2 * S z) ^ 2) + |γ * a ^ 2 * S z|) ≤ W) :
    Columns polyfit spline β₂ γ L wl frep T label n (fun j => (a : ℂ) * tone c j + (ε : ℂ) * (x0 * tone u j)) fun z v =>
      |‖Gnlse.toFreq v u‖ - ε * (‖x0‖ * Real.sqrt (1 + (γ * a ^ 2 * S z) ^ 2))| ≤ (Real.sqrt (second n γ a W L) + 1) * ε ^ 2 ∧
      |‖Gnlse.toFreq v d‖ - ε * (‖x0‖ * |γ * a ^ 2 * S z|)| ≤ (Real.sqrt (second n γ a W L) + 1) * ε ^ 2 := by
  have hs1 : ∀ z, ‖side (γ * a ^ 2) (detuning β₂ T c u) 0 C S x0 0 z‖ = ‖x0‖ * Real.sqrt (1 + (γ * a ^ 2 * S z) ^ 2) := by
    intro z
    have h1 := (side_seeded 0 hg x0 z).1
    refine (pow_left_inj₀ (norm_nonneg _) (by positivity) two_ne_zero).1 ?_
    rw [h1, mul_pow ‖x0‖, Real.sq_sqrt (by positivity)]
  have hs2 : ∀ z, ‖side (γ * a ^ 2) (detuning β₂ T c u) 0 C S 0 x0 z‖ = ‖x0‖ * |γ * a ^ 2 * S z| := by
    intro z
    have h1 := (side_seeded 0 hg x0 z).2
    rw [neg_zero] at h1
    refine (pow_left_inj₀ (norm_nonneg _) (by positivity) two_ne_zero).1 ?_
    rw [h1, mul_pow ‖x0‖, sq_abs]
  have key := C161_fiber polyfit spline frep label hL hwl hT hn he hcud huc ha hg x0 0 hε hε1 (fun z hz => by
    rw [hs1, hs2]
    have := hW z hz
    linarith)
  simp only [hs1, hs2, zero_mul, add_zero] at key
  exact key

/-- C161: stability. Where the sidebands do not gain, in particular with dispersion and nonlinearity of the same sign, they stay within a
bound that does not depend on the length. -/
theorem C161_stable (polyfit : Fiber.PolyFit) (spline : Fiber.Spline) {β₂ γ L wl T : ℝ} (frep : ℝ) (label : String) (hL : 0 < L) (hwl : 1 < wl) (hT : 0 < T)
    (hn : 4 ≤ n) (he : n % 2 = 0) {c u d : Fin n} (hcud : (u : ℕ) + (d : ℕ) = 2 * (c : ℕ)) (huc : u ≠ c) {a : ℝ} (ha : a ≠ 0) {G : ℝ} (hG0 : 0 < G)
    (hG : G ^ 2 = (detuning β₂ T c u + γ * a ^ 2) ^ 2 - (γ * a ^ 2) ^ 2) (x0 y0 : ℂ) {W ε : ℝ} (hε : 0 < ε)
    (hWd : W = (‖x0‖ + ‖y0‖) * (1 + (|detuning β₂ T c u + γ * a ^ 2| + |γ * a ^ 2|) / G)) (hε1 : ε * (second n γ a W L + 1) ≤ 1) :
    Columns polyfit spline β₂ γ L wl frep T label n (fun j => (a : ℂ) * tone c j + (ε : ℂ) * (x0 * tone u j + y0 * tone d j)) fun _ v =>
      ‖Gnlse.toFreq v u‖ + ‖Gnlse.toFreq v d‖ ≤ ε * W + 2 * (Real.sqrt (second n γ a W L) + 1) * ε ^ 2 := by
  have hg := growth_neg hG0.ne'
  rw [hG, neg_sub] at hg
  have hsum : ∀ z, ‖side (γ * a ^ 2) (detuning β₂ T c u) 0 (fun z => Real.cos (G * z)) (fun z => Real.sin (G * z) / G) x0 y0 z‖ +
      ‖side (γ * a ^ 2) (detuning β₂ T c u) 0 (fun z => Real.cos (G * z)) (fun z => Real.sin (G * z) / G) y0 x0 z‖ ≤ W := by
    intro z
    have h1 := side_bounded (q := γ * a ^ 2) (σ := detuning β₂ T c u) 0 hG0 x0 y0 z
    have h2 := side_bounded (q := γ * a ^ 2) (σ := detuning β₂ T c u) 0 hG0 y0 x0 z
    refine (add_le_add h1 h2).trans (le_of_eq ?_)
    rw [hWd]
    ring
  have key := C161_fiber polyfit spline frep label hL hwl hT hn he hcud huc ha hg x0 y0 hε hε1 (fun z _ => hsum z)
  refine key.imp (fun z _ v hv => ?_) hL
  have h1 := (abs_le.1 hv.1).2
  have h2 := (abs_le.1 hv.2).2
  have h3 := mul_le_mul_of_nonneg_left (hsum z) hε.le
  linarith

/-- C161: with dispersion and nonlinearity of the same sign no sideband gains. -/
theorem C161_normal {β₂ γ a T : ℝ} (hb : 0 < β₂ * γ) (ha : a ≠ 0) (hT : 0 < T) {c u : Fin n} (huc : u ≠ c) :
    0 < (detuning β₂ T c u + γ * a ^ 2) ^ 2 - (γ * a ^ 2) ^ 2 := by
  have h1 : ((u : ℕ) : ℝ) - ((c : ℕ) : ℝ) ≠ 0 := by
    intro h
    exact huc (Fin.ext (by exact_mod_cast sub_eq_zero.1 h))
  have h2 : 0 < (2 * Real.pi * (((u : ℕ) : ℝ) - ((c : ℕ) : ℝ)) / T) ^ 2 := by
    have := Real.pi_pos
    positivity
  have h3 : 0 < a ^ 2 := by positivity
  unfold detuning
  generalize (2 * Real.pi * (((u : ℕ) : ℝ) - ((c : ℕ) : ℝ)) / T) ^ 2 = w at h2 ⊢
  have h4 : β₂ ≠ 0 := fun h => by rw [h] at hb; simp at hb
  have h5 : 0 < β₂ ^ 2 * w ^ 2 := by positivity
  have h6 : 0 < β₂ * γ * w * a ^ 2 := by positivity
  nlinarith

/-- C161 applies: four points in a window `2π`, dispersion `-2`, nonlinearity 1 and power 1: the sidebands next to the wave grow as `e^z`,
the largest rate there is. -/
theorem C161_nonvacuous (polyfit : Fiber.PolyFit) (spline : Fiber.Spline) (frep : ℝ) (label : String) : ∃ ε0 K : ℝ, 0 < ε0 ∧
    (∀ ε, 0 < ε → ε ≤ ε0 → Columns polyfit spline (-2) 1 1 1550 frep (2 * Real.pi) label 4
      (fun j => ((1 : ℝ) : ℂ) * tone 2 j + (ε : ℂ) * (1 * tone 3 j + partner (1 * 1 ^ 2) (detuning (-2) (2 * Real.pi) (2 : Fin 4) 3) 1 1 * tone 1 j)) (fun z v =>
      |‖Gnlse.toFreq v 3‖ - ε * (‖(1 : ℂ)‖ * Real.exp (1 * z))| ≤ K * ε ^ 2 ∧ |‖Gnlse.toFreq v 1‖ - ε * (‖(1 : ℂ)‖ * Real.exp (1 * z))| ≤ K * ε ^ 2)) ∧
    0 < (1 * (1 : ℝ) ^ 2) ^ 2 - (detuning (-2) (2 * Real.pi) (2 : Fin 4) 3 + 1 * 1 ^ 2) ^ 2 ∧
    (0 : ℝ) < (detuning 2 (2 * Real.pi) (2 : Fin 4) 3 + 1 * 1 ^ 2) ^ 2 - (1 * 1 ^ 2) ^ 2 := by
  have hpi := Real.pi_pos
  have hd : ∀ b : ℝ, detuning b (2 * Real.pi) (2 : Fin 4) 3 = b / 2 := by
    intro b
    have e2 : (((2 : Fin 4) : ℕ) : ℝ) = 2 := by norm_num
    have e3 : (((3 : Fin 4) : ℕ) : ℝ) = 3 := by norm_num
    unfold detuning
    rw [e2, e3]
    field_simp
    norm_num
  have hs := second_nonneg 4 1 1 (2 * ‖(1 : ℂ)‖ * Real.exp (1 * 1)) 1
  refine ⟨1 / (second 4 1 1 (2 * ‖(1 : ℂ)‖ * Real.exp (1 * 1)) 1 + 1), Real.sqrt (second 4 1 1 (2 * ‖(1 : ℂ)‖ * Real.exp (1 * 1)) 1) + 1, by positivity, fun ε hε hε1 => ?_, ?_, ?_⟩
  · rw [le_div_iff₀ (by positivity)] at hε1
    exact C161_instability polyfit spline frep label one_pos (by norm_num) (by positivity) (le_refl 4) rfl (by decide) (by decide) one_ne_zero one_ne_zero one_pos
      (by rw [hd]; norm_num) 1 hε hε1
  · rw [hd]; norm_num
  · rw [hd]; norm_num

end PyNLO.Modulation
