import Verif.Lemmas.PhotonNumber
import Verif.Props.Recentre

/-!
# C166: with self-steepening `propagate` keeps the number of photons as long as the band has room
-/

namespace PyNLO

open Complex Ssfm Pulse Set Photon Alias Modulation Hamiltonian

variable {n : ℕ}

/-! ## the regularised term, for a field with a known floor -/

theorem response_le (hn : 0 < n) (he : n % 2 = 0) {R : Fin n → ℂ} {K : ℝ} (hK : ∀ k, ‖R k‖ ≤ K) (U : Fin n → ℂ) (j : Fin n) :
    ‖Gnlse.response R U j‖ ≤ K * total U ^ 2 := by
  rw [congrFun (expand_response hn he R U) j]
  simp only [Finset.sum_apply, Pi.smul_apply, smul_eq_mul]
  calc _ ≤ ∑ a, ∑ b, K * (‖Gnlse.toFreq U a‖ * ‖Gnlse.toFreq U b‖) := by
        refine (norm_sum_le _ _).trans (Finset.sum_le_sum fun a _ => (norm_sum_le _ _).trans (Finset.sum_le_sum fun b _ => ?_))
        rw [norm_mul, norm_wave, mul_one, norm_mul, norm_mul, RCLike.norm_conj, mul_comm K]
        exact mul_le_mul_of_nonneg_left (hK _) (by positivity)
    _ = _ := by
        rw [sq]
        unfold total
        rw [Finset.sum_mul_sum, Finset.mul_sum]
        exact Finset.sum_congr rfl fun a _ => by rw [Finset.mul_sum]

theorem dt_le {T : ℝ} (hT : 0 < T) {Ω : Fin n → ℝ} (hΩ : Grid T Ω) (U : Fin n → ℂ) (j : Fin n) : ‖Gnlse.dt Ω U j‖ ≤ Real.pi * n / T * total U := by
  unfold Gnlse.dt total
  refine (norm_toTime_le _ j).trans ?_
  rw [Finset.mul_sum]
  refine Finset.sum_le_sum fun k _ => ?_
  rw [norm_mul, norm_mul, norm_neg, norm_I, one_mul, norm_real, Real.norm_eq_abs]
  exact mul_le_mul_of_nonneg_right (hΩ.le hT k) (norm_nonneg _)

/-- the code's steepening term against the exact one, for a field above `q` -/
theorem shock_floor (hn : 0 < n) (he : n % 2 = 0) {R : Fin n → ℂ} {K : ℝ} (hK : ∀ k, ‖R k‖ ≤ K) (γ : ℝ) {w0 : ℝ} (hw0 : 0 < w0) {T : ℝ} (hT : 0 < T) {Ω : Fin n → ℝ}
    (hΩ : Grid T Ω) {U : Fin n → ℂ} {q : ℝ} (hq : 10 ^ (-15 : ℤ) ≤ q) {j : Fin n} (hj : q ≤ ‖U j‖) :
    ‖Gnlse.shockReg (10 ^ (-20 : ℤ)) R γ w0 Ω U j - Gnlse.shock R γ w0 Ω U j‖ ≤
      |γ| / w0 * (Real.pi * n / T) * K * total U ^ 2 * (2e-20 / q * total U) := by
  have hK0 : 0 ≤ K := (norm_nonneg _).trans (hK (bin hn 0))
  have hq0 : 0 < q := lt_of_lt_of_le (by norm_num) hq
  have hS : 0 ≤ total U := Finset.sum_nonneg fun k _ => norm_nonneg _
  have e : ‖(10 : ℂ) ^ (-20 : ℤ)‖ = (10 : ℝ) ^ (-20 : ℤ) := by rw [norm_zpow]; norm_num
  have h1 : q / 2 ≤ ‖(10 : ℂ) ^ (-20 : ℤ) + U j‖ := by
    have := norm_sub_norm_le (U j) (-(10 : ℂ) ^ (-20 : ℤ))
    rw [norm_neg, e, sub_neg_eq_add, add_comm (U j)] at this
    have h3 : (10 : ℝ) ^ (-20 : ℤ) ≤ q / 2 := le_trans (by norm_num) (div_le_div_of_nonneg_right hq (by norm_num : (0 : ℝ) ≤ 2))
    refine le_trans ?_ this
    generalize (10 : ℝ) ^ (-20 : ℤ) = t at h3
    linarith
  have hq' : ‖(10 : ℂ) ^ (-20 : ℤ)‖ / ‖(10 : ℂ) ^ (-20 : ℤ) + U j‖ ≤ 2e-20 / q := by
    rw [e]
    calc (10 : ℝ) ^ (-20 : ℤ) / ‖(10 : ℂ) ^ (-20 : ℤ) + U j‖ ≤ 10 ^ (-20 : ℤ) / (q / 2) := div_le_div_of_nonneg_left (by positivity) (by linarith) h1
      _ = 2e-20 / q := by norm_num; ring
  have hne : (10 : ℂ) ^ (-20 : ℤ) + U j ≠ 0 := norm_pos_iff.1 (lt_of_lt_of_le (by linarith) h1)
  have e2 : U j / ((10 : ℂ) ^ (-20 : ℤ) + U j) = 1 - (10 : ℂ) ^ (-20 : ℤ) / ((10 : ℂ) ^ (-20 : ℤ) + U j) := by
    rw [eq_sub_iff_add_eq, ← add_div, add_comm, div_self hne]
  have e3 : Gnlse.shockReg (10 ^ (-20 : ℤ)) R γ w0 Ω U j - Gnlse.shock R γ w0 Ω U j =
      ((γ / w0 : ℝ) : ℂ) * Gnlse.response R U j * Gnlse.dt Ω U j * ((10 : ℂ) ^ (-20 : ℤ) / ((10 : ℂ) ^ (-20 : ℤ) + U j)) := by
    simp only [Gnlse.shockReg, Gnlse.shock, e2]
    ring
  rw [e3, norm_mul, norm_mul, norm_mul, norm_div, norm_real, Real.norm_eq_abs, abs_div, abs_of_pos hw0]
  have a1 := response_le hn he hK U j
  have a2 := dt_le hT hΩ U j
  calc |γ| / w0 * ‖Gnlse.response R U j‖ * ‖Gnlse.dt Ω U j‖ * (‖(10 : ℂ) ^ (-20 : ℤ)‖ / ‖(10 : ℂ) ^ (-20 : ℤ) + U j‖) ≤
        |γ| / w0 * (K * total U ^ 2) * (Real.pi * n / T * total U) * (2e-20 / q) := by gcongr
    _ = _ := by ring

/-! ## solutions -/

/-- how fast the photon number can drift: `S` bounds the sum of the spectral moduli, `τ` the part of it outside the central third of the band, `q` is a floor of
the moduli of the samples, `K` bounds the response, `T` is the time window, `m` the lowest optical frequency of the grid -/
noncomputable def driftRate (n : ℕ) (γ w0 K T m S τ q : ℝ) : ℝ := 2 * S ^ 3 / m * (|γ| / w0) * (Real.pi * n / T) * K * (9 * τ + 2e-20 / q * S)

theorem rate_bound (hn : 0 < n) (he : n % 2 = 0) {R : Fin n → ℂ} {K : ℝ} (hK : ∀ k, ‖R k‖ ≤ K) {T : ℝ} (hT : 0 < T) {Ω : Fin n → ℝ} (hΩ : Grid T Ω) (γ : ℝ) {w0 m : ℝ}
    (hw0 : 0 < w0) (hm : 0 < m) (hw : ∀ k, m ≤ w0 + Ω k) {U : Fin n → ℂ} {S τ q : ℝ} (hS : total U ≤ S) (hτ : outside U ≤ τ) (hq : 10 ^ (-15 : ℤ) ≤ q)
    (hU : ∀ j, q ≤ ‖U j‖) :
    |∑ k, 2 * (Gnlse.toFreq (fun j => ((γ / w0 : ℝ) : ℂ) * defect R Ω U j + (Gnlse.shockReg (10 ^ (-20 : ℤ)) R γ w0 Ω U j - Gnlse.shock R γ w0 Ω U j)) k *
      (starRingEnd ℂ) (Gnlse.toFreq U k)).re / (w0 + Ω k)| ≤ driftRate n γ w0 K T m S τ q := by
  have hK0 : 0 ≤ K := (norm_nonneg _).trans (hK (bin hn 0))
  have hq0 : 0 < q := lt_of_lt_of_le (by norm_num) hq
  have hS0 : 0 ≤ total U := Finset.sum_nonneg fun k _ => norm_nonneg _
  have ho0 : 0 ≤ outside U := Finset.sum_nonneg fun k _ => by split_ifs <;> positivity
  refine (rate_le hn he hK hT hΩ γ hw0 hm hw U fun j => shock_floor hn he hK γ hw0 hT hΩ hq (hU j)).trans ?_
  have hpi := Real.pi_pos
  have hSn := hS0.trans hS
  calc _ = 2 * total U ^ 3 / m * (|γ| / w0) * (Real.pi * n / T) * K * (9 * outside U + 2e-20 / q * total U) := by ring
    _ ≤ _ := by
      unfold driftRate
      gcongr

/-- C166: along a solution of the equation that the code integrates, the photon number follows the gain; what is missing or too much is bounded by the light
outside the central third of the band (and by the regularisation of the steepening term). -/
theorem C166_drift (hn : 0 < n) (he : n % 2 = 0) {β : Fin n → ℝ} {g : ℝ} {R : Fin n → ℂ} (hR : RealResponse R) {K : ℝ} (hK : ∀ k, ‖R k‖ ≤ K) {T : ℝ} (hT : 0 < T)
    {Ω : Fin n → ℝ} (hΩ : Grid T Ω) {γ w0 m : ℝ} (hw0 : 0 < w0) (hm : 0 < m) (hw : ∀ k, m ≤ w0 + Ω k) {x b L : ℝ} (hx : x < 0) (hb : L < b) {U : ℝ → Fin n → ℂ}
    (hU : SolvesShockReg β g R γ w0 Ω x b U) {S τ q : ℝ} (hS : ∀ z ∈ Icc 0 L, total (U z) ≤ S) (hτ : ∀ z ∈ Icc 0 L, outside (U z) ≤ τ)
    (hq : 10 ^ (-15 : ℤ) ≤ q) (hUq : ∀ z ∈ Icc 0 L, ∀ j, q ≤ ‖U z j‖) {z : ℝ} (hz : z ∈ Icc 0 L) :
    |photons (fun k => w0 + Ω k) (U z) - Real.exp (g * z) * photons (fun k => w0 + Ω k) (U 0)| ≤ Real.exp (|g| * z) * driftRate n γ w0 K T m S τ q * z := by
  refine drift (f := fun z => photons (fun k => w0 + Ω k) (U z)) (L := L) (r := fun s => ∑ k, 2 * (Gnlse.toFreq (fun j => ((γ / w0 : ℝ) : ℂ) * defect R Ω (U s) j +
    (Gnlse.shockReg (10 ^ (-20 : ℤ)) R γ w0 Ω (U s) j - Gnlse.shock R γ w0 Ω (U s) j)) k * (starRingEnd ℂ) (Gnlse.toFreq (U s) k)).re / (w0 + Ω k)) ?_ ?_ hz
  · intro s hs
    have h := (hU s ⟨by linarith [hs.1], by linarith [hs.2]⟩).2
    refine photons_hasDerivAt hn (β := β) hR hw0.ne' (fun k => (hm.trans_le (hw k)).ne') (U := U)
      (e := fun j => Gnlse.shockReg (10 ^ (-20 : ℤ)) R γ w0 Ω (U s) j - Gnlse.shock R γ w0 Ω (U s) j) (h.congr_deriv ?_)
    funext j
    simp only [Pi.add_apply]
    ring
  · intro s hs
    exact rate_bound hn he hK hT hΩ γ hw0 hm hw (hS s hs) (hτ s hs) hq (hUq s hs)

/-- C166: for the equation itself, without the regularisation; a field inside the central third of the band all along keeps its photon number exactly
(`τ = 0`). -/
theorem C166_equation (hn : 0 < n) (he : n % 2 = 0) {β : Fin n → ℝ} {g : ℝ} {R : Fin n → ℂ} (hR : RealResponse R) {K : ℝ} (hK : ∀ k, ‖R k‖ ≤ K) {T : ℝ} (hT : 0 < T)
    {Ω : Fin n → ℝ} (hΩ : Grid T Ω) {γ w0 m : ℝ} (hw0 : 0 < w0) (hm : 0 < m) (hw : ∀ k, m ≤ w0 + Ω k) {x b L : ℝ} (hx : x < 0) (hb : L < b) {U : ℝ → Fin n → ℂ}
    (hU : SolvesShock β g R γ w0 Ω x b U) {S τ : ℝ} (hS : ∀ z ∈ Icc 0 L, total (U z) ≤ S) (hτ : ∀ z ∈ Icc 0 L, outside (U z) ≤ τ) {z : ℝ} (hz : z ∈ Icc 0 L) :
    |photons (fun k => w0 + Ω k) (U z) - Real.exp (g * z) * photons (fun k => w0 + Ω k) (U 0)| ≤
      Real.exp (|g| * z) * (2 * S ^ 3 / m * (|γ| / w0) * (Real.pi * n / T) * K * (9 * τ)) * z := by
  have hK0 : 0 ≤ K := (norm_nonneg _).trans (hK (bin hn 0))
  have hpi := Real.pi_pos
  refine drift (f := fun z => photons (fun k => w0 + Ω k) (U z)) (L := L) (r := fun s => ∑ k, 2 * (Gnlse.toFreq (fun j => ((γ / w0 : ℝ) : ℂ) * defect R Ω (U s) j +
    (0 : Fin n → ℂ) j) k * (starRingEnd ℂ) (Gnlse.toFreq (U s) k)).re / (w0 + Ω k)) ?_ ?_ hz
  · intro s hs
    have h := hU s ⟨by linarith [hs.1], by linarith [hs.2]⟩
    exact photons_hasDerivAt hn hR hw0.ne' (fun k => (hm.trans_le (hw k)).ne') (U := U) (e := 0) (by rwa [add_zero])
  · intro s hs
    have hS0 : 0 ≤ total (U s) := Finset.sum_nonneg fun k _ => norm_nonneg _
    have ho0 : 0 ≤ outside (U s) := Finset.sum_nonneg fun k _ => by split_ifs <;> positivity
    refine (rate_le hn he hK hT hΩ γ hw0 hm hw (U s) (e := 0) (ε := 0) fun j => by simp).trans ?_
    have a1 := hS s hs
    have a3 := hS0.trans a1
    have a2 := hτ s hs
    calc _ = 2 * total (U s) ^ 3 / m * (|γ| / w0) * (Real.pi * n / T) * K * (9 * outside (U s)) := by ring
      _ ≤ _ := by gcongr

/-- photon numbers of fields that are close -/
theorem photons_close (hn : 0 < n) (he : n % 2 = 0) {w : Fin n → ℝ} {m : ℝ} (hm : 0 < m) (hw : ∀ k, m ≤ w k) {x y : Fin n → ℂ} {S δ : ℝ} (hS : total y ≤ S)
    (hδ : ∀ j, ‖x j - y j‖ ≤ δ) : |photons w x - photons w y| ≤ n * ((2 * S + δ) * δ / m) := by
  have hδ0 : 0 ≤ δ := (norm_nonneg _).trans (hδ ⟨0, hn⟩)
  have hS0 : 0 ≤ total y := Finset.sum_nonneg fun k _ => norm_nonneg _
  unfold photons
  rw [← Finset.sum_sub_distrib]
  refine (Finset.abs_sum_le_sum_abs _ _).trans ?_
  have : ∀ k ∈ Finset.univ, |‖Gnlse.toFreq x k‖ ^ 2 / w k - ‖Gnlse.toFreq y k‖ ^ 2 / w k| ≤ (2 * S + δ) * δ / m := by
    intro k _
    have hwk : 0 < w k := hm.trans_le (hw k)
    have h1 : ‖Gnlse.toFreq x k - Gnlse.toFreq y k‖ ≤ δ := by
      have := norm_toFreq_le hn he (x := fun j => x j - y j) hδ k
      rwa [show Gnlse.toFreq (fun j => x j - y j) k = Gnlse.toFreq x k - Gnlse.toFreq y k from fftT_diff he x y k] at this
    have h2 : ‖Gnlse.toFreq y k‖ ≤ S := (Finset.single_le_sum (f := fun k => ‖Gnlse.toFreq y k‖) (fun k _ => norm_nonneg _) (Finset.mem_univ k)).trans hS
    have h3 : |‖Gnlse.toFreq x k‖ - ‖Gnlse.toFreq y k‖| ≤ δ := (abs_norm_sub_norm_le _ _).trans h1
    have h4 : ‖Gnlse.toFreq x k‖ ≤ S + δ := by linarith [(abs_le.1 h3).2]
    rw [← sub_div, abs_div, abs_of_pos hwk, sq_sub_sq, abs_mul, abs_of_nonneg (by positivity : 0 ≤ ‖Gnlse.toFreq x k‖ + ‖Gnlse.toFreq y k‖)]
    calc (‖Gnlse.toFreq x k‖ + ‖Gnlse.toFreq y k‖) * |‖Gnlse.toFreq x k‖ - ‖Gnlse.toFreq y k‖| / w k ≤ (2 * S + δ) * δ / w k := by
          refine div_le_div_of_nonneg_right (mul_le_mul (by linarith) h3 (abs_nonneg _) (by linarith)) hwk.le
      _ ≤ (2 * S + δ) * δ / m := div_le_div_of_nonneg_left (mul_nonneg (by linarith) hδ0) hm (hw k)
  refine (Finset.sum_le_card_nsmul _ _ _ this).trans ?_
  simp

section
variable {polyfit : Fiber.PolyFit} {spline : Fiber.Spline} {o : Obj} {p : Pulse} {F : FibObj} {f1 : Fiber.Fib} {β : Fin p.n → ℝ} {g γ fR : ℝ} {R : Fin p.n → ℂ}
  {Ω : Fin p.n → ℝ}

theorem grid_of_V {a : Fin p.n → ℂ} (hp : Holds p a) (hΩ : p.V_THz = .ok ⟨p.n, Ω⟩) : Grid p.tw Ω := by
  have e : p.V_THz = .ok ⟨p.n, fun i => 2 * Real.pi * ((i : ℕ) - (p.n : ℝ) / 2) / p.tw⟩ := hp.V_eq
  rw [e] at hΩ
  have := Except.ok.inj hΩ
  simp only [Vec.mk.injEq, heq_eq_eq, true_and] at this
  intro k
  exact (congrFun this k).symm

/-- the photon number of a stored spectrum is that of the field it belongs to -/
theorem columns_photons {a : Fin p.n → ℂ} (hp : Holds p a) (he : p.n % 2 = 0) (hcf : p.cf ≠ 0) (h : Loads polyfit spline o p F f1 β g R γ fR)
    {L : ℝ} (hL : F.fib.length = some L) (hpos : 0 < L) (hm : o.method = .rk4ip) (heta : o.eta = 5) (hss : o.disableSS = false) (hdz : 0 < o.dz)
    (hmin : 0 < o.dzMin) (hle : 0 < o.localError) (hΩ : p.V_THz = .ok ⟨p.n, Ω⟩) {W : Fin p.n → ℝ} {m : ℝ} (hm0 : 0 < m)
    (hWm : ∀ k, m ≤ W k) {x b : ℝ} (hx : x < 0) (hb : L < b) {U : ℝ → Fin p.n → ℂ}
    (hU : SolvesShockReg β g R γ (2 * Real.pi * p.center_frequency_THz) Ω x b U) (hU0 : p.AT = .ok ⟨p.n, U 0⟩) {S : ℝ} (hS : ∀ z ∈ Icc 0 L, total (U z) ≤ S) :
    ∃ (N0 : ℕ) (C : ℝ), ∀ N, N0 ≤ N → ∃ r o' F', propagate polyfit spline o p F N false = some (.ok (r, o', F')) ∧ r.AW.length = N ∧
      ∀ i < N, ∃ w : Fin p.n → ℂ, r.AW[i]? = some ⟨p.n, w⟩ ∧ |∑ k, ‖w k‖ ^ 2 / W k - photons W (U ((i + 1) * (L / N)))| ≤ C / N ^ 5 := by
  obtain ⟨N0, C, H⟩ := C125_converges hp he hcf h hL hpos hm heta hss hdz hmin hle hΩ hx hb hU hU0
  refine ⟨max N0 1, p.n * ((2 * S + |C|) * |C| / m), fun N hN => ?_⟩
  obtain ⟨r, o', F', hr, hlr, hcol⟩ := H N ((le_max_left _ _).trans hN)
  have hN1 : 1 ≤ N := (le_max_right _ _).trans hN
  refine ⟨r, o', F', hr, ?_, fun i hi => ?_⟩
  · obtain ⟨-, L, S, P, -, -, -, -, -, -, -, hAT, hlen, hAW, -⟩ := C43_bookkeeping hr hp he
    omega
  obtain ⟨v, hv, hclose⟩ := hcol i hi
  refine ⟨fftT v, AW_column hr hp he hv, ?_⟩
  have hz := column_position hpos hi
  have hS0 : 0 ≤ S := (Finset.sum_nonneg fun k _ => norm_nonneg _).trans (hS _ hz)
  have h1 := photons_close hp.pos he hm0 hWm (x := v) (hS _ hz) fun j => (hclose j).trans (div_le_div_of_nonneg_right (le_abs_self C) (by positivity))
  refine h1.trans ?_
  have hN5 : (1 : ℝ) ≤ (N : ℝ) ^ 5 := one_le_pow₀ (by exact_mod_cast hN1)
  have h2 : |C| / (N : ℝ) ^ 5 ≤ |C| := div_le_self (abs_nonneg _) hN5
  calc (p.n : ℝ) * ((2 * S + |C| / N ^ 5) * (|C| / N ^ 5) / m) ≤ p.n * ((2 * S + |C|) * (|C| / N ^ 5) / m) := by gcongr
    _ = _ := by ring

/-- C166: the photon numbers of the spectra that `propagate` returns.  `W` are the optical frequencies of the grid and `a` the spectrum of the input; with `m`, `S`,
`τ`, `q` as in `driftRate`, the photon number of column `i` differs from `e^(g z)` times that of the input by at most the drift over `z` and `C/N⁵`. -/
theorem C166_photons {a : Fin p.n → ℂ} (hp : Holds p a) (he : p.n % 2 = 0) (htw : 0 < p.tw) (hcf : 0 < p.cf) (h : Loads polyfit spline o p F f1 β g R γ fR)
    {L : ℝ} (hL : F.fib.length = some L) (hpos : 0 < L) (hm : o.method = .rk4ip) (heta : o.eta = 5) (hss : o.disableSS = false) (hdz : 0 < o.dz)
    (hmin : 0 < o.dzMin) (hle : 0 < o.localError) (hΩ : p.V_THz = .ok ⟨p.n, Ω⟩) {W : Fin p.n → ℝ} (hW : p.W_THz = .ok ⟨p.n, W⟩) {m : ℝ} (hm0 : 0 < m)
    (hWm : ∀ k, m ≤ W k) {K : ℝ} (hK : ∀ k, ‖R k‖ ≤ K) {x b : ℝ} (hx : x < 0) (hb : L < b) {U : ℝ → Fin p.n → ℂ}
    (hU : SolvesShockReg β g R γ (2 * Real.pi * p.center_frequency_THz) Ω x b U) (hU0 : p.AT = .ok ⟨p.n, U 0⟩) {S τ q : ℝ}
    (hS : ∀ z ∈ Icc 0 L, total (U z) ≤ S) (hτ : ∀ z ∈ Icc 0 L, outside (U z) ≤ τ) (hq : 10 ^ (-15 : ℤ) ≤ q) (hUq : ∀ z ∈ Icc 0 L, ∀ j, q ≤ ‖U z j‖) :
    ∃ (N0 : ℕ) (C : ℝ), ∀ N, N0 ≤ N → ∃ r o' F', propagate polyfit spline o p F N false = some (.ok (r, o', F')) ∧ r.AW.length = N ∧
      ∀ i < N, ∃ w : Fin p.n → ℂ, r.AW[i]? = some ⟨p.n, w⟩ ∧
        |∑ k, ‖w k‖ ^ 2 / W k - Real.exp (g * ((i + 1) * (L / N))) * ∑ k, ‖a k‖ ^ 2 / W k| ≤
          Real.exp (|g| * ((i + 1) * (L / N))) * driftRate p.n γ (2 * Real.pi * p.cf) K p.tw m S τ q * ((i + 1) * (L / N)) + C / N ^ 5 := by
  have hgrid := grid_of_V hp hΩ
  have hWΩ : W = fun k => 2 * Real.pi * p.cf + Ω k := by
    rw [show p.W_THz = p.W from rfl, hp.W_eq] at hW
    have := Except.ok.inj hW
    simp only [Vec.mk.injEq, heq_eq_eq, true_and] at this
    rw [← this]
    funext k
    rw [hgrid k]
    ring
  have hw0 : 0 < 2 * Real.pi * p.cf := by have := Real.pi_pos; positivity
  obtain ⟨N0, C, H⟩ := columns_photons hp he hcf.ne' h hL hpos hm heta hss hdz hmin hle hΩ hm0 hWm hx hb hU hU0 hS
  refine ⟨N0, C, fun N hN => ?_⟩
  obtain ⟨r, o', F', hr, hlr, hcol⟩ := H N hN
  refine ⟨r, o', F', hr, hlr, fun i hi => ?_⟩
  obtain ⟨w, hw, hclose⟩ := hcol i hi
  refine ⟨w, hw, ?_⟩
  have hz := column_position hpos hi
  have hd := C166_drift hp.pos he (raman_real hp he h) hK htw hgrid (γ := γ) hw0 hm0 (fun k => by rw [← congrFun hWΩ k]; exact hWm k) hx hb hU hS hτ hq hUq hz
  rw [← hWΩ] at hd
  have h0 : Gnlse.toFreq (U 0) = a := by
    have e := hp.AT_eq
    rw [hU0] at e
    have := Except.ok.inj e
    simp only [Vec.mk.injEq, heq_eq_eq, true_and] at this
    rw [this]
    exact fftT_ifftT a
  have e0 : photons W (U 0) = ∑ k, ‖a k‖ ^ 2 / W k := by
    unfold photons
    rw [h0]
  rw [e0] at hd
  have := abs_sub_le (∑ k, ‖w k‖ ^ 2 / W k) (photons W (U ((i + 1) * (L / N)))) (Real.exp (g * ((i + 1) * (L / N))) * ∑ k, ‖a k‖ ^ 2 / W k)
  linarith

end

/-! ## light outside the central third -/

theorem betas_length (polyfit : Fiber.PolyFit) (spline : Fiber.Spline) (p : Pulse) (z : ℝ) (L L' wl gamma gain : ℝ) (b : Vec ℝ) (units label : String) :
    (Fiber.getBetas polyfit spline (Fiber.genSpecs gain) p z (Fiber.genFib L wl b gamma gain units label Fiber.Fib.new)).1 =
      (Fiber.getBetas polyfit spline (Fiber.genSpecs gain) p z (Fiber.genFib L' wl b gamma gain units label Fiber.Fib.new)).1 := by
  rfl

/-- two lines of the grid with two points -/
noncomputable def beat : Fin 2 → ℂ := Gnlse.toTime ![1 + I, 2]

theorem beat_freq : Gnlse.toFreq beat = ![1 + I, 2] := by
  funext k
  exact congrFun (fftT_ifftT _) k

theorem defect_beat {T : ℝ} {Ω : Fin 2 → ℝ} (hΩ : Grid T Ω) (j : Fin 2) : defect (fun _ => 1) Ω beat j = -16 * Real.pi * I * (1 + I) / T := by
  have h0 : Ω 0 = -(2 * Real.pi / T) := by rw [hΩ 0]; norm_num; ring
  have h1 : Ω 1 = 0 := by rw [hΩ 1]; norm_num
  have hb0 : ∀ k : ℤ, k % 2 = 0 → bin (n := 2) (by norm_num) k = 1 := fun k hk => by
    apply Fin.ext
    have := bin_coe (n := 2) (by norm_num) k
    simp only [Nat.cast_ofNat, Nat.reduceDiv, Nat.cast_one] at this
    show ((bin (n := 2) (by norm_num) k : Fin 2) : ℕ) = 1
    omega
  have hb1 : ∀ k : ℤ, k % 2 = 1 → bin (n := 2) (by norm_num) k = 0 := fun k hk => by
    apply Fin.ext
    have := bin_coe (n := 2) (by norm_num) k
    simp only [Nat.cast_ofNat, Nat.reduceDiv, Nat.cast_one] at this
    show ((bin (n := 2) (by norm_num) k : Fin 2) : ℕ) = 0
    omega
  have hw : ∀ k : ℤ, k % 2 = 0 → wave 2 k j = 1 := fun k hk => by
    rw [wave_bin (by norm_num), hb0 k hk]
    unfold tone rootE
    norm_num
  have i0 : idx (0 : Fin 2) = -1 := rfl
  have i1 : idx (1 : Fin 2) = 0 := rfl
  rw [defect_eq (by norm_num) (by norm_num)]
  simp only [Fin.sum_univ_two, i0, i1, beat_freq, Matrix.cons_val_zero, Matrix.cons_val_one]
  simp (disch := decide) only [hb0, hb1, hw, h0, h1]
  have hc : (starRingEnd ℂ) 2 = 2 := map_ofNat _ 2
  simp [hc]
  ring

theorem beat_total : total beat ≤ 4 := by
  unfold total
  rw [beat_freq, Fin.sum_univ_two]
  simp only [Matrix.cons_val_zero, Matrix.cons_val_one]
  have h1 : ‖(1 : ℂ) + I‖ ≤ 2 := (norm_add_le _ _).trans (by rw [norm_one, norm_I]; norm_num)
  have h2 : ‖(2 : ℂ)‖ = 2 := by norm_num
  linarith

theorem beat_floor (j : Fin 2) : 1 ≤ ‖beat j‖ := by
  have e : beat j = (1 + I) * rootE 2 (-(((0 : ℕ) - (2 / 2 : ℕ) : ℤ) * ((j : ℕ) - (2 / 2 : ℕ) : ℤ))) + 2 * rootE 2 (-(((1 : ℕ) - (2 / 2 : ℕ) : ℤ) * ((j : ℕ) - (2 / 2 : ℕ) : ℤ))) := by
    have := ifftT_apply_even (n := 2) (by norm_num) ![1 + I, 2] j
    rw [Fin.sum_univ_two] at this
    exact this
  have h1 : rootE 2 (-(((1 : ℕ) - (2 / 2 : ℕ) : ℤ) * ((j : ℕ) - (2 / 2 : ℕ) : ℤ))) = 1 := by
    unfold rootE
    norm_num
  have h2 : rootE 2 (-(((0 : ℕ) - (2 / 2 : ℕ) : ℤ) * ((j : ℕ) - (2 / 2 : ℕ) : ℤ))) = 1 ∨ rootE 2 (-(((0 : ℕ) - (2 / 2 : ℕ) : ℤ) * ((j : ℕ) - (2 / 2 : ℕ) : ℤ))) = -1 := by
    fin_cases j
    · right
      unfold rootE
      norm_num
      rw [show 2 * (Real.pi : ℂ) * I * (1 / 2) = Real.pi * I by ring, exp_neg, exp_pi_mul_I]
      norm_num
    · left
      unfold rootE
      norm_num
  rw [e, h1]
  have h3 : ∀ y : ℂ, |y.re| ≤ ‖y‖ := abs_re_le_norm
  rcases h2 with h | h
  · rw [h]
    refine le_trans ?_ (h3 _)
    norm_num
  · rw [h]
    refine le_trans ?_ (h3 _)
    norm_num

/-- the photon number of `beat` changes -/
theorem beat_rate {Ω : Fin 2 → ℝ} (hΩ : Grid 1 Ω) {γ : ℝ} (hγ : γ ≠ 0) :
    ∑ k, 2 * (Gnlse.toFreq (fun j => ((γ / (4 * Real.pi) : ℝ) : ℂ) * defect (fun _ => 1) Ω beat j +
      (Gnlse.shockReg (10 ^ (-20 : ℤ)) (fun _ => 1) γ (4 * Real.pi) Ω beat j - Gnlse.shock (fun _ => 1) γ (4 * Real.pi) Ω beat j)) k *
      (starRingEnd ℂ) (Gnlse.toFreq beat k)).re / (4 * Real.pi + Ω k) ≠ 0 := by
  have hpi := Real.pi_pos
  have h0 : Ω 0 = -(2 * Real.pi) := by rw [hΩ 0]; norm_num
  have h1 : Ω 1 = 0 := by rw [hΩ 1]; norm_num
  set e : Fin 2 → ℂ := fun j => Gnlse.shockReg (10 ^ (-20 : ℤ)) (fun _ => 1) γ (4 * Real.pi) Ω beat j - Gnlse.shock (fun _ => 1) γ (4 * Real.pi) Ω beat j with he
  have hε : ∀ j, ‖e j‖ ≤ |γ| * 1e-17 := by
    intro j
    refine (shock_floor (n := 2) (by norm_num) (by norm_num) (K := 1) (fun k => by simp) γ (by positivity) (by norm_num) hΩ (q := 1) (by norm_num) (beat_floor j)).trans ?_
    have ht0 : 0 ≤ total beat := Finset.sum_nonneg fun k _ => norm_nonneg _
    have ht := beat_total
    calc |γ| / (4 * Real.pi) * (Real.pi * (2 : ℕ) / 1) * 1 * total beat ^ 2 * (2e-20 / 1 * total beat) = |γ| * 1e-20 * total beat ^ 3 := by
          push_cast
          field_simp
          ring
      _ ≤ |γ| * 1e-20 * 4 ^ 3 := by gcongr
      _ ≤ |γ| * 1e-17 := by
          rw [mul_assoc]
          exact mul_le_mul_of_nonneg_left (by norm_num) (abs_nonneg _)
  have herr := rate_le (n := 2) (by norm_num) (by norm_num) (R := fun _ => 1) (K := 1) (fun k => by simp) (by norm_num) hΩ 0 (w0 := 4 * Real.pi) (m := 2 * Real.pi) (by positivity) (by positivity)
    (fun k => by fin_cases k <;> [(simp only [Fin.zero_eta]; rw [h0]; linarith); (simp only [Fin.mk_one]; rw [h1]; linarith)]) beat hε
  have hmain : ∀ j, ((γ / (4 * Real.pi) : ℝ) : ℂ) * defect (fun _ => 1) Ω beat j = (((γ / (4 * Real.pi) : ℝ) : ℂ) * (-16 * Real.pi * I * (1 + I))) * tone (1 : Fin 2) j := by
    intro j
    rw [defect_beat hΩ]
    have : tone (1 : Fin 2) j = 1 := by
      unfold tone rootE
      norm_num
    rw [this]
    simp
  have hsplit : ∀ k, 2 * (Gnlse.toFreq (fun j => ((γ / (4 * Real.pi) : ℝ) : ℂ) * defect (fun _ => 1) Ω beat j + e j) k * (starRingEnd ℂ) (Gnlse.toFreq beat k)).re / (4 * Real.pi + Ω k) =
      2 * ((((γ / (4 * Real.pi) : ℝ) : ℂ) * (-16 * Real.pi * I * (1 + I)) * (if k = 1 then 1 else 0)) * (starRingEnd ℂ) (Gnlse.toFreq beat k)).re / (4 * Real.pi + Ω k) +
      2 * (Gnlse.toFreq (fun j => ((0 / (4 * Real.pi) : ℝ) : ℂ) * defect (fun _ => 1) Ω beat j + e j) k * (starRingEnd ℂ) (Gnlse.toFreq beat k)).re / (4 * Real.pi + Ω k) := by
    intro k
    have e0 : (fun j => ((0 / (4 * Real.pi) : ℝ) : ℂ) * defect (fun _ => 1) Ω beat j + e j) = e := by
      funext j
      simp
    rw [e0, toFreq_add]
    simp only [hmain]
    rw [toFreq_smul, toFreq_tone (by norm_num)]
    rw [add_mul, add_re]
    ring
  rw [Finset.sum_congr rfl fun k _ => hsplit k, Finset.sum_add_distrib]
  set X := ∑ k, 2 * (Gnlse.toFreq (fun j => ((0 / (4 * Real.pi) : ℝ) : ℂ) * defect (fun _ => 1) Ω beat j + e j) k * (starRingEnd ℂ) (Gnlse.toFreq beat k)).re / (4 * Real.pi + Ω k) with hX
  have hM : ∑ k, 2 * ((((γ / (4 * Real.pi) : ℝ) : ℂ) * (-16 * Real.pi * I * (1 + I)) * (if k = 1 then 1 else 0)) * (starRingEnd ℂ) (Gnlse.toFreq beat k)).re / (4 * Real.pi + Ω k) =
      4 * γ / Real.pi := by
    rw [Fin.sum_univ_two, beat_freq, h1]
    have hc : (starRingEnd ℂ) 2 = 2 := map_ofNat _ 2
    simp only [Matrix.cons_val_zero, Matrix.cons_val_one, hc]
    have e2 : ((γ / (4 * Real.pi) : ℝ) : ℂ) * (-16 * Real.pi * I * (1 + I)) * 1 * 2 = ((γ / (4 * Real.pi) * (32 * Real.pi) : ℝ) : ℂ) * (1 - I) := by
      push_cast
      linear_combination (-(γ : ℂ) / (4 * Real.pi) * 32 * Real.pi) * I_sq
    simp only [if_true, e2, re_ofReal_mul]
    norm_num
    field_simp
    ring
  rw [hM]
  intro h
  have hX2 : X = -(4 * γ / Real.pi) := by linarith
  rw [hX2, abs_neg, abs_div, abs_mul, abs_of_pos hpi, abs_of_pos (by norm_num : (0 : ℝ) < 4), abs_zero, zero_div, zero_mul, zero_add] at herr
  have hg : 0 < |γ| := abs_pos.2 hγ
  have h4 : 4 * |γ| / Real.pi ≤ 8 / (2 * Real.pi) * (|γ| * 1e-17) := herr.trans (by
    have := beat_total
    gcongr
    linarith)
  have h5 : 8 / (2 * Real.pi) * (|γ| * 1e-17) = 4 * |γ| / Real.pi * 1e-17 := by
    field_simp
    ring
  have h6 : 0 < 4 * |γ| / Real.pi := by positivity
  rw [h5] at h4
  nlinarith

/-- C166: with light outside the central third of the band the photon number does change.  On the grid with two points there is a pulse such that, for every fibre
without loss and with a nonlinear coefficient, the last spectrum of a propagation over a suitable length has another photon number than the input, however many steps
are taken. -/
theorem C166_aliasing (polyfit : Fiber.PolyFit) (spline : Fiber.Spline) {wl gamma : ℝ} (hwl : wl ≠ 0) (hγ : gamma ≠ 0) (b : Vec ℝ) (units label : String) :
    ∃ (p : Pulse) (a : Fin p.n → ℂ) (W : Fin p.n → ℝ), p.n = 2 ∧ Holds p a ∧ p.W_THz = .ok ⟨p.n, W⟩ ∧ (∀ k, 0 < W k) ∧ ∃ L > 0, ∃ c > 0, ∃ N0 : ℕ, ∀ N, N0 ≤ N →
      ∃ (r : Result) (o' : Obj) (F' : FibObj) (w : Fin p.n → ℂ),
        propagate polyfit spline { Obj.default with disableRaman := true } p ⟨Fiber.genFib L wl b gamma 0 units label Fiber.Fib.new, Fiber.genSpecs 0⟩ N false =
          some (.ok (r, o', F')) ∧ r.AW[N - 1]? = some ⟨p.n, w⟩ ∧ c ≤ |∑ k, ‖w k‖ ^ 2 / W k - ∑ k, ‖a k‖ ^ 2 / W k| := by
  have hpi := Real.pi_pos
  set p : Pulse := heldPulse 2 2 1 beat with hpdef
  have hp : Holds p (fftT beat) := ⟨rfl, rfl, by norm_num, rfl⟩
  set Ω : Fin 2 → ℝ := fun i => 2 * Real.pi * ((i : ℕ) - ((2 : ℕ) : ℝ) / 2) / 1 with hΩdef
  have hgrid : Grid 1 Ω := fun k => rfl
  have hV : p.V_THz = .ok ⟨p.n, Ω⟩ := hp.V_eq
  have h0 : Ω 0 = -(2 * Real.pi) := by rw [hgrid 0]; norm_num
  have h1 : Ω 1 = 0 := by rw [hgrid 1]; norm_num
  set W : Fin 2 → ℝ := fun k => 4 * Real.pi + Ω k with hWdef
  have hWm : ∀ k, 2 * Real.pi ≤ W k := by
    intro k
    fin_cases k
    · show 2 * Real.pi ≤ 4 * Real.pi + Ω 0
      rw [h0]; linarith
    · show 2 * Real.pi ≤ 4 * Real.pi + Ω 1
      rw [h1]; linarith
  have hW : p.W_THz = .ok ⟨p.n, W⟩ := by
    rw [show p.W_THz = p.W from rfl, hp.W_eq]
    refine congrArg Except.ok ?_
    refine congrArg (Vec.mk 2) (funext fun k => ?_)
    show 2 * Real.pi * ((k : ℕ) - ((2 : ℕ) : ℝ) / 2) / 1 + 2 * Real.pi * 2 = 4 * Real.pi + 2 * Real.pi * ((k : ℕ) - ((2 : ℕ) : ℝ) / 2) / 1
    ring
  have hAT : p.AT = .ok ⟨p.n, beat⟩ := by
    have := hp.AT_eq
    rwa [ifftT_fftT] at this
  set o : Obj := { Obj.default with disableRaman := true } with ho
  obtain ⟨β, R, fR, hl1⟩ := loads_generated polyfit spline o hp (by norm_num [hpdef, heldPulse]) (length := 1) (gamma := gamma) (gain := 0) (b := b) (units := units) (label := label)
    hwl (Or.inl rfl)
  have hR := hl1.raman_off rfl
  subst hR
  have hload : ∀ L, Loads polyfit spline o p ⟨Fiber.genFib L wl b gamma 0 units label Fiber.Fib.new, Fiber.genSpecs 0⟩
      (Fiber.genFib L wl b gamma 0 units label Fiber.Fib.new) β 0 (fun _ => 1) gamma fR := by
    intro L
    obtain ⟨β', R', fR', hl⟩ := loads_generated polyfit spline o hp (by norm_num [hpdef, heldPulse]) (length := L) (gamma := gamma) (gain := 0) (b := b) (units := units) (label := label)
      hwl (Or.inl rfl)
    have e := betas_length polyfit spline p 0 L 1 wl gamma 0 b units label
    have e1 := congrArg Prod.fst hl.betas
    have e2 := congrArg Prod.fst hl1.betas
    have e3 := (e1.symm.trans e).trans e2
    have e4 : β' = β := by
      have := Except.ok.inj e3
      simp only [Fiber.BetaRes.arr.injEq, Vec.mk.injEq, heq_eq_eq, true_and] at this
      exact this
    subst e4
    exact ⟨hl.betas, hl.gamma, hl.gain, hl1.raman⟩
  have hw0 : 2 * Real.pi * p.center_frequency_THz = 4 * Real.pi := by
    show 2 * Real.pi * 2 = 4 * Real.pi
    ring
  obtain ⟨T0, hT0, U, hU, hU0⟩ := C125_exists β 0 (fun _ => 1) gamma (4 * Real.pi) Ω (A := beat) fun j => lt_of_lt_of_le (by norm_num) (beat_floor j)
  have hd : HasDerivAt (fun z => photons W (U z)) (∑ k, 2 * (Gnlse.toFreq (fun j => ((gamma / (4 * Real.pi) : ℝ) : ℂ) * defect (fun _ => 1) Ω beat j +
      (Gnlse.shockReg (10 ^ (-20 : ℤ)) (fun _ => 1) gamma (4 * Real.pi) Ω beat j - Gnlse.shock (fun _ => 1) gamma (4 * Real.pi) Ω beat j)) k *
      (starRingEnd ℂ) (Gnlse.toFreq beat k)).re / (4 * Real.pi + Ω k)) 0 := by
    have h := (hU 0 ⟨by linarith, hT0⟩).2
    have := photons_hasDerivAt (n := 2) (by norm_num) (β := β) (g := 0) (R := fun _ => 1) real_response_one (γ := gamma) (w0 := 4 * Real.pi) (by positivity) (Ω := Ω)
      (fun k => (lt_of_lt_of_le (by positivity : 0 < 2 * Real.pi) (hWm k)).ne') (U := U) (z := 0)
      (e := fun j => Gnlse.shockReg (10 ^ (-20 : ℤ)) (fun _ => 1) gamma (4 * Real.pi) Ω (U 0) j - Gnlse.shock (fun _ => 1) gamma (4 * Real.pi) Ω (U 0) j) (h.congr_deriv (by
        funext j
        have key : ∀ x y t : ℂ, x + y = x + t + (y - t) := fun x y t => by ring
        exact key _ _ _))
    rw [hU0, zero_mul, zero_add] at this
    exact this
  have hne := hd.eventually_ne (c := photons W (U 0)) (beat_rate hgrid hγ)
  have hlt : ∀ᶠ z in nhdsWithin (0 : ℝ) {0}ᶜ, |z| < T0 := by
    refine Filter.Eventually.filter_mono nhdsWithin_le_nhds ?_
    have : ContinuousAt (fun z : ℝ => |z|) 0 := continuous_abs.continuousAt
    exact this.eventually (gt_mem_nhds (by simpa using hT0))
  have hpos : ∃ L, 0 < L ∧ L < T0 ∧ photons W (U L) ≠ photons W (U 0) := by
    have h3 : ∀ᶠ z in nhdsWithin (0 : ℝ) (Ioi 0), photons W (U z) ≠ photons W (U 0) ∧ |z| < T0 ∧ 0 < z := by
      have hmono : nhdsWithin (0 : ℝ) (Ioi 0) ≤ nhdsWithin (0 : ℝ) {0}ᶜ := nhdsWithin_mono _ fun z hz => ne_of_gt hz
      filter_upwards [hmono hne, hmono hlt, self_mem_nhdsWithin] with z a1 a2 a3
      exact ⟨a1, a2, a3⟩
    obtain ⟨L, a1, a2, a3⟩ := h3.exists
    exact ⟨L, a3, (le_abs_self L).trans_lt a2, a1⟩
  obtain ⟨L, hL, hLT, hLne⟩ := hpos
  have hcont : ContinuousOn (fun z => total (U z)) (Icc 0 L) := by
    intro z hz
    have hz' := (hU z ⟨by linarith [hz.1], by linarith [hz.2]⟩).2
    refine ContinuousAt.continuousWithinAt ?_
    unfold total
    exact tendsto_finsetSum _ fun k _ => (toFreq_hasDerivAt hz' k).continuousAt.norm
  obtain ⟨S, hS⟩ := isCompact_Icc.bddAbove_image hcont
  have hS' : ∀ z ∈ Icc 0 L, total (U z) ≤ S := fun z hz => hS ⟨z, hz, rfl⟩
  obtain ⟨N0, C, H⟩ := columns_photons (W := W) (m := 2 * Real.pi) hp (show (2 : ℕ) % 2 = 0 from rfl) (by norm_num [hpdef, heldPulse]) (hload L) (L := L) rfl hL rfl rfl rfl (by norm_num [ho, Obj.default])
    (by norm_num [ho, Obj.default]) (by norm_num [ho, Obj.default]) hV (by positivity) hWm (x := -T0) (by linarith) hLT (U := U) (by rw [hw0]; exact hU) (by rw [hU0]; exact hAT) hS'
  set D := |photons W (U L) - photons W (U 0)| with hD
  have hDpos : 0 < D := abs_pos.2 (sub_ne_zero.2 hLne)
  obtain ⟨N1, hN1⟩ := exists_nat_gt (2 * |C| / D)
  refine ⟨p, fftT beat, W, rfl, hp, hW, fun k => lt_of_lt_of_le (by positivity) (hWm k), L, hL, D / 2, by positivity, max (max N0 N1) 1, fun N hN => ?_⟩
  have hNN0 : N0 ≤ N := (le_max_left _ _).trans ((le_max_left _ _).trans hN)
  have hNN1 : N1 ≤ N := (le_max_right _ _).trans ((le_max_left _ _).trans hN)
  have hNpos : 1 ≤ N := (le_max_right _ _).trans hN
  obtain ⟨r, o', F', hr, -, hcol⟩ := H N hNN0
  obtain ⟨w, hw, hclose⟩ := hcol (N - 1) (by omega)
  refine ⟨r, o', F', w, hr, hw, ?_⟩
  have hN' : (0 : ℝ) < N := by exact_mod_cast hNpos
  have ez : (((N - 1 : ℕ) : ℝ) + 1) * (L / N) = L := by
    rw [Nat.cast_sub hNpos, Nat.cast_one]
    field_simp
    ring
  rw [ez] at hclose
  have e0 : photons W (U 0) = ∑ k, ‖fftT beat k‖ ^ 2 / W k := by
    rw [hU0]
    rfl
  have hC : C / (N : ℝ) ^ 5 ≤ D / 2 := by
    have h2 : 2 * |C| / D < N := hN1.trans_le (by exact_mod_cast hNN1)
    rw [div_lt_iff₀ hDpos] at h2
    have h3 : (N : ℝ) ≤ (N : ℝ) ^ 5 := by
      have : (1 : ℝ) ≤ N := by exact_mod_cast hNpos
      exact le_self_pow₀ this (by norm_num)
    rw [div_le_iff₀ (by positivity)]
    have h4 : D / 2 * N ≤ D / 2 * (N : ℝ) ^ 5 := mul_le_mul_of_nonneg_left h3 (by positivity)
    linarith [le_abs_self C]
  rw [e0] at hD
  have key : ∀ y u v D : ℝ, |y - u| ≤ D / 2 → D = |u - v| → D / 2 ≤ |y - v| := fun y u v D h h' => by
    have := abs_sub_le u y v
    rw [abs_sub_comm u y] at this
    linarith
  exact key _ _ _ _ (hclose.trans hC) hD

/-! ## examples -/

/-- C166 applies to every field inside the central third of the band that has no sample near the threshold: over some distance the light outside stays below any
given bound. -/
theorem C166_nonvacuous (β : Fin n → ℝ) (g : ℝ) (R : Fin n → ℂ) (γ w0 : ℝ) (Ω : Fin n → ℝ) {A : Fin n → ℂ} (hA : outside A = 0) {q : ℝ} (hq : 10 ^ (-15 : ℤ) ≤ q)
    (hAq : ∀ j, q < ‖A j‖) {τ : ℝ} (hτ : 0 < τ) : ∃ L > 0, ∃ x < 0, ∃ b > L, ∃ U, SolvesShockReg β g R γ w0 Ω x b U ∧ U 0 = A ∧
      ∀ z ∈ Icc 0 L, total (U z) ≤ total A + 1 ∧ outside (U z) ≤ τ ∧ ∀ j, q ≤ ‖U z j‖ := by
  obtain ⟨T, hT, U, hU, hU0⟩ := C125_exists β g R γ w0 Ω fun j => lt_of_le_of_lt hq (hAq j)
  have hd := (hU 0 ⟨by linarith, hT⟩).2
  have c1 : ContinuousAt (fun z => total (U z)) 0 := by
    unfold total
    exact tendsto_finsetSum _ fun k _ => (toFreq_hasDerivAt hd k).continuousAt.norm
  have c2 : ContinuousAt (fun z => outside (U z)) 0 := by
    unfold outside
    refine tendsto_finsetSum _ fun k _ => ?_
    split_ifs
    · exact (toFreq_hasDerivAt hd k).continuousAt.norm
    · exact tendsto_const_nhds
  have c3 : ∀ᶠ z in nhds (0 : ℝ), ∀ j, q < ‖U z j‖ := by
    rw [Filter.eventually_all]
    intro j
    have : ContinuousAt (fun z => ‖U z j‖) 0 := ((continuous_apply j).continuousAt.comp hd.continuousAt).norm
    refine this.eventually (lt_mem_nhds ?_)
    show q < ‖U 0 j‖
    rw [hU0]
    exact hAq j
  have c4 : ∀ᶠ z in nhds (0 : ℝ), total (U z) < total A + 1 := c1.eventually (gt_mem_nhds (by beta_reduce; rw [hU0]; linarith))
  have c5 : ∀ᶠ z in nhds (0 : ℝ), outside (U z) < τ := c2.eventually (gt_mem_nhds (by beta_reduce; rw [hU0, hA]; exact hτ))
  obtain ⟨δ, hδ, hball⟩ := Metric.eventually_nhds_iff.1 (c3.and (c4.and c5))
  refine ⟨min (T / 2) (δ / 2), lt_min (by linarith) (by linarith), -T, by linarith, T, lt_of_le_of_lt (min_le_left _ _) (by linarith), U, hU, hU0, fun z hz => ?_⟩
  have hz2 : dist z 0 < δ := by
    rw [Real.dist_eq, sub_zero, abs_of_nonneg hz.1]
    have := hz.2.trans (min_le_right _ _)
    linarith
  obtain ⟨a1, a2, a3⟩ := hball hz2
  exact ⟨a2.le, a3.le, fun j => (a1 j).le⟩

/-- a beat of two neighbouring lines in the middle of a grid with eight points is such a field -/
theorem C166_example : outside (fun j : Fin 8 => 3 * wave 8 0 j + wave 8 1 j) = 0 ∧ ∀ j, 1 < ‖3 * wave 8 0 j + wave 8 1 j‖ := by
  constructor
  · have e : Gnlse.toFreq (fun j : Fin 8 => 3 * wave 8 0 j + wave 8 1 j) = fun k => 3 * (if k = bin (n := 8) (by norm_num) 0 then 1 else 0) +
        (if k = bin (n := 8) (by norm_num) 1 then 1 else 0) := by
      rw [toFreq_add]
      funext k
      have h1 := congrFun (toFreq_smul 3 (wave 8 0)) k
      rw [h1]
      rw [wave_bin (by norm_num), wave_bin (by norm_num), toFreq_tone (by norm_num), toFreq_tone (by norm_num)]
    unfold outside
    rw [e]
    refine Finset.sum_eq_zero fun k _ => ?_
    have b0 := bin_coe (n := 8) (by norm_num) 0
    have b1 := bin_coe (n := 8) (by norm_num) 1
    have e0 : bin (n := 8) (by norm_num) 0 = 4 := Fin.ext (by omega)
    have e1 : bin (n := 8) (by norm_num) 1 = 5 := Fin.ext (by omega)
    rw [e0, e1]
    fin_cases k <;> simp
  · intro j
    have h1 : ‖3 * wave 8 0 j‖ = 3 := by
      rw [norm_mul, norm_wave]
      norm_num
    have h2 := norm_sub_le (3 * wave 8 0 j + wave 8 1 j) (wave 8 1 j)
    rw [add_sub_cancel_right, h1, norm_wave] at h2
    linarith

end PyNLO
