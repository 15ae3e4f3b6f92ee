import Verif.Lemmas.WienerGlobal
import Mathlib.Analysis.ODE.Gronwall

/-! # Energy and Hamiltonian of solutions without delayed response; existence for all distances -/

namespace PyNLO.Wiener

open Complex Set Filter Topology MeasureTheory

variable {b : ℤ → ℝ} {g γ a d : ℝ} {c : ℤ → ℝ → ℂ} {J : Set ℝ}

/-- `Σ f·conj g` -/
noncomputable def ip (f h : ℤ → ℝ → ℂ) (z : ℝ) : ℂ := ∑' k, f k z * (starRingEnd ℂ) (h k z)

/-- conjugate at the opposite frequency -/
noncomputable def opp (f : ℤ → ℝ → ℂ) (k : ℤ) (z : ℝ) : ℂ := (starRingEnd ℂ) (f (-k) z)

theorem Rapid.opp {f : ℤ → ℝ → ℂ} (hf : Rapid J f) : Rapid J (opp f) := hf.star

theorem Rapid.ip_le {f h : ℤ → ℝ → ℂ} (hf : Rapid J f) (hh : Rapid J h) : ∃ C, ∀ k : ℤ, ∀ z ∈ J, ‖f k z * (starRingEnd ℂ) (h k z)‖ ≤ C * (1 / br k ^ 2) := by
  obtain ⟨C, hC, h1⟩ := hf.bound 0
  obtain ⟨D, hD, h2⟩ := hh.bound 2
  refine ⟨C * D, fun k z hz => ?_⟩
  have h3 := h1 k z hz
  have h4 := h2 k z hz
  rw [pow_zero, one_div_one, mul_one] at h3
  rw [norm_mul, RCLike.norm_conj, mul_assoc]
  gcongr

theorem ip_summable {f h : ℤ → ℝ → ℂ} (hf : Rapid J f) (hh : Rapid J h) {z : ℝ} (hz : z ∈ J) : Summable fun k => f k z * (starRingEnd ℂ) (h k z) := by
  obtain ⟨C, hC⟩ := hf.ip_le hh
  exact Summable.of_norm_bounded (summable_br.mul_left C) fun k => hC k z hz

theorem ip_hasDerivAt (ho : IsOpen J) (hcn : IsPreconnected J) {f f' h h' : ℤ → ℝ → ℂ} (hf : Rapid J f) (hf' : Rapid J f') (hh : Rapid J h) (hh' : Rapid J h')
    (h1 : ∀ k, ∀ z ∈ J, HasDerivAt (f k) (f' k z) z) (h2 : ∀ k, ∀ z ∈ J, HasDerivAt (h k) (h' k z) z) {z : ℝ} (hz : z ∈ J) :
    HasDerivAt (ip f h) (ip f' h z + ip f h' z) z := by
  obtain ⟨C, hC⟩ := hf'.ip_le hh
  obtain ⟨D, hD⟩ := hf.ip_le hh'
  have h3 : ∀ k, ∀ z ∈ J, HasDerivAt (fun z => (starRingEnd ℂ) (h k z)) ((starRingEnd ℂ) (h' k z)) z := fun k z hz =>
    Complex.conjCLE.toContinuousLinearMap.hasFDerivAt.comp_hasDerivAt z (h2 k z hz)
  have := hasDerivAt_tsum_of_isPreconnected (g := fun k z => f k z * (starRingEnd ℂ) (h k z))
    (g' := fun k z => f' k z * (starRingEnd ℂ) (h k z) + f k z * (starRingEnd ℂ) (h' k z))
    ((summable_br.mul_left C).add (summable_br.mul_left D)) ho hcn (fun k z hz => (h1 k z hz).fun_mul (h3 k z hz))
    (fun k z hz => (norm_add_le _ _).trans (add_le_add (hC k z hz) (hD k z hz))) hz (ip_summable hf hh hz) hz
  refine this.congr_deriv ?_
  exact (ip_summable hf' hh hz).tsum_add (ip_summable hf hh' hz)

theorem fold_hasDerivAt (ho : IsOpen J) (hcn : IsPreconnected J) {f f' h h' : ℤ → ℝ → ℂ} (hf : Rapid J f) (hf' : Rapid J f') (hh : Rapid J h) (hh' : Rapid J h')
    (h1 : ∀ k, ∀ z ∈ J, HasDerivAt (f k) (f' k z) z) (h2 : ∀ k, ∀ z ∈ J, HasDerivAt (h k) (h' k z) z) (k : ℤ) {z : ℝ} (hz : z ∈ J) :
    HasDerivAt (fold f h k) (fold f' h k z + fold f h' k z) z := by
  obtain ⟨C, hC⟩ := hf'.term_le hh
  obtain ⟨D, hD⟩ := hf.term_le hh'
  have := hasDerivAt_tsum_of_isPreconnected (g := fun j z => f (k - j) z * h j z) (g' := fun j z => f' (k - j) z * h j z + f (k - j) z * h' j z)
    ((summable_br.mul_left C).add (summable_br.mul_left D)) ho hcn (fun j z hz => (h1 (k - j) z hz).fun_mul (h2 j z hz))
    (fun j z hz => (norm_add_le _ _).trans (add_le_add (hC k j z hz) (hD k j z hz))) hz (summable_fold hf hh k hz) hz
  refine this.congr_deriv ?_
  exact (summable_fold hf' hh k hz).tsum_add (summable_fold hf hh' k hz)

theorem ip_conj (f h : ℤ → ℝ → ℂ) (z : ℝ) : (starRingEnd ℂ) (ip f h z) = ip h f z := by
  unfold ip
  rw [Complex.conj_tsum]
  refine tsum_congr fun k => ?_
  rw [map_mul, Complex.conj_conj, mul_comm]

theorem ip_self (f : ℤ → ℝ → ℂ) (z : ℝ) : ip f f z = ((∑' k, ‖f k z‖ ^ 2 : ℝ) : ℂ) := by
  unfold ip
  rw [Complex.ofReal_tsum]
  refine tsum_congr fun k => ?_
  rw [Complex.mul_conj, Complex.normSq_eq_norm_sq]

/-- moving a factor to the other side -/
theorem ip_fold {f y v : ℤ → ℝ → ℂ} (hf : Rapid J f) (hy : Rapid J y) (hv : Rapid J v) {z : ℝ} (hz : z ∈ J) :
    ip (fold f (opp y)) v z = ip f (fold y v) z := by
  let F : ℤ × ℤ → ℂ := fun q => f q.1 z * ((starRingEnd ℂ) (y (q.1 - q.2) z) * (starRingEnd ℂ) (v q.2 z))
  have hF : Summable F := by
    obtain ⟨C, hC, h1⟩ := hf.bound 0
    have h2 := (summable_pair (mk (fun k => y k z) (hy.summable hz)) (mk (fun k => v k z) (hv.summable hz))).mul_left C
    refine Summable.of_norm_bounded h2 fun q => ?_
    simp only [F, mk_apply]
    have h3 := h1 q.1 z hz
    rw [pow_zero, one_div_one, mul_one] at h3
    rw [norm_mul, norm_mul, RCLike.norm_conj, RCLike.norm_conj]
    gcongr
  have h1 : ip (fold f (opp y)) v z = ∑' k, ∑' m, F (m, k) := by
    unfold ip
    refine tsum_congr fun k => ?_
    rw [← (Equiv.subLeft k).tsum_eq fun m => F (m, k)]
    unfold fold
    rw [← tsum_mul_right]
    refine tsum_congr fun j => ?_
    simp only [F, opp, Equiv.subLeft_apply, show k - j - k = -j by ring]
    ring
  have h2 : ip f (fold y v) z = ∑' m, ∑' k, F (m, k) := by
    unfold ip
    refine tsum_congr fun m => ?_
    unfold fold
    rw [Complex.conj_tsum, ← tsum_mul_left]
    refine tsum_congr fun k => ?_
    simp only [F, map_mul]
  rw [h1, h2]
  exact Summable.tsum_comm (f := fun m k => F (m, k)) hF

theorem fold_opp (f h : ℤ → ℝ → ℂ) (k : ℤ) (z : ℝ) : fold f (opp h) k z = (starRingEnd ℂ) (fold h (opp f) (-k) z) := by
  unfold fold opp
  rw [Complex.conj_tsum, ← (Equiv.subRight k).tsum_eq fun j => (starRingEnd ℂ) (h (-k - j) z * (starRingEnd ℂ) (f (-j) z))]
  refine tsum_congr fun j => ?_
  simp only [Equiv.subRight_apply, map_mul, Complex.conj_conj]
  rw [show -k - (j - k) = -j by ring, show -(j - k) = k - j by ring, mul_comm]

theorem ip_fold_swap (f c : ℤ → ℝ → ℂ) (z : ℝ) :
    ip (fold c (opp f)) (fold c (opp c)) z = (starRingEnd ℂ) (ip (fold f (opp c)) (fold c (opp c)) z) := by
  unfold ip
  rw [Complex.conj_tsum, ← (Equiv.neg ℤ).tsum_eq fun k => (starRingEnd ℂ) (fold f (opp c) k z * (starRingEnd ℂ) (fold c (opp c) k z))]
  refine tsum_congr fun k => ?_
  simp only [Equiv.neg_apply, map_mul]
  rw [fold_opp c f k, fold_opp c c k]

/-! ## conserved quantities -/

/-- power spectrum -/
noncomputable def power2 (c : ℤ → ℝ → ℂ) : ℤ → ℝ → ℂ := fold c (opp c)

/-- the cubic term -/
noncomputable def cube (c : ℤ → ℝ → ℂ) : ℤ → ℝ → ℂ := fold c (power2 c)

/-- right-hand side -/
noncomputable def rhs (b : ℤ → ℝ) (g γ : ℝ) (c : ℤ → ℝ → ℂ) (k : ℤ) (z : ℝ) : ℂ := I * b k * c k z + (g / 2 : ℝ) * c k z + I * γ * cube c k z

noncomputable def mass (c : ℤ → ℝ → ℂ) (z : ℝ) : ℝ := ∑' k, ‖c k z‖ ^ 2
noncomputable def linear (b : ℤ → ℝ) (c : ℤ → ℝ → ℂ) (z : ℝ) : ℝ := ∑' k, b k * ‖c k z‖ ^ 2
noncomputable def quartic (c : ℤ → ℝ → ℂ) (z : ℝ) : ℝ := ∑' k, ‖power2 c k z‖ ^ 2

theorem Rapid.power2 (hc : Rapid J c) : Rapid J (power2 c) := hc.fold hc.opp

theorem Rapid.cube (hc : Rapid J c) : Rapid J (cube c) := hc.fold hc.power2

theorem CSol.eq' (hc : CSol b (fun _ => 1) g γ a d c) (k : ℤ) {z : ℝ} (hz : z ∈ Ioo a d) : HasDerivAt (c k) (rhs b g γ c k z) z := by
  refine (hc.eq k z hz).congr_deriv ?_
  unfold rhs cubicSum
  simp only [one_mul]
  rfl

theorem ip_linear (b : ℤ → ℝ) (c : ℤ → ℝ → ℂ) (z : ℝ) : ip (fun k z => b k * c k z) c z = (linear b c z : ℂ) := by
  unfold ip linear
  rw [Complex.ofReal_tsum]
  refine tsum_congr fun k => ?_
  rw [mul_assoc, Complex.mul_conj, Complex.normSq_eq_norm_sq]
  push_cast
  ring

theorem ip_rhs (hb : Tempered fun k => (b k : ℂ)) (hc : Rapid J c) {y : ℤ → ℝ → ℂ} (hy : Rapid J y) {z : ℝ} (hz : z ∈ J) :
    ip (rhs b g γ c) y z = I * ip (fun k z => b k * c k z) y z + (g / 2 : ℝ) * ip c y z + I * γ * ip (cube c) y z := by
  have h1 := (ip_summable (hc.mult hb) hy hz).hasSum.mul_left I
  have h2 := (ip_summable hc hy hz).hasSum.mul_left ((g / 2 : ℝ) : ℂ)
  have h3 := (ip_summable hc.cube hy hz).hasSum.mul_left (I * γ)
  refine HasSum.tsum_eq (((h1.add h2).add h3).congr_fun fun k => ?_)
  unfold rhs
  ring

theorem rhs_rapid (hb : Tempered fun k => (b k : ℂ)) (hc : Rapid J c) : Rapid J (rhs b g γ c) := by
  have hb' : Tempered fun k => I * (b k : ℂ) := by
    obtain ⟨C, q, h⟩ := hb
    exact ⟨C, q, fun k => by rw [norm_mul, Complex.norm_I, one_mul]; exact h k⟩
  exact ((hc.mult hb').add (hc.mult (const_tempered _))).add (hc.cube.mult (const_tempered _))

theorem ip_quartic (hc : Rapid J c) {z : ℝ} (hz : z ∈ J) : ip c (cube c) z = (quartic c z : ℂ) := by
  rw [show cube c = fold c (power2 c) from rfl, ← ip_fold hc hc hc.power2 hz]
  exact ip_self _ z

theorem re_hasDerivAt {f : ℝ → ℂ} {f' : ℂ} {z : ℝ} (h : HasDerivAt f f' z) : HasDerivAt (fun z => (f z).re) f'.re z :=
  Complex.reCLM.hasFDerivAt.comp_hasDerivAt z h

theorem add_conj_re (w : ℂ) : (w + (starRingEnd ℂ) w).re = 2 * w.re := by
  rw [Complex.add_re, Complex.conj_re]
  ring

/-- the energy grows with the gain only -/
theorem CSol.mass_hasDerivAt (hb : Tempered fun k => (b k : ℂ)) (hc : CSol b (fun _ => 1) g γ a d c) {z : ℝ} (hz : z ∈ Ioo a d) :
    HasDerivAt (mass c) (g * mass c z) z := by
  have h := re_hasDerivAt (ip_hasDerivAt isOpen_Ioo isPreconnected_Ioo hc.rapid (rhs_rapid (g := g) (γ := γ) hb hc.rapid) hc.rapid
    (rhs_rapid (g := g) (γ := γ) hb hc.rapid) (fun k z hz => hc.eq' k hz) (fun k z hz => hc.eq' k hz) hz)
  have e : (fun z => (ip c c z).re) = mass c := by
    funext z
    rw [ip_self, Complex.ofReal_re]
    rfl
  rw [e] at h
  refine h.congr_deriv ?_
  rw [← ip_conj (rhs b g γ c) c, add_conj_re, ip_rhs hb hc.rapid hc.rapid hz, ip_linear, ip_self, ← ip_conj c (cube c), ip_quartic hc.rapid hz]
  simp only [Complex.add_re, Complex.mul_re, Complex.mul_im, Complex.I_re, Complex.I_im, Complex.ofReal_re, Complex.ofReal_im, Complex.conj_ofReal]
  unfold mass
  ring

/-- rate of the dispersive part -/
theorem CSol.linear_hasDerivAt (hb : Tempered fun k => (b k : ℂ)) (hc : CSol b (fun _ => 1) g γ a d c) {z : ℝ} (hz : z ∈ Ioo a d) :
    HasDerivAt (linear b c) (g * linear b c z + 2 * γ * (ip (fun k z => b k * c k z) (cube c) z).im) z := by
  have hr := rhs_rapid (g := g) (γ := γ) hb hc.rapid
  have h := re_hasDerivAt (ip_hasDerivAt isOpen_Ioo isPreconnected_Ioo (hc.rapid.mult hb) (hr.mult hb) hc.rapid hr
    (fun k z hz => (hc.eq' k hz).const_mul (b k : ℂ)) (fun k z hz => hc.eq' k hz) hz)
  have e : (fun z => (ip (fun k z => b k * c k z) c z).re) = linear b c := by
    funext z
    rw [ip_linear, Complex.ofReal_re]
  rw [e] at h
  refine h.congr_deriv ?_
  have e2 : ip (fun k z => b k * rhs b g γ c k z) c z = ip (rhs b g γ c) (fun k z => b k * c k z) z := by
    unfold ip
    refine tsum_congr fun k => ?_
    rw [map_mul, Complex.conj_ofReal]
    ring
  have e3 : ip c (fun k z => b k * c k z) z = (linear b c z : ℂ) := by
    rw [← ip_conj, ip_linear, Complex.conj_ofReal]
  rw [e2, ← ip_conj (rhs b g γ c) (fun k z => b k * c k z), add_conj_re, ip_rhs hb hc.rapid (hc.rapid.mult hb) hz, ip_self, e3, ← ip_conj _ (cube c)]
  simp only [Complex.add_re, Complex.mul_re, Complex.mul_im, Complex.I_re, Complex.I_im, Complex.ofReal_re, Complex.ofReal_im, Complex.conj_re, Complex.conj_im]
  ring

/-- rate of the nonlinear part -/
theorem CSol.quartic_hasDerivAt (hb : Tempered fun k => (b k : ℂ)) (hc : CSol b (fun _ => 1) g γ a d c) {z : ℝ} (hz : z ∈ Ioo a d) :
    HasDerivAt (quartic c) (2 * g * quartic c z - 4 * (ip (fun k z => b k * c k z) (cube c) z).im) z := by
  have hr := rhs_rapid (g := g) (γ := γ) hb hc.rapid
  have hop : ∀ k, ∀ z ∈ Ioo a d, HasDerivAt (opp c k) (opp (rhs b g γ c) k z) z := fun k z hz =>
    Complex.conjCLE.toContinuousLinearMap.hasFDerivAt.comp_hasDerivAt z (hc.eq' (-k) hz)
  have hp : ∀ k, ∀ z ∈ Ioo a d, HasDerivAt (power2 c k) (fold (rhs b g γ c) (opp c) k z + fold c (opp (rhs b g γ c)) k z) z := fun k z hz =>
    fold_hasDerivAt isOpen_Ioo isPreconnected_Ioo hc.rapid hr hc.rapid.opp hr.opp (fun k z hz => hc.eq' k hz) hop k hz
  have hpr : Rapid (Ioo a d) fun k z => fold (rhs b g γ c) (opp c) k z + fold c (opp (rhs b g γ c)) k z := (hr.fold hc.rapid.opp).add (hc.rapid.fold hr.opp)
  have h := re_hasDerivAt (ip_hasDerivAt isOpen_Ioo isPreconnected_Ioo hc.rapid.power2 hpr hc.rapid.power2 hpr hp hp hz)
  have e : (fun z => (ip (power2 c) (power2 c) z).re) = quartic c := by
    funext z
    rw [ip_self, Complex.ofReal_re]
    rfl
  rw [e] at h
  refine h.congr_deriv ?_
  have e2 : ip (fun k z => fold (rhs b g γ c) (opp c) k z + fold c (opp (rhs b g γ c)) k z) (power2 c) z =
      ip (rhs b g γ c) (cube c) z + (starRingEnd ℂ) (ip (rhs b g γ c) (cube c) z) := by
    have h1 : ip (fun k z => fold (rhs b g γ c) (opp c) k z + fold c (opp (rhs b g γ c)) k z) (power2 c) z =
        ip (fold (rhs b g γ c) (opp c)) (power2 c) z + ip (fold c (opp (rhs b g γ c))) (power2 c) z := by
      unfold ip
      rw [← (ip_summable (hr.fold hc.rapid.opp) hc.rapid.power2 hz).tsum_add (ip_summable (hc.rapid.fold hr.opp) hc.rapid.power2 hz)]
      refine tsum_congr fun k => ?_
      ring
    rw [h1, show ip (fold c (opp (rhs b g γ c))) (power2 c) z = _ from ip_fold_swap (rhs b g γ c) c z]
    rw [show ip (fold (rhs b g γ c) (opp c)) (fold c (opp c)) z = ip (rhs b g γ c) (cube c) z from ip_fold hr hc.rapid hc.rapid.power2 hz,
      show ip (fold (rhs b g γ c) (opp c)) (power2 c) z = ip (rhs b g γ c) (cube c) z from ip_fold hr hc.rapid hc.rapid.power2 hz]
  rw [← ip_conj _ (power2 c), add_conj_re, e2, add_conj_re, ip_rhs hb hc.rapid hc.rapid.cube hz, ip_quartic hc.rapid hz, ip_self]
  simp only [Complex.add_re, Complex.mul_re, Complex.mul_im, Complex.I_re, Complex.I_im, Complex.ofReal_re, Complex.ofReal_im]
  ring

/-- Hamiltonian -/
noncomputable def ham (b : ℤ → ℝ) (γ : ℝ) (c : ℤ → ℝ → ℂ) (z : ℝ) : ℝ := linear b c z + γ / 2 * quartic c z

theorem CSol.ham_hasDerivAt (hb : Tempered fun k => (b k : ℂ)) (hc : CSol b (fun _ => 1) g γ a d c) {z : ℝ} (hz : z ∈ Ioo a d) :
    HasDerivAt (ham b γ c) (g * ham b γ c z + g * γ / 2 * quartic c z) z := by
  refine ((hc.linear_hasDerivAt hb hz).add ((hc.quartic_hasDerivAt hb hz).const_mul (γ / 2))).congr_deriv ?_
  unfold ham
  ring

/-! ## bounds -/

theorem exists_weight {η : ℝ} (hη : 0 < η) : ∃ D : ℝ, 0 < D ∧ ∀ S : Finset ℤ, ∑ k ∈ S, 1 / (D + η * br k ^ 2) ≤ 1 := by
  have hpos : ∀ (n : ℕ) (k : ℤ), 0 < (n : ℝ) + η * br k ^ 2 := fun n k => by
    have := br_pos k
    positivity
  have hbd : ∀ (n : ℕ) (k : ℤ), ‖1 / ((n : ℝ) + η * br k ^ 2)‖ ≤ 1 / η * (1 / br k ^ 2) := fun n k => by
    have := br_pos k
    rw [Real.norm_of_nonneg (by have := hpos n k; positivity), one_div_mul_one_div_rev, mul_comm]
    refine one_div_le_one_div_of_le (by positivity) ?_
    have : (0 : ℝ) ≤ n := Nat.cast_nonneg n
    nlinarith
  have hlim := tendsto_tsum_of_dominated_convergence (𝓕 := atTop) (f := fun (n : ℕ) (k : ℤ) => 1 / ((n : ℝ) + η * br k ^ 2)) (g := fun _ => (0 : ℝ))
    (bound := fun k => 1 / η * (1 / br k ^ 2)) (summable_br.mul_left _)
    (fun k => (tendsto_const_nhds (x := (1 : ℝ))).div_atTop (tendsto_atTop_add_const_right _ _ tendsto_natCast_atTop_atTop))
    (Eventually.of_forall fun n k => hbd n k)
  rw [tsum_zero] at hlim
  obtain ⟨n, h1, h2⟩ := ((hlim.eventually (gt_mem_nhds one_pos)).and (eventually_gt_atTop 0)).exists
  refine ⟨n, by exact_mod_cast h2, fun S => le_trans ?_ h1.le⟩
  exact ((summable_br.mul_left (1 / η)).of_norm_bounded fun k => hbd n k).sum_le_tsum S fun k _ => by have := hpos n k; positivity

/-- interpolation between energy and spectral width -/
theorem exists_interp {η : ℝ} (hη : 0 < η) : ∃ D : ℝ, 0 < D ∧ ∀ x : ℤ → ℂ, (Summable fun k => ‖x k‖ ^ 2) → (Summable fun k => br k ^ 2 * ‖x k‖ ^ 2) →
    (∑' k, ‖x k‖) ^ 2 ≤ D * (∑' k, ‖x k‖ ^ 2) + η * ∑' k, br k ^ 2 * ‖x k‖ ^ 2 := by
  obtain ⟨D, hD, h⟩ := exists_weight hη
  refine ⟨D, hD, fun x h1 h2 => ?_⟩
  have hw : ∀ k, 0 < D + η * br k ^ 2 := fun k => by have := br_pos k; positivity
  have hs : Summable fun k => (D + η * br k ^ 2) * ‖x k‖ ^ 2 := ((h1.mul_left D).add (h2.mul_left η)).congr fun k => by ring
  have hW : D * (∑' k, ‖x k‖ ^ 2) + η * ∑' k, br k ^ 2 * ‖x k‖ ^ 2 = ∑' k, (D + η * br k ^ 2) * ‖x k‖ ^ 2 := by
    rw [← tsum_mul_left, ← tsum_mul_left, ← (h1.mul_left D).tsum_add (h2.mul_left η)]
    exact tsum_congr fun k => by ring
  rw [hW]
  have hW0 : 0 ≤ ∑' k, (D + η * br k ^ 2) * ‖x k‖ ^ 2 := tsum_nonneg fun k => by have := hw k; positivity
  have key : ∀ S : Finset ℤ, ∑ k ∈ S, ‖x k‖ ≤ √(∑' k, (D + η * br k ^ 2) * ‖x k‖ ^ 2) := by
    intro S
    refine Real.le_sqrt_of_sq_le ?_
    have := Finset.sum_sq_le_sum_mul_sum_of_sq_le_mul S (r := fun k => ‖x k‖) (f := fun k => 1 / (D + η * br k ^ 2)) (g := fun k => (D + η * br k ^ 2) * ‖x k‖ ^ 2)
      (fun k _ => by have := hw k; positivity) (fun k _ => by have := hw k; positivity) (fun k _ => le_of_eq (by have := (hw k).ne'; field_simp))
    refine this.trans ?_
    have h3 : ∑ k ∈ S, (D + η * br k ^ 2) * ‖x k‖ ^ 2 ≤ ∑' k, (D + η * br k ^ 2) * ‖x k‖ ^ 2 := hs.sum_le_tsum S fun k _ => by have := hw k; positivity
    have h4 : 0 ≤ ∑ k ∈ S, (D + η * br k ^ 2) * ‖x k‖ ^ 2 := Finset.sum_nonneg fun k _ => by have := hw k; positivity
    calc _ ≤ 1 * ∑ k ∈ S, (D + η * br k ^ 2) * ‖x k‖ ^ 2 := mul_le_mul_of_nonneg_right (h S) h4
      _ ≤ _ := by rw [one_mul]; exact h3
  have h5 : ∑' k, ‖x k‖ ≤ √(∑' k, (D + η * br k ^ 2) * ‖x k‖ ^ 2) := Real.tsum_le_of_sum_le (fun _ => norm_nonneg _) key
  calc (∑' k, ‖x k‖) ^ 2 ≤ √(∑' k, (D + η * br k ^ 2) * ‖x k‖ ^ 2) ^ 2 := by
        have : 0 ≤ ∑' k, ‖x k‖ := tsum_nonneg fun _ => norm_nonneg _
        gcongr
    _ = _ := Real.sq_sqrt hW0

/-- spectral width times energy -/
noncomputable def width (c : ℤ → ℝ → ℂ) (z : ℝ) : ℝ := ∑' k, br k ^ 2 * ‖c k z‖ ^ 2

theorem Rapid.summable_width (hc : Rapid J c) {z : ℝ} (hz : z ∈ J) : Summable fun k => br k ^ 2 * ‖c k z‖ ^ 2 := by
  obtain ⟨C, hC, h⟩ := hc.bound 2
  refine (summable_br.mul_left (C ^ 2)).of_nonneg_of_le (fun k => by have := br_pos k; positivity) fun k => ?_
  have hb := br_pos k
  have h1 : ‖c k z‖ ^ 2 ≤ (C * (1 / br k ^ 2)) ^ 2 := by gcongr; exact h k z hz
  calc br k ^ 2 * ‖c k z‖ ^ 2 ≤ br k ^ 2 * (C * (1 / br k ^ 2)) ^ 2 := by gcongr
    _ = C ^ 2 * (1 / br k ^ 2) := by field_simp

theorem Rapid.summable_mass (hc : Rapid J c) {z : ℝ} (hz : z ∈ J) : Summable fun k => ‖c k z‖ ^ 2 := by
  refine (hc.summable_width hz).of_nonneg_of_le (fun k => by positivity) fun k => ?_
  have hb := one_le_br k
  exact le_mul_of_one_le_left (by positivity) (one_le_pow₀ hb)

theorem Rapid.summable_linear (hb : Tempered fun k => (b k : ℂ)) (hc : Rapid J c) {z : ℝ} (hz : z ∈ J) : Summable fun k => b k * ‖c k z‖ ^ 2 := by
  have h := (ip_summable (hc.mult hb) hc hz).norm
  refine Summable.of_norm (h.congr fun k => ?_)
  rw [norm_mul, norm_mul, RCLike.norm_conj, norm_mul, norm_pow, Real.norm_of_nonneg (norm_nonneg (c k z)), Complex.norm_real]
  ring

theorem mass_nonneg (c : ℤ → ℝ → ℂ) (z : ℝ) : 0 ≤ mass c z := tsum_nonneg fun _ => by positivity

theorem quartic_nonneg (c : ℤ → ℝ → ℂ) (z : ℝ) : 0 ≤ quartic c z := tsum_nonneg fun _ => by positivity

theorem width_nonneg (c : ℤ → ℝ → ℂ) (z : ℝ) : 0 ≤ width c z := tsum_nonneg fun k => by have := br_pos k; positivity

theorem summable_flip {f : ℤ → ℝ} (hf : Summable f) (k : ℤ) : Summable fun j => f (k - j) := (Equiv.subLeft k).summable_iff.2 hf

theorem tsum_flip (f : ℤ → ℝ) (k : ℤ) : ∑' j, f (k - j) = ∑' j, f j := (Equiv.subLeft k).tsum_eq f

theorem norm_tsum_mul_le {x y : ℤ → ℂ} {m : ℝ} (hx : HasSum (fun j => ‖x j‖ ^ 2) m) (hy : HasSum (fun j => ‖y j‖ ^ 2) m) : ‖∑' j, x j * y j‖ ≤ m := by
  refine tsum_of_norm_bounded (a := m) (g := fun j => (1 / 2) * (‖x j‖ ^ 2 + ‖y j‖ ^ 2)) ?_ fun j => ?_
  · have := (hx.add hy).mul_left (1 / 2)
    rwa [show 1 / 2 * (m + m) = m by ring] at this
  · rw [norm_mul]
    nlinarith [sq_nonneg (‖x j‖ - ‖y j‖)]

theorem rapid_power2_le (hc : Rapid J c) {z : ℝ} (hz : z ∈ J) (k : ℤ) : ‖power2 c k z‖ ≤ mass c z := by
  refine norm_tsum_mul_le (x := fun j => c (k - j) z) (y := fun j => opp c j z) ?_ ?_
  · have h := (summable_flip (hc.summable_mass hz) k).hasSum
    rwa [tsum_flip (fun j => ‖c j z‖ ^ 2) k] at h
  · have h := (summable_flip (hc.summable_mass hz) 0).hasSum
    rw [tsum_flip (fun j => ‖c j z‖ ^ 2) 0] at h
    refine h.congr_fun fun j => ?_
    rw [opp, RCLike.norm_conj, zero_sub]

theorem rapid_tsum_power2_le (hc : Rapid J c) {z : ℝ} (hz : z ∈ J) : ∑' k, ‖power2 c k z‖ ≤ (∑' k, ‖c k z‖) ^ 2 := by
  have h := summable_pair (mk (fun k => c k z) (hc.summable hz)) (mk (fun k => opp c k z) (hc.opp.summable hz))
  have h1 := tsum_pair (mk (fun k => c k z) (hc.summable hz)) (mk (fun k => opp c k z) (hc.opp.summable hz))
  rw [h.tsum_prod, norm_eq, norm_eq] at h1
  have h2 : ∑' k, ‖opp c k z‖ = ∑' k, ‖c k z‖ := by
    rw [← (Equiv.neg ℤ).tsum_eq fun k => ‖c k z‖]
    exact tsum_congr fun k => by rw [opp, RCLike.norm_conj, Equiv.neg_apply]
  simp only [mk_apply] at h1 h
  rw [h2, ← sq] at h1
  rw [← h1]
  have h3 := h.prod
  refine (hc.power2.summable hz).tsum_le_tsum (fun k => ?_) h3
  refine tsum_of_norm_bounded (h.prod_factor k).hasSum fun j => ?_
  rw [norm_mul]

theorem rapid_quartic_le (hc : Rapid J c) {z : ℝ} (hz : z ∈ J) : quartic c z ≤ mass c z * (∑' k, ‖c k z‖) ^ 2 := by
  have hs := hc.power2.summable hz
  calc quartic c z ≤ ∑' k, mass c z * ‖power2 c k z‖ := by
        refine (hc.power2.summable_mass hz).tsum_le_tsum (fun k => ?_) (hs.mul_left _)
        rw [sq]
        exact mul_le_mul_of_nonneg_right (rapid_power2_le hc hz k) (norm_nonneg _)
    _ = mass c z * ∑' k, ‖power2 c k z‖ := tsum_mul_left
    _ ≤ _ := mul_le_mul_of_nonneg_left (rapid_tsum_power2_le hc hz) (mass_nonneg c z)

theorem CSol.gronwall {F : ℝ → ℝ} {F' : ℝ → ℝ} (ha : a < 0) (hF : ∀ z ∈ Ioo a d, HasDerivAt F (F' z) z) {P R L : ℝ} (hP : 0 ≤ P) (hR : 0 ≤ R)
    (hb : ∀ z, 0 ≤ z → z < d → z ≤ L → |F' z| ≤ P * |F z| + R) {z : ℝ} (h0 : 0 ≤ z) (hz : z < d) (hL : z ≤ L) : |F z| ≤ gronwallBound |F 0| P R L := by
  have h1 := norm_le_gronwallBound_of_norm_deriv_right_le (f := F) (f' := F') (δ := |F 0|) (K := P) (ε := R) (a := 0) (b := z)
    (fun x hx => (hF x ⟨by linarith [hx.1], by linarith [hx.2]⟩).continuousAt.continuousWithinAt)
    (fun x hx => (hF x ⟨by linarith [hx.1], by linarith [hx.2]⟩).hasDerivWithinAt) le_rfl
    (fun x hx => hb x hx.1 (by linarith [hx.2]) (by linarith [hx.2])) z ⟨h0, le_rfl⟩
  rw [sub_zero] at h1
  exact h1.trans (gronwallBound_mono (abs_nonneg _) hR hP hL)

end PyNLO.Wiener
