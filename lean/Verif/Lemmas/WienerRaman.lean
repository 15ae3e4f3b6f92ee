import Verif.Lemmas.WienerTame
import Verif.Lemmas.WienerEnergy
import Mathlib.MeasureTheory.Integral.IntervalIntegral.IntegrationByParts

/-! # Existence for all distances with delayed response -/

namespace PyNLO.Wiener

open Complex Set Filter Topology MeasureTheory Polynomial

variable {b : ℤ → ℝ} {g γ a d : ℝ} {c : ℤ → ℝ → ℂ} {J : Set ℝ} {r : ℤ → ℂ}

/-- response to the power -/
noncomputable def pot (r : ℤ → ℂ) (c : ℤ → ℝ → ℂ) (k : ℤ) (z : ℝ) : ℂ := r k * power2 c k z

/-- nonlinear term with delayed response -/
noncomputable def cubeR (r : ℤ → ℂ) (c : ℤ → ℝ → ℂ) : ℤ → ℝ → ℂ := fold c (pot r c)

/-- right-hand side with delayed response -/
noncomputable def rhsR (b : ℤ → ℝ) (r : ℤ → ℂ) (g γ : ℝ) (c : ℤ → ℝ → ℂ) (k : ℤ) (z : ℝ) : ℂ :=
  I * b k * c k z + (g / 2 : ℝ) * c k z + I * γ * cubeR r c k z

theorem rapid_pot (hr : Tempered r) (hc : Rapid J c) : Rapid J (pot r c) := hc.power2.mult hr

theorem rapid_cubeR (hr : Tempered r) (hc : Rapid J c) : Rapid J (cubeR r c) := hc.fold (rapid_pot hr hc)

theorem CSol.eqR (hc : CSol b r g γ a d c) (k : ℤ) {z : ℝ} (hz : z ∈ Ioo a d) : HasDerivAt (c k) (rhsR b r g γ c k z) z := hc.eq k z hz

theorem rhsR_rapid (hb : Tempered fun k => (b k : ℂ)) (hr : Tempered r) (hc : Rapid J c) : Rapid J (rhsR b r g γ c) := by
  have hb' : Tempered fun k => I * (b k : ℂ) := by
    obtain ⟨C, q, h⟩ := hb
    exact ⟨C, q, fun k => by rw [norm_mul, Complex.norm_I, one_mul]; exact h k⟩
  exact ((hc.mult hb').add (hc.mult (const_tempered _))).add ((rapid_cubeR hr hc).mult (const_tempered _))

theorem ip_rhsR (hb : Tempered fun k => (b k : ℂ)) (hr : Tempered r) (hc : Rapid J c) {y : ℤ → ℝ → ℂ} (hy : Rapid J y) {z : ℝ} (hz : z ∈ J) :
    ip (rhsR b r g γ c) y z = I * ip (fun k z => b k * c k z) y z + (g / 2 : ℝ) * ip c y z + I * γ * ip (cubeR r c) y z := by
  have h1 := (ip_summable (hc.mult hb) hy hz).hasSum.mul_left I
  have h2 := (ip_summable hc hy hz).hasSum.mul_left ((g / 2 : ℝ) : ℂ)
  have h3 := (ip_summable (rapid_cubeR hr hc) hy hz).hasSum.mul_left (I * γ)
  refine HasSum.tsum_eq (((h1.add h2).add h3).congr_fun fun k => ?_)
  unfold rhsR
  ring

theorem opp_power2 (c : ℤ → ℝ → ℂ) : opp (power2 c) = power2 c := by
  funext k z
  exact (fold_opp c c k z).symm

theorem opp_pot (hs : ∀ k, r (-k) = (starRingEnd ℂ) (r k)) (c : ℤ → ℝ → ℂ) : opp (pot r c) = pot r c := by
  funext k z
  have h := congrFun (congrFun (opp_power2 c) k) z
  unfold opp at h
  unfold opp pot
  rw [map_mul, h, hs, Complex.conj_conj]

/-- real potentials are symmetric -/
theorem ip_symm {f q v : ℤ → ℝ → ℂ} (hq : opp q = q) (hf : Rapid J f) (hqr : Rapid J q) (hv : Rapid J v) {z : ℝ} (hz : z ∈ J) :
    ip (fold f q) v z = ip f (fold v q) z := by
  have := ip_fold hf hqr hv hz
  rw [hq] at this
  rw [this, fold_comm]

theorem ip_fold_real {q : ℤ → ℝ → ℂ} (hq : opp q = q) (hqr : Rapid J q) (hc : Rapid J c) {z : ℝ} (hz : z ∈ J) : (ip (fold c q) c z).im = 0 := by
  have h1 := ip_symm hq hc hqr hc hz
  rw [← ip_conj (fold c q) c] at h1
  have := congrArg Complex.im h1
  rw [Complex.conj_im] at this
  linarith

theorem ip_fold_fold_real {p q : ℤ → ℝ → ℂ} (hp : opp p = p) (hq : opp q = q) (hpr : Rapid J p) (hqr : Rapid J q) (hc : Rapid J c) {z : ℝ} (hz : z ∈ J) :
    (ip (fold c q) (fold c p) z).im = 0 := by
  have h1 := ip_symm hq hc hqr (hc.fold hpr) hz
  have h2 := ip_symm hp hc hpr (hc.fold hqr) hz
  have h3 : ip c (fold (fold c p) q) z = ip c (fold (fold c q) p) z := by
    unfold ip
    refine tsum_congr fun k => ?_
    rw [fold_assoc hc hpr hqr hz, fold_assoc hc hqr hpr hz, fold_comm p q]
  rw [h3, ← h2, ← ip_conj (fold c q) (fold c p)] at h1
  have := congrArg Complex.im h1
  rw [Complex.conj_im] at this
  linarith

theorem CSol.mass_hasDerivAtR (hb : Tempered fun k => (b k : ℂ)) (hr : Tempered r) (hs : ∀ k, r (-k) = (starRingEnd ℂ) (r k))
    (hc : CSol b r g γ a d c) {z : ℝ} (hz : z ∈ Ioo a d) : HasDerivAt (mass c) (g * mass c z) z := by
  have h := re_hasDerivAt (ip_hasDerivAt isOpen_Ioo isPreconnected_Ioo hc.rapid (rhsR_rapid (g := g) (γ := γ) hb hr hc.rapid) hc.rapid
    (rhsR_rapid (g := g) (γ := γ) hb hr hc.rapid) (fun k z hz => hc.eqR k hz) (fun k z hz => hc.eqR k hz) hz)
  have e : (fun z => (ip c c z).re) = mass c := by
    funext z
    rw [ip_self, Complex.ofReal_re]
    rfl
  rw [e] at h
  refine h.congr_deriv ?_
  have hreal := ip_fold_real (opp_pot hs c) (rapid_pot hr hc.rapid) hc.rapid hz
  have hreal' : (ip (cubeR r c) c z).im = 0 := hreal
  rw [← ip_conj (rhsR b r g γ c) c, add_conj_re, ip_rhsR hb hr hc.rapid hc.rapid hz, ip_linear, ip_self]
  simp only [Complex.add_re, Complex.mul_re, Complex.mul_im, Complex.I_re, Complex.I_im, Complex.ofReal_re, Complex.ofReal_im, hreal']
  unfold mass
  ring

theorem CSol.linear_hasDerivAtR (hb : Tempered fun k => (b k : ℂ)) (hr : Tempered r) (hc : CSol b r g γ a d c) {z : ℝ} (hz : z ∈ Ioo a d) :
    HasDerivAt (linear b c) (g * linear b c z + 2 * γ * (ip (fun k z => b k * c k z) (cubeR r c) z).im) z := by
  have hrr := rhsR_rapid (g := g) (γ := γ) hb hr hc.rapid
  have h := re_hasDerivAt (ip_hasDerivAt isOpen_Ioo isPreconnected_Ioo (hc.rapid.mult hb) (hrr.mult hb) hc.rapid hrr
    (fun k z hz => (hc.eqR k hz).const_mul (b k : ℂ)) (fun k z hz => hc.eqR k hz) hz)
  have e : (fun z => (ip (fun k z => b k * c k z) c z).re) = linear b c := by
    funext z
    rw [ip_linear, Complex.ofReal_re]
  rw [e] at h
  refine h.congr_deriv ?_
  have e2 : ip (fun k z => b k * rhsR b r g γ c k z) c z = ip (rhsR b r g γ c) (fun k z => b k * c k z) z := by
    unfold ip
    refine tsum_congr fun k => ?_
    rw [map_mul, Complex.conj_ofReal]
    ring
  have e3 : ip c (fun k z => b k * c k z) z = (linear b c z : ℂ) := by
    rw [← ip_conj, ip_linear, Complex.conj_ofReal]
  rw [e2, ← ip_conj (rhsR b r g γ c) (fun k z => b k * c k z), add_conj_re, ip_rhsR hb hr hc.rapid (hc.rapid.mult hb) hz, ip_self, e3, ← ip_conj _ (cubeR r c)]
  simp only [Complex.add_re, Complex.mul_re, Complex.mul_im, Complex.I_re, Complex.I_im, Complex.ofReal_re, Complex.ofReal_im, Complex.conj_re, Complex.conj_im]
  ring

theorem CSol.quartic_hasDerivAtR (hb : Tempered fun k => (b k : ℂ)) (hrt : Tempered r) (hs : ∀ k, r (-k) = (starRingEnd ℂ) (r k))
    (hc : CSol b r g γ a d c) {z : ℝ} (hz : z ∈ Ioo a d) :
    HasDerivAt (quartic c) (2 * g * quartic c z - 4 * (ip (fun k z => b k * c k z) (cube c) z).im) z := by
  have hr := rhsR_rapid (g := g) (γ := γ) hb hrt hc.rapid
  have hop : ∀ k, ∀ z ∈ Ioo a d, HasDerivAt (opp c k) (opp (rhsR b r g γ c) k z) z := fun k z hz =>
    Complex.conjCLE.toContinuousLinearMap.hasFDerivAt.comp_hasDerivAt z (hc.eqR (-k) hz)
  have hp : ∀ k, ∀ z ∈ Ioo a d, HasDerivAt (power2 c k) (fold (rhsR b r g γ c) (opp c) k z + fold c (opp (rhsR b r g γ c)) k z) z := fun k z hz =>
    fold_hasDerivAt isOpen_Ioo isPreconnected_Ioo hc.rapid hr hc.rapid.opp hr.opp (fun k z hz => hc.eqR k hz) hop k hz
  have hpr : Rapid (Ioo a d) fun k z => fold (rhsR b r g γ c) (opp c) k z + fold c (opp (rhsR b r g γ c)) k z :=
    (hr.fold hc.rapid.opp).add (hc.rapid.fold hr.opp)
  have h := re_hasDerivAt (ip_hasDerivAt isOpen_Ioo isPreconnected_Ioo hc.rapid.power2 hpr hc.rapid.power2 hpr hp hp hz)
  have e : (fun z => (ip (power2 c) (power2 c) z).re) = quartic c := by
    funext z
    rw [ip_self, Complex.ofReal_re]
    rfl
  rw [e] at h
  refine h.congr_deriv ?_
  have e2 : ip (fun k z => fold (rhsR b r g γ c) (opp c) k z + fold c (opp (rhsR b r g γ c)) k z) (power2 c) z =
      ip (rhsR b r g γ c) (cube c) z + (starRingEnd ℂ) (ip (rhsR b r g γ c) (cube c) z) := by
    have h1 : ip (fun k z => fold (rhsR b r g γ c) (opp c) k z + fold c (opp (rhsR b r g γ c)) k z) (power2 c) z =
        ip (fold (rhsR b r g γ c) (opp c)) (power2 c) z + ip (fold c (opp (rhsR b r g γ c))) (power2 c) z := by
      unfold ip
      rw [← (ip_summable (hr.fold hc.rapid.opp) hc.rapid.power2 hz).tsum_add (ip_summable (hc.rapid.fold hr.opp) hc.rapid.power2 hz)]
      refine tsum_congr fun k => ?_
      ring
    rw [h1, show ip (fold c (opp (rhsR b r g γ c))) (power2 c) z = _ from ip_fold_swap (rhsR b r g γ c) c z]
    rw [show ip (fold (rhsR b r g γ c) (opp c)) (fold c (opp c)) z = ip (rhsR b r g γ c) (cube c) z from ip_fold hr hc.rapid hc.rapid.power2 hz,
      show ip (fold (rhsR b r g γ c) (opp c)) (power2 c) z = ip (rhsR b r g γ c) (cube c) z from ip_fold hr hc.rapid hc.rapid.power2 hz]
  have hreal : (ip (cubeR r c) (cube c) z).im = 0 :=
    ip_fold_fold_real (opp_power2 c) (opp_pot hs c) hc.rapid.power2 (rapid_pot hrt hc.rapid) hc.rapid hz
  rw [← ip_conj _ (power2 c), add_conj_re, e2, add_conj_re, ip_rhsR hb hrt hc.rapid hc.rapid.cube hz, ip_quartic hc.rapid hz]
  simp only [Complex.add_re, Complex.mul_re, Complex.mul_im, Complex.I_re, Complex.I_im, Complex.ofReal_re, Complex.ofReal_im, hreal]
  ring

/-- the delayed part of the response -/
theorem CSol.ham_hasDerivAtR (hb : Tempered fun k => (b k : ℂ)) {s : ℝ} {ρ : ℤ → ℂ} (hρ : Tempered ρ) (hr : r = fun k => (s : ℂ) + ρ k)
    (hrt : Tempered r) (hs : ∀ k, r (-k) = (starRingEnd ℂ) (r k)) (hc : CSol b r g γ a d c) {z : ℝ} (hz : z ∈ Ioo a d) :
    HasDerivAt (ham b (γ * s) c) (g * ham b (γ * s) c z + g * (γ * s) / 2 * quartic c z + 2 * γ * (ip (fun k z => b k * c k z) (cubeR ρ c) z).im) z := by
  refine ((hc.linear_hasDerivAtR hb hrt hz).add ((hc.quartic_hasDerivAtR hb hrt hs hz).const_mul (γ * s / 2))).congr_deriv ?_
  have e : ∀ k, cubeR r c k z = (s : ℂ) * cube c k z + cubeR ρ c k z := by
    intro k
    have h1 := (summable_fold hc.rapid hc.rapid.power2 k hz).hasSum.mul_left (s : ℂ)
    have h2 := (summable_fold hc.rapid (rapid_pot hρ hc.rapid) k hz).hasSum
    refine HasSum.tsum_eq ((h1.add h2).congr_fun fun j => ?_)
    unfold pot
    rw [hr]
    ring
  have e2 : ip (fun k z => b k * c k z) (cubeR r c) z = s * ip (fun k z => b k * c k z) (cube c) z + ip (fun k z => b k * c k z) (cubeR ρ c) z := by
    have h1 := (ip_summable (hc.rapid.mult hb) hc.rapid.cube hz).hasSum.mul_left (s : ℂ)
    have h2 := (ip_summable (hc.rapid.mult hb) (rapid_cubeR hρ hc.rapid) hz).hasSum
    refine HasSum.tsum_eq ((h1.add h2).congr_fun fun k => ?_)
    rw [e, map_add, map_mul, Complex.conj_ofReal]
    ring
  rw [e2]
  simp only [Complex.add_im, Complex.mul_im, Complex.ofReal_re, Complex.ofReal_im]
  unfold ham
  ring

end PyNLO.Wiener
