import Verif.Spec.Raman
import Verif.Props.Raman
import Mathlib.Analysis.SpecialFunctions.ImproperIntegrals
import Mathlib.Analysis.Real.Pi.Bounds
import Mathlib.Analysis.SpecialFunctions.Gaussian.GaussianIntegral

/-! # C131: the Raman kernels against the published ones -/

namespace PyNLO

open Complex Ssfm Pulse MeasureTheory Set Filter
open scoped Topology

theorem damped_sine {τ1 τ2 : ℝ} (h1 : 0 < τ1) (h2 : 0 < τ2) :
    IntegrableOn (fun t : ℝ => Real.exp (-t / τ2) * Real.sin (t / τ1)) (Ioi 0) ∧
      ∫ t in Ioi (0 : ℝ), Real.exp (-t / τ2) * Real.sin (t / τ1) = τ1 * τ2 ^ 2 / (τ1 ^ 2 + τ2 ^ 2) := by
  set a : ℂ := ((-1 / τ2 : ℝ) : ℂ) + ((1 / τ1 : ℝ) : ℂ) * I with ha
  have hre : a.re = -1 / τ2 := by rw [ha]; simp
  have him : a.im = 1 / τ1 := by rw [ha]; simp
  have hneg : a.re < 0 := by rw [hre]; exact div_neg_of_neg_of_pos (by norm_num) h2
  have e : ∀ t : ℝ, Real.exp (-t / τ2) * Real.sin (t / τ1) = (Complex.exp (a * t)).im := by
    intro t
    rw [Complex.exp_im]
    simp only [Complex.mul_re, Complex.mul_im, Complex.ofReal_re, Complex.ofReal_im, hre, him, mul_zero, sub_zero, zero_add]
    congr 2 <;> ring
  have hint := integrableOn_exp_mul_complex_Ioi hneg 0
  have him2 : IntegrableOn (fun t : ℝ => (Complex.exp (a * t)).im) (Ioi 0) := Integrable.im hint
  simp only [e]
  refine ⟨him2, ?_⟩
  have h3 : ∫ t in Ioi (0 : ℝ), (Complex.exp (a * t)).im = (∫ t in Ioi (0 : ℝ), Complex.exp (a * t)).im := integral_im hint
  rw [h3, integral_exp_mul_complex_Ioi hneg 0]
  simp only [Complex.ofReal_zero, mul_zero, Complex.exp_zero]
  rw [neg_div, Complex.neg_im, one_div, Complex.inv_im, Complex.normSq_apply, hre, him]
  have : τ1 ^ 2 + τ2 ^ 2 ≠ 0 := by positivity
  field_simp

theorem boson_integral {τ : ℝ} (h : 0 < τ) : IntegrableOn (RamanSpec.boson τ) (Ioi 0) ∧ ∫ t in Ioi (0 : ℝ), RamanSpec.boson τ t = 1 := by
  have hd : ∀ t ∈ Ici (0 : ℝ), HasDerivAt (fun t : ℝ => (t - τ) / τ * Real.exp (-t / τ)) (RamanSpec.boson τ t) t := by
    intro t _
    have h1 : HasDerivAt (fun t : ℝ => (t - τ) / τ) (1 / τ) t := ((hasDerivAt_id t).sub_const τ).div_const τ
    have h2 : HasDerivAt (fun t : ℝ => Real.exp (-t / τ)) (Real.exp (-t / τ) * (-1 / τ)) t := (((hasDerivAt_id t).neg).div_const τ).exp
    have h3 := h1.mul h2
    have e : 1 / τ * Real.exp (-t / τ) + (t - τ) / τ * (Real.exp (-t / τ) * (-1 / τ)) = RamanSpec.boson τ t := by
      unfold RamanSpec.boson
      field_simp
      ring
    rw [e] at h3
    exact h3
  have hexp : Tendsto (fun t : ℝ => t * Real.exp (-t)) atTop (𝓝 0) := by
    have := Real.tendsto_pow_mul_exp_neg_atTop_nhds_zero 1
    simpa using this
  have hlim : Tendsto (fun t : ℝ => (t - τ) / τ * Real.exp (-t / τ)) atTop (𝓝 0) := by
    have hs : Tendsto (fun t : ℝ => t / τ) atTop atTop := tendsto_id.atTop_div_const h
    have h1 := hexp.comp hs
    have h2 := Real.tendsto_exp_neg_atTop_nhds_zero.comp hs
    have h3 := h1.sub h2
    rw [sub_zero] at h3
    refine h3.congr fun t => ?_
    simp only [Function.comp]
    rw [show -t / τ = -(t / τ) by ring]
    field_simp
  have hint : IntegrableOn (RamanSpec.boson τ) (Ioi 0) := by
    have hp : 0 < 1 / τ := by positivity
    have e1 : IntegrableOn (fun t : ℝ => Real.exp (-(1 / τ) * t)) (Ioi 0) := integrableOn_exp_mul_Ioi (neg_lt_zero.2 hp) 0
    have e2 : IntegrableOn (fun t : ℝ => t ^ (1 : ℝ) * Real.exp (-(1 / τ) * t ^ (1 : ℝ))) (Ioi 0) :=
      integrableOn_rpow_mul_exp_neg_mul_rpow (by norm_num) one_pos hp
    have e3 : IntegrableOn (fun t : ℝ => 2 / τ * Real.exp (-(1 / τ) * t) - 1 / τ ^ 2 * (t ^ (1 : ℝ) * Real.exp (-(1 / τ) * t ^ (1 : ℝ)))) (Ioi 0) :=
      (e1.const_mul (2 / τ)).sub (e2.const_mul (1 / τ ^ 2))
    refine IntegrableOn.congr_fun e3 (fun t _ => ?_) measurableSet_Ioi
    simp only [Real.rpow_one]
    unfold RamanSpec.boson
    rw [show -(1 / τ) * t = -t / τ by ring]
    field_simp
  refine ⟨hint, ?_⟩
  rw [integral_Ioi_of_hasDerivAt_of_tendsto' hd hint hlim]
  simp [h.ne']

theorem isotropic_integral {τ1 τ2 : ℝ} (h1 : 0 < τ1) (h2 : 0 < τ2) :
    IntegrableOn (RamanSpec.isotropic τ1 τ2) (Ioi 0) ∧ ∫ t in Ioi (0 : ℝ), RamanSpec.isotropic τ1 τ2 t = 1 := by
  obtain ⟨hi, hv⟩ := damped_sine h1 h2
  have e : RamanSpec.isotropic τ1 τ2 = fun t => τ1 * (1 / τ1 ^ 2 + 1 / τ2 ^ 2) * (Real.exp (-t / τ2) * Real.sin (t / τ1)) := by
    funext t
    unfold RamanSpec.isotropic
    ring
  rw [e]
  refine ⟨hi.const_mul _, ?_⟩
  rw [integral_const_mul, hv]
  have : τ1 ^ 2 + τ2 ^ 2 ≠ 0 := by positivity
  field_simp
  ring

/-- C131: the published parts have unit area, and so has the published response: its isotropic share is 0.79, its boson-peak share 0.21. -/
theorem C131_published {τ1 τ2 : ℝ} (h1 : 0 < τ1) (h2 : 0 < τ2) : ∫ t in Ioi (0 : ℝ), RamanSpec.isotropic τ1 τ2 t = 1 ∧
    ∫ t in Ioi (0 : ℝ), RamanSpec.boson (96 / 1000) t = 1 ∧ ∫ t in Ioi (0 : ℝ), RamanSpec.linAgrawal τ1 τ2 t = 1 := by
  obtain ⟨hi, hv⟩ := isotropic_integral h1 h2
  obtain ⟨bi, bv⟩ := boson_integral (show (0 : ℝ) < 96 / 1000 by norm_num)
  refine ⟨hv, bv, ?_⟩
  unfold RamanSpec.linAgrawal
  rw [integral_add (hi.const_mul _) (bi.const_mul _), integral_const_mul, integral_const_mul, hv, bv]
  norm_num

/-- C131: the simple kernel is the published one. -/
theorem C131_simple {o : Obj} (hs : o.simpleRaman = true) (h1 : o.tau1 ≠ 0) (h2 : o.tau2 ≠ 0) : kernelFun o = RamanSpec.isotropic o.tau1 o.tau2 := by
  funext t
  unfold kernelFun ramanSimple RamanSpec.isotropic
  rw [if_pos hs]
  have : o.tau1 * (1 / o.tau1 ^ 2 + 1 / o.tau2 ^ 2) = (o.tau1 ^ 2 + o.tau2 ^ 2) / (o.tau1 * o.tau2 ^ 2) := by
    field_simp
    ring
  rw [this]

/-- the kernel of the default settings in terms of the published parts -/
theorem kernel_lin {o : Obj} (hs : o.simpleRaman = false) (h1 : o.tau1 ≠ 0) (h2 : o.tau2 ≠ 0) (t : ℝ) :
    kernelFun o t = 79 / 100 * (o.tau1 ^ 2 * o.tau2 ^ 2 / (o.tau1 ^ 2 + o.tau2 ^ 2) ^ 2) * RamanSpec.isotropic o.tau1 o.tau2 t +
      21 / 100 * RamanSpec.boson (96 / 1000) t := by
  unfold kernelFun ramanLin RamanSpec.isotropic RamanSpec.boson
  rw [hs, if_neg (by simp)]
  have hp : o.tau1 ^ 2 + o.tau2 ^ 2 ≠ 0 := by positivity
  have e : o.tau1 ^ 2 * o.tau2 ^ 2 / (o.tau1 ^ 2 + o.tau2 ^ 2) ^ 2 * (o.tau1 * (1 / o.tau1 ^ 2 + 1 / o.tau2 ^ 2)) = o.tau1 / (o.tau1 ^ 2 + o.tau2 ^ 2) := by
    field_simp
    ring
  rw [show (79 / 100 : ℝ) * (o.tau1 ^ 2 * o.tau2 ^ 2 / (o.tau1 ^ 2 + o.tau2 ^ 2) ^ 2) *
      (o.tau1 * (1 / o.tau1 ^ 2 + 1 / o.tau2 ^ 2) * Real.exp (-t / o.tau2) * Real.sin (t / o.tau1)) =
      79 / 100 * (o.tau1 ^ 2 * o.tau2 ^ 2 / (o.tau1 ^ 2 + o.tau2 ^ 2) ^ 2 * (o.tau1 * (1 / o.tau1 ^ 2 + 1 / o.tau2 ^ 2))) *
        Real.exp (-t / o.tau2) * Real.sin (t / o.tau1) by ring, e]
  norm_num
  ring

/-- C131, what holds for the default kernel: it is a combination of the published parts, with the published weight 0.21 of the boson peak but
with the weight of the isotropic part too small by `τ₁²τ₂²/(τ₁²+τ₂²)²`; hence the areas of the two parts. -/
theorem C131_default_partial {o : Obj} (hs : o.simpleRaman = false) (h1 : 0 < o.tau1) (h2 : 0 < o.tau2) :
    (∀ t, kernelFun o t = 79 / 100 * (o.tau1 ^ 2 * o.tau2 ^ 2 / (o.tau1 ^ 2 + o.tau2 ^ 2) ^ 2) * RamanSpec.isotropic o.tau1 o.tau2 t +
      21 / 100 * RamanSpec.boson (96 / 1000) t) ∧
    ∫ t in Ioi (0 : ℝ), kernelFun o t = 79 / 100 * (o.tau1 ^ 2 * o.tau2 ^ 2 / (o.tau1 ^ 2 + o.tau2 ^ 2) ^ 2) + 21 / 100 := by
  refine ⟨kernel_lin hs h1.ne' h2.ne', ?_⟩
  obtain ⟨hi, hv⟩ := isotropic_integral h1 h2
  obtain ⟨bi, bv⟩ := boson_integral (show (0 : ℝ) < 96 / 1000 by norm_num)
  simp only [kernel_lin hs h1.ne' h2.ne']
  rw [integral_add (hi.const_mul _) (bi.const_mul _), integral_const_mul, integral_const_mul, hv, bv]
  ring

theorem ratio_le {x y : ℝ} (hx : 0 < x) (hy : 0 < y) : x * y / (x + y) ^ 2 ≤ 1 / 4 := by
  rw [div_le_div_iff₀ (by positivity) (by norm_num)]
  nlinarith [sq_nonneg (x - y)]

/-- C131 fails for the default kernel, whatever the time constants: after normalisation to unit area more than half of the delayed response
is the boson peak, instead of 21 per cent … -/
theorem C131_share_refuted {o : Obj} (hs : o.simpleRaman = false) (h1 : 0 < o.tau1) (h2 : 0 < o.tau2) :
    1 / 2 < (∫ t in Ioi (0 : ℝ), 21 / 100 * RamanSpec.boson (96 / 1000) t) / ∫ t in Ioi (0 : ℝ), kernelFun o t := by
  obtain ⟨-, bv⟩ := boson_integral (show (0 : ℝ) < 96 / 1000 by norm_num)
  rw [(C131_default_partial hs h1 h2).2, integral_const_mul, bv]
  have h := ratio_le (pow_pos h1 2) (pow_pos h2 2)
  have h0 : 0 ≤ o.tau1 ^ 2 * o.tau2 ^ 2 / (o.tau1 ^ 2 + o.tau2 ^ 2) ^ 2 := by positivity
  rw [div_lt_div_iff₀ (by norm_num) (by positivity)]
  linarith

/-- … and with the default time constants (12.2 fs and 32 fs) it is between 70 and 71 per cent. -/
theorem C131_default_share_refuted : 70 / 100 < (∫ t in Ioi (0 : ℝ), 21 / 100 * RamanSpec.boson (96 / 1000) t) / ∫ t in Ioi (0 : ℝ), kernelFun Obj.default t ∧
    (∫ t in Ioi (0 : ℝ), 21 / 100 * RamanSpec.boson (96 / 1000) t) / ∫ t in Ioi (0 : ℝ), kernelFun Obj.default t < 71 / 100 := by
  obtain ⟨-, bv⟩ := boson_integral (show (0 : ℝ) < 96 / 1000 by norm_num)
  rw [(C131_default_partial (o := Obj.default) rfl (by norm_num [Obj.default]) (by norm_num [Obj.default])).2, integral_const_mul, bv]
  norm_num [Obj.default]

theorem samples_differ {o : Obj} (hs : o.simpleRaman = false) (h1 : 0 < o.tau1) (h2 : 0 < o.tau2) {d Z Z' : ℝ} (hd : Real.sin (d / o.tau1) ≠ 0)
    (hZ' : Z' ≠ 0) (e0 : kernelFun o 0 / Z = RamanSpec.linAgrawal o.tau1 o.tau2 0 / Z')
    (e1 : kernelFun o d / Z = RamanSpec.linAgrawal o.tau1 o.tau2 d / Z') : False := by
  have hb0 : RamanSpec.boson (96 / 1000) 0 ≠ 0 := by
    unfold RamanSpec.boson
    norm_num
  have hi0 : RamanSpec.isotropic o.tau1 o.tau2 0 = 0 := by
    unfold RamanSpec.isotropic
    simp
  have hi : RamanSpec.isotropic o.tau1 o.tau2 d ≠ 0 := by
    unfold RamanSpec.isotropic
    have h3 : 0 < o.tau1 * (1 / o.tau1 ^ 2 + 1 / o.tau2 ^ 2) := by positivity
    exact mul_ne_zero (mul_ne_zero h3.ne' (Real.exp_ne_zero _)) hd
  rw [kernel_lin hs h1.ne' h2.ne'] at e0 e1
  unfold RamanSpec.linAgrawal at e0 e1
  rw [hi0] at e0
  have hZ : Z ≠ 0 := by
    rintro rfl
    rw [div_zero, eq_comm, div_eq_zero_iff] at e0
    rcases e0 with h | h
    · exact hb0 (by linarith)
    · exact hZ' h
  have hZZ : Z = Z' := by
    rw [div_eq_div_iff hZ hZ'] at e0
    have : RamanSpec.boson (96 / 1000) 0 * (Z' - Z) = 0 := by linarith
    rcases mul_eq_zero.1 this with h | h
    · exact absurd h hb0
    · linarith
  rw [hZZ, div_left_inj' hZ'] at e1
  have h := ratio_le (pow_pos h1 2) (pow_pos h2 2)
  have : RamanSpec.isotropic o.tau1 o.tau2 d * (o.tau1 ^ 2 * o.tau2 ^ 2 / (o.tau1 ^ 2 + o.tau2 ^ 2) ^ 2 - 1) = 0 := by linarith
  rcases mul_eq_zero.1 this with h3 | h3
  · exact hi h3
  · linarith

/-- C131 fails in the solver: on every even grid of at least four points whose spacing is no multiple of `πτ₁`, the nonlinear response used with the
default kernel is not the convolution with the published response, however that is normalised. -/
theorem C131_response_refuted {o : Obj} {p : Pulse} {F : FibObj} {a : Fin p.n → ℂ} (hp : Holds p a) (he : p.n % 2 = 0) (hn : 4 ≤ p.n)
    (htw : p.tw ≠ 0) {P0 : Params p.n} {A : Fin p.n → ℂ} {fR : ℝ} (hs : setup o p F = .ok (P0, A, fR)) (hR : o.disableRaman = false)
    (hS : o.simpleRaman = false) (h1 : 0 < o.tau1) (h2 : 0 < o.tau2) (hd : Real.sin (p.tw / p.n / o.tau1) ≠ 0) :
    ¬ ∃ Z' : ℝ, Z' ≠ 0 ∧ ∀ (x : Fin p.n → ℂ) (j : Fin p.n), applySpec P0.R x j = ((1 - fR : ℝ) : ℂ) * x j +
        ((fR * (p.tw / p.n) : ℝ) : ℂ) * ∑ m : Fin p.n, if (m : ℕ) < p.n / 2 then
          ((RamanSpec.linAgrawal o.tau1 o.tau2 ((m : ℕ) * (p.tw / p.n)) / Z' : ℝ) : ℂ) * x (rollIdx ((m : ℕ) : ℤ) j) else 0 := by
  rintro ⟨Z', hZ', h⟩
  obtain ⟨Z, hc, -, -⟩ := C49_causal hp he hs hR
  have hfR : fR = 0.245 := by
    have := (raman_eq hp hs hR).2
    rwa [hS, if_neg (by simp)] at this
  have hnr : (0 : ℝ) < p.n := by exact_mod_cast hp.pos
  have hw : ((fR * (p.tw / p.n) : ℝ) : ℂ) ≠ 0 := by
    rw [Complex.ofReal_ne_zero, hfR]
    exact mul_ne_zero (by norm_num) (div_ne_zero htw hnr.ne')
  have key : ∀ m : Fin p.n, (m : ℕ) < p.n / 2 → kernelFun o ((m : ℕ) * (p.tw / p.n)) / Z = RamanSpec.linAgrawal o.tau1 o.tau2 ((m : ℕ) * (p.tw / p.n)) / Z' := by
    intro m hm
    set j0 : Fin p.n := ⟨0, hp.pos⟩ with hj0
    set x : Fin p.n → ℂ := fun i => if i = rollIdx ((m : ℕ) : ℤ) j0 then 1 else 0 with hx
    have hroll : ∀ m' : Fin p.n, rollIdx ((m' : ℕ) : ℤ) j0 = rollIdx ((m : ℕ) : ℤ) j0 → m' = m := by
      intro m' e
      have c1 := rollIdx_coe (n := p.n) ((m' : ℕ) : ℤ) j0
      have c2 := rollIdx_coe (n := p.n) ((m : ℕ) : ℤ) j0
      rw [e] at c1
      have c3 : ((((j0 : Fin p.n) : ℕ) : ℤ) - (m' : ℕ)) % p.n = ((((j0 : Fin p.n) : ℕ) : ℤ) - (m : ℕ)) % p.n := by rw [← c1, ← c2]
      have hj : (((j0 : Fin p.n) : ℕ) : ℤ) = 0 := rfl
      rw [hj] at c3
      have l1 := m.isLt
      have l2 := m'.isLt
      have c4 : (p.n : ℤ) ∣ ((0 : ℤ) - (m' : ℕ)) - (0 - (m : ℕ)) := Int.ModEq.dvd c3.symm
      obtain ⟨q, hq⟩ := c4
      have hq0 : q = 0 := by
        by_contra hne
        rcases lt_or_gt_of_ne hne with h | h
        · nlinarith
        · nlinarith
      rw [hq0] at hq
      exact Fin.ext (by omega)
    have hsum : ∀ f : Fin p.n → ℂ, (∑ m' : Fin p.n, if (m' : ℕ) < p.n / 2 then f m' * x (rollIdx ((m' : ℕ) : ℤ) j0) else 0) = f m := by
      intro f
      rw [Finset.sum_eq_single m]
      · rw [if_pos hm, hx]
        simp
      · intro m' _ hne
        have : x (rollIdx ((m' : ℕ) : ℤ) j0) = 0 := by
          rw [hx]
          simp only
          rw [if_neg fun e => hne (hroll m' e)]
        rw [this]
        simp
      · intro h
        exact absurd (Finset.mem_univ m) h
    have e := (hc x j0).symm.trans (h x j0)
    rw [hsum, hsum] at e
    exact_mod_cast mul_left_cancel₀ hw (add_left_cancel e)
  have k0 := key ⟨0, by omega⟩ (by show 0 < p.n / 2; omega)
  have k1 := key ⟨1, by omega⟩ (by show 1 < p.n / 2; omega)
  simp only [Nat.cast_zero, zero_mul, Nat.cast_one, one_mul] at k0 k1
  exact samples_differ hS h1 h2 hd hZ' k0 k1

/-- the hypotheses are met by the default solver, a generated fibre and a four-point grid with 1 fs spacing -/
theorem C131_nonvacuous : ∃ (p : Pulse) (a : Fin p.n → ℂ) (P0 : Params p.n) (A : Fin p.n → ℂ) (fR : ℝ), Holds p a ∧ p.n % 2 = 0 ∧ 4 ≤ p.n ∧ p.tw ≠ 0 ∧
    setup Obj.default p ⟨Fiber.genFib 1 1550 ⟨1, fun _ => 1⟩ 1 0 "ps^n/m" "f" Fiber.Fib.new, Fiber.genSpecs 0⟩ = .ok (P0, A, fR) ∧
    Obj.default.disableRaman = false ∧ Obj.default.simpleRaman = false ∧ Real.sin (p.tw / p.n / Obj.default.tau1) ≠ 0 := by
  set p : Pulse := { Pulse.blank with ready := true, n := 4, tw := 4 / 1000, cf := 1, aw := some ⟨4, fun _ => 1⟩ } with hpdef
  have hp : Holds p (n := 4) fun _ => 1 := ⟨rfl, rfl, by norm_num, rfl⟩
  obtain ⟨P0, A, fR, hs⟩ := setup_generated Obj.default (p := p) (a := fun _ => 1) hp 1 1550 1 0 ⟨1, fun _ => 1⟩ "ps^n/m" "f"
    (Or.inr (by norm_num [Obj.default]))
  refine ⟨p, fun _ => 1, P0, A, fR, hp, by norm_num [hpdef], by norm_num [hpdef], by norm_num [hpdef], hs, rfl, rfl, ?_⟩
  refine (Real.sin_pos_of_pos_of_lt_pi ?_ ?_).ne'
  · norm_num [hpdef, Obj.default]
  · have : p.tw / p.n / Obj.default.tau1 < 3 := by norm_num [hpdef, Obj.default]
    linarith [Real.pi_gt_three]

end PyNLO
