import Verif.Props.Modulation
import Verif.Props.Recentre
import Mathlib.Analysis.Normed.Lp.PiLp
import Mathlib.Analysis.Calculus.MeanValue
import Mathlib.Analysis.SpecialFunctions.Trigonometric.Sinc

/-!
# C177: four-wave mixing to first order

For light of any shape, what every frequency gains in a fibre is the sum over all triples of frequencies `j + l = m + s` of the product of
their input amplitudes times the contribution of the fibre for the phase mismatch of the triple, up to an explicit bound of the terms of
higher order.
-/

open scoped BigOperators
open Set

namespace PyNLO.Spec

open Complex

variable {n : ℕ}

/-- frequency bin of the beat between the bins `l` and `s`; zero frequency is in bin `n/2` -/
def beat (l s : Fin n) : Fin n := ⟨(l + (n - s) + n / 2) % n, Nat.mod_lt _ (by have := l.isLt; omega)⟩

/-- What frequency `m` receives from all triples of frequencies with `j + l = m + s` on the periodic grid, each with its strength `u m j l s`. -/
noncomputable def triples (u : Fin n → Fin n → Fin n → Fin n → ℂ) (x y w : Fin n → ℂ) (m : Fin n) : ℂ :=
  ∑ j : Fin n, ∑ l : Fin n, ∑ s : Fin n,
    if (n : ℤ) ∣ ((j : ℕ) : ℤ) + ((l : ℕ) : ℤ) - ((m : ℕ) : ℤ) - ((s : ℕ) : ℤ) then u m j l s * (x j * y l * (starRingEnd ℂ) (w s)) else 0

/-- `∫ exp(μ·t) dt` for `t` from 0 to `z` -/
noncomputable def stretch (μ : ℂ) (z : ℝ) : ℂ := by
  classical
  exact if μ = 0 then (z : ℂ) else (exp (μ * z) - 1) / μ

/-- The first-order change of the spectrum `a` up to `z` for propagation constants `β`, gain `g`, response `R` and nonlinear coefficient `γ`. -/
noncomputable def fourWave (β : Fin n → ℝ) (g : ℝ) (R : Fin n → ℂ) (γ : ℝ) (a : Fin n → ℂ) (z : ℝ) : Fin n → ℂ :=
  triples (fun m j l s => I * γ * R (beat l s) * stretch (I * ((β j + β l - β s - β m : ℝ) : ℂ) + (g : ℂ)) z) a a a

/-- sum of the amplitudes of all frequencies: a bound of the amplitude at all times, whatever the phases -/
noncomputable def total (a : Fin n → ℂ) : ℝ := ∑ k, ‖a k‖

end PyNLO.Spec

namespace PyNLO.FourWave

open Complex Ssfm Pulse Modulation Spec Nlse

variable {n : ℕ}

/-! ## The equation for the spectrum -/

/-- a bin, whatever the integer -/
theorem toTime_eq_sum (he : n % 2 = 0) (X : Fin n → ℂ) (i : Fin n) : Gnlse.toTime X i = ∑ k, X k * tone k i := by
  have h : X = fun l => ∑ k, X k * (if l = k then 1 else 0) := by funext l; simp
  conv_lhs => rw [h]
  have h2 : ∀ (s : Finset (Fin n)), Gnlse.toTime (fun l => ∑ k ∈ s, X k * (if l = k then (1 : ℂ) else 0)) i = ∑ k ∈ s, X k * tone k i := by
    intro s
    induction s using Finset.induction_on with
    | empty =>
      simp only [Finset.sum_empty]
      show fft (fftshift fun _ => 0) _ = 0
      exact congrFun (fft_zero (n := n)) _
    | insert k s hk ih =>
      simp only [Finset.sum_insert hk]
      rw [← ih, ← toTime_single he k]
      show fft (fftshift _) _ = X k * fft (fftshift _) _ + fft (fftshift _) _
      have e1 := fft_add (fftshift fun l => X k * (if l = k then (1 : ℂ) else 0)) (fftshift fun l => ∑ k ∈ s, X k * (if l = k then (1 : ℂ) else 0))
      have e2 := fft_smul (X k) (fftshift fun l => if l = k then (1 : ℂ) else 0)
      exact (congrFun e1 _).trans (congrArg (· + _) (congrFun e2 _))
  exact h2 Finset.univ

theorem tone_congr {k l : Fin n} {c : ℤ} (i : Fin n) (h : (n : ℤ) ∣ c - (((k : ℕ) : ℤ) - ((n / 2 : ℕ) : ℤ))) :
    rootE n (-(c * (((i : ℕ) : ℤ) - ((n / 2 : ℕ) : ℤ)))) = tone k i := by
  have hn : n ≠ 0 := by have := i.isLt; omega
  unfold tone
  refine rootE_congr_of_dvd hn ?_
  obtain ⟨d, hd⟩ := h
  exact ⟨-(d * (((i : ℕ) : ℤ) - ((n / 2 : ℕ) : ℤ))), by linear_combination -(((i : ℕ) : ℤ) - ((n / 2 : ℕ) : ℤ)) * hd⟩

theorem beat_dvd (l s : Fin n) : (n : ℤ) ∣ (((l : ℕ) : ℤ) - ((s : ℕ) : ℤ)) - (((beat l s : ℕ) : ℤ) - ((n / 2 : ℕ) : ℤ)) := by
  have h := Nat.div_add_mod (l + (n - s) + n / 2) n
  have h2 : (beat l s : ℕ) = (l + (n - s) + n / 2) % n := rfl
  have hs := s.isLt
  rw [h2]
  refine ⟨(((l + (n - s) + n / 2) / n : ℕ) : ℤ) - 1, ?_⟩
  have h3 : ((n : ℤ) * (((l + (n - s) + n / 2) / n : ℕ) : ℤ)) + (((l + (n - s) + n / 2) % n : ℕ) : ℤ) = ((l : ℕ) : ℤ) + ((n : ℤ) - ((s : ℕ) : ℤ)) + ((n / 2 : ℕ) : ℤ) := by
    have : ((n - s : ℕ) : ℤ) = (n : ℤ) - ((s : ℕ) : ℤ) := by omega
    rw [← this]
    exact_mod_cast h
  linear_combination -h3

theorem tone_beat (l s i : Fin n) : tone l i * (starRingEnd ℂ) (tone s i) = tone (beat l s) i := by
  rw [← tone_congr (l := l) i (beat_dvd l s)]
  unfold tone
  rw [conj_rootE, ← rootE_add]
  congr 1
  ring

/-- the tone of three waves -/
theorem toFreq_three (he : n % 2 = 0) (j l s m : Fin n) :
    Gnlse.toFreq (fun i => tone j i * tone (beat l s) i) m =
      if (n : ℤ) ∣ ((j : ℕ) : ℤ) + ((l : ℕ) : ℤ) - ((m : ℕ) : ℤ) - ((s : ℕ) : ℤ) then 1 else 0 := by
  have hn : 0 < n := by have := j.isLt; omega
  obtain ⟨k, hk⟩ : ∃ k : Fin n, (n : ℤ) ∣ ((j : ℕ) : ℤ) + ((l : ℕ) : ℤ) - ((s : ℕ) : ℤ) - ((k : ℕ) : ℤ) := by
    refine ⟨⟨(j + l + (n - s)) % n, Nat.mod_lt _ hn⟩, ?_⟩
    have h := Nat.div_add_mod (j + l + (n - s)) n
    have hs := s.isLt
    refine ⟨(((j + l + (n - s)) / n : ℕ) : ℤ) - 1, ?_⟩
    have h3 : ((n : ℤ) * (((j + l + (n - s)) / n : ℕ) : ℤ)) + (((j + l + (n - s)) % n : ℕ) : ℤ) = ((j : ℕ) : ℤ) + ((l : ℕ) : ℤ) + ((n : ℤ) - ((s : ℕ) : ℤ)) := by
      have : ((n - s : ℕ) : ℤ) = (n : ℤ) - ((s : ℕ) : ℤ) := by omega
      rw [← this]
      exact_mod_cast h
    simp only
    linear_combination -h3
  have e : (fun i => tone j i * tone (beat l s) i) = tone k := by
    funext i
    rw [← tone_beat, ← tone_congr (k := k) (l := k) (c := ((j : ℕ) : ℤ) + ((l : ℕ) : ℤ) - ((s : ℕ) : ℤ) - ((n / 2 : ℕ) : ℤ)) i (by
      obtain ⟨d, hd⟩ := hk
      exact ⟨d, by linear_combination hd⟩)]
    unfold tone
    rw [conj_rootE, ← rootE_add, ← rootE_add]
    congr 1
    ring
  rw [e, toFreq_tone he]
  have hiff : m = k ↔ (n : ℤ) ∣ ((j : ℕ) : ℤ) + ((l : ℕ) : ℤ) - ((m : ℕ) : ℤ) - ((s : ℕ) : ℤ) := by
    rw [← fin_dvd_sub]
    constructor
    · intro h
      have := dvd_sub hk h
      refine this.trans (dvd_of_eq ?_)
      ring
    · intro h
      have := dvd_sub hk h
      refine this.trans (dvd_of_eq ?_)
      ring
  simp only [hiff]

theorem toFreq_sum {ι : Type*} (s : Finset ι) (c : ι → ℂ) (f : ι → Fin n → ℂ) (m : Fin n) :
    Gnlse.toFreq (fun i => ∑ k ∈ s, c k * f k i) m = ∑ k ∈ s, c k * Gnlse.toFreq (f k) m := by
  classical
  induction s using Finset.induction_on with
  | empty =>
    simp only [Finset.sum_empty]
    have := congrFun (toFreq_smul 0 (fun _ : Fin n => (0 : ℂ))) m
    simpa using this
  | insert k s hk ih =>
    simp only [Finset.sum_insert hk]
    rw [← ih, congrFun (toFreq_add (fun i => c k * f k i) fun i => ∑ k ∈ s, c k * f k i) m, toFreq_smul]

theorem respond_sum (R : Fin n → ℂ) {ι : Type*} (s : Finset ι) (c : ι → ℂ) (f : ι → Fin n → ℂ) (he : n % 2 = 0) (i : Fin n) :
    Gnlse.toTime (fun k => R k * Gnlse.toFreq (fun i => ∑ q ∈ s, c q * f q i) k) i = ∑ q ∈ s, c q * Gnlse.toTime (fun k => R k * Gnlse.toFreq (f q) k) i := by
  simp only [toTime_eq_sum he, toFreq_sum, Finset.mul_sum, Finset.sum_mul]
  rw [Finset.sum_comm]
  refine Finset.sum_congr rfl fun q _ => Finset.sum_congr rfl fun k _ => ?_
  ring

theorem respond_tone (he : n % 2 = 0) (R : Fin n → ℂ) (k i : Fin n) : Gnlse.toTime (fun l => R l * Gnlse.toFreq (tone k) l) i = R k * tone k i := by
  rw [toTime_eq_sum he, toFreq_tone he, Finset.sum_eq_single k]
  · simp
  · intro l _ hl
    simp [hl]
  · exact fun h => absurd (Finset.mem_univ _) h

/-- the equation for the spectrum -/
theorem toFreq_rhs (he : n % 2 = 0) (β : Fin n → ℝ) (g : ℝ) (R : Fin n → ℂ) (γ : ℝ) (U : Fin n → ℂ) (m : Fin n) :
    Gnlse.toFreq (Gnlse.rhs β g R γ U) m = (I * β m + g / 2) * Gnlse.toFreq U m +
      triples (fun _ _ l s => I * γ * R (beat l s)) (Gnlse.toFreq U) (Gnlse.toFreq U) (Gnlse.toFreq U) m := by
  set a := Gnlse.toFreq U with ha
  have hU : ∀ i, U i = ∑ k, a k * tone k i := fun i => by rw [← toTime_eq_sum he, ha, toTime_toFreq]
  have hP : (fun i => U i * (starRingEnd ℂ) (U i)) = fun i => ∑ q : Fin n × Fin n, (a q.1 * (starRingEnd ℂ) (a q.2)) * tone (beat q.1 q.2) i := by
    funext i
    rw [hU i, map_sum, Finset.sum_mul_sum, Fintype.sum_prod_type]
    refine Finset.sum_congr rfl fun l _ => Finset.sum_congr rfl fun s _ => ?_
    rw [← tone_beat, map_mul]
    ring
  have hr : ∀ i, Gnlse.toTime (fun k => R k * Gnlse.toFreq (fun i => U i * (starRingEnd ℂ) (U i)) k) i =
      ∑ q : Fin n × Fin n, (a q.1 * (starRingEnd ℂ) (a q.2)) * (R (beat q.1 q.2) * tone (beat q.1 q.2) i) := by
    intro i
    rw [hP, respond_sum R _ _ _ he]
    simp only [respond_tone he]
  have hN : (fun i => I * γ * U i * Gnlse.toTime (fun k => R k * Gnlse.toFreq (fun i => U i * (starRingEnd ℂ) (U i)) k) i) =
      fun i => ∑ q : Fin n × Fin n × Fin n, (I * γ * R (beat q.2.1 q.2.2) * (a q.1 * a q.2.1 * (starRingEnd ℂ) (a q.2.2))) *
        (tone q.1 i * tone (beat q.2.1 q.2.2) i) := by
    funext i
    rw [hr, hU i, mul_assoc, Finset.sum_mul_sum, Finset.mul_sum]
    conv_rhs => rw [Fintype.sum_prod_type]
    refine Finset.sum_congr rfl fun j _ => ?_
    rw [Finset.mul_sum]
    refine Finset.sum_congr rfl fun q _ => ?_
    ring
  have hsplit : Gnlse.rhs β g R γ U = fun i => Gnlse.toTime (fun k => (I * β k + g / 2) * a k) i +
      I * γ * U i * Gnlse.toTime (fun k => R k * Gnlse.toFreq (fun i => U i * (starRingEnd ℂ) (U i)) k) i := rfl
  rw [hsplit, congrFun (toFreq_add _ _) m]
  rw [show Gnlse.toFreq (fun i => Gnlse.toTime (fun k => (I * β k + g / 2) * a k) i) = _ from toFreq_toTime _, hN, toFreq_sum]
  congr 1
  unfold triples
  rw [Fintype.sum_prod_type]
  refine Finset.sum_congr rfl fun j _ => ?_
  rw [Fintype.sum_prod_type]
  refine Finset.sum_congr rfl fun l _ => Finset.sum_congr rfl fun s _ => ?_
  rw [toFreq_three he]
  split_ifs <;> ring

/-! ## Bounds by the sum of the amplitudes -/

theorem total_nonneg (a : Fin n → ℂ) : 0 ≤ total a := Finset.sum_nonneg fun _ _ => norm_nonneg _

theorem total_add (a b : Fin n → ℂ) : total (a + b) ≤ total a + total b := by
  unfold total
  rw [← Finset.sum_add_distrib]
  exact Finset.sum_le_sum fun k _ => norm_add_le _ _

theorem le_total (a : Fin n → ℂ) (k : Fin n) : ‖a k‖ ≤ total a :=
  Finset.single_le_sum (f := fun k => ‖a k‖) (fun _ _ => norm_nonneg _) (Finset.mem_univ k)

theorem triples_total {u : Fin n → Fin n → Fin n → Fin n → ℂ} {κ : ℝ} (hu : ∀ m j l s, ‖u m j l s‖ ≤ κ) (hκ : 0 ≤ κ) (x y w : Fin n → ℂ) :
    total (triples u x y w) ≤ κ * (total x * total y * total w) := by
  have h1 : ∀ m, ‖triples u x y w m‖ ≤ ∑ j : Fin n, ∑ l : Fin n, ∑ s : Fin n,
      if (n : ℤ) ∣ ((j : ℕ) : ℤ) + ((l : ℕ) : ℤ) - ((m : ℕ) : ℤ) - ((s : ℕ) : ℤ) then κ * (‖x j‖ * ‖y l‖ * ‖w s‖) else 0 := by
    intro m
    refine (norm_sum_le _ _).trans (Finset.sum_le_sum fun j _ => (norm_sum_le _ _).trans (Finset.sum_le_sum fun l _ => (norm_sum_le _ _).trans
      (Finset.sum_le_sum fun s _ => ?_)))
    split_ifs
    · rw [norm_mul, norm_mul, norm_mul, RCLike.norm_conj]
      exact mul_le_mul_of_nonneg_right (hu m j l s) (by positivity)
    · simp
  have h2 : ∀ j l s : Fin n, (∑ m : Fin n, if (n : ℤ) ∣ ((j : ℕ) : ℤ) + ((l : ℕ) : ℤ) - ((m : ℕ) : ℤ) - ((s : ℕ) : ℤ) then κ * (‖x j‖ * ‖y l‖ * ‖w s‖) else 0) ≤
      κ * (‖x j‖ * ‖y l‖ * ‖w s‖) := by
    intro j l s
    by_cases h : ∃ m : Fin n, (n : ℤ) ∣ ((j : ℕ) : ℤ) + ((l : ℕ) : ℤ) - ((m : ℕ) : ℤ) - ((s : ℕ) : ℤ)
    · obtain ⟨m, hm⟩ := h
      rw [Finset.sum_eq_single m]
      · rw [if_pos hm]
      · intro k _ hk
        refine if_neg fun h => hk ?_
        rw [← fin_dvd_sub]
        exact (dvd_sub hm h).trans (dvd_of_eq (by ring))
      · exact fun h => absurd (Finset.mem_univ _) h
    · push Not at h
      rw [Finset.sum_eq_zero fun m _ => if_neg (h m)]
      positivity
  calc total (triples u x y w) ≤ ∑ m : Fin n, ∑ j : Fin n, ∑ l : Fin n, ∑ s : Fin n,
        (if (n : ℤ) ∣ ((j : ℕ) : ℤ) + ((l : ℕ) : ℤ) - ((m : ℕ) : ℤ) - ((s : ℕ) : ℤ) then κ * (‖x j‖ * ‖y l‖ * ‖w s‖) else 0) :=
        Finset.sum_le_sum fun m _ => h1 m
    _ = ∑ j : Fin n, ∑ l : Fin n, ∑ s : Fin n, ∑ m : Fin n,
        (if (n : ℤ) ∣ ((j : ℕ) : ℤ) + ((l : ℕ) : ℤ) - ((m : ℕ) : ℤ) - ((s : ℕ) : ℤ) then κ * (‖x j‖ * ‖y l‖ * ‖w s‖) else 0) := by
        rw [Finset.sum_comm]
        refine Finset.sum_congr rfl fun j _ => ?_
        rw [Finset.sum_comm]
        refine Finset.sum_congr rfl fun l _ => ?_
        rw [Finset.sum_comm]
    _ ≤ ∑ j : Fin n, ∑ l : Fin n, ∑ s : Fin n, κ * (‖x j‖ * ‖y l‖ * ‖w s‖) :=
        Finset.sum_le_sum fun j _ => Finset.sum_le_sum fun l _ => Finset.sum_le_sum fun s _ => h2 j l s
    _ = κ * (total x * total y * total w) := by
        unfold total
        rw [Finset.sum_mul_sum, Finset.sum_mul, Finset.mul_sum]
        refine Finset.sum_congr rfl fun j _ => ?_
        rw [Finset.sum_mul, Finset.mul_sum]
        refine Finset.sum_congr rfl fun l _ => ?_
        rw [Finset.mul_sum, Finset.mul_sum]

theorem triples_sub (u : Fin n → Fin n → Fin n → Fin n → ℂ) (x y : Fin n → ℂ) :
    triples u x x x - triples u y y y = triples u (x - y) x x + triples u y (x - y) x + triples u y y (x - y) := by
  funext m
  simp only [Pi.sub_apply, Pi.add_apply, triples, ← Finset.sum_sub_distrib, ← Finset.sum_add_distrib]
  refine Finset.sum_congr rfl fun j _ => Finset.sum_congr rfl fun l _ => Finset.sum_congr rfl fun s _ => ?_
  split_ifs
  · rw [map_sub]
    ring
  · ring

theorem triples_sub_total {u : Fin n → Fin n → Fin n → Fin n → ℂ} {κ : ℝ} (hu : ∀ m j l s, ‖u m j l s‖ ≤ κ) (hκ : 0 ≤ κ) {x y : Fin n → ℂ} {M : ℝ}
    (hx : total x ≤ M) (hy : total y ≤ M) : total (triples u x x x - triples u y y y) ≤ 3 * κ * M ^ 2 * total (x - y) := by
  have hM : 0 ≤ M := (total_nonneg x).trans hx
  have h0 := total_nonneg (x - y)
  have hx0 := total_nonneg x
  have hy0 := total_nonneg y
  rw [triples_sub]
  have h1 := triples_total hu hκ (x - y) x x
  have h2 := triples_total hu hκ y (x - y) x
  have h3 := triples_total hu hκ y y (x - y)
  have e1 : total x * total x ≤ M * M := mul_le_mul hx hx hx0 hM
  have e2 : total y * total x ≤ M * M := mul_le_mul hy hx hx0 hM
  have e3 : total y * total y ≤ M * M := mul_le_mul hy hy hy0 hM
  have k1 := mul_le_mul_of_nonneg_left e1 (mul_nonneg hκ h0)
  have k2 := mul_le_mul_of_nonneg_left e2 (mul_nonneg hκ h0)
  have k3 := mul_le_mul_of_nonneg_left e3 (mul_nonneg hκ h0)
  have h4 := total_add (triples u (x - y) x x + triples u y (x - y) x) (triples u y y (x - y))
  have h5 := total_add (triples u (x - y) x x) (triples u y (x - y) x)
  nlinarith

theorem total_deriv {b : ℝ → Fin n → ℂ} {b' : Fin n → ℂ} {z : ℝ} (h : HasDerivAt b b' z) :
    HasDerivAt (fun z => (WithLp.toLp 1 (b z) : PiLp 1 fun _ : Fin n => ℂ)) (WithLp.toLp 1 b') z :=
  ((PiLp.continuousLinearEquiv 1 ℝ (fun _ : Fin n => ℂ)).symm.toContinuousLinearMap.hasFDerivAt).comp_hasDerivAt z h

theorem total_eq_norm (b : Fin n → ℂ) : ‖(WithLp.toLp 1 b : PiLp 1 fun _ : Fin n => ℂ)‖ = total b := by
  rw [PiLp.norm_eq_of_L1]
  rfl

/-- a field that grows slower than `B` whenever it reaches `B` stays below -/
theorem total_fence {b b' : ℝ → Fin n → ℂ} {L : ℝ} (hb : ∀ z ∈ Icc 0 L, HasDerivAt b (b' z) z) {B B' : ℝ → ℝ} (h0 : total (b 0) ≤ B 0)
    (hB : ∀ x, HasDerivAt B (B' x) x) (bound : ∀ x ∈ Ico 0 L, total (b x) = B x → total (b' x) < B' x) {z : ℝ} (hz : z ∈ Icc 0 L) : total (b z) ≤ B z := by
  have := image_norm_le_of_norm_deriv_right_lt_deriv_boundary (f := fun z => (WithLp.toLp 1 (b z) : PiLp 1 fun _ : Fin n => ℂ))
    (f' := fun z => WithLp.toLp 1 (b' z)) (a := 0) (b := L) (B := B) (B' := B')
    (fun x hx => (total_deriv (hb x hx)).continuousAt.continuousWithinAt) (fun x hx => (total_deriv (hb x ⟨hx.1, hx.2.le⟩)).hasDerivWithinAt)
    (by simpa only [total_eq_norm] using h0) hB (fun x hx h => by rw [total_eq_norm] at h ⊢; exact bound x hx h) hz
  simpa only [total_eq_norm] using this

/-- a field that starts at zero is bounded by the integral of a bound of its rate -/
theorem total_grow {b b' : ℝ → Fin n → ℂ} {L : ℝ} (hb : ∀ z ∈ Icc 0 L, HasDerivAt b (b' z) z) {B B' : ℝ → ℝ} (h0 : total (b 0) ≤ B 0)
    (hB : ∀ x, HasDerivAt B (B' x) x) (bound : ∀ x ∈ Ico 0 L, total (b' x) ≤ B' x) {z : ℝ} (hz : z ∈ Icc 0 L) : total (b z) ≤ B z := by
  have := image_norm_le_of_norm_deriv_right_le_deriv_boundary (f := fun z => (WithLp.toLp 1 (b z) : PiLp 1 fun _ : Fin n => ℂ))
    (f' := fun z => WithLp.toLp 1 (b' z)) (a := 0) (b := L) (B := B) (B' := B')
    (fun x hx => (total_deriv (hb x hx)).continuousAt.continuousWithinAt) (fun x hx => (total_deriv (hb x ⟨hx.1, hx.2.le⟩)).hasDerivWithinAt)
    (by simpa only [total_eq_norm] using h0) hB (fun x hx => by rw [total_eq_norm]; exact bound x hx) hz
  simpa only [total_eq_norm] using this

theorem total_zero : total (0 : Fin n → ℂ) = 0 := by simp [total]

/-- first-order response of an equation of triples -/
theorem response {u v : ℝ → Fin n → Fin n → Fin n → Fin n → ℂ} {κ W L : ℝ} (hu : ∀ z ∈ Icc 0 L, ∀ m j l s, ‖u z m j l s‖ ≤ κ) (hκ : 0 ≤ κ) (hW : 0 < W)
    (hL : 0 < L) (hsmall : κ * W ^ 2 * L ≤ 1 / 8) (hv : ∀ z m j l s, HasDerivAt (fun z => v z m j l s) (u z m j l s) z) (hv0 : ∀ m j l s, v 0 m j l s = 0)
    {b : ℝ → Fin n → ℂ} (hb : ∀ z ∈ Icc 0 L, HasDerivAt b (triples (u z) (b z) (b z) (b z)) z) (hb0 : total (b 0) ≤ W) {z : ℝ} (hz : z ∈ Icc 0 L) :
    total (b z - b 0 - triples (v z) (b 0) (b 0) (b 0)) ≤ 12 * (κ * W ^ 2 * z) ^ 2 * W := by
  have hbound : ∀ x ∈ Icc 0 L, total (b x) ≤ 3 / 2 * W := by
    intro x hx
    have h1 := total_fence hb (B := fun x => W + W / (2 * L) * x) (B' := fun _ => W / (2 * L) * 1) (by simpa using hb0)
      (fun x => ((hasDerivAt_id x).const_mul _).const_add _) (fun x hx h => ?_) hx
    · refine h1.trans ?_
      have : W / (2 * L) * x ≤ W / (2 * L) * L := mul_le_mul_of_nonneg_left hx.2 (by positivity)
      have e : W / (2 * L) * L = W / 2 := by field_simp
      linarith
    · have hle : total (b x) ≤ 3 / 2 * W := by
        rw [h]
        have : W / (2 * L) * x ≤ W / (2 * L) * L := mul_le_mul_of_nonneg_left hx.2.le (by positivity)
        have e : W / (2 * L) * L = W / 2 := by field_simp
        linarith
      have h2 := triples_total (hu x ⟨hx.1, hx.2.le⟩) hκ (b x) (b x) (b x)
      have h3 : total (b x) * total (b x) * total (b x) ≤ (3 / 2 * W) ^ 3 := by
        have := pow_le_pow_left₀ (total_nonneg (b x)) hle 3
        nlinarith
      refine (h2.trans (mul_le_mul_of_nonneg_left h3 hκ)).trans_lt ?_
      rw [mul_one, lt_div_iff₀ (by positivity)]
      nlinarith
  have hmove : ∀ x ∈ Icc 0 L, total (b x - b 0) ≤ κ * (3 / 2 * W) ^ 3 * x := by
    intro x hx
    refine total_grow (b := fun x => b x - b 0) (fun x hx => (hb x hx).sub_const (b 0)) (B := fun x => κ * (3 / 2 * W) ^ 3 * x)
      (B' := fun _ => κ * (3 / 2 * W) ^ 3 * 1) (by simp [total_zero]) (fun x => (hasDerivAt_id x).const_mul _) (fun x hx => ?_) hx
    rw [mul_one]
    refine (triples_total (hu x ⟨hx.1, hx.2.le⟩) hκ (b x) (b x) (b x)).trans (mul_le_mul_of_nonneg_left ?_ hκ)
    have := pow_le_pow_left₀ (total_nonneg (b x)) (hbound x ⟨hx.1, hx.2.le⟩) 3
    nlinarith
  have hd : ∀ x, HasDerivAt (fun x => triples (v x) (b 0) (b 0) (b 0)) (triples (u x) (b 0) (b 0) (b 0)) x := by
    intro x
    rw [hasDerivAt_pi]
    intro m
    unfold triples
    refine HasDerivAt.fun_sum fun j _ => HasDerivAt.fun_sum fun l _ => HasDerivAt.fun_sum fun s _ => ?_
    split_ifs
    · exact (hv x m j l s).mul_const _
    · exact hasDerivAt_const x 0
  have h0 : triples (v 0) (b 0) (b 0) (b 0) = 0 := by
    funext m
    unfold triples
    simp [hv0]
  have := total_grow (b := fun x => b x - b 0 - triples (v x) (b 0) (b 0) (b 0)) (fun x hx => ((hb x hx).sub_const (b 0)).sub (hd x))
    (B := fun x => 729 / 64 * κ ^ 2 * W ^ 5 * x ^ 2) (B' := fun x => 729 / 64 * κ ^ 2 * W ^ 5 * (2 * x)) (by simp [h0, total_zero])
    (fun x => by simpa using (hasDerivAt_pow 2 x).const_mul (729 / 64 * κ ^ 2 * W ^ 5)) (fun x hx => ?_) hz
  · refine this.trans ?_
    have e : 12 * (κ * W ^ 2 * z) ^ 2 * W = 12 * (κ ^ 2 * W ^ 5 * z ^ 2) := by ring
    have e2 : 729 / 64 * κ ^ 2 * W ^ 5 * z ^ 2 = 729 / 64 * (κ ^ 2 * W ^ 5 * z ^ 2) := by ring
    have : 0 ≤ κ ^ 2 * W ^ 5 * z ^ 2 := by positivity
    rw [e, e2]
    linarith
  · have hx' : x ∈ Icc 0 L := ⟨hx.1, hx.2.le⟩
    refine (triples_sub_total (hu x hx') hκ (hbound x hx') (hb0.trans (by linarith))).trans ?_
    have h1 := mul_le_mul_of_nonneg_left (hmove x hx') (by positivity : 0 ≤ 3 * κ * (3 / 2 * W) ^ 2)
    refine h1.trans (le_of_eq ?_)
    ring

/-! ## The fibre -/

theorem stretch_hasDerivAt (μ : ℂ) (z : ℝ) : HasDerivAt (stretch μ) (exp (μ * z)) z := by
  unfold stretch
  by_cases h : μ = 0
  · simp only [h, if_true, zero_mul, exp_zero]
    exact (hasDerivAt_id z).ofReal_comp
  · simp only [h, if_false]
    have h1 : HasDerivAt (fun z : ℝ => exp (μ * (z : ℂ))) (exp (μ * z) * (μ * 1)) z := ((hasDerivAt_id z).ofReal_comp.const_mul μ).cexp
    have h2 := (h1.sub_const 1).div_const μ
    refine h2.congr_deriv ?_
    field_simp

theorem stretch_zero (μ : ℂ) : stretch μ 0 = 0 := by
  unfold stretch
  split_ifs <;> simp

theorem toFreq_hasDerivAt {U : ℝ → Fin n → ℂ} {U' : Fin n → ℂ} {z : ℝ} (h : HasDerivAt U U' z) (k : Fin n) :
    HasDerivAt (fun z => Gnlse.toFreq (U z) k) (Gnlse.toFreq U' k) z := by
  have e : ∀ V : Fin n → ℂ, Gnlse.toFreq V k = _ := fun V => fftT_apply V k
  simp only [e]
  rw [hasDerivAt_pi] at h
  exact (HasDerivAt.fun_sum fun j _ => (h j).mul_const _).const_mul _

/-- amplitude in the frame of its own dispersion and gain -/
noncomputable def slow (β : Fin n → ℝ) (g : ℝ) (U : ℝ → Fin n → ℂ) (z : ℝ) : Fin n → ℂ := fun k => exp (-(I * β k + g / 2) * z) * Gnlse.toFreq (U z) k

/-- C177: the equation on the grid.  What every frequency gains is the sum over all triples that mix to it; everything beyond, summed over all
frequencies, is of second order in the nonlinear phase `γ·W²·z`. -/
theorem C177_first_order (he : n % 2 = 0) (β : Fin n → ℝ) (g : ℝ) {R : Fin n → ℂ} {K : ℝ} (hK : ∀ k, ‖R k‖ ≤ K) (γ : ℝ) {L W lo hi : ℝ} (hL : 0 < L)
    (hlo : lo < 0) (hhi : L < hi) {U : ℝ → Fin n → ℂ} (hU : Solves β g R γ lo hi U) (hW : 0 < W) (hU0 : total (Gnlse.toFreq (U 0)) ≤ W)
    (hsmall : |γ| * K * Real.exp (|g| * L) * W ^ 2 * L ≤ 1 / 8) {z : ℝ} (hz : z ∈ Icc 0 L) :
    ∑ k, ‖Gnlse.toFreq (U z) k - exp ((I * β k + g / 2) * z) * (Gnlse.toFreq (U 0) k + fourWave β g R γ (Gnlse.toFreq (U 0)) z k)‖ ≤
      Real.exp (g / 2 * z) * (12 * (|γ| * K * Real.exp (|g| * L) * W ^ 2 * z) ^ 2 * W) := by
  rcases Nat.eq_zero_or_pos n with rfl | hn
  · simp only [Finset.univ_eq_empty, Finset.sum_empty]
    positivity
  have hK0 : 0 ≤ K := (norm_nonneg _).trans (hK ⟨0, hn⟩)
  set E : ℝ → Fin n → Fin n → Fin n → Fin n → ℂ := fun z m j l s => exp ((I * ((β j + β l - β s - β m : ℝ) : ℂ) + (g : ℂ)) * z) with hE
  set u : ℝ → Fin n → Fin n → Fin n → Fin n → ℂ := fun z m j l s => I * γ * R (beat l s) * E z m j l s with hu
  set v : ℝ → Fin n → Fin n → Fin n → Fin n → ℂ := fun z m j l s =>
    I * γ * R (beat l s) * stretch (I * ((β j + β l - β s - β m : ℝ) : ℂ) + (g : ℂ)) z with hv
  have hub : ∀ z ∈ Icc 0 L, ∀ m j l s, ‖u z m j l s‖ ≤ |γ| * K * Real.exp (|g| * L) := by
    intro z hz m j l s
    have h1 : ‖E z m j l s‖ ≤ Real.exp (|g| * L) := by
      rw [hE, norm_exp]
      refine Real.exp_le_exp.2 ?_
      have : ((I * ((β j + β l - β s - β m : ℝ) : ℂ) + (g : ℂ)) * z).re = g * z := by simp
      rw [this]
      exact mul_le_mul (le_abs_self g) hz.2 hz.1 (abs_nonneg g)
    rw [hu]
    simp only
    rw [norm_mul, norm_mul, norm_mul, norm_I, one_mul, norm_real, Real.norm_eq_abs]
    exact mul_le_mul (mul_le_mul_of_nonneg_left (hK _) (abs_nonneg _)) h1 (norm_nonneg _) (by positivity)
  have hvd : ∀ z m j l s, HasDerivAt (fun z => v z m j l s) (u z m j l s) z := fun z m j l s => (stretch_hasDerivAt _ z).const_mul _
  have hv0 : ∀ m j l s, v 0 m j l s = 0 := fun m j l s => by rw [hv]; simp only [stretch_zero, mul_zero]
  have hb : ∀ z ∈ Icc 0 L, HasDerivAt (slow β g U) (triples (u z) (slow β g U z) (slow β g U z) (slow β g U z)) z := by
    intro z hz
    rw [hasDerivAt_pi]
    intro m
    have h1 := toFreq_hasDerivAt (hU z ⟨by linarith [hz.1], by linarith [hz.2]⟩) m
    rw [toFreq_rhs he] at h1
    have h2 : HasDerivAt (fun z : ℝ => exp (-(I * β m + g / 2) * (z : ℂ))) (exp (-(I * β m + g / 2) * z) * (-(I * β m + g / 2) * 1)) z :=
      ((hasDerivAt_id z).ofReal_comp.const_mul (-(I * (β m : ℂ) + g / 2))).cexp
    refine (h2.mul h1).congr_deriv ?_
    have e : triples (u z) (slow β g U z) (slow β g U z) (slow β g U z) m = exp (-(I * β m + g / 2) * z) *
        triples (fun _ _ l s => I * γ * R (beat l s)) (Gnlse.toFreq (U z)) (Gnlse.toFreq (U z)) (Gnlse.toFreq (U z)) m := by
      unfold triples
      rw [Finset.mul_sum]
      refine Finset.sum_congr rfl fun j _ => ?_
      rw [Finset.mul_sum]
      refine Finset.sum_congr rfl fun l _ => ?_
      rw [Finset.mul_sum]
      refine Finset.sum_congr rfl fun s _ => ?_
      split_ifs
      · have hc : (starRingEnd ℂ) (exp (-(I * β s + g / 2) * z)) = exp (-(-I * β s + g / 2) * z) := by
          rw [show -(I * β s + g / 2) * (z : ℂ) = ((-(g / 2 * z) : ℝ) : ℂ) + ((-(β s * z) : ℝ) : ℂ) * I by push_cast; ring, ← exp_conj, map_add, map_mul,
            conj_ofReal, conj_ofReal, conj_I]
          congr 1
          push_cast
          ring
        have hx : E z m j l s * (exp (-(I * β j + g / 2) * z) * exp (-(I * β l + g / 2) * z) * exp (-(-I * β s + g / 2) * z)) =
            exp (-(I * β m + g / 2) * z) := by
          rw [hE]
          simp only
          rw [← exp_add, ← exp_add, ← exp_add]
          congr 1
          push_cast
          ring
        simp only [hu, slow, map_mul, hc]
        rw [← hx]
        ring
      · rw [mul_zero]
    rw [e]
    ring
  have h0 : slow β g U 0 = Gnlse.toFreq (U 0) := by
    funext k
    simp [slow]
  have h := response (b := slow β g U) hub (by positivity) hW hL hsmall hvd hv0 hb (by rw [h0]; exact hU0) hz
  rw [h0] at h
  refine le_trans (le_of_eq ?_) (mul_le_mul_of_nonneg_left h (Real.exp_pos _).le)
  unfold total
  rw [Finset.mul_sum]
  refine Finset.sum_congr rfl fun k _ => ?_
  have hn1 : ‖exp ((I * β k + g / 2) * (z : ℂ))‖ = Real.exp (g / 2 * z) := by
    rw [norm_exp]
    congr 1
    have : (I * β k + g / 2) * (z : ℂ) = ((g / 2 * z : ℝ) : ℂ) + ((β k * z : ℝ) : ℂ) * I := by push_cast; ring
    rw [this]
    simp
  rw [← hn1, ← norm_mul]
  congr 1
  simp only [Pi.sub_apply, slow, fourWave]
  have hx : exp ((I * β k + g / 2) * (z : ℂ)) * exp (-(I * β k + g / 2) * z) = 1 := by
    rw [← exp_add, show (I * β k + g / 2) * (z : ℂ) + -(I * β k + g / 2) * z = 0 by ring, exp_zero]
  rw [hv]
  linear_combination -Gnlse.toFreq (U z) k * hx

theorem toFreq_le {x : Fin n → ℂ} {ε : ℝ} (he : n % 2 = 0) (hε : 0 ≤ ε) (h : ∀ j, ‖x j‖ ≤ ε) (k : Fin n) : ‖Gnlse.toFreq x k‖ ≤ ε := by
  have hn : 0 < n := by have := k.isLt; omega
  have hn' : (0 : ℝ) < n := by exact_mod_cast hn
  have h1 : ‖fftT x k‖ ^ 2 ≤ ε ^ 2 := by
    refine (fftT_le_mean hn he x k).trans ?_
    have h2 : ∑ j, ‖x j‖ ^ 2 ≤ n * ε ^ 2 := by
      refine (Finset.sum_le_card_nsmul _ _ (ε ^ 2) fun j _ => pow_le_pow_left₀ (norm_nonneg _) (h j) 2).trans ?_
      simp
    calc 1 / (n : ℝ) * ∑ j, ‖x j‖ ^ 2 ≤ 1 / (n : ℝ) * (n * ε ^ 2) := mul_le_mul_of_nonneg_left h2 (by positivity)
      _ = ε ^ 2 := by field_simp
  exact abs_le_of_sq_le_sq' h1 hε |>.2

section
variable {polyfit : Fiber.PolyFit} {spline : Fiber.Spline} {o : Obj} {p : Pulse} {F : FibObj} {f1 : Fiber.Fib} {β : Fin p.n → ℝ}
  {g γ fR : ℝ} {R : Fin p.n → ℂ}

/-- C177: the columns of `AW` that `propagate` returns, with the default method and without self-steepening: for every pulse and every fibre,
with or without Raman response and gain, they are the dispersed input plus the sum over all triples, up to the square of the nonlinear phase
and a constant divided by `n_steps⁵`. -/
theorem C177_computed {a : Fin p.n → ℂ} (hp : Holds p a) (he : p.n % 2 = 0) (hcf : p.cf ≠ 0) (h : Loads polyfit spline o p F f1 β g R γ fR)
    {L : ℝ} (hL : F.fib.length = some L) (hpos : 0 < L) (hm : o.method = .rk4ip) (heta : o.eta = 5) (hss : o.disableSS = true) (hdz : 0 < o.dz)
    (hmin : 0 < o.dzMin) (hle : 0 < o.localError) {K : ℝ} (hK : ∀ k, ‖R k‖ ≤ K) (hne : a ≠ 0)
    (hsmall : |γ| * K * Real.exp (|g| * L) * total a ^ 2 * L ≤ 1 / 8) :
    ∃ (N0 : ℕ) (C : ℝ), ∀ N, N0 ≤ N → ∃ r o' F', propagate polyfit spline o p F N false = some (.ok (r, o', F')) ∧ r.AW.length = N ∧
      ∀ i < N, ∃ w : Fin p.n → ℂ, r.AW[i]? = some ⟨p.n, w⟩ ∧
        ∑ k, ‖w k - exp ((I * β k + g / 2) * (((i + 1) * (L / N) : ℝ) : ℂ)) * (a k + fourWave β g R γ a ((i + 1) * (L / N)) k)‖ ≤
          Real.exp (g / 2 * ((i + 1) * (L / N))) * (12 * (|γ| * K * Real.exp (|g| * L) * total a ^ 2 * ((i + 1) * (L / N))) ^ 2 * total a) + C / N ^ 5 := by
  have hW : 0 < total a := by
    obtain ⟨k, hk⟩ := Function.ne_iff.1 hne
    exact (norm_pos_iff.2 hk).trans_le (le_total a k)
  have hfreq : Gnlse.toFreq (ifftT a) = a := fftT_ifftT a
  obtain ⟨U, hU, hU0⟩ := C116_exists β g (raman_real hp he h) γ (ifftT a) (T := L + 1) (by linarith)
  have hU0' : Gnlse.toFreq (U 0) = a := by rw [hU0]; exact hfreq
  obtain ⟨N0, C5, hconv⟩ := C116_converges hp he hcf h hL hpos hm heta hss hdz hmin hle (by linarith : -(L + 1) < 0) (by linarith : L < L + 1) hU
    (by rw [hU0]; exact hp.AT_eq) (by
      rw [hU0]
      intro h0
      refine hne ?_
      rw [← hfreq, h0]
      funext k
      have := congrFun (toFreq_smul 0 (fun _ : Fin p.n => (0 : ℂ))) k
      simp only [zero_mul] at this
      exact this)
  refine ⟨N0 + 1, p.n * C5, fun N hN => ?_⟩
  obtain ⟨r, o', F', hr, hlr, hcol⟩ := hconv N (by omega)
  obtain ⟨-, -, -, -, -, -, -, -, -, -, -, hAT, hlen, -, -⟩ := C43_bookkeeping hr hp he
  refine ⟨r, o', F', hr, by omega, fun i hi => ?_⟩
  obtain ⟨v, hv, herr⟩ := hcol i hi
  refine ⟨Gnlse.toFreq v, AW_column hr hp he hv, ?_⟩
  have hNr : (0 : ℝ) < N := by exact_mod_cast (by omega : 0 < N)
  have hz : ((i : ℝ) + 1) * (L / N) ∈ Icc 0 L := by
    refine ⟨by positivity, ?_⟩
    have : (i : ℝ) + 1 ≤ N := by exact_mod_cast hi
    calc ((i : ℝ) + 1) * (L / N) ≤ N * (L / N) := mul_le_mul_of_nonneg_right this (by positivity)
      _ = L := by field_simp
  have h1 := C177_first_order he β g hK γ hpos (by linarith : -(L + 1) < 0) (by linarith : L < L + 1) hU hW (by rw [hU0']) hsmall hz
  rw [hU0'] at h1
  have hε : 0 ≤ C5 / (N : ℝ) ^ 5 := (norm_nonneg _).trans (herr ⟨0, hp.pos⟩)
  have h2 : ∀ k, ‖Gnlse.toFreq v k - Gnlse.toFreq (U ((i + 1) * (L / N))) k‖ ≤ C5 / (N : ℝ) ^ 5 := by
    intro k
    rw [← toFreq_sub]
    exact toFreq_le he hε (fun j => herr j) k
  have h3 : ∑ k, ‖Gnlse.toFreq v k - Gnlse.toFreq (U ((i + 1) * (L / N))) k‖ ≤ p.n * C5 / (N : ℝ) ^ 5 := by
    refine (Finset.sum_le_card_nsmul _ _ _ fun k _ => h2 k).trans (le_of_eq ?_)
    simp
    ring
  refine le_trans ?_ (add_le_add h1 h3)
  rw [← Finset.sum_add_distrib]
  refine Finset.sum_le_sum fun k _ => ?_
  exact (norm_sub_le_norm_sub_add_norm_sub _ (Gnlse.toFreq (U ((i + 1) * (L / N))) k) _).trans (le_of_eq (add_comm _ _))

end

/-! ## Two lines -/

/-- the contribution of a fibre without gain: its length times `sinc(Δβ·L/2)` -/
theorem norm_stretch (Δ : ℝ) {z : ℝ} (hz : 0 ≤ z) : ‖stretch (I * (Δ : ℂ)) z‖ = z * |Real.sinc (Δ * z / 2)| := by
  unfold stretch
  by_cases hΔ : Δ = 0
  · simp [hΔ, abs_of_nonneg hz]
  · rw [if_neg (by simp [hΔ]), norm_div, mul_assoc, ← ofReal_mul, norm_exp_I_mul_ofReal_sub_one, norm_mul I, norm_I, one_mul, norm_real]
    by_cases hz0 : z = 0
    · simp [hz0]
    · rw [Real.sinc_of_ne_zero (by positivity), abs_div, abs_div, abs_mul, abs_two, abs_of_nonneg hz, norm_mul]
      simp only [Real.norm_eq_abs, abs_two]
      have h1 : |Δ| ≠ 0 := by simpa using hΔ
      field_simp

theorem triples_two (u : Fin n → Fin n → Fin n → Fin n → ℂ) {a : Fin n → ℂ} {c q : Fin n} (hcq : c ≠ q) (ha : ∀ k, k ≠ c → k ≠ q → a k = 0) (m : Fin n) :
    triples u a a a m =
      let t := fun j l s : Fin n => if (n : ℤ) ∣ ((j : ℕ) : ℤ) + ((l : ℕ) : ℤ) - ((m : ℕ) : ℤ) - ((s : ℕ) : ℤ) then u m j l s * (a j * a l * (starRingEnd ℂ) (a s)) else 0
      ((t c c c + t c c q) + (t c q c + t c q q)) + ((t q c c + t q c q) + (t q q c + t q q q)) := by
  extract_lets t
  have h1 : ∀ j l : Fin n, (∑ s, t j l s) = t j l c + t j l q := fun j l =>
    Fintype.sum_eq_add c q hcq fun s hs => by simp only [t, ha s hs.1 hs.2, map_zero, mul_zero, ite_self]
  have h2 : ∀ j : Fin n, (∑ l, ∑ s, t j l s) = (t j c c + t j c q) + (t j q c + t j q q) := by
    intro j
    rw [Fintype.sum_eq_add c q hcq fun l hl => ?_, h1, h1]
    rw [h1]
    simp only [t, ha l hl.1 hl.2, mul_zero, zero_mul, ite_self, add_zero]
  show (∑ j, ∑ l, ∑ s, t j l s) = _
  rw [Fintype.sum_eq_add c q hcq fun j hj => ?_, h2, h2]
  rw [h2]
  simp only [t, ha j hj.1 hj.2, mul_zero, zero_mul, ite_self, add_zero]

/-- differences of two neighbouring lines do not wrap around the grid -/
theorem no_wrap {c q : Fin n} (hcq : c ≠ q) (hnear : 3 * |((c : ℕ) : ℤ) - ((q : ℕ) : ℤ)| < n) {e : ℤ} (he : e ≠ 0) (he3 : |e| ≤ 3) :
    ¬ (n : ℤ) ∣ e * (((c : ℕ) : ℤ) - ((q : ℕ) : ℤ)) := by
  intro h
  have hD : ((c : ℕ) : ℤ) - ((q : ℕ) : ℤ) ≠ 0 := fun h => hcq (Fin.ext (by omega))
  refine mul_ne_zero he hD (Int.eq_zero_of_abs_lt_dvd h ?_)
  rw [abs_mul]
  exact (mul_le_mul_of_nonneg_right he3 (abs_nonneg _)).trans_lt hnear

/-- the line that two lines generate at the frequency `2·c - q` -/
theorem fourWave_idler (β : Fin n → ℝ) (g : ℝ) (R : Fin n → ℂ) (γ : ℝ) {a : Fin n → ℂ} {c q d : Fin n} (hcq : c ≠ q)
    (hnear : 3 * |((c : ℕ) : ℤ) - ((q : ℕ) : ℤ)| < n) (ha : ∀ k, k ≠ c → k ≠ q → a k = 0) (hd : (d : ℕ) + (q : ℕ) = 2 * (c : ℕ)) (z : ℝ) :
    fourWave β g R γ a z d = I * γ * R (beat c q) * stretch (I * ((2 * β c - β q - β d : ℝ) : ℂ) + (g : ℂ)) z * (a c ^ 2 * (starRingEnd ℂ) (a q)) := by
  have hd' : ((d : ℕ) : ℤ) = 2 * ((c : ℕ) : ℤ) - ((q : ℕ) : ℤ) := by omega
  have w : ∀ e : ℤ, e ≠ 0 → |e| ≤ 3 → ∀ x, x = e * (((c : ℕ) : ℤ) - ((q : ℕ) : ℤ)) → ¬ (n : ℤ) ∣ x := fun e h1 h2 x hx => by
    rw [hx]; exact no_wrap hcq hnear h1 h2
  unfold fourWave
  rw [triples_two _ hcq ha]
  simp only
  rw [if_neg (w (-1) (by norm_num) (by norm_num) _ (by rw [hd']; ring)), if_pos (by rw [hd']; exact ⟨0, by ring⟩),
    if_neg (w (-2) (by norm_num) (by norm_num) _ (by rw [hd']; ring)), if_neg (w (-1) (by norm_num) (by norm_num) _ (by rw [hd']; ring)),
    if_neg (w (-2) (by norm_num) (by norm_num) _ (by rw [hd']; ring)), if_neg (w (-1) (by norm_num) (by norm_num) _ (by rw [hd']; ring)),
    if_neg (w (-3) (by norm_num) (by norm_num) _ (by rw [hd']; ring)), if_neg (w (-2) (by norm_num) (by norm_num) _ (by rw [hd']; ring))]
  rw [show β c + β c - β q - β d = 2 * β c - β q - β d by ring]
  ring

/-- what a line receives from itself and from another line -/
theorem fourWave_line (β : Fin n → ℝ) (g : ℝ) (R : Fin n → ℂ) (γ : ℝ) {a : Fin n → ℂ} {c q : Fin n} (hcq : c ≠ q)
    (hnear : 3 * |((c : ℕ) : ℤ) - ((q : ℕ) : ℤ)| < n) (ha : ∀ k, k ≠ c → k ≠ q → a k = 0) (z : ℝ) :
    fourWave β g R γ a z q = I * γ * stretch (g : ℂ) z *
      (R (beat q q) * (‖a q‖ ^ 2 : ℝ) + (R (beat c c) + R (beat q c)) * (‖a c‖ ^ 2 : ℝ)) * a q := by
  have w : ∀ e : ℤ, e ≠ 0 → |e| ≤ 3 → ∀ x, x = e * (((c : ℕ) : ℤ) - ((q : ℕ) : ℤ)) → ¬ (n : ℤ) ∣ x := fun e h1 h2 x hx => by
    rw [hx]; exact no_wrap hcq hnear h1 h2
  have hq : a q * (starRingEnd ℂ) (a q) = ((‖a q‖ ^ 2 : ℝ) : ℂ) := by rw [mul_conj, normSq_eq_norm_sq]
  have hc : a c * (starRingEnd ℂ) (a c) = ((‖a c‖ ^ 2 : ℝ) : ℂ) := by rw [mul_conj, normSq_eq_norm_sq]
  unfold fourWave
  rw [triples_two _ hcq ha]
  simp only
  rw [if_neg (w 1 (by norm_num) (by norm_num) _ (by ring)), if_neg (w 2 (by norm_num) (by norm_num) _ (by ring)),
    if_pos ⟨0, by ring⟩, if_neg (w 1 (by norm_num) (by norm_num) _ (by ring)), if_pos ⟨0, by ring⟩,
    if_neg (w 1 (by norm_num) (by norm_num) _ (by ring)), if_neg (w (-1) (by norm_num) (by norm_num) _ (by ring)), if_pos ⟨0, by ring⟩]
  rw [show β c + β q - β c - β q = 0 by ring, show β q + β c - β c - β q = 0 by ring, show β q + β q - β q - β q = 0 by ring, ← hq, ← hc]
  simp only [ofReal_zero, mul_zero, zero_add]
  ring

/-- two lines generate nothing but the lines at `2·c - q` and `2·q - c` -/
theorem fourWave_dark (β : Fin n → ℝ) (g : ℝ) (R : Fin n → ℂ) (γ : ℝ) {a : Fin n → ℂ} {c q k : Fin n} (hcq : c ≠ q)
    (ha : ∀ k, k ≠ c → k ≠ q → a k = 0) (hkc : k ≠ c) (hkq : k ≠ q) (h1 : ¬ (n : ℤ) ∣ 2 * ((c : ℕ) : ℤ) - ((q : ℕ) : ℤ) - ((k : ℕ) : ℤ))
    (h2 : ¬ (n : ℤ) ∣ 2 * ((q : ℕ) : ℤ) - ((c : ℕ) : ℤ) - ((k : ℕ) : ℤ)) (z : ℝ) : fourWave β g R γ a z k = 0 := by
  have wc : ∀ x, x = ((c : ℕ) : ℤ) - ((k : ℕ) : ℤ) → ¬ (n : ℤ) ∣ x := fun x hx h => hkc (fin_dvd_sub.1 (hx ▸ h)).symm
  have wq : ∀ x, x = ((q : ℕ) : ℤ) - ((k : ℕ) : ℤ) → ¬ (n : ℤ) ∣ x := fun x hx h => hkq (fin_dvd_sub.1 (hx ▸ h)).symm
  have w1 : ∀ x, x = 2 * ((c : ℕ) : ℤ) - ((q : ℕ) : ℤ) - ((k : ℕ) : ℤ) → ¬ (n : ℤ) ∣ x := fun x hx h => h1 (hx ▸ h)
  have w2 : ∀ x, x = 2 * ((q : ℕ) : ℤ) - ((c : ℕ) : ℤ) - ((k : ℕ) : ℤ) → ¬ (n : ℤ) ∣ x := fun x hx h => h2 (hx ▸ h)
  unfold fourWave
  rw [triples_two _ hcq ha]
  simp only
  rw [if_neg (wc _ (by ring)), if_neg (w1 _ (by ring)), if_neg (wq _ (by ring)), if_neg (wc _ (by ring)), if_neg (wq _ (by ring)),
    if_neg (wc _ (by ring)), if_neg (w2 _ (by ring)), if_neg (wq _ (by ring))]
  ring

section
variable {polyfit : Fiber.PolyFit} {spline : Fiber.Spline} {o : Obj} {p : Pulse} {F : FibObj} {f1 : Fiber.Fib} {β : Fin p.n → ℝ}
  {γ fR : ℝ} {R : Fin p.n → ℂ}

/-- C177: two lines in a fibre without Raman scattering and gain.  In every column of `AW`, the line generated at `2·c - q` has the amplitude
`γ·z·|sinc(Δβ·z/2)|·|A_c|²·|A_q|`, the line at `q` has its phase turned by its own power and by twice the power of the other line, and where no
combination of the lines falls nothing appears; all up to the square of the nonlinear phase and a constant divided by `n_steps⁵`. -/
theorem C177_lines {a : Fin p.n → ℂ} (hp : Holds p a) (he : p.n % 2 = 0) (hcf : p.cf ≠ 0) (h : Loads polyfit spline o p F f1 β 0 R γ fR)
    (hram : o.disableRaman = true) {L : ℝ} (hL : F.fib.length = some L) (hpos : 0 < L) (hm : o.method = .rk4ip) (heta : o.eta = 5)
    (hss : o.disableSS = true) (hdz : 0 < o.dz) (hmin : 0 < o.dzMin) (hle : 0 < o.localError) {c q : Fin p.n} (hcq : c ≠ q)
    (hnear : 3 * |((c : ℕ) : ℤ) - ((q : ℕ) : ℤ)| < p.n) (ha : ∀ k, k ≠ c → k ≠ q → a k = 0) (hne : a ≠ 0)
    (hsmall : |γ| * (‖a c‖ + ‖a q‖) ^ 2 * L ≤ 1 / 8) :
    ∃ (N0 : ℕ) (C : ℝ), ∀ N, N0 ≤ N → ∃ r o' F', propagate polyfit spline o p F N false = some (.ok (r, o', F')) ∧ r.AW.length = N ∧
      ∀ i < N, ∃ w : Fin p.n → ℂ, r.AW[i]? = some ⟨p.n, w⟩ ∧ ∀ z ε : ℝ, z = (i + 1) * (L / N) →
        ε = 12 * (|γ| * (‖a c‖ + ‖a q‖) ^ 2 * z) ^ 2 * (‖a c‖ + ‖a q‖) + C / N ^ 5 →
        (∀ d : Fin p.n, (d : ℕ) + (q : ℕ) = 2 * (c : ℕ) →
          |‖w d‖ - |γ| * (z * |Real.sinc ((2 * β c - β q - β d) * z / 2)|) * ‖a c‖ ^ 2 * ‖a q‖| ≤ ε) ∧
        ‖w q - exp (I * β q * z) * (1 + I * ((γ * (‖a q‖ ^ 2 + 2 * ‖a c‖ ^ 2) * z : ℝ) : ℂ)) * a q‖ ≤ ε ∧
        ∀ k, k ≠ c → k ≠ q → ¬ (p.n : ℤ) ∣ 2 * ((c : ℕ) : ℤ) - ((q : ℕ) : ℤ) - ((k : ℕ) : ℤ) →
          ¬ (p.n : ℤ) ∣ 2 * ((q : ℕ) : ℤ) - ((c : ℕ) : ℤ) - ((k : ℕ) : ℤ) → ‖w k‖ ≤ ε := by
  have hR := h.raman_off hram
  subst hR
  have htot : total a = ‖a c‖ + ‖a q‖ := Fintype.sum_eq_add c q hcq fun k hk => by rw [ha k hk.1 hk.2, norm_zero]
  obtain ⟨N0, C, hN0⟩ := C177_computed hp he hcf h hL hpos hm heta hss hdz hmin hle (K := 1) (fun _ => by simp) hne (by rw [htot]; simpa using hsmall)
  refine ⟨N0 + 1, C, fun N hN => ?_⟩
  obtain ⟨r, o', F', hr, hlr, hcol⟩ := hN0 N (by omega)
  refine ⟨r, o', F', hr, hlr, fun i hi => ?_⟩
  obtain ⟨w, hw, herr⟩ := hcol i hi
  refine ⟨w, hw, fun z ε hz hε => ?_⟩
  rw [← hz] at herr
  simp only [abs_zero, zero_mul, zero_div, Real.exp_zero, mul_one, one_mul, ofReal_zero, add_zero, htot] at herr
  rw [← hε] at herr
  have hNr : (0 : ℝ) < N := by exact_mod_cast (by omega : 0 < N)
  have hz0 : 0 ≤ z := by rw [hz]; positivity
  have hbin : ∀ k, ‖w k - exp (I * β k * z) * (a k + fourWave β 0 (fun _ => 1) γ a z k)‖ ≤ ε := fun k =>
    (Finset.single_le_sum (f := fun k => ‖w k - exp (I * β k * z) * (a k + fourWave β 0 (fun _ => 1) γ a z k)‖) (fun _ _ => norm_nonneg _)
      (Finset.mem_univ k)).trans herr
  have hexp : ∀ k, ‖exp (I * β k * (z : ℂ))‖ = 1 := fun k => by
    rw [show I * (β k : ℂ) * z = ((β k * z : ℝ) : ℂ) * I by push_cast; ring, norm_exp_ofReal_mul_I]
  refine ⟨fun d hd => ?_, ?_, fun k hkc hkq h1 h2 => ?_⟩
  · have hdc : d ≠ c := fun hh => hcq (Fin.ext (by rw [hh] at hd; omega))
    have hdq : d ≠ q := fun hh => hcq (Fin.ext (by rw [hh] at hd; omega))
    have h1 := hbin d
    rw [ha d hdc hdq, zero_add, fourWave_idler β 0 _ γ hcq hnear ha hd, ofReal_zero, add_zero] at h1
    have h2 := (abs_norm_sub_norm_le _ _).trans h1
    rw [norm_mul, hexp, one_mul, norm_mul, norm_mul, norm_stretch _ hz0, norm_mul (a c ^ 2), norm_pow, RCLike.norm_conj, mul_one, norm_mul, norm_I, one_mul,
      norm_real, Real.norm_eq_abs] at h2
    rw [show |γ| * (z * |Real.sinc ((2 * β c - β q - β d) * z / 2)|) * ‖a c‖ ^ 2 * ‖a q‖ =
      |γ| * (z * |Real.sinc ((2 * β c - β q - β d) * z / 2)|) * (‖a c‖ ^ 2 * ‖a q‖) by ring]
    exact h2
  · have h1 := hbin q
    rw [fourWave_line β 0 _ γ hcq hnear ha] at h1
    have hs : stretch ((0 : ℝ) : ℂ) z = z := by unfold stretch; simp
    rw [hs] at h1
    have e : exp (I * β q * z) * (1 + I * ((γ * (‖a q‖ ^ 2 + 2 * ‖a c‖ ^ 2) * z : ℝ) : ℂ)) * a q =
        exp (I * β q * z) * (a q + I * γ * z * (1 * ((‖a q‖ ^ 2 : ℝ) : ℂ) + (1 + 1) * ((‖a c‖ ^ 2 : ℝ) : ℂ)) * a q) := by
      push_cast
      ring
    rw [e]
    exact h1
  · have h3 := hbin k
    rw [ha k hkc hkq, fourWave_dark β 0 _ γ hcq ha hkc hkq h1 h2, add_zero, mul_zero, sub_zero] at h3
    exact h3

end

/-- C177: a pulse of two lines in a generated fibre with second-order dispersion: the mismatch is the dispersion times the square of the
distance of the lines. -/
theorem C177_fiber (polyfit : Fiber.PolyFit) (spline : Fiber.Spline) {β₂ γ L wl T : ℝ} (frep : ℝ) (label : String) (hL : 0 < L) (hwl : 1 < wl) (hT : 0 < T)
    (hn : 4 ≤ n) (he : n % 2 = 0) {c q d : Fin n} (hd : (d : ℕ) + (q : ℕ) = 2 * (c : ℕ)) (hcq : c ≠ q)
    (hnear : 3 * |((c : ℕ) : ℤ) - ((q : ℕ) : ℤ)| < n) {A B : ℂ} (hA : A ≠ 0) (hsmall : |γ| * (‖A‖ + ‖B‖) ^ 2 * L ≤ 1 / 8) (b : Fin n → ℂ) :
    ∃ p : Pulse, setAW ⟨n, fun k => if k = c then A else if k = q then B else 0⟩ { base (some frep) wl T n with aw := some ⟨n, b⟩ } = (.ok (), p) ∧
    ∃ (N0 : ℕ) (C : ℝ), ∀ N, N0 ≤ N → ∃ r o' F',
      propagate polyfit spline plain p ⟨Fiber.genFib L wl ⟨1, fun _ => β₂⟩ γ 0 "ps^n/m" label Fiber.Fib.new, Fiber.genSpecs 0⟩ N false = some (.ok (r, o', F')) ∧
      ∀ i < N, ∃ w : Fin n → ℂ, r.AW[i]? = some ⟨n, w⟩ ∧ ∀ z : ℝ, z = (i + 1) * (L / N) →
        |‖w d‖ - |γ| * (z * |Real.sinc (β₂ * (2 * Real.pi * (((q : ℕ) : ℝ) - ((c : ℕ) : ℝ)) / T) ^ 2 * z / 2)|) * ‖A‖ ^ 2 * ‖B‖| ≤
          12 * (|γ| * (‖A‖ + ‖B‖) ^ 2 * z) ^ 2 * (‖A‖ + ‖B‖) + C / N ^ 5 := by
  set a : Fin n → ℂ := fun k => if k = c then A else if k = q then B else 0 with ha
  have hac : a c = A := if_pos rfl
  have haq : a q = B := by simp [ha, hcq.symm]
  set p : Pulse := { base (some frep) wl T n with aw := some ⟨n, a⟩ } with hp
  have hold : Holds p a := base_holds (some frep) wl T (by omega) a
  have hb : Holds { base (some frep) wl T n with aw := some ⟨n, b⟩ } b := base_holds (some frep) wl T (by omega) b
  refine ⟨p, hb.setAW_eq a, ?_⟩
  have hwl0 : wl ≠ 0 := by linarith
  have hcw : p.cf ≠ 0 := div_ne_zero (by norm_num [cNmps, cMks]) hwl0
  have hload := C132_fiber polyfit spline plain (p := p) hold hn he hT.ne' rfl (length := L) (gamma := γ)
    (gain := 0) (b := fun _ : Fin 1 => β₂) (units := "ps^n/m") (label := label) (by decide) hwl0
  have hd0 : 2 * Real.pi * p.cf - 2 * Real.pi * cNmps / wl = 0 := by
    show 2 * Real.pi * (cNmps / wl) - 2 * Real.pi * cNmps / wl = 0
    ring
  rw [hd0] at hload
  have hβ : ∀ k : Fin n, (fiberPoly (fun _ : Fin 1 => β₂) 0 p.tw).eval (2 * Real.pi * ((k : ℕ) - (p.n : ℝ) / 2) / p.tw) =
      β₂ / 2 * (2 * Real.pi * ((k : ℕ) - (n : ℝ) / 2) / T) ^ 2 := by
    intro k
    rw [fiberPoly_second, Polynomial.eval_mul, Polynomial.eval_C, Polynomial.eval_pow, Polynomial.eval_X]
    rfl
  obtain ⟨N0, C, hN0⟩ := C177_lines (p := p) (c := c) (q := q) hold he hcw hload rfl rfl hL rfl rfl rfl (by norm_num [plain, Obj.default])
    (by norm_num [plain, Obj.default]) (by norm_num [plain, Obj.default]) hcq hnear (fun k h1 h2 => (if_neg h1).trans (if_neg h2))
    (fun h0 => hA (by rw [← hac, h0]; rfl)) (by rw [hac, haq]; exact hsmall)
  refine ⟨N0, C, fun N hN => ?_⟩
  obtain ⟨r, o', F', hr, -, hcol⟩ := hN0 N hN
  refine ⟨r, o', F', hr, fun i hi => ?_⟩
  obtain ⟨w, hw, hall⟩ := hcol i hi
  refine ⟨w, hw, fun z hz => ?_⟩
  have h1 := (hall z _ hz rfl).1 d hd
  rw [hac, haq] at h1
  have hd' : ((d : ℕ) : ℝ) = 2 * ((c : ℕ) : ℝ) - ((q : ℕ) : ℝ) := by
    have : ((d : ℕ) : ℝ) + ((q : ℕ) : ℝ) = 2 * ((c : ℕ) : ℝ) := by exact_mod_cast hd
    linarith
  have e : (2 * (fiberPoly (fun _ : Fin 1 => β₂) 0 p.tw).eval (2 * Real.pi * ((c : ℕ) - (p.n : ℝ) / 2) / p.tw) -
      (fiberPoly (fun _ : Fin 1 => β₂) 0 p.tw).eval (2 * Real.pi * ((q : ℕ) - (p.n : ℝ) / 2) / p.tw) -
      (fiberPoly (fun _ : Fin 1 => β₂) 0 p.tw).eval (2 * Real.pi * ((d : ℕ) - (p.n : ℝ) / 2) / p.tw)) * z / 2 =
      -(β₂ * (2 * Real.pi * (((q : ℕ) : ℝ) - ((c : ℕ) : ℝ)) / T) ^ 2 * z / 2) := by
    rw [hβ, hβ, hβ, hd']
    ring
  rw [e, Real.sinc_neg] at h1
  exact h1

/-- C177 applies: pump and signal next to each other on sixteen points in a window `2π` -/
theorem C177_nonvacuous (polyfit : Fiber.PolyFit) (spline : Fiber.Spline) (frep : ℝ) (label : String) (b : Fin 16 → ℂ) :
    ∃ p : Pulse, setAW ⟨16, fun k => if k = 8 then 1 else if k = 9 then (1 / 2 : ℂ) else 0⟩ { base (some frep) 1550 (2 * Real.pi) 16 with aw := some ⟨16, b⟩ } = (.ok (), p) ∧
    ∃ (N0 : ℕ) (C : ℝ), ∀ N, N0 ≤ N → ∃ r o' F',
      propagate polyfit spline plain p ⟨Fiber.genFib 1 1550 ⟨1, fun _ => -1⟩ (1 / 1000) 0 "ps^n/m" label Fiber.Fib.new, Fiber.genSpecs 0⟩ N false =
        some (.ok (r, o', F')) ∧
      ∃ w : Fin 16 → ℂ, r.AW[N - 1]? = some ⟨16, w⟩ ∧ 3 / 10000 - C / N ^ 5 ≤ ‖w 7‖ := by
  obtain ⟨p, hp, N0, C, hN0⟩ := C177_fiber (n := 16) polyfit spline (β₂ := -1) (γ := 1 / 1000) (L := 1) (wl := 1550) (T := 2 * Real.pi) frep label
    (by norm_num) (by norm_num) (by positivity) (by norm_num) (by norm_num) (c := 8) (q := 9) (d := 7) (by decide) (by decide) (by decide)
    (A := 1) (B := 1 / 2) one_ne_zero (by norm_num) b
  refine ⟨p, hp, N0 + 1, C, fun N hN => ?_⟩
  obtain ⟨r, o', F', hr, hcol⟩ := hN0 N (by omega)
  refine ⟨r, o', F', hr, ?_⟩
  obtain ⟨w, hw, hall⟩ := hcol (N - 1) (by omega)
  refine ⟨w, hw, ?_⟩
  have hN1 : ((N - 1 : ℕ) : ℝ) + 1 = N := by exact_mod_cast (by omega : N - 1 + 1 = N)
  have hNr : (N : ℝ) ≠ 0 := by exact_mod_cast (by omega : N ≠ 0)
  have h1 := hall 1 (by rw [hN1]; field_simp)
  have hpi := Real.pi_ne_zero
  have e : (-1 : ℝ) * (2 * Real.pi * ((((9 : Fin 16) : ℕ) : ℝ) - (((8 : Fin 16) : ℕ) : ℝ)) / (2 * Real.pi)) ^ 2 * 1 / 2 = -(1 / 2) := by
    have h9 : (((9 : Fin 16) : ℕ) : ℝ) - (((8 : Fin 16) : ℕ) : ℝ) = 1 := by
      show ((9 : ℕ) : ℝ) - ((8 : ℕ) : ℝ) = 1
      norm_num
    rw [h9]
    field_simp
  rw [e, Real.sinc_neg] at h1
  have hs : (15 / 16 : ℝ) ≤ Real.sinc (1 / 2) := by
    rw [Real.sinc_of_ne_zero (by norm_num), le_div_iff₀ (by norm_num)]
    have := Real.sin_gt_sub_cube (x := 1 / 2) (by norm_num)
    linarith
  rw [abs_of_nonneg (by linarith : 0 ≤ Real.sinc (1 / 2))] at h1
  have hA : ‖(1 : ℂ)‖ = 1 := norm_one
  have hB : ‖(1 / 2 : ℂ)‖ = 1 / 2 := by norm_num
  rw [hA, hB, abs_of_pos (by norm_num : (0 : ℝ) < 1 / 1000)] at h1
  have h2 := (abs_le.1 h1).1
  norm_num at h2 ⊢
  linarith

end PyNLO.FourWave
