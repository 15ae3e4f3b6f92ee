import Verif.Props.Treacy
import Verif.Lemmas.LeastSquares
import Mathlib.MeasureTheory.Integral.IntervalIntegral.FundThmCalculus
import Mathlib.Analysis.InnerProductSpace.Projection.Basic
import Mathlib.Analysis.InnerProductSpace.PiL2
import Mathlib.Analysis.Real.Pi.Bounds

/-! # The delay left by the grating compressor (C97) -/

namespace PyNLO.Treacy

open Real Filter Topology

/-- The quadrature returns the integral of every continuous function. -/
def ExactQuad (quad : (ℝ → NFlt) → ℝ → ℝ → ℝ) : Prop :=
  ∀ (F : ℝ → NFlt) (f : ℝ → ℝ) (a b : ℝ), (∀ x ∈ Set.uIcc a b, F x = .val (f x)) → ContinuousOn f (Set.uIcc a b) →
    quad F a b = ∫ x in a..b, f x

/-- The fit returns the least-squares parabola (its residuals are orthogonal to `1`, `x`, `x²`) for three or more
points. -/
def LsqFit (polyfit : Vec ℝ → Vec ℝ → Except PyErr (ℝ × ℝ × ℝ)) : Prop :=
  ∀ (N : ℕ) (x y : Fin N → ℝ), 3 ≤ N → StrictMono x → ∃ a b c, polyfit ⟨N, x⟩ ⟨N, y⟩ = .ok (a, b, c) ∧
    (∑ i, (y i - (a * x i ^ 2 + b * x i + c)) = 0) ∧ (∑ i, (y i - (a * x i ^ 2 + b * x i + c)) * x i = 0) ∧
    (∑ i, (y i - (a * x i ^ 2 + b * x i + c)) * x i ^ 2 = 0)

theorem isOpen_diffracts (t : T) : IsOpen {x | Diffracts t x} :=
  isOpen_iff_mem_nhds.mpr fun _ hx => Diffracts.near hx

theorem Diffracts.between {t : T} {x y z : ℝ} (hx : Diffracts t x) (hy : Diffracts t y) (h1 : x ≤ z) (h2 : z ≤ y) :
    Diffracts t z := by
  have hc : (0 : ℝ) < cMks := by norm_num [cMks]
  have hz : 0 < z := hx.pos.trans_le h1
  have p := hx.pos
  have p' := hy.pos
  obtain ⟨hd, -, a1, a2⟩ := hx
  obtain ⟨-, -, b1, b2⟩ := hy
  rw [sine_lOfW] at a1 a2 b1 b2
  have e : ∀ w, 2 * π * cMks / (w * t.d) = 2 * π * cMks / t.d * w⁻¹ := by
    intro w; rw [div_mul_eq_div_div, div_right_comm, div_eq_mul_inv _ w]
  rw [e] at a1 a2 b1 b2
  have i1 : y⁻¹ ≤ z⁻¹ := inv_anti₀ hz h2
  have i2 : z⁻¹ ≤ x⁻¹ := inv_anti₀ p h1
  refine ⟨hd, hz, ?_, ?_⟩ <;> rw [sine_lOfW, e] <;> generalize 2 * π * cMks / t.d = K at * <;>
    rcases le_total 0 K with hK | hK
  · nlinarith [mul_le_mul_of_nonneg_left i1 hK]
  · nlinarith [mul_le_mul_of_nonpos_left i2 hK]
  · nlinarith [mul_le_mul_of_nonneg_left i2 hK]
  · nlinarith [mul_le_mul_of_nonpos_left i1 hK]

/-- The angular frequency of bin `k` of a pulse, rad/s. -/
noncomputable def binW (p : Pulse) (k : ℕ) : ℝ := (2 * π * ((k : ℝ) - (p.n : ℝ) / 2) / p.tw + 2 * π * p.cf) * 10 ^ 12

/-- Its centre frequency, rad/s. -/
noncomputable def midW (p : Pulse) : ℝ := 2 * π * p.cf * 10 ^ 12

section
open PyM

/-- C97: with an exact quadrature and a least-squares fit, the phase added to bin `k` is `Φ(ω_k)` for a `Φ` whose slope at
the centre frequency, the delay given to the pulse, is positive: the delay `2 τ(ω₀)` of the two passes is not removed.
`hsmall` is a statement about magnitudes (the group delay dispersion of a grating pair, about `1e-24`, is below its delay,
about `1e-9`, in SI units). -/
theorem C97_delay_left {strF : ℝ → String} {quad : (ℝ → NFlt) → ℝ → ℝ → ℝ}
    {polyfit : Vec ℝ → Vec ℝ → Except PyErr (ℝ × ℝ × ℝ)} (hq : ExactQuad quad) (hf : LsqFit polyfit) {t : T} {G : ℝ}
    {p : Pulse} {n : ℕ} {a : Fin n → ℂ} (h : p.Holds a) (hn : 3 ≤ n) (htw : 0 < p.tw)
    (hcache : p.wKey ≠ some (Pulse.cacheHash strF p)) (hlo : Diffracts t (binW p 0)) (hhi : Diffracts t (binW p (n - 1)))
    (hsmall : ∀ ω ∈ Set.Icc (binW p 0) (binW p (n - 1)), -t.tau' G ω < t.tau G (midW p)) :
    ∃ s : ℝ, (t.phase strF quad polyfit G p).1 =
        .ok ⟨n, fun k => (∫ x in (midW p)..(binW p k), 2 * t.tau G x) + (binW p k - midW p) * s⟩ ∧
      HasDerivAt (fun ω => (∫ x in (midW p)..ω, 2 * t.tau G x) + (ω - midW p) * s) (2 * t.tau G (midW p) + s) (midW p) ∧
      0 < 2 * t.tau G (midW p) + s := by
  obtain rfl := h.npts
  have hn0 : (0 : ℝ) < p.n := by exact_mod_cast h.pos
  have hmono : ∀ i j : ℝ, i < j → (2 * π * (i - (p.n : ℝ) / 2) / p.tw + 2 * π * p.cf) * 10 ^ 12 <
      (2 * π * (j - (p.n : ℝ) / 2) / p.tw + 2 * π * p.cf) * 10 ^ 12 := by
    intro i j hij
    have : 2 * π * (i - (p.n : ℝ) / 2) < 2 * π * (j - (p.n : ℝ) / 2) := by
      have := pi_pos; nlinarith
    gcongr
  have hstrict : StrictMono fun k : Fin p.n => binW p k := by
    intro i j hij
    exact hmono _ _ (by exact_mod_cast hij)
  have hlast : ((p.n - 1 : ℕ) : ℝ) = p.n - 1 := by
    rw [Nat.cast_sub (by omega)]; simp
  have hmem : ∀ k : Fin p.n, binW p k ∈ Set.Icc (binW p 0) (binW p (p.n - 1)) := by
    intro k
    constructor
    · rcases Nat.eq_zero_or_pos k with e | e
      · rw [e]
      · exact (hmono _ _ (by exact_mod_cast e)).le
    · have hk := k.isLt
      rcases Nat.lt_or_ge k (p.n - 1) with e | e
      · exact (hmono _ _ (by exact_mod_cast e)).le
      · rw [show (k : ℕ) = p.n - 1 by omega]
  have hmid : midW p ∈ Set.Icc (binW p 0) (binW p (p.n - 1)) := by
    have e : midW p = (2 * π * ((p.n : ℝ) / 2 - (p.n : ℝ) / 2) / p.tw + 2 * π * p.cf) * 10 ^ 12 := by
      simp [midW]
    rw [e]
    constructor
    · exact (hmono (0 : ℕ) _ (by simpa using hn0)).le
    · refine (hmono _ ((p.n - 1 : ℕ) : ℝ) ?_).le
      rw [hlast]
      have : (3 : ℝ) ≤ p.n := by exact_mod_cast hn
      linarith
  have hD : ∀ ω ∈ Set.Icc (binW p 0) (binW p (p.n - 1)), Diffracts t ω := fun ω hω => hlo.between hhi hω.1 hω.2
  have hDm := hD _ hmid
  have hcont : ∀ y, Diffracts t y → ContinuousOn (fun x => 2 * t.tau G x) (Set.uIcc (midW p) y) := by
    intro y hy x hx
    have : Diffracts t x := by
      rcases Set.mem_uIcc.mp hx with hx | hx
      · exact hDm.between hy hx.1 hx.2
      · exact hy.between hDm hx.1 hx.2
    exact ((this.hasDerivAt G).continuousAt.const_mul 2).continuousWithinAt
  have hder : ∀ y ∈ {x | Diffracts t x}, HasDerivAt (fun ω => ∫ x in (midW p)..ω, 2 * t.tau G x) (2 * t.tau G y) y := by
    intro y hy
    apply intervalIntegral.integral_hasDerivAt_right (hcont y hy).intervalIntegrable
    · refine ContinuousOn.stronglyMeasurableAtFilter (isOpen_diffracts t) (fun x hx => ?_) y hy
      exact ((Diffracts.hasDerivAt hx G).continuousAt.const_mul 2).continuousWithinAt
    · exact (Diffracts.hasDerivAt hy G).continuousAt.const_mul 2
  -- the phase returned by the quadrature
  have hquad : ∀ k : Fin p.n, quad (fun x => (t.dphi x G).map (2 * ·)) (p.cf * 2 * π * 1.0e12) (binW p k) =
      ∫ x in (midW p)..(binW p k), 2 * t.tau G x := by
    intro k
    rw [show (p.cf * 2 * π * 1.0e12 : ℝ) = midW p by simp only [midW]; norm_num; ring]
    refine hq _ _ _ _ (fun x hx => ?_) (hcont _ (hD _ (hmem k)))
    have : Diffracts t x := by
      rcases Set.mem_uIcc.mp hx with hx | hx
      · exact hDm.between (hD _ (hmem k)) hx.1 hx.2
      · exact (hD _ (hmem k)).between hDm hx.1 hx.2
    rw [this.dphi]
    rfl
  obtain ⟨c2, c1, c0, hfit, e0, e1, e2⟩ := hf p.n (fun k => binW p k)
    (fun k => ∫ x in (midW p)..(binW p k), 2 * t.tau G x) hn hstrict
  obtain ⟨y, hy, hle⟩ := lsq_leading hn hstrict (convex_Icc _ _) hmem (isOpen_diffracts t) hD hder
    (fun y hy => (Diffracts.hasDerivAt hy G).const_mul 2) e0 e1 e2
  refine ⟨2 * c2, ?_, ?_, ?_⟩
  · have hgrid : (Pulse.wGrid (p.cf, p.n) p.tw).map (· * 10 ^ 12) = ⟨p.n, fun k => binW p k⟩ := by
      simp only [Pulse.wGrid, Vec.map_mk, binW]
      congr 1
      funext k
      congr 2
      field_simp
      ring
    have hW := Pulse.W_mks_miss (strF := strF) h.ready hcache
    rw [hgrid] at hW
    have hW2 := Pulse.W_mks_hit (strF := strF)
      (p := { p with wKey := some (Pulse.cacheHash strF p), wVal := some ⟨p.n, fun k => binW p k⟩ })
      (v := ⟨p.n, fun k => binW p k⟩) rfl rfl
    have hq' : ({ p with wKey := some (Pulse.cacheHash strF p), wVal := some ⟨p.n, fun k => binW p k⟩ } : Pulse).Holds a :=
      ⟨h.ready, rfl, h.pos, h.field⟩
    have hV := hq'.V_eq
    have hph : (⟨p.n, fun k => binW p k⟩ : Vec ℝ).map (quad (fun x => (t.dphi x G).map (2 * ·)) (p.cf * 2 * π * 1.0e12)) =
        ⟨p.n, fun k => ∫ x in (midW p)..(binW p k), 2 * t.tau G x⟩ := by
      rw [Vec.map_mk]
      congr 1
      funext k
      exact hquad k
    unfold T.phase
    simp only [bind_apply, get_apply, hW, hW2, hph, hfit, lift_apply, read_apply, Pulse.V_mks, hV, except_bind_ok, Vec.map_mk,
      Vec.zip_mk]
    congr 2
    funext k
    congr 1
    simp only [binW, midW]
    ring
  · refine ((hder _ hDm).add (((hasDerivAt_id (midW p)).sub_const (midW p)).mul_const (2 * c2))).congr_deriv ?_
    simp
  · have := hsmall y hy
    linarith

end

theorem exactQuad_exists : ∃ quad, ExactQuad quad := by
  refine ⟨fun F a b => ∫ x in a..b, (match F x with | .bad => 0 | .val v => v), fun F f a b h _ => ?_⟩
  exact intervalIntegral.integral_congr fun x hx => by simp only [h x hx]

theorem lsqFit_exists : ∃ fit, LsqFit fit := by
  have key : ∀ (N : ℕ) (x y : Fin N → ℝ), ∃ a : ℝ × ℝ × ℝ,
      (∑ i, (y i - (a.1 * x i ^ 2 + a.2.1 * x i + a.2.2)) = 0) ∧
      (∑ i, (y i - (a.1 * x i ^ 2 + a.2.1 * x i + a.2.2)) * x i = 0) ∧
      (∑ i, (y i - (a.1 * x i ^ 2 + a.2.1 * x i + a.2.2)) * x i ^ 2 = 0) := by
    intro N x y
    let e : Fin 3 → EuclideanSpace ℝ (Fin N) := ![WithLp.toLp 2 fun i => x i ^ 2, WithLp.toLp 2 x, WithLp.toLp 2 fun _ => 1]
    let K := Submodule.span ℝ (Set.range e)
    let v : EuclideanSpace ℝ (Fin N) := WithLp.toLp 2 y
    have hm : (K.starProjection v) ∈ K := Submodule.starProjection_apply_mem K v
    obtain ⟨c, hc⟩ := (Submodule.mem_span_range_iff_exists_fun ℝ).mp hm
    have ho : ∀ j, inner ℝ (v - K.starProjection v) (e j) = 0 := fun j =>
      Submodule.starProjection_inner_eq_zero v (e j) (Submodule.subset_span ⟨j, rfl⟩)
    rw [← hc] at ho
    refine ⟨(c 0, c 1, c 2), ?_, ?_, ?_⟩
    · have := ho 2
      simpa [e, v, PiLp.inner_apply, Fin.sum_univ_three] using this
    · have := ho 1
      simp [e, v, PiLp.inner_apply, Fin.sum_univ_three] at this
      rw [← this]
      exact Finset.sum_congr rfl fun i _ => mul_comm _ _
    · have := ho 0
      simp [e, v, PiLp.inner_apply, Fin.sum_univ_three] at this
      rw [← this]
      exact Finset.sum_congr rfl fun i _ => mul_comm _ _
  choose a h0 h1 h2 using key
  classical
  refine ⟨fun X Y => if h : Y.len = X.len then .ok (a X.len X.val fun i => Y.val (i.cast h.symm)) else .error .TypeError,
    fun N x y _ _ => ⟨(a N x y).1, (a N x y).2.1, (a N x y).2.2, ?_, h0 N x y, h1 N x y, h2 N x y⟩⟩
  simp

/-- A grating of 1000 lines per millimetre at normal incidence and a pulse at 500 nm. -/
noncomputable def exT : T := ⟨1 / 10 ^ 6, 0⟩

noncomputable def exP : Pulse :=
  { Pulse.blank with n := 4, ready := true, cf := 600, tw := 1, aw := some ⟨4, fun _ => 1⟩ }

theorem exT_sine {f : ℝ} : exT.sine (lOfW (2 * π * f * 10 ^ 12)) = cMks / (f * 10 ^ 6) := by
  rw [sine_lOfW]
  have := pi_pos
  simp only [exT, sin_zero, sub_zero]
  by_cases hf : f = 0
  · simp [hf]
  · field_simp

theorem exT_sine_mem {f : ℝ} (h1 : 598 ≤ f) :
    0 < exT.sine (lOfW (2 * π * f * 10 ^ 12)) ∧ exT.sine (lOfW (2 * π * f * 10 ^ 12)) ≤ 51 / 100 := by
  rw [exT_sine]
  constructor
  · have : (0 : ℝ) < cMks := by norm_num [cMks]
    positivity
  · rw [div_le_div_iff₀ (by positivity) (by norm_num)]
    norm_num [cMks]
    linarith

theorem exT_diffracts {f : ℝ} (h1 : 598 ≤ f) : Diffracts exT (2 * π * f * 10 ^ 12) := by
  have hs := exT_sine_mem h1
  have := pi_pos
  exact ⟨by norm_num [exT], by positivity, (by norm_num : (-1 : ℝ) < 0).trans hs.1, hs.2.trans_lt (by norm_num)⟩

theorem exP_small : ∀ ω ∈ Set.Icc (binW exP 0) (binW exP (4 - 1)), -exT.tau' 1 ω < exT.tau 1 (midW exP) := by
  intro ω hω
  have hpi := pi_pos
  have hpi3 := pi_gt_three
  have hc : (0 : ℝ) < cMks := by norm_num [cMks]
  obtain ⟨f, rfl⟩ : ∃ f, ω = 2 * π * f * 10 ^ 12 := ⟨ω / (2 * π * 10 ^ 12), by field_simp⟩
  have hf : 598 ≤ f := by
    have h := hω.1
    simp only [binW, exP] at h
    norm_num at h
    have : 2 * π * 598 ≤ 2 * π * f := by linarith
    exact le_of_mul_le_mul_left this (by positivity)
  have hs := exT_sine_mem hf
  have hmid : midW exP = 2 * π * 600 * 10 ^ 12 := by simp [midW, exP]
  -- the delay
  have htau : 1 / cMks ≤ exT.tau 1 (midW exP) := by
    rw [hmid]
    have h0 := exT_sine_mem (f := 600) (by norm_num)
    have hd := exT_diffracts (f := 600) (by norm_num)
    have hS : 0 < √(1 - exT.sine (lOfW (2 * π * 600 * 10 ^ 12)) ^ 2) := sqrt_pos.mpr hd.one_sub
    simp only [T.tau, T.dphiOf, exT, zero_sub, cos_neg]
    rw [← exT, cos_arcsin]
    generalize √(1 - exT.sine (lOfW (2 * π * 600 * 10 ^ 12)) ^ 2) = S at *
    rw [div_le_div_iff₀ hc hc]
    have : 1 ≤ 1 / S * (1 + S) := by
      rw [div_mul_eq_mul_div, le_div_iff₀ hS]
      linarith
    nlinarith
  refine lt_of_lt_of_le ?_ htau
  have hS : 1 / 2 ≤ √(1 - exT.sine (lOfW (2 * π * f * 10 ^ 12)) ^ 2) := by
    apply le_sqrt_of_sq_le
    generalize exT.sine (lOfW (2 * π * f * 10 ^ 12)) = u at hs
    nlinarith [hs.1, hs.2]
  have hS3 : 1 / 8 ≤ √(1 - exT.sine (lOfW (2 * π * f * 10 ^ 12)) ^ 2) ^ 3 := by
    calc (1 / 8 : ℝ) = (1 / 2) ^ 3 := by norm_num
      _ ≤ _ := by gcongr
  have hf3 : (100 : ℝ) ^ 3 ≤ f ^ 3 := by gcongr; linarith
  rw [T.tau']
  generalize √(1 - exT.sine (lOfW (2 * π * f * 10 ^ 12)) ^ 2) ^ 3 = S at *
  rw [neg_div, neg_neg, div_lt_div_iff₀ (by simp only [exT]; positivity) hc]
  have e : (2 * π * f * 10 ^ 12) ^ 3 * exT.d ^ 2 * S = π ^ 2 * (8 * π * 10 ^ 24 * (f ^ 3 * S)) := by
    simp only [exT]
    field_simp
    norm_num
  rw [e]
  have hfS : (100 : ℝ) ^ 3 * (1 / 8) ≤ f ^ 3 * S := by gcongr
  have hc2 : cMks ^ 2 ≤ 10 ^ 18 := by norm_num [cMks]
  have : 4 * cMks ^ 2 < 8 * π * 10 ^ 24 * (f ^ 3 * S) := by
    calc 4 * cMks ^ 2 ≤ 4 * 10 ^ 18 := by linarith
      _ < 8 * 3 * 10 ^ 24 * (100 ^ 3 * (1 / 8)) := by norm_num
      _ ≤ _ := by gcongr
  nlinarith [mul_lt_mul_of_pos_left this (by positivity : 0 < π ^ 2)]

/-- C97 is refuted: with 1000 lines per millimetre, normal incidence, one metre between the gratings and a 500 nm pulse,
an exact quadrature and an exact least-squares fit, the phase added still has a positive slope at the centre frequency. -/
theorem C97_delay_refuted (strF : ℝ → String) : T.init 1000 0 = .ok exT ∧ exP.Holds (fun _ : Fin 4 => 1) ∧
    (∃ quad, ExactQuad quad) ∧ (∃ fit, LsqFit fit) ∧
    ∀ quad fit, ExactQuad quad → LsqFit fit → ∃ Φ : ℝ → ℝ, ∃ v, 0 < v ∧ HasDerivAt Φ v (midW exP) ∧
      (∃ s, ∀ ω, Φ ω = (∫ x in (midW exP)..ω, 2 * exT.tau 1 x) + (ω - midW exP) * s) ∧
      (exT.phase strF quad fit 1 exP).1 = .ok ⟨4, fun k => Φ (binW exP k)⟩ := by
  have hH : exP.Holds (fun _ : Fin 4 => (1 : ℂ)) := ⟨rfl, rfl, by norm_num, rfl⟩
  refine ⟨?_, hH, exactQuad_exists, lsqFit_exists, fun quad fit hq hf => ?_⟩
  · rw [T.init, if_neg (by norm_num), exT]
    norm_num
  · have b : ∀ k : ℕ, binW exP k = 2 * π * (598 + k) * 10 ^ 12 := by
      intro k
      simp only [binW, exP]
      norm_num
      ring
    obtain ⟨s, h1, h2, h3⟩ := C97_delay_left (strF := strF) hq hf (t := exT) (G := 1) hH (by norm_num)
      (by norm_num [exP]) (by simp [exP, Pulse.blank]) (by rw [b]; exact exT_diffracts (by norm_num))
      (by rw [b]; exact exT_diffracts (by norm_num)) exP_small
    exact ⟨_, _, h3, h2, ⟨s, fun _ => rfl⟩, h1⟩

end PyNLO.Treacy
