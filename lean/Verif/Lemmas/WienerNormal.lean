import Verif.Lemmas.WienerQuartic
import Verif.Lemmas.WienerRamanBound

/-! # A bound for every order of dispersion, by removing the four-wave terms that are out of phase -/

namespace PyNLO.Wiener

open Complex Set Filter Topology

variable {J : Set ℝ} {b : ℤ → ℝ} {r : ℤ → ℂ} {g γ a d : ℝ} {c : ℤ → ℝ → ℂ}

/-- phase mismatch of four waves -/
def gap (w : ℤ → ℝ) (q : Tri) : ℝ := w q.1 + w q.2.1 - w q.2.2 - w (last q)

/-- squared frequency -/
def sqf (k : ℤ) : ℝ := (k : ℝ) ^ 2

theorem sqf_tempered : Tempered fun k => (sqf k : ℂ) := by
  refine ⟨1, 2, fun k => ?_⟩
  rw [Complex.norm_real, Real.norm_of_nonneg (by unfold sqf; positivity), one_mul]
  unfold sqf br
  rw [← sq_abs]
  gcongr
  linarith

/-- the waves with a weight -/
noncomputable def wtd (w : ℤ → ℝ) (c : ℤ → ℝ → ℂ) (k : ℤ) (z : ℝ) : ℂ := w k * c k z

theorem rapid_wtd {w : ℤ → ℝ} (hw : Tempered fun k => (w k : ℂ)) (hc : Rapid J c) : Rapid J (wtd w c) := hc.mult hw

/-- sum weighted with the mismatch -/
noncomputable def gapSum (w : ℤ → ℝ) (μ : Tri → ℝ) (c : ℤ → ℝ → ℂ) (z : ℝ) : ℂ :=
  s4 μ (wtd w c) c c c z + s4 μ c (wtd w c) c c z - s4 μ c c (wtd w c) c z - s4 μ c c c (wtd w c) z

theorem gapSum_hasSum {w : ℤ → ℝ} (hw : Tempered fun k => (w k : ℂ)) {μ : Tri → ℝ} {M : ℝ} (hμ : ∀ q, |μ q| ≤ M) (hc : Rapid J c) {z : ℝ} (hz : z ∈ J) :
    HasSum (fun q => ((μ q * gap w q : ℝ) : ℂ) * t4 c c c c q z) (gapSum w μ c z) := by
  have hwc := rapid_wtd hw hc
  have h1 := (s4_summable hwc hc hc hc hμ hz).hasSum
  have h2 := (s4_summable hc hwc hc hc hμ hz).hasSum
  have h3 := (s4_summable hc hc hwc hc hμ hz).hasSum
  have h4 := (s4_summable hc hc hc hwc hμ hz).hasSum
  refine (((h1.add h2).sub h3).sub h4).congr_fun fun q => ?_
  unfold t4 gap wtd
  simp only [map_mul, Complex.conj_ofReal]
  push_cast
  ring

theorem gapSum_one {w : ℤ → ℝ} (hw : Tempered fun k => (w k : ℂ)) (hc : Rapid J c) {z : ℝ} (hz : z ∈ J) :
    gapSum w (fun _ => 1) c z = 4 * I * (ip (wtd w c) (cube c) z).im := by
  have hwc := rapid_wtd hw hc
  have e1 := ip_cube hwc hc hz
  have e2 : s4 (fun _ => 1) c c (wtd w c) c z = (starRingEnd ℂ) (ip (wtd w c) (cube c) z) := by rw [s4_flip, e1]
  have e3 : s4 (fun _ => 1) c c c (wtd w c) z = (starRingEnd ℂ) (ip (wtd w c) (cube c) z) := by rw [s4_flip, e1, s4_swap]
  unfold gapSum
  rw [e2, e3, ← s4_swap, ← e1]
  apply Complex.ext
  · simp
  · simp
    ring

/-- multiplier that removes the mismatched terms -/
structure Kernel (b : ℤ → ℝ) (μ : Tri → ℝ) (N : ℕ) (M : ℝ) : Prop where
  bound : ∀ q, |μ q| ≤ M
  good : ∀ q : Tri, (N : ℤ) ≤ |q.1 + q.2.1| → μ q * gap b q = gap sqf q
  off : ∀ q : Tri, |q.1 + q.2.1| < (N : ℤ) → μ q = 0

/-- indicator of the remaining terms -/
noncomputable def band (N : ℕ) (q : Tri) : ℝ := if |q.1 + q.2.1| < (N : ℤ) then 1 else 0

theorem band_le (N : ℕ) (q : Tri) : |band N q| ≤ 1 := by
  unfold band
  split_ifs <;> simp

theorem gapSum_kernel (hb : Tempered fun k => (b k : ℂ)) {μ : Tri → ℝ} {N : ℕ} {M : ℝ} (hk : Kernel b μ N M) (hc : Rapid J c) {z : ℝ} (hz : z ∈ J) :
    gapSum b μ c z = 4 * I * (ip (wtd sqf c) (cube c) z).im - gapSum sqf (band N) c z := by
  rw [← gapSum_one sqf_tempered hc hz]
  have h1 := gapSum_hasSum hb hk.bound hc hz
  have h2 := gapSum_hasSum sqf_tempered (μ := fun _ => 1) (M := 1) (fun _ => by simp) hc hz
  have h3 := gapSum_hasSum sqf_tempered (band_le N) hc hz
  refine h1.unique ((h2.sub h3).congr_fun fun q => ?_)
  rw [← sub_mul]
  congr 1
  rw [← Complex.ofReal_sub]
  congr 1
  unfold band
  split_ifs with h
  · rw [hk.off q h]
    ring
  · rw [hk.good q (not_lt.1 h)]
    ring

/-! ## the remaining terms -/

theorem sq_le_br {k m : ℤ} {N : ℕ} (h : |k + m| < (N : ℤ)) : sqf k ≤ (1 + N) * (br k * br m) := by
  have hk := br_pos k
  have hm := br_pos m
  have h1 : |(k : ℝ)| ≤ br k := by unfold br; linarith
  have h2 : |(k : ℝ)| ≤ (1 + N) * br m := by
    have e : |((k + m : ℤ) : ℝ)| ≤ N := by
      have : ((|k + m| : ℤ) : ℝ) ≤ ((N : ℤ) : ℝ) := by exact_mod_cast h.le
      rw [Int.cast_abs] at this
      simpa using this
    have e2 : |(k : ℝ)| ≤ |((k + m : ℤ) : ℝ)| + |(m : ℝ)| := by
      have := abs_sub ((k + m : ℤ) : ℝ) (m : ℝ)
      rwa [show ((k + m : ℤ) : ℝ) - m = k by push_cast; ring] at this
    have hN : (0 : ℝ) ≤ N := Nat.cast_nonneg N
    have hm0 := abs_nonneg (m : ℝ)
    unfold br
    nlinarith
  unfold sqf
  rw [← sq_abs, sq]
  calc |(k : ℝ)| * |(k : ℝ)| ≤ br k * ((1 + N) * br m) := mul_le_mul h1 h2 (abs_nonneg _) hk.le
    _ = _ := by ring

theorem sqf_nonneg (k : ℤ) : 0 ≤ sqf k := sq_nonneg _

theorem gap_le {q : Tri} {N : ℕ} (h : |q.1 + q.2.1| < (N : ℤ)) :
    |gap sqf q| ≤ 2 * (1 + N) * (br q.1 * br q.2.1) + 2 * (1 + N) * (br q.2.2 * br (last q)) := by
  have h1 := sq_le_br h
  have h2 := sq_le_br (k := q.2.1) (m := q.1) (by rwa [add_comm])
  have hl : q.2.2 + last q = q.1 + q.2.1 := by unfold last; ring
  have h3 := sq_le_br (k := q.2.2) (m := last q) (by rwa [hl])
  have h4 := sq_le_br (k := last q) (m := q.2.2) (by rwa [add_comm, hl])
  have n1 := sqf_nonneg q.1
  have n2 := sqf_nonneg q.2.1
  have n3 := sqf_nonneg q.2.2
  have n4 := sqf_nonneg (last q)
  unfold gap
  rw [abs_le]
  constructor <;> nlinarith

/-- frequencies of the remaining terms -/
noncomputable def bandSet (N : ℕ) : Finset ℤ := Finset.Ioo (-(N : ℤ)) N

theorem mem_bandSet {N : ℕ} {S : ℤ} : S ∈ bandSet N ↔ |S| < (N : ℤ) := by
  unfold bandSet
  rw [Finset.mem_Ioo, abs_lt]

/-- constant of the remaining terms -/
noncomputable def bandConst (N : ℕ) : ℝ := 4 * (1 + N) * (bandSet N).card

theorem bandConst_nonneg (N : ℕ) : 0 ≤ bandConst N := by unfold bandConst; positivity

theorem summable_band {x : Tri → ℝ} (hx : ∀ q, 0 ≤ x q) (hs : Summable x) (A : Finset ℤ) : Summable fun q : Tri => if q.1 + q.2.1 ∈ A then x q else 0 := by
  refine Summable.of_nonneg_of_le (fun q => ?_) (fun q => ?_) hs
  · split_ifs
    · exact hx q
    · exact le_rfl
  · split_ifs
    · exact le_rfl
    · exact hx q

theorem gapSum_band_le (N : ℕ) (hc : Rapid J c) {z : ℝ} (hz : z ∈ J) :
    ‖gapSum sqf (band N) c z‖ ≤ bandConst N * (mass c z * mass (wt 1 c) z) := by
  let x : ℤ → ℝ := fun k => ‖wt 1 c k z‖
  let y : ℤ → ℝ := fun k => ‖c k z‖
  have hw := rapid_wt 1 hc
  have nx : ∀ k, 0 ≤ x k := fun k => norm_nonneg _
  have ny : ∀ k, 0 ≤ y k := fun k => norm_nonneg _
  have sx : Summable x := hw.summable hz
  have sy : Summable y := hc.summable hz
  obtain ⟨Bx, -, hBx⟩ := hw.bound 0
  obtain ⟨By, -, hBy⟩ := hc.bound 0
  have bx : ∀ k, x k ≤ Bx := fun k => by simpa using hBx k z hz
  have by' : ∀ k, y k ≤ By := fun k => by simpa using hBy k z hz
  have h1 := r4_band_le nx ny sx sy by' (hw.summable_mass hz) (hc.summable_mass hz) (bandSet N)
  have h2 := r4_band_le ny nx sy sx bx (hc.summable_mass hz) (hw.summable_mass hz) (bandSet N)
  have s1 := summable_band (r4_nonneg nx nx ny ny) (r4_summable nx nx ny ny sx sx sy by') (bandSet N)
  have s2 := summable_band (r4_nonneg ny ny nx nx) (r4_summable ny ny nx nx sy sy sx bx) (bandSet N)
  have h0 := gapSum_hasSum sqf_tempered (band_le N) hc hz
  rw [← h0.tsum_eq]
  have hN : (0 : ℝ) ≤ N := Nat.cast_nonneg N
  refine (tsum_of_norm_bounded ((s1.mul_left (2 * (1 + N : ℝ))).add (s2.mul_left (2 * (1 + N : ℝ)))).hasSum fun q => ?_).trans ?_
  · rw [norm_mul, Complex.norm_real, Real.norm_eq_abs, norm_t4]
    unfold band
    by_cases h : |q.1 + q.2.1| < (N : ℤ)
    · rw [if_pos h, if_pos (mem_bandSet.2 h), if_pos (mem_bandSet.2 h), one_mul]
      have hr := r4_nonneg ny ny ny ny q
      refine (mul_le_mul_of_nonneg_right (gap_le h) hr).trans (le_of_eq ?_)
      simp only [r4, x, y, norm_wt, pow_one]
      ring
    · rw [if_neg h, if_neg (fun h' => h (mem_bandSet.1 h')), if_neg (fun h' => h (mem_bandSet.1 h'))]
      simp
  · rw [(s1.mul_left _).tsum_add (s2.mul_left _), tsum_mul_left, tsum_mul_left]
    have e1 := mul_le_mul_of_nonneg_left h1 (by positivity : 0 ≤ 2 * (1 + N : ℝ))
    have e2 := mul_le_mul_of_nonneg_left h2 (by positivity : 0 ≤ 2 * (1 + N : ℝ))
    refine (add_le_add e1 e2).trans (le_of_eq ?_)
    unfold bandConst mass
    ring

/-! ## dynamics -/

/-- terms of sixth order -/
noncomputable def sextic (r : ℤ → ℂ) (μ : Tri → ℝ) (c : ℤ → ℝ → ℂ) (z : ℝ) : ℂ :=
  s4 μ (cubeR r c) c c c z + s4 μ c (cubeR r c) c c z - s4 μ c c (cubeR r c) c z - s4 μ c c c (cubeR r c) z

theorem CSol.s4_hasDerivAt (hb : Tempered fun k => (b k : ℂ)) (hr : Tempered r) (hc : CSol b r g γ a d c) {μ : Tri → ℝ} {M : ℝ} (hμ : ∀ q, |μ q| ≤ M)
    {z : ℝ} (hz : z ∈ Ioo a d) :
    HasDerivAt (s4 μ c c c c) (I * gapSum b μ c z + 2 * g * s4 μ c c c c z + I * γ * sextic r μ c z) z := by
  have hrr := rhsR_rapid (g := g) (γ := γ) hb hr hc.rapid
  have hN := rapid_cubeR hr hc.rapid
  refine (Wiener.s4_hasDerivAt isOpen_Ioo isPreconnected_Ioo hc.rapid hrr (fun k z hz => hc.eqR k hz) hμ hz).congr_deriv ?_
  have h0 := (gapSum_hasSum hb hμ hc.rapid hz).mul_left I
  have h1 := (s4_summable hc.rapid hc.rapid hc.rapid hc.rapid hμ hz).hasSum.mul_left (2 * (g : ℂ))
  have n1 := (s4_summable hN hc.rapid hc.rapid hc.rapid hμ hz).hasSum
  have n2 := (s4_summable hc.rapid hN hc.rapid hc.rapid hμ hz).hasSum
  have n3 := (s4_summable hc.rapid hc.rapid hN hc.rapid hμ hz).hasSum
  have n4 := (s4_summable hc.rapid hc.rapid hc.rapid hN hμ hz).hasSum
  have h2 := (((n1.add n2).sub n3).sub n4).mul_left (I * γ)
  refine HasSum.tsum_eq (((h0.add h1).add h2).congr_fun fun q => ?_)
  unfold t4 gap rhsR
  simp only [map_mul, map_add, Complex.conj_ofReal, Complex.conj_I]
  push_cast
  ring

theorem CSol.weight_hasDerivAt (hb : Tempered fun k => (b k : ℂ)) (hr : Tempered r) {w : ℤ → ℝ} (hw : Tempered fun k => (w k : ℂ)) (hc : CSol b r g γ a d c) {z : ℝ} (hz : z ∈ Ioo a d) :
    HasDerivAt (linear w c) (g * linear w c z + 2 * γ * (ip (wtd w c) (cubeR r c) z).im) z := by
  have hrr := rhsR_rapid (g := g) (γ := γ) hb hr hc.rapid
  have h := re_hasDerivAt (ip_hasDerivAt isOpen_Ioo isPreconnected_Ioo (hc.rapid.mult hw) (hrr.mult hw) hc.rapid hrr
    (fun k z hz => (hc.eqR k hz).const_mul (w k : ℂ)) (fun k z hz => hc.eqR k hz) hz)
  have e : (fun z => (ip (fun k z => w k * c k z) c z).re) = linear w c := by
    funext z
    rw [ip_linear, Complex.ofReal_re]
  rw [e] at h
  refine h.congr_deriv ?_
  have e2 : ip (fun k z => w k * rhsR b r g γ c k z) c z = ip (rhsR b r g γ c) (wtd w c) z := by
    unfold ip
    refine tsum_congr fun k => ?_
    unfold wtd
    rw [map_mul, Complex.conj_ofReal]
    ring
  have e3 : ip c (wtd w c) z = (linear w c z : ℂ) := by
    have := ip_linear w c z
    rw [← ip_conj]
    show (starRingEnd ℂ) (ip (fun k z => w k * c k z) c z) = _
    rw [this, Complex.conj_ofReal]
  have e4 : ip (fun k z => w k * c k z) (rhsR b r g γ c) z = (starRingEnd ℂ) (ip (rhsR b r g γ c) (wtd w c) z) := (ip_conj _ _ _).symm
  have e5 : (ip (fun k z => (b k : ℂ) * c k z) (wtd w c) z).im = 0 := by
    have : ip (fun k z => (b k : ℂ) * c k z) (wtd w c) z = ((∑' k, b k * w k * ‖c k z‖ ^ 2 : ℝ) : ℂ) := by
      unfold ip
      rw [Complex.ofReal_tsum]
      refine tsum_congr fun k => ?_
      unfold wtd
      rw [map_mul, Complex.conj_ofReal]
      have := Complex.mul_conj (c k z)
      rw [Complex.normSq_eq_norm_sq] at this
      push_cast at this ⊢
      linear_combination (b k * w k : ℂ) * this
    rw [this, Complex.ofReal_im]
  rw [e2, e4, add_conj_re, ip_rhsR hb hr hc.rapid (rapid_wtd hw hc.rapid) hz, e3, ← ip_conj _ (cubeR r c)]
  simp only [Complex.add_re, Complex.mul_re, Complex.mul_im, Complex.I_re, Complex.I_im, Complex.ofReal_re, Complex.ofReal_im, Complex.conj_re, Complex.conj_im, e5]
  ring

theorem ip_cubeR_split {f : ℤ → ℝ → ℂ} {s : ℝ} {ρ : ℤ → ℂ} (hρ : Tempered ρ) (hr : r = fun k => (s : ℂ) + ρ k) (hf : Rapid J f) (hc : Rapid J c) {z : ℝ} (hz : z ∈ J) :
    ip f (cubeR r c) z = s * ip f (cube c) z + ip f (cubeR ρ c) z := by
  have e : ∀ k, cubeR r c k z = (s : ℂ) * cube c k z + cubeR ρ c k z := by
    intro k
    have h1 := (summable_fold hc hc.power2 k hz).hasSum.mul_left (s : ℂ)
    have h2 := (summable_fold hc (rapid_pot hρ hc) k hz).hasSum
    refine HasSum.tsum_eq ((h1.add h2).congr_fun fun j => ?_)
    unfold pot
    rw [hr]
    ring
  have h1 := (ip_summable hf hc.cube hz).hasSum.mul_left (s : ℂ)
  have h2 := (ip_summable hf (rapid_cubeR hρ hc) hz).hasSum
  refine HasSum.tsum_eq ((h1.add h2).congr_fun fun k => ?_)
  rw [e, map_add, map_mul, Complex.conj_ofReal]
  ring

/-- spectral width corrected by the four-wave terms -/
noncomputable def nform (μ : Tri → ℝ) (γ : ℝ) (c : ℤ → ℝ → ℂ) (z : ℝ) : ℝ := linear sqf c z + γ / 2 * (s4 μ c c c c z).re

theorem CSol.nform_hasDerivAt (hb : Tempered fun k => (b k : ℂ)) {s : ℝ} {ρ : ℤ → ℂ} (hρ : Tempered ρ) (hr : r = fun k => (s : ℂ) + ρ k)
    (hrt : Tempered r) (hc : CSol b r g γ a d c) {μ : Tri → ℝ} {N : ℕ} {M : ℝ} (hk : Kernel b μ N M) {z : ℝ} (hz : z ∈ Ioo a d) :
    HasDerivAt (nform μ (γ * s) c) (g * nform μ (γ * s) c z +
      (γ * s / 2 * (g * (s4 μ c c c c z).re + (gapSum sqf (band N) c z).im - γ * (sextic r μ c z).im) + 2 * γ * (ip (wtd sqf c) (cubeR ρ c) z).im)) z := by
  refine ((hc.weight_hasDerivAt hb hrt sqf_tempered hz).add ((re_hasDerivAt (hc.s4_hasDerivAt hb hrt hk.bound hz)).const_mul (γ * s / 2))).congr_deriv ?_
  rw [gapSum_kernel hb hk hc.rapid hz, ip_cubeR_split hρ hr (rapid_wtd sqf_tempered hc.rapid) hc.rapid hz]
  unfold nform
  simp [Complex.add_re, Complex.sub_re, Complex.mul_re, Complex.mul_im, Complex.sub_im, Complex.add_im]
  ring

/-! ## estimates -/

theorem s4_le {μ : Tri → ℝ} {M : ℝ} (hμ : ∀ q, |μ q| ≤ M) (hc : Rapid J c) {z : ℝ} (hz : z ∈ J) : ‖s4 μ c c c c z‖ ≤ M * (mass c z * l1 c z ^ 2) := by
  refine (s4_norm_le hc hc hc hc hμ hz).trans (le_of_eq ?_)
  rw [← l2_sq]
  ring

theorem l2_cubeR_le {K : ℝ} (hK : ∀ k, ‖r k‖ ≤ K) (hc : Rapid J c) {z : ℝ} (hz : z ∈ J) : l2 (cubeR r c) z ≤ K * l1 c z ^ 2 * l2 c z := by
  have hK0 : 0 ≤ K := (norm_nonneg _).trans (hK 0)
  have hr := bounded_tempered hK
  have hp := rapid_pot hr hc
  unfold cubeR
  rw [fold_comm]
  refine (l2_fold_le hp hc hz).trans (mul_le_mul_of_nonneg_right ?_ (l2_nonneg _ _))
  have h1 : l1 (pot r c) z ≤ K * ∑' k, ‖power2 c k z‖ := by
    unfold l1
    rw [← tsum_mul_left]
    refine (hp.summable hz).tsum_le_tsum (fun k => ?_) ((hc.power2.summable hz).mul_left K)
    unfold pot
    rw [norm_mul]
    exact mul_le_mul_of_nonneg_right (hK k) (norm_nonneg _)
  exact h1.trans (mul_le_mul_of_nonneg_left (rapid_tsum_power2_le hc hz) hK0)

theorem l1_four_le (hc : Rapid J c) {z : ℝ} (hz : z ∈ J) : l1 c z ^ 4 ≤ 64 * (mass c z * mass (wt 1 c) z) := by
  have h := l1_sq_le_l2 hc hz
  have h2 := pow_le_pow_left₀ (sq_nonneg _) h 2
  rw [← l2_sq, ← l2_sq]
  calc l1 c z ^ 4 = (l1 c z ^ 2) ^ 2 := by ring
    _ ≤ _ := h2
    _ = _ := by ring

theorem sextic_le {K : ℝ} (hK : ∀ k, ‖r k‖ ≤ K) {μ : Tri → ℝ} {M : ℝ} (hμ : ∀ q, |μ q| ≤ M) (hc : Rapid J c) {z : ℝ} (hz : z ∈ J) :
    ‖sextic r μ c z‖ ≤ 256 * M * K * (mass c z ^ 2 * mass (wt 1 c) z) := by
  have hK0 : 0 ≤ K := (norm_nonneg _).trans (hK 0)
  have hM : 0 ≤ M := (abs_nonneg _).trans (hμ (0, 0, 0))
  have hN := rapid_cubeR (bounded_tempered hK) hc
  have h1 := s4_norm_le hN hc hc hc hμ hz
  have h2 := s4_norm_le' hc hN hc hc hμ hz
  have h3 := s4_norm_le' hc hc hN hc hμ hz
  have h4 := s4_norm_le hc hc hc hN hμ hz
  have hl := l2_cubeR_le hK hc hz
  have n1 := l1_nonneg c z
  have n2 := l2_nonneg c z
  have key : l2 (cubeR r c) z * (l1 c z ^ 2 * l2 c z) ≤ 64 * K * (mass c z ^ 2 * mass (wt 1 c) z) := by
    calc l2 (cubeR r c) z * (l1 c z ^ 2 * l2 c z) ≤ K * l1 c z ^ 2 * l2 c z * (l1 c z ^ 2 * l2 c z) :=
          mul_le_mul_of_nonneg_right hl (mul_nonneg (sq_nonneg _) n2)
      _ = K * mass c z * l1 c z ^ 4 := by rw [← l2_sq]; ring
      _ ≤ K * mass c z * (64 * (mass c z * mass (wt 1 c) z)) := mul_le_mul_of_nonneg_left (l1_four_le hc hz) (mul_nonneg hK0 (mass_nonneg _ _))
      _ = _ := by ring
  have key' := mul_le_mul_of_nonneg_left key hM
  unfold sextic
  refine (norm_sub_le _ _).trans ?_
  have := norm_sub_le (s4 μ (cubeR r c) c c c z + s4 μ c (cubeR r c) c c z) (s4 μ c c (cubeR r c) c z)
  have := norm_add_le (s4 μ (cubeR r c) c c c z) (s4 μ c (cubeR r c) c c z)
  have e1 : M * (l2 (cubeR r c) z * l1 c z * l1 c z * l2 c z) = M * (l2 (cubeR r c) z * (l1 c z ^ 2 * l2 c z)) := by ring
  have e2 : M * (l1 c z * l2 (cubeR r c) z * l2 c z * l1 c z) = M * (l2 (cubeR r c) z * (l1 c z ^ 2 * l2 c z)) := by ring
  have e3 : M * (l1 c z * l2 c z * l2 (cubeR r c) z * l1 c z) = M * (l2 (cubeR r c) z * (l1 c z ^ 2 * l2 c z)) := by ring
  have e4 : M * (l2 c z * l1 c z * l1 c z * l2 (cubeR r c) z) = M * (l2 (cubeR r c) z * (l1 c z ^ 2 * l2 c z)) := by ring
  linarith

theorem mass_wt_one_le (hc : Rapid J c) {z : ℝ} (hz : z ∈ J) : mass (wt 1 c) z ≤ 2 * (mass c z + linear sqf c z) := by
  have h1 := hc.summable_mass hz
  have h2 := hc.summable_linear sqf_tempered hz
  unfold mass linear
  rw [← h1.tsum_add h2, ← tsum_mul_left]
  refine ((rapid_wt 1 hc).summable_mass hz).tsum_le_tsum (fun k => ?_) ((h1.add h2).mul_left 2)
  rw [norm_wt, pow_one, mul_pow]
  have hb : br k ^ 2 ≤ 2 * (1 + sqf k) := by
    unfold br sqf
    rw [← sq_abs (k : ℝ)]
    nlinarith [sq_nonneg (1 - |(k : ℝ)|)]
  nlinarith [sq_nonneg ‖c k z‖]

theorem sqf_slope (k l : ℤ) : |sqf k - sqf l| ≤ 1 * |((k - l : ℤ) : ℝ)| * (br k ^ (2 * 0 + 1) + br l ^ (2 * 0 + 1)) := by
  have e : sqf k - sqf l = ((k - l : ℤ) : ℝ) * ((k : ℝ) + l) := by unfold sqf; push_cast; ring
  rw [e, abs_mul, one_mul]
  refine mul_le_mul_of_nonneg_left ((abs_add_le _ _).trans ?_) (abs_nonneg _)
  simp only [mul_zero, zero_add, pow_one]
  unfold br
  linarith

/-- a bound that holds on the whole distance -/
theorem exists_boundN (hb : Tempered fun k => (b k : ℂ)) {μ : Tri → ℝ} {N : ℕ} {M : ℝ} (hk : Kernel b μ N M) {s R K : ℝ} {ρ : ℤ → ℂ} (hρ : Tempered ρ)
    (hr : r = fun k => (s : ℂ) + ρ k) (hK : ∀ k, ‖r k‖ ≤ K) (hs : ∀ k, ρ (-k) = (starRingEnd ℂ) (ρ k)) (hR : ∀ k : ℤ, |(k : ℝ)| * ‖ρ k‖ ≤ R) (g γ : ℝ) (c0 : ℤ → ℂ) (L : ℝ) :
    ∃ B : ℝ, ∀ a d c, a < 0 → CSol b r g γ a d c → (∀ k, c k 0 = c0 k) → ∀ z, 0 ≤ z → z < d → z ≤ L → ∑' k, ‖c k z‖ ≤ B := by
  have hR0 : 0 ≤ R := le_trans (by positivity) (hR 0)
  have hK0 : 0 ≤ K := (norm_nonneg _).trans (hK 0)
  have hM : 0 ≤ M := (abs_nonneg _).trans (hk.bound (0, 0, 0))
  have hrt := bounded_tempered hK
  have hsr : ∀ k, r (-k) = (starRingEnd ℂ) (r k) := fun k => by
    rw [hr]
    simp only [hs, map_add, Complex.conj_ofReal]
  let γ1 : ℝ := γ * s
  let m1 : ℝ := gronwallBound |mass (fun k _ => c0 k) 0| |g| 0 L
  let m2 : ℝ := max m1 0
  have hm2 : 0 ≤ m2 := le_max_right _ _
  let η : ℝ := 1 / (2 * (|γ1| * M * m2 + 1))
  have hη : 0 < η := by positivity
  obtain ⟨D, hD, hint⟩ := exists_interp hη
  have hηκ : |γ1| * M * m2 * η ≤ 1 / 2 := by
    have : 0 < 2 * (|γ1| * M * m2 + 1) := by positivity
    simp only [η]
    rw [mul_one_div, div_le_iff₀ this]
    linarith
  let C1 : ℝ := m2 + |γ1| / 2 * (M * (m2 * (D * m2)))
  have hC1 : 0 ≤ C1 := by positivity
  have htc := triConst_nonneg 0
  have hbc := bandConst_nonneg N
  -- coefficients of the spectral width in the bound of the derivative
  let T1 : ℝ := |γ1| / 2 * (|g| * (M * (m2 * η)) + bandConst N * m2 + |γ| * (256 * M * K * m2 ^ 2)) + 2 * |γ| * (R * (triConst 0 * m2))
  let T0 : ℝ := |γ1| / 2 * (|g| * (M * (m2 * (D * m2))))
  have hT1 : 0 ≤ T1 := by positivity
  have hT0 : 0 ≤ T0 := by positivity
  let P : ℝ := |g| + T1 * 4
  let S : ℝ := T1 * (4 * C1) + T0
  have hP : 0 ≤ P := by positivity
  have hS : 0 ≤ S := by positivity
  let H1 : ℝ := gronwallBound |nform μ γ1 (fun k _ => c0 k) 0| P S L
  refine ⟨√(D * m2 + η * (4 * (H1 + C1))), ?_⟩
  intro a d c ha hc h0 z hz0 hzd hzL
  have hmem : ∀ {z : ℝ}, 0 ≤ z → z < d → z ∈ Ioo a d := fun h h' => ⟨by linarith, h'⟩
  have hm : ∀ z, 0 ≤ z → z < d → z ≤ L → mass c z ≤ m2 := by
    intro z h1 h2 h3
    have := CSol.gronwall ha (fun z hz => hc.mass_hasDerivAtR hb hrt hsr hz) (abs_nonneg g) le_rfl (L := L) (fun z _ _ _ => by rw [abs_mul, add_zero]) h1 h2 h3
    have e : mass c 0 = mass (fun k _ => c0 k) 0 := by unfold mass; simp only [h0]
    rw [e] at this
    exact (le_abs_self _).trans (this.trans (le_max_left _ _))
  have hA : ∀ z, 0 ≤ z → z < d → z ≤ L → l1 c z ^ 2 ≤ D * m2 + η * mass (wt 1 c) z := by
    intro z h1 h2 h3
    refine (hint _ (hc.rapid.summable_mass (hmem h1 h2)) (hc.rapid.summable_width (hmem h1 h2))).trans ?_
    exact add_le_add (mul_le_mul_of_nonneg_left (hm z h1 h2 h3) hD.le) (mul_le_mul_of_nonneg_left (width_le_mass 0 hc.rapid (hmem h1 h2)) hη.le)
  have hG : ∀ z, 0 ≤ z → z < d → z ≤ L → |(s4 μ c c c c z).re| ≤ M * (m2 * (D * m2 + η * mass (wt 1 c) z)) := by
    intro z h1 h2 h3
    refine (Complex.abs_re_le_norm _).trans ((s4_le hk.bound hc.rapid (hmem h1 h2)).trans ?_)
    exact mul_le_mul_of_nonneg_left (mul_le_mul (hm z h1 h2 h3) (hA z h1 h2 h3) (sq_nonneg _) hm2) hM
  have hW : ∀ z, 0 ≤ z → z < d → z ≤ L → mass (wt 1 c) z ≤ 4 * (|nform μ γ1 c z| + C1) := by
    intro z h1 h2 h3
    have e1 := mass_wt_one_le hc.rapid (hmem h1 h2)
    have e2 : linear sqf c z = nform μ γ1 c z - γ1 / 2 * (s4 μ c c c c z).re := by unfold nform; ring
    have e3 : linear sqf c z ≤ |nform μ γ1 c z| + |γ1| / 2 * |(s4 μ c c c c z).re| := by
      rw [e2]
      refine (le_abs_self _).trans ((abs_sub _ _).trans (add_le_add le_rfl (le_of_eq ?_)))
      rw [abs_mul, abs_div, abs_two]
    have e4 := mul_le_mul_of_nonneg_left (hG z h1 h2 h3) (by positivity : 0 ≤ |γ1| / 2)
    have e5 := mul_le_mul_of_nonneg_right hηκ (mass_nonneg (wt 1 c) z)
    have e6 := hm z h1 h2 h3
    simp only [C1]
    nlinarith
  have hH : |nform μ γ1 c z| ≤ H1 := by
    have := CSol.gronwall ha (fun z hz => hc.nform_hasDerivAt hb hρ hr hrt hk hz) hP hS (L := L) (fun z h1 h2 h3 => ?_) hz0 hzd hzL
    · have e : nform μ (γ * s) c 0 = nform μ γ1 (fun k _ => c0 k) 0 := by
        unfold nform linear s4 t4
        simp only [h0]
        rfl
      rwa [e] at this
    · show |g * nform μ γ1 c z + (γ1 / 2 * (g * (s4 μ c c c c z).re + (gapSum sqf (band N) c z).im - γ * (sextic r μ c z).im) + 2 * γ * (ip (wtd sqf c) (cubeR ρ c) z).im)| ≤ P * |nform μ γ1 c z| + S
      have w0 := mass_nonneg (wt 1 c) z
      have hmz := hm z h1 h2 h3
      have hm0 := mass_nonneg c z
      have f1 : |(gapSum sqf (band N) c z).im| ≤ bandConst N * (m2 * mass (wt 1 c) z) := by
        refine (Complex.abs_im_le_norm _).trans ((gapSum_band_le N hc.rapid (hmem h1 h2)).trans ?_)
        gcongr
      have f2 : |(sextic r μ c z).im| ≤ 256 * M * K * (m2 ^ 2 * mass (wt 1 c) z) := by
        refine (Complex.abs_im_le_norm _).trans ((sextic_le hK hk.bound hc.rapid (hmem h1 h2)).trans ?_)
        gcongr
      have f3 : |(ip (wtd sqf c) (cubeR ρ c) z).im| ≤ R * (triConst 0 * (m2 * mass (wt 1 c) z)) := by
        refine (drift_le sqf_tempered hρ hs zero_le_one hR sqf_slope hc.rapid (hmem h1 h2)).trans ?_
        rw [one_mul]
        gcongr
      have f4 := hG z h1 h2 h3
      have e1 : |g * nform μ γ1 c z + (γ1 / 2 * (g * (s4 μ c c c c z).re + (gapSum sqf (band N) c z).im - γ * (sextic r μ c z).im) + 2 * γ * (ip (wtd sqf c) (cubeR ρ c) z).im)| ≤
          |g| * |nform μ γ1 c z| + (|γ1| / 2 * (|g| * |(s4 μ c c c c z).re| + |(gapSum sqf (band N) c z).im| + |γ| * |(sextic r μ c z).im|) +
            2 * |γ| * |(ip (wtd sqf c) (cubeR ρ c) z).im|) := by
        refine (abs_add_le _ _).trans (add_le_add (le_of_eq (abs_mul _ _)) ((abs_add_le _ _).trans (add_le_add ?_ (le_of_eq ?_))))
        · rw [abs_mul, abs_div, abs_two]
          refine mul_le_mul_of_nonneg_left ((abs_sub _ _).trans (add_le_add ((abs_add_le _ _).trans (add_le_add (le_of_eq (abs_mul _ _)) le_rfl)) (le_of_eq (abs_mul _ _)))) (by positivity)
        · rw [abs_mul, abs_mul, abs_two]
      refine e1.trans ?_
      have e2 : |g| * |nform μ γ1 c z| + (|γ1| / 2 * (|g| * |(s4 μ c c c c z).re| + |(gapSum sqf (band N) c z).im| + |γ| * |(sextic r μ c z).im|) +
            2 * |γ| * |(ip (wtd sqf c) (cubeR ρ c) z).im|) ≤ |g| * |nform μ γ1 c z| + (|γ1| / 2 * (|g| * (M * (m2 * (D * m2 + η * mass (wt 1 c) z))) + bandConst N * (m2 * mass (wt 1 c) z) +
            |γ| * (256 * M * K * (m2 ^ 2 * mass (wt 1 c) z))) + 2 * |γ| * (R * (triConst 0 * (m2 * mass (wt 1 c) z)))) := by gcongr
      refine e2.trans ?_
      have e3 := mul_le_mul_of_nonneg_left (hW z h1 h2 h3) hT1
      have e4 : |g| * |nform μ γ1 c z| + (|γ1| / 2 * (|g| * (M * (m2 * (D * m2 + η * mass (wt 1 c) z))) + bandConst N * (m2 * mass (wt 1 c) z) +
            |γ| * (256 * M * K * (m2 ^ 2 * mass (wt 1 c) z))) + 2 * |γ| * (R * (triConst 0 * (m2 * mass (wt 1 c) z)))) = |g| * |nform μ γ1 c z| + (T1 * mass (wt 1 c) z + T0) := by
        simp only [T1, T0]
        ring
      rw [e4]
      simp only [P, S]
      linarith
  refine Real.le_sqrt_of_sq_le ((hA z hz0 hzd hzL).trans ?_)
  have e1 := hW z hz0 hzd hzL
  exact add_le_add le_rfl (mul_le_mul_of_nonneg_left (e1.trans (mul_le_mul_of_nonneg_left (by linarith) (by norm_num))) hη.le)

end PyNLO.Wiener
