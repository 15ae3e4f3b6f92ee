import Verif.Lemmas.WienerRaman

/-! # The delayed response cannot make the spectral width explode -/

namespace PyNLO.Wiener

open Complex Set Filter Topology MeasureTheory Polynomial

variable {b : ℤ → ℝ} {g γ a d : ℝ} {c : ℤ → ℝ → ℂ} {J : Set ℝ} {r : ℤ → ℂ}

/-- `Σ |f| (|h| * |p|)` -/
noncomputable def tri (f h p : ℤ → ℝ → ℂ) (z : ℝ) : ℝ := ∑' k, ‖f k z‖ * ∑' j, ‖h (k - j) z‖ * ‖p j z‖

theorem ip_tri (f h p : ℤ → ℝ → ℂ) (z : ℝ) : ip (mag f) (fold (mag h) (mag p)) z = (tri f h p z : ℂ) := by
  unfold ip tri
  rw [Complex.ofReal_tsum]
  refine tsum_congr fun k => ?_
  rw [fold_mag_nonneg, Complex.conj_ofReal]
  unfold mag
  push_cast
  rfl

theorem tri_summable {f h p : ℤ → ℝ → ℂ} (hf : Rapid J f) (hh : Rapid J h) (hp : Rapid J p) {z : ℝ} (hz : z ∈ J) :
    Summable fun k => ‖f k z‖ * ∑' j, ‖h (k - j) z‖ * ‖p j z‖ := by
  have h1 := (ip_summable (rapid_mag hf) ((rapid_mag hh).fold (rapid_mag hp)) hz).norm
  refine h1.congr fun k => ?_
  rw [norm_mul, RCLike.norm_conj, norm_mag, fold_mag_nonneg, Complex.norm_real, Real.norm_of_nonneg (tsum_nonneg fun j => by positivity)]

theorem tri_swap {f h p : ℤ → ℝ → ℂ} (hf : Rapid J f) (hh : Rapid J h) (hp : Rapid J p) {z : ℝ} (hz : z ∈ J) (he : ∀ k z, ‖p (-k) z‖ = ‖p k z‖) :
    tri f h p z = tri h f p z := by
  have e : opp (mag p) = mag p := by
    funext k z
    unfold opp mag
    rw [Complex.conj_ofReal, he]
  have h1 := ip_symm e (rapid_mag hf) (rapid_mag hp) (rapid_mag hh) hz
  rw [ip_tri, ← ip_conj, ip_tri, Complex.conj_ofReal] at h1
  exact_mod_cast h1.symm

theorem l1_mag (f : ℤ → ℝ → ℂ) (z : ℝ) : l1 (mag f) z = l1 f z := by
  unfold l1
  simp only [norm_mag]

theorem l2_wt_mag (s : ℕ) (f : ℤ → ℝ → ℂ) (z : ℝ) : l2 (wt s (mag f)) z = l2 (wt s f) z :=
  l2_congr fun k => by rw [norm_wt, norm_wt, norm_mag]

theorem norm_power2_neg (c : ℤ → ℝ → ℂ) (k : ℤ) (z : ℝ) : ‖power2 c (-k) z‖ = ‖power2 c k z‖ := by
  have h := congrFun (congrFun (opp_power2 c) k) z
  rw [← h]
  exact (RCLike.norm_conj _).symm

/-- constant of the estimate -/
noncomputable def triConst (q : ℕ) : ℝ := 8 * (2 ^ q * (1 + 2 ^ q * 2))

theorem triConst_nonneg (q : ℕ) : 0 ≤ triConst q := by
  unfold triConst
  positivity

theorem tri_le (q : ℕ) (hc : Rapid J c) {z : ℝ} (hz : z ∈ J) :
    tri (wt (2 * q + 1) c) c (power2 c) z ≤ triConst q * (mass c z * mass (wt (q + 1) c) z) := by
  have hp := hc.power2
  have hfold := (rapid_mag hc).fold (rapid_mag hp)
  have h1 : tri (wt (2 * q + 1) c) c (power2 c) z = ∑' k, ‖wt (q + 1) c k z‖ * ‖wt q (fold (mag c) (mag (power2 c))) k z‖ := by
    refine tsum_congr fun k => ?_
    rw [norm_wt, norm_wt, norm_wt, fold_mag_nonneg, Complex.norm_real, Real.norm_of_nonneg (tsum_nonneg fun j => by positivity)]
    ring
  have h2 : tri (wt (2 * q + 1) c) c (power2 c) z ≤ l2 (wt (q + 1) c) z * l2 (wt q (fold (mag c) (mag (power2 c)))) z := by
    rw [h1]
    exact tsum_norm_ip_le (rapid_wt _ hc) (rapid_wt _ hfold) hz
  have h3 := l2_wt_fold_le q (rapid_mag hc) (rapid_mag hp) hz
  rw [l2_wt_mag, l2_wt_mag, l1_mag, l1_mag] at h3
  have h4 : l1 (power2 c) z ≤ l1 c z ^ 2 := rapid_tsum_power2_le hc hz
  have h5 : l2 (wt q (power2 c)) z ≤ 2 ^ q * (l2 (wt q c) z * l1 c z + l1 c z * l2 (wt q c) z) := by
    have := l2_wt_fold_le q hc hc.opp hz
    rwa [l1_opp, l2_opp] at this
  have n1 := l2_nonneg (wt q c) z
  have n2 := l1_nonneg c z
  have n3 := l2_nonneg (wt (q + 1) c) z
  have n4 := l2_nonneg c z
  have h6 : l2 (wt q (fold (mag c) (mag (power2 c)))) z ≤ 2 ^ q * (1 + 2 ^ q * 2) * (l2 (wt q c) z * l1 c z ^ 2) := by
    refine h3.trans ?_
    calc 2 ^ q * (l2 (wt q c) z * l1 (power2 c) z + l1 c z * l2 (wt q (power2 c)) z)
        ≤ 2 ^ q * (l2 (wt q c) z * l1 c z ^ 2 + l1 c z * (2 ^ q * (l2 (wt q c) z * l1 c z + l1 c z * l2 (wt q c) z))) := by gcongr
      _ = _ := by ring
  have h7 := l1_sq_le_l2 hc hz
  have h8 := moments_le hc hz q
  calc tri (wt (2 * q + 1) c) c (power2 c) z ≤ l2 (wt (q + 1) c) z * (2 ^ q * (1 + 2 ^ q * 2) * (l2 (wt q c) z * l1 c z ^ 2)) :=
        h2.trans (mul_le_mul_of_nonneg_left h6 n3)
    _ ≤ l2 (wt (q + 1) c) z * (2 ^ q * (1 + 2 ^ q * 2) * (l2 (wt q c) z * (8 * (l2 c z * l2 (wt 1 c) z)))) := by gcongr
    _ = triConst q * (l2 (wt (q + 1) c) z * (l2 c z * (l2 (wt 1 c) z * l2 (wt q c) z))) := by unfold triConst; ring
    _ ≤ triConst q * (l2 (wt (q + 1) c) z * (l2 c z * (l2 c z * l2 (wt (q + 1) c) z))) := by
        have := triConst_nonneg q
        gcongr
    _ = triConst q * (l2 c z ^ 2 * l2 (wt (q + 1) c) z ^ 2) := by ring
    _ = _ := by rw [l2_sq, l2_sq]

/-- work of the delayed response -/
theorem drift_le (hb : Tempered fun k => (b k : ℂ)) {ρ : ℤ → ℂ} (hρ : Tempered ρ) (hs : ∀ k, ρ (-k) = (starRingEnd ℂ) (ρ k)) {B R : ℝ} (hB : 0 ≤ B)
    (hR : ∀ k : ℤ, |(k : ℝ)| * ‖ρ k‖ ≤ R) {q : ℕ} (hd : ∀ k l : ℤ, |b k - b l| ≤ B * |((k - l : ℤ) : ℝ)| * (br k ^ (2 * q + 1) + br l ^ (2 * q + 1)))
    (hc : Rapid J c) {z : ℝ} (hz : z ∈ J) :
    |(ip (fun k z => b k * c k z) (cubeR ρ c) z).im| ≤ B * R * (triConst q * (mass c z * mass (wt (q + 1) c) z)) := by
  have hR0 : 0 ≤ R := le_trans (by positivity) (hR 0)
  have hpot := rapid_pot hρ hc
  have hbc : Rapid J fun k z => (b k : ℂ) * c k z := hc.mult hb
  let w : ℤ → ℝ → ℂ := wt (2 * q + 1) c
  have hw : Rapid J w := rapid_wt _ hc
  have hsym := ip_symm (opp_pot hs c) hc hpot hbc hz
  have h1 : ip (fun k z => b k * c k z) (cubeR ρ c) z - (starRingEnd ℂ) (ip (fun k z => b k * c k z) (cubeR ρ c) z) =
      ∑' k, c k z * (starRingEnd ℂ) ((b k : ℂ) * cubeR ρ c k z - fold (fun k z => (b k : ℂ) * c k z) (pot ρ c) k z) := by
    rw [ip_conj, show ip (cubeR ρ c) (fun k z => (b k : ℂ) * c k z) z = _ from hsym]
    unfold ip
    rw [← (ip_summable hbc (rapid_cubeR hρ hc) hz).tsum_sub (ip_summable hc (hbc.fold hpot) hz)]
    refine tsum_congr fun k => ?_
    rw [map_sub, map_mul, Complex.conj_ofReal]
    ring
  have h2 : ∀ k, ‖(b k : ℂ) * cubeR ρ c k z - fold (fun k z => (b k : ℂ) * c k z) (pot ρ c) k z‖ ≤
      B * R * (br k ^ (2 * q + 1) * (∑' j, ‖c (k - j) z‖ * ‖power2 c j z‖) + ∑' j, ‖w (k - j) z‖ * ‖power2 c j z‖) := by
    intro k
    have s1 := summable_norm_fold hc hc.power2 hz k
    have s2 := summable_norm_fold hw hc.power2 hz k
    have e : (b k : ℂ) * cubeR ρ c k z - fold (fun k z => (b k : ℂ) * c k z) (pot ρ c) k z =
        ∑' j, ((b k - b (k - j) : ℝ) : ℂ) * (c (k - j) z * pot ρ c j z) := by
      unfold cubeR
      show (b k : ℂ) * (∑' j, c (k - j) z * pot ρ c j z) - (∑' j, (b (k - j) : ℂ) * c (k - j) z * pot ρ c j z) = _
      rw [← tsum_mul_left, ← ((summable_fold hc hpot k hz).mul_left _).tsum_sub (summable_fold hbc hpot k hz)]
      refine tsum_congr fun j => ?_
      push_cast
      ring
    rw [e]
    have s3 := ((s1.mul_left (br k ^ (2 * q + 1))).add s2).mul_left (B * R)
    refine (tsum_of_norm_bounded s3.hasSum fun j => ?_).trans (le_of_eq ?_)
    · have h3 := hd k (k - j)
      rw [sub_sub_cancel] at h3
      have h4 := hR j
      have hbk := br_pos k
      have hbj := br_pos (k - j)
      simp only [w]
      rw [norm_mul, Complex.norm_real, Real.norm_eq_abs, norm_mul, norm_wt]
      unfold pot
      rw [norm_mul]
      calc |b k - b (k - j)| * (‖c (k - j) z‖ * (‖ρ j‖ * ‖power2 c j z‖))
          ≤ (B * |(j : ℝ)| * (br k ^ (2 * q + 1) + br (k - j) ^ (2 * q + 1))) * (‖c (k - j) z‖ * (‖ρ j‖ * ‖power2 c j z‖)) := by gcongr
        _ = (|(j : ℝ)| * ‖ρ j‖) * (B * (br k ^ (2 * q + 1) + br (k - j) ^ (2 * q + 1)) * (‖c (k - j) z‖ * ‖power2 c j z‖)) := by ring
        _ ≤ R * (B * (br k ^ (2 * q + 1) + br (k - j) ^ (2 * q + 1)) * (‖c (k - j) z‖ * ‖power2 c j z‖)) := by gcongr
        _ = _ := by ring
    · rw [tsum_mul_left, (s1.mul_left _).tsum_add s2, tsum_mul_left]
  have t1 := tri_summable hw hc hc.power2 hz
  have t2 := tri_summable hc hw hc.power2 hz
  have h5 : ‖ip (fun k z => b k * c k z) (cubeR ρ c) z - (starRingEnd ℂ) (ip (fun k z => b k * c k z) (cubeR ρ c) z)‖ ≤
      B * R * (tri w c (power2 c) z + tri c w (power2 c) z) := by
    rw [h1]
    refine (tsum_of_norm_bounded ((t1.add t2).mul_left (B * R)).hasSum fun k => ?_).trans (le_of_eq ?_)
    · rw [norm_mul, RCLike.norm_conj]
      refine (mul_le_mul_of_nonneg_left (h2 k) (norm_nonneg _)).trans (le_of_eq ?_)
      simp only [w]
      rw [norm_wt]
      ring
    · rw [tsum_mul_left, t1.tsum_add t2]
      rfl
  rw [tri_swap hc hw hc.power2 hz (norm_power2_neg c)] at h5
  have h6 : ip (fun k z => b k * c k z) (cubeR ρ c) z - (starRingEnd ℂ) (ip (fun k z => b k * c k z) (cubeR ρ c) z) =
      ((2 * (ip (fun k z => b k * c k z) (cubeR ρ c) z).im : ℝ) : ℂ) * I := Complex.sub_conj _
  rw [h6, norm_mul, Complex.norm_I, mul_one, Complex.norm_real, Real.norm_eq_abs, abs_mul, abs_two] at h5
  have h7 := tri_le q hc hz
  have h8 := mul_le_mul_of_nonneg_left h7 (mul_nonneg hB hR0)
  simp only [w] at h5
  linarith

theorem width_le_mass (q : ℕ) (hc : Rapid J c) {z : ℝ} (hz : z ∈ J) : width c z ≤ mass (wt (q + 1) c) z := by
  refine (hc.summable_width hz).tsum_le_tsum (fun k => ?_) ((rapid_wt (q + 1) hc).summable_mass hz)
  rw [norm_wt, mul_pow, ← pow_mul]
  refine mul_le_mul_of_nonneg_right (pow_le_pow_right₀ (one_le_br k) (by omega)) (by positivity)

end PyNLO.Wiener
