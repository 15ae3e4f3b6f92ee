import Verif.Lemmas.WienerEnergy

/-! # Square-summable estimates of products of Fourier series -/

namespace PyNLO.Wiener

open Complex Set Filter Topology

variable {J : Set ℝ} {c : ℤ → ℝ → ℂ}

/-- Cauchy–Schwarz for series -/
theorem tsum_mul_le {u v : ℤ → ℝ} (hu : ∀ k, 0 ≤ u k) (hv : ∀ k, 0 ≤ v k) (hu2 : Summable fun k => u k ^ 2) (hv2 : Summable fun k => v k ^ 2) :
    (Summable fun k => u k * v k) ∧ ∑' k, u k * v k ≤ √(∑' k, u k ^ 2) * √(∑' k, v k ^ 2) := by
  have key : ∀ S : Finset ℤ, ∑ k ∈ S, u k * v k ≤ √(∑' k, u k ^ 2) * √(∑' k, v k ^ 2) := by
    intro S
    rw [← Real.sqrt_mul (tsum_nonneg fun k => sq_nonneg _)]
    refine Real.le_sqrt_of_sq_le ((Finset.sum_mul_sq_le_sq_mul_sq S u v).trans ?_)
    refine mul_le_mul (hu2.sum_le_tsum S fun k _ => sq_nonneg _) (hv2.sum_le_tsum S fun k _ => sq_nonneg _) (Finset.sum_nonneg fun k _ => sq_nonneg _)
      (tsum_nonneg fun k => sq_nonneg _)
  have hn : ∀ k, 0 ≤ u k * v k := fun k => mul_nonneg (hu k) (hv k)
  exact ⟨summable_of_sum_le hn key, Real.tsum_le_of_sum_le hn key⟩

/-- root of the energy -/
noncomputable def l2 (f : ℤ → ℝ → ℂ) (z : ℝ) : ℝ := √(mass f z)

/-- sum of magnitudes -/
noncomputable def l1 (f : ℤ → ℝ → ℂ) (z : ℝ) : ℝ := ∑' k, ‖f k z‖

/-- weighted family -/
noncomputable def wt (s : ℕ) (f : ℤ → ℝ → ℂ) (k : ℤ) (z : ℝ) : ℂ := ((br k ^ s : ℝ) : ℂ) * f k z

/-- magnitudes -/
noncomputable def mag (f : ℤ → ℝ → ℂ) (k : ℤ) (z : ℝ) : ℂ := (‖f k z‖ : ℂ)

theorem l2_nonneg (f : ℤ → ℝ → ℂ) (z : ℝ) : 0 ≤ l2 f z := Real.sqrt_nonneg _

theorem l1_nonneg (f : ℤ → ℝ → ℂ) (z : ℝ) : 0 ≤ l1 f z := tsum_nonneg fun _ => norm_nonneg _

theorem l2_sq (f : ℤ → ℝ → ℂ) (z : ℝ) : l2 f z ^ 2 = mass f z := Real.sq_sqrt (mass_nonneg f z)

theorem norm_mag (f : ℤ → ℝ → ℂ) (k : ℤ) (z : ℝ) : ‖mag f k z‖ = ‖f k z‖ := by
  unfold mag
  rw [Complex.norm_real, norm_norm]

theorem norm_wt (s : ℕ) (f : ℤ → ℝ → ℂ) (k : ℤ) (z : ℝ) : ‖wt s f k z‖ = br k ^ s * ‖f k z‖ := by
  have := br_pos k
  unfold wt
  rw [norm_mul, Complex.norm_real, Real.norm_of_nonneg (by positivity)]

theorem norm_opp (f : ℤ → ℝ → ℂ) (k : ℤ) (z : ℝ) : ‖opp f k z‖ = ‖f (-k) z‖ := RCLike.norm_conj _

theorem br_neg (k : ℤ) : br (-k) = br k := by
  unfold br
  push_cast
  rw [abs_neg]

theorem wt_tempered (s : ℕ) : Tempered fun k => ((br k ^ s : ℝ) : ℂ) := ⟨1, s, fun k => by
  have := br_pos k
  rw [Complex.norm_real, Real.norm_of_nonneg (by positivity), one_mul]⟩

theorem rapid_wt (s : ℕ) (hc : Rapid J c) : Rapid J (wt s c) := hc.mult (wt_tempered s)

theorem rapid_mag (hc : Rapid J c) : Rapid J (mag c) := fun s => by
  obtain ⟨C, h⟩ := hc s
  exact ⟨C, fun k z hz => by rw [norm_mag]; exact h k z hz⟩

theorem l2_congr {f h : ℤ → ℝ → ℂ} {z : ℝ} (e : ∀ k, ‖f k z‖ = ‖h k z‖) : l2 f z = l2 h z := by
  unfold l2 mass
  simp only [e]

theorem l2_opp (s : ℕ) (f : ℤ → ℝ → ℂ) (z : ℝ) : l2 (wt s (opp f)) z = l2 (wt s f) z := by
  unfold l2 mass
  rw [← (Equiv.neg ℤ).tsum_eq fun k => ‖wt s f k z‖ ^ 2]
  congr 1
  refine tsum_congr fun k => ?_
  rw [norm_wt, norm_opp, Equiv.neg_apply, norm_wt, br_neg]

theorem l1_opp (f : ℤ → ℝ → ℂ) (z : ℝ) : l1 (opp f) z = l1 f z := by
  unfold l1
  rw [← (Equiv.neg ℤ).tsum_eq fun k => ‖f k z‖]
  exact tsum_congr fun k => norm_opp f k z

theorem l2_mono {f h : ℤ → ℝ → ℂ} (hh : Rapid J h) (hf : Rapid J f) {z : ℝ} (hz : z ∈ J) (e : ∀ k, ‖f k z‖ ≤ ‖h k z‖) : l2 f z ≤ l2 h z := by
  refine Real.sqrt_le_sqrt ((hf.summable_mass hz).tsum_le_tsum (fun k => ?_) (hh.summable_mass hz))
  have := e k
  gcongr

theorem tsum_norm_ip_le {f h : ℤ → ℝ → ℂ} (hf : Rapid J f) (hh : Rapid J h) {z : ℝ} (hz : z ∈ J) : ∑' k, ‖f k z‖ * ‖h k z‖ ≤ l2 f z * l2 h z :=
  (tsum_mul_le (fun _ => norm_nonneg _) (fun _ => norm_nonneg _) (hf.summable_mass hz) (hh.summable_mass hz)).2

theorem l2_add_le {f h : ℤ → ℝ → ℂ} (hf : Rapid J f) (hh : Rapid J h) {z : ℝ} (hz : z ∈ J) : l2 (fun k z => f k z + h k z) z ≤ l2 f z + l2 h z := by
  refine Real.sqrt_le_iff.2 ⟨add_nonneg (l2_nonneg _ _) (l2_nonneg _ _), ?_⟩
  have h1 := tsum_mul_le (fun k => norm_nonneg (f k z)) (fun k => norm_nonneg (h k z)) (hf.summable_mass hz) (hh.summable_mass hz)
  have h2 := ((hf.summable_mass hz).add (h1.1.mul_left 2)).add (hh.summable_mass hz)
  calc mass (fun k z => f k z + h k z) z ≤ ∑' k, (‖f k z‖ ^ 2 + 2 * (‖f k z‖ * ‖h k z‖) + ‖h k z‖ ^ 2) := by
        refine ((hf.add hh).summable_mass hz).tsum_le_tsum (fun k => ?_) h2
        have := norm_add_le (f k z) (h k z)
        nlinarith [norm_nonneg (f k z + h k z)]
    _ = mass f z + 2 * (∑' k, ‖f k z‖ * ‖h k z‖) + mass h z := by
        rw [((hf.summable_mass hz).add (h1.1.mul_left 2)).tsum_add (hh.summable_mass hz), (hf.summable_mass hz).tsum_add (h1.1.mul_left 2), tsum_mul_left]
        rfl
    _ ≤ l2 f z ^ 2 + 2 * (l2 f z * l2 h z) + l2 h z ^ 2 := by
        rw [l2_sq, l2_sq]
        have := h1.2
        have e : √(∑' k, ‖f k z‖ ^ 2) * √(∑' k, ‖h k z‖ ^ 2) = l2 f z * l2 h z := rfl
        rw [e] at this
        linarith
    _ = (l2 f z + l2 h z) ^ 2 := by ring

theorem l2_const_mul (a : ℝ) (ha : 0 ≤ a) (f : ℤ → ℝ → ℂ) (z : ℝ) : l2 (fun k z => (a : ℂ) * f k z) z = a * l2 f z := by
  unfold l2 mass
  have : ∀ k, ‖(a : ℂ) * f k z‖ ^ 2 = a ^ 2 * ‖f k z‖ ^ 2 := fun k => by
    rw [norm_mul, Complex.norm_real, Real.norm_of_nonneg ha, mul_pow]
  simp only [this]
  rw [tsum_mul_left, Real.sqrt_mul (sq_nonneg _), Real.sqrt_sq ha]

/-- the second factor bounds the square of a row -/
theorem row_sq_le {f h : ℤ → ℂ} (hf : Summable fun k => ‖f k‖) (hh : Summable fun k => ‖h k‖ ^ 2) {B : ℝ} (hB : ∀ k, ‖h k‖ ≤ B) (k : ℤ) :
    ‖∑' j, f (k - j) * h j‖ ^ 2 ≤ (∑' j, ‖f j‖) * ∑' j, ‖f (k - j)‖ * ‖h j‖ ^ 2 := by
  have hf1 := summable_flip hf k
  obtain ⟨C, hC⟩ : ∃ C, ∀ j, ‖f j‖ ≤ C := ⟨∑' j, ‖f j‖, fun j => hf.le_tsum j fun _ _ => norm_nonneg _⟩
  have h2 : Summable fun j => ‖f (k - j)‖ * ‖h j‖ ^ 2 := (hh.mul_left C).of_nonneg_of_le (fun _ => by positivity) fun j =>
    mul_le_mul_of_nonneg_right (hC _) (by positivity)
  have e1 : ∀ j, √‖f (k - j)‖ ^ 2 = ‖f (k - j)‖ := fun j => Real.sq_sqrt (norm_nonneg _)
  have e2 : ∀ j, (√‖f (k - j)‖ * ‖h j‖) ^ 2 = ‖f (k - j)‖ * ‖h j‖ ^ 2 := fun j => by rw [mul_pow, e1]
  have h3 := tsum_mul_le (u := fun j => √‖f (k - j)‖) (v := fun j => √‖f (k - j)‖ * ‖h j‖) (fun _ => Real.sqrt_nonneg _) (fun _ => by positivity)
    (by simp only [e1]; exact hf1) (by simp only [e2]; exact h2)
  simp only [e1, e2] at h3
  rw [tsum_flip (fun j => ‖f j‖) k] at h3
  have e3 : ∀ j, √‖f (k - j)‖ * (√‖f (k - j)‖ * ‖h j‖) = ‖f (k - j) * h j‖ := fun j => by
    rw [← mul_assoc, Real.mul_self_sqrt (norm_nonneg _), norm_mul]
  simp only [e3] at h3
  have h4 : ‖∑' j, f (k - j) * h j‖ ≤ ∑' j, ‖f (k - j) * h j‖ := norm_tsum_le_tsum_norm h3.1
  have h5 := h4.trans h3.2
  have h6 : 0 ≤ ∑' j, ‖f j‖ := tsum_nonneg fun _ => norm_nonneg _
  have h7 : 0 ≤ ∑' j, ‖f (k - j)‖ * ‖h j‖ ^ 2 := tsum_nonneg fun _ => by positivity
  calc _ ≤ (√(∑' j, ‖f j‖) * √(∑' j, ‖f (k - j)‖ * ‖h j‖ ^ 2)) ^ 2 := by gcongr
    _ = _ := by rw [mul_pow, Real.sq_sqrt h6, Real.sq_sqrt h7]

/-- Young's inequality -/
theorem l2_fold_le {f h : ℤ → ℝ → ℂ} (hf : Rapid J f) (hh : Rapid J h) {z : ℝ} (hz : z ∈ J) : l2 (fold f h) z ≤ l1 f z * l2 h z := by
  refine Real.sqrt_le_iff.2 ⟨mul_nonneg (l1_nonneg _ _) (l2_nonneg _ _), ?_⟩
  have hs2 : Summable fun k => ‖((‖h k z‖ ^ 2 : ℝ) : ℂ)‖ := (hh.summable_mass hz).congr fun k => by
    rw [Complex.norm_real, Real.norm_of_nonneg (by positivity)]
  have hpair := summable_pair (mk (fun k => f k z) (hf.summable hz)) (mk (fun k => ((‖h k z‖ ^ 2 : ℝ) : ℂ)) hs2)
  have hval := tsum_pair (mk (fun k => f k z) (hf.summable hz)) (mk (fun k => ((‖h k z‖ ^ 2 : ℝ) : ℂ)) hs2)
  rw [hpair.tsum_prod, norm_eq, norm_eq] at hval
  simp only [mk_apply, Complex.norm_real, norm_pow, norm_norm] at hval hpair
  obtain ⟨B, -, hB⟩ := hh.bound 0
  have hrow : ∀ k, ‖fold f h k z‖ ^ 2 ≤ l1 f z * ∑' j, ‖f (k - j) z‖ * ‖h j z‖ ^ 2 := fun k =>
    row_sq_le (f := fun k => f k z) (h := fun k => h k z) (hf.summable hz) (hh.summable_mass hz) (B := B) (fun k => by simpa using hB k z hz) k
  calc mass (fold f h) z ≤ ∑' k, l1 f z * ∑' j, ‖f (k - j) z‖ * ‖h j z‖ ^ 2 :=
        ((hf.fold hh).summable_mass hz).tsum_le_tsum hrow (hpair.prod.mul_left _)
    _ = l1 f z * (l1 f z * mass h z) := by
        rw [tsum_mul_left, hval]
        rfl
    _ = (l1 f z * l2 h z) ^ 2 := by
        rw [mul_pow, l2_sq]
        ring

theorem fold_comm (f h : ℤ → ℝ → ℂ) : fold f h = fold h f := by
  funext k z
  unfold fold
  rw [← (Equiv.subLeft k).tsum_eq fun j => f (k - j) z * h j z]
  refine tsum_congr fun j => ?_
  rw [Equiv.subLeft_apply, sub_sub_cancel, mul_comm]

theorem fold_assoc {f h v : ℤ → ℝ → ℂ} (hf : Rapid J f) (hh : Rapid J h) (hv : Rapid J v) {z : ℝ} (hz : z ∈ J) (k : ℤ) :
    fold (fold f h) v k z = fold f (fold h v) k z := by
  let F : ℤ × ℤ → ℂ := fun q => f (k - q.1) z * (h (q.1 - q.2) z * v q.2 z)
  have hF : Summable F := by
    obtain ⟨C, hC, h1⟩ := hf.bound 0
    have h2 := (summable_pair (mk (fun k => h k z) (hh.summable hz)) (mk (fun k => v k z) (hv.summable hz))).mul_left C
    refine Summable.of_norm_bounded h2 fun q => ?_
    simp only [F, mk_apply]
    have h3 := h1 (k - q.1) z hz
    rw [pow_zero, one_div_one, mul_one] at h3
    rw [norm_mul, norm_mul]
    gcongr
  have h1 : fold (fold f h) v k z = ∑' i, ∑' m, F (m, i) := by
    show ∑' i, fold f h (k - i) z * v i z = _
    refine tsum_congr fun i => ?_
    rw [← (Equiv.addRight i).tsum_eq fun m => F (m, i)]
    unfold fold
    rw [← tsum_mul_right]
    refine tsum_congr fun n => ?_
    simp only [F, Equiv.coe_addRight, show k - (n + i) = k - i - n by ring, add_sub_cancel_right]
    ring
  have h2 : fold f (fold h v) k z = ∑' m, ∑' i, F (m, i) := by
    show ∑' m, f (k - m) z * fold h v m z = _
    refine tsum_congr fun m => ?_
    unfold fold
    rw [← tsum_mul_left]
  rw [h1, h2]
  exact Summable.tsum_comm (f := fun m i => F (m, i)) hF

theorem br_add_pow (k j : ℤ) (s : ℕ) : br k ^ s ≤ 2 ^ s * (br (k - j) ^ s + br j ^ s) := by
  have h1 := br_pos (k - j)
  have h2 := br_pos j
  have h3 : br k ≤ br (k - j) + br j := by
    unfold br
    have := abs_add_le ((k : ℝ) - j) j
    rw [sub_add_cancel] at this
    push_cast
    linarith
  have h4 : br k ≤ 2 * max (br (k - j)) (br j) := by
    have := le_max_left (br (k - j)) (br j)
    have := le_max_right (br (k - j)) (br j)
    linarith
  have h0 := br_pos k
  calc br k ^ s ≤ (2 * max (br (k - j)) (br j)) ^ s := by gcongr
    _ = 2 ^ s * max (br (k - j)) (br j) ^ s := mul_pow _ _ _
    _ ≤ _ := by
        refine mul_le_mul_of_nonneg_left ?_ (by positivity)
        rcases max_cases (br (k - j)) (br j) with ⟨e, -⟩ | ⟨e, -⟩ <;> rw [e]
        · exact le_add_of_nonneg_right (by positivity)
        · exact le_add_of_nonneg_left (by positivity)

theorem fold_mag_nonneg (f h : ℤ → ℝ → ℂ) (k : ℤ) (z : ℝ) : fold (mag f) (mag h) k z = ((∑' j, ‖f (k - j) z‖ * ‖h j z‖ : ℝ) : ℂ) := by
  unfold fold mag
  rw [Complex.ofReal_tsum]
  refine tsum_congr fun j => ?_
  push_cast
  rfl

theorem mag_wt (s : ℕ) (f : ℤ → ℝ → ℂ) (k : ℤ) (z : ℝ) : mag (wt s f) k z = ((br k ^ s * ‖f k z‖ : ℝ) : ℂ) := by
  unfold mag
  rw [norm_wt]

theorem summable_norm_fold {f h : ℤ → ℝ → ℂ} (hf : Rapid J f) (hh : Rapid J h) {z : ℝ} (hz : z ∈ J) (k : ℤ) : Summable fun j => ‖f (k - j) z‖ * ‖h j z‖ := by
  have := (summable_fold hf hh k hz).norm
  exact this.congr fun j => norm_mul _ _

/-- weighted products -/
theorem l2_wt_fold_le (s : ℕ) {f h : ℤ → ℝ → ℂ} (hf : Rapid J f) (hh : Rapid J h) {z : ℝ} (hz : z ∈ J) :
    l2 (wt s (fold f h)) z ≤ 2 ^ s * (l2 (wt s f) z * l1 h z + l1 f z * l2 (wt s h) z) := by
  have hwf := rapid_wt s hf
  have hwh := rapid_wt s hh
  have hA := (rapid_mag hwf).fold (rapid_mag hh)
  have hB := (rapid_mag hf).fold (rapid_mag hwh)
  have h1 : ∀ k, ‖wt s (fold f h) k z‖ ≤ ‖((2 ^ s : ℝ) : ℂ) * (fold (mag (wt s f)) (mag h) k z + fold (mag f) (mag (wt s h)) k z)‖ := by
    intro k
    rw [fold_mag_nonneg, fold_mag_nonneg, ← Complex.ofReal_add, ← Complex.ofReal_mul, Complex.norm_real, norm_wt]
    have s1 := summable_norm_fold hwf hh hz k
    have s2 := summable_norm_fold hf hwh hz k
    have s0 := summable_norm_fold hf hh hz k
    refine le_trans ?_ (le_abs_self _)
    have hb := br_pos k
    calc br k ^ s * ‖fold f h k z‖ ≤ br k ^ s * ∑' j, ‖f (k - j) z‖ * ‖h j z‖ := by
          refine mul_le_mul_of_nonneg_left ?_ (by positivity)
          refine (norm_tsum_le_tsum_norm (summable_fold hf hh k hz).norm).trans (le_of_eq (tsum_congr fun j => norm_mul _ _))
      _ = ∑' j, br k ^ s * (‖f (k - j) z‖ * ‖h j z‖) := tsum_mul_left.symm
      _ ≤ ∑' j, 2 ^ s * (‖wt s f (k - j) z‖ * ‖h j z‖ + ‖f (k - j) z‖ * ‖wt s h j z‖) := by
          refine (s0.mul_left _).tsum_le_tsum (fun j => ?_) ((s1.add s2).mul_left _)
          rw [norm_wt, norm_wt]
          have := mul_le_mul_of_nonneg_right (br_add_pow k j s) (mul_nonneg (norm_nonneg (f (k - j) z)) (norm_nonneg (h j z)))
          refine this.trans (le_of_eq ?_)
          ring
      _ = 2 ^ s * ((∑' j, ‖wt s f (k - j) z‖ * ‖h j z‖) + ∑' j, ‖f (k - j) z‖ * ‖wt s h j z‖) := by rw [tsum_mul_left, s1.tsum_add s2]
  have hr : Rapid J fun k z => ((2 ^ s : ℝ) : ℂ) * (fold (mag (wt s f)) (mag h) k z + fold (mag f) (mag (wt s h)) k z) :=
    (hA.add hB).mult (const_tempered _)
  refine (l2_mono hr (rapid_wt s (hf.fold hh)) hz h1).trans ?_
  rw [l2_const_mul _ (by positivity) (fun k z => fold (mag (wt s f)) (mag h) k z + fold (mag f) (mag (wt s h)) k z)]
  refine mul_le_mul_of_nonneg_left ((l2_add_le hA hB hz).trans (add_le_add ?_ ?_)) (by positivity)
  · rw [fold_comm]
    refine (l2_fold_le (rapid_mag hh) (rapid_mag hwf) hz).trans (le_of_eq ?_)
    rw [mul_comm, l2_congr (norm_mag (wt s f) · z)]
    unfold l1
    simp only [norm_mag]
  · refine (l2_fold_le (rapid_mag hf) (rapid_mag hwh) hz).trans (le_of_eq ?_)
    rw [l2_congr (norm_mag (wt s h) · z)]
    unfold l1
    simp only [norm_mag]

/-! ## interpolation -/

theorem sum_recip_le {s : ℝ} (hs : 0 < s) (N : ℕ) : ∑ k ∈ Finset.Icc (-(N : ℤ)) N, 1 / (s + br k) ^ 2 ≤ 2 / s - 2 / (s + N + 1) := by
  have tele : ∀ x : ℝ, 0 < x → 1 / (x + 1) ^ 2 ≤ 1 / x - 1 / (x + 1) := fun x hx => by
    rw [div_sub_div _ _ hx.ne' (by positivity), div_le_div_iff₀ (by positivity) (by positivity)]
    nlinarith
  induction N with
  | zero =>
    simp only [Nat.cast_zero, neg_zero, Finset.Icc_self, Finset.sum_singleton, br, Int.cast_zero, abs_zero, add_zero]
    have h := tele s hs
    have h2 : 0 ≤ 1 / s - 1 / (s + 1) := le_trans (by positivity) h
    have e : 2 / s - 2 / (s + 1) = 2 * (1 / s - 1 / (s + 1)) := by ring
    rw [e]
    linarith
  | succ N ih =>
    have e : Finset.Icc (-((N + 1 : ℕ) : ℤ)) ((N + 1 : ℕ) : ℤ) = insert ((N + 1 : ℕ) : ℤ) (insert (-((N + 1 : ℕ) : ℤ)) (Finset.Icc (-(N : ℤ)) N)) := by
      ext x
      simp only [Finset.mem_Icc, Finset.mem_insert]
      omega
    rw [e, Finset.sum_insert (by simp only [Finset.mem_insert, Finset.mem_Icc]; omega), Finset.sum_insert (by simp only [Finset.mem_Icc]; omega), br_neg]
    have hbr : br ((N + 1 : ℕ) : ℤ) = N + 1 + 1 := by
      unfold br
      push_cast
      rw [abs_of_nonneg (by positivity)]
      ring
    rw [hbr]
    have h := tele (s + N + 1) (by positivity)
    have e2 : s + ((N : ℝ) + 1 + 1) = s + N + 1 + 1 := by ring
    have e3 : s + ((N + 1 : ℕ) : ℝ) + 1 = s + N + 1 + 1 := by push_cast; ring
    rw [e2, e3]
    have e4 : 2 / (s + N + 1) = 2 * (1 / (s + N + 1)) := by ring
    have e5 : 2 / (s + N + 1 + 1) = 2 * (1 / (s + N + 1 + 1)) := by ring
    rw [e4] at ih
    rw [e5]
    linarith

theorem sum_recip_le' {s : ℝ} (hs : 0 < s) (S : Finset ℤ) : ∑ k ∈ S, 1 / (s + br k) ^ 2 ≤ 2 / s := by
  obtain ⟨N, hN⟩ : ∃ N : ℕ, S ⊆ Finset.Icc (-(N : ℤ)) N := by
    refine ⟨S.sup Int.natAbs, fun k hk => ?_⟩
    have := Finset.le_sup (f := Int.natAbs) hk
    rw [Finset.mem_Icc]
    omega
  refine (Finset.sum_le_sum_of_subset_of_nonneg hN fun k _ _ => by positivity).trans ((sum_recip_le hs N).trans ?_)
  have : 0 ≤ 2 / (s + N + 1) := by positivity
  linarith

theorem l1_sq_le (hc : Rapid J c) {z : ℝ} (hz : z ∈ J) {s : ℝ} (hs : 0 < s) : l1 c z ^ 2 ≤ 2 / s * (2 * (s ^ 2 * mass c z + mass (wt 1 c) z)) := by
  have hm := hc.summable_mass hz
  have hw := (rapid_wt 1 hc).summable_mass hz
  have hpos : ∀ k, 0 < s + br k := fun k => by have := br_pos k; positivity
  have hs' := (((hm.mul_left (s ^ 2)).add hw).mul_left 2)
  have hterm : ∀ k, (s + br k) ^ 2 * ‖c k z‖ ^ 2 ≤ 2 * (s ^ 2 * ‖c k z‖ ^ 2 + ‖wt 1 c k z‖ ^ 2) := fun k => by
    rw [norm_wt, pow_one]
    nlinarith [mul_nonneg (sq_nonneg (s - br k)) (sq_nonneg ‖c k z‖)]
  have key : ∀ S : Finset ℤ, ∑ k ∈ S, ‖c k z‖ ≤ √(2 / s * (2 * (s ^ 2 * mass c z + mass (wt 1 c) z))) := by
    intro S
    refine Real.le_sqrt_of_sq_le ?_
    refine (Finset.sum_sq_le_sum_mul_sum_of_sq_le_mul S (r := fun k => ‖c k z‖) (f := fun k => 1 / (s + br k) ^ 2) (g := fun k => (s + br k) ^ 2 * ‖c k z‖ ^ 2)
      (fun k _ => by positivity) (fun k _ => by positivity) (fun k _ => le_of_eq (by have := (hpos k).ne'; field_simp))).trans ?_
    refine mul_le_mul (sum_recip_le' hs S) ?_ (Finset.sum_nonneg fun k _ => by positivity) (by positivity)
    refine (Finset.sum_le_sum fun k _ => hterm k).trans ((hs'.sum_le_tsum S fun k _ => by positivity).trans (le_of_eq ?_))
    rw [tsum_mul_left, (hm.mul_left (s ^ 2)).tsum_add hw, tsum_mul_left]
    rfl
  have h5 := Real.tsum_le_of_sum_le (fun k => norm_nonneg (c k z)) key
  have h6 := mass_nonneg c z
  have h7 := mass_nonneg (wt 1 c) z
  calc l1 c z ^ 2 ≤ √(2 / s * (2 * (s ^ 2 * mass c z + mass (wt 1 c) z))) ^ 2 := by
        have := l1_nonneg c z
        gcongr
        exact h5
    _ = _ := Real.sq_sqrt (by positivity)

/-- Agmon's inequality -/
theorem l1_sq_le_l2 (hc : Rapid J c) {z : ℝ} (hz : z ∈ J) : l1 c z ^ 2 ≤ 8 * (l2 c z * l2 (wt 1 c) z) := by
  rcases (l2_nonneg c z).eq_or_lt with h0 | h0
  · have hm : mass c z = 0 := by rw [← l2_sq, ← h0]; norm_num
    have hzero : ∀ k, c k z = 0 := fun k => by
      have := ((hc.summable_mass hz).hasSum_iff.2 hm)
      have h1 := (hasSum_zero_iff_of_nonneg fun k => sq_nonneg ‖c k z‖).1 this
      have := congrFun h1 k
      simpa using this
    unfold l1
    simp only [hzero, norm_zero, tsum_zero]
    have := mul_nonneg (l2_nonneg c z) (l2_nonneg (wt 1 c) z)
    rw [zero_pow two_ne_zero]
    linarith
  · have hle : l2 c z ≤ l2 (wt 1 c) z := l2_mono (rapid_wt 1 hc) hc hz fun k => by
      rw [norm_wt, pow_one]
      exact le_mul_of_one_le_left (norm_nonneg _) (one_le_br k)
    have h1 : 0 < l2 (wt 1 c) z := h0.trans_le hle
    have := l1_sq_le hc hz (s := l2 (wt 1 c) z / l2 c z) (by positivity)
    refine this.trans (le_of_eq ?_)
    rw [← l2_sq, ← l2_sq]
    field_simp
    ring

/-- Chebyshev's inequality for the moments of the spectrum -/
theorem moments_le (hc : Rapid J c) {z : ℝ} (hz : z ∈ J) (q : ℕ) : l2 (wt 1 c) z * l2 (wt q c) z ≤ l2 c z * l2 (wt (q + 1) c) z := by
  have hm := hc.summable_mass hz
  have h1 := (rapid_wt 1 hc).summable_mass hz
  have hq := (rapid_wt q hc).summable_mass hz
  have hq1 := (rapid_wt (q + 1) hc).summable_mass hz
  rcases (l2_nonneg c z).eq_or_lt with h0 | h0
  · have hmz : mass c z = 0 := by rw [← l2_sq, ← h0]; norm_num
    have hzero : ∀ k, c k z = 0 := fun k => by
      have := (hm.hasSum_iff.2 hmz)
      have h1 := (hasSum_zero_iff_of_nonneg fun k => sq_nonneg ‖c k z‖).1 this
      have := congrFun h1 k
      simpa using this
    have e : l2 (wt 1 c) z = 0 := by
      unfold l2 mass
      simp [wt, hzero]
    rw [e, ← h0, zero_mul, zero_mul]
  · have hmpos : 0 < mass c z := by rw [← l2_sq]; positivity
    let t : ℝ := mass (wt 1 c) z / mass c z
    have ht : 0 ≤ t := div_nonneg (mass_nonneg _ _) hmpos.le
    have htm : t * mass c z = mass (wt 1 c) z := div_mul_cancel₀ _ hmpos.ne'
    have hpt : ∀ k, 0 ≤ ‖wt (q + 1) c k z‖ ^ 2 - t ^ q * ‖wt 1 c k z‖ ^ 2 - t * ‖wt q c k z‖ ^ 2 + t ^ (q + 1) * ‖c k z‖ ^ 2 := by
      intro k
      have hb := br_pos k
      rw [norm_wt, norm_wt, norm_wt, pow_one]
      have e : (br k ^ (q + 1) * ‖c k z‖) ^ 2 - t ^ q * (br k * ‖c k z‖) ^ 2 - t * (br k ^ q * ‖c k z‖) ^ 2 + t ^ (q + 1) * ‖c k z‖ ^ 2 =
          (br k ^ 2 - t) * ((br k ^ 2) ^ q - t ^ q) * ‖c k z‖ ^ 2 := by ring
      rw [e]
      refine mul_nonneg ?_ (sq_nonneg _)
      rcases le_total (br k ^ 2) t with h | h
      · exact mul_nonneg_of_nonpos_of_nonpos (by linarith) (by have := pow_le_pow_left₀ (by positivity) h q; linarith)
      · exact mul_nonneg (by linarith) (by have := pow_le_pow_left₀ ht h q; linarith)
    have hsum : 0 ≤ mass (wt (q + 1) c) z - t ^ q * mass (wt 1 c) z - t * mass (wt q c) z + t ^ (q + 1) * mass c z := by
      have := tsum_nonneg (L := SummationFilter.unconditional ℤ) hpt
      rw [((hq1.sub (h1.mul_left (t ^ q))).sub (hq.mul_left t)).tsum_add (hm.mul_left (t ^ (q + 1))),
        (hq1.sub (h1.mul_left (t ^ q))).tsum_sub (hq.mul_left t), hq1.tsum_sub (h1.mul_left (t ^ q)), tsum_mul_left, tsum_mul_left, tsum_mul_left] at this
      exact this
    have h2 : t * mass (wt q c) z ≤ mass (wt (q + 1) c) z := by
      rw [← htm] at hsum
      have : t ^ q * (t * mass c z) = t ^ (q + 1) * mass c z := by ring
      rw [this] at hsum
      linarith
    have h3 : mass (wt 1 c) z * mass (wt q c) z ≤ mass c z * mass (wt (q + 1) c) z := by
      rw [← htm]
      calc t * mass c z * mass (wt q c) z = mass c z * (t * mass (wt q c) z) := by ring
        _ ≤ _ := mul_le_mul_of_nonneg_left h2 hmpos.le
    unfold l2
    rw [← Real.sqrt_mul (mass_nonneg _ _), ← Real.sqrt_mul (mass_nonneg _ _)]
    exact Real.sqrt_le_sqrt h3

end PyNLO.Wiener
