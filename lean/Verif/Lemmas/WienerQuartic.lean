import Verif.Lemmas.WienerTame

/-! # Sums over four waves whose frequencies match -/

namespace PyNLO.Wiener

open Complex Set Filter Topology

variable {J : Set ℝ} {c : ℤ → ℝ → ℂ}

/-- three frequencies; the fourth is `k + m - l` -/
abbrev Tri := ℤ × ℤ × ℤ

/-- the fourth frequency -/
def last (q : Tri) : ℤ := q.1 + q.2.1 - q.2.2

/-- exchange of the first two waves -/
def swapT : Tri ≃ Tri where
  toFun q := (q.2.1, q.1, q.2.2)
  invFun q := (q.2.1, q.1, q.2.2)
  left_inv _ := rfl
  right_inv _ := rfl

/-- exchange of the first two and the last two waves -/
def flipT : Tri ≃ Tri where
  toFun q := (q.2.2, q.1 + q.2.1 - q.2.2, q.1)
  invFun q := (q.2.2, q.1 + q.2.1 - q.2.2, q.1)
  left_inv q := by ext <;> simp
  right_inv q := by ext <;> simp

/-- sum of the first two frequencies instead of the first -/
def sumT : Tri ≃ Tri where
  toFun q := (q.1 - q.2.1, q.2.1, q.2.2)
  invFun q := (q.1 + q.2.1, q.2.1, q.2.2)
  left_inv q := by ext <;> simp
  right_inv q := by ext <;> simp

/-- first frequency innermost -/
def lastT : Tri ≃ (ℤ × ℤ) × ℤ where
  toFun q := ((q.2.1, q.2.2), q.1)
  invFun p := (p.2, p.1.1, p.1.2)
  left_inv _ := rfl
  right_inv _ := rfl

theorem last_swap (q : Tri) : last (swapT q) = last q := by
  show q.2.1 + q.1 - q.2.2 = q.1 + q.2.1 - q.2.2
  ring

theorem last_flip (q : Tri) : last (flipT q) = q.2.1 := by
  show q.2.2 + (q.1 + q.2.1 - q.2.2) - q.1 = q.2.1
  ring

/-! ## nonnegative sums -/

/-- summand -/
def r4 (x1 x2 x3 x4 : ℤ → ℝ) (q : Tri) : ℝ := x1 q.1 * (x2 q.2.1 * x3 q.2.2) * x4 (last q)

theorem r4_nonneg {x1 x2 x3 x4 : ℤ → ℝ} (h1 : ∀ k, 0 ≤ x1 k) (h2 : ∀ k, 0 ≤ x2 k) (h3 : ∀ k, 0 ≤ x3 k) (h4 : ∀ k, 0 ≤ x4 k) (q : Tri) : 0 ≤ r4 x1 x2 x3 x4 q := by
  have := h1 q.1
  have := h2 q.2.1
  have := h3 q.2.2
  have := h4 (last q)
  unfold r4
  positivity

theorem r4_swap (x1 x2 x3 x4 : ℤ → ℝ) : ∑' q, r4 x1 x2 x3 x4 q = ∑' q, r4 x2 x1 x3 x4 q := by
  rw [← swapT.tsum_eq]
  refine tsum_congr fun q => ?_
  unfold r4
  rw [last_swap]
  show x1 q.2.1 * (x2 q.1 * _) * _ = _
  rw [show (swapT q).2.2 = q.2.2 from rfl]
  ring

theorem r4_flip (x1 x2 x3 x4 : ℤ → ℝ) : ∑' q, r4 x1 x2 x3 x4 q = ∑' q, r4 x3 x4 x1 x2 q := by
  rw [← flipT.tsum_eq]
  refine tsum_congr fun q => ?_
  unfold r4
  rw [last_flip]
  show x1 q.2.2 * (x2 (last q) * x3 q.1) * _ = _
  ring

theorem summable_triple {x1 x2 x3 : ℤ → ℝ} (h1 : ∀ k, 0 ≤ x1 k) (h2 : ∀ k, 0 ≤ x2 k) (h3 : ∀ k, 0 ≤ x3 k) (s1 : Summable x1) (s2 : Summable x2) (s3 : Summable x3) :
    Summable fun q : Tri => x1 q.1 * (x2 q.2.1 * x3 q.2.2) :=
  s1.mul_of_nonneg (g := fun p : ℤ × ℤ => x2 p.1 * x3 p.2) (s2.mul_of_nonneg s3 h2 h3) h1 fun p => mul_nonneg (h2 p.1) (h3 p.2)

theorem r4_summable {x1 x2 x3 x4 : ℤ → ℝ} (h1 : ∀ k, 0 ≤ x1 k) (h2 : ∀ k, 0 ≤ x2 k) (h3 : ∀ k, 0 ≤ x3 k) (h4 : ∀ k, 0 ≤ x4 k)
    (s1 : Summable x1) (s2 : Summable x2) (s3 : Summable x3) {B : ℝ} (hB : ∀ k, x4 k ≤ B) : Summable (r4 x1 x2 x3 x4) := by
  refine Summable.of_nonneg_of_le (r4_nonneg h1 h2 h3 h4) (fun q => ?_) ((summable_triple h1 h2 h3 s1 s2 s3).mul_right B)
  exact mul_le_mul_of_nonneg_left (hB _) (mul_nonneg (h1 _) (mul_nonneg (h2 _) (h3 _)))

theorem summable_shift {x : ℤ → ℝ} (h : Summable x) (d : ℤ) : Summable fun k => x (k + d) := (Equiv.addRight d).summable_iff.2 h

theorem tsum_shift (x : ℤ → ℝ) (d : ℤ) : ∑' k, x (k + d) = ∑' k, x k := (Equiv.addRight d).tsum_eq x

/-- base estimate: square sums for the first and the last wave -/
theorem r4_le {x1 x2 x3 x4 : ℤ → ℝ} (h1 : ∀ k, 0 ≤ x1 k) (h2 : ∀ k, 0 ≤ x2 k) (h3 : ∀ k, 0 ≤ x3 k) (h4 : ∀ k, 0 ≤ x4 k)
    (s1 : Summable x1) (s2 : Summable x2) (s3 : Summable x3) {B : ℝ} (hB : ∀ k, x4 k ≤ B) (q1 : Summable fun k => x1 k ^ 2) (q4 : Summable fun k => x4 k ^ 2) :
    ∑' q, r4 x1 x2 x3 x4 q ≤ (∑' k, x2 k) * (∑' k, x3 k) * (√(∑' k, x1 k ^ 2) * √(∑' k, x4 k ^ 2)) := by
  have hs := r4_summable h1 h2 h3 h4 s1 s2 s3 hB
  have hs' : Summable fun p : (ℤ × ℤ) × ℤ => r4 x1 x2 x3 x4 (lastT.symm p) := lastT.symm.summable_iff.2 hs
  rw [← lastT.symm.tsum_eq, hs'.tsum_prod]
  have hrow : ∀ p : ℤ × ℤ, ∑' k, r4 x1 x2 x3 x4 (lastT.symm (p, k)) ≤ x2 p.1 * x3 p.2 * (√(∑' k, x1 k ^ 2) * √(∑' k, x4 k ^ 2)) := by
    intro p
    have e : ∀ k, r4 x1 x2 x3 x4 (lastT.symm (p, k)) = x2 p.1 * x3 p.2 * (x1 k * x4 (k + (p.1 - p.2))) := by
      intro k
      show x1 k * (x2 p.1 * x3 p.2) * x4 (k + p.1 - p.2) = _
      rw [show k + p.1 - p.2 = k + (p.1 - p.2) by ring]
      ring
    simp only [e]
    rw [tsum_mul_left]
    refine mul_le_mul_of_nonneg_left ?_ (mul_nonneg (h2 _) (h3 _))
    have q4' := summable_shift q4 (p.1 - p.2)
    have e4 := tsum_shift (fun k => x4 k ^ 2) (p.1 - p.2)
    have h := (tsum_mul_le h1 (fun k => h4 (k + (p.1 - p.2))) q1 q4').2
    rw [e4] at h
    exact h
  have h23 := s2.mul_of_nonneg s3 h2 h3
  refine (hs'.prod.tsum_le_tsum hrow (h23.mul_right _)).trans (le_of_eq ?_)
  rw [tsum_mul_right, ← s2.tsum_mul_tsum s3 h23]

/-- the same for a bounded range of the sum of the first two frequencies -/
theorem r4_band_le {x y : ℤ → ℝ} (h1 : ∀ k, 0 ≤ x k) (h3 : ∀ k, 0 ≤ y k) (sx : Summable x) (sy : Summable y) {B : ℝ} (hB : ∀ k, y k ≤ B)
    (q1 : Summable fun k => x k ^ 2) (q3 : Summable fun k => y k ^ 2) (A : Finset ℤ) :
    ∑' q : Tri, (if q.1 + q.2.1 ∈ A then r4 x x y y q else 0) ≤ A.card * ((∑' k, x k ^ 2) * ∑' k, y k ^ 2) := by
  have hs := r4_summable h1 h1 h3 h3 sx sx sy hB
  have hsi : Summable fun q : Tri => if q.1 + q.2.1 ∈ A then r4 x x y y q else 0 := by
    refine Summable.of_nonneg_of_le (fun q => ?_) (fun q => ?_) hs
    · split_ifs
      · exact r4_nonneg h1 h1 h3 h3 q
      · exact le_rfl
    · split_ifs
      · exact le_rfl
      · exact r4_nonneg h1 h1 h3 h3 q
  have hs' := sumT.summable_iff.2 hsi
  have h0x : 0 ≤ ∑' k, x k ^ 2 := tsum_nonneg fun k => sq_nonneg _
  have h0y : 0 ≤ ∑' k, y k ^ 2 := tsum_nonneg fun k => sq_nonneg _
  rw [← sumT.tsum_eq]
  have hs2 : Summable fun p : ℤ × (ℤ × ℤ) => ((fun q : Tri => if q.1 + q.2.1 ∈ A then r4 x x y y q else 0) ∘ sumT) p := hs'
  have e0 : ∑' q : Tri, (fun q : Tri => if q.1 + q.2.1 ∈ A then r4 x x y y q else 0) (sumT q) =
      ∑' S : ℤ, ∑' p : ℤ × ℤ, if S ∈ A then x (S - p.1) * (x p.1 * y p.2) * y (S - p.2) else 0 := by
    rw [show (∑' q : Tri, (fun q : Tri => if q.1 + q.2.1 ∈ A then r4 x x y y q else 0) (sumT q)) = _ from hs2.tsum_prod]
    refine tsum_congr fun S => tsum_congr fun p => ?_
    show (if S - p.1 + p.1 ∈ A then x (S - p.1) * (x p.1 * y p.2) * y (S - p.1 + p.1 - p.2) else 0) = _
    rw [sub_add_cancel]
  rw [e0]
  have e1 : ∀ S ∉ A, ∑' p : ℤ × ℤ, (if S ∈ A then x (S - p.1) * (x p.1 * y p.2) * y (S - p.2) else 0) = 0 := by
    intro S hS
    simp only [if_neg hS, tsum_zero]
  rw [tsum_eq_sum e1]
  refine (Finset.sum_le_card_nsmul A _ ((∑' k, x k ^ 2) * ∑' k, y k ^ 2) fun S hS => ?_).trans (le_of_eq (nsmul_eq_mul _ _))
  simp only [if_pos hS]
  have cs : ∀ w : ℤ → ℝ, (∀ k, 0 ≤ w k) → Summable (fun k => w k ^ 2) → Summable (fun j => w (S - j) * w j) ∧ ∑' j, w (S - j) * w j ≤ ∑' k, w k ^ 2 := by
    intro w hw sw
    have sw' := summable_flip sw S
    constructor
    · refine Summable.of_nonneg_of_le (fun j => mul_nonneg (hw _) (hw _)) (fun j => ?_) ((sw'.add sw).div_const 2)
      nlinarith [sq_nonneg (w (S - j) - w j)]
    · refine (tsum_mul_le (fun j => hw (S - j)) hw sw' sw).2.trans (le_of_eq ?_)
      rw [tsum_flip (fun k => w k ^ 2) S]
      exact Real.mul_self_sqrt (tsum_nonneg fun k => sq_nonneg _)
  obtain ⟨sx', hx'⟩ := cs x h1 q1
  obtain ⟨sy', hy'⟩ := cs y h3 q3
  have hxy := sx'.mul_of_nonneg sy' (fun j => mul_nonneg (h1 _) (h1 _)) (fun j => mul_nonneg (h3 _) (h3 _))
  have e2 : ∀ p : ℤ × ℤ, x (S - p.1) * (x p.1 * y p.2) * y (S - p.2) = (x (S - p.1) * x p.1) * (y (S - p.2) * y p.2) := fun p => by ring
  simp only [e2]
  rw [← sx'.tsum_mul_tsum sy' hxy]
  exact mul_le_mul hx' hy' (tsum_nonneg fun j => mul_nonneg (h3 _) (h3 _)) h0x

/-! ## complex sums -/

/-- product of four waves -/
noncomputable def t4 (f1 f2 f3 f4 : ℤ → ℝ → ℂ) (q : Tri) (z : ℝ) : ℂ :=
  f1 q.1 z * f2 q.2.1 z * ((starRingEnd ℂ) (f3 q.2.2 z) * (starRingEnd ℂ) (f4 (last q) z))

/-- weighted sum of products -/
noncomputable def s4 (μ : Tri → ℝ) (f1 f2 f3 f4 : ℤ → ℝ → ℂ) (z : ℝ) : ℂ := ∑' q, (μ q : ℂ) * t4 f1 f2 f3 f4 q z

theorem norm_t4 (f1 f2 f3 f4 : ℤ → ℝ → ℂ) (q : Tri) (z : ℝ) :
    ‖t4 f1 f2 f3 f4 q z‖ = r4 (fun k => ‖f1 k z‖) (fun k => ‖f2 k z‖) (fun k => ‖f3 k z‖) (fun k => ‖f4 k z‖) q := by
  unfold t4 r4
  rw [norm_mul, norm_mul, norm_mul, RCLike.norm_conj, RCLike.norm_conj]
  ring

/-- weight -/
noncomputable def brinv (k : ℤ) : ℝ := 1 / br k ^ 2

theorem brinv_nonneg (k : ℤ) : 0 ≤ brinv k := by
  have := br_pos k
  unfold brinv
  positivity

theorem summable_brinv : Summable brinv := summable_br

/-- summable majorant -/
noncomputable def major (q : Tri) : ℝ := brinv q.1 * (brinv q.2.1 * brinv q.2.2)

theorem summable_major : Summable major := summable_triple brinv_nonneg brinv_nonneg brinv_nonneg summable_brinv summable_brinv summable_brinv

theorem t4_le {f1 f2 f3 f4 : ℤ → ℝ → ℂ} (h1 : Rapid J f1) (h2 : Rapid J f2) (h3 : Rapid J f3) (h4 : Rapid J f4) :
    ∃ C, 0 ≤ C ∧ ∀ q, ∀ z ∈ J, ‖t4 f1 f2 f3 f4 q z‖ ≤ C * major q := by
  obtain ⟨C1, n1, b1⟩ := h1.bound 2
  obtain ⟨C2, n2, b2⟩ := h2.bound 2
  obtain ⟨C3, n3, b3⟩ := h3.bound 2
  obtain ⟨C4, n4, b4⟩ := h4.bound 0
  refine ⟨C1 * C2 * C3 * C4, by positivity, fun q z hz => ?_⟩
  have e4 := b4 (last q) z hz
  rw [pow_zero, one_div_one, mul_one] at e4
  have e1 := b1 q.1 z hz
  have e2 := b2 q.2.1 z hz
  have e3 := b3 q.2.2 z hz
  have p1 := br_pos q.1
  have p2 := br_pos q.2.1
  have p3 := br_pos q.2.2
  rw [norm_t4]
  unfold r4
  calc ‖f1 q.1 z‖ * (‖f2 q.2.1 z‖ * ‖f3 q.2.2 z‖) * ‖f4 (last q) z‖
      ≤ C1 * (1 / br q.1 ^ 2) * (C2 * (1 / br q.2.1 ^ 2) * (C3 * (1 / br q.2.2 ^ 2))) * C4 := by gcongr
    _ = _ := by unfold major brinv; ring

section
variable {f1 f2 f3 f4 : ℤ → ℝ → ℂ} (h1 : Rapid J f1) (h2 : Rapid J f2) (h3 : Rapid J f3) (h4 : Rapid J f4) {μ : Tri → ℝ} {M : ℝ} (hμ : ∀ q, |μ q| ≤ M)
include h1 h2 h3 h4

theorem t4_summable_norm {z : ℝ} (hz : z ∈ J) : Summable fun q => ‖t4 f1 f2 f3 f4 q z‖ := by
  obtain ⟨C, -, hC⟩ := t4_le h1 h2 h3 h4
  exact Summable.of_nonneg_of_le (fun q => norm_nonneg _) (fun q => hC q z hz) (summable_major.mul_left C)

include hμ

theorem s4_summable {z : ℝ} (hz : z ∈ J) : Summable fun q => (μ q : ℂ) * t4 f1 f2 f3 f4 q z := by
  refine Summable.of_norm_bounded ((t4_summable_norm h1 h2 h3 h4 hz).mul_left M) fun q => ?_
  rw [norm_mul, Complex.norm_real, Real.norm_eq_abs]
  exact mul_le_mul_of_nonneg_right (hμ q) (norm_nonneg _)

theorem s4_norm_le {z : ℝ} (hz : z ∈ J) : ‖s4 μ f1 f2 f3 f4 z‖ ≤ M * (l2 f1 z * l1 f2 z * l1 f3 z * l2 f4 z) := by
  have hM : 0 ≤ M := (abs_nonneg _).trans (hμ (0, 0, 0))
  have hs := t4_summable_norm h1 h2 h3 h4 hz
  have e1 : ‖s4 μ f1 f2 f3 f4 z‖ ≤ M * ∑' q, ‖t4 f1 f2 f3 f4 q z‖ := by
    refine (tsum_of_norm_bounded (hs.mul_left M).hasSum fun q => ?_).trans (le_of_eq tsum_mul_left)
    rw [norm_mul, Complex.norm_real, Real.norm_eq_abs]
    exact mul_le_mul_of_nonneg_right (hμ q) (norm_nonneg _)
  refine e1.trans (mul_le_mul_of_nonneg_left ?_ hM)
  simp only [norm_t4]
  obtain ⟨B, -, hB⟩ := h4.bound 0
  refine (r4_le (fun k => norm_nonneg _) (fun k => norm_nonneg _) (fun k => norm_nonneg _) (fun k => norm_nonneg _) (h1.summable hz) (h2.summable hz) (h3.summable hz)
    (B := B) (fun k => by simpa using hB k z hz) (h1.summable_mass hz) (h4.summable_mass hz)).trans (le_of_eq ?_)
  unfold l1 l2 mass
  ring

theorem s4_norm_le' {z : ℝ} (hz : z ∈ J) : ‖s4 μ f1 f2 f3 f4 z‖ ≤ M * (l1 f1 z * l2 f2 z * l2 f3 z * l1 f4 z) := by
  have hM : 0 ≤ M := (abs_nonneg _).trans (hμ (0, 0, 0))
  have hs := t4_summable_norm h1 h2 h3 h4 hz
  have e1 : ‖s4 μ f1 f2 f3 f4 z‖ ≤ M * ∑' q, ‖t4 f1 f2 f3 f4 q z‖ := by
    refine (tsum_of_norm_bounded (hs.mul_left M).hasSum fun q => ?_).trans (le_of_eq tsum_mul_left)
    rw [norm_mul, Complex.norm_real, Real.norm_eq_abs]
    exact mul_le_mul_of_nonneg_right (hμ q) (norm_nonneg _)
  refine e1.trans (mul_le_mul_of_nonneg_left ?_ hM)
  simp only [norm_t4]
  rw [r4_flip]
  obtain ⟨B, -, hB⟩ := h2.bound 0
  refine (r4_le (fun k => norm_nonneg _) (fun k => norm_nonneg _) (fun k => norm_nonneg _) (fun k => norm_nonneg _) (h3.summable hz) (h4.summable hz) (h1.summable hz)
    (B := B) (fun k => by simpa using hB k z hz) (h3.summable_mass hz) (h2.summable_mass hz)).trans (le_of_eq ?_)
  unfold l1 l2 mass
  ring

end

theorem s4_hasDerivAt (ho : IsOpen J) (hcn : IsPreconnected J) {c' : ℤ → ℝ → ℂ} (hc : Rapid J c) (hc' : Rapid J c') (hd : ∀ k, ∀ z ∈ J, HasDerivAt (c k) (c' k z) z)
    {μ : Tri → ℝ} {M : ℝ} (hμ : ∀ q, |μ q| ≤ M) {z : ℝ} (hz : z ∈ J) :
    HasDerivAt (s4 μ c c c c) (∑' q, (μ q : ℂ) * (t4 c' c c c q z + t4 c c' c c q z + t4 c c c' c q z + t4 c c c c' q z)) z := by
  obtain ⟨C1, n1, b1⟩ := t4_le hc' hc hc hc
  obtain ⟨C2, n2, b2⟩ := t4_le hc hc' hc hc
  obtain ⟨C3, n3, b3⟩ := t4_le hc hc hc' hc
  obtain ⟨C4, n4, b4⟩ := t4_le hc hc hc hc'
  have hM : 0 ≤ M := (abs_nonneg _).trans (hμ (0, 0, 0))
  have hconj : ∀ k, ∀ z ∈ J, HasDerivAt (fun z => (starRingEnd ℂ) (c k z)) ((starRingEnd ℂ) (c' k z)) z := fun k z hz =>
    Complex.conjCLE.toContinuousLinearMap.hasFDerivAt.comp_hasDerivAt z (hd k z hz)
  refine hasDerivAt_tsum_of_isPreconnected (g := fun q z => (μ q : ℂ) * t4 c c c c q z)
    (g' := fun q z => (μ q : ℂ) * (t4 c' c c c q z + t4 c c' c c q z + t4 c c c' c q z + t4 c c c c' q z))
    (summable_major.mul_left (M * (C1 + C2 + C3 + C4))) ho hcn (fun q z hz => ?_) (fun q z hz => ?_) hz (s4_summable hc hc hc hc hμ hz) hz
  · refine HasDerivAt.const_mul _ ?_
    refine (((hd q.1 z hz).fun_mul (hd q.2.1 z hz)).fun_mul ((hconj q.2.2 z hz).fun_mul (hconj (last q) z hz))).congr_deriv ?_
    unfold t4
    ring
  · rw [norm_mul, Complex.norm_real, Real.norm_eq_abs]
    have e : ‖t4 c' c c c q z + t4 c c' c c q z + t4 c c c' c q z + t4 c c c c' q z‖ ≤ (C1 + C2 + C3 + C4) * major q := by
      refine (norm_add_le _ _).trans ?_
      have := norm_add₃_le (a := t4 c' c c c q z) (b := t4 c c' c c q z) (c := t4 c c c' c q z)
      have := b1 q z hz
      have := b2 q z hz
      have := b3 q z hz
      have := b4 q z hz
      linarith
    calc |μ q| * _ ≤ M * ((C1 + C2 + C3 + C4) * major q) := mul_le_mul (hμ q) e (norm_nonneg _) hM
      _ = _ := by ring

/-! ## symmetry -/

theorem s4_swap (f c : ℤ → ℝ → ℂ) (z : ℝ) : s4 (fun _ => 1) f c c c z = s4 (fun _ => 1) c f c c z := by
  unfold s4
  rw [← swapT.tsum_eq]
  refine tsum_congr fun q => ?_
  unfold t4
  rw [last_swap]
  show _ * (f q.2.1 z * c q.1 z * (_ * _)) = _
  rw [show (swapT q).2.2 = q.2.2 from rfl]
  ring

theorem s4_flip (f1 f2 f3 f4 : ℤ → ℝ → ℂ) (z : ℝ) : s4 (fun _ => 1) f1 f2 f3 f4 z = (starRingEnd ℂ) (s4 (fun _ => 1) f3 f4 f1 f2 z) := by
  unfold s4
  rw [Complex.conj_tsum, ← flipT.tsum_eq]
  refine tsum_congr fun q => ?_
  unfold t4
  rw [last_flip]
  show _ * (f1 q.2.2 z * f2 (last q) z * ((starRingEnd ℂ) (f3 q.1 z) * (starRingEnd ℂ) (f4 q.2.1 z))) = _
  simp only [map_mul, Complex.conj_conj, Complex.conj_ofReal]
  ring

theorem opp_opp (f : ℤ → ℝ → ℂ) : opp (opp f) = f := by
  funext k z
  unfold opp
  rw [neg_neg, Complex.conj_conj]

/-- the cubic term as a sum over four waves -/
theorem ip_cube {f : ℤ → ℝ → ℂ} (hf : Rapid J f) (hc : Rapid J c) {z : ℝ} (hz : z ∈ J) : ip f (cube c) z = s4 (fun _ => 1) f c c c z := by
  have h1 : ip f (cube c) z = ip (fold f c) (fold c c) z := by
    have h := ip_fold hf hc.opp (hc.fold hc) hz
    rw [opp_opp] at h
    rw [h]
    unfold ip
    refine tsum_congr fun k => ?_
    have e : cube c k z = fold (opp c) (fold c c) k z := by
      unfold cube power2
      rw [fold_comm (opp c) (fold c c), fold_assoc hc hc hc.opp hz]
    rw [e]
  rw [h1]
  have hs := sumT.summable_iff.2 (s4_summable hf hc hc hc (μ := fun _ => 1) (M := 1) (fun _ => by simp) hz)
  unfold s4
  rw [← sumT.tsum_eq]
  rw [show (∑' q : Tri, (fun q : Tri => ((1 : ℝ) : ℂ) * t4 f c c c q z) (sumT q)) = _ from hs.tsum_prod]
  unfold ip
  refine tsum_congr fun S => ?_
  have s1 := summable_fold hf hc S hz
  have s2 : Summable fun j => (starRingEnd ℂ) (c (S - j) z * c j z) := (Complex.conjCLE.toContinuousLinearMap.hasSum (summable_fold hc hc S hz).hasSum).summable
  have n1 : Summable fun j => ‖f (S - j) z * c j z‖ := (summable_norm_fold hf hc hz S).congr fun j => (norm_mul _ _).symm
  have n2 : Summable fun j => ‖(starRingEnd ℂ) (c (S - j) z * c j z)‖ := (summable_norm_fold hc hc hz S).congr fun j => by rw [RCLike.norm_conj, norm_mul]
  show (∑' j, f (S - j) z * c j z) * (starRingEnd ℂ) (∑' j, c (S - j) z * c j z) = _
  rw [Complex.conj_tsum, tsum_mul_tsum_of_summable_norm n1 n2]
  refine tsum_congr fun p => ?_
  show f (S - p.1) z * c p.1 z * (starRingEnd ℂ) (c (S - p.2) z * c p.2 z) =
    ((1 : ℝ) : ℂ) * (f (S - p.1) z * c p.1 z * ((starRingEnd ℂ) (c p.2 z) * (starRingEnd ℂ) (c (S - p.1 + p.1 - p.2) z)))
  rw [sub_add_cancel, map_mul]
  push_cast
  ring

end PyNLO.Wiener
