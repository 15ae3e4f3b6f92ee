import Verif.Model.PulseMore
import Verif.Lemmas.PulseCache
import Verif.Props.SsfmProp
import Verif.Props.PulseSpectrum

/-! # C113: interpolation onto a new centre wavelength; C22: the weighted mean wavelength -/

namespace PyNLO.Pulse

open Complex PyM

variable {n : ℕ} {a : Fin n → ℂ} {p : Pulse}

/-! ## Specification -/

/-- The hat function of linear interpolation. -/
noncomputable def hat (x : ℝ) : ℝ := max 0 (1 - |x|)

/-- The piecewise linear interpolant of samples at `0, 1, …, n-1`, zero outside. -/
noncomputable def lin (a : Fin n → ℂ) (y : ℝ) : ℂ :=
  if 0 ≤ y ∧ y ≤ (n : ℝ) - 1 then ∑ k : Fin n, (hat (y - (k : ℕ)) : ℂ) * a k else 0

theorem hat_zero : hat 0 = 1 := by simp [hat]

theorem hat_nonneg (x : ℝ) : 0 ≤ hat x := le_max_left _ _

theorem hat_far {x : ℝ} (h : 1 ≤ |x|) : hat x = 0 := max_eq_left (by linarith)

theorem hat_near {x : ℝ} (h : |x| ≤ 1) : hat x = 1 - |x| := max_eq_right (by linarith)

/-- Between two samples the interpolant is the chord. -/
theorem lin_chord (a : Fin n → ℂ) (lo : ℕ) (hlo : lo + 1 < n) (y : ℝ) (h0 : (lo : ℝ) ≤ y) (h1 : y ≤ lo + 1) :
    lin a y = (a ⟨lo + 1, hlo⟩ - a ⟨lo, by omega⟩) * ((y - lo : ℝ) : ℂ) + a ⟨lo, by omega⟩ := by
  have hn : (lo : ℝ) + 1 ≤ (n : ℝ) - 1 := by
    have : ((lo + 1 + 1 : ℕ) : ℝ) ≤ n := by exact_mod_cast hlo
    push_cast at this; linarith
  have hl : (0 : ℝ) ≤ lo := Nat.cast_nonneg _
  unfold lin
  rw [if_pos ⟨by linarith, by linarith⟩]
  have hne : (⟨lo, by omega⟩ : Fin n) ≠ ⟨lo + 1, hlo⟩ := by
    intro h; have := congrArg Fin.val h; simp at this
  rw [← Finset.sum_subset (Finset.subset_univ {⟨lo, by omega⟩, ⟨lo + 1, hlo⟩}), Finset.sum_pair hne]
  · dsimp only
    rw [hat_near (by rw [abs_le]; push_cast; constructor <;> linarith), hat_near (by rw [abs_le]; push_cast; constructor <;> linarith),
      abs_of_nonneg (by linarith), abs_of_nonpos (by push_cast; linarith)]
    push_cast
    ring
  · intro k _ hk
    have hk1 : (k : ℕ) ≠ lo := fun h => hk (by simp [Fin.ext_iff, h])
    have hk2 : (k : ℕ) ≠ lo + 1 := fun h => hk (by simp [Fin.ext_iff, h])
    rw [hat_far, Complex.ofReal_zero, zero_mul]
    rcases lt_or_gt_of_ne hk1 with h | h
    · have : ((k : ℕ) : ℝ) + 1 ≤ lo := by exact_mod_cast h
      rw [abs_of_nonneg (by linarith)]; linarith
    · have : ((lo : ℕ) : ℝ) + 2 ≤ (k : ℕ) := by
        have : lo + 2 ≤ (k : ℕ) := by omega
        exact_mod_cast this
      rw [abs_of_nonpos (by linarith)]; linarith

/-- `interp1d` on an equally spaced grid. -/
theorem interp1d_eq (hn : 2 ≤ n) (a : Fin n → ℂ) (x0 d : ℝ) (hd : 0 < d) (y : ℝ) :
    interp1d hn (fun k => x0 + (k : ℕ) * d) a (x0 + y * d) = lin a y := by
  have hc : ((n - 1 : ℕ) : ℝ) = (n : ℝ) - 1 := by rw [Nat.cast_sub (by omega)]; simp
  unfold interp1d
  by_cases hy : 0 ≤ y ∧ y ≤ (n : ℝ) - 1
  · have hout : ¬ (x0 + y * d < x0 + ((0 : ℕ) : ℝ) * d ∨ x0 + ((n - 1 : ℕ) : ℝ) * d < x0 + y * d) := by
      rw [not_or, not_lt, not_lt, hc]
      constructor
      · simp only [Nat.cast_zero, zero_mul, add_zero]; nlinarith [hy.1]
      · nlinarith [hy.2]
    dsimp only
    rw [if_neg hout]
    have hss : searchSorted (fun k : Fin n => x0 + (k : ℕ) * d) (x0 + y * d) = ⌈y⌉₊ := by
      unfold searchSorted
      have hcl : ⌈y⌉₊ ≤ n := by
        rw [Nat.ceil_le]; linarith [hy.2]
      have : ∀ k : Fin n, x0 + (k : ℕ) * d < x0 + y * d ↔ (k : ℕ) < ⌈y⌉₊ := fun k => by
        rw [Nat.lt_ceil]
        constructor
        · intro h; by_contra h'; push Not at h'; nlinarith
        · intro h; nlinarith
      classical
      rw [Finset.filter_congr (fun k _ => this k)]
      rw [Fin.card_filter_val_lt]
      exact min_eq_right hcl
    have hle : ⌈y⌉₊ ≤ n - 1 := by rw [Nat.ceil_le, hc]; exact hy.2
    have hhi : max 1 (min ⌈y⌉₊ (n - 1)) = max 1 ⌈y⌉₊ := by rw [min_eq_left hle]
    obtain ⟨lo, hlo⟩ : ∃ lo, max 1 (min ⌈y⌉₊ (n - 1)) = lo + 1 := ⟨max 1 (min ⌈y⌉₊ (n - 1)) - 1, by omega⟩
    simp only [hss, hlo, Nat.add_sub_cancel]
    rw [hhi] at hlo
    have hlon : lo + 1 < n := by omega
    have h0 : (lo : ℝ) ≤ y := by
      rcases Nat.eq_zero_or_pos lo with h | h
      · rw [h]; simpa using hy.1
      · have : lo < ⌈y⌉₊ := by omega
        exact (Nat.lt_ceil.mp this).le
    have h1 : y ≤ (lo : ℝ) + 1 := by
      have : ⌈y⌉₊ ≤ lo + 1 := by omega
      have := Nat.ceil_le.mp this
      push_cast at this; exact this
    rw [lin_chord a lo hlon y h0 h1]
    have hdc : (d : ℂ) ≠ 0 := by exact_mod_cast hd.ne'
    push_cast
    rw [show (x0 : ℂ) + (lo + 1) * d - (x0 + lo * d) = d by ring]
    field_simp
    ring
  · have hout : x0 + y * d < x0 + ((0 : ℕ) : ℝ) * d ∨ x0 + ((n - 1 : ℕ) : ℝ) * d < x0 + y * d := by
      rw [not_and_or, not_le, not_le] at hy
      rcases hy with h | h
      · left; simp only [Nat.cast_zero, zero_mul, add_zero]; nlinarith
      · right; rw [hc]; nlinarith
    dsimp only
    rw [if_pos hout, lin, if_neg hy]

/-! ## The operation -/

/-- The grid that `W_mks` is meant to return. -/
noncomputable def wMks (p : Pulse) (n : ℕ) : Vec ℝ :=
  ⟨n, fun i => (2 * Real.pi * ((i : ℕ) - (n : ℝ) / 2) / p.tw + 2 * Real.pi * p.cf) * 10 ^ 12⟩

theorem wGrid_eq (h : Holds p a) : (wGrid (p.cf, p.n) p.tw).map (· * 10 ^ 12) = wMks p n := by
  have h1 := W_eq_wGrid h.ready
  rw [h.W_eq] at h1
  rw [← Except.ok.inj h1]
  rfl

/-- C113: the new pulse has the requested centre, the old window, number of points and repetition rate, and its sample at each
optical frequency is the piecewise linear interpolant of the old spectrum there, zero outside the old band.  The field and
the parameters of the pulse itself stay. -/
theorem C113_value {strF : ℝ → String} {p1 : Pulse} (h : Holds p a) (hn : 2 ≤ n) (htw : 0 < p.tw) (hcf : p.cf ≠ 0)
    (hw : W_mks strF p = (.ok (wMks p n), p1)) (wl : ℝ) (hwl : wl ≠ 0) :
    ∃ q p', interpolateToNewCenterWl strF wl p = (.ok q, p') ∧ Holds p' a ∧ SameGrid p p' ∧
      Holds q (fun i : Fin n => lin a ((i : ℕ) + (cNmps / wl - p.cf) * p.tw)) ∧
      q.cf = cNmps / wl ∧ q.tw = p.tw ∧ q.frep = p.frep := by
  have hp1 : Holds p1 a ∧ SameGrid p p1 := by
    by_cases hk : p.wKey = some (cacheHash strF p)
    · cases hv : p.wVal with
      | some v =>
        rw [W_mks_hit hk hv] at hw
        have := (Prod.mk.inj hw).2
        subst this
        exact ⟨h, rfl, rfl, rfl, rfl⟩
      | none =>
        exfalso
        unfold W_mks at hw
        rw [bind_apply, get_apply] at hw
        dsimp only at hw
        rw [if_pos hk, hv] at hw
        simp [throw_apply] at hw
    · rw [W_mks_miss h.ready hk] at hw
      have := (Prod.mk.inj hw).2
      subst this
      exact ⟨⟨h.ready, h.npts, h.pos, h.field⟩, rfl, rfl, rfl, rfl⟩
  obtain ⟨q0, hq0⟩ : ∃ q0, createClonedPulse p = .ok q0 := ⟨_, clone_explicit h hcf⟩
  obtain ⟨hq0h, hq0g, -⟩ := clone_holds h hq0
  have hkey : q0.wKey = none := by
    rw [clone_explicit h hcf] at hq0
    rw [← Except.ok.inj hq0]; rfl
  set q1 : Pulse := setCenterFrequency (cNmps / wl) q0 with hq1
  have hset : setCenterWavelengthNm wl q0 = (.ok (), q1) := by
    unfold setCenterWavelengthNm; rw [if_neg hwl]; rfl
  have hq1h : Holds q1 a := ⟨rfl, hq0h.npts, hq0h.pos, hq0h.field⟩
  have hmiss := W_mks_miss (strF := strF) (p := q1) hq1h.ready (by
    rw [show q1.wKey = q0.wKey from rfl, hkey]; simp)
  rw [wGrid_eq hq1h] at hmiss
  set q2 : Pulse := { q1 with wKey := some (cacheHash strF q1), wVal := some (wMks q1 n) } with hq2
  have hq2h : Holds q2 a := ⟨rfl, hq0h.npts, hq0h.pos, hq0h.field⟩
  have hval : (wMks q1 n).map (fun x => interp1d hn (wMks p n).val a x) =
      ⟨n, fun i : Fin n => lin a ((i : ℕ) + (cNmps / wl - p.cf) * p.tw)⟩ := by
    have htw1 : q1.tw = p.tw := hq0g.2.1
    simp only [wMks, Vec.map_mk]
    congr 1
    funext i
    have e := interp1d_eq hn a ((2 * Real.pi * (0 - (n : ℝ) / 2) / p.tw + 2 * Real.pi * p.cf) * 10 ^ 12)
      (2 * Real.pi / p.tw * 10 ^ 12) (by have := Real.pi_pos; positivity) ((i : ℕ) + (cNmps / wl - p.cf) * p.tw)
    rw [← e, htw1]
    have e1 : (fun k : Fin n => (2 * Real.pi * ((k : ℕ) - (n : ℝ) / 2) / p.tw + 2 * Real.pi * p.cf) * 10 ^ 12) =
        fun k : Fin n => (2 * Real.pi * (0 - (n : ℝ) / 2) / p.tw + 2 * Real.pi * p.cf) * 10 ^ 12
          + (k : ℕ) * (2 * Real.pi / p.tw * 10 ^ 12) := by
      funext k; field_simp; ring
    rw [e1]
    congr 1
    rw [show q1.cf = cNmps / wl from rfl]
    generalize cNmps / wl = f
    field_simp
    ring
  refine ⟨_, p1, ?_, hp1.1, hp1.2, hq2h.update _, rfl, hq0g.2.1, hq0g.2.2.2⟩
  unfold interpolateToNewCenterWl
  simp only [bind_apply, get_apply, PyM.lift_apply, hq0, hset, hw, read_apply, hp1.1.AW_eq, hmiss]
  rw [dif_pos ⟨hn, rfl⟩]
  have hsa := hq2h.setAW_eq (fun i : Fin n => lin a ((i : ℕ) + (cNmps / wl - p.cf) * p.tw))
  rw [← hval] at hsa
  have hc : (fun i : Fin n => a (i.cast rfl)) = a := rfl
  rw [hval] at hsa
  have hsa' : setAW ((wMks q1 n).map fun x => interp1d hn (wMks p n).val (fun i => a (i.cast rfl)) x) q2 =
    (.ok (), { q2 with aw := some ⟨n, fun i : Fin n => lin a ((i : ℕ) + (cNmps / wl - p.cf) * p.tw)⟩ }) := by
    rw [show (fun x => interp1d hn (wMks p n).val (fun i => a (i.cast rfl)) x) = fun x => interp1d hn (wMks p n).val a x from rfl,
      hval, hsa]
  erw [hsa']
  rfl

/-! ## Consequences of the values -/

theorem lin_nat (a : Fin n → ℂ) (i : ℕ) (hi : i < n) : lin a i = a ⟨i, hi⟩ := by
  unfold lin
  have : ((i + 1 : ℕ) : ℝ) ≤ n := by exact_mod_cast hi
  push_cast at this
  rw [if_pos ⟨Nat.cast_nonneg _, by linarith⟩, Finset.sum_eq_single ⟨i, hi⟩]
  · simp [hat_zero]
  · intro k _ hk
    have hk : (k : ℕ) ≠ i := fun h => hk (Fin.ext h)
    have hk' : (1 : ℤ) ≤ |(i : ℤ) - (k : ℕ)| := Int.one_le_abs (by omega)
    rw [hat_far, Complex.ofReal_zero, zero_mul]
    exact_mod_cast hk'
  · simp

/-- C113: when the centre moves by a whole number of frequency bins, the spectrum is exactly the old one at the same optical
frequencies. -/
theorem C113_shift (a : Fin n → ℂ) (m : ℤ) (i : Fin n) :
    lin a ((i : ℕ) + (m : ℝ)) = if h : 0 ≤ (i : ℕ) + m ∧ (i : ℕ) + m < n then a ⟨((i : ℕ) + m).toNat, by omega⟩ else 0 := by
  split_ifs with h
  · obtain ⟨k, hk⟩ : ∃ k : ℕ, (i : ℕ) + m = k := ⟨((i : ℕ) + m).toNat, by omega⟩
    have hk' : ((i : ℕ) : ℝ) + (m : ℝ) = (k : ℝ) := by exact_mod_cast hk
    have hkn : k < n := by omega
    rw [hk', lin_nat a k hkn]
    congr 1
    apply Fin.ext
    show k = ((i : ℕ) + m).toNat
    omega
  · unfold lin
    rw [if_neg]
    rintro ⟨h0, h1⟩
    apply h
    have h0' : (0 : ℤ) ≤ (i : ℕ) + m := by exact_mod_cast h0
    have h1' : ((i : ℕ) : ℝ) + (m : ℝ) + 1 ≤ n := by linarith
    have h1'' : ((i : ℕ) : ℤ) + m + 1 ≤ n := by exact_mod_cast h1'
    exact ⟨h0', by omega⟩

/-- The hat functions never add up to more than one along the new grid. -/
theorem hat_col_le (x : ℝ) (n : ℕ) : ∑ i : Fin n, hat ((i : ℕ) + x) ≤ 1 := by
  have hf : ∀ m : ℤ, hat ((m : ℝ) - Int.fract (-x)) = if m = 0 then 1 - Int.fract (-x) else if m = 1 then Int.fract (-x) else 0 := by
    intro m
    have h0 := Int.fract_nonneg (-x)
    have h1 := Int.fract_lt_one (-x)
    split_ifs with hm0 hm1
    · subst hm0
      rw [hat_near (by rw [abs_le]; push_cast; constructor <;> linarith), abs_of_nonpos (by push_cast; linarith)]
      push_cast; ring
    · subst hm1
      rw [hat_near (by rw [abs_le]; push_cast; constructor <;> linarith), abs_of_nonneg (by push_cast; linarith)]
      push_cast; ring
    · apply hat_far
      rcases lt_or_gt_of_ne hm0 with h | h
      · have : (m : ℝ) ≤ -1 := by exact_mod_cast (by omega : m ≤ -1)
        rw [abs_of_nonpos (by linarith)]; linarith
      · have : (2 : ℝ) ≤ m := by exact_mod_cast (by omega : 2 ≤ m)
        rw [abs_of_nonneg (by linarith)]; linarith
  have he : ∀ i : Fin n, hat ((i : ℕ) + x) = (if ((i : ℕ) : ℤ) = ⌊-x⌋ then 1 - Int.fract (-x) else 0)
      + if ((i : ℕ) : ℤ) = ⌊-x⌋ + 1 then Int.fract (-x) else 0 := by
    intro i
    have := hf ((i : ℕ) - ⌊-x⌋)
    rw [show (((i : ℕ) - ⌊-x⌋ : ℤ) : ℝ) - Int.fract (-x) = (i : ℕ) + x by
      have := Int.self_sub_floor (-x); push_cast; linarith] at this
    rw [this]
    by_cases h1 : ((i : ℕ) : ℤ) = ⌊-x⌋
    · rw [if_pos (by omega), if_pos h1, if_neg (by omega), add_zero]
    · by_cases h2 : ((i : ℕ) : ℤ) = ⌊-x⌋ + 1
      · rw [if_neg (by omega), if_pos (by omega), if_neg h1, if_pos h2, zero_add]
      · rw [if_neg (by omega), if_neg (by omega), if_neg h1, if_neg h2, zero_add]
  have key : ∀ (z : ℤ) (c : ℝ), 0 ≤ c → ∑ i : Fin n, (if ((i : ℕ) : ℤ) = z then c else 0) ≤ c := by
    intro z c hc
    by_cases hz : ∃ i : Fin n, ((i : ℕ) : ℤ) = z
    · obtain ⟨i, hi⟩ := hz
      rw [Finset.sum_eq_single i, if_pos hi]
      · intro j _ hj
        rw [if_neg]; intro h; apply hj; apply Fin.ext; omega
      · simp
    · push Not at hz
      rw [Finset.sum_eq_zero fun i _ => if_neg (hz i)]; exact hc
  rw [Finset.sum_congr rfl fun i _ => he i, Finset.sum_add_distrib]
  have h0 := key ⌊-x⌋ (1 - Int.fract (-x)) (by linarith [Int.fract_lt_one (-x)])
  have h1 := key (⌊-x⌋ + 1) (Int.fract (-x)) (Int.fract_nonneg _)
  linarith

theorem hat_even (x : ℝ) : hat (-x) = hat x := by simp [hat]

theorem hat_row_le (y : ℝ) (n : ℕ) : ∑ k : Fin n, hat (y - (k : ℕ)) ≤ 1 := by
  have := hat_col_le (-y) n
  refine le_trans (le_of_eq (Finset.sum_congr rfl fun k _ => ?_)) this
  rw [← hat_even]; congr 1; ring

/-- Convexity of the square. -/
theorem lin_sq_le (a : Fin n → ℂ) (y : ℝ) : ‖lin a y‖ ^ 2 ≤ ∑ k : Fin n, hat (y - (k : ℕ)) * ‖a k‖ ^ 2 := by
  unfold lin
  split_ifs
  · have h1 : ‖∑ k : Fin n, (hat (y - (k : ℕ)) : ℂ) * a k‖ ≤ ∑ k : Fin n, hat (y - (k : ℕ)) * ‖a k‖ := by
      refine (norm_sum_le _ _).trans (le_of_eq (Finset.sum_congr rfl fun k _ => ?_))
      rw [norm_mul, Complex.norm_real, Real.norm_of_nonneg (hat_nonneg _)]
    have h2 : (∑ k : Fin n, hat (y - (k : ℕ)) * ‖a k‖) ^ 2 ≤
        (∑ k : Fin n, hat (y - (k : ℕ))) * ∑ k : Fin n, hat (y - (k : ℕ)) * ‖a k‖ ^ 2 :=
      Finset.sum_sq_le_sum_mul_sum_of_sq_eq_mul _ (fun _ _ => hat_nonneg _)
        (fun _ _ => mul_nonneg (hat_nonneg _) (sq_nonneg _)) (fun _ _ => by ring)
    have h3 := hat_row_le y n
    have h4 : 0 ≤ ∑ k : Fin n, hat (y - (k : ℕ)) * ‖a k‖ ^ 2 :=
      Finset.sum_nonneg fun _ _ => mul_nonneg (hat_nonneg _) (sq_nonneg _)
    calc _ ≤ (∑ k : Fin n, hat (y - (k : ℕ)) * ‖a k‖) ^ 2 := pow_le_pow_left₀ (norm_nonneg _) h1 2
      _ ≤ _ := h2
      _ ≤ 1 * _ := mul_le_mul_of_nonneg_right h3 h4
      _ = _ := one_mul _
  · simpa using Finset.sum_nonneg fun (k : Fin n) _ => mul_nonneg (hat_nonneg (y - (k : ℕ))) (sq_nonneg ‖a k‖)

/-- C113: the interpolated spectrum never has more energy than the original one, and no sample exceeds the largest one. -/
theorem C113_energy_le (a : Fin n → ℂ) (s : ℝ) :
    Spec.energy (fun i : Fin n => lin a ((i : ℕ) + s)) ≤ Spec.energy a ∧
    ∀ M : ℝ, (∀ k, ‖a k‖ ≤ M) → 0 ≤ M → ∀ y, ‖lin a y‖ ≤ M := by
  constructor
  · unfold Spec.energy
    calc _ ≤ ∑ i : Fin n, ∑ k : Fin n, hat ((i : ℕ) + s - (k : ℕ)) * ‖a k‖ ^ 2 := Finset.sum_le_sum fun i _ => lin_sq_le a _
      _ = ∑ k : Fin n, (∑ i : Fin n, hat ((i : ℕ) + (s - (k : ℕ)))) * ‖a k‖ ^ 2 := by
        rw [Finset.sum_comm]
        refine Finset.sum_congr rfl fun k _ => ?_
        rw [Finset.sum_mul]
        refine Finset.sum_congr rfl fun i _ => ?_
        rw [add_sub_assoc]
      _ ≤ ∑ k : Fin n, 1 * ‖a k‖ ^ 2 := Finset.sum_le_sum fun k _ => mul_le_mul_of_nonneg_right (hat_col_le _ n) (sq_nonneg _)
      _ = _ := by simp
  · intro M hM h0 y
    have h1 := lin_sq_le a y
    have h2 : ∑ k : Fin n, hat (y - (k : ℕ)) * ‖a k‖ ^ 2 ≤ 1 * M ^ 2 := by
      calc _ ≤ ∑ k : Fin n, hat (y - (k : ℕ)) * M ^ 2 := Finset.sum_le_sum fun k _ =>
            mul_le_mul_of_nonneg_left (pow_le_pow_left₀ (norm_nonneg _) (hM k) 2) (hat_nonneg _)
        _ = (∑ k : Fin n, hat (y - (k : ℕ))) * M ^ 2 := by rw [Finset.sum_mul]
        _ ≤ _ := mul_le_mul_of_nonneg_right (hat_row_le y n) (sq_nonneg _)
    exact le_of_sq_le_sq (by linarith) h0

/-- C113: a move by whole bins that keeps the spectrum inside the band keeps the energy. -/
theorem C113_energy_shift (a : Fin n → ℂ) (m : ℤ) (hin : ∀ k, a k ≠ 0 → 0 ≤ ((k : ℕ) : ℤ) - m ∧ ((k : ℕ) : ℤ) - m < n) :
    Spec.energy (fun i : Fin n => lin a ((i : ℕ) + (m : ℝ))) = Spec.energy a := by
  refine le_antisymm (C113_energy_le a m).1 ?_
  unfold Spec.energy
  have h0 : ∀ k, ‖a k‖ ^ 2 ≠ 0 → a k ≠ 0 := fun k hk h => hk (by simp [h])
  refine le_of_eq (Finset.sum_bij_ne_zero (fun k _ hk => ⟨(((k : ℕ) : ℤ) - m).toNat, by have := hin k (h0 k hk); omega⟩)
    (fun _ _ _ => Finset.mem_univ _) ?_ ?_ ?_)
  · intro k _ hk l _ hl he
    have h1 := hin k (h0 k hk)
    have h2 := hin l (h0 l hl)
    have := Fin.mk.inj he
    apply Fin.ext
    omega
  · intro i _ hi
    dsimp only at hi
    rw [C113_shift a m i] at hi
    split_ifs at hi with h
    · refine ⟨⟨((i : ℕ) + m).toNat, by omega⟩, Finset.mem_univ _, hi, ?_⟩
      apply Fin.ext
      show (((((i : ℕ) + m).toNat : ℕ) : ℤ) - m).toNat = i
      omega
    · simp at hi
  · intro k _ hk
    have h1 := hin k (h0 k hk)
    rw [show (fun i : Fin n => lin a ((i : ℕ) + (m : ℝ))) ⟨(((k : ℕ) : ℤ) - m).toNat, by omega⟩ = _ from C113_shift a m _, dif_pos (by constructor <;> dsimp only <;> omega)]
    congr 3
    apply Fin.ext
    dsimp only
    omega

/-- What a user expects of a change of grid that covers the whole spectrum: the energy is kept. -/
def EnergyKept (strF : ℝ → String) (p : Pulse) (wl : ℝ) : Prop := ∀ q p' A B, interpolateToNewCenterWl strF wl p = (.ok q, p') →
  p.AW = .ok A → q.AW = .ok B → ∑ i, ‖B.val i‖ ^ 2 = ∑ i, ‖A.val i‖ ^ 2

/-- Four points, window 1 ps, centre 1 THz, two opposite lines in the middle (a pulse at the edge of the time window). -/
noncomputable def twoLines : Pulse := { Pulse.blank with n := 4, tw := 1, cf := 1, ready := true, aw := some ⟨4, ![0, 1, -1, 0]⟩ }

theorem twoLines_holds : Holds twoLines ![0, 1, -1, 0] := ⟨rfl, rfl, by norm_num, rfl⟩

theorem twoLines_grid (strF : ℝ → String) : ∃ p1, W_mks strF twoLines = (.ok (wMks twoLines 4), p1) := by
  have := W_mks_miss (strF := strF) (p := twoLines) rfl (by simp [twoLines, Pulse.blank])
  rw [wGrid_eq twoLines_holds] at this
  exact ⟨_, this⟩

/-- C113 refuted: a move of the centre by half a bin keeps both lines inside the band and loses three quarters of the energy. -/
theorem C113_energy_refuted (strF : ℝ → String) : ¬ EnergyKept strF twoLines (cNmps / 1.5) := by
  intro hk
  obtain ⟨p1, hw⟩ := twoLines_grid strF
  have hc : cNmps ≠ 0 := by norm_num [cNmps, cMks]
  obtain ⟨q, p', h1, -, -, h2, -⟩ := C113_value twoLines_holds (by norm_num) (by norm_num [twoLines]) (by norm_num [twoLines]) hw
    (cNmps / 1.5) (div_ne_zero hc (by norm_num))
  have := hk q p' _ _ h1 twoLines_holds.AW_eq h2.AW_eq
  have hs : (cNmps / (cNmps / 1.5) - twoLines.cf) * twoLines.tw = 1 / 2 := by
    rw [div_div_cancel₀ hc]; norm_num [twoLines]
  rw [hs] at this
  simp only [Fin.sum_univ_four] at this
  rw [lin_chord _ 0 (by norm_num) _ (by norm_num) (by norm_num), lin_chord _ 1 (by norm_num) _ (by norm_num) (by norm_num),
    lin_chord _ 2 (by norm_num) _ (by norm_num) (by norm_num)] at this
  rw [show lin (![0, 1, -1, 0] : Fin 4 → ℂ) (((3 : Fin 4) : ℕ) + 1 / 2) = 0 by unfold lin; rw [if_neg]; norm_num] at this
  have e2 : (![0, 1, -1, 0] : Fin 4 → ℂ) 2 = -1 := rfl
  have e3 : (![0, 1, -1, 0] : Fin 4 → ℂ) 3 = 0 := rfl
  rw [e2, e3] at this
  norm_num [Matrix.cons_val_zero, Matrix.cons_val_one] at this

/-- C113: zero wavelength raises `ZeroDivisionError`, a grid of one point raises `ValueError`. -/
theorem C113_errors (strF : ℝ → String) (h : Holds p a) (hcf : p.cf ≠ 0) :
    (interpolateToNewCenterWl strF 0 p).1 = .error .ZeroDivisionError ∧
    ∀ p1, W_mks strF p = (.ok (wMks p n), p1) → n = 1 → ∀ wl, wl ≠ 0 → (interpolateToNewCenterWl strF wl p).1 = .error .ValueError := by
  obtain ⟨q0, hq0⟩ : ∃ q0, createClonedPulse p = .ok q0 := ⟨_, clone_explicit h hcf⟩
  constructor
  · have hset : setCenterWavelengthNm 0 q0 = (.error .ZeroDivisionError, q0) := by
      unfold setCenterWavelengthNm; rw [if_pos rfl]; rfl
    unfold interpolateToNewCenterWl
    simp only [bind_apply, get_apply, PyM.lift_apply, hq0, hset, throw_apply]
  · intro p1 hw hn wl hwl
    have hset : setCenterWavelengthNm wl q0 = (.ok (), setCenterFrequency (cNmps / wl) q0) := by
      unfold setCenterWavelengthNm; rw [if_neg hwl]; rfl
    unfold interpolateToNewCenterWl
    simp only [bind_apply, get_apply, PyM.lift_apply, hq0, hset, hw, read_apply]
    cases hA : AW p1 with
    | error e =>
      exfalso
      by_cases hk : p.wKey = some (cacheHash strF p)
      · cases hv : p.wVal with
        | some v =>
          rw [W_mks_hit hk hv] at hw
          rw [← (Prod.mk.inj hw).2, h.AW_eq] at hA
          cases hA
        | none =>
          unfold W_mks at hw
          rw [bind_apply, get_apply] at hw
          dsimp only at hw
          rw [if_pos hk, hv] at hw
          simp [throw_apply] at hw
      · rw [W_mks_miss h.ready hk] at hw
        rw [← (Prod.mk.inj hw).2] at hA
        simp [AW, h.field] at hA
    | ok A =>
      dsimp only
      rw [dif_neg (by rintro ⟨h1, -⟩; simp only [wMks] at h1; omega)]
      rfl

theorem C113_nonvacuous (strF : ℝ → String) : ∃ p1, Holds twoLines ![0, 1, -1, 0] ∧ (2 ≤ 4) ∧ 0 < twoLines.tw ∧ twoLines.cf ≠ 0 ∧
    W_mks strF twoLines = (.ok (wMks twoLines 4), p1) := by
  obtain ⟨p1, hw⟩ := twoLines_grid strF
  exact ⟨p1, twoLines_holds, by norm_num, by norm_num [twoLines], by norm_num [twoLines], hw⟩

/-! ## C22: mean wavelength -/

/-- C22: the mean wavelength is the wavelength of the spectral centroid, so it lies between any bounds on the grid wavelengths
when all grid frequencies are positive. -/
theorem C22_wavelength {strF : ℝ → String} {p1 : Pulse} (h : Holds p a) (ha : ∃ k, a k ≠ 0)
    {w : Fin n → ℝ} (hw : W_mks strF p = (.ok ⟨n, w⟩, p1)) (hpos : ∀ k, 0 < w k) :
    ∃ r f, weightedAvgWavelengthNm strF p = (.ok r, p1) ∧ (weightedAvgFrequencyMks strF p).1 = .ok f ∧
      r * 10 ^ (-9 : ℤ) * f = cMks ∧
      ∀ lo hi, 0 < lo → (∀ k, lo ≤ cMks / (w k / (2 * Real.pi)) * 10 ^ 9 ∧ cMks / (w k / (2 * Real.pi)) * 10 ^ 9 ≤ hi) → lo ≤ r ∧ r ≤ hi := by
  have hpi := Real.pi_pos
  have hc : 0 < cMks := by norm_num [cMks]
  obtain ⟨f, hf, -, hb, -⟩ := C22_centroid h ha hw
  have hn := h.pos
  have hmin : ∃ l, 0 < l ∧ ∀ k, l ≤ w k / (2 * Real.pi) := by
    have : Nonempty (Fin n) := ⟨⟨0, hn⟩⟩
    obtain ⟨k0, hk0⟩ := Finite.exists_min w
    exact ⟨w k0 / (2 * Real.pi), div_pos (hpos k0) (by positivity), fun k => by gcongr; exact hk0 k⟩
  obtain ⟨l, hl0, hl⟩ := hmin
  have hmax : ∃ u, ∀ k, w k / (2 * Real.pi) ≤ u := by
    have : Nonempty (Fin n) := ⟨⟨0, hn⟩⟩
    obtain ⟨k0, hk0⟩ := Finite.exists_max w
    exact ⟨w k0 / (2 * Real.pi), fun k => by gcongr; exact hk0 k⟩
  obtain ⟨u, hu⟩ := hmax
  have hfpos : 0 < f := lt_of_lt_of_le hl0 (hb l u fun k => ⟨hl k, hu k⟩).1
  refine ⟨10 ^ 9 * cMks / f, f, ?_, by rw [hf], ?_, ?_⟩
  · unfold weightedAvgWavelengthNm
    simp only [bind_apply, hf]
    rw [if_neg hfpos.ne']
    rfl
  · rw [zpow_neg]; norm_cast; field_simp
  · intro lo hi hlo hk
    have hhi : 0 < hi := lt_of_lt_of_le hlo ((hk ⟨0, hn⟩).1.trans (hk ⟨0, hn⟩).2)
    have := hb (10 ^ 9 * cMks / hi) (10 ^ 9 * cMks / lo) fun k => by
      have hwk : 0 < w k / (2 * Real.pi) := div_pos (hpos k) (by positivity)
      have h1 := (hk k).1
      have h2 := (hk k).2
      rw [div_mul_eq_mul_div, le_div_iff₀ hwk] at h1
      rw [div_mul_eq_mul_div, div_le_iff₀ hwk] at h2
      rw [div_le_iff₀ hhi, le_div_iff₀ hlo]
      constructor <;> linarith
    constructor
    · rw [le_div_iff₀ hfpos, mul_comm, ← le_div_iff₀ hlo]; exact this.2
    · rw [div_le_iff₀ hfpos, mul_comm hi f, ← div_le_iff₀ hhi]; exact this.1

end PyNLO.Pulse
