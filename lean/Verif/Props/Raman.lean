import Verif.Props.SsfmProp

/-! # C49: Raman response, C50: coherence, C51: gain goal -/

namespace PyNLO

open Complex Ssfm Pulse

/-- circular convolution theorem in the convention of the solver -/
theorem fft_ifft_mul {n : ℕ} (y x : Fin n → ℂ) : fft (fun k => ifft y k * ifft x k) =
    fun j => (1 / (n : ℂ)) * ∑ m : Fin n, y m * x (rollIdx ((m : ℕ) : ℤ) j) := by
  rw [← fft_ifft (fun j => (1 / (n : ℂ)) * ∑ m : Fin n, y m * x (rollIdx ((m : ℕ) : ℤ) j))]
  congr 1
  funext k
  rw [ifft_smul]
  have h1 : ifft (fun j => ∑ m : Fin n, y m * x (rollIdx ((m : ℕ) : ℤ) j)) k = ∑ m : Fin n, y m * (rootE n (((m : ℕ) : ℤ) * (k : ℕ)) * ifft x k) := by
    have : ∀ m : Fin n, rootE n (((m : ℕ) : ℤ) * (k : ℕ)) * ifft x k = ifft (roll ((m : ℕ) : ℤ) x) k := fun m => (ifft_roll _ x k).symm
    simp only [this]
    unfold ifft roll
    simp only [Finset.sum_mul, Finset.mul_sum]
    rw [Finset.sum_comm]
    refine Finset.sum_congr rfl fun m _ => Finset.sum_congr rfl fun j _ => ?_
    ring
  show ifft y k * ifft x k = 1 / (n : ℂ) * _
  rw [h1]
  have h2 : ifft y k = 1 / (n : ℂ) * ∑ m : Fin n, y m * rootE n (((m : ℕ) : ℤ) * (k : ℕ)) := rfl
  rw [h2, mul_assoc, Finset.sum_mul]
  congr 1
  refine Finset.sum_congr rfl fun m _ => ?_
  ring

/-- the Raman kernel of the solver: value at delay `m·dT` (both branches), before normalisation -/
noncomputable def kernelFun (o : Obj) (t : ℝ) : ℝ := if o.simpleRaman then ramanSimple o.tau1 o.tau2 t else ramanLin o.tau1 o.tau2 t

theorem kernel_at {o : Obj} {n : ℕ} (he : n % 2 = 0) (d : ℝ) (m : Fin n) :
    truncate (fun i : Fin n => kernelFun o (((i : ℕ) - (n : ℝ) / 2) * d)) (rollIdx ((n / 2 : ℕ) : ℤ) m) =
      if (m : ℕ) < n / 2 then kernelFun o ((m : ℕ) * d) else 0 := by
  have hm := m.isLt
  have h2 : (n : ℝ) / 2 = ((n / 2 : ℕ) : ℝ) := by
    have : n = 2 * (n / 2) := by omega
    conv_lhs => rw [this]
    push_cast
    ring
  unfold truncate
  have hc := rollIdx_coe (n := n) ((n / 2 : ℕ) : ℤ) m
  by_cases h : (m : ℕ) < n / 2
  · have hi : ((rollIdx ((n / 2 : ℕ) : ℤ) m : Fin n) : ℕ) = m + n / 2 := by
      have : (((m : ℕ) : ℤ) - ((n / 2 : ℕ) : ℤ)) % n = m + n / 2 := by
        rw [← Int.add_emod_right, Int.emod_eq_of_lt] <;> omega
      omega
    rw [if_pos h, if_neg (by omega)]
    simp only [hi]
    congr 1
    rw [h2]
    push_cast
    ring
  · have hi : ((rollIdx ((n / 2 : ℕ) : ℤ) m : Fin n) : ℕ) = m - n / 2 := by
      have : (((m : ℕ) : ℤ) - ((n / 2 : ℕ) : ℤ)) % n = m - n / 2 := by
        rw [Int.emod_eq_of_lt] <;> omega
      omega
    rw [if_neg h, if_pos (by omega)]

theorem trapzX_uniform {k : ℕ} (y x : Fin (k + 1) → ℝ) (d : ℝ) (hx : ∀ i : Fin k, x i.succ - x i.castSucc = d) :
    trapzX y x = d * (∑ i, y i - (y 0 + y (Fin.last k)) / 2) := by
  unfold trapzX
  have h1 : ∀ i : Fin k, (x ⟨i + 1, by omega⟩ - x ⟨i, by omega⟩) * (y ⟨i, by omega⟩ + y ⟨i + 1, by omega⟩) / 2 =
      d / 2 * y i.castSucc + d / 2 * y i.succ := by
    intro i
    have : x ⟨i + 1, by omega⟩ - x ⟨i, by omega⟩ = d := hx i
    rw [this, show y ⟨i, by omega⟩ = y i.castSucc from rfl, show y ⟨i + 1, by omega⟩ = y i.succ from rfl]
    ring
  have h2 : (∑ i : Fin (k + 1 - 1), (x ⟨i + 1, by omega⟩ - x ⟨i, by omega⟩) * (y ⟨i, by omega⟩ + y ⟨i + 1, by omega⟩) / 2) =
      ∑ i : Fin k, (d / 2 * y i.castSucc + d / 2 * y i.succ) := Finset.sum_congr rfl fun i _ => h1 i
  rw [h2, Finset.sum_add_distrib, ← Finset.mul_sum, ← Finset.mul_sum]
  have a1 := Fin.sum_univ_castSucc y
  have a2 := Fin.sum_univ_succ y
  have b1 : ∑ i : Fin k, y i.castSucc = ∑ i, y i - y (Fin.last k) := by rw [a1]; ring
  have b2 : ∑ i : Fin k, y i.succ = ∑ i, y i - y 0 := by rw [a2]; ring
  rw [b1, b2]
  ring

/-- the response array of an enabled Raman term -/
theorem raman_eq {o : Obj} {p : Pulse} {F : FibObj} {a : Fin p.n → ℂ} (hp : Holds p a) {P0 : Params p.n}
    {A : Fin p.n → ℂ} {fR : ℝ} (hs : setup o p F = .ok (P0, A, fR)) (hR : o.disableRaman = false) :
    P0.R = fftshift (responseFT fR p.tw (normalise (truncate fun i : Fin p.n => kernelFun o (((i : ℕ) - (p.n : ℝ) / 2) * (p.tw / p.n)))
      fun i : Fin p.n => ((i : ℕ) - (p.n : ℝ) / 2) * (p.tw / p.n))) ∧ fR = if o.simpleRaman then o.fR else 0.245 := by
  obtain ⟨g, al, R0, R, -, -, hr, hf, -, e0⟩ := setup_cases hp hs
  have hT : p.T_ps = .ok ⟨p.n, fun i => ((i : ℕ) - (p.n : ℝ) / 2) * (p.tw / p.n)⟩ := hp.T_eq
  unfold ramanR at hr
  rw [hR, if_neg (by simp)] at hr
  by_cases ht : o.tau1 * o.tau2 ^ 2 = 0
  · rw [if_pos ht] at hr; simp at hr
  rw [if_neg ht, hT] at hr
  simp only [except_bind_ok] at hr
  unfold kernelFun
  cases hS : o.simpleRaman with
  | true =>
    rw [hS] at hr
    simp only [if_true, Except.ok.injEq, Prod.mk.injEq] at hr
    obtain ⟨q1, q2⟩ := hr
    rw [← q1, fill_mk] at hf
    rw [e0, ← Except.ok.inj hf, ← q2]
    exact ⟨rfl, by simp⟩
  | false =>
    rw [hS] at hr
    simp only [Bool.false_eq_true, if_false, Except.ok.injEq, Prod.mk.injEq] at hr
    obtain ⟨q1, q2⟩ := hr
    rw [← q1, fill_mk] at hf
    rw [e0, ← Except.ok.inj hf, ← q2]
    exact ⟨rfl, by simp⟩

/-- the normalisation of the kernel on an even grid -/
theorem trapz_kernel {o : Obj} {n : ℕ} (hn : n % 2 = 0) (k : ℕ) (hk : n = k + 1) (d : ℝ) :
    trapzX (truncate fun i : Fin n => kernelFun o (((i : ℕ) - (n : ℝ) / 2) * d)) (fun i : Fin n => ((i : ℕ) - (n : ℝ) / 2) * d) =
      d * (∑ m : Fin n, (if (m : ℕ) < n / 2 then kernelFun o ((m : ℕ) * d) else 0) - kernelFun o (((n / 2 - 1 : ℕ) : ℝ) * d) / 2) := by
  subst hk
  rw [trapzX_uniform _ _ d (by intro i; simp only [Fin.val_succ, Fin.val_castSucc]; push_cast; ring)]
  have s1 : ∑ i, truncate (fun i : Fin (k + 1) => kernelFun o (((i : ℕ) - ((k + 1 : ℕ) : ℝ) / 2) * d)) i =
      ∑ m : Fin (k + 1), (if (m : ℕ) < (k + 1) / 2 then kernelFun o ((m : ℕ) * d) else 0) := by
    rw [← sum_roll (((k + 1) / 2 : ℕ) : ℤ)]
    exact Finset.sum_congr rfl fun m _ => kernel_at hn d m
  have s2 : truncate (fun i : Fin (k + 1) => kernelFun o (((i : ℕ) - ((k + 1 : ℕ) : ℝ) / 2) * d)) 0 = 0 := by
    unfold truncate
    rw [if_pos (by simp only [Fin.val_zero]; omega)]
  have s3 : truncate (fun i : Fin (k + 1) => kernelFun o (((i : ℕ) - ((k + 1 : ℕ) : ℝ) / 2) * d)) (Fin.last k) =
      kernelFun o ((((k + 1) / 2 - 1 : ℕ) : ℝ) * d) := by
    unfold truncate
    rw [if_neg (by simp only [Fin.val_last]; omega)]
    simp only [Fin.val_last]
    congr 2
    have h3 : k + 1 = 2 * ((k + 1) / 2 - 1) + 2 := by omega
    have h4 : ((k : ℝ) + 1) = 2 * (((k + 1) / 2 - 1 : ℕ) : ℝ) + 2 := by exact_mod_cast h3
    push_cast
    linarith
  rw [s1, s2, s3, zero_add]

/-- C49 (even grids): the delayed response is causal.  For every field the Raman-filtered intensity is `(1−f)|A|²` plus `f·dT`
times the convolution of `|A|²` with kernel samples at the delays `m·dT`, `0 ≤ m < NPTS/2`, only; samples of `|A|²` at later times never
contribute.  The kernel has the documented shape, its trapezoidal integral is 1 (whenever it can be normalised), and `f` is
the fraction the solver reports as `f_R` afterwards. -/
theorem C49_causal {o : Obj} {p : Pulse} {F : FibObj} {a : Fin p.n → ℂ} (hp : Holds p a) (he : p.n % 2 = 0) {P0 : Params p.n}
    {A : Fin p.n → ℂ} {fR : ℝ} (hs : setup o p F = .ok (P0, A, fR)) (hR : o.disableRaman = false) :
    ∃ Z : ℝ, (∀ (x : Fin p.n → ℂ) (j : Fin p.n), applySpec P0.R x j = ((1 - fR : ℝ) : ℂ) * x j +
        ((fR * (p.tw / p.n) : ℝ) : ℂ) * ∑ m : Fin p.n, if (m : ℕ) < p.n / 2 then
          ((kernelFun o ((m : ℕ) * (p.tw / p.n)) / Z : ℝ) : ℂ) * x (rollIdx ((m : ℕ) : ℤ) j) else 0) ∧
      Z = (p.tw / p.n) * (∑ m : Fin p.n, (if (m : ℕ) < p.n / 2 then kernelFun o ((m : ℕ) * (p.tw / p.n)) else 0) -
        kernelFun o (((p.n / 2 - 1 : ℕ) : ℝ) * (p.tw / p.n)) / 2) ∧
      (o.simpleRaman = true → fR = o.fR) := by
  obtain ⟨hP, hfR⟩ := raman_eq hp hs hR
  have hnpos := hp.pos
  have hn0 : (p.n : ℂ) ≠ 0 := by exact_mod_cast hnpos.ne'
  set T : Fin p.n → ℝ := fun i => ((i : ℕ) - (p.n : ℝ) / 2) * (p.tw / p.n) with hTdef
  set K : Fin p.n → ℝ := truncate fun i : Fin p.n => kernelFun o (((i : ℕ) - (p.n : ℝ) / 2) * (p.tw / p.n)) with hK
  refine ⟨trapzX K T, ?_, ?_, ?_⟩
  · intro x j
    have hR' : P0.R = fun k => ((1 - fR : ℝ) : ℂ) + (p.tw : ℂ) * ifft (fftshift fun i => ((fR * normalise K T i : ℝ) : ℂ)) k := by
      rw [hP]
      funext k
      have := congrFun (fftshift_ifftshift (ifft (fftshift fun i => ((fR * normalise K T i : ℝ) : ℂ)))) k
      rw [← this]
      rfl
    have e1 : applySpec P0.R x = fun j => ((1 - fR : ℝ) : ℂ) * x j + (p.tw : ℂ) *
        fft (fun k => ifft (fftshift fun i => ((fR * normalise K T i : ℝ) : ℂ)) k * ifft x k) j := by
      rw [hR']
      unfold applySpec
      have : (fun k => (((1 - fR : ℝ) : ℂ) + (p.tw : ℂ) * ifft (fftshift fun i => ((fR * normalise K T i : ℝ) : ℂ)) k) * ifft x k) =
          fun k => ((1 - fR : ℝ) : ℂ) * ifft x k + (p.tw : ℂ) * (ifft (fftshift fun i => ((fR * normalise K T i : ℝ) : ℂ)) k * ifft x k) := by
        funext k; ring
      rw [this, fft_add, fft_smul, fft_smul, fft_ifft]
    rw [e1, fft_ifft_mul]
    simp only
    congr 1
    rw [Finset.mul_sum, Finset.mul_sum, Finset.mul_sum]
    refine Finset.sum_congr rfl fun m _ => ?_
    have e2 : (fftshift fun i => ((fR * normalise K T i : ℝ) : ℂ)) m =
        ((fR * ((if (m : ℕ) < p.n / 2 then kernelFun o ((m : ℕ) * (p.tw / p.n)) else 0) / trapzX K T) : ℝ) : ℂ) := by
      rw [← kernel_at he (p.tw / p.n) m]
      rfl
    rw [e2]
    split_ifs with hm
    · push_cast
      field_simp
    · simp
  · obtain ⟨k, hk⟩ : ∃ k, p.n = k + 1 := ⟨p.n - 1, by omega⟩
    exact trapz_kernel he k hk (p.tw / p.n)
  · intro hS
    rw [hfR, hS, if_pos rfl]

/-- C49: `disable_Raman` makes the response 1 in every bin. -/
theorem C49_disabled {o : Obj} {p : Pulse} {F : FibObj} {a : Fin p.n → ℂ} (hp : Holds p a) {P0 : Params p.n}
    {A : Fin p.n → ℂ} {fR : ℝ} (hs : setup o p F = .ok (P0, A, fR)) (hR : o.disableRaman = true) (k : Fin p.n) : P0.R k = 1 := by
  obtain ⟨g, al, R0, R, -, -, hr, hf, -, e0⟩ := setup_cases hp hs
  unfold ramanR at hr
  rw [if_pos hR] at hr
  have hR0 : R0 = ⟨p.n, fun _ => 1⟩ := (Prod.mk.inj (Except.ok.inj hr)).1.symm
  rw [hR0, fill_mk] at hf
  rw [e0, ← Except.ok.inj hf]
  rfl

/-- C49 fails for the default (Lin & Agrawal) response: the user's Raman fraction is never used; solvers that differ only in
`f_R` compute the same response, and `f_R` is overwritten by 0.245. -/
theorem C49_fraction_refuted {o : Obj} (x : ℝ) {p : Pulse} (hR : o.disableRaman = false) (hS : o.simpleRaman = false) :
    ramanR { o with fR := x } p = ramanR o p ∧ ∀ R f, ramanR o p = .ok (R, f) → f = 0.245 := by
  constructor
  · unfold ramanR
    simp only [hR, hS, Bool.false_eq_true, if_false]
  · intro R f h
    unfold ramanR at h
    rw [hR, if_neg (by simp)] at h
    by_cases ht : o.tau1 * o.tau2 ^ 2 = 0
    · rw [if_pos ht] at h; simp at h
    rw [if_neg ht] at h
    rcases hT : p.T_ps with e | T
    · rw [hT] at h; simp at h
    · rw [hT] at h
      simp only [except_bind_ok, hS, Bool.false_eq_true, if_false, Except.ok.injEq, Prod.mk.injEq] at h
      exact h.2.symm

/-- C49 fails on odd grids: with three points the sample at `T = −dT/2` keeps a non-zero response. -/
theorem C49_odd_refuted : ∃ (o : Obj) (T : Fin 3 → ℝ), (∀ i, T i = ((i : ℕ) - (3 : ℝ) / 2) * (3 / 3)) ∧ o.simpleRaman = true ∧ T 1 < 0 ∧
    normalise (truncate fun i => ramanSimple o.tau1 o.tau2 (T i)) T 1 ≠ 0 := by
  refine ⟨{ Obj.default with simpleRaman := true, tau1 := 1, tau2 := 1 }, fun i => ((i : ℕ) - (3 : ℝ) / 2) * (3 / 3), fun _ => rfl, rfl, ?_, ?_⟩
  · norm_num
  · have hs : 0 < Real.sin (1 / 2) := Real.sin_pos_of_pos_of_lt_pi (by norm_num) (by linarith [Real.two_le_pi])
    have he1 : Real.exp (-(1 / 2)) < 1 := Real.exp_lt_one_iff.mpr (by norm_num)
    have he2 : 1 < Real.exp (1 / 2) := Real.one_lt_exp_iff.mpr (by norm_num)
    have v0 : truncate (fun i : Fin 3 => ramanSimple 1 1 ((((i : ℕ) : ℝ) - (3 : ℝ) / 2) * (3 / 3))) 0 = 0 := by
      unfold truncate; rw [if_pos (by norm_num)]
    have v1 : truncate (fun i : Fin 3 => ramanSimple 1 1 ((((i : ℕ) : ℝ) - (3 : ℝ) / 2) * (3 / 3))) 1 = -(2 * Real.exp (1 / 2) * Real.sin (1 / 2)) := by
      unfold truncate ramanSimple
      rw [if_neg (by norm_num)]
      simp only
      rw [show ((((1 : Fin 3) : ℕ) : ℝ) - (3 : ℝ) / 2) * (3 / 3) = -(1 / 2) by norm_num]
      rw [div_one, div_one, Real.sin_neg, neg_neg]
      norm_num
    have v2 : truncate (fun i : Fin 3 => ramanSimple 1 1 ((((i : ℕ) : ℝ) - (3 : ℝ) / 2) * (3 / 3))) 2 = 2 * Real.exp (-(1 / 2)) * Real.sin (1 / 2) := by
      unfold truncate ramanSimple
      rw [if_neg (by norm_num)]
      simp only
      rw [show ((((2 : Fin 3) : ℕ) : ℝ) - (3 : ℝ) / 2) * (3 / 3) = 1 / 2 by norm_num]
      rw [div_one, div_one]
      norm_num
    show normalise (truncate (fun i : Fin 3 => ramanSimple 1 1 ((((i : ℕ) : ℝ) - (3 : ℝ) / 2) * (3 / 3)))) (fun i => (((i : ℕ) : ℝ) - (3 : ℝ) / 2) * (3 / 3)) 1 ≠ 0
    unfold normalise
    rw [trapzX_uniform _ _ 1 (by intro i; simp only [Fin.val_succ, Fin.val_castSucc]; push_cast; ring)]
    rw [Fin.sum_univ_three, show Fin.last 2 = 2 from rfl, v0, v1, v2]
    have hneg : 1 * (0 + -(2 * Real.exp (1 / 2) * Real.sin (1 / 2)) + 2 * Real.exp (-(1 / 2)) * Real.sin (1 / 2) - (0 + 2 * Real.exp (-(1 / 2)) * Real.sin (1 / 2)) / 2) ≠ 0 := by
      intro h0
      have : Real.sin (1 / 2) * (Real.exp (-(1 / 2)) - 2 * Real.exp (1 / 2)) = 0 := by linarith
      rcases mul_eq_zero.mp this with h | h <;> linarith
    refine div_ne_zero ?_ hneg
    have : 0 < 2 * Real.exp (1 / 2) * Real.sin (1 / 2) := by positivity
    linarith

/-- C49: a solver built with default arguments and the simple kernel uses the documented fraction 0.18. -/
theorem C49_default {p : Pulse} {F : FibObj} {a : Fin p.n → ℂ} (hp : Holds p a) (he : p.n % 2 = 0) {P0 : Params p.n}
    {A : Fin p.n → ℂ} {fR : ℝ} (hs : setup { Obj.default with simpleRaman := true } p F = .ok (P0, A, fR)) : fR = 18 / 100 := by
  obtain ⟨Z, -, -, h⟩ := C49_causal hp he hs rfl
  rw [h rfl]
  norm_num [Obj.default]

end PyNLO
