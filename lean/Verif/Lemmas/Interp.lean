import Mathlib.Analysis.Calculus.LocalExtr.Rolle
import Mathlib.Analysis.Calculus.IteratedDeriv.Lemmas
import Mathlib.Analysis.Calculus.ContDiff.Deriv
import Mathlib.Analysis.Calculus.Deriv.Polynomial
import Mathlib.Analysis.Calculus.ContDiff.Polynomial
import Mathlib.Analysis.Calculus.Deriv.Shift
import Mathlib.Analysis.Calculus.Deriv.CompMul
import Mathlib.LinearAlgebra.Vandermonde
import Mathlib.LinearAlgebra.Matrix.NonsingularInverse
import Mathlib.Algebra.Polynomial.BigOperators
import Mathlib.Data.Finset.Sort

/-! # Derivatives of interpolating polynomials -/

namespace PyNLO.Interp

open Set Polynomial
open scoped Nat

/-- between `m + 1` zeros there are `m` zeros of the derivative -/
theorem rolle_one {h : ℝ → ℝ} {a b : ℝ} (hc : ∀ y ∈ Icc a b, ContinuousAt h y) {s : Finset ℝ} {m : ℕ} (hs : s.card = m + 1)
    (hI : ∀ y ∈ s, y ∈ Icc a b) (h0 : ∀ y ∈ s, h y = 0) :
    ∃ t : Finset ℝ, t.card = m ∧ (∀ y ∈ t, y ∈ Icc a b) ∧ ∀ y ∈ t, deriv h y = 0 := by
  let z := s.orderEmbOfFin hs
  have hz : ∀ i, z i ∈ s := fun i => s.orderEmbOfFin_mem hs i
  have hw : ∀ i : Fin m, ∃ c ∈ Ioo (z i.castSucc) (z i.succ), deriv h c = 0 := by
    intro i
    refine exists_deriv_eq_zero (z.strictMono Fin.castSucc_lt_succ) ?_ (by rw [h0 _ (hz _), h0 _ (hz _)])
    intro y hy
    exact (hc y ⟨(hI _ (hz _)).1.trans hy.1, hy.2.trans (hI _ (hz _)).2⟩).continuousWithinAt
  choose w hw1 hw2 using hw
  have hmono : StrictMono w := by
    intro i j hij
    have : z i.succ ≤ z j.castSucc := z.monotone (Fin.succ_le_castSucc_iff.2 hij)
    exact ((hw1 i).2.trans_le this).trans (hw1 j).1
  refine ⟨Finset.univ.map ⟨w, hmono.injective⟩, by simp, ?_, ?_⟩
  · intro y hy
    obtain ⟨i, -, rfl⟩ := Finset.mem_map.1 hy
    exact ⟨(hI _ (hz _)).1.trans (hw1 i).1.le, (hw1 i).2.le.trans (hI _ (hz _)).2⟩
  · intro y hy
    obtain ⟨i, -, rfl⟩ := Finset.mem_map.1 hy
    exact hw2 i

/-- Rolle's theorem, `k` times -/
theorem rolle {a b : ℝ} {m : ℕ} : ∀ (k : ℕ) {h : ℝ → ℝ}, (∀ y ∈ Icc a b, ContDiffAt ℝ k h y) → ∀ {s : Finset ℝ}, s.card = m + k →
    (∀ y ∈ s, y ∈ Icc a b) → (∀ y ∈ s, h y = 0) →
    ∃ t : Finset ℝ, t.card = m ∧ (∀ y ∈ t, y ∈ Icc a b) ∧ ∀ y ∈ t, iteratedDeriv k h y = 0
  | 0, h, _, s, hs, hI, h0 => ⟨s, hs, hI, by simpa using h0⟩
  | k + 1, h, hc, s, hs, hI, h0 => by
    obtain ⟨t, ht, hI', h0'⟩ := rolle_one (fun y hy => (hc y hy).continuousAt) (m := m + k) hs hI h0
    obtain ⟨u, hu, hI'', h0''⟩ := rolle k (h := deriv h) (fun y hy => (hc y hy).derivWithin (by norm_cast)) ht hI' h0'
    exact ⟨u, hu, hI'', by simpa only [iteratedDeriv_succ'] using h0''⟩

theorem contDiffAt_iteratedDeriv {m : ℕ} : ∀ (n : ℕ) {h : ℝ → ℝ} {y : ℝ}, ContDiffAt ℝ ((m + n : ℕ) : WithTop ℕ∞) h y → ContDiffAt ℝ m (iteratedDeriv n h) y
  | 0, h, y, hc => by simpa using hc
  | n + 1, h, y, hc => by
    rw [iteratedDeriv_succ']
    exact contDiffAt_iteratedDeriv n (hc.derivWithin (by norm_cast))

theorem iteratedDeriv_iteratedDeriv (m n : ℕ) (h : ℝ → ℝ) : iteratedDeriv m (iteratedDeriv n h) = iteratedDeriv (m + n) h := by
  simp only [iteratedDeriv_eq_iterate, Function.iterate_add_apply]

theorem iteratedDeriv_eval (n : ℕ) (p : ℝ[X]) : iteratedDeriv n (fun x => p.eval x) = fun x => (derivative^[n] p).eval x := by
  induction n generalizing p with
  | zero => simp
  | succ n ih =>
    rw [iteratedDeriv_succ', Function.iterate_succ_apply, ← ih (derivative p)]
    congr 1
    funext x
    exact p.deriv

theorem iteratedDeriv_eval_zero (n : ℕ) (p : ℝ[X]) : iteratedDeriv n (fun x => p.eval x) 0 = n ! * p.coeff n := by
  rw [iteratedDeriv_eval]
  show (derivative^[n] p).eval 0 = _
  rw [← coeff_zero_eq_eval_zero, coeff_iterate_derivative, zero_add, Nat.descFactorial_self, nsmul_eq_mul]

theorem iteratedDeriv_monic {p : ℝ[X]} (hp : p.Monic) (x : ℝ) : iteratedDeriv p.natDegree (fun x => p.eval x) x = p.natDegree ! := by
  rw [iteratedDeriv_eval]
  have hd : (derivative^[p.natDegree] p).natDegree = 0 := by
    have := natDegree_iterate_derivative p p.natDegree
    omega
  obtain ⟨c, hc⟩ := natDegree_eq_zero.1 hd
  have : (derivative^[p.natDegree] p).coeff 0 = p.natDegree ! := by
    rw [coeff_iterate_derivative, zero_add, Nat.descFactorial_self, nsmul_eq_mul, hp.coeff_natDegree, mul_one]
  show (derivative^[p.natDegree] p).eval x = _
  rw [← hc, coeff_C_zero] at this
  rw [← hc, eval_C, this]

/-- a function with `m` zeros is bounded by its `m`-th derivative -/
theorem zeros_bound {h : ℝ → ℝ} {a b x : ℝ} (hx : x ∈ Icc a b) {s : Finset ℝ} (hI : ∀ y ∈ s, y ∈ Icc a b) (h0 : ∀ y ∈ s, h y = 0)
    (hc : ∀ y ∈ Icc a b, ContDiffAt ℝ s.card h y) {M : ℝ} (hM : ∀ y ∈ Icc a b, |iteratedDeriv s.card h y| ≤ M) :
    |h x| ≤ M * (∏ y ∈ s, |x - y|) / s.card ! := by
  have hM0 : 0 ≤ M := (abs_nonneg _).trans (hM x hx)
  by_cases hxs : x ∈ s
  · rw [h0 x hxs, abs_zero]
    positivity
  let p : ℝ[X] := ∏ y ∈ s, (X - C y)
  have hp : p.Monic := monic_prod_of_monic _ _ fun y _ => monic_X_sub_C y
  have hdeg : p.natDegree = s.card := by simp [p]
  have hev : ∀ t, p.eval t = ∏ y ∈ s, (t - y) := fun t => by simp [p, eval_prod]
  have hpx : p.eval x ≠ 0 := by
    rw [hev, Finset.prod_ne_zero_iff]
    intro y hy e
    exact hxs (by rwa [sub_eq_zero.1 e])
  let K := h x / p.eval x
  have hpc : ∀ y, ContDiffAt ℝ s.card (fun t => p.eval t) y := fun y => by
    simpa using (Polynomial.contDiff_aeval p (s.card : WithTop ℕ∞)).contDiffAt (𝕜 := ℝ) (x := y)
  have hKc : ∀ y, ContDiffAt ℝ s.card (fun t => K * p.eval t) y := fun y => contDiffAt_const.mul (hpc y)
  obtain ⟨t, ht, htI, ht0⟩ := rolle (m := 1) s.card (h := h - fun t => K * p.eval t) (fun y hy => (hc y hy).sub (hKc y)) (s := insert x s)
    (by rw [Finset.card_insert_of_notMem hxs, add_comm])
    (by
      intro y hy
      rcases Finset.mem_insert.1 hy with rfl | hy
      · exact hx
      · exact hI y hy)
    (by
      intro y hy
      show h y - K * p.eval y = 0
      rcases Finset.mem_insert.1 hy with rfl | hy
      · simp only [K]
        field_simp
        ring
      · rw [h0 y hy, hev, Finset.prod_eq_zero hy (sub_self y), mul_zero, sub_zero])
  obtain ⟨ξ, rfl⟩ := Finset.card_eq_one.1 ht
  have hξ := htI ξ (Finset.mem_singleton_self ξ)
  have e := ht0 ξ (Finset.mem_singleton_self ξ)
  rw [iteratedDeriv_sub (hc ξ hξ) (hKc ξ), iteratedDeriv_const_mul_field, ← hdeg, iteratedDeriv_monic hp, hdeg] at e
  have hf : (0 : ℝ) < (s.card ! : ℕ) := by exact_mod_cast Nat.factorial_pos _
  have hK : |K| ≤ M / s.card ! := by
    rw [le_div_iff₀ hf]
    calc |K| * (s.card ! : ℕ) = |K * (s.card ! : ℕ)| := by rw [abs_mul, Nat.abs_cast]
      _ = |iteratedDeriv s.card h ξ| := by rw [sub_eq_zero.1 e]
      _ ≤ M := hM ξ hξ
  calc |h x| = |K| * |p.eval x| := by
        rw [← abs_mul]
        simp only [K]
        rw [div_mul_cancel₀ _ hpx]
    _ ≤ M / s.card ! * |p.eval x| := mul_le_mul_of_nonneg_right hK (abs_nonneg _)
    _ = _ := by
      rw [hev, Finset.abs_prod]
      ring

/-- Finite-difference weights from the inverse of the Vandermonde matrix of the nodes: the error of the derivative at 0. -/
theorem vandermonde_error {N : ℕ} {v : Fin N → ℝ} (hv : Function.Injective v) {R : ℝ} (hR : ∀ i, |v i| ≤ R) {f : ℝ → ℝ}
    (hc : ∀ y ∈ Icc (-R) R, ContDiffAt ℝ N f y) {M : ℝ} (hM : ∀ y ∈ Icc (-R) R, |iteratedDeriv N f y| ≤ M) (n : Fin N) :
    |∑ k, ((n : ℕ) ! * (Matrix.vandermonde v)⁻¹ n k) * f (v k) - iteratedDeriv n f 0| ≤ M * R ^ (N - n) / (N - n) ! := by
  have hR0 : 0 ≤ R := (abs_nonneg _).trans (hR n)
  have h0 : (0 : ℝ) ∈ Icc (-R) R := ⟨by linarith, hR0⟩
  have hdet : IsUnit (Matrix.vandermonde v).det := isUnit_iff_ne_zero.2 (Matrix.det_vandermonde_ne_zero_iff.2 hv)
  let c : Fin N → ℝ := (Matrix.vandermonde v)⁻¹.mulVec fun k => f (v k)
  let q : ℝ[X] := ∑ j, C (c j) * X ^ (j : ℕ)
  have hq : ∀ k, q.eval (v k) = f (v k) := by
    intro k
    have e : (Matrix.vandermonde v).mulVec c = fun k => f (v k) := by
      simp only [c, Matrix.mulVec_mulVec, Matrix.mul_nonsing_inv _ hdet, Matrix.one_mulVec]
    have := congrFun e k
    rw [← this]
    simp only [q, eval_finsetSum, eval_mul, eval_C, eval_pow, eval_X, Matrix.mulVec, dotProduct, Matrix.vandermonde_apply]
    exact Finset.sum_congr rfl fun j _ => mul_comm _ _
  have hcoeff : q.coeff n = c n := by
    simp only [q, finsetSum_coeff, coeff_C_mul, coeff_X_pow, Fin.val_inj]
    simp
  have hdeg : q.degree < N := by
    refine (degree_sum_le _ _).trans_lt ((Finset.sup_lt_iff (WithBot.bot_lt_coe N)).2 fun j _ => ?_)
    exact (degree_C_mul_X_pow_le _ _).trans_lt (Nat.cast_lt.2 j.isLt)
  have hsum : ∑ k, ((n : ℕ) ! * (Matrix.vandermonde v)⁻¹ n k) * f (v k) = iteratedDeriv n (fun x => q.eval x) 0 := by
    rw [iteratedDeriv_eval_zero, hcoeff]
    simp only [c, Matrix.mulVec, dotProduct, Finset.mul_sum, mul_assoc]
  have hqc : ∀ (m : ℕ) y, ContDiffAt ℝ m (fun x => q.eval x) y := fun m y => by
    simpa using (Polynomial.contDiff_aeval q (m : WithTop ℕ∞)).contDiffAt (𝕜 := ℝ) (x := y)
  have hn : (n : ℕ) < N := n.isLt
  have hg : ∀ y ∈ Icc (-R) R, ContDiffAt ℝ N (f - fun x => q.eval x) y := fun y hy => (hc y hy).sub (hqc N y)
  obtain ⟨t, ht, htI, ht0⟩ := rolle (m := N - n) n (h := f - fun x => q.eval x)
    (fun y hy => (hg y hy).of_le (by exact_mod_cast hn.le)) (s := Finset.univ.map ⟨v, hv⟩)
    (by simp)
    (by
      intro y hy
      obtain ⟨i, -, rfl⟩ := Finset.mem_map.1 hy
      exact abs_le.1 (hR i))
    (by
      intro y hy
      obtain ⟨i, -, rfl⟩ := Finset.mem_map.1 hy
      show f (v i) - q.eval (v i) = 0
      rw [hq, sub_self])
  have hNn : N - n + n = N := by omega
  have b := zeros_bound (h := iteratedDeriv n (f - fun x => q.eval x)) h0 htI ht0
    (fun y hy => contDiffAt_iteratedDeriv n (by rw [ht, hNn]; exact hg y hy)) (M := M)
    (fun y hy => by
      rw [iteratedDeriv_iteratedDeriv, ht, hNn, iteratedDeriv_sub (hc y hy) (hqc N y), iteratedDeriv_eval]
      simp only [iterate_derivative_eq_zero_of_degree_lt hdeg, eval_zero, sub_zero]
      exact hM y hy)
  rw [iteratedDeriv_sub ((hc 0 h0).of_le (by exact_mod_cast hn.le)) (hqc n 0), ← hsum, abs_sub_comm, ht] at b
  refine b.trans ?_
  have hM0 : 0 ≤ M := (abs_nonneg _).trans (hM 0 h0)
  have hprod : ∏ y ∈ t, |0 - y| ≤ R ^ (N - n) := by
    rw [← ht, ← Finset.prod_const]
    refine Finset.prod_le_prod (fun _ _ => abs_nonneg _) fun y hy => ?_
    rw [zero_sub, abs_neg]
    exact abs_le.2 (htI y hy)
  gcongr

/-- all derivatives of a function of a shifted and scaled argument -/
theorem iteratedDeriv_affine (f : ℝ → ℝ) (x d : ℝ) : ∀ (n : ℕ) (s : ℝ), iteratedDeriv n (fun s => f (x + s * d)) s = d ^ n * iteratedDeriv n f (x + s * d) := by
  intro n
  induction n generalizing f with
  | zero => simp
  | succ n ih =>
    intro s
    rw [iteratedDeriv_succ']
    have e : deriv (fun s => f (x + s * d)) = fun s => d * deriv f (x + s * d) := by
      funext s
      have h1 := deriv_comp_mul_left d (fun y => f (x + y)) s
      simp only [mul_comm d] at h1
      have h2 := deriv_comp_const_add f x (s * d)
      rw [h1, h2, smul_eq_mul]
    rw [e, iteratedDeriv_const_mul_field, ih, iteratedDeriv_succ']
    ring

end PyNLO.Interp
