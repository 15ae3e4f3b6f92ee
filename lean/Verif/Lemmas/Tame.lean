import Verif.Spec.Nlse
import Mathlib.Analysis.Calculus.ContDiff.Bounds
import Mathlib.Analysis.Calculus.IteratedDeriv.Lemmas
import Mathlib.Analysis.Complex.RealDeriv

/-!
# Families of smooth functions with uniformly bounded derivatives

`Tame ω f`: the functions `f i` are smooth and each derivative is bounded by a multiple of the weight `ω i t` that does not depend on `i` and `t`.
-/

namespace PyNLO.Nlse

open Complex Polynomial

variable {ι : Type*} {ω ω' : ι → ℝ → ℝ} {f g : ι → ℝ → ℂ}

/-- the derivative of order `k` is bounded by a multiple of the weight -/
def Bd (k : ℕ) (ω : ι → ℝ → ℝ) (f : ι → ℝ → ℂ) : Prop := ∃ C : ℝ, ∀ i t, ‖iteratedDeriv k (f i) t‖ ≤ C * ω i t

structure Tame (ω : ι → ℝ → ℝ) (f : ι → ℝ → ℂ) : Prop where
  smooth : ∀ i, ContDiff ℝ (⊤ : ℕ∞) (f i)
  bound : ∀ k, Bd k ω f

theorem smooth_at {f : ℝ → ℂ} (h : ContDiff ℝ (⊤ : ℕ∞) f) (k : ℕ) (t : ℝ) : ContDiffAt ℝ k f t := (h.of_le (by exact_mod_cast le_top)).contDiffAt

theorem Bd.add {k : ℕ} (hf : Bd k ω f) (hg : Bd k ω g) (sf : ∀ i, ContDiff ℝ (⊤ : ℕ∞) (f i)) (sg : ∀ i, ContDiff ℝ (⊤ : ℕ∞) (g i)) :
    Bd k ω fun i t => f i t + g i t := by
  obtain ⟨C, hC⟩ := hf
  obtain ⟨D, hD⟩ := hg
  refine ⟨C + D, fun i t => ?_⟩
  have e : iteratedDeriv k (fun t => f i t + g i t) t = iteratedDeriv k (f i) t + iteratedDeriv k (g i) t :=
    iteratedDeriv_add (smooth_at (sf i) k t) (smooth_at (sg i) k t)
  rw [e, add_mul]
  exact (norm_add_le _ _).trans (add_le_add (hC i t) (hD i t))

theorem Bd.mul {k : ℕ} (hf : ∀ j ≤ k, Bd j ω f) (hg : ∀ j ≤ k, Bd j ω' g) (sf : ∀ i, ContDiff ℝ (⊤ : ℕ∞) (f i)) (sg : ∀ i, ContDiff ℝ (⊤ : ℕ∞) (g i)) :
    Bd k (fun i t => ω i t * ω' i t) fun i t => f i t * g i t := by
  choose! C hC using hf
  choose! D hD using hg
  refine ⟨∑ j ∈ Finset.range (k + 1), (k.choose j : ℝ) * (C j * D (k - j)), fun i t => ?_⟩
  have h := norm_iteratedFDeriv_mul_le (sf i) (sg i) t (n := k) (by exact_mod_cast le_top)
  simp only [norm_iteratedFDeriv_eq_norm_iteratedDeriv] at h
  refine h.trans ?_
  rw [Finset.sum_mul]
  refine Finset.sum_le_sum fun j hj => ?_
  have hj' : j ≤ k := Nat.lt_succ_iff.1 (Finset.mem_range.1 hj)
  have h1 := hC j hj' i t
  have h2 := hD (k - j) (Nat.sub_le _ _) i t
  have h3 := mul_le_mul h1 h2 (norm_nonneg _) ((norm_nonneg _).trans h1)
  rw [mul_assoc, mul_assoc]
  refine mul_le_mul_of_nonneg_left (h3.trans (le_of_eq ?_)) (by positivity)
  ring

theorem Tame.add (hf : Tame ω f) (hg : Tame ω g) : Tame ω fun i t => f i t + g i t :=
  ⟨fun i => (hf.smooth i).add (hg.smooth i), fun k => (hf.bound k).add (hg.bound k) hf.smooth hg.smooth⟩

theorem Tame.mul (hf : Tame ω f) (hg : Tame ω' g) : Tame (fun i t => ω i t * ω' i t) fun i t => f i t * g i t :=
  ⟨fun i => (hf.smooth i).mul (hg.smooth i), fun _ => Bd.mul (fun j _ => hf.bound j) (fun j _ => hg.bound j) hf.smooth hg.smooth⟩

theorem Tame.mono (hf : Tame ω f) {c : ℝ} (h0 : ∀ i t, 0 ≤ ω i t) (h : ∀ i t, ω i t ≤ c * ω' i t) : Tame ω' f := by
  refine ⟨hf.smooth, fun k => ?_⟩
  obtain ⟨C, hC⟩ := hf.bound k
  refine ⟨|C| * c, fun i t => (hC i t).trans ?_⟩
  rw [mul_assoc]
  exact (mul_le_mul_of_nonneg_right (le_abs_self C) (h0 i t)).trans (mul_le_mul_of_nonneg_left (h i t) (abs_nonneg C))

theorem Tame.deriv (hf : Tame ω f) : Tame ω fun i => _root_.deriv (f i) :=
  ⟨fun i => (contDiff_infty_iff_deriv.1 (hf.smooth i)).2, fun k => by
    obtain ⟨C, hC⟩ := hf.bound (k + 1)
    exact ⟨C, fun i t => by rw [← iteratedDeriv_succ']; exact hC i t⟩⟩

theorem Tame.iteratedDeriv (hf : Tame ω f) (m : ℕ) : Tame ω fun i => _root_.iteratedDeriv m (f i) := by
  induction m with
  | zero => simpa only [iteratedDeriv_zero] using hf
  | succ m ih =>
    simp only [iteratedDeriv_succ]
    exact ih.deriv

/-- factors that do not depend on time -/
theorem Tame.const (c : ι → ℂ) {C : ℝ} (hc : ∀ i, ‖c i‖ ≤ C) : Tame (fun _ _ => 1) fun i (_ : ℝ) => c i := by
  refine ⟨fun i => contDiff_const, fun k => ?_⟩
  cases k with
  | zero => exact ⟨C, fun i t => by simpa using hc i⟩
  | succ k =>
    refine ⟨0, fun i t => ?_⟩
    rw [iteratedDeriv_const]
    simp

theorem Tame.one_mul (hf : Tame (fun i t => 1 * ω i t) f) : Tame ω f := by simpa only [_root_.one_mul] using hf

theorem Tame.mul_one (hf : Tame (fun i t => ω i t * 1) f) : Tame ω f := by simpa only [_root_.mul_one] using hf

theorem Tame.const_mul (hf : Tame ω f) (c : ι → ℂ) {C : ℝ} (hc : ∀ i, ‖c i‖ ≤ C) : Tame ω fun i t => c i * f i t :=
  ((Tame.const c hc).mul hf).one_mul

theorem Tame.neg (hf : Tame ω f) : Tame ω fun i t => -f i t := by
  simpa using hf.const_mul (fun _ => -1) (C := 1) (by simp)

theorem Tame.sub (hf : Tame ω f) (hg : Tame ω g) : Tame ω fun i t => f i t - g i t := by
  simpa only [sub_eq_add_neg] using hf.add hg.neg

theorem Tame.conj (hf : Tame ω f) : Tame ω fun i t => (starRingEnd ℂ) (f i t) := by
  refine ⟨fun i => conjCLE.contDiff.comp (hf.smooth i), fun k => ?_⟩
  obtain ⟨C, hC⟩ := hf.bound k
  refine ⟨C, fun i t => ?_⟩
  rw [← norm_iteratedFDeriv_eq_norm_iteratedDeriv]
  have h := conjLIE.norm_iteratedFDeriv_comp_left (f i) t k
  show ‖iteratedFDeriv ℝ k (conjLIE ∘ f i) t‖ ≤ _
  rw [h, norm_iteratedFDeriv_eq_norm_iteratedDeriv]
  exact hC i t

theorem Tame.sum {α : Type*} (s : Finset α) {F : α → ι → ℝ → ℂ} (h : ∀ a ∈ s, Tame ω (F a)) : Tame ω fun i t => ∑ a ∈ s, F a i t := by
  classical
  induction s using Finset.induction_on with
  | empty =>
    simp only [Finset.sum_empty]
    refine ⟨fun i => contDiff_const, fun k => ⟨0, fun i t => ?_⟩⟩
    cases k with
    | zero => simp
    | succ k => rw [iteratedDeriv_const]; simp
  | insert a s ha ih =>
    simp only [Finset.sum_insert ha]
    exact (h a (Finset.mem_insert_self a s)).add (ih fun b hb => h b (Finset.mem_insert_of_mem hb))

theorem Tame.dispersion (b : ℝ[X]) (hf : Tame ω f) : Tame ω fun i => dispersion b (f i) := by
  have h : (fun i => Nlse.dispersion b (f i)) = fun i t => ∑ m ∈ b.support, (I * b.coeff m * I ^ m) * _root_.iteratedDeriv m (f i) t := by
    funext i t
    rfl
  rw [h]
  exact Tame.sum _ fun m _ => (hf.iteratedDeriv m).const_mul (fun _ => I * b.coeff m * I ^ m) (C := ‖(I * b.coeff m * I ^ m : ℂ)‖) (fun _ => le_refl _)

theorem Tame.reindex {κ : Type*} (hf : Tame ω f) (σ : κ → ι) : Tame (fun i => ω (σ i)) fun i => f (σ i) :=
  ⟨fun i => hf.smooth (σ i), fun k => by
    obtain ⟨C, hC⟩ := hf.bound k
    exact ⟨C, fun i t => hC (σ i) t⟩⟩

/-- reciprocals of functions that stay away from zero -/
theorem Tame.inv (hf : Tame (fun _ _ => 1) f) {c : ℝ} (hc : 0 < c) (h : ∀ i t, c ≤ ‖f i t‖) : Tame (fun _ _ => 1) fun i t => (f i t)⁻¹ := by
  have hne : ∀ i t, f i t ≠ 0 := fun i t h0 => by
    have := h i t
    rw [h0, norm_zero] at this
    linarith
  have hs : ∀ i, ContDiff ℝ (⊤ : ℕ∞) fun t => (f i t)⁻¹ := fun i => (hf.smooth i).inv (hne i)
  have hd : ∀ i, _root_.deriv (fun t => (f i t)⁻¹) = fun t => -_root_.deriv (f i) t * ((f i t)⁻¹ * (f i t)⁻¹) := fun i => by
    funext t
    have h1 := (((hf.smooth i).differentiable (by simp)) t).hasDerivAt.inv (hne i t)
    refine h1.deriv.trans ?_
    field_simp
  have key : ∀ k, ∀ j ≤ k, Bd j (fun _ _ => 1) fun i t => (f i t)⁻¹ := by
    intro k
    induction k with
    | zero =>
      intro j hj
      obtain rfl : j = 0 := by omega
      refine ⟨1 / c, fun i t => ?_⟩
      rw [iteratedDeriv_zero, _root_.mul_one, norm_inv, one_div]
      exact inv_anti₀ hc (h i t)
    | succ k ih =>
      intro j hj
      rcases Nat.lt_or_ge j (k + 1) with hlt | hge
      · exact ih j (by omega)
      · obtain rfl : j = k + 1 := by omega
        have h1 : ∀ j ≤ k, Bd j (fun _ _ => 1 * 1) fun i t => (f i t)⁻¹ * (f i t)⁻¹ := fun j hj =>
          Bd.mul (fun l hl => ih l (by omega)) (fun l hl => ih l (by omega)) hs hs
        have h2 : Bd k (fun _ _ => 1 * (1 * 1)) fun i t => -_root_.deriv (f i) t * ((f i t)⁻¹ * (f i t)⁻¹) :=
          Bd.mul (fun l _ => hf.deriv.neg.bound l) h1 hf.deriv.neg.smooth (fun i => (hs i).mul (hs i))
        obtain ⟨C, hC⟩ := h2
        refine ⟨C, fun i t => ?_⟩
        rw [iteratedDeriv_succ', hd]
        simpa using hC i t
  exact ⟨hs, fun k => key k k (le_refl k)⟩

end PyNLO.Nlse
