import Verif.Lemmas.WienerRamanExist
import Verif.Lemmas.NlseFlat

/-! # Existence for all distances, every polynomial dispersion and delayed response -/

namespace PyNLO.Wiener

open Complex Set Polynomial Nlse

theorem exists_nlse_all (b : ℝ[X]) (g γ fR : ℝ) {h : ℝ → ℝ} (hh : ContDiff ℝ 1 h) {T : ℝ} (hT : 0 < T) {f : ℝ → ℂ} (hf : ContDiff ℝ (⊤ : ℕ∞) f)
    (hp : Function.Periodic f T) {L : ℝ} (hL : 0 ≤ L) : ∃ u, Nlse.Solution b g γ fR h T L u ∧ u 0 = f := by
  by_cases hd : 2 ≤ b.natDegree
  · exact exists_nlse_order hd g γ fR hh hT hf hp hL
  · obtain ⟨β1, β0, rfl⟩ := exists_eq_X_add_C_of_natDegree_le_one (by omega : b.natDegree ≤ 1)
    exact ⟨_, flat_solution β0 β1 g γ fR hh.continuous T L hf hp⟩

/-- without delayed response the kernel does not matter -/
theorem exists_nlse_plain (b : ℝ[X]) (g γ : ℝ) (h : ℝ → ℝ) {T : ℝ} (hT : 0 < T) {f : ℝ → ℂ} (hf : ContDiff ℝ (⊤ : ℕ∞) f)
    (hp : Function.Periodic f T) {L : ℝ} (hL : 0 ≤ L) : ∃ u, Nlse.Solution b g γ 0 h T L u ∧ u 0 = f := by
  obtain ⟨u, hu, h0⟩ := exists_nlse_all b g γ 0 (h := fun _ => 0) contDiff_const hT hf hp hL
  refine ⟨u, ⟨hu.smooth, hu.periodic, fun z h1 h2 t => ?_⟩, h0⟩
  have := hu.equation z h1 h2 t
  simp only [response, zero_mul, add_zero] at this ⊢
  exact this

end PyNLO.Wiener
