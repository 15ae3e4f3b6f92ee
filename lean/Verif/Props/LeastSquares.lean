import Verif.Props.PulseDechirp
import Verif.Props.FiberTable
import Mathlib.Analysis.InnerProductSpace.Projection.Minimal
import Mathlib.Analysis.InnerProductSpace.PiL2
import Mathlib.RingTheory.Polynomial.DegreeLT

/-!
# C111, C127: least-squares fits are exact on polynomial data

The theorems on `dechirp_pulse`, `remove_time_delay` and on tabulated fibres ask that the fit reproduces polynomial data.
Here: every least-squares fit does, and least-squares fits exist.
-/

namespace PyNLO

open Polynomial

/-- The sum of squared residuals of a polynomial on a list of points. -/
noncomputable def Spec.residual (data : List (ℝ × ℝ)) (q : ℝ[X]) : ℝ := (data.map fun d => (d.2 - q.eval d.1) ^ 2).sum

/-- Documented behaviour of `np.polyfit` with more distinct abscissae than the degree: a polynomial of at most that degree
of smallest sum of squared residuals. -/
def Spec.LeastSquares (polyfit : List (ℝ × ℝ) → ℕ → Except PyErr (ℝ → ℝ)) : Prop :=
  ∀ (data : List (ℝ × ℝ)) (deg : ℕ), deg < (data.map Prod.fst).toFinset.card →
    ∃ p : ℝ[X], polyfit data deg = .ok (fun x => p.eval x) ∧ p.natDegree ≤ deg ∧
      ∀ q : ℝ[X], q.natDegree ≤ deg → Spec.residual data p ≤ Spec.residual data q

/-- The same for the coefficients, highest order first. -/
def Spec.LeastSquaresCoeffs (polyfit : Fiber.PolyFit) : Prop :=
  ∀ (n deg : ℕ) (x y : Fin n → ℝ), Function.Injective x → deg < n →
    ∃ p : ℝ[X], polyfit ⟨n, x⟩ ⟨n, y⟩ deg = .ok ⟨deg + 1, fun i => p.coeff (deg - i)⟩ ∧ p.natDegree ≤ deg ∧
      ∀ q : ℝ[X], q.natDegree ≤ deg → ∑ i, (y i - p.eval (x i)) ^ 2 ≤ ∑ i, (y i - q.eval (x i)) ^ 2

theorem residual_nonneg (data : List (ℝ × ℝ)) (q : ℝ[X]) : 0 ≤ Spec.residual data q :=
  List.sum_nonneg fun _ h => by
    obtain ⟨d, -, rfl⟩ := List.mem_map.mp h
    exact sq_nonneg _

theorem residual_zero {data : List (ℝ × ℝ)} {q : ℝ[X]} : Spec.residual data q ≤ 0 ↔ ∀ d ∈ data, d.2 = q.eval d.1 := by
  induction data with
  | nil => simp [Spec.residual]
  | cons a l ih =>
    have e : Spec.residual (a :: l) q = (a.2 - q.eval a.1) ^ 2 + Spec.residual l q := by simp [Spec.residual]
    rw [e, List.forall_mem_cons, ← ih]
    have h1 := residual_nonneg l q
    have h2 := sq_nonneg (a.2 - q.eval a.1)
    constructor
    · intro h
      refine ⟨?_, by linarith⟩
      have : (a.2 - q.eval a.1) ^ 2 = 0 := by linarith
      exact sub_eq_zero.mp (pow_eq_zero_iff (two_ne_zero)|>.mp this)
    · rintro ⟨h, h'⟩
      rw [h, sub_self]
      linarith

/-- C111: a least-squares fit reproduces polynomial data, so the theorems above hold for it. -/
theorem C111_least_squares (polyfit : List (ℝ × ℝ) → ℕ → Except PyErr (ℝ → ℝ)) (h : Spec.LeastSquares polyfit) :
    Pulse.ExactFit polyfit := by
  intro data deg q hq hc hd
  obtain ⟨p, hp, hdeg, hmin⟩ := h data deg hc
  have h0 : Spec.residual data p ≤ 0 := (hmin q hq).trans (residual_zero.mpr hd)
  have h1 := residual_zero.mp h0
  have : p = q := by
    refine Polynomial.eq_of_degrees_lt_of_eval_finset_eq (data.map Prod.fst).toFinset ?_ ?_ ?_
    · exact (Polynomial.degree_le_of_natDegree_le hdeg).trans_lt (by exact_mod_cast hc)
    · exact (Polynomial.degree_le_of_natDegree_le hq).trans_lt (by exact_mod_cast hc)
    · intro x hx
      simp only [List.mem_toFinset, List.mem_map] at hx
      obtain ⟨d, hd', rfl⟩ := hx
      rw [← h1 d hd', ← hd d hd']
  rw [hp, this]

/-- C127: a least-squares fit recovers the coefficients of polynomial data. -/
theorem C127_least_squares (polyfit : Fiber.PolyFit) (h : Spec.LeastSquaresCoeffs polyfit) : Spec.ExactFit polyfit := by
  intro n order x P hx ho hP
  obtain ⟨p, hp, hdeg, hmin⟩ := h n order x (fun i => P.eval (x i)) hx ho
  have h0 := hmin P hP
  simp only [sub_self, ne_eq, OfNat.ofNat_ne_zero, not_false_eq_true, zero_pow, Finset.sum_const_zero] at h0
  have h1 := (Finset.sum_eq_zero_iff_of_nonneg fun i _ => sq_nonneg (P.eval (x i) - p.eval (x i))).mp
    (le_antisymm h0 (Finset.sum_nonneg fun i _ => sq_nonneg _))
  have : p = P := poly_unique hx ho hdeg hP fun i =>
    (sub_eq_zero.mp (pow_eq_zero_iff two_ne_zero |>.mp (h1 i (Finset.mem_univ i)))).symm
  rw [hp, this]

/-- Polynomials of smallest sum of squared residuals exist. -/
theorem least_exists (n deg : ℕ) (x y : Fin n → ℝ) : ∃ p : ℝ[X], p.natDegree ≤ deg ∧
    ∀ q : ℝ[X], q.natDegree ≤ deg → ∑ i, (y i - p.eval (x i)) ^ 2 ≤ ∑ i, (y i - q.eval (x i)) ^ 2 := by
  let L : ℝ[X] →ₗ[ℝ] EuclideanSpace ℝ (Fin n) :=
    { toFun := fun p => WithLp.toLp 2 fun i => p.eval (x i)
      map_add' := fun p q => by ext i; simp
      map_smul' := fun c p => by ext i; simp }
  let K : Submodule ℝ (EuclideanSpace ℝ (Fin n)) := (degreeLT ℝ (deg + 1)).map L
  have mem : ∀ q : ℝ[X], q ∈ degreeLT ℝ (deg + 1) ↔ q.natDegree ≤ deg := fun q => by
    rw [mem_degreeLT, degree_lt_iff_coeff_zero, natDegree_le_iff_coeff_eq_zero]
    exact ⟨fun h N hN => h N hN, fun h N hN => h N hN⟩
  obtain ⟨v, ⟨p, hp, rfl⟩, hv⟩ := Submodule.exists_norm_eq_iInf_of_complete_subspace K
    (Submodule.complete_of_finiteDimensional K) (WithLp.toLp 2 y)
  have sq : ∀ q : ℝ[X], ‖WithLp.toLp 2 y - L q‖ ^ 2 = ∑ i, (y i - q.eval (x i)) ^ 2 := fun q => by
    rw [EuclideanSpace.real_norm_sq_eq]
    rfl
  refine ⟨p, (mem p).mp hp, fun q hq => ?_⟩
  rw [← sq, ← sq]
  refine pow_le_pow_left₀ (norm_nonneg _) ?_ 2
  rw [hv]
  exact ciInf_le ⟨0, by rintro _ ⟨w, rfl⟩; exact norm_nonneg _⟩
    (⟨L q, q, (mem q).mpr hq, rfl⟩ : (K : Set (EuclideanSpace ℝ (Fin n))))

theorem residual_get (data : List (ℝ × ℝ)) (q : ℝ[X]) :
    Spec.residual data q = ∑ i : Fin data.length, ((data.get i).2 - q.eval (data.get i).1) ^ 2 := by
  rw [Spec.residual, ← List.sum_ofFn]
  congr 1
  exact List.ext_get (by simp) fun i h1 h2 => by simp

/-- Least-squares fits exist, in both forms. -/
theorem C111_least_squares_nonvacuous : ∃ polyfit, Spec.LeastSquares polyfit := by
  classical
  refine ⟨fun data deg => .ok fun x => (least_exists data.length deg (fun i => (data.get i).1)
    (fun i => (data.get i).2)).choose.eval x, fun data deg _ => ?_⟩
  have h := (least_exists data.length deg (fun i => (data.get i).1) (fun i => (data.get i).2)).choose_spec
  exact ⟨_, rfl, h.1, fun q hq => by rw [residual_get, residual_get]; exact h.2 q hq⟩

theorem C127_least_squares_nonvacuous : ∃ polyfit, Spec.LeastSquaresCoeffs polyfit := by
  classical
  refine ⟨fun x y deg => if h : x.len = y.len then .ok ⟨deg + 1, fun i =>
    (least_exists x.len deg x.val (fun i => y.val (i.cast h))).choose.coeff (deg - i)⟩ else .error .ValueError,
    fun n deg x y _ _ => ?_⟩
  have h := (least_exists n deg x y).choose_spec
  exact ⟨_, dif_pos rfl, h.1, h.2⟩

end PyNLO
