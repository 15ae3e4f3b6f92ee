import Mathlib.Data.Fintype.Sigma
import Mathlib.Data.Fintype.Pi
import Mathlib.Data.Fintype.BigOperators
import Mathlib.Analysis.Normed.Module.Multilinear.Basic

/-!
# Explicit Runge–Kutta methods and rooted trees

Independent of the code: what an explicit Runge–Kutta step is, and Butcher's rooted trees with their order, density,
elementary weights and elementary differentials.  Trees are planar (the children of a vertex are ordered), of depth at
most `d` and with at most `K` children per vertex, so that there are finitely many.
-/

open scoped BigOperators

namespace PyNLO.RK

/-- `k i` are the stages and `yout` the result of a step of length `h` from `y` of the explicit method with `s` stages,
coefficients `a i j` (`j < i`) and weights `b i`, for the autonomous equation `y' = f y`. -/
def IsStep {E : Type*} [AddCommGroup E] [Module ℝ E] (s : ℕ) (a : ℕ → ℕ → ℝ) (b : ℕ → ℝ) (f : E → E) (y : E) (h : ℝ)
    (k : ℕ → E) (yout : E) : Prop :=
  (∀ i < s, k i = f (y + h • ∑ j ∈ Finset.range i, a i j • k j)) ∧ yout = y + h • ∑ i ∈ Finset.range s, b i • k i

/-- Planar rooted trees of depth at most `d` with at most `K` children per vertex. -/
def Tr (K : ℕ) : ℕ → Type
  | 0 => Empty
  | d + 1 => Σ k : Fin (K + 1), (Fin k → Tr K d)

variable {K : ℕ}

instance Tr.fintype : ∀ d, Fintype (Tr K d)
  | 0 => inferInstanceAs (Fintype Empty)
  | d + 1 =>
    haveI := Tr.fintype d
    inferInstanceAs (Fintype (Σ k : Fin (K + 1), (Fin k → Tr K d)))

/-- The number of vertices besides the root. -/
def Tr.below : ∀ {d}, Tr K d → ℕ
  | 0, t => nomatch t
  | _ + 1, ⟨_, ts⟩ => ∑ j, ((ts j).below + 1)

/-- The order of a tree: its number of vertices. -/
def Tr.ord {d : ℕ} (t : Tr K d) : ℕ := t.below + 1

/-- The density of a tree: the product over all vertices of the order of the subtree above it. -/
noncomputable def Tr.density : ∀ {d}, Tr K d → ℝ
  | 0, t => nomatch t
  | _ + 1, ⟨k, ts⟩ => ((∑ j, ((ts j).below + 1) + 1 : ℕ) : ℝ) * ∏ j : Fin k, (ts j).density

/-- The elementary weight of a tree at stage `i`. -/
noncomputable def Tr.stage (a : ℕ → ℕ → ℝ) : ∀ {d}, Tr K d → ℕ → ℝ
  | 0, t, _ => nomatch t
  | _ + 1, ⟨k, ts⟩, i => ∏ j : Fin k, ∑ l ∈ Finset.range i, a i l * (ts j).stage a l

/-- The elementary weight of a tree. -/
noncomputable def Tr.weight (s : ℕ) (a : ℕ → ℕ → ℝ) (b : ℕ → ℝ) {d : ℕ} (t : Tr K d) : ℝ :=
  ∑ i ∈ Finset.range s, b i * t.stage a i

/-- The elementary differential of a tree for the right-hand side with Taylor coefficients `p k`. -/
def Tr.diff {E : Type*} (p : ∀ k : ℕ, (Fin k → E) → E) : ∀ {d}, Tr K d → E
  | 0, t => nomatch t
  | _ + 1, ⟨k, ts⟩ => p k fun j => (ts j).diff p

end PyNLO.RK
