import Verif.Model.Dfg
import Verif.Py.Double

/-!
# The poling domains in double precision

The loop of `precompute_poling` with every sum and product passed through a rounding function `rnd`.  `rnd = id` gives the model of `Model/Dfg`,
`rnd = Double.nearest` is IEEE double precision.
-/

namespace PyNLO.Dfg

/-- One round of `precompute_poling` (`DFG_integrand.py:271-277`) with rounded sums and products; `z_current` starts as the integer 0. -/
noncomputable def polBodyF (rnd : ℝ → ℝ) (pp : ℝ → ℝ) (len : ℝ) (s : PolSt) : PolSt ⊕ (List ℝ × List ℝ) :=
  if s.z < len then
    .inl ⟨rnd (s.z + pp s.z), s.lb ++ [rnd (s.z + rnd (pp s.z * (1 / 2)))], s.ub ++ [rnd (s.z + rnd (pp s.z * 1))]⟩
  else .inr (s.lb, s.ub)

/-- `precompute_poling` (`DFG_integrand.py:267-282`) with rounded sums and products: `domain_lb`, `domain_ub`; `none` if the loop never ends. -/
noncomputable def precomputePolingF (rnd : ℝ → ℝ) (pp : ℝ → ℝ) (len : ℝ) : Option (List ℝ × List ℝ) :=
  runLoop (polBodyF rnd pp len) ⟨0, [], []⟩

end PyNLO.Dfg
