import Verif.Model.Distribution
/-
What each family's observations and means range over (documentation of the classes; `in_y_range`, `_distribution.py` 88-100 and
the `lower_bound`/`upper_bound` attributes), and the textbook variance functions.
-/
namespace Glum.Spec

/-- Parameters accepted by the constructors (`_distribution.py` 606-615, 1395-1396). -/
def Valid : Family → Prop
  | .negBinomial theta => 0 < theta
  | .tweedie p => p ≤ 0 ∨ 1 ≤ p
  | _ => True

/-- Observations the family accepts. -/
def ySupport : Family → Set ℝ
  | .normal => Set.univ
  | .poisson => Set.Ici 0
  | .gamma => Set.Ioi 0
  | .invGaussian => Set.Ioi 0
  | .ghs => Set.univ
  | .binomial => Set.Icc 0 1
  | .negBinomial _ => Set.Ici 0
  | .tweedie p => {y | p ≤ 0 ∨ (p < 2 ∧ 0 ≤ y) ∨ 0 < y}

/-- Means (interior of the mean range). -/
def muRange : Family → Set ℝ
  | .normal => Set.univ
  | .poisson => Set.Ioi 0
  | .gamma => Set.Ioi 0
  | .invGaussian => Set.Ioi 0
  | .ghs => Set.univ
  | .binomial => Set.Ioo 0 1
  | .negBinomial _ => Set.Ioi 0
  | .tweedie p => {mu | p = 0 ∨ 0 < mu}

end Glum.Spec
