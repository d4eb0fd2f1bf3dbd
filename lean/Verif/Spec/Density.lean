import Mathlib.MeasureTheory.Integral.Bochner.SumMeasure
import Mathlib.MeasureTheory.Measure.Lebesgue.Basic
import Mathlib.Analysis.SpecialFunctions.Gamma.Basic
import Verif.Model.Distribution
/-
What it means for a function to be a probability density (or mass function) with a given mean and variance, and the reference measure of
each family's observations: Lebesgue measure for continuous families, counting measure on the natural numbers or on `{0, 1}` for
discrete ones, and an atom at zero plus Lebesgue measure on the positive half-line for Tweedie with power in `(1, 2)`.
-/
namespace Glum.Spec
open MeasureTheory

/-- `d` is a density with respect to `nu` with total mass one, mean `m` and variance `v` (all three integrals converge absolutely). -/
structure IsDensity (nu : Measure ℝ) (d : ℝ → ℝ) (m v : ℝ) : Prop where
  nonneg : ∀ y, 0 ≤ d y
  integrable : Integrable d nu
  total : ∫ y, d y ∂nu = 1
  integrable_mean : Integrable (fun y => y * d y) nu
  mean : ∫ y, y * d y ∂nu = m
  integrable_var : Integrable (fun y => (y - m) ^ 2 * d y) nu
  variance : ∫ y, (y - m) ^ 2 * d y ∂nu = v

/-- Counting measure on the natural numbers inside the reals. -/
noncomputable def countNat : Measure ℝ := Measure.sum fun k : ℕ => Measure.dirac (k : ℝ)

/-- Lebesgue measure on the positive half-line. -/
noncomputable def halfLine : Measure ℝ := volume.restrict (Set.Ioi 0)

/-- The observations of a family are distributed with respect to this measure. -/
noncomputable def refMeasure : Family → Measure ℝ
  | .normal => volume
  | .poisson => countNat
  | .gamma => halfLine
  | .invGaussian => halfLine
  | .ghs => volume
  | .binomial => Measure.dirac 0 + Measure.dirac 1
  | .negBinomial _ => countNat
  | .tweedie p => open Classical in
      if p ≤ 0 then volume else if p = 1 then countNat else if p < 2 then Measure.dirac 0 + halfLine else halfLine

/-- The values an observation can take with positive probability (density). -/
def atoms : Family → Set ℝ
  | .normal => Set.univ
  | .poisson => Set.range ((↑) : ℕ → ℝ)
  | .gamma => Set.Ioi 0
  | .invGaussian => Set.Ioi 0
  | .ghs => Set.univ
  | .binomial => {0, 1}
  | .negBinomial _ => Set.range ((↑) : ℕ → ℝ)
  | .tweedie p => {y | p ≤ 0 ∨ (p = 1 ∧ y ∈ Set.range ((↑) : ℕ → ℝ)) ∨ (1 < p ∧ p < 2 ∧ 0 ≤ y) ∨ 0 < y}

/-- The `j`-th term of the series of Dunn and Smyth (2005) for the Tweedie density with power `p` in `(1, 2)`. -/
noncomputable def tweedieTerm (y p phi : ℝ) (j : ℕ) : ℝ :=
  y ^ (j * ((2 - p) / (p - 1))) /
    ((p - 1) ^ (j * ((2 - p) / (p - 1))) * phi ^ (j * (1 / (p - 1))) * (2 - p) ^ j * j.factorial * Real.Gamma (j * ((2 - p) / (p - 1))))

/-- The density of a positive observation: `exp((y mu^(1-p)/(1-p) - mu^(2-p)/(2-p)) / phi)` times the series over `j >= 1`, divided
by `y`; the probability of zero is `exp(-mu^(2-p) / ((2-p) phi))`. -/
noncomputable def tweedieDensity (p phi mu y : ℝ) : ℝ := open Classical in
  if y < 0 then 0
  else if y = 0 then Real.exp (-(mu ^ (2 - p) / ((2 - p) * phi)))
  else Real.exp ((y * mu ^ (1 - p) / (1 - p) - mu ^ (2 - p) / (2 - p)) / phi) * (∑' k : ℕ, tweedieTerm y p phi (k + 1)) / y

end Glum.Spec
