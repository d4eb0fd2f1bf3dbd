import Mathlib.Analysis.SpecialFunctions.Trigonometric.Basic
import Verif.Model.Distribution
/-
Model of the log-likelihoods (`_distribution.py` 715-760 and the overrides; kernels in `_functions.pyx`), over exact reals.
`lgamma x` is `log (Γ x)` on positive arguments.
-/
namespace Glum

noncomputable section

/-- C `lgamma` on positive arguments. -/
def lgamma (x : ℝ) : ℝ := Real.log (Real.Gamma x)

/-- `normal_log_likelihood` (`_functions.pyx` 65-81). -/
def normalLogLik {n : ℕ} (y w mu : Fin n → ℝ) (disp : ℝ) : ℝ :=
  (∑ i, -(w i * (y i - mu i) ^ 2)) / (2 * disp) + (∑ i, -w i) * Real.log (2 * Real.pi * disp) / 2

/-- `poisson_log_likelihood` (`_functions.pyx` 131-147). -/
def poissonLogLik {n : ℕ} (y w mu : Fin n → ℝ) : ℝ :=
  open Classical in
  ∑ i, (-(w i * mu i) + if 0 < y i then -(w i * (lgamma (1 + y i) - y i * Real.log (mu i))) else 0)

/-- `gamma_log_likelihood` (`_functions.pyx` 199-220). -/
def gammaLogLik {n : ℕ} (y w mu : Fin n → ℝ) (disp : ℝ) : ℝ :=
  let invd := 1 / disp
  let norm := Real.log disp * invd + lgamma invd
  (∑ i, w i * (invd * (Real.log (y i) - Real.log (mu i) - y i / mu i) - Real.log (y i))) - norm * ∑ i, w i

/-- `inv_gaussian_log_likelihood` (`_functions.pyx` 286-308). -/
def invGaussianLogLik {n : ℕ} (y w mu : Fin n → ℝ) (disp : ℝ) : ℝ :=
  let scale := 1 / (2 * disp)
  (∑ i, -(w i * (scale * (y i / mu i - 1) ^ 2 / y i + Real.log (y i) * 3 / 2))) + (∑ i, w i) * Real.log (scale / Real.pi) / 2

/-- `BinomialDistribution.log_likelihood` (`_distribution.py` 1313-1332). -/
def binomialLogLik {n : ℕ} (y w mu : Fin n → ℝ) : ℝ :=
  ∑ i, (xlogy (y i) (mu i) + xlogy (1 - y i) (1 - mu i)) * w i

/-- `negative_binomial_log_likelihood` (`_functions.pyx` 558-580). `none`: NaN, which the code returns when a row has `y = mu = 0`
(there `y * log(theta * mu)` is `0 * -inf`; there is no `y > 0` guard as in the Poisson kernel). -/
def negBinomialLogLik {n : ℕ} (theta : ℝ) (y w mu : Fin n → ℝ) : Option ℝ :=
  let r := 1 / theta
  open Classical in
  if ∃ i, y i = 0 ∧ mu i = 0 then none else
  some <| ∑ i, w i * (y i * Real.log (theta * mu i) - (y i + r) * Real.log (1 + theta * mu i) + lgamma (y i + r) - lgamma r - lgamma (y i + 1))

/-- `_log_z` (`_functions.pyx` 464-471). -/
def logZ (y p disp : ℝ) : ℝ :=
  let alpha := (2 - p) / (1 - p)
  alpha * Real.log (p - 1) - alpha * Real.log y - (1 - alpha) * Real.log disp - Real.log (2 - p)

/-- `_log_w_j` (`_functions.pyx` 460-462), for integer and real `j`. -/
def logWj (y p disp j : ℝ) : ℝ :=
  let alpha := (2 - p) / (1 - p)
  j * logZ y p disp - lgamma (1 + j) - lgamma (-alpha * j)

/-- `j_max` (`_functions.pyx` 426). -/
def tweedieJMax (y p disp : ℝ) : ℝ := Real.exp ((2 - p) * Real.log y - Real.log disp - Real.log (2 - p))

/-- `while w_lower >= w_crt: j_lower -= 1` (`_functions.pyx` 450-453) with `fuel` passes; the counter is an integer-valued
float. `W j` is `_log_w_j(y, power, dispersion, j)` for `j > 0`; at `j = 0` C's `lgamma(0)` is `+inf`, so the term's logarithm is
`-inf` and the comparison is false. -/
def lowerLoop (W : ℤ → ℝ) (crt : ℝ) : ℕ → ℤ → ℤ
  | 0, j => j
  | fuel + 1, j => open Classical in if 0 < j ∧ crt ≤ W j then lowerLoop W crt fuel (j - 1) else j

/-- `while w_upper >= w_crt: j_upper += 1` (`_functions.pyx` 454-456), with `fuel` passes (the counter starts at `ceil(j_max) > 0`). -/
def upperLoop (W : ℤ → ℝ) (crt : ℝ) : ℕ → ℤ → ℤ
  | 0, j => j
  | fuel + 1, j => open Classical in if crt ≤ W j then upperLoop W crt fuel (j + 1) else j

/-- `_sum_limits` (`_functions.pyx` 438-458): the summation window.  `W` is the log of the terms as a function of the index, `jmax`
the (real) position of the maximum and `wmax` the value there.  The two `while` loops are given `fuel` passes. -/
def sumLimits (W : ℤ → ℝ) (jmax wmax : ℝ) (fuel : ℕ) : ℤ × ℤ :=
  let crt := wmax - 37
  (open Classical in if W 1 ≤ crt then lowerLoop W crt fuel ⌊jmax⌋ else 1, upperLoop W crt fuel ⌈jmax⌉)

/-- `_tweedie_normalization` (`_functions.pyx` 421-436): `j` runs over `range(j_lower, j_upper + 1)`; a term with `j = 0` is
`exp(-inf) = 0`. -/
def tweedieNormalization (fuel : ℕ) (y p disp : ℝ) : ℝ :=
  let jmax := tweedieJMax y p disp
  let wmax := logWj y p disp jmax
  let lim := sumLimits (fun j => logWj y p disp j) jmax wmax fuel
  wmax + Real.log (∑ j ∈ (Finset.Icc lim.1 lim.2).filter (0 < ·), Real.exp (logWj y p disp j - wmax)) - Real.log y

/-- `_tweedie_unit_loglikelihood` (`_functions.pyx` 408-419); `norm` is `_tweedie_normalization`. -/
def tweedieUnitLogLik (norm : ℝ → ℝ → ℝ → ℝ) (y mu p disp : ℝ) : ℝ :=
  open Classical in
  if y = 0 then -(mu ^ (2 - p)) / (disp * (2 - p))
  else (mu ^ (1 - p) / (1 - p) * y - mu * mu ^ (1 - p) / (2 - p)) / disp + norm y p disp

/-- `tweedie_log_likelihood` (`_functions.pyx` 391-406). -/
def tweedieLogLik {n : ℕ} (norm : ℝ → ℝ → ℝ → ℝ) (p : ℝ) (y w mu : Fin n → ℝ) (disp : ℝ) : ℝ :=
  ∑ i, w i * tweedieUnitLogLik norm (y i) (mu i) p disp

/-- `log_likelihood(y, mu, sample_weight, dispersion)` with an explicit dispersion (`_distribution.py` 715-758, 848, 962, 1075, 1185,
1313, 1458). `none`: not implemented (Tweedie powers above 2 other than 3, GHS) or NaN (negative binomial). -/
def Family.logLik {n : ℕ} (norm : ℝ → ℝ → ℝ → ℝ) (f : Family) (y mu w : Fin n → ℝ) (disp : ℝ) : Option ℝ :=
  open Classical in
  match f with
  | .normal => some (normalLogLik y w mu disp)
  | .poisson => some (poissonLogLik y w mu)
  | .gamma => some (gammaLogLik y w mu disp)
  | .invGaussian => some (invGaussianLogLik y w mu disp)
  | .ghs => none
  | .binomial => some (binomialLogLik y w mu)
  | .negBinomial theta => negBinomialLogLik theta y w mu
  | .tweedie p =>
      if p = 0 then some (normalLogLik y w mu disp)
      else if p = 1 then some (poissonLogLik y w mu)
      else if p = 2 then some (gammaLogLik y w mu disp)
      else if p < 2 then some (tweedieLogLik norm p y w mu disp)
      else if p = 3 then some (invGaussianLogLik y w mu disp)
      else none

/-- The dispersion that scales the likelihood: Poisson, binomial and negative binomial ignore the argument (their dispersion is 1,
`_distribution.py` 962-983, 1313-1332, 1458-1480). -/
def Family.effectiveDispersion (f : Family) (disp : ℝ) : ℝ :=
  open Classical in
  match f with
  | .poisson => 1
  | .binomial => 1
  | .negBinomial _ => 1
  | .tweedie p => if p = 1 then 1 else disp
  | _ => disp

/-- `dispersion(y, mu, sample_weight, ddof, method="pearson")` (`_distribution.py` 502-538, 760-777 and the numexpr overrides). -/
def Family.pearsonDispersion {n : ℕ} (f : Family) (y mu w : Fin n → ℝ) (ddof : ℝ) : ℝ :=
  (∑ i, (y i - mu i) ^ 2 / f.unitVariance (mu i) * w i) / (∑ i, w i - ddof)

/-- The `method` argument of `dispersion`. -/
inductive DispersionMethod
  | pearson
  | deviance
  | other
deriving DecidableEq

/-- `dispersion(y, mu, sample_weight=None, ddof=1, method="pearson")` (`_distribution.py` 502-538; Tweedie override 760-777). `none`:
`NotImplementedError`. Without weights the count of observations takes the place of the sum of weights (531-538), and `deviance` uses unit
weights (`_as_float_arrays`, `_distribution.py` 26-30; `deviance` 170-175). -/
def Family.dispersion {n : ℕ} (f : Family) (y mu : Fin n → ℝ) (w : Option (Fin n → ℝ)) (ddof : ℝ) : DispersionMethod → Option ℝ
  | .pearson => some (w.elim ((∑ i, (y i - mu i) ^ 2 / f.unitVariance (mu i)) / ((n : ℝ) - ddof)) (fun w => f.pearsonDispersion y mu w ddof))
  | .deviance => some (w.elim (f.deviance y mu (fun _ => 1) / ((n : ℝ) - ddof)) (fun w => f.deviance y mu w / (∑ i, w i - ddof)))
  | .other => none

end

end Glum
