import Mathlib.Analysis.SpecialFunctions.Trigonometric.Arctan
import Mathlib.Analysis.SpecialFunctions.Gamma.Basic
import Verif.Model.Link
import Verif.Model.IRLS
/-
Model of `src/glum/_distribution.py` and of the compiled kernels in `src/glum/_functions.pyx`, over exact reals.
The parallel reduction loops (`prange`) are modelled as finite sums.
-/
namespace Glum

noncomputable section

/-- The distribution classes of `_distribution.py`. -/
inductive Family where
  | normal
  | poisson
  | gamma
  | invGaussian
  /-- `GeneralizedHyperbolicSecant` -/
  | ghs
  | binomial
  /-- `NegativeBinomialDistribution(theta)` -/
  | negBinomial (theta : ℝ)
  /-- `TweedieDistribution(power)` -/
  | tweedie (p : ℝ)

/-- `scipy.special.xlogy`: 0 when `x = 0`. -/
def xlogy (x y : ℝ) : ℝ := open Classical in if x = 0 then 0 else x * Real.log y

/-- `unit_variance` (`_distribution.py` 617-619, 798, 911, 1025, 1138, 1245, 1272, 1401). -/
def Family.unitVariance (f : Family) (mu : ℝ) : ℝ :=
  match f with
  | .normal => 1
  | .poisson => mu
  | .gamma => mu ^ 2
  | .invGaussian => mu ^ 3
  | .ghs => 1 + mu ^ 2
  | .binomial => mu * (1 - mu)
  | .negBinomial theta => mu + theta * mu ^ 2
  | .tweedie p => mu ^ p

/-- `unit_variance_derivative` (`_distribution.py` 623 and the corresponding methods). -/
def Family.unitVarianceDerivative (f : Family) (mu : ℝ) : ℝ :=
  match f with
  | .normal => 0
  | .poisson => 1
  | .gamma => 2 * mu
  | .invGaussian => 3 * mu ^ 2
  | .ghs => 2 * mu
  | .binomial => 1 - 2 * mu
  | .negBinomial theta => 1 + 2 * theta * mu
  | .tweedie p => p * mu ^ (p - 1)

/-- The general Tweedie formula (`_distribution.py` 652-659). -/
def tweedieUnitDeviance (p y mu : ℝ) : ℝ :=
  2 * (max y 0 ^ (2 - p) / ((1 - p) * (2 - p)) - y * mu ^ (1 - p) / (1 - p) + mu * mu ^ (1 - p) / (2 - p))

/-- `unit_deviance` (`_distribution.py` 643-659, 813, 926, 1040, 1150, 1251, 1278-1280, 1414-1419). -/
def Family.unitDeviance (f : Family) (y mu : ℝ) : ℝ :=
  open Classical in
  match f with
  | .normal => (y - mu) ^ 2
  | .poisson => 2 * (xlogy y (y / mu) - y + mu)
  | .gamma => 2 * (Real.log (mu / y) + y / mu - 1)
  | .invGaussian => (y / mu - 1) ^ 2 / y
  | .ghs => 2 * y * (Real.arctan y - Real.arctan mu) + Real.log ((1 + mu ^ 2) / (1 + y ^ 2))
  | .binomial => -2 * (xlogy y mu + xlogy (1 - y) (1 - mu))
  | .negBinomial theta =>
      2 * (xlogy y (y / mu) - (y + 1 / theta) * Real.log ((y + 1 / theta) / (mu + 1 / theta)))
  | .tweedie p =>
      if p = 0 then (y - mu) ^ 2
      else if p = 1 then 2 * (xlogy y (y / mu) - y + mu)
      else if p = 2 then 2 * (Real.log (mu / y) + y / mu - 1)
      else if p = 3 then (y / mu - 1) ^ 2 / y
      else tweedieUnitDeviance p y mu

/-- `unit_deviance_derivative` (`_distribution.py` 210-229). -/
def Family.unitDevianceDerivative (f : Family) (y mu : ℝ) : ℝ := -2 * (y - mu) / f.unitVariance mu

/-- `normal_deviance` (`_functions.pyx` 83-97). -/
def normalDeviance {n : ℕ} (y w mu : Fin n → ℝ) : ℝ := ∑ i, w i * (y i - mu i) ^ 2

/-- `poisson_deviance` (`_functions.pyx` 149-165). -/
def poissonDeviance {n : ℕ} (y w mu : Fin n → ℝ) : ℝ :=
  open Classical in
  2 * ∑ i, (w i * mu i + if 0 < y i then w i * y i * (Real.log (y i) - Real.log (mu i) - 1) else 0)

/-- `gamma_deviance` (`_functions.pyx` 222-236). -/
def gammaDeviance {n : ℕ} (y w mu : Fin n → ℝ) : ℝ :=
  2 * ∑ i, w i * (Real.log (mu i) - Real.log (y i) + y i / mu i - 1)

/-- `inv_gaussian_deviance` (`_functions.pyx` 310-325). -/
def invGaussianDeviance {n : ℕ} (y w mu : Fin n → ℝ) : ℝ :=
  ∑ i, w i * (y i / mu i - 1) ^ 2 / y i

/-- `tweedie_deviance` (`_functions.pyx` 368-389). -/
def tweedieDeviance {n : ℕ} (p : ℝ) (y w mu : Fin n → ℝ) : ℝ :=
  open Classical in
  2 * ∑ i, (w i * (mu i ^ (1 - p) * mu i) / (2 - p)
    + if 0 < y i then w i * (y i ^ (1 - p) * (y i / (1 - p)) / (2 - p) - y i / (1 - p) * mu i ^ (1 - p)) else 0)

/-- `negative_binomial_deviance` (`_functions.pyx` 582-599). -/
def negBinomialDeviance {n : ℕ} (theta : ℝ) (y w mu : Fin n → ℝ) : ℝ :=
  open Classical in
  2 * ∑ i, (-w i * (y i + 1 / theta) * Real.log ((y i + 1 / theta) / (mu i + 1 / theta))
    + if 0 < y i then w i * y i * Real.log (y i / mu i) else 0)

/-- `deviance(y, mu, sample_weight)` (`_distribution.py` 231-254 for GHS and binomial; 625-641, 804, 917, 1031, 1144, 1407 for the
compiled ones). -/
def Family.deviance {n : ℕ} (f : Family) (y mu w : Fin n → ℝ) : ℝ :=
  open Classical in
  match f with
  | .normal => normalDeviance y w mu
  | .poisson => poissonDeviance y w mu
  | .gamma => gammaDeviance y w mu
  | .invGaussian => invGaussianDeviance y w mu
  | .ghs => ∑ i, Family.unitDeviance .ghs (y i) (mu i) * w i
  | .binomial => ∑ i, Family.unitDeviance .binomial (y i) (mu i) * w i
  | .negBinomial theta => negBinomialDeviance theta y w mu
  | .tweedie p =>
      if p = 0 then normalDeviance y w mu
      else if p = 1 then poissonDeviance y w mu
      else if p = 2 then gammaDeviance y w mu
      else if p = 3 then invGaussianDeviance y w mu
      else tweedieDeviance p y w mu

/-- `get_one_over_variance(distribution, link, mu, eta, 1, sample_weight)` (`_distribution.py` 1500-1524), one row.
The clip of `eta` against overflow of `exp` is not modelled (exact reals do not overflow). -/
def oneOverVariance (f : Family) (l : Link) (mu eta disp w : ℝ) : ℝ :=
  match f, l with
  | .binomial, .logit => w * (Real.exp eta + 2 + Real.exp (-eta)) / disp
  | f, _ => 1 / (f.unitVariance mu * disp / w)

/-- The generic rowwise gradient (`_distribution.py` 399-407); the same expression in the line search (`_solvers.py` 817-822). -/
def genericGrad (f : Family) (l : Link) (y w eta mu : ℝ) : ℝ :=
  l.inverseDerivative eta * oneOverVariance f l mu eta 1 w * (y - mu)

/-- The generic rowwise Hessian (`_distribution.py` 399-408). -/
def genericHess (f : Family) (l : Link) (w eta mu : ℝ) : ℝ :=
  l.inverseDerivative eta * (l.inverseDerivative eta * oneOverVariance f l mu eta 1 w)

/-- Which compiled routine a family/link pair dispatches to (`_distribution.py` 661-713, 816-846, 930-960, 1043-1073,
1153-1183, 1282-1311, 1421-1456).  `TweedieLink(0)`/`TweedieLink(1)` are not instances of `IdentityLink`/`LogLink`. -/
inductive Fast where
  | normalIdentity
  | poissonLog
  | gammaLog
  | invGaussianLog
  | tweedieLog (p : ℝ)
  | binomialLogit
  | negBinomialLog (theta : ℝ)

/-- The dispatch (same lines as above). -/
def Family.fast (f : Family) (l : Link) : Option Fast :=
  open Classical in
  match f, l with
  | .normal, .identity => some .normalIdentity
  | .poisson, .log => some .poissonLog
  | .gamma, .log => some .gammaLog
  | .invGaussian, .log => some .invGaussianLog
  | .binomial, .logit => some .binomialLogit
  | .negBinomial theta, .log => some (.negBinomialLog theta)
  | .tweedie p, .identity => if p = 0 then some .normalIdentity else none
  | .tweedie p, .log =>
      if p = 1 then some .poissonLog
      else if p = 2 then some .gammaLog
      else if 1 < p ∧ p < 2 then some (.tweedieLog p)
      else if p = 3 then some .invGaussianLog
      else none
  | _, _ => none

/-- Per-row, per-unit-weight term of the compiled `*_eta_mu_deviance` routines, including the final factor
(`_functions.pyx` 29-45, 99-115, 167-183, 238-261, 327-346, 473-506, 522-541), as a function of `eta`. -/
def Fast.dev (k : Fast) (y eta : ℝ) : ℝ :=
  open Classical in
  match k with
  | .normalIdentity => (y - eta) ^ 2
  | .poissonLog => -2 * (y * eta - Real.exp eta)
  | .gammaLog => 2 * (y / Real.exp eta + eta)
  | .invGaussianLog => (y / Real.exp eta - 1) ^ 2 / y
  | .tweedieLog p => 2 * (Real.exp eta ^ (1 - p) * (Real.exp eta / (2 - p) - y / (1 - p)))
  | .binomialLogit =>
      -2 * (if 0 < eta then y * eta - eta - Real.log (1 + Real.exp (-eta)) else y * eta - Real.log (1 + Real.exp eta))
  | .negBinomialLog theta => 2 * (-y * eta + (y + 1 / theta) * Real.log (Real.exp eta + 1 / theta))

/-- `mu_out` of the compiled routines (same lines). -/
def Fast.mu (k : Fast) (eta : ℝ) : ℝ :=
  open Classical in
  match k with
  | .normalIdentity => eta
  | .binomialLogit => if 0 < eta then 1 / (1 + Real.exp (-eta)) else Real.exp eta / (Real.exp eta + 1)
  | _ => Real.exp eta

/-- `gradient_rows_out` of the compiled `*_rowwise_gradient_hessian` routines (`_functions.pyx` 48-62, 117-129, 185-197, 263-284,
348-366, 508-520, 543-556). -/
def Fast.grad (k : Fast) (y w mu : ℝ) : ℝ :=
  match k with
  | .normalIdentity => w * (y - mu)
  | .poissonLog => w * (y - mu)
  | .gammaLog => w * (y / mu - 1)
  | .invGaussianLog => w * (y * (1 / mu) ^ 2 - 1 / mu)
  | .tweedieLog p => w * mu ^ (1 - p) * (y - mu)
  | .binomialLogit => w * (y - mu)
  | .negBinomialLog theta => w * (y - mu) / (1 + theta * mu)

/-- `hessian_rows_out` of the same routines. -/
def Fast.hess (k : Fast) (y w mu : ℝ) : ℝ :=
  match k with
  | .normalIdentity => w
  | .poissonLog => w * mu
  | .gammaLog => w * (y / mu)
  | .invGaussianLog => w * (1 / mu)
  | .tweedieLog p => w * mu ^ (1 - p) * (mu - (1 - p) * (y - mu))
  | .binomialLogit => w * mu * (1 - mu)
  | .negBinomialLog theta => w * mu / (1 + theta * mu)

/-- `family.eta_mu_deviance(link, factor, cur_eta, X_dot_d, y, weights)` (`_distribution.py` 300-356 and the overrides listed
above): `eta`, `mu` and the deviance (or, on the compiled paths, what they return in its place). -/
def Family.etaMuDeviance {n : ℕ} (e50 : ℝ) (f : Family) (l : Link) (factor : ℝ) (cur Xd y w : Fin n → ℝ) :
    (Fin n → ℝ) × (Fin n → ℝ) × ℝ :=
  let eta := fun i => cur i + factor * Xd i
  match f.fast l with
  | some k => (eta, fun i => k.mu (eta i), ∑ i, w i * k.dev (y i) (eta i))
  | none => (eta, fun i => l.inverse e50 (eta i), f.deviance y (fun i => l.inverse e50 (eta i)) w)

/-- `family.rowwise_gradient_hessian` (`_distribution.py` 358-408 and overrides), one row: gradient and Hessian. -/
def Family.rowGradHess (f : Family) (l : Link) (y w eta mu : ℝ) : ℝ × ℝ :=
  match f.fast l with
  | some k => (k.grad y w mu, k.hess y w mu)
  | none => (genericGrad f l y w eta mu, genericHess f l w eta mu)

/-- What the IRLS solver sees of a family/link pair (`RowFamily`), on a compiled path. -/
def fastRow (f : Family) (l : Link) (k : Fast) : RowFamily where
  inv := k.mu
  dev := k.dev
  grad := fun y w _ mu => k.grad y w mu
  hess := fun y w _ mu => k.hess y w mu
  gradVar := genericGrad f l

/-- The same on the generic path (the deviance kernels sum `w · unit_deviance`: `c07_deviance_sum`). -/
def genericRow (e50 : ℝ) (f : Family) (l : Link) : RowFamily where
  inv := l.inverse e50
  dev := fun y eta => f.unitDeviance y (l.inverse e50 eta)
  grad := genericGrad f l
  hess := fun _ w eta mu => genericHess f l w eta mu
  gradVar := genericGrad f l

end

end Glum
