import Verif.Model.CV
import Verif.Model.Ieee
import Verif.Model.PredictFloat
/-
The selection of the cross-validated estimator with the values numpy and the compiled kernels produce when a mean is not in the range of
the family: `log` of a negative number is NaN, NaN spreads through sums and products, and `np.argmin` returns the first NaN
(`_glm_cv.py` 674-678, 808-838; `_functions.pyx`; `_distribution.py` 231-254, 625-659).  Numbers are exact reals: rounding and overflow
are not modelled here; signed zeros are not distinguished.
-/
namespace Glum

noncomputable section

/-- Subtraction and division of floating point values. -/
def FV.sub (x y : FV) : FV := x.add y.neg
def FV.div (x y : FV) : FV := x.mul y.inv

/-- `log` of the C library and `np.log`: minus infinity at zero, NaN below. -/
def FV.log : FV → FV
  | .num x => open Classical in if 0 < x then .num (Real.log x) else if x = 0 then .ninf else .nan
  | .pinf => .pinf
  | _ => .nan

/-- `pow(mu, e)` of the C library (`cpow=True` in `setup.py`): NaN for a negative base unless the exponent is an integer. -/
def FV.rpow (x e : ℝ) : FV :=
  open Classical in
  if 0 < x then .num (x ^ e)
  else if x = 0 then (if e < 0 then .pinf else .num (x ^ e))
  else if ∃ k : ℤ, e = k then .num (x ^ e)
  else .nan

/-- `scipy.special.xlogy`: zero when `x = 0` (and the other argument is not NaN). -/
def FV.xlogy (x : ℝ) (y : ℝ) : FV := open Classical in if x = 0 then .num 0 else (FV.num x).mul (FV.num y).log

/-- One row of `normal_deviance` (`_functions.pyx` 93-95). -/
def normalTermFV (y w mu : ℝ) : FV := .num (w * (y - mu) ^ 2)

/-- One row of `poisson_deviance` (`_functions.pyx` 160-163), with the factor two of the end. -/
def poissonTermFV (y w mu : ℝ) : FV :=
  open Classical in
  (FV.num 2).mul ((FV.num (w * mu)).add
    (if 0 < y then (FV.num (w * y)).mul (((FV.num y).log.sub (FV.num mu).log).sub (.num 1)) else .num 0))

/-- One row of `gamma_deviance` (`_functions.pyx` 233-234). -/
def gammaTermFV (y w mu : ℝ) : FV :=
  (FV.num 2).mul ((FV.num w).mul
    ((((FV.num mu).log.sub (FV.num y).log).add ((FV.num y).div (.num mu))).sub (.num 1)))

/-- One row of `inv_gaussian_deviance` (`_functions.pyx` 320-323). -/
def invGaussianTermFV (y w mu : ℝ) : FV :=
  let e := ((FV.num y).div (.num mu)).sub (.num 1)
  ((FV.num w).mul (e.mul e)).div (.num y)

/-- One row of `tweedie_deviance` (`_functions.pyx` 380-387). -/
def tweedieTermFV (p y w mu : ℝ) : FV :=
  open Classical in
  (FV.num 2).mul ((((FV.num w).mul ((FV.rpow mu (1 - p)).mul (.num mu))).div (.num (2 - p))).add
    (if 0 < y then (FV.num w).mul
      ((FV.num (y ^ (1 - p) * (y / (1 - p)) / (2 - p))).sub ((FV.num (y / (1 - p))).mul (FV.rpow mu (1 - p)))) else .num 0))

/-- One row of `negative_binomial_deviance` (`_functions.pyx` 594-597). -/
def negBinomialTermFV (theta y w mu : ℝ) : FV :=
  open Classical in
  (FV.num 2).mul (((FV.num (-w * (y + 1 / theta))).mul ((FV.num (y + 1 / theta)).div (.num (mu + 1 / theta))).log).add
    (if 0 < y then (FV.num (w * y)).mul ((FV.num y).div (.num mu)).log else .num 0))

/-- One row of the binomial deviance (`_distribution.py` 254, 1280). -/
def binomialTermFV (y w mu : ℝ) : FV :=
  ((FV.num (-2)).mul ((FV.xlogy y mu).add (FV.xlogy (1 - y) (1 - mu)))).mul (.num w)

/-- One row of the deviance of a family (`_distribution.py` 231-254, 625-641, 804, 917, 1031, 1144, 1407).  The hyperbolic-secant family
involves only functions defined everywhere. -/
def Family.devTermFV (f : Family) (y w mu : ℝ) : FV :=
  open Classical in
  match f with
  | .normal => normalTermFV y w mu
  | .poisson => poissonTermFV y w mu
  | .gamma => gammaTermFV y w mu
  | .invGaussian => invGaussianTermFV y w mu
  | .ghs => .num (Family.unitDeviance .ghs y mu * w)
  | .binomial => binomialTermFV y w mu
  | .negBinomial theta => negBinomialTermFV theta y w mu
  | .tweedie p =>
      if p = 0 then normalTermFV y w mu
      else if p = 1 then poissonTermFV y w mu
      else if p = 2 then gammaTermFV y w mu
      else if p = 3 then invGaussianTermFV y w mu
      else tweedieTermFV p y w mu

/-- `family.deviance(y, mu, sample_weight)`: the sum of the rows (the kernels multiply the sum by two at the end; in exact arithmetic
this is the same, for NaN and infinities too). -/
def Family.devianceFV {n : ℕ} (f : Family) (y mu w : Fin n → ℝ) : FV :=
  FV.sum (List.ofFn fun i => f.devTermFV (y i) (w i) (mu i))

/-- `_get_deviance` (`_glm_cv.py` 674-678). -/
def foldDevianceFV {n p : ℕ} {ic : Bool} (C : FitCfg p ic) (T : Rows n) (b : ℝ) (coef : ℕ → ℝ) : FV :=
  let c : Fin (p + ic.toNat) → ℝ := fun k => if k.val < ic.toNat then b else coef (k.val - ic.toNat)
  let eta := safeLinPred ic T.X c T.off
  C.family.devianceFV T.y (fun i => C.link.inverse C.e50 (eta i)) T.sw

/-- `deviance_path_` (`_glm_cv.py` 814-817), flat and row-major, from the stored intercepts and coefficients: entry `m` belongs to the
split `m / (L * K)`. -/
def devPathFV {N p : ℕ} {ic : Bool} (C : FitCfg p ic) (R : Rows N) (splits : List (List (Fin N) × List (Fin N))) (LK : ℕ)
    (ints : List ℝ) (coefs : List (ℕ → ℝ)) : List FV :=
  (List.range (splits.length * LK)).map fun m =>
    foldDevianceFV C (R.fold (splits.getD (m / LK) ([], [])).2) (ints.getD m 0) (coefs.getD m fun _ => 0)

/-- `deviance_path_.mean(axis=0)` flattened (`_glm_cv.py` 829). -/
def meanAxis0FV (S LK : ℕ) (flat : List FV) : List FV :=
  (List.range LK).map fun m => (FV.sum ((List.range S).map fun s => flat.getD (s * LK + m) .nan)).div (.num S)

/-- The loop of `np.argmin` (numpy, `argfunc`): a value that is not `>=` the best one so far replaces it; NaN ends the search. -/
def argminLoop : List FV → ℕ → ℕ → FV → ℕ
  | [], _, pos, _ => pos
  | x :: r, i, pos, best =>
    open Classical in
    if FV.le best x then argminLoop r (i + 1) pos best
    else if x.isNaN then i
    else argminLoop r (i + 1) i x

/-- `np.argmin` with NaN and infinities. -/
def argminFV : List FV → Option ℕ
  | [] => none
  | x :: r => open Classical in some (if x.isNaN then 0 else argminLoop r 1 0 x)

/-- The selection (`_glm_cv.py` 829-838): the positions of `l1_ratio_` and `alpha_`. -/
def cvSelectFV {N p : ℕ} {ic : Bool} (C : FitCfg p ic) (R : Rows N) (splits : List (List (Fin N) × List (Fin N))) (L K : ℕ)
    (ints : List ℝ) (coefs : List (ℕ → ℝ)) : Option (ℕ × ℕ) :=
  (argminFV (meanAxis0FV splits.length (L * K) (devPathFV C R splits (L * K) ints coefs))).map fun b => (b / K, b % K)

end

end Glum
