import Verif.Model.Distribution
import Verif.Model.Drift
import Verif.Model.Weights
/-
The compiled loss routines (`_functions.pyx` 29-129, 167-197, 239-284, 326-366, 470-556) in floating point with rounding, overflow, underflow and NaN.  The
extension is built without `-ffast-math` and with `cdivision` (`setup.py` 27-31, 92-100), so the C operations are IEEE operations.  Modelled for double
precision: with single precision some intermediate results are doubles.  Not modelled: the sign of zero (the only zeros that are divided by are means and
are positive), fused multiply-add on processors where the compiler contracts expressions.
-/
namespace Glum

noncomputable section

/-- Floating-point arithmetic: rounding to the numbers of the format as if there were no largest one, the largest one `big`, and the functions of the C
library: `exp` (nonnegative, at most one for arguments up to zero, possibly overflowing), `log` (finite for positive numbers, between 0 and 1 from 1 to 2,
`-inf` at 0) and `pow` of positive numbers with a negative exponent (nonnegative, possibly overflowing). -/
structure FloatSys extends Rounding where
  big : ℝ
  two : rd 2 = 2
  two_le : 2 ≤ big
  big_rd : rd big = big
  exp : ℝ → FV
  exp_range : ∀ x, (∃ v, exp x = .num v ∧ 0 ≤ v ∧ v ≤ big ∧ rd v = v) ∨ exp x = .pinf
  exp_nonpos : ∀ x, x ≤ 0 → ∃ v, exp x = .num v ∧ v ≤ 1
  log : ℝ → ℝ
  log_range : ∀ x, |log x| ≤ big ∧ rd (log x) = log x
  log_mid : ∀ x, 1 ≤ x → x ≤ 2 → 0 ≤ log x ∧ log x ≤ 1
  pow : ℝ → ℝ → FV
  pow_range : ∀ x e, (∃ v, pow x e = .num v ∧ 0 ≤ v ∧ v ≤ big ∧ rd v = v) ∨ pow x e = .pinf

variable (F : FloatSys)

/-- `x` is a finite floating-point number. -/
def FloatSys.Rep (x : ℝ) : Prop := F.rd x = x ∧ |x| ≤ F.big

/-- The result of an operation whose exact result is `x`. -/
def FloatSys.fl (x : ℝ) : FV := open Classical in if |F.rd x| ≤ F.big then .num (F.rd x) else if 0 < x then .pinf else .ninf

/-- `-x`, exact. -/
def FV.opp : FV → FV
  | .num x => .num (-x)
  | .nan => .nan
  | .pinf => .ninf
  | .ninf => .pinf

/-- An infinity with the sign of `s`; NaN for zero (`0 * inf`, `0 / 0`). -/
def FV.infSign (s : ℝ) : FV := open Classical in if 0 < s then .pinf else if s < 0 then .ninf else .nan

/-- IEEE addition. -/
def FloatSys.add : FV → FV → FV
  | .num x, .num y => F.fl (x + y)
  | .nan, _ => .nan
  | _, .nan => .nan
  | .pinf, .ninf => .nan
  | .ninf, .pinf => .nan
  | .pinf, _ => .pinf
  | _, .pinf => .pinf
  | .ninf, _ => .ninf
  | _, .ninf => .ninf

/-- IEEE subtraction. -/
def FloatSys.sub (a b : FV) : FV := F.add a b.opp

/-- IEEE multiplication. -/
def FloatSys.mul : FV → FV → FV
  | .num x, .num y => F.fl (x * y)
  | .nan, _ => .nan
  | _, .nan => .nan
  | .pinf, .pinf => .pinf
  | .pinf, .ninf => .ninf
  | .ninf, .pinf => .ninf
  | .ninf, .ninf => .pinf
  | .pinf, .num y => FV.infSign y
  | .num x, .pinf => FV.infSign x
  | .ninf, .num y => FV.infSign (-y)
  | .num x, .ninf => FV.infSign (-x)

/-- IEEE division (a divisor zero is a positive zero). -/
def FloatSys.div : FV → FV → FV
  | .num x, .num y => open Classical in if y = 0 then FV.infSign x else F.fl (x / y)
  | .nan, _ => .nan
  | _, .nan => .nan
  | .num _, _ => .num 0
  | .pinf, .num y => open Classical in if y < 0 then .ninf else .pinf
  | .ninf, .num y => open Classical in if y < 0 then .pinf else .ninf
  | _, _ => .nan

/-- C `exp`. -/
def FloatSys.expF : FV → FV
  | .num x => F.exp x
  | .nan => .nan
  | .pinf => .pinf
  | .ninf => .num 0

/-- C `log`. -/
def FloatSys.logF : FV → FV
  | .num x => open Classical in if x = 0 then .ninf else if x < 0 then .nan else .num (F.log x)
  | .nan => .nan
  | .pinf => .pinf
  | .ninf => .nan

/-- C `pow(x, e)` for `x ≥ 0` and `e < 0`. -/
def FloatSys.powNeg (e : ℝ) : FV → FV
  | .num x => open Classical in if x = 0 then .pinf else F.pow x e
  | .nan => .nan
  | .pinf => .num 0
  | .ninf => .num 0

/-- `mu_out[i]` at linear predictor `eta` (`_functions.pyx` 41-44, 111-114, 179-182, 252-259, 341-345, 487-505, 537-540). -/
def Fast.muFl (k : Fast) (eta : ℝ) : FV :=
  open Classical in
  match k with
  | .normalIdentity => .num eta
  | .binomialLogit =>
    if 0 < eta then F.div (.num 1) (F.add (.num 1) (F.exp (-eta))) else F.div (F.exp eta) (F.add (F.exp eta) (.num 1))
  | _ => F.exp eta

/-- What row `i` adds to `deviance` (same lines): response `y`, weight `w`, linear predictor `eta`; the
powers, signs and order of the operations are those of the C expressions. -/
def Fast.rowFl (k : Fast) (y w eta : ℝ) : FV :=
  open Classical in
  let mu := k.muFl F eta
  match k with
  | .normalIdentity =>
    let r := F.sub (.num y) mu
    F.mul (.num w) (F.mul r r)
  | .poissonLog => F.mul (.num w) (F.sub (F.mul (.num y) (.num eta)) mu)
  | .gammaLog => F.mul (.num w) (F.add (F.div (.num y) mu) (.num eta))
  | .invGaussianLog =>
    let r := F.sub (F.div (.num y) mu) (.num 1)
    F.div (F.mul (.num w) (F.mul r r)) (.num y)
  | .tweedieLog p =>
    let e := F.rd (1 - p)
    F.mul (F.mul (.num w) (F.powNeg e mu)) (F.sub (F.div mu (.num (F.rd (2 - p)))) (F.div (.num y) (.num e)))
  | .binomialLogit =>
    if 0 < eta then
      F.mul (.num w) (F.sub (F.sub (F.mul (.num y) (.num eta)) (.num eta)) (F.logF (F.add (.num 1) (F.exp (-eta)))))
    else F.mul (.num w) (F.sub (F.mul (.num y) (.num eta)) (F.logF (F.add (.num 1) (F.exp eta))))
  | .negBinomialLog theta =>
    let r := F.div (.num 1) (.num theta)
    F.mul (.num w) (F.add (F.mul (.num (-y)) (.num eta)) (F.mul (F.add (.num y) r) (F.logF (F.add mu r))))

/-- `gradient_rows_out[i]` (`_functions.pyx` 58-62, 127-129, 195-197, 276-284, 360-366, 518-520, 554-556). -/
def Fast.gradFl (k : Fast) (y w : ℝ) (mu : FV) : FV :=
  match k with
  | .normalIdentity => F.mul (.num w) (F.sub (.num y) mu)
  | .poissonLog => F.mul (.num w) (F.sub (.num y) mu)
  | .gammaLog => F.mul (.num w) (F.sub (F.div (.num y) mu) (.num 1))
  | .invGaussianLog =>
    let i := F.div (.num 1) mu
    F.mul (.num w) (F.sub (F.mul (.num y) (F.mul i i)) i)
  | .tweedieLog p => F.mul (F.mul (.num w) (F.powNeg (F.rd (1 - p)) mu)) (F.sub (.num y) mu)
  | .binomialLogit => F.mul (.num w) (F.sub (.num y) mu)
  | .negBinomialLog theta => F.div (F.mul (.num w) (F.sub (.num y) mu)) (F.add (.num 1) (F.mul (.num theta) mu))

/-- `hessian_rows_out[i]` (same lines). -/
def Fast.hessFl (k : Fast) (y w : ℝ) (mu : FV) : FV :=
  match k with
  | .normalIdentity => .num w
  | .poissonLog => F.mul (.num w) mu
  | .gammaLog => F.mul (.num w) (F.div (.num y) mu)
  | .invGaussianLog => F.mul (.num w) (F.div (.num 1) mu)
  | .tweedieLog p => F.mul (F.mul (.num w) (F.powNeg (F.rd (1 - p)) mu)) (F.sub mu (F.mul (.num (F.rd (1 - p))) (F.sub (.num y) mu)))
  | .binomialLogit => F.mul (F.mul (.num w) mu) (F.sub (.num 1) mu)
  | .negBinomialLog theta => F.div (F.mul (.num w) mu) (F.add (.num 1) (F.mul (.num theta) mu))

/-- The sum of the rows; the bracketing depends on the threads (`prange` reduction: every thread starts from zero). -/
def SumTree.fvSum {ι : Type} (t : ι → FV) : SumTree ι → FV
  | .empty => .num 0
  | .leaf i => t i
  | .node l r => F.add (SumTree.fvSum t l) (SumTree.fvSum t r)

/-- The value returned (`_functions.pyx` 45, 115, 183, 261, 346, 506, 541). -/
def Fast.returnFl (k : Fast) (deviance : FV) : FV :=
  match k with
  | .normalIdentity => deviance
  | .invGaussianLog => deviance
  | .poissonLog => F.mul (.num (-2)) deviance
  | .binomialLogit => F.mul (.num (-2)) deviance
  | _ => F.mul (.num 2) deviance

/-- The compiled `*_eta_mu_deviance` routine on all rows. -/
def Fast.devianceFl {ι : Type} (k : Fast) (y w eta : ι → ℝ) (T : SumTree ι) : FV := k.returnFl F (T.fvSum F fun i => k.rowFl F (y i) (w i) (eta i))

end

end Glum
