import Mathlib.Analysis.SpecialFunctions.Pow.Real
import Mathlib.Analysis.SpecialFunctions.Log.Basic
/-
Model of `src/glum/_link.py`, one element at a time, over exact reals.
-/
namespace Glum

noncomputable section

/-- The link classes of `_link.py` (101-282). -/
inductive Link where
  | identity
  | log
  | logit
  | cloglog
  /-- `TweedieLink(power)` -/
  | tweedie (p : ℝ)

/-- `TweedieLink.power` setter (`_link.py` 121-130): `0 < p < 1` is rejected (`none`). Rounding to float32 is not modelled. -/
def mkTweedieLink (p : ℝ) : Option Link :=
  open Classical in if 0 < p ∧ p < 1 then none else some (.tweedie p)

/-- `Link.link` (`_link.py` 132-137, 183, 208, 230, 261). `special.logit(mu) = log(mu/(1-mu))`, `np.log1p(-mu) = log(1-mu)`. -/
def Link.link (l : Link) (mu : ℝ) : ℝ :=
  open Classical in
  match l with
  | .identity => mu
  | .log => Real.log mu
  | .logit => Real.log (mu / (1 - mu))
  | .cloglog => Real.log (-Real.log (1 - mu))
  | .tweedie p => if p = 0 then mu else if p = 1 then Real.log mu else mu ^ (1 - p)

/-- `Link.derivative` (`_link.py` 139-144, 186, 211, 233, 264). -/
def Link.derivative (l : Link) (mu : ℝ) : ℝ :=
  open Classical in
  match l with
  | .identity => 1
  | .log => 1 / mu
  | .logit => 1 / (mu * (1 - mu))
  | .cloglog => 1 / ((mu - 1) * Real.log (1 - mu))
  | .tweedie p => if p = 0 then 1 else if p = 1 then 1 / mu else (1 - p) * mu ^ (-p)

/-- `special.expit` (used in `_link.py` 236-252). -/
def expit (x : ℝ) : ℝ := 1 / (1 + Real.exp (-x))

/-- `np.clip(x, lo, hi)`: maximum with `lo`, then minimum with `hi`. -/
def clip (x lo hi : ℝ) : ℝ := min (max x lo) hi

/-- `if any(x > 1 - e) or any(x < e): return clip(x, e, 1 - e)` (`_link.py` 238-242, 269-273), elementwise: when no element
is outside the window, clipping changes nothing. -/
def clip50 (e x : ℝ) : ℝ := clip x e (1 - e)

/-- `Link.inverse` (`_link.py` 146-152, 189, 214, 235-244, 266-275); `e = eps50 = 50 * finfo.eps`.
For Tweedie powers the base must not be negative (numpy raises for non-integer exponents, `catch_p` 83-98); negative
bases are outside the theorems. -/
def Link.inverse (e : ℝ) (l : Link) (eta : ℝ) : ℝ :=
  open Classical in
  match l with
  | .identity => eta
  | .log => Real.exp eta
  | .logit => clip50 e (expit eta)
  | .cloglog => clip50 e (-(Real.exp (-Real.exp eta) - 1))
  | .tweedie p => if p = 0 then eta else if p = 1 then Real.exp eta else eta ^ (1 / (1 - p))

/-- `Link.inverse_derivative` (`_link.py` 154-161, 192, 217, 246-248, 277-278). -/
def Link.inverseDerivative (l : Link) (eta : ℝ) : ℝ :=
  open Classical in
  match l with
  | .identity => 1
  | .log => Real.exp eta
  | .logit => expit eta * (1 - expit eta)
  | .cloglog => Real.exp (eta - Real.exp eta)
  | .tweedie p => if p = 0 then 1 else if p = 1 then Real.exp eta else 1 / (1 - p) * eta ^ (p / (1 - p))

/-- `Link.inverse_derivative2` (`_link.py` 163-172, 195, 220, 250-252, 280-281). -/
def Link.inverseDerivative2 (l : Link) (eta : ℝ) : ℝ :=
  open Classical in
  match l with
  | .identity => 0
  | .log => Real.exp eta
  | .logit => expit eta * (1 - expit eta) * (1 - 2 * expit eta)
  | .cloglog => -Real.exp (eta - Real.exp eta) * (Real.exp eta - 1)
  | .tweedie p => if p = 0 then 0 else if p = 1 then Real.exp eta
      else eta ^ ((2 * p - 1) / (1 - p)) * (p / (1 - p) ^ 2)

end

end Glum
