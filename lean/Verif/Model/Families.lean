import Mathlib.Data.EReal.Basic
import Verif.Model.Likelihood
import Verif.Model.GuessIntercept
import Verif.Model.Names
import Verif.Model.Config
/-
Model of the parts of the family and link classes that are not formulas: the range of the response and its check, the Tweedie
representation, and `==`.
-/
namespace Glum

noncomputable section

/-- `lower_bound` (`_distribution.py` 585-591 for Tweedie, 787, 900, 1014, 1127, 1237, 1264, 1372).  For a Tweedie power strictly between 0 and 1
the property raises; such an object cannot be constructed. -/
def Family.lowerBound (f : Family) : EReal :=
  open Classical in
  match f with
  | .normal => ⊥
  | .poisson => 0
  | .gamma => 0
  | .invGaussian => 0
  | .ghs => ⊥
  | .binomial => 0
  | .negBinomial _ => 0
  | .tweedie p => if p ≤ 0 then ⊥ else 0

/-- `upper_bound` (`_distribution.py` 570, 788, 901, 1015, 1128, 1238, 1265, 1373). -/
def Family.upperBound : Family → EReal
  | .binomial => 1
  | _ => ⊤

/-- `include_lower_bound` (`_distribution.py` 593-601 for Tweedie, 789, 902, 1016, 1129, 1239, 1266, 1374). -/
def Family.includeLowerBound (f : Family) : Bool :=
  open Classical in
  match f with
  | .normal => false
  | .poisson => true
  | .gamma => false
  | .invGaussian => false
  | .ghs => false
  | .binomial => true
  | .negBinomial _ => true
  | .tweedie p => if p ≤ 0 then false else if 1 ≤ p ∧ p < 2 then true else false

/-- `include_upper_bound` (`_distribution.py` 571, 790, 903, 1017, 1130, 1240, 1267, 1375). -/
def Family.includeUpperBound : Family → Bool
  | .binomial => true
  | _ => false

/-- `in_y_range(x)`, one element (`_distribution.py` 87-100). -/
def Family.inYRange (f : Family) (x : ℝ) : Prop :=
  (if f.includeLowerBound then f.lowerBound ≤ (x : EReal) else f.lowerBound < (x : EReal)) ∧
  (if f.includeUpperBound then (x : EReal) ≤ f.upperBound else (x : EReal) < f.upperBound)

/-- The response check at the end of `_set_up_for_fit` (`_glm.py` 424-430): the fit goes on. -/
def yAccepted {n : ℕ} (checkInput : Bool) (f : Family) (y : Fin n → ℝ) : Prop := checkInput = true → ∀ i, f.inYRange (y i)

/-- `to_tweedie(safe=False)` (`_distribution.py` 102-108 and `__tweedie_repr__`, 581, 795, 908, 1022, 1135): the Tweedie distribution with this
power, or `None`. -/
def Family.toTweedie : Family → Option Family
  | .normal => some (.tweedie 0)
  | .poisson => some (.tweedie 1)
  | .gamma => some (.tweedie 2)
  | .invGaussian => some (.tweedie 3)
  | .tweedie p => some (.tweedie p)
  | _ => none

/-- `to_tweedie(safe=False)` of a link (`_link.py` 74-80, 113, 180, 205). -/
def Link.toTweedie : Link → Option Link
  | .identity => some (.tweedie 0)
  | .log => some (.tweedie 1)
  | .tweedie p => some (.tweedie p)
  | _ => none

/-- `isinstance(family, NormalDistribution) and isinstance(link, IdentityLink)` (`_glm.py` 391-392, 538-539). -/
def isNormalIdentity : Family → Link → Bool
  | .normal, .identity => true
  | _, _ => false

/-- The configuration of a fit with this family and link. -/
def Config.forFamily (c : Config) (f : Family) (l : Link) : Config := { c with normalIdentity := isNormalIdentity f l }

/-- Python's `==` on floats: NaN equals nothing. -/
def PyNum.eq : PyNum → PyNum → Prop
  | .inf a, .inf b => a = b
  | .fin x, .fin y => x = y
  | _, _ => False

/-- `family == other` (`_distribution.py` 578-579, 792-793, 905-906, 1019-1020, 1132-1133, 1242-1243, 1269-1270, 1381-1384): same class and equal
parameter. -/
def FamilyObj.eq : FamilyObj → FamilyObj → Prop
  | .normal, .normal => True
  | .poisson, .poisson => True
  | .gamma, .gamma => True
  | .invGaussian, .invGaussian => True
  | .ghs, .ghs => True
  | .binomial, .binomial => True
  | .negBinomial s, .negBinomial t => s.eq t
  | .tweedie s, .tweedie t => s.eq t
  | _, _ => False

/-- `link == other` (`_link.py` 110, 177, 202, 227, 258). -/
def LinkObj.eq : LinkObj → LinkObj → Prop
  | .identity, .identity => True
  | .log, .log => True
  | .logit, .logit => True
  | .cloglog, .cloglog => True
  | .tweedie s, .tweedie t => s.eq t
  | _, _ => False

end

end Glum
