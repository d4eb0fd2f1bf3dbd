import Mathlib.Data.Real.Basic
/-
Model of the hyperparameter checks and of the choice of the solver: `_validate_hyperparameters` (`_glm.py` 1796-1934 and 2626-2661,
`_glm_cv.py` 492-505), `_set_up_for_fit` (`_glm.py` 364-417), and the guards in `fit` and `_solve` (`_glm.py` 2886-2895, 539-556,
613-614).  Only the parameters these decisions read are kept.
-/
namespace Glum

noncomputable section

/-- The accepted values of `solver` (`_glm.py` 1810-1818); `newton-cg` and other strings are `other`. -/
inductive SolverArg where
  | auto | closedForm | irlsLs | irlsLsMonotonic | lbfgs | irlsCd | trustConstr | other
  deriving DecidableEq

/-- The solver that is run (`self._solver`). -/
inductive Solver where
  | closedForm | irlsLs | irlsLsMonotonic | lbfgs | irlsCd | trustConstr
  deriving DecidableEq

/-- The `alpha` argument: `None`, a number, a Python list/tuple, or a numpy array. -/
inductive AlphaArg where
  | none
  | scalar (a : ℝ)
  | list (l : List ℝ)
  | array (l : List ℝ)

/-- The parameters read.  `cv`: the estimator is `GeneralizedLinearRegressorCV` (it has no attribute `alpha`; `alphas` may be given).
`normalIdentity`: normal family with identity link.  `p1Nonzero`: the user's `P1` has a non-zero entry.  `l1Ratios` has one
element unless `cv`. -/
structure Config where
  cv : Bool
  solver : SolverArg
  normalIdentity : Bool
  alphaSearch : Bool
  alpha : AlphaArg
  l1Ratios : List ℝ
  p1Nonzero : Bool
  lb : Bool
  ub : Bool
  A : Bool
  b : Bool
  mono : Bool
  formula : Bool
  fitIntercept : Bool
  scalePredictors : Bool

/-- `_validate_hyperparameters` accepts (`_glm.py` 1796-1934, 2626-2661; `_glm_cv.py` 492-505).  Checks of types and of parameters
that have no influence on the solver are left out; the direction strings of `monotonic_constraints` are assumed valid. -/
def Config.valid (c : Config) : Prop :=
  (∀ l ∈ c.l1Ratios, 0 ≤ l ∧ l ≤ 1) ∧ c.l1Ratios ≠ [] ∧
  (c.cv = false → c.l1Ratios.length = 1 ∧
    (c.alphaSearch = true → match c.alpha with
      | .none => True
      | .scalar _ => False
      | .list l => ∀ a ∈ l, 0 ≤ a
      | .array l => ∀ a ∈ l, 0 ≤ a) ∧
    (c.alphaSearch = false → match c.alpha with
      | .none => True
      | .scalar a => 0 ≤ a
      | _ => False)) ∧
  c.solver ≠ .other ∧
  ¬ (c.scalePredictors = true ∧ c.fitIntercept = false) ∧
  ¬ ((c.lb = true ∨ c.ub = true) ∧ ¬ (c.solver = .auto ∨ c.solver = .irlsCd)) ∧
  ¬ ((c.A = true ∨ c.b = true) ∧ ¬ (c.solver = .auto ∨ c.solver = .trustConstr ∨ c.solver = .irlsLsMonotonic)) ∧
  ¬ (c.mono = true ∧ ¬ (c.solver = .auto ∨ c.solver = .trustConstr ∨ c.solver = .irlsLsMonotonic)) ∧
  ¬ (c.mono = true ∧ ∃ l ∈ c.l1Ratios, 0 < l) ∧
  ¬ ((c.A = true ∨ c.b = true) ∧ (c.lb = true ∨ c.ub = true)) ∧
  (c.A = c.b) ∧
  ¬ (c.mono = true ∧ (c.A = true ∨ c.b = true ∨ c.formula = false))

/-- The outcome of evaluating `hasattr(self, "alpha") and self.alpha == 0 and not self.alpha_search` (`_glm.py` 392-396, 402-404) in
Python: `none` is the `ValueError` numpy raises for the truth value of an array that has not exactly one element (an empty array
counts as false).  A list never equals 0. -/
def Config.alphaZero (c : Config) : Option Prop :=
  if c.cv then some False
  else match c.alpha with
    | .none => some False
    | .scalar a => some (a = 0 ∧ c.alphaSearch = false)
    | .list _ => some False
    | .array [] => some False
    | .array [a] => some (a = 0 ∧ c.alphaSearch = false)
    | .array _ => none

/-- `np.all(np.asarray(self.l1_ratio) == 0)`. -/
def Config.noL1Ratio (c : Config) : Prop := ∀ l ∈ c.l1Ratios, l = 0

open Classical in
/-- The choice of the solver (`_glm.py` 384-417); `none`: an exception. -/
def Config.choose (c : Config) : Option Solver :=
  match c.solver with
  | .auto =>
    if c.mono then some .irlsLsMonotonic
    else if c.A ∧ c.b then some .trustConstr
    else if c.lb = false ∧ c.ub = false then
      if c.noL1Ratio then (if c.normalIdentity then some .closedForm else some .irlsLs)
      else match c.alphaZero with
        | none => none
        | some z => if z then (if c.normalIdentity then some .closedForm else some .irlsLs) else some .irlsCd
    else some .irlsCd
  | .closedForm => some .closedForm
  | .irlsLs => some .irlsLs
  | .irlsLsMonotonic => some .irlsLsMonotonic
  | .lbfgs => some .lbfgs
  | .irlsCd => some .irlsCd
  | .trustConstr => some .trustConstr
  | .other => none

/-- The alphas for which the solver is called (`_glm.py` 2845-2895, `_glm_cv.py` 593-622): `path` are those computed by the path
routine, or `alphas`, when they are not given by `alpha`. -/
def Config.alphasUsed (c : Config) (path : List ℝ) : List ℝ :=
  if c.cv then path
  else if c.alphaSearch then
    match c.alpha with
    | .list l => l
    | .array l => l
    | _ => path
  else match c.alpha with
    | .scalar a => [a]
    | _ => [0]

/-- An L1 penalty is requested for some solver call: `P1 * alpha * l1_ratio` has a non-zero entry. -/
def Config.hasL1 (c : Config) (path : List ℝ) : Prop :=
  c.p1Nonzero = true ∧ (∃ a ∈ c.alphasUsed path, a ≠ 0) ∧ ∃ l ∈ c.l1Ratios, l ≠ 0

open Classical in
/-- What the fit does: the solver it runs, or `none` if it raises.  Guards: the check of L1 penalties, made only without alpha search
(`_glm.py` 2886-2895); `can_use_closed_form` (540-556); `assert A_ineq is not None and b_ineq is not None` (614). -/
def Config.run (c : Config) (path : List ℝ) : Option Solver :=
  if ¬ c.valid then none
  else match c.choose with
    | none => none
    | some s =>
      if c.cv = false ∧ c.alphaSearch = false ∧ (∃ a ∈ c.alphasUsed path, 0 < a) ∧ (∃ l ∈ c.l1Ratios, 0 < l) ∧ s ≠ .irlsCd then none
      else if s = .closedForm ∧
          (c.normalIdentity = false ∨ c.hasL1 path ∨ c.lb = true ∨ c.ub = true ∨ c.A = true ∨ c.b = true ∨ c.mono = true) then none
      else if s = .irlsLsMonotonic ∧ ¬ (c.mono = true ∨ (c.A = true ∧ c.b = true)) then none
      else some s

end

end Glum
