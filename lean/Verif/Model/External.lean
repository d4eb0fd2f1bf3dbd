import Verif.Model.Fit
import Verif.Model.SmoothObjective
/-
Model of the two solvers that hand the problem to scipy: `_lbfgs_solver` (`_solvers.py` 874-916) and `_trust_constr_solver`
(`_solvers.py` 918-985), and of the branches of `_solve` that call them (`_glm.py` 633-666).  scipy's optimisers are parameters:
functions of what they are called with.  Texts of warnings, and `verbose`, are left out.
-/
namespace Glum

noncomputable section

variable {n p : ℕ} {ic : Bool}

/-- What `functools.partial` captures (`_solvers.py` 887-896, 935-944), from the problem the solver is called with. -/
def smoothOf (C : FitCfg p ic) (D : IRLSData n p ic) : SmoothData n p ic :=
  { X := D.X, y := D.y, sw := D.sw, P2 := D.P2, family := C.family, link := C.link, offset := D.offset, e50 := C.e50 }

/-- Why `fmin_l_bfgs_b` stopped: the projected gradient (`pgtol`), the relative reduction of the objective (`factr`), the iteration or
evaluation limit, or a failure (`info["task"]`). -/
inductive LbfgsTask where
  | gradient | reduction | limit | failure
  deriving DecidableEq

/-- `info["warnflag"]`. -/
def LbfgsTask.warnflag : LbfgsTask → ℕ
  | .gradient => 0
  | .reduction => 0
  | .limit => 1
  | .failure => 2

/-- What `fmin_l_bfgs_b` returns: the point, why it stopped, and `info["nit"]`. -/
structure LbfgsOut (m : ℕ) where
  x : Fin m → ℝ
  task : LbfgsTask
  nit : ℕ

/-- `fmin_l_bfgs_b(func, x0, pgtol=, maxiter=, factr=)`. -/
abbrev Lbfgs := (m : ℕ) → ((Fin m → ℝ) → ℝ × (Fin m → ℝ)) → (Fin m → ℝ) → ℝ → ℕ → ℝ → LbfgsOut m

/-- What the calls leave behind: the numbers of `ConvergenceWarning`s and of other warnings, `n_iter_` of the last call, and (a record
the code does not keep) whether the last call met its gradient criterion. -/
structure ExtLog where
  convWarn : ℕ
  otherWarn : ℕ
  nIter : ℕ
  gradStop : List Bool

/-- `_lbfgs_solver` as called by `_solve` (`_solvers.py` 874-916, `_glm.py` 633-648): `tol = gradient_tol`, `maxiter = max_iter`,
`factr = 1e2`; bounds, `P1`, the inequalities and `step_size_tol` are not passed. -/
def lbfgsSolver (opt : Lbfgs) (C : FitCfg p ic) : SolverFn ExtLog p ic :=
  fun _ D _ s start =>
    let r := opt (p + ic.toNat) (objAndDerivative (smoothOf C D)) start D.gradTol D.maxIter 100
    ({ convWarn := s.convWarn + if r.task.warnflag = 1 then 1 else 0
       otherWarn := s.otherWarn + if r.task.warnflag = 1 then 0 else if r.task.warnflag = 2 then 1 else 0
       nIter := r.nit
       gradStop := s.gradStop ++ [decide (r.task = .gradient)] }, r.x)

/-- A `LinearConstraint(A=, lb=-inf, ub=)` with `k` rows on `m` unknowns. -/
structure LinCon (m : ℕ) where
  k : ℕ
  A : Fin k → Fin m → ℝ
  ub : Fin k → ℝ

/-- What `minimize(method="trust-constr")` returns: `res["x"]`, `res["success"]`, `res["nit"]`. -/
structure TrustOut (m : ℕ) where
  x : Fin m → ℝ
  success : Bool
  nit : ℕ

/-- `minimize(fun, x0, jac=True, method="trust-constr", hess=SR1(), constraints=, options={xtol, gtol, maxiter})`. -/
abbrev TrustConstr :=
  (m : ℕ) → ((Fin m → ℝ) → ℝ × (Fin m → ℝ)) → (Fin m → ℝ) → Option (LinCon m) → (xtol gtol : ℝ) → (maxiter : ℕ) → TrustOut m

/-- The constraints handed over (`_solvers.py` 946-962): with an intercept a column of zeros is put in front; none if `A_ineq` or
`b_ineq` is missing. -/
def trustConstraints {k : ℕ} (A : Option (ℕ → ℕ → ℝ)) (b : Option (Fin k → ℝ)) : Option (LinCon (p + ic.toNat)) :=
  match A, b with
  | some A, some b => some ⟨k, fun r c => if c.val < ic.toNat then 0 else A r (c.val - ic.toNat), b⟩
  | _, _ => none

/-- `_trust_constr_solver` as called by `_solve` (`_solvers.py` 918-985, `_glm.py` 649-666): `gtol = gradient_tol`; `xtol` is not passed,
so the default `1e-8` is used; a `ConvergenceWarning` unless `success`. -/
def trustSolver {k : ℕ} (opt : TrustConstr) (C : FitCfg p ic) (b : Option (Fin k → ℝ)) : SolverFn ExtLog p ic :=
  fun _ D A s start =>
    let r := opt (p + ic.toNat) (objAndDerivative (smoothOf C D)) start (trustConstraints A b) (1 / 10 ^ 8) D.gradTol D.maxIter
    ({ convWarn := s.convWarn + if r.success = false then 1 else 0
       otherWarn := s.otherWarn
       nIter := r.nit
       gradStop := s.gradStop ++ [r.success] }, r.x)

end

end Glum
