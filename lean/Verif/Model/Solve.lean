import Verif.Model.Fit
import Verif.Model.Config
/-
Model of the IRLS part of `_solve` (`_glm.py` 570-632): what the IRLS solvers are called with and what is kept of their result.
-/
namespace Glum

noncomputable section

variable {n p : ℕ} {ic : Bool}

/-- `isinstance(family, NormalDistribution) and isinstance(link, IdentityLink) and "irls" in solver and solver != "irls-ls-monotonic"`
(`_glm.py` 571-576).  `TweedieDistribution(0)` is not an instance of `NormalDistribution`. -/
def oneIteration (f : Family) (l : Link) (s : Solver) : Bool :=
  match f, l, s with
  | .normal, .identity, .irlsLs => true
  | .normal, .identity, .irlsCd => true
  | _, _, _ => false

/-- `max_iter` and `fixed_inner_tol` as passed to `IRLSData` (`_glm.py` 570-582); of `fixed_inner_tol` only entry 0 is read
(`_solvers.py` 640). -/
def FitCfg.forSolver (C : FitCfg p ic) (s : Solver) : FitCfg p ic :=
  { C with
    maxIter := if oneIteration C.family C.link s then 1 else C.maxIter
    fixedInnerTol := if oneIteration C.family C.link s then some C.gradTol else none }

/-- What a fit leaves behind besides the coefficients: the random numbers still to be drawn, the number of `ConvergenceWarning`s of
the outer loop (`_solvers.py` 347-353), the number of line-search warnings (`_solvers.py` 837-842), `n_iter_` of the last solve and the
recorded objective values of the last solve, newest first. -/
structure SolverLog where
  seeds : ℕ → BitVec 32
  convWarn : ℕ
  lsWarn : ℕ
  nIter : ℕ
  objs : List ℝ

/-- The IRLS branch of `_solve` (`_glm.py` 585-632) with `_irls_solver` (`_solvers.py` 240-354) and an inner solver.  `next seeds k`: the
numbers left after `k` draws; for an integer `random_state` the generator is created anew for every solve (`_solvers.py` 486), for an
instance it goes on.  The inner solver may depend on the number of rows. -/
def irlsSolver (next : (ℕ → BitVec 32) → ℕ → (ℕ → BitVec 32)) (inner : (ℕ → BitVec 32) → (m : ℕ) → Inner m p ic) :
    SolverFn SolverLog p ic :=
  fun m D _ s start =>
    let fin := irlsRun (inner s.seeds m) D start
    ({ seeds := next s.seeds fin.nIter
       convWarn := s.convWarn + if fin.converged then 0 else 1
       lsWarn := s.lsWarn + (fin.diagnostics.filter (·.warned)).length
       nIter := fin.nIter
       objs := fin.diagnostics.map Diag.obj }, fin.coef)

/-- Solver `irls-cd` (`_glm.py` 629-632). -/
def irlsCd (next : (ℕ → BitVec 32) → ℕ → (ℕ → BitVec 32)) : SolverFn SolverLog p ic := irlsSolver next fun seeds _ => cdInner seeds

end

end Glum
