import Verif.Model.Fit
import Verif.Model.Monotone
/-
The monotone solver as the solver of `fit` (`src/glum/_glm.py` 611-627, 2770-2782).
-/
namespace Glum

noncomputable section

/-- What the calls of the solver leave behind: a `ConvergenceWarning` from any of them (`_solvers.py` 1108-1122), an exception. -/
structure MonoLog where
  warned : Bool
  raised : Bool

/-- `_solve` with `solver='irls-ls-monotonic'` (`_glm.py` 611-627): `A` is the rescaled inequality matrix with `m` rows, `b` is not
rescaled.  An exception ends the fit; here it is recorded in the log. -/
def monoSolver {p : ℕ} {ic : Bool} {m : ℕ} (inner : (k : ℕ) → Inner k p ic) (b : Fin m → ℝ) : SolverFn MonoLog p ic :=
  fun k D A s coef =>
    match monoSolve (inner k) D (fun r : Fin m => (A.getD fun _ _ => 0) r) b coef with
    | .ok res => ({ s with warned := s.warned || res.warnNotConverged || res.warnViolation }, res.fin.st.coef)
    | .error _ => ({ s with raised := true }, coef)

end

end Glum
