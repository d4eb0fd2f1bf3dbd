import Verif.Model.Solve
/-
Model of the diagnostics of a fit: what the IRLS solvers record per iteration (`_solvers.py` 559-588), what `_solve` stores as
`diagnostics_` (`_glm.py` 553-667) and `get_formatted_diagnostics` (`_glm.py` 748-788).
-/
namespace Glum

noncomputable section

variable {n p : ℕ} {ic : Bool}

/-- The entries of one record that do not depend on the clock (`_solvers.py` 567-588); `n_active_rows` and `n_line_search` are left out. -/
structure DiagRow where
  nIter : ℕ
  convergence : ℝ
  objective : ℝ
  l1 : ℝ
  l2 : ℝ
  stepL2 : ℝ
  firstCoef : ℝ
  nUpdated : ℕ
  nActiveCols : ℕ
  nCycles : ℕ

/-- `coef[0]` (`_solvers.py` 576); an empty vector (which would raise) gives 0. -/
def firstEntry {m : ℕ} (c : Fin m → ℝ) : ℝ := if h : 0 < m then c ⟨0, h⟩ else 0

open Classical in
/-- The record of `_record_iteration` (`_solvers.py` 564-588).  `n_updated` is `np.sum(np.abs(d) > 0)` for the direction `d` (`_solvers.py` 331)
and 0 at the start (546); the step is a positive multiple of `d`. -/
def diagRow (st : IRLSState n p ic) : DiagRow where
  nIter := st.nIter
  convergence := st.norm
  objective := st.obj
  l1 := ∑ k, |st.coef k|
  l2 := l2Norm st.coef
  stepL2 := l2Norm st.step
  firstCoef := firstEntry st.coef
  nUpdated := if st.nIter = 0 then 0 else (Finset.univ.filter fun k => st.step k ≠ 0).card
  nActiveCols := st.hs.active.length
  nCycles := st.nCycles

/-- `state.diagnostics` of the loop of `_irls_solver` started in state `st` (`_solvers.py` 304, 307-345): one record before the loop, one after
every pass. -/
def irlsTrace (inner : Inner n p ic) (D : IRLSData n p ic) : ℕ → IRLSState n p ic → List DiagRow
  | 0, st => [diagRow st]
  | fuel + 1, st =>
    if st.nIter < D.maxIter ∧ st.converged = false then diagRow st :: irlsTrace inner D fuel (irlsStep inner D st) else [diagRow st]

/-- The attribute `diagnostics_`: missing before the first fit; `None` after a fit with `closed-form`, `lbfgs` or `trust-constr`
(`_solvers.py` 381, 915, 985); else the records. -/
abbrev DiagAttr := Option (Option (List DiagRow))

/-- The IRLS branch of `_solve` (`_glm.py` 585-632), `irlsSolver` with the attribute `diagnostics_` in addition: every solve overwrites it. -/
def irlsSolverDiag (next : (ℕ → BitVec 32) → ℕ → (ℕ → BitVec 32)) (inner : (ℕ → BitVec 32) → (m : ℕ) → Inner m p ic) :
    SolverFn (SolverLog × DiagAttr) p ic :=
  fun m D A s start =>
    let r := irlsSolver next inner m D A s.1 start
    ((r.1, some (some (irlsTrace (inner s.1.seeds m) D D.maxIter (irlsInit D start)))), r.2)

/-- The columns of `pd.DataFrame(data=self.diagnostics_).set_index("n_iter", drop=True)` with `"intercept"` appended (`_glm.py` 775-779; the keys
of `_solvers.py` 568-588 in order). -/
def diagColumns : List String :=
  ["convergence", "objective_fct", "L1(coef)", "L2(coef)", "L2(step)", "first_coef", "n_coef_updated", "n_active_cols", "n_active_rows", "n_cycles",
    "n_line_search", "iteration_runtime", "build_hessian_runtime", "inner_solver_runtime", "line_search_runtime", "quadratic_update_runtime",
    "intercept"]

/-- One cell; `none` is NaN.  `other`: the columns that are not modelled (timings, row counts, line-search steps), by name and row number. -/
def diagCell (fitIntercept : Bool) (other : String → ℕ → Option ℝ) (row : DiagRow) (col : String) : Option ℝ :=
  if col = "convergence" then some row.convergence
  else if col = "objective_fct" then some row.objective
  else if col = "L1(coef)" then some row.l1
  else if col = "L2(coef)" then some row.l2
  else if col = "L2(step)" then some row.stepL2
  else if col = "first_coef" then some row.firstCoef
  else if col = "n_coef_updated" then some row.nUpdated
  else if col = "n_active_cols" then some row.nActiveCols
  else if col = "n_cycles" then some row.nCycles
  else if col = "intercept" then (if fitIntercept then some row.firstCoef else none)
  else other col row.nIter

/-- What `get_formatted_diagnostics` returns: one of two texts, or a table (index `n_iter`, then the columns in order). -/
inductive DiagShown where
  | notFitted
  | notReported
  | table (index : List ℕ) (cols : List (String × List (Option ℝ)))

/-- `get_formatted_diagnostics(full_report=…, custom_columns=…)` (`_glm.py` 748-788), `custom_columns` a list of names; `none`: `KeyError` for an
unknown column. -/
def formattedDiagnostics (fitIntercept : Bool) (other : String → ℕ → Option ℝ) (d : DiagAttr) (full : Bool) (custom : Option (List String)) :
    Option DiagShown :=
  match d with
  | none => some .notFitted
  | some none => some .notReported
  | some (some rows) =>
    let keep := match custom with
      | some l => l
      | none => if full then diagColumns else ["convergence", "n_cycles", "iteration_runtime", "intercept"]
    if ∀ c ∈ keep, c ∈ diagColumns then
      some (.table (rows.map (·.nIter)) (keep.map fun c => (c, rows.map fun row => diagCell fitIntercept other row c)))
    else none

end

end Glum
