import Verif.Model.AlphaPath
/-
Model of `GeneralizedLinearRegressor.fit` from the checked arguments to the stored coefficients (`_glm.py` 2733-2918), composed from
the models of its parts.  What comes before (conversion of data frames, validation) is in `Model/Categorical`, `Model/Formula`,
`Model/Config`, `Model/Weights`; what comes after (the covariance matrix) in `Model/Inference`.
-/
namespace Glum

noncomputable section

/-- The data of a fit: design matrix, response, normalised weights (`_glm.py` 2140-2155), offset. -/
structure Rows (n : ℕ) where
  X : Fin n → ℕ → ℝ
  y : Fin n → ℝ
  sw : Fin n → ℝ
  off : Option (Fin n → ℝ)

/-- What the solver sees of the family and link (`family.eta_mu_deviance`, `family.rowwise_gradient_hessian`): the compiled routine
if there is one (`_distribution.py` 300-408 and the overrides). -/
def rowFam (e50 : ℝ) (f : Family) (l : Link) : RowFamily :=
  match f.fast l with
  | some k => fastRow f l k
  | none => genericRow e50 f l

/-- The parameters of the estimator that the fit reads.  `lb`, `ub`, `A`: checked bounds and inequality matrix (`_glm.py` 2740-2755);
`thr`: `10 * sqrt(eps)`; `asIfScaled`: `scale_predictors`; `start`: where `_get_start_coef` starts; `p2ok`: the outcome of the check
that `P2` is positive semidefinite (`true` if the check is not made). The rest are the fields of `IRLSData`. -/
structure FitCfg (p : ℕ) (ic : Bool) where
  family : Family
  link : Link
  e50 : ℝ
  thr : ℝ
  asIfScaled : Bool
  xsp : Bool
  P1a : P1Arg
  P2a : P2Arg
  lb : Option (ℕ → ℝ)
  ub : Option (ℕ → ℝ)
  A : Option (ℕ → ℕ → ℝ)
  start : StartFrom p ic
  p2ok : Pen2 ℝ → Bool
  maxIter : ℕ
  maxInnerIter : ℕ
  gradTol : ℝ
  stepTol : Option ℝ
  hessApprox : ℝ
  fixedInnerTol : Option ℝ
  random : Bool
  eps : ℝ
  large : ℝ

variable {n p : ℕ} {ic : Bool}

/-- The problem on the original scale for given penalties. -/
def FitCfg.problem (C : FitCfg p ic) (R : Rows n) (P1 : ℕ → ℝ) (P2 : Pen2 ℝ) : IRLSData n p ic :=
  { X := R.X, y := R.y, sw := R.sw, P1 := P1, P2 := P2, fam := rowFam C.e50 C.family C.link, maxIter := C.maxIter,
    maxInnerIter := C.maxInnerIter, gradTol := C.gradTol, stepTol := C.stepTol, hessApprox := C.hessApprox,
    fixedInnerTol := C.fixedInnerTol, random := C.random, offset := R.off, lb := C.lb, ub := C.ub, eps := C.eps, large := C.large }

/-- The same problem with other penalties (`IRLSData(..., P1=P1, P2=P2)`, `_glm.py` 588-610). -/
def IRLSData.withPen (D : IRLSData n p ic) (P1 : ℕ → ℝ) (P2 : Pen2 ℝ) : IRLSData n p ic := { D with P1 := P1, P2 := P2 }

/-- tabmat's column means and standard deviations of a weighted matrix (contract: `Model/Standardize`). -/
abbrev Stats := (m : ℕ) → (Fin m → ℕ → ℝ) → (Fin m → ℝ) → (ℕ → ℝ) × (ℕ → ℝ)

/-- The solver behind `_solve` (`_glm.py` 519-667): it sees the problem, the inequality matrix (rescaled), the mutable state and the
start. -/
abbrev SolverFn (σ : Type) (p : ℕ) (ic : Bool) :=
  (m : ℕ) → IRLSData m p ic → Option (ℕ → ℕ → ℝ) → σ → (Fin (p + ic.toNat) → ℝ) → σ × (Fin (p + ic.toNat) → ℝ)

/-- What is ready when the solver is called: the column statistics, the standardised problem with `P1_no_alpha`, `P2_no_alpha`, the
rescaled inequality matrix, and the start. -/
structure Prepared (n p : ℕ) (ic : Bool) where
  means : ℕ → ℝ
  stds : ℕ → ℝ
  D : IRLSData n p ic
  A : Option (ℕ → ℕ → ℝ)
  start : Fin (p + ic.toNat) → ℝ

/-- The guess for the intercept, only evaluated on a cold start with an intercept (`_glm.py` 267-275). -/
def startGuess (C : FitCfg p ic) (R : Rows n) : Option ℝ :=
  match ic, C.start with
  | true, .cold => guessIntercept C.family C.link R.y R.sw (R.off.elim .none .array)
  | _, _ => some 0

/-- `setup_p1`, `setup_p2` with `alpha = 1`, `standardize` and `_get_start_coef` in a row (`_glm.py` 2737-2738, 2777-2812; the same
sequence in `_glm_cv.py` 686-729 and 834-858); `none`: an exception. -/
def prepare (C : FitCfg p ic) (stats : Stats) (R : Rows n) (l1 : ℝ) : Option (Prepared n p ic) := do
  let P1 ← setupP1 p 1 l1 C.P1a
  let P2 ← setupP2 p C.xsp 1 l1 C.P2a
  let ms := stats n R.X R.sw
  let guess ← startGuess C R
  some { means := ms.1, stds := ms.2
         D := stdData C.thr C.asIfScaled ms.1 ms.2 (C.problem R P1 P2)
         A := C.A.map fun a r j => a r j * oneOverStd C.thr 1 (ms.2 j)
         start := getStartCoef ic C.thr ms.1 ms.2 guess C.lb C.ub C.start }

/-- `_solve` for the prepared problem, as a function of state, penalties and start. -/
def Prepared.solveFn {σ : Type} (Q : Prepared n p ic) (solver : SolverFn σ p ic) : SolveFn σ p ic :=
  fun s P1 P2 coef => solver n (Q.D.withPen P1 P2) Q.A s coef

/-- `_solve_regularization_path` for the prepared problem (`_glm.py` 2855-2868; `_glm_cv.py` 741-754, 872-885). -/
def Prepared.path {σ : Type} (Q : Prepared n p ic) (solver : SolverFn σ p ic) (alphas : List ℝ) (s : σ) :
    σ × List (Fin (p + ic.toNat) → ℝ) :=
  solvePath (Q.solveFn solver) Q.D.P1 Q.D.P2 alphas s Q.start

/-- The `_get_alpha_path` call (`_glm.py` 2845-2848; `_glm_cv.py` 608-610): on the standardised problem. -/
def Prepared.alphas (C : FitCfg p ic) (Q : Prepared n p ic) (nAlphas : ℕ) (minAlpha minRatio : Option ℝ) : Option (List ℝ) :=
  alphaPath (p := p) (ic := ic)
    { X := Q.D.X, y := Q.D.y, sw := Q.D.sw, P2 := Q.D.P2, family := C.family, link := C.link, offset := Q.D.offset, e50 := C.e50 }
    Q.D.P1 nAlphas minAlpha minRatio

/-- Which alphas the fit uses: one number (no search; `None` means 0), a given list, or the computed path. -/
inductive AlphaSpec where
  | single (a : ℝ)
  | given (l : List ℝ)
  | search (nAlphas : ℕ) (minAlpha minRatio : Option ℝ)

def AlphaSpec.eval (C : FitCfg p ic) (Q : Prepared n p ic) : AlphaSpec → Option (List ℝ)
  | .single a => some [a]
  | .given l => some l
  | .search k m r => Q.alphas C k m r

/-- `lower_bounds > upper_bounds` somewhere raises (`_glm.py` 2757-2759). -/
def FitCfg.boundsBad (C : FitCfg p ic) : Prop := ∃ l u, C.lb = some l ∧ C.ub = some u ∧ ∃ j < p, u j < l j

open Classical in
/-- `fit` (`_glm.py` 2733-2918), from the checked arguments to `coef_`, `intercept_` and the paths; `none`: an exception.  Without
alpha search the single solve is a path of length one (`coef_path_` is then not stored, but `coef_` and `intercept_` are the same
expressions: `_glm.py` 2909-2918).  The rejection of L1 penalties for other solvers is in `Model/Config`. -/
def glmFit {σ : Type} (C : FitCfg p ic) (stats : Stats) (solver : SolverFn σ p ic) (R : Rows n) (l1 : ℝ) (a : AlphaSpec) (s : σ) :
    Option (σ × PathResult) :=
  if C.boundsBad then none
  else do
    let P2 ← setupP2 p C.xsp 1 l1 C.P2a
    if C.p2ok P2 = false then none
    else do
      let Q ← prepare C stats R l1
      let alphas ← a.eval C Q
      let out := Q.path solver alphas s
      let r ← storePath C.thr Q.means Q.stds alphas out.2
      some (out.1, r)

end

end Glum
