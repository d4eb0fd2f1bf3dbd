import Verif.Model.SmoothObjective
import Verif.Model.GuessIntercept
import Verif.Model.Penalty
/-
Model of the regularisation path: `_get_alpha_path` (`_glm.py` 432-517) and `_solve_regularization_path` (669-715) with the part of
`fit` that stores its result (2855-2890).
-/
namespace Glum

noncomputable section

variable {n p : ℕ} {ic : Bool}

/-- `np.linspace(start, stop, num)` (numpy): `start` alone for `num = 1`; otherwise equally spaced, the last one `stop`. -/
def linspace (start stop : ℝ) (num : ℕ) : List ℝ :=
  (List.range num).map fun k : ℕ => if num = 1 then start else start + (k : ℝ) * ((stop - start) / ((num : ℝ) - 1))

/-- `np.logspace(start, stop, num, base=np.e)` (numpy): `e ** linspace(start, stop, num)`. -/
def logspace (start stop : ℝ) (num : ℕ) : List ℝ := (linspace start stop num).map Real.exp

/-- The smallest alpha of the grid (`_glm.py` 458-472); `none`: `min_alpha` is too large (`ValueError`).  `n`, `p`: the shape of `X`. -/
def gridMin (n p : ℕ) (minAlpha minRatio : Option ℝ) (maxAlpha : ℝ) : Option ℝ :=
  open Classical in
  match minAlpha with
  | none => match minRatio with
    | none => some (maxAlpha * if n ≥ p then 1 / 1000000 else 1 / 100)
    | some r => some (maxAlpha * r)
  | some m => if m ≥ maxAlpha then none else some m

/-- `_make_grid(max_alpha)` (`_glm.py` 457-479).  A smallest alpha that is not positive has no finite logarithm: numpy then returns a
grid with NaN entries, which is `none` here. -/
def makeGrid (n p nAlphas : ℕ) (minAlpha minRatio : Option ℝ) (maxAlpha : ℝ) : Option (List ℝ) :=
  open Classical in do
  let lo ← gridMin n p minAlpha minRatio maxAlpha
  if lo ≤ 0 then none else some (logspace (Real.log maxAlpha) (Real.log lo) nAlphas)

/-- The starting point at which the gradient is taken (`_glm.py` 481-492): the guessed intercept (without offset), zero features. -/
def pathCoef (D : SmoothData n p ic) : Option (Fin (p + ic.toNat) → ℝ) :=
  if ic then (guessIntercept D.family D.link D.y D.sw .none).map fun b k => if k.val < ic.toNat then b else 0
  else some fun _ => 0

/-- `feature_gradient = np.abs(-0.5 * dev_der[intercept_offset:])` (`_glm.py` 494-503). -/
def featureGradient (D : SmoothData n p ic) (coef : Fin (p + ic.toNat) → ℝ) (j : ℕ) : ℝ :=
  |(-(1 / 2)) * feat ic (muDevianceDerivative D coef).2 j|

/-- The largest ratio (`_glm.py` 505-512): for a ridge penalty the largest gradient over 0.001, else the largest
`gradient / P1` over the L1-penalised features; `none`: `np.max` of an empty array raises. -/
def rawAlphaMax (D : SmoothData n p ic) (P1 : ℕ → ℝ) (coef : Fin (p + ic.toNat) → ℝ) : Option ℝ :=
  open Classical in
  if ∀ j < p, P1 j = 0 then ((List.range p).map (featureGradient D coef)).max?.map (· / (1 / 1000))
  else (((List.range p).filter fun j => 0 < P1 j).map fun j => featureGradient D coef j / P1 j).max?

/-- `alpha_max` (`_glm.py` 505-515): zero is replaced by 10. -/
def alphaMax (D : SmoothData n p ic) (P1 : ℕ → ℝ) (coef : Fin (p + ic.toNat) → ℝ) : Option ℝ :=
  open Classical in (rawAlphaMax D P1 coef).map fun m => if m = 0 then 10 else m

/-- `_get_alpha_path(P1_no_alpha, X, y, w, offset)` (`_glm.py` 432-517); `none`: an exception or a grid with NaN. -/
def alphaPath (D : SmoothData n p ic) (P1 : ℕ → ℝ) (nAlphas : ℕ) (minAlpha minRatio : Option ℝ) : Option (List ℝ) := do
  let coef ← pathCoef D
  let m ← alphaMax D P1 coef
  makeGrid n p nAlphas minAlpha minRatio m

/-- A call of `_solve`: it sees the estimator's mutable state `σ` (random generator, `n_iter_`, diagnostics), the penalties and the
start, and returns the new state and the coefficients (`_glm.py` 519-667). -/
abbrev SolveFn (σ : Type) (p : ℕ) (ic : Bool) :=
  σ → (ℕ → ℝ) → Pen2 ℝ → (Fin (p + ic.toNat) → ℝ) → σ × (Fin (p + ic.toNat) → ℝ)

/-- `_solve_regularization_path` (`_glm.py` 669-715): the rows of `coef_path_`, in the order of `alphas`. -/
def solvePath {σ : Type} (solve : SolveFn σ p ic) (P1 : ℕ → ℝ) (P2 : Pen2 ℝ) :
    List ℝ → σ → (Fin (p + ic.toNat) → ℝ) → σ × List (Fin (p + ic.toNat) → ℝ)
  | [], s, _ => (s, [])
  | a :: rest, s, coef =>
    let r := solve s (fun j => P1 j * a) (P2.smul a) coef
    let t := solvePath solve P1 P2 rest r.1 r.2
    (t.1, r.2 :: t.2)

/-- What `fit` stores. -/
structure PathResult where
  coef : ℕ → ℝ
  intercept : ℝ
  coefPath : List (ℕ → ℝ)
  interceptPath : List ℝ
  alphas : List ℝ

/-- The end of `fit` with `alpha_search` (`_glm.py` 2840-2883): the path is unstandardised row by row, `coef_` and `intercept_` are its
last row (`[-1]`; an empty path raises).  Without intercept `intercept_` is 0.0. -/
def storePath (thr : ℝ) (means stds : ℕ → ℝ) (alphas : List ℝ) (rows : List (Fin (p + ic.toNat) → ℝ)) : Option PathResult := do
  let un := rows.map (report ic thr means stds)
  let last ← un.getLast?
  some { coef := last.2, intercept := if ic then last.1 else 0, coefPath := un.map (·.2), interceptPath := un.map (·.1),
         alphas := alphas }

end

end Glum
