import Verif.Model.AlphaPath
import Verif.Model.Weights
/-
Model of prediction: `_find_alpha_index`, `_resolve_alpha_index`, `linear_predictor`, `_compute_linear_predictor`, `predict`, `score`
(`_glm.py` 790-994, 1738-1794; `_glm_cv.py` 426-490).  `X` is the numeric design matrix with the fitted number of columns (the
conversion of data frames and the check of `n_features_in_` come before).
-/
namespace Glum

noncomputable section

variable {n : ℕ}

/-- `np.argmin` (numpy): the first position of the smallest element, with its value; `none`: empty input raises. -/
def argminVal : List ℝ → Option (ℕ × ℝ)
  | [] => none
  | x :: r => match argminVal r with
    | none => some (0, x)
    | some (i, m) => open Classical in if x ≤ m then some (0, x) else some (i + 1, m)

/-- `np.argmin`. -/
def argmin (l : List ℝ) : Option ℕ := (argminVal l).map (·.1)

/-- `np.isclose(x, y, atol=0)` (numpy, default `rtol=1e-5`). -/
def isclose (x y : ℝ) : Prop := |x - y| ≤ 1 / 100000 * |y|

/-- `_find_alpha_index(alpha)` (`_glm.py` 790-797); `none`: an exception. -/
def findAlphaIndex (alphas : List ℝ) (a : ℝ) : Option ℕ :=
  open Classical in do
  let idx ← argmin (alphas.map fun x => |x - a|)
  let x ← alphas[idx]?
  if isclose x a then some idx else none

/-- The arguments `alpha_index` (`ι = ℤ`) and `alpha` (`ι = ℝ`): `None`, a scalar or a sequence. -/
inductive ScalarOrList (ι : Type) where
  | none
  | one (i : ι)
  | many (l : List ι)

/-- `_resolve_alpha_index(alpha_index, alpha)` (`_glm.py` 799-811); outer `none`: an exception. -/
def resolveAlphaIndex (alphas : List ℝ) (idx : ScalarOrList ℤ) (alpha : ScalarOrList ℝ) : Option (ScalarOrList ℤ) :=
  match alpha, idx with
  | .none, i => some i
  | .one a, .none => (findAlphaIndex alphas a).map fun i : ℕ => .one (i : ℤ)
  | .many l, .none => (l.mapM (findAlphaIndex alphas)).map fun is => .many (is.map fun i : ℕ => (i : ℤ))
  | _, _ => none

/-- Python indexing of a sequence: negative indices count from the end; `none`: `IndexError`. -/
def pyGet {α : Type} (l : List α) (i : ℤ) : Option α :=
  if 0 ≤ i then l[i.toNat]? else if 0 ≤ i + l.length then l[(i + l.length).toNat]? else none

/-- A result: one vector, or one column per requested alpha. -/
inductive Pred (n : ℕ) where
  | vec (v : Fin n → ℝ)
  | mat (cols : List (Fin n → ℝ))

/-- `X @ coef + intercept` (`_glm.py` 909, 913, 919). -/
def xbeta (p : ℕ) (X : Fin n → ℕ → ℝ) (coef : ℕ → ℝ) (b : ℝ) (i : Fin n) : ℝ := (∑ j ∈ Finset.range p, X i j * coef j) + b

/-- `xb += offset` if an offset is given. -/
def addOffset (off : Option (Fin n → ℝ)) (v : Fin n → ℝ) : Fin n → ℝ :=
  match off with
  | none => v
  | some o => fun i => v i + o i

/-- `_compute_linear_predictor` (`_glm.py` 882-926); the index is resolved, the paths are those passed.  `np.stack` of an empty list
raises. -/
def computeLinearPredictor (p : ℕ) (X : Fin n → ℕ → ℝ) (off : Option (Fin n → ℝ)) (r : PathResult) (idx : ScalarOrList ℤ) :
    Option (Pred n) :=
  match idx with
  | .none => some (.vec (addOffset off (xbeta p X r.coef r.intercept)))
  | .one i => do
    let c ← pyGet r.coefPath i
    let b ← pyGet r.interceptPath i
    some (.vec (addOffset off (xbeta p X c b)))
  | .many l => do
    let cols ← l.mapM fun i => do
      let c ← pyGet r.coefPath i
      let b ← pyGet r.interceptPath i
      some (addOffset off (xbeta p X c b))
    if l = [] then none else some (.mat cols)

/-- `GeneralizedLinearRegressor.linear_predictor` (`_glm.py` 859-880); without `alpha_search` neither argument may be given. -/
def linearPredictor (p : ℕ) (search : Bool) (r : PathResult) (X : Fin n → ℕ → ℝ) (off : Option (Fin n → ℝ))
    (idx : ScalarOrList ℤ) (alpha : ScalarOrList ℝ) : Option (Pred n) :=
  match search, idx, alpha with
  | false, .none, .none => computeLinearPredictor p X off r .none
  | false, _, _ => none
  | true, _, _ => do
    let i ← resolveAlphaIndex r.alphas idx alpha
    computeLinearPredictor p X off r i

/-- `GeneralizedLinearRegressorCV.linear_predictor` (`_glm_cv.py` 426-490): no check of `alpha_search`; the paths are those of the final
refit. -/
def linearPredictorCV (p : ℕ) (r : PathResult) (X : Fin n → ℕ → ℝ) (off : Option (Fin n → ℝ))
    (idx : ScalarOrList ℤ) (alpha : ScalarOrList ℝ) : Option (Pred n) := do
  let i ← resolveAlphaIndex r.alphas idx alpha
  computeLinearPredictor p X off r i

/-- `link.inverse(eta)`, elementwise. -/
def Pred.map (f : ℝ → ℝ) : Pred n → Pred n
  | .vec v => .vec fun i => f (v i)
  | .mat cols => .mat (cols.map fun c i => f (c i))

/-- `mu * sample_weight` with numpy's broadcasting (`_glm.py` 994): a vector is multiplied elementwise; a matrix `(n, k)` times a vector
`(n,)` aligns the vector with the *last* axis, so it needs `k = n` (column `j` is multiplied by `w[j]`), or `k = 1` (the result has the
shape `(n, n)`), or `n = 1`; otherwise it raises. -/
def Pred.mulWeights (w : Fin n → ℝ) : Pred n → Option (Pred n)
  | .vec v => some (.vec fun i => v i * w i)
  | .mat cols =>
    if h : cols.length = n then some (.mat (List.ofFn fun j : Fin n => fun i => (cols.get (j.cast h.symm)) i * w j))
    else match cols with
      | [c] => some (.mat (List.ofFn fun j : Fin n => fun i => c i * w j))
      | _ => if hn : 0 < n ∧ n = 1 then some (.mat (cols.map fun c i => c i * w ⟨0, hn.1⟩)) else none

/-- `predict` (`_glm.py` 928-994), given the value of `linear_predictor`. -/
def predictWith (e50 : ℝ) (l : Link) (eta : Option (Pred n)) (sw : Option WeightArg) : Option (Pred n) := do
  let eta ← eta
  let mu := eta.map (l.inverse e50)
  match sw with
  | none => some mu
  | some a => do
    let w ← checkWeights n a
    mu.mulWeights w

/-- `score` (`_glm.py` 1786-1794) for the vector `mu` returned by `predict`; `none`: the weights are rejected.  Division by a null
deviance of zero is outside the theorems. -/
def scoreD2 (f : Family) (y mu : Fin n → ℝ) (sw : WeightArg) : Option ℝ := do
  let w ← checkWeights n sw
  let yMean := average y w
  some (1 - f.deviance y mu w / f.deviance y (fun _ => yMean) w)

end

end Glum
