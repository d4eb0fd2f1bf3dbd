import Verif.Model.IRLS
/-
Model of the standardisation of the design matrix and of the translation of coefficients, `_utils.py` 195-313, and of
`_get_start_coef`, `_glm.py` 248-317, over exact reals.

tabmat contract (`MatrixBase.standardize(weights, center, scale=True)`): it returns `col_means` (all zero when `center` is
false), `col_stds`, and the matrix with entries `mult[j] * X[i,j] + shift[j]`, `mult = _one_over_var_inf_to_val(col_stds, 1)` and
`shift[j] = -col_means[j] * mult[j]` (zero when `center` is false).  The numbers `col_means`, `col_stds` themselves are
parameters: no theorem depends on how they are computed.
-/
namespace Glum

noncomputable section

/-- `_one_over_var_inf_to_val(arr, val)` (`_utils.py` 303-313), one entry; `thr` is `10 * sqrt(eps)`. -/
def oneOverStd (thr val s : ℝ) : ℝ := if |s| < thr then val else 1 / s

/-- The standardised matrix returned by tabmat (contract above). -/
def stdX {n : ℕ} (thr : ℝ) (center : Bool) (means stds : ℕ → ℝ) (X : Fin n → ℕ → ℝ) (i : Fin n) (j : ℕ) : ℝ :=
  oneOverStd thr 1 (stds j) * X i j + (if center then -(means j) * oneOverStd thr 1 (stds j) else 0)

/-- The column means returned by tabmat (contract above). -/
def outMeans (center : Bool) (means : ℕ → ℝ) (j : ℕ) : ℝ := if center then means j else 0

/-- The penalty matrix after `standardize` when the penalties are rescaled (`_utils.py` 260-266): sparse `D @ P2 @ D`, vector
`P2 * inv**2`, dense row and column scaling.  scipy may store the product in another order; the entries are these. -/
def scaleP2 (inv : ℕ → ℝ) : Pen2 ℝ → Pen2 ℝ
  | .sparse m => .sparse (m.map fun e => (e.1, e.2.1, inv e.1 * e.2.2 * inv e.2.1))
  | .vec v => .vec fun j => v j * inv j ^ 2
  | .dense m => .dense fun j k => inv j * m j k * inv k

/-- What `standardize` returns besides `col_means` and `col_stds` (`_utils.py` 271). -/
structure StdOut (n : ℕ) where
  X : Fin n → ℕ → ℝ
  lb : Option (ℕ → ℝ)
  ub : Option (ℕ → ℝ)
  A : Option (ℕ → ℕ → ℝ)
  P1 : ℕ → ℝ
  P2 : Pen2 ℝ

/-- `standardize` (`_utils.py` 195-271).  `asIfScaled` is `estimate_as_if_scaled_model`.  `col_stds` is never `None` here, because the
method is called with `scale_predictors=True` (246). -/
def standardize {n : ℕ} (thr : ℝ) (center asIfScaled : Bool) (means stds : ℕ → ℝ) (X : Fin n → ℕ → ℝ)
    (lb ub : Option (ℕ → ℝ)) (A : Option (ℕ → ℕ → ℝ)) (P1 : ℕ → ℝ) (P2 : Pen2 ℝ) : StdOut n :=
  let inv := fun j => oneOverStd thr 1 (stds j)
  { X := stdX thr center means stds X
    lb := lb.map fun l j => l j / inv j
    ub := ub.map fun u j => u j / inv j
    A := A.map fun a r j => a r j * inv j
    P1 := if asIfScaled then P1 else fun j => P1 j * inv j
    P2 := if asIfScaled then P2 else scaleP2 inv P2 }

/-- `standardize_warm_start(coef, col_means, col_stds)` (`_utils.py` 274-283) for a vector with the intercept in front. -/
def standardizeWarmStart {p : ℕ} (thr : ℝ) (means : ℕ → ℝ) (stds : Option (ℕ → ℝ)) (coef : Fin (p + 1) → ℝ) :
    Fin (p + 1) → ℝ :=
  match stds with
  | none => fun k => if k.val = 0 then coef k + ∑ j : Fin p, means j * coef j.succ else coef k
  | some s =>
    let c1 : Fin (p + 1) → ℝ := fun k => if k.val = 0 then coef k else coef k * s (k.val - 1)
    fun k => if k.val = 0 then c1 k + ∑ j : Fin p, means j * oneOverStd thr 1 (s j) * c1 j.succ else c1 k

/-- `unstandardize(col_means, col_stds, intercept, coef)` (`_utils.py` 286-300); `coef` is indexed by feature. -/
def unstandardize (p : ℕ) (thr : ℝ) (means : ℕ → ℝ) (stds : Option (ℕ → ℝ)) (intercept : ℝ) (coef : ℕ → ℝ) :
    ℝ × (ℕ → ℝ) :=
  match stds with
  | none => (intercept - ∑ j ∈ Finset.range p, means j * coef j, coef)
  | some s =>
    (intercept - ∑ j ∈ Finset.range p, means j * oneOverStd thr 1 (s j) * coef j,
      fun j => coef j * oneOverStd thr 1 (s j))

/-- How `fit` reports the solver's vector (`_glm.py` 2909-2918; row by row also 2867-2882): `intercept_`, `coef_`. -/
def report {p : ℕ} (ic : Bool) (thr : ℝ) (means stds : ℕ → ℝ) (coef : Fin (p + ic.toNat) → ℝ) : ℝ × (ℕ → ℝ) :=
  unstandardize p thr (outMeans ic means) (some stds) (if ic then icpt ic coef else 0) (feat ic coef)

/-- The problem `fit` hands to the solver: `standardize` applied to the design matrix, bounds and penalties, centring iff there is
an intercept (`_glm.py` 378, 2777-2797, and `IRLSData(...)` at 588-610). -/
def stdData {n p : ℕ} {ic : Bool} (thr : ℝ) (asIfScaled : Bool) (means stds : ℕ → ℝ) (D : IRLSData n p ic) : IRLSData n p ic :=
  let s := standardize thr ic asIfScaled means stds D.X D.lb D.ub none D.P1 D.P2
  { D with X := s.X, lb := s.lb, ub := s.ub, P1 := s.P1, P2 := s.P2 }

/-- Where `_get_start_coef` takes its start vector from (`_glm.py` 258-299): a previous fit (`warm_start`), `start_params`, or neither. -/
inductive StartFrom (p : ℕ) (ic : Bool) where
  | previous (v : Fin (p + ic.toNat) → ℝ)
  | given (v : Fin (p + ic.toNat) → ℝ)
  | cold

/-- The start vector before clipping (`_glm.py` 258-299).  `_center_predictors` is `fit_intercept` (`_glm.py` 378), so without
intercept the vector is *not* translated.  `guess` is the value of `guess_intercept`. -/
def rawStart {p : ℕ} (ic : Bool) (thr : ℝ) (means stds : ℕ → ℝ) (guess : ℝ) (src : StartFrom p ic) :
    Fin (p + ic.toNat) → ℝ :=
  let translate : (Fin (p + ic.toNat) → ℝ) → (Fin (p + ic.toNat) → ℝ) :=
    match ic with
    | true => fun v => standardizeWarmStart (p := p) thr means (some stds) v
    | false => fun v => v
  match src with
  | .previous v => translate v
  | .given v => translate v
  | .cold => fun k => if k.val < ic.toNat then guess else 0

/-- The clipping at the end of `_get_start_coef` (`_glm.py` 301-315): against `self.lower_bounds`/`self.upper_bounds`, the bounds
as given by the user (for the original scale). -/
def clipStart {p : ℕ} (ic : Bool) (userLb userUb : Option (ℕ → ℝ)) (coef : Fin (p + ic.toNat) → ℝ)
    (k : Fin (p + ic.toNat)) : ℝ :=
  if k.val < ic.toNat then coef k
  else
    let v := match userLb with
      | some l => max (coef k) (l (k.val - ic.toNat))
      | none => coef k
    match userUb with
      | some u => min v (u (k.val - ic.toNat))
      | none => v

/-- `_get_start_coef` (`_glm.py` 248-317). -/
def getStartCoef {p : ℕ} (ic : Bool) (thr : ℝ) (means stds : ℕ → ℝ) (guess : ℝ) (userLb userUb : Option (ℕ → ℝ))
    (src : StartFrom p ic) : Fin (p + ic.toNat) → ℝ :=
  clipStart ic userLb userUb (rawStart ic thr means stds guess src)

end

end Glum
