import Verif.Model.Ieee
/-
Model of the checks for NaN and infinities on the way into a fit (`_validation.py` 62-217, `_glm.py` 1796-1934, 2626-2661, 2784-2796, 3227-3332).
-/
namespace Glum

noncomputable section

/-- A numeric argument that may be `None`, a scalar or an array with its shape. -/
inductive NumArg where
  | none
  | scalar (c : FV)
  | array (ndim len : ℕ) (v : ℕ → FV)

open Classical in
/-- `check_offset` (`_validation.py` 156-183); outer `none`: `ValueError`.  Arrays go through sklearn's `check_array`, which raises for NaN, infinities and
arrays without elements; scalars are not checked. -/
def checkOffsetF (n : ℕ) : NumArg → Option (Option (Fin n → FV))
  | .none => some none
  | .scalar c => some (some fun _ => c)
  | .array ndim len v =>
    if len = 0 then none
    else if ∃ i < len, ¬ (v i).isFinite then none
    else if ndim > 1 then none
    else if len ≠ n then none
    else some (some fun i => v i)

/-- `check_bounds` (`_validation.py` 94-118): no check for NaN or infinities (infinite bounds are meaningful). -/
def checkBoundsF (p : ℕ) : NumArg → Option (Option (Fin p → FV))
  | .none => some none
  | .scalar c => some (some fun _ => c)
  | .array ndim len v =>
    if len = 0 then none
    else if ndim > 1 then none
    else if len ≠ p then none
    else some (some fun j => v j)

/-- The `P1` argument: `'identity'`, `None`, or an array. -/
inductive P1ArgF where
  | identity
  | none
  | array (len : ℕ) (v : ℕ → FV)

/-- IEEE `x >= 0`. -/
def FV.ge0 : FV → Prop
  | .num x => 0 ≤ x
  | .pinf => True
  | _ => False

open Classical in
/-- The check of `P1` in `_validate_hyperparameters` (`_glm.py` 1929-1934) and `setup_p1` with `alpha = 1` (3227-3264); `none`: an exception.  With
`check_input`, `np.asarray(None) >= 0` raises a `TypeError`. -/
def checkP1F (p : ℕ) (checkInput : Bool) (l1 : FV) : P1ArgF → Option (Fin p → FV)
  | .identity => some fun _ => FV.mul l1 (.num 1)
  | .none => if checkInput then none else some fun _ => FV.mul l1 (.num 1)
  | .array len v =>
    if checkInput = true ∧ ∃ j < len, ¬ (v j).ge0 then none
    else if len ≠ p then none
    else some fun j => FV.mul l1 (v j)

/-- What a fit gets, as far as NaN and infinities are concerned; `tol`: `gradient_tol`; `start`: `start_params`; `P2`: the entries of a given `P2`. -/
structure InputF (n p : ℕ) where
  X : Fin n → Fin p → FV
  y : Fin n → FV
  sw : WeightArgF
  offset : NumArg
  lb : NumArg
  ub : NumArg
  alpha : FV
  l1 : FV
  tol : FV
  P1 : P1ArgF
  P2 : List FV
  start : List FV
  forceAllFinite : Bool
  checkInput : Bool

/-- What goes on to the solver. -/
structure CheckedF (n p : ℕ) where
  sw : Fin n → FV
  offset : Option (Fin n → FV)
  lb : Option (Fin p → FV)
  ub : Option (Fin p → FV)
  P1 : Fin p → FV

open Classical in
/-- The checks of `fit` in their order (`_glm.py` 2733-2796, without alpha search): `alpha` (2643-2649), `l1_ratio` (2651-2661), `gradient_tol` (1834-1842),
`P1`; finiteness of `X` (only if `force_all_finite`) and `y` (always); weights, offset; bounds and their order; `P2` and `start_params` (always checked to
be finite, 3299-3301, 284-291). -/
def InputF.check {n p : ℕ} (I : InputF n p) : Option (CheckedF n p) := do
  if I.alpha.lt0 then none
  else if I.l1.lt0 ∨ FV.lt (.num 1) I.l1 then none
  else if I.tol.le0 then none
  else do
    let P1 ← checkP1F p I.checkInput I.l1 I.P1
    if I.forceAllFinite = true ∧ ∃ i j, ¬ (I.X i j).isFinite then none
    else if ∃ i, ¬ (I.y i).isFinite then none
    else do
      let sw ← checkWeightsF n I.forceAllFinite I.sw
      let off ← checkOffsetF n I.offset
      let lb ← checkBoundsF p I.lb
      let ub ← checkBoundsF p I.ub
      if ∃ l u, lb = some l ∧ ub = some u ∧ ∃ j, FV.lt (u j) (l j) then none
      else if ∃ x ∈ I.P2, ¬ x.isFinite then none
      else if ∃ x ∈ I.start, ¬ x.isFinite then none
      else some { sw := sw, offset := off, lb := lb, ub := ub, P1 := P1 }

open Classical in
/-- `np.maximum`: a NaN on either side is passed on. -/
def FV.npMax (x y : FV) : FV := if x.isNaN then x else if y.isNaN then y else if FV.lt x y then y else x

open Classical in
/-- Moving the start values into the lower bounds (`_glm.py` 303-309). -/
def clipLowF {p : ℕ} (lb : Option (Fin p → FV)) (coef : Fin p → FV) : Fin p → FV :=
  match lb with
  | none => coef
  | some l => if ∃ j, FV.lt (coef j) (l j) then fun j => FV.npMax (coef j) (l j) else coef

end

end Glum
