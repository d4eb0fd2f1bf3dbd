import Mathlib.Data.Real.Basic
import Mathlib.Algebra.BigOperators.Fin
/-
Model of `check_weights` and `check_offset` (`_validation.py` 156-217) and of the normalisation of the weights in
`_set_up_and_check_fit_args` (`_glm.py` 2132-2155).
-/
namespace Glum

noncomputable section

/-- The `sample_weight` argument: `None`, a scalar, or an array with its shape (only the first dimension and the number of dimensions
are read).  Entries are finite numbers here; `checkWeightsF` below treats NaN and infinities. -/
inductive WeightArg where
  | none
  | scalar (c : ℝ)
  | array (ndim len : ℕ) (v : ℕ → ℝ)

/-- `check_weights(sample_weight, n_samples, ...)` (`_validation.py` 186-217); `none`: `ValueError`. -/
def checkWeights (n : ℕ) : WeightArg → Option (Fin n → ℝ)
  | .none => some fun _ => 1
  | .scalar c => open Classical in if c ≤ 0 then none else some fun _ => c
  | .array ndim len v =>
    open Classical in
    if ndim > 1 then none
    else if len ≠ n then none
    else if ∃ i < len, v i < 0 then none
    else if ∑ i ∈ Finset.range len, v i = 0 then none
    else some fun i => v i

/-- A floating point value: a number, NaN or an infinity. -/
inductive FV where
  | num (x : ℝ)
  | nan
  | pinf
  | ninf

/-- IEEE `x <= 0`. -/
def FV.le0 : FV → Prop
  | .num x => x ≤ 0
  | .nan => False
  | .pinf => False
  | .ninf => True

/-- IEEE `x < 0`. -/
def FV.lt0 : FV → Prop
  | .num x => x < 0
  | .nan => False
  | .pinf => False
  | .ninf => True

def FV.isFinite : FV → Prop
  | .num _ => True
  | _ => False

/-- IEEE addition. -/
def FV.add : FV → FV → FV
  | .num x, .num y => .num (x + y)
  | .nan, _ => .nan
  | _, .nan => .nan
  | .pinf, .ninf => .nan
  | .ninf, .pinf => .nan
  | .pinf, _ => .pinf
  | _, .pinf => .pinf
  | .ninf, _ => .ninf
  | _, .ninf => .ninf

/-- `np.sum` (in exact arithmetic the order does not matter). -/
def FV.sum (l : List FV) : FV := l.foldl FV.add (.num 0)

/-- The argument with floating point values. -/
inductive WeightArgF where
  | none
  | scalar (c : FV)
  | array (ndim len : ℕ) (v : ℕ → FV)

/-- `check_weights` with NaN and infinities (`_validation.py` 186-217): arrays go through sklearn's `check_array`, which raises for
NaN and infinities if `force_all_finite`, and for arrays without elements; scalars do not. -/
def checkWeightsF (n : ℕ) (finite : Bool) : WeightArgF → Option (Fin n → FV)
  | .none => some fun _ => .num 1
  | .scalar c => open Classical in if c.le0 then none else some fun _ => c
  | .array ndim len v =>
    open Classical in
    if len = 0 then none
    else if finite = true ∧ ∃ i < len, ¬ (v i).isFinite then none
    else if ndim > 1 then none
    else if len ≠ n then none
    else if ∃ i < len, (v i).lt0 then none
    else if FV.sum ((List.range len).map v) = .num 0 then none
    else some fun i => v i

/-- `sample_weight / np.sum(sample_weight)` (`_glm.py` 2146-2147), with the sum (`weights_sum`). -/
def normaliseWeights {n : ℕ} (w : Fin n → ℝ) : (Fin n → ℝ) × ℝ := (fun i => w i / ∑ j, w j, ∑ j, w j)

/-- The weights a fit works with (`_glm.py` 2140-2147): validated, then divided by their sum. -/
def fitWeights (n : ℕ) (a : WeightArg) : Option (Fin n → ℝ) := (checkWeights n a).map fun w => (normaliseWeights w).1

end

end Glum
