import Verif.Model.Fit
/-
Model of `is_pos_semidef` (`_linalg.py` 11-48) and of the check of `P2` in `fit` (`_glm.py` 2784-2796, `_glm_cv.py` 734-742).
-/
namespace Glum

noncomputable section

/-- What `scipy.linalg.eigvalsh(m)` looks at: LAPACK reads the lower triangle only (`lower=True`). -/
def lowerSym (p : ℕ) (m : ℕ → ℕ → ℝ) (j k : Fin p) : ℝ := if k ≤ j then m j k else m k j

/-- `np.all(linalg.eigvalsh(m) >= bound)` (`_linalg.py` 34, 46-48); contract: `eigvalsh` returns the eigenvalues. -/
def allEigenvaluesAtLeast (p : ℕ) (m : ℕ → ℕ → ℝ) (bound : ℝ) : Prop :=
  ∀ (lam : ℝ) (v : Fin p → ℝ), v ≠ 0 → (∀ j, ∑ k, lowerSym p m j k * v k = lam * v j) → bound ≤ lam

open Classical in
/-- `is_pos_semidef(p)` (`_linalg.py` 11-48) for a penalty on `p` features; `none`: an exception.  `epsneg` is the code's negative number
`-10 * finfo.epsneg`.  For a sparse matrix with 2000 or more rows the code calls `scipy.linalg.eigsh`, which does not exist (it is in
`scipy.sparse.linalg`): `AttributeError`. -/
def isPosSemidef (p : ℕ) (epsneg : ℝ) : Pen2 ℝ → Option Bool
  | .vec v => some (decide (∀ j < p, 0 ≤ v j))
  | .dense m => if p = 1 then some (decide (0 ≤ m 0 0)) else some (decide (allEigenvaluesAtLeast p m epsneg))
  | .sparse m =>
    if p = 1 then some (decide (0 ≤ m.toArray 0 0))
    else if p < 2000 then some (decide (allEigenvaluesAtLeast p m.toArray epsneg))
    else none

/-- The check in `fit` (`_glm.py` 2784-2796): only with `check_input`, and not for the string `"identity"`; `false`: `fit` raises. -/
def p2Check (checkInput : Bool) (a : P2Arg) (p : ℕ) (epsneg : ℝ) (P2 : Pen2 ℝ) : Bool :=
  match checkInput, a with
  | false, _ => true
  | true, .str _ => true
  | true, _ => (isPosSemidef p epsneg P2).getD false

end

end Glum
