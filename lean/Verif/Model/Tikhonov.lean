import Mathlib.Data.Real.Basic
import Verif.Model.Linalg
/-
Model of the closed-form Gaussian solver: `_solve_least_squares_tikhonov` (`_linalg.py` 98-169) and `_tikhonov_solver`
(`_solvers.py` 357-381), over exact reals.
-/
namespace Glum

noncomputable section

/-- `has_l2_penalty` (`_linalg.py` 131, 139): some (stored) entry is non-zero. -/
def Pen2.hasL2 (p : ℕ) : Pen2 ℝ → Prop
  | .vec v => ∃ j < p, v j ≠ 0
  | .dense m => ∃ j < p, ∃ k < p, m j k ≠ 0
  | .sparse m => ∃ e ∈ m, e.2.2 ≠ 0

/-- `is_diag_p2` (`_linalg.py` 133-137, 140).  The `isspmatrix_dia` disjunct is dropped: `setup_p2` only lets csc and csr matrices
through (`_glm.py` 3300-3302, `stype` at 2736). -/
def Pen2.isDiag (p : ℕ) : Pen2 ℝ → Prop
  | .vec _ => True
  | .dense _ => False
  | .sparse m => m.nnz ≤ p ∧ ∀ e ∈ m, e.1 = e.2.1

/-- `P2 if not is_sparse_p2 else P2.diagonal()` (`_linalg.py` 149, 158). -/
def Pen2.diagOf : Pen2 ℝ → ℕ → ℝ
  | .vec v, k => v k
  | .dense m, k => m k k
  | .sparse m, k => m.diagonal k

/-- `safe_toarray(P2)` (`_linalg.py` 152, 161).  For a vector this branch is never reached (a vector is diagonal); the entry is
that of numpy broadcasting, which adds `v[k]` to every row. -/
def Pen2.toArr : Pen2 ℝ → ℕ → ℕ → ℝ
  | .vec v, _, k => v k
  | .dense m, j, k => m j k
  | .sparse m, j, k => m.toArray j k

open Classical in
/-- The matrix `hessian` of `_solve_least_squares_tikhonov` (`_linalg.py` 142-161). -/
def tikhonovHessian {n p : ℕ} (ic : Bool) (X : Fin n → ℕ → ℝ) (sw : Fin n → ℝ) (P2 : Pen2 ℝ)
    (s t : Fin (p + ic.toNat)) : ℝ :=
  let idx := ic.toNat
  safeSandwichDot ic X sw Finset.univ (List.range p) s.val t.val +
    if P2.hasL2 p ∧ P2.isDiag p then
      (if s.val = t.val ∧ idx ≤ s.val then P2.diagOf (s.val - idx) else 0)
    else if P2.hasL2 p then
      (if idx ≤ s.val ∧ idx ≤ t.val then P2.toArr (s.val - idx) (t.val - idx) else 0)
    else 0

/-- `y_minus_offset` and `weighted_y` (`_linalg.py` 127-128). -/
def weightedY {n : ℕ} (y sw : Fin n → ℝ) (offset : Option (Fin n → ℝ)) (i : Fin n) : ℝ :=
  sw i * match offset with
    | none => y i
    | some o => y i - o i

/-- `rhs` (`_linalg.py` 144-146, 155). -/
def tikhonovRhs {n p : ℕ} (ic : Bool) (X : Fin n → ℕ → ℝ) (y sw : Fin n → ℝ) (offset : Option (Fin n → ℝ))
    (s : Fin (p + ic.toNat)) : ℝ :=
  if s.val < ic.toNat then ∑ i, weightedY y sw offset i
  else ∑ i, X i (s.val - ic.toNat) * weightedY y sw offset i

/-- `scipy.linalg.solve(H, b, assume_a=...)`; `none` is `LinAlgError`. -/
abbrev LinSolve := ∀ m : ℕ, (Fin m → Fin m → ℝ) → (Fin m → ℝ) → Option (Fin m → ℝ)

/-- `scipy.linalg.lstsq(H, b)[0]`. -/
abbrev LstSq := ∀ m : ℕ, (Fin m → Fin m → ℝ) → (Fin m → ℝ) → (Fin m → ℝ)

/-- `_solve_least_squares_tikhonov` (`_linalg.py` 98-169): direct solve, least squares when it fails.  `_tikhonov_solver`
(`_solvers.py` 357-381) returns this vector unchanged. -/
def solveTikhonov {n p : ℕ} (solve : LinSolve) (lstsq : LstSq) (ic : Bool) (X : Fin n → ℕ → ℝ) (y sw : Fin n → ℝ)
    (P2 : Pen2 ℝ) (offset : Option (Fin n → ℝ)) : Fin (p + ic.toNat) → ℝ :=
  match solve _ (tikhonovHessian (p := p) ic X sw P2) (tikhonovRhs ic X y sw offset) with
  | some c => c
  | none => lstsq _ (tikhonovHessian (p := p) ic X sw P2) (tikhonovRhs ic X y sw offset)

end

end Glum
