import Verif.Model.IRLS
import Verif.Spec.Design
import Verif.Spec.Quad
/-
The documented objective `1/2 deviance + 1/2 w'P2w + ||P1 w||_1` and its gradient, written with the design matrix
including the intercept column and the full penalty matrix.
-/
namespace Glum.Spec

noncomputable section

variable {n p : ℕ} {ic : Bool}

/-- The offset as a vector. -/
def off (D : IRLSData n p ic) : Fin n → ℝ := D.offset.getD fun _ => 0

/-- `½ wᵀ P2 w` (the intercept is not penalised). -/
def ridge (D : IRLSData n p ic) (w : Fin (p + ic.toNat) → ℝ) : ℝ :=
  1 / 2 * ∑ i, ∑ j, p2Full ic D.P2 i j * w i * w j

/-- Half the deviance plus the L2 penalty. -/
def smoothObj (D : IRLSData n p ic) (w : Fin (p + ic.toNat) → ℝ) : ℝ :=
  1 / 2 * ∑ r, D.sw r * D.fam.dev (D.y r) (linPred ic D.X (off D) w r) + ridge D w

/-- The documented objective of the fit. -/
def objective (D : IRLSData n p ic) (w : Fin (p + ic.toNat) → ℝ) : ℝ :=
  smoothObj D w + l1 ic D.P1 w

/-- The score at `w`: `X̃ᵀ g - P2 w` where `g` are the rowwise gradients at `w`. -/
def scoreAt (D : IRLSData n p ic) (w : Fin (p + ic.toNat) → ℝ) (k : Fin (p + ic.toNat)) : ℝ :=
  ∑ r, design ic D.X r k * D.fam.grad (D.y r) (D.sw r) (linPred ic D.X (off D) w r)
      (D.fam.inv (linPred ic D.X (off D) w r))
    - ∑ i, p2Full ic D.P2 i k * w i

/-- The score computed from the alternative gradient rows the line search uses. -/
def scoreVarAt (D : IRLSData n p ic) (w : Fin (p + ic.toNat) → ℝ) (k : Fin (p + ic.toNat)) : ℝ :=
  ∑ r, design ic D.X r k * D.fam.gradVar (D.y r) (D.sw r) (linPred ic D.X (off D) w r)
      (D.fam.inv (linPred ic D.X (off D) w r))
    - ∑ i, p2Full ic D.P2 i k * w i

/-- The `j`-th trial point of a backtracking line search that halves the step. -/
def candidate {m : ℕ} (w d : Fin m → ℝ) (j : ℕ) : Fin m → ℝ := fun k => w k + (1 / 2) ^ j * d k

/-- The predicted change of the objective for the full step: `-score·d + ‖P1(w+d)‖₁ - ‖P1 w‖₁`. -/
def predictedChange (D : IRLSData n p ic) (w d : Fin (p + ic.toNat) → ℝ) : ℝ :=
  -(∑ k, scoreAt D w k * d k) + l1 ic D.P1 (fun k => w k + d k) - l1 ic D.P1 w

/-- When a trial point may be accepted: Armijo's condition with `σ = 1e-4`, or a negligible change of the objective
(at most 16 eps relative) with a smaller score norm. -/
def Acceptable (D : IRLSData n p ic) (w d : Fin (p + ic.toNat) → ℝ) (j : ℕ) : Prop :=
  ((∀ r, D.fam.inv (linPred ic D.X (off D) (candidate w d j) r) < D.large) ∧
    objective D (candidate w d j) - objective D w ≤ (1 / 2) ^ j * (1 / 10000 * predictedChange D w d)) ∨
  (|objective D (candidate w d j) - objective D w| ≤ |objective D w * (16 * D.eps)| ∧
    ∑ k, |scoreVarAt D (candidate w d j) k| < ∑ k, |scoreAt D w k|)

end

end Glum.Spec
