import Verif.Model.Linalg
/-
Specification vocabulary: the design matrix with the column of ones, and `P2` as a plain matrix.
-/
namespace Glum.Spec

variable {K : Type*} [Field K] [LinearOrder K]

/-- The design matrix with a leading column of ones when there is an intercept. -/
def design {n p : ℕ} (ic : Bool) (X : Fin n → ℕ → K) (i : Fin n) (k : Fin (p + ic.toNat)) : K :=
  match ic, k.val with
  | true, 0 => 1
  | true, j + 1 => X i j
  | false, j => X i j

/-- The matrix denoted by a `P2` argument: a vector means a diagonal matrix. -/
def p2Matrix (P2 : Pen2 K) (j k : ℕ) : K :=
  match P2 with
  | .vec v => if j = k then v j else 0
  | .dense m => m j k
  | .sparse m => m.toArray j k

/-- `P2` extended to the coefficient vector: zero row and column for the intercept. -/
def p2Full {p : ℕ} (ic : Bool) (P2 : Pen2 K) (i k : Fin (p + ic.toNat)) : K :=
  match ic, i.val, k.val with
  | true, j + 1, l + 1 => p2Matrix P2 j l
  | true, _, _ => 0
  | false, j, l => p2Matrix P2 j l

/-- `X̃ᵀ diag(h) X̃ + P2`, entry `(j, k)`, where `X̃` is the design matrix with intercept column. -/
def fullHessian {n p : ℕ} (ic : Bool) (X : Fin n → ℕ → K) (h : Fin n → K) (P2 : Pen2 K)
    (j k : Fin (p + ic.toNat)) : K :=
  ∑ i, design ic X i j * h i * design ic X i k + p2Full ic P2 j k

/-- The linear predictor of row `i`. -/
def linPred {n p : ℕ} (ic : Bool) (X : Fin n → ℕ → K) (offset : Fin n → K) (coef : Fin (p + ic.toNat) → K)
    (i : Fin n) : K :=
  ∑ k, design ic X i k * coef k + offset i

end Glum.Spec
