import Verif.Model.Standardize
/-
Model of `setup_p1`, `setup_p2` (`_glm.py` 3227-3332) and of how `fit` multiplies penalties by alpha.
-/
namespace Glum

noncomputable section

/-- The `P1` argument after categorical expansion (`_glm.py` 3227-3264): a string, `None`, or a vector with its length. -/
inductive P1Arg where
  | str (s : String)
  | none
  | vec (len : ℕ) (v : ℕ → ℝ)

/-- `setup_p1(P1, X, dtype, alpha, l1_ratio)` (`_glm.py` 3227-3264); `none`: an exception is raised.  `p` is `X.shape[1]`. -/
def setupP1 (p : ℕ) (alpha l1 : ℝ) : P1Arg → Option (ℕ → ℝ)
  | .str s => if s = "identity" then some (fun _ => alpha * l1 * 1) else none
  | .none => some (fun _ => alpha * l1 * 1)
  | .vec len v => if len = p then some (fun j => alpha * l1 * v j) else none

/-- The `P2` argument after categorical expansion (`_glm.py` 3267-3314): string, `None`, vector, dense or sparse matrix with its
shape. -/
inductive P2Arg where
  | str (s : String)
  | none
  | vec (len : ℕ) (v : ℕ → ℝ)
  | dense (rows cols : ℕ) (m : ℕ → ℕ → ℝ)
  | sparse (rows cols : ℕ) (m : SparseMat ℝ)

/-- `_setup_sparse_p2(v)` (`_glm.py` 3281-3282): a diagonal matrix stored column by column; scipy's conversion drops zeros. -/
def sparseDiag (p : ℕ) (v : ℕ → ℝ) : SparseMat ℝ :=
  open Classical in ((List.range p).filter fun j => v j ≠ 0).map fun j => (j, j, v j)

/-- The sparse form of a dense matrix, `sparse.csc_matrix(P2)` (`_glm.py` 3314): column by column, zeros dropped. -/
def sparseOfDense (p : ℕ) (m : ℕ → ℕ → ℝ) : SparseMat ℝ :=
  open Classical in
  ((List.range p).flatMap fun k => (List.range p).map fun j => (j, k, m j k)).filter fun e => e.2.2 ≠ 0

/-- Multiplication of a penalty by a number (`_glm.py` 3322, and 691-692, 2901). -/
def Pen2.smul (a : ℝ) : Pen2 ℝ → Pen2 ℝ
  | .vec v => .vec fun j => a * v j
  | .dense m => .dense fun j k => a * m j k
  | .sparse m => .sparse (m.map fun e => (e.1, e.2.1, a * e.2.2))

/-- The symmetrisation (`_glm.py` 3323-3331): `0.5 * (P2 + P2.T)`; the sum of two sparse matrices has the entries of both (scipy
adds up equal positions; only the entries matter). -/
def Pen2.symmetrise : Pen2 ℝ → Pen2 ℝ
  | .vec v => .vec v
  | .dense m => .dense fun j k => 1 / 2 * (m j k + m k j)
  | .sparse m => .sparse ((m ++ m.map fun e => (e.2.1, e.1, e.2.2)).map fun e => (e.1, e.2.1, 1 / 2 * e.2.2))

/-- The part of `setup_p2` before scaling (`_glm.py` 3284-3320); `xsp` is `sparse.issparse(X)`. -/
def setupP2Base (p : ℕ) (xsp : Bool) : P2Arg → Option (Pen2 ℝ)
  | .str s => if s = "identity" then some (if xsp then .sparse (sparseDiag p fun _ => 1) else .vec fun _ => 1) else none
  | .none => some (if xsp then .sparse (sparseDiag p fun _ => 1) else .vec fun _ => 1)
  | .vec len v => if len = p then some (if xsp then .sparse (sparseDiag p v) else .vec v) else none
  | .dense r c m => if r = c ∧ r = p then some (if xsp then .sparse (sparseOfDense p m) else .dense m) else none
  | .sparse r c m => if r = c ∧ r = p then some (.sparse m) else none

/-- `setup_p2(P2, X, stype, dtype, alpha, l1_ratio)` (`_glm.py` 3267-3332); `none`: an exception is raised. -/
def setupP2 (p : ℕ) (xsp : Bool) (alpha l1 : ℝ) (a : P2Arg) : Option (Pen2 ℝ) :=
  (setupP2Base p xsp a).map fun P2 => (P2.smul (alpha * (1 - l1))).symmetrise

/-- The penalties a call of `_solve` receives for `alpha`, in `fit` without search (`_glm.py` 2737-2738, 2777-2797, 2896-2902): set up
with alpha 1, standardised, multiplied by alpha. -/
def solverPenalties (n p : ℕ) (xsp : Bool) (thr : ℝ) (center asIfScaled : Bool) (means stds : ℕ → ℝ) (X : Fin n → ℕ → ℝ)
    (l1 : ℝ) (a1 : P1Arg) (a2 : P2Arg) (alpha : ℝ) : Option ((ℕ → ℝ) × Pen2 ℝ) := do
  let P1 ← setupP1 p 1 l1 a1
  let P2 ← setupP2 p xsp 1 l1 a2
  let s := standardize thr center asIfScaled means stds X none none none P1 P2
  some (fun j => s.P1 j * alpha, s.P2.smul alpha)

end

end Glum
