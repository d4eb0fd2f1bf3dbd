import Mathlib.Algebra.Order.Field.Basic
import Mathlib.Algebra.BigOperators.Ring.Finset
import Mathlib.Algebra.BigOperators.Fin
import Mathlib.Data.List.Basic
import Mathlib.Data.Finset.Basic
/-
Model of `src/glum/_linalg.py` and of the penalty representations used by the solvers.

Conventions: `n` rows, `p` features, `ic` is `fit_intercept`.  A coefficient vector has `p + ic.toNat` entries, the
intercept first, as in the code.  Arrays indexed by feature number (`X[:, j]`, `P1[j]`, `P2[j, k]`) are total functions on
`ℕ`; only indices below `p` are ever read.
`tabmat` contracts used: `X.matvec(v, cols)` is `Σ_{j ∈ cols} X[i,j] v[j]`, `X.sandwich(d, rows, cols)` is
`Σ_{i ∈ rows} d_i X[i,c] X[i,c']` for `c, c' ∈ cols`, `X.transpose_matvec(d, rows, cols)` is `Σ_{i ∈ rows} d_i X[i,c]`.
-/
namespace Glum

variable {K : Type*} [Field K] [LinearOrder K]

/-- `coef[idx:]` seen as an array indexed by feature number (slice used throughout `_solvers.py`, `_linalg.py` 57-58). -/
def feat {p : ℕ} (ic : Bool) (coef : Fin (p + ic.toNat) → K) (j : ℕ) : K :=
  if h : j + ic.toNat < p + ic.toNat then coef ⟨j + ic.toNat, h⟩ else 0

/-- `coef[0]` when there is an intercept (used in `_linalg.py` 61-62). -/
def icpt {p : ℕ} (ic : Bool) (coef : Fin (p + ic.toNat) → K) : K :=
  if h : 0 < ic.toNat then coef ⟨0, by omega⟩ else 0

/-- `_safe_lin_pred(X, coef, offset)` (`_linalg.py` 51-65): only columns with a non-zero coefficient are multiplied. -/
def safeLinPred {n p : ℕ} (ic : Bool) (X : Fin n → ℕ → K) (coef : Fin (p + ic.toNat) → K)
    (offset : Option (Fin n → K)) (i : Fin n) : K :=
  let nonzero := (Finset.range p).filter (fun j => feat ic coef j ≠ 0)
  let res := ∑ j ∈ nonzero, X i j * feat ic coef j
  let res := if ic then res + icpt ic coef else res
  match offset with
  | some o => res + o i
  | none => res

/-- `_safe_sandwich_dot(X, d, rows, cols, intercept)` (`_linalg.py` 68-95) as a function of the two positions in the
result.  Entry (0,0) with intercept is `d.sum()` over *all* rows, the other entries sum over `rows` only. -/
def safeSandwichDot {n : ℕ} (ic : Bool) (X : Fin n → ℕ → K) (d : Fin n → K) (rows : Finset (Fin n))
    (cols : List ℕ) (s t : ℕ) : K :=
  match ic with
  | true =>
    match s, t with
    | 0, 0 => ∑ i, d i
    | s' + 1, 0 => ∑ i ∈ rows, d i * X i (cols.getD s' 0)
    | 0, t' + 1 => ∑ i ∈ rows, d i * X i (cols.getD t' 0)
    | s' + 1, t' + 1 => ∑ i ∈ rows, X i (cols.getD s' 0) * d i * X i (cols.getD t' 0)
  | false => ∑ i ∈ rows, X i (cols.getD s 0) * d i * X i (cols.getD t 0)

/-- A sparse matrix in stored order: `(row, column, value)` triples, explicit zeros and duplicates allowed
(scipy CSC: `indices`, implied column, `data`). -/
abbrev SparseMat (K : Type*) := List (ℕ × ℕ × K)

/-- `P2.toarray()[j, k]`: duplicates are summed (scipy). -/
def SparseMat.toArray (M : SparseMat K) (j k : ℕ) : K :=
  ((M.filter (fun e => e.1 = j ∧ e.2.1 = k)).map (fun e => e.2.2)).sum

/-- `P2.diagonal()[k]` (scipy). -/
def SparseMat.diagonal (M : SparseMat K) (k : ℕ) : K := M.toArray k k

/-- `P2.data[k]` (scipy). -/
def SparseMat.dataAt (M : SparseMat K) (k : ℕ) : K := (M.map (fun e => e.2.2)).getD k 0

/-- `P2.nnz` (scipy: number of stored entries). -/
def SparseMat.nnz (M : SparseMat K) : ℕ := M.length

/-- The three representations of `P2` accepted by the solvers (`_solvers.py` 448, 218-236). -/
inductive Pen2 (K : Type*) where
  | vec (v : ℕ → K)
  | dense (m : ℕ → ℕ → K)
  | sparse (m : SparseMat K)

/-- `is_diagonal = P2.nnz == P2.shape[0] and (P2.data == P2.diagonal()).all()` (`_solvers.py` 224). -/
def SparseMat.looksDiagonal (M : SparseMat K) (p : ℕ) : Prop :=
  M.nnz = p ∧ ∀ k < p, M.dataAt k = M.diagonal k

instance (M : SparseMat K) (p : ℕ) : Decidable (M.looksDiagonal p) := by
  unfold SparseMat.looksDiagonal; infer_instance

/-- The entry that `build_hessian_delta` adds for the features `a`, `b` (`_solvers.py` 215-236); `same` says whether it
is a diagonal position of the block.  `P2 = none` and an empty sparse matrix add nothing. -/
def p2Entry (p : ℕ) (P2 : Option (Pen2 K)) (same : Prop) [Decidable same] (a b : ℕ) : K :=
  match P2 with
  | none => 0
  | some (.vec v) => if same then v a else 0
  | some (.dense m) => m a b
  | some (.sparse m) =>
    if m.nnz = 0 then 0
    else if m.looksDiagonal p then (if same then m.dataAt a else 0)
    else m.toArray a b

/-- The P2 part of `build_hessian_delta` (`_solvers.py` 215-236), added at positions `s, t` of the active block. -/
def addP2 (ic : Bool) (p : ℕ) (P2 : Option (Pen2 K)) (cols : List ℕ) (s t : ℕ) : K :=
  let idx := ic.toNat
  if s < idx ∨ t < idx then 0
  else p2Entry p P2 (s = t) (cols.getD (s - idx) 0) (cols.getD (t - idx) 0)

/-- `active_cols[idx:] - idx` (`_solvers.py` 209-210). -/
def activeFeatures {m : ℕ} (ic : Bool) (active : List (Fin m)) : List ℕ :=
  (active.drop ic.toNat).map (fun i => i.val - ic.toNat)

/-- `build_hessian_delta(X, hessian_rows, intercept, P2, active_rows, active_cols)` (`_solvers.py` 194-237). -/
def buildHessianDelta {n p : ℕ} (ic : Bool) (X : Fin n → ℕ → K) (hrows : Fin n → K) (P2 : Option (Pen2 K))
    (rows : Finset (Fin n)) (active : List (Fin (p + ic.toNat))) (s t : ℕ) : K :=
  safeSandwichDot ic X hrows rows (activeFeatures ic active) s t
    + addP2 ic p P2 (activeFeatures ic active) s t

/-- `_make_coef_P2(intercept_offset, P2, coef)` (`_solvers.py` 711-723): `coef[idx:] @ P2`, zero for the intercept.
For a sparse `P2` the product is that of its dense array. -/
def makeCoefP2 {p : ℕ} (ic : Bool) (P2 : Pen2 K) (coef : Fin (p + ic.toNat) → K) (i : Fin (p + ic.toNat)) : K :=
  if i.val < ic.toNat then 0
  else
    let j := i.val - ic.toNat
    match P2 with
    | .vec v => feat ic coef j * v j
    | .dense m => ∑ k ∈ Finset.range p, feat ic coef k * m k j
    | .sparse m => ∑ k ∈ Finset.range p, feat ic coef k * m.toArray k j

end Glum
