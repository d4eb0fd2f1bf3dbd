import Verif.Model.IRLS
/-
Model of the monotone solver (`_build_monotonic_penalty`, `_monotonic_irls_solver`, `src/glum/_solvers.py` 988-1126), over
exact reals.
-/
namespace Glum

noncomputable section

variable {n p m : ℕ} {ic : Bool}

/-- `A_ineq @ coef[idx:] - b_ineq`, entry `r` (`_solvers.py` 995, 1063, 1101, 1116). -/
def violation (ic : Bool) (A : Fin m → ℕ → ℝ) (b : Fin m → ℝ) (coef : Fin (p + ic.toNat) → ℝ) (r : Fin m) : ℝ :=
  (∑ j ∈ Finset.range p, A r j * feat ic coef j) - b r

/-- `_build_monotonic_penalty` (`_solvers.py` 988-1000): `lam * A_v.T @ A_v` over the rows with a positive violation, `none`
when there is none.  The result is a scipy sparse matrix in the code; here its array. -/
def buildMonotonicPenalty (ic : Bool) (A : Fin m → ℕ → ℝ) (b : Fin m → ℝ) (lam : ℝ) (coef : Fin (p + ic.toNat) → ℝ) :
    Option (ℕ → ℕ → ℝ) :=
  open Classical in
  if ∃ r, 0 < violation ic A b coef r then
    some fun i j => lam * ∑ r ∈ Finset.univ.filter (fun r => 0 < violation ic A b coef r), A r i * A r j
  else none

/-- The canonical compressed storage of the `p × p` matrix `f`: non-zero entries in column order (scipy's result of adding two
sparse matrices; the order within the list only matters to `looksDiagonal`). -/
def toSparse (p : ℕ) (f : ℕ → ℕ → ℝ) : SparseMat ℝ :=
  open Classical in
  ((List.range p).flatMap fun j => (List.range p).map fun i => (i, j, f i j)).filter fun e => decide (e.2.2 ≠ 0)

/-- `sparse.diags(P2_base) + C`, `P2_base + C` (sparse), `P2_base + C.toarray()` (`_solvers.py` 1033-1038). -/
def addPenalty (p : ℕ) (base : Pen2 ℝ) (C : ℕ → ℕ → ℝ) : Pen2 ℝ :=
  match base with
  | .vec v => .sparse (toSparse p fun i j => (if i = j then v i else 0) + C i j)
  | .sparse M => .sparse (toSparse p fun i j => M.toArray i j + C i j)
  | .dense M => .dense fun i j => M i j + C i j

/-- `data` with `data.P2` replaced (`_solvers.py` 1030-1038). -/
def IRLSData.withP2 (D : IRLSData n p ic) (P2 : Pen2 ℝ) : IRLSData n p ic := { D with P2 := P2 }

/-- The solver's variables: the `IRLSState`, `data.P2`, whether `data.P2 is P2_base`, and `constraint_lam`. -/
structure MonoState (n p : ℕ) (ic : Bool) where
  st : IRLSState n p ic
  P2 : Pen2 ℝ
  isBase : Bool
  lam : ℝ

/-- `_update_constraint_penalty(coef, lam)` (`_solvers.py` 1025-1040): the new `data.P2`, whether it is the base object, and the
returned flag `changed`. -/
def updatePenalty (D : IRLSData n p ic) (A : Fin m → ℕ → ℝ) (b : Fin m → ℝ) (isBase : Bool)
    (coef : Fin (p + ic.toNat) → ℝ) (lam : ℝ) : Pen2 ℝ × Bool × Bool :=
  match buildMonotonicPenalty ic A b lam coef with
  | none => (D.P2, true, !isBase)
  | some C => (addPenalty p D.P2 C, false, true)

/-- `constraint_lam` at the top of an iteration (`_solvers.py` 1063-1067): `min(lam * 100, 1e9)` if some row is violated. -/
def nextLam (A : Fin m → ℕ → ℝ) (b : Fin m → ℝ) (coef : Fin (p + ic.toNat) → ℝ) (lam : ℝ) : ℝ :=
  open Classical in
  if ∃ r, 0 < violation ic A b coef r then min (lam * 100) (10 ^ 9) else lam

/-- The state before the loop (`_solvers.py` 1023, 1042-1058).  `data.P2` is first the caller's object, not the copy `P2_base`;
`converged` is reset (1057). -/
def monoInit (D : IRLSData n p ic) (A : Fin m → ℕ → ℝ) (b : Fin m → ℝ) (coef : Fin (p + ic.toNat) → ℝ) : MonoState n p ic :=
  let u := updatePenalty D A b false coef (10 ^ 5)
  { st := { irlsInit (D.withP2 u.1) coef with converged := false }
    P2 := u.1, isBase := u.2.1, lam := 10 ^ 5 }

/-- One pass through the loop body (`_solvers.py` 1061-1106).  The line search compares with `state.obj_val` and `state.score`
from the previous pass, i.e. computed with the previous `data.P2`. -/
def monoStep (inner : Inner n p ic) (D : IRLSData n p ic) (A : Fin m → ℕ → ℝ) (b : Fin m → ℝ) (s : MonoState n p ic) :
    MonoState n p ic :=
  let lam := nextLam A b s.st.coef s.lam
  let u := updatePenalty D A b s.isBase s.st.coef lam
  let D' := D.withP2 u.1
  let st0 := if u.2.2 then { s.st with hs := { s.st.hs with init := false } } else s.st
  let st' := irlsStep inner D' st0
  open Classical in
  let bad := decide (∃ r, 1 / 10 ^ 6 < violation ic A b st'.coef r)
  { st := { st' with converged := st'.converged && !bad }, P2 := u.1, isBase := u.2.1, lam := lam }

/-- `while state.n_iter < data.max_iter and not state.converged` (`_solvers.py` 1061). -/
def monoLoop (inner : Inner n p ic) (D : IRLSData n p ic) (A : Fin m → ℕ → ℝ) (b : Fin m → ℝ) :
    ℕ → MonoState n p ic → MonoState n p ic
  | 0, s => s
  | fuel + 1, s =>
    if s.st.nIter < D.maxIter ∧ s.st.converged = false then monoLoop inner D A b fuel (monoStep inner D A b s) else s

/-- What `_monotonic_irls_solver` delivers: the final variables and the two warnings of 1108-1114 and 1117-1122. -/
structure MonoResult (n p : ℕ) (ic : Bool) where
  fin : MonoState n p ic
  warnNotConverged : Bool
  warnViolation : Bool

/-- The exceptions the solver can raise: `b_ineq ≠ 0` (1015-1019), and `np.max` of an empty array (1116). -/
inductive MonoError where
  | notImplemented
  | emptyMax

/-- `_monotonic_irls_solver(coef, data, A_ineq, b_ineq)` (`_solvers.py` 1003-1126) with the default penalty schedule;
`inner` is `_least_squares_solver`. -/
def monoSolve (inner : Inner n p ic) (D : IRLSData n p ic) (A : Fin m → ℕ → ℝ) (b : Fin m → ℝ)
    (coef : Fin (p + ic.toNat) → ℝ) : Except MonoError (MonoResult n p ic) :=
  open Classical in
  if ∃ r, b r ≠ 0 then .error .notImplemented
  else
    let fin := monoLoop inner D A b D.maxIter (monoInit D A b coef)
    if m = 0 then .error .emptyMax
    else .ok
      { fin := fin, warnNotConverged := !fin.st.converged
        warnViolation := decide (∃ r, 1 / 10 ^ 6 < violation ic A b fin.st.coef r) }

end

end Glum
