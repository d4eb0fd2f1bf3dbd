import Verif.Model.Linalg
/-
Model of the Hessian maintenance: `identify_active_rows` (`_cd_fast.pyx`), `update_hessian`, `_is_subset`
(`_solvers.py`).
-/
namespace Glum

variable {K : Type*} [Field K] [LinearOrder K]

/-- The running maximum of `|hessian_rows - old_hessian_rows|` (`_cd_fast.pyx` 86-93). -/
def maxDiff {n : ℕ} (h old : Fin n → K) : K :=
  (List.finRange n).foldl (fun m i => if m < |h i - old i| then |h i - old i| else m) 0

/-- `identify_active_rows(gradient_rows, hessian_rows, old_hessian_rows, C)` (`_cd_fast.pyx` 74-106).
Returns the difference array, the (in-place modified) `hessian_rows`, and the active rows. -/
def identifyActiveRows {n : ℕ} (h old : Fin n → K) (C : K) : (Fin n → K) × (Fin n → K) × Finset (Fin n) :=
  let md := maxDiff h old
  let diff := fun i => if |h i - old i| < C * md then 0 else h i - old i
  let h' := fun i => if |h i - old i| < C * md then old i else h i
  (diff, h', Finset.univ.filter (fun i => diff i ≠ 0))

/-- `_is_subset(x, y)` (`_solvers.py` 188-191): the intersection has as many (unique) elements as `y`. -/
def isSubset {m : ℕ} (x y : List (Fin m)) : Bool :=
  (x.toFinset ∩ y.toFinset).card == y.length

/-- The fields of `IRLSState` that `update_hessian` reads and writes (`_solvers.py` 525-549). -/
structure HessState (K : Type*) (n m : ℕ) where
  /-- `hessian_rows` -/
  rows : Fin n → K
  /-- `old_hessian_rows` -/
  oldRows : Fin n → K
  /-- `hessian` -/
  H : Fin m → Fin m → K
  /-- `hessian_initialized` -/
  init : Bool
  /-- `active_set` as of the end of the last iteration (`old_active_set` during this one) -/
  active : List (Fin m)

/-- Assignment `hessian[np.ix_(A, A)] = f(old value, block value)` (`_solvers.py` 155, 179). -/
def setBlock {m : ℕ} (A : List (Fin m)) (H : Fin m → Fin m → K) (blk : ℕ → ℕ → K) (f : K → K → K)
    (i j : Fin m) : K :=
  if i ∈ A ∧ j ∈ A then f (H i j) (blk (A.idxOf i) (A.idxOf j)) else H i j

/-- `update_hessian(state, data, active_set)` (`_solvers.py` 81-185), with `old_active_set = st.active`.
The returned block `hessian[np.ix_(A, A)]` is `fun s t => H A[s] A[t]` of the new state. -/
def updateHessian {n p : ℕ} (ic : Bool) (X : Fin n → ℕ → K) (P2 : Pen2 K) (C : K)
    (st : HessState K n (p + ic.toNat)) (A : List (Fin (p + ic.toNat))) : HessState K n (p + ic.toNat) :=
  if ¬ st.init ∨ ¬ isSubset st.active A then
    { st with
      H := setBlock A st.H (buildHessianDelta ic X st.rows (some P2) Finset.univ A) (fun _ b => b)
      init := true
      active := A }
  else
    let r := identifyActiveRows st.rows st.oldRows C
    { st with
      rows := r.2.1
      H := setBlock A st.H (buildHessianDelta ic X r.1 none r.2.2 A) (fun h b => h + b)
      active := A }

/-- One outer iteration as far as the Hessian is concerned (`_solvers.py` 301-344): `update_hessian`, then
`old_hessian_rows[:] = hessian_rows` (321), and at the end `update_quadratic` writes new `hessian_rows` (333). -/
def hessIter {n p : ℕ} (ic : Bool) (X : Fin n → ℕ → K) (P2 : Pen2 K) (C : K)
    (st : HessState K n (p + ic.toNat)) (A : List (Fin (p + ic.toNat))) (newRows : Fin n → K) :
    HessState K n (p + ic.toNat) :=
  let s1 := updateHessian ic X P2 C st A
  { s1 with oldRows := s1.rows, rows := newRows }

/-- The initial state (`_solvers.py` 532-549, 289-296): zero matrix, not initialised, all coefficients active. -/
def hessInit {n p : ℕ} (ic : Bool) (rows : Fin n → K) : HessState K n (p + ic.toNat) where
  rows := rows
  oldRows := fun _ => 0
  H := fun _ _ => 0
  init := false
  active := List.finRange _

end Glum

namespace Glum
variable {K : Type*} [Field K] [LinearOrder K]

/-- What can happen to the Hessian between two points of a fit: an outer iteration with active set `A` after which
`update_quadratic` delivers `newRows` (`_irls_solver`, `_monotonic_irls_solver`), or the monotone solver replacing
`data.P2` and marking the Hessian as uninitialised (`_solvers.py` 1066-1071). -/
inductive HOp (K : Type*) (n m : ℕ) where
  | iter (A : List (Fin m)) (newRows : Fin n → K)
  | setP2 (P2 : Pen2 K)

/-- One operation of a history, on the pair (state, current P2). -/
def hessStep {n p : ℕ} (ic : Bool) (X : Fin n → ℕ → K) (C : K)
    (sp : HessState K n (p + ic.toNat) × Pen2 K) (op : HOp K n (p + ic.toNat)) :
    HessState K n (p + ic.toNat) × Pen2 K :=
  match op with
  | .iter A newRows => (hessIter ic X sp.2 C sp.1 A newRows, sp.2)
  | .setP2 P2 => ({ sp.1 with init := false }, P2)

/-- A whole history. -/
def hessRun {n p : ℕ} (ic : Bool) (X : Fin n → ℕ → K) (C : K) (P2 : Pen2 K) (rows0 : Fin n → K)
    (ops : List (HOp K n (p + ic.toNat))) : HessState K n (p + ic.toNat) × Pen2 K :=
  ops.foldl (hessStep ic X C) (hessInit ic rows0, P2)

end Glum
