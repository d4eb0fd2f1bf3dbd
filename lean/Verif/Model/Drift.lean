import Verif.Model.Float
/-
The quantities the IRLS loop carries from pass to pass, in *rounded* arithmetic with an error bound: the coefficients, the linear predictor (which the loop
updates by adding, never recomputing it: `_solvers.py` 841-846), the score and the norm compared with the tolerance.  The direction, the accepted trial and the
matrix product are inputs of each pass.  Overflow, NaN and signed zeros are not modelled here.
-/
namespace Glum

noncomputable section

/-- A rounding whose error is at most `u` relative plus `tiny` absolute (underflow).  For binary64 round-to-nearest: `u = 2^-53`, `tiny = 2^-1075`. -/
structure FlArith extends Rounding where
  u : ℝ
  tiny : ℝ
  u_nonneg : 0 ≤ u
  u_lt : u < 1
  tiny_nonneg : 0 ≤ tiny
  err : ∀ x, |rd x - x| ≤ u * |x| + tiny

/-- Exact arithmetic. -/
def FlArith.exact : FlArith := { Rounding.exact with u := 0, tiny := 0, u_nonneg := le_rfl, u_lt := one_pos, tiny_nonneg := le_rfl, err := fun x => by simp [Rounding.exact] }

variable (F : FlArith)

/-- An order of additions: how a dot product (`tabmat` `matvec` / `transpose_matvec`, `numpy` sums; blocked, pairwise, threaded) brackets its terms. -/
inductive SumTree (ι : Type) where
  | empty
  | leaf (i : ι)
  | node (l r : SumTree ι)

/-- The terms added. -/
def SumTree.leaves {ι : Type} : SumTree ι → List ι
  | .empty => []
  | .leaf i => [i]
  | .node l r => l.leaves ++ r.leaves

/-- The longest chain of additions. -/
def SumTree.depth {ι : Type} : SumTree ι → ℕ
  | .empty => 0
  | .leaf _ => 0
  | .node l r => max l.depth r.depth + 1

/-- The number of operations. -/
def SumTree.ops {ι : Type} : SumTree ι → ℕ
  | .empty => 0
  | .leaf _ => 1
  | .node l r => l.ops + r.ops + 1

/-- The computed sum of the products `t i`: every product and every addition is rounded (`_linalg.py` 51-65, `X.matvec(v)`; `_solvers.py` 704, `gradient_rows @ X`). -/
def SumTree.flSum {ι : Type} (t : ι → ℝ) : SumTree ι → ℝ
  | .empty => 0
  | .leaf i => F.rd (t i)
  | .node l r => F.rd (SumTree.flSum t l + SumTree.flSum t r)

/-- What one pass of the loop gets from the rest of the code: the direction (`_solvers.py` 77), its computed product with the design matrix (795) and the accepted trial. -/
structure DriftIter (n m : ℕ) where
  d : Fin m → ℝ
  Xd : Fin n → ℝ
  trial : ℕ

/-- Coefficients and linear predictor, the two things carried along. -/
structure DriftState (n m : ℕ) where
  coef : Fin m → ℝ
  eta : Fin n → ℝ

/-- One pass (`_solvers.py` 797-803, 836, 847; the linear predictor is `cur_eta + factor * X_dot_step`, `_functions.pyx` 41 and the like). -/
def driftStep {n m : ℕ} (s : DriftState n m) (it : DriftIter n m) : DriftState n m where
  coef := fun j => F.rd (s.coef j + F.rd (factorFl F.toRounding it.trial * it.d j))
  eta := fun i => F.rd (s.eta i + F.rd (factorFl F.toRounding it.trial * it.Xd i))

/-- The linear predictor at the start (`_solvers.py` 645-660 with `X_dot_step=None`): `0 + 1 * (X coef + offset)`, `lin` being the computed `X coef` (`_linalg.py` 51-65). -/
def driftInit {n m : ℕ} (coef : Fin m → ℝ) (lin off : Fin n → ℝ) : DriftState n m where
  coef := coef
  eta := fun i => F.rd (0 + F.rd (1 * F.rd (lin i + off i)))

/-- Any number of passes (`_solvers.py` 307-345). -/
def driftRun {n m : ℕ} (its : List (DriftIter n m)) (s : DriftState n m) : DriftState n m := its.foldl (driftStep F) s

/-- The score (`_solvers.py` 704-707): `dot` is the computed `gradient_rows @ X`, `cP2` the computed penalty term. -/
def scoreFl {m : ℕ} (dot cP2 : Fin m → ℝ) (k : Fin m) : ℝ := F.rd (dot k - cP2 k)

/-- `subgradTerm` with rounded operations (`_cd_fast.pyx` 276-283); `fsign`, `fmax`, `fabs` and the products with a sign are exact. -/
def subgradTermFl (c g P1 : ℝ) (lb ub : Option ℝ) : ℝ :=
  let t0 := if c = 0 then fsign g * fmax (F.rd (|g| - P1)) 0 else F.rd (g + fsign c * P1)
  let t1 := match lb with
    | some l => if c = l ∧ 0 < t0 then 0 else t0
    | none => t0
  match ub with
    | some u => if c = u ∧ t1 < 0 then 0 else t1
    | none => t1

/-- The norm of `cython_norm_min_subgrad` (`_cd_fast.pyx` 218-287) with rounded operations. -/
def normFl {m : ℕ} (coef grad : Fin m → ℝ) (P1 : ℕ → ℝ) (intercept : Bool) (lb ub : Option (ℕ → ℝ)) : ℝ :=
  (List.finRange m).foldl (fun acc i =>
    if i.val < intercept.toNat then |grad i|
    else
      let k := i.val - intercept.toNat
      F.rd (acc + |subgradTermFl F (coef i) (grad i) (P1 k) (lb.map (· k)) (ub.map (· k))|)) 0

end

end Glum
