import Mathlib.Algebra.Order.Field.Basic
import Mathlib.Algebra.BigOperators.Ring.Finset
import Mathlib.Algebra.Order.BigOperators.Group.Finset
/-
Specification vocabulary for the bound-constrained, L1-penalised quadratic problem.  Independent of the
model of the solver: nothing here mentions how the solver computes anything.
-/
namespace Glum.Spec

variable {K : Type*} [Field K] [LinearOrder K]

/-- The L1 weight of coefficient `i` when the user passes `P1` for the features only: the intercept
(coefficient 0 when there is one) is not penalised. -/
def l1Weight {p : ℕ} (intercept : Bool) (P1 : ℕ → K) (i : Fin p) : K :=
  match intercept, i.val with
  | true, 0 => 0
  | true, k + 1 => P1 k
  | false, k => P1 k

/-- `v` respects the feature-wise bounds (the intercept is unbounded). -/
def InBounds {p : ℕ} (intercept : Bool) (lb ub : Option (ℕ → K)) (v : Fin p → K) : Prop :=
  ∀ (i : Fin p) (k : ℕ), i.val = k + intercept.toNat →
    (∀ l, lb = some l → l k ≤ v i) ∧ (∀ u, ub = some u → v i ≤ u k)

/-- The bounds are non-empty intervals. -/
def BoundsOrdered (lb ub : Option (ℕ → K)) : Prop :=
  ∀ l u, lb = some l → ub = some u → ∀ k, l k ≤ u k

/-- The L1 penalty. -/
def l1 {p : ℕ} (intercept : Bool) (P1 : ℕ → K) (v : Fin p → K) : K :=
  ∑ i, l1Weight intercept P1 i * |v i|

/-- Smooth part of the local model around `w0`: `g0·δ + ½ δᵀQδ` with `δ = v - w0`, on the active set. -/
def quad {p a : ℕ} (active : Fin a → Fin p) (Q : Fin a → Fin a → K) (g0 w0 v : Fin p → K) : K :=
  ∑ s, g0 (active s) * (v (active s) - w0 (active s))
    + 1 / 2 * ∑ s, ∑ t, Q s t * (v (active s) - w0 (active s)) * (v (active t) - w0 (active t))

/-- The penalised quadratic model that the inner solver is documented to minimise. -/
def modelObj {p a : ℕ} (active : Fin a → Fin p) (Q : Fin a → Fin a → K) (intercept : Bool)
    (P1 : ℕ → K) (g0 w0 v : Fin p → K) : K :=
  quad active Q g0 w0 v + l1 intercept P1 v

/-- Gradient of `quad` in the active coordinate `s` at `v` (for symmetric `Q`). -/
def quadGrad {p a : ℕ} (active : Fin a → Fin p) (Q : Fin a → Fin a → K) (g0 w0 v : Fin p → K)
    (s : Fin a) : K :=
  g0 (active s) + ∑ t, Q s t * (v (active t) - w0 (active t))

/-- First-order optimality (KKT) of `w` for "smooth part with gradient `g`, plus L1, subject to bounds",
coordinate by coordinate: no feasible move of any single coordinate in `S` decreases the
linearised objective. -/
def KKT {p : ℕ} (S : Fin p → Prop) (intercept : Bool) (P1 : ℕ → K) (lb ub : Option (ℕ → K))
    (g w : Fin p → K) : Prop :=
  ∀ i, S i → ∀ z, InBounds intercept lb ub (fun j => if j = i then z else w j) →
    0 ≤ g i * (z - w i) + l1Weight intercept P1 i * (|z| - |w i|)

end Glum.Spec
