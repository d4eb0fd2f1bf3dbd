import Verif.Model.Weights
import Mathlib.Data.List.FinRange
import Mathlib.Logic.Function.Basic
/-
The IRLS loop with NaN, infinities and the exceptions they cause (`_solvers.py` 240-354, 591-642, 755-847; `_cd_fast.pyx` 109-287).

The other models compute with numbers.  Here the arithmetic is an arbitrary one with the IEEE rules for NaN (rounding, overflow and the sign of zero are
free), and what does not matter for NaN (which direction an inner solver returns, which trial step is accepted, when coordinate descent ends, which
features are active) is arbitrary.
-/
namespace Glum

/-- Floating point arithmetic as far as NaN is concerned: every operation on a NaN gives a NaN, every comparison with a NaN is false, and a sum of two
finite numbers is not a NaN (it may overflow). -/
structure Ieee (F : Type) where
  zero : F
  one : F
  half : F
  add : F → F → F
  sub : F → F → F
  mul : F → F → F
  div : F → F → F
  neg : F → F
  abs : F → F
  lt : F → F → Bool
  le : F → F → Bool
  eq : F → F → Bool
  isNaN : F → Prop
  isFinite : F → Prop
  finite_not_nan : ∀ x, isFinite x → ¬ isNaN x
  zero_finite : isFinite zero
  eq_zero : eq zero zero = true
  add_zero_zero : add zero zero = zero
  neg_one_finite : isFinite (neg one)
  abs_mul_zero : ∀ x, isFinite x → abs (mul x zero) = zero
  mul_zero_finite : ∀ x, isFinite x → isFinite (mul x zero)
  mul_finite_right : ∀ x y, isFinite (mul x y) → isFinite y
  add_left : ∀ x y, isNaN x → isNaN (add x y)
  add_right : ∀ x y, isNaN y → isNaN (add x y)
  add_finite : ∀ x y, ¬ isNaN x → isFinite y → ¬ isNaN (add x y)
  sub_left : ∀ x y, isNaN x → isNaN (sub x y)
  sub_right : ∀ x y, isNaN y → isNaN (sub x y)
  mul_left : ∀ x y, isNaN x → isNaN (mul x y)
  mul_right : ∀ x y, isNaN y → isNaN (mul x y)
  div_left : ∀ x y, isNaN x → isNaN (div x y)
  div_right : ∀ x y, isNaN y → isNaN (div x y)
  neg_nan : ∀ x, isNaN x → isNaN (neg x)
  abs_nan : ∀ x, isNaN x → isNaN (abs x)
  lt_num : ∀ x y, lt x y = true → ¬ isNaN x ∧ ¬ isNaN y
  le_num : ∀ x y, le x y = true → ¬ isNaN x ∧ ¬ isNaN y
  eq_num : ∀ x y, eq x y = true → ¬ isNaN x ∧ ¬ isNaN y

section Generic

variable {F : Type} (A : Ieee F) {n m p : ℕ}

/-- A sum (in some order; for NaN the order does not matter). -/
def Ieee.sum (l : List F) : F := l.foldl A.add A.zero

/-- `fmax` (`_cd_fast.pyx` 59-62). -/
def fmaxI (x y : F) : F := if A.lt y x then x else y

/-- `fsign` (`_cd_fast.pyx` 65-71): of a NaN it is -1. -/
def fsignI (f : F) : F := if A.eq f A.zero then A.zero else if A.lt A.zero f then A.one else A.neg A.one

/-- One term of the minimum-norm subgradient (`_cd_fast.pyx` 276-283). -/
def subgradTermI (c g P1 : F) (lb ub : Option F) : F :=
  let t0 := if A.eq c A.zero then A.mul (fsignI A g) (fmaxI A (A.sub (A.abs g) P1) A.zero) else A.add g (A.mul (fsignI A c) P1)
  let t1 := match lb with
    | some l => if A.eq c l && A.lt A.zero t0 then A.zero else t0
    | none => t0
  match ub with
    | some u => if A.eq c u && A.lt t1 A.zero then A.zero else t1
    | none => t1

/-- `cython_norm_min_subgrad` (`_cd_fast.pyx` 218-287), the norm only. -/
def normMinSubgradI (coef grad : Fin m → F) (P1 : ℕ → F) (ic : Bool) (lb ub : Option (ℕ → F)) : F :=
  (List.finRange m).foldl (fun acc i =>
    if i.val < ic.toNat then A.abs (grad i)
    else A.add acc (A.abs (subgradTermI A (coef i) (grad i) (P1 (i.val - ic.toNat)) (lb.map (· (i.val - ic.toNat))) (ub.map (· (i.val - ic.toNat))))))
    A.zero

/-- The data of a coordinate-descent call (`_cd_fast.pyx` 109-120). -/
structure CDDataI (F : Type) (m a : ℕ) where
  active : Fin a → Fin m
  P1 : ℕ → F
  Q : Fin a → Fin a → F
  intercept : Bool
  lb : Option (ℕ → F)
  ub : Option (ℕ → F)
  eps : F

variable {A}

/-- The bound clamps (`_cd_fast.pyx` 173-179). -/
def CDDataI.clamp {a : ℕ} (A : Ieee F) (D : CDDataI F m a) (i : Fin m) (v : F) : F :=
  if i.val < D.intercept.toNat then v
  else
    let v1 := match D.lb with
      | some l => if A.lt v (l (i.val - D.intercept.toNat)) then l (i.val - D.intercept.toNat) else v
      | none => v
    match D.ub with
      | some u => if A.lt (u (i.val - D.intercept.toNat)) v1 then u (i.val - D.intercept.toNat) else v1
      | none => v1

/-- One pass of the loop body (`_cd_fast.pyx` 158-185); the maxima of 187-193 only decide when the loop ends. -/
def CDDataI.visit {a : ℕ} (A : Ieee F) (D : CDDataI F m a) (s : Fin a) (st : (Fin m → F) × (Fin m → F)) : (Fin m → F) × (Fin m → F) :=
  let ii := D.active s
  if A.le (D.Q s s) D.eps then st
  else
    let wOld := st.1 ii
    let P1 := if ii.val < D.intercept.toNat then A.zero else D.P1 (ii.val - D.intercept.toNat)
    let t := A.sub (st.2 ii) (A.mul (st.1 ii) (D.Q s s))
    let v := D.clamp A ii (A.div (A.mul (fsignI A (A.neg t)) (fmaxI A (A.sub (A.abs t) P1) A.zero)) (D.Q s s))
    let q' := if (!A.eq v A.zero) || (!A.eq wOld A.zero) then
        (List.finRange a).foldl (fun q j => Function.update q (D.active j) (A.add (q (D.active j)) (A.mul (A.sub v wOld) (D.Q s j)))) st.2
      else st.2
    (Function.update st.1 ii v, q')

/-- The coordinate-descent routine (`_cd_fast.pyx` 148-215): the positions in the order they are visited, over all cycles; which they are (cyclic or
random, and how many cycles) is arbitrary. -/
def CDDataI.run {a : ℕ} (A : Ieee F) (D : CDDataI F m a) (visits : List (Fin a)) (w q : Fin m → F) : Fin m → F :=
  (visits.foldl (fun st s => D.visit A s st) (w, q)).1

/-- What the IRLS loop reads: `m = p + intercept` coefficients; `gradRow i eta` and `hessRow i eta` are row `i` of the gradient and the Hessian at linear
predictor `eta` (they contain response, weight, family and link); `coefP2` is `_make_coef_P2`; `factor k` is the step length after `k` halvings. -/
structure IrlsI (F : Type) (n m : ℕ) where
  X : Fin n → ℕ → F
  offset : Option (Fin n → F)
  gradRow : Fin n → F → F
  hessRow : Fin n → F → F
  coefP2 : (Fin m → F) → Fin m → F
  P1 : ℕ → F
  ic : Bool
  lb : Option (ℕ → F)
  ub : Option (ℕ → F)
  gradTol : F
  stepTol : Option F
  stepNorm : (Fin m → F) → F
  factor : ℕ → F
  maxIter : ℕ

structure StateI (F : Type) (n m : ℕ) where
  coef : Fin m → F
  eta : Fin n → F
  score : Fin m → F
  converged : Bool
  nIter : ℕ

/-- `_safe_lin_pred(X, coef)` for dense `X` (`_linalg.py` 51-65), without offset. -/
def linPredI (A : Ieee F) (ic : Bool) (X : Fin n → ℕ → F) (coef : Fin m → F) (i : Fin n) : F :=
  A.sum ((List.finRange m).map fun k => if k.val < ic.toNat then coef k else A.mul (X i (k.val - ic.toNat)) (coef k))

/-- `update_quadratic` for dense `X` (`_solvers.py` 687-708): the score. -/
def IrlsI.scoreAt (A : Ieee F) (D : IrlsI F n m) (coef : Fin m → F) (eta : Fin n → F) (k : Fin m) : F :=
  A.sub (A.sum ((List.finRange n).map fun i =>
    if k.val < D.ic.toNat then D.gradRow i (eta i) else A.mul (D.gradRow i (eta i)) (D.X i (k.val - D.ic.toNat)))) (D.coefP2 coef k)

/-- `check_convergence` (`_solvers.py` 591-642): whether it counts as converged. -/
def IrlsI.conv (A : Ieee F) (D : IrlsI F n m) (coef step score : Fin m → F) : Bool :=
  A.lt (normMinSubgradI A coef (fun k => A.neg (score k)) D.P1 D.ic D.lb D.ub) D.gradTol ||
    (match D.stepTol with
      | some t => A.lt (D.stepNorm step) t
      | none => false)

/-- `linalg.norm(P1 * coef[intercept_offset:], ord=1)` does not raise: `scipy.linalg.norm` refuses NaN and infinities (`check_finite=True`). -/
def IrlsI.normOk (A : Ieee F) (D : IrlsI F n m) (coef : Fin m → F) : Prop :=
  ∀ k : Fin m, D.ic.toNat ≤ k.val → A.isFinite (A.mul (D.P1 (k.val - D.ic.toNat)) (coef k))

open Classical in
/-- The state before the loop (`_solvers.py` 289-304, 523-529); `none`: an exception.  `linalg.norm(state.step)` (617) is evaluated on the initial step. -/
noncomputable def irlsInitI (A : Ieee F) (D : IrlsI F n m) (coef : Fin m → F) : Option (StateI F n m) :=
  let step : Fin m → F := fun _ => D.stepTol.getD A.zero
  let eta := fun i => A.add A.zero (A.mul A.one (match D.offset with
    | some o => A.add (linPredI A D.ic D.X coef i) (o i)
    | none => linPredI A D.ic D.X coef i))
  let score := D.scoreAt A coef eta
  if D.normOk A coef ∧ ∀ k, A.isFinite (step k) then
    some { coef := coef, eta := eta, score := score, converged := D.conv A coef step score, nIter := 0 }
  else none

open Classical in
/-- One pass of the loop (`_solvers.py` 307-345) with `line_search` (755-847): `dir` is the direction of the inner solver (`none`: it raised), `trial` the
number of halvings after which the line search ended. -/
noncomputable def irlsStepI (A : Ieee F) (D : IrlsI F n m) (dir : StateI F n m → Option (Fin m → F)) (trial : StateI F n m → ℕ) (st : StateI F n m) :
    Option (StateI F n m) :=
  (dir st).bind fun d =>
    let k := trial st
    let step : Fin m → F := fun j => A.mul (D.factor k) (d j)
    let coef : Fin m → F := fun j => A.add (st.coef j) (step j)
    let eta := fun i => A.add (st.eta i) (A.mul (D.factor k) (linPredI A D.ic D.X d i))
    let score := D.scoreAt A coef eta
    if D.normOk A st.coef ∧ D.normOk A (fun j => A.add (st.coef j) (d j)) ∧
        (∀ i ≤ k, D.normOk A fun j => A.add (st.coef j) (A.mul (D.factor i) (d j))) ∧ ∀ j, A.isFinite (step j) then
      some { coef := coef, eta := eta, score := score, converged := D.conv A coef step score, nIter := st.nIter + 1 }
    else none

/-- The test whether a trial step is accepted (`_solvers.py` 804-829): `mu` is the largest prediction, `obj`, `old` the new and the old objective, `sumNew`,
`sumOld` the sums of absolute gradients. -/
def lsAcceptI (A : Ieee F) (mu large obj old fb tiny sumNew sumOld : F) : Bool :=
  (A.lt mu large && A.le (A.sub obj old) fb) || (A.le (A.abs (A.sub obj old)) tiny && A.lt sumNew sumOld)

/-- The loop (`_solvers.py` 307). -/
noncomputable def irlsLoopI (A : Ieee F) (D : IrlsI F n m) (dir : StateI F n m → Option (Fin m → F)) (trial : StateI F n m → ℕ) :
    ℕ → StateI F n m → Option (StateI F n m)
  | 0, st => some st
  | fuel + 1, st =>
    if st.nIter < D.maxIter ∧ st.converged = false then (irlsStepI A D dir trial st).bind (irlsLoopI A D dir trial fuel) else some st

/-- `_irls_solver` (`_solvers.py` 240-354); `none`: an exception.  The convergence warning is raised iff `converged = false` at the end. -/
noncomputable def irlsRunI (A : Ieee F) (D : IrlsI F n m) (dir : StateI F n m → Option (Fin m → F)) (trial : StateI F n m → ℕ) (coef : Fin m → F) :
    Option (StateI F n m) :=
  (irlsInitI A D coef).bind (irlsLoopI A D dir trial D.maxIter)

/-- `_cd_solver` (`_solvers.py` 58-77) with the active features `active` and Hessian block `Q`. -/
def cdDirI {a : ℕ} (A : Ieee F) (D : IrlsI F n m) (active : Fin a → Fin m) (Q : Fin a → Fin a → F) (eps : F) (visits : List (Fin a)) (st : StateI F n m) :
    Fin m → F :=
  let cd : CDDataI F m a := { active := active, P1 := D.P1, Q := Q, intercept := D.ic, lb := D.lb, ub := D.ub, eps := eps }
  fun k => A.sub (cd.run A visits st.coef (fun k => A.neg (st.score k)) k) (st.coef k)

end Generic

/-! ### Numbers, NaN and infinities -/

noncomputable section

/-- Multiplication of `FV`. -/
def FV.mul : FV → FV → FV
  | .num x, .num y => .num (x * y)
  | .nan, _ => .nan
  | _, .nan => .nan
  | .num x, .pinf => open Classical in if x = 0 then .nan else if 0 < x then .pinf else .ninf
  | .num x, .ninf => open Classical in if x = 0 then .nan else if 0 < x then .ninf else .pinf
  | .pinf, .num x => open Classical in if x = 0 then .nan else if 0 < x then .pinf else .ninf
  | .ninf, .num x => open Classical in if x = 0 then .nan else if 0 < x then .ninf else .pinf
  | .pinf, .pinf => .pinf
  | .ninf, .ninf => .pinf
  | .pinf, .ninf => .ninf
  | .ninf, .pinf => .ninf

def FV.neg : FV → FV
  | .num x => .num (-x)
  | .nan => .nan
  | .pinf => .ninf
  | .ninf => .pinf

def FV.abs : FV → FV
  | .num x => .num |x|
  | .nan => .nan
  | _ => .pinf

/-- The reciprocal (of zero: an infinity; signed zeros are not distinguished). -/
def FV.inv : FV → FV
  | .num x => open Classical in if x = 0 then .pinf else .num x⁻¹
  | .nan => .nan
  | _ => .num 0

def FV.lt : FV → FV → Prop
  | .num x, .num y => x < y
  | .nan, _ => False
  | _, .nan => False
  | .ninf, .ninf => False
  | .ninf, _ => True
  | .pinf, _ => False
  | _, .pinf => True
  | _, _ => False

def FV.isNaN : FV → Prop
  | .nan => True
  | _ => False

open Classical in
/-- Real numbers with NaN and the infinities. -/
def fvIeee : Ieee FV where
  zero := .num 0
  one := .num 1
  half := .num (1 / 2)
  add := FV.add
  sub := fun x y => FV.add x y.neg
  mul := FV.mul
  div := fun x y => FV.mul x y.inv
  neg := FV.neg
  abs := FV.abs
  lt := fun x y => decide (FV.lt x y)
  le := fun x y => decide (FV.lt x y ∨ x = y ∧ ¬ x.isNaN)
  eq := fun x y => decide (x = y ∧ ¬ x.isNaN)
  isNaN := FV.isNaN
  isFinite := FV.isFinite
  finite_not_nan := fun x h hn => by cases x <;> simp_all [FV.isFinite, FV.isNaN]
  zero_finite := trivial
  eq_zero := by simp [FV.isNaN]
  add_zero_zero := by simp [FV.add]
  neg_one_finite := trivial
  abs_mul_zero := fun x h => by cases x <;> simp_all [FV.isFinite, FV.mul, FV.abs]
  mul_zero_finite := fun x h => by cases x <;> simp_all [FV.isFinite, FV.mul]
  mul_finite_right := fun x y h => by
    cases y with
    | num y => trivial
    | nan => cases x <;> simp [FV.isFinite, FV.mul] at h
    | pinf =>
      cases x with
      | num x =>
        simp only [FV.mul] at h
        by_cases h1 : x = 0
        · rw [if_pos h1] at h; exact h
        · rw [if_neg h1] at h
          by_cases h2 : 0 < x
          · rw [if_pos h2] at h; exact h
          · rw [if_neg h2] at h; exact h
      | nan => exact h
      | pinf => exact h
      | ninf => exact h
    | ninf =>
      cases x with
      | num x =>
        simp only [FV.mul] at h
        by_cases h1 : x = 0
        · rw [if_pos h1] at h; exact h
        · rw [if_neg h1] at h
          by_cases h2 : 0 < x
          · rw [if_pos h2] at h; exact h
          · rw [if_neg h2] at h; exact h
      | nan => exact h
      | pinf => exact h
      | ninf => exact h
  add_left := fun x y h => by cases x <;> cases y <;> simp_all [FV.isNaN, FV.add]
  add_right := fun x y h => by cases x <;> cases y <;> simp_all [FV.isNaN, FV.add]
  add_finite := fun x y h h' => by cases x <;> cases y <;> simp_all [FV.isNaN, FV.add, FV.isFinite]
  sub_left := fun x y h => by cases x <;> cases y <;> simp_all [FV.isNaN, FV.add, FV.neg]
  sub_right := fun x y h => by cases x <;> cases y <;> simp_all [FV.isNaN, FV.add, FV.neg]
  mul_left := fun x y h => by cases x <;> cases y <;> simp_all [FV.isNaN, FV.mul]
  mul_right := fun x y h => by cases x <;> cases y <;> simp_all [FV.isNaN, FV.mul]
  div_left := fun x y h => by cases x <;> cases hy : y.inv <;> simp_all [FV.isNaN, FV.mul]
  div_right := fun x y h => by cases x <;> cases y <;> simp_all [FV.isNaN, FV.mul, FV.inv]
  neg_nan := fun x h => by cases x <;> simp_all [FV.isNaN, FV.neg]
  abs_nan := fun x h => by cases x <;> simp_all [FV.isNaN, FV.abs]
  lt_num := fun x y h => by replace h := of_decide_eq_true h; cases x <;> cases y <;> simp_all [FV.isNaN, FV.lt]
  le_num := fun x y h => by replace h := of_decide_eq_true h; cases x <;> cases y <;> simp_all [FV.isNaN, FV.lt]
  eq_num := fun x y h => by replace h := of_decide_eq_true h; cases x <;> cases y <;> simp_all [FV.isNaN]

end

end Glum
