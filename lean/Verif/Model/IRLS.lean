import Mathlib.Analysis.Real.Sqrt
import Verif.Model.CD
import Verif.Model.Hessian
/-
Model of the IRLS outer loop, `src/glum/_solvers.py`, over exact reals.
-/
namespace Glum

noncomputable section

/-- What the solvers use of a family/link pair, one row at a time.
`dev y eta` is the per-unit-weight term accumulated by `family.eta_mu_deviance` (`_distribution.py` 300-356, kernels in
`_functions.pyx`), `grad`/`hess` are `family.rowwise_gradient_hessian` (`_distribution.py` 358-408) and `gradVar` is the
gradient recomputed inside the line search (`_solvers.py` 817-822).  The concrete instances are in `Model/Distribution.lean`. -/
structure RowFamily where
  inv : ℝ → ℝ
  dev : ℝ → ℝ → ℝ
  grad : (y w eta mu : ℝ) → ℝ
  hess : (y w eta mu : ℝ) → ℝ
  gradVar : (y w eta mu : ℝ) → ℝ

/-- `IRLSData` (`_solvers.py` 441-487).  `eps` is `np.finfo(dtype).eps`, `large` is `large_number` (557). -/
structure IRLSData (n p : ℕ) (ic : Bool) where
  X : Fin n → ℕ → ℝ
  y : Fin n → ℝ
  sw : Fin n → ℝ
  P1 : ℕ → ℝ
  P2 : Pen2 ℝ
  fam : RowFamily
  maxIter : ℕ
  maxInnerIter : ℕ
  gradTol : ℝ
  stepTol : Option ℝ
  hessApprox : ℝ
  fixedInnerTol : Option ℝ
  random : Bool
  offset : Option (Fin n → ℝ)
  lb : Option (ℕ → ℝ)
  ub : Option (ℕ → ℝ)
  eps : ℝ
  large : ℝ

/-- One record of `state.diagnostics` (`_solvers.py` 559-588): iteration number, gradient norm, objective.  `warned` is
added: whether the line search of that iteration raised its warning (837-842). -/
structure Diag where
  nIter : ℕ
  norm : ℝ
  obj : ℝ
  warned : Bool

/-- `IRLSState` (`_solvers.py` 498-557).  `nIter` is the code's counter after the first `_record_iteration` (the code starts at
-1).  `diagnostics` is kept newest first. -/
structure IRLSState (n p : ℕ) (ic : Bool) where
  coef : Fin (p + ic.toNat) → ℝ
  step : Fin (p + ic.toNat) → ℝ
  eta : Fin n → ℝ
  mu : Fin n → ℝ
  obj : ℝ
  score : Fin (p + ic.toNat) → ℝ
  hs : HessState ℝ n (p + ic.toNat)
  norm : ℝ
  maxSub : WithTop ℝ
  innerTol : ℝ
  converged : Bool
  nIter : ℕ
  nCycles : ℕ
  diagnostics : List Diag

variable {n p : ℕ} {ic : Bool}

/-- `linalg.norm(P1 * coef[intercept_offset:], ord=1)` (`_solvers.py` 680, 782-783). -/
def l1Norm (P1 : ℕ → ℝ) (coef : Fin (p + ic.toNat) → ℝ) : ℝ :=
  ∑ j ∈ Finset.range p, |P1 j * feat ic coef j|

/-- `eta_mu_objective` (`_solvers.py` 663-684): returns `eta`, `mu`, `obj_val`, `coef_P2`. -/
def etaMuObjective (D : IRLSData n p ic) (cur Xd : Fin n → ℝ) (factor : ℝ)
    (coef : Fin (p + ic.toNat) → ℝ) :
    (Fin n → ℝ) × (Fin n → ℝ) × ℝ × (Fin (p + ic.toNat) → ℝ) :=
  let eta := fun i => cur i + factor * Xd i
  let mu := fun i => D.fam.inv (eta i)
  let dev := ∑ i, D.sw i * D.fam.dev (D.y i) (eta i)
  let cP2 := makeCoefP2 ic D.P2 coef
  (eta, mu, 1 / 2 * dev + l1Norm D.P1 coef + 1 / 2 * ∑ k, cP2 k * coef k, cP2)

/-- The score vector (`update_quadratic`, `_solvers.py` 704-707; the same expression at 823-826): `gradient_rows @ X`, with the
sum of the rows in front when there is an intercept, minus `coef_P2`. -/
def scoreOf (D : IRLSData n p ic) (g : Fin n → ℝ) (cP2 : Fin (p + ic.toNat) → ℝ) (k : Fin (p + ic.toNat)) : ℝ :=
  (if k.val < ic.toNat then ∑ i, g i else ∑ i, g i * D.X i (k.val - ic.toNat)) - cP2 k

/-- `update_quadratic` (`_solvers.py` 687-708): score and hessian rows. -/
def updateQuadratic (D : IRLSData n p ic) (eta mu : Fin n → ℝ) (cP2 : Fin (p + ic.toNat) → ℝ) :
    (Fin (p + ic.toNat) → ℝ) × (Fin n → ℝ) :=
  (scoreOf D (fun i => D.fam.grad (D.y i) (D.sw i) (eta i) (mu i)) cP2,
   fun i => D.fam.hess (D.y i) (D.sw i) (eta i) (mu i))

/-- `linalg.norm(state.step)` (`_solvers.py` 617). -/
def l2Norm {m : ℕ} (v : Fin m → ℝ) : ℝ := Real.sqrt (∑ i, v i ^ 2)

/-- `check_convergence` (`_solvers.py` 591-642): converged, norm, max, inner tolerance. -/
def checkConvergence (D : IRLSData n p ic) (coef step score : Fin (p + ic.toNat) → ℝ) :
    Bool × ℝ × WithTop ℝ × ℝ :=
  let nm := normMinSubgrad (List.finRange (p + ic.toNat)) coef (fun i => -score i) D.P1 ic D.lb D.ub
  let gradConv := decide (nm.1 < D.gradTol)
  let stepConv := match D.stepTol with
    | some t => decide (l2Norm step < t)
    | none => false
  let inner := match D.fixedInnerTol with
    | some t => t
    | none => max (nm.1 * (1 / 1000)) D.gradTol
  (gradConv || stepConv, nm.1, nm.2, inner)

/-- `identify_active_set` (`_solvers.py` 726-752): intercept, non-zero coefficients, and those with
`|score| ≥ P1 - max_min_subgrad` (for `max_min_subgrad = inf` the threshold is `-inf`). -/
def identifyActiveSet (D : IRLSData n p ic) (st : IRLSState n p ic) : List (Fin (p + ic.toNat)) :=
  open Classical in
  (List.finRange (p + ic.toNat)).filter fun i =>
    decide (i.val < ic.toNat ∨ st.coef i ≠ 0 ∨
      ∀ x : ℝ, st.maxSub = (x : WithTop ℝ) → D.P1 (i.val - ic.toNat) - x ≤ |st.score i|)

/-- What `line_search` returns (`_solvers.py` 847), plus `_k` and whether the warning was raised. -/
structure LSResult (n p : ℕ) (ic : Bool) where
  coef : Fin (p + ic.toNat) → ℝ
  step : Fin (p + ic.toNat) → ℝ
  eta : Fin n → ℝ
  mu : Fin n → ℝ
  obj : ℝ
  cP2 : Fin (p + ic.toNat) → ℝ
  k : ℕ
  warned : Bool

/-- `bound = sigma * (-(score @ d) + P1wd_1 - P1w_1)` with `sigma = 1e-4` (`_solvers.py` 772-786). -/
def armijoBound (D : IRLSData n p ic) (st : IRLSState n p ic) (d : Fin (p + ic.toNat) → ℝ) : ℝ :=
  1 / 10000 * (-(∑ k, st.score k * d k) + l1Norm D.P1 (fun k => st.coef k + d k) - l1Norm D.P1 st.coef)

/-- The two ways a trial step is accepted (`_solvers.py` 805-829). -/
def lsAccept (D : IRLSData n p ic) (st : IRLSState n p ic) (bound factor : ℝ) (eta mu : Fin n → ℝ) (obj : ℝ)
    (cP2 : Fin (p + ic.toNat) → ℝ) : Prop :=
  ((∀ i, mu i < D.large) ∧ obj - st.obj ≤ factor * bound) ∨
  (|obj - st.obj| ≤ |st.obj * (16 * D.eps)| ∧
    ∑ k, |scoreOf D (fun i => D.fam.gradVar (D.y i) (D.sw i) (eta i) (mu i)) cP2 k| < ∑ k, |st.score k|)

/-- The loop `for _k in range(20)` with `break`/`else` (`_solvers.py` 798-836); `rem` further trials are left after this one. -/
def lineLoop (D : IRLSData n p ic) (st : IRLSState n p ic) (d : Fin (p + ic.toNat) → ℝ) (bound : ℝ)
    (Xd : Fin n → ℝ) : (rem k : ℕ) → (factor : ℝ) → LSResult n p ic
  | rem, k, factor =>
    let step := fun j => factor * d j
    let coef := fun j => st.coef j + step j
    let r := etaMuObjective D st.eta Xd factor coef
    let res : LSResult n p ic :=
      { coef := coef, step := step, eta := r.1, mu := r.2.1, obj := r.2.2.1, cP2 := r.2.2.2, k := k, warned := false }
    open Classical in
    if lsAccept D st bound factor r.1 r.2.1 r.2.2.1 r.2.2.2 then res
    else match rem with
      | 0 => { res with warned := true }
      | rem' + 1 => lineLoop D st d bound Xd rem' (k + 1) (factor * (1 / 2))

/-- `line_search(state, data, d)` (`_solvers.py` 755-847). -/
def lineSearch (D : IRLSData n p ic) (st : IRLSState n p ic) (d : Fin (p + ic.toNat) → ℝ) : LSResult n p ic :=
  lineLoop D st d (armijoBound D st d) (safeLinPred ic D.X d none) 19 0 1

/-- An inner solver: given the state (with the Hessian updated for the new active set), a direction and a cycle count. -/
abbrev Inner (n p : ℕ) (ic : Bool) := IRLSData n p ic → IRLSState n p ic → (Fin (p + ic.toNat) → ℝ) × ℕ

/-- The arguments `_cd_solver` hands to the coordinate-descent routine (`_solvers.py` 58-76). -/
def cdArgs (D : IRLSData n p ic) (st : IRLSState n p ic) :
    CDData ℝ (p + ic.toNat) st.hs.active.length where
  active := fun s => st.hs.active.get s
  P1 := D.P1
  Q := fun s t => st.hs.H (st.hs.active.get s) (st.hs.active.get t)
  maxIter := D.maxInnerIter
  tol := st.innerTol
  intercept := ic
  random := D.random
  lb := D.lb
  ub := D.ub
  eps := D.eps * 16

/-- `_cd_solver` (`_solvers.py` 58-77); `seeds k` is the seed drawn in outer iteration `k`. -/
def cdInner (seeds : ℕ → BitVec 32) : Inner n p ic := fun D st =>
  let r := (cdArgs D st).run st.coef (fun k => -st.score k) (seeds st.nIter)
  (fun k => r.w k - st.coef k, r.nIter)

/-- `_least_squares_solver` (`_solvers.py` 47-55); `solve H s` stands for `linalg.solve(H, s, assume_a="pos")`, whose contract
(`H d = s`) is a hypothesis of the theorems that use it.  The code passes the active block; the model passes the whole matrix
(with `P1 = 0`, the only case in which this solver is allowed, every coefficient is active: `c66_no_l1_all_active`). -/
def lsInner (solve : (Fin (p + ic.toNat) → Fin (p + ic.toNat) → ℝ) → (Fin (p + ic.toNat) → ℝ) →
    (Fin (p + ic.toNat) → ℝ)) : Inner n p ic := fun _ st => (solve st.hs.H st.score, 1)

/-- One pass through the body of the outer `while` loop (`_solvers.py` 307-345). -/
def irlsStep (inner : Inner n p ic) (D : IRLSData n p ic) (st : IRLSState n p ic) : IRLSState n p ic :=
  let A := identifyActiveSet D st
  let hs1 := updateHessian ic D.X D.P2 D.hessApprox st.hs A
  let st1 := { st with hs := hs1 }
  let dn := inner D st1
  let ls := lineSearch D st1 dn.1
  let uq := updateQuadratic D ls.eta ls.mu ls.cP2
  let cc := checkConvergence D ls.coef ls.step uq.1
  { coef := ls.coef, step := ls.step, eta := ls.eta, mu := ls.mu, obj := ls.obj, score := uq.1
    hs := { hs1 with oldRows := hs1.rows, rows := uq.2 }
    norm := cc.2.1, maxSub := cc.2.2.1, innerTol := cc.2.2.2, converged := cc.1
    nIter := st.nIter + 1
    nCycles := st.nCycles + dn.2
    diagnostics := ⟨st.nIter + 1, cc.2.1, ls.obj, ls.warned⟩ :: st.diagnostics }

/-- The state before the loop (`_solvers.py` 289-304 and `IRLSState.__init__`): `step` is filled with `step_size_tol` (523-526),
`eta` starts at zero (529). -/
def irlsInit (D : IRLSData n p ic) (coef : Fin (p + ic.toNat) → ℝ) : IRLSState n p ic :=
  let step := fun _ => D.stepTol.getD 0
  let r := etaMuObjective D (fun _ => 0) (safeLinPred ic D.X coef D.offset) 1 coef
  let uq := updateQuadratic D r.1 r.2.1 r.2.2.2
  let cc := checkConvergence D coef step uq.1
  { coef := coef, step := step, eta := r.1, mu := r.2.1, obj := r.2.2.1, score := uq.1
    hs := hessInit ic uq.2
    norm := cc.2.1, maxSub := cc.2.2.1, innerTol := cc.2.2.2, converged := cc.1
    nIter := 0, nCycles := 0, diagnostics := [⟨0, cc.2.1, r.2.2.1, false⟩] }

/-- `while state.n_iter < data.max_iter and not state.converged` (`_solvers.py` 307); `fuel` bounds the recursion. -/
def irlsLoop (inner : Inner n p ic) (D : IRLSData n p ic) : ℕ → IRLSState n p ic → IRLSState n p ic
  | 0, st => st
  | fuel + 1, st =>
    if st.nIter < D.maxIter ∧ st.converged = false then irlsLoop inner D fuel (irlsStep inner D st) else st

/-- `_irls_solver(inner_solver, coef, data)` (`_solvers.py` 240-354): the final state; the convergence warning is raised iff
`converged = false` there (347-353).  `max_iter` passes suffice because each pass increments the counter. -/
def irlsRun (inner : Inner n p ic) (D : IRLSData n p ic) (coef : Fin (p + ic.toNat) → ℝ) : IRLSState n p ic :=
  irlsLoop inner D D.maxIter (irlsInit D coef)

end

end Glum
