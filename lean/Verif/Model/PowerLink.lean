import Verif.Model.Link
import Verif.Model.Weights
import Verif.Model.IRLS
/-
`TweedieLink` on arbitrary linear predictors: the decorator `catch_p` (`_link.py` 83-98) and what numpy's power does with zero and negative bases, which the model `Link.inverse`
leaves out.  `none` is the `ValueError` of `catch_p`.  The power and the exponents are exact (the code rounds non-integer powers to float32).
-/
namespace Glum

noncomputable section

/-- numpy's `x ** y` for finite floats with `errstate(invalid="raise")` (`_link.py` 87-90): a negative base with a non-integer exponent is invalid; zero to a negative power is an infinity
(only a divide warning). -/
def npPow (x y : ℝ) : Option FV :=
  open Classical in
  if 0 < x then some (.num (x ^ y))
  else if x = 0 then (if y = 0 then some (.num 1) else if 0 < y then some (.num 0) else some .pinf)
  else if h : ∃ k : ℤ, y = k then some (.num (x ^ h.choose)) else none

/-- `c * v` for a finite non-zero `c` (`_link.py` 161, 170). -/
def FV.scale (c : ℝ) : FV → FV
  | .num x => .num (c * x)
  | .nan => .nan
  | .pinf => open Classical in if 0 < c then .pinf else .ninf
  | .ninf => open Classical in if 0 < c then .ninf else .pinf

/-- `TweedieLink.inverse`, one element (`_link.py` 146-152). -/
def tweedieInverse (p eta : ℝ) : Option FV :=
  open Classical in
  if p = 0 then some (.num eta) else if p = 1 then some (.num (Real.exp eta)) else npPow eta (1 / (1 - p))

/-- `TweedieLink.inverse_derivative` (`_link.py` 154-161). -/
def tweedieInverseDerivative (p eta : ℝ) : Option FV :=
  open Classical in
  if p = 0 then some (.num 1) else if p = 1 then some (.num (Real.exp eta)) else (npPow eta (p / (1 - p))).map (FV.scale (1 / (1 - p)))

/-- `TweedieLink.inverse_derivative2` (`_link.py` 163-172). -/
def tweedieInverseDerivative2 (p eta : ℝ) : Option FV :=
  open Classical in
  if p = 0 then some (.num 0) else if p = 1 then some (.num (Real.exp eta)) else (npPow eta ((2 * p - 1) / (1 - p))).map (FV.scale (p / (1 - p) ^ 2))

/-- The same on an array: the operation is one numpy call, so one invalid element raises (`_link.py` 86-96). -/
def onArray (f : ℝ → Option FV) (etas : List ℝ) : Option (List FV) := etas.mapM f

variable {n p : ℕ} {ic : Bool}

/-- The line search (`_solvers.py` 798-836) with a link that may raise: every trial evaluates `link.inverse` on its linear predictor (802-804, `_distribution.py` 344-345) before anything else is
looked at; `ok` says for which linear predictors it does not raise.  `none` is the exception, which nothing catches. -/
def lineLoopE (ok : ℝ → Prop) (D : IRLSData n p ic) (st : IRLSState n p ic) (d : Fin (p + ic.toNat) → ℝ) (bound : ℝ)
    (Xd : Fin n → ℝ) : (rem k : ℕ) → (factor : ℝ) → Option (LSResult n p ic)
  | rem, k, factor =>
    let step := fun j => factor * d j
    let coef := fun j => st.coef j + step j
    let r := etaMuObjective D st.eta Xd factor coef
    let res : LSResult n p ic :=
      { coef := coef, step := step, eta := r.1, mu := r.2.1, obj := r.2.2.1, cP2 := r.2.2.2, k := k, warned := false }
    open Classical in
    if ∀ i, ok (r.1 i) then
      if lsAccept D st bound factor r.1 r.2.1 r.2.2.1 r.2.2.2 then some res
      else match rem with
        | 0 => some { res with warned := true }
        | rem' + 1 => lineLoopE ok D st d bound Xd rem' (k + 1) (factor * (1 / 2))
    else none

/-- One pass of the outer loop (`_solvers.py` 307-345). -/
def irlsStepE (ok : ℝ → Prop) (inner : Inner n p ic) (D : IRLSData n p ic) (st : IRLSState n p ic) : Option (IRLSState n p ic) :=
  let A := identifyActiveSet D st
  let hs1 := updateHessian ic D.X D.P2 D.hessApprox st.hs A
  let st1 := { st with hs := hs1 }
  let dn := inner D st1
  (lineLoopE ok D st1 dn.1 (armijoBound D st1 dn.1) (safeLinPred ic D.X dn.1 none) 19 0 1).map fun ls =>
    let uq := updateQuadratic D ls.eta ls.mu ls.cP2
    let cc := checkConvergence D ls.coef ls.step uq.1
    { coef := ls.coef, step := ls.step, eta := ls.eta, mu := ls.mu, obj := ls.obj, score := uq.1
      hs := { hs1 with oldRows := hs1.rows, rows := uq.2 }
      norm := cc.2.1, maxSub := cc.2.2.1, innerTol := cc.2.2.2, converged := cc.1
      nIter := st.nIter + 1
      nCycles := st.nCycles + dn.2
      diagnostics := ⟨st.nIter + 1, cc.2.1, ls.obj, ls.warned⟩ :: st.diagnostics }

/-- The outer loop (`_solvers.py` 307). -/
def irlsLoopE (ok : ℝ → Prop) (inner : Inner n p ic) (D : IRLSData n p ic) : ℕ → IRLSState n p ic → Option (IRLSState n p ic)
  | 0, st => some st
  | fuel + 1, st =>
    if st.nIter < D.maxIter ∧ st.converged = false then (irlsStepE ok inner D st).bind (irlsLoopE ok inner D fuel) else some st

/-- `_irls_solver` (`_solvers.py` 240-354); the predictions of the start are evaluated first (289-296). -/
def irlsRunE (ok : ℝ → Prop) (inner : Inner n p ic) (D : IRLSData n p ic) (coef : Fin (p + ic.toNat) → ℝ) : Option (IRLSState n p ic) :=
  open Classical in
  if ∀ i, ok ((irlsInit D coef).eta i) then irlsLoopE ok inner D D.maxIter (irlsInit D coef) else none

end

end Glum
