import Verif.Model.IRLS
import Verif.Model.Standardize
/-
Coordinate descent, the step of IRLS and the change of scale in *rounded* arithmetic: every operation is followed by a rounding `rd`.  The other models
use exact arithmetic.  What is computed from the data (score, Hessian, tolerances, which features are active, when the loops end, which trial step is
accepted) is arbitrary here, so that nothing is assumed about how those numbers are rounded.  Overflow, NaN and signed zeros are not modelled.
-/
namespace Glum

noncomputable section

/-- A floating-point rounding: monotone, numbers already rounded are kept, and the negative of a rounded number is one (round to nearest, towards zero,
any precision, with or without gradual underflow). -/
structure Rounding where
  rd : ℝ → ℝ
  mono : ∀ x y, x ≤ y → rd x ≤ rd y
  idem : ∀ x, rd (rd x) = rd x
  neg : ∀ x, rd (-rd x) = -rd x
  zero : rd 0 = 0
  one : rd 1 = 1

/-- Exact arithmetic. -/
def Rounding.exact : Rounding := ⟨id, fun _ _ h => h, fun _ => rfl, fun _ => rfl, rfl, rfl⟩

variable (F : Rounding)

/-- The soft-thresholding line (`_cd_fast.pyx` 170-171) in rounded arithmetic; `fsign` and `fmax` are exact. -/
def softStepFl (t P1 qd : ℝ) : ℝ := F.rd (F.rd (fsign (-t) * fmax (F.rd (|t| - P1)) 0) / qd)

/-- The update of the gradient (`_cd_fast.pyx` 183-185). -/
def CDData.updateQFl {p a : ℕ} (D : CDData ℝ p a) (s : Fin a) (dw : ℝ) (q : Fin p → ℝ) : Fin p → ℝ :=
  (List.finRange a).foldl (fun q j => Function.update q (D.active j) (F.rd (q (D.active j) + F.rd (dw * D.Q s j)))) q

/-- One pass of the loop body (`_cd_fast.pyx` 158-193). -/
def CDData.visitFl {p a : ℕ} (D : CDData ℝ p a) (s : Fin a) (st : CDState ℝ p) : CDState ℝ p :=
  let ii := D.active s
  if D.Q s s ≤ D.eps then st
  else
    let wOld := st.w ii
    let t := F.rd (st.q ii - F.rd (st.w ii * D.Q s s))
    let v := D.clamp ii (softStepFl F t (D.pen ii) (D.Q s s))
    let q' := if v ≠ 0 ∨ wOld ≠ 0 then D.updateQFl F s (F.rd (v - wOld)) st.q else st.q
    let d := |F.rd (v - wOld)|
    { w := Function.update st.w ii v
      q := q'
      dwMax := if d > st.dwMax then d else st.dwMax
      wMax := if |v| > st.wMax then |v| else st.wMax
      rng := st.rng }

/-- One cycle (`_cd_fast.pyx` 149-193). -/
def CDData.cycleFl {p a : ℕ} (D : CDData ℝ p a) (st : CDState ℝ p) : CDState ℝ p :=
  match a with
  | 0 => { st with dwMax := 0, wMax := 0 }
  | a' + 1 => (List.finRange (a' + 1)).foldl (fun st f => let c := CDData.pick (a := a' + 1) D f st.rng
      CDData.visitFl (a := a' + 1) F D c.1 { st with rng := c.2 }) { st with dwMax := 0, wMax := 0 }

/-- The loop over cycles (`_cd_fast.pyx` 148-213); `stop` is the outcome of the test at the end of a cycle (195-207), of which nothing is assumed. -/
def CDData.loopFl {p a : ℕ} (D : CDData ℝ p a) (stop : ℕ → CDState ℝ p → Bool) : (fuel k : ℕ) → CDState ℝ p → Fin p → ℝ
  | 0, _, st => st.w
  | fuel + 1, k, st =>
    let st' := D.cycleFl F st
    if stop k st' then st'.w else D.loopFl stop fuel (k + 1) st'

/-- Everything one pass of the IRLS loop gets from the data: the active features, their Hessian, the score, penalties and tolerance (in `cd`, whose bounds are
those of the problem), the seed, when coordinate descent ends, and which trial of the line search is taken (`_solvers.py` 307-345). -/
structure FlIter (m : ℕ) where
  a : ℕ
  cd : CDData ℝ m a
  q : Fin m → ℝ
  seed : BitVec 32
  stop : ℕ → CDState ℝ m → Bool
  trial : ℕ

/-- `factor` after `k` halvings (`_solvers.py` 797, 836). -/
def factorFl : ℕ → ℝ
  | 0 => 1
  | k + 1 => F.rd (factorFl k * (1 / 2))

/-- The new coefficients: `new_coef - coef` (`_solvers.py` 77), `step = factor * d` and `coef + step` (799-800, 847). -/
def stepFl {m : ℕ} (it : FlIter m) (coef : Fin m → ℝ) : Fin m → ℝ :=
  let w := it.cd.loopFl F it.stop it.cd.maxIter 0 { w := coef, q := it.q, dwMax := 0, wMax := 0, rng := it.seed }
  fun j => F.rd (coef j + F.rd (factorFl F it.trial * F.rd (w j - coef j)))

/-- `_irls_solver` (`_solvers.py` 240-354) with coordinate descent: any number of passes. -/
def irlsFl {m : ℕ} (its : List (FlIter m)) (coef : Fin m → ℝ) : Fin m → ℝ := its.foldl (fun c it => stepFl F it c) coef

/-- `_one_over_var_inf_to_val(col_stds, 1)` (`_utils.py` 303-313). -/
def invStdFl (thr : ℝ) (stds : ℕ → ℝ) (j : ℕ) : ℝ := open Classical in if |stds j| < thr then 1 else F.rd (1 / stds j)

/-- The bounds on the solver's scale (`_utils.py` 246-254). -/
def boundFl (thr : ℝ) (stds : ℕ → ℝ) (l : Option (ℕ → ℝ)) : Option (ℕ → ℝ) := l.map fun l j => F.rd (l j / invStdFl F thr stds j)

/-- The coefficients at the start (`_glm.py` 258-317): a vector, rescaled (`_utils.py` 274-283) if `center`, then brought within the *user's* bounds. -/
def startFl (p : ℕ) (ic center : Bool) (stds : ℕ → ℝ) (lb ub : Option (ℕ → ℝ)) (v : Fin (p + ic.toNat) → ℝ) : Fin (p + ic.toNat) → ℝ := fun k =>
  if k.val < ic.toNat then v k
  else
    let j := k.val - ic.toNat
    let x := if center then F.rd (v k * stds j) else v k
    let x := match lb with
      | some l => max x (l j)
      | none => x
    match ub with
      | some u => min x (u j)
      | none => x

/-- `unstandardize` (`_utils.py` 286-300): `coef *= penalty_mult`. -/
def reportFl (p : ℕ) (ic : Bool) (thr : ℝ) (stds : ℕ → ℝ) (c : Fin (p + ic.toNat) → ℝ) (j : Fin p) : ℝ :=
  F.rd (c ⟨j.val + ic.toNat, by omega⟩ * invStdFl F thr stds j)

/-- The coefficients of a regularisation path (`_glm.py` 669-715, 2856-2918): each strength starts from the solution of the one before. -/
def pathFl {m : ℕ} : List (List (FlIter m)) → (Fin m → ℝ) → List (Fin m → ℝ)
  | [], _ => []
  | its :: rest, c => irlsFl F its c :: pathFl rest (irlsFl F its c)

end

end Glum
