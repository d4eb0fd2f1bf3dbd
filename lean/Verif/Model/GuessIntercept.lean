import Verif.Model.Distribution
/-
Model of `guess_intercept` (`_distribution.py` 1556-1635), over exact reals.
-/
namespace Glum

noncomputable section

variable {n : ℕ}

/-- The `eta` argument: `None`, a scalar or an array (`_distribution.py` 1561). -/
inductive EtaArg (n : ℕ) where
  | none
  | scalar (c : ℝ)
  | array (e : Fin n → ℝ)

/-- `np.average(v, weights=sample_weight)`. -/
def average (v w : Fin n → ℝ) : ℝ := (∑ i, v i * w i) / ∑ i, w i

/-- The power used with a log link (`_distribution.py` 1601-1612). -/
def guessPower : Family → ℝ
  | .tweedie p => p
  | .normal => 0
  | .poisson => 1
  | .gamma => 2
  | .invGaussian => 3
  | _ => 1

/-- `np.log`, with `none` for the values on which it is not a finite number. -/
def safeLog (x : ℝ) : Option ℝ := open Classical in if 0 < x then some (Real.log x) else none

/-- `guess_intercept(y, sample_weight, link, distribution, eta)` (`_distribution.py` 1556-1635); `none`: the call raises, or a
logarithm is not a finite number. -/
def guessIntercept (f : Family) (l : Link) (y w : Fin n → ℝ) (eta : EtaArg n) : Option ℝ :=
  open Classical in
  if l ≠ .identity ∧ (∃ c, ∀ i, y i = c) then none
  else
    let avgY := average y w
    match l with
    | .identity => match eta with
      | .none => some avgY
      | .scalar c => some (avgY - c)
      | .array e => some (avgY - average e w)
    | .log => do
      let logAvg ← safeLog avgY
      let p := guessPower f
      match eta with
      | .none => some logAvg
      | .scalar c => do
        let first ← safeLog ((∑ i, y i * w i) * Real.exp c ^ (1 - p))
        let second ← safeLog ((∑ i, w i) * Real.exp c ^ (2 - p))
        some (first - second)
      | .array e => do
        let first ← safeLog (∑ i, y i * Real.exp (e i) ^ (1 - p) * w i)
        let second ← safeLog (∑ i, Real.exp (e i) ^ (2 - p) * w i)
        some (first - second)
    | .logit => do
      let a ← safeLog avgY
      let b ← safeLog (1 - avgY)
      match eta with
      | .none => some (a - b)
      | .scalar c => some (a - b - c)
      | .array e => some (a - b - average e w)
    | l => some (l.link (∑ i, y i * w i))

end

end Glum
