import Verif.Model.Distribution
/-
Model of `_get_obj_and_derivative` (`_solvers.py` 850-871), the function handed to L-BFGS and trust-constr.
-/
namespace Glum

noncomputable section

variable {n p : ℕ} {ic : Bool}

/-- What the closure `functools.partial(_get_obj_and_derivative, ...)` captures (`_solvers.py` 887-896, 935-944).
`e50` is the clip level of the links. -/
structure SmoothData (n p : ℕ) (ic : Bool) where
  X : Fin n → ℕ → ℝ
  y : Fin n → ℝ
  sw : Fin n → ℝ
  P2 : Pen2 ℝ
  family : Family
  link : Link
  offset : Option (Fin n → ℝ)
  e50 : ℝ

/-- `family._mu_deviance_derivative(coef, X, y, sample_weight, link, offset)` (`_distribution.py` 274-298): `mu` and
`temp @ X` (with `temp.sum()` in front when there is an intercept), `temp = d1 * deviance_derivative(y, mu, sample_weight)`. -/
def muDevianceDerivative (D : SmoothData n p ic) (coef : Fin (p + ic.toNat) → ℝ) :
    (Fin n → ℝ) × (Fin (p + ic.toNat) → ℝ) :=
  let eta := safeLinPred ic D.X coef D.offset
  let mu := fun i => D.link.inverse D.e50 (eta i)
  let temp := fun i => D.link.inverseDerivative (eta i) * (D.sw i * D.family.unitDevianceDerivative (D.y i) (mu i))
  (mu, fun k => if k.val < ic.toNat then ∑ i, temp i else ∑ i, temp i * D.X i (k.val - ic.toNat))

/-- `L2 = P2 * coef[idx:]` or `P2 @ coef[idx:]` (`_solvers.py` 863-866), indexed by feature. -/
def p2Coef (P2 : Pen2 ℝ) (coef : Fin (p + ic.toNat) → ℝ) (j : ℕ) : ℝ :=
  match P2 with
  | .vec v => v j * feat ic coef j
  | .dense m => ∑ k ∈ Finset.range p, m j k * feat ic coef k
  | .sparse m => ∑ k ∈ Finset.range p, m.toArray j k * feat ic coef k

/-- `_get_obj_and_derivative` (`_solvers.py` 850-871). -/
def objAndDerivative (D : SmoothData n p ic) (coef : Fin (p + ic.toNat) → ℝ) : ℝ × (Fin (p + ic.toNat) → ℝ) :=
  let md := muDevianceDerivative D coef
  let dev := D.family.deviance D.y md.1 D.sw
  let L2 := p2Coef D.P2 coef
  (1 / 2 * dev + 1 / 2 * ∑ j ∈ Finset.range p, feat ic coef j * L2 j,
   fun k => 1 / 2 * md.2 k + if k.val < ic.toNat then 0 else L2 (k.val - ic.toNat))

end

end Glum
