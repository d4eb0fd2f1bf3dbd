import Verif.Model.Link
/-
The mathematical domain and range of each link, and the inverse function without clipping.
-/
namespace Glum.Spec

/-- Means on which the link is defined. -/
def linkDomain : Link → Set ℝ
  | .identity => Set.univ
  | .log => Set.Ioi 0
  | .logit => Set.Ioo 0 1
  | .cloglog => Set.Ioo 0 1
  | .tweedie p => {mu | p = 0 ∨ 0 < mu}

/-- Values the link takes. -/
def linkRange : Link → Set ℝ
  | .identity => Set.univ
  | .log => Set.univ
  | .logit => Set.univ
  | .cloglog => Set.univ
  | .tweedie p => {eta | p = 0 ∨ p = 1 ∨ 0 < eta}

/-- Clip levels that occur: `0 < e ≤ 1/2`. -/
def ClipOK (e : ℝ) : Prop := 0 < e ∧ e ≤ 1 / 2

/-- The linear predictors at which the clip is inactive (in the interior). -/
def unclipped (e : ℝ) : Link → Set ℝ
  | .logit => {eta | e < 1 / (1 + Real.exp (-eta)) ∧ 1 / (1 + Real.exp (-eta)) < 1 - e}
  | .cloglog => {eta | e < 1 - Real.exp (-Real.exp eta) ∧ 1 - Real.exp (-Real.exp eta) < 1 - e}
  | _ => Set.univ

end Glum.Spec
