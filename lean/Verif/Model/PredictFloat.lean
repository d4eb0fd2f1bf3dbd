import Verif.Model.Overflow
import Verif.Model.Link
/-
`predict` in floating point (`_glm.py` 882-994, `_link.py`): products, sums in any order, fused multiply-add, overflow, NaN, the inverse links and the weights.
The library functions are parameters; what is used of them is that they are monotone and of the right sign.
-/
namespace Glum

noncomputable section

/-- The order of floating-point numbers: false as soon as one is NaN. -/
def FV.le : FV → FV → Prop
  | .num x, .num y => x ≤ y
  | .nan, _ => False
  | _, .nan => False
  | .ninf, _ => True
  | _, .pinf => True
  | _, _ => False

/-- A floating-point system with library functions that are monotone: `exp`, `expm1` (of numbers for which
it does not overflow; the code calls it with numbers up to zero), `pow` of positive numbers. -/
structure FloatLib extends FloatSys where
  exp_mono : ∀ x y, x ≤ y → FV.le (exp x) (exp y)
  expm1 : ℝ → ℝ
  expm1_mono : ∀ x y, x ≤ y → expm1 x ≤ expm1 y
  expm1_range : ∀ x, -1 ≤ expm1 x
  pow_mono : ∀ x y e, 0 < x → x ≤ y → 0 ≤ e → FV.le (pow x e) (pow y e)
  pow_zero : ∀ x, pow x 0 = .num 1
  pow_anti : ∀ x y e, 0 < x → x ≤ y → e ≤ 0 → FV.le (pow y e) (pow x e)

/-- How a row of `X @ coef` is added up: products, additions, and fused multiply-adds (`tabmat`, BLAS). -/
inductive DotTree (ι : Type) where
  | empty
  | prod (j : ι)
  | add (l r : DotTree ι)
  | fma (j : ι) (r : DotTree ι)

variable (F : FloatLib)

/-- `x * c + s` with one rounding. -/
def FloatLib.fma (x c : ℝ) : FV → FV
  | .num s => F.fl (x * c + s)
  | s => s

/-- The computed product of a row with the coefficients (`_glm.py` 910, `X @ coef_path`). -/
def DotTree.dotFl {ι : Type} (x c : ι → ℝ) : DotTree ι → FV
  | .empty => .num 0
  | .prod j => F.fl (x j * c j)
  | .add l r => F.add (DotTree.dotFl x c l) (DotTree.dotFl x c r)
  | .fma j r => F.fma (x j) (c j) (DotTree.dotFl x c r)

/-- `xb = X @ coef + intercept; xb += offset` (`_glm.py` 909-924). -/
def linPredFl {ι : Type} (T : DotTree ι) (c : ι → ℝ) (b : ℝ) (x : ι → ℝ) (off : Option ℝ) : FV :=
  let xb := F.add (T.dotFl F x c) (.num b)
  off.elim xb fun o => F.add xb (.num o)

/-- `numpy.clip`. -/
def FV.clip (lo hi : ℝ) : FV → FV
  | .num x => .num (min (max x lo) hi)
  | .nan => .nan
  | .pinf => .num hi
  | .ninf => .num lo

/-- `scipy.special.expit`: `1 / (1 + exp(-x))`. -/
def FloatLib.expitF (a : FV) : FV := F.div (.num 1) (F.add (.num 1) (F.expF a.opp))

/-- `numpy.expm1`. -/
def FloatLib.expm1F : FV → FV
  | .num x => .num (F.expm1 x)
  | .nan => .nan
  | .pinf => .pinf
  | .ninf => .num (-1)

/-- `lin_pred ** e`; negative bases are NaN (for which `catch_p`, `_link.py` 83-98, raises). -/
def FloatLib.powF (e : ℝ) : FV → FV
  | .num x => open Classical in if x < 0 then .nan else if x = 0 then (if e < 0 then .pinf else if e = 0 then .num 1 else .num 0) else F.pow x e
  | .pinf => open Classical in if e < 0 then .num 0 else if e = 0 then .num 1 else .pinf
  | _ => .nan

/-- `link.inverse(eta)` for one element (`_link.py` 146-152, 189, 214, 235-244, 266-275); `e50` is `50 * finfo.eps`. -/
def Link.inverseFl (e50 : ℝ) (l : Link) (eta : FV) : FV :=
  open Classical in
  match l with
  | .identity => eta
  | .log => F.expF eta
  | .logit => (F.expitF eta).clip e50 (F.rd (1 - e50))
  | .cloglog => (F.expm1F (F.expF eta).opp).opp.clip e50 (F.rd (1 - e50))
  | .tweedie p => if p = 0 then eta else if p = 1 then F.expF eta else F.powF (F.rd (1 / F.rd (1 - p))) eta

/-- `predict` for one row (`_glm.py` 978-994): the inverse link, multiplied by the weight if weights are given. -/
def predictRowFl {ι : Type} (e50 : ℝ) (l : Link) (T : DotTree ι) (c : ι → ℝ) (b : ℝ) (x : ι → ℝ) (off sw : Option ℝ) : FV :=
  let mu := l.inverseFl F e50 (linPredFl F T c b x off)
  sw.elim mu fun w => F.mul mu (.num w)

/-- Adding two partial sums, unless one of them has no terms. -/
def DotTree.join {ι : Type} : DotTree ι → DotTree ι → DotTree ι
  | .empty, r => r
  | l, .empty => l
  | l, r => .add l r

/-- The order of summation of a sparse row, where zeros are not stored: the same, without them. -/
def DotTree.prune {ι : Type} (x : ι → ℝ) : DotTree ι → DotTree ι
  | .empty => .empty
  | .prod j => open Classical in if x j = 0 then .empty else .prod j
  | .add l r => (l.prune x).join (r.prune x)
  | .fma j r => open Classical in if x j = 0 then r.prune x else .fma j (r.prune x)

end

end Glum
