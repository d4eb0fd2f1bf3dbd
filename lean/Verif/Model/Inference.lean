import Mathlib.LinearAlgebra.Matrix.NonsingularInverse
import Verif.Model.Linalg
import Verif.Model.Link
import Verif.Model.Distribution
/-
Model of the inference code: `dispersion`, `_fisher_information`, `_observed_information`, `_score_matrix`
(`_distribution.py` 410-538), `_group_sum` (`_glm.py` 3335-3342), the numerical part of `covariance_matrix` (`_glm.py` 1634-1733),
`std_errors`, `coef_table`, `wald_test` and its helpers (`_glm.py` 996-1446).
-/
namespace Glum

noncomputable section

variable {n p : ℕ} {ic : Bool}

/-- `dispersion(y, mu, sample_weight, ddof, method="pearson")` (`_distribution.py` 519-538). -/
def dispersionPearson (f : Family) (y mu w : Fin n → ℝ) (ddof : ℝ) : ℝ :=
  (∑ i, (y i - mu i) ^ 2 / f.unitVariance (mu i) * w i) / (∑ i, w i - ddof)

/-- `W` of `_fisher_information` (`_distribution.py` 432-434). -/
def fisherW (f : Family) (l : Link) (disp mu w : ℝ) : ℝ :=
  l.inverseDerivative (l.link mu) ^ 2 * oneOverVariance f l mu (l.link mu) disp w

/-- `W` of `_observed_information` (`_distribution.py` 458-467). -/
def observedW (f : Family) (l : Link) (disp y mu w : ℝ) : ℝ :=
  let linpred := l.link mu
  (-l.inverseDerivative2 linpred * (y - mu)
      + l.inverseDerivative linpred ^ 2 * (1 + (y - mu) * f.unitVarianceDerivative mu / f.unitVariance mu))
    * oneOverVariance f l mu linpred disp w

/-- `W` of `_score_matrix` (`_distribution.py` 489-495). -/
def scoreW (f : Family) (l : Link) (disp y mu w : ℝ) : ℝ :=
  let linpred := l.link mu
  oneOverVariance f l mu linpred disp w * l.inverseDerivative linpred * (y - mu)

/-- `_safe_sandwich_dot(X, W, intercept=fit_intercept)` as a matrix (`_distribution.py` 436, 469). -/
def sandwichMatrix (p : ℕ) (ic : Bool) (X : Fin n → ℕ → ℝ) (W : Fin n → ℝ) :
    Matrix (Fin (p + ic.toNat)) (Fin (p + ic.toNat)) ℝ :=
  Matrix.of fun s t => safeSandwichDot ic X W Finset.univ (List.range p) s.val t.val

/-- `XW = X.multiply(W)`, with `W` itself as first column if there is an intercept (`_distribution.py` 496-500). -/
def scoreMatrix (p : ℕ) (ic : Bool) (X : Fin n → ℕ → ℝ) (W : Fin n → ℝ) : Matrix (Fin n) (Fin (p + ic.toNat)) ℝ :=
  Matrix.of fun i k => if k.val < ic.toNat then W i else X i (k.val - ic.toNat) * W i

/-- `len(np.unique(groups))`. -/
def numGroups (c : Fin n → ℤ) : ℕ := (Finset.univ.image c).card

/-- `_group_sum(groups, data)` (`_glm.py` 3335-3342) for integer labels: row `g` of the result is the sum of the rows `i` of `data` with
`eye_n[g, i] = 1`, where `eye_n = eye(ngroups)[:, groups]` (scipy: negative labels count from the end, labels outside
`[-ngroups, ngroups)` raise, here `none`). -/
def groupSum {m : ℕ} (c : Fin n → ℤ) (data : Matrix (Fin n) (Fin m) ℝ) : Option (Matrix (Fin (numGroups c)) (Fin m) ℝ) :=
  let k : ℤ := numGroups c
  open Classical in
  if ∀ i, -k ≤ c i ∧ c i < k then
    some (Matrix.of fun g j => ∑ i with (if c i < 0 then c i + k else c i) = (g.val : ℤ), data i j)
  else none

/-- `linalg.solve(A, B)` in exact arithmetic: raises (`none`) if `A` is singular.  scipy only warns for ill-conditioned matrices; rounding
is not modelled. -/
def linSolve {m k : ℕ} (A : Matrix (Fin m) (Fin m) ℝ) (B : Matrix (Fin m) (Fin k) ℝ) : Option (Matrix (Fin m) (Fin k) ℝ) :=
  open Classical in if IsUnit A.det then some (A⁻¹ * B) else none

/-- The options of `covariance_matrix` that change the formula (`_glm.py` 1560-1568, 1678-1688). -/
structure CovOptions (n : ℕ) where
  robust : Bool
  expected : Bool
  clusters : Option (Fin n → ℤ)
  dispersion : Option ℝ

/-- What `covariance_matrix` works on after validation (`_glm.py` 1623-1650): the data, the non-normalised weights, the predictions. -/
structure CovData (n p : ℕ) (ic : Bool) where
  f : Family
  l : Link
  X : Fin n → ℕ → ℝ
  y : Fin n → ℝ
  mu : Fin n → ℝ
  w : Fin n → ℝ

/-- The dispersion used (`_glm.py` 1655-1664). -/
def CovData.disp (D : CovData n p ic) (o : CovOptions n) : ℝ :=
  o.dispersion.getD (dispersionPearson D.f D.y D.mu D.w (p + ic.toNat))

/-- `oim` (`_glm.py` 1675-1687). -/
def CovData.oim (D : CovData n p ic) (o : CovOptions n) : Matrix (Fin (p + ic.toNat)) (Fin (p + ic.toNat)) ℝ :=
  if o.expected then sandwichMatrix p ic D.X fun i => fisherW D.f D.l (D.disp o) (D.mu i) (D.w i)
  else sandwichMatrix p ic D.X fun i => observedW D.f D.l (D.disp o) (D.y i) (D.mu i) (D.w i)

/-- `gradient` (`_glm.py` 1688-1696). -/
def CovData.gradient (D : CovData n p ic) (o : CovOptions n) : Matrix (Fin n) (Fin (p + ic.toNat)) ℝ :=
  scoreMatrix p ic D.X fun i => scoreW D.f D.l (D.disp o) (D.y i) (D.mu i) (D.w i)

/-- The numerical part of `covariance_matrix` (`_glm.py` 1644-1728).  `condOK` is the outcome of the condition number test (1666-1672),
which is the only use of `np.linalg.cond`.  `n_features_in_` equals the number of columns of `X` (checked in `predict`, 904-908).
`none`: an exception (singular matrix, a single cluster — division of the integer 1 by 0 —, labels that cannot be used as indices).
Division by `sum_weights - p = 0` gives an infinite factor in the code; it is excluded in the theorems. -/
def covariance (D : CovData n p ic) (o : CovOptions n) (condOK : Bool) :
    Option (Matrix (Fin (p + ic.toNat)) (Fin (p + ic.toNat)) ℝ) :=
  let sumW := ∑ i, D.w i
  if condOK = false then none
  else if o.robust = true ∨ o.clusters.isSome = true then do
    let oim := D.oim o
    let gradient := D.gradient o
    match o.clusters with
    | some c =>
      let grouped ← groupSum c gradient
      let inner := grouped.transpose * grouped
      if numGroups c = 1 then none
      else do
        let correction := (numGroups c : ℝ) / ((numGroups c : ℝ) - 1) * ((sumW - 1) / (sumW - p - ic.toNat))
        let s1 ← linSolve oim inner
        let s2 ← linSolve oim s1.transpose
        some (correction • s2)
    | none =>
      let inner : Matrix (Fin (p + ic.toNat)) (Fin (p + ic.toNat)) ℝ := Matrix.of fun j k => ∑ i, gradient i j * 1 * gradient i k
      let correction := sumW / (sumW - p - ic.toNat)
      let s1 ← linSolve oim inner
      let s2 ← linSolve oim s1.transpose
      some (correction • s2)
  else do
    let fisher := sandwichMatrix p ic D.X fun i => fisherW D.f D.l (D.disp o) (D.mu i) (D.w i)
    let vcov ← linSolve fisher 1
    some ((sumW / (sumW - p - ic.toNat)) • vcov)

/-- `std_errors`: `np.sqrt(covariance_matrix.diagonal())` (`_glm.py` 1446; also 1083). -/
def stdErrors {m : ℕ} (V : Matrix (Fin m) (Fin m) ℝ) (k : Fin m) : ℝ := Real.sqrt (V k k)

/-- A row of `coef_table` (`_glm.py` 1079-1098). -/
structure CoefRow where
  coef : ℝ
  se : ℝ
  t : ℝ
  pValue : ℝ
  ciLower : ℝ
  ciUpper : ℝ

/-- `coef_table` (`_glm.py` 1081-1098); `cdf`, `ppf` are `stats.norm.cdf` and `stats.norm.ppf`. -/
def coefTable {m : ℕ} (cdf ppf : ℝ → ℝ) (confidence : ℝ) (beta : Fin m → ℝ) (V : Matrix (Fin m) (Fin m) ℝ) (k : Fin m) : CoefRow :=
  let significance := 1 - confidence
  let se := stdErrors V k
  let t := beta k / se
  { coef := beta k, se := se, t := t, pValue := 2 * (1 - cdf |t|)
    ciLower := beta k + ppf (significance / 2) * se, ciUpper := beta k + ppf (1 - significance / 2) * se }

/-- The argument `r` as it reaches `_wald_test_matrix`: `None`, a vector, or the zero-dimensional array `np.asarray(None)`. -/
inductive RArg where
  | none
  | vec (len : ℕ) (v : Fin len → ℝ)
  | zeroDim

/-- `WaldTestResult`. -/
structure WaldResult where
  stat : ℝ
  pValue : ℝ
  df : ℕ

/-- `_wald_test_matrix(R, r)` (`_glm.py` 1229-1269), given the covariance matrix; `chi2` is `stats.chi2.cdf`.  `none`: an exception
(`r.shape[0]` of a zero-dimensional array, shapes, a singular `R V Rᵀ`). -/
def waldMatrix {m Q c : ℕ} (chi2 : ℝ → ℕ → ℝ) (V : Matrix (Fin m) (Fin m) ℝ) (beta : Fin m → ℝ) (R : Matrix (Fin Q) (Fin c) ℝ)
    (r : RArg) : Option WaldResult :=
  let rv : Option ((len : ℕ) × (Fin len → ℝ)) := match r with
    | .none => some ⟨Q, fun _ => 0⟩
    | .vec len v => some ⟨len, v⟩
    | .zeroDim => none
  match rv with
  | none => none
  | some ⟨len, v⟩ =>
    if hlen : Q ≠ len then none
    else if hc : c ≠ m then none
    else do
      let R' : Matrix (Fin Q) (Fin m) ℝ := R.submatrix id (Fin.cast (not_not.1 hc).symm)
      let Rb : Matrix (Fin Q) (Fin 1) ℝ := Matrix.of fun q _ => (R'.mulVec beta) q - v (q.cast (not_not.1 hlen))
      let x ← linSolve (R' * V * R'.transpose) Rb
      let stat := (Rb.transpose * x) 0 0
      some { stat := stat, pValue := 1 - chi2 stat Q, df := Q }

/-- `R` of `_wald_test_feature_names` (`_glm.py` 1298-1305): one row per feature with a 1 in the column of the first occurrence of the
name (`list.index`); `none`: the name is not in the model. -/
def featureR (names : List String) (features : List String) : Option (Matrix (Fin features.length) (Fin names.length) ℝ) :=
  if ∀ x ∈ features, x ∈ names then
    some (Matrix.of fun i j => if names.idxOf features[i] = j.val then 1 else 0)
  else none

/-- `_wald_test_feature_names` (`_glm.py` 1271-1307); `values` has its own length, which must agree. -/
def waldFeatures {m : ℕ} (chi2 : ℝ → ℕ → ℝ) (V : Matrix (Fin m) (Fin m) ℝ) (beta : Fin m → ℝ) (names features : List String)
    (values : Option (List ℝ)) : Option WaldResult :=
  let r : Option RArg := match values with
    | some vs => if features.length ≠ vs.length then none else some (.vec vs.length fun i => vs[i])
    | none => some .none
  do
    let r ← r
    let R ← featureR names features
    waldMatrix chi2 V beta R r

/-- The columns of a term, in order (`np.where(names == term)`, `_glm.py` 1357). -/
def termColumns (names : List String) (term : String) : List ℕ :=
  (List.range names.length).filter fun j => names[j]? = some term

/-- The stacked rows of `_wald_test_term_names` (`_glm.py` 1354-1371): for every term, one restriction per column of the term, with the value
of the term on the right-hand side.  `none`: a term without columns. -/
def termRestrictions (names : List String) (terms : List (String × Option ℝ)) : Option (List (ℕ × Option ℝ)) :=
  (terms.mapM fun tv => if termColumns names tv.1 = [] then none else some ((termColumns names tv.1).map fun j => (j, tv.2))).map
    List.flatten

/-- `_wald_test_term_names` (`_glm.py` 1325-1373).  `np.vstack` of an empty list raises. -/
def waldTerms {m : ℕ} (chi2 : ℝ → ℕ → ℝ) (V : Matrix (Fin m) (Fin m) ℝ) (beta : Fin m → ℝ) (names : List String)
    (terms : List String) (values : Option (List ℝ)) : Option WaldResult :=
  let vals : Option (List (Option ℝ)) := match values with
    | some vs => if terms.length ≠ vs.length then none else some (vs.map some)
    | none => some (List.replicate terms.length none)
  do
    let vals ← vals
    let l ← termRestrictions names (terms.zip vals)
    if terms = [] then none
    else
      let R : Matrix (Fin l.length) (Fin m) ℝ := Matrix.of fun i j => if l[i].1 = j.val then 1 else 0
      let r : RArg := match values with
        | some _ => .vec l.length fun i => l[i].2.getD 0
        | none => .none
      waldMatrix chi2 V beta R r

/-- A restriction matrix with its shape. -/
structure RMatrix where
  rows : ℕ
  cols : ℕ
  val : Matrix (Fin rows) (Fin cols) ℝ

/-- The arguments of `wald_test` that state the hypothesis (`_glm.py` 1107-1111).  `formula` carries what formulaic's parser returns. -/
structure WaldArgs where
  R : Option RMatrix
  features : Option (List String)
  terms : Option (List String)
  formula : Option (RMatrix × ((len : ℕ) × (Fin len → ℝ)))
  r : Option (List ℝ)

/-- `wald_test` (`_glm.py` 1183-1227).  `featNames`/`termNames` already contain the intercept in front if there is one. -/
def waldTest {m : ℕ} (chi2 : ℝ → ℕ → ℝ) (V : Matrix (Fin m) (Fin m) ℝ) (beta : Fin m → ℝ) (featNames termNames : List String)
    (a : WaldArgs) : Option WaldResult :=
  if a.R.isSome.toNat + a.features.isSome.toNat + a.terms.isSome.toNat + a.formula.isSome.toNat ≠ 1 then none
  else match a.R, a.features, a.terms, a.formula with
    | some R, _, _, _ =>
      waldMatrix chi2 V beta R.val (match a.r with | some vs => .vec vs.length fun i => vs[i] | none => .zeroDim)
    | none, some fs, _, _ => waldFeatures chi2 V beta featNames fs a.r
    | none, none, some ts, _ => waldTerms chi2 V beta termNames ts a.r
    | none, none, none, some (R, r) => if a.r.isSome then none else waldMatrix chi2 V beta R.val (.vec r.1 r.2)
    | none, none, none, none => none

end

end Glum
