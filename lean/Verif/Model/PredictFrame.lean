import Verif.Model.Categorical
import Verif.Model.Predict
/-
`predict` on a data frame (`_glm.py` 928-994): conversion, the check of the number of columns, linear predictor, inverse link.
-/
namespace Glum

noncomputable section

/-- The design matrix with the given columns. -/
def colMatrix {n : ℕ} (cols : List (List ℝ)) (i : Fin n) (j : ℕ) : ℝ := ((cols[j]?).bind fun c => c[i.val]?).getD 0

/-- `predict(df, sample_weight, offset, alpha_index=…, alpha=…)` of an estimator fitted on a data frame without formula (`_glm.py` 979-994, 864-926); `n` is the
number of rows.  `n_features_in_` is the number of columns of the training design (2157).  A frame without rows is rejected (sklearn's `check_array`). -/
def predictFrame (n : ℕ) (C : CatConfig) (F : FrameFit) (e50 : ℝ) (l : Link) (search : Bool) (r : PathResult) (df : DFrame) (sw : Option WeightArg)
    (off : Option (Fin n → ℝ)) (idx : ScalarOrList ℤ) (alpha : ScalarOrList ℝ) : Option (Pred n) := do
  let cols ← convertFrame C F df
  if n = 0 ∨ cols.length ≠ F.design.length then none
  else predictWith e50 l (linearPredictor cols.length search r (colMatrix cols) off idx alpha) sw

end

end Glum
