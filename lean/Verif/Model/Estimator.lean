import Verif.Model.Inference
import Verif.Model.Likelihood
import Verif.Model.Weights
/-
Model of the estimator object as a state machine: which attributes `fit`, `covariance_matrix`, `aic`/`aicc`/`bic` and `predict` write and
read, including the attributes a failing `fit` leaves behind (`_glm.py` 211-246, 319-417, 882-994, 1448-1733, 1959-2164, 2663-3140).
Hyperparameters are passed to every call, so a history may contain `set_params`.  The front ends (formulaic, narwhals, tabmat) and the
numerical core of `fit` (modelled in the other files) are parameters.
-/
namespace Glum

noncomputable section

/-- A numeric design matrix (tabmat or numpy) with its column names. -/
structure Mat where
  nrows : ℕ
  ncols : ℕ
  val : Fin nrows → ℕ → ℝ
  names : List String

/-- External libraries and constants.  `Frame`: data frames; `XSpec`, `YSpec`: formulaic's model specs; `Levels`: the recorded categories
(`_categorical_levels_`, `has_missing_category_`). -/
structure Env where
  Frame : Type
  Formula : Type
  XSpec : Type
  YSpec : Type
  Levels : Type
  /-- `parse_formula` and `tm.from_formula(formula=lhs)`: `none` raises, `some none` is a one-sided formula. -/
  yOfFormula : Formula → Frame → Option (Option (YSpec × List ℝ))
  /-- `tm.from_formula(formula=rhs)` and `"1" in model_spec.terms`. -/
  xOfFormula : Formula → Frame → Option (XSpec × Mat × Bool)
  /-- `model_spec.get_model_matrix(df)`. -/
  ySpecVec : YSpec → Frame → Option (List ℝ)
  xSpecMat : XSpec → Frame → Option Mat
  levelsOf : Frame → Levels
  /-- The conversion at fit time, with the expansion of penalties (`_glm.py` 2063-2085). -/
  fromFrame : Frame → Option Mat
  /-- The conversion at prediction time, with and without recorded levels (`_glm.py` 328-360). -/
  alignFrame : Levels → Frame → Option Mat
  rawFrame : Frame → Option Mat
  /-- The condition number test of `covariance_matrix`; the clipping constant of the inverse logit; the Tweedie normalisation;
  `np.finfo(dtype).eps`. -/
  condOK : Mat → Bool
  e50 : ℝ
  norm : ℝ → ℝ → ℝ → ℝ
  eps : ℝ

/-- `X`: a data frame or a matrix. -/
inductive XArg (E : Env) where
  | frame (d : E.Frame)
  | mat (X : Mat)

/-- Validated training data; `w` are the weights before normalisation. -/
structure Valid where
  X : Mat
  y : Fin X.nrows → ℝ
  w : Fin X.nrows → ℝ
  off : Option (Fin X.nrows → ℝ)

/-- The stored covariance matrix, with its dimension. -/
abbrev Cov := Σ m : ℕ, Matrix (Fin m) (Fin m) ℝ

/-- `_info_criteria`. -/
structure Info where
  aic : ℝ
  aicc : Option ℝ
  bic : ℝ

/-- What the numerical core of `fit` does (`_glm.py` 2747-2913): it raises before `_alphas` is written, raises later, or ends with
the coefficients.  `alphas`: the value written to `_alphas` (only with `alpha_search`). -/
inductive CoreOut where
  | failEarly
  | failLate (alphas : Option (List ℝ))
  | done (alphas : Option (List ℝ)) (intercept : ℝ) (coef : List ℝ)

/-- The attributes of the estimator; `none`: the attribute does not exist.  `cov`: attribute `covariance_matrix_`, which may be `None`. -/
structure Est (E : Env) where
  xSpec : Option E.XSpec := none
  ySpec : Option E.YSpec := none
  levels : Option E.Levels := none
  nFeatures : Option ℕ := none
  names : Option (List String) := none
  family : Option Family := none
  link : Option Link := none
  numObs : Option ℕ := none
  alphas : Option (List ℝ) := none
  coef : Option (ℝ × List ℝ) := none
  info : Option Info := none
  cov : Option (Option Cov) := none

/-- The hyperparameters read.  `valid`: `_validate_hyperparameters` accepts; `family`, `link`: `get_family`, `get_link` (`none`: raise);
`yOK`: `check_input` and `in_y_range`; `core`: the numerical core, given the data, the model spec (for `monotonic_constraints`) and the
previous coefficients. -/
structure Params (E : Env) where
  valid : Bool
  family : Option Family
  link : Family → Option Link
  yOK : List ℝ → Bool
  fitIntercept : Bool
  formula : Option E.Formula
  mono : Bool
  warmStart : Bool
  robust : Bool
  expected : Bool
  core : Valid → Option E.XSpec → Option (ℝ × List ℝ) → CoreOut

/-- The arguments of `fit`. -/
structure FitArgs (E : Env) where
  X : XArg E
  y : Option (List ℝ)
  w : WeightArg
  off : Option (List ℝ)
  store : Bool
  clusters : Option (ℕ → ℤ)

variable {E : Env}

/-- `check_X_y…`, `check_weights`, `check_offset` (`_glm.py` 2104-2147): the arrays have the right lengths.  An offset is `None` or an
array here (a scalar is broadcast by `check_offset`). -/
def validate (X : Mat) (y : List ℝ) (w : WeightArg) (off : Option (List ℝ)) : Option Valid :=
  if y.length ≠ X.nrows then none
  else match checkWeights X.nrows w with
    | none => none
    | some w => match off with
      | none => some ⟨X, fun i => y.getD i 0, w, none⟩
      | some o => if o.length ≠ X.nrows then none else some ⟨X, fun i => y.getD i 0, w, some fun i => o.getD i 0⟩

/-- The end of `_set_up_and_check_fit_args` (`_glm.py` 2087-2164): `n_features_in_` is written once `X` and `y` fit together,
`feature_names_` at the end. -/
def Est.finishSetup (s : Est E) (a : FitArgs E) (X : Mat) (y : Option (List ℝ)) : Est E × Option Valid :=
  match y with
  | none => (s, none)
  | some y =>
    if y.length ≠ X.nrows then (s, none)
    else
      let s := { s with nFeatures := some X.ncols }
      match validate X y a.w a.off with
      | none => (s, none)
      | some v => ({ s with names := some X.names }, some v)

/-- `_set_up_and_check_fit_args` (`_glm.py` 1959-2164). -/
def Est.setup (s : Est E) (P : Params E) (a : FitArgs E) : Est E × Option Valid :=
  match a.X, P.formula with
  | .frame d, some φ =>
    match E.yOfFormula φ d with
    | none => (s, none)
    | some (some (ys, yv)) =>
      if a.y.isSome then (s, none)
      else
        let s := { s with ySpec := some ys }
        match E.xOfFormula φ d with
        | none => (s, none)
        | some (xs, X, ic) =>
          if ic ≠ P.fitIntercept then (s, none)
          else ({ s with xSpec := some xs, names := some X.names } : Est E).finishSetup a X (some yv)
    | some none =>
      match E.xOfFormula φ d with
      | none => (s, none)
      | some (xs, X, ic) =>
        if ic ≠ P.fitIntercept then (s, none)
        else ({ s with xSpec := some xs, names := some X.names } : Est E).finishSetup a X a.y
  | .frame d, none =>
    let s := { s with levels := some (E.levelsOf d) }
    match E.fromFrame d with
    | none => (s, none)
    | some X => s.finishSetup a X a.y
  | .mat X, _ => s.finishSetup a X a.y

/-- `_convert_from_df` (`_glm.py` 319-362); a matrix is left as it is. -/
def Est.convert (s : Est E) : XArg E → Option Mat
  | .mat X => some X
  | .frame d =>
    match s.xSpec with
    | some xs => E.xSpecMat xs d
    | none => match s.levels with
      | some lv => E.alignFrame lv d
      | none => E.rawFrame d

/-- The property `family_instance` (`_glm.py` 211-217). -/
def Est.familyInstance (s : Est E) (P : Params E) : Option Family := s.family.orElse fun _ => P.family

/-- The property `link_instance` (`_glm.py` 219-225). -/
def Est.linkInstance (s : Est E) (P : Params E) : Option Link := s.link.orElse fun _ => (s.familyInstance P).bind P.link

/-- `predict` for a numeric matrix, without `alpha` and `sample_weight` (`_glm.py` 859-994): the estimator must be fitted, `X` must have
`n_features_in_` columns, and `X @ coef_` needs as many coefficients. -/
def Est.predictMat (s : Est E) (P : Params E) (X : Mat) (off : Option (Fin X.nrows → ℝ)) : Option (Fin X.nrows → ℝ) :=
  match s.coef, s.nFeatures with
  | some (b, c), some nf =>
    if X.ncols ≠ nf then none
    else if c.length ≠ X.ncols then none
    else (s.linkInstance P).map fun l i =>
      l.inverse E.e50 ((∑ j ∈ Finset.range X.ncols, X.val i j * c.getD j 0) + b + (match off with | none => 0 | some o => o i))
  | _, _ => none

/-- The offset argument of `predict`: added elementwise, so its length must fit. -/
def offsetFor (X : Mat) : Option (List ℝ) → Option (Option (Fin X.nrows → ℝ))
  | none => some none
  | some o => if o.length ≠ X.nrows then none else some (some fun i => o.getD i 0)

/-- `predict(X, offset=…)`. -/
def Est.predict (s : Est E) (P : Params E) (X : XArg E) (off : Option (List ℝ)) : Option (List ℝ) := do
  let X ← s.convert X
  let o ← offsetFor X off
  let mu ← s.predictMat P X o
  some (List.ofFn mu)

/-- The numerical part of `covariance_matrix` on validated data (`_glm.py` 1644-1728): predictions unless `mu` is given, then the formulas
of `covariance`.  With `mu` given the code does not compare `X.shape[1]` with `n_features_in_`; here a mismatch is rejected. -/
def Est.covCompute (s : Est E) (P : Params E) (v : Valid) (mu : Option (List ℝ)) (disp : Option ℝ) (robust expected : Bool)
    (clusters : Option (ℕ → ℤ)) : Option Cov := do
  let f ← s.family
  let l ← s.link
  let nf ← s.nFeatures
  let mu ← match mu with
    | none => s.predictMat P v.X v.off
    | some m => if m.length ≠ v.X.nrows ∨ v.X.ncols ≠ nf then none else some fun i => m.getD i 0
  let V ← covariance (p := v.X.ncols) (ic := P.fitIntercept) ⟨f, l, v.X.val, v.y, mu, v.w⟩
    ⟨robust, expected, clusters.map fun c i => c i.val, disp⟩ (E.condOK v.X)
  some ⟨_, V⟩

/-- The end of `fit` (`_glm.py` 2915-2933): the stored covariance matrix is reset, then computed if asked for; if that raises, the new
coefficients stay. The weights passed on are `sample_weight / weights_sum * weights_sum`. -/
def Est.finishFit (s : Est E) (P : Params E) (a : FitArgs E) (v : Valid) : Est E × Bool :=
  let s := { s with cov := some none }
  if a.store then
    let w := (normaliseWeights v.w).1
    let total := (normaliseWeights v.w).2
    match s.covCompute P { v with w := fun i => w i * total } none none P.robust P.expected a.clusters with
    | none => (s, false)
    | some V => ({ s with cov := some (some V) }, true)
  else (s, true)

/-- `fit` (`_glm.py` 2663-2935, with `_set_up_for_fit` 364-430); the result says whether it returned. -/
def Est.fit (s : Est E) (P : Params E) (a : FitArgs E) : Est E × Bool :=
  if P.valid = false then (s, false)
  else
    match s.setup P a with
    | (s, none) => (s, false)
    | (s, some v) =>
      match P.family with
      | none => (s, false)
      | some f =>
        let s := { s with family := some f }
        match P.link f with
        | none => (s, false)
        | some l =>
          let s := { s with link := some l, numObs := some v.X.nrows }
          if P.yOK (List.ofFn v.y) = false then (s, false)
          else if P.mono = true ∧ s.xSpec.isNone = true then (s, false)
          else
            match P.core v (if P.mono then s.xSpec else none) (if P.warmStart then s.coef else none) with
            | .failEarly => (s, false)
            | .failLate al => ({ s with alphas := al.orElse fun _ => s.alphas }, false)
            | .done al b c => ({ s with alphas := al.orElse fun _ => s.alphas, coef := some (b, c) } : Est E).finishFit P a v

/-- The arguments of `covariance_matrix`. -/
structure CovArgs (E : Env) where
  X : Option (XArg E) := none
  y : Option (List ℝ) := none
  w : WeightArg := .none
  off : Option (List ℝ) := none
  mu : Option (List ℝ) := none
  disp : Option ℝ := none
  robust : Option Bool := none
  expected : Option Bool := none
  clusters : Option (ℕ → ℤ) := none
  store : Bool := false

/-- `sample_weight is not None`. -/
def WeightArg.isGiven : WeightArg → Bool
  | .none => false
  | _ => true

/-- One of the parameters that change the estimate is given (`_glm.py` 1602-1612). -/
def CovArgs.hasParams (a : CovArgs E) : Bool :=
  a.off.isSome || a.mu.isSome || a.w.isGiven || a.disp.isSome || a.robust.isSome || a.clusters.isSome || a.expected.isSome

/-- `covariance_matrix` on given data (`_glm.py` 1619-1733).  With a recorded response spec `y` is replaced by the response of the formula
(1619-1620; formulaic rejects numpy arrays). -/
def Est.estimate (s : Est E) (P : Params E) (a : CovArgs E) : Option Cov := do
  let Xa ← a.X
  let y ← match s.ySpec with
    | none => a.y
    | some ys => match Xa with
      | .frame d => E.ySpecVec ys d
      | .mat _ => none
  let X ← s.convert Xa
  let v ← validate X y a.w a.off
  s.covCompute P v a.mu a.disp (a.robust.getD P.robust) (a.expected.getD P.expected) a.clusters

/-- The estimate, stored if asked for (`_glm.py` 1730-1733). -/
def Est.estimateStore (s : Est E) (P : Params E) (a : CovArgs E) : Est E × Option Cov :=
  match s.estimate P a with
  | none => (s, none)
  | some V => (if a.store then { s with cov := some (some V) } else s, some V)

/-- `covariance_matrix` (`_glm.py` 1448-1733) with `skip_checks=False`; `none`: an exception.  `self.covariance_matrix_` raises if the
attribute does not exist. -/
def Est.covarianceMatrix (s : Est E) (P : Params E) (a : CovArgs E) : Est E × Option Cov :=
  let cannot := (a.y.isNone && s.ySpec.isNone) || a.X.isNone
  match s.cov with
  | none => if cannot || a.store then (s, none) else s.estimateStore P a
  | some c =>
    if cannot && c.isNone then (s, none)
    else if cannot && a.store then (s, none)
    else if a.X.isNone && a.y.isNone then (if a.hasParams then (s, none) else (s, c))
    else s.estimateStore P a

/-- The criteria. -/
inductive Crit where
  | aic | aicc | bic

/-- `k_params` (`_glm.py` 2977-2978). -/
def kParams (eps : ℝ) (fitIntercept : Bool) (coef : List ℝ) : ℕ :=
  open Classical in (coef.filter fun c => decide (eps < |c|)).length + fitIntercept.toNat

/-- `_compute_information_criteria` (`_glm.py` 2937-2999).  `w` are the weights passed to `log_likelihood` (`None` means ones; they are
not validated); `none`: an exception. -/
def Est.computeInfo (s : Est E) (P : Params E) (Xa : XArg E) (y : List ℝ) (w : Option (List ℝ)) : Option Info := do
  let f ← s.familyInstance P
  let (_, c) ← s.coef
  let X ← s.convert Xa
  let N ← s.numObs
  if X.nrows ≠ N then none
  else do
    let mu ← s.predictMat P X none
    if y.length ≠ X.nrows ∨ (∃ v, w = some v ∧ v.length ≠ X.nrows) then none
    else do
      let wv : Fin X.nrows → ℝ := fun i => (w.map fun v => v.getD i 0).getD 1
      let yv : Fin X.nrows → ℝ := fun i => y.getD i 0
      let ll ← f.logLik E.norm yv mu wv (f.pearsonDispersion yv mu wv 1)
      let k : ℝ := kParams E.eps P.fitIntercept c
      let aic := -2 * ll + 2 * k
      let bic := -2 * ll + Real.log X.nrows * k
      some ⟨aic, if kParams E.eps P.fitIntercept c + 1 < X.nrows then some (aic + 2 * k * (k + 1) / (X.nrows - k - 1)) else none, bic⟩

/-- `_get_info_criteria` (`_glm.py` 3117-3140): computed only if the attribute `_info_criteria` does not exist; `aicc` raises on a false
value, i.e. on `None` and on 0.0 (3071-3076). -/
def Est.infoCriterion (s : Est E) (P : Params E) (k : Crit) (Xa : XArg E) (y : List ℝ) (w : Option (List ℝ)) : Est E × Option ℝ :=
  if s.coef.isNone then (s, none)
  else
    match (match s.info with | some i => some i | none => s.computeInfo P Xa y w) with
    | none => (s, none)
    | some i =>
      ({ s with info := some i }, open Classical in
        match k with
        | .aic => some i.aic
        | .bic => some i.bic
        | .aicc => match i.aicc with
          | none => none
          | some v => if v = 0 then none else some v)

/-- The calls of a history. -/
inductive Op (E : Env) where
  | fit (P : Params E) (a : FitArgs E)
  | cov (P : Params E) (a : CovArgs E)
  | info (P : Params E) (k : Crit) (X : XArg E) (y : List ℝ) (w : Option (List ℝ))
  | predict (P : Params E) (X : XArg E) (off : Option (List ℝ))

/-- The state after a call. -/
def Est.step (s : Est E) : Op E → Est E
  | .fit P a => (s.fit P a).1
  | .cov P a => (s.covarianceMatrix P a).1
  | .info P k X y w => (s.infoCriterion P k X y w).1
  | .predict _ _ _ => s

/-- The state after a history. -/
def Est.run (s : Est E) (h : List (Op E)) : Est E := h.foldl Est.step s

end

end Glum
