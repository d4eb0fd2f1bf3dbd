import Verif.Model.Fit
import Verif.Model.Predict
/-
Model of `GeneralizedLinearRegressorCV.fit` (`_glm_cv.py` 585-923).
-/
namespace Glum

noncomputable section

variable {N n p : ℕ} {ic : Bool}

/-- The rows of a fold: `X[idx, :]`, `y[idx]`, `sample_weight[idx]` divided by its sum, `offset[idx]` (`_glm_cv.py` 650-672).  Index
arrays copy, so the division does not touch the caller's weights. -/
def Rows.fold (R : Rows N) (idx : List (Fin N)) : Rows idx.length :=
  { X := fun i => R.X (idx.get i)
    y := fun i => R.y (idx.get i)
    sw := fun i => R.sw (idx.get i) / ∑ k, R.sw (idx.get k)
    off := R.off.map fun o i => o (idx.get i) }

/-- What one job returns (`_glm_cv.py` 784): per alpha the unstandardised intercept and coefficients, test and train deviance. -/
structure FoldOut where
  intercepts : List ℝ
  coefs : List (ℕ → ℝ)
  dev : List ℝ
  trainDev : List ℝ

/-- `_get_deviance` (`_glm_cv.py` 674-678): the deviance of unstandardised coefficients on the test rows.  `full_coef_path` has the
intercept in front when there is one (765-775). -/
def foldDeviance (C : FitCfg p ic) (T : Rows n) (b : ℝ) (coef : ℕ → ℝ) : ℝ :=
  let c : Fin (p + ic.toNat) → ℝ := fun k => if k.val < ic.toNat then b else coef (k.val - ic.toNat)
  let eta := safeLinPred ic T.X c T.off
  C.family.deviance T.y (fun i => C.link.inverse C.e50 (eta i)) T.sw

/-- `_get_train_deviance` (`_glm_cv.py` 711-718): standardised coefficients on the standardised training rows. -/
def foldTrainDeviance (C : FitCfg p ic) (Q : Prepared n p ic) (c : Fin (p + ic.toNat) → ℝ) : ℝ :=
  let eta := safeLinPred ic Q.D.X c Q.D.offset
  C.family.deviance Q.D.y (fun i => C.link.inverse C.e50 (eta i)) Q.D.sw

/-- A job: the split, the l1 ratio and its alphas (`_glm_cv.py` 786-804). -/
structure CVJob (N : ℕ) where
  train : List (Fin N)
  test : List (Fin N)
  l1 : ℝ
  alphas : List ℝ

/-- `_fit_path` (`_glm_cv.py` 636-784); the second component is `none` if it raises. -/
def fitPath {σ : Type} (C : FitCfg p ic) (stats : Stats) (solver : SolverFn σ p ic) (R : Rows N) (j : CVJob N) (s : σ) :
    σ × Option FoldOut :=
  match prepare C stats (R.fold j.train) j.l1 with
  | none => (s, none)
  | some Q =>
    if C.p2ok Q.D.P2 = false then (s, none)
    else
      let out := Q.path solver j.alphas s
      let un := out.2.map (report ic C.thr Q.means Q.stds)
      (out.1, some
        { intercepts := un.map (·.1)
          coefs := un.map (·.2)
          dev := un.map fun r => foldDeviance C (R.fold j.test) r.1 r.2
          trainDev := out.2.map (foldTrainDeviance C Q) })

/-- The jobs in the order of the generator (`_glm_cv.py` 786-804): splits outside, `zip(l1_ratio, alphas)` inside. -/
def cvJobs (splits : List (List (Fin N) × List (Fin N))) (l1s : List ℝ) (alphass : List (List ℝ)) : List (CVJob N) :=
  splits.flatMap fun sp => (l1s.zip alphass).map fun la => { train := sp.1, test := sp.2, l1 := la.1, alphas := la.2 }

/-- joblib (contract): the results that arrive in some order, each with the position of its job, are returned in the order of the jobs;
`none`: a job raised (or did not finish). -/
def joblibCollect {ρ : Type} (m : ℕ) (arrived : List (ℕ × Option ρ)) : Option (List ρ) :=
  (List.range m).mapM fun k => (arrived.lookup k).bind id

/-- One job after the other in the same process (joblib with `n_jobs=None` or 1): the estimator's state is passed on. -/
def runSequential {σ ρ ι : Type} (job : ι → σ → σ × Option ρ) : List ι → σ → List (Option ρ)
  | [], _ => []
  | j :: rest, s => (job j s).2 :: runSequential job rest (job j s).1

/-- `np.reshape(list_of_rows, (S, L, K))` (numpy): the rows must have equal length; the flattened data must have exactly `S * L * K`
elements; otherwise it raises.  The result is the flat data, row-major. -/
def reshape3 {α : Type} (S L K : ℕ) (rows : List (List α)) : Option (List α) :=
  if (∀ r ∈ rows, ∀ r' ∈ rows, r.length = r'.length) ∧ rows.flatten.length = S * L * K then some rows.flatten else none

/-- Entry `[s, l, k]` of a row-major array of shape `(_, L, K)`. -/
def at3 {α : Type} (L K : ℕ) (flat : List α) (s l k : ℕ) : Option α := flat[(s * L + l) * K + k]?

/-- `deviance_path_.mean(axis=0)` flattened (`_glm_cv.py` 829). -/
def meanAxis0 (S L K : ℕ) (flat : List ℝ) : List ℝ :=
  (List.range (L * K)).map fun m => (∑ s ∈ Finset.range S, flat.getD (s * (L * K) + m) 0) / S

/-- What the estimator stores; `refit` are `coef_`, `intercept_`, `_refit_coef_path`, `_refit_intercept_path`, `_alphas`. -/
structure CVResult where
  alphas : List (List ℝ)
  interceptPath : List ℝ
  coefPath : List (ℕ → ℝ)
  dev : List ℝ
  trainDev : List ℝ
  l1 : ℝ
  alpha : ℝ
  refit : PathResult

/-- The alphas per l1 ratio (`_glm_cv.py` 600-622): given ones sorted in decreasing order and repeated, or one path per l1 ratio on the
full data. -/
def cvAlphas (C : FitCfg p ic) (stats : Stats) (R : Rows N) (l1s : List ℝ) (given : Option (List ℝ)) (nAlphas : ℕ)
    (minAlpha minRatio : Option ℝ) : Option (List (List ℝ)) :=
  open Classical in
  match given with
  | some l => some (List.replicate l1s.length (l.mergeSort fun a b => decide (a ≤ b)).reverse)
  | none => l1s.mapM fun l1 => do
      let P1 ← setupP1 p 1 l1 C.P1a
      let P2 ← setupP2 p C.xsp 1 l1 C.P2a
      let ms := stats N R.X R.sw
      let D := stdData C.thr C.asIfScaled ms.1 ms.2 (C.problem R P1 P2)
      alphaPath (p := p) (ic := ic)
        { X := D.X, y := D.y, sw := D.sw, P2 := D.P2, family := C.family, link := C.link, offset := D.offset, e50 := C.e50 }
        D.P1 nAlphas minAlpha minRatio

/-- From the jobs' results to the selection and the refit (`_glm_cv.py` 808-909).  `S` is `cv.get_n_splits()`.  The three- and
four-dimensional reshapes agree when all succeed; the shapes of `intercept_path_` and `coef_path_` have a trailing `-1`, which is the
number of values per alpha. -/
def cvFinish {σ : Type} (C : FitCfg p ic) (stats : Stats) (solver : SolverFn σ p ic) (R : Rows N) (S : ℕ) (l1s : List ℝ)
    (alphass : List (List ℝ)) (outs : List FoldOut) (s : σ) : Option (σ × CVResult) := do
  let K := (← alphass.head?).length
  let L := l1s.length
  let ints ← reshape3 S L K (outs.map (·.intercepts))
  let coefs ← reshape3 S L K (outs.map (·.coefs))
  let dev ← reshape3 S L K (outs.map (·.dev))
  let tdev ← reshape3 S L K (outs.map (·.trainDev))
  if S = 0 then none
  else do
    let best ← argmin (meanAxis0 S L K dev)
    let l1 ← l1s[best / K]?
    let alphas ← alphass[best / K]?
    let alpha ← alphas[best % K]?
    let Q ← prepare C stats R l1
    let out := Q.path solver alphas s
    let un := out.2.map (report ic C.thr Q.means Q.stds)
    let bestRow ← un[best % K]?
    some (out.1,
      { alphas := alphass, interceptPath := ints, coefPath := coefs, dev := dev, trainDev := tdev, l1 := l1, alpha := alpha
        refit := { coef := bestRow.2, intercept := bestRow.1, coefPath := un.map (·.2), interceptPath := un.map (·.1),
                   alphas := alphas } })


/-- `fit` of the CV estimator (`_glm_cv.py` 585-909) when the results of the jobs arrive as `arrived`. -/
def cvFit {σ : Type} (C : FitCfg p ic) (stats : Stats) (solver : SolverFn σ p ic) (R : Rows N) (S : ℕ)
    (splits : List (List (Fin N) × List (Fin N))) (l1s : List ℝ) (alphass : List (List ℝ))
    (arrived : List (ℕ × Option FoldOut)) (s : σ) : Option (σ × CVResult) := do
  let outs ← joblibCollect (cvJobs splits l1s alphass).length arrived
  cvFinish C stats solver R S l1s alphass outs s

end

end Glum
