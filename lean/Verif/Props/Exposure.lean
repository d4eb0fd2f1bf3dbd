import Verif.Props.ResponseUnits
import Verif.Props.Frequency
/-
C122: exposure can be given as weight or as offset.
-/
set_option linter.unusedSectionVars false
set_option linter.unusedVariables false
set_option linter.unusedSimpArgs false

namespace Glum
open Spec Matrix

variable {n p : ℕ} {ic : Bool}

/-- Two ways to state data observed under exposures `e`: `R` has the rates `y i` as response, `R'` has the totals `e i * y i` and `log (e i)` in the offset; the
weights of `R` are those of `R'` times `e i ^ (2 - q)` (Poisson: times the exposure; gamma: unchanged), normalised (`k` is the factor between the two normalisations). -/
structure Spec.ExposureMoved (e : Fin n → ℝ) (q k : ℝ) (R R' : Rows n) : Prop where
  X : R'.X = R.X
  y : ∀ i, R'.y i = e i * R.y i
  off : ∀ i, (R'.off.getD fun _ => 0) i = (R.off.getD fun _ => 0) i + Real.log (e i)
  sw : ∀ i, R'.sw i * e i ^ (2 - q) = k * R.sw i

/-- **C122, objective.** -/
theorem c122_objective (e : Fin n → ℝ) (he : ∀ i, 0 < e i) (k e50 : ℝ) (f : Family) (q : ℝ) (hq : variancePower f = some q) (R R' : Rows n)
    (hR : ExposureMoved e q k R R') (s : ℕ → ℝ) (P1a : P1Arg) (P2a : P2Arg) (a l1r b0 : ℝ) (b : ℕ → ℝ) :
    fitObjective p e50 f .log R' s P1a P2a (k * a) l1r b0 b = k * fitObjective p e50 f .log R s P1a P2a a l1r b0 b := by
  unfold fitObjective
  have key : ∀ i, R'.sw i * f.unitDeviance (R'.y i) (trueMean e50 f .log (∑ j : Fin p, R'.X i j * b j + b0 + (R'.off.getD fun _ => 0) i))
      = k * (R.sw i * f.unitDeviance (R.y i) (trueMean e50 f .log (∑ j : Fin p, R.X i j * b j + b0 + (R.off.getD fun _ => 0) i))) := by
    intro i
    rw [hR.X, hR.y, hR.off, trueMean_log, trueMean_log]
    have h1 : ∑ j : Fin p, R.X i j * b j + b0 + ((R.off.getD fun _ => 0) i + Real.log (e i))
        = Real.log (e i) + (∑ j : Fin p, R.X i j * b j + b0 + (R.off.getD fun _ => 0) i) := by ring
    rw [h1, Real.exp_add, Real.exp_log (he i), c92_deviance_homogeneous f q hq (e i) _ _ (he i) (Real.exp_pos _), ← mul_assoc, hR.sw, mul_assoc]
  simp only [key]
  rw [← Finset.mul_sum]
  ring

/-- **C122, solutions.** The same intercept and coefficients solve the two problems, with `alpha` multiplied by `k`. -/
theorem c122_solutions (e : Fin n → ℝ) (he : ∀ i, 0 < e i) (k : ℝ) (hk : 0 < k) (e50 : ℝ) (f : Family) (q : ℝ) (hq : variancePower f = some q) (R R' : Rows n)
    (hR : ExposureMoved e q k R R') (s : ℕ → ℝ) (P1a : P1Arg) (P2a : P2Arg) (lb ub : Option (ℕ → ℝ)) (a l1r b0 : ℝ) (b : ℕ → ℝ) :
    Solves p ic lb ub (fitObjective p e50 f .log R' s P1a P2a (k * a) l1r) b0 b ↔ Solves p ic lb ub (fitObjective p e50 f .log R s P1a P2a a l1r) b0 b := by
  unfold Solves
  simp only [c122_objective e he k e50 f q hq R R' hR, mul_le_mul_iff_right₀ hk]

/-- **C122, in the limit.** The fit of the totals with `log` exposure in the offset and the fit of the rates with weights times exposure (to the power `2 - q`), with
`alpha` adapted to the normalisation of the weights, without `scale_predictors` (the weights enter the scales): with small enough tolerances and without a
`ConvergenceWarning`, intercept and coefficients agree up to `ε`. -/
theorem c122_limits (e : Fin n → ℝ) (he : ∀ i, 0 < e i) (k : ℝ) (hk : 0 < k) (C : FitCfg p ic) (hsc : C.asIfScaled = false) (hlog : C.link = .log) (q : ℝ)
    (hq : variancePower C.family = some q) (stats : Stats) (R R' : Rows n) (hR : ExposureMoved e q k R R') (l1r a : ℝ) (h : ConvexFit C R l1r)
    (hw' : ∀ i, 0 ≤ R'.sw i) (hr : RegularFit C R l1r a) (hr' : RegularFit C R' l1r (k * a)) (hs : ∀ j, 0 ≤ (stats n R.X R.sw).2 j)
    (hs' : ∀ j, 0 ≤ (stats n R'.X R'.sw).2 j) (ε : ℝ) (hε : 0 < ε) :
    ∃ δ : ℝ, 0 < δ ∧ ∀ (next next' : (ℕ → BitVec 32) → ℕ → (ℕ → BitVec 32)) (inner inner' : (ℕ → BitVec 32) → (m : ℕ) → Inner m p ic) (C₁ C₂ : FitCfg p ic),
      SameProblem C C₁ → SameProblem C C₂ → C₁.stepTol = none → C₂.stepTol = none → C₁.gradTol < δ → C₂.gradTol < δ →
      ∀ (sp sp' : AlphaSpec) (s t s' t' : SolverLog) (r r' : PathResult), glmFit C₁ stats (irlsSolver next inner) R l1r sp s = some (t, r) →
        glmFit C₂ stats (irlsSolver next' inner') R' l1r sp' s' = some (t', r') →
        (∀ x ∈ r.alphas, 0 ≤ x) → (∀ x ∈ r'.alphas, 0 ≤ x) → t.convWarn = s.convWarn → t'.convWarn = s'.convWarn →
        ∀ (i i' : ℕ) (hi : i < r.alphas.length) (hc : i < r.coefPath.length) (hb : i < r.interceptPath.length)
          (hi' : i' < r'.alphas.length) (hc' : i' < r'.coefPath.length) (hb' : i' < r'.interceptPath.length),
          r.alphas[i] = a → r'.alphas[i'] = k * a → WithinBounds p C.lb C.ub r.coefPath[i] → WithinBounds p C.lb C.ub r'.coefPath[i'] →
          |r'.interceptPath[i'] - r.interceptPath[i]| ≤ ε ∧ ∀ j < p, |r'.coefPath[i'] j - r.coefPath[i] j| ≤ ε := by
  have h' : ConvexFit C R' l1r :=
    ⟨h.thr, h.valid, h.pair, fun i => by rw [hR.y]; exact ySupport_scale _ q hq (e i) _ (he i) (h.y i), hw', h.p1, h.p2, h.l1⟩
  have hpen : ∀ st st' : ℕ → ℝ, penScale C.thr C.asIfScaled st = penScale C.thr C.asIfScaled st' := fun st st' => by rw [hsc]; rfl
  obtain ⟨b0, b, hsol, -⟩ := c90_unique_solution C R l1r a h hr (stats n R.X R.sw).2
  have hsol' := hsol
  rw [hlog, ← c122_solutions e he k hk C.e50 C.family q hq R R' hR, ← hlog, hpen _ (stats n R'.X R'.sw).2] at hsol'
  obtain ⟨δ, hδ, hfit⟩ := c90_fits_converge C stats R l1r a h hr hs b0 b hsol (ε / 2) (by linarith)
  obtain ⟨δ', hδ', hfit'⟩ := c90_fits_converge C stats R' l1r _ h' hr' hs' b0 b hsol' (ε / 2) (by linarith)
  refine ⟨min δ δ', lt_min hδ hδ', fun next next' inner inner' C₁ C₂ h1 h2 st1 st2 g1 g2 sp sp' s t s' t' r r' f f' al al' w w' i i' hi hc hb hi' hc' hb' e e' wb wb' => ?_⟩
  obtain ⟨a1, a2⟩ := hfit next inner C₁ h1 st1 (lt_of_lt_of_le g1 (min_le_left _ _)) sp s t r f al w i hi hc hb e wb
  obtain ⟨a1', a2'⟩ := hfit' next' inner' C₂ h2 st2 (lt_of_lt_of_le g2 (min_le_right _ _)) sp' s' t' r' f' al' w' i' hi' hc' hb' e' wb'
  refine ⟨?_, fun j hj => ?_⟩
  · rw [abs_le] at a1 a1' ⊢
    constructor <;> linarith [a1.1, a1.2, a1'.1, a1'.2]
  · have x1 := a2 j hj
    have x2 := a2' j hj
    rw [abs_le] at x1 x2 ⊢
    constructor <;> linarith [x1.1, x1.2, x2.1, x2.2]

/-! ### Inference -/

/-- The arguments of `covariance_matrix` in the two formulations (the weights are the user's, not normalised). -/
structure Spec.ExposureCov (e : Fin n → ℝ) (q : ℝ) (D D' : CovData n p ic) : Prop where
  family : D'.f = D.f
  log : D.l = .log ∧ D'.l = .log
  X : D'.X = D.X
  y : ∀ i, D'.y i = e i * D.y i
  mu : ∀ i, D'.mu i = e i * D.mu i
  w : ∀ i, D.w i = D'.w i * e i ^ (2 - q)

theorem variance_power (f : Family) (q : ℝ) (hq : variancePower f = some q) (mu : ℝ) : f.unitVariance mu = mu ^ q := by
  cases f with
  | normal => simp only [variancePower, Option.some.injEq] at hq; subst hq; simp [Family.unitVariance]
  | poisson => simp only [variancePower, Option.some.injEq] at hq; subst hq; simp [Family.unitVariance]
  | gamma => simp only [variancePower, Option.some.injEq] at hq; subst hq; exact (Real.rpow_two mu).symm
  | invGaussian => simp only [variancePower, Option.some.injEq] at hq; subst hq; exact (Real.rpow_natCast mu 3).symm
  | tweedie p => simp only [variancePower, Option.some.injEq] at hq; subst hq; rfl
  | _ => cases hq

theorem varianceDerivative_power (f : Family) (q : ℝ) (hq : variancePower f = some q) (mu : ℝ) (hm : 0 < mu) :
    f.unitVarianceDerivative mu = q * mu ^ (q - 1) := by
  cases f with
  | normal => simp only [variancePower, Option.some.injEq] at hq; subst hq; simp [Family.unitVarianceDerivative]
  | poisson => simp only [variancePower, Option.some.injEq] at hq; subst hq; simp [Family.unitVarianceDerivative]
  | gamma =>
    simp only [variancePower, Option.some.injEq] at hq; subst hq
    rw [show (2 : ℝ) - 1 = 1 by norm_num, Real.rpow_one]; rfl
  | invGaussian =>
    simp only [variancePower, Option.some.injEq] at hq; subst hq
    rw [show (3 : ℝ) - 1 = 2 by norm_num, Real.rpow_two]; rfl
  | tweedie p => simp only [variancePower, Option.some.injEq] at hq; subst hq; rfl
  | _ => cases hq

theorem oov_log (f : Family) (mu eta d w : ℝ) : oneOverVariance f .log mu eta d w = 1 / (f.unitVariance mu * d / w) := by
  unfold oneOverVariance
  split
  · rename_i h; cases h
  · rfl

theorem oov_exposure (f : Family) (q : ℝ) (hq : variancePower f = some q) (e mu eta eta' d w : ℝ) (he : 0 < e) (hm : 0 < mu) :
    e ^ 2 * oneOverVariance f .log (e * mu) eta' d w = oneOverVariance f .log mu eta d (w * e ^ (2 - q)) := by
  rw [oov_log, oov_log, variance_power f q hq, variance_power f q hq, Real.mul_rpow he.le hm.le, Real.rpow_sub he, Real.rpow_two]
  have h1 : 0 < e ^ q := Real.rpow_pos_of_pos he q
  have h2 : 0 < mu ^ q := Real.rpow_pos_of_pos hm q
  rw [one_div_div, one_div_div]
  field_simp

theorem fisherW_exposure (f : Family) (q : ℝ) (hq : variancePower f = some q) (e mu d w : ℝ) (he : 0 < e) (hm : 0 < mu) :
    fisherW f .log d (e * mu) w = fisherW f .log d mu (w * e ^ (2 - q)) := by
  unfold fisherW
  rw [← oov_exposure f q hq e mu _ (Link.log.link (e * mu)) d w he hm]
  simp only [Link.inverseDerivative, Link.link]
  rw [Real.exp_log (mul_pos he hm), Real.exp_log hm]
  ring

theorem observedW_exposure (f : Family) (q : ℝ) (hq : variancePower f = some q) (e y mu d w : ℝ) (he : 0 < e) (hm : 0 < mu) :
    observedW f .log d (e * y) (e * mu) w = observedW f .log d y mu (w * e ^ (2 - q)) := by
  unfold observedW
  simp only
  rw [← oov_exposure f q hq e mu _ (Link.log.link (e * mu)) d w he hm]
  simp only [Link.inverseDerivative, Link.inverseDerivative2, Link.link]
  rw [Real.exp_log (mul_pos he hm), Real.exp_log hm, varianceDerivative_power f q hq _ hm, varianceDerivative_power f q hq _ (mul_pos he hm),
    variance_power f q hq, variance_power f q hq]
  have e1 : ∀ x : ℝ, 0 < x → x ^ (q - 1) = x ^ q / x := fun x hx => by rw [Real.rpow_sub hx, Real.rpow_one]
  have h1 : 0 < mu ^ q := Real.rpow_pos_of_pos hm q
  have h2 : 0 < (e * mu) ^ q := Real.rpow_pos_of_pos (mul_pos he hm) q
  rw [e1 _ hm, e1 _ (mul_pos he hm)]
  field_simp

theorem scoreW_exposure (f : Family) (q : ℝ) (hq : variancePower f = some q) (e y mu d w : ℝ) (he : 0 < e) (hm : 0 < mu) :
    scoreW f .log d (e * y) (e * mu) w = scoreW f .log d y mu (w * e ^ (2 - q)) := by
  unfold scoreW
  simp only
  rw [← oov_exposure f q hq e mu _ (Link.log.link (e * mu)) d w he hm]
  simp only [Link.inverseDerivative, Link.link]
  rw [Real.exp_log (mul_pos he hm), Real.exp_log hm]
  ring

section Cov
variable {e : Fin n → ℝ} {q : ℝ} {D D' : CovData n p ic}

theorem exposure_fisher (h : ExposureCov e q D D') (hq : variancePower D.f = some q) (he : ∀ i, 0 < e i) (hm : ∀ i, 0 < D.mu i) (d : ℝ) :
    (fun i => fisherW D'.f D'.l d (D'.mu i) (D'.w i)) = fun i => fisherW D.f D.l d (D.mu i) (D.w i) := by
  funext i
  rw [h.family, h.log.1, h.log.2, h.mu, h.w, fisherW_exposure D.f q hq _ _ _ _ (he i) (hm i)]

/-- The matrix of `covariance_matrix` before its factor for the degrees of freedom. -/
noncomputable def rawCovariance (D : CovData n p ic) (o : CovOptions n) (ok : Bool) : Option (Matrix (Fin (p + ic.toNat)) (Fin (p + ic.toNat)) ℝ) :=
  open Classical in
  if ok = false then none
  else match o.clusters with
    | some c =>
      if ∀ i, -(numGroups c : ℤ) ≤ c i ∧ c i < numGroups c then
        if numGroups c = 1 then none
        else (linSolve (D.oim o) (clusterInner (numGroups c) c (D.gradient o))).bind fun s1 => linSolve (D.oim o) s1.transpose
      else none
    | none =>
      if o.robust = true then
        (linSolve (D.oim o) (Matrix.of fun s t => ∑ i, D.gradient o i s * D.gradient o i t)).bind fun s1 => linSolve (D.oim o) s1.transpose
      else linSolve (sandwichMatrix p ic D.X fun i => fisherW D.f D.l (D.disp o) (D.mu i) (D.w i)) 1

/-- The factor for the degrees of freedom, as documented: `G/(G-1) · (W-1)/(W-p)` with `G` clusters, `W/(W-p)` without; `W` is the sum of the weights, `p` the number
of parameters. -/
noncomputable def Spec.dofFactor (p : ℕ) (ic : Bool) (clusters : Option (Fin n → ℤ)) (W : ℝ) : ℝ :=
  clusters.elim (W / (W - p - ic.toNat)) fun c => (numGroups c : ℝ) / ((numGroups c : ℝ) - 1) * ((W - 1) / (W - p - ic.toNat))

open Classical in
theorem covariance_raw (D : CovData n p ic) (o : CovOptions n) (ok : Bool) :
    covariance D o ok = (rawCovariance D o ok).map (dofFactor p ic o.clusters (∑ i, D.w i) • ·) := by
  obtain ⟨r, ex, cl, d⟩ := o
  cases cl with
  | some c =>
    rw [covariance_clustered]
    unfold rawCovariance dofFactor
    simp only [Option.elim_some]
    split
    · rfl
    · by_cases hl : ∀ i, -(numGroups c : ℤ) ≤ c i ∧ c i < numGroups c
      · rw [if_pos hl, if_pos hl]
        split
        · rfl
        · simp only [bind]
          cases linSolve (D.oim ⟨r, ex, some c, d⟩) (clusterInner (numGroups c) c (D.gradient ⟨r, ex, some c, d⟩)) with
          | none => rfl
          | some s1 =>
            simp only [Option.bind_some]
            cases linSolve (D.oim ⟨r, ex, some c, d⟩) s1.transpose with
            | none => rfl
            | some s2 => rfl
      · rw [if_neg hl, if_neg hl]
        rfl
  | none =>
    unfold dofFactor
    simp only [Option.elim_none]
    cases r with
    | true =>
      rw [covariance_robust]
      unfold rawCovariance
      simp only [if_true]
      split
      · rfl
      · simp only [bind]
        cases linSolve (D.oim ⟨true, ex, none, d⟩) (Matrix.of fun s t => ∑ i, D.gradient ⟨true, ex, none, d⟩ i s * D.gradient ⟨true, ex, none, d⟩ i t) with
        | none => rfl
        | some s1 =>
          simp only [Option.bind_some]
          cases linSolve (D.oim ⟨true, ex, none, d⟩) s1.transpose with
          | none => rfl
          | some s2 => rfl
    | false =>
      unfold covariance rawCovariance
      simp only
      split
      · rfl
      · rw [if_neg (by simp), if_neg (by simp)]
        simp only [bind]
        cases linSolve (sandwichMatrix p ic D.X fun i => fisherW D.f D.l (D.disp ⟨false, ex, none, d⟩) (D.mu i) (D.w i)) (1 : Matrix (Fin (p + ic.toNat)) (Fin (p + ic.toNat)) ℝ) with
        | none => rfl
        | some s1 => rfl

/-- **C122, covariance.** With a given dispersion, for all options (robust, clustered, expected information): the covariance matrices of the two formulations are the same
matrix times the factors for the degrees of freedom, which see different sums of weights. -/
theorem c122_covariance (h : ExposureCov e q D D') (hq : variancePower D.f = some q) (he : ∀ i, 0 < e i) (hm : ∀ i, 0 < D.mu i) (robust expected : Bool)
    (clusters : Option (Fin n → ℤ)) (d : ℝ) (ok : Bool) :
    ∃ V : Option (Matrix (Fin (p + ic.toNat)) (Fin (p + ic.toNat)) ℝ),
      covariance D ⟨robust, expected, clusters, some d⟩ ok = V.map (dofFactor p ic clusters (∑ i, D.w i) • ·) ∧
      covariance D' ⟨robust, expected, clusters, some d⟩ ok = V.map (dofFactor p ic clusters (∑ i, D'.w i) • ·) := by
  refine ⟨rawCovariance D ⟨robust, expected, clusters, some d⟩ ok, covariance_raw D _ ok, ?_⟩
  rw [covariance_raw D']
  congr 1
  have ho : D'.oim ⟨robust, expected, clusters, some d⟩ = D.oim ⟨robust, expected, clusters, some d⟩ := by
    unfold CovData.oim CovData.disp
    simp only [Option.getD_some]
    rw [exposure_fisher h hq he hm, h.X]
    congr 2
    funext i
    rw [h.family, h.log.1, h.log.2, h.mu, h.y, h.w, observedW_exposure D.f q hq _ _ _ _ _ (he i) (hm i)]
  have hg : D'.gradient ⟨robust, expected, clusters, some d⟩ = D.gradient ⟨robust, expected, clusters, some d⟩ := by
    unfold CovData.gradient CovData.disp
    simp only [Option.getD_some]
    rw [h.X]
    congr 1
    funext i
    rw [h.family, h.log.1, h.log.2, h.mu, h.y, h.w, scoreW_exposure D.f q hq _ _ _ _ _ (he i) (hm i)]
  unfold rawCovariance CovData.disp
  simp only [Option.getD_some]
  rw [ho, hg, exposure_fisher h hq he hm, h.X]

/-- **C122, dispersion.** The Pearson statistics are the same; the estimated dispersions divide them by different degrees of freedom. -/
theorem c122_dispersion (h : ExposureCov e q D D') (hq : variancePower D.f = some q) (he : ∀ i, 0 < e i) (hm : ∀ i, 0 < D.mu i) (ddof : ℝ)
    (h1 : ∑ i, D.w i ≠ ddof) (h2 : ∑ i, D'.w i ≠ ddof) :
    dispersionPearson D'.f D'.y D'.mu D'.w ddof * (∑ i, D'.w i - ddof) = dispersionPearson D.f D.y D.mu D.w ddof * (∑ i, D.w i - ddof) := by
  unfold dispersionPearson
  rw [div_mul_cancel₀ _ (sub_ne_zero.2 h1), div_mul_cancel₀ _ (sub_ne_zero.2 h2)]
  refine Finset.sum_congr rfl fun i _ => ?_
  rw [h.family, h.mu, h.y, h.w, variance_power D.f q hq, variance_power D.f q hq, Real.mul_rpow (he i).le (hm i).le, Real.rpow_sub (he i), Real.rpow_two]
  have h3 : 0 < e i ^ q := Real.rpow_pos_of_pos (he i) q
  have h4 : 0 < D.mu i ^ q := Real.rpow_pos_of_pos (hm i) q
  field_simp

end Cov

/-! ### Non-vacuity -/

noncomputable section

/-- Exposures 1 and 2. -/
def expoE : Fin 2 → ℝ := fun i => if i.val = 0 then 1 else 2

/-- Rates 1 and 2 with weights proportional to the exposure. -/
def expoRates : Rows 2 where
  X := fun i _ => if i.val = 0 then 1 else -1
  y := fun i => if i.val = 0 then 1 else 2
  sw := fun i => if i.val = 0 then 1 / 3 else 2 / 3
  off := none

/-- Counts 1 and 4, equal weights, `log` exposure as offset. -/
def expoTotals : Rows 2 where
  X := fun i _ => if i.val = 0 then 1 else -1
  y := fun i => if i.val = 0 then 1 else 4
  sw := fun _ => 1 / 2
  off := some fun i => Real.log (expoE i)

theorem expo_moved : ExposureMoved expoE 1 (3 / 2) expoRates expoTotals := by
  refine ⟨rfl, fun i => ?_, fun i => ?_, fun i => ?_⟩
  · fin_cases i <;> norm_num [expoTotals, expoRates, expoE]
  · simp [expoTotals, expoRates]
  · rw [rpow_two_one]
    fin_cases i <;> norm_num [expoTotals, expoRates, expoE]

theorem expoE_pos (i : Fin 2) : 0 < expoE i := by fin_cases i <;> norm_num [expoE]

theorem expo_guess (y w : Fin 2 → ℝ) (hy : ∃ i j, y i ≠ y j) (hp : 0 < average y w) :
    ∃ g, guessIntercept (flatCfg 1).family (flatCfg 1).link y w .none = some g := by
  refine ⟨Real.log (average y w), ?_⟩
  show guessIntercept .poisson .log y w .none = _
  unfold guessIntercept
  rw [if_neg (by
    rintro ⟨-, c, hc⟩
    obtain ⟨i, j, hij⟩ := hy
    exact hij ((hc i).trans (hc j).symm))]
  simp only [safeLog, if_pos hp]
  rfl

/-- Poisson regression of the counts with offset and of the rates with weights: the hypotheses of `c122_limits` hold. -/
example (ε : ℝ) (hε : 0 < ε) :
    ∃ δ : ℝ, 0 < δ ∧ ∀ (next next' : (ℕ → BitVec 32) → ℕ → (ℕ → BitVec 32)) (inner inner' : (ℕ → BitVec 32) → (m : ℕ) → Inner m 1 true) (C₁ C₂ : FitCfg 1 true),
      SameProblem (flatCfg 1) C₁ → SameProblem (flatCfg 1) C₂ → C₁.stepTol = none → C₂.stepTol = none → C₁.gradTol < δ → C₂.gradTol < δ →
      ∀ (sp sp' : AlphaSpec) (s t s' t' : SolverLog) (r r' : PathResult), glmFit C₁ trueStats (irlsSolver next inner) expoRates 0 sp s = some (t, r) →
        glmFit C₂ trueStats (irlsSolver next' inner') expoTotals 0 sp' s' = some (t', r') →
        (∀ x ∈ r.alphas, 0 ≤ x) → (∀ x ∈ r'.alphas, 0 ≤ x) → t.convWarn = s.convWarn → t'.convWarn = s'.convWarn →
        ∀ (i i' : ℕ) (hi : i < r.alphas.length) (hc : i < r.coefPath.length) (hb : i < r.interceptPath.length)
          (hi' : i' < r'.alphas.length) (hc' : i' < r'.coefPath.length) (hb' : i' < r'.interceptPath.length),
          r.alphas[i] = 2 → r'.alphas[i'] = 3 / 2 * 2 → WithinBounds 1 (flatCfg 1).lb (flatCfg 1).ub r.coefPath[i] →
          WithinBounds 1 (flatCfg 1).lb (flatCfg 1).ub r'.coefPath[i'] →
          |r'.interceptPath[i'] - r.interceptPath[i]| ≤ ε ∧ ∀ j < 1, |r'.coefPath[i'] j - r.coefPath[i] j| ≤ ε := by
  have hroom : ∃ b, WithinBounds 1 (flatCfg 1).lb (flatCfg 1).ub b := ⟨fun _ => 0, fun j _ => ⟨fun l hl => (by cases hl), fun u hu => (by cases hu)⟩⟩
  have hc := flat_convex 1 1 0 one_pos ⟨le_rfl, zero_le_one⟩
  refine c122_limits expoE expoE_pos (3 / 2) (by norm_num) (flatCfg 1) rfl rfl 1 rfl trueStats expoRates expoTotals expo_moved 0 2
    ⟨hc.thr, hc.valid, hc.pair, fun i => ?_, fun i => ?_, hc.p1, hc.p2, le_rfl, zero_le_one⟩ (fun i => by norm_num [expoTotals])
    ⟨?_, by norm_num, one_pos, one_posdef, fun _ => expo_guess _ _ ⟨0, 1, by norm_num [expoRates]⟩ ?_, hroom⟩
    ⟨?_, by norm_num, one_pos, one_posdef, fun _ => expo_guess _ _ ⟨0, 1, by norm_num [expoTotals]⟩ ?_, hroom⟩
    (fun j => Real.sqrt_nonneg _) (fun j => Real.sqrt_nonneg _) ε hε
  · show 0 ≤ expoRates.y i
    fin_cases i <;> norm_num [expoRates]
  · fin_cases i <;> norm_num [expoRates]
  · norm_num [expoRates, Fin.sum_univ_two]
  · norm_num [average, expoRates, Fin.sum_univ_two]
  · norm_num [expoTotals, Fin.sum_univ_two]
  · norm_num [average, expoTotals, Fin.sum_univ_two]

/-- The same data for `covariance_matrix`, weights not normalised. -/
def expoCov : CovData 2 1 false where
  f := .poisson
  l := .log
  X := expoRates.X
  y := expoRates.y
  mu := fun _ => 1
  w := expoE

def expoCov' : CovData 2 1 false where
  f := .poisson
  l := .log
  X := expoRates.X
  y := expoTotals.y
  mu := expoE
  w := fun _ => 1

/-- **C122, the factors differ**: exposures 1 and 2, one parameter: the standard errors are larger by `√(4/3)` when the exposure is an offset. -/
theorem c122_factors_differ : ExposureCov expoE 1 expoCov expoCov' ∧ dofFactor 1 false (none : Option (Fin 2 → ℤ)) (∑ i, expoCov.w i) = 3 / 2 ∧
    dofFactor 1 false (none : Option (Fin 2 → ℤ)) (∑ i, expoCov'.w i) = 2 := by
  refine ⟨⟨rfl, ⟨rfl, rfl⟩, rfl, expo_moved.y, fun i => (mul_one _).symm, fun i => ?_⟩, ?_, ?_⟩
  · rw [rpow_two_one]; exact (one_mul _).symm
  · norm_num [dofFactor, expoCov, expoE, Fin.sum_univ_two]
  · norm_num [dofFactor, expoCov', Fin.sum_univ_two]

end

end Glum
