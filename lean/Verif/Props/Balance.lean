import Verif.Props.EndToEnd
import Verif.Props.OneStepFit
/-
C77: the balance property.  A fit without `ConvergenceWarning` satisfies the estimating equations up to `gradient_tol`; for canonical links
the weighted total of the fitted means is the weighted total of the observations.
-/
set_option linter.unusedSectionVars false
set_option linter.unusedVariables false
set_option linter.unusedSimpArgs false

namespace Glum
open Spec

variable {n p : ℕ} {ic : Bool}

/-- The linear predictor of row `i` for intercept `b0` and coefficients `b`. -/
def Spec.etaAt (p : ℕ) (R : Rows n) (b0 : ℝ) (b : ℕ → ℝ) (i : Fin n) : ℝ :=
  ∑ j : Fin p, R.X i j * b j + b0 + (R.off.getD fun _ => 0) i

theorem rowFam_grad (e50 : ℝ) (f : Family) (hf : Valid f) (l : Link) (k : Fast) (h : f.fast l = some k) (y w eta : ℝ) :
    (rowFam e50 f l).grad y w eta ((rowFam e50 f l).inv eta)
      = w * ((y - trueMean e50 f l eta) * (l.inverseDerivative eta / f.unitVariance (trueMean e50 f l eta))) := by
  have hm : trueMean e50 f l eta = k.mu eta := by
    rcases fast_cases h with ⟨rfl, rfl, rfl | rfl⟩ | ⟨rfl, rfl, rfl | rfl⟩ | ⟨rfl, rfl, rfl | rfl⟩ | ⟨rfl, rfl, rfl | rfl⟩ |
      ⟨p, rfl, rfl, rfl, h1, h2⟩ | ⟨rfl, rfl, rfl⟩ | ⟨t, rfl, rfl, rfl⟩ <;> try rfl
    rw [fast_mu_logit]; rfl
  unfold rowFam
  rw [h, hm]
  simp only [fastRow]
  rw [fast_grad_eq hf h]
  ring

theorem std_P1_nonneg (C : FitCfg p ic) (ht : 0 < C.thr) (R : Rows n) (l1r : ℝ) (hl : 0 ≤ l1r) (hp1 : ∀ j, 0 ≤ userP1 C.P1a j)
    (means stds : ℕ → ℝ) (hs : ∀ j, 0 ≤ stds j) (P1 : ℕ → ℝ) (P2 : Pen2 ℝ) (h1 : setupP1 p 1 l1r C.P1a = some P1) (a : ℝ) (ha : 0 ≤ a) (j : ℕ) :
    0 ≤ (stdData C.thr C.asIfScaled means stds (C.problem R (fun j => P1 j * a) (P2.smul a))).P1 j := by
  have hPe : ∀ j, P1 j = l1r * userP1 C.P1a j := by
    intro j
    cases hP : C.P1a with
    | str s =>
      rw [hP] at h1
      simp only [setupP1] at h1
      split at h1
      · simp only [Option.some.injEq] at h1; rw [← h1]; simp [userP1]
      · simp at h1
    | none =>
      rw [hP] at h1
      simp only [setupP1, Option.some.injEq] at h1; rw [← h1]; simp [userP1]
    | vec len v =>
      rw [hP] at h1
      simp only [setupP1] at h1
      split at h1
      · simp only [Option.some.injEq] at h1; rw [← h1]; simp [userP1]
      · simp at h1
  have h0 : 0 ≤ P1 j * a := by rw [hPe]; exact mul_nonneg (mul_nonneg hl (hp1 j)) ha
  show 0 ≤ (standardize C.thr ic C.asIfScaled means stds R.X C.lb C.ub none (fun j => P1 j * a) (P2.smul a)).P1 j
  unfold standardize
  simp only
  split
  · exact h0
  · exact mul_nonneg h0 (oneOverStd_pos C.thr _ ht (hs j)).le

/-- A fit without `ConvergenceWarning`: every row of the path is the report of a point at which the stopping rule holds. -/
theorem rows_stopped (next : (ℕ → BitVec 32) → ℕ → (ℕ → BitVec 32))
    (inner : (ℕ → BitVec 32) → (m : ℕ) → Inner m p ic) (C : FitCfg p ic) (ht : 0 < C.thr) (stats : Stats) (R : Rows n) (l1r : ℝ)
    (hl : 0 ≤ l1r) (hp1 : ∀ j, 0 ≤ userP1 C.P1a j)
    (hs : ∀ j, 0 ≤ (stats n R.X R.sw).2 j) (hstep : C.stepTol = none) (a : AlphaSpec) (s s' : SolverLog) (r : PathResult)
    (hfit : glmFit C stats (irlsSolver next inner) R l1r a s = some (s', r)) (ha : ∀ x ∈ r.alphas, 0 ≤ x)
    (hw : s'.convWarn = s.convWarn) (i : ℕ) (hi : i < r.alphas.length) (hc : i < r.coefPath.length) (hb : i < r.interceptPath.length) :
    ∃ P1 P2, setupP1 p 1 l1r C.P1a = some P1 ∧ setupP2 p C.xsp 1 l1r C.P2a = some P2 ∧ ∃ c : Fin (p + ic.toNat) → ℝ,
      r.interceptPath[i] = (report ic C.thr (stats n R.X R.sw).1 (stats n R.X R.sw).2 c).1 ∧
      r.coefPath[i] = (report ic C.thr (stats n R.X R.sw).1 (stats n R.X R.sw).2 c).2 ∧
      (let D := stdData C.thr C.asIfScaled (stats n R.X R.sw).1 (stats n R.X R.sw).2
          (C.problem R (fun j => P1 j * r.alphas[i]) (P2.smul r.alphas[i]))
       (normMinSubgrad (List.finRange (p + ic.toNat)) c (fun k => -scoreAt D c k) D.P1 ic D.lb D.ub).1 < C.gradTol) := by
  obtain ⟨Q, hQ, -, hs', hst, -⟩ := glmFit_spec C stats (irlsSolver next inner) R l1r a s s' r hfit
  obtain ⟨hlen, states, hst0, hstn, hrows⟩ := c41_path (Q.solveFn (irlsSolver next inner)) Q.D.P1 Q.D.P2 r.alphas s Q.start
  obtain ⟨P1, P2, h1, h2, hm, hsd, hD, -⟩ := prepare_spec C stats R l1r Q hQ
  unfold Prepared.path at *
  have hi' : i < (solvePath (Q.solveFn (irlsSolver next inner)) Q.D.P1 Q.D.P2 r.alphas s Q.start).2.length := by rw [hlen]; exact hi
  obtain ⟨e1, e2⟩ := storePath_rows C.thr Q.means Q.stds r.alphas _ r hst i hi'
  rw [List.getElem?_eq_getElem hc, Option.some.injEq] at e1
  rw [List.getElem?_eq_getElem hb, Option.some.injEq] at e2
  have hrow := congrArg Prod.snd (hrows i hi hi')
  simp only at hrow
  have hconv := all_converged next inner Q r.alphas states _ hlen Q.start (by rw [hstn, hst0, ← hs']; exact hw) hrows i hi
  generalize hstart : (if h : i = 0 then Q.start
    else (solvePath (Q.solveFn (irlsSolver next inner)) Q.D.P1 Q.D.P2 r.alphas s Q.start).2[i - 1]) = start at hrow hconv
  have hDD : Q.D.withPen (fun j => Q.D.P1 j * r.alphas[i]) (Q.D.P2.smul r.alphas[i]) =
      stdData C.thr C.asIfScaled (stats n R.X R.sw).1 (stats n R.X R.sw).2
        (C.problem R (fun j => P1 j * r.alphas[i]) (P2.smul r.alphas[i])) := by
    rw [hD, withPen_std, hm, hsd]
  have hPd : ∀ j, 0 ≤ (Q.D.withPen (fun j => Q.D.P1 j * r.alphas[i]) (Q.D.P2.smul r.alphas[i])).P1 j := by
    intro j
    rw [hDD]
    exact std_P1_nonneg C ht R l1r hl hp1 _ _ hs P1 P2 h1 _ (ha _ (List.getElem_mem hi)) j
  refine ⟨P1, P2, h1, h2, (irlsRun (inner (states i).seeds n) (Q.D.withPen (fun j => Q.D.P1 j * r.alphas[i]) (Q.D.P2.smul r.alphas[i])) start).coef,
    ?_, ?_, ?_⟩
  · rw [e2, ← hrow, hm, hsd]; rfl
  · rw [e1, ← hrow, hm, hsd]; rfl
  · have hv := irlsRun_visited (inner (states i).seeds n) (Q.D.withPen (fun j => Q.D.P1 j * r.alphas[i]) (Q.D.P2.smul r.alphas[i])) start
    rcases (converged_iff _ _ hPd _ _ hv).1 hconv with hg | ⟨t, hT, -⟩
    · rw [hDD] at hg ⊢
      exact hg
    · have : (Q.D.withPen (fun j => Q.D.P1 j * r.alphas[i]) (Q.D.P2.smul r.alphas[i])).stepTol = C.stepTol := by rw [hD]; rfl
      rw [this, hstep] at hT
      cases hT

/-- Two contributions to the stopping rule together stay below its value. -/
theorem stop_two {m : ℕ} (coef grad : Fin m → ℝ) (P1 : ℕ → ℝ) (ic : Bool) (lb ub : Option (ℕ → ℝ)) (hm : ic.toNat ≤ m) (s t : Fin m)
    (hst : s ≠ t) :
    absTerm coef grad P1 ic lb ub s + absTerm coef grad P1 ic lb ub t
      ≤ (normMinSubgrad (List.finRange m) coef grad P1 ic lb ub).1 := by
  have := norm_eq_finset_sum (id : Fin m → Fin m) strictMono_id coef grad P1 ic lb ub
  rw [List.map_id] at this
  rw [this, ← Finset.sum_pair hst]
  exact Finset.sum_le_sum_of_subset_of_nonneg (Finset.subset_univ _) fun _ _ _ => absTerm_nonneg _ _ _ _ _ _ _

theorem stop_one {m : ℕ} (coef grad : Fin m → ℝ) (P1 : ℕ → ℝ) (ic : Bool) (lb ub : Option (ℕ → ℝ)) (s : Fin m) :
    absTerm coef grad P1 ic lb ub s ≤ (normMinSubgrad (List.finRange m) coef grad P1 ic lb ub).1 := by
  have := norm_eq_finset_sum (id : Fin m → Fin m) strictMono_id coef grad P1 ic lb ub
  rw [List.map_id] at this
  rw [this]
  exact Finset.single_le_sum (f := fun s => absTerm coef grad P1 ic lb ub (id s)) (fun _ _ => absTerm_nonneg _ _ _ _ _ _ _) (Finset.mem_univ s)

/-- The weighted residual of row `i`, with the factor `h'(eta) / V(mu)` of the estimating equations (`h` the inverse link, `V` the unit
variance). -/
noncomputable def Spec.scoreResidual (C : FitCfg p ic) (R : Rows n) (b0 : ℝ) (b : ℕ → ℝ) (i : Fin n) : ℝ :=
  R.sw i * ((R.y i - trueMean C.e50 C.family C.link (etaAt p R b0 b i)) *
    (C.link.inverseDerivative (etaAt p R b0 b i) / C.family.unitVariance (trueMean C.e50 C.family C.link (etaAt p R b0 b i))))

/-- The rows' gradients at the solver's point are the weighted residuals at the reported one. -/
theorem score_report (C : FitCfg p ic) (hf : Valid C.family) (k : Fast) (hk : C.family.fast C.link = some k) (R : Rows n) (means stds : ℕ → ℝ)
    (P1 : ℕ → ℝ) (P2 : Pen2 ℝ) (c : Fin (p + ic.toNat) → ℝ) (t : Fin (p + ic.toNat)) :
    scoreAt (stdData C.thr C.asIfScaled means stds (C.problem R P1 P2)) c t =
      ∑ i, design ic (stdX C.thr ic means stds R.X) i t *
        scoreResidual C R (report ic C.thr means stds c).1 (report ic C.thr means stds c).2 i
      - ∑ i, p2Full ic (stdData C.thr C.asIfScaled means stds (C.problem R P1 P2)).P2 i t * c i := by
  unfold scoreAt
  congr 1
  refine Finset.sum_congr rfl fun i _ => ?_
  have hX : (stdData C.thr C.asIfScaled means stds (C.problem R P1 P2)).X = stdX C.thr ic means stds R.X := rfl
  have hoff : off (stdData C.thr C.asIfScaled means stds (C.problem R P1 P2)) = R.off.getD fun _ => 0 := rfl
  have hfam : (stdData C.thr C.asIfScaled means stds (C.problem R P1 P2)).fam = rowFam C.e50 C.family C.link := rfl
  have hy : (stdData C.thr C.asIfScaled means stds (C.problem R P1 P2)).y = R.y := rfl
  have hsw : (stdData C.thr C.asIfScaled means stds (C.problem R P1 P2)).sw = R.sw := rfl
  rw [hX, hoff, hfam, hy, hsw, rowFam_grad C.e50 C.family hf C.link k hk, ← c15_same_predictions]
  rfl

/-- **C77.** Estimating equation of the intercept.  `fit` with an intercept and an IRLS solver (any inner solver, any random numbers), any
penalties, bounds, offset, start, scaling and alphas, no `step_size_tol`, for the compiled pairs of family and link: if no `ConvergenceWarning`
was raised, then at every row of the path the weighted residuals times `h'(eta)/V(mu)` add up to less than `gradient_tol`. -/
theorem c77_intercept_equation (next : (ℕ → BitVec 32) → ℕ → (ℕ → BitVec 32))
    (inner : (ℕ → BitVec 32) → (m : ℕ) → Inner m p true) (C : FitCfg p true) (ht : 0 < C.thr) (hf : Valid C.family) (k : Fast)
    (hk : C.family.fast C.link = some k) (stats : Stats) (R : Rows n) (l1r : ℝ)
    (hl : 0 ≤ l1r) (hp1 : ∀ j, 0 ≤ userP1 C.P1a j)
    (hs : ∀ j, 0 ≤ (stats n R.X R.sw).2 j) (hstep : C.stepTol = none) (a : AlphaSpec) (s s' : SolverLog) (r : PathResult)
    (hfit : glmFit C stats (irlsSolver next inner) R l1r a s = some (s', r)) (ha : ∀ x ∈ r.alphas, 0 ≤ x)
    (hw : s'.convWarn = s.convWarn) (i : ℕ) (hi : i < r.alphas.length) (hc : i < r.coefPath.length) (hb : i < r.interceptPath.length) :
    |∑ q, scoreResidual C R r.interceptPath[i] r.coefPath[i] q| < C.gradTol := by
  obtain ⟨P1, P2, h1, h2, c, e0, e, hn⟩ := rows_stopped next inner C ht stats R l1r hl hp1 hs hstep a s s' r hfit ha hw i hi hc hb
  simp only at hn
  refine lt_of_le_of_lt ?_ hn
  refine le_trans ?_ (stop_one _ _ _ _ _ _ (⟨0, by simp⟩ : Fin (p + true.toNat)))
  unfold absTerm
  rw [if_pos (by simp)]
  beta_reduce
  rw [score_report C hf k hk, abs_neg]
  rw [e0, e]
  have hp : ∀ q : Fin (p + true.toNat), p2Full true (stdData C.thr C.asIfScaled (stats n R.X R.sw).1 (stats n R.X R.sw).2
      (C.problem R (fun j => P1 j * r.alphas[i]) (P2.smul r.alphas[i]))).P2 q (⟨0, by simp⟩ : Fin (p + true.toNat)) = 0 := by
    intro q
    unfold p2Full
    cases q.val <;> rfl
  simp only [hp, zero_mul, Finset.sum_const_zero, sub_zero]
  have hd : ∀ q : Fin n, design true (stdX C.thr true (stats n R.X R.sw).1 (stats n R.X R.sw).2 R.X) q (⟨0, by simp⟩ : Fin (p + true.toNat)) = 1 :=
    fun q => rfl
  simp only [hd, one_mul]
  exact le_refl _

/-- The pairs for which the factor is one: normal with identity link, Poisson with log link, binomial with logit link. -/
inductive Spec.Canonical : Family → Link → Prop
  | normal : Canonical .normal .identity
  | poisson : Canonical .poisson .log
  | binomial : Canonical .binomial .logit

theorem canonical_fast {f : Family} {l : Link} (h : Canonical f l) : Valid f ∧ ∃ k, f.fast l = some k := by
  cases h <;> exact ⟨trivial, _, rfl⟩

theorem canonical_factor (e50 : ℝ) {f : Family} {l : Link} (h : Canonical f l) (eta : ℝ) :
    l.inverseDerivative eta / f.unitVariance (trueMean e50 f l eta) = 1 := by
  obtain ⟨hf, k, hk⟩ := canonical_fast h
  have h1 := rowFam_grad e50 f hf l k hk (trueMean e50 f l eta + 1) 1 eta
  have hm : trueMean e50 f l eta = k.mu eta := by
    cases h <;> simp only [Family.fast, Option.some.injEq] at hk <;> subst hk
    · rfl
    · rfl
    · rw [fast_mu_logit]; rfl
  have hg : (rowFam e50 f l).grad (trueMean e50 f l eta + 1) 1 eta ((rowFam e50 f l).inv eta) = 1 := by
    have : (rowFam e50 f l).grad (trueMean e50 f l eta + 1) 1 eta ((rowFam e50 f l).inv eta)
        = k.grad (k.mu eta + 1) 1 (k.mu eta) := by
      unfold rowFam; rw [hk, hm]; rfl
    rw [this]
    cases h <;> simp only [Family.fast, Option.some.injEq] at hk <;> subst hk <;> simp [Fast.grad]
  rw [hg] at h1
  simpa using h1.symm

/-- **C77, balance.** With a canonical link the weighted fitted means and the weighted observations have the same total up to
`gradient_tol`: the model is balanced on the training data, whatever the penalties and bounds of the features. -/
theorem c77_balance (next : (ℕ → BitVec 32) → ℕ → (ℕ → BitVec 32))
    (inner : (ℕ → BitVec 32) → (m : ℕ) → Inner m p true) (C : FitCfg p true) (ht : 0 < C.thr) (hcan : Canonical C.family C.link)
    (stats : Stats) (R : Rows n) (l1r : ℝ) (hl : 0 ≤ l1r) (hp1 : ∀ j, 0 ≤ userP1 C.P1a j)
    (hs : ∀ j, 0 ≤ (stats n R.X R.sw).2 j) (hstep : C.stepTol = none) (a : AlphaSpec) (s s' : SolverLog) (r : PathResult)
    (hfit : glmFit C stats (irlsSolver next inner) R l1r a s = some (s', r)) (ha : ∀ x ∈ r.alphas, 0 ≤ x)
    (hw : s'.convWarn = s.convWarn) (i : ℕ) (hi : i < r.alphas.length) (hc : i < r.coefPath.length) (hb : i < r.interceptPath.length) :
    |∑ q, R.sw q * R.y q - ∑ q, R.sw q * trueMean C.e50 C.family C.link (etaAt p R r.interceptPath[i] r.coefPath[i] q)| < C.gradTol := by
  obtain ⟨hf, k, hk⟩ := canonical_fast hcan
  have := c77_intercept_equation next inner C ht hf k hk stats R l1r hl hp1 hs hstep a s s' r hfit ha hw i hi hc hb
  unfold scoreResidual at this
  simp only [canonical_factor C.e50 hcan, mul_one, mul_sub, Finset.sum_sub_distrib] at this
  exact this

theorem colScale_nonneg (thr : ℝ) (stds : ℕ → ℝ) (hs : ∀ j, 0 ≤ stds j) (j : ℕ) : 0 ≤ colScale thr stds j := by
  unfold colScale; split
  · exact zero_le_one
  · exact hs j

/-- **C77, unpenalised features.** At a row of the path with `alpha = 0`, without bounds: for every feature the weighted residuals times
`h'(eta)/V(mu)` times the feature add up to at most `gradient_tol` times the larger of the column's scale and its mean (in absolute value). -/
theorem c77_feature_equation (next : (ℕ → BitVec 32) → ℕ → (ℕ → BitVec 32))
    (inner : (ℕ → BitVec 32) → (m : ℕ) → Inner m p true) (C : FitCfg p true) (ht : 0 < C.thr) (hf : Valid C.family) (k : Fast)
    (hk : C.family.fast C.link = some k) (hlb : C.lb = none) (hub : C.ub = none) (stats : Stats) (R : Rows n) (l1r : ℝ)
    (hl : 0 ≤ l1r) (hp1 : ∀ j, 0 ≤ userP1 C.P1a j)
    (hs : ∀ j, 0 ≤ (stats n R.X R.sw).2 j) (hstep : C.stepTol = none) (a : AlphaSpec) (s s' : SolverLog) (r : PathResult)
    (hfit : glmFit C stats (irlsSolver next inner) R l1r a s = some (s', r)) (ha : ∀ x ∈ r.alphas, 0 ≤ x)
    (hw : s'.convWarn = s.convWarn) (i : ℕ) (hi : i < r.alphas.length) (hc : i < r.coefPath.length) (hb : i < r.interceptPath.length)
    (hzero : r.alphas[i] = 0) (j : Fin p) :
    |∑ q, R.X q j * scoreResidual C R r.interceptPath[i] r.coefPath[i] q|
      ≤ C.gradTol * max (colScale C.thr (stats n R.X R.sw).2 j) |(stats n R.X R.sw).1 j| := by
  obtain ⟨P1, P2, h1, h2, c, e0, e, hn⟩ := rows_stopped next inner C ht stats R l1r hl hp1 hs hstep a s s' r hfit ha hw i hi hc hb
  simp only at hn
  set means := (stats n R.X R.sw).1
  set stds := (stats n R.X R.sw).2
  have htwo := stop_two c (fun k => -scoreAt (stdData C.thr C.asIfScaled means stds (C.problem R (fun j => P1 j * r.alphas[i])
    (P2.smul r.alphas[i]))) c k) (stdData C.thr C.asIfScaled means stds (C.problem R (fun j => P1 j * r.alphas[i]) (P2.smul r.alphas[i]))).P1
    true (stdData C.thr C.asIfScaled means stds (C.problem R (fun j => P1 j * r.alphas[i]) (P2.smul r.alphas[i]))).lb
    (stdData C.thr C.asIfScaled means stds (C.problem R (fun j => P1 j * r.alphas[i]) (P2.smul r.alphas[i]))).ub (by simp)
    (⟨0, by simp⟩ : Fin (p + true.toNat)) (⟨j + 1, by simp⟩ : Fin (p + true.toNat)) (by simp)
  have hlt := lt_of_le_of_lt htwo hn
  set res := scoreResidual C R r.interceptPath[i] r.coefPath[i] with hres
  -- the penalty vanishes
  have hp2 : ∀ x y : Fin (p + true.toNat), p2Full true (stdData C.thr C.asIfScaled means stds
      (C.problem R (fun j => P1 j * r.alphas[i]) (P2.smul r.alphas[i]))).P2 x y = 0 := by
    intro x y
    have : ∀ u v, p2Matrix (stdData C.thr C.asIfScaled means stds
        (C.problem R (fun j => P1 j * r.alphas[i]) (P2.smul r.alphas[i]))).P2 u v = 0 := by
      intro u v
      have h0 : ∀ u v, p2Matrix (P2.smul r.alphas[i]) u v = 0 := fun u v => by rw [smul_entry, hzero, zero_mul]
      show p2Matrix (standardize C.thr true C.asIfScaled means stds R.X C.lb C.ub none (fun j => P1 j * r.alphas[i]) (P2.smul r.alphas[i])).P2 u v = 0
      unfold standardize
      simp only
      split
      · exact h0 u v
      · rw [scaleP2_entry, h0]; ring
    unfold p2Full
    cases x.val <;> cases y.val <;> simp [this]
  have hP1 : ∀ u, (stdData C.thr C.asIfScaled means stds
        (C.problem R (fun j => P1 j * r.alphas[i]) (P2.smul r.alphas[i]))).P1 u = 0 := by
    intro u
    show (standardize C.thr true C.asIfScaled means stds R.X C.lb C.ub none (fun j => P1 j * r.alphas[i]) (P2.smul r.alphas[i])).P1 u = 0
    unfold standardize
    simp only [hzero, mul_zero, zero_mul]
    split <;> simp
  have hB : (stdData C.thr C.asIfScaled means stds
        (C.problem R (fun j => P1 j * r.alphas[i]) (P2.smul r.alphas[i]))).lb = none ∧ (stdData C.thr C.asIfScaled means stds
        (C.problem R (fun j => P1 j * r.alphas[i]) (P2.smul r.alphas[i]))).ub = none := by
    constructor
    · show (standardize C.thr true C.asIfScaled means stds R.X C.lb C.ub none (fun j => P1 j * r.alphas[i]) (P2.smul r.alphas[i])).lb = none
      unfold standardize; simp [hlb]
    · show (standardize C.thr true C.asIfScaled means stds R.X C.lb C.ub none (fun j => P1 j * r.alphas[i]) (P2.smul r.alphas[i])).ub = none
      unfold standardize; simp [hub]
  have hsc : ∀ t : Fin (p + true.toNat), scoreAt (stdData C.thr C.asIfScaled means stds
        (C.problem R (fun j => P1 j * r.alphas[i]) (P2.smul r.alphas[i]))) c t
      = ∑ q, design true (stdX C.thr true means stds R.X) q t * res q := by
    intro t
    rw [score_report C hf k hk]
    simp only [hp2, zero_mul, Finset.sum_const_zero, sub_zero]
    rw [hres, e0, e]
  have t0 : absTerm c (fun k => -scoreAt (stdData C.thr C.asIfScaled means stds (C.problem R (fun j => P1 j * r.alphas[i])
      (P2.smul r.alphas[i]))) c k) (stdData C.thr C.asIfScaled means stds (C.problem R (fun j => P1 j * r.alphas[i]) (P2.smul r.alphas[i]))).P1
      true (stdData C.thr C.asIfScaled means stds (C.problem R (fun j => P1 j * r.alphas[i]) (P2.smul r.alphas[i]))).lb
      (stdData C.thr C.asIfScaled means stds (C.problem R (fun j => P1 j * r.alphas[i]) (P2.smul r.alphas[i]))).ub
      (⟨0, by simp⟩ : Fin (p + true.toNat)) = |∑ q, res q| := by
    unfold absTerm
    rw [if_pos (by simp)]
    beta_reduce
    rw [hsc, abs_neg]
    congr 1
    exact Finset.sum_congr rfl fun q _ => one_mul _
  have t1 : absTerm c (fun k => -scoreAt (stdData C.thr C.asIfScaled means stds (C.problem R (fun j => P1 j * r.alphas[i])
      (P2.smul r.alphas[i]))) c k) (stdData C.thr C.asIfScaled means stds (C.problem R (fun j => P1 j * r.alphas[i]) (P2.smul r.alphas[i]))).P1
      true (stdData C.thr C.asIfScaled means stds (C.problem R (fun j => P1 j * r.alphas[i]) (P2.smul r.alphas[i]))).lb
      (stdData C.thr C.asIfScaled means stds (C.problem R (fun j => P1 j * r.alphas[i]) (P2.smul r.alphas[i]))).ub
      (⟨j + 1, by simp⟩ : Fin (p + true.toNat)) = |∑ q, stdX C.thr true means stds R.X q j * res q| := by
    unfold absTerm
    rw [if_neg (by simp)]
    rw [hB.1, hB.2]
    simp only [hP1, hsc, Option.map_none]
    have hterm : ∀ x g : ℝ, |subgradTerm x g 0 none none| = |g| := by
      intro x g
      unfold subgradTerm fsign fmax
      simp only [sub_zero, mul_zero, add_zero]
      split
      · rcases lt_trichotomy g 0 with h | h | h
        · simp [h, h.ne, abs_of_neg h, not_lt.2 h.le]
        · simp [h]
        · simp [h, h.ne', abs_of_pos h, not_lt.2 h.le]
      · rfl
    rw [hterm, abs_neg]
    rfl
  rw [t0, t1] at hlt
  have hsplit : ∑ q, R.X q j * res q = colScale C.thr stds j * (∑ q, stdX C.thr true means stds R.X q j * res q) + means j * ∑ q, res q := by
    rw [Finset.mul_sum, Finset.mul_sum, ← Finset.sum_add_distrib]
    refine Finset.sum_congr rfl fun q _ => ?_
    have := colScale_mul_inv C.thr ht stds j
    unfold stdX
    simp only [if_true]
    linear_combination (-(R.X q j - means j) * res q) * this
  rw [hsplit]
  set A := ∑ q, stdX C.thr true means stds R.X q j * res q
  set B := ∑ q, res q
  set M := max (colScale C.thr stds j) |means j|
  have hM0 : 0 ≤ M := le_max_of_le_right (abs_nonneg _)
  calc |colScale C.thr stds j * A + means j * B| ≤ |colScale C.thr stds j * A| + |means j * B| := abs_add_le _ _
    _ = colScale C.thr stds j * |A| + |means j| * |B| := by rw [abs_mul, abs_mul, abs_of_nonneg (colScale_nonneg _ _ hs j)]
    _ ≤ M * |A| + M * |B| := add_le_add (mul_le_mul_of_nonneg_right (le_max_left _ _) (abs_nonneg _))
        (mul_le_mul_of_nonneg_right (le_max_right _ _) (abs_nonneg _))
    _ = M * (|B| + |A|) := by ring
    _ ≤ M * C.gradTol := mul_le_mul_of_nonneg_left hlt.le hM0
    _ = C.gradTol * M := mul_comm _ _

/-- The ridge fit on the two rows (`tinyRows`) meets the hypotheses: its fitted values add up to the observations. -/
example (next : (ℕ → BitVec 32) → ℕ → (ℕ → BitVec 32)) (N M : ℕ) (s : SolverLog) :
    ∃ s' r, glmFit ((tinyCfg N M).forSolver .irlsLs) tinyStats (irlsSolver next fun _ _ => lsInner invSolve) tinyRows 0 (.single 1) s = some (s', r) ∧
      ∀ (hc : 0 < r.coefPath.length) (hb : 0 < r.interceptPath.length), |2 - r.interceptPath[0]| < 1 / 10000 := by
  obtain ⟨s', r, h, hw, -, -⟩ := tiny_ls next N M s
  have hal : r.alphas = [1] := by
    obtain ⟨Q, -, hal, -⟩ := glmFit_spec _ _ _ _ _ _ _ _ _ h
    simpa [AlphaSpec.eval] using hal.symm
  refine ⟨s', r, h, fun hc hb => ?_⟩
  have := c77_balance next (fun _ _ => lsInner invSolve) ((tinyCfg N M).forSolver .irlsLs) (tiny_convex N M).thr Canonical.normal tinyStats tinyRows 0
    le_rfl (tiny_convex N M).p1 (fun _ => zero_le_one) rfl (.single 1) s s' r h (by rw [hal]; simp) hw 0 (by rw [hal]; simp) hc hb
  have ht : ∀ e, trueMean ((tinyCfg N M).forSolver .irlsLs).e50 ((tinyCfg N M).forSolver .irlsLs).family ((tinyCfg N M).forSolver .irlsLs).link e = e :=
    fun _ => rfl
  simp only [ht, etaAt, Fin.sum_univ_two, tinyRows] at this
  have hg : ((tinyCfg N M).forSolver .irlsLs).gradTol = 1 / 10000 := rfl
  rw [hg] at this
  convert this using 2
  simp
  ring

/-- Least squares (`alpha = 0`) on the same rows meets the hypotheses of `c77_feature_equation`. -/
example (next : (ℕ → BitVec 32) → ℕ → (ℕ → BitVec 32)) (N M : ℕ) (s : SolverLog) :
    ∃ s' r, glmFit ((tinyCfg N M).forSolver .irlsLs) tinyStats (irlsSolver next fun _ _ => lsInner invSolve) tinyRows 0 (.single 0) s = some (s', r) ∧
      ∀ (hc : 0 < r.coefPath.length) (hb : 0 < r.interceptPath.length), |1 - r.coefPath[0] 0| ≤ 1 / 10000 := by
  obtain ⟨Q, -, hQ, hst, -⟩ := tiny_fits s N M .irlsLs (irlsSolver next fun _ _ => lsInner invSolve)
  obtain ⟨r, hr, -⟩ := glmFit_single ((tinyCfg N M).forSolver .irlsLs) tinyStats (irlsSolver next fun _ _ => lsInner invSolve) tinyRows 0 0 s Q hQ
    (by rintro ⟨l, u, h, -⟩; cases h) (fun _ => rfl)
  have hw := (c76_fit_ls next invSolve invSolve_spec (tinyCfg N M) tinyStats tinyRows 0 (tiny_convex N M) rfl rfl (fun _ => zero_le_one)
    (by simp [tinyRows]) rfl rfl rfl (by norm_num [tinyCfg]) (by norm_num [tinyCfg]) (fun j => zero_mul _) 0 le_rfl
    (by
      intro b0 b _ h _
      have h0 := h 0
      have h1 := h 1
      simp [tinyRows] at h0 h1
      refine ⟨by linarith, fun j hj => ?_⟩
      have : j = 0 := by omega
      subst this; linarith)
    (by
      intro b0 b h i
      have ht : ∀ e, trueMean 0 .normal .identity e = e := fun _ => rfl
      have hd : ∀ y m, Family.unitDeviance .normal y m = (y - m) ^ 2 := fun _ _ => rfl
      have hc : coldIntercept true tinyRows = 2 := by simp [coldIntercept, tinyRows]; norm_num
      have hobj : ∀ (b0 : ℝ) (b : ℕ → ℝ), fitObjective 1 0 .normal .identity tinyRows
          (penScale (tinyCfg N M).thr (tinyCfg N M).asIfScaled (tinyStats 2 tinyRows.X tinyRows.sw).2) .none .none 0 0 b0 b
          = 1 / 4 * ((3 - (b 0 + b0)) ^ 2 + (1 - (-b 0 + b0)) ^ 2) := by
        intro b0 b
        unfold fitObjective
        simp [ht, hd, tinyRows]
        ring
      rw [hc] at h
      have h := (hobj b0 b).symm.le.trans (h.trans (hobj 2 (fun _ => 0)).le)
      have hlt : ∀ x y : ℝ, (y - x) ^ 2 ≤ 2 → y ≤ 3 → x < 10 ^ 43 := by
        intro x y h1 h2
        have : x - y ≤ 2 := by nlinarith
        linarith [show (5 : ℝ) < 10 ^ 43 by norm_num]
      have hx : ∑ j : Fin 1, tinyRows.X i j * b j + b0 + (tinyRows.off.getD fun _ => 0) i = if i = 0 then b 0 + b0 else -b 0 + b0 := by
        fin_cases i <;> simp [tinyRows]
      rw [hx]
      show _ < (10 : ℝ) ^ 43
      split
      · exact hlt _ 3 (by nlinarith [sq_nonneg (1 - (-b 0 + b0))]) le_rfl
      · exact hlt _ 1 (by nlinarith [sq_nonneg (3 - (b 0 + b0))]) (by norm_num))
    s _ r hr).1
  have hal : r.alphas = [0] := by
    obtain ⟨Q, -, hal, -⟩ := glmFit_spec _ _ _ _ _ _ _ _ _ hr
    simpa [AlphaSpec.eval] using hal.symm
  refine ⟨_, r, hr, fun hc hb => ?_⟩
  have := c77_feature_equation next (fun _ _ => lsInner invSolve) ((tinyCfg N M).forSolver .irlsLs) (tiny_convex N M).thr trivial .normalIdentity rfl
    rfl rfl tinyStats tinyRows 0
    le_rfl (tiny_convex N M).p1 (fun _ => zero_le_one) rfl (.single 0) s _ r hr (by rw [hal]; simp) hw 0 (by rw [hal]; simp) hc hb
    (by simp [hal]) 0
  have hone : ∀ e, ((tinyCfg N M).forSolver .irlsLs).link.inverseDerivative e /
      ((tinyCfg N M).forSolver .irlsLs).family.unitVariance (trueMean ((tinyCfg N M).forSolver .irlsLs).e50
        ((tinyCfg N M).forSolver .irlsLs).family ((tinyCfg N M).forSolver .irlsLs).link e) = 1 := canonical_factor _ Canonical.normal
  have ht : ∀ e, trueMean ((tinyCfg N M).forSolver .irlsLs).e50 ((tinyCfg N M).forSolver .irlsLs).family ((tinyCfg N M).forSolver .irlsLs).link e = e :=
    fun _ => rfl
  simp only [scoreResidual, hone] at this
  simp only [ht, etaAt, Fin.sum_univ_two, tinyRows] at this
  have hg : ((tinyCfg N M).forSolver .irlsLs).gradTol = 1 / 10000 := rfl
  have hsc : colScale ((tinyCfg N M).forSolver .irlsLs).thr (fun _ => (1 : ℝ)) 0 = 1 := by
    unfold colScale; simp
  rw [hg] at this
  simp [tinyStats, hsc] at this
  refine le_trans (le_of_eq ?_) (this.trans (by norm_num))
  congr 1
  ring

end Glum
