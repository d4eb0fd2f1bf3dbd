import Mathlib.MeasureTheory.Integral.Bochner.Basic
import Verif.Props.Link
import Verif.Props.Distribution
/-
C08–C10: the compiled eta/mu/deviance and rowwise gradient/Hessian routines against the definitions.
-/
set_option linter.unusedSectionVars false
set_option linter.unusedVariables false

namespace Glum
open Spec

/-- Which (family, link) pairs have which compiled routine. -/
theorem fast_cases {f : Family} {l : Link} {k : Fast} (h : f.fast l = some k) :
    (k = .normalIdentity ∧ l = .identity ∧ (f = .normal ∨ f = .tweedie 0)) ∨
    (k = .poissonLog ∧ l = .log ∧ (f = .poisson ∨ f = .tweedie 1)) ∨
    (k = .gammaLog ∧ l = .log ∧ (f = .gamma ∨ f = .tweedie 2)) ∨
    (k = .invGaussianLog ∧ l = .log ∧ (f = .invGaussian ∨ f = .tweedie 3)) ∨
    (∃ p, k = .tweedieLog p ∧ l = .log ∧ f = .tweedie p ∧ 1 < p ∧ p < 2) ∨
    (k = .binomialLogit ∧ l = .logit ∧ f = .binomial) ∨
    (∃ t, k = .negBinomialLog t ∧ l = .log ∧ f = .negBinomial t) := by
  cases f <;> cases l <;> simp [Family.fast] at h
  · subst h; simp
  · subst h; simp
  · subst h; simp
  · subst h; simp
  · subst h; simp
  · subst h; simp
  · obtain ⟨h0, h⟩ := h; subst h; simp [h0]
  · next p =>
    by_cases h1 : p = 1
    · simp [h1] at h; subst h; simp [h1]
    · by_cases h2 : p = 2
      · simp [h2] at h; subst h; simp [h2]
      · by_cases h12 : 1 < p ∧ p < 2
        · simp [h1, h2, h12] at h; subst h; simp [h12.1, h12.2]
        · by_cases h3 : p = 3
          · simp only [h1, h2, h12, h3, if_false, if_true] at h
            norm_num at h
            subst h; simp [h3]
          · simp [h1, h2, h12, h3] at h

theorem fast_mu_logit (eta : ℝ) : Fast.mu .binomialLogit eta = expit eta := by
  simp only [Fast.mu, expit]
  split
  · rfl
  · rw [Real.exp_neg]
    have := Real.exp_pos eta
    field_simp

/-- The mean the compiled routine returns is in the mean range and its link is the linear predictor. -/
theorem fast_mu_spec {f : Family} {l : Link} {k : Fast} (h : f.fast l = some k) (eta : ℝ) :
    k.mu eta ∈ muRange f ∧ l.link (k.mu eta) = eta := by
  have hlog : ∀ k : Fast, (∀ e, k.mu e = Real.exp e) → 0 < k.mu eta ∧ Link.link .log (k.mu eta) = eta := fun k hk =>
    ⟨by rw [hk]; exact Real.exp_pos _, by rw [hk]; exact Real.log_exp eta⟩
  rcases fast_cases h with ⟨rfl, rfl, rfl | rfl⟩ | ⟨rfl, rfl, rfl | rfl⟩ | ⟨rfl, rfl, rfl | rfl⟩ | ⟨rfl, rfl, rfl | rfl⟩ |
    ⟨p, rfl, rfl, rfl, h1, h2⟩ | ⟨rfl, rfl, rfl⟩ | ⟨t, rfl, rfl, rfl⟩
  · exact ⟨trivial, rfl⟩
  · exact ⟨Or.inl rfl, rfl⟩
  · exact hlog _ fun _ => rfl
  · exact ⟨Or.inr (hlog .poissonLog fun _ => rfl).1, (hlog .poissonLog fun _ => rfl).2⟩
  · exact hlog _ fun _ => rfl
  · exact ⟨Or.inr (hlog .gammaLog fun _ => rfl).1, (hlog .gammaLog fun _ => rfl).2⟩
  · exact hlog _ fun _ => rfl
  · exact ⟨Or.inr (hlog .invGaussianLog fun _ => rfl).1, (hlog .invGaussianLog fun _ => rfl).2⟩
  · exact ⟨Or.inr (hlog (.tweedieLog p) fun _ => rfl).1, (hlog (.tweedieLog p) fun _ => rfl).2⟩
  · rw [fast_mu_logit]
    exact ⟨⟨expit_pos eta, expit_lt_one eta⟩, logit_expit eta⟩
  · exact hlog _ fun _ => rfl

/-- The terms of the deviance the compiled objective drops: they depend on the observation only. -/
noncomputable def droppedTerm (k : Fast) (y : ℝ) : ℝ :=
  match k with
  | .poissonLog => 2 * (y * Real.log y - y)
  | .gammaLog => -2 * (Real.log y + 1)
  | .tweedieLog p => 2 * (max y 0 ^ (2 - p) / ((1 - p) * (2 - p)))
  | .negBinomialLog theta => 2 * (y * Real.log y - (y + 1 / theta) * Real.log (y + 1 / theta))
  | _ => 0

theorem binomial_fast_dev (y eta : ℝ) :
    Fast.dev .binomialLogit y eta = -2 * (y * eta - Real.log (1 + Real.exp eta)) := by
  simp only [Fast.dev]
  split
  · have : Real.log (1 + Real.exp eta) = eta + Real.log (1 + Real.exp (-eta)) := by
      have e : 1 + Real.exp eta = Real.exp eta * (1 + Real.exp (-eta)) := by
        rw [mul_add, ← Real.exp_add]; simp [add_comm]
      rw [e, Real.log_mul (Real.exp_pos _).ne' (by positivity), Real.log_exp]
    rw [this]; ring
  · rfl

theorem log_expit (eta : ℝ) : Real.log (expit eta) = eta - Real.log (1 + Real.exp eta) := by
  have e : expit eta = Real.exp eta / (1 + Real.exp eta) := by
    unfold expit
    rw [Real.exp_neg]
    have := Real.exp_pos eta
    field_simp
    ring
  rw [e, Real.log_div (Real.exp_pos _).ne' (by positivity), Real.log_exp]

theorem log_one_sub_expit (eta : ℝ) : Real.log (1 - expit eta) = -Real.log (1 + Real.exp eta) := by
  rw [one_sub_expit, Real.log_mul (Real.exp_pos _).ne' (expit_pos eta).ne', Real.log_exp, log_expit]; ring

/-- Per row: the unit deviance is the compiled objective's term plus the dropped term. -/
theorem fast_dev_eq {f : Family} (hf : Valid f) {l : Link} {k : Fast} (h : f.fast l = some k) (y eta : ℝ) (hy : y ∈ ySupport f) :
    f.unitDeviance y (k.mu eta) = k.dev y eta + droppedTerm k y := by
  have hpos := Real.exp_pos eta
  have P : 2 * (xlogy y (y / Real.exp eta) - y + Real.exp eta) = Fast.dev .poissonLog y eta + droppedTerm .poissonLog y := by
    rw [poisson_dev_eq hpos, Real.log_exp]; simp only [Fast.dev, droppedTerm]; ring
  have G : 0 < y → 2 * (Real.log (Real.exp eta / y) + y / Real.exp eta - 1) = Fast.dev .gammaLog y eta + droppedTerm .gammaLog y := by
    intro hy
    rw [Real.log_div hpos.ne' hy.ne', Real.log_exp]; simp only [Fast.dev, droppedTerm]; ring
  rcases fast_cases h with ⟨rfl, rfl, rfl | rfl⟩ | ⟨rfl, rfl, rfl | rfl⟩ | ⟨rfl, rfl, rfl | rfl⟩ | ⟨rfl, rfl, rfl | rfl⟩ |
    ⟨p, rfl, rfl, rfl, h1, h2⟩ | ⟨rfl, rfl, rfl⟩ | ⟨t, rfl, rfl, rfl⟩
  · simp [Family.unitDeviance, Fast.mu, Fast.dev, droppedTerm]
  · simp [Family.unitDeviance, Fast.mu, Fast.dev, droppedTerm]
  · exact P
  · simp only [Family.unitDeviance, one_ne_zero, if_false, if_true]; exact P
  · exact G hy
  · have hy' : 0 < y := by
      rcases hy with h | h | h
      · norm_num at h
      · exact absurd h.1 (lt_irrefl _)
      · exact h
    have := G hy'
    simp [Family.unitDeviance]; exact this
  · simp [Family.unitDeviance, Fast.mu, Fast.dev, droppedTerm]
  · simp [Family.unitDeviance, Fast.mu, Fast.dev, droppedTerm]
  · have a0 : p ≠ 0 := by linarith
    have a1 : p ≠ 1 := h1.ne'
    have a2 : p ≠ 2 := h2.ne
    have a3 : p ≠ 3 := by linarith
    simp only [Family.unitDeviance, a0, a1, a2, a3, if_false, tweedieUnitDeviance, Fast.mu, Fast.dev, droppedTerm]
    ring
  · rw [fast_mu_logit, binomial_fast_dev]
    simp only [Family.unitDeviance, xlogy_eq, log_expit, log_one_sub_expit, droppedTerm]
    ring
  · have ht : 0 < t := hf
    have hy0 : 0 ≤ y := hy
    have hr : 0 < 1 / t := by positivity
    simp only [Family.unitDeviance, xlogy_eq, Fast.mu, Fast.dev, droppedTerm]
    rw [Real.log_div (x := y + 1 / t) (y := Real.exp eta + 1 / t) (by positivity) (by positivity)]
    by_cases hy1 : y = 0
    · subst hy1; simp; ring
    · rw [Real.log_div hy1 hpos.ne', Real.log_exp]; ring

/-- **C08.** On every compiled path, for every sample: the routine returns `eta = cur_eta + factor * X_dot_step`, means `mu` in the
mean range with `link(mu) = eta`, and a deviance that differs from `Σ w · unit_deviance(y, mu)` by a number that is the same for all
`factor`, `cur_eta`, `X_dot_step` (so differences of objective values are exact). -/
theorem c08_fast_objective (e50 : ℝ) (f : Family) (hf : Valid f) (l : Link) (k : Fast) (h : f.fast l = some k) {n : ℕ}
    (y w : Fin n → ℝ) (hy : ∀ i, y i ∈ ySupport f) :
    ∃ c : ℝ, ∀ (factor : ℝ) (cur Xd : Fin n → ℝ),
      let r := f.etaMuDeviance e50 l factor cur Xd y w
      (∀ i, r.1 i = cur i + factor * Xd i) ∧
      (∀ i, r.2.1 i ∈ muRange f ∧ l.link (r.2.1 i) = r.1 i) ∧
      r.2.2 = (∑ i, w i * f.unitDeviance (y i) (r.2.1 i)) + c := by
  refine ⟨-∑ i, w i * droppedTerm k (y i), fun factor cur Xd => ?_⟩
  simp only [Family.etaMuDeviance, h]
  refine ⟨fun _ => trivial, fun i => fast_mu_spec h _, ?_⟩
  rw [← sub_eq_add_neg, ← Finset.sum_sub_distrib]
  refine Finset.sum_congr rfl fun i _ => ?_
  rw [fast_dev_eq hf h (y i) _ (hy i)]; ring

/-- **C08, means.** Wherever `link.inverse` is not clipped, the compiled mean is `link.inverse(eta)`. -/
theorem c08_fast_mean (e50 : ℝ) (f : Family) (l : Link) (k : Fast) (h : f.fast l = some k) {n : ℕ} (factor : ℝ)
    (cur Xd y w : Fin n → ℝ) (i : Fin n) (hc : cur i + factor * Xd i ∈ unclipped e50 l) :
    (f.etaMuDeviance e50 l factor cur Xd y w).2.1 i = l.inverse e50 (cur i + factor * Xd i) := by
  simp only [Family.etaMuDeviance, h]
  rcases fast_cases h with ⟨rfl, rfl, rfl | rfl⟩ | ⟨rfl, rfl, rfl | rfl⟩ | ⟨rfl, rfl, rfl | rfl⟩ | ⟨rfl, rfl, rfl | rfl⟩ |
    ⟨p, rfl, rfl, rfl, h1, h2⟩ | ⟨rfl, rfl, rfl⟩ | ⟨t, rfl, rfl, rfl⟩ <;> try rfl
  rw [fast_mu_logit]
  exact (clip50_of_mem hc.1.le hc.2.le).symm

/-- **C08, generic path.** Without a compiled routine the same method returns `eta`, `link.inverse(eta)` and
`deviance(y, mu, sample_weight)`. -/
theorem c08_generic_objective (e50 : ℝ) (f : Family) (l : Link) (h : f.fast l = none) {n : ℕ} (factor : ℝ)
    (cur Xd y w : Fin n → ℝ) :
    f.etaMuDeviance e50 l factor cur Xd y w =
      (fun i => cur i + factor * Xd i, fun i => l.inverse e50 (cur i + factor * Xd i),
        f.deviance y (fun i => l.inverse e50 (cur i + factor * Xd i)) w) := by
  simp only [Family.etaMuDeviance, h]

/-! ### C09 -/

theorem fast_mu_hasDeriv {f : Family} {l : Link} {k : Fast} (h : f.fast l = some k) (eta : ℝ) :
    HasDerivAt k.mu (l.inverseDerivative eta) eta := by
  rcases fast_cases h with ⟨rfl, rfl, rfl | rfl⟩ | ⟨rfl, rfl, rfl | rfl⟩ | ⟨rfl, rfl, rfl | rfl⟩ | ⟨rfl, rfl, rfl | rfl⟩ |
    ⟨p, rfl, rfl, rfl, h1, h2⟩ | ⟨rfl, rfl, rfl⟩ | ⟨t, rfl, rfl, rfl⟩
  · exact hasDerivAt_id eta
  · exact hasDerivAt_id eta
  all_goals first
    | exact Real.hasDerivAt_exp eta
    | (have e : Fast.mu .binomialLogit = expit := funext fast_mu_logit
       rw [e]; exact expit_hasDeriv eta)

theorem oneOverVariance_eq (f : Family) (hf : Valid f) (l : Link) (eta mu w : ℝ) (hmu : mu ∈ muRange f)
    (hlogit : f = .binomial → l = .logit → mu = expit eta) : oneOverVariance f l mu eta 1 w = w / f.unitVariance mu := by
  have hv := (unitVariance_pos f hf hmu).ne'
  have gen : 1 / (f.unitVariance mu * 1 / w) = w / f.unitVariance mu := by
    rw [mul_one, one_div_div]
  unfold oneOverVariance
  split
  · have e := hlogit rfl rfl
    subst e
    simp only [Family.unitVariance]
    rw [one_sub_expit]
    unfold expit
    rw [Real.exp_neg]
    have := Real.exp_pos eta
    field_simp
    ring
  · exact gen

/-- The compiled gradient row is `w · mu'(eta) · (y - mu) / v(mu)`. -/
theorem fast_grad_eq {f : Family} (hf : Valid f) {l : Link} {k : Fast} (h : f.fast l = some k) (y w eta : ℝ) :
    k.grad y w (k.mu eta) = w * (l.inverseDerivative eta * (y - k.mu eta) / f.unitVariance (k.mu eta)) := by
  have hpos := Real.exp_pos eta
  rcases fast_cases h with ⟨rfl, rfl, rfl | rfl⟩ | ⟨rfl, rfl, rfl | rfl⟩ | ⟨rfl, rfl, rfl | rfl⟩ | ⟨rfl, rfl, rfl | rfl⟩ |
    ⟨p, rfl, rfl, rfl, h1, h2⟩ | ⟨rfl, rfl, rfl⟩ | ⟨t, rfl, rfl, rfl⟩
  · simp [Fast.grad, Fast.mu, Link.inverseDerivative, Family.unitVariance]
  · simp [Fast.grad, Fast.mu, Link.inverseDerivative, Family.unitVariance]
  · simp only [Fast.grad, Fast.mu, Link.inverseDerivative, Family.unitVariance]; field_simp
  · simp only [Fast.grad, Fast.mu, Link.inverseDerivative, Family.unitVariance, Real.rpow_one]; field_simp
  · simp only [Fast.grad, Fast.mu, Link.inverseDerivative, Family.unitVariance]; field_simp
  · simp only [Fast.grad, Fast.mu, Link.inverseDerivative, Family.unitVariance, Real.rpow_two]; field_simp
  · simp only [Fast.grad, Fast.mu, Link.inverseDerivative, Family.unitVariance]; field_simp
  · have : Real.exp eta ^ (3 : ℝ) = Real.exp eta ^ (3 : ℕ) := by norm_cast
    simp only [Fast.grad, Fast.mu, Link.inverseDerivative, Family.unitVariance, this]; field_simp
  · simp only [Fast.grad, Fast.mu, Link.inverseDerivative, Family.unitVariance]
    rw [Real.rpow_sub hpos, Real.rpow_one]; ring
  · rw [fast_mu_logit]
    simp only [Fast.grad, Link.inverseDerivative, Family.unitVariance]
    have a := (expit_pos eta).ne'
    have b : 1 - expit eta ≠ 0 := by linarith [expit_lt_one eta]
    field_simp
  · have ht : 0 < t := hf
    simp only [Fast.grad, Fast.mu, Link.inverseDerivative, Family.unitVariance]
    have : Real.exp eta + t * Real.exp eta ^ 2 = Real.exp eta * (1 + t * Real.exp eta) := by ring
    rw [this]
    have h2 : 0 < 1 + t * Real.exp eta := by positivity
    field_simp

/-- Derivative in `eta` of the compiled objective's row term. -/
theorem fast_dev_hasDeriv {f : Family} (hf : Valid f) {l : Link} {k : Fast} (h : f.fast l = some k) (y w eta : ℝ)
    (hy : y ∈ ySupport f) : HasDerivAt (fun e => w * k.dev y e) (-2 * k.grad y w (k.mu eta)) eta := by
  have hc := (c05_deviance_derivative f hf y (k.mu eta) hy (fast_mu_spec h eta).1).comp eta (fast_mu_hasDeriv h eta)
  have h2 := (hc.sub_const (droppedTerm k y)).const_mul w
  refine (h2.congr_of_eventuallyEq ?_).congr_deriv ?_
  · filter_upwards with e
    simp only [Function.comp]
    rw [fast_dev_eq hf h y e hy]; ring
  · rw [fast_grad_eq hf h, Family.unitDevianceDerivative]; ring

/-- Total deviance as a function of one linear predictor. -/
theorem sum_perturb_hasDeriv {n : ℕ} (g : Fin n → ℝ → ℝ) (eta : Fin n → ℝ) (i : Fin n) (d : ℝ) (h : HasDerivAt (g i) d (eta i)) :
    HasDerivAt (fun t : ℝ => ∑ j, g j (eta j + 1 * (Pi.single i t : Fin n → ℝ) j)) d 0 := by
  have h1 : ∀ j ∈ (Finset.univ : Finset (Fin n)), HasDerivAt (fun t : ℝ => g j (eta j + 1 * (Pi.single i t : Fin n → ℝ) j))
      (if j = i then d else 0) 0 := by
    intro j _
    by_cases hj : j = i
    · subst hj
      simp only [Pi.single_eq_same, one_mul, if_true]
      have hl : HasDerivAt (fun t : ℝ => eta j + t) 1 0 := (hasDerivAt_id (0 : ℝ)).const_add _
      have := HasDerivAt.comp (h₂ := g j) (0 : ℝ) (by simpa using h) hl
      simpa [Function.comp_def] using this
    · simp only [Pi.single_eq_of_ne hj, mul_zero, add_zero, hj, if_false]
      exact hasDerivAt_const _ _
  have := HasDerivAt.fun_sum h1
  simpa using this

/-- **C09.** On every compiled path, for every sample: the rowwise gradient handed to IRLS is `-½` times the partial derivative,
with respect to that row's linear predictor, of the deviance returned by the compiled objective at the same point. -/
theorem c09_fast_gradient (e50 : ℝ) (f : Family) (hf : Valid f) (l : Link) (k : Fast) (h : f.fast l = some k) {n : ℕ}
    (y w eta : Fin n → ℝ) (hy : ∀ i, y i ∈ ySupport f) (i : Fin n) :
    let mu := (f.etaMuDeviance e50 l 0 eta 0 y w).2.1
    HasDerivAt (fun t : ℝ => -(1 / 2) * (f.etaMuDeviance e50 l 1 eta (Pi.single i t) y w).2.2)
      (f.rowGradHess l (y i) (w i) (eta i) (mu i)).1 0 := by
  simp only [Family.etaMuDeviance, h, Family.rowGradHess]
  have := sum_perturb_hasDeriv (fun j e => w j * k.dev (y j) e) eta i _ (fast_dev_hasDeriv hf h (y i) (w i) (eta i) (hy i))
  refine (this.const_mul (-(1 / 2))).congr_deriv ?_
  simp only [zero_mul, add_zero]
  ring

/-- **C09, line search.** The gradient recomputed inside the line search (the generic expression) is the compiled one. -/
theorem c09_gradients_agree (f : Family) (hf : Valid f) (l : Link) (k : Fast) (h : f.fast l = some k) (y w eta : ℝ) :
    (fastRow f l k).gradVar y w eta ((fastRow f l k).inv eta) = (fastRow f l k).grad y w eta ((fastRow f l k).inv eta) := by
  simp only [fastRow, genericGrad]
  rw [fast_grad_eq hf h, oneOverVariance_eq f hf l eta (k.mu eta) w (fast_mu_spec h eta).1]
  · ring
  · rintro rfl rfl
    have : k = .binomialLogit := by simpa [Family.fast, eq_comm] using h
    rw [this, fast_mu_logit]

/-- **C09, generic path.** For family/link pairs without a compiled routine the generic rowwise gradient is `-½` times the derivative
of the weighted unit deviance at `link.inverse(eta)`, wherever the inverse is not clipped and the mean is in range. -/
theorem c09_generic_gradient (e50 : ℝ) (he : ClipOK e50) (f : Family) (hf : Valid f) (l : Link) (h : f.fast l = none)
    (y w eta : ℝ) (hy : y ∈ ySupport f) (hr : eta ∈ linkRange l) (hc : eta ∈ unclipped e50 l)
    (hm : l.inverse e50 eta ∈ muRange f) :
    HasDerivAt (fun e => -(1 / 2) * (w * (genericRow e50 f l).dev y e))
      (f.rowGradHess l y w eta (l.inverse e50 eta)).1 eta := by
  have h1 := (c05_deviance_derivative f hf y _ hy hm).comp eta (c02_inverse_derivative e50 l eta hr hc)
  have h2 := (h1.const_mul w).const_mul (-(1 / 2))
  simp only [Family.rowGradHess, h, genericRow, genericGrad]
  refine h2.congr_deriv ?_
  rw [oneOverVariance_eq f hf l eta _ w hm]
  · rw [Family.unitDevianceDerivative]; ring
  · rintro rfl rfl; simp [Family.fast] at h

/-! ### C10 -/

/-- The compiled routines that use the true Hessian; the others (inverse Gaussian, negative binomial) use the Fisher information. -/
def Fast.trueHessian : Fast → Prop
  | .invGaussianLog => False
  | .negBinomialLog _ => False
  | _ => True

/-- **C10, sign.** The rowwise Hessian is non-negative for non-negative weights: compiled paths. -/
theorem c10_hessian_nonneg (f : Family) (hf : Valid f) (l : Link) (k : Fast) (h : f.fast l = some k) (y w eta : ℝ) (hw : 0 ≤ w)
    (hy : y ∈ ySupport f) : 0 ≤ (f.rowGradHess l y w eta (k.mu eta)).2 := by
  have hpos := Real.exp_pos eta
  simp only [Family.rowGradHess, h]
  rcases fast_cases h with ⟨rfl, rfl, rfl | rfl⟩ | ⟨rfl, rfl, rfl | rfl⟩ | ⟨rfl, rfl, rfl | rfl⟩ | ⟨rfl, rfl, rfl | rfl⟩ |
    ⟨p, rfl, rfl, rfl, h1, h2⟩ | ⟨rfl, rfl, rfl⟩ | ⟨t, rfl, rfl, rfl⟩
  · exact hw
  · exact hw
  · exact mul_nonneg hw hpos.le
  · exact mul_nonneg hw hpos.le
  · have hy : 0 < y := hy
    simp only [Fast.hess, Fast.mu]; positivity
  · have hy' : 0 < y := by
      rcases hy with h | h | h
      · norm_num at h
      · exact absurd h.1 (lt_irrefl _)
      · exact h
    simp only [Fast.hess, Fast.mu]; positivity
  · simp only [Fast.hess, Fast.mu]; positivity
  · simp only [Fast.hess, Fast.mu]; positivity
  · have hy' : 0 ≤ y := by
      rcases hy with h | h | h
      · linarith
      · exact h.2
      · exact h.le
    simp only [Fast.hess, Fast.mu]
    refine mul_nonneg (mul_nonneg hw (Real.rpow_nonneg hpos.le _)) ?_
    nlinarith
  · rw [fast_mu_logit]
    simp only [Fast.hess]
    exact mul_nonneg (mul_nonneg hw (expit_pos eta).le) (by linarith [expit_lt_one eta])
  · have ht : 0 < t := hf
    simp only [Fast.hess, Fast.mu]; positivity

/-- **C10, generic path.** The generic rowwise Hessian is non-negative. -/
theorem c10_generic_nonneg (f : Family) (hf : Valid f) (l : Link) (h : f.fast l = none) (y w eta mu : ℝ) (hw : 0 ≤ w)
    (hmu : mu ∈ muRange f) : 0 ≤ (f.rowGradHess l y w eta mu).2 := by
  simp only [Family.rowGradHess, h, genericHess]
  rw [oneOverVariance_eq f hf l eta mu w hmu (by rintro rfl rfl; simp [Family.fast] at h), ← mul_assoc]
  exact mul_nonneg (mul_self_nonneg _) (div_nonneg hw (unitVariance_pos f hf hmu).le)

/-- Minus the derivative of the compiled gradient row in `eta`: the true curvature of half the deviance. -/
noncomputable def trueCurvature (k : Fast) (y w mu : ℝ) : ℝ :=
  match k with
  | .invGaussianLog => w * (2 * y * (1 / mu) ^ 2 - 1 / mu)
  | .negBinomialLog theta => w * (mu / (1 + theta * mu) + (y - mu) * (theta * mu) / (1 + theta * mu) ^ 2)
  | k => k.hess y w mu

theorem fast_grad_hasDeriv {f : Family} (hf : Valid f) {l : Link} {k : Fast} (h : f.fast l = some k) (y w eta : ℝ) :
    HasDerivAt (fun e => k.grad y w (k.mu e)) (-trueCurvature k y w (k.mu eta)) eta := by
  have hpos := Real.exp_pos eta
  have hE := Real.hasDerivAt_exp eta
  have G : HasDerivAt (fun e => w * (y / Real.exp e - 1)) (-(w * (y / Real.exp eta))) eta := by
    have h1 : HasDerivAt (fun e => w * (y * Real.exp (-e) - 1)) (w * (y * (Real.exp (-eta) * -1))) eta := by
      have := ((((hasDerivAt_id eta).neg.exp).const_mul y).sub_const 1).const_mul w
      simpa using this
    refine (h1.congr_of_eventuallyEq ?_).congr_deriv ?_
    · filter_upwards with e; rw [Real.exp_neg, div_eq_mul_inv]
    · rw [Real.exp_neg]; ring
  have I : HasDerivAt (fun e => w * (y * (1 / Real.exp e) ^ 2 - 1 / Real.exp e))
      (-(w * (2 * y * (1 / Real.exp eta) ^ 2 - 1 / Real.exp eta))) eta := by
    have h0 : HasDerivAt (fun e => Real.exp (-e)) (Real.exp (-eta) * -1) eta := by
      simpa using (hasDerivAt_id eta).neg.exp
    have h1 := (((h0.pow 2).const_mul y).sub h0).const_mul w
    refine (h1.congr_of_eventuallyEq ?_).congr_deriv ?_
    · filter_upwards with e; simp [Real.exp_neg]
    · rw [Real.exp_neg]; simp; ring
  rcases fast_cases h with ⟨rfl, rfl, rfl | rfl⟩ | ⟨rfl, rfl, rfl | rfl⟩ | ⟨rfl, rfl, rfl | rfl⟩ | ⟨rfl, rfl, rfl | rfl⟩ |
    ⟨p, rfl, rfl, rfl, h1, h2⟩ | ⟨rfl, rfl, rfl⟩ | ⟨t, rfl, rfl, rfl⟩
  · simpa [Fast.grad, Fast.mu, trueCurvature, Fast.hess] using ((hasDerivAt_id eta).const_sub y).const_mul w
  · simpa [Fast.grad, Fast.mu, trueCurvature, Fast.hess] using ((hasDerivAt_id eta).const_sub y).const_mul w
  · simpa [Fast.grad, Fast.mu, trueCurvature, Fast.hess] using (hE.const_sub y).const_mul w
  · simpa [Fast.grad, Fast.mu, trueCurvature, Fast.hess] using (hE.const_sub y).const_mul w
  · exact G
  · exact G
  · exact I
  · exact I
  · have h3 : HasDerivAt (fun e => Real.exp e ^ (1 - p)) (Real.exp eta * (1 - p) * Real.exp eta ^ (1 - p - 1)) eta :=
      hE.rpow_const (Or.inl hpos.ne')
    have h4 := (h3.mul (hE.const_sub y)).const_mul w
    refine (h4.congr_of_eventuallyEq ?_).congr_deriv ?_
    · filter_upwards with e
      simp only [Fast.grad, Fast.mu, Pi.mul_apply]; ring
    · simp only [trueCurvature, Fast.hess, Fast.mu]
      rw [Real.rpow_sub hpos (1 - p) 1, Real.rpow_one]
      field_simp
      ring
  · have e : Fast.mu .binomialLogit = expit := funext fast_mu_logit
    rw [e]
    have := ((expit_hasDeriv eta).const_sub y).const_mul w
    refine this.congr_deriv ?_
    simp only [trueCurvature, Fast.hess]; ring
  · have ht : 0 < t := hf
    have hd : 0 < 1 + t * Real.exp eta := by positivity
    have h3 := ((hE.const_sub y).const_mul w).div ((hE.const_mul t).const_add 1) hd.ne'
    refine h3.congr_deriv ?_
    simp only [trueCurvature, Fast.mu]
    field_simp
    ring

/-- **C10, true Hessian.** For normal/identity, Poisson, gamma and Tweedie with log link and binomial/logit the rowwise Hessian is the
second derivative of half the deviance in that row's linear predictor: it is minus the derivative of the compiled gradient row, which by
C09 is minus the first derivative. -/
theorem c10_true_hessian (f : Family) (hf : Valid f) (l : Link) (k : Fast) (h : f.fast l = some k) (ht : k.trueHessian)
    (y w eta : ℝ) (hy : y ∈ ySupport f) :
    ∃ D : ℝ → ℝ, (∀ e, HasDerivAt (fun e => 1 / 2 * (w * k.dev y e)) (D e) e) ∧
      HasDerivAt D (f.rowGradHess l y w eta (k.mu eta)).2 eta := by
  refine ⟨fun e => -k.grad y w (k.mu e), fun e => ?_, ?_⟩
  · refine ((fast_dev_hasDeriv hf h y w e hy).const_mul (1 / 2)).congr_deriv ?_
    ring
  · refine (fast_grad_hasDeriv hf h y w eta).neg.congr_deriv ?_
    simp only [Family.rowGradHess, h]
    cases k <;> simp_all [Fast.trueHessian, trueCurvature]

open MeasureTheory in
/-- **C10, Fisher scoring.** For inverse Gaussian and negative binomial with log link, the rowwise Hessian is the expectation of the
second derivative of half the deviance when the observation is random with mean `mu` (any distribution on the support). -/
theorem c10_fisher (f : Family) (hf : Valid f) (l : Link) (k : Fast) (h : f.fast l = some k) (ht : ¬k.trueHessian) (w eta : ℝ)
    (P : Measure ℝ) [IsProbabilityMeasure P] (hP : Integrable (fun y => y) P) (hmean : ∫ y, y ∂P = k.mu eta) (y0 : ℝ) :
    ∃ D2 : ℝ → ℝ, (∀ y ∈ ySupport f, ∃ D : ℝ → ℝ, (∀ e, HasDerivAt (fun e => 1 / 2 * (w * k.dev y e)) (D e) e) ∧
        HasDerivAt D (D2 y) eta) ∧
      ∫ y, D2 y ∂P = (f.rowGradHess l y0 w eta (k.mu eta)).2 := by
  refine ⟨fun y => trueCurvature k y w (k.mu eta), fun y hy => ⟨fun e => -k.grad y w (k.mu e), fun e => ?_, ?_⟩, ?_⟩
  · refine ((fast_dev_hasDeriv hf h y w e hy).const_mul (1 / 2)).congr_deriv ?_
    ring
  · refine (fast_grad_hasDeriv hf h y w eta).neg.congr_deriv ?_
    ring
  · have aff : ∀ a b : ℝ, ∫ y, (a * y + b) ∂P = a * k.mu eta + b := by
      intro a b
      rw [integral_add (hP.const_mul a) (integrable_const b), integral_const_mul, hmean]; simp
    have hpos := Real.exp_pos eta
    simp only [Family.rowGradHess, h]
    rcases fast_cases h with ⟨rfl, rfl, rfl | rfl⟩ | ⟨rfl, rfl, rfl | rfl⟩ | ⟨rfl, rfl, rfl | rfl⟩ | ⟨rfl, rfl, rfl | rfl⟩ |
      ⟨p, rfl, rfl, rfl, h1, h2⟩ | ⟨rfl, rfl, rfl⟩ | ⟨t, rfl, rfl, rfl⟩ <;> simp only [Fast.trueHessian, not_true] at ht
    · have e : (fun y => trueCurvature .invGaussianLog y w (Fast.mu .invGaussianLog eta)) =
          fun y => (w * 2 * (1 / Real.exp eta) ^ 2) * y + -(w * (1 / Real.exp eta)) := by
        funext y; simp only [trueCurvature, Fast.mu]; ring
      rw [e, aff]; simp only [Fast.hess, Fast.mu]; field_simp; ring
    · have e : (fun y => trueCurvature .invGaussianLog y w (Fast.mu .invGaussianLog eta)) =
          fun y => (w * 2 * (1 / Real.exp eta) ^ 2) * y + -(w * (1 / Real.exp eta)) := by
        funext y; simp only [trueCurvature, Fast.mu]; ring
      rw [e, aff]; simp only [Fast.hess, Fast.mu]; field_simp; ring
    · have ht : 0 < t := hf
      have hd : 0 < 1 + t * Real.exp eta := by positivity
      have e : (fun y => trueCurvature (.negBinomialLog t) y w (Fast.mu (.negBinomialLog t) eta)) =
          fun y => (w * (t * Real.exp eta) / (1 + t * Real.exp eta) ^ 2) * y + w * (Real.exp eta / (1 + t * Real.exp eta)
            - Real.exp eta * (t * Real.exp eta) / (1 + t * Real.exp eta) ^ 2) := by
        funext y; simp only [trueCurvature, Fast.mu]; ring
      rw [e, aff]; simp only [Fast.hess, Fast.mu]; field_simp; ring

/-- Non-vacuity: the hypotheses of C08–C10 hold for a Tweedie fit with a zero observation and for a negative binomial one. -/
example : Family.fast (.tweedie (3 / 2)) .log = some (.tweedieLog (3 / 2)) ∧ Valid (.tweedie (3 / 2)) ∧
    (0 : ℝ) ∈ ySupport (.tweedie (3 / 2)) ∧ Family.fast (.negBinomial 2) .log = some (.negBinomialLog 2) ∧
    Valid (.negBinomial 2) ∧ Family.fast (.gamma) .identity = none := by
  refine ⟨?_, Or.inr (by norm_num), Or.inr (Or.inl ⟨by norm_num, le_refl _⟩), rfl, show (0 : ℝ) < 2 by norm_num, rfl⟩
  simp only [Family.fast]; norm_num

end Glum
