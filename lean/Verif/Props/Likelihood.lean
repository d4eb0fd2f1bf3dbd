import Verif.Model.Likelihood
import Verif.Props.Distribution
/-
C11: deviance versus log-likelihood.
-/
set_option linter.unusedSectionVars false
set_option linter.unusedVariables false

namespace Glum
open Spec

theorem normal_ll {n : ℕ} (y mu w : Fin n → ℝ) (disp : ℝ) (hd : 0 < disp) :
    2 * disp * (normalLogLik y w y disp - normalLogLik y w mu disp) = normalDeviance y w mu := by
  unfold normalLogLik normalDeviance
  simp only [sub_self, ne_eq, OfNat.ofNat_ne_zero, not_false_eq_true, zero_pow, mul_zero, neg_zero, Finset.sum_const_zero,
    Finset.sum_neg_distrib]
  field_simp
  ring

theorem poisson_ll {n : ℕ} (y mu w : Fin n → ℝ) (hy : ∀ i, 0 ≤ y i) :
    2 * 1 * (poissonLogLik y w y - poissonLogLik y w mu) = poissonDeviance y w mu := by
  unfold poissonLogLik poissonDeviance
  rw [← Finset.sum_sub_distrib, mul_one]
  congr 1
  refine Finset.sum_congr rfl fun i _ => ?_
  split
  · ring
  · next h =>
    have : y i = 0 := le_antisymm (not_lt.1 h) (hy i)
    rw [this]; ring

theorem gamma_ll {n : ℕ} (y mu w : Fin n → ℝ) (disp : ℝ) (hd : 0 < disp) (hy : ∀ i, 0 < y i) :
    2 * disp * (gammaLogLik y w y disp - gammaLogLik y w mu disp) = gammaDeviance y w mu := by
  unfold gammaLogLik gammaDeviance
  simp only []
  rw [sub_sub_sub_cancel_right, ← Finset.sum_sub_distrib, mul_assoc, Finset.mul_sum]
  congr 1
  refine Finset.sum_congr rfl fun i _ => ?_
  rw [div_self (hy i).ne']
  field_simp
  ring

theorem ig_ll {n : ℕ} (y mu w : Fin n → ℝ) (disp : ℝ) (hd : 0 < disp) (hy : ∀ i, 0 < y i) :
    2 * disp * (invGaussianLogLik y w y disp - invGaussianLogLik y w mu disp) = invGaussianDeviance y w mu := by
  unfold invGaussianLogLik invGaussianDeviance
  simp only []
  rw [add_sub_add_right_eq_sub, ← Finset.sum_sub_distrib, Finset.mul_sum]
  refine Finset.sum_congr rfl fun i _ => ?_
  rw [div_self (hy i).ne']
  have := (hy i).ne'
  field_simp
  ring

theorem tweedie_ll {n : ℕ} (norm : ℝ → ℝ → ℝ → ℝ) (p : ℝ) (h1 : 1 < p) (h2 : p < 2) (y mu w : Fin n → ℝ) (disp : ℝ) (hd : 0 < disp)
    (hy : ∀ i, 0 ≤ y i) (hmu : ∀ i, 0 < mu i) :
    2 * disp * (tweedieLogLik norm p y w y disp - tweedieLogLik norm p y w mu disp) = tweedieDeviance p y w mu := by
  unfold tweedieLogLik tweedieDeviance tweedieUnitLogLik
  rw [← Finset.sum_sub_distrib, Finset.mul_sum, Finset.mul_sum]
  refine Finset.sum_congr rfl fun i _ => ?_
  have h1' : 1 - p ≠ 0 := by intro h; linarith
  have h2' : 2 - p ≠ 0 := by intro h; linarith
  have e : mu i ^ (2 - p) = mu i ^ (1 - p) * mu i := by
    rw [show (2 - p) = (1 - p) + 1 by ring, Real.rpow_add (hmu i), Real.rpow_one]
  by_cases hy0 : y i = 0
  · simp only [hy0, if_true, lt_irrefl, if_false]
    rw [Real.zero_rpow h2', e]
    field_simp
    ring
  · have hpos : 0 < y i := lt_of_le_of_ne (hy i) (Ne.symm hy0)
    simp only [hy0, if_false, hpos, if_true]
    field_simp
    ring

/-- **C11.** Twice the dispersion times (log-likelihood of the saturated model minus log-likelihood of the fit) is the deviance,
whenever both log-likelihoods are numbers: normal, Poisson, gamma, inverse Gaussian, negative binomial and Tweedie with power 0, 1, 2, 3 or in
`(1,2)` (there with any normalisation term), every sample, weights, dispersion.  Missing: a negative binomial sample containing a zero,
where the saturated log-likelihood is NaN (`c11_negBinomial_zero_counterexample`). -/
theorem c11_deviance_loglik_partial (norm : ℝ → ℝ → ℝ → ℝ) (f : Family) (hf : Valid f) (hb : f ≠ .binomial)
    (hp : ∀ p, f = .tweedie p → 0 ≤ p) {n : ℕ}
    (y mu w : Fin n → ℝ) (disp : ℝ) (hd : 0 < disp) (hy : ∀ i, y i ∈ ySupport f) (hmu : ∀ i, mu i ∈ muRange f)
    (sat fit : ℝ) (hs : f.logLik norm y y w disp = some sat) (hm : f.logLik norm y mu w disp = some fit) :
    2 * f.effectiveDispersion disp * (sat - fit) = f.deviance y mu w := by
  cases f with
  | normal =>
    obtain rfl := Option.some.inj hs; obtain rfl := Option.some.inj hm
    exact normal_ll y mu w disp hd
  | poisson =>
    obtain rfl := Option.some.inj hs; obtain rfl := Option.some.inj hm
    exact poisson_ll y mu w hy
  | gamma =>
    obtain rfl := Option.some.inj hs; obtain rfl := Option.some.inj hm
    exact gamma_ll y mu w disp hd hy
  | invGaussian =>
    obtain rfl := Option.some.inj hs; obtain rfl := Option.some.inj hm
    exact ig_ll y mu w disp hd hy
  | ghs => simp [Family.logLik] at hs
  | binomial => exact absurd rfl hb
  | negBinomial theta =>
    have ht : 0 < theta := hf
    simp only [Family.logLik, negBinomialLogLik] at hs hm
    split at hs
    · cases hs
    · next hz =>
      split at hm
      · cases hm
      · obtain rfl := Option.some.inj hs; obtain rfl := Option.some.inj hm
        simp only [Family.effectiveDispersion, Family.deviance, negBinomialDeviance]
        rw [← Finset.sum_sub_distrib, mul_one]
        congr 1
        refine Finset.sum_congr rfl fun i _ => ?_
        have hyi : 0 < y i := lt_of_le_of_ne (hy i) (fun h => hz ⟨i, h.symm, h.symm⟩)
        have hmi : 0 < mu i := hmu i
        rw [if_pos hyi, Real.log_div (by positivity) (by positivity), Real.log_div hyi.ne' hmi.ne',
          Real.log_mul ht.ne' hyi.ne', Real.log_mul ht.ne' hmi.ne']
        have e : ∀ m : ℝ, 0 < m → Real.log (m + 1 / theta) = Real.log (1 + theta * m) - Real.log theta := by
          intro m hm
          rw [← Real.log_div (by positivity) ht.ne']
          congr 1
          field_simp
          ring
        rw [e _ hyi, e _ hmi]
        ring
  | tweedie p =>
    simp only [Family.logLik] at hs hm
    simp only [Family.effectiveDispersion, Family.deviance]
    have hp0 := hp p rfl
    by_cases h0 : p = 0
    · subst h0
      simp at hs hm; subst hs; subst hm
      simpa using normal_ll y mu w disp hd
    · have hm' : ∀ i, 0 < mu i := fun i => (hmu i).resolve_left h0
      have hp1 : 1 ≤ p := by
        rcases hf with h | h
        · exact absurd (le_antisymm h hp0) h0
        · exact h
      by_cases h1 : p = 1
      · subst h1
        simp at hs hm; subst hs; subst hm
        simp only [one_ne_zero, if_false, if_true]
        refine poisson_ll y mu w fun i => ?_
        rcases hy i with h | h | h
        · norm_num at h
        · exact h.2
        · exact h.le
      · by_cases h2 : p = 2
        · subst h2
          simp at hs hm; subst hs; subst hm
          simp only [h0, h1, if_false, if_true]
          refine gamma_ll y mu w disp hd fun i => ?_
          rcases hy i with h | h | h
          · norm_num at h
          · exact absurd h.1 (lt_irrefl _)
          · exact h
        · by_cases h12 : p < 2
          · have h3 : p ≠ 3 := by intro h; linarith
            simp only [h0, h1, h2, h12, if_false, if_true, Option.some.injEq] at hs hm
            subst hs; subst hm
            simp only [h0, h1, h2, h3, if_false]
            refine tweedie_ll norm p (lt_of_le_of_ne hp1 (Ne.symm h1)) h12 y mu w disp hd (fun i => ?_) hm'
            rcases hy i with h | h | h
            · linarith
            · exact h.2
            · exact h.le
          · by_cases h3 : p = 3
            · simp only [h0, h1, h2, h12, if_false] at hs hm
              rw [if_pos h3] at hs hm
              simp only [Option.some.injEq] at hs hm
              subst hs; subst hm
              simp only [h0, h1, h2, if_false]
              rw [if_pos h3]
              refine ig_ll y mu w disp hd fun i => ?_
              rcases hy i with h | h | h
              · linarith
              · linarith [h.1]
              · exact h
            · simp [h0, h1, h2, h12, h3] at hs

/-- **C11 fails for a negative binomial sample with a zero**: the saturated log-likelihood is NaN although the deviance is a number. -/
theorem c11_negBinomial_zero_counterexample (norm : ℝ → ℝ → ℝ → ℝ) (theta disp : ℝ) :
    (0 : ℝ) ∈ ySupport (.negBinomial theta) ∧
    Family.logLik (n := 1) norm (.negBinomial theta) (fun _ => 0) (fun _ => 0) (fun _ => 1) disp = none := by
  refine ⟨le_refl (0 : ℝ), ?_⟩
  simp [Family.logLik, negBinomialLogLik]

/-- **C11, binomial.** The binomial deviance is minus twice the log-likelihood (no saturated term; for observations 0 and 1 the saturated
log-likelihood is 0). -/
theorem c11_binomial (norm : ℝ → ℝ → ℝ → ℝ) {n : ℕ} (y mu w : Fin n → ℝ) (disp fit : ℝ)
    (hm : Family.logLik norm .binomial y mu w disp = some fit) :
    -2 * fit = Family.deviance .binomial y mu w ∧
    ((∀ i, y i = 0 ∨ y i = 1) → Family.logLik norm .binomial y y w disp = some 0) := by
  obtain rfl := Option.some.inj hm
  constructor
  · simp only [binomialLogLik, Family.deviance, Family.unitDeviance, Finset.mul_sum]
    exact Finset.sum_congr rfl fun i _ => by ring
  · intro h
    simp only [Family.logLik, binomialLogLik, xlogy_eq, Option.some.injEq]
    refine Finset.sum_eq_zero fun i _ => ?_
    rcases h i with h | h <;> simp [h]

/-- Non-vacuity: a negative binomial sample for which both log-likelihoods are numbers. -/
example (norm : ℝ → ℝ → ℝ → ℝ) : ∃ sat fit,
    Family.logLik (n := 2) norm (.negBinomial 2) (fun _ => 3) (fun _ => 3) (fun _ => 1) 1 = some sat ∧
    Family.logLik (n := 2) norm (.negBinomial 2) (fun _ => 3) (fun _ => 1) (fun _ => 1) 1 = some fit ∧
    (3 : ℝ) ∈ ySupport (.negBinomial 2) := by
  refine ⟨_, _, if_neg (by simp), if_neg (by simp), ?_⟩
  show (0 : ℝ) ≤ 3
  norm_num

end Glum
