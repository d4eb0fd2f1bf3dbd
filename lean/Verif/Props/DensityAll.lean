import Mathlib.MeasureTheory.Constructions.Pi
import Mathlib.MeasureTheory.Integral.Pi
import Mathlib.Analysis.Complex.ExponentialBounds
import Verif.Props.DensityIG
import Verif.Props.DensityTweedie
import Verif.Props.Distribution
/-
C72: the log-likelihoods are logarithms of normalised densities with mean `mu` and variance `dispersion * unit_variance(mu)`.
C73: the dispersion estimate.
-/
set_option linter.unusedSectionVars false
set_option linter.unusedVariables false
set_option linter.unusedSimpArgs false

namespace Glum
open Spec MeasureTheory

/-- Families (and parameters) for which `log_likelihood` is implemented by a density on the family's own support. -/
def Spec.HasDensity : Family → Prop
  | .ghs => False
  | .negBinomial theta => 0 < theta
  | .tweedie p => p = 0 ∨ (1 ≤ p ∧ p ≤ 2) ∨ p = 3
  | _ => True

/-- Bound on the truncation error of the Tweedie series; the other log-likelihoods are exact. -/
noncomputable def Spec.seriesError : Family → ℝ
  | .tweedie p => open Classical in if 1 < p ∧ p < 2 then 2 * Real.exp (-37) / (1 - Real.exp (-37)) else 0
  | _ => 0

theorem exact_case (d : ℝ → ℝ) (ll : ℝ → ℝ) (g : ℕ → ℝ → Option ℝ) (S : Set ℝ) (hd : d = fun y => Real.exp (ll y))
    (hg : ∀ fuel, ∀ y ∈ S, g fuel y = some (ll y)) :
    ∀ y ∈ S, 0 < d y ∧ ∃ fuel0, ∀ fuel ≥ fuel0, ∃ l, g fuel y = some l ∧ Real.log (d y) - 0 ≤ l ∧ l ≤ Real.log (d y) := by
  intro y hy
  refine ⟨by rw [hd]; exact Real.exp_pos _, 0, fun fuel _ => ⟨ll y, hg fuel y hy, ?_, ?_⟩⟩
  · rw [hd]; simp
  · rw [hd]; simp

/-- **C72.** For every family with a log-likelihood, every mean in its range and every dispersion there is a probability density (with
respect to Lebesgue measure, counting measure, or an atom at zero plus Lebesgue measure, according to the family) with total mass one, mean `mu` and
variance `dispersion * unit_variance(mu)`, and `log_likelihood` of one observation with weight one is its logarithm: exactly, except that for
Tweedie with power strictly between 1 and 2 the truncated series puts it below by at most `2 e^-37 / (1 - e^-37)`. -/
theorem c72_density (f : Family) (hf : HasDensity f) (mu disp : ℝ) (hmu : mu ∈ muRange f) (hd : 0 < disp) :
    ∃ D : ℝ → ℝ, IsDensity (refMeasure f) D mu (f.effectiveDispersion disp * f.unitVariance mu) ∧
      ∀ y ∈ atoms f, 0 < D y ∧ ∃ fuel0, ∀ fuel ≥ fuel0, ∃ l,
        f.logLik (tweedieNormalization fuel) (fun _ : Fin 1 => y) (fun _ => mu) (fun _ => 1) disp = some l ∧
        Real.log (D y) - seriesError f ≤ l ∧ l ≤ Real.log (D y) := by
  cases f with
  | normal =>
    refine ⟨_, ?_, exact_case _ _ (fun fuel y => Family.logLik (tweedieNormalization fuel) .normal (fun _ : Fin 1 => y) (fun _ => mu) (fun _ => 1) disp) _ rfl
      (fun fuel y _ => rfl)⟩
    simpa [Family.effectiveDispersion, Family.unitVariance, refMeasure] using normal_density mu disp hd
  | poisson =>
    refine ⟨_, ?_, exact_case _ _ (fun fuel y => Family.logLik (tweedieNormalization fuel) .poisson (fun _ : Fin 1 => y) (fun _ => mu) (fun _ => 1) disp) _ rfl
      (fun fuel y _ => rfl)⟩
    simpa [Family.effectiveDispersion, Family.unitVariance, refMeasure] using poisson_density mu hmu
  | gamma =>
    refine ⟨_, ?_, exact_case _ _ (fun fuel y => Family.logLik (tweedieNormalization fuel) .gamma (fun _ : Fin 1 => y) (fun _ => mu) (fun _ => 1) disp) _ rfl
      (fun fuel y _ => rfl)⟩
    simpa [Family.effectiveDispersion, Family.unitVariance, refMeasure] using gamma_density mu disp hmu hd
  | invGaussian =>
    refine ⟨_, ?_, exact_case _ _ (fun fuel y => Family.logLik (tweedieNormalization fuel) .invGaussian (fun _ : Fin 1 => y) (fun _ => mu) (fun _ => 1) disp) _ rfl
      (fun fuel y _ => rfl)⟩
    simpa [Family.effectiveDispersion, Family.unitVariance, refMeasure] using invGaussian_density mu disp hmu hd
  | ghs => exact absurd hf id
  | binomial =>
    refine ⟨_, ?_, exact_case _ _ (fun fuel y => Family.logLik (tweedieNormalization fuel) .binomial (fun _ : Fin 1 => y) (fun _ => mu) (fun _ => 1) disp) _ rfl
      (fun fuel y _ => rfl)⟩
    simpa [Family.effectiveDispersion, Family.unitVariance, refMeasure] using binomial_density mu hmu.1 hmu.2
  | negBinomial theta =>
    refine ⟨_, ?_, exact_case _ (fun y => (negBinomialLogLik theta (fun _ : Fin 1 => y) (fun _ => 1) (fun _ => mu)).getD 0)
      (fun fuel y => Family.logLik (tweedieNormalization fuel) (.negBinomial theta) (fun _ : Fin 1 => y) (fun _ => mu) (fun _ => 1) disp) _ rfl
      (fun fuel y _ => ?_)⟩
    · simpa [Family.effectiveDispersion, Family.unitVariance, refMeasure] using negBinomial_density theta mu hf hmu
    · simp only [Family.logLik, negBinomialLogLik]
      rw [if_neg (by rintro ⟨i, _, h⟩; exact (ne_of_gt (show 0 < mu from hmu)) h)]
      rfl
  | tweedie p =>
    rcases hf with h | ⟨h1, h2⟩ | h
    · subst h
      have e : seriesError (.tweedie 0) = 0 := by simp only [seriesError]; rw [if_neg (by norm_num)]
      rw [e]
      refine ⟨_, ?_, exact_case _ (fun y => normalLogLik (fun _ : Fin 1 => y) (fun _ => 1) (fun _ => mu) disp)
        (fun fuel y => Family.logLik (tweedieNormalization fuel) (.tweedie 0) (fun _ : Fin 1 => y) (fun _ => mu) (fun _ => 1) disp) _ rfl
        (fun fuel y _ => by simp [Family.logLik])⟩
      simpa [Family.effectiveDispersion, Family.unitVariance, refMeasure] using normal_density mu disp hd
    · have hp0 : p ≠ 0 := by linarith
      have hm0 : 0 < mu := hmu.resolve_left hp0
      rcases eq_or_lt_of_le h1 with h | h1
      · subst h
        have e : seriesError (.tweedie 1) = 0 := by simp [seriesError]
        rw [e]
        refine ⟨_, ?_, exact_case _ (fun y => poissonLogLik (fun _ : Fin 1 => y) (fun _ => 1) (fun _ => mu))
          (fun fuel y => Family.logLik (tweedieNormalization fuel) (.tweedie 1) (fun _ : Fin 1 => y) (fun _ => mu) (fun _ => 1) disp) _ rfl
          (fun fuel y _ => by simp [Family.logLik])⟩
        have e1 : refMeasure (.tweedie 1) = countNat := by simp [refMeasure]
        rw [e1]
        simpa [Family.effectiveDispersion, Family.unitVariance, refMeasure] using poisson_density mu hm0
      · have hp1 : p ≠ 1 := h1.ne'
        have hnp : ¬p ≤ 0 := by linarith
        rcases eq_or_lt_of_le h2 with h | h2
        · subst h
          have e : seriesError (.tweedie 2) = 0 := by simp [seriesError]
          rw [e]
          refine ⟨_, ?_, exact_case _ (fun y => gammaLogLik (fun _ : Fin 1 => y) (fun _ => 1) (fun _ => mu) disp)
            (fun fuel y => Family.logLik (tweedieNormalization fuel) (.tweedie 2) (fun _ : Fin 1 => y) (fun _ => mu) (fun _ => 1) disp) _ rfl
            (fun fuel y _ => by simp [Family.logLik])⟩
          have e1 : refMeasure (.tweedie 2) = halfLine := by simp [refMeasure]
          have e2 : Family.effectiveDispersion (.tweedie 2) disp * Family.unitVariance (.tweedie 2) mu = disp * mu ^ 2 := by
            simp [Family.effectiveDispersion, Family.unitVariance]
          rw [e1, e2]
          exact gamma_density mu disp hm0 hd
        · have e : seriesError (.tweedie p) = 2 * Real.exp (-37) / (1 - Real.exp (-37)) := by simp only [seriesError]; rw [if_pos ⟨h1, h2⟩]
          have e1 : refMeasure (.tweedie p) = Measure.dirac 0 + halfLine := by
            simp only [refMeasure]; rw [if_neg hnp, if_neg hp1, if_pos h2]
          have e2 : Family.effectiveDispersion (.tweedie p) disp * Family.unitVariance (.tweedie p) mu = disp * mu ^ p := by
            simp [Family.effectiveDispersion, Family.unitVariance, hp1]
          obtain ⟨hden, hpos⟩ := tweedie_density h1 h2 hd hm0
          rw [e, e1, e2]
          refine ⟨tweedieDensity p disp mu, hden, fun y hy => ?_⟩
          have hy0 : 0 ≤ y := by
            rcases hy with h | h | h | h
            · exact absurd h hnp
            · exact absurd h.1 hp1
            · exact h.2.2
            · exact h.le
          refine ⟨hpos y hy0, ?_⟩
          have hll : ∀ fuel, Family.logLik (tweedieNormalization fuel) (.tweedie p) (fun _ : Fin 1 => y) (fun _ => mu) (fun _ => 1) disp
              = some (tweedieUnitLogLik (tweedieNormalization fuel) y mu p disp) := by
            intro fuel
            simp only [Family.logLik]
            rw [if_neg hp0, if_neg hp1, if_neg h2.ne, if_pos h2]
            simp [tweedieLogLik]
          have hlt : Real.exp (-37) < 1 := by rw [Real.exp_lt_one_iff]; norm_num
          have heps : 0 ≤ 2 * Real.exp (-37) / (1 - Real.exp (-37)) := div_nonneg (by positivity) (by linarith)
          rcases eq_or_lt_of_le hy0 with h | hyp
          · subst h
            refine ⟨0, fun fuel _ => ⟨_, hll fuel, ?_⟩⟩
            have hd0 : Real.log (tweedieDensity p disp mu 0) = tweedieUnitLogLik (tweedieNormalization fuel) 0 mu p disp := by
              unfold tweedieDensity tweedieUnitLogLik
              rw [if_neg (lt_irrefl _), if_pos rfl, if_pos rfl, Real.log_exp]
              ring
            rw [hd0]
            exact ⟨by linarith, le_refl _⟩
          · obtain ⟨fuel0, hfuel⟩ := c62_truncation_error y p disp hyp h1 h2 hd
            refine ⟨fuel0, fun fuel hf => ⟨_, hll fuel, ?_⟩⟩
            obtain ⟨a, b⟩ := hfuel fuel hf
            have hS : 0 < ∑' k : ℕ, tweedieTerm y p disp (k + 1) := by
              have : (fun k : ℕ => tweedieTerm y p disp (k + 1)) = fun k : ℕ => Real.exp (logWj y p disp (k + 1 : ℕ)) :=
                funext fun k => (logWj_term hyp h1 h2 hd k).symm
              rw [this]
              exact (logWj_summable y disp h1 h2).tsum_pos (fun k => (Real.exp_pos _).le) 0 (Real.exp_pos _)
            have hd0 : Real.log (tweedieDensity p disp mu y) = (mu ^ (1 - p) / (1 - p) * y - mu * mu ^ (1 - p) / (2 - p)) / disp
                + (Real.log (∑' k : ℕ, tweedieTerm y p disp (k + 1)) - Real.log y) := by
              unfold tweedieDensity
              rw [if_neg (not_lt.2 hyp.le), if_neg hyp.ne', Real.log_div (by positivity) hyp.ne', Real.log_mul (Real.exp_pos _).ne' hS.ne', Real.log_exp,
                show mu ^ (2 - p) = mu * mu ^ (1 - p) by rw [show (2 - p) = (1 - p) + 1 by ring, Real.rpow_add_one hm0.ne']; ring]
              ring
            have hu : tweedieUnitLogLik (tweedieNormalization fuel) y mu p disp = (mu ^ (1 - p) / (1 - p) * y - mu * mu ^ (1 - p) / (2 - p)) / disp
                + tweedieNormalization fuel y p disp := by
              unfold tweedieUnitLogLik; rw [if_neg hyp.ne']
            rw [hd0, hu]
            constructor <;> linarith
    · subst h
      have hmu : 0 < mu := hmu.resolve_left (by norm_num)
      have e : seriesError (.tweedie 3) = 0 := by simp only [seriesError]; rw [if_neg (by norm_num)]
      rw [e]
      refine ⟨_, ?_, exact_case _ (fun y => invGaussianLogLik (fun _ : Fin 1 => y) (fun _ => 1) (fun _ => mu) disp)
        (fun fuel y => Family.logLik (tweedieNormalization fuel) (.tweedie 3) (fun _ : Fin 1 => y) (fun _ => mu) (fun _ => 1) disp) _ rfl
        (fun fuel y _ => ?_)⟩
      · have e1 : refMeasure (.tweedie 3) = halfLine := by
          simp only [refMeasure]; rw [if_neg (by norm_num), if_neg (by norm_num), if_neg (by norm_num)]
        have e2 : Family.effectiveDispersion (.tweedie 3) disp * Family.unitVariance (.tweedie 3) mu = disp * mu ^ 3 := by
          simp only [Family.effectiveDispersion, Family.unitVariance]
          rw [if_neg (by norm_num)]
          norm_cast
        rw [e1, e2]
        exact invGaussian_density mu disp hmu hd
      · simp only [Family.logLik]
        rw [if_neg (by norm_num), if_neg (by norm_num), if_neg (by norm_num), if_neg (by norm_num)]
        simp

/-- **C72 (weights).** The log-likelihood of a sample is the weighted sum of the log-likelihoods of its rows. -/
theorem c72_weighted_sum (norm : ℝ → ℝ → ℝ → ℝ) (f : Family) {n : ℕ} (y mu w : Fin n → ℝ) (disp : ℝ) (row : Fin n → ℝ)
    (hrow : ∀ i, f.logLik norm (fun _ : Fin 1 => y i) (fun _ => mu i) (fun _ => 1) disp = some (row i)) (hn : 0 < n) :
    f.logLik norm y mu w disp = some (∑ i, w i * row i) := by
  have nrm : normalLogLik y w mu disp = ∑ i, w i * normalLogLik (fun _ : Fin 1 => y i) (fun _ => 1) (fun _ => mu i) disp := by
    unfold normalLogLik
    simp only [Finset.univ_unique, Finset.sum_const, Finset.card_singleton, one_smul, one_mul]
    rw [Finset.sum_div, mul_div_assoc, Finset.sum_mul, ← Finset.sum_add_distrib]
    exact Finset.sum_congr rfl fun i _ => by ring
  have poi : poissonLogLik y w mu = ∑ i, w i * poissonLogLik (fun _ : Fin 1 => y i) (fun _ => 1) (fun _ => mu i) := by
    unfold poissonLogLik
    simp only [Finset.univ_unique, Finset.sum_const, Finset.card_singleton, one_smul, one_mul]
    refine Finset.sum_congr rfl fun i _ => ?_
    split <;> ring
  have gam : gammaLogLik y w mu disp = ∑ i, w i * gammaLogLik (fun _ : Fin 1 => y i) (fun _ => 1) (fun _ => mu i) disp := by
    unfold gammaLogLik
    simp only [Finset.univ_unique, Finset.sum_const, Finset.card_singleton, one_smul, one_mul, mul_one]
    rw [Finset.mul_sum, ← Finset.sum_sub_distrib]
    exact Finset.sum_congr rfl fun i _ => by ring
  have ivg : invGaussianLogLik y w mu disp = ∑ i, w i * invGaussianLogLik (fun _ : Fin 1 => y i) (fun _ => 1) (fun _ => mu i) disp := by
    unfold invGaussianLogLik
    simp only [Finset.univ_unique, Finset.sum_const, Finset.card_singleton, one_smul, one_mul, mul_one]
    rw [mul_div_assoc, Finset.sum_mul, ← Finset.sum_add_distrib]
    exact Finset.sum_congr rfl fun i _ => by ring
  have twd : ∀ p, tweedieLogLik norm p y w mu disp = ∑ i, w i * tweedieLogLik norm p (fun _ : Fin 1 => y i) (fun _ => 1) (fun _ => mu i) disp := by
    intro p
    unfold tweedieLogLik
    simp only [Finset.univ_unique, Finset.sum_const, Finset.card_singleton, one_smul, one_mul, mul_one]
  have fin : ∀ (T : ℝ) (R : Fin n → ℝ), T = ∑ i, w i * R i → (∀ i, some (R i) = some (row i)) → some T = some (∑ i, w i * row i) := by
    intro T R hT hR
    rw [hT]
    congr 1
    exact Finset.sum_congr rfl fun i _ => by rw [Option.some.inj (hR i)]
  cases f with
  | normal => exact fin _ _ nrm hrow
  | poisson => exact fin _ _ poi hrow
  | gamma => exact fin _ _ gam hrow
  | invGaussian => exact fin _ _ ivg hrow
  | ghs => have := hrow ⟨0, hn⟩; simp [Family.logLik] at this
  | binomial =>
    refine fin _ (fun i => binomialLogLik (fun _ : Fin 1 => y i) (fun _ => 1) (fun _ => mu i)) ?_ hrow
    unfold binomialLogLik
    simp only [Finset.univ_unique, Finset.sum_const, Finset.card_singleton, one_smul, one_mul, mul_one]
    exact Finset.sum_congr rfl fun i _ => by ring
  | negBinomial theta =>
    simp only [Family.logLik, negBinomialLogLik] at hrow ⊢
    have hno : ¬∃ i, y i = 0 ∧ mu i = 0 := by
      rintro ⟨i, a, b⟩
      have := hrow i
      rw [if_pos ⟨0, a, b⟩] at this
      cases this
    rw [if_neg hno]
    refine fin _ (fun i => y i * Real.log (theta * mu i) - (y i + 1 / theta) * Real.log (1 + theta * mu i) + lgamma (y i + 1 / theta) - lgamma (1 / theta) - lgamma (y i + 1))
      rfl fun i => ?_
    have h := hrow i
    rw [if_neg (by rintro ⟨_, a, b⟩; exact hno ⟨i, a, b⟩)] at h
    simpa using h
  | tweedie p =>
    simp only [Family.logLik] at hrow ⊢
    split
    · next h => simp only [if_pos h] at hrow; exact fin _ _ nrm hrow
    · next h0 =>
      simp only [if_neg h0] at hrow
      split
      · next h => simp only [if_pos h] at hrow; exact fin _ _ poi hrow
      · next h1 =>
        simp only [if_neg h1] at hrow
        split
        · next h => simp only [if_pos h] at hrow; exact fin _ _ gam hrow
        · next h2 =>
          simp only [if_neg h2] at hrow
          split
          · next h => simp only [if_pos h] at hrow; exact fin _ _ (twd p) hrow
          · next h3 =>
            simp only [if_neg h3] at hrow
            split
            · next h => simp only [if_pos h] at hrow; exact fin _ _ ivg hrow
            · next h4 =>
              have := hrow ⟨0, hn⟩
              rw [if_neg h4] at this
              cases this

/-- Non-vacuity of C72: each row of a gamma sample has a log-likelihood. -/
example : HasDensity .gamma ∧ (2 : ℝ) ∈ muRange .gamma ∧ (3 : ℝ) ∈ atoms .gamma := ⟨trivial, by norm_num [muRange], by norm_num [atoms]⟩
example : HasDensity (.tweedie (3 / 2)) ∧ (2 : ℝ) ∈ muRange (.tweedie (3 / 2)) ∧ (0 : ℝ) ∈ atoms (.tweedie (3 / 2)) := by
  refine ⟨Or.inr (Or.inl ⟨by norm_num, by norm_num⟩), Or.inr (by norm_num), Or.inr (Or.inr (Or.inl ⟨by norm_num, by norm_num, le_refl _⟩))⟩
/-- The error bound is below machine precision. -/
example : 2 * Real.exp (-37) / (1 - Real.exp (-37)) < 1 / 10 ^ 15 := by
  have h1 : Real.exp (-37) ≤ (1 / (2.7 : ℝ)) ^ 37 := by
    rw [show (-37 : ℝ) = (37 : ℕ) * (-1) by norm_num, Real.exp_nat_mul, Real.exp_neg]
    gcongr
    rw [one_div]
    gcongr
    have := Real.exp_one_gt_d9
    linarith
  have h2 : (1 / (2.7 : ℝ)) ^ 37 < 1 / 10 ^ 15 / 4 := by norm_num
  have h0 := Real.exp_pos (-37)
  rw [div_lt_iff₀ (by linarith)]
  nlinarith

/-! ### C73: dispersion -/

theorem sum_replicated {m n : ℕ} (g : Fin m → Fin n) (reps : Fin n → ℕ)
    (hg : ∀ i, (Finset.univ.filter fun k => g k = i).card = reps i) (h : Fin n → ℝ) : ∑ k, h (g k) = ∑ i, (reps i : ℝ) * h i := by
  rw [← Finset.sum_fiberwise Finset.univ g fun k => h (g k)]
  refine Finset.sum_congr rfl fun i _ => ?_
  rw [← hg i, ← nsmul_eq_mul, ← Finset.sum_const]
  exact Finset.sum_congr rfl fun k hk => by rw [(Finset.mem_filter.1 hk).2]

/-- **C73 (weights are replication counts).** The Pearson and the deviance estimates with integer weights equal the unweighted estimates on the
sample in which observation `i` is repeated `reps i` times. -/
theorem c73_replication (f : Family) (hf : Valid f) (hp : ∀ p, f = .tweedie p → 0 ≤ p) {m n : ℕ} (y mu : Fin n → ℝ) (hy : ∀ i, y i ∈ ySupport f)
    (hmu : ∀ i, mu i ∈ muRange f) (g : Fin m → Fin n) (reps : Fin n → ℕ) (hg : ∀ i, (Finset.univ.filter fun k => g k = i).card = reps i)
    (ddof : ℝ) (meth : DispersionMethod) :
    f.dispersion y mu (some fun i => (reps i : ℝ)) ddof meth = f.dispersion (fun k => y (g k)) (fun k => mu (g k)) none ddof meth := by
  have hm : (m : ℝ) = ∑ i, (reps i : ℝ) := by
    have := sum_replicated g reps hg fun _ => 1
    simpa using this
  have hneg : ∀ p, f = .tweedie p → p < 0 → ∀ i, 0 ≤ y i := fun p e h => absurd (hp p e) (not_le.2 h)
  cases meth with
  | pearson =>
    simp only [Family.dispersion, Option.elim, Family.pearsonDispersion, hm]
    rw [sum_replicated g reps hg fun i => (y i - mu i) ^ 2 / f.unitVariance (mu i)]
    congr 2
    exact Finset.sum_congr rfl fun i _ => mul_comm _ _
  | deviance =>
    simp only [Family.dispersion, Option.elim, hm]
    rw [c07_deviance_sum_partial f hf y mu _ hy hmu hneg,
      c07_deviance_sum_partial f hf (fun k => y (g k)) (fun k => mu (g k)) _ (fun k => hy _) (fun k => hmu _) fun p e h k => hneg p e h _]
    simp only [one_mul]
    rw [sum_replicated g reps hg fun i => f.unitDeviance (y i) (mu i)]
  | other => rfl

/-- **C73 (unbiased).** Let the observations be independent, observation `i` having a density (with respect to any measure) with mean `mu i` and variance
`phi * unit_variance(mu i)`.  Then the expectation of the Pearson estimate computed at the true means is
`phi * sum(w) / (sum(w) - ddof)`: exactly `phi` for `ddof = 0`. -/
theorem c73_pearson_expectation (f : Family) {n : ℕ} (mu w : Fin n → ℝ) (phi ddof : ℝ) (hV : ∀ i, f.unitVariance (mu i) ≠ 0)
    (nu : Measure ℝ) (D : Fin n → ℝ → ℝ) (hD : ∀ i, IsDensity nu (D i) (mu i) (phi * f.unitVariance (mu i))) (est : (Fin n → ℝ) → ℝ)
    (hest : ∀ y, f.dispersion y mu (some w) ddof .pearson = some (est y)) :
    ∫ y, est y ∂(Measure.pi fun i => nu.withDensity fun t => ENNReal.ofReal (D i t)) = phi * (∑ i, w i) / (∑ i, w i - ddof) := by
  set P : Fin n → Measure ℝ := fun i => nu.withDensity fun t => ENNReal.ofReal (D i t) with hP
  have hprob : ∀ i, IsProbabilityMeasure (P i) := by
    intro i
    constructor
    rw [hP]
    simp only []
    rw [withDensity_apply _ MeasurableSet.univ, Measure.restrict_univ, ← ofReal_integral_eq_lintegral_ofReal (hD i).integrable
      (Filter.Eventually.of_forall (hD i).nonneg), (hD i).total, ENNReal.ofReal_one]
  have hint : ∀ i, Integrable (fun t => (t - mu i) ^ 2) (P i) ∧ ∫ t, (t - mu i) ^ 2 ∂(P i) = phi * f.unitVariance (mu i) := by
    intro i
    have hae : AEMeasurable (fun t => ENNReal.ofReal (D i t)) nu := (hD i).integrable.aemeasurable.ennreal_ofReal
    have hlt : ∀ᵐ t ∂nu, ENNReal.ofReal (D i t) < ⊤ := Filter.Eventually.of_forall fun t => ENNReal.ofReal_lt_top
    constructor
    · rw [hP]; simp only []
      rw [integrable_withDensity_iff_integrable_smul₀' hae hlt]
      refine (hD i).integrable_var.congr (Filter.Eventually.of_forall fun t => ?_)
      simp only [ENNReal.toReal_ofReal ((hD i).nonneg t), smul_eq_mul]
      ring
    · rw [hP]; simp only []
      rw [integral_withDensity_eq_integral_toReal_smul₀ hae hlt, ← (hD i).variance]
      refine integral_congr_ae (Filter.Eventually.of_forall fun t => ?_)
      simp only [ENNReal.toReal_ofReal ((hD i).nonneg t), smul_eq_mul]
      ring
  have hest' : est = fun y => (∑ i, (y i - mu i) ^ 2 / f.unitVariance (mu i) * w i) / (∑ i, w i - ddof) := by
    funext y
    have := hest y
    simp only [Family.dispersion, Option.elim, Family.pearsonDispersion] at this
    exact (Option.some.inj this).symm
  have hcoord : ∀ i, Integrable (fun y : Fin n → ℝ => (y i - mu i) ^ 2 / f.unitVariance (mu i) * w i) (Measure.pi P) ∧
      ∫ y : Fin n → ℝ, (y i - mu i) ^ 2 / f.unitVariance (mu i) * w i ∂(Measure.pi P) = phi * w i := by
    intro i
    have hmp := measurePreserving_eval P i
    have h1 : Integrable (fun y : Fin n → ℝ => (y i - mu i) ^ 2) (Measure.pi P) := hmp.integrable_comp_of_integrable (hint i).1
    have h2 : ∫ y : Fin n → ℝ, (y i - mu i) ^ 2 ∂(Measure.pi P) = phi * f.unitVariance (mu i) := by
      rw [← (hint i).2, ← hmp.map_eq]
      rw [integral_map hmp.measurable.aemeasurable (by fun_prop)]
    refine ⟨(h1.div_const _).mul_const _, ?_⟩
    rw [integral_mul_const, integral_div, h2]
    have := hV i
    field_simp
  rw [hest', integral_div, integral_finsetSum _ fun i _ => (hcoord i).1]
  congr 1
  rw [Finset.mul_sum]
  exact Finset.sum_congr rfl fun i _ => (hcoord i).2

/-- Non-vacuity: a Poisson sample with means 1 and 2 (C72 supplies the densities). -/
example : ∃ (nu : Measure ℝ) (D : Fin 2 → ℝ → ℝ), ∀ i, IsDensity nu (D i) ((![1, 2] : Fin 2 → ℝ) i) (1 * Family.unitVariance .poisson ((![1, 2] : Fin 2 → ℝ) i)) := by
  have h : ∀ i : Fin 2, (![1, 2] : Fin 2 → ℝ) i ∈ muRange .poisson := by
    intro i; fin_cases i <;> norm_num [muRange]
  refine ⟨refMeasure .poisson, fun i => (c72_density .poisson trivial _ 1 (h i) one_pos).choose, fun i => ?_⟩
  exact (c72_density .poisson trivial _ 1 (h i) one_pos).choose_spec.1

/-- **C73 (documented arguments).** Omitting `sample_weight` is the same as passing ones, for both methods; an unknown method is rejected. -/
theorem c73_default_weights (f : Family) {n : ℕ} (y mu : Fin n → ℝ) (ddof : ℝ) (meth : DispersionMethod) :
    f.dispersion y mu none ddof meth = f.dispersion y mu (some fun _ => 1) ddof meth ∧ (f.dispersion y mu none ddof meth = none ↔ meth = .other) := by
  cases meth <;> simp [Family.dispersion, Family.pearsonDispersion]

/-- **C73 (degrees of freedom).** Both estimates divide by the sum of the weights less `ddof`: times that number, the Pearson estimate is the
weighted sum of squared residuals over the variance function, and the deviance estimate is the weighted sum of unit deviances.  So changing
`ddof` rescales the estimate by the ratio of the two degrees of freedom. -/
theorem c73_ddof (f : Family) (hf : Valid f) (hp : ∀ p, f = .tweedie p → 0 ≤ p) {n : ℕ} (y mu : Fin n → ℝ) (hy : ∀ i, y i ∈ ySupport f)
    (hmu : ∀ i, mu i ∈ muRange f) (w : Option (Fin n → ℝ)) (ddof : ℝ) (hd : ∑ i, w.elim 1 (· i) ≠ ddof) (e : ℝ) (meth : DispersionMethod)
    (h : f.dispersion y mu w ddof meth = some e) :
    (meth = .pearson → e * (∑ i, w.elim 1 (· i) - ddof) = ∑ i, w.elim 1 (· i) * ((y i - mu i) ^ 2 / f.unitVariance (mu i))) ∧
    (meth = .deviance → e * (∑ i, w.elim 1 (· i) - ddof) = ∑ i, w.elim 1 (· i) * f.unitDeviance (y i) (mu i)) ∧
    (∀ ddof' e', ∑ i, w.elim 1 (· i) ≠ ddof' → f.dispersion y mu w ddof' meth = some e' →
      e' * (∑ i, w.elim 1 (· i) - ddof') = e * (∑ i, w.elim 1 (· i) - ddof)) := by
  have hneg : ∀ p, f = .tweedie p → p < 0 → ∀ i, 0 ≤ y i := fun p e h => absurd (hp p e) (not_le.2 h)
  have h1 := sub_ne_zero.2 hd
  have main : ∀ dd ee, ∑ i, w.elim 1 (· i) ≠ dd → f.dispersion y mu w dd meth = some ee →
      (meth = .pearson → ee * (∑ i, w.elim 1 (· i) - dd) = ∑ i, w.elim 1 (· i) * ((y i - mu i) ^ 2 / f.unitVariance (mu i))) ∧
      (meth = .deviance → ee * (∑ i, w.elim 1 (· i) - dd) = ∑ i, w.elim 1 (· i) * f.unitDeviance (y i) (mu i)) := by
    intro dd ee hdd hee
    have h2 := sub_ne_zero.2 hdd
    constructor
    · rintro rfl
      cases w with
      | none =>
        simp only [Family.dispersion, Option.elim, Option.some.injEq, Finset.sum_const, Finset.card_univ, Fintype.card_fin, nsmul_eq_mul, mul_one,
          one_mul] at hee h2 ⊢
        rw [← hee, div_mul_cancel₀ _ h2]
      | some v =>
        simp only [Family.dispersion, Option.elim, Option.some.injEq, Family.pearsonDispersion] at hee h2 ⊢
        rw [← hee, div_mul_cancel₀ _ h2]
        exact Finset.sum_congr rfl fun i _ => mul_comm _ _
    · rintro rfl
      cases w with
      | none =>
        simp only [Family.dispersion, Option.elim, Option.some.injEq, Finset.sum_const, Finset.card_univ, Fintype.card_fin, nsmul_eq_mul, mul_one,
          one_mul] at hee h2 ⊢
        rw [← hee, div_mul_cancel₀ _ h2, c07_deviance_sum_partial f hf y mu _ hy hmu hneg]
        simp
      | some v =>
        simp only [Family.dispersion, Option.elim, Option.some.injEq] at hee h2 ⊢
        rw [← hee, div_mul_cancel₀ _ h2, c07_deviance_sum_partial f hf y mu _ hy hmu hneg]
  obtain ⟨a1, a2⟩ := main ddof e hd h
  refine ⟨a1, a2, fun d' e' hd' h' => ?_⟩
  obtain ⟨b1, b2⟩ := main d' e' hd' h'
  cases meth with
  | pearson => rw [a1 rfl, b1 rfl]
  | deviance => rw [a2 rfl, b2 rfl]
  | other => simp [Family.dispersion] at h

/-- The hypotheses are met: two observations of a normal response, default `ddof = 1`. -/
example : ∃ e, Family.dispersion .normal (![0, 2] : Fin 2 → ℝ) (fun _ => 1) none 1 .pearson = some e ∧ e = 2 := by
  refine ⟨_, rfl, ?_⟩
  norm_num [Fin.sum_univ_two, Family.unitVariance]

end Glum
