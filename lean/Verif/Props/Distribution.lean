import Mathlib.Analysis.SpecialFunctions.Pow.Deriv
import Mathlib.Analysis.SpecialFunctions.Log.Deriv
import Mathlib.Analysis.SpecialFunctions.ExpDeriv
import Mathlib.Analysis.SpecialFunctions.Trigonometric.ArctanDeriv
import Mathlib.Analysis.Calculus.Deriv.MeanValue
import Verif.Spec.Distribution
/-
C04–C07: unit deviance, its derivative, the Tweedie aliases and the total deviance.
-/
set_option linter.unusedSectionVars false
set_option linter.unusedVariables false

namespace Glum
open Spec

/-! ### C05 -/

theorem xlogy_eq (x y : ℝ) : xlogy x y = x * Real.log y := by
  unfold xlogy; split
  · next h => rw [h, zero_mul]
  · rfl

theorem poisson_dev_eq {y mu : ℝ} (hmu : 0 < mu) : 2 * (xlogy y (y / mu) - y + mu)
    = 2 * (y * Real.log y - y * Real.log mu - y + mu) := by
  rw [xlogy_eq]
  by_cases hy : y = 0
  · subst hy; simp
  · rw [Real.log_div hy hmu.ne']; ring

theorem poisson_hasDeriv (y : ℝ) {mu : ℝ} (hmu : 0 < mu) :
    HasDerivAt (fun m => 2 * (xlogy y (y / m) - y + m)) (-2 * (y - mu) / mu) mu := by
  have h : HasDerivAt (fun m => 2 * (y * Real.log y - y * Real.log m - y + m)) (2 * (-(y * mu⁻¹) + 1)) mu := by
    have := (((((Real.hasDerivAt_log hmu.ne').const_mul y).const_sub (y * Real.log y)).sub_const y).add (hasDerivAt_id mu)).const_mul 2
    exact this
  refine (h.congr_of_eventuallyEq ?_).congr_deriv ?_
  · filter_upwards [lt_mem_nhds hmu] with m hm using poisson_dev_eq hm
  · field_simp; ring

theorem gamma_hasDeriv {y mu : ℝ} (hy : 0 < y) (hmu : 0 < mu) :
    HasDerivAt (fun m => 2 * (Real.log (m / y) + y / m - 1)) (-2 * (y - mu) / mu ^ 2) mu := by
  have h : HasDerivAt (fun m => 2 * (Real.log m - Real.log y + y * m⁻¹ - 1)) (2 * (mu⁻¹ + y * (-(mu ^ 2)⁻¹))) mu := by
    exact ((((Real.hasDerivAt_log hmu.ne').sub_const _).add ((hasDerivAt_inv hmu.ne').const_mul y)).sub_const 1).const_mul 2
  refine (h.congr_of_eventuallyEq ?_).congr_deriv ?_
  · filter_upwards [lt_mem_nhds hmu] with m hm
    rw [Real.log_div hm.ne' hy.ne', div_eq_mul_inv]
  · field_simp; ring

theorem ig_hasDeriv {y mu : ℝ} (hy : 0 < y) (hmu : 0 < mu) :
    HasDerivAt (fun m => (y / m - 1) ^ 2 / y) (-2 * (y - mu) / mu ^ 3) mu := by
  have h := ((((hasDerivAt_inv hmu.ne').const_mul y).sub_const 1).pow 2).div_const y
  refine (h.congr_of_eventuallyEq ?_).congr_deriv ?_
  · filter_upwards with m
    simp [div_eq_mul_inv]
  · simp only [Nat.cast_ofNat, Nat.add_one_sub_one, pow_one]
    field_simp

theorem normal_hasDeriv (y mu : ℝ) : HasDerivAt (fun m => (y - m) ^ 2) (-2 * (y - mu) / 1) mu := by
  have h := ((hasDerivAt_id mu).const_sub y).pow 2
  refine h.congr_deriv ?_
  simp; 

theorem ghs_hasDeriv (y mu : ℝ) :
    HasDerivAt (fun m => 2 * y * (Real.arctan y - Real.arctan m) + Real.log ((1 + m ^ 2) / (1 + y ^ 2)))
      (-2 * (y - mu) / (1 + mu ^ 2)) mu := by
  have hp : ∀ m : ℝ, 0 < 1 + m ^ 2 := fun m => by positivity
  have h1 := ((Real.hasDerivAt_arctan mu).const_sub (Real.arctan y)).const_mul (2 * y)
  have h2 : HasDerivAt (fun m : ℝ => 1 + m ^ 2) (2 * mu) mu := by
    simpa using ((hasDerivAt_id mu).pow 2).const_add 1
  have h3 := (h2.log (hp mu).ne').sub_const (Real.log (1 + y ^ 2))
  refine ((h1.add h3).congr_of_eventuallyEq ?_).congr_deriv ?_
  · filter_upwards with m
    rw [Real.log_div (hp m).ne' (hp y).ne']; rfl
  · have := (hp mu).ne'
    field_simp; ring

theorem binomial_hasDeriv (y : ℝ) {mu : ℝ} (h0 : 0 < mu) (h1 : mu < 1) :
    HasDerivAt (fun m => -2 * (xlogy y m + xlogy (1 - y) (1 - m))) (-2 * (y - mu) / (mu * (1 - mu))) mu := by
  simp only [xlogy_eq]
  have h1' : 0 < 1 - mu := by linarith
  have h := (((Real.hasDerivAt_log h0.ne').const_mul y).add
    ((((hasDerivAt_id mu).const_sub 1).log h1'.ne').const_mul (1 - y))).const_mul (-2)
  refine h.congr_deriv ?_
  simp only [id]
  field_simp; ring

theorem negBinomial_hasDeriv {theta y mu : ℝ} (ht : 0 < theta) (hy : 0 ≤ y) (hmu : 0 < mu) :
    HasDerivAt (fun m => 2 * (xlogy y (y / m) - (y + 1 / theta) * Real.log ((y + 1 / theta) / (m + 1 / theta))))
      (-2 * (y - mu) / (mu + theta * mu ^ 2)) mu := by
  have hr : 0 < 1 / theta := by positivity
  have h1 : HasDerivAt (fun m => m + 1 / theta) 1 mu := (hasDerivAt_id mu).add_const _
  have h : HasDerivAt (fun m => 2 * (y * Real.log y - y * Real.log m
      - (y + 1 / theta) * (Real.log (y + 1 / theta) - Real.log (m + 1 / theta))))
      (2 * (-(y * mu⁻¹) - (y + 1 / theta) * (-(1 / (mu + 1 / theta))))) mu :=
    ((((Real.hasDerivAt_log hmu.ne').const_mul y).const_sub _).sub
      (((h1.log (by positivity)).const_sub _).const_mul _)).const_mul 2
  refine (h.congr_of_eventuallyEq ?_).congr_deriv ?_
  · filter_upwards [lt_mem_nhds hmu] with m hm
    rw [Real.log_div (by positivity) (by positivity), xlogy_eq]
    by_cases hy0 : y = 0
    · subst hy0; simp
    · rw [Real.log_div hy0 hm.ne']; ring
  · have : mu + theta * mu ^ 2 ≠ 0 := by positivity
    have h3 : mu * theta + 1 ≠ 0 := by positivity
    have h4 : 1 + mu * theta ≠ 0 := by positivity
    have h5 : 1 + theta * mu ≠ 0 := by positivity
    field_simp
    ring

theorem tweedie_hasDeriv {p y mu : ℝ} (h1 : p ≠ 1) (h2 : p ≠ 2) (hmu : 0 < mu) :
    HasDerivAt (fun m => tweedieUnitDeviance p y m) (-2 * (y - mu) / mu ^ p) mu := by
  have h1' : 1 - p ≠ 0 := by intro h; apply h1; linarith
  have h2' : 2 - p ≠ 0 := by intro h; apply h2; linarith
  have ha : HasDerivAt (fun m : ℝ => m ^ (1 - p)) ((1 - p) * mu ^ (1 - p - 1)) mu :=
    Real.hasDerivAt_rpow_const (Or.inl hmu.ne')
  have hb := (hasDerivAt_id mu).mul ha
  have h := (((ha.const_mul y).div_const (1 - p)).const_sub (max y 0 ^ (2 - p) / ((1 - p) * (2 - p)))).add (hb.div_const (2 - p))
  refine (h.const_mul 2).congr_deriv ?_
  have e1 : mu ^ (1 - p - 1) = (mu ^ p)⁻¹ := by rw [← Real.rpow_neg hmu.le]; congr 1; ring
  have e2 : mu ^ (1 - p) = mu * (mu ^ p)⁻¹ := by
    rw [Real.rpow_sub hmu, Real.rpow_one, div_eq_mul_inv]
  have hp : mu ^ p ≠ 0 := (Real.rpow_pos_of_pos hmu p).ne'
  rw [e1, e2]
  simp only [id]
  field_simp
  ring

/-- **C05.** `unit_deviance_derivative` is the derivative of the unit deviance with respect to the mean: every family with valid
parameters, every observation in the support, every mean. -/
theorem c05_deviance_derivative (f : Family) (hf : Valid f) (y mu : ℝ) (hy : y ∈ ySupport f) (hmu : mu ∈ muRange f) :
    HasDerivAt (fun m => f.unitDeviance y m) (f.unitDevianceDerivative y mu) mu := by
  cases f with
  | normal => exact normal_hasDeriv y mu
  | poisson => exact poisson_hasDeriv y hmu
  | gamma => exact gamma_hasDeriv hy hmu
  | invGaussian => exact ig_hasDeriv hy hmu
  | ghs => exact ghs_hasDeriv y mu
  | binomial => exact binomial_hasDeriv y hmu.1 hmu.2
  | negBinomial theta => exact negBinomial_hasDeriv hf hy hmu
  | tweedie p =>
    simp only [Family.unitDeviance, Family.unitDevianceDerivative, Family.unitVariance]
    by_cases h0 : p = 0
    · subst h0; simpa using normal_hasDeriv y mu
    · have hm : 0 < mu := hmu.resolve_left h0
      by_cases h1 : p = 1
      · subst h1; simpa using poisson_hasDeriv y hm
      · by_cases h2 : p = 2
        · subst h2
          have hy' : 0 < y := by
            rcases hy with h | h | h
            · norm_num at h
            · exact absurd h.1 (lt_irrefl _)
            · exact h
          simpa using gamma_hasDeriv hy' hm
        · by_cases h3 : p = 3
          · subst h3
            have hy' : 0 < y := by
              rcases hy with h | h | h
              · norm_num at h
              · norm_num at h
              · exact h
            have := ig_hasDeriv hy' hm
            norm_num at this ⊢
            exact_mod_cast this
          · simp only [h0, h1, h2, h3, if_false]
            exact tweedie_hasDeriv h1 h2 hm

/-- **C05, variance.** `unit_variance_derivative` is the derivative of `unit_variance`. -/
theorem c05_variance_derivative (f : Family) (mu : ℝ) (hmu : mu ∈ muRange f) :
    HasDerivAt (fun m => f.unitVariance m) (f.unitVarianceDerivative mu) mu := by
  cases f with
  | normal => exact hasDerivAt_const mu 1
  | poisson => exact hasDerivAt_id mu
  | gamma => simpa [Family.unitVariance, Family.unitVarianceDerivative] using hasDerivAt_pow 2 mu
  | invGaussian => simpa [Family.unitVariance, Family.unitVarianceDerivative] using hasDerivAt_pow 3 mu
  | ghs => simpa [Family.unitVariance, Family.unitVarianceDerivative] using ((hasDerivAt_id mu).pow 2).const_add 1
  | binomial =>
    have h := (hasDerivAt_id mu).mul ((hasDerivAt_id mu).const_sub 1)
    refine h.congr_deriv ?_
    simp [Family.unitVarianceDerivative]; ring
  | negBinomial theta =>
    have h := (hasDerivAt_id mu).add (((hasDerivAt_id mu).pow 2).const_mul theta)
    refine h.congr_deriv ?_
    simp [Family.unitVarianceDerivative]; ring
  | tweedie p =>
    simp only [Family.unitVariance, Family.unitVarianceDerivative]
    by_cases h0 : p = 0
    · subst h0; simpa using hasDerivAt_const mu (1 : ℝ)
    · exact Real.hasDerivAt_rpow_const (Or.inl (hmu.resolve_left h0).ne')

/-- Non-vacuity: each family has observations and means in range; here the compound Poisson-gamma with an observation 0. -/
example : Valid (.tweedie (3 / 2)) ∧ (0 : ℝ) ∈ ySupport (.tweedie (3 / 2)) ∧ (2 : ℝ) ∈ muRange (.tweedie (3 / 2)) := by
  refine ⟨Or.inr (by norm_num), Or.inr (Or.inl ⟨by norm_num, le_refl _⟩), Or.inr (by norm_num)⟩

/-! ### C04 -/

/-- If the derivative has the sign of `m - y` on an interval containing `y` and `mu`, the value at `mu` exceeds the value at `y`. -/
theorem lt_of_deriv_sign {S : Set ℝ} (hS : S.OrdConnected) (g g' : ℝ → ℝ) {y mu : ℝ} (hy : y ∈ S) (hmu : mu ∈ S)
    (hd : ∀ m ∈ S, HasDerivAt g (g' m) m) (hpos : ∀ m ∈ S, y < m → 0 < g' m) (hneg : ∀ m ∈ S, m < y → g' m < 0)
    (hne : y ≠ mu) : g y < g mu := by
  rcases lt_or_gt_of_ne hne with h | h
  · have hsub : Set.Icc y mu ⊆ S := hS.out hy hmu
    refine strictMonoOn_of_deriv_pos (convex_Icc y mu) (fun m hm => (hd m (hsub hm)).continuousAt.continuousWithinAt)
      (fun m hm => ?_) (Set.left_mem_Icc.2 h.le) (Set.right_mem_Icc.2 h.le) h
    rw [interior_Icc] at hm
    rw [(hd m (hsub ⟨hm.1.le, hm.2.le⟩)).deriv]
    exact hpos m (hsub ⟨hm.1.le, hm.2.le⟩) hm.1
  · have hsub : Set.Icc mu y ⊆ S := hS.out hmu hy
    refine strictAntiOn_of_deriv_neg (convex_Icc mu y) (fun m hm => (hd m (hsub hm)).continuousAt.continuousWithinAt)
      (fun m hm => ?_) (Set.left_mem_Icc.2 h.le) (Set.right_mem_Icc.2 h.le) h
    rw [interior_Icc] at hm
    rw [(hd m (hsub ⟨hm.1.le, hm.2.le⟩)).deriv]
    exact hneg m (hsub ⟨hm.1.le, hm.2.le⟩) hm.2

theorem unitVariance_pos (f : Family) (hf : Valid f) {mu : ℝ} (hmu : mu ∈ muRange f) : 0 < f.unitVariance mu := by
  cases f with
  | normal => exact one_pos
  | poisson => exact hmu
  | gamma => exact pow_pos hmu 2
  | invGaussian => exact pow_pos hmu 3
  | ghs => simp only [Family.unitVariance]; positivity
  | binomial => exact mul_pos hmu.1 (by linarith [hmu.2])
  | negBinomial theta =>
    have h1 : 0 < theta := hf
    have h2 : 0 < mu := hmu
    simp only [Family.unitVariance]; positivity
  | tweedie p =>
    simp only [Family.unitVariance]
    rcases hmu with h | h
    · subst h; simp
    · exact Real.rpow_pos_of_pos h p

theorem muRange_ordConnected (f : Family) : (muRange f).OrdConnected := by
  cases f with
  | normal => exact Set.ordConnected_univ
  | poisson => exact Set.ordConnected_Ioi
  | gamma => exact Set.ordConnected_Ioi
  | invGaussian => exact Set.ordConnected_Ioi
  | ghs => exact Set.ordConnected_univ
  | binomial => exact Set.ordConnected_Ioo
  | negBinomial theta => exact Set.ordConnected_Ioi
  | tweedie p =>
    refine ⟨fun a ha b hb c hc => ?_⟩
    rcases ha with h | h
    · exact Or.inl h
    · exact Or.inr (lt_of_lt_of_le h hc.1)

/-- The unit deviance is smallest at `mu = y` (for observations that are also possible means), strictly. -/
theorem deviance_strict_min (f : Family) (hf : Valid f) (y mu : ℝ) (hy : y ∈ ySupport f) (hy' : y ∈ muRange f)
    (hmu : mu ∈ muRange f) (hne : y ≠ mu) : f.unitDeviance y y < f.unitDeviance y mu := by
  refine lt_of_deriv_sign (muRange_ordConnected f) (fun m => f.unitDeviance y m) (fun m => f.unitDevianceDerivative y m) hy' hmu
    (fun m hm => c05_deviance_derivative f hf y m hy hm) (fun m hm h => ?_) (fun m hm h => ?_) hne
  · unfold Family.unitDevianceDerivative
    exact div_pos (by linarith) (unitVariance_pos f hf hm)
  · unfold Family.unitDevianceDerivative
    exact div_neg_of_neg_of_pos (by linarith) (unitVariance_pos f hf hm)

theorem deviance_self (f : Family) (hf : Valid f) (hb : f ≠ .binomial) (y : ℝ) (hy : y ∈ ySupport f) (hy' : y ∈ muRange f) :
    f.unitDeviance y y = 0 := by
  cases f with
  | normal => simp [Family.unitDeviance]
  | poisson =>
    have : y ≠ 0 := (show 0 < y from hy').ne'
    simp [Family.unitDeviance, xlogy_eq, div_self this]
  | gamma =>
    have : y ≠ 0 := (show 0 < y from hy').ne'
    simp [Family.unitDeviance, div_self this]
  | invGaussian =>
    have : y ≠ 0 := (show 0 < y from hy').ne'
    simp [Family.unitDeviance, div_self this]
  | ghs =>
    have : (1 + y ^ 2 : ℝ) ≠ 0 := by positivity
    simp [Family.unitDeviance, div_self this]
  | binomial => exact absurd rfl hb
  | negBinomial theta =>
    have h : 0 < y := hy'
    have ht : 0 < theta := hf
    have : y + 1 / theta ≠ 0 := by positivity
    simp only [Family.unitDeviance, xlogy_eq, div_self this, div_self h.ne']
    simp
  | tweedie p =>
    simp only [Family.unitDeviance]
    by_cases h0 : p = 0
    · simp [h0]
    · have h : 0 < y := hy'.resolve_left h0
      by_cases h1 : p = 1
      · simp [h1, xlogy_eq, div_self h.ne']
      · by_cases h2 : p = 2
        · simp [h2, div_self h.ne']
        · by_cases h3 : p = 3
          · simp [h3, div_self h.ne']
          · simp only [h0, h1, h2, h3, if_false]
            unfold tweedieUnitDeviance
            have h1' : 1 - p ≠ 0 := by intro h; apply h1; linarith
            have h2' : 2 - p ≠ 0 := by intro h; apply h2; linarith
            rw [max_eq_left h.le, show (2 - p) = 1 + (1 - p) by ring, Real.rpow_add h, Real.rpow_one]
            have : 1 + (1 - p) ≠ 0 := by intro h; apply h2; linarith
            field_simp
            ring

/-- Observations on the boundary of the support that are not possible means have positive deviance. -/
theorem deviance_pos_boundary (f : Family) (hf : Valid f) (hb : f ≠ .binomial) (y mu : ℝ) (hy : y ∈ ySupport f)
    (hy' : y ∉ muRange f) (hmu : mu ∈ muRange f) : 0 < f.unitDeviance y mu := by
  cases f with
  | normal => exact absurd trivial hy'
  | poisson =>
    have h : y = 0 := le_antisymm (not_lt.1 hy') hy
    subst h
    simp [Family.unitDeviance, xlogy_eq]; exact hmu
  | gamma => exact absurd hy hy'
  | invGaussian => exact absurd hy hy'
  | ghs => exact absurd trivial hy'
  | binomial => exact absurd rfl hb
  | negBinomial theta =>
    have h : y = 0 := le_antisymm (not_lt.1 hy') hy
    subst h
    have ht : 0 < theta := hf
    have hm : 0 < mu := hmu
    simp only [Family.unitDeviance, xlogy_eq, zero_mul, zero_add, zero_sub]
    have : Real.log (1 / theta / (mu + 1 / theta)) < 0 := by
      apply Real.log_neg (by positivity)
      rw [div_lt_one (by positivity)]; linarith
    have h2 : 0 < 1 / theta := by positivity
    nlinarith
  | tweedie p =>
    have hn : ¬(p = 0 ∨ 0 < y) := hy'
    push Not at hn
    obtain ⟨h0, hyn⟩ := hn
    have hm : 0 < mu := hmu.resolve_left h0
    simp only [Family.unitDeviance, h0, if_false]
    by_cases h1 : p = 1
    · subst h1
      have h : y = 0 := by
        rcases hy with h | h | h
        · norm_num at h
        · exact le_antisymm hyn h.2
        · exact absurd h (not_lt.2 hyn)
      subst h
      simp [xlogy_eq]; exact hm
    · have hp2 : p < 2 := by
        rcases hy with h | h | h
        · linarith
        · exact h.1
        · exact absurd h (not_lt.2 hyn)
      have h2 : p ≠ 2 := hp2.ne
      have h3 : p ≠ 3 := by intro h; linarith
      simp only [h1, h2, h3, if_false]
      unfold tweedieUnitDeviance
      have h2' : 0 < 2 - p := by linarith
      rw [max_eq_right hyn, Real.zero_rpow h2'.ne', zero_div, zero_sub]
      have hq : 0 < mu ^ (1 - p) := Real.rpow_pos_of_pos hm _
      have hA : 0 ≤ -(y * mu ^ (1 - p) / (1 - p)) := by
        rcases hf with h | h
        · have : 0 < 1 - p := by linarith
          rw [← neg_div]
          apply div_nonneg _ this.le
          rw [← neg_mul]; exact mul_nonneg (by linarith) hq.le
        · have hy0 : y = 0 := by
            rcases hy with h' | h' | h'
            · linarith
            · exact le_antisymm hyn h'.2
            · exact absurd h' (not_lt.2 hyn)
          simp [hy0]
      have hB : 0 < mu * mu ^ (1 - p) / (2 - p) := by positivity
      linarith

/-- **C04.** The unit deviance is non-negative and zero exactly at `y = mu`: every family except the binomial, every
observation in the support, every mean. -/
theorem c04_deviance_discrepancy_partial (f : Family) (hf : Valid f) (hb : f ≠ .binomial) (y mu : ℝ) (hy : y ∈ ySupport f)
    (hmu : mu ∈ muRange f) : 0 ≤ f.unitDeviance y mu ∧ (f.unitDeviance y mu = 0 ↔ y = mu) := by
  by_cases hy' : y ∈ muRange f
  · have hs := deviance_self f hf hb y hy hy'
    by_cases hne : y = mu
    · subst hne; exact ⟨hs.ge, by simp [hs]⟩
    · have := deviance_strict_min f hf y mu hy hy' hmu hne
      rw [hs] at this
      exact ⟨this.le, ⟨fun h => absurd h this.ne', fun h => absurd h hne⟩⟩
  · have := deviance_pos_boundary f hf hb y mu hy hy' hmu
    refine ⟨this.le, ⟨fun h => absurd h this.ne', fun h => ?_⟩⟩
    subst h; exact absurd hmu hy'

/-- **C04, binomial.** The binomial unit deviance is non-negative and, as a function of `mu`, strictly smallest at `mu = y`. -/
theorem c04_binomial_minimum_partial (y mu : ℝ) (hy : y ∈ ySupport .binomial) (hmu : mu ∈ muRange .binomial) :
    0 ≤ Family.unitDeviance .binomial y mu ∧
    (y ∈ muRange .binomial → y ≠ mu → Family.unitDeviance .binomial y y < Family.unitDeviance .binomial y mu) := by
  refine ⟨?_, fun hy' hne => deviance_strict_min .binomial trivial y mu hy hy' hmu hne⟩
  obtain ⟨hy0, hy1⟩ := hy
  obtain ⟨h0, h1⟩ := hmu
  simp only [Family.unitDeviance, xlogy_eq]
  have e1 : Real.log mu < 0 := Real.log_neg h0 h1
  have e2 : Real.log (1 - mu) < 0 := Real.log_neg (by linarith) (by linarith)
  nlinarith [mul_nonneg hy0 (neg_nonneg.2 e1.le), mul_nonneg (sub_nonneg.2 hy1) (neg_nonneg.2 e2.le)]

/-- **C04, binomial, 0/1 observations.** With observations 0 or 1 the deviance is strictly positive at every mean inside `(0,1)`
and tends to 0 at `mu = y` (the value of the formula at `mu = y` is 0). -/
theorem c04_binomial_binary_partial (y : ℝ) (hy : y = 0 ∨ y = 1) (mu : ℝ) (h0 : 0 ≤ mu) (h1 : mu ≤ 1)
    (hfin : y = 1 → mu ≠ 0) (hfin' : y = 0 → mu ≠ 1) :
    0 ≤ Family.unitDeviance .binomial y mu ∧ (Family.unitDeviance .binomial y mu = 0 ↔ y = mu) := by
  simp only [Family.unitDeviance, xlogy_eq]
  rcases hy with rfl | rfl
  · have h2 : 0 < 1 - mu := by
      rcases lt_or_eq_of_le h1 with h | h
      · linarith
      · exact absurd h (hfin' rfl)
    rw [zero_mul, sub_zero, one_mul, zero_add]
    rcases eq_or_lt_of_le h0 with h | h
    · subst h; simp
    · have := Real.log_neg h2 (by linarith)
      exact ⟨by linarith, ⟨fun e => by linarith, fun e => absurd e h.ne⟩⟩
  · have h2 : 0 < mu := lt_of_le_of_ne h0 (hfin rfl).symm
    rw [sub_self, zero_mul, one_mul, add_zero]
    rcases eq_or_lt_of_le h1 with h | h
    · subst h; simp
    · have := Real.log_neg h2 h
      exact ⟨by linarith, ⟨fun e => by linarith, fun e => absurd e.symm h.ne⟩⟩

/-- **C04 fails for fractional binomial observations** (finding F1): at `y = mu = 1/2` the deviance is `2 log 2`, not 0. -/
theorem c04_binomial_fractional_counterexample :
    (1 / 2 : ℝ) ∈ ySupport .binomial ∧ (1 / 2 : ℝ) ∈ muRange .binomial ∧ Family.unitDeviance .binomial (1 / 2) (1 / 2) ≠ 0 := by
  refine ⟨⟨by norm_num, by norm_num⟩, ⟨by norm_num, by norm_num⟩, ?_⟩
  simp only [Family.unitDeviance, xlogy_eq]
  have : Real.log (1 / 2) < 0 := Real.log_neg (by norm_num) (by norm_num)
  have e : (1 - 1 / 2 : ℝ) = 1 / 2 := by norm_num
  rw [e]
  intro h
  linarith

/-! ### C06 -/

/-- The class that `TweedieDistribution(p)` is documented to be for the four special powers. -/
def tweedieAlias : ℕ → Option Family
  | 0 => some .normal
  | 1 => some .poisson
  | 2 => some .gamma
  | 3 => some .invGaussian
  | _ => none

/-- **C06.** `TweedieDistribution(0/1/2/3)` agrees with the normal, Poisson, gamma and inverse Gaussian classes on the unit variance
and its derivative, the unit deviance and its derivative, the total deviance and the compiled path chosen, for all observations, means
and weights and all links. -/
theorem c06_tweedie_alias (k : ℕ) (g : Family) (hg : tweedieAlias k = some g) :
    (∀ mu, Family.unitVariance (.tweedie k) mu = g.unitVariance mu) ∧
    (∀ mu, Family.unitVarianceDerivative (.tweedie k) mu = g.unitVarianceDerivative mu) ∧
    (∀ y mu, Family.unitDeviance (.tweedie k) y mu = g.unitDeviance y mu) ∧
    (∀ y mu, Family.unitDevianceDerivative (.tweedie k) y mu = g.unitDevianceDerivative y mu) ∧
    (∀ (n : ℕ) (y mu w : Fin n → ℝ), Family.deviance (.tweedie k) y mu w = g.deviance y mu w) ∧
    (∀ l, Family.fast (.tweedie k) l = g.fast l) ∧ ySupport (.tweedie k) = ySupport g := by
  match k, hg with
  | 0, hg =>
    obtain rfl : Family.normal = g := by simpa [tweedieAlias] using hg
    refine ⟨?_, ?_, ?_, ?_, ?_, ?_, ?_⟩
    · intro mu; simp [Family.unitVariance]
    · intro mu; simp [Family.unitVarianceDerivative]
    · intro y mu; simp [Family.unitDeviance]
    · intro y mu; simp [Family.unitDevianceDerivative, Family.unitVariance]
    · intro n y mu w; simp [Family.deviance]
    · intro l; cases l <;> simp [Family.fast]
    · simp [ySupport]
  | 1, hg =>
    obtain rfl : Family.poisson = g := by simpa [tweedieAlias] using hg
    refine ⟨?_, ?_, ?_, ?_, ?_, ?_, ?_⟩
    · intro mu; simp [Family.unitVariance]
    · intro mu; simp [Family.unitVarianceDerivative]
    · intro y mu; simp [Family.unitDeviance]
    · intro y mu; simp [Family.unitDevianceDerivative, Family.unitVariance]
    · intro n y mu w; simp [Family.deviance]
    · intro l; cases l <;> simp [Family.fast]
    · ext y; simp [ySupport]; norm_num; intro h; exact h.le
  | 2, hg =>
    obtain rfl : Family.gamma = g := by simpa [tweedieAlias] using hg
    refine ⟨?_, ?_, ?_, ?_, ?_, ?_, ?_⟩
    · intro mu; simp [Family.unitVariance]
    · intro mu; simp only [Family.unitVarianceDerivative, Nat.cast_ofNat]; norm_num
    · intro y mu; simp [Family.unitDeviance]
    · intro y mu; simp [Family.unitDevianceDerivative, Family.unitVariance]
    · intro n y mu w; simp [Family.deviance]
    · intro l; cases l <;> simp [Family.fast]
    · ext y; simp [ySupport]
  | 3, hg =>
    obtain rfl : Family.invGaussian = g := by simpa [tweedieAlias] using hg
    refine ⟨?_, ?_, ?_, ?_, ?_, ?_, ?_⟩
    · intro mu; simp only [Family.unitVariance, Nat.cast_ofNat]; norm_cast
    · intro mu; simp only [Family.unitVarianceDerivative, Nat.cast_ofNat]; norm_num
    · intro y mu; simp [Family.unitDeviance]
    · intro y mu; simp only [Family.unitDevianceDerivative, Family.unitVariance, Nat.cast_ofNat]; norm_cast
    · intro n y mu w; simp [Family.deviance]
    · intro l; cases l <;> simp [Family.fast]; norm_num
    · ext y; simp [ySupport]; norm_num

/-! ### C07 -/

/-- **C07.** The total deviance computed by the compiled kernels is the weighted sum of the unit deviances: every family, sample size,
weights; observations in the support, means in range.  Missing: Tweedie with `p < 0` and a negative observation, where it is false
(`c07_tweedie_negative_counterexample`). -/
theorem c07_deviance_sum_partial (f : Family) (hf : Valid f) {n : ℕ} (y mu w : Fin n → ℝ) (hy : ∀ i, y i ∈ ySupport f)
    (hmu : ∀ i, mu i ∈ muRange f) (hF2 : ∀ p, f = .tweedie p → p < 0 → ∀ i, 0 ≤ y i) :
    f.deviance y mu w = ∑ i, w i * f.unitDeviance (y i) (mu i) := by
  have pois : ∀ (y mu : Fin n → ℝ), (∀ i, 0 ≤ y i) → (∀ i, 0 < mu i) →
      poissonDeviance y w mu = ∑ i, w i * (2 * (xlogy (y i) (y i / mu i) - y i + mu i)) := by
    intro y mu hy hmu
    unfold poissonDeviance
    rw [Finset.mul_sum]
    refine Finset.sum_congr rfl fun i _ => ?_
    rw [poisson_dev_eq (hmu i)]
    split
    · ring
    · next h =>
      have : y i = 0 := le_antisymm (not_lt.1 h) (hy i)
      rw [this]; ring
  have gam : ∀ (y mu : Fin n → ℝ), (∀ i, 0 < y i) → (∀ i, 0 < mu i) →
      gammaDeviance y w mu = ∑ i, w i * (2 * (Real.log (mu i / y i) + y i / mu i - 1)) := by
    intro y mu hy hmu
    unfold gammaDeviance
    rw [Finset.mul_sum]
    refine Finset.sum_congr rfl fun i _ => ?_
    rw [Real.log_div (hmu i).ne' (hy i).ne']; ring
  have ig : invGaussianDeviance y w mu = ∑ i, w i * ((y i / mu i - 1) ^ 2 / y i) := by
    unfold invGaussianDeviance
    exact Finset.sum_congr rfl fun i _ => by ring
  cases f with
  | normal => rfl
  | poisson => exact pois y mu hy hmu
  | gamma => exact gam y mu hy hmu
  | invGaussian => exact ig
  | ghs => exact Finset.sum_congr rfl fun i _ => mul_comm _ _
  | binomial => exact Finset.sum_congr rfl fun i _ => mul_comm _ _
  | negBinomial theta =>
    simp only [Family.deviance, negBinomialDeviance, Family.unitDeviance, xlogy_eq]
    rw [Finset.mul_sum]
    refine Finset.sum_congr rfl fun i _ => ?_
    split
    · ring
    · next h =>
      have : y i = 0 := le_antisymm (not_lt.1 h) (hy i)
      rw [this]; ring
  | tweedie p =>
    simp only [Family.deviance, Family.unitDeviance]
    by_cases h0 : p = 0
    · simp [h0, normalDeviance]
    · have hm : ∀ i, 0 < mu i := fun i => (hmu i).resolve_left h0
      by_cases h1 : p = 1
      · subst h1
        simp only [one_ne_zero, if_false, if_true]
        refine pois y mu (fun i => ?_) hm
        rcases hy i with h | h | h
        · norm_num at h
        · exact h.2
        · exact h.le
      · by_cases h2 : p = 2
        · subst h2
          simp only [h0, h1, if_false, if_true]
          refine gam y mu (fun i => ?_) hm
          rcases hy i with h | h | h
          · norm_num at h
          · exact absurd h.1 (lt_irrefl _)
          · exact h
        · by_cases h3 : p = 3
          · simp only [h0, h1, h2, h3, if_false, if_true]
            norm_num
            exact ig
          · simp only [h0, h1, h2, h3, if_false]
            unfold tweedieDeviance tweedieUnitDeviance
            rw [Finset.mul_sum]
            refine Finset.sum_congr rfl fun i _ => ?_
            have h1' : 1 - p ≠ 0 := by intro h; apply h1; linarith
            have h2' : 2 - p ≠ 0 := by intro h; apply h2; linarith
            have hy0 : 0 ≤ y i := by
              rcases hf with hp | hp
              · exact hF2 p rfl (lt_of_le_of_ne hp h0) i
              · rcases hy i with h | h | h
                · linarith
                · exact h.2
                · exact h.le
            split
            · next h =>
              rw [max_eq_left h.le, show (2 - p) = 1 + (1 - p) by ring, Real.rpow_add h, Real.rpow_one]
              have : 1 + (1 - p) ≠ 0 := by intro h; apply h2; linarith
              field_simp
              ring
            · next h =>
              have : y i = 0 := le_antisymm (not_lt.1 h) hy0
              rw [this, max_self, Real.zero_rpow h2']
              field_simp
              ring

/-- **C07 fails for Tweedie `p < 0` and negative observations** (finding F2): one observation `y = -1`, mean 1, weight 1,
power -1. -/
theorem c07_tweedie_negative_counterexample :
    Valid (.tweedie (-1)) ∧ (-1 : ℝ) ∈ ySupport (.tweedie (-1)) ∧ (1 : ℝ) ∈ muRange (.tweedie (-1)) ∧
    Family.deviance (n := 1) (.tweedie (-1)) (fun _ => -1) (fun _ => 1) (fun _ => 1) = 2 / 3 ∧
    Family.unitDeviance (.tweedie (-1)) (-1) 1 = 5 / 3 := by
  refine ⟨Or.inl (by norm_num), Or.inl (by norm_num), Or.inr one_pos, ?_, ?_⟩
  · simp only [Family.deviance, tweedieDeviance]
    norm_num
  · simp only [Family.unitDeviance, tweedieUnitDeviance]
    norm_num

/-- Non-vacuity of C07: a compound Poisson-gamma sample with a zero. -/
example : ∃ y mu w : Fin 2 → ℝ, (∀ i, y i ∈ ySupport (.tweedie (3 / 2))) ∧ (∀ i, mu i ∈ muRange (.tweedie (3 / 2))) ∧
    y 0 = 0 ∧ y 1 = 3 ∧ w 1 = 2 :=
  ⟨fun i => if i = 0 then 0 else 3, fun _ => 1, fun _ => 2,
   fun i => Or.inr (Or.inl ⟨by norm_num, by simp only []; split <;> norm_num⟩), fun _ => Or.inr one_pos, rfl, rfl, rfl⟩

end Glum
