import Mathlib.Analysis.SpecialFunctions.Trigonometric.Arctan
import Verif.Props.Stability
import Verif.Props.Shrink
import Verif.Props.Null
/-
C101: how one observation acts on the model: a larger response pulls its own prediction up, a larger weight pulls it towards the response, and leaving the
observation out pushes the model away from it.
-/
set_option linter.unusedSectionVars false
set_option linter.unusedVariables false
set_option linter.unusedSimpArgs false

namespace Glum
open Spec

variable {n p : ℕ} {ic : Bool}

/-- The canonical parameter of the mean: `∫ 1 / V`. -/
noncomputable def Spec.canonical (f : Family) (mu : ℝ) : ℝ :=
  open Classical in
  match f with
  | .normal => mu
  | .poisson => Real.log mu
  | .gamma => -1 / mu
  | .invGaussian => -1 / (2 * mu ^ 2)
  | .ghs => Real.arctan mu
  | .binomial => Real.log mu - Real.log (1 - mu)
  | .negBinomial theta => Real.log mu - Real.log (mu + 1 / theta)
  | .tweedie p => if p = 1 then Real.log mu else mu ^ (1 - p) / (1 - p)

/-- The model's mean for row `i` of the data. -/
noncomputable def Spec.fittedMean (p : ℕ) (e50 : ℝ) (f : Family) (l : Link) (R : Rows n) (b0 : ℝ) (b : ℕ → ℝ) (i : Fin n) : ℝ :=
  trueMean e50 f l (∑ j : Fin p, R.X i j * b j + b0 + (R.off.getD fun _ => 0) i)

/-- The canonical parameter grows with the mean. -/
theorem canonical_mono (f : Family) (hf : Valid f) (mu nu : ℝ) (hm : mu ∈ muRange f) (hn : nu ∈ muRange f) (h : mu < nu) : canonical f mu < canonical f nu := by
  cases f with
  | normal => exact h
  | poisson => exact Real.log_lt_log hm h
  | gamma =>
    simp only [canonical]
    have hm' : (0 : ℝ) < mu := hm
    rw [neg_div, neg_div, neg_lt_neg_iff]
    exact one_div_lt_one_div_of_lt hm' h
  | invGaussian =>
    simp only [canonical]
    have hm' : (0 : ℝ) < mu := hm
    rw [neg_div, neg_div, neg_lt_neg_iff]
    exact one_div_lt_one_div_of_lt (by positivity) (by nlinarith)
  | ghs => exact Real.arctan_strictMono h
  | binomial =>
    simp only [canonical]
    obtain ⟨h1, h2⟩ := hm
    obtain ⟨h3, h4⟩ := hn
    have a1 := Real.log_lt_log h1 h
    have a2 := Real.log_lt_log (show 0 < 1 - nu by linarith) (show 1 - nu < 1 - mu by linarith)
    linarith
  | negBinomial theta =>
    simp only [canonical]
    have hm' : (0 : ℝ) < mu := hm
    have ht : 0 < 1 / theta := one_div_pos.2 hf
    have hn' : (0 : ℝ) < nu := hn
    rw [← Real.log_div hm'.ne' (by linarith), ← Real.log_div hn'.ne' (by linarith)]
    refine Real.log_lt_log (by positivity) ?_
    rw [div_lt_div_iff₀ (by linarith) (by linarith)]
    nlinarith
  | tweedie q =>
    simp only [canonical]
    by_cases h1 : q = 1
    · rw [if_pos h1, if_pos h1]
      have hm' : (0 : ℝ) < mu := hm.resolve_left (by rw [h1]; norm_num)
      exact Real.log_lt_log hm' h
    · rw [if_neg h1, if_neg h1]
      by_cases h0 : q = 0
      · subst h0; simpa using h
      · have hm' : (0 : ℝ) < mu := hm.resolve_left h0
        rcases lt_or_gt_of_ne h1 with hq | hq
        · exact div_lt_div_of_pos_right (Real.rpow_lt_rpow hm'.le h (by linarith)) (by linarith)
        · exact (div_lt_div_right_of_neg (by linarith)).2 (Real.rpow_lt_rpow_of_neg hm' h (by linarith))

/-- It is the canonical parameter: its derivative is the inverse of the variance function. -/
theorem canonical_hasDeriv (f : Family) (hf : Valid f) (mu : ℝ) (hm : mu ∈ muRange f) : HasDerivAt (canonical f) (1 / f.unitVariance mu) mu := by
  have hinv : ∀ x : ℝ, 0 < x → HasDerivAt (fun m : ℝ => -1 / m) (1 / x ^ 2) x := by
    intro x hx
    have := ((hasDerivAt_inv hx.ne').neg)
    refine (this.congr_deriv ?_).congr_of_eventuallyEq (Filter.Eventually.of_forall fun m => ?_)
    · simp
    · simp [neg_div]
  cases f with
  | normal => exact (hasDerivAt_id mu).congr_deriv (by simp [Family.unitVariance])
  | poisson => exact (Real.hasDerivAt_log (ne_of_gt hm)).congr_deriv (by simp [Family.unitVariance])
  | gamma => exact hinv mu hm
  | invGaussian =>
    have hm' : (0 : ℝ) < mu := hm
    have h1 : HasDerivAt (fun m : ℝ => 2 * m ^ 2) (2 * (2 * mu)) mu := by simpa using (hasDerivAt_pow 2 mu).const_mul 2
    have h2 := (h1.inv (by positivity)).neg
    refine (h2.congr_deriv ?_).congr_of_eventuallyEq (Filter.Eventually.of_forall fun m => ?_)
    · simp only [Family.unitVariance]; field_simp
    · simp [canonical, neg_div]
  | ghs => exact (Real.hasDerivAt_arctan mu).congr_deriv (by simp [Family.unitVariance])
  | binomial =>
    obtain ⟨h1, h2⟩ := hm
    have h3 : HasDerivAt (fun m : ℝ => Real.log (1 - m)) (-1 / (1 - mu)) mu := by
      have := ((hasDerivAt_id mu).const_sub 1).log (by simpa using (show (1 : ℝ) - mu ≠ 0 by linarith))
      simpa using this
    refine ((Real.hasDerivAt_log h1.ne').sub h3).congr_deriv ?_
    simp only [Family.unitVariance]
    have : 1 - mu ≠ 0 := by linarith
    field_simp
    ring
  | negBinomial theta =>
    have hm' : (0 : ℝ) < mu := hm
    have ht : 0 < theta := hf
    have h3 : HasDerivAt (fun m : ℝ => Real.log (m + 1 / theta)) (1 / (mu + 1 / theta)) mu := by
      exact ((hasDerivAt_id mu).add_const (1 / theta)).log (by simp only [id]; positivity)
    refine ((Real.hasDerivAt_log hm'.ne').sub h3).congr_deriv ?_
    simp only [Family.unitVariance]
    have : mu + 1 / theta ≠ 0 := by positivity
    field_simp
    ring
  | tweedie q =>
    by_cases h1 : q = 1
    · subst h1
      have hm' : (0 : ℝ) < mu := hm.resolve_left (by norm_num)
      have e : canonical (.tweedie 1) = Real.log := by funext m; simp [canonical]
      rw [e]
      simpa [Family.unitVariance] using Real.hasDerivAt_log hm'.ne'
    · have e : canonical (.tweedie q) = fun m => m ^ (1 - q) / (1 - q) := by funext m; simp [canonical, h1]
      rw [e]
      have h1' : 1 - q ≠ 0 := fun e => h1 (by linarith)
      by_cases h0 : q = 0
      · subst h0
        refine ((hasDerivAt_id mu).congr_deriv (by simp [Family.unitVariance])).congr_of_eventuallyEq (Filter.Eventually.of_forall fun m => ?_)
        simp
      · have hm' : (0 : ℝ) < mu := hm.resolve_left h0
        refine ((Real.hasDerivAt_rpow_const (p := 1 - q) (Or.inl hm'.ne')).div_const (1 - q)).congr_deriv ?_
        simp only [Family.unitVariance]
        rw [show 1 - q - 1 = -q by ring, Real.rpow_neg hm'.le]
        field_simp

/-- **The deviance couples the response and the mean through the canonical parameter only.** -/
theorem deviance_cross (f : Family) (hf : Valid f) (y y' mu nu : ℝ) (hy : y ∈ ySupport f) (hy' : y' ∈ ySupport f) (hm : mu ∈ muRange f) (hn : nu ∈ muRange f) :
    f.unitDeviance y' mu - f.unitDeviance y mu - (f.unitDeviance y' nu - f.unitDeviance y nu) = -2 * (y' - y) * (canonical f mu - canonical f nu) := by
  have hpois : ∀ mu nu : ℝ, 0 < mu → 0 < nu → 2 * (xlogy y' (y' / mu) - y' + mu) - 2 * (xlogy y (y / mu) - y + mu)
      - (2 * (xlogy y' (y' / nu) - y' + nu) - 2 * (xlogy y (y / nu) - y + nu)) = -2 * (y' - y) * (Real.log mu - Real.log nu) := by
    intro mu nu hm hn
    rw [xlogy_ratio _ _ hm, xlogy_ratio _ _ hm, xlogy_ratio _ _ hn, xlogy_ratio _ _ hn]; ring
  have hgam : ∀ y y' mu nu : ℝ, 0 < y → 0 < y' → 0 < mu → 0 < nu → 2 * (Real.log (mu / y') + y' / mu - 1) - 2 * (Real.log (mu / y) + y / mu - 1)
      - (2 * (Real.log (nu / y') + y' / nu - 1) - 2 * (Real.log (nu / y) + y / nu - 1)) = -2 * (y' - y) * (-1 / mu - -1 / nu) := by
    intro y y' mu nu h1 h2 hm hn
    rw [Real.log_div hm.ne' h1.ne', Real.log_div hm.ne' h2.ne', Real.log_div hn.ne' h1.ne', Real.log_div hn.ne' h2.ne']; ring
  have hig : ∀ y y' mu nu : ℝ, 0 < y → 0 < y' → 0 < mu → 0 < nu → (y' / mu - 1) ^ 2 / y' - (y / mu - 1) ^ 2 / y
      - ((y' / nu - 1) ^ 2 / y' - (y / nu - 1) ^ 2 / y) = -2 * (y' - y) * (-1 / (2 * mu ^ 2) - -1 / (2 * nu ^ 2)) := by
    intro y y' mu nu h1 h2 hm hn
    have := h1.ne'; have := h2.ne'; have := hm.ne'; have := hn.ne'
    field_simp
    ring
  cases f with
  | normal => simp only [Family.unitDeviance, canonical]; ring
  | poisson => exact hpois mu nu hm hn
  | gamma => exact hgam y y' mu nu hy hy' hm hn
  | invGaussian => exact hig y y' mu nu hy hy' hm hn
  | ghs =>
    simp only [Family.unitDeviance, canonical]
    rw [Real.log_div (by positivity) (by positivity), Real.log_div (by positivity) (by positivity), Real.log_div (by positivity) (by positivity),
      Real.log_div (by positivity) (by positivity)]
    ring
  | binomial =>
    simp only [Family.unitDeviance, canonical, xlogy_mul]
    ring
  | negBinomial theta =>
    have hm' : (0 : ℝ) < mu := hm
    have hn' : (0 : ℝ) < nu := hn
    have ht : 0 < 1 / theta := one_div_pos.2 hf
    have h1 : (0 : ℝ) ≤ y := hy
    have h2 : (0 : ℝ) ≤ y' := hy'
    simp only [Family.unitDeviance, canonical]
    rw [xlogy_ratio _ _ hm', xlogy_ratio _ _ hm', xlogy_ratio _ _ hn', xlogy_ratio _ _ hn',
      Real.log_div (by linarith) (by linarith), Real.log_div (by linarith) (by linarith), Real.log_div (by linarith) (by linarith),
      Real.log_div (by linarith) (by linarith)]
    ring
  | tweedie q =>
    simp only [Family.unitDeviance, canonical]
    by_cases q0 : q = 0
    · subst q0
      simp only [if_true, if_neg (zero_ne_one (α := ℝ)), sub_zero, Real.rpow_one, div_one]
      ring
    · have hm' : (0 : ℝ) < mu := hm.resolve_left q0
      have hn' : (0 : ℝ) < nu := hn.resolve_left q0
      simp only [if_neg q0]
      by_cases q1 : q = 1
      · simp only [if_pos q1]; exact hpois mu nu hm' hn'
      · simp only [if_neg q1]
        have q1' : 1 - q ≠ 0 := fun e => q1 (by linarith)
        by_cases q2 : q = 2
        · subst q2
          have h1 : (0 : ℝ) < y := by rcases hy with h | h | h <;> [linarith; linarith [h.1]; exact h]
          have h2 : (0 : ℝ) < y' := by rcases hy' with h | h | h <;> [linarith; linarith [h.1]; exact h]
          simp only [if_true]
          have e : ∀ x : ℝ, x ^ ((1 : ℝ) - 2) / (1 - 2) = -1 / x := by
            intro x
            rw [show (1 : ℝ) - 2 = -1 by norm_num, Real.rpow_neg_one]; ring
          rw [e, e]
          exact hgam y y' mu nu h1 h2 hm' hn'
        · simp only [if_neg q2]
          by_cases q3 : q = 3
          · subst q3
            have h1 : (0 : ℝ) < y := by rcases hy with h | h | h <;> [linarith; linarith [h.1]; exact h]
            have h2 : (0 : ℝ) < y' := by rcases hy' with h | h | h <;> [linarith; linarith [h.1]; exact h]
            simp only [if_true]
            have e : ∀ x : ℝ, 0 < x → x ^ ((1 : ℝ) - 3) / (1 - 3) = -1 / (2 * x ^ 2) := by
              intro x hx
              rw [show (1 : ℝ) - 3 = -(2 : ℕ) by norm_num, Real.rpow_neg hx.le, Real.rpow_natCast]
              push_cast
              field_simp
            rw [e _ hm', e _ hn']
            exact hig y y' mu nu h1 h2 hm' hn'
          · simp only [if_neg q3, tweedieUnitDeviance]
            ring

/-- Two nearly optimal models for two response vectors. -/
theorem response_trade (C : FitCfg p ic) (R : Rows n) (y' : Fin n → ℝ) (hf : Valid C.family) (hy : ∀ i, R.y i ∈ ySupport C.family) (hy' : ∀ i, y' i ∈ ySupport C.family)
    (P : (ℕ → ℝ) → ℝ) (b0 c0 : ℝ) (b c : ℕ → ℝ) (t t' : ℝ)
    (hm : ∀ i, fittedMean p C.e50 C.family C.link R b0 b i ∈ muRange C.family) (hm' : ∀ i, fittedMean p C.e50 C.family C.link R c0 c i ∈ muRange C.family)
    (h : halfDeviance p C.e50 C.family C.link R b0 b + P b ≤ halfDeviance p C.e50 C.family C.link R c0 c + P c + t)
    (h' : halfDeviance p C.e50 C.family C.link { R with y := y' } c0 c + P c ≤ halfDeviance p C.e50 C.family C.link { R with y := y' } b0 b + P b + t') :
    -(t + t') ≤ ∑ i, R.sw i * ((y' i - R.y i) *
      (canonical C.family (fittedMean p C.e50 C.family C.link R c0 c i) - canonical C.family (fittedMean p C.e50 C.family C.link R b0 b i))) := by
  have key : ∑ i, R.sw i * ((y' i - R.y i) *
      (canonical C.family (fittedMean p C.e50 C.family C.link R c0 c i) - canonical C.family (fittedMean p C.e50 C.family C.link R b0 b i)))
      = halfDeviance p C.e50 C.family C.link { R with y := y' } b0 b - halfDeviance p C.e50 C.family C.link R b0 b
        - (halfDeviance p C.e50 C.family C.link { R with y := y' } c0 c - halfDeviance p C.e50 C.family C.link R c0 c) := by
    unfold halfDeviance
    rw [← mul_sub, ← mul_sub, ← mul_sub, ← Finset.sum_sub_distrib, ← Finset.sum_sub_distrib, ← Finset.sum_sub_distrib, Finset.mul_sum]
    refine Finset.sum_congr rfl fun i _ => ?_
    have := deviance_cross C.family hf (R.y i) (y' i) _ _ (hy i) (hy' i) (hm i) (hm' i)
    simp only [fittedMean] at this ⊢
    linear_combination (-R.sw i / 2) * this
  linarith

/-- **C101, responses.** Solutions for two response vectors (same features, weights, offset, penalties, bounds): the changes of the responses and of the fitted
canonical parameters are positively correlated. -/
theorem c101_responses (C : FitCfg p ic) (R : Rows n) (y' : Fin n → ℝ) (hf : Valid C.family) (hy : ∀ i, R.y i ∈ ySupport C.family) (hy' : ∀ i, y' i ∈ ySupport C.family)
    (s : ℕ → ℝ) (a l1r b0 c0 : ℝ) (b c : ℕ → ℝ)
    (h : Solves p ic C.lb C.ub (fitObjective p C.e50 C.family C.link R s C.P1a C.P2a a l1r) b0 b)
    (h' : Solves p ic C.lb C.ub (fitObjective p C.e50 C.family C.link { R with y := y' } s C.P1a C.P2a a l1r) c0 c)
    (hm : ∀ i, fittedMean p C.e50 C.family C.link R b0 b i ∈ muRange C.family) (hm' : ∀ i, fittedMean p C.e50 C.family C.link R c0 c i ∈ muRange C.family) :
    0 ≤ ∑ i, R.sw i * ((y' i - R.y i) *
      (canonical C.family (fittedMean p C.e50 C.family C.link R c0 c i) - canonical C.family (fittedMean p C.e50 C.family C.link R b0 b i))) := by
  have h1 := h.2.2 c0 c h'.1 h'.2.1
  have h2 := h'.2.2 b0 b h.1 h.2.1
  rw [fitObjective_split, fitObjective_split] at h1 h2
  have := response_trade C R y' hf hy hy' (fun b => a * enetPenalty p s C.P1a C.P2a l1r b) b0 c0 b c 0 0 hm hm' (by linarith) (by linarith)
  simpa using this

/-- **C101, one response.** If one response is raised and nothing else is changed, the fitted mean of that row does not go down. -/
theorem c101_response_up (C : FitCfg p ic) (R : Rows n) (k : Fin n) (v : ℝ) (hv : R.y k < v) (hw : 0 < R.sw k) (hf : Valid C.family)
    (hy : ∀ i, R.y i ∈ ySupport C.family) (hy' : v ∈ ySupport C.family) (s : ℕ → ℝ) (a l1r b0 c0 : ℝ) (b c : ℕ → ℝ)
    (h : Solves p ic C.lb C.ub (fitObjective p C.e50 C.family C.link R s C.P1a C.P2a a l1r) b0 b)
    (h' : Solves p ic C.lb C.ub (fitObjective p C.e50 C.family C.link { R with y := Function.update R.y k v } s C.P1a C.P2a a l1r) c0 c)
    (hm : ∀ i, fittedMean p C.e50 C.family C.link R b0 b i ∈ muRange C.family) (hm' : ∀ i, fittedMean p C.e50 C.family C.link R c0 c i ∈ muRange C.family) :
    fittedMean p C.e50 C.family C.link R b0 b k ≤ fittedMean p C.e50 C.family C.link R c0 c k := by
  have hy2 : ∀ i, Function.update R.y k v i ∈ ySupport C.family := by
    intro i
    by_cases hi : i = k
    · rw [hi, Function.update_self]; exact hy'
    · rw [Function.update_of_ne hi]; exact hy i
  have h1 := c101_responses C R _ hf hy hy2 s a l1r b0 c0 b c h h' hm hm'
  rw [Finset.sum_eq_single k (fun i _ hi => by rw [Function.update_of_ne hi]; ring) (fun e => absurd (Finset.mem_univ k) e), Function.update_self] at h1
  by_contra hlt
  have := canonical_mono C.family hf _ _ (hm' k) (hm k) (not_le.1 hlt)
  have h2 : R.sw k * ((v - R.y k) * (canonical C.family (fittedMean p C.e50 C.family C.link R c0 c k) - canonical C.family (fittedMean p C.e50 C.family C.link R b0 b k))) < 0 :=
    mul_neg_of_pos_of_neg hw (mul_neg_of_pos_of_neg (by linarith) (by linarith))
  linarith

/-- **C101, fits.** The same for two fits without `ConvergenceWarning`, up to the tolerances times the distance of the two models on the standardised scale. -/
theorem c101_fits (next next' : (ℕ → BitVec 32) → ℕ → (ℕ → BitVec 32))
    (inner inner' : (ℕ → BitVec 32) → (m : ℕ) → Inner m p ic) (C C' : FitCfg p ic) (hC : SameProblem C C') (stats : Stats) (R : Rows n)
    (k : Fin n) (v : ℝ) (hv : R.y k < v) (hwk : 0 < R.sw k) (hy' : v ∈ ySupport C.family)
    (l1r : ℝ) (h : ConvexFit C R l1r) (hs : ∀ j, 0 ≤ (stats n R.X R.sw).2 j) (hstep : C.stepTol = none) (hstep' : C'.stepTol = none)
    (sp sp' : AlphaSpec) (s t s' t' : SolverLog) (r r' : PathResult)
    (hfit : glmFit C stats (irlsSolver next inner) R l1r sp s = some (t, r)) (ha : ∀ x ∈ r.alphas, 0 ≤ x) (hw : t.convWarn = s.convWarn)
    (hfit' : glmFit C' stats (irlsSolver next' inner') { R with y := Function.update R.y k v } l1r sp' s' = some (t', r')) (ha' : ∀ x ∈ r'.alphas, 0 ≤ x)
    (hw' : t'.convWarn = s'.convWarn)
    (i i' : ℕ) (hi : i < r.alphas.length) (hc : i < r.coefPath.length) (hb : i < r.interceptPath.length)
    (hi' : i' < r'.alphas.length) (hc' : i' < r'.coefPath.length) (hb' : i' < r'.interceptPath.length)
    (hsame : r'.alphas[i'] = r.alphas[i])
    (hin : WithinBounds p C.lb C.ub r.coefPath[i]) (hin' : WithinBounds p C.lb C.ub r'.coefPath[i']) (B : ℝ) (hB : 0 ≤ B)
    (hclose : StdClose p ic C.thr (stats n R.X R.sw).1 (stats n R.X R.sw).2 B r.interceptPath[i] r.coefPath[i] r'.interceptPath[i'] r'.coefPath[i']) :
    canonical C.family (fittedMean p C.e50 C.family C.link R r.interceptPath[i] r.coefPath[i] k)
      ≤ canonical C.family (fittedMean p C.e50 C.family C.link R r'.interceptPath[i'] r'.coefPath[i'] k)
        + (C.gradTol + C'.gradTol) * B / (R.sw k * (v - R.y k)) := by
  have hy2 : ∀ i, Function.update R.y k v i ∈ ySupport C.family := by
    intro i
    by_cases hi : i = k
    · rw [hi, Function.update_self]; exact hy'
    · rw [Function.update_of_ne hi]; exact h.y i
  have h' : ConvexFit C' { R with y := Function.update R.y k v } l1r := by
    refine ⟨hC.thr ▸ h.thr, hC.family ▸ h.valid, ?_, ?_, h.sw, ?_, ?_, h.l1⟩
    · rw [hC.family, hC.link]; exact h.pair
    · rw [hC.family]; exact hy2
    · rw [hC.P1]; exact h.p1
    · rw [hC.P2]; exact h.p2
  obtain ⟨-, -, -, -, hopt⟩ := c75_no_warning_near_optimal next inner C stats R l1r h hs hstep sp s t r hfit ha hw
  obtain ⟨-, -, -, -, hopt'⟩ := c75_no_warning_near_optimal next' inner' C' stats _ l1r h' hs hstep' sp' s' t' r' hfit' ha' hw'
  have z1 := rows_intercept_zero next inner C stats R l1r h hs hstep sp s t r hfit ha hw i hi hc hb
  have z2 := rows_intercept_zero next' inner' C' stats _ l1r h' hs hstep' sp' s' t' r' hfit' ha' hw' i' hi' hc' hb'
  have o1 := hopt i hi hc hb _ _ z2 hin' B hB (stdClose_symm _ _ _ _ _ _ _ _ hclose)
  have o2 := hopt' i' hi' hc' hb' _ _ z1 (by rw [hC.lb, hC.ub]; exact hin) B hB (by rw [hC.thr]; exact hclose)
  rw [hC.e50, hC.family, hC.link, hC.thr, hC.scaled, hC.P1, hC.P2, hsame] at o2
  rw [fitObjective_split, fitObjective_split] at o1 o2
  obtain ⟨kf, hk, -⟩ := h.pair
  have hmr : ∀ b0 b i, fittedMean p C.e50 C.family C.link R b0 b i ∈ muRange C.family := fun b0 b i => (trueMean_hasDeriv C.e50 C.family C.link kf hk _).2
  have h1 := response_trade C R (Function.update R.y k v) h.valid h.y hy2
    (fun b => r.alphas[i] * enetPenalty p (penScale C.thr C.asIfScaled (stats n R.X R.sw).2) C.P1a C.P2a l1r b) _ _ _ _ (C.gradTol * B) (C'.gradTol * B)
    (hmr _ _) (hmr _ _) o1 o2
  rw [Finset.sum_eq_single k (fun i _ hi => by rw [Function.update_of_ne hi]; ring) (fun e => absurd (Finset.mem_univ k) e), Function.update_self] at h1
  have hpos : 0 < R.sw k * (v - R.y k) := mul_pos hwk (by linarith)
  rw [← sub_le_iff_le_add', le_div_iff₀ hpos]
  linarith

/-! ### Weights -/

/-- The data with the user's weights `u`, normalised. -/
noncomputable def Spec.weighted (R : Rows n) (u : Fin n → ℝ) : Rows n := { R with sw := fun i => u i / ∑ j, u j }

/-- Half the deviance of row `k`. -/
noncomputable def Spec.obsLoss (p : ℕ) (e50 : ℝ) (f : Family) (l : Link) (R : Rows n) (b0 : ℝ) (b : ℕ → ℝ) (k : Fin n) : ℝ :=
  1 / 2 * f.unitDeviance (R.y k) (fittedMean p e50 f l R b0 b k)

theorem halfDeviance_weighted (e50 : ℝ) (f : Family) (l : Link) (R : Rows n) (u : Fin n → ℝ) (b0 : ℝ) (b : ℕ → ℝ) (hu : ∑ j, u j ≠ 0) :
    (∑ j, u j) * halfDeviance p e50 f l (weighted R u) b0 b = ∑ i, u i * obsLoss p e50 f l R b0 b i := by
  unfold halfDeviance obsLoss fittedMean weighted
  rw [Finset.mul_sum, Finset.mul_sum]
  refine Finset.sum_congr rfl fun i _ => ?_
  simp only
  field_simp

/-- Two nearly optimal models for two weight vectors. -/
theorem weight_trade (e50 : ℝ) (f : Family) (l : Link) (R : Rows n) (u u' : Fin n → ℝ) (hu : 0 < ∑ j, u j) (hu' : 0 < ∑ j, u' j) (P : (ℕ → ℝ) → ℝ)
    (b0 c0 : ℝ) (b c : ℕ → ℝ) (t t' : ℝ)
    (h : halfDeviance p e50 f l (weighted R u) b0 b + P b ≤ halfDeviance p e50 f l (weighted R u) c0 c + P c + t)
    (h' : halfDeviance p e50 f l (weighted R u') c0 c + P c ≤ halfDeviance p e50 f l (weighted R u') b0 b + P b + t') :
    ∑ i, (u' i - u i) * ((obsLoss p e50 f l R c0 c i + P c) - (obsLoss p e50 f l R b0 b i + P b)) ≤ (∑ j, u j) * t + (∑ j, u' j) * t' := by
  have k1 := mul_le_mul_of_nonneg_left h hu.le
  have k2 := mul_le_mul_of_nonneg_left h' hu'.le
  rw [mul_add, mul_add, mul_add, halfDeviance_weighted _ _ _ _ _ _ _ hu.ne', halfDeviance_weighted _ _ _ _ _ _ _ hu.ne'] at k1
  rw [mul_add, mul_add, mul_add, halfDeviance_weighted _ _ _ _ _ _ _ hu'.ne', halfDeviance_weighted _ _ _ _ _ _ _ hu'.ne'] at k2
  have e : ∑ i, (u' i - u i) * ((obsLoss p e50 f l R c0 c i + P c) - (obsLoss p e50 f l R b0 b i + P b))
      = (∑ i, u' i * obsLoss p e50 f l R c0 c i - ∑ i, u' i * obsLoss p e50 f l R b0 b i) - (∑ i, u i * obsLoss p e50 f l R c0 c i - ∑ i, u i * obsLoss p e50 f l R b0 b i)
        + (∑ i, u' i) * (P c - P b) - (∑ i, u i) * (P c - P b) := by
    rw [Finset.sum_mul, Finset.sum_mul, ← Finset.sum_sub_distrib, ← Finset.sum_sub_distrib, ← Finset.sum_sub_distrib, ← Finset.sum_add_distrib,
      ← Finset.sum_sub_distrib]
    exact Finset.sum_congr rfl fun i _ => by ring
  rw [e]
  linarith

/-- **C101, one weight.** If the weight of one row is raised and nothing else is changed, the deviance of that row plus the penalty does not go up; without penalty
the row's deviance itself. -/
theorem c101_weight_up (C : FitCfg p ic) (R : Rows n) (u : Fin n → ℝ) (k : Fin n) (v : ℝ) (hv : u k < v) (hu : 0 < ∑ j, u j)
    (s : ℕ → ℝ) (a l1r b0 c0 : ℝ) (b c : ℕ → ℝ)
    (h : Solves p ic C.lb C.ub (fitObjective p C.e50 C.family C.link (weighted R u) s C.P1a C.P2a a l1r) b0 b)
    (h' : Solves p ic C.lb C.ub (fitObjective p C.e50 C.family C.link (weighted R (Function.update u k v)) s C.P1a C.P2a a l1r) c0 c) :
    obsLoss p C.e50 C.family C.link R c0 c k + a * enetPenalty p s C.P1a C.P2a l1r c
      ≤ obsLoss p C.e50 C.family C.link R b0 b k + a * enetPenalty p s C.P1a C.P2a l1r b ∧
    (a = 0 → C.family.unitDeviance (R.y k) (fittedMean p C.e50 C.family C.link R c0 c k)
      ≤ C.family.unitDeviance (R.y k) (fittedMean p C.e50 C.family C.link R b0 b k)) := by
  have hu' : ∑ j, u j < ∑ j, Function.update u k v j := by
    refine Finset.sum_lt_sum (fun i _ => ?_) ⟨k, Finset.mem_univ k, by rw [Function.update_self]; exact hv⟩
    by_cases hi : i = k
    · rw [hi, Function.update_self]; exact hv.le
    · rw [Function.update_of_ne hi]
  have h1 := h.2.2 c0 c h'.1 h'.2.1
  have h2 := h'.2.2 b0 b h.1 h.2.1
  rw [fitObjective_split, fitObjective_split] at h1 h2
  have h3 := weight_trade C.e50 C.family C.link R u _ hu (hu.trans hu') (fun b => a * enetPenalty p s C.P1a C.P2a l1r b) b0 c0 b c 0 0 (by linarith) (by linarith)
  rw [Finset.sum_eq_single k (fun i _ hi => by rw [Function.update_of_ne hi]; ring) (fun e => absurd (Finset.mem_univ k) e), Function.update_self] at h3
  have h4 : obsLoss p C.e50 C.family C.link R c0 c k + a * enetPenalty p s C.P1a C.P2a l1r c
      - (obsLoss p C.e50 C.family C.link R b0 b k + a * enetPenalty p s C.P1a C.P2a l1r b) ≤ 0 := by
    by_contra hp
    have := mul_pos (show 0 < v - u k by linarith) (not_le.1 hp)
    simp only [mul_zero, add_zero] at h3
    linarith
  refine ⟨by linarith, fun e => ?_⟩
  subst e
  unfold obsLoss at h4
  linarith

/-- **C101, leaving one out.** Without penalty: the deviance of a row is not smaller under the model fitted without it (weight zero) than under the model fitted with it. -/
theorem c101_leave_one_out (C : FitCfg p ic) (R : Rows n) (u : Fin n → ℝ) (k : Fin n) (hk : 0 < u k) (hu : 0 < ∑ j, Function.update u k 0 j)
    (s : ℕ → ℝ) (l1r b0 c0 : ℝ) (b c : ℕ → ℝ)
    (h : Solves p ic C.lb C.ub (fitObjective p C.e50 C.family C.link (weighted R u) s C.P1a C.P2a 0 l1r) b0 b)
    (h' : Solves p ic C.lb C.ub (fitObjective p C.e50 C.family C.link (weighted R (Function.update u k 0)) s C.P1a C.P2a 0 l1r) c0 c) :
    C.family.unitDeviance (R.y k) (fittedMean p C.e50 C.family C.link R b0 b k)
      ≤ C.family.unitDeviance (R.y k) (fittedMean p C.e50 C.family C.link R c0 c k) := by
  have e : Function.update (Function.update u k 0) k (u k) = u := by
    rw [Function.update_idem, Function.update_eq_self]
  refine (c101_weight_up C R (Function.update u k 0) k (u k) (by rw [Function.update_self]; exact hk) hu s 0 l1r c0 b0 c b h' ?_).2 rfl
  rw [e]
  exact h

/-- **C101, fits and weights.** -/
theorem c101_weight_fits (next next' : (ℕ → BitVec 32) → ℕ → (ℕ → BitVec 32))
    (inner inner' : (ℕ → BitVec 32) → (m : ℕ) → Inner m p ic) (C C' : FitCfg p ic) (hC : SameProblem C C') (hsc : C.asIfScaled = false) (stats : Stats) (R : Rows n)
    (u : Fin n → ℝ) (k : Fin n) (v : ℝ) (hv : u k < v) (hu0 : ∀ j, 0 ≤ u j) (hu : 0 < ∑ j, u j)
    (l1r : ℝ) (h : ConvexFit C (weighted R u) l1r) (hs : ∀ w j, 0 ≤ (stats n R.X w).2 j) (hstep : C.stepTol = none) (hstep' : C'.stepTol = none)
    (sp sp' : AlphaSpec) (s t s' t' : SolverLog) (r r' : PathResult)
    (hfit : glmFit C stats (irlsSolver next inner) (weighted R u) l1r sp s = some (t, r)) (ha : ∀ x ∈ r.alphas, 0 ≤ x) (hw : t.convWarn = s.convWarn)
    (hfit' : glmFit C' stats (irlsSolver next' inner') (weighted R (Function.update u k v)) l1r sp' s' = some (t', r')) (ha' : ∀ x ∈ r'.alphas, 0 ≤ x)
    (hw' : t'.convWarn = s'.convWarn)
    (i i' : ℕ) (hi : i < r.alphas.length) (hc : i < r.coefPath.length) (hb : i < r.interceptPath.length)
    (hi' : i' < r'.alphas.length) (hc' : i' < r'.coefPath.length) (hb' : i' < r'.interceptPath.length)
    (hsame : r'.alphas[i'] = r.alphas[i])
    (hin : WithinBounds p C.lb C.ub r.coefPath[i]) (hin' : WithinBounds p C.lb C.ub r'.coefPath[i']) (B : ℝ) (hB : 0 ≤ B)
    (hclose : ∀ w, w = (weighted R u).sw ∨ w = (weighted R (Function.update u k v)).sw →
      StdClose p ic C.thr (stats n R.X w).1 (stats n R.X w).2 B r.interceptPath[i] r.coefPath[i] r'.interceptPath[i'] r'.coefPath[i']) :
    obsLoss p C.e50 C.family C.link R r'.interceptPath[i'] r'.coefPath[i'] k + r.alphas[i] * enetPenalty p (fun _ => 1) C.P1a C.P2a l1r r'.coefPath[i']
      ≤ obsLoss p C.e50 C.family C.link R r.interceptPath[i] r.coefPath[i] k + r.alphas[i] * enetPenalty p (fun _ => 1) C.P1a C.P2a l1r r.coefPath[i]
        + ((∑ j, u j) * C.gradTol + (∑ j, Function.update u k v j) * C'.gradTol) * B / (v - u k) := by
  have hnn : ∀ i, 0 ≤ Function.update u k v i := by
    intro i
    by_cases hi : i = k
    · rw [hi, Function.update_self]; exact (hu0 k).trans hv.le
    · rw [Function.update_of_ne hi]; exact hu0 i
  have hu' : ∑ j, u j < ∑ j, Function.update u k v j := by
    refine Finset.sum_lt_sum (fun i _ => ?_) ⟨k, Finset.mem_univ k, by rw [Function.update_self]; exact hv⟩
    by_cases hi : i = k
    · rw [hi, Function.update_self]; exact hv.le
    · rw [Function.update_of_ne hi]
  have h' : ConvexFit C' (weighted R (Function.update u k v)) l1r := by
    refine ⟨hC.thr ▸ h.thr, hC.family ▸ h.valid, ?_, ?_, fun i => div_nonneg (hnn i) (hu.trans hu').le, ?_, ?_, h.l1⟩
    · rw [hC.family, hC.link]; exact h.pair
    · rw [hC.family]; exact h.y
    · rw [hC.P1]; exact h.p1
    · rw [hC.P2]; exact h.p2
  obtain ⟨-, -, -, -, hopt⟩ := c75_no_warning_near_optimal next inner C stats _ l1r h (hs _) hstep sp s t r hfit ha hw
  obtain ⟨-, -, -, -, hopt'⟩ := c75_no_warning_near_optimal next' inner' C' stats _ l1r h' (hs _) hstep' sp' s' t' r' hfit' ha' hw'
  have z1 := rows_intercept_zero next inner C stats _ l1r h (hs _) hstep sp s t r hfit ha hw i hi hc hb
  have z2 := rows_intercept_zero next' inner' C' stats _ l1r h' (hs _) hstep' sp' s' t' r' hfit' ha' hw' i' hi' hc' hb'
  have o1 := hopt i hi hc hb _ _ z2 hin' B hB (stdClose_symm _ _ _ _ _ _ _ _ (hclose _ (Or.inl rfl)))
  have o2 := hopt' i' hi' hc' hb' _ _ z1 (by rw [hC.lb, hC.ub]; exact hin) B hB (by rw [hC.thr]; exact hclose _ (Or.inr rfl))
  have hps : ∀ st, penScale C.thr C.asIfScaled st = fun _ => 1 := by intro st; rw [hsc]; rfl
  rw [hC.e50, hC.family, hC.link, hC.thr, hC.scaled, hC.P1, hC.P2, hsame, hps] at o2
  rw [hps] at o1
  rw [fitObjective_split, fitObjective_split] at o1 o2
  have h3 := weight_trade C.e50 C.family C.link R u _ hu (hu.trans hu') (fun b => r.alphas[i] * enetPenalty p (fun _ => 1) C.P1a C.P2a l1r b) _ _ _ _
    (C.gradTol * B) (C'.gradTol * B) o1 o2
  rw [Finset.sum_eq_single k (fun i _ hi => by rw [Function.update_of_ne hi]; ring) (fun e => absurd (Finset.mem_univ k) e), Function.update_self] at h3
  rw [← sub_le_iff_le_add', le_div_iff₀ (show 0 < v - u k by linarith)]
  linarith

/-! ### The hypotheses are met -/

/-- Ridge regression on the two rows, the first response raised from 3 to 4: both problems have solutions, and the theorem applies to them. -/
example : ∃ b0 b c0 c, Solves 1 true none none (fitObjective 1 0 .normal .identity tinyRows (fun _ => 1) .none .none 1 0) b0 b ∧
    Solves 1 true none none (fitObjective 1 0 .normal .identity { tinyRows with y := Function.update tinyRows.y 0 4 } (fun _ => 1) .none .none 1 0) c0 c ∧
    fittedMean 1 0 .normal .identity tinyRows b0 b 0 ≤ fittedMean 1 0 .normal .identity tinyRows c0 c 0 := by
  have hcv := tiny_convex 5 5
  have hreg := tiny_regular 1 one_pos
  obtain ⟨b0, b, hsol, -⟩ := c90_unique_solution (tinyCfg 5 5) tinyRows 0 1 hcv hreg (fun _ => 1)
  set R' : Rows 2 := { tinyRows with y := Function.update tinyRows.y 0 4 } with hR'
  have hcv' : ConvexFit (tinyCfg 5 5) R' 0 := ⟨hcv.thr, hcv.valid, hcv.pair, fun _ => trivial, hcv.sw, hcv.p1, hcv.p2, hcv.l1⟩
  have hg : guessIntercept .normal .identity R'.y R'.sw .none = some (average R'.y R'.sw) := by
    unfold guessIntercept
    rw [if_neg (by simp)]
  have hreg' : RegularFit (tinyCfg 5 5) R' 0 1 := ⟨hreg.weights, one_pos, one_pos, one_posdef, fun _ => ⟨_, hg⟩,
    ⟨fun _ => 0, fun j _ => ⟨fun l hl => (by cases hl), fun u hu => (by cases hu)⟩⟩⟩
  obtain ⟨c0, c, hsol', -⟩ := c90_unique_solution (tinyCfg 5 5) R' 0 1 hcv' hreg' (fun _ => 1)
  exact ⟨b0, b, c0, c, hsol, hsol', c101_response_up (tinyCfg 5 5) tinyRows 0 4 (by norm_num [tinyRows]) (by norm_num [tinyRows]) trivial (fun _ => trivial) trivial
    (fun _ => 1) 1 0 b0 c0 b c hsol hsol' (fun _ => trivial) (fun _ => trivial)⟩

/-- The same data without penalty and without the first row. -/
example : ∃ b0 b c0 c, Solves 1 true none none (fitObjective 1 0 .normal .identity (weighted tinyRows fun _ => 1) (fun _ => 1) .none .none 0 0) b0 b ∧
    Solves 1 true none none (fitObjective 1 0 .normal .identity (weighted tinyRows (Function.update (fun _ => 1) 0 0)) (fun _ => 1) .none .none 0 0) c0 c ∧
    c0 ≠ b0 := by
  have hobj : ∀ u b0 b, fitObjective 1 0 .normal .identity (weighted tinyRows u) (fun _ => 1) .none .none 0 0 b0 b
      = 1 / 2 * (u 0 / (u 0 + u 1) * (3 - (b 0 + b0)) ^ 2 + u 1 / (u 0 + u 1) * (1 - (-b 0 + b0)) ^ 2) := by
    intro u b0 b
    simp [fitObjective, weighted, tinyRows, Fin.sum_univ_two, trueMean, Link.inverse, Family.unitDeviance]
  have wb : ∀ b, WithinBounds 1 none none b := fun b j _ => ⟨fun l hl => (by cases hl), fun u hu => (by cases hu)⟩
  refine ⟨2, fun _ => 1, 1, fun _ => 0, ⟨fun e => (by cases e), wb _, fun c0 c _ _ => ?_⟩, ⟨fun e => (by cases e), wb _, fun c0 c _ _ => ?_⟩, by norm_num⟩
  · rw [hobj, hobj]
    norm_num
    positivity
  · rw [hobj, hobj]
    norm_num [Function.update]
    positivity

end Glum
