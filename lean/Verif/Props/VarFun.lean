import Verif.Props.Stability
import Verif.Props.Null
import Verif.Model.Likelihood
import Mathlib.Analysis.Calculus.Deriv.MeanValue
/-
C129: apart from the log-likelihood, a family enters only through its variance function.  Families whose variance functions are close have close deviances, and (log link) close solutions and close
fits; in particular the fit is a continuous function of the Tweedie power and of the negative binomial `theta`, through the special cases Poisson and gamma.
-/
set_option linter.unusedSectionVars false
set_option linter.unusedVariables false
set_option linter.unusedSimpArgs false

namespace Glum
open Spec Topology

/-! ### Specification -/

/-- The variance functions of two families differ by at most the fraction `η` for means between `lo` and `hi`. -/
def Spec.VarianceWithin (η lo hi : ℝ) (f f' : Family) : Prop :=
  ∀ m, lo ≤ m → m ≤ hi → |f'.unitVariance m - f.unitVariance m| ≤ η * f.unitVariance m

/-- The variance is the power `r` of the mean: `TweedieDistribution(r)` and the classes that are aliases of one. -/
def Spec.HasPower (f : Family) (r : ℝ) : Prop := ∀ m, 0 < m → f.unitVariance m = m ^ r

/-- The variance is `m + t m²`: `NegativeBinomialDistribution(t)`, and Poisson with `t = 0`. -/
def Spec.HasTheta (f : Family) (t : ℝ) : Prop := ∀ m, 0 < m → f.unitVariance m = m + t * m ^ 2

/-! ### The deviance -/

theorem variance_nonneg_of_within {η lo hi : ℝ} {f f' : Family} (h : VarianceWithin η lo hi f f') (hη : 0 < η) (m : ℝ) (h1 : lo ≤ m) (h2 : m ≤ hi) : 0 ≤ f.unitVariance m := by
  have := (abs_nonneg _).trans (h m h1 h2)
  by_contra hn
  push Not at hn
  nlinarith

/-- A slope divided by two close variances. -/
theorem slope_close {a V V' η : ℝ} (hV : 0 ≤ V) (hη0 : 0 ≤ η) (hη : η ≤ 1 / 2) (h : |V' - V| ≤ η * V) : |a / V' - a / V| ≤ 2 * η * |a / V| := by
  rcases hV.lt_or_eq with hp | hp
  · obtain ⟨h1, h2⟩ := abs_le.1 h
    have hV' : V / 2 ≤ V' := by nlinarith
    have hV'0 : 0 < V' := by linarith
    have e : a / V' - a / V = a / V * ((V - V') / V') := by field_simp
    rw [e, abs_mul, mul_comm (2 * η)]
    refine mul_le_mul_of_nonneg_left ?_ (abs_nonneg _)
    rw [abs_div, abs_of_pos hV'0, div_le_iff₀ hV'0, abs_sub_comm]
    nlinarith
  · rw [← hp] at h ⊢
    have : V' = 0 := by simpa using h
    rw [this]; simp

/-- **C129, the deviance.** The unit deviance is determined by the variance function: if the variance functions of two families agree up to the fraction `η` between the observation and the mean, so do the
unit deviances. -/
theorem c129_deviance (f f' : Family) (hf : Valid f) (hf' : Valid f') (y mu η : ℝ) (hy : y ∈ ySupport f) (hy' : y ∈ ySupport f')
    (hr : ∀ m, min y mu ≤ m → m ≤ max y mu → m ∈ muRange f ∧ m ∈ muRange f') (hη : 0 ≤ η) (hη1 : η < 1) (hv : ∀ m, min y mu ≤ m → m ≤ max y mu → 0 < f.unitVariance m)
    (h : VarianceWithin η (min y mu) (max y mu) f f') (h0 : f.unitDeviance y y = 0) (h0' : f'.unitDeviance y y = 0) :
    f.unitDeviance y mu / (1 + η) ≤ f'.unitDeviance y mu ∧ f'.unitDeviance y mu ≤ f.unitDeviance y mu / (1 - η) := by
  have key : ∀ (g : ℝ → ℝ) (c : ℝ → ℝ), g y = 0 → (∀ m, min y mu ≤ m → m ≤ max y mu → HasDerivAt g ((m - y) * c m) m) → (∀ m, min y mu ≤ m → m ≤ max y mu → 0 ≤ c m) → 0 ≤ g mu := by
    intro g c hg hd hc
    rcases le_total y mu with hle | hle
    · rw [min_eq_left hle, max_eq_right hle] at hd hc
      have hmono : MonotoneOn g (Set.Icc y mu) := by
        refine monotoneOn_of_hasDerivWithinAt_nonneg (f' := fun m => (m - y) * c m) (convex_Icc y mu) (fun m hm => (hd m hm.1 hm.2).continuousAt.continuousWithinAt) (fun m hm => ?_) (fun m hm => ?_)
        · rw [interior_Icc] at hm; exact (hd m hm.1.le hm.2.le).hasDerivWithinAt
        · rw [interior_Icc] at hm; exact mul_nonneg (by linarith [hm.1]) (hc m hm.1.le hm.2.le)
      rw [← hg]
      exact hmono ⟨le_rfl, hle⟩ ⟨hle, le_rfl⟩ hle
    · rw [min_eq_right hle, max_eq_left hle] at hd hc
      have hmono : AntitoneOn g (Set.Icc mu y) := by
        refine antitoneOn_of_hasDerivWithinAt_nonpos (f' := fun m => (m - y) * c m) (convex_Icc mu y) (fun m hm => (hd m hm.1 hm.2).continuousAt.continuousWithinAt) (fun m hm => ?_) (fun m hm => ?_)
        · rw [interior_Icc] at hm; exact (hd m hm.1.le hm.2.le).hasDerivWithinAt
        · rw [interior_Icc] at hm; exact mul_nonpos_of_nonpos_of_nonneg (by linarith [hm.2]) (hc m hm.1.le hm.2.le)
      rw [← hg]
      exact hmono ⟨le_rfl, hle⟩ ⟨hle, le_rfl⟩ hle
  have hcmp : ∀ m, min y mu ≤ m → m ≤ max y mu → 0 < f'.unitVariance m ∧ (1 - η) * f.unitVariance m ≤ f'.unitVariance m ∧ f'.unitVariance m ≤ (1 + η) * f.unitVariance m := by
    intro m h1 h2
    obtain ⟨a, b⟩ := abs_le.1 (h m h1 h2)
    have := hv m h1 h2
    exact ⟨by nlinarith, by linarith, by linarith⟩
  have hd : ∀ m, min y mu ≤ m → m ≤ max y mu → HasDerivAt (fun m => f.unitDeviance y m) ((m - y) * (2 / f.unitVariance m)) m := by
    intro m h1 h2
    have := c05_deviance_derivative f hf y m hy (hr m h1 h2).1
    unfold Family.unitDevianceDerivative at this
    convert this using 1
    ring
  have hd' : ∀ m, min y mu ≤ m → m ≤ max y mu → HasDerivAt (fun m => f'.unitDeviance y m) ((m - y) * (2 / f'.unitVariance m)) m := by
    intro m h1 h2
    have := c05_deviance_derivative f' hf' y m hy' (hr m h1 h2).2
    unfold Family.unitDevianceDerivative at this
    convert this using 1
    ring
  constructor
  · have := key (fun m => f'.unitDeviance y m - f.unitDeviance y m / (1 + η)) (fun m => 2 / f'.unitVariance m - 2 / f.unitVariance m / (1 + η)) (by simp [h0, h0'])
      (fun m h1 h2 => by convert (hd' m h1 h2).fun_sub ((hd m h1 h2).div_const (1 + η)) using 1 <;> first | rfl | ring)
      (fun m h1 h2 => by
        obtain ⟨a, b, c⟩ := hcmp m h1 h2
        have hp := hv m h1 h2
        rw [sub_nonneg, div_div]
        exact div_le_div_of_nonneg_left (by norm_num) a (by linarith))
    linarith
  · have := key (fun m => f.unitDeviance y m / (1 - η) - f'.unitDeviance y m) (fun m => 2 / f.unitVariance m / (1 - η) - 2 / f'.unitVariance m) (by simp [h0, h0'])
      (fun m h1 h2 => by convert ((hd m h1 h2).div_const (1 - η)).fun_sub (hd' m h1 h2) using 1 <;> first | rfl | ring)
      (fun m h1 h2 => by
        obtain ⟨a, b, c⟩ := hcmp m h1 h2
        have hp := hv m h1 h2
        rw [sub_nonneg, div_div]
        exact div_le_div_of_nonneg_left (by norm_num) (mul_pos hp (by linarith)) (by linarith))
    linarith

/-! ### The fit -/

section Fit
variable {n p : ℕ} {ic : Bool}

/-- Two configurations that agree in all that defines the problem except the family. -/
structure Spec.OnlyFamilyDiffers (C C' : FitCfg p ic) : Prop where
  link : C'.link = C.link
  lb : C'.lb = C.lb
  ub : C'.ub = C.ub
  P1 : C'.P1a = C.P1a
  P2 : C'.P2a = C.P2a
  thr : C'.thr = C.thr
  scaled : C'.asIfScaled = C.asIfScaled

theorem trueMean_log_exp (e50 : ℝ) (f : Family) (e : ℝ) : trueMean e50 f .log e = Real.exp e := by cases f <;> rfl

theorem rowSlope_log (C : FitCfg p ic) (hl : C.link = .log) (R : Rows n) (i : Fin n) (e : ℝ) :
    rowSlope C R i e = (R.sw i * (-2 * (R.y i - Real.exp e)) * Real.exp e) / C.family.unitVariance (Real.exp e) := by
  unfold rowSlope Family.unitDevianceDerivative
  rw [hl, trueMean_log_exp]
  show R.sw i * (-2 * (R.y i - Real.exp e) / C.family.unitVariance (Real.exp e) * Real.exp e) = _
  ring

theorem rowSlope_bound (C : FitCfg p ic) (R : Rows n) (l1r : ℝ) (h : ConvexFit C R l1r) (i : Fin n) (B e : ℝ) (he : |e| ≤ B) :
    |rowSlope C R i e| ≤ |rowSlope C R i B| + |rowSlope C R i (-B)| := by
  have mono : ∀ x y, x ≤ y → rowSlope C R i x ≤ rowSlope C R i y := by
    intro x y hxy
    rcases hxy.lt_or_eq with hlt | rfl
    · have h1 := convex_tangent (rowLoss_convex C R l1r h i) (rowLoss_hasDeriv C R l1r h i x) y
      have h2 := convex_tangent (rowLoss_convex C R l1r h i) (rowLoss_hasDeriv C R l1r h i y) x
      by_contra hn
      push Not at hn
      nlinarith
    · exact le_rfl
  obtain ⟨h1, h2⟩ := abs_le.1 he
  have h3 := mono _ _ h2
  have h4 := mono _ _ h1
  rw [abs_le]
  constructor <;> cases abs_cases (rowSlope C R i B) <;> cases abs_cases (rowSlope C R i (-B)) <;> linarith

/-- The objectives of the two problems differ, up to a constant, by little on a ball. -/
theorem family_near (C : FitCfg p ic) (hl : C.link = .log) (R : Rows n) (l1r : ℝ) (h : ConvexFit C R l1r) (s : ℕ → ℝ) (a : ℝ) (z : ℝ × (Fin p → ℝ)) (ε κ : ℝ) (hκ : 0 < κ) :
    ∃ B η : ℝ, 0 < η ∧ ∀ C' : FitCfg p ic, OnlyFamilyDiffers C C' → VarianceWithin η (Real.exp (-B)) (Real.exp B) C.family C'.family → ConvexFit C' R l1r →
      ∃ k : ℝ, ∀ x ∈ Metric.closedBall z ε, |objAt C' R s a l1r x + k - objAt C R s a l1r x| < κ := by
  have hB : ∃ B : ℝ, 0 ≤ B ∧ ∀ x ∈ Metric.closedBall z ε, ∀ i, |predAt R i x| ≤ B := by
    have hcont : Continuous fun x : ℝ × (Fin p → ℝ) => ∑ i : Fin n, |predAt R i x| := by unfold predAt; fun_prop
    obtain ⟨B, hB⟩ := (isCompact_closedBall z ε).bddAbove_image hcont.continuousOn
    refine ⟨max B 0, le_max_right _ _, fun x hx i => ?_⟩
    have h1 : ∑ i : Fin n, |predAt R i x| ≤ B := hB ⟨x, hx, rfl⟩
    exact ((Finset.single_le_sum (f := fun i => |predAt R i x|) (fun i _ => abs_nonneg _) (Finset.mem_univ i)).trans h1).trans (le_max_left _ _)
  obtain ⟨B, hB0, hB⟩ := hB
  set S : Fin n → ℝ := fun i => |rowSlope C R i B| + |rowSlope C R i (-B)| with hS
  have hS0 : ∀ i, 0 ≤ S i := fun i => by positivity
  have hSS : 0 ≤ ∑ i, S i := Finset.sum_nonneg fun i _ => hS0 i
  set η := min (1 / 2) (κ / (2 * (B * ∑ i, S i + 1))) with hη
  have hden : 0 < 2 * (B * ∑ i, S i + 1) := by positivity
  have hη0 : 0 < η := lt_min (by norm_num) (by positivity)
  have hη1 : η ≤ 1 / 2 := min_le_left _ _
  have hηκ : η * (B * ∑ i, S i) < κ := by
    have h1 : η * (2 * (B * ∑ i, S i + 1)) ≤ κ := by rw [← le_div_iff₀ hden]; exact min_le_right _ _
    have : 0 ≤ η * (B * ∑ i, S i) := by positivity
    nlinarith
  refine ⟨B, η, hη0, fun C' hC hv h' => ?_⟩
  have hl' : C'.link = .log := hC.link.trans hl
  set k : ℝ := 1 / 2 * ∑ i, (rowLoss C R i 0 - rowLoss C' R i 0) with hk
  refine ⟨k, fun x hx => ?_⟩
  have hrow : ∀ i, |(rowLoss C' R i (predAt R i x) - rowLoss C R i (predAt R i x)) - (rowLoss C' R i 0 - rowLoss C R i 0)| ≤ 2 * η * S i * B := by
    intro i
    have hmv := Convex.norm_image_sub_le_of_norm_hasDerivWithin_le (f := fun e => rowLoss C' R i e - rowLoss C R i e) (f' := fun e => rowSlope C' R i e - rowSlope C R i e) (C := 2 * η * S i)
      (s := Set.Icc (-B) B) (x := 0) (y := predAt R i x) (fun e _ => ((rowLoss_hasDeriv C' R l1r h' i e).fun_sub (rowLoss_hasDeriv C R l1r h i e)).hasDerivWithinAt)
      (fun e he => by
        rw [rowSlope_log C' hl' R i e, rowSlope_log C hl R i e, Real.norm_eq_abs]
        have hm1 : Real.exp (-B) ≤ Real.exp e := Real.exp_le_exp.2 he.1
        have hm2 : Real.exp e ≤ Real.exp B := Real.exp_le_exp.2 he.2
        refine (slope_close (variance_nonneg_of_within hv hη0 _ hm1 hm2) hη0.le hη1 (hv _ hm1 hm2)).trans ?_
        refine mul_le_mul_of_nonneg_left ?_ (by positivity)
        rw [← rowSlope_log C hl R i e]
        exact rowSlope_bound C R l1r h i B e (abs_le.2 he))
      (convex_Icc _ _) (by constructor <;> linarith) (abs_le.1 (hB x hx i))
    rw [Real.norm_eq_abs, Real.norm_eq_abs, sub_zero] at hmv
    exact hmv.trans (mul_le_mul_of_nonneg_left (hB x hx i) (mul_nonneg (by positivity) (hS0 i)))
  have hobj : objAt C' R s a l1r x + k - objAt C R s a l1r x
      = 1 / 2 * ∑ i, ((rowLoss C' R i (predAt R i x) - rowLoss C R i (predAt R i x)) - (rowLoss C' R i 0 - rowLoss C R i 0)) := by
    rw [objAt_eq, objAt_eq, hk]
    unfold ridgeForm
    rw [hC.P1, hC.P2]
    simp only [Finset.sum_sub_distrib]
    ring
  rw [hobj, abs_mul, abs_of_pos (by norm_num : (0 : ℝ) < 1 / 2)]
  have h1 := (Finset.abs_sum_le_sum_abs (fun i => (rowLoss C' R i (predAt R i x) - rowLoss C R i (predAt R i x)) - (rowLoss C' R i 0 - rowLoss C R i 0)) Finset.univ).trans
    (Finset.sum_le_sum fun i _ => hrow i)
  rw [← Finset.sum_mul, ← Finset.mul_sum] at h1
  calc _ ≤ 1 / 2 * (2 * η * (∑ i, S i) * B) := mul_le_mul_of_nonneg_left h1 (by norm_num)
    _ = η * (B * ∑ i, S i) := by ring
    _ < κ := hηκ

/-- **C129, solutions.** Log link.  For every `ε` there are a range of means and an `η` such that the solution for any other family whose variance function differs by at most the fraction `η` on that range is
within `ε` of the solution. -/
theorem c129_solutions (C : FitCfg p ic) (hl : C.link = .log) (R : Rows n) (l1r a : ℝ) (h : ConvexFit C R l1r) (hr : RegularFit C R l1r a) (s : ℕ → ℝ) (hs : ∀ j < p, s j ≠ 0) (b0 : ℝ) (b : ℕ → ℝ)
    (hsol : Solves p ic C.lb C.ub (fitObjective p C.e50 C.family C.link R s C.P1a C.P2a a l1r) b0 b) (ε : ℝ) (hε : 0 < ε) :
    ∃ B η : ℝ, 0 < η ∧ ∀ C' : FitCfg p ic, OnlyFamilyDiffers C C' → VarianceWithin η (Real.exp (-B)) (Real.exp B) C.family C'.family → ConvexFit C' R l1r → ∀ (c0 : ℝ) (c : ℕ → ℝ),
      Solves p ic C'.lb C'.ub (fitObjective p C'.e50 C'.family C'.link R s C'.P1a C'.P2a a l1r) c0 c → |c0 - b0| ≤ ε ∧ ∀ j < p, |c j - b j| ≤ ε := by
  obtain ⟨z, hz, hmin⟩ := regular_min C R l1r a h hr s hs
  have hzb : restrict b0 b = z := by
    by_contra hne
    have h1 := hmin _ (restrict_feasible C b0 b hsol.1 hsol.2.1) hne
    have h2 := hsol.2.2 z.1 (extend z.2) hz.1 (feasible_bounds C z hz)
    rw [objAt_restrict] at h1
    exact absurd h1 (not_lt.2 h2)
  subst hzb
  obtain ⟨κ, hκ, hclose⟩ := near_min_close _ (objAt_convex C R l1r h s a hr.alpha.le) (feasible C) (feasible_closed C) (feasible_convex C) _ hz hmin ε hε
  obtain ⟨B, η, hη, hnear⟩ := family_near C hl R l1r h s a (restrict b0 b) ε κ hκ
  refine ⟨B, η, hη, fun C' hC hv h' c0 c hc => ?_⟩
  obtain ⟨k, hk⟩ := hnear C' hC hv h'
  have hcb : WithinBounds p C.lb C.ub c := by have := hc.2.1; rw [hC.lb, hC.ub] at this; exact this
  have hN := hclose (fun x => objAt C' R s a l1r x + k) ((objAt_convex C' R l1r h' s a hr.alpha.le).add_const k) hk _ (restrict_feasible C c0 c hc.1 hcb) 0 le_rfl (by simpa using hκ)
    (by
      have := hc.2.2 b0 b hsol.1 (by rw [hC.lb, hC.ub]; exact hsol.2.1)
      simp only [objAt_restrict]; linarith)
  refine ⟨(norm_fst_le (restrict (p := p) c0 c - restrict b0 b)).trans hN, fun j hj => ?_⟩
  have h1 := norm_snd_le (restrict (p := p) c0 c - restrict b0 b)
  exact ((norm_le_pi_norm (restrict (p := p) c0 c - restrict b0 b).2 ⟨j, hj⟩).trans h1).trans hN

/-- Every fit with configuration `C'` of the rows `R` that ends without `ConvergenceWarning` at a tolerance below `δ` is, at strength `a`, within `ε` of the coefficients `b0`, `b`; whatever the solver, the start
values, the path of strengths, the random numbers and the iteration limits. -/
def Spec.FitsWithin (δ ε : ℝ) (C' : FitCfg p ic) (stats : Stats) (R : Rows n) (l1r a b0 : ℝ) (b : ℕ → ℝ) : Prop :=
  C'.stepTol = none → 0 ≤ C'.gradTol → C'.gradTol < δ →
  ∀ (next : (ℕ → BitVec 32) → ℕ → (ℕ → BitVec 32)) (inner : (ℕ → BitVec 32) → (m : ℕ) → Inner m p ic)
    (sp : AlphaSpec) (s t : SolverLog) (r : PathResult), glmFit C' stats (irlsSolver next inner) R l1r sp s = some (t, r) →
    (∀ x ∈ r.alphas, 0 ≤ x) → t.convWarn = s.convWarn →
    ∀ (i : ℕ) (hi : i < r.alphas.length) (hc : i < r.coefPath.length) (hb : i < r.interceptPath.length), r.alphas[i] = a → WithinBounds p C'.lb C'.ub r.coefPath[i] →
      |r.interceptPath[i] - b0| ≤ ε ∧ ∀ j < p, |r.coefPath[i] j - b j| ≤ ε

/-- **C129, fits.** Log link.  For every `ε` there are a range of means, an `η` and a `δ` such that every fit of the same data with a family whose variance function differs by at most the fraction `η` on that
range, without `ConvergenceWarning` at a tolerance small enough, is within `ε` of the solution for the original family, whatever the solver, start, path, random numbers and limits. -/
theorem c129_fits (C : FitCfg p ic) (hl : C.link = .log) (stats : Stats) (R : Rows n) (l1r a : ℝ) (h : ConvexFit C R l1r) (hr : RegularFit C R l1r a) (hs : ∀ j, 0 ≤ (stats n R.X R.sw).2 j) (b0 : ℝ) (b : ℕ → ℝ)
    (hsol : Solves p ic C.lb C.ub (fitObjective p C.e50 C.family C.link R (penScale C.thr C.asIfScaled (stats n R.X R.sw).2) C.P1a C.P2a a l1r) b0 b) (ε : ℝ) (hε : 0 < ε) :
    ∃ B η δ : ℝ, 0 < η ∧ 0 < δ ∧ ∀ C' : FitCfg p ic, OnlyFamilyDiffers C C' → VarianceWithin η (Real.exp (-B)) (Real.exp B) C.family C'.family → ConvexFit C' R l1r →
      FitsWithin δ ε C' stats R l1r a b0 b := by
  set S := penScale C.thr C.asIfScaled (stats n R.X R.sw).2 with hS
  obtain ⟨z, hz, hmin⟩ := regular_min C R l1r a h hr S fun j _ => penScale_ne C.thr h.thr C.asIfScaled _ j
  have hzb : restrict b0 b = z := by
    by_contra hne
    have h1 := hmin _ (restrict_feasible C b0 b hsol.1 hsol.2.1) hne
    have h2 := hsol.2.2 z.1 (extend z.2) hz.1 (feasible_bounds C z hz)
    rw [objAt_restrict] at h1
    exact absurd h1 (not_lt.2 h2)
  subst hzb
  obtain ⟨κ, hκ, hclose⟩ := near_min_close _ (objAt_convex C R l1r h S a hr.alpha.le) (feasible C) (feasible_closed C) (feasible_convex C) _ hz hmin ε hε
  obtain ⟨B, η, hη, hnear⟩ := family_near C hl R l1r h S a (restrict b0 b) ε κ hκ
  set M := 1 + ∑ j : Fin p, |(stats n R.X R.sw).1 j| + ∑ j : Fin p, colScale C.thr (stats n R.X R.sw).2 j with hMdef
  have hM : 0 < M := by
    have hm : 0 ≤ ∑ j : Fin p, |(stats n R.X R.sw).1 j| := Finset.sum_nonneg fun j _ => abs_nonneg _
    have hc : 0 ≤ ∑ j : Fin p, colScale C.thr (stats n R.X R.sw).2 j := Finset.sum_nonneg fun j _ => colScale_nonneg C.thr _ hs j
    rw [hMdef]; linarith
  refine ⟨B, η, κ / (ε * M), hη, by positivity, fun C' hC hv h' hstep hg0 hg next inner sp s t r hfit ha hw i hi hc hb hai hin' => ?_⟩
  have hin : WithinBounds p C.lb C.ub r.coefPath[i] := by rw [← hC.lb, ← hC.ub]; exact hin'
  obtain ⟨k, hk⟩ := hnear C' hC hv h'
  obtain ⟨-, -, -, -, hopt⟩ := c75_no_warning_near_optimal next inner C' stats R l1r h' hs hstep sp s t r hfit ha hw
  have hic0 := rows_intercept_zero next inner C' stats R l1r h' hs hstep sp s t r hfit ha hw i hi hc hb
  have hcl := stdClose_of_norm (p := p) (ic := ic) C.thr h.thr (stats n R.X R.sw).1 (stats n R.X R.sw).2 hs b0 b r.interceptPath[i] r.coefPath[i]
  rw [← hMdef, norm_sub_rev, ← hC.thr] at hcl
  have h2 := hopt i hi hc hb b0 b hsol.1 (by rw [hC.lb, hC.ub]; exact hsol.2.1) _ (mul_nonneg hM.le (norm_nonneg _)) hcl
  rw [hai, hC.thr, hC.scaled, ← hS] at h2
  have hN := hclose (fun x => objAt C' R S a l1r x + k) ((objAt_convex C' R l1r h' S a hr.alpha.le).add_const k) hk _
    (restrict_feasible C r.interceptPath[i] r.coefPath[i] hic0 hin) (C'.gradTol * M) (mul_nonneg hg0 hM.le)
    (by rw [lt_div_iff₀ (by positivity)] at hg; linarith)
    (by simp only [objAt_restrict]; linarith)
  refine ⟨(norm_fst_le (restrict (p := p) r.interceptPath[i] r.coefPath[i] - restrict b0 b)).trans hN, fun j hj => ?_⟩
  have h1 := norm_snd_le (restrict (p := p) r.interceptPath[i] r.coefPath[i] - restrict b0 b)
  exact ((norm_le_pi_norm (restrict (p := p) r.interceptPath[i] r.coefPath[i] - restrict b0 b).2 ⟨j, hj⟩).trans h1).trans hN

/-- Families with close powers have close variance functions on every range of means. -/
theorem power_close (f f' : Family) (r r' : ℝ) (hf : HasPower f r) (hf' : HasPower f' r') (B η : ℝ) (hη : 0 < η) (h : |r' - r| * (|B| + 1) ≤ min 1 (η / 2)) :
    VarianceWithin η (Real.exp (-B)) (Real.exp B) f f' := by
  intro m h1 h2
  have hm : 0 < m := (Real.exp_pos _).trans_le h1
  rw [hf m hm, hf' m hm]
  have hl : |Real.log m| ≤ |B| := by
    have a1 : -B ≤ Real.log m := by rw [Real.le_log_iff_exp_le hm]; exact h1
    have a2 : Real.log m ≤ B := by rw [Real.log_le_iff_le_exp hm]; exact h2
    rw [abs_le]
    constructor <;> cases abs_cases B <;> linarith
  have e : m ^ r' = m ^ r * Real.exp ((r' - r) * Real.log m) := by
    rw [Real.rpow_def_of_pos hm, Real.rpow_def_of_pos hm, ← Real.exp_add]; ring_nf
  have ht : |(r' - r) * Real.log m| ≤ min 1 (η / 2) := by
    rw [abs_mul]
    exact (mul_le_mul_of_nonneg_left (hl.trans (by linarith)) (abs_nonneg _)).trans h
  have h3 := Real.abs_exp_sub_one_le (ht.trans (min_le_left _ _))
  have h4 := ht.trans (min_le_right _ _)
  have e2 : m ^ r * Real.exp ((r' - r) * Real.log m) - m ^ r = (Real.exp ((r' - r) * Real.log m) - 1) * m ^ r := by ring
  rw [e, e2, abs_mul, abs_of_pos (Real.rpow_pos_of_pos hm r)]
  exact mul_le_mul_of_nonneg_right (by linarith) (Real.rpow_nonneg hm.le r)

/-- Negative binomial families with close `theta` have close variance functions on every range of means. -/
theorem theta_close (f f' : Family) (t t' : ℝ) (ht : 0 ≤ t) (hf : HasTheta f t) (hf' : HasTheta f' t') (B η : ℝ) (hη : 0 < η) (h : |t' - t| * Real.exp B ≤ η) :
    VarianceWithin η (Real.exp (-B)) (Real.exp B) f f' := by
  intro m h1 h2
  have hm : 0 < m := (Real.exp_pos _).trans_le h1
  rw [hf m hm, hf' m hm]
  have e : m + t' * m ^ 2 - (m + t * m ^ 2) = (t' - t) * m * m := by ring
  rw [e, abs_mul, abs_mul, abs_of_pos hm]
  have h3 : |t' - t| * m ≤ η := (mul_le_mul_of_nonneg_left h2 (abs_nonneg _)).trans h
  calc |t' - t| * m * m ≤ η * m := mul_le_mul_of_nonneg_right h3 hm.le
    _ ≤ η * (m + t * m ^ 2) := mul_le_mul_of_nonneg_left (le_add_of_nonneg_right (by positivity)) hη.le

/-- **C129, Tweedie power.** Log link.  The fit is a continuous function of the Tweedie power: for every `ε` there are `ρ` and `δ` such that every fit with a power within `ρ`, without `ConvergenceWarning` at a
tolerance below `δ`, is within `ε` of the solution.  Poisson is the power 1 and gamma the power 2. -/
theorem c129_power (C : FitCfg p ic) (hl : C.link = .log) (stats : Stats) (R : Rows n) (l1r a : ℝ) (h : ConvexFit C R l1r) (hr : RegularFit C R l1r a) (hs : ∀ j, 0 ≤ (stats n R.X R.sw).2 j)
    (w : ℝ) (hw : HasPower C.family w) (b0 : ℝ) (b : ℕ → ℝ)
    (hsol : Solves p ic C.lb C.ub (fitObjective p C.e50 C.family C.link R (penScale C.thr C.asIfScaled (stats n R.X R.sw).2) C.P1a C.P2a a l1r) b0 b) (ε : ℝ) (hε : 0 < ε) :
    ∃ ρ δ : ℝ, 0 < ρ ∧ 0 < δ ∧ ∀ (C' : FitCfg p ic) (w' : ℝ), OnlyFamilyDiffers C C' → HasPower C'.family w' → |w' - w| ≤ ρ → ConvexFit C' R l1r → FitsWithin δ ε C' stats R l1r a b0 b := by
  obtain ⟨B, η, δ, hη, hδ, hall⟩ := c129_fits C hl stats R l1r a h hr hs b0 b hsol ε hε
  have hB : 0 < |B| + 1 := by positivity
  refine ⟨min 1 (η / 2) / (|B| + 1), δ, div_pos (lt_min one_pos (by positivity)) hB, hδ, fun C' w' hC hw' hd h' => hall C' hC (power_close _ _ w w' hw hw' B η hη ?_) h'⟩
  rwa [← le_div_iff₀ hB]

/-- **C129, negative binomial.** Log link.  The fit is a continuous function of `theta`, and with `theta` going to zero it goes to the Poisson fit. -/
theorem c129_theta (C : FitCfg p ic) (hl : C.link = .log) (stats : Stats) (R : Rows n) (l1r a : ℝ) (h : ConvexFit C R l1r) (hr : RegularFit C R l1r a) (hs : ∀ j, 0 ≤ (stats n R.X R.sw).2 j)
    (w : ℝ) (hw0 : 0 ≤ w) (hw : HasTheta C.family w) (b0 : ℝ) (b : ℕ → ℝ)
    (hsol : Solves p ic C.lb C.ub (fitObjective p C.e50 C.family C.link R (penScale C.thr C.asIfScaled (stats n R.X R.sw).2) C.P1a C.P2a a l1r) b0 b) (ε : ℝ) (hε : 0 < ε) :
    ∃ ρ δ : ℝ, 0 < ρ ∧ 0 < δ ∧ ∀ (C' : FitCfg p ic) (w' : ℝ), OnlyFamilyDiffers C C' → HasTheta C'.family w' → |w' - w| ≤ ρ → ConvexFit C' R l1r → FitsWithin δ ε C' stats R l1r a b0 b := by
  obtain ⟨B, η, δ, hη, hδ, hall⟩ := c129_fits C hl stats R l1r a h hr hs b0 b hsol ε hε
  refine ⟨η * Real.exp (-B), δ, by positivity, hδ, fun C' w' hC hw' hd h' => hall C' hC (theta_close _ _ w w' hw0 hw hw' B η hη ?_) h'⟩
  calc |w' - w| * Real.exp B ≤ η * Real.exp (-B) * Real.exp B := mul_le_mul_of_nonneg_right hd (Real.exp_pos _).le
    _ = η := by rw [mul_assoc, ← Real.exp_add, neg_add_cancel, Real.exp_zero, mul_one]

end Fit

/-! ### Which families have which variance -/

theorem c129_families : (∀ r, HasPower (.tweedie r) r) ∧ HasPower .normal 0 ∧ HasPower .poisson 1 ∧ HasPower .gamma 2 ∧ HasPower .invGaussian 3 ∧ (∀ t, HasTheta (.negBinomial t) t) ∧ HasTheta .poisson 0 := by
  refine ⟨fun r m hm => rfl, fun m hm => ?_, fun m hm => ?_, fun m hm => ?_, fun m hm => ?_, fun t m hm => rfl, fun m hm => ?_⟩
  · simp [Family.unitVariance]
  · simp [Family.unitVariance]
  · simp [Family.unitVariance]
  · simp only [Family.unitVariance]; norm_cast
  · simp [Family.unitVariance]

/-! ### Limits of the deviance -/

/-- **C129, Tweedie deviance.** For a positive observation and a positive mean the unit deviance is a continuous function of the power, at every allowed power: the closed forms used at the powers 0, 1, 2 and 3 are the
limits of the general formula, which is undefined at 1 and 2. -/
theorem c129_tweedie_limit (y mu w : ℝ) (hy : 0 < y) (hmu : 0 < mu) (hw : w ≤ 0 ∨ 1 ≤ w) :
    Filter.Tendsto (fun r => (Family.tweedie r).unitDeviance y mu) (𝓝[{r | r ≤ 0 ∨ 1 ≤ r}] w) (𝓝 ((Family.tweedie w).unitDeviance y mu)) := by
  set B := max |Real.log y| |Real.log mu| with hB
  have hB0 : 0 ≤ B := (abs_nonneg _).trans (le_max_left _ _)
  set η : ℝ → ℝ := fun r => 2 * (|r - w| * (|B| + 1)) with hη
  have hη0 : Filter.Tendsto η (𝓝[{r | r ≤ 0 ∨ 1 ≤ r}] w) (𝓝 0) := by
    have : Continuous η := by rw [hη]; fun_prop
    have h := this.tendsto w
    have e : η w = 0 := by simp [hη]
    rw [e] at h
    exact h.mono_left nhdsWithin_le_nhds
  have hsup : ∀ r : ℝ, y ∈ ySupport (.tweedie r) := fun r => Or.inr (Or.inr hy)
  have hself : ∀ r : ℝ, (r ≤ 0 ∨ 1 ≤ r) → (Family.tweedie r).unitDeviance y y = 0 := fun r hr => deviance_self (.tweedie r) hr (by simp) y (hsup r) (Or.inr hy)
  have hbnd : ∀ᶠ r in 𝓝[{r | r ≤ 0 ∨ 1 ≤ r}] w,
      (Family.tweedie w).unitDeviance y mu / (1 + η r) ≤ (Family.tweedie r).unitDeviance y mu ∧ (Family.tweedie r).unitDeviance y mu ≤ (Family.tweedie w).unitDeviance y mu / (1 - η r) := by
    filter_upwards [hη0.eventually (gt_mem_nhds (show (0 : ℝ) < 1 by norm_num)), self_mem_nhdsWithin] with r h1 hr
    have hpos : ∀ m, min y mu ≤ m → 0 < m := fun m hm => (lt_min hy hmu).trans_le hm
    have hη' : 0 ≤ η r := by rw [hη]; positivity
    refine c129_deviance (.tweedie w) (.tweedie r) hw hr y mu (η r) (hsup w) (hsup r) (fun m a b => ⟨Or.inr (hpos m a), Or.inr (hpos m a)⟩) hη' h1
      (fun m a b => Real.rpow_pos_of_pos (hpos m a) w) ?_ (hself w hw) (hself r hr)
    rcases hη'.lt_or_eq with hlt | heq
    · have hc := power_close (.tweedie w) (.tweedie r) w r (c129_families.1 w) (c129_families.1 r) B (η r) hlt (by
        refine le_min ?_ ?_
        · have : 2 * (|r - w| * (|B| + 1)) < 1 := h1
          have h0 : 0 ≤ |r - w| * (|B| + 1) := by positivity
          linarith
        · show _ ≤ 2 * (|r - w| * (|B| + 1)) / 2
          linarith)
      intro m a b
      refine hc m ?_ ?_
      · refine le_trans ?_ a
        rw [le_min_iff, ← Real.le_log_iff_exp_le hy, ← Real.le_log_iff_exp_le hmu]
        exact ⟨by have := (abs_le.1 (le_max_left |Real.log y| |Real.log mu|)).1; linarith, by have := (abs_le.1 (le_max_right |Real.log y| |Real.log mu|)).1; linarith⟩
      · refine b.trans ?_
        rw [max_le_iff, ← Real.log_le_iff_le_exp hy, ← Real.log_le_iff_le_exp hmu]
        exact ⟨(abs_le.1 (le_max_left |Real.log y| |Real.log mu|)).2, (abs_le.1 (le_max_right |Real.log y| |Real.log mu|)).2⟩
    · have hrw : r = w := by
        have : |r - w| * (|B| + 1) = 0 := by
          have : 2 * (|r - w| * (|B| + 1)) = 0 := heq.symm
          linarith
        rcases mul_eq_zero.1 this with h | h
        · linarith [abs_eq_zero.1 h]
        · have : 0 ≤ |B| := abs_nonneg _
          linarith
      intro m a b
      rw [← heq, hrw]; simp
  refine tendsto_of_tendsto_of_tendsto_of_le_of_le' ?_ ?_ (hbnd.mono fun r h => h.1) (hbnd.mono fun r h => h.2)
  · have := (tendsto_const_nhds (x := (Family.tweedie w).unitDeviance y mu)).div (tendsto_const_nhds.add hη0) (by norm_num : (1 : ℝ) + 0 ≠ 0)
    rw [add_zero, div_one] at this
    exact this
  · have := (tendsto_const_nhds (x := (Family.tweedie w).unitDeviance y mu)).div (tendsto_const_nhds.sub hη0) (by norm_num : (1 : ℝ) - 0 ≠ 0)
    rw [sub_zero, div_one] at this
    exact this

/-- **C129, zeros and the power 2.** The deviance of a zero observation grows beyond all bounds as the power goes to 2 from below — zeros are not possible with the power 2 — but the difference between two means stays
finite, and goes to twice the difference of the logarithms. -/
theorem c129_zero_response (mu mu' : ℝ) (hmu : 0 < mu) (hmu' : 0 < mu') :
    Filter.Tendsto (fun r => (Family.tweedie r).unitDeviance 0 mu) (𝓝[<] 2) Filter.atTop ∧
    Filter.Tendsto (fun r => (Family.tweedie r).unitDeviance 0 mu - (Family.tweedie r).unitDeviance 0 mu') (𝓝[<] 2) (𝓝 (2 * (Real.log mu - Real.log mu'))) := by
  have hform : ∀ m : ℝ, 0 < m → ∀ r : ℝ, 1 < r → r < 2 → (Family.tweedie r).unitDeviance 0 m = 2 * (m ^ (2 - r) / (2 - r)) := by
    intro m hm r h1 h2
    show (if r = 0 then _ else if r = 1 then _ else if r = 2 then _ else if r = 3 then _ else tweedieUnitDeviance r 0 m) = _
    rw [if_neg (by linarith), if_neg (by linarith), if_neg (by linarith), if_neg (by linarith)]
    unfold tweedieUnitDeviance
    rw [max_self, Real.zero_rpow (by linarith), ← Real.rpow_one_add' hm.le (by linarith)]
    have : 1 + (1 - r) = 2 - r := by ring
    rw [this]; ring
  have hev : ∀ᶠ r : ℝ in 𝓝[<] 2, 1 < r ∧ r < 2 := by
    filter_upwards [self_mem_nhdsWithin, mem_nhdsWithin_of_mem_nhds (lt_mem_nhds (show (1 : ℝ) < 2 by norm_num))] with r h2 h1
    exact ⟨h1, h2⟩
  have hzero : Filter.Tendsto (fun r : ℝ => 2 - r) (𝓝[<] 2) (𝓝[>] 0) := by
    rw [tendsto_nhdsWithin_iff]
    refine ⟨?_, by filter_upwards [self_mem_nhdsWithin] with r hr; exact sub_pos.2 (Set.mem_Iio.1 hr)⟩
    have : Continuous fun r : ℝ => 2 - r := by fun_prop
    have h := (this.tendsto 2).mono_left (nhdsWithin_le_nhds (s := Set.Iio 2))
    simpa using h
  constructor
  · have h1 : Filter.Tendsto (fun t : ℝ => 2 * (mu ^ t * t⁻¹)) (𝓝[>] 0) Filter.atTop := by
      refine Filter.Tendsto.const_mul_atTop (by norm_num) (Filter.Tendsto.pos_mul_atTop one_pos ?_ tendsto_inv_nhdsGT_zero)
      have hc : Continuous fun t : ℝ => mu ^ t := Real.continuous_const_rpow hmu.ne'
      have h := (hc.tendsto 0).mono_left (nhdsWithin_le_nhds (s := Set.Ioi 0))
      simpa using h
    refine (h1.comp hzero).congr' ?_
    filter_upwards [hev] with r hr
    rw [hform mu hmu r hr.1 hr.2]
    simp [div_eq_mul_inv]
  · have hd : ∀ m : ℝ, 0 < m → HasDerivAt (fun t : ℝ => m ^ t) (Real.log m) 0 := by
      intro m hm
      have := (hasDerivAt_id (0 : ℝ)).const_rpow hm (f := id)
      simpa using this
    have hsl : HasDerivAt (fun t : ℝ => 2 * (mu ^ t - mu' ^ t)) (2 * (Real.log mu - Real.log mu')) 0 := ((hd mu hmu).fun_sub (hd mu' hmu')).const_mul 2
    have hs := hsl.tendsto_slope_zero.mono_left (nhdsWithin_mono 0 (fun t (ht : 0 < t) => ht.ne') : 𝓝[>] (0 : ℝ) ≤ 𝓝[≠] 0)
    refine (hs.comp hzero).congr' ?_
    filter_upwards [hev] with r hr
    rw [hform mu hmu r hr.1 hr.2, hform mu' hmu' r hr.1 hr.2]
    simp
    have : (2 : ℝ) - r ≠ 0 := by linarith
    field_simp

/-- **C129, negative observations and the power 0.** For a negative observation the deviance with a negative power does not go to the squared error as the power goes to zero, but to the squared error minus the square of the
observation: the same up to a term that does not depend on the mean. -/
theorem c129_normal_limit (y mu : ℝ) (hy : y ≤ 0) (hmu : 0 < mu) :
    Filter.Tendsto (fun r => (Family.tweedie r).unitDeviance y mu) (𝓝[<] 0) (𝓝 ((Family.tweedie 0).unitDeviance y mu - y ^ 2)) := by
  have h0 : (Family.tweedie 0).unitDeviance y mu - y ^ 2 = 2 * (0 - y * mu ^ (1 - (0 : ℝ)) / (1 - 0) + mu * mu ^ (1 - (0 : ℝ)) / (2 - 0)) := by
    show (if (0 : ℝ) = 0 then (y - mu) ^ 2 else _) - y ^ 2 = _
    rw [if_pos rfl]
    simp
    ring
  have hc : ContinuousAt (fun r : ℝ => 2 * (0 - y * mu ^ (1 - r) / (1 - r) + mu * mu ^ (1 - r) / (2 - r))) 0 := by
    have hp : ContinuousAt (fun r : ℝ => mu ^ (1 - r)) 0 := ((Real.continuous_const_rpow hmu.ne').comp (continuous_const.sub continuous_id)).continuousAt
    refine ContinuousAt.mul continuousAt_const ((continuousAt_const.sub ((continuousAt_const.mul hp).div (by fun_prop) (by norm_num))).add ((continuousAt_const.mul hp).div (by fun_prop) (by norm_num)))
  rw [h0]
  refine (hc.tendsto.mono_left nhdsWithin_le_nhds).congr' ?_
  filter_upwards [self_mem_nhdsWithin] with r hr
  have hr : r < 0 := hr
  symm
  show (if r = 0 then _ else if r = 1 then _ else if r = 2 then _ else if r = 3 then _ else tweedieUnitDeviance r y mu) = _
  rw [if_neg (by linarith), if_neg (by linarith), if_neg (by linarith), if_neg (by linarith)]
  unfold tweedieUnitDeviance
  rw [max_eq_right hy, Real.zero_rpow (by linarith)]
  ring

theorem log_deriv_zero (m : ℝ) : HasDerivAt (fun t : ℝ => Real.log (1 + t * m)) m 0 := by
  have h1 : HasDerivAt (fun t : ℝ => 1 + t * m) m 0 := by simpa using ((hasDerivAt_id (0 : ℝ)).mul_const m).const_add 1
  have := h1.log (by norm_num)
  simpa using this

theorem log_slope_zero (m : ℝ) : Filter.Tendsto (fun t : ℝ => t⁻¹ * Real.log (1 + t * m)) (𝓝[>] 0) (𝓝 m) := by
  have := (log_deriv_zero m).tendsto_slope_zero.mono_left (nhdsWithin_mono 0 (fun t (ht : 0 < t) => ht.ne') : 𝓝[>] (0 : ℝ) ≤ 𝓝[≠] 0)
  simpa using this

theorem log_cont_zero (m : ℝ) : Filter.Tendsto (fun t : ℝ => Real.log (1 + t * m)) (𝓝[>] 0) (𝓝 0) := by
  have := ((log_deriv_zero m).continuousAt.tendsto).mono_left (nhdsWithin_le_nhds (s := Set.Ioi 0))
  simpa using this

/-- **C129, negative binomial deviance.** As `theta` goes to zero the unit deviance of the negative binomial goes to that of the Poisson. -/
theorem c129_nb_limit (y mu : ℝ) (hy : 0 ≤ y) (hmu : 0 < mu) :
    Filter.Tendsto (fun t => (Family.negBinomial t).unitDeviance y mu) (𝓝[>] 0) (𝓝 (Family.poisson.unitDeviance y mu)) := by
  have hslope := log_slope_zero
  have hcont := log_cont_zero
  have key : Filter.Tendsto (fun t : ℝ => 2 * (xlogy y (y / mu) - (y * (Real.log (1 + t * y) - Real.log (1 + t * mu)) + (t⁻¹ * Real.log (1 + t * y) - t⁻¹ * Real.log (1 + t * mu)))))
      (𝓝[>] 0) (𝓝 (2 * (xlogy y (y / mu) - (y * (0 - 0) + (y - mu))))) :=
    (tendsto_const_nhds.sub ((((hcont y).sub (hcont mu)).const_mul y).add ((hslope y).sub (hslope mu)))).const_mul 2
  have e : Family.poisson.unitDeviance y mu = 2 * (xlogy y (y / mu) - (y * (0 - 0) + (y - mu))) := by
    show 2 * (xlogy y (y / mu) - y + mu) = _
    ring
  rw [e]
  refine key.congr' ?_
  filter_upwards [self_mem_nhdsWithin] with t ht
  have ht : 0 < t := ht
  show _ = 2 * (xlogy y (y / mu) - (y + 1 / t) * Real.log ((y + 1 / t) / (mu + 1 / t)))
  have e1 : (y + 1 / t) / (mu + 1 / t) = (1 + t * y) / (1 + t * mu) := by field_simp; ring
  rw [e1, Real.log_div (by positivity) (by positivity)]
  field_simp

theorem lgamma_step (r : ℝ) (hr : 0 < r) (k : ℕ) : lgamma ((k : ℝ) + r) - lgamma r = ∑ j ∈ Finset.range k, Real.log (r + j) := by
  induction k with
  | zero => simp
  | succ k ih =>
    rw [Finset.sum_range_succ, ← ih]
    unfold lgamma
    have hp : 0 < (k : ℝ) + r := by positivity
    have e : ((k + 1 : ℕ) : ℝ) + r = (k : ℝ) + r + 1 := by push_cast; ring
    rw [e, Real.Gamma_add_one hp.ne', Real.log_mul hp.ne' (Real.Gamma_pos_of_pos hp).ne', add_comm r]
    ring

/-- **C129, negative binomial likelihood.** For counts, as `theta` goes to zero the log-likelihood of the negative binomial goes to that of the Poisson. -/
theorem c129_loglik {n : ℕ} (norm : ℝ → ℝ → ℝ → ℝ) (k : Fin n → ℕ) (mu w : Fin n → ℝ) (disp : ℝ) (hmu : ∀ i, 0 < mu i) :
    ∃ (L : ℝ → ℝ) (L0 : ℝ), (∀ t, Family.logLik norm (.negBinomial t) (fun i => (k i : ℝ)) mu w disp = some (L t)) ∧ Family.logLik norm .poisson (fun i => (k i : ℝ)) mu w disp = some L0 ∧
      Filter.Tendsto L (𝓝[>] 0) (𝓝 L0) := by
  refine ⟨fun t => ∑ i, w i * ((k i : ℝ) * Real.log (t * mu i) - ((k i : ℝ) + 1 / t) * Real.log (1 + t * mu i) + lgamma ((k i : ℝ) + 1 / t) - lgamma (1 / t) - lgamma ((k i : ℝ) + 1)),
    poissonLogLik (fun i => (k i : ℝ)) w mu, fun t => ?_, by unfold Family.logLik; rfl, ?_⟩
  · unfold Family.logLik
    show negBinomialLogLik t _ w mu = _
    unfold negBinomialLogLik
    rw [if_neg (by rintro ⟨i, -, h⟩; exact absurd h (hmu i).ne')]
  refine tendsto_finset_sum _ fun i _ => ?_
  have key : Filter.Tendsto (fun t : ℝ => w i * ((k i : ℝ) * Real.log (mu i) - (k i : ℝ) * Real.log (1 + t * mu i) - t⁻¹ * Real.log (1 + t * mu i)
      + ∑ j ∈ Finset.range (k i), Real.log (1 + t * j) - lgamma ((k i : ℝ) + 1))) (𝓝[>] 0)
      (𝓝 (w i * ((k i : ℝ) * Real.log (mu i) - (k i : ℝ) * 0 - mu i + ∑ j ∈ Finset.range (k i), 0 - lgamma ((k i : ℝ) + 1)))) :=
    ((((tendsto_const_nhds.sub ((log_cont_zero _).const_mul _)).sub (log_slope_zero _)).add (tendsto_finset_sum _ fun j _ => log_cont_zero _)).sub tendsto_const_nhds).const_mul _
  have e : (-(w i * mu i) + if 0 < (k i : ℝ) then -(w i * (lgamma (1 + (k i : ℝ)) - (k i : ℝ) * Real.log (mu i))) else 0)
      = w i * ((k i : ℝ) * Real.log (mu i) - (k i : ℝ) * 0 - mu i + ∑ j ∈ Finset.range (k i), 0 - lgamma ((k i : ℝ) + 1)) := by
    rcases Nat.eq_zero_or_pos (k i) with h0 | h0
    · rw [h0]; simp [lgamma]
    · rw [if_pos (by exact_mod_cast h0), add_comm (1 : ℝ)]; simp; ring
  rw [show (-(w i * mu i) + if 0 < (fun i => (k i : ℝ)) i then -(w i * (lgamma (1 + (fun i => (k i : ℝ)) i) - (fun i => (k i : ℝ)) i * Real.log (mu i))) else 0) = _ from e]
  refine key.congr' ?_
  filter_upwards [self_mem_nhdsWithin] with t ht
  have ht : 0 < t := ht
  have h1 := lgamma_step (1 / t) (by positivity) (k i)
  have h2 : ∑ j ∈ Finset.range (k i), Real.log (1 / t + j) = ∑ j ∈ Finset.range (k i), Real.log (1 + t * j) - (k i : ℝ) * Real.log t := by
    have : ∀ j ∈ Finset.range (k i), Real.log (1 / t + j) = Real.log (1 + t * j) - Real.log t := by
      intro j _
      rw [← Real.log_div (by positivity) ht.ne']
      congr 1
      field_simp
    rw [Finset.sum_congr rfl this, Finset.sum_sub_distrib]
    simp
  rw [h2] at h1
  have h3 : lgamma ((k i : ℝ) + 1 / t) = ∑ j ∈ Finset.range (k i), Real.log (1 + t * j) - (k i : ℝ) * Real.log t + lgamma (1 / t) := by linarith
  rw [h3, Real.log_mul ht.ne' (hmu i).ne', one_div]
  ring

/-! ### The hypotheses are met -/

/-- The four rows of `flatRows` with a Tweedie family and log link. -/
noncomputable def powerCfg (w tol : ℝ) : FitCfg 1 true := { flatCfg tol with family := .tweedie w }

theorem power_guess (f : Family) (e : EtaArg 4) (he : e = .none) : guessIntercept f .log (flatRows 1).y (flatRows 1).sw e = some (Real.log 2) := by
  subst he
  unfold guessIntercept
  rw [if_neg (by
    rintro ⟨-, d, hd⟩
    have h0 := hd 0
    have h1 := hd 1
    simp [flatRows] at h0 h1
    linarith)]
  have ha : average (flatRows 1).y (flatRows 1).sw = 2 := by
    simp [average, flatRows, Fin.sum_univ_four]
    norm_num
  simp only [ha]
  unfold safeLog
  rw [if_pos (by norm_num)]
  rfl

theorem power_convex (w tol : ℝ) (h1 : 1 < w) (h2 : w < 2) : ConvexFit (powerCfg w tol) (flatRows 1) 0 where
  thr := (flat_convex tol 1 0 one_pos ⟨le_rfl, zero_le_one⟩).thr
  valid := Or.inr h1.le
  pair := ⟨.tweedieLog w, by show Family.fast (.tweedie w) .log = _; unfold Family.fast; simp [h1, h2]; rw [if_neg h1.ne', if_neg h2.ne], by simp⟩
  y := fun i => by
    refine Or.inr (Or.inl ⟨h2, ?_⟩)
    show (0 : ℝ) ≤ _
    simp only [flatRows]
    split <;> norm_num
  sw := (flat_convex tol 1 0 one_pos ⟨le_rfl, zero_le_one⟩).sw
  p1 := (flat_convex tol 1 0 one_pos ⟨le_rfl, zero_le_one⟩).p1
  p2 := (flat_convex tol 1 0 one_pos ⟨le_rfl, zero_le_one⟩).p2
  l1 := ⟨le_rfl, zero_le_one⟩

theorem flat_power_regular (tol : ℝ) : RegularFit (flatCfg tol) (flatRows 1) 0 1 :=
  ⟨by simp [flatRows], one_pos, one_pos, one_posdef, fun _ => ⟨_, power_guess .poisson _ rfl⟩, ⟨fun _ => 0, fun j _ => ⟨fun l hl => (by cases hl), fun u hu => (by cases hu)⟩⟩⟩

/-- Poisson regression on the four rows, and Tweedie families with powers as close to 1 as required. -/
example (ε : ℝ) (hε : 0 < ε) : ∃ b0 b w δ, 1 < w ∧ w < 2 ∧ 0 < δ ∧
    Solves 1 true none none (fitObjective 1 (flatCfg 1).e50 .poisson .log (flatRows 1) (penScale (flatCfg 1).thr (flatCfg 1).asIfScaled (trueStats 4 (flatRows 1).X (flatRows 1).sw).2) .none .none 1 0) b0 b ∧
    FitsWithin δ ε (powerCfg w (δ / 2)) trueStats (flatRows 1) 0 1 b0 b := by
  obtain ⟨b0, b, hsol, -⟩ := c90_unique_solution (flatCfg 1) (flatRows 1) 0 1 (flat_convex 1 1 0 one_pos ⟨le_rfl, zero_le_one⟩) (flat_power_regular 1)
    (penScale (flatCfg 1).thr (flatCfg 1).asIfScaled (trueStats 4 (flatRows 1).X (flatRows 1).sw).2)
  obtain ⟨ρ, δ, hρ, hδ, hall⟩ := c129_power (flatCfg 1) rfl trueStats (flatRows 1) 0 1 (flat_convex 1 1 0 one_pos ⟨le_rfl, zero_le_one⟩) (flat_power_regular 1) (fun j => Real.sqrt_nonneg _) 1
    c129_families.2.2.1 b0 b hsol ε hε
  have hm : 0 < min ρ (1 / 2) := lt_min hρ (by norm_num)
  have hm2 : min ρ (1 / 2) ≤ 1 / 2 := min_le_right _ _
  refine ⟨b0, b, 1 + min ρ (1 / 2), δ, by linarith, by linarith, hδ, hsol, hall _ (1 + min ρ (1 / 2)) ⟨rfl, rfl, rfl, rfl, rfl, rfl, rfl⟩ (c129_families.1 _) ?_ (power_convex _ _ (by linarith) (by linarith))⟩
  rw [add_sub_cancel_left, abs_of_pos hm]
  exact min_le_left _ _

/-- Such fits end without warning. -/
example (next : (ℕ → BitVec 32) → ℕ → (ℕ → BitVec 32)) (inner : (ℕ → BitVec 32) → (m : ℕ) → Inner m 1 true) (w tol : ℝ) (h1 : 1 < w) (h2 : w < 2) (ht : 0 < tol) (s : SolverLog) :
    ∃ t r, glmFit (powerCfg w tol) trueStats (irlsSolver next inner) (flatRows 1) 0 (.single 1) s = some (t, r) ∧ t.convWarn = s.convWarn := by
  have hcv := power_convex w tol h1 h2
  have hg : startGuess (powerCfg w tol) (flatRows 1) = some (Real.log 2) := power_guess (.tweedie w) _ rfl
  obtain ⟨Q, hQ⟩ : ∃ Q, prepare (powerCfg w tol) trueStats (flatRows 1) 0 = some Q := by
    unfold prepare
    rw [hg]
    exact ⟨_, rfl⟩
  obtain ⟨r, hr, -⟩ := glmFit_single (powerCfg w tol) trueStats (irlsSolver next inner) (flatRows 1) 0 1 s Q hQ (by rintro ⟨l, u, h, -⟩; cases h) (fun _ => rfl)
  refine ⟨_, r, hr, ?_⟩
  obtain ⟨Q', -, hal, -⟩ := glmFit_spec _ _ _ _ _ _ _ _ _ hr
  simp only [AlphaSpec.eval, Option.some.injEq] at hal
  have hall : ∀ x ∈ r.alphas, x = 1 := fun x hx => by rw [← hal] at hx; simpa using hx
  have hsol := constant_solves (powerCfg w tol) (flatRows 1) 0 hcv (fun j _ => ⟨fun l hl => (by cases hl), fun u hu => (by cases hu)⟩)
    (penScale (powerCfg w tol).thr (powerCfg w tol).asIfScaled (trueStats 4 (flatRows 1).X (flatRows 1).sw).2) 1 zero_le_one (Real.log 2) (fun h => by cases h)
    (fun _ => by
      have hex : Real.exp (Real.log 2) = 2 := Real.exp_log (by norm_num)
      simp only [rowSlope_log (powerCfg w tol) rfl, flatRows, Option.getD_none, add_zero, Fin.sum_univ_four, hex]
      simp
      ring)
    (fun j => by
      have hex : Real.exp (Real.log 2) = 2 := Real.exp_log (by norm_num)
      have h0 : 1 / 2 * ∑ i, rowSlope (powerCfg w tol) (flatRows 1) i (Real.log 2 + ((flatRows 1).off.getD fun _ => 0) i) * (flatRows 1).X i j = 0 := by
        simp only [rowSlope_log (powerCfg w tol) rfl, flatRows, Option.getD_none, add_zero, Fin.sum_univ_four, hex]
        simp
        try ring
      rw [h0, abs_zero]
      simp)
  exact ((c93_constant_model next inner (powerCfg w tol) trueStats (flatRows 1) 0 hcv (fun j => Real.sqrt_nonneg _) ht
    (by simp [flatRows]) rfl (fun j _ => ⟨fun l hl => (by cases hl), fun u hu => (by cases hu)⟩) (fun _ => Or.inl rfl) _ s _ r hr
    (fun x hx => by rw [hall x hx]; exact zero_le_one)).2 fun x hx => ⟨Real.log 2, by rw [hall x hx]; exact hsol⟩).2.1

end Glum
