import Verif.Props.Null
/-
C92: the unit in which the response is measured does not matter.
-/
set_option linter.unusedSectionVars false
set_option linter.unusedVariables false
set_option linter.unusedSimpArgs false

namespace Glum
open Spec

variable {n p : ℕ} {ic : Bool}

/-- `R'` is `R` with the response measured in another unit (all values multiplied by `c`) and the offset changed by `d`. -/
structure Spec.ResponseRescaled (c d : ℝ) (R R' : Rows n) : Prop where
  X : R'.X = R.X
  sw : R'.sw = R.sw
  y : ∀ i, R'.y i = c * R.y i
  off : ∀ i, (R'.off.getD fun _ => 0) i = (R.off.getD fun _ => 0) i + d

/-- `R'` is `R` with response and offset multiplied by `c`. -/
structure Spec.ResponseOffsetRescaled (c : ℝ) (R R' : Rows n) : Prop where
  X : R'.X = R.X
  sw : R'.sw = R.sw
  y : ∀ i, R'.y i = c * R.y i
  off : ∀ i, (R'.off.getD fun _ => 0) i = c * (R.off.getD fun _ => 0) i

theorem xlogy_scale (c y mu : ℝ) (hc : 0 < c) : xlogy (c * y) (c * y / (c * mu)) = c * xlogy y (y / mu) := by
  unfold xlogy
  by_cases h : y = 0
  · simp [h]
  · rw [if_neg (mul_ne_zero hc.ne' h), if_neg h, mul_div_mul_left _ _ hc.ne', mul_assoc]

theorem tweedie_scale (p c y mu : ℝ) (hc : 0 < c) (hm : 0 < mu) : tweedieUnitDeviance p (c * y) (c * mu) = c ^ (2 - p) * tweedieUnitDeviance p y mu := by
  unfold tweedieUnitDeviance
  have h1 : max (c * y) 0 = c * max y 0 := by rw [mul_max_of_nonneg _ _ hc.le, mul_zero]
  rw [h1, Real.mul_rpow hc.le (le_max_right _ _), Real.mul_rpow hc.le hm.le]
  have h2 : c ^ (2 - p) = c * c ^ (1 - p) := by
    rw [show (2 : ℝ) - p = 1 + (1 - p) by ring, Real.rpow_add hc, Real.rpow_one]
  rw [h2]
  ring

theorem rpow_two' (c : ℝ) : c ^ ((2 : ℝ) - 0) = c ^ 2 := by rw [sub_zero]; exact Real.rpow_two c
theorem rpow_two_one (c : ℝ) : c ^ ((2 : ℝ) - 1) = c := by rw [show (2 : ℝ) - 1 = 1 by norm_num, Real.rpow_one]
theorem rpow_two_two (c : ℝ) : c ^ ((2 : ℝ) - 2) = 1 := by rw [sub_self, Real.rpow_zero]
theorem rpow_two_three (c : ℝ) : c ^ ((2 : ℝ) - 3) = c⁻¹ := by rw [show (2 : ℝ) - 3 = -1 by norm_num, Real.rpow_neg_one]

/-- **C92, deviance.** The unit deviance of a Tweedie-type family of variance power `q` is homogeneous of degree `2 - q`. -/
theorem c92_deviance_homogeneous (f : Family) (q : ℝ) (hq : variancePower f = some q) (c y mu : ℝ) (hc : 0 < c) (hm : 0 < mu) :
    f.unitDeviance (c * y) (c * mu) = c ^ (2 - q) * f.unitDeviance y mu := by
  have e0 : (c * y - c * mu) ^ 2 = c ^ 2 * (y - mu) ^ 2 := by ring
  have e1 : 2 * (xlogy (c * y) (c * y / (c * mu)) - c * y + c * mu) = c * (2 * (xlogy y (y / mu) - y + mu)) := by rw [xlogy_scale c y mu hc]; ring
  have e2 : 2 * (Real.log (c * mu / (c * y)) + c * y / (c * mu) - 1) = 2 * (Real.log (mu / y) + y / mu - 1) := by
    rw [mul_div_mul_left _ _ hc.ne', mul_div_mul_left _ _ hc.ne']
  have e3 : (c * y / (c * mu) - 1) ^ 2 / (c * y) = c⁻¹ * ((y / mu - 1) ^ 2 / y) := by
    rw [mul_div_mul_left _ _ hc.ne', div_eq_mul_inv, mul_inv]; ring
  cases f with
  | normal => simp only [variancePower, Option.some.injEq] at hq; subst hq; rw [rpow_two']; exact e0
  | poisson => simp only [variancePower, Option.some.injEq] at hq; subst hq; rw [rpow_two_one]; exact e1
  | gamma => simp only [variancePower, Option.some.injEq] at hq; subst hq; rw [rpow_two_two, one_mul]; exact e2
  | invGaussian => simp only [variancePower, Option.some.injEq] at hq; subst hq; rw [rpow_two_three]; exact e3
  | ghs => cases hq
  | binomial => cases hq
  | negBinomial t => cases hq
  | tweedie p =>
    simp only [variancePower, Option.some.injEq] at hq; subst hq
    unfold Family.unitDeviance
    simp only []
    by_cases h0 : p = 0
    · subst h0; rw [if_pos rfl, if_pos rfl, rpow_two']; exact e0
    rw [if_neg h0, if_neg h0]
    by_cases h1 : p = 1
    · subst h1; rw [if_pos rfl, if_pos rfl, rpow_two_one]; exact e1
    rw [if_neg h1, if_neg h1]
    by_cases h2 : p = 2
    · subst h2; rw [if_pos rfl, if_pos rfl, rpow_two_two, one_mul]; exact e2
    rw [if_neg h2, if_neg h2]
    by_cases h3 : p = 3
    · subst h3; rw [if_pos rfl, if_pos rfl, rpow_two_three]; exact e3
    rw [if_neg h3, if_neg h3]
    exact tweedie_scale p c y mu hc hm

theorem trueMean_log (e50 : ℝ) (f : Family) (eta : ℝ) : trueMean e50 f .log eta = Real.exp eta := by
  cases f <;> rfl

theorem trueMean_identity (e50 : ℝ) (f : Family) (eta : ℝ) : trueMean e50 f .identity eta = eta := by
  cases f <;> rfl

/-- **C92, log link, objective.** Multiply the response by `c`, `alpha` by `c^(2-q)`; the objective at the intercept shifted by `log c` (less what went
into the offset) and the same coefficients is `c^(2-q)` times the objective before. -/
theorem c92_objective_log (c d : ℝ) (hc : 0 < c) (e50 : ℝ) (f : Family) (q : ℝ) (hq : variancePower f = some q) (R R' : Rows n) (hR : ResponseRescaled c d R R')
    (s : ℕ → ℝ) (P1a : P1Arg) (P2a : P2Arg) (a l1r b0 : ℝ) (b : ℕ → ℝ) :
    fitObjective p e50 f .log R' s P1a P2a (c ^ (2 - q) * a) l1r (b0 + Real.log c - d) b = c ^ (2 - q) * fitObjective p e50 f .log R s P1a P2a a l1r b0 b := by
  unfold fitObjective
  have key : ∀ i, R'.sw i * f.unitDeviance (R'.y i) (trueMean e50 f .log (∑ j : Fin p, R'.X i j * b j + (b0 + Real.log c - d) + (R'.off.getD fun _ => 0) i))
      = c ^ (2 - q) * (R.sw i * f.unitDeviance (R.y i) (trueMean e50 f .log (∑ j : Fin p, R.X i j * b j + b0 + (R.off.getD fun _ => 0) i))) := by
    intro i
    rw [hR.X, hR.sw, hR.y, hR.off, trueMean_log, trueMean_log]
    have he : ∑ j : Fin p, R.X i j * b j + (b0 + Real.log c - d) + ((R.off.getD fun _ => 0) i + d)
        = Real.log c + (∑ j : Fin p, R.X i j * b j + b0 + (R.off.getD fun _ => 0) i) := by ring
    rw [he, Real.exp_add, Real.exp_log hc, c92_deviance_homogeneous f q hq c _ _ hc (Real.exp_pos _)]
    ring
  simp only [key]
  rw [← Finset.mul_sum]
  ring

/-- **C92, log link, solutions.** The solutions of the rescaled problem are those of the problem, with the intercept shifted. -/
theorem c92_solutions_log (c d : ℝ) (hc : 0 < c) (hd : ic = false → d = Real.log c) (e50 : ℝ) (f : Family) (q : ℝ) (hq : variancePower f = some q)
    (R R' : Rows n) (hR : ResponseRescaled c d R R') (s : ℕ → ℝ) (P1a : P1Arg) (P2a : P2Arg) (lb ub : Option (ℕ → ℝ)) (a l1r b0 : ℝ) (b : ℕ → ℝ) :
    Solves p ic lb ub (fitObjective p e50 f .log R' s P1a P2a (c ^ (2 - q) * a) l1r) (b0 + Real.log c - d) b ↔
    Solves p ic lb ub (fitObjective p e50 f .log R s P1a P2a a l1r) b0 b := by
  have hk : 0 < c ^ (2 - q) := Real.rpow_pos_of_pos hc _
  have hz : ∀ x : ℝ, (ic = false → x + Real.log c - d = 0) ↔ (ic = false → x = 0) := fun x =>
    forall_congr' fun hi => by rw [hd hi]; constructor <;> intro h <;> linarith
  unfold Solves
  rw [hz]
  refine and_congr_right fun _ => and_congr_right fun _ => ⟨fun h c0 v h0 hv => ?_, fun h c0 v h0 hv => ?_⟩
  · have := h (c0 + Real.log c - d) v ((hz c0).2 h0) hv
    rw [c92_objective_log c d hc e50 f q hq R R' hR, c92_objective_log c d hc e50 f q hq R R' hR] at this
    exact le_of_mul_le_mul_left this hk
  · have e : c0 = (c0 - Real.log c + d) + Real.log c - d := by ring
    have := h (c0 - Real.log c + d) v ((hz _).1 (by rw [← e]; exact h0)) hv
    rw [e, c92_objective_log c d hc e50 f q hq R R' hR, c92_objective_log c d hc e50 f q hq R R' hR]
    exact mul_le_mul_of_nonneg_left this hk.le

theorem ySupport_scale (f : Family) (q : ℝ) (hq : variancePower f = some q) (c y : ℝ) (hc : 0 < c) (hy : y ∈ ySupport f) : c * y ∈ ySupport f := by
  cases f with
  | normal => trivial
  | poisson => exact mul_nonneg hc.le hy
  | gamma => exact mul_pos hc hy
  | invGaussian => exact mul_pos hc hy
  | ghs => cases hq
  | binomial => cases hq
  | negBinomial t => cases hq
  | tweedie p =>
    rcases hy with h | ⟨h, h'⟩ | h
    · exact Or.inl h
    · exact Or.inr (Or.inl ⟨h, mul_nonneg hc.le h'⟩)
    · exact Or.inr (Or.inr (mul_pos hc h))

theorem stdClose_shift (thr : ℝ) (means stds : ℕ → ℝ) (B b0 : ℝ) (b : ℕ → ℝ) (c0 : ℝ) (c : ℕ → ℝ) (e : ℝ) (h : StdClose p ic thr means stds B b0 b c0 c) :
    StdClose p ic thr means stds B (b0 + e) b (c0 + e) c := by
  refine ⟨h.1, fun hi => ?_⟩
  have := h.2 hi
  rwa [show b0 + e + ∑ j : Fin p, means j * b j - (c0 + e + ∑ j : Fin p, means j * c j) = b0 + ∑ j : Fin p, means j * b j - (c0 + ∑ j : Fin p, means j * c j) by ring]

/-- **C92, log link.** Fit the same data with the response in two units, `alpha` adapted (Poisson: multiplied by `c`; gamma: unchanged), with IRLS solvers
that may differ in everything else.  If neither fit raised a `ConvergenceWarning`, the coefficients are the same and the intercepts differ by `log c` (less
what was put into the offset), up to the tolerances divided by the curvature. -/
theorem c92_fits_agree_log (c d : ℝ) (hcp : 0 < c) (hd : ic = false → d = Real.log c) (next next' : (ℕ → BitVec 32) → ℕ → (ℕ → BitVec 32))
    (inner inner' : (ℕ → BitVec 32) → (m : ℕ) → Inner m p ic) (C C' : FitCfg p ic) (hC : SameProblem C C') (hlog : C.link = .log) (q : ℝ)
    (hq : variancePower C.family = some q) (stats : Stats) (R R' : Rows n) (hR : ResponseRescaled c d R R')
    (l1r : ℝ) (h : ConvexFit C R l1r) (hs : ∀ j, 0 ≤ (stats n R.X R.sw).2 j) (hstep : C.stepTol = none) (hstep' : C'.stepTol = none)
    (hg : 0 ≤ C.gradTol) (hg' : 0 ≤ C'.gradTol)
    (sp sp' : AlphaSpec) (s t s' t' : SolverLog) (r r' : PathResult)
    (hfit : glmFit C stats (irlsSolver next inner) R l1r sp s = some (t, r)) (ha : ∀ x ∈ r.alphas, 0 ≤ x) (hw : t.convWarn = s.convWarn)
    (hfit' : glmFit C' stats (irlsSolver next' inner') R' l1r sp' s' = some (t', r')) (ha' : ∀ x ∈ r'.alphas, 0 ≤ x)
    (hw' : t'.convWarn = s'.convWarn)
    (i i' : ℕ) (hi : i < r.alphas.length) (hc : i < r.coefPath.length) (hb : i < r.interceptPath.length)
    (hi' : i' < r'.alphas.length) (hc' : i' < r'.coefPath.length) (hb' : i' < r'.interceptPath.length)
    (hsame : r'.alphas[i'] = c ^ (2 - q) * r.alphas[i])
    (hin : WithinBounds p C.lb C.ub r.coefPath[i]) (hin' : WithinBounds p C.lb C.ub r'.coefPath[i']) (mu : ℝ) (hmu : 0 < mu)
    (hcurv : Curvature p ic C.thr (stats n R.X R.sw).1 (stats n R.X R.sw).2 mu
      (fitObjective p C.e50 C.family C.link R (penScale C.thr C.asIfScaled (stats n R.X R.sw).2) C.P1a C.P2a r.alphas[i] l1r)) :
    StdClose p ic C.thr (stats n R.X R.sw).1 (stats n R.X R.sw).2 (2 * (C.gradTol + C'.gradTol / c ^ (2 - q)) / mu)
      r.interceptPath[i] r.coefPath[i] (r'.interceptPath[i'] - Real.log c + d) r'.coefPath[i'] := by
  have hk : 0 < c ^ (2 - q) := Real.rpow_pos_of_pos hcp _
  have hst : stats n R'.X R'.sw = stats n R.X R.sw := by rw [hR.X, hR.sw]
  have h' : ConvexFit C' R' l1r := by
    refine ⟨hC.thr ▸ h.thr, hC.family ▸ h.valid, ?_, ?_, ?_, ?_, ?_, h.l1⟩
    · rw [hC.family, hC.link]; exact h.pair
    · intro k; rw [hC.family, hR.y]; exact ySupport_scale _ q hq c _ hcp (h.y k)
    · rw [hR.sw]; exact h.sw
    · rw [hC.P1]; exact h.p1
    · rw [hC.P2]; exact h.p2
  have hs' : ∀ j, 0 ≤ (stats n R'.X R'.sw).2 j := by rw [hst]; exact hs
  obtain ⟨-, -, -, -, hopt⟩ := c75_no_warning_near_optimal next inner C stats R l1r h hs hstep sp s t r hfit ha hw
  obtain ⟨-, -, -, -, hopt'⟩ := c75_no_warning_near_optimal next' inner' C' stats R' l1r h' hs' hstep' sp' s' t' r' hfit' ha' hw'
  refine near_agree C.thr _ _ C.lb C.ub _ _ _ mu hg (div_nonneg hg' hk.le) hmu _ _ _ _ (fun hf =>
    ⟨rows_intercept_zero next inner C stats R l1r h hs hstep sp s t r hfit ha hw i hi hc hb hf, by
      rw [rows_intercept_zero next' inner' C' stats R' l1r h' hs' hstep' sp' s' t' r' hfit' ha' hw' i' hi' hc' hb' hf, hd hf]; ring⟩) hin hin' (hopt i hi hc hb) ?_ hcurv
  intro x0 x hx0 hx B hB hcl
  have hcl' := stdClose_shift C.thr _ _ B _ _ _ _ (Real.log c - d) hcl
  have e1 : r'.interceptPath[i'] - Real.log c + d + (Real.log c - d) = r'.interceptPath[i'] := by ring
  rw [e1] at hcl'
  have := hopt' i' hi' hc' hb' (x0 + (Real.log c - d)) x (fun hf => by rw [hx0 hf, hd hf]; ring) (by rw [hC.lb, hC.ub]; exact hx) B hB (by rw [hC.thr, hst]; exact hcl')
  rw [hC.e50, hC.family, hC.link, hC.thr, hC.scaled, hC.P1, hC.P2, hsame, hst, hlog] at this
  have e2 : x0 + (Real.log c - d) = x0 + Real.log c - d := by ring
  have e3 : r'.interceptPath[i'] = (r'.interceptPath[i'] - Real.log c + d) + Real.log c - d := by ring
  rw [e2, c92_objective_log c d hcp C.e50 C.family q hq R R' hR] at this
  rw [e3, c92_objective_log c d hcp C.e50 C.family q hq R R' hR] at this
  rw [hlog]
  refine le_of_mul_le_mul_left (this.trans_eq ?_) hk
  field_simp

/-! ### Squared error -/

/-- **C92, squared error, objective.** Multiply response and offset by `c` and keep the ridge penalty (the weight of the L1 penalty is multiplied by `c`):
the objective at intercept and coefficients multiplied by `c` is `c²` times the objective before. -/
theorem c92_objective_identity (c : ℝ) (hc : 0 < c) (e50 : ℝ) (f : Family) (hq : variancePower f = some 0) (R R' : Rows n) (hR : ResponseOffsetRescaled c R R')
    (s : ℕ → ℝ) (P1a : P1Arg) (P2a : P2Arg) (a a' l1r l1r' : ℝ) (h1 : a' * l1r' = c * (a * l1r)) (h2 : a' * (1 - l1r') = a * (1 - l1r)) (b0 : ℝ) (b : ℕ → ℝ) :
    fitObjective p e50 f .identity R' s P1a P2a a' l1r' (c * b0) (fun j => c * b j) = c ^ 2 * fitObjective p e50 f .identity R s P1a P2a a l1r b0 b := by
  unfold fitObjective
  have hsq : ∀ y mu : ℝ, f.unitDeviance y mu = (y - mu) ^ 2 := by
    intro y mu
    cases f with
    | normal => rfl
    | tweedie p =>
      simp only [variancePower, Option.some.injEq] at hq
      subst hq
      unfold Family.unitDeviance
      simp only []
      exact if_pos trivial
    | _ => simp [variancePower] at hq
  have key : ∀ i, R'.sw i * f.unitDeviance (R'.y i) (trueMean e50 f .identity (∑ j : Fin p, R'.X i j * (c * b j) + c * b0 + (R'.off.getD fun _ => 0) i))
      = c ^ 2 * (R.sw i * f.unitDeviance (R.y i) (trueMean e50 f .identity (∑ j : Fin p, R.X i j * b j + b0 + (R.off.getD fun _ => 0) i))) := by
    intro i
    rw [hR.X, hR.sw, hR.y, hR.off, trueMean_identity, trueMean_identity, hsq, hsq]
    have : ∑ j : Fin p, R.X i j * (c * b j) = c * ∑ j : Fin p, R.X i j * b j := by
      rw [Finset.mul_sum]; exact Finset.sum_congr rfl fun j _ => by ring
    rw [this]
    ring
  have k1 : ∑ j : Fin p, userP1 P1a j * |c * b j * s j| = c * ∑ j : Fin p, userP1 P1a j * |b j * s j| := by
    rw [Finset.mul_sum]
    refine Finset.sum_congr rfl fun j _ => ?_
    rw [mul_assoc, abs_mul, abs_of_pos hc]
    ring
  have k2 : ∑ j : Fin p, ∑ k : Fin p, userP2 P2a j k * (c * b j * s j) * (c * b k * s k) = c ^ 2 * ∑ j : Fin p, ∑ k : Fin p, userP2 P2a j k * (b j * s j) * (b k * s k) := by
    rw [Finset.mul_sum]
    refine Finset.sum_congr rfl fun j _ => ?_
    rw [Finset.mul_sum]
    exact Finset.sum_congr rfl fun k _ => by ring
  simp only [key, k1, k2]
  rw [← Finset.mul_sum, h1, h2]
  ring

/-- The bounds in the new unit. -/
theorem withinBounds_scale (c : ℝ) (hc : 0 < c) (lb ub lb' ub' : Option (ℕ → ℝ)) (hl : lb' = lb.map fun l j => c * l j) (hu : ub' = ub.map fun u j => c * u j) (b : ℕ → ℝ) :
    WithinBounds p lb' ub' (fun j => c * b j) ↔ WithinBounds p lb ub b := by
  subst hl hu
  refine forall₂_congr fun j hj => and_congr ⟨fun h l e => ?_, fun h l e => ?_⟩ ⟨fun h u e => ?_, fun h u e => ?_⟩
  · exact le_of_mul_le_mul_left (h (fun j => c * l j) (by rw [e]; rfl)) hc
  · obtain ⟨l0, h0, rfl⟩ := Option.map_eq_some_iff.1 e
    exact mul_le_mul_of_nonneg_left (h l0 h0) hc.le
  · exact le_of_mul_le_mul_left (h (fun j => c * u j) (by rw [e]; rfl)) hc
  · obtain ⟨u0, h0, rfl⟩ := Option.map_eq_some_iff.1 e
    exact mul_le_mul_of_nonneg_left (h u0 h0) hc.le

/-- **C92, squared error, solutions.** -/
theorem c92_solutions_identity (c : ℝ) (hc : 0 < c) (e50 : ℝ) (f : Family) (hq : variancePower f = some 0) (R R' : Rows n) (hR : ResponseOffsetRescaled c R R')
    (s : ℕ → ℝ) (P1a : P1Arg) (P2a : P2Arg) (lb ub lb' ub' : Option (ℕ → ℝ)) (hl : lb' = lb.map fun l j => c * l j) (hu : ub' = ub.map fun u j => c * u j)
    (a a' l1r l1r' : ℝ) (h1 : a' * l1r' = c * (a * l1r)) (h2 : a' * (1 - l1r') = a * (1 - l1r)) (b0 : ℝ) (b : ℕ → ℝ) :
    Solves p ic lb' ub' (fitObjective p e50 f .identity R' s P1a P2a a' l1r') (c * b0) (fun j => c * b j) ↔
    Solves p ic lb ub (fitObjective p e50 f .identity R s P1a P2a a l1r) b0 b := by
  have hk : 0 < c ^ 2 := by positivity
  have hz : ∀ x : ℝ, (ic = false → c * x = 0) ↔ (ic = false → x = 0) := fun x => forall_congr' fun hi => by simp [hc.ne']
  unfold Solves
  rw [hz, withinBounds_scale c hc lb ub lb' ub' hl hu]
  refine and_congr_right fun _ => and_congr_right fun _ => ⟨fun h c0 v h0 hv => ?_, fun h c0 v h0 hv => ?_⟩
  · have := h (c * c0) (fun j => c * v j) ((hz c0).2 h0) ((withinBounds_scale c hc lb ub lb' ub' hl hu v).2 hv)
    rw [c92_objective_identity c hc e50 f hq R R' hR s P1a P2a a a' l1r l1r' h1 h2, c92_objective_identity c hc e50 f hq R R' hR s P1a P2a a a' l1r l1r' h1 h2] at this
    exact le_of_mul_le_mul_left this hk
  · have e0 : c0 = c * (c0 / c) := by field_simp
    have ev : v = fun j => c * (v j / c) := by funext j; field_simp
    rw [ev] at hv ⊢
    rw [e0] at h0 ⊢
    have := h (c0 / c) (fun j => v j / c) ((hz _).1 h0) ((withinBounds_scale c hc lb ub lb' ub' hl hu _).1 hv)
    rw [c92_objective_identity c hc e50 f hq R R' hR s P1a P2a a a' l1r l1r' h1 h2, c92_objective_identity c hc e50 f hq R R' hR s P1a P2a a a' l1r l1r' h1 h2]
    exact mul_le_mul_of_nonneg_left this hk.le

theorem stdClose_scale (thr : ℝ) (means stds : ℕ → ℝ) (k : ℝ) (hk : 0 < k) (B b0 : ℝ) (b : ℕ → ℝ) (c0 : ℝ) (c : ℕ → ℝ) (h : StdClose p ic thr means stds B b0 b c0 c) :
    StdClose p ic thr means stds (k * B) (k * b0) (fun j => k * b j) (k * c0) (fun j => k * c j) := by
  refine ⟨fun j hj => ?_, fun hi => ?_⟩
  · have := mul_le_mul_of_nonneg_left (h.1 j hj) hk.le
    refine le_trans (le_of_eq ?_) this
    rw [← mul_sub, abs_mul, abs_of_pos hk, mul_assoc]
  · have := mul_le_mul_of_nonneg_left (h.2 hi) hk.le
    refine le_trans (le_of_eq ?_) this
    have e : ∀ b : ℕ → ℝ, ∑ j : Fin p, means j * (k * b j) = k * ∑ j : Fin p, means j * b j := fun b => by
      rw [Finset.mul_sum]; exact Finset.sum_congr rfl fun j _ => by ring
    rw [e, e, ← abs_of_pos hk, ← abs_mul, abs_of_pos hk]
    congr 1
    ring

/-- The configuration of the fit in the new unit: everything that defines the problem is the same, the bounds are multiplied by `c`. -/
structure Spec.RescaledProblem (c : ℝ) (C C' : FitCfg p ic) : Prop where
  family : C'.family = C.family
  link : C'.link = C.link
  e50 : C'.e50 = C.e50
  thr : C'.thr = C.thr
  scaled : C'.asIfScaled = C.asIfScaled
  P1 : C'.P1a = C.P1a
  P2 : C'.P2a = C.P2a
  lb : C'.lb = C.lb.map fun l j => c * l j
  ub : C'.ub = C.ub.map fun u j => c * u j

/-- **C92, squared error.** Fit the same data by penalised least squares with response, offset and bounds in two units (the ridge part of the penalty
unchanged, the L1 part multiplied by `c`).  If neither fit raised a `ConvergenceWarning`, intercept and coefficients are multiplied by `c` too, up to the
tolerances divided by the curvature. -/
theorem c92_fits_agree_identity (c : ℝ) (hcp : 0 < c) (next next' : (ℕ → BitVec 32) → ℕ → (ℕ → BitVec 32))
    (inner inner' : (ℕ → BitVec 32) → (m : ℕ) → Inner m p ic) (C C' : FitCfg p ic) (hC : RescaledProblem c C C') (hid : C.link = .identity)
    (hq : variancePower C.family = some 0) (stats : Stats) (R R' : Rows n) (hR : ResponseOffsetRescaled c R R')
    (l1r l1r' : ℝ) (h : ConvexFit C R l1r) (hl1 : 0 ≤ l1r' ∧ l1r' ≤ 1) (hs : ∀ j, 0 ≤ (stats n R.X R.sw).2 j) (hstep : C.stepTol = none) (hstep' : C'.stepTol = none)
    (hg : 0 ≤ C.gradTol) (hg' : 0 ≤ C'.gradTol)
    (sp sp' : AlphaSpec) (s t s' t' : SolverLog) (r r' : PathResult)
    (hfit : glmFit C stats (irlsSolver next inner) R l1r sp s = some (t, r)) (ha : ∀ x ∈ r.alphas, 0 ≤ x) (hw : t.convWarn = s.convWarn)
    (hfit' : glmFit C' stats (irlsSolver next' inner') R' l1r' sp' s' = some (t', r')) (ha' : ∀ x ∈ r'.alphas, 0 ≤ x)
    (hw' : t'.convWarn = s'.convWarn)
    (i i' : ℕ) (hi : i < r.alphas.length) (hc : i < r.coefPath.length) (hb : i < r.interceptPath.length)
    (hi' : i' < r'.alphas.length) (hc' : i' < r'.coefPath.length) (hb' : i' < r'.interceptPath.length)
    (h1 : r'.alphas[i'] * l1r' = c * (r.alphas[i] * l1r)) (h2 : r'.alphas[i'] * (1 - l1r') = r.alphas[i] * (1 - l1r))
    (hin : WithinBounds p C.lb C.ub r.coefPath[i]) (hin' : WithinBounds p C'.lb C'.ub r'.coefPath[i']) (mu : ℝ) (hmu : 0 < mu)
    (hcurv : Curvature p ic C.thr (stats n R.X R.sw).1 (stats n R.X R.sw).2 mu
      (fitObjective p C.e50 C.family C.link R (penScale C.thr C.asIfScaled (stats n R.X R.sw).2) C.P1a C.P2a r.alphas[i] l1r)) :
    StdClose p ic C.thr (stats n R.X R.sw).1 (stats n R.X R.sw).2 (2 * (C.gradTol + C'.gradTol / c) / mu)
      r.interceptPath[i] r.coefPath[i] (r'.interceptPath[i'] / c) (fun j => r'.coefPath[i'] j / c) := by
  have hk : 0 < c ^ 2 := by positivity
  have hst : stats n R'.X R'.sw = stats n R.X R.sw := by rw [hR.X, hR.sw]
  have h' : ConvexFit C' R' l1r' := by
    refine ⟨hC.thr ▸ h.thr, hC.family ▸ h.valid, ?_, ?_, ?_, ?_, ?_, hl1⟩
    · rw [hC.family, hC.link]; exact h.pair
    · intro k; rw [hC.family, hR.y]; exact ySupport_scale _ 0 hq c _ hcp (h.y k)
    · rw [hR.sw]; exact h.sw
    · rw [hC.P1]; exact h.p1
    · rw [hC.P2]; exact h.p2
  have hs' : ∀ j, 0 ≤ (stats n R'.X R'.sw).2 j := by rw [hst]; exact hs
  have ec : r'.coefPath[i'] = fun j => c * (r'.coefPath[i'] j / c) := by funext j; field_simp
  have e0 : r'.interceptPath[i'] = c * (r'.interceptPath[i'] / c) := by field_simp
  obtain ⟨-, -, -, -, hopt⟩ := c75_no_warning_near_optimal next inner C stats R l1r h hs hstep sp s t r hfit ha hw
  obtain ⟨-, -, -, -, hopt'⟩ := c75_no_warning_near_optimal next' inner' C' stats R' l1r' h' hs' hstep' sp' s' t' r' hfit' ha' hw'
  have hbd : WithinBounds p C.lb C.ub fun j => r'.coefPath[i'] j / c := by
    rw [ec] at hin'
    exact (withinBounds_scale c hcp C.lb C.ub _ _ hC.lb hC.ub _).1 hin'
  refine near_agree C.thr _ _ C.lb C.ub _ _ _ mu hg (div_nonneg hg' hcp.le) hmu _ _ _ _ (fun hf =>
    ⟨rows_intercept_zero next inner C stats R l1r h hs hstep sp s t r hfit ha hw i hi hc hb hf, by
      rw [rows_intercept_zero next' inner' C' stats R' l1r' h' hs' hstep' sp' s' t' r' hfit' ha' hw' i' hi' hc' hb' hf, zero_div]⟩) hin hbd (hopt i hi hc hb) ?_ hcurv
  intro x0 x hx0 hx B hB hcl
  have hcl' := stdClose_scale C.thr _ _ c hcp B _ _ _ _ hcl
  rw [← e0, ← ec] at hcl'
  have := hopt' i' hi' hc' hb' (c * x0) (fun j => c * x j) (fun hf => by rw [hx0 hf, mul_zero])
    ((withinBounds_scale c hcp C.lb C.ub _ _ hC.lb hC.ub _).2 hx) (c * B) (mul_nonneg hcp.le hB) (by rw [hC.thr, hst]; exact hcl')
  rw [hC.e50, hC.family, hC.link, hC.thr, hC.scaled, hC.P1, hC.P2, hst, hid, c92_objective_identity c hcp C.e50 C.family hq R R' hR _ _ _ _ _ _ _ h1 h2] at this
  have e := c92_objective_identity (p := p) c hcp C.e50 C.family hq R R' hR (penScale C.thr C.asIfScaled (stats n R.X R.sw).2) C.P1a C.P2a _ _ _ _ h1 h2
    (r'.interceptPath[i'] / c) (fun j => r'.coefPath[i'] j / c)
  beta_reduce at e
  rw [← e0, ← ec] at e
  rw [e] at this
  rw [hid]
  refine le_of_mul_le_mul_left (this.trans_eq ?_) hk
  field_simp

/-- **C92, log link, in the limit.** The same without a curvature constant: for a regular problem and every `ε` there is a tolerance such that any two fits
at that tolerance, one in each unit (alpha multiplied by `c ^ (2 - q)`), without a `ConvergenceWarning`, have the same coefficients up to `ε` and
intercepts that differ by `log c - d` up to `ε`. -/
theorem c92_limits_log (c d : ℝ) (hcp : 0 < c) (hd : ic = false → d = Real.log c) (C : FitCfg p ic) (hlog : C.link = .log) (q : ℝ)
    (hq : variancePower C.family = some q) (stats : Stats) (R R' : Rows n) (hR : ResponseRescaled c d R R') (l1r a : ℝ) (h : ConvexFit C R l1r)
    (hr : RegularFit C R l1r a) (hr' : RegularFit C R' l1r (c ^ (2 - q) * a)) (hs : ∀ j, 0 ≤ (stats n R.X R.sw).2 j) (ε : ℝ) (hε : 0 < ε) :
    ∃ δ : ℝ, 0 < δ ∧ ∀ (next next' : (ℕ → BitVec 32) → ℕ → (ℕ → BitVec 32)) (inner inner' : (ℕ → BitVec 32) → (m : ℕ) → Inner m p ic) (C₁ C₂ : FitCfg p ic),
      SameProblem C C₁ → SameProblem C C₂ → C₁.stepTol = none → C₂.stepTol = none → C₁.gradTol < δ → C₂.gradTol < δ →
      ∀ (sp sp' : AlphaSpec) (s t s' t' : SolverLog) (r r' : PathResult), glmFit C₁ stats (irlsSolver next inner) R l1r sp s = some (t, r) →
        glmFit C₂ stats (irlsSolver next' inner') R' l1r sp' s' = some (t', r') →
        (∀ x ∈ r.alphas, 0 ≤ x) → (∀ x ∈ r'.alphas, 0 ≤ x) → t.convWarn = s.convWarn → t'.convWarn = s'.convWarn →
        ∀ (i i' : ℕ) (hi : i < r.alphas.length) (hc : i < r.coefPath.length) (hb : i < r.interceptPath.length)
          (hi' : i' < r'.alphas.length) (hc' : i' < r'.coefPath.length) (hb' : i' < r'.interceptPath.length),
          r.alphas[i] = a → r'.alphas[i'] = c ^ (2 - q) * a → WithinBounds p C.lb C.ub r.coefPath[i] → WithinBounds p C.lb C.ub r'.coefPath[i'] →
          |r'.interceptPath[i'] - (r.interceptPath[i] + Real.log c - d)| ≤ ε ∧ ∀ j < p, |r'.coefPath[i'] j - r.coefPath[i] j| ≤ ε := by
  have h' : ConvexFit C R' l1r :=
    ⟨h.thr, h.valid, h.pair, fun k => by rw [hR.y]; exact ySupport_scale _ q hq c _ hcp (h.y k), by rw [hR.sw]; exact h.sw, h.p1, h.p2, h.l1⟩
  have hst : stats n R'.X R'.sw = stats n R.X R.sw := by rw [hR.X, hR.sw]
  obtain ⟨b0, b, hsol, -⟩ := c90_unique_solution C R l1r a h hr (stats n R.X R.sw).2
  have hsol' := hsol
  rw [hlog, ← c92_solutions_log c d hcp hd C.e50 C.family q hq R R' hR, ← hlog, ← hst] at hsol'
  obtain ⟨δ, hδ, hfit⟩ := c90_fits_converge C stats R l1r a h hr hs b0 b hsol (ε / 2) (by linarith)
  obtain ⟨δ', hδ', hfit'⟩ := c90_fits_converge C stats R' l1r _ h' hr' (by rw [hst]; exact hs) _ b hsol' (ε / 2) (by linarith)
  refine ⟨min δ δ', lt_min hδ hδ', fun next next' inner inner' C₁ C₂ h1 h2 st1 st2 g1 g2 sp sp' s t s' t' r r' f f' al al' w w' i i' hi hc hb hi' hc' hb' e e' wb wb' => ?_⟩
  obtain ⟨a1, a2⟩ := hfit next inner C₁ h1 st1 (lt_of_lt_of_le g1 (min_le_left _ _)) sp s t r f al w i hi hc hb e wb
  obtain ⟨a1', a2'⟩ := hfit' next' inner' C₂ h2 st2 (lt_of_lt_of_le g2 (min_le_right _ _)) sp' s' t' r' f' al' w' i' hi' hc' hb' e' wb'
  refine ⟨?_, fun j hj => ?_⟩
  · rw [abs_le] at a1 a1' ⊢
    constructor <;> linarith [a1.1, a1.2, a1'.1, a1'.2]
  · have x1 := a2 j hj
    have x2 := a2' j hj
    rw [abs_le] at x1 x2 ⊢
    constructor <;> linarith [x1.1, x1.2, x2.1, x2.2]

/-! ### Non-vacuity -/

noncomputable section

theorem flat_rescaled (c : ℝ) : ResponseRescaled c 0 (flatRows 1) (flatRows c) :=
  ⟨rfl, rfl, fun i => by simp only [flatRows]; split <;> ring, fun i => by simp [flatRows]⟩

theorem flat_regular (tol c a : ℝ) (hc : 0 < c) (ha : 0 < a) : RegularFit (flatCfg tol) (flatRows c) 0 a :=
  ⟨by simp [flatRows], ha, one_pos, one_posdef, fun _ => ⟨_, flat_guess tol c hc _ rfl⟩,
    ⟨fun _ => 0, fun j _ => ⟨fun l hl => (by cases hl), fun u hu => (by cases hu)⟩⟩⟩

/-- Poisson regression on four rows, counts in units and in tens: both fits succeed without warnings, and the intercepts differ by `log 10` up to `ε`. -/
example (next : (ℕ → BitVec 32) → ℕ → (ℕ → BitVec 32)) (inner : (ℕ → BitVec 32) → (m : ℕ) → Inner m 1 true) (s : SolverLog) (ε : ℝ) (hε : 0 < ε) :
    ∃ tol t r t' r', glmFit (flatCfg tol) trueStats (irlsSolver next inner) (flatRows 1) 0 (.single 1) s = some (t, r) ∧
      glmFit (flatCfg tol) trueStats (irlsSolver next inner) (flatRows 10) 0 (.single 10) s = some (t', r') ∧
      ∀ (hb : 0 < r.interceptPath.length) (hb' : 0 < r'.interceptPath.length) (hc : 0 < r.coefPath.length) (hc' : 0 < r'.coefPath.length),
        |r'.interceptPath[0] - (r.interceptPath[0] + Real.log 10 - 0)| ≤ ε ∧ |r'.coefPath[0] 0 - r.coefPath[0] 0| ≤ ε := by
  have h10 : (10 : ℝ) ^ ((2 : ℝ) - 1) * 1 = 10 := by rw [rpow_two_one, mul_one]
  obtain ⟨δ, hδ, hall⟩ := c92_limits_log 10 0 (by norm_num) (fun h => by cases h) (flatCfg 1) rfl 1 rfl trueStats (flatRows 1) (flatRows 10) (flat_rescaled 10) 0 1
    (flat_convex 1 1 0 one_pos ⟨le_rfl, zero_le_one⟩) (flat_regular 1 1 1 one_pos one_pos)
    (by rw [h10]; exact flat_regular 1 10 10 (by norm_num) (by norm_num)) (fun j => Real.sqrt_nonneg _) ε hε
  obtain ⟨t, r, h, -, hw, -⟩ := flat_fit next inner (δ / 2) 1 0 1 (half_pos hδ) one_pos ⟨le_rfl, zero_le_one⟩ zero_le_one s
  obtain ⟨t', r', h', -, hw', -⟩ := flat_fit next inner (δ / 2) 10 0 10 (half_pos hδ) (by norm_num) ⟨le_rfl, zero_le_one⟩ (by norm_num) s
  have hal : r.alphas = [1] := by
    obtain ⟨Q, -, hal, -⟩ := glmFit_spec _ _ _ _ _ _ _ _ _ h
    simpa [AlphaSpec.eval] using hal.symm
  have hal' : r'.alphas = [10] := by
    obtain ⟨Q, -, hal, -⟩ := glmFit_spec _ _ _ _ _ _ _ _ _ h'
    simpa [AlphaSpec.eval] using hal.symm
  refine ⟨δ / 2, t, r, t', r', h, h', fun hb hb' hc hc' => ?_⟩
  have hlt : δ / 2 < δ := by linarith
  have := hall next next inner inner (flatCfg (δ / 2)) (flatCfg (δ / 2)) ⟨rfl, rfl, rfl, rfl, rfl, rfl, rfl, rfl, rfl⟩ ⟨rfl, rfl, rfl, rfl, rfl, rfl, rfl, rfl, rfl⟩
    rfl rfl hlt hlt (.single 1) (.single 10) s t s t' r r' h h' (by rw [hal]; simp) (by rw [hal']; simp) hw hw' 0 0 (by rw [hal]; simp) hc hb
    (by rw [hal']; simp) hc' hb' (by simp [hal]) (by rw [h10]; simp [hal'])
    (fun j _ => ⟨fun l hl => (by cases hl), fun u hu => (by cases hu)⟩) (fun j _ => ⟨fun l hl => (by cases hl), fun u hu => (by cases hu)⟩)
  exact ⟨this.1, this.2 0 zero_lt_one⟩

theorem flat_sq_convex (c : ℝ) : ConvexFit (tinyCfg 5 5) (flatRows c) 0 :=
  ⟨(tiny_convex 5 5).thr, (tiny_convex 5 5).valid, (tiny_convex 5 5).pair, fun i => trivial, fun i => by norm_num [flatRows], (tiny_convex 5 5).p1,
    (tiny_convex 5 5).p2, le_rfl, zero_le_one⟩

/-- Ridge regression on the four rows. -/
theorem flat_sq_fit (next : (ℕ → BitVec 32) → ℕ → (ℕ → BitVec 32)) (inner : (ℕ → BitVec 32) → (m : ℕ) → Inner m 1 true) (c : ℝ) (s : SolverLog) :
    ∃ t r, glmFit (tinyCfg 5 5) tinyStats (irlsSolver next inner) (flatRows c) 0 (.single 1) s = some (t, r) ∧ t.convWarn = s.convWarn := by
  have hg : guessIntercept .normal .identity (flatRows c).y (flatRows c).sw .none = some (2 * c) := by
    unfold guessIntercept
    rw [if_neg (by simp)]
    simp [average, flatRows, Fin.sum_univ_four]
    ring
  have hgs : startGuess (tinyCfg 5 5) (flatRows c) = some (2 * c) := hg
  obtain ⟨Q, hQ⟩ : ∃ Q, prepare (tinyCfg 5 5) tinyStats (flatRows c) 0 = some Q := by
    unfold prepare
    rw [hgs]
    exact ⟨_, rfl⟩
  obtain ⟨r, hr, -⟩ := glmFit_single (tinyCfg 5 5) tinyStats (irlsSolver next inner) (flatRows c) 0 1 s Q hQ (by rintro ⟨l, u, h, -⟩; cases h) (fun _ => rfl)
  refine ⟨_, r, hr, ?_⟩
  obtain ⟨Q', -, hal, -⟩ := glmFit_spec _ _ _ _ _ _ _ _ _ hr
  simp only [AlphaSpec.eval, Option.some.injEq] at hal
  have hall : ∀ x ∈ r.alphas, x = 1 := fun x hx => by rw [← hal] at hx; simpa using hx
  have hb : WithinBounds 1 (tinyCfg 5 5).lb (tinyCfg 5 5).ub fun _ => 0 := fun j _ => ⟨fun l hl => (by cases hl), fun u hu => (by cases hu)⟩
  have hsol := constant_solves (tinyCfg 5 5) (flatRows c) 0 (flat_sq_convex c) hb
    (penScale (tinyCfg 5 5).thr (tinyCfg 5 5).asIfScaled (tinyStats 4 (flatRows c).X (flatRows c).sw).2) 1 zero_le_one (2 * c) (fun h => by cases h)
    (fun _ => slopes_sum_zero (tinyCfg 5 5) (flatRows c) 0 (flat_sq_convex c) _ fun b =>
      guess_optimal (tinyCfg 5 5) (flatRows c) trivial .normalIdentity rfl (fun _ => trivial) (by simp [flatRows]) (Or.inl rfl) _ hg b) (fun j => by
      have h0 : 1 / 2 * ∑ i, rowSlope (tinyCfg 5 5) (flatRows c) i (2 * c + ((flatRows c).off.getD fun _ => 0) i) * (flatRows c).X i j = 0 := by
        simp only [rowSlope, flatRows, tinyCfg, Option.getD_none, add_zero, Fin.sum_univ_four, trueMean, Link.inverse, Link.inverseDerivative,
          Family.unitDevianceDerivative, Family.unitVariance]
        simp
      rw [h0, abs_zero]
      simp)
  exact ((c93_constant_model next inner (tinyCfg 5 5) tinyStats (flatRows c) 0 (flat_sq_convex c) (fun j => zero_le_one) (by norm_num [tinyCfg])
    (by simp [flatRows]) rfl hb (fun _ => Or.inl rfl) _ s _ r hr
    (fun x hx => by rw [hall x hx]; exact zero_le_one)).2 fun x hx => ⟨2 * c, by rw [hall x hx]; exact hsol⟩).2.1

/-- Ridge regression on the four rows with the response in units and in tenths: the hypotheses of `c92_fits_agree_identity` hold. -/
example (next next' : (ℕ → BitVec 32) → ℕ → (ℕ → BitVec 32)) (inner inner' : (ℕ → BitVec 32) → (m : ℕ) → Inner m 1 true) (s s' : SolverLog) :
    ∃ t r t' r', glmFit (tinyCfg 5 5) tinyStats (irlsSolver next inner) (flatRows 1) 0 (.single 1) s = some (t, r) ∧
      glmFit (tinyCfg 5 5) tinyStats (irlsSolver next' inner') (flatRows 10) 0 (.single 1) s' = some (t', r') ∧
      ∀ (hc : 0 < r.coefPath.length) (hb : 0 < r.interceptPath.length) (hc' : 0 < r'.coefPath.length) (hb' : 0 < r'.interceptPath.length),
        StdClose 1 true (tinyCfg 5 5).thr (fun _ => 0) (fun _ => 1) (2 * (1 / 10000 + 1 / 10000 / 10) / 1)
          r.interceptPath[0] r.coefPath[0] (r'.interceptPath[0] / 10) (fun j => r'.coefPath[0] j / 10) := by
  obtain ⟨t, r, h, hw⟩ := flat_sq_fit next inner 1 s
  obtain ⟨t', r', h', hw'⟩ := flat_sq_fit next' inner' 10 s'
  have hal : r.alphas = [1] := by
    obtain ⟨Q, -, hal, -⟩ := glmFit_spec _ _ _ _ _ _ _ _ _ h
    simpa [AlphaSpec.eval] using hal.symm
  have hal' : r'.alphas = [1] := by
    obtain ⟨Q, -, hal, -⟩ := glmFit_spec _ _ _ _ _ _ _ _ _ h'
    simpa [AlphaSpec.eval] using hal.symm
  refine ⟨t, r, t', r', h, h', fun hc hb hc' hb' => ?_⟩
  have hone : ∀ j, colScale (tinyCfg 5 5).thr (fun _ => (1 : ℝ)) j = 1 := fun j => by unfold colScale; simp
  have hcurv := c78_curvature_normal (tinyCfg 5 5) rfl rfl (flatRows 1) 0 (flat_sq_convex 1) (fun _ => 0) (fun _ => 1) (by simp [flatRows])
    (by intro j hj; simp [flatRows, Fin.sum_univ_four]) 1 zero_le_one 1 1 zero_le_one zero_lt_one
    (by intro v; simp [tinyCfg, userP2, pow_two]) (by
      intro j hj
      rw [hone]
      have : penScale (tinyCfg 5 5).thr (tinyCfg 5 5).asIfScaled (fun _ => (1 : ℝ)) j = 1 := rfl
      rw [this]; simp)
  have he : r.alphas[0]'(by rw [hal]; simp) = 1 := by simp [hal]
  have he' : r'.alphas[0]'(by rw [hal']; simp) = 1 := by simp [hal']
  have hmin : min 1 (1 * (1 - 0) * 1 / 1 ^ 2 : ℝ) = 1 := by norm_num
  rw [hmin] at hcurv
  exact c92_fits_agree_identity 10 (by norm_num) next next' inner inner' (tinyCfg 5 5) (tinyCfg 5 5) ⟨rfl, rfl, rfl, rfl, rfl, rfl, rfl, rfl, rfl⟩ rfl rfl tinyStats
    (flatRows 1) (flatRows 10) ⟨rfl, rfl, fun i => by simp only [flatRows]; split <;> ring, fun i => by simp [flatRows]⟩ 0 0 (flat_sq_convex 1)
    ⟨le_rfl, zero_le_one⟩ (fun _ => zero_le_one) rfl rfl (by norm_num [tinyCfg]) (by norm_num [tinyCfg]) _ _ s t s' t' r r' h (by rw [hal]; simp) hw h'
    (by rw [hal']; simp) hw' 0 0 (by rw [hal]; simp) hc hb (by rw [hal']; simp) hc' hb' (by rw [he, he']; norm_num) (by rw [he, he'])
    (fun j _ => ⟨fun l hl => (by cases hl), fun u hu => (by cases hu)⟩) (fun j _ => ⟨fun l hl => (by cases hl), fun u hu => (by cases hu)⟩) 1 one_pos
    (by rw [he]; exact hcurv)

end

end Glum
