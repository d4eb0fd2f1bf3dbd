import Verif.Props.Grouping
import Mathlib.Analysis.Calculus.Deriv.MeanValue
/-
C127: the penalised estimating equations of a feature, and what they mean for the indicator of a segment: predictions of a segment are between its own mean and
the prediction without its coefficient (credibility), and equal its own mean without penalty.
-/
set_option linter.unusedSectionVars false
set_option linter.unusedVariables false
set_option linter.unusedSimpArgs false

namespace Glum
open Spec

variable {n p : ℕ} {ic : Bool}

/-! ### Specification -/

/-- The coefficients with that of feature `g` changed by `d`. -/
def Spec.nudge (g : ℕ) (d : ℝ) (b : ℕ → ℝ) : ℕ → ℝ := fun k => if k = g then b k + d else b k

/-- No change of feature `g`'s coefficient alone that respects the bounds improves the objective by more than `ε` per unit.  Solutions have `ε = 0`. -/
def Spec.CoordOptimal (p : ℕ) (lb ub : Option (ℕ → ℝ)) (F : ℝ → (ℕ → ℝ) → ℝ) (ε b0 : ℝ) (b : ℕ → ℝ) (g : ℕ) : Prop :=
  ∀ d : ℝ, WithinBounds p lb ub (nudge g d b) → F b0 b ≤ F b0 (nudge g d b) + ε * |d|

/-- The derivative of the ridge penalty in the coefficient of feature `g`. -/
noncomputable def Spec.ridgePull (p : ℕ) (P2a : P2Arg) (s : ℕ → ℝ) (a l1r : ℝ) (b : ℕ → ℝ) (g : ℕ) : ℝ :=
  a * (1 - l1r) * (s g * ∑ k : Fin p, (userP2 P2a g k + userP2 P2a k g) / 2 * (b k * s k))

/-- The rows `G` are a segment with indicator `g`: on the rows that count the column is 1 within and 0 outside, and the rows within agree in all features and
in the offset. -/
structure Spec.Segment (p : ℕ) (R : Rows n) (G : Finset (Fin n)) (g : ℕ) : Prop where
  inside : ∀ r ∈ G, R.sw r ≠ 0 → R.X r g = 1
  outside : ∀ r ∉ G, R.sw r ≠ 0 → R.X r g = 0
  same : ∀ r ∈ G, ∀ q ∈ G, R.sw r ≠ 0 → R.sw q ≠ 0 → (∀ k < p, R.X r k = R.X q k) ∧ (R.off.getD fun _ => 0) r = (R.off.getD fun _ => 0) q

/-- Total weight of the segment. -/
def Spec.segWeight (R : Rows n) (G : Finset (Fin n)) : ℝ := ∑ r ∈ G, R.sw r

/-- Weighted mean of the responses of the segment. -/
noncomputable def Spec.segMean (R : Rows n) (G : Finset (Fin n)) : ℝ := (∑ r ∈ G, R.sw r * R.y r) / ∑ r ∈ G, R.sw r

/-- The ridge penalty does not tie feature `g` to other features. -/
def Spec.OwnRidge (p : ℕ) (P2a : P2Arg) (g : ℕ) : Prop := ∀ k < p, k ≠ g → userP2 P2a g k = 0 ∧ userP2 P2a k g = 0

/-! ### One coordinate -/

theorem nudge_single (g : Fin p) (d : ℝ) (b : ℕ → ℝ) (k : Fin p) : nudge g d b k = b k + d * (if k = g then 1 else 0) := by
  unfold nudge
  by_cases h : k = g
  · subst h; simp
  · rw [if_neg (fun e => h (Fin.ext e)), if_neg h]; ring

theorem nudge_eta (R : Rows n) (g : Fin p) (d b0 : ℝ) (b : ℕ → ℝ) (r : Fin n) : rowEta p R b0 (nudge g d b) r = rowEta p R b0 b r + d * R.X r g := by
  unfold rowEta
  simp only [nudge_single g d b, mul_add, Finset.sum_add_distrib]
  have : ∑ k : Fin p, R.X r k * (d * if k = g then 1 else 0) = d * R.X r g := by
    rw [Fintype.sum_eq_single g fun k hk => by rw [if_neg hk]; ring, if_pos rfl]; ring
  rw [this]
  ring

theorem nudge_penalty (C : FitCfg p ic) (s : ℕ → ℝ) (a l1r : ℝ) (g : Fin p) (d : ℝ) (b : ℕ → ℝ) :
    penaltyOf p s C.P1a C.P2a a l1r (nudge g d b)
      = penaltyOf p s C.P1a C.P2a a l1r b + a * l1r * (userP1 C.P1a g * |s g|) * (|b g + d| - |b g|) + d * ridgePull p C.P2a s a l1r b g
        + d ^ 2 * (a * (1 - l1r) / 2 * (userP2 C.P2a g g * s g ^ 2)) := by
  unfold penaltyOf ridgePull
  have e1 : ∑ j : Fin p, userP1 C.P1a j * |nudge g d b j * s j| = ∑ j : Fin p, userP1 C.P1a j * |b j * s j| + userP1 C.P1a g * |s g| * (|b g + d| - |b g|) := by
    rw [← sub_eq_iff_eq_add', ← Finset.sum_sub_distrib, Fintype.sum_eq_single g fun k hk => by rw [nudge_single, if_neg hk, mul_zero, add_zero, sub_self]]
    rw [nudge_single, if_pos rfl, mul_one, abs_mul, abs_mul]
    ring
  have e2 : ∀ j k : Fin p, userP2 C.P2a j k * (nudge g d b j * s j) * (nudge g d b k * s k)
      = userP2 C.P2a j k * (b j * s j) * (b k * s k) + (if j = g then 1 else 0) * (d * s j * (userP2 C.P2a j k * (b k * s k)))
        + (if k = g then 1 else 0) * (d * s k * (userP2 C.P2a j k * (b j * s j)))
        + (if j = g then 1 else 0) * ((if k = g then 1 else 0) * (d ^ 2 * (userP2 C.P2a j k * s j * s k))) := by
    intro j k; rw [nudge_single, nudge_single]; ring
  have s1 : ∀ f : Fin p → ℝ, ∑ j : Fin p, (if j = g then (1 : ℝ) else 0) * f j = f g := fun f => by simp
  simp only [e1, e2, Finset.sum_add_distrib, ← Finset.mul_sum, s1]
  have e3 : ∑ k : Fin p, (userP2 C.P2a g k + userP2 C.P2a k g) / 2 * (b k * s k)
      = 1 / 2 * (∑ k : Fin p, userP2 C.P2a g k * (b k * s k) + ∑ k : Fin p, userP2 C.P2a k g * (b k * s k)) := by
    rw [← Finset.sum_add_distrib, Finset.mul_sum]; exact Finset.sum_congr rfl fun k _ => by ring
  rw [e3]
  ring

theorem nudge_within (lb ub : Option (ℕ → ℝ)) (g : ℕ) (d : ℝ) (b : ℕ → ℝ) (hb : WithinBounds p lb ub b) (hd : WithinBounds p lb ub (nudge g d b)) (t : ℝ) (h0 : 0 ≤ t) (h1 : t ≤ 1) :
    WithinBounds p lb ub (nudge g (t * d) b) := by
  intro k hk
  have e : nudge g (t * d) b k = (1 - t) * b k + t * nudge g d b k := by unfold nudge; split <;> ring
  rw [e]
  refine ⟨fun l hl => ?_, fun u hu => ?_⟩
  · have a1 := (hb k hk).1 l hl
    have a2 := (hd k hk).1 l hl
    nlinarith [mul_le_mul_of_nonneg_left a2 h0, mul_le_mul_of_nonneg_left a1 (show 0 ≤ 1 - t by linarith)]
  · have a1 := (hb k hk).2 u hu
    have a2 := (hd k hk).2 u hu
    nlinarith [mul_le_mul_of_nonneg_left a2 h0, mul_le_mul_of_nonneg_left a1 (show 0 ≤ 1 - t by linarith)]

/-- **C127, estimating equation of a feature.** At a point where feature `g`'s coefficient is optimal up to `ε`: for every change `d` the bounds allow, the residuals'
correlation with the column, less the pull of the ridge penalty, times `d` is at most the change of the L1 penalty plus `ε |d|`. -/
theorem c127_equation (C : FitCfg p ic) (R : Rows n) (s : ℕ → ℝ) (a l1r : ℝ) (hC : ConvexFit C R l1r) (ha : 0 ≤ a) (g : Fin p) (ε b0 : ℝ) (b : ℕ → ℝ)
    (hb : WithinBounds p C.lb C.ub b) (ho : CoordOptimal p C.lb C.ub (fitObjective p C.e50 C.family C.link R s C.P1a C.P2a a l1r) ε b0 b g)
    (d : ℝ) (hd : WithinBounds p C.lb C.ub (nudge g d b)) :
    d * (∑ r, R.X r g * scoreResidual C R b0 b r - ridgePull p C.P2a s a l1r b g) ≤ a * l1r * (userP1 C.P1a g * |s g|) * (|b g + d| - |b g|) + ε * |d| := by
  set T := ∑ r, R.X r g * scoreResidual C R b0 b r with hT
  set c := a * (1 - l1r) / 2 * (userP2 C.P2a g g * s g ^ 2) with hc
  set lam := a * l1r * (userP1 C.P1a g * |s g|) with hlam
  have hlam0 : 0 ≤ lam := mul_nonneg (mul_nonneg ha hC.l1.1) (mul_nonneg (hC.p1 _) (abs_nonneg _))
  set rp := ridgePull p C.P2a s a l1r b g with hrp
  have hder : HasDerivAt (fun t : ℝ => 1 / 2 * ∑ r, rowLoss C R r (rowEta p R b0 b r + t * d * R.X r g) + (t * d * rp + (t * d) ^ 2 * c)) (-(d * T) + d * rp) 0 := by
    have h1 : ∀ r, HasDerivAt (fun t : ℝ => rowLoss C R r (rowEta p R b0 b r + t * d * R.X r g)) (-2 * scoreResidual C R b0 b r * (d * R.X r g)) 0 := by
      intro r
      have hl := rowLoss_hasDeriv C R l1r hC r (rowEta p R b0 b r + 0 * d * R.X r g)
      have hi : HasDerivAt (fun t : ℝ => rowEta p R b0 b r + t * d * R.X r g) (1 * d * R.X r g) 0 :=
        (((hasDerivAt_id (0 : ℝ)).mul_const d).mul_const _).const_add _
      have := HasDerivAt.comp (0 : ℝ) hl hi
      rw [zero_mul, zero_mul, add_zero, rowSlope_residual, one_mul] at this
      exact this
    have h2 := (HasDerivAt.fun_sum fun r (_ : r ∈ Finset.univ) => h1 r).const_mul (1 / 2 : ℝ)
    have h3 : HasDerivAt (fun t : ℝ => t * d * rp + (t * d) ^ 2 * c) (1 * d * rp + 2 * (0 * d) ^ 1 * (1 * d) * c) 0 :=
      (((hasDerivAt_id (0 : ℝ)).mul_const d).mul_const rp).fun_add ((((hasDerivAt_id (0 : ℝ)).mul_const d).fun_pow 2).mul_const c)
    refine (h2.fun_add h3).congr_deriv ?_
    have : ∑ r, -2 * scoreResidual C R b0 b r * (d * R.X r g) = -2 * (d * T) := by
      rw [hT, Finset.mul_sum, Finset.mul_sum]
      exact Finset.sum_congr rfl fun r _ => by ring
    rw [this]
    ring
  have key := deriv_ge_of_right _ _ (-(lam * (|b g + d| - |b g|) + ε * |d|)) hder fun t h0 h1 => by
    have m := ho (t * d) (nudge_within C.lb C.ub g d b hb hd t h0.le h1)
    rw [objective_loss_penalty, objective_loss_penalty, nudge_penalty] at m
    simp only [nudge_eta] at m
    rw [← hlam, ← hrp, ← hc, abs_mul, abs_of_pos h0] at m
    have hconv : |b g + t * d| ≤ (1 - t) * |b g| + t * |b g + d| := by
      have e : b g + t * d = (1 - t) * b g + t * (b g + d) := by ring
      rw [e]
      refine (abs_add_le _ _).trans ?_
      rw [abs_mul, abs_mul, abs_of_pos h0, abs_of_nonneg (show 0 ≤ 1 - t by linarith)]
    have hl := mul_le_mul_of_nonneg_left (show |b g + t * d| - |b g| ≤ t * (|b g + d| - |b g|) by linarith) hlam0
    simp only [zero_mul, add_zero, mul_zero, zero_pow two_ne_zero]
    linarith
  linarith

/-- Solutions are coordinate-wise optimal. -/
theorem solves_coord (C : FitCfg p ic) (F : ℝ → (ℕ → ℝ) → ℝ) (b0 : ℝ) (b : ℕ → ℝ) (h : Solves p ic C.lb C.ub F b0 b) (g : ℕ) : CoordOptimal p C.lb C.ub F 0 b0 b g := fun d hd => by
  have := h.2.2 b0 (nudge g d b) h.1 hd
  rw [zero_mul, add_zero]
  exact this

/-- So are, up to `gradient_tol` times the larger of the column's scale and mean, the rows of a fit without ConvergenceWarning. -/
theorem c127_fit_optimal (next : (ℕ → BitVec 32) → ℕ → (ℕ → BitVec 32)) (inner : (ℕ → BitVec 32) → (m : ℕ) → Inner m p ic) (C : FitCfg p ic) (stats : Stats)
    (R : Rows n) (l1r : ℝ) (h : ConvexFit C R l1r) (hs : ∀ j, 0 ≤ (stats n R.X R.sw).2 j) (hstep : C.stepTol = none) (A : AlphaSpec) (s s' : SolverLog) (r : PathResult)
    (hfit : glmFit C stats (irlsSolver next inner) R l1r A s = some (s', r)) (ha : ∀ x ∈ r.alphas, 0 ≤ x) (hw : s'.convWarn = s.convWarn)
    (q : ℕ) (hq : q < r.alphas.length) (hc : q < r.coefPath.length) (hb : q < r.interceptPath.length) (g : Fin p) :
    CoordOptimal p C.lb C.ub (fitObjective p C.e50 C.family C.link R (penScale C.thr C.asIfScaled (stats n R.X R.sw).2) C.P1a C.P2a r.alphas[q] l1r)
      (C.gradTol * max (colScale C.thr (stats n R.X R.sw).2 g) |(stats n R.X R.sw).1 g|) r.interceptPath[q] r.coefPath[q] g := by
  intro d hd
  obtain ⟨-, -, -, -, hmain⟩ := c75_no_warning_near_optimal next inner C stats R l1r h hs hstep A s s' r hfit ha hw
  have hint : ic = false → r.interceptPath[q] = 0 := fun hf => rows_intercept_zero next inner C stats R l1r h hs hstep A s s' r hfit ha hw q hq hc hb hf
  set M := max (colScale C.thr (stats n R.X R.sw).2 g) |(stats n R.X R.sw).1 g| with hM
  have hM0 : 0 ≤ M := le_max_of_le_right (abs_nonneg _)
  have := hmain q hq hc hb r.interceptPath[q] (nudge g d r.coefPath[q]) hint hd (M * |d|) (mul_nonneg hM0 (abs_nonneg _)) ⟨fun k hk => ?_, fun _ => ?_⟩
  · linarith
  · by_cases hkg : k = g
    · subst hkg
      have e : nudge g d r.coefPath[q] g - r.coefPath[q] g = d := by unfold nudge; rw [if_pos rfl]; ring
      rw [e, mul_comm]
      exact mul_le_mul_of_nonneg_right (le_max_left _ _) (abs_nonneg _)
    · have e : nudge g d r.coefPath[q] k - r.coefPath[q] k = 0 := by unfold nudge; rw [if_neg hkg, sub_self]
      rw [e, abs_zero, zero_mul]
      exact mul_nonneg hM0 (abs_nonneg _)
  · have e : ∑ k : Fin p, (stats n R.X R.sw).1 k * nudge g d r.coefPath[q] k = ∑ k : Fin p, (stats n R.X R.sw).1 k * r.coefPath[q] k + (stats n R.X R.sw).1 g * d := by
      simp only [nudge_single g d, mul_add, Finset.sum_add_distrib]
      congr 1
      rw [Fintype.sum_eq_single g fun k hk => by rw [if_neg hk]; ring, if_pos rfl]; ring
    rw [e]
    have e2 : r.interceptPath[q] + (∑ k : Fin p, (stats n R.X R.sw).1 k * r.coefPath[q] k + (stats n R.X R.sw).1 g * d)
        - (r.interceptPath[q] + ∑ k : Fin p, (stats n R.X R.sw).1 k * r.coefPath[q] k) = (stats n R.X R.sw).1 g * d := by ring
    rw [e2, abs_mul]
    exact mul_le_mul_of_nonneg_right (le_max_right _ _) (abs_nonneg _)

/-! ### Segments -/

/-- The inverse link of a compiled pair increases strictly, with a positive derivative. -/
theorem inverse_pos (f : Family) (l : Link) (k : Fast) (hk : f.fast l = some k) (e : ℝ) : 0 < l.inverseDerivative e := by
  cases l with
  | identity => exact one_pos
  | log => exact Real.exp_pos e
  | logit => exact mul_pos (expit_pos e) (by linarith [expit_lt_one e])
  | cloglog => cases f <;> simp [Family.fast] at hk
  | tweedie q => cases f <;> simp [Family.fast] at hk

theorem trueMean_strictMono (e50 : ℝ) (f : Family) (l : Link) (k : Fast) (hk : f.fast l = some k) : StrictMono (trueMean e50 f l) :=
  strictMono_of_deriv_pos fun e => by rw [(trueMean_hasDeriv e50 f l k hk e).1.deriv]; exact inverse_pos f l k hk e

/-- The residuals of a segment add up to its weight times the difference of its mean and its prediction, times `h'(eta)/V(mu)`. -/
theorem segment_residual (C : FitCfg p ic) (R : Rows n) (l1r : ℝ) (hC : ConvexFit C R l1r) (G : Finset (Fin n)) (g : Fin p) (hG : Segment p R G g)
    (hW : 0 < segWeight R G) (q : Fin n) (hq : q ∈ G) (hqw : R.sw q ≠ 0) (b0 : ℝ) (b : ℕ → ℝ) :
    ∑ r, R.X r g * scoreResidual C R b0 b r = segWeight R G * ((segMean R G - trueMean C.e50 C.family C.link (rowEta p R b0 b q)) *
      (C.link.inverseDerivative (rowEta p R b0 b q) / C.family.unitVariance (trueMean C.e50 C.family C.link (rowEta p R b0 b q)))) := by
  set e := rowEta p R b0 b q with he
  have heta : ∀ r ∈ G, R.sw r ≠ 0 → etaAt p R b0 b r = e := fun r hr hw => by
    obtain ⟨h1, h2⟩ := hG.same r hr q hq hw hqw
    rw [he]
    unfold etaAt rowEta
    rw [h2]
    congr 2
    exact Finset.sum_congr rfl fun k _ => by rw [h1 k k.2]
  have hsum : ∑ r, R.X r g * scoreResidual C R b0 b r = ∑ r ∈ G, R.sw r * ((R.y r - trueMean C.e50 C.family C.link e) *
      (C.link.inverseDerivative e / C.family.unitVariance (trueMean C.e50 C.family C.link e))) := by
    rw [← Finset.sum_subset (Finset.subset_univ G) fun r _ hr => ?_]
    · refine Finset.sum_congr rfl fun r hr => ?_
      unfold scoreResidual
      by_cases hw : R.sw r = 0
      · rw [hw]; ring
      · rw [hG.inside r hr hw, heta r hr hw, one_mul]
    · by_cases hw : R.sw r = 0
      · unfold scoreResidual; rw [hw]; ring
      · rw [hG.outside r hr hw, zero_mul]
  rw [hsum]
  set K := C.link.inverseDerivative e / C.family.unitVariance (trueMean C.e50 C.family C.link e)
  set m := trueMean C.e50 C.family C.link e
  have e1 : ∑ r ∈ G, R.sw r * ((R.y r - m) * K) = (∑ r ∈ G, R.sw r * R.y r - (∑ r ∈ G, R.sw r) * m) * K := by
    rw [sub_mul, Finset.sum_mul, Finset.sum_mul, Finset.sum_mul, ← Finset.sum_sub_distrib]
    exact Finset.sum_congr rfl fun r _ => by ring
  rw [e1]
  unfold segMean
  unfold segWeight at *
  field_simp

/-- The factor `h'(eta)/V(mu)` is positive. -/
theorem factor_pos (C : FitCfg p ic) (R : Rows n) (l1r : ℝ) (hC : ConvexFit C R l1r) (e : ℝ) :
    0 < C.link.inverseDerivative e / C.family.unitVariance (trueMean C.e50 C.family C.link e) := by
  obtain ⟨k, hk, -⟩ := hC.pair
  exact div_pos (inverse_pos _ _ k hk e) (unitVariance_pos _ hC.valid (trueMean_hasDeriv C.e50 C.family C.link k hk e).2)

theorem own_pull (P2a : P2Arg) (s : ℕ → ℝ) (a l1r : ℝ) (b : ℕ → ℝ) (g : Fin p) (h : OwnRidge p P2a g) : ridgePull p P2a s a l1r b g = a * (1 - l1r) * (userP2 P2a g g * s g ^ 2) * b g := by
  unfold ridgePull
  rw [Fintype.sum_eq_single g fun k hk => by obtain ⟨h1, h2⟩ := h k k.2 (fun e => hk (Fin.ext e)); rw [h1, h2]; ring]
  ring

theorem own_diag_nonneg (C : FitCfg p ic) (R : Rows n) (l1r : ℝ) (hC : ConvexFit C R l1r) (g : Fin p) : 0 ≤ userP2 C.P2a g g := by
  have := hC.p2 fun k => if k = g then 1 else 0
  simpa using this

/-- **C127, credibility.** For the convex pairs, any alpha and l1_ratio, bounds that allow 0: the coefficient of a segment's indicator moves its prediction from the one without the
coefficient towards the segment's own mean, and never past it. -/
theorem c127_between (C : FitCfg p ic) (R : Rows n) (s : ℕ → ℝ) (a l1r : ℝ) (hC : ConvexFit C R l1r) (ha : 0 ≤ a) (G : Finset (Fin n)) (g : Fin p) (hG : Segment p R G g)
    (hW : 0 < segWeight R G) (q : Fin n) (hq : q ∈ G) (hqw : R.sw q ≠ 0) (hown : OwnRidge p C.P2a g)
    (b0 : ℝ) (b : ℕ → ℝ) (hb : Solves p ic C.lb C.ub (fitObjective p C.e50 C.family C.link R s C.P1a C.P2a a l1r) b0 b)
    (hzero : WithinBounds p C.lb C.ub (nudge g (-b g) b)) :
    (0 < b g → trueMean C.e50 C.family C.link (rowEta p R b0 b q - b g) < trueMean C.e50 C.family C.link (rowEta p R b0 b q) ∧
      trueMean C.e50 C.family C.link (rowEta p R b0 b q) ≤ segMean R G) ∧
    (b g < 0 → trueMean C.e50 C.family C.link (rowEta p R b0 b q) < trueMean C.e50 C.family C.link (rowEta p R b0 b q - b g) ∧
      segMean R G ≤ trueMean C.e50 C.family C.link (rowEta p R b0 b q)) := by
  obtain ⟨k, hk, -⟩ := hC.pair
  have hmono := trueMean_strictMono C.e50 C.family C.link k hk
  have key := c127_equation C R s a l1r hC ha g 0 b0 b hb.2.1 (solves_coord C _ b0 b hb g) (-b g) hzero
  rw [segment_residual C R l1r hC G g hG hW q hq hqw, own_pull C.P2a s a l1r b g hown, add_neg_cancel, abs_zero, zero_mul, add_zero] at key
  have hf := factor_pos C R l1r hC (rowEta p R b0 b q)
  set K := C.link.inverseDerivative (rowEta p R b0 b q) / C.family.unitVariance (trueMean C.e50 C.family C.link (rowEta p R b0 b q))
  set m := trueMean C.e50 C.family C.link (rowEta p R b0 b q)
  have hl : 0 ≤ a * l1r * (userP1 C.P1a g * |s g|) * |b g| := mul_nonneg (mul_nonneg (mul_nonneg ha hC.l1.1) (mul_nonneg (hC.p1 _) (abs_nonneg _))) (abs_nonneg _)
  have hr : 0 ≤ a * (1 - l1r) * (userP2 C.P2a g g * s g ^ 2) * b g ^ 2 :=
    mul_nonneg (mul_nonneg (mul_nonneg ha (by linarith [hC.l1.2])) (mul_nonneg (own_diag_nonneg C R l1r hC g) (sq_nonneg _))) (sq_nonneg _)
  have hkey : 0 ≤ b g * (segMean R G - m) * (segWeight R G * K) := by nlinarith
  have hpos : 0 ≤ b g * (segMean R G - m) := by
    by_contra hn
    push Not at hn
    have := mul_neg_of_neg_of_pos hn (mul_pos hW hf)
    linarith
  refine ⟨fun h => ⟨hmono (by linarith), ?_⟩, fun h => ⟨hmono (by linarith), ?_⟩⟩
  · have := (mul_nonneg_iff_of_pos_left h).1 hpos
    linarith
  · by_contra hn
    push Not at hn
    nlinarith

/-- **C127, no penalty.** Where nothing is penalised and no bound is active the prediction of a segment is its own mean; at a point optimal up to `ε` the difference, times `h'/V`, is at
most `ε` over the segment's weight. -/
theorem c127_segment_mean (C : FitCfg p ic) (R : Rows n) (s : ℕ → ℝ) (a l1r : ℝ) (hC : ConvexFit C R l1r) (ha : 0 ≤ a) (G : Finset (Fin n)) (g : Fin p) (hG : Segment p R G g)
    (hW : 0 < segWeight R G) (q : Fin n) (hq : q ∈ G) (hqw : R.sw q ≠ 0) (hfree : a = 0 ∨ (userP1 C.P1a g = 0 ∧ userP2 C.P2a g g = 0 ∧ OwnRidge p C.P2a g))
    (ε b0 : ℝ) (b : ℕ → ℝ) (hb : WithinBounds p C.lb C.ub b) (ho : CoordOptimal p C.lb C.ub (fitObjective p C.e50 C.family C.link R s C.P1a C.P2a a l1r) ε b0 b g)
    (δ : ℝ) (hδ : 0 < δ) (hup : WithinBounds p C.lb C.ub (nudge g δ b)) (hdn : WithinBounds p C.lb C.ub (nudge g (-δ) b)) :
    |segMean R G - trueMean C.e50 C.family C.link (rowEta p R b0 b q)| *
      (C.link.inverseDerivative (rowEta p R b0 b q) / C.family.unitVariance (trueMean C.e50 C.family C.link (rowEta p R b0 b q))) ≤ ε / segWeight R G := by
  have hl : a * l1r * (userP1 C.P1a g * |s g|) = 0 := by
    rcases hfree with h | ⟨h, -⟩
    · rw [h]; ring
    · rw [h]; ring
  have hr : ridgePull p C.P2a s a l1r b g = 0 := by
    rcases hfree with h | ⟨-, h, h'⟩
    · unfold ridgePull; rw [h]; ring
    · rw [own_pull _ _ _ _ _ _ h', h]; ring
  have k1 := c127_equation C R s a l1r hC ha g ε b0 b hb ho δ hup
  have k2 := c127_equation C R s a l1r hC ha g ε b0 b hb ho (-δ) hdn
  rw [segment_residual C R l1r hC G g hG hW q hq hqw, hl, hr, zero_mul, zero_add, sub_zero] at k1 k2
  rw [abs_neg] at k2
  rw [abs_of_pos hδ] at k1 k2
  have hf := factor_pos C R l1r hC (rowEta p R b0 b q)
  set K := C.link.inverseDerivative (rowEta p R b0 b q) / C.family.unitVariance (trueMean C.e50 C.family C.link (rowEta p R b0 b q))
  set m := trueMean C.e50 C.family C.link (rowEta p R b0 b q)
  have eabs : |segMean R G - m| * K * segWeight R G = |segWeight R G * ((segMean R G - m) * K)| := by
    rw [abs_mul, abs_mul, abs_of_pos hW, abs_of_pos hf]; ring
  rw [le_div_iff₀ hW, eabs, abs_le]
  constructor
  · refine le_of_mul_le_mul_right ?_ hδ
    linarith
  · refine le_of_mul_le_mul_right ?_ hδ
    linarith

/-- **C127, least squares.** With identity link and a pure ridge penalty the prediction of a segment is the credibility-weighted average of its own mean and the prediction without
its coefficient, with weight `W / (W + k)`, `k` the segment's ridge penalty. -/
theorem c127_credibility_formula (C : FitCfg p ic) (R : Rows n) (s : ℕ → ℝ) (a : ℝ) (hC : ConvexFit C R 0) (hfam : C.family = .normal) (hlink : C.link = .identity) (ha : 0 ≤ a)
    (hlb : C.lb = none) (hub : C.ub = none) (G : Finset (Fin n)) (g : Fin p) (hG : Segment p R G g) (hW : 0 < segWeight R G) (q : Fin n) (hq : q ∈ G) (hqw : R.sw q ≠ 0)
    (hown : OwnRidge p C.P2a g) (b0 : ℝ) (b : ℕ → ℝ) (hb : Solves p ic C.lb C.ub (fitObjective p C.e50 C.family C.link R s C.P1a C.P2a a 0) b0 b) :
    rowEta p R b0 b q = segWeight R G / (segWeight R G + a * (userP2 C.P2a g g * s g ^ 2)) * segMean R G
      + (1 - segWeight R G / (segWeight R G + a * (userP2 C.P2a g g * s g ^ 2))) * (rowEta p R b0 b q - b g) := by
  have hany : ∀ d, WithinBounds p C.lb C.ub (nudge g d b) := fun d k _ => ⟨(fun l hl => by rw [hlb] at hl; cases hl), (fun u hu => by rw [hub] at hu; cases hu)⟩
  have k1 := c127_equation C R s a 0 hC ha g 0 b0 b hb.2.1 (solves_coord C _ b0 b hb g) 1 (hany 1)
  have k2 := c127_equation C R s a 0 hC ha g 0 b0 b hb.2.1 (solves_coord C _ b0 b hb g) (-1) (hany (-1))
  have hcan : Canonical C.family C.link := by rw [hfam, hlink]; exact Canonical.normal
  rw [segment_residual C R 0 hC G g hG hW q hq hqw, own_pull C.P2a s a 0 b g hown, canonical_factor C.e50 hcan] at k1 k2
  have hm : trueMean C.e50 C.family C.link (rowEta p R b0 b q) = rowEta p R b0 b q := by rw [hlink]; exact trueMean_identity _ _ _
  rw [hm] at k1 k2
  have hk : 0 ≤ a * (userP2 C.P2a g g * s g ^ 2) := mul_nonneg ha (mul_nonneg (own_diag_nonneg C R 0 hC g) (sq_nonneg _))
  set k := a * (userP2 C.P2a g g * s g ^ 2) with hkd
  have e : segWeight R G * (segMean R G - rowEta p R b0 b q) = k * b g := by
    simp only [mul_zero, zero_mul, sub_zero, mul_one, one_mul, zero_add, neg_mul] at k1 k2
    rw [hkd]
    linarith
  have hsum : segWeight R G + k ≠ 0 := by positivity
  field_simp
  linarith

/-- The statistics of an indicator are at most one. -/
theorem segment_stats (C : FitCfg p ic) (R : Rows n) (l1r : ℝ) (hC : ConvexFit C R l1r) (stats : Stats) (hst : TrueStats stats) (hsum : ∑ r, R.sw r = 1) (G : Finset (Fin n)) (g : Fin p)
    (hG : Segment p R G g) : max (colScale C.thr (stats n R.X R.sw).2 g) |(stats n R.X R.sw).1 g| ≤ 1 := by
  have hmean : (stats n R.X R.sw).1 g = ∑ r ∈ G, R.sw r := by
    rw [(hst _ _ _ g).1, ← Finset.sum_subset (Finset.subset_univ G) fun r _ hr => ?_]
    · refine Finset.sum_congr rfl fun r hr => ?_
      by_cases hw : R.sw r = 0
      · rw [hw]; ring
      · rw [hG.inside r hr hw, mul_one]
    · by_cases hw : R.sw r = 0
      · rw [hw]; ring
      · rw [hG.outside r hr hw, mul_zero]
  have h0 : 0 ≤ (stats n R.X R.sw).1 g := by rw [hmean]; exact Finset.sum_nonneg fun r _ => hC.sw r
  have h1 : (stats n R.X R.sw).1 g ≤ 1 := by
    rw [hmean, ← hsum]; exact Finset.sum_le_sum_of_subset_of_nonneg (Finset.subset_univ _) fun r _ _ => hC.sw r
  refine max_le ?_ (by rw [abs_of_nonneg h0]; exact h1)
  unfold colScale
  split
  · exact le_rfl
  · rw [(hst _ _ _ g).2, ← (hst _ _ _ g).1]
    refine Real.sqrt_le_one.2 ?_
    rw [← hsum]
    refine Finset.sum_le_sum fun r _ => ?_
    by_cases hw : R.sw r = 0
    · rw [hw]; simp
    · refine mul_le_of_le_one_right (hC.sw r) ?_
      set m := (stats n R.X R.sw).1 g
      by_cases hr : r ∈ G
      · rw [hG.inside r hr hw]; nlinarith
      · rw [hG.outside r hr hw]; nlinarith

/-- **C127, fits.** A fit (any IRLS solver) without ConvergenceWarning, at `alpha = 0` and without bounds: the prediction of a segment differs from the segment's own mean by at most
`gradient_tol` over the segment's share of the total weight (for canonical links; times `V(mu)/h'(eta)` in general). -/
theorem c127_fit_mean (next : (ℕ → BitVec 32) → ℕ → (ℕ → BitVec 32)) (inner : (ℕ → BitVec 32) → (m : ℕ) → Inner m p ic) (C : FitCfg p ic) (stats : Stats) (hst : TrueStats stats)
    (R : Rows n) (hsum : ∑ r, R.sw r = 1) (l1r : ℝ) (h : ConvexFit C R l1r) (hlb : C.lb = none) (hub : C.ub = none) (hstep : C.stepTol = none)
    (A : AlphaSpec) (s s' : SolverLog) (r : PathResult)
    (hfit : glmFit C stats (irlsSolver next inner) R l1r A s = some (s', r)) (ha : ∀ x ∈ r.alphas, 0 ≤ x) (hw : s'.convWarn = s.convWarn)
    (i : ℕ) (hi : i < r.alphas.length) (hc : i < r.coefPath.length) (hb : i < r.interceptPath.length) (hfree : r.alphas[i] = 0)
    (G : Finset (Fin n)) (g : Fin p) (hG : Segment p R G g) (hW : 0 < segWeight R G) (q : Fin n) (hq : q ∈ G) (hqw : R.sw q ≠ 0) :
    |segMean R G - trueMean C.e50 C.family C.link (rowEta p R r.interceptPath[i] r.coefPath[i] q)| *
      (C.link.inverseDerivative (rowEta p R r.interceptPath[i] r.coefPath[i] q) /
        C.family.unitVariance (trueMean C.e50 C.family C.link (rowEta p R r.interceptPath[i] r.coefPath[i] q))) ≤ C.gradTol / segWeight R G ∧
    (Canonical C.family C.link → |segMean R G - trueMean C.e50 C.family C.link (rowEta p R r.interceptPath[i] r.coefPath[i] q)| ≤ C.gradTol / segWeight R G) := by
  have hs0 : ∀ j, 0 ≤ (stats n R.X R.sw).2 j := fun j => by rw [(hst _ _ _ j).2]; exact Real.sqrt_nonneg _
  have hany : ∀ b, WithinBounds p C.lb C.ub b := fun b k _ => ⟨(fun l hl => by rw [hlb] at hl; cases hl), (fun u hu => by rw [hub] at hu; cases hu)⟩
  have ho := c127_fit_optimal next inner C stats R l1r h hs0 hstep A s s' r hfit ha hw i hi hc hb g
  have k := c127_segment_mean C R (penScale C.thr C.asIfScaled (stats n R.X R.sw).2) r.alphas[i] l1r h (ha _ (List.getElem_mem hi)) G g hG hW q hq hqw (Or.inl hfree) _ _ _
    (hany _) ho 1 one_pos (hany _) (hany _)
  have hgt : 0 ≤ C.gradTol := by
    obtain ⟨-, -, -, -, hmain⟩ := c75_no_warning_near_optimal next inner C stats R l1r h hs0 hstep A s s' r hfit ha hw
    have := hmain i hi hc hb r.interceptPath[i] r.coefPath[i]
      (fun hf => rows_intercept_zero next inner C stats R l1r h hs0 hstep A s s' r hfit ha hw i hi hc hb hf) (hany _) 1 zero_le_one
      ⟨fun k _ => by rw [sub_self, abs_zero, zero_mul]; exact zero_le_one, fun _ => by rw [sub_self, abs_zero]; exact zero_le_one⟩
    linarith
  have hM := segment_stats C R l1r h stats hst hsum G g hG
  have hle := k.trans (div_le_div_of_nonneg_right (mul_le_of_le_one_right hgt hM) hW.le)
  refine ⟨hle, fun hcan => ?_⟩
  rw [canonical_factor C.e50 hcan, mul_one] at hle
  exact hle

/-- The gamma family with log link: the relative error of the segment's prediction. -/
theorem c127_fit_gamma (next : (ℕ → BitVec 32) → ℕ → (ℕ → BitVec 32)) (inner : (ℕ → BitVec 32) → (m : ℕ) → Inner m p ic) (C : FitCfg p ic) (hfam : C.family = .gamma) (hlink : C.link = .log)
    (stats : Stats) (hst : TrueStats stats) (R : Rows n) (hsum : ∑ r, R.sw r = 1) (l1r : ℝ) (h : ConvexFit C R l1r) (hlb : C.lb = none) (hub : C.ub = none) (hstep : C.stepTol = none)
    (A : AlphaSpec) (s s' : SolverLog) (r : PathResult)
    (hfit : glmFit C stats (irlsSolver next inner) R l1r A s = some (s', r)) (ha : ∀ x ∈ r.alphas, 0 ≤ x) (hw : s'.convWarn = s.convWarn)
    (i : ℕ) (hi : i < r.alphas.length) (hc : i < r.coefPath.length) (hb : i < r.interceptPath.length) (hfree : r.alphas[i] = 0)
    (G : Finset (Fin n)) (g : Fin p) (hG : Segment p R G g) (hW : 0 < segWeight R G) (q : Fin n) (hq : q ∈ G) (hqw : R.sw q ≠ 0) :
    |segMean R G / Real.exp (rowEta p R r.interceptPath[i] r.coefPath[i] q) - 1| ≤ C.gradTol / segWeight R G := by
  refine le_trans (le_of_eq ?_) (c127_fit_mean next inner C stats hst R hsum l1r h hlb hub hstep A s s' r hfit ha hw i hi hc hb hfree G g hG hW q hq hqw).1
  rw [hfam, hlink, trueMean_log]
  set e := Real.exp (rowEta p R r.interceptPath[i] r.coefPath[i] q)
  have he : 0 < e := Real.exp_pos _
  show _ = |segMean R G - e| * (e / e ^ 2)
  have : segMean R G / e - 1 = (segMean R G - e) * (e / e ^ 2) := by field_simp
  rw [this, abs_mul, abs_of_pos (show 0 < e / e ^ 2 by positivity)]

/-! ### The hypotheses are met -/

/-- Row 0 of `levelRows` is a segment with indicator 0. -/
theorem level_segment : Segment 1 levelRows {(0 : Fin 2)} 0 ∧ 0 < segWeight levelRows {(0 : Fin 2)} ∧ segMean levelRows {(0 : Fin 2)} = levelRows.y 0 := by
  refine ⟨⟨fun r hr _ => ?_, fun r hr _ => ?_, fun r hr q hq _ _ => ?_⟩, ?_, ?_⟩
  · rw [Finset.mem_singleton] at hr; subst hr; simp [levelRows]
  · rw [Finset.mem_singleton] at hr
    have : r.val ≠ 0 := fun e => hr (Fin.ext e)
    simp [levelRows, this]
  · rw [Finset.mem_singleton] at hr hq; subst hr; subst hq; exact ⟨fun _ _ => rfl, rfl⟩
  · simp [segWeight, levelRows, tinyRows]
  · norm_num [segMean, levelRows, tinyRows]

theorem level_convex : ConvexFit (tinyCfg 5 5) levelRows 0 := ⟨(tiny_convex 5 5).thr, (tiny_convex 5 5).valid, (tiny_convex 5 5).pair, (tiny_convex 5 5).y, (tiny_convex 5 5).sw,
  (tiny_convex 5 5).p1, (tiny_convex 5 5).p2, (tiny_convex 5 5).l1⟩

/-- The ridge fit on two segments: there is a solution, and the first segment's prediction is the credibility average. -/
example (a : ℝ) (ha : 0 < a) : ∃ (b0 : ℝ) (b : ℕ → ℝ),
    Solves 1 true (tinyCfg 5 5).lb (tinyCfg 5 5).ub (fitObjective 1 (tinyCfg 5 5).e50 (tinyCfg 5 5).family (tinyCfg 5 5).link levelRows
      (penScale (tinyCfg 5 5).thr (tinyCfg 5 5).asIfScaled fun _ => 1) (tinyCfg 5 5).P1a (tinyCfg 5 5).P2a a 0) b0 b ∧
    b0 + b 0 = (1 / 2) / (1 / 2 + a) * levelRows.y 0 + (1 - (1 / 2) / (1 / 2 + a)) * b0 := by
  have hreg : RegularFit (tinyCfg 5 5) levelRows 0 a := ⟨(tiny_regular a ha).weights, ha, one_pos, one_posdef, (tiny_regular a ha).start, (tiny_regular a ha).room⟩
  obtain ⟨b0, b, hb, -⟩ := c90_unique_solution (tinyCfg 5 5) levelRows 0 a level_convex hreg fun _ => 1
  obtain ⟨h1, h2, h3⟩ := level_segment
  refine ⟨b0, b, hb, ?_⟩
  have := c127_credibility_formula (tinyCfg 5 5) levelRows _ a level_convex rfl rfl ha.le rfl rfl {0} 0 h1 h2 0 (by simp) (by norm_num [levelRows, tinyRows])
    (fun k hk hne => absurd (Nat.lt_one_iff.1 hk) hne) b0 b hb
  have e1 : rowEta 1 levelRows b0 b 0 = b0 + b 0 := by simp [rowEta, levelRows, tinyRows]; ring
  have e2 : userP2 (tinyCfg 5 5).P2a ((0 : Fin 1) : ℕ) ((0 : Fin 1) : ℕ) * penScale (tinyCfg 5 5).thr (tinyCfg 5 5).asIfScaled (fun _ => 1) ((0 : Fin 1) : ℕ) ^ 2 = 1 := by
    norm_num [tinyCfg, userP2, penScale]
  have e3 : segWeight levelRows {(0 : Fin 2)} = 1 / 2 := by norm_num [segWeight, levelRows, tinyRows]
  rw [e1, e2, e3, h3, mul_one] at this
  rw [this]
  simp

/-- The weighted means and standard deviations of the columns. -/
noncomputable def levelStats : Stats := fun _ X w => (fun j => ∑ i, w i * X i j, fun j => Real.sqrt (∑ i, w i * (X i j - ∑ k, w k * X k j) ^ 2))

/-- Least squares (`alpha = 0`) on the two segments ends without warning and predicts the first segment's own mean, 3, up to twice `gradient_tol`. -/
example (next : (ℕ → BitVec 32) → ℕ → (ℕ → BitVec 32)) (s : SolverLog) :
    ∃ s' r, glmFit ((tinyCfg 5 5).forSolver .irlsLs) levelStats (irlsSolver next fun _ _ => lsInner invSolve) levelRows 0 (.single 0) s = some (s', r) ∧
      ∀ (hc : 0 < r.coefPath.length) (hb : 0 < r.interceptPath.length), |3 - (r.interceptPath[0] + r.coefPath[0] 0)| ≤ 2 / 10000 := by
  have hst : TrueStats levelStats := fun _ _ _ _ => ⟨rfl, rfl⟩
  have hs0 : ∀ j, 0 ≤ (levelStats 2 levelRows.X levelRows.sw).2 j := fun j => Real.sqrt_nonneg _
  have hg2 : guessIntercept .normal .identity levelRows.y levelRows.sw .none = some 2 := by
    unfold guessIntercept
    rw [if_neg (by simp)]
    simp [average, levelRows, tinyRows]
    norm_num
  have hs : startGuess ((tinyCfg 5 5).forSolver .irlsLs) levelRows = some 2 := hg2
  obtain ⟨Q, hQ⟩ : ∃ Q, prepare ((tinyCfg 5 5).forSolver .irlsLs) levelStats levelRows 0 = some Q := by
    unfold prepare
    rw [hs]
    exact ⟨_, rfl⟩
  obtain ⟨r, hr, -⟩ := glmFit_single ((tinyCfg 5 5).forSolver .irlsLs) levelStats (irlsSolver next fun _ _ => lsInner invSolve) levelRows 0 0 s Q hQ
    (by rintro ⟨l, u, h, -⟩; cases h) (fun _ => rfl)
  have hw := (c76_fit_ls next invSolve invSolve_spec (tinyCfg 5 5) levelStats levelRows 0 level_convex rfl rfl hs0
    (by simp [levelRows, tinyRows]) rfl rfl rfl (by norm_num [tinyCfg]) (by norm_num [tinyCfg]) (fun j => zero_mul _) 0 le_rfl
    (by
      intro b0 b _ h _
      have h0 := h 0
      have h1 := h 1
      simp [levelRows, tinyRows] at h0 h1
      refine ⟨by linarith, fun j hj => ?_⟩
      have : j = 0 := by omega
      subst this; linarith)
    (by
      intro b0 b h i
      have ht : ∀ e, trueMean 0 .normal .identity e = e := fun _ => rfl
      have hd : ∀ y m, Family.unitDeviance .normal y m = (y - m) ^ 2 := fun _ _ => rfl
      have hc : coldIntercept true levelRows = 2 := by simp [coldIntercept, levelRows, tinyRows]; norm_num
      have hobj : ∀ (b0 : ℝ) (b : ℕ → ℝ), fitObjective 1 0 .normal .identity levelRows
          (penScale (tinyCfg 5 5).thr (tinyCfg 5 5).asIfScaled (levelStats 2 levelRows.X levelRows.sw).2) .none .none 0 0 b0 b
          = 1 / 4 * ((3 - (b 0 + b0)) ^ 2 + (1 - b0) ^ 2) := by
        intro b0 b
        unfold fitObjective
        simp [ht, hd, levelRows, tinyRows]
        ring
      rw [hc] at h
      have h := (hobj b0 b).symm.le.trans (h.trans (hobj 2 (fun _ => 0)).le)
      have hlt : ∀ x y : ℝ, (y - x) ^ 2 ≤ 2 → y ≤ 3 → x < 10 ^ 43 := by
        intro x y h1 h2
        have : x - y ≤ 2 := by nlinarith
        linarith [show (5 : ℝ) < 10 ^ 43 by norm_num]
      have hx : ∑ j : Fin 1, levelRows.X i j * b j + b0 + (levelRows.off.getD fun _ => 0) i = if i = 0 then b 0 + b0 else b0 := by
        fin_cases i <;> simp [levelRows, tinyRows]
      rw [hx]
      show _ < (10 : ℝ) ^ 43
      split
      · exact hlt _ 3 (by nlinarith [sq_nonneg (1 - b0)]) le_rfl
      · exact hlt _ 1 (by nlinarith [sq_nonneg (3 - (b 0 + b0))]) (by norm_num))
    s _ r hr).1
  refine ⟨_, r, hr, fun hc hb => ?_⟩
  have hal : r.alphas = [0] := by
    obtain ⟨Q, -, hal, -⟩ := glmFit_spec _ _ _ _ _ _ _ _ _ hr
    simpa [AlphaSpec.eval] using hal.symm
  have hi : 0 < r.alphas.length := by rw [hal]; simp
  have h0 : r.alphas[0] = 0 := by simp only [hal]; rfl
  obtain ⟨h1, h2, h3⟩ := level_segment
  have hcv : ConvexFit ((tinyCfg 5 5).forSolver .irlsLs) levelRows 0 := ⟨level_convex.thr, level_convex.valid, level_convex.pair, level_convex.y, level_convex.sw, level_convex.p1,
    level_convex.p2, level_convex.l1⟩
  have key := (c127_fit_mean next (fun _ _ => lsInner invSolve) ((tinyCfg 5 5).forSolver .irlsLs) levelStats hst levelRows (by simp [levelRows, tinyRows]) 0 hcv rfl rfl rfl (.single 0) s _ r hr
    (by intro x hx; rw [hal] at hx; simp at hx; rw [hx]) hw 0 hi hc hb h0 {0} (0 : Fin 1) h1 h2 0 (by simp) (by norm_num [levelRows, tinyRows])).2 Canonical.normal
  have e1 : trueMean ((tinyCfg 5 5).forSolver .irlsLs).e50 ((tinyCfg 5 5).forSolver .irlsLs).family ((tinyCfg 5 5).forSolver .irlsLs).link
      (rowEta 1 levelRows r.interceptPath[0] r.coefPath[0] 0) = r.interceptPath[0] + r.coefPath[0] 0 := by
    show rowEta 1 levelRows r.interceptPath[0] r.coefPath[0] 0 = _
    simp [rowEta, levelRows, tinyRows]; ring
  have e3 : segWeight levelRows {(0 : Fin 2)} = 1 / 2 := by norm_num [segWeight, levelRows, tinyRows]
  have e4 : levelRows.y 0 = 3 := by norm_num [levelRows, tinyRows]
  have e5 : ((tinyCfg 5 5).forSolver .irlsLs).gradTol = 1 / 10000 := rfl
  rw [e1, h3, e3, e4, e5] at key
  norm_num at key ⊢
  exact key

end Glum
