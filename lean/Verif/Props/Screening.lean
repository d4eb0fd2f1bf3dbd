import Verif.Props.KKT
/-
C140: columns that can be discarded before fitting (screening rules computed from the data).
The fits are those of Model/Fit (src/glum/_glm.py: fit; src/glum/_solvers.py: _irls_solver, _cd_solver).
-/
set_option linter.unusedSectionVars false
set_option linter.unusedVariables false
set_option linter.unusedSimpArgs false

namespace Glum
open Spec Topology

variable {n p : ℕ} {ic : Bool}

/-! ### Specification -/

/-- No ridge term couples column `j` with another one. -/
def Spec.Uncoupled (P2a : P2Arg) (p j : ℕ) : Prop := ∀ k < p, k ≠ j → userP2 P2a j k = 0 ∧ userP2 P2a k j = 0

/-! ### The rules -/

theorem ridge_diag (C : FitCfg p ic) (R : Rows n) (l1r : ℝ) (hC : ConvexFit C R l1r) (j : ℕ) (hj : j < p) : 0 ≤ userP2 C.P2a j j := by
  have := hC.p2 fun k => if k = ⟨j, hj⟩ then 1 else 0
  simpa using this

/-- **C140, zero coefficients.** At a solution, a column without ridge coupling whose score stays under its threshold has coefficient exactly zero, if zero is within its bounds. -/
theorem c140_zero (C : FitCfg p ic) (R : Rows n) (s : ℕ → ℝ) (a l1r : ℝ) (hC : ConvexFit C R l1r) (ha : 0 ≤ a) (b0 : ℝ) (b : ℕ → ℝ)
    (hsol : Solves p ic C.lb C.ub (fitObjective p C.e50 C.family C.link R s C.P1a C.P2a a l1r) b0 b) (j : ℕ) (hj : j < p) (h0 : Admits C.lb C.ub j 0) (hu : Uncoupled C.P2a p j)
    (hscore : |∑ r, scoreResidual C R b0 b r * R.X r j| < a * l1r * userP1 C.P1a j * |s j|) : b j = 0 := by
  have key := ((c138_solution C R s a l1r hC ha b0 b).1 hsol).coef j hj 0 h0
  have e : ∑ k : Fin p, (userP2 C.P2a j k + userP2 C.P2a k j) / 2 * (b k * s k) = userP2 C.P2a j j * (b j * s j) := by
    rw [Finset.sum_eq_single (⟨j, hj⟩ : Fin p)]
    · ring
    · intro k _ hk
      obtain ⟨h1, h2⟩ := hu k k.2 fun e => hk (Fin.ext e)
      rw [h1, h2]; ring
    · intro h; exact absurd (Finset.mem_univ _) h
  unfold netScore at key
  rw [e, abs_zero, zero_sub, zero_sub] at key
  have hr : 0 ≤ a * (1 - l1r) * (userP2 C.P2a j j * (b j * s j) ^ 2) :=
    mul_nonneg (mul_nonneg ha (by linarith [hC.l1.2])) (mul_nonneg (ridge_diag C R l1r hC j hj) (sq_nonneg _))
  by_contra hb
  have hpos := abs_pos.2 hb
  have h1 := (le_abs_self ((∑ r, scoreResidual C R b0 b r * R.X r j) * b j)).trans_eq (abs_mul _ _)
  have h2 := mul_lt_mul_of_pos_right hscore hpos
  nlinarith

/-- With an intercept the residuals sum to zero, so that a column's score does not change when it is shifted. -/
theorem score_shift (C : FitCfg p ic) (R : Rows n) (s : ℕ → ℝ) (a l1r : ℝ) (hC : ConvexFit C R l1r) (ha : 0 ≤ a) (b0 : ℝ) (b : ℕ → ℝ)
    (hsol : Solves p ic C.lb C.ub (fitObjective p C.e50 C.family C.link R s C.P1a C.P2a a l1r) b0 b) (j : ℕ) (m : ℝ) (hm : ic = false → m = 0) :
    ∑ r, scoreResidual C R b0 b r * R.X r j = ∑ r, scoreResidual C R b0 b r * (R.X r j - m) := by
  have hi := ((c138_solution C R s a l1r hC ha b0 b).1 hsol).intercept
  simp only [mul_sub, Finset.sum_sub_distrib, ← Finset.sum_mul]
  rcases Bool.eq_false_or_eq_true ic with h | h
  · rw [hi.1 h]; ring
  · rw [hm h]; ring

/-- **C140, logistic regression.** A column whose weighted L1 distance from a constant (zero, without intercept) is under its threshold has coefficient zero in every solution. -/
theorem c140_logistic (C : FitCfg p ic) (R : Rows n) (s : ℕ → ℝ) (a l1r : ℝ) (hC : ConvexFit C R l1r) (hfam : C.family = .binomial) (hlink : C.link = .logit) (ha : 0 ≤ a)
    (j : ℕ) (hj : j < p) (h0 : Admits C.lb C.ub j 0) (hu : Uncoupled C.P2a p j) (m : ℝ) (hm : ic = false → m = 0)
    (hrule : ∑ r, R.sw r * |R.X r j - m| < a * l1r * userP1 C.P1a j * |s j|) (b0 : ℝ) (b : ℕ → ℝ)
    (hsol : Solves p ic C.lb C.ub (fitObjective p C.e50 C.family C.link R s C.P1a C.P2a a l1r) b0 b) : b j = 0 := by
  refine c140_zero C R s a l1r hC ha b0 b hsol j hj h0 hu (lt_of_le_of_lt ?_ hrule)
  rw [score_shift C R s a l1r hC ha b0 b hsol j m hm]
  refine (Finset.abs_sum_le_sum_abs _ _).trans (Finset.sum_le_sum fun r _ => ?_)
  rw [abs_mul]
  refine mul_le_mul_of_nonneg_right ?_ (abs_nonneg _)
  have hcan : Canonical C.family C.link := by rw [hfam, hlink]; exact Canonical.binomial
  unfold scoreResidual
  rw [canonical_factor C.e50 hcan, mul_one, abs_mul, abs_of_nonneg (hC.sw r)]
  refine mul_le_of_le_one_right (hC.sw r) ?_
  have hmean : ∀ e, 0 < trueMean C.e50 C.family C.link e ∧ trueMean C.e50 C.family C.link e < 1 := by
    intro e
    have : trueMean C.e50 C.family C.link e = expit e := by rw [hfam, hlink]; rfl
    rw [this]
    unfold expit
    have := Real.exp_pos (-e)
    exact ⟨by positivity, by rw [div_lt_one (by positivity)]; linarith⟩
  have hy := hC.y r
  rw [hfam] at hy
  change 0 ≤ R.y r ∧ R.y r ≤ 1 at hy
  have := hmean (etaAt p R b0 b r)
  rw [abs_le]
  exact ⟨by linarith [hy.1], by linarith [hy.2]⟩

/-- **C140, least squares.** A column whose weighted distance from a constant `m`, times that of the response less the offset from a constant `c` (both zero, without intercept), is under its
threshold has coefficient zero in every solution. -/
theorem c140_least_squares (C : FitCfg p ic) (R : Rows n) (s : ℕ → ℝ) (a l1r : ℝ) (hC : ConvexFit C R l1r) (hfam : C.family = .normal) (hlink : C.link = .identity) (ha : 0 ≤ a)
    (hzero : WithinBounds p C.lb C.ub fun _ => 0) (j : ℕ) (hj : j < p) (hu : Uncoupled C.P2a p j) (m c : ℝ) (hm : ic = false → m = 0) (hc : ic = false → c = 0)
    (hrule : Real.sqrt (∑ r, R.sw r * (R.y r - (R.off.getD fun _ => 0) r - c) ^ 2) * Real.sqrt (∑ r, R.sw r * (R.X r j - m) ^ 2) < a * l1r * userP1 C.P1a j * |s j|)
    (b0 : ℝ) (b : ℕ → ℝ) (hsol : Solves p ic C.lb C.ub (fitObjective p C.e50 C.family C.link R s C.P1a C.P2a a l1r) b0 b) : b j = 0 := by
  refine c140_zero C R s a l1r hC ha b0 b hsol j hj (hzero j hj) hu (lt_of_le_of_lt ?_ hrule)
  rw [score_shift C R s a l1r hC ha b0 b hsol j m hm]
  have hcan : Canonical C.family C.link := by rw [hfam, hlink]; exact Canonical.normal
  have ht : ∀ e, trueMean C.e50 C.family C.link e = e := fun e => by rw [hlink]; exact trueMean_identity _ _ _
  have hres : ∀ r, scoreResidual C R b0 b r = R.sw r * (R.y r - rowEta p R b0 b r) := fun r => by
    unfold scoreResidual
    rw [canonical_factor C.e50 hcan, mul_one, ht]; rfl
  have hloss : ∀ r e, rowLoss C R r e = R.sw r * (R.y r - e) ^ 2 := fun r e => by
    unfold rowLoss; rw [ht, hfam]; rfl
  have hopt : ∑ r, R.sw r * (R.y r - rowEta p R b0 b r) ^ 2 ≤ ∑ r, R.sw r * (R.y r - (R.off.getD fun _ => 0) r - c) ^ 2 := by
    have h1 := hsol.2.2 c (fun _ => 0) hc hzero
    rw [objective_loss_penalty, objective_loss_penalty] at h1
    have h2 : 0 ≤ penaltyOf p s C.P1a C.P2a a l1r b := by
      unfold penaltyOf
      have q1 : 0 ≤ ∑ j : Fin p, userP1 C.P1a j * |b j * s j| := Finset.sum_nonneg fun k _ => mul_nonneg (hC.p1 k) (abs_nonneg _)
      have q2 := hC.p2 fun k => b k * s k
      have q3 := mul_nonneg (mul_nonneg ha hC.l1.1) q1
      have q4 : 0 ≤ a * (1 - l1r) * (1 / 2 * ∑ j : Fin p, ∑ k : Fin p, userP2 C.P2a j k * (b j * s j) * (b k * s k)) :=
        mul_nonneg (mul_nonneg ha (by linarith [hC.l1.2])) (mul_nonneg (by norm_num) (by simpa using q2))
      linarith
    have h3 : penaltyOf p s C.P1a C.P2a a l1r (fun _ => 0) = 0 := by unfold penaltyOf; simp
    have h4 : ∀ r, R.y r - rowEta p R c (fun _ => 0) r = R.y r - (R.off.getD fun _ => 0) r - c := fun r => by unfold rowEta; simp; ring
    simp only [hloss, h4] at h1
    rw [h3] at h1
    linarith
  rw [← Real.sqrt_mul (Finset.sum_nonneg fun r _ => mul_nonneg (hC.sw r) (sq_nonneg _))]
  refine Real.abs_le_sqrt ?_
  simp only [hres]
  have cs := Finset.sum_mul_sq_le_sq_mul_sq Finset.univ (fun r => Real.sqrt (R.sw r) * (R.y r - rowEta p R b0 b r)) (fun r => Real.sqrt (R.sw r) * (R.X r j - m))
  have e0 : ∀ r, Real.sqrt (R.sw r) * (R.y r - rowEta p R b0 b r) * (Real.sqrt (R.sw r) * (R.X r j - m)) = R.sw r * (R.y r - rowEta p R b0 b r) * (R.X r j - m) := fun r => by
    have := Real.mul_self_sqrt (hC.sw r)
    calc _ = (Real.sqrt (R.sw r) * Real.sqrt (R.sw r)) * ((R.y r - rowEta p R b0 b r) * (R.X r j - m)) := by ring
      _ = _ := by rw [this]; ring
  simp only [e0, mul_pow, Real.sq_sqrt (hC.sw _)] at cs
  exact cs.trans (mul_le_mul_of_nonneg_right hopt (Finset.sum_nonneg fun r _ => mul_nonneg (hC.sw r) (sq_nonneg _)))

/-- **C140, fits.** If the coefficient of a column is zero in every solution (one of the rules), then for every `ε` there is a tolerance below which it is at most `ε` on every fit of a problem
penalised as in C90, by any inner solver, from any start, on any path. -/
theorem c140_fits (C : FitCfg p ic) (stats : Stats) (R : Rows n) (l1r a : ℝ) (h : ConvexFit C R l1r) (hr : RegularFit C R l1r a) (hs : ∀ j, 0 ≤ (stats n R.X R.sw).2 j)
    (j : ℕ) (hj : j < p) (hrule : ∀ b0 b, Solves p ic C.lb C.ub (fitObjective p C.e50 C.family C.link R (penScale C.thr C.asIfScaled (stats n R.X R.sw).2) C.P1a C.P2a a l1r) b0 b →
      b j = 0) (ε : ℝ) (hε : 0 < ε) : ∃ δ : ℝ, 0 < δ ∧ EveryFit C stats R l1r a δ fun _ d => |d j| ≤ ε := by
  obtain ⟨b0, b, hb, -⟩ := c90_unique_solution C R l1r a h hr (stats n R.X R.sw).2
  exact c132_transfer C stats R l1r a h hs b0 b ⟨hb, Or.inl hr⟩ _ ⟨ε, hε, fun d0 d hd => by
    have := hd.2 j hj
    rwa [hrule b0 b hb, sub_zero] at this⟩

/-! ### The hypotheses are met -/

/-- Two groups with means 3 and 1: at strength 6 the rule discards the first column (norm of the response `√5`, of the column `√(1/2)`, threshold 3). -/
example (b0 : ℝ) (b : ℕ → ℝ)
    (hb : Solves 2 false codedCfg.lb codedCfg.ub (fitObjective 2 codedCfg.e50 codedCfg.family codedCfg.link codedRows (fun _ => 1) codedCfg.P1a codedCfg.P2a 6 (1 / 2)) b0 b) : b 0 = 0 := by
  refine c140_least_squares codedCfg codedRows (fun _ => 1) 6 (1 / 2) coded_elastic rfl rfl (by norm_num) (fun j _ => ⟨(fun l hl => by cases hl), (fun u hu => by cases hu)⟩) 0 (by norm_num)
    (fun k _ hk => ?_) 0 0 (fun _ => rfl) (fun _ => rfl) ?_ b0 b hb
  · simp [codedCfg, userP2, hk, Ne.symm hk]
  · have e1 : ∑ r, codedRows.sw r * (codedRows.y r - (codedRows.off.getD fun _ => 0) r - 0) ^ 2 = 5 := by
      simp [codedRows, tinyRows, Fin.sum_univ_two]; norm_num
    have e2 : ∑ r, codedRows.sw r * (codedRows.X r 0 - 0) ^ 2 = 1 / 2 := by
      simp [codedRows, tinyRows, Fin.sum_univ_two]
    rw [e1, e2, ← Real.sqrt_mul (by norm_num), Real.sqrt_lt' (by norm_num [codedCfg, userP1])]
    norm_num [codedCfg, userP1]

end Glum
