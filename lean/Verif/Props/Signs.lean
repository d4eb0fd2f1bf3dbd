import Verif.Props.Collinear
/-
C141: several solutions of one problem never disagree about the sign of a penalised coefficient.
The fits are those of Model/Fit (src/glum/_glm.py: fit, _solve, _solve_regularization_path; src/glum/_solvers.py: _irls_solver, _cd_solver).
-/
set_option linter.unusedSectionVars false
set_option linter.unusedVariables false
set_option linter.unusedSimpArgs false

namespace Glum
open Spec

variable {n p : ℕ} {ic : Bool}

/-- The midpoint of two solutions is a solution. -/
theorem solution_midpoint (C : FitCfg p ic) (R : Rows n) (l1r a : ℝ) (h : ConvexFit C R l1r) (ha : 0 ≤ a) (s : ℕ → ℝ) (b0 c0 : ℝ) (b c : ℕ → ℝ)
    (hb : Solves p ic C.lb C.ub (fitObjective p C.e50 C.family C.link R s C.P1a C.P2a a l1r) b0 b)
    (hc : Solves p ic C.lb C.ub (fitObjective p C.e50 C.family C.link R s C.P1a C.P2a a l1r) c0 c) :
    Solves p ic C.lb C.ub (fitObjective p C.e50 C.family C.link R s C.P1a C.P2a a l1r) ((b0 + c0) / 2) (fun j => (b j + c j) / 2) := by
  refine ⟨fun hi => by rw [hb.1 hi, hc.1 hi]; ring, fun j hj => ⟨fun l hl => ?_, fun u hu => ?_⟩, fun d0 d h1 h2 => ?_⟩
  · have e1 := (hb.2.1 j hj).1 l hl
    have e2 := (hc.2.1 j hj).1 l hl
    show l j ≤ (b j + c j) / 2
    linarith
  · have e1 := (hb.2.1 j hj).2 u hu
    have e2 := (hc.2.1 j hj).2 u hu
    show (b j + c j) / 2 ≤ u j
    linarith
  · have m := doc_midpoint C R l1r h s a ha b0 c0 b c
    have q : 0 ≤ a * (1 - l1r) * ∑ j : Fin p, ∑ k : Fin p, userP2 C.P2a j k * ((b j - c j) * s j) * ((b k - c k) * s k) :=
      mul_nonneg (mul_nonneg ha (by linarith [h.l1.2])) (h.p2 fun j => (b j - c j) * s j)
    have e1 := hb.2.2 d0 d h1 h2
    have e2 := hc.2.2 d0 d h1 h2
    linarith

/-- **C141.** Two solutions of a convex problem have no coefficient, under an L1 penalty, of opposite signs; and they differ only in directions that the ridge penalty does not see. -/
theorem c141_solutions (C : FitCfg p ic) (R : Rows n) (l1r a : ℝ) (h : ConvexFit C R l1r) (ha : 0 ≤ a) (s : ℕ → ℝ) (b0 c0 : ℝ) (b c : ℕ → ℝ)
    (hb : Solves p ic C.lb C.ub (fitObjective p C.e50 C.family C.link R s C.P1a C.P2a a l1r) b0 b)
    (hc : Solves p ic C.lb C.ub (fitObjective p C.e50 C.family C.link R s C.P1a C.P2a a l1r) c0 c) :
    (∀ j < p, 0 < a * l1r * userP1 C.P1a j * |s j| → 0 ≤ b j * c j) ∧
    a * (1 - l1r) * ∑ j : Fin p, ∑ k : Fin p, userP2 C.P2a j k * ((b j - c j) * s j) * ((b k - c k) * s k) = 0 := by
  have hm := solution_midpoint C R l1r a h ha s b0 c0 b c hb hc
  have p1 := (c124_predictions C R l1r a h ha s b0 c0 b c hb hc).2.2
  have p2 := (c124_predictions C R l1r a h ha s b0 _ b _ hb hm).2.2
  have q : 0 ≤ a * (1 - l1r) * ∑ j : Fin p, ∑ k : Fin p, userP2 C.P2a j k * ((b j - c j) * s j) * ((b k - c k) * s k) :=
    mul_nonneg (mul_nonneg ha (by linarith [h.l1.2])) (h.p2 fun j => (b j - c j) * s j)
  have hq : ∑ j : Fin p, ∑ k : Fin p, userP2 C.P2a j k * ((b j + c j) / 2 * s j) * ((b k + c k) / 2 * s k)
      = (∑ j : Fin p, ∑ k : Fin p, userP2 C.P2a j k * (b j * s j) * (b k * s k)
          + ∑ j : Fin p, ∑ k : Fin p, userP2 C.P2a j k * (c j * s j) * (c k * s k)) / 2
        - 1 / 4 * ∑ j : Fin p, ∑ k : Fin p, userP2 C.P2a j k * ((b j - c j) * s j) * ((b k - c k) * s k) := by
    rw [← Finset.sum_add_distrib, Finset.sum_div, Finset.mul_sum, ← Finset.sum_sub_distrib]
    refine Finset.sum_congr rfl fun j _ => ?_
    rw [← Finset.sum_add_distrib, Finset.sum_div, Finset.mul_sum, ← Finset.sum_sub_distrib]
    exact Finset.sum_congr rfl fun k _ => by ring
  have gap : ∀ j : ℕ, |(b j + c j) / 2 * s j| ≤ (|b j * s j| + |c j * s j|) / 2 := fun j => by
    have e : (b j + c j) / 2 * s j = (b j * s j + c j * s j) / 2 := by ring
    rw [e, abs_div, abs_of_pos (show (0 : ℝ) < 2 by norm_num)]
    exact div_le_div_of_nonneg_right (abs_add_le _ _) (by norm_num)
  have gl : ∀ j : ℕ, 0 ≤ a * l1r * (userP1 C.P1a j * ((|b j * s j| + |c j * s j|) / 2 - |(b j + c j) / 2 * s j|)) := fun j =>
    mul_nonneg (mul_nonneg ha h.l1.1) (mul_nonneg (h.p1 j) (by linarith [gap j]))
  have es : ∑ j : Fin p, a * l1r * (userP1 C.P1a j * ((|b j * s j| + |c j * s j|) / 2 - |(b j + c j) / 2 * s j|)) =
      a * l1r * ((∑ j : Fin p, userP1 C.P1a j * |b j * s j| + ∑ j : Fin p, userP1 C.P1a j * |c j * s j|) / 2 - ∑ j : Fin p, userP1 C.P1a j * |(b j + c j) / 2 * s j|) := by
    rw [← Finset.mul_sum, ← Finset.sum_add_distrib, Finset.sum_div, ← Finset.sum_sub_distrib]
    congr 1
    exact Finset.sum_congr rfl fun j _ => by ring
  have hs0 : 0 ≤ ∑ j : Fin p, a * l1r * (userP1 C.P1a j * ((|b j * s j| + |c j * s j|) / 2 - |(b j + c j) / 2 * s j|)) := Finset.sum_nonneg fun j _ => gl j
  have tot : ∑ j : Fin p, a * l1r * (userP1 C.P1a j * ((|b j * s j| + |c j * s j|) / 2 - |(b j + c j) / 2 * s j|))
      + 1 / 8 * (a * (1 - l1r) * ∑ j : Fin p, ∑ k : Fin p, userP2 C.P2a j k * ((b j - c j) * s j) * ((b k - c k) * s k)) = 0 := by
    rw [es]
    unfold penaltyOf at p1 p2
    rw [hq] at p2
    linarith
  refine ⟨fun j hj hpos => ?_, by linarith⟩
  have z := (Finset.sum_eq_zero_iff_of_nonneg fun (j : Fin p) _ => gl j).1 (by linarith : ∑ j : Fin p, a * l1r * (userP1 C.P1a j * ((|b j * s j| + |c j * s j|) / 2 - |(b j + c j) / 2 * s j|)) = 0)
    ⟨j, hj⟩ (Finset.mem_univ _)
  have f1 : |(b j + c j) / 2 * s j| = |b j + c j| / 2 * |s j| := by rw [abs_mul, abs_div, abs_of_pos (show (0 : ℝ) < 2 by norm_num)]
  have z' : a * l1r * userP1 C.P1a j * |s j| * ((|b j| + |c j|) - |b j + c j|) = 0 := by
    have z1 : a * l1r * (userP1 C.P1a j * ((|b j * s j| + |c j * s j|) / 2 - |(b j + c j) / 2 * s j|)) = 0 := z
    rw [f1, abs_mul, abs_mul] at z1
    linarith
  have z3 : |b j + c j| = |b j| + |c j| := by
    rcases mul_eq_zero.1 z' with hz | hz
    · exact absurd hz hpos.ne'
    · linarith
  have z4 := congrArg (· ^ 2) z3
  simp only [sq_abs, add_sq] at z4
  have : |b j| * |c j| = b j * c j := by linarith
  rw [← this]
  positivity

/-- **C141, the fits.** For every `eps` there is a tolerance below which no two fits, whatever their solvers, starts and settings, have a penalised coefficient beyond `eps` on opposite sides of zero. -/
theorem c141_fits (C : FitCfg p ic) (stats : Stats) (R : Rows n) (l1r a : ℝ) (h : ConvexFit C R l1r) (ha0 : 0 ≤ a)
    (hs : ∀ j, 0 ≤ (stats n R.X R.sw).2 j) (ht : TameSolutions C R (penScale C.thr C.asIfScaled (stats n R.X R.sw).2) a l1r)
    (b0 : ℝ) (b : ℕ → ℝ)
    (hsol : Solves p ic C.lb C.ub
      (fitObjective p C.e50 C.family C.link R (penScale C.thr C.asIfScaled (stats n R.X R.sw).2) C.P1a C.P2a a l1r) b0 b) (ε : ℝ) (hε : 0 < ε) :
    ∃ δ : ℝ, 0 < δ ∧ ∀ (next next' : (ℕ → BitVec 32) → ℕ → (ℕ → BitVec 32)) (inner inner' : (ℕ → BitVec 32) → (m : ℕ) → Inner m p ic) (C1 C2 : FitCfg p ic),
      SameProblem C C1 → SameProblem C C2 → C1.stepTol = none → C2.stepTol = none → C1.gradTol < δ → C2.gradTol < δ →
      ∀ (sp sp' : AlphaSpec) (s t s' t' : SolverLog) (r r' : PathResult),
        glmFit C1 stats (irlsSolver next inner) R l1r sp s = some (t, r) → glmFit C2 stats (irlsSolver next' inner') R l1r sp' s' = some (t', r') →
        (∀ x ∈ r.alphas, 0 ≤ x) → (∀ x ∈ r'.alphas, 0 ≤ x) → t.convWarn = s.convWarn → t'.convWarn = s'.convWarn →
        ∀ (i i' : ℕ) (hi : i < r.alphas.length) (hc : i < r.coefPath.length) (hb : i < r.interceptPath.length)
          (hi' : i' < r'.alphas.length) (hc' : i' < r'.coefPath.length) (hb' : i' < r'.interceptPath.length), r.alphas[i] = a → r'.alphas[i'] = a →
          WithinBounds p C.lb C.ub r.coefPath[i] → WithinBounds p C.lb C.ub r'.coefPath[i'] →
          ∀ j < p, 0 < a * l1r * userP1 C.P1a j * |penScale C.thr C.asIfScaled (stats n R.X R.sw).2 j| →
            ¬ (ε < r.coefPath[i] j ∧ r'.coefPath[i'] j < -ε) := by
  obtain ⟨δ, hδ, hfit⟩ := c124_fits C stats R l1r a h ha0 hs ht b0 b hsol ε hε
  refine ⟨δ, hδ, fun next next' inner inner' C1 C2 h1 h2 hs1 hs2 g1 g2 sp sp' s t s' t' r r' f1 f2 a1 a2 w1 w2 i i' hi hc hb hi' hc' hb' e1 e2 in1 in2 j hj hpos hcon => ?_⟩
  obtain ⟨c0, c, hcs, -, k1⟩ := hfit next inner C1 h1 hs1 g1 sp s t r f1 a1 w1 i hi hc hb e1 in1
  obtain ⟨d0, d, hds, -, k2⟩ := hfit next' inner' C2 h2 hs2 g2 sp' s' t' r' f2 a2 w2 i' hi' hc' hb' e2 in2
  have m := (c141_solutions C R l1r a h ha0 _ c0 d0 c d hcs hds).1 j hj hpos
  have b1 := abs_le.1 (k1 j hj)
  have b2 := abs_le.1 (k2 j hj)
  have : 0 < c j := by linarith [hcon.1]
  have : d j < 0 := by linarith [hcon.2]
  nlinarith

/-! ### A case -/

theorem twice_lasso_objective (b0 : ℝ) (b : ℕ → ℝ) : fitObjective 2 0 .normal .identity tinyRows (fun _ => 1) .none .none (1 / 2) 1 b0 b
    = 1 / 4 * ((3 - (b 0 + b 1 + b0)) ^ 2 + (1 - (-(b 0 + b 1) + b0)) ^ 2) + 1 / 2 * (|b 0| + |b 1|) := by
  have ht : ∀ e, trueMean 0 .normal .identity e = e := fun _ => rfl
  have hd : ∀ y m, Family.unitDeviance .normal y m = (y - m) ^ 2 := fun _ _ => rfl
  unfold fitObjective
  simp [ht, hd, userP1, tinyRows, Fin.sum_univ_two]
  ring

/-- The lasso of a column entered twice: every split of the slope 1/2 into two nonnegative parts is a solution, so there are several. -/
theorem twice_lasso_solves (t : ℝ) (h0 : 0 ≤ t) (h1 : t ≤ 1 / 2) :
    Solves 2 true none none (fitObjective 2 0 .normal .identity tinyRows (fun _ => 1) .none .none (1 / 2) 1) 2 (fun j => if j = 0 then t else 1 / 2 - t) := by
  refine ⟨(fun h => by cases h), fun j _ => ⟨(fun l hl => by cases hl), (fun u hu => by cases hu)⟩, fun c0 c _ _ => ?_⟩
  rw [twice_lasso_objective, twice_lasso_objective]
  simp only [if_true, one_ne_zero, if_false, abs_of_nonneg h0, abs_of_nonneg (show 0 ≤ 1 / 2 - t by linarith)]
  nlinarith [sq_nonneg (c 0 + c 1 - 1 / 2), sq_nonneg (c0 - 2), le_abs_self (c 0), le_abs_self (c 1)]

theorem twice_convex_lasso : ConvexFit twiceCfg tinyRows 1 where
  thr := twice_convex.thr
  valid := twice_convex.valid
  pair := twice_convex.pair
  y := twice_convex.y
  sw := twice_convex.sw
  p1 := twice_convex.p1
  p2 := twice_convex.p2
  l1 := ⟨zero_le_one, le_rfl⟩

/-- No solution of the lasso with the column entered twice has a negative coefficient. -/
theorem c141_twice (c0 : ℝ) (c : ℕ → ℝ)
    (hc : Solves 2 true none none (fitObjective 2 0 .normal .identity tinyRows (fun _ => 1) .none .none (1 / 2) 1) c0 c) : 0 ≤ c 0 ∧ 0 ≤ c 1 := by
  have hs := twice_lasso_solves (1 / 4) (by norm_num) (by norm_num)
  have k := (c141_solutions twiceCfg tinyRows 1 (1 / 2) twice_convex_lasso (by norm_num) (fun _ => 1) 2 c0 _ c hs hc).1
  have k0 := k 0 (by norm_num) (by norm_num [twiceCfg, userP1])
  have k1 := k 1 (by norm_num) (by norm_num [twiceCfg, userP1])
  norm_num at k0 k1
  exact ⟨k0, k1⟩

/-- The solutions of this lasso are bounded. -/
theorem c141_twice_tame : TameSolutions twiceCfg tinyRows (fun _ => 1) (1 / 2) 1 := by
  refine Or.inr ⟨2, fun c0 c hc => ?_⟩
  have hs := twice_lasso_solves (1 / 4) (by norm_num) (by norm_num)
  have k := (c124_predictions twiceCfg tinyRows 1 (1 / 2) twice_convex_lasso (by norm_num) (fun _ => 1) 2 c0 _ c hs hc).1
  have k0 := k 0 (by norm_num [tinyRows])
  have k1 := k 1 (by norm_num [tinyRows])
  obtain ⟨n0, n1⟩ := c141_twice c0 c hc
  simp [rowEta, tinyRows, Fin.sum_univ_two] at k0 k1
  norm_num at k0 k1
  refine ⟨abs_le.2 ⟨by linarith, by linarith⟩, fun j hj => ?_⟩
  interval_cases j
  · exact abs_le.2 ⟨by linarith, by linarith⟩
  · exact abs_le.2 ⟨by linarith, by linarith⟩

/-- **C141, the penalty is needed.** Without penalty the solutions with the column entered twice have coefficients of both signs. -/
theorem c141_unpenalised :
    ∃ b c : ℕ → ℝ, Solves 2 true none none (fitObjective 2 0 .normal .identity tinyRows (fun _ => 1) .none .none 0 0) 2 b ∧
      Solves 2 true none none (fitObjective 2 0 .normal .identity tinyRows (fun _ => 1) .none .none 0 0) 2 c ∧ b 0 * c 0 < 0 :=
  ⟨_, _, twice_solves 2 (fun _ => 1), twice_solves (-1) (fun _ => 1), by norm_num⟩

end Glum
