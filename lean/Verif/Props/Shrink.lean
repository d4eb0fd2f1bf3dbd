import Verif.Props.Target
/-
C91: a larger `alpha` means a smaller penalty and a worse fit to the data.
-/
set_option linter.unusedSectionVars false
set_option linter.unusedVariables false
set_option linter.unusedSimpArgs false

namespace Glum
open Spec

variable {n p : ℕ} {ic : Bool}

/-- Half the deviance of intercept `b0` and coefficients `b` on the data. -/
noncomputable def Spec.halfDeviance (p : ℕ) (e50 : ℝ) (f : Family) (l : Link) (R : Rows n) (b0 : ℝ) (b : ℕ → ℝ) : ℝ :=
  1 / 2 * ∑ i, R.sw i * f.unitDeviance (R.y i) (trueMean e50 f l (∑ j : Fin p, R.X i j * b j + b0 + (R.off.getD fun _ => 0) i))

/-- The elastic-net penalty at strength one. -/
noncomputable def Spec.enetPenalty (p : ℕ) (s : ℕ → ℝ) (P1a : P1Arg) (P2a : P2Arg) (l1r : ℝ) (b : ℕ → ℝ) : ℝ :=
  l1r * ∑ j : Fin p, userP1 P1a j * |b j * s j| + (1 - l1r) * (1 / 2 * ∑ j : Fin p, ∑ k : Fin p, userP2 P2a j k * (b j * s j) * (b k * s k))

theorem fitObjective_split (e50 : ℝ) (f : Family) (l : Link) (R : Rows n) (s : ℕ → ℝ) (P1a : P1Arg) (P2a : P2Arg) (a l1r b0 : ℝ) (b : ℕ → ℝ) :
    fitObjective p e50 f l R s P1a P2a a l1r b0 b = halfDeviance p e50 f l R b0 b + a * enetPenalty p s P1a P2a l1r b := by
  unfold fitObjective halfDeviance enetPenalty
  ring

theorem stdClose_symm (thr : ℝ) (means stds : ℕ → ℝ) (B b0 : ℝ) (b : ℕ → ℝ) (c0 : ℝ) (c : ℕ → ℝ) (h : StdClose p ic thr means stds B b0 b c0 c) :
    StdClose p ic thr means stds B c0 c b0 b :=
  ⟨fun j hj => by rw [abs_sub_comm]; exact h.1 j hj, fun hi => by rw [abs_sub_comm]; exact h.2 hi⟩

/-- Two nearly optimal points for two strengths of the penalty. -/
theorem trade (L P : ℝ → (ℕ → ℝ) → ℝ) (a a' t t' : ℝ) (ha : 0 ≤ a) (haa : a < a') (b0 c0 : ℝ) (b c : ℕ → ℝ)
    (h : L b0 b + a * P b0 b ≤ L c0 c + a * P c0 c + t) (h' : L c0 c + a' * P c0 c ≤ L b0 b + a' * P b0 b + t') :
    P c0 c ≤ P b0 b + (t + t') / (a' - a) ∧ L b0 b ≤ L c0 c + t + a * ((t + t') / (a' - a)) := by
  have hd : 0 < a' - a := by linarith
  have h1 : P c0 c - P b0 b ≤ (t + t') / (a' - a) := by
    rw [le_div_iff₀ hd]
    nlinarith
  refine ⟨by linarith, ?_⟩
  have := mul_le_mul_of_nonneg_left h1 ha
  linarith

/-- **C91, exact.** The solutions for two strengths `a < a'`: the penalty of the second is not larger, its deviance not smaller. -/
theorem c91_solutions (C : FitCfg p ic) (R : Rows n) (s : ℕ → ℝ) (l1r a a' : ℝ) (ha : 0 ≤ a) (haa : a < a') (b0 c0 : ℝ) (b c : ℕ → ℝ)
    (h : Solves p ic C.lb C.ub (fitObjective p C.e50 C.family C.link R s C.P1a C.P2a a l1r) b0 b)
    (h' : Solves p ic C.lb C.ub (fitObjective p C.e50 C.family C.link R s C.P1a C.P2a a' l1r) c0 c) :
    enetPenalty p s C.P1a C.P2a l1r c ≤ enetPenalty p s C.P1a C.P2a l1r b ∧
    halfDeviance p C.e50 C.family C.link R b0 b ≤ halfDeviance p C.e50 C.family C.link R c0 c := by
  have h1 := h.2.2 c0 c h'.1 h'.2.1
  have h2 := h'.2.2 b0 b h.1 h.2.1
  rw [fitObjective_split, fitObjective_split] at h1 h2
  have := trade (halfDeviance p C.e50 C.family C.link R) (fun _ b => enetPenalty p s C.P1a C.P2a l1r b) a a' 0 0 ha haa b0 c0 b c
    (by linarith) (by linarith)
  simpa using this

/-- **C91.** Two rows, of one regularisation path or of two fits of the same problem, with strengths `a < a'`, neither fit having raised a
`ConvergenceWarning`: the penalty at the larger strength is not larger and the deviance not smaller, up to the gradient tolerances times the distance
of the two solutions on the standardised scale. -/
theorem c91_path_shrinks (next next' : (ℕ → BitVec 32) → ℕ → (ℕ → BitVec 32))
    (inner inner' : (ℕ → BitVec 32) → (m : ℕ) → Inner m p ic) (C C' : FitCfg p ic) (hC : SameProblem C C') (stats : Stats) (R : Rows n)
    (l1r : ℝ) (h : ConvexFit C R l1r) (hs : ∀ j, 0 ≤ (stats n R.X R.sw).2 j) (hstep : C.stepTol = none) (hstep' : C'.stepTol = none)
    (sp sp' : AlphaSpec) (s t s' t' : SolverLog) (r r' : PathResult)
    (hfit : glmFit C stats (irlsSolver next inner) R l1r sp s = some (t, r)) (ha : ∀ x ∈ r.alphas, 0 ≤ x) (hw : t.convWarn = s.convWarn)
    (hfit' : glmFit C' stats (irlsSolver next' inner') R l1r sp' s' = some (t', r')) (ha' : ∀ x ∈ r'.alphas, 0 ≤ x) (hw' : t'.convWarn = s'.convWarn)
    (i i' : ℕ) (hi : i < r.alphas.length) (hc : i < r.coefPath.length) (hb : i < r.interceptPath.length)
    (hi' : i' < r'.alphas.length) (hc' : i' < r'.coefPath.length) (hb' : i' < r'.interceptPath.length)
    (hlt : r.alphas[i] < r'.alphas[i'])
    (hin : WithinBounds p C.lb C.ub r.coefPath[i]) (hin' : WithinBounds p C.lb C.ub r'.coefPath[i']) (B : ℝ) (hB : 0 ≤ B)
    (hclose : StdClose p ic C.thr (stats n R.X R.sw).1 (stats n R.X R.sw).2 B r.interceptPath[i] r.coefPath[i] r'.interceptPath[i'] r'.coefPath[i']) :
    enetPenalty p (penScale C.thr C.asIfScaled (stats n R.X R.sw).2) C.P1a C.P2a l1r r'.coefPath[i']
      ≤ enetPenalty p (penScale C.thr C.asIfScaled (stats n R.X R.sw).2) C.P1a C.P2a l1r r.coefPath[i]
        + (C.gradTol + C'.gradTol) * B / (r'.alphas[i'] - r.alphas[i]) ∧
    halfDeviance p C.e50 C.family C.link R r.interceptPath[i] r.coefPath[i]
      ≤ halfDeviance p C.e50 C.family C.link R r'.interceptPath[i'] r'.coefPath[i'] + C.gradTol * B
        + r.alphas[i] * ((C.gradTol + C'.gradTol) * B / (r'.alphas[i'] - r.alphas[i])) := by
  have h' : ConvexFit C' R l1r := by
    refine ⟨hC.thr ▸ h.thr, hC.family ▸ h.valid, ?_, ?_, h.sw, ?_, ?_, h.l1⟩
    · rw [hC.family, hC.link]; exact h.pair
    · rw [hC.family]; exact h.y
    · rw [hC.P1]; exact h.p1
    · rw [hC.P2]; exact h.p2
  obtain ⟨-, -, -, -, hopt⟩ := c75_no_warning_near_optimal next inner C stats R l1r h hs hstep sp s t r hfit ha hw
  obtain ⟨-, -, -, -, hopt'⟩ := c75_no_warning_near_optimal next' inner' C' stats R l1r h' hs hstep' sp' s' t' r' hfit' ha' hw'
  have z1 := rows_intercept_zero next inner C stats R l1r h hs hstep sp s t r hfit ha hw i hi hc hb
  have z2 := rows_intercept_zero next' inner' C' stats R l1r h' hs hstep' sp' s' t' r' hfit' ha' hw' i' hi' hc' hb'
  have o1 := hopt i hi hc hb _ _ z2 hin' B hB (stdClose_symm _ _ _ _ _ _ _ _ hclose)
  have o2 := hopt' i' hi' hc' hb' _ _ z1 (by rw [hC.lb, hC.ub]; exact hin) B hB (by rw [hC.thr]; exact hclose)
  rw [hC.e50, hC.family, hC.link, hC.thr, hC.scaled, hC.P1, hC.P2] at o2
  rw [fitObjective_split, fitObjective_split] at o1 o2
  have := trade (halfDeviance p C.e50 C.family C.link R) (fun _ b => enetPenalty p (penScale C.thr C.asIfScaled (stats n R.X R.sw).2) C.P1a C.P2a l1r b)
    r.alphas[i] r'.alphas[i'] (C.gradTol * B) (C'.gradTol * B) (ha _ (List.getElem_mem hi)) hlt _ _ _ _ o1 o2
  rw [← add_mul] at this
  exact this

/-- **C91, size.** The penalty of a row of a fit without `ConvergenceWarning` is at most the deviance of any model with all coefficients zero, divided by
the strength (up to the tolerance times the distance): the coefficients vanish as `alpha` grows. -/
theorem c91_size (next : (ℕ → BitVec 32) → ℕ → (ℕ → BitVec 32)) (inner : (ℕ → BitVec 32) → (m : ℕ) → Inner m p ic) (C : FitCfg p ic) (stats : Stats) (R : Rows n)
    (l1r : ℝ) (h : ConvexFit C R l1r) (hs : ∀ j, 0 ≤ (stats n R.X R.sw).2 j) (hstep : C.stepTol = none) (sp : AlphaSpec) (s t : SolverLog) (r : PathResult)
    (hfit : glmFit C stats (irlsSolver next inner) R l1r sp s = some (t, r)) (ha : ∀ x ∈ r.alphas, 0 ≤ x) (hw : t.convWarn = s.convWarn)
    (i : ℕ) (hi : i < r.alphas.length) (hc : i < r.coefPath.length) (hb : i < r.interceptPath.length) (hzero : WithinBounds p C.lb C.ub fun _ => 0)
    (g : ℝ) (hg : ic = false → g = 0) (B : ℝ) (hB : 0 ≤ B)
    (hclose : StdClose p ic C.thr (stats n R.X R.sw).1 (stats n R.X R.sw).2 B g (fun _ => 0) r.interceptPath[i] r.coefPath[i]) :
    r.alphas[i] * enetPenalty p (penScale C.thr C.asIfScaled (stats n R.X R.sw).2) C.P1a C.P2a l1r r.coefPath[i]
      ≤ halfDeviance p C.e50 C.family C.link R g (fun _ => 0) + C.gradTol * B := by
  obtain ⟨-, -, -, -, hopt⟩ := c75_no_warning_near_optimal next inner C stats R l1r h hs hstep sp s t r hfit ha hw
  have o1 := hopt i hi hc hb _ _ hg hzero B hB hclose
  rw [fitObjective_split, fitObjective_split] at o1
  have h0 : enetPenalty p (penScale C.thr C.asIfScaled (stats n R.X R.sw).2) C.P1a C.P2a l1r (fun _ => 0) = 0 := by simp [enetPenalty]
  have h1 : 0 ≤ halfDeviance p C.e50 C.family C.link R r.interceptPath[i] r.coefPath[i] := by
    unfold halfDeviance
    refine mul_nonneg (by norm_num) (Finset.sum_nonneg fun k _ => ?_)
    exact rowLoss_nonneg C R l1r h k _
  rw [h0] at o1
  linarith

/-- Ridge regression on the two rows with strengths one and two, each fit without a warning: the second has the smaller penalty up to `B / 5000`, where `B` is
the distance of the two solutions. -/
example (next : (ℕ → BitVec 32) → ℕ → (ℕ → BitVec 32)) (s : SolverLog) : ∃ t r t' r' B,
    glmFit (({ tinyCfg 5 5 with gradTol := 1 / 10000 } : FitCfg 1 true).forSolver .irlsLs) tinyStats (irlsSolver next fun _ _ => lsInner invSolve) tinyRows 0 (.single 1) s
      = some (t, r) ∧
    glmFit (({ tinyCfg 5 5 with gradTol := 1 / 10000 } : FitCfg 1 true).forSolver .irlsLs) tinyStats (irlsSolver next fun _ _ => lsInner invSolve) tinyRows 0 (.single 2) s
      = some (t', r') ∧
    ∀ (hc : 0 < r.coefPath.length) (hb : 0 < r.interceptPath.length) (hc' : 0 < r'.coefPath.length) (hb' : 0 < r'.interceptPath.length),
      StdClose 1 true (1 / 10 ^ 6) (fun _ => 0) (fun _ => 1) B r.interceptPath[0] r.coefPath[0] r'.interceptPath[0] r'.coefPath[0] ∧
      1 / 2 * r'.coefPath[0] 0 ^ 2 ≤ 1 / 2 * r.coefPath[0] 0 ^ 2 + B / 5000 := by
  obtain ⟨t, r, h, hw, hal, hl1, hl2⟩ := tiny_ls_gen next s (1 / 10000) (by norm_num) 1 le_rfl
  obtain ⟨t', r', h', hw', hal', hl1', hl2'⟩ := tiny_ls_gen next s (1 / 10000) (by norm_num) 2 (by norm_num)
  obtain ⟨B, hB, hcl, -⟩ := stdClose_max (p := 1) (ic := true) (1 / 10 ^ 6) (fun _ => 0) (fun _ => 1) (r.interceptPath[0]'(by omega)) (r.coefPath[0]'(by omega))
    (r'.interceptPath[0]'(by omega)) (r'.coefPath[0]'(by omega))
  refine ⟨t, r, t', r', B, h, h', fun hc hb hc' hb' => ⟨hcl, ?_⟩⟩
  have hcv := tiny_convex 5 5
  have key := c91_path_shrinks next next (fun _ _ => lsInner invSolve) (fun _ _ => lsInner invSolve)
    (({ tinyCfg 5 5 with gradTol := 1 / 10000 } : FitCfg 1 true).forSolver .irlsLs) (({ tinyCfg 5 5 with gradTol := 1 / 10000 } : FitCfg 1 true).forSolver .irlsLs)
    ⟨rfl, rfl, rfl, rfl, rfl, rfl, rfl, rfl, rfl⟩ tinyStats tinyRows 0 ⟨hcv.thr, hcv.valid, hcv.pair, hcv.y, hcv.sw, hcv.p1, hcv.p2, hcv.l1⟩
    (fun _ => zero_le_one) rfl rfl (.single 1) (.single 2) s t s t' r r' h (by rw [hal]; simp) hw h' (by rw [hal']; simp) hw' 0 0 (by rw [hal]; simp) hc hb
    (by rw [hal']; simp) hc' hb' (by simp [hal, hal']) (fun j _ => ⟨fun l hl => (by cases hl), fun u hu => (by cases hu)⟩)
    (fun j _ => ⟨fun l hl => (by cases hl), fun u hu => (by cases hu)⟩) B hB hcl
  have k1 := key.1
  have hg : (({ tinyCfg 5 5 with gradTol := 1 / 10000 } : FitCfg 1 true).forSolver .irlsLs).gradTol = 1 / 10000 := rfl
  have hp : (({ tinyCfg 5 5 with gradTol := 1 / 10000 } : FitCfg 1 true).forSolver .irlsLs).P2a = .none := rfl
  have hps : ∀ (c : ℕ → ℝ), c 0 * penScale (({ tinyCfg 5 5 with gradTol := 1 / 10000 } : FitCfg 1 true).forSolver .irlsLs).thr
      (({ tinyCfg 5 5 with gradTol := 1 / 10000 } : FitCfg 1 true).forSolver .irlsLs).asIfScaled (tinyStats 2 tinyRows.X tinyRows.sw).2 0 = c 0 :=
    fun c => mul_one _
  rw [hg, hp] at k1
  simp only [hal, hal', List.getElem_cons_zero, enetPenalty, userP2, zero_mul, zero_add, sub_zero, one_mul, Finset.univ_unique, Fin.default_eq_zero,
    Finset.sum_singleton, Fin.val_zero, if_true] at k1
  rw [hps, hps] at k1
  have e : ((1 : ℝ) / 10000 + 1 / 10000) * B / (2 - 1) = B / 5000 := by ring
  rw [e] at k1
  nlinarith

end Glum
