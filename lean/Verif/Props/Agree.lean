import Verif.Props.Balance
/-
C78: fits that raised no `ConvergenceWarning` agree, whatever solver, start, random numbers, path or tolerances led to them.
-/
set_option linter.unusedSectionVars false
set_option linter.unusedVariables false
set_option linter.unusedSimpArgs false

namespace Glum
open Spec

variable {n p : ℕ} {ic : Bool}

/-- The documented loss of one row as a function of its linear predictor is convex. -/
theorem doc_row_convex (C : FitCfg p ic) (R : Rows n) (l1r : ℝ) (h : ConvexFit C R l1r) (i : Fin n) :
    ConvexOn ℝ Set.univ fun e => R.sw i * C.family.unitDeviance (R.y i) (trueMean C.e50 C.family C.link e) := by
  obtain ⟨k, hk, hne⟩ := h.pair
  obtain ⟨c, hc⟩ := rowFam_dev C.e50 C.family h.valid C.link (R.y i) (h.y i)
  have hF : FastFit (C.problem R (fun _ => 0) (.vec fun _ => 0)) C.family C.link k := by
    refine ⟨h.valid, hk, ?_, h.y, h.sw⟩
    show rowFam C.e50 C.family C.link = _
    unfold rowFam
    rw [hk]
  have hcv := hF.convex hne i
  have h2 := (hcv.smul (show (0 : ℝ) ≤ 2 by norm_num)).add_const (R.sw i * c)
  have he : (fun e => R.sw i * C.family.unitDeviance (R.y i) (trueMean C.e50 C.family C.link e))
      = (fun e => (2 : ℝ) • (1 / 2 * (R.sw i * (rowFam C.e50 C.family C.link).dev (R.y i) e)) + R.sw i * c) := by
    funext e
    rw [hc e, smul_eq_mul]; ring
  rw [he]
  exact h2

theorem half_convex {f : ℝ → ℝ} (hf : ConvexOn ℝ Set.univ f) (x y : ℝ) : f ((x + y) / 2) ≤ (f x + f y) / 2 := by
  have := hf.2 (Set.mem_univ x) (Set.mem_univ y) (show (0 : ℝ) ≤ 1 / 2 by norm_num) (show (0 : ℝ) ≤ 1 / 2 by norm_num) (by norm_num)
  simp only [smul_eq_mul] at this
  have e : (1 / 2 : ℝ) * x + 1 / 2 * y = (x + y) / 2 := by ring
  rw [e] at this
  linarith

/-- The documented objective half-way between two solutions: better than the average by an eighth of the ridge penalty of the difference. -/
theorem doc_midpoint (C : FitCfg p ic) (R : Rows n) (l1r : ℝ) (h : ConvexFit C R l1r) (s : ℕ → ℝ) (a : ℝ) (ha : 0 ≤ a)
    (b0 c0 : ℝ) (b c : ℕ → ℝ) :
    fitObjective p C.e50 C.family C.link R s C.P1a C.P2a a l1r ((b0 + c0) / 2) (fun j => (b j + c j) / 2)
      ≤ (fitObjective p C.e50 C.family C.link R s C.P1a C.P2a a l1r b0 b + fitObjective p C.e50 C.family C.link R s C.P1a C.P2a a l1r c0 c) / 2
        - 1 / 8 * (a * (1 - l1r) * ∑ j : Fin p, ∑ k : Fin p, userP2 C.P2a j k * ((b j - c j) * s j) * ((b k - c k) * s k)) := by
  have hloss : ∑ i, R.sw i * C.family.unitDeviance (R.y i) (trueMean C.e50 C.family C.link
        (∑ j : Fin p, R.X i j * ((b j + c j) / 2) + (b0 + c0) / 2 + (R.off.getD fun _ => 0) i))
      ≤ (∑ i, R.sw i * C.family.unitDeviance (R.y i) (trueMean C.e50 C.family C.link
          (∑ j : Fin p, R.X i j * b j + b0 + (R.off.getD fun _ => 0) i))
        + ∑ i, R.sw i * C.family.unitDeviance (R.y i) (trueMean C.e50 C.family C.link
          (∑ j : Fin p, R.X i j * c j + c0 + (R.off.getD fun _ => 0) i))) / 2 := by
    rw [← Finset.sum_add_distrib, Finset.sum_div]
    refine Finset.sum_le_sum fun i _ => ?_
    have := half_convex (doc_row_convex C R l1r h i) (∑ j : Fin p, R.X i j * b j + b0 + (R.off.getD fun _ => 0) i)
      (∑ j : Fin p, R.X i j * c j + c0 + (R.off.getD fun _ => 0) i)
    have e : (∑ j : Fin p, R.X i j * b j + b0 + (R.off.getD fun _ => 0) i + (∑ j : Fin p, R.X i j * c j + c0 + (R.off.getD fun _ => 0) i)) / 2
        = ∑ j : Fin p, R.X i j * ((b j + c j) / 2) + (b0 + c0) / 2 + (R.off.getD fun _ => 0) i := by
      have : ∑ j : Fin p, R.X i j * ((b j + c j) / 2) = (∑ j : Fin p, R.X i j * b j + ∑ j : Fin p, R.X i j * c j) / 2 := by
        rw [← Finset.sum_add_distrib, Finset.sum_div]
        exact Finset.sum_congr rfl fun j _ => by ring
      rw [this]; ring
    rw [e] at this
    exact this
  have hl1 : ∑ j : Fin p, userP1 C.P1a j * |(b j + c j) / 2 * s j|
      ≤ (∑ j : Fin p, userP1 C.P1a j * |b j * s j| + ∑ j : Fin p, userP1 C.P1a j * |c j * s j|) / 2 := by
    rw [← Finset.sum_add_distrib, Finset.sum_div]
    refine Finset.sum_le_sum fun j _ => ?_
    have : |(b j + c j) / 2 * s j| ≤ (|b j * s j| + |c j * s j|) / 2 := by
      have e : (b j + c j) / 2 * s j = (b j * s j + c j * s j) / 2 := by ring
      rw [e, abs_div, abs_of_pos (show (0 : ℝ) < 2 by norm_num)]
      exact div_le_div_of_nonneg_right (abs_add_le _ _) (by norm_num)
    have := mul_le_mul_of_nonneg_left this (h.p1 j)
    linarith
  have hq : ∑ j : Fin p, ∑ k : Fin p, userP2 C.P2a j k * ((b j + c j) / 2 * s j) * ((b k + c k) / 2 * s k)
      = (∑ j : Fin p, ∑ k : Fin p, userP2 C.P2a j k * (b j * s j) * (b k * s k)
          + ∑ j : Fin p, ∑ k : Fin p, userP2 C.P2a j k * (c j * s j) * (c k * s k)) / 2
        - 1 / 4 * ∑ j : Fin p, ∑ k : Fin p, userP2 C.P2a j k * ((b j - c j) * s j) * ((b k - c k) * s k) := by
    rw [← Finset.sum_add_distrib, Finset.sum_div, Finset.mul_sum, ← Finset.sum_sub_distrib]
    refine Finset.sum_congr rfl fun j _ => ?_
    rw [← Finset.sum_add_distrib, Finset.sum_div, Finset.mul_sum, ← Finset.sum_sub_distrib]
    refine Finset.sum_congr rfl fun k _ => ?_
    ring
  unfold fitObjective
  rw [hq]
  have := mul_le_mul_of_nonneg_left hl1 (mul_nonneg ha h.l1.1)
  linarith

/-- The two estimators state the same problem: same family, link, penalties, bounds and scaling.  They may differ in solver, start,
tolerances, iteration limits, Hessian approximation, coordinate selection and so on. -/
structure Spec.SameProblem (C C' : FitCfg p ic) : Prop where
  family : C'.family = C.family
  link : C'.link = C.link
  e50 : C'.e50 = C.e50
  thr : C'.thr = C.thr
  scaled : C'.asIfScaled = C.asIfScaled
  P1 : C'.P1a = C.P1a
  P2 : C'.P2a = C.P2a
  lb : C'.lb = C.lb
  ub : C'.ub = C.ub

/-- The largest difference of two solutions on the standardised scale. -/
theorem stdClose_max (thr : ℝ) (means stds : ℕ → ℝ) (b0 : ℝ) (b : ℕ → ℝ) (c0 : ℝ) (c : ℕ → ℝ) :
    ∃ B : ℝ, 0 ≤ B ∧ StdClose p ic thr means stds B b0 b c0 c ∧
      ((B = 0) ∨ (∃ j < p, B = |b j - c j| * colScale thr stds j) ∨
        (ic = true ∧ B = |(b0 + ∑ j : Fin p, means j * b j) - (c0 + ∑ j : Fin p, means j * c j)|)) := by
  have hlist : ∀ (m : ℕ) (f : ℕ → ℝ), ∃ B : ℝ, 0 ≤ B ∧ (∀ j < m, f j ≤ B) ∧ (B = 0 ∨ ∃ j < m, B = f j) := by
    intro m f
    induction m with
    | zero => exact ⟨0, le_rfl, fun j hj => absurd hj (by omega), Or.inl rfl⟩
    | succ m ih =>
      obtain ⟨B, h0, hB, hor⟩ := ih
      by_cases hm : f m ≤ B
      · refine ⟨B, h0, fun j hj => ?_, ?_⟩
        · rcases Nat.lt_succ_iff_lt_or_eq.1 hj with h | rfl
          · exact hB j h
          · exact hm
        · rcases hor with h | ⟨j, hj, h⟩
          · exact Or.inl h
          · exact Or.inr ⟨j, by omega, h⟩
      · refine ⟨f m, h0.trans (not_le.1 hm).le, fun j hj => ?_, Or.inr ⟨m, by omega, rfl⟩⟩
        rcases Nat.lt_succ_iff_lt_or_eq.1 hj with h | rfl
        · exact (hB j h).trans (not_le.1 hm).le
        · exact le_rfl
  obtain ⟨B, h0, hB, hor⟩ := hlist p fun j => |b j - c j| * colScale thr stds j
  by_cases hi : ic = true ∧ B < |(b0 + ∑ j : Fin p, means j * b j) - (c0 + ∑ j : Fin p, means j * c j)|
  · exact ⟨_, abs_nonneg _, ⟨fun j hj => (hB j hj).trans hi.2.le, fun _ => le_rfl⟩, Or.inr (Or.inr ⟨hi.1, rfl⟩)⟩
  · refine ⟨B, h0, ⟨hB, fun h => ?_⟩, ?_⟩
    · by_contra hn
      exact hi ⟨h, not_le.1 hn⟩
    · rcases hor with h | h
      · exact Or.inl h
      · exact Or.inr (Or.inl h)

theorem stdClose_half (thr : ℝ) (means stds : ℕ → ℝ) (B b0 : ℝ) (b : ℕ → ℝ) (c0 : ℝ) (c : ℕ → ℝ)
    (h : StdClose p ic thr means stds B b0 b c0 c) :
    StdClose p ic thr means stds (B / 2) ((b0 + c0) / 2) (fun j => (b j + c j) / 2) b0 b ∧
    StdClose p ic thr means stds (B / 2) ((b0 + c0) / 2) (fun j => (b j + c j) / 2) c0 c := by
  have hm : ∑ j : Fin p, means j * ((b j + c j) / 2) = (∑ j : Fin p, means j * b j + ∑ j : Fin p, means j * c j) / 2 := by
    rw [← Finset.sum_add_distrib, Finset.sum_div]
    exact Finset.sum_congr rfl fun j _ => by ring
  refine ⟨⟨fun j hj => ?_, fun hi => ?_⟩, ⟨fun j hj => ?_, fun hi => ?_⟩⟩
  · have e : (b j + c j) / 2 - b j = -((b j - c j) / 2) := by ring
    rw [e, abs_neg, abs_div, abs_of_pos (show (0 : ℝ) < 2 by norm_num)]
    have := h.1 j hj
    linarith
  · have := h.2 hi
    rw [hm]
    have e : (b0 + c0) / 2 + (∑ j : Fin p, means j * b j + ∑ j : Fin p, means j * c j) / 2 - (b0 + ∑ j : Fin p, means j * b j)
        = -(((b0 + ∑ j : Fin p, means j * b j) - (c0 + ∑ j : Fin p, means j * c j)) / 2) := by ring
    rw [e, abs_neg, abs_div, abs_of_pos (show (0 : ℝ) < 2 by norm_num)]
    linarith
  · have e : (b j + c j) / 2 - c j = (b j - c j) / 2 := by ring
    rw [e, abs_div, abs_of_pos (show (0 : ℝ) < 2 by norm_num)]
    have := h.1 j hj
    linarith
  · have := h.2 hi
    rw [hm]
    have e : (b0 + c0) / 2 + (∑ j : Fin p, means j * b j + ∑ j : Fin p, means j * c j) / 2 - (c0 + ∑ j : Fin p, means j * c j)
        = ((b0 + ∑ j : Fin p, means j * b j) - (c0 + ∑ j : Fin p, means j * c j)) / 2 := by ring
    rw [e, abs_div, abs_of_pos (show (0 : ℝ) < 2 by norm_num)]
    linarith

/-- The objective `F` of intercept and coefficients has curvature `mu`: half-way between two solutions it is smaller than the average of its
values by at least `mu/8` times the square of their difference in any coordinate of the standardised scale. -/
def Spec.Curvature (p : ℕ) (ic : Bool) (thr : ℝ) (means stds : ℕ → ℝ) (mu : ℝ) (F : ℝ → (ℕ → ℝ) → ℝ) : Prop :=
  ∀ (b0 c0 : ℝ) (b c : ℕ → ℝ), (ic = false → b0 = 0 ∧ c0 = 0) →
    (∀ j < p, F ((b0 + c0) / 2) (fun j => (b j + c j) / 2) ≤ (F b0 b + F c0 c) / 2 - mu / 8 * ((b j - c j) * colScale thr stds j) ^ 2) ∧
    (ic = true → F ((b0 + c0) / 2) (fun j => (b j + c j) / 2) ≤ (F b0 b + F c0 c) / 2
      - mu / 8 * ((b0 + ∑ j : Fin p, means j * b j) - (c0 + ∑ j : Fin p, means j * c j)) ^ 2)

/-- Two points that are nearly optimal for the same objective of curvature `mu`, each up to a multiple of the distance to the competitor, are close. -/
theorem near_agree (thr : ℝ) (means stds : ℕ → ℝ) (lb ub : Option (ℕ → ℝ)) (F : ℝ → (ℕ → ℝ) → ℝ) (tol tol' mu : ℝ) (hg : 0 ≤ tol) (hg' : 0 ≤ tol') (hmu : 0 < mu)
    (b0 : ℝ) (b : ℕ → ℝ) (c0 : ℝ) (c : ℕ → ℝ) (h0 : ic = false → b0 = 0 ∧ c0 = 0) (hin : WithinBounds p lb ub b) (hin' : WithinBounds p lb ub c)
    (hopt : ∀ (x0 : ℝ) (x : ℕ → ℝ), (ic = false → x0 = 0) → WithinBounds p lb ub x → ∀ B : ℝ, 0 ≤ B → StdClose p ic thr means stds B x0 x b0 b → F b0 b ≤ F x0 x + tol * B)
    (hopt' : ∀ (x0 : ℝ) (x : ℕ → ℝ), (ic = false → x0 = 0) → WithinBounds p lb ub x → ∀ B : ℝ, 0 ≤ B → StdClose p ic thr means stds B x0 x c0 c → F c0 c ≤ F x0 x + tol' * B)
    (hcurv : Curvature p ic thr means stds mu F) : StdClose p ic thr means stds (2 * (tol + tol') / mu) b0 b c0 c := by
  obtain ⟨B, hB0, hclose, hB⟩ := stdClose_max (p := p) (ic := ic) thr means stds b0 b c0 c
  obtain ⟨hh1, hh2⟩ := stdClose_half thr _ _ B _ _ _ _ hclose
  have hmid : WithinBounds p lb ub fun j => (b j + c j) / 2 := by
    intro j hj
    refine ⟨fun l hl => ?_, fun u hu => ?_⟩
    · have := (hin j hj).1 l hl; have := (hin' j hj).1 l hl
      show l j ≤ (b j + c j) / 2
      linarith
    · have := (hin j hj).2 u hu; have := (hin' j hj).2 u hu
      show (b j + c j) / 2 ≤ u j
      linarith
  have hm0 : ic = false → (b0 + c0) / 2 = 0 := fun hf => by
    rw [(h0 hf).1, (h0 hf).2]; norm_num
  have o1 := hopt _ _ hm0 hmid (B / 2) (by linarith) hh1
  have o2 := hopt' _ _ hm0 hmid (B / 2) (by linarith) hh2
  obtain ⟨hcj, hci⟩ := hcurv b0 c0 b c h0
  have hfin : B ≤ 2 * (tol + tol') / mu := by
    rcases hB0.lt_or_eq with hp | hz
    · have key : mu * B ^ 2 ≤ 2 * (tol + tol') * B := by
        rcases hB with h | ⟨j, hj, h⟩ | ⟨hic, h⟩
        · linarith
        · have := hcj j hj
          have e : ((b j - c j) * colScale thr stds j) ^ 2 = B ^ 2 := by
            rw [h, mul_pow, mul_pow, sq_abs]
          rw [e] at this
          linarith
        · have := hci hic
          have e : ((b0 + ∑ j : Fin p, means j * b j) - (c0 + ∑ j : Fin p, means j * c j)) ^ 2 = B ^ 2 := by
            rw [h, sq_abs]
          rw [e] at this
          linarith
      rw [le_div_iff₀ hmu]
      have : mu * B * B ≤ 2 * (tol + tol') * B := by nlinarith
      have := le_of_mul_le_mul_right this hp
      linarith
    · rw [← hz]
      exact div_nonneg (by linarith) hmu.le
  exact ⟨fun j hj => (hclose.1 j hj).trans hfin, fun hi => (hclose.2 hi).trans hfin⟩

/-- Without intercept the reported one is 0. -/
theorem rows_intercept_zero (next : (ℕ → BitVec 32) → ℕ → (ℕ → BitVec 32)) (inner : (ℕ → BitVec 32) → (m : ℕ) → Inner m p ic) (C : FitCfg p ic) (stats : Stats) (R : Rows n)
    (l1r : ℝ) (h : ConvexFit C R l1r) (hs : ∀ j, 0 ≤ (stats n R.X R.sw).2 j) (hstep : C.stepTol = none) (sp : AlphaSpec) (s t : SolverLog) (r : PathResult)
    (hfit : glmFit C stats (irlsSolver next inner) R l1r sp s = some (t, r)) (ha : ∀ x ∈ r.alphas, 0 ≤ x) (hw : t.convWarn = s.convWarn)
    (i : ℕ) (hi : i < r.alphas.length) (hc : i < r.coefPath.length) (hb : i < r.interceptPath.length) (hf : ic = false) : r.interceptPath[i] = 0 := by
  obtain ⟨P1, P2, -, -, c, e0, -, -⟩ := rows_stopped next inner C h.thr stats R l1r h.l1.1 h.p1 hs hstep sp s t r hfit ha hw i hi hc hb
  rw [e0]
  subst hf
  simp [report, unstandardize, outMeans]

/-- **C78.** Two fits of the same problem on the same data, with IRLS solvers that may differ in the inner solver, start, path, tolerances,
limits and random numbers, neither of which raised a `ConvergenceWarning`, compared at rows of their paths with the same alpha that lie
within the bounds.  If the documented objective has curvature `mu`, the two solutions differ by at most `2 (tol + tol') / mu` on the
standardised scale. -/
theorem c78_fits_agree (next next' : (ℕ → BitVec 32) → ℕ → (ℕ → BitVec 32))
    (inner inner' : (ℕ → BitVec 32) → (m : ℕ) → Inner m p ic) (C C' : FitCfg p ic) (hC : SameProblem C C') (stats : Stats) (R : Rows n)
    (l1r : ℝ) (h : ConvexFit C R l1r)
    (hs : ∀ j, 0 ≤ (stats n R.X R.sw).2 j) (hstep : C.stepTol = none) (hstep' : C'.stepTol = none) (hg : 0 ≤ C.gradTol) (hg' : 0 ≤ C'.gradTol)
    (sp sp' : AlphaSpec) (s t s' t' : SolverLog) (r r' : PathResult)
    (hfit : glmFit C stats (irlsSolver next inner) R l1r sp s = some (t, r)) (ha : ∀ x ∈ r.alphas, 0 ≤ x) (hw : t.convWarn = s.convWarn)
    (hfit' : glmFit C' stats (irlsSolver next' inner') R l1r sp' s' = some (t', r')) (ha' : ∀ x ∈ r'.alphas, 0 ≤ x)
    (hw' : t'.convWarn = s'.convWarn)
    (i i' : ℕ) (hi : i < r.alphas.length) (hc : i < r.coefPath.length) (hb : i < r.interceptPath.length)
    (hi' : i' < r'.alphas.length) (hc' : i' < r'.coefPath.length) (hb' : i' < r'.interceptPath.length)
    (hsame : r'.alphas[i'] = r.alphas[i])
    (hin : WithinBounds p C.lb C.ub r.coefPath[i]) (hin' : WithinBounds p C.lb C.ub r'.coefPath[i']) (mu : ℝ) (hmu : 0 < mu)
    (hcurv : Curvature p ic C.thr (stats n R.X R.sw).1 (stats n R.X R.sw).2 mu
      (fitObjective p C.e50 C.family C.link R (penScale C.thr C.asIfScaled (stats n R.X R.sw).2) C.P1a C.P2a r.alphas[i] l1r)) :
    StdClose p ic C.thr (stats n R.X R.sw).1 (stats n R.X R.sw).2 (2 * (C.gradTol + C'.gradTol) / mu)
      r.interceptPath[i] r.coefPath[i] r'.interceptPath[i'] r'.coefPath[i'] := by
  have h' : ConvexFit C' R l1r := by
    refine ⟨hC.thr ▸ h.thr, hC.family ▸ h.valid, ?_, ?_, h.sw, ?_, ?_, h.l1⟩
    · rw [hC.family, hC.link]; exact h.pair
    · rw [hC.family]; exact h.y
    · rw [hC.P1]; exact h.p1
    · rw [hC.P2]; exact h.p2
  obtain ⟨-, -, -, -, hopt⟩ := c75_no_warning_near_optimal next inner C stats R l1r h hs hstep sp s t r hfit ha hw
  obtain ⟨-, -, -, -, hopt'⟩ := c75_no_warning_near_optimal next' inner' C' stats R l1r h' hs hstep' sp' s' t' r' hfit' ha' hw'
  refine near_agree C.thr _ _ C.lb C.ub _ _ _ mu hg hg' hmu _ _ _ _ (fun hf => ⟨rows_intercept_zero next inner C stats R l1r h hs hstep sp s t r hfit ha hw i hi hc hb hf,
    rows_intercept_zero next' inner' C' stats R l1r h' hs hstep' sp' s' t' r' hfit' ha' hw' i' hi' hc' hb' hf⟩) hin hin' (hopt i hi hc hb) ?_ hcurv
  intro x0 x hx0 hx B hB hcl
  have := hopt' i' hi' hc' hb' x0 x hx0 (by rw [hC.lb, hC.ub]; exact hx) B hB (by rw [hC.thr]; exact hcl)
  rw [hC.e50, hC.family, hC.link, hC.thr, hC.scaled, hC.P1, hC.P2, hsame] at this
  exact this

theorem quad_one (P : Fin p → Fin p → ℝ) (lam : ℝ) (hl : 0 ≤ lam) (hP : ∀ v : Fin p → ℝ, lam * ∑ j, v j ^ 2 ≤ ∑ j, ∑ k, P j k * v j * v k)
    (v : Fin p → ℝ) (j : Fin p) : lam * v j ^ 2 ≤ ∑ j, ∑ k, P j k * v j * v k :=
  (mul_le_mul_of_nonneg_left (Finset.single_le_sum (f := fun j => v j ^ 2) (fun _ _ => sq_nonneg _) (Finset.mem_univ j)) hl).trans (hP v)

/-- The ridge part of the penalty bounds the difference of every coefficient. -/
theorem ridge_coord (thr : ℝ) (stds s : ℕ → ℝ) (P : Fin p → Fin p → ℝ) (lam M w : ℝ) (hlam : 0 ≤ lam) (hM : 0 < M) (hw : 0 ≤ w)
    (hP : ∀ v : Fin p → ℝ, lam * ∑ j, v j ^ 2 ≤ ∑ j, ∑ k, P j k * v j * v k) (hs : ∀ j < p, |colScale thr stds j| ≤ M * |s j|)
    (d : ℕ → ℝ) (j : ℕ) (hj : j < p) :
    w * lam / M ^ 2 * (d j * colScale thr stds j) ^ 2
      ≤ w * ∑ j : Fin p, ∑ k : Fin p, P j k * (d j * s j) * (d k * s k) := by
  have h1 := quad_one P lam hlam hP (fun j => d j * s j) ⟨j, hj⟩
  have h2 : (d j * colScale thr stds j) ^ 2 ≤ M ^ 2 * (d j * s j) ^ 2 := by
    have : (colScale thr stds j) ^ 2 ≤ (M * |s j|) ^ 2 := by
      rw [← sq_abs (colScale thr stds j)]
      exact pow_le_pow_left₀ (abs_nonneg _) (hs j hj) 2
    rw [mul_pow, sq_abs] at this
    rw [mul_pow, mul_pow]
    nlinarith [sq_nonneg (d j)]
  have h3 : w * lam / M ^ 2 * (d j * colScale thr stds j) ^ 2 ≤ w * lam / M ^ 2 * (M ^ 2 * (d j * s j) ^ 2) :=
    mul_le_mul_of_nonneg_left h2 (by positivity)
  have h4 : w * lam / M ^ 2 * (M ^ 2 * (d j * s j) ^ 2) = w * (lam * (d j * s j) ^ 2) := by field_simp
  rw [h4] at h3
  exact h3.trans (mul_le_mul_of_nonneg_left h1 hw)

/-- **C78, ridge without intercept.** The curvature of a fit without intercept whose ridge penalty has smallest eigenvalue at least `lam`;
`M` bounds the ratio of column scale and penalty scale (one with `scale_predictors`). -/
theorem c78_curvature_ridge (C : FitCfg p false) (R : Rows n) (l1r : ℝ) (h : ConvexFit C R l1r) (means stds : ℕ → ℝ) (a : ℝ) (ha : 0 ≤ a)
    (lam M : ℝ) (hlam : 0 ≤ lam) (hM : 0 < M)
    (hP : ∀ v : Fin p → ℝ, lam * ∑ j, v j ^ 2 ≤ ∑ j : Fin p, ∑ k : Fin p, userP2 C.P2a j k * v j * v k)
    (hscale : ∀ j < p, |colScale C.thr stds j| ≤ M * |penScale C.thr C.asIfScaled stds j|) :
    Curvature p false C.thr means stds (a * (1 - l1r) * lam / M ^ 2)
      (fitObjective p C.e50 C.family C.link R (penScale C.thr C.asIfScaled stds) C.P1a C.P2a a l1r) := by
  intro b0 c0 b c _
  refine ⟨fun j hj => ?_, fun hf => by cases hf⟩
  have h1 := doc_midpoint C R l1r h (penScale C.thr C.asIfScaled stds) a ha b0 c0 b c
  have h2 := ridge_coord C.thr stds (penScale C.thr C.asIfScaled stds) (fun j k : Fin p => userP2 C.P2a j k) lam M (a * (1 - l1r)) hlam hM
    (mul_nonneg ha (by linarith [h.l1.2])) hP hscale (fun j => b j - c j) j hj
  linarith

/-- **C78, normal family with identity link, with intercept.** The curvature is at least one in the direction of the intercept (weights
adding up to one, true column means). -/
theorem c78_curvature_normal (C : FitCfg p true) (hf : C.family = .normal) (hl : C.link = .identity) (R : Rows n) (l1r : ℝ)
    (h : ConvexFit C R l1r) (means stds : ℕ → ℝ) (hsw : ∑ i, R.sw i = 1) (hmeans : ∀ j < p, ∑ i, R.sw i * R.X i j = means j) (a : ℝ) (ha : 0 ≤ a)
    (lam M : ℝ) (hlam : 0 ≤ lam) (hM : 0 < M)
    (hP : ∀ v : Fin p → ℝ, lam * ∑ j, v j ^ 2 ≤ ∑ j : Fin p, ∑ k : Fin p, userP2 C.P2a j k * v j * v k)
    (hscale : ∀ j < p, |colScale C.thr stds j| ≤ M * |penScale C.thr C.asIfScaled stds j|) :
    Curvature p true C.thr means stds (min 1 (a * (1 - l1r) * lam / M ^ 2))
      (fitObjective p C.e50 C.family C.link R (penScale C.thr C.asIfScaled stds) C.P1a C.P2a a l1r) := by
  intro b0 c0 b c _
  have hal : 0 ≤ a * (1 - l1r) := mul_nonneg ha (by linarith [h.l1.2])
  refine ⟨fun j hj => ?_, fun _ => ?_⟩
  · have h1 := doc_midpoint C R l1r h (penScale C.thr C.asIfScaled stds) a ha b0 c0 b c
    have h2 := ridge_coord C.thr stds (penScale C.thr C.asIfScaled stds) (fun j k : Fin p => userP2 C.P2a j k) lam M (a * (1 - l1r)) hlam hM
      hal hP hscale (fun j => b j - c j) j hj
    have h3 : min 1 (a * (1 - l1r) * lam / M ^ 2) * ((b j - c j) * colScale C.thr stds j) ^ 2
        ≤ a * (1 - l1r) * lam / M ^ 2 * ((b j - c j) * colScale C.thr stds j) ^ 2 :=
      mul_le_mul_of_nonneg_right (min_le_right _ _) (sq_nonneg _)
    linarith
  · -- the loss is quadratic
    have hd : ∀ i, R.sw i * C.family.unitDeviance (R.y i) (trueMean C.e50 C.family C.link
        (∑ j : Fin p, R.X i j * ((b j + c j) / 2) + (b0 + c0) / 2 + (R.off.getD fun _ => 0) i))
        = (R.sw i * C.family.unitDeviance (R.y i) (trueMean C.e50 C.family C.link (∑ j : Fin p, R.X i j * b j + b0 + (R.off.getD fun _ => 0) i))
          + R.sw i * C.family.unitDeviance (R.y i) (trueMean C.e50 C.family C.link (∑ j : Fin p, R.X i j * c j + c0 + (R.off.getD fun _ => 0) i))) / 2
          - 1 / 4 * (R.sw i * (∑ j : Fin p, R.X i j * (b j - c j) + (b0 - c0)) ^ 2) := by
      intro i
      have e1 : ∑ j : Fin p, R.X i j * ((b j + c j) / 2) = (∑ j : Fin p, R.X i j * b j + ∑ j : Fin p, R.X i j * c j) / 2 := by
        rw [← Finset.sum_add_distrib, Finset.sum_div]
        exact Finset.sum_congr rfl fun j _ => by ring
      have e2 : ∑ j : Fin p, R.X i j * (b j - c j) = ∑ j : Fin p, R.X i j * b j - ∑ j : Fin p, R.X i j * c j := by
        rw [← Finset.sum_sub_distrib]
        exact Finset.sum_congr rfl fun j _ => by ring
      rw [hf, hl, e1, e2]
      simp only [trueMean, Link.inverse, Family.unitDeviance]
      ring
    have hjensen : ((b0 + ∑ j : Fin p, means j * b j) - (c0 + ∑ j : Fin p, means j * c j)) ^ 2
        ≤ ∑ i, R.sw i * (∑ j : Fin p, R.X i j * (b j - c j) + (b0 - c0)) ^ 2 := by
      set u := fun i => ∑ j : Fin p, R.X i j * (b j - c j) + (b0 - c0) with hu
      have hmean : ∑ i, R.sw i * u i = (b0 + ∑ j : Fin p, means j * b j) - (c0 + ∑ j : Fin p, means j * c j) := by
        have e : ∀ i, R.sw i * u i = ∑ j : Fin p, R.sw i * R.X i j * (b j - c j) + R.sw i * (b0 - c0) := by
          intro i
          rw [hu]
          simp only [mul_add, Finset.mul_sum, mul_assoc]
        simp only [e]
        rw [Finset.sum_add_distrib, Finset.sum_comm, ← Finset.sum_mul, hsw]
        have : ∀ j : Fin p, ∑ i, R.sw i * R.X i j * (b j - c j) = means j * b j - means j * c j := by
          intro j
          rw [← Finset.sum_mul, hmeans j j.2]; ring
        simp only [this, Finset.sum_sub_distrib]
        ring
      have hvar : 0 ≤ ∑ i, R.sw i * (u i - ∑ i, R.sw i * u i) ^ 2 := Finset.sum_nonneg fun i _ => mul_nonneg (h.sw i) (sq_nonneg _)
      have hexp : ∑ i, R.sw i * (u i - ∑ i, R.sw i * u i) ^ 2 = ∑ i, R.sw i * u i ^ 2 - (∑ i, R.sw i * u i) ^ 2 := by
        set mm := ∑ i, R.sw i * u i with hmm
        have e : ∀ i, R.sw i * (u i - mm) ^ 2 = R.sw i * u i ^ 2 - 2 * mm * (R.sw i * u i) + mm ^ 2 * R.sw i := fun i => by ring
        simp only [e]
        rw [Finset.sum_add_distrib, Finset.sum_sub_distrib, ← Finset.mul_sum, ← Finset.mul_sum, hsw, ← hmm]
        ring
      rw [← hmean]
      linarith
    have hl1 : ∑ j : Fin p, userP1 C.P1a j * |(b j + c j) / 2 * penScale C.thr C.asIfScaled stds j|
        ≤ (∑ j : Fin p, userP1 C.P1a j * |b j * penScale C.thr C.asIfScaled stds j|
          + ∑ j : Fin p, userP1 C.P1a j * |c j * penScale C.thr C.asIfScaled stds j|) / 2 := by
      rw [← Finset.sum_add_distrib, Finset.sum_div]
      refine Finset.sum_le_sum fun j _ => ?_
      set s := penScale C.thr C.asIfScaled stds
      have : |(b j + c j) / 2 * s j| ≤ (|b j * s j| + |c j * s j|) / 2 := by
        have e : (b j + c j) / 2 * s j = (b j * s j + c j * s j) / 2 := by ring
        rw [e, abs_div, abs_of_pos (show (0 : ℝ) < 2 by norm_num)]
        exact div_le_div_of_nonneg_right (abs_add_le _ _) (by norm_num)
      have := mul_le_mul_of_nonneg_left this (h.p1 j)
      linarith
    have hq : ∑ j : Fin p, ∑ k : Fin p, userP2 C.P2a j k * ((b j + c j) / 2 * penScale C.thr C.asIfScaled stds j) *
          ((b k + c k) / 2 * penScale C.thr C.asIfScaled stds k)
        ≤ (∑ j : Fin p, ∑ k : Fin p, userP2 C.P2a j k * (b j * penScale C.thr C.asIfScaled stds j) * (b k * penScale C.thr C.asIfScaled stds k)
          + ∑ j : Fin p, ∑ k : Fin p, userP2 C.P2a j k * (c j * penScale C.thr C.asIfScaled stds j) * (c k * penScale C.thr C.asIfScaled stds k)) / 2 := by
      set s := penScale C.thr C.asIfScaled stds
      have hnn := h.p2 fun j => (b j - c j) * s j
      have e : ∑ j : Fin p, ∑ k : Fin p, userP2 C.P2a j k * ((b j + c j) / 2 * s j) * ((b k + c k) / 2 * s k)
          = (∑ j : Fin p, ∑ k : Fin p, userP2 C.P2a j k * (b j * s j) * (b k * s k)
              + ∑ j : Fin p, ∑ k : Fin p, userP2 C.P2a j k * (c j * s j) * (c k * s k)) / 2
            - 1 / 4 * ∑ j : Fin p, ∑ k : Fin p, userP2 C.P2a j k * ((b j - c j) * s j) * ((b k - c k) * s k) := by
        rw [← Finset.sum_add_distrib, Finset.sum_div, Finset.mul_sum, ← Finset.sum_sub_distrib]
        refine Finset.sum_congr rfl fun j _ => ?_
        rw [← Finset.sum_add_distrib, Finset.sum_div, Finset.mul_sum, ← Finset.sum_sub_distrib]
        refine Finset.sum_congr rfl fun k _ => ?_
        ring
      rw [e]
      linarith
    have hmin : min 1 (a * (1 - l1r) * lam / M ^ 2) * ((b0 + ∑ j : Fin p, means j * b j) - (c0 + ∑ j : Fin p, means j * c j)) ^ 2
        ≤ 1 * ((b0 + ∑ j : Fin p, means j * b j) - (c0 + ∑ j : Fin p, means j * c j)) ^ 2 :=
      mul_le_mul_of_nonneg_right (min_le_left _ _) (sq_nonneg _)
    have hA := mul_le_mul_of_nonneg_left hl1 (mul_nonneg ha h.l1.1)
    have hB := mul_le_mul_of_nonneg_left hq hal
    unfold fitObjective
    simp only [hd]
    rw [Finset.sum_sub_distrib, ← Finset.sum_div, Finset.sum_add_distrib, ← Finset.mul_sum]
    linarith

/-- Ridge regression on the two rows with different iteration limits, random streams and logs: the coefficients differ by at most
`4 / 10000`. -/
example (next next' : (ℕ → BitVec 32) → ℕ → (ℕ → BitVec 32)) (N M N' M' : ℕ) (s s' : SolverLog) :
    ∃ t r t' r', glmFit ((tinyCfg N M).forSolver .irlsLs) tinyStats (irlsSolver next fun _ _ => lsInner invSolve) tinyRows 0 (.single 1) s = some (t, r) ∧
      glmFit ((tinyCfg N' M').forSolver .irlsLs) tinyStats (irlsSolver next' fun _ _ => lsInner invSolve) tinyRows 0 (.single 1) s' = some (t', r') ∧
      ∀ (hc : 0 < r.coefPath.length) (hb : 0 < r.interceptPath.length) (hc' : 0 < r'.coefPath.length) (hb' : 0 < r'.interceptPath.length),
        |r.coefPath[0] 0 - r'.coefPath[0] 0| ≤ 4 / 10000 := by
  obtain ⟨t, r, h, hw, -, -⟩ := tiny_ls next N M s
  obtain ⟨t', r', h', hw', -, -⟩ := tiny_ls next' N' M' s'
  have hal : r.alphas = [1] := by
    obtain ⟨Q, -, hal, -⟩ := glmFit_spec _ _ _ _ _ _ _ _ _ h
    simpa [AlphaSpec.eval] using hal.symm
  have hal' : r'.alphas = [1] := by
    obtain ⟨Q, -, hal, -⟩ := glmFit_spec _ _ _ _ _ _ _ _ _ h'
    simpa [AlphaSpec.eval] using hal.symm
  refine ⟨t, r, t', r', h, h', fun hc hb hc' hb' => ?_⟩
  have hcv : ConvexFit ((tinyCfg N M).forSolver .irlsLs) tinyRows 0 :=
    ⟨(tiny_convex N M).thr, (tiny_convex N M).valid, (tiny_convex N M).pair, (tiny_convex N M).y, (tiny_convex N M).sw, (tiny_convex N M).p1,
      (tiny_convex N M).p2, (tiny_convex N M).l1⟩
  have hone : ∀ j, colScale ((tinyCfg N M).forSolver .irlsLs).thr (fun _ => (1 : ℝ)) j = 1 := fun j => by unfold colScale; simp
  have hcurv := c78_curvature_normal ((tinyCfg N M).forSolver .irlsLs) rfl rfl tinyRows 0 hcv (fun _ => 0) (fun _ => 1) (by simp [tinyRows])
    (by intro j hj; obtain rfl : j = 0 := by omega
        simp [tinyRows]) 1 zero_le_one 1 1 zero_le_one zero_lt_one
    (by intro v; simp [tinyCfg, FitCfg.forSolver, userP2, pow_two]) (by
      intro j hj
      rw [hone]
      have : penScale ((tinyCfg N M).forSolver .irlsLs).thr ((tinyCfg N M).forSolver .irlsLs).asIfScaled (fun _ => (1 : ℝ)) j = 1 := rfl
      rw [this]; simp)
  have he : r.alphas[0]'(by rw [hal]; simp) = 1 := by simp [hal]
  have := (c78_fits_agree next next' (fun _ _ => lsInner invSolve) (fun _ _ => lsInner invSolve) ((tinyCfg N M).forSolver .irlsLs)
    ((tinyCfg N' M').forSolver .irlsLs) ⟨rfl, rfl, rfl, rfl, rfl, rfl, rfl, rfl, rfl⟩ tinyStats tinyRows 0 hcv (fun _ => zero_le_one) rfl rfl
    (by norm_num [tinyCfg, FitCfg.forSolver]) (by norm_num [tinyCfg, FitCfg.forSolver]) (.single 1) (.single 1) s t s' t' r r' h
    (by rw [hal]; simp) hw h' (by rw [hal']; simp) hw' 0 0 (by rw [hal]; simp) hc hb (by rw [hal']; simp) hc' hb' (by simp [hal, hal'])
    (by intro j _; exact ⟨(by intro l h; cases h), (by intro l h; cases h)⟩) (by intro j _; exact ⟨(by intro l h; cases h), (by intro l h; cases h)⟩)
    (min 1 (1 * (1 - 0) * 1 / 1 ^ 2)) (by norm_num) (by rw [he]; exact hcurv)).1 0 (by norm_num)
  have hsc : colScale ((tinyCfg N M).forSolver .irlsLs).thr (tinyStats 2 tinyRows.X tinyRows.sw).2 0 = 1 := hone 0
  rw [hsc, mul_one] at this
  refine this.trans ?_
  norm_num [tinyCfg, FitCfg.forSolver]

end Glum
