import Verif.Props.Refit
import Verif.Props.Null
import Verif.Props.Target
import Verif.Props.ResponseUnits
/-
C123: noise-free data are recovered.
-/
set_option linter.unusedSectionVars false
set_option linter.unusedVariables false
set_option linter.unusedSimpArgs false

namespace Glum
open Spec Matrix

variable {n p : ℕ} {ic : Bool}

/-! ### C90 without the ridge penalty -/

/-- **C90, convergence without a ridge penalty.** Whenever a convex problem has exactly one solution (with or without penalty, `alpha = 0` included), fits of it that raise no warning
converge to that solution as `gradient_tol` tends to zero. -/
theorem c90_fits_converge_unique (C : FitCfg p ic) (stats : Stats) (R : Rows n) (l1r a : ℝ) (h : ConvexFit C R l1r) (ha0 : 0 ≤ a)
    (hs : ∀ j, 0 ≤ (stats n R.X R.sw).2 j) (b0 : ℝ) (b : ℕ → ℝ)
    (hsol : Solves p ic C.lb C.ub
      (fitObjective p C.e50 C.family C.link R (penScale C.thr C.asIfScaled (stats n R.X R.sw).2) C.P1a C.P2a a l1r) b0 b)
    (huniq : ∀ (c0 : ℝ) (c : ℕ → ℝ), Solves p ic C.lb C.ub
      (fitObjective p C.e50 C.family C.link R (penScale C.thr C.asIfScaled (stats n R.X R.sw).2) C.P1a C.P2a a l1r) c0 c → c0 = b0 ∧ ∀ j < p, c j = b j)
    (ε : ℝ) (hε : 0 < ε) :
    ∃ δ : ℝ, 0 < δ ∧ ∀ (next : (ℕ → BitVec 32) → ℕ → (ℕ → BitVec 32)) (inner : (ℕ → BitVec 32) → (m : ℕ) → Inner m p ic) (C' : FitCfg p ic),
      SameProblem C C' → C'.stepTol = none → C'.gradTol < δ →
      ∀ (sp : AlphaSpec) (s t : SolverLog) (r : PathResult), glmFit C' stats (irlsSolver next inner) R l1r sp s = some (t, r) →
        (∀ x ∈ r.alphas, 0 ≤ x) → t.convWarn = s.convWarn →
        ∀ (i : ℕ) (hi : i < r.alphas.length) (hc : i < r.coefPath.length) (hb : i < r.interceptPath.length), r.alphas[i] = a →
          WithinBounds p C.lb C.ub r.coefPath[i] → |r.interceptPath[i] - b0| ≤ ε ∧ ∀ j < p, |r.coefPath[i] j - b j| ≤ ε := by
  have hz : restrict b0 b ∈ feasible C := restrict_feasible C b0 b hsol.1 hsol.2.1
  have hmin : ∀ x ∈ feasible C, x ≠ restrict b0 b →
      objAt C R (penScale C.thr C.asIfScaled (stats n R.X R.sw).2) a l1r (restrict b0 b)
        < objAt C R (penScale C.thr C.asIfScaled (stats n R.X R.sw).2) a l1r x := by
    intro x hx hne
    by_contra hn
    rw [not_lt, objAt_restrict] at hn
    obtain ⟨e0, e⟩ := huniq x.1 (extend x.2) ⟨hx.1, feasible_bounds C x hx, fun c0 c hc0 hc => hn.trans (hsol.2.2 c0 c hc0 hc)⟩
    refine hne (Prod.ext e0 (funext fun j => ?_))
    have := e j j.2
    rw [extend_fin] at this
    exact this
  obtain ⟨c, hc0, hgrow⟩ := convex_growth _ (objAt_convex C R l1r h (penScale C.thr C.asIfScaled (stats n R.X R.sw).2) a ha0) (feasible C)
    (feasible_closed C) (feasible_convex C) _ hz hmin ε hε
  set M := 1 + ∑ j : Fin p, |(stats n R.X R.sw).1 j| + ∑ j : Fin p, colScale C.thr (stats n R.X R.sw).2 j with hMdef
  have hM : 0 < M := by
    have hm : 0 ≤ ∑ j : Fin p, |(stats n R.X R.sw).1 j| := Finset.sum_nonneg fun j _ => abs_nonneg _
    have hc : 0 ≤ ∑ j : Fin p, colScale C.thr (stats n R.X R.sw).2 j := Finset.sum_nonneg fun j _ => colScale_nonneg C.thr _ hs j
    rw [hMdef]; linarith
  refine ⟨c / M, div_pos hc0 hM, fun next inner C' hC hstep hg sp s t r hfit ha hw i hi hc hb hai hin => ?_⟩
  have h' : ConvexFit C' R l1r := by
    refine ⟨hC.thr ▸ h.thr, hC.family ▸ h.valid, ?_, ?_, h.sw, ?_, ?_, h.l1⟩
    · rw [hC.family, hC.link]; exact h.pair
    · rw [hC.family]; exact h.y
    · rw [hC.P1]; exact h.p1
    · rw [hC.P2]; exact h.p2
  obtain ⟨-, -, -, -, hopt⟩ := c75_no_warning_near_optimal next inner C' stats R l1r h' hs hstep sp s t r hfit ha hw
  have hic0 := rows_intercept_zero next inner C' stats R l1r h' hs hstep sp s t r hfit ha hw i hi hc hb
  have hfeas := restrict_feasible C r.interceptPath[i] r.coefPath[i] hic0 hin
  set N := ‖restrict (p := p) r.interceptPath[i] r.coefPath[i] - restrict b0 b‖ with hN
  have hNle : N ≤ ε := by
    by_contra hn
    have hbig : ε ≤ N := (not_le.1 hn).le
    have hNp : 0 < N := lt_of_lt_of_le hε hbig
    have h1 := hgrow _ hfeas hbig
    rw [objAt_restrict, objAt_restrict] at h1
    have hcl := stdClose_of_norm (p := p) (ic := ic) C.thr h.thr (stats n R.X R.sw).1 (stats n R.X R.sw).2 hs b0 b r.interceptPath[i] r.coefPath[i]
    rw [← hMdef, norm_sub_rev, ← hN] at hcl
    have h2 := hopt i hi hc hb b0 b hsol.1 (by rw [hC.lb, hC.ub]; exact hsol.2.1) (M * N) (mul_nonneg hM.le hNp.le) (by rw [hC.thr]; exact hcl)
    rw [hC.e50, hC.family, hC.link, hC.thr, hC.scaled, hC.P1, hC.P2, hai] at h2
    have h3 : c * N ≤ C'.gradTol * (M * N) := by linarith
    have h4 : C'.gradTol * (M * N) < c / M * (M * N) := mul_lt_mul_of_pos_right hg (mul_pos hM hNp)
    have h5 : c / M * (M * N) = c * N := by field_simp
    linarith
  refine ⟨(norm_fst_le (restrict (p := p) r.interceptPath[i] r.coefPath[i] - restrict b0 b)).trans hNle, fun j hj => ?_⟩
  have h1 := norm_snd_le (restrict (p := p) r.interceptPath[i] r.coefPath[i] - restrict b0 b)
  exact ((norm_le_pi_norm (restrict (p := p) r.interceptPath[i] r.coefPath[i] - restrict b0 b).2 ⟨j, hj⟩).trans h1).trans hNle

/-! ### C123 -/

/-- The mean of row `i` under intercept `b0` and coefficients `b`. -/
noncomputable def Spec.rowMean (p : ℕ) (e50 : ℝ) (f : Family) (l : Link) (R : Rows n) (b0 : ℝ) (b : ℕ → ℝ) (i : Fin n) : ℝ :=
  trueMean e50 f l (∑ j : Fin p, R.X i j * b j + b0 + (R.off.getD fun _ => 0) i)

/-- Without noise: on every row that counts the response is exactly the mean under `b0`, `b`. -/
def Spec.NoiseFree (p : ℕ) (e50 : ℝ) (f : Family) (l : Link) (R : Rows n) (b0 : ℝ) (b : ℕ → ℝ) : Prop :=
  ∀ i, 0 < R.sw i → R.y i = rowMean p e50 f l R b0 b i

/-- No combination of the columns (and the constant, if there is an intercept) vanishes on all rows that count. -/
def Spec.FullRank (p : ℕ) (ic : Bool) (R : Rows n) : Prop :=
  ∀ (d0 : ℝ) (d : ℕ → ℝ), (ic = false → d0 = 0) → (∀ i, 0 < R.sw i → ∑ j : Fin p, R.X i j * d j + d0 = 0) → d0 = 0 ∧ ∀ j < p, d j = 0

/-- The inverse link of a compiled pair is injective. -/
theorem trueMean_injective (e50 : ℝ) (f : Family) (l : Link) (k : Fast) (hk : f.fast l = some k) : Function.Injective (trueMean e50 f l) := by
  intro x y hxy
  have hex : Real.exp x = Real.exp y → x = y := fun h => Real.exp_injective h
  cases f with
  | normal => cases l <;> simp only [Family.fast, reduceCtorEq] at hk; exact hxy
  | poisson => cases l <;> simp only [Family.fast, reduceCtorEq] at hk; exact hex hxy
  | gamma => cases l <;> simp only [Family.fast, reduceCtorEq] at hk; exact hex hxy
  | invGaussian => cases l <;> simp only [Family.fast, reduceCtorEq] at hk; exact hex hxy
  | ghs => cases l <;> simp [Family.fast] at hk
  | binomial =>
    cases l <;> simp only [Family.fast, reduceCtorEq] at hk
    have h1 : 1 / (1 + Real.exp (-x)) = 1 / (1 + Real.exp (-y)) := hxy
    have hx := Real.exp_pos (-x)
    have hy := Real.exp_pos (-y)
    rw [div_eq_div_iff (by linarith) (by linarith)] at h1
    have h2 : Real.exp (-x) = Real.exp (-y) := by linarith
    have := Real.exp_injective h2
    linarith
  | negBinomial theta => cases l <;> simp only [Family.fast, reduceCtorEq] at hk; exact hex hxy
  | tweedie q =>
    cases l with
    | identity => exact hxy
    | log => exact hex hxy
    | logit => simp [Family.fast] at hk
    | cloglog => simp [Family.fast] at hk
    | tweedie r => simp [Family.fast] at hk

/-- The loss part of the objective. -/
theorem objective_alpha_zero (e50 : ℝ) (f : Family) (l : Link) (R : Rows n) (s : ℕ → ℝ) (P1a : P1Arg) (P2a : P2Arg) (l1r b0 : ℝ) (b : ℕ → ℝ) :
    fitObjective p e50 f l R s P1a P2a 0 l1r b0 b = 1 / 2 * ∑ i, R.sw i * f.unitDeviance (R.y i) (rowMean p e50 f l R b0 b i) := by
  unfold fitObjective rowMean
  ring

/-- On noise-free data no coefficients do better than the true ones, row by row. -/
theorem noiseFree_row (e50 : ℝ) (f : Family) (hf : Valid f) (l : Link) (k : Fast) (hk : f.fast l = some k) (R : Rows n) (hy : ∀ i, R.y i ∈ ySupport f)
    (hsw : ∀ i, 0 ≤ R.sw i) (b0 : ℝ) (b : ℕ → ℝ) (hnf : NoiseFree p e50 f l R b0 b) (c0 : ℝ) (c : ℕ → ℝ) (i : Fin n) :
    R.sw i * f.unitDeviance (R.y i) (rowMean p e50 f l R b0 b i) ≤ R.sw i * f.unitDeviance (R.y i) (rowMean p e50 f l R c0 c i) ∧
    (0 < R.sw i → rowMean p e50 f l R c0 c i ≠ R.y i →
      R.sw i * f.unitDeviance (R.y i) (rowMean p e50 f l R b0 b i) < R.sw i * f.unitDeviance (R.y i) (rowMean p e50 f l R c0 c i)) := by
  have hm : ∀ d0 d, rowMean p e50 f l R d0 d i ∈ muRange f := fun d0 d => (trueMean_hasDeriv e50 f l k hk _).2
  have hlt : 0 < R.sw i → rowMean p e50 f l R c0 c i ≠ R.y i →
      R.sw i * f.unitDeviance (R.y i) (rowMean p e50 f l R b0 b i) < R.sw i * f.unitDeviance (R.y i) (rowMean p e50 f l R c0 c i) := by
    intro hpos hne
    refine mul_lt_mul_of_pos_left ?_ hpos
    have e := hnf i hpos
    rw [← e]
    exact deviance_strict_min f hf _ _ (hy i) (by rw [e]; exact hm b0 b) (hm c0 c) fun h => hne h.symm
  refine ⟨?_, hlt⟩
  rcases (hsw i).lt_or_eq with hpos | h0
  · by_cases he : rowMean p e50 f l R c0 c i = R.y i
    · rw [he, ← hnf i hpos]
    · exact (hlt hpos he).le
  · rw [← h0]; simp

/-- **C123, solutions.** On noise-free data, without penalty, the solutions are exactly the admissible coefficients that reproduce the response on every row that counts. -/
theorem c123_solutions (C : FitCfg p ic) (hf : Valid C.family) (k : Fast) (hk : C.family.fast C.link = some k) (R : Rows n)
    (hy : ∀ i, R.y i ∈ ySupport C.family) (hsw : ∀ i, 0 ≤ R.sw i) (s : ℕ → ℝ) (l1r b0 : ℝ) (b : ℕ → ℝ) (h0 : ic = false → b0 = 0)
    (hb : WithinBounds p C.lb C.ub b) (hnf : NoiseFree p C.e50 C.family C.link R b0 b) (c0 : ℝ) (c : ℕ → ℝ) :
    Solves p ic C.lb C.ub (fitObjective p C.e50 C.family C.link R s C.P1a C.P2a 0 l1r) c0 c ↔
      (ic = false → c0 = 0) ∧ WithinBounds p C.lb C.ub c ∧ NoiseFree p C.e50 C.family C.link R c0 c := by
  have row := noiseFree_row (p := p) C.e50 C.family hf C.link k hk R hy hsw
  constructor
  · rintro ⟨h1, h2, h3⟩
    refine ⟨h1, h2, fun i hi => ?_⟩
    by_contra hne
    have hle := h3 b0 b h0 hb
    rw [objective_alpha_zero, objective_alpha_zero] at hle
    have hlt : ∑ i, R.sw i * C.family.unitDeviance (R.y i) (rowMean p C.e50 C.family C.link R b0 b i)
        < ∑ i, R.sw i * C.family.unitDeviance (R.y i) (rowMean p C.e50 C.family C.link R c0 c i) :=
      Finset.sum_lt_sum (fun i _ => (row b0 b hnf c0 c i).1) ⟨i, Finset.mem_univ _, (row b0 b hnf c0 c i).2 hi fun h => hne h.symm⟩
    linarith
  · rintro ⟨h1, h2, h3⟩
    refine ⟨h1, h2, fun d0 d _ _ => ?_⟩
    rw [objective_alpha_zero, objective_alpha_zero]
    have := Finset.sum_le_sum fun i (_ : i ∈ Finset.univ) => (row c0 c h3 d0 d i).1
    linarith

/-- **C123, uniqueness.** With full rank the true coefficients are the only solution. -/
theorem c123_unique (C : FitCfg p ic) (hf : Valid C.family) (k : Fast) (hk : C.family.fast C.link = some k) (R : Rows n)
    (hy : ∀ i, R.y i ∈ ySupport C.family) (hsw : ∀ i, 0 ≤ R.sw i) (s : ℕ → ℝ) (l1r b0 : ℝ) (b : ℕ → ℝ) (h0 : ic = false → b0 = 0)
    (hb : WithinBounds p C.lb C.ub b) (hnf : NoiseFree p C.e50 C.family C.link R b0 b) (hrank : FullRank p ic R) :
    Solves p ic C.lb C.ub (fitObjective p C.e50 C.family C.link R s C.P1a C.P2a 0 l1r) b0 b ∧
    ∀ (c0 : ℝ) (c : ℕ → ℝ), Solves p ic C.lb C.ub (fitObjective p C.e50 C.family C.link R s C.P1a C.P2a 0 l1r) c0 c → c0 = b0 ∧ ∀ j < p, c j = b j := by
  refine ⟨(c123_solutions C hf k hk R hy hsw s l1r b0 b h0 hb hnf b0 b).2 ⟨h0, hb, hnf⟩, fun c0 c hc => ?_⟩
  obtain ⟨g0, -, hm⟩ := (c123_solutions C hf k hk R hy hsw s l1r b0 b h0 hb hnf c0 c).1 hc
  obtain ⟨e0, e⟩ := hrank (c0 - b0) (fun j => c j - b j) (fun hi => by rw [g0 hi, h0 hi, sub_zero]) fun i hi => by
    have h1 := trueMean_injective C.e50 C.family C.link k hk ((hm i hi).symm.trans (hnf i hi))
    simp only [mul_sub, Finset.sum_sub_distrib]
    linarith
  exact ⟨by linarith, fun j hj => by have := e j hj; linarith⟩

/-- **C123, recovery.** The coefficients that generated noise-free data of full rank are recovered to any accuracy: every fit without penalty with a small enough `gradient_tol` that raises
no `ConvergenceWarning` and stays within the bounds — whatever the inner solver, the start, the path before `alpha = 0`, the standardisation, the random numbers and the limits — reports
an intercept and coefficients within `ε` of the true ones. -/
theorem c123_recovered (C : FitCfg p ic) (stats : Stats) (R : Rows n) (l1r : ℝ) (h : ConvexFit C R l1r)
    (hs : ∀ j, 0 ≤ (stats n R.X R.sw).2 j) (b0 : ℝ) (b : ℕ → ℝ) (h0 : ic = false → b0 = 0)
    (hb : WithinBounds p C.lb C.ub b) (hnf : NoiseFree p C.e50 C.family C.link R b0 b) (hrank : FullRank p ic R) (ε : ℝ) (hε : 0 < ε) :
    ∃ δ : ℝ, 0 < δ ∧ ∀ (next : (ℕ → BitVec 32) → ℕ → (ℕ → BitVec 32)) (inner : (ℕ → BitVec 32) → (m : ℕ) → Inner m p ic) (C' : FitCfg p ic),
      SameProblem C C' → C'.stepTol = none → C'.gradTol < δ →
      ∀ (sp : AlphaSpec) (s t : SolverLog) (r : PathResult), glmFit C' stats (irlsSolver next inner) R l1r sp s = some (t, r) →
        (∀ x ∈ r.alphas, 0 ≤ x) → t.convWarn = s.convWarn →
        ∀ (i : ℕ) (hi : i < r.alphas.length) (hc : i < r.coefPath.length) (hb : i < r.interceptPath.length), r.alphas[i] = 0 →
          WithinBounds p C.lb C.ub r.coefPath[i] → |r.interceptPath[i] - b0| ≤ ε ∧ ∀ j < p, |r.coefPath[i] j - b j| ≤ ε := by
  obtain ⟨k, hk, -⟩ := h.pair
  obtain ⟨h1, h2⟩ := c123_unique C h.valid k hk R h.y h.sw (penScale C.thr C.asIfScaled (stats n R.X R.sw).2) l1r b0 b h0 hb hnf hrank
  exact c90_fits_converge_unique C stats R l1r 0 h le_rfl hs b0 b h1 h2 ε hε

/-- **C123, least squares.** In exact arithmetic an unpenalised linear regression with `irls-ls` recovers noise-free coefficients exactly, in one step. -/
theorem c123_least_squares (next : (ℕ → BitVec 32) → ℕ → (ℕ → BitVec 32))
    (solve : (Fin (p + ic.toNat) → Fin (p + ic.toNat) → ℝ) → (Fin (p + ic.toNat) → ℝ) → (Fin (p + ic.toNat) → ℝ))
    (hsolve : ∀ H s, (∀ v : Fin (p + ic.toNat) → ℝ, (∀ i, ∑ j, H i j * v j = 0) → ∀ j, v j = 0) → ∀ k, ∑ j, H k j * solve H s j = s k)
    (C : FitCfg p ic) (stats : Stats) (R : Rows n) (l1r : ℝ) (h : ConvexFit C R l1r) (hfam : C.family = .normal) (hlink : C.link = .identity)
    (hs : ∀ j, 0 ≤ (stats n R.X R.sw).2 j) (hsw : ∑ i, R.sw i = 1) (hcold : C.start = .cold) (hlb : C.lb = none) (hub : C.ub = none)
    (heps : 0 ≤ C.eps) (hg : 0 < C.gradTol) (hl1 : ∀ j, l1r * userP1 C.P1a j = 0)
    (b0 : ℝ) (b : ℕ → ℝ) (h0 : ic = false → b0 = 0) (hnf : NoiseFree p C.e50 C.family C.link R b0 b) (hrank : FullRank p ic R)
    (hlarge : ∀ (c0 : ℝ) (c : ℕ → ℝ),
      fitObjective p C.e50 C.family C.link R (penScale C.thr C.asIfScaled (stats n R.X R.sw).2) C.P1a C.P2a 0 l1r c0 c
        ≤ fitObjective p C.e50 C.family C.link R (penScale C.thr C.asIfScaled (stats n R.X R.sw).2) C.P1a C.P2a 0 l1r (coldIntercept ic R)
            (fun _ => 0) → ∀ i, ∑ j : Fin p, R.X i j * c j + c0 + (R.off.getD fun _ => 0) i < C.large)
    (s s' : SolverLog) (r : PathResult)
    (hfit : glmFit (C.forSolver .irlsLs) stats (irlsSolver next fun _ _ => lsInner solve) R l1r (.single 0) s = some (s', r)) :
    s'.convWarn = s.convWarn ∧ s'.nIter ≤ 1 ∧ (s'.nIter = 1 → r.intercept = b0 ∧ ∀ j < p, r.coef j = b j) := by
  obtain ⟨h1, -, h2, h3⟩ := c76_fit_ls next solve hsolve C stats R l1r h hfam hlink hs hsw hcold hlb hub heps hg hl1 0 le_rfl
    (fun d0 d hd0 hd _ => hrank d0 d hd0 fun i hi => by
      have := hd i
      rcases mul_eq_zero.1 this with h | h
      · exact absurd h hi.ne'
      · exact pow_eq_zero_iff (two_ne_zero) |>.1 h) hlarge s s' r hfit
  have hr0 : ic = false → r.intercept = 0 := by
    intro hic
    obtain ⟨Q, -, -, -, hst, -⟩ := glmFit_spec _ stats _ R l1r _ s s' r hfit
    obtain ⟨-, -, -, -, hl, hz, -⟩ := c41_stored _ _ _ _ _ _ hst
    exact hz hic _ (List.mem_of_getLast? hl)
  refine ⟨h1, h2, fun hn => ?_⟩
  obtain ⟨k, hk, -⟩ := h.pair
  have hb : ∀ b, WithinBounds p C.lb C.ub b := fun b j _ => ⟨(fun l hl => by rw [hlb] at hl; cases hl), (fun u hu => by rw [hub] at hu; cases hu)⟩
  refine (c123_unique C h.valid k hk R h.y h.sw (penScale C.thr C.asIfScaled (stats n R.X R.sw).2) l1r b0 b h0 (hb b) hnf hrank).2 _ _
    ⟨hr0, hb _, fun c0 c hc0 _ => h3 hn c0 c hc0⟩

/-- **C123, with a penalty.** With a penalty the true coefficients are not recovered, but the fit is no worse than the penalty of the truth: half the excess deviance of a solution is at most
`alpha` times the penalty of the true coefficients. -/
theorem c123_penalised (C : FitCfg p ic) (R : Rows n) (l1r a : ℝ) (h : ConvexFit C R l1r) (ha : 0 ≤ a) (s : ℕ → ℝ) (b0 : ℝ) (b : ℕ → ℝ)
    (h0 : ic = false → b0 = 0) (hb : WithinBounds p C.lb C.ub b) (hnf : NoiseFree p C.e50 C.family C.link R b0 b) (c0 : ℝ) (c : ℕ → ℝ)
    (hc : Solves p ic C.lb C.ub (fitObjective p C.e50 C.family C.link R s C.P1a C.P2a a l1r) c0 c) :
    1 / 2 * ∑ i, R.sw i * (C.family.unitDeviance (R.y i) (rowMean p C.e50 C.family C.link R c0 c i) - C.family.unitDeviance (R.y i) (R.y i))
      ≤ a * (l1r * ∑ j : Fin p, userP1 C.P1a j * |b j * s j|
        + (1 - l1r) * (1 / 2 * ∑ j : Fin p, ∑ k : Fin p, userP2 C.P2a j k * (b j * s j) * (b k * s k))) := by
  have hle := hc.2.2 b0 b h0 hb
  unfold fitObjective at hle
  have e : ∑ i, R.sw i * (C.family.unitDeviance (R.y i) (rowMean p C.e50 C.family C.link R c0 c i) - C.family.unitDeviance (R.y i) (R.y i))
      = ∑ i, R.sw i * C.family.unitDeviance (R.y i) (rowMean p C.e50 C.family C.link R c0 c i)
        - ∑ i, R.sw i * C.family.unitDeviance (R.y i) (rowMean p C.e50 C.family C.link R b0 b i) := by
    rw [← Finset.sum_sub_distrib]
    refine Finset.sum_congr rfl fun i _ => ?_
    rcases (h.sw i).lt_or_eq with hi | hi
    · rw [← hnf i hi]; ring
    · rw [← hi]; ring
  rw [e]
  have p1 : 0 ≤ ∑ j : Fin p, userP1 C.P1a j * |c j * s j| := Finset.sum_nonneg fun j _ => mul_nonneg (h.p1 j) (abs_nonneg _)
  have p2 : 0 ≤ ∑ j : Fin p, ∑ k : Fin p, userP2 C.P2a j k * (c j * s j) * (c k * s k) := h.p2 fun j => c j * s j
  have q1 : 0 ≤ a * l1r * ∑ j : Fin p, userP1 C.P1a j * |c j * s j| := mul_nonneg (mul_nonneg ha h.l1.1) p1
  have q2 : 0 ≤ a * (1 - l1r) * (1 / 2 * ∑ j : Fin p, ∑ k : Fin p, userP2 C.P2a j k * (c j * s j) * (c k * s k)) :=
    mul_nonneg (mul_nonneg ha (by linarith [h.l1.2])) (by linarith)
  simp only [rowMean]
  linarith

/-! ### The hypotheses are met -/

/-- Two rows lie on the line `2 + x`. -/
theorem tiny_noiseFree : NoiseFree 1 0 .normal .identity tinyRows 2 fun _ => 1 := by
  intro i _
  show _ = trueMean 0 .normal .identity _
  rw [trueMean_identity]
  fin_cases i <;> simp [tinyRows] <;> norm_num

theorem tiny_fullRank : FullRank 1 true tinyRows := by
  intro d0 d _ h
  have h1 := h 0 (by norm_num [tinyRows])
  have h2 := h 1 (by norm_num [tinyRows])
  simp [tinyRows] at h1 h2
  refine ⟨by linarith, fun j hj => ?_⟩
  have : j = 0 := by omega
  subst this
  linarith

/-- Least squares on these rows meets the hypotheses, and the fit exists. -/
example (next : (ℕ → BitVec 32) → ℕ → (ℕ → BitVec 32)) (N M : ℕ) (s : SolverLog) :
    ∃ s' r, glmFit ((tinyCfg N M).forSolver .irlsLs) tinyStats (irlsSolver next fun _ _ => lsInner invSolve) tinyRows 0 (.single 0) s = some (s', r) ∧
      s'.convWarn = s.convWarn ∧ (s'.nIter = 1 → r.intercept = 2 ∧ ∀ j < 1, r.coef j = 1) := by
  obtain ⟨Q, -, hQ, -, -⟩ := tiny_fits s N M .irlsLs (irlsSolver next fun _ _ => lsInner invSolve)
  obtain ⟨r, hr, -⟩ := glmFit_single ((tinyCfg N M).forSolver .irlsLs) tinyStats (irlsSolver next fun _ _ => lsInner invSolve) tinyRows 0 0 s Q hQ
    (by rintro ⟨l, u, h, -⟩; cases h) (fun _ => rfl)
  refine ⟨_, r, hr, ?_⟩
  have hz : ∀ (b0 : ℝ) (b st : ℕ → ℝ), fitObjective 1 0 .normal .identity tinyRows st .none .none 0 0 b0 b
      = 1 / 4 * ((3 - (b 0 + b0)) ^ 2 + (1 - (-b 0 + b0)) ^ 2) := by
    intro b0 b st
    have ht : ∀ e, trueMean 0 .normal .identity e = e := fun _ => rfl
    have hd : ∀ y m, Family.unitDeviance .normal y m = (y - m) ^ 2 := fun _ _ => rfl
    unfold fitObjective
    simp [ht, hd, userP2, tinyRows]
    ring
  obtain ⟨h1, -, h2⟩ := c123_least_squares next invSolve invSolve_spec (tinyCfg N M) tinyStats tinyRows 0 (tiny_convex N M) rfl rfl (fun _ => zero_le_one)
    (by simp [tinyRows]) rfl rfl rfl (by norm_num [tinyCfg]) (by norm_num [tinyCfg]) (fun j => zero_mul _) 2 (fun _ => 1) (fun h => by cases h) tiny_noiseFree tiny_fullRank
    (by
      intro c0 c hle i
      have hcold : coldIntercept true tinyRows = 2 := by
        simp [coldIntercept, average, tinyRows]
        norm_num
      rw [hcold] at hle
      change fitObjective 1 0 .normal .identity tinyRows _ .none .none 0 0 c0 c ≤ fitObjective 1 0 .normal .identity tinyRows _ .none .none 0 0 2 _ at hle
      rw [hz, hz] at hle
      have hlt : ∀ x y : ℝ, (y - x) ^ 2 ≤ 2 → y ≤ 3 → x < 10 ^ 43 := by
        intro x y h1 h2
        have : x - y ≤ 2 := by nlinarith
        linarith [show (5 : ℝ) < 10 ^ 43 by norm_num]
      have hx : ∑ j : Fin 1, tinyRows.X i j * c j + c0 + (tinyRows.off.getD fun _ => 0) i = if i = 0 then c 0 + c0 else -c 0 + c0 := by
        fin_cases i <;> simp [tinyRows]
      show _ < (10 : ℝ) ^ 43
      rw [hx]
      norm_num at hle
      split
      · exact hlt _ 3 (by nlinarith [sq_nonneg (1 - (-c 0 + c0))]) le_rfl
      · exact hlt _ 1 (by nlinarith [sq_nonneg (3 - (c 0 + c0))]) (by norm_num)) s _ r hr
  exact ⟨h1, h2⟩

/-- Poisson counts on two rows that follow `exp (1 + x)` exactly. -/
noncomputable def curveRows : Rows 2 := { tinyRows with y := fun i => if i = 0 then Real.exp 2 else Real.exp 0 }

example : ConvexFit (flatCfg 1) curveRows 0 ∧ NoiseFree 1 (flatCfg 1).e50 (flatCfg 1).family (flatCfg 1).link curveRows 1 (fun _ => 1) ∧
    FullRank 1 true curveRows ∧ ∀ j, 0 ≤ (tinyStats 2 curveRows.X curveRows.sw).2 j where
  left := ⟨by norm_num [flatCfg, tinyCfg], by trivial, ⟨.poissonLog, rfl, by simp⟩, fun i => by
      show (0 : ℝ) ≤ if i = 0 then Real.exp 2 else Real.exp 0
      split <;> exact (Real.exp_pos _).le, fun i => by norm_num [curveRows, tinyRows], fun j => by simp [flatCfg, tinyCfg, userP1], fun v => by
      simp [flatCfg, tinyCfg, userP2]
      exact mul_self_nonneg _, le_rfl, zero_le_one⟩
  right := by
    refine ⟨fun i _ => ?_, tiny_fullRank, fun j => zero_le_one⟩
    show (if i = 0 then Real.exp 2 else Real.exp 0) = trueMean 0 .poisson .log _
    rw [trueMean_log]
    fin_cases i
    · simp [curveRows, tinyRows]; norm_num
    · simp [curveRows, tinyRows]

/-- **C123, ridge counterexample.** The ridge solution of the noise-free rows `2 + x` is not the line that generated them. -/
theorem c123_ridge_shrinks : ¬ Solves 1 true none none (fitObjective 1 0 .normal .identity tinyRows (fun _ => 1) .none .none 1 0) 2 fun _ => 1 := by
  rintro ⟨-, -, h⟩
  have := h 2 (fun _ => 1 / 2) (fun h => by cases h) fun j _ => ⟨(fun l hl => by cases hl), (fun u hu => by cases hu)⟩
  rw [tiny_objective _ _ _ fun _ => rfl, tiny_objective _ _ _ fun _ => rfl] at this
  norm_num at this

end Glum
