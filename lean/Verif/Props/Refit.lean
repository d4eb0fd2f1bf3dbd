import Verif.Props.Agree
/-
C80: refitting from the previous solution (`warm_start`, or `start_params` set to it) changes nothing.
-/
set_option linter.unusedSectionVars false
set_option linter.unusedVariables false
set_option linter.unusedSimpArgs false

namespace Glum
open Spec

variable {n p : ℕ} {ic : Bool}

theorem glmFit_p2ok {σ : Type} (C : FitCfg p ic) (stats : Stats) (solver : SolverFn σ p ic) (R : Rows n) (l1r : ℝ) (a : AlphaSpec)
    (s s' : σ) (r : PathResult) (h : glmFit C stats solver R l1r a s = some (s', r)) (P2 : Pen2 ℝ) (h2 : setupP2 p C.xsp 1 l1r C.P2a = some P2) :
    C.p2ok P2 = true := by
  unfold glmFit at h
  split at h
  · cases h
  · rw [h2] at h
    simp only [Option.bind_eq_bind, Option.bind_some] at h
    split at h
    · cases h
    · next hne => simpa using hne

/-- The start computed from a reported solution is the solver's vector it came from. -/
theorem start_of_report (thr : ℝ) (ht : 0 < thr) (means stds : ℕ → ℝ) (hs : ∀ j, 0 ≤ stds j) (hthr : ∀ j < p, thr ≤ stds j) (guess : ℝ)
    (c : Fin (p + true.toNat) → ℝ) :
    rawStart true thr means stds guess (.previous (coefVec (p := p) true (report true thr means stds c))) = c := by
  funext k
  set w := rawStart true thr means stds guess (.previous (coefVec (p := p) true (report true thr means stds c))) with hw
  have hrt := (c17_round_trip_partial (p := p) thr ht means stds hthr guess (coefVec (p := p) true (report true thr means stds c))).1
  rw [← (c17_round_trip_partial (p := p) thr ht means stds hthr guess (coefVec (p := p) true (report true thr means stds c))).2, ← hw] at hrt
  have h2 : ∀ j < p, (report true thr means stds w).2 j = (report true thr means stds c).2 j := by
    intro j hj
    have := congrArg (fun v => feat true v j) hrt
    simpa only [coefVec_feat (ic := true) _ (⟨j, hj⟩ : Fin p)] using this
  have h1 : (report true thr means stds w).1 = (report true thr means stds c).1 := by
    have := congrFun hrt (⟨0, by simp⟩ : Fin (p + true.toNat))
    simpa [coefVec] using this
  have := report_close (p := p) (ic := true) thr ht means stds hs 0 c w ⟨fun j hj => by rw [h2 j hj]; simp, fun _ => by
    rw [h1]
    have : ∑ j : Fin p, means j * (report true thr means stds w).2 j = ∑ j : Fin p, means j * (report true thr means stds c).2 j :=
      Finset.sum_congr rfl fun j _ => by rw [h2 j j.2]
    rw [this]; simp⟩ k
  have := abs_nonpos_iff.1 this
  linarith

/-- Where a refit starts: at the coefficients of row `i` of the path of an earlier fit; all tuning parameters may change, `gradient_tol` may
only grow. -/
noncomputable def Spec.refitCfg (C : FitCfg p true) (b0 : ℝ) (b : ℕ → ℝ) (warm : Bool) (N M : ℕ) (tol hess : ℝ) (inTol : Option ℝ) (random : Bool) :
    FitCfg p true :=
  { C with
    start := if warm then .previous (coefVec (p := p) true (b0, b)) else .given (coefVec (p := p) true (b0, b))
    maxIter := N, maxInnerIter := M, gradTol := tol, hessApprox := hess, fixedInnerTol := inTol, random := random }

/-- **C80** (with an intercept, without bounds and constant columns).  `fit` with an IRLS solver raised no `ConvergenceWarning`.  Fitting
again the same data with one of its alphas, from the coefficients found (`warm_start=True` or `start_params`), with any IRLS solver, limits,
random numbers and a tolerance that is not smaller, takes no iteration, raises no warning and returns exactly these coefficients. -/
theorem c80_refit_partial (next next' : (ℕ → BitVec 32) → ℕ → (ℕ → BitVec 32))
    (inner inner' : (ℕ → BitVec 32) → (m : ℕ) → Inner m p true) (C : FitCfg p true) (ht : 0 < C.thr) (hlb : C.lb = none) (hub : C.ub = none)
    (stats : Stats) (R : Rows n) (l1r : ℝ) (hl : 0 ≤ l1r) (hp1 : ∀ j, 0 ≤ userP1 C.P1a j)
    (hs : ∀ j, 0 ≤ (stats n R.X R.sw).2 j) (hthr : ∀ j < p, C.thr ≤ (stats n R.X R.sw).2 j) (hstep : C.stepTol = none)
    (a : AlphaSpec) (s t : SolverLog) (r : PathResult)
    (hfit : glmFit C stats (irlsSolver next inner) R l1r a s = some (t, r)) (ha : ∀ x ∈ r.alphas, 0 ≤ x)
    (hw : t.convWarn = s.convWarn) (i : ℕ) (hi : i < r.alphas.length) (hc : i < r.coefPath.length) (hb : i < r.interceptPath.length)
    (warm : Bool) (N M : ℕ) (tol hess : ℝ) (htol : C.gradTol ≤ tol) (inTol : Option ℝ) (random : Bool) (s' : SolverLog) :
    ∃ t' r', glmFit (refitCfg C r.interceptPath[i] r.coefPath[i] warm N M tol hess inTol random) stats (irlsSolver next' inner') R l1r
        (.single r.alphas[i]) s' = some (t', r') ∧
      r'.coef = r.coefPath[i] ∧ r'.intercept = r.interceptPath[i] ∧ t'.nIter = 0 ∧ t'.convWarn = s'.convWarn ∧ t'.lsWarn = s'.lsWarn := by
  obtain ⟨P1, P2, h1, h2, c, e0, e, hn⟩ := rows_stopped next inner C ht stats R l1r hl hp1 hs hstep a s t r hfit ha hw i hi hc hb
  simp only at hn
  have hok := glmFit_p2ok C stats _ R l1r a s t r hfit P2 h2
  obtain ⟨Q0, -, -, -, -, hbad⟩ := glmFit_spec C stats _ R l1r a s t r hfit
  set C' := refitCfg C r.interceptPath[i] r.coefPath[i] warm N M tol hess inTol random with hC'
  set means := (stats n R.X R.sw).1 with hmeans
  set stds := (stats n R.X R.sw).2 with hstds
  have hrep : (r.interceptPath[i], r.coefPath[i]) = report true C.thr means stds c := Prod.ext e0 e
  have hstart : getStartCoef true C.thr means stds 0 none none C'.start = c := by
    have hraw : rawStart true C.thr means stds 0 C'.start = c := by
      have h3 := start_of_report C.thr ht means stds hs hthr 0 c
      rw [← hrep] at h3
      rw [hC']
      cases warm <;> exact h3
    funext k
    unfold getStartCoef clipStart
    rw [hraw]
    simp
  have hprep : prepare C' stats R l1r = some
      { means := means, stds := stds, D := stdData C.thr C.asIfScaled means stds (C'.problem R P1 P2),
        A := C.A.map fun a r j => a r j * oneOverStd C.thr 1 (stds j), start := c } := by
    have hg : startGuess C' R = some 0 := by
      rw [hC']; cases warm <;> rfl
    unfold prepare
    have h1' : setupP1 p 1 l1r C'.P1a = some P1 := h1
    have h2' : setupP2 p C'.xsp 1 l1r C'.P2a = some P2 := h2
    have hst' : getStartCoef true C'.thr means stds 0 C'.lb C'.ub C'.start = c := by
      have : C'.lb = none := hlb
      have h4 : C'.ub = none := hub
      rw [this, h4]; exact hstart
    rw [h1', h2', hg]
    simp only [Option.bind_eq_bind, Option.bind_some]
    rw [hst']
    rfl
  -- the stopping rule holds at the start
  set D := stdData C.thr C.asIfScaled means stds (C.problem R (fun j => P1 j * r.alphas[i]) (P2.smul r.alphas[i])) with hD
  set D' := stdData C.thr C.asIfScaled means stds (C'.problem R (fun j => P1 j * r.alphas[i]) (P2.smul r.alphas[i])) with hD'
  have hP' : ∀ k, 0 ≤ D'.P1 k := fun k => std_P1_nonneg C ht R l1r hl hp1 means stds hs P1 P2 h1 _ (ha _ (List.getElem_mem hi)) k
  have hstop : (normMinSubgrad (List.finRange (p + true.toNat)) c (fun k => -scoreAt D' c k) D'.P1 true D'.lb D'.ub).1 < D'.gradTol :=
    lt_of_lt_of_le hn htol
  obtain ⟨hcoef, hit, hconv⟩ := c32_converged_start (inner' s'.seeds n) D' hP' c hstop
  have hdiag : (irlsRun (inner' s'.seeds n) D' c).diagnostics.filter (·.warned) = [] := by
    have : irlsRun (inner' s'.seeds n) D' c = irlsInit D' c := by
      have hc0 : (irlsInit D' c).converged = true := (converged_iff (inner' s'.seeds n) D' hP' c _ Visited.init).mpr (Or.inl hstop)
      unfold irlsRun
      cases D'.maxIter with
      | zero => rfl
      | succ k => unfold irlsLoop; rw [if_neg (by simp [hc0])]
    rw [this]; simp [irlsInit]
  unfold glmFit
  have hbad' : ¬ C'.boundsBad := hbad
  have h2' : setupP2 p C'.xsp 1 l1r C'.P2a = some P2 := h2
  have hok' : ¬ C'.p2ok P2 = false := by
    have : C'.p2ok P2 = true := hok
    simp [this]
  rw [if_neg hbad', h2', hprep]
  simp only [Option.bind_eq_bind, Option.bind_some, AlphaSpec.eval]
  rw [if_neg hok']
  refine ⟨_, _, rfl, ?_⟩
  have hwp : (stdData C.thr C.asIfScaled means stds (C'.problem R P1 P2)).withPen
      (fun j => (stdData C.thr C.asIfScaled means stds (C'.problem R P1 P2)).P1 j * r.alphas[i])
      ((stdData C.thr C.asIfScaled means stds (C'.problem R P1 P2)).P2.smul r.alphas[i]) = D' := withPen_std _ _ _ _ C' R P1 P2 _
  simp only [Prepared.path, solvePath, Prepared.solveFn, List.map_cons, List.map_nil, irlsSolver, hwp, hcoef, hit, hconv, hdiag, if_true]
  have hthr' : C'.thr = C.thr := rfl
  refine ⟨?_, ?_, trivial, ?_, ?_⟩
  · exact (congrArg Prod.snd hrep).symm
  · exact (congrArg Prod.fst hrep).symm
  · simp
  · simp

/-- Ridge regression on the two rows meets the hypotheses. -/
example (next next' : (ℕ → BitVec 32) → ℕ → (ℕ → BitVec 32)) (N M N' M' : ℕ) (s s' : SolverLog) (inner' : (ℕ → BitVec 32) → (m : ℕ) → Inner m 1 true) :
    ∃ t r, glmFit ((tinyCfg N M).forSolver .irlsLs) tinyStats (irlsSolver next fun _ _ => lsInner invSolve) tinyRows 0 (.single 1) s = some (t, r) ∧
      ∀ (hc : 0 < r.coefPath.length) (hb : 0 < r.interceptPath.length), ∃ t' r',
        glmFit (refitCfg ((tinyCfg N M).forSolver .irlsLs) r.interceptPath[0] r.coefPath[0] true N' M' 1 0 none false) tinyStats
          (irlsSolver next' inner') tinyRows 0 (.single 1) s' = some (t', r') ∧ r'.coef = r.coefPath[0] ∧ t'.nIter = 0 := by
  obtain ⟨t, r, h, hw, -, -⟩ := tiny_ls next N M s
  have hal : r.alphas = [1] := by
    obtain ⟨Q, -, hal, -⟩ := glmFit_spec _ _ _ _ _ _ _ _ _ h
    simpa [AlphaSpec.eval] using hal.symm
  refine ⟨t, r, h, fun hc hb => ?_⟩
  have he : r.alphas[0]'(by rw [hal]; simp) = 1 := by simp [hal]
  obtain ⟨t', r', h', e1, -, e2, -⟩ := c80_refit_partial next next' (fun _ _ => lsInner invSolve) inner' ((tinyCfg N M).forSolver .irlsLs)
    (tiny_convex N M).thr rfl rfl tinyStats tinyRows 0 le_rfl (tiny_convex N M).p1 (fun _ => zero_le_one)
    (fun j _ => by norm_num [tinyCfg, FitCfg.forSolver, tinyStats]) rfl (.single 1) s t r h (by rw [hal]; simp) hw 0 (by rw [hal]; simp) hc hb
    true N' M' 1 0 (by norm_num [tinyCfg, FitCfg.forSolver]) none false s'
  rw [he] at h'
  exact ⟨t', r', h', e1, e2⟩

/-! ### Counterexample: no intercept -/

/-- Two rows `x = ±2`, `y = ±2`. -/
noncomputable def warmRows : Rows 2 where
  X := fun i _ => if i = 0 then 2 else -2
  y := fun i => if i = 0 then 2 else -2
  sw := fun _ => 1 / 2
  off := none

/-- Least squares without intercept; `start`: where to start. -/
noncomputable def warmCfg (start : StartFrom 1 false) (N : ℕ) : FitCfg 1 false where
  family := .normal
  link := .identity
  e50 := 0
  thr := 1 / 10 ^ 6
  asIfScaled := false
  xsp := false
  P1a := .none
  P2a := .none
  lb := none
  ub := none
  A := none
  start := start
  p2ok := fun _ => true
  maxIter := N
  maxInnerIter := 1
  gradTol := 1 / 10000
  stepTol := none
  hessApprox := 0
  fixedInnerTol := none
  random := false
  eps := 1 / 10 ^ 16
  large := 10 ^ 43

/-- The standard deviation of the column is two. -/
def warmStats : Stats := fun _ _ _ => (fun _ => 0, fun _ => 2)

theorem warm_convex (start : StartFrom 1 false) (N : ℕ) : ConvexFit (warmCfg start N) warmRows 0 where
  thr := by norm_num [warmCfg]
  valid := by trivial
  pair := ⟨.normalIdentity, rfl, by simp⟩
  y := fun i => by trivial
  sw := fun i => by norm_num [warmRows]
  p1 := fun j => by simp [warmCfg, userP1]
  p2 := fun v => by
    simp [warmCfg, userP2]
    exact mul_self_nonneg _
  l1 := ⟨le_rfl, zero_le_one⟩

theorem warm_prepared (start : StartFrom 1 false) (N : ℕ) (t : Solver) :
    ∃ Q, prepare ((warmCfg start N).forSolver t) warmStats warmRows 0 = some Q ∧
      Q.start = getStartCoef false (1 / 10 ^ 6) (fun _ => 0) (fun _ => 2) 0 none none start := by
  unfold prepare
  exact ⟨_, rfl, rfl⟩

/-- The stopping rule of the standardised least-squares problem. -/
theorem warm_norm (start : StartFrom 1 false) (N : ℕ) (P1 : ℕ → ℝ) (P2 : Pen2 ℝ) (w : Fin (1 + false.toNat) → ℝ) :
    let D := stdData ((warmCfg start N).forSolver .irlsLs).thr ((warmCfg start N).forSolver .irlsLs).asIfScaled (fun _ => 0) (fun _ => 2)
      (((warmCfg start N).forSolver .irlsLs).problem warmRows (fun j => P1 j * 0) (P2.smul 0))
    (normMinSubgrad (List.finRange (1 + false.toNat)) w (fun k => -scoreAt D w k) D.P1 false D.lb D.ub).1 = |2 - w ⟨0, by simp⟩| := by
  intro D
  have hinv : oneOverStd (1 / 10 ^ 6) 1 2 = 1 / 2 := by unfold oneOverStd; rw [if_neg (by norm_num)]
  have hp2 : ∀ x y : Fin (1 + false.toNat), p2Full false D.P2 x y = 0 := by
    intro x y
    have h0 : ∀ u v, p2Matrix (P2.smul 0) u v = 0 := fun u v => by rw [smul_entry, zero_mul]
    have : ∀ u v, p2Matrix D.P2 u v = 0 := by
      intro u v
      show p2Matrix (standardize ((warmCfg start N).forSolver .irlsLs).thr false ((warmCfg start N).forSolver .irlsLs).asIfScaled (fun _ => 0) (fun _ => 2)
        warmRows.X none none none (fun j => P1 j * 0) (P2.smul 0)).P2 u v = 0
      unfold standardize
      simp only
      split
      · exact h0 u v
      · rw [scaleP2_entry, h0]; ring
    exact this _ _
  have hP1 : ∀ u, D.P1 u = 0 := by
    intro u
    show (standardize ((warmCfg start N).forSolver .irlsLs).thr false ((warmCfg start N).forSolver .irlsLs).asIfScaled (fun _ => 0) (fun _ => 2)
        warmRows.X none none none (fun j => P1 j * 0) (P2.smul 0)).P1 u = 0
    unfold standardize
    simp only [mul_zero, zero_mul]
    split <;> simp
  have hlb : D.lb = none := rfl
  have hub : D.ub = none := rfl
  have hX : ∀ i k, D.X i k = if i = 0 then 1 else -1 := by
    intro i k
    show oneOverStd (1 / 10 ^ 6) 1 2 * (if i = 0 then (2 : ℝ) else -2) + (if false then _ else 0) = _
    rw [hinv]
    split <;> norm_num
  have hlin : ∀ r, linPred false D.X (off D) w r = (if r = 0 then 1 else -1) * w ⟨0, by simp⟩ := by
    intro r
    unfold linPred
    have hoff : off D = fun _ => 0 := rfl
    rw [hoff]
    have hd : ∀ k : Fin (1 + false.toNat), design false D.X r k = if r = 0 then 1 else -1 := fun k => hX r _
    simp only [hd, add_zero]
    exact Fin.sum_univ_one _
  have hgrad : ∀ y sw e m, D.fam.grad y sw e m = sw * (y - m) := fun y sw e m => rfl
  have hminv : ∀ e, D.fam.inv e = e := fun e => rfl
  have hsc : ∀ k, scoreAt D w k = 2 - w ⟨0, by simp⟩ := by
    intro k
    unfold scoreAt
    simp only [hp2, zero_mul, Finset.sum_const_zero, sub_zero, hgrad, hminv, hlin]
    have hd : ∀ r, design false D.X r k = if r = 0 then 1 else -1 := fun r => hX r _
    have hy : ∀ r, D.y r = if r = 0 then 2 else -2 := fun r => rfl
    have hsw : ∀ r, D.sw r = 1 / 2 := fun r => rfl
    simp only [hd, hy, hsw, Fin.sum_univ_two]
    norm_num
    ring
  have hn := norm_eq_finset_sum (id : Fin (1 + false.toNat) → Fin (1 + false.toNat)) strictMono_id w (fun k => -scoreAt D w k) D.P1 false D.lb D.ub
  rw [List.map_id] at hn
  rw [hn]
  refine (Fin.sum_univ_one _).trans ?_
  unfold absTerm
  rw [if_neg (by simp), hlb, hub]
  simp only [hP1, hsc, Option.map_none, id]
  have hterm : ∀ x g : ℝ, |subgradTerm x g 0 none none| = |g| := by
    intro x g
    unfold subgradTerm fsign fmax
    simp only [sub_zero, mul_zero, add_zero]
    split
    · rcases lt_trichotomy g 0 with h | h | h
      · simp [h, h.ne, abs_of_neg h, not_lt.2 h.le]
      · simp [h]
      · simp [h, h.ne', abs_of_pos h, not_lt.2 h.le]
    · rfl
  rw [hterm, abs_neg]

/-- **C80, counterexample (F5 at the level of `fit`).** Without intercept the start is not put on the solver's scale: least squares on two rows,
fitted without warning, then fitted again from its own solution with `warm_start=True`: the second fit does not accept its start. -/
theorem c80_no_intercept_counterexample (next : (ℕ → BitVec 32) → ℕ → (ℕ → BitVec 32)) (N : ℕ) (s s' : SolverLog) :
    ∃ t r, glmFit ((warmCfg .cold N).forSolver .irlsLs) warmStats (irlsSolver next fun _ _ => lsInner invSolve) warmRows 0 (.single 0) s = some (t, r) ∧
      t.convWarn = s.convWarn ∧
      ∃ t' r', glmFit ((warmCfg (.previous (coefVec (p := 1) false (0, r.coef))) N).forSolver .irlsLs) warmStats
          (irlsSolver next fun _ _ => lsInner invSolve) warmRows 0 (.single 0) s' = some (t', r') ∧ t'.nIter ≠ 0 := by
  obtain ⟨Q, hQ, -⟩ := warm_prepared .cold N .irlsLs
  obtain ⟨r, hr, -, hcoef⟩ := glmFit_single ((warmCfg .cold N).forSolver .irlsLs) warmStats (irlsSolver next fun _ _ => lsInner invSolve) warmRows 0 0 s Q hQ
    (by rintro ⟨l, u, h, -⟩; cases h) (fun _ => rfl)
  have hw := (c76_fit_ls next invSolve invSolve_spec (warmCfg .cold N) warmStats warmRows 0 (warm_convex .cold N) rfl rfl
    (fun _ => by norm_num [warmStats])
    (by simp [warmRows]) rfl rfl rfl (by norm_num [warmCfg]) (by norm_num [warmCfg]) (fun j => zero_mul _) 0 le_rfl
    (by
      intro b0 b h0 h _
      have h1 := h 0
      rw [h0 rfl] at h1
      simp [warmRows] at h1
      refine ⟨h0 rfl, fun j hj => ?_⟩
      have : j = 0 := by omega
      subst this; linarith)
    (by
      intro b0 b h i
      have ht : ∀ e, trueMean 0 .normal .identity e = e := fun _ => rfl
      have hd : ∀ y m, Family.unitDeviance .normal y m = (y - m) ^ 2 := fun _ _ => rfl
      have hc : coldIntercept false warmRows = 0 := by simp [coldIntercept]
      have hobj : ∀ (b0 : ℝ) (b : ℕ → ℝ), fitObjective 1 0 .normal .identity warmRows
          (penScale (warmCfg .cold N).thr (warmCfg .cold N).asIfScaled (warmStats 2 warmRows.X warmRows.sw).2) .none .none 0 0 b0 b
          = 1 / 4 * ((2 - (2 * b 0 + b0)) ^ 2 + (-2 - (-2 * b 0 + b0)) ^ 2) := by
        intro b0 b
        unfold fitObjective
        simp [ht, hd, warmRows]
        ring
      rw [hc] at h
      have h := (hobj b0 b).symm.le.trans (h.trans (hobj 0 (fun _ => 0)).le)
      have hlt : ∀ x y : ℝ, (y - x) ^ 2 ≤ 8 → y ≤ 3 → x < 10 ^ 43 := by
        intro x y h1 h2
        have : x - y ≤ 3 := by nlinarith
        linarith [show (7 : ℝ) < 10 ^ 43 by norm_num]
      have hx : ∑ j : Fin 1, warmRows.X i j * b j + b0 + (warmRows.off.getD fun _ => 0) i = if i = 0 then 2 * b 0 + b0 else -2 * b 0 + b0 := by
        fin_cases i <;> simp [warmRows]
      rw [hx]
      show _ < (10 : ℝ) ^ 43
      split
      · exact hlt _ 2 (by nlinarith [sq_nonneg (-2 - (-2 * b 0 + b0))]) (by norm_num)
      · exact hlt _ (-2) (by nlinarith [sq_nonneg (2 - (2 * b 0 + b0))]) (by norm_num))
    s _ r hr).1
  have hal : r.alphas = [0] := by
    obtain ⟨Q, -, hal, -⟩ := glmFit_spec _ _ _ _ _ _ _ _ _ hr
    simpa [AlphaSpec.eval] using hal.symm
  refine ⟨_, r, hr, hw, ?_⟩
  obtain ⟨l1, l2, g1, -, -⟩ := c75_no_warning_near_optimal next (fun _ _ => lsInner invSolve) ((warmCfg .cold N).forSolver .irlsLs) warmStats warmRows 0
    (warm_convex .cold N |> fun h => ⟨h.thr, h.valid, h.pair, h.y, h.sw, h.p1, h.p2, h.l1⟩) (fun _ => by norm_num [warmStats]) rfl (.single 0) s _ r hr
    (by rw [hal]; simp) hw
  rw [hal] at l1 l2
  simp only [List.length_singleton] at l1 l2
  -- the first solution
  obtain ⟨P1, P2, h1, h2, c, -, e, hn⟩ := rows_stopped next (fun _ _ => lsInner invSolve) ((warmCfg .cold N).forSolver .irlsLs) (warm_convex .cold N).thr
    warmStats warmRows 0 le_rfl (warm_convex .cold N).p1 (fun _ => by norm_num [warmStats]) rfl (.single 0) s _ r hr (by rw [hal]; simp) hw 0
    (by rw [hal]; simp) (by rw [l1]; norm_num) (by rw [l2]; norm_num)
  simp only [hal, List.getElem_cons_zero] at hn
  have hnorm := warm_norm .cold N P1 P2 c
  simp only at hnorm
  have hc2 : |2 - c ⟨0, by simp⟩| < 1 / 10000 := by
    rw [← hnorm]; exact hn
  have hinv : oneOverStd (1 / 10 ^ 6) 1 2 = 1 / 2 := by unfold oneOverStd; rw [if_neg (by norm_num)]
  have hcoef0 : r.coef 0 = c ⟨0, by simp⟩ / 2 := by
    have hlen : r.coefPath.length = 1 := l1
    have : r.coefPath.getLast? = r.coefPath[0]? := by
      rw [List.getLast?_eq_getElem?, hlen]
    rw [g1, List.getElem?_eq_getElem (by rw [hlen]; norm_num), Option.some.injEq] at this
    rw [this, e]
    show feat false c 0 * oneOverStd (1 / 10 ^ 6) 1 2 = _
    rw [hinv]
    simp [feat]
    ring
  obtain ⟨Q', hQ', hst'⟩ := warm_prepared (.previous (coefVec (p := 1) false (0, r.coef))) N .irlsLs
  obtain ⟨r', hr', -⟩ := glmFit_single ((warmCfg (.previous (coefVec (p := 1) false (0, r.coef))) N).forSolver .irlsLs) warmStats
    (irlsSolver next fun _ _ => lsInner invSolve) warmRows 0 0 s' Q' hQ' (by rintro ⟨l, u, h, -⟩; cases h) (fun _ => rfl)
  refine ⟨_, r', hr', ?_⟩
  obtain ⟨P1', P2', h1', h2', hm', hsd', hD', -⟩ := prepare_spec _ warmStats warmRows 0 Q' hQ'
  have hDD : Q'.D.withPen (fun j => Q'.D.P1 j * 0) (Q'.D.P2.smul 0) =
      stdData ((warmCfg (.previous (coefVec (p := 1) false (0, r.coef))) N).forSolver .irlsLs).thr
        ((warmCfg (.previous (coefVec (p := 1) false (0, r.coef))) N).forSolver .irlsLs).asIfScaled (fun _ => 0) (fun _ => 2)
        (((warmCfg (.previous (coefVec (p := 1) false (0, r.coef))) N).forSolver .irlsLs).problem warmRows (fun j => P1' j * 0) (P2'.smul 0)) := by
    rw [hD', withPen_std, hm', hsd']; rfl
  have hn2 := warm_norm (.previous (coefVec (p := 1) false (0, r.coef))) N P1' P2' Q'.start
  simp only at hn2
  rw [← hDD] at hn2
  set D' := Q'.D.withPen (fun j => Q'.D.P1 j * 0) (Q'.D.P2.smul 0) with hD2
  have hs0 : Q'.start ⟨0, by simp⟩ = c ⟨0, by simp⟩ / 2 := by
    rw [hst', ← hcoef0]
    simp [getStartCoef, clipStart, rawStart, coefVec]
  rw [hs0] at hn2
  have hP : ∀ k, 0 ≤ D'.P1 k := by
    intro k
    rw [hDD]
    show 0 ≤ P1' k * 0 * _
    simp
  have hnc : (irlsInit D' Q'.start).converged = false := by
    have : ¬ (irlsInit D' Q'.start).converged = true := by
      rw [c33_step_rule_initially_false D' hP Q'.start (by simp), hn2]
      have hg : D'.gradTol = 1 / 10000 := by rw [hDD]; rfl
      rw [hg, not_lt]
      obtain ⟨a1, a2⟩ := abs_lt.1 hc2
      refine le_trans ?_ (le_abs_self _)
      linarith
    simpa using this
  have hmax : D'.maxIter = 1 := by rw [hDD]; rfl
  show (irlsRun _ D' Q'.start).nIter ≠ 0
  unfold irlsRun
  rw [hmax]
  unfold irlsLoop
  rw [if_pos ⟨by rw [hmax]; simp [irlsInit], hnc⟩]
  unfold irlsLoop
  simp [irlsStep]

end Glum
