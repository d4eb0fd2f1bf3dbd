import Mathlib.Analysis.Complex.ExponentialBounds
import Verif.Props.Separation
import Verif.Props.OuterLive
import Verif.Props.MirrorFit
/-
C113: a separated data set, fitted.
-/
set_option linter.unusedSectionVars false
set_option linter.unusedVariables false
set_option linter.unusedSimpArgs false

namespace Glum
open Spec Topology Filter

/-- `c113_interior` applies to squared error. -/
example (N M : ℕ) (a : ℝ) (ha : 0 ≤ a) : ∃ (b0 : ℝ) (b : ℕ → ℝ),
    Solves 1 true none none (fitObjective 1 0 .normal .identity tinyRows (penScale (1 / 10 ^ 6) false fun _ => 1) .none .none a 0) b0 b :=
  c113_interior (tinyCfg N M) tinyRows 0 a (tiny_convex N M) ha ⟨fun _ => 0, fun j _ => ⟨fun l h => (by cases h), fun u h => (by cases h)⟩⟩ _
    fun i _ => ⟨fun h => (by cases h.1), fun h => h.1 rfl⟩

/-! ### A separated data set -/

/-- One success at `x = 1`, one failure at `x = -1`. -/
noncomputable def sepRows : Rows 2 where
  X := fun i _ => if i = 0 then 1 else -1
  y := fun i => if i = 0 then 1 else 0
  sw := fun _ => 1 / 2
  off := none

/-- Logistic regression without intercept, tolerance `tol`, `max_iter = N`. -/
noncomputable def sepCfg (tol : ℝ) (N : ℕ) : FitCfg 1 false where
  family := .binomial
  link := .logit
  e50 := 0
  thr := 1 / 10 ^ 6
  asIfScaled := false
  xsp := false
  P1a := .none
  P2a := .none
  lb := none
  ub := none
  A := none
  start := .cold
  p2ok := fun _ => true
  maxIter := N
  maxInnerIter := 100
  gradTol := tol
  stepTol := none
  hessApprox := 0
  fixedInnerTol := none
  random := false
  eps := 1 / 10 ^ 16
  large := 10 ^ 43

/-- The problem the solver sees without penalty. -/
noncomputable def sepD (tol : ℝ) (N : ℕ) : IRLSData 2 1 false where
  X := sepRows.X
  y := sepRows.y
  sw := sepRows.sw
  P1 := fun _ => 0
  P2 := .vec fun _ => 0
  fam := fastRow .binomial .logit .binomialLogit
  maxIter := N
  maxInnerIter := 100
  gradTol := tol
  stepTol := none
  hessApprox := 0
  fixedInnerTol := none
  random := false
  offset := none
  lb := none
  ub := none
  eps := 1 / 10 ^ 16
  large := 10 ^ 43

theorem sep_linPred (tol : ℝ) (N : ℕ) (w : Fin 1 → ℝ) (r : Fin 2) : linPred (p := 1) false (sepD tol N).X (off (sepD tol N)) w r = if r = 0 then w 0 else -w 0 := by
  have : linPred (p := 1) false (sepD tol N).X (off (sepD tol N)) w r = ∑ k : Fin 1, design (p := 1) false sepRows.X r k * w k + 0 := rfl
  rw [this, Fin.sum_univ_one]
  simp only [design, sepRows]
  split <;> simp

theorem logit_dev_one (e : ℝ) : Fast.binomialLogit.dev 1 e = 2 * Real.log (1 + Real.exp (-e)) := by
  simp only [Fast.dev]
  split
  · ring
  · have h1 : Real.log (1 + Real.exp e) = e + Real.log (1 + Real.exp (-e)) := by
      have : 1 + Real.exp e = Real.exp e * (1 + Real.exp (-e)) := by rw [mul_add, ← Real.exp_add]; simp; ring
      rw [this, Real.log_mul (Real.exp_pos e).ne' (by positivity), Real.log_exp]
    rw [h1]; ring

theorem logit_dev_zero (e : ℝ) : Fast.binomialLogit.dev 0 e = 2 * Real.log (1 + Real.exp e) := by
  simp only [Fast.dev]
  split
  · have h1 : Real.log (1 + Real.exp e) = e + Real.log (1 + Real.exp (-e)) := by
      have : 1 + Real.exp e = Real.exp e * (1 + Real.exp (-e)) := by rw [mul_add, ← Real.exp_add]; simp; ring
      rw [this, Real.log_mul (Real.exp_pos e).ne' (by positivity), Real.log_exp]
    rw [h1]; ring
  · ring

theorem sep_objective (tol : ℝ) (N : ℕ) (w : Fin 1 → ℝ) : objective (sepD tol N) w = Real.log (1 + Real.exp (-w 0)) := by
  have e0 : objective (sepD tol N) w = 1 / 2 * ∑ r : Fin 2, (sepD tol N).sw r * Fast.binomialLogit.dev ((sepD tol N).y r)
      (linPred (p := 1) false (sepD tol N).X (off (sepD tol N)) w r) + ridge (sepD tol N) w + l1 false (sepD tol N).P1 w := rfl
  have e1 : ridge (sepD tol N) w = 0 := by
    have : ridge (sepD tol N) w = 1 / 2 * ∑ i : Fin 1, ∑ j : Fin 1, p2Full (p := 1) false (.vec fun _ => 0) i j * w i * w j := rfl
    rw [this]; simp [p2Full, p2Matrix]
  have e2 : l1 false (sepD tol N).P1 w = 0 := by
    have : l1 false (sepD tol N).P1 w = ∑ i : Fin 1, l1Weight false (fun _ => (0 : ℝ)) i * |w i| := rfl
    rw [this]; simp [l1Weight]
  rw [e0, e1, e2, Fin.sum_univ_two, sep_linPred, sep_linPred]
  simp only [sepD, sepRows, if_pos, if_true, Fin.one_eq_zero_iff, if_false, OfNat.ofNat_ne_one]
  rw [logit_dev_one, logit_dev_zero]
  ring

theorem sep_score (tol : ℝ) (N : ℕ) (w : Fin 1 → ℝ) : scoreAt (sepD tol N) w (0 : Fin 1) = 1 - expit (w 0) := by
  have e0 : scoreAt (sepD tol N) w (0 : Fin 1) = ∑ r : Fin 2, design (p := 1) false sepRows.X r (0 : Fin 1) *
      Fast.binomialLogit.grad (sepRows.y r) (sepRows.sw r) (Fast.binomialLogit.mu (linPred (p := 1) false (sepD tol N).X (off (sepD tol N)) w r))
      - ∑ i : Fin 1, p2Full (p := 1) false (.vec fun _ => 0) i (0 : Fin 1) * w i := rfl
  rw [e0, Fin.sum_univ_two, Fin.sum_univ_one, sep_linPred, sep_linPred, fast_mu_logit, fast_mu_logit]
  simp only [design, sepRows, Fast.grad, if_true, p2Full, p2Matrix]
  simp only [Fin.one_eq_zero_iff, if_false, OfNat.ofNat_ne_one, expit_neg]
  simp
  ring


theorem sep_convexish (tol : ℝ) (N : ℕ) : Convexish (sepD tol N) where
  P1 := fun _ => le_rfl
  symm := fun i j => by
    have : ∀ i j : Fin 1, p2Full (p := 1) false (.vec fun _ => (0 : ℝ)) i j = p2Full (p := 1) false (.vec fun _ => (0 : ℝ)) j i := by
      intro i j; rw [Subsingleton.elim i j]
    exact this i j
  psd := by
    intro v
    have : ∀ i j : Fin 1, p2Full (p := 1) false (.vec fun _ => (0 : ℝ)) i j = 0 := by
      intro i j; simp [p2Full, p2Matrix]
    have e : ∑ i : Fin 1, ∑ j : Fin 1, p2Full (p := 1) false (.vec fun _ => (0 : ℝ)) i j * v i * v j = 0 := by simp [this]
    exact e.ge
  rows := fun r eta => by
    show 0 ≤ (1 / 2 : ℝ) * Fast.binomialLogit.mu eta * (1 - Fast.binomialLogit.mu eta)
    rw [fast_mu_logit]
    have h1 : 0 ≤ expit eta := by unfold expit; positivity
    have h2 : 0 ≤ expit (-eta) := by unfold expit; positivity
    rw [expit_neg] at h2
    positivity
  eps := by norm_num [sepD]
  bounds := by
    intro l u h
    cases h

theorem expit_eq (w : ℝ) : expit w = 1 / (1 + Real.exp (-w)) := rfl

/-- The curvature the solver works with. -/
theorem sep_hessian (inner : Inner 2 1 false) (tol : ℝ) (N : ℕ) (w0 : Fin 1 → ℝ) (st : IRLSState 2 1 false) (h : Visited inner (sepD tol N) w0 st) :
    (innerState (sepD tol N) st).hs.H (0 : Fin 1) (0 : Fin 1) = expit (st.coef (0 : Fin 1)) * (1 - expit (st.coef (0 : Fin 1))) := by
  rw [smooth_hessian inner (sepD tol N) (sep_convexish tol N) (fun _ => rfl) w0 st h]
  have hrows : (innerState (sepD tol N) st).hs.rows = fun r => (1 / 2 : ℝ) * Fast.binomialLogit.mu (linPred (p := 1) false (sepD tol N).X (off (sepD tol N)) st.coef r) *
      (1 - Fast.binomialLogit.mu (linPred (p := 1) false (sepD tol N).X (off (sepD tol N)) st.coef r)) := by
    funext r
    refine Eq.trans ?_ ((c29_state_in_sync inner (sepD tol N) (fun _ => le_rfl) w0 st h).2.2.2.2 r)
    show (updateHessian false (sepD tol N).X (sepD tol N).P2 (sepD tol N).hessApprox st.hs (identifyActiveSet (sepD tol N) st)).rows r = _
    rw [show (sepD tol N).hessApprox = 0 from rfl]
    unfold updateHessian
    split
    · rfl
    · simp only [activeRows_zero]
  rw [hrows]
  have e : ∀ f : Fin 2 → ℝ, fullHessian (p := 1) false (sepD tol N).X f (sepD tol N).P2 (0 : Fin 1) (0 : Fin 1)
      = ∑ i : Fin 2, design (p := 1) false sepRows.X i (0 : Fin 1) * f i * design (p := 1) false sepRows.X i (0 : Fin 1) + p2Full (p := 1) false (.vec fun _ => 0) (0 : Fin 1) (0 : Fin 1) := fun f => rfl
  rw [e, Fin.sum_univ_two, sep_linPred, sep_linPred]
  simp only [fast_mu_logit, design, sepRows, p2Full, p2Matrix, if_true]
  simp only [Fin.one_eq_zero_iff, if_false, OfNat.ofNat_ne_one, expit_neg]
  simp
  ring

/-- The Newton step. -/
theorem sep_step (tol : ℝ) (N : ℕ) (w0 : Fin 1 → ℝ) (st : IRLSState 2 1 false) (h : Visited (lsInner invSolve) (sepD tol N) w0 st) :
    (lsInner invSolve (sepD tol N) (innerState (sepD tol N) st)).1 (0 : Fin 1) = 1 + Real.exp (-st.coef (0 : Fin 1)) := by
  have hH := sep_hessian _ tol N w0 st h
  have hsc : st.score (0 : Fin 1) = 1 - expit (st.coef (0 : Fin 1)) := by
    rw [← sep_score tol N]
    exact (c29_state_in_sync _ (sepD tol N) (fun _ => le_rfl) w0 st h).2.2.2.1 (0 : Fin 1)
  have hu := Real.exp_pos (-st.coef (0 : Fin 1))
  have h1 : (1 : ℝ) - expit (st.coef (0 : Fin 1)) = Real.exp (-st.coef (0 : Fin 1)) / (1 + Real.exp (-st.coef (0 : Fin 1))) := by
    rw [expit_eq]; field_simp; ring
  have hne : expit (st.coef (0 : Fin 1)) * (1 - expit (st.coef (0 : Fin 1))) ≠ 0 := by
    rw [h1, expit_eq]; positivity
  have hs := invSolve_spec (m := 1) (innerState (sepD tol N) st).hs.H st.score (by
    intro v hv j
    have := hv 0
    rw [Fin.sum_univ_one, hH] at this
    rw [Subsingleton.elim j 0]
    exact (mul_eq_zero.1 this).resolve_left hne) 0
  rw [Fin.sum_univ_one, hH, hsc] at hs
  have hne2 : (1 : ℝ) - expit (st.coef (0 : Fin 1)) ≠ 0 := right_ne_zero_of_mul hne
  have h3 : expit (st.coef (0 : Fin 1)) * invSolve (m := 1) (innerState (sepD tol N) st).hs.H st.score 0 = 1 := by
    apply mul_right_cancel₀ hne2
    linarith
  change invSolve (m := 1) (innerState (sepD tol N) st).hs.H st.score 0 = _
  rw [expit_eq] at h3
  field_simp at h3
  exact h3

theorem sep_armijo (u : ℝ) (h0 : 0 < u) (h1 : u ≤ 1) : Real.log (1 + u * Real.exp (-(1 + u))) - Real.log (1 + u) ≤ 1 / 10000 * -u := by
  have he : Real.exp (-(1 + u)) ≤ 1 / 2 := by
    rw [Real.exp_neg, inv_le_comm₀ (Real.exp_pos _) (by norm_num)]
    have := Real.add_one_le_exp (1 + u)
    norm_num; linarith
  have hle : Real.log (1 + u * Real.exp (-(1 + u))) ≤ Real.log (1 + u / 2) := by
    apply Real.log_le_log (by positivity)
    nlinarith
  have h2 : Real.log (1 + u / 2) - Real.log (1 + u) ≤ (1 + u / 2) / (1 + u) - 1 := by
    rw [← Real.log_div (by positivity) (by positivity)]
    have := Real.log_le_sub_one_of_pos (show 0 < (1 + u / 2) / (1 + u) by positivity)
    linarith
  have h3 : (1 + u / 2) / (1 + u) - 1 ≤ -u / 4 := by
    rw [div_sub_one (by positivity), div_le_iff₀ (by positivity)]
    nlinarith
  linarith

/-- The full step is always accepted. -/
theorem sep_search (tol : ℝ) (N : ℕ) (w0 : Fin 1 → ℝ) (st : IRLSState 2 1 false) (h : Visited (lsInner invSolve) (sepD tol N) w0 st)
    (hw : 0 ≤ st.coef (0 : Fin 1)) :
    (lineSearch (sepD tol N) (innerState (sepD tol N) st) (lsInner invSolve (sepD tol N) (innerState (sepD tol N) st)).1).warned = false ∧
    (lineSearch (sepD tol N) (innerState (sepD tol N) st) (lsInner invSolve (sepD tol N) (innerState (sepD tol N) st)).1).coef (0 : Fin 1)
      = st.coef (0 : Fin 1) + (1 + Real.exp (-st.coef (0 : Fin 1))) := by
  have hd := sep_step tol N w0 st h
  have hsync := c29_state_in_sync _ (sepD tol N) (fun _ => le_rfl) w0 st h
  obtain ⟨d, hdd⟩ : ∃ d, d = (lsInner invSolve (sepD tol N) (innerState (sepD tol N) st)).1 := ⟨_, rfl⟩
  rw [← hdd] at hd ⊢
  have hsp := lineSearch_spec (sepD tol N) (innerState (sepD tol N) st) d
  have hok : lsOK (sepD tol N) (innerState (sepD tol N) st) d (armijoBound (sepD tol N) (innerState (sepD tol N) st) d) (safeLinPred false (sepD tol N).X d none) 0 := by
    refine (lsOK_iff (sepD tol N) (fun _ => le_rfl) (innerState (sepD tol N) st) hsync.1 hsync.2.2.1 hsync.2.2.2.1 d 0).2 ?_
    left
    refine ⟨fun r => ?_, ?_⟩
    · show Fast.binomialLogit.mu _ < (10 : ℝ) ^ 43
      rw [fast_mu_logit]
      have : ∀ x, expit x ≤ 1 := fun x => by
        rw [expit_eq, div_le_one (by positivity)]
        linarith [Real.exp_pos (-x)]
      exact lt_of_le_of_lt (this _) (by norm_num)
    · rw [sep_objective, sep_objective]
      have hp : predictedChange (sepD tol N) st.coef d = -(scoreAt (sepD tol N) st.coef (0 : Fin 1) * d (0 : Fin 1)) := by
        have e : predictedChange (sepD tol N) st.coef d = -(∑ k : Fin 1, scoreAt (sepD tol N) st.coef k * d k)
          + ∑ i : Fin 1, l1Weight false (fun _ => (0 : ℝ)) i * |st.coef i + d i| - ∑ i : Fin 1, l1Weight false (fun _ => (0 : ℝ)) i * |st.coef i| := rfl
        rw [e, Fin.sum_univ_one, Fin.sum_univ_one, Fin.sum_univ_one]
        simp [l1Weight]
      have hp' : predictedChange (sepD tol N) (innerState (sepD tol N) st).coef d = -Real.exp (-st.coef (0 : Fin 1)) := by
        refine hp.trans ?_
        rw [sep_score, hd, expit_eq]
        have := Real.exp_pos (-st.coef (0 : Fin 1))
        field_simp; ring
      rw [hp']
      have hc : candidate (innerState (sepD tol N) st).coef d 0 (0 : Fin 1) = st.coef (0 : Fin 1) + d (0 : Fin 1) := by
        show st.coef (0 : Fin 1) + (1 / 2) ^ 0 * d (0 : Fin 1) = _
        ring
      have hu : Real.exp (-st.coef (0 : Fin 1)) ≤ 1 := by
        rw [Real.exp_le_one_iff]; linarith
      have := sep_armijo _ (Real.exp_pos (-st.coef (0 : Fin 1))) hu
      rw [← Real.exp_add] at this
      have e2 : -candidate (innerState (sepD tol N) st).coef d 0 (0 : Fin 1) = -st.coef (0 : Fin 1) + -(1 + Real.exp (-st.coef (0 : Fin 1))) := by
        rw [hc, hd]; ring
      rw [pow_zero, one_mul]
      refine le_trans (le_of_eq ?_) this
      rw [← e2]; rfl
  have hk : (lineSearch (sepD tol N) (innerState (sepD tol N) st) d).k = 0 := by
    by_contra hne
    exact hsp.prev 0 le_rfl (Nat.pos_of_ne_zero hne) hok
  refine ⟨hsp.accept.2 (by rw [hk]; exact hok), ?_⟩
  rw [hsp.coef, hk]
  show st.coef (0 : Fin 1) + (1 / 2) ^ 0 * d (0 : Fin 1) = _
  rw [hd]; ring

/-- Along the run from zero: the coefficient grows by more than one per iteration and no step is rejected. -/
theorem sep_visited (tol : ℝ) (N : ℕ) (st : IRLSState 2 1 false) (h : Visited (lsInner invSolve) (sepD tol N) (fun _ => 0) st) :
    (st.nIter : ℝ) ≤ st.coef (0 : Fin 1) ∧ st.diagnostics.filter (·.warned) = [] := by
  induction h with
  | init => exact ⟨by show ((0 : ℕ) : ℝ) ≤ 0; simp, rfl⟩
  | step st hv hn hc ih =>
    have h0 : 0 ≤ st.coef (0 : Fin 1) := le_trans (Nat.cast_nonneg _) ih.1
    obtain ⟨hwarn, hcoef⟩ := sep_search tol N _ st hv h0
    constructor
    · have e : (irlsStep (lsInner invSolve) (sepD tol N) st).coef (0 : Fin 1) = st.coef (0 : Fin 1) + (1 + Real.exp (-st.coef (0 : Fin 1))) := hcoef
      have e2 : (irlsStep (lsInner invSolve) (sepD tol N) st).nIter = st.nIter + 1 := rfl
      rw [e, e2]
      push_cast
      linarith [ih.1, Real.exp_pos (-st.coef (0 : Fin 1))]
    · have e : (irlsStep (lsInner invSolve) (sepD tol N) st).diagnostics = ⟨st.nIter + 1, (irlsStep (lsInner invSolve) (sepD tol N) st).norm,
          (irlsStep (lsInner invSolve) (sepD tol N) st).obj,
          (lineSearch (sepD tol N) (innerState (sepD tol N) st) (lsInner invSolve (sepD tol N) (innerState (sepD tol N) st)).1).warned⟩ :: st.diagnostics := rfl
      rw [e, List.filter_cons, hwarn]
      simpa using ih.2


theorem sep_norm (tol : ℝ) (N : ℕ) (w : Fin 1 → ℝ) :
    (normMinSubgrad (List.finRange (1 + false.toNat)) w (fun k => -scoreAt (sepD tol N) w k) (sepD tol N).P1 false (sepD tol N).lb (sepD tol N).ub).1
      = 1 - expit (w 0) := by
  have e : normMinSubgrad (List.finRange (1 + false.toNat)) w (fun k => -scoreAt (sepD tol N) w k) (sepD tol N).P1 false (sepD tol N).lb (sepD tol N).ub
      = normMinSubgrad (List.finRange 1) w (fun k => -scoreAt (sepD tol N) w k) (fun _ => 0) false none none := rfl
  rw [e]
  have hs := sep_score tol N w
  have hpos : 0 ≤ 1 - expit (w 0) := by
    rw [← expit_neg]; unfold expit; positivity
  have hx : (normMinSubgrad (List.finRange 1) w (fun k => -scoreAt (sepD tol N) w k) (fun _ => 0) false none none).1
      = 0 + |subgradTerm (w 0) (-scoreAt (sepD tol N) w (0 : Fin 1)) 0 none none| := rfl
  rw [hx, hs]
  have : |subgradTerm (w 0) (-(1 - expit (w 0))) (0 : ℝ) none none| = |1 - expit (w 0)| := by
    unfold subgradTerm
    have hab : |fsign (-(1 - expit (w 0))) * fmax (|(-(1 - expit (w 0)))| - 0) 0| = |1 - expit (w 0)| := by
      unfold fsign fmax
      rw [sub_zero]
      rcases lt_trichotomy (-(1 - expit (w 0))) 0 with h | h | h
      · rw [if_neg h.ne, if_neg (not_lt.2 h.le), if_pos (abs_pos.2 h.ne), abs_mul, abs_abs, abs_neg (1 - expit (w 0))]; simp
      · rw [h]; simp [show 1 - expit (w 0) = 0 by linarith]
      · linarith
    split
    · exact hab
    · simp [abs_sub_comm]
  rw [this, abs_of_nonneg hpos, zero_add]

/-- The run ends without a warning and with a coefficient that measures the tolerance. -/
theorem sep_run (tol : ℝ) (N : ℕ) (h0 : 0 < tol) (h1 : tol < 1) (hN : Real.exp (-N) < tol) :
    (irlsRun (lsInner invSolve) (sepD tol N) fun _ => 0).converged = true ∧
    (irlsRun (lsInner invSolve) (sepD tol N) fun _ => 0).diagnostics.filter (·.warned) = [] ∧
    Real.log ((1 - tol) / tol) < (irlsRun (lsInner invSolve) (sepD tol N) fun _ => 0).coef (0 : Fin 1) := by
  have hv := irlsRun_visited (lsInner invSolve) (sepD tol N) fun _ => 0
  obtain ⟨hco, hd⟩ := sep_visited tol N _ hv
  have hst := irlsLoop_stops (lsInner invSolve) (sepD tol N) N (irlsInit (sepD tol N) fun _ => 0) (by show N ≤ _ + N; omega)
  have hst : (irlsRun (lsInner invSolve) (sepD tol N) fun _ => 0).converged = true ∨ N ≤ (irlsRun (lsInner invSolve) (sepD tol N) fun _ => 0).nIter := hst
  obtain ⟨st, hstd⟩ : ∃ st, st = irlsRun (lsInner invSolve) (sepD tol N) fun _ => 0 := ⟨_, rfl⟩
  rw [← hstd] at hv hco hd hst ⊢
  have hu := Real.exp_pos (-st.coef (0 : Fin 1))
  have hex : 1 - expit (st.coef (0 : Fin 1)) = Real.exp (-st.coef (0 : Fin 1)) / (1 + Real.exp (-st.coef (0 : Fin 1))) := by
    rw [expit_eq]; field_simp; ring
  have hiff := converged_iff (lsInner invSolve) (sepD tol N) (fun _ => le_rfl) _ st hv
  have hn := sep_norm tol N st.coef
  have hrule : StoppingRule (sepD tol N) st.coef st.step ↔ 1 - expit (st.coef (0 : Fin 1)) < tol := by
    constructor
    · rintro (h | ⟨t, ht, -⟩)
      · rw [← hn]; exact h
      · cases ht
    · intro h
      left
      rw [← hn] at h
      exact h
  have hconv : st.converged = true := by
    rcases hst with h | h
    · exact h
    · rw [hiff, hrule, hex, div_lt_iff₀ (by positivity)]
      have h2 : (N : ℝ) ≤ st.coef (0 : Fin 1) := le_trans (by exact_mod_cast h) hco
      have h3 : Real.exp (-st.coef (0 : Fin 1)) ≤ Real.exp (-N) := Real.exp_le_exp.2 (by linarith)
      nlinarith
  refine ⟨hconv, hd, ?_⟩
  rw [hiff, hrule, hex, div_lt_iff₀ (by positivity)] at hconv
  rw [Real.log_lt_iff_lt_exp (div_pos (by linarith) h0), div_lt_iff₀ h0]
  have hprod : Real.exp (st.coef (0 : Fin 1)) * Real.exp (-st.coef (0 : Fin 1)) = 1 := by rw [← Real.exp_add]; simp
  have hE := Real.exp_pos (st.coef (0 : Fin 1))
  have := mul_lt_mul_of_pos_left hconv hE
  nlinarith

theorem sep_prepared (tol : ℝ) (N : ℕ) : ∃ Q, prepare ((sepCfg tol N).forSolver .irlsLs) tinyStats sepRows 0 = some Q ∧
    Q.D.withPen (fun j => Q.D.P1 j * 0) (Q.D.P2.smul 0) = sepD tol N ∧ Q.start = (fun _ => 0) ∧ Q.means = (fun _ => 0) ∧ Q.stds = (fun _ => 1) := by
  have ho : oneOverStd (1 / 10 ^ 6) 1 1 = 1 := by
    unfold oneOverStd; rw [if_neg (by rw [abs_one]; norm_num)]; norm_num
  unfold prepare
  refine ⟨_, rfl, ?_, ?_, rfl, rfl⟩
  · have e1 : stdX (1 / 10 ^ 6) false (fun _ => 0) (fun _ => 1) sepRows.X = sepRows.X := by
      funext i j; unfold stdX; rw [ho]; simp
    unfold IRLSData.withPen stdData standardize FitCfg.problem sepD
    simp only [IRLSData.mk.injEq]
    refine ⟨e1, ?_, ?_, ?_, ?_, ?_, ?_, ?_, ?_, ?_, ?_, ?_, ?_, ?_, ?_, ?_, ?_, ?_⟩ <;> first | rfl | (funext j; exact mul_zero _) | trivial | skip
    show Pen2.smul 0 (scaleP2 (fun _ => oneOverStd (1 / 10 ^ 6) 1 1) ((Pen2.smul (1 * (1 - 0)) (.vec fun _ => 1)).symmetrise)) = .vec fun _ => 0
    simp [Pen2.smul, Pen2.symmetrise, scaleP2]
  · funext k
    change clipStart (p := 1) false none none (rawStart false (1 / 10 ^ 6) (fun _ => 0) (fun _ => 1) 0 .cold) k = 0
    simp [clipStart, rawStart]

theorem sep_convex (tol : ℝ) (N : ℕ) : ConvexFit (sepCfg tol N) sepRows 0 where
  thr := by norm_num [sepCfg]
  valid := by trivial
  pair := ⟨.binomialLogit, rfl, by simp⟩
  y := fun i => by
    show sepRows.y i ∈ ySupport .binomial
    simp only [sepRows]
    split <;> simp [ySupport]
  sw := fun i => by norm_num [sepRows]
  p1 := fun j => by simp [sepCfg, userP1]
  p2 := fun v => by
    simp [sepCfg, userP2]
    exact mul_self_nonneg _
  l1 := ⟨le_rfl, zero_le_one⟩

/-- The data are separated when there is no penalty … -/
theorem sep_separates (tol : ℝ) (N : ℕ) (s : ℕ → ℝ) : Separates (sepCfg tol N) sepRows s 0 0 0 (fun _ => 1) where
  intercept := fun _ => rfl
  lower := fun h => absurd rfl h
  upper := fun h => absurd rfl h
  l1 := fun h => absurd (by ring) h
  ridge := fun h => absurd (by ring) h
  rows := fun i _ => by
    have : ∀ i : Fin 2, rowShift 1 sepRows i 0 (fun _ => 1) = if i = 0 then 1 else -1 := fun i => by simp [rowShift, sepRows]
    rw [this]
    fin_cases i
    · right; left; exact ⟨by norm_num, rfl, by simp [sepRows]⟩
    · right; right; exact ⟨by norm_num, by simp [sepCfg], by simp [sepRows]⟩
  moves := ⟨0, by norm_num [sepRows], by simp [rowShift, sepRows]⟩

/-- … and not separated with any ridge penalty: `c113_solution_iff` applies with either outcome. -/
theorem sep_ridge (tol : ℝ) (N : ℕ) (a : ℝ) (ha : 0 < a) :
    ∃ (b0 : ℝ) (b : ℕ → ℝ), Solves 1 false none none (fitObjective 1 0 .binomial .logit sepRows (penScale (1 / 10 ^ 6) false (fun _ => 1)) .none .none a 0) b0 b := by
  refine (c113_solution_iff (sepCfg tol N) sepRows 0 a (sep_convex tol N) ha.le ⟨fun _ => 0, fun j _ => ⟨fun l h => (by cases h), fun u h => (by cases h)⟩⟩ (fun _ => 1)).2 ?_
  rintro ⟨d0, d, hd⟩
  have h0 := hd.intercept rfl
  have h1 := hd.ridge (by rw [sub_zero, mul_one]; exact ha.ne')
  obtain ⟨i, -, hi⟩ := hd.moves
  have hp : penScale (sepCfg tol N).thr (sepCfg tol N).asIfScaled (fun _ => 1) 0 ≠ 0 := penScale_ne _ (sep_convex tol N).thr _ _ _
  have h2 : d 0 = 0 := by
    rw [Fin.sum_univ_one, Fin.sum_univ_one] at h1
    simp [sepCfg, userP2] at h1
    rcases h1 with h | h
    · exact h
    · exact absurd h hp
  apply hi
  simp [rowShift, h0, h2]

/-- **C113, separation is silent** (finding F46). On two separated rows logistic regression without penalty has no solution at all, yet for every
tolerance and every sufficient `max_iter` the fit succeeds without any warning; the coefficient it reports is at least `log((1 - tol) / tol)`, whatever
the data. -/
theorem c113_silent_fit (next : (ℕ → BitVec 32) → ℕ → (ℕ → BitVec 32)) (tol : ℝ) (N : ℕ) (h0 : 0 < tol) (h1 : tol < 1) (hN : Real.exp (-N) < tol)
    (s : SolverLog) :
    (¬ ∃ (b0 : ℝ) (b : ℕ → ℝ), Solves 1 false none none
      (fitObjective 1 0 .binomial .logit sepRows (penScale (1 / 10 ^ 6) false (fun _ => 1)) .none .none 0 0) b0 b) ∧
    ∃ t r, glmFit ((sepCfg tol N).forSolver .irlsLs) tinyStats (irlsSolver next fun _ _ => lsInner invSolve) sepRows 0 (.single 0) s = some (t, r) ∧
      t.convWarn = s.convWarn ∧ t.lsWarn = s.lsWarn ∧ Real.log ((1 - tol) / tol) < r.coef 0 := by
  constructor
  · intro h
    exact (c113_solution_iff (sepCfg tol N) sepRows 0 0 (sep_convex tol N) le_rfl ⟨fun _ => 0, fun j _ => ⟨fun l h => (by cases h), fun u h => (by cases h)⟩⟩
      (fun _ => 1)).1 h ⟨0, fun _ => 1, sep_separates tol N _⟩
  · obtain ⟨Q, hQ, hD, hst, hm, hsd⟩ := sep_prepared tol N
    obtain ⟨hc, hd, hco⟩ := sep_run tol N h0 h1 hN
    obtain ⟨r, hr, -, hrc⟩ := glmFit_single ((sepCfg tol N).forSolver .irlsLs) tinyStats (irlsSolver next fun _ _ => lsInner invSolve) sepRows 0 0 s Q hQ
      (by rintro ⟨l, u, h, -⟩; cases h) (fun _ => rfl)
    refine ⟨_, r, hr, ?_, ?_, ?_⟩
    · change s.convWarn + (if (irlsRun (lsInner invSolve) (Q.D.withPen (fun j => Q.D.P1 j * 0) (Q.D.P2.smul 0)) Q.start).converged then 0 else 1) = _
      rw [hD, hst, hc]; simp
    · change s.lsWarn + ((irlsRun (lsInner invSolve) (Q.D.withPen (fun j => Q.D.P1 j * 0) (Q.D.P2.smul 0)) Q.start).diagnostics.filter (·.warned)).length = _
      rw [hD, hst, hd]; simp
    · rw [hrc, hsd]
      change _ < (irlsRun (lsInner invSolve) (Q.D.withPen (fun j => Q.D.P1 j * 0) (Q.D.P2.smul 0)) Q.start).coef (0 : Fin 1) * oneOverStd (1 / 10 ^ 6) 1 1
      have ho : oneOverStd (1 / 10 ^ 6) 1 1 = 1 := by
        unfold oneOverStd; rw [if_neg (by rw [abs_one]; norm_num)]; norm_num
      rw [hD, hst, ho, mul_one]
      exact hco

/-- The default settings: `gradient_tol = 1e-4`, `max_iter = 100`. -/
example (next : (ℕ → BitVec 32) → ℕ → (ℕ → BitVec 32)) (s : SolverLog) :
    ∃ t r, glmFit ((sepCfg (1 / 10000) 100).forSolver .irlsLs) tinyStats (irlsSolver next fun _ _ => lsInner invSolve) sepRows 0 (.single 0) s = some (t, r) ∧
      t.convWarn = s.convWarn ∧ 9 < r.coef 0 := by
  obtain ⟨-, t, r, hf, hc, -, hr⟩ := c113_silent_fit next (1 / 10000) 100 (by norm_num) (by norm_num) (by
    rw [Real.exp_neg, inv_lt_comm₀ (Real.exp_pos _) (by norm_num)]
    have := Real.quadratic_le_exp_of_nonneg (show (0 : ℝ) ≤ (25 : ℝ) by norm_num)
    have h2 : Real.exp ((100 : ℕ) : ℝ) = Real.exp 25 ^ 4 := by rw [← Real.exp_nat_mul]; norm_num
    rw [h2]
    have h3 : (300 : ℝ) ≤ Real.exp 25 := by linarith
    have h4 : (300 : ℝ) ^ 4 ≤ Real.exp 25 ^ 4 := pow_le_pow_left₀ (by norm_num) h3 4
    norm_num at h4 ⊢
    linarith) s
  refine ⟨t, r, hf, hc, lt_trans ?_ hr⟩
  rw [Real.lt_log_iff_exp_lt (by norm_num)]
  have h9 : Real.exp 9 = Real.exp 1 ^ 9 := by rw [← Real.exp_nat_mul]; norm_num
  have := pow_lt_pow_left₀ Real.exp_one_lt_d9 (Real.exp_pos 1).le (show 9 ≠ 0 by norm_num)
  rw [h9]
  refine this.trans ?_
  norm_num

/-- `c113_coefficients_diverge` applies to the separated rows. -/
example (B : ℝ) : ∃ δ : ℝ, 0 < δ ∧ ∀ (next : (ℕ → BitVec 32) → ℕ → (ℕ → BitVec 32)) (inner : (ℕ → BitVec 32) → (m : ℕ) → Inner m 1 false) (tol : ℝ) (N : ℕ),
    tol < δ → ∀ (s t : SolverLog) (r : PathResult), glmFit (sepCfg tol N) tinyStats (irlsSolver next inner) sepRows 0 (.given [0]) s = some (t, r) →
      (∀ x ∈ r.alphas, 0 ≤ x) → t.convWarn = s.convWarn →
      ∀ (i : ℕ) (hi : i < r.alphas.length) (hc : i < r.coefPath.length) (hb : i < r.interceptPath.length), r.alphas[i] = 0 →
        B < |r.interceptPath[i]| ∨ ∃ j < 1, B < |r.coefPath[i] j| := by
  obtain ⟨δ, hδ, h⟩ := c113_coefficients_diverge (sepCfg 1 1) tinyStats sepRows 0 0 (sep_convex 1 1) le_rfl (fun _ => zero_le_one) (by
    intro h
    exact (c113_solution_iff (sepCfg 1 1) sepRows 0 0 (sep_convex 1 1) le_rfl ⟨fun _ => 0, fun j _ => ⟨fun l h => (by cases h), fun u h => (by cases h)⟩⟩
      (fun _ => 1)).1 h ⟨0, fun _ => 1, sep_separates 1 1 _⟩) B
  refine ⟨δ, hδ, fun next inner tol N ht s t r hf ha hw i hi hc hb hai => ?_⟩
  exact h next inner (sepCfg tol N) ⟨rfl, rfl, rfl, rfl, rfl, rfl, rfl, rfl, rfl⟩ rfl ht _ s t r hf ha hw i hi hc hb hai
    (fun j _ => ⟨fun l h => (by cases h), fun u h => (by cases h)⟩)

end Glum
