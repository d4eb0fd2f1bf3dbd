import Verif.Model.External
import Verif.Props.EndToEnd
import Verif.Props.OneStepFit
/-
C119: fits with `lbfgs` and `trust-constr`.
-/
set_option linter.unusedSectionVars false
set_option linter.unusedVariables false
set_option linter.unusedSimpArgs false

namespace Glum
open Spec

variable {n p : ℕ} {ic : Bool}

/-! ### Contracts of scipy's optimisers -/

/-- What is assumed of `fmin_l_bfgs_b`: it never returns a point with a larger objective than its start, and when it stops on the
gradient criterion, every entry of the gradient there is at most `pgtol` in absolute value. -/
structure Spec.LbfgsOK (opt : Lbfgs) : Prop where
  descent : ∀ m (f : (Fin m → ℝ) → ℝ × (Fin m → ℝ)) x0 tol k fac, (f (opt m f x0 tol k fac).x).1 ≤ (f x0).1
  gradient : ∀ m (f : (Fin m → ℝ) → ℝ × (Fin m → ℝ)) x0 tol k fac, (opt m f x0 tol k fac).task = .gradient → ∀ i, |(f (opt m f x0 tol k fac).x).2 i| ≤ tol

/-- First-order conditions at `x` under `A x ≤ ub`, for a function with gradient `g` at `x`: feasible up to `viol`; there are
non-negative multipliers for which the gradient of the Lagrangian is at most `tol` in every entry and the complementarity gap at most
`comp`. -/
def Spec.FirstOrder {m : ℕ} (g x : Fin m → ℝ) (c : LinCon m) (tol viol comp : ℝ) : Prop :=
  (∀ r, ∑ i, c.A r i * x i ≤ c.ub r + viol) ∧
  ∃ lam : Fin c.k → ℝ, (∀ r, 0 ≤ lam r) ∧ (∀ i, |g i + ∑ r, lam r * c.A r i| ≤ tol) ∧ ∑ r, lam r * (c.ub r - ∑ i, c.A r i * x i) ≤ comp

/-- What is assumed of `minimize(method="trust-constr")`: on success, the first-order conditions hold up to the given accuracies. -/
def Spec.TrustOK (opt : TrustConstr) (tol viol comp : ℝ) : Prop :=
  ∀ m (f : (Fin m → ℝ) → ℝ × (Fin m → ℝ)) x0 con xtol gtol k, (opt m f x0 con xtol gtol k).success = true →
    FirstOrder (f (opt m f x0 con xtol gtol k).x).2 (opt m f x0 con xtol gtol k).x (con.getD ⟨0, fun r => r.elim0, fun r => r.elim0⟩)
      tol viol comp

/-- The user's inequality constraints, up to `viol`. -/
def Spec.MeetsIneq (p : ℕ) {k : ℕ} (A : ℕ → ℕ → ℝ) (b : Fin k → ℝ) (coef : ℕ → ℝ) (viol : ℝ) : Prop :=
  ∀ r : Fin k, ∑ j : Fin p, A r j * coef j ≤ b r + viol

/-- No mean is clipped by the inverse link (only logit and cloglog clip). -/
def Spec.NotClipped (p : ℕ) (e50 : ℝ) (l : Link) (R : Rows n) (b0 : ℝ) (b : ℕ → ℝ) : Prop :=
  ∀ i, ∑ j : Fin p, R.X i j * b j + b0 + (R.off.getD fun _ => 0) i ∈ unclipped e50 l

/-! ### The gradient -/

theorem fast_inverse (f : Family) (l : Link) (k : Fast) (h : f.fast l = some k) (e50 eta : ℝ) (hc : eta ∈ unclipped e50 l) :
    l.inverse e50 eta = k.mu eta := by
  rcases fast_cases h with ⟨rfl, rfl, -⟩ | ⟨rfl, rfl, -⟩ | ⟨rfl, rfl, -⟩ | ⟨rfl, rfl, -⟩ | ⟨q, rfl, rfl, -⟩ | ⟨rfl, rfl, -⟩ | ⟨t, rfl, rfl, -⟩
  · rfl
  · rfl
  · rfl
  · rfl
  · rfl
  · rw [fast_mu_logit]
    obtain ⟨h1, h2⟩ : e50 < 1 / (1 + Real.exp (-eta)) ∧ 1 / (1 + Real.exp (-eta)) < 1 - e50 := hc
    show clip50 e50 (expit eta) = expit eta
    unfold clip50 expit clip
    rw [max_eq_left h1.le, min_eq_left h2.le]
  · rfl

/-- The gradient handed to the optimiser is minus the score of the IRLS problem. -/
theorem smooth_grad (C : FitCfg p ic) (D : IRLSData n p ic) (k : Fast) (hF : FastFit D C.family C.link k)
    (hsym : ∀ i j, p2Full (p := p) ic D.P2 i j = p2Full ic D.P2 j i) (w : Fin (p + ic.toNat) → ℝ)
    (hc : ∀ r, linPred ic D.X (off D) w r ∈ unclipped C.e50 C.link) (i : Fin (p + ic.toNat)) :
    (objAndDerivative (smoothOf C D) w).2 i = -scoreAt D w i := by
  have hl : ∀ r, safeLinPred ic D.X w D.offset r = linPred ic D.X (off D) w r := by
    intro r; rw [c12_lin_pred]; rfl
  have hg : ∀ r, C.link.inverseDerivative (linPred ic D.X (off D) w r) * (D.sw r * C.family.unitDevianceDerivative (D.y r)
      (C.link.inverse C.e50 (linPred ic D.X (off D) w r)))
      = -2 * D.fam.grad (D.y r) (D.sw r) (linPred ic D.X (off D) w r) (D.fam.inv (linPred ic D.X (off D) w r)) := by
    intro r
    rw [fast_inverse _ _ k hF.fast _ _ (hc r), hF.fam]
    show _ = -2 * k.grad (D.y r) (D.sw r) (k.mu _)
    rw [fast_grad_eq hF.valid hF.fast]
    unfold Family.unitDevianceDerivative
    ring
  unfold scoreAt
  simp only [objAndDerivative, muDevianceDerivative, smoothOf, hl, hg]
  rw [p2Coef_eq D.P2 hsym w i]
  have e := scoreOf_eq D (fun r => D.fam.grad (D.y r) (D.sw r) (linPred ic D.X (off D) w r) (D.fam.inv (linPred ic D.X (off D) w r)))
    (fun _ => 0) i
  unfold scoreOf at e
  rw [sub_zero, sub_zero] at e
  rw [← e]
  split
  · rw [← Finset.mul_sum]; ring
  · simp only [mul_assoc]
    rw [← Finset.mul_sum]; ring

/-- The tangent inequality of the smooth objective in terms of the gradient handed to the optimiser. -/
theorem smooth_tangent (C : FitCfg p ic) (D : IRLSData n p ic) (k : Fast) (hF : FastFit D C.family C.link k) (hk : k ≠ .invGaussianLog)
    (hP : ∀ j, D.P1 j = 0)
    (hsym : ∀ i j, p2Full (p := p) ic D.P2 i j = p2Full ic D.P2 j i) (hpsd : PosSemidef (p2Full (p := p) ic D.P2))
    (w v : Fin (p + ic.toNat) → ℝ) (hc : ∀ r, linPred ic D.X (off D) w r ∈ unclipped C.e50 C.link) :
    objective D w + ∑ i, (objAndDerivative (smoothOf C D) w).2 i * (v i - w i) ≤ objective D v := by
  have hgrad : ∑ i, (objAndDerivative (smoothOf C D) w).2 i * (v i - w i) = -∑ i, scoreAt D w i * (v i - w i) := by
    rw [← Finset.sum_neg_distrib]
    exact Finset.sum_congr rfl fun i _ => by rw [smooth_grad C D k hF hsym w hc i, neg_mul]
  rw [hgrad, score_dot]
  have hr := ridge_tangent D hsym hpsd w v
  have hrow : ∀ r, 1 / 2 * (D.sw r * D.fam.dev (D.y r) (linPred ic D.X (off D) w r))
      + -(D.fam.grad (D.y r) (D.sw r) (linPred ic D.X (off D) w r) (D.fam.inv (linPred ic D.X (off D) w r)))
        * (∑ k, design ic D.X r k * (v k - w k))
      ≤ 1 / 2 * (D.sw r * D.fam.dev (D.y r) (linPred ic D.X (off D) v r)) := by
    intro r
    have := convex_tangent (hF.convex hk r) (hF.gradOK r (linPred ic D.X (off D) w r)) (linPred ic D.X (off D) v r)
    have e : linPred ic D.X (off D) v r - linPred ic D.X (off D) w r = ∑ k, design ic D.X r k * (v k - w k) := by
      unfold linPred
      simp only [mul_sub, Finset.sum_sub_distrib]; ring
    rw [e] at this
    exact this
  have hsum := Finset.sum_le_sum fun r (_ : r ∈ (Finset.univ : Finset (Fin n))) => hrow r
  simp only [Finset.sum_add_distrib, neg_mul, Finset.sum_neg_distrib] at hsum
  have hl1 : ∀ u : Fin (p + ic.toNat) → ℝ, l1 ic D.P1 u = 0 := by
    intro u
    unfold l1 l1Weight
    exact Finset.sum_eq_zero fun i _ => by split <;> simp [hP]
  unfold objective smoothObj
  rw [Finset.mul_sum, Finset.mul_sum, hl1, hl1]
  linarith

theorem setupP1_zero (P1a : P1Arg) (P1 : ℕ → ℝ) (h : setupP1 p 1 0 P1a = some P1) (j : ℕ) : P1 j = 0 := by
  cases P1a with
  | str s =>
    simp only [setupP1] at h
    split at h
    · simp only [Option.some.injEq] at h; rw [← h]; simp
    · simp at h
  | none => simp only [setupP1, Option.some.injEq] at h; rw [← h]; simp
  | vec len v =>
    simp only [setupP1] at h
    split at h
    · simp only [Option.some.injEq] at h; rw [← h]; simp
    · simp at h

/-! ### Rows of the path and the calls they come from -/

/-- A log to which every call appends one entry lists the entries in order. -/
theorem appended_log {α : Type} (N : ℕ) (g : ℕ → List α) (f : ℕ → α) (h0 : g 0 = []) (h : ∀ k < N, g (k + 1) = g k ++ [f k]) :
    ∀ k ≤ N, g k = (List.range k).map f := by
  intro k
  induction k with
  | zero => intro _; simpa using h0
  | succ k ih => intro hk; rw [h k (by omega), ih (by omega), List.range_succ, List.map_append]; rfl

/-- Every row of the path is the report of one call of the solver on the standardised problem; the log has that call's entry. -/
theorem ext_rows (C : FitCfg p ic) (stats : Stats) (R : Rows n) (l1r : ℝ) (S : SolverFn ExtLog p ic)
    (flag : IRLSData n p ic → Option (ℕ → ℕ → ℝ) → (Fin (p + ic.toNat) → ℝ) → Bool)
    (hS : ∀ D A s st, (S n D A s st).1.gradStop = s.gradStop ++ [flag D A st])
    (hS' : ∀ D A s s₂ st, (S n D A s st).2 = (S n D A s₂ st).2) (a : AlphaSpec) (s s' : ExtLog)
    (r : PathResult) (hfit : glmFit C stats S R l1r a s = some (s', r)) (hs0 : s.gradStop = []) :
    s'.gradStop.length = r.alphas.length ∧ r.coefPath.length = r.alphas.length ∧ r.interceptPath.length = r.alphas.length ∧
    r.coefPath.getLast? = some r.coef ∧ r.interceptPath.getLast? = some r.intercept ∧
    ∃ Q P1 P2, prepare C stats R l1r = some Q ∧ setupP1 p 1 l1r C.P1a = some P1 ∧ setupP2 p C.xsp 1 l1r C.P2a = some P2 ∧
      Q.means = (stats n R.X R.sw).1 ∧ Q.stds = (stats n R.X R.sw).2 ∧
      Q.A = C.A.map (fun a r j => a r j * oneOverStd C.thr 1 (Q.stds j)) ∧
    ∀ i (hi : i < r.alphas.length) (hc : i < r.coefPath.length) (hb : i < r.interceptPath.length), ∃ start : Fin (p + ic.toNat) → ℝ,
      (i = 0 → start = Q.start) ∧
      s'.gradStop[i]? = some (flag (stdData C.thr C.asIfScaled Q.means Q.stds (C.problem R (fun j => P1 j * r.alphas[i])
        (P2.smul r.alphas[i]))) Q.A start) ∧
      r.interceptPath[i] = (report ic C.thr Q.means Q.stds (S n (stdData C.thr C.asIfScaled Q.means Q.stds
        (C.problem R (fun j => P1 j * r.alphas[i]) (P2.smul r.alphas[i]))) Q.A s start).2).1 ∧
      r.coefPath[i] = (report ic C.thr Q.means Q.stds (S n (stdData C.thr C.asIfScaled Q.means Q.stds
        (C.problem R (fun j => P1 j * r.alphas[i]) (P2.smul r.alphas[i]))) Q.A s start).2).2 := by
  obtain ⟨Q, hQ, -, hs', hst, -⟩ := glmFit_spec C stats S R l1r a s s' r hfit
  obtain ⟨hlen, states, hst0, hstn, hrows⟩ := c41_path (Q.solveFn S) Q.D.P1 Q.D.P2 r.alphas s Q.start
  obtain ⟨-, l1', l2', g1, g2, -, -⟩ := c41_stored C.thr Q.means Q.stds r.alphas _ r hst
  obtain ⟨P1, P2, h1, h2, hm, hsd, hD, hA⟩ := prepare_spec C stats R l1r Q hQ
  unfold Prepared.path at *
  have hDp : ∀ a : ℝ, Q.D.withPen (fun j => Q.D.P1 j * a) (Q.D.P2.smul a)
      = stdData C.thr C.asIfScaled Q.means Q.stds (C.problem R (fun j => P1 j * a) (P2.smul a)) := by
    intro a; rw [hD, withPen_std]
  have hlog := appended_log r.alphas.length (fun k => (states k).gradStop)
    (fun k => if hk : k < r.alphas.length then flag (stdData C.thr C.asIfScaled Q.means Q.stds
      (C.problem R (fun j => P1 j * r.alphas[k]) (P2.smul r.alphas[k]))) Q.A
      (if h : k = 0 then Q.start else ((solvePath (Q.solveFn S) Q.D.P1 Q.D.P2 r.alphas s Q.start).2[k - 1]?).getD Q.start) else false)
    (by simp only [hst0]; exact hs0) (by
      intro k hk
      have h3 := congrArg (fun x => x.1.gradStop) (hrows k hk (by rw [hlen]; exact hk))
      simp only [Prepared.solveFn] at h3
      rw [hS] at h3
      rw [hDp] at h3
      rw [← h3, dif_pos hk]
      congr 3
      split
      · rfl
      · rw [List.getElem?_eq_getElem (by rw [hlen]; omega)]; rfl) r.alphas.length le_rfl
  simp only [hstn, ← hs'] at hlog
  refine ⟨by rw [hlog]; simp, l1'.trans hlen, l2'.trans hlen, g1, g2, Q, P1, P2, hQ, h1, h2, hm, hsd, hA, fun i hi hc hb => ?_⟩
  have hi' : i < (solvePath (Q.solveFn S) Q.D.P1 Q.D.P2 r.alphas s Q.start).2.length := by rw [hlen]; exact hi
  obtain ⟨e1, e2⟩ := storePath_rows C.thr Q.means Q.stds r.alphas _ r hst i hi'
  rw [List.getElem?_eq_getElem hc, Option.some.injEq] at e1
  rw [List.getElem?_eq_getElem hb, Option.some.injEq] at e2
  have hrow := congrArg Prod.snd (hrows i hi hi')
  simp only [Prepared.solveFn] at hrow
  rw [hS' _ _ _ s, hDp] at hrow
  refine ⟨(if h : i = 0 then Q.start else ((solvePath (Q.solveFn S) Q.D.P1 Q.D.P2 r.alphas s Q.start).2[i - 1]?).getD Q.start),
    fun h => dif_pos h, ?_, ?_, ?_⟩
  · rw [hlog, List.getElem?_map, List.getElem?_range hi]
    simp only [Option.map_some, dif_pos hi]
  all_goals
    first | rw [e2, ← hrow] | rw [e1, ← hrow]
    congr 4
    split
    · rfl
    · rw [List.getElem?_eq_getElem (by rw [hlen]; omega)]; rfl

theorem std_linPred (C : FitCfg p ic) (R : Rows n) (P1 : ℕ → ℝ) (P2 : Pen2 ℝ) (means stds : ℕ → ℝ) (c : Fin (p + ic.toNat) → ℝ) (r : Fin n) :
    linPred ic (stdData C.thr C.asIfScaled means stds (C.problem R P1 P2)).X (off (stdData C.thr C.asIfScaled means stds (C.problem R P1 P2))) c r
      = ∑ j : Fin p, R.X r j * (report ic C.thr means stds c).2 j + (report ic C.thr means stds c).1 + (R.off.getD fun _ => 0) r := by
  rw [c15_same_predictions]
  rfl

/-- A point of the solver's problem whose gradient differs from a combination of active constraints by at most `tol` per entry. -/
theorem std_near_optimal (C : FitCfg p ic) (R : Rows n) (h : ConvexFit C R 0) (means stds : ℕ → ℝ) (hs : ∀ j, 0 ≤ stds j)
    (P1 : ℕ → ℝ) (P2 : Pen2 ℝ) (h1 : setupP1 p 1 0 C.P1a = some P1) (h2 : setupP2 p C.xsp 1 0 C.P2a = some P2) (a : ℝ) (ha : 0 ≤ a)
    (con : LinCon (p + ic.toNat)) (tol viol comp : ℝ) (w : Fin (p + ic.toNat) → ℝ)
    (hw : FirstOrder (objAndDerivative (smoothOf C (stdData C.thr C.asIfScaled means stds
      (C.problem R (fun j => P1 j * a) (P2.smul a)))) w).2 w con tol viol comp)
    (hc : NotClipped p C.e50 C.link R (report ic C.thr means stds w).1 (report ic C.thr means stds w).2)
    (b0 : ℝ) (b : ℕ → ℝ) (v : Fin (p + ic.toNat) → ℝ) (hv0 : (report ic C.thr means stds v).1 = b0)
    (hv : ∀ j : Fin p, (report ic C.thr means stds v).2 j = b j) (hfeas : ∀ r, ∑ i, con.A r i * v i ≤ con.ub r) (B : ℝ)
    (hclose : StdClose p ic C.thr means stds B b0 b (report ic C.thr means stds w).1 (report ic C.thr means stds w).2) :
    fitObjective p C.e50 C.family C.link R (penScale C.thr C.asIfScaled stds) C.P1a C.P2a a 0
      (report ic C.thr means stds w).1 (report ic C.thr means stds w).2
    ≤ fitObjective p C.e50 C.family C.link R (penScale C.thr C.asIfScaled stds) C.P1a C.P2a a 0 b0 b
      + tol * ((p + ic.toNat : ℕ) * B) + comp := by
  set D := stdData C.thr C.asIfScaled means stds (C.problem R (fun j => P1 j * a) (P2.smul a)) with hDdef
  obtain ⟨⟨k, hk, hF⟩, hP, hsym, hpsd⟩ := convexFit_data C R 0 h means stds hs P1 P2 h1 h2 a ha
  obtain ⟨K, hK⟩ := std_objective C h.thr h.valid R h.y means stds hs 0 P1 P2 h1 h2 a
  have hP0 : ∀ j, D.P1 j = 0 := by
    intro j
    have e0 : ∀ j, P1 j = 0 := setupP1_zero C.P1a P1 h1
    rw [hDdef]
    unfold stdData standardize FitCfg.problem
    cases C.asIfScaled <;> simp [e0]
  have hcl : ∀ r, linPred ic D.X (off D) w r ∈ unclipped C.e50 C.link := by
    intro r
    have := hc r
    rw [← std_linPred C R (fun j => P1 j * a) (P2.smul a)] at this
    exact this
  have ht := smooth_tangent C D k hF hk hP0 hsym hpsd w v hcl
  obtain ⟨-, lam, hl0, hl1, hl2⟩ := hw
  set g := (objAndDerivative (smoothOf C D) w).2 with hg
  have hdist : ∀ i, |v i - w i| ≤ B := fun i => by
    refine report_close C.thr h.thr means stds hs B w v ?_ i
    refine ⟨fun j hj => ?_, fun hi => ?_⟩
    · have := hv ⟨j, hj⟩
      simp only at this
      rw [this]; exact hclose.1 j hj
    · have := hclose.2 hi
      rw [hv0]; simp only [hv]; exact this
  have e1 : ∑ i, g i * (v i - w i) = ∑ i, (g i + ∑ r, lam r * con.A r i) * (v i - w i)
      - ∑ r, lam r * (∑ i, con.A r i * v i - ∑ i, con.A r i * w i) := by
    simp only [add_mul, Finset.sum_add_distrib]
    have : ∑ i, (∑ r, lam r * con.A r i) * (v i - w i) = ∑ r, lam r * (∑ i, con.A r i * v i - ∑ i, con.A r i * w i) := by
      simp only [Finset.sum_mul, ← Finset.sum_sub_distrib, Finset.mul_sum]
      rw [Finset.sum_comm]
      exact Finset.sum_congr rfl fun r _ => Finset.sum_congr rfl fun i _ => by ring
    rw [this]; ring
  have e2 : -(tol * ((p + ic.toNat : ℕ) * B)) ≤ ∑ i, (g i + ∑ r, lam r * con.A r i) * (v i - w i) := by
    have h3 : ∀ i ∈ (Finset.univ : Finset (Fin (p + ic.toNat))), -(tol * B) ≤ (g i + ∑ r, lam r * con.A r i) * (v i - w i) := by
      intro i _
      have h4 : |(g i + ∑ r, lam r * con.A r i) * (v i - w i)| ≤ tol * B := by
        rw [abs_mul]
        exact mul_le_mul (hl1 i) (hdist i) (abs_nonneg _) ((abs_nonneg _).trans (hl1 i))
      exact (abs_le.1 h4).1
    have h5 := Finset.card_nsmul_le_sum _ _ _ h3
    simp only [Finset.card_univ, Fintype.card_fin, nsmul_eq_mul] at h5
    refine le_trans (le_of_eq ?_) h5
    ring
  have e3 : ∑ r, lam r * (∑ i, con.A r i * v i - ∑ i, con.A r i * w i) ≤ ∑ r, lam r * (con.ub r - ∑ i, con.A r i * w i) :=
    Finset.sum_le_sum fun r _ => mul_le_mul_of_nonneg_left (by linarith [hfeas r]) (hl0 r)
  rw [hK, hK, fitObjective_congr C R _ a 0 _ b0 _ b hv0 hv] at ht
  linarith

/-- **C119, lbfgs.** A fit with `solver="lbfgs"` (single alpha, given alphas or computed path; any weights, offset, L2 penalty, start, with
or without intercept and scaling; every convex compiled family/link pair; every optimiser that keeps its contract): each alpha has one
call of the optimiser, and whenever that call stopped on the gradient criterion, the coefficients stored for that alpha are nearly
optimal for the documented objective on the user's own data: any other coefficients do better by at most `gradient_tol` times the
number of coefficients times the largest difference (on the standardised scale). -/
theorem c119_lbfgs_near_optimal (opt : Lbfgs) (hopt : LbfgsOK opt) (C : FitCfg p ic) (stats : Stats) (R : Rows n) (h : ConvexFit C R 0)
    (hs : ∀ j, 0 ≤ (stats n R.X R.sw).2 j) (a : AlphaSpec) (s s' : ExtLog) (r : PathResult)
    (hfit : glmFit C stats (lbfgsSolver opt C) R 0 a s = some (s', r)) (hs0 : s.gradStop = []) (ha : ∀ x ∈ r.alphas, 0 ≤ x) :
    s'.gradStop.length = r.alphas.length ∧ r.coefPath.length = r.alphas.length ∧ r.interceptPath.length = r.alphas.length ∧
    r.coefPath.getLast? = some r.coef ∧ r.interceptPath.getLast? = some r.intercept ∧
    ∀ i (hi : i < r.alphas.length) (hc : i < r.coefPath.length) (hb : i < r.interceptPath.length), s'.gradStop[i]? = some true →
      NotClipped p C.e50 C.link R r.interceptPath[i] r.coefPath[i] →
      ∀ (b0 : ℝ) (b : ℕ → ℝ), (ic = false → b0 = 0) → ∀ B : ℝ,
        StdClose p ic C.thr (stats n R.X R.sw).1 (stats n R.X R.sw).2 B b0 b r.interceptPath[i] r.coefPath[i] →
        fitObjective p C.e50 C.family C.link R (penScale C.thr C.asIfScaled (stats n R.X R.sw).2) C.P1a C.P2a r.alphas[i] 0
            r.interceptPath[i] r.coefPath[i]
          ≤ fitObjective p C.e50 C.family C.link R (penScale C.thr C.asIfScaled (stats n R.X R.sw).2) C.P1a C.P2a r.alphas[i] 0 b0 b
            + C.gradTol * ((p + ic.toNat : ℕ) * B) := by
  obtain ⟨g1, g2, g3, g4, g5, Q, P1, P2, hQ, h1, h2, hm, hsd, -, hrow⟩ := ext_rows C stats R 0 (lbfgsSolver opt C)
    (fun D A st => decide ((opt (p + ic.toNat) (objAndDerivative (smoothOf C D)) st D.gradTol D.maxIter 100).task = .gradient))
    (fun D A s st => rfl) (fun D A s s₂ st => rfl) a s s' r hfit hs0
  refine ⟨g1, g2, g3, g4, g5, fun i hi hc hb hstop hclip b0 b hb0 B hclose => ?_⟩
  obtain ⟨start, -, f1, f2, f3⟩ := hrow i hi hc hb
  rw [f1, Option.some.injEq, decide_eq_true_iff] at hstop
  have hgrad := hopt.gradient _ _ _ _ _ _ hstop
  rw [← hsd] at hs
  obtain ⟨v, hv0, hv⟩ := report_bijective (ic := ic) (p := p) C.thr h.thr Q.means Q.stds hs b0 b hb0
  rw [f2, f3] at hclip hclose ⊢
  rw [← hsd, ← hm] at hclose
  rw [← hsd]
  have := std_near_optimal C R h Q.means Q.stds hs P1 P2 h1 h2 r.alphas[i] (ha _ (List.getElem_mem hi))
    ⟨0, fun r => r.elim0, fun r => r.elim0⟩ C.gradTol 0 0 _
    ⟨fun r => r.elim0, fun r => r.elim0, fun r => r.elim0, fun q => by
      have h3 := hgrad q
      simp only [Finset.univ_eq_empty, Finset.sum_empty, add_zero]
      exact h3, by simp⟩ hclip b0 b v hv0 hv (fun r => r.elim0) B hclose
  rw [add_zero] at this
  exact this

/-- The constraint handed to the optimiser, in terms of the reported coefficients. -/
theorem trust_row {k : ℕ} (thr : ℝ) (means stds : ℕ → ℝ) (A : ℕ → ℕ → ℝ) (r : Fin k) (c : Fin (p + ic.toNat) → ℝ) :
    ∑ i : Fin (p + ic.toNat), (if i.val < ic.toNat then 0 else A r (i.val - ic.toNat) * oneOverStd thr 1 (stds (i.val - ic.toNat))) * c i
      = ∑ j : Fin p, A r j * (report ic thr means stds c).2 j := by
  have hfeat : ∀ j : Fin p, (report ic thr means stds c).2 j = feat ic c j * oneOverStd thr 1 (stds j) := fun j => rfl
  simp only [hfeat, feat_eq]
  cases ic with
  | false =>
    show ∑ i : Fin p, _ = _
    exact Finset.sum_congr rfl fun j _ => by simp; ring
  | true =>
    show ∑ i : Fin (p + 1), _ = _
    rw [Fin.sum_univ_succ]
    simp only [Bool.toNat_true, Fin.val_zero, Nat.lt_one_iff, if_true, zero_mul, zero_add, Fin.val_succ, Nat.add_eq_zero_iff, one_ne_zero,
      and_false, if_false, Nat.add_sub_cancel]
    exact Finset.sum_congr rfl fun j _ => by
      have : (⟨j.val + 1, by simp⟩ : Fin (p + true.toNat)) = j.succ := rfl
      rw [this]; ring

/-- **C119, trust-constr.** A fit with `solver="trust-constr"` and inequality constraints: whenever the optimiser's call for an alpha
succeeded and met the first-order conditions up to `(tol, viol, comp)`, the coefficients stored for that alpha satisfy the user's
`A_ineq @ coef ≤ b_ineq` up to `viol` (whatever the scaling; the intercept is not constrained), and no coefficients that satisfy the user's
constraints do better by more than `tol` times the number of coefficients times the largest difference plus `comp`. -/
theorem c119_trust_constr {k : ℕ} (opt : TrustConstr) (tol viol comp : ℝ) (hopt : TrustOK opt tol viol comp) (C : FitCfg p ic) (stats : Stats)
    (R : Rows n) (h : ConvexFit C R 0) (hs : ∀ j, 0 ≤ (stats n R.X R.sw).2 j) (A : ℕ → ℕ → ℝ) (hA : C.A = some A) (bq : Fin k → ℝ)
    (a : AlphaSpec) (s s' : ExtLog) (r : PathResult)
    (hfit : glmFit C stats (trustSolver opt C (some bq)) R 0 a s = some (s', r)) (hs0 : s.gradStop = []) (ha : ∀ x ∈ r.alphas, 0 ≤ x) :
    s'.gradStop.length = r.alphas.length ∧ r.coefPath.length = r.alphas.length ∧ r.interceptPath.length = r.alphas.length ∧
    r.coefPath.getLast? = some r.coef ∧ r.interceptPath.getLast? = some r.intercept ∧
    ∀ i (hi : i < r.alphas.length) (hc : i < r.coefPath.length) (hb : i < r.interceptPath.length), s'.gradStop[i]? = some true →
      MeetsIneq p A bq r.coefPath[i] viol ∧
      (NotClipped p C.e50 C.link R r.interceptPath[i] r.coefPath[i] →
      ∀ (b0 : ℝ) (b : ℕ → ℝ), (ic = false → b0 = 0) → MeetsIneq p A bq b 0 → ∀ B : ℝ,
        StdClose p ic C.thr (stats n R.X R.sw).1 (stats n R.X R.sw).2 B b0 b r.interceptPath[i] r.coefPath[i] →
        fitObjective p C.e50 C.family C.link R (penScale C.thr C.asIfScaled (stats n R.X R.sw).2) C.P1a C.P2a r.alphas[i] 0
            r.interceptPath[i] r.coefPath[i]
          ≤ fitObjective p C.e50 C.family C.link R (penScale C.thr C.asIfScaled (stats n R.X R.sw).2) C.P1a C.P2a r.alphas[i] 0 b0 b
            + tol * ((p + ic.toNat : ℕ) * B) + comp) := by
  obtain ⟨g1, g2, g3, g4, g5, Q, P1, P2, hQ, h1, h2, hm, hsd, hQA, hrow⟩ := ext_rows C stats R 0 (trustSolver opt C (some bq))
    (fun D A st => (opt (p + ic.toNat) (objAndDerivative (smoothOf C D)) st (trustConstraints A (some bq)) (1 / 10 ^ 8) D.gradTol
      D.maxIter).success)
    (fun D A s st => rfl) (fun D A s s₂ st => rfl) a s s' r hfit hs0
  refine ⟨g1, g2, g3, g4, g5, fun i hi hc hb hstop => ?_⟩
  obtain ⟨start, -, f1, f2, f3⟩ := hrow i hi hc hb
  rw [f1, Option.some.injEq] at hstop
  have hkkt := hopt _ _ _ _ _ _ _ hstop
  rw [← hsd] at hs
  rw [hA] at hQA
  obtain ⟨w, hw⟩ : ∃ w, w = (trustSolver opt C (some bq) n (stdData C.thr C.asIfScaled Q.means Q.stds
        (C.problem R (fun j => P1 j * r.alphas[i]) (P2.smul r.alphas[i]))) Q.A s start).2 := ⟨_, rfl⟩
  have hw' : (opt (p + ic.toNat) (objAndDerivative (smoothOf C (stdData C.thr C.asIfScaled Q.means Q.stds
        (C.problem R (fun j => P1 j * r.alphas[i]) (P2.smul r.alphas[i]))))) start (trustConstraints Q.A (some bq)) (1 / 10 ^ 8)
        (stdData C.thr C.asIfScaled Q.means Q.stds (C.problem R (fun j => P1 j * r.alphas[i]) (P2.smul r.alphas[i]))).gradTol
        (stdData C.thr C.asIfScaled Q.means Q.stds (C.problem R (fun j => P1 j * r.alphas[i]) (P2.smul r.alphas[i]))).maxIter).x = w := hw.symm
  rw [hw'] at hkkt
  rw [← hw] at f2 f3
  clear hw hw'
  rw [f2, f3]
  have hcon : (trustConstraints (p := p) (ic := ic) Q.A (some bq)) = some (⟨k, fun r c => if c.val < ic.toNat then 0 else
      A r (c.val - ic.toNat) * oneOverStd C.thr 1 (Q.stds (c.val - ic.toNat)), bq⟩ : LinCon (p + ic.toNat)) := by
    rw [hQA]; rfl
  rw [hcon, Option.getD_some] at hkkt
  refine ⟨fun q => ?_, fun hclip b0 b hb0 hfe B hclose => ?_⟩
  · have := hkkt.1 q
    rw [← trust_row C.thr Q.means Q.stds A q w]
    exact this
  · obtain ⟨v, hv0, hv⟩ := report_bijective (ic := ic) (p := p) C.thr h.thr Q.means Q.stds hs b0 b hb0
    rw [← hsd, ← hm] at hclose
    rw [← hsd]
    refine std_near_optimal C R h Q.means Q.stds hs P1 P2 h1 h2 r.alphas[i] (ha _ (List.getElem_mem hi)) _ tol viol comp w hkkt hclip b0 b v hv0 hv
      (fun q => ?_) B hclose
    have h3 := hfe q
    rw [add_zero] at h3
    simp only [← hv] at h3
    rw [← trust_row C.thr Q.means Q.stds A q v] at h3
    exact h3

/-- The start of a cold fit with an intercept: the guessed intercept and zeros. -/
theorem ext_cold_start (C : FitCfg p true) (stats : Stats) (R : Rows n) (l1r : ℝ) (hcold : C.start = .cold)
    (hzero : WithinBounds p C.lb C.ub fun _ => 0) (Q : Prepared n p true) (hQ : prepare C stats R l1r = some Q) :
    ∃ g, guessIntercept C.family C.link R.y R.sw (R.off.elim .none .array) = some g ∧
      (report true C.thr Q.means Q.stds Q.start).1 = g ∧ ∀ j : Fin p, (report true C.thr Q.means Q.stds Q.start).2 j = 0 := by
  have hQ' := hQ
  unfold prepare at hQ'
  simp only [Option.bind_eq_bind] at hQ'
  obtain ⟨P1, P2, h1, h2, hm, hsd, hD, -⟩ := prepare_spec C stats R l1r Q hQ
  rw [h1, h2] at hQ'
  simp only [Option.bind_some] at hQ'
  cases hg : startGuess C R with
  | none => rw [hg] at hQ'; simp at hQ'
  | some g =>
    rw [hg] at hQ'
    simp only [Option.bind_some, Option.some.injEq] at hQ'
    have hstart : Q.start = getStartCoef true C.thr Q.means Q.stds g C.lb C.ub C.start := by
      rw [← hQ']
    rw [hcold] at hstart
    have hgi : guessIntercept C.family C.link R.y R.sw (R.off.elim .none .array) = some g := by
      unfold startGuess at hg
      rw [hcold] at hg
      exact hg
    have hst0 : ∀ k : Fin (p + true.toNat), Q.start k = if k.val < true.toNat then g else 0 := by
      intro k
      rw [hstart]
      unfold getStartCoef clipStart rawStart
      by_cases hk : k.val < true.toNat
      · simp only [hk, if_true]
      · have hj : k.val - true.toNat < p := by have := k.isLt; omega
        have hz := hzero _ hj
        simp only [hk, if_false]
        cases hl : C.lb with
        | none =>
          cases hu : C.ub with
          | none => rfl
          | some u => exact min_eq_left (hz.2 u hu)
        | some l =>
          have e1 : max 0 (l (k.val - true.toNat)) = 0 := max_eq_left (hz.1 l hl)
          cases hu : C.ub with
          | none => exact e1
          | some u => simp only []; rw [e1]; exact min_eq_left (hz.2 u hu)
    refine ⟨g, hgi, ?_⟩
    have hf : ∀ j : ℕ, feat true Q.start j = 0 := by
      intro j
      unfold feat
      split
      · rw [hst0]; simp
      · rfl
    have hi : icpt true Q.start = g := by
      unfold icpt
      simp [hst0]
    refine ⟨?_, fun j => ?_⟩
    · simp [report, unstandardize, hf, hi]
    · simp [report, unstandardize, hf]

/-- The value handed to the optimiser is the documented objective, for links that do not clip. -/
theorem smooth_value (C : FitCfg p ic) (R : Rows n) (h : ConvexFit C R 0) (hlink : C.link ≠ .logit) (means stds : ℕ → ℝ)
    (hs : ∀ j, 0 ≤ stds j) (P1 : ℕ → ℝ) (P2 : Pen2 ℝ) (h1 : setupP1 p 1 0 C.P1a = some P1) (h2 : setupP2 p C.xsp 1 0 C.P2a = some P2)
    (a : ℝ) (ha : 0 ≤ a) (w : Fin (p + ic.toNat) → ℝ) :
    (objAndDerivative (smoothOf C (stdData C.thr C.asIfScaled means stds (C.problem R (fun j => P1 j * a) (P2.smul a)))) w).1
      = fitObjective p C.e50 C.family C.link R (penScale C.thr C.asIfScaled stds) C.P1a C.P2a a 0
        (report ic C.thr means stds w).1 (report ic C.thr means stds w).2 := by
  set D := stdData C.thr C.asIfScaled means stds (C.problem R (fun j => P1 j * a) (P2.smul a)) with hDdef
  obtain ⟨⟨k, hk, hF⟩, hP, hsym, hpsd⟩ := convexFit_data C R 0 h means stds hs P1 P2 h1 h2 a ha
  have hne : ∀ eta, eta ∈ unclipped C.e50 C.link := by
    intro eta
    rcases fast_cases hF.fast with ⟨-, hl, -⟩ | ⟨-, hl, -⟩ | ⟨-, hl, -⟩ | ⟨-, hl, -⟩ | ⟨q, -, hl, -⟩ | ⟨-, hl, -⟩ | ⟨t, -, hl, -⟩
    all_goals first | exact absurd hl hlink | (rw [hl]; trivial)
  have hmean : ∀ eta, trueMean C.e50 C.family C.link eta = C.link.inverse C.e50 eta := by
    intro eta
    unfold trueMean
    split
    · next hl => exact absurd hl hlink
    · rfl
  rw [objAndDerivative_value (smoothOf C D) h.valid ?_ h.y hsym w ?_]
  · unfold documentedObjective fitObjective
    have hl : ∀ r, linPred ic D.X (off D) w r
        = ∑ j : Fin p, R.X r j * (report ic C.thr means stds w).2 j + (report ic C.thr means stds w).1 + (R.off.getD fun _ => 0) r :=
      fun r => std_linPred C R (fun j => P1 j * a) (P2.smul a) means stds w r
    have e2 := (std_penalty C.thr h.thr C.asIfScaled means stds hs (C.problem R (fun j => P1 j * a) (P2.smul a)) w).2
    rw [mul_zero, zero_mul, add_zero]
    congr 1
    · congr 1
      refine Finset.sum_congr rfl fun r _ => ?_
      rw [← hl r, hmean]
      rfl
    · refine Eq.trans e2 ?_
      have hp2 := (c36_symmetrisation p C.xsp 1 0 C.P2a P2 h2
        (fun j => (report ic C.thr means stds w).2 j * penScale C.thr C.asIfScaled stds j) (fun _ => 0)).2.1
      show 1 / 2 * ∑ j : Fin p, ∑ k : Fin p, p2Matrix (P2.smul a) j k * _ * _ = _
      have : ∑ j : Fin p, ∑ k : Fin p, p2Matrix (P2.smul a) j k *
          ((report ic C.thr means stds w).2 j * penScale C.thr C.asIfScaled stds j) *
          ((report ic C.thr means stds w).2 k * penScale C.thr C.asIfScaled stds k)
          = a * ∑ j : Fin p, ∑ k : Fin p, p2Matrix P2 j k *
          ((report ic C.thr means stds w).2 j * penScale C.thr C.asIfScaled stds j) *
          ((report ic C.thr means stds w).2 k * penScale C.thr C.asIfScaled stds k) := by
        simp only [Finset.mul_sum]
        apply Finset.sum_congr rfl; intro j _; apply Finset.sum_congr rfl; intro k _
        rw [smul_entry]; ring
      rw [this]
      linear_combination a * hp2
  · intro q hq hneg
    rcases fast_cases hF.fast with ⟨-, -, hl⟩ | ⟨-, -, hl⟩ | ⟨-, -, hl⟩ | ⟨-, -, hl⟩ | ⟨q', -, -, hl, h3, -⟩ | ⟨-, -, hl⟩ | ⟨t, -, -, hl⟩
    all_goals
      change C.family = _ at hq
      rw [hq] at hl
    · rcases hl with hl | hl
      · cases hl
      · cases hl; exact absurd hneg (lt_irrefl _)
    · rcases hl with hl | hl
      · cases hl
      · cases hl; linarith
    · rcases hl with hl | hl
      · cases hl
      · cases hl; linarith
    · rcases hl with hl | hl
      · cases hl
      · cases hl; linarith
    · cases hl; linarith
    · cases hl
    · cases hl
  · intro r
    show C.link.inverse C.e50 _ ∈ muRange C.family
    rw [fast_inverse _ _ k hF.fast _ _ (hne _)]
    exact (fast_mu_spec hF.fast _).1

/-- **C119, the null model.** A cold fit with `solver="lbfgs"`, an intercept and one alpha never ends worse than the best model without
features, whatever made the optimiser stop (converged, iteration limit, failure). -/
theorem c119_lbfgs_not_worse_than_null (opt : Lbfgs) (hopt : LbfgsOK opt) (C : FitCfg p true) (stats : Stats) (R : Rows n)
    (h : ConvexFit C R 0) (hlink : C.link ≠ .logit) (hs : ∀ j, 0 ≤ (stats n R.X R.sw).2 j) (hsw : ∑ i, R.sw i = 1) (hcold : C.start = .cold)
    (hoff : R.off = none ∨ (C.family ≠ .binomial ∧ ∀ t, C.family ≠ .negBinomial t)) (hlb : C.lb = none) (hub : C.ub = none)
    (a : ℝ) (ha : 0 ≤ a) (s s' : ExtLog) (r : PathResult) (hfit : glmFit C stats (lbfgsSolver opt C) R 0 (.single a) s = some (s', r))
    (hs0 : s.gradStop = []) (b0 : ℝ) :
    fitObjective p C.e50 C.family C.link R (penScale C.thr C.asIfScaled (stats n R.X R.sw).2) C.P1a C.P2a a 0 r.intercept r.coef
      ≤ fitObjective p C.e50 C.family C.link R (penScale C.thr C.asIfScaled (stats n R.X R.sw).2) C.P1a C.P2a a 0 b0 (fun _ => 0) := by
  obtain ⟨g1, g2, g3, g4, g5, Q, P1, P2, hQ, h1, h2, hm, hsd, -, hrow⟩ := ext_rows C stats R 0 (lbfgsSolver opt C)
    (fun D A st => decide ((opt (p + true.toNat) (objAndDerivative (smoothOf C D)) st D.gradTol D.maxIter 100).task = .gradient))
    (fun D A s st => rfl) (fun D A s s₂ st => rfl) (.single a) s s' r hfit hs0
  obtain ⟨Q', hQ', hal, -, -, -⟩ := glmFit_spec C stats _ R 0 (.single a) s s' r hfit
  simp only [AlphaSpec.eval, Option.some.injEq] at hal
  have hlen : r.alphas.length = 1 := by rw [← hal]; rfl
  obtain ⟨start, hst, -, f2, f3⟩ := hrow 0 (by omega) (by omega) (by omega)
  have hr0 : r.coefPath[0]'(by omega) = r.coef := by
    rw [List.getLast?_eq_getElem?, g2, hlen, List.getElem?_eq_getElem (by omega)] at g4
    exact Option.some.inj g4
  have hr1 : r.interceptPath[0]'(by omega) = r.intercept := by
    rw [List.getLast?_eq_getElem?, g3, hlen, List.getElem?_eq_getElem (by omega)] at g5
    exact Option.some.inj g5
  have ha0 : r.alphas[0]'(by omega) = a := by simp only [← hal, List.getElem_cons_zero]
  rw [hst rfl, ha0] at f2 f3
  rw [← hr0, ← hr1, f2, f3, ← hsd]
  rw [← hsd] at hs
  obtain ⟨g, hg, e0, e1⟩ := ext_cold_start C stats R 0 hcold (fun j _ => ⟨(fun l hl => by rw [hlb] at hl; cases hl), (fun u hu => by rw [hub] at hu; cases hu)⟩) Q hQ
  have hd := hopt.descent (p + true.toNat) (objAndDerivative (smoothOf C (stdData C.thr C.asIfScaled Q.means Q.stds
        (C.problem R (fun j => P1 j * a) (P2.smul a))))) Q.start C.gradTol C.maxIter 100
  rw [smooth_value C R h hlink Q.means Q.stds hs P1 P2 h1 h2 a ha, smooth_value C R h hlink Q.means Q.stds hs P1 P2 h1 h2 a ha] at hd
  refine le_trans hd ?_
  obtain ⟨k, hk, -⟩ := h.pair
  have hnull := guess_optimal C R h.valid k hk h.y hsw hoff g hg b0
  rw [fitObjective_congr C R _ a 0 _ g _ (fun _ => 0) e0 e1, fitObjective_null, fitObjective_null]
  linarith

/-- **C119, what is reported.** One call of either solver: with `lbfgs` a `ConvergenceWarning` exactly when the iteration limit was hit, and
another warning exactly on failure; with `trust-constr` a `ConvergenceWarning` exactly when the optimiser was not successful; `n_iter_` is
the optimiser's count; and neither the warning nor the outcome depends on `P1`, the bounds, `step_size_tol`, `hessian_approx`,
`max_inner_iter`, `selection` or the earlier calls. -/
theorem c119_reports {k : ℕ} (opt : Lbfgs) (opt' : TrustConstr) (C : FitCfg p ic) (b : Option (Fin k → ℝ)) (D D' : IRLSData n p ic)
    (hD : D'.X = D.X ∧ D'.y = D.y ∧ D'.sw = D.sw ∧ D'.P2 = D.P2 ∧ D'.offset = D.offset ∧ D'.gradTol = D.gradTol ∧ D'.maxIter = D.maxIter)
    (A A' : Option (ℕ → ℕ → ℝ)) (s s₂ : ExtLog) (start : Fin (p + ic.toNat) → ℝ) :
    (let task := (opt (p + ic.toNat) (objAndDerivative (smoothOf C D)) start D.gradTol D.maxIter 100).task
     let out := lbfgsSolver opt C n D A s start
     ((task = .limit ↔ out.1.convWarn = s.convWarn + 1) ∧ (task ≠ .limit ↔ out.1.convWarn = s.convWarn)) ∧
     ((task = .failure ↔ out.1.otherWarn = s.otherWarn + 1) ∧ (task ≠ .failure ↔ out.1.otherWarn = s.otherWarn)) ∧
     out.1.nIter = (opt (p + ic.toNat) (objAndDerivative (smoothOf C D)) start D.gradTol D.maxIter 100).nit ∧
     (lbfgsSolver opt C n D' A' s₂ start).2 = out.2) ∧
    (let r := opt' (p + ic.toNat) (objAndDerivative (smoothOf C D)) start (trustConstraints A b) (1 / 10 ^ 8) D.gradTol D.maxIter
     let out := trustSolver opt' C b n D A s start
     ((r.success = false ↔ out.1.convWarn = s.convWarn + 1) ∧ (r.success = true ↔ out.1.convWarn = s.convWarn)) ∧
     out.1.otherWarn = s.otherWarn ∧ out.1.nIter = r.nit ∧ (trustSolver opt' C b n D' A s₂ start).2 = out.2) := by
  obtain ⟨e1, e2, e3, e4, e5, e6, e7⟩ := hD
  have hsm : smoothOf C D' = smoothOf C D := by unfold smoothOf; rw [e1, e2, e3, e4, e5]
  refine ⟨?_, ?_⟩
  · simp only [lbfgsSolver, hsm, e6, e7]
    cases (opt (p + ic.toNat) (objAndDerivative (smoothOf C D)) start D.gradTol D.maxIter 100).task <;> simp [LbfgsTask.warnflag]
  · simp only [trustSolver, hsm, e6, e7]
    cases (opt' (p + ic.toNat) (objAndDerivative (smoothOf C D)) start (trustConstraints A b) (1 / 10 ^ 8) D.gradTol D.maxIter).success <;>
      simp

/-! ### Non-vacuity -/

open Classical in
/-- An optimiser that finds a stationary point below its start whenever there is one. -/
noncomputable def idealLbfgs : Lbfgs := fun _ f x0 tol k _ =>
  if h : ∃ x, (f x).1 ≤ (f x0).1 ∧ ∀ i, |(f x).2 i| ≤ tol then ⟨h.choose, .gradient, 1⟩ else ⟨x0, .limit, k⟩

theorem idealLbfgs_ok : LbfgsOK idealLbfgs where
  descent := fun m f x0 tol k fac => by
    unfold idealLbfgs
    split
    · next h => exact h.choose_spec.1
    · exact le_rfl
  gradient := fun m f x0 tol k fac hg => by
    unfold idealLbfgs at hg ⊢
    split
    · next h => exact h.choose_spec.2
    · next h => rw [dif_neg h] at hg; cases hg

/-- The hypotheses of `c119_lbfgs_near_optimal` and `c119_lbfgs_not_worse_than_null` are met by ridge regression on two rows; there the
optimiser stops on the gradient criterion. -/
example (N M : ℕ) : ∃ s' r, glmFit ((tinyCfg N M).forSolver .lbfgs) tinyStats (lbfgsSolver idealLbfgs ((tinyCfg N M).forSolver .lbfgs)) tinyRows 0
    (.single 1) ⟨0, 0, 0, []⟩ = some (s', r) ∧ s'.gradStop = [true] ∧ ConvexFit ((tinyCfg N M).forSolver .lbfgs) tinyRows 0 := by
  obtain ⟨Q, r, hQ, hst, hr⟩ := tiny_fits (⟨0, 0, 0, []⟩ : ExtLog) N M .lbfgs (lbfgsSolver idealLbfgs ((tinyCfg N M).forSolver .lbfgs))
  refine ⟨_, r, hr, ?_, ⟨(tiny_convex N M).thr, (tiny_convex N M).valid, (tiny_convex N M).pair, (tiny_convex N M).y, (tiny_convex N M).sw,
    (tiny_convex N M).p1, (tiny_convex N M).p2, (tiny_convex N M).l1⟩⟩
  have hcfg : (tinyCfg N M).forSolver .lbfgs = tinyCfg N M := rfl
  rw [hcfg] at hQ ⊢
  obtain ⟨P1, P2, h1, h2, hm, hsd, hD, -⟩ := prepare_spec (tinyCfg N M) tinyStats tinyRows 0 Q hQ
  simp only [lbfgsSolver, List.nil_append]
  congr 1
  rw [decide_eq_true_iff]
  unfold idealLbfgs
  rw [dif_pos]
  have hstd : ∀ j, 0 ≤ Q.stds j := by rw [hsd]; intro j; norm_num [tinyStats]
  rw [hD, withPen_std, hst]
  have hP2 : P2 = .vec fun _ => 1 := by
    obtain ⟨a, h3, h4⟩ : ∃ a, setupP2Base 1 false P2Arg.none = some a ∧ (Pen2.smul 1 a).symmetrise = P2 := by
      simpa [setupP2, tinyCfg] using h2
    simp only [setupP2Base, Option.some.injEq] at h3
    rw [← h4, ← h3]
    simp [Pen2.smul, Pen2.symmetrise]
  refine ⟨fun k => if k.val < 1 then 2 else 1 / 2, ?_, fun i => ?_⟩
  · rw [smooth_value (tinyCfg N M) tinyRows (tiny_convex N M) (by simp [tinyCfg]) Q.means Q.stds hstd P1 P2 h1 h2 1 zero_le_one,
      smooth_value (tinyCfg N M) tinyRows (tiny_convex N M) (by simp [tinyCfg]) Q.means Q.stds hstd P1 P2 h1 h2 1 zero_le_one]
    refine (tiny_objective _ _ _ ?_).le.trans (le_trans ?_ (tiny_objective _ _ _ ?_).ge)
    all_goals simp only [hm, hsd]; simp [tinyStats, tinyCfg, penScale, report, unstandardize, feat, icpt, oneOverStd, outMeans]
    all_goals norm_num
  · rw [hm, hsd, hP2]
    simp only [objAndDerivative, muDevianceDerivative, smoothOf, stdData, standardize, FitCfg.problem, tinyCfg, tinyRows, tinyStats, c12_lin_pred, linPred_split,
      p2Coef, feat, Family.unitDevianceDerivative, Link.inverseDerivative, Link.inverse, Family.unitVariance, stdX, Pen2.smul, Fin.sum_univ_two]
    fin_cases i <;> simp [oneOverStd, scaleP2, Pen2.smul, icpt, feat] <;> norm_num

open Classical in
/-- An optimiser that finds a point satisfying the first-order conditions whenever there is one. -/
noncomputable def idealTrust (tol viol comp : ℝ) : TrustConstr := fun _ f x0 con _ _ k =>
  if h : ∃ x, FirstOrder (f x).2 x (con.getD ⟨0, fun r => r.elim0, fun r => r.elim0⟩) tol viol comp then ⟨h.choose, true, 1⟩ else ⟨x0, false, k⟩

theorem idealTrust_ok (tol viol comp : ℝ) : TrustOK (idealTrust tol viol comp) tol viol comp := by
  intro m f x0 con xtol gtol k h
  unfold idealTrust at h ⊢
  split
  · next h' => exact h'.choose_spec
  · next h' => rw [dif_neg h'] at h; cases h

/-- The two-row ridge regression with the constraint `coef ≤ 0`. -/
noncomputable def tinyCon : FitCfg 1 true := { tinyCfg 100 0 with A := some fun _ _ => 1 }

/-- The hypotheses of `c119_trust_constr` are met by it, and the optimiser succeeds (the constraint is active: the multiplier is 1). -/
example : ConvexFit tinyCon tinyRows 0 ∧ ∃ s' r, glmFit tinyCon tinyStats (trustSolver (idealTrust 0 0 0) tinyCon (some fun _ : Fin 1 => 0)) tinyRows 0
    (.single 1) ⟨0, 0, 0, []⟩ = some (s', r) ∧ s'.gradStop = [true] := by
  have hcv : ConvexFit tinyCon tinyRows 0 := ⟨(tiny_convex 100 0).thr, (tiny_convex 100 0).valid, (tiny_convex 100 0).pair, (tiny_convex 100 0).y,
    (tiny_convex 100 0).sw, (tiny_convex 100 0).p1, (tiny_convex 100 0).p2, (tiny_convex 100 0).l1⟩
  refine ⟨hcv, ?_⟩
  have hg : guessIntercept .normal .identity tinyRows.y tinyRows.sw .none = some 2 := by
    unfold guessIntercept
    rw [if_neg (by simp)]
    simp [average, tinyRows]
    norm_num
  have hs : startGuess tinyCon tinyRows = some 2 := hg
  obtain ⟨Q, hQ⟩ : ∃ Q, prepare tinyCon tinyStats tinyRows 0 = some Q := by
    unfold prepare
    rw [hs]
    exact ⟨_, rfl⟩
  obtain ⟨r, hr, -⟩ := glmFit_single tinyCon tinyStats (trustSolver (idealTrust 0 0 0) tinyCon (some fun _ : Fin 1 => 0)) tinyRows 0 1 ⟨0, 0, 0, []⟩ Q hQ
    (by rintro ⟨l, u, h, -⟩; cases h) (fun _ => rfl)
  refine ⟨_, r, hr, ?_⟩
  obtain ⟨P1, P2, h1, h2, hm, hsd, hD, hA⟩ := prepare_spec tinyCon tinyStats tinyRows 0 Q hQ
  simp only [trustSolver, List.nil_append]
  congr 1
  unfold idealTrust
  rw [dif_pos]
  rw [hD, withPen_std, hA]
  have hP2 : P2 = .vec fun _ => 1 := by
    obtain ⟨a, h3, h4⟩ : ∃ a, setupP2Base 1 false P2Arg.none = some a ∧ (Pen2.smul 1 a).symmetrise = P2 := by
      simpa [setupP2, tinyCfg, tinyCon] using h2
    simp only [setupP2Base, Option.some.injEq] at h3
    rw [← h4, ← h3]
    simp [Pen2.smul, Pen2.symmetrise]
  refine ⟨fun k => if k.val < 1 then 2 else 0, ?_⟩
  have hcon : trustConstraints (p := 1) (ic := true) (tinyCon.A.map fun a r j => a r j * oneOverStd tinyCon.thr 1 (Q.stds j)) (some fun _ : Fin 1 => (0 : ℝ))
      = some ⟨1, fun r c => if c.val < 1 then 0 else 1 * oneOverStd tinyCon.thr 1 (Q.stds (c.val - 1)), fun _ => 0⟩ := rfl
  rw [hcon, Option.getD_some, hm, hsd, hP2]
  have hsum : ∀ f : Fin (1 + true.toNat) → ℝ, ∑ i, f i = f ⟨0, by decide⟩ + f ⟨1, by decide⟩ := fun f => Fin.sum_univ_two f
  refine ⟨fun r => ?_, fun _ => 1, fun _ => zero_le_one, fun i => ?_, ?_⟩
  · rw [hsum]; simp
  · simp only [objAndDerivative, muDevianceDerivative, smoothOf, stdData, standardize, FitCfg.problem, tinyCon, tinyCfg, tinyRows, tinyStats,
      c12_lin_pred, linPred_split,
      p2Coef, feat, Family.unitDevianceDerivative, Link.inverseDerivative, Link.inverse, Family.unitVariance, stdX, Pen2.smul, Fin.sum_univ_two]
    fin_cases i <;> simp [oneOverStd, scaleP2, Pen2.smul, icpt, feat] <;> norm_num
  · simp only [hsum]; simp

end Glum
