import Verif.Props.OuterLive3
/-
C85, fourth part: L1 penalty, bounds and the step-size criterion.
-/
set_option linter.unusedSectionVars false
set_option linter.unusedVariables false
set_option linter.unusedSimpArgs false

namespace Glum
open Spec

variable {n p : ℕ} {ic : Bool}

/-- The direction of the coordinate-descent solver: the model decrease and half the quadratic form are predicted. -/
theorem cd_predicted (seeds : ℕ → BitVec 32) (D : IRLSData n p ic) (hD : Convexish D) (coef0 : Fin (p + ic.toNat) → ℝ)
    (st : IRLSState n p ic) (h : Visited (cdInner seeds) D coef0 st) :
    predictedChange D st.coef (cdInner seeds D (innerState D st)).1
      = modelObj (cdArgs D (innerState D st)).active (cdArgs D (innerState D st)).Q ic D.P1 (fun k => -st.score k) st.coef
            ((cdArgs D (innerState D st)).run st.coef (fun k => -st.score k) (seeds st.nIter)).w
        - modelObj (cdArgs D (innerState D st)).active (cdArgs D (innerState D st)).Q ic D.P1 (fun k => -st.score k) st.coef st.coef
        - 1 / 2 * ∑ i, ∑ j, fullHessian ic D.X (innerState D st).hs.rows D.P2 i j * (cdInner seeds D (innerState D st)).1 i * (cdInner seeds D (innerState D st)).1 j := by
  have hs := (visited_sync _ D hD.P1 coef0 st h).score
  have hok := visited_hessOK _ D hD coef0 st h
  obtain ⟨hwf, hpsd⟩ := cdArgs_ok D hD st hok (innerState D st) rfl
  set st1 := innerState D st with hst1
  have hact : st1.hs.active = identifyActiveSet D st := (updateHessian_init ic D.X D.P2 D.hessApprox st.hs _).2
  have hmem : ∀ s, st1.hs.active.get s ∈ identifyActiveSet D st := fun s => by
    rw [← hact]; exact List.get_mem _ _
  have hQ : ∀ s t, (cdArgs D st1).Q s t = fullHessian ic D.X st1.hs.rows D.P2 (st1.hs.active.get s) (st1.hs.active.get t) := fun s t =>
    updateHessian_block ic D.X D.P2 D.hessApprox st.hs hok.inv _ (activeSet_ok D st) _ (hmem s) _ (hmem t)
  have hoff : ∀ i, i ∉ Set.range (cdArgs D st1).active → ((cdArgs D st1).run st.coef (fun k => -st.score k) (seeds st.nIter)).w i = st.coef i := by
    obtain ⟨sched, e⟩ := cd_run_is_schedule (cdArgs D st1) st.coef (fun k => -st.score k) (seeds st.nIter)
    intro i hi
    rw [e]
    exact (c21_gradient_bookkeeping _ hwf _ _ _ sched).2 i hi
  set w := ((cdArgs D st1).run st.coef (fun k => -st.score k) (seeds st.nIter)).w with hw
  have hd : (cdInner seeds D st1).1 = fun k => w k - st.coef k := rfl
  have hfull : (fun k => st.coef k + (cdInner seeds D st1).1 k) = w := by
    funext k; rw [hd]; ring
  have hz : ∀ i, i ∉ Set.range (cdArgs D st1).active → w i - st.coef i = 0 := fun i hi => by rw [hoff i hi, sub_self]
  have hsum : ∑ k, scoreAt D st.coef k * (w k - st.coef k)
      = ∑ s, scoreAt D st.coef ((cdArgs D st1).active s) * (w ((cdArgs D st1).active s) - st.coef ((cdArgs D st1).active s)) := by
    refine sum_active _ hwf.mono.injective _ fun i hi => ?_
    rw [hz i hi, mul_zero]
  have hquad : ∑ i, ∑ j, fullHessian ic D.X st1.hs.rows D.P2 i j * (w i - st.coef i) * (w j - st.coef j)
      = ∑ s, ∑ t, (cdArgs D st1).Q s t * (w ((cdArgs D st1).active s) - st.coef ((cdArgs D st1).active s))
          * (w ((cdArgs D st1).active t) - st.coef ((cdArgs D st1).active t)) := by
    rw [sum_active _ hwf.mono.injective _ fun i hi => ?_]
    · refine Finset.sum_congr rfl fun s _ => ?_
      rw [sum_active _ hwf.mono.injective _ fun j hj => ?_]
      · exact Finset.sum_congr rfl fun t _ => by rw [hQ s t]; rfl
      · rw [hz j hj, mul_zero]
    · exact Finset.sum_eq_zero fun j _ => by rw [hz i hi, mul_zero, zero_mul]
  unfold predictedChange modelObj
  rw [hfull, hd]
  beta_reduce
  rw [quad_zero, zero_add, hsum, hquad]
  unfold quad
  have e : ∑ s, -st.score ((cdArgs D st1).active s) * (w ((cdArgs D st1).active s) - st.coef ((cdArgs D st1).active s))
      = -∑ s, scoreAt D st.coef ((cdArgs D st1).active s) * (w ((cdArgs D st1).active s) - st.coef ((cdArgs D st1).active s)) := by
    rw [← Finset.sum_neg_distrib]
    exact Finset.sum_congr rfl fun s _ => by rw [hs]; ring
  rw [e]
  ring

/-- With a step-size tolerance, a solver whose predicted decrease is at least `kap |d|²` ends. -/
theorem step_converges (inner : Inner n p ic) (D : IRLSData n p ic) (hP : ∀ k, 0 ≤ D.P1 k) (he : 0 ≤ D.eps) (tau : ℝ) (ht : 0 ≤ tau) (htol : D.stepTol = some tau)
    (coef0 : Fin (p + ic.toNat) → ℝ) (kap : ℝ) (hk : 0 ≤ kap)
    (hd : ∀ st, Visited inner D coef0 st → st.diagnostics.IsChain (Progress D.eps) →
      predictedChange D st.coef (inner D (innerState D st)).1 ≤ -(kap * ∑ k, (inner D (innerState D st)).1 k ^ 2))
    (low : ℝ) (hlow : ∀ w, low ≤ objective D w) (hmax : objective D coef0 - low < D.maxIter * (1 / 10000 * (kap * tau ^ 2)))
    (hp : (irlsRun inner D coef0).diagnostics.IsChain (Progress D.eps)) : (irlsRun inner D coef0).converged = true := by
  have hcount : ∀ st, Visited inner D coef0 st → st.diagnostics.IsChain (Progress D.eps) → st.converged = false →
      objective D st.coef + st.nIter * (1 / 10000 * (kap * tau ^ 2)) ≤ objective D coef0 := by
    intro st h
    induction h with
    | init =>
      intro _ _
      show objective D coef0 + ((0 : ℕ) : ℝ) * _ ≤ _
      simp
    | step st hv hn hc ih =>
      intro hp hnc
      have hp' := progress_tail inner D st hp
      have h2 := ih hp' hc
      have h0 := hd st hv hp'
      set d := (inner D (innerState D st)).1 with hdd
      have hsq : 0 ≤ ∑ k, d k ^ 2 := Finset.sum_nonneg fun k _ => sq_nonneg _
      have h1 := progress_step inner D hP he coef0 st hv (h0.trans (by have := mul_nonneg hk hsq; linarith)) _ le_rfl hp
      rw [← hdd] at h1
      have hsp := lineSearch_spec D (innerState D st) d
      set j := (lineSearch D (innerState D st) d).k with hj
      have hstep : (irlsStep inner D st).step = fun k => (1 / 2) ^ j * d k := hsp.step
      have hchk := visited_checked inner D coef0 _ (Visited.step st hv hn hc)
      rw [Prod.ext_iff] at hchk
      have e1 : (irlsStep inner D st).converged = (checkConvergence D (irlsStep inner D st).coef (irlsStep inner D st).step (irlsStep inner D st).score).1 := hchk.1
      have hnorm : tau ≤ l2Norm (irlsStep inner D st).step := by
        by_contra hlt
        push Not at hlt
        rw [e1] at hnc
        unfold checkConvergence at hnc
        simp only [htol] at hnc
        rw [decide_eq_true hlt] at hnc
        simp at hnc
      have hsum : tau ^ 2 ≤ ((1 / 2) ^ j) ^ 2 * ∑ k, d k ^ 2 := by
        have h3 := pow_le_pow_left₀ ht hnorm 2
        unfold l2Norm at h3
        rw [Real.sq_sqrt (Finset.sum_nonneg fun k _ => sq_nonneg _), hstep] at h3
        simp only [mul_pow, ← Finset.mul_sum] at h3
        exact h3
      have hpow1 : ((1 : ℝ) / 2) ^ j ≤ 1 := pow_le_one₀ (by norm_num) (by norm_num)
      have hpow0 : (0 : ℝ) < (1 / 2) ^ j := by positivity
      have h4 : tau ^ 2 ≤ (1 / 2) ^ j * ∑ k, d k ^ 2 := by
        refine hsum.trans (mul_le_mul_of_nonneg_right ?_ hsq)
        nlinarith
      have h5 : (1 / 2 : ℝ) ^ j * (1 / 10000 * predictedChange D st.coef d) ≤ -(1 / 10000 * (kap * tau ^ 2)) := by
        have a1 := mul_le_mul_of_nonneg_left h0 hpow0.le
        have a2 := mul_le_mul_of_nonneg_left h4 hk
        linarith
      have h6 : ((irlsStep inner D st).nIter : ℝ) = st.nIter + 1 := by
        show ((st.nIter + 1 : ℕ) : ℝ) = _
        push_cast; ring
      rw [h6, add_mul, one_mul]
      linarith
  by_contra hn
  have hc : (irlsRun inner D coef0).converged = false := by simpa using hn
  have hni := (c32_accounting inner D hP coef0).2.2.2.2 hc
  have := hcount _ (irlsRun_visited inner D coef0) hp hc
  rw [hni] at this
  have := hlow (irlsRun inner D coef0).coef
  linarith

/-- Curvature of the Hessian with larger rows. -/
theorem strong_mono (X : Fin n → ℕ → ℝ) (b h : Fin n → ℝ) (hb : ∀ r, b r ≤ h r) (P2 : Pen2 ℝ) (lam : ℝ)
    (hL : StronglyConvex lam (fullHessian (p := p) ic X b P2)) : StronglyConvex lam (fullHessian (p := p) ic X h P2) := by
  intro d
  refine le_trans (hL d) ?_
  rw [fullHessian_form, fullHessian_form]
  have : ∑ r, b r * (∑ i, design (p := p) ic X r i * d i) ^ 2 ≤ ∑ r, h r * (∑ i, design (p := p) ic X r i * d i) ^ 2 :=
    Finset.sum_le_sum fun r _ => mul_le_mul_of_nonneg_right (hb r) (sq_nonneg _)
  linarith

/-- The coordinate-descent direction predicts a decrease of at least the model decrease plus `lam/2 |d|²`. -/
theorem cd_energy (seeds : ℕ → BitVec 32) (D : IRLSData n p ic) (hD : Convexish D) (coef0 : Fin (p + ic.toNat) → ℝ) (h0 : InBounds ic D.lb D.ub coef0)
    (b : Fin n → ℝ) (hb : ∀ w, objective D w ≤ objective D coef0 → ∀ r, b r ≤ D.fam.hess (D.y r) (D.sw r) (linPred ic D.X (off D) w r)
      (D.fam.inv (linPred ic D.X (off D) w r)))
    (lam : ℝ) (hs : StronglyConvex lam (fullHessian (p := p) ic D.X b D.P2))
    (st : IRLSState n p ic) (h : Visited (cdInner seeds) D coef0 st) (hp : st.diagnostics.IsChain (Progress D.eps)) :
    predictedChange D st.coef (cdInner seeds D (innerState D st)).1
      ≤ modelObj (cdArgs D (innerState D st)).active (cdArgs D (innerState D st)).Q ic D.P1 (fun k => -st.score k) st.coef
            ((cdArgs D (innerState D st)).run st.coef (fun k => -st.score k) (seeds st.nIter)).w
        - modelObj (cdArgs D (innerState D st)).active (cdArgs D (innerState D st)).Q ic D.P1 (fun k => -st.score k) st.coef st.coef
        - lam / 2 * ∑ k, (cdInner seeds D (innerState D st)).1 k ^ 2 := by
  rw [cd_predicted seeds D hD coef0 st h]
  have hd : ∀ st, Visited (cdInner seeds) D coef0 st → predictedChange D st.coef (cdInner seeds D (innerState D st)).1 ≤ 0 := fun st hv =>
    (cd_direction seeds D hD st (visited_hessOK _ D hD coef0 st hv) (visited_sync _ D hD.P1 coef0 st hv).score (c19_irls_in_bounds seeds D hD.bounds coef0 h0 st hv)).1
  have := strong_mono D.X b _ (progress_rows_below (cdInner seeds) D hD coef0 hd b hb st h hp) D.P2 lam hs (cdInner seeds D (innerState D st)).1
  linarith

/-- **C85, step-size tolerance.** Every `irls-cd` fit with a `step_size_tol`, whatever its L1 penalty, bounds and coordinate selection, ends: if `max_iter` exceeds the bound, it
converges, or some iteration warned in its line search or changed the objective by no more than round-off. `b` bounds the Hessian rows from below on the
starting level set and `lam` the curvature of the Hessian built from `b`. -/
theorem c85_step_tol (seeds : ℕ → BitVec 32) (D : IRLSData n p ic) (hD : Convexish D) (coef0 : Fin (p + ic.toNat) → ℝ) (h0 : InBounds ic D.lb D.ub coef0)
    (tau : ℝ) (ht : 0 ≤ tau) (htol : D.stepTol = some tau)
    (b : Fin n → ℝ) (hb : ∀ w, objective D w ≤ objective D coef0 → ∀ r, b r ≤ D.fam.hess (D.y r) (D.sw r) (linPred ic D.X (off D) w r)
      (D.fam.inv (linPred ic D.X (off D) w r)))
    (lam : ℝ) (hl : 0 ≤ lam) (hs : StronglyConvex lam (fullHessian (p := p) ic D.X b D.P2))
    (low : ℝ) (hlow : ∀ w, low ≤ objective D w) (hmax : objective D coef0 - low < D.maxIter * (1 / 10000 * (lam / 2 * tau ^ 2)))
    (hp : (irlsRun (cdInner seeds) D coef0).diagnostics.IsChain (Progress D.eps)) : (irlsRun (cdInner seeds) D coef0).converged = true := by
  refine step_converges (cdInner seeds) D hD.P1 hD.eps tau ht htol coef0 (lam / 2) (by linarith) ?_ low hlow hmax hp
  intro st hv hpr
  have := cd_energy seeds D hD coef0 h0 b hb lam hs st hv hpr
  have hok := visited_hessOK _ D hD coef0 st hv
  obtain ⟨hwf, hpsd⟩ := cdArgs_ok D hD st hok (innerState D st) rfl
  have hr : modelObj (cdArgs D (innerState D st)).active (cdArgs D (innerState D st)).Q ic D.P1 (fun k => -st.score k) st.coef
        ((cdArgs D (innerState D st)).run st.coef (fun k => -st.score k) (seeds st.nIter)).w
      ≤ modelObj (cdArgs D (innerState D st)).active (cdArgs D (innerState D st)).Q ic D.P1 (fun k => -st.score k) st.coef st.coef :=
    c22_run_not_worse (cdArgs D (innerState D st)) hwf st.coef (fun k => -st.score k) (seeds st.nIter)
    (c19_irls_in_bounds seeds D hD.bounds coef0 h0 st hv)
  linarith

/-- The example of C31 with its L1 penalty and bounds, and a step-size tolerance. -/
noncomputable def stepEx : IRLSData 2 1 true :=
  { irlsEx with stepTol := some (1 / 10), maxIter := 10 ^ 10 }

theorem stepEx_convexish : Convexish stepEx :=
  ⟨irlsEx_convexish.P1, irlsEx_convexish.symm, irlsEx_convexish.psd, irlsEx_convexish.rows, irlsEx_convexish.eps, irlsEx_convexish.bounds⟩

theorem stepEx_strong : StronglyConvex (1 / 10) (fullHessian (p := 1) true stepEx.X stepEx.sw stepEx.P2) := liveEx_strong fun _ => 0

theorem stepEx_low (w : Fin (1 + true.toNat) → ℝ) : 0 ≤ objective stepEx w := by
  have h1 : 0 ≤ ∑ r, stepEx.sw r * stepEx.fam.dev (stepEx.y r) (linPred true stepEx.X (off stepEx) w r) :=
    Finset.sum_nonneg fun r _ => by
      simp only [stepEx, irlsEx, normalRow]
      split <;> positivity
  have h2 : 0 ≤ l1 true stepEx.P1 w := Finset.sum_nonneg fun k _ => mul_nonneg (by unfold l1Weight; split <;> simp [stepEx, irlsEx]) (abs_nonneg _)
  have h3 : 0 ≤ ∑ i, ∑ j, p2Full (p := 1) true stepEx.P2 i j * w i * w j := irlsEx_convexish.psd w
  unfold objective smoothObj ridge
  linarith

-- C85, step-size tolerance: the hypotheses hold of this fit
example (seeds : ℕ → BitVec 32) (hp : (irlsRun (cdInner seeds) stepEx fun _ => 0).diagnostics.IsChain (Progress stepEx.eps)) :
    (irlsRun (cdInner seeds) stepEx fun _ => 0).converged = true := by
  refine c85_step_tol seeds stepEx stepEx_convexish (fun _ => 0) irlsEx_feasible (1 / 10) (by norm_num) rfl stepEx.sw ?_ (1 / 10) (by norm_num) stepEx_strong 0 stepEx_low ?_ hp
  · intro w _ r
    simp [stepEx, irlsEx, normalRow]
  · have : objective stepEx (fun _ => 0) ≤ 20 := by
      unfold objective smoothObj ridge l1
      simp [stepEx, irlsEx, normalRow, linPred, off]
      norm_num
    simp only [stepEx] at this ⊢
    norm_num
    linarith

end Glum
