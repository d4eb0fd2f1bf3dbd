import Verif.Props.Linear
import Verif.Props.OneStep
import Verif.Props.OuterLive3
/-
C86 for squared error: linear convergence of `irls-cd` without any assumption on the course of the iteration.
-/
set_option linter.unusedSectionVars false
set_option linter.unusedVariables false
set_option linter.unusedSimpArgs false

namespace Glum
open Spec

variable {n p : ℕ} {ic : Bool}

/-- The Hessian rows of a squared-error fit are the weights throughout. -/
theorem gauss_rows (inner : Inner n p ic) (D : IRLSData n p ic) (hD : Convexish D) (hF : SquaredError D.fam) (coef0 : Fin (p + ic.toNat) → ℝ)
    (st : IRLSState n p ic) (h : Visited inner D coef0 st) : (innerState D st).hs.rows = D.sw := by
  funext r
  have key : ∀ st, Visited inner D coef0 st → st.hs.rows r = D.sw r := fun st h => by
    rw [(c29_state_in_sync inner D hD.P1 coef0 st h).2.2.2.2 r, hF.hess]
  have upd : ∀ hs : HessState ℝ n (p + ic.toNat), ∀ A, hs.rows r = D.sw r → (hs.init = true → hs.oldRows r = D.sw r) →
      (updateHessian ic D.X D.P2 D.hessApprox hs A).rows r = D.sw r := by
    intro hs A h1 h2
    by_cases hi : hs.init = true
    · rcases updateHessian_rows ic D.X D.P2 D.hessApprox hs A r with e | e <;> rw [e]
      · exact h1
      · exact h2 hi
    · unfold updateHessian
      rw [if_pos (Or.inl hi)]
      exact h1
  have main : st.hs.rows r = D.sw r ∧ (st.hs.init = true → st.hs.oldRows r = D.sw r) := by
    induction h with
    | init => exact ⟨key _ Visited.init, fun h => absurd h (by show ¬ (false = true); simp)⟩
    | step st hv hn hc ih => exact ⟨key _ (Visited.step st hv hn hc), fun _ => upd st.hs (identifyActiveSet D st) ih.1 ih.2⟩
  exact upd st.hs (identifyActiveSet D st) main.1 main.2

theorem gauss_curvature (D : IRLSData n p ic) (hF : SquaredError D.fam) : RowCurvature D fun r _ => D.sw r := by
  intro r eta
  constructor
  · have : HasDerivAt (fun e : ℝ => 1 / 2 * (D.sw r * (D.y r - e) ^ 2)) (-(D.sw r * (D.y r - eta))) eta := by
      have := (((hasDerivAt_id eta).const_sub (D.y r)).pow 2).const_mul (D.sw r) |>.const_mul (1 / 2)
      refine this.congr_deriv ?_
      simp
      ring
    simpa only [hF.dev, hF.grad, hF.inv] using this
  · have : HasDerivAt (fun e : ℝ => D.sw r * (D.y r - e)) (-D.sw r) eta := by
      have := ((hasDerivAt_id eta).const_sub (D.y r)).const_mul (D.sw r)
      refine this.congr_deriv ?_
      simp
    simpa only [hF.grad, hF.inv] using this

/-- Part of a step changes a squared-error objective by at most the same part of the model change. -/
theorem gauss_part (D : IRLSData n p ic) (hD : Convexish D) (hF : SquaredError D.fam) (w d : Fin (p + ic.toNat) → ℝ) (t : ℝ) (h0 : 0 ≤ t) (h1 : t ≤ 1) :
    objective D (fun k => w k + t * d k) - objective D w
      ≤ t * predictedChange D w d + 1 / 2 * t ^ 2 * ∑ i, ∑ j, gaussH D i j * d i * d j := by
  have h := gauss_objective D hF hD.symm w fun k => t * d k
  have e : ∑ i, ∑ j, gaussH D i j * (t * d i) * (t * d j) = t ^ 2 * ∑ i, ∑ j, gaussH D i j * d i * d j := by
    rw [Finset.mul_sum]
    refine Finset.sum_congr rfl fun i _ => ?_
    rw [Finset.mul_sum]
    exact Finset.sum_congr rfl fun j _ => by ring
  rw [e] at h
  have hc := l1_chord (ic := ic) D.P1 hD.P1 w d t h0 h1
  have hp : predictedChange D w (fun k => t * d k) ≤ t * predictedChange D w d := by
    unfold predictedChange
    have e2 : ∑ k, scoreAt D w k * (t * d k) = t * ∑ k, scoreAt D w k * d k := by
      rw [Finset.mul_sum]
      exact Finset.sum_congr rfl fun k _ => by ring
    rw [e2]
    linarith
  linarith

/-- The contraction per iteration: `(lam/Lam) / (2 + 2((p+1) Lam/lam)²)`. -/
noncomputable def Spec.gaussRate (p : ℕ) (lam Lam : ℝ) : ℝ := 1 / 2 * (lam / Lam) / (1 + ((p + 1) * Lam / lam) ^ 2)

theorem gaussRate_bounds (p : ℕ) (lam Lam : ℝ) (hl : 0 < lam) (hL : lam ≤ Lam) : 0 < gaussRate p lam Lam ∧ gaussRate p lam Lam ≤ 1 := by
  have hL0 := hl.trans_le hL
  constructor
  · unfold gaussRate; positivity
  · unfold gaussRate
    rw [div_le_one (by positivity)]
    have h2 : lam / Lam ≤ 1 := by rw [div_le_one hL0]; exact hL
    have : 0 ≤ ((p + 1) * Lam / lam) ^ 2 := sq_nonneg _
    linarith

/-- Every iteration of a squared-error fit contracts the distance to the optimum. -/
theorem gauss_contracts (seeds : ℕ → BitVec 32) (D : IRLSData n p ic) (hD : Convexish D) (hF : SquaredError D.fam) (hcyc : D.random = false)
    (hmax : 1 ≤ D.maxInnerIter) (hsize : p + 1 < 2 ^ 32) (coef0 : Fin (p + ic.toNat) → ℝ) (h0 : InBounds ic D.lb D.ub coef0) (lam Lam : ℝ)
    (hs : StronglyConvex lam (gaussH D)) (hL : CurvatureAtMost Lam (gaussH D)) (heps : 16 * D.eps < lam) (hord : lam ≤ Lam)
    (hmu : ∀ w, objective D w ≤ objective D coef0 → ∀ r, linPred ic D.X (off D) w r < D.large)
    (st : IRLSState n p ic) (h : Visited (cdInner seeds) D coef0 st) (hlev : objective D st.coef ≤ objective D coef0)
    (v : Fin (p + ic.toNat) → ℝ) (hv : InBounds ic D.lb D.ub v) (hle : objective D v ≤ objective D st.coef) :
    objective D (irlsStep (cdInner seeds) D st).coef - objective D v ≤ (1 - gaussRate p lam Lam) * (objective D st.coef - objective D v)
      ∧ objective D (irlsStep (cdInner seeds) D st).coef ≤ objective D st.coef := by
  have hl : 0 < lam := lt_of_le_of_lt (by have := hD.eps; linarith) heps
  have hL0 := hl.trans_le hord
  have hin := c19_irls_in_bounds seeds D hD.bounds coef0 h0 st h
  have hrows := gauss_rows (cdInner seeds) D hD hF coef0 st h
  have hsw : ∀ r, 0 ≤ D.sw r := fun r => by
    have := hD.rows r 0
    rwa [hF.hess] at this
  have hgap := cd_model_gap seeds D hD hcyc hmax hsize coef0 (fun r _ => D.sw r) (gauss_curvature D hF) (fun r _ => hsw r) D.sw lam Lam heps hord st h hin
    (fun _ _ r => le_rfl) hs (by rw [hrows]; exact hs) (by rw [hrows]; exact hL) v hv hle
  have hpred := cd_predicted seeds D hD coef0 st h
  rw [hrows] at hpred
  have hok := visited_hessOK _ D hD coef0 st h
  obtain ⟨hwf, _⟩ := cdArgs_ok D hD st hok (innerState D st) rfl
  have hm : modelObj (cdArgs D (innerState D st)).active (cdArgs D (innerState D st)).Q ic D.P1 (fun k => -st.score k) st.coef
        ((cdArgs D (innerState D st)).run st.coef (fun k => -st.score k) (seeds st.nIter)).w
      ≤ modelObj (cdArgs D (innerState D st)).active (cdArgs D (innerState D st)).Q ic D.P1 (fun k => -st.score k) st.coef st.coef :=
    c22_run_not_worse (cdArgs D (innerState D st)) hwf st.coef (fun k => -st.score k) (seeds st.nIter) hin
  have hsy := visited_sync _ D hD.P1 coef0 st h
  set d := (cdInner seeds D (innerState D st)).1 with hdd
  set M := modelObj (cdArgs D (innerState D st)).active (cdArgs D (innerState D st)).Q ic D.P1 (fun k => -st.score k) st.coef st.coef
    - modelObj (cdArgs D (innerState D st)).active (cdArgs D (innerState D st)).Q ic D.P1 (fun k => -st.score k) st.coef
        ((cdArgs D (innerState D st)).run st.coef (fun k => -st.score k) (seeds st.nIter)).w with hM
  have hM0 : 0 ≤ M := sub_nonneg.2 hm
  set β := ∑ i, ∑ j, gaussH D i j * d i * d j with hβ
  have hβ' : β = ∑ i, ∑ j, fullHessian ic D.X D.sw D.P2 i j * d i * d j := rfl
  have hβ0 : 0 ≤ β := gaussH_psd D hD hF d
  set P := predictedChange D st.coef d with hP
  have hPM : P = -M - 1 / 2 * β := by rw [hpred, hM, hβ']; ring
  have hsp := lineSearch_spec D (innerState D st) d
  set k := (lineSearch D (innerState D st) d).k with hk
  have hc : (irlsStep (cdInner seeds) D st).coef = candidate st.coef d k := hsp.coef
  have hpart : ∀ m : ℕ, objective D (candidate st.coef d m) - objective D st.coef ≤ (1 / 2) ^ m * P + 1 / 2 * ((1 / 2) ^ m) ^ 2 * β := fun m =>
    gauss_part D hD hF st.coef d ((1 / 2) ^ m) (by positivity) (pow_le_one₀ (by norm_num) (by norm_num))
  have hdec : objective D (candidate st.coef d k) - objective D st.coef ≤ -((1 / 2) ^ k * M) := by
    refine (hpart k).trans ?_
    have h1 : ((1 : ℝ) / 2) ^ k ≤ 1 := pow_le_one₀ (by norm_num) (by norm_num)
    have h2 : (0 : ℝ) < (1 / 2) ^ k := by positivity
    rw [hPM]
    nlinarith [mul_nonneg (mul_nonneg h2.le (sub_nonneg.2 h1)) hβ0]
  have hmono : objective D (candidate st.coef d k) ≤ objective D st.coef := by
    have : 0 ≤ (1 / 2 : ℝ) ^ k * M := by positivity
    linarith
  rw [hc]
  refine ⟨?_, hmono⟩
  set K : ℝ := 1 + ((p + 1) * Lam / lam) ^ 2 with hK
  have hK0 : 0 < K := by positivity
  have hrate : gaussRate p lam Lam * (objective D st.coef - objective D v) ≤ 1 / 2 * M := by
    have e : gaussRate p lam Lam * (objective D st.coef - objective D v) = 1 / 2 * (lam / Lam * (objective D st.coef - objective D v)) / K := by
      unfold gaussRate; rw [← hK]; ring
    rw [e, div_le_iff₀ hK0]
    linarith
  by_cases hz : M = 0
  · have : -((1 / 2 : ℝ) ^ k * M) = 0 := by rw [hz]; ring
    linarith
  · have hMpos : 0 < M := lt_of_le_of_ne hM0 (Ne.symm hz)
    have hacc : Acceptable D st.coef d 1 := by
      have h1 := hpart 1
      have harm : objective D (candidate st.coef d 1) - objective D st.coef ≤ (1 / 2) ^ 1 * (1 / 10000 * P) := by
        refine h1.trans ?_
        rw [hPM]
        nlinarith
      refine Or.inl ⟨fun r => ?_, harm⟩
      rw [hF.inv]
      refine hmu _ ?_ r
      have : (1 / 2 : ℝ) ^ 1 * (1 / 10000 * P) ≤ 0 := by rw [hPM]; nlinarith
      linarith
    have hiff := lsOK_iff D hD.P1 (innerState D st) hsy.eta hsy.obj hsy.score d
    have hk1 : k ≤ 1 := by
      by_contra hlt
      push Not at hlt
      exact hsp.prev 1 (Nat.zero_le _) hlt ((hiff 1).2 hacc)
    have : (1 / 2 : ℝ) ≤ (1 / 2) ^ k := by
      have := pow_le_pow_of_le_one (show (0 : ℝ) ≤ 1 / 2 by norm_num) (by norm_num) hk1
      simpa using this
    have := mul_le_mul_of_nonneg_right this hM0
    linarith

/-- **C86, squared error.** Every `irls-cd` fit of a squared-error objective with cyclic selection, any L1 penalty, bounds, offset, weights, start and iteration
limits, on a problem whose Hessian has curvature between `lam` and `Lam`: the recorded objectives never increase; after `k` iterations the objective exceeds the
minimum over the feasible set by at most `(1 - gaussRate)^k` times the initial excess, and the squared distance to the minimiser is at most `4/lam` times that. -/
theorem c86_squared_error (seeds : ℕ → BitVec 32) (D : IRLSData n p ic) (hD : Convexish D) (hF : SquaredError D.fam) (hcyc : D.random = false)
    (hmax : 1 ≤ D.maxInnerIter) (hsize : p + 1 < 2 ^ 32) (coef0 : Fin (p + ic.toNat) → ℝ) (h0 : InBounds ic D.lb D.ub coef0) (lam Lam : ℝ)
    (hs : StronglyConvex lam (gaussH D)) (hL : CurvatureAtMost Lam (gaussH D)) (heps : 16 * D.eps < lam) (hord : lam ≤ Lam)
    (hmu : ∀ w, objective D w ≤ objective D coef0 → ∀ r, linPred ic D.X (off D) w r < D.large)
    (v : Fin (p + ic.toNat) → ℝ) (hv : InBounds ic D.lb D.ub v) (hopt : ∀ u, InBounds ic D.lb D.ub u → objective D v ≤ objective D u)
    (st : IRLSState n p ic) (h : Visited (cdInner seeds) D coef0 st) :
    objective D st.coef - objective D v ≤ (1 - gaussRate p lam Lam) ^ st.nIter * (objective D coef0 - objective D v) ∧
    objective D st.coef ≤ objective D coef0 ∧
    ∑ k, (st.coef k - v k) ^ 2 ≤ 4 / lam * ((1 - gaussRate p lam Lam) ^ st.nIter * (objective D coef0 - objective D v)) ∧
    st.diagnostics.IsChain (fun newer older => newer.obj ≤ older.obj) := by
  have hl : 0 < lam := lt_of_le_of_lt (by have := hD.eps; linarith) heps
  obtain ⟨_, hr1⟩ := gaussRate_bounds p lam Lam hl hord
  have hsw : ∀ r, 0 ≤ D.sw r := fun r => by
    have := hD.rows r 0
    rwa [hF.hess] at this
  have key : objective D st.coef - objective D v ≤ (1 - gaussRate p lam Lam) ^ st.nIter * (objective D coef0 - objective D v) ∧
      objective D st.coef ≤ objective D coef0 ∧ st.diagnostics.IsChain (fun newer older => newer.obj ≤ older.obj) := by
    induction h with
    | init => exact ⟨by show objective D coef0 - _ ≤ _ ^ 0 * _; simp, le_rfl, List.isChain_singleton _⟩
    | step st hv' hn hc ih =>
      obtain ⟨i1, i2, i3⟩ := ih
      obtain ⟨c1, c2⟩ := gauss_contracts seeds D hD hF hcyc hmax hsize coef0 h0 lam Lam hs hL heps hord hmu st hv' i2 v hv
        (hopt _ (c19_irls_in_bounds seeds D hD.bounds coef0 h0 st hv'))
      refine ⟨?_, c2.trans i2, ?_⟩
      · refine c1.trans ?_
        show _ ≤ _ ^ (st.nIter + 1) * _
        rw [pow_succ', mul_assoc]
        exact mul_le_mul_of_nonneg_left i1 (by linarith)
      · obtain ⟨w', rest', e'⟩ := visited_head (cdInner seeds) D coef0 st hv'
        have hdiag : (irlsStep (cdInner seeds) D st).diagnostics
            = ⟨st.nIter + 1, (irlsStep (cdInner seeds) D st).norm, (irlsStep (cdInner seeds) D st).obj,
                (lineSearch D (innerState D st) (cdInner seeds D (innerState D st)).1).warned⟩ :: st.diagnostics := rfl
        have hobj : (irlsStep (cdInner seeds) D st).obj = objective D (irlsStep (cdInner seeds) D st).coef :=
          (visited_sync (cdInner seeds) D hD.P1 coef0 _ (Visited.step st hv' hn hc)).obj
        have hobj0 : st.obj = objective D st.coef := (visited_sync (cdInner seeds) D hD.P1 coef0 _ hv').obj
        rw [hdiag]
        rw [e'] at i3 ⊢
        refine List.isChain_cons_cons.2 ⟨?_, i3⟩
        simp only
        rw [hobj, hobj0]
        exact c2
  refine ⟨key.1, key.2.1, ?_, key.2.2⟩
  have h2 := minimiser_growth D hD (fun r _ => D.sw r) (gauss_curvature D hF) (fun r _ => hsw r) st.coef v D.sw (fun _ _ r => le_rfl) lam hs
    (c19_irls_in_bounds seeds D hD.bounds coef0 h0 st h) hv hopt
  have h3 := mul_le_mul_of_nonneg_left (h2.trans key.1) (show 0 ≤ 4 / lam by positivity)
  refine le_trans (le_of_eq ?_) h3
  field_simp

/-- **C86, accuracy.** For every accuracy there is an iteration count from which on such a fit either reports convergence or ends within this accuracy of the minimum. -/
theorem c86_accuracy (seeds : ℕ → BitVec 32) (D : IRLSData n p ic) (hD : Convexish D) (hF : SquaredError D.fam) (hcyc : D.random = false)
    (hmax : 1 ≤ D.maxInnerIter) (hsize : p + 1 < 2 ^ 32) (coef0 : Fin (p + ic.toNat) → ℝ) (h0 : InBounds ic D.lb D.ub coef0) (lam Lam : ℝ)
    (hs : StronglyConvex lam (gaussH D)) (hL : CurvatureAtMost Lam (gaussH D)) (heps : 16 * D.eps < lam) (hord : lam ≤ Lam)
    (hmu : ∀ w, objective D w ≤ objective D coef0 → ∀ r, linPred ic D.X (off D) w r < D.large)
    (v : Fin (p + ic.toNat) → ℝ) (hv : InBounds ic D.lb D.ub v) (hopt : ∀ u, InBounds ic D.lb D.ub u → objective D v ≤ objective D u)
    (acc : ℝ) (hacc : 0 < acc) :
    ∃ N, ∀ M ≥ N, (irlsRun (cdInner seeds) ({ D with maxIter := M } : IRLSData n p ic) coef0).converged = true ∨
      objective D (irlsRun (cdInner seeds) ({ D with maxIter := M } : IRLSData n p ic) coef0).coef ≤ objective D v + acc := by
  have hl : 0 < lam := lt_of_le_of_lt (by have := hD.eps; linarith) heps
  obtain ⟨hr0, hr1⟩ := gaussRate_bounds p lam Lam hl hord
  have hgap : 0 ≤ objective D coef0 - objective D v := sub_nonneg.2 (hopt _ h0)
  obtain ⟨N, hN⟩ := exists_pow_lt_of_lt_one (show 0 < acc / (objective D coef0 - objective D v + 1) by positivity) (show 1 - gaussRate p lam Lam < 1 by linarith)
  refine ⟨N, fun M hM => ?_⟩
  by_cases hcv : (irlsRun (cdInner seeds) ({ D with maxIter := M } : IRLSData n p ic) coef0).converged = true
  · exact Or.inl hcv
  · right
    have hD' : Convexish ({ D with maxIter := M } : IRLSData n p ic) := ⟨hD.P1, hD.symm, hD.psd, hD.rows, hD.eps, hD.bounds⟩
    have h1 := (c86_squared_error seeds ({ D with maxIter := M } : IRLSData n p ic) hD' hF hcyc hmax hsize coef0 h0 lam Lam hs hL heps hord hmu v hv hopt _
      (irlsRun_visited _ _ _)).1
    have hn : (irlsRun (cdInner seeds) ({ D with maxIter := M } : IRLSData n p ic) coef0).nIter = M := by
      exact (c32_accounting (cdInner seeds) ({ D with maxIter := M } : IRLSData n p ic) hD.P1 coef0).2.2.2.2 (by simpa using hcv)
    rw [hn] at h1
    have h1 : objective D (irlsRun (cdInner seeds) ({ D with maxIter := M } : IRLSData n p ic) coef0).coef - objective D v
        ≤ (1 - gaussRate p lam Lam) ^ M * (objective D coef0 - objective D v) := h1
    have h2 : (1 - gaussRate p lam Lam) ^ M ≤ (1 - gaussRate p lam Lam) ^ N := pow_le_pow_of_le_one (by linarith) (by linarith) hM
    have h3 := mul_le_mul_of_nonneg_right (h2.trans hN.le) hgap
    have h4 : acc / (objective D coef0 - objective D v + 1) * (objective D coef0 - objective D v) ≤ acc := by
      rw [div_mul_eq_mul_div, div_le_iff₀ (by positivity)]
      nlinarith
    linarith

/-! ### Example: the data of C31 with L1 penalty, bounds and cyclic selection; the bound on the coefficient is active at the minimum. -/

noncomputable def sqEx (M : ℕ) : IRLSData 2 1 true := { irlsEx with random := false, maxIter := M }

theorem sqEx_convexish (M : ℕ) : Convexish (sqEx M) :=
  ⟨irlsEx_convexish.P1, irlsEx_convexish.symm, irlsEx_convexish.psd, irlsEx_convexish.rows, irlsEx_convexish.eps, irlsEx_convexish.bounds⟩

theorem sqEx_family (M : ℕ) : SquaredError (sqEx M).fam := ⟨fun _ => rfl, fun _ _ => rfl, fun _ _ _ _ => rfl, fun _ _ _ _ => rfl⟩

theorem sqEx_strong (M : ℕ) : StronglyConvex (1 / 10) (gaussH (sqEx M)) := liveEx_strong fun _ => 0

theorem sqEx_upper (M : ℕ) : CurvatureAtMost 20 (gaussH (sqEx M)) := outEx_curvature

theorem sqEx_objective (M : ℕ) (w : Fin (1 + true.toNat) → ℝ) :
    objective (sqEx M) w = 1 / 2 * (1 / 4 * (2 - (w 0 + w 1)) ^ 2 + 3 / 4 * (5 - (w 0 + 3 * w 1)) ^ 2) + 1 / 2 * (1 / 5 * w 1 ^ 2) + 1 / 10 * |w 1| := by
  have e1 : l1 true (sqEx M).P1 w = 1 / 10 * |w 1| := by
    unfold l1
    change ∑ i : Fin 2, _ = _
    simp only [Fin.sum_univ_two]
    simp [l1Weight, sqEx, irlsEx]
  have e2 : smoothObj (sqEx M) w = smoothObj outEx w := rfl
  have e3 := outEx_objective w
  rw [objective_smooth outEx fun _ => rfl] at e3
  unfold objective
  rw [e1, e2, e3]

theorem sqEx_level (M : ℕ) (w : Fin (1 + true.toNat) → ℝ) (h : objective (sqEx M) w ≤ objective (sqEx M) fun _ => 0) (r : Fin 2) :
    linPred true (sqEx M).X (off (sqEx M)) w r < (sqEx M).large := by
  refine lt_of_le_of_lt (b := 20) ((le_abs_self _).trans (outEx_level w ?_ r)) (by simp only [sqEx, irlsEx]; norm_num)
  rw [sqEx_objective, sqEx_objective] at h
  rw [outEx_objective, outEx_objective]
  have : 0 ≤ 1 / 10 * |w 1| := by positivity
  simp only [abs_zero] at h
  linarith

/-- The minimiser, `(7/4, 1)`. -/
noncomputable def sqEx_min : Fin (1 + true.toNat) → ℝ := fun i => if i.val = 0 then 7 / 4 else 1

theorem sqEx_min_feasible (M : ℕ) : InBounds true (sqEx M).lb (sqEx M).ub sqEx_min := by
  intro i k hk
  have : i.val ≠ 0 := by simp at hk; omega
  refine ⟨fun l hl => ?_, fun u hu => ?_⟩
  · simp only [sqEx, irlsEx, Option.some.injEq] at hl
    subst hl
    simp only [sqEx_min, if_neg this]; norm_num
  · simp only [sqEx, irlsEx, Option.some.injEq] at hu
    subst hu
    simp only [sqEx_min, if_neg this]; norm_num

theorem sqEx_min_optimal (M : ℕ) (u : Fin (1 + true.toNat) → ℝ) (hu : InBounds true (sqEx M).lb (sqEx M).ub u) : objective (sqEx M) sqEx_min ≤ objective (sqEx M) u := by
  rw [sqEx_objective, sqEx_objective]
  have hb : u 1 ≤ 1 := (hu 1 0 rfl).2 (fun _ => 1) rfl
  have e0 : sqEx_min 0 = 7 / 4 := rfl
  have e1 : sqEx_min 1 = 1 := rfl
  rw [e0, e1, abs_one]
  have h1 := le_abs_self (u 1)
  nlinarith [sq_nonneg (u 0 + 5 / 2 * u 1 - 17 / 4), sq_nonneg (u 1 - 1), mul_nonneg (sub_nonneg.2 hb) (sub_nonneg.2 hb)]

theorem sqEx_feasible (M : ℕ) : InBounds true (sqEx M).lb (sqEx M).ub (fun _ => 0 : Fin (1 + true.toNat) → ℝ) := irlsEx_feasible

-- C86, squared error: no hypothesis is left
example (seeds : ℕ → BitVec 32) (M : ℕ) :
    objective (sqEx M) (irlsRun (cdInner seeds) (sqEx M) fun _ => 0).coef - objective (sqEx M) sqEx_min
      ≤ (1 - gaussRate 1 (1 / 10) 20) ^ (irlsRun (cdInner seeds) (sqEx M) fun _ => 0).nIter * (objective (sqEx M) (fun _ => 0) - objective (sqEx M) sqEx_min) :=
  (c86_squared_error seeds (sqEx M) (sqEx_convexish M) (sqEx_family M) rfl (by simp [sqEx, irlsEx]) (by norm_num) _ (sqEx_feasible M) (1 / 10) 20 (sqEx_strong M)
    (sqEx_upper M) (by simp only [sqEx, irlsEx]; norm_num) (by norm_num) (sqEx_level M) sqEx_min (sqEx_min_feasible M) (sqEx_min_optimal M) _ (irlsRun_visited _ _ _)).1

theorem sqEx_conditioned (M : ℕ) : WellConditioned (sqEx M) (fun _ => 0) (fun r _ => (sqEx M).sw r) (sqEx M).sw (sqEx M).sw 1 (1 / 10) 20 where
  curvature := gauss_curvature _ (sqEx_family M)
  convex := fun r _ => by simp only [sqEx, irlsEx]; split <;> norm_num
  tame := ⟨fun _ _ _ => le_rfl, fun _ _ _ => le_rfl, fun _ _ _ => le_rfl, fun w h r => sqEx_level M w h r⟩
  below := fun _ _ _ => le_rfl
  ratio := ⟨1, le_rfl, by norm_num, fun r => by rw [one_mul]⟩
  trials := by norm_num
  strong := sqEx_strong M
  upper := sqEx_upper M
  eps := by simp only [sqEx, irlsEx]; norm_num
  order := by norm_num

/-- With one iteration the objective moves. -/
theorem sqEx_moved (seeds : ℕ → BitVec 32) : (irlsRun (cdInner seeds) (sqEx 1) fun _ => 0).diagnostics.IsChain (Moved (sqEx 1).eps) := by
  by_cases h0 : (irlsInit (sqEx 1) fun _ => 0).converged = true
  · rw [run_of_init _ _ _ h0]
    exact List.isChain_singleton _
  · have h0' : (irlsInit (sqEx 1) fun _ => 0).converged = false := by simpa using h0
    have hs1 : (irlsRun (cdInner seeds) (sqEx 1) fun _ => 0) = irlsStep (cdInner seeds) (sqEx 1) (irlsInit (sqEx 1) fun _ => 0) :=
      run_of_step _ _ _ le_rfl h0' (Or.inl rfl)
    rw [hs1]
    have hc := (gauss_contracts seeds (sqEx 1) (sqEx_convexish 1) (sqEx_family 1) rfl (by simp [sqEx, irlsEx]) (by norm_num) _ (sqEx_feasible 1) (1 / 10) 20 (sqEx_strong 1)
      (sqEx_upper 1) (by simp only [sqEx, irlsEx]; norm_num) (by norm_num) (sqEx_level 1) (irlsInit (sqEx 1) fun _ => 0) Visited.init le_rfl sqEx_min (sqEx_min_feasible 1)
      (sqEx_min_optimal 1 _ (sqEx_feasible 1))).1
    have hv1 : Visited (cdInner seeds) (sqEx 1) (fun _ => 0) (irlsStep (cdInner seeds) (sqEx 1) (irlsInit (sqEx 1) fun _ => 0)) :=
      Visited.step _ Visited.init (by show 0 < 1; norm_num) h0'
    have hobj : (irlsStep (cdInner seeds) (sqEx 1) (irlsInit (sqEx 1) fun _ => 0)).obj = objective (sqEx 1) _ := (visited_sync _ _ (sqEx_convexish 1).P1 _ _ hv1).obj
    have hobj0 : (irlsInit (sqEx 1) fun _ => 0).obj = objective (sqEx 1) fun _ => 0 := (visited_sync (cdInner seeds) _ (sqEx_convexish 1).P1 _ _ Visited.init).obj
    have hdiag : (irlsStep (cdInner seeds) (sqEx 1) (irlsInit (sqEx 1) fun _ => 0)).diagnostics
        = [⟨1, (irlsStep (cdInner seeds) (sqEx 1) (irlsInit (sqEx 1) fun _ => 0)).norm, (irlsStep (cdInner seeds) (sqEx 1) (irlsInit (sqEx 1) fun _ => 0)).obj,
            (lineSearch (sqEx 1) (innerState (sqEx 1) (irlsInit (sqEx 1) fun _ => 0)) (cdInner seeds (sqEx 1) (innerState (sqEx 1) (irlsInit (sqEx 1) fun _ => 0))).1).warned⟩,
          ⟨0, (irlsInit (sqEx 1) fun _ => 0).norm, (irlsInit (sqEx 1) fun _ => 0).obj, false⟩] := rfl
    rw [hdiag]
    refine List.isChain_cons_cons.2 ⟨?_, List.isChain_singleton _⟩
    unfold Moved
    simp only
    rw [hobj, hobj0]
    have ec : (irlsInit (sqEx 1) fun _ => 0).coef = fun _ => 0 := rfl
    rw [ec] at hc
    set o := objective (sqEx 1) (irlsStep (cdInner seeds) (sqEx 1) (irlsInit (sqEx 1) fun _ => 0)).coef with ho
    have eo : objective (sqEx 1) (fun _ => 0) = 79 / 8 := by rw [sqEx_objective]; norm_num
    have em : objective (sqEx 1) sqEx_min = 47 / 160 := by
      rw [sqEx_objective]
      have e0 : sqEx_min 0 = 7 / 4 := rfl
      have e1 : sqEx_min 1 = 1 := rfl
      rw [e0, e1]; norm_num
    rw [eo, em] at hc
    rw [eo]
    have hg : 1 / 10 ^ 8 ≤ gaussRate 1 (1 / 10) 20 := by unfold gaussRate; norm_num
    have hn : o - 79 / 8 ≤ -(1 / 10 ^ 8) := by nlinarith
    have hneg : o - 79 / 8 ≤ 0 := by linarith [show (0 : ℝ) ≤ 1 / 10 ^ 8 by norm_num]
    rw [abs_of_nonpos hneg]
    simp only [sqEx, irlsEx]
    have : (16 : ℝ) * (1 / 10 ^ 15) * |79 / 8| < 1 / 10 ^ 8 := by rw [abs_of_nonneg (by norm_num)]; norm_num
    linarith

-- C86 and C85 apply to this fit
example (seeds : ℕ → BitVec 32) :
    objective (sqEx 1) (irlsRun (cdInner seeds) (sqEx 1) fun _ => 0).coef - objective (sqEx 1) sqEx_min
      ≤ (1 - rate 1 1 (1 / 10) 20) ^ (irlsRun (cdInner seeds) (sqEx 1) fun _ => 0).nIter * (objective (sqEx 1) (fun _ => 0) - objective (sqEx 1) sqEx_min) :=
  (c86_linear seeds (sqEx 1) (sqEx_convexish 1) rfl (by simp [sqEx, irlsEx]) (by norm_num) _ (sqEx_feasible 1) _ _ _ 1 (1 / 10) 20 (sqEx_conditioned 1) sqEx_min
    (sqEx_min_feasible 1) (sqEx_min_optimal 1) (sqEx_moved seeds)).2

example (seeds : ℕ → BitVec 32) : ∀ rec ∈ (irlsRun (cdInner seeds) (sqEx 1) fun _ => 0).diagnostics, rec.warned = false :=
  (c85_cd_ends seeds (sqEx 1) (sqEx_convexish 1) _ (sqEx_feasible 1) _ (sqEx_conditioned 1).curvature _ _ (sqEx_conditioned 1).tame 1 le_rfl (fun r => by rw [one_mul]) 1
    (by norm_num) (by norm_num) (1 / 10) (by norm_num) (sqEx_strong 1) (sqEx_moved seeds)).1

end Glum
