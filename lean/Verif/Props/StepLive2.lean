import Verif.Props.StepLive
/-
C85, fifth part: the line search of `irls-cd` never warns; full steps.
-/
set_option linter.unusedSectionVars false
set_option linter.unusedVariables false
set_option linter.unusedSimpArgs false

namespace Glum
open Spec

variable {n p : ℕ} {ic : Bool}

/-- The L1 penalty along a line lies below its chord. -/
theorem l1_chord (P1 : ℕ → ℝ) (hP : ∀ k, 0 ≤ P1 k) (w d : Fin (p + ic.toNat) → ℝ) (t : ℝ) (h0 : 0 ≤ t) (h1 : t ≤ 1) :
    l1 ic P1 (fun k => w k + t * d k) ≤ l1 ic P1 w + t * (l1 ic P1 (fun k => w k + d k) - l1 ic P1 w) := by
  unfold l1
  rw [← Finset.sum_sub_distrib, Finset.mul_sum, ← Finset.sum_add_distrib]
  refine Finset.sum_le_sum fun i _ => ?_
  have hw := l1Weight_nonneg ic P1 hP i
  have : |w i + t * d i| ≤ (1 - t) * |w i| + t * |w i + d i| := by
    have e : w i + t * d i = (1 - t) * w i + t * (w i + d i) := by ring
    rw [e]
    refine (abs_add_le _ _).trans ?_
    rw [abs_mul, abs_mul, abs_of_nonneg h0, abs_of_nonneg (show 0 ≤ 1 - t by linarith)]
  have := mul_le_mul_of_nonneg_left this hw
  linarith

/-- First and second derivative of the smooth part of the objective along a line. -/
theorem smooth_line (D : IRLSData n p ic) (hsym : ∀ i j, p2Full (p := p) ic D.P2 i j = p2Full ic D.P2 j i) (c : Fin n → ℝ → ℝ) (hc : RowCurvature D c)
    (w d : Fin (p + ic.toNat) → ℝ) : ∃ φ' : ℝ → ℝ,
    (∀ t, HasDerivAt (fun t => smoothObj D (fun k => w k + t * d k)) (φ' t) t) ∧
    (∀ t, HasDerivAt φ' (∑ r, c r (linPred ic D.X (off D) (fun k => w k + t * d k) r) * (∑ k, design ic D.X r k * d k) ^ 2
      + ∑ i, ∑ j, p2Full ic D.P2 i j * d i * d j) t) ∧
    φ' 0 = -∑ k, scoreAt D w k * d k := by
  set x : Fin n → ℝ := fun r => ∑ k, design ic D.X r k * d k with hx
  set η : Fin n → ℝ := fun r => linPred ic D.X (off D) w r with hη
  set b : ℝ := ∑ k, (∑ i, p2Full ic D.P2 i k * w i) * d k with hbd
  set q : ℝ := ∑ i, ∑ j, p2Full ic D.P2 i j * d i * d j with hq
  have hφ : ∀ t, smoothObj D (fun k => w k + t * d k)
      = ∑ r, 1 / 2 * (D.sw r * D.fam.dev (D.y r) (η r + t * x r)) + (ridge D w + t * b + 1 / 2 * t ^ 2 * q) := by
    intro t
    unfold smoothObj
    rw [ridge_line D hsym, Finset.mul_sum]
    congr 1
    exact Finset.sum_congr rfl fun r _ => by rw [linPred_line]
  have hlin : ∀ r t, HasDerivAt (fun t : ℝ => η r + t * x r) (x r) t := fun r t => by
    simpa using ((hasDerivAt_id t).mul_const (x r)).const_add (η r)
  have d1 : ∀ t, HasDerivAt (fun t => smoothObj D (fun k => w k + t * d k))
      (∑ r, -(D.fam.grad (D.y r) (D.sw r) (η r + t * x r) (D.fam.inv (η r + t * x r))) * x r + (b + t * q)) t := by
    intro t
    have hr : ∀ r, HasDerivAt (fun t => 1 / 2 * (D.sw r * D.fam.dev (D.y r) (η r + t * x r)))
        (-(D.fam.grad (D.y r) (D.sw r) (η r + t * x r) (D.fam.inv (η r + t * x r))) * x r) t := fun r =>
      HasDerivAt.comp (h₂ := fun e => 1 / 2 * (D.sw r * D.fam.dev (D.y r) e)) t (hc r _).1 (hlin r t)
    have hq2 : HasDerivAt (fun t : ℝ => ridge D w + t * b + 1 / 2 * t ^ 2 * q) (b + t * q) t := by
      have := (((hasDerivAt_id t).mul_const b).const_add (ridge D w)).fun_add (((hasDerivAt_pow 2 t).const_mul (1 / 2)).mul_const q)
      refine this.congr_deriv ?_
      simp
    rw [show (fun t => smoothObj D (fun k => w k + t * d k)) = fun t => _ from funext hφ]
    exact (HasDerivAt.fun_sum fun r _ => hr r).fun_add hq2
  have d2 : ∀ t, HasDerivAt (fun t => ∑ r, -(D.fam.grad (D.y r) (D.sw r) (η r + t * x r) (D.fam.inv (η r + t * x r))) * x r + (b + t * q))
      (∑ r, c r (η r + t * x r) * x r ^ 2 + q) t := by
    intro t
    have hr : ∀ r, HasDerivAt (fun t => -(D.fam.grad (D.y r) (D.sw r) (η r + t * x r) (D.fam.inv (η r + t * x r))) * x r)
        (c r (η r + t * x r) * x r ^ 2) t := fun r => by
      have := (HasDerivAt.comp (h₂ := fun e => D.fam.grad (D.y r) (D.sw r) e (D.fam.inv e)) t (hc r _).2 (hlin r t)).neg.mul_const (x r)
      refine this.congr_deriv ?_
      ring
    have hq2 : HasDerivAt (fun t : ℝ => b + t * q) q t := by
      simpa using ((hasDerivAt_id t).mul_const q).const_add b
    exact (HasDerivAt.fun_sum fun r _ => hr r).fun_add hq2
  refine ⟨_, d1, fun t => ?_, ?_⟩
  · simp only [linPred_line]
    exact d2 t
  · beta_reduce
    rw [score_dot]
    simp only [zero_mul, add_zero, neg_mul, Finset.sum_neg_distrib]
    ring

/-- The quadratic bound for the whole objective along the first part of a step. -/
theorem composite_line (D : IRLSData n p ic) (hP : ∀ k, 0 ≤ D.P1 k) (hsym : ∀ i j, p2Full (p := p) ic D.P2 i j = p2Full ic D.P2 j i)
    (c : Fin n → ℝ → ℝ) (hc : RowCurvature D c) (w d : Fin (p + ic.toNat) → ℝ) (B : Fin n → ℝ)
    (hB : ∀ v, objective D v ≤ objective D w → ∀ r, c r (linPred ic D.X (off D) v r) ≤ B r)
    (E T : ℝ) (hE : predictedChange D w d = -E) (hE0 : 0 < E) (hT : 0 ≤ T) (hT1 : T ≤ 1)
    (hb : (∑ i, ∑ j, fullHessian ic D.X B D.P2 i j * d i * d j) * T / 2 < E) :
    objective D (fun k => w k + T * d k) ≤ objective D w - T * E + 1 / 2 * (∑ i, ∑ j, fullHessian ic D.X B D.P2 i j * d i * d j) * T ^ 2 := by
  obtain ⟨φ', d1, d2, d0⟩ := smooth_line D hsym c hc w d
  set l : ℝ := l1 ic D.P1 (fun k => w k + d k) - l1 ic D.P1 w with hl
  have hw0 : (fun k => w k + 0 * d k) = w := by funext k; ring
  have hchord : ∀ t ∈ Set.Icc (0 : ℝ) T, objective D (fun k => w k + t * d k) ≤ smoothObj D (fun k => w k + t * d k) + (l1 ic D.P1 w + t * l) := by
    intro t ht
    have := l1_chord (ic := ic) D.P1 hP w d t ht.1 (ht.2.trans hT1)
    unfold objective
    linarith
  have e1 : ∀ t, HasDerivAt (fun t => smoothObj D (fun k => w k + t * d k) + (l1 ic D.P1 w + t * l)) (φ' t + l) t := by
    intro t
    have : HasDerivAt (fun t : ℝ => l1 ic D.P1 w + t * l) l t := by
      simpa using ((hasDerivAt_id t).mul_const l).const_add (l1 ic D.P1 w)
    exact (d1 t).fun_add this
  have e2 : ∀ t, HasDerivAt (fun t => φ' t + l) _ t := fun t => (d2 t).add_const l
  have := level_descent _ _ _ e1 e2 E (∑ i, ∑ j, fullHessian ic D.X B D.P2 i j * d i * d j) T ?_ hE0 hT hb ?_ T ⟨hT, le_rfl⟩
  · beta_reduce at this
    rw [hw0] at this
    have h2 := hchord T ⟨hT, le_rfl⟩
    unfold objective at h2 ⊢
    linarith
  · beta_reduce
    rw [d0, ← hE]
    unfold predictedChange
    rw [hl]; ring
  · intro t ht hle
    beta_reduce at hle ⊢
    rw [hw0] at hle
    rw [fullHessian_form]
    have hh := hB (fun k => w k + t * d k) (by
      refine (hchord t ht).trans ?_
      unfold objective
      linarith)
    have : ∑ r, c r (linPred ic D.X (off D) (fun k => w k + t * d k) r) * (∑ k, design ic D.X r k * d k) ^ 2 ≤ ∑ r, B r * (∑ k, design ic D.X r k * d k) ^ 2 :=
      Finset.sum_le_sum fun r _ => mul_le_mul_of_nonneg_right (hh r) (sq_nonneg _)
    linarith

/-- The line search after coordinate descent accepts a step of at least `2^-J`. -/
theorem cd_accepts (seeds : ℕ → BitVec 32) (D : IRLSData n p ic) (hD : Convexish D) (coef0 : Fin (p + ic.toNat) → ℝ) (h0 : InBounds ic D.lb D.ub coef0)
    (c : Fin n → ℝ → ℝ) (hc : RowCurvature D c) (b B : Fin n → ℝ) (ht : TameOn D coef0 c b B)
    (rho : ℝ) (h1 : 1 ≤ rho) (hr : ∀ r, B r ≤ rho * b r) (J : ℕ) (hJ20 : J < 20) (hJ : rho ≤ 9999 / 10000 * 2 ^ J)
    (st : IRLSState n p ic) (h : Visited (cdInner seeds) D coef0 st) (hpr : st.diagnostics.IsChain (Progress D.eps))
    (hne : predictedChange D st.coef (cdInner seeds D (innerState D st)).1 ≠ 0) :
    (lineSearch D (innerState D st) (cdInner seeds D (innerState D st)).1).k ≤ J ∧
      (lineSearch D (innerState D st) (cdInner seeds D (innerState D st)).1).warned = false := by
  have hd : ∀ st, Visited (cdInner seeds) D coef0 st → predictedChange D st.coef (cdInner seeds D (innerState D st)).1 ≤ 0 := fun st hv =>
    (cd_direction seeds D hD st (visited_hessOK _ D hD coef0 st hv) (visited_sync _ D hD.P1 coef0 st hv).score (c19_irls_in_bounds seeds D hD.bounds coef0 h0 st hv)).1
  have hlev := progress_level (cdInner seeds) D hD.P1 hD.eps coef0 hd st h hpr
  have hbelow := progress_rows_below (cdInner seeds) D hD coef0 hd b ht.below st h hpr
  have hs := visited_sync _ D hD.P1 coef0 st h
  have hpred := cd_predicted seeds D hD coef0 st h
  have hok := visited_hessOK _ D hD coef0 st h
  obtain ⟨hwf, hpsd⟩ := cdArgs_ok D hD st hok (innerState D st) rfl
  have hm : modelObj (cdArgs D (innerState D st)).active (cdArgs D (innerState D st)).Q ic D.P1 (fun k => -st.score k) st.coef
        ((cdArgs D (innerState D st)).run st.coef (fun k => -st.score k) (seeds st.nIter)).w
      ≤ modelObj (cdArgs D (innerState D st)).active (cdArgs D (innerState D st)).Q ic D.P1 (fun k => -st.score k) st.coef st.coef :=
    c22_run_not_worse (cdArgs D (innerState D st)) hwf st.coef (fun k => -st.score k) (seeds st.nIter)
      (c19_irls_in_bounds seeds D hD.bounds coef0 h0 st h)
  have hneg : predictedChange D st.coef (cdInner seeds D (innerState D st)).1 < 0 := lt_of_le_of_ne (hd st h) hne
  set d := (cdInner seeds D (innerState D st)).1 with hdd
  set E := -predictedChange D st.coef d with hE
  have hE0 : 0 < E := by linarith
  have hbeta : ∑ i, ∑ j, fullHessian ic D.X B D.P2 i j * d i * d j ≤ rho * (2 * E) := by
    have a1 : ∑ i, ∑ j, fullHessian ic D.X B D.P2 i j * d i * d j ≤ rho * ∑ i, ∑ j, fullHessian ic D.X (innerState D st).hs.rows D.P2 i j * d i * d j := by
      rw [fullHessian_form, fullHessian_form, mul_add, Finset.mul_sum]
      refine add_le_add (Finset.sum_le_sum fun r _ => ?_) ?_
      · rw [← mul_assoc]
        refine mul_le_mul_of_nonneg_right ((hr r).trans ?_) (sq_nonneg _)
        exact mul_le_mul_of_nonneg_left (hbelow r) (by linarith)
      · have := hD.psd d
        nlinarith
    refine a1.trans (mul_le_mul_of_nonneg_left ?_ (by linarith))
    linarith
  have hTpos : (0 : ℝ) < (1 / 2) ^ J := by positivity
  have hT1 : ((1 : ℝ) / 2) ^ J ≤ 1 := pow_le_one₀ (by norm_num) (by norm_num)
  have hcond : rho * (1 / 2) ^ J ≤ 9999 / 10000 := by
    have := mul_le_mul_of_nonneg_right hJ hTpos.le
    have e : (2 : ℝ) ^ J * (1 / 2) ^ J = 1 := by rw [← mul_pow]; norm_num
    rw [mul_assoc, e, mul_one] at this
    exact this
  have hbT : (∑ i, ∑ j, fullHessian ic D.X B D.P2 i j * d i * d j) * (1 / 2) ^ J ≤ 9999 / 10000 * (2 * E) := by
    have a1 := mul_le_mul_of_nonneg_right hbeta hTpos.le
    have a2 := mul_le_mul_of_nonneg_right hcond (show 0 ≤ 2 * E by linarith)
    linarith
  have hline := composite_line D hD.P1 hD.symm c hc st.coef d B (fun v hv r => ht.curv v (hv.trans hlev) r)
    E ((1 / 2) ^ J) (by rw [hE, neg_neg]) hE0 hTpos.le hT1 (by linarith)
  have harm : objective D (candidate st.coef d J) - objective D st.coef ≤ (1 / 2) ^ J * (1 / 10000 * predictedChange D st.coef d) := by
    show objective D (fun k => st.coef k + (1 / 2) ^ J * d k) - _ ≤ _
    have := mul_le_mul_of_nonneg_right hbT hTpos.le
    have e : (∑ i, ∑ j, fullHessian ic D.X B D.P2 i j * d i * d j) * (1 / 2) ^ J * (1 / 2) ^ J
        = (∑ i, ∑ j, fullHessian ic D.X B D.P2 i j * d i * d j) * ((1 / 2) ^ J) ^ 2 := by ring
    rw [e] at this
    have e2 : predictedChange D st.coef d = -E := by rw [hE, neg_neg]
    rw [e2]
    linarith
  have hacc : Acceptable D st.coef d J := by
    refine Or.inl ⟨?_, harm⟩
    refine ht.large _ ?_
    have : (1 / 2 : ℝ) ^ J * (1 / 10000 * predictedChange D st.coef d) ≤ 0 :=
      mul_nonpos_of_nonneg_of_nonpos hTpos.le (by linarith)
    linarith
  have hsp := lineSearch_spec D (innerState D st) d
  have hiff := lsOK_iff D hD.P1 (innerState D st) hs.eta hs.obj hs.score d
  have hk : (lineSearch D (innerState D st) d).k ≤ J := by
    by_contra hlt
    push Not at hlt
    exact hsp.prev J (Nat.zero_le _) hlt ((hiff J).2 hacc)
  refine ⟨hk, ?_⟩
  by_contra hw
  have hw : (lineSearch D (innerState D st) d).warned = true := by simpa using hw
  have h19 := hsp.warnedIff hw
  have : J = 19 := by omega
  have : (lineSearch D (innerState D st) d).warned = false := hsp.accept.2 (by rw [h19, ← this]; exact (hiff J).2 hacc)
  rw [this] at hw
  exact absurd hw (by simp)

/-- The direction of a step that changes the objective has a negative predicted change. -/
theorem cd_moved_ne (seeds : ℕ → BitVec 32) (D : IRLSData n p ic) (hD : Convexish D) (coef0 : Fin (p + ic.toNat) → ℝ) (h0 : InBounds ic D.lb D.ub coef0)
    (b : Fin n → ℝ) (hb : ∀ w, objective D w ≤ objective D coef0 → ∀ r, b r ≤ D.fam.hess (D.y r) (D.sw r) (linPred ic D.X (off D) w r)
      (D.fam.inv (linPred ic D.X (off D) w r)))
    (lam : ℝ) (hl : 0 < lam) (hs : StronglyConvex lam (fullHessian (p := p) ic D.X b D.P2))
    (st : IRLSState n p ic) (h : Visited (cdInner seeds) D coef0 st) (hp : st.diagnostics.IsChain (Progress D.eps))
    (hm : (irlsStep (cdInner seeds) D st).diagnostics.IsChain (Moved D.eps)) :
    predictedChange D st.coef (cdInner seeds D (innerState D st)).1 ≠ 0 := by
  intro hz
  have hen := cd_energy seeds D hD coef0 h0 b hb lam hs st h hp
  have hok := visited_hessOK _ D hD coef0 st h
  obtain ⟨hwf, hpsd⟩ := cdArgs_ok D hD st hok (innerState D st) rfl
  have hmo : modelObj (cdArgs D (innerState D st)).active (cdArgs D (innerState D st)).Q ic D.P1 (fun k => -st.score k) st.coef
        ((cdArgs D (innerState D st)).run st.coef (fun k => -st.score k) (seeds st.nIter)).w
      ≤ modelObj (cdArgs D (innerState D st)).active (cdArgs D (innerState D st)).Q ic D.P1 (fun k => -st.score k) st.coef st.coef :=
    c22_run_not_worse (cdArgs D (innerState D st)) hwf st.coef (fun k => -st.score k) (seeds st.nIter)
      (c19_irls_in_bounds seeds D hD.bounds coef0 h0 st h)
  set d := (cdInner seeds D (innerState D st)).1 with hdd
  have hsum : ∑ k, d k ^ 2 ≤ 0 := by
    have h1 : 0 ≤ ∑ k, d k ^ 2 := Finset.sum_nonneg fun k _ => sq_nonneg _
    rw [hz] at hen
    nlinarith
  have hd0 : ∀ k, d k = 0 := fun k => by
    have := (Finset.sum_eq_zero_iff_of_nonneg (fun k _ => sq_nonneg (d k))).1 (le_antisymm hsum (Finset.sum_nonneg fun k _ => sq_nonneg _)) k (Finset.mem_univ k)
    exact pow_eq_zero_iff (two_ne_zero) |>.1 this
  have hsp := lineSearch_spec D (innerState D st) d
  have hs' := visited_sync (cdInner seeds) D hD.P1 coef0 st h
  have hc : (irlsStep (cdInner seeds) D st).coef = candidate st.coef d (lineSearch D (innerState D st) d).k := hsp.coef
  have hobj : (irlsStep (cdInner seeds) D st).obj = objective D (irlsStep (cdInner seeds) D st).coef := (irlsStep_sync (cdInner seeds) D hD.P1 st hs').obj
  have hcc : candidate st.coef d (lineSearch D (innerState D st) d).k = st.coef := by
    funext k
    simp [candidate, hd0 k]
  obtain ⟨w', rest', e'⟩ := visited_head (cdInner seeds) D coef0 st h
  have hdiag : (irlsStep (cdInner seeds) D st).diagnostics
      = ⟨st.nIter + 1, (irlsStep (cdInner seeds) D st).norm, (irlsStep (cdInner seeds) D st).obj,
          (lineSearch D (innerState D st) (cdInner seeds D (innerState D st)).1).warned⟩ :: st.diagnostics := rfl
  rw [hdiag, e'] at hm
  have hm' := (List.isChain_cons_cons.1 hm).1
  unfold Moved at hm'
  simp only at hm'
  rw [hobj, hc, hcc, hs'.obj, sub_self, abs_zero] at hm'
  have := mul_nonneg (mul_nonneg (show (0 : ℝ) ≤ 16 by norm_num) hD.eps) (abs_nonneg (objective D st.coef))
  linarith

/-- As long as every iteration changes the objective, there is no line-search warning. -/
theorem cd_moved_progress (seeds : ℕ → BitVec 32) (D : IRLSData n p ic) (hD : Convexish D) (coef0 : Fin (p + ic.toNat) → ℝ) (h0 : InBounds ic D.lb D.ub coef0)
    (c : Fin n → ℝ → ℝ) (hc : RowCurvature D c) (b B : Fin n → ℝ) (ht : TameOn D coef0 c b B)
    (rho : ℝ) (h1 : 1 ≤ rho) (hr : ∀ r, B r ≤ rho * b r) (J : ℕ) (hJ20 : J < 20) (hJ : rho ≤ 9999 / 10000 * 2 ^ J)
    (lam : ℝ) (hl : 0 < lam) (hs : StronglyConvex lam (fullHessian (p := p) ic D.X b D.P2))
    (st : IRLSState n p ic) (h : Visited (cdInner seeds) D coef0 st) (hm : st.diagnostics.IsChain (Moved D.eps)) :
    st.diagnostics.IsChain (Progress D.eps) ∧ ∀ rec ∈ st.diagnostics, rec.warned = false := by
  induction h with
  | init =>
    constructor
    · show List.IsChain _ [_]
      exact List.isChain_singleton _
    · intro rec hrec
      have hrec : rec ∈ [(⟨0, (irlsInit D coef0).norm, (irlsInit D coef0).obj, false⟩ : Diag)] := hrec
      rw [List.mem_singleton] at hrec
      rw [hrec]
  | step st hv hn hc' ih =>
    obtain ⟨w', rest', e'⟩ := visited_head (cdInner seeds) D coef0 st hv
    have hdiag : (irlsStep (cdInner seeds) D st).diagnostics
        = ⟨st.nIter + 1, (irlsStep (cdInner seeds) D st).norm, (irlsStep (cdInner seeds) D st).obj,
            (lineSearch D (innerState D st) (cdInner seeds D (innerState D st)).1).warned⟩ :: st.diagnostics := rfl
    have hm0 := hm
    rw [hdiag] at hm
    obtain ⟨i1, i2⟩ := ih (List.IsChain.of_cons hm)
    have hw := (cd_accepts seeds D hD coef0 h0 c hc b B ht rho h1 hr J hJ20 hJ st hv i1
      (cd_moved_ne seeds D hD coef0 h0 b ht.below lam hl hs st hv i1 hm0)).2
    rw [hdiag]
    constructor
    · rw [e'] at hm i1 ⊢
      have hm' := (List.isChain_cons_cons.1 hm).1
      exact List.isChain_cons_cons.2 ⟨⟨hw, hm'⟩, i1⟩
    · intro rec hrec
      rcases List.mem_cons.1 hrec with rfl | hrec
      · exact hw
      · exact i2 rec hrec

/-- **C85, coordinate descent.** An `irls-cd` fit with any L1 penalty, bounds and coordinate selection, in which every iteration changes the objective by more than
round-off, never warns in its line search; with a `step_size_tol` it converges if `max_iter` exceeds an explicit bound. On the level set of the starting
coefficients, `B r` bounds the curvature of row `r` and `b r` the Hessian row from below, `B ≤ rho b` with `rho ≤ 0.9999 · 2^J`, `J < 20`, and the Hessian built
from `b` has curvature at least `lam`. -/
theorem c85_cd_ends (seeds : ℕ → BitVec 32) (D : IRLSData n p ic) (hD : Convexish D) (coef0 : Fin (p + ic.toNat) → ℝ) (h0 : InBounds ic D.lb D.ub coef0)
    (c : Fin n → ℝ → ℝ) (hc : RowCurvature D c) (b B : Fin n → ℝ) (ht : TameOn D coef0 c b B)
    (rho : ℝ) (h1 : 1 ≤ rho) (hr : ∀ r, B r ≤ rho * b r) (J : ℕ) (hJ20 : J < 20) (hJ : rho ≤ 9999 / 10000 * 2 ^ J)
    (lam : ℝ) (hl : 0 < lam) (hs : StronglyConvex lam (fullHessian (p := p) ic D.X b D.P2))
    (hm : (irlsRun (cdInner seeds) D coef0).diagnostics.IsChain (Moved D.eps)) :
    (∀ rec ∈ (irlsRun (cdInner seeds) D coef0).diagnostics, rec.warned = false) ∧
    ∀ tau low : ℝ, 0 ≤ tau → D.stepTol = some tau → (∀ w, low ≤ objective D w) →
      objective D coef0 - low < D.maxIter * (1 / 10000 * (lam / 2 * tau ^ 2)) →
      (irlsRun (cdInner seeds) D coef0).converged = true := by
  obtain ⟨k1, k2⟩ := cd_moved_progress seeds D hD coef0 h0 c hc b B ht rho h1 hr J hJ20 hJ lam hl hs _ (irlsRun_visited (cdInner seeds) D coef0) hm
  exact ⟨k2, fun tau low ht0 htol hlow hmax => c85_step_tol seeds D hD coef0 h0 tau ht0 htol b ht.below lam hl.le hs low hlow hmax k1⟩

end Glum
