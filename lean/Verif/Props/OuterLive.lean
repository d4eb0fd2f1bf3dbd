import Mathlib.Algebra.Order.Chebyshev
import Verif.Props.InnerLive
/-
C85: the outer loop makes progress and ends.
-/
set_option linter.unusedSectionVars false
set_option linter.unusedVariables false
set_option linter.unusedSimpArgs false

namespace Glum
open Spec

variable {n p : ℕ} {ic : Bool}

/-- Two consecutive records of the diagnostics show progress: no line-search warning, and the objective changed by more than round-off. -/
def Spec.Progress (eps : ℝ) (newer older : Diag) : Prop :=
  newer.warned = false ∧ 16 * eps * |older.obj| < |newer.obj - older.obj|

/-- A step that shows progress decreases the objective by a fixed fraction of what was predicted. -/
theorem progress_step (inner : Inner n p ic) (D : IRLSData n p ic) (hP : ∀ k, 0 ≤ D.P1 k) (he : 0 ≤ D.eps)
    (coef0 : Fin (p + ic.toNat) → ℝ) (st : IRLSState n p ic) (h : Visited inner D coef0 st)
    (hd : predictedChange D st.coef (inner D (innerState D st)).1 ≤ 0)
    (J : ℕ) (hJ : (lineSearch D (innerState D st) (inner D (innerState D st)).1).k ≤ J)
    (hp : (irlsStep inner D st).diagnostics.IsChain (Progress D.eps)) :
    objective D (irlsStep inner D st).coef ≤ objective D st.coef
      + (1 / 2) ^ J * (1 / 10000 * predictedChange D st.coef (inner D (innerState D st)).1) := by
  have hs := visited_sync inner D hP coef0 st h
  have hsp := lineSearch_spec D (innerState D st) (inner D (innerState D st)).1
  obtain ⟨w', rest', e'⟩ := visited_head inner D coef0 st h
  have hdiag : (irlsStep inner D st).diagnostics
      = ⟨st.nIter + 1, (irlsStep inner D st).norm, (irlsStep inner D st).obj, (lineSearch D (innerState D st) (inner D (innerState D st)).1).warned⟩ :: st.diagnostics := rfl
  rw [hdiag, e'] at hp
  obtain ⟨hw, hmove⟩ := (List.isChain_cons_cons.1 hp).1
  simp only at hw hmove
  have hacc := hsp.accept.mp hw
  rw [lsOK_iff D hP (innerState D st) hs.eta hs.obj hs.score] at hacc
  have hc : (irlsStep inner D st).coef = candidate st.coef (inner D (innerState D st)).1 (lineSearch D (innerState D st) (inner D (innerState D st)).1).k := hsp.coef
  have hobj : (irlsStep inner D st).obj = objective D (irlsStep inner D st).coef := (irlsStep_sync inner D hP st hs).obj
  rcases hacc with ⟨_, ha⟩ | ⟨ha, _⟩
  · rw [hc]
    set j := (lineSearch D (innerState D st) (inner D (innerState D st)).1).k
    have hpow : ((1 : ℝ) / 2) ^ J ≤ (1 / 2) ^ j := pow_le_pow_of_le_one (by norm_num) (by norm_num) hJ
    have hm := mul_le_mul_of_nonpos_right hpow (show 1 / 10000 * predictedChange D st.coef (inner D (innerState D st)).1 ≤ 0 by linarith)
    change objective D (candidate st.coef (inner D (innerState D st)).1 j) - objective D st.coef ≤ (1 / 2) ^ j * (1 / 10000 * predictedChange D st.coef (inner D (innerState D st)).1) at ha
    linarith
  · exfalso
    change |objective D (candidate st.coef (inner D (innerState D st)).1 _) - objective D st.coef| ≤ |objective D st.coef * (16 * D.eps)| at ha
    rw [hobj, hs.obj, hc] at hmove
    rw [abs_mul, abs_of_nonneg (show 0 ≤ 16 * D.eps by linarith)] at ha
    linarith

theorem search_k_le (D : IRLSData n p ic) (st : IRLSState n p ic) (d : Fin (p + ic.toNat) → ℝ) : (lineSearch D st d).k ≤ 19 := by
  have := (lineSearch_spec D st d).k
  omega

theorem progress_tail (inner : Inner n p ic) (D : IRLSData n p ic) (st : IRLSState n p ic)
    (hp : (irlsStep inner D st).diagnostics.IsChain (Progress D.eps)) : st.diagnostics.IsChain (Progress D.eps) := by
  have hdiag : (irlsStep inner D st).diagnostics
      = ⟨st.nIter + 1, (irlsStep inner D st).norm, (irlsStep inner D st).obj, (lineSearch D (innerState D st) (inner D (innerState D st)).1).warned⟩ :: st.diagnostics := rfl
  rw [hdiag] at hp
  exact List.IsChain.of_cons hp

/-- While there is progress, the objective does not exceed its initial value. -/
theorem progress_level (inner : Inner n p ic) (D : IRLSData n p ic) (hP : ∀ k, 0 ≤ D.P1 k) (he : 0 ≤ D.eps)
    (coef0 : Fin (p + ic.toNat) → ℝ)
    (hd : ∀ st, Visited inner D coef0 st → predictedChange D st.coef (inner D (innerState D st)).1 ≤ 0)
    (st : IRLSState n p ic) (h : Visited inner D coef0 st) (hp : st.diagnostics.IsChain (Progress D.eps)) :
    objective D st.coef ≤ objective D coef0 := by
  induction h with
  | init => exact le_rfl
  | step st hv hn hc ih =>
    have h1 := progress_step inner D hP he coef0 st hv (hd st hv) 19 (search_k_le D _ _) hp
    have h2 := ih (progress_tail inner D st hp)
    have h3 : (1 / 2 : ℝ) ^ 19 * (1 / 10000 * predictedChange D st.coef (inner D (innerState D st)).1) ≤ 0 :=
      mul_nonpos_of_nonneg_of_nonpos (by positivity) (by have := hd st hv; linarith)
    linarith

/-- The count of iterations is bounded by the total decrease. -/
theorem progress_count (inner : Inner n p ic) (D : IRLSData n p ic) (hP : ∀ k, 0 ≤ D.P1 k) (he : 0 ≤ D.eps) (hg : 0 ≤ D.gradTol)
    (coef0 : Fin (p + ic.toNat) → ℝ) (J : ℕ)
    (hJ : ∀ st, Visited inner D coef0 st → st.converged = false → st.diagnostics.IsChain (Progress D.eps) →
      (lineSearch D (innerState D st) (inner D (innerState D st)).1).k ≤ J) (kap : ℝ) (hk : 0 ≤ kap)
    (hd : ∀ st, Visited inner D coef0 st → st.diagnostics.IsChain (Progress D.eps) →
      predictedChange D st.coef (inner D (innerState D st)).1 ≤ -(kap * st.norm ^ 2))
    (st : IRLSState n p ic) (h : Visited inner D coef0 st) (hp : st.diagnostics.IsChain (Progress D.eps)) :
    objective D st.coef + st.nIter * ((1 / 2) ^ J * (1 / 10000 * (kap * D.gradTol ^ 2))) ≤ objective D coef0 := by
  induction h with
  | init =>
    show objective D coef0 + ((0 : ℕ) : ℝ) * _ ≤ _
    simp
  | step st hv hn hc ih =>
    have hp' := progress_tail inner D st hp
    have h0 := hd st hv hp'
    have hnorm : D.gradTol ≤ st.norm := by
      have hchk := visited_checked inner D coef0 st hv
      rw [Prod.ext_iff, Prod.ext_iff] at hchk
      have e1 : st.converged = (checkConvergence D st.coef st.step st.score).1 := hchk.1
      have e2 : st.norm = (checkConvergence D st.coef st.step st.score).2.1 := hchk.2.1
      by_contra hlt
      push Not at hlt
      rw [e2] at hlt
      rw [e1] at hc
      unfold checkConvergence at hc hlt
      simp only at hc hlt
      rw [decide_eq_true hlt] at hc
      simp at hc
    have hsq : D.gradTol ^ 2 ≤ st.norm ^ 2 := pow_le_pow_left₀ hg hnorm 2
    have h1 := progress_step inner D hP he coef0 st hv (h0.trans (by have := mul_nonneg hk (sq_nonneg st.norm); linarith)) J (hJ st hv hc hp') hp
    have h2 := ih hp'
    have h3 : (1 / 2 : ℝ) ^ J * (1 / 10000 * predictedChange D st.coef (inner D (innerState D st)).1)
        ≤ -((1 / 2) ^ J * (1 / 10000 * (kap * D.gradTol ^ 2))) := by
      rw [← mul_neg, ← mul_neg]
      refine mul_le_mul_of_nonneg_left (mul_le_mul_of_nonneg_left ?_ (by norm_num)) (by positivity)
      have := mul_le_mul_of_nonneg_left hsq hk
      linarith
    have h4 : ((irlsStep inner D st).nIter : ℝ) = st.nIter + 1 := by
      show ((st.nIter + 1 : ℕ) : ℝ) = _
      push_cast; ring
    rw [h4, add_mul, one_mul]
    linarith

/-- A run with enough iterations, all of which show progress, has converged. -/
theorem progress_converges (inner : Inner n p ic) (D : IRLSData n p ic) (hP : ∀ k, 0 ≤ D.P1 k) (he : 0 ≤ D.eps) (hg : 0 ≤ D.gradTol)
    (coef0 : Fin (p + ic.toNat) → ℝ) (J : ℕ)
    (hJ : ∀ st, Visited inner D coef0 st → st.converged = false → st.diagnostics.IsChain (Progress D.eps) →
      (lineSearch D (innerState D st) (inner D (innerState D st)).1).k ≤ J) (kap : ℝ) (hk : 0 ≤ kap)
    (hd : ∀ st, Visited inner D coef0 st → st.diagnostics.IsChain (Progress D.eps) →
      predictedChange D st.coef (inner D (innerState D st)).1 ≤ -(kap * st.norm ^ 2))
    (low : ℝ) (hlow : ∀ w, low ≤ objective D w)
    (hmax : objective D coef0 - low < D.maxIter * ((1 / 2) ^ J * (1 / 10000 * (kap * D.gradTol ^ 2))))
    (hp : (irlsRun inner D coef0).diagnostics.IsChain (Progress D.eps)) : (irlsRun inner D coef0).converged = true := by
  by_contra hn
  have hc : (irlsRun inner D coef0).converged = false := by simpa using hn
  have hni := (c32_accounting inner D hP coef0).2.2.2.2 hc
  have := progress_count inner D hP he hg coef0 J hJ kap hk hd _ (irlsRun_visited inner D coef0) hp
  rw [hni] at this
  have := hlow (irlsRun inner D coef0).coef
  linarith

/-! ### the quadratic form of the Hessian -/

theorem fullHessian_form (X : Fin n → ℕ → ℝ) (h : Fin n → ℝ) (P2 : Pen2 ℝ) (v : Fin (p + ic.toNat) → ℝ) :
    ∑ i, ∑ j, fullHessian (p := p) ic X h P2 i j * v i * v j
      = ∑ r, h r * (∑ i, design ic X r i * v i) ^ 2 + ∑ i, ∑ j, p2Full ic P2 i j * v i * v j := by
  have : ∀ r, h r * (∑ i, design (p := p) ic X r i * v i) ^ 2
      = ∑ i, ∑ j, design ic X r i * h r * design ic X r j * v i * v j := by
    intro r
    rw [sq, Finset.sum_mul_sum, Finset.mul_sum]
    apply Finset.sum_congr rfl; intro i _
    rw [Finset.mul_sum]
    apply Finset.sum_congr rfl; intro j _; ring
  simp only [this]
  have sw : ∑ r, ∑ i, ∑ j, design (p := p) ic X r i * h r * design ic X r j * v i * v j
      = ∑ i, ∑ j, ∑ r, design ic X r i * h r * design ic X r j * v i * v j := by
    rw [Finset.sum_comm]
    apply Finset.sum_congr rfl; intro i _
    rw [Finset.sum_comm]
  rw [sw, ← Finset.sum_add_distrib]
  apply Finset.sum_congr rfl; intro i _
  rw [← Finset.sum_add_distrib]
  apply Finset.sum_congr rfl; intro j _
  unfold fullHessian
  rw [add_mul, add_mul, Finset.sum_mul, Finset.sum_mul]

/-- Curvature at most `Lam` in every direction. -/
def Spec.CurvatureAtMost {m : ℕ} (Lam : ℝ) (Q : Fin m → Fin m → ℝ) : Prop := ∀ d : Fin m → ℝ, ∑ s, ∑ t, Q s t * d s * d t ≤ Lam * ∑ s, d s ^ 2

theorem curvature_mono (X : Fin n → ℕ → ℝ) (h B : Fin n → ℝ) (hB : ∀ r, h r ≤ B r) (P2 : Pen2 ℝ) (Lam : ℝ)
    (hL : CurvatureAtMost Lam (fullHessian (p := p) ic X B P2)) : CurvatureAtMost Lam (fullHessian (p := p) ic X h P2) := by
  intro d
  refine le_trans ?_ (hL d)
  rw [fullHessian_form, fullHessian_form]
  have : ∑ r, h r * (∑ i, design (p := p) ic X r i * d i) ^ 2 ≤ ∑ r, B r * (∑ i, design (p := p) ic X r i * d i) ^ 2 :=
    Finset.sum_le_sum fun r _ => mul_le_mul_of_nonneg_right (hB r) (sq_nonneg _)
  linarith

/-- For a symmetric positive semidefinite `H` with curvature at most `Lam`: `|H d|² ≤ Lam dᵀ H d`. -/
theorem image_norm {m : ℕ} (H : Fin m → Fin m → ℝ) (hs : ∀ i j, H i j = H j i) (hpsd : PosSemidef H) (Lam : ℝ) (hL0 : 0 < Lam)
    (hL : CurvatureAtMost Lam H) (d u : Fin m → ℝ) (hu : ∀ k, ∑ j, H k j * d j = u k) :
    ∑ k, u k ^ 2 ≤ Lam * ∑ i, ∑ j, H i j * d i * d j := by
  have h0 := hpsd fun k => d k - 1 / Lam * u k
  have hb := hL u
  have e1 : ∑ i, ∑ j, H i j * d i * u j = ∑ k, u k ^ 2 := by
    rw [Finset.sum_comm]
    refine Finset.sum_congr rfl fun j _ => ?_
    rw [← hu j, sq, Finset.sum_mul]
    conv_rhs => rw [← Finset.sum_mul]
    rw [← Finset.sum_mul]
    congr 1
    exact Finset.sum_congr rfl fun i _ => by rw [hs]
  have e2 : ∑ i, ∑ j, H i j * u i * d j = ∑ k, u k ^ 2 := by
    refine Finset.sum_congr rfl fun i _ => ?_
    rw [sq]
    conv_rhs => rw [← hu i]
    rw [hu i, ← hu i, Finset.mul_sum]
    refine Finset.sum_congr rfl fun j _ => by ring
  have e3 : ∑ i, ∑ j, H i j * (d i - 1 / Lam * u i) * (d j - 1 / Lam * u j)
      = ∑ i, ∑ j, H i j * d i * d j - 2 / Lam * ∑ k, u k ^ 2 + (1 / Lam) ^ 2 * ∑ i, ∑ j, H i j * u i * u j := by
    have : ∀ i j, H i j * (d i - 1 / Lam * u i) * (d j - 1 / Lam * u j)
        = H i j * d i * d j - 1 / Lam * (H i j * d i * u j) - 1 / Lam * (H i j * u i * d j) + (1 / Lam) ^ 2 * (H i j * u i * u j) := by
      intro i j; ring
    simp only [this, Finset.sum_add_distrib, Finset.sum_sub_distrib, ← Finset.mul_sum, e1, e2]
    ring
  rw [e3] at h0
  have h1 := mul_le_mul_of_nonneg_left hb (sq_nonneg (1 / Lam))
  have e4 : (1 / Lam) ^ 2 * (Lam * ∑ s, u s ^ 2) = 1 / Lam * ∑ s, u s ^ 2 := by field_simp
  rw [e4] at h1
  have h2 : 1 / Lam * ∑ s, u s ^ 2 ≤ ∑ i, ∑ j, H i j * d i * d j := by
    have : 2 / Lam * ∑ k, u k ^ 2 = 2 * (1 / Lam * ∑ k, u k ^ 2) := by ring
    linarith
  rw [one_div, inv_mul_le_iff₀ hL0] at h2
  exact h2

/-- Without L1 penalty and bounds the norm is the sum of the absolute scores. -/
theorem smooth_norm (inner : Inner n p ic) (D : IRLSData n p ic) (hP : ∀ k, D.P1 k = 0) (hlb : D.lb = none) (hub : D.ub = none)
    (coef0 : Fin (p + ic.toNat) → ℝ) (st : IRLSState n p ic) (h : Visited inner D coef0 st) : st.norm = ∑ k, |st.score k| := by
  have hchk := visited_checked inner D coef0 st h
  rw [Prod.ext_iff, Prod.ext_iff] at hchk
  have e2 : st.norm = (normMinSubgrad (List.finRange (p + ic.toNat)) st.coef (fun i => -st.score i) D.P1 ic D.lb D.ub).1 := hchk.2.1
  have h2 := norm_eq_finset_sum (id : Fin (p + ic.toNat) → _) strictMono_id st.coef (fun i => -st.score i) D.P1 ic D.lb D.ub
  rw [List.map_id] at h2
  rw [e2, h2]
  refine Finset.sum_congr rfl fun k _ => ?_
  unfold absTerm
  simp only [id]
  split
  · exact abs_neg _
  · rw [hlb, hub, hP, subgradTerm_eq]
    simp only [Option.map_none, reduceCtorEq, false_and, or_self, if_false]
    unfold term0
    split
    · rw [fmax_eq, sub_zero, max_eq_left (abs_nonneg _)]
      rcases lt_trichotomy (-st.score k) 0 with h | h | h
      · rw [fsign_neg h]; simp
      · rw [h, fsign_zero]; simp at h; simp [h]
      · rw [fsign_pos h]; simp
    · rw [mul_zero, add_zero, abs_neg]

theorem sq_sum_abs {m : ℕ} (s : Fin m → ℝ) : (∑ k, |s k|) ^ 2 ≤ m * ∑ k, s k ^ 2 := by
  have := sq_sum_le_card_mul_sum_sq (s := (Finset.univ : Finset (Fin m))) (f := fun k => |s k|)
  simpa [sq_abs] using this

/-- The rows entering the Hessian are bounded by `B`, if the curvatures of the rows are on the initial level set. -/
theorem progress_rows (inner : Inner n p ic) (D : IRLSData n p ic) (hD : Convexish D) (coef0 : Fin (p + ic.toNat) → ℝ)
    (hd : ∀ st, Visited inner D coef0 st → predictedChange D st.coef (inner D (innerState D st)).1 ≤ 0)
    (B : Fin n → ℝ) (hB : ∀ w, objective D w ≤ objective D coef0 → ∀ r, D.fam.hess (D.y r) (D.sw r) (linPred ic D.X (off D) w r)
      (D.fam.inv (linPred ic D.X (off D) w r)) ≤ B r)
    (st : IRLSState n p ic) (h : Visited inner D coef0 st) (hp : st.diagnostics.IsChain (Progress D.eps)) (r : Fin n) :
    (innerState D st).hs.rows r ≤ B r := by
  have key : ∀ st, Visited inner D coef0 st → st.diagnostics.IsChain (Progress D.eps) → st.hs.rows r ≤ B r := fun st h hp => by
    rw [(c29_state_in_sync inner D hD.P1 coef0 st h).2.2.2.2 r]
    exact hB _ (progress_level inner D hD.P1 hD.eps coef0 hd st h hp) r
  have main : st.hs.rows r ≤ B r ∧ st.hs.oldRows r ≤ B r := by
    induction h with
    | init =>
      refine ⟨key _ Visited.init hp, ?_⟩
      show (0 : ℝ) ≤ B r
      exact le_trans (visited_hessOK inner D hD coef0 _ Visited.init |>.rows r) (key _ Visited.init hp)
    | step st hv hn hc ih =>
      have ih' := ih (progress_tail inner D st hp)
      refine ⟨key _ (Visited.step st hv hn hc) hp, ?_⟩
      show (updateHessian ic D.X D.P2 D.hessApprox st.hs (identifyActiveSet D st)).rows r ≤ B r
      rcases updateHessian_rows ic D.X D.P2 D.hessApprox st.hs (identifyActiveSet D st) r with e | e <;> rw [e]
      · exact ih'.1
      · exact ih'.2
  show (updateHessian ic D.X D.P2 D.hessApprox st.hs (identifyActiveSet D st)).rows r ≤ B r
  rcases updateHessian_rows ic D.X D.P2 D.hessApprox st.hs (identifyActiveSet D st) r with e | e <;> rw [e]
  · exact main.1
  · exact main.2

theorem l1_absent (P1 : ℕ → ℝ) (hP : ∀ k, P1 k = 0) (u : Fin (p + ic.toNat) → ℝ) : l1 ic P1 u = 0 := by
  unfold l1
  apply Finset.sum_eq_zero
  intro i _
  have : l1Weight ic P1 i = 0 := by
    by_cases h : i.val < ic.toNat
    · exact l1Weight_of_lt ic P1 i h
    · rw [l1Weight_of_ge ic P1 i h, hP]
  rw [this, zero_mul]

/-- Without L1 penalty the inner solver is given the whole Hessian. -/
theorem smooth_hessian (inner : Inner n p ic) (D : IRLSData n p ic) (hD : Convexish D) (hP : ∀ k, D.P1 k = 0)
    (coef0 : Fin (p + ic.toNat) → ℝ) (st : IRLSState n p ic) (h : Visited inner D coef0 st) (i j : Fin (p + ic.toNat)) :
    (innerState D st).hs.H i j = fullHessian ic D.X (innerState D st).hs.rows D.P2 i j := by
  have hall := c66_no_l1_all_active _ D hP coef0 st h
  exact updateHessian_block ic D.X D.P2 D.hessApprox st.hs (visited_hessOK _ D hD coef0 st h).inv _ (activeSet_ok D st) i
    (by rw [hall]; exact List.mem_finRange i) j (by rw [hall]; exact List.mem_finRange j)

/-- The predicted change of the Newton direction. -/
theorem ls_predicted (solve : (Fin (p + ic.toNat) → Fin (p + ic.toNat) → ℝ) → (Fin (p + ic.toNat) → ℝ) → (Fin (p + ic.toNat) → ℝ))
    (D : IRLSData n p ic) (hD : Convexish D) (hP : ∀ k, D.P1 k = 0) (coef0 : Fin (p + ic.toNat) → ℝ) (st : IRLSState n p ic)
    (h : Visited (lsInner solve) D coef0 st)
    (hsolve : ∀ k, ∑ j, (innerState D st).hs.H k j * solve (innerState D st).hs.H st.score j = st.score k) :
    predictedChange D st.coef (lsInner solve D (innerState D st)).1
      = -∑ i, ∑ j, fullHessian ic D.X (innerState D st).hs.rows D.P2 i j * solve (innerState D st).hs.H st.score i * solve (innerState D st).hs.H st.score j := by
  have hs := (visited_sync _ D hD.P1 coef0 st h).score
  unfold predictedChange
  rw [l1_absent D.P1 hP, l1_absent D.P1 hP, add_zero, sub_zero]
  congr 1
  apply Finset.sum_congr rfl; intro k _
  rw [← hs k, ← hsolve k]
  show _ * solve (innerState D st).hs.H st.score k = _
  rw [Finset.sum_mul]
  apply Finset.sum_congr rfl; intro j _
  rw [smooth_hessian _ D hD hP coef0 st h]; ring

/-- The Newton direction is a descent direction. -/
theorem ls_descent (solve : (Fin (p + ic.toNat) → Fin (p + ic.toNat) → ℝ) → (Fin (p + ic.toNat) → ℝ) → (Fin (p + ic.toNat) → ℝ))
    (D : IRLSData n p ic) (hD : Convexish D) (hP : ∀ k, D.P1 k = 0) (coef0 : Fin (p + ic.toNat) → ℝ)
    (hsolve : ∀ st, Visited (lsInner solve) D coef0 st → ∀ k,
      ∑ j, (innerState D st).hs.H k j * solve (innerState D st).hs.H st.score j = st.score k)
    (st : IRLSState n p ic) (h : Visited (lsInner solve) D coef0 st) : predictedChange D st.coef (lsInner solve D (innerState D st)).1 ≤ 0 := by
  rw [ls_predicted solve D hD hP coef0 st h (hsolve st h)]
  have := (c13_hessian_symm_psd (p := p) ic D.X _ D.P2).2 ((visited_hessOK _ D hD coef0 st h).update (identifyActiveSet D st)) hD.psd
    (solve (innerState D st).hs.H st.score)
  have e : (updateHessian ic D.X D.P2 D.hessApprox st.hs (identifyActiveSet D st)).rows = (innerState D st).hs.rows := rfl
  rw [e] at this
  linarith

/-- The squared norm of the gradient is bounded by the decrease predicted. -/
theorem ls_energy (solve : (Fin (p + ic.toNat) → Fin (p + ic.toNat) → ℝ) → (Fin (p + ic.toNat) → ℝ) → (Fin (p + ic.toNat) → ℝ))
    (D : IRLSData n p ic) (hD : Convexish D) (hP : ∀ k, D.P1 k = 0) (hlb : D.lb = none) (hub : D.ub = none)
    (coef0 : Fin (p + ic.toNat) → ℝ)
    (hsolve : ∀ st, Visited (lsInner solve) D coef0 st → ∀ k,
      ∑ j, (innerState D st).hs.H k j * solve (innerState D st).hs.H st.score j = st.score k)
    (B : Fin n → ℝ) (hB : ∀ w, objective D w ≤ objective D coef0 → ∀ r, D.fam.hess (D.y r) (D.sw r) (linPred ic D.X (off D) w r)
      (D.fam.inv (linPred ic D.X (off D) w r)) ≤ B r)
    (Lam : ℝ) (hL0 : 0 < Lam) (hL : CurvatureAtMost Lam (fullHessian (p := p) ic D.X B D.P2))
    (st : IRLSState n p ic) (h : Visited (lsInner solve) D coef0 st) (hpr : st.diagnostics.IsChain (Progress D.eps)) :
    predictedChange D st.coef (lsInner solve D (innerState D st)).1 ≤ -(1 / ((p + 1) * Lam) * st.norm ^ 2) := by
  have hd := ls_descent solve D hD hP coef0 hsolve
  have hpsd : ∀ st, Visited (lsInner solve) D coef0 st → PosSemidef (fullHessian (p := p) ic D.X (innerState D st).hs.rows D.P2) := fun st h =>
    (c13_hessian_symm_psd (p := p) ic D.X _ D.P2).2 ((visited_hessOK _ D hD coef0 st h).update _) hD.psd
  rw [ls_predicted solve D hD hP coef0 st h (hsolve st h)]
  have hrows := progress_rows (lsInner solve) D hD coef0 hd B hB st h hpr
  have hcur := curvature_mono D.X _ B hrows D.P2 Lam hL
  have himg := image_norm _ ((c13_hessian_symm_psd (p := p) ic D.X (innerState D st).hs.rows D.P2).1 hD.symm) (hpsd st h) Lam hL0 hcur
    (solve (innerState D st).hs.H st.score) st.score (fun k => by
      rw [← hsolve st h k]
      exact Finset.sum_congr rfl fun j _ => by rw [smooth_hessian _ D hD hP coef0 st h])
  set E := ∑ i, ∑ j, fullHessian ic D.X (innerState D st).hs.rows D.P2 i j * solve (innerState D st).hs.H st.score i * solve (innerState D st).hs.H st.score j with hE
  have hn : st.norm ^ 2 ≤ (p + 1) * (Lam * E) := by
    rw [smooth_norm _ D hP hlb hub coef0 st h]
    refine (sq_sum_abs _).trans ?_
    have hcard : ((p + ic.toNat : ℕ) : ℝ) ≤ p + 1 := by
      have : ic.toNat ≤ 1 := by cases ic <;> simp
      exact_mod_cast (show p + ic.toNat ≤ p + 1 by omega)
    refine (mul_le_mul_of_nonneg_right hcard (Finset.sum_nonneg fun k _ => sq_nonneg _)).trans ?_
    exact mul_le_mul_of_nonneg_left himg (by positivity)
  rw [neg_le_neg_iff, div_mul_eq_mul_div, one_mul, div_le_iff₀ (by positivity)]
  linarith


/-- **C85, least squares.** A fit with `irls-ls` ends: if `max_iter` exceeds a bound computed from the initial objective, the tolerance and the curvature, then either
it converges, or some iteration warned in its line search or changed the objective by no more than round-off. `B r` bounds the curvature of row `r` on the
initial level set, `Lam` the curvature of the Hessian built from `B`. -/
theorem c85_ls_converges (solve : (Fin (p + ic.toNat) → Fin (p + ic.toNat) → ℝ) → (Fin (p + ic.toNat) → ℝ) → (Fin (p + ic.toNat) → ℝ))
    (D : IRLSData n p ic) (hD : Convexish D) (hP : ∀ k, D.P1 k = 0) (hlb : D.lb = none) (hub : D.ub = none) (hg : 0 ≤ D.gradTol)
    (coef0 : Fin (p + ic.toNat) → ℝ)
    (hsolve : ∀ st, Visited (lsInner solve) D coef0 st → ∀ k,
      ∑ j, (innerState D st).hs.H k j * solve (innerState D st).hs.H st.score j = st.score k)
    (B : Fin n → ℝ) (hB : ∀ w, objective D w ≤ objective D coef0 → ∀ r, D.fam.hess (D.y r) (D.sw r) (linPred ic D.X (off D) w r)
      (D.fam.inv (linPred ic D.X (off D) w r)) ≤ B r)
    (Lam : ℝ) (hL0 : 0 < Lam) (hL : CurvatureAtMost Lam (fullHessian (p := p) ic D.X B D.P2))
    (low : ℝ) (hlow : ∀ w, low ≤ objective D w)
    (hmax : objective D coef0 - low < D.maxIter * ((1 / 2) ^ 19 * (1 / 10000 * (1 / ((p + 1) * Lam) * D.gradTol ^ 2))))
    (hp : (irlsRun (lsInner solve) D coef0).diagnostics.IsChain (Progress D.eps)) : (irlsRun (lsInner solve) D coef0).converged = true :=
  progress_converges (lsInner solve) D hD.P1 hD.eps hg coef0 19 (fun st _ _ _ => search_k_le D _ _) (1 / ((p + 1) * Lam)) (by positivity)
    (ls_energy solve D hD hP hlb hub coef0 hsolve B hB Lam hL0 hL) low hlow hmax hp

end Glum
