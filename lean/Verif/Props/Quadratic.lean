import Verif.Props.OuterLive3
import Verif.Props.StepLive2
import Verif.Props.Target
import Mathlib.Analysis.Calculus.ContDiff.RCLike
import Mathlib.Analysis.SpecialFunctions.ExpDeriv
/-
C125: `irls-ls` converges quadratically near the solution.
-/
set_option linter.unusedSectionVars false
set_option linter.unusedVariables false
set_option linter.unusedSimpArgs false

namespace Glum
open Spec

variable {n p : ℕ} {ic : Bool}

/-! ### Specification -/

/-- The largest absolute difference between two coefficient vectors (`‖·‖` on functions is the maximum norm). -/
noncomputable def Spec.coefError {m : ℕ} (w v : Fin m → ℝ) : ℝ := ‖fun k => w k - v k‖

/-- The sum of the absolute values of a row of the design matrix (with the intercept column). -/
noncomputable def Spec.rowSize (D : IRLSData n p ic) (r : Fin n) : ℝ := ∑ k : Fin (p + ic.toNat), |design ic D.X r k|

/-- The Hessian rows at a linear predictor, as the estimator computes them. -/
noncomputable def Spec.hessRow (D : IRLSData n p ic) (r : Fin n) (eta : ℝ) : ℝ := D.fam.hess (D.y r) (D.sw r) eta (D.fam.inv eta)

/-- The neighbourhood (of radius `delta`) of a stationary point in which Newton steps are taken in full: the Hessian at the stationary point has curvature at least
`lam`, and, at the linear predictors that coefficients in the neighbourhood give, the Hessian rows are Lipschitz with constant `L`, vary by a factor of at most
`3/2`, and the means stay below the overflow threshold of the line search. -/
structure Spec.NewtonRegion (D : IRLSData n p ic) (wstar : Fin (p + ic.toNat) → ℝ) (lam L delta : ℝ) : Prop where
  stationary : ∀ k, scoreAt D wstar k = 0
  lam_pos : 0 < lam
  L_nonneg : 0 ≤ L
  delta_pos : 0 < delta
  convex : StronglyConvex lam (fullHessian (p := p) ic D.X (fun r => hessRow D r (linPred ic D.X (off D) wstar r)) D.P2)
  lip : ∀ r x z, |x - linPred ic D.X (off D) wstar r| ≤ rowSize D r * delta → |z - linPred ic D.X (off D) wstar r| ≤ rowSize D r * delta →
    |hessRow D r x - hessRow D r z| ≤ L * |x - z|
  ratio : ∀ r x z, |x - linPred ic D.X (off D) wstar r| ≤ rowSize D r * delta → |z - linPred ic D.X (off D) wstar r| ≤ rowSize D r * delta →
    hessRow D r x ≤ 3 / 2 * hessRow D r z
  large : ∀ r x, |x - linPred ic D.X (off D) wstar r| ≤ rowSize D r * delta → D.fam.inv x < D.large
  small : 3 * (L * ∑ r, rowSize D r ^ 3) * delta ≤ lam

/-- The constant of the quadratic convergence. -/
noncomputable def Spec.newtonConst (D : IRLSData n p ic) (lam L : ℝ) : ℝ := 3 / 2 * (L * ∑ r, rowSize D r ^ 3) / lam

/-! ### The error of one Newton step -/

theorem coefError_nonneg {m : ℕ} (w v : Fin m → ℝ) : 0 ≤ coefError w v := norm_nonneg _

theorem rowSize_nonneg (D : IRLSData n p ic) (r : Fin n) : 0 ≤ rowSize D r := Finset.sum_nonneg fun _ _ => abs_nonneg _

theorem row_bound (D : IRLSData n p ic) (r : Fin n) (u : Fin (p + ic.toNat) → ℝ) : |∑ k, design ic D.X r k * u k| ≤ rowSize D r * ‖u‖ := by
  unfold rowSize
  rw [Finset.sum_mul]
  refine (Finset.abs_sum_le_sum_abs _ _).trans (Finset.sum_le_sum fun k _ => ?_)
  rw [abs_mul]
  exact mul_le_mul_of_nonneg_left (norm_le_pi_norm u k) (abs_nonneg _)

theorem norm_sq_le {m : ℕ} (u : Fin m → ℝ) : ‖u‖ ^ 2 ≤ ∑ k, u k ^ 2 := by
  have h0 : 0 ≤ ∑ k, u k ^ 2 := Finset.sum_nonneg fun _ _ => sq_nonneg _
  have : ‖u‖ ≤ Real.sqrt (∑ k, u k ^ 2) := by
    refine (pi_norm_le_iff_of_nonneg (Real.sqrt_nonneg _)).2 fun k => ?_
    rw [Real.norm_eq_abs]
    refine Real.abs_le_sqrt ?_
    exact Finset.single_le_sum (f := fun k => u k ^ 2) (fun _ _ => sq_nonneg _) (Finset.mem_univ k)
  calc ‖u‖ ^ 2 ≤ Real.sqrt (∑ k, u k ^ 2) ^ 2 := by gcongr
    _ = _ := Real.sq_sqrt h0

theorem linPred_sub (D : IRLSData n p ic) (w v : Fin (p + ic.toNat) → ℝ) (r : Fin n) :
    linPred ic D.X (off D) w r - linPred ic D.X (off D) v r = ∑ k, design ic D.X r k * (w k - v k) := by
  unfold linPred
  simp only [mul_sub, Finset.sum_sub_distrib]
  ring

theorem fullHessian_bilinear (X : Fin n → ℕ → ℝ) (h : Fin n → ℝ) (P2 : Pen2 ℝ) (u v : Fin (p + ic.toNat) → ℝ) :
    ∑ i, (∑ j, fullHessian (p := p) ic X h P2 i j * v j) * u i
      = ∑ r, h r * (∑ i, design ic X r i * u i) * (∑ j, design ic X r j * v j) + ∑ i, ∑ j, p2Full ic P2 i j * u i * v j := by
  have : ∀ r, h r * (∑ i, design (p := p) ic X r i * u i) * (∑ j, design (p := p) ic X r j * v j)
      = ∑ i, ∑ j, design ic X r i * h r * design ic X r j * u i * v j := by
    intro r
    rw [mul_assoc, Finset.sum_mul_sum, Finset.mul_sum]
    apply Finset.sum_congr rfl; intro i _
    rw [Finset.mul_sum]
    apply Finset.sum_congr rfl; intro j _; ring
  simp only [this]
  rw [Finset.sum_comm, ← Finset.sum_add_distrib]
  apply Finset.sum_congr rfl; intro i _
  rw [Finset.sum_comm, ← Finset.sum_add_distrib, Finset.sum_mul]
  apply Finset.sum_congr rfl; intro j _
  unfold fullHessian
  rw [add_mul, add_mul, Finset.sum_mul, Finset.sum_mul]
  congr 1
  · apply Finset.sum_congr rfl; intro r _; ring
  · ring

/-- In the neighbourhood the linear predictor is within the allowed distance. -/
theorem region_eta (D : IRLSData n p ic) (wstar w : Fin (p + ic.toNat) → ℝ) (delta : ℝ) (h : coefError w wstar ≤ delta) (r : Fin n) :
    |linPred ic D.X (off D) w r - linPred ic D.X (off D) wstar r| ≤ rowSize D r * delta := by
  rw [linPred_sub]
  exact (row_bound D r _).trans (mul_le_mul_of_nonneg_left h (rowSize_nonneg D r))

/-- The remainder of the linearised gradient row. -/
theorem region_remainder (D : IRLSData n p ic) (wstar : Fin (p + ic.toNat) → ℝ) (lam L delta : ℝ) (hR : NewtonRegion D wstar lam L delta)
    (hc : RowCurvature D (hessRow D)) (w : Fin (p + ic.toNat) → ℝ) (h : coefError w wstar ≤ delta) (r : Fin n) :
    |D.fam.grad (D.y r) (D.sw r) (linPred ic D.X (off D) w r) (D.fam.inv (linPred ic D.X (off D) w r))
        - D.fam.grad (D.y r) (D.sw r) (linPred ic D.X (off D) wstar r) (D.fam.inv (linPred ic D.X (off D) wstar r))
        + hessRow D r (linPred ic D.X (off D) w r) * (linPred ic D.X (off D) w r - linPred ic D.X (off D) wstar r)|
      ≤ L * (linPred ic D.X (off D) w r - linPred ic D.X (off D) wstar r) ^ 2 := by
  set a := linPred ic D.X (off D) w r with ha
  set b := linPred ic D.X (off D) wstar r with hb
  have hab : |a - b| ≤ rowSize D r * delta := region_eta D wstar w delta h r
  set g : ℝ → ℝ := fun e => D.fam.grad (D.y r) (D.sw r) e (D.fam.inv e) + hessRow D r a * e with hg
  have hd : ∀ x ∈ Set.uIcc b a, HasDerivWithinAt g (-(hessRow D r x) + hessRow D r a) (Set.uIcc b a) x := by
    intro x _
    have := ((hc r x).2).fun_add ((hasDerivAt_id x).const_mul (hessRow D r a))
    refine (this.congr_deriv ?_).hasDerivWithinAt
    simp
  have hbd : ∀ x ∈ Set.uIcc b a, ‖-(hessRow D r x) + hessRow D r a‖ ≤ L * |a - b| := by
    intro x hx
    have h1 : |x - b| ≤ |a - b| := Set.abs_sub_left_of_mem_uIcc hx
    have h2 : |a - x| ≤ |a - b| := Set.abs_sub_right_of_mem_uIcc hx
    have := hR.lip r a x hab (h1.trans hab)
    rw [Real.norm_eq_abs, show -(hessRow D r x) + hessRow D r a = hessRow D r a - hessRow D r x by ring]
    exact this.trans (mul_le_mul_of_nonneg_left h2 hR.L_nonneg)
  have := (convex_uIcc b a).norm_image_sub_le_of_norm_hasDerivWithin_le hd hbd Set.left_mem_uIcc Set.right_mem_uIcc
  rw [Real.norm_eq_abs, Real.norm_eq_abs] at this
  have e1 : g a - g b = D.fam.grad (D.y r) (D.sw r) a (D.fam.inv a) - D.fam.grad (D.y r) (D.sw r) b (D.fam.inv b) + hessRow D r a * (a - b) := by
    simp only [hg]; ring
  rw [e1, mul_assoc, ← sq, sq_abs] at this
  exact this

theorem hess_at_convex (D : IRLSData n p ic) (hD : Convexish D) (wstar : Fin (p + ic.toNat) → ℝ) (lam L delta : ℝ) (hR : NewtonRegion D wstar lam L delta)
    (w : Fin (p + ic.toNat) → ℝ) (h : coefError w wstar ≤ delta) (u : Fin (p + ic.toNat) → ℝ) :
    2 / 3 * (lam * ∑ k, u k ^ 2)
      ≤ ∑ i, ∑ j, fullHessian (p := p) ic D.X (fun r => hessRow D r (linPred ic D.X (off D) w r)) D.P2 i j * u i * u j := by
  have h1 := hR.convex u
  rw [fullHessian_form] at h1 ⊢
  have h2 : ∑ r, hessRow D r (linPred ic D.X (off D) wstar r) * (∑ k, design ic D.X r k * u k) ^ 2
      ≤ 3 / 2 * ∑ r, hessRow D r (linPred ic D.X (off D) w r) * (∑ k, design ic D.X r k * u k) ^ 2 := by
    rw [Finset.mul_sum]
    refine Finset.sum_le_sum fun r _ => ?_
    rw [← mul_assoc]
    refine mul_le_mul_of_nonneg_right (hR.ratio r _ _ ?_ (region_eta D wstar w delta h r)) (sq_nonneg _)
    rw [sub_self, abs_zero]
    exact mul_nonneg (rowSize_nonneg D r) hR.delta_pos.le
  have h3 := hD.psd u
  linarith

/-- The error after one full Newton step from inside the neighbourhood. -/
theorem newton_error (D : IRLSData n p ic) (hD : Convexish D) (wstar : Fin (p + ic.toNat) → ℝ) (lam L delta : ℝ) (hR : NewtonRegion D wstar lam L delta)
    (hc : RowCurvature D (hessRow D)) (w d : Fin (p + ic.toNat) → ℝ) (h : coefError w wstar ≤ delta)
    (hd : ∀ k, ∑ j, fullHessian (p := p) ic D.X (fun r => hessRow D r (linPred ic D.X (off D) w r)) D.P2 k j * d j = scoreAt D w k) :
    coefError (fun k => w k + d k) wstar ≤ newtonConst D lam L * coefError w wstar ^ 2 := by
  set hw : Fin n → ℝ := fun r => hessRow D r (linPred ic D.X (off D) w r) with hhw
  set u : Fin (p + ic.toNat) → ℝ := fun k => w k - wstar k with hu
  set e : Fin (p + ic.toNat) → ℝ := fun k => w k + d k - wstar k with he
  have hq := hess_at_convex D hD wstar lam L delta hR w h e
  have e1 : ∑ i, ∑ j, fullHessian (p := p) ic D.X hw D.P2 i j * e i * e j
      = ∑ i, (∑ j, fullHessian (p := p) ic D.X hw D.P2 i j * u j) * e i + ∑ i, scoreAt D w i * e i := by
    rw [← Finset.sum_add_distrib]
    refine Finset.sum_congr rfl fun i _ => ?_
    rw [← hd i, ← add_mul, ← Finset.sum_add_distrib, Finset.sum_mul]
    refine Finset.sum_congr rfl fun j _ => ?_
    simp only [he, hu]; ring
  have e2 : ∑ i, scoreAt D w i * e i = ∑ i, scoreAt D w i * e i - ∑ i, scoreAt D wstar i * e i := by
    simp [hR.stationary]
  have e3 : ∑ k, (∑ i, p2Full ic D.P2 i k * w i) * e k - ∑ k, (∑ i, p2Full ic D.P2 i k * wstar i) * e k = ∑ i, ∑ j, p2Full ic D.P2 i j * e i * u j := by
    rw [← Finset.sum_sub_distrib]
    refine Finset.sum_congr rfl fun k _ => ?_
    rw [← sub_mul, ← Finset.sum_sub_distrib, Finset.sum_mul]
    refine Finset.sum_congr rfl fun j _ => ?_
    rw [hD.symm j k]
    simp only [hu]; ring
  have e4 : ∑ i, ∑ j, fullHessian (p := p) ic D.X hw D.P2 i j * e i * e j
      = ∑ r, (D.fam.grad (D.y r) (D.sw r) (linPred ic D.X (off D) w r) (D.fam.inv (linPred ic D.X (off D) w r))
        - D.fam.grad (D.y r) (D.sw r) (linPred ic D.X (off D) wstar r) (D.fam.inv (linPred ic D.X (off D) wstar r))
        + hessRow D r (linPred ic D.X (off D) w r) * (linPred ic D.X (off D) w r - linPred ic D.X (off D) wstar r))
          * (∑ k, design ic D.X r k * e k) := by
    rw [e1, e2, score_dot, score_dot, fullHessian_bilinear]
    simp only [add_mul, sub_mul, Finset.sum_add_distrib, Finset.sum_sub_distrib, linPred_sub]
    have : ∑ r, hw r * (∑ i, design ic D.X r i * e i) * (∑ j, design ic D.X r j * u j)
        = ∑ r, hessRow D r (linPred ic D.X (off D) w r) * (∑ k, design ic D.X r k * (w k - wstar k)) * (∑ k, design ic D.X r k * e k) :=
      Finset.sum_congr rfl fun r _ => by simp only [hhw, hu]; ring
    rw [this]
    linarith
  have e5 : ∑ i, ∑ j, fullHessian (p := p) ic D.X hw D.P2 i j * e i * e j ≤ L * (∑ r, rowSize D r ^ 3) * ‖u‖ ^ 2 * ‖e‖ := by
    rw [e4]
    have : L * (∑ r, rowSize D r ^ 3) * ‖u‖ ^ 2 * ‖e‖ = ∑ r, L * (rowSize D r * ‖u‖) ^ 2 * (rowSize D r * ‖e‖) := by
      rw [Finset.mul_sum, Finset.sum_mul, Finset.sum_mul]
      exact Finset.sum_congr rfl fun r _ => by ring
    rw [this]
    refine Finset.sum_le_sum fun r _ => ?_
    refine (le_abs_self _).trans ?_
    rw [abs_mul]
    refine mul_le_mul ((region_remainder D wstar lam L delta hR hc w h r).trans ?_) (row_bound D r e) (abs_nonneg _)
      (mul_nonneg hR.L_nonneg (sq_nonneg _))
    refine mul_le_mul_of_nonneg_left ?_ hR.L_nonneg
    rw [← sq_abs, linPred_sub]
    exact pow_le_pow_left₀ (abs_nonneg _) (row_bound D r u) 2
  have e6 : 2 / 3 * lam * ‖e‖ ^ 2 ≤ L * (∑ r, rowSize D r ^ 3) * ‖u‖ ^ 2 * ‖e‖ := by
    have := mul_le_mul_of_nonneg_left (norm_sq_le e) (show 0 ≤ 2 / 3 * lam by linarith [hR.lam_pos])
    linarith
  show ‖e‖ ≤ newtonConst D lam L * ‖u‖ ^ 2
  unfold newtonConst
  have hs : 0 ≤ ∑ r, rowSize D r ^ 3 := Finset.sum_nonneg fun r _ => pow_nonneg (rowSize_nonneg D r) 3
  rw [div_mul_eq_mul_div, le_div_iff₀ hR.lam_pos]
  rcases (norm_nonneg e).eq_or_lt with h0 | h0
  · rw [← h0, zero_mul]
    have := hR.L_nonneg
    positivity
  · have : 2 / 3 * lam * ‖e‖ ≤ L * (∑ r, rowSize D r ^ 3) * ‖u‖ ^ 2 := by
      refine le_of_mul_le_mul_right ?_ h0
      calc 2 / 3 * lam * ‖e‖ * ‖e‖ = 2 / 3 * lam * ‖e‖ ^ 2 := by ring
        _ ≤ _ := e6
    linarith

/-- Inside the neighbourhood the step leads to at most half the error. -/
theorem newton_half (D : IRLSData n p ic) (wstar : Fin (p + ic.toNat) → ℝ) (lam L delta : ℝ) (hR : NewtonRegion D wstar lam L delta) (x : ℝ) (h0 : 0 ≤ x) (h1 : x ≤ delta) :
    newtonConst D lam L * x ^ 2 ≤ x / 2 := by
  unfold newtonConst
  have hs : 0 ≤ ∑ r, rowSize D r ^ 3 := Finset.sum_nonneg fun r _ => pow_nonneg (rowSize_nonneg D r) 3
  rw [div_mul_eq_mul_div, div_le_iff₀ hR.lam_pos]
  have h2 : 3 * (L * ∑ r, rowSize D r ^ 3) * x ≤ lam :=
    (mul_le_mul_of_nonneg_left h1 (mul_nonneg (by norm_num) (mul_nonneg hR.L_nonneg hs))).trans hR.small
  nlinarith [mul_le_mul_of_nonneg_right h2 h0]

/-- In the neighbourhood the full Newton step satisfies the acceptance test. -/
theorem newton_accept (D : IRLSData n p ic) (hD : Convexish D) (hP : ∀ k, D.P1 k = 0) (wstar : Fin (p + ic.toNat) → ℝ) (lam L delta : ℝ)
    (hR : NewtonRegion D wstar lam L delta) (hc : RowCurvature D (hessRow D)) (w d : Fin (p + ic.toNat) → ℝ) (h : coefError w wstar ≤ delta)
    (hd : ∀ k, ∑ j, fullHessian (p := p) ic D.X (fun r => hessRow D r (linPred ic D.X (off D) w r)) D.P2 k j * d j = scoreAt D w k) :
    Acceptable D w d 0 := by
  have herr := newton_error D hD wstar lam L delta hR hc w d h hd
  have hhalf := newton_half D wstar lam L delta hR _ (coefError_nonneg w wstar) h
  have hin : coefError (fun k => w k + d k) wstar ≤ delta := by linarith [coefError_nonneg w wstar]
  have hcand : candidate w d 0 = fun k => w k + d k := by unfold candidate; simp
  have hpred : predictedChange D w d = -∑ k, scoreAt D w k * d k := by
    unfold predictedChange
    rw [l1_absent D.P1 hP, l1_absent D.P1 hP, add_zero, sub_zero]
  set E := ∑ k, scoreAt D w k * d k with hE
  have hEq : ∑ i, ∑ j, fullHessian (p := p) ic D.X (fun r => hessRow D r (linPred ic D.X (off D) w r)) D.P2 i j * d i * d j = E := by
    rw [hE]
    refine Finset.sum_congr rfl fun i _ => ?_
    rw [← hd i, Finset.sum_mul]
    exact Finset.sum_congr rfl fun j _ => by ring
  have hconv := hess_at_convex D hD wstar lam L delta hR w h d
  rw [hEq] at hconv
  have hE0 : 0 ≤ E := by
    have := mul_nonneg hR.lam_pos.le (Finset.sum_nonneg fun k (_ : k ∈ Finset.univ) => sq_nonneg (d k))
    linarith
  refine Or.inl ⟨fun r => ?_, ?_⟩
  · rw [hcand]
    exact hR.large r _ (region_eta D wstar _ delta hin r)
  rw [hcand, hpred, pow_zero, one_mul, objective_smooth D hP, objective_smooth D hP]
  rcases hE0.eq_or_lt with h0 | hpos
  · have hd0 : d = 0 := by
      funext k
      have : ∑ k, d k ^ 2 ≤ 0 := by
        rw [← h0] at hconv
        have := hR.lam_pos
        by_contra hlt
        push Not at hlt
        have := mul_pos this hlt
        linarith
      have h1 : d k ^ 2 ≤ ∑ k, d k ^ 2 := Finset.single_le_sum (f := fun k => d k ^ 2) (fun _ _ => sq_nonneg _) (Finset.mem_univ k)
      have : d k ^ 2 = 0 := le_antisymm (h1.trans this) (sq_nonneg _)
      simpa using this
    rw [← h0, hd0]
    simp
  obtain ⟨φ', d1, d2, d0⟩ := smooth_line D hD.symm (hessRow D) hc w d
  have hw0 : (fun k => w k + 0 * d k) = w := by funext k; ring
  have hw1 : (fun k => w k + 1 * d k) = fun k => w k + d k := by funext k; ring
  have := level_descent _ _ _ d1 d2 E (3 / 2 * E) 1 (by rw [d0]) hpos zero_le_one (by linarith) ?_ 1 ⟨zero_le_one, le_rfl⟩
  · beta_reduce at this
    rw [hw0, hw1] at this
    linarith
  · intro t ht _
    have hseg : coefError (fun k => w k + t * d k) wstar ≤ delta := by
      have : (fun k => w k + t * d k - wstar k) = (1 - t) • (fun k => w k - wstar k) + t • (fun k => w k + d k - wstar k) := by
        funext k
        simp only [Pi.add_apply, Pi.smul_apply, smul_eq_mul]
        ring
      unfold coefError
      rw [this]
      refine (norm_add_le _ _).trans ?_
      rw [norm_smul, norm_smul, Real.norm_eq_abs, Real.norm_eq_abs, abs_of_nonneg (show 0 ≤ 1 - t by linarith [ht.2]), abs_of_nonneg ht.1]
      have a1 := mul_le_mul_of_nonneg_left h (show 0 ≤ 1 - t by linarith [ht.2])
      have a2 := mul_le_mul_of_nonneg_left hin ht.1
      unfold coefError at a1 a2
      linarith
    rw [← hEq, fullHessian_form, mul_add, Finset.mul_sum]
    refine add_le_add (Finset.sum_le_sum fun r _ => ?_) ?_
    · rw [← mul_assoc]
      exact mul_le_mul_of_nonneg_right (hR.ratio r _ _ (region_eta D wstar _ delta hseg r) (region_eta D wstar w delta h r)) (sq_nonneg _)
    · have := hD.psd d
      linarith

/-! ### Runs of the solver -/

/-- With `hessian_approx = 0` the inner solver is given the Hessian at the current coefficients. -/
theorem exact_hessian (inner : Inner n p ic) (D : IRLSData n p ic) (hD : Convexish D) (hP : ∀ k, D.P1 k = 0) (hC : D.hessApprox = 0)
    (coef0 : Fin (p + ic.toNat) → ℝ) (st : IRLSState n p ic) (h : Visited inner D coef0 st) (i j : Fin (p + ic.toNat)) :
    (innerState D st).hs.H i j = fullHessian ic D.X (fun r => hessRow D r (linPred ic D.X (off D) st.coef r)) D.P2 i j := by
  rw [smooth_hessian inner D hD hP coef0 st h]
  have : (innerState D st).hs.rows = fun r => hessRow D r (linPred ic D.X (off D) st.coef r) := by
    have hr : (innerState D st).hs.rows = st.hs.rows := by
      show (updateHessian ic D.X D.P2 D.hessApprox st.hs (identifyActiveSet D st)).rows = _
      rw [hC]
      simp only [updateHessian]
      split
      · rfl
      · exact activeRows_zero _ _
    rw [hr]
    funext r
    exact (c29_state_in_sync inner D hD.P1 coef0 st h).2.2.2.2 r
  rw [this]

/-- Hypotheses under which a run of `irls-ls` is considered: no L1 penalty, exact Hessian updates, Hessian rows that are the second derivative of the objective's rows,
and a linear solver that solves regular systems. -/
structure Spec.NewtonRun (solve : (Fin (p + ic.toNat) → Fin (p + ic.toNat) → ℝ) → (Fin (p + ic.toNat) → ℝ) → (Fin (p + ic.toNat) → ℝ)) (D : IRLSData n p ic) : Prop where
  convex : Convexish D
  P1 : ∀ k, D.P1 k = 0
  exact : D.hessApprox = 0
  curvature : RowCurvature D (hessRow D)
  solve : ∀ (H : Fin (p + ic.toNat) → Fin (p + ic.toNat) → ℝ) s, (∀ v : Fin (p + ic.toNat) → ℝ, (∀ i, ∑ j, H i j * v j = 0) → ∀ j, v j = 0) →
      ∀ k, ∑ j, H k j * solve H s j = s k

/-- **C125, one iteration.** From any state of a run of `irls-ls` whose coefficients are in the neighbourhood, the next iteration takes the full step without warning
(first trial of the line search), stays in the neighbourhood, squares the error (times a constant) and at least halves it. -/
theorem c125_iteration (solve : (Fin (p + ic.toNat) → Fin (p + ic.toNat) → ℝ) → (Fin (p + ic.toNat) → ℝ) → (Fin (p + ic.toNat) → ℝ)) (D : IRLSData n p ic)
    (hN : NewtonRun solve D) (wstar : Fin (p + ic.toNat) → ℝ) (lam L delta : ℝ) (hR : NewtonRegion D wstar lam L delta)
    (coef0 : Fin (p + ic.toNat) → ℝ) (st : IRLSState n p ic) (hv : Visited (lsInner solve) D coef0 st) (h : coefError st.coef wstar ≤ delta) :
    (lineSearch D (innerState D st) (lsInner solve D (innerState D st)).1).k = 0 ∧
    (lineSearch D (innerState D st) (lsInner solve D (innerState D st)).1).warned = false ∧
    coefError (irlsStep (lsInner solve) D st).coef wstar ≤ newtonConst D lam L * coefError st.coef wstar ^ 2 ∧
    coefError (irlsStep (lsInner solve) D st).coef wstar ≤ coefError st.coef wstar / 2 := by
  have hD := hN.convex
  have hH := exact_hessian (lsInner solve) D hD hN.P1 hN.exact coef0 st hv
  have hs := visited_sync (lsInner solve) D hD.P1 coef0 st hv
  set d := (lsInner solve D (innerState D st)).1 with hdd
  have hds : ∀ k, ∑ j, fullHessian (p := p) ic D.X (fun r => hessRow D r (linPred ic D.X (off D) st.coef r)) D.P2 k j * d j = scoreAt D st.coef k := by
    have := hN.solve (innerState D st).hs.H st.score (fun v hv j => by
      have hz := hess_at_convex D hD wstar lam L delta hR st.coef h v
      have e : ∑ i, ∑ j, fullHessian (p := p) ic D.X (fun r => hessRow D r (linPred ic D.X (off D) st.coef r)) D.P2 i j * v i * v j = 0 := by
        refine Finset.sum_eq_zero fun i _ => ?_
        have := hv i
        simp only [hH] at this
        calc _ = v i * ∑ j, fullHessian (p := p) ic D.X (fun r => hessRow D r (linPred ic D.X (off D) st.coef r)) D.P2 i j * v j := by
              rw [Finset.mul_sum]; exact Finset.sum_congr rfl fun j _ => by ring
          _ = 0 := by rw [this, mul_zero]
      rw [e] at hz
      have hp := hR.lam_pos
      have h1 : v j ^ 2 ≤ ∑ k, v k ^ 2 := Finset.single_le_sum (f := fun k => v k ^ 2) (fun _ _ => sq_nonneg _) (Finset.mem_univ j)
      have h2 : ∑ k, v k ^ 2 ≤ 0 := by
        by_contra hlt
        push Not at hlt
        have := mul_pos hp hlt
        linarith
      have : v j ^ 2 = 0 := le_antisymm (h1.trans h2) (sq_nonneg _)
      simpa using this)
    intro k
    have := this k
    simp only [hH] at this
    rw [← hs.score k, ← this]
    refine Finset.sum_congr rfl fun j _ => ?_
    show _ * solve (innerState D st).hs.H st.score j = _
    rw [show (innerState D st).hs.H = _ from funext fun i => funext fun j => hH i j]
  have hacc := newton_accept D hD hN.P1 wstar lam L delta hR hN.curvature st.coef d h hds
  have hsp := lineSearch_spec D (innerState D st) d
  have hiff := lsOK_iff D hD.P1 (innerState D st) hs.eta hs.obj hs.score d
  have hk : (lineSearch D (innerState D st) d).k = 0 := by
    by_contra hlt
    exact hsp.prev 0 le_rfl (Nat.pos_of_ne_zero hlt) ((hiff 0).2 hacc)
  have hcoef : (irlsStep (lsInner solve) D st).coef = fun k => st.coef k + d k := by
    show (lineSearch D (innerState D st) d).coef = _
    rw [hsp.coef, hk]
    funext k
    rw [pow_zero, one_mul]
    rfl
  have herr := newton_error D hD wstar lam L delta hR hN.curvature st.coef d h hds
  refine ⟨hk, hsp.accept.2 (by rw [hk]; exact (hiff 0).2 hacc), ?_, ?_⟩
  · rw [hcoef]; exact herr
  · rw [hcoef]; exact herr.trans (newton_half D wstar lam L delta hR _ (coefError_nonneg _ _) h)

/-- **C125, the run.** Once a state of a run is in the neighbourhood, `m` further iterations bring the error (times the constant) to the `2^m`-th power. -/
theorem c125_quadratic (solve : (Fin (p + ic.toNat) → Fin (p + ic.toNat) → ℝ) → (Fin (p + ic.toNat) → ℝ) → (Fin (p + ic.toNat) → ℝ)) (D : IRLSData n p ic)
    (hN : NewtonRun solve D) (wstar : Fin (p + ic.toNat) → ℝ) (lam L delta : ℝ) (hR : NewtonRegion D wstar lam L delta)
    (coef0 : Fin (p + ic.toNat) → ℝ) (st : IRLSState n p ic) (hv : Visited (lsInner solve) D coef0 st) (h : coefError st.coef wstar ≤ delta) (K : ℝ) (hK1 : newtonConst D lam L ≤ K) (m : ℕ)
    (hm : ∀ i < m, ((irlsStep (lsInner solve) D)^[i] st).nIter < D.maxIter ∧ ((irlsStep (lsInner solve) D)^[i] st).converged = false) :
    Visited (lsInner solve) D coef0 ((irlsStep (lsInner solve) D)^[m] st) ∧
    K * coefError ((irlsStep (lsInner solve) D)^[m] st).coef wstar ≤ (K * coefError st.coef wstar) ^ 2 ^ m ∧
    coefError ((irlsStep (lsInner solve) D)^[m] st).coef wstar ≤ coefError st.coef wstar / 2 ^ m := by
  have hK : 0 ≤ K := by
    refine le_trans ?_ hK1
    unfold newtonConst
    have hs : 0 ≤ ∑ r, rowSize D r ^ 3 := Finset.sum_nonneg fun r _ => pow_nonneg (rowSize_nonneg D r) 3
    have := hR.L_nonneg
    have := hR.lam_pos
    positivity
  induction m with
  | zero => simp [hv]
  | succ m ih =>
    obtain ⟨i1, i2, i3⟩ := ih fun i hi => hm i (by omega)
    have hin : coefError ((irlsStep (lsInner solve) D)^[m] st).coef wstar ≤ delta := by
      refine i3.trans ((div_le_self (coefError_nonneg _ _) ?_).trans h)
      exact one_le_pow₀ (by norm_num)
    obtain ⟨_, _, s1, s2⟩ := c125_iteration solve D hN wstar lam L delta hR coef0 _ i1 hin
    rw [Function.iterate_succ_apply']
    refine ⟨Visited.step _ i1 (hm m (by omega)).1 (hm m (by omega)).2, ?_, ?_⟩
    · calc _ ≤ K * (K * coefError ((irlsStep (lsInner solve) D)^[m] st).coef wstar ^ 2) :=
              mul_le_mul_of_nonneg_left (s1.trans (mul_le_mul_of_nonneg_right hK1 (sq_nonneg _))) hK
        _ = (K * coefError ((irlsStep (lsInner solve) D)^[m] st).coef wstar) ^ 2 := by ring
        _ ≤ ((K * coefError st.coef wstar) ^ 2 ^ m) ^ 2 := pow_le_pow_left₀ (mul_nonneg hK (coefError_nonneg _ _)) i2 2
        _ = _ := by rw [← pow_mul, ← pow_succ]
    · rw [pow_succ, ← div_div]
      linarith

/-! ### When the run stops -/

/-- A bound for the sum of the absolute scores per unit of coefficient error. -/
noncomputable def Spec.scoreConst (D : IRLSData n p ic) (wstar : Fin (p + ic.toNat) → ℝ) : ℝ :=
  ∑ k : Fin (p + ic.toNat), (∑ r, |design ic D.X r k| * (3 / 2 * hessRow D r (linPred ic D.X (off D) wstar r) * rowSize D r) + ∑ i : Fin (p + ic.toNat), |p2Full ic D.P2 i k|)

theorem score_near (D : IRLSData n p ic) (hD : Convexish D) (wstar : Fin (p + ic.toNat) → ℝ) (lam L delta : ℝ) (hR : NewtonRegion D wstar lam L delta)
    (hc : RowCurvature D (hessRow D)) (w : Fin (p + ic.toNat) → ℝ) (h : coefError w wstar ≤ delta) :
    ∑ k, |scoreAt D w k| ≤ scoreConst D wstar * coefError w wstar := by
  have hrow : ∀ r, |D.fam.grad (D.y r) (D.sw r) (linPred ic D.X (off D) w r) (D.fam.inv (linPred ic D.X (off D) w r))
      - D.fam.grad (D.y r) (D.sw r) (linPred ic D.X (off D) wstar r) (D.fam.inv (linPred ic D.X (off D) wstar r))|
      ≤ 3 / 2 * hessRow D r (linPred ic D.X (off D) wstar r) * (rowSize D r * coefError w wstar) := by
    intro r
    set a := linPred ic D.X (off D) w r with ha
    set b := linPred ic D.X (off D) wstar r with hb
    have hab : |a - b| ≤ rowSize D r * delta := region_eta D wstar w delta h r
    have hbb : |b - b| ≤ rowSize D r * delta := by
      rw [sub_self, abs_zero]; exact mul_nonneg (rowSize_nonneg D r) hR.delta_pos.le
    have hd : ∀ x ∈ Set.uIcc b a, HasDerivWithinAt (fun e => D.fam.grad (D.y r) (D.sw r) e (D.fam.inv e)) (-(hessRow D r x)) (Set.uIcc b a) x :=
      fun x _ => ((hc r x).2).hasDerivWithinAt
    have hbd : ∀ x ∈ Set.uIcc b a, ‖-(hessRow D r x)‖ ≤ 3 / 2 * hessRow D r b := by
      intro x hx
      have h1 : |x - b| ≤ |a - b| := Set.abs_sub_left_of_mem_uIcc hx
      rw [norm_neg, Real.norm_eq_abs, abs_of_nonneg (show 0 ≤ hessRow D r x from hD.rows r x)]
      exact hR.ratio r x b (h1.trans hab) hbb
    have := (convex_uIcc b a).norm_image_sub_le_of_norm_hasDerivWithin_le hd hbd Set.left_mem_uIcc Set.right_mem_uIcc
    rw [Real.norm_eq_abs, Real.norm_eq_abs] at this
    refine this.trans (mul_le_mul_of_nonneg_left ?_ (mul_nonneg (by norm_num) (hD.rows r b)))
    rw [ha, hb, linPred_sub]
    exact row_bound D r _
  unfold scoreConst
  rw [Finset.sum_mul]
  refine Finset.sum_le_sum fun k _ => ?_
  have e : scoreAt D w k = ∑ r, design ic D.X r k * (D.fam.grad (D.y r) (D.sw r) (linPred ic D.X (off D) w r) (D.fam.inv (linPred ic D.X (off D) w r))
      - D.fam.grad (D.y r) (D.sw r) (linPred ic D.X (off D) wstar r) (D.fam.inv (linPred ic D.X (off D) wstar r)))
      - ∑ i, p2Full ic D.P2 i k * (w i - wstar i) := by
    have h0 := hR.stationary k
    rw [← sub_zero (scoreAt D w k), ← h0]
    unfold scoreAt
    simp only [mul_sub, Finset.sum_sub_distrib]
    ring
  rw [e]
  refine (abs_sub _ _).trans ?_
  rw [add_mul, Finset.sum_mul, Finset.sum_mul]
  refine add_le_add ((Finset.abs_sum_le_sum_abs _ _).trans (Finset.sum_le_sum fun r _ => ?_)) ((Finset.abs_sum_le_sum_abs _ _).trans (Finset.sum_le_sum fun i _ => ?_))
  · rw [abs_mul, mul_assoc]
    refine mul_le_mul_of_nonneg_left ((hrow r).trans (le_of_eq (by ring))) (abs_nonneg _)
  · rw [abs_mul]
    exact mul_le_mul_of_nonneg_left (norm_le_pi_norm (fun k => w k - wstar k) i) (abs_nonneg _)

theorem iterate_nIter (inner : Inner n p ic) (D : IRLSData n p ic) (st : IRLSState n p ic) (m : ℕ) : ((irlsStep inner D)^[m] st).nIter = st.nIter + m := by
  induction m with
  | zero => rfl
  | succ m ih =>
    rw [Function.iterate_succ_apply']
    show ((irlsStep inner D)^[m] st).nIter + 1 = _
    omega

/-- **C125, the number of iterations.** Once in the neighbourhood, the run converges within `m` iterations as soon as the doubly exponentially small number
`(K * error)^(2^m)` is below `K * gradient_tol / scoreConst` (and `max_iter` allows `m` more iterations). -/
theorem c125_stops (solve : (Fin (p + ic.toNat) → Fin (p + ic.toNat) → ℝ) → (Fin (p + ic.toNat) → ℝ) → (Fin (p + ic.toNat) → ℝ)) (D : IRLSData n p ic)
    (hN : NewtonRun solve D) (hlb : D.lb = none) (hub : D.ub = none) (wstar : Fin (p + ic.toNat) → ℝ) (lam L delta : ℝ) (hR : NewtonRegion D wstar lam L delta)
    (coef0 : Fin (p + ic.toNat) → ℝ) (st : IRLSState n p ic) (hv : Visited (lsInner solve) D coef0 st) (h : coefError st.coef wstar ≤ delta)
    (K : ℝ) (hK1 : newtonConst D lam L ≤ K) (hK0 : 0 < K) (m : ℕ) (hmax : st.nIter + m ≤ D.maxIter)
    (hm : scoreConst D wstar * (K * coefError st.coef wstar) ^ 2 ^ m < K * D.gradTol) :
    ∃ j ≤ m, ((irlsStep (lsInner solve) D)^[j] st).converged = true := by
  by_contra hno
  push Not at hno
  have hno : ∀ j ≤ m, ((irlsStep (lsInner solve) D)^[j] st).converged = false := fun j hj => by simpa using hno j hj
  obtain ⟨h1, h2, h3⟩ := c125_quadratic solve D hN wstar lam L delta hR coef0 st hv h K hK1 m
    (fun i hi => ⟨by rw [iterate_nIter]; omega, hno i hi.le⟩)
  set s := (irlsStep (lsInner solve) D)^[m] st with hs
  have hin : coefError s.coef wstar ≤ delta :=
    h3.trans ((div_le_self (coefError_nonneg _ _) (one_le_pow₀ (by norm_num))).trans h)
  have hsc := score_near D hN.convex wstar lam L delta hR hN.curvature s.coef hin
  have hG : 0 ≤ scoreConst D wstar := by
    unfold scoreConst
    refine Finset.sum_nonneg fun k _ => add_nonneg (Finset.sum_nonneg fun r _ => ?_) (Finset.sum_nonneg fun i _ => abs_nonneg _)
    have h1 := hN.convex.rows r (linPred ic D.X (off D) wstar r)
    have h2 := rowSize_nonneg D r
    change 0 ≤ hessRow D r _ at h1
    positivity
  have hlt : s.norm < D.gradTol := by
    rw [smooth_norm _ D hN.P1 hlb hub coef0 s h1]
    simp only [(visited_sync _ D hN.convex.P1 coef0 s h1).score]
    refine lt_of_mul_lt_mul_left ?_ hK0.le
    calc K * ∑ k, |scoreAt D s.coef k| ≤ K * (scoreConst D wstar * coefError s.coef wstar) := mul_le_mul_of_nonneg_left hsc hK0.le
      _ = scoreConst D wstar * (K * coefError s.coef wstar) := by ring
      _ ≤ scoreConst D wstar * (K * coefError st.coef wstar) ^ 2 ^ m := mul_le_mul_of_nonneg_left h2 hG
      _ < _ := hm
  have hchk := visited_checked (lsInner solve) D coef0 s h1
  rw [Prod.ext_iff, Prod.ext_iff] at hchk
  have e1 : s.converged = (checkConvergence D s.coef s.step s.score).1 := hchk.1
  have e2 : s.norm = (checkConvergence D s.coef s.step s.score).2.1 := hchk.2.1
  have := hno m le_rfl
  rw [← hs, e1] at this
  rw [e2] at hlt
  unfold checkConvergence at this hlt
  simp only at this hlt
  rw [decide_eq_true hlt] at this
  simp at this

/-! ### Built-in families -/

theorem strong_exists {m : ℕ} (Q : Fin m → Fin m → ℝ) (hpos : ∀ v : Fin m → ℝ, 0 ≤ ∑ i, ∑ j, Q i j * v i * v j)
    (hzero : ∀ v : Fin m → ℝ, ∑ i, ∑ j, Q i j * v i * v j = 0 → v = 0) : ∃ lam, 0 < lam ∧ StronglyConvex lam Q := by
  set q : (Fin m → ℝ) → ℝ := fun v => ∑ i, ∑ j, Q i j * v i * v j with hq
  have hcont : Continuous q := by
    refine continuous_finset_sum _ fun i _ => continuous_finset_sum _ fun j _ => ?_
    fun_prop
  rcases (Metric.sphere (0 : Fin m → ℝ) 1).eq_empty_or_nonempty with hem | hne
  · refine ⟨1, one_pos, fun d => ?_⟩
    have hd : d = 0 := by
      by_contra hd
      have : (‖d‖⁻¹ • d) ∈ Metric.sphere (0 : Fin m → ℝ) 1 := by
        rw [mem_sphere_zero_iff_norm, norm_smul, norm_inv, norm_norm, inv_mul_cancel₀ (norm_ne_zero_iff.2 hd)]
      rw [hem] at this
      exact this
    rw [hd]; simp
  · obtain ⟨x, hx, hmin⟩ := (isCompact_sphere (0 : Fin m → ℝ) 1).exists_isMinOn hne hcont.continuousOn
    have hx1 : ‖x‖ = 1 := mem_sphere_zero_iff_norm.1 hx
    have hmu : 0 < q x := by
      refine lt_of_le_of_ne (hpos x) fun h0 => ?_
      have := hzero x h0.symm
      rw [this] at hx1
      simp at hx1
    refine ⟨q x / (m + 1), by positivity, fun d => ?_⟩
    by_cases hd : d = 0
    · rw [hd]; simp
    have hn : 0 < ‖d‖ := norm_pos_iff.2 hd
    have h1 : q x ≤ q (‖d‖⁻¹ • d) := hmin (by
      rw [mem_sphere_zero_iff_norm, norm_smul, norm_inv, norm_norm, inv_mul_cancel₀ hn.ne'])
    have h2 : q (‖d‖⁻¹ • d) * ‖d‖ ^ 2 = q d := by
      simp only [hq, Finset.sum_mul, Pi.smul_apply, smul_eq_mul]
      refine Finset.sum_congr rfl fun i _ => Finset.sum_congr rfl fun j _ => ?_
      field_simp
    have h3 : ∑ s, d s ^ 2 ≤ m * ‖d‖ ^ 2 := by
      calc ∑ s, d s ^ 2 ≤ ∑ _s : Fin m, ‖d‖ ^ 2 := Finset.sum_le_sum fun s _ => by
            rw [← sq_abs]; exact pow_le_pow_left₀ (abs_nonneg _) (norm_le_pi_norm d s) 2
        _ = _ := by simp
    have h4 := mul_le_mul_of_nonneg_right h1 (sq_nonneg ‖d‖)
    rw [h2] at h4
    rw [div_mul_eq_mul_div, div_le_iff₀ (by positivity)]
    have h5 := mul_le_mul_of_nonneg_left h3 hmu.le
    have h6 := mul_le_mul_of_nonneg_right h4 (show (0 : ℝ) ≤ m by positivity)
    have h7 := hpos d
    change 0 ≤ q d at h7
    change q x * _ ≤ q d * _
    linarith

theorem fast_hess_contDiff {f : Family} {l : Link} {k : Fast} (h : f.fast l = some k) (hf : Valid f) (y w : ℝ) : ContDiff ℝ 1 fun eta => k.hess y w (k.mu eta) := by
  rcases fast_cases h with ⟨rfl, rfl, _⟩ | ⟨rfl, rfl, _⟩ | ⟨rfl, rfl, _⟩ | ⟨rfl, rfl, _⟩ |
    ⟨p, rfl, rfl, rfl, h1, h2⟩ | ⟨rfl, rfl, rfl⟩ | ⟨t, rfl, rfl, rfl⟩
  · exact contDiff_const
  · exact contDiff_const.mul Real.contDiff_exp
  · exact contDiff_const.mul (contDiff_const.div Real.contDiff_exp fun e => (Real.exp_pos e).ne')
  · exact contDiff_const.mul (contDiff_const.div Real.contDiff_exp fun e => (Real.exp_pos e).ne')
  · have : ContDiff ℝ 1 fun eta => Real.exp eta ^ (1 - p) := Real.contDiff_exp.rpow_const_of_ne fun e => (Real.exp_pos e).ne'
    exact (contDiff_const.mul this).mul (Real.contDiff_exp.sub (contDiff_const.mul (contDiff_const.sub Real.contDiff_exp)))
  · have e : Fast.mu .binomialLogit = expit := funext fast_mu_logit
    have hc : ContDiff ℝ 1 expit := by
      have : expit = fun x => 1 / (1 + Real.exp (-x)) := by funext x; rfl
      rw [this]
      exact contDiff_const.div (contDiff_const.add (Real.contDiff_exp.comp contDiff_neg)) fun x => by positivity
    rw [e]
    exact (contDiff_const.mul hc).mul (contDiff_const.sub hc)
  · have ht : 0 < t := hf
    exact (contDiff_const.mul Real.contDiff_exp).div (contDiff_const.add (contDiff_const.mul Real.contDiff_exp)) fun e => by
      have := Real.exp_pos e; positivity

theorem row_region (h inv : ℝ → ℝ) (hh : ContDiff ℝ 1 h) (hi : Continuous inv) (a large : ℝ) (hpos : 0 < h a) (hl : inv a < large) :
    ∃ rho > 0, ∃ L ≥ 0, (∀ x z, |x - a| ≤ rho → |z - a| ≤ rho → |h x - h z| ≤ L * |x - z|) ∧ (∀ x z, |x - a| ≤ rho → |z - a| ≤ rho → h x ≤ 3 / 2 * h z) ∧
      ∀ x, |x - a| ≤ rho → inv x < large := by
  obtain ⟨L, t, ht, hL⟩ := (hh.contDiffAt (x := a)).exists_lipschitzOnWith
  have hc := hh.continuous
  have e1 : ∀ᶠ x in nhds a, h x < 6 / 5 * h a := hc.continuousAt.eventually_lt continuousAt_const (by linarith)
  have e2 : ∀ᶠ x in nhds a, 4 / 5 * h a < h x := continuousAt_const.eventually_lt hc.continuousAt (by linarith)
  have e3 : ∀ᶠ x in nhds a, inv x < large := hi.continuousAt.eventually_lt continuousAt_const hl
  obtain ⟨eps, heps, hball⟩ := Metric.eventually_nhds_iff.1 (((e1.and e2).and e3).and ht)
  have key : ∀ x, |x - a| ≤ eps / 2 → ((h x < 6 / 5 * h a ∧ 4 / 5 * h a < h x) ∧ inv x < large) ∧ x ∈ t := fun x hx =>
    hball (by rw [Real.dist_eq]; linarith)
  refine ⟨eps / 2, by linarith, L, L.2, fun x z hx hz => ?_, fun x z hx hz => ?_, fun x hx => (key x hx).1.2⟩
  · have := hL.dist_le_mul x (key x hx).2 z (key z hz).2
    rwa [Real.dist_eq, Real.dist_eq] at this
  · have := (key x hx).1.1.1
    have := (key z hz).1.1.2
    linarith

/-- At a stationary point with smooth positive Hessian rows and means below the overflow threshold there is such a neighbourhood. -/
theorem region_exists (D : IRLSData n p ic) (hD : Convexish D) (wstar : Fin (p + ic.toNat) → ℝ) (hs : ∀ k, scoreAt D wstar k = 0)
    (hsm : ∀ r, ContDiff ℝ 1 (hessRow D r)) (hi : Continuous D.fam.inv) (hpos : ∀ r, 0 < hessRow D r (linPred ic D.X (off D) wstar r)) (hid : Identified D)
    (hl : ∀ r, D.fam.inv (linPred ic D.X (off D) wstar r) < D.large) :
    ∃ lam L delta, NewtonRegion D wstar lam L delta := by
  obtain ⟨lam, hlam, hstrong⟩ := strong_exists (fullHessian (p := p) ic D.X (fun r => hessRow D r (linPred ic D.X (off D) wstar r)) D.P2)
    (fun v => by
      rw [fullHessian_form]
      exact add_nonneg (Finset.sum_nonneg fun r _ => mul_nonneg (hpos r).le (sq_nonneg _)) (hD.psd v))
    (fun v hv => by
      rw [fullHessian_form] at hv
      have h1 : 0 ≤ ∑ r, hessRow D r (linPred ic D.X (off D) wstar r) * (∑ i, design ic D.X r i * v i) ^ 2 :=
        Finset.sum_nonneg fun r _ => mul_nonneg (hpos r).le (sq_nonneg _)
      have h2 := hD.psd v
      have h3 : ∑ r, hessRow D r (linPred ic D.X (off D) wstar r) * (∑ i, design ic D.X r i * v i) ^ 2 = 0 := by linarith
      rw [Finset.sum_eq_zero_iff_of_nonneg fun r _ => mul_nonneg (hpos r).le (sq_nonneg _)] at h3
      funext j
      refine hid v (fun r => ?_) (by linarith) j
      have := h3 r (Finset.mem_univ r)
      rcases mul_eq_zero.1 this with h | h
      · exact absurd h (hpos r).ne'
      · simpa using h)
  have hrows := fun r => row_region (hessRow D r) D.fam.inv (hsm r) hi (linPred ic D.X (off D) wstar r) D.large (hpos r) (hl r)
  choose rho hrho L hL hlip hratio hlarge using hrows
  set A := ∑ r, L r with hA
  have hA0 : 0 ≤ A := Finset.sum_nonneg fun r _ => hL r
  set S := ∑ r, rowSize D r ^ 3 with hS
  have hS0 : 0 ≤ S := Finset.sum_nonneg fun r _ => pow_nonneg (rowSize_nonneg D r) 3
  set T := ∑ r, (rowSize D r + 1) / rho r with hT
  have hT0 : ∀ r, (rowSize D r + 1) / rho r ≤ T := fun r =>
    Finset.single_le_sum (f := fun r => (rowSize D r + 1) / rho r)
      (fun r _ => div_nonneg (by linarith [rowSize_nonneg D r]) (hrho r).le) (Finset.mem_univ r)
  have hTn : 0 ≤ T := Finset.sum_nonneg fun r _ => div_nonneg (by linarith [rowSize_nonneg D r]) (hrho r).le
  set delta := 1 / (1 + T + 3 * (A * S) / lam) with hdelta
  have hden : 0 < 1 + T + 3 * (A * S) / lam := by positivity
  have hd0 : 0 < delta := by positivity
  have hnear : ∀ r, rowSize D r * delta ≤ rho r := by
    intro r
    have h1 := hT0 r
    rw [div_le_iff₀ (hrho r)] at h1
    rw [hdelta, mul_one_div, div_le_iff₀ hden]
    have h2 : 0 ≤ rho r * (1 + 3 * (A * S) / lam) := mul_nonneg (hrho r).le (by positivity)
    nlinarith
  refine ⟨lam, A, delta, hs, hlam, hA0, hd0, hstrong, fun r x z hx hz => ?_, fun r x z hx hz => hratio r x z (hx.trans (hnear r)) (hz.trans (hnear r)),
    fun r x hx => hlarge r x (hx.trans (hnear r)), ?_⟩
  · refine (hlip r x z (hx.trans (hnear r)) (hz.trans (hnear r))).trans (mul_le_mul_of_nonneg_right ?_ (abs_nonneg _))
    exact Finset.single_le_sum (f := L) (fun r _ => hL r) (Finset.mem_univ r)
  · rw [hdelta, mul_one_div, div_le_iff₀ hden]
    have : lam * (1 + T + 3 * (A * S) / lam) = lam + lam * T + 3 * (A * S) := by field_simp
    rw [this]
    have := mul_nonneg hlam.le hTn
    linarith

theorem fast_mu_continuous (k : Fast) : Continuous k.mu := by
  by_cases hk : k = .binomialLogit
  · subst hk
    have e : Fast.mu .binomialLogit = expit := funext fast_mu_logit
    rw [e]
    exact continuous_iff_continuousAt.2 fun x => (expit_hasDeriv x).continuousAt
  · cases k with
    | binomialLogit => exact absurd rfl hk
    | normalIdentity => exact continuous_id
    | _ => exact Real.continuous_exp

/-- **C125, built-in families.** For normal (identity), Poisson, gamma, Tweedie (log) and binomial (logit) with positive weights, any offset, an L2 penalty (possibly
zero) that is symmetric and positive semidefinite, an identified model, no L1 penalty and `hessian_approx = 0`: every solution whose means are below the overflow
threshold has a neighbourhood in which each iteration of `irls-ls` takes the full step without warning, squares the error up to a constant and at least halves
it; and a run that has entered it converges within `m` iterations once `C (K error)^(2^m) < gradient_tol`. -/
theorem c125_builtin (solve : (Fin (p + ic.toNat) → Fin (p + ic.toNat) → ℝ) → (Fin (p + ic.toNat) → ℝ) → (Fin (p + ic.toNat) → ℝ))
    (hsolve : ∀ (H : Fin (p + ic.toNat) → Fin (p + ic.toNat) → ℝ) s, (∀ v : Fin (p + ic.toNat) → ℝ, (∀ i, ∑ j, H i j * v j = 0) → ∀ j, v j = 0) →
      ∀ k, ∑ j, H k j * solve H s j = s k)
    (D : IRLSData n p ic) (f : Family) (l : Link) (k : Fast) (hF : FastFit D f l k) (ht : k.trueHessian) (hP : ∀ k, D.P1 k = 0) (hlb : D.lb = none) (hub : D.ub = none)
    (hsym : ∀ i j, p2Full (p := p) ic D.P2 i j = p2Full ic D.P2 j i) (hpsd : PosSemidef (p2Full (p := p) ic D.P2)) (he : 0 ≤ D.eps) (hC : D.hessApprox = 0)
    (hsw : ∀ r, 0 < D.sw r) (hid : Identified D)
    (wstar : Fin (p + ic.toNat) → ℝ) (hs : ∀ v, objective D wstar ≤ objective D v) (hl : ∀ r, D.fam.inv (linPred ic D.X (off D) wstar r) < D.large) :
    ∃ delta > 0, ∃ K > 0, ∃ C ≥ 0, K * delta ≤ 1 / 2 ∧ ∀ coef0 st, Visited (lsInner solve) D coef0 st → coefError st.coef wstar ≤ delta →
      (lineSearch D (innerState D st) (lsInner solve D (innerState D st)).1).k = 0 ∧
      (lineSearch D (innerState D st) (lsInner solve D (innerState D st)).1).warned = false ∧
      coefError (irlsStep (lsInner solve) D st).coef wstar ≤ K * coefError st.coef wstar ^ 2 ∧
      coefError (irlsStep (lsInner solve) D st).coef wstar ≤ coefError st.coef wstar / 2 ∧
      ∀ m, st.nIter + m ≤ D.maxIter → C * (K * coefError st.coef wstar) ^ 2 ^ m < D.gradTol →
        ∃ j ≤ m, ((irlsStep (lsInner solve) D)^[j] st).converged = true := by
  have hD : Convexish D := ⟨fun k => (hP k).ge, hsym, hpsd, hF.rows, he, fun l u hl => by rw [hlb] at hl; exact absurd hl (by simp)⟩
  have hrow : hessRow D = fun r eta => trueCurvature k (D.y r) (D.sw r) (k.mu eta) := by
    funext r eta
    unfold hessRow
    rw [hF.fam]
    cases k <;> simp_all [Fast.trueHessian, trueCurvature, fastRow]
  have hc : RowCurvature D (hessRow D) := by rw [hrow]; exact fast_rowCurvature D f l k hF
  have hN : NewtonRun solve D := ⟨hD, hP, hC, hc, hsolve⟩
  have hrow2 : ∀ r, hessRow D r = fun eta => k.hess (D.y r) (D.sw r) (k.mu eta) := by
    intro r
    funext eta
    unfold hessRow
    rw [hF.fam]
    rfl
  have hst : ∀ j, scoreAt D wstar j = 0 := by
    intro j
    obtain ⟨φ', d1, _, d0⟩ := smooth_line D hsym (hessRow D) hc wstar (fun i => if i = j then 1 else 0)
    have hmin : IsLocalMin (fun t => smoothObj D (fun i => wstar i + t * if i = j then 1 else 0)) 0 := by
      refine Filter.Eventually.of_forall fun t => ?_
      have := hs fun i => wstar i + t * if i = j then 1 else 0
      rw [objective_smooth D hP, objective_smooth D hP] at this
      simpa using this
    have h0 := hmin.hasDerivAt_eq_zero (d1 0)
    rw [h0] at d0
    simp at d0
    exact d0
  obtain ⟨lam, L, delta, hR⟩ := region_exists D hD wstar hst (fun r => by rw [hrow2]; exact fast_hess_contDiff hF.fast hF.valid _ _)
    (by rw [hF.fam]; exact fast_mu_continuous k) (fun r => by rw [hrow2]; exact fast_hess_pos hF.fast hF.valid _ _ _ (hsw r) (hF.y r)) hid hl
  have hKd : newtonConst D lam L * delta ≤ 1 / 2 := by
    have := newton_half D wstar lam L delta hR delta hR.delta_pos.le le_rfl
    have h2 := hR.delta_pos
    rw [sq, ← mul_assoc, div_eq_mul_one_div, mul_comm delta] at this
    exact le_of_mul_le_mul_right this h2
  set K := max (newtonConst D lam L) (1 / (2 * delta)) with hK
  have hK0 : 0 < K := lt_of_lt_of_le (by have := hR.delta_pos; positivity) (le_max_right _ _)
  refine ⟨delta, hR.delta_pos, K, hK0, scoreConst D wstar / K, ?_, ?_, fun coef0 st hv h => ?_⟩
  · refine div_nonneg ?_ hK0.le
    unfold scoreConst
    refine Finset.sum_nonneg fun k _ => add_nonneg (Finset.sum_nonneg fun r _ => ?_) (Finset.sum_nonneg fun i _ => abs_nonneg _)
    have h1 := hD.rows r (linPred ic D.X (off D) wstar r)
    have h2 := rowSize_nonneg D r
    change 0 ≤ hessRow D r _ at h1
    positivity
  · rw [hK, max_mul_of_nonneg _ _ hR.delta_pos.le]
    refine max_le hKd ?_
    have := hR.delta_pos
    rw [div_mul_eq_mul_div, div_le_iff₀ (by linarith)]
    linarith
  · obtain ⟨a1, a2, a3, a4⟩ := c125_iteration solve D hN wstar lam L delta hR coef0 st hv h
    refine ⟨a1, a2, a3.trans (mul_le_mul_of_nonneg_right (le_max_left _ _) (sq_nonneg _)), a4, fun m hm hlt => ?_⟩
    refine c125_stops solve D hN hlb hub wstar lam L delta hR coef0 st hv h K (le_max_left _ _) hK0 m hm ?_
    rw [div_mul_eq_mul_div, div_lt_iff₀ hK0] at hlt
    linarith

/-- A Poisson regression with an intercept and one feature. -/
noncomputable def newtonEx : IRLSData 2 1 true :=
  { irlsEx with fam := fastRow .poisson .log .poissonLog, y := fun _ => 1, P1 := fun _ => 0, lb := none, ub := none, gradTol := 1 / 1000, hessApprox := 0, large := 10 ^ 10 }

/-- The hypotheses hold of the example: its solution is the zero vector, and there is a neighbourhood as claimed. -/
example : ∃ delta > 0, ∃ K > 0, ∃ C ≥ 0, K * delta ≤ 1 / 2 ∧ ∀ coef0 st, Visited (lsInner invSolve) newtonEx coef0 st → coefError st.coef (fun _ => 0) ≤ delta →
      (lineSearch newtonEx (innerState newtonEx st) (lsInner invSolve newtonEx (innerState newtonEx st)).1).k = 0 ∧
      (lineSearch newtonEx (innerState newtonEx st) (lsInner invSolve newtonEx (innerState newtonEx st)).1).warned = false ∧
      coefError (irlsStep (lsInner invSolve) newtonEx st).coef (fun _ => 0) ≤ K * coefError st.coef (fun _ => 0) ^ 2 ∧
      coefError (irlsStep (lsInner invSolve) newtonEx st).coef (fun _ => 0) ≤ coefError st.coef (fun _ => 0) / 2 ∧
      ∀ m, st.nIter + m ≤ newtonEx.maxIter → C * (K * coefError st.coef (fun _ => 0)) ^ 2 ^ m < newtonEx.gradTol →
        ∃ j ≤ m, ((irlsStep (lsInner invSolve) newtonEx)^[j] st).converged = true := by
  have hridge : ∀ w : Fin (1 + true.toNat) → ℝ, ∑ i, ∑ j, p2Full (p := 1) true newtonEx.P2 i j * w i * w j = 1 / 5 * w 1 ^ 2 := outEx_ridge
  have hlin : ∀ w : Fin (1 + true.toNat) → ℝ, linPred true newtonEx.X (off newtonEx) w 0 = w 0 + w 1 ∧ linPred true newtonEx.X (off newtonEx) w 1 = w 0 + 3 * w 1 := outEx_lin
  refine c125_builtin invSolve invSolve_spec newtonEx .poisson .log .poissonLog ⟨trivial, rfl, rfl, fun _ => ?_, fun r => ?_⟩ trivial (fun _ => rfl) rfl rfl ?_ ?_ ?_ rfl
    ?_ outEx_identified _ ?_ ?_
  · show (0 : ℝ) ≤ 1; norm_num
  · exact (outEx_sw r).le
  · intro i j
    change Fin 2 at i j
    fin_cases i <;> fin_cases j <;> simp [p2Full, p2Matrix, newtonEx, irlsEx]
  · intro v
    have := hridge v
    rw [this]; positivity
  · norm_num [newtonEx, irlsEx]
  · exact outEx_sw
  · intro v
    rw [objective_smooth newtonEx fun _ => rfl, objective_smooth newtonEx fun _ => rfl]
    unfold smoothObj ridge
    rw [hridge, hridge]
    simp only [Fin.sum_univ_two]
    rw [(hlin v).1, (hlin v).2, (hlin _).1, (hlin _).2]
    simp [newtonEx, irlsEx, fastRow, Fast.dev]
    have h1 := Real.add_one_le_exp (v 0 + v 1)
    have h2 := Real.add_one_le_exp (v 0 + 3 * v 1)
    nlinarith [sq_nonneg (v 1)]
  · intro r
    have e : linPred (p := 1) true newtonEx.X (off newtonEx) (fun _ => (0 : ℝ)) r = 0 := by
      fin_cases r
      · exact (hlin _).1.trans (by norm_num)
      · exact (hlin _).2.trans (by norm_num)
    rw [e]
    show Real.exp 0 < 10 ^ 10
    norm_num

end Glum
