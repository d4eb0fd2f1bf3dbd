import Verif.Props.OuterLive
import Verif.Props.Builtin
import Mathlib.Analysis.Calculus.Deriv.MeanValue
import Mathlib.Topology.Order.IntermediateValue
/-
C85, second part: the line search does not warn.
-/
set_option linter.unusedSectionVars false
set_option linter.unusedVariables false
set_option linter.unusedSimpArgs false

namespace Glum
open Spec

variable {n p : ℕ} {ic : Bool}

/-- First-exit argument: if the second derivative is at most `beta` wherever the function is not above its start, the usual quadratic bound holds up to `T`. -/
theorem level_descent (φ φ' φ'' : ℝ → ℝ) (h1 : ∀ t, HasDerivAt φ (φ' t) t) (h2 : ∀ t, HasDerivAt φ' (φ'' t) t) (E beta T : ℝ)
    (h0 : φ' 0 = -E) (hE : 0 < E) (hT : 0 ≤ T) (hb : beta * T / 2 < E) (hcur : ∀ t ∈ Set.Icc 0 T, φ t ≤ φ 0 → φ'' t ≤ beta) :
    ∀ t ∈ Set.Icc 0 T, φ t ≤ φ 0 - t * E + 1 / 2 * beta * t ^ 2 := by
  have c1 : Continuous φ := continuous_iff_continuousAt.2 fun t => (h1 t).continuousAt
  have c2 : Continuous φ' := continuous_iff_continuousAt.2 fun t => (h2 t).continuousAt
  set S : Set ℝ := {t | φ t ≤ φ 0 - t * E + 1 / 2 * beta * t ^ 2} ∩ {t | φ' t ≤ -E + beta * t} with hS
  have hclosed : IsClosed S := by
    refine IsClosed.inter (isClosed_le c1 (by fun_prop)) (isClosed_le c2 (by fun_prop))
  have key : Set.Icc 0 T ⊆ S := by
    refine IsClosed.Icc_subset_of_forall_mem_nhdsWithin (hclosed.inter isClosed_Icc) ⟨by simp, by simp [h0]⟩ ?_
    rintro x ⟨⟨hx1, hx2⟩, hx0, hxT⟩
    have hx1 : φ x ≤ φ 0 - x * E + 1 / 2 * beta * x ^ 2 := hx1
    have hx2 : φ' x ≤ -E + beta * x := hx2
    have hneg : ∀ᶠ t in nhdsWithin x (Set.Ioi x), φ t ≤ φ 0 := by
      rcases hx0.eq_or_lt with rfl | hpos
      · have : ∀ᶠ t in nhds (0 : ℝ), φ' t < 0 := c2.continuousAt.eventually_lt continuousAt_const (by rw [h0]; linarith)
        obtain ⟨δ, hδ, hball⟩ := Metric.eventually_nhds_iff.1 this
        filter_upwards [Ioo_mem_nhdsGT hδ] with t ht
        have ha : AntitoneOn φ (Set.Icc 0 t) := by
          refine antitoneOn_of_deriv_nonpos (convex_Icc 0 t) c1.continuousOn (fun s _ => (h1 s).differentiableAt.differentiableWithinAt) ?_
          intro s hs
          rw [interior_Icc] at hs
          rw [(h1 s).deriv]
          exact (hball (by rw [Real.dist_eq, sub_zero, abs_lt]; constructor <;> linarith [hs.1, hs.2, ht.2])).le
        exact ha (Set.left_mem_Icc.2 ht.1.le) (Set.right_mem_Icc.2 ht.1.le) ht.1.le
      · have : φ x < φ 0 := by
          have hlt : 1 / 2 * beta * x < E := by
            rcases le_or_gt beta 0 with hb0 | hb0
            · nlinarith
            · nlinarith
          nlinarith
        exact ((c1.continuousAt.eventually_lt continuousAt_const this).mono fun _ h => h.le).filter_mono nhdsWithin_le_nhds
    obtain ⟨u, hu, hall⟩ := mem_nhdsGT_iff_exists_Ioo_subset.1 hneg
    have hu : x < u := hu
    have hxx : φ x ≤ φ 0 := by
      rcases hx0.eq_or_lt with rfl | hpos
      · exact le_rfl
      · have hlt : 1 / 2 * beta * x < E := by
          rcases le_or_gt beta 0 with hb0 | hb0
          · nlinarith
          · nlinarith
        nlinarith
    filter_upwards [Ioo_mem_nhdsGT (lt_min hu hxT)] with t ht
    have htu : t < u := ht.2.trans_le (min_le_left _ _)
    have htT : t < T := ht.2.trans_le (min_le_right _ _)
    have hd2 : ∀ s ∈ Set.Ioo x t, φ'' s ≤ beta := fun s hs =>
      hcur s ⟨by linarith [hs.1], by linarith [hs.2]⟩ (hall ⟨hs.1, by linarith [hs.2]⟩)
    have a1 : ∀ s ∈ Set.Icc x t, φ' s ≤ -E + beta * s := by
      intro s hs
      have ha : AntitoneOn (fun s => φ' s - beta * s) (Set.Icc x t) := by
        refine antitoneOn_of_deriv_nonpos (convex_Icc x t) (by fun_prop)
          (fun s _ => ((h2 s).sub ((hasDerivAt_id s).const_mul beta)).differentiableAt.differentiableWithinAt) ?_
        intro s hs
        rw [interior_Icc] at hs
        have hd : HasDerivAt (fun s => φ' s - beta * s) (φ'' s - beta * 1) s := (h2 s).sub ((hasDerivAt_id s).const_mul beta)
        rw [hd.deriv]
        have := hd2 s hs
        linarith
      have := ha (Set.left_mem_Icc.2 ht.1.le) hs hs.1
      simp only at this
      linarith
    refine ⟨?_, a1 t (Set.right_mem_Icc.2 ht.1.le)⟩
    have ha : AntitoneOn (fun s => φ s - (-E * s + 1 / 2 * beta * s ^ 2)) (Set.Icc x t) := by
      have hd : ∀ s, HasDerivAt (fun s => φ s - (-E * s + 1 / 2 * beta * s ^ 2)) (φ' s - (-E + beta * s)) s := by
        intro s
        have e1 : HasDerivAt (fun s : ℝ => -E * s + 1 / 2 * beta * s ^ 2) (-E * 1 + 1 / 2 * beta * (2 * s)) s := by
          have := ((hasDerivAt_id s).const_mul (-E)).fun_add ((hasDerivAt_pow 2 s).const_mul (1 / 2 * beta))
          simpa using this
        refine ((h1 s).sub e1).congr_deriv ?_
        ring
      refine antitoneOn_of_deriv_nonpos (convex_Icc x t) (by fun_prop) (fun s _ => (hd s).differentiableAt.differentiableWithinAt) ?_
      intro s hs
      rw [interior_Icc] at hs
      rw [(hd s).deriv]
      have := a1 s ⟨hs.1.le, hs.2.le⟩
      linarith
    have := ha (Set.left_mem_Icc.2 ht.1.le) (Set.right_mem_Icc.2 ht.1.le) ht.1.le
    simp only at this
    show φ t ≤ _
    linarith
  exact fun t ht => (key ht).1

/-- `c r eta` is the second derivative of row `r`'s half deviance: minus the derivative of the gradient row. -/
def Spec.RowCurvature (D : IRLSData n p ic) (c : Fin n → ℝ → ℝ) : Prop :=
  ∀ r eta, HasDerivAt (fun e => 1 / 2 * (D.sw r * D.fam.dev (D.y r) e)) (-(D.fam.grad (D.y r) (D.sw r) eta (D.fam.inv eta))) eta ∧
    HasDerivAt (fun e => D.fam.grad (D.y r) (D.sw r) e (D.fam.inv e)) (-(c r eta)) eta

theorem linPred_line (X : Fin n → ℕ → ℝ) (o : Fin n → ℝ) (w d : Fin (p + ic.toNat) → ℝ) (r : Fin n) (t : ℝ) :
    linPred ic X o (fun k => w k + t * d k) r = linPred ic X o w r + t * ∑ k, design ic X r k * d k := by
  rw [linPred_add]; simp [linPred]

theorem ridge_line (D : IRLSData n p ic) (hsym : ∀ i j, p2Full (p := p) ic D.P2 i j = p2Full ic D.P2 j i) (w d : Fin (p + ic.toNat) → ℝ) (t : ℝ) :
    ridge D (fun k => w k + t * d k) = ridge D w + t * (∑ k, (∑ i, p2Full ic D.P2 i k * w i) * d k)
      + 1 / 2 * t ^ 2 * ∑ i, ∑ j, p2Full ic D.P2 i j * d i * d j := by
  unfold ridge
  have e : ∀ i j, p2Full (p := p) ic D.P2 i j * (w i + t * d i) * (w j + t * d j)
      = p2Full ic D.P2 i j * w i * w j + t * (p2Full ic D.P2 i j * w i * d j) + t * (p2Full ic D.P2 i j * d i * w j)
        + t ^ 2 * (p2Full ic D.P2 i j * d i * d j) := by intro i j; ring
  have e1 : ∑ i, ∑ j, p2Full (p := p) ic D.P2 i j * w i * d j = ∑ k, (∑ i, p2Full ic D.P2 i k * w i) * d k := by
    rw [Finset.sum_comm]
    exact Finset.sum_congr rfl fun j _ => by rw [Finset.sum_mul]
  have e2 : ∑ i, ∑ j, p2Full (p := p) ic D.P2 i j * d i * w j = ∑ k, (∑ i, p2Full ic D.P2 i k * w i) * d k := by
    refine Finset.sum_congr rfl fun i _ => ?_
    rw [Finset.sum_mul]
    exact Finset.sum_congr rfl fun j _ => by rw [hsym i j]; ring
  simp only [e, Finset.sum_add_distrib, ← Finset.mul_sum, e1, e2]
  ring

/-- The quadratic bound along a line, as long as the curvature is bounded on the level set. -/
theorem line_bound (D : IRLSData n p ic) (hsym : ∀ i j, p2Full (p := p) ic D.P2 i j = p2Full ic D.P2 j i) (c : Fin n → ℝ → ℝ) (hc : RowCurvature D c)
    (w d : Fin (p + ic.toNat) → ℝ) (B : Fin n → ℝ)
    (hB : ∀ v, smoothObj D v ≤ smoothObj D w → ∀ r, c r (linPred ic D.X (off D) v r) ≤ B r)
    (E T : ℝ) (hE : ∑ k, scoreAt D w k * d k = E) (hE0 : 0 < E) (hT : 0 ≤ T)
    (hb : (∑ i, ∑ j, fullHessian ic D.X B D.P2 i j * d i * d j) * T / 2 < E) :
    smoothObj D (fun k => w k + T * d k) ≤ smoothObj D w - T * E + 1 / 2 * (∑ i, ∑ j, fullHessian ic D.X B D.P2 i j * d i * d j) * T ^ 2 := by
  set x : Fin n → ℝ := fun r => ∑ k, design ic D.X r k * d k with hx
  set η : Fin n → ℝ := fun r => linPred ic D.X (off D) w r with hη
  set b : ℝ := ∑ k, (∑ i, p2Full ic D.P2 i k * w i) * d k with hbd
  set q : ℝ := ∑ i, ∑ j, p2Full ic D.P2 i j * d i * d j with hq
  have hφ : ∀ t, smoothObj D (fun k => w k + t * d k)
      = ∑ r, 1 / 2 * (D.sw r * D.fam.dev (D.y r) (η r + t * x r)) + (ridge D w + t * b + 1 / 2 * t ^ 2 * q) := by
    intro t
    unfold smoothObj
    rw [ridge_line D hsym, Finset.mul_sum]
    congr 1
    exact Finset.sum_congr rfl fun r _ => by rw [linPred_line]
  have hlin : ∀ r t, HasDerivAt (fun t : ℝ => η r + t * x r) (x r) t := fun r t => by
    simpa using ((hasDerivAt_id t).mul_const (x r)).const_add (η r)
  have d1 : ∀ t, HasDerivAt (fun t => smoothObj D (fun k => w k + t * d k))
      (∑ r, -(D.fam.grad (D.y r) (D.sw r) (η r + t * x r) (D.fam.inv (η r + t * x r))) * x r + (b + t * q)) t := by
    intro t
    have hr : ∀ r, HasDerivAt (fun t => 1 / 2 * (D.sw r * D.fam.dev (D.y r) (η r + t * x r)))
        (-(D.fam.grad (D.y r) (D.sw r) (η r + t * x r) (D.fam.inv (η r + t * x r))) * x r) t := fun r =>
      HasDerivAt.comp (h₂ := fun e => 1 / 2 * (D.sw r * D.fam.dev (D.y r) e)) t (hc r _).1 (hlin r t)
    have hq2 : HasDerivAt (fun t : ℝ => ridge D w + t * b + 1 / 2 * t ^ 2 * q) (b + t * q) t := by
      have := (((hasDerivAt_id t).mul_const b).const_add (ridge D w)).fun_add (((hasDerivAt_pow 2 t).const_mul (1 / 2)).mul_const q)
      refine this.congr_deriv ?_
      simp
    rw [show (fun t => smoothObj D (fun k => w k + t * d k)) = fun t => _ from funext hφ]
    exact (HasDerivAt.fun_sum fun r _ => hr r).fun_add hq2
  have d2 : ∀ t, HasDerivAt (fun t => ∑ r, -(D.fam.grad (D.y r) (D.sw r) (η r + t * x r) (D.fam.inv (η r + t * x r))) * x r + (b + t * q))
      (∑ r, c r (η r + t * x r) * x r ^ 2 + q) t := by
    intro t
    have hr : ∀ r, HasDerivAt (fun t => -(D.fam.grad (D.y r) (D.sw r) (η r + t * x r) (D.fam.inv (η r + t * x r))) * x r)
        (c r (η r + t * x r) * x r ^ 2) t := fun r => by
      have := (HasDerivAt.comp (h₂ := fun e => D.fam.grad (D.y r) (D.sw r) e (D.fam.inv e)) t (hc r _).2 (hlin r t)).neg.mul_const (x r)
      refine this.congr_deriv ?_
      ring
    have hq2 : HasDerivAt (fun t : ℝ => b + t * q) q t := by
      simpa using ((hasDerivAt_id t).mul_const q).const_add b
    exact (HasDerivAt.fun_sum fun r _ => hr r).fun_add hq2
  have hw0 : (fun k => w k + 0 * d k) = w := by funext k; ring
  have := level_descent _ _ _ d1 d2 E (∑ i, ∑ j, fullHessian ic D.X B D.P2 i j * d i * d j) T ?_ hE0 hT hb ?_ T ⟨hT, le_rfl⟩
  · beta_reduce at this
    rw [hw0] at this
    linarith
  · beta_reduce
    rw [← hE, score_dot]
    simp only [zero_mul, add_zero, neg_mul, Finset.sum_neg_distrib]
    ring
  · intro t _ hle
    beta_reduce at hle ⊢
    rw [hw0] at hle
    rw [fullHessian_form]
    have hh := hB _ hle
    have : ∑ r, c r (η r + t * x r) * x r ^ 2 ≤ ∑ r, B r * x r ^ 2 := by
      refine Finset.sum_le_sum fun r _ => mul_le_mul_of_nonneg_right ?_ (sq_nonneg _)
      have := hh r
      rwa [linPred_line] at this
    linarith

/-- The rows entering the Hessian are at least `b`. -/
theorem progress_rows_below (inner : Inner n p ic) (D : IRLSData n p ic) (hD : Convexish D) (coef0 : Fin (p + ic.toNat) → ℝ)
    (hd : ∀ st, Visited inner D coef0 st → predictedChange D st.coef (inner D (innerState D st)).1 ≤ 0)
    (b : Fin n → ℝ) (hb : ∀ w, objective D w ≤ objective D coef0 → ∀ r, b r ≤ D.fam.hess (D.y r) (D.sw r) (linPred ic D.X (off D) w r)
      (D.fam.inv (linPred ic D.X (off D) w r)))
    (st : IRLSState n p ic) (h : Visited inner D coef0 st) (hp : st.diagnostics.IsChain (Progress D.eps)) (r : Fin n) :
    b r ≤ (innerState D st).hs.rows r := by
  have key : ∀ st, Visited inner D coef0 st → st.diagnostics.IsChain (Progress D.eps) → b r ≤ st.hs.rows r := fun st h hp => by
    rw [(c29_state_in_sync inner D hD.P1 coef0 st h).2.2.2.2 r]
    exact hb _ (progress_level inner D hD.P1 hD.eps coef0 hd st h hp) r
  have upd : ∀ hs : HessState ℝ n (p + ic.toNat), ∀ A, b r ≤ hs.rows r → (hs.init = true → b r ≤ hs.oldRows r) →
      b r ≤ (updateHessian ic D.X D.P2 D.hessApprox hs A).rows r := by
    intro hs A h1 h2
    by_cases hi : hs.init = true
    · rcases updateHessian_rows ic D.X D.P2 D.hessApprox hs A r with e | e <;> rw [e]
      · exact h1
      · exact h2 hi
    · unfold updateHessian
      rw [if_pos (Or.inl hi)]
      exact h1
  have main : b r ≤ st.hs.rows r ∧ (st.hs.init = true → b r ≤ st.hs.oldRows r) := by
    induction h with
    | init =>
      refine ⟨key _ Visited.init hp, fun h => ?_⟩
      exact absurd h (by show ¬ (false = true); simp)
    | step st hv hn hc ih =>
      have ih' := ih (progress_tail inner D st hp)
      refine ⟨key _ (Visited.step st hv hn hc) hp, fun _ => ?_⟩
      exact upd st.hs (identifyActiveSet D st) ih'.1 ih'.2
  exact upd st.hs (identifyActiveSet D st) main.1 main.2

/-- Bounds on the level set of the starting coefficients: `c` and the Hessian rows are at most `B`, the Hessian rows at least `b`, and the means are below the
overflow threshold of the line search. -/
structure Spec.TameOn (D : IRLSData n p ic) (coef0 : Fin (p + ic.toNat) → ℝ) (c : Fin n → ℝ → ℝ) (b B : Fin n → ℝ) : Prop where
  curv : ∀ w, objective D w ≤ objective D coef0 → ∀ r, c r (linPred ic D.X (off D) w r) ≤ B r
  above : ∀ w, objective D w ≤ objective D coef0 → ∀ r, D.fam.hess (D.y r) (D.sw r) (linPred ic D.X (off D) w r) (D.fam.inv (linPred ic D.X (off D) w r)) ≤ B r
  below : ∀ w, objective D w ≤ objective D coef0 → ∀ r, b r ≤ D.fam.hess (D.y r) (D.sw r) (linPred ic D.X (off D) w r) (D.fam.inv (linPred ic D.X (off D) w r))
  large : ∀ w, objective D w ≤ objective D coef0 → ∀ r, D.fam.inv (linPred ic D.X (off D) w r) < D.large

theorem objective_smooth (D : IRLSData n p ic) (hP : ∀ k, D.P1 k = 0) (w : Fin (p + ic.toNat) → ℝ) : objective D w = smoothObj D w := by
  unfold objective
  rw [l1_absent D.P1 hP, add_zero]

/-- The line search accepts a step of at least `2^-J`. -/
theorem ls_accepts (solve : (Fin (p + ic.toNat) → Fin (p + ic.toNat) → ℝ) → (Fin (p + ic.toNat) → ℝ) → (Fin (p + ic.toNat) → ℝ))
    (D : IRLSData n p ic) (hD : Convexish D) (hP : ∀ k, D.P1 k = 0) (hlb : D.lb = none) (hub : D.ub = none) (hg : 0 < D.gradTol)
    (coef0 : Fin (p + ic.toNat) → ℝ)
    (hsolve : ∀ st, Visited (lsInner solve) D coef0 st → ∀ k,
      ∑ j, (innerState D st).hs.H k j * solve (innerState D st).hs.H st.score j = st.score k)
    (c : Fin n → ℝ → ℝ) (hc : RowCurvature D c) (b B : Fin n → ℝ) (ht : TameOn D coef0 c b B)
    (rho : ℝ) (h1 : 1 ≤ rho) (hr : ∀ r, B r ≤ rho * b r) (J : ℕ) (hJ20 : J < 20) (hJ : rho ≤ 19998 / 10000 * 2 ^ J)
    (Lam : ℝ) (hL0 : 0 < Lam) (hL : CurvatureAtMost Lam (fullHessian (p := p) ic D.X B D.P2))
    (st : IRLSState n p ic) (h : Visited (lsInner solve) D coef0 st) (hnc : st.converged = false) (hpr : st.diagnostics.IsChain (Progress D.eps)) :
    (lineSearch D (innerState D st) (lsInner solve D (innerState D st)).1).k ≤ J ∧
      (lineSearch D (innerState D st) (lsInner solve D (innerState D st)).1).warned = false := by
  have hd := ls_descent solve D hD hP coef0 hsolve
  have hlev := progress_level (lsInner solve) D hD.P1 hD.eps coef0 hd st h hpr
  have hen := ls_energy solve D hD hP hlb hub coef0 hsolve B ht.above Lam hL0 hL st h hpr
  have hpred := ls_predicted solve D hD hP coef0 st h (hsolve st h)
  have hbelow := progress_rows_below (lsInner solve) D hD coef0 hd b ht.below st h hpr
  have hs := visited_sync _ D hD.P1 coef0 st h
  set d := (lsInner solve D (innerState D st)).1 with hdd
  have hdsolve : d = solve (innerState D st).hs.H st.score := rfl
  rw [← hdsolve] at hpred
  have hnorm : D.gradTol ≤ st.norm := by
    have hchk := visited_checked (lsInner solve) D coef0 st h
    rw [Prod.ext_iff, Prod.ext_iff] at hchk
    have e1 : st.converged = (checkConvergence D st.coef st.step st.score).1 := hchk.1
    have e2 : st.norm = (checkConvergence D st.coef st.step st.score).2.1 := hchk.2.1
    by_contra hlt
    push Not at hlt
    rw [e2] at hlt
    rw [e1] at hnc
    unfold checkConvergence at hnc hlt
    simp only at hnc hlt
    rw [decide_eq_true hlt] at hnc
    simp at hnc
  have hnpos : 0 < st.norm := hg.trans_le hnorm
  set E := ∑ i, ∑ j, fullHessian ic D.X (innerState D st).hs.rows D.P2 i j * d i * d j with hE
  have hE0 : 0 < E := by
    have : 0 < 1 / ((p + 1) * Lam) * st.norm ^ 2 := by positivity
    linarith
  have hscore : ∑ k, scoreAt D st.coef k * d k = E := by
    have : predictedChange D st.coef d = -∑ k, scoreAt D st.coef k * d k := by
      unfold predictedChange
      rw [l1_absent D.P1 hP, l1_absent D.P1 hP, add_zero, sub_zero]
    linarith
  have hbeta : ∑ i, ∑ j, fullHessian ic D.X B D.P2 i j * d i * d j ≤ rho * E := by
    rw [hE, fullHessian_form, fullHessian_form, mul_add, Finset.mul_sum]
    refine add_le_add (Finset.sum_le_sum fun r _ => ?_) ?_
    · rw [← mul_assoc]
      refine mul_le_mul_of_nonneg_right ((hr r).trans ?_) (sq_nonneg _)
      exact mul_le_mul_of_nonneg_left (hbelow r) (by linarith)
    · have := hD.psd d
      nlinarith
  have hTpos : (0 : ℝ) < (1 / 2) ^ J := by positivity
  have hcond : rho * (1 / 2) ^ J ≤ 19998 / 10000 := by
    have := mul_le_mul_of_nonneg_right hJ hTpos.le
    have e : (2 : ℝ) ^ J * (1 / 2) ^ J = 1 := by rw [← mul_pow]; norm_num
    rw [mul_assoc, e, mul_one] at this
    exact this
  have hbT : (∑ i, ∑ j, fullHessian ic D.X B D.P2 i j * d i * d j) * (1 / 2) ^ J ≤ 19998 / 10000 * E := by
    have a1 := mul_le_mul_of_nonneg_right hbeta hTpos.le
    have a2 := mul_le_mul_of_nonneg_right hcond hE0.le
    linarith
  have hline := line_bound D hD.symm c hc st.coef d B
    (fun v hv r => ht.curv v (by rw [objective_smooth D hP] at hlev ⊢; rw [objective_smooth D hP]; rw [objective_smooth D hP] at hlev; exact hv.trans hlev) r)
    E ((1 / 2) ^ J) hscore hE0 hTpos.le (by linarith)
  have harm : objective D (candidate st.coef d J) - objective D st.coef ≤ (1 / 2) ^ J * (1 / 10000 * predictedChange D st.coef d) := by
    rw [objective_smooth D hP, objective_smooth D hP, hpred]
    show smoothObj D (fun k => st.coef k + (1 / 2) ^ J * d k) - _ ≤ _
    have := mul_le_mul_of_nonneg_right hbT hTpos.le
    have e : (∑ i, ∑ j, fullHessian ic D.X B D.P2 i j * d i * d j) * (1 / 2) ^ J * (1 / 2) ^ J
        = (∑ i, ∑ j, fullHessian ic D.X B D.P2 i j * d i * d j) * ((1 / 2) ^ J) ^ 2 := by ring
    rw [e] at this
    linarith
  have hacc : Acceptable D st.coef d J := by
    refine Or.inl ⟨?_, harm⟩
    refine ht.large _ ?_
    have : (1 / 2 : ℝ) ^ J * (1 / 10000 * predictedChange D st.coef d) ≤ 0 := by
      rw [hpred]
      have := mul_pos hTpos hE0
      linarith
    linarith
  have hsp := lineSearch_spec D (innerState D st) d
  have hiff := lsOK_iff D hD.P1 (innerState D st) hs.eta hs.obj hs.score d
  have hk : (lineSearch D (innerState D st) d).k ≤ J := by
    by_contra hlt
    push Not at hlt
    exact hsp.prev J (Nat.zero_le _) hlt ((hiff J).2 hacc)
  refine ⟨hk, ?_⟩
  by_contra hw
  have hw : (lineSearch D (innerState D st) d).warned = true := by simpa using hw
  have h19 := hsp.warnedIff hw
  have : J = 19 := by omega
  have : (lineSearch D (innerState D st) d).warned = false := hsp.accept.2 (by rw [h19, ← this]; exact (hiff J).2 hacc)
  rw [this] at hw
  exact absurd hw (by simp)

/-- Two consecutive records show a change of the objective beyond round-off. -/
def Spec.Moved (eps : ℝ) (newer older : Diag) : Prop := 16 * eps * |older.obj| < |newer.obj - older.obj|

/-- **C85, the fit ends.** An `irls-ls` fit without L1 penalty and bounds, in which every iteration changes the objective by more than round-off, never warns in its
line search, and converges if `max_iter` exceeds an explicit bound. On the level set of the starting coefficients, `B r` bounds the curvature of row `r`
(the true second derivative `c r` and the Hessian row the solver uses), `b r` bounds the Hessian row from below, and `B ≤ rho b` with `rho ≤ 1.9998 · 2^J`, `J < 20`. -/
theorem c85_ls_ends (solve : (Fin (p + ic.toNat) → Fin (p + ic.toNat) → ℝ) → (Fin (p + ic.toNat) → ℝ) → (Fin (p + ic.toNat) → ℝ))
    (D : IRLSData n p ic) (hD : Convexish D) (hP : ∀ k, D.P1 k = 0) (hlb : D.lb = none) (hub : D.ub = none) (hg : 0 < D.gradTol)
    (coef0 : Fin (p + ic.toNat) → ℝ)
    (hsolve : ∀ st, Visited (lsInner solve) D coef0 st → ∀ k,
      ∑ j, (innerState D st).hs.H k j * solve (innerState D st).hs.H st.score j = st.score k)
    (c : Fin n → ℝ → ℝ) (hc : RowCurvature D c) (b B : Fin n → ℝ) (ht : TameOn D coef0 c b B)
    (rho : ℝ) (h1 : 1 ≤ rho) (hr : ∀ r, B r ≤ rho * b r) (J : ℕ) (hJ20 : J < 20) (hJ : rho ≤ 19998 / 10000 * 2 ^ J)
    (Lam : ℝ) (hL0 : 0 < Lam) (hL : CurvatureAtMost Lam (fullHessian (p := p) ic D.X B D.P2))
    (hp : (irlsRun (lsInner solve) D coef0).diagnostics.IsChain (Moved D.eps)) :
    (∀ rec ∈ (irlsRun (lsInner solve) D coef0).diagnostics, rec.warned = false) ∧
    ∀ low : ℝ, (∀ w, low ≤ objective D w) →
      objective D coef0 - low < D.maxIter * ((1 / 2) ^ J * (1 / 10000 * (1 / ((p + 1) * Lam) * D.gradTol ^ 2))) →
      (irlsRun (lsInner solve) D coef0).converged = true := by
  have hacc := ls_accepts solve D hD hP hlb hub hg coef0 hsolve c hc b B ht rho h1 hr J hJ20 hJ Lam hL0 hL
  have key : ∀ st, Visited (lsInner solve) D coef0 st → st.diagnostics.IsChain (Moved D.eps) →
      st.diagnostics.IsChain (Progress D.eps) ∧ ∀ rec ∈ st.diagnostics, rec.warned = false := by
    intro st h
    induction h with
    | init =>
      intro _
      constructor
      · show List.IsChain _ [_]
        exact List.isChain_singleton _
      · intro rec hrec
        have hrec : rec ∈ [(⟨0, (irlsInit D coef0).norm, (irlsInit D coef0).obj, false⟩ : Diag)] := hrec
        rw [List.mem_singleton] at hrec
        rw [hrec]
    | step st hv hn hc' ih =>
      intro hm
      obtain ⟨w', rest', e'⟩ := visited_head (lsInner solve) D coef0 st hv
      have hdiag : (irlsStep (lsInner solve) D st).diagnostics
          = ⟨st.nIter + 1, (irlsStep (lsInner solve) D st).norm, (irlsStep (lsInner solve) D st).obj,
              (lineSearch D (innerState D st) (lsInner solve D (innerState D st)).1).warned⟩ :: st.diagnostics := rfl
      rw [hdiag] at hm
      obtain ⟨i1, i2⟩ := ih (List.IsChain.of_cons hm)
      have hw := (hacc st hv hc' i1).2
      rw [hdiag]
      constructor
      · rw [e'] at hm i1 ⊢
        have hm' := (List.isChain_cons_cons.1 hm).1
        exact List.isChain_cons_cons.2 ⟨⟨hw, hm'⟩, i1⟩
      · intro rec hrec
        rcases List.mem_cons.1 hrec with rfl | hrec
        · exact hw
        · exact i2 rec hrec
  obtain ⟨k1, k2⟩ := key _ (irlsRun_visited (lsInner solve) D coef0) hp
  refine ⟨k2, fun low hlow hmax => ?_⟩
  exact progress_converges (lsInner solve) D hD.P1 hD.eps hg.le coef0 J (fun st hv hc' hpr => (hacc st hv hc' hpr).1) (1 / ((p + 1) * Lam)) (by positivity)
    (ls_energy solve D hD hP hlb hub coef0 hsolve B ht.above Lam hL0 hL) low hlow hmax k1

end Glum
