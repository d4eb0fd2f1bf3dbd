import Mathlib.Analysis.Convex.Deriv
import Verif.Props.StepLive2
/-
C86: `irls-cd` with cyclic selection converges linearly to the optimum.
-/
set_option linter.unusedSectionVars false
set_option linter.unusedVariables false
set_option linter.unusedSimpArgs false

namespace Glum
open Spec

section cycle
variable {p a : ℕ}

/-- Before its visit in the first cycle, a coordinate has its initial value. -/
theorem cyc_before (D : CDData ℝ p a) (hD : D.WF) (ha : 0 < a) (w0 q0 : Fin p → ℝ) (seed : BitVec 32) (t : Fin a) (m : ℕ) (hm : m ≤ t.val) :
    (cyc D ha w0 q0 seed m).w (D.active t) = w0 (D.active t) := by
  induction m with
  | zero => rfl
  | succ m ih =>
    rw [cyc_succ, ← ih (by omega)]
    refine (c20_visit_touches_one_coordinate D _ _).1 _ fun e => ?_
    have := congrArg Fin.val (hD.mono.injective e)
    simp only at this
    rw [Nat.mod_eq_of_lt (by have := t.isLt; omega)] at this
    omega

/-- After its visit in the first cycle, a coordinate keeps its value to the end of the cycle. -/
theorem cyc_after (D : CDData ℝ p a) (hD : D.WF) (ha : 0 < a) (w0 q0 : Fin p → ℝ) (seed : BitVec 32) (t : Fin a) (m : ℕ) (hm : t.val < m) (hma : m ≤ a) :
    (cyc D ha w0 q0 seed m).w (D.active t) = (cyc D ha w0 q0 seed a).w (D.active t) := by
  have h1 := cyc_fixed D hD ha w0 q0 seed 0 t (m - (t.val + 1)) (by omega)
  have h2 := cyc_fixed D hD ha w0 q0 seed 0 t (a - (t.val + 1)) (by have := t.isLt; omega)
  rw [show 0 * a + t.val + 1 + (m - (t.val + 1)) = m by omega] at h1
  rw [show 0 * a + t.val + 1 + (a - (t.val + 1)) = a by have := t.isLt; omega] at h2
  rw [h1, h2]

/-- The decrease of the first cycle pays for all its moves. -/
theorem cycle_decrease (D : CDData ℝ p a) (hD : D.WF) (ha : 0 < a) (w0 q0 : Fin p → ℝ) (seed : BitVec 32)
    (hf : InBounds D.intercept D.lb D.ub w0) (c : ℝ) (hc : ∀ s, c ≤ D.Q s s) (hq : ∀ s, D.eps < D.Q s s) :
    cycObj D ha w0 q0 seed a + 1 / 2 * c * ∑ s, ((cyc D ha w0 q0 seed a).w (D.active s) - w0 (D.active s)) ^ 2
      ≤ modelObj D.active D.Q D.intercept D.P1 q0 w0 w0 := by
  have key : ∀ m ≤ a, cycObj D ha w0 q0 seed m
      + 1 / 2 * c * ∑ s, ((cyc D ha w0 q0 seed m).w (D.active s) - w0 (D.active s)) ^ 2 ≤ modelObj D.active D.Q D.intercept D.P1 q0 w0 w0 := by
    intro m
    induction m with
    | zero =>
      intro _
      have : (cyc D ha w0 q0 seed 0).w = w0 := rfl
      unfold cycObj
      rw [this]
      simp
    | succ m ih =>
      intro hm
      have h1 := ih (by omega)
      set s : Fin a := ⟨m, by omega⟩ with hs
      have h2 := cyc_decrease D hD ha w0 q0 seed hf c hc hq m (D.active s)
      have hb := cyc_before D hD ha w0 q0 seed s m (by simp [hs])
      have hsum : ∑ t, ((cyc D ha w0 q0 seed (m + 1)).w (D.active t) - w0 (D.active t)) ^ 2
          = ∑ t, ((cyc D ha w0 q0 seed m).w (D.active t) - w0 (D.active t)) ^ 2
            + ((cyc D ha w0 q0 seed m).w (D.active s) - (cyc D ha w0 q0 seed (m + 1)).w (D.active s)) ^ 2 := by
        rw [← Finset.sum_erase_add _ _ (Finset.mem_univ s), ← Finset.sum_erase_add (a := s) _ _ (Finset.mem_univ s)]
        rw [hb]
        rw [sub_self, zero_pow two_ne_zero, add_zero]
        congr 1
        · refine Finset.sum_congr rfl fun t ht => ?_
          have hne : t ≠ s := Finset.ne_of_mem_erase ht
          rw [cyc_succ, (c20_visit_touches_one_coordinate D _ _).1 _ fun e => ?_]
          have := congrArg Fin.val (hD.mono.injective e)
          simp only at this
          rw [Nat.mod_eq_of_lt (by omega)] at this
          exact hne (Fin.ext this)
        · ring
      rw [hsum, mul_add]
      linarith
  exact key a le_rfl

/-- One cycle of coordinate descent achieves a fixed fraction of the decrease achieved by any competitor. -/
theorem first_cycle (D : CDData ℝ p a) (hD : D.WF) (ha : 0 < a) (w0 q0 : Fin p → ℝ) (seed : BitVec 32)
    (hf : InBounds D.intercept D.lb D.ub w0) (lam Lam : ℝ) (hlam : D.eps < lam) (h : StronglyConvex lam D.Q) (hL : ∀ s t, |D.Q s t| ≤ Lam)
    (v : Fin p → ℝ) (hv : InBounds D.intercept D.lb D.ub v) (hoff : ∀ i, i ∉ Set.range D.active → v i = w0 i) :
    modelObj D.active D.Q D.intercept D.P1 q0 w0 w0 - modelObj D.active D.Q D.intercept D.P1 q0 w0 v
      ≤ (1 + (a * Lam / lam) ^ 2) * (modelObj D.active D.Q D.intercept D.P1 q0 w0 w0 - cycObj D ha w0 q0 seed a) := by
  have hl0 : 0 < lam := hD.eps.trans_lt hlam
  have hq : ∀ s, D.eps < D.Q s s := fun s => hlam.trans_le (strong_diag lam D.Q h s)
  have hdec := cycle_decrease D hD ha w0 q0 seed hf lam (strong_diag lam D.Q h) hq
  have hinv := cyc_inv D hD ha w0 q0 seed a
  set w1 := (cyc D ha w0 q0 seed a).w with hw1
  set q1 := (cyc D ha w0 q0 seed a).q with hq1
  set S : ℝ := ∑ s, (w1 (D.active s) - w0 (D.active s)) ^ 2 with hS
  have hS0 : 0 ≤ S := Finset.sum_nonneg fun s _ => sq_nonneg _
  have hLam0 : 0 ≤ Lam := (abs_nonneg _).trans (hL ⟨0, ha⟩ ⟨0, ha⟩)
  -- the subgradient terms after the cycle
  have hterm : ∀ s, absTerm w1 q1 D.P1 D.intercept D.lb D.ub (D.active s) ≤ Lam * ∑ t, |w1 (D.active t) - w0 (D.active t)| := by
    intro s
    have hz : absTerm (cyc D ha w0 q0 seed (s.val + 1)).w (cyc D ha w0 q0 seed (s.val + 1)).q D.P1 D.intercept D.lb D.ub (D.active s) = 0 := by
      have hmod : (⟨s.val % a, Nat.mod_lt _ ha⟩ : Fin a) = s := Fin.ext (Nat.mod_eq_of_lt s.isLt)
      have := visit_term_zero D hD w0 q0 _ (cyc_inv D hD ha w0 q0 seed s.val) (cyc_inBounds D hD ha w0 q0 seed hf _) s (hq s)
      rw [cyc_succ, hmod]
      exact this
    have hfix := cyc_after D hD ha w0 q0 seed s (s.val + 1) (by omega) (by have := s.isLt; omega)
    refine (absTerm_lipschitz w1 _ q1 (cyc D ha w0 q0 seed (s.val + 1)).q D.P1 hD.pos D.intercept D.lb D.ub (D.active s) hfix.symm).trans ?_
    rw [hz, zero_add, hinv.1 s, (cyc_inv D hD ha w0 q0 seed _).1 s, quadGrad, quadGrad, add_sub_add_left_eq_sub, ← Finset.sum_sub_distrib]
    refine (Finset.abs_sum_le_sum_abs _ _).trans ?_
    rw [Finset.mul_sum]
    refine Finset.sum_le_sum fun t _ => ?_
    rw [← mul_sub, sub_sub_sub_cancel_right, abs_mul]
    refine mul_le_mul (hL s t) ?_ (abs_nonneg _) hLam0
    rcases lt_or_ge t.val (s.val + 1) with hlt | hge
    · rw [cyc_after D hD ha w0 q0 seed t (s.val + 1) hlt (by have := s.isLt; omega), sub_self, abs_zero]
      exact abs_nonneg _
    · rw [cyc_before D hD ha w0 q0 seed t (s.val + 1) hge]
  have hsq : ∀ s, absTerm w1 q1 D.P1 D.intercept D.lb D.ub (D.active s) ^ 2 ≤ Lam ^ 2 * (a * S) := by
    intro s
    have h1 := pow_le_pow_left₀ (absTerm_nonneg w1 q1 D.P1 D.intercept D.lb D.ub (D.active s)) (hterm s) 2
    refine h1.trans ?_
    rw [mul_pow]
    exact mul_le_mul_of_nonneg_left (sq_sum_abs fun t => w1 (D.active t) - w0 (D.active t)) (sq_nonneg _)
  -- the competitor
  have hoff' : ∀ i, i ∉ Set.range D.active → v i = w1 i := fun i hi => by rw [hoff i hi]; exact (hinv.2 i fun s e => hi ⟨s, e⟩).symm
  have hx := quad_expand D.active D.Q hD.symm q0 w0 w1 v
  have hp := h (fun s => v (D.active s) - w1 (D.active s))
  have el : l1 D.intercept D.P1 v - l1 D.intercept D.P1 w1
      = ∑ s, l1Weight D.intercept D.P1 (D.active s) * (|v (D.active s)| - |w1 (D.active s)|) := by
    unfold l1
    rw [← Finset.sum_sub_distrib]
    rw [sum_active D.active hD.mono.injective _ fun i hi => ?_]
    · exact Finset.sum_congr rfl fun s _ => by ring
    · rw [hoff' i hi, sub_self]
  have hlow : -(a * (Lam ^ 2 * (a * S)) / (2 * lam)) ≤ modelObj D.active D.Q D.intercept D.P1 q0 w0 v - modelObj D.active D.Q D.intercept D.P1 q0 w0 w1 := by
    unfold modelObj
    rw [hx]
    have : -(a * (Lam ^ 2 * (a * S)) / (2 * lam)) ≤ ∑ s, (quadGrad D.active D.Q q0 w0 w1 s * (v (D.active s) - w1 (D.active s))
        + l1Weight D.intercept D.P1 (D.active s) * (|v (D.active s)| - |w1 (D.active s)|)
        + 1 / 2 * (lam * (v (D.active s) - w1 (D.active s)) ^ 2)) := by
      have e : -(a * (Lam ^ 2 * (a * S)) / (2 * lam)) = ∑ _s : Fin a, -((Lam ^ 2 * (a * S)) / (2 * lam)) := by
        rw [Finset.sum_const, Finset.card_univ, Fintype.card_fin, nsmul_eq_mul]; ring
      rw [e]
      refine Finset.sum_le_sum fun s _ => ?_
      have hcert := absTerm_cert w1 q1 D.P1 hD.pos D.intercept D.lb D.ub (D.active s) (v (D.active s)) fun k hk => hv (D.active s) k hk
      rw [hinv.1 s] at hcert
      set T := absTerm w1 q1 D.P1 D.intercept D.lb D.ub (D.active s) with hT
      set z := v (D.active s) - w1 (D.active s) with hzd
      have h2 : T ^ 2 / (2 * lam) ≤ Lam ^ 2 * (a * S) / (2 * lam) := div_le_div_of_nonneg_right (hsq s) (by linarith)
      have h3 : 0 ≤ (lam * |z| - T) ^ 2 / (2 * lam) := by positivity
      have h4 : (lam * |z| - T) ^ 2 / (2 * lam) = 1 / 2 * (lam * z ^ 2) - T * |z| + T ^ 2 / (2 * lam) := by
        rw [← sq_abs z]
        field_simp
        ring
      linarith
    rw [Finset.sum_add_distrib, Finset.sum_add_distrib, ← el, ← Finset.mul_sum, ← Finset.mul_sum] at this
    linarith
  have hco : cycObj D ha w0 q0 seed a = modelObj D.active D.Q D.intercept D.P1 q0 w0 w1 := rfl
  rw [hco] at hdec ⊢
  set M := modelObj D.active D.Q D.intercept D.P1 q0 w0 w0 - modelObj D.active D.Q D.intercept D.P1 q0 w0 w1 with hM
  have hMS : S ≤ 2 / lam * M := by
    rw [div_mul_eq_mul_div, le_div_iff₀ hl0]
    linarith
  have hfin : a * (Lam ^ 2 * (a * S)) / (2 * lam) ≤ (a * Lam / lam) ^ 2 * M := by
    have e1 : a * (Lam ^ 2 * (a * S)) / (2 * lam) = (a * Lam) ^ 2 / (2 * lam) * S := by ring
    have e2 : (a * Lam / lam) ^ 2 * M = (a * Lam) ^ 2 / (2 * lam) * (2 / lam * M) := by field_simp
    rw [e1, e2]
    exact mul_le_mul_of_nonneg_left hMS (by positivity)
  linarith

/-- The call achieves a fixed fraction of the decrease achieved by any competitor. -/
theorem run_fraction (D : CDData ℝ p a) (hD : D.WF) (ha32 : a < 2 ^ 32) (hcyc : D.random = false) (hmax : 1 ≤ D.maxIter) (w0 q0 : Fin p → ℝ) (seed : BitVec 32)
    (hf : InBounds D.intercept D.lb D.ub w0) (lam Lam : ℝ) (hlam : D.eps < lam) (h : StronglyConvex lam D.Q) (hL : ∀ s t, |D.Q s t| ≤ Lam)
    (v : Fin p → ℝ) (hv : InBounds D.intercept D.lb D.ub v) (hoff : ∀ i, i ∉ Set.range D.active → v i = w0 i) :
    modelObj D.active D.Q D.intercept D.P1 q0 w0 w0 - modelObj D.active D.Q D.intercept D.P1 q0 w0 v
      ≤ (1 + (a * Lam / lam) ^ 2) * (modelObj D.active D.Q D.intercept D.P1 q0 w0 w0 - modelObj D.active D.Q D.intercept D.P1 q0 w0 (D.run w0 q0 seed).w) := by
  rcases Nat.eq_zero_or_pos a with ha | ha
  · have e1 : v = w0 := funext fun i => hoff i fun ⟨s, _⟩ => by subst ha; exact s.elim0
    have := c22_run_not_worse D hD w0 q0 seed hf
    rw [e1, sub_self]
    exact mul_nonneg (by positivity) (by linarith)
  · have h1 := first_cycle D hD ha w0 q0 seed hf lam Lam hlam h hL v hv hoff
    refine h1.trans (mul_le_mul_of_nonneg_left ?_ (by positivity))
    have hc := c24_cycle_count ha ha32 D w0 q0 seed hmax
    rw [hcyc] at hc
    have hcw : (D.run w0 q0 seed).w = (cyc D ha w0 q0 seed ((D.run w0 q0 seed).nIter * a)).w := hc
    have hn : a ≤ (D.run w0 q0 seed).nIter * a := Nat.le_mul_of_pos_left a (loop_nIter_pos D _ _ _ _)
    have hanti : Antitone (cycObj D ha w0 q0 seed) := by
      apply antitone_nat_of_succ_le
      intro m
      have := cyc_decrease D hD ha w0 q0 seed hf lam (strong_diag lam D.Q h) (fun s => hlam.trans_le (strong_diag lam D.Q h s)) m (D.active ⟨0, ha⟩)
      have h2 := mul_nonneg (show 0 ≤ 1 / 2 * lam by have := hD.eps; linarith)
        (sq_nonneg ((cyc D ha w0 q0 seed m).w (D.active ⟨0, ha⟩) - (cyc D ha w0 q0 seed (m + 1)).w (D.active ⟨0, ha⟩)))
      linarith
    have h2 : cycObj D ha w0 q0 seed ((D.run w0 q0 seed).nIter * a) ≤ cycObj D ha w0 q0 seed a := hanti hn
    rw [hcw]
    change _ ≤ modelObj D.active D.Q D.intercept D.P1 q0 w0 w0 - cycObj D ha w0 q0 seed ((D.run w0 q0 seed).nIter * a)
    linarith

end cycle

variable {n p : ℕ} {ic : Bool}

/-- On the segment to a competitor that is not worse, the smooth part of the objective is convex with curvature at least that of the Hessian built from `b`. -/
theorem segment_convex (D : IRLSData n p ic) (hD : Convexish D) (c : Fin n → ℝ → ℝ) (hc : RowCurvature D c) (hpos : ∀ r eta, 0 ≤ c r eta)
    (w v : Fin (p + ic.toNat) → ℝ) (b : Fin n → ℝ) (hb : ∀ u, objective D u ≤ objective D w → ∀ r, b r ≤ c r (linPred ic D.X (off D) u r))
    (hle : objective D v ≤ objective D w) :
    ConvexOn ℝ (Set.Icc (0 : ℝ) 1) fun t => smoothObj D (fun k => w k + t * (v k - w k))
      - 1 / 2 * (∑ i, ∑ j, fullHessian ic D.X b D.P2 i j * (v i - w i) * (v j - w j)) * t ^ 2 := by
  obtain ⟨φ', d1, d2, d0⟩ := smooth_line D hD.symm c hc w fun k => v k - w k
  set d : Fin (p + ic.toNat) → ℝ := fun k => v k - w k with hd
  set φ : ℝ → ℝ := fun t => smoothObj D (fun k => w k + t * d k) with hφ
  set q : ℝ := ∑ i, ∑ j, p2Full ic D.P2 i j * d i * d j with hq
  have hq0 : 0 ≤ q := hD.psd d
  have hw0 : (fun k => w k + 0 * d k) = w := by funext k; ring
  have hv1 : (fun k => w k + 1 * d k) = v := by funext k; simp [hd]
  have hcont : Continuous φ := continuous_iff_continuousAt.2 fun t => (d1 t).continuousAt
  have hconv : ConvexOn ℝ (Set.Icc (0 : ℝ) 1) φ := by
    refine convexOn_of_hasDerivWithinAt2_nonneg (convex_Icc 0 1) hcont.continuousOn (fun t _ => (d1 t).hasDerivWithinAt) (fun t _ => (d2 t).hasDerivWithinAt) ?_
    intro t _
    exact add_nonneg (Finset.sum_nonneg fun r _ => mul_nonneg (hpos _ _) (sq_nonneg _)) hq0
  have hlev : ∀ t ∈ Set.Icc (0 : ℝ) 1, objective D (fun k => w k + t * d k) ≤ objective D w := by
    intro t ht
    have h1 := hconv.2 (Set.left_mem_Icc.2 zero_le_one) (Set.right_mem_Icc.2 zero_le_one) (show 0 ≤ 1 - t by linarith [ht.2]) ht.1 (by ring)
    simp only [smul_eq_mul, mul_zero, mul_one, zero_add] at h1
    have h2 := l1_chord (ic := ic) D.P1 hD.P1 w d t ht.1 ht.2
    have e0 : φ 0 = smoothObj D w := by show smoothObj D _ = _; rw [hw0]
    have e1 : φ 1 = smoothObj D v := by show smoothObj D _ = _; rw [hv1]
    rw [e0, e1] at h1
    have e2 : (fun k => w k + d k) = v := by funext k; simp [hd]
    rw [e2] at h2
    have h3 : smoothObj D (fun k => w k + t * d k) ≤ (1 - t) * smoothObj D w + t * smoothObj D v := h1
    unfold objective at hle ⊢
    have := mul_le_mul_of_nonneg_left hle ht.1
    linarith
  set β : ℝ := ∑ i, ∑ j, fullHessian ic D.X b D.P2 i j * d i * d j with hβ
  have hconv2 : ConvexOn ℝ (Set.Icc (0 : ℝ) 1) fun t => φ t - 1 / 2 * β * t ^ 2 := by
    have e1 : ∀ t, HasDerivAt (fun t : ℝ => 1 / 2 * β * t ^ 2) (β * t) t := fun t => by
      refine ((hasDerivAt_pow 2 t).const_mul (1 / 2 * β)).congr_deriv ?_
      simp
      ring
    have e2 : ∀ t, HasDerivAt (fun t : ℝ => β * t) β t := fun t => by
      simpa using (hasDerivAt_id t).const_mul β
    refine convexOn_of_hasDerivWithinAt2_nonneg (convex_Icc 0 1) (hcont.sub (by fun_prop)).continuousOn
      (fun t _ => ((d1 t).fun_sub (e1 t)).hasDerivWithinAt) (fun t _ => ((d2 t).fun_sub (e2 t)).hasDerivWithinAt) ?_
    intro t ht
    rw [interior_Icc] at ht
    rw [hβ, fullHessian_form]
    have hh := hb _ (hlev t ⟨ht.1.le, ht.2.le⟩)
    have : ∑ r, b r * (∑ k, design ic D.X r k * d k) ^ 2 ≤ ∑ r, c r (linPred ic D.X (off D) (fun k => w k + t * d k) r) * (∑ k, design ic D.X r k * d k) ^ 2 :=
      Finset.sum_le_sum fun r _ => mul_le_mul_of_nonneg_right (hh r) (sq_nonneg _)
    linarith
  exact hconv2

/-- The objective is at least its quadratic lower bound at competitors that are not worse. -/
theorem smooth_below (D : IRLSData n p ic) (hD : Convexish D) (c : Fin n → ℝ → ℝ) (hc : RowCurvature D c) (hpos : ∀ r eta, 0 ≤ c r eta)
    (w v : Fin (p + ic.toNat) → ℝ) (b : Fin n → ℝ) (hb : ∀ u, objective D u ≤ objective D w → ∀ r, b r ≤ c r (linPred ic D.X (off D) u r))
    (hle : objective D v ≤ objective D w) :
    smoothObj D w - ∑ k, scoreAt D w k * (v k - w k) + 1 / 2 * ∑ i, ∑ j, fullHessian ic D.X b D.P2 i j * (v i - w i) * (v j - w j) ≤ smoothObj D v := by
  obtain ⟨φ', d1, d2, d0⟩ := smooth_line D hD.symm c hc w fun k => v k - w k
  set d : Fin (p + ic.toNat) → ℝ := fun k => v k - w k with hd
  set φ : ℝ → ℝ := fun t => smoothObj D (fun k => w k + t * d k) with hφ
  have hw0 : (fun k => w k + 0 * d k) = w := by funext k; ring
  have hv1 : (fun k => w k + 1 * d k) = v := by funext k; simp [hd]
  set β : ℝ := ∑ i, ∑ j, fullHessian ic D.X b D.P2 i j * d i * d j with hβ
  have hconv2 : ConvexOn ℝ (Set.Icc (0 : ℝ) 1) fun t => φ t - 1 / 2 * β * t ^ 2 := segment_convex D hD c hc hpos w v b hb hle
  have hder : HasDerivAt (fun t => φ t - 1 / 2 * β * t ^ 2) (φ' 0) 0 := by
    have := (d1 0).fun_sub ((hasDerivAt_pow 2 (0 : ℝ)).const_mul (1 / 2 * β))
    refine this.congr_deriv ?_
    simp
  have hsl := hconv2.le_slope_of_hasDerivAt (Set.left_mem_Icc.2 zero_le_one) (Set.right_mem_Icc.2 zero_le_one) zero_lt_one hder
  rw [slope_def_field] at hsl
  have e0 : φ 0 = smoothObj D w := by show smoothObj D _ = _; rw [hw0]
  have e1 : φ 1 = smoothObj D v := by show smoothObj D _ = _; rw [hv1]
  rw [d0, e0, e1] at hsl
  norm_num at hsl
  linarith

/-- Distance to a minimiser: the objective grows quadratically around it. -/
theorem minimiser_growth (D : IRLSData n p ic) (hD : Convexish D) (c : Fin n → ℝ → ℝ) (hc : RowCurvature D c) (hpos : ∀ r eta, 0 ≤ c r eta)
    (w v : Fin (p + ic.toNat) → ℝ) (b : Fin n → ℝ) (hb : ∀ u, objective D u ≤ objective D w → ∀ r, b r ≤ c r (linPred ic D.X (off D) u r))
    (lam : ℝ) (hs : StronglyConvex lam (fullHessian (p := p) ic D.X b D.P2)) (hw : InBounds ic D.lb D.ub w) (hv : InBounds ic D.lb D.ub v)
    (hopt : ∀ u, InBounds ic D.lb D.ub u → objective D v ≤ objective D u) :
    lam / 4 * ∑ k, (w k - v k) ^ 2 ≤ objective D w - objective D v := by
  have h1 := segment_convex D hD c hc hpos w v b hb (hopt w hw)
  have h2 := h1.2 (Set.left_mem_Icc.2 zero_le_one) (Set.right_mem_Icc.2 zero_le_one) (show (0 : ℝ) ≤ 1 / 2 by norm_num) (show (0 : ℝ) ≤ 1 / 2 by norm_num) (by norm_num)
  simp only [smul_eq_mul, mul_zero, mul_one, zero_add] at h2
  have hw0 : (fun k => w k + 0 * (v k - w k)) = w := by funext k; ring
  have hv1 : (fun k => w k + 1 * (v k - w k)) = v := by funext k; ring
  rw [hw0, hv1] at h2
  have hst := hs fun k => v k - w k
  have h3 := l1_chord (ic := ic) D.P1 hD.P1 w (fun k => v k - w k) (1 / 2) (by norm_num) (by norm_num)
  have e2 : (fun k => w k + (v k - w k)) = v := by funext k; ring
  rw [e2] at h3
  have hmid : InBounds ic D.lb D.ub fun k => w k + 1 / 2 * (v k - w k) := by
    intro i k hk
    obtain ⟨a1, a2⟩ := hw i k hk
    obtain ⟨b1, b2⟩ := hv i k hk
    constructor
    · intro l hl
      have := a1 l hl
      have := b1 l hl
      linarith
    · intro u hu
      have := a2 u hu
      have := b2 u hu
      linarith
  have h4 := hopt _ hmid
  have e3 : ∑ k, (v k - w k) ^ 2 = ∑ k, (w k - v k) ^ 2 := Finset.sum_congr rfl fun k _ => by ring
  rw [e3] at hst
  unfold objective at h4 ⊢
  linarith

theorem entry_bound {m : ℕ} (Q : Fin m → Fin m → ℝ) (hsym : ∀ s t, Q s t = Q t s) (hpsd : PosSemidef Q) (Lam : ℝ) (hL : CurvatureAtMost Lam Q) (s t : Fin m) :
    |Q s t| ≤ Lam := by
  classical
  have hdiag : ∀ s, Q s s ≤ Lam := fun s => by
    have := hL fun i => if i = s then 1 else 0
    simpa using this
  have hdiag0 : ∀ s, 0 ≤ Q s s := fun s => by
    have := hpsd fun i => if i = s then 1 else 0
    simpa using this
  by_cases hst : s = t
  · subst hst
    rw [abs_of_nonneg (hdiag0 s)]
    exact hdiag s
  have expand : ∀ σ : ℝ, ∑ i, ∑ j, Q i j * ((if i = s then 1 else 0) + σ * (if i = t then 1 else 0)) * ((if j = s then 1 else 0) + σ * (if j = t then 1 else 0))
      = Q s s + 2 * σ * Q s t + σ ^ 2 * Q t t := by
    intro σ
    have : ∀ i, ∑ j, Q i j * ((if i = s then 1 else 0) + σ * (if i = t then 1 else 0)) * ((if j = s then 1 else 0) + σ * (if j = t then 1 else 0))
        = ((if i = s then (1 : ℝ) else 0) + σ * (if i = t then 1 else 0)) * (Q i s + σ * Q i t) := by
      intro i
      simp only [mul_add, Finset.sum_add_distrib]
      have e1 : ∀ x : ℝ, ∀ u : Fin m, ∑ j, Q i j * x * (if j = u then 1 else 0) = Q i u * x := by
        intro x u; simp
      have e2 : ∀ x : ℝ, ∀ u : Fin m, ∑ j, Q i j * x * (σ * (if j = u then 1 else 0)) = Q i u * x * σ := by
        intro x u
        simp [mul_ite]
      simp only [add_mul, Finset.sum_add_distrib, e1, e2]
      ring
    simp only [this, add_mul, Finset.sum_add_distrib]
    simp
    rw [hsym t s]; ring
  have h1 := hpsd fun i => (if i = s then 1 else 0) + 1 * (if i = t then 1 else 0)
  have h2 := hpsd fun i => (if i = s then 1 else 0) + (-1) * (if i = t then 1 else 0)
  rw [expand] at h1 h2
  have := hdiag s
  have := hdiag t
  rw [abs_le]
  constructor <;> linarith

/-- The active block of the Hessian is small and well conditioned if the full one is; a competitor for the objective gives one for the model. -/
theorem screened_gap (seeds : ℕ → BitVec 32) (D : IRLSData n p ic) (hD : Convexish D) (coef0 : Fin (p + ic.toNat) → ℝ)
    (st : IRLSState n p ic) (h : Visited (cdInner seeds) D coef0 st) (hin : InBounds ic D.lb D.ub st.coef)
    (c : Fin n → ℝ → ℝ) (hc : RowCurvature D c) (hpos : ∀ r eta, 0 ≤ c r eta) (b : Fin n → ℝ)
    (hb : ∀ u, objective D u ≤ objective D st.coef → ∀ r, b r ≤ c r (linPred ic D.X (off D) u r))
    (lam Lam : ℝ) (hl : 0 < lam) (hlL : lam ≤ Lam) (hs : StronglyConvex lam (fullHessian (p := p) ic D.X b D.P2))
    (hL : CurvatureAtMost Lam (fullHessian (p := p) ic D.X (innerState D st).hs.rows D.P2))
    (v : Fin (p + ic.toNat) → ℝ) (hv : InBounds ic D.lb D.ub v) (hle : objective D v ≤ objective D st.coef) :
    ∃ v', InBounds ic D.lb D.ub v' ∧ (∀ i, i ∉ Set.range (cdArgs D (innerState D st)).active → v' i = st.coef i) ∧
      lam / Lam * (objective D st.coef - objective D v)
        ≤ modelObj (cdArgs D (innerState D st)).active (cdArgs D (innerState D st)).Q ic D.P1 (fun k => -st.score k) st.coef st.coef
          - modelObj (cdArgs D (innerState D st)).active (cdArgs D (innerState D st)).Q ic D.P1 (fun k => -st.score k) st.coef v' := by
  classical
  have hok := visited_hessOK _ D hD coef0 st h
  obtain ⟨hwf, hpsd⟩ := cdArgs_ok D hD st hok (innerState D st) rfl
  have hsc := (visited_sync _ D hD.P1 coef0 st h).score
  set st1 := innerState D st with hst1
  have hact : st1.hs.active = identifyActiveSet D st := (updateHessian_init ic D.X D.P2 D.hessApprox st.hs _).2
  have hmem : ∀ s, st1.hs.active.get s ∈ identifyActiveSet D st := fun s => by
    rw [← hact]; exact List.get_mem _ _
  have hQ : ∀ s t, (cdArgs D st1).Q s t = fullHessian ic D.X st1.hs.rows D.P2 ((cdArgs D st1).active s) ((cdArgs D st1).active t) := fun s t =>
    updateHessian_block ic D.X D.P2 D.hessApprox st.hs hok.inv _ (activeSet_ok D st) _ (hmem s) _ (hmem t)
  have hrange : ∀ i, i ∉ Set.range (cdArgs D st1).active → i ∉ identifyActiveSet D st := by
    intro i hi hm
    rw [← hact] at hm
    obtain ⟨s, hs⟩ := List.get_of_mem hm
    exact hi ⟨s, hs⟩
  set A : Set (Fin (p + ic.toNat)) := Set.range (cdArgs D st1).active with hA
  set th : ℝ := lam / Lam with hth
  have hL0 : 0 < Lam := hl.trans_le hlL
  have hth0 : 0 ≤ th := by positivity
  have hth1 : th ≤ 1 := by rw [hth, div_le_one hL0]; exact hlL
  set w := st.coef with hw
  set u : Fin (p + ic.toNat) → ℝ := fun i => if i ∈ A then v i - w i else 0 with hu
  have huA : ∀ s, u ((cdArgs D st1).active s) = v ((cdArgs D st1).active s) - w ((cdArgs D st1).active s) := fun s => if_pos ⟨s, rfl⟩
  have huN : ∀ i, i ∉ A → u i = 0 := fun i hi => if_neg hi
  refine ⟨fun i => w i + th * u i, ?_, ?_, ?_⟩
  · intro i k hik
    have hi1 := hin i k hik
    have hi2 := hv i k hik
    have hmix : w i + th * u i = w i ∨ w i + th * u i = (1 - th) * w i + th * v i := by
      by_cases hi : i ∈ A
      · right; simp only [hu, if_pos hi]; ring
      · left; simp only [hu, if_neg hi]; ring
    beta_reduce
    rcases hmix with e | e
    · rw [e]; exact hi1
    · rw [e]
      constructor
      · intro l hl'
        have a1 := hi1.1 l hl'
        have a2 := hi2.1 l hl'
        nlinarith
      · intro l hl'
        have a1 := hi1.2 l hl'
        have a2 := hi2.2 l hl'
        nlinarith
  · intro i hi
    simp only [huN i hi, mul_zero, add_zero]
  · -- the model at the competitor
    have hquad : quad (cdArgs D st1).active (cdArgs D st1).Q (fun k => -st.score k) w (fun i => w i + th * u i)
        = th * ∑ i, -scoreAt D w i * u i + 1 / 2 * th ^ 2 * ∑ i, ∑ j, fullHessian ic D.X st1.hs.rows D.P2 i j * u i * u j := by
      unfold quad
      have e1 : ∑ i, -scoreAt D w i * u i = ∑ s, -scoreAt D w ((cdArgs D st1).active s) * u ((cdArgs D st1).active s) :=
        sum_active _ hwf.mono.injective _ fun i hi => by rw [huN i hi, mul_zero]
      have e2 : ∑ i, ∑ j, fullHessian ic D.X st1.hs.rows D.P2 i j * u i * u j
          = ∑ s, ∑ t, (cdArgs D st1).Q s t * u ((cdArgs D st1).active s) * u ((cdArgs D st1).active t) := by
        rw [sum_active _ hwf.mono.injective _ fun i hi => ?_]
        · refine Finset.sum_congr rfl fun s _ => ?_
          rw [sum_active _ hwf.mono.injective _ fun j hj => ?_]
          · exact Finset.sum_congr rfl fun t _ => by rw [hQ s t]
          · rw [huN j hj, mul_zero]
        · exact Finset.sum_eq_zero fun j _ => by rw [huN i hi, mul_zero, zero_mul]
      rw [e1, e2, Finset.mul_sum, Finset.mul_sum, Finset.mul_sum]
      congr 1
      · exact Finset.sum_congr rfl fun s _ => by beta_reduce; rw [hsc]; ring
      · refine Finset.sum_congr rfl fun s _ => ?_
        rw [Finset.mul_sum, Finset.mul_sum]
        exact Finset.sum_congr rfl fun t _ => by ring
    have hl1 : l1 ic D.P1 (fun i => w i + th * u i) ≤ l1 ic D.P1 w + th * (l1 ic D.P1 (fun i => w i + u i) - l1 ic D.P1 w) :=
      l1_chord (ic := ic) D.P1 hD.P1 w u th hth0 hth1
    have hcurv := hL u
    have hkey : ∑ i, (-scoreAt D w i * u i + l1Weight ic D.P1 i * (|w i + u i| - |w i|) + 1 / 2 * (lam * u i ^ 2))
        ≤ ∑ i, (-scoreAt D w i * (v i - w i) + l1Weight ic D.P1 i * (|v i| - |w i|) + 1 / 2 * (lam * (v i - w i) ^ 2)) := by
      refine Finset.sum_le_sum fun i _ => ?_
      by_cases hi : i ∈ A
      · have : u i = v i - w i := if_pos hi
        rw [this, add_sub_cancel]
      · rw [huN i hi]
        have h66 := (c66_screening_safe _ D hD.P1 coef0 st h i (hrange i hi)).2.2 (v i)
        have := mul_nonneg hl.le (sq_nonneg (v i - w i))
        simp only [mul_zero, add_zero, sub_self]
        rw [← hw] at h66
        rw [zero_pow two_ne_zero, mul_zero, mul_zero]
        linarith
    have hsum : ∀ z : Fin (p + ic.toNat) → ℝ, ∑ i, (-scoreAt D w i * z i + l1Weight ic D.P1 i * (|w i + z i| - |w i|) + 1 / 2 * (lam * z i ^ 2))
        = ∑ i, -scoreAt D w i * z i + (l1 ic D.P1 (fun i => w i + z i) - l1 ic D.P1 w) + 1 / 2 * (lam * ∑ i, z i ^ 2) := by
      intro z
      unfold l1
      rw [Finset.sum_add_distrib, Finset.sum_add_distrib, ← Finset.sum_sub_distrib, ← Finset.mul_sum, ← Finset.mul_sum]
      congr 2
      exact Finset.sum_congr rfl fun i _ => by ring
    have hvw : ∑ i, (-scoreAt D w i * (v i - w i) + l1Weight ic D.P1 i * (|v i| - |w i|) + 1 / 2 * (lam * (v i - w i) ^ 2))
        = ∑ i, -scoreAt D w i * (v i - w i) + (l1 ic D.P1 v - l1 ic D.P1 w) + 1 / 2 * (lam * ∑ i, (v i - w i) ^ 2) := by
      have := hsum fun i => v i - w i
      simp only [add_sub_cancel] at this
      exact this
    rw [hsum u, hvw] at hkey
    have hbelow := smooth_below D hD c hc hpos w v b hb hle
    have hst := hs fun i => v i - w i
    have hneg : ∑ i, -scoreAt D w i * (v i - w i) = -∑ k, scoreAt D w k * (v k - w k) := by
      rw [← Finset.sum_neg_distrib]
      exact Finset.sum_congr rfl fun i _ => by ring
    have htot : ∑ i, -scoreAt D w i * u i + (l1 ic D.P1 (fun i => w i + u i) - l1 ic D.P1 w) + 1 / 2 * (lam * ∑ i, u i ^ 2) ≤ objective D v - objective D w := by
      unfold objective
      linarith
    have hmul := mul_le_mul_of_nonneg_left htot hth0
    have hquad2 : 1 / 2 * th ^ 2 * ∑ i, ∑ j, fullHessian ic D.X st1.hs.rows D.P2 i j * u i * u j ≤ th * (1 / 2 * (lam * ∑ i, u i ^ 2)) := by
      have := mul_le_mul_of_nonneg_left hcurv (show 0 ≤ 1 / 2 * th ^ 2 by positivity)
      refine this.trans (le_of_eq ?_)
      rw [hth]; field_simp
    unfold modelObj
    rw [hquad, quad_zero]
    linarith

/-- What linear convergence needs. On the level set of the starting coefficients: `B r` bounds the curvature of row `r` and the Hessian row from above, `b r`
from below, and the means are below the overflow threshold; the row deviances are convex; `B ≤ rho b` with `rho ≤ 0.9999 · 2^J`; the Hessian built from `b` has
curvature at least `lam`, the one built from `B` at most `Lam`. -/
structure Spec.WellConditioned (D : IRLSData n p ic) (coef0 : Fin (p + ic.toNat) → ℝ) (c : Fin n → ℝ → ℝ) (b B : Fin n → ℝ) (J : ℕ) (lam Lam : ℝ) : Prop where
  curvature : RowCurvature D c
  convex : ∀ r eta, 0 ≤ c r eta
  tame : TameOn D coef0 c b B
  below : ∀ w, objective D w ≤ objective D coef0 → ∀ r, b r ≤ c r (linPred ic D.X (off D) w r)
  ratio : ∃ rho : ℝ, 1 ≤ rho ∧ rho ≤ 9999 / 10000 * 2 ^ J ∧ ∀ r, B r ≤ rho * b r
  trials : J < 20
  strong : StronglyConvex lam (fullHessian (p := p) ic D.X b D.P2)
  upper : CurvatureAtMost Lam (fullHessian (p := p) ic D.X B D.P2)
  eps : 16 * D.eps < lam
  order : lam ≤ Lam

/-- The guaranteed contraction per iteration: `1e-4 · 2^-J · (lam/Lam) / (1 + ((p+1) Lam/lam)²)`. -/
noncomputable def Spec.rate (p : ℕ) (J : ℕ) (lam Lam : ℝ) : ℝ := (1 / 2) ^ J * (1 / 10000) * (lam / Lam) / (1 + ((p + 1) * Lam / lam) ^ 2)

theorem rate_pos (p J : ℕ) (lam Lam : ℝ) (hl : 0 < lam) (hL : lam ≤ Lam) : 0 < rate p J lam Lam := by
  have := hl.trans_le hL
  unfold rate; positivity

theorem rate_le_one (p J : ℕ) (lam Lam : ℝ) (hl : 0 < lam) (hL : lam ≤ Lam) : rate p J lam Lam ≤ 1 := by
  have hL0 := hl.trans_le hL
  unfold rate
  rw [div_le_one (by positivity)]
  have h1 : ((1 : ℝ) / 2) ^ J ≤ 1 := pow_le_one₀ (by norm_num) (by norm_num)
  have h2 : lam / Lam ≤ 1 := by rw [div_le_one hL0]; exact hL
  have h3 : (1 / 2 : ℝ) ^ J * (1 / 10000) * (lam / Lam) ≤ 1 * (1 / 10000) * 1 :=
    mul_le_mul (mul_le_mul_of_nonneg_right h1 (by norm_num)) h2 (by positivity) (by norm_num)
  have : 0 ≤ ((p + 1) * Lam / lam) ^ 2 := sq_nonneg _
  linarith

/-- The model decrease achieved by coordinate descent is a fixed fraction of the distance to any better competitor. -/
theorem cd_model_gap (seeds : ℕ → BitVec 32) (D : IRLSData n p ic) (hD : Convexish D) (hcyc : D.random = false) (hmax : 1 ≤ D.maxInnerIter) (hsize : p + 1 < 2 ^ 32)
    (coef0 : Fin (p + ic.toNat) → ℝ) (c : Fin n → ℝ → ℝ) (hc : RowCurvature D c) (hpos : ∀ r eta, 0 ≤ c r eta) (b : Fin n → ℝ) (lam Lam : ℝ)
    (heps : 16 * D.eps < lam) (hord : lam ≤ Lam) (st : IRLSState n p ic) (h : Visited (cdInner seeds) D coef0 st) (hin : InBounds ic D.lb D.ub st.coef)
    (hb : ∀ u, objective D u ≤ objective D st.coef → ∀ r, b r ≤ c r (linPred ic D.X (off D) u r))
    (hs : StronglyConvex lam (fullHessian (p := p) ic D.X b D.P2))
    (hsr : StronglyConvex lam (fullHessian (p := p) ic D.X (innerState D st).hs.rows D.P2))
    (hLr : CurvatureAtMost Lam (fullHessian (p := p) ic D.X (innerState D st).hs.rows D.P2))
    (v : Fin (p + ic.toNat) → ℝ) (hv : InBounds ic D.lb D.ub v) (hle : objective D v ≤ objective D st.coef) :
    lam / Lam * (objective D st.coef - objective D v)
      ≤ (1 + ((p + 1) * Lam / lam) ^ 2) *
        (modelObj (cdArgs D (innerState D st)).active (cdArgs D (innerState D st)).Q ic D.P1 (fun k => -st.score k) st.coef st.coef
          - modelObj (cdArgs D (innerState D st)).active (cdArgs D (innerState D st)).Q ic D.P1 (fun k => -st.score k) st.coef
            ((cdArgs D (innerState D st)).run st.coef (fun k => -st.score k) (seeds st.nIter)).w) := by
  have hl : 0 < lam := lt_of_le_of_lt (by have := hD.eps; linarith) heps
  have hL0 := hl.trans_le hord
  obtain ⟨v', hv', hoff, hgap⟩ := screened_gap seeds D hD coef0 st h hin c hc hpos b hb lam Lam hl hord hs hLr v hv hle
  have hok := visited_hessOK _ D hD coef0 st h
  obtain ⟨hwf, hpsd⟩ := cdArgs_ok D hD st hok (innerState D st) rfl
  have hact : (innerState D st).hs.active = identifyActiveSet D st := (updateHessian_init ic D.X D.P2 D.hessApprox st.hs _).2
  have hmem : ∀ s, (innerState D st).hs.active.get s ∈ identifyActiveSet D st := fun s => by
    rw [← hact]; exact List.get_mem _ _
  have hQ : (cdArgs D (innerState D st)).Q = fun s t => fullHessian ic D.X (innerState D st).hs.rows D.P2 ((innerState D st).hs.active.get s) ((innerState D st).hs.active.get t) :=
    funext fun s => funext fun t => updateHessian_block ic D.X D.P2 D.hessApprox st.hs hok.inv _ (activeSet_ok D st) _ (hmem s) _ (hmem t)
  have hstrong : StronglyConvex lam (cdArgs D (innerState D st)).Q := by
    rw [hQ]
    exact strong_restrict lam _ hsr (fun s => (innerState D st).hs.active.get s) hwf.mono.injective
  have hupper : ∀ s t, |(cdArgs D (innerState D st)).Q s t| ≤ Lam := by
    intro s t
    rw [hQ]
    refine entry_bound (fullHessian ic D.X (innerState D st).hs.rows D.P2) ?_ ?_ Lam hLr _ _
    · intro i j
      unfold fullHessian
      rw [hD.symm i j]
      congr 1
      exact Finset.sum_congr rfl fun r _ => by ring
    · intro d
      have := hsr d
      have h2 : 0 ≤ lam * ∑ s, d s ^ 2 := mul_nonneg hl.le (Finset.sum_nonneg fun s _ => sq_nonneg _)
      linarith
  have hcard : (innerState D st).hs.active.length ≤ p + ic.toNat := by
    have := Fintype.card_le_of_injective _ hwf.mono.injective
    simpa using this
  have hic : ic.toNat ≤ 1 := by cases ic <;> simp
  have hrun := run_fraction (cdArgs D (innerState D st)) hwf (by omega) hcyc hmax st.coef (fun k => -st.score k) (seeds st.nIter) hin lam Lam
    (by show D.eps * 16 < lam; linarith) hstrong hupper v' hv' hoff
  have hmono : modelObj (cdArgs D (innerState D st)).active (cdArgs D (innerState D st)).Q ic D.P1 (fun k => -st.score k) st.coef
        ((cdArgs D (innerState D st)).run st.coef (fun k => -st.score k) (seeds st.nIter)).w
      ≤ modelObj (cdArgs D (innerState D st)).active (cdArgs D (innerState D st)).Q ic D.P1 (fun k => -st.score k) st.coef st.coef :=
    c22_run_not_worse (cdArgs D (innerState D st)) hwf st.coef (fun k => -st.score k) (seeds st.nIter) hin
  refine hgap.trans (hrun.trans ?_)
  have ha : ((innerState D st).hs.active.length : ℝ) ≤ p + 1 := by exact_mod_cast (show (innerState D st).hs.active.length ≤ p + 1 by omega)
  have hfac : 1 + ((innerState D st).hs.active.length * Lam / lam) ^ 2 ≤ 1 + ((p + 1) * Lam / lam) ^ 2 := by
    have : ((innerState D st).hs.active.length * Lam / lam) ^ 2 ≤ ((p + 1) * Lam / lam) ^ 2 := by
      refine pow_le_pow_left₀ (by positivity) ?_ 2
      exact div_le_div_of_nonneg_right (mul_le_mul_of_nonneg_right ha hL0.le) hl.le
    linarith
  exact mul_le_mul_of_nonneg_right hfac (sub_nonneg.2 hmono)

/-- The predicted change of a direction found by coordinate descent is a fixed fraction of the distance to any better competitor. -/
theorem cd_predicted_gap (seeds : ℕ → BitVec 32) (D : IRLSData n p ic) (hD : Convexish D) (hcyc : D.random = false) (hmax : 1 ≤ D.maxInnerIter) (hsize : p + 1 < 2 ^ 32)
    (coef0 : Fin (p + ic.toNat) → ℝ) (h0 : InBounds ic D.lb D.ub coef0) (c : Fin n → ℝ → ℝ) (b B : Fin n → ℝ) (J : ℕ) (lam Lam : ℝ)
    (hw : WellConditioned D coef0 c b B J lam Lam) (st : IRLSState n p ic) (h : Visited (cdInner seeds) D coef0 st)
    (hp : st.diagnostics.IsChain (Progress D.eps)) (v : Fin (p + ic.toNat) → ℝ) (hv : InBounds ic D.lb D.ub v) (hle : objective D v ≤ objective D st.coef) :
    lam / Lam * (objective D st.coef - objective D v)
      ≤ (1 + ((p + 1) * Lam / lam) ^ 2) * -predictedChange D st.coef (cdInner seeds D (innerState D st)).1 := by
  have hl : 0 < lam := lt_of_le_of_lt (by have := hD.eps; linarith) hw.eps
  have hL0 := hl.trans_le hw.order
  have hd : ∀ st, Visited (cdInner seeds) D coef0 st → predictedChange D st.coef (cdInner seeds D (innerState D st)).1 ≤ 0 := fun st hv =>
    (cd_direction seeds D hD st (visited_hessOK _ D hD coef0 st hv) (visited_sync _ D hD.P1 coef0 st hv).score (c19_irls_in_bounds seeds D hD.bounds coef0 h0 st hv)).1
  have hlev := progress_level (cdInner seeds) D hD.P1 hD.eps coef0 hd st h hp
  have hin := c19_irls_in_bounds seeds D hD.bounds coef0 h0 st h
  have hrows := progress_rows (cdInner seeds) D hD coef0 hd B hw.tame.above st h hp
  have hrowsb := progress_rows_below (cdInner seeds) D hD coef0 hd b hw.tame.below st h hp
  have hLr := curvature_mono D.X _ B hrows D.P2 Lam hw.upper
  have hsr := strong_mono D.X b _ hrowsb D.P2 lam hw.strong
  have hgap := cd_model_gap seeds D hD hcyc hmax hsize coef0 c hw.curvature hw.convex b lam Lam hw.eps hw.order st h hin (fun u hu => hw.below u (hu.trans hlev))
    hw.strong hsr hLr v hv hle
  have hen := cd_energy seeds D hD coef0 h0 b hw.tame.below lam hw.strong st h hp
  have hsq : 0 ≤ lam / 2 * ∑ k, (cdInner seeds D (innerState D st)).1 k ^ 2 := mul_nonneg (by linarith) (Finset.sum_nonneg fun k _ => sq_nonneg _)
  refine hgap.trans (mul_le_mul_of_nonneg_left ?_ (by positivity))
  linarith

/-- One iteration that shows progress contracts the distance to the optimum. -/
theorem cd_contracts (seeds : ℕ → BitVec 32) (D : IRLSData n p ic) (hD : Convexish D) (hcyc : D.random = false) (hmax : 1 ≤ D.maxInnerIter) (hsize : p + 1 < 2 ^ 32)
    (coef0 : Fin (p + ic.toNat) → ℝ) (h0 : InBounds ic D.lb D.ub coef0) (c : Fin n → ℝ → ℝ) (b B : Fin n → ℝ) (J : ℕ) (lam Lam : ℝ)
    (hw : WellConditioned D coef0 c b B J lam Lam) (st : IRLSState n p ic) (h : Visited (cdInner seeds) D coef0 st)
    (hm : (irlsStep (cdInner seeds) D st).diagnostics.IsChain (Moved D.eps)) (v : Fin (p + ic.toNat) → ℝ) (hv : InBounds ic D.lb D.ub v)
    (hle : objective D v ≤ objective D st.coef) :
    objective D (irlsStep (cdInner seeds) D st).coef - objective D v ≤ (1 - rate p J lam Lam) * (objective D st.coef - objective D v) := by
  have hl : 0 < lam := lt_of_le_of_lt (by have := hD.eps; linarith) hw.eps
  have hL0 := hl.trans_le hw.order
  obtain ⟨rho, hr1, hr2, hr3⟩ := hw.ratio
  have hdiag : (irlsStep (cdInner seeds) D st).diagnostics
      = ⟨st.nIter + 1, (irlsStep (cdInner seeds) D st).norm, (irlsStep (cdInner seeds) D st).obj,
          (lineSearch D (innerState D st) (cdInner seeds D (innerState D st)).1).warned⟩ :: st.diagnostics := rfl
  have hm' : st.diagnostics.IsChain (Moved D.eps) := by
    rw [hdiag] at hm
    exact List.IsChain.of_cons hm
  obtain ⟨hp, _⟩ := cd_moved_progress seeds D hD coef0 h0 c hw.curvature b B hw.tame rho hr1 hr3 J hw.trials hr2 lam hl hw.strong st h hm'
  have hne := cd_moved_ne seeds D hD coef0 h0 b hw.tame.below lam hl hw.strong st h hp hm
  obtain ⟨hk, hwn⟩ := cd_accepts seeds D hD coef0 h0 c hw.curvature b B hw.tame rho hr1 hr3 J hw.trials hr2 st h hp hne
  have hpn : (irlsStep (cdInner seeds) D st).diagnostics.IsChain (Progress D.eps) := by
    obtain ⟨w', rest', e'⟩ := visited_head (cdInner seeds) D coef0 st h
    rw [hdiag] at hm ⊢
    rw [e'] at hm hp ⊢
    exact List.isChain_cons_cons.2 ⟨⟨hwn, (List.isChain_cons_cons.1 hm).1⟩, hp⟩
  have hd0 : predictedChange D st.coef (cdInner seeds D (innerState D st)).1 ≤ 0 :=
    (cd_direction seeds D hD st (visited_hessOK _ D hD coef0 st h) (visited_sync _ D hD.P1 coef0 st h).score (c19_irls_in_bounds seeds D hD.bounds coef0 h0 st h)).1
  have hstep := progress_step (cdInner seeds) D hD.P1 hD.eps coef0 st h hd0 J hk hpn
  have hgap := cd_predicted_gap seeds D hD hcyc hmax hsize coef0 h0 c b B J lam Lam hw st h hp v hv hle
  set P := predictedChange D st.coef (cdInner seeds D (innerState D st)).1 with hP
  set K : ℝ := 1 + ((p + 1) * Lam / lam) ^ 2 with hK
  have hK0 : 0 < K := by positivity
  have hrate : rate p J lam Lam * (objective D st.coef - objective D v) ≤ (1 / 2) ^ J * (1 / 10000 * -P) := by
    have e : rate p J lam Lam * (objective D st.coef - objective D v)
        = (1 / 2) ^ J * (1 / 10000) * (lam / Lam * (objective D st.coef - objective D v)) / K := by
      unfold rate; rw [← hK]; ring
    rw [e, div_le_iff₀ hK0]
    have := mul_le_mul_of_nonneg_left hgap (show (0 : ℝ) ≤ (1 / 2) ^ J * (1 / 10000) by positivity)
    refine this.trans (le_of_eq ?_)
    ring
  linarith

/-- **C86.** An `irls-cd` fit with cyclic selection on a well-conditioned problem, with any L1 penalty and bounds, in which every iteration changes the
objective by more than round-off, converges linearly: after `k` iterations the recorded objective exceeds the minimum over the feasible set by at most
`(1 - rate)^k` times the initial excess. -/
theorem c86_linear (seeds : ℕ → BitVec 32) (D : IRLSData n p ic) (hD : Convexish D) (hcyc : D.random = false) (hmax : 1 ≤ D.maxInnerIter) (hsize : p + 1 < 2 ^ 32)
    (coef0 : Fin (p + ic.toNat) → ℝ) (h0 : InBounds ic D.lb D.ub coef0) (c : Fin n → ℝ → ℝ) (b B : Fin n → ℝ) (J : ℕ) (lam Lam : ℝ)
    (hw : WellConditioned D coef0 c b B J lam Lam) (v : Fin (p + ic.toNat) → ℝ) (hv : InBounds ic D.lb D.ub v)
    (hopt : ∀ u, InBounds ic D.lb D.ub u → objective D v ≤ objective D u)
    (hm : (irlsRun (cdInner seeds) D coef0).diagnostics.IsChain (Moved D.eps)) :
    (∀ rec ∈ (irlsRun (cdInner seeds) D coef0).diagnostics,
      rec.obj - objective D v ≤ (1 - rate p J lam Lam) ^ rec.nIter * (objective D coef0 - objective D v)) ∧
    objective D (irlsRun (cdInner seeds) D coef0).coef - objective D v
      ≤ (1 - rate p J lam Lam) ^ (irlsRun (cdInner seeds) D coef0).nIter * (objective D coef0 - objective D v) := by
  have hl : 0 < lam := lt_of_le_of_lt (by have := hD.eps; linarith) hw.eps
  have hr1 := rate_le_one p J lam Lam hl hw.order
  have key : ∀ st, Visited (cdInner seeds) D coef0 st → st.diagnostics.IsChain (Moved D.eps) →
      (∀ rec ∈ st.diagnostics, rec.obj - objective D v ≤ (1 - rate p J lam Lam) ^ rec.nIter * (objective D coef0 - objective D v)) ∧
      objective D st.coef - objective D v ≤ (1 - rate p J lam Lam) ^ st.nIter * (objective D coef0 - objective D v) := by
    intro st h
    induction h with
    | init =>
      intro _
      have hobj : (irlsInit D coef0).obj = objective D coef0 := (visited_sync (cdInner seeds) D hD.P1 coef0 _ Visited.init).obj
      constructor
      · intro rec hrec
        have hrec : rec ∈ [(⟨0, (irlsInit D coef0).norm, (irlsInit D coef0).obj, false⟩ : Diag)] := hrec
        rw [List.mem_singleton] at hrec
        rw [hrec]
        simp only [pow_zero, one_mul]
        rw [hobj]
      · show objective D coef0 - _ ≤ _ ^ 0 * _
        simp
    | step st hv' hn hc ih =>
      intro hm
      have hdiag : (irlsStep (cdInner seeds) D st).diagnostics
          = ⟨st.nIter + 1, (irlsStep (cdInner seeds) D st).norm, (irlsStep (cdInner seeds) D st).obj,
              (lineSearch D (innerState D st) (cdInner seeds D (innerState D st)).1).warned⟩ :: st.diagnostics := rfl
      have hm0 := hm
      rw [hdiag] at hm
      obtain ⟨i1, i2⟩ := ih (List.IsChain.of_cons hm)
      have hcon := cd_contracts seeds D hD hcyc hmax hsize coef0 h0 c b B J lam Lam hw st hv' hm0 v hv
        (hopt _ (c19_irls_in_bounds seeds D hD.bounds coef0 h0 st hv'))
      have hnew : objective D (irlsStep (cdInner seeds) D st).coef - objective D v
          ≤ (1 - rate p J lam Lam) ^ (st.nIter + 1) * (objective D coef0 - objective D v) := by
        refine hcon.trans ?_
        rw [pow_succ', mul_assoc]
        exact mul_le_mul_of_nonneg_left i2 (by linarith)
      refine ⟨fun rec hrec => ?_, hnew⟩
      rw [hdiag] at hrec
      rcases List.mem_cons.1 hrec with rfl | hrec
      · simp only
        have hobj : (irlsStep (cdInner seeds) D st).obj = objective D (irlsStep (cdInner seeds) D st).coef :=
          (visited_sync (cdInner seeds) D hD.P1 coef0 _ (Visited.step st hv' hn hc)).obj
        rw [hobj]
        exact hnew
      · exact i1 rec hrec
  exact key _ (irlsRun_visited (cdInner seeds) D coef0) hm

/-- **C86, coefficients.** The coefficients of such a fit are within `2 sqrt((1 - rate)^k · gap / lam)` of the minimiser after `k` iterations. -/
theorem c86_distance (seeds : ℕ → BitVec 32) (D : IRLSData n p ic) (hD : Convexish D) (hcyc : D.random = false) (hmax : 1 ≤ D.maxInnerIter) (hsize : p + 1 < 2 ^ 32)
    (coef0 : Fin (p + ic.toNat) → ℝ) (h0 : InBounds ic D.lb D.ub coef0) (c : Fin n → ℝ → ℝ) (b B : Fin n → ℝ) (J : ℕ) (lam Lam : ℝ)
    (hw : WellConditioned D coef0 c b B J lam Lam) (v : Fin (p + ic.toNat) → ℝ) (hv : InBounds ic D.lb D.ub v)
    (hopt : ∀ u, InBounds ic D.lb D.ub u → objective D v ≤ objective D u)
    (hm : (irlsRun (cdInner seeds) D coef0).diagnostics.IsChain (Moved D.eps)) :
    ∑ k, ((irlsRun (cdInner seeds) D coef0).coef k - v k) ^ 2
      ≤ 4 / lam * ((1 - rate p J lam Lam) ^ (irlsRun (cdInner seeds) D coef0).nIter * (objective D coef0 - objective D v)) := by
  have hl : 0 < lam := lt_of_le_of_lt (by have := hD.eps; linarith) hw.eps
  have hvis := irlsRun_visited (cdInner seeds) D coef0
  have h1 := (c86_linear seeds D hD hcyc hmax hsize coef0 h0 c b B J lam Lam hw v hv hopt hm).2
  have hd : ∀ st, Visited (cdInner seeds) D coef0 st → predictedChange D st.coef (cdInner seeds D (innerState D st)).1 ≤ 0 := fun st hv =>
    (cd_direction seeds D hD st (visited_hessOK _ D hD coef0 st hv) (visited_sync _ D hD.P1 coef0 st hv).score (c19_irls_in_bounds seeds D hD.bounds coef0 h0 st hv)).1
  obtain ⟨rho, hr1, hr2, hr3⟩ := hw.ratio
  obtain ⟨hp, _⟩ := cd_moved_progress seeds D hD coef0 h0 c hw.curvature b B hw.tame rho hr1 hr3 J hw.trials hr2 lam hl hw.strong _ hvis hm
  have hlev := progress_level (cdInner seeds) D hD.P1 hD.eps coef0 hd _ hvis hp
  have h2 := minimiser_growth D hD c hw.curvature hw.convex _ v b (fun u hu => hw.below u (hu.trans hlev)) lam hw.strong
    (c19_irls_in_bounds seeds D hD.bounds coef0 h0 _ hvis) hv hopt
  have h3 := mul_le_mul_of_nonneg_left (h2.trans h1) (show 0 ≤ 4 / lam by positivity)
  refine le_trans (le_of_eq ?_) h3
  field_simp

end Glum
