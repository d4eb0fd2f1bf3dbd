import Verif.Props.Drop
/-
C138: the conditions that characterise the solution of a penalised, bounded problem, column by column.
The fits are those of Model/Fit (src/glum/_glm.py: fit, _solve, _solve_regularization_path; src/glum/_solvers.py: _irls_solver, _cd_solver).
-/
set_option linter.unusedSectionVars false
set_option linter.unusedVariables false
set_option linter.unusedSimpArgs false

namespace Glum
open Spec Topology

variable {n p : ℕ} {ic : Bool}

/-! ### Specification -/

/-- The score of a column at given coefficients: the weighted residuals times the column, less the derivative of the ridge term. -/
noncomputable def Spec.netScore (C : FitCfg p ic) (R : Rows n) (s : ℕ → ℝ) (a l1r b0 : ℝ) (b : ℕ → ℝ) (j : ℕ) : ℝ :=
  ∑ r, scoreResidual C R b0 b r * R.X r j - a * (1 - l1r) * (s j * ∑ k : Fin p, (userP2 C.P2a j k + userP2 C.P2a k j) / 2 * (b k * s k))

/-- The value `x` is within the bounds of column `j`. -/
def Spec.Admits (lb ub : Option (ℕ → ℝ)) (j : ℕ) (x : ℝ) : Prop := (∀ l, lb = some l → l j ≤ x) ∧ ∀ u, ub = some u → x ≤ u j

/-- Column by column: the residuals sum to zero if there is an intercept, and no admissible change of one coefficient gains more by its score than it costs by its L1 term. -/
structure Spec.Balanced (C : FitCfg p ic) (R : Rows n) (s : ℕ → ℝ) (a l1r b0 : ℝ) (b : ℕ → ℝ) : Prop where
  intercept : (ic = true → ∑ r, scoreResidual C R b0 b r = 0) ∧ (ic = false → b0 = 0)
  admitted : ∀ j < p, Admits C.lb C.ub j (b j)
  coef : ∀ j < p, ∀ x, Admits C.lb C.ub j x → netScore C R s a l1r b0 b j * (x - b j) ≤ a * l1r * userP1 C.P1a j * |s j| * (|x| - |b j|)

/-! ### The variational inequality -/

theorem rowEta_sub (R : Rows n) (b0 d0 : ℝ) (b d : ℕ → ℝ) (r : Fin n) :
    rowEta p R d0 d r - rowEta p R b0 b r = ∑ j : Fin p, R.X r j * (d j - b j) + (d0 - b0) := by
  unfold rowEta
  simp only [mul_sub, Finset.sum_sub_distrib]
  ring

theorem residual_move (C : FitCfg p ic) (R : Rows n) (b0 d0 : ℝ) (b d : ℕ → ℝ) : ∑ r, scoreResidual C R b0 b r * (rowEta p R d0 d r - rowEta p R b0 b r) =
    ∑ j : Fin p, (∑ r, scoreResidual C R b0 b r * R.X r j) * (d j - b j) + (∑ r, scoreResidual C R b0 b r) * (d0 - b0) := by
  simp only [rowEta_sub, mul_add, Finset.sum_add_distrib, Finset.sum_mul, Finset.mul_sum]
  rw [Finset.sum_comm]
  congr 1
  exact Finset.sum_congr rfl fun j _ => Finset.sum_congr rfl fun r _ => by ring

theorem ridge_move (C : FitCfg p ic) (s : ℕ → ℝ) (b d : ℕ → ℝ) :
    ∑ j : Fin p, ∑ k : Fin p, userP2 C.P2a j k * (d j * s j) * (d k * s k) = ∑ j : Fin p, ∑ k : Fin p, userP2 C.P2a j k * (b j * s j) * (b k * s k)
      + 2 * ∑ j : Fin p, (s j * ∑ k : Fin p, (userP2 C.P2a j k + userP2 C.P2a k j) / 2 * (b k * s k)) * (d j - b j)
      + ∑ j : Fin p, ∑ k : Fin p, userP2 C.P2a j k * ((d j - b j) * s j) * ((d k - b k) * s k) := by
  have e : 2 * ∑ j : Fin p, (s j * ∑ k : Fin p, (userP2 C.P2a j k + userP2 C.P2a k j) / 2 * (b k * s k)) * (d j - b j) =
      ∑ j : Fin p, ∑ k : Fin p, userP2 C.P2a j k * ((d j - b j) * s j) * (b k * s k) + ∑ j : Fin p, ∑ k : Fin p, userP2 C.P2a j k * (b j * s j) * ((d k - b k) * s k) := by
    rw [Finset.sum_comm (f := fun j k : Fin p => userP2 C.P2a j k * (b j * s j) * ((d k - b k) * s k)), ← Finset.sum_add_distrib, Finset.mul_sum]
    refine Finset.sum_congr rfl fun j _ => ?_
    rw [← Finset.sum_add_distrib, Finset.mul_sum, Finset.sum_mul, Finset.mul_sum]
    exact Finset.sum_congr rfl fun k _ => by ring
  rw [e]
  simp only [← Finset.sum_add_distrib]
  exact Finset.sum_congr rfl fun j _ => Finset.sum_congr rfl fun k _ => by ring

/-- The penalty of another point, expanded. -/
theorem penalty_move (C : FitCfg p ic) (s : ℕ → ℝ) (l1r : ℝ) (b d : ℕ → ℝ) :
    enetPenalty p s C.P1a C.P2a l1r d - enetPenalty p s C.P1a C.P2a l1r b = l1r * ∑ j : Fin p, userP1 C.P1a j * |s j| * (|d j| - |b j|)
      + (1 - l1r) * ∑ j : Fin p, (s j * ∑ k : Fin p, (userP2 C.P2a j k + userP2 C.P2a k j) / 2 * (b k * s k)) * (d j - b j)
      + (1 - l1r) * (1 / 2 * ∑ j : Fin p, ∑ k : Fin p, userP2 C.P2a j k * ((d j - b j) * s j) * ((d k - b k) * s k)) := by
  unfold enetPenalty
  rw [ridge_move C s b d]
  have : ∑ j : Fin p, userP1 C.P1a j * |s j| * (|d j| - |b j|) = ∑ j : Fin p, userP1 C.P1a j * |d j * s j| - ∑ j : Fin p, userP1 C.P1a j * |b j * s j| := by
    rw [← Finset.sum_sub_distrib]
    exact Finset.sum_congr rfl fun j _ => by rw [abs_mul, abs_mul]; ring
  rw [this]
  ring

/-- Scores and L1 terms of a move, together. -/
theorem net_move (C : FitCfg p ic) (R : Rows n) (s : ℕ → ℝ) (a l1r b0 : ℝ) (b d : ℕ → ℝ) :
    ∑ j : Fin p, netScore C R s a l1r b0 b j * (d j - b j) = ∑ j : Fin p, (∑ r, scoreResidual C R b0 b r * R.X r j) * (d j - b j)
      - a * (1 - l1r) * ∑ j : Fin p, (s j * ∑ k : Fin p, (userP2 C.P2a j k + userP2 C.P2a k j) / 2 * (b k * s k)) * (d j - b j) := by
  unfold netScore
  rw [Finset.mul_sum, ← Finset.sum_sub_distrib]
  exact Finset.sum_congr rfl fun j _ => by ring

theorem linear_of_small {A B : ℝ} (h : ∀ t : ℝ, 0 < t → t ≤ 1 → 0 ≤ t * A + t ^ 2 * B) : 0 ≤ A := by
  by_contra hA
  push Not at hA
  have hB : 0 < |B| + |A| + 1 := by positivity
  have ht : 0 < -A / (2 * (|B| + |A| + 1)) := by apply div_pos <;> linarith
  have h1 : -A / (2 * (|B| + |A| + 1)) ≤ 1 := by
    rw [div_le_one (by linarith)]
    linarith [neg_le_abs A, abs_nonneg B, abs_nonneg A]
  have := h _ ht h1
  set t := -A / (2 * (|B| + |A| + 1)) with htd
  have e : t * (2 * (|B| + |A| + 1)) = -A := by rw [htd]; field_simp
  have k : 0 ≤ A + t * B := by
    by_contra hk
    push Not at hk
    nlinarith
  nlinarith [le_abs_self B, abs_nonneg A, mul_le_mul_of_nonneg_left (le_abs_self B) ht.le, mul_nonneg ht.le (abs_nonneg A)]

theorem solution_vi (C : FitCfg p ic) (R : Rows n) (s : ℕ → ℝ) (a l1r : ℝ) (hC : ConvexFit C R l1r) (ha : 0 ≤ a) (b0 d0 : ℝ) (b d : ℕ → ℝ)
    (hsol : Solves p ic C.lb C.ub (fitObjective p C.e50 C.family C.link R s C.P1a C.P2a a l1r) b0 b) (hd0 : ic = false → d0 = 0) (hd : WithinBounds p C.lb C.ub d) :
    ∑ j : Fin p, netScore C R s a l1r b0 b j * (d j - b j) + (∑ r, scoreResidual C R b0 b r) * (d0 - b0) ≤
      a * l1r * ∑ j : Fin p, userP1 C.P1a j * |s j| * (|d j| - |b j|) := by
  rw [← sub_nonneg]
  refine linear_of_small (B := a * (1 - l1r) * (1 / 2 * ∑ j : Fin p, ∑ k : Fin p, userP2 C.P2a j k * ((d j - b j) * s j) * ((d k - b k) * s k))) fun t h0 h1 => ?_
  have hin : WithinBounds p C.lb C.ub fun j => b j + t * (d j - b j) := fun j hj => by
    obtain ⟨l1, u1⟩ := hsol.2.1 j hj
    obtain ⟨l2, u2⟩ := hd j hj
    refine ⟨fun l hl => ?_, fun u hu => ?_⟩
    · have e1 := l1 l hl
      have e2 := l2 l hl
      show l j ≤ b j + t * (d j - b j)
      nlinarith
    · have e1 := u1 u hu
      have e2 := u2 u hu
      show b j + t * (d j - b j) ≤ u j
      nlinarith
  have m := solution_slope C R s a l1r hC ha b0 (b0 + t * (d0 - b0)) b (fun j => b j + t * (d j - b j)) hsol (fun hi => by rw [hsol.1 hi, hd0 hi]; ring) hin
  rw [residual_move, penalty_move] at m
  have e : ∀ j, (b j + t * (d j - b j)) - b j = t * (d j - b j) := fun j => by ring
  simp only [e] at m
  have k1 : ∑ j : Fin p, userP1 C.P1a j * |s j| * (|b j + t * (d j - b j)| - |b j|) ≤ t * ∑ j : Fin p, userP1 C.P1a j * |s j| * (|d j| - |b j|) := by
    rw [Finset.mul_sum]
    refine Finset.sum_le_sum fun j _ => ?_
    have : |b j + t * (d j - b j)| - |b j| ≤ t * (|d j| - |b j|) := by
      have e : b j + t * (d j - b j) = (1 - t) * b j + t * d j := by ring
      rw [e]
      have := abs_add_le ((1 - t) * b j) (t * d j)
      rw [abs_mul, abs_mul t, abs_of_nonneg h0.le, abs_of_nonneg (show 0 ≤ 1 - t by linarith)] at this
      linarith
    have := mul_le_mul_of_nonneg_left this (mul_nonneg (hC.p1 j) (abs_nonneg (s j)))
    linarith
  have e2 : ∀ f : ℕ → ℝ, ∑ j : Fin p, f j * (t * (d j - b j)) = t * ∑ j : Fin p, f j * (d j - b j) := fun f => by
    rw [Finset.mul_sum]
    exact Finset.sum_congr rfl fun j _ => by ring
  have e3 : ∑ j : Fin p, ∑ k : Fin p, userP2 C.P2a j k * (t * (d j - b j) * s j) * (t * (d k - b k) * s k) =
      t ^ 2 * ∑ j : Fin p, ∑ k : Fin p, userP2 C.P2a j k * ((d j - b j) * s j) * ((d k - b k) * s k) := by
    rw [Finset.mul_sum]
    refine Finset.sum_congr rfl fun j _ => ?_
    rw [Finset.mul_sum]
    exact Finset.sum_congr rfl fun k _ => by ring
  rw [e2 fun j => ∑ r, scoreResidual C R b0 b r * R.X r j, e2 fun j => s j * ∑ k : Fin p, (userP2 C.P2a j k + userP2 C.P2a k j) / 2 * (b k * s k), e3, add_sub_cancel_left] at m
  rw [net_move]
  have k2 := mul_le_mul_of_nonneg_left k1 (mul_nonneg ha hC.l1.1)
  linarith

/-! ### The characterisation -/

/-- **C138.** For the convex pairs: coefficients solve the problem exactly if they are balanced column by column. -/
theorem c138_solution (C : FitCfg p ic) (R : Rows n) (s : ℕ → ℝ) (a l1r : ℝ) (hC : ConvexFit C R l1r) (ha : 0 ≤ a) (b0 : ℝ) (b : ℕ → ℝ) :
    Solves p ic C.lb C.ub (fitObjective p C.e50 C.family C.link R s C.P1a C.P2a a l1r) b0 b ↔ Balanced C R s a l1r b0 b := by
  constructor
  · intro hsol
    have one : ∀ j < p, ∀ x, Admits C.lb C.ub j x → netScore C R s a l1r b0 b j * (x - b j) ≤ a * l1r * userP1 C.P1a j * |s j| * (|x| - |b j|) := fun j hj x hx => by
      have hin : WithinBounds p C.lb C.ub (Function.update b j x) := fun k hk => by
        by_cases hkj : k = j
        · subst hkj
          rw [Function.update_self]
          exact hx
        · rw [Function.update_of_ne hkj]
          exact hsol.2.1 k hk
      have := solution_vi C R s a l1r hC ha b0 b0 b (Function.update b j x) hsol hsol.1 hin
      rw [sub_self, mul_zero, add_zero, Finset.sum_eq_single (⟨j, hj⟩ : Fin p), Finset.sum_eq_single (⟨j, hj⟩ : Fin p)] at this
      · simp only [Function.update_self] at this
        linarith
      · intro k _ hk
        rw [Function.update_of_ne (fun e => hk (Fin.ext e)), sub_self, mul_zero]
      · intro h; exact absurd (Finset.mem_univ _) h
      · intro k _ hk
        rw [Function.update_of_ne (fun e => hk (Fin.ext e)), sub_self, mul_zero]
      · intro h; exact absurd (Finset.mem_univ _) h
    refine ⟨?_, hsol.2.1, one⟩
    refine ⟨fun hi => ?_, hsol.1⟩
    have hn : ∀ d0 : ℝ, ic = false → d0 = 0 := fun d0 h => by rw [hi] at h; cases h
    have h1 := solution_vi C R s a l1r hC ha b0 (b0 + 1) b b hsol (hn _) hsol.2.1
    have h2 := solution_vi C R s a l1r hC ha b0 (b0 - 1) b b hsol (hn _) hsol.2.1
    simp only [sub_self, mul_zero, Finset.sum_const_zero, zero_add] at h1 h2
    linarith
  · intro hb
    refine ⟨hb.intercept.2, hb.admitted, fun d0 d hd0 hd => ?_⟩
    have hl : ∀ r, rowLoss C R r (rowEta p R b0 b r) + -2 * scoreResidual C R b0 b r * (rowEta p R d0 d r - rowEta p R b0 b r) ≤ rowLoss C R r (rowEta p R d0 d r) := fun r => by
      have hcv := doc_row_convex C R l1r hC r
      have hsl := rowLoss_hasDeriv C R l1r hC r (rowEta p R b0 b r)
      rw [rowSlope_residual] at hsl
      rcases lt_trichotomy (rowEta p R b0 b r) (rowEta p R d0 d r) with hlt | heq | hgt
      · have := hcv.le_slope_of_hasDerivAt (Set.mem_univ _) (Set.mem_univ _) hlt hsl
        rw [slope_def_field, le_div_iff₀ (by linarith)] at this
        unfold rowLoss at *
        linarith
      · rw [heq]; simp
      · have := hcv.slope_le_of_hasDerivAt (Set.mem_univ _) (Set.mem_univ _) hgt hsl
        rw [slope_def_field, div_le_iff₀ (by linarith)] at this
        unfold rowLoss at *
        linarith
    have k3 := Finset.sum_le_sum fun r (_ : r ∈ Finset.univ) => hl r
    rw [Finset.sum_add_distrib] at k3
    have e : ∑ r, -2 * scoreResidual C R b0 b r * (rowEta p R d0 d r - rowEta p R b0 b r) = -2 * ∑ r, scoreResidual C R b0 b r * (rowEta p R d0 d r - rowEta p R b0 b r) := by
      rw [Finset.mul_sum]
      exact Finset.sum_congr rfl fun r _ => by ring
    rw [e, residual_move] at k3
    have hint : (∑ r, scoreResidual C R b0 b r) * (d0 - b0) = 0 := by
      rcases Bool.eq_false_or_eq_true ic with hi | hi
      · rw [hb.intercept.1 hi, zero_mul]
      · rw [hd0 hi, hb.intercept.2 hi, sub_self, mul_zero]
    have hsum : ∑ j : Fin p, netScore C R s a l1r b0 b j * (d j - b j) ≤ a * l1r * ∑ j : Fin p, userP1 C.P1a j * |s j| * (|d j| - |b j|) := by
      rw [Finset.mul_sum]
      refine Finset.sum_le_sum fun j _ => (hb.coef j j.2 (d j) (hd j j.2)).trans_eq (by ring)
    rw [net_move] at hsum
    have hpen := penalty_move C s l1r b d
    have hq := mul_nonneg (mul_nonneg ha (show 0 ≤ 1 - l1r by linarith [hC.l1.2])) (hC.p2 fun j => (d j - b j) * s j)
    have hpa : a * _ = a * _ := congrArg (a * ·) hpen
    rw [fitObjective_split, fitObjective_split, loss_rows, loss_rows]
    linarith

/-! ### Without bounds -/

theorem balanced_free {G b l : ℝ} (hl : 0 ≤ l) : (∀ x, G * (x - b) ≤ l * (|x| - |b|)) ↔ |G| ≤ l ∧ G * b = l * |b| := by
  constructor
  · intro h
    have h0 := h 0
    have h2 := h (2 * b)
    rw [abs_zero, zero_sub] at h0
    rw [abs_mul, abs_two] at h2
    have e : G * b = l * |b| := by linarith
    refine ⟨?_, e⟩
    have h3 := h (b + 1)
    have h4 := h (b - 1)
    have h5 := abs_add_le b 1
    have h6 := abs_add_le b (-1)
    rw [abs_one] at h5
    rw [abs_neg, abs_one, ← sub_eq_add_neg] at h6
    rw [abs_le]
    constructor <;> nlinarith [mul_le_mul_of_nonneg_left h5 hl, mul_le_mul_of_nonneg_left h6 hl]
  · rintro ⟨h1, h2⟩ x
    have : G * x ≤ l * |x| := by
      have := mul_le_mul_of_nonneg_right h1 (abs_nonneg x)
      rw [← abs_mul] at this
      exact (le_abs_self _).trans this
    linarith

/-- **C138, without bounds.** Each column's score is at most its threshold `alpha * l1_ratio * P1`, and equal to it, with the sign of the coefficient, if the coefficient is not zero. -/
theorem c138_free (C : FitCfg p ic) (R : Rows n) (s : ℕ → ℝ) (a l1r : ℝ) (hC : ConvexFit C R l1r) (ha : 0 ≤ a) (hlb : C.lb = none) (hub : C.ub = none) (b0 : ℝ) (b : ℕ → ℝ) :
    Solves p ic C.lb C.ub (fitObjective p C.e50 C.family C.link R s C.P1a C.P2a a l1r) b0 b ↔
      ((ic = true → ∑ r, scoreResidual C R b0 b r = 0) ∧ (ic = false → b0 = 0)) ∧ ∀ j < p, |netScore C R s a l1r b0 b j| ≤ a * l1r * userP1 C.P1a j * |s j| ∧
        (0 < b j → netScore C R s a l1r b0 b j = a * l1r * userP1 C.P1a j * |s j|) ∧ (b j < 0 → netScore C R s a l1r b0 b j = -(a * l1r * userP1 C.P1a j * |s j|)) := by
  have adm : ∀ j x, Admits C.lb C.ub j x := fun j x => ⟨(fun l hl => by rw [hlb] at hl; cases hl), (fun u hu => by rw [hub] at hu; cases hu)⟩
  have hl : ∀ j, 0 ≤ a * l1r * userP1 C.P1a j * |s j| := fun j => mul_nonneg (mul_nonneg (mul_nonneg ha hC.l1.1) (hC.p1 j)) (abs_nonneg _)
  rw [c138_solution C R s a l1r hC ha]
  constructor
  · intro h
    refine ⟨h.intercept, fun j hj => ?_⟩
    obtain ⟨h1, h2⟩ := (balanced_free (hl j)).1 fun x => h.coef j hj x (adm j x)
    refine ⟨h1, fun hp => ?_, fun hn => ?_⟩
    · rw [abs_of_pos hp] at h2
      exact mul_right_cancel₀ hp.ne' h2
    · rw [abs_of_neg hn] at h2
      exact mul_right_cancel₀ hn.ne (by rw [h2]; ring)
  · rintro ⟨h0, h⟩
    refine ⟨h0, fun j _ => adm j _, fun j hj x _ => ?_⟩
    obtain ⟨h1, h2, h3⟩ := h j hj
    refine (balanced_free (hl j)).2 ⟨h1, ?_⟩ x
    rcases lt_trichotomy (b j) 0 with hn | hz | hp
    · rw [h3 hn, abs_of_neg hn]; ring
    · rw [hz]; simp
    · rw [h2 hp, abs_of_pos hp]

/-- **C138, fits.** Coefficients that are balanced, for a problem penalised as in C90, are the ones all fits approach: for every `ε` there is a tolerance below which every fit - by any inner
solver, from any start, on any path - has these coefficients up to `ε`. -/
theorem c138_fits (C : FitCfg p ic) (stats : Stats) (R : Rows n) (l1r a : ℝ) (h : ConvexFit C R l1r) (hr : RegularFit C R l1r a) (hs : ∀ j, 0 ≤ (stats n R.X R.sw).2 j)
    (b0 : ℝ) (b : ℕ → ℝ) (hb : Balanced C R (penScale C.thr C.asIfScaled (stats n R.X R.sw).2) a l1r b0 b) (ε : ℝ) (hε : 0 < ε) :
    ∃ δ : ℝ, 0 < δ ∧ EveryFit C stats R l1r a δ fun d0 d => |d0 - b0| ≤ ε ∧ ∀ j < p, |d j - b j| ≤ ε :=
  c132_transfer C stats R l1r a h hs b0 b ⟨(c138_solution C R _ a l1r h hr.alpha.le b0 b).2 hb, Or.inl hr⟩ _ ⟨ε, hε, fun d0 d hd => hd⟩

/-! ### The scores of a fit -/

theorem fast_range {f : Family} {l : Link} {k : Fast} (hk : f.fast l = some k) (e : ℝ) : e ∈ linkRange l := by
  cases f <;> cases l <;> simp only [Family.fast, reduceCtorEq] at hk <;> trivial

theorem scoreResidual_cont (C : FitCfg p ic) (R : Rows n) (l1r : ℝ) (hC : ConvexFit C R l1r) (r : Fin n) (z : ℝ × (Fin p → ℝ)) :
    ContinuousAt (fun x : ℝ × (Fin p → ℝ) => scoreResidual C R x.1 (extend x.2) r) z := by
  obtain ⟨k, hk, -⟩ := hC.pair
  have he : ContinuousAt (fun x : ℝ × (Fin p → ℝ) => etaAt p R x.1 (extend x.2) r) z := by
    have : Continuous fun x : ℝ × (Fin p → ℝ) => etaAt p R x.1 (extend x.2) r := by
      unfold etaAt
      simp only [extend_fin]
      fun_prop
    exact this.continuousAt
  have hm : ContinuousAt (fun x : ℝ × (Fin p → ℝ) => trueMean C.e50 C.family C.link (etaAt p R x.1 (extend x.2) r)) z :=
    ContinuousAt.comp (g := trueMean C.e50 C.family C.link) (trueMean_hasDeriv C.e50 C.family C.link k hk _).1.continuousAt he
  have hmu := (trueMean_hasDeriv C.e50 C.family C.link k hk (etaAt p R z.1 (extend z.2) r)).2
  have hv : ContinuousAt (fun x : ℝ × (Fin p → ℝ) => C.family.unitVariance (trueMean C.e50 C.family C.link (etaAt p R x.1 (extend x.2) r))) z :=
    ContinuousAt.comp (g := C.family.unitVariance) (c05_variance_derivative C.family _ hmu).continuousAt hm
  have hi : ContinuousAt (fun x : ℝ × (Fin p → ℝ) => C.link.inverseDerivative (etaAt p R x.1 (extend x.2) r)) z :=
    ContinuousAt.comp (g := C.link.inverseDerivative) (c02_inverse_derivative2 C.link _ (fast_range hk _)).continuousAt he
  exact continuousAt_const.mul ((continuousAt_const.sub hm).mul (hi.div hv (unitVariance_pos C.family hC.valid hmu).ne'))

theorem netScore_local (C : FitCfg p ic) (R : Rows n) (s : ℕ → ℝ) (a l1r b0 : ℝ) (b : ℕ → ℝ) (j : ℕ) :
    netScore C R s a l1r (restrict (p := p) b0 b).1 (extend (restrict (p := p) b0 b).2) j = netScore C R s a l1r b0 b j := by
  unfold netScore scoreResidual etaAt restrict
  simp only [extend_fin]

theorem netScore_cont (C : FitCfg p ic) (R : Rows n) (s : ℕ → ℝ) (a l1r : ℝ) (hC : ConvexFit C R l1r) (j : ℕ) (z : ℝ × (Fin p → ℝ)) :
    ContinuousAt (fun x : ℝ × (Fin p → ℝ) => netScore C R s a l1r x.1 (extend x.2) j) z := by
  unfold netScore
  refine ContinuousAt.sub (tendsto_finset_sum _ fun r _ => (scoreResidual_cont C R l1r hC r z).mul continuousAt_const) ?_
  have : Continuous fun x : ℝ × (Fin p → ℝ) => a * (1 - l1r) * (s j * ∑ k : Fin p, (userP2 C.P2a j k + userP2 C.P2a k j) / 2 * (extend x.2 k * s k)) := by
    simp only [extend_fin]
    fun_prop
  exact this.continuousAt

/-- **C138, scores of fits.** For a problem without bounds that determines its coefficients `(b0, b)`: for every `ε` there is a tolerance below which on every fit each score is at most `ε` above its
threshold, is within `ε` of the threshold, with the coefficient's sign, if the coefficient is not zero in the solution - and then the fit's coefficient has this sign -, and the weighted residuals
sum to zero up to `ε` if there is an intercept. -/
theorem c138_fit_scores (C : FitCfg p ic) (stats : Stats) (R : Rows n) (l1r a : ℝ) (h : ConvexFit C R l1r) (ha : 0 ≤ a) (hlb : C.lb = none) (hub : C.ub = none)
    (hs : ∀ j, 0 ≤ (stats n R.X R.sw).2 j) (b0 : ℝ) (b : ℕ → ℝ) (hdet : Determined C R (penScale C.thr C.asIfScaled (stats n R.X R.sw).2) l1r a b0 b) (ε : ℝ) (hε : 0 < ε) :
    let N := fun c0 c j => netScore C R (penScale C.thr C.asIfScaled (stats n R.X R.sw).2) a l1r c0 c j
    let T := fun j => a * l1r * userP1 C.P1a j * |penScale C.thr C.asIfScaled (stats n R.X R.sw).2 j|
    ∃ δ : ℝ, 0 < δ ∧ EveryFit C stats R l1r a δ fun d0 d => (ic = true → |∑ r, scoreResidual C R d0 d r| ≤ ε) ∧ ∀ j < p, |N d0 d j| ≤ T j + ε ∧
      (0 < b j → 0 < d j ∧ |N d0 d j - T j| ≤ ε) ∧ (b j < 0 → d j < 0 ∧ |N d0 d j + T j| ≤ ε) := by
  intro N T
  obtain ⟨hint, hkkt⟩ := (c138_free C R _ a l1r h ha hlb hub b0 b).1 hdet.1
  set z := restrict (p := p) b0 b with hz
  have hN : ∀ j, ∀ᶠ x in 𝓝 z, |N x.1 (extend x.2) j - N b0 b j| ≤ ε := fun j => by
    have := within_eventually (netScore_cont C R (penScale C.thr C.asIfScaled (stats n R.X R.sw).2) a l1r h j z) hε
    rw [netScore_local] at this
    exact this
  have hres : ∀ᶠ x in 𝓝 z, |∑ r, scoreResidual C R x.1 (extend x.2) r - ∑ r, scoreResidual C R b0 b r| ≤ ε := by
    have hc : ContinuousAt (fun x : ℝ × (Fin p → ℝ) => ∑ r, scoreResidual C R x.1 (extend x.2) r) z := tendsto_finset_sum _ fun r _ => scoreResidual_cont C R l1r h r z
    have := within_eventually hc hε
    have e : ∑ r, scoreResidual C R z.1 (extend z.2) r = ∑ r, scoreResidual C R b0 b r := by
      rw [hz]
      unfold scoreResidual etaAt restrict
      simp only [extend_fin]
    rw [e] at this
    exact this
  have hsign : ∀ j : Fin p, ∀ᶠ x in 𝓝 z, (0 < b j → 0 < extend x.2 j) ∧ (b j < 0 → extend x.2 j < 0) := fun j => by
    have hc : ContinuousAt (fun x : ℝ × (Fin p → ℝ) => extend x.2 j) z := by
      have : Continuous fun x : ℝ × (Fin p → ℝ) => extend x.2 j := by
        simp only [extend_fin]
        fun_prop
      exact this.continuousAt
    have e : extend z.2 j = b j := extend_fin _ j
    rcases lt_trichotomy (b j) 0 with hn | h0 | hp
    · filter_upwards [hc.eventually_lt_const (show extend z.2 j < 0 by rw [e]; exact hn)] with x hx
      exact ⟨fun h => absurd h hn.not_gt, fun _ => hx⟩
    · exact Filter.Eventually.of_forall fun x => ⟨fun h => absurd h0 h.ne', fun h => absurd h0 h.ne⟩
    · filter_upwards [hc.eventually_const_lt (show 0 < extend z.2 j by rw [e]; exact hp)] with x hx
      exact ⟨fun _ => hx, fun h => absurd h hp.not_gt⟩
  have hall : ∀ᶠ x in 𝓝 z, |∑ r, scoreResidual C R x.1 (extend x.2) r - ∑ r, scoreResidual C R b0 b r| ≤ ε ∧ ∀ j : Fin p, |N x.1 (extend x.2) j - N b0 b j| ≤ ε ∧
      (0 < b j → 0 < extend x.2 j) ∧ (b j < 0 → extend x.2 j < 0) :=
    hres.and (Filter.eventually_all.2 fun j => (hN j).and (hsign j))
  obtain ⟨η, hη, hclose⟩ := close_of_eventually _ b0 b hall
  refine c132_transfer C stats R l1r a h hs b0 b hdet _ ⟨η, hη, fun d0 d hd => ?_⟩
  obtain ⟨k1, k2⟩ := hclose d0 d hd
  have e1 : ∑ r, scoreResidual C R (restrict (p := p) d0 d).1 (extend (restrict (p := p) d0 d).2) r = ∑ r, scoreResidual C R d0 d r := by
    unfold scoreResidual etaAt restrict
    simp only [extend_fin]
  have e2 : ∀ j, N (restrict (p := p) d0 d).1 (extend (restrict (p := p) d0 d).2) j = N d0 d j := fun j => netScore_local C R _ a l1r d0 d j
  rw [e1] at k1
  refine ⟨fun hi => by rw [hint.1 hi, sub_zero] at k1; exact k1, fun j hj => ?_⟩
  obtain ⟨m1, m2, m3⟩ := k2 ⟨j, hj⟩
  rw [e2] at m1
  have e3 : extend (restrict (p := p) d0 d).2 j = d j := extend_fin (restrict (p := p) d0 d).2 ⟨j, hj⟩
  simp only [e3] at m2 m3
  obtain ⟨q1, q2, q3⟩ := hkkt j hj
  refine ⟨?_, fun hp => ⟨m2 hp, ?_⟩, fun hn => ⟨m3 hn, ?_⟩⟩
  · have t1 := abs_sub_abs_le_abs_sub (N d0 d j) (N b0 b j)
    have t2 : |N b0 b j| ≤ T j := q1
    linarith
  · have t : N b0 b j = T j := q2 hp
    rw [← t]; exact m1
  · have t : N b0 b j = -T j := q3 hn
    rw [t, sub_neg_eq_add] at m1; exact m1

/-! ### The hypotheses are met -/

/-- The elastic net on two groups of C137: the first coefficient is at its threshold, the second below. -/
example : Balanced codedCfg codedRows (fun _ => 1) 1 (1 / 2) 0 fun j => if j = 0 then 1 else 0 :=
  (c138_solution _ _ _ _ _ coded_elastic zero_le_one _ _).1 coded_solution

example : netScore codedCfg codedRows (fun _ => 1) 1 (1 / 2) 0 (fun j => if j = 0 then 1 else 0) 0 = 1 / 2 ∧
    ∀ x, netScore codedCfg codedRows (fun _ => 1) 1 (1 / 2) 0 (fun j => if j = 0 then x else 0) 0 = 1 / 2 → x = 1 := by
  have e : ∀ x, netScore codedCfg codedRows (fun _ => 1) 1 (1 / 2) 0 (fun j => if j = 0 then x else 0) 0 = (3 - x) / 2 - x / 2 := fun x => by
    simp [netScore, scoreResidual, codedCfg, codedRows, tinyRows, userP2, Fin.sum_univ_two, Link.inverseDerivative, Family.unitVariance, trueMean, Link.inverse, etaAt]
    ring
  refine ⟨by rw [e]; norm_num, fun x hx => ?_⟩
  rw [e] at hx
  linarith

end Glum
