import Verif.Props.Report
import Verif.Props.Larger
import Verif.Props.Codings
import Verif.Props.Grouping
/-
C137: columns whose coefficients are zero can be dropped, and columns whose score stays under the threshold need not be added.
The fits are those of Model/Fit (src/glum/_glm.py: fit, _solve, _solve_regularization_path; src/glum/_solvers.py: _irls_solver).
-/
set_option linter.unusedSectionVars false
set_option linter.unusedVariables false
set_option linter.unusedSimpArgs false

namespace Glum
open Spec Topology

variable {n p q : ℕ} {ic : Bool}

/-! ### Specification -/

/-- The problem `C` is the problem `D` without the columns from `p` on: same penalties and bounds on the others, and zero is allowed for the columns that are dropped. -/
structure Spec.Drops (D : FitCfg q ic) (C : FitCfg p ic) : Prop where
  larger : Larger C D
  bounds : ∀ c, WithinBounds q D.lb D.ub c → WithinBounds p C.lb C.ub c

variable {C : FitCfg p ic} {D : FitCfg q ic} {R : Rows n}

theorem objective_local (D : FitCfg q ic) (R : Rows n) (s : ℕ → ℝ) (a l1r c0 : ℝ) (b c : ℕ → ℝ) (h : ∀ j < q, b j = c j) :
    fitObjective q D.e50 D.family D.link R s D.P1a D.P2a a l1r c0 b = fitObjective q D.e50 D.family D.link R s D.P1a D.P2a a l1r c0 c := by
  unfold fitObjective
  simp only [fun j : Fin q => h j j.2]

/-- **C137, solutions.** If a solution has zero coefficients for some columns, its other coefficients solve the problem without these columns. -/
theorem c137_drop (h : Drops D C) (s : ℕ → ℝ) (a l1r c0 : ℝ) (c : ℕ → ℝ)
    (hsol : Solves q ic D.lb D.ub (fitObjective q D.e50 D.family D.link R s D.P1a D.P2a a l1r) c0 c) (hz : ∀ j, p ≤ j → j < q → c j = 0) :
    Solves p ic C.lb C.ub (fitObjective p C.e50 C.family C.link R s C.P1a C.P2a a l1r) c0 c := by
  refine ⟨hsol.1, h.bounds c hsol.2.1, fun d0 d hd0 hd => ?_⟩
  have e : ∀ j < q, c j = pad p c j := fun j hj => by
    unfold pad
    split
    · rfl
    · exact hz j (by omega) hj
  rw [← objective_pad C D h.larger R s a l1r c0 c, ← objective_pad C D h.larger R s a l1r d0 d, ← objective_local D R s a l1r c0 c (pad p c) e]
  exact hsol.2.2 d0 (pad p d) hd0 (h.larger.bounds d hd)

/-- **C137, which columns are dropped does not matter.** Without the columns the solution is the same as long as all columns with non-zero coefficients are kept: any two such reduced problems that
determine their coefficients agree with the full one. -/
theorem c137_unique (h : Drops D C) (s : ℕ → ℝ) (a l1r c0 b0 : ℝ) (c b : ℕ → ℝ)
    (hsol : Solves q ic D.lb D.ub (fitObjective q D.e50 D.family D.link R s D.P1a D.P2a a l1r) c0 c) (hz : ∀ j, p ≤ j → j < q → c j = 0)
    (hdet : Determined C R s l1r a b0 b) (hr : ConvexFit C R l1r) (hs : ∀ j < p, s j ≠ 0) : b0 = c0 ∧ ∀ j < p, b j = c j := by
  have hd := c137_drop h s a l1r c0 c hsol hz
  obtain ⟨hb, hreg | ⟨-, -, hu⟩⟩ := hdet
  · obtain ⟨z, hz, hmin⟩ := regular_min C R l1r a hr hreg s hs
    have uniq : ∀ d0 d, Solves p ic C.lb C.ub (fitObjective p C.e50 C.family C.link R s C.P1a C.P2a a l1r) d0 d → restrict (p := p) d0 d = z := fun d0 d hd => by
      by_contra hne
      obtain ⟨f, m⟩ := solves_min C R s a l1r d0 d hd
      exact absurd (m z hz) (not_le.2 (hmin _ f hne))
    have e := (uniq b0 b hb).trans (uniq c0 c hd).symm
    exact ⟨congrArg Prod.fst e, fun j hj => congrFun (congrArg Prod.snd e) ⟨j, hj⟩⟩
  · obtain ⟨e0, e1⟩ := hu c0 c hd
    exact ⟨e0.symm, fun j hj => (e1 j hj).symm⟩

theorem c137_regular (h : Drops D C) (l1r a : ℝ) (hr : RegularFit D R l1r a) : RegularFit C R l1r a where
  weights := hr.weights
  alpha := hr.alpha
  mix := hr.mix
  posdef := fun v hv => by
    obtain ⟨w, hw⟩ : ∃ w : ℕ → ℝ, ∀ j : Fin p, w j = v j := ⟨fun j => if h : j < p then v ⟨j, h⟩ else 0, fun j => dif_pos j.2⟩
    have hlt : ∀ j < p, pad p w j = w j := fun j hj => if_pos hj
    have hge : ∀ j, p ≤ j → pad p w j = 0 := fun j hj => if_neg (not_lt.2 hj)
    have hne : (fun j : Fin q => pad p w j) ≠ 0 := fun e => hv <| by
      funext j
      have := congrFun e ⟨j, j.2.trans_le h.larger.columns⟩
      simp only [hlt j j.2, hw] at this
      exact this
    have := hr.posdef _ hne
    rw [sum_pad h.larger.columns (fun j => ∑ k : Fin q, userP2 D.P2a j k * pad p w j * pad p w k) (fun j => ∑ k : Fin p, userP2 C.P2a j k * w j * w k)
      (fun j hj => sum_pad h.larger.columns (fun k => userP2 D.P2a j k * pad p w j * pad p w k) (fun k => userP2 C.P2a j k * w j * w k)
        (fun k hk => by rw [hlt j hj, hlt k hk, h.larger.P2 j hj k hk]) fun k hk => by rw [hge k hk]; simp) fun j hj => by rw [hge j hj]; simp] at this
    simpa only [hw] using this
  start := fun hi => by
    obtain ⟨g, hg⟩ := hr.start hi
    exact ⟨g, by rw [← h.larger.family, ← h.larger.link]; exact hg⟩
  room := by
    obtain ⟨b, hb⟩ := hr.room
    exact ⟨b, h.bounds b hb⟩

/-- **C137, fits.** For a problem penalised as in C90 whose solution has zero coefficients for some columns: for every `ε` there is a tolerance below which every fit with these columns and every
refit without them - by any inner solver, from any start, on any path - have the same coefficients for the other columns up to `ε`, and coefficients below `ε` for these. -/
theorem c137_fits (h : Drops D C) (stats : Stats) (l1r a : ℝ) (hD : ConvexFit D R l1r) (hC : ConvexFit C R l1r) (hr : RegularFit D R l1r a)
    (hs : ∀ j, 0 ≤ (stats n R.X R.sw).2 j) (c0 : ℝ) (c : ℕ → ℝ)
    (hsol : Solves q ic D.lb D.ub (fitObjective q D.e50 D.family D.link R (penScale D.thr D.asIfScaled (stats n R.X R.sw).2) D.P1a D.P2a a l1r) c0 c)
    (hz : ∀ j, p ≤ j → j < q → c j = 0) (ε : ℝ) (hε : 0 < ε) :
    ∃ δ : ℝ, 0 < δ ∧ (EveryFit D stats R l1r a δ fun d0 d => |d0 - c0| ≤ ε ∧ (∀ j < p, |d j - c j| ≤ ε) ∧ ∀ j, p ≤ j → j < q → |d j| ≤ ε) ∧
      EveryFit C stats R l1r a δ fun d0 d => |d0 - c0| ≤ ε ∧ ∀ j < p, |d j - c j| ≤ ε := by
  have hsolC := c137_drop h _ a l1r c0 c hsol hz
  rw [h.larger.thr, h.larger.scaled] at hsolC
  obtain ⟨δ, hδ, f⟩ := c132_transfer D stats R l1r a hD hs c0 c ⟨hsol, Or.inl hr⟩
    (fun d0 d => |d0 - c0| ≤ ε ∧ (∀ j < p, |d j - c j| ≤ ε) ∧ ∀ j, p ≤ j → j < q → |d j| ≤ ε)
    ⟨ε, hε, fun d0 d hd => ⟨hd.1, fun j hj => hd.2 j (hj.trans_le h.larger.columns), fun j hpj hj => by
      have := hd.2 j hj
      rwa [hz j hpj hj, sub_zero] at this⟩⟩
  obtain ⟨δ', hδ', f'⟩ := c132_transfer C stats R l1r a hC hs c0 c ⟨hsolC, Or.inl (c137_regular h l1r a hr)⟩ _ ⟨ε, hε, fun d0 d hd => hd⟩
  exact ⟨min δ δ', lt_min hδ hδ', fun next inner C₁ hC₁ hst hg => f next inner C₁ hC₁ hst (hg.trans_le (min_le_left _ _)),
    fun next inner C₁ hC₁ hst hg => f' next inner C₁ hC₁ hst (hg.trans_le (min_le_right _ _))⟩

/-! ### Columns that can be left out -/

/-- No ridge term couples the columns from `p` on with the others. -/
def Spec.Decoupled (P2a : P2Arg) (p q : ℕ) : Prop := ∀ j < p, ∀ k, p ≤ k → k < q → userP2 P2a j k = 0 ∧ userP2 P2a k j = 0

theorem sum_upto (hpq : p ≤ q) (f : ℕ → ℝ) : ∑ j : Fin q, f j = ∑ j : Fin p, f j + ∑ j ∈ Finset.Ico p q, f j := by
  rw [Fin.sum_univ_eq_sum_range f q, Fin.sum_univ_eq_sum_range f p, Finset.sum_range_add_sum_Ico _ hpq]

theorem penalty_split (h : Drops D C) (hdec : Decoupled D.P2a p q) (s : ℕ → ℝ) (l1r : ℝ) (hl : 0 ≤ l1r ∧ l1r ≤ 1)
    (hp2 : ∀ v : Fin q → ℝ, 0 ≤ ∑ j : Fin q, ∑ k : Fin q, userP2 D.P2a j k * v j * v k) (d : ℕ → ℝ) :
    enetPenalty p s C.P1a C.P2a l1r d + l1r * ∑ j ∈ Finset.Ico p q, userP1 D.P1a j * |d j * s j| ≤ enetPenalty q s D.P1a D.P2a l1r d := by
  have hpq := h.larger.columns
  have h1 : ∑ j : Fin q, userP1 D.P1a j * |d j * s j| = ∑ j : Fin p, userP1 C.P1a j * |d j * s j| + ∑ j ∈ Finset.Ico p q, userP1 D.P1a j * |d j * s j| := by
    rw [sum_upto hpq fun j => userP1 D.P1a j * |d j * s j|]
    congr 1
    exact Finset.sum_congr rfl fun j _ => by rw [h.larger.P1 j j.2]
  set B : ℕ → ℕ → ℝ := fun j k => userP2 D.P2a j k * (d j * s j) * (d k * s k) with hB
  have h2 : ∑ j : Fin q, ∑ k : Fin q, B j k = ∑ j : Fin p, ∑ k : Fin p, userP2 C.P2a j k * (d j * s j) * (d k * s k) + ∑ j ∈ Finset.Ico p q, ∑ k ∈ Finset.Ico p q, B j k := by
    rw [sum_upto hpq fun j => ∑ k : Fin q, B j k]
    congr 1
    · refine Finset.sum_congr rfl fun j _ => ?_
      rw [sum_upto hpq fun k => B j k, Finset.sum_eq_zero (s := Finset.Ico p q), add_zero]
      · exact Finset.sum_congr rfl fun k _ => by rw [hB]; simp only []; rw [h.larger.P2 j j.2 k k.2]
      · intro k hk
        rw [Finset.mem_Ico] at hk
        simp [hB, (hdec j j.2 k hk.1 hk.2).1]
    · refine Finset.sum_congr rfl fun j hj => ?_
      rw [Finset.mem_Ico] at hj
      rw [sum_upto hpq fun k => B j k, Finset.sum_eq_zero (s := Finset.univ), zero_add]
      intro k _
      simp [hB, (hdec k k.2 j hj.1 hj.2).2]
  have h3 : 0 ≤ ∑ j ∈ Finset.Ico p q, ∑ k ∈ Finset.Ico p q, B j k := by
    have := hp2 fun j => if p ≤ j.val then d j * s j else 0
    have e := sum_upto hpq fun j => ∑ k : Fin q, userP2 D.P2a j k * (if p ≤ j then d j * s j else 0) * (if p ≤ k.val then d k * s k else 0)
    have z : ∑ j : Fin p, ∑ k : Fin q, userP2 D.P2a j k * (if p ≤ j.val then d j * s j else 0) * (if p ≤ k.val then d k * s k else 0) = 0 := by
      refine Finset.sum_eq_zero fun j _ => Finset.sum_eq_zero fun k _ => ?_
      rw [if_neg (not_le.2 j.2)]
      ring
    rw [z, zero_add] at e
    rw [e] at this
    refine this.trans_eq (Finset.sum_congr rfl fun j hj => ?_)
    rw [Finset.mem_Ico] at hj
    rw [sum_upto hpq fun k => userP2 D.P2a j k * (if p ≤ j then d j * s j else 0) * (if p ≤ k then d k * s k else 0), Finset.sum_eq_zero (s := Finset.univ), zero_add]
    · refine Finset.sum_congr rfl fun k hk => ?_
      rw [Finset.mem_Ico] at hk
      rw [if_pos hj.1, if_pos hk.1]
    · intro k _
      rw [if_neg (not_le.2 k.2), mul_zero]
  unfold enetPenalty
  rw [h1, h2]
  nlinarith [mul_nonneg (show 0 ≤ 1 - l1r by linarith [hl.2]) h3]

theorem penalty_line (C : FitCfg p ic) (s : ℕ → ℝ) (l1r : ℝ) (hl : 0 ≤ l1r ∧ l1r ≤ 1) (hp1 : ∀ j, 0 ≤ userP1 C.P1a j)
    (hp2 : ∀ v : Fin p → ℝ, 0 ≤ ∑ j : Fin p, ∑ k : Fin p, userP2 C.P2a j k * v j * v k) (b d : ℕ → ℝ) (t : ℝ) (h0 : 0 ≤ t) (h1 : t ≤ 1) :
    enetPenalty p s C.P1a C.P2a l1r (fun j => b j + t * (d j - b j)) ≤
      enetPenalty p s C.P1a C.P2a l1r b + t * (enetPenalty p s C.P1a C.P2a l1r d - enetPenalty p s C.P1a C.P2a l1r b) := by
  have k1 : ∑ j : Fin p, userP1 C.P1a j * |(b j + t * (d j - b j)) * s j| ≤ (1 - t) * ∑ j : Fin p, userP1 C.P1a j * |b j * s j| + t * ∑ j : Fin p, userP1 C.P1a j * |d j * s j| := by
    rw [Finset.mul_sum, Finset.mul_sum, ← Finset.sum_add_distrib]
    refine Finset.sum_le_sum fun j _ => ?_
    have e : (b j + t * (d j - b j)) * s j = (1 - t) * (b j * s j) + t * (d j * s j) := by ring
    have : |(b j + t * (d j - b j)) * s j| ≤ (1 - t) * |b j * s j| + t * |d j * s j| := by
      rw [e]
      refine (abs_add_le _ _).trans ?_
      rw [abs_mul, abs_mul t, abs_of_nonneg h0, abs_of_nonneg (by linarith)]
    nlinarith [mul_le_mul_of_nonneg_left this (hp1 j)]
  have k2 := (ridgeForm_convex C s hp2).2 (Set.mem_univ fun j : Fin p => b j) (Set.mem_univ fun j : Fin p => d j) (show 0 ≤ 1 - t by linarith) h0 (show 1 - t + t = 1 by ring)
  have e2 : ((1 - t) • (fun j : Fin p => b j) + t • fun j : Fin p => d j) = fun j : Fin p => b j + t * (d j - b j) := by
    funext j
    simp only [Pi.add_apply, Pi.smul_apply, smul_eq_mul]
    ring
  rw [e2] at k2
  simp only [ridgeForm, smul_eq_mul] at k2
  unfold enetPenalty
  nlinarith [mul_le_mul_of_nonneg_left k1 hl.1, mul_le_mul_of_nonneg_left k2 (show 0 ≤ 1 - l1r by linarith [hl.2])]

theorem loss_rows (C : FitCfg p ic) (R : Rows n) (c0 : ℝ) (c : ℕ → ℝ) : halfDeviance p C.e50 C.family C.link R c0 c = 1 / 2 * ∑ i, rowLoss C R i (rowEta p R c0 c i) := rfl

/-- The first-order condition of a solution, against any admissible point. -/
theorem solution_slope (C : FitCfg p ic) (R : Rows n) (s : ℕ → ℝ) (a l1r : ℝ) (hC : ConvexFit C R l1r) (ha : 0 ≤ a) (c0 d0 : ℝ) (c d : ℕ → ℝ)
    (hsol : Solves p ic C.lb C.ub (fitObjective p C.e50 C.family C.link R s C.P1a C.P2a a l1r) c0 c) (hd0 : ic = false → d0 = 0) (hd : WithinBounds p C.lb C.ub d) :
    0 ≤ -∑ r, scoreResidual C R c0 c r * (rowEta p R d0 d r - rowEta p R c0 c r) + a * (enetPenalty p s C.P1a C.P2a l1r d - enetPenalty p s C.P1a C.P2a l1r c) := by
  set g : Fin n → ℝ := fun r => rowEta p R d0 d r - rowEta p R c0 c r with hg
  have hder : HasDerivAt (fun t : ℝ => 1 / 2 * ∑ r, rowLoss C R r (rowEta p R c0 c r + t * g r)) (-∑ r, scoreResidual C R c0 c r * g r) 0 := by
    have h1 : ∀ r, HasDerivAt (fun t : ℝ => rowLoss C R r (rowEta p R c0 c r + t * g r)) (-2 * scoreResidual C R c0 c r * g r) 0 := by
      intro r
      have hl := rowLoss_hasDeriv C R l1r hC r (rowEta p R c0 c r + 0 * g r)
      have hi : HasDerivAt (fun t : ℝ => rowEta p R c0 c r + t * g r) (1 * g r) 0 := ((hasDerivAt_id (0 : ℝ)).mul_const _).const_add _
      have := HasDerivAt.comp (0 : ℝ) hl hi
      rw [zero_mul, add_zero, rowSlope_residual, one_mul] at this
      exact this
    refine ((HasDerivAt.fun_sum fun r (_ : r ∈ Finset.univ) => h1 r).const_mul (1 / 2 : ℝ)).congr_deriv ?_
    rw [Finset.mul_sum, ← Finset.sum_neg_distrib]
    exact Finset.sum_congr rfl fun r _ => by ring
  have key := deriv_ge_of_right _ _ (-(a * (enetPenalty p s C.P1a C.P2a l1r d - enetPenalty p s C.P1a C.P2a l1r c))) hder fun t h0 h1 => by
    have hin : WithinBounds p C.lb C.ub fun j => c j + t * (d j - c j) := fun j hj => by
      obtain ⟨l1, u1⟩ := hsol.2.1 j hj
      obtain ⟨l2, u2⟩ := hd j hj
      refine ⟨fun l hl => ?_, fun u hu => ?_⟩
      · have e1 := l1 l hl
        have e2 := l2 l hl
        show l j ≤ c j + t * (d j - c j)
        nlinarith
      · have e1 := u1 u hu
        have e2 := u2 u hu
        show c j + t * (d j - c j) ≤ u j
        nlinarith
    have m := hsol.2.2 (c0 + t * (d0 - c0)) (fun j => c j + t * (d j - c j)) (fun hi => by rw [hsol.1 hi, hd0 hi]; ring) hin
    rw [fitObjective_split, fitObjective_split, loss_rows, loss_rows] at m
    have e : ∀ r, rowEta p R (c0 + t * (d0 - c0)) (fun j => c j + t * (d j - c j)) r = rowEta p R c0 c r + t * g r := fun r => by
      rw [hg]
      unfold rowEta
      simp only [mul_add, Finset.sum_add_distrib]
      have : ∑ j : Fin p, R.X r j * (t * (d j - c j)) = t * (∑ j : Fin p, R.X r j * d j - ∑ j : Fin p, R.X r j * c j) := by
        rw [← Finset.sum_sub_distrib, Finset.mul_sum]
        exact Finset.sum_congr rfl fun j _ => by ring
      rw [this]
      ring
    simp only [e] at m
    have m2 := mul_le_mul_of_nonneg_left (penalty_line C s l1r hC.l1 hC.p1 hC.p2 c d t h0.le h1) ha
    simp only [zero_mul, add_zero]
    linarith
  linarith

/-- **C137, columns that stay out.** If the score of each column from `p` on at a solution of the problem without them is at most its threshold `alpha * l1_ratio * P1`, and no ridge term couples
them with the others, this solution, with zeros for them, solves the problem with them. -/
theorem c137_screen (h : Drops D C) (hdec : Decoupled D.P2a p q) (s : ℕ → ℝ) (a l1r : ℝ) (hD : ConvexFit D R l1r) (hC : ConvexFit C R l1r) (ha : 0 ≤ a) (c0 : ℝ) (c : ℕ → ℝ)
    (hsol : Solves p ic C.lb C.ub (fitObjective p C.e50 C.family C.link R s C.P1a C.P2a a l1r) c0 c)
    (hscore : ∀ j, p ≤ j → j < q → |∑ r, scoreResidual C R c0 c r * R.X r j| ≤ a * l1r * userP1 D.P1a j * |s j|) :
    Solves q ic D.lb D.ub (fitObjective q D.e50 D.family D.link R s D.P1a D.P2a a l1r) c0 (pad p c) := by
  refine ⟨hsol.1, h.larger.bounds c hsol.2.1, fun d0 d hd0 hd => ?_⟩
  rw [objective_pad C D h.larger]
  have k1 := solution_slope C R s a l1r hC ha c0 d0 c d hsol hd0 (h.bounds d hd)
  have k2 := mul_le_mul_of_nonneg_left (penalty_split h hdec s l1r hD.l1 hD.p2 d) ha
  have hpq := h.larger.columns
  have hl : ∀ r, rowLoss C R r (rowEta p R c0 c r) + -2 * scoreResidual C R c0 c r * (rowEta q R d0 d r - rowEta p R c0 c r) ≤ rowLoss C R r (rowEta q R d0 d r) := fun r => by
    have hcv := doc_row_convex C R l1r hC r
    have hsl := rowLoss_hasDeriv C R l1r hC r (rowEta p R c0 c r)
    rw [rowSlope_residual] at hsl
    rcases lt_trichotomy (rowEta p R c0 c r) (rowEta q R d0 d r) with hlt | heq | hgt
    · have := hcv.le_slope_of_hasDerivAt (Set.mem_univ _) (Set.mem_univ _) hlt hsl
      rw [slope_def_field, le_div_iff₀ (by linarith)] at this
      unfold rowLoss at *
      linarith
    · rw [heq]; simp
    · have := hcv.slope_le_of_hasDerivAt (Set.mem_univ _) (Set.mem_univ _) hgt hsl
      rw [slope_def_field, div_le_iff₀ (by linarith)] at this
      unfold rowLoss at *
      linarith
  have k3 : 1 / 2 * ∑ r, rowLoss C R r (rowEta p R c0 c r) - ∑ r, scoreResidual C R c0 c r * (rowEta q R d0 d r - rowEta p R c0 c r) ≤
      1 / 2 * ∑ r, rowLoss C R r (rowEta q R d0 d r) := by
    have := Finset.sum_le_sum fun r (_ : r ∈ Finset.univ) => hl r
    rw [Finset.sum_add_distrib] at this
    have e : ∑ r, -2 * scoreResidual C R c0 c r * (rowEta q R d0 d r - rowEta p R c0 c r) = -2 * ∑ r, scoreResidual C R c0 c r * (rowEta q R d0 d r - rowEta p R c0 c r) := by
      rw [Finset.mul_sum]
      exact Finset.sum_congr rfl fun r _ => by ring
    rw [e] at this
    linarith
  have k4 : ∑ r, scoreResidual C R c0 c r * (rowEta q R d0 d r - rowEta p R c0 c r) = ∑ r, scoreResidual C R c0 c r * (rowEta p R d0 d r - rowEta p R c0 c r) +
      ∑ j ∈ Finset.Ico p q, d j * ∑ r, scoreResidual C R c0 c r * R.X r j := by
    have e : ∀ r, rowEta q R d0 d r = rowEta p R d0 d r + ∑ j ∈ Finset.Ico p q, R.X r j * d j := fun r => by
      unfold rowEta
      rw [sum_upto hpq fun j => R.X r j * d j]
      ring
    have e2 : ∑ j ∈ Finset.Ico p q, d j * ∑ r, scoreResidual C R c0 c r * R.X r j = ∑ r, scoreResidual C R c0 c r * ∑ j ∈ Finset.Ico p q, R.X r j * d j := by
      simp only [Finset.mul_sum]
      rw [Finset.sum_comm]
      exact Finset.sum_congr rfl fun r _ => Finset.sum_congr rfl fun j _ => by ring
    rw [e2, ← Finset.sum_add_distrib]
    exact Finset.sum_congr rfl fun r _ => by rw [e]; ring
  have k5 : ∑ j ∈ Finset.Ico p q, d j * ∑ r, scoreResidual C R c0 c r * R.X r j ≤ a * (l1r * ∑ j ∈ Finset.Ico p q, userP1 D.P1a j * |d j * s j|) := by
    rw [Finset.mul_sum, Finset.mul_sum]
    refine Finset.sum_le_sum fun j hj => ?_
    rw [Finset.mem_Ico] at hj
    have e := mul_le_mul_of_nonneg_left (hscore j hj.1 hj.2) (abs_nonneg (d j))
    rw [← abs_mul] at e
    refine (le_abs_self _).trans (e.trans_eq ?_)
    rw [abs_mul (d j) (s j)]
    ring
  rw [fitObjective_split, fitObjective_split, loss_rows, loss_rows]
  have e1 : ∀ r x, rowLoss D R r x = rowLoss C R r x := fun r x => by unfold rowLoss; rw [h.larger.family, h.larger.link, h.larger.e50]
  simp only [e1]
  linarith

/-- **C137, fits of the larger problem.** In that case, with ridge part, for every `ε` there is a tolerance below which every fit of the larger problem has the coefficients of the smaller one's
solution and, up to `ε`, zero for the added columns. -/
theorem c137_screen_fits (h : Drops D C) (hdec : Decoupled D.P2a p q) (stats : Stats) (l1r a : ℝ) (hD : ConvexFit D R l1r) (hC : ConvexFit C R l1r) (hr : RegularFit D R l1r a)
    (hs : ∀ j, 0 ≤ (stats n R.X R.sw).2 j) (c0 : ℝ) (c : ℕ → ℝ)
    (hsol : Solves p ic C.lb C.ub (fitObjective p C.e50 C.family C.link R (penScale C.thr C.asIfScaled (stats n R.X R.sw).2) C.P1a C.P2a a l1r) c0 c)
    (hscore : ∀ j, p ≤ j → j < q → |∑ r, scoreResidual C R c0 c r * R.X r j| ≤ a * l1r * userP1 D.P1a j * |penScale C.thr C.asIfScaled (stats n R.X R.sw).2 j|)
    (ε : ℝ) (hε : 0 < ε) :
    ∃ δ : ℝ, 0 < δ ∧ EveryFit D stats R l1r a δ fun d0 d => |d0 - c0| ≤ ε ∧ (∀ j < p, |d j - c j| ≤ ε) ∧ ∀ j, p ≤ j → j < q → |d j| ≤ ε := by
  have hlt : ∀ j < p, pad p c j = c j := fun j hj => if_pos hj
  have hge : ∀ j, p ≤ j → pad p c j = 0 := fun j hj => if_neg (not_lt.2 hj)
  have hsol' := c137_screen h hdec _ a l1r hD hC hr.alpha.le c0 c hsol hscore
  rw [← h.larger.thr, ← h.larger.scaled] at hsol'
  obtain ⟨δ, hδ, f, -⟩ := c137_fits h stats l1r a hD hC hr hs c0 (pad p c) hsol' (fun j h1 _ => hge j h1) ε hε
  exact ⟨δ, hδ, fun next inner C₁ hC₁ hst hg A s s' r hfit ha hw i hi hc hb hai hin => by
    obtain ⟨e0, e1, e2⟩ := f next inner C₁ hC₁ hst hg A s s' r hfit ha hw i hi hc hb hai hin
    exact ⟨e0, fun j hj => by rw [← hlt j hj]; exact e1 j hj, e2⟩⟩

/-! ### The hypotheses are met -/

/-- The model of the first of the two groups, without intercept: the others are predicted to be zero. -/
noncomputable def firstCfg : FitCfg 1 false where
  family := .normal
  link := .identity
  e50 := 0
  thr := 1 / 10 ^ 6
  asIfScaled := false
  xsp := false
  P1a := .none
  P2a := .none
  lb := none
  ub := none
  A := none
  start := .cold
  p2ok := fun _ => true
  maxIter := 5
  maxInnerIter := 5
  gradTol := 1 / 10000
  stepTol := none
  hessApprox := 0
  fixedInnerTol := none
  random := false
  eps := 1 / 10 ^ 16
  large := 10 ^ 43

theorem first_drops : Drops codedCfg firstCfg where
  larger := ⟨by norm_num, rfl, rfl, rfl, rfl, rfl, fun _ _ => rfl, fun _ _ _ _ => rfl, fun b _ j _ => ⟨(fun l hl => by cases hl), (fun u hu => by cases hu)⟩⟩
  bounds := fun c _ j _ => ⟨(fun l hl => by cases hl), (fun u hu => by cases hu)⟩

theorem coded_regular : RegularFit codedCfg codedRows (1 / 2) 1 where
  weights := by simp [codedRows, tinyRows]
  alpha := one_pos
  mix := by norm_num
  posdef := fun v hv => by
    have : v 0 ≠ 0 ∨ v 1 ≠ 0 := by
      by_contra h
      push Not at h
      exact hv (by funext j; fin_cases j; exacts [h.1, h.2])
    simp [codedCfg, userP2, Fin.sum_univ_two]
    rcases this with h | h
    · nlinarith [mul_self_pos.2 h, mul_self_nonneg (v 1)]
    · nlinarith [mul_self_pos.2 h, mul_self_nonneg (v 0)]
  start := fun h => by cases h
  room := ⟨fun _ => 0, fun j _ => ⟨(fun l hl => by cases hl), (fun u hu => by cases hu)⟩⟩

theorem coded_objective (d0 : ℝ) (d : ℕ → ℝ) : fitObjective 2 0 .normal .identity codedRows (fun _ => 1) .none .none 1 (1 / 2) d0 d =
    1 / 4 * ((3 - (d 0 + d0)) ^ 2 + (1 - (d 1 + d0)) ^ 2) + 1 / 2 * (|d 0| + |d 1|) + 1 / 4 * (d 0 ^ 2 + d 1 ^ 2) := by
  have ht : ∀ e, trueMean 0 .normal .identity e = e := fun _ => rfl
  have hd : ∀ y m, Family.unitDeviance .normal y m = (y - m) ^ 2 := fun _ _ => rfl
  unfold fitObjective
  simp only [ht, hd]
  simp [codedRows, tinyRows, Fin.sum_univ_two, userP1, userP2]
  ring

/-- Two groups with means 3 and 1 and an elastic net: the coefficient of the first is 1, that of the second is exactly zero. -/
theorem coded_solution : Solves 2 false codedCfg.lb codedCfg.ub (fitObjective 2 codedCfg.e50 codedCfg.family codedCfg.link codedRows (fun _ => 1) codedCfg.P1a codedCfg.P2a 1 (1 / 2)) 0
    fun j => if j = 0 then 1 else 0 := by
  refine ⟨fun _ => rfl, fun j _ => ⟨(fun l hl => by cases hl), (fun u hu => by cases hu)⟩, fun d0 d h0 _ => ?_⟩
  refine (coded_objective 0 _).trans_le (le_of_le_of_eq ?_ (coded_objective d0 d).symm)
  rw [h0 rfl]
  norm_num
  nlinarith [le_abs_self (d 0), le_abs_self (d 1), sq_nonneg (d 0 - 1), sq_nonneg (d 1)]

example : Determined firstCfg codedRows (fun _ => 1) (1 / 2) 1 0 fun j => if j = 0 then 1 else 0 :=
  ⟨c137_drop first_drops _ _ _ _ _ coded_solution fun j h1 h2 => by rw [if_neg (by omega)], Or.inl (c137_regular first_drops _ _ coded_regular)⟩

theorem coded_elastic : ConvexFit codedCfg codedRows (1 / 2) := { coded_convex with l1 := by norm_num }

theorem first_elastic : ConvexFit firstCfg codedRows (1 / 2) where
  thr := by norm_num [firstCfg]
  valid := by trivial
  pair := ⟨.normalIdentity, rfl, by simp⟩
  y := fun i => by trivial
  sw := fun i => by norm_num [codedRows, tinyRows]
  p1 := fun j => by simp [firstCfg, userP1]
  p2 := fun v => by
    simp [firstCfg, userP2]
    nlinarith [mul_self_nonneg (v 0)]
  l1 := by norm_num

/-- For these two models everything that `c137_fits` asks for holds, whatever the columns' statistics. -/
example (stats : Stats) (hs : ∀ j, 0 ≤ (stats 2 codedRows.X codedRows.sw).2 j) (ε : ℝ) (hε : 0 < ε) :
    ∃ δ : ℝ, 0 < δ ∧ (EveryFit codedCfg stats codedRows (1 / 2) 1 δ fun d0 d => |d0 - 0| ≤ ε ∧ (∀ j < 1, |d j - if j = 0 then 1 else 0| ≤ ε) ∧ ∀ j, 1 ≤ j → j < 2 → |d j| ≤ ε) ∧
      EveryFit firstCfg stats codedRows (1 / 2) 1 δ fun d0 d => |d0 - 0| ≤ ε ∧ ∀ j < 1, |d j - if j = 0 then 1 else 0| ≤ ε := by
  have e : penScale codedCfg.thr codedCfg.asIfScaled (stats 2 codedRows.X codedRows.sw).2 = fun _ => 1 := by
    funext j
    simp [penScale, codedCfg]
  exact c137_fits first_drops stats _ _ coded_elastic first_elastic coded_regular hs 0 (fun j => if j = 0 then 1 else 0) (by rw [e]; exact coded_solution)
    (fun j h1 h2 => by rw [if_neg (by omega)]) ε hε

/-- The second group of the two meets the threshold: its score is 1/2. -/
example : Decoupled codedCfg.P2a 1 2 ∧ ∀ j, 1 ≤ j → j < 2 → |∑ r, scoreResidual firstCfg codedRows 0 (fun j => if j = 0 then 1 else 0) r * codedRows.X r j| ≤
    1 * (1 / 2) * userP1 codedCfg.P1a j * |(1 : ℝ)| := by
  refine ⟨fun j hj k h1 h2 => ?_, fun j h1 h2 => ?_⟩
  · obtain rfl : j = 0 := by omega
    obtain rfl : k = 1 := by omega
    simp [codedCfg, userP2]
  · obtain rfl : j = 1 := by omega
    simp [scoreResidual, firstCfg, codedCfg, codedRows, tinyRows, userP1, Fin.sum_univ_two, Link.inverseDerivative, Family.unitVariance, trueMean, Link.inverse, etaAt]

end Glum
