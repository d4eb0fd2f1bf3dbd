import Verif.Props.Collinear
import Verif.Props.Segments
import Verif.Props.SeparationFit
/-
C131: as alpha tends to zero the penalised solution tends to the unpenalised solution with the least penalty, or leaves every bounded set if there is none.
-/
set_option linter.unusedSectionVars false
set_option linter.unusedVariables false
set_option linter.unusedSimpArgs false

namespace Glum
open Spec

variable {n p : ℕ} {ic : Bool}

/-! ### Specification -/

/-- `(b0, b)` solves the unpenalised problem (`alpha = 0`), and no other solution of it has a smaller elastic net penalty. -/
def Spec.LeastPenalty (C : FitCfg p ic) (R : Rows n) (s : ℕ → ℝ) (l1r b0 : ℝ) (b : ℕ → ℝ) : Prop :=
  Solves p ic C.lb C.ub (fitObjective p C.e50 C.family C.link R s C.P1a C.P2a 0 l1r) b0 b ∧
  ∀ c0 c, Solves p ic C.lb C.ub (fitObjective p C.e50 C.family C.link R s C.P1a C.P2a 0 l1r) c0 c → penaltyOf p s C.P1a C.P2a 1 l1r b ≤ penaltyOf p s C.P1a C.P2a 1 l1r c

/-- Intercept and coefficients are within `ε` of `(b0, b)`. -/
def Spec.CoefWithin (p : ℕ) (ε b0 : ℝ) (b : ℕ → ℝ) (c0 : ℝ) (c : ℕ → ℝ) : Prop := |c0 - b0| ≤ ε ∧ ∀ j < p, |c j - b j| ≤ ε

/-! ### Trading loss for penalty -/

/-- The penalty as a function of a point. -/
noncomputable def penAt (C : FitCfg p ic) (s : ℕ → ℝ) (l1r : ℝ) (z : ℝ × (Fin p → ℝ)) : ℝ := penaltyOf p s C.P1a C.P2a 1 l1r (extend z.2)

theorem penAt_eq (C : FitCfg p ic) (s : ℕ → ℝ) (l1r : ℝ) (z : ℝ × (Fin p → ℝ)) :
    penAt C s l1r z = l1r * ∑ j : Fin p, userP1 C.P1a j * |z.2 j * s j| + (1 - l1r) * (1 / 2 * ridgeForm C s z.2) := by
  unfold penAt penaltyOf ridgeForm
  simp only [extend_fin, one_mul]

theorem objAt_split (C : FitCfg p ic) (R : Rows n) (s : ℕ → ℝ) (a l1r : ℝ) (z : ℝ × (Fin p → ℝ)) : objAt C R s a l1r z = objAt C R s 0 l1r z + a * penAt C s l1r z := by
  rw [objAt_eq, objAt_eq, penAt_eq]; ring

theorem penAt_nonneg (C : FitCfg p ic) (R : Rows n) (l1r : ℝ) (h : ConvexFit C R l1r) (s : ℕ → ℝ) (z : ℝ × (Fin p → ℝ)) : 0 ≤ penAt C s l1r z := by
  rw [penAt_eq]
  have h1 : 0 ≤ ∑ j : Fin p, userP1 C.P1a j * |z.2 j * s j| := Finset.sum_nonneg fun j _ => mul_nonneg (h.p1 j) (abs_nonneg _)
  have h2 : 0 ≤ ridgeForm C s z.2 := h.p2 fun j => z.2 j * s j
  have := mul_nonneg h.l1.1 h1
  have := mul_nonneg (show 0 ≤ 1 - l1r by linarith [h.l1.2]) (show 0 ≤ 1 / 2 * ridgeForm C s z.2 by linarith)
  linarith

theorem penaltyOf_penAt (C : FitCfg p ic) (s : ℕ → ℝ) (l1r b0 : ℝ) (b : ℕ → ℝ) : penAt C s l1r (restrict b0 b) = penaltyOf p s C.P1a C.P2a 1 l1r b := by
  unfold penAt penaltyOf restrict
  simp only [extend_fin]

/-- The unpenalised minimum and the penalty bound each other's excess. -/
theorem penalised_trade (C : FitCfg p ic) (R : Rows n) (s : ℕ → ℝ) (l1r a : ℝ) (ha : 0 < a) (x z : ℝ × (Fin p → ℝ)) (hx : x ∈ feasible C) (hz : z ∈ feasible C)
    (hx0 : ∀ y ∈ feasible C, objAt C R s 0 l1r x ≤ objAt C R s 0 l1r y) (hza : ∀ y ∈ feasible C, objAt C R s a l1r z ≤ objAt C R s a l1r y) :
    penAt C s l1r z ≤ penAt C s l1r x ∧ objAt C R s 0 l1r z - objAt C R s 0 l1r x ≤ a * (penAt C s l1r x - penAt C s l1r z) := by
  have h1 := hza x hx
  have h2 := hx0 z hz
  rw [objAt_split C R s a, objAt_split C R s a] at h1
  exact ⟨le_of_mul_le_mul_left (by linarith) ha, by linarith⟩

/-- **C131, bounds.** For every family and link: the solution for `a > 0` has a penalty at most that of any unpenalised solution, and a half deviance larger by at most `a` times the
difference of the penalties. -/
theorem c131_excess (C : FitCfg p ic) (R : Rows n) (s : ℕ → ℝ) (l1r a : ℝ) (ha : 0 < a) (b0 c0 : ℝ) (b c : ℕ → ℝ)
    (hb : Solves p ic C.lb C.ub (fitObjective p C.e50 C.family C.link R s C.P1a C.P2a 0 l1r) b0 b)
    (hc : Solves p ic C.lb C.ub (fitObjective p C.e50 C.family C.link R s C.P1a C.P2a a l1r) c0 c) :
    penaltyOf p s C.P1a C.P2a 1 l1r c ≤ penaltyOf p s C.P1a C.P2a 1 l1r b ∧
    halfDeviance p C.e50 C.family C.link R c0 c - halfDeviance p C.e50 C.family C.link R b0 b ≤ a * (penaltyOf p s C.P1a C.P2a 1 l1r b - penaltyOf p s C.P1a C.P2a 1 l1r c) := by
  obtain ⟨f1, m1⟩ := solves_min C R s 0 l1r b0 b hb
  obtain ⟨f2, m2⟩ := solves_min C R s a l1r c0 c hc
  have := penalised_trade C R s l1r a ha _ _ f1 f2 m1 m2
  rw [penaltyOf_penAt, penaltyOf_penAt, objAt_restrict, objAt_restrict, fitObjective_split, fitObjective_split, zero_mul, zero_mul, add_zero, add_zero] at this
  exact this

/-- Sublevel sets of the objective with `alpha = 1` are bounded. -/
theorem sublevel_bounded (C : FitCfg p ic) (R : Rows n) (l1r : ℝ) (h : ConvexFit C R l1r) (hr : RegularFit C R l1r 1) (s : ℕ → ℝ) (hs : ∀ j < p, s j ≠ 0) (c : ℝ) :
    ∃ r : ℝ, ∀ x ∈ feasible C, objAt C R s 1 l1r x ≤ c → ‖x‖ ≤ r := by
  obtain ⟨z, hz, hmin⟩ := regular_min C R l1r 1 h hr s hs
  obtain ⟨m, hm, hgrow⟩ := convex_growth _ (objAt_convex C R l1r h s 1 zero_le_one) (feasible C) (feasible_closed C) (feasible_convex C) z hz hmin 1 one_pos
  refine ⟨‖z‖ + max 1 ((c - objAt C R s 1 l1r z) / m), fun x hx hc => ?_⟩
  have htri : ‖x‖ ≤ ‖z‖ + ‖x - z‖ := by
    have := norm_add_le z (x - z)
    rwa [add_sub_cancel] at this
  refine htri.trans (add_le_add le_rfl ?_)
  by_cases h1 : 1 ≤ ‖x - z‖
  · refine le_max_of_le_right ?_
    rw [le_div_iff₀ hm]
    have := hgrow x hx h1
    linarith
  · exact le_max_of_le_left (not_le.1 h1).le

/-- Two minimisers of the unpenalised objective with the least penalty agree. -/
theorem least_unique (C : FitCfg p ic) (R : Rows n) (l1r : ℝ) (h : ConvexFit C R l1r) (hr : RegularFit C R l1r 1) (s : ℕ → ℝ) (hs : ∀ j < p, s j ≠ 0) (x z : ℝ × (Fin p → ℝ))
    (hx : x ∈ feasible C) (hz : z ∈ feasible C) (hx0 : ∀ y ∈ feasible C, objAt C R s 0 l1r x ≤ objAt C R s 0 l1r y)
    (hz0 : ∀ y ∈ feasible C, objAt C R s 0 l1r z ≤ objAt C R s 0 l1r y)
    (hzp : ∀ y ∈ feasible C, (∀ w ∈ feasible C, objAt C R s 0 l1r y ≤ objAt C R s 0 l1r w) → penAt C s l1r z ≤ penAt C s l1r y) (hxp : penAt C s l1r x ≤ penAt C s l1r z) : x = z := by
  set m : ℝ × (Fin p → ℝ) := (1 / 2 : ℝ) • x + (1 / 2 : ℝ) • z with hm
  have hmf : m ∈ feasible C := feasible_convex C hx hz (by norm_num) (by norm_num) (by norm_num)
  have hm0 : ∀ w ∈ feasible C, objAt C R s 0 l1r m ≤ objAt C R s 0 l1r w := fun w hw => by
    have := (objAt_convex C R l1r h s 0 le_rfl).2 (Set.mem_univ x) (Set.mem_univ z) (show (0 : ℝ) ≤ 1 / 2 by norm_num) (show (0 : ℝ) ≤ 1 / 2 by norm_num) (by norm_num)
    rw [← hm] at this
    simp only [smul_eq_mul] at this
    linarith [hx0 w hw, hz0 w hw]
  have hle := hzp m hmf hm0
  have e2 : ∑ j : Fin p, userP1 C.P1a j * |m.2 j * s j|
      ≤ 1 / 2 * ∑ j : Fin p, userP1 C.P1a j * |x.2 j * s j| + 1 / 2 * ∑ j : Fin p, userP1 C.P1a j * |z.2 j * s j| := by
    rw [Finset.mul_sum, Finset.mul_sum, ← Finset.sum_add_distrib]
    refine Finset.sum_le_sum fun j _ => ?_
    have e : m.2 j * s j = 1 / 2 * (x.2 j * s j) + 1 / 2 * (z.2 j * s j) := by
      rw [hm]
      simp only [Prod.snd_add, Prod.smul_snd, Pi.add_apply, Pi.smul_apply, smul_eq_mul]; ring
    have : |m.2 j * s j| ≤ 1 / 2 * |x.2 j * s j| + 1 / 2 * |z.2 j * s j| := by
      rw [e]
      refine (abs_add_le _ _).trans ?_
      rw [abs_mul, abs_mul (1 / 2), abs_of_pos (show (0 : ℝ) < 1 / 2 by norm_num)]
    have := mul_le_mul_of_nonneg_left this (h.p1 j)
    linarith
  have e3 := ridgeForm_combo C s x.2 z.2 (1 / 2) (1 / 2) (by norm_num)
  have e4 : m.2 = (1 / 2 : ℝ) • x.2 + (1 / 2 : ℝ) • z.2 := rfl
  rw [penAt_eq, penAt_eq] at hxp
  rw [penAt_eq, penAt_eq, e4, e3, ← e4] at hle
  have hl : 0 < 1 - l1r := by linarith [hr.mix]
  have k1 := mul_le_mul_of_nonneg_left e2 h.l1.1
  have hb : x.2 = z.2 := by
    by_contra hn
    have hpos : 0 < ridgeForm C s (x.2 - z.2) := by
      refine hr.posdef (fun j => (x.2 - z.2) j * s j) fun h0 => hn ?_
      funext j
      have := congrFun h0 j
      rcases mul_eq_zero.1 this with h' | h'
      · exact sub_eq_zero.1 h'
      · exact absurd h' (hs j j.2)
    have := mul_pos hl hpos
    nlinarith
  obtain ⟨i, hi⟩ : ∃ i, 0 < R.sw i := by
    by_contra hn
    push Not at hn
    have : ∑ i, R.sw i ≤ 0 := Finset.sum_nonpos fun i _ => hn i
    linarith [hr.weights]
  have hp := solutions_eta C R l1r 0 h le_rfl s x z hx hz hx0 hz0 i hi
  unfold predAt at hp
  rw [hb] at hp
  exact Prod.ext (by linarith) hb

/-- **C131, the limit exists.** If the unpenalised problem has a solution then exactly one of its solutions has the least penalty. -/
theorem c131_least (C : FitCfg p ic) (R : Rows n) (l1r : ℝ) (h : ConvexFit C R l1r) (hr : RegularFit C R l1r 1) (s : ℕ → ℝ) (hs : ∀ j < p, s j ≠ 0)
    (hex : ∃ c0 c, Solves p ic C.lb C.ub (fitObjective p C.e50 C.family C.link R s C.P1a C.P2a 0 l1r) c0 c) :
    ∃ b0 b, LeastPenalty C R s l1r b0 b ∧ ∀ c0 c, LeastPenalty C R s l1r c0 c → c0 = b0 ∧ ∀ j < p, c j = b j := by
  obtain ⟨c0, c, hc⟩ := hex
  obtain ⟨f1, m1⟩ := solves_min C R s 0 l1r c0 c hc
  set x0 := restrict (p := p) c0 c
  obtain ⟨r, hrb⟩ := sublevel_bounded C R l1r h hr s hs (objAt C R s 1 l1r x0)
  obtain ⟨z, ⟨hz, hz0⟩, hzmin⟩ := exists_min (objAt C R s 1 l1r) (objAt_continuous C R l1r h s 1 zero_le_one) (feasible C ∩ {y | objAt C R s 0 l1r y ≤ objAt C R s 0 l1r x0})
    ((feasible_closed C).inter (isClosed_le (objAt_continuous C R l1r h s 0 le_rfl) continuous_const)) x0 ⟨f1, le_refl (objAt C R s 0 l1r x0)⟩ r (fun x hx hle => hrb x hx.1 hle)
  have hz0 : objAt C R s 0 l1r z ≤ objAt C R s 0 l1r x0 := hz0
  have hzm : ∀ y ∈ feasible C, objAt C R s 0 l1r z ≤ objAt C R s 0 l1r y := fun y hy => hz0.trans (m1 y hy)
  have hzp : ∀ y ∈ feasible C, (∀ w ∈ feasible C, objAt C R s 0 l1r y ≤ objAt C R s 0 l1r w) → penAt C s l1r z ≤ penAt C s l1r y := fun y hy hy0 => by
    have := hzmin y ⟨hy, hy0 x0 f1⟩
    rw [objAt_split C R s 1, objAt_split C R s 1 l1r y, one_mul, one_mul] at this
    linarith [hy0 z hz]
  have e : ∀ c : Fin p → ℝ, penaltyOf p s C.P1a C.P2a 1 l1r (extend c) = penAt C s l1r (0, c) := fun _ => rfl
  refine ⟨z.1, extend z.2, ⟨min_solves C R s 0 l1r z hz hzm, fun d0 d hd => ?_⟩, fun d0 d hd => ?_⟩
  · obtain ⟨f2, m2⟩ := solves_min C R s 0 l1r d0 d hd
    have := hzp _ f2 m2
    rwa [penaltyOf_penAt] at this
  · obtain ⟨f2, m2⟩ := solves_min C R s 0 l1r d0 d hd.1
    have hle := hd.2 z.1 (extend z.2) (min_solves C R s 0 l1r z hz hzm)
    have := least_unique C R l1r h hr s hs (restrict d0 d) z f2 hz m2 hzm hzp (by rw [penaltyOf_penAt]; exact hle)
    refine ⟨congrArg Prod.fst this, fun j hj => ?_⟩
    have e := congrFun (congrArg Prod.snd this) ⟨j, hj⟩
    unfold extend
    rw [dif_pos hj]
    exact e

/-- **C131, the limit.** As `alpha` decreases to zero the solutions converge to the unpenalised solution with the least penalty. -/
theorem c131_limit (C : FitCfg p ic) (R : Rows n) (l1r : ℝ) (h : ConvexFit C R l1r) (hr : RegularFit C R l1r 1) (s : ℕ → ℝ) (hs : ∀ j < p, s j ≠ 0) (b0 : ℝ) (b : ℕ → ℝ)
    (hb : LeastPenalty C R s l1r b0 b) (ε : ℝ) (hε : 0 < ε) :
    ∃ a1 : ℝ, 0 < a1 ∧ ∀ a : ℝ, 0 < a → a < a1 → ∀ c0 c, Solves p ic C.lb C.ub (fitObjective p C.e50 C.family C.link R s C.P1a C.P2a a l1r) c0 c → CoefWithin p ε b0 b c0 c := by
  obtain ⟨fz, mz⟩ := solves_min C R s 0 l1r b0 b hb.1
  set z := restrict (p := p) b0 b with hzdef
  have hzp : ∀ y ∈ feasible C, (∀ w ∈ feasible C, objAt C R s 0 l1r y ≤ objAt C R s 0 l1r w) → penAt C s l1r z ≤ penAt C s l1r y := fun y hy hy0 => by
    rw [hzdef, penaltyOf_penAt]
    exact hb.2 y.1 (extend y.2) (min_solves C R s 0 l1r y hy hy0)
  have hP0 := penAt_nonneg C R l1r h s z
  set P := penAt C s l1r z with hP
  set F := objAt C R s 0 l1r z with hF
  obtain ⟨r, hrb⟩ := sublevel_bounded C R l1r h hr s hs (F + 2 * P)
  set K : Set (ℝ × (Fin p → ℝ)) := (feasible C ∩ {y | objAt C R s 1 l1r y ≤ F + 2 * P}) ∩ {y | ε ≤ ‖y - z‖} with hK
  have hKc : IsCompact K := by
    refine (isCompact_closedBall (0 : ℝ × (Fin p → ℝ)) r).of_isClosed_subset ?_ fun x hx => ?_
    · exact ((feasible_closed C).inter (isClosed_le (objAt_continuous C R l1r h s 1 zero_le_one) continuous_const)).inter (isClosed_le continuous_const (by fun_prop))
    · rw [mem_closedBall_zero_iff]; exact hrb x hx.1.1 hx.1.2
  have hpc : Continuous (penAt C s l1r) := by
    have : penAt C s l1r = fun y => objAt C R s 1 l1r y - objAt C R s 0 l1r y := funext fun y => by rw [objAt_split C R s 1 l1r y]; ring
    rw [this]
    exact (objAt_continuous C R l1r h s 1 zero_le_one).sub (objAt_continuous C R l1r h s 0 le_rfl)
  have hmain : ∃ a1 : ℝ, 0 < a1 ∧ a1 ≤ 1 ∧ ∀ a, 0 < a → a < a1 → ∀ y ∈ feasible C, (∀ w ∈ feasible C, objAt C R s a l1r y ≤ objAt C R s a l1r w) → ‖y - z‖ < ε := by
    rcases K.eq_empty_or_nonempty with he | hne
    · refine ⟨1, one_pos, le_rfl, fun a ha ha1 y hy hym => ?_⟩
      by_contra hn
      obtain ⟨t1, t2⟩ := penalised_trade C R s l1r a ha z y fz hy mz hym
      have hy0 := penAt_nonneg C R l1r h s y
      have : y ∈ K := ⟨⟨hy, by
        show objAt C R s 1 l1r y ≤ _
        rw [objAt_split C R s 1 l1r y]; nlinarith⟩, not_lt.1 hn⟩
      rw [he] at this
      exact this
    · obtain ⟨w, hw, hwm⟩ := hKc.exists_isMinOn hne (f := fun y => max (objAt C R s 0 l1r y - F) (penAt C s l1r y - P))
        (((objAt_continuous C R l1r h s 0 le_rfl).sub continuous_const).max (hpc.sub continuous_const)).continuousOn
      set m := max (objAt C R s 0 l1r w - F) (penAt C s l1r w - P) with hm
      have hm0 : 0 < m := by
        by_contra hn
        push Not at hn
        have q1 : objAt C R s 0 l1r w ≤ F := by linarith [le_max_left (objAt C R s 0 l1r w - F) (penAt C s l1r w - P)]
        have q2 : penAt C s l1r w ≤ P := by linarith [le_max_right (objAt C R s 0 l1r w - F) (penAt C s l1r w - P)]
        have := least_unique C R l1r h hr s hs w z hw.1.1 fz (fun y hy => q1.trans (mz y hy)) mz hzp q2
        have hd : ε ≤ ‖w - z‖ := hw.2
        rw [this, sub_self, _root_.norm_zero] at hd
        linarith
      refine ⟨min 1 (m / (P + 1)), lt_min one_pos (by positivity), min_le_left _ _, fun a ha ha1 y hy hym => ?_⟩
      by_contra hn
      obtain ⟨t1, t2⟩ := penalised_trade C R s l1r a ha z y fz hy mz hym
      have hy0 := penAt_nonneg C R l1r h s y
      have ha1' := ha1.trans_le (min_le_left _ _)
      have ha2 := ha1.trans_le (min_le_right _ _)
      rw [lt_div_iff₀ (by linarith)] at ha2
      have hyK : y ∈ K := ⟨⟨hy, by
        show objAt C R s 1 l1r y ≤ _
        rw [objAt_split C R s 1 l1r y]; nlinarith⟩, not_lt.1 hn⟩
      have := hwm hyK
      simp only [Set.mem_ofPred_eq] at this
      have hlt : max (objAt C R s 0 l1r y - F) (penAt C s l1r y - P) < m := max_lt (by nlinarith) (by linarith)
      linarith
  obtain ⟨a1, h1, -, hall⟩ := hmain
  refine ⟨a1, h1, fun a ha haa c0 c hc => ?_⟩
  obtain ⟨f2, m2⟩ := solves_min C R s a l1r c0 c hc
  have hn := (hall a ha haa _ f2 m2).le
  rw [Prod.norm_def, max_le_iff] at hn
  refine ⟨by rw [← Real.norm_eq_abs]; exact hn.1, fun j hj => ?_⟩
  rw [← Real.norm_eq_abs]
  exact (norm_le_pi_norm _ (⟨j, hj⟩ : Fin p)).trans hn.2

/-- **C131, no limit.** If the unpenalised problem has no solution (separation, for instance), the solutions leave every bounded set as `alpha` decreases to zero. -/
theorem c131_divergence (C : FitCfg p ic) (R : Rows n) (l1r : ℝ) (h : ConvexFit C R l1r) (s : ℕ → ℝ)
    (hno : ∀ c0 c, ¬ Solves p ic C.lb C.ub (fitObjective p C.e50 C.family C.link R s C.P1a C.P2a 0 l1r) c0 c) (B : ℝ) :
    ∃ a1 : ℝ, 0 < a1 ∧ ∀ a : ℝ, 0 < a → a < a1 → ∀ c0 c, Solves p ic C.lb C.ub (fitObjective p C.e50 C.family C.link R s C.P1a C.P2a a l1r) c0 c → B < |c0| ∨ ∃ j < p, B < |c j| := by
  set K : Set (ℝ × (Fin p → ℝ)) := feasible C ∩ Metric.closedBall 0 (max B 0) with hK
  have hmem : ∀ c0 c, WithinBounds p C.lb C.ub c → (ic = false → c0 = 0) → ¬ (B < |c0| ∨ ∃ j < p, B < |c j|) → restrict c0 c ∈ K := fun c0 c hc h0 hn => by
    push Not at hn
    refine ⟨restrict_feasible C c0 c h0 hc, ?_⟩
    rw [mem_closedBall_zero_iff, Prod.norm_def]
    refine max_le ?_ ((pi_norm_le_iff_of_nonneg (le_max_right _ _)).2 fun j => ?_)
    · rw [Real.norm_eq_abs]; exact hn.1.trans (le_max_left _ _)
    · rw [Real.norm_eq_abs]; exact (hn.2 j j.2).trans (le_max_left _ _)
  rcases K.eq_empty_or_nonempty with he | hne
  · refine ⟨1, one_pos, fun a ha ha1 c0 c hc => ?_⟩
    by_contra hn
    have := hmem c0 c hc.2.1 hc.1 hn
    rw [he] at this
    exact this
  · obtain ⟨w, hw, hwm⟩ := ((isCompact_closedBall (0 : ℝ × (Fin p → ℝ)) (max B 0)).inter_left (feasible_closed C)).exists_isMinOn hne (f := objAt C R s 0 l1r)
      (objAt_continuous C R l1r h s 0 le_rfl).continuousOn
    obtain ⟨y, hy, hlt⟩ : ∃ y ∈ feasible C, objAt C R s 0 l1r y < objAt C R s 0 l1r w := by
      by_contra hn
      push Not at hn
      exact hno _ _ (min_solves C R s 0 l1r w hw.1 hn)
    have hP := penAt_nonneg C R l1r h s y
    refine ⟨(objAt C R s 0 l1r w - objAt C R s 0 l1r y) / (penAt C s l1r y + 1), div_pos (by linarith) (by linarith), fun a ha ha1 c0 c hc => ?_⟩
    by_contra hn
    have hcK := hmem c0 c hc.2.1 hc.1 hn
    have q1 : objAt C R s 0 l1r w ≤ objAt C R s 0 l1r (restrict c0 c) := hwm hcK
    obtain ⟨-, m2⟩ := solves_min C R s a l1r c0 c hc
    have q2 := m2 y hy
    rw [objAt_split C R s a, objAt_split C R s a l1r y] at q2
    have q3 := mul_nonneg ha.le (penAt_nonneg C R l1r h s (restrict c0 c))
    rw [lt_div_iff₀ (by linarith)] at ha1
    nlinarith

/-- **C131, fits.** For every `ε` there is a bound on `alpha` below which every fit without ConvergenceWarning, at a `gradient_tol` small enough for its `alpha`, is within `ε` of the
unpenalised solution with the least penalty. -/
theorem c131_fits (C : FitCfg p ic) (stats : Stats) (R : Rows n) (l1r : ℝ) (h : ConvexFit C R l1r) (hr : RegularFit C R l1r 1) (hs : ∀ j, 0 ≤ (stats n R.X R.sw).2 j) (b0 : ℝ) (b : ℕ → ℝ)
    (hb : LeastPenalty C R (penScale C.thr C.asIfScaled (stats n R.X R.sw).2) l1r b0 b) (ε : ℝ) (hε : 0 < ε) :
    ∃ a1 : ℝ, 0 < a1 ∧ ∀ a : ℝ, 0 < a → a < a1 → ∃ δ : ℝ, 0 < δ ∧
      ∀ (next : (ℕ → BitVec 32) → ℕ → (ℕ → BitVec 32)) (inner : (ℕ → BitVec 32) → (m : ℕ) → Inner m p ic) (C' : FitCfg p ic),
      SameProblem C C' → C'.stepTol = none → C'.gradTol < δ →
      ∀ (sp : AlphaSpec) (s t : SolverLog) (r : PathResult), glmFit C' stats (irlsSolver next inner) R l1r sp s = some (t, r) →
        (∀ x ∈ r.alphas, 0 ≤ x) → t.convWarn = s.convWarn →
        ∀ (i : ℕ) (hi : i < r.alphas.length) (hc : i < r.coefPath.length) (hb : i < r.interceptPath.length), r.alphas[i] = a →
          WithinBounds p C.lb C.ub r.coefPath[i] → CoefWithin p ε b0 b r.interceptPath[i] r.coefPath[i] := by
  obtain ⟨a1, h1, hall⟩ := c131_limit C R l1r h hr _ (fun j _ => penScale_ne C.thr h.thr C.asIfScaled _ j) b0 b hb (ε / 2) (half_pos hε)
  refine ⟨a1, h1, fun a ha haa => ?_⟩
  have hra : RegularFit C R l1r a := ⟨hr.weights, ha, hr.mix, hr.posdef, hr.start, hr.room⟩
  obtain ⟨c0, c, hc, -⟩ := c90_unique_solution C R l1r a h hra (stats n R.X R.sw).2
  obtain ⟨δ, hδ, hfit⟩ := c90_fits_converge C stats R l1r a h hra hs c0 c hc (ε / 2) (half_pos hε)
  have hnear := hall a ha haa c0 c hc
  refine ⟨δ, hδ, fun next inner C' hC' hst hg sp s t r hf ha' hw i hi hcc hbb hal hwb => ?_⟩
  obtain ⟨k1, k2⟩ := hfit next inner C' hC' hst hg sp s t r hf ha' hw i hi hcc hbb hal hwb
  refine ⟨?_, fun j hj => ?_⟩
  · have := abs_sub_le r.interceptPath[i] c0 b0
    linarith [hnear.1]
  · have := abs_sub_le (r.coefPath[i] j) (c j) (b j)
    linarith [hnear.2 j hj, k2 j hj]

/-- **C131, dichotomy.** If the data are not separated (nor the coefficients otherwise undetermined at infinity) there is a least unpenalised solution; if they are, the solutions diverge. -/
theorem c131_dichotomy (C : FitCfg p ic) (R : Rows n) (l1r : ℝ) (h : ConvexFit C R l1r) (hr : RegularFit C R l1r 1) (stds : ℕ → ℝ) :
    ((¬ ∃ d0 d, Separates C R (penScale C.thr C.asIfScaled stds) 0 l1r d0 d) → ∃ b0 b, LeastPenalty C R (penScale C.thr C.asIfScaled stds) l1r b0 b) ∧
    ((∃ d0 d, Separates C R (penScale C.thr C.asIfScaled stds) 0 l1r d0 d) → ∀ B : ℝ, ∃ a1 : ℝ, 0 < a1 ∧ ∀ a : ℝ, 0 < a → a < a1 → ∀ c0 c,
      Solves p ic C.lb C.ub (fitObjective p C.e50 C.family C.link R (penScale C.thr C.asIfScaled stds) C.P1a C.P2a a l1r) c0 c → B < |c0| ∨ ∃ j < p, B < |c j|) := by
  have key := c113_solution_iff C R l1r 0 h le_rfl hr.room stds
  refine ⟨fun hn => ?_, fun hsep B => ?_⟩
  · obtain ⟨b0, b, hb, -⟩ := c131_least C R l1r h hr _ (fun j _ => penScale_ne C.thr h.thr C.asIfScaled stds j) (key.2 hn)
    exact ⟨b0, b, hb⟩
  · exact c131_divergence C R l1r h _ (fun c0 c hc => (key.1 ⟨c0, c, hc⟩) hsep) B

/-! ### The hypotheses are met -/

theorem twice_ridge_regular (a : ℝ) (ha : 0 < a) : RegularFit twiceCfg tinyRows 0 a := ⟨by simp [tinyRows], ha, one_pos, fun v hv => by
    have : ∑ j : Fin 2, ∑ k : Fin 2, userP2 twiceCfg.P2a j k * v j * v k = v 0 ^ 2 + v 1 ^ 2 := by
      simp [twiceCfg, userP2, Fin.sum_univ_two]; ring
    rw [this]
    by_contra hn
    push Not at hn
    have h0 : v 0 = 0 := by nlinarith [sq_nonneg (v 0), sq_nonneg (v 1)]
    have h1 : v 1 = 0 := by nlinarith [sq_nonneg (v 0), sq_nonneg (v 1)]
    exact hv (funext fun i => by fin_cases i <;> simp [h0, h1]), fun _ => (tiny_regular a ha).start rfl, fun _ => 0,
    fun j _ => ⟨(fun l hl => by cases hl), (fun u hu => by cases hu)⟩⟩

/-- With the feature entered twice every split of the slope 1 solves the unpenalised problem; the least penalty is at equal halves. -/
theorem twice_least : LeastPenalty twiceCfg tinyRows (fun _ => 1) 0 2 (fun _ => 1 / 2) := by
  have e : (fun j : ℕ => if j = 0 then (1 / 2 : ℝ) else 1 - 1 / 2) = fun _ => 1 / 2 := by
    funext j; split <;> norm_num
  have hsol := twice_solves (1 / 2) fun _ => 1
  rw [e] at hsol
  refine ⟨hsol, fun c0 c hc => ?_⟩
  obtain ⟨h1, -, -⟩ := c124_predictions twiceCfg tinyRows 0 0 twice_convex le_rfl (fun _ => 1) _ _ _ _ hsol hc
  have r0 := h1 0 (by norm_num [tinyRows])
  have r1 := h1 1 (by norm_num [tinyRows])
  simp [rowEta, tinyRows, Fin.sum_univ_two] at r0 r1
  have hp : ∀ b : ℕ → ℝ, penaltyOf 2 (fun _ => 1) twiceCfg.P1a twiceCfg.P2a 1 0 b = 1 / 2 * (b 0 ^ 2 + b 1 ^ 2) := fun b => by
    simp [penaltyOf, twiceCfg, userP2, Fin.sum_univ_two]; ring
  rw [hp, hp]
  have : c 0 + c 1 = 1 := by linarith
  nlinarith [sq_nonneg (c 0 - c 1)]

/-- Ridge regression with vanishing `alpha` splits the slope equally. -/
example (ε : ℝ) (hε : 0 < ε) : ∃ a : ℝ, 0 < a ∧ ∃ c0 c, Solves 2 true twiceCfg.lb twiceCfg.ub
    (fitObjective 2 twiceCfg.e50 twiceCfg.family twiceCfg.link tinyRows (fun _ => 1) twiceCfg.P1a twiceCfg.P2a a 0) c0 c ∧ CoefWithin 2 ε 2 (fun _ => 1 / 2) c0 c := by
  obtain ⟨a1, h1, hall⟩ := c131_limit twiceCfg tinyRows 0 twice_convex (twice_ridge_regular 1 one_pos) (fun _ => 1) (fun _ _ => one_ne_zero) _ _ twice_least ε hε
  obtain ⟨c0, c, hc, -⟩ := c90_unique_solution twiceCfg tinyRows 0 (a1 / 2) twice_convex (twice_ridge_regular _ (half_pos h1)) fun _ => 1
  have e : penScale twiceCfg.thr twiceCfg.asIfScaled (fun _ => 1) = fun _ => 1 := by funext j; simp [penScale, twiceCfg]
  rw [e] at hc
  exact ⟨a1 / 2, half_pos h1, c0, c, hc, hall _ (half_pos h1) (half_lt_self h1) c0 c hc⟩

/-- On separated data every penalised problem has a solution, and they diverge. -/
example (B : ℝ) : ∃ a : ℝ, 0 < a ∧ ∃ c0 c, Solves 1 false none none
    (fitObjective 1 0 .binomial .logit sepRows (penScale (1 / 10 ^ 6) false fun _ => 1) .none .none a 0) c0 c ∧ B < |c 0| := by
  have hr : RegularFit (sepCfg 1 1) sepRows 0 1 := ⟨by simp [sepRows], one_pos, one_pos, one_posdef, (fun h => by cases h), fun _ => 0,
    fun j _ => ⟨(fun l hl => by cases hl), (fun u hu => by cases hu)⟩⟩
  obtain ⟨a1, h1, hall⟩ := (c131_dichotomy (sepCfg 1 1) sepRows 0 (sep_convex 1 1) hr fun _ => 1).2 ⟨0, fun _ => 1, sep_separates 1 1 _⟩ (max B 0)
  obtain ⟨c0, c, hc⟩ := sep_ridge 1 1 (a1 / 2) (half_pos h1)
  refine ⟨a1 / 2, half_pos h1, c0, c, hc, ?_⟩
  rcases hall _ (half_pos h1) (half_lt_self h1) c0 c hc with h | ⟨j, hj, h⟩
  · rw [hc.1 rfl, abs_zero] at h
    exact absurd h (not_lt.2 (le_max_right _ _))
  · have : j = 0 := by omega
    subst this
    exact (le_max_left _ _).trans_lt h

end Glum
