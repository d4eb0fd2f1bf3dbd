import Verif.Props.Recover
import Verif.Props.Larger
import Mathlib.Topology.MetricSpace.HausdorffDistance
import Mathlib.LinearAlgebra.Basis.VectorSpace
import Mathlib.Analysis.Normed.Module.FiniteDimension
/-
C124: with collinear columns the predictions are still determined.
-/
set_option linter.unusedSectionVars false
set_option linter.unusedVariables false
set_option linter.unusedSimpArgs false

namespace Glum
open Spec Matrix

variable {n p q : ℕ} {ic ic' : Bool}

/-- The linear predictor of row `i` under intercept `b0` and coefficients `b`. -/
def Spec.rowEta (p : ℕ) (R : Rows n) (b0 : ℝ) (b : ℕ → ℝ) (i : Fin n) : ℝ := ∑ j : Fin p, R.X i j * b j + b0 + (R.off.getD fun _ => 0) i

/-- The penalty of the coefficients. -/
noncomputable def Spec.penaltyOf (p : ℕ) (s : ℕ → ℝ) (P1a : P1Arg) (P2a : P2Arg) (a l1r : ℝ) (b : ℕ → ℝ) : ℝ :=
  a * l1r * ∑ j : Fin p, userP1 P1a j * |b j * s j| + a * (1 - l1r) * (1 / 2 * ∑ j : Fin p, ∑ k : Fin p, userP2 P2a j k * (b j * s j) * (b k * s k))

theorem predAt_restrict (R : Rows n) (i : Fin n) (b0 : ℝ) (b : ℕ → ℝ) : predAt R i (restrict (p := p) b0 b) = rowEta p R b0 b i := rfl

/-- The loss is half the weighted sum of the row losses. -/
theorem objective_loss_penalty (C : FitCfg p ic) (R : Rows n) (s : ℕ → ℝ) (a l1r b0 : ℝ) (b : ℕ → ℝ) :
    fitObjective p C.e50 C.family C.link R s C.P1a C.P2a a l1r b0 b = 1 / 2 * ∑ i, rowLoss C R i (rowEta p R b0 b i) + penaltyOf p s C.P1a C.P2a a l1r b := by
  unfold fitObjective rowLoss rowEta penaltyOf
  ring

/-- The midpoint of two solutions would be better if they differed in a prediction. -/
theorem solutions_eta (C : FitCfg p ic) (R : Rows n) (l1r a : ℝ) (h : ConvexFit C R l1r) (ha : 0 ≤ a) (s : ℕ → ℝ) (x y : ℝ × (Fin p → ℝ)) (hx : x ∈ feasible C)
    (hy : y ∈ feasible C) (hxm : ∀ z ∈ feasible C, objAt C R s a l1r x ≤ objAt C R s a l1r z) (hym : ∀ z ∈ feasible C, objAt C R s a l1r y ≤ objAt C R s a l1r z)
    (i : Fin n) (hi : 0 < R.sw i) : predAt R i x = predAt R i y := by
  by_contra hne
  set m : ℝ × (Fin p → ℝ) := (1 / 2 : ℝ) • x + (1 / 2 : ℝ) • y with hm
  have hmf : m ∈ feasible C := feasible_convex C hx hy (by norm_num) (by norm_num) (by norm_num)
  have e : objAt C R s a l1r x = objAt C R s a l1r y := le_antisymm (hxm y hy) (hym x hx)
  -- the penalty is convex
  have h0 : ConvexFit C { R with sw := fun _ => 0 } l1r := ⟨h.thr, h.valid, h.pair, h.y, fun _ => le_rfl, h.p1, h.p2, h.l1⟩
  have hp := (objAt_convex C { R with sw := fun _ => 0 } l1r h0 s a ha).2 (Set.mem_univ x) (Set.mem_univ y) (show (0 : ℝ) ≤ 1 / 2 by norm_num)
    (show (0 : ℝ) ≤ 1 / 2 by norm_num) (by norm_num)
  rw [← hm] at hp
  simp only [objAt_eq, rowLoss, zero_mul, Finset.sum_const_zero, mul_zero, zero_add, smul_eq_mul] at hp
  have hl : ∑ i, rowLoss C R i (predAt R i m) < ∑ i, (1 / 2 * rowLoss C R i (predAt R i x) + 1 / 2 * rowLoss C R i (predAt R i y)) := by
    refine Finset.sum_lt_sum (fun j _ => ?_) ⟨i, Finset.mem_univ _, ?_⟩
    · rw [hm, predAt_combo R j x y _ _ (by norm_num)]
      rcases (h.sw j).lt_or_eq with hj | hj
      · exact (rowLoss_strict C R l1r h j hj).convexOn.2 (Set.mem_univ _) (Set.mem_univ _) (by norm_num) (by norm_num) (by norm_num)
      · unfold rowLoss; rw [← hj]; simp
    · rw [hm, predAt_combo R i x y _ _ (by norm_num)]
      exact (rowLoss_strict C R l1r h i hi).2 (Set.mem_univ _) (Set.mem_univ _) hne (by norm_num) (by norm_num) (by norm_num)
  rw [Finset.sum_add_distrib, ← Finset.mul_sum, ← Finset.mul_sum] at hl
  have h1 := hxm m hmf
  have h2 := hym m hmf
  simp only [objAt_eq] at h1 h2 e
  linarith

/-- A solution is a minimiser over the feasible set. -/
theorem solves_min (C : FitCfg p ic) (R : Rows n) (s : ℕ → ℝ) (a l1r b0 : ℝ) (b : ℕ → ℝ)
    (hb : Solves p ic C.lb C.ub (fitObjective p C.e50 C.family C.link R s C.P1a C.P2a a l1r) b0 b) :
    restrict b0 b ∈ feasible C ∧ ∀ z ∈ feasible C, objAt C R s a l1r (restrict b0 b) ≤ objAt C R s a l1r z :=
  ⟨restrict_feasible C b0 b hb.1 hb.2.1, fun z hz => by rw [objAt_restrict]; exact hb.2.2 z.1 (extend z.2) hz.1 (feasible_bounds C z hz)⟩

theorem min_solves (C : FitCfg p ic) (R : Rows n) (s : ℕ → ℝ) (a l1r : ℝ) (x : ℝ × (Fin p → ℝ)) (hx : x ∈ feasible C)
    (hmin : ∀ z ∈ feasible C, objAt C R s a l1r x ≤ objAt C R s a l1r z) :
    Solves p ic C.lb C.ub (fitObjective p C.e50 C.family C.link R s C.P1a C.P2a a l1r) x.1 (extend x.2) :=
  ⟨hx.1, feasible_bounds C x hx, fun c0 c h0 hc => by
    have := hmin _ (restrict_feasible C c0 c h0 hc)
    rw [objAt_restrict] at this
    exact this⟩

/-- **C124, predictions are determined.** Two solutions of the same convex problem — there may be many, with collinear columns, more columns than rows, an L1 penalty — have the same
linear predictor on every row that counts, the same deviance and the same penalty. -/
theorem c124_predictions (C : FitCfg p ic) (R : Rows n) (l1r a : ℝ) (h : ConvexFit C R l1r) (ha : 0 ≤ a) (s : ℕ → ℝ) (b0 c0 : ℝ) (b c : ℕ → ℝ)
    (hb : Solves p ic C.lb C.ub (fitObjective p C.e50 C.family C.link R s C.P1a C.P2a a l1r) b0 b)
    (hc : Solves p ic C.lb C.ub (fitObjective p C.e50 C.family C.link R s C.P1a C.P2a a l1r) c0 c) :
    (∀ i, 0 < R.sw i → rowEta p R b0 b i = rowEta p R c0 c i) ∧
    halfDeviance p C.e50 C.family C.link R b0 b = halfDeviance p C.e50 C.family C.link R c0 c ∧
    penaltyOf p s C.P1a C.P2a a l1r b = penaltyOf p s C.P1a C.P2a a l1r c := by
  obtain ⟨f1, m1⟩ := solves_min C R s a l1r b0 b hb
  obtain ⟨f2, m2⟩ := solves_min C R s a l1r c0 c hc
  have key : ∀ i, 0 < R.sw i → rowEta p R b0 b i = rowEta p R c0 c i := fun i hi => solutions_eta C R l1r a h ha s _ _ f1 f2 m1 m2 i hi
  have hd : halfDeviance p C.e50 C.family C.link R b0 b = halfDeviance p C.e50 C.family C.link R c0 c := by
    unfold halfDeviance
    congr 1
    refine Finset.sum_congr rfl fun i _ => ?_
    rcases (h.sw i).lt_or_eq with hi | hi
    · have := key i hi
      unfold rowEta at this
      rw [this]
    · rw [← hi]; simp
  refine ⟨key, hd, ?_⟩
  have e := le_antisymm (hb.2.2 c0 c hc.1 hc.2.1) (hc.2.2 b0 b hb.1 hb.2.1)
  have e1 : ∀ d0 d, fitObjective p C.e50 C.family C.link R s C.P1a C.P2a a l1r d0 d = halfDeviance p C.e50 C.family C.link R d0 d + penaltyOf p s C.P1a C.P2a a l1r d := by
    intro d0 d
    unfold fitObjective halfDeviance penaltyOf
    ring
  rw [e1, e1, hd] at e
  linarith

/-- The columns (and constant) of `R` can be combined to everything the columns (and constant) of `R'` can be, on the rows that count. -/
def Spec.Spans (p q : ℕ) (ic ic' : Bool) (R R' : Rows n) : Prop :=
  ∀ (c0 : ℝ) (c : ℕ → ℝ), (ic' = false → c0 = 0) → ∃ (b0 : ℝ) (b : ℕ → ℝ), (ic = false → b0 = 0) ∧
    ∀ i, 0 < R.sw i → ∑ j : Fin p, R.X i j * b j + b0 = ∑ j : Fin q, R'.X i j * c j + c0

/-- **C124, coding does not matter.** Without penalty and bounds two models whose columns span the same space on the rows that count — another choice of the dropped level of a categorical, all
levels without intercept, another spline or polynomial basis, further redundant columns — have the same predictions: every solution of the one has the linear predictors of every solution of the other. -/
theorem c124_recoding (C : FitCfg p ic) (C' : FitCfg q ic') (R R' : Rows n) (l1r l1r' : ℝ) (h : ConvexFit C R l1r) (h' : ConvexFit C' R' l1r')
    (hfam : C'.family = C.family) (hlink : C'.link = C.link) (he : C'.e50 = C.e50) (hy : R'.y = R.y) (hsw : R'.sw = R.sw) (hoff : R'.off = R.off)
    (hb : C.lb = none ∧ C.ub = none) (hb' : C'.lb = none ∧ C'.ub = none) (s s' : ℕ → ℝ) (hspan : Spans p q ic ic' R R') (hspan' : Spans q p ic' ic R' R)
    (b0 c0 : ℝ) (b c : ℕ → ℝ) (hsol : Solves p ic C.lb C.ub (fitObjective p C.e50 C.family C.link R s C.P1a C.P2a 0 l1r) b0 b)
    (hsol' : Solves q ic' C'.lb C'.ub (fitObjective q C'.e50 C'.family C'.link R' s' C'.P1a C'.P2a 0 l1r') c0 c) :
    ∀ i, 0 < R.sw i → rowEta p R b0 b i = rowEta q R' c0 c i := by
  have free : ∀ d, WithinBounds p C.lb C.ub d := fun d j _ => ⟨(fun l hl => by rw [hb.1] at hl; cases hl), (fun u hu => by rw [hb.2] at hu; cases hu)⟩
  have free' : ∀ d, WithinBounds q C'.lb C'.ub d := fun d j _ => ⟨(fun l hl => by rw [hb'.1] at hl; cases hl), (fun u hu => by rw [hb'.2] at hu; cases hu)⟩
  have tr : ∀ d0 d e0 e, (∀ i, 0 < R.sw i → ∑ j : Fin p, R.X i j * d j + d0 = ∑ j : Fin q, R'.X i j * e j + e0) →
      fitObjective p C.e50 C.family C.link R s C.P1a C.P2a 0 l1r d0 d = fitObjective q C'.e50 C'.family C'.link R' s' C'.P1a C'.P2a 0 l1r' e0 e := by
    intro d0 d e0 e hde
    rw [objective_alpha_zero, objective_alpha_zero, hfam, hlink, he, hy, hsw]
    congr 1
    refine Finset.sum_congr rfl fun i _ => ?_
    rcases (h.sw i).lt_or_eq with hi | hi
    · unfold rowMean
      rw [hde i hi, hoff]
    · rw [← hi]; simp
  obtain ⟨d0, d, hd0, hd⟩ := hspan c0 c hsol'.1
  have hdsol : Solves p ic C.lb C.ub (fitObjective p C.e50 C.family C.link R s C.P1a C.P2a 0 l1r) d0 d := by
    refine ⟨hd0, free d, fun e0 e h1 _ => ?_⟩
    obtain ⟨g0, g, hg0, hg⟩ := hspan' e0 e h1
    rw [tr d0 d c0 c hd, tr e0 e g0 g fun i hi => (hg i (by rw [hsw]; exact hi)).symm]
    exact hsol'.2.2 g0 g hg0 (free' g)
  intro i hi
  rw [(c124_predictions C R l1r 0 h le_rfl s b0 d0 b d hsol hdsol).1 i hi]
  unfold rowEta
  rw [hd i hi, hoff]

/-! ### Fits converge to the set of solutions -/

/-- The objective grows at least linearly away from the set `S`, outside every neighbourhood of it. -/
def GrowsFrom {E : Type} [NormedAddCommGroup E] (F : E → ℝ) (K S : Set E) : Prop :=
  ∀ ε : ℝ, 0 < ε → ∃ c : ℝ, 0 < c ∧ ∀ x ∈ K, ∃ b ∈ S, ε ≤ ‖x - b‖ → c * ‖x - b‖ ≤ F x - F b

/-- A convex function whose set of minimisers is compact grows away from it. -/
theorem grows_compact {E : Type} [NormedAddCommGroup E] [NormedSpace ℝ E] [FiniteDimensional ℝ E] (F : E → ℝ) (hF : ConvexOn ℝ Set.univ F) (K : Set E)
    (hK : IsClosed K) (hKc : Convex ℝ K) (S : Set E) (hS : IsCompact S) (hne : S.Nonempty) (hSmin : ∀ x, x ∈ S ↔ x ∈ K ∧ ∀ z ∈ K, F x ≤ F z) :
    GrowsFrom F K S := by
  intro ε hε
  have : ProperSpace E := FiniteDimensional.proper ℝ E
  have hcont : Continuous F := continuousOn_univ.1 (hF.continuousOn isOpen_univ)
  obtain ⟨s0, hs0⟩ := hne
  set T := K ∩ {x | Metric.infDist x S = ε} with hT
  have hTcl : IsClosed T := hK.inter (isClosed_eq (Metric.continuous_infDist_pt S) continuous_const)
  obtain ⟨B, hB⟩ := hS.isBounded.exists_norm_le
  have near : ∀ x, ∃ b ∈ S, Metric.infDist x S = ‖x - b‖ := fun x => by
    obtain ⟨b, hb, e⟩ := hS.exists_infDist_eq_dist ⟨s0, hs0⟩ x
    exact ⟨b, hb, by rw [e, dist_eq_norm]⟩
  have hTb : Bornology.IsBounded T := by
    refine isBounded_iff_forall_norm_le.2 ⟨B + ε, fun x hx => ?_⟩
    obtain ⟨b, hb, e⟩ := near x
    have h1 : ‖x - b‖ = ε := by rw [← e]; exact hx.2
    calc ‖x‖ = ‖b + (x - b)‖ := by rw [add_sub_cancel]
      _ ≤ ‖b‖ + ‖x - b‖ := norm_add_le _ _
      _ ≤ B + ε := add_le_add (hB b hb) h1.le
  have hTc : IsCompact T := Metric.isCompact_of_isClosed_isBounded hTcl hTb
  have hpos : ∀ x ∈ T, F s0 < F x := by
    intro x hx
    by_contra hn
    have hxS : x ∈ S := (hSmin x).2 ⟨hx.1, fun z hz => (not_lt.1 hn).trans (((hSmin s0).1 hs0).2 z hz)⟩
    have h0 : Metric.infDist x S = 0 := Metric.infDist_zero_of_mem hxS
    have h1 : Metric.infDist x S = ε := hx.2
    linarith
  have hm : ∃ m : ℝ, 0 < m ∧ ∀ x ∈ T, m ≤ F x - F s0 := by
    rcases T.eq_empty_or_nonempty with hE | hE
    · exact ⟨1, one_pos, fun x hx => by rw [hE] at hx; exact absurd hx (Set.notMem_empty x)⟩
    · obtain ⟨x0, hx0, hmin⟩ := hTc.exists_isMinOn hE hcont.continuousOn
      exact ⟨F x0 - F s0, sub_pos.2 (hpos x0 hx0), fun x hx => sub_le_sub_right (hmin hx) _⟩
  obtain ⟨m, hm0, hm⟩ := hm
  refine ⟨m / ε, div_pos hm0 hε, fun x hx => ?_⟩
  obtain ⟨b, hb, e⟩ := near x
  refine ⟨b, hb, fun hd => ?_⟩
  set d := ‖x - b‖ with hdd
  have hd0 : 0 < d := hε.trans_le hd
  have eb : F b = F s0 := le_antisymm (((hSmin b).1 hb).2 s0 ((hSmin s0).1 hs0).1) (((hSmin s0).1 hs0).2 b ((hSmin b).1 hb).1)
  have ht0 : 0 ≤ ε / d := (div_pos hε hd0).le
  have ht1 : 0 ≤ 1 - ε / d := by rw [sub_nonneg, div_le_one hd0]; exact hd
  set y := (1 - ε / d) • b + (ε / d) • x with hy
  have hyb : ‖y - b‖ = ε := by
    have : y - b = (ε / d) • (x - b) := by rw [hy]; module
    rw [this, norm_smul, Real.norm_of_nonneg ht0, ← hdd, div_mul_cancel₀ _ hd0.ne']
  have hxy : ‖x - y‖ = d - ε := by
    have : x - y = (1 - ε / d) • (x - b) := by rw [hy]; module
    rw [this, norm_smul, Real.norm_of_nonneg ht1, ← hdd, sub_mul, one_mul, div_mul_cancel₀ _ hd0.ne']
  have hyT : y ∈ T := by
    refine ⟨hKc ((hSmin b).1 hb).1 hx ht1 ht0 (by ring), le_antisymm ?_ ?_⟩
    · have := Metric.infDist_le_dist_of_mem (x := y) hb
      rwa [dist_eq_norm, hyb] at this
    · have := Metric.infDist_le_infDist_add_dist (s := S) (x := x) (y := y)
      rw [e, dist_eq_norm, hxy] at this
      linarith
  have h1 := hm y hyT
  have h2 := hF.2 (Set.mem_univ b) (Set.mem_univ x) ht1 ht0 (by ring)
  rw [← hy] at h2
  simp only [smul_eq_mul] at h2
  rw [eb] at h2 ⊢
  have h3 : m ≤ ε / d * (F x - F s0) := by linarith
  have h4 : m / ε * d = m * (d / ε) := by ring
  rw [h4]
  have h5 := mul_le_mul_of_nonneg_right h3 (div_pos hd0 hε).le
  have h6 : ε / d * (F x - F s0) * (d / ε) = F x - F s0 := by field_simp
  linarith

/-- The points that solve the problem. -/
def solutionSet (C : FitCfg p ic) (R : Rows n) (s : ℕ → ℝ) (a l1r : ℝ) : Set (ℝ × (Fin p → ℝ)) :=
  {x | x ∈ feasible C ∧ ∀ z ∈ feasible C, objAt C R s a l1r x ≤ objAt C R s a l1r z}

/-- Without penalty and bounds the loss grows away from the solutions, however large the set of solutions is. -/
theorem grows_free (C : FitCfg p ic) (R : Rows n) (l1r : ℝ) (h : ConvexFit C R l1r) (s : ℕ → ℝ) (hlb : C.lb = none) (hub : C.ub = none)
    (hne : (solutionSet C R s 0 l1r).Nonempty) : GrowsFrom (objAt C R s 0 l1r) (feasible C) (solutionSet C R s 0 l1r) := by
  obtain ⟨b, hb⟩ := hne
  -- the admissible directions and those that change no prediction that counts
  let V : Submodule ℝ (ℝ × (Fin p → ℝ)) :=
    { carrier := {z | ic = false → z.1 = 0}
      add_mem' := fun {x y} hx hy hi => by show x.1 + y.1 = 0; rw [hx hi, hy hi, add_zero]
      zero_mem' := fun _ => rfl
      smul_mem' := fun r x hx hi => by show r * x.1 = 0; rw [hx hi, mul_zero] }
  let N : Submodule ℝ (ℝ × (Fin p → ℝ)) :=
    { carrier := {z | (ic = false → z.1 = 0) ∧ ∀ i, 0 < R.sw i → ∑ j : Fin p, R.X i j * z.2 j + z.1 = 0}
      add_mem' := fun {x y} hx hy => ⟨fun hi => by show x.1 + y.1 = 0; rw [hx.1 hi, hy.1 hi, add_zero], fun i hi => by
        have h1 := hx.2 i hi
        have h2 := hy.2 i hi
        show ∑ j : Fin p, R.X i j * (x.2 j + y.2 j) + (x.1 + y.1) = 0
        simp only [mul_add, Finset.sum_add_distrib]
        linarith⟩
      zero_mem' := ⟨fun _ => rfl, fun i _ => by show ∑ j : Fin p, R.X i j * (0 : ℝ) + 0 = 0; simp⟩
      smul_mem' := fun r x hx => ⟨fun hi => by show r * x.1 = 0; rw [hx.1 hi, mul_zero], fun i hi => by
        have h1 := hx.2 i hi
        show ∑ j : Fin p, R.X i j * (r * x.2 j) + r * x.1 = 0
        have : ∑ j : Fin p, R.X i j * (r * x.2 j) = r * ∑ j : Fin p, R.X i j * x.2 j := by
          rw [Finset.mul_sum]; exact Finset.sum_congr rfl fun j _ => by ring
        rw [this, ← mul_add, h1, mul_zero]⟩ }
  obtain ⟨W0, hW0⟩ := exists_isCompl N
  set W := W0 ⊓ V with hW
  have hV : ∀ z, z ∈ V ↔ (ic = false → z.1 = 0) := fun z => Iff.rfl
  have hN : ∀ z, z ∈ N ↔ (ic = false → z.1 = 0) ∧ ∀ i, 0 < R.sw i → ∑ j : Fin p, R.X i j * z.2 j + z.1 = 0 := fun z => Iff.rfl
  have hfeas : ∀ z, z ∈ feasible C ↔ z ∈ V := fun z =>
    ⟨fun hz => hz.1, fun hz => ⟨hz, fun j => ⟨(fun l hl => by rw [hlb] at hl; cases hl), (fun u hu => by rw [hub] at hu; cases hu)⟩⟩⟩
  have hshift : ∀ x v, v ∈ N → ∀ i, 0 < R.sw i → predAt R i (x + v) = predAt R i x := by
    intro x v hv i hi
    have := hv.2 i hi
    unfold predAt
    simp only [Prod.fst_add, Prod.snd_add, Pi.add_apply, mul_add, Finset.sum_add_distrib]
    linarith
  have hobj : ∀ x v, v ∈ N → objAt C R s 0 l1r (x + v) = objAt C R s 0 l1r x := by
    intro x v hv
    simp only [objAt_eq, zero_mul, add_zero]
    congr 1
    refine Finset.sum_congr rfl fun i _ => ?_
    rcases (h.sw i).lt_or_eq with hi | hi
    · rw [hshift x v hv i hi]
    · unfold rowLoss; rw [← hi]; simp
  -- on the complement the minimiser is unique
  set K : Set (ℝ × (Fin p → ℝ)) := {x | x - b ∈ W} with hK
  have hKcl : IsClosed K := (Submodule.closed_of_finiteDimensional W).preimage (continuous_id.sub continuous_const)
  have hKcv : Convex ℝ K := by
    intro x hx y hy u v hu hv huv
    show u • x + v • y - b ∈ W
    have : u • x + v • y - b = u • (x - b) + v • (y - b) := by
      have hb1 : b = (u + v) • b := by rw [huv, one_smul]
      calc u • x + v • y - b = u • x + v • y - (u + v) • b := by rw [← hb1]
        _ = u • (x - b) + v • (y - b) := by module
    rw [this]
    exact W.add_mem (W.smul_mem u hx) (W.smul_mem v hy)
  have hbK : b ∈ K := by show b - b ∈ W; rw [sub_self]; exact W.zero_mem
  have hKf : ∀ x ∈ K, x ∈ feasible C := by
    intro x hx
    rw [hfeas]
    have h1 : x - b ∈ V := hx.2
    have := V.add_mem h1 ((hfeas b).1 hb.1)
    rwa [sub_add_cancel] at this
  have hmin : ∀ x ∈ K, x ≠ b → objAt C R s 0 l1r b < objAt C R s 0 l1r x := by
    intro x hx hxb
    by_contra hn
    have hxm : ∀ z ∈ feasible C, objAt C R s 0 l1r x ≤ objAt C R s 0 l1r z := fun z hz => (not_lt.1 hn).trans (hb.2 z hz)
    have heta := solutions_eta C R l1r 0 h le_rfl s x b (hKf x hx) hb.1 hxm hb.2
    have hxN : x - b ∈ N := by
      refine (hN _).2 ⟨hx.2, fun i hi => ?_⟩
      have := heta i hi
      unfold predAt at this
      simp only [Prod.fst_sub, Prod.snd_sub, Pi.sub_apply, mul_sub, Finset.sum_sub_distrib]
      linarith
    have h0 : x - b ∈ N ⊓ W0 := ⟨hxN, hx.1⟩
    rw [hW0.inf_eq_bot, Submodule.mem_bot] at h0
    exact hxb (sub_eq_zero.1 h0)
  intro ε hε
  obtain ⟨c, hc0, hgrow⟩ := convex_growth _ (objAt_convex C R l1r h s 0 le_rfl) K hKcl hKcv b hbK hmin ε hε
  refine ⟨c, hc0, fun x hx => ?_⟩
  have hxb : x - b ∈ N ⊔ W0 := by rw [hW0.sup_eq_top]; trivial
  obtain ⟨v, hv, w, hw, e⟩ := Submodule.mem_sup.1 hxb
  have hxV : x - b ∈ V := V.sub_mem ((hfeas x).1 hx) ((hfeas b).1 hb.1)
  have hvV : v ∈ V := hv.1
  have hwV : w ∈ V := by
    have := V.sub_mem hxV hvV
    rw [← e, add_sub_cancel_left] at this
    exact this
  refine ⟨b + v, ⟨(hfeas _).2 (V.add_mem ((hfeas b).1 hb.1) hvV), fun z hz => by rw [hobj b v hv]; exact hb.2 z hz⟩, fun hd => ?_⟩
  have e1 : x - (b + v) = w := by
    have : x = b + (v + w) := by rw [e]; abel
    rw [this]; abel
  have e2 : x = (b + w) + v := by
    have : x = b + (v + w) := by rw [e]; abel
    rw [this]; abel
  have hbw : b + w ∈ K := by show b + w - b ∈ W; rw [add_sub_cancel_left]; exact ⟨hw, hwV⟩
  have := hgrow (b + w) hbw (by rw [add_sub_cancel_left, ← e1]; exact hd)
  rw [add_sub_cancel_left] at this
  rw [e1, hobj b v hv]
  calc c * ‖w‖ ≤ objAt C R s 0 l1r (b + w) - objAt C R s 0 l1r b := this
    _ = objAt C R s 0 l1r x - objAt C R s 0 l1r b := by rw [e2, hobj (b + w) v hv]

/-- The set of solutions is bounded, or there is neither penalty nor bound. -/
def Spec.TameSolutions (C : FitCfg p ic) (R : Rows n) (s : ℕ → ℝ) (a l1r : ℝ) : Prop :=
  (a = 0 ∧ C.lb = none ∧ C.ub = none) ∨
  ∃ B : ℝ, ∀ (c0 : ℝ) (c : ℕ → ℝ), Solves p ic C.lb C.ub (fitObjective p C.e50 C.family C.link R s C.P1a C.P2a a l1r) c0 c → |c0| ≤ B ∧ ∀ j < p, |c j| ≤ B

theorem tame_grows (C : FitCfg p ic) (R : Rows n) (l1r a : ℝ) (h : ConvexFit C R l1r) (ha : 0 ≤ a) (s : ℕ → ℝ) (ht : TameSolutions C R s a l1r)
    (hne : (solutionSet C R s a l1r).Nonempty) : GrowsFrom (objAt C R s a l1r) (feasible C) (solutionSet C R s a l1r) := by
  rcases ht with ⟨rfl, hlb, hub⟩ | ⟨B, hB⟩
  · exact grows_free C R l1r h s hlb hub hne
  · have hcont : Continuous (objAt C R s a l1r) := continuousOn_univ.1 ((objAt_convex C R l1r h s a ha).continuousOn isOpen_univ)
    have hcl : IsClosed (solutionSet C R s a l1r) := by
      have e : solutionSet C R s a l1r = feasible C ∩ ⋂ z ∈ feasible C, {x | objAt C R s a l1r x ≤ objAt C R s a l1r z} := by
        ext x
        simp [solutionSet]
      rw [e]
      exact (feasible_closed C).inter (isClosed_biInter fun z _ => isClosed_le hcont continuous_const)
    have hbd : Bornology.IsBounded (solutionSet C R s a l1r) := by
      refine isBounded_iff_forall_norm_le.2 ⟨|B|, fun x hx => ?_⟩
      obtain ⟨h1, h2⟩ := hB x.1 (extend x.2) (min_solves C R s a l1r x hx.1 hx.2)
      refine norm_prod_le_iff.2 ⟨h1.trans (le_abs_self B), (pi_norm_le_iff_of_nonneg (abs_nonneg B)).2 fun j => ?_⟩
      have := h2 j j.2
      rw [extend_fin] at this
      exact this.trans (le_abs_self B)
    exact grows_compact _ (objAt_convex C R l1r h s a ha) (feasible C) (feasible_closed C) (feasible_convex C) _
      (Metric.isCompact_of_isClosed_isBounded hcl hbd) hne fun x => Iff.rfl

/-- **C124, fits converge to the solutions.** If a convex problem has a solution, and its solutions are bounded or there is neither penalty nor bound, then for every accuracy `ε` there is a tolerance
`δ` such that every fit with a `gradient_tol` below `δ` without `ConvergenceWarning` (within the bounds) reports coefficients within `ε` of a solution. -/
theorem c124_fits (C : FitCfg p ic) (stats : Stats) (R : Rows n) (l1r a : ℝ) (h : ConvexFit C R l1r) (ha0 : 0 ≤ a)
    (hs : ∀ j, 0 ≤ (stats n R.X R.sw).2 j) (ht : TameSolutions C R (penScale C.thr C.asIfScaled (stats n R.X R.sw).2) a l1r)
    (b0 : ℝ) (b : ℕ → ℝ)
    (hsol : Solves p ic C.lb C.ub
      (fitObjective p C.e50 C.family C.link R (penScale C.thr C.asIfScaled (stats n R.X R.sw).2) C.P1a C.P2a a l1r) b0 b) (ε : ℝ) (hε : 0 < ε) :
    ∃ δ : ℝ, 0 < δ ∧ ∀ (next : (ℕ → BitVec 32) → ℕ → (ℕ → BitVec 32)) (inner : (ℕ → BitVec 32) → (m : ℕ) → Inner m p ic) (C' : FitCfg p ic),
      SameProblem C C' → C'.stepTol = none → C'.gradTol < δ →
      ∀ (sp : AlphaSpec) (s t : SolverLog) (r : PathResult), glmFit C' stats (irlsSolver next inner) R l1r sp s = some (t, r) →
        (∀ x ∈ r.alphas, 0 ≤ x) → t.convWarn = s.convWarn →
        ∀ (i : ℕ) (hi : i < r.alphas.length) (hc : i < r.coefPath.length) (hb : i < r.interceptPath.length), r.alphas[i] = a →
          WithinBounds p C.lb C.ub r.coefPath[i] → ∃ (c0 : ℝ) (c : ℕ → ℝ),
            Solves p ic C.lb C.ub (fitObjective p C.e50 C.family C.link R (penScale C.thr C.asIfScaled (stats n R.X R.sw).2) C.P1a C.P2a a l1r) c0 c ∧
            |r.interceptPath[i] - c0| ≤ ε ∧ ∀ j < p, |r.coefPath[i] j - c j| ≤ ε := by
  set S := penScale C.thr C.asIfScaled (stats n R.X R.sw).2 with hS
  obtain ⟨c, hc0, hgrow⟩ := tame_grows C R l1r a h ha0 S ht ⟨_, solves_min C R S a l1r b0 b hsol⟩ ε hε
  set M := 1 + ∑ j : Fin p, |(stats n R.X R.sw).1 j| + ∑ j : Fin p, colScale C.thr (stats n R.X R.sw).2 j with hMdef
  have hM : 0 < M := by
    have hm : 0 ≤ ∑ j : Fin p, |(stats n R.X R.sw).1 j| := Finset.sum_nonneg fun j _ => abs_nonneg _
    have hc : 0 ≤ ∑ j : Fin p, colScale C.thr (stats n R.X R.sw).2 j := Finset.sum_nonneg fun j _ => colScale_nonneg C.thr _ hs j
    rw [hMdef]; linarith
  refine ⟨c / M, div_pos hc0 hM, fun next inner C' hC hstep hg sp s t r hfit ha hw i hi hc hb hai hin => ?_⟩
  have h' : ConvexFit C' R l1r := by
    refine ⟨hC.thr ▸ h.thr, hC.family ▸ h.valid, ?_, ?_, h.sw, ?_, ?_, h.l1⟩
    · rw [hC.family, hC.link]; exact h.pair
    · rw [hC.family]; exact h.y
    · rw [hC.P1]; exact h.p1
    · rw [hC.P2]; exact h.p2
  obtain ⟨-, -, -, -, hopt⟩ := c75_no_warning_near_optimal next inner C' stats R l1r h' hs hstep sp s t r hfit ha hw
  have hic0 := rows_intercept_zero next inner C' stats R l1r h' hs hstep sp s t r hfit ha hw i hi hc hb
  have hfeas := restrict_feasible C r.interceptPath[i] r.coefPath[i] hic0 hin
  obtain ⟨z, hz, hgz⟩ := hgrow _ hfeas
  have hzs := min_solves C R S a l1r z hz.1 hz.2
  have hzr : restrict z.1 (extend z.2) = z := Prod.ext rfl (funext fun j => extend_fin _ j)
  refine ⟨z.1, extend z.2, hzs, ?_⟩
  rw [← hzr] at hgz
  set N := ‖restrict (p := p) r.interceptPath[i] r.coefPath[i] - restrict z.1 (extend z.2)‖ with hN
  have hNle : N ≤ ε := by
    by_contra hn
    have hbig : ε ≤ N := (not_le.1 hn).le
    have hNp : 0 < N := lt_of_lt_of_le hε hbig
    have h1 := hgz hbig
    rw [objAt_restrict, objAt_restrict] at h1
    have hcl := stdClose_of_norm (p := p) (ic := ic) C.thr h.thr (stats n R.X R.sw).1 (stats n R.X R.sw).2 hs z.1 (extend z.2) r.interceptPath[i] r.coefPath[i]
    rw [← hMdef, norm_sub_rev, ← hN] at hcl
    have h2 := hopt i hi hc hb z.1 (extend z.2) hzs.1 (by rw [hC.lb, hC.ub]; exact hzs.2.1) (M * N) (mul_nonneg hM.le hNp.le) (by rw [hC.thr]; exact hcl)
    rw [hC.e50, hC.family, hC.link, hC.thr, hC.scaled, hC.P1, hC.P2, hai, ← hS] at h2
    have h3 : c * N ≤ C'.gradTol * (M * N) := by linarith
    have h4 : C'.gradTol * (M * N) < c / M * (M * N) := mul_lt_mul_of_pos_right hg (mul_pos hM hNp)
    have h5 : c / M * (M * N) = c * N := by field_simp
    linarith
  refine ⟨(norm_fst_le (restrict (p := p) r.interceptPath[i] r.coefPath[i] - restrict z.1 (extend z.2))).trans hNle, fun j hj => ?_⟩
  have h1 := norm_snd_le (restrict (p := p) r.interceptPath[i] r.coefPath[i] - restrict z.1 (extend z.2))
  exact ((norm_le_pi_norm (restrict (p := p) r.interceptPath[i] r.coefPath[i] - restrict z.1 (extend z.2)).2 ⟨j, hj⟩).trans h1).trans hNle

/-- Close coefficients have close predictors. -/
theorem rowEta_close (R : Rows n) (b0 c0 : ℝ) (b c : ℕ → ℝ) (ε : ℝ) (h0 : |b0 - c0| ≤ ε) (h : ∀ j < p, |b j - c j| ≤ ε) (i : Fin n) :
    |rowEta p R b0 b i - rowEta p R c0 c i| ≤ (1 + ∑ j : Fin p, |R.X i j|) * ε := by
  have e : rowEta p R b0 b i - rowEta p R c0 c i = (b0 - c0) + ∑ j : Fin p, R.X i j * (b j - c j) := by
    unfold rowEta
    simp only [mul_sub, Finset.sum_sub_distrib]
    ring
  rw [e]
  have h1 : |∑ j : Fin p, R.X i j * (b j - c j)| ≤ (∑ j : Fin p, |R.X i j|) * ε := by
    refine (Finset.abs_sum_le_sum_abs _ _).trans ?_
    rw [Finset.sum_mul]
    refine Finset.sum_le_sum fun j _ => ?_
    rw [abs_mul]
    exact mul_le_mul_of_nonneg_left (h j j.2) (abs_nonneg _)
  have h2 := abs_add_le (b0 - c0) (∑ j : Fin p, R.X i j * (b j - c j))
  linarith

/-- **C124, predictions of fits converge.** In the same situation the linear predictors of the fits on the rows that count converge to those of the solutions (which are all the same),
even if the coefficients do not converge. -/
theorem c124_fitted_values (C : FitCfg p ic) (stats : Stats) (R : Rows n) (l1r a : ℝ) (h : ConvexFit C R l1r) (ha0 : 0 ≤ a)
    (hs : ∀ j, 0 ≤ (stats n R.X R.sw).2 j) (ht : TameSolutions C R (penScale C.thr C.asIfScaled (stats n R.X R.sw).2) a l1r)
    (b0 : ℝ) (b : ℕ → ℝ)
    (hsol : Solves p ic C.lb C.ub
      (fitObjective p C.e50 C.family C.link R (penScale C.thr C.asIfScaled (stats n R.X R.sw).2) C.P1a C.P2a a l1r) b0 b) (ε : ℝ) (hε : 0 < ε) :
    ∃ δ : ℝ, 0 < δ ∧ ∀ (next : (ℕ → BitVec 32) → ℕ → (ℕ → BitVec 32)) (inner : (ℕ → BitVec 32) → (m : ℕ) → Inner m p ic) (C' : FitCfg p ic),
      SameProblem C C' → C'.stepTol = none → C'.gradTol < δ →
      ∀ (sp : AlphaSpec) (s t : SolverLog) (r : PathResult), glmFit C' stats (irlsSolver next inner) R l1r sp s = some (t, r) →
        (∀ x ∈ r.alphas, 0 ≤ x) → t.convWarn = s.convWarn →
        ∀ (i : ℕ) (hi : i < r.alphas.length) (hc : i < r.coefPath.length) (hb : i < r.interceptPath.length), r.alphas[i] = a →
          WithinBounds p C.lb C.ub r.coefPath[i] → ∀ row, 0 < R.sw row →
            |rowEta p R r.interceptPath[i] r.coefPath[i] row - rowEta p R b0 b row| ≤ ε := by
  set G := 1 + ∑ row : Fin n, ∑ j : Fin p, |R.X row j| with hG
  have hG0 : 0 < G := by
    have : 0 ≤ ∑ row : Fin n, ∑ j : Fin p, |R.X row j| := Finset.sum_nonneg fun _ _ => Finset.sum_nonneg fun _ _ => abs_nonneg _
    rw [hG]; linarith
  obtain ⟨δ, hδ, hfit⟩ := c124_fits C stats R l1r a h ha0 hs ht b0 b hsol (ε / G) (div_pos hε hG0)
  refine ⟨δ, hδ, fun next inner C' hC hstep hg sp s t r hf ha hw i hi hc hb hai hin row hrow => ?_⟩
  obtain ⟨c0, c, hcs, h0, hj⟩ := hfit next inner C' hC hstep hg sp s t r hf ha hw i hi hc hb hai hin
  rw [(c124_predictions C R l1r a h ha0 _ b0 c0 b c hsol hcs).1 row hrow]
  refine (rowEta_close R _ _ _ _ _ h0 hj row).trans ?_
  have h1 : ∑ j : Fin p, |R.X row j| ≤ ∑ row : Fin n, ∑ j : Fin p, |R.X row j| :=
    Finset.single_le_sum (f := fun row => ∑ j : Fin p, |R.X row j|) (fun _ _ => Finset.sum_nonneg fun _ _ => abs_nonneg _) (Finset.mem_univ row)
  calc (1 + ∑ j : Fin p, |R.X row j|) * (ε / G) ≤ G * (ε / G) := mul_le_mul_of_nonneg_right (by rw [hG]; linarith) (div_pos hε hG0).le
    _ = ε := by field_simp

/-! ### The hypotheses are met -/

/-- Least squares with the feature of `tinyRows` entered twice. -/
noncomputable def twiceCfg : FitCfg 2 true where
  family := .normal
  link := .identity
  e50 := 0
  thr := 1 / 10 ^ 6
  asIfScaled := false
  xsp := false
  P1a := .none
  P2a := .none
  lb := none
  ub := none
  A := none
  start := .cold
  p2ok := fun _ => true
  maxIter := 5
  maxInnerIter := 5
  gradTol := 1 / 10000
  stepTol := none
  hessApprox := 0
  fixedInnerTol := none
  random := false
  eps := 1 / 10 ^ 16
  large := 10 ^ 43

theorem twice_convex : ConvexFit twiceCfg tinyRows 0 where
  thr := by norm_num [twiceCfg]
  valid := by trivial
  pair := ⟨.normalIdentity, rfl, by simp⟩
  y := fun i => by trivial
  sw := fun i => by norm_num [tinyRows]
  p1 := fun j => by simp [twiceCfg, userP1]
  p2 := fun v => by
    simp [twiceCfg, userP2, Fin.sum_univ_two]
    nlinarith [mul_self_nonneg (v 0), mul_self_nonneg (v 1)]
  l1 := ⟨le_rfl, zero_le_one⟩

/-- Every split of the slope is a solution: the coefficients are not determined. -/
theorem twice_solves (t : ℝ) (s : ℕ → ℝ) :
    Solves 2 true twiceCfg.lb twiceCfg.ub (fitObjective 2 twiceCfg.e50 twiceCfg.family twiceCfg.link tinyRows s twiceCfg.P1a twiceCfg.P2a 0 0) 2
      (fun j => if j = 0 then t else 1 - t) := by
  have hnf : NoiseFree 2 0 .normal .identity tinyRows 2 (fun j => if j = 0 then t else 1 - t) := by
    intro i _
    show _ = trueMean 0 .normal .identity _
    rw [trueMean_identity]
    fin_cases i
    · simp [tinyRows, Fin.sum_univ_two]; norm_num
    · simp [tinyRows, Fin.sum_univ_two]; ring
  have hb : ∀ b, WithinBounds 2 twiceCfg.lb twiceCfg.ub b := fun b j _ => ⟨(fun l hl => by cases hl), (fun u hu => by cases hu)⟩
  exact (c123_solutions twiceCfg (by trivial) .normalIdentity rfl tinyRows (fun i => by trivial) (fun i => by norm_num [tinyRows]) s 0 2 _
    (fun h => by cases h) (hb _) hnf 2 _).2 ⟨(fun h => by cases h), hb _, hnf⟩

example (s : ℕ → ℝ) : TameSolutions twiceCfg tinyRows s 0 0 := Or.inl ⟨rfl, rfl, rfl⟩

/-- Entering the feature twice does not change the span. -/
example : Spans 1 2 true true tinyRows tinyRows ∧ Spans 2 1 true true tinyRows tinyRows := by
  constructor
  · intro c0 c _
    refine ⟨c0, fun _ => c 0 + c 1, (fun h => by cases h), fun i _ => ?_⟩
    simp [tinyRows, Fin.sum_univ_two]
  · intro c0 c _
    refine ⟨c0, fun j => if j = 0 then c 0 else 0, (fun h => by cases h), fun i _ => ?_⟩
    simp [tinyRows, Fin.sum_univ_two]

/-- An indicator for each of the two levels, to be used without intercept. -/
noncomputable def levelRows : Rows 2 := { tinyRows with X := fun i j => if i.val = j then 1 else 0 }

/-- Both levels without intercept span the same space as one contrast with intercept. -/
example : Spans 1 2 true false tinyRows levelRows ∧ Spans 2 1 false true levelRows tinyRows := by
  constructor
  · intro c0 c h0
    refine ⟨(c 0 + c 1) / 2, fun _ => (c 0 - c 1) / 2, (fun h => by cases h), fun i _ => ?_⟩
    rw [h0 rfl]
    fin_cases i
    · simp [tinyRows, levelRows, Fin.sum_univ_two]; ring
    · simp [tinyRows, levelRows, Fin.sum_univ_two]; ring
  · intro c0 c _
    refine ⟨0, fun j => if j = 0 then c0 + c 0 else c0 - c 0, (fun _ => rfl), fun i _ => ?_⟩
    fin_cases i
    · simp [tinyRows, levelRows, Fin.sum_univ_two]; ring
    · simp [tinyRows, levelRows, Fin.sum_univ_two]; ring

/-- **C124, a ridge penalty sees the coding.** With a ridge penalty the same model entered twice has other predictions: the constant and slope that solve the problem with the feature once
(`alpha = 1`: slope 1/2) are improved on by splitting a larger slope. -/
theorem c124_ridge_sees_coding :
    Solves 1 true none none (fitObjective 1 0 .normal .identity tinyRows (fun _ => 1) .none .none 1 0) 2 (fun _ => 1 / 2) ∧
    ∀ b : ℕ → ℝ, b 0 + b 1 = 1 / 2 → ¬ Solves 2 true none none (fitObjective 2 0 .normal .identity tinyRows (fun _ => 1) .none .none 1 0) 2 b := by
  have hz : ∀ (b0 : ℝ) (b : ℕ → ℝ), fitObjective 2 0 .normal .identity tinyRows (fun _ => 1) .none .none 1 0 b0 b
      = 1 / 4 * ((3 - (b 0 + b 1 + b0)) ^ 2 + (1 - (-(b 0 + b 1) + b0)) ^ 2) + 1 / 2 * (b 0 ^ 2 + b 1 ^ 2) := by
    intro b0 b
    have ht : ∀ e, trueMean 0 .normal .identity e = e := fun _ => rfl
    have hd : ∀ y m, Family.unitDeviance .normal y m = (y - m) ^ 2 := fun _ _ => rfl
    unfold fitObjective
    simp [ht, hd, userP2, tinyRows, Fin.sum_univ_two]
    ring
  constructor
  · refine ⟨(fun h => by cases h), fun j _ => ⟨(fun l hl => by cases hl), (fun u hu => by cases hu)⟩, fun c0 c _ _ => ?_⟩
    rw [tiny_objective _ _ _ fun _ => rfl, tiny_objective _ _ _ fun _ => rfl]
    nlinarith [sq_nonneg (c 0 - 1 / 2), sq_nonneg (c0 - 2)]
  · rintro b hb ⟨-, -, h⟩
    have := h 2 (fun _ => 1 / 3) (fun h => by cases h) fun j _ => ⟨(fun l hl => by cases hl), (fun u hu => by cases hu)⟩
    rw [hz, hz, hb] at this
    nlinarith [sq_nonneg (b 0 - b 1)]

end Glum
