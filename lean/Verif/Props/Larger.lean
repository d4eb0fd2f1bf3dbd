import Verif.Props.Influence
/-
C102: a larger model (more columns, looser bounds) fits the training data at least as well.
-/
set_option linter.unusedSectionVars false
set_option linter.unusedVariables false
set_option linter.unusedSimpArgs false

namespace Glum
open Spec

variable {n p q : ℕ} {ic : Bool}

/-- The coefficients of the small model, with zeros for the additional columns. -/
def Spec.pad (p : ℕ) (b : ℕ → ℝ) : ℕ → ℝ := fun j => if j < p then b j else 0

/-- The second problem has the columns of the first and possibly more, the same penalties on the common ones, and bounds which allow whatever the first allows (so zero
for the additional columns). -/
structure Spec.Larger (C : FitCfg p ic) (D : FitCfg q ic) : Prop where
  columns : p ≤ q
  family : D.family = C.family
  link : D.link = C.link
  e50 : D.e50 = C.e50
  thr : D.thr = C.thr
  scaled : D.asIfScaled = C.asIfScaled
  P1 : ∀ j < p, userP1 D.P1a j = userP1 C.P1a j
  P2 : ∀ j < p, ∀ k < p, userP2 D.P2a j k = userP2 C.P2a j k
  bounds : ∀ b, WithinBounds p C.lb C.ub b → WithinBounds q D.lb D.ub (pad p b)

theorem sum_pad (hpq : p ≤ q) (f g : ℕ → ℝ) (h : ∀ j < p, f j = g j) (h0 : ∀ j, p ≤ j → f j = 0) : ∑ j : Fin q, f j = ∑ j : Fin p, g j := by
  rw [Fin.sum_univ_eq_sum_range f q, Fin.sum_univ_eq_sum_range g p]
  rw [← Finset.sum_subset (Finset.range_mono hpq) fun j _ hj => h0 j (by simpa using hj)]
  exact Finset.sum_congr rfl fun j hj => h j (Finset.mem_range.1 hj)

theorem objective_pad (C : FitCfg p ic) (D : FitCfg q ic) (h : Larger C D) (R : Rows n) (s : ℕ → ℝ) (a l1r b0 : ℝ) (b : ℕ → ℝ) :
    fitObjective q D.e50 D.family D.link R s D.P1a D.P2a a l1r b0 (pad p b) = fitObjective p C.e50 C.family C.link R s C.P1a C.P2a a l1r b0 b := by
  have hlt : ∀ j < p, pad p b j = b j := fun j hj => if_pos hj
  have hge : ∀ j, p ≤ j → pad p b j = 0 := fun j hj => if_neg (not_lt.2 hj)
  unfold fitObjective
  rw [h.e50, h.family, h.link]
  congr 1
  · congr 1
    · congr 1
      refine Finset.sum_congr rfl fun i _ => ?_
      rw [sum_pad h.columns (fun j => R.X i j * pad p b j) (fun j => R.X i j * b j) (fun j hj => by rw [hlt j hj]) fun j hj => by rw [hge j hj, mul_zero]]
    · rw [sum_pad h.columns (fun j => userP1 D.P1a j * |pad p b j * s j|) (fun j => userP1 C.P1a j * |b j * s j|) (fun j hj => by rw [hlt j hj, h.P1 j hj])
        fun j hj => by rw [hge j hj]; simp]
  · congr 2
    rw [sum_pad h.columns (fun j => ∑ k : Fin q, userP2 D.P2a j k * (pad p b j * s j) * (pad p b k * s k))
      (fun j => ∑ k : Fin p, userP2 C.P2a j k * (b j * s j) * (b k * s k)) (fun j hj => ?_) fun j hj => by rw [hge j hj]; simp]
    exact sum_pad h.columns (fun k => userP2 D.P2a j k * (pad p b j * s j) * (pad p b k * s k)) (fun k => userP2 C.P2a j k * (b j * s j) * (b k * s k))
      (fun k hk => by rw [hlt j hj, hlt k hk, h.P2 j hj k hk]) fun k hk => by rw [hge k hk]; simp

/-- **C102, exact.** The objective of the solution of the larger problem is not larger; without penalty: its deviance. -/
theorem c102_solutions (C : FitCfg p ic) (D : FitCfg q ic) (h : Larger C D) (R : Rows n) (s : ℕ → ℝ) (a l1r b0 c0 : ℝ) (b c : ℕ → ℝ)
    (hb : Solves p ic C.lb C.ub (fitObjective p C.e50 C.family C.link R s C.P1a C.P2a a l1r) b0 b)
    (hc : Solves q ic D.lb D.ub (fitObjective q D.e50 D.family D.link R s D.P1a D.P2a a l1r) c0 c) :
    fitObjective q D.e50 D.family D.link R s D.P1a D.P2a a l1r c0 c ≤ fitObjective p C.e50 C.family C.link R s C.P1a C.P2a a l1r b0 b ∧
    (a = 0 → halfDeviance q D.e50 D.family D.link R c0 c ≤ halfDeviance p C.e50 C.family C.link R b0 b) := by
  have h1 := hc.2.2 b0 (pad p b) hb.1 (h.bounds b hb.2.1)
  rw [objective_pad C D h] at h1
  refine ⟨h1, fun e => ?_⟩
  rw [fitObjective_split, fitObjective_split, e] at h1
  simpa using h1

/-- **C102, fits.** A fit of the larger problem without `ConvergenceWarning`: at the same strength its objective exceeds that of *any* model of the smaller problem by at most
`gradient_tol` times the distance; without penalty: its deviance. -/
theorem c102_fits (next : (ℕ → BitVec 32) → ℕ → (ℕ → BitVec 32))
    (inner : (ℕ → BitVec 32) → (m : ℕ) → Inner m q ic) (C : FitCfg p ic) (D : FitCfg q ic) (hCD : Larger C D) (stats : Stats) (R : Rows n)
    (l1r : ℝ) (h : ConvexFit D R l1r) (hs : ∀ j, 0 ≤ (stats n R.X R.sw).2 j) (hstep : D.stepTol = none) (sp : AlphaSpec) (s t : SolverLog) (r : PathResult)
    (hfit : glmFit D stats (irlsSolver next inner) R l1r sp s = some (t, r)) (ha : ∀ x ∈ r.alphas, 0 ≤ x) (hw : t.convWarn = s.convWarn)
    (i : ℕ) (hi : i < r.alphas.length) (hc : i < r.coefPath.length) (hb : i < r.interceptPath.length)
    (b0 : ℝ) (b : ℕ → ℝ) (hb0 : ic = false → b0 = 0) (hbb : WithinBounds p C.lb C.ub b) (B : ℝ) (hB : 0 ≤ B)
    (hclose : StdClose q ic D.thr (stats n R.X R.sw).1 (stats n R.X R.sw).2 B b0 (pad p b) r.interceptPath[i] r.coefPath[i]) :
    fitObjective q D.e50 D.family D.link R (penScale D.thr D.asIfScaled (stats n R.X R.sw).2) D.P1a D.P2a r.alphas[i] l1r r.interceptPath[i] r.coefPath[i]
      ≤ fitObjective p C.e50 C.family C.link R (penScale C.thr C.asIfScaled (stats n R.X R.sw).2) C.P1a C.P2a r.alphas[i] l1r b0 b + D.gradTol * B ∧
    (r.alphas[i] = 0 → halfDeviance q D.e50 D.family D.link R r.interceptPath[i] r.coefPath[i] ≤ halfDeviance p C.e50 C.family C.link R b0 b + D.gradTol * B) := by
  obtain ⟨-, -, -, -, hopt⟩ := c75_no_warning_near_optimal next inner D stats R l1r h hs hstep sp s t r hfit ha hw
  have o1 := hopt i hi hc hb b0 (pad p b) hb0 (hCD.bounds b hbb) B hB hclose
  rw [objective_pad C D hCD] at o1
  rw [hCD.thr, hCD.scaled] at o1 ⊢
  refine ⟨o1, fun e => ?_⟩
  rw [fitObjective_split, fitObjective_split, e] at o1
  simpa using o1

/-- The hypotheses are met: ridge regression on the two rows with a non-negative coefficient, and with two unbounded coefficients. -/
example (st : StartFrom 2 true) : Larger ({ tinyCfg 5 5 with lb := some fun _ => 0 } : FitCfg 1 true) ({ tinyCfg 5 5 with start := st } : FitCfg 2 true) :=
  ⟨by norm_num, rfl, rfl, rfl, rfl, rfl, fun _ _ => rfl, fun _ _ _ _ => rfl, fun b _ j _ => ⟨fun l hl => (by cases hl), fun u hu => (by cases hu)⟩⟩

end Glum
