import Verif.Props.OneStep
import Mathlib.LinearAlgebra.Matrix.NonsingularInverse
/-
C76 from the user's arguments: least squares and ridge need one iteration; the counterexample with an L1 penalty and an intercept; and
concrete fits that meet the hypotheses of C74, C75 and C76.
-/
set_option linter.unusedSectionVars false
set_option linter.unusedVariables false
set_option linter.unusedSimpArgs false

namespace Glum
open Spec

variable {n p : ℕ} {ic : Bool}

/-- `dᵀ H d` for the squared-error Hessian. -/
theorem gaussH_quad (D : IRLSData n p ic) (d : Fin (p + ic.toNat) → ℝ) :
    ∑ i, ∑ j, gaussH D i j * d i * d j = ∑ r, D.sw r * (linPred ic D.X (fun _ => 0) d r) ^ 2 + 2 * ridge D d := by
  have h2 : 2 * ridge D d = ∑ i, ∑ j, p2Full ic D.P2 i j * d i * d j := by unfold ridge; ring
  rw [h2]
  unfold gaussH fullHessian linPred
  simp only [add_mul, Finset.sum_add_distrib, add_zero]
  congr 1
  have : ∀ r, D.sw r * (∑ k, design ic D.X r k * d k) ^ 2
      = ∑ i, ∑ j, design ic D.X r i * D.sw r * design ic D.X r j * d i * d j := by
    intro r
    rw [pow_two, Finset.sum_mul_sum, Finset.mul_sum]
    apply Finset.sum_congr rfl; intro i _
    rw [Finset.mul_sum]
    apply Finset.sum_congr rfl; intro j _; ring
  simp only [this, Finset.sum_mul]
  conv_rhs => rw [Finset.sum_comm]
  apply Finset.sum_congr rfl; intro i _
  rw [Finset.sum_comm]

/-- The reported coefficients determine the solver's. -/
theorem report_zero (thr : ℝ) (ht : 0 < thr) (means stds : ℕ → ℝ) (hs : ∀ j, 0 ≤ stds j) (c : Fin (p + ic.toNat) → ℝ)
    (h0 : (report ic thr means stds c).1 = 0) (h : ∀ j < p, (report ic thr means stds c).2 j = 0) (k : Fin (p + ic.toNat)) : c k = 0 := by
  have hz : ∀ j, (report (p := p) ic thr means stds (fun _ => 0)).2 j = 0 := by
    intro j; simp [report, unstandardize, feat]
  have hz0 : (report (p := p) ic thr means stds (fun _ => 0)).1 = 0 := by
    cases ic <;> simp [report, unstandardize, feat, icpt, outMeans]
  have := report_close thr ht means stds hs 0 (fun _ => 0) c ⟨fun j hj => by rw [h j hj, hz]; simp, fun _ => by
    have e1 : ∑ j : Fin p, means j * (report ic thr means stds c).2 j = 0 := Finset.sum_eq_zero fun j _ => by rw [h j j.2, mul_zero]
    have e2 : ∑ j : Fin p, means j * (report (p := p) ic thr means stds (fun _ => 0)).2 j = 0 :=
      Finset.sum_eq_zero fun j _ => by rw [hz j, mul_zero]
    rw [h0, hz0, e1, e2]; simp⟩ k
  simpa using this

/-- The Hessian of the standardised problem is regular if the user's is. -/
theorem gaussH_regular (C : FitCfg p ic) (R : Rows n) (l1r : ℝ) (h : ConvexFit C R l1r) (hF : SquaredError (rowFam C.e50 C.family C.link))
    (means stds : ℕ → ℝ) (hs : ∀ j, 0 ≤ stds j)
    (P1 : ℕ → ℝ) (P2 : Pen2 ℝ) (h1 : setupP1 p 1 l1r C.P1a = some P1) (h2 : setupP2 p C.xsp 1 l1r C.P2a = some P2) (a : ℝ) (ha : 0 ≤ a)
    (hfull : ∀ (b0 : ℝ) (b : ℕ → ℝ), (ic = false → b0 = 0) → (∀ i, R.sw i * (∑ j : Fin p, R.X i j * b j + b0) ^ 2 = 0) →
      a * (1 - l1r) * ∑ j : Fin p, ∑ k : Fin p, userP2 C.P2a j k * (b j * penScale C.thr C.asIfScaled stds j) *
        (b k * penScale C.thr C.asIfScaled stds k) = 0 → b0 = 0 ∧ ∀ j < p, b j = 0)
    (v : Fin (p + ic.toNat) → ℝ)
    (hv : ∀ i, ∑ j, gaussH (stdData C.thr C.asIfScaled means stds (C.problem R (fun j => P1 j * a) (P2.smul a))) i j * v j = 0) (k : Fin (p + ic.toNat)) :
    v k = 0 := by
  set D := stdData C.thr C.asIfScaled means stds (C.problem R (fun j => P1 j * a) (P2.smul a)) with hD
  obtain ⟨-, -, -, hpsd⟩ := convexFit_data C R l1r h means stds hs P1 P2 h1 h2 a ha
  rw [← hD] at hpsd
  have hq := gaussH_quad D v
  have hz : ∑ i, ∑ j, gaussH D i j * v i * v j = 0 := by
    apply Finset.sum_eq_zero; intro i _
    have : ∑ j, gaussH D i j * v i * v j = v i * ∑ j, gaussH D i j * v j := by
      rw [Finset.mul_sum]; apply Finset.sum_congr rfl; intro j _; ring
    rw [this, hv, mul_zero]
  rw [hz] at hq
  have hr : 0 ≤ 2 * ridge D v := by
    have := hpsd v
    unfold ridge; linarith
  have hnn : ∀ r ∈ Finset.univ, 0 ≤ D.sw r * (linPred ic D.X (fun _ => 0) v r) ^ 2 := fun r _ => mul_nonneg (h.sw r) (sq_nonneg _)
  have hs0 : ∑ r, D.sw r * (linPred ic D.X (fun _ => 0) v r) ^ 2 = 0 := le_antisymm (by linarith) (Finset.sum_nonneg hnn)
  have hrow := (Finset.sum_eq_zero_iff_of_nonneg hnn).1 hs0
  have hr0 : ridge D v = 0 := by linarith
  have hp := (std_penalty C.thr h.thr C.asIfScaled means stds hs (C.problem R (fun j => P1 j * a) (P2.smul a)) v).2
  rw [← hD, hr0] at hp
  have h36 := (c36_symmetrisation p C.xsp 1 l1r C.P2a P2 h2
    (fun j => (report ic C.thr means stds v).2 j * penScale C.thr C.asIfScaled stds j) (fun _ => 0)).2.1
  obtain ⟨hb0, hb⟩ := hfull (report ic C.thr means stds v).1 (report ic C.thr means stds v).2 (by
      intro hi; subst hi; simp [report, unstandardize, outMeans]) (by
      intro i
      have := hrow i (Finset.mem_univ i)
      have e := c15_same_predictions (ic := ic) (p := p) C.thr means stds R.X (fun _ => 0) v i
      rw [add_zero] at e
      rw [e]; exact this) (by
      have e : ∑ j : Fin p, ∑ k : Fin p, p2Matrix (P2.smul a) j k * ((report ic C.thr means stds v).2 j * penScale C.thr C.asIfScaled stds j) *
          ((report ic C.thr means stds v).2 k * penScale C.thr C.asIfScaled stds k)
          = a * ∑ j : Fin p, ∑ k : Fin p, p2Matrix P2 j k * ((report ic C.thr means stds v).2 j * penScale C.thr C.asIfScaled stds j) *
          ((report ic C.thr means stds v).2 k * penScale C.thr C.asIfScaled stds k) := by
        simp only [Finset.mul_sum]
        apply Finset.sum_congr rfl; intro j _; apply Finset.sum_congr rfl; intro k _
        rw [smul_entry]; ring
      change 0 = 1 / 2 * ∑ j : Fin p, ∑ k : Fin p, p2Matrix (P2.smul a) j k * _ * _ at hp
      rw [e] at hp
      linear_combination (-2 : ℝ) * hp - 2 * a * h36)
  exact report_zero C.thr h.thr means stds hs v hb0 hb k

/-- The documented objective at the cold start: no features, and the (weighted) mean of `y - offset` as intercept. -/
noncomputable def Spec.coldIntercept (ic : Bool) (R : Rows n) : ℝ :=
  if ic then ∑ i, R.sw i * (R.y i - (R.off.getD fun _ => 0) i) else 0

/-- **C76, from the user's arguments.** Least squares or ridge regression (normal family, identity link, no L1 penalty) with `irls-ls`: if
the problem has a unique solution, whatever `max_iter` the user asks for, `fit` takes at most one iteration, raises no warning, and if it
takes one the result minimises the documented objective exactly. -/
theorem c76_fit_ls (next : (ℕ → BitVec 32) → ℕ → (ℕ → BitVec 32))
    (solve : (Fin (p + ic.toNat) → Fin (p + ic.toNat) → ℝ) → (Fin (p + ic.toNat) → ℝ) → (Fin (p + ic.toNat) → ℝ))
    (hsolve : ∀ H s, (∀ v : Fin (p + ic.toNat) → ℝ, (∀ i, ∑ j, H i j * v j = 0) → ∀ j, v j = 0) → ∀ k, ∑ j, H k j * solve H s j = s k)
    (C : FitCfg p ic) (stats : Stats) (R : Rows n) (l1r : ℝ) (h : ConvexFit C R l1r) (hfam : C.family = .normal) (hlink : C.link = .identity)
    (hs : ∀ j, 0 ≤ (stats n R.X R.sw).2 j) (hsw : ∑ i, R.sw i = 1) (hcold : C.start = .cold) (hlb : C.lb = none) (hub : C.ub = none)
    (heps : 0 ≤ C.eps) (hg : 0 < C.gradTol) (hl1 : ∀ j, l1r * userP1 C.P1a j = 0) (a : ℝ) (ha : 0 ≤ a)
    (hfull : ∀ (b0 : ℝ) (b : ℕ → ℝ), (ic = false → b0 = 0) → (∀ i, R.sw i * (∑ j : Fin p, R.X i j * b j + b0) ^ 2 = 0) →
      a * (1 - l1r) * ∑ j : Fin p, ∑ k : Fin p, userP2 C.P2a j k * (b j * penScale C.thr C.asIfScaled (stats n R.X R.sw).2 j) *
        (b k * penScale C.thr C.asIfScaled (stats n R.X R.sw).2 k) = 0 → b0 = 0 ∧ ∀ j < p, b j = 0)
    (hlarge : ∀ (b0 : ℝ) (b : ℕ → ℝ),
      fitObjective p C.e50 C.family C.link R (penScale C.thr C.asIfScaled (stats n R.X R.sw).2) C.P1a C.P2a a l1r b0 b
        ≤ fitObjective p C.e50 C.family C.link R (penScale C.thr C.asIfScaled (stats n R.X R.sw).2) C.P1a C.P2a a l1r (coldIntercept ic R)
            (fun _ => 0) → ∀ i, ∑ j : Fin p, R.X i j * b j + b0 + (R.off.getD fun _ => 0) i < C.large)
    (s s' : SolverLog) (r : PathResult)
    (hfit : glmFit (C.forSolver .irlsLs) stats (irlsSolver next fun _ _ => lsInner solve) R l1r (.single a) s = some (s', r)) :
    s'.convWarn = s.convWarn ∧ s'.lsWarn = s.lsWarn ∧ s'.nIter ≤ 1 ∧
    (s'.nIter = 1 → ∀ (b0 : ℝ) (b : ℕ → ℝ), (ic = false → b0 = 0) →
      fitObjective p C.e50 C.family C.link R (penScale C.thr C.asIfScaled (stats n R.X R.sw).2) C.P1a C.P2a a l1r r.intercept r.coef
        ≤ fitObjective p C.e50 C.family C.link R (penScale C.thr C.asIfScaled (stats n R.X R.sw).2) C.P1a C.P2a a l1r b0 b) := by
  set C' := C.forSolver .irlsLs with hC'
  have h' : ConvexFit C' R l1r := ⟨h.thr, h.valid, h.pair, h.y, h.sw, h.p1, h.p2, h.l1⟩
  have hF : SquaredError (rowFam C.e50 C.family C.link) := by rw [hfam, hlink]; exact squaredError_normal _
  obtain ⟨Q, hQ, hal, hs', hst, -⟩ := glmFit_spec C' stats _ R l1r (.single a) s s' r hfit
  simp only [AlphaSpec.eval, Option.some.injEq] at hal
  rw [← hal] at hst hs'
  obtain ⟨P1, P2, h1, h2, hm, hsd, hDq, -⟩ := prepare_spec C' stats R l1r Q hQ
  have hstd : ∀ j, 0 ≤ Q.stds j := by rw [hsd]; exact hs
  set D := Q.D.withPen (fun j => Q.D.P1 j * a) (Q.D.P2.smul a) with hDdef
  have hDe : D = stdData C.thr C.asIfScaled Q.means Q.stds (C'.problem R (fun j => P1 j * a) (P2.smul a)) := by
    rw [hDdef, hDq, withPen_std]; rfl
  obtain ⟨-, hP, hsym, hpsd⟩ := convexFit_data C' R l1r h' Q.means Q.stds hstd P1 P2 h1 h2 a ha
  obtain ⟨K, hK⟩ := std_objective C' h.thr h.valid R h.y Q.means Q.stds hstd l1r P1 P2 h1 h2 a
  have hreg := gaussH_regular C' R l1r h' hF Q.means Q.stds hstd P1 P2 h1 h2 a ha (by rw [hsd]; exact hfull)
  change ∀ v : Fin (p + ic.toNat) → ℝ, (∀ i, ∑ j, gaussH (stdData C.thr C.asIfScaled Q.means Q.stds (C'.problem R (fun j => P1 j * a) (P2.smul a))) i j * v j = 0) → _ at hreg
  have hK : ∀ c, objective (stdData C.thr C.asIfScaled Q.means Q.stds (C'.problem R (fun j => P1 j * a) (P2.smul a))) c
      = fitObjective p C.e50 C.family C.link R (penScale C.thr C.asIfScaled Q.stds) C.P1a C.P2a a l1r
        (report ic C.thr Q.means Q.stds c).1 (report ic C.thr Q.means Q.stds c).2 - K := hK
  rw [← hDe] at hreg
  simp only [← hDe] at hK
  have hFD : SquaredError D.fam := by rw [hDe]; exact hF
  have hP0 : ∀ k, D.P1 k = 0 := by
    have hp1 : ∀ j, P1 j = 0 := by
      intro j
      rw [← hl1 j]
      cases hP : C.P1a with
      | str t =>
        change setupP1 p 1 l1r C.P1a = some P1 at h1
        rw [hP] at h1
        simp only [setupP1] at h1
        split at h1
        · simp only [Option.some.injEq] at h1; rw [← h1]; simp [userP1]
        · simp at h1
      | none =>
        change setupP1 p 1 l1r C.P1a = some P1 at h1
        rw [hP] at h1
        simp only [setupP1, Option.some.injEq] at h1; rw [← h1]; simp [userP1]
      | vec len v =>
        change setupP1 p 1 l1r C.P1a = some P1 at h1
        rw [hP] at h1
        simp only [setupP1] at h1
        split at h1
        · simp only [Option.some.injEq] at h1; rw [← h1]; simp [userP1]
        · simp at h1
    intro k
    rw [hDe]
    change (if C.asIfScaled then (fun j => P1 j * a) else fun j => P1 j * a * _) k = 0
    split <;> simp [hp1]
  have hconvex : Convexish D := by
    refine ⟨fun k => (hP0 k).ge, ?_, ?_, ?_, ?_, ?_⟩
    · rw [hDe]; exact hsym
    · rw [hDe]; exact hpsd
    · intro i eta; rw [hFD.hess]; rw [hDe]; exact h.sw i
    · rw [hDe]; exact heps
    · rw [hDe]
      intro l u hl hu
      change (C.lb.map _) = some l at hl
      rw [hlb] at hl; cases hl
  have hmi : D.maxIter = 1 := by
    rw [hDe]
    change (if oneIteration C.family C.link .irlsLs then 1 else C.maxIter) = 1
    rw [hfam, hlink]; rfl
  -- the start
  have hrep : (report ic C.thr Q.means Q.stds Q.start).1 = coldIntercept ic R ∧ ∀ j : Fin p, (report ic C.thr Q.means Q.stds Q.start).2 j = 0 := by
    have hQ' := hQ
    unfold prepare at hQ'
    rw [h1, h2] at hQ'
    simp only [Option.bind_eq_bind, Option.bind_some] at hQ'
    cases hgs : startGuess C' R with
    | none => rw [hgs] at hQ'; simp at hQ'
    | some g =>
      rw [hgs] at hQ'
      simp only [Option.bind_some, Option.some.injEq] at hQ'
      have hstart : Q.start = getStartCoef ic C.thr Q.means Q.stds g C.lb C.ub C.start := by rw [← hQ']; rfl
      have hst0 : ∀ k : Fin (p + ic.toNat), Q.start k = if k.val < ic.toNat then g else 0 := by
        intro k
        rw [hstart, hlb, hub, hcold]
        simp [getStartCoef, clipStart, rawStart]
      have hf : ∀ j : ℕ, feat ic Q.start j = 0 := by
        intro j
        unfold feat
        split
        · rw [hst0]; simp
        · rfl
      refine ⟨?_, fun j => by simp [report, unstandardize, hf]⟩
      cases ic with
      | false => simp [report, unstandardize, hf, coldIntercept]
      | true =>
        have hi : icpt true Q.start = g := by
          unfold icpt
          simp [hst0]
        have hgi : guessIntercept C.family C.link R.y R.sw (R.off.elim .none .array) = some g := by
          unfold startGuess at hgs
          have hcold' : C'.start = .cold := hcold
          rw [hcold'] at hgs
          exact hgs
        have hav : ∀ v : Fin n → ℝ, average v R.sw = ∑ i, R.sw i * v i := by
          intro v
          unfold average
          rw [hsw, div_one]
          exact Finset.sum_congr rfl fun i _ => mul_comm _ _
        have hg : g = coldIntercept true R := by
          rw [hfam, hlink] at hgi
          unfold guessIntercept at hgi
          rw [if_neg (by simp)] at hgi
          unfold coldIntercept
          simp only [if_true]
          cases ho : R.off with
          | none =>
            rw [ho] at hgi
            simp only [Option.elim, Option.some.injEq, hav] at hgi
            simp [← hgi]
          | some e =>
            rw [ho] at hgi
            simp only [Option.elim, Option.some.injEq, hav] at hgi
            simp only [Option.getD_some, mul_sub, Finset.sum_sub_distrib]
            exact hgi.symm
        simp [report, unstandardize, hf, hi, hg]
  have hobj0 : objective D Q.start = fitObjective p C.e50 C.family C.link R (penScale C.thr C.asIfScaled Q.stds) C.P1a C.P2a a l1r (coldIntercept ic R)
            (fun _ => 0) - K := by
    rw [hK]
    rw [fitObjective_congr C R _ a l1r _ _ _ (fun _ => 0) hrep.1 hrep.2]
  have hmu : ∀ w, objective D w ≤ objective D Q.start → ∀ i, linPred ic D.X (off D) w i < D.large := by
    intro w hw i
    rw [hobj0, hK] at hw
    have := hlarge (report ic C.thr Q.means Q.stds w).1 (report ic C.thr Q.means Q.stds w).2 (by rw [← hsd]; linarith) i
    have e := c15_same_predictions (ic := ic) (p := p) C.thr Q.means Q.stds R.X (R.off.getD fun _ => 0) w i
    rw [hDe]
    refine lt_of_eq_of_lt ?_ this
    exact e.symm
  have key := c76_ls_one_iteration solve D hconvex hFD hP0 (by omega) (by rw [hDe]; exact hg) Q.start
    (hsolve _ _ (fun v hv j => hreg v hv j)) hmu
  simp only at key
  set fin := irlsRun (lsInner solve) D Q.start with hfin
  have hlog : s' = (irlsSolver next (fun _ _ => lsInner solve) n D Q.A s Q.start).1 := by
    rw [hs']; simp only [Prepared.path, solvePath, Prepared.solveFn]; rfl
  simp only [Prepared.path, solvePath, storePath, List.map_cons, List.map_nil, List.getLast?_singleton, Option.bind_eq_bind,
    Option.bind_some, Option.some.injEq] at hst
  have hri : r.intercept = (report ic C.thr Q.means Q.stds fin.coef).1 := by
    rw [← hst]
    cases ic with
    | true => rfl
    | false =>
      have : (report false C.thr Q.means Q.stds fin.coef).1 = 0 := by simp [report, unstandardize, outMeans]
      rw [this]; rfl
  have hrc : r.coef = (report ic C.thr Q.means Q.stds fin.coef).2 := by rw [← hst]; rfl
  refine ⟨?_, ?_, ?_, ?_⟩
  · rw [hlog]
    change s.convWarn + (if fin.converged then 0 else 1) = _
    rw [key.1]; rfl
  · rw [hlog]
    change s.lsWarn + (fin.diagnostics.filter (·.warned)).length = _
    have : fin.diagnostics.filter (·.warned) = [] := by
      rw [List.filter_eq_nil_iff]
      intro d hd
      rw [key.2.2.1 d hd]; simp
    rw [this]; rfl
  · rw [hlog]; exact key.2.1
  · intro h1i b0 b hb0
    have hni : fin.nIter = 1 := by rw [hlog] at h1i; exact h1i
    have hsc := key.2.2.2 hni
    obtain ⟨c', e0, e⟩ := report_bijective (ic := ic) (p := p) C.thr h.thr Q.means Q.stds hstd b0 b hb0
    have hge : objective D fin.coef ≤ objective D c' := by
      have hgo := gauss_objective D hFD hconvex.symm fin.coef (fun k => c' k - fin.coef k)
      have e' : (fun k => fin.coef k + (c' k - fin.coef k)) = c' := by funext k; ring
      rw [e'] at hgo
      unfold predictedChange at hgo
      rw [l1_zero D.P1 hP0, l1_zero D.P1 hP0] at hgo
      simp only [hsc, zero_mul, Finset.sum_const_zero] at hgo
      have := gaussH_psd D hconvex hFD (fun k => c' k - fin.coef k)
      linarith
    rw [hK, hK] at hge
    rw [hri, hrc, ← hsd]
    rw [fitObjective_congr C R _ a l1r _ b0 _ b e0 e] at hge
    linarith

/-! ### The screening of the only iteration (F34) -/

/-- Four rows with weight ¼ each; three columns with mean 0 and variance 1. -/
noncomputable def screenRows : Rows 4 where
  X := fun i j => (![![7, 1, -1], ![1, 7, 1], ![-1, -7, -7], ![-7, -1, 7]] i (if j = 0 then 0 else if j = 1 then 1 else 2) : ℝ) / 5
  y := ![78, -78, -18, 18]
  sw := fun _ => 1 / 4
  off := none

/-- `GeneralizedLinearRegressor(alpha=12, l1_ratio=1, max_iter=N, max_inner_iter=M)` with the defaults otherwise. -/
noncomputable def screenCfg (N M : ℕ) : FitCfg 3 true where
  family := .normal
  link := .identity
  e50 := 0
  thr := 1 / 10 ^ 6
  asIfScaled := false
  xsp := false
  P1a := .none
  P2a := .none
  lb := none
  ub := none
  A := none
  start := .cold
  p2ok := fun _ => true
  maxIter := N
  maxInnerIter := M
  gradTol := 1 / 10000
  stepTol := none
  hessApprox := 0
  fixedInnerTol := none
  random := false
  eps := 1 / 10 ^ 16
  large := 10 ^ 43

/-- What the solver is given. -/
noncomputable def screenD (M : ℕ) : IRLSData 4 3 true where
  X := screenRows.X
  y := screenRows.y
  sw := screenRows.sw
  P1 := fun _ => 12
  P2 := .vec fun _ => 0
  fam := rowFam 0 .normal .identity
  maxIter := 1
  maxInnerIter := M
  gradTol := 1 / 10000
  stepTol := none
  hessApprox := 0
  fixedInnerTol := some (1 / 10000)
  random := false
  offset := none
  lb := none
  ub := none
  eps := 1 / 10 ^ 16
  large := 10 ^ 43

/-- The (exact) column means and standard deviations of `screenRows`. -/
def screenStats : Stats := fun _ _ _ => (fun _ => 0, fun _ => 1)

theorem screenStats_true (j : ℕ) : ∑ i, screenRows.sw i * screenRows.X i j = 0 ∧ ∑ i, screenRows.sw i * screenRows.X i j ^ 2 = 1 := by
  by_cases h0 : j = 0
  · subst h0; simp [screenRows, Fin.sum_univ_four]; norm_num
  · by_cases h1 : j = 1
    · subst h1; simp [screenRows, Fin.sum_univ_four]; norm_num
    · simp [screenRows, Fin.sum_univ_four, h0, h1]; norm_num

theorem screen_score (M : ℕ) (c : Fin 4 → ℝ) :
    scoreAt (screenD M) c (0 : Fin 4) = -c 0 ∧
    scoreAt (screenD M) c (1 : Fin 4) = 18 - c 1 - 7 / 25 * c 2 + 12 / 25 * c 3 ∧
    scoreAt (screenD M) c (2 : Fin 4) = -18 - 7 / 25 * c 1 - c 2 - 12 / 25 * c 3 ∧
    scoreAt (screenD M) c (3 : Fin 4) = 24 / 5 + 12 / 25 * c 1 - 12 / 25 * c 2 - c 3 := by
  have hd : ∀ i : Fin 4, ∀ k : Fin 4, design (p := 3) true screenRows.X i k = if k = 0 then 1 else screenRows.X i (k.val - 1) := by
    intro i k
    fin_cases k <;> rfl
  have hp : ∀ i k : Fin 4, p2Full (p := 3) true (.vec fun _ => (0 : ℝ)) i k = 0 := by
    intro i k
    fin_cases i <;> fin_cases k <;> simp [p2Full, p2Matrix]
  have hl : ∀ i : Fin 4, linPred (p := 3) true screenRows.X (off (screenD M)) c i
      = c 0 + screenRows.X i 0 * c 1 + screenRows.X i 1 * c 2 + screenRows.X i 2 * c 3 := by
    intro i
    unfold linPred
    change ∑ k : Fin 4, design (p := 3) true screenRows.X i k * c k + 0 = _
    simp only [hd, Fin.sum_univ_four]
    simp
  have key : ∀ k : Fin 4, scoreAt (screenD M) c k = ∑ r, design (p := 3) true screenRows.X r k * (1 / 4 * (screenRows.y r
      - (c 0 + screenRows.X r 0 * c 1 + screenRows.X r 1 * c 2 + screenRows.X r 2 * c 3))) := by
    intro k
    unfold scoreAt
    have h2 : ∑ i : Fin 4, p2Full (p := 3) true (screenD M).P2 i k * c i = 0 := by
      apply Finset.sum_eq_zero; intro i _
      rw [show (screenD M).P2 = .vec fun _ => 0 from rfl, hp]; ring
    change _ - ∑ i : Fin 4, p2Full (p := 3) true (screenD M).P2 i k * c i = _
    rw [h2, sub_zero]
    apply Finset.sum_congr rfl; intro r _
    have := hl r
    change _ * (1 / 4 * (screenRows.y r - linPred (p := 3) true screenRows.X (off (screenD M)) c r)) = _
    rw [this]; rfl
  refine ⟨?_, ?_, ?_, ?_⟩ <;>
  · rw [key]
    simp only [hd, Fin.sum_univ_four]
    simp [screenRows]
    ring

theorem subgradTerm_ge (c g P : ℝ) (hP : 0 ≤ P) : |g| - P ≤ |subgradTerm c g P none none| := by
  unfold subgradTerm
  simp only
  split
  · have h1 : |g| - P ≤ fmax (|g| - P) 0 := by rw [fmax_eq]; exact le_max_left _ _
    rcases lt_trichotomy g 0 with h | h | h
    · rw [fsign_neg h, abs_mul]
      simp only [abs_neg, abs_one, one_mul]
      exact le_trans h1 (le_abs_self _)
    · subst h
      simp [fsign]; exact hP
    · rw [fsign_pos h, one_mul]
      exact le_trans h1 (le_abs_self _)
  · next hc =>
    have hs : |fsign c * P| ≤ P := by
      rcases lt_or_gt_of_ne hc with h | h
      · rw [fsign_neg h]; simp [abs_of_nonneg hP]
      · rw [fsign_pos h]; simp [abs_of_nonneg hP]
    have := abs_sub_abs_le_abs_sub g (-(fsign c * P))
    rw [abs_neg, sub_neg_eq_add] at this
    linarith

/-- Wherever the third coefficient is zero the subgradient is larger than `gradient_tol`. -/
theorem screen_norm (M : ℕ) (c : Fin 4 → ℝ) (h3 : c 3 = 0) :
    1 / 10 ≤ (normMinSubgrad (List.finRange (3 + true.toNat)) c (fun i => -scoreAt (screenD M) c i) (screenD M).P1 true none none).1 := by
  by_contra hlt
  have hlt := not_le.1 hlt
  have e := norm_eq_finset_sum (id : Fin (3 + true.toNat) → _) strictMono_id c (fun i => -scoreAt (screenD M) c i) (screenD M).P1 true none none
  rw [List.map_id] at e
  rw [e] at hlt
  have hterm : ∀ i : Fin (3 + true.toNat), absTerm c (fun i => -scoreAt (screenD M) c i) (screenD M).P1 true none none i < 1 / 10 := by
    intro i
    refine lt_of_le_of_lt ?_ hlt
    exact Finset.single_le_sum (f := fun s => absTerm c (fun i => -scoreAt (screenD M) c i) (screenD M).P1 true none none (id s))
      (fun i _ => absTerm_nonneg _ _ _ _ _ _ _) (Finset.mem_univ i)
  obtain ⟨s0, s1, s2, s3⟩ := screen_score M c
  have hb : ∀ i : Fin 4, i ≠ 0 → |scoreAt (screenD M) c i| < 12 + 1 / 10 := by
    intro i hi
    have h := hterm i
    unfold absTerm at h
    rw [if_neg (by
      intro h
      apply hi
      exact Fin.ext (by simpa using h))] at h
    have := subgradTerm_ge (c i) (-scoreAt (screenD M) c i) 12 (by norm_num)
    rw [abs_neg] at this
    have h' : |subgradTerm (c i) (-scoreAt (screenD M) c i) 12 none none| < 1 / 10 := h
    linarith
  have h1 := (abs_lt.1 (hb 1 (by decide))).2
  have h2 := (abs_lt.1 (hb 2 (by decide))).1
  have h3' := (abs_lt.1 (hb 3 (by decide))).2
  rw [s1] at h1
  rw [s2] at h2
  rw [s3] at h3'
  rw [h3] at h1 h2 h3'
  linarith

theorem screen_max (g : Fin 4 → ℝ) (g0 : g 0 = 0) (g1 : g 1 = -18) (g2 : g 2 = 18) (g3 : g 3 = -(24 / 5)) :
    (normMinSubgrad (List.finRange 4) (fun _ => 0) g (fun _ => 12) true none none).2 = ((6 : ℝ) : WithTop ℝ) := by
  have hl : List.finRange 4 = [0, 1, 2, 3] := by decide
  rw [hl]
  have e1 : subgradTerm (0 : ℝ) (-18) 12 none none = -6 := by simp [subgradTerm, fsign, fmax]; norm_num
  have e2 : subgradTerm (0 : ℝ) 18 12 none none = 6 := by simp [subgradTerm, fsign, fmax]; norm_num
  have e3 : subgradTerm (0 : ℝ) (-(24 / 5)) 12 none none = 0 := by
    have : fmax (|-(24 / 5 : ℝ)| - 12) 0 = 0 := by
      rw [fmax_eq, abs_neg, abs_of_pos (by norm_num)]; norm_num
    simp only [subgradTerm, this]
    simp
  unfold normMinSubgrad
  simp only [List.foldl_cons, List.foldl_nil, Option.map_none, g0, g1, g2, g3, e1, e2, e3]
  simp

/-- The third column is screened out in the first iteration. -/
theorem screen_inactive (M : ℕ) : (3 : Fin 4) ∉ identifyActiveSet (screenD M) (irlsInit (screenD M) fun _ => 0) := by
  have hs0 := visited_sync (fun _ _ => (fun _ => 0, 0)) (screenD M) (fun _ => by simp [screenD]) (fun _ => 0) _ Visited.init
  obtain ⟨s0, s1, s2, s3⟩ := screen_score M (fun _ => 0)
  have hsc : ∀ k, (irlsInit (screenD M) fun _ => 0).score k = scoreAt (screenD M) (fun _ => 0) k := hs0.score
  have hmax : (irlsInit (screenD M) fun _ => 0).maxSub = ((6 : ℝ) : WithTop ℝ) := by
    have : (irlsInit (screenD M) fun _ => 0).maxSub = (normMinSubgrad (List.finRange (3 + true.toNat)) (fun _ => 0)
      (fun i => -(irlsInit (screenD M) fun _ => 0).score i) (screenD M).P1 true none none).2 := rfl
    rw [this]
    simp only [hsc]
    exact screen_max (fun i => -scoreAt (screenD M) (fun _ => 0) i) ((congrArg Neg.neg s0).trans (by norm_num))
      ((congrArg Neg.neg s1).trans (by norm_num)) ((congrArg Neg.neg s2).trans (by norm_num)) ((congrArg Neg.neg s3).trans (by norm_num))
  rw [mem_activeSet]
  rintro (h | h | h)
  · exact absurd h (by decide)
  · exact h rfl
  · have := h 6 hmax
    rw [hsc] at this
    change (12 : ℝ) - 6 ≤ |scoreAt (screenD M) (fun _ => 0) (3 : Fin 4)| at this
    have e : scoreAt (screenD M) (fun _ => 0) (3 : Fin 4) = 24 / 5 := s3.trans (by norm_num)
    have e' : |scoreAt (screenD M) (fun _ => 0) (3 : Fin 4)| = 24 / 5 := by
      refine (congrArg abs e).trans ?_
      norm_num
    have := this.trans e'.le
    norm_num at this

theorem afterSchedule_off {K : Type*} [Field K] [LinearOrder K] [IsStrictOrderedRing K] {p a : ℕ} (D : CDData K p a) (w0 q0 : Fin p → K)
    (seed : BitVec 32) (sched : List (Fin a)) (i : Fin p) (hi : i ∉ Set.range D.active) : (D.afterSchedule w0 q0 seed sched).w i = w0 i := by
  induction sched using List.reverseRecOn with
  | nil => rfl
  | append_singleton l s ih =>
    rw [afterSchedule_snoc, (c20_visit_touches_one_coordinate D s _).1 i (fun h => hi ⟨s, h.symm⟩), ih]

/-- The run of the solver: one iteration, the third coefficient stays zero, not converged. -/
theorem screen_run (seeds : ℕ → BitVec 32) (M : ℕ) :
    (irlsRun (cdInner seeds) (screenD M) fun _ => 0).coef (3 : Fin 4) = 0 ∧
    (irlsRun (cdInner seeds) (screenD M) fun _ => 0).converged = false := by
  have hP : ∀ k, 0 ≤ (screenD M).P1 k := fun _ => by simp [screenD]
  have hnc : ∀ st, Visited (cdInner seeds) (screenD M) (fun _ => 0) st → st.coef (3 : Fin 4) = 0 → st.converged = false := by
    intro st hv h3
    by_contra hc
    have hc : st.converged = true := by simpa using hc
    rw [converged_iff _ _ hP _ _ hv] at hc
    rcases hc with h | h
    · have := screen_norm M st.coef h3
      have h' : (normMinSubgrad (List.finRange (3 + true.toNat)) st.coef (fun i => -scoreAt (screenD M) st.coef i) (screenD M).P1 true none none).1
        < 1 / 10000 := h
      linarith
    · obtain ⟨t, ht, -⟩ := h
      cases ht
  have h0 := hnc _ Visited.init rfl
  have hrun := run_of_step (cdInner seeds) (screenD M) (fun _ => 0) le_rfl h0 (Or.inl rfl)
  have h3 : (irlsStep (cdInner seeds) (screenD M) (irlsInit (screenD M) fun _ => 0)).coef (3 : Fin 4) = 0 := by
    set D := screenD M with hD
    set st1 : IRLSState 4 3 true := { irlsInit D (fun _ => 0) with
      hs := updateHessian true D.X D.P2 D.hessApprox (irlsInit D fun _ => 0).hs (identifyActiveSet D (irlsInit D fun _ => 0)) } with hst1
    have hcoef : (irlsStep (cdInner seeds) D (irlsInit D fun _ => 0)).coef = (lineSearch D st1 (cdInner seeds D st1).1).coef := rfl
    rw [hcoef, (lineSearch_spec D st1 _).coef]
    have hd : (cdInner seeds D st1).1 (3 : Fin 4) = 0 := by
      have : (cdInner seeds D st1).1 = fun k => ((cdArgs D st1).run st1.coef (fun k => -st1.score k) (seeds st1.nIter)).w k - st1.coef k := rfl
      rw [this]
      obtain ⟨sched, -, hsw⟩ := run_schedule (cdArgs D st1) st1.coef (fun k => -st1.score k) (seeds st1.nIter)
      have hact : st1.hs.active = identifyActiveSet D (irlsInit D fun _ => 0) := (first_hessian D (squaredError_normal 0) fun _ => 0).1
      have hnot : (3 : Fin 4) ∉ Set.range (cdArgs D st1).active := by
        rintro ⟨t, ht⟩
        apply screen_inactive M
        rw [← hD, ← hact, ← ht]
        exact List.get_mem _ _
      simp only [hsw]
      rw [afterSchedule_off _ _ _ _ _ _ hnot]; ring
    change (0 : ℝ) + _ * _ = 0
    rw [hd]; ring
  rw [hrun]
  exact ⟨h3, hnc _ (Visited.step _ Visited.init Nat.zero_lt_one h0) h3⟩


theorem screen_prepared (N M : ℕ) : ∃ Q, prepare ((screenCfg N M).forSolver .irlsCd) screenStats screenRows 1 = some Q ∧
    Q.D.withPen (fun j => Q.D.P1 j * 12) (Q.D.P2.smul 12) = screenD M ∧ Q.start = (fun _ => 0) ∧ Q.means = (fun _ => 0) ∧
    Q.stds = (fun _ => 1) := by
  have hg : guessIntercept .normal .identity screenRows.y screenRows.sw .none = some 0 := by
    unfold guessIntercept
    rw [if_neg (by simp)]
    simp [average, screenRows, Fin.sum_univ_four]
  have hs : startGuess ((screenCfg N M).forSolver .irlsCd) screenRows = some 0 := hg
  have ho : ∀ thr : ℝ, thr ≤ 1 → oneOverStd thr 1 1 = 1 := by
    intro thr h; unfold oneOverStd; rw [if_neg (by rw [abs_one]; exact not_lt.2 h)]; norm_num
  have ho' := ho (1 / 10 ^ 6) (by norm_num)
  unfold prepare
  rw [hs]
  refine ⟨_, rfl, ?_, ?_, rfl, rfl⟩
  · have e1 : stdX (1 / 10 ^ 6) true (fun _ => 0) (fun _ => 1) screenRows.X = screenRows.X := by
      funext i j; unfold stdX; rw [ho']; simp
    have e2 : (fun j : ℕ => (1 : ℝ) * 1 * 1 * oneOverStd (1 / 10 ^ 6) 1 1 * 12) = fun _ => 12 := by
      funext j; rw [ho']; norm_num
    have e3 : Pen2.smul 12 (scaleP2 (fun _ => oneOverStd (1 / 10 ^ 6) 1 1) ((Pen2.smul (1 * (1 - 1)) (.vec fun _ => 1)).symmetrise)) = .vec fun _ => 0 := by
      simp [Pen2.smul, Pen2.symmetrise, scaleP2]
    unfold IRLSData.withPen stdData standardize FitCfg.problem screenD
    simp only [IRLSData.mk.injEq]
    refine ⟨e1, ?_, ?_, e2, e3, ?_, ?_, ?_, ?_, ?_, ?_, ?_, ?_, ?_, ?_, ?_, ?_, ?_⟩ <;> first | rfl | trivial
  · funext k
    change clipStart (p := 3) true none none (rawStart true _ _ _ 0 .cold) k = 0
    simp [clipStart, rawStart]

theorem screen_objective (b0 : ℝ) (b : ℕ → ℝ) (s : ℕ → ℝ) (hs : ∀ j, s j = 1) :
    fitObjective 3 0 .normal .identity screenRows s .none .none 12 1 b0 b
      = 1602 - 18 * b 0 + 18 * b 1 - 24 / 5 * b 2 + 1 / 2 * (b0 ^ 2 + b 0 ^ 2 + b 1 ^ 2 + b 2 ^ 2 + 14 / 25 * b 0 * b 1
        - 24 / 25 * b 0 * b 2 + 24 / 25 * b 1 * b 2) + 12 * (|b 0| + |b 1| + |b 2|) := by
  have ht : ∀ e, trueMean 0 .normal .identity e = e := fun _ => rfl
  have hd : ∀ y m, Family.unitDeviance .normal y m = (y - m) ^ 2 := fun _ _ => rfl
  unfold fitObjective
  simp only [ht, hd, hs, mul_one, sub_self, mul_zero, zero_mul, add_zero, userP1, one_mul]
  simp [screenRows, Fin.sum_univ_four, Fin.sum_univ_three]
  ring

/-- A fit with a single alpha, spelled out. -/
theorem glmFit_single {n p : ℕ} {ic : Bool} {σ : Type} (C : FitCfg p ic) (stats : Stats) (solver : SolverFn σ p ic) (R : Rows n) (l1r a : ℝ)
    (s : σ) (Q : Prepared n p ic) (hQ : prepare C stats R l1r = some Q) (hb : ¬ C.boundsBad) (hp : ∀ P2, C.p2ok P2 = true) :
    let out := solver n (Q.D.withPen (fun j => Q.D.P1 j * a) (Q.D.P2.smul a)) Q.A s Q.start
    ∃ r, glmFit C stats solver R l1r (.single a) s = some (out.1, r) ∧
      r.intercept = (if ic then (report ic C.thr Q.means Q.stds out.2).1 else 0) ∧ r.coef = (report ic C.thr Q.means Q.stds out.2).2 := by
  intro out
  obtain ⟨P1, P2, h1, h2, -⟩ := prepare_spec C stats R l1r Q hQ
  unfold glmFit
  rw [if_neg hb, h2, hQ]
  simp only [Option.bind_eq_bind, Option.bind_some, hp, AlphaSpec.eval]
  rw [if_neg (by simp)]
  exact ⟨_, rfl, rfl, rfl⟩

/-- **C76 fails with an L1 penalty and an intercept** (finding F34). -/
theorem c76_counterexample (next : (ℕ → BitVec 32) → ℕ → (ℕ → BitVec 32)) (N M : ℕ) (s : SolverLog) :
    ∃ s' r, glmFit ((screenCfg N M).forSolver .irlsCd) screenStats (irlsCd next) screenRows 1 (.single 12) s = some (s', r) ∧
      s'.convWarn = s.convWarn + 1 ∧
      fitObjective 3 0 .normal .identity screenRows (fun _ => 1) .none .none 12 1 0
          (fun j => if j = 0 then 25 / 3 else if j = 1 then -25 / 3 else 4 / 5) + 3 / 10
        ≤ fitObjective 3 0 .normal .identity screenRows (fun _ => 1) .none .none 12 1 r.intercept r.coef := by
  obtain ⟨Q, hQ, hD, hst, hm, hsd⟩ := screen_prepared N M
  obtain ⟨h3, hc⟩ := screen_run s.seeds M
  obtain ⟨r, hr, hi, hco⟩ := glmFit_single ((screenCfg N M).forSolver .irlsCd) screenStats (irlsCd next) screenRows 1 12 s Q hQ
    (by rintro ⟨l, u, h, -⟩; cases h) (fun _ => rfl)
  refine ⟨_, r, hr, ?_, ?_⟩
  · change s.convWarn + (if (irlsRun (cdInner s.seeds) (Q.D.withPen (fun j => Q.D.P1 j * 12) (Q.D.P2.smul 12)) Q.start).converged then 0 else 1) = _
    rw [hD, hst, hc]; simp
  · have hc2 : r.coef 2 = 0 := by
      rw [hco, hsd]
      change (irlsRun (cdInner s.seeds) (Q.D.withPen (fun j => Q.D.P1 j * 12) (Q.D.P2.smul 12)) Q.start).coef (3 : Fin 4) * _ = 0
      rw [hD, hst, h3, zero_mul]
    rw [screen_objective _ _ _ (fun _ => rfl), screen_objective _ _ _ (fun _ => rfl), hc2]
    generalize r.coef 0 = u
    generalize r.coef 1 = v
    generalize r.intercept = w
    have hu := le_abs_self u
    have hv := neg_le_abs v
    have hn : |(-25 / 3 : ℝ)| = 25 / 3 := by rw [abs_of_neg (by norm_num)]; norm_num
    have hp : |(25 / 3 : ℝ)| = 25 / 3 := abs_of_pos (by norm_num)
    have hq : |(4 / 5 : ℝ)| = 4 / 5 := abs_of_pos (by norm_num)
    simp only [if_true, one_ne_zero, if_false, OfNat.ofNat_ne_zero, OfNat.ofNat_ne_one, hn, hp, hq, abs_zero]
    nlinarith [sq_nonneg w, sq_nonneg (u - v - 50 / 3), sq_nonneg (u + v)]

/-! ### Concrete fits -/

/-- Two rows, `x = ±1`, `y = 3, 1`. -/
noncomputable def tinyRows : Rows 2 where
  X := fun i _ => if i = 0 then 1 else -1
  y := fun i => if i = 0 then 3 else 1
  sw := fun _ => 1 / 2
  off := none

/-- Ridge regression with the defaults, `max_iter = N`, `max_inner_iter = M`. -/
noncomputable def tinyCfg (N M : ℕ) : FitCfg 1 true where
  family := .normal
  link := .identity
  e50 := 0
  thr := 1 / 10 ^ 6
  asIfScaled := false
  xsp := false
  P1a := .none
  P2a := .none
  lb := none
  ub := none
  A := none
  start := .cold
  p2ok := fun _ => true
  maxIter := N
  maxInnerIter := M
  gradTol := 1 / 10000
  stepTol := none
  hessApprox := 0
  fixedInnerTol := none
  random := false
  eps := 1 / 10 ^ 16
  large := 10 ^ 43

def tinyStats : Stats := fun _ _ _ => (fun _ => 0, fun _ => 1)

theorem tiny_convex (N M : ℕ) : ConvexFit (tinyCfg N M) tinyRows 0 where
  thr := by norm_num [tinyCfg]
  valid := by trivial
  pair := ⟨.normalIdentity, rfl, by simp⟩
  y := fun i => by trivial
  sw := fun i => by norm_num [tinyRows]
  p1 := fun j => by simp [tinyCfg, userP1]
  p2 := fun v => by
    simp [tinyCfg, userP2]
    exact mul_self_nonneg _
  l1 := ⟨le_rfl, zero_le_one⟩

/-- A solver for the normal equations. -/
noncomputable def invSolve {m : ℕ} (H : Fin m → Fin m → ℝ) (s : Fin m → ℝ) : Fin m → ℝ := (Matrix.of H)⁻¹.mulVec s

theorem invSolve_spec {m : ℕ} (H : Fin m → Fin m → ℝ) (s : Fin m → ℝ)
    (h : ∀ v : Fin m → ℝ, (∀ i, ∑ j, H i j * v j = 0) → ∀ j, v j = 0) (k : Fin m) : ∑ j, H k j * invSolve H s j = s k := by
  have hinj : Function.Injective (Matrix.of H).mulVec := by
    intro u v huv
    funext j
    have := h (fun j => u j - v j) (fun i => by
      have := congrFun huv i
      simp only [Matrix.mulVec, dotProduct, Matrix.of_apply] at this
      simp only [mul_sub, Finset.sum_sub_distrib, this, sub_self]) j
    linarith
  have hu : IsUnit (Matrix.of H) := Matrix.mulVec_injective_iff_isUnit.1 hinj
  have hdet := (Matrix.isUnit_iff_isUnit_det _).1 hu
  have : (Matrix.of H).mulVec ((Matrix.of H)⁻¹.mulVec s) = s := by
    rw [Matrix.mulVec_mulVec, Matrix.mul_nonsing_inv _ hdet, Matrix.one_mulVec]
  exact congrFun this k

theorem tiny_objective (b0 : ℝ) (b s : ℕ → ℝ) (hs : ∀ j, s j = 1) :
    fitObjective 1 0 .normal .identity tinyRows s .none .none 1 0 b0 b
      = 1 / 4 * ((3 - (b 0 + b0)) ^ 2 + (1 - (-b 0 + b0)) ^ 2) + 1 / 2 * b 0 ^ 2 := by
  have ht : ∀ e, trueMean 0 .normal .identity e = e := fun _ => rfl
  have hd : ∀ y m, Family.unitDeviance .normal y m = (y - m) ^ 2 := fun _ _ => rfl
  unfold fitObjective
  simp [ht, hd, hs, userP2, tinyRows]
  ring

theorem tiny_large (b0 : ℝ) (b : ℕ → ℝ) (h : 1 / 4 * ((3 - (b 0 + b0)) ^ 2 + (1 - (-b 0 + b0)) ^ 2) + 1 / 2 * b 0 ^ 2 ≤ 1 / 2) (i : Fin 2) :
    ∑ j : Fin 1, tinyRows.X i j * b j + b0 + (tinyRows.off.getD fun _ => 0) i < 10 ^ 43 := by
  have hlt : ∀ x y : ℝ, (y - x) ^ 2 ≤ 2 → y ≤ 3 → x < 10 ^ 43 := by
    intro x y h1 h2
    have : x - y ≤ 2 := by nlinarith
    linarith [show (5 : ℝ) < 10 ^ 43 by norm_num]
  have hx : ∑ j : Fin 1, tinyRows.X i j * b j + b0 + (tinyRows.off.getD fun _ => 0) i = if i = 0 then b 0 + b0 else -b 0 + b0 := by
    fin_cases i <;> simp [tinyRows]
  rw [hx]
  split
  · exact hlt _ 3 (by nlinarith [sq_nonneg (1 - (-b 0 + b0)), sq_nonneg (b 0)]) le_rfl
  · exact hlt _ 1 (by nlinarith [sq_nonneg (3 - (b 0 + b0)), sq_nonneg (b 0)]) (by norm_num)

theorem tiny_fits {σ : Type} (s : σ) (N M : ℕ) (t : Solver) (solver : SolverFn σ 1 true) :
    ∃ Q r, prepare ((tinyCfg N M).forSolver t) tinyStats tinyRows 0 = some Q ∧ Q.start = (fun k => if k.val < 1 then 2 else 0) ∧
      glmFit ((tinyCfg N M).forSolver t) tinyStats solver tinyRows 0 (.single 1) s
        = some ((solver 2 (Q.D.withPen (fun j => Q.D.P1 j * 1) (Q.D.P2.smul 1)) Q.A s Q.start).1, r) := by
  have hg : guessIntercept .normal .identity tinyRows.y tinyRows.sw .none = some 2 := by
    unfold guessIntercept
    rw [if_neg (by simp)]
    simp [average, tinyRows]
    norm_num
  have hs : startGuess ((tinyCfg N M).forSolver t) tinyRows = some 2 := hg
  have hp : ∃ Q, prepare ((tinyCfg N M).forSolver t) tinyStats tinyRows 0 = some Q ∧ Q.start = (fun k => if k.val < 1 then 2 else 0) := by
    unfold prepare
    rw [hs]
    refine ⟨_, rfl, ?_⟩
    funext k
    change clipStart (p := 1) true none none (rawStart true _ _ _ 2 .cold) k = _
    simp [clipStart, rawStart]
  obtain ⟨Q, hQ, hst⟩ := hp
  obtain ⟨r, hr, -⟩ := glmFit_single ((tinyCfg N M).forSolver t) tinyStats solver tinyRows 0 1 s Q hQ
    (by rintro ⟨l, u, h, -⟩; cases h) (fun _ => rfl)
  exact ⟨Q, r, hQ, hst, hr⟩

/-- `c76_fit_ls` applies to ridge regression on the two rows, for every `max_iter`. -/
theorem tiny_ls (next : (ℕ → BitVec 32) → ℕ → (ℕ → BitVec 32)) (N M : ℕ) (s : SolverLog) :
    ∃ s' r, glmFit ((tinyCfg N M).forSolver .irlsLs) tinyStats (irlsSolver next fun _ _ => lsInner invSolve) tinyRows 0 (.single 1) s = some (s', r) ∧
      s'.convWarn = s.convWarn ∧ s'.lsWarn = s.lsWarn ∧ s'.nIter ≤ 1 := by
  obtain ⟨Q, r, -, -, hr⟩ := tiny_fits s N M .irlsLs (irlsSolver next fun _ _ => lsInner invSolve)
  refine ⟨_, r, hr, ?_⟩
  have := c76_fit_ls next invSolve invSolve_spec (tinyCfg N M) tinyStats tinyRows 0 (tiny_convex N M) rfl rfl (fun _ => zero_le_one)
    (by simp [tinyRows]) rfl rfl rfl (by norm_num [tinyCfg]) (by norm_num [tinyCfg]) (fun j => zero_mul _) 1 zero_le_one
    (by
      intro b0 b _ h _
      have h0 := h 0
      have h1 := h 1
      simp [tinyRows] at h0 h1
      refine ⟨by linarith, fun j hj => ?_⟩
      have : j = 0 := by omega
      subst this; linarith)
    (by
      intro b0 b h i
      have hps : ∀ j, penScale (tinyCfg N M).thr (tinyCfg N M).asIfScaled (tinyStats 2 tinyRows.X tinyRows.sw).2 j = 1 := fun j => rfl
      have hc : coldIntercept true tinyRows = 2 := by simp [coldIntercept, tinyRows]; norm_num
      rw [hc] at h
      have h := (tiny_objective b0 b _ hps).symm.le.trans (h.trans (tiny_objective 2 (fun _ => 0) _ hps).le)
      exact tiny_large b0 b (h.trans (by norm_num)) i)
    s _ r hr
  exact ⟨this.1, this.2.1, this.2.2.1⟩

/-- The conclusion of C75 for that fit: no other line is better by more than `gradient_tol` times the distance. -/
example (next : (ℕ → BitVec 32) → ℕ → (ℕ → BitVec 32)) (N M : ℕ) (s : SolverLog) :
    ∃ s' r, glmFit ((tinyCfg N M).forSolver .irlsLs) tinyStats (irlsSolver next fun _ _ => lsInner invSolve) tinyRows 0 (.single 1) s = some (s', r) ∧
      r.coefPath.length = r.alphas.length := by
  obtain ⟨s', r, h, hw, -, -⟩ := tiny_ls next N M s
  have hal : r.alphas = [1] := by
    obtain ⟨Q, -, hal, -⟩ := glmFit_spec _ _ _ _ _ _ _ _ _ h
    simpa [AlphaSpec.eval] using hal.symm
  exact ⟨s', r, h, (c75_no_warning_near_optimal next (fun _ _ => lsInner invSolve) ((tinyCfg N M).forSolver .irlsLs) tinyStats tinyRows 0
    ⟨(tiny_convex N M).thr, (tiny_convex N M).valid, (tiny_convex N M).pair, (tiny_convex N M).y, (tiny_convex N M).sw, (tiny_convex N M).p1,
      (tiny_convex N M).p2, (tiny_convex N M).l1⟩ (fun _ => zero_le_one) rfl (.single 1) s s' r h (by rw [hal]; simp) hw).1⟩

/-- A fit with `irls-cd` that meets the hypotheses of C74: the ridge fit beats every constant. -/
example (next : (ℕ → BitVec 32) → ℕ → (ℕ → BitVec 32)) (N M : ℕ) (hM : 1 ≤ M) (hM' : M ≤ 4000) (s : SolverLog) (b0 : ℝ) :
    ∃ s' r, glmFit ((tinyCfg N M).forSolver .irlsCd) tinyStats (irlsCd next) tinyRows 0 (.single 1) s = some (s', r) ∧
      fitObjective 1 0 .normal .identity tinyRows (fun _ => 1) .none .none 1 0 r.intercept r.coef
        ≤ fitObjective 1 0 .normal .identity tinyRows (fun _ => 1) .none .none 1 0 b0 (fun _ => 0)
          + 16 * (1 / 10 ^ 16) * (s'.objs.map fun x => |x|).sum := by
  obtain ⟨Q, r, hQ, hst, hr⟩ := tiny_fits s N M .irlsCd (irlsCd next)
  have hcv : ConvexFit ((tinyCfg N M).forSolver .irlsCd) tinyRows 0 :=
    ⟨(tiny_convex N M).thr, (tiny_convex N M).valid, (tiny_convex N M).pair, (tiny_convex N M).y, (tiny_convex N M).sw, (tiny_convex N M).p1,
      (tiny_convex N M).p2, (tiny_convex N M).l1⟩
  refine ⟨_, r, hr, ?_⟩
  refine c74_not_worse_than_null next ((tinyCfg N M).forSolver .irlsCd) tinyStats tinyRows 0 hcv (fun _ => zero_le_one) (by simp [tinyRows])
    rfl (Or.inl rfl) (by intro l u h; cases h) (by intro j _; exact ⟨(by intro l h; cases h), (by intro l h; cases h)⟩)
    (by norm_num [tinyCfg, FitCfg.forSolver]) 1 zero_le_one s _ r hr ?_ b0
  obtain ⟨P1, P2, h1, h2, hm, hsd, hDq, -⟩ := prepare_spec _ tinyStats tinyRows 0 Q hQ
  set D := Q.D.withPen (fun j => Q.D.P1 j * 1) (Q.D.P2.smul 1) with hDdef
  have hstd : ∀ j, 0 ≤ Q.stds j := by rw [hsd]; exact fun _ => zero_le_one
  obtain ⟨-, hP, hsym, hpsd⟩ := convexFit_data _ tinyRows 0 hcv Q.means Q.stds hstd P1 P2 h1 h2 1 zero_le_one
  have hDe : D = stdData (tinyCfg N M).thr false Q.means Q.stds (((tinyCfg N M).forSolver .irlsCd).problem tinyRows (fun j => P1 j * 1) (P2.smul 1)) := by
    rw [hDdef, hDq, withPen_std]; rfl
  have hF : SquaredError D.fam := by rw [hDe]; exact squaredError_normal 0
  have hcx : Convexish D := by
    refine ⟨?_, ?_, ?_, ?_, ?_, ?_⟩
    · rw [hDe]; exact hP
    · rw [hDe]; exact hsym
    · rw [hDe]; exact hpsd
    · intro i e; rw [hF.hess, hDe]; exact hcv.sw i
    · rw [hDe]; change (0 : ℝ) ≤ 1 / 10 ^ 16; norm_num
    · rw [hDe]; intro l u hl; cases hl
  have hin : InBounds true D.lb D.ub Q.start := by
    rw [hDe]; intro i hi _; exact ⟨(by intro l h; cases h), (by intro l h; cases h)⟩
  obtain ⟨K, hK⟩ := std_objective _ hcv.thr hcv.valid tinyRows hcv.y Q.means Q.stds hstd 0 P1 P2 h1 h2 1
  have hlevel : ∀ w, objective D w ≤ objective D Q.start → ∀ i, linPred true D.X (off D) w i < D.large := by
    intro w hw i
    rw [hDe] at hw
    have h3 := (hK w).symm.le.trans (hw.trans (hK Q.start).le)
    have hps : ∀ j, penScale ((tinyCfg N M).forSolver .irlsCd).thr ((tinyCfg N M).forSolver .irlsCd).asIfScaled Q.stds j = 1 := fun j => rfl
    have e1 := tiny_objective (report true (tinyCfg N M).thr Q.means Q.stds w).1 (report true (tinyCfg N M).thr Q.means Q.stds w).2 _ hps
    have e2 := tiny_objective (report true (tinyCfg N M).thr Q.means Q.stds Q.start).1 (report true (tinyCfg N M).thr Q.means Q.stds Q.start).2 _ hps
    have h4 := sub_le_sub_iff_right _ |>.1 h3
    have h5 := e1.symm.le.trans (h4.trans e2.le)
    have hs1 : (report true (tinyCfg N M).thr Q.means Q.stds Q.start).1 = 2 := by
      rw [hst]; simp [report, unstandardize, feat, icpt]
    have hs2 : (report true (tinyCfg N M).thr Q.means Q.stds Q.start).2 0 = 0 := by
      rw [hst]; simp [report, unstandardize, feat]
    rw [hs1, hs2] at h5
    have h6 := tiny_large _ _ (h5.trans (by norm_num)) i
    have e := c15_same_predictions (ic := true) (p := 1) (tinyCfg N M).thr Q.means Q.stds tinyRows.X (tinyRows.off.getD fun _ => 0) w i
    rw [hDe]
    refine lt_of_eq_of_lt ?_ h6
    exact e.symm
  have hn : (firstCall s.seeds D Q.start).nIter ≤ M := by
    obtain ⟨hwf, -⟩ := cdArgs_ok D hcx (irlsInit D Q.start) (visited_hessOK (cdInner s.seeds) D hcx Q.start _ Visited.init) _ rfl
    have hmi : D.maxInnerIter = M := by rw [hDe]; rfl
    have := (c24_exit_status _ hwf Q.start (fun k => -scoreAt D Q.start k) (s.seeds 0) (by change 1 ≤ D.maxInnerIter; omega)).1
    exact this.trans (le_of_eq hmi)
  have hwarn : ∀ dg ∈ (irlsRun (cdInner s.seeds) D Q.start).diagnostics, dg.warned = false := by
    by_cases h0 : (irlsInit D Q.start).converged = true
    · rw [run_of_init _ _ _ h0]
      intro d hd
      simp only [irlsInit, List.mem_singleton] at hd
      rw [hd]
    · have hm1 : D.maxIter = 1 := by rw [hDe]; rfl
      rw [run_of_step _ _ _ hm1.ge (by simpa using h0) (Or.inl hm1)]
      exact (cd_first_step s.seeds D hcx hF Q.start hin (by change _ * 2 ≤ _; omega) hlevel).2
  change s.lsWarn + ((irlsRun (cdInner s.seeds) D Q.start).diagnostics.filter (·.warned)).length = _
  have : (irlsRun (cdInner s.seeds) D Q.start).diagnostics.filter (·.warned) = [] := by
    rw [List.filter_eq_nil_iff]
    intro d hd
    rw [hwarn d hd]; simp
  rw [this]; rfl

/-! One coefficient, no intercept, L1 penalty: `c76_cd_one_iteration_partial`. -/

/-- `y = 3`, `x = 1`, `alpha = 1`, `l1_ratio = 1`. -/
noncomputable def oneD : IRLSData 1 1 false where
  X := fun _ _ => 1
  y := fun _ => 3
  sw := fun _ => 1
  P1 := fun _ => 1
  P2 := .vec fun _ => 0
  fam := rowFam 0 .normal .identity
  maxIter := 1
  maxInnerIter := 1
  gradTol := 1 / 10000
  stepTol := none
  hessApprox := 0
  fixedInnerTol := some (1 / 10000)
  random := false
  offset := none
  lb := none
  ub := none
  eps := 1 / 10 ^ 16
  large := 10 ^ 43

theorem one_cd {a : ℕ} (ha : a = 1) (D : CDData ℝ 1 a) (hQ : ∀ s t, D.Q s t = 1) (hP : D.P1 = fun _ => 1) (hm : D.maxIter = 1) (ht : 0 ≤ D.tol)
    (hi : D.intercept = false) (hr : D.random = false) (hl : D.lb = none) (hu : D.ub = none) (he : D.eps < 1) (q : Fin 1 → ℝ) (hq : q 0 = -3)
    (seed : BitVec 32) : (D.run (fun _ => 0) q seed).warned = false ∧ (D.run (fun _ => 0) q seed).nIter = 1 := by
  subst ha
  have hact : ∀ s, D.active s = 0 := fun s => Subsingleton.elim _ _
  have hfr : List.finRange 1 = [0] := by decide
  have hcyc : D.cycle { w := fun _ => 0, q := q, dwMax := 0, wMax := 0, rng := seed }
      = D.visit 0 { w := fun _ => 0, q := q, dwMax := 0, wMax := 0, rng := seed } := by
    simp [CDData.cycle, hfr, CDData.pass, CDData.pick, hr]
  have hv : (softStep (-3 : ℝ) 1 1) = 2 := by
    simp [softStep, fsign, fmax]; norm_num
  have hc : ∀ v, D.clamp 0 v = v := by intro v; simp [CDData.clamp, hl, hu]
  have hpen : D.pen 0 = 1 := by simp [CDData.pen, hi, hP]
  have hw : (D.visit 0 { w := fun _ => 0, q := q, dwMax := 0, wMax := 0, rng := seed }).w 0 = 2 ∧
      (D.visit 0 { w := fun _ => 0, q := q, dwMax := 0, wMax := 0, rng := seed }).q 0 = -1 := by
    unfold CDData.visit
    simp only [hQ]
    rw [if_neg (not_le.2 he)]
    simp only [hact, hq, hpen]
    norm_num [hc, hv, CDData.updateQ, hfr, hact, hq, hQ]
  have hn : (normMinSubgrad ((List.finRange 1).map D.active) (D.visit 0 { w := fun _ => 0, q := q, dwMax := 0, wMax := 0, rng := seed }).w
      (D.visit 0 { w := fun _ => 0, q := q, dwMax := 0, wMax := 0, rng := seed }).q D.P1 D.intercept D.lb D.ub).1 = 0 := by
    rw [hi, hl, hu, hP]
    simp [normMinSubgrad, hfr, hact, hw, subgradTerm, fsign]
  unfold CDData.run
  rw [hm]
  unfold CDData.loop
  simp only [hcyc, hm]
  rw [if_pos (by simp), if_pos (by rw [hn]; exact ht)]
  exact ⟨rfl, rfl⟩

theorem one_convex : Convexish oneD where
  P1 := fun _ => zero_le_one
  symm := fun i j => by simp [p2Full, p2Matrix, oneD]
  psd := fun v => by
    apply le_of_eq; symm
    apply Finset.sum_eq_zero; intro i _; apply Finset.sum_eq_zero; intro j _
    have : p2Full (p := 1) false oneD.P2 i j = 0 := by
      simp [p2Full, p2Matrix, oneD]
    rw [this]; ring
  rows := fun r e => zero_le_one
  eps := by norm_num [oneD]
  bounds := by intro l u h; cases h

example (seeds : ℕ → BitVec 32) :
    (irlsRun (cdInner seeds) oneD fun _ => 0).norm ≤ 1 / 10000 ∧ ∀ d ∈ (irlsRun (cdInner seeds) oneD fun _ => 0).diagnostics, d.warned = false := by
  have hF : SquaredError oneD.fam := squaredError_normal 0
  have hfc : (firstCall seeds oneD fun _ => 0).warned = false ∧ (firstCall seeds oneD fun _ => 0).nIter = 1 := by
    unfold firstCall
    have hall : identifyActiveSet oneD (irlsInit oneD fun _ => 0) = List.finRange 1 :=
      c66_no_intercept_all_active (cdInner seeds) oneD (fun _ => 0) _ Visited.init
    have hH := first_hessian oneD hF fun _ => 0
    simp only at hH
    have hG : ∀ i j, gaussH oneD i j = 1 := by
      intro i j
      simp [gaussH, fullHessian, design, p2Full, p2Matrix, oneD]
    have hmem : ∀ i : Fin 1, i ∈ identifyActiveSet oneD (irlsInit oneD fun _ => 0) := fun i => by rw [hall]; exact List.mem_finRange i
    refine one_cd ?_ _ ?_ rfl rfl ?_ rfl rfl rfl rfl ?_ _ ?_ _
    · change (updateHessian _ _ _ _ _ _).active.length = 1
      rw [hH.1, hall]; simp
    · intro s t
      exact (hH.2 _ (hmem _) _ (hmem _)).trans (hG _ _)
    · change (0 : ℝ) ≤ 1 / 10000; norm_num
    · change (1 : ℝ) / 10 ^ 16 * 16 < 1; norm_num
    · have hl : linPred (p := 1) false oneD.X (off oneD) (fun _ => 0) 0 = 0 := by
        unfold linPred off
        simp [oneD]
      have : scoreAt oneD (fun _ => 0) (0 : Fin 1) = 3 := by
        unfold scoreAt
        simp only [hF.grad, hF.inv, Fin.sum_univ_one, Fin.isValue, mul_zero, Finset.sum_const_zero, sub_zero]
        rw [hl]
        simp [design, oneD]
      change -scoreAt oneD (fun _ => 0) (0 : Fin 1) = -3
      rw [this]
  have := c76_cd_one_iteration_partial seeds oneD one_convex hF (Or.inl rfl) (by norm_num) rfl le_rfl rfl (fun _ => 0)
    (by intro i hi _; exact ⟨(by intro l h; cases h), (by intro l h; cases h)⟩) hfc.1 (by rw [hfc.2]; norm_num) (by
      intro w hw r
      set e := linPred false oneD.X (off oneD) w r with he
      have h0 : linPred (p := 1) false oneD.X (off oneD) (fun _ => 0) 0 = 0 := by
        unfold linPred off
        simp [oneD]
      have hr0 : ∀ v, ridge oneD v = 0 := by
        intro v
        unfold ridge
        simp [p2Full, p2Matrix, oneD]
      have hr : r = 0 := Subsingleton.elim _ _
      unfold objective smoothObj at hw
      rw [hr0, hr0] at hw
      simp only [hF.dev, Fin.sum_univ_one, Fin.isValue] at hw
      rw [h0] at hw
      have hl1 : 0 ≤ l1 false oneD.P1 w := by
        unfold l1
        exact Finset.sum_nonneg fun i _ => mul_nonneg (by simp [l1Weight, oneD]) (abs_nonneg _)
      have hl0 : l1 (p := 1 + false.toNat) false oneD.P1 (fun _ => 0) = 0 := by simp [l1]
      rw [hl0] at hw
      rw [hr] at he
      rw [← he] at hw
      have hw' : 1 / 2 * (1 * (3 - e) ^ 2) + 0 + l1 false oneD.P1 w ≤ 1 / 2 * (1 * (3 - 0) ^ 2) + 0 + 0 := hw
      have : e ≤ 6 := by nlinarith
      exact lt_of_le_of_lt this (by norm_num [oneD]))
  exact ⟨this.1, this.2.2.1⟩

end Glum
