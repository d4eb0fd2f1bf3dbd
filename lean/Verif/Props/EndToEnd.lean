import Verif.Model.Solve
import Verif.Props.Builtin
import Verif.Props.Fit
import Verif.Props.GuessIntercept
/-
C74, C75: `fit` with the IRLS solvers, from the user's arguments to the reported coefficients.
-/
set_option linter.unusedSectionVars false
set_option linter.unusedVariables false
set_option linter.unusedSimpArgs false

namespace Glum
open Spec

variable {n p : ℕ} {ic : Bool}

/-- The scale of a column: its standard deviation, or one for a (nearly) constant column. -/
noncomputable def Spec.colScale (thr : ℝ) (stds : ℕ → ℝ) (j : ℕ) : ℝ := open Classical in if |stds j| < thr then 1 else stds j

/-- Two solutions differ by at most `B` in every coefficient measured on the standardised scale: feature coefficients times column
scale, and the linear predictor at the column means. -/
def Spec.StdClose (p : ℕ) (ic : Bool) (thr : ℝ) (means stds : ℕ → ℝ) (B b0 : ℝ) (b : ℕ → ℝ) (c0 : ℝ) (c : ℕ → ℝ) : Prop :=
  (∀ j < p, |b j - c j| * colScale thr stds j ≤ B) ∧
  (ic = true → |(b0 + ∑ j : Fin p, means j * b j) - (c0 + ∑ j : Fin p, means j * c j)| ≤ B)

/-- What the user must supply for the theorems below: one of the compiled family/link pairs with a convex loss (normal with identity
link, Poisson, gamma, Tweedie `1 < p < 2`, negative binomial with log link, binomial with logit link), observations in its range,
non-negative weights and L1 weights, a positive semidefinite `P2`, `0 ≤ l1_ratio ≤ 1`. -/
structure Spec.ConvexFit (C : FitCfg p ic) (R : Rows n) (l1r : ℝ) : Prop where
  thr : 0 < C.thr
  valid : Valid C.family
  pair : ∃ k, C.family.fast C.link = some k ∧ k ≠ .invGaussianLog
  y : ∀ i, R.y i ∈ ySupport C.family
  sw : ∀ i, 0 ≤ R.sw i
  p1 : ∀ j, 0 ≤ userP1 C.P1a j
  p2 : ∀ v : Fin p → ℝ, 0 ≤ ∑ j : Fin p, ∑ k : Fin p, userP2 C.P2a j k * v j * v k
  l1 : 0 ≤ l1r ∧ l1r ≤ 1

theorem colScale_mul_inv (thr : ℝ) (ht : 0 < thr) (stds : ℕ → ℝ) (j : ℕ) : colScale thr stds j * oneOverStd thr 1 (stds j) = 1 := by
  unfold colScale oneOverStd
  by_cases h : |stds j| < thr
  · simp [h]
  · have : stds j ≠ 0 := fun h0 => h (by rw [h0]; simpa using ht)
    simp only [h, if_false]
    field_simp

/-- The solver's vector from the reported one. -/
theorem report_close (thr : ℝ) (ht : 0 < thr) (means stds : ℕ → ℝ) (hs : ∀ j, 0 ≤ stds j) (B : ℝ) (c c' : Fin (p + ic.toNat) → ℝ)
    (h : StdClose p ic thr means stds B (report ic thr means stds c').1 (report ic thr means stds c').2
      (report ic thr means stds c).1 (report ic thr means stds c).2) (k : Fin (p + ic.toNat)) : |c' k - c k| ≤ B := by
  have hfeat : ∀ (c : Fin (p + ic.toNat) → ℝ) (j : ℕ), (report ic thr means stds c).2 j = feat ic c j * oneOverStd thr 1 (stds j) := by
    intro c j; rfl
  have hint : ic = true → ∀ c : Fin (p + ic.toNat) → ℝ,
      (report ic thr means stds c).1 + ∑ j : Fin p, means j * (report ic thr means stds c).2 j = icpt ic c := by
    intro hi c
    subst hi
    simp only [report, unstandardize, outMeans, if_true]
    rw [Finset.sum_range]
    have : ∀ j : Fin p, means j * oneOverStd thr 1 (stds j) * feat true c j = means j * (feat true c j * oneOverStd thr 1 (stds j)) :=
      fun j => by ring
    simp only [this]
    ring
  by_cases hk : k.val < ic.toNat
  · have hi : ic = true := by cases ic <;> simp at hk ⊢
    have := h.2 hi
    rw [hint hi, hint hi] at this
    have e : ∀ c : Fin (p + ic.toNat) → ℝ, icpt ic c = c k := by
      intro c
      subst hi
      unfold icpt
      have : k = ⟨0, by simp⟩ := Fin.ext (by simpa using hk)
      rw [this]; simp
    rwa [e, e] at this
  · obtain ⟨j, hj⟩ : ∃ j : Fin p, k = ⟨j.val + ic.toNat, by omega⟩ :=
      ⟨⟨k.val - ic.toNat, by have := k.isLt; omega⟩, by ext; simp; omega⟩
    have h1 := h.1 j j.2
    rw [hfeat, hfeat] at h1
    have hpos := oneOverStd_pos thr (stds j) ht (hs j)
    have e := colScale_mul_inv thr ht stds j
    have hc : 0 < colScale thr stds j := by
      by_contra hn
      have := mul_nonpos_of_nonpos_of_nonneg (not_lt.1 hn) hpos.le
      linarith
    have h2 : |feat ic c' j * oneOverStd thr 1 (stds j) - feat ic c j * oneOverStd thr 1 (stds j)| * colScale thr stds j
        = |feat ic c' j - feat ic c j| := by
      rw [← sub_mul, abs_mul, abs_of_pos hpos, mul_assoc, mul_comm (oneOverStd _ _ _), e, mul_one]
    rw [h2] at h1
    have e2 : ∀ c : Fin (p + ic.toNat) → ℝ, feat ic c j = c k := by
      intro c; rw [hj]; unfold feat; simp
    rwa [e2, e2] at h1

/-- The problem handed to the solver is convex. -/
theorem convexFit_data (C : FitCfg p ic) (R : Rows n) (l1r : ℝ) (h : ConvexFit C R l1r) (means stds : ℕ → ℝ) (hs : ∀ j, 0 ≤ stds j)
    (P1 : ℕ → ℝ) (P2 : Pen2 ℝ) (h1 : setupP1 p 1 l1r C.P1a = some P1) (h2 : setupP2 p C.xsp 1 l1r C.P2a = some P2) (a : ℝ) (ha : 0 ≤ a) :
    let D := stdData C.thr C.asIfScaled means stds (C.problem R (fun j => P1 j * a) (P2.smul a))
    (∃ k, k ≠ .invGaussianLog ∧ FastFit D C.family C.link k) ∧ (∀ k, 0 ≤ D.P1 k) ∧
    (∀ i j, p2Full (p := p) ic D.P2 i j = p2Full ic D.P2 j i) ∧ PosSemidef (p2Full (p := p) ic D.P2) := by
  intro D
  obtain ⟨k, hk, hne⟩ := h.pair
  refine ⟨⟨k, hne, h.valid, hk, ?_, h.y, h.sw⟩, ?_, ?_, ?_⟩
  · show rowFam C.e50 C.family C.link = _
    unfold rowFam
    rw [hk]
  · intro j
    have hp1 : ∀ j, P1 j = l1r * userP1 C.P1a j := by
      intro j
      cases hP : C.P1a with
      | str s =>
        rw [hP] at h1
        simp only [setupP1] at h1
        split at h1
        · simp only [Option.some.injEq] at h1; rw [← h1]; simp [userP1]
        · simp at h1
      | none =>
        rw [hP] at h1
        simp only [setupP1, Option.some.injEq] at h1; rw [← h1]; simp [userP1]
      | vec len v =>
        rw [hP] at h1
        simp only [setupP1] at h1
        split at h1
        · simp only [Option.some.injEq] at h1; rw [← h1]; simp [userP1]
        · simp at h1
    have h0 : 0 ≤ P1 j * a := by rw [hp1]; exact mul_nonneg (mul_nonneg h.l1.1 (h.p1 j)) ha
    show 0 ≤ (standardize C.thr ic C.asIfScaled means stds R.X C.lb C.ub none (fun j => P1 j * a) (P2.smul a)).P1 j
    unfold standardize
    simp only
    split
    · exact h0
    · exact mul_nonneg h0 (oneOverStd_pos C.thr _ h.thr (hs j)).le
  · have hsymU : ∀ i j : Fin p, p2Matrix P2 i j = p2Matrix P2 j i :=
      (c36_symmetrisation p C.xsp 1 l1r C.P2a P2 h2 (fun _ => 0) (fun _ => 0)).1
    have hsymD : ∀ i j : Fin p, p2Matrix D.P2 i j = p2Matrix D.P2 j i := by
      intro i j
      show p2Matrix (standardize C.thr ic C.asIfScaled means stds R.X C.lb C.ub none (fun j => P1 j * a) (P2.smul a)).P2 i j
        = p2Matrix (standardize C.thr ic C.asIfScaled means stds R.X C.lb C.ub none (fun j => P1 j * a) (P2.smul a)).P2 j i
      unfold standardize
      simp only
      split
      · rw [smul_entry, smul_entry, hsymU]
      · rw [scaleP2_entry, scaleP2_entry, smul_entry, smul_entry, hsymU]; ring
    intro i j
    by_cases hi : i.val < ic.toNat
    · rw [p2Full_left_zero _ _ _ hi, p2Full_right_zero _ _ _ hi]
    · by_cases hj : j.val < ic.toNat
      · rw [p2Full_left_zero _ _ _ hj, p2Full_right_zero _ _ _ hj]
      · obtain ⟨i', hi'⟩ : ∃ j : Fin p, i = ⟨j.val + ic.toNat, by omega⟩ :=
          ⟨⟨i.val - ic.toNat, by have := i.isLt; omega⟩, by ext; simp; omega⟩
        obtain ⟨j', hj'⟩ : ∃ k : Fin p, j = ⟨k.val + ic.toNat, by omega⟩ :=
          ⟨⟨j.val - ic.toNat, by have := j.isLt; omega⟩, by ext; simp; omega⟩
        rw [hi', hj', p2Full_shift, p2Full_shift, hsymD]
  · intro v
    have e := (std_penalty C.thr h.thr C.asIfScaled means stds hs (C.problem R (fun j => P1 j * a) (P2.smul a)) v).2
    have hp2 := (c36_symmetrisation p C.xsp 1 l1r C.P2a P2 h2
      (fun j => (report ic C.thr means stds v).2 j * penScale C.thr C.asIfScaled stds j) (fun _ => 0)).2.1
    have hnn : 0 ≤ ridge D v := by
      show 0 ≤ ridge (stdData C.thr C.asIfScaled means stds (C.problem R (fun j => P1 j * a) (P2.smul a))) v
      rw [e]
      show 0 ≤ 1 / 2 * ∑ j : Fin p, ∑ k : Fin p, p2Matrix (P2.smul a) j k * _ * _
      have : ∑ j : Fin p, ∑ k : Fin p, p2Matrix (P2.smul a) j k *
          ((report ic C.thr means stds v).2 j * penScale C.thr C.asIfScaled stds j) *
          ((report ic C.thr means stds v).2 k * penScale C.thr C.asIfScaled stds k)
          = a * ∑ j : Fin p, ∑ k : Fin p, p2Matrix P2 j k *
          ((report ic C.thr means stds v).2 j * penScale C.thr C.asIfScaled stds j) *
          ((report ic C.thr means stds v).2 k * penScale C.thr C.asIfScaled stds k) := by
        simp only [Finset.mul_sum]
        apply Finset.sum_congr rfl; intro j _; apply Finset.sum_congr rfl; intro k _
        rw [smul_entry]; ring
      rw [this]
      have hu := h.p2 (fun j => (report ic C.thr means stds v).2 j * penScale C.thr C.asIfScaled stds j)
      have h3 : 0 ≤ 1 / 2 * ∑ j : Fin p, ∑ k : Fin p, p2Matrix P2 j k *
          ((report ic C.thr means stds v).2 j * penScale C.thr C.asIfScaled stds j) *
          ((report ic C.thr means stds v).2 k * penScale C.thr C.asIfScaled stds k) := by
        rw [hp2]
        exact mul_nonneg (mul_nonneg zero_le_one (by linarith [h.l1.2])) (by linarith)
      have h4 := mul_nonneg ha h3
      linarith
    unfold ridge at hnn
    linarith

/-- One solve: if its run meets the gradient criterion, the reported coefficients are nearly optimal. -/
theorem report_near_optimal (inner : Inner n p ic) (C : FitCfg p ic) (stats : Stats) (R : Rows n) (l1r : ℝ) (h : ConvexFit C R l1r)
    (hs : ∀ j, 0 ≤ (stats n R.X R.sw).2 j) (Q : Prepared n p ic) (hQ : prepare C stats R l1r = some Q) (a : ℝ) (ha : 0 ≤ a)
    (start : Fin (p + ic.toNat) → ℝ)
    (hc : (irlsRun inner (Q.D.withPen (fun j => Q.D.P1 j * a) (Q.D.P2.smul a)) start).norm < C.gradTol)
    (b0 : ℝ) (b : ℕ → ℝ) (hb0 : ic = false → b0 = 0) (hb : WithinBounds p C.lb C.ub b) (B : ℝ) (hB : 0 ≤ B)
    (hclose : StdClose p ic C.thr Q.means Q.stds B b0 b
      (report ic C.thr Q.means Q.stds (irlsRun inner (Q.D.withPen (fun j => Q.D.P1 j * a) (Q.D.P2.smul a)) start).coef).1
      (report ic C.thr Q.means Q.stds (irlsRun inner (Q.D.withPen (fun j => Q.D.P1 j * a) (Q.D.P2.smul a)) start).coef).2) :
    fitObjective p C.e50 C.family C.link R (penScale C.thr C.asIfScaled Q.stds) C.P1a C.P2a a l1r
      (report ic C.thr Q.means Q.stds (irlsRun inner (Q.D.withPen (fun j => Q.D.P1 j * a) (Q.D.P2.smul a)) start).coef).1
      (report ic C.thr Q.means Q.stds (irlsRun inner (Q.D.withPen (fun j => Q.D.P1 j * a) (Q.D.P2.smul a)) start).coef).2
    ≤ fitObjective p C.e50 C.family C.link R (penScale C.thr C.asIfScaled Q.stds) C.P1a C.P2a a l1r b0 b + C.gradTol * B := by
  obtain ⟨P1, P2, h1, h2, hm, hst, hD, -⟩ := prepare_spec C stats R l1r Q hQ
  rw [← hst] at hs
  rw [hD, withPen_std] at hc hclose ⊢
  set D := stdData C.thr C.asIfScaled Q.means Q.stds (C.problem R (fun j => P1 j * a) (P2.smul a)) with hDdef
  obtain ⟨⟨k, hk, hF⟩, hP, hsym, hpsd⟩ := convexFit_data C R l1r h Q.means Q.stds hs P1 P2 h1 h2 a ha
  obtain ⟨K, hK⟩ := std_objective C h.thr h.valid R h.y Q.means Q.stds hs l1r P1 P2 h1 h2 a
  obtain ⟨c', e0, e⟩ := report_bijective (ic := ic) (p := p) C.thr h.thr Q.means Q.stds hs b0 b hb0
  set fin := irlsRun inner D start with hfin
  have hin : InBounds ic D.lb D.ub c' := by
    refine ((c18_bounds C.thr h.thr Q.means Q.stds hs C.asIfScaled (C.problem R (fun j => P1 j * a) (P2.smul a)) c').trans
      (inBounds_coefVec _ _ _)).2 fun j hj => ?_
    have := e ⟨j, hj⟩
    simp only at this
    rw [this]; exact hb j hj
  have hclose' : StdClose p ic C.thr Q.means Q.stds B (report ic C.thr Q.means Q.stds c').1 (report ic C.thr Q.means Q.stds c').2
      (report ic C.thr Q.means Q.stds fin.coef).1 (report ic C.thr Q.means Q.stds fin.coef).2 := by
    refine ⟨fun j hj => ?_, fun hi => ?_⟩
    · have := e ⟨j, hj⟩
      simp only at this
      rw [this]; exact hclose.1 j hj
    · have := hclose.2 hi
      rw [e0]
      simp only [e]
      exact this
  have key := (c35_near_optimal_builtin inner D C.family C.link k hF hk hP hsym hpsd start fin (irlsRun_visited inner D start) c' hin B
    (report_close C.thr h.thr Q.means Q.stds hs B fin.coef c' hclose') hB).2 hc
  rw [hK, hK, fitObjective_congr C R _ a l1r _ b0 _ b e0 e] at key
  have hg : D.gradTol = C.gradTol := rfl
  rw [hg] at key
  linarith

/-- Without a `ConvergenceWarning` in the whole fit, every solve ended converged. -/
theorem all_converged (next : (ℕ → BitVec 32) → ℕ → (ℕ → BitVec 32)) (inner : (ℕ → BitVec 32) → (m : ℕ) → Inner m p ic)
    (Q : Prepared n p ic) (alphas : List ℝ) (states : ℕ → SolverLog) (rows : List (Fin (p + ic.toNat) → ℝ)) (hlen : rows.length = alphas.length)
    (start : Fin (p + ic.toNat) → ℝ) (hw : (states alphas.length).convWarn = (states 0).convWarn)
    (hstep : ∀ i (hi : i < alphas.length) (hi' : i < rows.length),
      Q.solveFn (irlsSolver next inner) (states i) (fun j => Q.D.P1 j * alphas[i]) (Q.D.P2.smul alphas[i])
        (if h : i = 0 then start else rows[i - 1]) = (states (i + 1), rows[i])) (i : ℕ) (hi : i < alphas.length) :
    (irlsRun (inner (states i).seeds n) (Q.D.withPen (fun j => Q.D.P1 j * alphas[i]) (Q.D.P2.smul alphas[i]))
      (if h : i = 0 then start else rows[i - 1])).converged = true := by
  have hinc : ∀ k (hk : k < alphas.length), (states (k + 1)).convWarn = (states k).convWarn +
      if (irlsRun (inner (states k).seeds n) (Q.D.withPen (fun j => Q.D.P1 j * alphas[k]) (Q.D.P2.smul alphas[k]))
        (if h : k = 0 then start else rows[k - 1])).converged then 0 else 1 := by
    intro k hk
    have := congrArg (fun x => x.1.convWarn) (hstep k hk (by rw [hlen]; exact hk))
    exact this.symm
  have hmono : ∀ k, k ≤ alphas.length → (states 0).convWarn ≤ (states k).convWarn := by
    intro k
    induction k with
    | zero => intro _; exact le_rfl
    | succ k ih => intro hk; rw [hinc k (by omega)]; have := ih (by omega); omega
  have hmono2 : ∀ k j, j + k ≤ alphas.length → (states j).convWarn ≤ (states (j + k)).convWarn := by
    intro k
    induction k with
    | zero => intro j _; exact le_rfl
    | succ k ih =>
      intro j hk
      have := ih j (by omega)
      rw [← add_assoc, hinc (j + k) (by omega)]
      omega
  have h1 := hmono i (by omega)
  have h2 := hmono2 (alphas.length - (i + 1)) (i + 1) (by omega)
  rw [show i + 1 + (alphas.length - (i + 1)) = alphas.length by omega, hw, hinc i hi] at h2
  by_contra hn
  rw [if_neg hn] at h2
  omega

/-- A converged run without step-size tolerance meets the gradient criterion. -/
theorem converged_norm (inner : Inner n p ic) (D : IRLSData n p ic) (hP : ∀ k, 0 ≤ D.P1 k) (start : Fin (p + ic.toNat) → ℝ)
    (hstep : D.stepTol = none) (hc : (irlsRun inner D start).converged = true) : (irlsRun inner D start).norm < D.gradTol := by
  have hv := irlsRun_visited inner D start
  rcases (converged_iff _ _ hP _ _ hv).1 hc with hg | ⟨t, ht, -⟩
  · have hch := visited_checked _ _ _ _ hv
    rw [Prod.ext_iff, Prod.ext_iff] at hch
    have h3 := hch.2.1
    have hsc := (visited_sync _ _ hP _ _ hv).score
    simp only [checkConvergence, hsc] at h3
    rw [h3]
    exact hg
  · rw [hstep] at ht; cases ht

/-- **C75.** `fit` with an IRLS solver (any inner solver, any random numbers), single alpha, given alphas or computed path, any bounds,
penalties, offset, start, with or without intercept and scaling, no `step_size_tol`: if it raised no `ConvergenceWarning`, then every row
of the path (hence `coef_`, `intercept_`) is nearly optimal for the documented objective on the user's data: it exceeds the objective at any
feasible `(b0, b)` by at most `gradient_tol` times the distance (on the standardised scale). -/
theorem c75_no_warning_near_optimal (next : (ℕ → BitVec 32) → ℕ → (ℕ → BitVec 32))
    (inner : (ℕ → BitVec 32) → (m : ℕ) → Inner m p ic) (C : FitCfg p ic) (stats : Stats) (R : Rows n) (l1r : ℝ) (h : ConvexFit C R l1r)
    (hs : ∀ j, 0 ≤ (stats n R.X R.sw).2 j) (hstep : C.stepTol = none) (a : AlphaSpec) (s s' : SolverLog) (r : PathResult)
    (hfit : glmFit C stats (irlsSolver next inner) R l1r a s = some (s', r)) (ha : ∀ x ∈ r.alphas, 0 ≤ x)
    (hw : s'.convWarn = s.convWarn) :
    r.coefPath.length = r.alphas.length ∧ r.interceptPath.length = r.alphas.length ∧
    r.coefPath.getLast? = some r.coef ∧ r.interceptPath.getLast? = some r.intercept ∧
    ∀ i (hi : i < r.alphas.length) (hc : i < r.coefPath.length) (hb : i < r.interceptPath.length),
      ∀ (b0 : ℝ) (b : ℕ → ℝ), (ic = false → b0 = 0) → WithinBounds p C.lb C.ub b → ∀ B : ℝ, 0 ≤ B →
        StdClose p ic C.thr (stats n R.X R.sw).1 (stats n R.X R.sw).2 B b0 b r.interceptPath[i] r.coefPath[i] →
        fitObjective p C.e50 C.family C.link R (penScale C.thr C.asIfScaled (stats n R.X R.sw).2) C.P1a C.P2a r.alphas[i] l1r
            r.interceptPath[i] r.coefPath[i]
          ≤ fitObjective p C.e50 C.family C.link R (penScale C.thr C.asIfScaled (stats n R.X R.sw).2) C.P1a C.P2a r.alphas[i] l1r b0 b
            + C.gradTol * B := by
  obtain ⟨Q, hQ, -, hs', hst, -⟩ := glmFit_spec C stats (irlsSolver next inner) R l1r a s s' r hfit
  obtain ⟨hlen, states, hst0, hstn, hrows⟩ := c41_path (Q.solveFn (irlsSolver next inner)) Q.D.P1 Q.D.P2 r.alphas s Q.start
  obtain ⟨-, l1', l2', g1, g2, -, -⟩ := c41_stored C.thr Q.means Q.stds r.alphas _ r hst
  obtain ⟨P1, P2, h1, h2, hm, hsd, hD, -⟩ := prepare_spec C stats R l1r Q hQ
  unfold Prepared.path at *
  refine ⟨l1'.trans hlen, l2'.trans hlen, g1, g2, fun i hi hc hb b0 b hb0 hbb B hB hclose => ?_⟩
  have hi' : i < (solvePath (Q.solveFn (irlsSolver next inner)) Q.D.P1 Q.D.P2 r.alphas s Q.start).2.length := by rw [hlen]; exact hi
  obtain ⟨e1, e2⟩ := storePath_rows C.thr Q.means Q.stds r.alphas _ r hst i hi'
  rw [List.getElem?_eq_getElem hc, Option.some.injEq] at e1
  rw [List.getElem?_eq_getElem hb, Option.some.injEq] at e2
  have hrow := congrArg Prod.snd (hrows i hi hi')
  simp only at hrow
  have hconv := all_converged next inner Q r.alphas states _ hlen Q.start (by rw [hstn, hst0, ← hs']; exact hw) hrows i hi
  generalize hstart : (if h : i = 0 then Q.start
    else (solvePath (Q.solveFn (irlsSolver next inner)) Q.D.P1 Q.D.P2 r.alphas s Q.start).2[i - 1]) = start at hrow hconv
  have hPd := (convexFit_data C R l1r h Q.means Q.stds (by rw [hsd]; exact hs) P1 P2 h1 h2 r.alphas[i] (ha _ (List.getElem_mem hi))).2.1
  rw [← withPen_std, ← hD] at hPd
  have hT : (Q.D.withPen (fun j => Q.D.P1 j * r.alphas[i]) (Pen2.smul r.alphas[i] Q.D.P2)).stepTol = C.stepTol := by rw [hD]; rfl
  have hG : (Q.D.withPen (fun j => Q.D.P1 j * r.alphas[i]) (Pen2.smul r.alphas[i] Q.D.P2)).gradTol = C.gradTol := by rw [hD]; rfl
  have hfin := converged_norm (inner (states i).seeds n) _ hPd start (hT.trans hstep) hconv
  rw [hG] at hfin
  rw [← hsd, ← hm] at hclose
  rw [e1, e2, ← hrow] at hclose ⊢
  rw [← hsd]
  exact report_near_optimal (inner (states i).seeds n) C stats R l1r h hs Q hQ r.alphas[i] (ha _ (List.getElem_mem hi)) _ hfin b0 b hb0
    hbb B hB hclose

/-! ### C74: the null model -/

theorem visited_first (inner : Inner n p ic) (D : IRLSData n p ic) (coef0 : Fin (p + ic.toNat) → ℝ) (st : IRLSState n p ic)
    (h : Visited inner D coef0 st) : ∃ l nm, st.diagnostics = l ++ [⟨0, nm, (irlsInit D coef0).obj, false⟩] := by
  induction h with
  | init => exact ⟨[], _, rfl⟩
  | step st _ _ _ ih =>
    obtain ⟨l, nm, e⟩ := ih
    refine ⟨(irlsStep inner D st).diagnostics.head (by simp [irlsStep]) :: l, nm, ?_⟩
    simp only [irlsStep, List.head_cons, List.cons_append, e]

theorem chain_sum (eps : ℝ) (he : 0 ≤ eps) (l : List Diag) (d0 : Diag) (hc : (l ++ [d0]).IsChain (NotWorse eps))
    (hw : ∀ d ∈ l, d.warned = false) :
    ∀ d t, l ++ [d0] = d :: t → d.obj ≤ d0.obj + 16 * eps * (t.map fun d => |d.obj|).sum := by
  induction l with
  | nil => intro d t hd; simp at hd; obtain ⟨rfl, rfl⟩ := hd; simp
  | cons a l ih =>
    intro d t hd
    rw [List.cons_append, List.cons.injEq] at hd
    obtain ⟨rfl, hd⟩ := hd
    have hc' : (l ++ [d0]).IsChain (NotWorse eps) := List.IsChain.of_cons hc
    cases t with
    | nil => simp at hd
    | cons b t =>
      have ihb := ih hc' (fun d hd => hw d (by simp [hd])) b t hd
      rw [List.cons_append, hd] at hc
      have hab := (List.isChain_cons_cons.mp hc).1 (hw a (by simp))
      simp only [List.map_cons, List.sum_cons]
      linarith

/-- Intercept-only deviance and documented objective. -/
theorem fitObjective_null (C : FitCfg p ic) (R : Rows n) (s : ℕ → ℝ) (a l1r b0 : ℝ) :
    fitObjective p C.e50 C.family C.link R s C.P1a C.P2a a l1r b0 (fun _ => 0)
      = 1 / 2 * interceptDeviance C.family (trueMean C.e50 C.family C.link) R.y R.sw (R.off.getD fun _ => 0) b0 := by
  unfold fitObjective interceptDeviance
  simp only [mul_zero, zero_mul, abs_zero, Finset.sum_const_zero, add_zero, zero_add, add_comm b0]

/-- The guessed intercept is the only minimiser of the intercept-only deviance on the compiled family/link pairs. -/
theorem guess_strict (C : FitCfg p ic) (R : Rows n) (hf : Valid C.family) (k : Fast) (hk : C.family.fast C.link = some k)
    (hy : ∀ i, R.y i ∈ ySupport C.family) (hsw : ∑ i, R.sw i = 1)
    (hoff : R.off = none ∨ (C.family ≠ .binomial ∧ ∀ t, C.family ≠ .negBinomial t)) (g : ℝ)
    (hg : guessIntercept C.family C.link R.y R.sw (R.off.elim .none .array) = some g) (b : ℝ) (hbg : b ≠ g) :
    interceptDeviance C.family (trueMean C.e50 C.family C.link) R.y R.sw (R.off.getD fun _ => 0) g
      < interceptDeviance C.family (trueMean C.e50 C.family C.link) R.y R.sw (R.off.getD fun _ => 0) b := by
  have hpos : 0 < ∑ i, R.sw i := by rw [hsw]; exact one_pos
  have hvec : (R.off.getD fun _ => 0) = (R.off.elim (EtaArg.none (n := n)) EtaArg.array).vec := by
    cases R.off <;> rfl
  have hlog : ∀ q, variancePower C.family = some q → C.link = .log →
      interceptDeviance C.family (trueMean C.e50 C.family C.link) R.y R.sw (R.off.getD fun _ => 0) g
      < interceptDeviance C.family (trueMean C.e50 C.family C.link) R.y R.sw (R.off.getD fun _ => 0) b := by
    intro q hq hl
    have hm : trueMean C.e50 C.family C.link = Real.exp := by
      funext x
      rw [hl]
      unfold trueMean
      split
      · next h => cases h
      · rfl
    rw [hm, hvec]
    rw [hl] at hg
    exact (c63_log_tweedie C.family hf q hq R.y R.sw _ hpos hy g hg b hbg)
  rcases fast_cases hk with ⟨-, hl, hfam⟩ | ⟨-, hl, hfam⟩ | ⟨-, hl, hfam⟩ | ⟨-, hl, hfam⟩ |
    ⟨q, -, hl, hfam, -⟩ | ⟨-, hl, hfam⟩ | ⟨t, -, hl, hfam⟩
  · have hm : trueMean C.e50 C.family C.link = id := by
      funext x
      rw [hl]
      unfold trueMean
      split
      · next h => cases h
      · rfl
    rw [hm, hvec]
    rw [hl] at hg
    exact (c63_identity_normal C.family hfam R.y R.sw _ hpos g hg b hbg)
  · rcases hfam with h | h
    · exact hlog 1 (by rw [h]; rfl) hl
    · exact hlog 1 (by rw [h]; rfl) hl
  · rcases hfam with h | h
    · exact hlog 2 (by rw [h]; rfl) hl
    · exact hlog 2 (by rw [h]; rfl) hl
  · rcases hfam with h | h
    · exact hlog 3 (by rw [h]; rfl) hl
    · exact hlog 3 (by rw [h]; rfl) hl
  · exact hlog q (by rw [hfam]; rfl) hl
  · rcases hoff with ho | ho
    · rw [ho] at hg ⊢
      have hm : trueMean C.e50 C.family C.link = fun x => 1 / (1 + Real.exp (-x)) := by
        funext x; rw [hl, hfam]; rfl
      rw [hm]
      rw [hl] at hg
      rw [hfam] at hg hy ⊢
      exact (c63_logit_binomial R.y R.sw hpos hy g hg b hbg)
    · exact absurd hfam ho.1
  · rcases hoff with ho | ho
    · have hm : trueMean C.e50 C.family C.link = Real.exp := by
        funext x
        rw [hl]
        unfold trueMean
        split
        · next h => cases h
        · rfl
      rw [ho] at hg ⊢
      rw [hm]
      rw [hl] at hg
      rw [hfam] at hg hy hf ⊢
      have hav : average R.y R.sw = ∑ i, R.sw i * R.y i := by
        unfold average
        rw [hsw, div_one]
        exact Finset.sum_congr rfl fun i _ => mul_comm _ _
      have hmpos : 0 < ∑ i, R.sw i * R.y i := by
        unfold guessIntercept at hg
        split at hg
        · cases hg
        · simp only [Option.elim, Option.bind_eq_bind] at hg
          cases h1 : safeLog (average R.y R.sw) with
          | none => rw [h1] at hg; cases hg
          | some v => rw [← hav]; exact (safeLog_some h1).1
      have key := c63_no_offset (1 / 2) ⟨by norm_num, by norm_num⟩ (.negBinomial t) hf .log R.y R.sw hsw hy _ rfl hmpos hmpos
        (by rintro (h | h) <;> cases h) g hg
      by_cases hbm : Real.exp b = ∑ i, R.sw i * R.y i
      · have : Real.exp g = ∑ i, R.sw i * R.y i := key.1
        rw [← hbm] at this
        exact absurd (Real.exp_injective this).symm hbg
      · exact (key.2 b (Real.exp_pos b) hbm)
    · exact absurd hfam (ho.2 t)

/-- The guessed intercept minimises the intercept-only deviance on the compiled family/link pairs. -/
theorem guess_optimal (C : FitCfg p ic) (R : Rows n) (hf : Valid C.family) (k : Fast) (hk : C.family.fast C.link = some k)
    (hy : ∀ i, R.y i ∈ ySupport C.family) (hsw : ∑ i, R.sw i = 1)
    (hoff : R.off = none ∨ (C.family ≠ .binomial ∧ ∀ t, C.family ≠ .negBinomial t)) (g : ℝ)
    (hg : guessIntercept C.family C.link R.y R.sw (R.off.elim .none .array) = some g) (b : ℝ) :
    interceptDeviance C.family (trueMean C.e50 C.family C.link) R.y R.sw (R.off.getD fun _ => 0) g
      ≤ interceptDeviance C.family (trueMean C.e50 C.family C.link) R.y R.sw (R.off.getD fun _ => 0) b := by
  by_cases hbg : b = g
  · rw [hbg]
  · exact (guess_strict C R hf k hk hy hsw hoff g hg b hbg).le

/-- **C74.** `fit` with solver `irls-cd` and an intercept, without start values, zero coefficients allowed by the bounds, no line-search
warning: the documented objective at `coef_`, `intercept_` is not larger than at *any* intercept-only model (all coefficients zero), up to
`16 eps` times the sum of the recorded objective values — for every sample, penalties and convergence status, even if the iteration limit
was hit.  (With an offset: all pairs but binomial and negative binomial, where the start is only approximate.) -/
theorem c74_not_worse_than_null (next : (ℕ → BitVec 32) → ℕ → (ℕ → BitVec 32)) (C : FitCfg p true) (stats : Stats) (R : Rows n) (l1r : ℝ)
    (h : ConvexFit C R l1r) (hs : ∀ j, 0 ≤ (stats n R.X R.sw).2 j) (hsw : ∑ i, R.sw i = 1) (hcold : C.start = .cold)
    (hoff : R.off = none ∨ (C.family ≠ .binomial ∧ ∀ t, C.family ≠ .negBinomial t))
    (hord : BoundsOrdered C.lb C.ub) (hzero : WithinBounds p C.lb C.ub fun _ => 0) (heps : 0 ≤ C.eps) (a : ℝ) (ha : 0 ≤ a)
    (s s' : SolverLog) (r : PathResult) (hfit : glmFit C stats (irlsCd next) R l1r (.single a) s = some (s', r))
    (hls : s'.lsWarn = s.lsWarn) (b0 : ℝ) :
    fitObjective p C.e50 C.family C.link R (penScale C.thr C.asIfScaled (stats n R.X R.sw).2) C.P1a C.P2a a l1r r.intercept r.coef
      ≤ fitObjective p C.e50 C.family C.link R (penScale C.thr C.asIfScaled (stats n R.X R.sw).2) C.P1a C.P2a a l1r b0 (fun _ => 0)
        + 16 * C.eps * (s'.objs.map fun x => |x|).sum := by
  obtain ⟨Q, hQ, hal, hs', hst, -⟩ := glmFit_spec C stats (irlsCd next) R l1r (.single a) s s' r hfit
  simp only [AlphaSpec.eval, Option.some.injEq] at hal
  rw [← hal] at hst hs'
  have hQ' := hQ
  unfold prepare at hQ'
  simp only [Option.bind_eq_bind] at hQ'
  obtain ⟨P1, P2, h1, h2, hm, hsd, hD, -⟩ := prepare_spec C stats R l1r Q hQ
  rw [h1, h2] at hQ'
  simp only [Option.bind_some] at hQ'
  cases hg : startGuess C R with
  | none => rw [hg] at hQ'; simp at hQ'
  | some g =>
    rw [hg] at hQ'
    simp only [Option.bind_some, Option.some.injEq] at hQ'
    have hstart : Q.start = getStartCoef true C.thr Q.means Q.stds g C.lb C.ub C.start := by
      rw [← hQ']
    rw [hcold] at hstart
    have hgi : guessIntercept C.family C.link R.y R.sw (R.off.elim .none .array) = some g := by
      unfold startGuess at hg
      rw [hcold] at hg
      exact hg
    have hstd : ∀ j, 0 ≤ Q.stds j := by rw [hsd]; exact hs
    -- the start is the guess and zeros
    have hst0 : ∀ k : Fin (p + true.toNat), Q.start k = if k.val < true.toNat then g else 0 := by
      intro k
      rw [hstart]
      unfold getStartCoef clipStart rawStart
      by_cases hk : k.val < true.toNat
      · simp only [hk, if_true]
      · have hj : k.val - true.toNat < p := by have := k.isLt; omega
        have hz := hzero _ hj
        simp only [hk, if_false]
        cases hl : C.lb with
        | none =>
          cases hu : C.ub with
          | none => rfl
          | some u => exact min_eq_left (hz.2 u hu)
        | some l =>
          have e1 : max 0 (l (k.val - true.toNat)) = 0 := max_eq_left (hz.1 l hl)
          cases hu : C.ub with
          | none => exact e1
          | some u => simp only []; rw [e1]; exact min_eq_left (hz.2 u hu)
    have hrep : (report true C.thr Q.means Q.stds Q.start).1 = g ∧ ∀ j : Fin p, (report true C.thr Q.means Q.stds Q.start).2 j = 0 := by
      have hf : ∀ j : ℕ, feat true Q.start j = 0 := by
        intro j
        unfold feat
        split
        · rw [hst0]; simp
        · rfl
      have hi : icpt true Q.start = g := by
        unfold icpt
        simp [hst0]
      refine ⟨?_, fun j => ?_⟩
      · simp [report, unstandardize, hf, hi]
      · simp [report, unstandardize, hf]
    set D := Q.D.withPen (fun j => Q.D.P1 j * a) (Q.D.P2.smul a) with hDdef
    have hDe : D = stdData C.thr C.asIfScaled Q.means Q.stds (C.problem R (fun j => P1 j * a) (P2.smul a)) := by
      rw [hDdef, hD, withPen_std]
    obtain ⟨⟨k, hk, hF⟩, hP, hsym, hpsd⟩ := convexFit_data C R l1r h Q.means Q.stds hstd P1 P2 h1 h2 a ha
    obtain ⟨K, hK⟩ := std_objective C h.thr h.valid R h.y Q.means Q.stds hstd l1r P1 P2 h1 h2 a
    rw [← hDe] at hF hP hsym hpsd
    have hin : InBounds true D.lb D.ub Q.start := by
      rw [hDe]
      refine ((c18_bounds C.thr h.thr Q.means Q.stds hstd C.asIfScaled (C.problem R (fun j => P1 j * a) (P2.smul a)) Q.start).trans
        (inBounds_coefVec _ _ _)).2 fun j hj => ?_
      have := hrep.2 ⟨j, hj⟩
      simp only at this
      rw [this]; exact hzero j hj
    have hordD : BoundsOrdered D.lb D.ub := by
      rw [hDe]
      intro l u hl hu j
      change (C.lb.map fun l j => l j / oneOverStd C.thr 1 (Q.stds j)) = some l at hl
      change (C.ub.map fun l j => l j / oneOverStd C.thr 1 (Q.stds j)) = some u at hu
      cases hDl : C.lb with
      | none => rw [hDl] at hl; simp at hl
      | some l' =>
        cases hDu : C.ub with
        | none => rw [hDu] at hu; simp at hu
        | some u' =>
          rw [hDl] at hl; rw [hDu] at hu
          simp only [Option.map_some, Option.some.injEq] at hl hu
          rw [← hl, ← hu]
          exact div_le_div_of_nonneg_right (hord l' u' hDl hDu j) (oneOverStd_pos C.thr _ h.thr (hstd j)).le
    have heD : D.eps = C.eps := by rw [hDe]; rfl
    set fin := irlsRun (cdInner s.seeds) D Q.start with hfin
    have hchain := c31_cd_monotone_builtin s.seeds D C.family C.link k hF hP hsym hpsd (by rw [heD]; exact heps) hordD Q.start hin
    rw [← hfin, heD] at hchain
    have hv := irlsRun_visited (cdInner s.seeds) D Q.start
    rw [← hfin] at hv
    have hlog : s' = (irlsCd next n D Q.A s Q.start).1 := by
      rw [hs']; simp only [Prepared.path, solvePath, Prepared.solveFn]; rfl
    have hobjs : s'.objs = fin.diagnostics.map Diag.obj := by rw [hlog]; rfl
    have hnw : ∀ d ∈ fin.diagnostics, d.warned = false := by
      have e : s'.lsWarn = s.lsWarn + (fin.diagnostics.filter (·.warned)).length := by rw [hlog]; rfl
      rw [hls] at e
      have e0 : (fin.diagnostics.filter (·.warned)).length = 0 := by omega
      rw [List.length_eq_zero_iff, List.filter_eq_nil_iff] at e0
      intro d hd
      simpa using e0 d hd
    obtain ⟨l, nm, hl⟩ := visited_first _ _ _ _ hv
    obtain ⟨w, rest, hhead⟩ := visited_head _ _ _ _ hv
    have hsum := chain_sum C.eps heps l _ (by rw [← hl]; exact hchain) (fun d hd => hnw d (by rw [hl]; simp [hd])) _ rest
      (by rw [← hl]; exact hhead)
    simp only at hsum
    rw [(visited_sync _ D hP Q.start fin hv).obj, (visited_sync (cdInner s.seeds) D hP Q.start _ Visited.init).obj] at hsum
    have hi0 : (irlsInit D Q.start).coef = Q.start := rfl
    rw [hi0] at hsum
    have hrest : (rest.map fun d => |d.obj|).sum ≤ (s'.objs.map fun x => |x|).sum := by
      rw [hobjs, hhead]
      simp only [List.map_cons, List.sum_cons, List.map_map]
      have := abs_nonneg fin.obj
      change (rest.map fun d => |d.obj|).sum ≤ |fin.obj| + (rest.map fun d => |d.obj|).sum
      linarith
    rw [hDe, hK, hK] at hsum
    have hnull := guess_optimal C R h.valid _ hF.fast h.y hsw hoff g hgi b0
    have e1 : fitObjective p C.e50 C.family C.link R (penScale C.thr C.asIfScaled Q.stds) C.P1a C.P2a a l1r
        (report true C.thr Q.means Q.stds Q.start).1 (report true C.thr Q.means Q.stds Q.start).2
        ≤ fitObjective p C.e50 C.family C.link R (penScale C.thr C.asIfScaled Q.stds) C.P1a C.P2a a l1r b0 (fun _ => 0) := by
      rw [fitObjective_congr C R _ a l1r _ g _ (fun _ => 0) hrep.1 hrep.2, fitObjective_null, fitObjective_null]
      linarith
    simp only [Prepared.path, solvePath, storePath, List.map_cons, List.map_nil, List.getLast?_singleton, Option.bind_eq_bind,
      Option.bind_some, Option.some.injEq, if_true] at hst
    have hri : r.intercept = (report true C.thr Q.means Q.stds fin.coef).1 := by rw [← hst]; rfl
    have hrc : r.coef = (report true C.thr Q.means Q.stds fin.coef).2 := by rw [← hst]; rfl
    rw [hri, hrc, ← hsd]
    have hmul : 16 * C.eps * (rest.map fun d => |d.obj|).sum ≤ 16 * C.eps * (s'.objs.map fun x => |x|).sum :=
      mul_le_mul_of_nonneg_left hrest (by positivity)
    linarith

end Glum
