import Verif.Model.Diagnostics
import Verif.Props.Target
/-
C96: what the diagnostics of a fit say.
-/
set_option linter.unusedSectionVars false
set_option linter.unusedVariables false
set_option linter.unusedSimpArgs false

namespace Glum
open Spec

variable {n p : ℕ} {ic : Bool}

/-! ### The specification -/

/-- The linear predictor of a model at the column means (what the solvers use as intercept). -/
noncomputable def Spec.centre (p : ℕ) (means : ℕ → ℝ) (pt : ℝ × (ℕ → ℝ)) : ℝ := pt.1 + ∑ j : Fin p, means j * pt.2 j

/-- The records of a solve at penalty strength `a` that reported `(b0, b)`, read on the user's scale: there is one model per record,
`pts`, the last one being the reported one, and the columns describe these models. -/
structure Spec.Describes (C : FitCfg p ic) (means stds : ℕ → ℝ) (R : Rows n) (l1r a : ℝ) (rows : List DiagRow) (pts : List (ℝ × (ℕ → ℝ)))
    (b0 : ℝ) (b : ℕ → ℝ) : Prop where
  length : rows.length = pts.length
  index : rows.map (·.nIter) = List.range pts.length
  last : pts.getLast? = some (b0, b)
  /-- `objective_fct` is the documented objective up to one constant. -/
  objective : ∃ K : ℝ, ∀ (i : ℕ) row pt, rows[i]? = some row → pts[i]? = some pt →
    row.objective = fitObjective p C.e50 C.family C.link R (penScale C.thr C.asIfScaled stds) C.P1a C.P2a a l1r pt.1 pt.2 - K
  /-- `convergence` bounds how far the model is from optimal. -/
  convergence : ∀ (i : ℕ) row pt, rows[i]? = some row → pts[i]? = some pt →
    ∀ (c0 : ℝ) (c : ℕ → ℝ), (ic = false → c0 = 0) → WithinBounds p C.lb C.ub c → ∀ B : ℝ, 0 ≤ B → StdClose p ic C.thr means stds B c0 c pt.1 pt.2 →
      fitObjective p C.e50 C.family C.link R (penScale C.thr C.asIfScaled stds) C.P1a C.P2a a l1r pt.1 pt.2
        ≤ fitObjective p C.e50 C.family C.link R (penScale C.thr C.asIfScaled stds) C.P1a C.P2a a l1r c0 c + row.convergence * B
  /-- Every record but the last one is above the tolerance. -/
  running : ∀ (i : ℕ) row, rows[i]? = some row → i + 1 < rows.length → C.gradTol ≤ row.convergence
  /-- `first_coef` is the linear predictor at the column means. -/
  first : ic = true → ∀ (i : ℕ) row pt, rows[i]? = some row → pts[i]? = some pt → row.firstCoef = centre p means pt
  /-- `L1(coef)`, `L2(coef)`: norms on the standardised scale. -/
  l1 : ∀ (i : ℕ) row pt, rows[i]? = some row → pts[i]? = some pt →
    row.l1 = (if ic then |centre p means pt| else 0) + ∑ j : Fin p, colScale C.thr stds j * |pt.2 j|
  l2 : ∀ (i : ℕ) row pt, rows[i]? = some row → pts[i]? = some pt →
    row.l2 = Real.sqrt ((if ic then centre p means pt ^ 2 else 0) + ∑ j : Fin p, (colScale C.thr stds j * pt.2 j) ^ 2)
  /-- `L2(step)`: how far the iteration moved. -/
  step : ∀ (i : ℕ) row pt pt', rows[i + 1]? = some row → pts[i]? = some pt → pts[i + 1]? = some pt' →
    row.stepL2 = Real.sqrt ((if ic then (centre p means pt' - centre p means pt) ^ 2 else 0)
      + ∑ j : Fin p, (colScale C.thr stds j * (pt'.2 j - pt.2 j)) ^ 2)
  /-- `n_coef_updated`: how many coefficients the iteration changed. -/
  updated : open Classical in ∀ (i : ℕ) row pt pt', rows[i + 1]? = some row → pts[i]? = some pt → pts[i + 1]? = some pt' →
    row.nUpdated = (if ic ∧ centre p means pt' ≠ centre p means pt then 1 else 0) + (Finset.univ.filter fun j : Fin p => pt'.2 j ≠ pt.2 j).card
  /-- The first record describes the start: no step, nothing updated, no inner cycle, every column active. -/
  start : ∀ row, rows[0]? = some row → row.nUpdated = 0 ∧ row.stepL2 = 0 ∧ row.nCycles = 0 ∧ row.nActiveCols = p + ic.toNat

/-! ### Recording does not change the fit -/

theorem solvePath_diag (next : (ℕ → BitVec 32) → ℕ → (ℕ → BitVec 32)) (inner : (ℕ → BitVec 32) → (m : ℕ) → Inner m p ic) (Q : Prepared n p ic)
    (alphas : List ℝ) (s : SolverLog) (d : DiagAttr) (start : Fin (p + ic.toNat) → ℝ) :
    (solvePath (Q.solveFn (irlsSolverDiag next inner)) Q.D.P1 Q.D.P2 alphas (s, d) start).1.1
      = (solvePath (Q.solveFn (irlsSolver next inner)) Q.D.P1 Q.D.P2 alphas s start).1 ∧
    (solvePath (Q.solveFn (irlsSolverDiag next inner)) Q.D.P1 Q.D.P2 alphas (s, d) start).2
      = (solvePath (Q.solveFn (irlsSolver next inner)) Q.D.P1 Q.D.P2 alphas s start).2 := by
  induction alphas generalizing s d start with
  | nil => exact ⟨rfl, rfl⟩
  | cons a rest ih =>
    simp only [solvePath]
    obtain ⟨h1, h2⟩ := ih (Q.solveFn (irlsSolver next inner) s (fun j => Q.D.P1 j * a) (Q.D.P2.smul a) start).1
      (Q.solveFn (irlsSolverDiag next inner) (s, d) (fun j => Q.D.P1 j * a) (Q.D.P2.smul a) start).1.2
      (Q.solveFn (irlsSolver next inner) s (fun j => Q.D.P1 j * a) (Q.D.P2.smul a) start).2
    exact ⟨h1, congrArg _ h2⟩

/-- **C96, recording is passive.** The fit with recorded diagnostics is the fit of the other properties. -/
theorem c96_same_fit (next : (ℕ → BitVec 32) → ℕ → (ℕ → BitVec 32)) (inner : (ℕ → BitVec 32) → (m : ℕ) → Inner m p ic) (C : FitCfg p ic)
    (stats : Stats) (R : Rows n) (l1r : ℝ) (a : AlphaSpec) (s : SolverLog) (d : DiagAttr) :
    (glmFit C stats (irlsSolverDiag next inner) R l1r a (s, d)).map (fun x => (x.1.1, x.2)) = glmFit C stats (irlsSolver next inner) R l1r a s := by
  unfold glmFit
  split
  · rfl
  · cases setupP2 p C.xsp 1 l1r C.P2a with
    | none => rfl
    | some P2 =>
      simp only [Option.bind_eq_bind, Option.bind_some]
      split
      · rfl
      · cases prepare C stats R l1r with
        | none => rfl
        | some Q =>
          simp only [Option.bind_some]
          cases a.eval C Q with
          | none => rfl
          | some alphas =>
            simp only [Option.bind_some, Prepared.path]
            obtain ⟨h1, h2⟩ := solvePath_diag next inner Q alphas s d Q.start
            rw [h2, ← h1]
            cases storePath C.thr Q.means Q.stds alphas (solvePath (Q.solveFn (irlsSolver next inner)) Q.D.P1 Q.D.P2 alphas s Q.start).2 with
            | none => rfl
            | some r => rfl

/-! ### The records of one solve -/

theorem trace_spec (inner : Inner n p ic) (D : IRLSData n p ic) (coef0 : Fin (p + ic.toNat) → ℝ) (fuel : ℕ) (st : IRLSState n p ic)
    (hv : Visited inner D coef0 st) (hf : D.maxIter ≤ st.nIter + fuel) :
    ∃ sts : List (IRLSState n p ic), irlsTrace inner D fuel st = sts.map diagRow ∧ sts.getLast? = some (irlsLoop inner D fuel st) ∧
      sts.head? = some st ∧ (∀ x ∈ sts, Visited inner D coef0 x) ∧ sts.map (·.nIter) = List.range' st.nIter sts.length ∧
      (∀ (i : ℕ) x, sts[i]? = some x → i + 1 < sts.length → x.converged = false ∧ sts[i + 1]? = some (irlsStep inner D x)) := by
  induction fuel generalizing st with
  | zero =>
    refine ⟨[st], rfl, rfl, rfl, by simpa using hv, rfl, fun i x _ hi => ?_⟩
    simp at hi
  | succ k ih =>
    unfold irlsTrace irlsLoop
    split
    · next hc =>
      obtain ⟨sts, h1, h2, h3, h4, h5, h6⟩ := ih (irlsStep inner D st) (Visited.step st hv hc.1 hc.2) (by
        change D.maxIter ≤ st.nIter + 1 + k; omega)
      have hne : sts ≠ [] := by rintro rfl; simp at h3
      refine ⟨st :: sts, by rw [h1]; rfl, ?_, rfl, ?_, ?_, ?_⟩
      · rw [List.getLast?_cons, h2]; rfl
      · intro x hx
        rcases List.mem_cons.1 hx with rfl | hx
        · exact hv
        · exact h4 x hx
      · rw [List.map_cons, h5]; rfl
      · intro i x hx hi
        cases i with
        | zero =>
          simp only [List.getElem?_cons_zero, Option.some.injEq] at hx
          subst hx
          refine ⟨hc.2, ?_⟩
          rw [List.getElem?_cons_succ, ← List.head?_eq_getElem?]; exact h3
        | succ i =>
          rw [List.getElem?_cons_succ] at hx
          have := h6 i x hx (by simpa using hi)
          exact ⟨this.1, by rw [List.getElem?_cons_succ]; exact this.2⟩
    · refine ⟨[st], rfl, rfl, rfl, by simpa using hv, rfl, fun i x _ hi => ?_⟩
      simp at hi

theorem visited_near_optimal (inner : Inner n p ic) (C : FitCfg p ic) (stats : Stats) (R : Rows n) (l1r : ℝ) (h : ConvexFit C R l1r)
    (hs : ∀ j, 0 ≤ (stats n R.X R.sw).2 j) (Q : Prepared n p ic) (hQ : prepare C stats R l1r = some Q) (a : ℝ) (ha : 0 ≤ a)
    (start : Fin (p + ic.toNat) → ℝ) (fin : IRLSState n p ic)
    (hv : Visited inner (Q.D.withPen (fun j => Q.D.P1 j * a) (Q.D.P2.smul a)) start fin)
    (b0 : ℝ) (b : ℕ → ℝ) (hb0 : ic = false → b0 = 0) (hb : WithinBounds p C.lb C.ub b) (B : ℝ) (hB : 0 ≤ B)
    (hclose : StdClose p ic C.thr Q.means Q.stds B b0 b (report ic C.thr Q.means Q.stds fin.coef).1 (report ic C.thr Q.means Q.stds fin.coef).2) :
    fitObjective p C.e50 C.family C.link R (penScale C.thr C.asIfScaled Q.stds) C.P1a C.P2a a l1r
      (report ic C.thr Q.means Q.stds fin.coef).1 (report ic C.thr Q.means Q.stds fin.coef).2
    ≤ fitObjective p C.e50 C.family C.link R (penScale C.thr C.asIfScaled Q.stds) C.P1a C.P2a a l1r b0 b + fin.norm * B := by
  obtain ⟨P1, P2, h1, h2, hm, hst, hD, -⟩ := prepare_spec C stats R l1r Q hQ
  rw [← hst] at hs
  rw [hD, withPen_std] at hv
  set D := stdData C.thr C.asIfScaled Q.means Q.stds (C.problem R (fun j => P1 j * a) (P2.smul a)) with hDdef
  obtain ⟨⟨k, hk, hF⟩, hP, hsym, hpsd⟩ := convexFit_data C R l1r h Q.means Q.stds hs P1 P2 h1 h2 a ha
  obtain ⟨K, hK⟩ := std_objective C h.thr h.valid R h.y Q.means Q.stds hs l1r P1 P2 h1 h2 a
  obtain ⟨c', e0, e⟩ := report_bijective (ic := ic) (p := p) C.thr h.thr Q.means Q.stds hs b0 b hb0
  have hin : InBounds ic D.lb D.ub c' := by
    refine ((c18_bounds C.thr h.thr Q.means Q.stds hs C.asIfScaled (C.problem R (fun j => P1 j * a) (P2.smul a)) c').trans
      (inBounds_coefVec _ _ _)).2 fun j hj => ?_
    have := e ⟨j, hj⟩
    simp only at this
    rw [this]; exact hb j hj
  have hclose' : StdClose p ic C.thr Q.means Q.stds B (report ic C.thr Q.means Q.stds c').1 (report ic C.thr Q.means Q.stds c').2
      (report ic C.thr Q.means Q.stds fin.coef).1 (report ic C.thr Q.means Q.stds fin.coef).2 := by
    refine ⟨fun j hj => ?_, fun hi => ?_⟩
    · have := e ⟨j, hj⟩
      simp only at this
      rw [this]; exact hclose.1 j hj
    · have := hclose.2 hi
      rw [e0]
      simp only [e]
      exact this
  have key := (c35_near_optimal_builtin inner D C.family C.link k hF hk hP hsym hpsd start fin hv c' hin B
    (report_close C.thr h.thr Q.means Q.stds hs B fin.coef c' hclose') hB).1
  rw [hK, hK, fitObjective_congr C R _ a l1r _ b0 _ b e0 e] at key
  linarith

/-- The solver's vector in terms of the reported model. -/
theorem diag_feat (thr : ℝ) (ht : 0 < thr) (means stds : ℕ → ℝ) (c : Fin (p + ic.toNat) → ℝ) (j : Fin p) :
    c ⟨j.val + ic.toNat, by omega⟩ = colScale thr stds j * (report ic thr means stds c).2 j := by
  have : (report ic thr means stds c).2 j = feat ic c j * oneOverStd thr 1 (stds j) := rfl
  rw [this, mul_comm (feat ic c j), ← mul_assoc, colScale_mul_inv thr ht, one_mul, feat_eq]

theorem diag_centre (thr : ℝ) (means stds : ℕ → ℝ) (c : Fin (p + ic.toNat) → ℝ) (hi : 0 < ic.toNat) :
    c ⟨0, by omega⟩ = centre p means (report ic thr means stds c) := by
  obtain rfl : ic = true := by cases ic <;> simp at hi ⊢
  unfold centre
  simp only [report, unstandardize, outMeans, if_true]
  rw [Finset.sum_range]
  have : ∀ j : Fin p, means j * oneOverStd thr 1 (stds j) * feat true c j = means j * (feat true c j * oneOverStd thr 1 (stds j)) :=
    fun j => by ring
  simp only [this]
  unfold icpt
  rw [dif_pos (by simp)]
  ring

theorem colScale_pos (thr : ℝ) (ht : 0 < thr) (stds : ℕ → ℝ) (hs : ∀ j, 0 ≤ stds j) (j : ℕ) : 0 < colScale thr stds j := by
  have e := colScale_mul_inv thr ht stds j
  have hpos := oneOverStd_pos thr (stds j) ht (hs j)
  by_contra hn
  have := mul_nonpos_of_nonpos_of_nonneg (not_lt.1 hn) hpos.le
  linarith

theorem toNat_iff : 0 < ic.toNat ↔ ic = true := by cases ic <;> simp

theorem irlsStep_step (inner : Inner n p ic) (D : IRLSData n p ic) (st : IRLSState n p ic) (k : Fin (p + ic.toNat)) :
    (irlsStep inner D st).step k = (irlsStep inner D st).coef k - st.coef k := by
  set st1 : IRLSState n p ic := { st with hs := updateHessian ic D.X D.P2 D.hessApprox st.hs (identifyActiveSet D st) } with h1
  change (lineSearch D st1 (inner D st1).1).step k = (lineSearch D st1 (inner D st1).1).coef k - st1.coef k
  have hsp := lineSearch_spec D st1 (inner D st1).1
  rw [hsp.coef, hsp.step]
  simp [candidate]

theorem describes_of (inner : Inner n p ic) (C : FitCfg p ic) (stats : Stats) (R : Rows n) (l1r : ℝ) (h : ConvexFit C R l1r)
    (hs : ∀ j, 0 ≤ (stats n R.X R.sw).2 j) (hstep : C.stepTol = none) (Q : Prepared n p ic) (hQ : prepare C stats R l1r = some Q) (a : ℝ) (ha : 0 ≤ a)
    (start : Fin (p + ic.toNat) → ℝ) :
    let D := Q.D.withPen (fun j => Q.D.P1 j * a) (Q.D.P2.smul a)
    let fin := irlsRun inner D start
    ∃ pts, Describes C Q.means Q.stds R l1r a (irlsTrace inner D D.maxIter (irlsInit D start)) pts
      (report ic C.thr Q.means Q.stds fin.coef).1 (report ic C.thr Q.means Q.stds fin.coef).2 ∧ pts.length = fin.nIter + 1 ∧
      pts.head? = some (report ic C.thr Q.means Q.stds start) ∧
      ∃ row, (irlsTrace inner D D.maxIter (irlsInit D start)).getLast? = some row ∧ row.convergence = fin.norm ∧ row.nCycles = fin.nCycles := by
  intro D fin
  obtain ⟨P1, P2, h1, h2, hm, hst, hD, -⟩ := prepare_spec C stats R l1r Q hQ
  have hs' : ∀ j, 0 ≤ Q.stds j := by rw [hst]; exact hs
  obtain ⟨K, hK⟩ := std_objective C h.thr h.valid R h.y Q.means Q.stds hs' l1r P1 P2 h1 h2 a
  have hP := (convexFit_data C R l1r h Q.means Q.stds hs' P1 P2 h1 h2 a ha).2.1
  have hDe : D = stdData C.thr C.asIfScaled Q.means Q.stds (C.problem R (fun j => P1 j * a) (P2.smul a)) := by
    show Q.D.withPen _ _ = _
    rw [hD, withPen_std]
  rw [← hDe] at hP
  have hT : D.stepTol = none := by rw [hDe]; exact hstep
  have hG : D.gradTol = C.gradTol := by rw [hDe]; rfl
  obtain ⟨sts, t1, t2, t3, t4, t5, t6⟩ := trace_spec inner D start D.maxIter (irlsInit D start) Visited.init (by
    show D.maxIter ≤ 0 + D.maxIter; omega)
  have hget : ∀ {i : ℕ} {row}, (sts.map diagRow)[i]? = some row → ∃ x, sts[i]? = some x ∧ row = diagRow x := by
    intro i row hr
    rw [List.getElem?_map] at hr
    obtain ⟨x, hx, e⟩ := Option.map_eq_some_iff.1 hr
    exact ⟨x, hx, e.symm⟩
  have hpt : ∀ {i : ℕ} {pt}, (sts.map fun x => report ic C.thr Q.means Q.stds x.coef)[i]? = some pt →
      ∃ x, sts[i]? = some x ∧ pt = report ic C.thr Q.means Q.stds x.coef := by
    intro i row hr
    rw [List.getElem?_map] at hr
    obtain ⟨x, hx, e⟩ := Option.map_eq_some_iff.1 hr
    exact ⟨x, hx, e.symm⟩
  have hboth : ∀ {i : ℕ} {row pt}, (sts.map diagRow)[i]? = some row → (sts.map fun x => report ic C.thr Q.means Q.stds x.coef)[i]? = some pt →
      ∃ x ∈ sts, row = diagRow x ∧ pt = report ic C.thr Q.means Q.stds x.coef := by
    intro i row pt hr hp
    obtain ⟨x, hx, e⟩ := hget hr
    obtain ⟨y, hy, e'⟩ := hpt hp
    rw [hx] at hy
    obtain rfl := Option.some.inj hy
    exact ⟨x, List.mem_of_getElem? hx, e, e'⟩
  have hpair : ∀ {i : ℕ} {row pt pt'}, (sts.map diagRow)[i + 1]? = some row → (sts.map fun x => report ic C.thr Q.means Q.stds x.coef)[i]? = some pt →
      (sts.map fun x => report ic C.thr Q.means Q.stds x.coef)[i + 1]? = some pt' →
      ∃ x, row = diagRow (irlsStep inner D x) ∧ pt = report ic C.thr Q.means Q.stds x.coef ∧
        pt' = report ic C.thr Q.means Q.stds (irlsStep inner D x).coef := by
    intro i row pt pt' hr hp hp'
    obtain ⟨x, hx, e⟩ := hget hr
    obtain ⟨y, hy, e'⟩ := hpt hp
    obtain ⟨z, hz, e''⟩ := hpt hp'
    rw [hx] at hz
    obtain rfl := Option.some.inj hz
    have hlt : i + 1 < sts.length := (List.getElem?_eq_some_iff.1 hx).1
    have := (t6 i y hy hlt).2
    rw [hx] at this
    obtain rfl := Option.some.inj this
    exact ⟨y, e, e', e''⟩
  have hlen : sts.length = fin.nIter + 1 := by
    have hl : (sts.map (·.nIter)).getLast? = some fin.nIter := by rw [List.getLast?_map, t2]; rfl
    have h0 : sts.length ≠ 0 := by intro h0; rw [List.length_eq_zero_iff.1 h0] at t2; simp at t2
    rw [t5, List.getLast?_range'] at hl
    have hz : (irlsInit D start).nIter = 0 := rfl
    rw [hz, if_neg h0] at hl
    simp only [Option.some.injEq] at hl
    omega
  refine ⟨sts.map fun x => report ic C.thr Q.means Q.stds x.coef, ?_, ?_, ?_, ?_⟩
  · rw [t1]
    constructor
    · simp
    · rw [List.map_map, List.length_map]
      have : ((fun x => x.nIter) ∘ diagRow : IRLSState n p ic → ℕ) = fun x => x.nIter := rfl
      rw [this, t5, List.range_eq_range']; rfl
    · rw [List.getLast?_map, t2]; rfl
    · refine ⟨K, fun i row pt hr hp => ?_⟩
      obtain ⟨x, hx, rfl, rfl⟩ := hboth hr hp
      rw [← hK, ← hDe]
      exact (visited_sync inner D hP start x (t4 x hx)).obj
    · intro i row pt hr hp c0 c hc0 hc B hB hcl
      obtain ⟨x, hx, rfl, rfl⟩ := hboth hr hp
      exact visited_near_optimal inner C stats R l1r h hs Q hQ a ha start x (t4 x hx) c0 c hc0 hc B hB hcl
    · intro i row hr hi
      obtain ⟨x, hx, rfl⟩ := hget hr
      have hc := (t6 i x hx (by simpa using hi)).1
      have hvx := t4 x (List.mem_of_getElem? hx)
      by_contra hn
      have hn' : x.norm < D.gradTol := by rw [hG]; exact not_le.1 hn
      have hch := visited_checked _ _ _ _ hvx
      rw [Prod.ext_iff, Prod.ext_iff] at hch
      have e1 : x.converged = (checkConvergence D x.coef x.step x.score).1 := hch.1
      have e2 : x.norm = (checkConvergence D x.coef x.step x.score).2.1 := hch.2.1
      rw [e2] at hn'
      rw [e1] at hc
      simp only [checkConvergence] at hc hn'
      simp [hn'] at hc
    · intro hi i row pt hr hp
      obtain ⟨x, hx, rfl, rfl⟩ := hboth hr hp
      have hpos : 0 < ic.toNat := toNat_iff.2 hi
      rw [← diag_centre C.thr Q.means Q.stds x.coef hpos]
      show firstEntry x.coef = _
      unfold firstEntry
      rw [dif_pos (by omega)]
    · intro i row pt hr hp
      obtain ⟨x, hx, rfl, rfl⟩ := hboth hr hp
      show ∑ k, |x.coef k| = _
      rw [sum_split]
      congr 1
      · by_cases hi : 0 < ic.toNat
        · rw [dif_pos hi, if_pos (toNat_iff.1 hi), diag_centre C.thr Q.means Q.stds x.coef hi]
        · rw [dif_neg hi, if_neg fun h => hi (toNat_iff.2 h)]
      · refine Finset.sum_congr rfl fun j _ => ?_
        rw [diag_feat C.thr h.thr Q.means Q.stds x.coef j, abs_mul, abs_of_pos (colScale_pos C.thr h.thr Q.stds hs' j)]
    · intro i row pt hr hp
      obtain ⟨x, hx, rfl, rfl⟩ := hboth hr hp
      show l2Norm x.coef = _
      unfold l2Norm
      rw [sum_split]
      congr 2
      · by_cases hi : 0 < ic.toNat
        · rw [dif_pos hi, if_pos (toNat_iff.1 hi), diag_centre C.thr Q.means Q.stds x.coef hi]
        · rw [dif_neg hi, if_neg fun h => hi (toNat_iff.2 h)]
      · refine Finset.sum_congr rfl fun j _ => ?_
        rw [diag_feat C.thr h.thr Q.means Q.stds x.coef j]
    · intro i row pt pt' hr hp hp'
      obtain ⟨x, rfl, rfl, rfl⟩ := hpair hr hp hp'
      show l2Norm (irlsStep inner D x).step = _
      unfold l2Norm
      simp only [irlsStep_step]
      rw [sum_split]
      congr 2
      · by_cases hi : 0 < ic.toNat
        · rw [dif_pos hi, if_pos (toNat_iff.1 hi), diag_centre C.thr Q.means Q.stds x.coef hi,
            diag_centre C.thr Q.means Q.stds (irlsStep inner D x).coef hi]
        · rw [dif_neg hi, if_neg fun h => hi (toNat_iff.2 h)]
      · refine Finset.sum_congr rfl fun j _ => ?_
        rw [diag_feat C.thr h.thr Q.means Q.stds x.coef j, diag_feat C.thr h.thr Q.means Q.stds (irlsStep inner D x).coef j]
        ring
    · intro i row pt pt' hr hp hp'
      obtain ⟨x, rfl, rfl, rfl⟩ := hpair hr hp hp'
      have e0 : (diagRow (irlsStep inner D x)).nUpdated = (Finset.univ.filter fun k => (irlsStep inner D x).step k ≠ 0).card := by
        unfold diagRow
        simp only []
        rw [if_neg (by simp [irlsStep])]
      have e1 : (Finset.univ.filter fun k => (irlsStep inner D x).step k ≠ 0)
          = Finset.univ.filter fun k => (irlsStep inner D x).coef k ≠ x.coef k := by
        ext k
        simp only [Finset.mem_filter, irlsStep_step, sub_ne_zero]
      rw [e0, e1, Finset.card_filter, sum_split, Finset.card_filter]
      congr 1
      · by_cases hi : 0 < ic.toNat
        · rw [dif_pos hi, diag_centre C.thr Q.means Q.stds x.coef hi, diag_centre C.thr Q.means Q.stds (irlsStep inner D x).coef hi]
          simp [toNat_iff.1 hi]
        · rw [dif_neg hi, if_neg fun h => hi (toNat_iff.2 h.1)]
      · refine Finset.sum_congr rfl fun j _ => ?_
        rw [diag_feat C.thr h.thr Q.means Q.stds x.coef j, diag_feat C.thr h.thr Q.means Q.stds (irlsStep inner D x).coef j]
        have := (colScale_pos C.thr h.thr Q.stds hs' j).ne'
        simp [this]
    · intro row hr
      obtain ⟨x, hx, rfl⟩ := hget hr
      rw [← List.head?_eq_getElem?, t3] at hx
      obtain rfl := Option.some.inj hx
      refine ⟨by simp [diagRow, irlsInit], ?_, rfl, List.length_finRange⟩
      show l2Norm (fun _ : Fin (p + ic.toNat) => D.stepTol.getD 0) = 0
      simp [l2Norm, hT]
  · rw [List.length_map, hlen]
  · rw [List.head?_map, t3]; rfl
  · rw [t1]
    exact ⟨diagRow fin, by rw [List.getLast?_map, t2]; rfl, rfl, rfl⟩

/-! ### The fit -/

theorem fit_last_solve (next : (ℕ → BitVec 32) → ℕ → (ℕ → BitVec 32)) (inner : (ℕ → BitVec 32) → (m : ℕ) → Inner m p ic) (C : FitCfg p ic)
    (stats : Stats) (R : Rows n) (l1r : ℝ) (as : AlphaSpec) (s s' : SolverLog) (d d' : DiagAttr) (r : PathResult)
    (hfit : glmFit C stats (irlsSolverDiag next inner) R l1r as (s, d) = some ((s', d'), r)) :
    ∃ Q a start seeds, prepare C stats R l1r = some Q ∧ r.alphas.getLast? = some a ∧
      (let D := Q.D.withPen (fun j => Q.D.P1 j * a) (Q.D.P2.smul a)
       let fin := irlsRun (inner seeds n) D start
       d' = some (some (irlsTrace (inner seeds n) D D.maxIter (irlsInit D start))) ∧ s'.nIter = fin.nIter ∧
       s'.objs = fin.diagnostics.map Diag.obj ∧
       r.intercept = (report ic C.thr Q.means Q.stds fin.coef).1 ∧ r.coef = (report ic C.thr Q.means Q.stds fin.coef).2 ∧
       (∃ k, s.convWarn ≤ k ∧ s'.convWarn = k + (if fin.converged then 0 else 1) ∧ (∀ x, as = .single x → k = s.convWarn)) ∧
       (∃ k, s.lsWarn ≤ k ∧ s'.lsWarn = k + (fin.diagnostics.filter (·.warned)).length)) := by
  obtain ⟨Q, hQ, hal, hs', hst, -⟩ := glmFit_spec C stats (irlsSolverDiag next inner) R l1r as (s, d) (s', d') r hfit
  obtain ⟨hlen, states, hst0, hstn, hrows⟩ := c41_path (Q.solveFn (irlsSolverDiag next inner)) Q.D.P1 Q.D.P2 r.alphas (s, d) Q.start
  obtain ⟨-, l1', l2', g1, g2, -, -⟩ := c41_stored C.thr Q.means Q.stds r.alphas _ r hst
  unfold Prepared.path at *
  have hne : r.alphas ≠ [] := by
    intro h0
    rw [h0] at l1'
    simp only [solvePath, List.length_nil, List.length_eq_zero_iff] at l1'
    rw [l1'] at g1; simp at g1
  obtain ⟨m, hm⟩ : ∃ m, r.alphas.length = m + 1 := ⟨r.alphas.length - 1, by have := List.length_pos_of_ne_nil hne; omega⟩
  have hi : m < r.alphas.length := by omega
  have hi' : m < (solvePath (Q.solveFn (irlsSolverDiag next inner)) Q.D.P1 Q.D.P2 r.alphas (s, d) Q.start).2.length := by rw [hlen]; exact hi
  have hrow := hrows m hi hi'
  generalize hstart : (if h : m = 0 then Q.start
    else (solvePath (Q.solveFn (irlsSolverDiag next inner)) Q.D.P1 Q.D.P2 r.alphas (s, d) Q.start).2[m - 1]) = start at hrow
  have hlast : states (m + 1) = (s', d') := by rw [← hm, hstn]; exact hs'.symm
  rw [hlast] at hrow
  obtain ⟨e1, e2⟩ := storePath_rows C.thr Q.means Q.stds r.alphas _ r hst m hi'
  have hmono : ∀ k, k ≤ m + 1 → s.convWarn ≤ (states k).1.convWarn ∧ s.lsWarn ≤ (states k).1.lsWarn := by
    intro k
    induction k with
    | zero => intro _; rw [hst0]; exact ⟨le_rfl, le_rfl⟩
    | succ k ih =>
      intro hk
      have ih' := ih (by omega)
      have hk' : k < r.alphas.length := by omega
      have he := congrArg (fun x => (x.1.1.convWarn, x.1.1.lsWarn)) (hrows k hk' (by rw [hlen]; exact hk'))
      rw [Prod.ext_iff] at he
      refine ⟨ih'.1.trans ?_, ih'.2.trans ?_⟩
      · exact (Nat.le_add_right _ _).trans he.1.le
      · exact (Nat.le_add_right _ _).trans he.2.le
  have hlc : r.coefPath.getLast? = r.coefPath[m]? := by
    rw [List.getLast?_eq_getElem?]
    congr 1
    rw [l1', hlen, hm]; rfl
  have hli : r.interceptPath.getLast? = r.interceptPath[m]? := by
    rw [List.getLast?_eq_getElem?]
    congr 1
    rw [l2', hlen, hm]; rfl
  have hfinal := congrArg Prod.snd hrow
  have hlog := congrArg Prod.fst hrow
  simp only at hfinal hlog
  rw [← hfinal, ← hlc, g1] at e1
  rw [← hfinal, ← hli, g2] at e2
  have hlog1 : (Q.solveFn (irlsSolver next inner) (states m).1 (fun j => Q.D.P1 j * r.alphas[m]) (Pen2.smul r.alphas[m] Q.D.P2) start).1 = s' :=
    congrArg Prod.fst hlog
  have hlog2 := congrArg Prod.snd hlog
  refine ⟨Q, r.alphas[m], start, (states m).1.seeds, hQ, ?_, hlog2.symm, ?_, ?_, Option.some.inj e2, Option.some.inj e1, ?_, ?_⟩
  · rw [List.getLast?_eq_getElem?, List.getElem?_eq_some_iff]
    exact ⟨by omega, by simp only [hm]; rfl⟩
  · rw [← hlog1]; rfl
  · rw [← hlog1]; rfl
  · refine ⟨(states m).1.convWarn, (hmono m (by omega)).1, by rw [← hlog1]; rfl, fun x hx => ?_⟩
    rw [hx] at hal
    simp only [AlphaSpec.eval, Option.some.injEq] at hal
    rw [← hal] at hm
    simp only [List.length_cons, List.length_nil] at hm
    have : m = 0 := by omega
    rw [this, hst0]
  · exact ⟨(states m).1.lsWarn, (hmono m (by omega)).2, by rw [← hlog1]; rfl⟩

/-- **C96, the table.** After any fit with an IRLS solver (single alpha or path, any inner solver, start, bounds, penalties, random numbers),
`diagnostics_` describes the last solve: one row per iteration `0 … n_iter_`, each belonging to a model on the user's scale, the last one being
the reported `intercept_`, `coef_` (with the last alpha).  If the fit raised no `ConvergenceWarning` the last `convergence` is below
`gradient_tol`, and for a single alpha the converse holds. -/
theorem c96_diagnostics (next : (ℕ → BitVec 32) → ℕ → (ℕ → BitVec 32)) (inner : (ℕ → BitVec 32) → (m : ℕ) → Inner m p ic) (C : FitCfg p ic)
    (stats : Stats) (R : Rows n) (l1r : ℝ) (h : ConvexFit C R l1r) (hs : ∀ j, 0 ≤ (stats n R.X R.sw).2 j) (hstep : C.stepTol = none)
    (as : AlphaSpec) (s s' : SolverLog) (d d' : DiagAttr) (r : PathResult)
    (hfit : glmFit C stats (irlsSolverDiag next inner) R l1r as (s, d) = some ((s', d'), r)) (ha : ∀ x ∈ r.alphas, 0 ≤ x) :
    ∃ rows pts a row, d' = some (some rows) ∧ r.alphas.getLast? = some a ∧
      Describes C (stats n R.X R.sw).1 (stats n R.X R.sw).2 R l1r a rows pts r.intercept r.coef ∧ rows.length = s'.nIter + 1 ∧
      rows.getLast? = some row ∧ (s'.convWarn = s.convWarn → row.convergence < C.gradTol) ∧
      (∀ x, as = .single x → row.convergence < C.gradTol → s'.convWarn = s.convWarn) := by
  obtain ⟨Q, a, start, seeds, hQ, hla, hd, hn, -, hri, hrc, ⟨k, hk, hkw, hks⟩, -⟩ := fit_last_solve next inner C stats R l1r as s s' d d' r hfit
  have ha0 : 0 ≤ a := ha a (List.mem_of_getLast? hla)
  obtain ⟨P1, P2, h1, h2, hm, hst, hD, -⟩ := prepare_spec C stats R l1r Q hQ
  obtain ⟨pts, hdes, hlen, -, row, hrow, hrn, -⟩ := describes_of (inner seeds n) C stats R l1r h hs hstep Q hQ a ha0 start
  rw [← hri, ← hrc, hm, hst] at hdes
  have hPd := (convexFit_data C R l1r h Q.means Q.stds (by rw [hst]; exact hs) P1 P2 h1 h2 a ha0).2.1
  rw [← withPen_std, ← hD] at hPd
  have hT : (Q.D.withPen (fun j => Q.D.P1 j * a) (Pen2.smul a Q.D.P2)).stepTol = C.stepTol := by rw [hD]; rfl
  have hG : (Q.D.withPen (fun j => Q.D.P1 j * a) (Pen2.smul a Q.D.P2)).gradTol = C.gradTol := by rw [hD]; rfl
  refine ⟨_, pts, a, row, hd, hla, hdes, by rw [hdes.length, hlen, hn], hrow, fun hw => ?_, fun x hx hrl => ?_⟩
  · have hc : (irlsRun (inner seeds n) (Q.D.withPen (fun j => Q.D.P1 j * a) (Q.D.P2.smul a)) start).converged = true := by
      by_contra hn
      rw [hw, if_neg hn] at hkw
      omega
    have := converged_norm (inner seeds n) _ hPd start (hT.trans hstep) hc
    rw [hrn, ← hG]
    exact this
  · have hv := irlsRun_visited (inner seeds n) (Q.D.withPen (fun j => Q.D.P1 j * a) (Q.D.P2.smul a)) start
    have hc : (irlsRun (inner seeds n) (Q.D.withPen (fun j => Q.D.P1 j * a) (Q.D.P2.smul a)) start).converged = true := by
      have hch := visited_checked _ _ _ _ hv
      rw [Prod.ext_iff, Prod.ext_iff] at hch
      rw [hrn, ← hG] at hrl
      have e2 := hch.2.1
      simp only [checkConvergence] at e2 hch
      rw [hch.1]
      simp only [Bool.or_eq_true, decide_eq_true_eq]
      left
      rw [← e2]; exact hrl
    rw [hkw, if_pos hc, hks x hx]; rfl

theorem trace_diag (inner : Inner n p ic) (D : IRLSData n p ic) (fuel : ℕ) (st : IRLSState n p ic)
    (hh : st.diagnostics.head?.map (fun d => (d.nIter, d.norm, d.obj)) = some (st.nIter, st.norm, st.obj)) :
    (irlsLoop inner D fuel st).diagnostics.reverse.map (fun d => (d.nIter, d.norm, d.obj))
      = st.diagnostics.tail.reverse.map (fun d => (d.nIter, d.norm, d.obj))
        ++ (irlsTrace inner D fuel st).map fun row => (row.nIter, row.convergence, row.objective) := by
  have hbase : ∀ st : IRLSState n p ic, st.diagnostics.head?.map (fun d => (d.nIter, d.norm, d.obj)) = some (st.nIter, st.norm, st.obj) →
      st.diagnostics.reverse.map (fun d => (d.nIter, d.norm, d.obj))
        = st.diagnostics.tail.reverse.map (fun d => (d.nIter, d.norm, d.obj)) ++ [(st.nIter, st.norm, st.obj)] := by
    intro st hh
    cases hd : st.diagnostics with
    | nil => rw [hd] at hh; simp at hh
    | cons x xs =>
      rw [hd] at hh
      simp only [List.head?_cons, Option.map_some, Option.some.injEq] at hh
      simp [hh]
  induction fuel generalizing st with
  | zero => exact hbase st hh
  | succ k ih =>
    unfold irlsLoop irlsTrace
    split
    · rw [ih (irlsStep inner D st) (by rfl)]
      have : (irlsStep inner D st).diagnostics.tail = st.diagnostics := rfl
      rw [this, hbase st hh, List.append_assoc]
      rfl
    · exact hbase st hh

/-- **C96, the objective falls.** Solver `irls-cd` without bounds: if the fit raised no line-search warning, every row of `diagnostics_` has an
`objective_fct` at most `16 eps` (relative) above the row before. -/
theorem c96_objective_falls (next : (ℕ → BitVec 32) → ℕ → (ℕ → BitVec 32)) (C : FitCfg p ic)
    (stats : Stats) (R : Rows n) (l1r : ℝ) (h : ConvexFit C R l1r) (hs : ∀ j, 0 ≤ (stats n R.X R.sw).2 j) (heps : 0 ≤ C.eps)
    (hlb : C.lb = none) (hub : C.ub = none) (as : AlphaSpec) (s s' : SolverLog) (d d' : DiagAttr) (r : PathResult)
    (hfit : glmFit C stats (irlsSolverDiag next fun seeds _ => cdInner seeds) R l1r as (s, d) = some ((s', d'), r)) (ha : ∀ x ∈ r.alphas, 0 ≤ x)
    (hls : s'.lsWarn = s.lsWarn) :
    ∃ rows, d' = some (some rows) ∧ ∀ (i : ℕ) x y, rows[i]? = some x → rows[i + 1]? = some y →
      y.objective ≤ x.objective + 16 * C.eps * |x.objective| := by
  obtain ⟨Q, a, start, seeds, hQ, hla, hd, hn, -, hri, hrc, -, ⟨k, hk, hkw⟩⟩ :=
    fit_last_solve next (fun seeds _ => cdInner seeds) C stats R l1r as s s' d d' r hfit
  have ha0 : 0 ≤ a := ha a (List.mem_of_getLast? hla)
  obtain ⟨P1, P2, h1, h2, hm, hst, hD, -⟩ := prepare_spec C stats R l1r Q hQ
  refine ⟨_, hd, ?_⟩
  obtain ⟨⟨kf, hkf, hF⟩, hP, hsym, hpsd⟩ := convexFit_data C R l1r h Q.means Q.stds (by rw [hst]; exact hs) P1 P2 h1 h2 a ha0
  rw [← withPen_std, ← hD] at hF hP hsym hpsd
  generalize hDe : Q.D.withPen (fun j => Q.D.P1 j * a) (Pen2.smul a Q.D.P2) = D at *
  have hl : D.lb = none := by rw [← hDe, hD]; show C.lb.map _ = none; rw [hlb]; rfl
  have hu : D.ub = none := by rw [← hDe, hD]; show C.ub.map _ = none; rw [hub]; rfl
  have heD : D.eps = C.eps := by rw [← hDe, hD]; rfl
  have hchain := c31_cd_monotone_builtin seeds D C.family C.link kf hF hP hsym hpsd (by rw [heD]; exact heps)
    (by intro l u hl'; rw [hl] at hl'; cases hl') start (by unfold InBounds; rw [hl, hu]; simp)
  rw [heD] at hchain
  have hnw : ∀ x ∈ (irlsRun (cdInner seeds) D start).diagnostics, x.warned = false := by
    have e0 : ((irlsRun (cdInner seeds) D start).diagnostics.filter (·.warned)).length = 0 := by omega
    rw [List.length_eq_zero_iff, List.filter_eq_nil_iff] at e0
    intro x hx
    simpa using e0 x hx
  have htr := trace_diag (cdInner seeds) D D.maxIter (irlsInit D start) rfl
  have hnil : (irlsInit D start).diagnostics.tail = [] := rfl
  rw [hnil] at htr
  simp only [List.reverse_nil, List.map_nil, List.nil_append] at htr
  change (irlsRun (cdInner seeds) D start).diagnostics.reverse.map _ = _ at htr
  generalize (irlsRun (cdInner seeds) D start).diagnostics = l at hchain hnw htr
  generalize irlsTrace (cdInner seeds) D D.maxIter (irlsInit D start) = rows at htr
  intro i x y hx hy
  have hx' := congrArg (fun t => t[i]?) htr
  have hy' := congrArg (fun t => t[i + 1]?) htr
  simp only [List.getElem?_map, hx, hy, Option.map_some] at hx' hy'
  obtain ⟨dx, hdx, ex⟩ := Option.map_eq_some_iff.1 hx'
  obtain ⟨dy, hdy, ey⟩ := Option.map_eq_some_iff.1 hy'
  rw [Prod.ext_iff, Prod.ext_iff] at ex ey
  have ox : dx.obj = x.objective := ex.2.2
  have oy : dy.obj = y.objective := ey.2.2
  have hlt : i + 1 < l.length := by
    have := (List.getElem?_eq_some_iff.1 hdy).1
    simpa using this
  rw [List.getElem?_reverse (by omega)] at hdx
  rw [List.getElem?_reverse hlt] at hdy
  have hj : l.length - 1 - i = (l.length - 1 - (i + 1)) + 1 := by omega
  rw [hj] at hdx
  obtain ⟨hlt2, hdx⟩ := List.getElem?_eq_some_iff.1 hdx
  obtain ⟨hlt3, hdy⟩ := List.getElem?_eq_some_iff.1 hdy
  have := List.isChain_iff_getElem.1 hchain (l.length - 1 - (i + 1)) hlt2
  rw [hdx, hdy] at this
  rw [← ox, ← oy]
  exact this (hnw dy (by rw [← hdy]; exact List.getElem_mem _))

/-! ### The report -/

/-- **C96, the report.** `get_formatted_diagnostics`: a text exactly if the model was not fitted or its solver does not report; otherwise it raises
exactly if an unknown column is asked for, and gives the asked columns in the asked order over the recorded rows. -/
theorem c96_report (fitIntercept : Bool) (other : String → ℕ → Option ℝ) (d : DiagAttr) (full : Bool) (custom : Option (List String)) :
    (formattedDiagnostics fitIntercept other d full custom = some .notFitted ↔ d = none) ∧
    (formattedDiagnostics fitIntercept other d full custom = some .notReported ↔ d = some none) ∧
    (formattedDiagnostics fitIntercept other d full custom = none ↔ (∃ rows, d = some (some rows)) ∧ ∃ l, custom = some l ∧ ∃ c ∈ l, c ∉ diagColumns) ∧
    ∀ index cols, formattedDiagnostics fitIntercept other d full custom = some (.table index cols) →
      ∃ rows, d = some (some rows) ∧ index = rows.map (·.nIter) ∧
        (∀ l, custom = some l → cols.map Prod.fst = l) ∧
        (custom = none → full = false → cols.map Prod.fst = ["convergence", "n_cycles", "iteration_runtime", "intercept"]) ∧
        (custom = none → full = true → cols.map Prod.fst = diagColumns) ∧
        ∀ c v, (c, v) ∈ cols → v.length = rows.length ∧ ∀ (i : ℕ) row, rows[i]? = some row →
          (c = "convergence" → v[i]? = some (some row.convergence)) ∧ (c = "objective_fct" → v[i]? = some (some row.objective)) ∧
          (c = "n_cycles" → v[i]? = some (some (row.nCycles : ℝ))) ∧
          (c = "L1(coef)" → v[i]? = some (some row.l1)) ∧ (c = "L2(coef)" → v[i]? = some (some row.l2)) ∧
          (c = "L2(step)" → v[i]? = some (some row.stepL2)) ∧ (c = "first_coef" → v[i]? = some (some row.firstCoef)) ∧
          (c = "n_coef_updated" → v[i]? = some (some (row.nUpdated : ℝ))) ∧ (c = "n_active_cols" → v[i]? = some (some (row.nActiveCols : ℝ))) ∧
          (c = "intercept" → v[i]? = some (if fitIntercept then some row.firstCoef else none)) := by
  cases d with
  | none => simp [formattedDiagnostics]
  | some o =>
    cases o with
    | none => simp [formattedDiagnostics]
    | some rows =>
      have hdef : ∀ c ∈ ["convergence", "n_cycles", "iteration_runtime", "intercept"], c ∈ diagColumns := by decide
      have hcell : ∀ (keep : List String) c v,
          (c, v) ∈ (keep.map fun c => (c, rows.map fun row => diagCell fitIntercept other row c)) →
          v.length = rows.length ∧ ∀ (i : ℕ) row, rows[i]? = some row →
          (c = "convergence" → v[i]? = some (some row.convergence)) ∧ (c = "objective_fct" → v[i]? = some (some row.objective)) ∧
          (c = "n_cycles" → v[i]? = some (some (row.nCycles : ℝ))) ∧
          (c = "L1(coef)" → v[i]? = some (some row.l1)) ∧ (c = "L2(coef)" → v[i]? = some (some row.l2)) ∧
          (c = "L2(step)" → v[i]? = some (some row.stepL2)) ∧ (c = "first_coef" → v[i]? = some (some row.firstCoef)) ∧
          (c = "n_coef_updated" → v[i]? = some (some (row.nUpdated : ℝ))) ∧ (c = "n_active_cols" → v[i]? = some (some (row.nActiveCols : ℝ))) ∧
          (c = "intercept" → v[i]? = some (if fitIntercept then some row.firstCoef else none)) := by
        intro keep c v hcv
        obtain ⟨c', -, e⟩ := List.mem_map.1 hcv
        rw [Prod.ext_iff] at e
        obtain ⟨rfl, rfl⟩ := e
        refine ⟨by simp, fun i row hr => ?_⟩
        simp only [List.getElem?_map, hr, Option.map_some, Option.some.injEq]
        refine ⟨?_, ?_, ?_, ?_, ?_, ?_, ?_, ?_, ?_, ?_⟩ <;> (intro hc; rw [hc]; simp [diagCell])
      have hfst : ∀ keep : List String, (keep.map fun c => (c, rows.map fun row => diagCell fitIntercept other row c)).map Prod.fst = keep := by
        intro keep; rw [List.map_map]; simp [Function.comp_def]
      unfold formattedDiagnostics
      simp only []
      cases custom with
      | some l =>
        simp only []
        by_cases hk : ∀ c ∈ l, c ∈ diagColumns
        · rw [if_pos hk]
          refine ⟨by simp, by simp, by simpa using hk, fun index cols e => ?_⟩
          simp only [Option.some.injEq, DiagShown.table.injEq] at e
          obtain ⟨rfl, rfl⟩ := e
          exact ⟨rows, rfl, rfl, fun l' hl' => by rw [hfst]; exact Option.some.inj hl', by simp, by simp, hcell l⟩
        · rw [if_neg hk]
          push Not at hk
          simpa using hk
      | none =>
        simp only []
        cases full with
        | true =>
          simp only [if_true]
          rw [if_pos (fun c hc => hc)]
          refine ⟨by simp, by simp, by simp, fun index cols e => ?_⟩
          simp only [Option.some.injEq, DiagShown.table.injEq] at e
          obtain ⟨rfl, rfl⟩ := e
          exact ⟨rows, rfl, rfl, by simp, by simp, fun _ _ => hfst _, hcell diagColumns⟩
        | false =>
          simp only [Bool.false_eq_true, if_false]
          rw [if_pos hdef]
          refine ⟨by simp, by simp, by simp, fun index cols e => ?_⟩
          simp only [Option.some.injEq, DiagShown.table.injEq] at e
          obtain ⟨rfl, rfl⟩ := e
          exact ⟨rows, rfl, rfl, by simp, fun _ _ => hfst _, by simp, hcell _⟩

/-- **C96, the column `intercept`.** With an intercept the last entry of the default report's `intercept` column is the linear predictor at the
column means, `intercept_ + Σ col_means_j * coef_j`: not `intercept_` itself unless that sum is zero. -/
theorem c96_intercept_column (next : (ℕ → BitVec 32) → ℕ → (ℕ → BitVec 32)) (inner : (ℕ → BitVec 32) → (m : ℕ) → Inner m p true) (C : FitCfg p true)
    (stats : Stats) (R : Rows n) (l1r : ℝ) (h : ConvexFit C R l1r) (hs : ∀ j, 0 ≤ (stats n R.X R.sw).2 j) (hstep : C.stepTol = none)
    (as : AlphaSpec) (s s' : SolverLog) (d d' : DiagAttr) (r : PathResult)
    (hfit : glmFit C stats (irlsSolverDiag next inner) R l1r as (s, d) = some ((s', d'), r)) (ha : ∀ x ∈ r.alphas, 0 ≤ x)
    (other : String → ℕ → Option ℝ) :
    ∃ conv cycles times col, formattedDiagnostics true other d' false none = some (.table (List.range (s'.nIter + 1))
        [("convergence", conv), ("n_cycles", cycles), ("iteration_runtime", times), ("intercept", col)]) ∧
      col.getLast? = some (some (r.intercept + ∑ j : Fin p, (stats n R.X R.sw).1 j * r.coef j)) := by
  obtain ⟨rows, pts, a, row, rfl, hla, hdes, hlen, hrow, -, -⟩ := c96_diagnostics next inner C stats R l1r h hs hstep as s s' d d' r hfit ha
  refine ⟨rows.map fun row => diagCell true other row "convergence", rows.map fun row => diagCell true other row "n_cycles",
    rows.map fun row => diagCell true other row "iteration_runtime", rows.map fun row => diagCell true other row "intercept", ?_, ?_⟩
  · unfold formattedDiagnostics
    simp only [Bool.false_eq_true, if_false]
    rw [if_pos (by decide), hdes.index, ← hdes.length, hlen]
    rfl
  · rw [List.getLast?_map, hrow, Option.map_some]
    have e : diagCell true other row "intercept" = some row.firstCoef := by simp [diagCell]
    rw [e]
    have hr : rows[rows.length - 1]? = some row := by rw [← List.getLast?_eq_getElem?]; exact hrow
    have hp : pts[rows.length - 1]? = some (r.intercept, r.coef) := by rw [hdes.length, ← List.getLast?_eq_getElem?]; exact hdes.last
    rw [hdes.first rfl _ _ _ hr hp]
    rfl

/-! ### Examples -/

/-- The hypotheses are met: ridge regression on two rows with any tolerance; the diagnostics end below the tolerance. -/
example (next : (ℕ → BitVec 32) → ℕ → (ℕ → BitVec 32)) (s : SolverLog) (g : ℝ) (hg : 0 < g) :
    ∃ t rows r row, glmFit (({ tinyCfg 5 5 with gradTol := g } : FitCfg 1 true).forSolver .irlsLs) tinyStats
        (irlsSolverDiag next fun _ _ => lsInner invSolve) tinyRows 0 (.single 1) (s, none) = some ((t, some (some rows)), r) ∧
      rows.getLast? = some row ∧ row.convergence < g := by
  obtain ⟨t, r, hr, hw, hal, -⟩ := tiny_ls_gen next s g hg 1 le_rfl
  rw [← c96_same_fit next (fun _ _ => lsInner invSolve) _ tinyStats tinyRows 0 (.single 1) s none] at hr
  obtain ⟨⟨⟨t', d'⟩, r'⟩, hfit, e⟩ := Option.map_eq_some_iff.1 hr
  simp only [Prod.mk.injEq] at e
  obtain ⟨rfl, rfl⟩ := e
  have hcv := tiny_convex 5 5
  obtain ⟨rows, pts, a, row, rfl, -, -, -, hrow, h2, -⟩ := c96_diagnostics next (fun _ _ => lsInner invSolve)
    (({ tinyCfg 5 5 with gradTol := g } : FitCfg 1 true).forSolver .irlsLs) tinyStats tinyRows 0
    ⟨hcv.thr, hcv.valid, hcv.pair, hcv.y, hcv.sw, hcv.p1, hcv.p2, hcv.l1⟩ (fun _ => zero_le_one) rfl (.single 1) s t' none d' r' hfit (by rw [hal]; simp)
  exact ⟨t', rows, r', row, hfit, hrow, h2 hw⟩

/-- Two rows with `x = 2, 0` (mean 1), started at intercept 1 and slope 1 with `max_iter = 0`. -/
noncomputable def shiftedCfg : FitCfg 1 true := { tinyCfg 0 5 with start := .given fun _ => 1 }

noncomputable def shiftedRows : Rows 2 := { tinyRows with X := fun i _ => if i = 0 then 2 else 0 }

def shiftedStats : Stats := fun _ _ _ => (fun _ => 1, fun _ => 1)

/-- The column `intercept` shows 2 although `intercept_` is 1. -/
example (next : (ℕ → BitVec 32) → ℕ → (ℕ → BitVec 32)) (s : SolverLog) (other : String → ℕ → Option ℝ) :
    ∃ t d r, glmFit shiftedCfg shiftedStats (irlsSolverDiag next fun seeds _ => cdInner seeds) shiftedRows 0 (.single 1) (s, none) = some ((t, d), r) ∧
      r.intercept = 1 ∧ ∃ conv cycles times col, formattedDiagnostics true other d false none = some (.table [0]
        [("convergence", conv), ("n_cycles", cycles), ("iteration_runtime", times), ("intercept", col)]) ∧ col.getLast? = some (some 2) := by
  obtain ⟨Q, hQ⟩ : ∃ Q, prepare shiftedCfg shiftedStats shiftedRows 0 = some Q := ⟨_, rfl⟩
  obtain ⟨r, hr, hri, hrc⟩ := glmFit_single shiftedCfg shiftedStats (irlsSolverDiag next fun seeds _ => cdInner seeds) shiftedRows 0 1 (s, none) Q hQ
    (by rintro ⟨l, u, h, -⟩; cases h) (fun _ => rfl)
  have hcv := tiny_convex 0 5
  have hQe : Q = (prepare shiftedCfg shiftedStats shiftedRows 0).get (by rw [hQ]; rfl) := by simp [hQ]
  have hst : Q.start = getStartCoef true shiftedCfg.thr (fun _ => 1) (fun _ => 1) 0 none none (.given fun _ => 1) := by rw [hQe]; rfl
  have hmi : Q.D.maxIter = 0 := by rw [hQe]; rfl
  have hmean : Q.means = fun _ => 1 := by rw [hQe]; rfl
  have hstd : Q.stds = fun _ => 1 := by rw [hQe]; rfl
  have hout : (irlsSolverDiag next (fun seeds _ => cdInner seeds) 2 (Q.D.withPen (fun j => Q.D.P1 j * 1) (Q.D.P2.smul 1)) Q.A (s, none) Q.start).2 = Q.start := by
    show (irlsLoop _ _ Q.D.maxIter _).coef = _
    rw [hmi]; rfl
  have hth : oneOverStd (1 / 10 ^ 6) 1 1 = 1 := by unfold oneOverStd; split <;> norm_num
  have hthr : shiftedCfg.thr = 1 / 10 ^ 6 := rfl
  have hrep : report true shiftedCfg.thr Q.means Q.stds Q.start = (1, fun j => if j = 0 then 1 else 0) := by
    rw [hst, hmean, hstd, hthr]
    have h0 : getStartCoef (p := 1) true (1 / 10 ^ 6) (fun _ => 1) (fun _ => 1) 0 none none (.given fun _ => 1) ⟨0, by simp⟩ = 2 := by
      have hth' : oneOverStd (1 / 1000000) 1 1 = 1 := by unfold oneOverStd; split <;> norm_num
      simp [getStartCoef, clipStart, rawStart, standardizeWarmStart]
      norm_num [hth']
    have h1 : getStartCoef (p := 1) true (1 / 10 ^ 6) (fun _ => 1) (fun _ => 1) 0 none none (.given fun _ => 1) ⟨1, by simp⟩ = 1 := by
      simp [getStartCoef, clipStart, rawStart, standardizeWarmStart]
    generalize getStartCoef (p := 1) true (1 / 10 ^ 6) (fun _ => 1) (fun _ => 1) 0 none none (.given fun _ => 1) = v at h0 h1
    have hf0 : feat true v 0 = 1 := by unfold feat; rw [dif_pos (by simp)]; exact h1
    have hi : icpt true v = 2 := by unfold icpt; rw [dif_pos (by simp)]; exact h0
    unfold report unstandardize outMeans
    simp only [if_true, Finset.sum_range_one, hf0, hi, hth]
    refine Prod.ext (by norm_num) (funext fun j => ?_)
    by_cases hj : j = 0
    · subst hj; simp [hf0]
    · simp only [hj, if_false]
      unfold feat
      rw [dif_neg (by simp; omega)]
      simp
  rw [hout, hrep] at hri hrc
  have hcol := c96_intercept_column next (fun seeds _ => cdInner seeds) shiftedCfg shiftedStats shiftedRows 0
    ⟨hcv.thr, hcv.valid, hcv.pair, hcv.y, hcv.sw, hcv.p1, hcv.p2, hcv.l1⟩ (fun _ => zero_le_one) rfl (.single 1) s _ none _ r hr
    (by
      obtain ⟨Q, -, hal, -⟩ := glmFit_spec _ _ _ _ _ _ _ _ _ hr
      simp only [AlphaSpec.eval, Option.some.injEq] at hal
      rw [← hal]; simp) other
  refine ⟨_, _, r, hr, hri, ?_⟩
  obtain ⟨conv, cycles, times, col, e1, e2⟩ := hcol
  refine ⟨conv, cycles, times, col, ?_, ?_⟩
  · rw [e1]
    have : (irlsSolverDiag next (fun seeds _ => cdInner seeds) 2 (Q.D.withPen (fun j => Q.D.P1 j * 1) (Q.D.P2.smul 1)) Q.A (s, none) Q.start).1.1.nIter = 0 := by
      show (irlsLoop _ _ Q.D.maxIter _).nIter = _
      rw [hmi]; rfl
    change some (DiagShown.table (List.range ((irlsSolverDiag next (fun seeds _ => cdInner seeds) 2
      (Q.D.withPen (fun j => Q.D.P1 j * 1) (Q.D.P2.smul 1)) Q.A (s, none) Q.start).1.1.nIter + 1)) _) = _
    rw [this]; rfl
  · rw [e2, hri, hrc]
    simp [shiftedStats]
    norm_num

end Glum
