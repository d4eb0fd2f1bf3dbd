import Mathlib.Analysis.Convex.Deriv
import Mathlib.Analysis.Calculus.Deriv.Pow
import Mathlib.Analysis.Calculus.Deriv.Mul
import Mathlib.Analysis.Calculus.Deriv.Add
import Verif.Lemmas.IRLS
/-
C19, C29–C35, C66: the outer IRLS loop.
-/
set_option linter.unusedSectionVars false
set_option linter.unusedVariables false

namespace Glum
open Spec

variable {n p : ℕ} {ic : Bool}

/-- The states the outer loop passes through, from the initial one to the one it stops in. -/
inductive Visited (inner : Inner n p ic) (D : IRLSData n p ic) (coef0 : Fin (p + ic.toNat) → ℝ) :
    IRLSState n p ic → Prop
  | init : Visited inner D coef0 (irlsInit D coef0)
  | step (st : IRLSState n p ic) : Visited inner D coef0 st → st.nIter < D.maxIter → st.converged = false →
      Visited inner D coef0 (irlsStep inner D st)

theorem irlsRun_visited (inner : Inner n p ic) (D : IRLSData n p ic) (coef0 : Fin (p + ic.toNat) → ℝ) :
    Visited inner D coef0 (irlsRun inner D coef0) :=
  irlsLoop_induct inner D _ (fun st hc hn hv => Visited.step st hv hn hc) _ _ Visited.init

/-! ### C29 -/

theorem visited_sync (inner : Inner n p ic) (D : IRLSData n p ic) (hP : ∀ k, 0 ≤ D.P1 k)
    (coef0 : Fin (p + ic.toNat) → ℝ) (st : IRLSState n p ic) (h : Visited inner D coef0 st) : Sync D st := by
  induction h with
  | init => exact irlsInit_sync D hP coef0
  | step st _ _ _ ih => exact irlsStep_sync inner D hP st ih

/-- **C29.** In every state the outer loop passes through, for every inner solver whatsoever (so for every history of directions
and accepted step factors), the incrementally maintained linear predictor, mean, objective value, score and row
curvatures are those of the current coefficients. -/
theorem c29_state_in_sync (inner : Inner n p ic) (D : IRLSData n p ic) (hP : ∀ k, 0 ≤ D.P1 k)
    (coef0 : Fin (p + ic.toNat) → ℝ) (st : IRLSState n p ic) (h : Visited inner D coef0 st) :
    (∀ r, st.eta r = linPred ic D.X (off D) st.coef r) ∧
    (∀ r, st.mu r = D.fam.inv (linPred ic D.X (off D) st.coef r)) ∧
    st.obj = objective D st.coef ∧
    (∀ k, st.score k = scoreAt D st.coef k) ∧
    (∀ r, st.hs.rows r = D.fam.hess (D.y r) (D.sw r) (linPred ic D.X (off D) st.coef r)
      (D.fam.inv (linPred ic D.X (off D) st.coef r))) := by
  have hs := visited_sync inner D hP coef0 st h
  refine ⟨hs.eta, fun r => by rw [hs.mu, hs.eta], hs.obj, hs.score, fun r => by rw [hs.rows, hs.mu, hs.eta]⟩

/-! ### C30 -/

/-- **C30.** From any state of any run, for any direction `d`, the line search returns the *first* acceptable point among
`w + d, w + d/2, …, w + d/2^19`, everything it returns belongs to that point, and it warns iff none of the 20 is
acceptable, in which case the last one is returned. -/
theorem c30_line_search (inner : Inner n p ic) (D : IRLSData n p ic) (hP : ∀ k, 0 ≤ D.P1 k)
    (coef0 : Fin (p + ic.toNat) → ℝ) (st : IRLSState n p ic) (h : Visited inner D coef0 st)
    (d : Fin (p + ic.toNat) → ℝ) :
    let r := lineSearch D st d
    ∃ j < 20, r.coef = candidate st.coef d j ∧ (∀ k, r.step k = r.coef k - st.coef k) ∧
      (∀ i, r.eta i = linPred ic D.X (off D) r.coef i) ∧
      (∀ i, r.mu i = D.fam.inv (linPred ic D.X (off D) r.coef i)) ∧
      r.obj = objective D r.coef ∧
      (∀ i < j, ¬ Acceptable D st.coef d i) ∧
      (r.warned = false ↔ Acceptable D st.coef d j) ∧ (r.warned = true → j = 19) := by
  intro r
  have hs := visited_sync inner D hP coef0 st h
  have hsp := lineSearch_spec D st d
  have hsy := lineSearch_sync D hP st hs.eta d
  have hiff := lsOK_iff D hP st hs.eta hs.obj hs.score d
  refine ⟨r.k, hsp.k, hsp.coef, ?_, hsy.1, fun i => by rw [hsy.2.1, hsy.1], hsy.2.2.1, ?_, ?_, hsp.warnedIff⟩
  · intro k
    change (lineSearch D st d).step k = (lineSearch D st d).coef k - st.coef k
    rw [hsp.coef, hsp.step]; ring
  · intro i hi
    rw [← hiff]; exact hsp.prev i (Nat.zero_le _) hi
  · rw [← hiff]; exact hsp.accept

/-! ### C19 -/

theorem inBounds_candidate (lb ub : Option (ℕ → ℝ)) (w d : Fin (p + ic.toNat) → ℝ)
    (h0 : InBounds ic lb ub w) (h1 : InBounds ic lb ub fun k => w k + d k) (j : ℕ) :
    InBounds ic lb ub fun k => w k + (1 / 2) ^ j * d k := by
  intro i k hk
  have hf0 : (0 : ℝ) ≤ (1 / 2) ^ j := by positivity
  have hf1 : ((1 : ℝ) / 2) ^ j ≤ 1 := pow_le_one₀ (by norm_num) (by norm_num)
  obtain ⟨a1, a2⟩ := h0 i k hk
  obtain ⟨b1, b2⟩ := h1 i k hk
  constructor
  · intro l hl
    have := a1 l hl; have := b1 l hl
    nlinarith
  · intro u hu
    have := a2 u hu; have := b2 u hu
    nlinarith

theorem inner_cd_bounds (seeds : ℕ → BitVec 32) (D : IRLSData n p ic) (hb : BoundsOrdered D.lb D.ub)
    (st : IRLSState n p ic) (h : InBounds ic D.lb D.ub st.coef) :
    InBounds ic D.lb D.ub fun k => st.coef k + (cdInner seeds D st).1 k := by
  have := c19_cd_in_bounds (cdArgs D st) hb st.coef (fun k => -st.score k) (seeds st.nIter) h
  have e : (fun k => st.coef k + (cdInner seeds D st).1 k)
      = ((cdArgs D st).run st.coef (fun k => -st.score k) (seeds st.nIter)).w := by
    funext k; simp [cdInner]
  rw [e]; exact this

/-- **C19.** With the coordinate-descent solver, starting from a coefficient vector within the bounds, every state the outer loop
passes through (so in particular the returned one, after any number of iterations, step halvings and coordinate
schedules, for any family, penalty and data) is within the bounds. -/
theorem c19_irls_in_bounds (seeds : ℕ → BitVec 32) (D : IRLSData n p ic) (hb : BoundsOrdered D.lb D.ub)
    (coef0 : Fin (p + ic.toNat) → ℝ) (h0 : InBounds ic D.lb D.ub coef0) (st : IRLSState n p ic)
    (h : Visited (cdInner seeds) D coef0 st) : InBounds ic D.lb D.ub st.coef := by
  induction h with
  | init => exact h0
  | step st _ _ _ ih =>
    have hsp := lineSearch_spec D { st with hs := updateHessian ic D.X D.P2 D.hessApprox st.hs (identifyActiveSet D st) }
      (cdInner seeds D { st with hs := updateHessian ic D.X D.P2 D.hessApprox st.hs (identifyActiveSet D st) }).1
    change InBounds ic D.lb D.ub (lineSearch D { st with hs := updateHessian ic D.X D.P2 D.hessApprox st.hs (identifyActiveSet D st) }
      (cdInner seeds D { st with hs := updateHessian ic D.X D.P2 D.hessApprox st.hs (identifyActiveSet D st) }).1).coef
    rw [hsp.coef]
    exact inBounds_candidate _ _ _ _ ih (inner_cd_bounds seeds D hb
      { st with hs := updateHessian ic D.X D.P2 D.hessApprox st.hs (identifyActiveSet D st) } ih) _

/-- **C19 for the fit result.** -/
theorem c19_run_in_bounds (seeds : ℕ → BitVec 32) (D : IRLSData n p ic) (hb : BoundsOrdered D.lb D.ub)
    (coef0 : Fin (p + ic.toNat) → ℝ) (h0 : InBounds ic D.lb D.ub coef0) :
    InBounds ic D.lb D.ub (irlsRun (cdInner seeds) D coef0).coef :=
  c19_irls_in_bounds seeds D hb coef0 h0 _ (irlsRun_visited _ D coef0)

/-! ### C31 -/

theorem visited_hessOK (inner : Inner n p ic) (D : IRLSData n p ic) (hD : Convexish D)
    (coef0 : Fin (p + ic.toNat) → ℝ) (st : IRLSState n p ic) (h : Visited inner D coef0 st) : HessOK D st.hs := by
  have rowsOK : ∀ st, Visited inner D coef0 st → ∀ r, 0 ≤ st.hs.rows r := fun st h r => by
    rw [(c29_state_in_sync inner D hD.P1 coef0 st h).2.2.2.2 r]; exact hD.rows r _
  induction h with
  | init => exact ⟨fun h => by simp [irlsInit, hessInit] at h, rowsOK _ Visited.init, fun _ => le_rfl⟩
  | step st hv hn hc ih =>
    refine ⟨?_, rowsOK _ (Visited.step st hv hn hc), ih.update _⟩
    exact hessIter_inv ic D.X D.P2 D.hessApprox st.hs ih.inv _ (activeSet_ok D st) _

/-- One step: if the direction has non-positive predicted change and the line search does not warn, the objective rises by at
most `16 eps |objective|`. -/
theorem step_monotone (inner : Inner n p ic) (D : IRLSData n p ic) (hP : ∀ k, 0 ≤ D.P1 k) (he : 0 ≤ D.eps)
    (coef0 : Fin (p + ic.toNat) → ℝ) (st : IRLSState n p ic) (h : Visited inner D coef0 st)
    (hd : predictedChange D st.coef
      (inner D { st with hs := updateHessian ic D.X D.P2 D.hessApprox st.hs (identifyActiveSet D st) }).1 ≤ 0) :
    let st' := irlsStep inner D st
    (∃ w rest, st'.diagnostics = ⟨st.nIter + 1, st'.norm, st'.obj, w⟩ :: rest ∧
      (w = false → objective D st'.coef ≤ objective D st.coef + 16 * D.eps * |objective D st.coef|)) := by
  intro st'
  set st1 : IRLSState n p ic := { st with hs := updateHessian ic D.X D.P2 D.hessApprox st.hs (identifyActiveSet D st) } with hst1
  refine ⟨(lineSearch D st1 (inner D st1).1).warned, st.diagnostics, rfl, ?_⟩
  intro hw
  have hs := visited_sync inner D hP coef0 st h
  have hsp := lineSearch_spec D st1 (inner D st1).1
  have hacc := hsp.accept.mp hw
  rw [lsOK_iff D hP st1 hs.eta hs.obj hs.score] at hacc
  have hc : st'.coef = candidate st.coef (inner D st1).1 (lineSearch D st1 (inner D st1).1).k := hsp.coef
  rw [hc]
  have hx : 0 ≤ 16 * D.eps * |objective D st.coef| := by positivity
  rcases hacc with ⟨_, ha⟩ | ⟨ha, _⟩
  · have hneg : ((1 : ℝ) / 2) ^ (lineSearch D st1 (inner D st1).1).k * (1 / 10000 * predictedChange D st1.coef (inner D st1).1) ≤ 0 := by
      apply mul_nonpos_of_nonneg_of_nonpos (by positivity)
      apply mul_nonpos_of_nonneg_of_nonpos (by norm_num)
      exact hd
    have : objective D (candidate st.coef (inner D st1).1 (lineSearch D st1 (inner D st1).1).k) - objective D st.coef ≤ 0 :=
      le_trans ha hneg
    linarith
  · have h1 := le_trans (le_abs_self _) ha
    rw [abs_mul, abs_of_nonneg (by positivity : (0 : ℝ) ≤ 16 * D.eps)] at h1
    have h2 : objective D (candidate st.coef (inner D st1).1 (lineSearch D st1 (inner D st1).1).k) - objective D st.coef
      ≤ |objective D st.coef| * (16 * D.eps) := h1
    linarith

/-- Two consecutive diagnostics records (newer first): if the newer iteration raised no line-search warning, its objective is at
most the older one's plus `16 eps` relative. -/
def NotWorse (eps : ℝ) (newer older : Diag) : Prop :=
  newer.warned = false → newer.obj ≤ older.obj + 16 * eps * |older.obj|

theorem visited_head (inner : Inner n p ic) (D : IRLSData n p ic)
    (coef0 : Fin (p + ic.toNat) → ℝ) (st : IRLSState n p ic) (h : Visited inner D coef0 st) :
    ∃ w rest, st.diagnostics = ⟨st.nIter, st.norm, st.obj, w⟩ :: rest := by
  cases h with
  | init => exact ⟨false, [], rfl⟩
  | step st _ _ _ => exact ⟨_, st.diagnostics, rfl⟩

theorem chain_of_descent (inner : Inner n p ic) (D : IRLSData n p ic) (hP : ∀ k, 0 ≤ D.P1 k) (he : 0 ≤ D.eps)
    (coef0 : Fin (p + ic.toNat) → ℝ)
    (hdesc : ∀ st, Visited inner D coef0 st → predictedChange D st.coef
      (inner D { st with hs := updateHessian ic D.X D.P2 D.hessApprox st.hs (identifyActiveSet D st) }).1 ≤ 0)
    (st : IRLSState n p ic) (h : Visited inner D coef0 st) :
    st.diagnostics.IsChain (NotWorse D.eps) := by
  induction h with
  | init => exact List.isChain_singleton _
  | step st hv hn hc ih =>
    obtain ⟨w, rest, e1, e2⟩ := step_monotone inner D hP he coef0 st hv (hdesc st hv)
    obtain ⟨w', rest', e'⟩ := visited_head inner D coef0 st hv
    have hrest : rest = st.diagnostics := by
      have : (irlsStep inner D st).diagnostics.tail = st.diagnostics := rfl
      rw [e1] at this; exact this
    rw [e1, hrest, e']
    rw [e'] at ih
    refine List.IsChain.cons_cons ?_ ih
    intro hw
    have hs := visited_sync inner D hP coef0 st hv
    have hs' := visited_sync inner D hP coef0 _ (Visited.step st hv hn hc)
    have := e2 hw
    rw [← hs.obj, ← hs'.obj] at this
    exact this

/-- **C31 (coordinate descent).** For non-negative row curvatures, symmetric positive semidefinite P2 and a feasible start, along
every run (any seeds, schedules, bounds, number of iterations) every outer iteration that raises no line-search warning
leaves the documented objective at most `16 eps |objective|` above the previous value. -/
theorem c31_cd_monotone (seeds : ℕ → BitVec 32) (D : IRLSData n p ic) (hD : Convexish D)
    (coef0 : Fin (p + ic.toNat) → ℝ) (h0 : InBounds ic D.lb D.ub coef0) :
    (irlsRun (cdInner seeds) D coef0).diagnostics.IsChain (NotWorse D.eps) :=
  chain_of_descent (cdInner seeds) D hD.P1 hD.eps coef0
    (fun st hv => (cd_direction seeds D hD st (visited_hessOK _ D hD coef0 st hv)
      (visited_sync _ D hD.P1 coef0 st hv).score (c19_irls_in_bounds seeds D hD.bounds coef0 h0 st hv)).1)
    _ (irlsRun_visited _ D coef0)

/-- A chain of non-worsening records, multiplied out. -/
theorem chain_total (eps : ℝ) (he : 0 ≤ eps) (l : List Diag) (d0 : Diag) (hc : (l ++ [d0]).IsChain (NotWorse eps))
    (hw : ∀ d ∈ l, d.warned = false) (hpos : ∀ d ∈ l ++ [d0], 0 ≤ d.obj) :
    ∀ d, (l ++ [d0]).head? = some d → d.obj ≤ (1 + 16 * eps) ^ l.length * d0.obj := by
  induction l with
  | nil => intro d hd; simp at hd; subst hd; simp
  | cons a l ih =>
    intro d hd
    simp at hd; subst hd
    have hc' : (l ++ [d0]).IsChain (NotWorse eps) := List.IsChain.of_cons hc
    cases hl : l ++ [d0] with
    | nil => simp at hl
    | cons b t =>
      have ihb := ih hc' (fun d hd => hw d (by simp [hd])) (fun d hd => hpos d (by simp at hd ⊢; tauto)) b (by rw [hl]; rfl)
      rw [List.cons_append, hl] at hc
      have hab : NotWorse eps a b := (List.isChain_cons_cons.mp hc).1
      have h1 := hab (hw a (by simp))
      have hb0 : 0 ≤ b.obj := hpos b (by rw [List.cons_append, hl]; simp)
      rw [abs_of_nonneg hb0] at h1
      rw [List.length_cons, pow_succ]
      have : a.obj ≤ (1 + 16 * eps) * b.obj := by linarith
      have h2 := mul_le_mul_of_nonneg_left ihb (by positivity : 0 ≤ 1 + 16 * eps)
      linarith

/-! ### C32 -/

theorem visited_checked (inner : Inner n p ic) (D : IRLSData n p ic) (coef0 : Fin (p + ic.toNat) → ℝ)
    (st : IRLSState n p ic) (h : Visited inner D coef0 st) :
    (st.converged, st.norm, st.maxSub, st.innerTol) = checkConvergence D st.coef st.step st.score := by
  cases h with
  | init => rfl
  | step st _ _ _ => rfl

theorem visited_count (inner : Inner n p ic) (D : IRLSData n p ic) (coef0 : Fin (p + ic.toNat) → ℝ)
    (st : IRLSState n p ic) (h : Visited inner D coef0 st) :
    st.nIter ≤ D.maxIter ∧ st.diagnostics.map Diag.nIter = (List.range (st.nIter + 1)).reverse := by
  induction h with
  | init => exact ⟨Nat.zero_le _, rfl⟩
  | step st _ hn _ ih =>
    refine ⟨hn, ?_⟩
    change (st.nIter + 1) :: (st.diagnostics.map Diag.nIter) = (List.range (st.nIter + 1 + 1)).reverse
    rw [ih.2, List.range_succ (n := st.nIter + 1), List.reverse_append]; rfl

theorem irlsLoop_stops (inner : Inner n p ic) (D : IRLSData n p ic) (fuel : ℕ) (st : IRLSState n p ic)
    (hf : D.maxIter ≤ st.nIter + fuel) :
    (irlsLoop inner D fuel st).converged = true ∨ D.maxIter ≤ (irlsLoop inner D fuel st).nIter := by
  induction fuel generalizing st with
  | zero => right; exact hf
  | succ k ih =>
    unfold irlsLoop
    split
    · exact ih _ (by change D.maxIter ≤ st.nIter + 1 + k; omega)
    · rename_i h
      by_cases hc : st.converged = true
      · exact Or.inl hc
      · right
        by_contra hlt
        exact h ⟨by omega, by simpa using hc⟩

/-- The documented stopping rule: the minimum-norm subgradient is below `gradient_tol`, or a step-size tolerance was given and
the last step is shorter. -/
def StoppingRule (D : IRLSData n p ic) (coef step : Fin (p + ic.toNat) → ℝ) : Prop :=
  (normMinSubgrad (List.finRange (p + ic.toNat)) coef (fun i => -scoreAt D coef i) D.P1 ic D.lb D.ub).1 < D.gradTol ∨
    ∃ t, D.stepTol = some t ∧ Real.sqrt (∑ k, step k ^ 2) < t

theorem converged_iff (inner : Inner n p ic) (D : IRLSData n p ic) (hP : ∀ k, 0 ≤ D.P1 k) (coef0 : Fin (p + ic.toNat) → ℝ)
    (st : IRLSState n p ic) (h : Visited inner D coef0 st) :
    st.converged = true ↔ StoppingRule D st.coef st.step := by
  have hc := visited_checked inner D coef0 st h
  rw [Prod.ext_iff] at hc
  have h1 : st.converged = (checkConvergence D st.coef st.step st.score).1 := hc.1
  have hs := (visited_sync inner D hP coef0 st h).score
  rw [h1]
  unfold checkConvergence StoppingRule l2Norm
  simp only [hs, Bool.or_eq_true, decide_eq_true_eq]
  cases D.stepTol <;> simp

/-- **C32.** Every run: at most `max_iter` iterations; the diagnostics are the records `n_iter, …, 1, 0`, the newest being the
final state's; the run counts as converged (no convergence warning) iff the stopping rule holds at the returned coefficients, and if
not then exactly `max_iter` iterations were made. -/
theorem c32_accounting (inner : Inner n p ic) (D : IRLSData n p ic) (hP : ∀ k, 0 ≤ D.P1 k)
    (coef0 : Fin (p + ic.toNat) → ℝ) :
    let fin := irlsRun inner D coef0
    fin.nIter ≤ D.maxIter ∧ fin.diagnostics.map Diag.nIter = (List.range (fin.nIter + 1)).reverse ∧
    (∃ w rest, fin.diagnostics = ⟨fin.nIter, fin.norm, objective D fin.coef, w⟩ :: rest) ∧
    (fin.converged = true ↔ StoppingRule D fin.coef fin.step) ∧
    (fin.converged = false → fin.nIter = D.maxIter) := by
  intro fin
  have hv := irlsRun_visited inner D coef0
  have hcnt := visited_count inner D coef0 _ hv
  refine ⟨hcnt.1, hcnt.2, ?_, converged_iff inner D hP coef0 _ hv, ?_⟩
  · rw [← (visited_sync inner D hP coef0 _ hv).obj]
    exact visited_head inner D coef0 _ hv
  · intro hc
    rcases irlsLoop_stops inner D D.maxIter (irlsInit D coef0) (by omega) with h | h
    · have : fin.converged = true := h
      rw [hc] at this; simp at this
    · exact le_antisymm hcnt.1 h

/-- **C32, cycles.** The number of coordinate-descent cycles recorded after `n` outer iterations is at least `n` and at most `n` times the limit of
the inner solver: every iteration adds the cycles of its inner call. -/
theorem c32_cycles (seeds : ℕ → BitVec 32) (D : IRLSData n p ic) (hm : 1 ≤ D.maxInnerIter) (coef0 : Fin (p + ic.toNat) → ℝ) (st : IRLSState n p ic)
    (h : Visited (cdInner seeds) D coef0 st) : st.nIter ≤ st.nCycles ∧ st.nCycles ≤ st.nIter * D.maxInnerIter := by
  induction h with
  | init => exact ⟨le_rfl, by simp [irlsInit]⟩
  | step st _ _ _ ih =>
    have e : (irlsStep (cdInner seeds) D st).nIter = st.nIter + 1 := rfl
    rw [e]
    obtain ⟨st1, hc⟩ : ∃ st1 : IRLSState n p ic, (irlsStep (cdInner seeds) D st).nCycles = st.nCycles
        + ((cdArgs D st1).run st1.coef (fun k => -st1.score k) (seeds st1.nIter)).nIter :=
      ⟨{ st with hs := updateHessian ic D.X D.P2 D.hessApprox st.hs (identifyActiveSet D st) }, rfl⟩
    have h1 := loop_nIter_pos (cdArgs D st1) (cdArgs D st1).maxIter 0 0
      { w := st1.coef, q := fun k => -st1.score k, dwMax := 0, wMax := 0, rng := seeds st1.nIter }
    have h2 := loop_nIter (cdArgs D st1) (cdArgs D st1).maxIter 0 0
      { w := st1.coef, q := fun k => -st1.score k, dwMax := 0, wMax := 0, rng := seeds st1.nIter }
    change 1 ≤ ((cdArgs D st1).run st1.coef (fun k => -st1.score k) (seeds st1.nIter)).nIter at h1
    change ((cdArgs D st1).run st1.coef (fun k => -st1.score k) (seeds st1.nIter)).nIter ≤ max (0 + D.maxInnerIter) 1 at h2
    rw [zero_add, max_eq_left hm] at h2
    rw [hc, Nat.add_mul, one_mul]
    exact ⟨by omega, by omega⟩

/-- **C32, converged start.** A start that already satisfies the gradient tolerance is returned unchanged, converged, after zero
iterations. -/
theorem c32_converged_start (inner : Inner n p ic) (D : IRLSData n p ic) (hP : ∀ k, 0 ≤ D.P1 k)
    (coef0 : Fin (p + ic.toNat) → ℝ)
    (h : (normMinSubgrad (List.finRange (p + ic.toNat)) coef0 (fun i => -scoreAt D coef0 i) D.P1 ic D.lb D.ub).1 < D.gradTol) :
    (irlsRun inner D coef0).coef = coef0 ∧ (irlsRun inner D coef0).nIter = 0 ∧ (irlsRun inner D coef0).converged = true := by
  have hc : (irlsInit D coef0).converged = true :=
    (converged_iff inner D hP coef0 _ Visited.init).mpr (Or.inl h)
  have : irlsRun inner D coef0 = irlsInit D coef0 := by
    unfold irlsRun
    cases D.maxIter with
    | zero => rfl
    | succ k => unfold irlsLoop; rw [if_neg (by simp [hc])]
  rw [this]
  exact ⟨rfl, rfl, hc⟩

/-! ### C33 -/

/-- **C33.** Before any step is taken the step-size criterion cannot fire: for every tolerance and at least one coefficient, the
initial state is converged iff the gradient criterion holds. -/
theorem c33_step_rule_initially_false (D : IRLSData n p ic) (hP : ∀ k, 0 ≤ D.P1 k) (coef0 : Fin (p + ic.toNat) → ℝ)
    (hpos : 0 < p + ic.toNat) :
    (irlsInit D coef0).converged = true ↔
      (normMinSubgrad (List.finRange (p + ic.toNat)) coef0 (fun i => -scoreAt D coef0 i) D.P1 ic D.lb D.ub).1 < D.gradTol := by
  rw [converged_iff (fun _ _ => (fun _ => 0, 0)) D hP coef0 _ Visited.init]
  constructor
  · rintro (h | ⟨t, ht, h⟩)
    · exact h
    · exfalso
      have hstep : (irlsInit D coef0).step = fun _ => t := by simp [irlsInit, ht]
      rw [hstep] at h
      simp only [Finset.sum_const, Finset.card_univ, Fintype.card_fin, nsmul_eq_mul] at h
      have h0 : 0 ≤ Real.sqrt (((p + ic.toNat : ℕ) : ℝ) * t ^ 2) := Real.sqrt_nonneg _
      have ht0 : 0 < t := lt_of_le_of_lt h0 h
      have h1 : (1 : ℝ) ≤ ((p + ic.toNat : ℕ) : ℝ) := by exact_mod_cast hpos
      have : t ≤ Real.sqrt (((p + ic.toNat : ℕ) : ℝ) * t ^ 2) := by
        apply Real.le_sqrt_of_sq_le
        nlinarith [sq_nonneg t]
      linarith
  · exact Or.inl

/-! ### C34 -/

/-- The rowwise gradient at `eta` is minus the derivative of half the weighted unit deviance. -/
def GradOK (D : IRLSData n p ic) (r : Fin n) (eta : ℝ) : Prop :=
  HasDerivAt (fun e => 1 / 2 * (D.sw r * D.fam.dev (D.y r) e)) (-(D.fam.grad (D.y r) (D.sw r) eta (D.fam.inv eta))) eta

theorem ridge_deriv (D : IRLSData n p ic) (hsym : ∀ i j, p2Full (p := p) ic D.P2 i j = p2Full ic D.P2 j i)
    (w d : Fin (p + ic.toNat) → ℝ) :
    HasDerivAt (fun t : ℝ => ridge D fun k => w k + t * d k) (∑ k, (∑ i, p2Full ic D.P2 i k * w i) * d k) 0 := by
  have h1 : ∀ i j, HasDerivAt (fun t : ℝ => p2Full ic D.P2 i j * (w i + t * d i) * (w j + t * d j))
      (p2Full ic D.P2 i j * (d i * w j + w i * d j)) 0 := by
    intro i j
    have a : ∀ k, HasDerivAt (fun t : ℝ => w k + t * d k) (d k) 0 := by
      intro k
      simpa using ((hasDerivAt_id (0 : ℝ)).mul_const (d k)).const_add (w k)
    have := ((a i).const_mul (p2Full ic D.P2 i j)).mul (a j)
    refine this.congr_deriv ?_
    simp; ring
  have h2 := (HasDerivAt.fun_sum fun i (_ : i ∈ (Finset.univ : Finset (Fin (p + ic.toNat)))) =>
    HasDerivAt.fun_sum fun j (_ : j ∈ (Finset.univ : Finset (Fin (p + ic.toNat)))) => h1 i j).const_mul (1 / 2 : ℝ)
  refine h2.congr_deriv ?_
  have e1 : ∑ i, ∑ j, p2Full (p := p) ic D.P2 i j * (d i * w j) = ∑ k, (∑ i, p2Full ic D.P2 i k * w i) * d k := by
    apply Finset.sum_congr rfl; intro i _
    rw [Finset.sum_mul]
    apply Finset.sum_congr rfl; intro j _
    rw [hsym i j]; ring
  have e2 : ∑ i, ∑ j, p2Full (p := p) ic D.P2 i j * (w i * d j) = ∑ k, (∑ i, p2Full ic D.P2 i k * w i) * d k := by
    rw [Finset.sum_comm]
    apply Finset.sum_congr rfl; intro i _
    rw [Finset.sum_mul]
    apply Finset.sum_congr rfl; intro j _
    ring
  simp only [mul_add, Finset.sum_add_distrib, e1, e2]
  ring

theorem linPred_line_deriv (X : Fin n → ℕ → ℝ) (o : Fin n → ℝ) (w d : Fin (p + ic.toNat) → ℝ) (r : Fin n) :
    HasDerivAt (fun t : ℝ => linPred ic X o (fun k => w k + t * d k) r) (∑ k, design ic X r k * d k) 0 := by
  have e : (fun t : ℝ => linPred ic X o (fun k => w k + t * d k) r)
      = fun t => linPred ic X o w r + t * (∑ k, design ic X r k * d k) := by
    funext t
    rw [linPred_add]; simp [linPred]
  rw [e]
  simpa using ((hasDerivAt_id (0 : ℝ)).mul_const (∑ k, design ic X r k * d k)).const_add (linPred ic X o w r)

theorem score_dot (D : IRLSData n p ic) (w d : Fin (p + ic.toNat) → ℝ) :
    ∑ k, scoreAt D w k * d k
      = ∑ r, D.fam.grad (D.y r) (D.sw r) (linPred ic D.X (off D) w r) (D.fam.inv (linPred ic D.X (off D) w r))
          * (∑ k, design ic D.X r k * d k) - ∑ k, (∑ i, p2Full ic D.P2 i k * w i) * d k := by
  unfold scoreAt
  simp only [sub_mul, Finset.sum_sub_distrib]
  congr 1
  simp only [Finset.sum_mul, Finset.mul_sum]
  rw [Finset.sum_comm]
  apply Finset.sum_congr rfl; intro r _
  apply Finset.sum_congr rfl; intro k _
  ring

/-- **C34.** In every state of every run (any inner solver), the stored score is minus the gradient of the smooth part of the
documented objective, `½·deviance + ½ wᵀP2w`: along every direction `d` the derivative is `-score·d`.  The
intercept gets no penalty (`p2Full` has a zero row and column there).  The condition on the family (`GradOK`) is proved for the built-in
families in the C09 theorems. -/
theorem c34_score_is_gradient (inner : Inner n p ic) (D : IRLSData n p ic) (hP : ∀ k, 0 ≤ D.P1 k)
    (hsym : ∀ i j, p2Full (p := p) ic D.P2 i j = p2Full ic D.P2 j i)
    (coef0 : Fin (p + ic.toNat) → ℝ) (st : IRLSState n p ic) (h : Visited inner D coef0 st)
    (hfam : ∀ r, GradOK D r (linPred ic D.X (off D) st.coef r)) (d : Fin (p + ic.toNat) → ℝ) :
    HasDerivAt (fun t : ℝ => smoothObj D fun k => st.coef k + t * d k) (-∑ k, st.score k * d k) 0 := by
  have hs := (visited_sync inner D hP coef0 st h).score
  simp only [hs]
  set w := st.coef
  have h1 : ∀ r, HasDerivAt (fun t : ℝ => 1 / 2 * (D.sw r * D.fam.dev (D.y r) (linPred ic D.X (off D) (fun k => w k + t * d k) r)))
      (-(D.fam.grad (D.y r) (D.sw r) (linPred ic D.X (off D) w r) (D.fam.inv (linPred ic D.X (off D) w r)))
        * (∑ k, design ic D.X r k * d k)) 0 := by
    intro r
    have e0 : linPred ic D.X (off D) (fun k => w k + 0 * d k) r = linPred ic D.X (off D) w r := by simp
    have hf := hfam r
    unfold GradOK at hf
    exact HasDerivAt.comp (h₂ := fun e => 1 / 2 * (D.sw r * D.fam.dev (D.y r) e)) (0 : ℝ)
      (by rw [e0]; exact hf) (linPred_line_deriv D.X (off D) w d r)
  have h2 := (HasDerivAt.fun_sum fun r (_ : r ∈ (Finset.univ : Finset (Fin n))) => h1 r).add (ridge_deriv D hsym w d)
  have e : (fun t : ℝ => smoothObj D fun k => w k + t * d k) = ((fun t : ℝ => ∑ r, 1 / 2 * (D.sw r * D.fam.dev (D.y r)
      (linPred ic D.X (off D) (fun k => w k + t * d k) r))) + fun t : ℝ => ridge D fun k => w k + t * d k) := by
    funext t
    simp only [Pi.add_apply, smoothObj]
    rw [Finset.mul_sum]
  rw [e]
  refine h2.congr_deriv ?_
  rw [score_dot]
  simp only [neg_mul, Finset.sum_neg_distrib]
  ring

/-! ### C35 -/

theorem convex_tangent {f : ℝ → ℝ} (hf : ConvexOn ℝ Set.univ f) {f' x : ℝ} (h : HasDerivAt f f' x) (y : ℝ) :
    f x + f' * (y - x) ≤ f y := by
  rcases lt_trichotomy x y with hxy | hxy | hxy
  · have := hf.le_slope_of_hasDerivAt (Set.mem_univ x) (Set.mem_univ y) hxy h
    rw [slope_def_field, le_div_iff₀ (by linarith)] at this
    linarith
  · subst hxy; simp
  · have := hf.slope_le_of_hasDerivAt (Set.mem_univ y) (Set.mem_univ x) hxy h
    rw [slope_def_field, div_le_iff₀ (by linarith)] at this
    linarith

theorem ridge_tangent (D : IRLSData n p ic) (hsym : ∀ i j, p2Full (p := p) ic D.P2 i j = p2Full ic D.P2 j i)
    (hpsd : PosSemidef (p2Full (p := p) ic D.P2)) (w v : Fin (p + ic.toNat) → ℝ) :
    ridge D w + ∑ k, (∑ i, p2Full ic D.P2 i k * w i) * (v k - w k) ≤ ridge D v := by
  have hq := hpsd (fun k => v k - w k)
  unfold ridge
  have e : ∑ i, ∑ j, p2Full (p := p) ic D.P2 i j * v i * v j
      = ∑ i, ∑ j, p2Full ic D.P2 i j * w i * w j + 2 * ∑ k, (∑ i, p2Full ic D.P2 i k * w i) * (v k - w k)
        + ∑ i, ∑ j, p2Full ic D.P2 i j * (v i - w i) * (v j - w j) := by
    have e1 : ∑ i, ∑ j, p2Full (p := p) ic D.P2 i j * (v i - w i) * w j = ∑ k, (∑ i, p2Full ic D.P2 i k * w i) * (v k - w k) := by
      apply Finset.sum_congr rfl; intro i _
      rw [Finset.sum_mul]
      apply Finset.sum_congr rfl; intro j _
      rw [hsym i j]; ring
    have e2 : ∑ i, ∑ j, p2Full (p := p) ic D.P2 i j * w i * (v j - w j) = ∑ k, (∑ i, p2Full ic D.P2 i k * w i) * (v k - w k) := by
      rw [Finset.sum_comm]
      apply Finset.sum_congr rfl; intro i _
      rw [Finset.sum_mul]
    have e3 : ∀ i j, p2Full (p := p) ic D.P2 i j * v i * v j = p2Full ic D.P2 i j * w i * w j
        + p2Full ic D.P2 i j * (v i - w i) * w j + p2Full ic D.P2 i j * w i * (v j - w j)
        + p2Full ic D.P2 i j * (v i - w i) * (v j - w j) := fun i j => by ring
    simp only [e3, Finset.sum_add_distrib, e1, e2]
    ring
  rw [e]
  linarith

/-- **C35.** If every row's loss is convex in the linear predictor and its gradient is right, P2 is symmetric positive semidefinite and
P1 non-negative, then in any state of any run: for every feasible `v` and every `B ≥ |v - coef|` (coordinatewise),
`objective coef ≤ objective v + norm·B`, where `norm` is the reported minimum-norm subgradient; so with the gradient
criterion met, `≤ objective v + gradient_tol·B`. -/
theorem c35_near_optimal (inner : Inner n p ic) (D : IRLSData n p ic) (hP : ∀ k, 0 ≤ D.P1 k)
    (hsym : ∀ i j, p2Full (p := p) ic D.P2 i j = p2Full ic D.P2 j i) (hpsd : PosSemidef (p2Full (p := p) ic D.P2))
    (hconv : ∀ r, ConvexOn ℝ Set.univ fun e => 1 / 2 * (D.sw r * D.fam.dev (D.y r) e))
    (coef0 : Fin (p + ic.toNat) → ℝ) (st : IRLSState n p ic) (h : Visited inner D coef0 st)
    (hfam : ∀ r, GradOK D r (linPred ic D.X (off D) st.coef r))
    (v : Fin (p + ic.toNat) → ℝ) (hv : InBounds ic D.lb D.ub v) (B : ℝ) (hB : ∀ i, |v i - st.coef i| ≤ B) (hB0 : 0 ≤ B) :
    objective D st.coef ≤ objective D v + st.norm * B ∧
    (st.norm < D.gradTol → objective D st.coef ≤ objective D v + D.gradTol * B) := by
  have hs := (visited_sync inner D hP coef0 st h).score
  have hnorm : st.norm = (normMinSubgrad (List.finRange (p + ic.toNat)) st.coef (fun i => -scoreAt D st.coef i) D.P1 ic D.lb D.ub).1 := by
    have hc := visited_checked inner D coef0 st h
    rw [Prod.ext_iff, Prod.ext_iff] at hc
    have := hc.2.1
    simp only [checkConvergence, hs] at this
    exact this
  have key : objective D st.coef ≤ objective D v + st.norm * B := by
    have hcert := c23_certificate (id : Fin (p + ic.toNat) → Fin (p + ic.toNat)) strictMono_id st.coef (fun i => -scoreAt D st.coef i)
      D.P1 hP ic D.lb D.ub v hv (fun i hi => absurd ⟨i, rfl⟩ hi) B hB
    rw [List.map_id, ← hnorm] at hcert
    simp only [id, neg_mul, Finset.sum_neg_distrib] at hcert
    rw [score_dot] at hcert
    have hr := ridge_tangent D hsym hpsd st.coef v
    have hrow : ∀ r, 1 / 2 * (D.sw r * D.fam.dev (D.y r) (linPred ic D.X (off D) st.coef r))
        + -(D.fam.grad (D.y r) (D.sw r) (linPred ic D.X (off D) st.coef r) (D.fam.inv (linPred ic D.X (off D) st.coef r)))
          * (∑ k, design ic D.X r k * (v k - st.coef k))
        ≤ 1 / 2 * (D.sw r * D.fam.dev (D.y r) (linPred ic D.X (off D) v r)) := by
      intro r
      have := convex_tangent (hconv r) (hfam r) (linPred ic D.X (off D) v r)
      have e : linPred ic D.X (off D) v r - linPred ic D.X (off D) st.coef r = ∑ k, design ic D.X r k * (v k - st.coef k) := by
        unfold linPred
        simp only [mul_sub, Finset.sum_sub_distrib]; ring
      rw [e] at this
      exact this
    have hsum := Finset.sum_le_sum fun r (_ : r ∈ (Finset.univ : Finset (Fin n))) => hrow r
    simp only [Finset.sum_add_distrib, neg_mul, Finset.sum_neg_distrib] at hsum
    unfold objective smoothObj
    rw [Finset.mul_sum, Finset.mul_sum]
    linarith
  refine ⟨key, fun hlt => ?_⟩
  have := mul_le_mul_of_nonneg_right hlt.le hB0
  linarith

/-! ### C66 -/

/-- **C66.** Active-set screening never drops a coefficient that could move: in any state of any run whose coefficients are feasible,
a coefficient left out of the active set is zero, and no feasible value of it alone decreases the linearised
objective (it satisfies its optimality condition). -/
theorem c66_screening_safe (inner : Inner n p ic) (D : IRLSData n p ic) (hP : ∀ k, 0 ≤ D.P1 k)
    (coef0 : Fin (p + ic.toNat) → ℝ) (st : IRLSState n p ic) (h : Visited inner D coef0 st) (i : Fin (p + ic.toNat))
    (hi : i ∉ identifyActiveSet D st) :
    st.coef i = 0 ∧ |scoreAt D st.coef i| < l1Weight ic D.P1 i ∧
      ∀ z : ℝ, 0 ≤ -scoreAt D st.coef i * (z - st.coef i) + l1Weight ic D.P1 i * (|z| - |st.coef i|) := by
  rw [mem_activeSet] at hi
  push Not at hi
  obtain ⟨h1, h2, x, hx, h3⟩ := hi
  have hs := (visited_sync inner D hP coef0 st h).score
  have hc := visited_checked inner D coef0 st h
  rw [Prod.ext_iff, Prod.ext_iff, Prod.ext_iff] at hc
  have hm : st.maxSub = (normMinSubgrad (List.finRange (p + ic.toNat)) st.coef (fun i => -st.score i) D.P1 ic D.lb D.ub).2 := hc.2.2.1
  have hx0 : 0 ≤ x := by
    refine maxSub_nonneg st.coef (fun i => -st.score i) D.P1 ic D.lb D.ub (List.finRange _) (0, ⊤) ?_ x ?_
    · intro z hz; simp at hz
    · rw [← hx, hm]; rfl
  have hw := l1Weight_of_ge ic D.P1 i (by omega)
  have hlt : |scoreAt D st.coef i| < l1Weight ic D.P1 i := by
    rw [hw, ← hs]; linarith
  refine ⟨h2, hlt, ?_⟩
  intro z
  rw [h2, sub_zero, abs_zero, sub_zero]
  have := neg_abs_le (-scoreAt D st.coef i * z)
  rw [abs_mul, abs_neg] at this
  have h4 := mul_le_mul_of_nonneg_right hlt.le (abs_nonneg z)
  linarith

/-- **C66, no intercept**: the screening threshold stays infinite and every coefficient is active. -/
theorem c66_no_intercept_all_active (inner : Inner n p false) (D : IRLSData n p false)
    (coef0 : Fin (p + false.toNat) → ℝ) (st : IRLSState n p false) (h : Visited inner D coef0 st) :
    identifyActiveSet D st = List.finRange _ := by
  have hc := visited_checked inner D coef0 st h
  rw [Prod.ext_iff, Prod.ext_iff, Prod.ext_iff] at hc
  have hm : st.maxSub = ⊤ := by
    have h1 : st.maxSub = (normMinSubgrad (List.finRange (p + false.toNat)) st.coef (fun i => -st.score i) D.P1 false D.lb D.ub).2 := hc.2.2.1
    rw [h1]
    exact maxSub_top _ _ _ _ _ _ _ rfl
  unfold identifyActiveSet
  rw [List.filter_eq_self]
  intro i _
  simp [hm]

/-- **C66, no L1 penalty**: every coefficient is active, so the least-squares inner solver always gets the full system. -/
theorem c66_no_l1_all_active (inner : Inner n p ic) (D : IRLSData n p ic) (hP : ∀ k, D.P1 k = 0)
    (coef0 : Fin (p + ic.toNat) → ℝ) (st : IRLSState n p ic) (h : Visited inner D coef0 st) :
    identifyActiveSet D st = List.finRange _ := by
  have hc := visited_checked inner D coef0 st h
  rw [Prod.ext_iff, Prod.ext_iff, Prod.ext_iff] at hc
  have hm : st.maxSub = (normMinSubgrad (List.finRange (p + ic.toNat)) st.coef (fun i => -st.score i) D.P1 ic D.lb D.ub).2 := hc.2.2.1
  unfold identifyActiveSet
  rw [List.filter_eq_self]
  intro i _
  simp only [decide_eq_true_eq]
  right; right
  intro x hx
  have hx0 : 0 ≤ x := by
    refine maxSub_nonneg st.coef (fun i => -st.score i) D.P1 ic D.lb D.ub (List.finRange _) (0, ⊤) ?_ x ?_
    · intro z hz; simp at hz
    · rw [← hx, hm]; rfl
  rw [hP]
  have := abs_nonneg (st.score i)
  linarith

/-- **C31 (least squares).** Without L1 penalty, if the linear solve inside each iteration succeeds, i.e. returns a solution `d` of
`H d = score` for the Hessian and score of that iteration (otherwise scipy raises), the objective is monotone in the same
sense. -/
theorem c31_ls_monotone (solve : (Fin (p + ic.toNat) → Fin (p + ic.toNat) → ℝ) → (Fin (p + ic.toNat) → ℝ) →
      (Fin (p + ic.toNat) → ℝ)) (D : IRLSData n p ic) (hD : Convexish D) (hP : ∀ k, D.P1 k = 0)
    (coef0 : Fin (p + ic.toNat) → ℝ)
    (hsolve : ∀ st, Visited (lsInner solve) D coef0 st → ∀ k,
      let H := (updateHessian ic D.X D.P2 D.hessApprox st.hs (identifyActiveSet D st)).H
      ∑ j, H k j * solve H st.score j = st.score k) :
    (irlsRun (lsInner solve) D coef0).diagnostics.IsChain (NotWorse D.eps) := by
  refine chain_of_descent (lsInner solve) D hD.P1 hD.eps coef0 ?_ _ (irlsRun_visited _ D coef0)
  intro st hv
  have hs := (visited_sync _ D hD.P1 coef0 st hv).score
  have hok := visited_hessOK _ D hD coef0 st hv
  have hall := c66_no_l1_all_active _ D hP coef0 st hv
  set st1 : IRLSState n p ic := { st with hs := updateHessian ic D.X D.P2 D.hessApprox st.hs (identifyActiveSet D st) } with hst1
  have hH : ∀ i j, st1.hs.H i j = fullHessian ic D.X st1.hs.rows D.P2 i j := by
    intro i j
    exact updateHessian_block ic D.X D.P2 D.hessApprox st.hs hok.inv _ (activeSet_ok D st) i
      (by rw [hall]; exact List.mem_finRange i) j (by rw [hall]; exact List.mem_finRange j)
  have hl1 : ∀ u : Fin (p + ic.toNat) → ℝ, l1 ic D.P1 u = 0 := by
    intro u
    unfold l1
    apply Finset.sum_eq_zero
    intro i _
    have : l1Weight ic D.P1 i = 0 := by
      by_cases h : i.val < ic.toNat
      · exact l1Weight_of_lt ic D.P1 i h
      · rw [l1Weight_of_ge ic D.P1 i h, hP]
    rw [this, zero_mul]
  unfold predictedChange
  rw [hl1, hl1]
  have hpsd := (c13_hessian_symm_psd (p := p) ic D.X st1.hs.rows D.P2).2 (hok.update _) hD.psd (solve st1.hs.H st1.score)
  have e : ∑ k, scoreAt D st.coef k * (lsInner solve D st1).1 k
      = ∑ i, ∑ j, fullHessian ic D.X st1.hs.rows D.P2 i j * solve st1.hs.H st1.score i * solve st1.hs.H st1.score j := by
    apply Finset.sum_congr rfl; intro k _
    have hk : ∑ j, st1.hs.H k j * solve st1.hs.H st1.score j = st.score k := hsolve st hv k
    rw [← hs k, ← hk]
    change _ * solve st1.hs.H st1.score k = _
    rw [Finset.sum_mul]
    apply Finset.sum_congr rfl; intro j _
    rw [hH]; ring
  rw [e]
  linarith


/-! ### Non-vacuity: a weighted normal-identity problem with intercept, L1 weight, ridge and bounds -/

/-- The normal/identity pair. -/
noncomputable def normalRow : RowFamily where
  inv := fun e => e
  dev := fun y e => (y - e) ^ 2
  grad := fun y w _ mu => w * (y - mu)
  hess := fun _ w _ _ => w
  gradVar := fun y w _ mu => w * (y - mu)

/-- Two rows, `x = (1, 3)`, `y = (2, 5)`, weights `(1/4, 3/4)`, `P1 = 1/10`, `P2 = 1/5`, bounds `[-1, 1]`. -/
noncomputable def irlsEx : IRLSData 2 1 true where
  X := fun i _ => if i = 0 then 1 else 3
  y := fun i => if i = 0 then 2 else 5
  sw := fun i => if i = 0 then 1 / 4 else 3 / 4
  P1 := fun _ => 1 / 10
  P2 := .vec fun _ => 1 / 5
  fam := normalRow
  maxIter := 5
  maxInnerIter := 10
  gradTol := 0
  stepTol := none
  hessApprox := 1 / 10
  fixedInnerTol := none
  random := true
  offset := none
  lb := some fun _ => -1
  ub := some fun _ => 1
  eps := 1 / 10 ^ 15
  large := 10 ^ 30

theorem irlsEx_convexish : Convexish irlsEx where
  P1 := fun k => by simp [irlsEx]
  symm := by
    intro i j
    fin_cases i <;> fin_cases j <;> simp [p2Full]
  psd := by
    intro v
    have : ∑ i, ∑ j, p2Full (p := 1) true irlsEx.P2 i j * v i * v j = 1 / 5 * v 1 ^ 2 := by
      change ∑ i : Fin 2, ∑ j : Fin 2, _ = _
      simp only [Fin.sum_univ_two]
      simp [p2Full, p2Matrix, irlsEx]
      ring
    rw [this]; positivity
  rows := by
    intro r eta
    simp only [irlsEx, normalRow]
    split <;> norm_num
  eps := by simp only [irlsEx]; positivity
  bounds := by
    intro l u hl hu k
    simp only [irlsEx, Option.some.injEq] at hl hu
    subst hl; subst hu; norm_num

theorem irlsEx_gradOK (r : Fin 2) (eta : ℝ) : GradOK irlsEx r eta := by
  unfold GradOK
  have h := ((((hasDerivAt_id eta).const_sub (irlsEx.y r)).pow 2).const_mul (irlsEx.sw r)).const_mul (1 / 2 : ℝ)
  refine h.congr_deriv ?_
  simp [irlsEx, normalRow]; ring

theorem irlsEx_convex (r : Fin 2) : ConvexOn ℝ Set.univ fun e => 1 / 2 * (irlsEx.sw r * irlsEx.fam.dev (irlsEx.y r) e) := by
  have hw : 0 ≤ irlsEx.sw r := by simp only [irlsEx]; split <;> norm_num
  refine ⟨convex_univ, ?_⟩
  intro x _ y _ a b ha hb hab
  have hb' : b = 1 - a := by linarith
  subst hb'
  simp only [smul_eq_mul]
  change 1 / 2 * (irlsEx.sw r * (irlsEx.y r - (a * x + (1 - a) * y)) ^ 2) ≤
    a * (1 / 2 * (irlsEx.sw r * (irlsEx.y r - x) ^ 2)) + (1 - a) * (1 / 2 * (irlsEx.sw r * (irlsEx.y r - y) ^ 2))
  have : 0 ≤ irlsEx.sw r * (a * (1 - a) * (x - y) ^ 2) := mul_nonneg hw (mul_nonneg (mul_nonneg ha hb) (sq_nonneg _))
  nlinarith

theorem irlsEx_feasible : InBounds true irlsEx.lb irlsEx.ub (fun _ : Fin (1 + true.toNat) => (0 : ℝ)) := by
  intro i k _
  simp [irlsEx]

-- the run makes steps: with `gradient_tol = 0` no state converges, so the loop body is reached
example (inner : Inner 2 1 true) : Visited inner irlsEx (fun _ => 0) (irlsStep inner irlsEx (irlsInit irlsEx fun _ => 0)) := by
  refine Visited.step _ Visited.init (by simp [irlsInit, irlsEx]) ?_
  rw [Bool.eq_false_iff]
  intro h
  rw [c33_step_rule_initially_false irlsEx irlsEx_convexish.P1 _ (by simp)] at h
  have h2 := norm_eq_finset_sum (id : Fin (1 + true.toNat) → _) strictMono_id (fun _ => 0)
    (fun i => -scoreAt irlsEx (fun _ => 0) i) irlsEx.P1 true irlsEx.lb irlsEx.ub
  rw [List.map_id] at h2
  rw [h2] at h
  have : 0 ≤ ∑ s, absTerm (fun _ => 0) (fun i => -scoreAt irlsEx (fun _ => 0) i) irlsEx.P1 true irlsEx.lb irlsEx.ub (id s) :=
    Finset.sum_nonneg fun s _ => absTerm_nonneg _ _ _ _ _ _ _
  have hg : irlsEx.gradTol = 0 := rfl
  rw [hg] at h
  linarith

-- C31 and C35 apply to it
example (seeds : ℕ → BitVec 32) :
    (irlsRun (cdInner seeds) irlsEx fun _ => 0).diagnostics.IsChain (NotWorse irlsEx.eps) :=
  c31_cd_monotone seeds irlsEx irlsEx_convexish _ irlsEx_feasible
example (inner : Inner 2 1 true) (st) (h : Visited inner irlsEx (fun _ => 0) st) (v) (hv : InBounds true irlsEx.lb irlsEx.ub v)
    (B) (hB : ∀ i, |v i - st.coef i| ≤ B) (hB0 : 0 ≤ B) : objective irlsEx st.coef ≤ objective irlsEx v + st.norm * B :=
  (c35_near_optimal inner irlsEx irlsEx_convexish.P1 irlsEx_convexish.symm irlsEx_convexish.psd irlsEx_convex _ st h
    (fun r => irlsEx_gradOK r _) v hv B hB hB0).1

end Glum
