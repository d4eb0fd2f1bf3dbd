import Verif.Props.EndToEnd
/-
C76: with the normal distribution and the identity link the IRLS solvers are given a single iteration.
-/
set_option linter.unusedSectionVars false
set_option linter.unusedVariables false
set_option linter.unusedSimpArgs false

namespace Glum
open Spec

variable {n p : ℕ} {ic : Bool}

/-- Squared-error loss. -/
structure Spec.SquaredError (F : RowFamily) : Prop where
  inv : ∀ e, F.inv e = e
  dev : ∀ y e, F.dev y e = (y - e) ^ 2
  grad : ∀ y w e m, F.grad y w e m = w * (y - m)
  hess : ∀ y w e m, F.hess y w e m = w

theorem squaredError_normal (e50 : ℝ) : SquaredError (rowFam e50 .normal .identity) where
  inv := fun _ => rfl
  dev := fun _ _ => rfl
  grad := fun _ _ _ _ => rfl
  hess := fun _ _ _ _ => rfl

/-- The Hessian of the objective, `X̃ᵀ W X̃ + P2`. -/
noncomputable def Spec.gaussH (D : IRLSData n p ic) : Fin (p + ic.toNat) → Fin (p + ic.toNat) → ℝ := fullHessian ic D.X D.sw D.P2

theorem linPred_shift (D : IRLSData n p ic) (w d : Fin (p + ic.toNat) → ℝ) (r : Fin n) :
    linPred ic D.X (off D) (fun k => w k + d k) r = linPred ic D.X (off D) w r + ∑ k, design ic D.X r k * d k := by
  unfold linPred
  simp only [mul_add, Finset.sum_add_distrib]
  ring

/-- The score is affine. -/
theorem gauss_score (D : IRLSData n p ic) (hF : SquaredError D.fam)
    (hsym : ∀ i j, p2Full (p := p) ic D.P2 i j = p2Full ic D.P2 j i) (w d : Fin (p + ic.toNat) → ℝ) (k : Fin (p + ic.toNat)) :
    scoreAt D (fun k => w k + d k) k = scoreAt D w k - ∑ j, gaussH D k j * d j := by
  unfold scoreAt gaussH fullHessian
  simp only [hF.grad, hF.inv, linPred_shift, add_mul, Finset.sum_add_distrib, Finset.sum_mul, mul_add]
  have e1 : ∑ r, design ic D.X r k * (D.sw r * (D.y r - (linPred ic D.X (off D) w r + ∑ k, design ic D.X r k * d k)))
      = ∑ r, design ic D.X r k * (D.sw r * (D.y r - linPred ic D.X (off D) w r))
        - ∑ j, ∑ r, design ic D.X r k * D.sw r * design ic D.X r j * d j := by
    rw [Finset.sum_comm, ← Finset.sum_sub_distrib]
    apply Finset.sum_congr rfl; intro r _
    have : ∑ j, design ic D.X r k * D.sw r * design ic D.X r j * d j = design ic D.X r k * D.sw r * ∑ j, design ic D.X r j * d j := by
      rw [Finset.mul_sum]; apply Finset.sum_congr rfl; intro j _; ring
    rw [this]; ring
  rw [e1]
  have e2 : ∑ i, p2Full ic D.P2 i k * d i = ∑ i, p2Full ic D.P2 k i * d i :=
    Finset.sum_congr rfl fun i _ => by rw [hsym]
  rw [e2]; ring

/-- The objective is a quadratic plus the L1 norm. -/
theorem gauss_objective (D : IRLSData n p ic) (hF : SquaredError D.fam)
    (hsym : ∀ i j, p2Full (p := p) ic D.P2 i j = p2Full ic D.P2 j i) (w d : Fin (p + ic.toNat) → ℝ) :
    objective D (fun k => w k + d k) - objective D w = predictedChange D w d + 1 / 2 * ∑ i, ∑ j, gaussH D i j * d i * d j := by
  unfold predictedChange objective
  rw [score_dot]
  have hr : ridge D (fun k => w k + d k) = ridge D w + ∑ k, (∑ i, p2Full ic D.P2 i k * w i) * d k
      + 1 / 2 * ∑ i, ∑ j, p2Full ic D.P2 i j * d i * d j := by
    unfold ridge
    have : ∀ i j, p2Full ic D.P2 i j * (w i + d i) * (w j + d j) = p2Full ic D.P2 i j * w i * w j + p2Full ic D.P2 i j * w i * d j
      + p2Full ic D.P2 i j * d i * w j + p2Full ic D.P2 i j * d i * d j := fun i j => by ring
    simp only [this, Finset.sum_add_distrib]
    have h1 : ∑ i, ∑ j, p2Full ic D.P2 i j * w i * d j = ∑ k, (∑ i, p2Full ic D.P2 i k * w i) * d k := by
      rw [Finset.sum_comm]; apply Finset.sum_congr rfl; intro k _; rw [Finset.sum_mul]
    have h2 : ∑ i, ∑ j, p2Full ic D.P2 i j * d i * w j = ∑ k, (∑ i, p2Full ic D.P2 i k * w i) * d k := by
      apply Finset.sum_congr rfl; intro k _; rw [Finset.sum_mul]
      apply Finset.sum_congr rfl; intro i _; rw [hsym]; ring
    rw [h1, h2]; ring
  have hd : 1 / 2 * ∑ r, D.sw r * D.fam.dev (D.y r) (linPred ic D.X (off D) (fun k => w k + d k) r)
      = 1 / 2 * ∑ r, D.sw r * D.fam.dev (D.y r) (linPred ic D.X (off D) w r)
        - ∑ r, D.fam.grad (D.y r) (D.sw r) (linPred ic D.X (off D) w r) (D.fam.inv (linPred ic D.X (off D) w r))
          * (∑ k, design ic D.X r k * d k)
        + 1 / 2 * ∑ r, D.sw r * (∑ k, design ic D.X r k * d k) ^ 2 := by
    simp only [Finset.mul_sum, ← Finset.sum_sub_distrib, ← Finset.sum_add_distrib]
    apply Finset.sum_congr rfl; intro r _
    rw [hF.dev, hF.dev, hF.grad, hF.inv, linPred_shift]
    have : ∑ i, D.sw r * (D.y r - linPred ic D.X (off D) w r) * (design ic D.X r i * d i)
      = D.sw r * (D.y r - linPred ic D.X (off D) w r) * ∑ i, design ic D.X r i * d i := by rw [Finset.mul_sum]
    rw [this]; ring
  have hq : ∑ i, ∑ j, gaussH D i j * d i * d j = ∑ r, D.sw r * (∑ k, design ic D.X r k * d k) ^ 2
      + ∑ i, ∑ j, p2Full ic D.P2 i j * d i * d j := by
    unfold gaussH fullHessian
    simp only [add_mul, Finset.sum_add_distrib]
    congr 1
    have : ∀ r, D.sw r * (∑ k, design ic D.X r k * d k) ^ 2
        = ∑ i, ∑ j, design ic D.X r i * D.sw r * design ic D.X r j * d i * d j := by
      intro r
      rw [pow_two, Finset.sum_mul_sum, Finset.mul_sum]
      apply Finset.sum_congr rfl; intro i _
      rw [Finset.mul_sum]
      apply Finset.sum_congr rfl; intro j _; ring
    simp only [this, Finset.sum_mul]
    rw [Finset.sum_comm]
    conv_rhs => rw [Finset.sum_comm]
    conv_lhs => rw [Finset.sum_comm]
    apply Finset.sum_congr rfl; intro i _
    rw [Finset.sum_comm]
  unfold smoothObj
  rw [hr, hd, hq]
  ring

/-- If the full step satisfies Armijo's condition, the line search takes it. -/
theorem full_step (D : IRLSData n p ic) (hP : ∀ k, 0 ≤ D.P1 k) (st : IRLSState n p ic) (hs : Sync D st) (hs1 : HessState ℝ n (p + ic.toNat))
    (d : Fin (p + ic.toNat) → ℝ) (hmu : ∀ r, D.fam.inv (linPred ic D.X (off D) (fun k => st.coef k + d k) r) < D.large)
    (h : objective D (fun k => st.coef k + d k) - objective D st.coef ≤ 1 / 10000 * predictedChange D st.coef d) :
    (lineSearch D { st with hs := hs1 } d).coef = (fun k => st.coef k + d k) ∧
    (lineSearch D { st with hs := hs1 } d).warned = false := by
  have hsp := lineSearch_spec D { st with hs := hs1 } d
  have h0 : candidate st.coef d 0 = fun k => st.coef k + d k := by funext k; simp [candidate]
  have hacc : lsOK D { st with hs := hs1 } d (armijoBound D { st with hs := hs1 } d) (safeLinPred ic D.X d none) 0 := by
    rw [lsOK_iff D hP { st with hs := hs1 } hs.eta hs.obj hs.score]
    left
    simp only [h0, pow_zero, one_mul]
    exact ⟨hmu, h⟩
  have hk : (lineSearch D { st with hs := hs1 } d).k = 0 := by
    by_contra hne
    exact hsp.prev 0 le_rfl (Nat.pos_of_ne_zero hne) hacc
  refine ⟨?_, ?_⟩
  · rw [hsp.coef, hk]; funext k; simp
  · rw [hsp.accept, hk]; exact hacc

theorem run_of_step (inner : Inner n p ic) (D : IRLSData n p ic) (c0 : Fin (p + ic.toNat) → ℝ) (hm : 1 ≤ D.maxIter)
    (h0 : (irlsInit D c0).converged = false)
    (h1 : D.maxIter = 1 ∨ (irlsStep inner D (irlsInit D c0)).converged = true) :
    irlsRun inner D c0 = irlsStep inner D (irlsInit D c0) := by
  unfold irlsRun
  obtain ⟨m, hm'⟩ : ∃ m, D.maxIter = m + 1 := ⟨D.maxIter - 1, by omega⟩
  rw [hm']
  unfold irlsLoop
  rw [if_pos ⟨by change 0 < D.maxIter; omega, h0⟩]
  rcases h1 with h1 | h1
  · have : m = 0 := by omega
    subst this; rfl
  · cases m with
    | zero => rfl
    | succ m =>
      unfold irlsLoop
      rw [if_neg (by rw [h1]; simp)]

theorem run_of_init (inner : Inner n p ic) (D : IRLSData n p ic) (c0 : Fin (p + ic.toNat) → ℝ)
    (h0 : (irlsInit D c0).converged = true) : irlsRun inner D c0 = irlsInit D c0 := by
  unfold irlsRun
  cases D.maxIter with
  | zero => rfl
  | succ m => unfold irlsLoop; rw [if_neg (by rw [h0]; simp)]

/-- The Hessian of the first iteration, on the active set. -/
theorem first_hessian (D : IRLSData n p ic) (hF : SquaredError D.fam) (c0 : Fin (p + ic.toNat) → ℝ) :
    let A := identifyActiveSet D (irlsInit D c0)
    (updateHessian ic D.X D.P2 D.hessApprox (irlsInit D c0).hs A).active = A ∧
    ∀ i ∈ A, ∀ j ∈ A, (updateHessian ic D.X D.P2 D.hessApprox (irlsInit D c0).hs A).H i j = gaussH D i j := by
  intro A
  have hrows : (updateHessian ic D.X D.P2 D.hessApprox (irlsInit D c0).hs A).rows = D.sw := by
    unfold updateHessian
    rw [if_pos (Or.inl (by simp [irlsInit, hessInit]))]
    funext r
    simp only [irlsInit, hessInit, updateQuadratic]
    rw [hF.hess]
  refine ⟨(updateHessian_init ic D.X D.P2 D.hessApprox _ _).2, fun i hi j hj => ?_⟩
  have := updateHessian_block ic D.X D.P2 D.hessApprox (irlsInit D c0).hs (by intro h; simp [irlsInit, hessInit] at h) A
    (activeSet_ok D _) i hi j hj
  rw [this, hrows]; rfl

theorem gaussH_psd (D : IRLSData n p ic) (hD : Convexish D) (hF : SquaredError D.fam) : PosSemidef (gaussH D) := by
  refine (c13_hessian_symm_psd (p := p) ic D.X D.sw D.P2).2 (fun r => ?_) hD.psd
  have := hD.rows r 0
  rwa [hF.hess] at this

theorem l1_zero (P1 : ℕ → ℝ) (hP : ∀ k, P1 k = 0) (u : Fin (p + ic.toNat) → ℝ) : l1 ic P1 u = 0 := by
  unfold l1
  apply Finset.sum_eq_zero
  intro i _
  have : l1Weight ic P1 i = 0 := by
    by_cases h : i.val < ic.toNat
    · exact l1Weight_of_lt ic P1 i h
    · rw [l1Weight_of_ge ic P1 i h, hP]
  rw [this, zero_mul]

/-- The first iteration when its direction satisfies Armijo's condition. -/
theorem one_step (inner : Inner n p ic) (D : IRLSData n p ic) (hP : ∀ k, 0 ≤ D.P1 k) (c0 d : Fin (p + ic.toNat) → ℝ)
    (hs1 : HessState ℝ n (p + ic.toNat))
    (hhs : hs1 = updateHessian ic D.X D.P2 D.hessApprox (irlsInit D c0).hs (identifyActiveSet D (irlsInit D c0)))
    (hdir : (inner D { irlsInit D c0 with hs := hs1 }).1 = d)
    (hmu : ∀ r, D.fam.inv (linPred ic D.X (off D) (fun k => c0 k + d k) r) < D.large)
    (h : objective D (fun k => c0 k + d k) - objective D c0 ≤ 1 / 10000 * predictedChange D c0 d) :
    (irlsStep inner D (irlsInit D c0)).coef = (fun k => c0 k + d k) ∧
    ∀ dg ∈ (irlsStep inner D (irlsInit D c0)).diagnostics, dg.warned = false := by
  have hs0 := visited_sync inner D hP c0 _ Visited.init
  have hls := full_step D hP (irlsInit D c0) hs0 hs1 d hmu h
  rw [← hdir, hhs] at hls
  constructor
  · have : (irlsStep inner D (irlsInit D c0)).coef = _ := hls.1
    rw [this, ← hhs, hdir]; rfl
  · intro dg hdg
    have : (irlsStep inner D (irlsInit D c0)).diagnostics = _ :: (irlsInit D c0).diagnostics := rfl
    rw [this] at hdg
    rcases List.mem_cons.1 hdg with h | h
    · rw [h]; exact hls.2
    · simp only [irlsInit, List.mem_singleton] at h
      rw [h]

/-- With a zero gradient and no L1 penalty nothing is left of the subgradient. -/
theorem norm_zero (D : IRLSData n p ic) (hP : ∀ k, D.P1 k = 0) (w : Fin (p + ic.toNat) → ℝ) (g : Fin (p + ic.toNat) → ℝ) (hg : ∀ k, g k = 0) :
    (normMinSubgrad (List.finRange (p + ic.toNat)) w g D.P1 ic D.lb D.ub).1 = 0 := by
  have e := norm_eq_finset_sum (id : Fin (p + ic.toNat) → _) strictMono_id w g D.P1 ic D.lb D.ub
  rw [List.map_id] at e
  rw [e]
  apply Finset.sum_eq_zero
  intro i _
  simp only [id, absTerm]
  have h0 : ∀ c : ℝ, (if c = 0 then fsign (0 : ℝ) * fmax (|(0 : ℝ)| - 0) 0 else 0 + fsign c * 0) = 0 := by
    intro c; split <;> simp [fsign]
  split
  · rw [hg]; simp
  · unfold subgradTerm
    simp only [hg, hP, h0]
    cases D.lb <;> cases D.ub <;> simp

/-- **C76 (least squares).** Squared-error loss, no L1 penalty, any bounds, offset, weights, start and iteration limit ≥ 1: if the linear
solve of the normal equations succeeds, `irls-ls` ends converged after at most one iteration, without line-search warning, and after
one iteration the gradient of the objective is exactly zero.  (`large`: the limit `1e43`/`1e30` on fitted values.) -/
theorem c76_ls_one_iteration (solve : (Fin (p + ic.toNat) → Fin (p + ic.toNat) → ℝ) → (Fin (p + ic.toNat) → ℝ) →
      (Fin (p + ic.toNat) → ℝ)) (D : IRLSData n p ic) (hD : Convexish D) (hF : SquaredError D.fam) (hP : ∀ k, D.P1 k = 0)
    (hm : 1 ≤ D.maxIter) (hg : 0 < D.gradTol) (c0 : Fin (p + ic.toNat) → ℝ)
    (hsolve : ∀ k, ∑ j, gaussH D k j * solve (gaussH D) (scoreAt D c0) j = scoreAt D c0 k)
    (hmu : ∀ w, objective D w ≤ objective D c0 → ∀ r, linPred ic D.X (off D) w r < D.large) :
    let fin := irlsRun (lsInner solve) D c0
    fin.converged = true ∧ fin.nIter ≤ 1 ∧ (∀ d ∈ fin.diagnostics, d.warned = false) ∧
    (fin.nIter = 1 → ∀ k, scoreAt D fin.coef k = 0) := by
  intro fin
  have hfin : fin = irlsRun (lsInner solve) D c0 := rfl
  have hv0 : Visited (lsInner solve) D c0 (irlsInit D c0) := Visited.init
  have hs0 := visited_sync _ D hD.P1 c0 _ hv0
  by_cases h0 : (irlsInit D c0).converged = true
  · rw [run_of_init _ D c0 h0] at hfin
    rw [hfin]
    refine ⟨h0, by simp [irlsInit], ?_, fun h => by simp [irlsInit] at h⟩
    intro d hd
    simp only [irlsInit, List.mem_singleton] at hd
    rw [hd]
  · have h0' : (irlsInit D c0).converged = false := by simpa using h0
    have hall := c66_no_l1_all_active _ D hP c0 _ hv0
    have hH := first_hessian D hF c0
    simp only [hall] at hH
    set hs1 := updateHessian ic D.X D.P2 D.hessApprox (irlsInit D c0).hs (identifyActiveSet D (irlsInit D c0)) with hhs1
    have hHe : hs1.H = gaussH D := by
      funext i j
      have := hH.2 i (List.mem_finRange i) j (List.mem_finRange j)
      rw [hhs1, hall]; exact this
    have hsc : (irlsInit D c0).score = scoreAt D c0 := funext fun k => hs0.score k
    set d := solve (gaussH D) (scoreAt D c0) with hd
    have hdir : (lsInner solve D { irlsInit D c0 with hs := hs1 }).1 = d := by
      simp only [lsInner, hHe, hsc, hd]
    have hscore : ∀ k, scoreAt D (fun k => c0 k + d k) k = 0 := by
      intro k
      rw [gauss_score D hF hD.symm, hsolve k]; ring
    have hquad : ∑ k, scoreAt D c0 k * d k = ∑ i, ∑ j, gaussH D i j * d i * d j := by
      apply Finset.sum_congr rfl; intro k _
      rw [← hsolve k, Finset.sum_mul]
      apply Finset.sum_congr rfl; intro j _; ring
    have hnn := gaussH_psd D hD hF d
    have harm : objective D (fun k => c0 k + d k) - objective D c0 ≤ 1 / 10000 * predictedChange D c0 d := by
      rw [gauss_objective D hF hD.symm]
      unfold predictedChange
      rw [l1_zero D.P1 hP, l1_zero D.P1 hP, hquad]
      linarith
    have hlevel : objective D (fun k => c0 k + d k) ≤ objective D c0 := by
      have := gauss_objective D hF hD.symm c0 d
      unfold predictedChange at this
      rw [l1_zero D.P1 hP, l1_zero D.P1 hP, hquad] at this
      linarith
    obtain ⟨hstep, hwarn⟩ := one_step (lsInner solve) D hD.P1 c0 d hs1 rfl hdir (fun r => by rw [hF.inv]; exact hmu _ hlevel r) harm
    have hv1 : Visited (lsInner solve) D c0 (irlsStep (lsInner solve) D (irlsInit D c0)) :=
      Visited.step _ hv0 (by change 0 < D.maxIter; omega) h0'
    have hconv : (irlsStep (lsInner solve) D (irlsInit D c0)).converged = true := by
      rw [converged_iff _ D hD.P1 c0 _ hv1]
      left
      rw [norm_zero D hP _ _ (fun k => by rw [hstep, hscore, neg_zero])]
      exact hg
    have hrun := run_of_step _ D c0 hm h0' (Or.inr hconv)
    rw [hrun] at hfin
    rw [hfin]
    exact ⟨hconv, by simp [irlsStep, irlsInit], hwarn, fun _ => by rw [hstep]; exact hscore⟩

/-! ### Coordinate descent -/

section
variable {K : Type*} [Field K] [LinearOrder K] [IsStrictOrderedRing K]

/-- A call of the inner solver is the run of a schedule with (number of cycles) × (size of the active set) visits. -/
theorem cycle_schedule {p a : ℕ} (D : CDData K p a) (st : CDState K p) (w0 q0 : Fin p → K) (seed : BitVec 32) (sched : List (Fin a))
    (h1 : st.w = (D.afterSchedule w0 q0 seed sched).w) (h2 : st.q = (D.afterSchedule w0 q0 seed sched).q) :
    ∃ l : List (Fin a), l.length = a ∧ (D.cycle st).w = (D.afterSchedule w0 q0 seed (sched ++ l)).w ∧
      (D.cycle st).q = (D.afterSchedule w0 q0 seed (sched ++ l)).q := by
  cases a with
  | zero => exact ⟨[], rfl, by simpa [CDData.cycle] using h1, by simpa [CDData.cycle] using h2⟩
  | succ a' =>
    unfold CDData.cycle
    simp only []
    have : ∀ (l : List (Fin (a' + 1))) (st : CDState K p) (sched : List (Fin (a' + 1))),
        st.w = (D.afterSchedule w0 q0 seed sched).w → st.q = (D.afterSchedule w0 q0 seed sched).q →
        ∃ l' : List (Fin (a' + 1)), l'.length = l.length ∧
          (l.foldl (CDData.pass (a := a' + 1) D) st).w = (D.afterSchedule w0 q0 seed (sched ++ l')).w ∧
          (l.foldl (CDData.pass (a := a' + 1) D) st).q = (D.afterSchedule w0 q0 seed (sched ++ l')).q := by
      intro l
      induction l with
      | nil => intro st sched h1 h2; exact ⟨[], rfl, by simpa using h1, by simpa using h2⟩
      | cons x xs ih =>
        intro st sched h1 h2
        rw [List.foldl_cons]
        have hv := visit_congr D (D.pick x st.rng).1 { st with rng := (D.pick x st.rng).2 }
          (D.afterSchedule w0 q0 seed sched) h1 h2
        obtain ⟨l', e1, e2, e3⟩ := ih (CDData.pass D st x) (sched ++ [(D.pick x st.rng).1])
          (by rw [afterSchedule_snoc]; exact hv.1) (by rw [afterSchedule_snoc]; exact hv.2)
        exact ⟨(D.pick x st.rng).1 :: l', by simp [e1], by rw [e2]; simp, by rw [e3]; simp⟩
    obtain ⟨l', e1, e2, e3⟩ := this (List.finRange (a' + 1)) { st with dwMax := 0, wMax := 0 } sched h1 h2
    exact ⟨l', by simpa using e1, e2, e3⟩

theorem loop_schedule {p a : ℕ} (D : CDData K p a) (w0 q0 : Fin p → K) (seed : BitVec 32) (fuel k : ℕ) (norm : K) (st : CDState K p)
    (sched : List (Fin a)) (h1 : st.w = (D.afterSchedule w0 q0 seed sched).w) (h2 : st.q = (D.afterSchedule w0 q0 seed sched).q)
    (hl : sched.length = k * a) :
    ∃ sched' : List (Fin a), sched'.length ≤ (D.loop fuel k norm st).nIter * a ∧
      (D.loop fuel k norm st).w = (D.afterSchedule w0 q0 seed sched').w := by
  induction fuel generalizing k norm st sched with
  | zero => exact ⟨sched, by rw [hl]; exact Nat.mul_le_mul_right _ (by simp only [CDData.loop]; omega), h1⟩
  | succ m ih =>
    obtain ⟨l, e1, e2, e3⟩ := cycle_schedule D st w0 q0 seed sched h1 h2
    have hl' : (sched ++ l).length = (k + 1) * a := by rw [List.length_append, hl, e1]; ring
    unfold CDData.loop
    simp only []
    split
    · split
      · exact ⟨sched ++ l, hl'.le, e2⟩
      · exact ih _ _ _ _ e2 e3 hl'
    · exact ih _ _ _ _ e2 e3 hl'

theorem run_schedule {p a : ℕ} (D : CDData K p a) (w0 q0 : Fin p → K) (seed : BitVec 32) :
    ∃ sched : List (Fin a), sched.length ≤ (D.run w0 q0 seed).nIter * a ∧ (D.run w0 q0 seed).w = (D.afterSchedule w0 q0 seed sched).w :=
  loop_schedule D w0 q0 seed D.maxIter 0 0 _ [] rfl rfl (by simp)

/-- `vᵀ Q v`. -/
def quadForm {a : ℕ} (Q : Fin a → Fin a → K) (v : Fin a → K) : K := ∑ s, ∑ t, Q s t * v s * v t

theorem quadForm_add {a : ℕ} (Q : Fin a → Fin a → K) (hsym : ∀ s t, Q s t = Q t s) (u : Fin a → K) (s : Fin a) (x : K) :
    quadForm Q (fun t => u t + if t = s then x else 0) = quadForm Q u + 2 * x * ∑ t, Q s t * u t + Q s s * x ^ 2 := by
  unfold quadForm
  have : ∀ i j, Q i j * (u i + if i = s then x else 0) * (u j + if j = s then x else 0)
      = Q i j * u i * u j + (if j = s then Q i j * u i * x else 0) + (if i = s then Q i j * u j * x else 0)
        + (if i = s then (if j = s then Q i j * x ^ 2 else 0) else 0) := by
    intro i j
    by_cases hi : i = s <;> by_cases hj : j = s <;> simp [hi, hj] <;> ring
  simp only [this, Finset.sum_add_distrib, Finset.sum_ite_eq', Finset.mem_univ, if_true]
  have e1 : ∑ i, Q i s * u i * x = x * ∑ t, Q s t * u t := by
    rw [Finset.mul_sum]; apply Finset.sum_congr rfl; intro i _; rw [hsym]; ring
  have e2 : ∑ i, (∑ j, if i = s then Q i j * u j * x else 0) = x * ∑ t, Q s t * u t := by
    rw [Finset.sum_eq_single s]
    · simp only [if_true]
      rw [Finset.mul_sum]; apply Finset.sum_congr rfl; intro i _; ring
    · intro b _ hb; simp [hb]
    · simp
  have e3 : ∑ i, (∑ j, if i = s then (if j = s then Q i j * x ^ 2 else 0) else 0) = Q s s * x ^ 2 := by
    rw [Finset.sum_eq_single s]
    · simp
    · intro b _ hb; simp [hb]
    · simp
  rw [e1, e2, e3]; ring

/-- After `k` visits the squared length of the step is at most `2k` times the decrease of the model. -/
theorem schedule_decrease {p a : ℕ} (D : CDData K p a) (hD : D.WF) (hpsd : PSD D.Q) (w0 q0 : Fin p → K) (seed : BitVec 32)
    (hf : InBounds D.intercept D.lb D.ub w0) (sched : List (Fin a)) :
    quadForm D.Q (fun s => (D.afterSchedule w0 q0 seed sched).w (D.active s) - w0 (D.active s))
      ≤ 2 * sched.length * (modelObj D.active D.Q D.intercept D.P1 q0 w0 w0
          - modelObj D.active D.Q D.intercept D.P1 q0 w0 (D.afterSchedule w0 q0 seed sched).w) := by
  induction sched using List.reverseRecOn with
  | nil => simp [quadForm, CDData.afterSchedule]
  | append_singleton l s ih =>
    have hin := afterSchedule_inBounds D hD.bounds w0 q0 seed hf l
    have hinv := afterSchedule_inv D hD w0 q0 seed l
    have hdec := c22_monotone_every_visit D hD w0 q0 seed hf l s
    rw [afterSchedule_snoc] at hdec ⊢
    set st := D.afterSchedule w0 q0 seed l with hst
    set M := fun w => modelObj D.active D.Q D.intercept D.P1 q0 w0 w with hM
    change quadForm _ _ ≤ 2 * ((l ++ [s]).length : K) * (M w0 - M (D.visit s st).w)
    change quadForm _ _ ≤ 2 * (l.length : K) * (M w0 - M st.w) at ih
    have hlen : ((l ++ [s]).length : K) = l.length + 1 := by simp
    rw [hlen]
    by_cases hq : D.Q s s ≤ D.eps
    · rw [visit_skip D s st hq]
      have hnn := hpsd (fun s => st.w (D.active s) - w0 (D.active s))
      change 0 ≤ quadForm D.Q _ at hnn
      have hmono : 0 ≤ M w0 - M st.w := by
        rcases Nat.eq_zero_or_pos l.length with h | h
        · have : l = [] := List.length_eq_zero_iff.1 h
          have e : st.w = w0 := by rw [hst, this]; rfl
          rw [e]; simp
        · by_contra hn
          have : 2 * (l.length : K) * (M w0 - M st.w) < 0 := by
            apply mul_neg_of_pos_of_neg _ (not_le.1 hn)
            have : (0 : K) < l.length := by exact_mod_cast h
            linarith
          linarith
      nlinarith
    · have hq' : D.eps < D.Q s s := not_le.1 hq
      have hqp : 0 < D.Q s s := lt_of_le_of_lt hD.eps hq'
      have hopt := visit_opt D hD.mono.injective hD.symm hD.pos hD.eps hD.bounds w0 q0 s st hinv hq' (st.w (D.active s)) (by
        rw [Function.update_eq_self]; exact hin)
      rw [Function.update_eq_self] at hopt
      set x := (D.visit s st).w (D.active s) - st.w (D.active s) with hx
      have hd : (fun t => (D.visit s st).w (D.active t) - w0 (D.active t))
          = fun t => (st.w (D.active t) - w0 (D.active t)) + if t = s then x else 0 := by
        funext t
        by_cases ht : t = s
        · subst ht; simp [hx]
        · rw [(c20_visit_touches_one_coordinate D s st).1 (D.active t) (fun h => ht (hD.mono.injective h))]
          simp [ht]
      rw [hd]
      have hsq : (st.w (D.active s) - (D.visit s st).w (D.active s)) ^ 2 = x ^ 2 := by rw [hx]; ring
      rw [hsq] at hopt
      change M (D.visit s st).w + 1 / 2 * D.Q s s * x ^ 2 ≤ M st.w at hopt
      set u := fun t => st.w (D.active t) - w0 (D.active t) with hu
      rw [quadForm_add D.Q hD.symm]
      set B := ∑ t, D.Q s t * u t with hB
      rcases Nat.eq_zero_or_pos l.length with h | h
      · have hl : l = [] := List.length_eq_zero_iff.1 h
        have e : st.w = w0 := by rw [hst, hl]; rfl
        have hu0 : u = fun _ => 0 := by rw [hu, e]; funext t; simp
        have hB0 : B = 0 := by rw [hB, hu0]; simp
        have hq0 : quadForm D.Q u = 0 := by rw [hu0]; simp [quadForm]
        rw [hB0, hq0, h]
        rw [e] at hopt
        simp only [Nat.cast_zero]
        linarith
      · have hk : (0 : K) < l.length := by exact_mod_cast h
        have hpos := hpsd (fun t => u t + if t = s then -(l.length : K) * x else 0)
        change 0 ≤ quadForm D.Q _ at hpos
        rw [quadForm_add D.Q hD.symm] at hpos
        -- 0 ≤ q u - 2 k x B + k² Q x²
        have key : (l.length : K) * (2 * x * B) ≤ quadForm D.Q u + (l.length : K) ^ 2 * (D.Q s s * x ^ 2) := by
          rw [← hB] at hpos; linarith [hpos]
        have h3 : (l.length : K) * (quadForm D.Q u + 2 * x * B + D.Q s s * x ^ 2)
            ≤ (l.length : K) * (2 * (l.length + 1) * (M w0 - M (D.visit s st).w)) := by
          have h4 : quadForm D.Q u + (l.length : K) * quadForm D.Q u ≤ (1 + l.length) * (2 * (l.length : K) * (M w0 - M st.w)) := by
            have : 0 ≤ (1 + (l.length : K)) := by linarith
            nlinarith [mul_le_mul_of_nonneg_left ih this]
          have h5 : (l.length : K) * (l.length + 1) * (D.Q s s * x ^ 2)
              ≤ (l.length : K) * (l.length + 1) * (2 * (M st.w - M (D.visit s st).w)) := by
            apply mul_le_mul_of_nonneg_left _ (by positivity)
            linarith
          nlinarith
        exact le_of_mul_le_mul_left h3 hk

end

/-- The call of the coordinate-descent routine in the first iteration. -/
noncomputable def firstCall (seeds : ℕ → BitVec 32) (D : IRLSData n p ic) (c0 : Fin (p + ic.toNat) → ℝ) : CDResult ℝ (p + ic.toNat) :=
  (cdArgs D { irlsInit D c0 with
    hs := updateHessian ic D.X D.P2 D.hessApprox (irlsInit D c0).hs (identifyActiveSet D (irlsInit D c0)) }).run
    c0 (fun k => -scoreAt D c0 k) (seeds 0)

/-- The first step of coordinate descent on a squared-error objective satisfies Armijo's condition if at most 9999 coordinate visits
were made. -/
theorem cd_first_step (seeds : ℕ → BitVec 32) (D : IRLSData n p ic) (hD : Convexish D) (hF : SquaredError D.fam)
    (c0 : Fin (p + ic.toNat) → ℝ) (hin : InBounds ic D.lb D.ub c0)
    (hK : (firstCall seeds D c0).nIter * (p + ic.toNat) ≤ 9999)
    (hmu : ∀ w, objective D w ≤ objective D c0 → ∀ r, linPred ic D.X (off D) w r < D.large) :
    (irlsStep (cdInner seeds) D (irlsInit D c0)).coef = (firstCall seeds D c0).w ∧
    ∀ dg ∈ (irlsStep (cdInner seeds) D (irlsInit D c0)).diagnostics, dg.warned = false := by
  set hs1 := updateHessian ic D.X D.P2 D.hessApprox (irlsInit D c0).hs (identifyActiveSet D (irlsInit D c0)) with hhs1
  set st1 : IRLSState n p ic := { irlsInit D c0 with hs := hs1 } with hst1
  have hv0 : Visited (cdInner seeds) D c0 (irlsInit D c0) := Visited.init
  have hs0 := visited_sync _ D hD.P1 c0 _ hv0
  obtain ⟨hwf, hpsd⟩ := cdArgs_ok D hD (irlsInit D c0) (visited_hessOK _ D hD c0 _ hv0) st1 rfl
  have hfc : firstCall seeds D c0 = (cdArgs D st1).run c0 (fun k => -scoreAt D c0 k) (seeds 0) := rfl
  set w := (firstCall seeds D c0).w with hw
  obtain ⟨sched, hlen, hsw⟩ := run_schedule (cdArgs D st1) c0 (fun k => -scoreAt D c0 k) (seeds 0)
  rw [← hfc] at hlen hsw
  have hact := (first_hessian D hF c0).1
  have hoff : ∀ i, i ∉ Set.range (cdArgs D st1).active → w i = c0 i := by
    intro i hi
    rw [hw, hsw]
    exact (c21_gradient_bookkeeping _ hwf _ _ _ sched).2 i hi
  have hQ : ∀ s t, (cdArgs D st1).Q s t = gaussH D ((cdArgs D st1).active s) ((cdArgs D st1).active t) := by
    intro s t
    refine (first_hessian D hF c0).2 _ ?_ _ ?_
    · rw [← hact]; exact List.get_mem _ _
    · rw [← hact]; exact List.get_mem _ _
  have hinj := hwf.mono.injective
  have hdir : (cdInner seeds D st1).1 = fun k => w k - c0 k := by
    have : (cdInner seeds D st1).1 = fun k => ((cdArgs D st1).run st1.coef (fun k => -st1.score k) (seeds st1.nIter)).w k - st1.coef k := rfl
    rw [this]
    have e : (fun k => -st1.score k) = fun k => -scoreAt D c0 k := funext fun k => by rw [hst1]; simp only; rw [hs0.score k]; rfl
    rw [e]; rfl
  have hadd : (fun k => c0 k + (w k - c0 k)) = w := by funext k; ring
  have hq2 : ∑ i, ∑ j, gaussH D i j * (w i - c0 i) * (w j - c0 j)
      = quadForm (cdArgs D st1).Q (fun s => w ((cdArgs D st1).active s) - c0 ((cdArgs D st1).active s)) := by
    unfold quadForm
    rw [sum_active _ hinj (fun i => ∑ j, gaussH D i j * (w i - c0 i) * (w j - c0 j)) (fun i hi => by rw [hoff i hi]; simp)]
    apply Finset.sum_congr rfl; intro s _
    rw [sum_active _ hinj (fun j => gaussH D ((cdArgs D st1).active s) j * (w ((cdArgs D st1).active s) - c0 ((cdArgs D st1).active s))
      * (w j - c0 j)) (fun i hi => by rw [hoff i hi]; simp)]
    apply Finset.sum_congr rfl; intro t _
    rw [hQ]
  have hlin : ∑ k, scoreAt D c0 k * (w k - c0 k) = ∑ s, scoreAt D c0 ((cdArgs D st1).active s) *
      (w ((cdArgs D st1).active s) - c0 ((cdArgs D st1).active s)) :=
    sum_active _ hinj _ fun i hi => by rw [hoff i hi]; simp
  have hm0 : modelObj (cdArgs D st1).active (cdArgs D st1).Q ic D.P1 (fun k => -scoreAt D c0 k) c0 c0 = l1 ic D.P1 c0 := by
    unfold modelObj; rw [quad_zero, zero_add]
  have hm1 : modelObj (cdArgs D st1).active (cdArgs D st1).Q ic D.P1 (fun k => -scoreAt D c0 k) c0 w
      = predictedChange D c0 (fun k => w k - c0 k) + l1 ic D.P1 c0 + 1 / 2 * ∑ i, ∑ j, gaussH D i j * (w i - c0 i) * (w j - c0 j) := by
    unfold modelObj quad predictedChange
    rw [hadd, hlin, hq2]
    simp only [neg_mul, Finset.sum_neg_distrib]
    unfold quadForm
    ring
  have hdec := schedule_decrease (cdArgs D st1) hwf hpsd c0 (fun k => -scoreAt D c0 k) (seeds 0) hin sched
  rw [← hsw, ← hq2] at hdec
  have hnw := c22_run_not_worse (cdArgs D st1) hwf c0 (fun k => -scoreAt D c0 k) (seeds 0) hin
  rw [← hfc] at hnw
  change _ ≤ 2 * (sched.length : ℝ) * (modelObj (cdArgs D st1).active (cdArgs D st1).Q ic D.P1 (fun k => -scoreAt D c0 k) c0 c0
    - modelObj (cdArgs D st1).active (cdArgs D st1).Q ic D.P1 (fun k => -scoreAt D c0 k) c0 w) at hdec
  change modelObj (cdArgs D st1).active (cdArgs D st1).Q ic D.P1 (fun k => -scoreAt D c0 k) c0 w
    ≤ modelObj (cdArgs D st1).active (cdArgs D st1).Q ic D.P1 (fun k => -scoreAt D c0 k) c0 c0 at hnw
  rw [hm0, hm1] at hdec hnw
  set q := ∑ i, ∑ j, gaussH D i j * (w i - c0 i) * (w j - c0 j) with hq
  set m := predictedChange D c0 (fun k => w k - c0 k) with hmdef
  have ha : st1.hs.active.length ≤ p + ic.toNat := by
    have := hwf.mono.injective
    have h2 := Fintype.card_le_of_injective _ this
    simpa using h2
  have hKn : sched.length ≤ 9999 := le_trans hlen (le_trans (Nat.mul_le_mul_left _ ha) hK)
  have hKr : (sched.length : ℝ) ≤ 9999 := by exact_mod_cast hKn
  have harm : objective D (fun k => c0 k + (w k - c0 k)) - objective D c0 ≤ 1 / 10000 * predictedChange D c0 (fun k => w k - c0 k) := by
    rw [gauss_objective D hF hD.symm, ← hmdef, ← hq]
    have h1 : 0 ≤ -(m + 1 / 2 * q) := by linarith
    have h2 : q ≤ 2 * 9999 * (-(m + 1 / 2 * q)) := by
      refine le_trans hdec ?_
      have : 2 * (sched.length : ℝ) * (l1 ic D.P1 c0 - (m + l1 ic D.P1 c0 + 1 / 2 * q)) = 2 * (sched.length : ℝ) * (-(m + 1 / 2 * q)) := by ring
      rw [this]
      exact mul_le_mul_of_nonneg_right (by linarith) h1
    linarith
  have hlevel : objective D w ≤ objective D c0 := by
    have := gauss_objective D hF hD.symm c0 (fun k => w k - c0 k)
    rw [hadd, ← hmdef, ← hq] at this
    linarith
  obtain ⟨h1, h2⟩ := one_step (cdInner seeds) D hD.P1 c0 (fun k => w k - c0 k) hs1 rfl hdir
    (fun r => by rw [hF.inv, hadd]; exact hmu w hlevel r) harm
  exact ⟨by rw [h1, hadd], h2⟩

/-- **C76 (coordinate descent).** Squared-error loss with an L1 penalty but no intercept, or with an intercept but no L1 penalty; any
bounds, offset, weights, feasible start: if the inner solver raised no warning and made at most 9999 coordinate visits, then `irls-cd`, given
one iteration and `gradient_tol` as inner tolerance, ends with a subgradient norm of at most `gradient_tol`, without line-search warning, and
converged unless that norm equals `gradient_tol` exactly. -/
theorem c76_cd_one_iteration_partial (seeds : ℕ → BitVec 32) (D : IRLSData n p ic) (hD : Convexish D) (hF : SquaredError D.fam)
    (hA : ic = false ∨ ∀ k, D.P1 k = 0) (hpos : 0 < p + ic.toNat) (hm : D.maxIter = 1) (hmi : 1 ≤ D.maxInnerIter) (hg : D.fixedInnerTol = some D.gradTol)
    (c0 : Fin (p + ic.toNat) → ℝ) (hin : InBounds ic D.lb D.ub c0)
    (hok : (firstCall seeds D c0).warned = false) (hK : (firstCall seeds D c0).nIter * (p + ic.toNat) ≤ 9999)
    (hmu : ∀ w, objective D w ≤ objective D c0 → ∀ r, linPred ic D.X (off D) w r < D.large) :
    let fin := irlsRun (cdInner seeds) D c0
    fin.norm ≤ D.gradTol ∧ (fin.norm ≠ D.gradTol → fin.converged = true) ∧ (∀ d ∈ fin.diagnostics, d.warned = false) ∧
    (fin.nIter = 1 → fin.coef = (firstCall seeds D c0).w) := by
  intro fin
  have hfin : fin = irlsRun (cdInner seeds) D c0 := rfl
  have hv0 : Visited (cdInner seeds) D c0 (irlsInit D c0) := Visited.init
  have hs0 := visited_sync _ D hD.P1 c0 _ hv0
  have hnorm : ∀ st, Visited (cdInner seeds) D c0 st →
      st.norm = (normMinSubgrad (List.finRange (p + ic.toNat)) st.coef (fun i => -scoreAt D st.coef i) D.P1 ic D.lb D.ub).1 := by
    intro st hv
    have hch := visited_checked _ _ _ _ hv
    rw [Prod.ext_iff, Prod.ext_iff] at hch
    have h3 := hch.2.1
    have hsc := (visited_sync _ _ hD.P1 _ _ hv).score
    simp only [checkConvergence, hsc] at h3
    exact h3
  have hconv : ∀ st, Visited (cdInner seeds) D c0 st → st.norm < D.gradTol → st.converged = true := by
    intro st hv h
    rw [converged_iff _ D hD.P1 c0 _ hv]
    left
    rw [← hnorm st hv]; exact h
  by_cases h0 : (irlsInit D c0).converged = true
  · have hr := run_of_init (cdInner seeds) D c0 h0
    rw [hr] at hfin
    rw [hfin]
    have hlt := (c33_step_rule_initially_false D hD.P1 c0 hpos).1 h0
    refine ⟨by rw [hnorm _ hv0]; exact hlt.le, fun _ => h0, ?_, fun h => by simp [irlsInit] at h⟩
    intro d hd
    simp only [irlsInit, List.mem_singleton] at hd
    rw [hd]
  · have h0' : (irlsInit D c0).converged = false := by simpa using h0
    have hrun := run_of_step (cdInner seeds) D c0 (by omega) h0' (Or.inl hm)
    rw [hrun] at hfin
    obtain ⟨hstep, hwarn⟩ := cd_first_step seeds D hD hF c0 hin hK hmu
    have hv1 : Visited (cdInner seeds) D c0 (irlsStep (cdInner seeds) D (irlsInit D c0)) :=
      Visited.step _ hv0 (by change 0 < D.maxIter; omega) h0'
    have hall : identifyActiveSet D (irlsInit D c0) = List.finRange (p + ic.toNat) := by
      rcases hA with h | h
      · subst h; exact c66_no_intercept_all_active _ D c0 _ hv0
      · exact c66_no_l1_all_active _ D h c0 _ hv0
    set st1 : IRLSState n p ic := { irlsInit D c0 with
      hs := updateHessian ic D.X D.P2 D.hessApprox (irlsInit D c0).hs (identifyActiveSet D (irlsInit D c0)) } with hst1
    obtain ⟨hwf, hpsd⟩ := cdArgs_ok D hD (irlsInit D c0) (visited_hessOK _ D hD c0 _ hv0) st1 rfl
    have hact : st1.hs.active = List.finRange (p + ic.toNat) := (first_hessian D hF c0).1.trans hall
    have hmap : (List.finRange st1.hs.active.length).map (cdArgs D st1).active = List.finRange (p + ic.toNat) := by
      rw [← hact]; exact List.map_get_finRange _
    have hrange : ∀ i, i ∈ Set.range (cdArgs D st1).active := by
      intro i
      have : i ∈ (List.finRange st1.hs.active.length).map (cdArgs D st1).active := by rw [hmap]; exact List.mem_finRange i
      obtain ⟨s, -, hs⟩ := List.mem_map.1 this
      exact ⟨s, hs⟩
    have hfc : firstCall seeds D c0 = (cdArgs D st1).run c0 (fun k => -scoreAt D c0 k) (seeds 0) := rfl
    set w := (firstCall seeds D c0).w with hw
    have hQ : ∀ s t, (cdArgs D st1).Q s t = gaussH D ((cdArgs D st1).active s) ((cdArgs D st1).active t) := by
      intro s t
      refine (first_hessian D hF c0).2 _ ?_ _ ?_ <;> rw [hall] <;> exact List.mem_finRange _
    obtain ⟨htol, heq⟩ := (c24_exit_status (cdArgs D st1) hwf c0 (fun k => -scoreAt D c0 k) (seeds 0) hmi).2.2 hok
    have hgrad : ∀ s, -scoreAt D w ((cdArgs D st1).active s)
        = quadGrad (cdArgs D st1).active (cdArgs D st1).Q (fun k => -scoreAt D c0 k) c0 w s := by
      intro s
      have e : w = fun k => c0 k + (w k - c0 k) := by funext k; ring
      rw [e, gauss_score D hF hD.symm, ← e]
      unfold quadGrad
      rw [sum_active _ hwf.mono.injective (fun j => gaussH D ((cdArgs D st1).active s) j * (w j - c0 j)) (fun i hi => absurd (hrange i) hi)]
      simp only [hQ]
      ring
    have hn := heq (fun i => -scoreAt D w i) hgrad
    rw [hmap] at hn
    have htolD : (cdArgs D st1).tol = D.gradTol := by
      have hch := visited_checked _ _ _ _ hv0
      rw [Prod.ext_iff, Prod.ext_iff, Prod.ext_iff] at hch
      have h4 : (irlsInit D c0).innerTol = _ := hch.2.2.2
      change (irlsInit D c0).innerTol = _
      rw [h4]
      simp only [checkConvergence, hg]
    have hle : (irlsStep (cdInner seeds) D (irlsInit D c0)).norm ≤ D.gradTol := by
      rw [hnorm _ hv1, hstep, ← htolD]
      exact le_trans (le_of_eq hn.symm) htol
    rw [hfin]
    exact ⟨hle, fun hne => hconv _ hv1 (lt_of_le_of_ne hle hne), hwarn, fun _ => hstep⟩

end Glum
