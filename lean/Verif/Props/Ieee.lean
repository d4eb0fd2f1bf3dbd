import Verif.Model.Ieee
/-
C107: NaN and the IRLS solvers.
-/
set_option linter.unusedSectionVars false
set_option linter.unusedVariables false
set_option linter.unusedSimpArgs false

namespace Glum

variable {F : Type} (A : Ieee F) {n m p : ℕ}

theorem foldl_add_nan (l : List F) (acc : F) (h : A.isNaN acc ∨ ∃ x ∈ l, A.isNaN x) : A.isNaN (l.foldl A.add acc) := by
  induction l generalizing acc with
  | nil => rcases h with h | ⟨x, hx, -⟩ <;> [exact h; cases hx]
  | cons y l ih =>
    apply ih
    rcases h with h | ⟨x, hx, hn⟩
    · exact Or.inl (A.add_left _ _ h)
    · rcases List.mem_cons.1 hx with rfl | hx
      · exact Or.inl (A.add_right _ _ hn)
      · exact Or.inr ⟨x, hx, hn⟩

theorem sum_nan (l : List F) (h : ∃ x ∈ l, A.isNaN x) : A.isNaN (A.sum l) := foldl_add_nan A l _ (Or.inr h)

theorem lt_nan_left {x y : F} (h : A.isNaN x) : A.lt x y = false := by
  by_contra hc
  exact (A.lt_num x y (by simpa using hc)).1 h

theorem lt_nan_right {x y : F} (h : A.isNaN y) : A.lt x y = false := by
  by_contra hc
  exact (A.lt_num x y (by simpa using hc)).2 h

theorem le_nan_left {x y : F} (h : A.isNaN x) : A.le x y = false := by
  by_contra hc
  exact (A.le_num x y (by simpa using hc)).1 h

theorem eq_nan_left {x y : F} (h : A.isNaN x) : A.eq x y = false := by
  by_contra hc
  exact (A.eq_num x y (by simpa using hc)).1 h

theorem eq_nan_right {x y : F} (h : A.isNaN y) : A.eq x y = false := by
  by_contra hc
  exact (A.eq_num x y (by simpa using hc)).2 h

/-! ### The stopping rule -/

/-- The accumulation of `normMinSubgradI`. -/
theorem norm_nan_keep (coef grad : Fin m → F) (P1 : ℕ → F) (ic : Bool) (lb ub : Option (ℕ → F)) (l : List (Fin m)) (acc : F)
    (hi : ∀ i ∈ l, i.val < ic.toNat → A.isNaN (grad i)) (h : A.isNaN acc) :
    A.isNaN (l.foldl (fun acc i =>
      if i.val < ic.toNat then A.abs (grad i)
      else A.add acc (A.abs (subgradTermI A (coef i) (grad i) (P1 (i.val - ic.toNat)) (lb.map (· (i.val - ic.toNat))) (ub.map (· (i.val - ic.toNat)))))) acc) := by
  induction l generalizing acc with
  | nil => exact h
  | cons x l ih =>
    apply ih
    · exact fun i hm => hi i (List.mem_cons_of_mem _ hm)
    · by_cases hx : x.val < ic.toNat
      · simp only [if_pos hx]
        exact A.abs_nan _ (hi x List.mem_cons_self hx)
      · simp only [if_neg hx]
        exact A.add_left _ _ h

theorem norm_nan_intercept (coef grad : Fin m → F) (P1 : ℕ → F) (lb ub : Option (ℕ → F)) (k : Fin m) (hk : k.val = 0) (h : A.isNaN (grad k)) :
    A.isNaN (normMinSubgradI A coef grad P1 true lb ub) := by
  unfold normMinSubgradI
  have hk' : ∀ i : Fin m, i.val < true.toNat → i = k := fun i hi => Fin.ext (by simp at hi; omega)
  have hm : k ∈ List.finRange m := List.mem_finRange k
  obtain ⟨l1, l2, e⟩ := List.append_of_mem hm
  rw [e, List.foldl_append, List.foldl_cons]
  apply norm_nan_keep
  · intro i _ hi
    rw [hk' i hi]; exact h
  · rw [if_pos (by rw [hk]; decide)]
    exact A.abs_nan _ h

/-- The term of a non-zero coefficient is NaN if its gradient is. -/
theorem term_nan (c g P1 : F) (lb ub : Option F) (hc : A.eq c A.zero = false) (h : A.isNaN g) : A.isNaN (subgradTermI A c g P1 lb ub) := by
  unfold subgradTermI
  simp only [hc, Bool.false_eq_true, if_false]
  have h0 : A.isNaN (A.add g (A.mul (fsignI A c) P1)) := A.add_left _ _ h
  have lo : ∀ (x : F) (b : Bool), A.isNaN x → A.isNaN (if (b && A.lt A.zero x) = true then A.zero else x) := by
    intro x b hx
    rw [lt_nan_right A hx, Bool.and_false, if_neg Bool.false_ne_true]
    exact hx
  have hi : ∀ (x : F) (b : Bool), A.isNaN x → A.isNaN (if (b && A.lt x A.zero) = true then A.zero else x) := by
    intro x b hx
    rw [lt_nan_left A hx, Bool.and_false, if_neg Bool.false_ne_true]
    exact hx
  cases lb with
  | none =>
    cases ub with
    | none => exact h0
    | some u => exact hi _ _ h0
  | some l =>
    cases ub with
    | none => exact lo _ _ h0
    | some u => exact hi _ _ (lo _ _ h0)

theorem norm_nan_feature (coef grad : Fin m → F) (P1 : ℕ → F) (ic : Bool) (lb ub : Option (ℕ → F)) (k : Fin m) (hk : ic.toNat ≤ k.val)
    (hc : A.eq (coef k) A.zero = false) (h : A.isNaN (grad k)) : A.isNaN (normMinSubgradI A coef grad P1 ic lb ub) := by
  have hic : ic.toNat ≤ 1 := by cases ic <;> simp
  have keep : ∀ (l : List (Fin m)) (acc : F), (∀ i ∈ l, ic.toNat ≤ i.val) → (A.isNaN acc ∨ k ∈ l) →
      A.isNaN (l.foldl (fun acc i =>
      if i.val < ic.toNat then A.abs (grad i)
      else A.add acc (A.abs (subgradTermI A (coef i) (grad i) (P1 (i.val - ic.toNat)) (lb.map (· (i.val - ic.toNat))) (ub.map (· (i.val - ic.toNat)))))) acc) := by
    intro l
    induction l with
    | nil => intro acc _ h; rcases h with h | h <;> [exact h; cases h]
    | cons x l ih =>
      intro acc hl hh
      apply ih
      · exact fun i hm => hl i (List.mem_cons_of_mem _ hm)
      · have hx := hl x List.mem_cons_self
        simp only [if_neg (not_lt.2 hx)]
        rcases hh with hh | hh
        · exact Or.inl (A.add_left _ _ hh)
        · rcases List.mem_cons.1 hh with rfl | hh
          · exact Or.inl (A.add_right _ _ (A.abs_nan _ (term_nan A _ _ _ _ _ hc h)))
          · exact Or.inr hh
  unfold normMinSubgradI
  cases m with
  | zero => exact k.elim0
  | succ m' =>
    rw [List.finRange_succ, List.foldl_cons]
    by_cases hk0 : k = 0
    · subst hk0
      have hz : ic.toNat = 0 := by simpa using hk
      apply keep
      · intro i _; omega
      · left
        rw [if_neg (by omega)]
        exact A.add_right _ _ (A.abs_nan _ (term_nan A _ _ _ _ _ hc h))
    · apply keep
      · intro i hm
        obtain ⟨j, -, rfl⟩ := List.mem_map.1 hm
        simp only [Fin.val_succ]; omega
      · right
        obtain ⟨j, rfl⟩ := Fin.exists_succ_eq.2 hk0
        exact List.mem_map.2 ⟨j, List.mem_finRange j, rfl⟩

theorem score_nan (D : IrlsI F n m) (coef : Fin m → F) (eta : Fin n → F) (k : Fin m) (i : Fin n) (h : A.isNaN (D.gradRow i (eta i))) :
    A.isNaN (D.scoreAt A coef eta k) := by
  unfold IrlsI.scoreAt
  apply A.sub_left
  apply sum_nan
  refine ⟨_, List.mem_map.2 ⟨i, List.mem_finRange i, rfl⟩, ?_⟩
  split
  · exact h
  · exact A.mul_left _ _ h

theorem conv_of_norm_nan (D : IrlsI F n m) (ht : D.stepTol = none) (coef step score : Fin m → F)
    (h : A.isNaN (normMinSubgradI A coef (fun k => A.neg (score k)) D.P1 D.ic D.lb D.ub)) : D.conv A coef step score = false := by
  unfold IrlsI.conv
  rw [lt_nan_left A h, ht]
  rfl

/-- **C107.** With an intercept (and no `step_size_tol`), if the gradient of a single observation is NaN (a NaN weight, response, offset, linear
predictor), the state is never reported as converged, whatever the coefficients, penalties and bounds. -/
theorem c107_nan_row_not_converged_partial (D : IrlsI F n m) (hic : D.ic = true) (hm : 0 < m) (ht : D.stepTol = none) (coef step : Fin m → F) (eta : Fin n → F)
    (i : Fin n) (h : A.isNaN (D.gradRow i (eta i))) : D.conv A coef step (D.scoreAt A coef eta) = false := by
  apply conv_of_norm_nan A D ht
  rw [hic]
  exact norm_nan_intercept A _ _ _ _ _ ⟨0, hm⟩ rfl (A.neg_nan _ (score_nan A D coef eta _ i h))

/-- **C107.** With or without intercept: if a coefficient is not zero (for example NaN), a NaN in its gradient prevents convergence. -/
theorem c107_nonzero_coefficient_partial (D : IrlsI F n m) (ht : D.stepTol = none) (coef step : Fin m → F) (eta : Fin n → F)
    (k : Fin m) (hk : D.ic.toNat ≤ k.val) (hc : A.eq (coef k) A.zero = false) (i : Fin n) (h : A.isNaN (D.gradRow i (eta i))) :
    D.conv A coef step (D.scoreAt A coef eta) = false :=
  conv_of_norm_nan A D ht _ _ _ (norm_nan_feature A _ _ _ _ _ _ k hk hc (A.neg_nan _ (score_nan A D coef eta _ i h)))

/-! ### What is returned -/

theorem loop_inv (D : IrlsI F n m) (dir : StateI F n m → Option (Fin m → F)) (trial : StateI F n m → ℕ) (I : StateI F n m → Prop)
    (hstep : ∀ st st', I st → irlsStepI A D dir trial st = some st' → I st') (fuel : ℕ) (st fin : StateI F n m) (h0 : I st)
    (h : irlsLoopI A D dir trial fuel st = some fin) : I fin := by
  induction fuel generalizing st with
  | zero => simp only [irlsLoopI, Option.some.injEq] at h; exact h ▸ h0
  | succ f ih =>
    simp only [irlsLoopI] at h
    split at h
    · rw [Option.bind_eq_some_iff] at h
      obtain ⟨st', e, h'⟩ := h
      exact ih st' (hstep st st' h0 e) h'
    · rw [Option.some.injEq] at h; exact h ▸ h0

theorem step_spec (D : IrlsI F n m) (dir : StateI F n m → Option (Fin m → F)) (trial : StateI F n m → ℕ) (st st' : StateI F n m)
    (h : irlsStepI A D dir trial st = some st') :
    ∃ d, dir st = some d ∧ (∀ j, A.isFinite (A.mul (D.factor (trial st)) (d j))) ∧
      (st'.coef = fun j => A.add (st.coef j) (A.mul (D.factor (trial st)) (d j))) ∧ D.normOk A st'.coef ∧ st'.nIter = st.nIter + 1 := by
  unfold irlsStepI at h
  rw [Option.bind_eq_some_iff] at h
  obtain ⟨d, hd, h⟩ := h
  simp only at h
  split at h
  · next hc =>
    obtain rfl := Option.some.inj h
    exact ⟨d, hd, hc.2.2.2, rfl, hc.2.2.1 _ le_rfl, rfl⟩
  · cases h

theorem init_spec (D : IrlsI F n m) (coef : Fin m → F) (st : StateI F n m) (h : irlsInitI A D coef = some st) :
    st.coef = coef ∧ D.normOk A coef ∧ st.nIter = 0 ∧ st.score = D.scoreAt A coef st.eta ∧
      (∀ i, st.eta i = A.add A.zero (A.mul A.one (match D.offset with
        | some o => A.add (linPredI A D.ic D.X coef i) (o i)
        | none => linPredI A D.ic D.X coef i))) ∧
      st.converged = D.conv A coef (fun _ => D.stepTol.getD A.zero) st.score := by
  unfold irlsInitI at h
  simp only at h
  split at h
  · next hc =>
    obtain rfl := Option.some.inj h
    exact ⟨rfl, hc.1, rfl, rfl, fun _ => rfl, rfl⟩
  · cases h

/-- **C107.** Whatever the data (NaN and infinities anywhere in design, response, weights, offset, penalties), the inner solver, the line search, the
number of iterations: if the IRLS solver returns, from start values that are not NaN, then no coefficient is NaN. -/
theorem c107_no_nan_coefficients (D : IrlsI F n m) (dir : StateI F n m → Option (Fin m → F)) (trial : StateI F n m → ℕ) (coef : Fin m → F)
    (hstart : ∀ k, ¬ A.isNaN (coef k)) (fin : StateI F n m) (h : irlsRunI A D dir trial coef = some fin) (k : Fin m) : ¬ A.isNaN (fin.coef k) := by
  unfold irlsRunI at h
  rw [Option.bind_eq_some_iff] at h
  obtain ⟨st, e, h⟩ := h
  refine loop_inv A D dir trial (fun s => ∀ k, ¬ A.isNaN (s.coef k)) ?_ _ st fin ?_ h k
  · intro s s' hs he k
    obtain ⟨d, -, hf, hcf, -⟩ := step_spec A D dir trial s s' he
    rw [hcf]
    exact A.add_finite _ _ (hs k) (hf k)
  · rw [(init_spec A D coef st e).1]; exact hstart

/-- **C107.** ... and the coefficients of the features are finite (for any start values). -/
theorem c107_features_finite (D : IrlsI F n m) (dir : StateI F n m → Option (Fin m → F)) (trial : StateI F n m → ℕ) (coef : Fin m → F)
    (fin : StateI F n m) (h : irlsRunI A D dir trial coef = some fin) (k : Fin m) (hk : D.ic.toNat ≤ k.val) : A.isFinite (fin.coef k) := by
  unfold irlsRunI at h
  rw [Option.bind_eq_some_iff] at h
  obtain ⟨st, e, h⟩ := h
  have : D.normOk A fin.coef := by
    refine loop_inv A D dir trial (fun s => D.normOk A s.coef) ?_ _ st fin ?_ h
    · intro s s' hs he
      obtain ⟨d, -, -, -, hn, -⟩ := step_spec A D dir trial s s' he
      exact hn
    · obtain ⟨e1, e2, -⟩ := init_spec A D coef st e
      rw [e1]; exact e2
  exact A.mul_finite_right _ _ (this k hk)

/-! ### Coordinate descent -/

theorem visit_other {a : ℕ} (D : CDDataI F m a) (s : Fin a) (st : (Fin m → F) × (Fin m → F)) (k : Fin m) (hk : D.active s ≠ k) :
    (D.visit A s st).1 k = st.1 k := by
  unfold CDDataI.visit
  simp only
  split
  · rfl
  · exact Function.update_of_ne (fun e => hk e.symm) _ _

theorem visit_nan {a : ℕ} (D : CDDataI F m a) (hic : D.intercept = true) (s : Fin a) (st : (Fin m → F) × (Fin m → F)) (hs : (D.active s).val = 0)
    (hQ : A.isNaN (D.Q s s)) : A.isNaN ((D.visit A s st).1 (D.active s)) := by
  unfold CDDataI.visit
  simp only [le_nan_left A hQ, Bool.false_eq_true, if_false, Function.update_self]
  unfold CDDataI.clamp
  rw [if_pos (by rw [hs, hic]; decide)]
  exact A.div_right _ _ hQ

theorem run_nan {a : ℕ} (D : CDDataI F m a) (hic : D.intercept = true) (visits : List (Fin a)) (w q : Fin m → F) (k : Fin m) (hk : k.val = 0)
    (hQ : ∀ s, D.active s = k → A.isNaN (D.Q s s)) (hv : ∃ s ∈ visits, D.active s = k) : A.isNaN (D.run A visits w q k) := by
  unfold CDDataI.run
  have key : ∀ (l : List (Fin a)) (st : (Fin m → F) × (Fin m → F)), (A.isNaN (st.1 k) ∨ ∃ s ∈ l, D.active s = k) →
      A.isNaN ((l.foldl (fun st s => D.visit A s st) st).1 k) := by
    intro l
    induction l with
    | nil => intro st h; rcases h with h | ⟨s, hs, -⟩ <;> [exact h; cases hs]
    | cons x l ih =>
      intro st h
      apply ih
      by_cases hx : D.active x = k
      · left
        rw [← hx]
        exact visit_nan A D hic x st (by rw [hx]; exact hk) (hQ x hx)
      · rcases h with h | ⟨s, hs, hsk⟩
        · left; rw [visit_other A D x st k hx]; exact h
        · right
          rcases List.mem_cons.1 hs with rfl | hs
          · exact absurd hsk hx
          · exact ⟨s, hs, hsk⟩
  exact key visits _ (Or.inr hv)

theorem run_step_none (D : IrlsI F n m) (dir : StateI F n m → Option (Fin m → F)) (trial : StateI F n m → ℕ) (coef : Fin m → F) (hmax : 0 < D.maxIter)
    (hconv : ∀ st, irlsInitI A D coef = some st → st.converged = false) (hdir : ∀ st d, irlsInitI A D coef = some st → dir st = some d → ∃ k, A.isNaN (d k)) :
    irlsRunI A D dir trial coef = none := by
  unfold irlsRunI
  cases e : irlsInitI A D coef with
  | none => rfl
  | some st =>
    obtain ⟨-, -, hn, -⟩ := init_spec A D coef st e
    obtain ⟨M, hM⟩ := Nat.exists_eq_succ_of_ne_zero hmax.ne'
    rw [Option.bind_some, hM]
    simp only [irlsLoopI]
    rw [if_pos ⟨by rw [hn]; exact hmax, hconv st e⟩]
    cases e2 : irlsStepI A D dir trial st with
    | none => rfl
    | some st' =>
      exfalso
      obtain ⟨d, hd, hf, -⟩ := step_spec A D dir trial st st' e2
      obtain ⟨k, hk⟩ := hdir st d e hd
      exact A.finite_not_nan _ (hf k) (A.mul_right _ _ hk)

/-- **C107.** Solver `irls-cd` with an intercept whose starting value is NaN (the initial guess from NaN weights or offsets): the fit raises instead of
returning.  The rows of the gradient are NaN where the linear predictor is; any active sets, Hessians, orders of the coordinates, step lengths. -/
theorem c107_nan_guess_raises (D : IrlsI F n m) (hn : 0 < n) (hic : D.ic = true) (ht : D.stepTol = none) (hmax : 0 < D.maxIter)
    (hrow : ∀ i e, A.isNaN e → A.isNaN (D.gradRow i e)) (coef : Fin m → F) (k0 : Fin m) (hk : k0.val = 0) (hstart : A.isNaN (coef k0))
    (a : StateI F n m → ℕ) (active : (st : StateI F n m) → Fin (a st) → Fin m) (Q : (st : StateI F n m) → Fin (a st) → Fin (a st) → F) (eps : F)
    (visits : (st : StateI F n m) → List (Fin (a st))) (trial : StateI F n m → ℕ) :
    irlsRunI A D (fun st => some (cdDirI A D (active st) (Q st) eps (visits st) st)) trial coef = none := by
  have hk0 : 0 < m := by have := k0.isLt; omega
  apply run_step_none A D _ _ _ hmax
  · intro st e
    obtain ⟨-, -, -, e1, e2, e3⟩ := init_spec A D coef st e
    rw [e3, e1]
    refine c107_nan_row_not_converged_partial A D hic hk0 ht _ _ _ ⟨0, hn⟩ (hrow _ _ ?_)
    rw [e2]
    apply A.add_right
    apply A.mul_right
    have hl : A.isNaN (linPredI A D.ic D.X coef ⟨0, hn⟩) := by
      apply sum_nan
      refine ⟨_, List.mem_map.2 ⟨k0, List.mem_finRange k0, rfl⟩, ?_⟩
      rw [if_pos (by rw [hk, hic]; decide)]
      exact hstart
    cases D.offset with
    | none => exact hl
    | some o => exact A.add_left _ _ hl
  · intro st d e hd
    obtain rfl := Option.some.inj hd
    refine ⟨k0, ?_⟩
    unfold cdDirI
    apply A.sub_right
    rw [(init_spec A D coef st e).1]
    exact hstart

/-- **C107.** Solver `irls-cd` with an intercept and a NaN weight (so that a row of the gradient and the Hessian is NaN wherever the linear predictor is),
from any start values: the fit raises.  In the first pass the diagonal Hessian entry of the intercept is the sum of the rows, and the intercept, which is
always active, is visited. -/
theorem c107_nan_weight_raises (D : IrlsI F n m) (hic : D.ic = true) (ht : D.stepTol = none) (hmax : 0 < D.maxIter) (i : Fin n)
    (hg : ∀ e, A.isNaN (D.gradRow i e)) (hh : ∀ e, A.isNaN (D.hessRow i e)) (coef : Fin m → F) (k0 : Fin m) (hk : k0.val = 0)
    (a : StateI F n m → ℕ) (active : (st : StateI F n m) → Fin (a st) → Fin m) (Q : (st : StateI F n m) → Fin (a st) → Fin (a st) → F) (eps : F)
    (hQ : ∀ st s, st.nIter = 0 → active st s = k0 → Q st s s = A.sum ((List.finRange n).map fun i => D.hessRow i (st.eta i)))
    (visits : (st : StateI F n m) → List (Fin (a st))) (hv : ∀ st, ∃ s ∈ visits st, active st s = k0) (trial : StateI F n m → ℕ) :
    irlsRunI A D (fun st => some (cdDirI A D (active st) (Q st) eps (visits st) st)) trial coef = none := by
  have hk0 : 0 < m := by have := k0.isLt; omega
  apply run_step_none A D _ _ _ hmax
  · intro st e
    obtain ⟨-, -, -, e1, -, e3⟩ := init_spec A D coef st e
    rw [e3, e1]
    exact c107_nan_row_not_converged_partial A D hic hk0 ht _ _ _ i (hg _)
  · intro st d e hd
    obtain rfl := Option.some.inj hd
    refine ⟨k0, ?_⟩
    unfold cdDirI
    apply A.sub_left
    refine run_nan A _ hic (visits st) _ _ k0 hk (fun s hs => ?_) (hv st)
    show A.isNaN (Q st s s)
    rw [hQ st s (init_spec A D coef st e).2.2.1 hs]
    exact sum_nan A _ ⟨_, List.mem_map.2 ⟨i, List.mem_finRange i, rfl⟩, hh _⟩

/-! ### The line search -/

/-- **C107.** A trial step whose objective (or whose comparison value) is NaN is never accepted by the line search. -/
theorem c107_line_search (mu large obj old fb tiny sumNew sumOld : F) (h : lsAcceptI A mu large obj old fb tiny sumNew sumOld = true) :
    ¬ A.isNaN obj ∧ ¬ A.isNaN old := by
  have key : ∀ x, (¬ A.isNaN (A.sub obj old) ∧ x) → ¬ A.isNaN obj ∧ ¬ A.isNaN old := fun x hx =>
    ⟨fun hn => hx.1 (A.sub_left _ _ hn), fun hn => hx.1 (A.sub_right _ _ hn)⟩
  unfold lsAcceptI at h
  rw [Bool.or_eq_true, Bool.and_eq_true, Bool.and_eq_true] at h
  rcases h with ⟨-, h⟩ | ⟨h, -⟩
  · exact key _ (A.le_num _ _ h)
  · exact key True ⟨fun hn => (A.le_num _ _ h).1 (A.abs_nan _ hn), trivial⟩

/-! ### Without intercept -/

theorem term_zero (g P1 : F) (h : A.isNaN g) : A.abs (subgradTermI A A.zero g P1 none none) = A.zero := by
  unfold subgradTermI
  simp only [A.eq_zero, if_true]
  have h1 : fsignI A g = A.neg A.one := by
    unfold fsignI
    rw [eq_nan_left A h, lt_nan_right A h]
    rfl
  have h2 : fmaxI A (A.sub (A.abs g) P1) A.zero = A.zero := by
    unfold fmaxI
    rw [lt_nan_right A (A.sub_left _ _ (A.abs_nan _ h))]
    rfl
  rw [h1, h2]
  exact A.abs_mul_zero _ A.neg_one_finite

/-- **C107 fails without intercept** (finding F39).  Without intercept and bounds, from the cold start (all coefficients zero), with a NaN gradient in
some row (for example the weight NaN, which `check_weights` accepts as a scalar, F21): the IRLS solver, with any inner solver, reports convergence before
the first iteration, raises no warning and returns zero coefficients. -/
theorem c107_counterexample (D : IrlsI F n m) (hic : D.ic = false) (ht : D.stepTol = none) (hlb : D.lb = none) (hub : D.ub = none)
    (hP : ∀ j, A.isFinite (D.P1 j)) (htol : A.lt A.zero D.gradTol = true) (i : Fin n) (hg : ∀ e, A.isNaN (D.gradRow i e))
    (dir : StateI F n m → Option (Fin m → F)) (trial : StateI F n m → ℕ) :
    ∃ fin, irlsRunI A D dir trial (fun _ => A.zero) = some fin ∧ fin.converged = true ∧ fin.nIter = 0 ∧ fin.coef = fun _ => A.zero := by
  have hnorm : ∀ score : Fin m → F, (∀ k, A.isNaN (score k)) →
      normMinSubgradI A (fun _ => A.zero) (fun k => A.neg (score k)) D.P1 D.ic D.lb D.ub = A.zero := by
    intro score hs
    unfold normMinSubgradI
    rw [hic, hlb, hub]
    have : ∀ l : List (Fin m), l.foldl (fun acc i => if i.val < false.toNat then A.abs (A.neg (score i))
        else A.add acc (A.abs (subgradTermI A A.zero (A.neg (score i)) (D.P1 (i.val - false.toNat)) (Option.map (fun f : ℕ → F => f (i.val - false.toNat)) none)
          (Option.map (fun f : ℕ → F => f (i.val - false.toNat)) none)))) A.zero = A.zero := by
      intro l
      induction l with
      | nil => rfl
      | cons x l ih =>
        rw [List.foldl_cons, if_neg (by simp)]
        simp only [Option.map_none] at ih ⊢
        rw [term_zero A _ _ (A.neg_nan _ (hs x)), A.add_zero_zero]
        exact ih
    exact this _
  have hinit : ∃ st, irlsInitI A D (fun _ => A.zero) = some st := by
    unfold irlsInitI
    simp only
    rw [if_pos]
    · exact ⟨_, rfl⟩
    · refine ⟨fun k _ => A.mul_zero_finite _ (hP _), fun k => ?_⟩
      rw [ht]; exact A.zero_finite
  obtain ⟨st, e⟩ := hinit
  obtain ⟨e0, -, e1, e2, -, e3⟩ := init_spec A D _ st e
  have hc : st.converged = true := by
    rw [e3]
    unfold IrlsI.conv
    rw [hnorm st.score, htol]
    · rfl
    · intro k; rw [e2]; exact score_nan A D _ _ k i (hg _)
  refine ⟨st, ?_, hc, e1, e0⟩
  unfold irlsRunI
  rw [e, Option.bind_some]
  cases D.maxIter with
  | zero => rfl
  | succ M =>
    simp only [irlsLoopI]
    rw [if_neg (by rw [hc]; simp)]

/-! ### Cases that meet the hypotheses -/

/-- Two rows, one feature; the first row has the weight `w` (least squares: gradient row `w (y - eta)`, Hessian row `w`). -/
noncomputable def nanEx (ic : Bool) (w : FV) : IrlsI FV 2 (1 + ic.toNat) where
  X := fun i _ => if i = 0 then .num 1 else .num 2
  offset := none
  gradRow := fun i e => FV.mul (if i = 0 then w else .num 1) (FV.add (.num 3) e.neg)
  hessRow := fun i _ => if i = 0 then w else .num 1
  coefP2 := fun _ _ => .num 0
  P1 := fun _ => .num 0
  ic := ic
  lb := none
  ub := none
  gradTol := .num (1 / 10000)
  stepTol := none
  stepNorm := fun _ => .num 0
  factor := fun k => .num ((1 / 2) ^ k)
  maxIter := 100

theorem mul_nan (x : FV) : FV.isNaN (FV.mul .nan x) := by cases x <;> trivial

theorem nanEx_row (ic : Bool) (e : FV) : fvIeee.isNaN ((nanEx ic .nan).gradRow 0 e) := by
  show FV.isNaN (FV.mul (if (0 : Fin 2) = 0 then FV.nan else .num 1) (FV.add (.num 3) e.neg))
  rw [if_pos rfl]
  exact mul_nan _

/-- A NaN weight and no intercept: the cold start is returned as the converged solution. -/
theorem c107_example_silent (dir : StateI FV 2 1 → Option (Fin 1 → FV)) (trial : StateI FV 2 1 → ℕ) :
    ∃ fin, irlsRunI fvIeee (nanEx false .nan) dir trial (fun _ => .num 0) = some fin ∧ fin.converged = true ∧ fin.nIter = 0 ∧
      fin.coef = fun _ => .num 0 :=
  c107_counterexample fvIeee (nanEx false .nan) rfl rfl rfl rfl (fun _ => trivial)
    (by classical exact decide_eq_true (show FV.lt (.num 0) (.num (1 / 10000)) by norm_num [FV.lt])) 0
    (fun e => nanEx_row _ e) dir trial

/-- The same weight with an intercept: an exception, from any start; both coordinates active, visited once each. -/
theorem c107_example_raises (coef : Fin 2 → FV) (trial : StateI FV 2 2 → ℕ) (H : StateI FV 2 2 → FV) :
    irlsRunI fvIeee (nanEx true .nan) (fun st => some (cdDirI fvIeee (nanEx true .nan) (fun s : Fin 2 => s)
      (fun s t => if s = 0 ∧ t = 0 then fvIeee.sum ((List.finRange 2).map fun i => (nanEx true .nan).hessRow i (st.eta i)) else H st) (.num 0) [0, 1] st))
      trial coef = none :=
  c107_nan_weight_raises fvIeee (nanEx true .nan) rfl rfl (by decide) 0
    (fun e => nanEx_row _ e)
    (fun e => by show FV.isNaN (if (0 : Fin 2) = 0 then FV.nan else .num 1); rw [if_pos rfl]; trivial) coef 0 rfl (fun _ => 2)
    (fun _ s => s) _ _ (fun st s _ hs => by
      have : s = 0 := hs
      subst this
      rw [if_pos ⟨rfl, rfl⟩]) (fun _ => [0, 1]) (fun _ => ⟨0, by simp, rfl⟩) trial

end Glum
