import Verif.Props.Sample
/-
C87, C88: the simulation behind the symmetries of a fit.  A *mirrored* problem has some feature columns negated, or the responses turned
around, or a constant moved between the offset and the intercept; the solver then does the same thing, mirrored.
-/
set_option linter.unusedSectionVars false
set_option linter.unusedVariables false
set_option linter.unusedSimpArgs false

namespace Glum
open Spec

noncomputable section

variable {n p : ℕ} {ic : Bool}

/-- The bounds of one coefficient after multiplication with the sign `σ`. -/
def Spec.MirrorBounds (σ : ℝ) (l' u' l u : Option ℝ) : Prop :=
  (σ = 1 ∧ l' = l ∧ u' = u) ∨ (σ = -1 ∧ l' = u.map (fun x => -x) ∧ u' = l.map (fun x => -x))

/-- The coefficients of the mirrored problem that correspond to `w`: signs `s`, and a shift `a` (of the intercept only). -/
def Spec.mirrored {m : ℕ} (s a w : Fin m → ℝ) : Fin m → ℝ := fun j => s j * w j + a j

/-- `D'` is `D` mirrored: at `mirrored s a w` its linear predictors are `τ` times those of `D` at `w`, its deviance is the same there, penalties,
weights and options are the same. -/
structure Spec.Mirror (τ : ℝ) (s a : Fin (p + ic.toNat) → ℝ) (D' D : IRLSData n p ic) : Prop where
  tau : τ = 1 ∨ τ = -1
  sign : ∀ j, s j = 1 ∨ s j = -1
  shift : ∀ j, ¬ j.val < ic.toNat → a j = 0
  design : ∀ r j, design ic D'.X r j * s j = τ * design ic D.X r j
  offset : ∀ r, ∑ j, Spec.design ic D'.X r j * a j + off D' r = τ * off D r
  p2 : ∀ i j : Fin (p + ic.toNat), p2Full ic D'.P2 i j = s i * s j * p2Full ic D.P2 i j
  bounds : ∀ j : Fin (p + ic.toNat), ¬ j.val < ic.toNat →
    MirrorBounds (s j) (D'.lb.map (· (j.val - ic.toNat))) (D'.ub.map (· (j.val - ic.toNat))) (D.lb.map (· (j.val - ic.toNat))) (D.ub.map (· (j.val - ic.toNat)))
  sw : D'.sw = D.sw
  P1 : D'.P1 = D.P1
  maxIter : D'.maxIter = D.maxIter
  maxInnerIter : D'.maxInnerIter = D.maxInnerIter
  gradTol : D'.gradTol = D.gradTol
  stepTol : D'.stepTol = D.stepTol
  hessApprox : D'.hessApprox = D.hessApprox
  fixedInnerTol : D'.fixedInnerTol = D.fixedInnerTol
  random : D'.random = D.random
  eps : D'.eps = D.eps
  dev : ∀ r e, D'.fam.dev (D'.y r) (τ * e) = D.fam.dev (D.y r) e
  grad : ∀ r e, D'.fam.grad (D'.y r) (D'.sw r) (τ * e) (D'.fam.inv (τ * e)) = τ * D.fam.grad (D.y r) (D.sw r) e (D.fam.inv e)
  gradVar : ∀ r e, D'.fam.gradVar (D'.y r) (D'.sw r) (τ * e) (D'.fam.inv (τ * e)) = τ * D.fam.gradVar (D.y r) (D.sw r) e (D.fam.inv e)
  hess : ∀ r e, D'.fam.hess (D'.y r) (D'.sw r) (τ * e) (D'.fam.inv (τ * e)) = D.fam.hess (D.y r) (D.sw r) e (D.fam.inv e)
  large : ∀ e, D'.fam.inv (τ * e) < D'.large ↔ D.fam.inv e < D.large

section
variable {τ : ℝ} {s a : Fin (p + ic.toNat) → ℝ} {D' D : IRLSData n p ic}

theorem sign_sq {x : ℝ} (h : x = 1 ∨ x = -1) : x * x = 1 := by rcases h with rfl | rfl <;> norm_num

theorem sign_abs {x : ℝ} (h : x = 1 ∨ x = -1) (y : ℝ) : |x * y| = |y| := by rcases h with rfl | rfl <;> simp

theorem mir_cP2 (M : Mirror τ s a D' D) (w : Fin (p + ic.toNat) → ℝ) (k : Fin (p + ic.toNat)) :
    makeCoefP2 ic D'.P2 (mirrored s a w) k = s k * makeCoefP2 ic D.P2 w k := by
  rw [makeCoefP2_eq, makeCoefP2_eq, Finset.mul_sum]
  refine Finset.sum_congr rfl fun i _ => ?_
  by_cases hi : i.val < ic.toNat
  · rw [p2Full_left_zero _ _ _ hi, p2Full_left_zero _ _ _ hi]; ring
  · rw [M.p2]
    unfold mirrored
    rw [M.shift i hi]
    linear_combination (s k * p2Full ic D.P2 i k * w i) * sign_sq (M.sign i)

theorem mir_cP2_dot (M : Mirror τ s a D' D) (w : Fin (p + ic.toNat) → ℝ) :
    ∑ k, makeCoefP2 ic D'.P2 (mirrored s a w) k * mirrored s a w k = ∑ k, makeCoefP2 ic D.P2 w k * w k := by
  refine Finset.sum_congr rfl fun k _ => ?_
  rw [mir_cP2 M]
  by_cases hk : k.val < ic.toNat
  · have : makeCoefP2 ic D.P2 w k = 0 := by unfold makeCoefP2; rw [if_pos hk]
    rw [this]; ring
  · unfold mirrored
    rw [M.shift k hk]
    linear_combination (makeCoefP2 ic D.P2 w k * w k) * sign_sq (M.sign k)

theorem mir_l1 (M : Mirror τ s a D' D) (w : Fin (p + ic.toNat) → ℝ) : l1Norm D'.P1 (mirrored s a w) = l1Norm D.P1 w := by
  unfold l1Norm
  rw [M.P1]
  refine Finset.sum_congr rfl fun j hj => ?_
  have hj' := Finset.mem_range.1 hj
  have e1 := feat_eq (ic := ic) (mirrored s a w) ⟨j, hj'⟩
  have e2 := feat_eq (ic := ic) w ⟨j, hj'⟩
  simp only at e1 e2
  rw [e1, e2]
  unfold mirrored
  rw [M.shift _ (by simp), add_zero, abs_mul, sign_abs (M.sign _), ← abs_mul]

theorem mir_linPred (M : Mirror τ s a D' D) (d : Fin (p + ic.toNat) → ℝ) (r : Fin n) :
    safeLinPred ic D'.X (fun j => s j * d j) none r = τ * safeLinPred ic D.X d none r := by
  rw [c12_lin_pred, c12_lin_pred]
  unfold linPred
  simp only [Option.getD_none, add_zero, Finset.mul_sum]
  refine Finset.sum_congr rfl fun k _ => ?_
  rw [← mul_assoc, M.design, mul_assoc]

theorem mir_eta (M : Mirror τ s a D' D) (w : Fin (p + ic.toNat) → ℝ) (r : Fin n) :
    safeLinPred ic D'.X (mirrored s a w) D'.offset r = τ * safeLinPred ic D.X w D.offset r := by
  have ho := M.offset r
  rw [c12_lin_pred, c12_lin_pred]
  unfold linPred mirrored
  unfold off at ho
  rw [mul_add, ← ho]
  simp only [mul_add, Finset.sum_add_distrib]
  rw [add_assoc]
  congr 1
  rw [Finset.mul_sum]
  refine Finset.sum_congr rfl fun k _ => ?_
  rw [← mul_assoc, M.design, mul_assoc]

theorem mir_etaMu (M : Mirror τ s a D' D) {cur' Xd' cur Xd : Fin n → ℝ} (hc : ∀ r, cur' r = τ * cur r) (hx : ∀ r, Xd' r = τ * Xd r) (f : ℝ)
    {w' w : Fin (p + ic.toNat) → ℝ} (hw : w' = mirrored s a w) :
    let r' := etaMuObjective D' cur' Xd' f w'
    let r := etaMuObjective D cur Xd f w
    (∀ i, r'.1 i = τ * r.1 i) ∧ (∀ i, r'.2.1 i = D'.fam.inv (τ * r.1 i)) ∧ (∀ i, r.2.1 i = D.fam.inv (r.1 i)) ∧ r'.2.2.1 = r.2.2.1 ∧
      ∀ k, r'.2.2.2 k = s k * r.2.2.2 k := by
  subst hw
  have he : ∀ i, cur' i + f * Xd' i = τ * (cur i + f * Xd i) := fun i => by rw [hc, hx]; ring
  refine ⟨he, fun i => congrArg D'.fam.inv (he i), fun i => rfl, ?_, mir_cP2 M w⟩
  show 1 / 2 * (∑ i, D'.sw i * D'.fam.dev (D'.y i) (cur' i + f * Xd' i)) + l1Norm D'.P1 _ + 1 / 2 * ∑ k, makeCoefP2 ic D'.P2 (mirrored s a w) k * mirrored s a w k = _
  rw [mir_cP2_dot M, mir_l1 M, M.sw]
  simp only [he, M.dev]
  rfl

theorem mir_scoreOf (M : Mirror τ s a D' D) {g' g : Fin n → ℝ} (hg : ∀ r, g' r = τ * g r) {c' c : Fin (p + ic.toNat) → ℝ}
    (hc : ∀ k, c' k = s k * c k) (k : Fin (p + ic.toNat)) : scoreOf D' g' c' k = s k * scoreOf D g c k := by
  rw [scoreOf_eq, scoreOf_eq, hc, mul_sub, Finset.mul_sum]
  congr 1
  refine Finset.sum_congr rfl fun r _ => ?_
  rw [hg]
  have h1 := M.design r k
  have h2 := sign_sq (M.sign k)
  have h3 := sign_sq M.tau
  linear_combination (-(Spec.design ic D'.X r k * τ * g r)) * h2 + (s k * τ * g r) * h1 + (s k * Spec.design ic D.X r k * g r) * h3

theorem mir_quadratic (M : Mirror τ s a D' D) {eta' mu' eta mu : Fin n → ℝ} (he : ∀ r, eta' r = τ * eta r) (hm' : ∀ r, mu' r = D'.fam.inv (τ * eta r))
    (hm : ∀ r, mu r = D.fam.inv (eta r)) {c' c : Fin (p + ic.toNat) → ℝ} (hc : ∀ k, c' k = s k * c k) :
    (∀ k, (updateQuadratic D' eta' mu' c').1 k = s k * (updateQuadratic D eta mu c).1 k) ∧
    (updateQuadratic D' eta' mu' c').2 = (updateQuadratic D eta mu c).2 := by
  constructor
  · intro k
    refine mir_scoreOf M (fun r => ?_) hc k
    rw [he, hm', hm]
    exact M.grad r (eta r)
  · funext r
    show D'.fam.hess (D'.y r) (D'.sw r) (eta' r) (mu' r) = D.fam.hess (D.y r) (D.sw r) (eta r) (mu r)
    rw [he, hm', hm]
    exact M.hess r (eta r)

theorem fsign_negg (g : ℝ) : fsign (-g) = -fsign g := by
  unfold fsign
  rcases lt_trichotomy g 0 with h | h | h
  · rw [if_neg (by linarith), if_pos (by linarith), if_neg (by linarith), if_neg (by linarith)]; ring
  · subst h; simp
  · rw [if_neg (by linarith), if_neg (by linarith), if_neg (by linarith), if_pos (by linarith)]

theorem subgradTerm_mirror {σ : ℝ} {l' u' l u : Option ℝ} (h : MirrorBounds σ l' u' l u) (c g P : ℝ) :
    subgradTerm (σ * c) (σ * g) P l' u' = σ * subgradTerm c g P l u := by
  rcases h with ⟨rfl, rfl, rfl⟩ | ⟨rfl, rfl, rfl⟩
  · simp
  · have ht : (if -c = 0 then fsign (-g) * fmax (|(-g)| - P) 0 else -g + fsign (-c) * P)
        = -(if c = 0 then fsign g * fmax (|g| - P) 0 else g + fsign c * P) := by
      by_cases hc : c = 0
      · rw [if_pos (by rw [hc, neg_zero]), if_pos hc, fsign_negg, abs_neg]; ring
      · rw [if_neg (by simpa using hc), if_neg hc, fsign_negg]; ring
    unfold subgradTerm
    simp only [neg_one_mul, ht]
    generalize (if c = 0 then fsign g * fmax (|g| - P) 0 else g + fsign c * P) = t
    cases l with
    | none =>
      cases u with
      | none => simp
      | some u =>
        simp only [Option.map_some, Option.map_none, neg_inj, neg_pos]
        split <;> simp
    | some l =>
      cases u with
      | none =>
        simp only [Option.map_some, Option.map_none, neg_inj, neg_lt_zero]
        split <;> simp
      | some u =>
        simp only [Option.map_some, neg_inj, neg_pos]
        rcases lt_trichotomy t 0 with h | h | h
        · have h1 : ¬ 0 < t := by linarith
          by_cases hu : c = u <;> simp [h, h1, hu, h.le]
        · subst h; simp
        · have h1 : ¬ t < 0 := by linarith
          by_cases hu : c = l <;> simp [h, h1, hu, h.le]

theorem normMinSubgrad_mirror {m : ℕ} (A : List (Fin m)) {coef' grad' coef grad : Fin m → ℝ} {P1' P1 : ℕ → ℝ} {lb' ub' lb ub : Option (ℕ → ℝ)} (σ : Fin m → ℝ)
    (hσ : ∀ j, σ j = 1 ∨ σ j = -1)
    (hb : ∀ j : Fin m, ¬ j.val < ic.toNat → MirrorBounds (σ j) (lb'.map (· (j.val - ic.toNat))) (ub'.map (· (j.val - ic.toNat)))
      (lb.map (· (j.val - ic.toNat))) (ub.map (· (j.val - ic.toNat)))) (hP : P1' = P1)
    (hc : ∀ j : Fin m, ¬ j.val < ic.toNat → coef' j = σ j * coef j) (hg : ∀ j, grad' j = σ j * grad j) :
    normMinSubgrad A coef' grad' P1' ic lb' ub' = normMinSubgrad A coef grad P1 ic lb ub := by
  subst hP
  unfold normMinSubgrad
  congr 1
  funext acc i
  by_cases hi : i.val < ic.toNat
  · simp only [if_pos hi, hg, sign_abs (hσ i)]
  · simp only [if_neg hi, hg, hc i hi]
    rw [subgradTerm_mirror (hb i hi), sign_abs (hσ i)]

theorem mir_converge (M : Mirror τ s a D' D) {coef' coef step' step score' score : Fin (p + ic.toNat) → ℝ} (hc : coef' = mirrored s a coef)
    (hs : l2Norm step' = l2Norm step) (hg : ∀ k, score' k = s k * score k) : checkConvergence D' coef' step' score' = checkConvergence D coef step score := by
  have hn : normMinSubgrad (List.finRange (p + ic.toNat)) coef' (fun i => -score' i) D'.P1 ic D'.lb D'.ub
      = normMinSubgrad (List.finRange (p + ic.toNat)) coef (fun i => -score i) D.P1 ic D.lb D.ub := by
    refine normMinSubgrad_mirror (ic := ic) _ s M.sign M.bounds M.P1 ?_ ?_
    · intro j hj; rw [hc]; unfold mirrored; rw [M.shift j hj, add_zero]
    · intro j; rw [hg]; ring
  unfold checkConvergence
  rw [hn, M.gradTol, M.stepTol, M.fixedInnerTol, hs]

theorem mir_l2 (M : Mirror τ s a D' D) (v : Fin (p + ic.toNat) → ℝ) (f : ℝ) : l2Norm (fun j => f * (s j * v j)) = l2Norm fun j => f * v j := by
  unfold l2Norm
  congr 1
  refine Finset.sum_congr rfl fun j _ => ?_
  linear_combination (f ^ 2 * v j ^ 2) * sign_sq (M.sign j)

/-- The Hessian parts of the two runs. -/
structure MirH (s : Fin (p + ic.toNat) → ℝ) (h' h : HessState ℝ n (p + ic.toNat)) : Prop where
  rows : h'.rows = h.rows
  oldRows : h'.oldRows = h.oldRows
  H : ∀ i j, h'.H i j = s i * s j * h.H i j
  init : h'.init = h.init
  active : h'.active = h.active

theorem mir_sandwich (M : Mirror τ s a D' D) (d : Fin n → ℝ) (i j : Fin (p + ic.toNat)) :
    ∑ r, Spec.design ic D'.X r i * d r * Spec.design ic D'.X r j = s i * s j * ∑ r, Spec.design ic D.X r i * d r * Spec.design ic D.X r j := by
  rw [Finset.mul_sum]
  refine Finset.sum_congr rfl fun r _ => ?_
  have hi := M.design r i
  have hj := M.design r j
  have hii := sign_sq (M.sign i)
  have hjj := sign_sq (M.sign j)
  have ht := sign_sq M.tau
  have e1 : Spec.design ic D'.X r i = s i * τ * Spec.design ic D.X r i := by linear_combination s i * hi - Spec.design ic D'.X r i * hii
  have e2 : Spec.design ic D'.X r j = s j * τ * Spec.design ic D.X r j := by linear_combination s j * hj - Spec.design ic D'.X r j * hjj
  rw [e1, e2]
  linear_combination (s i * s j * Spec.design ic D.X r i * d r * Spec.design ic D.X r j) * ht

theorem mir_hessian (M : Mirror τ s a D' D) {h' h : HessState ℝ n (p + ic.toNat)} (hh : MirH s h' h) (A : List (Fin (p + ic.toNat))) (hA : ActiveOK ic A) :
    MirH s (updateHessian ic D'.X D'.P2 D'.hessApprox h' A) (updateHessian ic D.X D.P2 D.hessApprox h A) := by
  obtain ⟨r1, r2, r3, r4, r5⟩ := hh
  unfold updateHessian
  rw [r4, r5, M.hessApprox]
  split
  · refine ⟨r1, r2, ?_, rfl, rfl⟩
    intro i j
    simp only [setBlock]
    by_cases hm : i ∈ A ∧ j ∈ A
    · rw [if_pos hm, if_pos hm]
      unfold buildHessianDelta
      rw [sandwich_entry ic D'.X h'.rows Finset.univ (fun r hr => absurd (Finset.mem_univ r) hr) A hA i j hm.1 hm.2,
        sandwich_entry ic D.X h.rows Finset.univ (fun r hr => absurd (Finset.mem_univ r) hr) A hA i j hm.1 hm.2,
        addP2_entry ic D'.P2 A hA i j hm.1 hm.2, addP2_entry ic D.P2 A hA i j hm.1 hm.2, r1, mir_sandwich M, M.p2]
      ring
    · rw [if_neg hm, if_neg hm, r3]
  · rw [r1, r2]
    refine ⟨rfl, rfl, ?_, rfl, rfl⟩
    have hz : ∀ i j, addP2 (K := ℝ) ic p none (activeFeatures ic A) i j = 0 := fun i j => by
      unfold addP2 p2Entry; simp
    intro i j
    simp only [setBlock]
    by_cases hm : i ∈ A ∧ j ∈ A
    · rw [if_pos hm, if_pos hm]
      unfold buildHessianDelta
      rw [sandwich_entry ic D'.X _ _ (fun r hr => activeRows_mem _ _ _ r hr) A hA i j hm.1 hm.2,
        sandwich_entry ic D.X _ _ (fun r hr => activeRows_mem _ _ _ r hr) A hA i j hm.1 hm.2, mir_sandwich M, r3, hz]
      ring
    · rw [if_neg hm, if_neg hm, r3]

/-- The two runs at the same point of the loop. -/
structure Mir (τ : ℝ) (s a : Fin (p + ic.toNat) → ℝ) (D' D : IRLSData n p ic) (st' st : IRLSState n p ic) : Prop where
  coef : st'.coef = mirrored s a st.coef
  eta : ∀ r, st'.eta r = τ * st.eta r
  mu' : ∀ r, st'.mu r = D'.fam.inv (τ * st.eta r)
  mu : ∀ r, st.mu r = D.fam.inv (st.eta r)
  obj : st'.obj = st.obj
  score : ∀ k, st'.score k = s k * st.score k
  hs : MirH s st'.hs st.hs
  norm : st'.norm = st.norm
  maxSub : st'.maxSub = st.maxSub
  innerTol : st'.innerTol = st.innerTol
  converged : st'.converged = st.converged
  nIter : st'.nIter = st.nIter
  nCycles : st'.nCycles = st.nCycles
  diagnostics : st'.diagnostics = st.diagnostics

structure MirL (τ : ℝ) (s a : Fin (p + ic.toNat) → ℝ) (D' D : IRLSData n p ic) (r' r : LSResult n p ic) : Prop where
  coef : r'.coef = mirrored s a r.coef
  step : l2Norm r'.step = l2Norm r.step
  eta : ∀ i, r'.eta i = τ * r.eta i
  mu' : ∀ i, r'.mu i = D'.fam.inv (τ * r.eta i)
  mu : ∀ i, r.mu i = D.fam.inv (r.eta i)
  obj : r'.obj = r.obj
  cP2 : ∀ k, r'.cP2 k = s k * r.cP2 k
  k : r'.k = r.k
  warned : r'.warned = r.warned

theorem mir_accept (M : Mirror τ s a D' D) {st' st : IRLSState n p ic} (hobj : st'.obj = st.obj) (hsc : ∀ k, st'.score k = s k * st.score k)
    (bound factor obj : ℝ) {eta' mu' eta mu : Fin n → ℝ} (he : ∀ r, eta' r = τ * eta r) (hm' : ∀ r, mu' r = D'.fam.inv (τ * eta r))
    (hm : ∀ r, mu r = D.fam.inv (eta r)) {c' c : Fin (p + ic.toNat) → ℝ} (hc : ∀ k, c' k = s k * c k) :
    lsAccept D' st' bound factor eta' mu' obj c' ↔ lsAccept D st bound factor eta mu obj c := by
  have hall : (∀ i, mu' i < D'.large) ↔ ∀ i, mu i < D.large := forall_congr' fun i => by rw [hm', hm, M.large]
  have h1 : ∑ k, |st'.score k| = ∑ k, |st.score k| := Finset.sum_congr rfl fun k _ => by rw [hsc, sign_abs (M.sign k)]
  have h2 : ∑ k, |scoreOf D' (fun i => D'.fam.gradVar (D'.y i) (D'.sw i) (eta' i) (mu' i)) c' k|
      = ∑ k, |scoreOf D (fun i => D.fam.gradVar (D.y i) (D.sw i) (eta i) (mu i)) c k| := by
    refine Finset.sum_congr rfl fun k _ => ?_
    rw [mir_scoreOf M (g := fun i => D.fam.gradVar (D.y i) (D.sw i) (eta i) (mu i)) (fun r => ?_) hc k, sign_abs (M.sign k)]
    rw [he, hm', hm]
    exact M.gradVar r (eta r)
  unfold lsAccept
  rw [hobj, hall, h1, h2, M.eps]

theorem mir_lineLoop (M : Mirror τ s a D' D) {st' st : IRLSState n p ic} (hcoef : st'.coef = mirrored s a st.coef) (heta : ∀ r, st'.eta r = τ * st.eta r)
    (hobj : st'.obj = st.obj) (hsc : ∀ k, st'.score k = s k * st.score k) (d : Fin (p + ic.toNat) → ℝ) (bound : ℝ) {Xd' Xd : Fin n → ℝ}
    (hx : ∀ r, Xd' r = τ * Xd r) : ∀ (rem k : ℕ) (factor : ℝ),
      MirL τ s a D' D (lineLoop D' st' (fun j => s j * d j) bound Xd' rem k factor) (lineLoop D st d bound Xd rem k factor) := by
  have hw : ∀ factor : ℝ, (fun j => st'.coef j + factor * (s j * d j)) = mirrored s a fun j => st.coef j + factor * d j := fun factor => by
    funext j; rw [hcoef]; unfold mirrored; ring
  intro rem
  induction rem with
  | zero =>
    intro k factor
    obtain ⟨e1, e2, e3, e4, e5⟩ := mir_etaMu M heta hx factor (hw factor)
    have hacc := mir_accept M hobj hsc bound factor (etaMuObjective D st.eta Xd factor fun j => st.coef j + factor * d j).2.2.1 e1 e2 e3 e5
    rw [← e4] at hacc
    unfold lineLoop
    simp only
    split
    · rename_i h'
      rw [if_pos (e4 ▸ hacc.1 h')]
      exact ⟨hw factor, mir_l2 M d factor, e1, e2, e3, e4, e5, rfl, rfl⟩
    · rename_i h'
      rw [if_neg fun h => h' (hacc.2 (e4 ▸ h))]
      exact ⟨hw factor, mir_l2 M d factor, e1, e2, e3, e4, e5, rfl, rfl⟩
  | succ rem ih =>
    intro k factor
    obtain ⟨e1, e2, e3, e4, e5⟩ := mir_etaMu M heta hx factor (hw factor)
    have hacc := mir_accept M hobj hsc bound factor (etaMuObjective D st.eta Xd factor fun j => st.coef j + factor * d j).2.2.1 e1 e2 e3 e5
    rw [← e4] at hacc
    unfold lineLoop
    simp only
    split
    · rename_i h'
      rw [if_pos (e4 ▸ hacc.1 h')]
      exact ⟨hw factor, mir_l2 M d factor, e1, e2, e3, e4, e5, rfl, rfl⟩
    · rename_i h'
      rw [if_neg fun h => h' (hacc.2 (e4 ▸ h))]
      exact ih (k + 1) (factor * (1 / 2))

theorem mir_bound (M : Mirror τ s a D' D) {st' st : IRLSState n p ic} (hcoef : st'.coef = mirrored s a st.coef)
    (hsc : ∀ k, st'.score k = s k * st.score k) (d : Fin (p + ic.toNat) → ℝ) : armijoBound D' st' (fun j => s j * d j) = armijoBound D st d := by
  unfold armijoBound
  have hw : (fun j => st'.coef j + s j * d j) = mirrored s a fun j => st.coef j + d j := by
    funext j; rw [hcoef]; unfold mirrored; ring
  rw [hw, mir_l1 M, hcoef, mir_l1 M]
  congr 4
  refine Finset.sum_congr rfl fun k _ => ?_
  rw [hsc]
  linear_combination (st.score k * d k) * sign_sq (M.sign k)

theorem mir_active (M : Mirror τ s a D' D) {st' st : IRLSState n p ic} (h : Mir τ s a D' D st' st) : identifyActiveSet D' st' = identifyActiveSet D st := by
  unfold identifyActiveSet
  congr 1
  funext i
  rw [h.maxSub, M.P1]
  have h1 : |st'.score i| = |st.score i| := by rw [h.score, sign_abs (M.sign i)]
  rw [h1]
  refine decide_eq_decide.2 ?_
  by_cases hi : i.val < ic.toNat
  · exact ⟨fun _ => Or.inl hi, fun _ => Or.inl hi⟩
  · have h2 : st'.coef i ≠ 0 ↔ st.coef i ≠ 0 := by
      rw [h.coef]; unfold mirrored; rw [M.shift i hi, add_zero]
      rcases M.sign i with e | e <;> rw [e] <;> simp
    rw [h2]

/-- The inner solvers of the two runs give mirrored directions (and need the same number of cycles). -/
def Spec.MirrorInner (τ : ℝ) (s a : Fin (p + ic.toNat) → ℝ) (D' D : IRLSData n p ic) (inner' inner : Inner n p ic) : Prop :=
  ∀ st' st : IRLSState n p ic, Mir τ s a D' D st' st → (inner' D' st').1 = (fun j => s j * (inner D st).1 j) ∧ (inner' D' st').2 = (inner D st).2

theorem mir_step (M : Mirror τ s a D' D) {inner' inner : Inner n p ic} (hin : MirrorInner τ s a D' D inner' inner)
    {st' st : IRLSState n p ic} (h : Mir τ s a D' D st' st) : Mir τ s a D' D (irlsStep inner' D' st') (irlsStep inner D st) := by
  have hA := mir_active M h
  have hH : MirH s (updateHessian ic D'.X D'.P2 D'.hessApprox st'.hs (identifyActiveSet D' st')) (updateHessian ic D.X D.P2 D.hessApprox st.hs (identifyActiveSet D st)) := by
    rw [hA]; exact mir_hessian M h.hs _ (activeSet_ok D st)
  have h1 : Mir τ s a D' D { st' with hs := updateHessian ic D'.X D'.P2 D'.hessApprox st'.hs (identifyActiveSet D' st') }
      { st with hs := updateHessian ic D.X D.P2 D.hessApprox st.hs (identifyActiveSet D st) } :=
    ⟨h.coef, h.eta, h.mu', h.mu, h.obj, h.score, hH, h.norm, h.maxSub, h.innerTol, h.converged, h.nIter, h.nCycles, h.diagnostics⟩
  obtain ⟨i1, i2⟩ := hin _ _ h1
  unfold irlsStep
  simp only
  rw [i1, i2]
  revert h1 hH
  generalize updateHessian ic D'.X D'.P2 D'.hessApprox st'.hs (identifyActiveSet D' st') = hs'
  generalize updateHessian ic D.X D.P2 D.hessApprox st.hs (identifyActiveSet D st) = hs
  intro hH h1
  generalize inner D _ = dn
  have hL : MirL τ s a D' D (lineSearch D' { st' with hs := hs' } fun j => s j * dn.1 j) (lineSearch D { st with hs := hs } dn.1) := by
    unfold lineSearch
    rw [mir_bound M h1.coef h1.score]
    exact mir_lineLoop M h1.coef h1.eta h1.obj h1.score dn.1 _ (fun r => mir_linPred M dn.1 r) 19 0 1
  revert hL
  generalize lineSearch D' _ (fun j => s j * dn.1 j) = L'
  generalize lineSearch D _ dn.1 = L
  intro hL
  obtain ⟨q1, q2⟩ := mir_quadratic M hL.eta hL.mu' hL.mu hL.cP2
  have hcc := mir_converge M hL.coef hL.step q1
  rw [hcc, q2]
  refine ⟨hL.coef, hL.eta, hL.mu', hL.mu, hL.obj, q1, ⟨rfl, hH.rows, hH.H, hH.init, hH.active⟩, rfl, rfl, rfl, rfl, ?_, ?_, ?_⟩
  · exact congrArg (· + 1) h.nIter
  · exact congrArg (· + dn.2) h.nCycles
  · simp only [h.nIter, hL.obj, hL.warned, h.diagnostics]

theorem mir_init (M : Mirror τ s a D' D) (coef : Fin (p + ic.toNat) → ℝ) : Mir τ s a D' D (irlsInit D' (mirrored s a coef)) (irlsInit D coef) := by
  obtain ⟨e1, e2, e3, e4, e5⟩ := mir_etaMu M (cur' := fun _ => 0) (cur := fun _ => 0) (fun r => by simp) (fun r => mir_eta M coef r) 1 (rfl : mirrored s a coef = _)
  obtain ⟨q1, q2⟩ := mir_quadratic M e1 e2 e3 e5
  have hcc := mir_converge M (coef := coef) rfl (rfl : l2Norm (fun _ : Fin (p + ic.toNat) => D.stepTol.getD 0) = _) q1
  unfold irlsInit
  simp only
  rw [M.stepTol, hcc, q2, e4]
  exact ⟨rfl, e1, e2, e3, rfl, q1, ⟨rfl, rfl, fun i j => by simp [hessInit], rfl, rfl⟩, rfl, rfl, rfl, rfl, rfl, rfl, rfl⟩

theorem mir_loop (M : Mirror τ s a D' D) {inner' inner : Inner n p ic} (hin : MirrorInner τ s a D' D inner' inner) :
    ∀ (fuel : ℕ) (st' st : IRLSState n p ic), Mir τ s a D' D st' st → Mir τ s a D' D (irlsLoop inner' D' fuel st') (irlsLoop inner D fuel st) := by
  intro fuel
  induction fuel with
  | zero => intro st' st h; exact h
  | succ k ih =>
    intro st' st h
    unfold irlsLoop
    rw [h.nIter, h.converged, M.maxIter]
    split
    · exact ih _ _ (mir_step M hin h)
    · exact h

theorem mir_run (M : Mirror τ s a D' D) {inner' inner : Inner n p ic} (hin : MirrorInner τ s a D' D inner' inner) (coef : Fin (p + ic.toNat) → ℝ) :
    Mir τ s a D' D (irlsRun inner' D' (mirrored s a coef)) (irlsRun inner D coef) := by
  unfold irlsRun
  rw [M.maxIter]
  exact mir_loop M hin _ _ _ (mir_init M coef)

end

end

end Glum
