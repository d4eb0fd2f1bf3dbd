import Verif.Props.Sample
import Verif.Props.Frequency
import Verif.Props.ResponseUnits
/-
C121: rows with the same features and offset can be merged into one row that carries their total weight and their weighted mean response.
-/
set_option linter.unusedSectionVars false
set_option linter.unusedVariables false
set_option linter.unusedSimpArgs false

namespace Glum
open Spec Matrix

variable {n m p : ℕ} {ic : Bool}

/-- The detailed data behind the rows `R`: row `i` has the features and the offset of row `f i` of `R`, its own response `y' i` and weight `w' i`. -/
def Spec.detailed (f : Fin m → Fin n) (y' w' : Fin m → ℝ) (R : Rows n) : Rows m :=
  { X := fun i => R.X (f i), y := y', sw := w', off := R.off.map fun o i => o (f i) }

/-- `y`, `w` summarise the responses `y'` with weights `w'`: every group has the total weight of its rows and their weighted mean response (that is,
`w r * y r` is their weighted total). -/
structure Spec.Summarises (f : Fin m → Fin n) (y' w' : Fin m → ℝ) (y w : Fin n → ℝ) : Prop where
  weight : ∀ r, ∑ i with f i = r, w' i = w r
  total : ∀ r, ∑ i with f i = r, w' i * y' i = w r * y r

/-- The family/link pairs whose deviance is, as the solver computes it (without terms that depend on the response alone), linear in the response: the binomial
family with any link, and Poisson, gamma, Tweedie `1 < p < 2`, negative binomial with log link. -/
def Spec.LinearInResponse (f : Family) (l : Link) : Prop :=
  f = .binomial ∨ ∃ k, f.fast l = some k ∧ k ≠ .normalIdentity ∧ k ≠ .invGaussianLog

/-- Functions of the response that are a constant plus a multiple of it. -/
structure YAffine (fam : RowFamily) : Prop where
  dev : ∀ e, ∃ a b, ∀ y, fam.dev y e = a + y * b
  grad : ∀ e mu, ∃ a b, ∀ y, fam.grad y 1 e mu = a + y * b
  hess : ∀ e mu, ∃ a b, ∀ y, fam.hess y 1 e mu = a + y * b
  gradVar : ∀ e mu, ∃ a b, ∀ y, fam.gradVar y 1 e mu = a + y * b

theorem genericGrad_affine (f : Family) (l : Link) (e mu : ℝ) : ∃ a b, ∀ y, genericGrad f l y 1 e mu = a + y * b :=
  ⟨l.inverseDerivative e * oneOverVariance f l mu e 1 1 * (-mu), l.inverseDerivative e * oneOverVariance f l mu e 1 1, fun y => by unfold genericGrad; ring⟩

theorem fast_affine (f : Family) (l : Link) (k : Fast) (h1 : k ≠ .normalIdentity) (h2 : k ≠ .invGaussianLog) : YAffine (fastRow f l k) := by
  refine ⟨fun e => ?_, fun e mu => ?_, fun e mu => ?_, fun e mu => genericGrad_affine f l e mu⟩
  · cases k with
    | normalIdentity => exact absurd rfl h1
    | invGaussianLog => exact absurd rfl h2
    | poissonLog => exact ⟨2 * Real.exp e, -2 * e, fun y => by simp only [fastRow, Fast.dev]; ring⟩
    | gammaLog => exact ⟨2 * e, 2 / Real.exp e, fun y => by simp only [fastRow, Fast.dev]; ring⟩
    | tweedieLog q => exact ⟨2 * (Real.exp e ^ (1 - q) * (Real.exp e / (2 - q))), -2 * (Real.exp e ^ (1 - q) / (1 - q)), fun y => by simp only [fastRow, Fast.dev]; ring⟩
    | binomialLogit =>
      by_cases he : 0 < e
      · exact ⟨-2 * (-e - Real.log (1 + Real.exp (-e))), -2 * e, fun y => by simp only [fastRow, Fast.dev, if_pos he]; ring⟩
      · exact ⟨2 * Real.log (1 + Real.exp e), -2 * e, fun y => by simp only [fastRow, Fast.dev, if_neg he]; ring⟩
    | negBinomialLog t =>
      exact ⟨2 * (1 / t * Real.log (Real.exp e + 1 / t)), 2 * (-e + Real.log (Real.exp e + 1 / t)), fun y => by simp only [fastRow, Fast.dev]; ring⟩
  · cases k with
    | normalIdentity => exact absurd rfl h1
    | invGaussianLog => exact absurd rfl h2
    | poissonLog => exact ⟨-mu, 1, fun y => by simp only [fastRow, Fast.grad]; ring⟩
    | gammaLog => exact ⟨-1, 1 / mu, fun y => by simp only [fastRow, Fast.grad]; ring⟩
    | tweedieLog q => exact ⟨-(mu ^ (1 - q) * mu), mu ^ (1 - q), fun y => by simp only [fastRow, Fast.grad]; ring⟩
    | binomialLogit => exact ⟨-mu, 1, fun y => by simp only [fastRow, Fast.grad]; ring⟩
    | negBinomialLog t => exact ⟨-mu / (1 + t * mu), 1 / (1 + t * mu), fun y => by simp only [fastRow, Fast.grad]; ring⟩
  · cases k with
    | normalIdentity => exact absurd rfl h1
    | invGaussianLog => exact absurd rfl h2
    | poissonLog => exact ⟨mu, 0, fun y => by simp only [fastRow, Fast.hess]; ring⟩
    | gammaLog => exact ⟨0, 1 / mu, fun y => by simp only [fastRow, Fast.hess]; ring⟩
    | tweedieLog q => exact ⟨mu ^ (1 - q) * (mu + (1 - q) * mu), -(mu ^ (1 - q) * (1 - q)), fun y => by simp only [fastRow, Fast.hess]; ring⟩
    | binomialLogit => exact ⟨mu * (1 - mu), 0, fun y => by simp only [fastRow, Fast.hess]; ring⟩
    | negBinomialLog t => exact ⟨mu / (1 + t * mu), 0, fun y => by simp only [fastRow, Fast.hess]; ring⟩

theorem rowFam_affine (e50 : ℝ) (f : Family) (l : Link) (h : LinearInResponse f l) : YAffine (rowFam e50 f l) := by
  unfold rowFam
  cases hk : f.fast l with
  | some k =>
    refine fast_affine f l k ?_ ?_
    · rintro rfl
      rcases h with rfl | ⟨k', h', h1, -⟩
      · cases l <;> simp [Family.fast] at hk
      · rw [hk] at h'; exact h1 (Option.some.inj h').symm
    · rintro rfl
      rcases h with rfl | ⟨k', h', -, h1⟩
      · cases l <;> simp [Family.fast] at hk
      · rw [hk] at h'; exact h1 (Option.some.inj h').symm
  | none =>
    rcases h with rfl | ⟨k', h', -⟩
    · refine ⟨fun e => ⟨-2 * Real.log (1 - l.inverse e50 e), -2 * (Real.log (l.inverse e50 e) - Real.log (1 - l.inverse e50 e)), fun y => ?_⟩,
        fun e mu => genericGrad_affine _ l e mu, fun e mu => ⟨_, 0, fun y => by rw [mul_zero, add_zero]; rfl⟩, fun e mu => genericGrad_affine _ l e mu⟩
      simp only [genericRow, Family.unitDeviance, xlogy_eq]
      ring
    · rw [hk] at h'; cases h'

/-- What is affine in the response is carried over to the groups. -/
theorem affine_carries {f : Fin m → Fin n} {y' w' : Fin m → ℝ} {y w : Fin n → ℝ} (h : Summarises f y' w' y w) (F : Fin n → ℝ → ℝ)
    (hF : ∀ r, ∃ a b, ∀ y, F r y = a + y * b) : Carries f (fun i => w' i * F (f i) (y' i)) fun r => w r * F r (y r) := by
  intro r
  obtain ⟨a, b, hab⟩ := hF r
  have : ∑ i with f i = r, w' i * F (f i) (y' i) = (∑ i with f i = r, w' i) * a + (∑ i with f i = r, w' i * y' i) * b := by
    rw [Finset.sum_mul, Finset.sum_mul, ← Finset.sum_add_distrib]
    exact Finset.sum_congr rfl fun i hi => by rw [(Finset.mem_filter.1 hi).2, hab]; ring
  rw [this, h.weight, h.total]
  beta_reduce
  rw [hab]; ring

/-- The solver's problem on the detailed rows. -/
def mergeData (f : Fin m → Fin n) (y' w : Fin m → ℝ) (D : IRLSData n p ic) : IRLSData m p ic := { pullData f w D with y := y' }

/-- The detailed rows and the groups look the same to the solver. -/
structure RowsAgree (f : Fin m → Fin n) (y' w : Fin m → ℝ) (D : IRLSData n p ic) : Prop where
  dev : ∀ e : Fin n → ℝ, ∑ i, w i * D.fam.dev (y' i) (e (f i)) = ∑ r, D.sw r * D.fam.dev (D.y r) (e r)
  grad : ∀ e mu : Fin n → ℝ, Carries f (fun i => D.fam.grad (y' i) (w i) (e (f i)) (mu (f i))) fun r => D.fam.grad (D.y r) (D.sw r) (e r) (mu r)
  hess : ∀ e mu : Fin n → ℝ, Carries f (fun i => D.fam.hess (y' i) (w i) (e (f i)) (mu (f i))) fun r => D.fam.hess (D.y r) (D.sw r) (e r) (mu r)
  gradVar : ∀ e mu : Fin n → ℝ, Carries f (fun i => D.fam.gradVar (y' i) (w i) (e (f i)) (mu (f i))) fun r => D.fam.gradVar (D.y r) (D.sw r) (e r) (mu r)

theorem rowsAgree_affine {f : Fin m → Fin n} {y' w : Fin m → ℝ} (D : IRLSData n p ic) (hl : WeightLinear D.fam) (ha : YAffine D.fam)
    (h : Summarises f y' w D.y D.sw) : RowsAgree f y' w D := by
  refine ⟨fun e => ?_, fun e mu => ?_, fun e mu => ?_, fun e mu => ?_⟩
  · exact carries_total (affine_carries h (fun r y => D.fam.dev y (e r)) fun r => ha.dev _)
  · have := affine_carries h (fun r y => D.fam.grad y 1 (e r) (mu r)) fun r => ha.grad _ _
    simp only [← hl.grad] at this
    exact this
  · have := affine_carries h (fun r y => D.fam.hess y 1 (e r) (mu r)) fun r => ha.hess _ _
    simp only [← hl.hess] at this
    exact this
  · have := affine_carries h (fun r y => D.fam.gradVar y 1 (e r) (mu r)) fun r => ha.gradVar _ _
    simp only [← hl.gradVar] at this
    exact this

theorem scoreOf_merge {f : Fin m → Fin n} {y' w : Fin m → ℝ} (D : IRLSData n p ic) {g' : Fin m → ℝ} {g : Fin n → ℝ} (h : Carries f g' g)
    (cP2 : Fin (p + ic.toNat) → ℝ) : scoreOf (mergeData f y' w D) g' cP2 = scoreOf D g cP2 := by
  funext k
  unfold scoreOf
  congr 1
  split
  · exact carries_total h
  · exact carries_sum h fun r => D.X r (k.val - ic.toNat)

theorem etaMu_merge {f : Fin m → Fin n} {y' w : Fin m → ℝ} (D : IRLSData n p ic) (ha : RowsAgree f y' w D) {cur' Xd' : Fin m → ℝ} {cur Xd : Fin n → ℝ}
    (hc : ∀ i, cur' i = cur (f i)) (hx : ∀ i, Xd' i = Xd (f i)) (factor : ℝ) (coef : Fin (p + ic.toNat) → ℝ) :
    let r' := etaMuObjective (mergeData f y' w D) cur' Xd' factor coef
    let r := etaMuObjective D cur Xd factor coef
    (∀ i, r'.1 i = r.1 (f i)) ∧ (∀ i, r'.2.1 i = r.2.1 (f i)) ∧ r'.2.2.1 = r.2.2.1 ∧ r'.2.2.2 = r.2.2.2 := by
  have he : ∀ i, cur' i + factor * Xd' i = cur (f i) + factor * Xd (f i) := fun i => by rw [hc, hx]
  refine ⟨he, fun i => congrArg D.fam.inv (he i), ?_, rfl⟩
  have hdev : ∑ i, w i * D.fam.dev (y' i) (cur' i + factor * Xd' i) = ∑ r, D.sw r * D.fam.dev (D.y r) (cur r + factor * Xd r) := by
    simp only [he]
    exact ha.dev fun r => cur r + factor * Xd r
  show 1 / 2 * (∑ i, w i * D.fam.dev (y' i) (cur' i + factor * Xd' i)) + _ + _ = _
  rw [hdev]
  rfl

theorem quadratic_merge {f : Fin m → Fin n} {y' w : Fin m → ℝ} (D : IRLSData n p ic) (ha : RowsAgree f y' w D)
    {eta' mu' : Fin m → ℝ} {eta mu : Fin n → ℝ} (he : ∀ i, eta' i = eta (f i)) (hm : ∀ i, mu' i = mu (f i)) (cP2 : Fin (p + ic.toNat) → ℝ) :
    (updateQuadratic (mergeData f y' w D) eta' mu' cP2).1 = (updateQuadratic D eta mu cP2).1 ∧
    Carries f (updateQuadratic (mergeData f y' w D) eta' mu' cP2).2 (updateQuadratic D eta mu cP2).2 := by
  obtain rfl : eta' = fun i => eta (f i) := funext he
  obtain rfl : mu' = fun i => mu (f i) := funext hm
  exact ⟨scoreOf_merge D (ha.grad eta mu) cP2, ha.hess eta mu⟩

theorem accept_merge {f : Fin m → Fin n} {y' w : Fin m → ℝ} (D : IRLSData n p ic) (ha : RowsAgree f y' w D)
    (hov : NoOverflow f D.fam.inv D.large)
    {st' : IRLSState m p ic} {st : IRLSState n p ic} (hobj : st'.obj = st.obj) (hsc : st'.score = st.score) (bound factor obj : ℝ)
    {eta' mu' : Fin m → ℝ} {eta mu : Fin n → ℝ} (he : ∀ i, eta' i = eta (f i)) (hm : ∀ i, mu' i = mu (f i)) (hinv : ∀ r, mu r = D.fam.inv (eta r))
    (cP2 : Fin (p + ic.toNat) → ℝ) :
    lsAccept (mergeData f y' w D) st' bound factor eta' mu' obj cP2 ↔ lsAccept D st bound factor eta mu obj cP2 := by
  obtain rfl : eta' = fun i => eta (f i) := funext he
  obtain rfl : mu' = fun i => mu (f i) := funext hm
  have hall : (∀ i, mu (f i) < D.large) ↔ ∀ r, mu r < D.large := by
    constructor
    · intro h r
      rcases hov with hs | hb
      · obtain ⟨i, rfl⟩ := hs r
        exact h i
      · rw [hinv]; exact hb _
    · intro h i
      exact h _
  have hgv : scoreOf (mergeData f y' w D) (fun i => D.fam.gradVar (y' i) (w i) (eta (f i)) (mu (f i))) cP2
      = scoreOf D (fun r => D.fam.gradVar (D.y r) (D.sw r) (eta r) (mu r)) cP2 := scoreOf_merge D (ha.gradVar eta mu) cP2
  unfold lsAccept
  rw [hobj, hsc]
  show ((∀ i, mu (f i) < D.large) ∧ _) ∨ (_ ∧ ∑ k, |scoreOf (mergeData f y' w D) (fun i => D.fam.gradVar (y' i) (w i) (eta (f i)) (mu (f i))) cP2 k| < _) ↔ _
  rw [hall, hgv]
  rfl

theorem lineLoop_merge {f : Fin m → Fin n} {y' w : Fin m → ℝ} (D : IRLSData n p ic) (ha : RowsAgree f y' w D)
    (hov : NoOverflow f D.fam.inv D.large)
    {st' : IRLSState m p ic} {st : IRLSState n p ic} (hcoef : st'.coef = st.coef) (heta : ∀ i, st'.eta i = st.eta (f i)) (hobj : st'.obj = st.obj)
    (hsc : st'.score = st.score) (d : Fin (p + ic.toNat) → ℝ) (bound : ℝ) {Xd' : Fin m → ℝ} {Xd : Fin n → ℝ} (hx : ∀ i, Xd' i = Xd (f i)) :
    ∀ (rem k : ℕ) (factor : ℝ), SimL f D.fam.inv (lineLoop (mergeData f y' w D) st' d bound Xd' rem k factor) (lineLoop D st d bound Xd rem k factor) := by
  intro rem
  induction rem with
  | zero =>
    intro k factor
    obtain ⟨e1, e2, e3, e4⟩ := etaMu_merge D ha heta hx factor (fun j => st.coef j + factor * d j)
    unfold lineLoop
    simp only
    rw [hcoef, e3, e4]
    have hacc := accept_merge D ha hov hobj hsc bound factor (etaMuObjective D st.eta Xd factor fun j => st.coef j + factor * d j).2.2.1 e1 e2
      (fun _ => rfl) (etaMuObjective D st.eta Xd factor fun j => st.coef j + factor * d j).2.2.2
    split
    · rename_i h'
      rw [if_pos (hacc.1 h')]
      exact ⟨rfl, rfl, e1, e2, fun _ => rfl, rfl, rfl, rfl, rfl⟩
    · rename_i h'
      rw [if_neg fun h => h' (hacc.2 h)]
      exact ⟨rfl, rfl, e1, e2, fun _ => rfl, rfl, rfl, rfl, rfl⟩
  | succ rem ih =>
    intro k factor
    obtain ⟨e1, e2, e3, e4⟩ := etaMu_merge D ha heta hx factor (fun j => st.coef j + factor * d j)
    unfold lineLoop
    simp only
    rw [hcoef, e3, e4]
    have hacc := accept_merge D ha hov hobj hsc bound factor (etaMuObjective D st.eta Xd factor fun j => st.coef j + factor * d j).2.2.1 e1 e2
      (fun _ => rfl) (etaMuObjective D st.eta Xd factor fun j => st.coef j + factor * d j).2.2.2
    split
    · rename_i h'
      rw [if_pos (hacc.1 h')]
      exact ⟨rfl, rfl, e1, e2, fun _ => rfl, rfl, rfl, rfl, rfl⟩
    · rename_i h'
      rw [if_neg fun h => h' (hacc.2 h)]
      exact ih (k + 1) (factor * (1 / 2))

theorem active_merge {f : Fin m → Fin n} {y' w : Fin m → ℝ} (D : IRLSData n p ic) {st' : IRLSState m p ic} {st : IRLSState n p ic}
    (h : Sim f D.fam.inv st' st) : identifyActiveSet (mergeData f y' w D) st' = identifyActiveSet D st := by
  unfold identifyActiveSet
  rw [h.coef, h.maxSub, h.score]
  rfl

theorem step_merge {f : Fin m → Fin n} {y' w : Fin m → ℝ} (D : IRLSData n p ic) (ha : RowsAgree f y' w D)
    (hov : NoOverflow f D.fam.inv D.large) (hC : D.hessApprox = 0 ∨ Function.Bijective f) (inner : (m : ℕ) → Inner m p ic) (hin : RowBlind inner)
    {st' : IRLSState m p ic} {st : IRLSState n p ic} (h : Sim f D.fam.inv st' st) :
    Sim f D.fam.inv (irlsStep (inner m) (mergeData f y' w D) st') (irlsStep (inner n) D st) := by
  have hA := active_merge (y' := y') (w := w) D h
  have hH : SimH f (updateHessian ic (mergeData f y' w D).X (mergeData f y' w D).P2 (mergeData f y' w D).hessApprox st'.hs (identifyActiveSet (mergeData f y' w D) st'))
      (updateHessian ic D.X D.P2 D.hessApprox st.hs (identifyActiveSet D st)) := by
    rw [hA]; exact updateHessian_pull D.X D.P2 D.hessApprox hC h.hs _
  have hdir : inner m (mergeData f y' w D) { st' with hs := updateHessian ic (mergeData f y' w D).X (mergeData f y' w D).P2 (mergeData f y' w D).hessApprox st'.hs (identifyActiveSet (mergeData f y' w D) st') }
      = inner n D { st with hs := updateHessian ic D.X D.P2 D.hessApprox st.hs (identifyActiveSet D st) } :=
    hin m n _ _ _ _ rfl rfl rfl rfl rfl rfl h.coef h.score hH.H hH.active h.innerTol h.nIter
  unfold irlsStep
  simp only
  rw [hdir]
  generalize inner n D _ = dn
  have hb : ∀ hs' hs, armijoBound (mergeData f y' w D) { st' with hs := hs' } dn.1 = armijoBound D { st with hs := hs } dn.1 := by
    intro hs' hs
    unfold armijoBound
    simp only [h.score, h.coef]
    rfl
  have hL : ∀ hs' hs, SimL f D.fam.inv (lineSearch (mergeData f y' w D) { st' with hs := hs' } dn.1) (lineSearch D { st with hs := hs } dn.1) := by
    intro hs' hs
    unfold lineSearch
    rw [hb hs' hs]
    exact lineLoop_merge D ha hov (st' := { st' with hs := hs' }) (st := { st with hs := hs }) h.coef h.eta h.obj h.score dn.1 _
      (fun i => linPred_pull f D.X dn.1 none i) 19 0 1
  have hL1 := hL (updateHessian ic (mergeData f y' w D).X (mergeData f y' w D).P2 (mergeData f y' w D).hessApprox st'.hs (identifyActiveSet (mergeData f y' w D) st'))
    (updateHessian ic D.X D.P2 D.hessApprox st.hs (identifyActiveSet D st))
  revert hL1
  generalize lineSearch (mergeData f y' w D) _ dn.1 = L'
  generalize lineSearch D _ dn.1 = L
  intro hL1
  have hQ := quadratic_merge D ha hL1.eta hL1.mu L.cP2
  rw [hL1.cP2, hL1.coef, hL1.step]
  have hcc : ∀ sc, checkConvergence (mergeData f y' w D) L.coef L.step sc = checkConvergence D L.coef L.step sc := fun sc => rfl
  rw [hQ.1, hcc]
  refine ⟨rfl, rfl, hL1.eta, hL1.mu, hL1.muInv, hL1.obj, rfl, ⟨hQ.2, hH.rows, hH.H, hH.init, hH.active⟩, rfl, rfl, rfl, rfl, ?_, ?_, ?_⟩
  · exact congrArg (· + 1) h.nIter
  · exact congrArg (· + dn.2) h.nCycles
  · simp only [h.nIter, hL1.obj, hL1.warned, h.diagnostics]

theorem init_merge {f : Fin m → Fin n} {y' w : Fin m → ℝ} (D : IRLSData n p ic) (ha : RowsAgree f y' w D)
    (coef : Fin (p + ic.toNat) → ℝ) : Sim f D.fam.inv (irlsInit (mergeData f y' w D) coef) (irlsInit D coef) := by
  obtain ⟨e1, e2, e3, e4⟩ := etaMu_merge (f := f) (y' := y') (w := w) D ha (cur' := fun _ => 0) (cur := fun _ => 0) (fun _ => rfl)
    (fun i => linPred_pull f D.X coef D.offset i) 1 coef
  have hQ := quadratic_merge D ha e1 e2 (etaMuObjective D (fun _ => 0) (safeLinPred ic D.X coef D.offset) 1 coef).2.2.2
  unfold irlsInit
  simp only
  have hoff : (mergeData f y' w D).offset = D.offset.map fun o i => o (f i) := rfl
  have hX : (mergeData f y' w D).X = fun i => D.X (f i) := rfl
  rw [hoff, hX, e3, e4, hQ.1]
  have hcc : ∀ st sc, checkConvergence (mergeData f y' w D) coef st sc = checkConvergence D coef st sc := fun st sc => rfl
  have hst : (mergeData f y' w D).stepTol = D.stepTol := rfl
  rw [hst, hcc]
  refine ⟨rfl, rfl, e1, e2, fun _ => rfl, rfl, rfl, ⟨hQ.2, ?_, rfl, rfl, rfl⟩, rfl, rfl, rfl, rfl, rfl, rfl, rfl⟩
  intro r
  exact Finset.sum_const_zero

theorem loop_merge {f : Fin m → Fin n} {y' w : Fin m → ℝ} (D : IRLSData n p ic) (ha : RowsAgree f y' w D)
    (hov : NoOverflow f D.fam.inv D.large) (hC : D.hessApprox = 0 ∨ Function.Bijective f) (inner : (m : ℕ) → Inner m p ic) (hin : RowBlind inner) :
    ∀ (fuel : ℕ) (st' : IRLSState m p ic) (st : IRLSState n p ic), Sim f D.fam.inv st' st →
      Sim f D.fam.inv (irlsLoop (inner m) (mergeData f y' w D) fuel st') (irlsLoop (inner n) D fuel st) := by
  intro fuel
  induction fuel with
  | zero => intro st' st h; exact h
  | succ k ih =>
    intro st' st h
    unfold irlsLoop
    rw [h.nIter, h.converged]
    have : (mergeData f y' w D).maxIter = D.maxIter := rfl
    rw [this]
    split
    · exact ih _ _ (step_merge D ha hov hC inner hin h)
    · exact h

/-- **C121, the solver.** One solve sees nothing of the rows but the weighted sample. -/
theorem c121_solver {f : Fin m → Fin n} {y' w : Fin m → ℝ} (D : IRLSData n p ic) (ha : RowsAgree f y' w D)
    (hov : NoOverflow f D.fam.inv D.large) (hC : D.hessApprox = 0 ∨ Function.Bijective f)
    (next : (ℕ → BitVec 32) → ℕ → (ℕ → BitVec 32)) (inner : (ℕ → BitVec 32) → (m : ℕ) → Inner m p ic) (hin : ∀ s, RowBlind (inner s))
    (A : Option (ℕ → ℕ → ℝ)) (s : SolverLog) (start : Fin (p + ic.toNat) → ℝ) :
    irlsSolver next inner m (mergeData f y' w D) A s start = irlsSolver next inner n D A s start := by
  have h := loop_merge D ha hov hC (inner s.seeds) (hin _) D.maxIter _ _ (init_merge D ha start)
  unfold irlsSolver irlsRun
  have e : (mergeData f y' w D).maxIter = D.maxIter := rfl
  simp only [e, h.nIter, h.converged, h.diagnostics, h.coef]


theorem total_merge {f : Fin m → Fin n} {y' w' : Fin m → ℝ} {y w : Fin n → ℝ} (h : Summarises f y' w' y w) (G : Fin n → ℝ) :
    ∑ i, y' i * G (f i) * w' i = ∑ r, y r * G r * w r := by
  have := carries_total (affine_carries h (fun r t => t * G r) fun r => ⟨0, G r, fun t => by ring⟩)
  calc _ = _ := Finset.sum_congr rfl fun i _ => mul_comm _ _
    _ = _ := this
    _ = _ := Finset.sum_congr rfl fun i _ => mul_comm _ _

theorem weight_merge {f : Fin m → Fin n} {y' w' : Fin m → ℝ} {y w : Fin n → ℝ} (h : Summarises f y' w' y w) (G : Fin n → ℝ) :
    ∑ i, G (f i) * w' i = ∑ r, G r * w r := by
  calc _ = _ := Finset.sum_congr rfl fun i _ => mul_comm _ _
    _ = _ := carries_sum h.weight G
    _ = _ := Finset.sum_congr rfl fun i _ => mul_comm _ _

/-- The response is not constant, before and after merging (with a link other than the identity, glum refuses to start from a constant response). -/
def Spec.ResponsesVary (l : Link) (y' : Fin m → ℝ) (y : Fin n → ℝ) : Prop := l = .identity ∨ ((∃ i j, y' i ≠ y' j) ∧ ∃ i j, y i ≠ y j)

theorem guess_merge {f : Fin m → Fin n} {y' w' : Fin m → ℝ} {y w : Fin n → ℝ} (h : Summarises f y' w' y w) (F : Family) (l : Link)
    (hy : ResponsesVary l y' y) (e : Option (Fin n → ℝ)) :
    guessIntercept F l y' w' ((e.map fun o i => o (f i)).elim .none .array) = guessIntercept F l y w (e.elim .none .array) := by
  have hc' : ¬ (l ≠ .identity ∧ ∃ c, ∀ i, y' i = c) := by
    rintro ⟨hl, c, hc⟩
    rcases hy with h | ⟨⟨i, j, hij⟩, -⟩
    · exact hl h
    · exact hij ((hc i).trans (hc j).symm)
  have hc : ¬ (l ≠ .identity ∧ ∃ c, ∀ i, y i = c) := by
    rintro ⟨hl, c, hc⟩
    rcases hy with h | ⟨-, i, j, hij⟩
    · exact hl h
    · exact hij ((hc i).trans (hc j).symm)
  have hW : ∑ i, w' i = ∑ r, w r := carries_total h.weight
  have hyw : ∑ i, y' i * w' i = ∑ r, y r * w r := by
    have := total_merge h fun _ => 1
    simpa only [mul_one] using this
  have hav : average y' w' = average y w := by unfold average; rw [hW, hyw]
  unfold guessIntercept
  rw [if_neg hc, if_neg hc', hav]
  cases e with
  | none => cases l <;> simp only [Option.map_none, Option.elim_none, hyw]
  | some o =>
    have ho : average (fun i => o (f i)) w' = average o w := by unfold average; rw [hW, weight_merge h o]
    have h1 : ∀ q : ℝ, ∑ i, y' i * Real.exp (o (f i)) ^ q * w' i = ∑ r, y r * Real.exp (o r) ^ q * w r := fun q => total_merge h fun r => Real.exp (o r) ^ q
    have h2 : ∀ q : ℝ, ∑ i, Real.exp (o (f i)) ^ q * w' i = ∑ r, Real.exp (o r) ^ q * w r := fun q => weight_merge h fun r => Real.exp (o r) ^ q
    cases l <;> simp only [Option.map_some, Option.elim_some, hyw, ho, h1, h2]

theorem alphas_merge {f : Fin m → Fin n} {y' w' : Fin m → ℝ} (S : SmoothData n p ic) (h : Summarises f y' w' S.y S.sw) (hy : ResponsesVary S.link y' S.y)
    (P1 : ℕ → ℝ) (k : ℕ) (lo ratio : Option ℝ) (ha : AlphasSeen p m n (.search k lo ratio)) :
    alphaPath (p := p) (ic := ic)
      { X := fun i => S.X (f i), y := y', sw := w', P2 := S.P2, family := S.family, link := S.link, offset := S.offset.map fun o i => o (f i), e50 := S.e50 } P1 k lo ratio = alphaPath S P1 k lo ratio := by
  set S' : SmoothData m p ic := { X := fun i => S.X (f i), y := y', sw := w', P2 := S.P2, family := S.family, link := S.link, offset := S.offset.map fun o i => o (f i), e50 := S.e50 } with hS'
  have hpc : pathCoef S' = pathCoef S := by
    unfold pathCoef
    have := guess_merge h S.family S.link hy none
    split
    · exact congrArg _ this
    · rfl
  have hmd : ∀ coef, (muDevianceDerivative S' coef).2 = (muDevianceDerivative S coef).2 := by
    intro coef
    have heta : ∀ i, safeLinPred ic S'.X coef S'.offset i = safeLinPred ic S.X coef S.offset (f i) := fun i => linPred_pull f S.X coef S.offset i
    set T : Fin n → ℝ → ℝ := fun r t => S.link.inverseDerivative (safeLinPred ic S.X coef S.offset r) *
      (S.family.unitDevianceDerivative t (S.link.inverse S.e50 (safeLinPred ic S.X coef S.offset r))) with hT
    have hc : Carries f (fun i => S'.link.inverseDerivative (safeLinPred ic S'.X coef S'.offset i) *
        (S'.sw i * S'.family.unitDevianceDerivative (S'.y i) (S'.link.inverse S'.e50 (safeLinPred ic S'.X coef S'.offset i))))
        (fun r => S.link.inverseDerivative (safeLinPred ic S.X coef S.offset r) *
        (S.sw r * S.family.unitDevianceDerivative (S.y r) (S.link.inverse S.e50 (safeLinPred ic S.X coef S.offset r)))) := by
      have h1 := affine_carries h T fun r => by
        generalize S.link.inverse S.e50 (safeLinPred ic S.X coef S.offset r) = mu at hT
        refine ⟨S.link.inverseDerivative (safeLinPred ic S.X coef S.offset r) * (2 * (S.link.inverse S.e50 (safeLinPred ic S.X coef S.offset r)) /
            S.family.unitVariance (S.link.inverse S.e50 (safeLinPred ic S.X coef S.offset r))),
          S.link.inverseDerivative (safeLinPred ic S.X coef S.offset r) * (-2 / S.family.unitVariance (S.link.inverse S.e50 (safeLinPred ic S.X coef S.offset r))), fun t => ?_⟩
        show S.link.inverseDerivative _ * (S.family.unitDevianceDerivative t _) = _
        unfold Family.unitDevianceDerivative
        ring
      have e1 : (fun i => S'.link.inverseDerivative (safeLinPred ic S'.X coef S'.offset i) *
        (S'.sw i * S'.family.unitDevianceDerivative (S'.y i) (S'.link.inverse S'.e50 (safeLinPred ic S'.X coef S'.offset i)))) = fun i => w' i * T (f i) (y' i) := by
        funext i
        rw [heta]
        show S.link.inverseDerivative _ * (w' i * S.family.unitDevianceDerivative (y' i) (S.link.inverse S.e50 _)) = _
        rw [hT]; ring
      have e2 : (fun r => S.link.inverseDerivative (safeLinPred ic S.X coef S.offset r) *
        (S.sw r * S.family.unitDevianceDerivative (S.y r) (S.link.inverse S.e50 (safeLinPred ic S.X coef S.offset r)))) = fun r => S.sw r * T r (S.y r) := by
        funext r
        rw [hT]; ring
      rw [e1, e2]; exact h1
    funext j
    unfold muDevianceDerivative
    simp only
    split
    · exact carries_total hc
    · exact carries_sum hc fun r => S.X r (j.val - ic.toNat)
  have hfg : ∀ coef, featureGradient S' coef = featureGradient S coef := fun coef => by
    funext j; unfold featureGradient; rw [hmd]
  have ham : ∀ coef, alphaMax S' P1 coef = alphaMax S P1 coef := fun coef => by
    unfold alphaMax rawAlphaMax; rw [hfg]
  have hgrid : ∀ x, makeGrid m p k lo ratio x = makeGrid n p k lo ratio x := by
    intro x
    have : gridMin m p lo ratio x = gridMin n p lo ratio x := by
      unfold gridMin
      cases lo with
      | some l => rfl
      | none =>
        cases ratio with
        | some r => rfl
        | none =>
          have hh : (p ≤ m ↔ p ≤ n) := ha
          simp only [ge_iff_le, hh]
    unfold makeGrid
    rw [this]
  unfold alphaPath
  simp only [hpc, ham, hgrid]

/-- **C121.** `fit` with an IRLS solver on detailed rows and on rows merged by features and offset (total weight, weighted mean response) does exactly the same:
same iterations, objective values, warnings, alphas, coefficients.  The pair of family and link has a deviance linear in the response, the Hessian is exact (the
default), every group has a row (or no mean can overflow), and the responses are not all equal, before or after merging. -/
theorem c121_fit (next : (ℕ → BitVec 32) → ℕ → (ℕ → BitVec 32)) (inner : (ℕ → BitVec 32) → (m : ℕ) → Inner m p ic) (hin : ∀ s, RowBlind (inner s))
    (C : FitCfg p ic) (hlin : LinearInResponse C.family C.link) (hC : C.hessApprox = 0) (stats : Stats) (hst : TrueStats stats) (R : Rows n) (f : Fin m → Fin n)
    (y' w' : Fin m → ℝ) (h : Summarises f y' w' R.y R.sw) (hov : NoOverflow f (rowFam C.e50 C.family C.link).inv C.large) (hy : ResponsesVary C.link y' R.y)
    (l1 : ℝ) (a : AlphaSpec) (ha : AlphasSeen p m n a) (s : SolverLog) :
    glmFit C stats (irlsSolver next inner) (detailed f y' w' R) l1 a s = glmFit C stats (irlsSolver next inner) R l1 a s := by
  have hg : startGuess C (detailed f y' w' R) = startGuess C R := by
    unfold startGuess
    cases ic with
    | false => rfl
    | true =>
      cases C.start with
      | cold => exact guess_merge h C.family C.link hy R.off
      | previous v => rfl
      | given v => rfl
  have hstats : stats m (detailed f y' w' R).X (detailed f y' w' R).sw = stats n R.X R.sw := stats_pull stats hst R h.weight
  have hprep : prepare C stats (detailed f y' w' R) l1
      = (prepare C stats R l1).map fun Q => { means := Q.means, stds := Q.stds, D := mergeData f y' w' Q.D, A := Q.A, start := Q.start } := by
    unfold prepare
    simp only [hstats, hg]
    cases setupP1 p 1 l1 C.P1a with
    | none => rfl
    | some P1 =>
      cases setupP2 p C.xsp 1 l1 C.P2a with
      | none => rfl
      | some P2 =>
        cases startGuess C R with
        | none => rfl
        | some g => rfl
  unfold glmFit
  by_cases hbad : C.boundsBad
  · simp only [if_pos hbad]
  simp only [if_neg hbad]
  cases setupP2 p C.xsp 1 l1 C.P2a with
  | none => rfl
  | some P2 =>
    simp only [Option.bind_eq_bind, Option.bind_some]
    split
    · rfl
    rw [hprep]
    cases hQ : prepare C stats R l1 with
    | none => rfl
    | some Q =>
      obtain ⟨P1, P2', -, -, -, -, hD, -⟩ := prepare_spec C stats R l1 Q hQ
      simp only [Option.map_some, Option.bind_some]
      have hev : a.eval C { means := Q.means, stds := Q.stds, D := mergeData f y' w' Q.D, A := Q.A, start := Q.start } = a.eval C Q := by
        cases a with
        | single x => rfl
        | given l => rfl
        | search k lo ratio =>
          have := alphas_merge (p := p) (ic := ic) (f := f) (y' := y') (w' := w')
            { X := Q.D.X, y := Q.D.y, sw := Q.D.sw, P2 := Q.D.P2, family := C.family, link := C.link, offset := Q.D.offset, e50 := C.e50 }
            (by rw [hD]; exact h) (by rw [hD]; exact hy) Q.D.P1 k lo ratio ha
          exact this
      rw [hev]
      cases a.eval C Q with
      | none => rfl
      | some al =>
        simp only [Option.bind_some]
        have hsolve : Prepared.solveFn { means := Q.means, stds := Q.stds, D := mergeData f y' w' Q.D, A := Q.A, start := Q.start } (irlsSolver next inner)
            = Q.solveFn (irlsSolver next inner) := by
          funext s' P1' P2'' coef
          have := c121_solver (f := f) (y' := y') (w := w') (Q.D.withPen P1' P2'') (by
              refine rowsAgree_affine _ ?_ ?_ ?_
              · rw [hD]
                show WeightLinear (rowFam C.e50 C.family C.link)
                unfold rowFam
                cases C.family.fast C.link with
                | none => exact (builtin_weightLinear C.e50 C.family C.link).1
                | some k => exact (builtin_weightLinear C.e50 C.family C.link).2 k
              · rw [hD]; exact rowFam_affine C.e50 C.family C.link hlin
              · rw [hD]; exact h)
            (by rw [hD]; exact hov) (by rw [hD]; exact Or.inl hC) next inner hin Q.A s' coef
          exact this
        have hpath : Prepared.path { means := Q.means, stds := Q.stds, D := mergeData f y' w' Q.D, A := Q.A, start := Q.start } (irlsSolver next inner) al s
            = Q.path (irlsSolver next inner) al s := by
          unfold Prepared.path
          rw [hsolve]
          rfl
        rw [hpath]

/-! ### The documented objective, for every family -/

theorem ySupport_convex (f : Family) : Convex ℝ (ySupport f) := by
  cases f with
  | normal => exact convex_univ
  | poisson => exact convex_Ici 0
  | gamma => exact convex_Ioi 0
  | invGaussian => exact convex_Ioi 0
  | ghs => exact convex_univ
  | binomial => exact convex_Icc 0 1
  | negBinomial t => exact convex_Ici 0
  | tweedie q =>
    by_cases h0 : q ≤ 0
    · have : ySupport (.tweedie q) = Set.univ := by ext y; simp [ySupport, h0]
      rw [this]; exact convex_univ
    · by_cases h2 : q < 2
      · have : ySupport (.tweedie q) = Set.Ici 0 := by
          ext y
          simp only [ySupport, Set.mem_ofPred_eq, Set.mem_Ici, h0, h2, true_and, false_or]
          exact ⟨fun h => h.elim id le_of_lt, Or.inl⟩
        rw [this]; exact convex_Ici 0
      · have : ySupport (.tweedie q) = Set.Ioi 0 := by ext y; simp [ySupport, h0, h2]
        rw [this]; exact convex_Ioi 0

/-- The mean response of a group is a response the family accepts. -/
theorem merged_support (F : Family) {f : Fin m → Fin n} {y' w' : Fin m → ℝ} {y w : Fin n → ℝ} (h : Summarises f y' w' y w) (hw : ∀ i, 0 ≤ w' i)
    (hy : ∀ i, y' i ∈ ySupport F) (r : Fin n) (hr : w r ≠ 0) : y r ∈ ySupport F := by
  have h1 : ∑ i with f i = r, w' i / w r = 1 := by rw [← Finset.sum_div, h.weight]; exact div_self hr
  have hpos : 0 ≤ w r := by rw [← h.weight]; exact Finset.sum_nonneg fun i _ => hw i
  have := (ySupport_convex F).sum_mem (t := Finset.univ.filter fun i => f i = r) (w := fun i => w' i / w r) (z := y')
    (fun i _ => div_nonneg (hw i) hpos) h1 fun i _ => hy i
  have e : ∑ i with f i = r, (w' i / w r) • y' i = y r := by
    have : ∀ i, (w' i / w r) • y' i = w' i * y' i / w r := fun i => by rw [smul_eq_mul]; ring
    simp only [this]
    rw [← Finset.sum_div, h.total]
    field_simp
  rwa [e] at this

/-- The unit deviance is a function of the response plus a term affine in the response. -/
theorem unitDeviance_affine (f : Family) (hf : Valid f) : ∃ g : ℝ → ℝ, ∀ mu ∈ muRange f, ∃ a b : ℝ, ∀ y ∈ ySupport f, f.unitDeviance y mu = g y + (a + y * b) := by
  have hN : ∀ y mu : ℝ, (y - mu) ^ 2 = y ^ 2 + (mu ^ 2 + y * (-2 * mu)) := fun y mu => by ring
  have hP : ∀ y mu : ℝ, 0 < mu → 2 * (xlogy y (y / mu) - y + mu) = 2 * (y * Real.log y - y) + (2 * mu + y * (-2 * Real.log mu)) := fun y mu h => by
    rw [poisson_dev_eq h]; ring
  have hG : ∀ y mu : ℝ, 0 < y → 0 < mu → 2 * (Real.log (mu / y) + y / mu - 1) = (-2 * Real.log y - 2) + (2 * Real.log mu + y * (2 / mu)) := fun y mu h h' => by
    rw [Real.log_div h'.ne' h.ne']; ring
  have hI : ∀ y mu : ℝ, 0 < y → 0 < mu → (y / mu - 1) ^ 2 / y = 1 / y + (-2 / mu + y * (1 / mu ^ 2)) := fun y mu h h' => by
    field_simp; ring
  cases f with
  | normal => exact ⟨fun y => y ^ 2, fun mu _ => ⟨mu ^ 2, -2 * mu, fun y _ => hN y mu⟩⟩
  | poisson => exact ⟨fun y => 2 * (y * Real.log y - y), fun mu hm => ⟨2 * mu, -2 * Real.log mu, fun y _ => hP y mu hm⟩⟩
  | gamma => exact ⟨fun y => -2 * Real.log y - 2, fun mu hm => ⟨2 * Real.log mu, 2 / mu, fun y hy => hG y mu hy hm⟩⟩
  | invGaussian => exact ⟨fun y => 1 / y, fun mu hm => ⟨-2 / mu, 1 / mu ^ 2, fun y hy => hI y mu hy hm⟩⟩
  | ghs =>
    refine ⟨fun y => 2 * y * Real.arctan y - Real.log (1 + y ^ 2), fun mu _ => ⟨Real.log (1 + mu ^ 2), -2 * Real.arctan mu, fun y _ => ?_⟩⟩
    simp only [Family.unitDeviance]
    rw [Real.log_div (by positivity) (by positivity)]
    ring
  | binomial =>
    refine ⟨fun _ => 0, fun mu _ => ⟨-2 * Real.log (1 - mu), -2 * (Real.log mu - Real.log (1 - mu)), fun y _ => ?_⟩⟩
    simp only [Family.unitDeviance, xlogy_eq]
    ring
  | negBinomial t =>
    have ht : 0 < t := hf
    refine ⟨fun y => 2 * (y * Real.log y - (y + 1 / t) * Real.log (y + 1 / t)), fun mu hm =>
      ⟨2 * (1 / t * Real.log (mu + 1 / t)), 2 * (-Real.log mu + Real.log (mu + 1 / t)), fun y hy => ?_⟩⟩
    have hm0 : 0 < mu := hm
    have hy0 : 0 ≤ y := hy
    have hr : 0 < 1 / t := by positivity
    simp only [Family.unitDeviance, xlogy_eq]
    rw [Real.log_div (x := y + 1 / t) (y := mu + 1 / t) (by positivity) (by positivity)]
    by_cases h0 : y = 0
    · subst h0; simp; ring
    · rw [Real.log_div h0 hm0.ne']; ring
  | tweedie q =>
    by_cases h0 : q = 0
    · exact ⟨fun y => y ^ 2, fun mu _ => ⟨mu ^ 2, -2 * mu, fun y _ => by simp only [Family.unitDeviance, if_pos h0]; exact hN y mu⟩⟩
    have hmu : ∀ mu ∈ muRange (.tweedie q), 0 < mu := fun mu h => h.resolve_left h0
    by_cases h1 : q = 1
    · exact ⟨fun y => 2 * (y * Real.log y - y), fun mu hm => ⟨2 * mu, -2 * Real.log mu, fun y _ => by
        simp only [Family.unitDeviance, if_neg h0, if_pos h1]; exact hP y mu (hmu mu hm)⟩⟩
    have hy0 : 2 ≤ q → ∀ y ∈ ySupport (.tweedie q), 0 < y := fun h2 y h => by
      rcases h with h | h | h
      · linarith
      · linarith [h.1]
      · exact h
    by_cases h2 : q = 2
    · exact ⟨fun y => -2 * Real.log y - 2, fun mu hm => ⟨2 * Real.log mu, 2 / mu, fun y hy => by
        simp only [Family.unitDeviance, if_neg h0, if_neg h1, if_pos h2]; exact hG y mu (hy0 h2.ge y hy) (hmu mu hm)⟩⟩
    by_cases h3 : q = 3
    · exact ⟨fun y => 1 / y, fun mu hm => ⟨-2 / mu, 1 / mu ^ 2, fun y hy => by
        simp only [Family.unitDeviance, if_neg h0, if_neg h1, if_neg h2, if_pos h3]; exact hI y mu (hy0 (by rw [h3]; norm_num) y hy) (hmu mu hm)⟩⟩
    · refine ⟨fun y => 2 * (max y 0 ^ (2 - q) / ((1 - q) * (2 - q))), fun mu _ => ⟨2 * (mu * mu ^ (1 - q) / (2 - q)), -2 * (mu ^ (1 - q) / (1 - q)), fun y _ => ?_⟩⟩
      simp only [Family.unitDeviance, if_neg h0, if_neg h1, if_neg h2, if_neg h3, tweedieUnitDeviance]
      ring

/-- **C121, objective.** For every family whose means stay in their range: the documented objectives of the detailed and of the merged data differ by a constant,
which depends neither on the coefficients nor on the penalty. -/
theorem c121_objective (F : Family) (hF : Valid F) (l : Link) (e50 : ℝ) (hm : ∀ e, trueMean e50 F l e ∈ muRange F) (R : Rows n) (f : Fin m → Fin n)
    (y' w' : Fin m → ℝ) (h : Summarises f y' w' R.y R.sw) (hw : ∀ i, 0 ≤ w' i) (hy : ∀ i, y' i ∈ ySupport F) :
    ∃ K : ℝ, ∀ (p : ℕ) (s : ℕ → ℝ) (P1a : P1Arg) (P2a : P2Arg) (a l1r b0 : ℝ) (b : ℕ → ℝ),
      fitObjective p e50 F l (detailed f y' w' R) s P1a P2a a l1r b0 b = fitObjective p e50 F l R s P1a P2a a l1r b0 b + K := by
  obtain ⟨g, hg⟩ := unitDeviance_affine F hF
  have hrow : ∀ mu ∈ muRange F, ∃ a b : ℝ, (∀ y ∈ ySupport F, F.unitDeviance y mu = g y + (a + y * b)) := hg
  refine ⟨1 / 2 * (∑ i, w' i * g (y' i) - ∑ r, R.sw r * g (R.y r)), fun p s P1a P2a a l1r b0 b => ?_⟩
  set mu : Fin n → ℝ := fun r => trueMean e50 F l (∑ j : Fin p, R.X r j * b j + b0 + (R.off.getD fun _ => 0) r) with hmu
  choose A B hAB using fun r => hg (mu r) (hm _)
  have hcar := carries_total (affine_carries h (fun r t => A r + t * B r) fun r => ⟨A r, B r, fun _ => rfl⟩)
  have hoff : ∀ i, ((detailed f y' w' R).off.getD fun _ => 0) i = (R.off.getD fun _ => 0) (f i) := fun i => by
    show ((R.off.map fun o i => o (f i)).getD fun _ => 0) i = _
    cases R.off <;> rfl
  have h1 : ∑ i, (detailed f y' w' R).sw i * F.unitDeviance ((detailed f y' w' R).y i)
      (trueMean e50 F l (∑ j : Fin p, (detailed f y' w' R).X i j * b j + b0 + ((detailed f y' w' R).off.getD fun _ => 0) i))
      = ∑ i, w' i * g (y' i) + ∑ i, w' i * (A (f i) + y' i * B (f i)) := by
    rw [← Finset.sum_add_distrib]
    refine Finset.sum_congr rfl fun i _ => ?_
    rw [hoff]
    show w' i * F.unitDeviance (y' i) (mu (f i)) = _
    rw [hAB (f i) _ (hy i)]; ring
  have h2 : ∑ r, R.sw r * F.unitDeviance (R.y r) (mu r) = ∑ r, R.sw r * g (R.y r) + ∑ r, R.sw r * (A r + R.y r * B r) := by
    rw [← Finset.sum_add_distrib]
    refine Finset.sum_congr rfl fun r _ => ?_
    by_cases hr : R.sw r = 0
    · rw [hr]; ring
    · rw [hAB r _ (merged_support F h hw hy r hr)]; ring
  unfold fitObjective
  rw [h1]
  show _ = 1 / 2 * ∑ r, R.sw r * F.unitDeviance (R.y r) (mu r) + _ + _ + _
  rw [h2, hcar]
  ring

/-- **C121, solutions.** The same coefficients solve the two problems. -/
theorem c121_solutions (F : Family) (hF : Valid F) (l : Link) (e50 : ℝ) (hm : ∀ e, trueMean e50 F l e ∈ muRange F) (R : Rows n) (f : Fin m → Fin n)
    (y' w' : Fin m → ℝ) (h : Summarises f y' w' R.y R.sw) (hw : ∀ i, 0 ≤ w' i) (hy : ∀ i, y' i ∈ ySupport F) (lb ub : Option (ℕ → ℝ))
    (s : ℕ → ℝ) (P1a : P1Arg) (P2a : P2Arg) (a l1r b0 : ℝ) (b : ℕ → ℝ) :
    Solves p ic lb ub (fitObjective p e50 F l (detailed f y' w' R) s P1a P2a a l1r) b0 b ↔ Solves p ic lb ub (fitObjective p e50 F l R s P1a P2a a l1r) b0 b := by
  obtain ⟨K, hK⟩ := c121_objective F hF l e50 hm R f y' w' h hw hy
  unfold Solves
  simp only [hK, add_le_add_iff_right]

/-- **C121, in the limit.** For the convex pairs (least squares included) and regular problems, whatever the solver settings: with small enough tolerances, fits of the
detailed and of the merged data without a `ConvergenceWarning` have the same intercept and coefficients up to `ε`. -/
theorem c121_limits (C : FitCfg p ic) (stats : Stats) (hst : TrueStats stats) (R : Rows n) (f : Fin m → Fin n) (y' w' : Fin m → ℝ)
    (hsum : Summarises f y' w' R.y R.sw) (hw : ∀ i, 0 ≤ w' i) (hy : ∀ i, y' i ∈ ySupport C.family) (hv : ResponsesVary C.link y' R.y)
    (l1r a : ℝ) (h : ConvexFit C R l1r) (hr : RegularFit C R l1r a) (hs : ∀ j, 0 ≤ (stats n R.X R.sw).2 j) (ε : ℝ) (hε : 0 < ε) :
    ∃ δ : ℝ, 0 < δ ∧ ∀ (next next' : (ℕ → BitVec 32) → ℕ → (ℕ → BitVec 32)) (inner inner' : (ℕ → BitVec 32) → (m : ℕ) → Inner m p ic) (C₁ C₂ : FitCfg p ic),
      SameProblem C C₁ → SameProblem C C₂ → C₁.stepTol = none → C₂.stepTol = none → C₁.gradTol < δ → C₂.gradTol < δ →
      ∀ (sp sp' : AlphaSpec) (s t s' t' : SolverLog) (r r' : PathResult), glmFit C₁ stats (irlsSolver next inner) R l1r sp s = some (t, r) →
        glmFit C₂ stats (irlsSolver next' inner') (detailed f y' w' R) l1r sp' s' = some (t', r') →
        (∀ x ∈ r.alphas, 0 ≤ x) → (∀ x ∈ r'.alphas, 0 ≤ x) → t.convWarn = s.convWarn → t'.convWarn = s'.convWarn →
        ∀ (i i' : ℕ) (hi : i < r.alphas.length) (hc : i < r.coefPath.length) (hb : i < r.interceptPath.length)
          (hi' : i' < r'.alphas.length) (hc' : i' < r'.coefPath.length) (hb' : i' < r'.interceptPath.length),
          r.alphas[i] = a → r'.alphas[i'] = a → WithinBounds p C.lb C.ub r.coefPath[i] → WithinBounds p C.lb C.ub r'.coefPath[i'] →
          |r'.interceptPath[i'] - r.interceptPath[i]| ≤ ε ∧ ∀ j < p, |r'.coefPath[i'] j - r.coefPath[i] j| ≤ ε := by
  obtain ⟨k, hk, -⟩ := h.pair
  have hm : ∀ e, trueMean C.e50 C.family C.link e ∈ muRange C.family := fun e => (trueMean_hasDeriv C.e50 C.family C.link k hk e).2
  have h' : ConvexFit C (detailed f y' w' R) l1r := ⟨h.thr, h.valid, h.pair, hy, hw, h.p1, h.p2, h.l1⟩
  have hr' : RegularFit C (detailed f y' w' R) l1r a := ⟨(carries_total hsum.weight).trans hr.weights, hr.alpha, hr.mix, hr.posdef, fun hi => by
    obtain ⟨g, hg⟩ := hr.start hi
    exact ⟨g, (guess_merge hsum C.family C.link hv none).trans hg⟩, hr.room⟩
  have hstats : stats m (detailed f y' w' R).X (detailed f y' w' R).sw = stats n R.X R.sw := stats_pull stats hst R hsum.weight
  obtain ⟨b0, b, hsol, -⟩ := c90_unique_solution C R l1r a h hr (stats n R.X R.sw).2
  have hsol' := hsol
  rw [← c121_solutions C.family h.valid C.link C.e50 hm R f y' w' hsum hw hy, ← hstats] at hsol'
  obtain ⟨δ, hδ, hfit⟩ := c90_fits_converge C stats R l1r a h hr hs b0 b hsol (ε / 2) (by linarith)
  obtain ⟨δ', hδ', hfit'⟩ := c90_fits_converge C stats (detailed f y' w' R) l1r a h' hr' (by rw [hstats]; exact hs) b0 b hsol' (ε / 2) (by linarith)
  refine ⟨min δ δ', lt_min hδ hδ', fun next next' inner inner' C₁ C₂ h1 h2 st1 st2 g1 g2 sp sp' s t s' t' r r' q q' al al' w w' i i' hi hc hb hi' hc' hb' e e' wb wb' => ?_⟩
  obtain ⟨a1, a2⟩ := hfit next inner C₁ h1 st1 (lt_of_lt_of_le g1 (min_le_left _ _)) sp s t r q al w i hi hc hb e wb
  obtain ⟨a1', a2'⟩ := hfit' next' inner' C₂ h2 st2 (lt_of_lt_of_le g2 (min_le_right _ _)) sp' s' t' r' q' al' w' i' hi' hc' hb' e' wb'
  refine ⟨?_, fun j hj => ?_⟩
  · rw [abs_le] at a1 a1' ⊢
    constructor <;> linarith [a1.1, a1.2, a1'.1, a1'.2]
  · have x1 := a2 j hj
    have x2 := a2' j hj
    rw [abs_le] at x1 x2 ⊢
    constructor <;> linarith [x1.1, x1.2, x2.1, x2.2]

/-! ### Inference -/

/-- The arguments of `covariance_matrix` on the detailed data `D'` and on the merged data `D`: row `k` of `D'` is in group `g k`, has its features and (the fitted model
being the same) its predicted mean. -/
structure Spec.MergedCov (D' : CovData m p ic) (D : CovData n p ic) (g : Fin m → Fin n) : Prop where
  family : D'.f = D.f
  link : D'.l = D.l
  X : ∀ k j, D'.X k j = D.X (g k) j
  mu : ∀ k, D'.mu k = D.mu (g k)
  rows : Summarises g D'.y D'.w D.y D.w

section Cov
variable {D' : CovData m p ic} {D : CovData n p ic} {g : Fin m → Fin n}

theorem mergedCov_design (h : MergedCov D' D g) (k : Fin m) (j : Fin (p + ic.toNat)) : design ic D'.X k j = design ic D.X (g k) j := by
  obtain ⟨j, hj⟩ := j
  unfold design
  cases ic with
  | false => exact h.X k j
  | true => cases j with
    | zero => rfl
    | succ j => exact h.X k j

theorem mergedCov_gram (h : MergedCov D' D g) (W' : Fin m → ℝ) (W : Fin n → ℝ) (hW : Carries g W' W) :
    Spec.weightedGram p ic D'.X W' = Spec.weightedGram p ic D.X W := by
  ext s t
  simp only [Spec.weightedGram, Matrix.of_apply]
  have := carries_sum hW fun i => design ic D.X i s * design ic D.X i t
  calc _ = ∑ k, W' k * (design ic D.X (g k) s * design ic D.X (g k) t) :=
        Finset.sum_congr rfl fun k _ => by rw [mergedCov_design h, mergedCov_design h]; ring
    _ = _ := this
    _ = _ := Finset.sum_congr rfl fun i _ => by ring

theorem mergedCov_fisher (h : MergedCov D' D g) (d : ℝ) :
    sandwichMatrix p ic D'.X (fun k => fisherW D'.f D'.l d (D'.mu k) (D'.w k)) = sandwichMatrix p ic D.X (fun i => fisherW D.f D.l d (D.mu i) (D.w i)) := by
  rw [sandwichMatrix_eq, sandwichMatrix_eq]
  refine mergedCov_gram h _ _ ?_
  have := carries_mul h.rows.weight fun i => fisherW D.f D.l d (D.mu i) 1
  have e : (fun k => D'.w k * fisherW D.f D.l d (D.mu (g k)) 1) = fun k => fisherW D'.f D'.l d (D'.mu k) (D'.w k) := by
    funext k; rw [h.family, h.link, h.mu, ← fisherW_weight]
  rw [e] at this
  simpa only [← fisherW_weight] using this

theorem mergedCov_oim (h : MergedCov D' D g) (o' : CovOptions m) (o : CovOptions n) (d : ℝ) (ho' : o'.dispersion = some d) (ho : o.dispersion = some d)
    (he : o'.expected = o.expected) : D'.oim o' = D.oim o := by
  unfold CovData.oim CovData.disp
  rw [ho, ho', he]
  simp only [Option.getD_some]
  split
  · exact mergedCov_fisher h _
  · rw [sandwichMatrix_eq, sandwichMatrix_eq]
    refine mergedCov_gram h _ _ ?_
    have := affine_carries h.rows (fun i t => observedW D.f D.l d t (D.mu i) 1) fun i => by
      refine ⟨observedW D.f D.l d 0 (D.mu i) 1, observedW D.f D.l d 1 (D.mu i) 1 - observedW D.f D.l d 0 (D.mu i) 1, fun t => ?_⟩
      unfold observedW
      ring
    have e : (fun k => D'.w k * observedW D.f D.l d (D'.y k) (D.mu (g k)) 1) = fun k => observedW D'.f D'.l d (D'.y k) (D'.mu k) (D'.w k) := by
      funext k; rw [h.family, h.link, h.mu, ← observedW_weight]
    rw [e] at this
    simpa only [← observedW_weight] using this

theorem mergedCov_sum (h : MergedCov D' D g) : ∑ k, D'.w k = ∑ i, D.w i := carries_total h.rows.weight

/-- **C121, non-robust.** With a given dispersion, the non-robust covariance matrix of the merged data is that of the detailed data. -/
theorem c121_nonrobust (h : MergedCov D' D g) (expected : Bool) (d : ℝ) (ok : Bool) :
    covariance D' ⟨false, expected, none, some d⟩ ok = covariance D ⟨false, expected, none, some d⟩ ok := by
  unfold covariance CovData.disp
  simp only [mergedCov_sum h, Option.getD_some]
  split
  · rfl
  · rw [if_neg (by simp), if_neg (by simp), mergedCov_fisher h]

/-- **C121, clustered.** The same for clustered standard errors, if every group lies in one cluster and no cluster is lost. -/
theorem c121_clustered (h : MergedCov D' D g) (c : Fin n → ℤ) (hc : Finset.univ.image (fun k => c (g k)) = Finset.univ.image c)
    (robust expected : Bool) (d : ℝ) (ok : Bool) :
    covariance D' ⟨robust, expected, some fun k => c (g k), some d⟩ ok = covariance D ⟨robust, expected, some c, some d⟩ ok := by
  have hk : numGroups (fun k => c (g k)) = numGroups c := by unfold numGroups; rw [hc]
  have hl : (∀ k, -(numGroups c : ℤ) ≤ c (g k) ∧ c (g k) < numGroups c) ↔ ∀ i, -(numGroups c : ℤ) ≤ c i ∧ c i < numGroups c := by
    constructor
    · intro hh i
      have : c i ∈ Finset.univ.image (fun k => c (g k)) := by rw [hc]; exact Finset.mem_image_of_mem _ (Finset.mem_univ i)
      obtain ⟨k, -, hk⟩ := Finset.mem_image.1 this
      rw [← hk]; exact hh k
    · exact fun hh k => hh _
  have ho := mergedCov_oim h ⟨robust, expected, some fun k => c (g k), some d⟩ ⟨robust, expected, some c, some d⟩ d rfl rfl rfl
  have hi : clusterInner (numGroups c) (fun k => c (g k)) (D'.gradient ⟨robust, expected, some fun k => c (g k), some d⟩) =
      clusterInner (numGroups c) c (D.gradient ⟨robust, expected, some c, some d⟩) := by
    ext s t
    simp only [clusterInner, Matrix.of_apply]
    have key : ∀ (q : Fin (numGroups c)) (j : Fin (p + ic.toNat)),
        (∑ k with (if c (g k) < 0 then c (g k) + (numGroups c : ℤ) else c (g k)) = (q.val : ℤ), D'.gradient ⟨robust, expected, some fun k => c (g k), some d⟩ k j) =
        ∑ i with (if c i < 0 then c i + (numGroups c : ℤ) else c i) = (q.val : ℤ), D.gradient ⟨robust, expected, some c, some d⟩ i j := by
      intro q j
      rw [Finset.sum_filter, Finset.sum_filter]
      have := carries_total (affine_carries h.rows (fun i t => if (if c i < 0 then c i + (numGroups c : ℤ) else c i) = (q.val : ℤ) then
        scoreW D.f D.l d t (D.mu i) 1 * design ic D.X i j else 0) fun i => by
          by_cases hq : (if c i < 0 then c i + (numGroups c : ℤ) else c i) = (q.val : ℤ)
          · refine ⟨scoreW D.f D.l d 0 (D.mu i) 1 * design ic D.X i j,
              (scoreW D.f D.l d 1 (D.mu i) 1 - scoreW D.f D.l d 0 (D.mu i) 1) * design ic D.X i j, fun t => ?_⟩
            rw [if_pos hq]
            unfold scoreW
            ring
          · exact ⟨0, 0, fun t => by rw [if_neg hq]; ring⟩)
      calc _ = _ := Finset.sum_congr rfl fun k _ => ?_
        _ = _ := this
        _ = _ := Finset.sum_congr rfl fun i _ => ?_
      · rw [own_gradient, mul_ite, mul_zero, mergedCov_design h, h.family, h.link, h.mu]
        rfl
      · rw [own_gradient]
        rw [mul_ite, mul_zero]
        rfl
    exact Finset.sum_congr rfl fun q _ => by rw [key, key]
  rw [covariance_clustered, covariance_clustered, hk, ho, hi, mergedCov_sum h]
  split
  · rfl
  · by_cases hh : ∀ i, -(numGroups c : ℤ) ≤ c i ∧ c i < numGroups c
    · rw [if_pos hh, if_pos (hl.2 hh)]
    · rw [if_neg hh, if_neg fun h' => hh (hl.1 h')]

/-- **C121, dispersion.** What merging loses is the variation within the groups: the estimated (Pearson) dispersion of the detailed data is that of the merged
data plus the weighted squared deviations from the group means, in units of the variance function, over the same degrees of freedom. -/
theorem c121_dispersion (h : MergedCov D' D g) (ddof : ℝ) :
    dispersionPearson D'.f D'.y D'.mu D'.w ddof = dispersionPearson D.f D.y D.mu D.w ddof +
      (∑ k, D'.w k * ((D'.y k - D.y (g k)) ^ 2 / D.f.unitVariance (D.mu (g k)))) / (∑ i, D.w i - ddof) := by
  unfold dispersionPearson
  rw [mergedCov_sum h, ← add_div]
  congr 1
  have h1 := carries_total (affine_carries h.rows (fun i t => (t - D.y i) * ((D.y i - D.mu i) / D.f.unitVariance (D.mu i))) fun i =>
    ⟨-D.y i * ((D.y i - D.mu i) / D.f.unitVariance (D.mu i)), (D.y i - D.mu i) / D.f.unitVariance (D.mu i), fun t => by ring⟩)
  have h2 := carries_sum h.rows.weight fun i => (D.y i - D.mu i) ^ 2 / D.f.unitVariance (D.mu i)
  have h3 : ∑ i, D.w i * ((D.y i - D.y i) * ((D.y i - D.mu i) / D.f.unitVariance (D.mu i))) = 0 :=
    Finset.sum_eq_zero fun i _ => by rw [sub_self]; ring
  beta_reduce at h1
  rw [h3] at h1
  have h4 : ∀ k, (D'.y k - D'.mu k) ^ 2 / D'.f.unitVariance (D'.mu k) * D'.w k =
      D'.w k * ((D.y (g k) - D.mu (g k)) ^ 2 / D.f.unitVariance (D.mu (g k))) + D'.w k * ((D'.y k - D.y (g k)) ^ 2 / D.f.unitVariance (D.mu (g k)))
        + 2 * (D'.w k * ((D'.y k - D.y (g k)) * ((D.y (g k) - D.mu (g k)) / D.f.unitVariance (D.mu (g k))))) := fun k => by
    rw [h.family, h.mu]
    ring
  simp only [h4]
  rw [Finset.sum_add_distrib, Finset.sum_add_distrib, ← Finset.mul_sum, h1, mul_zero, add_zero, h2]
  congr 1
  exact Finset.sum_congr rfl fun i _ => mul_comm _ _

end Cov

/-! ### Non-vacuity, and what merging can break -/

noncomputable section

/-- Two groups of two rows each. -/
def pairGroups : Fin 4 → Fin 2 := fun i => ⟨i.val / 2, by omega⟩

/-- Counts 1, 3 in the first group and 2, 6 in the second. -/
def pairY : Fin 4 → ℝ := fun i => if i.val = 0 then 1 else if i.val = 1 then 3 else if i.val = 2 then 2 else 6

/-- The merged rows: means 2 and 4. -/
def pairRows : Rows 2 where
  X := fun r _ => if r.val = 0 then 1 else -1
  y := fun r => if r.val = 0 then 2 else 4
  sw := fun _ => 1 / 2
  off := none

theorem pair_summarises : Summarises pairGroups pairY (fun _ => 1 / 4) pairRows.y pairRows.sw := by
  have h0 : (Finset.univ.filter fun i => pairGroups i = 0) = {0, 1} := by decide
  have h1 : (Finset.univ.filter fun i => pairGroups i = 1) = {2, 3} := by decide
  constructor <;> intro r <;> fin_cases r
  · show ∑ i ∈ Finset.univ.filter fun i => pairGroups i = 0, (1 / 4 : ℝ) = _
    rw [h0, Finset.sum_pair (by decide)]; norm_num [pairRows]
  · show ∑ i ∈ Finset.univ.filter fun i => pairGroups i = 1, (1 / 4 : ℝ) = _
    rw [h1, Finset.sum_pair (by decide)]; norm_num [pairRows]
  · show ∑ i ∈ Finset.univ.filter fun i => pairGroups i = 0, 1 / 4 * pairY i = _
    rw [h0, Finset.sum_pair (by decide)]; norm_num [pairRows, pairY]
  · show ∑ i ∈ Finset.univ.filter fun i => pairGroups i = 1, 1 / 4 * pairY i = _
    rw [h1, Finset.sum_pair (by decide)]; norm_num [pairRows, pairY]

theorem pair_surjective : Function.Surjective pairGroups := by decide

/-- Poisson regression with solver `irls-cd`: four rows, or two rows with the mean counts. -/
example (next : (ℕ → BitVec 32) → ℕ → (ℕ → BitVec 32)) (s : SolverLog) :
    glmFit (flatCfg 1) trueStats (irlsCd next) (detailed pairGroups pairY (fun _ => 1 / 4) pairRows) 0 (.search 3 none none) s
      = glmFit (flatCfg 1) trueStats (irlsCd next) pairRows 0 (.search 3 none none) s :=
  c121_fit next (fun seeds _ => cdInner seeds) c81_rowBlind_cd (flatCfg 1) (Or.inr ⟨.poissonLog, rfl, by simp, by simp⟩) rfl trueStats (fun m X w j => ⟨rfl, rfl⟩)
    pairRows pairGroups pairY _ pair_summarises (Or.inl pair_surjective)
    (Or.inr ⟨⟨0, 1, by norm_num [pairY]⟩, 0, 1, by norm_num [pairRows]⟩) 0 (.search 3 none none) (by simp [AlphasSeen]) s

end

noncomputable section

/-- Ridge regression on the merged rows: the hypotheses of `c121_limits` hold. -/
example (ε : ℝ) (hε : 0 < ε) :
    ∃ δ : ℝ, 0 < δ ∧ ∀ (next next' : (ℕ → BitVec 32) → ℕ → (ℕ → BitVec 32)) (inner inner' : (ℕ → BitVec 32) → (m : ℕ) → Inner m 1 true) (C₁ C₂ : FitCfg 1 true),
      SameProblem (tinyCfg 5 5) C₁ → SameProblem (tinyCfg 5 5) C₂ → C₁.stepTol = none → C₂.stepTol = none → C₁.gradTol < δ → C₂.gradTol < δ →
      ∀ (sp sp' : AlphaSpec) (s t s' t' : SolverLog) (r r' : PathResult), glmFit C₁ trueStats (irlsSolver next inner) pairRows 0 sp s = some (t, r) →
        glmFit C₂ trueStats (irlsSolver next' inner') (detailed pairGroups pairY (fun _ => 1 / 4) pairRows) 0 sp' s' = some (t', r') →
        (∀ x ∈ r.alphas, 0 ≤ x) → (∀ x ∈ r'.alphas, 0 ≤ x) → t.convWarn = s.convWarn → t'.convWarn = s'.convWarn →
        ∀ (i i' : ℕ) (hi : i < r.alphas.length) (hc : i < r.coefPath.length) (hb : i < r.interceptPath.length)
          (hi' : i' < r'.alphas.length) (hc' : i' < r'.coefPath.length) (hb' : i' < r'.interceptPath.length),
          r.alphas[i] = 1 → r'.alphas[i'] = 1 → WithinBounds 1 (tinyCfg 5 5).lb (tinyCfg 5 5).ub r.coefPath[i] →
          WithinBounds 1 (tinyCfg 5 5).lb (tinyCfg 5 5).ub r'.coefPath[i'] →
          |r'.interceptPath[i'] - r.interceptPath[i]| ≤ ε ∧ ∀ j < 1, |r'.coefPath[i'] j - r.coefPath[i] j| ≤ ε := by
  refine c121_limits (tinyCfg 5 5) trueStats (fun m X w j => ⟨rfl, rfl⟩) pairRows pairGroups pairY (fun _ => 1 / 4) pair_summarises (fun _ => by norm_num)
    (fun _ => trivial) (Or.inl rfl) 0 1
    ⟨(tiny_convex 5 5).thr, (tiny_convex 5 5).valid, (tiny_convex 5 5).pair, fun i => trivial, fun i => by norm_num [pairRows], (tiny_convex 5 5).p1,
      (tiny_convex 5 5).p2, le_rfl, zero_le_one⟩
    ⟨by simp [pairRows], one_pos, one_pos, one_posdef, fun _ => ⟨_, by unfold guessIntercept; rw [if_neg (by simp [tinyCfg])]; rfl⟩,
      ⟨fun _ => 0, fun j _ => ⟨fun l hl => (by cases hl), fun u hu => (by cases hu)⟩⟩⟩ (fun j => Real.sqrt_nonneg _) ε hε

/-- The four rows of `flatRows`, merged by their feature. -/
def flatMerged (c : ℝ) : Rows 2 where
  X := fun r _ => if r.val = 0 then 1 else -1
  y := fun _ => 2 * c
  sw := fun _ => 1 / 2
  off := none

/-- **C121, the exception.** Why the responses must still vary after merging: these four rows are fitted without a warning, the two merged rows are refused. -/
theorem c121_constant_after_merging (next : (ℕ → BitVec 32) → ℕ → (ℕ → BitVec 32)) (s : SolverLog) :
    Summarises pairGroups (flatRows 1).y (flatRows 1).sw (flatMerged 1).y (flatMerged 1).sw ∧
    detailed pairGroups (flatRows 1).y (flatRows 1).sw (flatMerged 1) = flatRows 1 ∧
    (∃ t r, glmFit (flatCfg 1) trueStats (irlsCd next) (flatRows 1) 0 (.single 1) s = some (t, r) ∧ t.convWarn = s.convWarn) ∧
    glmFit (flatCfg 1) trueStats (irlsCd next) (flatMerged 1) 0 (.single 1) s = none := by
  refine ⟨⟨fun r => ?_, fun r => ?_⟩, ?_, ?_, ?_⟩
  · have h0 : (Finset.univ.filter fun i => pairGroups i = 0) = {0, 1} := by decide
    have h1 : (Finset.univ.filter fun i => pairGroups i = 1) = {2, 3} := by decide
    fin_cases r
    · show ∑ i ∈ Finset.univ.filter fun i => pairGroups i = 0, (flatRows 1).sw i = _
      rw [h0, Finset.sum_pair (by decide)]; norm_num [flatRows, flatMerged]
    · show ∑ i ∈ Finset.univ.filter fun i => pairGroups i = 1, (flatRows 1).sw i = _
      rw [h1, Finset.sum_pair (by decide)]; norm_num [flatRows, flatMerged]
  · have h0 : (Finset.univ.filter fun i => pairGroups i = 0) = {0, 1} := by decide
    have h1 : (Finset.univ.filter fun i => pairGroups i = 1) = {2, 3} := by decide
    fin_cases r
    · show ∑ i ∈ Finset.univ.filter fun i => pairGroups i = 0, (flatRows 1).sw i * (flatRows 1).y i = _
      rw [h0, Finset.sum_pair (by decide)]; norm_num [flatRows, flatMerged]
    · show ∑ i ∈ Finset.univ.filter fun i => pairGroups i = 1, (flatRows 1).sw i * (flatRows 1).y i = _
      rw [h1, Finset.sum_pair (by decide)]; norm_num [flatRows, flatMerged]
  · unfold detailed flatRows flatMerged
    congr 1
    funext i j
    fin_cases i <;> simp [pairGroups]
  · obtain ⟨t, r, h, -, hw, -⟩ := flat_fit next (fun seeds _ => cdInner seeds) 1 1 0 1 one_pos one_pos ⟨le_rfl, zero_le_one⟩ zero_le_one s
    exact ⟨t, r, h, hw⟩
  · have hg : startGuess (flatCfg 1) (flatMerged 1) = none := by
      show guessIntercept .poisson .log (flatMerged 1).y (flatMerged 1).sw .none = none
      unfold guessIntercept
      rw [if_pos ⟨by simp, 2 * 1, fun _ => rfl⟩]
    have hp : prepare (flatCfg 1) trueStats (flatMerged 1) 0 = none := by
      unfold prepare
      rw [hg]
      rfl
    unfold glmFit
    simp only [hp]
    split
    · rfl
    · cases setupP2 1 (flatCfg 1).xsp 1 0 (flatCfg 1).P2a with
      | none => rfl
      | some P2 =>
        simp only [Option.bind_eq_bind, Option.bind_some, Option.bind_none]
        split <;> rfl

/-- Poisson, no intercept, predictions 2 and 4 (the group means). -/
def pairCov' : CovData 4 1 false where
  f := .poisson
  l := .log
  X := fun k => pairRows.X (pairGroups k)
  y := pairY
  mu := fun k => pairRows.y (pairGroups k)
  w := fun _ => 1 / 4

def pairCov : CovData 2 1 false where
  f := .poisson
  l := .log
  X := pairRows.X
  y := pairRows.y
  mu := pairRows.y
  w := pairRows.sw

theorem pair_mergedCov : MergedCov pairCov' pairCov pairGroups := ⟨rfl, rfl, fun _ _ => rfl, fun _ => rfl, pair_summarises⟩

/-- **C121, the estimated dispersion does change**: 0 for the merged rows, 3/4 (with no degrees of freedom subtracted) for the detailed ones. -/
theorem c121_dispersion_changes : dispersionPearson pairCov.f pairCov.y pairCov.mu pairCov.w 0 = 0 ∧
    dispersionPearson pairCov'.f pairCov'.y pairCov'.mu pairCov'.w 0 = 3 / 4 := by
  constructor
  · simp [dispersionPearson, pairCov]
  · rw [c121_dispersion pair_mergedCov]
    have : dispersionPearson pairCov.f pairCov.y pairCov.mu pairCov.w 0 = 0 := by simp [dispersionPearson, pairCov]
    rw [this, zero_add]
    simp only [pairCov, pairCov', Fin.sum_univ_four, Fin.sum_univ_two, Family.unitVariance, pairRows, pairGroups, pairY]
    norm_num

/-- The rows of a group in one cluster. -/
example (robust expected ok : Bool) : covariance pairCov' ⟨robust, expected, some fun k => ((pairGroups k).val : ℤ), some 1⟩ ok =
    covariance pairCov ⟨robust, expected, some fun i => (i.val : ℤ), some 1⟩ ok :=
  c121_clustered pair_mergedCov (fun i => (i.val : ℤ)) (by decide) robust expected 1 ok

end

end Glum
