import Verif.Props.Weights
import Verif.Props.Units
/-
C81: `fit` depends only on the weighted sample: not on the order of the rows, nor on whether a row of weight two is given once or twice.
-/
set_option linter.unusedSectionVars false
set_option linter.unusedVariables false
set_option linter.unusedSimpArgs false

namespace Glum
open Spec

variable {n m p : ℕ} {ic : Bool}

/-- The data set whose row `i` is row `f i` of `R`, with weights `w`. -/
def Spec.resample (f : Fin m → Fin n) (w : Fin m → ℝ) (R : Rows n) : Rows m :=
  { X := fun i => R.X (f i), y := fun i => R.y (f i), sw := w, off := R.off.map fun o i => o (f i) }

/-- The copies of every row carry together the row's weight. -/
def Spec.Carries (f : Fin m → Fin n) (w' : Fin m → ℝ) (w : Fin n → ℝ) : Prop := ∀ r, ∑ i with f i = r, w' i = w r

/-- An inner solver that looks at the quadratic model only, not at the rows behind it. -/
def Spec.RowBlind (inner : (m : ℕ) → Inner m p ic) : Prop :=
  ∀ (m n : ℕ) (D' : IRLSData m p ic) (D : IRLSData n p ic) (st' : IRLSState m p ic) (st : IRLSState n p ic),
    D'.P1 = D.P1 → D'.maxInnerIter = D.maxInnerIter → D'.random = D.random → D'.lb = D.lb → D'.ub = D.ub → D'.eps = D.eps →
    st'.coef = st.coef → st'.score = st.score → st'.hs.H = st.hs.H → st'.hs.active = st.hs.active → st'.innerTol = st.innerTol →
    st'.nIter = st.nIter → inner m D' st' = inner n D st

/-- The problem on resampled rows. -/
def pullData (f : Fin m → Fin n) (w : Fin m → ℝ) (D : IRLSData n p ic) : IRLSData m p ic where
  X := fun i => D.X (f i)
  y := fun i => D.y (f i)
  sw := w
  P1 := D.P1
  P2 := D.P2
  fam := D.fam
  maxIter := D.maxIter
  maxInnerIter := D.maxInnerIter
  gradTol := D.gradTol
  stepTol := D.stepTol
  hessApprox := D.hessApprox
  fixedInnerTol := D.fixedInnerTol
  random := D.random
  offset := D.offset.map fun o i => o (f i)
  lb := D.lb
  ub := D.ub
  eps := D.eps
  large := D.large

theorem carries_mul {f : Fin m → Fin n} {w' : Fin m → ℝ} {w : Fin n → ℝ} (h : Carries f w' w) (G : Fin n → ℝ) :
    Carries f (fun i => w' i * G (f i)) fun r => w r * G r := by
  intro r
  beta_reduce
  rw [← h r, Finset.sum_mul]
  exact Finset.sum_congr rfl fun i hi => by rw [(Finset.mem_filter.1 hi).2]

theorem carries_sub {f : Fin m → Fin n} {a' b' : Fin m → ℝ} {a b : Fin n → ℝ} (h : Carries f a' a) (h' : Carries f b' b) :
    Carries f (fun i => a' i - b' i) fun r => a r - b r := by
  intro r
  rw [Finset.sum_sub_distrib, h r, h' r]

theorem carries_sum {f : Fin m → Fin n} {w' : Fin m → ℝ} {w : Fin n → ℝ} (h : Carries f w' w) (G : Fin n → ℝ) :
    ∑ i, w' i * G (f i) = ∑ r, w r * G r := pull_sum f w' w h G

theorem carries_total {f : Fin m → Fin n} {w' : Fin m → ℝ} {w : Fin n → ℝ} (h : Carries f w' w) : ∑ i, w' i = ∑ r, w r := by
  simpa using carries_sum h fun _ => 1

theorem carries_inj {f : Fin m → Fin n} (hf : Function.Injective f) {w' : Fin m → ℝ} {w : Fin n → ℝ} (h : Carries f w' w) (i : Fin m) :
    w' i = w (f i) := by
  rw [← h (f i)]
  have : (Finset.univ.filter fun j => f j = f i) = {i} := by ext j; simp [hf.eq_iff]
  rw [this, Finset.sum_singleton]

theorem linPred_pull (f : Fin m → Fin n) (X : Fin n → ℕ → ℝ) (coef : Fin (p + ic.toNat) → ℝ) (o : Option (Fin n → ℝ)) (i : Fin m) :
    safeLinPred ic (fun i => X (f i)) coef (o.map fun o i => o (f i)) i = safeLinPred ic X coef o (f i) := by
  cases o <;> rfl

theorem scoreOf_pull {f : Fin m → Fin n} {w : Fin m → ℝ} (D : IRLSData n p ic) {g' : Fin m → ℝ} {g : Fin n → ℝ} (h : Carries f g' g)
    (cP2 : Fin (p + ic.toNat) → ℝ) : scoreOf (pullData f w D) g' cP2 = scoreOf D g cP2 := by
  funext k
  unfold scoreOf
  congr 1
  split
  · exact carries_total h
  · exact carries_sum h fun r => D.X r (k.val - ic.toNat)

theorem sum_support {S : Finset (Fin n)} (d : Fin n → ℝ) (hS : ∀ i, d i ≠ 0 → i ∈ S) (G : Fin n → ℝ) :
    ∑ i ∈ S, d i * G i = ∑ i, d i * G i := by
  refine Finset.sum_subset (Finset.subset_univ _) fun i _ hi => ?_
  by_contra hne
  exact hi (hS i fun h => hne (by rw [h, zero_mul]))

theorem sandwich_pull {f : Fin m → Fin n} (X : Fin n → ℕ → ℝ) {d' : Fin m → ℝ} {d : Fin n → ℝ} (h : Carries f d' d)
    {S' : Finset (Fin m)} {S : Finset (Fin n)} (hS' : ∀ i, d' i ≠ 0 → i ∈ S') (hS : ∀ i, d i ≠ 0 → i ∈ S) (cols : List ℕ) (s t : ℕ) :
    safeSandwichDot ic (fun i => X (f i)) d' S' cols s t = safeSandwichDot ic X d S cols s t := by
  have key : ∀ G : Fin n → ℝ, ∑ i ∈ S', d' i * G (f i) = ∑ i ∈ S, d i * G i := fun G => by
    rw [sum_support d' hS', sum_support d hS, carries_sum h]
  have key2 : ∀ a b : ℕ, ∑ i ∈ S', X (f i) a * d' i * X (f i) b = ∑ i ∈ S, X i a * d i * X i b := fun a b => by
    have e := key fun r => X r a * X r b
    calc _ = ∑ i ∈ S', d' i * (X (f i) a * X (f i) b) := Finset.sum_congr rfl fun i _ => by ring
      _ = _ := e
      _ = _ := Finset.sum_congr rfl fun i _ => by ring
  unfold safeSandwichDot
  cases ic with
  | false => exact key2 _ _
  | true =>
    simp only
    match s, t with
    | 0, 0 => exact carries_total h
    | s' + 1, 0 => exact key fun r => X r (cols.getD s' 0)
    | 0, t' + 1 => exact key fun r => X r (cols.getD t' 0)
    | s' + 1, t' + 1 => exact key2 _ _

/-- The Hessian parts of two states that see the same quadratic model. -/
structure SimH (f : Fin m → Fin n) (h' : HessState ℝ m (p + ic.toNat)) (h : HessState ℝ n (p + ic.toNat)) : Prop where
  rows : Carries f h'.rows h.rows
  oldRows : Carries f h'.oldRows h.oldRows
  H : h'.H = h.H
  init : h'.init = h.init
  active : h'.active = h.active

theorem maxDiff_pull {f : Fin m → Fin n} (hf : Function.Bijective f) {a' b' : Fin m → ℝ} {a b : Fin n → ℝ} (ha : Carries f a' a)
    (hb : Carries f b' b) : maxDiff a' b' = maxDiff a b := by
  have e : ∀ i, |a' i - b' i| = |a (f i) - b (f i)| := fun i => by rw [carries_inj hf.1 ha, carries_inj hf.1 hb]
  rcases Nat.eq_zero_or_pos n with rfl | hn
  · have : m = 0 := by
      by_contra h
      exact (f ⟨0, Nat.pos_of_ne_zero h⟩).elim0
    subst this; rfl
  · have hm : 0 < m := by
      obtain ⟨i, -⟩ := hf.2 ⟨0, hn⟩
      exact i.pos
    refine le_antisymm ?_ ?_
    · obtain ⟨i, hi⟩ := maxDiff_attained a' b' hm
      rw [hi, e]; exact le_maxDiff a b (f i)
    · obtain ⟨r, hr⟩ := maxDiff_attained a b hn
      obtain ⟨i, rfl⟩ := hf.2 r
      rw [hr, ← e]; exact le_maxDiff a' b' i

theorem activeRows_pull {f : Fin m → Fin n} {a' b' : Fin m → ℝ} {a b : Fin n → ℝ} (ha : Carries f a' a)
    (hb : Carries f b' b) (C : ℝ) (hC : C = 0 ∨ Function.Bijective f) :
    Carries f (identifyActiveRows a' b' C).1 (identifyActiveRows a b C).1 ∧
    Carries f (identifyActiveRows a' b' C).2.1 (identifyActiveRows a b C).2.1 := by
  rcases hC with rfl | hf
  · have e : ∀ {q : ℕ} (x y : Fin q → ℝ), (identifyActiveRows x y 0).1 = (fun i => x i - y i) ∧ (identifyActiveRows x y 0).2.1 = x := by
      intro q x y
      have h0 : ∀ i, ¬ |x i - y i| < 0 * maxDiff x y := fun i => by rw [zero_mul]; exact not_lt.2 (abs_nonneg _)
      unfold identifyActiveRows
      simp only [if_neg (h0 _), and_self]
    rw [(e a' b').1, (e a b).1, (e a' b').2, (e a b).2]
    exact ⟨carries_sub ha hb, ha⟩
  · have hmd := maxDiff_pull hf ha hb
    have hai := carries_inj hf.1 ha
    have hbi := carries_inj hf.1 hb
    have back : ∀ {g' : Fin m → ℝ} {g : Fin n → ℝ}, (∀ i, g' i = g (f i)) → Carries f g' g := by
      intro g' g h r
      obtain ⟨i, rfl⟩ := hf.2 r
      have : (Finset.univ.filter fun j => f j = f i) = {i} := by ext j; simp [hf.1.eq_iff]
      rw [this, Finset.sum_singleton, h]
    constructor
    · refine back fun i => ?_
      simp only [identifyActiveRows, hmd, hai, hbi]
    · refine back fun i => ?_
      simp only [identifyActiveRows, hmd, hai, hbi]

theorem updateHessian_pull {f : Fin m → Fin n} (X : Fin n → ℕ → ℝ) (P2 : Pen2 ℝ) (C : ℝ) (hC : C = 0 ∨ Function.Bijective f)
    {h' : HessState ℝ m (p + ic.toNat)} {h : HessState ℝ n (p + ic.toNat)} (hs : SimH f h' h) (A : List (Fin (p + ic.toNat))) :
    SimH f (updateHessian ic (fun i => X (f i)) P2 C h' A) (updateHessian ic X P2 C h A) := by
  obtain ⟨r1, r2, r3, r4, r5⟩ := hs
  unfold updateHessian
  rw [r4, r5]
  split
  · refine ⟨r1, r2, ?_, rfl, rfl⟩
    have : ∀ s t, buildHessianDelta (p := p) ic (fun i => X (f i)) h'.rows (some P2) Finset.univ A s t
        = buildHessianDelta (p := p) ic X h.rows (some P2) Finset.univ A s t := fun s t => by
      unfold buildHessianDelta
      rw [sandwich_pull X r1 (fun _ _ => Finset.mem_univ _) (fun _ _ => Finset.mem_univ _)]
    funext i j
    simp only [setBlock, this, r3]
  · obtain ⟨q1, q2⟩ := activeRows_pull r1 r2 C hC
    have hmem : ∀ {q : ℕ} (x y : Fin q → ℝ) (i : Fin q), (identifyActiveRows x y C).1 i ≠ 0 → i ∈ (identifyActiveRows x y C).2.2 := by
      intro q x y i hi
      exact Finset.mem_filter.2 ⟨Finset.mem_univ _, hi⟩
    refine ⟨q2, r2, ?_, rfl, rfl⟩
    have : ∀ s t, buildHessianDelta (p := p) ic (fun i => X (f i)) (identifyActiveRows h'.rows h'.oldRows C).1 none
          (identifyActiveRows h'.rows h'.oldRows C).2.2 A s t
        = buildHessianDelta (p := p) ic X (identifyActiveRows h.rows h.oldRows C).1 none (identifyActiveRows h.rows h.oldRows C).2.2 A s t :=
      fun s t => by
      unfold buildHessianDelta
      rw [sandwich_pull X q1 (hmem _ _) (hmem _ _)]
    funext i j
    simp only [setBlock, this, r3]

/-- Two states of the loop that agree in everything but the rows. -/
structure Sim (f : Fin m → Fin n) (inv : ℝ → ℝ) (st' : IRLSState m p ic) (st : IRLSState n p ic) : Prop where
  coef : st'.coef = st.coef
  step : st'.step = st.step
  eta : ∀ i, st'.eta i = st.eta (f i)
  mu : ∀ i, st'.mu i = st.mu (f i)
  muInv : ∀ r, st.mu r = inv (st.eta r)
  obj : st'.obj = st.obj
  score : st'.score = st.score
  hs : SimH f st'.hs st.hs
  norm : st'.norm = st.norm
  maxSub : st'.maxSub = st.maxSub
  innerTol : st'.innerTol = st.innerTol
  converged : st'.converged = st.converged
  nIter : st'.nIter = st.nIter
  nCycles : st'.nCycles = st.nCycles
  diagnostics : st'.diagnostics = st.diagnostics

theorem etaMu_pull {f : Fin m → Fin n} {w : Fin m → ℝ} (D : IRLSData n p ic) (hw : Carries f w D.sw) {cur' Xd' : Fin m → ℝ} {cur Xd : Fin n → ℝ}
    (hc : ∀ i, cur' i = cur (f i)) (hx : ∀ i, Xd' i = Xd (f i)) (factor : ℝ) (coef : Fin (p + ic.toNat) → ℝ) :
    let r' := etaMuObjective (pullData f w D) cur' Xd' factor coef
    let r := etaMuObjective D cur Xd factor coef
    (∀ i, r'.1 i = r.1 (f i)) ∧ (∀ i, r'.2.1 i = r.2.1 (f i)) ∧ r'.2.2.1 = r.2.2.1 ∧ r'.2.2.2 = r.2.2.2 := by
  have he : ∀ i, cur' i + factor * Xd' i = cur (f i) + factor * Xd (f i) := fun i => by rw [hc, hx]
  refine ⟨he, fun i => congrArg D.fam.inv (he i), ?_, rfl⟩
  have hdev : ∑ i, w i * D.fam.dev (D.y (f i)) (cur' i + factor * Xd' i) = ∑ r, D.sw r * D.fam.dev (D.y r) (cur r + factor * Xd r) := by
    simp only [he]
    exact carries_sum hw fun r => D.fam.dev (D.y r) (cur r + factor * Xd r)
  show 1 / 2 * (∑ i, w i * D.fam.dev (D.y (f i)) (cur' i + factor * Xd' i)) + _ + _ = _
  rw [hdev]
  rfl

theorem quadratic_pull {f : Fin m → Fin n} {w : Fin m → ℝ} (D : IRLSData n p ic) (hl : WeightLinear D.fam) (hw : Carries f w D.sw)
    {eta' mu' : Fin m → ℝ} {eta mu : Fin n → ℝ} (he : ∀ i, eta' i = eta (f i)) (hm : ∀ i, mu' i = mu (f i)) (cP2 : Fin (p + ic.toNat) → ℝ) :
    (updateQuadratic (pullData f w D) eta' mu' cP2).1 = (updateQuadratic D eta mu cP2).1 ∧
    Carries f (updateQuadratic (pullData f w D) eta' mu' cP2).2 (updateQuadratic D eta mu cP2).2 := by
  constructor
  · refine scoreOf_pull D ?_ cP2
    have h1 : (fun i => (pullData f w D).fam.grad ((pullData f w D).y i) ((pullData f w D).sw i) (eta' i) (mu' i))
        = fun i => w i * (fun r => D.fam.grad (D.y r) 1 (eta r) (mu r)) (f i) := by
      funext i
      rw [he, hm]
      exact hl.grad _ _ _ _
    rw [h1, show (fun r => D.fam.grad (D.y r) (D.sw r) (eta r) (mu r)) = fun r => D.sw r * (fun r => D.fam.grad (D.y r) 1 (eta r) (mu r)) r from
      funext fun r => hl.grad _ _ _ _]
    exact carries_mul hw fun r => D.fam.grad (D.y r) 1 (eta r) (mu r)
  · have h1 : (updateQuadratic (pullData f w D) eta' mu' cP2).2 = fun i => w i * (fun r => D.fam.hess (D.y r) 1 (eta r) (mu r)) (f i) := by
      funext i
      show D.fam.hess (D.y (f i)) (w i) (eta' i) (mu' i) = _
      rw [he, hm]
      exact hl.hess _ _ _ _
    rw [h1, show (updateQuadratic D eta mu cP2).2 = fun r => D.sw r * (fun r => D.fam.hess (D.y r) 1 (eta r) (mu r)) r from
      funext fun r => hl.hess _ _ _ _]
    exact carries_mul hw fun r => D.fam.hess (D.y r) 1 (eta r) (mu r)

/-- The rows that are not sampled can only matter by overflowing. -/
def Spec.NoOverflow (f : Fin m → Fin n) (inv : ℝ → ℝ) (large : ℝ) : Prop := Function.Surjective f ∨ ∀ e, inv e < large

theorem accept_pull {f : Fin m → Fin n} {w : Fin m → ℝ} (D : IRLSData n p ic) (hl : WeightLinear D.fam) (hw : Carries f w D.sw)
    (hov : NoOverflow f D.fam.inv D.large)
    {st' : IRLSState m p ic} {st : IRLSState n p ic} (hobj : st'.obj = st.obj) (hsc : st'.score = st.score) (bound factor obj : ℝ)
    {eta' mu' : Fin m → ℝ} {eta mu : Fin n → ℝ} (he : ∀ i, eta' i = eta (f i)) (hm : ∀ i, mu' i = mu (f i)) (hinv : ∀ r, mu r = D.fam.inv (eta r))
    (cP2 : Fin (p + ic.toNat) → ℝ) :
    lsAccept (pullData f w D) st' bound factor eta' mu' obj cP2 ↔ lsAccept D st bound factor eta mu obj cP2 := by
  have hall : (∀ i, mu' i < D.large) ↔ ∀ r, mu r < D.large := by
    constructor
    · intro h r
      rcases hov with hs | hb
      · obtain ⟨i, rfl⟩ := hs r
        rw [← hm]; exact h i
      · rw [hinv]; exact hb _
    · intro h i
      rw [hm]; exact h _
  have hgv : scoreOf (pullData f w D) (fun i => D.fam.gradVar (D.y (f i)) (w i) (eta' i) (mu' i)) cP2
      = scoreOf D (fun r => D.fam.gradVar (D.y r) (D.sw r) (eta r) (mu r)) cP2 := by
    refine scoreOf_pull D ?_ cP2
    have h1 : (fun i => D.fam.gradVar (D.y (f i)) (w i) (eta' i) (mu' i)) = fun i => w i * (fun r => D.fam.gradVar (D.y r) 1 (eta r) (mu r)) (f i) := by
      funext i
      rw [he, hm]
      exact hl.gradVar _ _ _ _
    rw [h1, show (fun r => D.fam.gradVar (D.y r) (D.sw r) (eta r) (mu r)) = fun r => D.sw r * (fun r => D.fam.gradVar (D.y r) 1 (eta r) (mu r)) r from
      funext fun r => hl.gradVar _ _ _ _]
    exact carries_mul hw fun r => D.fam.gradVar (D.y r) 1 (eta r) (mu r)
  unfold lsAccept
  rw [hobj, hsc]
  show ((∀ i, mu' i < D.large) ∧ _) ∨ (_ ∧ ∑ k, |scoreOf (pullData f w D) (fun i => D.fam.gradVar (D.y (f i)) (w i) (eta' i) (mu' i)) cP2 k| < _) ↔ _
  rw [hall, hgv]
  rfl

structure SimL (f : Fin m → Fin n) (inv : ℝ → ℝ) (a : LSResult m p ic) (b : LSResult n p ic) : Prop where
  coef : a.coef = b.coef
  step : a.step = b.step
  eta : ∀ i, a.eta i = b.eta (f i)
  mu : ∀ i, a.mu i = b.mu (f i)
  muInv : ∀ r, b.mu r = inv (b.eta r)
  obj : a.obj = b.obj
  cP2 : a.cP2 = b.cP2
  k : a.k = b.k
  warned : a.warned = b.warned

theorem lineLoop_pull {f : Fin m → Fin n} {w : Fin m → ℝ} (D : IRLSData n p ic) (hl : WeightLinear D.fam) (hw : Carries f w D.sw)
    (hov : NoOverflow f D.fam.inv D.large)
    {st' : IRLSState m p ic} {st : IRLSState n p ic} (hcoef : st'.coef = st.coef) (heta : ∀ i, st'.eta i = st.eta (f i)) (hobj : st'.obj = st.obj)
    (hsc : st'.score = st.score) (d : Fin (p + ic.toNat) → ℝ) (bound : ℝ) {Xd' : Fin m → ℝ} {Xd : Fin n → ℝ} (hx : ∀ i, Xd' i = Xd (f i)) :
    ∀ (rem k : ℕ) (factor : ℝ), SimL f D.fam.inv (lineLoop (pullData f w D) st' d bound Xd' rem k factor) (lineLoop D st d bound Xd rem k factor) := by
  intro rem
  induction rem with
  | zero =>
    intro k factor
    obtain ⟨e1, e2, e3, e4⟩ := etaMu_pull D hw heta hx factor (fun j => st.coef j + factor * d j)
    unfold lineLoop
    simp only
    rw [hcoef, e3, e4]
    have hacc := accept_pull D hl hw hov hobj hsc bound factor (etaMuObjective D st.eta Xd factor fun j => st.coef j + factor * d j).2.2.1 e1 e2
      (fun _ => rfl) (etaMuObjective D st.eta Xd factor fun j => st.coef j + factor * d j).2.2.2
    split
    · rename_i h'
      rw [if_pos (hacc.1 h')]
      exact ⟨rfl, rfl, e1, e2, fun _ => rfl, rfl, rfl, rfl, rfl⟩
    · rename_i h'
      rw [if_neg fun h => h' (hacc.2 h)]
      exact ⟨rfl, rfl, e1, e2, fun _ => rfl, rfl, rfl, rfl, rfl⟩
  | succ rem ih =>
    intro k factor
    obtain ⟨e1, e2, e3, e4⟩ := etaMu_pull D hw heta hx factor (fun j => st.coef j + factor * d j)
    unfold lineLoop
    simp only
    rw [hcoef, e3, e4]
    have hacc := accept_pull D hl hw hov hobj hsc bound factor (etaMuObjective D st.eta Xd factor fun j => st.coef j + factor * d j).2.2.1 e1 e2
      (fun _ => rfl) (etaMuObjective D st.eta Xd factor fun j => st.coef j + factor * d j).2.2.2
    split
    · rename_i h'
      rw [if_pos (hacc.1 h')]
      exact ⟨rfl, rfl, e1, e2, fun _ => rfl, rfl, rfl, rfl, rfl⟩
    · rename_i h'
      rw [if_neg fun h => h' (hacc.2 h)]
      exact ih (k + 1) (factor * (1 / 2))

theorem active_pull {f : Fin m → Fin n} {w : Fin m → ℝ} (D : IRLSData n p ic) {st' : IRLSState m p ic} {st : IRLSState n p ic}
    (h : Sim f D.fam.inv st' st) : identifyActiveSet (pullData f w D) st' = identifyActiveSet D st := by
  unfold identifyActiveSet
  rw [h.coef, h.maxSub, h.score]
  rfl

theorem step_pull {f : Fin m → Fin n} {w : Fin m → ℝ} (D : IRLSData n p ic) (hl : WeightLinear D.fam) (hw : Carries f w D.sw)
    (hov : NoOverflow f D.fam.inv D.large) (hC : D.hessApprox = 0 ∨ Function.Bijective f) (inner : (m : ℕ) → Inner m p ic) (hin : RowBlind inner)
    {st' : IRLSState m p ic} {st : IRLSState n p ic} (h : Sim f D.fam.inv st' st) :
    Sim f D.fam.inv (irlsStep (inner m) (pullData f w D) st') (irlsStep (inner n) D st) := by
  have hA := active_pull (w := w) D h
  have hH : SimH f (updateHessian ic (pullData f w D).X (pullData f w D).P2 (pullData f w D).hessApprox st'.hs (identifyActiveSet (pullData f w D) st'))
      (updateHessian ic D.X D.P2 D.hessApprox st.hs (identifyActiveSet D st)) := by
    rw [hA]; exact updateHessian_pull D.X D.P2 D.hessApprox hC h.hs _
  have hdir : inner m (pullData f w D) { st' with hs := updateHessian ic (pullData f w D).X (pullData f w D).P2 (pullData f w D).hessApprox st'.hs (identifyActiveSet (pullData f w D) st') }
      = inner n D { st with hs := updateHessian ic D.X D.P2 D.hessApprox st.hs (identifyActiveSet D st) } :=
    hin m n _ _ _ _ rfl rfl rfl rfl rfl rfl h.coef h.score hH.H hH.active h.innerTol h.nIter
  unfold irlsStep
  simp only
  rw [hdir]
  generalize inner n D _ = dn
  have hb : ∀ hs' hs, armijoBound (pullData f w D) { st' with hs := hs' } dn.1 = armijoBound D { st with hs := hs } dn.1 := by
    intro hs' hs
    unfold armijoBound
    simp only [h.score, h.coef]
    rfl
  have hL : ∀ hs' hs, SimL f D.fam.inv (lineSearch (pullData f w D) { st' with hs := hs' } dn.1) (lineSearch D { st with hs := hs } dn.1) := by
    intro hs' hs
    unfold lineSearch
    rw [hb hs' hs]
    exact lineLoop_pull D hl hw hov (st' := { st' with hs := hs' }) (st := { st with hs := hs }) h.coef h.eta h.obj h.score dn.1 _
      (fun i => linPred_pull f D.X dn.1 none i) 19 0 1
  have hL1 := hL (updateHessian ic (pullData f w D).X (pullData f w D).P2 (pullData f w D).hessApprox st'.hs (identifyActiveSet (pullData f w D) st'))
    (updateHessian ic D.X D.P2 D.hessApprox st.hs (identifyActiveSet D st))
  revert hL1
  generalize lineSearch (pullData f w D) _ dn.1 = L'
  generalize lineSearch D _ dn.1 = L
  intro hL1
  have hQ := quadratic_pull D hl hw hL1.eta hL1.mu L.cP2
  rw [hL1.cP2, hL1.coef, hL1.step]
  have hcc : ∀ sc, checkConvergence (pullData f w D) L.coef L.step sc = checkConvergence D L.coef L.step sc := fun sc => rfl
  rw [hQ.1, hcc]
  refine ⟨rfl, rfl, hL1.eta, hL1.mu, hL1.muInv, hL1.obj, rfl, ⟨hQ.2, hH.rows, hH.H, hH.init, hH.active⟩, rfl, rfl, rfl, rfl, ?_, ?_, ?_⟩
  · exact congrArg (· + 1) h.nIter
  · exact congrArg (· + dn.2) h.nCycles
  · simp only [h.nIter, hL1.obj, hL1.warned, h.diagnostics]

theorem init_pull {f : Fin m → Fin n} {w : Fin m → ℝ} (D : IRLSData n p ic) (hl : WeightLinear D.fam) (hw : Carries f w D.sw)
    (coef : Fin (p + ic.toNat) → ℝ) : Sim f D.fam.inv (irlsInit (pullData f w D) coef) (irlsInit D coef) := by
  obtain ⟨e1, e2, e3, e4⟩ := etaMu_pull (f := f) (w := w) D hw (cur' := fun _ => 0) (cur := fun _ => 0) (fun _ => rfl)
    (fun i => linPred_pull f D.X coef D.offset i) 1 coef
  have hQ := quadratic_pull D hl hw e1 e2 (etaMuObjective D (fun _ => 0) (safeLinPred ic D.X coef D.offset) 1 coef).2.2.2
  unfold irlsInit
  simp only
  have hoff : (pullData f w D).offset = D.offset.map fun o i => o (f i) := rfl
  have hX : (pullData f w D).X = fun i => D.X (f i) := rfl
  rw [hoff, hX, e3, e4, hQ.1]
  have hcc : ∀ st sc, checkConvergence (pullData f w D) coef st sc = checkConvergence D coef st sc := fun st sc => rfl
  have hst : (pullData f w D).stepTol = D.stepTol := rfl
  rw [hst, hcc]
  refine ⟨rfl, rfl, e1, e2, fun _ => rfl, rfl, rfl, ⟨hQ.2, ?_, rfl, rfl, rfl⟩, rfl, rfl, rfl, rfl, rfl, rfl, rfl⟩
  intro r
  exact Finset.sum_const_zero

theorem loop_pull {f : Fin m → Fin n} {w : Fin m → ℝ} (D : IRLSData n p ic) (hl : WeightLinear D.fam) (hw : Carries f w D.sw)
    (hov : NoOverflow f D.fam.inv D.large) (hC : D.hessApprox = 0 ∨ Function.Bijective f) (inner : (m : ℕ) → Inner m p ic) (hin : RowBlind inner) :
    ∀ (fuel : ℕ) (st' : IRLSState m p ic) (st : IRLSState n p ic), Sim f D.fam.inv st' st →
      Sim f D.fam.inv (irlsLoop (inner m) (pullData f w D) fuel st') (irlsLoop (inner n) D fuel st) := by
  intro fuel
  induction fuel with
  | zero => intro st' st h; exact h
  | succ k ih =>
    intro st' st h
    unfold irlsLoop
    rw [h.nIter, h.converged]
    have : (pullData f w D).maxIter = D.maxIter := rfl
    rw [this]
    split
    · exact ih _ _ (step_pull D hl hw hov hC inner hin h)
    · exact h

/-- **C81, the solver.** One solve sees nothing of the rows but the weighted sample. -/
theorem c81_solver {f : Fin m → Fin n} {w : Fin m → ℝ} (D : IRLSData n p ic) (hl : WeightLinear D.fam) (hw : Carries f w D.sw)
    (hov : NoOverflow f D.fam.inv D.large) (hC : D.hessApprox = 0 ∨ Function.Bijective f)
    (next : (ℕ → BitVec 32) → ℕ → (ℕ → BitVec 32)) (inner : (ℕ → BitVec 32) → (m : ℕ) → Inner m p ic) (hin : ∀ s, RowBlind (inner s))
    (A : Option (ℕ → ℕ → ℝ)) (s : SolverLog) (start : Fin (p + ic.toNat) → ℝ) :
    irlsSolver next inner m (pullData f w D) A s start = irlsSolver next inner n D A s start := by
  have h := loop_pull D hl hw hov hC (inner s.seeds) (hin _) D.maxIter _ _ (init_pull D hl hw start)
  unfold irlsSolver irlsRun
  have e : (pullData f w D).maxIter = D.maxIter := rfl
  simp only [e, h.nIter, h.converged, h.diagnostics, h.coef]

/-- **C81, the coordinate-descent and the least-squares solver** only look at the quadratic model. -/
theorem c81_rowBlind_cd (seeds : ℕ → BitVec 32) : RowBlind (p := p) (ic := ic) fun _ => cdInner seeds := by
  intro m n D' D st' st h1 h2 h3 h4 h5 h6 h7 h8 h9 h10 h11 h12
  obtain ⟨coef', step', eta', mu', obj', score', ⟨rows', old', H', init', act'⟩, norm', ms', it', cv', ni', nc', dg'⟩ := st'
  obtain ⟨coef, step, eta, mu, obj, score, ⟨rows, old, H, init, act⟩, norm, ms, it, cv, ni, nc, dg⟩ := st
  simp only at h7 h8 h9 h10 h11 h12
  subst h7 h8 h9 h10 h11 h12
  unfold cdInner cdArgs
  simp only [h1, h2, h3, h4, h5, h6]

theorem c81_rowBlind_ls (solve : (Fin (p + ic.toNat) → Fin (p + ic.toNat) → ℝ) → (Fin (p + ic.toNat) → ℝ) → (Fin (p + ic.toNat) → ℝ)) :
    RowBlind (p := p) (ic := ic) fun _ => lsInner solve := by
  intro m n D' D st' st h1 h2 h3 h4 h5 h6 h7 h8 h9 h10 h11 h12
  unfold lsInner
  simp only [h8, h9]

theorem stats_pull (stats : Stats) (hst : TrueStats stats) {f : Fin m → Fin n} {w : Fin m → ℝ} (R : Rows n) (hw : Carries f w R.sw) :
    stats m (resample f w R).X (resample f w R).sw = stats n R.X R.sw := by
  have hm : ∀ j, (stats m (resample f w R).X (resample f w R).sw).1 j = (stats n R.X R.sw).1 j := fun j => by
    rw [(hst _ _ _ j).1, (hst _ _ _ j).1]
    exact carries_sum hw fun r => R.X r j
  have hmean : ∀ j, ∑ i, w i * R.X (f i) j = ∑ r, R.sw r * R.X r j := fun j => carries_sum hw fun r => R.X r j
  refine Prod.ext (funext hm) (funext fun j => ?_)
  rw [(hst _ _ _ j).2, (hst _ _ _ j).2]
  congr 1
  show ∑ i, w i * (R.X (f i) j - ∑ k, w k * R.X (f k) j) ^ 2 = _
  rw [hmean]
  exact carries_sum hw fun r => (R.X r j - ∑ k, R.sw k * R.X k j) ^ 2

theorem average_pull {f : Fin m → Fin n} {w : Fin m → ℝ} {sw : Fin n → ℝ} (hw : Carries f w sw) (v : Fin n → ℝ) :
    average (fun i => v (f i)) w = average v sw := by
  unfold average
  rw [carries_total hw]
  congr 1
  calc _ = ∑ i, w i * v (f i) := Finset.sum_congr rfl fun i _ => mul_comm _ _
    _ = ∑ r, sw r * v r := carries_sum hw v
    _ = _ := Finset.sum_congr rfl fun i _ => mul_comm _ _

/-- The responses that are seen tell whether all are equal. -/
def Spec.ResponsesSeen (f : Fin m → Fin n) (l : Link) (y : Fin n → ℝ) : Prop :=
  Function.Surjective f ∨ l = .identity ∨ ∃ i j, y (f i) ≠ y (f j)

theorem guess_pull {f : Fin m → Fin n} {w : Fin m → ℝ} {sw : Fin n → ℝ} (hw : Carries f w sw) (F : Family) (l : Link) (y : Fin n → ℝ)
    (hy : ResponsesSeen f l y) (e : Option (Fin n → ℝ)) :
    guessIntercept F l (fun i => y (f i)) w ((e.map fun o i => o (f i)).elim .none .array) = guessIntercept F l y sw (e.elim .none .array) := by
  have hcond : (l ≠ .identity ∧ ∃ c, ∀ i, y (f i) = c) ↔ (l ≠ .identity ∧ ∃ c, ∀ i, y i = c) := by
    refine and_congr_right fun hl => ?_
    rcases hy with hs | h | ⟨i, j, hij⟩
    · constructor
      · rintro ⟨c, hc⟩
        exact ⟨c, fun r => by obtain ⟨i, rfl⟩ := hs r; exact hc i⟩
      · rintro ⟨c, hc⟩; exact ⟨c, fun i => hc _⟩
    · exact absurd h hl
    · constructor
      · rintro ⟨c, hc⟩; exact absurd ((hc i).trans (hc j).symm) hij
      · rintro ⟨c, hc⟩; exact absurd ((hc (f i)).trans (hc (f j)).symm) hij
  have hyw : ∑ i, y (f i) * w i = ∑ r, y r * sw r := by
    calc _ = ∑ i, w i * y (f i) := Finset.sum_congr rfl fun i _ => mul_comm _ _
      _ = ∑ r, sw r * y r := carries_sum hw y
      _ = _ := Finset.sum_congr rfl fun i _ => mul_comm _ _
  unfold guessIntercept
  split
  · rename_i h0
    rw [if_pos (hcond.1 h0)]
  · rename_i h0
    rw [if_neg fun h => h0 (hcond.2 h), average_pull hw y]
    cases e with
    | none =>
      cases l <;> simp only [Option.map_none, Option.elim_none, hyw]
    | some o =>
      have h1 : ∀ q : ℝ, ∑ i, y (f i) * Real.exp (o (f i)) ^ q * w i = ∑ r, y r * Real.exp (o r) ^ q * sw r := fun q => by
        calc _ = ∑ i, w i * (y (f i) * Real.exp (o (f i)) ^ q) := Finset.sum_congr rfl fun i _ => mul_comm _ _
          _ = ∑ r, sw r * (y r * Real.exp (o r) ^ q) := carries_sum hw fun r => y r * Real.exp (o r) ^ q
          _ = _ := Finset.sum_congr rfl fun i _ => mul_comm _ _
      have h2 : ∀ q : ℝ, ∑ i, Real.exp (o (f i)) ^ q * w i = ∑ r, Real.exp (o r) ^ q * sw r := fun q => by
        calc _ = ∑ i, w i * (Real.exp (o (f i)) ^ q) := Finset.sum_congr rfl fun i _ => mul_comm _ _
          _ = ∑ r, sw r * (Real.exp (o r) ^ q) := carries_sum hw fun r => Real.exp (o r) ^ q
          _ = _ := Finset.sum_congr rfl fun i _ => mul_comm _ _
      cases l <;> simp only [Option.map_some, Option.elim_some, hyw, average_pull hw o, h1, h2]

/-- Which specifications of the alphas do not depend on the number of rows: everything but a path whose smallest alpha is left to glum
(`1e-6` or `1e-2` times the largest, depending on whether there are at least as many rows as features, `_glm.py` 461-464). -/
def Spec.AlphasSeen (p m n : ℕ) : AlphaSpec → Prop
  | .search _ none none => (p ≤ m ↔ p ≤ n)
  | _ => True

theorem alphas_pull {f : Fin m → Fin n} {w : Fin m → ℝ} (S : SmoothData n p ic) (hw : Carries f w S.sw) (hy : ResponsesSeen f S.link S.y)
    (P1 : ℕ → ℝ) (k : ℕ) (lo ratio : Option ℝ) (ha : AlphasSeen p m n (.search k lo ratio)) :
    alphaPath (p := p) (ic := ic)
      { X := fun i => S.X (f i), y := fun i => S.y (f i), sw := w, P2 := S.P2, family := S.family, link := S.link, offset := S.offset.map fun o i => o (f i), e50 := S.e50 } P1 k lo ratio = alphaPath S P1 k lo ratio := by
  set S' : SmoothData m p ic := { X := fun i => S.X (f i), y := fun i => S.y (f i), sw := w, P2 := S.P2, family := S.family, link := S.link, offset := S.offset.map fun o i => o (f i), e50 := S.e50 } with hS'
  have hpc : pathCoef S' = pathCoef S := by
    unfold pathCoef
    have := guess_pull hw S.family S.link S.y hy none
    split
    · exact congrArg _ this
    · rfl
  have hmd : ∀ coef, (muDevianceDerivative S' coef).2 = (muDevianceDerivative S coef).2 := by
    intro coef
    have heta : ∀ i, safeLinPred ic S'.X coef S'.offset i = safeLinPred ic S.X coef S.offset (f i) := fun i => linPred_pull f S.X coef S.offset i
    set T : Fin n → ℝ := fun r => S.link.inverseDerivative (safeLinPred ic S.X coef S.offset r) *
      (S.family.unitDevianceDerivative (S.y r) (S.link.inverse S.e50 (safeLinPred ic S.X coef S.offset r))) with hT
    have hc : Carries f (fun i => S'.link.inverseDerivative (safeLinPred ic S'.X coef S'.offset i) *
        (S'.sw i * S'.family.unitDevianceDerivative (S'.y i) (S'.link.inverse S'.e50 (safeLinPred ic S'.X coef S'.offset i))))
        (fun r => S.link.inverseDerivative (safeLinPred ic S.X coef S.offset r) *
        (S.sw r * S.family.unitDevianceDerivative (S.y r) (S.link.inverse S.e50 (safeLinPred ic S.X coef S.offset r)))) := by
      have h1 := carries_mul hw T
      have e1 : (fun i => S'.link.inverseDerivative (safeLinPred ic S'.X coef S'.offset i) *
        (S'.sw i * S'.family.unitDevianceDerivative (S'.y i) (S'.link.inverse S'.e50 (safeLinPred ic S'.X coef S'.offset i)))) = fun i => w i * T (f i) := by
        funext i
        rw [heta]
        show S.link.inverseDerivative _ * (w i * S.family.unitDevianceDerivative (S.y (f i)) (S.link.inverse S.e50 _)) = _
        rw [hT]; ring
      have e2 : (fun r => S.link.inverseDerivative (safeLinPred ic S.X coef S.offset r) *
        (S.sw r * S.family.unitDevianceDerivative (S.y r) (S.link.inverse S.e50 (safeLinPred ic S.X coef S.offset r)))) = fun r => S.sw r * T r := by
        funext r
        rw [hT]; ring
      rw [e1, e2]; exact h1
    funext j
    unfold muDevianceDerivative
    simp only
    split
    · exact carries_total hc
    · exact carries_sum hc fun r => S.X r (j.val - ic.toNat)
  have hfg : ∀ coef, featureGradient S' coef = featureGradient S coef := fun coef => by
    funext j; unfold featureGradient; rw [hmd]
  have ham : ∀ coef, alphaMax S' P1 coef = alphaMax S P1 coef := fun coef => by
    unfold alphaMax rawAlphaMax; rw [hfg]
  have hgrid : ∀ x, makeGrid m p k lo ratio x = makeGrid n p k lo ratio x := by
    intro x
    have : gridMin m p lo ratio x = gridMin n p lo ratio x := by
      unfold gridMin
      cases lo with
      | some l => rfl
      | none =>
        cases ratio with
        | some r => rfl
        | none =>
          have hh : (p ≤ m ↔ p ≤ n) := ha
          simp only [ge_iff_le, hh]
    unfold makeGrid
    rw [this]
  unfold alphaPath
  simp only [hpc, ham, hgrid]

/-- **C81.** `fit` with an IRLS solver on resampled rows: `R'` consists of copies of rows of `R` such that the copies of each row carry together
its weight.  If every row has a copy (rows reordered, repeated, merged with their weights added), and the Hessian is exact (the default
`hessian_approx=0`) or the rows are only reordered, the fit does exactly the same: same iterations, warnings, alphas, coefficients.  Rows of weight
zero may even be dropped, if no mean can overflow and the remaining responses are not all equal. -/
theorem c81_fit (next : (ℕ → BitVec 32) → ℕ → (ℕ → BitVec 32)) (inner : (ℕ → BitVec 32) → (m : ℕ) → Inner m p ic) (hin : ∀ s, RowBlind (inner s))
    (C : FitCfg p ic) (stats : Stats) (hst : TrueStats stats) (R : Rows n) (f : Fin m → Fin n) (w : Fin m → ℝ) (hw : Carries f w R.sw)
    (hov : NoOverflow f (rowFam C.e50 C.family C.link).inv C.large) (hy : ResponsesSeen f C.link R.y)
    (hC : C.hessApprox = 0 ∨ Function.Bijective f) (l1 : ℝ) (a : AlphaSpec) (ha : AlphasSeen p m n a) (s : SolverLog) :
    glmFit C stats (irlsSolver next inner) (resample f w R) l1 a s = glmFit C stats (irlsSolver next inner) R l1 a s := by
  have hg : startGuess C (resample f w R) = startGuess C R := by
    unfold startGuess
    cases ic with
    | false => rfl
    | true =>
      cases C.start with
      | cold => exact guess_pull hw C.family C.link R.y hy R.off
      | previous v => rfl
      | given v => rfl
  have hprep : prepare C stats (resample f w R) l1
      = (prepare C stats R l1).map fun Q => { means := Q.means, stds := Q.stds, D := pullData f w Q.D, A := Q.A, start := Q.start } := by
    unfold prepare
    simp only [stats_pull stats hst R hw, hg]
    cases setupP1 p 1 l1 C.P1a with
    | none => rfl
    | some P1 =>
      cases setupP2 p C.xsp 1 l1 C.P2a with
      | none => rfl
      | some P2 =>
        cases startGuess C R with
        | none => rfl
        | some g => rfl
  unfold glmFit
  by_cases hbad : C.boundsBad
  · simp only [if_pos hbad]
  simp only [if_neg hbad]
  cases setupP2 p C.xsp 1 l1 C.P2a with
  | none => rfl
  | some P2 =>
    simp only [Option.bind_eq_bind, Option.bind_some]
    split
    · rfl
    rw [hprep]
    cases hQ : prepare C stats R l1 with
    | none => rfl
    | some Q =>
      obtain ⟨P1, P2', -, -, -, -, hD, -⟩ := prepare_spec C stats R l1 Q hQ
      simp only [Option.map_some, Option.bind_some]
      have hev : a.eval C { means := Q.means, stds := Q.stds, D := pullData f w Q.D, A := Q.A, start := Q.start } = a.eval C Q := by
        cases a with
        | single x => rfl
        | given l => rfl
        | search k lo ratio =>
          have := alphas_pull (p := p) (ic := ic) (f := f) (w := w)
            { X := Q.D.X, y := Q.D.y, sw := Q.D.sw, P2 := Q.D.P2, family := C.family, link := C.link, offset := Q.D.offset, e50 := C.e50 }
            (by rw [hD]; exact hw) (by rw [hD]; exact hy) Q.D.P1 k lo ratio ha
          exact this
      rw [hev]
      cases a.eval C Q with
      | none => rfl
      | some al =>
        simp only [Option.bind_some]
        have hsolve : Prepared.solveFn { means := Q.means, stds := Q.stds, D := pullData f w Q.D, A := Q.A, start := Q.start } (irlsSolver next inner)
            = Q.solveFn (irlsSolver next inner) := by
          funext s' P1' P2'' coef
          have := c81_solver (f := f) (w := w) (Q.D.withPen P1' P2'') (by
              rw [hD]
              show WeightLinear (rowFam C.e50 C.family C.link)
              unfold rowFam
              cases C.family.fast C.link with
              | none => exact (builtin_weightLinear C.e50 C.family C.link).1
              | some k => exact (builtin_weightLinear C.e50 C.family C.link).2 k)
            (by rw [hD]; exact hw) (by rw [hD]; exact hov) (by rw [hD]; exact hC) next inner hin Q.A s' coef
          exact this
        have hpath : Prepared.path { means := Q.means, stds := Q.stds, D := pullData f w Q.D, A := Q.A, start := Q.start } (irlsSolver next inner) al s
            = Q.path (irlsSolver next inner) al s := by
          unfold Prepared.path
          rw [hsolve]
          rfl
        rw [hpath]

theorem carries_perm (e : Equiv.Perm (Fin n)) (w : Fin n → ℝ) : Carries e (fun i => w (e i)) w := by
  intro r
  have : (Finset.univ.filter fun j => e j = r) = {e.symm r} := by
    ext j
    simp only [Finset.mem_filter, Finset.mem_univ, true_and, Finset.mem_singleton]
    constructor
    · rintro rfl; simp
    · rintro rfl; simp
  rw [this, Finset.sum_singleton, e.apply_symm_apply]

/-- **C81, row order.** Reordering the rows (with their responses, weights and offsets) changes nothing: every solver option, family, penalty,
start and alpha specification. -/
theorem c81_row_order (next : (ℕ → BitVec 32) → ℕ → (ℕ → BitVec 32)) (inner : (ℕ → BitVec 32) → (m : ℕ) → Inner m p ic)
    (hin : ∀ s, RowBlind (inner s)) (C : FitCfg p ic) (stats : Stats) (hst : TrueStats stats) (R : Rows n) (e : Equiv.Perm (Fin n)) (l1 : ℝ)
    (a : AlphaSpec) (s : SolverLog) :
    glmFit C stats (irlsSolver next inner) { X := fun i => R.X (e i), y := fun i => R.y (e i), sw := fun i => R.sw (e i), off := R.off.map fun o i => o (e i) } l1 a s = glmFit C stats (irlsSolver next inner) R l1 a s := by
  refine c81_fit next inner hin C stats hst R e (fun i => R.sw (e i)) (carries_perm e R.sw) (Or.inl e.surjective) (Or.inl e.surjective)
    (Or.inr e.bijective) l1 a ?_ s
  unfold AlphasSeen
  split
  · exact Iff.rfl
  · trivial

/-- **C81, weights are frequencies.** Fitting with integer weights `k r ≥ 1` is the same as fitting on the rows repeated `k r` times, each with
weight one (after glum's normalisation of the weights in both fits): exact Hessian, alphas given. -/
theorem c81_frequencies (next : (ℕ → BitVec 32) → ℕ → (ℕ → BitVec 32)) (inner : (ℕ → BitVec 32) → (m : ℕ) → Inner m p ic)
    (hin : ∀ s, RowBlind (inner s)) (C : FitCfg p ic) (hC : C.hessApprox = 0) (stats : Stats) (hst : TrueStats stats)
    (X : Fin n → ℕ → ℝ) (y : Fin n → ℝ) (off : Option (Fin n → ℝ)) (k : Fin n → ℕ) (hk : ∀ r, 0 < k r) (f : Fin m → Fin n)
    (hf : ∀ r, (Finset.univ.filter fun i => f i = r).card = k r) (l1 : ℝ) (a : AlphaSpec) (ha : AlphasSeen p m n a) (s : SolverLog) :
    glmFit C stats (irlsSolver next inner) { X := fun i => X (f i), y := fun i => y (f i), sw := (normaliseWeights fun _ : Fin m => (1 : ℝ)).1, off := off.map fun o i => o (f i) } l1 a s
      = glmFit C stats (irlsSolver next inner) { X := X, y := y, sw := (normaliseWeights fun r => (k r : ℝ)).1, off := off } l1 a s := by
  have hs : Function.Surjective f := by
    intro r
    have : 0 < (Finset.univ.filter fun i => f i = r).card := by rw [hf]; exact hk r
    obtain ⟨i, hi⟩ := Finset.card_pos.1 this
    exact ⟨i, (Finset.mem_filter.1 hi).2⟩
  refine c81_fit next inner hin C stats hst { X := X, y := y, sw := (normaliseWeights fun r => (k r : ℝ)).1, off := off } f
    (normaliseWeights fun _ : Fin m => (1 : ℝ)).1 ?_ (Or.inl hs) (Or.inl hs) (Or.inl hC) l1 a ha s
  refine c47_normalised f (fun _ => 1) (fun r => (k r : ℝ)) fun r => ?_
  rw [Finset.sum_const, nsmul_eq_mul, mul_one, hf]

/-- Solver `irls-cd` on the two rows, swapped. -/
example (next : (ℕ → BitVec 32) → ℕ → (ℕ → BitVec 32)) (s : SolverLog) :
    let stats : Stats := fun m X w => (fun j => ∑ i, w i * X i j, fun j => Real.sqrt (∑ i, w i * (X i j - ∑ k, w k * X k j) ^ 2))
    glmFit (tinyCfg 5 5) stats (irlsCd next) { X := fun i => tinyRows.X (1 - i), y := fun i => tinyRows.y (1 - i), sw := fun i => tinyRows.sw (1 - i), off := tinyRows.off.map fun o i => o (1 - i) } 0 (.search 3 none none) s
      = glmFit (tinyCfg 5 5) stats (irlsCd next) tinyRows 0 (.search 3 none none) s :=
  c81_row_order next (fun seeds _ => cdInner seeds) c81_rowBlind_cd (tinyCfg 5 5) _ (fun m X w j => ⟨rfl, rfl⟩) tinyRows
    (Equiv.subLeft 1) 0 (.search 3 none none) s

/-- The first row twice or with weight two. -/
example (next : (ℕ → BitVec 32) → ℕ → (ℕ → BitVec 32)) (s : SolverLog) :
    let stats : Stats := fun m X w => (fun j => ∑ i, w i * X i j, fun j => Real.sqrt (∑ i, w i * (X i j - ∑ k, w k * X k j) ^ 2))
    glmFit (tinyCfg 5 5) stats (irlsCd next) { X := fun i => tinyRows.X (![0, 1, 0] i), y := fun i => tinyRows.y (![0, 1, 0] i), sw := (normaliseWeights fun _ : Fin 3 => (1 : ℝ)).1, off := tinyRows.off.map fun o i => o (![0, 1, 0] i) } 0 (.search 3 none none) s
      = glmFit (tinyCfg 5 5) stats (irlsCd next) { X := tinyRows.X, y := tinyRows.y, sw := (normaliseWeights fun r => ((![2, 1] r : ℕ) : ℝ)).1, off := tinyRows.off } 0 (.search 3 none none) s :=
  c81_frequencies next (fun seeds _ => cdInner seeds) c81_rowBlind_cd (tinyCfg 5 5) rfl _ (fun m X w j => ⟨rfl, rfl⟩) tinyRows.X tinyRows.y
    tinyRows.off ![2, 1] (by decide) ![0, 1, 0] (by decide) 0 (.search 3 none none) (by simp [AlphasSeen]) s

end Glum
