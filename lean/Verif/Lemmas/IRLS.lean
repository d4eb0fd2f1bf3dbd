import Mathlib.Data.List.Chain
import Mathlib.Tactic.Positivity
import Verif.Spec.Objective
import Verif.Props.CD
import Verif.Props.Hessian
set_option linter.unusedSectionVars false
set_option linter.unusedVariables false

namespace Glum
open Spec

variable {n p : ℕ} {ic : Bool}

theorem sum_split {M : Type*} [AddCommMonoid M] (ic : Bool) (g : Fin (p + ic.toNat) → M) :
    ∑ k, g k = (if h : 0 < ic.toNat then g ⟨0, by omega⟩ else 0)
      + ∑ j : Fin p, g ⟨j.val + ic.toNat, by omega⟩ := by
  cases ic with
  | false =>
    simp only [Bool.toNat_false, Nat.lt_irrefl, dite_false, zero_add]
    rfl
  | true =>
    rw [dif_pos (by simp)]
    exact Fin.sum_univ_succ (n := p) g

theorem feat_eq (coef : Fin (p + ic.toNat) → ℝ) (j : Fin p) :
    feat ic coef j.val = coef ⟨j.val + ic.toNat, by omega⟩ := by
  unfold feat
  rw [dif_pos (by omega)]

theorem l1Weight_shift {K : Type*} [Field K] (P1 : ℕ → K) (j : Fin p) :
    l1Weight (p := p + ic.toNat) ic P1 ⟨j.val + ic.toNat, by omega⟩ = P1 j.val := by
  cases ic <;> rfl

theorem l1Norm_eq (P1 : ℕ → ℝ) (hP : ∀ k, 0 ≤ P1 k) (coef : Fin (p + ic.toNat) → ℝ) :
    l1Norm P1 coef = l1 ic P1 coef := by
  unfold l1Norm l1
  rw [sum_split, Finset.sum_range]
  have h0 : (if h : 0 < ic.toNat then l1Weight ic P1 (⟨0, by omega⟩ : Fin (p + ic.toNat)) * |coef ⟨0, by omega⟩| else 0) = 0 := by
    cases ic <;> simp [l1Weight]
  rw [h0, zero_add]
  apply Finset.sum_congr rfl
  intro j _
  rw [feat_eq, abs_mul, abs_of_nonneg (hP _), l1Weight_shift]

theorem p2Full_shift (P2 : Pen2 ℝ) (j k : Fin p) :
    p2Full (p := p) ic P2 ⟨j.val + ic.toNat, by omega⟩ ⟨k.val + ic.toNat, by omega⟩ = p2Matrix P2 j.val k.val := by
  cases ic <;> rfl

theorem p2Full_left_zero (P2 : Pen2 ℝ) (i k : Fin (p + ic.toNat)) (h : i.val < ic.toNat) :
    p2Full ic P2 i k = 0 := by
  cases ic with
  | false => simp at h
  | true =>
    have : i.val = 0 := by simpa using h
    unfold p2Full; rw [this]

theorem p2Full_right_zero (P2 : Pen2 ℝ) (i k : Fin (p + ic.toNat)) (h : k.val < ic.toNat) :
    p2Full ic P2 i k = 0 := by
  cases ic with
  | false => simp at h
  | true =>
    have : k.val = 0 := by simpa using h
    unfold p2Full; rw [this]; cases i.val <;> rfl

theorem makeCoefP2_eq (P2 : Pen2 ℝ) (coef : Fin (p + ic.toNat) → ℝ) (k : Fin (p + ic.toNat)) :
    makeCoefP2 ic P2 coef k = ∑ i, p2Full ic P2 i k * coef i := by
  unfold makeCoefP2
  split
  · rename_i h
    rw [Finset.sum_eq_zero]
    intro i _
    rw [p2Full_right_zero P2 i k h, zero_mul]
  · rename_i h
    have hk : k.val - ic.toNat < p := by have := k.isLt; omega
    obtain ⟨j, hkj⟩ : ∃ j : Fin p, k = ⟨j.val + ic.toNat, by omega⟩ :=
      ⟨⟨k.val - ic.toNat, hk⟩, by ext; simp; omega⟩
    have hkv : k.val - ic.toNat = j.val := by rw [hkj]; simp
    rw [sum_split]
    have h0 : (if h : 0 < ic.toNat then p2Full ic P2 (⟨0, by omega⟩ : Fin (p + ic.toNat)) k * coef ⟨0, by omega⟩ else 0) = 0 := by
      split
      · rw [p2Full_left_zero P2 _ k (by assumption), zero_mul]
      · rfl
    rw [h0, zero_add]
    have hp : ∀ i : Fin p, p2Full (p := p) ic P2 ⟨i.val + ic.toNat, by omega⟩ k = p2Matrix P2 i.val j.val := by
      intro i
      rw [hkj]; exact p2Full_shift P2 i j
    simp only [hp]
    cases P2 with
    | vec v =>
      simp only [p2Matrix]
      rw [Finset.sum_eq_single j]
      · rw [if_pos rfl, ← feat_eq coef j, hkv]; ring
      · intro b _ hb
        rw [if_neg (fun e => hb (Fin.ext e)), zero_mul]
      · simp
    | dense m =>
      simp only [p2Matrix]
      rw [Finset.sum_range]
      apply Finset.sum_congr rfl
      intro i _
      rw [feat_eq, hkv]; ring
    | sparse m =>
      simp only [p2Matrix]
      rw [Finset.sum_range]
      apply Finset.sum_congr rfl
      intro i _
      rw [feat_eq, hkv]; ring

theorem coefP2_dot (P2 : Pen2 ℝ) (coef : Fin (p + ic.toNat) → ℝ) :
    ∑ k, makeCoefP2 ic P2 coef k * coef k = ∑ i, ∑ j, p2Full ic P2 i j * coef i * coef j := by
  simp only [makeCoefP2_eq, Finset.sum_mul]
  exact Finset.sum_comm

theorem design_lt (X : Fin n → ℕ → ℝ) (r : Fin n) (k : Fin (p + ic.toNat)) (h : k.val < ic.toNat) :
    design ic X r k = 1 := by
  cases ic with
  | false => simp at h
  | true => exact design_true_zero X r k (by simpa using h)

theorem design_ge (X : Fin n → ℕ → ℝ) (r : Fin n) (k : Fin (p + ic.toNat)) (h : ¬ k.val < ic.toNat) :
    design ic X r k = X r (k.val - ic.toNat) := by
  cases ic with
  | false => rfl
  | true => exact design_true_succ X r k (by simpa using h)

theorem scoreOf_eq (D : IRLSData n p ic) (g : Fin n → ℝ) (c : Fin (p + ic.toNat) → ℝ) (k : Fin (p + ic.toNat)) :
    scoreOf D g c k = ∑ r, design ic D.X r k * g r - c k := by
  unfold scoreOf
  congr 1
  split
  · rename_i h
    apply Finset.sum_congr rfl; intro r _
    rw [design_lt _ _ _ h, one_mul]
  · rename_i h
    apply Finset.sum_congr rfl; intro r _
    rw [design_ge _ _ _ h, mul_comm]

/-! ### synchronisation invariant -/

/-- The cached quantities in the state belong to the state's coefficients. -/
structure Sync (D : IRLSData n p ic) (st : IRLSState n p ic) : Prop where
  eta : ∀ r, st.eta r = linPred ic D.X (off D) st.coef r
  mu : ∀ r, st.mu r = D.fam.inv (st.eta r)
  obj : st.obj = objective D st.coef
  score : ∀ k, st.score k = scoreAt D st.coef k
  rows : ∀ r, st.hs.rows r = D.fam.hess (D.y r) (D.sw r) (st.eta r) (st.mu r)

theorem linPred_add (X : Fin n → ℕ → ℝ) (o : Fin n → ℝ) (w d : Fin (p + ic.toNat) → ℝ) (f : ℝ) (r : Fin n) :
    linPred ic X o (fun k => w k + f * d k) r = linPred ic X o w r + f * linPred ic X (fun _ => 0) d r := by
  unfold linPred
  simp only [mul_add, Finset.sum_add_distrib, Finset.mul_sum]
  have : ∑ k, design ic X r k * (f * d k) = ∑ k, f * (design ic X r k * d k) :=
    Finset.sum_congr rfl fun _ _ => by ring
  rw [this]; ring

/-- everything `etaMuObjective` returns when `cur + factor * Xd` is the linear predictor of `coef` -/
theorem etaMuObjective_sync (D : IRLSData n p ic) (hP : ∀ k, 0 ≤ D.P1 k) (cur Xd : Fin n → ℝ) (f : ℝ)
    (w : Fin (p + ic.toNat) → ℝ) (h : ∀ r, cur r + f * Xd r = linPred ic D.X (off D) w r) :
    (∀ r, (etaMuObjective D cur Xd f w).1 r = linPred ic D.X (off D) w r) ∧
    (∀ r, (etaMuObjective D cur Xd f w).2.1 r = D.fam.inv (linPred ic D.X (off D) w r)) ∧
    (etaMuObjective D cur Xd f w).2.2.1 = objective D w ∧
    (etaMuObjective D cur Xd f w).2.2.2 = makeCoefP2 ic D.P2 w := by
  refine ⟨h, ?_, ?_, rfl⟩
  · intro r
    simp only [etaMuObjective]
    rw [h r]
  · simp only [etaMuObjective]
    unfold objective smoothObj ridge
    rw [coefP2_dot, l1Norm_eq D.P1 hP]
    simp only [h]
    ring

theorem updateQuadratic_sync (D : IRLSData n p ic) (w : Fin (p + ic.toNat) → ℝ) (eta mu : Fin n → ℝ)
    (he : ∀ r, eta r = linPred ic D.X (off D) w r) (hm : ∀ r, mu r = D.fam.inv (eta r)) (k : Fin (p + ic.toNat)) :
    (updateQuadratic D eta mu (makeCoefP2 ic D.P2 w)).1 k = scoreAt D w k := by
  simp only [updateQuadratic]
  rw [scoreOf_eq, makeCoefP2_eq]
  unfold scoreAt
  simp only [hm, he]

theorem irlsInit_sync (D : IRLSData n p ic) (hP : ∀ k, 0 ≤ D.P1 k) (w : Fin (p + ic.toNat) → ℝ) :
    Sync D (irlsInit D w) := by
  have h := etaMuObjective_sync D hP (fun _ => 0) (safeLinPred ic D.X w D.offset) 1 w (by
    intro r; rw [c12_lin_pred]; simp [off])
  have hm : ∀ r, (irlsInit D w).mu r = D.fam.inv ((irlsInit D w).eta r) := fun r => by
    simp only [irlsInit]; rw [h.2.1 r, h.1 r]
  refine ⟨h.1, hm, h.2.2.1, ?_, fun r => rfl⟩
  intro k
  exact updateQuadratic_sync D w _ _ h.1 hm k

/-! ### line search -/

/-- the `j`-th trial -/
noncomputable def lsTry (D : IRLSData n p ic) (st : IRLSState n p ic) (d : Fin (p + ic.toNat) → ℝ) (Xd : Fin n → ℝ) (j : ℕ) :=
  etaMuObjective D st.eta Xd ((1 / 2) ^ j) (fun c => st.coef c + (1 / 2) ^ j * d c)

def lsOK (D : IRLSData n p ic) (st : IRLSState n p ic) (d : Fin (p + ic.toNat) → ℝ) (bound : ℝ) (Xd : Fin n → ℝ)
    (j : ℕ) : Prop :=
  lsAccept D st bound ((1 / 2) ^ j) (lsTry D st d Xd j).1 (lsTry D st d Xd j).2.1 (lsTry D st d Xd j).2.2.1
    (lsTry D st d Xd j).2.2.2

/-- What the line search returns, relative to the step factor `2^-k` it used. -/
structure LSSpec (D : IRLSData n p ic) (st : IRLSState n p ic) (d : Fin (p + ic.toNat) → ℝ) (bound : ℝ)
    (Xd : Fin n → ℝ) (k0 : ℕ) (r : LSResult n p ic) : Prop where
  k : r.k < 20
  step : r.step = fun j => (1 / 2) ^ r.k * d j
  coef : r.coef = fun j => st.coef j + (1 / 2) ^ r.k * d j
  emo : (r.eta, r.mu, r.obj, r.cP2) = etaMuObjective D st.eta Xd ((1 / 2) ^ r.k) r.coef
  accept : r.warned = false ↔ lsOK D st d bound Xd r.k
  warnedIff : r.warned = true → r.k = 19
  prev : ∀ i, k0 ≤ i → i < r.k → ¬ lsOK D st d bound Xd i

theorem lineLoop_spec (D : IRLSData n p ic) (st : IRLSState n p ic) (d : Fin (p + ic.toNat) → ℝ) (bound : ℝ)
    (Xd : Fin n → ℝ) (rem k : ℕ) (hk : k + rem = 19) :
    LSSpec D st d bound Xd k (lineLoop D st d bound Xd rem k ((1 / 2) ^ k)) := by
  induction rem generalizing k with
  | zero =>
    unfold lineLoop
    simp only []
    split
    · rename_i h
      exact ⟨by simp only []; omega, rfl, rfl, rfl, ⟨fun _ => h, fun _ => rfl⟩, fun e => by simp at e,
        fun i h1 h2 => by simp only [] at h2; omega⟩
    · rename_i h
      exact ⟨by simp only []; omega, rfl, rfl, rfl, ⟨fun e => by simp at e, fun e => absurd e h⟩, fun _ => by simp only []; omega,
        fun i h1 h2 => by simp only [] at h2; omega⟩
  | succ rem ih =>
    unfold lineLoop
    simp only []
    split
    · rename_i h
      exact ⟨by simp only []; omega, rfl, rfl, rfl, ⟨fun _ => h, fun _ => rfl⟩, fun e => by simp at e,
        fun i h1 h2 => by simp only [] at h2; omega⟩
    · rename_i h
      have := ih (k + 1) (by omega)
      rw [pow_succ] at this
      refine ⟨this.k, this.step, this.coef, this.emo, this.accept, this.warnedIff, fun i h1 h2 => ?_⟩
      rcases Nat.eq_or_lt_of_le h1 with e | e
      · subst e; exact h
      · exact this.prev i e h2

theorem lineSearch_spec (D : IRLSData n p ic) (st : IRLSState n p ic) (d : Fin (p + ic.toNat) → ℝ) :
    LSSpec D st d (armijoBound D st d) (safeLinPred ic D.X d none) 0 (lineSearch D st d) := by
  have := lineLoop_spec D st d (armijoBound D st d) (safeLinPred ic D.X d none) 19 0 (by omega)
  rw [pow_zero] at this
  exact this

/-- The line search keeps the cache in sync. -/
theorem lineSearch_sync (D : IRLSData n p ic) (hP : ∀ k, 0 ≤ D.P1 k) (st : IRLSState n p ic)
    (hs : ∀ r, st.eta r = linPred ic D.X (off D) st.coef r) (d : Fin (p + ic.toNat) → ℝ) :
    (∀ r, (lineSearch D st d).eta r = linPred ic D.X (off D) (lineSearch D st d).coef r) ∧
    (∀ r, (lineSearch D st d).mu r = D.fam.inv ((lineSearch D st d).eta r)) ∧
    (lineSearch D st d).obj = objective D (lineSearch D st d).coef ∧
    (lineSearch D st d).cP2 = makeCoefP2 ic D.P2 (lineSearch D st d).coef := by
  have hsp := lineSearch_spec D st d
  set r := lineSearch D st d
  have h := etaMuObjective_sync D hP st.eta (safeLinPred ic D.X d none) ((1 / 2) ^ r.k) r.coef (by
    intro i
    rw [c12_lin_pred, hs i, hsp.coef, linPred_add]; rfl)
  have e := hsp.emo
  rw [Prod.ext_iff, Prod.ext_iff, Prod.ext_iff] at e
  obtain ⟨e1, e2, e3, e4⟩ := e
  simp only at e1 e2 e3 e4
  refine ⟨?_, ?_, ?_, ?_⟩
  · rw [e1]; exact h.1
  · rw [e1, e2]; intro i; rw [h.2.1 i, h.1 i]
  · rw [e3]; exact h.2.2.1
  · rw [e4]; exact h.2.2.2

theorem irlsStep_sync (inner : Inner n p ic) (D : IRLSData n p ic) (hP : ∀ k, 0 ≤ D.P1 k) (st : IRLSState n p ic)
    (h : Sync D st) : Sync D (irlsStep inner D st) := by
  have hl := lineSearch_sync D hP
    { st with hs := updateHessian ic D.X D.P2 D.hessApprox st.hs (identifyActiveSet D st) } h.eta
    (inner D { st with hs := updateHessian ic D.X D.P2 D.hessApprox st.hs (identifyActiveSet D st) }).1
  refine ⟨hl.1, hl.2.1, hl.2.2.1, ?_, fun r => rfl⟩
  intro k
  have := updateQuadratic_sync D _ _ _ hl.1 hl.2.1 k
  rw [← hl.2.2.2] at this
  exact this

/-- Induction principle for the states visited by the outer loop. -/
theorem irlsLoop_induct (inner : Inner n p ic) (D : IRLSData n p ic) (I : IRLSState n p ic → Prop)
    (hstep : ∀ st, st.converged = false → st.nIter < D.maxIter → I st → I (irlsStep inner D st)) (fuel : ℕ)
    (st : IRLSState n p ic) (h : I st) : I (irlsLoop inner D fuel st) := by
  induction fuel generalizing st with
  | zero => exact h
  | succ k ih =>
    unfold irlsLoop
    split
    · rename_i hc
      exact ih _ (hstep st hc.2 hc.1 h)
    · exact h


theorem armijoBound_eq (D : IRLSData n p ic) (hP : ∀ k, 0 ≤ D.P1 k) (st : IRLSState n p ic)
    (hs : ∀ k, st.score k = scoreAt D st.coef k) (d : Fin (p + ic.toNat) → ℝ) :
    armijoBound D st d = 1 / 10000 * predictedChange D st.coef d := by
  unfold armijoBound predictedChange
  rw [l1Norm_eq D.P1 hP, l1Norm_eq D.P1 hP]
  simp only [hs]

theorem scoreVar_sync (D : IRLSData n p ic) (w : Fin (p + ic.toNat) → ℝ) (eta mu : Fin n → ℝ)
    (he : ∀ r, eta r = linPred ic D.X (off D) w r) (hm : ∀ r, mu r = D.fam.inv (linPred ic D.X (off D) w r))
    (k : Fin (p + ic.toNat)) :
    scoreOf D (fun i => D.fam.gradVar (D.y i) (D.sw i) (eta i) (mu i)) (makeCoefP2 ic D.P2 w) k = scoreVarAt D w k := by
  rw [scoreOf_eq, makeCoefP2_eq]
  unfold scoreVarAt
  simp only [hm, he]

theorem lsOK_iff (D : IRLSData n p ic) (hP : ∀ k, 0 ≤ D.P1 k) (st : IRLSState n p ic)
    (he : ∀ r, st.eta r = linPred ic D.X (off D) st.coef r) (ho : st.obj = objective D st.coef)
    (hs : ∀ k, st.score k = scoreAt D st.coef k) (d : Fin (p + ic.toNat) → ℝ) (j : ℕ) :
    lsOK D st d (armijoBound D st d) (safeLinPred ic D.X d none) j ↔ Acceptable D st.coef d j := by
  have h := etaMuObjective_sync D hP st.eta (safeLinPred ic D.X d none) ((1 / 2) ^ j)
    (candidate st.coef d j) (by
      intro i
      rw [c12_lin_pred, he i]; unfold candidate; rw [linPred_add]; rfl)
  unfold lsOK lsAccept Acceptable
  change ((∀ i, (etaMuObjective D st.eta (safeLinPred ic D.X d none) ((1 / 2) ^ j) (candidate st.coef d j)).2.1 i < D.large)
    ∧ (etaMuObjective D st.eta (safeLinPred ic D.X d none) ((1 / 2) ^ j) (candidate st.coef d j)).2.2.1 - st.obj ≤ _) ∨
    (|(etaMuObjective D st.eta (safeLinPred ic D.X d none) ((1 / 2) ^ j) (candidate st.coef d j)).2.2.1 - st.obj| ≤ _ ∧
      ∑ k, |scoreOf D (fun i => D.fam.gradVar (D.y i) (D.sw i)
        ((etaMuObjective D st.eta (safeLinPred ic D.X d none) ((1 / 2) ^ j) (candidate st.coef d j)).1 i)
        ((etaMuObjective D st.eta (safeLinPred ic D.X d none) ((1 / 2) ^ j) (candidate st.coef d j)).2.1 i))
        (etaMuObjective D st.eta (safeLinPred ic D.X d none) ((1 / 2) ^ j) (candidate st.coef d j)).2.2.2 k|
        < ∑ k, |st.score k|) ↔ _
  rw [h.2.2.1, h.2.2.2, armijoBound_eq D hP st hs, ho]
  have hsv : ∀ k, scoreOf D (fun i => D.fam.gradVar (D.y i) (D.sw i)
        ((etaMuObjective D st.eta (safeLinPred ic D.X d none) ((1 / 2) ^ j) (candidate st.coef d j)).1 i)
        ((etaMuObjective D st.eta (safeLinPred ic D.X d none) ((1 / 2) ^ j) (candidate st.coef d j)).2.1 i))
        (makeCoefP2 ic D.P2 (candidate st.coef d j)) k = scoreVarAt D (candidate st.coef d j) k :=
    fun k => scoreVar_sync D _ _ _ h.1 h.2.1 k
  rw [Finset.sum_congr rfl (fun k _ => congrArg abs (hsv k)), Finset.sum_congr rfl (fun k _ => congrArg abs (hs k))]
  simp only [h.2.1]

/-! ### active set -/

theorem activeSet_sorted (D : IRLSData n p ic) (st : IRLSState n p ic) :
    (identifyActiveSet D st).Pairwise (· < ·) := by
  unfold identifyActiveSet
  exact List.Pairwise.filter _ (List.pairwise_lt_finRange _)

theorem mem_activeSet (D : IRLSData n p ic) (st : IRLSState n p ic) (i : Fin (p + ic.toNat)) :
    i ∈ identifyActiveSet D st ↔ i.val < ic.toNat ∨ st.coef i ≠ 0 ∨
      ∀ x : ℝ, st.maxSub = (x : WithTop ℝ) → D.P1 (i.val - ic.toNat) - x ≤ |st.score i| := by
  unfold identifyActiveSet
  simp

theorem sorted_activeOK (A : List (Fin (p + ic.toNat))) (hs : A.Pairwise (· < ·))
    (h0 : ∀ i : Fin (p + ic.toNat), i.val < ic.toNat → i ∈ A) : ActiveOK ic A := by
  refine ⟨hs.imp (fun h => ne_of_lt h), ?_⟩
  intro hic
  subst hic
  have hm := h0 ⟨0, by simp⟩ (by simp)
  cases A with
  | nil => simp at hm
  | cons x t =>
    refine ⟨x, t, rfl, ?_⟩
    rw [List.pairwise_cons] at hs
    rcases List.mem_cons.mp hm with e | e
    · rw [← e]
    · have := hs.1 _ e
      have h2 : x.val < 0 := this
      omega

theorem activeSet_ok (D : IRLSData n p ic) (st : IRLSState n p ic) : ActiveOK ic (identifyActiveSet D st) :=
  sorted_activeOK _ (activeSet_sorted D st) fun i hi => (mem_activeSet D st i).mpr (Or.inl hi)

theorem get_strictMono {m : ℕ} (A : List (Fin m)) (hs : A.Pairwise (· < ·)) : StrictMono fun s => A.get s := by
  intro a b hab
  exact List.pairwise_iff_get.mp hs a b hab

/-! ### the coordinate-descent direction -/

theorem quad_zero {p a : ℕ} (active : Fin a → Fin p) (Q : Fin a → Fin a → ℝ) (g w : Fin p → ℝ) :
    quad active Q g w w = 0 := by
  unfold quad; simp

/-- A PSD matrix restricted to distinct indices is PSD. -/
theorem PSD_restrict {m a : ℕ} (M : Fin m → Fin m → ℝ) (hM : PosSemidef M) (f : Fin a → Fin m) (hf : Function.Injective f) :
    PSD fun s t => M (f s) (f t) := by
  intro d
  classical
  let v : Fin m → ℝ := fun i => ∑ s, if f s = i then d s else 0
  have hv : ∀ g : Fin m → ℝ, ∑ i, g i * v i = ∑ s, g (f s) * d s := by
    intro g
    simp only [v, Finset.mul_sum]
    rw [Finset.sum_comm]
    apply Finset.sum_congr rfl; intro s _
    simp
  have e : ∑ i, ∑ j, M i j * v i * v j = ∑ s, ∑ t, M (f s) (f t) * d s * d t := by
    have h1 : ∀ i, ∑ j, M i j * v i * v j = (∑ t, M i (f t) * d t) * v i := by
      intro i
      rw [← hv (fun j => M i j), Finset.sum_mul]
      apply Finset.sum_congr rfl; intro j _; ring
    simp only [h1]
    rw [hv (fun i => ∑ t, M i (f t) * d t)]
    apply Finset.sum_congr rfl; intro s _
    rw [Finset.sum_mul]
    apply Finset.sum_congr rfl; intro t _; ring
  rw [← e]
  exact hM v

/-- Conditions under which the local quadratic model is convex. -/
structure Convexish (D : IRLSData n p ic) : Prop where
  P1 : ∀ k, 0 ≤ D.P1 k
  symm : ∀ i j, p2Full (p := p) ic D.P2 i j = p2Full ic D.P2 j i
  psd : PosSemidef (p2Full (p := p) ic D.P2)
  rows : ∀ r eta, 0 ≤ D.fam.hess (D.y r) (D.sw r) eta (D.fam.inv eta)
  eps : 0 ≤ D.eps
  bounds : BoundsOrdered D.lb D.ub

/-- The state invariant of the outer loop with respect to the Hessian. -/
structure HessOK (D : IRLSData n p ic) (hs : HessState ℝ n (p + ic.toNat)) : Prop where
  inv : HInv ic D.X D.P2 hs
  rows : ∀ r, 0 ≤ hs.rows r
  old : ∀ r, 0 ≤ hs.oldRows r

theorem HessOK.update {D : IRLSData n p ic} {hs : HessState ℝ n (p + ic.toNat)} (h : HessOK D hs)
    (A : List (Fin (p + ic.toNat))) (r : Fin n) : 0 ≤ (updateHessian ic D.X D.P2 D.hessApprox hs A).rows r := by
  rcases updateHessian_rows ic D.X D.P2 D.hessApprox hs A r with e | e <;> rw [e]
  · exact h.rows r
  · exact h.old r

/-- everything needed about the arguments `_cd_solver` receives -/
theorem cdArgs_ok (D : IRLSData n p ic) (hD : Convexish D) (st : IRLSState n p ic) (h : HessOK D st.hs) 
    (st1 : IRLSState n p ic)
    (hst1 : st1 = { st with hs := updateHessian ic D.X D.P2 D.hessApprox st.hs (identifyActiveSet D st) }) :
    (cdArgs D st1).WF ∧ PSD (cdArgs D st1).Q := by
  have hhs : st1.hs = updateHessian ic D.X D.P2 D.hessApprox st.hs (identifyActiveSet D st) := by rw [hst1]
  have hact : st1.hs.active = identifyActiveSet D st := by rw [hhs]; exact (updateHessian_init ic D.X D.P2 D.hessApprox st.hs _).2
  have hmem : ∀ s, st1.hs.active.get s ∈ identifyActiveSet D st := fun s => by
    rw [← hact]; exact List.get_mem _ _
  have hsrt : st1.hs.active.Pairwise (· < ·) := by rw [hact]; exact activeSet_sorted D st
  have hQ : ∀ s t, (cdArgs D st1).Q s t = fullHessian ic D.X st1.hs.rows D.P2 (st1.hs.active.get s) (st1.hs.active.get t) := by
    intro s t
    change st1.hs.H _ _ = _
    have e := congrArg HessState.H hhs
    have e2 := congrArg HessState.rows hhs
    rw [e, e2]
    exact updateHessian_block ic D.X D.P2 D.hessApprox st.hs h.inv _ (activeSet_ok D st) _ (hmem s) _ (hmem t)
  have hsp := c13_hessian_symm_psd (p := p) ic D.X st1.hs.rows D.P2
  refine ⟨⟨get_strictMono _ hsrt, fun s t => ?_, hD.P1, ?_, hD.bounds⟩, ?_⟩
  · rw [hQ, hQ]; exact hsp.1 hD.symm _ _
  · exact mul_nonneg hD.eps (by norm_num)
  · have := PSD_restrict _ (hsp.2 (by rw [hhs]; exact h.update _) hD.psd) _ (get_strictMono _ hsrt).injective
    intro d
    have := this d
    simp only [← hQ] at this
    exact this

theorem sum_active {m a : ℕ} (f : Fin a → Fin m) (hf : Function.Injective f) (g : Fin m → ℝ)
    (hg : ∀ i, i ∉ Set.range f → g i = 0) : ∑ k, g k = ∑ s, g (f s) := by
  rw [show ∑ s, g (f s) = ∑ k ∈ Finset.univ.map ⟨f, hf⟩, g k by rw [Finset.sum_map]; rfl]
  symm
  apply Finset.sum_subset (Finset.subset_univ _)
  intro i _ hi
  apply hg
  rintro ⟨s, rfl⟩
  exact hi (by simp)

/-- The direction of the coordinate-descent solver: predicted change is non-positive and the full step is feasible. -/
theorem cd_direction (seeds : ℕ → BitVec 32) (D : IRLSData n p ic) (hD : Convexish D) (st : IRLSState n p ic)
    (h : HessOK D st.hs) (hs : ∀ k, st.score k = scoreAt D st.coef k) (hb : InBounds ic D.lb D.ub st.coef) :
    let st1 := { st with hs := updateHessian ic D.X D.P2 D.hessApprox st.hs (identifyActiveSet D st) }
    predictedChange D st.coef (cdInner seeds D st1).1 ≤ 0 ∧
    InBounds ic D.lb D.ub (fun k => st.coef k + (cdInner seeds D st1).1 k) := by
  intro st1
  obtain ⟨hwf, hpsd⟩ := cdArgs_ok D hD st h st1 rfl
  have hr := c22_run_not_worse (cdArgs D st1) hwf st1.coef (fun k => -st1.score k) (seeds st1.nIter) hb
  have hib := c19_cd_in_bounds (cdArgs D st1) hwf.bounds st1.coef (fun k => -st1.score k) (seeds st1.nIter) hb
  have hoff : ∀ i, i ∉ Set.range (cdArgs D st1).active → ((cdArgs D st1).run st1.coef (fun k => -st1.score k) (seeds st1.nIter)).w i = st1.coef i := by
    obtain ⟨sched, e⟩ := cd_run_is_schedule (cdArgs D st1) st1.coef (fun k => -st1.score k) (seeds st1.nIter)
    intro i hi
    rw [e]
    exact (c21_gradient_bookkeeping _ hwf _ _ _ sched).2 i hi
  set w := ((cdArgs D st1).run st1.coef (fun k => -st1.score k) (seeds st1.nIter)).w with hw
  have hd : (cdInner seeds D st1).1 = fun k => w k - st.coef k := rfl
  have hfull : (fun k => st.coef k + (cdInner seeds D st1).1 k) = w := by
    funext k; rw [hd]; ring
  constructor
  · unfold predictedChange
    rw [hfull, hd]
    unfold modelObj at hr
    rw [quad_zero, zero_add] at hr
    have hp := hpsd (fun s => w ((cdArgs D st1).active s) - st1.coef ((cdArgs D st1).active s))
    have hsum : ∑ k, scoreAt D st.coef k * (w k - st.coef k)
        = ∑ s, scoreAt D st.coef ((cdArgs D st1).active s) * (w ((cdArgs D st1).active s) - st.coef ((cdArgs D st1).active s)) := by
      refine sum_active _ hwf.mono.injective _ fun i hi => ?_
      rw [hoff i hi]
      simp [st1]
    rw [hsum]
    unfold quad at hr
    have hs1 : ∀ k, -st1.score k = -scoreAt D st.coef k := fun k => by simp only [st1]; rw [hs k]
    simp only [hs1, neg_mul, Finset.sum_neg_distrib] at hr
    change -∑ s, scoreAt D st.coef ((cdArgs D st1).active s) * (w ((cdArgs D st1).active s) - st.coef ((cdArgs D st1).active s))
      + 1 / 2 * ∑ s, ∑ t, (cdArgs D st1).Q s t * (w ((cdArgs D st1).active s) - st1.coef ((cdArgs D st1).active s)) * (w ((cdArgs D st1).active t) - st1.coef ((cdArgs D st1).active t))
      + l1 ic D.P1 w ≤ l1 ic D.P1 st.coef at hr
    linarith
  · rw [hfull]; exact hib


/-! ### max of the subgradient -/

theorem maxSub_nonneg {m : ℕ} (coef grad : Fin m → ℝ) (P1 : ℕ → ℝ) (ic : Bool) (lb ub : Option (ℕ → ℝ))
    (l : List (Fin m)) (acc : ℝ × WithTop ℝ) (hacc : ∀ x : ℝ, acc.2 = (x : WithTop ℝ) → 0 ≤ x) (x : ℝ)
    (h : (l.foldl (fun acc i =>
      if i.val < ic.toNat then (|grad i|, ((|grad i| : ℝ) : WithTop ℝ))
      else
        let k := i.val - ic.toNat
        let absterm := |subgradTerm (coef i) (grad i) (P1 k) (lb.map (· k)) (ub.map (· k))|
        (acc.1 + absterm, if acc.2 < (absterm : WithTop ℝ) then (absterm : WithTop ℝ) else acc.2)) acc).2 = (x : WithTop ℝ)) :
    0 ≤ x := by
  induction l generalizing acc with
  | nil => exact hacc x h
  | cons a l ih =>
    rw [List.foldl_cons] at h
    refine ih _ ?_ h
    intro z hz
    split at hz
    · simp only [WithTop.coe_inj] at hz; rw [← hz]; exact abs_nonneg _
    · simp only [] at hz
      split at hz
      · simp only [WithTop.coe_inj] at hz; rw [← hz]; exact abs_nonneg _
      · exact hacc z hz

theorem maxSub_top {m : ℕ} (coef grad : Fin m → ℝ) (P1 : ℕ → ℝ) (lb ub : Option (ℕ → ℝ))
    (l : List (Fin m)) (acc : ℝ × WithTop ℝ) (hacc : acc.2 = ⊤) :
    (l.foldl (fun acc i =>
      if i.val < false.toNat then (|grad i|, ((|grad i| : ℝ) : WithTop ℝ))
      else
        let k := i.val - false.toNat
        let absterm := |subgradTerm (coef i) (grad i) (P1 k) (lb.map (· k)) (ub.map (· k))|
        (acc.1 + absterm, if acc.2 < (absterm : WithTop ℝ) then (absterm : WithTop ℝ) else acc.2)) acc).2 = ⊤ := by
  induction l generalizing acc with
  | nil => exact hacc
  | cons a l ih =>
    rw [List.foldl_cons]
    apply ih
    rw [if_neg (by simp)]
    simp [hacc]

end Glum
