import Verif.Model.Monotone
import Verif.Props.IRLS
/-
C59, C69: the monotone solver.
-/
set_option linter.unusedSectionVars false
set_option linter.unusedVariables false
set_option linter.unusedSimpArgs false

namespace Glum.Spec

variable {n p m : ℕ} {ic : Bool}

/-- Entry `r` of `A_ineq @ w`, the intercept left out. -/
def lhs (ic : Bool) (A : Fin m → ℕ → ℝ) (w : Fin (p + ic.toNat) → ℝ) (r : Fin m) : ℝ :=
  ∑ j : Fin p, A r j * w ⟨j.val + ic.toNat, by omega⟩

/-- The rows of `A_ineq @ w ≤ 0` that `w` violates. -/
noncomputable def violatedRows (ic : Bool) (A : Fin m → ℕ → ℝ) (w : Fin (p + ic.toNat) → ℝ) : Finset (Fin m) :=
  open Classical in Finset.univ.filter fun r => 0 < lhs ic A w r

/-- The documented objective plus `lam/2 ∑ (A_r·w)²` over the rows in `V`. -/
noncomputable def penalised (D : IRLSData n p ic) (A : Fin m → ℕ → ℝ) (lam : ℝ) (V : Finset (Fin m))
    (w : Fin (p + ic.toNat) → ℝ) : ℝ :=
  objective D w + lam / 2 * ∑ r ∈ V, lhs ic A w r ^ 2

end Glum.Spec

namespace Glum
open Spec

variable {n p m : ℕ} {ic : Bool}

theorem violation_eq (A : Fin m → ℕ → ℝ) (b : Fin m → ℝ) (w : Fin (p + ic.toNat) → ℝ) (r : Fin m) :
    violation ic A b w r = lhs ic A w r - b r := by
  unfold violation lhs
  rw [Finset.sum_range]
  congr 1
  apply Finset.sum_congr rfl; intro j _
  rw [feat_eq]

/-! ### the penalty matrix -/

theorem toSparse_toArray (p : ℕ) (f : ℕ → ℕ → ℝ) (a b : ℕ) (ha : a < p) (hb : b < p) :
    (toSparse p f).toArray a b = f a b := by
  classical
  unfold SparseMat.toArray toSparse
  rw [List.filter_filter]
  have key : ∀ l : List (ℕ × ℕ × ℝ),
      ((l.filter fun e => decide (e.1 = a ∧ e.2.1 = b) && decide (e.2.2 ≠ 0)).map fun e => e.2.2).sum
        = ((l.filter fun e => decide (e.1 = a ∧ e.2.1 = b)).map fun e => e.2.2).sum := by
    intro l
    induction l with
    | nil => rfl
    | cons x l ih =>
      by_cases h1 : x.1 = a ∧ x.2.1 = b
      · by_cases h2 : x.2.2 = 0
        · rw [List.filter_cons_of_neg (by simp [h2]), List.filter_cons_of_pos (by simp [h1]), List.map_cons, List.sum_cons, ih, h2,
            zero_add]
        · rw [List.filter_cons_of_pos (by simp [h1, h2]), List.filter_cons_of_pos (by simp [h1]), List.map_cons, List.sum_cons,
            List.map_cons, List.sum_cons, ih]
      · rw [List.filter_cons_of_neg (by simp only [Bool.and_eq_true, decide_eq_true_eq]; tauto),
          List.filter_cons_of_neg (by simpa using h1), ih]
  rw [key]
  have hin : ∀ (j : ℕ) (q : ℕ), ((((List.range q).map fun i => (i, j, f i j)).filter fun e => decide (e.1 = a ∧ e.2.1 = b)).map
      fun e => e.2.2).sum = if j = b ∧ a < q then f a b else 0 := by
    intro j q
    induction q with
    | zero => simp
    | succ q ih =>
      rw [List.range_succ, List.map_append, List.filter_append, List.map_append, List.sum_append, ih]
      by_cases hj : j = b
      · subst hj
        by_cases hq : q = a
        · subst hq; simp
        · have e2 : a < q + 1 ↔ a < q := by omega
          simp [hq, e2]
      · simp [hj]
  have hout : ∀ q : ℕ, ((((List.range q).flatMap fun j => (List.range p).map fun i => (i, j, f i j)).filter
      fun e => decide (e.1 = a ∧ e.2.1 = b)).map fun e => e.2.2).sum = if b < q then f a b else 0 := by
    intro q
    induction q with
    | zero => simp
    | succ q ih =>
      rw [List.range_succ, List.flatMap_append, List.filter_append, List.map_append, List.sum_append, ih]
      have : (List.flatMap (fun j => (List.range p).map fun i => (i, j, f i j)) [q]) = (List.range p).map fun i => (i, q, f i q) := by
        simp
      rw [this, hin]
      by_cases hq : q = b
      · subst hq; simp [ha]
      · have e2 : b < q + 1 ↔ b < q := by omega
        simp [hq, e2]
  rw [hout, if_pos hb]

theorem p2Matrix_addPenalty (base : Pen2 ℝ) (C : ℕ → ℕ → ℝ) (a b : ℕ) (ha : a < p) (hb : b < p) :
    p2Matrix (addPenalty p base C) a b = p2Matrix base a b + C a b := by
  cases base with
  | vec v => simp only [addPenalty, p2Matrix]; rw [toSparse_toArray _ _ _ _ ha hb]
  | dense M => rfl
  | sparse M => simp only [addPenalty, p2Matrix]; rw [toSparse_toArray _ _ _ _ ha hb]

/-- The bilinear form of `P2`, over the features only. -/
theorem p2_bilin (P2 : Pen2 ℝ) (w d : Fin (p + ic.toNat) → ℝ) :
    ∑ i, ∑ k, p2Full ic P2 i k * w i * d k
      = ∑ a : Fin p, ∑ b : Fin p, p2Matrix P2 a b * w ⟨a.val + ic.toNat, by omega⟩ * d ⟨b.val + ic.toNat, by omega⟩ := by
  rw [sum_split]
  have h0 : (if h : 0 < ic.toNat then ∑ k, p2Full ic P2 (⟨0, by omega⟩ : Fin (p + ic.toNat)) k * w ⟨0, by omega⟩ * d k else 0) = 0 := by
    split
    · rename_i h
      apply Finset.sum_eq_zero; intro k _
      rw [p2Full_left_zero P2 _ k h, zero_mul, zero_mul]
    · rfl
  rw [h0, zero_add]
  apply Finset.sum_congr rfl; intro a _
  rw [sum_split]
  have h1 : (if h : 0 < ic.toNat then p2Full ic P2 (⟨a.val + ic.toNat, by omega⟩ : Fin (p + ic.toNat)) ⟨0, by omega⟩
      * w ⟨a.val + ic.toNat, by omega⟩ * d ⟨0, by omega⟩ else 0) = 0 := by
    split
    · rename_i h
      rw [p2Full_right_zero P2 _ _ h, zero_mul, zero_mul]
    · rfl
  rw [h1, zero_add]
  apply Finset.sum_congr rfl; intro b _
  rw [p2Full_shift]

/-- The matrix `lam ∑_{r∈V} a_r a_rᵀ`. -/
def gram (A : Fin m → ℕ → ℝ) (lam : ℝ) (V : Finset (Fin m)) (i j : ℕ) : ℝ := lam * ∑ r ∈ V, A r i * A r j

theorem gram_bilin (A : Fin m → ℕ → ℝ) (lam : ℝ) (V : Finset (Fin m)) (w d : Fin (p + ic.toNat) → ℝ) :
    ∑ a : Fin p, ∑ b : Fin p, gram A lam V a b * w ⟨a.val + ic.toNat, by omega⟩ * d ⟨b.val + ic.toNat, by omega⟩
      = lam * ∑ r ∈ V, lhs ic A w r * lhs ic A d r := by
  unfold gram lhs
  simp only [Finset.mul_sum, Finset.sum_mul]
  rw [Finset.sum_congr rfl fun a _ => Finset.sum_comm, Finset.sum_comm]
  apply Finset.sum_congr rfl; intro r _
  rw [Finset.sum_comm]
  apply Finset.sum_congr rfl; intro a _
  apply Finset.sum_congr rfl; intro b _
  ring

theorem add_bilin (base : Pen2 ℝ) (A : Fin m → ℕ → ℝ) (lam : ℝ) (V : Finset (Fin m)) (w d : Fin (p + ic.toNat) → ℝ) :
    ∑ i, ∑ k, p2Full ic (addPenalty p base (gram A lam V)) i k * w i * d k
      = ∑ i, ∑ k, p2Full ic base i k * w i * d k + lam * ∑ r ∈ V, lhs ic A w r * lhs ic A d r := by
  rw [p2_bilin, p2_bilin, ← gram_bilin, ← Finset.sum_add_distrib]
  apply Finset.sum_congr rfl; intro a _
  rw [← Finset.sum_add_distrib]
  apply Finset.sum_congr rfl; intro b _
  rw [p2Matrix_addPenalty base _ _ _ a.isLt b.isLt]; ring

/-- `data.P2` of a state, as a function of what the penalty was built from: the base matrix plus the rows `V`. -/
def PenOf (D : IRLSData n p ic) (A : Fin m → ℕ → ℝ) (lam : ℝ) (V : Finset (Fin m)) (P2 : Pen2 ℝ) : Prop :=
  ∀ w d : Fin (p + ic.toNat) → ℝ, ∑ i, ∑ k, p2Full ic P2 i k * w i * d k
    = ∑ i, ∑ k, p2Full ic D.P2 i k * w i * d k + lam * ∑ r ∈ V, lhs ic A w r * lhs ic A d r

theorem violated_iff (A : Fin m → ℕ → ℝ) (b : Fin m → ℝ) (hb : ∀ r, b r = 0) (w : Fin (p + ic.toNat) → ℝ) (r : Fin m) :
    0 < violation ic A b w r ↔ r ∈ violatedRows ic A w := by
  classical
  rw [violation_eq, hb, sub_zero]
  simp [violatedRows]

theorem updatePenalty_spec (D : IRLSData n p ic) (A : Fin m → ℕ → ℝ) (b : Fin m → ℝ) (hb : ∀ r, b r = 0) (isBase : Bool)
    (w : Fin (p + ic.toNat) → ℝ) (lam : ℝ) :
    PenOf D A lam (violatedRows ic A w) (updatePenalty D A b isBase w lam).1 ∧
    ((updatePenalty D A b isBase w lam).2.1 = true → (updatePenalty D A b isBase w lam).1 = D.P2) ∧
    ((updatePenalty D A b isBase w lam).2.2 = false → isBase = true ∧ (updatePenalty D A b isBase w lam).1 = D.P2) := by
  classical
  unfold updatePenalty buildMonotonicPenalty
  by_cases h : ∃ r, 0 < violation ic A b w r
  · rw [if_pos h]
    refine ⟨?_, fun e => by simp at e, fun e => by simp at e⟩
    intro u d
    have e : (fun i j => lam * ∑ r ∈ Finset.univ.filter (fun r => 0 < violation ic A b w r), A r i * A r j)
        = gram A lam (violatedRows ic A w) := by
      funext i j
      unfold gram
      congr 1
      apply Finset.sum_congr _ fun _ _ => rfl
      ext r
      rw [← violated_iff A b hb]; simp
    simp only []
    rw [e]
    exact add_bilin D.P2 A lam _ u d
  · rw [if_neg h]
    refine ⟨?_, fun _ => rfl, fun e => ⟨by simpa using e, rfl⟩⟩
    intro u d
    have : violatedRows ic A w = ∅ := by
      ext r
      rw [← violated_iff A b hb]
      simp only [Finset.notMem_empty, iff_false]
      exact fun hr => h ⟨r, hr⟩
    rw [this]; simp

theorem ridge_pen (D : IRLSData n p ic) (A : Fin m → ℕ → ℝ) (lam : ℝ) (V : Finset (Fin m)) (P2 : Pen2 ℝ) (h : PenOf D A lam V P2)
    (w : Fin (p + ic.toNat) → ℝ) : objective (D.withP2 P2) w = penalised D A lam V w := by
  unfold objective penalised objective smoothObj ridge
  have := h w w
  change 1 / 2 * ∑ r, D.sw r * D.fam.dev (D.y r) (linPred ic D.X (off D) w r)
    + 1 / 2 * (∑ i, ∑ k, p2Full ic P2 i k * w i * w k) + l1 ic D.P1 w = _
  rw [this]
  have e : ∑ r ∈ V, lhs ic A w r ^ 2 = ∑ r ∈ V, lhs ic A w r * lhs ic A w r := Finset.sum_congr rfl fun _ _ => by ring
  rw [e]; ring

theorem score_pen (D : IRLSData n p ic) (A : Fin m → ℕ → ℝ) (lam : ℝ) (V : Finset (Fin m)) (P2 : Pen2 ℝ) (h : PenOf D A lam V P2)
    (w d : Fin (p + ic.toNat) → ℝ) :
    ∑ k, scoreAt (D.withP2 P2) w k * d k = ∑ k, scoreAt D w k * d k - lam * ∑ r ∈ V, lhs ic A w r * lhs ic A d r := by
  have e : ∀ Q : Pen2 ℝ, ∑ k, (∑ i, p2Full (p := p) ic Q i k * w i) * d k = ∑ i, ∑ k, p2Full ic Q i k * w i * d k := by
    intro Q
    rw [Finset.sum_comm]
    apply Finset.sum_congr rfl; intro k _
    rw [Finset.sum_mul]
  have := h w d
  rw [← e, ← e] at this
  unfold scoreAt
  simp only [sub_mul, Finset.sum_sub_distrib]
  change ∑ k, (∑ r, design ic D.X r k * _) * d k - ∑ k, (∑ i, p2Full ic P2 i k * w i) * d k = _
  rw [this, sub_add_eq_sub_sub]
  rfl

/-! ### the states of a run -/

/-- The states the monotone solver passes through. -/
inductive MVisited (inner : Inner n p ic) (D : IRLSData n p ic) (A : Fin m → ℕ → ℝ) (b : Fin m → ℝ)
    (coef0 : Fin (p + ic.toNat) → ℝ) : MonoState n p ic → Prop
  | init : MVisited inner D A b coef0 (monoInit D A b coef0)
  | step (s : MonoState n p ic) : MVisited inner D A b coef0 s → s.st.nIter < D.maxIter → s.st.converged = false →
      MVisited inner D A b coef0 (monoStep inner D A b s)

theorem monoLoop_visited (inner : Inner n p ic) (D : IRLSData n p ic) (A : Fin m → ℕ → ℝ) (b : Fin m → ℝ)
    (coef0 : Fin (p + ic.toNat) → ℝ) (fuel : ℕ) (s : MonoState n p ic) (h : MVisited inner D A b coef0 s) :
    MVisited inner D A b coef0 (monoLoop inner D A b fuel s) := by
  induction fuel generalizing s with
  | zero => exact h
  | succ k ih =>
    unfold monoLoop
    split
    · rename_i hc; exact ih _ (MVisited.step s h hc.1 hc.2)
    · exact h

/-- A step re-synchronises the cache even if the objective and score it starts from are stale. -/
theorem irlsStep_sync_eta (inner : Inner n p ic) (D : IRLSData n p ic) (hP : ∀ k, 0 ≤ D.P1 k) (st : IRLSState n p ic)
    (h : ∀ r, st.eta r = linPred ic D.X (off D) st.coef r) : Sync D (irlsStep inner D st) := by
  have hl := lineSearch_sync D hP
    { st with hs := updateHessian ic D.X D.P2 D.hessApprox st.hs (identifyActiveSet D st) } h
    (inner D { st with hs := updateHessian ic D.X D.P2 D.hessApprox st.hs (identifyActiveSet D st) }).1
  refine ⟨hl.1, hl.2.1, hl.2.2.1, ?_, fun r => rfl⟩
  intro k
  have := updateQuadratic_sync D _ _ _ hl.1 hl.2.1 k
  rw [← hl.2.2.2] at this
  exact this

/-- The `IRLSState` a pass starts from, after the flag handling. -/
noncomputable def monoStart (D : IRLSData n p ic) (A : Fin m → ℕ → ℝ) (b : Fin m → ℝ) (s : MonoState n p ic) : IRLSState n p ic :=
  if (updatePenalty D A b s.isBase s.st.coef (nextLam A b s.st.coef s.lam)).2.2 then
    { s.st with hs := { s.st.hs with init := false } } else s.st

theorem monoStart_coef (D : IRLSData n p ic) (A : Fin m → ℕ → ℝ) (b : Fin m → ℝ) (s : MonoState n p ic) :
    (monoStart D A b s).coef = s.st.coef ∧ (monoStart D A b s).eta = s.st.eta ∧ (monoStart D A b s).nIter = s.st.nIter ∧
    (monoStart D A b s).score = s.st.score ∧ (monoStart D A b s).obj = s.st.obj ∧
    (monoStart D A b s).maxSub = s.st.maxSub := by
  unfold monoStart; split <;> exact ⟨rfl, rfl, rfl, rfl, rfl, rfl⟩

theorem monoStep_st (inner : Inner n p ic) (D : IRLSData n p ic) (A : Fin m → ℕ → ℝ) (b : Fin m → ℝ) (s : MonoState n p ic) :
    let st' := irlsStep inner (D.withP2 (monoStep inner D A b s).P2) (monoStart D A b s)
    (monoStep inner D A b s).st = { st' with converged := (monoStep inner D A b s).st.converged } ∧
    ((monoStep inner D A b s).st.converged = true ↔ st'.converged = true ∧ ∀ r, violation ic A b st'.coef r ≤ 1 / 10 ^ 6) := by
  intro st'
  refine ⟨rfl, ?_⟩
  change (st'.converged && !_) = true ↔ _
  simp only [Bool.and_eq_true, Bool.not_eq_true', decide_eq_false_iff_not, not_exists, not_lt]
  exact Iff.rfl

/-- What holds of the cache in every state of a run: with `V` the rows the penalty was built from. -/
structure MInv (D : IRLSData n p ic) (A : Fin m → ℕ → ℝ) (V : Finset (Fin m)) (s : MonoState n p ic) : Prop where
  sync : Sync (D.withP2 s.P2) s.st
  pen : PenOf D A s.lam V s.P2
  base : s.isBase = true → s.P2 = D.P2
  hess : HInv ic D.X s.P2 s.st.hs

theorem monoStep_inv (inner : Inner n p ic) (D : IRLSData n p ic) (hP : ∀ k, 0 ≤ D.P1 k) (A : Fin m → ℕ → ℝ) (b : Fin m → ℝ)
    (hb : ∀ r, b r = 0) (V : Finset (Fin m)) (s : MonoState n p ic) (h : MInv D A V s) :
    MInv D A (violatedRows ic A s.st.coef) (monoStep inner D A b s) := by
  have hu := updatePenalty_spec D A b hb s.isBase s.st.coef (nextLam A b s.st.coef s.lam)
  have hs := irlsStep_sync_eta inner (D.withP2 (monoStep inner D A b s).P2) hP (monoStart D A b s) (by
    rw [(monoStart_coef D A b s).1, (monoStart_coef D A b s).2.1]; exact h.sync.eta)
  refine ⟨⟨hs.eta, hs.mu, hs.obj, hs.score, hs.rows⟩, hu.1, hu.2.1, ?_⟩
  refine hessIter_inv ic D.X (monoStep inner D A b s).P2 D.hessApprox (monoStart D A b s).hs ?_ _
    (activeSet_ok (D.withP2 (monoStep inner D A b s).P2) (monoStart D A b s)) _
  unfold monoStart
  split
  · intro e; simp at e
  · rename_i hf
    have := hu.2.2 (by simpa using hf)
    have e1 : (monoStep inner D A b s).P2 = s.P2 := by
      rw [h.base this.1]; exact this.2
    rw [e1]; exact h.hess

theorem monoInit_inv (D : IRLSData n p ic) (hP : ∀ k, 0 ≤ D.P1 k) (A : Fin m → ℕ → ℝ) (b : Fin m → ℝ)
    (hb : ∀ r, b r = 0) (coef0 : Fin (p + ic.toNat) → ℝ) :
    MInv D A (violatedRows ic A coef0) (monoInit D A b coef0) := by
  have hu := updatePenalty_spec D A b hb false coef0 (10 ^ 5)
  have hs := irlsInit_sync (D.withP2 (monoInit D A b coef0).P2) hP coef0
  exact ⟨⟨hs.eta, hs.mu, hs.obj, hs.score, hs.rows⟩, hu.1, hu.2.1, fun e => by simp [monoInit, irlsInit, hessInit] at e⟩

theorem mvisited_inv (inner : Inner n p ic) (D : IRLSData n p ic) (hP : ∀ k, 0 ≤ D.P1 k) (A : Fin m → ℕ → ℝ) (b : Fin m → ℝ)
    (hb : ∀ r, b r = 0) (coef0 : Fin (p + ic.toNat) → ℝ) (s : MonoState n p ic) (h : MVisited inner D A b coef0 s) :
    ∃ V, MInv D A V s := by
  induction h with
  | init => exact ⟨_, monoInit_inv D hP A b hb coef0⟩
  | step s _ _ _ ih => obtain ⟨V, hV⟩ := ih; exact ⟨_, monoStep_inv inner D hP A b hb V s hV⟩

/-! ### C59 -/

/-- **C59, rejected arguments.** The solver refuses exactly the calls with a non-zero entry in `b_ineq` (and, through an unrelated
exception, an empty constraint matrix). -/
theorem c59_rejects (inner : Inner n p ic) (D : IRLSData n p ic) (A : Fin m → ℕ → ℝ) (b : Fin m → ℝ)
    (coef0 : Fin (p + ic.toNat) → ℝ) :
    (monoSolve inner D A b coef0 = .error .notImplemented ↔ ∃ r, b r ≠ 0) ∧
    ((∃ res, monoSolve inner D A b coef0 = .ok res) ↔ (∀ r, b r = 0) ∧ 0 < m) := by
  classical
  unfold monoSolve
  by_cases h : ∃ r, b r ≠ 0
  · rw [if_pos h]
    refine ⟨by simp [h], ?_⟩
    constructor
    · rintro ⟨_, e⟩; simp at e
    · rintro ⟨h1, _⟩; obtain ⟨r, hr⟩ := h; exact absurd (h1 r) hr
  · rw [if_neg h]
    have hb : ∀ r, b r = 0 := fun r => by_contra fun e => h ⟨r, e⟩
    by_cases hm : m = 0
    · simp only [hm, if_true]
      refine ⟨⟨fun e => by simp at e, fun e => absurd e h⟩, ⟨fun ⟨_, e⟩ => by simp at e, fun e => absurd e.2 (by simp)⟩⟩
    · simp only [hm, if_false]
      refine ⟨⟨fun e => by simp at e, fun e => absurd e h⟩, ⟨fun _ => ⟨hb, by omega⟩, fun _ => ⟨_, rfl⟩⟩⟩

/-- Unfolding of a successful call. -/
theorem monoSolve_ok (inner : Inner n p ic) (D : IRLSData n p ic) (A : Fin m → ℕ → ℝ) (b : Fin m → ℝ)
    (coef0 : Fin (p + ic.toNat) → ℝ) (res : MonoResult n p ic) (h : monoSolve inner D A b coef0 = .ok res) :
    (∀ r, b r = 0) ∧ res.fin = monoLoop inner D A b D.maxIter (monoInit D A b coef0) ∧
    res.warnNotConverged = !res.fin.st.converged ∧
    (res.warnViolation = false ↔ ∀ r, lhs ic A res.fin.st.coef r ≤ 1 / 10 ^ 6) := by
  classical
  have hb := ((c59_rejects inner D A b coef0).2.mp ⟨res, h⟩)
  have hn : ¬ ∃ r, b r ≠ 0 := fun ⟨r, hr⟩ => hr (hb.1 r)
  unfold monoSolve at h
  rw [if_neg hn] at h
  simp only [] at h
  rw [if_neg (by omega)] at h
  injection h with h
  subst h
  refine ⟨hb.1, rfl, rfl, ?_⟩
  simp only [decide_eq_false_iff_not, not_exists, not_lt, violation_eq, hb.1, sub_zero]

theorem mono_converged_feasible (inner : Inner n p ic) (D : IRLSData n p ic) (A : Fin m → ℕ → ℝ) (b : Fin m → ℝ)
    (hb : ∀ r, b r = 0) (coef0 : Fin (p + ic.toNat) → ℝ) (s : MonoState n p ic) (h : MVisited inner D A b coef0 s)
    (hc : s.st.converged = true) : ∀ r, lhs ic A s.st.coef r ≤ 1 / 10 ^ 6 := by
  cases h with
  | init => simp [monoInit] at hc
  | step s _ _ _ =>
    intro r
    have := ((monoStep_st inner D A b s).2.mp hc).2 r
    rw [violation_eq, hb, sub_zero] at this
    exact this

/-- **C59.** Whenever the solver returns, for every data set, constraint matrix, start and number of iterations: without the
violation warning every entry of `A_ineq @ w` is at most `1e-6`, with it some entry is larger; and a run that reports
convergence (no convergence warning) satisfies the constraints to the same tolerance, so the violation warning never comes
alone. -/
theorem c59_no_warning_feasible (inner : Inner n p ic) (D : IRLSData n p ic) (A : Fin m → ℕ → ℝ) (b : Fin m → ℝ)
    (coef0 : Fin (p + ic.toNat) → ℝ) (res : MonoResult n p ic) (h : monoSolve inner D A b coef0 = .ok res) :
    (res.warnViolation = false ↔ ∀ r, lhs ic A res.fin.st.coef r ≤ 1 / 10 ^ 6) ∧
    (res.warnNotConverged = false → ∀ r, lhs ic A res.fin.st.coef r ≤ 1 / 10 ^ 6) ∧
    (res.warnViolation = true → res.warnNotConverged = true) := by
  obtain ⟨hb, hf, hw, hv⟩ := monoSolve_ok inner D A b coef0 res h
  have key : res.warnNotConverged = false → ∀ r, lhs ic A res.fin.st.coef r ≤ 1 / 10 ^ 6 := by
    intro hc
    have hvis := monoLoop_visited inner D A b coef0 D.maxIter _ MVisited.init
    rw [← hf] at hvis
    exact mono_converged_feasible inner D A b hb coef0 _ hvis (by rw [hw] at hc; simpa using hc)
  refine ⟨hv, key, ?_⟩
  intro h1
  by_contra h2
  have := hv.mpr (key (by simpa using h2))
  rw [h1] at this; simp at this

theorem mono_count (inner : Inner n p ic) (D : IRLSData n p ic) (A : Fin m → ℕ → ℝ) (b : Fin m → ℝ)
    (coef0 : Fin (p + ic.toNat) → ℝ) (s : MonoState n p ic) (h : MVisited inner D A b coef0 s) :
    s.st.nIter ≤ D.maxIter ∧ s.st.diagnostics.map Diag.nIter = (List.range (s.st.nIter + 1)).reverse := by
  induction h with
  | init => exact ⟨Nat.zero_le _, rfl⟩
  | step s _ hn _ ih =>
    have e1 : (monoStep inner D A b s).st.nIter = s.st.nIter + 1 := by
      change (monoStart D A b s).nIter + 1 = _
      rw [(monoStart_coef D A b s).2.2.1]
    have e2 : (monoStep inner D A b s).st.diagnostics.map Diag.nIter = (s.st.nIter + 1) :: s.st.diagnostics.map Diag.nIter := by
      change ((monoStart D A b s).nIter + 1) :: (monoStart D A b s).diagnostics.map Diag.nIter = _
      rw [(monoStart_coef D A b s).2.2.1]
      congr 2
      unfold monoStart; split <;> rfl
    rw [e1, e2, ih.2]
    refine ⟨hn, ?_⟩
    rw [List.range_succ (n := s.st.nIter + 1), List.reverse_append]; rfl

theorem monoLoop_stops (inner : Inner n p ic) (D : IRLSData n p ic) (A : Fin m → ℕ → ℝ) (b : Fin m → ℝ) (fuel : ℕ)
    (s : MonoState n p ic) (hf : D.maxIter ≤ s.st.nIter + fuel) :
    (monoLoop inner D A b fuel s).st.converged = true ∨ D.maxIter ≤ (monoLoop inner D A b fuel s).st.nIter := by
  induction fuel generalizing s with
  | zero => right; exact hf
  | succ k ih =>
    unfold monoLoop
    split
    · refine ih _ ?_
      have e1 : (monoStep inner D A b s).st.nIter = s.st.nIter + 1 := by
        change (monoStart D A b s).nIter + 1 = _
        rw [(monoStart_coef D A b s).2.2.1]
      rw [e1]; omega
    · rename_i h
      by_cases hc : s.st.converged = true
      · exact Or.inl hc
      · right
        by_contra hlt
        exact h ⟨by omega, by simpa using hc⟩

/-- The penalty weight stays within its documented range. -/
theorem mono_lam (inner : Inner n p ic) (D : IRLSData n p ic) (A : Fin m → ℕ → ℝ) (b : Fin m → ℝ)
    (coef0 : Fin (p + ic.toNat) → ℝ) (s : MonoState n p ic) (h : MVisited inner D A b coef0 s) :
    10 ^ 5 ≤ s.lam ∧ s.lam ≤ 10 ^ 9 := by
  classical
  induction h with
  | init => exact ⟨le_rfl, by simp only [monoInit]; norm_num⟩
  | step s _ _ _ ih =>
    change 10 ^ 5 ≤ nextLam A b s.st.coef s.lam ∧ nextLam A b s.st.coef s.lam ≤ 10 ^ 9
    unfold nextLam
    split
    · refine ⟨le_min (by linarith [ih.1]) (by norm_num), min_le_right _ _⟩
    · exact ih

/-- The stopping rule of a pass: the minimum-norm subgradient of the penalised problem is below the tolerance, or the step is. -/
theorem mono_stop (inner : Inner n p ic) (D : IRLSData n p ic) (hP : ∀ k, 0 ≤ D.P1 k) (A : Fin m → ℕ → ℝ) (b : Fin m → ℝ)
    (hb : ∀ r, b r = 0) (coef0 : Fin (p + ic.toNat) → ℝ) (s : MonoState n p ic) (h : MVisited inner D A b coef0 s) :
    let s' := monoStep inner D A b s
    s'.st.norm = (normMinSubgrad (List.finRange (p + ic.toNat)) s'.st.coef (fun i => -scoreAt (D.withP2 s'.P2) s'.st.coef i)
      D.P1 ic D.lb D.ub).1 ∧
    (s'.st.converged = true → s'.st.norm < D.gradTol ∨ ∃ t, D.stepTol = some t ∧ Real.sqrt (∑ k, s'.st.step k ^ 2) < t) := by
  intro s'
  obtain ⟨V, hV⟩ := mvisited_inv inner D hP A b hb coef0 s h
  have hi := monoStep_inv inner D hP A b hb V s hV
  have hn : s'.st.norm = (normMinSubgrad (List.finRange (p + ic.toNat)) s'.st.coef (fun i => -s'.st.score i) D.P1 ic D.lb D.ub).1 := rfl
  refine ⟨by rw [hn]; simp only [s', hi.sync.score], ?_⟩
  intro hc
  have h1 := ((monoStep_st inner D A b s).2.mp hc).1
  have h2 : (irlsStep inner (D.withP2 (monoStep inner D A b s).P2) (monoStart D A b s)).converged
      = (checkConvergence (D.withP2 (monoStep inner D A b s).P2) s'.st.coef s'.st.step s'.st.score).1 := rfl
  rw [h2] at h1
  unfold checkConvergence at h1
  simp only [Bool.or_eq_true, decide_eq_true_eq] at h1
  rcases h1 with h1 | h1
  · left; rw [hn]; exact h1
  · right
    change (match D.stepTol with | some t => decide (l2Norm s'.st.step < t) | none => false) = true at h1
    cases ht : D.stepTol with
    | none => rw [ht] at h1; simp at h1
    | some t => rw [ht] at h1; exact ⟨t, rfl, of_decide_eq_true h1⟩

/-- **C59, accounting.** At most `max_iter` iterations, recorded as `n_iter, …, 1, 0`; if convergence was not reported then exactly
`max_iter` were made; if it was, the last pass met the stopping rule. -/
theorem c59_accounting (inner : Inner n p ic) (D : IRLSData n p ic) (A : Fin m → ℕ → ℝ) (b : Fin m → ℝ)
    (coef0 : Fin (p + ic.toNat) → ℝ) (res : MonoResult n p ic) (h : monoSolve inner D A b coef0 = .ok res) :
    res.fin.st.nIter ≤ D.maxIter ∧
    res.fin.st.diagnostics.map Diag.nIter = (List.range (res.fin.st.nIter + 1)).reverse ∧
    (res.warnNotConverged = true → res.fin.st.nIter = D.maxIter) ∧
    (res.warnNotConverged = false → res.fin.st.norm < D.gradTol ∨
      ∃ t, D.stepTol = some t ∧ Real.sqrt (∑ k, res.fin.st.step k ^ 2) < t) := by
  obtain ⟨hb, hf, hw, hv⟩ := monoSolve_ok inner D A b coef0 res h
  have hvis := monoLoop_visited inner D A b coef0 D.maxIter _ MVisited.init
  have hcnt := mono_count inner D A b coef0 _ hvis
  rw [← hf] at hvis hcnt
  refine ⟨hcnt.1, hcnt.2, ?_, ?_⟩
  · intro hc
    rcases monoLoop_stops inner D A b D.maxIter (monoInit D A b coef0) (by omega) with h1 | h1
    · rw [← hf] at h1; rw [hw, h1] at hc; simp at hc
    · rw [← hf] at h1; exact le_antisymm hcnt.1 h1
  · intro hc
    have hc' : res.fin.st.converged = true := by rw [hw] at hc; simpa using hc
    generalize hg : res.fin = fin at *
    cases hvis with
    | init => simp [monoInit] at hc'
    | step s _ _ _ =>
      have h1 := ((monoStep_st inner D A b s).2.mp hc').1
      unfold irlsStep checkConvergence at h1
      simp only [Bool.or_eq_true, decide_eq_true_eq] at h1
      rcases h1 with h1 | h1
      · left; exact h1
      · right
        change (match D.stepTol with | some t => decide (l2Norm (monoStep inner D A b s).st.step < t) | none => false) = true at h1
        cases ht : D.stepTol with
        | none => rw [ht] at h1; simp at h1
        | some t => rw [ht] at h1; exact ⟨t, rfl, of_decide_eq_true h1⟩

/-- **C59, what is being minimised.** After every pass, the reported objective is the documented objective plus
`lam/2 ∑ (A_r·w)²` over the rows violated by the *previous* iterate, with `1e5 ≤ lam ≤ 1e9`; and without L1 penalty the score is
minus its gradient. -/
theorem c59_penalised_objective (inner : Inner n p ic) (D : IRLSData n p ic) (hP : ∀ k, D.P1 k = 0)
    (hsym : ∀ i j, p2Full (p := p) ic D.P2 i j = p2Full ic D.P2 j i) (A : Fin m → ℕ → ℝ) (b : Fin m → ℝ)
    (hb : ∀ r, b r = 0) (coef0 : Fin (p + ic.toNat) → ℝ) (s : MonoState n p ic) (h : MVisited inner D A b coef0 s)
    (hn : s.st.nIter < D.maxIter) (hc : s.st.converged = false) :
    let s' := monoStep inner D A b s
    10 ^ 5 ≤ s'.lam ∧ s'.lam ≤ 10 ^ 9 ∧
    s'.st.obj = penalised D A s'.lam (violatedRows ic A s.st.coef) s'.st.coef ∧
    ((∀ r, GradOK D r (linPred ic D.X (off D) s'.st.coef r)) → ∀ d : Fin (p + ic.toNat) → ℝ,
      HasDerivAt (fun t : ℝ => penalised D A s'.lam (violatedRows ic A s.st.coef) fun k => s'.st.coef k + t * d k)
        (-∑ k, s'.st.score k * d k) 0) := by
  intro s'
  have hP' : ∀ k, 0 ≤ D.P1 k := fun k => (hP k).ge
  obtain ⟨V, hV⟩ := mvisited_inv inner D hP' A b hb coef0 s h
  have hi := monoStep_inv inner D hP' A b hb V s hV
  have hl := mono_lam inner D A b coef0 _ (MVisited.step s h hn hc)
  refine ⟨hl.1, hl.2, ?_, ?_⟩
  · change (monoStep inner D A b s).st.obj = _
    rw [hi.sync.obj, ridge_pen D A _ _ _ hi.pen]
  · intro hfam d
    have hsym' : ∀ i j, p2Full (p := p) ic (D.withP2 s'.P2).P2 i j = p2Full ic (D.withP2 s'.P2).P2 j i := by
      classical
      intro i j
      have e1 := hi.pen (Pi.single i 1) (Pi.single j 1)
      have e2 := hi.pen (Pi.single j 1) (Pi.single i 1)
      have es : ∀ (Q : Pen2 ℝ) (x z : Fin (p + ic.toNat)), ∑ i, ∑ k, p2Full ic Q i k * (Pi.single x (1 : ℝ) : Fin (p + ic.toNat) → ℝ) i
          * (Pi.single z (1 : ℝ) : Fin (p + ic.toNat) → ℝ) k = p2Full ic Q x z := by
        intro Q x z
        simp [Pi.single_apply]
      rw [es, es] at e1 e2
      change p2Full ic (monoStep inner D A b s).P2 i j = p2Full ic (monoStep inner D A b s).P2 j i
      rw [e1, e2, hsym i j]
      congr 2
      apply Finset.sum_congr rfl; intro r _; ring
    have := c34_score_is_gradient (fun _ _ => (fun _ => 0, 0)) (D.withP2 s'.P2) hP' hsym' s'.st.coef _ Visited.init hfam d
    have hsc : ∀ k, (irlsInit (D.withP2 s'.P2) s'.st.coef).score k = s'.st.score k := by
      intro k
      rw [(irlsInit_sync (D.withP2 s'.P2) hP' s'.st.coef).score k, hi.sync.score k]
      rfl
    simp only [hsc] at this
    refine this.congr_of_eventuallyEq (Filter.Eventually.of_forall fun t => ?_)
    change penalised D A s'.lam _ _ = smoothObj (D.withP2 s'.P2) fun k => s'.st.coef k + t * d k
    rw [← ridge_pen D A _ _ _ hi.pen]
    unfold objective
    have : l1 ic (D.withP2 (monoStep inner D A b s).P2).P1 (fun k => s'.st.coef k + t * d k) = 0 := by
      unfold l1
      apply Finset.sum_eq_zero
      intro i _
      have : l1Weight ic D.P1 i = 0 := by
        by_cases h : i.val < ic.toNat
        · exact l1Weight_of_lt ic D.P1 i h
        · rw [l1Weight_of_ge ic D.P1 i h, hP]
      change l1Weight ic D.P1 i * _ = 0
      rw [this, zero_mul]
    rw [this, add_zero]

/-- **C59, the Hessian handed to the linear solve** is `X̃ᵀ diag(h) X̃` plus the penalty of *this* pass (never that of an earlier
one), on the active set. -/
theorem c59_hessian (inner : Inner n p ic) (D : IRLSData n p ic) (hP : ∀ k, 0 ≤ D.P1 k) (A : Fin m → ℕ → ℝ) (b : Fin m → ℝ)
    (hb : ∀ r, b r = 0) (coef0 : Fin (p + ic.toNat) → ℝ) (s : MonoState n p ic) (h : MVisited inner D A b coef0 s) :
    let P2 := (monoStep inner D A b s).P2
    let st0 := monoStart D A b s
    let hs := updateHessian ic D.X P2 D.hessApprox st0.hs (identifyActiveSet (D.withP2 P2) st0)
    (∀ i ∈ identifyActiveSet (D.withP2 P2) st0, ∀ j ∈ identifyActiveSet (D.withP2 P2) st0,
      hs.H i j = fullHessian ic D.X hs.rows P2 i j) ∧
    (monoStep inner D A b s).st.coef = (lineSearch (D.withP2 P2) { st0 with hs := hs } (inner (D.withP2 P2) { st0 with hs := hs }).1).coef ∧
    ∀ w d : Fin (p + ic.toNat) → ℝ, ∑ i, ∑ k, p2Full ic P2 i k * w i * d k
      = ∑ i, ∑ k, p2Full ic D.P2 i k * w i * d k
        + (monoStep inner D A b s).lam * ∑ r ∈ violatedRows ic A s.st.coef, lhs ic A w r * lhs ic A d r := by
  intro P2 st0 hs
  obtain ⟨V, hV⟩ := mvisited_inv inner D hP A b hb coef0 s h
  have hi := monoStep_inv inner D hP A b hb V s hV
  refine ⟨?_, rfl, hi.pen⟩
  refine updateHessian_block ic D.X P2 D.hessApprox st0.hs ?_ _ (activeSet_ok (D.withP2 P2) st0)
  have hu := updatePenalty_spec D A b hb s.isBase s.st.coef (nextLam A b s.st.coef s.lam)
  simp only [st0]
  unfold monoStart
  split
  · intro e; simp at e
  · rename_i hf
    have := hu.2.2 (by simpa using hf)
    have e1 : P2 = s.P2 := by
      rw [hV.base this.1]; exact this.2
    rw [e1]; exact hV.hess

/-! ### C69 -/

theorem objective_tangent (D : IRLSData n p ic) (hsym : ∀ i j, p2Full (p := p) ic D.P2 i j = p2Full ic D.P2 j i)
    (hpsd : PosSemidef (p2Full (p := p) ic D.P2))
    (hconv : ∀ r, ConvexOn ℝ Set.univ fun e => 1 / 2 * (D.sw r * D.fam.dev (D.y r) e)) (w v : Fin (p + ic.toNat) → ℝ)
    (hfam : ∀ r, GradOK D r (linPred ic D.X (off D) w r)) :
    objective D w + -(∑ k, scoreAt D w k * (v k - w k)) + l1 ic D.P1 v - l1 ic D.P1 w ≤ objective D v := by
  rw [score_dot]
  have hr := ridge_tangent D hsym hpsd w v
  have hrow : ∀ r, 1 / 2 * (D.sw r * D.fam.dev (D.y r) (linPred ic D.X (off D) w r))
      + -(D.fam.grad (D.y r) (D.sw r) (linPred ic D.X (off D) w r) (D.fam.inv (linPred ic D.X (off D) w r)))
        * (∑ k, design ic D.X r k * (v k - w k))
      ≤ 1 / 2 * (D.sw r * D.fam.dev (D.y r) (linPred ic D.X (off D) v r)) := by
    intro r
    have := convex_tangent (hconv r) (hfam r) (linPred ic D.X (off D) v r)
    have e : linPred ic D.X (off D) v r - linPred ic D.X (off D) w r = ∑ k, design ic D.X r k * (v k - w k) := by
      unfold linPred
      simp only [mul_sub, Finset.sum_sub_distrib]; ring
    rw [e] at this
    exact this
  have hsum := Finset.sum_le_sum fun r (_ : r ∈ (Finset.univ : Finset (Fin n))) => hrow r
  simp only [Finset.sum_add_distrib, neg_mul, Finset.sum_neg_distrib] at hsum
  unfold objective smoothObj
  rw [Finset.mul_sum, Finset.mul_sum]
  linarith

/-- **C69, certificate.** For convex rows and positive semidefinite P2, after every pass: compared with any point `v` within the
bounds, the *documented* (unpenalised) objective of the iterate `w` satisfies
`F w ≤ F v + norm·B + lam ∑_r (A_r·w)(A_r·v - A_r·w)`, the sum over the rows the previous iterate violated. -/
theorem c69_certificate (inner : Inner n p ic) (D : IRLSData n p ic) (hP : ∀ k, 0 ≤ D.P1 k)
    (hsym : ∀ i j, p2Full (p := p) ic D.P2 i j = p2Full ic D.P2 j i) (hpsd : PosSemidef (p2Full (p := p) ic D.P2))
    (hconv : ∀ r, ConvexOn ℝ Set.univ fun e => 1 / 2 * (D.sw r * D.fam.dev (D.y r) e))
    (A : Fin m → ℕ → ℝ) (b : Fin m → ℝ) (hb : ∀ r, b r = 0) (coef0 : Fin (p + ic.toNat) → ℝ)
    (s : MonoState n p ic) (h : MVisited inner D A b coef0 s) :
    let s' := monoStep inner D A b s
    (∀ r, GradOK D r (linPred ic D.X (off D) s'.st.coef r)) →
    ∀ v : Fin (p + ic.toNat) → ℝ, InBounds ic D.lb D.ub v → ∀ B : ℝ, (∀ i, |v i - s'.st.coef i| ≤ B) →
    objective D s'.st.coef ≤ objective D v + s'.st.norm * B
      + s'.lam * ∑ r ∈ violatedRows ic A s.st.coef, lhs ic A s'.st.coef r * (lhs ic A v r - lhs ic A s'.st.coef r) := by
  intro s' hfam v hv B hB
  obtain ⟨V, hV⟩ := mvisited_inv inner D hP A b hb coef0 s h
  have hi := monoStep_inv inner D hP A b hb V s hV
  have hstop := (mono_stop inner D hP A b hb coef0 s h).1
  have hcert := c23_certificate (id : Fin (p + ic.toNat) → Fin (p + ic.toNat)) strictMono_id s'.st.coef
    (fun i => -scoreAt (D.withP2 s'.P2) s'.st.coef i) D.P1 hP ic D.lb D.ub v hv (fun i hi => absurd ⟨i, rfl⟩ hi) B hB
  rw [List.map_id, ← hstop] at hcert
  simp only [id, neg_mul, Finset.sum_neg_distrib] at hcert
  have hsp := score_pen D A _ _ _ hi.pen s'.st.coef (fun k => v k - s'.st.coef k)
  have ht := objective_tangent D hsym hpsd hconv s'.st.coef v hfam
  have hl : ∀ r, lhs ic A (fun k => v k - s'.st.coef k) r = lhs ic A v r - lhs ic A s'.st.coef r := by
    intro r
    unfold lhs
    rw [← Finset.sum_sub_distrib]
    apply Finset.sum_congr rfl; intro j _; ring
  simp only [hl] at hsp
  change ∑ k, scoreAt (D.withP2 s'.P2) s'.st.coef k * (v k - s'.st.coef k)
    = _ - s'.lam * _ at hsp
  linarith

/-- **C69 (partial).** If the run reports convergence by the gradient rule (`step_size_tol = None`) and the rows penalised in the last
pass ended with the right sign (`A_r·w ≥ 0`; the multipliers are `lam·(A_r·w)`), the returned coefficients minimise the
documented objective over all `v` with `A_ineq v ≤ 0` (within the bounds) up to `gradient_tol·B`.  In particular this covers a previous
iterate without violations.  Missing: the solver does not check the sign, see `c69_wrong_sign_counterexample`. -/
theorem c69_optimal_partial (inner : Inner n p ic) (D : IRLSData n p ic) (hP : ∀ k, 0 ≤ D.P1 k)
    (hsym : ∀ i j, p2Full (p := p) ic D.P2 i j = p2Full ic D.P2 j i) (hpsd : PosSemidef (p2Full (p := p) ic D.P2))
    (hconv : ∀ r, ConvexOn ℝ Set.univ fun e => 1 / 2 * (D.sw r * D.fam.dev (D.y r) e)) (hst : D.stepTol = none)
    (A : Fin m → ℕ → ℝ) (b : Fin m → ℝ) (coef0 : Fin (p + ic.toNat) → ℝ) (res : MonoResult n p ic)
    (h : monoSolve inner D A b coef0 = .ok res) (hw : res.warnNotConverged = false)
    (hfam : ∀ r, GradOK D r (linPred ic D.X (off D) res.fin.st.coef r)) :
    ∃ prev : MonoState n p ic, MVisited inner D A b coef0 prev ∧ res.fin = monoStep inner D A b prev ∧
      ((∀ r ∈ violatedRows ic A prev.st.coef, 0 ≤ lhs ic A res.fin.st.coef r) →
        ∀ v : Fin (p + ic.toNat) → ℝ, InBounds ic D.lb D.ub v → (∀ r, lhs ic A v r ≤ 0) →
        ∀ B : ℝ, (∀ i, |v i - res.fin.st.coef i| ≤ B) → 0 ≤ B →
        objective D res.fin.st.coef ≤ objective D v + D.gradTol * B) := by
  obtain ⟨hb, hf, hwe, hv⟩ := monoSolve_ok inner D A b coef0 res h
  have hvis := monoLoop_visited inner D A b coef0 D.maxIter _ MVisited.init
  rw [← hf] at hvis
  have hc : res.fin.st.converged = true := by rw [hwe] at hw; simpa using hw
  generalize res.fin = fin at *
  cases hvis with
  | init => simp [monoInit] at hc
  | step s hs hn hcs =>
    refine ⟨s, hs, rfl, ?_⟩
    intro hsign v hvb hvA B hB hB0
    have hcert := c69_certificate inner D hP hsym hpsd hconv A b hb coef0 s hs hfam v hvb B hB
    have hst' := (mono_stop inner D hP A b hb coef0 s hs).2 hc
    have hnorm : (monoStep inner D A b s).st.norm < D.gradTol := by
      rcases hst' with h1 | ⟨t, ht, _⟩
      · exact h1
      · rw [hst] at ht; simp at ht
    have hl := (mono_lam inner D A b coef0 _ (MVisited.step s hs hn hcs)).1
    have hsum : ∑ r ∈ violatedRows ic A s.st.coef, lhs ic A (monoStep inner D A b s).st.coef r
        * (lhs ic A v r - lhs ic A (monoStep inner D A b s).st.coef r) ≤ 0 := by
      apply Finset.sum_nonpos
      intro r hr
      have h1 := hsign r hr
      have h2 := hvA r
      apply mul_nonpos_of_nonneg_of_nonpos h1
      linarith
    have h3 := mul_nonpos_of_nonneg_of_nonpos (by linarith : (0 : ℝ) ≤ (monoStep inner D A b s).lam) hsum
    have h4 := mul_le_mul_of_nonneg_right hnorm.le hB0
    linarith

/-- One observation `x = 1, y = y0`, normal family with identity link, no penalty, no intercept, default tolerance. -/
noncomputable def monoEx (y0 : ℝ) : IRLSData 1 1 false where
  X := fun _ _ => 1
  y := fun _ => y0
  sw := fun _ => 1
  P1 := fun _ => 0
  P2 := .vec fun _ => 0
  fam := normalRow
  maxIter := 100
  maxInnerIter := 10
  gradTol := 1 / 10 ^ 4
  stepTol := none
  hessApprox := 0
  fixedInnerTol := none
  random := false
  offset := none
  lb := none
  ub := none
  eps := 1 / 10 ^ 15
  large := 10 ^ 30

/-- The exact solution of the 1×1 system. -/
noncomputable def monoExSolve (H : Fin (1 + false.toNat) → Fin (1 + false.toNat) → ℝ) (s : Fin (1 + false.toNat) → ℝ) :
    Fin (1 + false.toNat) → ℝ := fun k => s k / H k k


/-- The starting value `1e-12`: it violates `w ≤ 0` by a hair. -/
noncomputable def monoExStart : Fin (1 + false.toNat) → ℝ := fun _ => 1 / 10 ^ 12

abbrev monoExA : Fin 1 → ℕ → ℝ := fun _ _ => 1
abbrev monoExB : Fin 1 → ℝ := fun _ => 0

theorem sum_one (f : Fin (1 + false.toNat) → ℝ) : ∑ k, f k = f ⟨0, by simp⟩ := Fin.sum_univ_one f

theorem monoEx_lhs (w : Fin (1 + false.toNat) → ℝ) (r : Fin 1) : lhs false monoExA w r = w ⟨0, by simp⟩ := by
  unfold lhs
  rw [Fin.sum_univ_one]
  simp [monoExA]

theorem monoEx_obj (y0 : ℝ) (w : Fin (1 + false.toNat) → ℝ) : objective (monoEx y0) w = 1 / 2 * (y0 - w ⟨0, by simp⟩) ^ 2 := by
  unfold objective smoothObj ridge l1 linPred off
  simp only [sum_one, Fin.sum_univ_one]
  simp [monoEx, normalRow, design, p2Full, p2Matrix, l1Weight]

theorem monoEx_score (y0 : ℝ) (w : Fin (1 + false.toNat) → ℝ) : scoreAt (monoEx y0) w ⟨0, by simp⟩ = y0 - w ⟨0, by simp⟩ := by
  unfold scoreAt linPred off
  simp only [sum_one, Fin.sum_univ_one]
  simp [monoEx, normalRow, design, p2Full, p2Matrix]

theorem monoEx_violated (w : Fin (1 + false.toNat) → ℝ) (h : 0 < w ⟨0, by simp⟩) : violatedRows false monoExA w = {0} := by
  classical
  ext r
  simp only [violatedRows, Finset.mem_filter, Finset.mem_univ, true_and, monoEx_lhs, h, Finset.mem_singleton]
  exact ⟨fun _ => Subsingleton.elim _ _, fun _ => trivial⟩

theorem monoEx_psym (y0 : ℝ) : (∀ i j, p2Full (p := 1) false (monoEx y0).P2 i j = p2Full false (monoEx y0).P2 j i) := by
  intro i j
  rw [Subsingleton.elim (α := Fin 1) i j]

theorem monoEx_first_pass (y0 : ℝ) (hy : y0 = 1 ∨ y0 = -1) :
    let s0 := monoInit (monoEx y0) monoExA monoExB monoExStart
    let s1 := monoStep (lsInner monoExSolve) (monoEx y0) monoExA monoExB s0
    s1.st.coef ⟨0, by simp⟩ = 1 / 10 ^ 12 + (y0 - 1 / 10 ^ 12 - 1 / 10 ^ 7) / (1 + 10 ^ 7) ∧
    s1.st.converged = true ∧ (∀ d ∈ s1.st.diagnostics, d.warned = false) ∧ s1.st.nIter = 1 := by
  intro s0 s1
  have hv0 : MVisited (lsInner monoExSolve) (monoEx y0) monoExA monoExB monoExStart s0 := MVisited.init
  have hb : ∀ r, monoExB r = 0 := fun _ => rfl
  have hP : ∀ k, 0 ≤ (monoEx y0).P1 k := fun _ => le_rfl
  have i0 := monoInit_inv (monoEx y0) hP monoExA monoExB hb monoExStart
  have hc0 : s0.st.coef = monoExStart := rfl
  have hV0 : violatedRows false monoExA monoExStart = {0} := monoEx_violated _ (by simp [monoExStart])
  rw [hV0] at i0
  have i1 := monoStep_inv (lsInner monoExSolve) (monoEx y0) hP monoExA monoExB hb _ s0 i0
  rw [hc0, hV0] at i1
  have hlam0 : s0.lam = 10 ^ 5 := rfl
  have hlam1 : s1.lam = 10 ^ 7 := by
    classical
    change nextLam monoExA monoExB s0.st.coef s0.lam = _
    unfold nextLam
    rw [if_pos ⟨0, by rw [violation_eq, monoEx_lhs, hc0]; simp [monoExStart, monoExB]⟩, hlam0]
    norm_num
  -- stale objective and score
  have ho0 : s0.st.obj = 1 / 2 * (y0 - 1 / 10 ^ 12) ^ 2 + 10 ^ 5 / 2 * (1 / 10 ^ 12) ^ 2 := by
    have h := i0.sync.obj
    rw [ridge_pen (monoEx y0) monoExA _ _ _ i0.pen] at h
    change s0.st.obj = _ at h
    rw [h]
    unfold penalised
    rw [monoEx_obj, Finset.sum_singleton, monoEx_lhs]
    rfl
  have hs0 : s0.st.score ⟨0, by simp⟩ = y0 - 1 / 10 ^ 12 - 1 / 10 ^ 7 := by
    have h := score_pen (monoEx y0) monoExA _ _ _ i0.pen monoExStart (fun _ => 1)
    rw [sum_one, sum_one, mul_one, mul_one, monoEx_score, Finset.sum_singleton, monoEx_lhs, monoEx_lhs] at h
    have h2 := i0.sync.score ⟨0, by simp⟩
    change s0.st.score _ = scoreAt _ monoExStart _ at h2
    rw [h2, h]
    change y0 - 1 / 10 ^ 12 - 10 ^ 5 * (1 / 10 ^ 12 * 1) = _
    norm_num
  -- the direction
  have hp2 : p2Full (p := 1) false s1.P2 ⟨0, by simp⟩ ⟨0, by simp⟩ = 10 ^ 7 := by
    have h := i1.pen (fun _ => 1) (fun _ => 1)
    rw [sum_one, sum_one, sum_one, sum_one, Finset.sum_singleton, monoEx_lhs] at h
    change p2Full (p := 1) false s1.P2 _ _ * 1 * 1 = _ at h
    rw [mul_one, mul_one] at h
    rw [h]
    change _ + s1.lam * (1 * 1) = _
    rw [hlam1]
    simp [p2Full, p2Matrix, monoEx]
  have hH := c59_hessian (lsInner monoExSolve) (monoEx y0) hP monoExA monoExB hb monoExStart s0 hv0
  set st0 := monoStart (monoEx y0) monoExA monoExB s0 with hst0
  set D1 := (monoEx y0).withP2 s1.P2 with hD1
  set hs := updateHessian false (monoEx y0).X s1.P2 (monoEx y0).hessApprox st0.hs (identifyActiveSet D1 st0) with hhs
  have hH1 := hH.1
  have hcoef := hH.2.1
  have hact : (⟨0, by simp⟩ : Fin (1 + false.toNat)) ∈ identifyActiveSet D1 st0 := by
    rw [mem_activeSet]
    right; left
    rw [(monoStart_coef (monoEx y0) monoExA monoExB s0).1, hc0]
    simp [monoExStart]
  have hinit : st0.hs.init = false := by
    rw [hst0]; unfold monoStart
    split <;> rfl
  have hrows : ∀ r, hs.rows r = 1 := by
    intro r
    have : hs.rows = st0.hs.rows := by
      rw [hhs]; unfold updateHessian
      rw [if_pos (Or.inl (by simp [hinit]))]
    rw [this]
    have : st0.hs.rows = s0.st.hs.rows := by rw [hst0]; unfold monoStart; split <;> rfl
    rw [this, i0.sync.rows]
    rfl
  have hH0 : hs.H ⟨0, by simp⟩ ⟨0, by simp⟩ = 1 + 10 ^ 7 := by
    have := hH1 _ hact _ hact
    change hs.H _ _ = fullHessian false (monoEx y0).X hs.rows s1.P2 _ _ at this
    rw [this]
    unfold fullHessian
    rw [Fin.sum_univ_one, hp2, hrows]
    simp [design, monoEx]
  set st1 : IRLSState 1 1 false := { st0 with hs := hs } with hst1
  have hd : (lsInner monoExSolve D1 st1).1 ⟨0, by simp⟩ = (y0 - 1 / 10 ^ 12 - 1 / 10 ^ 7) / (1 + 10 ^ 7) := by
    change st1.score _ / hs.H _ _ = _
    rw [hH0]
    congr 1
    rw [← hs0]
    exact congrFun (monoStart_coef (monoEx y0) monoExA monoExB s0).2.2.2.1 _
  -- the line search accepts the full step
  have hsp := lineSearch_spec D1 st1 (lsInner monoExSolve D1 st1).1
  have heta : ∀ r, st1.eta r = linPred false D1.X (off D1) st1.coef r := by
    intro r
    have e1 : st1.eta = s0.st.eta := (monoStart_coef (monoEx y0) monoExA monoExB s0).2.1
    have e2 : st1.coef = s0.st.coef := (monoStart_coef (monoEx y0) monoExA monoExB s0).1
    rw [e1, e2]; exact i0.sync.eta r
  have hcf : st1.coef = monoExStart := (monoStart_coef (monoEx y0) monoExA monoExB s0).1
  have hemo := etaMuObjective_sync D1 hP st1.eta (safeLinPred false D1.X (lsInner monoExSolve D1 st1).1 none) ((1 / 2) ^ 0)
    (fun c => st1.coef c + (1 / 2) ^ 0 * (lsInner monoExSolve D1 st1).1 c) (by
      intro i
      rw [c12_lin_pred, heta i, linPred_add]; rfl)
  have hok : lsOK D1 st1 (lsInner monoExSolve D1 st1).1 (armijoBound D1 st1 (lsInner monoExSolve D1 st1).1)
      (safeLinPred false D1.X (lsInner monoExSolve D1 st1).1 none) 0 := by
    unfold lsOK lsAccept lsTry
    left
    refine ⟨?_, ?_⟩
    · intro i
      rw [hemo.2.1 i]
      unfold linPred off
      rw [sum_one]
      simp only [hd, hcf]
      simp [D1, monoEx, IRLSData.withP2, normalRow, design, monoExStart]
      rcases hy with e | e <;> rw [e] <;> norm_num
    · rw [hemo.2.2.1, ridge_pen (monoEx y0) monoExA _ _ _ i1.pen]
      change penalised (monoEx y0) monoExA s1.lam _ _ - st1.obj ≤ _
      have hob : st1.obj = s0.st.obj := (monoStart_coef (monoEx y0) monoExA monoExB s0).2.2.2.2.1
      rw [hob, ho0, hlam1]
      unfold penalised armijoBound l1Norm
      rw [monoEx_obj, Finset.sum_singleton, monoEx_lhs, sum_one]
      have hsc : st1.score ⟨0, by simp⟩ = y0 - 1 / 10 ^ 12 - 1 / 10 ^ 7 := by
        rw [← hs0]; exact congrFun (monoStart_coef (monoEx y0) monoExA monoExB s0).2.2.2.1 _
      rw [hsc, hd, hcf]
      simp only [D1, IRLSData.withP2, monoEx, monoExStart]
      rcases hy with e | e <;> rw [e] <;> norm_num
  have hk : (lineSearch D1 st1 (lsInner monoExSolve D1 st1).1).k = 0 := by
    by_contra hne
    exact hsp.prev 0 le_rfl (by omega) hok
  have hw1 : s1.st.coef ⟨0, by simp⟩ = 1 / 10 ^ 12 + (y0 - 1 / 10 ^ 12 - 1 / 10 ^ 7) / (1 + 10 ^ 7) := by
    change s1.st.coef = _ at hcoef
    rw [hcoef, hsp.coef, hk]
    simp only [hd, hcf, monoExStart]
    ring
  have hwarn : (lineSearch D1 st1 (lsInner monoExSolve D1 st1).1).warned = false := hsp.accept.mpr (by rw [hk]; exact hok)
  have hnorm : s1.st.norm < 1 / 10 ^ 4 := by
    have hst := (mono_stop (lsInner monoExSolve) (monoEx y0) hP monoExA monoExB hb monoExStart s0 hv0).1
    change s1.st.norm = _ at hst
    rw [hst]
    have h := score_pen (monoEx y0) monoExA _ _ _ i1.pen s1.st.coef (fun _ => 1)
    rw [sum_one, sum_one, mul_one, mul_one, monoEx_score, Finset.sum_singleton, monoEx_lhs, monoEx_lhs] at h
    change scoreAt ((monoEx y0).withP2 s1.P2) s1.st.coef _ = _ - s1.lam * _ at h
    rw [hw1, hlam1] at h
    have hfr : List.finRange (1 + false.toNat) = [⟨0, by simp⟩] := rfl
    rw [hfr]
    unfold normMinSubgrad
    simp only [List.foldl_cons, List.foldl_nil]
    rw [if_neg (by simp)]
    simp only [zero_add]
    change |subgradTerm (s1.st.coef _) (-scoreAt ((monoEx y0).withP2 s1.P2) s1.st.coef _) 0 none none| < _
    rw [h]
    unfold subgradTerm
    simp only []
    rw [if_neg (by rw [hw1]; rcases hy with e | e <;> rw [e] <;> norm_num), mul_zero, add_zero, abs_lt]
    rcases hy with e | e <;> rw [e] <;> constructor <;> norm_num
  refine ⟨hw1, ?_, ?_, ?_⟩
  · refine (monoStep_st (lsInner monoExSolve) (monoEx y0) monoExA monoExB s0).2.mpr ⟨?_, ?_⟩
    · change (decide (s1.st.norm < (monoEx y0).gradTol) || _) = true
      rw [Bool.or_eq_true]
      left
      exact decide_eq_true hnorm
    · intro r
      rw [violation_eq, monoEx_lhs]
      change s1.st.coef _ - 0 ≤ _
      rw [hw1]
      rcases hy with e | e <;> rw [e] <;> norm_num
  · intro d hd'
    have : s1.st.diagnostics = ⟨st0.nIter + 1, s1.st.norm, s1.st.obj, (lineSearch D1 st1 (lsInner monoExSolve D1 st1).1).warned⟩
        :: st0.diagnostics := rfl
    rw [this, hwarn] at hd'
    have h0 : st0.diagnostics = s0.st.diagnostics := by rw [hst0]; unfold monoStart; split <;> rfl
    rw [h0] at hd'
    rcases List.mem_cons.mp hd' with e | e
    · rw [e]
    · have : s0.st.diagnostics = [⟨0, s0.st.norm, s0.st.obj, false⟩] := rfl
      rw [this, List.mem_singleton] at e
      rw [e]
  · change st0.nIter + 1 = 1
    rw [(monoStart_coef (monoEx y0) monoExA monoExB s0).2.2.1]
    rfl

/-- **C69 fails in general.** One observation `x = 1, y = -1` (normal, identity, unpenalised), constraint `w ≤ 0`, start `1e-12`,
default tolerance: the solver stops after one iteration without any warning at `w ≈ -1e-7` and objective about `1/2`, while the
feasible point `w = -1` has objective `0`.  (The row violated by the start is penalised on both sides of zero, and the
loop ends before the row is released.)  The linear solve is exact. -/
theorem c69_wrong_sign_counterexample :
    ∃ res, monoSolve (lsInner monoExSolve) (monoEx (-1)) monoExA monoExB monoExStart = .ok res ∧
      res.warnNotConverged = false ∧ res.warnViolation = false ∧ res.fin.st.nIter = 1 ∧
      (∀ d ∈ res.fin.st.diagnostics, d.warned = false) ∧
      49 / 100 ≤ objective (monoEx (-1)) res.fin.st.coef ∧
      (∀ r, lhs false monoExA (fun _ : Fin (1 + false.toNat) => (-1 : ℝ)) r ≤ 0) ∧
      objective (monoEx (-1)) (fun _ => -1) = 0 := by
  obtain ⟨h1, h2, h3, h4⟩ := monoEx_first_pass (-1) (Or.inr rfl)
  obtain ⟨res, hres⟩ := (c59_rejects (lsInner monoExSolve) (monoEx (-1)) monoExA monoExB monoExStart).2.mpr ⟨fun _ => rfl, by omega⟩
  have hok := monoSolve_ok _ _ _ _ _ res hres
  have hfin : res.fin = monoStep (lsInner monoExSolve) (monoEx (-1)) monoExA monoExB (monoInit (monoEx (-1)) monoExA monoExB monoExStart) := by
    rw [hok.2.1]
    change monoLoop _ _ _ _ (98 + 1 + 1) _ = _
    conv_lhs => unfold monoLoop
    rw [if_pos ⟨by change 0 < 100; omega, rfl⟩]
    conv_lhs => unfold monoLoop
    rw [if_neg (by rw [h2]; simp)]
  have hw : res.warnNotConverged = false := by rw [hok.2.2.1, hfin, h2]; rfl
  refine ⟨res, hres, hw, ?_, ?_, ?_, ?_, ?_, ?_⟩
  · exact (hok.2.2.2).mpr ((c59_no_warning_feasible _ _ _ _ _ res hres).2.1 hw)
  · rw [hfin]; exact h4
  · rw [hfin]; exact h3
  · rw [monoEx_obj, hfin, h1]; norm_num
  · intro r; rw [monoEx_lhs]; norm_num
  · rw [monoEx_obj]; norm_num

theorem monoExSolve_exact (H : Fin (1 + false.toNat) → Fin (1 + false.toNat) → ℝ) (s : Fin (1 + false.toNat) → ℝ)
    (k : Fin (1 + false.toNat)) (h : H k k ≠ 0) : ∑ j, H k j * monoExSolve H s j = s k := by
  rw [sum_one]
  have hk : k = ⟨0, by simp⟩ := Subsingleton.elim (α := Fin 1) _ _
  rw [hk] at h ⊢
  unfold monoExSolve
  field_simp

-- the positive theorems apply to the same data from a feasible start
theorem monoEx_grad (y0 : ℝ) (r : Fin 1) (eta : ℝ) : GradOK (monoEx y0) r eta := by
  unfold GradOK
  have h := ((((hasDerivAt_id eta).const_sub ((monoEx y0).y r)).pow 2).const_mul ((monoEx y0).sw r)).const_mul (1 / 2 : ℝ)
  refine h.congr_deriv ?_
  simp [monoEx, normalRow]

theorem monoEx_convex (y0 : ℝ) (r : Fin 1) : ConvexOn ℝ Set.univ fun e => 1 / 2 * ((monoEx y0).sw r * (monoEx y0).fam.dev ((monoEx y0).y r) e) := by
  refine ⟨convex_univ, ?_⟩
  intro x _ y _ a b ha hb hab
  have hb' : b = 1 - a := by linarith
  subst hb'
  simp only [smul_eq_mul]
  change 1 / 2 * (1 * (y0 - (a * x + (1 - a) * y)) ^ 2) ≤
    a * (1 / 2 * (1 * (y0 - x) ^ 2)) + (1 - a) * (1 / 2 * (1 * (y0 - y) ^ 2))
  have : 0 ≤ a * (1 - a) * (x - y) ^ 2 := mul_nonneg (mul_nonneg ha hb) (sq_nonneg _)
  nlinarith

theorem monoEx_psd (y0 : ℝ) : PosSemidef (p2Full (p := 1) false (monoEx y0).P2) := by
  intro v
  rw [sum_one, sum_one]
  simp [p2Full, p2Matrix, monoEx]

-- `y = 1`, where the constraint does bind: the run converges with the right sign, so the result is near-optimal
example : ∃ res, monoSolve (lsInner monoExSolve) (monoEx 1) monoExA monoExB monoExStart = .ok res ∧ res.warnNotConverged = false ∧
    ∀ v : Fin (1 + false.toNat) → ℝ, (∀ r, lhs false monoExA v r ≤ 0) → ∀ B : ℝ, (∀ i, |v i - res.fin.st.coef i| ≤ B) → 0 ≤ B →
      objective (monoEx 1) res.fin.st.coef ≤ objective (monoEx 1) v + 1 / 10 ^ 4 * B := by
  obtain ⟨h1, h2, h3, h4⟩ := monoEx_first_pass 1 (Or.inl rfl)
  obtain ⟨res, hres⟩ := (c59_rejects (lsInner monoExSolve) (monoEx 1) monoExA monoExB monoExStart).2.mpr ⟨fun _ => rfl, by omega⟩
  have hok := monoSolve_ok _ _ _ _ _ res hres
  have hfin : res.fin = monoStep (lsInner monoExSolve) (monoEx 1) monoExA monoExB (monoInit (monoEx 1) monoExA monoExB monoExStart) := by
    rw [hok.2.1]
    change monoLoop _ _ _ _ (98 + 1 + 1) _ = _
    conv_lhs => unfold monoLoop
    rw [if_pos ⟨by change 0 < 100; omega, rfl⟩]
    conv_lhs => unfold monoLoop
    rw [if_neg (by rw [h2]; simp)]
  have hw : res.warnNotConverged = false := by rw [hok.2.2.1, hfin, h2]; rfl
  obtain ⟨prev, _, _, hp⟩ := c69_optimal_partial (lsInner monoExSolve) (monoEx 1) (fun _ => le_rfl) (monoEx_psym 1) (monoEx_psd 1)
    (monoEx_convex 1) rfl monoExA monoExB monoExStart res hres hw (fun r => monoEx_grad 1 r _)
  refine ⟨res, hres, hw, fun v hv B hB hB0 => hp ?_ v ?_ hv B hB hB0⟩
  · intro r _
    rw [monoEx_lhs, hfin, h1]; norm_num
  · intro i k _
    exact ⟨fun l hl => by simp [monoEx] at hl, fun u hu => by simp [monoEx] at hu⟩

end Glum
