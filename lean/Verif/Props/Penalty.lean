import Verif.Model.Penalty
import Verif.Props.Standardize
/-
C36, C37: symmetrisation of P2 and the elastic-net split.
-/
set_option linter.unusedSectionVars false
set_option linter.unusedVariables false

namespace Glum
open Spec

/-- The L1 weights a user's `P1` argument stands for (`None` and "identity": all ones). -/
def Spec.userP1 : P1Arg → ℕ → ℝ
  | .vec _ v, j => v j
  | _, _ => 1

/-- The L2 matrix a user's `P2` argument stands for (`None` and "identity": the identity, a vector: a diagonal matrix). -/
def Spec.userP2 : P2Arg → ℕ → ℕ → ℝ
  | .vec _ v, j, k => if j = k then v j else 0
  | .dense _ _ m, j, k => m j k
  | .sparse _ _ m, j, k => ((m.filter fun e => e.1 = j ∧ e.2.1 = k).map fun e => e.2.2).sum
  | _, j, k => if j = k then 1 else 0

theorem sum_filter_map {α : Type*} (l : List α) (q : α → Prop) [DecidablePred q] (f : α → ℝ) :
    ((l.filter fun e => decide (q e)).map f).sum = (l.map fun e => if q e then f e else 0).sum := by
  induction l with
  | nil => simp
  | cons a l ih =>
    rw [List.filter_cons]
    by_cases h : q a
    · simp [h, ih]
    · simp [h, ih]

theorem toArray_eq (M : SparseMat ℝ) (j k : ℕ) :
    M.toArray j k = (M.map fun e => if e.1 = j ∧ e.2.1 = k then e.2.2 else 0).sum := by
  unfold SparseMat.toArray
  exact sum_filter_map M (fun e => e.1 = j ∧ e.2.1 = k) _

theorem smul_entry (a : ℝ) (P2 : Pen2 ℝ) (j k : ℕ) : p2Matrix (P2.smul a) j k = a * p2Matrix P2 j k := by
  cases P2 with
  | vec v => simp only [Pen2.smul, p2Matrix]; split <;> ring
  | dense m => rfl
  | sparse m =>
    simp only [Pen2.smul, p2Matrix, toArray_eq, List.map_map]
    rw [← List.sum_map_mul_left]
    congr 1
    apply List.map_congr_left
    intro e _
    simp only [Function.comp]
    split <;> ring

theorem symmetrise_entry (P2 : Pen2 ℝ) (j k : ℕ) :
    p2Matrix P2.symmetrise j k = 1 / 2 * (p2Matrix P2 j k + p2Matrix P2 k j) := by
  cases P2 with
  | vec v =>
    simp only [Pen2.symmetrise, p2Matrix]
    by_cases h : j = k
    · subst h; simp; ring
    · rw [if_neg h, if_neg (Ne.symm h)]; ring
  | dense m => rfl
  | sparse m =>
    simp only [Pen2.symmetrise, p2Matrix, toArray_eq, List.map_append, List.map_map, List.sum_append, mul_add]
    congr 1
    · rw [← List.sum_map_mul_left]
      congr 1
      apply List.map_congr_left
      intro e _
      simp only [Function.comp]
      split <;> ring
    · rw [← List.sum_map_mul_left]
      congr 1
      apply List.map_congr_left
      intro e _
      simp only [Function.comp]
      by_cases h : e.2.1 = j ∧ e.1 = k
      · rw [if_pos h, if_pos ⟨h.2, h.1⟩]
      · rw [if_neg h, if_neg (fun h' => h ⟨h'.2, h'.1⟩)]; ring

theorem sum_ite_range (p : ℕ) (f : ℕ → ℝ) (j : ℕ) (hj : j < p) :
    ((List.range p).map fun x => if x = j then f x else 0).sum = f j := by
  have : ((List.range p).map fun x => if x = j then f x else 0).sum = ∑ x ∈ Finset.range p, if x = j then f x else 0 := by
    rw [Finset.sum_eq_multiset_sum]
    simp [Finset.range, Multiset.range]
  rw [this, Finset.sum_ite_eq' (Finset.range p) j f, if_pos (Finset.mem_range.2 hj)]

theorem sparseDiag_entry (p : ℕ) (v : ℕ → ℝ) (j k : ℕ) (hj : j < p) :
    (sparseDiag p v).toArray j k = if j = k then v j else 0 := by
  classical
  rw [toArray_eq]
  unfold sparseDiag
  rw [List.map_map, sum_filter_map (List.range p) (fun j => v j ≠ 0)]
  by_cases h : j = k
  · subst h
    rw [if_pos rfl, ← sum_ite_range p v j hj]
    congr 1
    apply List.map_congr_left
    intro x _
    simp only [Function.comp, and_self]
    by_cases hv : v x = 0
    · simp [hv]
    · simp [hv]
  · rw [if_neg h]
    apply List.sum_eq_zero
    intro x hx
    rw [List.mem_map] at hx
    obtain ⟨e, _, rfl⟩ := hx
    simp only [Function.comp]
    rw [if_neg (fun h' : e = j ∧ e = k => h (h'.1.symm.trans h'.2))]
    simp

theorem sparseOfDense_entry (p : ℕ) (m : ℕ → ℕ → ℝ) (j k : ℕ) (hj : j < p) (hk : k < p) :
    (sparseOfDense p m).toArray j k = m j k := by
  classical
  rw [toArray_eq]
  unfold sparseOfDense
  rw [sum_filter_map _ (fun e : ℕ × ℕ × ℝ => e.2.2 ≠ 0)]
  have h1 : ∀ e : ℕ × ℕ × ℝ, (if e.2.2 ≠ 0 then (if e.1 = j ∧ e.2.1 = k then e.2.2 else 0) else 0)
      = if e.1 = j ∧ e.2.1 = k then e.2.2 else 0 := by
    intro e
    by_cases h : e.2.2 = 0
    · simp [h]
    · simp [h]
  simp only [h1]
  rw [List.map_flatMap, List.flatMap_def, List.sum_flatten, List.map_map]
  rw [← sum_ite_range p (fun k' => m j k') k hk]
  congr 1
  apply List.map_congr_left
  intro k' _
  simp only [Function.comp, List.map_map]
  by_cases h : k' = k
  · rw [if_pos h]
    rw [← sum_ite_range p (fun j' => m j' k') j hj]
    congr 1
    apply List.map_congr_left
    intro j' _
    simp [h]
  · rw [if_neg h]
    apply List.sum_eq_zero
    intro x hx
    rw [List.mem_map] at hx
    obtain ⟨e, _, rfl⟩ := hx
    simp [h]

theorem setupP2Base_entry (p : ℕ) (xsp : Bool) (a : P2Arg) (P2 : Pen2 ℝ) (h : setupP2Base p xsp a = some P2)
    (j k : ℕ) (hj : j < p) (hk : k < p) : p2Matrix P2 j k = userP2 a j k := by
  cases a with
  | str s =>
    simp only [setupP2Base] at h
    split at h
    · simp only [Option.some.injEq] at h
      subst h
      cases xsp with
      | true => exact sparseDiag_entry p _ j k hj
      | false => rfl
    · simp at h
  | none =>
    simp only [setupP2Base, Option.some.injEq] at h
    subst h
    cases xsp with
    | true => exact sparseDiag_entry p _ j k hj
    | false => rfl
  | vec len v =>
    simp only [setupP2Base] at h
    split at h
    · simp only [Option.some.injEq] at h
      subst h
      cases xsp with
      | true => exact sparseDiag_entry p _ j k hj
      | false => rfl
    · simp at h
  | dense r c m =>
    simp only [setupP2Base] at h
    split at h
    · simp only [Option.some.injEq] at h
      subst h
      cases xsp with
      | true => exact sparseOfDense_entry p m j k hj hk
      | false => rfl
    · simp at h
  | sparse r c m =>
    simp only [setupP2Base] at h
    split at h
    · simp only [Option.some.injEq] at h
      subst h; rfl
    · simp at h

/-- **C36.** The L2 penalty set up from any accepted `P2` argument is symmetric and, for every coefficient vector `w`, has the same value
`½ wᵀ P2 w` and the same derivative in every direction `d` as the (unsymmetrised) matrix the user passed, scaled by
`alpha (1 - l1_ratio)`. -/
theorem c36_symmetrisation (p : ℕ) (xsp : Bool) (alpha l1 : ℝ) (a : P2Arg) (P2 : Pen2 ℝ)
    (h : setupP2 p xsp alpha l1 a = some P2) (w d : Fin p → ℝ) :
    (∀ j k : Fin p, p2Matrix P2 j k = p2Matrix P2 k j) ∧
    1 / 2 * ∑ j : Fin p, ∑ k : Fin p, p2Matrix P2 j k * w j * w k
      = alpha * (1 - l1) * (1 / 2 * ∑ j : Fin p, ∑ k : Fin p, userP2 a j k * w j * w k) ∧
    HasDerivAt (fun t : ℝ => alpha * (1 - l1) * (1 / 2 * ∑ j : Fin p, ∑ k : Fin p, userP2 a j k * (w j + t * d j) * (w k + t * d k)))
      (∑ j : Fin p, (∑ k : Fin p, p2Matrix P2 j k * w k) * d j) 0 := by
  unfold setupP2 at h
  cases hb : setupP2Base p xsp a with
  | none => rw [hb] at h; simp at h
  | some B =>
    rw [hb] at h
    simp only [Option.map_some, Option.some.injEq] at h
    have he : ∀ j k : Fin p, p2Matrix P2 j k = alpha * (1 - l1) * (1 / 2 * (userP2 a j k + userP2 a k j)) := by
      intro j k
      rw [← h, symmetrise_entry, smul_entry, smul_entry, setupP2Base_entry p xsp a B hb j k j.2 k.2,
        setupP2Base_entry p xsp a B hb k j k.2 j.2]
      ring
    have hval : ∀ u v : Fin p → ℝ, ∑ j : Fin p, ∑ k : Fin p, p2Matrix P2 j k * u j * v k
        = alpha * (1 - l1) * (1 / 2 * (∑ j : Fin p, ∑ k : Fin p, userP2 a j k * u j * v k
            + ∑ j : Fin p, ∑ k : Fin p, userP2 a j k * v j * u k)) := by
      intro u v
      rw [show ∑ j : Fin p, ∑ k : Fin p, userP2 a j k * v j * u k = ∑ j : Fin p, ∑ k : Fin p, userP2 a k j * u j * v k by
        rw [Finset.sum_comm]
        apply Finset.sum_congr rfl; intro j _; apply Finset.sum_congr rfl; intro k _; ring]
      simp only [Finset.mul_sum, ← Finset.sum_add_distrib]
      apply Finset.sum_congr rfl; intro j _; apply Finset.sum_congr rfl; intro k _
      rw [he]; ring
    refine ⟨fun j k => by rw [he, he]; ring, by rw [hval]; ring, ?_⟩
    have hpoly : (fun t : ℝ => alpha * (1 - l1) * (1 / 2 * ∑ j : Fin p, ∑ k : Fin p, userP2 a j k * (w j + t * d j) * (w k + t * d k)))
        = fun t => alpha * (1 - l1) * (1 / 2 * ∑ j : Fin p, ∑ k : Fin p, userP2 a j k * w j * w k)
          + t * (∑ j : Fin p, (∑ k : Fin p, p2Matrix P2 j k * w k) * d j)
          + t ^ 2 * (alpha * (1 - l1) * (1 / 2 * ∑ j : Fin p, ∑ k : Fin p, userP2 a j k * d j * d k)) := by
      funext t
      have e1 : ∑ j : Fin p, (∑ k : Fin p, p2Matrix P2 j k * w k) * d j = ∑ j : Fin p, ∑ k : Fin p, p2Matrix P2 j k * d j * w k := by
        apply Finset.sum_congr rfl; intro j _
        rw [Finset.sum_mul]
        apply Finset.sum_congr rfl; intro k _; ring
      rw [e1, hval]
      simp only [Finset.mul_sum, ← Finset.sum_add_distrib]
      apply Finset.sum_congr rfl; intro j _; apply Finset.sum_congr rfl; intro k _
      ring
    rw [hpoly]
    have := (((hasDerivAt_id (0 : ℝ)).mul_const (∑ j : Fin p, (∑ k : Fin p, p2Matrix P2 j k * w k) * d j)).const_add
      (alpha * (1 - l1) * (1 / 2 * ∑ j : Fin p, ∑ k : Fin p, userP2 a j k * w j * w k))).add
      ((hasDerivAt_pow 2 (0 : ℝ)).mul_const (alpha * (1 - l1) * (1 / 2 * ∑ j : Fin p, ∑ k : Fin p, userP2 a j k * d j * d k)))
    refine this.congr_deriv ?_
    simp

/-- **C37.** Whatever the arguments, if the set-up does not raise then the penalties of every call of the solver for a given alpha are
`alpha · l1_ratio · P1` and `alpha · (1 - l1_ratio) · (P2 + P2ᵀ)/2`, each factor once, on the scale of the standardised columns
(`s_j` = 1 over the column deviation, or 1 with `scale_predictors`). -/
theorem c37_elastic_net (n p : ℕ) (xsp : Bool) (thr : ℝ) (center asIf : Bool) (means stds : ℕ → ℝ) (X : Fin n → ℕ → ℝ)
    (l1 : ℝ) (a1 : P1Arg) (a2 : P2Arg) (alpha : ℝ) (r : (ℕ → ℝ) × Pen2 ℝ)
    (h : solverPenalties n p xsp thr center asIf means stds X l1 a1 a2 alpha = some r) (s : ℕ → ℝ)
    (hs : ∀ j, s j = if asIf then 1 else oneOverStd thr 1 (stds j)) (j k : ℕ) (hj : j < p) (hk : k < p) :
    r.1 j = alpha * l1 * userP1 a1 j * s j ∧
    p2Matrix r.2 j k = alpha * (1 - l1) * ((userP2 a2 j k + userP2 a2 k j) / 2) * (s j * s k) := by
  unfold solverPenalties at h
  cases h1 : setupP1 p 1 l1 a1 with
  | none => rw [h1] at h; simp at h
  | some P1 =>
    cases h2 : setupP2 p xsp 1 l1 a2 with
    | none => rw [h1, h2] at h; simp at h
    | some P2 =>
      rw [h1, h2] at h
      simp only [Option.bind_eq_bind, Option.bind_some, Option.some.injEq] at h
      have hP1 : P1 j = l1 * userP1 a1 j := by
        cases a1 with
        | str t =>
          simp only [setupP1] at h1
          split at h1
          · simp only [Option.some.injEq] at h1; rw [← h1]; simp [userP1]
          · simp at h1
        | none =>
          simp only [setupP1, Option.some.injEq] at h1; rw [← h1]; simp [userP1]
        | vec len v =>
          simp only [setupP1] at h1
          split at h1
          · simp only [Option.some.injEq] at h1; rw [← h1]; simp [userP1]
          · simp at h1
      have hP2 : p2Matrix P2 j k = (1 - l1) * (1 / 2 * (userP2 a2 j k + userP2 a2 k j)) := by
        unfold setupP2 at h2
        cases hb : setupP2Base p xsp a2 with
        | none => rw [hb] at h2; simp at h2
        | some B =>
          rw [hb] at h2
          simp only [Option.map_some, Option.some.injEq] at h2
          rw [← h2, symmetrise_entry, smul_entry, smul_entry, setupP2Base_entry p xsp a2 B hb j k hj hk,
            setupP2Base_entry p xsp a2 B hb k j hk hj]
          ring
      rw [← h]
      simp only [standardize]
      cases asIf with
      | true =>
        simp only [if_true]
        simp only [if_true] at hs
        rw [smul_entry, hP1, hP2, hs, hs]
        constructor <;> ring
      | false =>
        simp only [Bool.false_eq_true, if_false]
        simp only [Bool.false_eq_true, if_false] at hs
        rw [smul_entry, scaleP2_entry, hP1, hP2, hs, hs]
        constructor <;> ring

/-- The set-up raises exactly for an unknown string or a wrong shape (C37: no silent broadcasting of a mis-shaped penalty). -/
theorem c37_rejects (p : ℕ) (xsp : Bool) (alpha l1 : ℝ) (a1 : P1Arg) (a2 : P2Arg) :
    (setupP1 p alpha l1 a1 = none ↔ (∃ s, a1 = .str s ∧ s ≠ "identity") ∨ (∃ len v, a1 = .vec len v ∧ len ≠ p)) ∧
    (setupP2 p xsp alpha l1 a2 = none ↔ (∃ s, a2 = .str s ∧ s ≠ "identity") ∨ (∃ len v, a2 = .vec len v ∧ len ≠ p) ∨
      (∃ r c m, a2 = .dense r c m ∧ ¬ (r = p ∧ c = p)) ∨ (∃ r c m, a2 = .sparse r c m ∧ ¬ (r = p ∧ c = p))) := by
  constructor
  · cases a1 <;> simp [setupP1]
  · unfold setupP2
    rw [Option.map_eq_none_iff]
    cases a2 with
    | str s => simp [setupP2Base]
    | none => simp [setupP2Base]
    | vec len v => simp [setupP2Base]
    | dense r c m =>
      simp only [setupP2Base]
      simp
      constructor
      · intro h h1 h2; exact h (h1.trans h2.symm) h1
      · intro h h1 h2; exact h h2 (h1.symm.trans h2)
    | sparse r c m =>
      simp only [setupP2Base]
      simp
      constructor
      · intro h h1 h2; exact h (h1.trans h2.symm) h1
      · intro h h1 h2; exact h h2 (h1.symm.trans h2)

-- Non-vacuity: a non-symmetric sparse matrix is accepted, and its symmetrised off-diagonal entry is the mean of the two.
example : ∃ P2, setupP2 2 true 3 (1 / 4) (.sparse 2 2 [(0, 0, 1), (0, 1, 2), (1, 1, 5)]) = some P2 ∧ p2Matrix P2 1 0 = 3 * (3 / 4) * 1 := by
  refine ⟨_, rfl, ?_⟩
  rw [symmetrise_entry, smul_entry, smul_entry]
  simp [p2Matrix, SparseMat.toArray]
  norm_num

example : (solverPenalties 2 2 false (1 / 1000) true false (fun _ => 0) (fun _ => 2) (fun _ _ => 0) (1 / 2) (.vec 2 fun _ => 1) .none 3).isSome := by
  simp [solverPenalties, setupP1, setupP2, setupP2Base]

end Glum
