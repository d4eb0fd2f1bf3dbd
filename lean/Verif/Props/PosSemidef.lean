import Mathlib.Analysis.Matrix.PosDef
import Verif.Model.PosSemidef
import Verif.Props.Refit
/-
C82: the check of `P2`.
-/
set_option linter.unusedSectionVars false
set_option linter.unusedVariables false
set_option linter.unusedSimpArgs false

namespace Glum
open Spec

variable {n p : ℕ} {ic : Bool}

/-- The quadratic form of a matrix. -/
def Spec.ridgeForm (p : ℕ) (m : ℕ → ℕ → ℝ) (v : Fin p → ℝ) : ℝ := ∑ j : Fin p, ∑ k : Fin p, m j k * v j * v k

theorem eig_form (M : Fin p → Fin p → ℝ) (hM : ∀ j k, M j k = M k j) (c : ℝ) :
    (∀ (lam : ℝ) (v : Fin p → ℝ), v ≠ 0 → (∀ j, ∑ k, M j k * v k = lam * v j) → c ≤ lam) ↔
      ∀ v : Fin p → ℝ, c * ∑ j, v j ^ 2 ≤ ∑ j, ∑ k, M j k * v j * v k := by
  have hq : ∀ v : Fin p → ℝ, ∑ j, ∑ k, M j k * v j * v k = ∑ j, v j * ∑ k, M j k * v k := fun v =>
    Finset.sum_congr rfl fun j _ => by rw [Finset.mul_sum]; exact Finset.sum_congr rfl fun k _ => by ring
  constructor
  · intro h v
    set A : Matrix (Fin p) (Fin p) ℝ := Matrix.of fun j k => M j k - if j = k then c else 0 with hA
    have hH : A.IsHermitian := by
      ext j k
      simp only [Matrix.conjTranspose_apply, hA, Matrix.of_apply, star_trivial, hM k j]
      congr 1
      by_cases hjk : j = k
      · subst hjk; rfl
      · rw [if_neg hjk, if_neg (Ne.symm hjk)]
    have hmul : ∀ (u : Fin p → ℝ) j, (A.mulVec u) j = ∑ k, M j k * u k - c * u j := by
      intro u j
      simp only [Matrix.mulVec, dotProduct, hA, Matrix.of_apply, sub_mul, Finset.sum_sub_distrib, ite_mul, zero_mul, Finset.sum_ite_eq,
        Finset.mem_univ, if_true]
    have hpsd : A.PosSemidef := by
      refine hH.posSemidef_iff_eigenvalues_nonneg.2 fun i => ?_
      have hev := hH.mulVec_eigenvectorBasis i
      have hne : (hH.eigenvectorBasis i).ofLp ≠ 0 := by
        intro h0
        have := hH.eigenvectorBasis.orthonormal.1 i
        have h1 : hH.eigenvectorBasis i = 0 := by ext k; exact congrFun h0 k
        rw [h1, _root_.norm_zero] at this
        exact zero_ne_one this
      have := h (hH.eigenvalues i + c) (hH.eigenvectorBasis i).ofLp hne fun j => by
        have h1 := congrFun hev j
        rw [hmul] at h1
        simp only [Pi.smul_apply, smul_eq_mul] at h1
        linarith
      simp only [Pi.zero_apply]
      linarith
    have h0 := hpsd.dotProduct_mulVec_nonneg v
    simp only [dotProduct, star_trivial, Pi.star_apply] at h0
    rw [hq]
    have : ∑ j, v j * (A.mulVec v) j = ∑ j, v j * ∑ k, M j k * v k - c * ∑ j, v j ^ 2 := by
      rw [Finset.mul_sum, ← Finset.sum_sub_distrib]
      exact Finset.sum_congr rfl fun j _ => by rw [hmul]; ring
    linarith
  · intro h lam v hv he
    have h1 := h v
    rw [hq] at h1
    have h2 : ∑ j, v j * ∑ k, M j k * v k = lam * ∑ j, v j ^ 2 := by
      rw [Finset.mul_sum]
      exact Finset.sum_congr rfl fun j _ => by rw [he]; ring
    have h3 : 0 < ∑ j, v j ^ 2 := by
      obtain ⟨j, hj⟩ := Function.ne_iff.1 hv
      exact Finset.sum_pos' (fun _ _ => sq_nonneg _) ⟨j, Finset.mem_univ _, by have : v j ≠ 0 := hj; positivity⟩
    rw [h2] at h1
    exact le_of_mul_le_mul_right h1 h3

theorem lower_form (m : ℕ → ℕ → ℝ) (hm : ∀ j k : Fin p, m j k = m k j) (c : ℝ) :
    allEigenvaluesAtLeast p m c ↔ ∀ v : Fin p → ℝ, c * ∑ j, v j ^ 2 ≤ ridgeForm p m v := by
  have he : ∀ j k : Fin p, lowerSym p m j k = m j k := fun j k => by
    unfold lowerSym
    split
    · rfl
    · exact (hm j k).symm
  unfold allEigenvaluesAtLeast ridgeForm
  simp only [he]
  exact eig_form (fun j k => m j k) hm c

/-- A diagonal form. -/
theorem diag_form (v : ℕ → ℝ) (u : Fin p → ℝ) : ridgeForm p (fun j k => if j = k then v j else 0) u = ∑ j : Fin p, v j * u j ^ 2 := by
  unfold ridgeForm
  refine Finset.sum_congr rfl fun j _ => ?_
  rw [Finset.sum_eq_single j]
  · simp; ring
  · intro k _ hk
    have : (j : ℕ) ≠ k := fun h => hk (Fin.ext h.symm)
    simp [this]
  · simp

/-- **C82.** The verdict on a set-up (hence symmetric) penalty, when there is one, is right up to `tol = 10 eps`: accepted penalties satisfy
`vᵀPv ≥ -tol |v|²` for every `v`; positive semidefinite penalties are accepted; a penalty with `vᵀPv < -tol |v|²` for some `v` is rejected. -/
theorem c82_verdict (xsp : Bool) (l1 : ℝ) (a : P2Arg) (P2 : Pen2 ℝ) (h : setupP2 p xsp 1 l1 a = some P2) (tol : ℝ) (ht : 0 ≤ tol) (b : Bool)
    (hb : isPosSemidef p (-tol) P2 = some b) :
    (b = true → ∀ v : Fin p → ℝ, -(tol * ∑ j, v j ^ 2) ≤ (1 - l1) * ridgeForm p (userP2 a) v) ∧
    ((∀ v : Fin p → ℝ, 0 ≤ (1 - l1) * ridgeForm p (userP2 a) v) → b = true) ∧
    ((∃ v : Fin p → ℝ, (1 - l1) * ridgeForm p (userP2 a) v < -(tol * ∑ j, v j ^ 2)) → b = false) := by
  have hform : ∀ v : Fin p → ℝ, ridgeForm p (p2Matrix P2) v = (1 - l1) * ridgeForm p (userP2 a) v := by
    intro v
    have := (c36_symmetrisation p xsp 1 l1 a P2 h v v).2.1
    unfold ridgeForm
    linarith
  have hsym := (c36_symmetrisation p xsp 1 l1 a P2 h 0 0).1
  have key : (b = true → ∀ v : Fin p → ℝ, -(tol * ∑ j, v j ^ 2) ≤ ridgeForm p (p2Matrix P2) v) ∧
      ((∀ v : Fin p → ℝ, 0 ≤ ridgeForm p (p2Matrix P2) v) → b = true) := by
    have hnn : ∀ v : Fin p → ℝ, 0 ≤ tol * ∑ j, v j ^ 2 := fun v => mul_nonneg ht (Finset.sum_nonneg fun _ _ => sq_nonneg _)
    have one : ∀ (m : ℕ → ℕ → ℝ), p = 1 → ((0 ≤ m 0 0) → ∀ v : Fin p → ℝ, -(tol * ∑ j, v j ^ 2) ≤ ridgeForm p m v) ∧
        ((∀ v : Fin p → ℝ, 0 ≤ ridgeForm p m v) → 0 ≤ m 0 0) := by
      rintro m rfl
      constructor
      · intro h0 v
        have : 0 ≤ ridgeForm 1 m v := by
          unfold ridgeForm
          simp only [Fin.sum_univ_one]
          show 0 ≤ m 0 0 * v 0 * v 0
          rw [mul_assoc]; exact mul_nonneg h0 (mul_self_nonneg _)
        linarith [hnn v]
      · intro h0
        have := h0 fun _ => 1
        unfold ridgeForm at this
        simpa using this
    have mat : ∀ (m : ℕ → ℕ → ℝ), (∀ j k : Fin p, m j k = m k j) →
        (allEigenvaluesAtLeast p m (-tol) → ∀ v : Fin p → ℝ, -(tol * ∑ j, v j ^ 2) ≤ ridgeForm p m v) ∧
        ((∀ v : Fin p → ℝ, 0 ≤ ridgeForm p m v) → allEigenvaluesAtLeast p m (-tol)) := by
      intro m hm
      rw [lower_form m hm]
      constructor
      · intro h0 v
        have := h0 v
        linarith
      · intro h0 v
        have := h0 v
        have := hnn v
        linarith
    cases P2 with
    | vec v =>
      simp only [isPosSemidef, Option.some.injEq] at hb
      subst hb
      simp only [decide_eq_true_eq]
      constructor
      · intro h0 u
        have : 0 ≤ ridgeForm p (p2Matrix (.vec v)) u := by
          show 0 ≤ ridgeForm p (fun j k => if j = k then v j else 0) u
          rw [diag_form]
          exact Finset.sum_nonneg fun j _ => mul_nonneg (h0 j j.2) (sq_nonneg _)
        linarith [hnn u]
      · intro h0 j hj
        have : 0 ≤ ridgeForm p (fun j k => if j = k then v j else 0) fun k => if k = (⟨j, hj⟩ : Fin p) then 1 else 0 := h0 _
        rw [diag_form] at this
        simpa using this
    | dense m =>
      simp only [isPosSemidef] at hb
      split at hb
      · rename_i h1
        simp only [Option.some.injEq] at hb
        subst hb
        simp only [decide_eq_true_eq]
        exact one m h1
      · simp only [Option.some.injEq] at hb
        subst hb
        simp only [decide_eq_true_eq]
        exact mat m hsym
    | sparse m =>
      simp only [isPosSemidef] at hb
      split at hb
      · rename_i h1
        simp only [Option.some.injEq] at hb
        subst hb
        simp only [decide_eq_true_eq]
        exact one m.toArray h1
      · split at hb
        · simp only [Option.some.injEq] at hb
          subst hb
          simp only [decide_eq_true_eq]
          exact mat m.toArray hsym
        · cases hb
  simp only [hform] at key
  refine ⟨key.1, key.2, ?_⟩
  rintro ⟨v, hv⟩
  cases b with
  | false => rfl
  | true => exact absurd (key.1 rfl v) (not_le.2 hv)

/-- There is a verdict for everything but large sparse matrices. -/
theorem c82_total_partial (epsneg : ℝ) (P2 : Pen2 ℝ) (h : ∀ m, P2 = .sparse m → p < 2000) : ∃ b, isPosSemidef p epsneg P2 = some b := by
  cases P2 with
  | vec v => exact ⟨_, rfl⟩
  | dense m =>
    simp only [isPosSemidef]
    split <;> exact ⟨_, rfl⟩
  | sparse m =>
    simp only [isPosSemidef]
    split
    · exact ⟨_, rfl⟩
    · rw [if_pos (h m rfl)]; exact ⟨_, rfl⟩

/-- **C82, counterexample (F36).** The identity as a sparse matrix with 2000 or more features: no verdict, `fit` raises. -/
theorem c82_large_sparse_counterexample (p : ℕ) (hp : 2000 ≤ p) (l1 : ℝ) (hl : l1 ≤ 1) (epsneg : ℝ) :
    ∃ P2, setupP2 p false 1 l1 (.sparse p p (sparseDiag p fun _ => 1)) = some P2 ∧
      (∀ v : Fin p → ℝ, 0 ≤ (1 - l1) * ridgeForm p (userP2 (.sparse p p (sparseDiag p fun _ => 1))) v) ∧
      isPosSemidef p epsneg P2 = none ∧ p2Check true (.sparse p p (sparseDiag p fun _ => 1)) p epsneg P2 = false := by
  have hnone : ∀ m : SparseMat ℝ, isPosSemidef p epsneg (.sparse m) = none := by
    intro m
    simp only [isPosSemidef]
    rw [if_neg (by omega), if_neg (by omega)]
  obtain ⟨M, hM⟩ : ∃ M : SparseMat ℝ, setupP2 p false 1 l1 (.sparse p p (sparseDiag p fun _ => 1)) = some (.sparse M) := by
    simp only [setupP2, setupP2Base, and_self, if_true, Option.map_some, Pen2.smul, Pen2.symmetrise]
    exact ⟨_, rfl⟩
  refine ⟨.sparse M, hM, ?_, hnone _, ?_⟩
  · intro v
    refine mul_nonneg (by linarith) ?_
    have : ridgeForm p (userP2 (.sparse p p (sparseDiag p fun _ => 1))) v = ridgeForm p (fun j k => if j = k then 1 else 0) v := by
      unfold ridgeForm
      refine Finset.sum_congr rfl fun j _ => Finset.sum_congr rfl fun k _ => ?_
      congr 2
      exact sparseDiag_entry p (fun _ => 1) j k j.2
    rw [this, diag_form (fun _ => 1)]
    exact Finset.sum_nonneg fun _ _ => mul_nonneg zero_le_one (sq_nonneg _)
  · simp only [p2Check, hnone, Option.getD_none]

/-- **C82, `fit`.** With `check_input` every fit that does not raise has a penalty that is positive semidefinite up to `tol`: the documented ridge
term is at least `-alpha tol/2 |b s|²`.  A positive semidefinite penalty never makes the check fail (apart from large sparse ones). -/
theorem c82_fit {σ : Type} (C : FitCfg p ic) (tol : ℝ) (ht : 0 ≤ tol) (l1 : ℝ) (hl : l1 ≤ 1) (hck : C.p2ok = p2Check true C.P2a p (-tol)) (stats : Stats)
    (solver : SolverFn σ p ic) (R : Rows n) (a : AlphaSpec) (s s' : σ) (r : PathResult)
    (h : glmFit C stats solver R l1 a s = some (s', r)) (v : Fin p → ℝ) : -(tol * ∑ j, v j ^ 2) ≤ (1 - l1) * ridgeForm p (userP2 C.P2a) v := by
  have hP : ∃ P2, setupP2 p C.xsp 1 l1 C.P2a = some P2 := by
    cases h2 : setupP2 p C.xsp 1 l1 C.P2a with
    | some P2 => exact ⟨P2, rfl⟩
    | none =>
      unfold glmFit at h
      split at h
      · cases h
      · rw [h2] at h; cases h
  obtain ⟨P2, h2⟩ := hP
  have hok := glmFit_p2ok C stats solver R l1 a s s' r h P2 h2
  rw [hck] at hok
  have hnn : 0 ≤ tol * ∑ j, v j ^ 2 := mul_nonneg ht (Finset.sum_nonneg fun _ _ => sq_nonneg _)
  have viaCheck : isPosSemidef p (-tol) P2 = some true → -(tol * ∑ j, v j ^ 2) ≤ (1 - l1) * ridgeForm p (userP2 C.P2a) v :=
    fun hv => (c82_verdict C.xsp l1 C.P2a P2 h2 tol ht true hv).1 rfl v
  have get : ∀ o : Option Bool, o.getD false = true → o = some true := by
    intro o ho
    cases o with
    | none => cases ho
    | some b => rw [Option.getD_some] at ho; rw [ho]
  cases ha : C.P2a with
  | str t =>
    have : ridgeForm p (userP2 (.str t)) v = ridgeForm p (fun j k => if j = k then 1 else 0) v := rfl
    rw [this, diag_form (fun _ => 1)]
    have h0 : 0 ≤ (1 - l1) * ∑ j : Fin p, 1 * v j ^ 2 :=
      mul_nonneg (by linarith) (Finset.sum_nonneg fun _ _ => mul_nonneg zero_le_one (sq_nonneg _))
    linarith
  | none => rw [ha] at hok viaCheck; exact viaCheck (get _ hok)
  | vec len u => rw [ha] at hok viaCheck; exact viaCheck (get _ hok)
  | dense q c m => rw [ha] at hok viaCheck; exact viaCheck (get _ hok)
  | sparse q c m => rw [ha] at hok viaCheck; exact viaCheck (get _ hok)

/-- Positive semidefinite penalties pass the check in `fit`. -/
theorem c82_psd_passes_partial (xsp : Bool) (l1 : ℝ) (a : P2Arg) (P2 : Pen2 ℝ) (h : setupP2 p xsp 1 l1 a = some P2) (tol : ℝ) (ht : 0 ≤ tol)
    (hsmall : ∀ m, P2 = .sparse m → p < 2000) (hpsd : ∀ v : Fin p → ℝ, 0 ≤ (1 - l1) * ridgeForm p (userP2 a) v) (ck : Bool) :
    p2Check ck a p (-tol) P2 = true := by
  obtain ⟨b, hb⟩ := c82_total_partial (p := p) (-tol) P2 hsmall
  have := (c82_verdict xsp l1 a P2 h tol ht b hb).2.1 hpsd
  subst this
  cases ck with
  | false => rfl
  | true => cases a <;> simp [p2Check, hb]

/-- A vector with a negative entry is rejected, a singular positive semidefinite matrix accepted, an indefinite one rejected. -/
example : isPosSemidef 2 (-(1 / 10 ^ 15)) (.vec fun j => if j = 0 then 1 else -1) = some false := by
  simp only [isPosSemidef, Option.some.injEq, decide_eq_false_iff_not]
  intro h
  have := h 1 (by norm_num)
  norm_num at this

example : ∃ P2, setupP2 2 false 1 (1 / 2) (.dense 2 2 fun _ _ => 1) = some P2 ∧ isPosSemidef 2 (-(1 / 10 ^ 15)) P2 = some true := by
  obtain ⟨P2, h2⟩ : ∃ P2, setupP2 2 false 1 (1 / 2) (.dense 2 2 fun _ _ => 1) = some P2 := ⟨_, rfl⟩
  obtain ⟨b, hb⟩ := c82_total_partial (p := 2) (-(1 / 10 ^ 15)) P2 (fun m _ => by norm_num)
  refine ⟨P2, h2, ?_⟩
  rw [hb, (c82_verdict (p := 2) false (1 / 2) (.dense 2 2 fun _ _ => 1) _ h2 (1 / 10 ^ 15) (by norm_num) b hb).2.1 fun v => ?_]
  refine mul_nonneg (by norm_num) ?_
  have : ridgeForm 2 (userP2 (.dense 2 2 fun _ _ => 1)) v = (v 0 + v 1) ^ 2 := by
    simp only [ridgeForm, userP2, Fin.sum_univ_two]; ring
  rw [this]; exact sq_nonneg _

example : ∃ P2, setupP2 2 false 1 (1 / 2) (.dense 2 2 fun j k => if j = k then 0 else 1) = some P2 ∧ isPosSemidef 2 (-(1 / 10 ^ 15)) P2 = some false := by
  obtain ⟨P2, h2⟩ : ∃ P2, setupP2 2 false 1 (1 / 2) (.dense 2 2 fun j k => if j = k then 0 else 1) = some P2 := ⟨_, rfl⟩
  obtain ⟨b, hb⟩ := c82_total_partial (p := 2) (-(1 / 10 ^ 15)) P2 (fun m _ => by norm_num)
  refine ⟨P2, h2, ?_⟩
  rw [hb, (c82_verdict (p := 2) false (1 / 2) (.dense 2 2 fun j k => if j = k then 0 else 1) _ h2 (1 / 10 ^ 15) (by norm_num) b hb).2.2
    ⟨![1, -1], ?_⟩]
  simp only [ridgeForm, userP2, Fin.sum_univ_two]
  norm_num

end Glum
