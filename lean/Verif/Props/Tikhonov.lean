import Mathlib.Analysis.InnerProductSpace.Symmetric
import Mathlib.Analysis.InnerProductSpace.PiL2
import Mathlib.Analysis.InnerProductSpace.Projection.FiniteDimensional
import Mathlib.Analysis.Matrix.Hermitian
import Verif.Model.Tikhonov
import Verif.Lemmas.IRLS
/-
C14: the closed-form Gaussian solver solves the penalised normal equations and minimises the documented objective.
-/
set_option linter.unusedSectionVars false
set_option linter.unusedVariables false

namespace Glum
open Spec

variable {n p : ℕ} {ic : Bool}

/-- Contract of `scipy.linalg.solve` for a symmetric matrix: what it returns solves the system. -/
def SolveOK (solve : LinSolve) : Prop :=
  ∀ m (H : Fin m → Fin m → ℝ) (b x : Fin m → ℝ), (∀ i j, H i j = H j i) → solve m H b = some x →
    ∀ i, ∑ j, H i j * x j = b i

/-- Contract of `scipy.linalg.lstsq`: what it returns minimises the sum of squared residuals. -/
def LstSqOK (lstsq : LstSq) : Prop :=
  ∀ m (H : Fin m → Fin m → ℝ) (b z : Fin m → ℝ),
    ∑ i, (∑ j, H i j * lstsq m H b j - b i) ^ 2 ≤ ∑ i, (∑ j, H i j * z j - b i) ^ 2

/-- The documented objective of Gaussian ridge regression (`_linalg.py` 107-118): intercept column unpenalised, offset
subtracted from `y`. -/
noncomputable def Spec.wlsObj (ic : Bool) (X : Fin n → ℕ → ℝ) (y sw o : Fin n → ℝ) (P2 : Pen2 ℝ)
    (b : Fin (p + ic.toNat) → ℝ) : ℝ :=
  1 / 2 * ∑ i, sw i * (y i - linPred ic X o b i) ^ 2 + 1 / 2 * ∑ j, ∑ k, p2Full ic P2 j k * b j * b k

/-! ### symmetric systems -/

/-- A symmetric real system is solvable as soon as the right-hand side is orthogonal to the kernel. -/
theorem symm_solvable {m : ℕ} (H : Fin m → Fin m → ℝ) (hs : ∀ i j, H i j = H j i) (b : Fin m → ℝ)
    (hb : ∀ v : Fin m → ℝ, (∀ i, ∑ j, H i j * v j = 0) → ∑ i, b i * v i = 0) :
    ∃ x : Fin m → ℝ, ∀ i, ∑ j, H i j * x j = b i := by
  classical
  let M : Matrix (Fin m) (Fin m) ℝ := Matrix.of H
  have hM : M.IsHermitian := by
    ext i j
    simp [M, hs j i]
  let T := Matrix.toEuclideanLin M
  have hT : T.IsSymmetric := Matrix.isSymmetric_toEuclideanLin_iff.2 hM
  have hr : LinearMap.range T = (LinearMap.ker T)ᗮ := by
    rw [← hT.orthogonal_range, Submodule.orthogonal_orthogonal]
  have happ : ∀ (v : EuclideanSpace ℝ (Fin m)) (i), (T v).ofLp i = ∑ j, H i j * v.ofLp j := by
    intro v i
    simp [T, M, Matrix.mulVec, dotProduct]
  have hmem : WithLp.toLp 2 b ∈ LinearMap.range T := by
    rw [hr, Submodule.mem_orthogonal]
    intro v hv
    have h0 : ∀ i, ∑ j, H i j * v.ofLp j = 0 := by
      intro i
      rw [← happ, LinearMap.mem_ker.1 hv]; rfl
    have := hb _ h0
    rw [PiLp.inner_apply]
    simpa [mul_comm] using this
  obtain ⟨x, hx⟩ := hmem
  refine ⟨x.ofLp, fun i => ?_⟩
  rw [← happ, hx]

/-- Expansion of the quadratic form of `AᵀWA + P`. -/
theorem gram_quad {n m : ℕ} (A : Fin n → Fin m → ℝ) (w : Fin n → ℝ) (P : Fin m → Fin m → ℝ) (u v : Fin m → ℝ) :
    ∑ i, (∑ j, (∑ r, A r i * w r * A r j + P i j) * u j) * v i
      = ∑ r, w r * (∑ j, A r j * u j) * (∑ i, A r i * v i) + ∑ i, ∑ j, P i j * u j * v i := by
  have h1 : ∀ r, w r * (∑ j, A r j * u j) * (∑ i, A r i * v i) = ∑ i, ∑ j, A r i * w r * A r j * u j * v i := by
    intro r
    rw [Finset.mul_sum]
    apply Finset.sum_congr rfl; intro i _
    rw [Finset.mul_sum, Finset.sum_mul]
    apply Finset.sum_congr rfl; intro j _; ring
  simp only [h1]
  rw [Finset.sum_comm (f := fun r i => ∑ j, A r i * w r * A r j * u j * v i), ← Finset.sum_add_distrib]
  apply Finset.sum_congr rfl; intro i _
  rw [Finset.sum_comm, ← Finset.sum_add_distrib, Finset.sum_mul]
  apply Finset.sum_congr rfl; intro j _
  rw [add_mul, add_mul, Finset.sum_mul, Finset.sum_mul]

/-- The penalised normal equations always have a solution. -/
theorem normal_solvable {n m : ℕ} (A : Fin n → Fin m → ℝ) (w y : Fin n → ℝ) (P : Fin m → Fin m → ℝ)
    (hw : ∀ r, 0 ≤ w r) (hs : ∀ i j, P i j = P j i) (hP : PosSemidef P) :
    ∃ x : Fin m → ℝ, ∀ i, ∑ j, (∑ r, A r i * w r * A r j + P i j) * x j = ∑ r, A r i * (w r * y r) := by
  apply symm_solvable
  · intro i j
    rw [hs i j]
    congr 1
    apply Finset.sum_congr rfl; intro r _; ring
  · intro v hv
    have h0 : ∑ i, (∑ j, (∑ r, A r i * w r * A r j + P i j) * v j) * v i = 0 := by
      apply Finset.sum_eq_zero; intro i _; rw [hv i, zero_mul]
    rw [gram_quad] at h0
    have hp : 0 ≤ ∑ i, ∑ j, P i j * v j * v i := by
      have := hP v
      calc (0 : ℝ) ≤ _ := this
        _ = _ := by
          apply Finset.sum_congr rfl; intro i _; apply Finset.sum_congr rfl; intro j _; ring
    have hnn : ∀ r ∈ Finset.univ, 0 ≤ w r * (∑ j, A r j * v j) * (∑ i, A r i * v i) := by
      intro r _
      rw [mul_assoc]
      exact mul_nonneg (hw r) (mul_self_nonneg _)
    have hz : ∑ r, w r * (∑ j, A r j * v j) * (∑ i, A r i * v i) = 0 :=
      le_antisymm (by linarith) (Finset.sum_nonneg hnn)
    have hz' := (Finset.sum_eq_zero_iff_of_nonneg hnn).1 hz
    have e : ∑ i, (∑ r, A r i * (w r * y r)) * v i = ∑ r, (w r * (∑ i, A r i * v i)) * y r := by
      simp only [Finset.sum_mul, Finset.mul_sum]
      rw [Finset.sum_comm]
      apply Finset.sum_congr rfl; intro r _
      apply Finset.sum_congr rfl; intro i _; ring
    rw [e]
    apply Finset.sum_eq_zero; intro r _
    have := hz' r (Finset.mem_univ r)
    have h2 : w r * (∑ i, A r i * v i) = 0 := by
      rcases mul_eq_zero.1 this with h | h
      · exact h
      · rw [h, mul_zero]
    rw [h2, zero_mul]

/-! ### the code's matrix and right-hand side -/

theorem hasL2_false (P2 : Pen2 ℝ) (h : ¬ P2.hasL2 p) (j k : ℕ) (hj : j < p) (hk : k < p) : p2Matrix P2 j k = 0 := by
  cases P2 with
  | vec v =>
    simp only [Pen2.hasL2, not_exists, not_and, not_not] at h
    unfold p2Matrix; simp only []
    split
    · exact h j hj
    · rfl
  | dense m =>
    simp only [Pen2.hasL2, not_exists, not_and, not_not] at h
    exact h j hj k hk
  | sparse m =>
    simp only [Pen2.hasL2, not_exists, not_and, not_not] at h
    unfold p2Matrix SparseMat.toArray
    apply List.sum_eq_zero
    intro x hx
    rw [List.mem_map] at hx
    obtain ⟨e, he, rfl⟩ := hx
    exact h e (List.mem_filter.1 he).1

theorem isDiag_entry (P2 : Pen2 ℝ) (h : P2.isDiag p) (j k : ℕ) :
    p2Matrix P2 j k = if j = k then P2.diagOf j else 0 := by
  cases P2 with
  | vec v => rfl
  | dense m => exact absurd h id
  | sparse m =>
    by_cases hjk : j = k
    · subst hjk; rw [if_pos rfl]; rfl
    · rw [if_neg hjk]
      unfold p2Matrix SparseMat.toArray
      apply List.sum_eq_zero
      intro x hx
      rw [List.mem_map] at hx
      obtain ⟨e, he, rfl⟩ := hx
      have he2 : e.1 = j ∧ e.2.1 = k := by simpa using (List.mem_filter.1 he).2
      exact absurd (by rw [← he2.1, ← he2.2]; exact h.2 e (List.mem_filter.1 he).1) hjk

theorem toArr_entry (P2 : Pen2 ℝ) (h : ¬ P2.isDiag p) (j k : ℕ) : p2Matrix P2 j k = P2.toArr j k := by
  cases P2 with
  | vec v => exact absurd trivial h
  | dense m => rfl
  | sparse m => rfl

/-- Whichever representation of `P2` is used, the matrix handed to `solve` is `X̃ᵀ W X̃ + P2`. -/
theorem tikhonovHessian_eq (X : Fin n → ℕ → ℝ) (sw : Fin n → ℝ) (P2 : Pen2 ℝ) (s t : Fin (p + ic.toNat)) :
    tikhonovHessian (p := p) ic X sw P2 s t = fullHessian ic X sw P2 s t := by
  have h1 : safeSandwichDot ic X sw Finset.univ (List.range p) s.val t.val
      = ∑ i, design ic X i s * sw i * design ic X i t := by
    have hg : ∀ k, k < p → (List.range p).getD k 0 = k := by
      intro k hk
      rw [List.getD_eq_getElem _ _ (by simpa using hk)]; simp
    cases ic with
    | false =>
      have hs : s.val < p := by simpa using s.2
      have ht : t.val < p := by simpa using t.2
      simp only [safeSandwichDot, hg _ hs, hg _ ht]
      rfl
    | true =>
      obtain ⟨s, hs⟩ := s
      obtain ⟨t, ht⟩ := t
      have hs' : s < p + 1 := hs
      have ht' : t < p + 1 := ht
      cases s with
      | zero =>
        cases t with
        | zero => simp only [safeSandwichDot, design, one_mul, mul_one]
        | succ t => simp only [safeSandwichDot, design, one_mul, hg t (by omega)]
      | succ s =>
        cases t with
        | zero =>
          simp only [safeSandwichDot, design, mul_one, hg s (by omega)]
          apply Finset.sum_congr rfl; intro i _; ring
        | succ t => simp only [safeSandwichDot, design, hg s (by omega), hg t (by omega)]
  unfold tikhonovHessian fullHessian
  simp only []
  rw [h1]
  congr 1
  by_cases hs : s.val < ic.toNat
  · rw [p2Full_left_zero P2 s t hs]
    rw [if_neg (by omega : ¬ (s.val = t.val ∧ ic.toNat ≤ s.val)), if_neg (by omega : ¬ (ic.toNat ≤ s.val ∧ ic.toNat ≤ t.val))]
    split <;> [rfl; (split <;> rfl)]
  by_cases ht : t.val < ic.toNat
  · rw [p2Full_right_zero P2 s t ht]
    rw [if_neg (by omega : ¬ (s.val = t.val ∧ ic.toNat ≤ s.val)), if_neg (by omega : ¬ (ic.toNat ≤ s.val ∧ ic.toNat ≤ t.val))]
    split <;> [rfl; (split <;> rfl)]
  have hj : s.val - ic.toNat < p := by omega
  have hk : t.val - ic.toNat < p := by omega
  have hfull : p2Full ic P2 s t = p2Matrix P2 (s.val - ic.toNat) (t.val - ic.toNat) := by
    have := p2Full_shift (ic := ic) P2 (⟨_, hj⟩ : Fin p) ⟨_, hk⟩
    rw [← this]
    congr 1 <;> (apply Fin.ext; simp only []; omega)
  rw [hfull]
  by_cases hl : P2.hasL2 p
  · by_cases hd : P2.isDiag p
    · rw [if_pos ⟨hl, hd⟩, isDiag_entry P2 hd]
      by_cases e : s.val = t.val
      · rw [if_pos ⟨e, by omega⟩, if_pos (by omega)]
      · rw [if_neg (fun h => e h.1), if_neg (by omega)]
    · rw [if_neg (fun h => hd h.2), if_pos hl, if_pos ⟨by omega, by omega⟩, toArr_entry P2 hd]
  · rw [if_neg (fun h => hl h.1), if_neg hl, hasL2_false P2 hl _ _ hj hk]

theorem weightedY_eq (y sw : Fin n → ℝ) (offset : Option (Fin n → ℝ)) (i : Fin n) :
    weightedY y sw offset i = sw i * (y i - (offset.getD fun _ => 0) i) := by
  unfold weightedY
  cases offset <;> simp

theorem tikhonovRhs_eq (X : Fin n → ℕ → ℝ) (y sw : Fin n → ℝ) (offset : Option (Fin n → ℝ)) (s : Fin (p + ic.toNat)) :
    tikhonovRhs (p := p) ic X y sw offset s
      = ∑ i, design ic X i s * (sw i * (y i - (offset.getD fun _ => 0) i)) := by
  unfold tikhonovRhs
  simp only [weightedY_eq]
  by_cases h : s.val < ic.toNat
  · rw [if_pos h]
    apply Finset.sum_congr rfl; intro i _
    rw [design_lt X i s h, one_mul]
  · rw [if_neg h]
    apply Finset.sum_congr rfl; intro i _
    rw [design_ge X i s h]

/-- **C14, normal equations.** Whatever branch is taken (any representation of P2, direct solve or least-squares fallback for a
singular system), the returned coefficients satisfy `X̃ᵀ W (y - offset - X̃ β) = P2 β`, the intercept row being unpenalised. -/
theorem c14_normal_equations (solve : LinSolve) (lstsq : LstSq) (hsolve : SolveOK solve) (hlst : LstSqOK lstsq)
    (X : Fin n → ℕ → ℝ) (y sw : Fin n → ℝ) (P2 : Pen2 ℝ) (offset : Option (Fin n → ℝ))
    (hw : ∀ r, 0 ≤ sw r) (hs : ∀ i j, p2Full (p := p) ic P2 i j = p2Full ic P2 j i)
    (hP : PosSemidef (p2Full (p := p) ic P2)) (k : Fin (p + ic.toNat)) :
    ∑ i, design ic X i k * sw i *
        (y i - linPred ic X (offset.getD fun _ => 0) (solveTikhonov (p := p) solve lstsq ic X y sw P2 offset) i)
      = ∑ j, p2Full ic P2 k j * solveTikhonov (p := p) solve lstsq ic X y sw P2 offset j := by
  set o := offset.getD fun _ => 0 with ho
  have hH : tikhonovHessian (p := p) ic X sw P2 = fullHessian ic X sw P2 := by
    funext s t; exact tikhonovHessian_eq X sw P2 s t
  have hR : tikhonovRhs (p := p) ic X y sw offset = fun s => ∑ i, design ic X i s * (sw i * (y i - o i)) := by
    funext s; exact tikhonovRhs_eq X y sw offset s
  have hsys : ∀ i, ∑ j, fullHessian (p := p) ic X sw P2 i j * solveTikhonov (p := p) solve lstsq ic X y sw P2 offset j
      = ∑ r, design ic X r i * (sw r * (y r - o r)) := by
    unfold solveTikhonov
    rw [hH, hR]
    cases hc : solve _ (fullHessian (p := p) ic X sw P2) (fun s => ∑ i, design ic X i s * (sw i * (y i - o i))) with
    | some c =>
      exact hsolve _ _ _ _ ((c13_hessian_symm_psd ic X sw P2).1 hs) hc
    | none =>
      obtain ⟨z, hz⟩ := normal_solvable (fun r (j : Fin (p + ic.toNat)) => design ic X r j) sw (fun r => y r - o r)
        (p2Full ic P2) hw hs hP
      have h0 := hlst _ (fullHessian (p := p) ic X sw P2) (fun s => ∑ i, design ic X i s * (sw i * (y i - o i))) z
      have hz0 : ∑ i, (∑ j, fullHessian (p := p) ic X sw P2 i j * z j - ∑ r, design ic X r i * (sw r * (y r - o r))) ^ 2 = 0 := by
        apply Finset.sum_eq_zero; intro i _
        have := hz i
        unfold fullHessian
        rw [this]; ring
      rw [hz0] at h0
      have hnn : ∀ i ∈ Finset.univ, 0 ≤ (∑ j, fullHessian (p := p) ic X sw P2 i j *
          lstsq _ (fullHessian (p := p) ic X sw P2) (fun s => ∑ i, design ic X i s * (sw i * (y i - o i))) j
          - ∑ r, design ic X r i * (sw r * (y r - o r))) ^ 2 := fun i _ => sq_nonneg _
      have := (Finset.sum_eq_zero_iff_of_nonneg hnn).1 (le_antisymm h0 (Finset.sum_nonneg hnn))
      intro i
      have h2 := pow_eq_zero_iff (two_ne_zero) |>.1 (this i (Finset.mem_univ i))
      linarith
  have e := hsys k
  set β := solveTikhonov (p := p) solve lstsq ic X y sw P2 offset with hβ
  have e1 : ∑ j, fullHessian (p := p) ic X sw P2 k j * β j
      = ∑ i, design ic X i k * sw i * (∑ j, design ic X i j * β j) + ∑ j, p2Full ic P2 k j * β j := by
    unfold fullHessian
    have : ∀ i, design ic X i k * sw i * (∑ j, design ic X i j * β j)
        = ∑ j, design ic X i k * sw i * design ic X i j * β j := by
      intro i; rw [Finset.mul_sum]; apply Finset.sum_congr rfl; intro j _; ring
    simp only [this]
    rw [Finset.sum_comm (f := fun i j => design ic X i k * sw i * design ic X i j * β j), ← Finset.sum_add_distrib]
    apply Finset.sum_congr rfl; intro j _
    rw [add_mul, Finset.sum_mul]
  have e2 : ∑ i, design ic X i k * sw i * (y i - linPred ic X o β i)
      = ∑ r, design ic X r k * (sw r * (y r - o r)) - ∑ i, design ic X i k * sw i * (∑ j, design ic X i j * β j) := by
    rw [← Finset.sum_sub_distrib]
    apply Finset.sum_congr rfl; intro i _
    unfold linPred; ring
  rw [e2, ← e, e1]; ring

/-- **C14.** The returned coefficients minimise `½ Σ w (y - offset - X̃β)² + ½ βᵀ P2 β` over all coefficient vectors. -/
theorem c14_minimises (solve : LinSolve) (lstsq : LstSq) (hsolve : SolveOK solve) (hlst : LstSqOK lstsq)
    (X : Fin n → ℕ → ℝ) (y sw : Fin n → ℝ) (P2 : Pen2 ℝ) (offset : Option (Fin n → ℝ))
    (hw : ∀ r, 0 ≤ sw r) (hs : ∀ i j, p2Full (p := p) ic P2 i j = p2Full ic P2 j i)
    (hP : PosSemidef (p2Full (p := p) ic P2)) (b : Fin (p + ic.toNat) → ℝ) :
    wlsObj ic X y sw (offset.getD fun _ => 0) P2 (solveTikhonov (p := p) solve lstsq ic X y sw P2 offset)
      ≤ wlsObj ic X y sw (offset.getD fun _ => 0) P2 b := by
  have hne := c14_normal_equations (p := p) (ic := ic) solve lstsq hsolve hlst X y sw P2 offset hw hs hP
  set o := offset.getD fun _ => 0 with ho
  set β := solveTikhonov (p := p) solve lstsq ic X y sw P2 offset with hβ
  set d : Fin (p + ic.toNat) → ℝ := fun k => b k - β k with hd
  have hb : ∀ k, b k = β k + d k := fun k => by simp [hd]
  have hlin : ∀ i, linPred ic X o b i = linPred ic X o β i + ∑ k, design ic X i k * d k := by
    intro i
    unfold linPred
    have : ∑ k, design ic X i k * b k = ∑ k, design ic X i k * β k + ∑ k, design ic X i k * d k := by
      rw [← Finset.sum_add_distrib]
      apply Finset.sum_congr rfl; intro k _; rw [hb k]; ring
    rw [this]; ring
  -- first-order term
  have hfo : ∑ i, sw i * (y i - linPred ic X o β i) * (∑ k, design ic X i k * d k)
      = ∑ k, ∑ j, p2Full ic P2 k j * β j * d k := by
    have : ∑ i, sw i * (y i - linPred ic X o β i) * (∑ k, design ic X i k * d k)
        = ∑ k, (∑ i, design ic X i k * sw i * (y i - linPred ic X o β i)) * d k := by
      simp only [Finset.mul_sum, Finset.sum_mul]
      rw [Finset.sum_comm]
      apply Finset.sum_congr rfl; intro k _; apply Finset.sum_congr rfl; intro i _; ring
    rw [this]
    apply Finset.sum_congr rfl; intro k _
    rw [hne k, Finset.sum_mul]
  have hq : ∑ j, ∑ k, p2Full ic P2 j k * b j * b k = ∑ j, ∑ k, p2Full ic P2 j k * β j * β k
      + 2 * ∑ k, ∑ j, p2Full ic P2 k j * β j * d k + ∑ j, ∑ k, p2Full ic P2 j k * d j * d k := by
    have s1 : ∑ j, ∑ k, p2Full ic P2 j k * β j * d k = ∑ k, ∑ j, p2Full ic P2 k j * β j * d k := by
      rw [Finset.sum_comm]
      apply Finset.sum_congr rfl; intro k _; apply Finset.sum_congr rfl; intro j _; rw [hs j k]
    have s2 : ∑ j, ∑ k, p2Full ic P2 j k * d j * β k = ∑ k, ∑ j, p2Full ic P2 k j * β j * d k := by
      apply Finset.sum_congr rfl; intro k _; apply Finset.sum_congr rfl; intro j _; ring
    rw [two_mul]
    nth_rewrite 1 [← s1]
    rw [← s2]
    simp only [← Finset.sum_add_distrib]
    apply Finset.sum_congr rfl; intro j _; apply Finset.sum_congr rfl; intro k _
    rw [hb j, hb k]; ring
  have hsq : ∑ i, sw i * (y i - linPred ic X o b i) ^ 2 = ∑ i, sw i * (y i - linPred ic X o β i) ^ 2
      - 2 * ∑ i, sw i * (y i - linPred ic X o β i) * (∑ k, design ic X i k * d k)
      + ∑ i, sw i * (∑ k, design ic X i k * d k) ^ 2 := by
    rw [Finset.mul_sum, ← Finset.sum_sub_distrib, ← Finset.sum_add_distrib]
    apply Finset.sum_congr rfl; intro i _
    rw [hlin i]; ring
  have hnn : 0 ≤ ∑ i, sw i * (∑ k, design ic X i k * d k) ^ 2 :=
    Finset.sum_nonneg fun i _ => mul_nonneg (hw i) (sq_nonneg _)
  have hpd := hP d
  unfold wlsObj
  rw [hsq, hq, hfo]
  linarith

/-! ### the contracts are met by actual procedures -/

theorem lstsq_exists : ∃ lstsq : LstSq, LstSqOK lstsq := by
  classical
  have h : ∀ m (H : Fin m → Fin m → ℝ) (b : Fin m → ℝ), ∃ x : Fin m → ℝ, ∀ z : Fin m → ℝ,
      ∑ i, (∑ j, H i j * x j - b i) ^ 2 ≤ ∑ i, (∑ j, H i j * z j - b i) ^ 2 := by
    intro m H b
    obtain ⟨x, hx⟩ := normal_solvable (n := m) (m := m) H (fun _ => 1) b (fun _ _ => 0) (fun _ => zero_le_one)
      (fun _ _ => rfl) (fun v => by simp)
    refine ⟨x, fun z => ?_⟩
    have hfo : ∑ i, (∑ j, H i j * x j - b i) * (∑ j, H i j * (z j - x j)) = 0 := by
      have : ∑ i, (∑ j, H i j * x j - b i) * (∑ j, H i j * (z j - x j))
          = ∑ k, (∑ j, (∑ r, H r k * 1 * H r j + 0) * x j - ∑ r, H r k * (1 * b r)) * (z k - x k) := by
        have e : ∀ k, ∑ j, (∑ r, H r k * 1 * H r j + 0) * x j = ∑ r, H r k * (∑ j, H r j * x j) := by
          intro k
          simp only [add_zero, Finset.sum_mul, Finset.mul_sum]
          rw [Finset.sum_comm]
          apply Finset.sum_congr rfl; intro r _; apply Finset.sum_congr rfl; intro j _; ring
        simp only [e, ← Finset.sum_sub_distrib]
        simp only [Finset.sum_mul, Finset.mul_sum]
        rw [Finset.sum_comm]
        apply Finset.sum_congr rfl; intro k _; apply Finset.sum_congr rfl; intro i _
        rw [← Finset.mul_sum]; ring
      rw [this]
      apply Finset.sum_eq_zero; intro k _
      rw [hx k]; ring
    have e : ∑ i, (∑ j, H i j * z j - b i) ^ 2 = ∑ i, (∑ j, H i j * x j - b i) ^ 2
        + 2 * ∑ i, (∑ j, H i j * x j - b i) * (∑ j, H i j * (z j - x j)) + ∑ i, (∑ j, H i j * (z j - x j)) ^ 2 := by
      rw [Finset.mul_sum, ← Finset.sum_add_distrib, ← Finset.sum_add_distrib]
      apply Finset.sum_congr rfl; intro i _
      have : ∑ j, H i j * z j = ∑ j, H i j * x j + ∑ j, H i j * (z j - x j) := by
        rw [← Finset.sum_add_distrib]; apply Finset.sum_congr rfl; intro j _; ring
      rw [this]; ring
    rw [e, hfo]
    have : 0 ≤ ∑ i, (∑ j, H i j * (z j - x j)) ^ 2 := Finset.sum_nonneg fun i _ => sq_nonneg _
    linarith
  choose f hf using h
  exact ⟨f, hf⟩

theorem solve_exists : ∃ solve : LinSolve, SolveOK solve ∧
    ∀ m (H : Fin m → Fin m → ℝ) b, IsUnit (Matrix.of H).det → (solve m H b).isSome := by
  classical
  refine ⟨fun m H b => if h : IsUnit (Matrix.of H).det then some ((Matrix.of H)⁻¹.mulVec b) else none, ?_, ?_⟩
  · intro m H b x hs hx
    simp only [] at hx
    split at hx
    · rename_i h
      injection hx with hx
      intro i
      have : (Matrix.of H).mulVec x = b := by
        rw [← hx, Matrix.mulVec_mulVec, Matrix.mul_nonsing_inv _ h, Matrix.one_mulVec]
      have := congrFun this i
      simpa [Matrix.mulVec, dotProduct] using this
    · exact absurd hx (by simp)
  · intro m H b h
    simp only [dif_pos h, Option.isSome_some]

-- Non-vacuity: both contracts can be met together (with the direct solver succeeding on every invertible matrix), and the
-- remaining hypotheses hold for a 2-feature problem with a zero weight, an offset and a non-diagonal dense P2.
example : ∃ (solve : LinSolve) (lstsq : LstSq), SolveOK solve ∧ LstSqOK lstsq := by
  obtain ⟨s, hs, _⟩ := solve_exists
  obtain ⟨l, hl⟩ := lstsq_exists
  exact ⟨s, l, hs, hl⟩

example : let P2 : Pen2 ℝ := .dense fun j k => if j = k then 2 else 1
    (∀ i j, p2Full (p := 2) true P2 i j = p2Full true P2 j i) ∧ PosSemidef (p2Full (p := 2) true P2) := by
  intro P2
  constructor
  · intro i j
    fin_cases i <;> fin_cases j <;> simp [P2, p2Full, p2Matrix]
  · intro v
    change 0 ≤ ∑ i : Fin 3, ∑ j : Fin 3, p2Full (p := 2) true P2 i j * v i * v j
    simp only [Fin.sum_univ_succ, Fin.sum_univ_zero, P2, p2Full, p2Matrix]
    simp
    nlinarith [sq_nonneg (v 1 + v 2), sq_nonneg (v 1), sq_nonneg (v 2)]

end Glum
