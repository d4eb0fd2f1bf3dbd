import Verif.Lemmas.Hessian
/-
C12 (linear predictor kernel), C13, C26, C27, C28: Gram matrix, Hessian bookkeeping and the sparse diagonal shortcut.
-/
set_option linter.unusedSectionVars false
set_option linter.unusedVariables false

namespace Glum
open Spec

variable {K : Type*} [Field K] [LinearOrder K] [IsStrictOrderedRing K]

/-- **C12 (kernel).** The linear predictor computed from the columns with non-zero coefficient equals
`Σ_k X̃[i,k]·coef[k] + offset[i]`, with exactly one intercept and one offset contribution, for every sparsity pattern. -/
theorem c12_lin_pred {n p : ℕ} (ic : Bool) (X : Fin n → ℕ → K) (coef : Fin (p + ic.toNat) → K)
    (offset : Option (Fin n → K)) (i : Fin n) :
    safeLinPred ic X coef offset i = linPred ic X (offset.getD fun _ => 0) coef i := by
  have hnz : ∑ j ∈ (Finset.range p).filter (fun j => feat ic coef j ≠ 0), X i j * feat ic coef j
      = ∑ j ∈ Finset.range p, X i j * feat ic coef j := by
    apply Finset.sum_subset (Finset.filter_subset _ _)
    intro j hj hn
    rw [Finset.mem_filter] at hn
    have : feat ic coef j = 0 := by
      by_contra h; exact hn ⟨hj, h⟩
    rw [this, mul_zero]
  have core : (if ic then ∑ j ∈ Finset.range p, X i j * feat ic coef j + icpt ic coef
        else ∑ j ∈ Finset.range p, X i j * feat ic coef j) = ∑ k, design ic X i k * coef k := by
    cases ic with
    | false =>
      simp only [Bool.false_eq_true, if_false]
      rw [Finset.sum_range]
      apply Finset.sum_congr rfl
      intro k _
      have : feat false coef k.val = coef k := by
        unfold feat
        rw [dif_pos (by simp)]
        rfl
      rw [this]; rfl
    | true =>
      simp only [if_true]
      change _ = ∑ k : Fin (p + 1), design (p := p) true X i k * coef k
      rw [Fin.sum_univ_succ, Finset.sum_range, add_comm]
      congr 1
      · rw [design_true_zero X i 0 rfl, one_mul]
        unfold icpt
        rw [dif_pos (by simp)]
        rfl
      · apply Finset.sum_congr rfl
        intro k _
        have : feat true coef k.val = coef k.succ := by
          unfold feat
          rw [dif_pos (by simp)]
          rfl
        rw [this]; rfl
  unfold safeLinPred linPred
  simp only []
  rw [hnz, core]
  cases offset <;> simp

/-- **C13.** Entry of the Gram matrix for coefficients `i`, `j` of the active set: it is
`Σ_r X̃[r,i] d_r X̃[r,j]` (with the column of ones when there is an intercept), for every row subset outside of which the
weights vanish and every admissible active set. -/
theorem c13_sandwich {n p : ℕ} (ic : Bool) (X : Fin n → ℕ → K) (d : Fin n → K) (rows : Finset (Fin n))
    (hrows : ∀ r, r ∉ rows → d r = 0) (A : List (Fin (p + ic.toNat))) (hA : ActiveOK ic A)
    (i j : Fin (p + ic.toNat)) (hi : i ∈ A) (hj : j ∈ A) :
    safeSandwichDot ic X d rows (activeFeatures ic A) (A.idxOf i) (A.idxOf j)
      = ∑ r, design ic X r i * d r * design ic X r j :=
  sandwich_entry ic X d rows hrows A hA i j hi hj

/-- The hypothesis `hrows` of `c13_sandwich` is needed: with an intercept the corner entry sums over all rows. -/
theorem c13_sandwich_needs_rows :
    ∃ (X : Fin 2 → ℕ → ℚ) (d : Fin 2 → ℚ) (rows : Finset (Fin 2)),
      safeSandwichDot true X d rows [] 0 0 ≠ ∑ r ∈ rows, 1 * d r * 1 :=
  ⟨fun _ _ => 0, fun _ => 1, {0}, by simp [safeSandwichDot]⟩

/-- A matrix on coefficients is positive semidefinite. -/
def PosSemidef {m : ℕ} (M : Fin m → Fin m → K) : Prop := ∀ v : Fin m → K, 0 ≤ ∑ i, ∑ j, M i j * v i * v j

/-- **C13, consequences.** The Hessian `X̃ᵀ diag(h) X̃ + P2` is symmetric if P2 is, and positive semidefinite if `h ≥ 0` and P2
is positive semidefinite. -/
theorem c13_hessian_symm_psd {n p : ℕ} (ic : Bool) (X : Fin n → ℕ → K) (h : Fin n → K) (P2 : Pen2 K) :
    ((∀ i j, p2Full (p := p) ic P2 i j = p2Full ic P2 j i) →
      ∀ i j, fullHessian (p := p) ic X h P2 i j = fullHessian ic X h P2 j i) ∧
    ((∀ r, 0 ≤ h r) → PosSemidef (p2Full (p := p) ic P2) → PosSemidef (fullHessian (p := p) ic X h P2)) := by
  constructor
  · intro hs i j
    unfold fullHessian
    rw [hs i j]
    congr 1
    apply Finset.sum_congr rfl; intro r _; ring
  · intro hh hp v
    have e : ∑ i, ∑ j, fullHessian (p := p) ic X h P2 i j * v i * v j
        = ∑ r, h r * (∑ i, design ic X r i * v i) ^ 2 + ∑ i, ∑ j, p2Full ic P2 i j * v i * v j := by
      have : ∀ r, h r * (∑ i, design ic X r i * v i) ^ 2
          = ∑ i, ∑ j, design ic X r i * h r * design ic X r j * v i * v j := by
        intro r
        rw [sq, Finset.sum_mul_sum, Finset.mul_sum]
        apply Finset.sum_congr rfl; intro i _
        rw [Finset.mul_sum]
        apply Finset.sum_congr rfl; intro j _; ring
      simp only [this]
      have sw : ∑ r, ∑ i, ∑ j, design ic X r i * h r * design ic X r j * v i * v j
          = ∑ i, ∑ j, ∑ r, design ic X r i * h r * design ic X r j * v i * v j := by
        rw [Finset.sum_comm]
        apply Finset.sum_congr rfl; intro i _
        rw [Finset.sum_comm]
      rw [sw, ← Finset.sum_add_distrib]
      apply Finset.sum_congr rfl; intro i _
      rw [← Finset.sum_add_distrib]
      apply Finset.sum_congr rfl; intro j _
      unfold fullHessian
      rw [add_mul, add_mul, Finset.sum_mul, Finset.sum_mul]
    rw [e]
    apply add_nonneg _ (hp v)
    exact Finset.sum_nonneg fun r _ => mul_nonneg (hh r) (sq_nonneg _)

/-- **C28.** For every stored sparse matrix (any order, explicit zeros, duplicates), if the diagonal shortcut is taken then
the matrix *is* the diagonal matrix of the stored data, so adding `P2.data` on the diagonal is adding `P2`. -/
theorem c28_diagonal_shortcut (M : SparseMat K) (p : ℕ) (h : M.looksDiagonal p) (j k : ℕ) (hj : j < p) :
    M.toArray j k = if j = k then M.dataAt j else 0 :=
  looksDiagonal_toArray M p h j k hj

/-- **C28 for the Hessian**: whichever representation and shortcut is used, the block added for `P2` is the restriction of the
dense matrix denoted by `P2`, for every admissible active set. -/
theorem c28_p2_block {p : ℕ} (ic : Bool) (P2 : Pen2 K) (A : List (Fin (p + ic.toNat))) (hA : ActiveOK ic A)
    (i j : Fin (p + ic.toNat)) (hi : i ∈ A) (hj : j ∈ A) :
    addP2 ic p (some P2) (activeFeatures ic A) (A.idxOf i) (A.idxOf j) = p2Full ic P2 i j :=
  addP2_entry ic P2 A hA i j hi hj

-- Non-vacuity: a matrix that takes the shortcut, one with an explicit zero off the diagonal that also takes it,
-- and a non-diagonal one with exactly `p` stored entries that does not.
example : SparseMat.looksDiagonal [(0, 0, (2 : ℚ)), (1, 1, 3)] 2 := by decide +kernel
example : SparseMat.looksDiagonal [(0, 0, (2 : ℚ)), (1, 0, 0)] 2 := by decide +kernel
example : ¬ SparseMat.looksDiagonal [(0, 0, (2 : ℚ)), (0, 1, 3)] 2 := by decide +kernel

/-- Every operation of the history uses an admissible active set. -/
def HistoryOK {n p : ℕ} (ic : Bool) (ops : List (HOp K n (p + ic.toNat))) : Prop :=
  ∀ A r, HOp.iter A r ∈ ops → ActiveOK ic A

theorem hess_inv {n p : ℕ} (ic : Bool) (X : Fin n → ℕ → K) (C : K) (P2 : Pen2 K) (rows0 : Fin n → K)
    (ops : List (HOp K n (p + ic.toNat))) (hops : HistoryOK ic ops) :
    HInv ic X (hessRun ic X C P2 rows0 ops).2 (hessRun ic X C P2 rows0 ops).1 := by
  induction ops using List.reverseRecOn with
  | nil => intro h; simp [hessRun, hessInit] at h
  | append_singleton ops op ih =>
    have ih := ih (fun A r h => hops A r (by simp [h]))
    simp only [hessRun, List.foldl_append, List.foldl_cons, List.foldl_nil] at ih ⊢
    cases op with
    | setP2 P' => intro h; simp [hessStep] at h
    | iter A r => exact hessIter_inv ic X _ C _ ih A (hops A r (by simp)) r

/-- **C26.** After every history of outer iterations (active sets growing and shrinking in any way, any new curvatures) and
penalty replacements, the Hessian built for the next active set `A` is, on `A × A`, exactly `X̃ᵀ diag(h) X̃ + P2` for the current
penalty and the row weights `h` stored in the state. With `hessian_approx = 0` these are the current row curvatures. -/
theorem c26_incremental_hessian {n p : ℕ} (ic : Bool) (X : Fin n → ℕ → K) (C : K) (P2 : Pen2 K) (rows0 : Fin n → K)
    (ops : List (HOp K n (p + ic.toNat))) (hops : HistoryOK ic ops)
    (A : List (Fin (p + ic.toNat))) (hA : ActiveOK ic A) :
    let s := hessRun ic X C P2 rows0 ops
    let s' := updateHessian ic X s.2 C s.1 A
    (∀ i ∈ A, ∀ j ∈ A, s'.H i j = fullHessian ic X s'.rows s.2 i j) ∧ (C = 0 → s'.rows = s.1.rows) := by
  intro s s'
  constructor
  · exact updateHessian_block ic X _ C _ (hess_inv ic X C P2 rows0 ops hops) A hA
  · intro hC
    subst hC
    simp only [s', updateHessian]
    split
    · rfl
    · exact activeRows_zero _ _

/-- **C27.** In any state reached by any history, for `0 ≤ C`: each row weight used by the Hessian is either the current
curvature or the value last used; a row whose change since it was last used is at least `C` times every row's change is refreshed;
the error made is at most `C` times the largest change; and the values used now are what the next iteration's change
is measured against (changes accumulate). -/
theorem c27_staleness {n p : ℕ} (ic : Bool) (X : Fin n → ℕ → K) (C : K) (hC : 0 ≤ C) (P2 : Pen2 K)
    (rows0 : Fin n → K) (ops : List (HOp K n (p + ic.toNat))) (A : List (Fin (p + ic.toNat))) (r : Fin n)
    (newRows : Fin n → K) :
    let s := hessRun ic X C P2 rows0 ops
    let used := (updateHessian ic X s.2 C s.1 A).rows
    (used r = s.1.rows r ∨ used r = s.1.oldRows r) ∧
    (∀ q, (∀ k, |s.1.rows k - s.1.oldRows k| ≤ |s.1.rows q - s.1.oldRows q|) →
      C * |s.1.rows q - s.1.oldRows q| ≤ |s.1.rows r - s.1.oldRows r| → used r = s.1.rows r) ∧
    (∀ B, (∀ k, |s.1.rows k - s.1.oldRows k| ≤ B) → |used r - s.1.rows r| ≤ C * B) ∧
    (hessIter ic X s.2 C s.1 A newRows).oldRows = used := by
  intro s used
  have hused : used = s.1.rows ∨ used = (identifyActiveRows s.1.rows s.1.oldRows C).2.1 := by
    simp only [used, updateHessian]
    split
    · exact Or.inl rfl
    · exact Or.inr rfl
  have hn : 0 < n := Nat.pos_of_ne_zero (fun h => by subst h; exact r.elim0)
  obtain ⟨q0, hq0⟩ := maxDiff_attained s.1.rows s.1.oldRows hn
  refine ⟨?_, ?_, ?_, rfl⟩
  · rcases hused with h | h
    · left; rw [h]
    · rw [h]
      unfold identifyActiveRows
      simp only []
      split
      · right; rfl
      · left; rfl
  · intro q hq hr
    rcases hused with h | h
    · rw [h]
    · rw [h]
      unfold identifyActiveRows
      simp only []
      rw [if_neg]
      rw [not_lt]
      have : maxDiff s.1.rows s.1.oldRows ≤ |s.1.rows q - s.1.oldRows q| := by rw [hq0]; exact hq q0
      exact le_trans (mul_le_mul_of_nonneg_left this hC) hr
  · intro B hB
    have hB0 : 0 ≤ C * B := mul_nonneg hC (le_trans (abs_nonneg _) (hB r))
    rcases hused with h | h
    · rw [h]; simpa using hB0
    · rw [h]
      unfold identifyActiveRows
      simp only []
      split
      · rename_i hlt
        rw [abs_sub_comm]
        refine le_trans hlt.le (mul_le_mul_of_nonneg_left ?_ hC)
        rw [hq0]; exact hB q0
      · simpa using hB0

/-! Non-vacuity: a history in which the active set shrinks, then grows (a reset), with a penalty change. -/
def histEx : List (HOp ℚ 2 2) :=
  [.iter [0, 1] (fun i => if i = 0 then 3 else 1), .iter [0] (fun _ => 2), .setP2 (.vec fun _ => 5),
   .iter [0, 1] (fun _ => 7)]

theorem histEx_ok : HistoryOK (p := 1) true histEx := by
  intro A r h
  simp only [histEx, List.mem_cons, HOp.iter.injEq, List.not_mem_nil, or_false, reduceCtorEq, false_or] at h
  rcases h with ⟨rfl, _⟩ | ⟨rfl, _⟩ | ⟨rfl, _⟩
  · exact ⟨by decide, fun _ => ⟨0, [1], rfl, rfl⟩⟩
  · exact ⟨by decide, fun _ => ⟨0, [], rfl, rfl⟩⟩
  · exact ⟨by decide, fun _ => ⟨0, [1], rfl, rfl⟩⟩

-- the state reached is non-trivial: the (1,1) entry of the Hessian is x₀²·2 + x₁²·2 + 5 with x = (1, 2)
example : (hessRun (p := 1) true (fun i _ => if i = 0 then 1 else 2) (0 : ℚ) (.vec fun _ => 1)
    (fun _ => 1) histEx).1.H 1 1 = 15 := by decide +kernel

end Glum
