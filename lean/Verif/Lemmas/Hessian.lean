import Mathlib.Tactic.Ring
import Mathlib.Tactic.Linarith
import Mathlib.Tactic.NormNum
import Mathlib.Data.List.Perm.Subperm
import Mathlib.Data.List.Nodup
import Mathlib.Data.List.GetD
import Mathlib.Algebra.Order.BigOperators.Group.Finset
import Verif.Model.Hessian
import Verif.Spec.Design
set_option linter.unusedSectionVars false
set_option linter.unusedVariables false

namespace Glum
open Spec

variable {K : Type*} [Field K] [LinearOrder K] [IsStrictOrderedRing K]

/-! ### the diagonal test -/

theorem map_range_dataAt (M : SparseMat K) :
    (List.range M.length).map M.dataAt = M.map (fun e => e.2.2) := by
  apply List.ext_getElem
  · simp
  · intro i h1 h2
    simp only [List.length_map] at h2
    simp [SparseMat.dataAt, h2]

theorem looksDiagonal_offdiag (M : SparseMat K) (p : ℕ) (h : M.looksDiagonal p) :
    ∀ e ∈ M, e.2.2 ≠ 0 → e.1 = e.2.1 := by
  obtain ⟨hn, hd⟩ := h
  have hlist : (List.range p).map M.diagonal = M.map (fun e => e.2.2) := by
    rw [← map_range_dataAt, show M.length = p from hn]
    apply List.map_congr_left
    intro k hk
    exact (hd k (List.mem_range.mp hk)).symm
  have hcount : (List.range p).countP (fun k => decide (M.diagonal k ≠ 0))
      = M.countP (fun e => decide (e.2.2 ≠ 0)) := by
    have h1 := congrArg (List.countP (fun x => decide (x ≠ 0))) hlist
    rw [List.countP_map, List.countP_map] at h1
    exact h1
  -- every non-zero diagonal value needs a stored non-zero diagonal entry
  have hsub : (List.range p).filter (fun k => decide (M.diagonal k ≠ 0)) ⊆
      (M.filter (fun e => decide (e.2.2 ≠ 0 ∧ e.1 = e.2.1))).map (fun e => e.1) := by
    intro k hk
    rw [List.mem_filter] at hk
    have hk2 : M.diagonal k ≠ 0 := by simpa using hk.2
    by_contra hcon
    apply hk2
    unfold SparseMat.diagonal SparseMat.toArray
    apply List.sum_eq_zero
    intro x hx
    rw [List.mem_map] at hx
    obtain ⟨e, he, rfl⟩ := hx
    rw [List.mem_filter] at he
    have he2 : e.1 = k ∧ e.2.1 = k := by simpa using he.2
    by_contra hne
    apply hcon
    rw [List.mem_map]
    refine ⟨e, ?_, he2.1⟩
    rw [List.mem_filter]
    refine ⟨he.1, ?_⟩
    simp only [decide_eq_true_eq]
    exact ⟨hne, by rw [he2.1, he2.2]⟩
  have hnd : ((List.range p).filter (fun k => decide (M.diagonal k ≠ 0))).Nodup :=
    List.Nodup.filter _ List.nodup_range
  have hle := (List.subperm_of_subset hnd hsub).length_le
  rw [List.length_map, ← List.countP_eq_length_filter, ← List.countP_eq_length_filter, hcount] at hle
  intro e he hne
  by_contra hoff
  have hlt : M.countP (fun e => decide (e.2.2 ≠ 0 ∧ e.1 = e.2.1)) < M.countP (fun e => decide (e.2.2 ≠ 0)) := by
    clear hle hsub hnd hcount hlist hd hn
    induction M with
    | nil => simp at he
    | cons x xs ih =>
      have hmono : xs.countP (fun e => decide (e.2.2 ≠ 0 ∧ e.1 = e.2.1)) ≤ xs.countP (fun e => decide (e.2.2 ≠ 0)) := by
        apply List.countP_mono_left
        intro y _ hy
        simp only [decide_eq_true_eq] at hy ⊢
        exact hy.1
      rcases List.mem_cons.mp he with rfl | he'
      · rw [List.countP_cons, List.countP_cons]
        have e1 : decide (e.2.2 ≠ 0 ∧ e.1 = e.2.1) = false := by simp [hoff]
        have e2 : decide (e.2.2 ≠ 0) = true := by simpa using hne
        rw [e1, e2]
        simp only [Bool.false_eq_true, if_false, if_true]
        omega
      · have := ih he'
        rw [List.countP_cons, List.countP_cons]
        have hx : (if decide (x.2.2 ≠ 0 ∧ x.1 = x.2.1) = true then 1 else 0)
            ≤ (if decide (x.2.2 ≠ 0) = true then 1 else 0) := by
          by_cases h1 : x.2.2 ≠ 0 <;> by_cases h2 : x.1 = x.2.1 <;> simp [h1, h2]
        omega
  omega

theorem looksDiagonal_toArray (M : SparseMat K) (p : ℕ) (h : M.looksDiagonal p) (j k : ℕ) (hj : j < p) :
    M.toArray j k = if j = k then M.dataAt j else 0 := by
  by_cases hjk : j = k
  · subst hjk
    rw [if_pos rfl, h.2 j hj]; rfl
  · rw [if_neg hjk]
    unfold SparseMat.toArray
    apply List.sum_eq_zero
    intro x hx
    rw [List.mem_map] at hx
    obtain ⟨e, he, rfl⟩ := hx
    rw [List.mem_filter] at he
    have he2 : e.1 = j ∧ e.2.1 = k := by simpa using he.2
    by_contra hne
    have := looksDiagonal_offdiag M p h e he.1 hne
    exact hjk (by rw [← he2.1, ← he2.2, this])

/-! ### positions -/

/-- `A` is what `identify_active_set` can return: no duplicates, and the intercept first when there is one. -/
def ActiveOK {p : ℕ} (ic : Bool) (A : List (Fin (p + ic.toNat))) : Prop :=
  A.Nodup ∧ (ic = true → ∃ x t, A = x :: t ∧ x.val = 0)

theorem idxOf_zero_iff {p : ℕ} (A : List (Fin (p + 1))) (hA : ActiveOK (p := p) true A)
    (i : Fin (p + 1)) (hi : i ∈ A) : A.idxOf i = 0 ↔ i.val = 0 := by
  obtain ⟨x, t, rfl, hx⟩ := hA.2 rfl
  constructor
  · intro h
    have h2 := List.idxOf_lt_length_of_mem hi
    have h3 := List.getElem_idxOf h2
    have h4 : (x :: t)[0]'(by simp) = i := by
      simp only [h] at h3
      exact h3
    simp at h4
    rw [← h4]; exact hx
  · intro h
    have : i = x := Fin.ext (by rw [h, hx])
    subst this
    simp

theorem activeFeatures_getD {p : ℕ} (ic : Bool) (A : List (Fin (p + ic.toNat))) (i : Fin (p + ic.toNat))
    (hi : i ∈ A) (h : ic.toNat ≤ A.idxOf i) :
    (activeFeatures ic A).getD (A.idxOf i - ic.toNat) 0 = i.val - ic.toNat := by
  have h2 := List.idxOf_lt_length_of_mem hi
  have h3 := List.getElem_idxOf h2
  unfold activeFeatures
  rw [List.getD_eq_getElem _ _ (by simp; omega)]
  rw [List.getElem_map, List.getElem_drop]
  congr 2
  have h4 : ic.toNat + (A.idxOf i - ic.toNat) = A.idxOf i := by omega
  simp only [h4, h3]

theorem idxOf_inj' {m : ℕ} (A : List (Fin m)) (i j : Fin m) (hi : i ∈ A) (hj : j ∈ A) :
    A.idxOf i = A.idxOf j ↔ i = j := by
  constructor
  · intro h
    have hi2 := List.idxOf_lt_length_of_mem hi
    have hj2 := List.idxOf_lt_length_of_mem hj
    have e1 := List.getElem_idxOf hi2
    have e2 := List.getElem_idxOf hj2
    rw [← e1, ← e2]
    simp only [h]
  · rintro rfl; rfl

theorem addP2_entry {p : ℕ} (ic : Bool) (P2 : Pen2 K) (A : List (Fin (p + ic.toNat)))
    (hA : ActiveOK ic A) (i j : Fin (p + ic.toNat)) (hi : i ∈ A) (hj : j ∈ A) :
    addP2 ic p (some P2) (activeFeatures ic A) (A.idxOf i) (A.idxOf j) = p2Full ic P2 i j := by
  have core : ∀ a b : ℕ, a < p → (A.idxOf i = A.idxOf j ↔ a = b) →
      p2Entry p (some P2) (A.idxOf i = A.idxOf j) a b = p2Matrix P2 a b := by
    intro a b ha hab
    unfold p2Entry
    cases P2 with
    | vec v =>
      simp only [p2Matrix]
      by_cases h : a = b
      · rw [if_pos h, if_pos (hab.mpr h)]
      · rw [if_neg h, if_neg (fun e => h (hab.mp e))]
    | dense m => rfl
    | sparse m =>
      simp only [p2Matrix]
      split
      · rename_i h0
        have : m = [] := List.length_eq_zero_iff.mp h0
        subst this; simp [SparseMat.toArray]
      · split
        · rename_i hd
          rw [looksDiagonal_toArray m p hd a b ha]
          by_cases h : a = b
          · rw [if_pos h, if_pos (hab.mpr h)]
          · rw [if_neg h, if_neg (fun e => h (hab.mp e))]
        · rfl
  cases ic with
  | false =>
    unfold addP2
    simp only [Bool.toNat_false, Nat.not_lt_zero, or_self, if_false, Nat.sub_zero]
    have ei := activeFeatures_getD false A i hi (Nat.zero_le _)
    have ej := activeFeatures_getD false A j hj (Nat.zero_le _)
    simp only [Bool.toNat_false, Nat.sub_zero] at ei ej
    rw [ei, ej]
    have := core i.val j.val (by have := i.isLt; simp only [Bool.toNat_false, Nat.add_zero] at this; exact this) (by
      rw [idxOf_inj' A i j hi hj]; exact Fin.ext_iff)
    simpa [p2Full] using this
  | true =>
    unfold addP2
    have hi0 := idxOf_zero_iff A hA i hi
    have hj0 := idxOf_zero_iff A hA j hj
    simp only [Bool.toNat_true, Nat.lt_one_iff]
    by_cases h : A.idxOf i = 0 ∨ A.idxOf j = 0
    · rw [if_pos h]
      rcases h with h | h
      · have := hi0.mp h
        unfold p2Full
        rw [this]
      · have := hj0.mp h
        unfold p2Full
        rw [this]
        cases i.val <;> rfl
    · rw [if_neg h]
      push Not at h
      have ei := activeFeatures_getD true A i hi (by simp; omega)
      have ej := activeFeatures_getD true A j hj (by simp; omega)
      simp only [Bool.toNat_true] at ei ej
      rw [ei, ej]
      have hin : i.val ≠ 0 := fun e => h.1 (hi0.mpr e)
      have hjn : j.val ≠ 0 := fun e => h.2 (hj0.mpr e)
      have := core (i.val - 1) (j.val - 1) (by have := i.isLt; simp only [Bool.toNat_true] at this; omega) (by
        rw [idxOf_inj' A i j hi hj, Fin.ext_iff]; omega)
      have e2 : p2Full true P2 i j = p2Matrix P2 (i.val - 1) (j.val - 1) := by
        unfold p2Full
        obtain ⟨a, ha⟩ := Nat.exists_eq_succ_of_ne_zero hin
        obtain ⟨b, hb⟩ := Nat.exists_eq_succ_of_ne_zero hjn
        rw [ha, hb]; rfl
      rw [e2]
      exact this

theorem design_true_zero {n p : ℕ} (X : Fin n → ℕ → K) (r : Fin n) (i : Fin (p + 1)) (h : i.val = 0) :
    design (p := p) true X r i = 1 := by
  unfold design; rw [h]

theorem design_true_succ {n p : ℕ} (X : Fin n → ℕ → K) (r : Fin n) (i : Fin (p + 1)) (h : i.val ≠ 0) :
    design (p := p) true X r i = X r (i.val - 1) := by
  unfold design
  obtain ⟨a, ha⟩ := Nat.exists_eq_succ_of_ne_zero h
  rw [ha]; rfl

theorem sandwich_entry {n p : ℕ} (ic : Bool) (X : Fin n → ℕ → K) (d : Fin n → K) (rows : Finset (Fin n))
    (hrows : ∀ r, r ∉ rows → d r = 0) (A : List (Fin (p + ic.toNat)))
    (hA : ActiveOK ic A) (i j : Fin (p + ic.toNat)) (hi : i ∈ A) (hj : j ∈ A) :
    safeSandwichDot ic X d rows (activeFeatures ic A) (A.idxOf i) (A.idxOf j)
      = ∑ r, design ic X r i * d r * design ic X r j := by
  have ext : ∀ f : Fin n → K, (∀ r, d r = 0 → f r = 0) → ∑ r ∈ rows, f r = ∑ r, f r := by
    intro f hf
    apply Finset.sum_subset (Finset.subset_univ _)
    intro r _ hr
    exact hf r (hrows r hr)
  cases ic with
  | false =>
    unfold safeSandwichDot
    have ei := activeFeatures_getD false A i hi (Nat.zero_le _)
    have ej := activeFeatures_getD false A j hj (Nat.zero_le _)
    simp only [Bool.toNat_false, Nat.sub_zero] at ei ej
    simp only [ei, ej]
    rw [ext]
    · rfl
    · intro r hr; rw [hr]; ring
  | true =>
    have hi0 := idxOf_zero_iff A hA i hi
    have hj0 := idxOf_zero_iff A hA j hj
    have ei := fun h => activeFeatures_getD true A i hi h
    have ej := fun h => activeFeatures_getD true A j hj h
    simp only [Bool.toNat_true] at ei ej
    unfold safeSandwichDot
    cases hs : A.idxOf i with
    | zero =>
      have i0 := hi0.mp hs
      cases ht : A.idxOf j with
      | zero =>
        have j0 := hj0.mp ht
        simp only []
        apply Finset.sum_congr rfl
        intro r _
        rw [design_true_zero X r i i0, design_true_zero X r j j0]; ring
      | succ t' =>
        have jn : j.val ≠ 0 := fun e => by have := hj0.mpr e; omega
        have e := ej (by omega)
        rw [ht] at e
        simp only [Nat.add_sub_cancel] at e
        simp only [e]
        rw [ext]
        · apply Finset.sum_congr rfl
          intro r _
          rw [design_true_zero X r i i0, design_true_succ X r j jn]; ring
        · intro r hr; rw [hr]; ring
    | succ s' =>
      have in' : i.val ≠ 0 := fun e => by have := hi0.mpr e; omega
      have e1 := ei (by omega)
      rw [hs] at e1
      simp only [Nat.add_sub_cancel] at e1
      cases ht : A.idxOf j with
      | zero =>
        have j0 := hj0.mp ht
        simp only [e1]
        rw [ext]
        · apply Finset.sum_congr rfl
          intro r _
          rw [design_true_succ X r i in', design_true_zero X r j j0]; ring
        · intro r hr; rw [hr]; ring
      | succ t' =>
        have jn : j.val ≠ 0 := fun e => by have := hj0.mpr e; omega
        have e := ej (by omega)
        rw [ht] at e
        simp only [Nat.add_sub_cancel] at e
        simp only [e, e1]
        rw [ext]
        · apply Finset.sum_congr rfl
          intro r _
          rw [design_true_succ X r i in', design_true_succ X r j jn]
        · intro r hr; rw [hr]; ring

/-! ### isSubset -/

theorem isSubset_iff {m : ℕ} (x y : List (Fin m)) (hy : y.Nodup) :
    isSubset x y = true ↔ ∀ i ∈ y, i ∈ x := by
  unfold isSubset
  rw [beq_iff_eq, ← List.toFinset_card_of_nodup hy]
  constructor
  · intro h i hi
    have := Finset.eq_of_subset_of_card_le (Finset.inter_subset_right (s₁ := x.toFinset) (s₂ := y.toFinset)) h.ge
    have hi2 : i ∈ x.toFinset ∩ y.toFinset := by rw [this]; simpa using hi
    simpa using (Finset.mem_inter.mp hi2).1
  · intro h
    congr 1
    apply Finset.inter_eq_right.mpr
    intro i hi
    simp at hi ⊢
    exact h i hi

/-! ### active rows -/

theorem foldl_max_ge {n : ℕ} (f : Fin n → K) (l : List (Fin n)) (m : K) :
    m ≤ l.foldl (fun m i => if m < f i then f i else m) m ∧
    (∀ i ∈ l, f i ≤ l.foldl (fun m i => if m < f i then f i else m) m) ∧
    (l.foldl (fun m i => if m < f i then f i else m) m = m ∨
      ∃ i ∈ l, l.foldl (fun m i => if m < f i then f i else m) m = f i) := by
  induction l generalizing m with
  | nil => simp
  | cons x xs ih =>
    rw [List.foldl_cons]
    obtain ⟨h1, h2, h3⟩ := ih (if m < f x then f x else m)
    have hm : m ≤ (if m < f x then f x else m) := by split <;> linarith
    have hx : f x ≤ (if m < f x then f x else m) := by split <;> linarith
    refine ⟨le_trans hm h1, ?_, ?_⟩
    · intro i hi
      rcases List.mem_cons.mp hi with rfl | hi
      · exact le_trans hx h1
      · exact h2 i hi
    · rcases h3 with h3 | ⟨i, hi, h3⟩
      · by_cases hc : m < f x
        · right; refine ⟨x, by simp, ?_⟩; rw [h3, if_pos hc]
        · left; rw [h3, if_neg hc]
      · right; exact ⟨i, by simp [hi], h3⟩

theorem maxDiff_nonneg {n : ℕ} (h old : Fin n → K) : 0 ≤ maxDiff h old :=
  (foldl_max_ge (fun i => |h i - old i|) (List.finRange n) 0).1

theorem le_maxDiff {n : ℕ} (h old : Fin n → K) (i : Fin n) : |h i - old i| ≤ maxDiff h old :=
  (foldl_max_ge (fun i => |h i - old i|) (List.finRange n) 0).2.1 i (List.mem_finRange i)

theorem maxDiff_attained {n : ℕ} (h old : Fin n → K) (hn : 0 < n) : ∃ i, maxDiff h old = |h i - old i| := by
  rcases (foldl_max_ge (fun i => |h i - old i|) (List.finRange n) 0).2.2 with e | ⟨i, _, e⟩
  · refine ⟨⟨0, hn⟩, ?_⟩
    have h1 := le_maxDiff h old ⟨0, hn⟩
    have h2 : maxDiff h old = 0 := e
    have h3 := abs_nonneg (h ⟨0, hn⟩ - old ⟨0, hn⟩)
    linarith
  · exact ⟨i, e⟩

theorem activeRows_diff {n : ℕ} (h old : Fin n → K) (C : K) (i : Fin n) :
    (identifyActiveRows h old C).1 i = (identifyActiveRows h old C).2.1 i - old i := by
  unfold identifyActiveRows
  simp only []
  split <;> ring

theorem activeRows_mem {n : ℕ} (h old : Fin n → K) (C : K) (i : Fin n)
    (hi : i ∉ (identifyActiveRows h old C).2.2) : (identifyActiveRows h old C).1 i = 0 := by
  unfold identifyActiveRows at hi ⊢
  simpa using hi

theorem activeRows_zero {n : ℕ} (h old : Fin n → K) : (identifyActiveRows h old 0).2.1 = h := by
  unfold identifyActiveRows
  funext i
  simp only [zero_mul]
  rw [if_neg (not_lt.mpr (abs_nonneg _))]

/-! ### one update -/

/-- Invariant between iterations: on the last active set the stored matrix is the Hessian for `oldRows`. -/
def HInv {n p : ℕ} (ic : Bool) (X : Fin n → ℕ → K) (P2 : Pen2 K) (st : HessState K n (p + ic.toNat)) : Prop :=
  st.init = true → ∀ i ∈ st.active, ∀ j ∈ st.active, st.H i j = fullHessian ic X st.oldRows P2 i j

theorem updateHessian_block {n p : ℕ} (ic : Bool) (X : Fin n → ℕ → K) (P2 : Pen2 K) (C : K)
    (st : HessState K n (p + ic.toNat)) (hst : HInv ic X P2 st) (A : List (Fin (p + ic.toNat)))
    (hA : ActiveOK ic A) :
    ∀ i ∈ A, ∀ j ∈ A, (updateHessian ic X P2 C st A).H i j
      = fullHessian ic X (updateHessian ic X P2 C st A).rows P2 i j := by
  simp only [updateHessian]
  split
  · intro i hi j hj
    simp only [setBlock]
    rw [if_pos ⟨hi, hj⟩]
    unfold buildHessianDelta fullHessian
    rw [sandwich_entry ic X _ _ (by simp) A hA i j hi hj, addP2_entry ic P2 A hA i j hi hj]
  · rename_i hn
    push Not at hn
    have hsub : ∀ i ∈ A, i ∈ st.active := (isSubset_iff _ _ hA.1).mp hn.2
    intro i hi j hj
    simp only [setBlock]
    rw [if_pos ⟨hi, hj⟩]
    rw [hst hn.1 i (hsub i hi) j (hsub j hj)]
    unfold buildHessianDelta
    have h0 : addP2 ic p (none : Option (Pen2 K)) (activeFeatures ic A) (A.idxOf i) (A.idxOf j) = 0 := by
      unfold addP2 p2Entry; simp
    rw [h0, add_zero, sandwich_entry ic X _ _ (fun r hr => activeRows_mem _ _ _ _ hr) A hA i j hi hj]
    unfold fullHessian
    simp only [activeRows_diff]
    have : ∀ r, design ic X r i * ((identifyActiveRows st.rows st.oldRows C).2.1 r - st.oldRows r) * design ic X r j
      = design ic X r i * (identifyActiveRows st.rows st.oldRows C).2.1 r * design ic X r j
        - design ic X r i * st.oldRows r * design ic X r j := fun r => by ring
    simp only [this, Finset.sum_sub_distrib]
    ring

theorem updateHessian_init {n p : ℕ} (ic : Bool) (X : Fin n → ℕ → K) (P2 : Pen2 K) (C : K)
    (st : HessState K n (p + ic.toNat)) (A : List (Fin (p + ic.toNat))) :
    (updateHessian ic X P2 C st A).init = true ∧ (updateHessian ic X P2 C st A).active = A := by
  simp only [updateHessian]
  split
  · exact ⟨rfl, rfl⟩
  · rename_i hn
    push Not at hn
    exact ⟨hn.1, rfl⟩

theorem hessIter_inv {n p : ℕ} (ic : Bool) (X : Fin n → ℕ → K) (P2 : Pen2 K) (C : K)
    (st : HessState K n (p + ic.toNat)) (hst : HInv ic X P2 st) (A : List (Fin (p + ic.toNat)))
    (hA : ActiveOK ic A) (newRows : Fin n → K) : HInv ic X P2 (hessIter ic X P2 C st A newRows) := by
  intro _ i hi j hj
  have hact := (updateHessian_init ic X P2 C st A).2
  simp only [hessIter] at hi hj ⊢
  rw [hact] at hi hj
  exact updateHessian_block ic X P2 C st hst A hA i hi j hj

theorem updateHessian_rows {n p : ℕ} (ic : Bool) (X : Fin n → ℕ → K) (P2 : Pen2 K) (C : K)
    (st : HessState K n (p + ic.toNat)) (A : List (Fin (p + ic.toNat))) (r : Fin n) :
    (updateHessian ic X P2 C st A).rows r = st.rows r ∨ (updateHessian ic X P2 C st A).rows r = st.oldRows r := by
  simp only [updateHessian]
  split
  · exact Or.inl rfl
  · unfold identifyActiveRows
    simp only []
    split
    · right; rfl
    · left; rfl

end Glum
