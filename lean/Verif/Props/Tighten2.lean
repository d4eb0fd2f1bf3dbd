import Verif.Props.Wald
import Mathlib.Data.Fin.VecNotation
/-
Theorems added after mutation testing: the Wald test for terms (C52), the default dispersion of the covariance matrix (C50).
-/
set_option linter.unusedSectionVars false
set_option linter.unusedVariables false
set_option linter.unusedSimpArgs false

namespace Glum
open Spec Matrix

variable {m Q n p : ℕ} {ic : Bool}

/-- The restrictions of a test of `terms` against `values`: every coefficient whose column belongs to the term must equal the term's value. -/
def Spec.termHypotheses (names : List String) (hm : names.length = m) (tv : List (String × ℝ)) : List (Fin m × ℝ) :=
  tv.flatMap fun e => ((List.finRange m).filter fun j => names[j.val]'(hm ▸ j.isLt) = e.1).map fun j => (j, e.2)

theorem termColumns_eq (names : List String) (hm : names.length = m) (t : String) :
    termColumns names t = ((List.finRange m).filter fun j => names[j.val]'(hm ▸ j.isLt) = t).map Fin.val := by
  subst hm
  unfold termColumns
  rw [← List.map_coe_finRange_eq_range, List.filter_map]
  congr 1
  apply List.filter_congr
  intro j _
  simp

theorem termRestrictions_eq (names : List String) (hm : names.length = m) (tv : List (String × ℝ)) :
    termRestrictions names (tv.map fun e => (e.1, some e.2)) =
      if ∀ e ∈ tv, e.1 ∈ names then some ((Spec.termHypotheses names hm tv).map fun x => (x.1.val, some x.2)) else none := by
  have hempty : ∀ t, termColumns names t = [] ↔ t ∉ names := by
    intro t
    rw [termColumns_eq names hm]
    simp only [List.map_eq_nil_iff, List.filter_eq_nil_iff, List.mem_finRange, true_implies, decide_eq_true_eq]
    constructor
    · intro h ht
      obtain ⟨k, hk, rfl⟩ := List.getElem_of_mem ht
      exact h ⟨k, hm ▸ hk⟩ rfl
    · intro h j hj
      exact h (hj ▸ List.getElem_mem _)
  have key : (tv.map fun e => (e.1, some e.2)).mapM (fun tv : String × Option ℝ =>
      if termColumns names tv.1 = [] then none else some ((termColumns names tv.1).map fun j => (j, tv.2)))
      = if ∀ e ∈ tv, e.1 ∈ names then some (tv.map fun e => (termColumns names e.1).map fun j => (j, some e.2)) else none := by
    induction tv with
    | nil => simp
    | cons e tv ih =>
      simp only [List.map_cons, List.mapM_cons, ih, List.forall_mem_cons]
      by_cases h1 : e.1 ∈ names
      · rw [if_neg (by rw [hempty]; simpa using h1)]
        by_cases h2 : ∀ e ∈ tv, e.1 ∈ names
        · rw [if_pos h2, if_pos ⟨h1, h2⟩]; rfl
        · rw [if_neg h2, if_neg (fun h => h2 h.2)]; rfl
      · have hn : ¬ (e.1 ∈ names ∧ ∀ e ∈ tv, e.1 ∈ names) := fun h => h1 h.1
        rw [if_pos ((hempty _).2 h1), if_neg hn]; rfl
  unfold termRestrictions
  rw [key]
  split
  · simp only [Option.map_some, Option.some.injEq, Spec.termHypotheses]
    rw [List.map_flatMap, ← List.flatMap_def]
    congr 1
    funext e
    rw [termColumns_eq names hm, List.map_map, List.map_map]
    rfl
  · rfl

variable (chi2 : ℝ → ℕ → ℝ) (V : Matrix (Fin m) (Fin m) ℝ) (beta : Fin m → ℝ)

/-- The result for a list of restrictions `β_j = v`. -/
noncomputable def Spec.waldSelect (V : Matrix (Fin m) (Fin m) ℝ) (beta : Fin m → ℝ) (L : List (Fin m × ℝ)) : Option WaldResult :=
  open Classical in
  let idx : Fin L.length → Fin m := fun i => L[i].1
  let d : Fin L.length → ℝ := fun i => beta L[i].1 - L[i].2
  if IsUnit (V.submatrix idx idx).det then
    some ⟨d ⬝ᵥ ((V.submatrix idx idx)⁻¹ *ᵥ d), 1 - chi2 (d ⬝ᵥ ((V.submatrix idx idx)⁻¹ *ᵥ d)) L.length, L.length⟩
  else none

theorem select_aux (l : List (ℕ × Option ℝ)) (L : List (Fin m × ℝ)) (hl : l = L.map fun x => (x.1.val, some x.2)) :
    waldMatrix chi2 V beta (Matrix.of fun (i : Fin l.length) (j : Fin m) => if l[i].1 = j.val then (1 : ℝ) else 0)
      (.vec l.length fun i => l[i].2.getD 0) = Spec.waldSelect chi2 V beta L := by
  have hlen : l.length = L.length := by rw [hl, List.length_map]
  have hget : ∀ i : Fin l.length, l[i] = (L[i.cast hlen].1.val, some L[i.cast hlen].2) := by
    subst hl; intro i; simp
  have hsel := wald_selection chi2 V beta (fun i : Fin l.length => L[i.cast hlen].1)
    (Matrix.of fun (i : Fin l.length) (j : Fin m) => if l[i].1 = j.val then (1 : ℝ) else 0)
    (fun q j => by simp only [Matrix.of_apply]; rw [hget]) (fun i => l[i].2.getD 0)
  rw [hsel]
  have : ∀ (q : ℕ) (hq : q = L.length) (r : Fin q → ℝ), (∀ i, r i = L[i.cast hq].2) →
      (open Classical in if IsUnit (V.submatrix (fun i : Fin q => L[i.cast hq].1) (fun i : Fin q => L[i.cast hq].1)).det then
        some (⟨Spec.coefStat V beta (fun i : Fin q => L[i.cast hq].1) r, 1 - chi2 (Spec.coefStat V beta (fun i : Fin q => L[i.cast hq].1) r) q, q⟩ : WaldResult)
      else none) = Spec.waldSelect chi2 V beta L := by
    intro q hq r hr
    subst hq
    have hr' : r = fun i => L[i].2 := funext fun i => hr i
    subst hr'
    rfl
  exact this _ hlen _ fun i => by rw [hget]; rfl

/-- **C52, terms.** `wald_test(terms=…, r=values)` tests, for every term, that each coefficient of the term's columns (and no other) equals the
term's value; it raises exactly if the lengths differ, no term is given, a term has no columns, or the covariance of the tested
coefficients is singular. -/
theorem c52_terms (featNames termNames terms : List String) (hm : termNames.length = m) (values : List ℝ) :
    waldTest chi2 V beta featNames termNames ⟨none, none, some terms, none, some values⟩ =
      if terms.length = values.length ∧ terms ≠ [] ∧ ∀ t ∈ terms, t ∈ termNames then
        Spec.waldSelect chi2 V beta (Spec.termHypotheses termNames hm (terms.zip values))
      else none := by
  unfold waldTest
  simp only [Option.isSome_none, Option.isSome_some, Bool.toNat_false, Bool.toNat_true]
  rw [if_neg (by norm_num)]
  unfold waldTerms
  by_cases h1 : terms.length = values.length
  · simp only [h1, ne_eq, not_true_eq_false, if_false, Option.bind_eq_bind, Option.bind_some]
    have hz : terms.zip (values.map some) = (terms.zip values).map fun e => (e.1, some e.2) := by
      rw [List.zip_map_right]; rfl
    rw [hz, termRestrictions_eq termNames hm]
    have hmem : (∀ e ∈ terms.zip values, e.1 ∈ termNames) ↔ ∀ t ∈ terms, t ∈ termNames := by
      constructor
      · intro h t ht
        have : t ∈ (terms.zip values).map Prod.fst := by rw [List.map_fst_zip (by omega)]; exact ht
        obtain ⟨e, he, rfl⟩ := List.mem_map.1 this
        exact h e he
      · intro h e he
        exact h _ (List.of_mem_zip he).1
    by_cases h2 : ∀ t ∈ terms, t ∈ termNames
    · rw [if_pos (hmem.2 h2)]
      simp only [Option.bind_some]
      by_cases h3 : terms = []
      · rw [if_pos h3, if_neg (fun h => h.2.1 h3)]
      · rw [if_neg h3, if_pos ⟨trivial, h3, h2⟩]
        exact select_aux chi2 V beta _ _ rfl
    · rw [if_neg (fun h => h2 (hmem.1 h)), if_neg (fun h => h2 h.2.2)]
      rfl
  · simp only [ne_eq, h1, not_false_eq_true, if_true, Option.bind_eq_bind, Option.bind_none]
    rw [if_neg (fun h => h.1.elim)]

/-- **C52, features through `wald_test`.** `wald_test(features=…, r=values)` reads the names of the features, not of the terms. -/
theorem c52_test_features (featNames termNames features : List String) (hm : featNames.length = m) (values : List ℝ) :
    waldTest chi2 V beta featNames termNames ⟨none, some features, none, none, some values⟩ =
      open Classical in
      if h : features.length = values.length ∧ ∀ x ∈ features, x ∈ featNames then
        Spec.waldSelect chi2 V beta (List.ofFn fun i : Fin features.length =>
          ((⟨featNames.idxOf features[i], hm ▸ List.idxOf_lt_length_of_mem (h.2 _ (List.getElem_mem i.isLt))⟩ : Fin m),
            values[i]'(h.1 ▸ i.isLt)))
      else none := by
  have e : waldTest chi2 V beta featNames termNames ⟨none, some features, none, none, some values⟩
      = waldFeatures chi2 V beta featNames features (some values) := rfl
  rw [e, c52_features chi2 V beta featNames features hm values]
  split
  · next h =>
    have gen : ∀ (q : ℕ) (idx : Fin q → Fin m) (r : Fin q → ℝ),
        (open Classical in if IsUnit (V.submatrix idx idx).det then
          some (⟨Spec.coefStat V beta idx r, 1 - chi2 (Spec.coefStat V beta idx r) q, q⟩ : WaldResult) else none)
        = Spec.waldSelect chi2 V beta (List.ofFn fun i => (idx i, r i)) := by
      intro q idx r
      have : ∀ (q' : ℕ) (hq : q' = q) (idx' : Fin q' → Fin m) (r' : Fin q' → ℝ), (∀ i, idx' i = idx (i.cast hq)) →
          (∀ i, r' i = r (i.cast hq)) →
          (open Classical in if IsUnit (V.submatrix idx idx).det then
            some (⟨Spec.coefStat V beta idx r, 1 - chi2 (Spec.coefStat V beta idx r) q, q⟩ : WaldResult) else none)
          = (open Classical in if IsUnit (V.submatrix idx' idx').det then
            some (⟨Spec.coefStat V beta idx' r', 1 - chi2 (Spec.coefStat V beta idx' r') q', q'⟩ : WaldResult) else none) := by
        intro q' hq idx' r' h1 h2
        subst hq
        have e1 : idx' = idx := funext h1
        have e2 : r' = r := funext h2
        rw [e1, e2]
      refine (this (List.ofFn fun i => (idx i, r i)).length (List.length_ofFn) (fun i => (List.ofFn fun i => (idx i, r i))[i].1)
        (fun i => (List.ofFn fun i => (idx i, r i))[i].2) (fun i => by simp; rfl) (fun i => by simp; rfl)).trans rfl
    exact gen _ _ _
  · rfl

/-- **C50, the default dispersion.** If no dispersion is given the Pearson estimate with the number of coefficients (including the intercept)
as degrees of freedom is used: `Σ wᵢ (yᵢ − μᵢ)² / V(μᵢ)` divided by `Σ wᵢ − (p + 1)` (`p` without intercept). -/
theorem c50_default_dispersion (D : CovData n p ic) (o : CovOptions n) (h : o.dispersion = none) (ok : Bool) :
    covariance D o ok = covariance D ⟨o.robust, o.expected, o.clusters, some
      ((∑ i, D.w i * ((D.y i - D.mu i) ^ 2 / D.f.unitVariance (D.mu i))) / (∑ i, D.w i - (p + if ic then 1 else 0)))⟩ ok := by
  have hd : D.disp o = (∑ i, D.w i * ((D.y i - D.mu i) ^ 2 / D.f.unitVariance (D.mu i))) / (∑ i, D.w i - (p + if ic then 1 else 0)) := by
    unfold CovData.disp dispersionPearson
    rw [h]
    simp only [Option.getD_none]
    congr 1
    · exact Finset.sum_congr rfl fun i _ => mul_comm _ _
    · cases ic <;> simp
  rw [← hd]
  have h1 : D.disp ⟨o.robust, o.expected, o.clusters, some (D.disp o)⟩ = D.disp o := rfl
  have h2 : D.oim ⟨o.robust, o.expected, o.clusters, some (D.disp o)⟩ = D.oim o := rfl
  have h3 : D.gradient ⟨o.robust, o.expected, o.clusters, some (D.disp o)⟩ = D.gradient o := rfl
  unfold covariance
  simp only [h1, h2, h3]

-- Non-vacuity: a term with two columns in a model with an intercept, identity covariance: `(2 - 1)² + (4 - 1)² = 10`, two degrees of freedom.
example : waldTest chi2 (1 : Matrix (Fin 3) (Fin 3) ℝ) ![5, 2, 4] ["intercept", "a", "b"] ["intercept", "t", "t"]
    ⟨none, none, some ["t"], none, some [1]⟩ = some ⟨10, 1 - chi2 10 2, 2⟩ := by
  rw [c52_terms chi2 (1 : Matrix (Fin 3) (Fin 3) ℝ) ![5, 2, 4] ["intercept", "a", "b"] ["intercept", "t", "t"] ["t"] rfl [1],
    if_pos (by simp)]
  have hL : Spec.termHypotheses ["intercept", "t", "t"] rfl (["t"].zip [(1 : ℝ)]) = [((1 : Fin 3), 1), (2, 1)] := by
    simp [Spec.termHypotheses, List.finRange_succ]
  rw [hL]
  unfold Spec.waldSelect
  have hV : (1 : Matrix (Fin 3) (Fin 3) ℝ).submatrix (fun i : Fin 2 => [((1 : Fin 3), (1 : ℝ)), (2, 1)][i].1)
      (fun i : Fin 2 => [((1 : Fin 3), (1 : ℝ)), (2, 1)][i].1) = 1 := by
    ext i j; fin_cases i <;> fin_cases j <;> simp [Matrix.one_apply]
  simp only [List.length_cons, List.length_nil]
  erw [hV]
  simp [dotProduct, Fin.sum_univ_two]
  norm_num

end Glum
