import Verif.Model.Standardize
import Verif.Props.IRLS
/-
C15-C18: standardisation leaves predictions, penalties, bounds and hence the optimisation problem unchanged; what holds and what
fails for start values.
-/
set_option linter.unusedSectionVars false
set_option linter.unusedVariables false

namespace Glum
open Spec

variable {n p : ℕ} {ic : Bool}

/-- A coefficient vector with the intercept in front, from `(intercept_, coef_)`. -/
def Spec.coefVec {p : ℕ} (ic : Bool) (r : ℝ × (ℕ → ℝ)) (k : Fin (p + ic.toNat)) : ℝ :=
  if k.val < ic.toNat then r.1 else r.2 (k.val - ic.toNat)

theorem sum_icpt {M : Type*} [AddCommMonoid M] (ic : Bool) (g : Fin (p + ic.toNat) → M) (a : M)
    (h : ∀ k : Fin (p + ic.toNat), k.val < ic.toNat → g k = a) :
    ∑ k, g k = (if ic then a else 0) + ∑ j : Fin p, g ⟨j.val + ic.toNat, by omega⟩ := by
  rw [sum_split]
  cases ic with
  | false => simp
  | true =>
    rw [dif_pos (by simp), if_pos rfl, h _ (by simp)]

/-- The linear predictor, written with features and intercept apart. -/
theorem linPred_split (X : Fin n → ℕ → ℝ) (o : Fin n → ℝ) (v : Fin (p + ic.toNat) → ℝ) (i : Fin n) :
    linPred ic X o v i = (if ic then icpt ic v else 0) + ∑ j : Fin p, X i j * feat ic v j + o i := by
  unfold linPred
  congr 1
  rw [sum_icpt ic _ (icpt ic v)]
  · congr 1
    apply Finset.sum_congr rfl; intro j _
    rw [design_ge X i _ (by simp), feat_eq]
    simp
  · intro k hk
    rw [design_lt X i k hk, one_mul]
    unfold icpt
    rw [dif_pos (by omega)]
    congr 1; apply Fin.ext
    have : ic.toNat ≤ 1 := by cases ic <;> simp
    simp only []; omega

theorem coefVec_feat (r : ℝ × (ℕ → ℝ)) (j : Fin p) : feat ic (coefVec (p := p) ic r) j = r.2 j := by
  rw [feat_eq]; unfold coefVec; simp

theorem coefVec_icpt (r : ℝ × (ℕ → ℝ)) : (if ic then icpt ic (coefVec (p := p) ic r) else 0) = if ic then r.1 else 0 := by
  cases ic with
  | false => rfl
  | true => simp [icpt, coefVec]

/-- **C15.** For every matrix, weights (whatever means and deviations they give, constant columns included), coefficients and
row: the reported `coef_` and `intercept_` applied to the original row give the solver's linear predictor on the standardised
matrix. -/
theorem c15_same_predictions (thr : ℝ) (means stds : ℕ → ℝ) (X : Fin n → ℕ → ℝ) (o : Fin n → ℝ)
    (c : Fin (p + ic.toNat) → ℝ) (i : Fin n) :
    ∑ j : Fin p, X i j * (report ic thr means stds c).2 j + (report ic thr means stds c).1 + o i
      = linPred ic (stdX thr ic means stds X) o c i := by
  rw [linPred_split]
  unfold report unstandardize stdX outMeans
  simp only [Finset.sum_range]
  cases ic with
  | false =>
    simp only [Bool.false_eq_true, if_false, zero_mul, Finset.sum_const_zero, sub_zero, add_zero, zero_add]
    congr 1
    apply Finset.sum_congr rfl; intro j _; ring
  | true =>
    simp only [if_true]
    have : ∑ j : Fin p, (oneOverStd thr 1 (stds j) * X i j + -(means j) * oneOverStd thr 1 (stds j)) * feat true c j
        = ∑ j : Fin p, X i j * (feat true c j * oneOverStd thr 1 (stds j))
          - ∑ j : Fin p, means j * oneOverStd thr 1 (stds j) * feat true c j := by
      rw [← Finset.sum_sub_distrib]
      apply Finset.sum_congr rfl; intro j _; ring
    rw [this]; ring

/-- The same for the `col_stds is None` branch of `unstandardize` (centring without scaling). -/
theorem c15_centre_only (thr : ℝ) (means : ℕ → ℝ) (X : Fin n → ℕ → ℝ) (b0 : ℝ) (b : ℕ → ℝ) (i : Fin n) :
    ∑ j : Fin p, X i j * (unstandardize p thr means none b0 b).2 j + (unstandardize p thr means none b0 b).1
      = ∑ j : Fin p, (X i j - means j) * b j + b0 := by
  unfold unstandardize
  simp only [Finset.sum_range, sub_mul, Finset.sum_sub_distrib]
  ring

theorem coefVec_linPred (thr : ℝ) (means stds : ℕ → ℝ) (X : Fin n → ℕ → ℝ) (o : Fin n → ℝ)
    (c : Fin (p + ic.toNat) → ℝ) (i : Fin n) :
    linPred ic X o (coefVec (p := p) ic (report ic thr means stds c)) i = linPred ic (stdX thr ic means stds X) o c i := by
  rw [← c15_same_predictions, linPred_split, coefVec_icpt]
  simp only [coefVec_feat]
  have : (if ic then (report ic thr means stds c).1 else 0) = (report ic thr means stds c).1 := by
    cases ic with
    | true => rfl
    | false => simp [report, unstandardize, outMeans]
  rw [this]; ring

theorem oneOverStd_pos (thr s : ℝ) (ht : 0 < thr) (hs : 0 ≤ s) : 0 < oneOverStd thr 1 s := by
  unfold oneOverStd
  split
  · exact one_pos
  · rename_i h
    rw [abs_of_nonneg hs] at h
    exact one_div_pos.2 (by linarith)

theorem report_feat (thr : ℝ) (means stds : ℕ → ℝ) (c : Fin (p + ic.toNat) → ℝ) (j : ℕ) :
    (report ic thr means stds c).2 j = feat ic c j * oneOverStd thr 1 (stds j) := rfl

theorem l1_split (P1 : ℕ → ℝ) (v : Fin (p + ic.toNat) → ℝ) :
    l1 ic P1 v = ∑ j : Fin p, P1 j * |feat ic v j| := by
  unfold l1
  rw [sum_icpt ic _ 0]
  · simp only [ite_self, zero_add]
    apply Finset.sum_congr rfl; intro j _
    rw [feat_eq]
    congr 1
    unfold l1Weight
    cases ic <;> simp
  · intro k hk
    cases ic with
    | false => simp at hk
    | true =>
      have : k.val = 0 := by simpa using hk
      simp [l1Weight, this]

theorem p2_split (P2 : Pen2 ℝ) (v : Fin (p + ic.toNat) → ℝ) :
    ∑ i, ∑ k, p2Full ic P2 i k * v i * v k
      = ∑ i : Fin p, ∑ k : Fin p, p2Matrix P2 i k * feat ic v i * feat ic v k := by
  rw [sum_icpt ic _ 0]
  · simp only [ite_self, zero_add]
    apply Finset.sum_congr rfl; intro i _
    rw [sum_icpt ic _ 0]
    · simp only [ite_self, zero_add]
      apply Finset.sum_congr rfl; intro k _
      rw [p2Full_shift, feat_eq, feat_eq]
    · intro k hk
      rw [p2Full_right_zero P2 _ k hk]; ring
  · intro k hk
    apply Finset.sum_eq_zero; intro j _
    rw [p2Full_left_zero P2 k j hk]; ring

theorem scaleP2_entry (inv : ℕ → ℝ) (P2 : Pen2 ℝ) (j k : ℕ) :
    p2Matrix (scaleP2 inv P2) j k = inv j * p2Matrix P2 j k * inv k := by
  cases P2 with
  | vec v =>
    simp only [scaleP2, p2Matrix]
    split
    · rename_i h; subst h; ring
    · ring
  | dense m => rfl
  | sparse m =>
    simp only [scaleP2, p2Matrix]
    unfold SparseMat.toArray
    induction m with
    | nil => simp
    | cons e m ih =>
      rw [List.map_cons, List.filter_cons, List.filter_cons]
      by_cases h : e.1 = j ∧ e.2.1 = k
      · simp only [h, and_self, decide_true, if_true, List.map_cons, List.sum_cons]
        rw [ih]; ring
      · simp only [h, decide_false, Bool.false_eq_true, if_false]
        rw [ih]

/-- **C16, penalties.** Without `scale_predictors` the rescaled P1 and P2 (vector, dense or sparse) give the solver's coefficients
the same L1 and L2 penalty as the user's P1 and P2 give the reported coefficients. -/
theorem c16_same_penalty (thr : ℝ) (ht : 0 < thr) (means stds : ℕ → ℝ) (hs : ∀ j, 0 ≤ stds j) (D : IRLSData n p ic)
    (c : Fin (p + ic.toNat) → ℝ) :
    l1 ic (stdData thr false means stds D).P1 c = l1 ic D.P1 (coefVec (p := p) ic (report ic thr means stds c)) ∧
    ridge (stdData thr false means stds D) c = ridge D (coefVec (p := p) ic (report ic thr means stds c)) := by
  constructor
  · rw [l1_split, l1_split]
    apply Finset.sum_congr rfl; intro j _
    rw [coefVec_feat, report_feat, abs_mul, abs_of_pos (oneOverStd_pos thr _ ht (hs j))]
    simp only [stdData, standardize, Bool.false_eq_true, if_false]
    ring
  · unfold ridge
    rw [p2_split, p2_split]
    congr 1
    apply Finset.sum_congr rfl; intro j _
    apply Finset.sum_congr rfl; intro k _
    rw [coefVec_feat, coefVec_feat, report_feat, report_feat]
    simp only [stdData, standardize, Bool.false_eq_true, if_false]
    rw [scaleP2_entry]; ring

/-- **C16, objective.** The objective the solver works on equals the documented objective, on the original scale, of the reported
coefficients. -/
theorem c16_same_objective (thr : ℝ) (ht : 0 < thr) (means stds : ℕ → ℝ) (hs : ∀ j, 0 ≤ stds j) (D : IRLSData n p ic)
    (c : Fin (p + ic.toNat) → ℝ) :
    objective (stdData thr false means stds D) c = objective D (coefVec (p := p) ic (report ic thr means stds c)) := by
  obtain ⟨h1, h2⟩ := c16_same_penalty thr ht means stds hs D c
  unfold objective smoothObj
  rw [h1, h2]
  congr 3
  apply Finset.sum_congr rfl; intro r _
  rw [coefVec_linPred]
  rfl

/-- With `scale_predictors` the penalty is unchanged in form: it is the user's penalty of the coefficients measured per standard
deviation, i.e. of `coef_[j] * std[j]` (constant columns: of `coef_[j]`). -/
theorem c16_scaled_penalty (thr : ℝ) (ht : 0 < thr) (means stds : ℕ → ℝ) (hs : ∀ j, 0 ≤ stds j) (D : IRLSData n p ic)
    (c : Fin (p + ic.toNat) → ℝ) :
    l1 ic (stdData thr true means stds D).P1 c
      = ∑ j : Fin p, D.P1 j * |(report ic thr means stds c).2 j * (if stds j < thr then 1 else stds j)| ∧
    ridge (stdData thr true means stds D) c
      = 1 / 2 * ∑ j : Fin p, ∑ k : Fin p, p2Matrix D.P2 j k *
          ((report ic thr means stds c).2 j * (if stds j < thr then 1 else stds j)) *
          ((report ic thr means stds c).2 k * (if stds k < thr then 1 else stds k)) := by
  have hf : ∀ j, (report ic thr means stds c).2 j * (if stds j < thr then 1 else stds j) = feat ic c j := by
    intro j
    rw [report_feat]
    unfold oneOverStd
    rw [abs_of_nonneg (hs j)]
    split
    · ring
    · rename_i h
      have : stds j ≠ 0 := by intro h0; rw [h0] at h; exact h ht
      field_simp
  simp only [hf]
  constructor
  · rw [l1_split]; rfl
  · unfold ridge
    rw [p2_split]; rfl

/-- **C18, bounds.** The standardised bounds hold for the solver's coefficients iff the user's bounds hold for the reported ones. -/
theorem c18_bounds (thr : ℝ) (ht : 0 < thr) (means stds : ℕ → ℝ) (hs : ∀ j, 0 ≤ stds j) (asIf : Bool) (D : IRLSData n p ic)
    (c : Fin (p + ic.toNat) → ℝ) :
    InBounds ic (stdData thr asIf means stds D).lb (stdData thr asIf means stds D).ub c
      ↔ InBounds ic D.lb D.ub (coefVec (p := p) ic (report ic thr means stds c)) := by
  unfold InBounds
  have key : ∀ (i : Fin (p + ic.toNat)) (k : ℕ), i.val = k + ic.toNat →
      coefVec (p := p) ic (report ic thr means stds c) i = c i * oneOverStd thr 1 (stds k) := by
    intro i k hik
    have hk : k < p := by have := i.2; omega
    unfold coefVec
    rw [if_neg (by omega), show i.val - ic.toNat = k by omega, report_feat]
    have := feat_eq (ic := ic) c ⟨k, hk⟩
    simp only [] at this
    rw [this]
    congr 2
    apply Fin.ext; simp only []; omega
  have aux : ∀ i k, (hik : (i : Fin (p + ic.toNat)).val = k + ic.toNat) →
      (((∀ l, (stdData thr asIf means stds D).lb = some l → l k ≤ c i) ∧
        (∀ u, (stdData thr asIf means stds D).ub = some u → c i ≤ u k)) ↔
      ((∀ l, D.lb = some l → l k ≤ coefVec (p := p) ic (report ic thr means stds c) i) ∧
        (∀ u, D.ub = some u → coefVec (p := p) ic (report ic thr means stds c) i ≤ u k))) := by
    intro i k hik
    rw [key i k hik]
    have hpos := oneOverStd_pos thr (stds k) ht (hs k)
    simp only [stdData, standardize]
    constructor
    · rintro ⟨h1, h2⟩
      refine ⟨fun l hl => ?_, fun u hu => ?_⟩
      · have := h1 (fun j => l j / oneOverStd thr 1 (stds j)) (by rw [hl]; rfl)
        exact (div_le_iff₀ hpos).1 this
      · have := h2 (fun j => u j / oneOverStd thr 1 (stds j)) (by rw [hu]; rfl)
        exact (le_div_iff₀ hpos).1 this
    · rintro ⟨h1, h2⟩
      refine ⟨fun l hl => ?_, fun u hu => ?_⟩
      · cases hD : D.lb with
        | none => rw [hD] at hl; simp at hl
        | some l' =>
          rw [hD] at hl
          simp only [Option.map_some, Option.some.injEq] at hl
          rw [← hl]
          exact (div_le_iff₀ hpos).2 (h1 l' hD)
      · cases hD : D.ub with
        | none => rw [hD] at hu; simp at hu
        | some u' =>
          rw [hD] at hu
          simp only [Option.map_some, Option.some.injEq] at hu
          rw [← hu]
          exact (le_div_iff₀ hpos).2 (h2 u' hD)
  constructor
  · intro h i k hik; exact (aux i k hik).1 (h i k hik)
  · intro h i k hik; exact (aux i k hik).2 (h i k hik)

/-- **C18, inequality constraints.** A row of the rescaled `A_ineq` applied to the solver's coefficients gives the same number as the
user's row applied to the reported coefficients, so `A_ineq coef_ ≤ b_ineq` holds iff the solver's constraint holds. -/
theorem c18_inequalities (thr : ℝ) (center asIf : Bool) (means stds : ℕ → ℝ) (X : Fin n → ℕ → ℝ) (lb ub : Option (ℕ → ℝ))
    (A : ℕ → ℕ → ℝ) (P1 : ℕ → ℝ) (P2 : Pen2 ℝ) (c : Fin (p + ic.toNat) → ℝ) :
    ∃ A', (standardize thr center asIf means stds X lb ub (some A) P1 P2).A = some A' ∧
      ∀ r, ∑ j : Fin p, A' r j * feat ic c j = ∑ j : Fin p, A r j * (report ic thr means stds c).2 j := by
  refine ⟨_, rfl, fun r => ?_⟩
  apply Finset.sum_congr rfl; intro j _
  rw [report_feat]; ring

/-- Every coefficient vector on the original scale is the report of some solver vector. -/
theorem report_surjective (thr : ℝ) (ht : 0 < thr) (means stds : ℕ → ℝ) (hs : ∀ j, 0 ≤ stds j)
    (v : Fin (p + ic.toNat) → ℝ) : ∃ c : Fin (p + ic.toNat) → ℝ, coefVec (p := p) ic (report ic thr means stds c) = v := by
  let f : ℕ → ℝ := fun j => feat ic v j / oneOverStd thr 1 (stds j)
  let c : Fin (p + ic.toNat) → ℝ := fun k =>
    if k.val < ic.toNat then v k + ∑ j : Fin p, means j * feat ic v j else f (k.val - ic.toNat)
  have hcf : ∀ j : Fin p, feat ic c j = f j := by
    intro j; rw [feat_eq]; simp [c]
  refine ⟨c, funext fun k => ?_⟩
  have hne : ∀ j, oneOverStd thr 1 (stds j) ≠ 0 := fun j => (oneOverStd_pos thr _ ht (hs j)).ne'
  unfold coefVec
  by_cases hk : k.val < ic.toNat
  · rw [if_pos hk]
    cases ic with
    | false => simp at hk
    | true =>
      have hk0 : k = ⟨0, by simp⟩ := by apply Fin.ext; simpa using hk
      subst hk0
      unfold report unstandardize outMeans
      simp only [if_true, Finset.sum_range]
      have h0 : icpt true c = v ⟨0, by simp⟩ + ∑ j : Fin p, means j * feat true v j := by
        simp [icpt, c]
      rw [h0]
      have : ∑ j : Fin p, means j * oneOverStd thr 1 (stds j) * feat true c j = ∑ j : Fin p, means j * feat true v j := by
        apply Finset.sum_congr rfl; intro j _
        rw [hcf]
        have := hne j
        simp only [f]; field_simp
      rw [this]; ring
  · rw [if_neg hk, report_feat]
    have hj : k.val - ic.toNat < p := by have := k.2; omega
    rw [hcf ⟨_, hj⟩]
    simp only [f]
    rw [div_mul_cancel₀ _ (hne _), feat_eq v ⟨_, hj⟩]
    congr 1; apply Fin.ext; simp only []; omega

/-- **C16/C18, consequence.** If the solver's vector minimises its (standardised) problem within its bounds, then the reported
coefficients respect the user's bounds and minimise the documented objective on the original scale among all coefficient vectors
that do. -/
theorem c16_minimiser (thr : ℝ) (ht : 0 < thr) (means stds : ℕ → ℝ) (hs : ∀ j, 0 ≤ stds j) (D : IRLSData n p ic)
    (c : Fin (p + ic.toNat) → ℝ)
    (hc : InBounds ic (stdData thr false means stds D).lb (stdData thr false means stds D).ub c)
    (hmin : ∀ c', InBounds ic (stdData thr false means stds D).lb (stdData thr false means stds D).ub c' →
      objective (stdData thr false means stds D) c ≤ objective (stdData thr false means stds D) c') :
    InBounds ic D.lb D.ub (coefVec (p := p) ic (report ic thr means stds c)) ∧
    ∀ v, InBounds ic D.lb D.ub v → objective D (coefVec (p := p) ic (report ic thr means stds c)) ≤ objective D v := by
  refine ⟨(c18_bounds thr ht means stds hs false D c).1 hc, fun v hv => ?_⟩
  obtain ⟨c', rfl⟩ := report_surjective (ic := ic) (p := p) thr ht means stds hs v
  rw [← c16_same_objective thr ht means stds hs, ← c16_same_objective thr ht means stds hs]
  exact hmin c' ((c18_bounds thr ht means stds hs false D c').2 hv)

/-! ### C17 -/

/-- **C17 (partial).** With an intercept and no (near-)constant column, translating start coefficients to the standardised scale and
back returns them.  Missing: constant columns and models without intercept, where the claim is false (below). -/
theorem c17_round_trip_partial (thr : ℝ) (ht : 0 < thr) (means stds : ℕ → ℝ) (hs : ∀ j, j < p → thr ≤ stds j) (guess : ℝ)
    (v : Fin (p + true.toNat) → ℝ) :
    coefVec true (report (p := p) true thr means stds (rawStart true thr means stds guess (.given v))) = v ∧
    rawStart true thr means stds guess (.previous v) = rawStart true thr means stds guess (.given v) := by
  refine ⟨?_, rfl⟩
  have hinv : ∀ j, j < p → oneOverStd thr 1 (stds j) = 1 / stds j := by
    intro j hj
    unfold oneOverStd
    rw [if_neg]
    have := hs j hj
    rw [abs_of_nonneg (by linarith)]
    linarith
  have hpos : ∀ j, j < p → stds j ≠ 0 := fun j hj => by have := hs j hj; linarith
  set c := rawStart (p := p) true thr means stds guess (.given v) with hcdef
  have hc0 : icpt true c = v ⟨0, by simp⟩ + ∑ j : Fin p, means j * oneOverStd thr 1 (stds j) * (v ⟨j.val + 1, by simp⟩ * stds j) := by
    simp [icpt, hcdef, rawStart, standardizeWarmStart]
    rfl
  have hcf : ∀ j : Fin p, feat true c j = v ⟨j.val + 1, by simp⟩ * stds j := by
    intro j
    rw [feat_eq]
    simp [hcdef, rawStart, standardizeWarmStart]
  funext k
  unfold coefVec
  by_cases hk : k.val < true.toNat
  · rw [if_pos hk]
    have hk0 : k = ⟨0, by simp⟩ := by apply Fin.ext; simpa using hk
    subst hk0
    unfold report unstandardize outMeans
    simp only [if_true, Finset.sum_range]
    rw [hc0]
    have : ∑ j : Fin p, means j * oneOverStd thr 1 (stds j) * feat true c j
        = ∑ j : Fin p, means j * oneOverStd thr 1 (stds j) * (v ⟨j.val + 1, by simp⟩ * stds j) := by
      apply Finset.sum_congr rfl; intro j _; rw [hcf]
    rw [this]; ring
  · rw [if_neg hk, report_feat]
    have hj : k.val - true.toNat < p := by have := k.2; omega
    rw [hcf ⟨_, hj⟩, hinv _ hj]
    have := hpos _ hj
    simp only []
    rw [mul_assoc, mul_one_div_cancel this, mul_one]
    congr 1; apply Fin.ext; simp only [Bool.toNat_true] at *; omega

/-- **C17, counterexample (F3).** A constant column: its start coefficient is lost (it comes back as 0). -/
theorem c17_constant_column_counterexample :
    ∃ (thr : ℝ) (means stds : ℕ → ℝ) (v : Fin (1 + true.toNat) → ℝ), 0 < thr ∧ (∀ j, 0 ≤ stds j) ∧
      coefVec true (report (p := 1) true thr means stds (rawStart true thr means stds 0 (.given v))) ≠ v := by
  refine ⟨1 / 1000, fun _ => 5, fun _ => 0, fun _ => 1, by norm_num, fun _ => le_refl _, fun h => ?_⟩
  have := congrFun h ⟨1, by simp⟩
  simp [coefVec, report, unstandardize, feat, rawStart, standardizeWarmStart] at this

/-- **C17, counterexample (F5).** Without intercept the start coefficients are not translated to the scale of the standardised
columns, although the result is translated back. -/
theorem c17_no_intercept_counterexample :
    ∃ (thr : ℝ) (means stds : ℕ → ℝ) (v : Fin (1 + false.toNat) → ℝ), 0 < thr ∧ (∀ j, thr ≤ stds j) ∧
      coefVec false (report (p := 1) false thr means stds (rawStart false thr means stds 0 (.given v))) ≠ v := by
  refine ⟨1 / 1000, fun _ => 0, fun _ => 2, fun _ => 1, by norm_num, fun _ => by norm_num, fun h => ?_⟩
  have := congrFun h ⟨0, by simp⟩
  simp [coefVec, report, unstandardize, feat, rawStart, oneOverStd] at this
  norm_num at this

/-! ### start values and bounds (F4) -/

/-- Two rows `x = ∓2`, `y = ∓1/2`, Gaussian with intercept, lower bound 1/2 on the slope (the unconstrained slope is 1/4). -/
noncomputable def clipEx : IRLSData 2 1 true where
  X := fun i _ => if i = 0 then -2 else 2
  y := fun i => if i = 0 then -(1 / 2) else 1 / 2
  sw := fun _ => 1 / 2
  P1 := fun _ => 0
  P2 := .vec fun _ => 0
  fam := normalRow
  maxIter := 1
  maxInnerIter := 10
  gradTol := 1 / 10000
  stepTol := none
  hessApprox := 0
  fixedInnerTol := none
  random := false
  offset := none
  lb := some fun _ => 1 / 2
  ub := none
  eps := 1 / 10 ^ 15
  large := 10 ^ 30

/-- The weighted mean and standard deviation of the column of `clipEx` are 0 and 2. -/
theorem clipEx_moments : ∑ i, clipEx.sw i * clipEx.X i 0 = 0 ∧
    Real.sqrt (∑ i, clipEx.sw i * (clipEx.X i 0 - 0) ^ 2) = 2 := by
  constructor
  · simp [clipEx, Fin.sum_univ_two]
  · have : ∑ i, clipEx.sw i * (clipEx.X i 0 - 0) ^ 2 = 2 ^ 2 := by
      simp [clipEx]
    rw [this, Real.sqrt_sq (by norm_num)]

/-- The start vector `_get_start_coef` produces for a cold start of `clipEx`: intercept 0 (the mean of `y`), slope 1/2. -/
noncomputable def clipStartVec : Fin (1 + true.toNat) → ℝ :=
  getStartCoef true (1 / 1000) (fun _ => 0) (fun _ => 2) 0 clipEx.lb clipEx.ub .cold

/-- **C19, counterexample (F4).** The start vector is clipped against the user's bounds although it lives on the
standardised scale.  Here (a feasible problem: any slope ≥ 1/2 is allowed) the clipped start violates the bounds the solver is
given, happens to be stationary, so the solver stops at once and the reported coefficient violates the user's lower bound. -/
theorem c19_start_clip_counterexample (inner : Inner 2 1 true) :
    ¬ InBounds true clipEx.lb clipEx.ub (coefVec (p := 1) true (report true (1 / 1000) (fun _ => 0) (fun _ => 2)
      (irlsRun inner (stdData (1 / 1000) false (fun _ => 0) (fun _ => 2) clipEx) clipStartVec).coef)) := by
  have hv0 : clipStartVec ⟨0, by simp⟩ = 0 := by
    simp [clipStartVec, getStartCoef, clipStart, rawStart]
  have hv1 : clipStartVec ⟨1, by simp⟩ = 1 / 2 := by
    simp [clipStartVec, getStartCoef, clipStart, rawStart, clipEx]
  have hinv : oneOverStd (1 / 1000) 1 2 = 1 / 2 := by
    unfold oneOverStd; rw [if_neg (by norm_num)]
  set D := stdData (1 / 1000) false (fun _ => 0) (fun _ => 2) clipEx with hD
  have hX : ∀ i, D.X i 0 = if i = 0 then -1 else 1 := by
    intro i
    simp only [hD, stdData, standardize, stdX, hinv, clipEx]
    split <;> norm_num
  have hres : ∀ i, linPred true D.X (off D) clipStartVec i = D.y i := by
    intro i
    rw [linPred_split]
    have h0 : icpt (p := 1) true clipStartVec = 0 := by
      simp only [icpt]; rw [dif_pos (by simp)]; exact hv0
    have h1 : feat true clipStartVec 0 = 1 / 2 := by
      simp only [feat]; rw [dif_pos (by simp)]; exact hv1
    simp only [if_true, h0, Fin.sum_univ_one]
    have : ((0 : Fin 1) : ℕ) = 0 := rfl
    rw [this, h1, hX]
    have hoff : off D i = 0 := rfl
    rw [hoff]
    fin_cases i <;> simp [hD, stdData, clipEx]
  have hscore : ∀ k, scoreAt D clipStartVec k = 0 := by
    intro k
    unfold scoreAt
    simp only [hres]
    have h1 : ∀ r, D.fam.grad (D.y r) (D.sw r) (D.y r) (D.fam.inv (D.y r)) = 0 := by
      intro r
      change D.sw r * (D.y r - D.y r) = 0
      ring
    have h2 : ∀ i k : Fin (1 + true.toNat), p2Full true D.P2 i k = 0 := by
      intro i k
      fin_cases i <;> fin_cases k <;> simp [p2Full, p2Matrix, hD, stdData, standardize, scaleP2, clipEx]
    simp [h1, h2]
  have hrun := c32_converged_start inner D (fun k => by simp [hD, stdData, standardize, clipEx]) clipStartVec (by
    have h2 := norm_eq_finset_sum (id : Fin (1 + true.toNat) → _) strictMono_id clipStartVec
      (fun i => -scoreAt D clipStartVec i) D.P1 true D.lb D.ub
    rw [List.map_id] at h2
    rw [h2]
    have : ∀ s, absTerm clipStartVec (fun i => -scoreAt D clipStartVec i) D.P1 true D.lb D.ub (id s) = 0 := by
      intro s
      have hp : ∀ k, D.P1 k = 0 := fun k => by simp [hD, stdData, standardize, clipEx]
      simp only [hscore]
      have hu : D.ub = none := rfl
      have hl : D.lb = some fun _ => 1 / 2 / oneOverStd (1 / 1000) 1 2 := rfl
      simp [absTerm, subgradTerm, hp, fsign, fmax, hu, hl]
    rw [Finset.sum_eq_zero (fun s _ => this s)]
    simp [hD, stdData, clipEx])
  rw [hrun.1]
  intro h
  have := (h ⟨1, by simp⟩ 0 (by simp)).1 (fun _ => 1 / 2) rfl
  have e : coefVec (p := 1) true (report true (1 / 1000) (fun _ => 0) (fun _ => 2) clipStartVec) ⟨1, by simp⟩ = 1 / 4 := by
    unfold coefVec
    rw [if_neg (by simp)]
    rw [report_feat, hinv]
    have h1 : feat true clipStartVec 0 = 1 / 2 := by
      simp only [feat]; rw [dif_pos (by simp)]; exact hv1
    simp only [Bool.toNat_true, Nat.sub_self]
    rw [h1]; norm_num
  rw [e] at this
  norm_num at this

/-- **C19 (partial: the start must lie in the standardised bounds, which `_get_start_coef` does not guarantee, see above).** When the start *is* inside the standardised bounds the reported coefficients respect the user's bounds (C19 and C18
composed), for every intermediate result of the coordinate-descent solver. -/
theorem c19_reported_in_bounds_partial (seeds : ℕ → BitVec 32) (thr : ℝ) (ht : 0 < thr) (means stds : ℕ → ℝ) (hs : ∀ j, 0 ≤ stds j)
    (asIf : Bool) (D : IRLSData n p ic) (hb : BoundsOrdered D.lb D.ub) (c0 : Fin (p + ic.toNat) → ℝ)
    (h0 : InBounds ic (stdData thr asIf means stds D).lb (stdData thr asIf means stds D).ub c0) :
    InBounds ic D.lb D.ub (coefVec (p := p) ic (report ic thr means stds
      (irlsRun (cdInner seeds) (stdData thr asIf means stds D) c0).coef)) := by
  rw [← c18_bounds thr ht means stds hs asIf]
  apply c19_run_in_bounds seeds _ _ c0 h0
  intro l u hl hu k
  simp only [stdData, standardize] at hl hu
  cases hDl : D.lb with
  | none => rw [hDl] at hl; simp at hl
  | some l' =>
    cases hDu : D.ub with
    | none => rw [hDu] at hu; simp at hu
    | some u' =>
      rw [hDl] at hl; rw [hDu] at hu
      simp only [Option.map_some, Option.some.injEq] at hl hu
      rw [← hl, ← hu]
      exact div_le_div_of_nonneg_right (hb l' u' hDl hDu k) (oneOverStd_pos thr _ ht (hs k)).le

-- Non-vacuity: one centred problem with a constant column (std 0) and a varying one (std 2).
example : ∃ (thr : ℝ) (stds : ℕ → ℝ), 0 < thr ∧ (∀ j, 0 ≤ stds j) ∧ oneOverStd thr 1 (stds 0) = 1 ∧ oneOverStd thr 1 (stds 1) = 1 / 2 :=
  ⟨1 / 1000, fun j => if j = 0 then 0 else 2, by norm_num, fun j => by dsimp only; split <;> norm_num, by
    simp [oneOverStd], by simp [oneOverStd]; norm_num⟩

-- Non-vacuity of `c16_minimiser`: for `clipEx` the standardised vector (0, 1) is feasible.
example : InBounds true (stdData (1 / 1000) false (fun _ => 0) (fun _ => 2) clipEx).lb
    (stdData (1 / 1000) false (fun _ => 0) (fun _ => 2) clipEx).ub (fun k : Fin (1 + true.toNat) => if k.val = 0 then 0 else 1) := by
  intro i k hik
  have h0 : i.val ≠ 0 := by simp at hik; omega
  simp only [stdData, standardize, clipEx, Option.map_some, Option.map_none, Option.some.injEq, h0, if_false]
  refine ⟨?_, fun u hu => by simp at hu⟩
  rintro l rfl
  unfold oneOverStd
  rw [if_neg (by norm_num)]; norm_num

end Glum
