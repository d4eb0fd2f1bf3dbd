import Mathlib.LinearAlgebra.Matrix.InvariantBasisNumber
import Verif.Props.Wald
/-
C105: inference does not depend on how the columns are coded.
-/
set_option linter.unusedSectionVars false
set_option linter.unusedVariables false
set_option linter.unusedSimpArgs false

namespace Glum
open Spec Matrix

variable {n p p' : ℕ} {ic ic' : Bool}

/-- The same model with other columns: the rows of the second design (with the column of ones, if there is one) are those of the first times an invertible matrix `A`, whose
inverse is `B`; responses, weights, family, link and predictions are the same. -/
structure Spec.Recoded (D : CovData n p ic) (D' : CovData n p' ic') (A : Matrix (Fin (p + ic.toNat)) (Fin (p' + ic'.toNat)) ℝ)
    (B : Matrix (Fin (p' + ic'.toNat)) (Fin (p + ic.toNat)) ℝ) : Prop where
  family : D'.f = D.f
  link : D'.l = D.l
  y : D'.y = D.y
  mu : D'.mu = D.mu
  w : D'.w = D.w
  rows : ∀ i k, design ic' D'.X i k = ∑ j, design ic D.X i j * A j k
  AB : A * B = 1
  BA : B * A = 1

section Solve
variable {m m' k : ℕ} {A : Matrix (Fin m) (Fin m') ℝ} {B : Matrix (Fin m') (Fin m) ℝ}

theorem conj_inv {M : Matrix (Fin m) (Fin m) ℝ} (hAB : A * B = 1) (hBA : B * A = 1) (h : IsUnit M.det) :
    IsUnit (Aᵀ * M * A).det ∧ (Aᵀ * M * A)⁻¹ = B * M⁻¹ * Bᵀ := by
  have hT : Aᵀ * Bᵀ = 1 := by rw [← Matrix.transpose_mul, hBA, Matrix.transpose_one]
  have e : (Aᵀ * M * A) * (B * M⁻¹ * Bᵀ) = 1 := by
    calc (Aᵀ * M * A) * (B * M⁻¹ * Bᵀ) = Aᵀ * M * (A * B) * M⁻¹ * Bᵀ := by simp only [Matrix.mul_assoc]
      _ = Aᵀ * (M * M⁻¹) * Bᵀ := by rw [hAB, Matrix.mul_one]; simp only [Matrix.mul_assoc]
      _ = 1 := by rw [Matrix.mul_nonsing_inv _ h, Matrix.mul_one, hT]
  exact ⟨(Matrix.isUnit_iff_isUnit_det _).1 (IsUnit.of_mul_eq_one _ e), Matrix.inv_eq_right_inv e⟩

theorem conj_unit {M : Matrix (Fin m) (Fin m) ℝ} (hAB : A * B = 1) (hBA : B * A = 1) : IsUnit (Aᵀ * M * A).det ↔ IsUnit M.det := by
  constructor
  · intro h
    have := (conj_inv hBA hAB h).1
    have hT : Bᵀ * Aᵀ = 1 := by rw [← Matrix.transpose_mul, hAB, Matrix.transpose_one]
    rw [show Bᵀ * (Aᵀ * M * A) * B = (Bᵀ * Aᵀ) * M * (A * B) by simp only [Matrix.mul_assoc], hT, hAB, Matrix.one_mul, Matrix.mul_one] at this
    exact this
  · exact fun h => (conj_inv hAB hBA h).1

theorem linSolve_none {M : Matrix (Fin m) (Fin m) ℝ} (C : Matrix (Fin m) (Fin k) ℝ) (h : ¬ IsUnit M.det) : linSolve M C = none := by
  unfold linSolve; exact if_neg h

theorem linSolve_conj {M : Matrix (Fin m) (Fin m) ℝ} (hAB : A * B = 1) (hBA : B * A = 1) (C : Matrix (Fin m) (Fin k) ℝ) :
    linSolve (Aᵀ * M * A) (Aᵀ * C) = (linSolve M C).map (B * ·) := by
  by_cases h : IsUnit M.det
  · have hT : Bᵀ * Aᵀ = 1 := by rw [← Matrix.transpose_mul, hAB, Matrix.transpose_one]
    rw [linSolve_of _ h, linSolve_of _ ((conj_unit hAB hBA).2 h), (conj_inv hAB hBA h).2, Option.map_some]
    congr 1
    rw [show B * M⁻¹ * Bᵀ * (Aᵀ * C) = B * M⁻¹ * (Bᵀ * Aᵀ) * C by simp only [Matrix.mul_assoc], hT, Matrix.mul_one, Matrix.mul_assoc]
  · rw [linSolve_none _ h, linSolve_none _ fun h' => h ((conj_unit hAB hBA).1 h')]; rfl

theorem linSolve_mul {M : Matrix (Fin m) (Fin m) ℝ} (C : Matrix (Fin m) (Fin m) ℝ) (A : Matrix (Fin m) (Fin m') ℝ) : linSolve M (C * A) = (linSolve M C).map (· * A) := by
  by_cases h : IsUnit M.det
  · rw [linSolve_of _ h, linSolve_of _ h, Option.map_some, Matrix.mul_assoc]
  · rw [linSolve_none _ h, linSolve_none _ h]; rfl

theorem two_solves_conj {M C : Matrix (Fin m) (Fin m) ℝ} (hAB : A * B = 1) (hBA : B * A = 1) (c : ℝ) :
    (do let s1 ← linSolve (Aᵀ * M * A) (Aᵀ * C * A)
        let s2 ← linSolve (Aᵀ * M * A) s1.transpose
        some (c • s2)) =
    (do let s1 ← linSolve M C
        let s2 ← linSolve M s1.transpose
        some (c • s2)).map fun V => B * V * Bᵀ := by
  have hT : Aᵀ * Bᵀ = 1 := by rw [← Matrix.transpose_mul, hBA, Matrix.transpose_one]
  rw [Matrix.mul_assoc Aᵀ C A, linSolve_conj hAB hBA, linSolve_mul]
  cases h1 : linSolve M C with
  | none => rfl
  | some s1 =>
    simp only [Option.map_some, bind, Option.bind_some]
    have e : (B * (s1 * A))ᵀ = Aᵀ * (s1ᵀ * Bᵀ) := by rw [Matrix.transpose_mul, Matrix.transpose_mul, Matrix.mul_assoc]
    rw [e, linSolve_conj hAB hBA, linSolve_mul]
    cases h2 : linSolve M s1ᵀ with
    | none => rfl
    | some s2 =>
      simp only [Option.map_some, Option.bind_some]
      rw [Matrix.mul_smul, Matrix.smul_mul, Matrix.mul_assoc]

end Solve

/-- The design as a matrix. -/
noncomputable def designMatrix (p : ℕ) (ic : Bool) (X : Fin n → ℕ → ℝ) : Matrix (Fin n) (Fin (p + ic.toNat)) ℝ := Matrix.of fun i k => design ic X i k

theorem gram_eq (X : Fin n → ℕ → ℝ) (ω : Fin n → ℝ) : sandwichMatrix p ic X ω = (designMatrix p ic X)ᵀ * Matrix.diagonal ω * designMatrix p ic X := by
  rw [sandwichMatrix_eq]
  ext j k
  rw [Matrix.mul_apply]
  simp only [Spec.weightedGram, Matrix.of_apply, Matrix.mul_diagonal, Matrix.transpose_apply, designMatrix]
  exact Finset.sum_congr rfl fun i _ => by ring

theorem score_eq (X : Fin n → ℕ → ℝ) (ω : Fin n → ℝ) : scoreMatrix p ic X ω = Matrix.diagonal ω * designMatrix p ic X := by
  ext i k
  rw [scoreMatrix_eq, Matrix.diagonal_mul]
  rfl

section
variable {D : CovData n p ic} {D' : CovData n p' ic'} {A : Matrix (Fin (p + ic.toNat)) (Fin (p' + ic'.toNat)) ℝ}
    {B : Matrix (Fin (p' + ic'.toNat)) (Fin (p + ic.toNat)) ℝ} (h : Spec.Recoded D D' A B)
include h

theorem recoded_design : designMatrix p' ic' D'.X = designMatrix p ic D.X * A := by
  ext i k
  rw [Matrix.mul_apply]
  exact h.rows i k

theorem recoded_gram (ω : Fin n → ℝ) : sandwichMatrix p' ic' D'.X ω = Aᵀ * sandwichMatrix p ic D.X ω * A := by
  rw [gram_eq, gram_eq, recoded_design h, Matrix.transpose_mul]
  simp only [Matrix.mul_assoc]

theorem recoded_score (ω : Fin n → ℝ) : scoreMatrix p' ic' D'.X ω = scoreMatrix p ic D.X ω * A := by
  rw [score_eq, score_eq, recoded_design h, Matrix.mul_assoc]

theorem recoded_card : (p' : ℝ) + (ic'.toNat : ℝ) = p + ic.toNat := by
  have := Matrix.square_of_invertible A B h.AB h.BA
  simp only [Fintype.card_fin] at this
  exact_mod_cast this.symm

theorem recoded_disp (o : CovOptions n) : D'.disp o = D.disp o := by
  unfold CovData.disp
  rw [h.family, h.y, h.mu, h.w, recoded_card h]

theorem recoded_oim (o : CovOptions n) : D'.oim o = Aᵀ * D.oim o * A := by
  unfold CovData.oim
  rw [recoded_disp h, h.family, h.link, h.y, h.mu, h.w]
  split <;> exact recoded_gram h _

theorem recoded_gradient (o : CovOptions n) : D'.gradient o = D.gradient o * A := by
  unfold CovData.gradient
  rw [recoded_disp h, h.family, h.link, h.y, h.mu, h.w]
  exact recoded_score h _

theorem groupSum_mul {m m' : ℕ} (c : Fin n → ℤ) (data : Matrix (Fin n) (Fin m) ℝ) (A : Matrix (Fin m) (Fin m') ℝ) : groupSum c (data * A) = (groupSum c data).map (· * A) := by
  unfold groupSum
  simp only
  split
  · rw [Option.map_some]
    congr 1
    ext g k
    simp only [Matrix.of_apply, Matrix.mul_apply, Finset.sum_mul]
    exact Finset.sum_comm
  · rfl

/-- **C105, covariance.** The covariance matrix of the recoded model is `B V Bᵀ`, for every kind (non-robust, robust with expected or observed information, clustered): the
covariance matrix of `B β`.  The one call returns exactly if the other does (given the same outcome of the condition-number test). -/
theorem c105_covariance (o : CovOptions n) (ok : Bool) : covariance D' o ok = (covariance D o ok).map fun V => B * V * Bᵀ := by
  have hcard : ∀ x : ℝ, x - p' - ic'.toNat = x - p - ic.toNat := fun x => by linarith [recoded_card h]
  unfold covariance
  simp only [h.w, hcard, recoded_oim h, recoded_gradient h]
  split
  · rfl
  · split
    · cases hc : o.clusters with
      | none =>
        simp only
        have e : (Matrix.of fun j k => ∑ i, (D.gradient o * A) i j * 1 * (D.gradient o * A) i k : Matrix (Fin (p' + ic'.toNat)) (Fin (p' + ic'.toNat)) ℝ) =
            Aᵀ * (Matrix.of fun j k => ∑ i, D.gradient o i j * 1 * D.gradient o i k) * A := by
          have e1 : ∀ {q : ℕ} (G : Matrix (Fin n) (Fin q) ℝ), (Matrix.of fun j k => ∑ i, G i j * 1 * G i k : Matrix (Fin q) (Fin q) ℝ) = Gᵀ * G := by
            intro q G
            ext j k
            simp [Matrix.mul_apply]
          rw [e1, e1, Matrix.transpose_mul]
          simp only [Matrix.mul_assoc]
        rw [e]
        exact two_solves_conj h.AB h.BA _
      | some c =>
        simp only [groupSum_mul h]
        cases hg : groupSum c (D.gradient o) with
        | none => rfl
        | some G =>
          simp only [Option.map_some, bind, Option.bind_some]
          split
          · rfl
          · have e : (G * A)ᵀ * (G * A) = Aᵀ * (Gᵀ * G) * A := by rw [Matrix.transpose_mul]; simp only [Matrix.mul_assoc]
            rw [e]
            exact two_solves_conj h.AB h.BA _
    · rw [h.family, h.link, h.mu, recoded_disp h, recoded_gram h]
      obtain ⟨M, hM⟩ : ∃ M, M = sandwichMatrix p ic D.X fun i => fisherW D.f D.l (D.disp o) (D.mu i) (D.w i) := ⟨_, rfl⟩
      rw [← hM]
      have hT : Aᵀ * Bᵀ = 1 := by rw [← Matrix.transpose_mul, h.BA, Matrix.transpose_one]
      rw [← hT, linSolve_conj h.AB h.BA]
      by_cases hu : IsUnit M.det
      · rw [linSolve_of _ hu, linSolve_of _ hu]
        simp only [Option.map_some, bind, Option.bind_some, Matrix.mul_one]
        rw [Matrix.mul_smul, Matrix.smul_mul, Matrix.mul_assoc]
      · rw [linSolve_none _ hu, linSolve_none _ hu]; rfl

/-- **C105, linear predictor.** With coefficients `B β` the recoded model has the same linear predictor: equal predictions and deviance. -/
theorem c105_predictor (beta : Fin (p + ic.toNat) → ℝ) (i : Fin n) : ∑ k, design ic' D'.X i k * (B *ᵥ beta) k = ∑ j, design ic D.X i j * beta j := by
  have e : designMatrix p' ic' D'.X *ᵥ (B *ᵥ beta) = designMatrix p ic D.X *ᵥ beta := by
    rw [recoded_design h, Matrix.mulVec_mulVec, Matrix.mul_assoc, h.AB, Matrix.mul_one]
  exact congrFun e i

end

/-- **C105, Wald test.** The hypothesis `R β = r` and its translation `(R A) β' = r` give the same statistic, p-value and degrees of freedom, or both raise. -/
theorem c105_wald {m m' Q : ℕ} (chi2 : ℝ → ℕ → ℝ) (A : Matrix (Fin m) (Fin m') ℝ) (B : Matrix (Fin m') (Fin m) ℝ) (hAB : A * B = 1)
    (V : Matrix (Fin m) (Fin m) ℝ) (beta : Fin m → ℝ) (R : Matrix (Fin Q) (Fin m) ℝ) (r : RArg) :
    waldMatrix chi2 (B * V * Bᵀ) (B *ᵥ beta) (R * A) r = waldMatrix chi2 V beta R r := by
  have e1 : (R * A) * (B * V * Bᵀ) * (R * A)ᵀ = R * V * Rᵀ := by
    have hT : Bᵀ * Aᵀ = 1 := by rw [← Matrix.transpose_mul, hAB, Matrix.transpose_one]
    calc (R * A) * (B * V * Bᵀ) * (R * A)ᵀ = R * (A * B) * V * (Bᵀ * Aᵀ) * Rᵀ := by rw [Matrix.transpose_mul]; simp only [Matrix.mul_assoc]
      _ = R * V * Rᵀ := by rw [hAB, hT, Matrix.mul_one, Matrix.mul_one]
  have e2 : (R * A) *ᵥ (B *ᵥ beta) = R *ᵥ beta := by rw [Matrix.mulVec_mulVec, Matrix.mul_assoc, hAB, Matrix.mul_one]
  have hv : ∀ v : Fin Q → ℝ, waldMatrix chi2 (B * V * Bᵀ) (B *ᵥ beta) (R * A) (.vec Q v) = waldMatrix chi2 V beta R (.vec Q v) := by
    intro v
    rw [waldMatrix_vec, waldMatrix_vec, e1, e2]
  cases r with
  | none => rw [waldMatrix_none, waldMatrix_none]; exact hv _
  | zeroDim => rfl
  | vec len v =>
    by_cases hl : Q = len
    · subst hl; exact hv v
    · rw [c52_shapes _ _ _ _ _ (Or.inl hl), c52_shapes _ _ _ _ _ (Or.inl hl)]

/-- **C105, coefficient table.** A coefficient that is a positive multiple `b` of a coefficient of the first model (other units; `b = 1`: only other columns were recoded or
features centred) has estimate, standard error and confidence limits multiplied by `b`, and the same t-value and p-value.  With a negative multiple the limits are exchanged and
the t-value changes its sign. -/
theorem c105_table {m m' : ℕ} (cdf ppf : ℝ → ℝ) (hc : Spec.SymmetricCdf cdf ppf) (conf : ℝ) (h0 : 0 < conf) (h1 : conf < 1) (B : Matrix (Fin m') (Fin m) ℝ)
    (V : Matrix (Fin m) (Fin m) ℝ) (beta : Fin m → ℝ) (k' : Fin m') (k : Fin m) (b : ℝ) (hb : b ≠ 0) (hB : ∀ j, B k' j = if j = k then b else 0) :
    let row := coefTable cdf ppf conf beta V k
    let row' := coefTable cdf ppf conf (B *ᵥ beta) (B * V * Bᵀ) k'
    row'.coef = b * row.coef ∧ row'.se = |b| * row.se ∧ row'.pValue = row.pValue ∧
    (0 < b → row'.t = row.t ∧ row'.ciLower = b * row.ciLower ∧ row'.ciUpper = b * row.ciUpper) ∧
    (b < 0 → row'.t = -row.t ∧ row'.ciLower = b * row.ciUpper ∧ row'.ciUpper = b * row.ciLower) := by
  have hbeta : (B *ᵥ beta) k' = b * beta k := by simp [Matrix.mulVec, dotProduct, hB]
  have hV : (B * V * Bᵀ) k' k' = b ^ 2 * V k k := by
    simp only [Matrix.mul_apply, Matrix.transpose_apply, hB, ite_mul, zero_mul, mul_ite, mul_zero, Finset.sum_ite_eq', Finset.mem_univ, if_true]
    ring
  have hse : stdErrors (B * V * Bᵀ) k' = |b| * stdErrors V k := by
    unfold stdErrors
    rw [hV, Real.sqrt_mul (sq_nonneg b), Real.sqrt_sq_eq_abs]
  have hppf : ppf (1 - (1 - conf) / 2) = -ppf ((1 - conf) / 2) := ppf_symm hc _ (by linarith) (by linarith)
  have ht : (0 < b → b * beta k / (|b| * stdErrors V k) = beta k / stdErrors V k) ∧ (b < 0 → b * beta k / (|b| * stdErrors V k) = -(beta k / stdErrors V k)) := by
    constructor
    · intro hpos
      rw [abs_of_pos hpos, mul_div_mul_left _ _ hb]
    · intro hneg
      rw [abs_of_neg hneg, neg_mul, div_neg, mul_div_mul_left _ _ hb]
  intro row row'
  have c1 : row'.coef = b * row.coef := hbeta
  have c2 : row'.se = |b| * row.se := hse
  have c3 : row'.t = b * beta k / (|b| * stdErrors V k) := by show (B *ᵥ beta) k' / stdErrors (B * V * Bᵀ) k' = _; rw [hbeta, hse]
  have hp : row'.pValue = 2 * (1 - cdf |row'.t|) := rfl
  have hp' : row.pValue = 2 * (1 - cdf |row.t|) := rfl
  have hrt : row.t = beta k / stdErrors V k := rfl
  have l1 : row'.ciLower = b * beta k + ppf ((1 - conf) / 2) * (|b| * stdErrors V k) := by
    show (B *ᵥ beta) k' + ppf ((1 - conf) / 2) * stdErrors (B * V * Bᵀ) k' = _; rw [hbeta, hse]
  have l2 : row'.ciUpper = b * beta k - ppf ((1 - conf) / 2) * (|b| * stdErrors V k) := by
    show (B *ᵥ beta) k' + ppf (1 - (1 - conf) / 2) * stdErrors (B * V * Bᵀ) k' = _; rw [hbeta, hse, hppf]; ring
  have l3 : row.ciLower = beta k + ppf ((1 - conf) / 2) * stdErrors V k := rfl
  have l4 : row.ciUpper = beta k - ppf ((1 - conf) / 2) * stdErrors V k := by
    show beta k + ppf (1 - (1 - conf) / 2) * stdErrors V k = _; rw [hppf]; ring
  refine ⟨c1, c2, ?_, fun hpos => ⟨c3.trans (ht.1 hpos), ?_, ?_⟩, fun hneg => ⟨c3.trans (ht.2 hneg), ?_, ?_⟩⟩
  · rw [hp, hp', c3, hrt]
    rcases lt_or_gt_of_ne hb with hneg | hpos
    · rw [ht.2 hneg, abs_neg]
    · rw [ht.1 hpos]
  · rw [l1, l3, abs_of_pos hpos]; ring
  · rw [l2, l4, abs_of_pos hpos]; ring
  · rw [l1, l4, abs_of_neg hneg]; ring
  · rw [l2, l3, abs_of_neg hneg]; ring

/-- Units: every column multiplied by a non-zero number is a recoding, without the intercept being touched. -/
theorem recoded_units (D : CovData n p ic) (s : ℕ → ℝ) (hs : ∀ j, s j ≠ 0) :
    Spec.Recoded D { D with X := fun i j => s j * D.X i j } (Matrix.diagonal fun k : Fin (p + ic.toNat) => if k.val < ic.toNat then 1 else s (k.val - ic.toNat))
      (Matrix.diagonal fun k : Fin (p + ic.toNat) => if k.val < ic.toNat then 1 else (s (k.val - ic.toNat))⁻¹) where
  family := rfl
  link := rfl
  y := rfl
  mu := rfl
  w := rfl
  rows i k := by
    rw [Finset.sum_eq_single k (fun j _ hj => by rw [Matrix.diagonal_apply_ne _ hj, mul_zero]) (by simp), Matrix.diagonal_apply_eq]
    obtain ⟨k, hk⟩ := k
    cases ic with
    | false => simp [design, mul_comm]
    | true =>
      cases k with
      | zero => simp [design]
      | succ k => simp [design, mul_comm]
  AB := by
    rw [Matrix.diagonal_mul_diagonal, ← Matrix.diagonal_one]
    congr 1; funext k
    split
    · norm_num
    · exact mul_inv_cancel₀ (hs _)
  BA := by
    rw [Matrix.diagonal_mul_diagonal, ← Matrix.diagonal_one]
    congr 1; funext k
    split
    · norm_num
    · exact inv_mul_cancel₀ (hs _)

/-- Dummy coding: two levels with both indicators and no intercept, or an intercept and the indicator of the second level (`drop_first`). -/
theorem recoded_dummies (D : CovData n 2 false) (hD : ∀ i, D.X i 0 + D.X i 1 = 1) :
    Spec.Recoded D (D' := ({ f := D.f, l := D.l, X := fun i _ => D.X i 1, y := D.y, mu := D.mu, w := D.w } : CovData n 1 true)) !![1, 0; 1, 1] !![1, 0; -1, 1] where
  family := rfl
  link := rfl
  y := rfl
  mu := rfl
  w := rfl
  rows i k := by
    have := hD i
    obtain ⟨k, hk⟩ := k
    simp only [Bool.toNat_true, Bool.toNat_false] at hk ⊢
    rw [Fin.sum_univ_two]
    interval_cases k <;> simp [design] <;> linarith
  AB := by ext i j; fin_cases i <;> fin_cases j <;> simp [Matrix.mul_apply, Fin.sum_univ_two]
  BA := by ext i j; fin_cases i <;> fin_cases j <;> simp [Matrix.mul_apply, Fin.sum_univ_two]

/-- A case in which both calls return: one feature, once in other units. -/
example : covariance (covEx 1) ⟨true, true, none, some 1⟩ true ≠ none ∧
    covariance ({ covEx 1 with X := fun i j => 3 * (covEx 1).X i j } : CovData 2 1 false) ⟨true, true, none, some 1⟩ true ≠ none := by
  have e := covEx_value 1 one_ne_zero (by norm_num)
  refine ⟨by rw [e]; simp, ?_⟩
  rw [c105_covariance (recoded_units (covEx 1) (fun _ => 3) fun _ => by norm_num), e]
  simp

end Glum
