import Verif.Props.Inference
/-
C52 (Wald test), C53 (default right-hand side), C68 (coefficient table).
-/
set_option linter.unusedSectionVars false
set_option linter.unusedVariables false

namespace Glum
open Spec Matrix

/-- The Wald statistic `(Rβ - r)ᵀ (R V Rᵀ)⁻¹ (Rβ - r)`. -/
noncomputable def Spec.waldStat {m Q : ℕ} (V : Matrix (Fin m) (Fin m) ℝ) (beta : Fin m → ℝ) (R : Matrix (Fin Q) (Fin m) ℝ) (r : Fin Q → ℝ) : ℝ :=
  (R *ᵥ beta - r) ⬝ᵥ ((R * V * Rᵀ)⁻¹ *ᵥ (R *ᵥ beta - r))

variable {m Q : ℕ} (chi2 : ℝ → ℕ → ℝ) (V : Matrix (Fin m) (Fin m) ℝ) (beta : Fin m → ℝ)

theorem waldMatrix_vec (R : Matrix (Fin Q) (Fin m) ℝ) (r : Fin Q → ℝ) :
    waldMatrix chi2 V beta R (.vec Q r) = (linSolve (R * V * Rᵀ) (Matrix.of fun q (_ : Fin 1) => (R *ᵥ beta) q - r q)).bind fun x =>
      some { stat := ((Matrix.of fun q (_ : Fin 1) => (R *ᵥ beta) q - r q)ᵀ * x) 0 0
             pValue := 1 - chi2 (((Matrix.of fun q (_ : Fin 1) => (R *ᵥ beta) q - r q)ᵀ * x) 0 0) Q, df := Q } := by
  unfold waldMatrix
  simp only [ne_eq, not_true_eq_false, dite_false]
  rfl

/-- **C52, formula.** A result is returned exactly if `R V Rᵀ` is invertible (and the shapes fit); it is the Wald statistic, the upper tail
of the χ² distribution at it, and the number of restrictions. -/
theorem c52_formula (R : Matrix (Fin Q) (Fin m) ℝ) (r : Fin Q → ℝ) :
    waldMatrix chi2 V beta R (.vec Q r) = open Classical in
      if IsUnit (R * V * Rᵀ).det then
        some ⟨Spec.waldStat V beta R r, 1 - chi2 (Spec.waldStat V beta R r) Q, Q⟩
      else none := by
  rw [waldMatrix_vec]
  split
  · next hu =>
    rw [linSolve_of _ hu]
    have : ((Matrix.of fun q (_ : Fin 1) => (R *ᵥ beta) q - r q)ᵀ * ((R * V * Rᵀ)⁻¹ * Matrix.of fun q (_ : Fin 1) => (R *ᵥ beta) q - r q)) 0 0
        = Spec.waldStat V beta R r := by
      simp only [Spec.waldStat, Matrix.mul_apply, Matrix.transpose_apply, Matrix.of_apply, dotProduct, mulVec, Pi.sub_apply]
    simp only [Option.bind_some, this]
  · next hu =>
    unfold linSolve
    rw [if_neg hu]; rfl

/-- **C52, shapes.** Wrong shapes are rejected. -/
theorem c52_shapes {Q c len : ℕ} (R : Matrix (Fin Q) (Fin c) ℝ) (r : Fin len → ℝ) (h : Q ≠ len ∨ c ≠ m) :
    waldMatrix chi2 V beta R (.vec len r) = none := by
  unfold waldMatrix
  simp only
  by_cases h1 : Q ≠ len
  · rw [dif_pos h1]
  · rw [dif_neg h1, dif_pos (h.resolve_left h1)]

/-- **C52, sign.** With a positive semidefinite covariance matrix the statistic is non-negative. -/
theorem c52_nonneg (hV : V.PosSemidef) (R : Matrix (Fin Q) (Fin m) ℝ) (r : Fin Q → ℝ) (res : WaldResult)
    (h : waldMatrix chi2 V beta R (.vec Q r) = some res) : 0 ≤ res.stat := by
  rw [c52_formula] at h
  split at h
  · obtain rfl := Option.some.inj h
    have hp := (hV.mul_mul_conjTranspose_same R).inv
    rw [Matrix.conjTranspose_eq_transpose_of_trivial] at hp
    have := hp.dotProduct_mulVec_nonneg (R *ᵥ beta - r)
    simpa [Spec.waldStat] using this
  · cases h

/-- **C52, positive definite.** With a positive definite covariance matrix and linearly independent restrictions a result is returned, and
the statistic is zero exactly if the estimate satisfies the hypothesis. -/
theorem c52_posdef (hV : V.PosDef) (R : Matrix (Fin Q) (Fin m) ℝ) (hR : Function.Injective (R.vecMul)) (r : Fin Q → ℝ) :
    ∃ res, waldMatrix chi2 V beta R (.vec Q r) = some res ∧ 0 ≤ res.stat ∧ (res.stat = 0 ↔ R *ᵥ beta = r) := by
  have hp : (R * V * Rᵀ).PosDef := by
    have := hV.mul_mul_conjTranspose_same (B := R) hR
    rwa [Matrix.conjTranspose_eq_transpose_of_trivial] at this
  have hu : IsUnit (R * V * Rᵀ).det := (Matrix.isUnit_iff_isUnit_det _).1 hp.isUnit
  have hpi : ((R * V * Rᵀ)⁻¹).PosDef := hp.inv
  refine ⟨⟨Spec.waldStat V beta R r, 1 - chi2 (Spec.waldStat V beta R r) Q, Q⟩, ?_, ?_, ?_⟩
  · rw [c52_formula, if_pos hu]
  · have := hpi.posSemidef.dotProduct_mulVec_nonneg (R *ᵥ beta - r)
    simpa [Spec.waldStat] using this
  · constructor
    · intro h0
      by_contra hne
      have := hpi.dotProduct_mulVec_pos (x := R *ᵥ beta - r) (sub_ne_zero.2 hne)
      simp only [star_trivial] at this
      exact absurd h0 this.ne'
    · intro h
      simp [Spec.waldStat, h]

/-- **C52, equivalent hypotheses.** Rewriting `Rβ = r` as `(MR)β = Mr` with an invertible `M` changes nothing. -/
theorem c52_reparametrise (R : Matrix (Fin Q) (Fin m) ℝ) (r : Fin Q → ℝ) (M : Matrix (Fin Q) (Fin Q) ℝ) (hM : IsUnit M.det) :
    waldMatrix chi2 V beta (M * R) (.vec Q (M *ᵥ r)) = waldMatrix chi2 V beta R (.vec Q r) := by
  have hA : (M * R) * V * (M * R)ᵀ = M * (R * V * Rᵀ) * Mᵀ := by
    rw [Matrix.transpose_mul]; simp only [Matrix.mul_assoc]
  have hdet : IsUnit ((M * R) * V * (M * R)ᵀ).det ↔ IsUnit (R * V * Rᵀ).det := by
    rw [hA, Matrix.det_mul, Matrix.det_mul, Matrix.det_transpose]
    constructor
    · intro h
      exact isUnit_of_mul_isUnit_right (isUnit_of_mul_isUnit_left h)
    · intro h
      exact (hM.mul h).mul hM
  rw [c52_formula, c52_formula]
  by_cases hu : IsUnit (R * V * Rᵀ).det
  · rw [if_pos hu, if_pos (hdet.2 hu)]
    have hstat : Spec.waldStat V beta (M * R) (M *ᵥ r) = Spec.waldStat V beta R r := by
      unfold Spec.waldStat
      rw [hA, ← Matrix.mulVec_mulVec, ← Matrix.mulVec_sub]
      set x := R *ᵥ beta - r
      rw [Matrix.mul_inv_rev, Matrix.mul_inv_rev, Matrix.mulVec_mulVec]
      have e1 : (Mᵀ)⁻¹ * ((R * V * Rᵀ)⁻¹ * M⁻¹) * M = (Mᵀ)⁻¹ * (R * V * Rᵀ)⁻¹ := by
        rw [Matrix.mul_assoc, Matrix.mul_assoc, Matrix.nonsing_inv_mul _ hM, Matrix.mul_one]
      rw [e1]
      rw [Matrix.dotProduct_mulVec, Matrix.dotProduct_mulVec, ← Matrix.vecMul_transpose, Matrix.vecMul_vecMul, ← Matrix.mul_assoc,
        Matrix.mul_nonsing_inv _ (by rwa [Matrix.det_transpose]), Matrix.one_mul]
    rw [hstat]
  · rw [if_neg hu, if_neg (fun h => hu (hdet.1 h))]

/-- The Wald statistic of the hypothesis that the coefficients number `idx 0, idx 1, …` equal `r`. -/
noncomputable def Spec.coefStat (V : Matrix (Fin m) (Fin m) ℝ) (beta : Fin m → ℝ) (idx : Fin Q → Fin m) (r : Fin Q → ℝ) : ℝ :=
  (fun q => beta (idx q) - r q) ⬝ᵥ ((V.submatrix idx idx)⁻¹ *ᵥ fun q => beta (idx q) - r q)

theorem selection_mul (idx : Fin Q → Fin m) (R : Matrix (Fin Q) (Fin m) ℝ) (hR : ∀ q j, R q j = if (idx q).val = j.val then 1 else 0) :
    R *ᵥ beta = (fun q => beta (idx q)) ∧ R * V * Rᵀ = V.submatrix idx idx := by
  have e : ∀ q j, (if (idx q).val = j.val then (1 : ℝ) else 0) = if j = idx q then 1 else 0 := by
    intro q j
    by_cases h : j = idx q
    · rw [if_pos h, if_pos (by rw [h])]
    · rw [if_neg h, if_neg (fun h' => h (Fin.ext h'.symm))]
  constructor
  · funext q
    simp only [mulVec, dotProduct, hR, e]
    simp
  · ext a b
    simp only [Matrix.mul_apply, Matrix.transpose_apply, hR, e, Matrix.submatrix_apply]
    simp

/-- **C52, selections.** A restriction matrix that picks coefficients gives the statistic of the hypothesis on these coefficients. -/
theorem wald_selection (idx : Fin Q → Fin m) (R : Matrix (Fin Q) (Fin m) ℝ) (hR : ∀ q j, R q j = if (idx q).val = j.val then 1 else 0)
    (r : Fin Q → ℝ) : waldMatrix chi2 V beta R (.vec Q r) = open Classical in
      if IsUnit (V.submatrix idx idx).det then
        some ⟨Spec.coefStat V beta idx r, 1 - chi2 (Spec.coefStat V beta idx r) Q, Q⟩ else none := by
  obtain ⟨e1, e2⟩ := selection_mul V beta idx R hR
  have : Spec.waldStat V beta R r = Spec.coefStat V beta idx r := by
    unfold Spec.waldStat Spec.coefStat
    rw [e1, e2]; rfl
  rw [c52_formula, this, e2]

/-- **C52, single coefficient.** The test of one coefficient is the square of the t statistic: the statistic for `β_k = r` is
`((β_k - r)/se_k)²`, and for `r = 0` the square of the table's t value. -/
theorem c52_t_squared (k : Fin m) (hV : 0 < V k k) (r : ℝ) (cdf ppf : ℝ → ℝ) (conf : ℝ) :
    ∃ res, waldMatrix chi2 V beta (Matrix.of fun (_ : Fin 1) (j : Fin m) => if k.val = j.val then 1 else 0) (.vec 1 fun _ => r) = some res ∧
      res.stat = ((beta k - r) / stdErrors V k) ^ 2 ∧ res.df = 1 ∧ (r = 0 → res.stat = (coefTable cdf ppf conf beta V k).t ^ 2) := by
  have hsel := wald_selection chi2 V beta (fun _ : Fin 1 => k) (Matrix.of fun (_ : Fin 1) (j : Fin m) => if k.val = j.val then 1 else 0)
    (fun _ _ => rfl) (fun _ => r)
  have hdet : (V.submatrix (fun _ : Fin 1 => k) (fun _ : Fin 1 => k)).det = V k k := Matrix.det_fin_one _
  rw [if_pos (by rw [hdet]; exact isUnit_iff_ne_zero.2 hV.ne')] at hsel
  have hinv : (V.submatrix (fun _ : Fin 1 => k) (fun _ : Fin 1 => k))⁻¹ = Matrix.of fun _ _ => (V k k)⁻¹ := by
    refine Matrix.inv_eq_left_inv ?_
    ext a b
    have ha : a = 0 := Subsingleton.elim _ _
    have hb : b = 0 := Subsingleton.elim _ _
    subst ha; subst hb
    simp [Matrix.mul_apply, hV.ne']
  have hst : Spec.coefStat V beta (fun _ : Fin 1 => k) (fun _ => r) = ((beta k - r) / stdErrors V k) ^ 2 := by
    unfold Spec.coefStat stdErrors
    rw [hinv, div_pow, Real.sq_sqrt hV.le]
    simp [dotProduct, mulVec]
    field_simp
  refine ⟨_, hsel, hst, rfl, ?_⟩
  rintro rfl
  simp only [hst, coefTable, sub_zero]

theorem waldMatrix_none (R : Matrix (Fin Q) (Fin m) ℝ) :
    waldMatrix chi2 V beta R .none = waldMatrix chi2 V beta R (.vec Q fun _ => 0) := rfl

/-- **C52, features.** `wald_test(features=…, r=…)` tests that the coefficients with these names equal the values: for names that are in
the model the result is the Wald test of the hypothesis on the coefficients with these (first) positions; unknown names and a wrong number
of values are rejected. -/
theorem c52_features (names features : List String) (hm : names.length = m) (values : List ℝ) :
    waldFeatures chi2 V beta names features (some values) = open Classical in
      if h : features.length = values.length ∧ ∀ x ∈ features, x ∈ names then
        (let idx : Fin features.length → Fin m := fun i =>
            ⟨names.idxOf features[i], hm ▸ List.idxOf_lt_length_of_mem (h.2 _ (List.getElem_mem i.isLt))⟩
         if IsUnit (V.submatrix idx idx).det then
           some ⟨Spec.coefStat V beta idx fun i => values[i]'(h.1 ▸ i.isLt),
             1 - chi2 (Spec.coefStat V beta idx fun i => values[i]'(h.1 ▸ i.isLt)) features.length, features.length⟩
         else none)
      else none := by
  subst hm
  unfold waldFeatures
  by_cases h1 : features.length = values.length
  · by_cases h2 : ∀ x ∈ features, x ∈ names
    · rw [dif_pos ⟨h1, h2⟩]
      simp only [h1, ne_eq, not_true_eq_false, if_false, Option.bind_eq_bind, Option.bind_some, featureR]
      rw [if_pos h2]
      simp only [Option.bind_some]
      have hvec : ∀ (q : ℕ) (hq : q = values.length) (R : Matrix (Fin q) (Fin names.length) ℝ),
          waldMatrix chi2 V beta R (.vec values.length fun i => values[i])
            = waldMatrix chi2 V beta R (.vec q fun i => values[i]'(hq ▸ i.isLt)) := by
        intro q hq R; subst hq; rfl
      rw [hvec _ h1]
      have := wald_selection chi2 V beta (fun i : Fin features.length =>
        (⟨names.idxOf features[i], List.idxOf_lt_length_of_mem (h2 _ (List.getElem_mem i.isLt))⟩ : Fin names.length))
        (Matrix.of fun i j => if names.idxOf features[i] = j.val then 1 else 0) (fun _ _ => rfl)
        (fun i => values[i]'(h1 ▸ i.isLt))
      rw [this]
      simp only [h1]
    · rw [dif_neg (fun h => h2 h.2)]
      simp only [h1, ne_eq, not_true_eq_false, if_false, Option.bind_eq_bind, Option.bind_some, featureR]
      rw [if_neg h2]; rfl
  · rw [dif_neg (fun h => h1 h.1)]
    simp only [ne_eq, h1, not_false_eq_true, if_true, Option.bind_eq_bind, Option.bind_none]

/-- **C52, exactly one specification.** -/
theorem c52_one_specification (featNames termNames : List String) (a : WaldArgs)
    (h : a.R.isSome.toNat + a.features.isSome.toNat + a.terms.isSome.toNat + a.formula.isSome.toNat ≠ 1) :
    waldTest chi2 V beta featNames termNames a = none := by
  unfold waldTest; rw [if_pos h]

/-! ### C53 -/

/-- **C53, counterexample (F8).** `wald_test(R=R)` without `r` never returns: `np.asarray(None)` is zero-dimensional and has no first
dimension.  The documentation says that it tests `Rβ = 0`. -/
theorem c53_R_default_counterexample (featNames termNames : List String) (R : RMatrix) :
    waldTest chi2 V beta featNames termNames ⟨some R, none, none, none, none⟩ = none := rfl

/-- **C53 (partial: `features` and `terms`).** With `features` or `terms` the default is the hypothesis that the coefficients are zero. -/
theorem c53_default_partial (featNames termNames features terms : List String) :
    waldTest chi2 V beta featNames termNames ⟨none, some features, none, none, none⟩
      = waldTest chi2 V beta featNames termNames ⟨none, some features, none, none, some (List.replicate features.length 0)⟩ ∧
    waldTest chi2 V beta featNames termNames ⟨none, none, some terms, none, none⟩
      = waldTest chi2 V beta featNames termNames ⟨none, none, some terms, none, some (List.replicate terms.length 0)⟩ := by
  constructor
  · unfold waldTest
    simp only [Option.isSome_none, Option.isSome_some, Bool.toNat_false, Bool.toNat_true]
    rw [if_neg (by norm_num), if_neg (by norm_num)]
    unfold waldFeatures
    simp only [Option.bind_eq_bind, Option.bind_some, List.length_replicate, ne_eq, not_true_eq_false, if_false]
    congr 1
    funext R
    have : ∀ (q : ℕ) (hq : features.length = q) (R : Matrix (Fin q) (Fin featNames.length) ℝ),
        waldMatrix chi2 V beta R .none = waldMatrix chi2 V beta R (.vec (List.replicate features.length (0:ℝ)).length
          fun i => (List.replicate features.length (0:ℝ))[i]) := by
      intro q hq R
      subst hq
      have hl : (List.replicate features.length (0:ℝ)).length = features.length := List.length_replicate
      have hz : (RArg.vec (List.replicate features.length (0:ℝ)).length fun i => (List.replicate features.length (0:ℝ))[i])
          = .vec features.length fun _ => 0 := by
        have : (fun i : Fin (List.replicate features.length (0:ℝ)).length => (List.replicate features.length (0:ℝ))[i]) = fun _ => 0 := by
          funext i; simp
        rw [this, hl]
      rw [hz]
      rfl
    simpa using this _ rfl R
  · unfold waldTest
    simp only [Option.isSome_none, Option.isSome_some, Bool.toNat_false, Bool.toNat_true]
    rw [if_neg (by norm_num), if_neg (by norm_num)]
    unfold waldTerms
    simp only [Option.bind_eq_bind, Option.bind_some, List.length_replicate, ne_eq, not_true_eq_false, if_false, List.map_replicate]
    -- the restrictions are the same up to the value attached to each
    have hmap : ∀ (ts : List String),
        termRestrictions termNames (ts.zip (List.replicate ts.length (some (0:ℝ))))
          = (termRestrictions termNames (ts.zip (List.replicate ts.length none))).map (List.map fun x => (x.1, some 0)) := by
      intro ts
      unfold termRestrictions
      rw [Option.map_map]
      have hl : (ts.zip (List.replicate ts.length (some (0:ℝ)))).mapM (fun tv : String × Option ℝ =>
            if termColumns termNames tv.1 = [] then none else some ((termColumns termNames tv.1).map fun j => (j, tv.2)))
          = ((ts.zip (List.replicate ts.length (none : Option ℝ))).mapM (fun tv : String × Option ℝ =>
            if termColumns termNames tv.1 = [] then none else some ((termColumns termNames tv.1).map fun j => (j, tv.2)))).map
              (List.map (List.map fun x => (x.1, some 0))) := by
        induction ts with
        | nil => rfl
        | cons t ts ih =>
          simp only [List.length_cons, List.replicate_succ, List.zip_cons_cons, List.mapM_cons]
          by_cases ht : termColumns termNames t = []
          · simp [ht]
          · rw [ih]
            simp only [if_neg ht]
            cases (ts.zip (List.replicate ts.length (none : Option ℝ))).mapM (fun tv : String × Option ℝ =>
              if termColumns termNames tv.1 = [] then none else some ((termColumns termNames tv.1).map fun j => (j, tv.2))) <;> simp
      rw [hl, Option.map_map]
      congr 1
      funext x
      simp [List.map_flatten]
    rw [hmap]
    cases termRestrictions termNames (terms.zip (List.replicate terms.length none)) with
    | none => rfl
    | some l =>
      simp only [Option.map_some, Option.bind_some]
      split
      · rfl
      have key : ∀ l' : List (ℕ × Option ℝ), l' = l.map (fun x => (x.1, some (0:ℝ))) →
          waldMatrix chi2 V beta (Matrix.of fun (i : Fin l.length) (j : Fin m) => if l[i].1 = j.val then (1:ℝ) else 0) .none
          = waldMatrix chi2 V beta (Matrix.of fun (i : Fin l'.length) (j : Fin m) => if l'[i].1 = j.val then (1:ℝ) else 0)
            (.vec l'.length fun i => l'[i].2.getD 0) := by
        intro l' hl'
        have hlen : l'.length = l.length := by rw [hl', List.length_map]
        have h1 : ∀ i (hi : i < l'.length) (hi2 : i < l.length), l'[i].1 = l[i].1 ∧ l'[i].2 = some 0 := by
          intro i hi hi2; subst hl'; simp
        rw [waldMatrix_none]
        have gen : ∀ (q : ℕ) (hq : q = l.length) (R : Matrix (Fin q) (Fin m) ℝ) (v : Fin q → ℝ),
            (∀ i j, R i j = if (l[i.val]'(hq ▸ i.isLt)).1 = j.val then (1:ℝ) else 0) → (∀ i, v i = 0) →
            waldMatrix chi2 V beta (Matrix.of fun (i : Fin l.length) (j : Fin m) => if l[i].1 = j.val then (1:ℝ) else 0)
              (.vec l.length fun _ => 0) = waldMatrix chi2 V beta R (.vec q v) := by
          intro q hq R v hR hv
          subst hq
          have e1 : R = Matrix.of fun (i : Fin l.length) (j : Fin m) => if l[i].1 = j.val then (1:ℝ) else 0 := by
            ext i j; rw [hR]; rfl
          have e2 : v = fun _ => 0 := funext hv
          rw [e1, e2]
        refine gen _ hlen _ _ (fun i j => ?_) (fun i => ?_)
        · have := (h1 i.val i.isLt (hlen ▸ i.isLt)).1
          simp only [Matrix.of_apply, Fin.getElem_fin, this]
        · have := (h1 i.val i.isLt (hlen ▸ i.isLt)).2
          simp only [Fin.getElem_fin, this, Option.getD_some]
      exact key _ rfl

/-! ### C68 -/

/-- What is used of `stats.norm`: a strictly increasing symmetric distribution function and its inverse. -/
structure Spec.SymmetricCdf (cdf ppf : ℝ → ℝ) : Prop where
  mono : StrictMono cdf
  symm : ∀ x, cdf (-x) = 1 - cdf x
  lt_one : ∀ x, cdf x < 1
  inv : ∀ q, 0 < q → q < 1 → cdf (ppf q) = q

theorem ppf_symm {cdf ppf : ℝ → ℝ} (h : Spec.SymmetricCdf cdf ppf) (q : ℝ) (h0 : 0 < q) (h1 : q < 1) : ppf (1 - q) = -ppf q := by
  apply h.mono.injective
  rw [h.symm, h.inv _ h0 h1, h.inv _ (by linarith) (by linarith)]

/-- **C68.** Every row of the coefficient table is consistent: the interval is centred at the estimate, the p-value lies in `[0,1]`, and the
interval with level `1 - a` excludes zero exactly if the p-value is below `a`. -/
theorem c68_coef_table (cdf ppf : ℝ → ℝ) (hc : Spec.SymmetricCdf cdf ppf) (conf : ℝ) (h0 : 0 < conf) (h1 : conf < 1) (k : Fin m)
    (hV : 0 < V k k) :
    let row := coefTable cdf ppf conf beta V k
    row.ciLower < beta k ∧ beta k < row.ciUpper ∧ beta k - row.ciLower = row.ciUpper - beta k ∧ 0 ≤ row.pValue ∧ row.pValue ≤ 1 ∧
    ((0 < row.ciLower ∨ row.ciUpper < 0) ↔ row.pValue < 1 - conf) := by
  intro row
  set se := stdErrors V k with hse
  have hse0 : 0 < se := Real.sqrt_pos.2 hV
  set a := 1 - conf with ha
  have ha0 : 0 < a := by rw [ha]; linarith
  have ha1 : a < 1 := by rw [ha]; linarith
  set z := ppf (1 - a / 2) with hz
  have hz' : ppf (a / 2) = -z := by
    rw [hz, ppf_symm hc (a / 2) (by linarith) (by linarith)]; ring
  have hhalf : cdf 0 = 1 / 2 := by have := hc.symm 0; rw [neg_zero] at this; linarith
  have hcz : cdf z = 1 - a / 2 := hc.inv _ (by linarith) (by linarith)
  have hz0 : 0 < z := by
    by_contra hle
    have := hc.mono.monotone (not_lt.1 hle)
    rw [hcz, hhalf] at this
    linarith
  have hlow : row.ciLower = beta k - z * se := by
    show beta k + ppf (a / 2) * se = _
    rw [hz']; ring
  have hup : row.ciUpper = beta k + z * se := rfl
  have hp : row.pValue = 2 * (1 - cdf |beta k / se|) := rfl
  have hzse := mul_pos hz0 hse0
  refine ⟨by linarith, by linarith, by linarith, ?_, ?_, ?_⟩
  · rw [hp]; linarith [hc.lt_one |beta k / se|]
  · rw [hp]
    have := hc.mono.monotone (abs_nonneg (beta k / se))
    rw [hhalf] at this
    linarith
  · have e : row.pValue < a ↔ z < |beta k / se| := by
      rw [hp]
      constructor
      · intro h
        by_contra hle
        have := hc.mono.monotone (not_lt.1 hle)
        rw [hcz] at this
        linarith
      · intro h
        have := hc.mono h
        rw [hcz] at this
        linarith
    rw [e, hlow, hup, abs_div, abs_of_pos hse0, lt_div_iff₀ hse0, lt_abs]
    constructor
    · rintro (h | h)
      · left; linarith
      · right; linarith
    · rintro (h | h)
      · left; linarith
      · right; linarith

/-- Non-vacuity of the assumptions on the distribution: the logistic distribution. -/
example : Spec.SymmetricCdf expit fun q => Real.log (q / (1 - q)) where
  mono := by
    intro x y h
    unfold expit
    have := Real.exp_lt_exp.2 (neg_lt_neg h)
    have h1 := Real.exp_pos (-y)
    exact one_div_lt_one_div_of_lt (by linarith) (by linarith)
  symm := fun x => by
    unfold expit
    rw [neg_neg, Real.exp_neg]
    have := Real.exp_pos x
    field_simp
    ring
  lt_one := expit_lt_one
  inv := fun q h0 h1 => expit_logit h0 h1

/-- Non-vacuity: two coefficients with unit covariance, testing that they are equal. -/
example : ∃ res, waldMatrix chi2 (1 : Matrix (Fin 2) (Fin 2) ℝ) ![3, 1] (Matrix.of ![![1, -1]]) (.vec 1 fun _ => 0) = some res ∧
    0 ≤ res.stat := by
  obtain ⟨res, h, h0, _⟩ := c52_posdef chi2 (1 : Matrix (Fin 2) (Fin 2) ℝ) ![3, 1] Matrix.PosDef.one (Matrix.of ![![1, -1]]) (by
    intro u v h
    have := congrFun h 0
    simp [Matrix.vecMul, dotProduct] at this
    funext i
    rw [Subsingleton.elim i 0]; exact this) (fun _ => 0)
  exact ⟨res, h, h0⟩

end Glum
