import Verif.Props.Predict
import Verif.Props.Builtin
/-
C45 (score), C46, C47, C48 (sample weights).
-/
set_option linter.unusedSectionVars false
set_option linter.unusedVariables false

namespace Glum
open Spec

variable {n p : ℕ} {ic : Bool}

/-! ### C48 -/

/-- **C48 (partial: numbers only).** Over finite numbers: exactly `None`, a positive scalar, or a one-dimensional non-negative vector of length `n` with a
non-zero sum is accepted, and what is returned are the ones, the constant, or the entries. -/
theorem c48_check_weights_partial (n : ℕ) (a : WeightArg) (w : Fin n → ℝ) :
    checkWeights n a = some w ↔
      (a = .none ∧ w = fun _ => 1) ∨ (∃ c, 0 < c ∧ a = .scalar c ∧ w = fun _ => c) ∨
      (∃ ndim v, a = .array ndim n v ∧ ndim ≤ 1 ∧ (∀ i : Fin n, 0 ≤ v i) ∧ ∑ i : Fin n, v i ≠ 0 ∧ w = fun i : Fin n => v i) := by
  constructor
  · intro h
    cases a with
    | none => obtain rfl := Option.some.inj h; exact Or.inl ⟨rfl, rfl⟩
    | scalar c =>
      unfold checkWeights at h
      simp only at h
      split at h
      · cases h
      · next hc => obtain rfl := Option.some.inj h; exact Or.inr (Or.inl ⟨c, not_le.1 hc, rfl, rfl⟩)
    | array ndim len v =>
      unfold checkWeights at h
      simp only at h
      split at h
      · cases h
      · next h1 =>
        split at h
        · cases h
        · next h2 =>
          rw [not_not] at h2
          subst h2
          split at h
          · cases h
          · next h3 =>
            split at h
            · cases h
            · next h4 =>
              obtain rfl := Option.some.inj h
              refine Or.inr (Or.inr ⟨ndim, v, rfl, not_lt.1 h1, fun i => ?_, ?_, rfl⟩)
              · by_contra hneg
                exact h3 ⟨i, i.isLt, not_le.1 hneg⟩
              · rwa [Finset.sum_range] at h4
  · rintro (⟨rfl, rfl⟩ | ⟨c, hc, rfl, rfl⟩ | ⟨ndim, v, rfl, h1, h2, h3, rfl⟩)
    · rfl
    · unfold checkWeights; simp only; rw [if_neg (not_le.2 hc)]
    · unfold checkWeights
      simp only []
      rw [if_neg (not_lt.2 h1), if_neg (by simp), if_neg, if_neg]
      · rwa [Finset.sum_range]
      · rintro ⟨i, hi, hneg⟩
        exact absurd (h2 ⟨i, hi⟩) (not_le.2 hneg)

/-- **C48, counterexample (F21).** A scalar weight that is NaN or infinite is accepted (the only test is `weight <= 0`), although the same
value in an array is rejected. -/
theorem c48_scalar_nan_counterexample (n : ℕ) (hn : 0 < n) :
    checkWeightsF n true (.scalar .nan) = some (fun _ => .nan) ∧ checkWeightsF n true (.scalar .pinf) = some (fun _ => .pinf) ∧
    checkWeightsF n true (.array 1 n fun _ => .nan) = none := by
  refine ⟨?_, ?_, ?_⟩
  · simp [checkWeightsF, FV.le0]
  · simp [checkWeightsF, FV.le0]
  · unfold checkWeightsF
    simp only []
    rw [if_neg hn.ne', if_pos ⟨rfl, 0, hn, by simp [FV.isFinite]⟩]

theorem fv_sum_num (l : List ℝ) (c : ℝ) : (l.map FV.num).foldl FV.add (.num c) = .num (c + l.sum) := by
  induction l generalizing c with
  | nil => simp
  | cons x l ih => simp only [List.map_cons, List.foldl_cons, FV.add, ih, List.sum_cons, add_assoc]

/-- **C48, arrays with NaN and infinities.** With the finiteness check on, an array is accepted exactly if it is one-dimensional, has length
`n > 0`, all entries are finite non-negative numbers and their sum is not zero. -/
theorem c48_arrays (n ndim len : ℕ) (v : ℕ → FV) (w : Fin n → FV) :
    checkWeightsF n true (.array ndim len v) = some w ↔
      ∃ x : ℕ → ℝ, (∀ i < len, v i = .num (x i)) ∧ len = n ∧ 0 < n ∧ ndim ≤ 1 ∧ (∀ i < n, 0 ≤ x i) ∧ ∑ i : Fin n, x i ≠ 0 ∧
        w = fun i : Fin n => v i := by
  have hsum : ∀ x : ℕ → ℝ, (∀ i < len, v i = .num (x i)) → FV.sum ((List.range len).map v) = .num (∑ i : Fin len, x i) := by
    intro x hx
    have : (List.range len).map v = ((List.range len).map x).map FV.num := by
      rw [List.map_map]
      refine List.map_congr_left fun i hi => ?_
      exact hx i (List.mem_range.1 hi)
    unfold FV.sum
    rw [this, fv_sum_num, zero_add]
    congr 1
    rw [← Finset.sum_range (f := x)]
    clear hx this
    induction len with
    | zero => simp
    | succ m ih => rw [List.range_succ, List.map_append, List.sum_append, ih, Finset.sum_range_succ]; simp
  constructor
  · intro h
    unfold checkWeightsF at h
    simp only [] at h
    split at h
    · cases h
    next h0 =>
    split at h
    · cases h
    next h1 =>
    split at h
    · cases h
    next h2 =>
    split at h
    · cases h
    next h3 =>
    rw [not_not] at h3
    subst h3
    split at h
    · cases h
    next h4 =>
    split at h
    · cases h
    next h5 =>
    obtain rfl := Option.some.inj h
    have hx : ∀ i < len, v i = .num ((fun i => match v i with | .num x => x | _ => 0) i) := by
      intro i hi
      have : (v i).isFinite := by
        by_contra hne; exact h1 ⟨rfl, i, hi, hne⟩
      revert this
      cases hv : v i <;> simp [FV.isFinite, hv]
    refine ⟨_, hx, rfl, Nat.pos_of_ne_zero h0, not_lt.1 h2, fun i hi => ?_, fun hs => ?_, rfl⟩
    · by_contra hneg
      refine h4 ⟨i, hi, ?_⟩
      rw [hx i hi]
      exact not_le.1 hneg
    · refine h5 ?_
      rw [hsum _ hx, hs]
  · rintro ⟨x, hx, rfl, hn, h1, h2, h3, rfl⟩
    unfold checkWeightsF
    simp only []
    rw [if_neg hn.ne', if_neg, if_neg (not_lt.2 h1), if_neg (by simp), if_neg, if_neg]
    · rw [hsum x hx]
      intro h; exact h3 (FV.num.inj h)
    · rintro ⟨i, hi, hneg⟩
      rw [hx i hi] at hneg
      exact absurd (h2 i hi) (not_le.2 hneg)
    · rintro ⟨_, i, hi, hne⟩
      rw [hx i hi] at hne
      exact hne trivial

/-- Non-vacuity: weights `(1, 0, 2)`. -/
example : checkWeightsF 3 true (.array 1 3 fun i => .num (if i = 1 then 0 else i + 1)) =
    some fun i : Fin 3 => .num (if (i : ℕ) = 1 then 0 else (i : ℕ) + 1) :=
  (c48_arrays 3 1 3 _ _).2 ⟨fun i => if i = 1 then 0 else i + 1, fun _ _ => rfl, rfl, by norm_num, le_refl _,
    fun i _ => by dsimp only; split <;> positivity, by simp [Fin.sum_univ_three]; norm_num, rfl⟩

/-! ### C46 -/

theorem checkWeights_nonneg {n : ℕ} (hn : 0 < n) {a : WeightArg} {w : Fin n → ℝ} (h : checkWeights n a = some w) :
    (∀ i, 0 ≤ w i) ∧ 0 < ∑ i, w i := by
  rcases (c48_check_weights_partial n a w).1 h with ⟨_, rfl⟩ | ⟨c, hc, _, rfl⟩ | ⟨_, v, _, _, h2, h3, rfl⟩
  · refine ⟨fun _ => zero_le_one, ?_⟩
    simp; exact_mod_cast hn
  · refine ⟨fun _ => hc.le, ?_⟩
    simp only [Finset.sum_const, Finset.card_univ, Fintype.card_fin, nsmul_eq_mul]; exact mul_pos (by exact_mod_cast hn) hc
  · exact ⟨h2, lt_of_le_of_ne (Finset.sum_nonneg fun i _ => h2 i) h3.symm⟩

/-- **C46.** The weights used in a fit are non-negative and sum to one. -/
theorem c46_normalised (n : ℕ) (hn : 0 < n) (a : WeightArg) (w : Fin n → ℝ) (h : fitWeights n a = some w) :
    (∀ i, 0 ≤ w i) ∧ ∑ i, w i = 1 := by
  obtain ⟨v, hv, rfl⟩ := Option.map_eq_some_iff.1 h
  obtain ⟨h0, hs⟩ := checkWeights_nonneg hn hv
  refine ⟨fun i => div_nonneg (h0 i) hs.le, ?_⟩
  simp only [normaliseWeights]
  rw [← Finset.sum_div, div_self hs.ne']

/-- The argument with every weight multiplied by `c` (`None` stands for weights equal to one). -/
def WeightArg.scaleBy (c : ℝ) : WeightArg → WeightArg
  | .none => .scalar c
  | .scalar b => .scalar (c * b)
  | .array ndim len v => .array ndim len fun i => c * v i

/-- **C46.** Multiplying all weights by a positive constant leaves the weights used in the fit unchanged (including whether they are
accepted), and omitting the weights is the same as weights one. -/
theorem c46_scale_invariant (n : ℕ) (hn : 0 < n) (a : WeightArg) (c : ℝ) (hc : 0 < c) :
    fitWeights n (a.scaleBy c) = fitWeights n a ∧ fitWeights n .none = fitWeights n (.scalar 1) ∧
    fitWeights n .none = fitWeights n (.array 1 n fun _ => 1) := by
  have hn' : (n : ℝ) ≠ 0 := by exact_mod_cast hn.ne'
  have norm : ∀ w : Fin n → ℝ, (normaliseWeights fun i => c * w i).1 = (normaliseWeights w).1 := by
    intro w
    funext i
    simp only [normaliseWeights]
    rw [← Finset.mul_sum, mul_div_mul_left _ _ hc.ne']
  refine ⟨?_, ?_, ?_⟩
  · cases a with
    | none =>
      simp only [WeightArg.scaleBy, fitWeights, checkWeights, if_neg (not_le.2 hc), Option.map_some]
      rw [← norm fun _ => 1]; simp
    | scalar b =>
      simp only [WeightArg.scaleBy, fitWeights, checkWeights]
      by_cases hb : b ≤ 0
      · rw [if_pos hb, if_pos (mul_nonpos_of_nonneg_of_nonpos hc.le hb)]
      · rw [if_neg hb, if_neg (not_le.2 (mul_pos hc (not_le.1 hb)))]
        simp only [Option.map_some]
        rw [norm fun _ => b]
    | array ndim len v =>
      simp only [WeightArg.scaleBy, fitWeights, checkWeights]
      have e1 : (∃ i < len, c * v i < 0) ↔ ∃ i < len, v i < 0 := by
        constructor <;> rintro ⟨i, hi, h⟩ <;> refine ⟨i, hi, ?_⟩
        · by_contra h'; exact absurd h (not_lt.2 (mul_nonneg hc.le (not_lt.1 h')))
        · exact mul_neg_of_pos_of_neg hc h
      have e2 : (∑ i ∈ Finset.range len, c * v i = 0) ↔ ∑ i ∈ Finset.range len, v i = 0 := by
        rw [← Finset.mul_sum, mul_eq_zero, or_iff_right hc.ne']
      simp only [e1, e2]
      split <;> [rfl; skip]
      split <;> [rfl; skip]
      split <;> [rfl; skip]
      split <;> [rfl; skip]
      simp only [Option.map_some]
      rw [norm fun i : Fin n => v i]
  · simp [fitWeights, checkWeights]
  · unfold fitWeights
    rw [(c48_check_weights_partial n (.array 1 n fun _ => 1) fun _ => 1).2
      (Or.inr (Or.inr ⟨1, _, rfl, le_refl _, fun _ => zero_le_one, by simpa using hn', rfl⟩))]
    rfl

/-- The documented objective in terms of the user's weights: `1/(2 Σw) Σ w d + ½ wᵀP2w + ‖P1 w‖₁`. -/
noncomputable def Spec.userObjective (D : IRLSData n p ic) (w : Fin n → ℝ) (coef : Fin (p + ic.toNat) → ℝ) : ℝ :=
  1 / (2 * ∑ i, w i) * ∑ r, w r * D.fam.dev (D.y r) (linPred ic D.X (off D) coef r) + ridge D coef + l1 ic D.P1 coef

/-- **C46.** With the normalised weights the solver's objective is the documented one in the user's weights. -/
theorem c46_objective (D : IRLSData n p ic) (w : Fin n → ℝ) (hD : D.sw = (normaliseWeights w).1)
    (coef : Fin (p + ic.toNat) → ℝ) : objective D coef = Spec.userObjective D w coef := by
  unfold objective smoothObj Spec.userObjective
  congr 2
  rw [hD, Finset.mul_sum, Finset.mul_sum]
  refine Finset.sum_congr rfl fun i _ => ?_
  simp only [normaliseWeights]
  rw [one_div, one_div, mul_inv]
  ring

example : fitWeights 2 ((WeightArg.array 1 2 fun i => i + 1).scaleBy 5) = fitWeights 2 (.array 1 2 fun i => i + 1) :=
  (c46_scale_invariant 2 (by norm_num) _ 5 (by norm_num)).1

/-! ### C47 -/

/-- Both rowwise outputs are proportional to the weight. -/
structure WeightLinear (fam : RowFamily) : Prop where
  grad : ∀ y w eta mu, fam.grad y w eta mu = w * fam.grad y 1 eta mu
  hess : ∀ y w eta mu, fam.hess y w eta mu = w * fam.hess y 1 eta mu
  gradVar : ∀ y w eta mu, fam.gradVar y w eta mu = w * fam.gradVar y 1 eta mu

theorem oneOverVariance_linear (f : Family) (l : Link) (mu eta disp w : ℝ) :
    oneOverVariance f l mu eta disp w = w * oneOverVariance f l mu eta disp 1 := by
  unfold oneOverVariance
  split
  · ring
  · rw [div_one, one_div, inv_div, one_div]; ring

theorem genericGrad_linear (f : Family) (l : Link) (y w eta mu : ℝ) :
    genericGrad f l y w eta mu = w * genericGrad f l y 1 eta mu := by
  unfold genericGrad
  rw [oneOverVariance_linear]; ring

/-- Every family and link, on the generic and on the compiled path. -/
theorem builtin_weightLinear (e50 : ℝ) (f : Family) (l : Link) :
    WeightLinear (genericRow e50 f l) ∧ ∀ k, WeightLinear (fastRow f l k) := by
  refine ⟨⟨genericGrad_linear f l, fun y w eta mu => ?_, genericGrad_linear f l⟩, fun k => ⟨?_, ?_, genericGrad_linear f l⟩⟩
  · simp only [genericRow, genericHess]
    rw [oneOverVariance_linear]; ring
  · intro y w eta mu
    cases k <;> simp only [fastRow, Fast.grad] <;> ring
  · intro y w eta mu
    cases k <;> simp only [fastRow, Fast.hess] <;> ring

/-- `D'` is a data set whose rows are rows of `D` (row `i` of `D'` is row `f i` of `D`), such that the copies of each row of `D` carry
together its weight; in particular rows of `D` without copy have weight zero. -/
structure SameRows {n m p : ℕ} {ic : Bool} (f : Fin m → Fin n) (D' : IRLSData m p ic) (D : IRLSData n p ic) : Prop where
  X : ∀ i, D'.X i = D.X (f i)
  y : ∀ i, D'.y i = D.y (f i)
  off : ∀ i, off D' i = off D (f i)
  fam : D'.fam = D.fam
  P1 : D'.P1 = D.P1
  P2 : D'.P2 = D.P2
  weight : ∀ r, ∑ i with f i = r, D'.sw i = D.sw r

theorem pull_sum {n m : ℕ} (f : Fin m → Fin n) (w' : Fin m → ℝ) (w : Fin n → ℝ) (hw : ∀ r, ∑ i with f i = r, w' i = w r)
    (g : Fin n → ℝ) : ∑ i, w' i * g (f i) = ∑ r, w r * g r := by
  rw [← Finset.sum_fiberwise_of_maps_to (s := Finset.univ) (t := Finset.univ) (g := f) (fun _ _ => Finset.mem_univ _)]
  refine Finset.sum_congr rfl fun r _ => ?_
  rw [← hw, Finset.sum_mul]
  refine Finset.sum_congr rfl fun i hi => ?_
  rw [(Finset.mem_filter.1 hi).2]

/-- **C47.** Dropping rows of weight zero and splitting a row into copies that share its weight (a row of weight 2 into two rows of weight
1, for instance) leave the objective, both score vectors and the Hessian unchanged at every coefficient vector. -/
theorem c47_same_fit {n m p : ℕ} {ic : Bool} (f : Fin m → Fin n) (D' : IRLSData m p ic) (D : IRLSData n p ic)
    (h : SameRows f D' D) (hl : WeightLinear D.fam) (coef : Fin (p + ic.toNat) → ℝ) :
    objective D' coef = objective D coef ∧ scoreAt D' coef = scoreAt D coef ∧ scoreVarAt D' coef = scoreVarAt D coef ∧
    fullHessian ic D'.X (fun i => D'.fam.hess (D'.y i) (D'.sw i) (linPred ic D'.X (off D') coef i)
        (D'.fam.inv (linPred ic D'.X (off D') coef i))) D'.P2 =
      fullHessian (p := p) ic D.X (fun i => D.fam.hess (D.y i) (D.sw i) (linPred ic D.X (off D) coef i)
        (D.fam.inv (linPred ic D.X (off D) coef i))) D.P2 := by
  have hdes : ∀ i (k : Fin (p + ic.toNat)), design ic D'.X i k = design ic D.X (f i) k := by
    intro i k
    unfold design
    split <;> simp [h.X]
  have hlin : ∀ i, linPred ic D'.X (off D') coef i = linPred ic D.X (off D) coef (f i) := by
    intro i
    unfold linPred
    simp only [hdes, h.off]
  refine ⟨?_, ?_, ?_, ?_⟩
  · unfold objective smoothObj ridge
    simp only [hlin, h.y, h.fam, h.P1, h.P2]
    rw [pull_sum f D'.sw D.sw h.weight fun r => D.fam.dev (D.y r) (linPred ic D.X (off D) coef r)]
  · funext k
    unfold scoreAt
    simp only [hlin, h.y, h.fam, h.P2, hdes]
    congr 1
    rw [show (∑ r, design ic D.X r k * D.fam.grad (D.y r) (D.sw r) (linPred ic D.X (off D) coef r)
        (D.fam.inv (linPred ic D.X (off D) coef r))) = ∑ r, D.sw r * (design ic D.X r k * D.fam.grad (D.y r) 1
        (linPred ic D.X (off D) coef r) (D.fam.inv (linPred ic D.X (off D) coef r))) from
        Finset.sum_congr rfl fun r _ => by rw [hl.grad]; ring]
    rw [← pull_sum f D'.sw D.sw h.weight]
    exact Finset.sum_congr rfl fun r _ => by rw [hl.grad]; ring
  · funext k
    unfold scoreVarAt
    simp only [hlin, h.y, h.fam, h.P2, hdes]
    congr 1
    rw [show (∑ r, design ic D.X r k * D.fam.gradVar (D.y r) (D.sw r) (linPred ic D.X (off D) coef r)
        (D.fam.inv (linPred ic D.X (off D) coef r))) = ∑ r, D.sw r * (design ic D.X r k * D.fam.gradVar (D.y r) 1
        (linPred ic D.X (off D) coef r) (D.fam.inv (linPred ic D.X (off D) coef r))) from
        Finset.sum_congr rfl fun r _ => by rw [hl.gradVar]; ring]
    rw [← pull_sum f D'.sw D.sw h.weight]
    exact Finset.sum_congr rfl fun r _ => by rw [hl.gradVar]; ring
  · funext j k
    unfold fullHessian
    simp only [hlin, h.y, h.fam, h.P2, hdes]
    congr 1
    rw [show (∑ r, design ic D.X r j * D.fam.hess (D.y r) (D.sw r) (linPred ic D.X (off D) coef r)
        (D.fam.inv (linPred ic D.X (off D) coef r)) * design ic D.X r k) = ∑ r, D.sw r * (design ic D.X r j * D.fam.hess (D.y r) 1
        (linPred ic D.X (off D) coef r) (D.fam.inv (linPred ic D.X (off D) coef r)) * design ic D.X r k) from
        Finset.sum_congr rfl fun r _ => by rw [hl.hess]; ring]
    rw [← pull_sum f D'.sw D.sw h.weight]
    exact Finset.sum_congr rfl fun r _ => by rw [hl.hess]; ring

/-- **C47, user weights.** If the user's weights are related in this way then so are the normalised weights of the two fits. -/
theorem c47_normalised {n m : ℕ} (f : Fin m → Fin n) (w' : Fin m → ℝ) (w : Fin n → ℝ)
    (hw : ∀ r, ∑ i with f i = r, w' i = w r) (r : Fin n) :
    ∑ i with f i = r, (normaliseWeights w').1 i = (normaliseWeights w).1 r := by
  have hs : ∑ i, w' i = ∑ r, w r := by simpa using pull_sum f w' w hw fun _ => 1
  simp only [normaliseWeights]
  rw [← Finset.sum_div, hw, hs]

/-- **C47, zero weights.** Keeping exactly the rows in the range of an injective `f`, all others having weight zero, is such a change. -/
theorem c47_drop_zero {n m : ℕ} (f : Fin m → Fin n) (hf : Function.Injective f) (w : Fin n → ℝ)
    (h0 : ∀ r, (∀ i, f i ≠ r) → w r = 0) (r : Fin n) : ∑ i with f i = r, w (f i) = w r := by
  by_cases hr : ∃ i, f i = r
  · obtain ⟨i, rfl⟩ := hr
    have : (Finset.univ.filter fun j => f j = f i) = {i} := by ext j; simp [hf.eq_iff]
    rw [this, Finset.sum_singleton]
  · push Not at hr
    rw [h0 r hr]
    refine Finset.sum_eq_zero fun i hi => ?_
    exact absurd (Finset.mem_filter.1 hi).2 (hr i)

/-- The data of `irlsEx` with row 1 repeated (its weight split) and an additional row with weight zero. -/
noncomputable def irlsExRep : IRLSData 3 1 true :=
  { (⟨fun i => irlsEx.X (![0, 1, 1] i), fun i => irlsEx.y (![0, 1, 1] i), ![irlsEx.sw 0, irlsEx.sw 1 / 3, 2 / 3 * irlsEx.sw 1],
      irlsEx.P1, irlsEx.P2, irlsEx.fam, irlsEx.maxIter, irlsEx.maxInnerIter, irlsEx.gradTol, irlsEx.stepTol, irlsEx.hessApprox,
      irlsEx.fixedInnerTol, irlsEx.random, irlsEx.offset.map fun o i => o (![0, 1, 1] i), irlsEx.lb, irlsEx.ub, irlsEx.eps, irlsEx.large⟩
      : IRLSData 3 1 true) with }

example : SameRows ![0, 1, 1] irlsExRep irlsEx where
  X := fun _ => rfl
  y := fun _ => rfl
  off := fun i => by
    unfold Spec.off irlsExRep
    cases irlsEx.offset <;> rfl
  fam := rfl
  P1 := rfl
  P2 := rfl
  weight := fun r => by
    fin_cases r <;> simp [irlsExRep, Finset.sum_filter, Fin.sum_univ_three] <;> ring

/-! ### C45 -/

theorem average_pos {y w : Fin n → ℝ} (hw : ∀ i, 0 ≤ w i) (hs : 0 < ∑ i, w i) (hy : ∀ i, 0 ≤ y i)
    (hne : ∃ i, 0 < w i ∧ y i ≠ average y w) : 0 < average y w := by
  have h0 : 0 ≤ average y w := div_nonneg (Finset.sum_nonneg fun i _ => mul_nonneg (hy i) (hw i)) hs.le
  refine lt_of_le_of_ne h0 fun h => ?_
  obtain ⟨i, hi, hyi⟩ := hne
  rw [← h] at hyi
  have hz : ∑ i, y i * w i = 0 := by
    have := h.symm
    unfold average at this
    rcases div_eq_zero_iff.1 this with h | h
    · exact h
    · exact absurd h hs.ne'
  have := (Finset.sum_eq_zero_iff_of_nonneg fun i _ => mul_nonneg (hy i) (hw i)).1 hz i (Finset.mem_univ i)
  rcases mul_eq_zero.1 this with h | h
  · exact hyi h
  · exact hi.ne' h

theorem average_compl {y w : Fin n → ℝ} (hs : 0 < ∑ i, w i) : average (fun i => 1 - y i) w = 1 - average y w := by
  unfold average
  simp only [sub_mul, one_mul, Finset.sum_sub_distrib]
  rw [sub_div, div_self hs.ne']

/-- The weighted mean of non-constant observations is in the mean range. -/
theorem average_mem_muRange (f : Family) {y w : Fin n → ℝ} (hw : ∀ i, 0 ≤ w i) (hs : 0 < ∑ i, w i)
    (hy : ∀ i, y i ∈ ySupport f) (hF2 : ∀ p, f = .tweedie p → p < 0 → ∀ i, 0 ≤ y i)
    (hne : ∃ i, 0 < w i ∧ y i ≠ average y w) : average y w ∈ muRange f := by
  cases f with
  | normal => trivial
  | ghs => trivial
  | poisson => exact average_pos hw hs hy hne
  | gamma => exact average_pos hw hs (fun i => le_of_lt (hy i)) hne
  | invGaussian => exact average_pos hw hs (fun i => le_of_lt (hy i)) hne
  | negBinomial theta => exact average_pos hw hs hy hne
  | binomial =>
    refine ⟨average_pos hw hs (fun i => (hy i).1) hne, ?_⟩
    have := average_pos (y := fun i => 1 - y i) hw hs (fun i => sub_nonneg.2 (hy i).2) (by
      obtain ⟨i, hi, h⟩ := hne
      refine ⟨i, hi, ?_⟩
      rw [average_compl hs]
      intro h'; exact h (by linarith))
    rw [average_compl hs] at this
    linarith
  | tweedie q =>
    rcases lt_trichotomy q 0 with h | h | h
    · exact Or.inr (average_pos hw hs (hF2 q rfl h) hne)
    · exact Or.inl h
    · refine Or.inr (average_pos hw hs (fun i => ?_) hne)
      rcases hy i with h' | h' | h'
      · linarith
      · exact h'.2
      · exact le_of_lt h'

theorem unitDeviance_nonneg (f : Family) (hf : Valid f) (y mu : ℝ) (hy : y ∈ ySupport f) (hmu : mu ∈ muRange f) :
    0 ≤ f.unitDeviance y mu := by
  by_cases hb : f = .binomial
  · subst hb; exact (c04_binomial_minimum_partial y mu hy hmu).1
  · exact (c04_deviance_discrepancy_partial f hf hb y mu hy hmu).1

/-- The binomial unit deviance is positive at every mean inside `(0,1)`. -/
theorem binomial_unitDeviance_pos (y mu : ℝ) (hy : y ∈ ySupport .binomial) (hmu : mu ∈ muRange .binomial) :
    0 < Family.unitDeviance .binomial y mu := by
  obtain ⟨hy0, hy1⟩ := hy
  obtain ⟨h0, h1⟩ := hmu
  simp only [Family.unitDeviance, xlogy_eq]
  have e1 : Real.log mu < 0 := Real.log_neg h0 h1
  have e2 : Real.log (1 - mu) < 0 := Real.log_neg (by linarith) (by linarith)
  rcases eq_or_lt_of_le hy0 with h | h
  · subst h; linarith
  · nlinarith [mul_pos h (neg_pos.2 e1), mul_nonneg (sub_nonneg.2 hy1) (neg_nonneg.2 e2.le)]

theorem null_deviance_pos (f : Family) (hf : Valid f) {y w : Fin n → ℝ} (hw : ∀ i, 0 ≤ w i) (hs : 0 < ∑ i, w i)
    (hy : ∀ i, y i ∈ ySupport f) (hF2 : ∀ p, f = .tweedie p → p < 0 → ∀ i, 0 ≤ y i)
    (hne : ∃ i, 0 < w i ∧ y i ≠ average y w) : 0 < f.deviance y (fun _ => average y w) w := by
  have hm := average_mem_muRange f hw hs hy hF2 hne
  rw [c07_deviance_sum_partial f hf y _ w hy (fun _ => hm) hF2]
  obtain ⟨i, hi, hyi⟩ := hne
  refine Finset.sum_pos' (fun j _ => mul_nonneg (hw j) (unitDeviance_nonneg f hf _ _ (hy j) hm)) ⟨i, Finset.mem_univ i, ?_⟩
  refine mul_pos hi ?_
  by_cases hb : f = .binomial
  · subst hb; exact binomial_unitDeviance_pos _ _ (hy i) hm
  · have := c04_deviance_discrepancy_partial f hf hb _ _ (hy i) hm
    exact lt_of_le_of_ne this.1 fun h => hyi (this.2.1 h.symm)

/-- **C45.** For every data set in the support of the family, with accepted weights and observations that are not constant on the rows with
positive weight, the score is a number at most 1. -/
theorem c45_score_le_one (f : Family) (hf : Valid f) (y mu : Fin n → ℝ) (sw : WeightArg) (w : Fin n → ℝ) (hn : 0 < n)
    (hw : checkWeights n sw = some w) (hy : ∀ i, y i ∈ ySupport f) (hmu : ∀ i, mu i ∈ muRange f)
    (hF2 : ∀ p, f = .tweedie p → p < 0 → ∀ i, 0 ≤ y i) (hne : ∃ i, 0 < w i ∧ y i ≠ average y w) :
    ∃ s, scoreD2 f y mu sw = some s ∧ s ≤ 1 := by
  obtain ⟨h0, hs⟩ := checkWeights_nonneg hn hw
  refine ⟨1 - f.deviance y mu w / f.deviance y (fun _ => average y w) w, by simp [scoreD2, hw], ?_⟩
  have hnull := null_deviance_pos f hf h0 hs hy hF2 hne
  have : 0 ≤ f.deviance y mu w := by
    rw [c07_deviance_sum_partial f hf y mu w hy hmu hF2]
    exact Finset.sum_nonneg fun i _ => mul_nonneg (h0 i) (unitDeviance_nonneg f hf _ _ (hy i) (hmu i))
  have := div_nonneg this hnull.le
  linarith

/-- **C45, partial: not binomial.** It is 1 exactly if the prediction equals the observation on every row with positive weight. -/
theorem c45_perfect_partial (f : Family) (hf : Valid f) (hb : f ≠ .binomial) (y mu : Fin n → ℝ) (sw : WeightArg) (w : Fin n → ℝ)
    (hn : 0 < n) (hw : checkWeights n sw = some w) (hy : ∀ i, y i ∈ ySupport f) (hmu : ∀ i, mu i ∈ muRange f)
    (hF2 : ∀ p, f = .tweedie p → p < 0 → ∀ i, 0 ≤ y i) (hne : ∃ i, 0 < w i ∧ y i ≠ average y w) :
    scoreD2 f y mu sw = some 1 ↔ ∀ i, 0 < w i → mu i = y i := by
  obtain ⟨h0, hs⟩ := checkWeights_nonneg hn hw
  have hnull := null_deviance_pos f hf h0 hs hy hF2 hne
  have e : scoreD2 f y mu sw = some 1 ↔ f.deviance y mu w = 0 := by
    simp only [scoreD2, hw, Option.bind_eq_bind, Option.bind_some, Option.some.injEq]
    constructor
    · intro h
      have : f.deviance y mu w / f.deviance y (fun _ => average y w) w = 0 := by linarith
      rcases div_eq_zero_iff.1 this with h | h
      · exact h
      · exact absurd h hnull.ne'
    · intro h; rw [h, zero_div, sub_zero]
  rw [e, c07_deviance_sum_partial f hf y mu w hy hmu hF2,
    Finset.sum_eq_zero_iff_of_nonneg fun i _ => mul_nonneg (h0 i) (unitDeviance_nonneg f hf _ _ (hy i) (hmu i))]
  constructor
  · intro h i hi
    rcases mul_eq_zero.1 (h i (Finset.mem_univ i)) with h | h
    · exact absurd h hi.ne'
    · exact ((c04_deviance_discrepancy_partial f hf hb _ _ (hy i) (hmu i)).2.1 h).symm
  · intro h i _
    rcases eq_or_lt_of_le (h0 i) with h' | h'
    · rw [← h', zero_mul]
    · rw [(c04_deviance_discrepancy_partial f hf hb _ _ (hy i) (hmu i)).2.2 (h i h').symm, mul_zero]

/-- **C45, binomial (F1).** With the binomial family the score is strictly below 1 for all predictions inside `(0,1)`: also when they equal
the observations, which are then proportions.  So "1 exactly for perfect predictions" fails for proportions. -/
theorem c45_binomial_counterexample (y mu : Fin n → ℝ) (sw : WeightArg) (w : Fin n → ℝ) (hn : 0 < n)
    (hw : checkWeights n sw = some w) (hy : ∀ i, y i ∈ ySupport .binomial) (hmu : ∀ i, mu i ∈ muRange .binomial)
    (hne : ∃ i, 0 < w i ∧ y i ≠ average y w) : ∃ s, scoreD2 .binomial y mu sw = some s ∧ s < 1 := by
  obtain ⟨h0, hs⟩ := checkWeights_nonneg hn hw
  have hF2 : ∀ p, Family.binomial = .tweedie p → p < 0 → ∀ i, 0 ≤ y i := by intro p h; cases h
  refine ⟨1 - Family.deviance .binomial y mu w / Family.deviance .binomial y (fun _ => average y w) w, by simp [scoreD2, hw], ?_⟩
  have hnull := null_deviance_pos .binomial trivial h0 hs hy hF2 hne
  have : 0 < Family.deviance .binomial y mu w := by
    rw [c07_deviance_sum_partial .binomial trivial y mu w hy hmu hF2]
    obtain ⟨i, hi, _⟩ := hne
    exact Finset.sum_pos' (fun i _ => mul_nonneg (h0 i) (unitDeviance_nonneg .binomial trivial _ _ (hy i) (hmu i)))
      ⟨i, Finset.mem_univ i, mul_pos hi (binomial_unitDeviance_pos _ _ (hy i) (hmu i))⟩
  have := div_pos this hnull
  linarith

/-- Non-vacuity: Poisson with observations `(0, 3)` and weights `None`. -/
example : ∃ s, scoreD2 .poisson (![0, 3] : Fin 2 → ℝ) ![1, 2] .none = some s ∧ s ≤ 1 :=
  c45_score_le_one .poisson trivial _ _ .none (fun _ => 1) (by norm_num) rfl
    (fun i => by fin_cases i <;> simp [ySupport]) (fun i => by fin_cases i <;> simp [muRange]) (fun p h => by cases h)
    ⟨0, one_pos, by simp [average]; norm_num⟩

end Glum
