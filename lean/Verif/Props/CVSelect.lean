import Verif.Model.CVSelect
import Verif.Props.CV
import Verif.Props.Weights
/-
C120: which combination cross-validation selects when a model on the path predicts means outside the family's range.
-/
set_option linter.unusedSectionVars false
set_option linter.unusedVariables false
set_option linter.unusedSimpArgs false

namespace Glum
open Spec

variable {N n p : ℕ} {ic : Bool}

/-! ### Specification -/

/-- The mean a model with this intercept and these coefficients predicts for row `t`. -/
noncomputable def Spec.storedMean (C : FitCfg p ic) (R : Rows N) (b : ℝ) (c : ℕ → ℝ) (t : Fin N) : ℝ :=
  C.link.inverse C.e50 ((if ic then b else 0) + ∑ j : Fin p, R.X t j * c j + (R.off.getD fun _ => 0) t)

/-- The deviance formula takes the logarithm (or a non-integer power) of a negative number. -/
def Spec.MeanUndefined : Family → ℝ → ℝ → Prop
  | .poisson, y, mu => 0 < y ∧ mu < 0
  | .gamma, _, mu => mu < 0
  | .binomial, y, mu => (y ≠ 0 ∧ mu < 0) ∨ (y ≠ 1 ∧ 1 < mu)
  | .negBinomial _, y, mu => 0 < y ∧ mu < 0
  | .tweedie p, y, mu => 1 < p ∧ p < 2 ∧ mu < 0
  | _, _, _ => False

/-- Every test row of every split has a mean in range for the model stored at l1 ratio `l` and alpha `k`. -/
def Spec.AllMeansValid (C : FitCfg p ic) (R : Rows N) (splits : List (List (Fin N) × List (Fin N))) (L K : ℕ) (ints : List ℝ)
    (coefs : List (ℕ → ℝ)) (l k : ℕ) : Prop :=
  ∀ i (hi : i < splits.length), ∀ t ∈ splits[i].2,
    storedMean C R (ints.getD ((i * L + l) * K + k) 0) (coefs.getD ((i * L + l) * K + k) fun _ => 0) t ∈ muRange C.family

/-- Some test row of some split has an undefined deviance for the model stored at l1 ratio `l` and alpha `k`. -/
def Spec.SomeMeanUndefined (C : FitCfg p ic) (R : Rows N) (splits : List (List (Fin N) × List (Fin N))) (L K : ℕ) (ints : List ℝ)
    (coefs : List (ℕ → ℝ)) (l k : ℕ) : Prop :=
  ∃ i, ∃ hi : i < splits.length, ∃ t ∈ splits[i].2, MeanUndefined C.family (R.y t)
    (storedMean C R (ints.getD ((i * L + l) * K + k) 0) (coefs.getD ((i * L + l) * K + k) fun _ => 0) t)

/-! ### Sums -/

theorem FV.add_nan (x : FV) : x.add .nan = .nan := by cases x <;> rfl
theorem FV.nan_add (x : FV) : FV.add .nan x = .nan := by cases x <;> rfl
theorem FV.mul_nan (x : FV) : x.mul .nan = .nan := by cases x <;> rfl
theorem FV.nan_mul (x : FV) : FV.mul .nan x = .nan := by cases x <;> rfl

theorem FV.foldl_nan (l : List FV) : l.foldl FV.add .nan = .nan := by
  induction l with
  | nil => rfl
  | cons x r ih => rw [List.foldl_cons, FV.nan_add, ih]

theorem FV.sum_nan (l : List FV) (h : FV.nan ∈ l) : FV.sum l = .nan := by
  unfold FV.sum
  generalize FV.num 0 = a
  induction l generalizing a with
  | nil => simp at h
  | cons x r ih =>
    rw [List.foldl_cons]
    rcases List.mem_cons.1 h with h | h
    · rw [← h, FV.add_nan, FV.foldl_nan]
    · exact ih h _

theorem FV.sum_num (l : List ℝ) : FV.sum (l.map .num) = .num l.sum := by
  unfold FV.sum
  have : ∀ a : ℝ, (l.map FV.num).foldl FV.add (.num a) = .num (a + l.sum) := by
    induction l with
    | nil => intro a; simp
    | cons x r ih => intro a; rw [List.map_cons, List.foldl_cons, FV.add, ih, List.sum_cons, add_assoc]
  rw [this, zero_add]

/-! ### The rows -/

theorem FV.log_pos {x : ℝ} (h : 0 < x) : (FV.num x).log = .num (Real.log x) := if_pos h
theorem FV.log_neg {x : ℝ} (h : x < 0) : (FV.num x).log = .nan := (if_neg (not_lt.2 h.le)).trans (if_neg h.ne)
theorem FV.div_num {x y : ℝ} (h : y ≠ 0) : (FV.num x).div (.num y) = .num (x / y) := by
  have : (FV.num y).inv = .num y⁻¹ := if_neg h
  unfold FV.div
  rw [this]
  rfl
theorem FV.sub_num (x y : ℝ) : (FV.num x).sub (.num y) = .num (x - y) := by
  rw [sub_eq_add_neg]; rfl
theorem FV.rpow_pos {x : ℝ} (e : ℝ) (h : 0 < x) : FV.rpow x e = .num (x ^ e) := if_pos h
theorem FV.xlogy_num (x : ℝ) {y : ℝ} (h : 0 < y) : FV.xlogy x y = .num (Glum.xlogy x y) := by
  unfold FV.xlogy Glum.xlogy
  split
  · rfl
  · rw [FV.log_pos h]; rfl

theorem poissonTermFV_num {y w mu : ℝ} (hmu : 0 < mu) : ∃ r, poissonTermFV y w mu = .num r ∧
    r = 2 * (w * mu + open Classical in if 0 < y then w * y * (Real.log y - Real.log mu - 1) else 0) := by
  refine ⟨_, ?_, rfl⟩
  unfold poissonTermFV
  by_cases hy : 0 < y
  · rw [if_pos hy, if_pos hy, FV.log_pos hy, FV.log_pos hmu, FV.sub_num, FV.sub_num]; rfl
  · rw [if_neg hy, if_neg hy]; rfl

theorem gammaTermFV_num {y w mu : ℝ} (hy : 0 < y) (hmu : 0 < mu) : gammaTermFV y w mu =
    .num (2 * (w * (Real.log mu - Real.log y + y / mu - 1))) := by
  unfold gammaTermFV
  rw [FV.log_pos hy, FV.log_pos hmu, FV.sub_num, FV.div_num hmu.ne']
  simp only [FV.add, FV.sub_num, FV.mul]

theorem invGaussianTermFV_num {y w mu : ℝ} (hy : 0 < y) (hmu : 0 < mu) : invGaussianTermFV y w mu =
    .num (w * (y / mu - 1) ^ 2 / y) := by
  unfold invGaussianTermFV
  rw [FV.div_num hmu.ne']
  simp only [FV.sub_num, FV.mul, FV.div_num hy.ne']
  congr 1; ring

theorem FV.sum_ofFn_num {n : ℕ} (g : Fin n → FV) (r : Fin n → ℝ) (h : ∀ i, g i = .num (r i)) :
    FV.sum (List.ofFn g) = .num (∑ i, r i) := by
  have : List.ofFn g = (List.ofFn r).map .num := by
    rw [List.map_ofFn]; congr 1; funext i; exact h i
  rw [this, FV.sum_num, List.sum_ofFn]

/-- **C120, in range.** With observations in the support and means in range, the floating-point kernels compute the real deviance. -/
theorem devianceFV_valid (f : Family) (hf : Valid f) (y mu w : Fin n → ℝ) (hy : ∀ i, y i ∈ ySupport f) (hmu : ∀ i, mu i ∈ muRange f) :
    f.devianceFV y mu w = .num (f.deviance y mu w) := by
  have normal : FV.sum (List.ofFn fun i => normalTermFV (y i) (w i) (mu i)) = .num (normalDeviance y w mu) :=
    FV.sum_ofFn_num _ _ fun i => rfl
  have pois : (∀ i, 0 < mu i) → FV.sum (List.ofFn fun i => poissonTermFV (y i) (w i) (mu i)) = .num (poissonDeviance y w mu) := by
    intro hm
    unfold poissonDeviance
    rw [Finset.mul_sum]
    refine FV.sum_ofFn_num _ _ fun i => ?_
    obtain ⟨r, h1, h2⟩ := poissonTermFV_num (y := y i) (w := w i) (hm i)
    rw [h1, h2]
  have gam : (∀ i, 0 < y i) → (∀ i, 0 < mu i) → FV.sum (List.ofFn fun i => gammaTermFV (y i) (w i) (mu i))
      = .num (gammaDeviance y w mu) := by
    intro h hm
    unfold gammaDeviance
    rw [Finset.mul_sum]
    exact FV.sum_ofFn_num _ _ fun i => gammaTermFV_num (h i) (hm i)
  have ig : (∀ i, 0 < y i) → (∀ i, 0 < mu i) → FV.sum (List.ofFn fun i => invGaussianTermFV (y i) (w i) (mu i))
      = .num (invGaussianDeviance y w mu) := by
    intro h hm
    exact FV.sum_ofFn_num _ _ fun i => invGaussianTermFV_num (h i) (hm i)
  cases f with
  | normal => exact normal
  | poisson => exact pois hmu
  | gamma => exact gam hy hmu
  | invGaussian => exact ig hy hmu
  | ghs => exact FV.sum_ofFn_num _ _ fun i => rfl
  | binomial =>
    refine FV.sum_ofFn_num _ _ fun i => ?_
    show binomialTermFV _ _ _ = _
    unfold binomialTermFV
    rw [FV.xlogy_num _ (hmu i).1, FV.xlogy_num _ (sub_pos.2 (hmu i).2)]
    rfl
  | negBinomial theta =>
    have ht : 0 < theta := hf
    show FV.sum (List.ofFn fun i => negBinomialTermFV theta (y i) (w i) (mu i)) = .num (negBinomialDeviance theta y w mu)
    unfold negBinomialDeviance
    rw [Finset.mul_sum]
    refine FV.sum_ofFn_num _ _ fun i => ?_
    have hyi : 0 ≤ y i := hy i
    have hmi : 0 < mu i := hmu i
    have hr : 0 < 1 / theta := by positivity
    unfold negBinomialTermFV
    rw [FV.div_num (by positivity), FV.log_pos (by positivity)]
    by_cases h : 0 < y i
    · rw [if_pos h, if_pos h, FV.div_num hmi.ne', FV.log_pos (by positivity)]; rfl
    · rw [if_neg h, if_neg h]; rfl
  | tweedie p =>
    show FV.sum (List.ofFn fun i => Family.devTermFV (.tweedie p) (y i) (w i) (mu i)) = _
    unfold Family.devTermFV Family.deviance
    simp only
    by_cases h0 : p = 0
    · simp only [if_pos h0]; exact normal
    have hm : ∀ i, 0 < mu i := fun i => (hmu i).resolve_left h0
    by_cases h1 : p = 1
    · simp only [if_neg h0, if_pos h1]; exact pois hm
    by_cases h2 : p = 2
    · simp only [if_neg h0, if_neg h1, if_pos h2]
      refine gam (fun i => ?_) hm
      rcases hy i with h | h | h
      · linarith
      · linarith [h.1]
      · exact h
    by_cases h3 : p = 3
    · simp only [if_neg h0, if_neg h1, if_neg h2, if_pos h3]
      refine ig (fun i => ?_) hm
      rcases hy i with h | h | h
      · linarith
      · linarith [h.1]
      · exact h
    simp only [if_neg h0, if_neg h1, if_neg h2, if_neg h3]
    unfold tweedieDeviance
    rw [Finset.mul_sum]
    refine FV.sum_ofFn_num _ _ fun i => ?_
    have h2p : (2 : ℝ) - p ≠ 0 := fun h => h2 (by linarith)
    unfold tweedieTermFV
    rw [FV.rpow_pos _ (hm i)]
    simp only [FV.mul, FV.sub_num, FV.div_num h2p]
    by_cases h : 0 < y i
    · rw [if_pos h, if_pos h]; rfl
    · rw [if_neg h, if_neg h]; rfl

theorem devTermFV_undefined (f : Family) (y w mu : ℝ) (h : MeanUndefined f y mu) : f.devTermFV y w mu = .nan := by
  cases f with
  | normal => exact h.elim
  | invGaussian => exact h.elim
  | ghs => exact h.elim
  | poisson =>
    show poissonTermFV y w mu = _
    unfold poissonTermFV
    rw [if_pos h.1, FV.log_neg h.2]
    simp only [FV.sub, FV.neg, FV.add_nan, FV.nan_add, FV.mul_nan]
  | gamma =>
    show gammaTermFV y w mu = _
    unfold gammaTermFV
    rw [FV.log_neg h]
    simp only [FV.sub, FV.neg, FV.add_nan, FV.nan_add, FV.mul_nan]
  | binomial =>
    show binomialTermFV y w mu = _
    unfold binomialTermFV
    rcases h with h | h
    · have : FV.xlogy y mu = .nan := by unfold FV.xlogy; rw [if_neg h.1, FV.log_neg h.2, FV.mul_nan]
      rw [this, FV.nan_add, FV.mul_nan, FV.nan_mul]
    · have : FV.xlogy (1 - y) (1 - mu) = .nan := by
        unfold FV.xlogy; rw [if_neg (sub_ne_zero.2 h.1.symm), FV.log_neg (by linarith [h.2]), FV.mul_nan]
      rw [this, FV.add_nan, FV.mul_nan, FV.nan_mul]
  | negBinomial theta =>
    show negBinomialTermFV theta y w mu = _
    unfold negBinomialTermFV
    rw [if_pos h.1, FV.div_num (x := y) h.2.ne, FV.log_neg (x := y / mu) (div_neg_of_pos_of_neg h.1 h.2), FV.mul_nan, FV.add_nan, FV.mul_nan]
  | tweedie p =>
    obtain ⟨h1, h2, h3⟩ := h
    unfold Family.devTermFV
    simp only
    rw [if_neg (by linarith), if_neg (by linarith), if_neg (by linarith), if_neg (by linarith)]
    have hz : ¬ ∃ k : ℤ, 1 - p = k := by
      rintro ⟨k, hk⟩
      have a : (-1 : ℝ) < k := by rw [← hk]; linarith
      have b : (k : ℝ) < 0 := by rw [← hk]; linarith
      have a' : (-1 : ℤ) < k := by exact_mod_cast a
      have b' : k < 0 := by exact_mod_cast b
      omega
    have : FV.rpow mu (1 - p) = .nan := by
      unfold FV.rpow
      rw [if_neg (not_lt.2 h3.le), if_neg h3.ne, if_neg hz]
    unfold tweedieTermFV
    rw [this, FV.nan_mul, FV.mul_nan]
    simp only [FV.div, FV.nan_mul, FV.nan_add, FV.mul_nan]

/-! ### `np.argmin` -/

theorem FV.le_total {x y : FV} (hx : ¬ x.isNaN) (hy : ¬ y.isNaN) (h : ¬ FV.le x y) : FV.lt y x := by
  cases x <;> cases y <;> simp_all [FV.le, FV.lt, FV.isNaN]

theorem FV.le_self_num {x : FV} (hx : ¬ x.isNaN) : FV.le x x := by
  cases x <;> simp_all [FV.le, FV.isNaN]

theorem FV.le_chain {x y z : FV} (h : FV.le x y) (h' : FV.le y z) : FV.le x z := by
  cases x <;> cases y <;> cases z <;> simp_all [FV.le]
  exact h.trans h'

theorem FV.lt_le {x y z : FV} (h : FV.lt x y) (h' : FV.le y z) : FV.lt x z := by
  cases x <;> cases y <;> cases z <;> simp_all [FV.le, FV.lt]
  exact h.trans_le h'

theorem FV.lt.le {x y : FV} (h : FV.lt x y) : FV.le x y := by
  cases x <;> cases y <;> simp_all [FV.le, FV.lt]
  exact h.le

/-- The state of the loop: `best = l[pos]` is the first smallest of the values before `i`, none of which is NaN. -/
structure Spec.IsFirstMin (l : List FV) (i pos : ℕ) (best : FV) : Prop where
  lt : pos < i
  val : l[pos]? = some best
  num : ¬ best.isNaN
  le : ∀ j x, j < i → l[j]? = some x → FV.le best x
  first : ∀ j x, j < pos → l[j]? = some x → FV.lt best x

theorem argminLoop_spec (pre r : List FV) (pos : ℕ) (best : FV) (h : IsFirstMin (pre ++ r) pre.length pos best) :
    (FV.nan ∉ r → ∃ b, IsFirstMin (pre ++ r) (pre ++ r).length (argminLoop r pre.length pos best) b) ∧
    (FV.nan ∈ r → (pre ++ r)[argminLoop r pre.length pos best]? = some .nan) := by
  induction r generalizing pre pos best with
  | nil =>
    refine ⟨fun _ => ⟨best, ?_⟩, fun h => by simp at h⟩
    rw [List.append_nil] at h ⊢
    exact h
  | cons x r ih =>
    have hx : (pre ++ x :: r)[pre.length]? = some x := by simp
    have e1 : pre ++ x :: r = (pre ++ [x]) ++ r := by simp
    have e2 : (pre ++ [x]).length = pre.length + 1 := by simp
    unfold argminLoop
    split
    · next hle =>
      have h' : IsFirstMin ((pre ++ [x]) ++ r) (pre ++ [x]).length pos best := by
        rw [← e1, e2]
        refine ⟨by have := h.lt; omega, h.val, h.num, fun j z hj hz => ?_, h.first⟩
        rcases Nat.lt_succ_iff_lt_or_eq.1 hj with hj | rfl
        · exact h.le j z hj hz
        · rw [hx] at hz
          cases hz
          exact hle
      have := ih (pre ++ [x]) pos best h'
      rw [← e1, e2] at this
      refine ⟨fun hn => this.1 fun hh => hn (List.mem_cons_of_mem _ hh), fun hn => this.2 ?_⟩
      rcases List.mem_cons.1 hn with hn | hn
      · rw [← hn] at hle
        cases best <;> exact hle.elim
      · exact hn
    · next hle =>
      split
      · next hnan =>
        refine ⟨fun hn => ?_, fun _ => ?_⟩
        · cases x with
          | nan => simp at hn
          | _ => exact hnan.elim
        · rw [hx]
          cases x with
          | nan => rfl
          | _ => exact hnan.elim
      · next hnan =>
        have hlt : FV.lt x best := FV.le_total h.num hnan hle
        have h' : IsFirstMin ((pre ++ [x]) ++ r) (pre ++ [x]).length pre.length x := by
          rw [← e1, e2]
          refine ⟨by omega, hx, hnan, fun j z hj hz => ?_, fun j z hj hz => FV.lt_le hlt (h.le j z hj hz)⟩
          rcases Nat.lt_succ_iff_lt_or_eq.1 hj with hj | rfl
          · exact (FV.lt_le hlt (h.le j z hj hz)).le
          · rw [hx] at hz
            cases hz
            exact FV.le_self_num hnan
        have := ih (pre ++ [x]) pre.length x h'
        rw [← e1, e2] at this
        refine ⟨fun hn => this.1 fun hh => hn (List.mem_cons_of_mem _ hh), fun hn => this.2 ?_⟩
        rcases List.mem_cons.1 hn with hn | hn
        · rw [← hn] at hnan; exact absurd trivial hnan
        · exact hn

/-- `np.argmin` of values without NaN: the first smallest.  With a NaN: a NaN. -/
theorem argminFV_spec (l : List FV) (hl : l ≠ []) :
    ∃ i, argminFV l = some i ∧ (FV.nan ∉ l → ∃ b, IsFirstMin l l.length i b) ∧ (FV.nan ∈ l → l[i]? = some .nan) := by
  cases l with
  | nil => exact absurd rfl hl
  | cons x r =>
    refine ⟨_, rfl, ?_⟩
    split
    · next hx =>
      have : x = .nan := by cases x <;> first | rfl | exact hx.elim
      subst this
      exact ⟨fun h => absurd (List.mem_cons_self) h, fun _ => rfl⟩
    · next hx =>
      have h0 : IsFirstMin ([x] ++ r) [x].length 0 x := by
        refine ⟨by simp, by simp, hx, fun j z hj hz => ?_, fun j z hj => by omega⟩
        have : j = 0 := by simpa using hj
        subst this
        simp at hz
        subst hz
        exact FV.le_self_num hx
      have := argminLoop_spec [x] r 0 x h0
      refine ⟨fun h => this.1 fun hh => h (List.mem_cons_of_mem _ hh), fun h => this.2 ?_⟩
      rcases List.mem_cons.1 h with h | h
      · rw [← h] at hx; exact absurd trivial hx
      · exact h

theorem argminFV_num (l : List ℝ) : argminFV (l.map .num) = argmin l := by
  by_cases hl : l = []
  · subst hl; rfl
  obtain ⟨i, h1, h2, -⟩ := argminFV_spec (l.map .num) (by simpa using hl)
  obtain ⟨b, hb⟩ := h2 (by simp)
  cases hv : argminVal l with
  | none =>
    cases l with
    | nil => exact absurd rfl hl
    | cons x r =>
      unfold argminVal at hv
      split at hv
      · simp at hv
      · split at hv <;> simp at hv
  | some jm =>
    obtain ⟨j, m⟩ := jm
    obtain ⟨g1, g2, g3⟩ := argminVal_spec _ _ _ hv
    have hbv := hb.val
    rw [List.getElem?_map, Option.map_eq_some_iff] at hbv
    obtain ⟨bx, hbx, rfl⟩ := hbv
    have hj : (l.map FV.num)[j]? = some (.num m) := by rw [List.getElem?_map, g1]; rfl
    have hjl : j < (l.map FV.num).length := by
      by_contra hc
      rw [List.getElem?_eq_none (not_lt.1 hc)] at hj
      simp at hj
    rw [h1]
    unfold argmin
    rw [hv, Option.map_some]
    congr 1
    rcases lt_trichotomy i j with h | h | h
    · have a : m < bx := g3 i bx h hbx
      have b : FV.le (.num bx) (.num m) := hb.le j _ hjl hj
      exact absurd (show bx ≤ m from b) (not_le.2 a)
    · exact h
    · have a : FV.lt (.num bx) (.num m) := hb.first j _ h hj
      exact absurd (g2 bx (List.mem_of_getElem? hbx)) (not_le.2 a)

/-! ### Cross-validation -/

theorem storedMean_eq (C : FitCfg p ic) (R : Rows N) (idx : List (Fin N)) (b : ℝ) (c : ℕ → ℝ) (i : Fin idx.length) :
    C.link.inverse C.e50 (safeLinPred ic (R.fold idx).X
      (fun k : Fin (p + ic.toNat) => if k.val < ic.toNat then b else c (k.val - ic.toNat)) (R.fold idx).off i)
      = storedMean C R b c (idx.get i) := by
  unfold storedMean
  rw [c12_lin_pred]
  congr 1
  have hcv : (fun k : Fin (p + ic.toNat) => if k.val < ic.toNat then b else c (k.val - ic.toNat)) = coefVec ic (b, c) := rfl
  rw [hcv, linPred_split, coefVec_icpt]
  simp only [coefVec_feat]
  have ho : ((R.fold idx).off.getD fun _ => 0) i = (R.off.getD fun _ => 0) (idx.get i) := by
    unfold Rows.fold
    cases R.off <;> rfl
  rw [ho]
  rfl

theorem foldDevianceFV_valid (C : FitCfg p ic) (hf : Valid C.family) (R : Rows N) (idx : List (Fin N)) (b : ℝ) (c : ℕ → ℝ)
    (hy : ∀ t ∈ idx, R.y t ∈ ySupport C.family) (hmu : ∀ t ∈ idx, storedMean C R b c t ∈ muRange C.family) :
    foldDevianceFV C (R.fold idx) b c = .num (foldDeviance C (R.fold idx) b c) := by
  unfold foldDevianceFV foldDeviance
  simp only
  refine devianceFV_valid C.family hf _ _ _ (fun i => hy _ (List.get_mem _ i)) (fun i => ?_)
  rw [storedMean_eq]
  exact hmu _ (List.get_mem _ i)

theorem foldDevianceFV_undefined (C : FitCfg p ic) (R : Rows N) (idx : List (Fin N)) (b : ℝ) (c : ℕ → ℝ)
    (h : ∃ t ∈ idx, MeanUndefined C.family (R.y t) (storedMean C R b c t)) : foldDevianceFV C (R.fold idx) b c = .nan := by
  obtain ⟨t, ht, h⟩ := h
  obtain ⟨i, rfl⟩ := List.get_of_mem ht
  unfold foldDevianceFV Family.devianceFV
  simp only
  refine FV.sum_nan _ ?_
  rw [List.mem_ofFn]
  refine ⟨i, ?_⟩
  refine devTermFV_undefined _ _ _ _ ?_
  rw [storedMean_eq]
  exact h

theorem pos_split {L K i l k : ℕ} (hl : l < L) (hk : k < K) : l * K + k < L * K ∧ (i * L + l) * K + k = i * (L * K) + (l * K + k) ∧
    ((i * L + l) * K + k) / (L * K) = i := by
  have h1 : l * K + k < L * K := by
    calc l * K + k < l * K + K := by omega
      _ = (l + 1) * K := by ring
      _ ≤ L * K := Nat.mul_le_mul_right _ hl
  have h2 : (i * L + l) * K + k = i * (L * K) + (l * K + k) := by ring
  refine ⟨h1, h2, ?_⟩
  rw [h2, mul_comm i, Nat.mul_add_div (by omega), Nat.div_eq_of_lt h1, add_zero]

theorem devPathFV_get (C : FitCfg p ic) (R : Rows N) (splits : List (List (Fin N) × List (Fin N))) (L K : ℕ)
    (ints : List ℝ) (coefs : List (ℕ → ℝ)) {i l k : ℕ} (hi : i < splits.length) (hl : l < L) (hk : k < K) (d : FV) :
    (devPathFV C R splits (L * K) ints coefs).getD (i * (L * K) + (l * K + k)) d
      = foldDevianceFV C (R.fold splits[i].2) (ints.getD ((i * L + l) * K + k) 0) (coefs.getD ((i * L + l) * K + k) fun _ => 0) := by
  obtain ⟨h1, h2, h3⟩ := pos_split (i := i) hl hk
  have hlt : i * (L * K) + (l * K + k) < splits.length * (L * K) := by
    calc i * (L * K) + (l * K + k) < i * (L * K) + L * K := by omega
      _ = (i + 1) * (L * K) := by ring
      _ ≤ _ := Nat.mul_le_mul_right _ hi
  unfold devPathFV
  rw [List.getD_eq_getElem?_getD, List.getElem?_map, List.getElem?_range hlt, Option.map_some, Option.getD_some, ← h2, h3]
  rw [List.getD_eq_getElem?_getD, List.getElem?_eq_getElem hi, Option.getD_some]

/-- The average deviance of the combination at l1 ratio `l` and alpha `k`. -/
theorem avg_get (C : FitCfg p ic) (R : Rows N) (splits : List (List (Fin N) × List (Fin N))) (L K : ℕ)
    (ints : List ℝ) (coefs : List (ℕ → ℝ)) {l k : ℕ} (hl : l < L) (hk : k < K) :
    (meanAxis0FV splits.length (L * K) (devPathFV C R splits (L * K) ints coefs))[l * K + k]? =
      some ((FV.sum ((List.range splits.length).map fun i =>
        (devPathFV C R splits (L * K) ints coefs).getD (i * (L * K) + (l * K + k)) .nan)).div (.num splits.length)) := by
  unfold meanAxis0FV
  rw [List.getElem?_map, List.getElem?_range (pos_split (i := 0) hl hk).1, Option.map_some]

theorem avg_undefined (C : FitCfg p ic) (R : Rows N) (splits : List (List (Fin N) × List (Fin N))) (L K : ℕ)
    (ints : List ℝ) (coefs : List (ℕ → ℝ)) {l k : ℕ} (hl : l < L) (hk : k < K) (h : SomeMeanUndefined C R splits L K ints coefs l k) :
    (meanAxis0FV splits.length (L * K) (devPathFV C R splits (L * K) ints coefs))[l * K + k]? = some .nan := by
  rw [avg_get C R splits L K ints coefs hl hk]
  obtain ⟨i, hi, t, ht, hu⟩ := h
  rw [FV.sum_nan]
  · rw [FV.div, FV.nan_mul]
  · refine List.mem_map.2 ⟨i, List.mem_range.2 hi, ?_⟩
    rw [devPathFV_get C R splits L K ints coefs hi hl hk]
    exact foldDevianceFV_undefined C R _ _ _ ⟨t, ht, hu⟩

theorem avg_valid (C : FitCfg p ic) (hf : Valid C.family) (R : Rows N) (splits : List (List (Fin N) × List (Fin N))) (L K : ℕ)
    (hS : splits ≠ []) (hy : ∀ sp ∈ splits, ∀ t ∈ sp.2, R.y t ∈ ySupport C.family)
    (ints : List ℝ) (coefs : List (ℕ → ℝ)) {l k : ℕ} (hl : l < L) (hk : k < K) (h : AllMeansValid C R splits L K ints coefs l k) :
    (meanAxis0FV splits.length (L * K) (devPathFV C R splits (L * K) ints coefs))[l * K + k]? =
      some (.num ((∑ i : Fin splits.length, foldDeviance C (R.fold splits[i].2) (ints.getD ((i * L + l) * K + k) 0)
        (coefs.getD ((i * L + l) * K + k) fun _ => 0)) / splits.length)) := by
  rw [avg_get C R splits L K ints coefs hl hk]
  have hpos : (splits.length : ℝ) ≠ 0 := by
    have : splits.length ≠ 0 := fun h => hS (List.length_eq_zero_iff.1 h)
    exact_mod_cast this
  have e : ((List.range splits.length).map fun i =>
        (devPathFV C R splits (L * K) ints coefs).getD (i * (L * K) + (l * K + k)) .nan)
      = List.ofFn fun i : Fin splits.length => FV.num (foldDeviance C (R.fold splits[i].2) (ints.getD ((i * L + l) * K + k) 0)
        (coefs.getD ((i * L + l) * K + k) fun _ => 0)) := by
    apply List.ext_getElem
    · simp
    · intro i h1 h2
      have hi : i < splits.length := by simpa using h1
      rw [List.getElem_map, List.getElem_range, devPathFV_get C R splits L K ints coefs hi hl hk, List.getElem_ofFn]
      exact foldDevianceFV_valid C hf R _ _ _ (fun t ht => hy _ (List.getElem_mem hi) t ht) (fun t ht => h i hi t ht)
  rw [e, FV.sum_ofFn_num _ _ fun i => rfl, FV.div_num hpos]

theorem select_pos {K b bl ba : ℕ} {o : Option ℕ} (h : o.map (fun b => (b / K, b % K)) = some (bl, ba)) :
    ∃ b, o = some b ∧ b = bl * K + ba ∧ bl = b / K ∧ ba = b % K := by
  rw [Option.map_eq_some_iff] at h
  obtain ⟨b, hb, h⟩ := h
  rw [Prod.mk.injEq] at h
  refine ⟨b, hb, ?_, h.1.symm, h.2.symm⟩
  rw [← h.1, ← h.2, mul_comm]
  exact (Nat.div_add_mod _ _).symm

/-- **C120, the code prefers undefined models.** As soon as one combination of l1 ratio and alpha predicts, for one test row of one
split, a mean whose deviance is undefined (whatever the weight of this row), cross-validation selects a combination that predicts some
mean outside the family's range: never one with valid means only, however good. -/
theorem c120_undefined_selected_counterexample (C : FitCfg p ic) (hf : Valid C.family) (R : Rows N)
    (splits : List (List (Fin N) × List (Fin N))) (L K : ℕ) (hy : ∀ sp ∈ splits, ∀ t ∈ sp.2, R.y t ∈ ySupport C.family)
    (ints : List ℝ) (coefs : List (ℕ → ℝ)) (l k : ℕ) (hl : l < L) (hk : k < K) (h : SomeMeanUndefined C R splits L K ints coefs l k) :
    ∃ bl ba, cvSelectFV C R splits L K ints coefs = some (bl, ba) ∧ bl < L ∧ ba < K ∧ ¬ AllMeansValid C R splits L K ints coefs bl ba := by
  have hn := avg_undefined C R splits L K ints coefs hl hk h
  have hS : splits ≠ [] := by
    obtain ⟨i, hi, -⟩ := h
    rintro rfl
    simp at hi
  obtain ⟨b, hb, -, hb2⟩ := argminFV_spec (meanAxis0FV splits.length (L * K) (devPathFV C R splits (L * K) ints coefs))
    (fun h => by rw [h] at hn; simp at hn)
  have hval := hb2 (List.mem_of_getElem? hn)
  have hlt : b < L * K := by
    by_contra hc
    rw [List.getElem?_eq_none (by unfold meanAxis0FV; simpa using hc)] at hval
    simp at hval
  have hK : 0 < K := by omega
  refine ⟨b / K, b % K, by unfold cvSelectFV; rw [hb]; rfl, (Nat.div_lt_iff_lt_mul hK).2 hlt, Nat.mod_lt _ hK, fun hv => ?_⟩
  have := avg_valid C hf R splits L K hS hy ints coefs ((Nat.div_lt_iff_lt_mul hK).2 hlt) (Nat.mod_lt b hK) hv
  have e : b / K * K + b % K = b := by rw [mul_comm]; exact Nat.div_add_mod _ _
  rw [e, hval] at this
  simp at this

/-- **C120 (proved part).** When every combination predicts, on every test row, a mean in the family's range, the floating-point
selection is the one of the model of `fit` in exact arithmetic (`c60_select`): the averages it compares are non-negative numbers, the
selected one is the smallest, and `l1_ratio_` and `alpha_` are those of its position. -/
theorem c120_valid_partial {σ : Type} (C : FitCfg p ic) (hf : Valid C.family) (stats : Stats) (solver : SolverFn σ p ic) (R : Rows N)
    (S : ℕ) (splits : List (List (Fin N) × List (Fin N))) (l1s : List ℝ) (alphass : List (List ℝ)) (hal : alphass.length = l1s.length)
    (hy : ∀ t, R.y t ∈ ySupport C.family) (hF2 : ∀ p, C.family = .tweedie p → p < 0 → ∀ t, 0 ≤ R.y t) (hsw : ∀ t, 0 ≤ R.sw t)
    (st : ℕ → σ) (arrived : List (ℕ × Option FoldOut)) (harr : Arrival (fitPath C stats solver R) (cvJobs splits l1s alphass) st arrived)
    (s s' : σ) (r : CVResult) (h : cvFit C stats solver R S splits l1s alphass arrived s = some (s', r)) (K : ℕ)
    (hK : ∀ al ∈ alphass, al.length = K)
    (hv : ∀ l k, l < l1s.length → k < K → AllMeansValid C R splits l1s.length K r.interceptPath r.coefPath l k) :
    ∃ bl ba, cvSelectFV C R splits l1s.length K r.interceptPath r.coefPath = some (bl, ba) ∧ bl < l1s.length ∧ ba < K ∧
      l1s[bl]? = some r.l1 ∧ (alphass[bl]?.bind (·[ba]?)) = some r.alpha ∧
      ∀ l k, l < l1s.length → k < K → 0 ≤ meanOutOfFold S l1s.length K r.dev bl ba ∧
        meanOutOfFold S l1s.length K r.dev bl ba ≤ meanOutOfFold S l1s.length K r.dev l k := by
  obtain ⟨outs, al0, best, Q, bestRow, F, H⟩ := cvFit_shape C stats solver R S splits l1s alphass hal st arrived harr s s' r h
  have hKK : al0.length = K := hK _ (List.mem_of_mem_head? (by rw [F.head]; rfl))
  subst hKK
  have hSl := H.splits_len
  have hSne : splits ≠ [] := fun h => F.pos (by rw [← hSl, h]; rfl)
  -- the stored deviance is the deviance of the stored model
  have hdev : ∀ i l k (hi : i < splits.length), l < l1s.length → k < al0.length →
      r.dev.getD ((i * l1s.length + l) * al0.length + k) 0 = foldDeviance C (R.fold splits[i].2)
        (r.interceptPath.getD ((i * l1s.length + l) * al0.length + k) 0)
        (r.coefPath.getD ((i * l1s.length + l) * al0.length + k) fun _ => 0) := by
    intro i l k hi hl hk
    obtain ⟨K', -, -, hrect, -, -, -, -, -, hpos⟩ := c61_layout C stats solver R S splits l1s alphass hal st arrived harr s s' r h
    have hKK : K' = al0.length := by
      have hm : alphass[l]'(by omega) ∈ alphass := List.getElem_mem _
      rw [← hrect _ hm, hK _ hm]
    subst hKK
    obtain ⟨o, ho, h1, h2, h3, h4, e1, e2, e3, e4⟩ := hpos i l k hi hl (by omega) hk
    rw [List.getD_eq_getElem?_getD, e1, List.getD_eq_getElem?_getD, e4, List.getD_eq_getElem?_getD, e3]
    obtain ⟨Q', -, rfl⟩ := fitPath_spec C stats solver R _ _ o ho
    simp only [List.getElem_map, Option.getD_some]
  have hmean : ∀ l k, l < l1s.length → k < al0.length →
      (meanAxis0FV splits.length (l1s.length * al0.length) (devPathFV C R splits (l1s.length * al0.length) r.interceptPath r.coefPath))[l * al0.length + k]?
        = some (.num (meanOutOfFold S l1s.length al0.length r.dev l k)) := by
    intro l k hl hk
    rw [avg_valid C hf R splits _ _ hSne (fun sp _ t _ => hy t) _ _ hl hk (hv l k hl hk)]
    unfold meanOutOfFold
    rw [← hSl, Finset.sum_range]
    congr 3
    refine Finset.sum_congr rfl fun i _ => ?_
    exact (hdev i l k i.2 hl hk).symm
  have hnn : ∀ l k, l < l1s.length → k < al0.length → 0 ≤ meanOutOfFold S l1s.length al0.length r.dev l k := by
    intro l k hl hk
    unfold meanOutOfFold
    refine div_nonneg (Finset.sum_nonneg fun i hi => ?_) (Nat.cast_nonneg _)
    have hi' : i < splits.length := by rw [hSl]; exact Finset.mem_range.1 hi
    rw [hdev i l k hi' hl hk]
    have hm : ∀ t : Fin splits[i].2.length, C.link.inverse C.e50 (safeLinPred ic (R.fold splits[i].2).X
        (fun k_1 : Fin (p + ic.toNat) => if k_1.val < ic.toNat then r.interceptPath.getD ((i * l1s.length + l) * al0.length + k) 0
          else r.coefPath.getD ((i * l1s.length + l) * al0.length + k) (fun _ => 0) (k_1.val - ic.toNat))
        (R.fold splits[i].2).off t) ∈ muRange C.family := by
      intro t
      rw [storedMean_eq]; exact hv l k hl hk i hi' _ (List.get_mem _ t)
    unfold foldDeviance
    refine le_of_le_of_eq ?_ (c07_deviance_sum_partial C.family hf (R.fold splits[i].2).y _ (R.fold splits[i].2).sw (fun t => hy _)
      hm (fun p hp hp0 t => hF2 p hp hp0 _)).symm
    refine Finset.sum_nonneg fun t _ => mul_nonneg ?_ ?_
    · exact div_nonneg (hsw _) (Finset.sum_nonneg fun u _ => hsw _)
    · exact unitDeviance_nonneg C.family hf _ _ (hy _) (hm t)
  have hpos := H.Kpos
  have hall : meanAxis0FV splits.length (l1s.length * al0.length) (devPathFV C R splits (l1s.length * al0.length) r.interceptPath r.coefPath)
      = (meanAxis0 S l1s.length al0.length r.dev).map .num := by
    apply List.ext_getElem?
    intro m
    by_cases hm : m < l1s.length * al0.length
    · have e : m = m / al0.length * al0.length + m % al0.length := by rw [mul_comm]; exact (Nat.div_add_mod _ _).symm
      have hl : m / al0.length < l1s.length := (Nat.div_lt_iff_lt_mul hpos).2 hm
      have hk : m % al0.length < al0.length := Nat.mod_lt _ hpos
      have := hmean _ _ hl hk
      rw [← e] at this
      rw [this, List.getElem?_map]
      unfold meanAxis0 meanOutOfFold
      rw [List.getElem?_map, List.getElem?_range hm]
      simp only [Option.map_some]
      congr 4
      funext i
      congr 1
      conv_rhs => rw [e]
      ring
    · rw [List.getElem?_eq_none (by unfold meanAxis0FV; simpa using hm), List.getElem?_eq_none (by unfold meanAxis0; simpa using hm)]
  have hb := F.hbest
  have hlt := argmin_pos hb
  simp only [meanAxis0, List.length_map, List.length_range] at hlt
  have hl : best / al0.length < l1s.length := (Nat.div_lt_iff_lt_mul hpos).2 hlt
  have hk : best % al0.length < al0.length := Nat.mod_lt _ hpos
  refine ⟨best / al0.length, best % al0.length, ?_, hl, hk, F.l1, ?_, fun l k hl' hk' => ⟨hnn _ _ hl hk, ?_⟩⟩
  · unfold cvSelectFV
    rw [hall, argminFV_num, hb]
    rfl
  · rw [F.als, Option.bind_some, F.al]
  · have hm := hb
    unfold argmin at hm
    rw [Option.map_eq_some_iff] at hm
    obtain ⟨⟨j, m⟩, h1, h2⟩ := hm
    simp only at h2
    subst h2
    obtain ⟨g1, g2, -⟩ := argminVal_spec _ _ _ h1
    have hget : ∀ l k, l < l1s.length → k < al0.length → (meanAxis0 S l1s.length al0.length r.dev)[l * al0.length + k]?
        = some (meanOutOfFold S l1s.length al0.length r.dev l k) := by
      intro l k hl hk
      have := hmean l k hl hk
      rw [hall, List.getElem?_map, Option.map_eq_some_iff] at this
      obtain ⟨x, hx, hx'⟩ := this
      rw [hx]
      exact congrArg some (FV.num.inj hx')
    have e : j = j / al0.length * al0.length + j % al0.length := by rw [mul_comm]; exact (Nat.div_add_mod _ _).symm
    have a := hget _ _ hl hk
    rw [← e, g1, Option.some.injEq] at a
    rw [← a]
    exact g2 _ (List.mem_of_getElem? (hget l k hl' hk'))

/-! ### A silent wrong selection

Poisson family with the identity link, one feature, no intercept, an offset.  Training row: `x = 1`, `y = 1`, offset 0; test row:
`x = -2`, `y = 0`, offset 3/2.  At `alpha = 2` the optimum on the training row is 1/2, the test mean is 1/2 and the deviance 1.  At
`alpha = 0` the optimum is 1, the test mean is -1/2 — not a mean — and the "deviance" is -1.  Cross-validation selects `alpha = 0`. -/

noncomputable def negCfg : FitCfg 1 false := { fitEx with family := .poisson, link := .identity, ub := none }

noncomputable def negRows : Rows 2 where
  X := fun i _ => if i = 0 then 1 else -2
  y := fun i => if i = 0 then 1 else 0
  sw := fun _ => 1 / 2
  off := some fun i => if i = 0 then 0 else 3 / 2

/-- The exact optimum on the training row for either penalty. -/
noncomputable def negSolver : SolverFn Unit 1 false := fun _ D _ s _ =>
  open Classical in (s, fun _ => if p2Full false D.P2 (0 : Fin 1) (0 : Fin 1) = 0 then 1 else 1 / 2)

noncomputable def negOut : FoldOut where
  intercepts := [0, 0]
  coefs := [fun j => if j = 0 then 1 / 2 else 0, fun j => if j = 0 then 1 else 0]
  dev := [1, -1]
  trainDev := [2 * (1 / 2 + (-Real.log (1 / 2) - 1)), 0]

theorem neg_optimal (b : ℝ) (hb : 0 < b) :
    (1 - Real.log 1 ≤ b - Real.log b) ∧ (1 / 2 - Real.log (1 / 2) + (1 / 2) ^ 2 ≤ b - Real.log b + b ^ 2) := by
  constructor
  · have := Real.log_le_sub_one_of_pos hb
    rw [Real.log_one]; linarith
  · have h := Real.log_le_sub_one_of_pos (show 0 < b * 2 by linarith)
    rw [Real.log_mul hb.ne' (by norm_num)] at h
    have h2 : Real.log (1 / 2) = - Real.log 2 := by rw [one_div, Real.log_inv]
    rw [h2]
    nlinarith [sq_nonneg (b - 1 / 2)]

theorem neg_job (s : Unit) : (fitPath negCfg cvExStats negSolver negRows
    { train := [0], test := [1], l1 := 0, alphas := [2, 0] } s).2 = some negOut := by
  norm_num [fitPath, prepare, negCfg, fitEx, setupP1, setupP2, setupP2Base, startGuess, Prepared.path, solvePath, negOut, report, unstandardize,
    foldDeviance, foldTrainDeviance, Prepared.solveFn, negSolver, IRLSData.withPen, stdData, FitCfg.problem, Rows.fold, negRows,
    getStartCoef, clipStart, rawStart, oneOverStd, cvExStats, safeLinPred, feat, Link.inverse, Family.deviance, poissonDeviance, outMeans,
    standardize, stdX, p2Full, p2Matrix, Pen2.smul, scaleP2, Pen2.symmetrise]

theorem neg_arrival (st : ℕ → Unit) : Arrival (fitPath negCfg cvExStats negSolver negRows) (cvJobs [([0], [1])] [0] [[2, 0]]) st
    [(0, some negOut)] := by
  unfold Arrival cvJobs
  simp only [List.flatMap_cons, List.flatMap_nil, List.zip_cons_cons, List.zip_nil_right, List.map_cons, List.map_nil, List.append_nil,
    List.cons_append, List.nil_append, List.zipIdx_cons, List.zipIdx_nil, neg_job]
  exact List.Perm.refl _

theorem neg_objective (alpha b0 : ℝ) (b : ℕ → ℝ) (hb : 0 < b 0 + b0) : fitObjective 1 0 .poisson .identity (negRows.fold [0]) (fun _ => 1) .none .none alpha 0 b0 b
    = (b 0 + b0) - Real.log (b 0 + b0) - 1 + alpha / 2 * b 0 ^ 2 := by
  have h : Real.log (1 / (b 0 + b0)) = - Real.log (b 0 + b0) := by rw [one_div, Real.log_inv]
  simp [fitObjective, negRows, Rows.fold, userP1, userP2, trueMean, Link.inverse, Family.unitDeviance, xlogy]
  ring

/-- **C120, counterexample.** An exact solver, the documented objective minimised on the training row at both alphas (over all
coefficients with a valid mean), a valid model at `alpha = 2`; yet `fit` returns `alpha_ = 0`, whose test mean is negative: its stored
out-of-fold deviance is `-1`. -/
theorem c120_negative_deviance_counterexample :
    ∃ r, cvFit negCfg cvExStats negSolver negRows 1 [([0], [1])] [0] [[2, 0]] [(0, some negOut)] () = some ((), r) ∧
      r.alpha = 0 ∧ r.dev = [1, -1] ∧
      AllMeansValid negCfg negRows [([0], [1])] 1 2 r.interceptPath r.coefPath 0 0 ∧
      ¬ AllMeansValid negCfg negRows [([0], [1])] 1 2 r.interceptPath r.coefPath 0 1 ∧
      ∀ b : ℕ → ℝ, 0 < b 0 →
        fitObjective 1 0 .poisson .identity (negRows.fold [0]) (fun _ => 1) .none .none 2 0 0 (r.coefPath.getD 0 fun _ => 0)
          ≤ fitObjective 1 0 .poisson .identity (negRows.fold [0]) (fun _ => 1) .none .none 2 0 0 b ∧
        fitObjective 1 0 .poisson .identity (negRows.fold [0]) (fun _ => 1) .none .none 0 0 0 (r.coefPath.getD 1 fun _ => 0)
          ≤ fitObjective 1 0 .poisson .identity (negRows.fold [0]) (fun _ => 1) .none .none 0 0 0 b := by
  have hc : joblibCollect (cvJobs ([([0], [1])] : List (List (Fin 2) × List (Fin 2))) [0] [[2, 0]]).length [(0, some negOut)] = some [negOut] := rfl
  unfold cvFit
  rw [hc]
  have hm : argmin (meanAxis0 1 1 2 [1, -1]) = some 1 := by
    norm_num [meanAxis0, argmin, argminVal, List.range, List.range.loop, Finset.sum_range_succ]
  have hr : ∀ {α : Type} (a b : α), reshape3 1 1 2 [[a, b]] = some [a, b] := by
    intro α a b
    unfold reshape3
    rw [if_pos]
    · rfl
    · simp
  have hQ : prepare negCfg cvExStats negRows 0 = some
      { means := fun _ => 0, stds := fun _ => 1
        D := stdData (1 / 10) false (fun _ => 0) (fun _ => 1) (negCfg.problem negRows (fun _ => 0)
          (Pen2.smul 1 (Pen2.vec fun _ => 1)).symmetrise)
        A := none, start := fun _ => 0 } := by
    simp [prepare, negCfg, fitEx, setupP1, setupP2, setupP2Base, startGuess, cvExStats, getStartCoef, rawStart]
    funext k
    simp [clipStart]
  have := cvFinish_some negCfg cvExStats negSolver negRows 1 [0] [[2, 0]] [negOut]
    () [2, 0] _ _ _ _ 1 0 [2, 0] 0 _ rfl (hr 0 0) (hr _ _) (hr _ _) (hr _ _) (by norm_num) hm rfl rfl rfl hQ
  rw [Option.bind_eq_bind, Option.bind_some, this]
  refine ⟨_, rfl, rfl, rfl, ?_, ?_, ?_⟩
  · intro i hi t ht
    have hi0 : i = 0 := by simpa using hi
    subst hi0
    have ht1 : t = 1 := by simpa using ht
    subst ht1
    norm_num [storedMean, negCfg, negRows, Link.inverse, muRange]
  · intro hcon
    have := hcon 0 (by simp) 1 (by simp)
    norm_num [storedMean, negCfg, negRows, Link.inverse, muRange] at this
  · intro b hb
    obtain ⟨h1, h2⟩ := neg_optimal (b 0) hb
    simp only [List.getD_cons_zero, List.getD_cons_succ]
    constructor
    · rw [neg_objective _ _ _ (by norm_num), neg_objective _ _ _ (by linarith)]
      norm_num at h2 ⊢
      linarith
    · rw [neg_objective _ _ _ (by norm_num), neg_objective _ _ _ (by linarith)]
      norm_num at h1 ⊢
      linarith

/-- A case meeting the hypotheses of `c120_undefined_selected_counterexample`: the same with response 1 on the test row; the deviance
of `alpha = 0` is the logarithm of a negative number, and `alpha = 0` is selected. -/
noncomputable def nanRows : Rows 2 := { negRows with y := fun _ => 1 }

example : SomeMeanUndefined negCfg nanRows [([0], [1])] 1 2 negOut.intercepts negOut.coefs 0 1 ∧
    AllMeansValid negCfg nanRows [([0], [1])] 1 2 negOut.intercepts negOut.coefs 0 0 ∧
    cvSelectFV negCfg nanRows [([0], [1])] 1 2 negOut.intercepts negOut.coefs = some (0, 1) := by
  have h1 : SomeMeanUndefined negCfg nanRows [([0], [1])] 1 2 negOut.intercepts negOut.coefs 0 1 := by
    refine ⟨0, by simp, 1, by simp, ?_, ?_⟩
    · norm_num [nanRows]
    · norm_num [storedMean, negCfg, negRows, nanRows, negOut, Link.inverse]
  have h2 : AllMeansValid negCfg nanRows [([0], [1])] 1 2 negOut.intercepts negOut.coefs 0 0 := by
    intro i hi t ht
    have hi0 : i = 0 := by simpa using hi
    subst hi0
    have ht1 : t = 1 := by simpa using ht
    subst ht1
    norm_num [storedMean, negCfg, negRows, nanRows, negOut, Link.inverse, muRange]
  refine ⟨h1, h2, ?_⟩
  obtain ⟨bl, ba, h3, h4, h5, h6⟩ := c120_undefined_selected_counterexample negCfg trivial nanRows [([0], [1])] 1 2
    (fun sp _ t _ => by norm_num [negCfg, nanRows, ySupport]) negOut.intercepts negOut.coefs 0 1 (by norm_num) (by norm_num) h1
  have hbl : bl = 0 := by omega
  subst hbl
  have : ba = 0 ∨ ba = 1 := by omega
  rcases this with rfl | rfl
  · exact absurd h2 h6
  · exact h3

/-- A case meeting the hypotheses of `c120_valid_partial`: the cross-validation of `cvEx_fit` (normal family, any mean is in range). -/
example : ∃ bl ba, cvSelectFV fitEx fitExRows cvExSplits 1 2 [0, 0, 0, 0]
    [fun j => if j = 0 then 1 / 2 else 0, fun j => if j = 0 then 3 / 4 else 0, fun j => if j = 0 then 3 / 2 else 0,
     fun j => if j = 0 then 9 / 4 else 0] = some (bl, ba) := by
  obtain ⟨r, h, -⟩ := cvEx_fit
  obtain ⟨bl, ba, h1, -⟩ := c120_valid_partial fitEx trivial cvExStats halfwaySolver fitExRows 2 cvExSplits [0] [[2, 1]] rfl
    (fun t => trivial) (fun p hp => by simp [fitEx] at hp) (fun t => by norm_num [fitExRows]) (fun _ => 0) cvExArrived (cvEx_arrival _) 0 2 r h
    2 (by simp) (fun l k _ _ i hi t ht => trivial)
  obtain ⟨outs, al0, best, Q, bestRow, F, H⟩ := cvFit_shape fitEx cvExStats halfwaySolver fitExRows 2 cvExSplits [0] [[2, 1]] rfl
    (fun _ => 0) cvExArrived (cvEx_arrival _) 0 2 r h
  refine ⟨bl, ba, ?_⟩
  have hc : joblibCollect (cvJobs cvExSplits [0] [[2, 1]]).length cvExArrived
      = some [cvExOut (1 / 2) (3 / 4) (25 / 4) (81 / 16) (1 / 4) (1 / 16), cvExOut (3 / 2) (9 / 4) (1 / 4) (25 / 16) (9 / 4) (9 / 16)] := rfl
  unfold cvFit at h
  rw [hc, Option.bind_eq_bind, Option.bind_some, cvFinish_spec] at h
  obtain ⟨al0', best', Q', bestRow', F'⟩ := h
  have hal : al0' = [2, 1] := by have := F'.head; simpa using this.symm
  subst hal
  have e1 := F'.ints
  have e2 := F'.coefs
  have i1 := (reshape3_some e1).2.1
  have i2 := (reshape3_some e2).2.1
  simp only [List.map_cons, List.map_nil, cvExOut, List.flatten_cons, List.flatten_nil, List.append_nil, List.cons_append, List.nil_append] at i1 i2
  rw [i1, i2] at h1
  exact h1

end Glum
