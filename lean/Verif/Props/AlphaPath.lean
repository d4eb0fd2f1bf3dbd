import Verif.Model.AlphaPath
import Verif.Props.Builtin
import Verif.Props.GuessIntercept
import Verif.Props.Penalty
/-
C39, C40, C41: the regularisation path.
-/
set_option linter.unusedSectionVars false
set_option linter.unusedVariables false

namespace Glum
open Spec

variable {n p : ℕ} {ic : Bool}

/-! ### C39 -/

/-- The smallest alpha as documented: `min_alpha` if given, else the largest times `min_alpha_ratio`, whose default is `1e-6` if
`n_samples >= n_features`, else `1e-2`. -/
noncomputable def Spec.smallestAlpha (n p : ℕ) (minAlpha minRatio : Option ℝ) (top : ℝ) : ℝ :=
  minAlpha.getD (top * minRatio.getD (if p ≤ n then 10 ^ (-6 : ℤ) else 10 ^ (-2 : ℤ)))

theorem logspace_get (M lo : ℝ) (hM : 0 < M) (hlo : 0 < lo) (k i : ℕ) (hi : i < (logspace (Real.log M) (Real.log lo) k).length) :
    (logspace (Real.log M) (Real.log lo) k)[i] = M * (lo / M) ^ ((i : ℝ) / ((k : ℝ) - 1)) := by
  have hik : i < k := by simpa [logspace, linspace] using hi
  simp only [logspace, linspace, List.map_map, List.getElem_map, List.getElem_range, Function.comp_apply]
  have e : (lo / M) ^ ((i : ℝ) / ((k : ℝ) - 1)) = Real.exp ((Real.log lo - Real.log M) * ((i : ℝ) / ((k : ℝ) - 1))) := by
    rw [Real.rpow_def_of_pos (by positivity), Real.log_div hlo.ne' hM.ne']
  rw [e]
  have e3 : ∀ x, M * Real.exp x = Real.exp (Real.log M + x) := fun x => by rw [Real.exp_add, Real.exp_log hM]
  rw [e3]
  congr 1
  split
  · next h => subst h; simp
  · ring

/-- **C39.** For every largest alpha `M > 0` and every setting of `n_alphas`, `min_alpha`, `min_alpha_ratio` (if the ratio is what
determines the smallest alpha it must be below 1): if a grid is returned, it has `n_alphas` elements, starts at `M`, ends at the
documented smallest alpha, is strictly decreasing with all elements positive, and is geometric. -/
theorem c39_grid (n p k : ℕ) (minAlpha minRatio : Option ℝ) (M : ℝ) (hM : 0 < M)
    (hr : minAlpha = none → ∀ r, minRatio = some r → r < 1) (l : List ℝ) (h : makeGrid n p k minAlpha minRatio M = some l) :
    l.length = k ∧
    (∀ hl : 0 < l.length, l[0] = M) ∧
    (∀ hl : 1 < l.length, l[l.length - 1] = smallestAlpha n p minAlpha minRatio M) ∧
    (∀ i j (hi : i < l.length) (hj : j < l.length), i < j → l[j] < l[i]) ∧
    (∀ a ∈ l, 0 < a) ∧
    (∀ i (hi : i + 2 < l.length), l[i + 1] / l[i] = l[i + 2] / l[i + 1]) := by
  unfold makeGrid at h
  cases hg : gridMin n p minAlpha minRatio M with
  | none => rw [hg] at h; simp at h
  | some lo =>
    rw [hg] at h
    simp only [Option.bind_eq_bind, Option.bind_some] at h
    split at h
    · simp at h
    rename_i hlo
    rw [not_le] at hlo
    obtain rfl := Option.some.inj h
    have hsm : lo = smallestAlpha n p minAlpha minRatio M := by
      unfold gridMin at hg
      unfold smallestAlpha
      cases minAlpha with
      | none =>
        cases minRatio with
        | none =>
          obtain rfl := Option.some.inj hg
          simp only [Option.getD_none, ge_iff_le]
          congr 1
          split <;> norm_num
        | some r => obtain rfl := Option.some.inj hg; rfl
      | some m =>
        simp only at hg
        split at hg
        · cases hg
        · obtain rfl := Option.some.inj hg; rfl
    have hlt : lo < M := by
      unfold gridMin at hg
      cases minAlpha with
      | none =>
        cases minRatio with
        | none =>
          obtain rfl := Option.some.inj hg
          split <;> linarith
        | some r =>
          obtain rfl := Option.some.inj hg
          have := hr rfl r rfl
          nlinarith
      | some m =>
        simp only at hg
        split at hg
        · cases hg
        · next hh => obtain rfl := Option.some.inj hg; exact not_le.1 hh
    have hlen : (logspace (Real.log M) (Real.log lo) k).length = k := by simp [logspace, linspace]
    have hq0 : 0 < lo / M := by positivity
    have hq1 : lo / M < 1 := (div_lt_one hM).2 hlt
    have hget := fun i hi => logspace_get M lo hM hlo k i hi
    refine ⟨hlen, ?_, ?_, ?_, ?_, ?_⟩
    · intro hl; rw [hget]; simp
    · intro hl
      rw [hget, ← hsm]
      have : 1 < k := by rw [← hlen]; exact hl
      have hk : ((k : ℝ) - 1) ≠ 0 := by
        have : (1 : ℝ) < k := by exact_mod_cast this
        linarith
      rw [hlen, Nat.cast_sub (by omega), Nat.cast_one, div_self hk, Real.rpow_one]
      field_simp
    · intro i j hi hj hij
      rw [hget, hget]
      have hk : (0 : ℝ) < (k : ℝ) - 1 := by
        have : 1 < k := by omega
        have : (1 : ℝ) < k := by exact_mod_cast this
        linarith
      refine mul_lt_mul_of_pos_left ?_ hM
      refine Real.rpow_lt_rpow_of_exponent_gt hq0 hq1 ?_
      have : (i : ℝ) < j := by exact_mod_cast hij
      exact div_lt_div_of_pos_right this hk
    · intro a ha
      obtain ⟨x, -, rfl⟩ := List.mem_map.1 ha
      exact Real.exp_pos _
    · intro i hi
      rw [hget, hget, hget]
      have pp := fun e : ℝ => Real.rpow_pos_of_pos hq0 e
      have step : ∀ i : ℕ, M * (lo / M) ^ (((i + 1 : ℕ) : ℝ) / ((k : ℝ) - 1))
          = M * (lo / M) ^ ((i : ℝ) / ((k : ℝ) - 1)) * (lo / M) ^ (1 / ((k : ℝ) - 1)) := by
        intro i
        rw [mul_assoc, ← Real.rpow_add hq0]
        congr 2
        push_cast; ring
      have a1 := step i
      have a2 := step (i + 1)
      rw [a2, a1]
      have := pp ((i : ℝ) / ((k : ℝ) - 1))
      have := pp (1 / ((k : ℝ) - 1))
      field_simp

/-- **C39, when there is no grid.** A `min_alpha` at or above the largest alpha is rejected. -/
theorem c39_min_alpha_rejected (n p k : ℕ) (m : ℝ) (minRatio : Option ℝ) (M : ℝ) (h : M ≤ m) :
    makeGrid n p k (some m) minRatio M = none := by
  simp [makeGrid, gridMin, h]

theorem max?_spec {l : List ℝ} {m : ℝ} (h : l.max? = some m) : m ∈ l ∧ ∀ x ∈ l, x ≤ m :=
  List.max?_eq_some_iff.1 h

theorem alphaMax_pos (D : SmoothData n p ic) (P1 : ℕ → ℝ) (coef : Fin (p + ic.toNat) → ℝ) (m : ℝ) (h : alphaMax D P1 coef = some m) :
    0 < m := by
  unfold alphaMax at h
  obtain ⟨x, hx, hm⟩ := Option.map_eq_some_iff.1 h
  suffices hx0 : 0 ≤ x by
    rw [← hm]
    split
    · norm_num
    · next hne => exact lt_of_le_of_ne hx0 (Ne.symm hne)
  unfold rawAlphaMax at hx
  split at hx
  · cases hmx : ((List.range p).map (featureGradient D coef)).max? with
    | none => rw [hmx] at hx; cases hx
    | some y =>
      rw [hmx] at hx
      obtain rfl := Option.some.inj hx
      obtain ⟨hy, -⟩ := max?_spec hmx
      obtain ⟨j, -, rfl⟩ := List.mem_map.1 hy
      have : 0 ≤ featureGradient D coef j := abs_nonneg _
      positivity
  · obtain ⟨hy, -⟩ := max?_spec hx
    obtain ⟨j, hj, rfl⟩ := List.mem_map.1 hy
    have hj := List.mem_filter.1 hj
    have h1 : 0 < P1 j := by simpa using hj.2
    exact div_nonneg (abs_nonneg _) h1.le

/-- **C39, the path of a fit.** Whatever the data, the path used by `alpha_search` is such a grid from a positive largest alpha. -/
theorem c39_path (D : SmoothData n p ic) (P1 : ℕ → ℝ) (k : ℕ) (minAlpha minRatio : Option ℝ)
    (hr : minAlpha = none → ∀ r, minRatio = some r → r < 1) (l : List ℝ) (h : alphaPath D P1 k minAlpha minRatio = some l) :
    ∃ M, 0 < M ∧ l.length = k ∧
      (∀ hl : 0 < l.length, l[0] = M) ∧
      (∀ hl : 1 < l.length, l[l.length - 1] = smallestAlpha n p minAlpha minRatio M) ∧
      (∀ i j (hi : i < l.length) (hj : j < l.length), i < j → l[j] < l[i]) ∧ (∀ a ∈ l, 0 < a) := by
  unfold alphaPath at h
  simp only [Option.bind_eq_bind] at h
  cases hc : pathCoef D with
  | none => rw [hc] at h; cases h
  | some coef =>
    rw [hc] at h
    simp only [Option.bind_some] at h
    cases hm : alphaMax D P1 coef with
    | none => rw [hm] at h; cases h
    | some M =>
      rw [hm] at h
      simp only [Option.bind_some] at h
      have hM := alphaMax_pos D P1 coef M hm
      obtain ⟨a, b, c, d, e, -⟩ := c39_grid n p k minAlpha minRatio M hM hr l h
      exact ⟨M, hM, a, b, c, d, e⟩

-- Non-vacuity: three alphas from 4 with ratio 1/4 are 4, 2, 1 (and a grid with `min_alpha` exists).
example : ∃ l, makeGrid 5 2 3 none (some (1 / 4)) 4 = some l ∧ l[0]? = some 4 ∧ l[2]? = some 1 := by
  have hg : makeGrid 5 2 3 none (some (1 / 4)) 4 = some (logspace (Real.log 4) (Real.log (4 * (1 / 4))) 3) := by
    simp only [makeGrid, gridMin, Option.bind_eq_bind, Option.bind_some]
    rw [if_neg (by norm_num)]
  refine ⟨_, hg, ?_, ?_⟩
  · simp [logspace, linspace, List.range_succ]
    exact Real.exp_log (by norm_num)
  · simp [logspace, linspace, List.range_succ]
    rw [show (3 : ℝ) - 1 = 2 by norm_num]
    ring_nf

/-! ### C40 -/

theorem pathCoef_spec (D : SmoothData n p ic) (w0 : Fin (p + ic.toNat) → ℝ) (h : pathCoef D = some w0) :
    (∀ k, ¬ k.val < ic.toNat → w0 k = 0) ∧
    (ic = true → ∃ b, guessIntercept D.family D.link D.y D.sw .none = some b ∧ ∀ k, k.val < ic.toNat → w0 k = b) := by
  unfold pathCoef at h
  cases ic with
  | false =>
    simp only [Bool.false_eq_true, if_false, Option.some.injEq] at h
    subst h
    exact ⟨fun _ _ => rfl, fun h => by cases h⟩
  | true =>
    simp only [if_true] at h
    obtain ⟨b, hb, rfl⟩ := Option.map_eq_some_iff.1 h
    exact ⟨fun k hk => if_neg hk, fun _ => ⟨b, hb, fun k hk => if_pos hk⟩⟩

/-- The linear predictor of a vector whose features are zero. -/
theorem linPred_zero_features (X : Fin n → ℕ → ℝ) (o : Fin n → ℝ) (w0 : Fin (p + ic.toNat) → ℝ) (b : ℝ)
    (h0 : ∀ k, ¬ k.val < ic.toNat → w0 k = 0) (hb : ∀ k, k.val < ic.toNat → w0 k = b) (i : Fin n) :
    linPred ic X o w0 i = (if ic then b else 0) + o i := by
  unfold linPred
  congr 1
  cases ic with
  | false =>
    refine Finset.sum_eq_zero fun k _ => ?_
    rw [h0 k (by simp)]; simp
  | true =>
    rw [Finset.sum_eq_single (⟨0, by simp⟩ : Fin (p + true.toNat))]
    · rw [hb _ (by simp)]; simp [design]
    · intro k _ hk
      rw [h0 k, mul_zero]
      intro hlt
      apply hk
      apply Fin.ext
      have : k.val < 1 := hlt
      show k.val = 0
      omega
    · intro h; exact absurd (Finset.mem_univ _) h

/-- The pairs of family and link for which the guessed intercept is the exact minimiser without offset (C63). -/
def ExactGuess (f : Family) (l : Link) : Prop :=
  (l = .log ∧ ∃ q, variancePower f = some q) ∨ (l = .identity ∧ (f = .normal ∨ f = .tweedie 0)) ∨ (l = .logit ∧ f = .binomial)

theorem intercept_stationary (D : SmoothData n p true) (w0 : Fin (p + true.toNat) → ℝ) (h : pathCoef D = some w0)
    (hx : ExactGuess D.family D.link) (ho : D.offset = none) (hf : Valid D.family) (hy : ∀ r, D.y r ∈ ySupport D.family)
    (hsw : 0 < ∑ i, D.sw i) (hw : Regular D w0) (k : Fin (p + true.toNat)) (hk : k.val < true.toNat) :
    (muDevianceDerivative D w0).2 k = 0 := by
  obtain ⟨h0, hbb⟩ := pathCoef_spec D w0 h
  obtain ⟨b, hb, hwb⟩ := hbb rfl
  have hlin : ∀ i, linPred true D.X (D.offset.getD fun _ => 0) w0 i = b := by
    intro i
    rw [linPred_zero_features D.X _ w0 b h0 hwb i, ho]; simp
  have heta : ∀ i, safeLinPred true D.X w0 D.offset i = b := by
    intro i; rw [c12_lin_pred]; exact hlin i
  simp only [muDevianceDerivative, hk, if_true, heta]
  rcases hx with ⟨hl, q, hq⟩ | ⟨hl, hfam⟩ | ⟨hl, hfam⟩
  · rw [hl] at hb ⊢
    have hmin := fun b' hne => c63_log_tweedie D.family hf q hq D.y D.sw .none hsw hy b hb b' hne
    have hloc : IsLocalMin (interceptDeviance D.family Real.exp D.y D.sw (EtaArg.vec .none)) b :=
      Filter.Eventually.of_forall fun b' => by
        by_cases hne : b' = b
        · rw [hne]
        · exact (hmin b' hne).le
    have hmu : ∀ i, Real.exp ((EtaArg.vec (n := n) .none) i + b) ∈ muRange D.family := by
      intro i
      have := hw.mu i
      rw [hlin, hl] at this
      simpa [EtaArg.vec, Link.inverse] using this
    have hd := interceptDeviance_hasDeriv D.family hf Real.exp Real.exp Real.hasDerivAt_exp D.y D.sw (EtaArg.vec .none) hy b hmu
    have := hloc.hasDerivAt_eq_zero hd
    simp only [EtaArg.vec, zero_add] at this
    rw [← this]
    refine Finset.sum_congr rfl fun i _ => ?_
    simp only [Link.inverse, Link.inverseDerivative]; ring
  · rw [hl] at hb ⊢
    have hmin := fun b' hne => c63_identity_normal D.family hfam D.y D.sw .none hsw b hb b' hne
    have hloc : IsLocalMin (interceptDeviance D.family id D.y D.sw (EtaArg.vec .none)) b :=
      Filter.Eventually.of_forall fun b' => by
        by_cases hne : b' = b
        · rw [hne]
        · exact (hmin b' hne).le
    have hmu : ∀ i, id ((EtaArg.vec (n := n) .none) i + b) ∈ muRange D.family := by
      intro i
      have := hw.mu i
      rw [hlin, hl] at this
      simpa [EtaArg.vec, Link.inverse] using this
    have hd := interceptDeviance_hasDeriv D.family hf id (fun _ => 1) (fun x => hasDerivAt_id x) D.y D.sw (EtaArg.vec .none) hy b hmu
    have := hloc.hasDerivAt_eq_zero hd
    simp only [EtaArg.vec, zero_add, id] at this
    rw [← this]
    refine Finset.sum_congr rfl fun i _ => ?_
    simp only [Link.inverse, Link.inverseDerivative]; ring
  · rw [hl, hfam] at hb
    rw [hl]
    have hy' : ∀ i, D.y i ∈ ySupport .binomial := by rw [← hfam]; exact hy
    have hmin := fun b' hne => c63_logit_binomial D.y D.sw hsw hy' b hb b' hne
    have hloc : IsLocalMin (interceptDeviance .binomial expit D.y D.sw (fun _ => 0)) b :=
      Filter.Eventually.of_forall fun b' => by
        by_cases hne : b' = b
        · rw [hne]
        · exact (hmin b' hne).le
    have hd := interceptDeviance_hasDeriv .binomial trivial expit (fun x => expit x * (1 - expit x)) expit_hasDeriv D.y D.sw
      (fun _ => 0) hy' b (fun i => ⟨expit_pos _, expit_lt_one _⟩)
    have hz := hloc.hasDerivAt_eq_zero hd
    by_cases hn : Nonempty (Fin n)
    · obtain ⟨i0⟩ := hn
      have hcl := hw.clip i0
      rw [hlin, hl] at hcl
      have hinv : Link.inverse D.e50 .logit b = expit b := by
        unfold Link.inverse clip50 clip
        simp only
        obtain ⟨h1, h2⟩ := hcl
        have h1' : D.e50 ≤ expit b := h1.le
        have h2' : expit b ≤ 1 - D.e50 := h2.le
        rw [max_eq_left h1', min_eq_left h2']
      rw [← hz, hfam]
      refine Finset.sum_congr rfl fun i _ => ?_
      rw [hinv]
      simp only [Link.inverseDerivative, zero_add]; ring
    · have : IsEmpty (Fin n) := not_nonempty_iff.1 hn
      simp

/-- The gradient at a vector with zero features does not depend on the L2 penalty. -/
theorem objAndDerivative_zero (D : SmoothData n p ic) (w0 : Fin (p + ic.toNat) → ℝ) (h0 : ∀ k, ¬ k.val < ic.toNat → w0 k = 0)
    (k : Fin (p + ic.toNat)) : (objAndDerivative D w0).2 k = 1 / 2 * (muDevianceDerivative D w0).2 k := by
  have hf : ∀ j, feat ic w0 j = 0 := by
    intro j
    unfold feat
    split
    · exact h0 _ (by simp)
    · rfl
  have : ∀ j, p2Coef D.P2 w0 j = 0 := by
    intro j
    unfold p2Coef
    cases D.P2 <;> simp [hf]
  simp [objAndDerivative, this]

theorem featureGradient_eq (D : SmoothData n p ic) (w0 : Fin (p + ic.toNat) → ℝ) (k : Fin (p + ic.toNat)) (hk : ¬ k.val < ic.toNat) :
    featureGradient D w0 (k.val - ic.toNat) = |1 / 2 * (muDevianceDerivative D w0).2 k| := by
  unfold featureGradient feat
  have e : k.val - ic.toNat + ic.toNat = k.val := by omega
  rw [dif_pos (by rw [e]; exact k.isLt)]
  have : (⟨k.val - ic.toNat + ic.toNat, by rw [e]; exact k.isLt⟩ : Fin (p + ic.toNat)) = k := Fin.ext e
  rw [this, neg_mul, abs_neg]

theorem Regular.smul {D : SmoothData n p ic} {w : Fin (p + ic.toNat) → ℝ} (h : Regular D w) (P : Pen2 ℝ) : Regular { D with P2 := P } w :=
  ⟨h.range, h.clip, h.mu⟩

theorem p2Full_smul (a : ℝ) (P : Pen2 ℝ) (i j : Fin (p + ic.toNat)) : p2Full ic (P.smul a) i j = a * p2Full ic P i j := by
  obtain ⟨i, hi⟩ := i
  obtain ⟨j, hj⟩ := j
  cases ic with
  | false => simp only [p2Full]; exact smul_entry a P i j
  | true =>
    cases i with
    | zero => simp [p2Full]
    | succ i =>
      cases j with
      | zero => simp [p2Full]
      | succ j => simp only [p2Full]; exact smul_entry a P i j

/-- The problem with the L2 penalty multiplied by `a`. -/
noncomputable def SmoothData.withAlpha (D : SmoothData n p ic) (a : ℝ) : SmoothData n p ic := { D with P2 := D.P2.smul a }

/-- A convex function plus a separable L1 term is minimal where the KKT conditions hold. -/
theorem kkt_minimises (F : (Fin (p + ic.toNat) → ℝ) → ℝ) (hF : ConvexOn ℝ Set.univ F) (P1 : ℕ → ℝ) (g w : Fin (p + ic.toNat) → ℝ)
    (hg : ∀ d : Fin (p + ic.toNat) → ℝ, HasDerivAt (fun t : ℝ => F fun k => w k + t * d k) (∑ k, g k * d k) 0)
    (hk : KKT (fun _ => True) ic P1 none none g w) (v : Fin (p + ic.toNat) → ℝ) : F w + l1 ic P1 w ≤ F v + l1 ic P1 v := by
  have hline : ConvexOn ℝ Set.univ fun t : ℝ => F fun k => w k + t * (v k - w k) := by
    refine ⟨convex_univ, ?_⟩
    intro x _ y _ a b ha hb hab
    have h2 := hF.2 (Set.mem_univ fun k => w k + x * (v k - w k)) (Set.mem_univ fun k => w k + y * (v k - w k)) ha hb hab
    have e : (fun k => w k + (a • x + b • y) * (v k - w k))
        = a • (fun k => w k + x * (v k - w k)) + b • fun k => w k + y * (v k - w k) := by
      funext k
      simp only [Pi.add_apply, Pi.smul_apply, smul_eq_mul]
      have : b = 1 - a := by linarith
      subst this; ring
    simp only [e]
    exact h2
  have ht := convex_tangent hline (hg fun k => v k - w k) 1
  simp only [zero_mul, add_zero, one_mul, sub_zero, mul_one, add_sub_cancel] at ht
  have hsum : 0 ≤ ∑ k, (g k * (v k - w k) + l1Weight ic P1 k * (|v k| - |w k|)) := by
    refine Finset.sum_nonneg fun k _ => hk k trivial (v k) ?_
    intro i j _
    exact ⟨fun l hl => by (cases hl), fun u hu => by (cases hu)⟩
  rw [Finset.sum_add_distrib] at hsum
  unfold l1
  have : ∑ k, l1Weight ic P1 k * (|v k| - |w k|) = ∑ k, l1Weight ic P1 k * |v k| - ∑ k, l1Weight ic P1 k * |w k| := by
    rw [← Finset.sum_sub_distrib]
    exact Finset.sum_congr rfl fun k _ => by ring
  linarith

/-- **C40 (partial: every feature is L1-penalised, and with an intercept there is no offset and the guessed intercept is exact).**
Let `a0` be the first alpha of the path.  There is a vector with zero features and, with an intercept, the guessed one, such that (if
it is a regular point) for every alpha `>= a0` the optimality conditions of the alpha-penalised problem hold there, so it minimises
the documented objective when that is convex; and `a0` is the lowest such alpha: for `alpha < a0` they fail unless the gradient of
all features vanishes. -/
theorem c40_zero_optimal_partial (D : SmoothData n p ic) (P1 : ℕ → ℝ) (hP : ∀ j < p, 0 < P1 j)
    (hic : ic = true → ExactGuess D.family D.link ∧ D.offset = none ∧ 0 < ∑ i, D.sw i)
    (hf : Valid D.family) (hy : ∀ r, D.y r ∈ ySupport D.family)
    (hsym : ∀ i j, p2Full (p := p) ic D.P2 i j = p2Full ic D.P2 j i)
    (k : ℕ) (minAlpha minRatio : Option ℝ) (hr : minAlpha = none → ∀ r, minRatio = some r → r < 1) (a0 : ℝ) (rest : List ℝ)
    (hpath : alphaPath D P1 k minAlpha minRatio = some (a0 :: rest)) :
    ∃ w0 : Fin (p + ic.toNat) → ℝ, (∀ k, ¬ k.val < ic.toNat → w0 k = 0) ∧
      (ic = true → ∃ b, guessIntercept D.family D.link D.y D.sw .none = some b ∧ ∀ k, k.val < ic.toNat → w0 k = b) ∧
      (Regular D w0 → ∃ g : Fin (p + ic.toNat) → ℝ,
        (∀ a : ℝ, ∀ d : Fin (p + ic.toNat) → ℝ,
          HasDerivAt (fun t : ℝ => documentedObjective (D.withAlpha a) fun k => w0 k + t * d k) (∑ k, g k * d k) 0) ∧
        (∀ a, a0 ≤ a → KKT (fun _ => True) ic (fun j => P1 j * a) none none g w0 ∧
          (ConvexOn ℝ Set.univ (documentedObjective (D.withAlpha a)) → ∀ v : Fin (p + ic.toNat) → ℝ,
            documentedObjective (D.withAlpha a) w0 + l1 ic (fun j => P1 j * a) w0
              ≤ documentedObjective (D.withAlpha a) v + l1 ic (fun j => P1 j * a) v)) ∧
        (∀ a, a < a0 → (∃ k, ¬ k.val < ic.toNat ∧ g k ≠ 0) → ¬ KKT (fun _ => True) ic (fun j => P1 j * a) none none g w0)) := by
  unfold alphaPath at hpath
  simp only [Option.bind_eq_bind] at hpath
  cases hc : pathCoef D with
  | none => rw [hc] at hpath; cases hpath
  | some w0 =>
  rw [hc] at hpath
  simp only [Option.bind_some] at hpath
  cases hm : alphaMax D P1 w0 with
  | none => rw [hm] at hpath; cases hpath
  | some M =>
  rw [hm] at hpath
  simp only [Option.bind_some] at hpath
  have hM := alphaMax_pos D P1 w0 M hm
  have ha0 : a0 = M := (c39_grid n p k minAlpha minRatio M hM hr _ hpath).2.1 (by simp)
  subst ha0
  obtain ⟨h0, hb⟩ := pathCoef_spec D w0 hc
  refine ⟨w0, h0, hb, ?_⟩
  intro hw
  set g : Fin (p + ic.toNat) → ℝ := fun k => 1 / 2 * (muDevianceDerivative D w0).2 k with hg
  have hder : ∀ a : ℝ, ∀ d : Fin (p + ic.toNat) → ℝ,
      HasDerivAt (fun t : ℝ => documentedObjective (D.withAlpha a) fun k => w0 k + t * d k) (∑ k, g k * d k) 0 := by
    intro a d
    have := documentedObjective_hasDeriv (D.withAlpha a) hf hy
      (by intro i j; simp only [SmoothData.withAlpha, p2Full_smul]; rw [hsym]) w0 (hw.smul _) d
    refine this.congr_deriv ?_
    refine Finset.sum_congr rfl fun k _ => ?_
    rw [objAndDerivative_zero _ w0 h0]; rfl
  -- the meaning of alpha_max
  obtain ⟨m, hraw, hmM⟩ := Option.map_eq_some_iff.1 hm
  have hbound : ∀ j < p, featureGradient D w0 j ≤ m * P1 j := by
    intro j hj
    unfold rawAlphaMax at hraw
    rw [if_neg (fun hh => absurd (hh j hj) (hP j hj).ne')] at hraw
    have := (max?_spec hraw).2 (featureGradient D w0 j / P1 j)
      (List.mem_map.2 ⟨j, List.mem_filter.2 ⟨List.mem_range.2 hj, by simpa using hP j hj⟩, rfl⟩)
    rwa [div_le_iff₀ (hP j hj)] at this
  have hmle : m ≤ a0 := by
    rw [← hmM]; split
    · next hz => rw [hz]; norm_num
    · exact le_rfl
  refine ⟨g, hder, ?_, ?_⟩
  · intro a ha
    have hkkt : KKT (fun _ => True) ic (fun j => P1 j * a) none none g w0 := by
      intro i _ z _
      by_cases hi : i.val < ic.toNat
      · have : g i = 0 := by
          cases ic with
          | false => exact absurd hi (by simp)
          | true =>
            obtain ⟨hx, ho, hs⟩ := hic rfl
            simp only [hg]
            rw [intercept_stationary D w0 hc hx ho hf hy hs hw i hi, mul_zero]
        rw [this, l1Weight_of_lt _ _ _ hi]; simp
      · rw [l1Weight_of_ge _ _ _ hi, h0 i hi]
        have hj : i.val - ic.toNat < p := by have := i.isLt; omega
        have h1 : |g i| ≤ P1 (i.val - ic.toNat) * a := by
          have := hbound _ hj
          rw [featureGradient_eq D w0 i hi] at this
          have hpj := hP _ hj
          have : |g i| ≤ m * P1 (i.val - ic.toNat) := this
          nlinarith
        have h2 : -(|g i| * |z|) ≤ g i * z := by rw [← abs_mul]; exact neg_abs_le _
        have h3 := mul_le_mul_of_nonneg_right h1 (abs_nonneg z)
        simp only [sub_zero, abs_zero]
        linarith
    exact ⟨hkkt, fun hconv v => kkt_minimises _ hconv _ g w0 (hder a) hkkt v⟩
  · rintro a ha ⟨k0, hk0, hgk0⟩ hkkt
    -- the feature that attains the maximum
    have hj0 : k0.val - ic.toNat < p := by have := k0.isLt; omega
    have hraw' := hraw
    unfold rawAlphaMax at hraw'
    rw [if_neg (fun hh => absurd (hh _ hj0) (hP _ hj0).ne')] at hraw'
    obtain ⟨hmem, -⟩ := max?_spec hraw'
    obtain ⟨j, hj, hjm⟩ := List.mem_map.1 hmem
    have hjp : j < p := List.mem_range.1 (List.mem_filter.1 hj).1
    have hmpos : 0 < m := by
      have h1 := hbound _ hj0
      rw [featureGradient_eq D w0 k0 hk0] at h1
      have h2 : 0 < |g k0| := abs_pos.2 hgk0
      have h3 : |g k0| ≤ m * P1 (k0.val - ic.toNat) := h1
      have := hP _ hj0
      by_contra hneg
      have := mul_nonpos_of_nonpos_of_nonneg (not_lt.1 hneg) this.le
      linarith
    have hma : m = a0 := by
      rw [if_neg hmpos.ne'] at hmM; exact hmM
    let i : Fin (p + ic.toNat) := ⟨j + ic.toNat, by omega⟩
    have hi : ¬ i.val < ic.toNat := by show ¬ j + ic.toNat < ic.toNat; omega
    have hji : i.val - ic.toNat = j := by show j + ic.toNat - ic.toNat = j; omega
    have hgi : |g i| = m * P1 j := by
      have := featureGradient_eq D w0 i hi
      rw [hji] at this
      rw [← hjm, div_mul_cancel₀ _ (hP j hjp).ne', this]
    have hlt : P1 j * a < |g i| := by
      rw [hgi, hma]
      have := mul_lt_mul_of_pos_right ha (hP j hjp)
      linarith
    have hmove : ∀ z, 0 ≤ g i * z + P1 j * a * |z| := by
      intro z
      have := hkkt i trivial z (fun i' j' _ => ⟨fun l hl => by (cases hl), fun u hu => by (cases hu)⟩)
      rw [l1Weight_of_ge _ _ _ hi, h0 i hi, hji] at this
      simpa using this
    have h1 := hmove (-(g i))
    have h2 : |(-(g i))| = |g i| := abs_neg _
    rw [h2] at h1
    have h3 : g i * -(g i) = -(|g i| * |g i|) := by rw [abs_mul_abs_self]; ring
    rw [h3] at h1
    have hgpos : 0 < |g i| := by rw [hgi]; exact mul_pos hmpos (hP j hjp)
    nlinarith

/-! ### C40: why only partial -/

/-- Poisson regression with log link, offset `(0, log 2.1)`, one feature `±1`, `y = (1, 3)`, equal weights. -/
noncomputable def offsetEx : SmoothData 2 1 true where
  X := fun i _ => if i = 0 then 1 else -1
  y := fun i => if i = 0 then 1 else 3
  sw := fun _ => 1 / 2
  P2 := .vec fun _ => 0
  family := .poisson
  link := .log
  offset := some fun i => if i = 0 then 0 else Real.log (21 / 10)
  e50 := 1 / 1000

theorem offsetEx_gradient (w : Fin (1 + true.toNat) → ℝ) (h0 : ∀ k, ¬ k.val < true.toNat → w k = 0) (k : Fin (1 + true.toNat)) :
    1 / 2 * (muDevianceDerivative offsetEx w).2 k
      = if k.val < true.toNat then (31 / 10 * Real.exp (w 0) - 4) / 2 else (2 - 11 / 10 * Real.exp (w 0)) / 2 := by
  have heta : ∀ i, safeLinPred true offsetEx.X w offsetEx.offset i = w 0 + if i = 0 then 0 else Real.log (21 / 10) := by
    intro i
    rw [c12_lin_pred, linPred_zero_features offsetEx.X _ w (w 0) h0 ?_ i]
    · simp [offsetEx]
    · intro k hk
      have : k = 0 := Fin.ext (by have : k.val < 1 := hk; show k.val = 0; omega)
      rw [this]
  have he : Real.exp (w 0 + Real.log (21 / 10)) = 21 / 10 * Real.exp (w 0) := by
    rw [Real.exp_add, Real.exp_log (by norm_num)]; ring
  have hp := Real.exp_pos (w 0)
  have hx : ∀ i j, offsetEx.X i j = if i = 0 then 1 else -1 := fun _ _ => rfl
  simp only [muDevianceDerivative, heta, Fin.sum_univ_two]
  simp only [offsetEx, Link.inverse, Link.inverseDerivative, Family.unitDevianceDerivative, Family.unitVariance]
  simp only [if_true, one_ne_zero, if_false, add_zero, he]
  split
  · field_simp; ring
  · field_simp; ring

/-- **C40, counterexample (F11).** With an intercept and an offset the path starts too low: the intercept guess used for `alpha_max`
ignores the offset.  On `offsetEx` the path starts at 0.1, but with that alpha no vector with a zero feature coefficient is optimal,
whatever the intercept. -/
theorem c40_offset_counterexample :
    alphaPath offsetEx (fun _ => 1) 1 none none = some [1 / 10] ∧
    ∀ w : Fin (1 + true.toNat) → ℝ, (∀ k, ¬ k.val < true.toNat → w k = 0) → ∀ g : Fin (1 + true.toNat) → ℝ,
      (∀ d : Fin (1 + true.toNat) → ℝ,
        HasDerivAt (fun t : ℝ => documentedObjective (offsetEx.withAlpha (1 / 10)) fun k => w k + t * d k) (∑ k, g k * d k) 0) →
      ¬ KKT (fun _ => True) true (fun _ => 1 * (1 / 10)) none none g w := by
  constructor
  · have hguess : guessIntercept .poisson .log offsetEx.y offsetEx.sw .none = some (Real.log 2) := by
      unfold guessIntercept
      have havg : average offsetEx.y offsetEx.sw = 2 := by
        simp [average, offsetEx, Fin.sum_univ_two]; norm_num
      rw [if_neg]
      · simp only [havg, safeLog]
        rw [if_pos (by norm_num)]; rfl
      · rintro ⟨-, c, hc⟩
        have h1 := hc 0
        have h2 := hc 1
        simp [offsetEx] at h1 h2
        linarith
    have hcoef : pathCoef offsetEx = some fun k => if k.val < true.toNat then Real.log 2 else 0 := by
      unfold pathCoef
      rw [if_pos rfl]
      show (guessIntercept .poisson .log offsetEx.y offsetEx.sw .none).map _ = _
      rw [hguess]; rfl
    have hfg : featureGradient offsetEx (fun k => if k.val < true.toNat then Real.log 2 else 0) 0 = 1 / 10 := by
      have h2 := offsetEx_gradient (fun k => if k.val < true.toNat then Real.log 2 else 0) (fun k hk => if_neg hk) ⟨1, by simp⟩
      rw [if_neg (by simp)] at h2
      have this : featureGradient offsetEx (fun k => if k.val < true.toNat then Real.log 2 else 0) 0
          = |1 / 2 * (muDevianceDerivative offsetEx fun k => if k.val < true.toNat then Real.log 2 else 0).2 ⟨1, by simp⟩| :=
        featureGradient_eq offsetEx _ ⟨1, by simp⟩ (by simp)
      rw [h2] at this
      rw [this]
      have e : (if ((0 : Fin (1 + true.toNat)).val) < true.toNat then Real.log 2 else 0) = Real.log 2 := if_pos (by simp)
      simp only [e]
      rw [Real.exp_log (by norm_num)]
      norm_num [abs_of_nonneg, abs_of_nonpos]
    have hmax : alphaMax offsetEx (fun _ => 1) (fun k => if k.val < true.toNat then Real.log 2 else 0) = some (1 / 10) := by
      unfold alphaMax rawAlphaMax
      rw [if_neg (by intro h; exact absurd (h 0 (by norm_num)) (by norm_num))]
      have hl : (List.range 1).filter (fun _ => decide ((0 : ℝ) < 1)) = [0] := by simp
      simp only [hl, List.map_cons, List.map_nil, List.max?_singleton, hfg]
      norm_num
    unfold alphaPath
    simp only [Option.bind_eq_bind, hcoef, Option.bind_some, hmax, makeGrid, gridMin]
    rw [if_neg (by norm_num)]
    simp [logspace, linspace]
    rw [Real.exp_neg, Real.exp_log (by norm_num)]
  · intro w h0 g hg hk
    have hreg : Regular (offsetEx.withAlpha (1 / 10)) w :=
      ⟨fun _ => trivial, fun _ => trivial, fun r => Real.exp_pos _⟩
    have hgk : ∀ k, g k = 1 / 2 * (muDevianceDerivative offsetEx w).2 k := by
      intro k
      have h1 := hg fun i => if i = k then 1 else 0
      have h2 := documentedObjective_hasDeriv (offsetEx.withAlpha (1 / 10)) trivial
        (fun r => by show (0 : ℝ) ≤ if r = 0 then 1 else 3; split <;> norm_num)
        (fun i j => by
          simp only [SmoothData.withAlpha, p2Full_smul, offsetEx]
          obtain ⟨i, hi⟩ := i
          obtain ⟨j, hj⟩ := j
          cases i <;> cases j <;> simp [p2Full, p2Matrix]) w hreg fun i => if i = k then 1 else 0
      have := h1.unique h2
      simp only [mul_ite, mul_one, mul_zero, Finset.sum_ite_eq', Finset.mem_univ, if_true] at this
      rw [this, objAndDerivative_zero _ w h0]; rfl
    have hall : ∀ i z, 0 ≤ g i * (z - w i) + l1Weight true (fun _ => 1 * (1 / 10)) i * (|z| - |w i|) :=
      fun i z => hk i trivial z (fun _ _ _ => ⟨fun l hl => by (cases hl), fun u hu => by (cases hu)⟩)
    have hint := fun z => hall 0 z
    have hfeat := fun z => hall ⟨1, by simp⟩ z
    rw [l1Weight_of_lt _ _ _ (by simp)] at hint
    rw [l1Weight_of_ge _ _ _ (by simp), h0 ⟨1, by simp⟩ (by simp)] at hfeat
    rw [hgk, offsetEx_gradient w h0] at hint hfeat
    rw [if_pos (by simp)] at hint
    rw [if_neg (by simp)] at hfeat
    have hz : (31 / 10 * Real.exp (w 0) - 4) / 2 = 0 := by
      have h1 := hint (w 0 + 1)
      have h2 := hint (w 0 - 1)
      simp only [add_sub_cancel_left, zero_mul, add_zero, mul_one] at h1
      have : w 0 - 1 - w 0 = -1 := by ring
      rw [this] at h2
      simp only [zero_mul, add_zero] at h2
      linarith
    have h3 := hfeat (-1)
    simp only [sub_zero, abs_neg, abs_one, abs_zero] at h3
    have he : Real.exp (w 0) = 40 / 31 := by linarith
    rw [he] at h3
    norm_num at h3

-- Non-vacuity of the partial theorem: the same data without offset satisfy its hypotheses and have a path.
example : ∃ (D : SmoothData 2 1 true) (a0 : ℝ), alphaPath D (fun _ => 1) 1 none none = some [a0] ∧
    (ExactGuess D.family D.link ∧ D.offset = none ∧ 0 < ∑ i, D.sw i) ∧ Valid D.family ∧ (∀ r, D.y r ∈ ySupport D.family) ∧
    ∀ w, Regular D w := by
  have hguess : guessIntercept .poisson .log offsetEx.y offsetEx.sw .none = some (Real.log 2) := by
    unfold guessIntercept
    have havg : average offsetEx.y offsetEx.sw = 2 := by
      simp [average, offsetEx, Fin.sum_univ_two]; norm_num
    rw [if_neg]
    · simp only [havg, safeLog]
      rw [if_pos (by norm_num)]; rfl
    · rintro ⟨-, c, hc⟩
      have h1 := hc 0
      have h2 := hc 1
      simp [offsetEx] at h1 h2
      linarith
  let D : SmoothData 2 1 true := { offsetEx with offset := none }
  have hcoef : pathCoef D = some fun k => if k.val < true.toNat then Real.log 2 else 0 := by
    unfold pathCoef
    rw [if_pos rfl]
    show (guessIntercept .poisson .log offsetEx.y offsetEx.sw .none).map _ = _
    rw [hguess]; rfl
  have hmax : ∃ m, alphaMax D (fun _ => 1) (fun k => if k.val < true.toNat then Real.log 2 else 0) = some m := by
    unfold alphaMax rawAlphaMax
    rw [if_neg (by intro h; exact absurd (h 0 (by norm_num)) (by norm_num))]
    simp
  obtain ⟨m, hm⟩ := hmax
  have hpos := alphaMax_pos _ _ _ _ hm
  refine ⟨D, m, ?_, ⟨Or.inl ⟨rfl, 1, rfl⟩, rfl, ?_⟩, trivial, ?_, ?_⟩
  · unfold alphaPath
    simp only [Option.bind_eq_bind, hcoef, Option.bind_some, hm, makeGrid, gridMin]
    rw [if_neg (by simp; positivity)]
    simp [logspace, linspace, Real.exp_log hpos]
  · simp [D, offsetEx]
  · intro r; show (0 : ℝ) ≤ if r = 0 then 1 else 3; split <;> norm_num
  · exact fun w => ⟨fun _ => trivial, fun _ => trivial, fun r => Real.exp_pos _⟩

/-! ### C41 -/

/-- **C41.** For every list of alphas and every solver (with any internal state), the path has one row per alpha, in order; row `i` is
what the solver returns for the penalties multiplied by the `i`-th alpha, started from row `i-1` (from the initial vector for
`i = 0`), with the state left by the calls before it. -/
theorem c41_path {σ : Type} (solve : SolveFn σ p ic) (P1 : ℕ → ℝ) (P2 : Pen2 ℝ) (alphas : List ℝ) (s : σ)
    (start : Fin (p + ic.toNat) → ℝ) :
    (solvePath solve P1 P2 alphas s start).2.length = alphas.length ∧
    ∃ states : ℕ → σ, states 0 = s ∧ states alphas.length = (solvePath solve P1 P2 alphas s start).1 ∧
      ∀ i (hi : i < alphas.length) (hi' : i < (solvePath solve P1 P2 alphas s start).2.length),
        solve (states i) (fun j => P1 j * alphas[i]) (P2.smul alphas[i])
          (if h : i = 0 then start else (solvePath solve P1 P2 alphas s start).2[i - 1])
        = (states (i + 1), (solvePath solve P1 P2 alphas s start).2[i]) := by
  induction alphas generalizing s start with
  | nil => exact ⟨rfl, fun _ => s, rfl, rfl, fun i hi => by simp at hi⟩
  | cons a rest ih =>
    obtain ⟨hl, states, h0, hn, hs⟩ := ih (solve s (fun j => P1 j * a) (P2.smul a) start).1 (solve s (fun j => P1 j * a) (P2.smul a) start).2
    refine ⟨by simp only [solvePath, List.length_cons, hl], fun i => if i = 0 then s else states (i - 1), by simp, ?_, ?_⟩
    · simp only [List.length_cons, Nat.add_eq_zero_iff, one_ne_zero, and_false, if_false, Nat.add_sub_cancel, hn]
      rfl
    · intro i hi hi'
      cases i with
      | zero =>
        simp only [solvePath, if_true, dite_true, List.getElem_cons_zero, zero_add, one_ne_zero, if_false, Nat.sub_self, h0]
      | succ i =>
        have hi2 : i < rest.length := by simpa using hi
        have := hs i hi2 (by rw [hl]; exact hi2)
        simp only [solvePath, List.getElem_cons_succ, Nat.add_sub_cancel, Nat.add_eq_zero_iff, one_ne_zero, and_false, if_false,
          dite_false, Nat.succ_ne_zero]
        rw [← this]
        congr 1
        cases i with
        | zero => simp
        | succ i => simp

/-- **C41, what is stored.** `coef_path_`/`intercept_path_` have one entry per row, in order; each describes the same linear predictor on
the user's columns as the solver's row does on the standardised ones (so every row of the path is a model on the original scale);
`coef_`, `intercept_` are the last row; without intercept every intercept is 0. -/
theorem c41_stored (thr : ℝ) (means stds : ℕ → ℝ) (alphas : List ℝ) (rows : List (Fin (p + ic.toNat) → ℝ)) (r : PathResult)
    (h : storePath thr means stds alphas rows = some r) :
    r.alphas = alphas ∧ r.coefPath.length = rows.length ∧ r.interceptPath.length = rows.length ∧
    r.coefPath.getLast? = some r.coef ∧ r.interceptPath.getLast? = some r.intercept ∧
    (ic = false → ∀ b ∈ r.interceptPath, b = 0) ∧
    ∀ i (hi : i < rows.length) (h1 : i < r.coefPath.length) (h2 : i < r.interceptPath.length)
      {n : ℕ} (X : Fin n → ℕ → ℝ) (row : Fin n),
      r.interceptPath[i] + ∑ j : Fin p, X row j * r.coefPath[i] j
        = linPred ic (stdX thr ic means stds X) (fun _ => 0) rows[i] row := by
  unfold storePath at h
  simp only [Option.bind_eq_bind] at h
  cases hl : (rows.map (report ic thr means stds)).getLast? with
  | none => rw [hl] at h; cases h
  | some last =>
    rw [hl] at h
    obtain rfl := Option.some.inj h
    have hzero : ic = false → ∀ c : Fin (p + ic.toNat) → ℝ, (report ic thr means stds c).1 = 0 := by
      rintro rfl c
      simp [report, unstandardize, outMeans]
    refine ⟨rfl, by simp, by simp, ?_, ?_, ?_, ?_⟩
    · simp only [List.getLast?_map] at hl ⊢
      rw [hl]; rfl
    · simp only [List.getLast?_map] at hl ⊢
      rw [hl]
      simp only [Option.map_some, Option.some.injEq]
      cases hic : ic with
      | true => simp
      | false =>
        obtain ⟨c, hc, rfl⟩ := Option.map_eq_some_iff.1 hl
        simp only [Bool.false_eq_true, if_false]
        exact hzero hic c
    · intro hic b hb
      simp only [List.map_map, List.mem_map, Function.comp_apply] at hb
      obtain ⟨c, -, rfl⟩ := hb
      exact hzero hic c
    · intro i hi h1 h2 n X row
      simp only [List.getElem_map]
      have := c15_same_predictions thr means stds X (fun _ => 0) rows[i] row
      simp only [add_zero] at this
      rw [← this, add_comm]

end Glum
