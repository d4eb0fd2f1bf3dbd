import Verif.Props.Config
import Verif.Props.Weights
import Verif.Props.GuessIntercept
import Verif.Props.AlphaPath
/-
Theorems added after mutation testing: the score of constant predictions (C45), the explicit choice of a solver and the totality of the
automatic one (C38), the start of the ridge path (C39), rejected and negative alpha indices (C42).
-/
set_option linter.unusedSectionVars false
set_option linter.unusedVariables false
set_option linter.unusedSimpArgs false

namespace Glum

open Spec

variable {n p : ℕ} {ic : Bool}

/-- **C45, reference model.** A constant prediction never scores above 0, and scores exactly 0 if and only if it is the weighted mean of the
observations (with the weights given to `score`). -/
theorem c45_constant_prediction (f : Family) (hf : Valid f) (y : Fin n → ℝ) (m : ℝ) (sw : WeightArg) (w : Fin n → ℝ) (hn : 0 < n)
    (hw : checkWeights n sw = some w) (hy : ∀ i, y i ∈ ySupport f) (hm : m ∈ muRange f)
    (hF2 : ∀ p, f = .tweedie p → p < 0 → ∀ i, 0 ≤ y i) (hne : ∃ i, 0 < w i ∧ y i ≠ (∑ j, w j * y j) / ∑ j, w j) :
    ∃ s, scoreD2 f y (fun _ => m) sw = some s ∧ s ≤ 0 ∧ (s = 0 ↔ m = (∑ j, w j * y j) / ∑ j, w j) := by
  obtain ⟨h0, hs⟩ := checkWeights_nonneg hn hw
  have hav : (∑ j, w j * y j) / ∑ j, w j = average y w := by
    unfold average; congr 1; exact Finset.sum_congr rfl fun i _ => mul_comm _ _
  rw [hav] at hne ⊢
  have hmean := average_mem_muRange f h0 hs hy hF2 hne
  have hnull := null_deviance_pos f hf h0 hs hy hF2 hne
  have e1 := c07_deviance_sum_partial f hf y (fun _ => m) w hy (fun _ => hm) hF2
  have e2 := c07_deviance_sum_partial f hf y (fun _ => average y w) w hy (fun _ => hmean) hF2
  refine ⟨1 - f.deviance y (fun _ => m) w / f.deviance y (fun _ => average y w) w, by simp [scoreD2, hw], ?_⟩
  by_cases hmm : m = average y w
  · subst hmm
    rw [div_self hnull.ne']
    simp
  · have hlt : f.deviance y (fun _ => average y w) w < f.deviance y (fun _ => m) w := by
      rw [e1, e2]
      refine mean_minimiser f hf y w hs hy _ ?_ hmean m hm hmm
      unfold average; exact div_mul_cancel₀ _ hs.ne'
    have h1 : 1 < f.deviance y (fun _ => m) w / f.deviance y (fun _ => average y w) w := (one_lt_div hnull).2 hlt
    exact ⟨by linarith, ⟨fun h => by linarith, fun h => absurd h hmm⟩⟩

-- Non-vacuity: Poisson, observations 1 and 3 with weights 3 and 1 (mean 3/2), prediction 2.
example : ∃ s, scoreD2 .poisson (n := 2) (fun i => if i = 0 then 1 else 3) (fun _ => 2)
    (.array 1 2 fun k => if k = 0 then 3 else 1) = some s ∧ s ≤ 0 ∧ s ≠ 0 := by
  have hw : checkWeights 2 (.array 1 2 fun k => if k = 0 then 3 else 1) = some fun i : Fin 2 => if i.val = 0 then (3 : ℝ) else 1 := by
    simp only [checkWeights]
    rw [if_neg (by norm_num), if_neg (by norm_num), if_neg, if_neg]
    · simp [Finset.sum_range_succ]; norm_num
    · rintro ⟨i, -, h⟩; split at h <;> norm_num at h
  obtain ⟨s, h1, h2, h3⟩ := c45_constant_prediction .poisson trivial (n := 2) (fun i => if i = 0 then 1 else 3) 2 _ _ (by norm_num) hw
    (fun i => by fin_cases i <;> simp [ySupport]) (by simp [muRange]) (fun p h => by cases h)
    ⟨0, by simp, by simp [Fin.sum_univ_two]; norm_num⟩
  refine ⟨s, h1, h2, fun h => ?_⟩
  have := h3.1 h
  simp [Fin.sum_univ_two] at this
  norm_num at this

/-- **C46, the original weights.** The weights handed to the covariance computation at the end of `fit` (normalised weight times
`weights_sum`) are the validated weights of the user. -/
theorem c46_restored (n : ℕ) (hn : 0 < n) (a : WeightArg) (w : Fin n → ℝ) (h : checkWeights n a = some w) (i : Fin n) :
    (normaliseWeights w).1 i * (normaliseWeights w).2 = w i := by
  obtain ⟨h0, hs⟩ := checkWeights_nonneg hn h
  simp only [normaliseWeights]
  exact div_mul_cancel₀ _ hs.ne'

/-- The solver a value of `solver` names; `auto` (and unknown strings) name none. -/
def Spec.named : SolverArg → Option Solver
  | .closedForm => some .closedForm
  | .irlsLs => some .irlsLs
  | .irlsLsMonotonic => some .irlsLsMonotonic
  | .lbfgs => some .lbfgs
  | .irlsCd => some .irlsCd
  | .trustConstr => some .trustConstr
  | .auto => none
  | .other => none

/-- **C38, explicit choice.** If a fit with an explicit solver runs, it runs that solver. -/
theorem c38_explicit (c : Config) (path : List ℝ) (s : Solver) (h : c.run path = some s) (ha : c.solver ≠ .auto) :
    Spec.named c.solver = some s := by
  obtain ⟨hv, hch, -, -⟩ := run_cases c path s h
  unfold Config.choose at hch
  cases hs : c.solver <;> rw [hs] at hch <;> simp_all [Spec.named]

/-- **C38, `solver='auto'` always finds a solver.** Every request that passes validation, has no inequality matrix and whose `alpha` is not a
numpy array (F18) is run: automatic choice never picks a solver that then refuses the problem. -/
theorem c38_auto_runs (c : Config) (path : List ℝ) (hv : c.valid) (ha : c.solver = .auto) (hA : c.A = false)
    (harr : ∀ l, c.alpha ≠ .array l) : ∃ s, c.run path = some s := by
  have hv' := hv
  obtain ⟨hl1, -, hal, -, -, -, -, -, hmono, -, hAb, -⟩ := hv'
  have hb : c.b = false := by rw [← hAb]; exact hA
  have hzero : ∀ l ∈ c.l1Ratios, ¬ 0 < l → l = 0 := fun l hl h => le_antisymm (not_lt.1 h) (hl1 l hl).1
  unfold Config.run
  rw [if_neg (not_not.2 hv)]
  unfold Config.choose
  rw [ha]
  simp only [hA, hb, Bool.false_eq_true, false_and, if_false]
  cases hm : c.mono with
  | true =>
    have hno : ¬ ∃ l ∈ c.l1Ratios, 0 < l := fun h => hmono ⟨hm, h⟩
    simp [hm, hno]
  | false =>
    simp only [Bool.false_eq_true, if_false]
    by_cases hbd : c.lb = false ∧ c.ub = false
    · rw [if_pos hbd]
      by_cases hn : c.noL1Ratio
      · rw [if_pos hn]
        have hno : ¬ ∃ l ∈ c.l1Ratios, 0 < l := fun ⟨l, hl, h⟩ => by rw [hn l hl] at h; exact lt_irrefl _ h
        have hno' : ¬ c.hasL1 path := fun ⟨_, _, l, hl, h⟩ => h (hn l hl)
        cases hN : c.normalIdentity <;> simp [hno, hno', hbd.1, hbd.2, hA, hb, hN]
      · rw [if_neg hn]
        obtain ⟨z, hz⟩ : ∃ z, c.alphaZero = some z := by
          unfold Config.alphaZero
          split
          · exact ⟨_, rfl⟩
          · cases hAl : c.alpha with
            | none => exact ⟨_, rfl⟩
            | scalar a => exact ⟨_, rfl⟩
            | list l => exact ⟨_, rfl⟩
            | array l => exact absurd hAl (harr l)
        rw [hz]
        simp only []
        by_cases hzz : z
        · rw [if_pos hzz]
          -- `alpha = 0` without search: the only alpha used is 0
          have hcv : c.cv = false := by
            by_contra hcv
            unfold Config.alphaZero at hz
            rw [if_pos (by simpa using hcv)] at hz
            simp only [Option.some.injEq] at hz
            rw [← hz] at hzz; exact hzz
          have hused : c.alphasUsed path = [0] := by
            unfold Config.alphaZero at hz
            unfold Config.alphasUsed
            rw [hcv] at hz ⊢
            simp only [Bool.false_eq_true, if_false] at hz ⊢
            cases hAl : c.alpha with
            | none => rw [hAl] at hz; simp at hz; exact absurd hzz (by simpa using hz)
            | scalar x =>
              rw [hAl] at hz
              simp only [Option.some.injEq] at hz
              rw [← hz] at hzz
              simp [hzz.2, hzz.1]
            | list x => rw [hAl] at hz; simp at hz; exact absurd hzz (by simpa using hz)
            | array x => exact absurd hAl (harr x)
          have hno' : ¬ c.hasL1 path := fun ⟨_, ⟨a, hau, h⟩, _⟩ => by
            rw [hused] at hau; exact h (by simpa using hau)
          cases hN : c.normalIdentity <;> simp [hused, hno', hbd.1, hbd.2, hA, hb, hN]
        · rw [if_neg hzz]; simp
    · rw [if_neg hbd]; simp

-- Non-vacuity: the default request (scalar alpha, automatic solver), and an explicit lbfgs ridge.
example : ∃ s, plainCfg.run [] = some s :=
  c38_auto_runs plainCfg [] (by simp [Config.valid, plainCfg]) rfl rfl (by simp [plainCfg])
example : Config.run { plainCfg with solver := .lbfgs } [] = some .lbfgs := by
  have hv : Config.valid { plainCfg with solver := .lbfgs } := by simp [Config.valid, plainCfg]
  unfold Config.run
  rw [if_neg (not_not.2 hv)]
  simp [plainCfg, Config.choose]

/-- **C39, ridge.** Without any L1 penalty (and a non-zero gradient) the path starts at 1000 times the largest absolute derivative of half the
deviance with respect to a feature, at the null model. -/
theorem c39_ridge_start (D : SmoothData n p ic) (P1 : ℕ → ℝ) (hP : ∀ j < p, P1 j = 0) (k : ℕ) (minAlpha minRatio : Option ℝ)
    (hr : minAlpha = none → ∀ r, minRatio = some r → r < 1) (a0 : ℝ) (rest : List ℝ)
    (hpath : alphaPath D P1 k minAlpha minRatio = some (a0 :: rest)) :
    ∃ w0, pathCoef D = some w0 ∧
      ((∀ j < p, feat ic (muDevianceDerivative D w0).2 j = 0) → a0 = 10) ∧
      ((∃ j < p, feat ic (muDevianceDerivative D w0).2 j ≠ 0) →
        (∀ j < p, 1000 * |feat ic (muDevianceDerivative D w0).2 j / 2| ≤ a0) ∧
        ∃ j < p, a0 = 1000 * |feat ic (muDevianceDerivative D w0).2 j / 2|) := by
  unfold alphaPath at hpath
  simp only [Option.bind_eq_bind] at hpath
  cases hc : pathCoef D with
  | none => rw [hc] at hpath; cases hpath
  | some w0 =>
    rw [hc] at hpath
    simp only [Option.bind_some] at hpath
    cases hm : alphaMax D P1 w0 with
    | none => rw [hm] at hpath; cases hpath
    | some M =>
      rw [hm] at hpath
      simp only [Option.bind_some] at hpath
      obtain ⟨-, h0, -⟩ := c39_grid n p k minAlpha minRatio M (alphaMax_pos D P1 w0 M hm) hr _ hpath
      have haM : a0 = M := h0 (by simp)
      have hfg : ∀ j, featureGradient D w0 j = |feat ic (muDevianceDerivative D w0).2 j / 2| := by
        intro j; unfold featureGradient; rw [← abs_neg]; congr 1; ring
      unfold alphaMax at hm
      obtain ⟨x, hx, hxM⟩ := Option.map_eq_some_iff.1 hm
      unfold rawAlphaMax at hx
      rw [if_pos hP] at hx
      obtain ⟨y, hy, hyx⟩ := Option.map_eq_some_iff.1 hx
      obtain ⟨hmem, hmax⟩ := max?_spec hy
      obtain ⟨j0, hj0, hj0y⟩ := List.mem_map.1 hmem
      rw [List.mem_range] at hj0
      have hle : ∀ j < p, |feat ic (muDevianceDerivative D w0).2 j / 2| ≤ y := fun j hj => by
        rw [← hfg]; exact hmax _ (List.mem_map.2 ⟨j, List.mem_range.2 hj, rfl⟩)
      have hx1000 : x = 1000 * y := by rw [← hyx]; ring
      refine ⟨w0, rfl, fun hz => ?_, ?_⟩
      · have : y = 0 := by rw [← hj0y, hfg, hz j0 hj0]; simp
        rw [haM, ← hxM, if_pos (by rw [hx1000, this, mul_zero])]
      · rintro ⟨j1, hj1, hj1ne⟩
        have hy0 : 0 < y := lt_of_lt_of_le (abs_pos.2 (div_ne_zero hj1ne two_ne_zero)) (hle j1 hj1)
        have hMx : M = 1000 * y := by rw [← hxM, if_neg (by rw [hx1000]; positivity), hx1000]
        refine ⟨fun j hj => by rw [haM, hMx]; have := hle j hj; linarith, j0, hj0, ?_⟩
        rw [haM, hMx, ← hj0y, hfg]

/-- **C42, both arguments.** Giving `alpha_index` and `alpha` together raises, for both estimators. -/
theorem c42_both_rejected (p : ℕ) (search : Bool) (r : PathResult) (X : Fin n → ℕ → ℝ) (off : Option (Fin n → ℝ))
    (idx : ScalarOrList ℤ) (alpha : ScalarOrList ℝ) (h1 : idx ≠ .none) (h2 : alpha ≠ .none) :
    linearPredictor p search r X off idx alpha = none ∧ linearPredictorCV p r X off idx alpha = none := by
  cases idx <;> cases alpha <;> cases search <;>
    simp_all [linearPredictor, linearPredictorCV, resolveAlphaIndex]

/-- **C42, indices.** `alpha_index = i` counts from the end for negative `i`, uses the row of the path it denotes and nothing else, and raises
outside `[-len, len)`. -/
theorem c42_index (p : ℕ) (r : PathResult) (hc : r.coefPath.length = r.alphas.length) (hb : r.interceptPath.length = r.alphas.length)
    (X : Fin n → ℕ → ℝ) (off : Option (Fin n → ℝ)) (i : ℤ) :
    (∀ k (hk : k < r.alphas.length), (i = k ∨ i = (k : ℤ) - r.alphas.length) →
      linearPredictor p true r X off (.one i) .none = some (.vec fun row =>
        (∑ j ∈ Finset.range p, X row j * (r.coefPath[k]'(hc ▸ hk)) j) + r.interceptPath[k]'(hb ▸ hk) + (off.elim 0 (· row)))) ∧
    ((i < -(r.alphas.length : ℤ) ∨ (r.alphas.length : ℤ) ≤ i) → linearPredictor p true r X off (.one i) .none = none) := by
  have hget : ∀ {α : Type} (l : List α), l.length = r.alphas.length → ∀ k (hk : k < l.length), (i = k ∨ i = (k : ℤ) - r.alphas.length) →
      pyGet l i = some l[k] := by
    intro α l hl k hk hi
    unfold pyGet
    rcases hi with hi | hi
    · rw [if_pos (by omega)]
      have : i.toNat = k := by omega
      rw [this]; exact List.getElem?_eq_getElem hk
    · rw [if_neg (by omega), if_pos (by omega)]
      have : (i + l.length).toNat = k := by omega
      rw [this]; exact List.getElem?_eq_getElem hk
  have hbad : ∀ {α : Type} (l : List α), l.length = r.alphas.length → (i < -(r.alphas.length : ℤ) ∨ (r.alphas.length : ℤ) ≤ i) →
      pyGet l i = none := by
    intro α l hl hi
    unfold pyGet
    rcases hi with hi | hi
    · rw [if_neg (by omega), if_neg (by omega)]
    · rw [if_pos (by omega)]
      exact List.getElem?_eq_none (by omega)
  constructor
  · intro k hk hi
    simp only [linearPredictor, resolveAlphaIndex, Option.bind_eq_bind, Option.bind_some, computeLinearPredictor]
    rw [hget r.coefPath hc k (hc ▸ hk) hi, hget r.interceptPath hb k (hb ▸ hk) hi]
    simp only [Option.bind_some, Option.some.injEq, Pred.vec.injEq]
    funext row
    cases off <;> simp [addOffset, xbeta]
  · intro hi
    simp only [linearPredictor, resolveAlphaIndex, Option.bind_eq_bind, Option.bind_some, computeLinearPredictor]
    rw [hbad r.coefPath hc hi]
    rfl

end Glum
