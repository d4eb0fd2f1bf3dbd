import Verif.Props.Fit
import Verif.Props.OneStepFit
/-
C79: with `scale_predictors` the units of the features do not matter, and with an intercept their origins never do.
-/
set_option linter.unusedSectionVars false
set_option linter.unusedVariables false
set_option linter.unusedSimpArgs false

namespace Glum
open Spec

variable {n p : ℕ} {ic : Bool}

/-- The same data in other units: feature `j` is measured as `c j * x + d j`. -/
def Spec.inUnits (c d : ℕ → ℝ) (R : Rows n) : Rows n :=
  { X := fun i j => c j * R.X i j + d j, y := R.y, sw := R.sw, off := R.off }

/-- A solution in the old units, expressed in the new ones. -/
noncomputable def Spec.coefInUnits (c : ℕ → ℝ) (b : ℕ → ℝ) : ℕ → ℝ := fun j => b j / c j

noncomputable def Spec.interceptInUnits (p : ℕ) (c d : ℕ → ℝ) (b0 : ℝ) (b : ℕ → ℝ) : ℝ := b0 - ∑ j ∈ Finset.range p, d j * (b j / c j)

noncomputable def Spec.resultInUnits (p : ℕ) (c d : ℕ → ℝ) (r : PathResult) : PathResult :=
  { coef := coefInUnits c r.coef
    intercept := interceptInUnits p c d r.intercept r.coef
    coefPath := r.coefPath.map (coefInUnits c)
    interceptPath := List.zipWith (interceptInUnits p c d) r.interceptPath r.coefPath
    alphas := r.alphas }

/-- What tabmat computes: weighted means and standard deviations of the columns. -/
def Spec.TrueStats (stats : Stats) : Prop :=
  ∀ (m : ℕ) (X : Fin m → ℕ → ℝ) (w : Fin m → ℝ) (j : ℕ), (stats m X w).1 j = ∑ i, w i * X i j ∧
    (stats m X w).2 j = Real.sqrt (∑ i, w i * (X i j - ∑ k, w k * X k j) ^ 2)

theorem stats_units (stats : Stats) (hst : TrueStats stats) (R : Rows n) (hw : ∑ i, R.sw i = 1) (c d : ℕ → ℝ) (hc : ∀ j, 0 < c j) (j : ℕ) :
    (stats n (inUnits c d R).X (inUnits c d R).sw).1 j = c j * (stats n R.X R.sw).1 j + d j ∧
    (stats n (inUnits c d R).X (inUnits c d R).sw).2 j = c j * (stats n R.X R.sw).2 j := by
  obtain ⟨a1, a2⟩ := hst n (inUnits c d R).X (inUnits c d R).sw j
  obtain ⟨b1, b2⟩ := hst n R.X R.sw j
  have hm : ∑ i, R.sw i * (c j * R.X i j + d j) = c j * (∑ i, R.sw i * R.X i j) + d j := by
    have : ∀ i, R.sw i * (c j * R.X i j + d j) = c j * (R.sw i * R.X i j) + R.sw i * d j := fun i => by ring
    simp only [this]
    rw [Finset.sum_add_distrib, ← Finset.mul_sum, ← Finset.sum_mul, hw, one_mul]
  constructor
  · rw [a1, b1]; exact hm
  · rw [a2, b2]
    show Real.sqrt (∑ i, R.sw i * (c j * R.X i j + d j - ∑ k, R.sw k * (c j * R.X k j + d j)) ^ 2) = _
    rw [hm]
    have : ∀ i, R.sw i * (c j * R.X i j + d j - (c j * (∑ i, R.sw i * R.X i j) + d j)) ^ 2
        = c j ^ 2 * (R.sw i * (R.X i j - ∑ k, R.sw k * R.X k j) ^ 2) := fun i => by ring
    simp only [this]
    rw [← Finset.mul_sum, Real.sqrt_mul (sq_nonneg _), Real.sqrt_sq (hc j).le]

theorem oneOverStd_units (thr s c : ℝ) (hc : 0 < c) (ht : 0 < thr) (h : c = 1 ∨ (thr ≤ s ∧ thr ≤ c * s)) :
    oneOverStd thr 1 (c * s) = oneOverStd thr 1 s / c := by
  rcases h with rfl | ⟨h1, h2⟩
  · rw [one_mul, div_one]
  · unfold oneOverStd
    have hs : 0 < s := lt_of_lt_of_le ht h1
    rw [if_neg (by rw [abs_of_pos (mul_pos hc hs)]; exact not_lt.2 h2), if_neg (by rw [abs_of_pos hs]; exact not_lt.2 h1)]
    field_simp

theorem stdX_units (thr : ℝ) (means stds means' stds' : ℕ → ℝ) (R : Rows n) (c d : ℕ → ℝ) (hc : ∀ j, 0 < c j)
    (hd : ic = false → ∀ j, d j = 0) (hm : ∀ j, means' j = c j * means j + d j)
    (hi : ∀ j, oneOverStd thr 1 (stds' j) = oneOverStd thr 1 (stds j) / c j) :
    stdX thr ic means' stds' (inUnits c d R).X = stdX thr ic means stds R.X := by
  funext i j
  have h := (hc j).ne'
  unfold stdX
  show oneOverStd thr 1 (stds' j) * (c j * R.X i j + d j) + _ = _
  rw [hi, hm]
  cases ic with
  | true => simp only [if_true]; field_simp; ring
  | false => simp only [Bool.false_eq_true, if_false, hd rfl]; field_simp; ring

theorem report_units (thr : ℝ) (means stds means' stds' : ℕ → ℝ) (c d : ℕ → ℝ) (hc : ∀ j, 0 < c j)
    (hd : ic = false → ∀ j, d j = 0) (hm : ∀ j, means' j = c j * means j + d j)
    (hi : ∀ j, oneOverStd thr 1 (stds' j) = oneOverStd thr 1 (stds j) / c j) (v : Fin (p + ic.toNat) → ℝ) :
    report ic thr means' stds' v = (interceptInUnits p c d (report ic thr means stds v).1 (report ic thr means stds v).2,
      coefInUnits c (report ic thr means stds v).2) := by
  refine Prod.ext ?_ ?_
  · simp only [report, unstandardize, interceptInUnits]
    rw [sub_sub, ← Finset.sum_add_distrib]
    congr 1
    refine Finset.sum_congr rfl fun j _ => ?_
    have h := (hc j).ne'
    rw [hi]
    unfold outMeans
    cases ic with
    | true => simp only [if_true, hm]; field_simp
    | false => simp [hd rfl]
  · funext j
    simp only [report, unstandardize, coefInUnits, hi]
    ring

theorem map_div_one (o : Option (ℕ → ℝ)) (f g : ℕ → ℝ) (h : o ≠ none → ∀ j, f j = g j) :
    (o.map fun l j => l j / f j) = o.map fun l j => l j / g j := by
  cases o with
  | none => rfl
  | some l => simp only [Option.map_some, h (by simp)]

/-- **C79.** Any solver, family, link, penalties, offset, alphas (single, list or computed path), cold start.  The features are expressed
in other units (`c j > 0`) and, with an intercept, with other origins `d j`.  Units may only change with `scale_predictors` and without bounds
on the coefficients and for columns that are not (nearly) constant before or after; origins always.  Then the fit does exactly the same
(iterations, warnings, alphas) and reports the same model in the new units. -/
theorem c79_units {σ : Type} (C : FitCfg p ic) (ht : 0 < C.thr) (stats : Stats) (hst : TrueStats stats) (solver : SolverFn σ p ic) (R : Rows n)
    (hw : ∑ i, R.sw i = 1) (hcold : C.start = .cold) (hA : C.A = none) (c d : ℕ → ℝ) (hc : ∀ j, 0 < c j) (hd : ic = false → ∀ j, d j = 0)
    (hone : (C.asIfScaled = false ∨ C.lb ≠ none ∨ C.ub ≠ none) → ∀ j, c j = 1)
    (hthr : ∀ j, c j = 1 ∨ (C.thr ≤ (stats n R.X R.sw).2 j ∧ C.thr ≤ c j * (stats n R.X R.sw).2 j)) (l1 : ℝ) (a : AlphaSpec) (s : σ) :
    glmFit C stats solver (inUnits c d R) l1 a s = (glmFit C stats solver R l1 a s).map fun tr => (tr.1, resultInUnits p c d tr.2) := by
  have hm : ∀ j, (stats n (inUnits c d R).X (inUnits c d R).sw).1 j = c j * (stats n R.X R.sw).1 j + d j :=
    fun j => (stats_units stats hst R hw c d hc j).1
  have hsd : ∀ j, (stats n (inUnits c d R).X (inUnits c d R).sw).2 j = c j * (stats n R.X R.sw).2 j :=
    fun j => (stats_units stats hst R hw c d hc j).2
  have hi : ∀ j, oneOverStd C.thr 1 ((stats n (inUnits c d R).X (inUnits c d R).sw).2 j)
      = oneOverStd C.thr 1 ((stats n R.X R.sw).2 j) / c j := fun j => by
    rw [hsd]; exact oneOverStd_units _ _ _ (hc j) ht (hthr j)
  generalize hms' : stats n (inUnits c d R).X (inUnits c d R).sw = ms' at hm hsd hi
  generalize hms : stats n R.X R.sw = ms at hm hsd hi
  have hX := stdX_units (ic := ic) C.thr ms.1 ms.2 ms'.1 ms'.2 R c d hc hd hm hi
  have hD : ∀ P1 P2, stdData C.thr C.asIfScaled ms'.1 ms'.2 (C.problem (inUnits c d R) P1 P2)
      = stdData C.thr C.asIfScaled ms.1 ms.2 (C.problem R P1 P2) := by
    intro P1 P2
    unfold stdData standardize
    have e1 : (C.problem (inUnits c d R) P1 P2).X = (inUnits c d R).X := rfl
    have hinv : (C.asIfScaled = false ∨ C.lb ≠ none ∨ C.ub ≠ none) →
        ∀ j, oneOverStd C.thr 1 (ms'.2 j) = oneOverStd C.thr 1 (ms.2 j) := fun h j => by rw [hi, hone h j, div_one]
    have elb : (C.lb.map fun l j => l j / oneOverStd C.thr 1 (ms'.2 j)) = C.lb.map fun l j => l j / oneOverStd C.thr 1 (ms.2 j) :=
      map_div_one _ _ _ fun h => hinv (Or.inr (Or.inl h))
    have eub : (C.ub.map fun l j => l j / oneOverStd C.thr 1 (ms'.2 j)) = C.ub.map fun l j => l j / oneOverStd C.thr 1 (ms.2 j) :=
      map_div_one _ _ _ fun h => hinv (Or.inr (Or.inr h))
    cases hb : C.asIfScaled with
    | true =>
      simp only [FitCfg.problem, if_true]
      rw [hX, elb, eub]
      rfl
    | false =>
      simp only [FitCfg.problem, Bool.false_eq_true, if_false, hinv (Or.inl hb)]
      rw [hX]
      rfl
  have hg : startGuess C (inUnits c d R) = startGuess C R := by unfold startGuess; cases ic <;> rfl
  have hstart : ∀ g, getStartCoef ic C.thr ms'.1 ms'.2 g C.lb C.ub C.start = getStartCoef ic C.thr ms.1 ms.2 g C.lb C.ub C.start := by
    intro g; rw [hcold]; rfl
  have hprep : prepare C stats (inUnits c d R) l1
      = (prepare C stats R l1).map fun Q => { means := ms'.1, stds := ms'.2, D := Q.D, A := Q.A, start := Q.start } := by
    unfold prepare
    simp only [hms', hms, hg]
    cases setupP1 p 1 l1 C.P1a with
    | none => rfl
    | some P1 =>
      cases setupP2 p C.xsp 1 l1 C.P2a with
      | none => rfl
      | some P2 =>
        cases startGuess C R with
        | none => rfl
        | some g =>
          show some _ = some _
          simp only [hA, hD, hstart, Option.map_none]
  have hmeans : ∀ Q, prepare C stats R l1 = some Q → Q.means = ms.1 ∧ Q.stds = ms.2 := by
    intro Q hQ
    obtain ⟨-, -, -, -, h1, h2, -⟩ := prepare_spec C stats R l1 Q hQ
    rw [h1, h2, hms]; exact ⟨rfl, rfl⟩
  unfold glmFit
  by_cases hbad : C.boundsBad
  · simp only [if_pos hbad]; rfl
  simp only [if_neg hbad]
  cases setupP2 p C.xsp 1 l1 C.P2a with
  | none => rfl
  | some P2 =>
    simp only [Option.bind_eq_bind, Option.bind_some]
    split
    · rfl
    rw [hprep]
    cases hQ : prepare C stats R l1 with
    | none => rfl
    | some Q =>
      obtain ⟨q1, q2⟩ := hmeans Q hQ
      simp only [Option.map_some, Option.bind_some]
      have hev : a.eval C { means := ms'.1, stds := ms'.2, D := Q.D, A := Q.A, start := Q.start } = a.eval C Q := by cases a <;> rfl
      rw [hev]
      cases a.eval C Q with
      | none => rfl
      | some al =>
        simp only [Option.bind_some]
        have hpath : Prepared.path { means := ms'.1, stds := ms'.2, D := Q.D, A := Q.A, start := Q.start } solver al s = Q.path solver al s := rfl
        rw [hpath, q1, q2]
        generalize Q.path solver al s = out
        unfold storePath
        have hrow : ∀ v : Fin (p + ic.toNat) → ℝ, report ic C.thr ms'.1 ms'.2 v = _ := report_units C.thr ms.1 ms.2 ms'.1 ms'.2 c d hc hd hm hi
        simp only [List.getLast?_map, Option.bind_eq_bind]
        cases out.2.getLast? with
        | none => rfl
        | some v =>
          simp only [Option.map_some, Option.bind_some, hrow, resultInUnits, Option.some.injEq, Prod.mk.injEq, true_and, List.map_map]
          congr 1
          · cases ic with
            | true => rfl
            | false => simp [interceptInUnits, hd rfl]
          · apply List.map_congr_left; intro w _; simp [hrow, Function.comp]
          · rw [List.zipWith_map, List.zipWith_self]
            apply List.map_congr_left; intro w _; simp [hrow, Function.comp]

/-- The linear predictor of an observation, expressed in the old or in the new units. -/
theorem c79_same_predictions (c d : ℕ → ℝ) (hc : ∀ j, 0 < c j) (b0 : ℝ) (b x : ℕ → ℝ) :
    ∑ j ∈ Finset.range p, (c j * x j + d j) * coefInUnits c b j + interceptInUnits p c d b0 b = ∑ j ∈ Finset.range p, x j * b j + b0 := by
  unfold coefInUnits interceptInUnits
  have : ∀ j, (c j * x j + d j) * (b j / c j) = x j * b j + d j * (b j / c j) := fun j => by
    have := (hc j).ne'
    field_simp
  simp only [this, Finset.sum_add_distrib]
  ring

/-- Metres to feet, say: the first feature of the two rows doubled and moved by three, with `scale_predictors`. -/
example {σ : Type} (solver : SolverFn σ 1 true) (s : σ) :
    let stats : Stats := fun m X w => (fun j => ∑ i, w i * X i j, fun j => Real.sqrt (∑ i, w i * (X i j - ∑ k, w k * X k j) ^ 2))
    let C := { tinyCfg 5 5 with asIfScaled := true }
    let c : ℕ → ℝ := fun j => if j = 0 then 2 else 1
    let d : ℕ → ℝ := fun j => if j = 0 then 3 else 0
    glmFit C stats solver (inUnits c d tinyRows) 0 (.single 1) s
      = (glmFit C stats solver tinyRows 0 (.single 1) s).map fun tr => (tr.1, resultInUnits 1 c d tr.2) := by
  intro stats C c d
  have hsd : (stats 2 tinyRows.X tinyRows.sw).2 0 = 1 := by
    simp only [stats, tinyRows, Fin.sum_univ_two]
    norm_num
  refine c79_units C (by norm_num [C, tinyCfg]) stats (fun m X w j => ⟨rfl, rfl⟩) solver tinyRows (by simp [tinyRows]) rfl rfl c d ?_ (fun h => by cases h) ?_ ?_ 0
    (.single 1) s
  · intro j; simp only [c]; split <;> norm_num
  · rintro (h | h | h)
    · cases h
    · exact absurd rfl h
    · exact absurd rfl h
  · intro j
    by_cases hj : j = 0
    · right
      rw [hj, hsd]
      simp only [C, tinyCfg, c, if_true]
      norm_num
    · left; simp [c, hj]

end Glum
