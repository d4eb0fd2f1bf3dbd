import Verif.Props.Estimator
/-
Theorems added after mutation testing of the estimator's state machine: how prediction data frames are converted (C57, C64), options of
`covariance_matrix` (C55).
-/
set_option linter.unusedSectionVars false
set_option linter.unusedVariables false
set_option linter.unusedSimpArgs false

namespace Glum

noncomputable section

variable {E : Env}

theorem predict_frame (s : Est E) (P : Params E) (d : E.Frame) (off : Option (List ℝ)) :
    s.predict P (.frame d) off = (s.convert (.frame d)).bind fun X => s.predict P (.mat X) off := by
  unfold Est.predict
  cases h : s.convert (.frame d) with
  | none => simp
  | some X => simp [Est.convert]

theorem setupOut_plain {P : Params E} {a : FitArgs E} {d0 : E.Frame} (hX : a.X = .frame d0) (hF : P.formula = none) {v xs ys lv}
    (h : setupOut P a = some (v, xs, ys, lv)) : xs = none ∧ ys = none ∧ lv = some (E.levelsOf d0) := by
  unfold setupOut at h
  simp only [hX, hF] at h
  split at h
  · exact absurd h (by simp)
  · simp only [Option.map_eq_some_iff, Prod.mk.injEq] at h
    obtain ⟨_, _, _, h1, h2, h3⟩ := h
    exact ⟨h1.symm, h2.symm, h3.symm⟩

theorem setupOut_formula {P : Params E} {a : FitArgs E} {d0 : E.Frame} {φ : E.Formula} (hX : a.X = .frame d0) (hF : P.formula = some φ)
    {v xs ys lv} (h : setupOut P a = some (v, xs, ys, lv)) : ∃ sp M ic, E.xOfFormula φ d0 = some (sp, M, ic) ∧ xs = some sp := by
  unfold setupOut at h
  simp only [hX, hF] at h
  split at h
  · exact absurd h (by simp)
  · split at h
    · exact absurd h (by simp)
    · split at h
      · exact absurd h (by simp)
      · rename_i sp M ic hx
        split at h
        · exact absurd h (by simp)
        · simp only [Option.map_eq_some_iff, Prod.mk.injEq] at h
          obtain ⟨_, _, _, h1, _⟩ := h
          exact ⟨sp, M, ic, hx, h1.symm⟩
  · split at h
    · exact absurd h (by simp)
    · rename_i sp M ic hx
      split at h
      · exact absurd h (by simp)
      · simp only [Option.map_eq_some_iff, Prod.mk.injEq] at h
        obtain ⟨_, _, _, h1, _⟩ := h
        exact ⟨sp, M, ic, hx, h1.symm⟩

/-- **C57, prediction frames after a fit on a frame.** However the estimator was used before (without formulas), once a fit on the data
frame `d0` has returned, predictions on any frame `d`, with any later hyperparameters, are the predictions on the matrix obtained by
aligning `d` with the levels of `d0`; if the alignment raises, so does `predict`. -/
theorem c57_predict_aligned (h : List (Op E)) (hno : NoFormulaFit h) (P P' : Params E) (a : FitArgs E) (d0 : E.Frame)
    (hX : a.X = .frame d0) (hF : P.formula = none) (hok : ((({} : Est E).run h).fit P a).2 = true) (d : E.Frame) (off : Option (List ℝ)) :
    let s := ((({} : Est E).run h).fit P a).1
    s.predict P' (.frame d) off = (E.alignFrame (E.levelsOf d0) d).bind fun X => s.predict P' (.mat X) off := by
  intro s
  set r := ({} : Est E).run h with hr
  obtain ⟨hv, v, xs, ys, lv, f, l, al, b, c, ho, hf, hl, hy, hm, hc, hs⟩ :=
    fit_stored.1 (Prod.ext rfl hok : r.fit P a = ((r.fit P a).1, true))
  obtain ⟨rfl, rfl, rfl⟩ := setupOut_plain hX hF ho
  have hxs : s.xSpec = none := by
    have : r.xSpec = none := (run_specs h {} hno).1
    rcases hs with ⟨_, hs⟩ | ⟨_, V, _, hs⟩ <;> (show (r.fit P a).1.xSpec = none; rw [hs]; simpa [Est.fitted, Est.written] using this)
  have hlv : s.levels = some (E.levelsOf d0) := by
    rcases hs with ⟨_, hs⟩ | ⟨_, V, _, hs⟩ <;> (show (r.fit P a).1.levels = _; rw [hs]; simp [Est.fitted, Est.written])
  rw [predict_frame]
  simp only [Est.convert, hxs, hlv]

/-- **C64, prediction frames after a formula fit.** Whatever happened before, once a fit of the formula `φ` on the frame `d0` has
returned, predictions on any frame `d` use the model spec of exactly this formula and frame. -/
theorem c64_predict_formula (h : List (Op E)) (P P' : Params E) (a : FitArgs E) (d0 : E.Frame) (φ : E.Formula)
    (hX : a.X = .frame d0) (hF : P.formula = some φ) (hok : ((({} : Est E).run h).fit P a).2 = true) :
    let s := ((({} : Est E).run h).fit P a).1
    ∃ sp M ic, E.xOfFormula φ d0 = some (sp, M, ic) ∧ ∀ d off,
      s.predict P' (.frame d) off = (E.xSpecMat sp d).bind fun X => s.predict P' (.mat X) off := by
  intro s
  set r := ({} : Est E).run h with hr
  obtain ⟨hv, v, xs, ys, lv, f, l, al, b, c, ho, hf, hl, hy, hm, hc, hs⟩ :=
    fit_stored.1 (Prod.ext rfl hok : r.fit P a = ((r.fit P a).1, true))
  obtain ⟨sp, M, ic, hx, rfl⟩ := setupOut_formula hX hF ho
  have hxs : s.xSpec = some sp := by
    rcases hs with ⟨_, hs⟩ | ⟨_, V, _, hs⟩ <;> (show (r.fit P a).1.xSpec = _; rw [hs]; simp [Est.fitted, Est.written])
  refine ⟨sp, M, ic, hx, fun d off => ?_⟩
  rw [predict_frame]
  simp only [Est.convert, hxs]

/-- The hypotheses of `c57_predict_aligned` hold after a plain fit that follows another plain fit. -/
example : NoFormulaFit [Op.fit (demoParams .normal .identity none 5 5 fun _ => true) demoFrameArgs] ∧
    ((({} : Est demoEnv).run [Op.fit (demoParams .normal .identity none 5 5 fun _ => true) demoFrameArgs]).fit
      (demoParams .normal .identity none 0 1 fun _ => true) demoFrameArgs).2 = true := by
  refine ⟨?_, by rw [demo_fit_plain]⟩
  intro P a d hm _
  simp only [List.mem_singleton, Op.fit.injEq] at hm
  rw [hm.1]; rfl

/-- The hypotheses of `c64_predict_formula` hold after a formula fit that follows a plain fit. -/
example : ((({} : Est demoEnv).run [Op.fit (demoParams .normal .identity none 5 5 fun _ => true) demoFrameArgs]).fit
      (demoParams .normal .identity (some ()) 0 1 fun _ => true) demoFrameArgs).2 = true := by
  rw [demo_fit_formula]

/-- **C55, every option counts.** Without `X` and `y`, giving any of `offset`, `mu`, `sample_weight`, `dispersion`, `robust`, `clusters`,
`expected_information` or `store_covariance_matrix=True` raises, and changes nothing. -/
theorem c55_options_rejected (s : Est E) (P : Params E) (ca : CovArgs E) (hX : ca.X = none) (hy : ca.y = none)
    (h : ca.off ≠ none ∨ ca.mu ≠ none ∨ ca.w ≠ .none ∨ ca.disp ≠ none ∨ ca.robust ≠ none ∨ ca.clusters ≠ none ∨ ca.expected ≠ none ∨
      ca.store = true) : s.covarianceMatrix P ca = (s, none) := by
  apply c55_no_silent_options s P ca hX hy
  unfold CovArgs.hasParams
  have key : ∀ {α : Type} (o : Option α), o ≠ none → o.isSome = true := fun o ho => by cases o <;> simp_all
  have kw : ca.w ≠ .none → ca.w.isGiven = true := by
    intro hw; cases h : ca.w <;> simp_all [WeightArg.isGiven]
  rcases h with h | h | h | h | h | h | h | h
  · left; simp [key _ h]
  · left; simp [key _ h]
  · left; simp [kw h]
  · left; simp [key _ h]
  · left; simp [key _ h]
  · left; simp [key _ h]
  · left; simp [key _ h]
  · right; exact h

/-- The estimate with explicit options does not read the estimator parameters `robust` and `expected_information`. -/
theorem estimate_options (s : Est E) (P : Params E) (ca : CovArgs E) (r e : Option Bool) :
    s.estimate P { ca with robust := r, expected := e } =
      s.estimate { P with robust := r.getD P.robust, expected := e.getD P.expected } { ca with robust := none, expected := none } := by
  unfold Est.estimate
  rfl

/-- **C55, explicit options win.** With data, `covariance_matrix(robust=r, expected_information=e)` returns and stores what an estimator
constructed with those parameters returns and stores without the options. -/
theorem c55_options_override (s : Est E) (P : Params E) (ca : CovArgs E) (r e : Bool) (hX : ca.X ≠ none) :
    s.covarianceMatrix P { ca with robust := some r, expected := some e } =
      s.covarianceMatrix { P with robust := r, expected := e } { ca with robust := none, expected := none } := by
  have hst : s.estimateStore P { ca with robust := some r, expected := some e } =
      s.estimateStore { P with robust := r, expected := e } { ca with robust := none, expected := none } := by
    unfold Est.estimateStore
    rw [estimate_options s P ca (some r) (some e)]
    rfl
  unfold Est.covarianceMatrix
  rw [hst]
  cases hc : ca.X with
  | none => exact absurd hc hX
  | some X => simp [hc]

/-- **C55, omitted options.** They default to the estimator parameters. -/
theorem c55_options_default (s : Est E) (P : Params E) (ca : CovArgs E) (hX : ca.X ≠ none) (hr : ca.robust = none)
    (he : ca.expected = none) :
    s.covarianceMatrix P ca = s.covarianceMatrix P { ca with robust := some P.robust, expected := some P.expected } := by
  rw [c55_options_override s P ca _ _ hX]
  obtain ⟨X, y, w, off, mu, disp, robust, expected, clusters, store⟩ := ca
  simp only at hr he
  subst hr he
  rfl

/-- A call with options to which the theorem applies; it succeeds. -/
example : ∃ ca : CovArgs demoEnv, ca.X ≠ none ∧ (demoState3.estimate demoParams3 ca).isSome = true := by
  obtain ⟨V, hV⟩ := demo_cov3
  refine ⟨{ X := some (.mat demoMat3), y := some [0, 1, 2], robust := some false, expected := some false }, by simp, ?_⟩
  have : validate demoMat3 [0, 1, 2] .none none = some demoValid3 := by
    simp [validate, demoMat3, checkWeights, demoValid3]
  have hys : demoState3.ySpec = none := rfl
  simp only [Est.estimate, Est.convert, hys, Option.bind_eq_bind, Option.bind_some, this, Option.getD_some]
  rw [hV]; rfl

end
end Glum
