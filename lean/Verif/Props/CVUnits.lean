import Verif.Props.Units
import Verif.Props.CV
/-
C116: cross-validation selects the same model in whatever units the features are measured.
-/
set_option linter.unusedSectionVars false
set_option linter.unusedVariables false
set_option linter.unusedSimpArgs false

namespace Glum
open Spec

variable {N n p : ℕ} {ic : Bool}

/-! ### Specification -/

/-- The results of one fold, in the new units: the same deviances. -/
noncomputable def Spec.foldInUnits (p : ℕ) (c d : ℕ → ℝ) (o : FoldOut) : FoldOut :=
  { intercepts := List.zipWith (interceptInUnits p c d) o.intercepts o.coefs, coefs := o.coefs.map (coefInUnits c), dev := o.dev, trainDev := o.trainDev }

/-- What the CV estimator stores, in the new units: the same alphas, deviances and selection. -/
noncomputable def Spec.cvInUnits (p : ℕ) (c d : ℕ → ℝ) (r : CVResult) : CVResult :=
  { alphas := r.alphas, interceptPath := List.zipWith (interceptInUnits p c d) r.interceptPath r.coefPath, coefPath := r.coefPath.map (coefInUnits c)
    dev := r.dev, trainDev := r.trainDev, l1 := r.l1, alpha := r.alpha, refit := resultInUnits p c d r.refit }

/-- When units `c` and origins `d` may change for data `R`: weights that sum to one; a column whose unit changes is not (nearly) constant before or after. -/
structure Spec.UnitsOK (C : FitCfg p ic) (stats : Stats) (c d : ℕ → ℝ) (R : Rows n) : Prop where
  weights : ∑ i, R.sw i = 1
  varies : ∀ j, c j = 1 ∨ (C.thr ≤ (stats n R.X R.sw).2 j ∧ C.thr ≤ c j * (stats n R.X R.sw).2 j)

/-- The settings under which units may change (as for a single fit, C79). -/
structure Spec.UnitsCfg (C : FitCfg p ic) (stats : Stats) (c d : ℕ → ℝ) : Prop where
  thr : 0 < C.thr
  stats : TrueStats stats
  cold : C.start = .cold
  noA : C.A = none
  pos : ∀ j, 0 < c j
  origin : ic = false → ∀ j, d j = 0
  scale : (C.asIfScaled = false ∨ C.lb ≠ none ∨ C.ub ≠ none) → ∀ j, c j = 1

/-! ### The problem handed to the solver -/

theorem std_units (C : FitCfg p ic) (stats : Stats) (c d : ℕ → ℝ) (h : UnitsCfg C stats c d) (R : Rows n) (hR : UnitsOK C stats c d R) :
    (∀ j, (stats n (inUnits c d R).X (inUnits c d R).sw).1 j = c j * (stats n R.X R.sw).1 j + d j) ∧
    (∀ j, oneOverStd C.thr 1 ((stats n (inUnits c d R).X (inUnits c d R).sw).2 j) = oneOverStd C.thr 1 ((stats n R.X R.sw).2 j) / c j) ∧
    ∀ P1 P2, stdData C.thr C.asIfScaled (stats n (inUnits c d R).X (inUnits c d R).sw).1 (stats n (inUnits c d R).X (inUnits c d R).sw).2 (C.problem (inUnits c d R) P1 P2)
      = stdData C.thr C.asIfScaled (stats n R.X R.sw).1 (stats n R.X R.sw).2 (C.problem R P1 P2) := by
  have hm : ∀ j, (stats n (inUnits c d R).X (inUnits c d R).sw).1 j = c j * (stats n R.X R.sw).1 j + d j :=
    fun j => (stats_units stats h.stats R hR.weights c d h.pos j).1
  have hsd : ∀ j, (stats n (inUnits c d R).X (inUnits c d R).sw).2 j = c j * (stats n R.X R.sw).2 j :=
    fun j => (stats_units stats h.stats R hR.weights c d h.pos j).2
  have hi : ∀ j, oneOverStd C.thr 1 ((stats n (inUnits c d R).X (inUnits c d R).sw).2 j)
      = oneOverStd C.thr 1 ((stats n R.X R.sw).2 j) / c j := fun j => by
    rw [hsd]; exact oneOverStd_units _ _ _ (h.pos j) h.thr (hR.varies j)
  refine ⟨hm, hi, ?_⟩
  generalize hms' : stats n (inUnits c d R).X (inUnits c d R).sw = ms' at hm hsd hi
  generalize hms : stats n R.X R.sw = ms at hm hsd hi
  have hX := stdX_units (ic := ic) C.thr ms.1 ms.2 ms'.1 ms'.2 R c d h.pos h.origin hm hi
  intro P1 P2
  unfold stdData standardize
  have hinv : (C.asIfScaled = false ∨ C.lb ≠ none ∨ C.ub ≠ none) →
      ∀ j, oneOverStd C.thr 1 (ms'.2 j) = oneOverStd C.thr 1 (ms.2 j) := fun h' j => by rw [hi, h.scale h' j, div_one]
  have elb : (C.lb.map fun l j => l j / oneOverStd C.thr 1 (ms'.2 j)) = C.lb.map fun l j => l j / oneOverStd C.thr 1 (ms.2 j) :=
    map_div_one _ _ _ fun h => hinv (Or.inr (Or.inl h))
  have eub : (C.ub.map fun l j => l j / oneOverStd C.thr 1 (ms'.2 j)) = C.ub.map fun l j => l j / oneOverStd C.thr 1 (ms.2 j) :=
    map_div_one _ _ _ fun h => hinv (Or.inr (Or.inr h))
  cases hb : C.asIfScaled with
  | true =>
    simp only [FitCfg.problem, if_true]
    rw [hX, elb, eub]
    rfl
  | false =>
    simp only [FitCfg.problem, Bool.false_eq_true, if_false, hinv (Or.inl hb)]
    rw [hX]
    rfl

theorem prepare_units (C : FitCfg p ic) (stats : Stats) (c d : ℕ → ℝ) (h : UnitsCfg C stats c d) (R : Rows n) (hR : UnitsOK C stats c d R) (l1 : ℝ) :
    prepare C stats (inUnits c d R) l1 = (prepare C stats R l1).map fun Q =>
      { means := (stats n (inUnits c d R).X (inUnits c d R).sw).1, stds := (stats n (inUnits c d R).X (inUnits c d R).sw).2, D := Q.D, A := Q.A, start := Q.start } := by
  obtain ⟨-, -, hD⟩ := std_units C stats c d h R hR
  have hg : startGuess C (inUnits c d R) = startGuess C R := by unfold startGuess; cases ic <;> rfl
  have hstart : ∀ ms ms' : (ℕ → ℝ) × (ℕ → ℝ), ∀ g, getStartCoef ic C.thr ms'.1 ms'.2 g C.lb C.ub C.start = getStartCoef ic C.thr ms.1 ms.2 g C.lb C.ub C.start := by
    intro ms ms' g; rw [h.cold]; rfl
  unfold prepare
  simp only [hg]
  cases setupP1 p 1 l1 C.P1a with
  | none => rfl
  | some P1 =>
    cases setupP2 p C.xsp 1 l1 C.P2a with
    | none => rfl
    | some P2 =>
      cases startGuess C R with
      | none => rfl
      | some g =>
        show some _ = some _
        simp only [h.noA, hD, Option.map_none]
        rw [hstart (stats n R.X R.sw) (stats n (inUnits c d R).X (inUnits c d R).sw)]

/-- What is reported for the same solver coefficients. -/
theorem report_prepared (C : FitCfg p ic) (stats : Stats) (c d : ℕ → ℝ) (h : UnitsCfg C stats c d) (R : Rows n) (hR : UnitsOK C stats c d R)
    (v : Fin (p + ic.toNat) → ℝ) :
    report ic C.thr (stats n (inUnits c d R).X (inUnits c d R).sw).1 (stats n (inUnits c d R).X (inUnits c d R).sw).2 v =
      (interceptInUnits p c d (report ic C.thr (stats n R.X R.sw).1 (stats n R.X R.sw).2 v).1 (report ic C.thr (stats n R.X R.sw).1 (stats n R.X R.sw).2 v).2,
       coefInUnits c (report ic C.thr (stats n R.X R.sw).1 (stats n R.X R.sw).2 v).2) := by
  obtain ⟨hm, hi, -⟩ := std_units C stats c d h R hR
  exact report_units C.thr _ _ _ _ c d h.pos h.origin hm hi v

/-- The out-of-fold deviance of a model does not depend on the units it is expressed in. -/
theorem foldDeviance_units (C : FitCfg p ic) (c d : ℕ → ℝ) (hc : ∀ j, 0 < c j) (hd : ic = false → ∀ j, d j = 0) (T : Rows n) (b : ℝ) (coef : ℕ → ℝ) :
    foldDeviance C (inUnits c d T) (interceptInUnits p c d b coef) (coefInUnits c coef) = foldDeviance C T b coef := by
  unfold foldDeviance
  simp only
  congr 1
  funext t
  congr 1
  rw [c12_lin_pred, c12_lin_pred]
  have h1 : ∀ (b : ℝ) (coef : ℕ → ℝ), (fun k : Fin (p + ic.toNat) => if k.val < ic.toNat then b else coef (k.val - ic.toNat)) = coefVec ic (b, coef) := fun _ _ => rfl
  rw [h1, h1, linPred_split, linPred_split, coefVec_icpt, coefVec_icpt]
  simp only [coefVec_feat]
  have hs := c79_same_predictions (p := p) c d hc b coef (fun j => T.X t j)
  simp only [Finset.sum_range] at hs
  show _ + (∑ j : Fin p, (c j * T.X t j + d j) * coefInUnits c coef j) + _ = _
  cases ic with
  | true =>
    simp only [if_true]
    have : (inUnits c d T).off = T.off := rfl
    rw [this]
    linarith
  | false =>
    simp only [Bool.false_eq_true, if_false]
    have h0 : interceptInUnits p c d b coef = b := by simp [interceptInUnits, hd rfl]
    rw [h0] at hs
    have : (inUnits c d T).off = T.off := rfl
    rw [this]
    linarith


/-! ### One job -/

/-- **One fold does the same in all units**: the same solver calls, the same deviances on the training and the test rows, and the same coefficients
expressed in the new units. -/
theorem c116_fold {σ : Type} (C : FitCfg p ic) (stats : Stats) (c d : ℕ → ℝ) (h : UnitsCfg C stats c d) (solver : SolverFn σ p ic) (R : Rows N)
    (j : CVJob N) (hR : UnitsOK C stats c d (R.fold j.train)) (s : σ) :
    fitPath C stats solver (inUnits c d R) j s = ((fitPath C stats solver R j s).1, (fitPath C stats solver R j s).2.map (foldInUnits p c d)) := by
  unfold fitPath
  have e : ∀ idx, (inUnits c d R).fold idx = inUnits c d (R.fold idx) := fun idx => rfl
  rw [e, prepare_units C stats c d h _ hR]
  cases hQ : prepare C stats (R.fold j.train) j.l1 with
  | none => rfl
  | some Q =>
    obtain ⟨-, -, -, -, q1, q2, -⟩ := prepare_spec C stats _ j.l1 Q hQ
    simp only [Option.map_some]
    split
    · rfl
    · simp only [Option.map_some, Prod.mk.injEq, Option.some.injEq]
      have hp : Prepared.path { means := (stats _ (inUnits c d (R.fold j.train)).X (inUnits c d (R.fold j.train)).sw).1, stds := (stats _ (inUnits c d (R.fold j.train)).X (inUnits c d (R.fold j.train)).sw).2, D := Q.D, A := Q.A, start := Q.start } solver j.alphas s
          = Q.path solver j.alphas s := rfl
      have hr := report_prepared C stats c d h (R.fold j.train) hR
      rw [q1, q2, hp]
      refine ⟨rfl, ?_⟩
      simp only [foldInUnits, FoldOut.mk.injEq]
      refine ⟨?_, ?_, ?_, rfl⟩
      · rw [List.map_map, List.map_map, List.map_map, List.zipWith_map, List.zipWith_self]
        refine List.map_congr_left fun v _ => ?_
        simp only [Function.comp, hr]
      · simp only [List.map_map]
        refine List.map_congr_left fun v _ => ?_
        simp only [Function.comp, hr]
      · simp only [List.map_map]
        refine List.map_congr_left fun v _ => ?_
        simp only [Function.comp, hr]
        exact foldDeviance_units C c d h.pos h.origin (R.fold j.test) _ _

/-! ### The alphas -/

/-- **The computed alphas do not depend on the units.** -/
theorem c116_alphas (C : FitCfg p ic) (stats : Stats) (c d : ℕ → ℝ) (h : UnitsCfg C stats c d) (R : Rows N) (hR : UnitsOK C stats c d R) (l1s : List ℝ)
    (given : Option (List ℝ)) (k : ℕ) (m q : Option ℝ) :
    cvAlphas C stats (inUnits c d R) l1s given k m q = cvAlphas C stats R l1s given k m q := by
  unfold cvAlphas
  cases given with
  | some l => rfl
  | none =>
    simp only
    congr 1
    funext l1
    simp only [(std_units C stats c d h R hR).2.2]

/-! ### Selection and refit -/

theorem reshape3_lengths {α β : Type} (S L K : ℕ) (rows : List (List α)) (rows' : List (List β)) (h : rows'.map List.length = rows.map List.length) :
    reshape3 S L K rows' = (reshape3 S L K rows).map fun _ => rows'.flatten := by
  have hlen : rows'.flatten.length = rows.flatten.length := by rw [List.length_flatten, List.length_flatten, h]
  have hall : (∀ r ∈ rows', ∀ r' ∈ rows', r.length = r'.length) ↔ (∀ r ∈ rows, ∀ r' ∈ rows, r.length = r'.length) := by
    have key : ∀ {γ : Type} (l : List (List γ)), (∀ r ∈ l, ∀ r' ∈ l, r.length = r'.length) ↔ (∀ a ∈ l.map List.length, ∀ b ∈ l.map List.length, a = b) := by
      intro γ l
      simp only [List.mem_map, forall_exists_index, and_imp, forall_apply_eq_imp_iff₂]
    rw [key, key, h]
  unfold reshape3
  by_cases hc : (∀ r ∈ rows, ∀ r' ∈ rows, r.length = r'.length) ∧ rows.flatten.length = S * L * K
  · rw [if_pos hc, if_pos ⟨hall.2 hc.1, by rw [hlen]; exact hc.2⟩]; rfl
  · rw [if_neg hc, if_neg (fun h' => hc ⟨hall.1 h'.1, by rw [← hlen]; exact h'.2⟩)]; rfl

theorem flatten_zipWith {α β γ : Type} (f : α → β → γ) (l : List (List α × List β)) (h : ∀ q ∈ l, q.1.length = q.2.length) :
    (l.map fun q => List.zipWith f q.1 q.2).flatten = List.zipWith f (l.map Prod.fst).flatten (l.map Prod.snd).flatten := by
  induction l with
  | nil => rfl
  | cons q l ih =>
    simp only [List.map_cons, List.flatten_cons]
    rw [List.zipWith_append (h q List.mem_cons_self), ih fun q' hq => h q' (List.mem_cons_of_mem _ hq)]

/-- The results of the folds as they arrive: one intercept per coefficient vector. -/
def Spec.Matched (outs : List FoldOut) : Prop := ∀ o ∈ outs, o.intercepts.length = o.coefs.length

theorem cvFinish_units {σ : Type} (C : FitCfg p ic) (stats : Stats) (c d : ℕ → ℝ) (h : UnitsCfg C stats c d) (solver : SolverFn σ p ic) (R : Rows N)
    (hR : UnitsOK C stats c d R) (S : ℕ) (l1s : List ℝ) (alphass : List (List ℝ)) (outs : List FoldOut) (hm : Matched outs) (s : σ) :
    cvFinish C stats solver (inUnits c d R) S l1s alphass (outs.map (foldInUnits p c d)) s
      = (cvFinish C stats solver R S l1s alphass outs s).map fun tr => (tr.1, cvInUnits p c d tr.2) := by
  unfold cvFinish
  cases alphass.head? with
  | none => rfl
  | some al0 =>
    simp (maxSteps := 1000000) only [Option.bind_eq_bind, Option.bind_some]
    have hdev : (outs.map (foldInUnits p c d)).map (·.dev) = outs.map (·.dev) := by rw [List.map_map]; rfl
    have htdev : (outs.map (foldInUnits p c d)).map (·.trainDev) = outs.map (·.trainDev) := by rw [List.map_map]; rfl
    have hints : (outs.map (foldInUnits p c d)).map (·.intercepts) = outs.map ((·.intercepts) ∘ foldInUnits p c d) := by rw [List.map_map]
    have hcoefs : (outs.map (foldInUnits p c d)).map (·.coefs) = outs.map ((·.coefs) ∘ foldInUnits p c d) := by rw [List.map_map]
    rw [hdev, htdev, hints, hcoefs]
    have hint : reshape3 S l1s.length al0.length (outs.map ((·.intercepts) ∘ foldInUnits p c d))
        = (reshape3 S l1s.length al0.length (outs.map (·.intercepts))).map fun _ => (outs.map ((·.intercepts) ∘ foldInUnits p c d)).flatten := by
      refine reshape3_lengths _ _ _ _ _ ?_
      simp only [List.map_map]
      refine List.map_congr_left fun o ho => ?_
      simp [foldInUnits, hm o ho]
    have hcoef : reshape3 S l1s.length al0.length (outs.map ((·.coefs) ∘ foldInUnits p c d))
        = (reshape3 S l1s.length al0.length (outs.map (·.coefs))).map fun _ => (outs.map ((·.coefs) ∘ foldInUnits p c d)).flatten := by
      refine reshape3_lengths _ _ _ _ _ ?_
      simp only [List.map_map]
      refine List.map_congr_left fun o ho => ?_
      simp [foldInUnits]
    rw [hint, hcoef]
    cases h1 : reshape3 S l1s.length al0.length (outs.map (·.intercepts)) with
    | none => rfl
    | some ints =>
      cases h2 : reshape3 S l1s.length al0.length (outs.map (·.coefs)) with
      | none => rfl
      | some coefs =>
        have hi : ints = (outs.map (·.intercepts)).flatten := by
          unfold reshape3 at h1
          split at h1 <;> cases h1
          rfl
        have hc : coefs = (outs.map (·.coefs)).flatten := by
          unfold reshape3 at h2
          split at h2 <;> cases h2
          rfl
        have hi' : (outs.map ((·.intercepts) ∘ foldInUnits p c d)).flatten = List.zipWith (interceptInUnits p c d) ints coefs := by
          have := flatten_zipWith (interceptInUnits p c d) (outs.map fun o => (o.intercepts, o.coefs)) (by
            intro q hq
            obtain ⟨o, ho, rfl⟩ := List.mem_map.1 hq
            exact hm o ho)
          simp only [List.map_map] at this
          rw [hi, hc]
          exact this
        have hc' : (outs.map ((·.coefs) ∘ foldInUnits p c d)).flatten = coefs.map (coefInUnits c) := by
          rw [hc, List.map_flatten, List.map_map]
          rfl
        simp only [Option.map_some, Option.bind_some]
        rw [hi', hc']
        cases reshape3 S l1s.length al0.length (outs.map (·.dev)) with
        | none => rfl
        | some dv =>
          cases reshape3 S l1s.length al0.length (outs.map (·.trainDev)) with
          | none => rfl
          | some tdv =>
            simp only [Option.bind_some]
            split
            · rfl
            cases argmin (meanAxis0 S l1s.length al0.length dv) with
            | none => rfl
            | some best =>
              simp only [Option.bind_some]
              cases l1s[best / al0.length]? with
              | none => rfl
              | some l1 =>
                simp only [Option.bind_some]
                cases alphass[best / al0.length]? with
                | none => rfl
                | some alphas =>
                  simp only [Option.bind_some]
                  cases alphas[best % al0.length]? with
                  | none => rfl
                  | some alpha =>
                    simp only [Option.bind_some]
                    rw [prepare_units C stats c d h R hR]
                    cases hQ : prepare C stats R l1 with
                    | none => rfl
                    | some Q =>
                      obtain ⟨-, -, -, -, q1, q2, -⟩ := prepare_spec C stats _ l1 Q hQ
                      simp only [Option.map_some, Option.bind_some]
                      have hp : Prepared.path { means := (stats _ (inUnits c d R).X (inUnits c d R).sw).1, stds := (stats _ (inUnits c d R).X (inUnits c d R).sw).2, D := Q.D, A := Q.A, start := Q.start } solver alphas s
                          = Q.path solver alphas s := rfl
                      have hr := report_prepared C stats c d h R hR
                      rw [q1, q2, hp]
                      simp only [List.getElem?_map]
                      cases (Q.path solver alphas s).2[best % al0.length]? with
                      | none => rfl
                      | some v =>
                        simp only [Option.map_some, Option.bind_some, cvInUnits, resultInUnits, hr, List.map_map, Option.some.injEq, Prod.mk.injEq, true_and,
                          CVResult.mk.injEq, PathResult.mk.injEq, and_true]
                        refine ⟨?_, ?_⟩
                        · refine List.map_congr_left fun w _ => ?_
                          simp only [Function.comp, hr]
                        · rw [List.zipWith_map, List.zipWith_self]
                          refine List.map_congr_left fun w _ => ?_
                          simp only [Function.comp, hr]

theorem fitPath_matched {σ : Type} (C : FitCfg p ic) (stats : Stats) (solver : SolverFn σ p ic) (R : Rows N) (j : CVJob N) (s : σ) (o : FoldOut)
    (h : (fitPath C stats solver R j s).2 = some o) : o.intercepts.length = o.coefs.length := by
  obtain ⟨Q, -, rfl⟩ := fitPath_spec C stats solver R j s o h
  simp


/-- **Cross-validation selects the same model in all units**: any solver, family, link, penalties, l1 ratios, splits, number of processes and order of
completion.  The same alphas, deviances and winner; the coefficients, of the folds and of the refit, are those of the old units expressed in the new ones. -/
theorem c116_cv {σ : Type} (C : FitCfg p ic) (stats : Stats) (c d : ℕ → ℝ) (h : UnitsCfg C stats c d) (solver : SolverFn σ p ic) (R : Rows N)
    (hR : UnitsOK C stats c d R) (S : ℕ) (splits : List (List (Fin N) × List (Fin N))) (hsp : ∀ sp ∈ splits, UnitsOK C stats c d (R.fold sp.1))
    (l1s : List ℝ) (alphass : List (List ℝ)) (st : ℕ → σ) (arrived arrived' : List (ℕ × Option FoldOut))
    (ha : Arrival (fitPath C stats solver R) (cvJobs splits l1s alphass) st arrived)
    (ha' : Arrival (fitPath C stats solver (inUnits c d R)) (cvJobs splits l1s alphass) st arrived') (s : σ) :
    cvFit C stats solver (inUnits c d R) S splits l1s alphass arrived' s
      = (cvFit C stats solver R S splits l1s alphass arrived s).map fun tr => (tr.1, cvInUnits p c d tr.2) := by
  have hjob : ∀ j ∈ cvJobs splits l1s alphass, UnitsOK C stats c d (R.fold j.train) := by
    intro j hj
    obtain ⟨sp, hsp', hj⟩ := List.mem_flatMap.1 hj
    obtain ⟨la, -, rfl⟩ := List.mem_map.1 hj
    exact hsp sp hsp'
  have hcol : joblibCollect (cvJobs splits l1s alphass).length arrived'
      = (joblibCollect (cvJobs splits l1s alphass).length arrived).map (List.map (foldInUnits p c d)) := by
    have hfold : ∀ k (hk : k < (cvJobs splits l1s alphass).length),
        (fitPath C stats solver (inUnits c d R) (cvJobs splits l1s alphass)[k] (st k)).2
          = (fitPath C stats solver R (cvJobs splits l1s alphass)[k] (st k)).2.map (foldInUnits p c d) := by
      intro k hk
      rw [c116_fold C stats c d h solver R _ (hjob _ (List.getElem_mem hk))]
    cases hc : joblibCollect (cvJobs splits l1s alphass).length arrived with
    | some outs =>
      rw [c61_collect _ _ st arrived ha] at hc
      show _ = some _
      rw [c61_collect _ _ st arrived' ha']
      refine ⟨by simpa using hc.1, fun k hk hk' => ?_⟩
      rw [hfold k hk, hc.2 k hk (by simpa using hk'), List.getElem_map]
      rfl
    | none =>
      cases hc' : joblibCollect (cvJobs splits l1s alphass).length arrived' with
      | none => rfl
      | some outs' =>
        exfalso
        rw [c61_collect _ _ st arrived' ha'] at hc'
        have hex : ∀ k (hk : k < (cvJobs splits l1s alphass).length), ∃ o, (fitPath C stats solver R (cvJobs splits l1s alphass)[k] (st k)).2 = some o := by
          intro k hk
          have := hc'.2 k hk (by rw [hc'.1]; exact hk)
          rw [hfold k hk] at this
          obtain ⟨o, ho, -⟩ := Option.map_eq_some_iff.1 this
          exact ⟨o, ho⟩
        choose f hf using hex
        have : joblibCollect (cvJobs splits l1s alphass).length arrived = some (List.ofFn fun k : Fin _ => f k.val k.isLt) := by
          rw [c61_collect _ _ st arrived ha]
          exact ⟨by simp, fun k hk hk' => by rw [hf k hk]; simp⟩
        rw [hc] at this
        cases this
  unfold cvFit
  rw [hcol]
  cases hc : joblibCollect (cvJobs splits l1s alphass).length arrived with
  | none => rfl
  | some outs =>
    simp only [Option.map_some, Option.bind_eq_bind, Option.bind_some]
    refine cvFinish_units C stats c d h solver R hR S l1s alphass outs ?_ s
    intro o ho
    rw [c61_collect _ _ st arrived ha] at hc
    obtain ⟨k, hk, rfl⟩ := List.getElem_of_mem ho
    exact fitPath_matched C stats solver R _ _ _ (hc.2 k (by rw [← hc.1]; exact hk) hk)

/-- Two folds of two rows, the first feature doubled and moved by three, with `scale_predictors`: the hypotheses hold, whatever the solver and the order of
the results. -/
example {σ : Type} (solver : SolverFn σ 1 true) (st : ℕ → σ) (s : σ) (arrived arrived' : List (ℕ × Option FoldOut)) :
    let stats : Stats := fun m X w => (fun j => ∑ i, w i * X i j, fun j => Real.sqrt (∑ i, w i * (X i j - ∑ k, w k * X k j) ^ 2))
    let C := { tinyCfg 5 5 with asIfScaled := true }
    let R : Rows 4 := { X := fun i j => if j = 0 then (if i.val % 2 = 0 then -1 else 1) else 0, y := fun i => i.val, sw := fun _ => 1 / 4, off := none }
    let c : ℕ → ℝ := fun j => if j = 0 then 2 else 1
    let d : ℕ → ℝ := fun j => if j = 0 then 3 else 0
    let splits : List (List (Fin 4) × List (Fin 4)) := [([0, 1], [2, 3]), ([2, 3], [0, 1])]
    Arrival (fitPath C stats solver R) (cvJobs splits [0] [[2, 1]]) st arrived →
    Arrival (fitPath C stats solver (inUnits c d R)) (cvJobs splits [0] [[2, 1]]) st arrived' →
    cvFit C stats solver (inUnits c d R) 2 splits [0] [[2, 1]] arrived' s
      = (cvFit C stats solver R 2 splits [0] [[2, 1]] arrived s).map fun tr => (tr.1, cvInUnits 1 c d tr.2) := by
  intro stats C R c d splits ha ha'
  have hok : ∀ {m : ℕ} (T : Rows m), (∑ i, T.sw i = 1) → (stats m T.X T.sw).2 0 = 1 → UnitsOK C stats c d T := by
    intro m T hw hsd
    refine ⟨hw, fun j => ?_⟩
    by_cases hj : j = 0
    · right
      rw [hj, hsd]
      simp only [C, tinyCfg, c, if_true]
      norm_num
    · left; simp [c, hj]
  refine c116_cv C stats c d ?_ solver R (hok _ ?_ ?_) 2 splits ?_ [0] [[2, 1]] st arrived arrived' ha ha' s
  · refine ⟨by norm_num [C, tinyCfg], fun m X w j => ⟨rfl, rfl⟩, rfl, rfl, ?_, (fun h => by cases h), ?_⟩
    · intro j; simp only [c]; split <;> norm_num
    · rintro (h | h | h)
      · cases h
      · exact absurd rfl h
      · exact absurd rfl h
  · simp [R]
  · simp only [stats, R, Fin.sum_univ_four]
    norm_num
  · intro sp hsp
    simp only [splits, List.mem_cons, List.not_mem_nil, or_false] at hsp
    rcases hsp with rfl | rfl
    · refine hok _ ?_ ?_
      · show ∑ i : Fin 2, _ = _
        simp only [Rows.fold, R]
        norm_num [Fin.sum_univ_two]
      · show Real.sqrt (∑ i : Fin 2, _ * (_ - ∑ k : Fin 2, _) ^ 2) = 1
        simp only [Rows.fold, R]
        norm_num [Fin.sum_univ_two]
    · refine hok _ ?_ ?_
      · show ∑ i : Fin 2, _ = _
        simp only [Rows.fold, R]
        norm_num [Fin.sum_univ_two]
      · show Real.sqrt (∑ i : Fin 2, _ * (_ - ∑ k : Fin 2, _) ^ 2) = 1
        simp only [Rows.fold, R]
        norm_num [Fin.sum_univ_two]

end Glum
