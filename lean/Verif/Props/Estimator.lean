import Verif.Model.Estimator
import Mathlib.Tactic.Ring
import Mathlib.Tactic.Linarith
import Mathlib.Tactic.Positivity
import Mathlib.Tactic.FieldSimp
import Mathlib.Tactic.NormNum
/-
C54 (information criteria), C55 (stored covariance matrix), C64 (refits leave no stale state).  A history is a list of calls of `fit`,
`covariance_matrix`, `aic`/`aicc`/`bic` and `predict`, each with its own hyperparameters, on an estimator that starts without attributes.
-/
set_option linter.unusedSectionVars false
set_option linter.unusedVariables false
set_option linter.unusedSimpArgs false
namespace Glum

noncomputable section

variable {E : Env}

/-! ### What the set-up of a fit writes -/

/-- What a successful set-up yields and writes, computed from the arguments alone. -/
def setupOut (P : Params E) (a : FitArgs E) : Option (Valid × Option E.XSpec × Option E.YSpec × Option E.Levels) :=
  match a.X, P.formula with
  | .frame d, some φ =>
    match E.yOfFormula φ d with
    | none => none
    | some (some (ys, yv)) =>
      if a.y.isSome then none
      else match E.xOfFormula φ d with
        | none => none
        | some (xs, X, ic) =>
          if ic ≠ P.fitIntercept then none else (validate X yv a.w a.off).map fun v => (v, some xs, some ys, none)
    | some none =>
      match E.xOfFormula φ d with
      | none => none
      | some (xs, X, ic) =>
        if ic ≠ P.fitIntercept then none
        else (a.y.bind fun y => validate X y a.w a.off).map fun v => (v, some xs, none, none)
  | .frame d, none =>
    match E.fromFrame d with
    | none => none
    | some X => (a.y.bind fun y => validate X y a.w a.off).map fun v => (v, none, none, some (E.levelsOf d))
  | .mat X, _ => (a.y.bind fun y => validate X y a.w a.off).map fun v => (v, none, none, none)

theorem validate_X {X : Mat} {y : List ℝ} {w : WeightArg} {off : Option (List ℝ)} {v : Valid} (h : validate X y w off = some v) :
    v.X = X ∧ y.length = X.nrows := by
  unfold validate at h
  split at h
  · exact absurd h (by simp)
  · rename_i hl
    have hl' : y.length = X.nrows := not_not.1 hl
    split at h
    · exact absurd h (by simp)
    · split at h
      · simp only [Option.some.injEq] at h; subst h; exact ⟨rfl, hl'⟩
      · split at h
        · exact absurd h (by simp)
        · simp only [Option.some.injEq] at h; subst h; exact ⟨rfl, hl'⟩

theorem finishSetup_some {s s1 : Est E} {a : FitArgs E} {X : Mat} {y : Option (List ℝ)} {v : Valid} :
    s.finishSetup a X y = (s1, some v) ↔
      (y.bind fun y => validate X y a.w a.off) = some v ∧ s1 = { s with nFeatures := some v.X.ncols, names := some v.X.names } := by
  unfold Est.finishSetup
  cases y with
  | none => simp
  | some y =>
    simp only [Option.bind_some]
    by_cases hl : y.length ≠ X.nrows
    · rw [if_pos hl]
      constructor
      · intro h; simp at h
      · rintro ⟨h, _⟩; exact absurd (validate_X h).2 hl
    · rw [if_neg hl]
      cases hv : validate X y a.w a.off with
      | none => simp
      | some v' =>
        simp only [Prod.mk.injEq, Option.some.injEq]
        constructor
        · rintro ⟨rfl, rfl⟩
          rw [(validate_X hv).1]; exact ⟨rfl, rfl⟩
        · rintro ⟨rfl, rfl⟩
          rw [(validate_X hv).1]; exact ⟨rfl, rfl⟩

/-- The attributes written by a successful set-up. -/
def Est.written (s : Est E) (v : Valid) (xs : Option E.XSpec) (ys : Option E.YSpec) (lv : Option E.Levels) : Est E :=
  { s with nFeatures := some v.X.ncols, names := some v.X.names, xSpec := xs.orElse fun _ => s.xSpec,
           ySpec := ys.orElse fun _ => s.ySpec, levels := lv.orElse fun _ => s.levels }

theorem setup_some {s s1 : Est E} {P : Params E} {a : FitArgs E} {v : Valid} :
    s.setup P a = (s1, some v) ↔ ∃ xs ys lv, setupOut P a = some (v, xs, ys, lv) ∧ s1 = s.written v xs ys lv := by
  unfold Est.setup setupOut
  cases hX : a.X with
  | mat X =>
    simp only [finishSetup_some, Option.map_eq_some_iff, Prod.mk.injEq]
    constructor
    · rintro ⟨h, rfl⟩
      exact ⟨none, none, none, ⟨v, h, rfl, rfl, rfl, rfl⟩, rfl⟩
    · rintro ⟨xs, ys, lv, ⟨v', h, rfl, rfl, rfl, rfl⟩, rfl⟩
      exact ⟨h, rfl⟩
  | frame d =>
    cases hf : P.formula with
    | none =>
      simp only []
      cases hX' : E.fromFrame d with
      | none => simp
      | some X =>
        simp only [finishSetup_some, Option.map_eq_some_iff, Prod.mk.injEq]
        constructor
        · rintro ⟨h, rfl⟩
          exact ⟨none, none, _, ⟨v, h, rfl, rfl, rfl, rfl⟩, rfl⟩
        · rintro ⟨xs, ys, lv, ⟨v', h, rfl, rfl, rfl, rfl⟩, rfl⟩
          exact ⟨h, rfl⟩
    | some φ =>
      simp only []
      cases hy : E.yOfFormula φ d with
      | none => simp
      | some o =>
        cases o with
        | none =>
          simp only []
          cases hX' : E.xOfFormula φ d with
          | none => simp
          | some t =>
            obtain ⟨xs, X, ic⟩ := t
            simp only []
            by_cases hic : ic ≠ P.fitIntercept
            · simp [hic]
            · simp only [if_neg hic, finishSetup_some, Option.map_eq_some_iff, Prod.mk.injEq]
              constructor
              · rintro ⟨h, rfl⟩
                exact ⟨_, none, none, ⟨v, h, rfl, rfl, rfl, rfl⟩, rfl⟩
              · rintro ⟨xs, ys, lv, ⟨v', h, rfl, rfl, rfl, rfl⟩, rfl⟩
                exact ⟨h, rfl⟩
        | some t =>
          obtain ⟨ys, yv⟩ := t
          simp only []
          by_cases hy' : a.y.isSome
          · simp [hy']
          · simp only [hy', Bool.false_eq_true, if_false]
            cases hX' : E.xOfFormula φ d with
            | none => simp
            | some t =>
              obtain ⟨xs, X, ic⟩ := t
              simp only []
              by_cases hic : ic ≠ P.fitIntercept
              · simp [hic]
              · simp only [if_neg hic, finishSetup_some, Option.map_eq_some_iff, Prod.mk.injEq, Option.bind_some]
                constructor
                · rintro ⟨h, rfl⟩
                  exact ⟨_, _, none, ⟨v, h, rfl, rfl, rfl, rfl⟩, rfl⟩
                · rintro ⟨xs, ys, lv, ⟨v', h, rfl, rfl, rfl, rfl⟩, rfl⟩
                  exact ⟨h, rfl⟩

/-- The state at the end of the numerical core. -/
def Est.fitted (s : Est E) (v : Valid) (xs : Option E.XSpec) (ys : Option E.YSpec) (lv : Option E.Levels) (f : Family) (l : Link)
    (al : Option (List ℝ)) (b : ℝ) (c : List ℝ) : Est E :=
  { s.written v xs ys lv with family := some f, link := some l, numObs := some v.X.nrows, alphas := al.orElse fun _ => s.alphas,
                              coef := some (b, c) }

/-- A fit that returns, step by step. -/
theorem fit_true {s s' : Est E} {P : Params E} {a : FitArgs E} : s.fit P a = (s', true) ↔
    P.valid = true ∧ ∃ v xs ys lv f l al b c, setupOut P a = some (v, xs, ys, lv) ∧ P.family = some f ∧ P.link f = some l ∧
      P.yOK (List.ofFn v.y) = true ∧ ¬ (P.mono = true ∧ (xs.orElse fun _ => s.xSpec).isNone = true) ∧
      P.core v (if P.mono then xs.orElse fun _ => s.xSpec else none) (if P.warmStart then s.coef else none) = .done al b c ∧
      (s.fitted v xs ys lv f l al b c).finishFit P a v = (s', true) := by
  unfold Est.fit
  by_cases hv : P.valid = false
  · simp [hv]
  · have hv' : P.valid = true := by simpa using hv
    simp only [hv', Bool.true_eq_false, if_false, true_and]
    constructor
    · intro h
      split at h
      · exact absurd h (by simp)
      · rename_i s1 v hs
        obtain ⟨xs, ys, lv, ho, rfl⟩ := setup_some.1 hs
        split at h
        · exact absurd h (by simp)
        · rename_i f hf
          split at h
          · exact absurd h (by simp)
          · rename_i l hl
            split at h
            · exact absurd h (by simp)
            · rename_i hy
              split at h
              · exact absurd h (by simp)
              · rename_i hm
                split at h
                · exact absurd h (by simp)
                · exact absurd h (by simp)
                · rename_i al b c hc
                  exact ⟨v, xs, ys, lv, f, l, al, b, c, ho, hf, hl, by simpa using hy, hm, hc, h⟩
    · rintro ⟨v, xs, ys, lv, f, l, al, b, c, ho, hf, hl, hy, hm, hc, h⟩
      have hs : s.setup P a = (s.written v xs ys lv, some v) := setup_some.2 ⟨xs, ys, lv, ho, rfl⟩
      rw [hs]
      simp only [hf, hl, hy, Bool.true_eq_false, if_false]
      have hm' : ¬ (P.mono = true ∧ (s.written v xs ys lv).xSpec.isNone = true) := hm
      rw [if_neg hm']
      have hc' : P.core v (if P.mono then (s.written v xs ys lv).xSpec else none) (if P.warmStart then (s.written v xs ys lv).coef else none)
          = .done al b c := hc
      rw [hc']
      exact h

/-! ### What the results depend on -/

theorem linkInstance_eq {s : Est E} {l : Link} (P : Params E) (h : s.link = some l) : s.linkInstance P = some l := by
  unfold Est.linkInstance; rw [h]; rfl

/-- Predictions on matrices depend on the coefficients, the link and the number of features. -/
theorem predictMat_congr {s t : Est E} {l : Link} (hs : s.link = some l) (ht : t.link = some l) (hc : s.coef = t.coef)
    (hn : s.nFeatures = t.nFeatures) (P P' : Params E) (X : Mat) (off : Option (Fin X.nrows → ℝ)) :
    s.predictMat P X off = t.predictMat P' X off := by
  unfold Est.predictMat
  rw [linkInstance_eq P hs, linkInstance_eq P' ht, hc, hn]

theorem covCompute_congr {s t : Est E} {l : Link} (hs : s.link = some l) (ht : t.link = some l) (hf : s.family = t.family)
    (hc : s.coef = t.coef) (hn : s.nFeatures = t.nFeatures) (P : Params E) (v : Valid) (mu : Option (List ℝ)) (disp : Option ℝ)
    (r e : Bool) (c : Option (ℕ → ℤ)) : s.covCompute P v mu disp r e c = t.covCompute P v mu disp r e c := by
  unfold Est.covCompute
  rw [hf, hs, ht, hn]
  cases mu with
  | none => rw [predictMat_congr hs ht hc hn P P]
  | some m => rfl

theorem weights_restored {n : ℕ} {a : WeightArg} {w : Fin n → ℝ} (h : checkWeights n a = some w) (hn : 0 < n) :
    (fun i => (normaliseWeights w).1 i * (normaliseWeights w).2) = w := by
  have hne : ∑ j, w j ≠ 0 := by
    unfold checkWeights at h
    cases a with
    | none =>
      simp only [Option.some.injEq] at h; subst h
      simp; omega
    | scalar c =>
      simp only at h
      split at h
      · exact absurd h (by simp)
      · rename_i hc
        simp only [Option.some.injEq] at h; subst h
        simp only [Finset.sum_const, Finset.card_univ, Fintype.card_fin, nsmul_eq_mul]
        push Not at hc
        exact mul_ne_zero (by exact_mod_cast hn.ne') hc.ne'
    | array nd len u =>
      simp only at h
      split at h
      · exact absurd h (by simp)
      · split at h
        · exact absurd h (by simp)
        · split at h
          · exact absurd h (by simp)
          · split at h
            · exact absurd h (by simp)
            · rename_i h1 h2 h3 h4
              simp only [Option.some.injEq] at h; subst h
              have : len = n := not_not.1 h2
              subst this
              rwa [Finset.sum_range] at h4
  funext i
  unfold normaliseWeights
  exact div_mul_cancel₀ _ hne

theorem weights_restored' {n : ℕ} {a : WeightArg} {w : Fin n → ℝ} (h : checkWeights n a = some w) :
    (fun i => (normaliseWeights w).1 i * (normaliseWeights w).2) = w := by
  rcases Nat.eq_zero_or_pos n with rfl | hn
  · funext i; exact i.elim0
  · exact weights_restored h hn

theorem validate_weights {X : Mat} {y : List ℝ} {w : WeightArg} {off : Option (List ℝ)} {v : Valid} (h : validate X y w off = some v) :
    checkWeights v.X.nrows w = some v.w := by
  unfold validate at h
  split at h
  · exact absurd h (by simp)
  · split at h
    · exact absurd h (by simp)
    · rename_i u hu
      split at h
      · simp only [Option.some.injEq] at h; subst h; exact hu
      · split at h
        · exact absurd h (by simp)
        · simp only [Option.some.injEq] at h; subst h; exact hu

theorem setupOut_weights {P : Params E} {a : FitArgs E} {v : Valid} {xs ys lv} (h : setupOut P a = some (v, xs, ys, lv)) :
    checkWeights v.X.nrows a.w = some v.w := by
  unfold setupOut at h
  have key : ∀ (y : Option (List ℝ)) (X : Mat) (x' y' l'), ((y.bind fun y => validate X y a.w a.off).map
      fun v => ((v, x', y', l') : Valid × Option E.XSpec × Option E.YSpec × Option E.Levels)) = some (v, xs, ys, lv) →
      checkWeights v.X.nrows a.w = some v.w := by
    intro y X x' y' l' h
    rw [Option.map_eq_some_iff] at h
    obtain ⟨v', h, e⟩ := h
    rw [Option.bind_eq_some_iff] at h
    obtain ⟨y, -, h⟩ := h
    simp only [Prod.mk.injEq] at e
    rw [← e.1]; exact validate_weights h
  split at h
  · split at h
    · exact absurd h (by simp)
    · split at h
      · exact absurd h (by simp)
      · split at h
        · exact absurd h (by simp)
        · split at h
          · exact absurd h (by simp)
          · exact key (some _) _ _ _ _ h
    · split at h
      · exact absurd h (by simp)
      · split at h
        · exact absurd h (by simp)
        · exact key _ _ _ _ _ h
  · split at h
    · exact absurd h (by simp)
    · exact key _ _ _ _ _ h
  · exact key _ _ _ _ _ h

/-- The end of the fit: what is stored. -/
theorem finishFit_true {s s' : Est E} {P : Params E} {a : FitArgs E} {v : Valid} (hw : checkWeights v.X.nrows a.w = some v.w) :
    s.finishFit P a v = (s', true) ↔
      (a.store = false ∧ s' = { s with cov := some none }) ∨
      (a.store = true ∧ ∃ V, s.covCompute P v none none P.robust P.expected a.clusters = some V ∧ s' = { s with cov := some (some V) }) := by
  unfold Est.finishFit
  have hv : ({ v with w := fun i => (normaliseWeights v.w).1 i * (normaliseWeights v.w).2 } : Valid) = v := by
    rw [weights_restored' hw]
  by_cases hs : a.store = true
  · simp only [hs, if_true, Bool.true_eq_false, false_and, false_or, true_and]
    rw [hv]
    have hc : ({ s with cov := some none } : Est E).covCompute P v none none P.robust P.expected a.clusters
        = s.covCompute P v none none P.robust P.expected a.clusters := by
      unfold Est.covCompute Est.predictMat Est.linkInstance Est.familyInstance; rfl
    rw [hc]
    cases s.covCompute P v none none P.robust P.expected a.clusters with
    | none => simp
    | some V => simp [eq_comm]
  · have hs' : a.store = false := by simpa using hs
    simp [hs', eq_comm]

/-- A fit that returns, with what is stored. -/
theorem fit_stored {s s' : Est E} {P : Params E} {a : FitArgs E} : s.fit P a = (s', true) ↔
    P.valid = true ∧ ∃ v xs ys lv f l al b c, setupOut P a = some (v, xs, ys, lv) ∧ P.family = some f ∧ P.link f = some l ∧
      P.yOK (List.ofFn v.y) = true ∧ ¬ (P.mono = true ∧ (xs.orElse fun _ => s.xSpec).isNone = true) ∧
      P.core v (if P.mono then xs.orElse fun _ => s.xSpec else none) (if P.warmStart then s.coef else none) = .done al b c ∧
      ((a.store = false ∧ s' = { s.fitted v xs ys lv f l al b c with cov := some none }) ∨
       (a.store = true ∧ ∃ V, (s.fitted v xs ys lv f l al b c).covCompute P v none none P.robust P.expected a.clusters = some V ∧
         s' = { s.fitted v xs ys lv f l al b c with cov := some (some V) })) := by
  rw [fit_true]
  refine and_congr_right fun _ => ?_
  constructor
  · rintro ⟨v, xs, ys, lv, f, l, al, b, c, ho, hf, hl, hy, hm, hc, h⟩
    exact ⟨v, xs, ys, lv, f, l, al, b, c, ho, hf, hl, hy, hm, hc, (finishFit_true (setupOut_weights ho)).1 h⟩
  · rintro ⟨v, xs, ys, lv, f, l, al, b, c, ho, hf, hl, hy, hm, hc, h⟩
    exact ⟨v, xs, ys, lv, f, l, al, b, c, ho, hf, hl, hy, hm, hc, (finishFit_true (setupOut_weights ho)).2 h⟩

/-- No call in the history fits a data frame with a formula. -/
def NoFormulaFit (h : List (Op E)) : Prop := ∀ P a d, Op.fit P a ∈ h → a.X = .frame d → P.formula = none

/-! ### Writes of a fit, whatever its outcome -/

theorem finishSetup_frame (s : Est E) (a : FitArgs E) (X : Mat) (y : Option (List ℝ)) :
    (s.finishSetup a X y).1.xSpec = s.xSpec ∧ (s.finishSetup a X y).1.ySpec = s.ySpec ∧ (s.finishSetup a X y).1.info = s.info ∧
    (s.finishSetup a X y).1.coef = s.coef ∧ (s.finishSetup a X y).1.cov = s.cov := by
  unfold Est.finishSetup
  cases y with
  | none => exact ⟨rfl, rfl, rfl, rfl, rfl⟩
  | some y =>
    simp only []
    split
    · exact ⟨rfl, rfl, rfl, rfl, rfl⟩
    · split <;> exact ⟨rfl, rfl, rfl, rfl, rfl⟩

theorem setup_keeps (s : Est E) (P : Params E) (a : FitArgs E) :
    (s.setup P a).1.info = s.info ∧ (s.setup P a).1.coef = s.coef ∧ (s.setup P a).1.cov = s.cov ∧
    ((∀ d, a.X = .frame d → P.formula = none) → (s.setup P a).1.xSpec = s.xSpec ∧ (s.setup P a).1.ySpec = s.ySpec) := by
  unfold Est.setup
  split
  · rename_i d φ hX hf
    refine ⟨?_, ?_, ?_, fun h => absurd (h d hX) (by simp [hf])⟩ <;>
      (split
       · rfl
       · split
         · rfl
         · simp only []
           split
           · rfl
           · split
             · rfl
             · first
               | exact (finishSetup_frame _ _ _ _).2.2.1
               | exact (finishSetup_frame _ _ _ _).2.2.2.1
               | exact (finishSetup_frame _ _ _ _).2.2.2.2
       · split
         · rfl
         · split
           · rfl
           · first
             | exact (finishSetup_frame _ _ _ _).2.2.1
             | exact (finishSetup_frame _ _ _ _).2.2.2.1
             | exact (finishSetup_frame _ _ _ _).2.2.2.2)
  · simp only []
    split
    · exact ⟨rfl, rfl, rfl, fun _ => ⟨rfl, rfl⟩⟩
    · obtain ⟨h1, h2, h3, h4, h5⟩ := finishSetup_frame ({ s with levels := some (E.levelsOf _) } : Est E) a _ a.y
      exact ⟨h3, h4, h5, fun _ => ⟨h1, h2⟩⟩
  · obtain ⟨h1, h2, h3, h4, h5⟩ := finishSetup_frame s a _ a.y
    exact ⟨h3, h4, h5, fun _ => ⟨h1, h2⟩⟩

theorem finishFit_keeps (s : Est E) (P : Params E) (a : FitArgs E) (v : Valid) :
    (s.finishFit P a v).1.info = s.info ∧ (s.finishFit P a v).1.coef = s.coef ∧ (s.finishFit P a v).1.xSpec = s.xSpec ∧
    (s.finishFit P a v).1.ySpec = s.ySpec := by
  unfold Est.finishFit
  simp only []
  split
  · split <;> exact ⟨rfl, rfl, rfl, rfl⟩
  · exact ⟨rfl, rfl, rfl, rfl⟩

/-- A fit keeps the cached criteria, whatever its outcome; a fitted estimator stays fitted. -/
theorem fit_keeps (s : Est E) (P : Params E) (a : FitArgs E) :
    (s.fit P a).1.info = s.info ∧ (s.coef.isSome → (s.fit P a).1.coef.isSome) ∧
    ((∀ d, a.X = .frame d → P.formula = none) → (s.fit P a).1.xSpec = s.xSpec ∧ (s.fit P a).1.ySpec = s.ySpec) := by
  obtain ⟨h1, h2, h3, h4⟩ := setup_keeps s P a
  unfold Est.fit
  split
  · exact ⟨rfl, id, fun _ => ⟨rfl, rfl⟩⟩
  · split
    · rename_i s1 hs
      rw [hs] at h1 h2 h3 h4
      exact ⟨h1, fun h => by rw [h2]; exact h, h4⟩
    · rename_i s1 v hs
      rw [hs] at h1 h2 h3 h4
      have hc : s.coef.isSome → s1.coef.isSome := fun h => by rw [h2]; exact h
      split
      · exact ⟨h1, hc, h4⟩
      · simp only []
        split
        · exact ⟨h1, hc, h4⟩
        · split
          · exact ⟨h1, hc, h4⟩
          · split
            · exact ⟨h1, hc, h4⟩
            · split
              · exact ⟨h1, hc, h4⟩
              · exact ⟨h1, hc, h4⟩
              · rename_i al b c hcore
                obtain ⟨k1, k2, k3, k4⟩ := finishFit_keeps
                  ({ s1 with family := some _, link := some _, numObs := some v.X.nrows, alphas := al.orElse fun _ => s1.alphas,
                             coef := some (b, c) } : Est E) P a v
                refine ⟨k1.trans h1, fun _ => ?_, fun h => ⟨k3.trans (h4 h).1, k4.trans (h4 h).2⟩⟩
                rw [k2]; rfl

theorem estimateStore_keeps (s : Est E) (P : Params E) (a : CovArgs E) :
    (s.estimateStore P a).1 = s ∨ ∃ V, a.store = true ∧ (s.estimateStore P a).2 = some V ∧
      (s.estimateStore P a).1 = { s with cov := some (some V) } := by
  unfold Est.estimateStore
  cases h : s.estimate P a with
  | none => exact Or.inl rfl
  | some V =>
    simp only []
    by_cases hs : a.store = true
    · right; exact ⟨V, hs, rfl, by simp [hs]⟩
    · left; simp [hs]

theorem covarianceMatrix_keeps (s : Est E) (P : Params E) (a : CovArgs E) :
    (s.covarianceMatrix P a).1 = s ∨ ∃ V, a.store = true ∧ (s.covarianceMatrix P a).2 = some V ∧
      (s.covarianceMatrix P a).1 = { s with cov := some (some V) } := by
  have key := estimateStore_keeps s P a
  unfold Est.covarianceMatrix
  simp only []
  split
  · split
    · exact Or.inl rfl
    · exact key
  · split
    · exact Or.inl rfl
    · split
      · exact Or.inl rfl
      · split
        · split
          · exact Or.inl rfl
          · exact Or.inl rfl
        · exact key

theorem infoCriterion_state (s : Est E) (P : Params E) (k : Crit) (X : XArg E) (y : List ℝ) (w : Option (List ℝ)) :
    (s.infoCriterion P k X y w).1 = s ∨
      ∃ i, (s.info = some i ∨ s.info = none ∧ s.computeInfo P X y w = some i) ∧ s.coef.isSome = true ∧
        (s.infoCriterion P k X y w).1 = { s with info := some i } := by
  unfold Est.infoCriterion
  split
  · exact Or.inl rfl
  · rename_i hc
    have hc' : s.coef.isSome = true := by
      cases h : s.coef with
      | none => exact absurd (by simp [h]) hc
      | some _ => rfl
    cases hi : s.info with
    | some i => exact Or.inr ⟨i, Or.inl rfl, hc', rfl⟩
    | none =>
      simp only []
      cases hm : s.computeInfo P X y w with
      | none => exact Or.inl rfl
      | some i => exact Or.inr ⟨i, by simp, hc', rfl⟩

theorem run_specs (h : List (Op E)) : ∀ s : Est E, NoFormulaFit h → (s.run h).xSpec = s.xSpec ∧ (s.run h).ySpec = s.ySpec := by
  induction h with
  | nil => intro s _; exact ⟨rfl, rfl⟩
  | cons o t ih =>
    intro s hn
    have hn' : NoFormulaFit t := fun P a d hm hX => hn P a d (List.mem_cons_of_mem _ hm) hX
    have hstep : (s.step o).xSpec = s.xSpec ∧ (s.step o).ySpec = s.ySpec := by
      cases o with
      | fit P a => exact (fit_keeps s P a).2.2 fun d hX => hn P a d (List.mem_cons_self ..) hX
      | cov P a =>
        rcases covarianceMatrix_keeps s P a with h | ⟨V, _, _, h⟩ <;> simp [Est.step, h]
      | info P k X y w =>
        rcases infoCriterion_state s P k X y w with h | ⟨i, _, _, h⟩ <;> simp [Est.step, h]
      | predict P X off => exact ⟨rfl, rfl⟩
    obtain ⟨h1, h2⟩ := ih (s.step o) hn'
    exact ⟨h1.trans hstep.1, h2.trans hstep.2⟩

theorem estimate_congr {s t : Est E} {l : Link} (hs : s.link = some l) (ht : t.link = some l) (hf : s.family = t.family)
    (hc : s.coef = t.coef) (hn : s.nFeatures = t.nFeatures) (hys : s.ySpec = none) (hyt : t.ySpec = none) (P : Params E)
    (ca : CovArgs E) (X : Mat) (hX : ca.X = some (.mat X)) : s.estimate P ca = t.estimate P ca := by
  unfold Est.estimate
  rw [hX, hys, hyt]
  simp only [Option.bind_eq_bind, Option.bind_some]
  have hcc : ∀ v' mu disp r' e' cl, s.covCompute P v' mu disp r' e' cl = t.covCompute P v' mu disp r' e' cl :=
    fun v' mu disp r' e' cl => covCompute_congr hs ht hf hc hn P v' mu disp r' e' cl
  simp only [hcc]
  rfl

theorem covarianceMatrix_congr {s t : Est E} {l : Link} (hs : s.link = some l) (ht : t.link = some l) (hf : s.family = t.family)
    (hc : s.coef = t.coef) (hn : s.nFeatures = t.nFeatures) (hys : s.ySpec = none) (hyt : t.ySpec = none) (hcov : s.cov = t.cov)
    (P : Params E) (ca : CovArgs E) (X : Mat) (hX : ca.X = some (.mat X)) :
    (s.covarianceMatrix P ca).2 = (t.covarianceMatrix P ca).2 := by
  have hest := estimate_congr hs ht hf hc hn hys hyt P ca X hX
  have hes : (s.estimateStore P ca).2 = (t.estimateStore P ca).2 := by
    unfold Est.estimateStore
    rw [hest]
    cases t.estimate P ca <;> rfl
  unfold Est.covarianceMatrix
  rw [hys, hyt, hcov]
  cases t.cov with
  | none =>
    simp only []
    split
    · rfl
    · exact hes
  | some c' =>
    simp only []
    split
    · rfl
    · split
      · rfl
      · split
        · split <;> rfl
        · exact hes

/-! ### C64 -/

/-- **C64 (partial: estimators without `warm_start`; frames under a condition on the history; not the cached criteria).**  For every
history: if a fit returns, it returns on a fresh estimator too, and the coefficients, family, link, number of features, names, number of
observations and stored covariance matrix are the same as there.  Predictions on matrices agree for every later choice of hyperparameters;
predictions on data frames agree if this fit used a data frame with a formula, and also if it used a data frame without formula and no
earlier fit used a formula.  Covariance matrices computed from given matrices agree if no fit used a formula.  Missing: see the
counterexamples below. -/
theorem c64_latest_fit_partial (h : List (Op E)) (P : Params E) (a : FitArgs E) (hwarm : P.warmStart = false)
    (hmono : P.mono = true → ∃ d φ, a.X = .frame d ∧ P.formula = some φ)
    (hok : ((({} : Est E).run h).fit P a).2 = true) :
    (({} : Est E).fit P a).2 = true ∧
    (let s := ((({} : Est E).run h).fit P a).1
     let s0 := (({} : Est E).fit P a).1
     s.coef = s0.coef ∧ s.family = s0.family ∧ s.link = s0.link ∧ s.nFeatures = s0.nFeatures ∧ s.names = s0.names ∧
     s.numObs = s0.numObs ∧ s.cov = s0.cov ∧
     (∀ P' P'' X off, s.predict P' (.mat X) off = s0.predict P'' (.mat X) off) ∧
     ((∃ d φ, a.X = .frame d ∧ P.formula = some φ) → ∀ P' P'' d off, s.predict P' (.frame d) off = s0.predict P'' (.frame d) off) ∧
     ((∃ d, a.X = .frame d ∧ P.formula = none) → NoFormulaFit h →
        ∀ P' P'' d off, s.predict P' (.frame d) off = s0.predict P'' (.frame d) off) ∧
     ((∀ d, a.X = .frame d → P.formula = none) → NoFormulaFit h → ∀ P' (c : CovArgs E) X, c.X = some (.mat X) →
        (s.covarianceMatrix P' c).2 = (s0.covarianceMatrix P' c).2)) := by
  set r := ({} : Est E).run h with hr
  obtain ⟨hv, v, xs, ys, lv, f, l, al, b, c, ho, hf, hl, hy, hm, hc, hs⟩ :=
    fit_stored.1 (Prod.ext rfl hok : r.fit P a = ((r.fit P a).1, true))
  rw [hwarm] at hc
  -- the written specs
  have hxs : (∃ d φ, a.X = .frame d ∧ P.formula = some φ) → ∃ x, xs = some x := by
    rintro ⟨d, φ, hX, hφ⟩
    unfold setupOut at ho
    simp only [hX, hφ] at ho
    split at ho
    · exact absurd ho (by simp)
    · split at ho
      · exact absurd ho (by simp)
      · split at ho
        · exact absurd ho (by simp)
        · split at ho
          · exact absurd ho (by simp)
          · simp only [Option.map_eq_some_iff, Prod.mk.injEq] at ho
            obtain ⟨_, _, _, h1, _⟩ := ho
            exact ⟨_, h1.symm⟩
    · split at ho
      · exact absurd ho (by simp)
      · split at ho
        · exact absurd ho (by simp)
        · simp only [Option.map_eq_some_iff, Prod.mk.injEq] at ho
          obtain ⟨_, _, _, h1, _⟩ := ho
          exact ⟨_, h1.symm⟩
  have hxs' : (∀ d, a.X = .frame d → P.formula = none) → xs = none ∧ ys = none := by
    intro hno
    unfold setupOut at ho
    split at ho
    · rename_i d φ hX hφ
      exact absurd (hno d hX) (by simp [hφ])
    · split at ho
      · exact absurd ho (by simp)
      · simp only [Option.map_eq_some_iff, Prod.mk.injEq] at ho
        obtain ⟨_, _, _, h1, h2, _⟩ := ho
        exact ⟨h1.symm, h2.symm⟩
    · simp only [Option.map_eq_some_iff, Prod.mk.injEq] at ho
      obtain ⟨_, _, _, h1, h2, _⟩ := ho
      exact ⟨h1.symm, h2.symm⟩
  have hlv : (∃ d, a.X = .frame d ∧ P.formula = none) → ∃ x, lv = some x := by
    rintro ⟨d, hX, hφ⟩
    unfold setupOut at ho
    simp only [hX, hφ] at ho
    split at ho
    · exact absurd ho (by simp)
    · simp only [Option.map_eq_some_iff, Prod.mk.injEq] at ho
      obtain ⟨_, _, _, _, _, h1⟩ := ho
      exact ⟨_, h1.symm⟩
  have hmono0 : ¬ (P.mono = true ∧ (xs.orElse fun _ => ({} : Est E).xSpec).isNone = true) := by
    rintro ⟨h1, h2⟩
    obtain ⟨x, hx⟩ := hxs (hmono h1)
    rw [hx] at h2; simp at h2
  have hcore0 : P.core v (if P.mono then xs.orElse fun _ => ({} : Est E).xSpec else none) (if P.warmStart then ({} : Est E).coef else none)
      = .done al b c := by
    rw [hwarm]
    cases hmo : P.mono with
    | false => rw [hmo] at hc; exact hc
    | true =>
      obtain ⟨x, hx⟩ := hxs (hmono hmo)
      rw [hmo, hx] at hc
      rw [hx]; exact hc
  have hcov : (({} : Est E).fitted v xs ys lv f l al b c).covCompute P v none none P.robust P.expected a.clusters
      = (r.fitted v xs ys lv f l al b c).covCompute P v none none P.robust P.expected a.clusters :=
    covCompute_congr (l := l) rfl rfl rfl rfl rfl P v none none _ _ _
  -- the state of the fresh estimator
  have h0 : ∃ co, (r.fit P a).1 = { r.fitted v xs ys lv f l al b c with cov := co } ∧
      ({} : Est E).fit P a = ({ ({} : Est E).fitted v xs ys lv f l al b c with cov := co }, true) := by
    rcases hs with ⟨hst, hs⟩ | ⟨hst, V, hV, hs⟩
    · refine ⟨_, hs, fit_stored.2 ⟨hv, v, xs, ys, lv, f, l, al, b, c, ho, hf, hl, hy, hmono0, hcore0, Or.inl ⟨hst, rfl⟩⟩⟩
    · refine ⟨_, hs, fit_stored.2 ⟨hv, v, xs, ys, lv, f, l, al, b, c, ho, hf, hl, hy, hmono0, hcore0, Or.inr ⟨hst, V, ?_, rfl⟩⟩⟩
      rw [hcov]; exact hV
  obtain ⟨co, e1, e0⟩ := h0
  refine ⟨by rw [e0], ?_⟩
  simp only [e1, e0]
  have hpm : ∀ (P' P'' : Params E) (X : Mat) (off : Option (Fin X.nrows → ℝ)),
      ({ r.fitted v xs ys lv f l al b c with cov := co } : Est E).predictMat P' X off
        = ({ ({} : Est E).fitted v xs ys lv f l al b c with cov := co } : Est E).predictMat P'' X off :=
    fun P' P'' X off => predictMat_congr (l := l) rfl rfl rfl rfl P' P'' X off
  have hpred : ∀ (P' P'' : Params E) (X : XArg E) (off : Option (List ℝ)),
      ({ r.fitted v xs ys lv f l al b c with cov := co } : Est E).convert X
        = ({ ({} : Est E).fitted v xs ys lv f l al b c with cov := co } : Est E).convert X →
      ({ r.fitted v xs ys lv f l al b c with cov := co } : Est E).predict P' X off
        = ({ ({} : Est E).fitted v xs ys lv f l al b c with cov := co } : Est E).predict P'' X off := by
    intro P' P'' X off hX
    unfold Est.predict
    rw [hX]
    simp only [hpm P' P'']
  refine ⟨rfl, rfl, rfl, rfl, rfl, rfl, trivial, fun P' P'' X off => hpred P' P'' _ _ rfl, ?_, ?_, ?_⟩
  · intro hfr P' P'' d off
    obtain ⟨x, hx⟩ := hxs hfr
    refine hpred P' P'' _ _ ?_
    subst hx; rfl
  · intro hfr hno P' P'' d off
    obtain ⟨x, hx⟩ := hlv hfr
    obtain ⟨d0, hX0, hφ0⟩ := hfr
    have hn := hxs' fun _ _ => hφ0
    have hspec : r.xSpec = none := (run_specs h {} hno).1
    refine hpred P' P'' _ _ ?_
    obtain ⟨rfl, rfl⟩ := hn
    subst hx
    have e : (r.fitted v none none (some x) f l al b c).xSpec = none := hspec
    unfold Est.convert
    simp only [e]
    rfl
  · intro hno0 hno P' ca X hX
    obtain ⟨rfl, rfl⟩ := hxs' hno0
    have hspec := run_specs h ({} : Est E) hno
    have hy1 : (r.fitted v none none lv f l al b c).ySpec = none := hspec.2
    exact covarianceMatrix_congr (s := { r.fitted v none none lv f l al b c with cov := co })
      (t := { ({} : Est E).fitted v none none lv f l al b c with cov := co }) (l := l) rfl rfl rfl rfl rfl hy1 rfl rfl P' ca X hX

/-! ### The cached criteria -/

theorem run_info (h : List (Op E)) : ∀ (s : Est E) (i : Info), s.info = some i → s.coef.isSome = true →
    (s.run h).info = some i ∧ (s.run h).coef.isSome = true := by
  induction h with
  | nil => intro s i hi hc; exact ⟨hi, hc⟩
  | cons o t ih =>
    intro s i hi hc
    have hstep : (s.step o).info = some i ∧ (s.step o).coef.isSome = true := by
      cases o with
      | fit P a =>
        obtain ⟨h1, h2, _⟩ := fit_keeps s P a
        exact ⟨h1.trans hi, h2 hc⟩
      | cov P a =>
        rcases covarianceMatrix_keeps s P a with h | ⟨V, _, _, h⟩ <;> simp [Est.step, h, hi, hc]
      | info P k X y w =>
        rcases infoCriterion_state s P k X y w with h | ⟨i', h1 | h1, _, h⟩
        · simp [Est.step, h, hi, hc]
        · rw [hi, Option.some.injEq] at h1; subst h1; simp [Est.step, h, hc]
        · rw [hi] at h1; exact absurd h1.1 (by simp)
      | predict P X off => exact ⟨hi, hc⟩
    exact ih (s.step o) i hstep.1 hstep.2

/-- **C64, counterexample (F7).** The criteria are never recomputed: once `aic` has returned a value, every later `aic` call returns it,
whatever fits, data and hyperparameters lie in between. -/
theorem c64_stale_criteria_counterexample (s : Est E) (P P' : Params E) (X X' : XArg E) (y y' : List ℝ) (w w' : Option (List ℝ)) (v : ℝ)
    (hv : (s.infoCriterion P .aic X y w).2 = some v) (h : List (Op E)) :
    (((s.infoCriterion P .aic X y w).1.run h).infoCriterion P' .aic X' y' w').2 = some v := by
  have hst : ∃ i, (s.infoCriterion P .aic X y w).1.info = some i ∧ (s.infoCriterion P .aic X y w).1.coef.isSome = true ∧ i.aic = v := by
    unfold Est.infoCriterion at hv ⊢
    split at hv
    · exact absurd hv (by simp)
    · rename_i hc
      have hc' : s.coef.isSome = true := by
        cases h : s.coef with
        | none => exact absurd (by simp [h]) hc
        | some _ => rfl
      rw [if_neg hc]
      split at hv
      · exact absurd hv (by simp)
      · rename_i i hi
        simp only [Option.some.injEq] at hv
        exact ⟨i, rfl, hc', hv⟩
  obtain ⟨i, h1, h2, h3⟩ := hst
  obtain ⟨k1, k2⟩ := run_info h _ i h1 h2
  unfold Est.infoCriterion at k1 k2 ⊢
  rw [if_neg (by
    intro hn
    rw [Option.isNone_iff_eq_none] at hn
    rw [hn] at k2; exact absurd k2 (by simp))]
  rw [k1]
  simp [h3]

/-! ### C54 -/

/-- The definitions of Burnham and Anderson, for a log-likelihood `ll`, `k` parameters and `n` observations. -/
def Spec.aic (ll : ℝ) (k : ℕ) : ℝ := 2 * k - 2 * ll
def Spec.bic (ll : ℝ) (k n : ℕ) : ℝ := Real.log n * k - 2 * ll
def Spec.aicc (ll : ℝ) (k n : ℕ) : ℝ := Spec.aic ll k + 2 * k * (k + 1) / (n - k - 1)

/-- The number of effective parameters: the coefficients that are not (numerically) zero, and the intercept. -/
def Spec.effectiveParams (eps : ℝ) (fitIntercept : Bool) (coef : List ℝ) : ℕ :=
  open Classical in (Finset.univ.filter fun j : Fin coef.length => ¬ |coef[j]| ≤ eps).card + if fitIntercept then 1 else 0

theorem filter_length_card (p : ℝ → Bool) (l : List ℝ) :
    (l.filter p).length = (Finset.univ.filter fun j : Fin l.length => p l[j] = true).card := by
  induction l with
  | nil => simp
  | cons x t ih =>
    rw [Fin.univ_succ]
    simp only [List.length_cons, Finset.filter_cons, Finset.filter_map, List.filter_cons]
    have e : ((fun j : Fin (t.length + 1) => p (x :: t)[j] = true) ∘ ⇑(⟨Fin.succ, Fin.succ_injective _⟩ : Fin t.length ↪ Fin (t.length + 1)))
        = fun j : Fin t.length => p t[j] = true := by
      funext j; simp
    by_cases hx : p x = true
    · simp [hx, ih]
    · simp [hx, ih]

theorem kParams_eq (eps : ℝ) (ic : Bool) (c : List ℝ) : kParams eps ic c = Spec.effectiveParams eps ic c := by
  unfold kParams Spec.effectiveParams
  rw [filter_length_card]
  congr 1
  · congr 1
    ext j
    simp
  · cases ic <;> rfl

/-- No call in the history asks for a criterion. -/
def NoCriteria (h : List (Op E)) : Prop := ∀ P k X y w, Op.info P k X y w ∉ h

theorem run_no_info (h : List (Op E)) : ∀ s : Est E, NoCriteria h → (s.run h).info = s.info := by
  induction h with
  | nil => intro s _; rfl
  | cons o t ih =>
    intro s hn
    have hstep : (s.step o).info = s.info := by
      cases o with
      | fit P a => exact (fit_keeps s P a).1
      | cov P a => rcases covarianceMatrix_keeps s P a with h | ⟨V, _, _, h⟩ <;> simp [Est.step, h]
      | info P k X y w => exact absurd (List.mem_cons_self ..) (hn P k X y w)
      | predict P X off => rfl
    exact (ih (s.step o) fun P k X y w hm => hn P k X y w (List.mem_cons_of_mem _ hm)).trans hstep

/-- **C54 (partial: the first call, and models without offset).** After any history without an earlier request for a criterion, on data
with the number of training rows, the criteria are the textbook ones for the log-likelihood of the predictions of `predict(X)` (with the
estimated dispersion for families that have one) and the number of non-zero coefficients plus the intercept.  `aicc` raises if there are
not more observations than parameters plus one.  Missing: the predictions leave out the offset of the fit; a later call returns the
cached values; an `aicc` of exactly zero raises. -/
theorem c54_formulas_partial (h : List (Op E)) (hno : NoCriteria h) (P : Params E) (Xa : XArg E) (X : Mat)
    (hX : (({} : Est E).run h).convert Xa = some X) (mu yv : Fin X.nrows → ℝ) (w : Option (Fin X.nrows → ℝ))
    (hmu : (({} : Est E).run h).predict P Xa none = some (List.ofFn mu)) (f : Family) (hf : (({} : Est E).run h).family = some f)
    (b : ℝ) (c : List ℝ) (hc : (({} : Est E).run h).coef = some (b, c)) (hN : (({} : Est E).run h).numObs = some X.nrows) (ll : ℝ)
    (hll : f.logLik E.norm yv mu (w.getD fun _ => 1) (f.pearsonDispersion yv mu (w.getD fun _ => 1) 1) = some ll) :
    let s := ({} : Est E).run h
    let k := Spec.effectiveParams E.eps P.fitIntercept c
    (s.infoCriterion P .aic Xa (List.ofFn yv) (w.map List.ofFn)).2 = some (Spec.aic ll k) ∧
    (s.infoCriterion P .bic Xa (List.ofFn yv) (w.map List.ofFn)).2 = some (Spec.bic ll k X.nrows) ∧
    (k + 1 < X.nrows → Spec.aicc ll k X.nrows ≠ 0 →
      (s.infoCriterion P .aicc Xa (List.ofFn yv) (w.map List.ofFn)).2 = some (Spec.aicc ll k X.nrows)) ∧
    (X.nrows ≤ k + 1 ∨ Spec.aicc ll k X.nrows = 0 → (s.infoCriterion P .aicc Xa (List.ofFn yv) (w.map List.ofFn)).2 = none) := by
  intro s k
  have hs : s = ({} : Est E).run h := rfl
  rw [← hs] at hX hmu hf hc hN
  have hinfo : s.info = none := run_no_info h {} hno
  have hpm : s.predictMat P X none = some mu := by
    unfold Est.predict at hmu
    rw [hX] at hmu
    simp only [offsetFor, Option.bind_eq_bind, Option.bind_some] at hmu
    cases hp : s.predictMat P X none with
    | none => rw [hp] at hmu; exact absurd hmu (by simp)
    | some m =>
      rw [hp] at hmu
      simp only [Option.bind_some, Option.some.injEq] at hmu
      rw [List.ofFn_injective hmu]
  have hcomp : s.computeInfo P Xa (List.ofFn yv) (w.map List.ofFn) = some ⟨Spec.aic ll k,
      if k + 1 < X.nrows then some (Spec.aicc ll k X.nrows) else none, Spec.bic ll k X.nrows⟩ := by
    unfold Est.computeInfo
    have hfi : s.familyInstance P = some f := by unfold Est.familyInstance; rw [hf]; rfl
    have hlen : ¬ ((List.ofFn yv).length ≠ X.nrows ∨ ∃ v, w.map List.ofFn = some v ∧ v.length ≠ X.nrows) := by
      rintro (h1 | ⟨v, h1, h2⟩)
      · exact h1 (List.length_ofFn ..)
      · rw [Option.map_eq_some_iff] at h1
        obtain ⟨u, _, rfl⟩ := h1
        exact h2 (List.length_ofFn ..)
    have hy : (fun i : Fin X.nrows => (List.ofFn yv).getD i 0) = yv := by
      funext i; simp
    have hwv : (fun i : Fin X.nrows => ((w.map List.ofFn).map fun v => v.getD i 0).getD (1 : ℝ)) = w.getD fun _ => 1 := by
      funext i
      cases w with
      | none => rfl
      | some u => simp
    simp only [hfi, hc, hX, hN, Option.bind_eq_bind, Option.bind_some, ne_eq, not_true_eq_false, if_false, hpm]
    rw [if_neg hlen, hwv, hy, hll]
    simp only [Option.bind_some, kParams_eq, Option.some.injEq, Info.mk.injEq]
    refine ⟨?_, ?_, ?_⟩
    · unfold Spec.aic; ring
    · change (if k + 1 < X.nrows then _ else _) = _
      split
      · unfold Spec.aicc Spec.aic
        simp only [Option.some.injEq, add_left_inj]
        ring
      · rfl
    · unfold Spec.bic; ring
  have hcn : ¬ s.coef.isNone = true := by rw [hc]; simp
  unfold Est.infoCriterion
  simp only [hcn, hinfo, hcomp, Bool.false_eq_true, if_false]
  refine ⟨trivial, trivial, ?_, ?_⟩
  · intro h1 h2
    simp [h1, h2]
  · rintro (h1 | h1)
    · simp [not_lt.2 h1]
    · by_cases h2 : k + 1 < X.nrows
      · simp [h1, h2]
      · simp [h2]

/-- **C54, other data.** Data with another number of rows than the training data are rejected. -/
theorem c54_other_rows (h : List (Op E)) (hno : NoCriteria h) (P : Params E) (k : Crit) (Xa : XArg E) (y : List ℝ) (w : Option (List ℝ))
    (X : Mat) (hX : (({} : Est E).run h).convert Xa = some X) (N : ℕ) (hN : (({} : Est E).run h).numObs = some N) (hne : X.nrows ≠ N) :
    ((({} : Est E).run h).infoCriterion P k Xa y w).2 = none := by
  have hinfo : (({} : Est E).run h).info = none := run_no_info h {} hno
  have hcomp : (({} : Est E).run h).computeInfo P Xa y w = none := by
    unfold Est.computeInfo
    rw [hX, hN]
    cases (({} : Est E).run h).familyInstance P with
    | none => rfl
    | some f =>
      cases (({} : Est E).run h).coef with
      | none => rfl
      | some c => simp [hne]
  unfold Est.infoCriterion
  rw [hinfo]
  simp only [hcomp]
  split <;> rfl

/-- The order of the criteria: the small-sample correction is a penalty, and it vanishes as `n` grows. -/
theorem c54_aicc_ge_aic (ll : ℝ) (k n : ℕ) (h : k + 1 < n) : Spec.aic ll k ≤ Spec.aicc ll k n := by
  unfold Spec.aicc
  have : (0 : ℝ) < n - k - 1 := by
    have : ((k + 1 : ℕ) : ℝ) < n := by exact_mod_cast h
    push_cast at this; linarith
  have : (0 : ℝ) ≤ 2 * k * (k + 1) / (n - k - 1) := by positivity
  linarith

/-! ### C55 -/

theorem setupOut_mat {P : Params E} {a : FitArgs E} {X : Mat} (hX : a.X = .mat X) {v xs ys lv}
    (h : setupOut P a = some (v, xs, ys, lv)) : ∃ y, a.y = some y ∧ validate X y a.w a.off = some v ∧ ys = none := by
  unfold setupOut at h
  rw [hX] at h
  simp only [Option.map_eq_some_iff, Option.bind_eq_some_iff, Prod.mk.injEq] at h
  obtain ⟨v', ⟨y, hy, hv⟩, rfl, _, h2, _⟩ := h
  exact ⟨y, hy, hv, h2.symm⟩

theorem cov_lookup (s : Est E) (P : Params E) (V : Cov) (h : s.cov = some (some V)) : s.covarianceMatrix P {} = (s, some V) := by
  unfold Est.covarianceMatrix
  rw [h]
  simp [CovArgs.hasParams, WeightArg.isGiven]

/-- **C55, a fit without `store_covariance_matrix` leaves none.** `covariance_matrix()` then raises, whatever was stored before. -/
theorem c55_fit_resets (s : Est E) (P P' : Params E) (a : FitArgs E) (ca : CovArgs E) (hstore : a.store = false)
    (hok : (s.fit P a).2 = true) (hX : ca.X = none) : ((s.fit P a).1.covarianceMatrix P' ca) = ((s.fit P a).1, none) := by
  obtain ⟨hv, v, xs, ys, lv, f, l, al, b, c, ho, hf, hl, hy, hm, hc, hs⟩ :=
    fit_stored.1 (Prod.ext rfl hok : s.fit P a = ((s.fit P a).1, true))
  rcases hs with ⟨-, hs⟩ | ⟨h1, _⟩
  · have : (s.fit P a).1.cov = some none := by rw [hs]
    unfold Est.covarianceMatrix
    rw [this, hX]
    simp
  · rw [hstore] at h1; exact absurd h1 (by simp)

/-- **C55, a fit with `store_covariance_matrix`.** `covariance_matrix()` returns the matrix that `covariance_matrix(X, y, …)` computes from
the training data with the same options (histories without a formula). -/
theorem c55_fit_stores (h : List (Op E)) (hno : NoFormulaFit h) (P P' : Params E) (a : FitArgs E) (X : Mat) (hX : a.X = .mat X)
    (hstore : a.store = true) (hok : ((({} : Est E).run h).fit P a).2 = true) :
    let s := ((({} : Est E).run h).fit P a).1
    ∃ V, s.covarianceMatrix P' {} = (s, some V) ∧
      (s.covarianceMatrix P { X := some (.mat X), y := a.y, w := a.w, off := a.off, clusters := a.clusters }).2 = some V := by
  intro s
  set r := ({} : Est E).run h with hr
  obtain ⟨hv, v, xs, ys, lv, f, l, al, b, c, ho, hf, hl, hy, hm, hc, hs⟩ :=
    fit_stored.1 (Prod.ext rfl hok : r.fit P a = ((r.fit P a).1, true))
  rcases hs with ⟨h1, _⟩ | ⟨-, V, hV, hs⟩
  · rw [hstore] at h1; exact absurd h1 (by simp)
  · obtain ⟨y, hay, hval, rfl⟩ := setupOut_mat hX ho
    have hs' : s = { r.fitted v xs none lv f l al b c with cov := some (some V) } := hs
    have hcov : s.cov = some (some V) := by rw [hs']
    have hys : s.ySpec = none := by
      rw [hs']; exact (run_specs h {} hno).2
    refine ⟨V, ?_, ?_⟩
    · unfold Est.covarianceMatrix
      rw [hcov]
      simp [CovArgs.hasParams, WeightArg.isGiven]
    · have hest : s.estimate P { X := some (.mat X), y := a.y, w := a.w, off := a.off, clusters := a.clusters } = some V := by
        unfold Est.estimate
        simp only [hys, hay, Option.bind_eq_bind, Option.bind_some, Est.convert, hval, Option.getD_none]
        rw [← hV]
        exact covCompute_congr (l := l) (by rw [hs']; rfl) rfl (by rw [hs']) (by rw [hs']) (by rw [hs']) P v none none _ _ _
      unfold Est.covarianceMatrix
      rw [hcov]
      rw [hay] at hest
      simp [hay, hys, Est.estimateStore, hest]

/-- **C55, a call with `store_covariance_matrix`.** The matrix it returns is the one `covariance_matrix()` returns next. -/
theorem c55_call_stores (s : Est E) (P P' : Params E) (ca : CovArgs E) (V : Cov) (hst : ca.store = true)
    (h : (s.covarianceMatrix P ca).2 = some V) :
    (s.covarianceMatrix P ca).1.covarianceMatrix P' {} = ((s.covarianceMatrix P ca).1, some V) := by
  have key : (s.covarianceMatrix P ca).1.cov = some (some V) := by
    have hes : ∀ V, (s.estimateStore P ca).2 = some V → (s.estimateStore P ca).1.cov = some (some V) := by
      intro V hV
      unfold Est.estimateStore at hV ⊢
      cases he : s.estimate P ca with
      | none => rw [he] at hV; exact absurd hV (by simp)
      | some V' =>
        rw [he] at hV
        simp only [Option.some.injEq] at hV
        simp [hst, hV]
    unfold Est.covarianceMatrix at h ⊢
    simp only [hst, Bool.or_true, Bool.and_true, if_true] at h ⊢
    split at h
    · exact absurd h (by simp)
    · rename_i c hc
      split at h
      · exact absurd h (by simp)
      · rename_i h1
        split at h
        · exact absurd h (by simp)
        · rename_i h2
          split at h
          · rename_i h3
            simp only [Bool.and_eq_true] at h3
            rw [h3.1] at h2; simp at h2
          · rename_i h3
            rw [if_neg h1, if_neg h2, if_neg h3]
            exact hes V h
  exact cov_lookup _ P' V key

/-- A call that neither fits nor stores a matrix: every query, a `covariance_matrix` call without `store_covariance_matrix` or one that
raises, a fit without `store_covariance_matrix` that raises. -/
def Op.quiet (s : Est E) : Op E → Prop
  | .fit P a => (s.fit P a).2 = false ∧ a.store = false
  | .cov P a => a.store = false ∨ (s.covarianceMatrix P a).2 = none
  | .info _ _ _ _ _ => True
  | .predict _ _ _ => True

/-- Every call of the history is quiet in the state in which it is made. -/
def quietRun : Est E → List (Op E) → Prop
  | _, [] => True
  | s, o :: t => o.quiet s ∧ quietRun (s.step o) t

theorem fit_false_cov (s : Est E) (P : Params E) (a : FitArgs E) (hst : a.store = false) (h : (s.fit P a).2 = false) :
    (s.fit P a).1.cov = s.cov := by
  obtain ⟨h1, h2, h3, h4⟩ := setup_keeps s P a
  have key : ∀ r, s.fit P a = r → r.2 = false → r.1.cov = s.cov := by
    intro r hr
    unfold Est.fit at hr
    split at hr
    · subst hr; exact fun _ => rfl
    · split at hr
      · rename_i s1 hs
        rw [hs] at h3
        subst hr; exact fun _ => h3
      · rename_i s1 v hs
        rw [hs] at h3
        split at hr
        · subst hr; exact fun _ => h3
        · simp only [] at hr
          split at hr
          · subst hr; exact fun _ => h3
          · split at hr
            · subst hr; exact fun _ => h3
            · split at hr
              · subst hr; exact fun _ => h3
              · split at hr
                · subst hr; exact fun _ => h3
                · subst hr; exact fun _ => h3
                · subst hr
                  intro h
                  unfold Est.finishFit at h
                  simp [hst] at h
  exact key _ rfl h

/-- **C55, nothing else changes the stored matrix.** Through every history of calls that neither fit nor store, `covariance_matrix()` gives
the same result, and so does the reset state. -/
theorem c55_stored_stays (P : Params E) (h : List (Op E)) : ∀ s : Est E, quietRun s h →
    ((s.run h).covarianceMatrix P {}).2 = (s.covarianceMatrix P {}).2 := by
  have key : ∀ (h : List (Op E)) (s : Est E), quietRun s h → (s.run h).cov = s.cov := by
    intro h
    induction h with
    | nil => intro s _; rfl
    | cons o t ih =>
      rintro s ⟨ho, ht⟩
      have hstep : (s.step o).cov = s.cov := by
        cases o with
        | fit P a => exact fit_false_cov s P a ho.2 ho.1
        | cov P a =>
          rcases covarianceMatrix_keeps s P a with h | ⟨V, h1, h2, h⟩
          · simp [Est.step, h]
          · rcases ho with ho | ho
            · rw [h1] at ho; exact absurd ho (by simp)
            · rw [h2] at ho; exact absurd ho (by simp)
        | info P k X y w => rcases infoCriterion_state s P k X y w with h | ⟨i, _, _, h⟩ <;> simp [Est.step, h]
        | predict P X off => rfl
      exact (ih _ ht).trans hstep
  intro s hq
  have := key h s hq
  unfold Est.covarianceMatrix
  rw [this]
  cases s.cov with
  | none => simp
  | some c => cases c <;> simp [CovArgs.hasParams, WeightArg.isGiven]

/-- **C55, arguments without data.** Without `X` and `y`, options that would change the estimate and `store_covariance_matrix` are rejected
instead of being ignored. -/
theorem c55_no_silent_options (s : Est E) (P : Params E) (ca : CovArgs E) (hX : ca.X = none) (hy : ca.y = none)
    (h : ca.hasParams = true ∨ ca.store = true) : s.covarianceMatrix P ca = (s, none) := by
  unfold Est.covarianceMatrix
  rw [hX, hy]
  cases s.cov with
  | none => simp
  | some c =>
    cases c with
    | none => simp
    | some V =>
      rcases h with h | h <;> simp [h]

/-! ### A concrete world: counterexamples and reachability of the hypotheses -/

/-- One row, one column with the value `x`. -/
def demoMat (x : ℝ) : Mat := ⟨1, 1, fun _ _ => x, ["x"]⟩

/-- One data frame; its column is 1, the formula's column (say `2*x`) is 2. -/
def demoEnv : Env where
  Frame := Unit
  Formula := Unit
  XSpec := Unit
  YSpec := Unit
  Levels := Unit
  yOfFormula _ _ := some none
  xOfFormula _ _ := some ((), demoMat 2, true)
  ySpecVec _ _ := some [1]
  xSpecMat _ _ := some (demoMat 2)
  levelsOf _ := ()
  fromFrame _ := some (demoMat 1)
  alignFrame _ _ := some (demoMat 1)
  rawFrame _ := some (demoMat 1)
  condOK _ := true
  e50 := 0
  norm _ _ _ := 0
  eps := 0

/-- Hyperparameters with which every fit gives intercept `b` and coefficient `c`; `neg`: negative responses are rejected. -/
def demoParams (f : Family) (l : Link) (formula : Option Unit) (b c : ℝ) (yOK : List ℝ → Bool) : Params demoEnv where
  valid := true
  family := some f
  link _ := some l
  yOK := yOK
  fitIntercept := true
  formula := formula
  mono := false
  warmStart := false
  robust := true
  expected := false
  core _ _ _ := .done none b [c]

/-- A fit on the data frame, and one on the matrix with entry 1. -/
def demoFrameArgs : FitArgs demoEnv := ⟨.frame (), some [1], .none, none, false, none⟩
def demoMatArgs : FitArgs demoEnv := ⟨.mat (demoMat 1), some [1], .none, none, false, none⟩

theorem demo_validate (x : ℝ) : validate (demoMat x) [1] .none none = some ⟨demoMat x, fun i => [(1 : ℝ)].getD i 0, fun _ => 1, none⟩ := by
  unfold validate
  rw [if_neg (by simp [demoMat])]
  rfl

theorem demo_fit_mat (s : Est demoEnv) (f : Family) (l : Link) (formula : Option Unit) (b c : ℝ) :
    s.fit (demoParams f l formula b c fun _ => true) demoMatArgs =
      ({ s with nFeatures := some 1, names := some ["x"], family := some f, link := some l, numObs := some 1, coef := some (b, [c]),
                cov := some none }, true) := by
  refine fit_stored.2 ⟨rfl, ⟨demoMat 1, fun i => [(1 : ℝ)].getD i 0, fun _ => 1, none⟩, none, none, none, f, l, none, b, [c], ?_, rfl, rfl, rfl, by simp [demoParams], rfl, Or.inl ⟨rfl, rfl⟩⟩
  unfold setupOut
  simp only [demoMatArgs, Option.bind_some, demo_validate]
  rfl

theorem demo_fit_plain (s : Est demoEnv) (f : Family) (l : Link) (b c : ℝ) :
    s.fit (demoParams f l none b c fun _ => true) demoFrameArgs =
      ({ s with levels := some (), nFeatures := some 1, names := some ["x"], family := some f, link := some l, numObs := some 1,
                coef := some (b, [c]), cov := some none }, true) := by
  refine fit_stored.2 ⟨rfl, ⟨demoMat 1, fun i => [(1 : ℝ)].getD i 0, fun _ => 1, none⟩, none, none, some (), f, l, none, b, [c], ?_, rfl, rfl, rfl, by simp [demoParams], rfl, Or.inl ⟨rfl, rfl⟩⟩
  unfold setupOut
  simp only [demoFrameArgs, demoParams, demoEnv, Option.bind_some, demo_validate]
  rfl

theorem demo_fit_formula (s : Est demoEnv) (f : Family) (l : Link) (b c : ℝ) :
    s.fit (demoParams f l (some ()) b c fun _ => true) demoFrameArgs =
      ({ s with xSpec := some (), nFeatures := some 1, names := some ["x"], family := some f, link := some l, numObs := some 1,
                coef := some (b, [c]), cov := some none }, true) := by
  refine fit_stored.2 ⟨rfl, ⟨demoMat 2, fun i => [(1 : ℝ)].getD i 0, fun _ => 1, none⟩, some (), none, none, f, l, none, b, [c], ?_, rfl, rfl, rfl, by simp [demoParams], rfl, Or.inl ⟨rfl, rfl⟩⟩
  unfold setupOut
  simp only [demoFrameArgs, demoParams, demoEnv, Option.bind_some, demo_validate]
  rfl

/-- **C64, counterexample (F12).** The model spec of an earlier formula fit survives a refit without formula: predictions on the training
data frame then use the design matrix of the old formula.  Here the second fit, `2·x`-formula first and plain second, predicts 2 where a
fresh estimator predicts 1. -/
theorem c64_stale_formula_counterexample :
    let P1 := demoParams .normal .identity (some ()) 0 1 fun _ => true
    let P2 := demoParams .normal .identity none 0 1 fun _ => true
    let s := ((({} : Est demoEnv).fit P1 demoFrameArgs).1.fit P2 demoFrameArgs)
    s.2 = true ∧ s.1.predict P2 (.frame ()) none = some [2] ∧
      (({} : Est demoEnv).fit P2 demoFrameArgs).1.predict P2 (.frame ()) none = some [1] := by
  intro P1 P2 s
  refine ⟨?_, ?_, ?_⟩
  · simp only [s, P1, P2, demo_fit_formula, demo_fit_plain]
  · simp only [s, P1, P2, demo_fit_formula, demo_fit_plain]
    simp [Est.predict, Est.convert, Est.predictMat, Est.linkInstance, offsetFor, demoEnv, demoMat, Link.inverse]
  · simp only [P2, demo_fit_plain]
    simp [Est.predict, Est.convert, Est.predictMat, Est.linkInstance, offsetFor, demoEnv, demoMat, Link.inverse]

/-- **C64, counterexample.** A fit that raises is not atomic: it may leave the new link with the old coefficients.  Here a model with identity
link predicts 1; a refit with log link that rejects its response leaves it predicting `exp 1`. -/
theorem c64_failed_fit_counterexample :
    let P1 := demoParams .normal .identity none 0 1 fun _ => true
    let P2 := demoParams .poisson .log none 0 1 fun _ => false
    let s1 := (({} : Est demoEnv).fit P1 demoMatArgs).1
    let s2 := s1.fit P2 demoMatArgs
    s2.2 = false ∧ s1.predict P2 (.mat (demoMat 1)) none = some [1] ∧ s2.1.predict P2 (.mat (demoMat 1)) none = some [Real.exp 1] := by
  intro P1 P2 s1 s2
  have h1 : s1 = { ({} : Est demoEnv) with nFeatures := some 1, names := some ["x"], family := some .normal, link := some .identity,
                                           numObs := some 1, coef := some (0, [1]), cov := some none } := by
    simp only [s1, P1, demo_fit_mat]
  have hset : s1.setup P2 demoMatArgs = ({ s1 with nFeatures := some 1, names := some ["x"] }, some ⟨demoMat 1, fun i => [(1 : ℝ)].getD i 0, fun _ => 1, none⟩) := by
    refine setup_some.2 ⟨none, none, none, ?_, rfl⟩
    unfold setupOut
    simp only [demoMatArgs, Option.bind_some, demo_validate]
    rfl
  have h2 : s2 = ({ s1 with family := some .poisson, link := some .log, numObs := some 1 }, false) := by
    simp only [s2]
    unfold Est.fit
    rw [hset]
    simp only [P2, demoParams, if_true, Bool.true_eq_false, if_false]
    rw [h1]
    rfl
  refine ⟨by rw [h2], ?_, ?_⟩
  · rw [h1]
    simp [Est.predict, Est.convert, Est.predictMat, Est.linkInstance, offsetFor, demoEnv, demoMat, Link.inverse]
  · rw [h2, h1]
    simp [Est.predict, Est.convert, Est.predictMat, Est.linkInstance, offsetFor, demoEnv, demoMat, Link.inverse]

/-- The hypotheses of `c64_latest_fit_partial` are met, with a history that contains a formula fit and a criterion call. -/
example : ∃ (h : List (Op demoEnv)) (P : Params demoEnv) (a : FitArgs demoEnv), h.length = 2 ∧ P.warmStart = false ∧ P.mono = false ∧
    ((({} : Est demoEnv).run h).fit P a).2 = true :=
  ⟨[.fit (demoParams .normal .identity (some ()) 0 1 fun _ => true) demoFrameArgs,
    .info (demoParams .normal .identity (some ()) 0 1 fun _ => true) .aic (.frame ()) [1] none],
   demoParams .normal .identity none 0 1 fun _ => true, demoFrameArgs, rfl, rfl, rfl, by rw [demo_fit_plain]⟩

/-- The Poisson log-likelihood of one observation `y = 1`. -/
theorem demo_loglik (norm : ℝ → ℝ → ℝ → ℝ) (mu : Fin 1 → ℝ) (d : ℝ) :
    Family.logLik norm .poisson (fun _ : Fin 1 => (1 : ℝ)) mu (fun _ => 1) d = some (Real.log (mu 0) - mu 0) := by
  unfold Family.logLik poissonLogLik lgamma
  have : Real.Gamma (1 + 1) = 1 := by rw [Real.Gamma_add_one one_ne_zero, Real.Gamma_one, mul_one]
  simp [this]
  ring

/-- The `aic` of the demo model with intercept `b` and coefficient 0: `2·(e^b - b) + 2`. -/
theorem demo_aic (s : Est demoEnv) (hs : s.info = none) (b : ℝ) :
    let P := demoParams .poisson .log none b 0 fun _ => true
    ((s.fit P demoMatArgs).1.infoCriterion P .aic (.mat (demoMat 1)) [1] none).2 = some (2 * (Real.exp b - b) + 2) := by
  intro P
  simp only [P, demo_fit_mat]
  unfold Est.infoCriterion Est.computeInfo
  simp only [Option.isNone_some, Bool.false_eq_true, if_false, hs, Est.familyInstance, Option.orElse_some, Est.convert, demoMat,
    Est.predictMat, Est.linkInstance, Option.bind_eq_bind, Option.bind_some, ne_eq, not_true_eq_false, List.length_singleton,
    Option.map_some, Option.map_none, Option.getD_none]
  have hy : (fun i : Fin 1 => [(1 : ℝ)].getD i 0) = fun _ => 1 := by funext i; simp
  simp only [hy]
  rw [if_neg (by simp)]
  rw [demo_loglik]
  simp [kParams, Link.inverse, demoEnv, demoParams]
  ring

/-- The staleness is observable: with `aic` asked for after each of two fits (intercepts 0 and 1) the second answer is the first one's,
although a fresh estimator would give another value. -/
example :
    let P0 := demoParams .poisson .log none 0 0 fun _ => true
    let P1 := demoParams .poisson .log none 1 0 fun _ => true
    let s1 := (({} : Est demoEnv).fit P0 demoMatArgs).1
    (((s1.infoCriterion P0 .aic (.mat (demoMat 1)) [1] none).1.run [.fit P1 demoMatArgs]).infoCriterion P1 .aic (.mat (demoMat 1)) [1] none).2
        = some 4 ∧
      ((({} : Est demoEnv).fit P1 demoMatArgs).1.infoCriterion P1 .aic (.mat (demoMat 1)) [1] none).2 = some (2 * (Real.exp 1 - 1) + 2) ∧
      2 * (Real.exp 1 - 1) + 2 ≠ 4 := by
  intro P0 P1 s1
  refine ⟨c64_stale_criteria_counterexample s1 P0 P1 _ _ _ _ _ _ 4 ?_ _, demo_aic {} rfl 1, ?_⟩
  · have := demo_aic {} rfl 0
    simp only [Real.exp_zero, sub_zero] at this
    rw [show (4 : ℝ) = 2 * 1 + 2 by norm_num]
    exact this
  · have := Real.add_one_lt_exp (x := 1) one_ne_zero
    intro h; linarith

/-- **C54, counterexample (F7).** The criteria ignore the offset of the fit: they take no offset and predict without it.  For the Poisson
model with intercept 0 and one observation `y = 1` fitted with offset 1, the log-likelihood of the fitted means is `1 - e`, so Akaike's
criterion is `2·(e - 1) + 2`, but `aic` returns 4. -/
theorem c54_offset_counterexample :
    let P := demoParams .poisson .log none 0 0 fun _ => true
    let a : FitArgs demoEnv := { demoMatArgs with off := some [1] }
    let s := (({} : Est demoEnv).fit P a).1
    (({} : Est demoEnv).fit P a).2 = true ∧ s.predict P (.mat (demoMat 1)) (some [1]) = some [Real.exp 1] ∧
      (s.infoCriterion P .aic (.mat (demoMat 1)) [1] none).2 = some 4 ∧
      Spec.aic (Real.log (Real.exp 1) - Real.exp 1) (Spec.effectiveParams 0 true [0]) ≠ 4 := by
  intro P a s
  have hf : ({} : Est demoEnv).fit P a = ({} : Est demoEnv).fit P demoMatArgs := by
    have e : ({} : Est demoEnv).fit P a = (({ nFeatures := some 1, names := some ["x"], family := some .poisson,
                                              link := some .log, numObs := some 1, coef := some (0, [0]), cov := some none } : Est demoEnv), true) := by
      refine fit_stored.2 ⟨rfl, ⟨demoMat 1, fun i => [(1 : ℝ)].getD i 0, fun _ => 1, some fun i => [(1 : ℝ)].getD i 0⟩, none, none, none,
        .poisson, .log, none, 0, [0], ?_, rfl, rfl, rfl, by simp [P, demoParams], rfl, Or.inl ⟨rfl, rfl⟩⟩
      unfold setupOut validate
      simp [a, demoMatArgs, demoMat, checkWeights]
    rw [e, demo_fit_mat]
  have hs : s = (({} : Est demoEnv).fit P demoMatArgs).1 := by rw [← hf]
  refine ⟨by rw [hf, demo_fit_mat], ?_, ?_, ?_⟩
  · rw [hs, demo_fit_mat]
    simp [Est.predict, Est.convert, Est.predictMat, Est.linkInstance, offsetFor, demoEnv, demoMat, Link.inverse]
  · rw [hs]
    have := demo_aic {} rfl 0
    simp only [Real.exp_zero, sub_zero] at this
    rw [show (4 : ℝ) = 2 * 1 + 2 by norm_num]
    exact this
  · have h1 := Real.add_one_lt_exp (x := 1) one_ne_zero
    have : Spec.effectiveParams 0 true [0] = 1 := by simp [Spec.effectiveParams]
    rw [this, Real.log_exp]
    unfold Spec.aic
    intro h
    push_cast at h
    linarith

/-- Three rows of ones. -/
def demoMat3 : Mat := ⟨3, 1, fun _ _ => 1, ["x"]⟩

/-- Normal family, no intercept, non-robust covariance; the fit gives the coefficient 1. -/
def demoParams3 : Params demoEnv :=
  { demoParams .normal .identity none 0 1 (fun _ => true) with fitIntercept := false, robust := false }

def demoArgs3 (store : Bool) : FitArgs demoEnv := ⟨.mat demoMat3, some [0, 1, 2], .none, none, store, none⟩

def demoValid3 : Valid := ⟨demoMat3, fun i => [(0 : ℝ), 1, 2].getD i 0, fun _ => 1, none⟩

/-- The state reached before the covariance matrix is stored. -/
def demoState3 : Est demoEnv := ({} : Est demoEnv).fitted demoValid3 none none none .normal .identity none 0 [1]

theorem demo_cov3 : ∃ V, demoState3.covCompute demoParams3 demoValid3 none none false false none = some V := by
  have hpm : demoState3.predictMat demoParams3 demoMat3 none = some fun _ => 1 := by
    simp only [demoState3, Est.fitted, Est.written, Est.predictMat, Est.linkInstance, demoMat3, demoValid3]
    simp [Link.inverse]
  have hcov : ∃ V, covariance (n := 3) (p := 1) (ic := false)
      ⟨.normal, .identity, fun _ _ => 1, fun i => [(0 : ℝ), 1, 2].getD i 0, fun _ => 1, fun _ => 1⟩ ⟨false, false, none, none⟩ true = some V := by
    have hd : dispersionPearson .normal (fun i : Fin 3 => [(0 : ℝ), 1, 2].getD i 0) (fun _ => 1) (fun _ => 1) ((1 : ℕ) + (0 : ℕ)) = 1 := by
      simp [dispersionPearson, Fin.sum_univ_three, Family.unitVariance]
      norm_num
    have hW : ∀ i : Fin 3, fisherW .normal .identity 1 1 1 = 1 := by
      intro i
      simp [fisherW, oneOverVariance, Family.unitVariance, Link.inverseDerivative]
    unfold covariance
    simp only [Bool.true_eq_false, if_false, Bool.false_eq_true, Option.isSome_none, or_self, CovData.disp, Option.getD_none]
    have hb : (Bool.toNat false) = 0 := rfl
    simp only [hb]
    rw [hd]
    simp only [hW 0]
    have hu : IsUnit (sandwichMatrix 1 false (fun _ : Fin 3 => fun _ : ℕ => (1 : ℝ)) fun _ => 1).det := by
      have : sandwichMatrix 1 false (fun _ : Fin 3 => fun _ : ℕ => (1 : ℝ)) (fun _ => 1) = Matrix.of fun _ _ => (3 : ℝ) := by
        ext a b
        simp [sandwichMatrix, safeSandwichDot]
      rw [this]
      have h1 : (Matrix.of fun (_ _ : Fin (1 + false.toNat)) => (3 : ℝ)).det = 3 := Matrix.det_fin_one (Matrix.of fun (_ _ : Fin 1) => (3 : ℝ))
      rw [h1]
      exact isUnit_iff_ne_zero.2 (by norm_num)
    unfold linSolve
    simp only [hu, if_true]
    exact ⟨_, rfl⟩
  obtain ⟨V, hV⟩ := hcov
  refine ⟨⟨_, V⟩, ?_⟩
  unfold Est.covCompute
  have hf : demoState3.family = some .normal := rfl
  have hl : demoState3.link = some .identity := rfl
  have hn : demoState3.nFeatures = some 1 := rfl
  rw [hf, hl, hn]
  have hpm' : demoState3.predictMat demoParams3 demoValid3.X demoValid3.off = some fun _ => 1 := hpm
  simp only [Option.bind_eq_bind, Option.bind_some, hpm']
  exact congrArg (fun o => Option.bind o fun V => some (⟨_, V⟩ : Cov)) hV

/-- The hypotheses of `c55_fit_stores` and `c55_fit_resets` are met: both fits return. -/
example : (({} : Est demoEnv).fit demoParams3 (demoArgs3 true)).2 = true ∧ (({} : Est demoEnv).fit demoParams3 (demoArgs3 false)).2 = true := by
  have hset : ∀ b, setupOut demoParams3 (demoArgs3 b) = some (demoValid3, none, none, none) := by
    intro b
    simp [setupOut, demoArgs3, validate, demoMat3, checkWeights, demoValid3]
  obtain ⟨V, hV⟩ := demo_cov3
  constructor
  · have : ({} : Est demoEnv).fit demoParams3 (demoArgs3 true) = ({ demoState3 with cov := some (some V) }, true) :=
      fit_stored.2 ⟨rfl, demoValid3, none, none, none, .normal, .identity, none, 0, [1], hset true, rfl, rfl, rfl,
        by simp [demoParams3, demoParams], rfl, Or.inr ⟨rfl, V, hV, rfl⟩⟩
    rw [this]
  · have : ({} : Est demoEnv).fit demoParams3 (demoArgs3 false) = ({ demoState3 with cov := some none }, true) :=
      fit_stored.2 ⟨rfl, demoValid3, none, none, none, .normal, .identity, none, 0, [1], hset false, rfl, rfl, rfl,
        by simp [demoParams3, demoParams], rfl, Or.inl ⟨rfl, rfl⟩⟩
    rw [this]

end

end Glum
