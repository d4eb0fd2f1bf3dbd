import Verif.Props.Fit
import Verif.Props.CV
/-
Theorems added after mutation testing of `fit`: exactly when it returns (C70), and the alphas of the CV estimator (C60).
-/
set_option linter.unusedSectionVars false
set_option linter.unusedVariables false
set_option linter.unusedSimpArgs false

namespace Glum

noncomputable section

variable {n p : ℕ} {ic : Bool}

theorem solvePath_len {σ : Type} (solve : SolveFn σ p ic) (P1 : ℕ → ℝ) (P2 : Pen2 ℝ) (l : List ℝ) :
    ∀ (s : σ) (c : Fin (p + ic.toNat) → ℝ), (solvePath solve P1 P2 l s c).2.length = l.length := by
  induction l with
  | nil => intro s c; rfl
  | cons a t ih => intro s c; simp [solvePath, ih]

/-- **C70, when a fit returns.** A fit with one alpha returns exactly if no lower bound exceeds its upper bound (equal bounds are fine),
`P1` and `P2` have an accepted form, `P2` passes the test of positive semidefiniteness (when that is made), and the starting intercept can
be computed.  Otherwise it raises. -/
theorem c70_returns_iff {σ : Type} (C : FitCfg p ic) (stats : Stats) (solver : SolverFn σ p ic) (R : Rows n) (l1r alpha : ℝ) (s : σ) :
    (∃ r, glmFit C stats solver R l1r (.single alpha) s = some r) ↔
      (∀ l u, C.lb = some l → C.ub = some u → ∀ j < p, l j ≤ u j) ∧ setupP1 p 1 l1r C.P1a ≠ none ∧
      (∃ P2, setupP2 p C.xsp 1 l1r C.P2a = some P2 ∧ C.p2ok P2 = true) ∧ startGuess C R ≠ none := by
  have hbad : C.boundsBad ↔ ¬ ∀ l u, C.lb = some l → C.ub = some u → ∀ j < p, l j ≤ u j := by
    unfold FitCfg.boundsBad
    push Not
    constructor
    · rintro ⟨l, u, hl, hu, j, hj, h⟩; exact ⟨l, u, hl, hu, j, hj, h⟩
    · rintro ⟨l, u, hl, hu, j, hj, h⟩; exact ⟨l, u, hl, hu, j, hj, h⟩
  unfold glmFit
  by_cases hb : C.boundsBad
  · rw [if_pos hb]
    constructor
    · rintro ⟨r, h⟩; cases h
    · rintro ⟨h, -⟩; exact absurd h (hbad.1 hb)
  · rw [if_neg hb]
    have hb' : ∀ l u, C.lb = some l → C.ub = some u → ∀ j < p, l j ≤ u j := by
      by_contra h; exact hb (hbad.2 h)
    simp only [Option.bind_eq_bind]
    cases h2 : setupP2 p C.xsp 1 l1r C.P2a with
    | none => simp
    | some P2 =>
      simp only [Option.bind_some]
      by_cases hp : C.p2ok P2 = false
      · rw [if_pos hp]
        constructor
        · rintro ⟨r, h⟩; cases h
        · rintro ⟨-, -, ⟨P2', e, h⟩, -⟩
          rw [Option.some.injEq] at e
          rw [← e, hp] at h; cases h
      · rw [if_neg hp]
        cases h1 : setupP1 p 1 l1r C.P1a with
        | none => simp [prepare, h1]
        | some P1 =>
          cases hg : startGuess C R with
          | none => simp [prepare, h1, h2, hg]
          | some g =>
            simp only [prepare, h1, h2, hg, Option.bind_eq_bind, Option.bind_some, AlphaSpec.eval]
            refine ⟨fun _ => ⟨hb', by simp, ⟨P2, rfl, by simpa using hp⟩, by simp⟩, fun _ => ?_⟩
            simp [Prepared.path, solvePath, storePath]

/-- The case of equal bounds: a coefficient fixed at 2. -/
example (stats : Stats) : ∃ r, glmFit { fitEx with lb := some fun _ => 2, ub := some fun _ => 2 } stats idealSolver fitExRows 0
    (.single 1) () = some r := by
  refine (c70_returns_iff _ stats idealSolver fitExRows 0 1 ()).2 ⟨?_, ?_, ?_, ?_⟩
  · intro l u hl hu j _
    simp only [Option.some.injEq] at hl hu
    rw [← hl, ← hu]
  · simp [fitEx, setupP1]
  · exact ⟨_, rfl, rfl⟩
  · simp [startGuess]

/-- **C60, the alphas of the CV estimator.** Without given alphas, the path for each l1 ratio is the one that the plain estimator with
`alpha_search` and that l1 ratio uses on the same (full) data. -/
theorem c60_paths_fit {σ : Type} (C : FitCfg p ic) (stats : Stats) (solver : SolverFn σ p ic) (R : Rows n) (l1s : List ℝ) (k : ℕ)
    (m q : Option ℝ) (alphass : List (List ℝ)) (h : cvAlphas C stats R l1s none k m q = some alphass) (i : ℕ) (hi : i < l1s.length)
    (hi' : i < alphass.length) (s s' : σ) (r : PathResult)
    (hfit : glmFit C stats solver R l1s[i] (.search k m q) s = some (s', r)) : alphass[i] = r.alphas := by
  unfold cvAlphas at h
  rw [mapM_forall2] at h
  have hel := (List.forall₂_iff_get.1 h).2 i hi hi'
  simp only [List.get_eq_getElem] at hel
  obtain ⟨Q, hQ, ha, -⟩ := glmFit_spec C stats solver R _ _ s s' r hfit
  simp only [AlphaSpec.eval, Prepared.alphas] at ha
  unfold prepare at hQ
  simp only [Option.bind_eq_bind] at hQ hel
  cases h1 : setupP1 p 1 l1s[i] C.P1a with
  | none => rw [h1] at hQ; simp at hQ
  | some P1 =>
    cases h2 : setupP2 p C.xsp 1 l1s[i] C.P2a with
    | none => rw [h1, h2] at hQ; simp at hQ
    | some P2 =>
      rw [h1, h2] at hQ hel
      simp only [Option.bind_some] at hQ hel
      cases hg : startGuess C R with
      | none => rw [hg] at hQ; simp at hQ
      | some g =>
        rw [hg] at hQ
        simp only [Option.bind_some, Option.some.injEq] at hQ
        subst hQ
        have := hel.symm.trans ha
        exact Option.some.inj this

end
end Glum
