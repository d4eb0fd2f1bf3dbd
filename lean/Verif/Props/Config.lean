import Verif.Model.Config
import Mathlib.Tactic.Linarith
import Mathlib.Tactic.NormNum
/-
C38: which solver is run for which request.
-/
set_option linter.unusedSectionVars false
set_option linter.unusedVariables false

namespace Glum

/-- What each solver takes into account (from the solvers' documentation and code): L1 penalties and bounds only coordinate descent,
inequality constraints only trust-constr and the monotone solver. -/
def Spec.honoursL1 (s : Solver) : Prop := s = .irlsCd
def Spec.honoursBounds (s : Solver) : Prop := s = .irlsCd
def Spec.honoursIneq (s : Solver) : Prop := s = .trustConstr ∨ s = .irlsLsMonotonic

/-- A plain request (scalar alpha, no L1 penalty, no constraints), the base of the witnesses below. -/
noncomputable def plainCfg : Config where
  cv := false
  solver := .auto
  normalIdentity := false
  alphaSearch := false
  alpha := .scalar 1
  l1Ratios := [0]
  p1Nonzero := true
  lb := false
  ub := false
  A := false
  b := false
  mono := false
  formula := false
  fitIntercept := true
  scalePredictors := false

/-- **C38, inequality constraints (full).** A fit with inequality or monotonicity constraints runs a solver that honours them, or
raises. -/
theorem c38_inequality (c : Config) (path : List ℝ) (s : Solver) (h : c.run path = some s)
    (hA : c.A = true ∨ c.b = true ∨ c.mono = true) : Spec.honoursIneq s := by
  unfold Config.run at h
  split at h
  · simp at h
  rename_i hv
  rw [not_not] at hv
  obtain ⟨-, -, -, ho, -, -, h3, h4, -, -, hAb, -⟩ := hv
  cases hch : c.choose with
  | none => rw [hch] at h; simp at h
  | some s' =>
    rw [hch] at h
    simp only [] at h
    have hs : s' = s := by
      split at h
      · simp at h
      · split at h
        · simp at h
        · split at h
          · simp at h
          · simpa using h
    subst hs
    unfold Config.choose at hch
    unfold Spec.honoursIneq
    rcases hA with hA | hA | hA
    · have hb : c.b = true := by rw [← hAb]; exact hA
      rw [not_and, not_not] at h3
      rcases h3 (Or.inl hA) with e | e | e
      · rw [e] at hch
        simp only [hA, hb, and_self, if_true] at hch
        split at hch <;> simp at hch <;> simp [← hch]
      · rw [e] at hch; simp at hch; simp [← hch]
      · rw [e] at hch; simp at hch; simp [← hch]
    · have hb : c.A = true := by rw [hAb]; exact hA
      rw [not_and, not_not] at h3
      rcases h3 (Or.inl hb) with e | e | e
      · rw [e] at hch
        simp only [hA, hb, and_self, if_true] at hch
        split at hch <;> simp at hch <;> simp [← hch]
      · rw [e] at hch; simp at hch; simp [← hch]
      · rw [e] at hch; simp at hch; simp [← hch]
    · rw [not_and, not_not] at h4
      rcases h4 hA with e | e | e
      · rw [e] at hch
        simp only [hA, if_true] at hch
        simp at hch; simp [← hch]
      · rw [e] at hch; simp at hch; simp [← hch]
      · rw [e] at hch; simp at hch; simp [← hch]

theorem run_cases (c : Config) (path : List ℝ) (s : Solver) (h : c.run path = some s) :
    c.valid ∧ c.choose = some s ∧
    ¬ (c.cv = false ∧ c.alphaSearch = false ∧ (∃ a ∈ c.alphasUsed path, 0 < a) ∧ (∃ l ∈ c.l1Ratios, 0 < l) ∧ s ≠ .irlsCd) ∧
    ¬ (s = .closedForm ∧
      (c.normalIdentity = false ∨ c.hasL1 path ∨ c.lb = true ∨ c.ub = true ∨ c.A = true ∨ c.b = true ∨ c.mono = true)) := by
  unfold Config.run at h
  split at h
  · simp at h
  rename_i hv
  rw [not_not] at hv
  cases hch : c.choose with
  | none => rw [hch] at h; simp at h
  | some s' =>
    rw [hch] at h
    simp only [] at h
    split at h
    · simp at h
    · rename_i h1
      split at h
      · simp at h
      · rename_i h2
        split at h
        · simp at h
        · have : s' = s := by simpa using h
          subst this
          exact ⟨hv, rfl, h1, h2⟩

/-- **C38, bounds (partial: without `monotonic_constraints`).** A fit with bounds runs coordinate descent, or raises. -/
theorem c38_bounds_partial (c : Config) (path : List ℝ) (s : Solver) (h : c.run path = some s)
    (hb : c.lb = true ∨ c.ub = true) (hm : c.mono = false) : Spec.honoursBounds s := by
  obtain ⟨hv, hch, -, -⟩ := run_cases c path s h
  obtain ⟨-, -, -, ho, -, h2, h3, h4, -, hAB, hAb, -⟩ := hv
  unfold Config.choose at hch
  unfold Spec.honoursBounds
  rw [not_and, not_not] at h2
  have hAf : ¬ (c.A = true ∧ c.b = true) := fun hh => hAB ⟨Or.inl hh.1, hb⟩
  have hbf : ¬ (c.lb = false ∧ c.ub = false) := by
    rintro ⟨e1, e2⟩
    rcases hb with e | e
    · rw [e1] at e; simp at e
    · rw [e2] at e; simp at e
  rcases h2 hb with e | e
  · rw [e] at hch
    simp only [hm, Bool.false_eq_true, if_false, hAf, hbf] at hch
    simpa using hch.symm
  · rw [e] at hch; simpa using hch.symm

/-- **C38, counterexample for bounds (F17).** `monotonic_constraints` together with `lower_bounds` and `solver='auto'` is accepted and runs
the monotone least-squares solver, which ignores the bounds. -/
theorem c38_bounds_counterexample :
    ∃ (c : Config), c.solver = .auto ∧ c.lb = true ∧ c.run [] = some .irlsLsMonotonic ∧ ¬ Spec.honoursBounds .irlsLsMonotonic := by
  refine ⟨{ plainCfg with lb := true, mono := true, formula := true }, rfl, rfl, ?_, by simp [Spec.honoursBounds]⟩
  have hv : Config.valid { plainCfg with lb := true, mono := true, formula := true } := by
    simp [Config.valid, plainCfg]
  unfold Config.run
  rw [if_neg (not_not.2 hv)]
  simp [plainCfg, Config.choose]

/-- **C38, L1 penalty (partial: a single alpha, or `solver='auto'` without inequality constraints).** If an L1 penalty is requested then
coordinate descent is run, or the fit raises. -/
theorem c38_l1_partial (c : Config) (path : List ℝ) (s : Solver) (h : c.run path = some s) (hl : c.hasL1 path)
    (hc : (c.cv = false ∧ c.alphaSearch = false) ∨ (c.solver = .auto ∧ c.A = false)) : Spec.honoursL1 s := by
  obtain ⟨hv, hch, hg, hcf⟩ := run_cases c path s h
  obtain ⟨hl1, -, hal, ho, -, h2, h3, h4, hmono, hAB, hAb, -⟩ := hv
  obtain ⟨hp, ⟨a, ha, ha0⟩, ⟨l, hlm, hl0⟩⟩ := hl
  have hlpos : 0 < l := lt_of_le_of_ne (hl1 l hlm).1 (Ne.symm hl0)
  unfold Spec.honoursL1
  by_contra hne
  rcases hc with ⟨hcv, hsearch⟩ | ⟨hauto, hA⟩
  · obtain ⟨-, -, hsc⟩ := hal hcv
    have := hsc hsearch
    have ha' : 0 ≤ a := by
      unfold Config.alphasUsed at ha
      simp only [hcv, hsearch, Bool.false_eq_true, if_false] at ha
      cases hAl : c.alpha with
      | none => rw [hAl] at ha; simp at ha; rw [ha]
      | scalar x => rw [hAl] at ha this; simp at ha; rw [ha]; exact this
      | list x => rw [hAl] at ha; simp at ha; rw [ha]
      | array x => rw [hAl] at ha; simp at ha; rw [ha]
    exact hg ⟨hcv, hsearch, ⟨a, ha, lt_of_le_of_ne ha' (Ne.symm ha0)⟩, ⟨l, hlm, hlpos⟩, hne⟩
  · unfold Config.choose at hch
    rw [hauto] at hch
    simp only [] at hch
    have hm : c.mono = false := by
      by_contra hm
      exact hmono ⟨by simpa using hm, l, hlm, hlpos⟩
    have hn : ¬ c.noL1Ratio := fun hh => hl0 (hh l hlm)
    simp only [hm, hA, Bool.false_eq_true, false_and, if_false, hn] at hch
    split at hch
    · cases hz : c.alphaZero with
      | none => rw [hz] at hch; simp at hch
      | some z =>
        rw [hz] at hch
        simp only [] at hch
        by_cases hzz : z
        · -- alpha = 0 and no search: then the only alpha used is 0
          unfold Config.alphaZero at hz
          have hcv : c.cv = false := by
            by_contra hcv
            have : c.cv = true := by simpa using hcv
            rw [if_pos this] at hz
            simp only [Option.some.injEq] at hz
            rw [← hz] at hzz; exact hzz
          rw [hcv] at hz
          simp only [Bool.false_eq_true, if_false] at hz
          apply ha0
          unfold Config.alphasUsed at ha
          cases hAl : c.alpha with
          | none => rw [hAl] at hz; simp at hz; exact absurd hzz (by simpa using hz)
          | scalar x =>
            rw [hAl] at hz ha
            simp only [Option.some.injEq] at hz
            rw [← hz] at hzz
            simp only [hcv, hzz.2, Bool.false_eq_true, if_false, List.mem_singleton] at ha
            rw [ha]; exact hzz.1
          | list x => rw [hAl] at hz; simp at hz; exact absurd hzz (by simpa using hz)
          | array x =>
            have hs2 : c.alphaSearch = true := by
              by_contra hs2
              have h3 := (hal hcv).2.2 (by simpa using hs2)
              rw [hAl] at h3; exact h3
            rw [hAl] at hz
            match x, hz with
            | [], hz => simp at hz; exact absurd hzz (by simpa using hz)
            | [y], hz =>
              simp only [Option.some.injEq] at hz
              rw [← hz, hs2] at hzz
              exact absurd hzz.2 (by simp)
            | y :: y' :: r, hz => simp at hz
        · rw [if_neg hzz] at hch
          exact hne (by simpa using hch.symm)
    · exact hne (by simpa using hch.symm)

/-- **C38, counterexamples for L1 (F10).** With an alpha search the check of L1 penalties is skipped: an explicit solver, or the one chosen
automatically for inequality constraints, silently drops the penalty. -/
theorem c38_l1_counterexample :
    ∃ c : Config, c.alphaSearch = true ∧ c.hasL1 [1] ∧
      (c.solver = .irlsLs ∧ c.run [1] = some .irlsLs) ∧ ¬ Spec.honoursL1 .irlsLs := by
  refine ⟨{ plainCfg with solver := .irlsLs, alphaSearch := true, alpha := .list [1], l1Ratios := [1 / 2] }, rfl, ?_, ⟨rfl, ?_⟩, by simp [Spec.honoursL1]⟩
  · simp [plainCfg, Config.hasL1, Config.alphasUsed]
  · have hv : Config.valid { plainCfg with solver := .irlsLs, alphaSearch := true, alpha := .list [1], l1Ratios := [1 / 2] } := by
      simp [Config.valid, plainCfg]; norm_num
    unfold Config.run
    rw [if_neg (not_not.2 hv)]
    simp [plainCfg, Config.choose]

theorem c38_l1_auto_counterexample :
    ∃ c : Config, c.solver = .auto ∧ c.hasL1 [1] ∧ c.run [1] = some .trustConstr ∧ ¬ Spec.honoursL1 .trustConstr := by
  refine ⟨{ plainCfg with alphaSearch := true, alpha := .none, l1Ratios := [1 / 2], A := true, b := true }, rfl, ?_, ?_, by simp [Spec.honoursL1]⟩
  · simp [plainCfg, Config.hasL1, Config.alphasUsed]
  · have hv : Config.valid { plainCfg with alphaSearch := true, alpha := .none, l1Ratios := [1 / 2], A := true, b := true } := by
      simp [Config.valid, plainCfg]; norm_num
    unfold Config.run
    rw [if_neg (not_not.2 hv)]
    simp [plainCfg, Config.choose]

/-- **C38, a valid request that raises (F18).** An alpha search over a numpy array of several alphas with `l1_ratio > 0` and `solver='auto'`
passes validation, but choosing the solver evaluates the truth value of `alpha == 0` for the whole array and raises; the same
alphas given as a list run. -/
theorem c38_array_alpha_counterexample :
    ∃ c : Config, c.valid ∧ c.alpha = .array [2, 1] ∧ c.run [] = none ∧ { c with alpha := .list [2, 1] }.run [] = some .irlsCd := by
  have hv : ∀ a : AlphaArg, a = .array [2, 1] ∨ a = .list [2, 1] →
      Config.valid { plainCfg with alphaSearch := true, alpha := a, l1Ratios := [1 / 2] } := by
    rintro a (rfl | rfl) <;> simp [Config.valid, plainCfg] <;> norm_num
  refine ⟨{ plainCfg with alphaSearch := true, alpha := .array [2, 1], l1Ratios := [1 / 2] }, hv _ (Or.inl rfl), rfl, ?_, ?_⟩
  · unfold Config.run
    rw [if_neg (not_not.2 (hv _ (Or.inl rfl)))]
    simp [plainCfg, Config.choose, Config.noL1Ratio, Config.alphaZero]
  · unfold Config.run
    rw [if_neg (not_not.2 (hv _ (Or.inr rfl)))]
    simp [plainCfg, Config.choose, Config.noL1Ratio, Config.alphaZero]

/-- **C38, closed form.** The closed-form solver runs only for unconstrained Gaussian identity problems without an L1 penalty. -/
theorem c38_closed_form (c : Config) (path : List ℝ) (h : c.run path = some .closedForm) :
    c.normalIdentity = true ∧ ¬ c.hasL1 path ∧ c.lb = false ∧ c.ub = false ∧ c.A = false ∧ c.b = false ∧ c.mono = false := by
  obtain ⟨-, -, -, hcf⟩ := run_cases c path _ h
  simp only [true_and, not_or] at hcf
  simpa using hcf

-- Non-vacuity: an elastic net with bounds runs coordinate descent (hypotheses of the bounds and L1 theorems together).
example : ∃ c : Config, c.run [] = some .irlsCd ∧ c.hasL1 [] ∧ c.lb = true ∧ c.mono = false ∧ c.solver = .auto ∧ c.A = false := by
  have hv : Config.valid { plainCfg with l1Ratios := [1 / 2], lb := true } := by
    simp [Config.valid, plainCfg]; norm_num
  refine ⟨{ plainCfg with l1Ratios := [1 / 2], lb := true }, ?_, ?_, rfl, rfl, rfl, rfl⟩
  · unfold Config.run
    rw [if_neg (not_not.2 hv)]
    simp [plainCfg, Config.choose]
  · simp [plainCfg, Config.hasL1, Config.alphasUsed]

end Glum
