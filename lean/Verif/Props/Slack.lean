import Verif.Props.KKT
/-
C139: bounds that do not bind can be dropped.
The fits are those of Model/Fit (src/glum/_glm.py: fit, setup of `lower_bounds`, `upper_bounds`; src/glum/_solvers.py: _irls_solver, _cd_solver).
-/
set_option linter.unusedSectionVars false
set_option linter.unusedVariables false
set_option linter.unusedSimpArgs false

namespace Glum
open Spec Topology

variable {n p : ℕ} {ic : Bool}

/-! ### Specification -/

/-- The problem `D` is the problem `C` with wider bounds. -/
structure Spec.WiderBounds (C D : FitCfg p ic) : Prop where
  family : D.family = C.family
  link : D.link = C.link
  e50 : D.e50 = C.e50
  thr : D.thr = C.thr
  scaled : D.asIfScaled = C.asIfScaled
  P1 : D.P1a = C.P1a
  P2 : D.P2a = C.P2a
  bounds : ∀ b, WithinBounds p C.lb C.ub b → WithinBounds p D.lb D.ub b

/-- A bound of `C` at which a coefficient stands is one of `D` too: no coefficient stands at a bound that `D` relaxes. -/
def Spec.Slack (C D : FitCfg p ic) (b : ℕ → ℝ) : Prop := ∀ j < p,
  (∀ l, C.lb = some l → l j < b j ∨ ∃ l', D.lb = some l' ∧ l j ≤ l' j) ∧ ∀ u, C.ub = some u → b j < u j ∨ ∃ u', D.ub = some u' ∧ u' j ≤ u j

variable {C D : FitCfg p ic} {R : Rows n}

theorem wider_objective (h : WiderBounds C D) (R : Rows n) (s : ℕ → ℝ) (a l1r b0 : ℝ) (b : ℕ → ℝ) :
    fitObjective p D.e50 D.family D.link R s D.P1a D.P2a a l1r b0 b = fitObjective p C.e50 C.family C.link R s C.P1a C.P2a a l1r b0 b := by
  rw [h.e50, h.family, h.link, h.P1, h.P2]

/-- The converse direction needs no convexity: a solution of the wider problem that is within the narrower bounds solves the narrower problem. -/
theorem c139_narrow (h : WiderBounds C D) (s : ℕ → ℝ) (a l1r b0 : ℝ) (b : ℕ → ℝ)
    (hsol : Solves p ic D.lb D.ub (fitObjective p D.e50 D.family D.link R s D.P1a D.P2a a l1r) b0 b) (hb : WithinBounds p C.lb C.ub b) :
    Solves p ic C.lb C.ub (fitObjective p C.e50 C.family C.link R s C.P1a C.P2a a l1r) b0 b :=
  ⟨hsol.1, hb, fun d0 d hd0 hd => by
    rw [← wider_objective h, ← wider_objective h]
    exact hsol.2.2 d0 d hd0 (h.bounds d hd)⟩

theorem small_step {l b x : ℝ} (h : l < b) : ∃ t₀ : ℝ, 0 < t₀ ∧ ∀ t, 0 < t → t ≤ t₀ → l ≤ b + t * (x - b) := by
  refine ⟨(b - l) / (|x - b| + 1), div_pos (by linarith) (by positivity), fun t h0 ht => ?_⟩
  rw [le_div_iff₀ (by positivity)] at ht
  nlinarith [neg_abs_le (x - b), mul_le_mul_of_nonneg_left (neg_abs_le (x - b)) h0.le]

theorem lower_step {L L' : Option (ℕ → ℝ)} {j : ℕ} {b x : ℝ} (hb : ∀ l, L = some l → l j ≤ b) (hx : ∀ l, L' = some l → l j ≤ x)
    (h : ∀ l, L = some l → l j < b ∨ ∃ l', L' = some l' ∧ l j ≤ l' j) : ∃ t₀ : ℝ, 0 < t₀ ∧ t₀ ≤ 1 ∧ ∀ t, 0 < t → t ≤ t₀ → ∀ l, L = some l → l j ≤ b + t * (x - b) := by
  cases L with
  | none => exact ⟨1, one_pos, le_rfl, fun t _ _ l hl => by cases hl⟩
  | some l =>
    rcases h l rfl with h | ⟨l', hl', h⟩
    · obtain ⟨t₀, h0, ht⟩ := small_step (x := x) h
      exact ⟨min t₀ 1, lt_min h0 one_pos, min_le_right _ _, fun t h1 h2 k hk => by cases hk; exact ht t h1 (h2.trans (min_le_left _ _))⟩
    · refine ⟨1, one_pos, le_rfl, fun t h1 h2 k hk => ?_⟩
      cases hk
      have e1 := hb l rfl
      have e2 := hx l' hl'
      nlinarith

theorem upper_step {L L' : Option (ℕ → ℝ)} {j : ℕ} {b x : ℝ} (hb : ∀ l, L = some l → b ≤ l j) (hx : ∀ l, L' = some l → x ≤ l j)
    (h : ∀ l, L = some l → b < l j ∨ ∃ l', L' = some l' ∧ l' j ≤ l j) : ∃ t₀ : ℝ, 0 < t₀ ∧ t₀ ≤ 1 ∧ ∀ t, 0 < t → t ≤ t₀ → ∀ l, L = some l → b + t * (x - b) ≤ l j := by
  cases L with
  | none => exact ⟨1, one_pos, le_rfl, fun t _ _ l hl => by cases hl⟩
  | some l =>
    rcases h l rfl with h | ⟨l', hl', h⟩
    · obtain ⟨t₀, h0, ht⟩ := small_step (l := -l j) (b := -b) (x := -x) (by linarith)
      exact ⟨min t₀ 1, lt_min h0 one_pos, min_le_right _ _, fun t h1 h2 k hk => by
        cases hk
        have := ht t h1 (h2.trans (min_le_left _ _))
        linarith⟩
    · refine ⟨1, one_pos, le_rfl, fun t h1 h2 k hk => ?_⟩
      cases hk
      have e1 := hb l rfl
      have e2 := hx l' hl'
      nlinarith

/-- **C139, solutions.** For the convex pairs: a solution stays a solution when bounds at which no coefficient stands are relaxed or dropped. -/
theorem c139_wide (h : WiderBounds C D) (s : ℕ → ℝ) (a l1r : ℝ) (hC : ConvexFit C R l1r) (hD : ConvexFit D R l1r) (ha : 0 ≤ a) (b0 : ℝ) (b : ℕ → ℝ)
    (hsol : Solves p ic C.lb C.ub (fitObjective p C.e50 C.family C.link R s C.P1a C.P2a a l1r) b0 b) (hslack : Slack C D b) :
    Solves p ic D.lb D.ub (fitObjective p D.e50 D.family D.link R s D.P1a D.P2a a l1r) b0 b := by
  have hb := (c138_solution C R s a l1r hC ha b0 b).1 hsol
  have hres : ∀ r, scoreResidual D R b0 b r = scoreResidual C R b0 b r := fun r => by unfold scoreResidual; rw [h.family, h.link, h.e50]
  have hnet : ∀ j, netScore D R s a l1r b0 b j = netScore C R s a l1r b0 b j := fun j => by unfold netScore; simp only [hres, h.P2]
  refine (c138_solution D R s a l1r hD ha b0 b).2 ⟨?_, h.bounds b hsol.2.1, fun j hj x hx => ?_⟩
  · simp only [hres]
    exact hb.intercept
  rw [hnet, h.P1]
  obtain ⟨t₁, p1, q1, s1⟩ := lower_step (hb.admitted j hj).1 hx.1 (hslack j hj).1
  obtain ⟨t₂, p2, q2, s2⟩ := upper_step (hb.admitted j hj).2 hx.2 (hslack j hj).2
  set t := min t₁ t₂ with ht
  have h0 : 0 < t := lt_min p1 p2
  have h1 : t ≤ 1 := (min_le_left _ _).trans q1
  have key := hb.coef j hj (b j + t * (x - b j)) ⟨s1 t h0 (min_le_left _ _), s2 t h0 (min_le_right _ _)⟩
  have habs : |b j + t * (x - b j)| - |b j| ≤ t * (|x| - |b j|) := by
    have e : b j + t * (x - b j) = (1 - t) * b j + t * x := by ring
    rw [e]
    have := abs_add_le ((1 - t) * b j) (t * x)
    rw [abs_mul, abs_mul t, abs_of_nonneg h0.le, abs_of_nonneg (show 0 ≤ 1 - t by linarith)] at this
    linarith
  have hw : 0 ≤ a * l1r * userP1 C.P1a j * |s j| := mul_nonneg (mul_nonneg (mul_nonneg ha hC.l1.1) (hC.p1 j)) (abs_nonneg _)
  have := mul_le_mul_of_nonneg_left habs hw
  refine le_of_mul_le_mul_left ?_ h0
  linarith

theorem wider_regular (h : WiderBounds C D) (l1r a : ℝ) (hr : RegularFit C R l1r a) : RegularFit D R l1r a where
  weights := hr.weights
  alpha := hr.alpha
  mix := hr.mix
  posdef := by rw [h.P2]; exact hr.posdef
  start := by rw [h.family, h.link]; exact hr.start
  room := by
    obtain ⟨b, hb⟩ := hr.room
    exact ⟨b, h.bounds b hb⟩

/-- **C139, fits.** For a problem penalised as in C90 in whose solution no coefficient stands at a bound that is relaxed: for every `ε` there is a tolerance below which all fits with the narrower
and all fits with the wider bounds - by any inner solver, from any start, on any path - have the same intercept and coefficients up to `ε`. -/
theorem c139_fits (h : WiderBounds C D) (stats : Stats) (l1r a : ℝ) (hC : ConvexFit C R l1r) (hD : ConvexFit D R l1r) (hr : RegularFit C R l1r a)
    (hs : ∀ j, 0 ≤ (stats n R.X R.sw).2 j) (b0 : ℝ) (b : ℕ → ℝ)
    (hsol : Solves p ic C.lb C.ub (fitObjective p C.e50 C.family C.link R (penScale C.thr C.asIfScaled (stats n R.X R.sw).2) C.P1a C.P2a a l1r) b0 b)
    (hslack : Slack C D b) (ε : ℝ) (hε : 0 < ε) :
    ∃ δ : ℝ, 0 < δ ∧ (EveryFit C stats R l1r a δ fun d0 d => |d0 - b0| ≤ ε ∧ ∀ j < p, |d j - b j| ≤ ε) ∧ EveryFit D stats R l1r a δ fun d0 d => |d0 - b0| ≤ ε ∧ ∀ j < p, |d j - b j| ≤ ε := by
  have hsolD := c139_wide h _ a l1r hC hD hr.alpha.le b0 b hsol hslack
  rw [← h.thr, ← h.scaled] at hsolD
  obtain ⟨δ, hδ, f⟩ := c132_transfer C stats R l1r a hC hs b0 b ⟨hsol, Or.inl hr⟩ _ ⟨ε, hε, fun d0 d hd => hd⟩
  obtain ⟨δ', hδ', f'⟩ := c132_transfer D stats R l1r a hD hs b0 b ⟨hsolD, Or.inl (wider_regular h l1r a hr)⟩ _ ⟨ε, hε, fun d0 d hd => hd⟩
  exact ⟨min δ δ', lt_min hδ hδ', fun next inner C₁ hC₁ hst hg => f next inner C₁ hC₁ hst (hg.trans_le (min_le_left _ _)),
    fun next inner C₁ hC₁ hst hg => f' next inner C₁ hC₁ hst (hg.trans_le (min_le_right _ _))⟩

/-! ### The hypotheses are met -/

/-- The two groups of C137 with coefficients between 0 and 2. -/
noncomputable def boundedCfg : FitCfg 2 false := { codedCfg with lb := some fun _ => 0, ub := some fun _ => 2 }

/-- The same with the upper bound dropped. -/
noncomputable def lowerCfg : FitCfg 2 false := { codedCfg with lb := some fun _ => 0 }

/-- The upper bound does not bind (the second coefficient, zero, stands at the lower one, which stays). -/
example : WiderBounds boundedCfg lowerCfg ∧ Slack boundedCfg lowerCfg (fun j => if j = 0 then 1 else 0) ∧ RegularFit boundedCfg codedRows (1 / 2) 1 ∧
    Solves 2 false boundedCfg.lb boundedCfg.ub (fitObjective 2 boundedCfg.e50 boundedCfg.family boundedCfg.link codedRows (fun _ => 1) boundedCfg.P1a boundedCfg.P2a 1 (1 / 2)) 0
      fun j => if j = 0 then 1 else 0 := by
  have hw : WithinBounds 2 boundedCfg.lb boundedCfg.ub fun j => if j = 0 then 1 else 0 := fun j hj => ⟨fun l hl => by
    cases hl
    show (0 : ℝ) ≤ if j = 0 then 1 else 0
    split <;> norm_num, fun u hu => by
    cases hu
    show (if j = 0 then (1 : ℝ) else 0) ≤ 2
    split <;> norm_num⟩
  have hwide : WiderBounds boundedCfg codedCfg := ⟨rfl, rfl, rfl, rfl, rfl, rfl, rfl, fun b _ j _ => ⟨(fun l hl => by cases hl), (fun u hu => by cases hu)⟩⟩
  refine ⟨⟨rfl, rfl, rfl, rfl, rfl, rfl, rfl, fun b hb j hj => ⟨(hb j hj).1, (fun u hu => by cases hu)⟩⟩, fun j hj => ⟨fun l hl => Or.inr ⟨_, rfl, ?_⟩, fun u hu => Or.inl ?_⟩, ?_,
    c139_narrow hwide _ _ _ _ _ coded_solution hw⟩
  · cases hl
    exact le_rfl
  · cases hu
    show (if j = 0 then (1 : ℝ) else 0) < 2
    split <;> norm_num
  · exact ⟨coded_regular.weights, coded_regular.alpha, coded_regular.mix, coded_regular.posdef, coded_regular.start, ⟨_, hw⟩⟩

end Glum
