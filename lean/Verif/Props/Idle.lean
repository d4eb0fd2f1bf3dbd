import Verif.Props.Segments
/-
C130: directions in which the coefficients can move without changing a prediction.  Along them only the penalty counts: the coefficients of a full set of
indicators balance, and the intercept is the linear predictor of an average level.
-/
set_option linter.unusedSectionVars false
set_option linter.unusedVariables false
set_option linter.unusedSimpArgs false

namespace Glum
open Spec Filter Topology

variable {n p : ℕ} {ic : Bool}

/-! ### Specification -/

/-- Moving the intercept by `v0` and the coefficients by `v` changes the linear predictor of no row that counts. -/
def Spec.Idle (p : ℕ) (ic : Bool) (R : Rows n) (v0 : ℝ) (v : ℕ → ℝ) : Prop :=
  (ic = false → v0 = 0) ∧ ∀ r, R.sw r ≠ 0 → v0 + ∑ k : Fin p, R.X r k * v k = 0

/-- The coefficients moved by `d` times `v`. -/
def Spec.moved (d : ℝ) (v b : ℕ → ℝ) : ℕ → ℝ := fun k => b k + d * v k

/-- No move along `(v0, v)` that respects the bounds improves the objective by more than `ε` per unit. -/
def Spec.OptimalAlong (p : ℕ) (lb ub : Option (ℕ → ℝ)) (F : ℝ → (ℕ → ℝ) → ℝ) (ε v0 : ℝ) (v : ℕ → ℝ) (b0 : ℝ) (b : ℕ → ℝ) : Prop :=
  ∀ d : ℝ, 0 ≤ d → WithinBounds p lb ub (moved d v b) → F b0 b ≤ F (b0 + d * v0) (moved d v b) + ε * d

/-- Some move along `v` respects the bounds. -/
def Spec.RoomAlong (p : ℕ) (lb ub : Option (ℕ → ℝ)) (v b : ℕ → ℝ) : Prop := ∃ δ > 0, WithinBounds p lb ub (moved δ v b)

/-- The rate at which the absolute value of `x` grows as `x` moves in direction `u`. -/
noncomputable def Spec.growth (x u : ℝ) : ℝ := if 0 < x then u else if x < 0 then -u else |u|

/-- The columns `L` are a full set of indicators: they add up to one in every row that counts. -/
def Spec.FullSet (R : Rows n) (L : Finset (Fin p)) : Prop := ∀ r, R.sw r ≠ 0 → ∑ j ∈ L, R.X r j = 1

/-- The intercept gives up a constant to the columns `L`. -/
def Spec.onSet (L : Finset (Fin p)) : ℕ → ℝ := fun k => if ∃ j ∈ L, j.val = k then 1 else 0

/-! ### Idle directions -/

theorem onSet_apply (L : Finset (Fin p)) (j : Fin p) : onSet L j = if j ∈ L then 1 else 0 := by
  unfold onSet
  by_cases h : j ∈ L
  · rw [if_pos ⟨j, h, rfl⟩, if_pos h]
  · rw [if_neg (fun ⟨k, hk, e⟩ => h (Fin.ext e ▸ hk)), if_neg h]

theorem onSet_sum (L : Finset (Fin p)) (f : Fin p → ℝ) : ∑ k : Fin p, f k * onSet L k = ∑ j ∈ L, f j := by
  simp only [onSet_apply, mul_ite, mul_one, mul_zero]
  rw [Finset.sum_ite_mem, Finset.univ_inter]

/-- A full set of indicators and an intercept leave an idle direction. -/
theorem fullSet_idle (R : Rows n) (L : Finset (Fin p)) (h : FullSet R L) : Idle p true R (-1) (onSet L) :=
  ⟨(fun h => by cases h), fun r hr => by rw [onSet_sum L fun k => R.X r k, h r hr]; norm_num⟩

theorem idle_neg (R : Rows n) (v0 : ℝ) (v : ℕ → ℝ) (h : Idle p ic R v0 v) : Idle p ic R (-v0) (fun k => -v k) :=
  ⟨fun hf => by rw [h.1 hf, neg_zero], fun r hr => by
    have := h.2 r hr
    simp only [mul_neg, Finset.sum_neg_distrib]
    linarith⟩

/-- Without intercept two full sets leave an idle direction. -/
theorem fullSets_idle (R : Rows n) (L M : Finset (Fin p)) (hL : FullSet R L) (hM : FullSet R M) : Idle p ic R 0 (fun k => onSet L k - onSet M k) :=
  ⟨fun _ => rfl, fun r hr => by
    simp only [mul_sub, Finset.sum_sub_distrib]
    rw [onSet_sum L fun k => R.X r k, onSet_sum M fun k => R.X r k, hL r hr, hM r hr]; norm_num⟩

theorem idle_eta (R : Rows n) (v0 : ℝ) (v : ℕ → ℝ) (h : Idle p ic R v0 v) (d b0 : ℝ) (b : ℕ → ℝ) (r : Fin n) (hr : R.sw r ≠ 0) :
    rowEta p R (b0 + d * v0) (moved d v b) r = rowEta p R b0 b r := by
  have := h.2 r hr
  unfold rowEta moved
  simp only [mul_add, Finset.sum_add_distrib]
  have e : ∑ k : Fin p, R.X r k * (d * v k) = d * ∑ k : Fin p, R.X r k * v k := by rw [Finset.mul_sum]; exact Finset.sum_congr rfl fun k _ => by ring
  rw [e]
  linear_combination d * this

/-- The objective changes by the change of the penalty only. -/
theorem same_eta_objective (C : FitCfg p ic) (R : Rows n) (s : ℕ → ℝ) (a l1r b0 c0 : ℝ) (b c : ℕ → ℝ) (h : ∀ r, R.sw r ≠ 0 → rowEta p R c0 c r = rowEta p R b0 b r) :
    fitObjective p C.e50 C.family C.link R s C.P1a C.P2a a l1r c0 c - fitObjective p C.e50 C.family C.link R s C.P1a C.P2a a l1r b0 b
      = penaltyOf p s C.P1a C.P2a a l1r c - penaltyOf p s C.P1a C.P2a a l1r b := by
  rw [objective_loss_penalty, objective_loss_penalty]
  have : ∑ i, rowLoss C R i (rowEta p R c0 c i) = ∑ i, rowLoss C R i (rowEta p R b0 b i) := Finset.sum_congr rfl fun i _ => by
    by_cases hw : R.sw i = 0
    · unfold rowLoss; rw [hw]; ring
    · rw [h i hw]
  rw [this]
  ring

/-- **C130, least penalty.** For every family and link: of all intercepts and coefficients within the bounds with the same predictions on the rows that count, a solution has the
smallest penalty. -/
theorem c130_least_penalty (C : FitCfg p ic) (R : Rows n) (s : ℕ → ℝ) (a l1r b0 : ℝ) (b : ℕ → ℝ)
    (hb : Solves p ic C.lb C.ub (fitObjective p C.e50 C.family C.link R s C.P1a C.P2a a l1r) b0 b) (c0 : ℝ) (c : ℕ → ℝ) (h0 : ic = false → c0 = 0) (hc : WithinBounds p C.lb C.ub c)
    (h : ∀ r, R.sw r ≠ 0 → rowEta p R c0 c r = rowEta p R b0 b r) : penaltyOf p s C.P1a C.P2a a l1r b ≤ penaltyOf p s C.P1a C.P2a a l1r c := by
  have := same_eta_objective C R s a l1r b0 c0 b c h
  linarith [hb.2.2 c0 c h0 hc]

/-- Solutions are optimal along every direction. -/
theorem solves_along (C : FitCfg p ic) (F : ℝ → (ℕ → ℝ) → ℝ) (b0 : ℝ) (b : ℕ → ℝ) (h : Solves p ic C.lb C.ub F b0 b) (v0 : ℝ) (v : ℕ → ℝ) (hv : ic = false → v0 = 0) :
    OptimalAlong p C.lb C.ub F 0 v0 v b0 b := fun d _ hd => by
  rw [zero_mul, add_zero]
  exact h.2.2 _ _ (fun hf => by rw [h.1 hf, hv hf]; ring) hd

/-- The penalty along a direction. -/
theorem moved_penalty (C : FitCfg p ic) (s : ℕ → ℝ) (a l1r d : ℝ) (v b : ℕ → ℝ) :
    penaltyOf p s C.P1a C.P2a a l1r (moved d v b) - penaltyOf p s C.P1a C.P2a a l1r b
      = a * l1r * ∑ k : Fin p, userP1 C.P1a k * |s k| * (|b k + d * v k| - |b k|) + d * ∑ g : Fin p, v g * ridgePull p C.P2a s a l1r b g
        + d ^ 2 * (a * (1 - l1r) / 2 * ∑ j : Fin p, ∑ k : Fin p, userP2 C.P2a j k * (v j * s j) * (v k * s k)) := by
  unfold penaltyOf ridgePull moved
  have e1 : ∑ j : Fin p, userP1 C.P1a j * |(b j + d * v j) * s j| = ∑ j : Fin p, userP1 C.P1a j * |b j * s j| + ∑ k : Fin p, userP1 C.P1a k * |s k| * (|b k + d * v k| - |b k|) := by
    rw [← Finset.sum_add_distrib]
    refine Finset.sum_congr rfl fun k _ => ?_
    rw [abs_mul, abs_mul]; ring
  have e2 : ∀ j k : Fin p, userP2 C.P2a j k * ((b j + d * v j) * s j) * ((b k + d * v k) * s k)
      = userP2 C.P2a j k * (b j * s j) * (b k * s k) + d * (v j * (s j * (userP2 C.P2a j k * (b k * s k)))) + d * (v k * (s k * (userP2 C.P2a j k * (b j * s j))))
        + d ^ 2 * (userP2 C.P2a j k * (v j * s j) * (v k * s k)) := fun j k => by ring
  have e3 : ∑ g : Fin p, v g * (a * (1 - l1r) * (s g * ∑ k : Fin p, (userP2 C.P2a g k + userP2 C.P2a k g) / 2 * (b k * s k)))
      = a * (1 - l1r) / 2 * (∑ j : Fin p, ∑ k : Fin p, v j * (s j * (userP2 C.P2a j k * (b k * s k))) + ∑ j : Fin p, ∑ k : Fin p, v k * (s k * (userP2 C.P2a j k * (b j * s j)))) := by
    rw [Finset.sum_comm (f := fun j k : Fin p => v k * (s k * (userP2 C.P2a j k * (b j * s j)))), ← Finset.sum_add_distrib, Finset.mul_sum]
    refine Finset.sum_congr rfl fun g _ => ?_
    rw [← Finset.sum_add_distrib, Finset.mul_sum, Finset.mul_sum, Finset.mul_sum, Finset.mul_sum]
    exact Finset.sum_congr rfl fun k _ => by ring
  rw [e1, e3]
  simp only [e2, Finset.sum_add_distrib, ← Finset.mul_sum]
  ring

theorem growth_near (x u : ℝ) : ∀ᶠ d in 𝓝[>] (0 : ℝ), |x + d * u| - |x| = d * growth x u := by
  have hc : Tendsto (fun d : ℝ => x + d * u) (𝓝[>] 0) (𝓝 x) := by
    have : Tendsto (fun d : ℝ => x + d * u) (𝓝 0) (𝓝 (x + 0 * u)) := Continuous.tendsto (f := fun d : ℝ => x + d * u) (by fun_prop) 0
    rw [zero_mul, add_zero] at this
    exact this.mono_left nhdsWithin_le_nhds
  unfold growth
  rcases lt_trichotomy x 0 with h | h | h
  · filter_upwards [hc.eventually (eventually_lt_nhds h)] with d hd
    rw [abs_of_neg hd, abs_of_neg h, if_neg h.not_gt, if_pos h]; ring
  · subst h
    filter_upwards [self_mem_nhdsWithin] with d hd
    rw [if_neg (lt_irrefl _), if_neg (lt_irrefl _), zero_add, abs_zero, sub_zero, abs_mul, abs_of_pos hd]
  · filter_upwards [hc.eventually (eventually_gt_nhds h)] with d hd
    rw [abs_of_pos hd, abs_of_pos h, if_pos h]; ring

theorem moved_within (lb ub : Option (ℕ → ℝ)) (v b : ℕ → ℝ) (hb : WithinBounds p lb ub b) (δ : ℝ) (hδ : 0 < δ) (hd : WithinBounds p lb ub (moved δ v b)) (d : ℝ) (h0 : 0 ≤ d) (h1 : d ≤ δ) :
    WithinBounds p lb ub (moved d v b) := by
  intro k hk
  have e : moved d v b k = (1 - d / δ) * b k + d / δ * moved δ v b k := by unfold moved; field_simp; ring
  have t0 : 0 ≤ d / δ := div_nonneg h0 hδ.le
  have t1 : d / δ ≤ 1 := (div_le_one hδ).2 h1
  rw [e]
  refine ⟨fun l hl => ?_, fun u hu => ?_⟩
  · have a1 := (hb k hk).1 l hl
    have a2 := (hd k hk).1 l hl
    nlinarith [mul_le_mul_of_nonneg_left a2 t0, mul_le_mul_of_nonneg_left a1 (show 0 ≤ 1 - d / δ by linarith)]
  · have a1 := (hb k hk).2 u hu
    have a2 := (hd k hk).2 u hu
    nlinarith [mul_le_mul_of_nonneg_left a2 t0, mul_le_mul_of_nonneg_left a1 (show 0 ≤ 1 - d / δ by linarith)]

/-- **C130, idle directions.** For every family and link: where the objective is optimal up to `ε` along an idle direction that the bounds leave room for, the penalty does not decrease by
more than `ε` per unit along it. -/
theorem c130_direction (C : FitCfg p ic) (R : Rows n) (s : ℕ → ℝ) (a l1r ε v0 : ℝ) (v : ℕ → ℝ) (hv : Idle p ic R v0 v) (b0 : ℝ) (b : ℕ → ℝ) (hb : WithinBounds p C.lb C.ub b)
    (hroom : RoomAlong p C.lb C.ub v b) (ho : OptimalAlong p C.lb C.ub (fitObjective p C.e50 C.family C.link R s C.P1a C.P2a a l1r) ε v0 v b0 b) :
    0 ≤ ∑ g : Fin p, v g * ridgePull p C.P2a s a l1r b g + a * l1r * ∑ k : Fin p, userP1 C.P1a k * |s k| * growth (b k) (v k) + ε := by
  obtain ⟨δ, hδ, hd⟩ := hroom
  set A := ∑ g : Fin p, v g * ridgePull p C.P2a s a l1r b g + a * l1r * ∑ k : Fin p, userP1 C.P1a k * |s k| * growth (b k) (v k) + ε with hA
  set B := a * (1 - l1r) / 2 * ∑ j : Fin p, ∑ k : Fin p, userP2 C.P2a j k * (v j * s j) * (v k * s k) with hB
  have hev : ∀ᶠ d in 𝓝[>] (0 : ℝ), ∀ k : Fin p, |b k + d * v k| - |b k| = d * growth (b k) (v k) := eventually_all.2 fun k => growth_near _ _
  have hsmall : ∀ᶠ d in 𝓝[>] (0 : ℝ), d ≤ δ := nhdsWithin_le_nhds (eventually_le_nhds hδ)
  have hlim : Tendsto (fun d : ℝ => A + d * B) (𝓝[>] 0) (𝓝 A) := by
    have : Tendsto (fun d : ℝ => A + d * B) (𝓝 0) (𝓝 (A + 0 * B)) := Continuous.tendsto (f := fun d : ℝ => A + d * B) (by fun_prop) 0
    rw [zero_mul, add_zero] at this
    exact this.mono_left nhdsWithin_le_nhds
  refine ge_of_tendsto hlim ?_
  filter_upwards [hev, hsmall, self_mem_nhdsWithin] with d h1 h2 h3
  have h3 : 0 < d := h3
  have m := ho d h3.le (moved_within C.lb C.ub v b hb δ hδ hd d h3.le h2)
  have e := same_eta_objective C R s a l1r b0 (b0 + d * v0) b (moved d v b) fun r hr => idle_eta R v0 v hv d b0 b r hr
  rw [moved_penalty] at e
  have e1 : ∑ k : Fin p, userP1 C.P1a k * |s k| * (|b k + d * v k| - |b k|) = d * ∑ k : Fin p, userP1 C.P1a k * |s k| * growth (b k) (v k) := by
    rw [Finset.mul_sum]
    exact Finset.sum_congr rfl fun k _ => by rw [h1 k]; ring
  rw [e1, ← hB] at e
  have : 0 ≤ d * (A + d * B) := by rw [hA]; nlinarith
  exact (mul_nonneg_iff_of_pos_left h3).1 this

/-! ### Full sets of indicators -/

theorem growth_one (x : ℝ) : growth x 1 = (if 0 < x then 1 else 0) - (if x < 0 then 1 else 0) + (if x = 0 then 1 else 0) := by
  unfold growth
  rcases lt_trichotomy x 0 with h | h | h
  · simp [h, h.not_gt, h.ne]
  · simp [h]
  · simp [h, h.not_gt, h.ne']

theorem growth_neg_one (x : ℝ) : growth x (-1) = -((if 0 < x then 1 else 0) - (if x < 0 then 1 else 0)) + (if x = 0 then 1 else 0) := by
  unfold growth
  rcases lt_trichotomy x 0 with h | h | h
  · simp [h, h.not_gt, h.ne]
  · simp [h]
  · simp [h, h.not_gt, h.ne']

theorem growth_zero (x : ℝ) : growth x 0 = 0 := by unfold growth; simp

/-- **C130, full sets of indicators.** With an intercept (which is not penalised) and a full set of indicators that the bounds leave free: the ridge pulls on their coefficients, plus the L1
weights of the positive ones, less those of the negative ones, add up to zero, up to the L1 weights of the zero ones and `ε`. -/
theorem c130_balance (C : FitCfg p true) (R : Rows n) (s : ℕ → ℝ) (a l1r ε : ℝ) (L : Finset (Fin p)) (hL : FullSet R L) (b0 : ℝ) (b : ℕ → ℝ) (hb : WithinBounds p C.lb C.ub b)
    (hup : RoomAlong p C.lb C.ub (onSet L) b) (hdn : RoomAlong p C.lb C.ub (fun k => -onSet L k) b)
    (ho : OptimalAlong p C.lb C.ub (fitObjective p C.e50 C.family C.link R s C.P1a C.P2a a l1r) ε (-1) (onSet L) b0 b)
    (ho' : OptimalAlong p C.lb C.ub (fitObjective p C.e50 C.family C.link R s C.P1a C.P2a a l1r) ε 1 (fun k => -onSet L k) b0 b) :
    |∑ g ∈ L, ridgePull p C.P2a s a l1r b g + a * l1r * (∑ j ∈ L.filter (fun j : Fin p => 0 < b j), userP1 C.P1a j * |s j| - ∑ j ∈ L.filter (fun j : Fin p => b j < 0), userP1 C.P1a j * |s j|)|
      ≤ a * l1r * ∑ j ∈ L.filter (fun j : Fin p => b j = 0), userP1 C.P1a j * |s j| + ε := by
  have hi := fullSet_idle R L hL
  have hi' : Idle p true R 1 (fun k => -onSet L k) := by
    have := idle_neg R _ _ hi
    rwa [neg_neg] at this
  have k1 := c130_direction C R s a l1r ε _ _ hi b0 b hb hup ho
  have k2 := c130_direction C R s a l1r ε _ _ hi' b0 b hb hdn ho'
  have e1 : ∑ g : Fin p, onSet L g * ridgePull p C.P2a s a l1r b g = ∑ g ∈ L, ridgePull p C.P2a s a l1r b g := by
    rw [← onSet_sum L]; exact Finset.sum_congr rfl fun _ _ => mul_comm _ _
  have e2 : ∑ g : Fin p, -onSet L g * ridgePull p C.P2a s a l1r b g = -∑ g ∈ L, ridgePull p C.P2a s a l1r b g := by
    rw [← e1, ← Finset.sum_neg_distrib]; exact Finset.sum_congr rfl fun _ _ => by ring
  have g1 : ∑ k : Fin p, userP1 C.P1a k * |s k| * growth (b k) (onSet L k)
      = ∑ j ∈ L.filter (fun j : Fin p => 0 < b j), userP1 C.P1a j * |s j| - ∑ j ∈ L.filter (fun j : Fin p => b j < 0), userP1 C.P1a j * |s j| + ∑ j ∈ L.filter (fun j : Fin p => b j = 0), userP1 C.P1a j * |s j| := by
    rw [Finset.sum_filter, Finset.sum_filter, Finset.sum_filter, ← Finset.sum_sub_distrib, ← Finset.sum_add_distrib, ← onSet_sum L]
    refine Finset.sum_congr rfl fun k _ => ?_
    rw [onSet_apply]
    split
    · rw [growth_one]
      split_ifs <;> ring
    · rw [growth_zero]; ring
  have g2 : ∑ k : Fin p, userP1 C.P1a k * |s k| * growth (b k) (-onSet L k)
      = -(∑ j ∈ L.filter (fun j : Fin p => 0 < b j), userP1 C.P1a j * |s j| - ∑ j ∈ L.filter (fun j : Fin p => b j < 0), userP1 C.P1a j * |s j|) + ∑ j ∈ L.filter (fun j : Fin p => b j = 0), userP1 C.P1a j * |s j| := by
    rw [Finset.sum_filter, Finset.sum_filter, Finset.sum_filter, ← Finset.sum_sub_distrib, ← Finset.sum_neg_distrib, ← Finset.sum_add_distrib, ← onSet_sum L]
    refine Finset.sum_congr rfl fun k _ => ?_
    rw [onSet_apply]
    split
    · rw [growth_neg_one]
      split_ifs <;> ring
    · rw [neg_zero, growth_zero]; ring
  rw [e1, g1] at k1
  rw [e2, g2] at k2
  rw [abs_le]
  constructor <;> nlinarith

theorem free_room (lb ub : Option (ℕ → ℝ)) (hlb : lb = none) (hub : ub = none) (v b : ℕ → ℝ) : WithinBounds p lb ub b ∧ RoomAlong p lb ub v b := by
  have : ∀ c : ℕ → ℝ, WithinBounds p lb ub c := fun c k _ => ⟨(fun l hl => by rw [hlb] at hl; cases hl), (fun u hu => by rw [hub] at hu; cases hu)⟩
  exact ⟨this b, 1, one_pos, this _⟩

/-- For solutions. -/
theorem c130_solution_balance (C : FitCfg p true) (R : Rows n) (s : ℕ → ℝ) (a l1r : ℝ) (hlb : C.lb = none) (hub : C.ub = none) (L : Finset (Fin p)) (hL : FullSet R L) (b0 : ℝ) (b : ℕ → ℝ)
    (hb : Solves p true C.lb C.ub (fitObjective p C.e50 C.family C.link R s C.P1a C.P2a a l1r) b0 b) :
    |∑ g ∈ L, ridgePull p C.P2a s a l1r b g + a * l1r * (∑ j ∈ L.filter (fun j : Fin p => 0 < b j), userP1 C.P1a j * |s j| - ∑ j ∈ L.filter (fun j : Fin p => b j < 0), userP1 C.P1a j * |s j|)|
      ≤ a * l1r * ∑ j ∈ L.filter (fun j : Fin p => b j = 0), userP1 C.P1a j * |s j| := by
  have := c130_balance C R s a l1r 0 L hL b0 b hb.2.1 (free_room _ _ hlb hub _ _).2 (free_room _ _ hlb hub _ _).2 (solves_along C _ b0 b hb _ _ fun h => by cases h)
    (solves_along C _ b0 b hb _ _ fun h => by cases h)
  rwa [add_zero] at this

/-- **C130, ridge.** With a ridge penalty that treats the levels alike the coefficients of a full set add up to zero, so that the linear predictor of an unknown level (all indicators zero) is
the average of those of the levels. -/
theorem c130_ridge (C : FitCfg p true) (R : Rows n) (s : ℕ → ℝ) (a : ℝ) (ha : 0 < a) (hlb : C.lb = none) (hub : C.ub = none) (L : Finset (Fin p)) (hL : FullSet R L)
    (w : ℝ) (hw : 0 < w) (hown : ∀ j ∈ L, OwnRidge p C.P2a j ∧ userP2 C.P2a j j * s j ^ 2 = w) (b0 : ℝ) (b : ℕ → ℝ)
    (hb : Solves p true C.lb C.ub (fitObjective p C.e50 C.family C.link R s C.P1a C.P2a a 0) b0 b) :
    ∑ j ∈ L, b j = 0 ∧
    ∀ x : ℕ → ℝ, (∀ j ∈ L, x j = 0) → (b0 + ∑ k : Fin p, x k * b k) * L.card = ∑ j ∈ L, (b0 + ∑ k : Fin p, (if k = j then 1 else x k) * b k) := by
  have k := c130_solution_balance C R s a 0 hlb hub L hL b0 b hb
  have e : ∑ g ∈ L, ridgePull p C.P2a s a 0 b g = a * w * ∑ j ∈ L, b j := by
    rw [Finset.mul_sum]
    refine Finset.sum_congr rfl fun g hg => ?_
    rw [own_pull _ _ _ _ _ _ (hown g hg).1, (hown g hg).2]; ring
  rw [e, mul_zero, zero_mul, zero_mul, add_zero] at k
  have h0 := abs_nonpos_iff.1 k
  have hz : ∑ j ∈ L, b j = 0 := (mul_eq_zero.1 h0).resolve_left (mul_pos ha hw).ne'
  refine ⟨hz, fun x hx => ?_⟩
  have e2 : ∀ j ∈ L, b0 + ∑ k : Fin p, (if k = j then 1 else x k) * b k = (b0 + ∑ k : Fin p, x k * b k) + b j := by
    intro j hj
    have : ∑ k : Fin p, (if k = j then (1 : ℝ) else x k) * b k = ∑ k : Fin p, x k * b k + b j := by
      rw [← sub_eq_iff_eq_add', ← Finset.sum_sub_distrib, Fintype.sum_eq_single j fun k hk => by rw [if_neg hk, sub_self]]
      rw [if_pos rfl, hx j hj]; ring
    rw [this]; ring
  rw [Finset.sum_congr rfl e2, Finset.sum_add_distrib, hz, Finset.sum_const, nsmul_eq_mul]
  ring

/-- **C130, lasso.** With a pure L1 penalty zero is a weighted median of the coefficients of a full set: neither the positive nor the negative ones carry more than half of the weight. -/
theorem c130_lasso (C : FitCfg p true) (R : Rows n) (s : ℕ → ℝ) (a : ℝ) (ha : 0 < a) (hlb : C.lb = none) (hub : C.ub = none) (L : Finset (Fin p)) (hL : FullSet R L)
    (b0 : ℝ) (b : ℕ → ℝ) (hb : Solves p true C.lb C.ub (fitObjective p C.e50 C.family C.link R s C.P1a C.P2a a 1) b0 b) :
    ∑ j ∈ L.filter (fun j : Fin p => 0 < b j), userP1 C.P1a j * |s j| ≤ 1 / 2 * ∑ j ∈ L, userP1 C.P1a j * |s j| ∧
    ∑ j ∈ L.filter (fun j : Fin p => b j < 0), userP1 C.P1a j * |s j| ≤ 1 / 2 * ∑ j ∈ L, userP1 C.P1a j * |s j| := by
  have k := c130_solution_balance C R s a 1 hlb hub L hL b0 b hb
  have e : ∑ g ∈ L, ridgePull p C.P2a s a 1 b g = 0 := Finset.sum_eq_zero fun g _ => by unfold ridgePull; ring
  rw [e, zero_add, mul_one, abs_mul, abs_of_pos ha] at k
  have k := (mul_le_mul_iff_right₀ ha).1 k
  have hs : ∑ j ∈ L, userP1 C.P1a j * |s j|
      = ∑ j ∈ L.filter (fun j : Fin p => 0 < b j), userP1 C.P1a j * |s j| + ∑ j ∈ L.filter (fun j : Fin p => b j < 0), userP1 C.P1a j * |s j| + ∑ j ∈ L.filter (fun j : Fin p => b j = 0), userP1 C.P1a j * |s j| := by
    rw [Finset.sum_filter, Finset.sum_filter, Finset.sum_filter, ← Finset.sum_add_distrib, ← Finset.sum_add_distrib]
    refine Finset.sum_congr rfl fun j _ => ?_
    rcases lt_trichotomy (b j) 0 with h | h | h
    · simp [h, h.not_gt, h.ne]
    · simp [h]
    · simp [h, h.not_gt, h.ne']
  rw [abs_le] at k
  rw [hs]
  constructor <;> linarith [k.1, k.2]

/-- **C130, no intercept.** Without intercept the ridge pulls on two full sets have the same sum. -/
theorem c130_two_sets (C : FitCfg p ic) (R : Rows n) (s : ℕ → ℝ) (a : ℝ) (hlb : C.lb = none) (hub : C.ub = none) (L M : Finset (Fin p)) (hL : FullSet R L) (hM : FullSet R M)
    (b0 : ℝ) (b : ℕ → ℝ) (hb : Solves p ic C.lb C.ub (fitObjective p C.e50 C.family C.link R s C.P1a C.P2a a 0) b0 b) :
    ∑ g ∈ L, ridgePull p C.P2a s a 0 b g = ∑ g ∈ M, ridgePull p C.P2a s a 0 b g := by
  have e : ∀ L : Finset (Fin p), ∑ g : Fin p, onSet L g * ridgePull p C.P2a s a 0 b g = ∑ g ∈ L, ridgePull p C.P2a s a 0 b g := fun L => by
    rw [← onSet_sum L]; exact Finset.sum_congr rfl fun _ _ => mul_comm _ _
  have key : ∀ L M : Finset (Fin p), FullSet R L → FullSet R M → ∑ g ∈ M, ridgePull p C.P2a s a 0 b g ≤ ∑ g ∈ L, ridgePull p C.P2a s a 0 b g := fun L M hL hM => by
    have := c130_direction C R s a 0 0 0 _ (fullSets_idle R L M hL hM) b0 b hb.2.1 (free_room _ _ hlb hub _ _).2 (solves_along C _ b0 b hb _ _ fun _ => rfl)
    simp only [sub_mul, Finset.sum_sub_distrib, e] at this
    linarith
  exact le_antisymm (key M L hM hL) (key L M hL hM)

/-! ### Fits -/

/-- A fit without ConvergenceWarning is optimal along every idle direction up to `gradient_tol` times the largest move of a standardised coefficient. -/
theorem c130_fit_along (next : (ℕ → BitVec 32) → ℕ → (ℕ → BitVec 32)) (inner : (ℕ → BitVec 32) → (m : ℕ) → Inner m p ic) (C : FitCfg p ic) (stats : Stats) (hst : TrueStats stats)
    (R : Rows n) (hsum : ∑ r, R.sw r = 1) (l1r : ℝ) (h : ConvexFit C R l1r) (hstep : C.stepTol = none) (A : AlphaSpec) (s s' : SolverLog) (r : PathResult)
    (hfit : glmFit C stats (irlsSolver next inner) R l1r A s = some (s', r)) (ha : ∀ x ∈ r.alphas, 0 ≤ x) (hw : s'.convWarn = s.convWarn)
    (q : ℕ) (hq : q < r.alphas.length) (hc : q < r.coefPath.length) (hb : q < r.interceptPath.length) (v0 : ℝ) (v : ℕ → ℝ) (hv : Idle p ic R v0 v) (M : ℝ) (hM0 : 0 ≤ M)
    (hM : ∀ j < p, colScale C.thr (stats n R.X R.sw).2 j * |v j| ≤ M) :
    OptimalAlong p C.lb C.ub (fitObjective p C.e50 C.family C.link R (penScale C.thr C.asIfScaled (stats n R.X R.sw).2) C.P1a C.P2a r.alphas[q] l1r)
      (C.gradTol * M) v0 v r.interceptPath[q] r.coefPath[q] := by
  intro d hd0 hd
  have hs : ∀ j, 0 ≤ (stats n R.X R.sw).2 j := fun j => by rw [(hst _ _ _ j).2]; exact Real.sqrt_nonneg _
  obtain ⟨-, -, -, -, hmain⟩ := c75_no_warning_near_optimal next inner C stats R l1r h hs hstep A s s' r hfit ha hw
  have hint : ic = false → r.interceptPath[q] + d * v0 = 0 := fun hf => by
    rw [rows_intercept_zero next inner C stats R l1r h hs hstep A s s' r hfit ha hw q hq hc hb hf, hv.1 hf]; ring
  have := hmain q hq hc hb (r.interceptPath[q] + d * v0) (moved d v r.coefPath[q]) hint hd (M * d) (mul_nonneg hM0 hd0) ⟨fun k hk => ?_, fun _ => ?_⟩
  · linarith
  · have e : moved d v r.coefPath[q] k - r.coefPath[q] k = d * v k := by unfold moved; ring
    rw [e, abs_mul, abs_of_nonneg hd0]
    nlinarith [hM k hk]
  · have e : r.interceptPath[q] + d * v0 + ∑ j : Fin p, (stats n R.X R.sw).1 j * moved d v r.coefPath[q] j
        - (r.interceptPath[q] + ∑ j : Fin p, (stats n R.X R.sw).1 j * r.coefPath[q] j) = d * (v0 + ∑ j : Fin p, (stats n R.X R.sw).1 j * v j) := by
      have : ∑ j : Fin p, (stats n R.X R.sw).1 j * moved d v r.coefPath[q] j
          = ∑ j : Fin p, (stats n R.X R.sw).1 j * r.coefPath[q] j + d * ∑ j : Fin p, (stats n R.X R.sw).1 j * v j := by
        rw [Finset.mul_sum, ← Finset.sum_add_distrib]
        exact Finset.sum_congr rfl fun k _ => by unfold moved; ring
      rw [this]; ring
    have e2 : v0 + ∑ j : Fin p, (stats n R.X R.sw).1 j * v j = ∑ i, R.sw i * (v0 + ∑ j : Fin p, R.X i j * v j) := by
      simp only [mul_add, Finset.sum_add_distrib, ← Finset.sum_mul, hsum, one_mul, Finset.mul_sum]
      rw [Finset.sum_comm]
      congr 1
      refine Finset.sum_congr rfl fun j _ => ?_
      rw [(hst _ _ _ j).1, Finset.sum_mul]
      exact Finset.sum_congr rfl fun i _ => by ring
    have e3 : ∑ i, R.sw i * (v0 + ∑ j : Fin p, R.X i j * v j) = 0 := Finset.sum_eq_zero fun i _ => by
      by_cases hi : R.sw i = 0
      · rw [hi, zero_mul]
      · rw [hv.2 i hi, mul_zero]
    rw [e, e2, e3, mul_zero, abs_zero]
    exact mul_nonneg hM0 hd0

/-- **C130, fits.** A fit (any IRLS solver) without ConvergenceWarning: the coefficients of a full set of indicators balance up to `gradient_tol` times the largest scale of the columns. -/
theorem c130_fit_balance (next : (ℕ → BitVec 32) → ℕ → (ℕ → BitVec 32)) (inner : (ℕ → BitVec 32) → (m : ℕ) → Inner m p true) (C : FitCfg p true) (stats : Stats) (hst : TrueStats stats)
    (R : Rows n) (hsum : ∑ r, R.sw r = 1) (l1r : ℝ) (h : ConvexFit C R l1r) (hlb : C.lb = none) (hub : C.ub = none) (hstep : C.stepTol = none) (A : AlphaSpec) (s s' : SolverLog) (r : PathResult)
    (hfit : glmFit C stats (irlsSolver next inner) R l1r A s = some (s', r)) (ha : ∀ x ∈ r.alphas, 0 ≤ x) (hw : s'.convWarn = s.convWarn)
    (q : ℕ) (hq : q < r.alphas.length) (hc : q < r.coefPath.length) (hb : q < r.interceptPath.length) (L : Finset (Fin p)) (hL : FullSet R L)
    (M : ℝ) (hM0 : 0 ≤ M) (hM : ∀ j ∈ L, colScale C.thr (stats n R.X R.sw).2 j ≤ M) :
    |∑ g ∈ L, ridgePull p C.P2a (penScale C.thr C.asIfScaled (stats n R.X R.sw).2) r.alphas[q] l1r r.coefPath[q] g
        + r.alphas[q] * l1r * (∑ j ∈ L.filter (fun j : Fin p => 0 < r.coefPath[q] j), userP1 C.P1a j * |penScale C.thr C.asIfScaled (stats n R.X R.sw).2 j|
          - ∑ j ∈ L.filter (fun j : Fin p => r.coefPath[q] j < 0), userP1 C.P1a j * |penScale C.thr C.asIfScaled (stats n R.X R.sw).2 j|)|
      ≤ r.alphas[q] * l1r * ∑ j ∈ L.filter (fun j : Fin p => r.coefPath[q] j = 0), userP1 C.P1a j * |penScale C.thr C.asIfScaled (stats n R.X R.sw).2 j| + C.gradTol * M := by
  have hi := fullSet_idle R L hL
  have hi' : Idle p true R 1 (fun k => -onSet L k) := by
    have := idle_neg R _ _ hi
    rwa [neg_neg] at this
  have hMv : ∀ j < p, colScale C.thr (stats n R.X R.sw).2 j * |onSet L j| ≤ M := fun j hj => by
    have e := onSet_apply L ⟨j, hj⟩
    rw [show onSet L j = _ from e]
    split
    · rename_i h'; rw [abs_one, mul_one]; exact hM _ h'
    · rw [abs_zero, mul_zero]; exact hM0
  exact c130_balance C R _ r.alphas[q] l1r _ L hL _ _ (free_room _ _ hlb hub (onSet L) _).1 (free_room _ _ hlb hub _ _).2 (free_room _ _ hlb hub _ _).2
    (c130_fit_along next inner C stats hst R hsum l1r h hstep A s s' r hfit ha hw q hq hc hb _ _ hi M hM0 hMv)
    (c130_fit_along next inner C stats hst R hsum l1r h hstep A s s' r hfit ha hw q hq hc hb _ _ hi' M hM0 fun j hj => by rw [abs_neg]; exact hMv j hj)

/-- The sum of the coefficients of a full set of 0/1 indicators after a ridge fit with equal penalties `w`. -/
theorem c130_fit_ridge (next : (ℕ → BitVec 32) → ℕ → (ℕ → BitVec 32)) (inner : (ℕ → BitVec 32) → (m : ℕ) → Inner m p true) (C : FitCfg p true) (stats : Stats) (hst : TrueStats stats)
    (R : Rows n) (hsum : ∑ r, R.sw r = 1) (h : ConvexFit C R 0) (hlb : C.lb = none) (hub : C.ub = none) (hstep : C.stepTol = none) (A : AlphaSpec) (s s' : SolverLog) (r : PathResult)
    (hfit : glmFit C stats (irlsSolver next inner) R 0 A s = some (s', r)) (ha : ∀ x ∈ r.alphas, 0 ≤ x) (hw : s'.convWarn = s.convWarn)
    (q : ℕ) (hq : q < r.alphas.length) (hc : q < r.coefPath.length) (hb : q < r.interceptPath.length) (L : Finset (Fin p)) (hL : FullSet R L)
    (hdummy : ∀ j ∈ L, ∀ i, R.sw i ≠ 0 → R.X i j = 0 ∨ R.X i j = 1)
    (w : ℝ) (hw0 : 0 < w) (hown : ∀ j ∈ L, OwnRidge p C.P2a j ∧ userP2 C.P2a j j * penScale C.thr C.asIfScaled (stats n R.X R.sw).2 j ^ 2 = w) (hpos : 0 < r.alphas[q]) :
    |∑ j ∈ L, r.coefPath[q] j| ≤ C.gradTol / (r.alphas[q] * w) := by
  have hcol : ∀ j ∈ L, colScale C.thr (stats n R.X R.sw).2 j ≤ 1 := by
    intro j hj
    have hX : ∀ i, 0 ≤ R.sw i * R.X i j ∧ R.sw i * R.X i j ≤ R.sw i := fun i => by
      by_cases hw : R.sw i = 0
      · rw [hw]; simp
      · rcases hdummy j hj i hw with e | e <;> rw [e] <;> simp [h.sw i]
    have h0 : 0 ≤ (stats n R.X R.sw).1 j := by rw [(hst _ _ _ j).1]; exact Finset.sum_nonneg fun i _ => (hX i).1
    have h1 : (stats n R.X R.sw).1 j ≤ 1 := by rw [(hst _ _ _ j).1, ← hsum]; exact Finset.sum_le_sum fun i _ => (hX i).2
    unfold colScale
    split
    · exact le_rfl
    · rw [(hst _ _ _ j).2, ← (hst _ _ _ j).1]
      refine Real.sqrt_le_one.2 ?_
      rw [← hsum]
      refine Finset.sum_le_sum fun i _ => ?_
      by_cases hw : R.sw i = 0
      · rw [hw]; simp
      · refine mul_le_of_le_one_right (h.sw i) ?_
        set m := (stats n R.X R.sw).1 j
        rcases hdummy j hj i hw with e | e <;> rw [e] <;> nlinarith
  have k := c130_fit_balance next inner C stats hst R hsum 0 h hlb hub hstep A s s' r hfit ha hw q hq hc hb L hL 1 zero_le_one hcol
  have e : ∑ g ∈ L, ridgePull p C.P2a (penScale C.thr C.asIfScaled (stats n R.X R.sw).2) r.alphas[q] 0 r.coefPath[q] g = r.alphas[q] * w * ∑ j ∈ L, r.coefPath[q] j := by
    rw [Finset.mul_sum]
    refine Finset.sum_congr rfl fun g hg => ?_
    rw [own_pull _ _ _ _ _ _ (hown g hg).1, (hown g hg).2]; ring
  rw [e, mul_zero, zero_mul, zero_mul, add_zero, zero_add, mul_one, abs_mul, abs_of_pos (mul_pos hpos hw0)] at k
  rw [le_div_iff₀ (mul_pos hpos hw0), mul_comm]
  exact k

/-! ### The hypotheses are met -/

theorem levels_full : FullSet levelRows (Finset.univ : Finset (Fin 2)) := fun r _ => by
  fin_cases r <;> simp [levelRows] <;> decide

theorem levels_convex (l1r : ℝ) (hl : 0 ≤ l1r ∧ l1r ≤ 1) : ConvexFit twiceCfg levelRows l1r :=
  ⟨twice_convex.thr, twice_convex.valid, twice_convex.pair, twice_convex.y, twice_convex.sw, twice_convex.p1, twice_convex.p2, hl⟩

theorem levels_own (j : Fin 2) : OwnRidge 2 twiceCfg.P2a j := fun k _ hne => by
  have hne' : ¬ (j : ℕ) = k := fun e => hne e.symm
  simp [twiceCfg, userP2, hne, hne']

/-- Both levels with intercept and a ridge penalty: there is a solution, its coefficients add up to zero, and they are `±1/(1+2a)`. -/
example (a : ℝ) (ha : 0 < a) : ∃ (b0 : ℝ) (b : ℕ → ℝ),
    Solves 2 true twiceCfg.lb twiceCfg.ub (fitObjective 2 twiceCfg.e50 twiceCfg.family twiceCfg.link levelRows
      (penScale twiceCfg.thr twiceCfg.asIfScaled fun _ => 1) twiceCfg.P1a twiceCfg.P2a a 0) b0 b ∧ b 0 + b 1 = 0 ∧ 2 * b0 = (b0 + b 0) + (b0 + b 1) := by
  have hreg : RegularFit twiceCfg levelRows 0 a := ⟨by simp [levelRows, tinyRows], ha, one_pos, fun v hv => by
      have : ∑ j : Fin 2, ∑ k : Fin 2, userP2 twiceCfg.P2a j k * v j * v k = v 0 ^ 2 + v 1 ^ 2 := by
        simp [twiceCfg, userP2, Fin.sum_univ_two]; ring
      rw [this]
      by_contra hn
      push Not at hn
      have h0 : v 0 = 0 := by nlinarith [sq_nonneg (v 0), sq_nonneg (v 1)]
      have h1 : v 1 = 0 := by nlinarith [sq_nonneg (v 0), sq_nonneg (v 1)]
      exact hv (funext fun i => by fin_cases i <;> simp [h0, h1]), fun _ => (tiny_regular a ha).start rfl, fun _ => 0,
      fun j _ => ⟨(fun l hl => by cases hl), (fun u hu => by cases hu)⟩⟩
  obtain ⟨b0, b, hb, -⟩ := c90_unique_solution twiceCfg levelRows 0 a (levels_convex 0 ⟨le_rfl, zero_le_one⟩) hreg fun _ => 1
  refine ⟨b0, b, hb, ?_⟩
  have h := (c130_ridge twiceCfg levelRows _ a ha rfl rfl Finset.univ levels_full 1 one_pos
    (fun j _ => ⟨levels_own j, by simp [twiceCfg, userP2, penScale]⟩) b0 b hb).1
  rw [Fin.sum_univ_two] at h
  have h : b 0 + b 1 = 0 := h
  exact ⟨h, by linarith⟩

/-- A ridge fit (`alpha = 1`, IRLS with least squares inner solver) on both levels ends without warning, and its two coefficients add up to zero up to `gradient_tol`. -/
example (next : (ℕ → BitVec 32) → ℕ → (ℕ → BitVec 32)) (s : SolverLog) :
    ∃ s' r, glmFit (twiceCfg.forSolver .irlsLs) levelStats (irlsSolver next fun _ _ => lsInner invSolve) levelRows 0 (.single 1) s = some (s', r) ∧
      ∀ (hc : 0 < r.coefPath.length) (hb : 0 < r.interceptPath.length), |r.coefPath[0] 0 + r.coefPath[0] 1| ≤ 1 / 10000 := by
  have hst : TrueStats levelStats := fun _ _ _ _ => ⟨rfl, rfl⟩
  have hs0 : ∀ j, 0 ≤ (levelStats 2 levelRows.X levelRows.sw).2 j := fun j => Real.sqrt_nonneg _
  have hg2 : guessIntercept .normal .identity levelRows.y levelRows.sw .none = some 2 := by
    unfold guessIntercept
    rw [if_neg (by simp)]
    simp [average, levelRows, tinyRows]
    norm_num
  have hs : startGuess (twiceCfg.forSolver .irlsLs) levelRows = some 2 := hg2
  obtain ⟨Q, hQ⟩ : ∃ Q, prepare (twiceCfg.forSolver .irlsLs) levelStats levelRows 0 = some Q := by
    unfold prepare
    rw [hs]
    exact ⟨_, rfl⟩
  obtain ⟨r, hr, -⟩ := glmFit_single (twiceCfg.forSolver .irlsLs) levelStats (irlsSolver next fun _ _ => lsInner invSolve) levelRows 0 1 s Q hQ
    (by rintro ⟨l, u, h, -⟩; cases h) (fun _ => rfl)
  have hpen : ∀ j, penScale twiceCfg.thr twiceCfg.asIfScaled (levelStats 2 levelRows.X levelRows.sw).2 j = 1 := fun j => by simp [penScale, twiceCfg]
  have hquad : ∀ b : ℕ → ℝ, ∑ j : Fin 2, ∑ k : Fin 2, userP2 twiceCfg.P2a j k * (b j * 1) * (b k * 1) = b 0 ^ 2 + b 1 ^ 2 := fun b => by
    simp [twiceCfg, userP2, Fin.sum_univ_two]; ring
  have hw := (c76_fit_ls next invSolve invSolve_spec twiceCfg levelStats levelRows 0 (levels_convex 0 ⟨le_rfl, zero_le_one⟩) rfl rfl hs0
    (by simp [levelRows, tinyRows]) rfl rfl rfl (by norm_num [twiceCfg]) (by norm_num [twiceCfg]) (fun j => zero_mul _) 1 zero_le_one
    (by
      intro b0 b _ h h2
      simp only [hpen] at h2
      rw [hquad, sub_zero, one_mul, one_mul] at h2
      have z0 : b 0 = 0 := by nlinarith [sq_nonneg (b 0), sq_nonneg (b 1)]
      have z1 : b 1 = 0 := by nlinarith [sq_nonneg (b 0), sq_nonneg (b 1)]
      have h0 := h 0
      simp [levelRows, tinyRows, Fin.sum_univ_two, z0, z1] at h0
      refine ⟨h0, fun j hj => ?_⟩
      rcases (show j = 0 ∨ j = 1 by omega) with e | e <;> rw [e]
      · exact z0
      · exact z1)
    (by
      intro b0 b h i
      have ht : ∀ e, trueMean 0 .normal .identity e = e := fun _ => rfl
      have hd : ∀ y m, Family.unitDeviance .normal y m = (y - m) ^ 2 := fun _ _ => rfl
      have hc : coldIntercept true levelRows = 2 := by simp [coldIntercept, levelRows, tinyRows]; norm_num
      have hobj : ∀ (b0 : ℝ) (b : ℕ → ℝ), fitObjective 2 twiceCfg.e50 twiceCfg.family twiceCfg.link levelRows
          (penScale twiceCfg.thr twiceCfg.asIfScaled (levelStats 2 levelRows.X levelRows.sw).2) twiceCfg.P1a twiceCfg.P2a 1 0 b0 b
          = 1 / 4 * ((3 - (b 0 + b0)) ^ 2 + (1 - (b 1 + b0)) ^ 2) + 1 / 2 * (b 0 ^ 2 + b 1 ^ 2) := by
        intro b0 b
        show fitObjective 2 0 .normal .identity levelRows _ _ _ 1 0 b0 b = _
        unfold fitObjective
        simp only [hpen]
        rw [hquad]
        simp [ht, hd, levelRows, tinyRows, Fin.sum_univ_two]
        ring
      rw [hc] at h
      have h := (hobj b0 b).symm.le.trans (h.trans (hobj 2 (fun _ => 0)).le)
      have hlt : ∀ x y : ℝ, (y - x) ^ 2 ≤ 2 → y ≤ 3 → x < 10 ^ 43 := by
        intro x y h1 h2
        have : x - y ≤ 2 := by nlinarith
        linarith [show (5 : ℝ) < 10 ^ 43 by norm_num]
      have hx : ∑ j : Fin 2, levelRows.X i j * b j + b0 + (levelRows.off.getD fun _ => 0) i = if i = 0 then b 0 + b0 else b 1 + b0 := by
        fin_cases i <;> simp [levelRows, tinyRows, Fin.sum_univ_two]
      rw [hx]
      show _ < (10 : ℝ) ^ 43
      split
      · exact hlt _ 3 (by nlinarith [sq_nonneg (1 - (b 1 + b0)), sq_nonneg (b 0), sq_nonneg (b 1)]) le_rfl
      · exact hlt _ 1 (by nlinarith [sq_nonneg (3 - (b 0 + b0)), sq_nonneg (b 0), sq_nonneg (b 1)]) (by norm_num))
    s _ r hr).1
  refine ⟨_, r, hr, fun hc hb => ?_⟩
  have hal : r.alphas = [1] := by
    obtain ⟨Q, -, hal, -⟩ := glmFit_spec _ _ _ _ _ _ _ _ _ hr
    simpa [AlphaSpec.eval] using hal.symm
  have hi : 0 < r.alphas.length := by rw [hal]; simp
  have h0 : r.alphas[0] = 1 := by simp only [hal]; rfl
  have hcv0 := levels_convex 0 ⟨le_rfl, zero_le_one⟩
  have hcv : ConvexFit (twiceCfg.forSolver .irlsLs) levelRows 0 := ⟨hcv0.thr, hcv0.valid, hcv0.pair, hcv0.y, hcv0.sw, hcv0.p1, hcv0.p2, hcv0.l1⟩
  have key := c130_fit_ridge next (fun _ _ => lsInner invSolve) (twiceCfg.forSolver .irlsLs) levelStats hst levelRows (by simp [levelRows, tinyRows]) hcv rfl rfl rfl (.single 1) s _ r hr
    (by intro x hx; rw [hal] at hx; simp at hx; rw [hx]; exact zero_le_one) hw 0 hi hc hb Finset.univ levels_full
    (fun j _ i _ => by simp only [levelRows]; split <;> simp) 1 one_pos
    (fun j _ => ⟨levels_own j, by
      show userP2 twiceCfg.P2a j j * penScale twiceCfg.thr twiceCfg.asIfScaled (levelStats 2 levelRows.X levelRows.sw).2 j ^ 2 = 1
      rw [hpen]; simp [twiceCfg, userP2]⟩) (by rw [h0]; exact one_pos)
  rw [Fin.sum_univ_two, h0] at key
  have e5 : (twiceCfg.forSolver .irlsLs).gradTol = 1 / 10000 := rfl
  rw [e5] at key
  simpa using key

end Glum
