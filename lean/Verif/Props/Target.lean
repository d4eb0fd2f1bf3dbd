import Verif.Props.MirrorSign
import Verif.Props.Agree
import Verif.Props.Weights
import Mathlib.Analysis.Convex.Continuous
import Mathlib.Analysis.Convex.Deriv
import Mathlib.Topology.Order.Compact
/-
C90: the documented problem has exactly one solution, and fits without `ConvergenceWarning` tend to it as the tolerance is tightened.
-/
set_option linter.unusedSectionVars false
set_option linter.unusedVariables false
set_option linter.unusedSimpArgs false

namespace Glum
open Spec

/-! ### Convex functions on a finite-dimensional space -/

section Abstract

variable {E : Type*} [NormedAddCommGroup E] [NormedSpace ℝ E] [FiniteDimensional ℝ E]

/-- A convex function that is strictly larger everywhere else on a closed convex set than at `z` grows at least linearly away from `z`. -/
theorem convex_growth (F : E → ℝ) (hF : ConvexOn ℝ Set.univ F) (K : Set E) (hK : IsClosed K) (hKc : Convex ℝ K) (z : E) (hz : z ∈ K)
    (hmin : ∀ x ∈ K, x ≠ z → F z < F x) (ε : ℝ) (hε : 0 < ε) : ∃ c : ℝ, 0 < c ∧ ∀ x ∈ K, ε ≤ ‖x - z‖ → c * ‖x - z‖ ≤ F x - F z := by
  have : ProperSpace E := FiniteDimensional.proper ℝ E
  have hcont : Continuous F := by
    have := hF.continuousOn isOpen_univ
    exact continuousOn_univ.1 this
  have hcomp : IsCompact (K ∩ Metric.sphere z ε) := (isCompact_sphere z ε).inter_left hK
  have key : ∀ m : ℝ, 0 < m → (∀ x ∈ K ∩ Metric.sphere z ε, m ≤ F x - F z) → ∀ x ∈ K, ε ≤ ‖x - z‖ → m / ε * ‖x - z‖ ≤ F x - F z := by
    intro m hm hS x hx hd
    have hdp : 0 < ‖x - z‖ := lt_of_lt_of_le hε hd
    set t := ε / ‖x - z‖ with ht
    have ht0 : 0 < t := div_pos hε hdp
    have ht1 : t ≤ 1 := (div_le_one hdp).2 hd
    have hy : (1 - t) • z + t • x ∈ K := hKc hz hx (by linarith) ht0.le (by ring)
    have hys : (1 - t) • z + t • x ∈ Metric.sphere z ε := by
      rw [mem_sphere_iff_norm]
      have e : (1 - t) • z + t • x - z = t • (x - z) := by rw [sub_smul, one_smul, smul_sub]; abel
      rw [e, norm_smul, Real.norm_of_nonneg ht0.le, ht, div_mul_cancel₀ _ hdp.ne']
    have h1 := hS _ ⟨hy, hys⟩
    have h2 := hF.2 (Set.mem_univ z) (Set.mem_univ x) (show 0 ≤ 1 - t by linarith) ht0.le (by ring)
    simp only [smul_eq_mul] at h2
    have h3 : m ≤ t * (F x - F z) := by linarith
    rw [ht, div_mul_eq_mul_div, le_div_iff₀ hdp] at h3
    rw [div_mul_eq_mul_div, div_le_iff₀ hε]
    linarith
  rcases (K ∩ Metric.sphere z ε).eq_empty_or_nonempty with he | hne
  · exact ⟨1 / ε, by positivity, key 1 one_pos (by rw [he]; intro x hx; exact absurd hx (Set.notMem_empty x))⟩
  · obtain ⟨y, hy, hym⟩ := hcomp.exists_isMinOn hne hcont.continuousOn
    have hyz : y ≠ z := by
      rintro rfl
      have := hy.2
      rw [mem_sphere_iff_norm, sub_self, _root_.norm_zero] at this
      exact hε.ne this
    have hm : 0 < F y - F z := sub_pos.2 (hmin y hy.1 hyz)
    refine ⟨(F y - F z) / ε, div_pos hm hε, key _ hm fun x hx => ?_⟩
    have : F y ≤ F x := hym hx
    linarith

/-- A continuous function with bounded level sets on a closed non-empty set attains its minimum. -/
theorem exists_min (F : E → ℝ) (hF : Continuous F) (K : Set E) (hK : IsClosed K) (x0 : E) (hx0 : x0 ∈ K) (r : ℝ)
    (hb : ∀ x ∈ K, F x ≤ F x0 → ‖x‖ ≤ r) : ∃ z ∈ K, ∀ x ∈ K, F z ≤ F x := by
  have : ProperSpace E := FiniteDimensional.proper ℝ E
  have hcl : IsClosed (K ∩ {x | F x ≤ F x0}) := hK.inter (isClosed_le hF continuous_const)
  have hcomp : IsCompact (K ∩ {x | F x ≤ F x0}) := by
    refine (isCompact_closedBall (0 : E) r).of_isClosed_subset hcl fun x hx => ?_
    rw [mem_closedBall_zero_iff]
    exact hb x hx.1 hx.2
  obtain ⟨z, hz, hzm⟩ := hcomp.exists_isMinOn ⟨x0, hx0, le_refl (F x0)⟩ hF.continuousOn
  refine ⟨z, hz.1, fun x hx => ?_⟩
  by_cases h : F x ≤ F x0
  · exact hzm ⟨hx, h⟩
  · exact (show F z ≤ F x0 from hz.2).trans (not_le.1 h).le

end Abstract

/-- A convex function on the line with a strict minimum at `g`: bounded values only on a bounded set. -/
theorem line_coercive (f : ℝ → ℝ) (hf : ConvexOn ℝ Set.univ f) (g : ℝ) (hg : ∀ t, t ≠ g → f g < f t) (c : ℝ) :
    ∃ r : ℝ, ∀ t, f t ≤ c → |t| ≤ r := by
  obtain ⟨m, hm, hgrow⟩ := convex_growth f hf Set.univ isClosed_univ convex_univ g (Set.mem_univ _) (fun x _ hx => hg x hx) 1 one_pos
  refine ⟨|g| + max 1 ((c - f g) / m), fun t ht => ?_⟩
  have h1 : |t - g| ≤ max 1 ((c - f g) / m) := by
    by_cases h : 1 ≤ |t - g|
    · have := hgrow t (Set.mem_univ _) h
      rw [Real.norm_eq_abs] at this
      refine le_max_of_le_right ?_
      rw [le_div_iff₀ hm]
      linarith
    · exact le_max_of_le_left (not_le.1 h).le
  have h2 : |t| ≤ |t - g| + |g| := by
    have := abs_add_le (t - g) g
    rwa [sub_add_cancel] at this
  linarith

/-! ### The documented objective as a function on a finite-dimensional space -/

variable {n p : ℕ} {ic : Bool}

/-- Finitely many coefficients as a sequence. -/
noncomputable def extend (b : Fin p → ℝ) (j : ℕ) : ℝ := if h : j < p then b ⟨j, h⟩ else 0

theorem extend_fin (b : Fin p → ℝ) (j : Fin p) : extend b j = b j := by simp [extend]

/-- The documented objective, intercept and coefficients as one point. -/
noncomputable def objAt (C : FitCfg p ic) (R : Rows n) (s : ℕ → ℝ) (a l1r : ℝ) (z : ℝ × (Fin p → ℝ)) : ℝ :=
  fitObjective p C.e50 C.family C.link R s C.P1a C.P2a a l1r z.1 (extend z.2)

/-- The linear predictor of a row. -/
noncomputable def predAt (R : Rows n) (i : Fin n) (z : ℝ × (Fin p → ℝ)) : ℝ :=
  ∑ j : Fin p, R.X i j * z.2 j + z.1 + (R.off.getD fun _ => 0) i

theorem predAt_combo (R : Rows n) (i : Fin n) (x y : ℝ × (Fin p → ℝ)) (u v : ℝ) (huv : u + v = 1) :
    predAt R i (u • x + v • y) = u * predAt R i x + v * predAt R i y := by
  unfold predAt
  simp only [Prod.fst_add, Prod.snd_add, Prod.smul_fst, Prod.smul_snd, Pi.add_apply, Pi.smul_apply, smul_eq_mul, mul_add, Finset.sum_add_distrib,
    Finset.mul_sum]
  have e : ∀ (t : ℝ) (w : Fin p → ℝ), ∑ j : Fin p, R.X i j * (t * w j) = ∑ j : Fin p, t * (R.X i j * w j) :=
    fun t w => Finset.sum_congr rfl fun j _ => by ring
  rw [e, e]
  have : (R.off.getD fun _ => 0) i = u * (R.off.getD fun _ => 0) i + v * (R.off.getD fun _ => 0) i := by rw [← add_mul, huv, one_mul]
  linarith

/-- The loss of one row at a linear predictor. -/
noncomputable def rowLoss (C : FitCfg p ic) (R : Rows n) (i : Fin n) (e : ℝ) : ℝ :=
  R.sw i * C.family.unitDeviance (R.y i) (trueMean C.e50 C.family C.link e)

/-- The ridge form. -/
noncomputable def ridgeForm (C : FitCfg p ic) (s : ℕ → ℝ) (v : Fin p → ℝ) : ℝ :=
  ∑ j : Fin p, ∑ k : Fin p, userP2 C.P2a j k * (v j * s j) * (v k * s k)

theorem objAt_eq (C : FitCfg p ic) (R : Rows n) (s : ℕ → ℝ) (a l1r : ℝ) (z : ℝ × (Fin p → ℝ)) :
    objAt C R s a l1r z = 1 / 2 * ∑ i, rowLoss C R i (predAt R i z) + a * l1r * ∑ j : Fin p, userP1 C.P1a j * |z.2 j * s j|
      + a * (1 - l1r) * (1 / 2 * ridgeForm C s z.2) := by
  unfold objAt fitObjective rowLoss predAt ridgeForm
  simp only [extend_fin]

theorem ridgeForm_combo (C : FitCfg p ic) (s : ℕ → ℝ) (x y : Fin p → ℝ) (u v : ℝ) (huv : u + v = 1) :
    ridgeForm C s (u • x + v • y) = u * ridgeForm C s x + v * ridgeForm C s y - u * v * ridgeForm C s (x - y) := by
  obtain rfl : v = 1 - u := by linarith
  unfold ridgeForm
  simp only [Finset.mul_sum, ← Finset.sum_add_distrib, ← Finset.sum_sub_distrib, Pi.add_apply, Pi.smul_apply, Pi.sub_apply, smul_eq_mul]
  refine Finset.sum_congr rfl fun j _ => Finset.sum_congr rfl fun k _ => ?_
  ring

theorem ridgeForm_convex (C : FitCfg p ic) (s : ℕ → ℝ) (hp : ∀ v : Fin p → ℝ, 0 ≤ ∑ j : Fin p, ∑ k : Fin p, userP2 C.P2a j k * v j * v k) :
    ConvexOn ℝ Set.univ (ridgeForm C s) := by
  refine ⟨convex_univ, fun x _ y _ u v hu hv huv => ?_⟩
  rw [ridgeForm_combo C s x y u v huv]
  have := mul_nonneg (mul_nonneg hu hv) (hp fun j => (x - y) j * s j)
  simp only [smul_eq_mul]
  unfold ridgeForm at *
  linarith

theorem objAt_convex (C : FitCfg p ic) (R : Rows n) (l1r : ℝ) (h : ConvexFit C R l1r) (s : ℕ → ℝ) (a : ℝ) (ha : 0 ≤ a) :
    ConvexOn ℝ Set.univ (objAt C R s a l1r) := by
  refine ⟨convex_univ, fun x _ y _ u v hu hv huv => ?_⟩
  have h1 : ∑ i, rowLoss C R i (predAt R i (u • x + v • y)) ≤ u * ∑ i, rowLoss C R i (predAt R i x) + v * ∑ i, rowLoss C R i (predAt R i y) := by
    rw [Finset.mul_sum, Finset.mul_sum, ← Finset.sum_add_distrib]
    refine Finset.sum_le_sum fun i _ => ?_
    rw [predAt_combo R i x y u v huv]
    exact (doc_row_convex C R l1r h i).2 (Set.mem_univ _) (Set.mem_univ _) hu hv huv
  have h2 : ∑ j : Fin p, userP1 C.P1a j * |(u • x + v • y).2 j * s j|
      ≤ u * ∑ j : Fin p, userP1 C.P1a j * |x.2 j * s j| + v * ∑ j : Fin p, userP1 C.P1a j * |y.2 j * s j| := by
    rw [Finset.mul_sum, Finset.mul_sum, ← Finset.sum_add_distrib]
    refine Finset.sum_le_sum fun j _ => ?_
    have e : (u • x + v • y).2 j * s j = u * (x.2 j * s j) + v * (y.2 j * s j) := by
      simp only [Prod.snd_add, Prod.smul_snd, Pi.add_apply, Pi.smul_apply, smul_eq_mul]; ring
    have : |(u • x + v • y).2 j * s j| ≤ u * |x.2 j * s j| + v * |y.2 j * s j| := by
      rw [e]
      refine (abs_add_le _ _).trans ?_
      rw [abs_mul, abs_mul v, abs_of_nonneg hu, abs_of_nonneg hv]
    have := mul_le_mul_of_nonneg_left this (h.p1 j)
    linarith
  have h3 := (ridgeForm_convex C s h.p2).2 (Set.mem_univ x.2) (Set.mem_univ y.2) hu hv huv
  simp only [smul_eq_mul] at h3 ⊢
  have e3 : (u • x + v • y).2 = u • x.2 + v • y.2 := rfl
  rw [objAt_eq, objAt_eq, objAt_eq, e3]
  have k2 := mul_le_mul_of_nonneg_left h2 (mul_nonneg ha h.l1.1)
  rw [e3] at k2
  have k3 := mul_le_mul_of_nonneg_left h3 (mul_nonneg ha (show 0 ≤ 1 - l1r by linarith [h.l1.2]))
  linarith

theorem objAt_continuous (C : FitCfg p ic) (R : Rows n) (l1r : ℝ) (h : ConvexFit C R l1r) (s : ℕ → ℝ) (a : ℝ) (ha : 0 ≤ a) :
    Continuous (objAt C R s a l1r) :=
  continuousOn_univ.1 ((objAt_convex C R l1r h s a ha).continuousOn isOpen_univ)

/-- The predicted mean of a compiled pair is in the range of the family. -/
theorem trueMean_range (C : FitCfg p ic) (k : Fast) (hk : C.family.fast C.link = some k) (e : ℝ) : trueMean C.e50 C.family C.link e = k.mu e := by
  have hm := fast_mu_spec hk e
  rcases fast_cases hk with ⟨rfl, hl, hf | hf⟩ | ⟨rfl, hl, hf | hf⟩ | ⟨rfl, hl, hf | hf⟩ | ⟨rfl, hl, hf | hf⟩ |
    ⟨q, rfl, hl, hf, h1, h2⟩ | ⟨rfl, hl, hf⟩ | ⟨t, rfl, hl, hf⟩ <;> rw [hl, hf] <;> try rfl
  rw [fast_mu_logit]; rfl

theorem rowLoss_nonneg (C : FitCfg p ic) (R : Rows n) (l1r : ℝ) (h : ConvexFit C R l1r) (i : Fin n) (e : ℝ) : 0 ≤ rowLoss C R i e := by
  obtain ⟨k, hk, -⟩ := h.pair
  refine mul_nonneg (h.sw i) (unitDeviance_nonneg C.family h.valid _ _ (h.y i) ?_)
  rw [trueMean_range C k hk]
  exact (fast_mu_spec hk e).1

/-- A positive definite ridge form bounds the coefficients. -/
theorem ridge_coercive (C : FitCfg p ic) (s : ℕ → ℝ) (hs : ∀ j < p, s j ≠ 0)
    (hpd : ∀ v : Fin p → ℝ, v ≠ 0 → 0 < ∑ j : Fin p, ∑ k : Fin p, userP2 C.P2a j k * v j * v k) (c : ℝ) :
    ∃ r : ℝ, ∀ v : Fin p → ℝ, ridgeForm C s v ≤ c → ‖v‖ ≤ r := by
  have hps : ∀ v : Fin p → ℝ, 0 ≤ ∑ j : Fin p, ∑ k : Fin p, userP2 C.P2a j k * v j * v k := by
    intro v
    by_cases hv : v = 0
    · rw [hv]; simp
    · exact (hpd v hv).le
  have h0 : ridgeForm C s 0 = 0 := by simp [ridgeForm]
  have hmin : ∀ v ∈ (Set.univ : Set (Fin p → ℝ)), v ≠ 0 → ridgeForm C s 0 < ridgeForm C s v := by
    intro v _ hv
    rw [h0]
    refine hpd (fun j => v j * s j) fun h => hv ?_
    funext j
    have := congrFun h j
    rcases mul_eq_zero.1 this with h' | h'
    · exact h'
    · exact absurd h' (hs j j.2)
  obtain ⟨m, hm, hgrow⟩ := convex_growth (ridgeForm C s) (ridgeForm_convex C s hps) Set.univ isClosed_univ convex_univ 0 (Set.mem_univ _) hmin 1 one_pos
  refine ⟨max 1 (c / m), fun v hv => ?_⟩
  by_cases h : 1 ≤ ‖v‖
  · have := hgrow v (Set.mem_univ _) (by rwa [sub_zero])
    rw [sub_zero, h0, sub_zero] at this
    refine le_max_of_le_right ?_
    rw [le_div_iff₀ hm]
    linarith
  · exact le_max_of_le_left (not_le.1 h).le

theorem rowLoss_convex (C : FitCfg p ic) (R : Rows n) (l1r : ℝ) (h : ConvexFit C R l1r) (i : Fin n) : ConvexOn ℝ Set.univ (rowLoss C R i) :=
  doc_row_convex C R l1r h i

theorem rowLoss_continuous (C : FitCfg p ic) (R : Rows n) (l1r : ℝ) (h : ConvexFit C R l1r) (i : Fin n) : Continuous (rowLoss C R i) :=
  continuousOn_univ.1 ((rowLoss_convex C R l1r h i).continuousOn isOpen_univ)

theorem sumLoss_convex (C : FitCfg p ic) (R : Rows n) (l1r : ℝ) (h : ConvexFit C R l1r) : ConvexOn ℝ Set.univ fun e => ∑ i, rowLoss C R i e := by
  refine ⟨convex_univ, fun x _ y _ u v hu hv huv => ?_⟩
  simp only [smul_eq_mul]
  rw [Finset.mul_sum, Finset.mul_sum, ← Finset.sum_add_distrib]
  exact Finset.sum_le_sum fun i _ => (rowLoss_convex C R l1r h i).2 (Set.mem_univ _) (Set.mem_univ _) hu hv huv

/-- The loss of a model with bounded coefficients bounds its intercept. -/
theorem intercept_bounded (C : FitCfg p ic) (R : Rows n) (l1r : ℝ) (h : ConvexFit C R l1r) (g : ℝ)
    (hg : ∀ t, t ≠ g → ∑ i, rowLoss C R i g < ∑ i, rowLoss C R i t) (r c : ℝ) :
    ∃ r0 : ℝ, ∀ z : ℝ × (Fin p → ℝ), ‖z.2‖ ≤ r → ∑ i, rowLoss C R i (predAt R i z) ≤ c → |z.1| ≤ r0 := by
  -- the loss at the mirrored linear predictors without intercept is bounded
  have hcont : Continuous fun v : Fin p → ℝ => ∑ i, rowLoss C R i (-(∑ j : Fin p, R.X i j * v j + (R.off.getD fun _ => 0) i)) := by
    refine continuous_finsetSum _ fun i _ => (rowLoss_continuous C R l1r h i).comp ?_
    fun_prop
  obtain ⟨M, hM⟩ : ∃ M : ℝ, ∀ v : Fin p → ℝ, ‖v‖ ≤ r → ∑ i, rowLoss C R i (-(∑ j : Fin p, R.X i j * v j + (R.off.getD fun _ => 0) i)) ≤ M := by
    obtain ⟨M, hM⟩ := (isCompact_closedBall (0 : Fin p → ℝ) r).bddAbove_image hcont.continuousOn
    exact ⟨M, fun v hv => hM ⟨v, by rwa [mem_closedBall_zero_iff], rfl⟩⟩
  obtain ⟨r0, hr0⟩ := line_coercive _ (sumLoss_convex C R l1r h) g hg ((c + M) / 2)
  refine ⟨2 * r0, fun z hz hc => ?_⟩
  have h1 : ∑ i, rowLoss C R i (z.1 / 2) ≤ (c + M) / 2 := by
    have : ∑ i, rowLoss C R i (z.1 / 2) ≤ (∑ i, rowLoss C R i (predAt R i z)
        + ∑ i, rowLoss C R i (-(∑ j : Fin p, R.X i j * z.2 j + (R.off.getD fun _ => 0) i))) / 2 := by
      rw [← Finset.sum_add_distrib, Finset.sum_div]
      refine Finset.sum_le_sum fun i _ => ?_
      have := half_convex (rowLoss_convex C R l1r h i) (predAt R i z) (-(∑ j : Fin p, R.X i j * z.2 j + (R.off.getD fun _ => 0) i))
      have e : (predAt R i z + -(∑ j : Fin p, R.X i j * z.2 j + (R.off.getD fun _ => 0) i)) / 2 = z.1 / 2 := by unfold predAt; ring
      rwa [e] at this
    have := hM z.2 hz
    linarith
  have := hr0 _ h1
  rw [abs_div, abs_of_pos (show (0 : ℝ) < 2 by norm_num)] at this
  linarith

/-- The true curvature of a row with positive weight is positive on every compiled path except inverse Gaussian. -/
theorem trueCurvature_pos {f : Family} (hf : Valid f) {l : Link} {k : Fast} (h : f.fast l = some k) (hk : k ≠ .invGaussianLog)
    (y w eta : ℝ) (hw : 0 < w) (hy : y ∈ ySupport f) : 0 < trueCurvature k y w (k.mu eta) := by
  have hpos := Real.exp_pos eta
  rcases fast_cases h with ⟨rfl, rfl, _⟩ | ⟨rfl, rfl, _⟩ | ⟨rfl, rfl, hg⟩ | ⟨rfl, rfl, _⟩ |
    ⟨p, rfl, rfl, rfl, h1, h2⟩ | ⟨rfl, rfl, rfl⟩ | ⟨t, rfl, rfl, rfl⟩
  · simpa [trueCurvature, Fast.hess] using hw
  · simp only [trueCurvature, Fast.hess, Fast.mu]; positivity
  · have hy0 : 0 < y := by
      rcases hg with rfl | rfl
      · exact hy
      · rcases hy with hy | hy | hy
        · norm_num at hy
        · norm_num at hy
        · exact hy
    simp only [trueCurvature, Fast.hess, Fast.mu]; positivity
  · exact absurd rfl hk
  · have hy0 : 0 ≤ y := by
      rcases hy with hy | hy | hy
      · linarith
      · exact hy.2
      · exact hy.le
    simp only [trueCurvature, Fast.hess, Fast.mu]
    have h3 := Real.rpow_pos_of_pos hpos (1 - p)
    have h4 : 0 < Real.exp eta - (1 - p) * (y - Real.exp eta) := by
      have b1 : 0 ≤ (p - 1) * y := mul_nonneg (by linarith) hy0
      have b2 : 0 < (2 - p) * Real.exp eta := mul_pos (by linarith) hpos
      linarith
    positivity
  · simp only [trueCurvature, Fast.hess, fast_mu_logit]
    have := expit_pos eta
    have : 0 < 1 - expit eta := by have := expit_lt_one eta; linarith
    positivity
  · have ht : 0 < t := hf
    have hy0 : 0 ≤ y := hy
    simp only [trueCurvature, Fast.mu]
    have hd : 0 < 1 + t * Real.exp eta := by positivity
    have e : Real.exp eta / (1 + t * Real.exp eta) + (y - Real.exp eta) * (t * Real.exp eta) / (1 + t * Real.exp eta) ^ 2
        = Real.exp eta * (1 + t * y) / (1 + t * Real.exp eta) ^ 2 := by
      field_simp; ring
    rw [e]; positivity

/-- The loss of a row with positive weight is strictly convex in its linear predictor. -/
theorem rowLoss_strict (C : FitCfg p ic) (R : Rows n) (l1r : ℝ) (h : ConvexFit C R l1r) (i : Fin n) (hw : 0 < R.sw i) :
    StrictConvexOn ℝ Set.univ (rowLoss C R i) := by
  obtain ⟨k, hk, hne⟩ := h.pair
  have hd : ∀ e, HasDerivAt (rowLoss C R i) (-2 * k.grad (R.y i) (R.sw i) (k.mu e)) e := by
    intro e
    have := fast_dev_hasDeriv h.valid hk (R.y i) (R.sw i) e (h.y i)
    obtain ⟨c, hc⟩ := rowFam_dev C.e50 C.family h.valid C.link (R.y i) (h.y i)
    have e1 : rowLoss C R i = fun e => R.sw i * k.dev (R.y i) e + R.sw i * c := by
      funext x
      have := hc x
      unfold rowFam at this
      rw [hk] at this
      simp only [fastRow] at this
      unfold rowLoss
      rw [this]; ring
    rw [e1]
    exact this.add_const _
  have hder : deriv (rowLoss C R i) = fun e => -2 * k.grad (R.y i) (R.sw i) (k.mu e) := funext fun e => (hd e).deriv
  refine StrictMono.strictConvexOn_univ_of_deriv (continuous_iff_continuousAt.2 fun e => (hd e).continuousAt) ?_
  rw [hder]
  refine strictMono_of_deriv_pos fun e => ?_
  rw [((fast_grad_hasDeriv h.valid hk (R.y i) (R.sw i) e).const_mul (-2)).deriv]
  have := trueCurvature_pos h.valid hk hne (R.y i) (R.sw i) e hw (h.y i)
  linarith

/-- The points the fit chooses from. -/
def feasible (C : FitCfg p ic) : Set (ℝ × (Fin p → ℝ)) :=
  {z | (ic = false → z.1 = 0) ∧ ∀ j : Fin p, (∀ l, C.lb = some l → l j ≤ z.2 j) ∧ (∀ u, C.ub = some u → z.2 j ≤ u j)}

theorem feasible_closed (C : FitCfg p ic) : IsClosed (feasible C) := by
  have e : feasible C = (⋂ (_ : ic = false), {z | z.1 = 0}) ∩ ⋂ j : Fin p, (⋂ l, ⋂ (_ : C.lb = some l), {z | l j ≤ z.2 j}) ∩
      (⋂ u, ⋂ (_ : C.ub = some u), {z | z.2 j ≤ u j}) := by
    ext z
    simp [feasible]
  rw [e]
  refine IsClosed.inter (isClosed_iInter fun _ => isClosed_eq continuous_fst continuous_const) (isClosed_iInter fun j => IsClosed.inter ?_ ?_)
  · exact isClosed_iInter fun l => isClosed_iInter fun _ => isClosed_le continuous_const (by fun_prop)
  · exact isClosed_iInter fun l => isClosed_iInter fun _ => isClosed_le (by fun_prop) continuous_const

theorem feasible_convex (C : FitCfg p ic) : Convex ℝ (feasible C) := by
  intro x hx y hy u v hu hv huv
  refine ⟨fun hi => ?_, fun j => ⟨fun l hl => ?_, fun l hl => ?_⟩⟩
  · simp [hx.1 hi, hy.1 hi]
  · have a1 := mul_le_mul_of_nonneg_left ((hx.2 j).1 l hl) hu
    have a2 := mul_le_mul_of_nonneg_left ((hy.2 j).1 l hl) hv
    have e : l j = u * l j + v * l j := by rw [← add_mul, huv, one_mul]
    show l j ≤ u * x.2 j + v * y.2 j
    linarith
  · have a1 := mul_le_mul_of_nonneg_left ((hx.2 j).2 l hl) hu
    have a2 := mul_le_mul_of_nonneg_left ((hy.2 j).2 l hl) hv
    have e : l j = u * l j + v * l j := by rw [← add_mul, huv, one_mul]
    show u * x.2 j + v * y.2 j ≤ l j
    linarith

theorem penScale_ne (thr : ℝ) (ht : 0 < thr) (asIf : Bool) (stds : ℕ → ℝ) (j : ℕ) : penScale thr asIf stds j ≠ 0 := by
  unfold penScale
  split
  · split
    · exact one_ne_zero
    · next h => exact (lt_of_lt_of_le ht (not_lt.1 h)).ne'
  · exact one_ne_zero

/-- The objective has a minimum over the feasible points, attained at one point only. -/
theorem unique_min (C : FitCfg p ic) (R : Rows n) (l1r : ℝ) (h : ConvexFit C R l1r) (hsw : ∑ i, R.sw i = 1) (s : ℕ → ℝ) (hs : ∀ j < p, s j ≠ 0)
    (a : ℝ) (ha : 0 < a) (hl : l1r < 1)
    (hpd : ∀ v : Fin p → ℝ, v ≠ 0 → 0 < ∑ j : Fin p, ∑ k : Fin p, userP2 C.P2a j k * v j * v k)
    (hg : ic = true → ∃ g, ∀ t, t ≠ g → ∑ i, rowLoss C R i g < ∑ i, rowLoss C R i t) (hne : (feasible C).Nonempty) :
    ∃ z ∈ feasible C, ∀ x ∈ feasible C, x ≠ z → objAt C R s a l1r z < objAt C R s a l1r x := by
  have hal : 0 < a * (1 - l1r) := mul_pos ha (by linarith)
  obtain ⟨x0, hx0⟩ := hne
  have hpen : ∀ z : ℝ × (Fin p → ℝ), 0 ≤ a * l1r * ∑ j : Fin p, userP1 C.P1a j * |z.2 j * s j| := fun z =>
    mul_nonneg (mul_nonneg ha.le h.l1.1) (Finset.sum_nonneg fun j _ => mul_nonneg (h.p1 j) (abs_nonneg _))
  have hloss : ∀ z : ℝ × (Fin p → ℝ), 0 ≤ ∑ i, rowLoss C R i (predAt R i z) := fun z => Finset.sum_nonneg fun i _ => rowLoss_nonneg C R l1r h i _
  have hrid : ∀ v : Fin p → ℝ, 0 ≤ ridgeForm C s v := fun v => h.p2 fun j => v j * s j
  obtain ⟨r1, hr1⟩ := ridge_coercive C s hs hpd (2 * objAt C R s a l1r x0 / (a * (1 - l1r)))
  have hb1 : ∀ z, objAt C R s a l1r z ≤ objAt C R s a l1r x0 → ‖z.2‖ ≤ r1 := by
    intro z hz
    refine hr1 _ ?_
    rw [le_div_iff₀ hal]
    have := hpen z; have := hloss z
    rw [objAt_eq] at hz
    linarith
  have hb2 : ∃ r0 : ℝ, ∀ z ∈ feasible C, objAt C R s a l1r z ≤ objAt C R s a l1r x0 → |z.1| ≤ r0 := by
    rcases Bool.eq_false_or_eq_true ic with hic | hic
    swap
    · exact ⟨0, fun z hz _ => by rw [hz.1 hic, abs_zero]⟩
    · obtain ⟨g, hgm⟩ := hg hic
      obtain ⟨r0, hr0⟩ := intercept_bounded C R l1r h g hgm r1 (2 * objAt C R s a l1r x0)
      refine ⟨r0, fun z _ hz => hr0 z (hb1 z hz) ?_⟩
      have := hpen z; have := mul_nonneg hal.le (hrid z.2)
      rw [objAt_eq] at hz
      linarith
  obtain ⟨r0, hr0⟩ := hb2
  obtain ⟨z, hz, hmin⟩ := exists_min (objAt C R s a l1r) (objAt_continuous C R l1r h s a ha.le) (feasible C) (feasible_closed C) x0 hx0 (max r0 r1)
    (fun x hx hle => by
      rw [Prod.norm_def, Real.norm_eq_abs]
      exact max_le_max (hr0 x hx hle) (hb1 x hle))
  refine ⟨z, hz, fun x hx hxz => lt_of_le_of_ne (hmin x hx) fun heq => ?_⟩
  -- the middle point would be better
  have hmid : (1 / 2 : ℝ) • x + (1 / 2 : ℝ) • z ∈ feasible C := feasible_convex C hx hz (by norm_num) (by norm_num) (by norm_num)
  have hle := hmin _ hmid
  have e1 : ∑ i, rowLoss C R i (predAt R i ((1 / 2 : ℝ) • x + (1 / 2 : ℝ) • z))
      ≤ 1 / 2 * ∑ i, rowLoss C R i (predAt R i x) + 1 / 2 * ∑ i, rowLoss C R i (predAt R i z) := by
    rw [Finset.mul_sum, Finset.mul_sum, ← Finset.sum_add_distrib]
    refine Finset.sum_le_sum fun i _ => ?_
    rw [predAt_combo R i x z _ _ (by norm_num)]
    exact (rowLoss_convex C R l1r h i).2 (Set.mem_univ _) (Set.mem_univ _) (by norm_num) (by norm_num) (by norm_num)
  have e2 : ∑ j : Fin p, userP1 C.P1a j * |((1 / 2 : ℝ) • x + (1 / 2 : ℝ) • z).2 j * s j|
      ≤ 1 / 2 * ∑ j : Fin p, userP1 C.P1a j * |x.2 j * s j| + 1 / 2 * ∑ j : Fin p, userP1 C.P1a j * |z.2 j * s j| := by
    rw [Finset.mul_sum, Finset.mul_sum, ← Finset.sum_add_distrib]
    refine Finset.sum_le_sum fun j _ => ?_
    have e : ((1 / 2 : ℝ) • x + (1 / 2 : ℝ) • z).2 j * s j = 1 / 2 * (x.2 j * s j) + 1 / 2 * (z.2 j * s j) := by
      simp only [Prod.snd_add, Prod.smul_snd, Pi.add_apply, Pi.smul_apply, smul_eq_mul]; ring
    have : |((1 / 2 : ℝ) • x + (1 / 2 : ℝ) • z).2 j * s j| ≤ 1 / 2 * |x.2 j * s j| + 1 / 2 * |z.2 j * s j| := by
      rw [e]
      refine (abs_add_le _ _).trans ?_
      rw [abs_mul, abs_mul (1 / 2), abs_of_pos (show (0 : ℝ) < 1 / 2 by norm_num)]
    have := mul_le_mul_of_nonneg_left this (h.p1 j)
    linarith
  have e3 := ridgeForm_combo C s x.2 z.2 (1 / 2) (1 / 2) (by norm_num)
  have e4 : ((1 / 2 : ℝ) • x + (1 / 2 : ℝ) • z).2 = (1 / 2 : ℝ) • x.2 + (1 / 2 : ℝ) • z.2 := rfl
  have k2 := mul_le_mul_of_nonneg_left e2 (mul_nonneg ha.le h.l1.1)
  have k3 := mul_nonneg hal.le (hrid (x.2 - z.2))
  have heq' := heq
  rw [objAt_eq, objAt_eq] at heq'
  rw [objAt_eq, objAt_eq C R s a l1r (_ + _), e4, e3] at hle
  rw [e4] at k2
  have hb : x.2 = z.2 := by
    by_contra hn
    have hpos : 0 < ridgeForm C s (x.2 - z.2) := by
      refine hpd (fun j => (x.2 - z.2) j * s j) fun h0 => hn ?_
      funext j
      have := congrFun h0 j
      rcases mul_eq_zero.1 this with h' | h'
      · exact sub_eq_zero.1 h'
      · exact absurd h' (hs j j.2)
    have := mul_pos hal hpos
    linarith
  have h1ne : x.1 ≠ z.1 := fun h1 => hxz (Prod.ext h1 hb)
  -- some row has positive weight
  obtain ⟨i, hi⟩ : ∃ i, 0 < R.sw i := by
    by_contra hn
    push Not at hn
    have : ∑ i, R.sw i ≤ 0 := Finset.sum_nonpos fun i _ => hn i
    linarith
  have hpne : predAt R i x ≠ predAt R i z := by
    unfold predAt
    rw [hb]
    intro h'
    exact h1ne (by linarith)
  have e1' : ∑ i, rowLoss C R i (predAt R i ((1 / 2 : ℝ) • x + (1 / 2 : ℝ) • z))
      < 1 / 2 * ∑ i, rowLoss C R i (predAt R i x) + 1 / 2 * ∑ i, rowLoss C R i (predAt R i z) := by
    rw [Finset.mul_sum, Finset.mul_sum, ← Finset.sum_add_distrib]
    refine Finset.sum_lt_sum (fun i _ => ?_) ⟨i, Finset.mem_univ i, ?_⟩
    · rw [predAt_combo R i x z _ _ (by norm_num)]
      exact (rowLoss_convex C R l1r h i).2 (Set.mem_univ _) (Set.mem_univ _) (by norm_num) (by norm_num) (by norm_num)
    · rw [predAt_combo R i x z _ _ (by norm_num)]
      exact (rowLoss_strict C R l1r h i hi).2 (Set.mem_univ _) (Set.mem_univ _) hpne (by norm_num) (by norm_num) (by norm_num)
  linarith

/-! ### C90 -/

/-- The intercept `b0` and the first `p` coefficients `b` solve the problem of minimising `F` within the bounds (intercept 0 if there is none). -/
def Spec.Solves (p : ℕ) (ic : Bool) (lb ub : Option (ℕ → ℝ)) (F : ℝ → (ℕ → ℝ) → ℝ) (b0 : ℝ) (b : ℕ → ℝ) : Prop :=
  (ic = false → b0 = 0) ∧ WithinBounds p lb ub b ∧
    ∀ (c0 : ℝ) (c : ℕ → ℝ), (ic = false → c0 = 0) → WithinBounds p lb ub c → F b0 b ≤ F c0 c

/-- The problem is regular: a positive definite ridge penalty with positive strength and, if there is an intercept, a response for which the start
value of the intercept is defined (not constant, a positive mean with log link, a mean strictly between 0 and 1 with logit link), and bounds that
leave room. -/
structure Spec.RegularFit (C : FitCfg p ic) (R : Rows n) (l1r a : ℝ) : Prop where
  weights : ∑ i, R.sw i = 1
  alpha : 0 < a
  mix : l1r < 1
  posdef : ∀ v : Fin p → ℝ, v ≠ 0 → 0 < ∑ j : Fin p, ∑ k : Fin p, userP2 C.P2a j k * v j * v k
  start : ic = true → ∃ g, guessIntercept C.family C.link R.y R.sw .none = some g
  room : ∃ b, WithinBounds p C.lb C.ub b

/-- A solution as a point. -/
def restrict (b0 : ℝ) (b : ℕ → ℝ) : ℝ × (Fin p → ℝ) := (b0, fun j => b j)

theorem restrict_feasible (C : FitCfg p ic) (b0 : ℝ) (b : ℕ → ℝ) (h0 : ic = false → b0 = 0) (hb : WithinBounds p C.lb C.ub b) :
    restrict b0 b ∈ feasible C := ⟨h0, fun j => hb j j.2⟩

theorem feasible_bounds (C : FitCfg p ic) (z : ℝ × (Fin p → ℝ)) (hz : z ∈ feasible C) : WithinBounds p C.lb C.ub (extend z.2) := by
  intro j hj
  have := hz.2 ⟨j, hj⟩
  unfold extend
  simp only [hj, dif_pos]
  exact this

theorem objAt_restrict (C : FitCfg p ic) (R : Rows n) (s : ℕ → ℝ) (a l1r b0 : ℝ) (b : ℕ → ℝ) :
    objAt C R s a l1r (restrict b0 b) = fitObjective p C.e50 C.family C.link R s C.P1a C.P2a a l1r b0 b :=
  fitObjective_congr C R s a l1r _ _ _ _ rfl fun j => extend_fin _ j

theorem regular_min (C : FitCfg p ic) (R : Rows n) (l1r a : ℝ) (h : ConvexFit C R l1r) (hr : RegularFit C R l1r a) (s : ℕ → ℝ) (hs : ∀ j < p, s j ≠ 0) :
    ∃ z ∈ feasible C, ∀ x ∈ feasible C, x ≠ z → objAt C R s a l1r z < objAt C R s a l1r x := by
  refine unique_min C R l1r h hr.weights s hs a hr.alpha hr.mix hr.posdef (fun hi => ?_) ?_
  · obtain ⟨g, hg⟩ := hr.start hi
    obtain ⟨k, hk, -⟩ := h.pair
    refine ⟨g, fun t ht => ?_⟩
    have := guess_strict C { R with off := none } h.valid k hk h.y hr.weights (Or.inl rfl) g hg t ht
    simpa [interceptDeviance, rowLoss] using this
  · obtain ⟨b, hb⟩ := hr.room
    exact ⟨restrict 0 b, restrict_feasible C 0 b (fun _ => rfl) hb⟩

/-- **C90, the solution.** A regular convex problem has exactly one solution. -/
theorem c90_unique_solution (C : FitCfg p ic) (R : Rows n) (l1r a : ℝ) (h : ConvexFit C R l1r) (hr : RegularFit C R l1r a) (stds : ℕ → ℝ) :
    ∃ (b0 : ℝ) (b : ℕ → ℝ),
      Solves p ic C.lb C.ub (fitObjective p C.e50 C.family C.link R (penScale C.thr C.asIfScaled stds) C.P1a C.P2a a l1r) b0 b ∧
      ∀ (c0 : ℝ) (c : ℕ → ℝ),
        Solves p ic C.lb C.ub (fitObjective p C.e50 C.family C.link R (penScale C.thr C.asIfScaled stds) C.P1a C.P2a a l1r) c0 c →
        c0 = b0 ∧ ∀ j < p, c j = b j := by
  obtain ⟨z, hz, hmin⟩ := regular_min C R l1r a h hr (penScale C.thr C.asIfScaled stds) fun j _ => penScale_ne C.thr h.thr C.asIfScaled stds j
  refine ⟨z.1, extend z.2, ⟨hz.1, feasible_bounds C z hz, fun c0 c hc0 hc => ?_⟩, fun c0 c hc => ?_⟩
  · by_cases he : restrict c0 c = z
    · have e := objAt_restrict C R (penScale C.thr C.asIfScaled stds) a l1r c0 c
      rw [he] at e
      exact e.le
    · have := hmin _ (restrict_feasible C c0 c hc0 hc) he
      rw [objAt_restrict] at this
      exact this.le
  · by_contra hn
    have hne : restrict c0 c ≠ z := by
      intro he
      refine hn ⟨by rw [← he]; rfl, fun j hj => ?_⟩
      rw [← he]
      simp [extend, hj, restrict]
    have h1 := hmin _ (restrict_feasible C c0 c hc.1 hc.2.1) hne
    have h2 := hc.2.2 z.1 (extend z.2) hz.1 (feasible_bounds C z hz)
    rw [objAt_restrict] at h1
    exact absurd h1 (not_lt.2 h2)

/-- The distance on the standardised scale is at most a multiple of the distance of the coefficients. -/
theorem stdClose_of_norm (thr : ℝ) (ht : 0 < thr) (means stds : ℕ → ℝ) (hs : ∀ j, 0 ≤ stds j) (b0 : ℝ) (b : ℕ → ℝ) (c0 : ℝ) (c : ℕ → ℝ) :
    StdClose p ic thr means stds ((1 + ∑ j : Fin p, |means j| + ∑ j : Fin p, colScale thr stds j) * ‖restrict (p := p) b0 b - restrict c0 c‖) b0 b c0 c := by
  set N := ‖restrict (p := p) b0 b - restrict c0 c‖ with hN
  have h0 : 0 ≤ N := norm_nonneg _
  have hj : ∀ j : Fin p, |b j - c j| ≤ N := by
    intro j
    have h1 : ‖(restrict (p := p) b0 b - restrict c0 c).2‖ ≤ N := norm_snd_le _
    exact (norm_le_pi_norm (restrict (p := p) b0 b - restrict c0 c).2 j).trans h1
  have hi : |b0 - c0| ≤ N := norm_fst_le (restrict (p := p) b0 b - restrict c0 c)
  have hm : 0 ≤ ∑ j : Fin p, |means j| := Finset.sum_nonneg fun j _ => abs_nonneg _
  have hc : 0 ≤ ∑ j : Fin p, colScale thr stds j := Finset.sum_nonneg fun j _ => colScale_nonneg thr stds hs j
  refine ⟨fun j hjp => ?_, fun _ => ?_⟩
  · have h1 : colScale thr stds j ≤ ∑ j : Fin p, colScale thr stds j :=
      Finset.single_le_sum (f := fun j : Fin p => colScale thr stds j) (fun j _ => colScale_nonneg thr stds hs j) (Finset.mem_univ ⟨j, hjp⟩)
    have h2 := mul_le_mul (hj ⟨j, hjp⟩) h1 (colScale_nonneg thr stds hs j) h0
    have h3 : 0 ≤ (1 + ∑ j : Fin p, |means j|) * N := mul_nonneg (by linarith) h0
    simp only at h2
    linarith
  · have e : b0 + ∑ j : Fin p, means j * b j - (c0 + ∑ j : Fin p, means j * c j) = (b0 - c0) + ∑ j : Fin p, means j * (b j - c j) := by
      simp only [mul_sub, Finset.sum_sub_distrib]; ring
    rw [e]
    have h1 : |∑ j : Fin p, means j * (b j - c j)| ≤ (∑ j : Fin p, |means j|) * N := by
      refine (Finset.abs_sum_le_sum_abs _ _).trans ?_
      rw [Finset.sum_mul]
      refine Finset.sum_le_sum fun j _ => ?_
      rw [abs_mul]
      exact mul_le_mul_of_nonneg_left (hj j) (abs_nonneg _)
    have h2 := abs_add_le (b0 - c0) (∑ j : Fin p, means j * (b j - c j))
    have h3 := mul_nonneg hc h0
    linarith

/-- **C90, convergence.** For a regular convex problem and every accuracy `ε` there is a tolerance `δ` such that every fit of it with a `gradient_tol`
below `δ` that raises no `ConvergenceWarning` and stays within the bounds — whatever the inner solver, the start, the path before it, the random
numbers and the limits — reports an intercept and coefficients within `ε` of the solution. -/
theorem c90_fits_converge (C : FitCfg p ic) (stats : Stats) (R : Rows n) (l1r a : ℝ) (h : ConvexFit C R l1r) (hr : RegularFit C R l1r a)
    (hs : ∀ j, 0 ≤ (stats n R.X R.sw).2 j) (b0 : ℝ) (b : ℕ → ℝ)
    (hsol : Solves p ic C.lb C.ub
      (fitObjective p C.e50 C.family C.link R (penScale C.thr C.asIfScaled (stats n R.X R.sw).2) C.P1a C.P2a a l1r) b0 b) (ε : ℝ) (hε : 0 < ε) :
    ∃ δ : ℝ, 0 < δ ∧ ∀ (next : (ℕ → BitVec 32) → ℕ → (ℕ → BitVec 32)) (inner : (ℕ → BitVec 32) → (m : ℕ) → Inner m p ic) (C' : FitCfg p ic),
      SameProblem C C' → C'.stepTol = none → C'.gradTol < δ →
      ∀ (sp : AlphaSpec) (s t : SolverLog) (r : PathResult), glmFit C' stats (irlsSolver next inner) R l1r sp s = some (t, r) →
        (∀ x ∈ r.alphas, 0 ≤ x) → t.convWarn = s.convWarn →
        ∀ (i : ℕ) (hi : i < r.alphas.length) (hc : i < r.coefPath.length) (hb : i < r.interceptPath.length), r.alphas[i] = a →
          WithinBounds p C.lb C.ub r.coefPath[i] → |r.interceptPath[i] - b0| ≤ ε ∧ ∀ j < p, |r.coefPath[i] j - b j| ≤ ε := by
  obtain ⟨z, hz, hmin⟩ := regular_min C R l1r a h hr (penScale C.thr C.asIfScaled (stats n R.X R.sw).2)
    fun j _ => penScale_ne C.thr h.thr C.asIfScaled _ j
  have hzb : restrict b0 b = z := by
    by_contra hne
    have h1 := hmin _ (restrict_feasible C b0 b hsol.1 hsol.2.1) hne
    have h2 := hsol.2.2 z.1 (extend z.2) hz.1 (feasible_bounds C z hz)
    rw [objAt_restrict] at h1
    exact absurd h1 (not_lt.2 h2)
  subst hzb
  obtain ⟨c, hc0, hgrow⟩ := convex_growth _ (objAt_convex C R l1r h (penScale C.thr C.asIfScaled (stats n R.X R.sw).2) a hr.alpha.le) (feasible C)
    (feasible_closed C) (feasible_convex C) _ hz hmin ε hε
  set M := 1 + ∑ j : Fin p, |(stats n R.X R.sw).1 j| + ∑ j : Fin p, colScale C.thr (stats n R.X R.sw).2 j with hMdef
  have hM : 0 < M := by
    have hm : 0 ≤ ∑ j : Fin p, |(stats n R.X R.sw).1 j| := Finset.sum_nonneg fun j _ => abs_nonneg _
    have hc : 0 ≤ ∑ j : Fin p, colScale C.thr (stats n R.X R.sw).2 j := Finset.sum_nonneg fun j _ => colScale_nonneg C.thr _ hs j
    rw [hMdef]; linarith
  refine ⟨c / M, div_pos hc0 hM, fun next inner C' hC hstep hg sp s t r hfit ha hw i hi hc hb hai hin => ?_⟩
  have h' : ConvexFit C' R l1r := by
    refine ⟨hC.thr ▸ h.thr, hC.family ▸ h.valid, ?_, ?_, h.sw, ?_, ?_, h.l1⟩
    · rw [hC.family, hC.link]; exact h.pair
    · rw [hC.family]; exact h.y
    · rw [hC.P1]; exact h.p1
    · rw [hC.P2]; exact h.p2
  obtain ⟨-, -, -, -, hopt⟩ := c75_no_warning_near_optimal next inner C' stats R l1r h' hs hstep sp s t r hfit ha hw
  have hic0 := rows_intercept_zero next inner C' stats R l1r h' hs hstep sp s t r hfit ha hw i hi hc hb
  have hfeas := restrict_feasible C r.interceptPath[i] r.coefPath[i] hic0 hin
  set N := ‖restrict (p := p) r.interceptPath[i] r.coefPath[i] - restrict b0 b‖ with hN
  have hNle : N ≤ ε := by
    by_contra hn
    have hbig : ε ≤ N := (not_le.1 hn).le
    have hNp : 0 < N := lt_of_lt_of_le hε hbig
    have h1 := hgrow _ hfeas hbig
    rw [objAt_restrict, objAt_restrict] at h1
    have hcl := stdClose_of_norm (p := p) (ic := ic) C.thr h.thr (stats n R.X R.sw).1 (stats n R.X R.sw).2 hs b0 b r.interceptPath[i] r.coefPath[i]
    rw [← hMdef, norm_sub_rev, ← hN] at hcl
    have h2 := hopt i hi hc hb b0 b hsol.1 (by rw [hC.lb, hC.ub]; exact hsol.2.1) (M * N) (mul_nonneg hM.le hNp.le) (by rw [hC.thr]; exact hcl)
    rw [hC.e50, hC.family, hC.link, hC.thr, hC.scaled, hC.P1, hC.P2, hai] at h2
    have h3 : c * N ≤ C'.gradTol * (M * N) := by linarith
    have h4 : C'.gradTol * (M * N) < c / M * (M * N) := mul_lt_mul_of_pos_right hg (mul_pos hM hNp)
    have h5 : c / M * (M * N) = c * N := by field_simp
    linarith
  refine ⟨(norm_fst_le (restrict (p := p) r.interceptPath[i] r.coefPath[i] - restrict b0 b)).trans hNle, fun j hj => ?_⟩
  have h1 := norm_snd_le (restrict (p := p) r.interceptPath[i] r.coefPath[i] - restrict b0 b)
  exact ((norm_le_pi_norm (restrict (p := p) r.interceptPath[i] r.coefPath[i] - restrict b0 b).2 ⟨j, hj⟩).trans h1).trans hNle

/-! ### The hypotheses are met -/

theorem tinyLabels_guess : ∃ g, guessIntercept .binomial .logit tinyLabels.y tinyLabels.sw .none = some g := by
  unfold guessIntercept
  rw [if_neg (by
    rintro ⟨-, c, hc⟩
    have h0 := hc 0
    have h1 := hc 1
    simp [tinyLabels] at h0 h1
    linarith)]
  have ha : average tinyLabels.y tinyLabels.sw = 1 / 2 := by
    simp [average, tinyLabels, tinyRows]
  simp only [ha]
  unfold safeLog
  norm_num

theorem one_posdef (v : Fin 1 → ℝ) (hv : v ≠ 0) : 0 < ∑ j : Fin 1, ∑ k : Fin 1, userP2 .none j k * v j * v k := by
  have : v 0 ≠ 0 := fun h => hv (funext fun j => by rw [Fin.eq_zero j]; exact h)
  simp [userP2]
  exact this

/-- Logistic regression with bounds and an offset on two rows is a regular convex problem. -/
example : ConvexFit tinyLogit tinyLabels 0 ∧ RegularFit tinyLogit tinyLabels 0 1 where
  left := by
    refine ⟨by norm_num [tinyLogit, tinyCfg], trivial, ⟨.binomialLogit, rfl, by simp⟩, fun i => ?_, fun i => by norm_num [tinyLabels, tinyRows],
      fun j => by simp [tinyLogit, tinyCfg, userP1], fun v => ?_, ⟨le_rfl, zero_le_one⟩⟩
    · show (if i = 0 then (1 : ℝ) else 0) ∈ Set.Icc (0 : ℝ) 1
      split <;> norm_num
    · simp [tinyLogit, tinyCfg, userP2]
      exact mul_self_nonneg _
  right := ⟨by simp [tinyLabels, tinyRows], one_pos, one_pos, one_posdef, fun _ => tinyLabels_guess,
    ⟨fun _ => 0, fun j _ => ⟨fun l hl => (by cases hl; norm_num), fun u hu => (by cases hu; norm_num)⟩⟩⟩

/-- Ridge regression on the two rows, strength at least one, any tolerance: `irls-ls` raises no warning. -/
theorem tiny_ls_gen (next : (ℕ → BitVec 32) → ℕ → (ℕ → BitVec 32)) (s : SolverLog) (g : ℝ) (hg : 0 < g) (a : ℝ) (ha : 1 ≤ a) :
    ∃ t r, glmFit (({ tinyCfg 5 5 with gradTol := g } : FitCfg 1 true).forSolver .irlsLs) tinyStats (irlsSolver next fun _ _ => lsInner invSolve) tinyRows 0 (.single a) s
      = some (t, r) ∧ t.convWarn = s.convWarn ∧ r.alphas = [a] ∧ r.coefPath.length = 1 ∧ r.interceptPath.length = 1 := by
  have hcv := tiny_convex 5 5
  have hg2 : guessIntercept .normal .identity tinyRows.y tinyRows.sw .none = some 2 := by
    unfold guessIntercept
    rw [if_neg (by simp)]
    simp [average, tinyRows]
    norm_num
  set C : FitCfg 1 true := { tinyCfg 5 5 with gradTol := g } with hC
  have hcv' : ConvexFit C tinyRows 0 := ⟨hcv.thr, hcv.valid, hcv.pair, hcv.y, hcv.sw, hcv.p1, hcv.p2, hcv.l1⟩
  have hs : startGuess (C.forSolver .irlsLs) tinyRows = some 2 := hg2
  obtain ⟨Q, hQ⟩ : ∃ Q, prepare (C.forSolver .irlsLs) tinyStats tinyRows 0 = some Q := by
    unfold prepare
    rw [hs]
    exact ⟨_, rfl⟩
  obtain ⟨r, hr, -⟩ := glmFit_single (C.forSolver .irlsLs) tinyStats (irlsSolver next fun _ _ => lsInner invSolve) tinyRows 0 a s Q hQ
    (by rintro ⟨l, u, h, -⟩; cases h) (fun _ => rfl)
  have hwarn := c76_fit_ls next invSolve invSolve_spec C tinyStats tinyRows 0 hcv' rfl rfl (fun _ => zero_le_one)
    (by simp [tinyRows]) rfl rfl rfl (by norm_num [hC, tinyCfg]) hg (fun j => zero_mul _) a (by linarith)
    (by
      intro b0 b _ h _
      have h0 := h 0
      have h1 := h 1
      simp [tinyRows] at h0 h1
      refine ⟨by linarith, fun j hj => ?_⟩
      have : j = 0 := by omega
      subst this; linarith)
    (by
      intro b0 b h i
      have hps : ∀ j, penScale C.thr C.asIfScaled (tinyStats 2 tinyRows.X tinyRows.sw).2 j = 1 := fun j => rfl
      have hc : coldIntercept true tinyRows = 2 := by simp [coldIntercept, tinyRows]; norm_num
      rw [hc] at h
      have h1 : fitObjective 1 C.e50 C.family C.link tinyRows (penScale C.thr C.asIfScaled (tinyStats 2 tinyRows.X tinyRows.sw).2) C.P1a C.P2a 1 0 b0 b
          ≤ fitObjective 1 C.e50 C.family C.link tinyRows (penScale C.thr C.asIfScaled (tinyStats 2 tinyRows.X tinyRows.sw).2) C.P1a C.P2a a 0 b0 b := by
        have hq := mul_le_mul_of_nonneg_right ha (mul_nonneg (show (0 : ℝ) ≤ 1 / 2 by norm_num)
          (hcv.p2 fun j => b j * penScale C.thr C.asIfScaled (tinyStats 2 tinyRows.X tinyRows.sw).2 j))
        have e : C.P2a = (tinyCfg 5 5).P2a := rfl
        unfold fitObjective
        simp only [sub_zero, mul_one, mul_zero, zero_mul, add_zero]
        rw [e]
        linarith
      have h2 : fitObjective 1 C.e50 C.family C.link tinyRows (penScale C.thr C.asIfScaled (tinyStats 2 tinyRows.X tinyRows.sw).2) C.P1a C.P2a a 0 2 (fun _ => 0)
          = fitObjective 1 C.e50 C.family C.link tinyRows (penScale C.thr C.asIfScaled (tinyStats 2 tinyRows.X tinyRows.sw).2) C.P1a C.P2a 1 0 2 (fun _ => 0) := by
        rw [fitObjective_null, fitObjective_null]
      have h := (tiny_objective b0 b _ hps).symm.le.trans ((h1.trans (h.trans h2.le)).trans (tiny_objective 2 (fun _ => 0) _ hps).le)
      exact tiny_large b0 b (h.trans (by norm_num)) i)
    s _ r hr
  have hal : r.alphas = [a] := by
    obtain ⟨Q, -, hal, -⟩ := glmFit_spec _ _ _ _ _ _ _ _ _ hr
    simpa [AlphaSpec.eval] using hal.symm
  have hl := c75_no_warning_near_optimal next (fun _ _ => lsInner invSolve) (C.forSolver .irlsLs) tinyStats tinyRows 0
    ⟨hcv.thr, hcv.valid, hcv.pair, hcv.y, hcv.sw, hcv.p1, hcv.p2, hcv.l1⟩ (fun _ => zero_le_one) rfl (.single a) s _ r hr
    (by rw [hal]; simpa using by linarith) hwarn.1
  exact ⟨_, r, hr, hwarn.1, hal, by rw [hl.1, hal]; rfl, by rw [hl.2.1, hal]; rfl⟩

/-- For ridge regression on the two rows `irls-ls` raises no warning for any tolerance, so every accuracy is reached by a fit. -/
example (next : (ℕ → BitVec 32) → ℕ → (ℕ → BitVec 32)) (s : SolverLog) (ε : ℝ) (hε : 0 < ε) : ∃ b0 b g t r,
    Solves 1 true none none (fitObjective 1 0 .normal .identity tinyRows (fun _ => 1) .none .none 1 0) b0 b ∧
    glmFit (({ tinyCfg 5 5 with gradTol := g } : FitCfg 1 true).forSolver .irlsLs) tinyStats (irlsSolver next fun _ _ => lsInner invSolve) tinyRows 0 (.single 1) s
      = some (t, r) ∧ ∀ (hc : 0 < r.coefPath.length) (hb : 0 < r.interceptPath.length), |r.interceptPath[0] - b0| ≤ ε ∧ |r.coefPath[0] 0 - b 0| ≤ ε := by
  have hcv := tiny_convex 5 5
  have hg2 : guessIntercept .normal .identity tinyRows.y tinyRows.sw .none = some 2 := by
    unfold guessIntercept
    rw [if_neg (by simp)]
    simp [average, tinyRows]
    norm_num
  have hreg : RegularFit (tinyCfg 5 5) tinyRows 0 1 := ⟨by simp [tinyRows], one_pos, one_pos, one_posdef, fun _ => ⟨2, hg2⟩,
    ⟨fun _ => 0, fun j _ => ⟨fun l hl => (by cases hl), fun u hu => (by cases hu)⟩⟩⟩
  obtain ⟨b0, b, hsol, -⟩ := c90_unique_solution (tinyCfg 5 5) tinyRows 0 1 hcv hreg (fun _ => 1)
  obtain ⟨δ, hδ, hfits⟩ := c90_fits_converge (tinyCfg 5 5) tinyStats tinyRows 0 1 hcv hreg (fun _ => zero_le_one) b0 b hsol ε hε
  obtain ⟨t, r, hr, hw, hal, -⟩ := tiny_ls_gen next s (δ / 2) (half_pos hδ) 1 le_rfl
  refine ⟨b0, b, δ / 2, t, r, hsol, hr, fun hc hb => ?_⟩
  have := hfits next (fun _ _ => lsInner invSolve) (({ tinyCfg 5 5 with gradTol := δ / 2 } : FitCfg 1 true).forSolver .irlsLs)
    ⟨rfl, rfl, rfl, rfl, rfl, rfl, rfl, rfl, rfl⟩ rfl (show δ / 2 < δ by linarith) (.single 1) s t r hr (by rw [hal]; simp) hw 0 (by rw [hal]; simp) hc hb
    (by simp [hal]) (fun j _ => ⟨fun l hl => (by cases hl), fun u hu => (by cases hu)⟩)
  exact ⟨this.1, this.2 0 (by norm_num)⟩

end Glum
