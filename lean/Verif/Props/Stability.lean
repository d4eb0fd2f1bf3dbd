import Verif.Props.Target
import Mathlib.Analysis.SpecialFunctions.Log.NegMulLog
import Mathlib.Analysis.SpecialFunctions.Pow.Continuity
/-
C94: the solution is a continuous function of the data and of the penalties, and converged fits of slightly different data are close.
-/
set_option linter.unusedSectionVars false
set_option linter.unusedVariables false
set_option linter.unusedSimpArgs false

namespace Glum
open Spec Topology

/-! ### Convex functions that are close on a ball -/

section Abstract

variable {E : Type*} [NormedAddCommGroup E] [NormedSpace ℝ E] [FiniteDimensional ℝ E]

/-- Let `z` be the strict minimum of the convex `F` on a closed convex set.  For every `ε` there is a `κ` such that, for every convex `G` within `κ` of `F`
on the ball of radius `ε`, a point of the set that is nearly as good for `G` as `z` — up to a slope smaller than `κ / ε` — lies in that ball. -/
theorem near_min_close (F : E → ℝ) (hF : ConvexOn ℝ Set.univ F) (K : Set E) (hK : IsClosed K) (hKc : Convex ℝ K) (z : E) (hz : z ∈ K)
    (hmin : ∀ x ∈ K, x ≠ z → F z < F x) (ε : ℝ) (hε : 0 < ε) :
    ∃ κ : ℝ, 0 < κ ∧ ∀ G : E → ℝ, ConvexOn ℝ Set.univ G → (∀ x ∈ Metric.closedBall z ε, |G x - F x| < κ) →
      ∀ x ∈ K, ∀ d : ℝ, 0 ≤ d → d * ε < κ → G x ≤ G z + d * ‖x - z‖ → ‖x - z‖ ≤ ε := by
  obtain ⟨c, hc, hgrow⟩ := convex_growth F hF K hK hKc z hz hmin ε hε
  refine ⟨c * ε / 3, by positivity, fun G hG hnear x hx d hd hdk hle => ?_⟩
  by_contra hn
  have hbig : ε < ‖x - z‖ := not_le.1 hn
  have hdp : 0 < ‖x - z‖ := hε.trans hbig
  set t := ε / ‖x - z‖ with ht
  have ht0 : 0 < t := div_pos hε hdp
  have ht1 : t ≤ 1 := (div_le_one hdp).2 hbig.le
  have htn : t * ‖x - z‖ = ε := by rw [ht, div_mul_cancel₀ _ hdp.ne']
  have hy : (1 - t) • z + t • x ∈ K := hKc hz hx (by linarith) ht0.le (by ring)
  have hyn : ‖(1 - t) • z + t • x - z‖ = ε := by
    have e : (1 - t) • z + t • x - z = t • (x - z) := by rw [sub_smul, one_smul, smul_sub]; abel
    rw [e, norm_smul, Real.norm_of_nonneg ht0.le, htn]
  have h1 := hgrow _ hy hyn.ge
  rw [hyn] at h1
  have h2 := hG.2 (Set.mem_univ z) (Set.mem_univ x) (show 0 ≤ 1 - t by linarith) ht0.le (by ring)
  simp only [smul_eq_mul] at h2
  have h3 := abs_lt.1 (hnear ((1 - t) • z + t • x) (by rw [Metric.mem_closedBall, dist_eq_norm, hyn]))
  have h4 := abs_lt.1 (hnear z (Metric.mem_closedBall_self hε.le))
  have h5 : t * G x ≤ t * (G z + d * ‖x - z‖) := mul_le_mul_of_nonneg_left hle ht0.le
  have h6 : t * (G z + d * ‖x - z‖) = t * G z + d * ε := by rw [← htn]; ring
  linarith

end Abstract

/-! ### The deviance of a row is continuous in response and linear predictor -/

theorem xlogy_ratio (y mu : ℝ) (hm : 0 < mu) : xlogy y (y / mu) = y * Real.log y - y * Real.log mu := by
  unfold xlogy
  by_cases h : y = 0
  · rw [if_pos h, h]; ring
  · rw [if_neg h, Real.log_div h hm.ne']; ring

theorem xlogy_mul (y m : ℝ) : xlogy y m = y * Real.log m := by
  unfold xlogy
  by_cases h : y = 0
  · rw [if_pos h, h]; ring
  · rw [if_neg h]

theorem cont_mul_log_fst : Continuous fun q : ℝ × ℝ => q.1 * Real.log q.1 := Real.continuous_mul_log.comp continuous_fst

/-- The deviance of one observation as a function of the response and the linear predictor. -/
noncomputable def lossAt (e50 : ℝ) (f : Family) (l : Link) (q : ℝ × ℝ) : ℝ := f.unitDeviance q.1 (trueMean e50 f l q.2)

theorem lossAt_log (e50 : ℝ) (f : Family) (hf : ∀ eta, trueMean e50 f .log eta = Real.exp eta) (q : ℝ × ℝ) :
    lossAt e50 f .log q = f.unitDeviance q.1 (Real.exp q.2) := by unfold lossAt; rw [hf]

theorem poisson_cont : ContinuousOn (fun q : ℝ × ℝ => 2 * (xlogy q.1 (q.1 / Real.exp q.2) - q.1 + Real.exp q.2)) Set.univ := by
  have e : (fun q : ℝ × ℝ => 2 * (xlogy q.1 (q.1 / Real.exp q.2) - q.1 + Real.exp q.2))
      = fun q : ℝ × ℝ => 2 * (q.1 * Real.log q.1 - q.1 * q.2 - q.1 + Real.exp q.2) := by
    funext q; rw [xlogy_ratio _ _ (Real.exp_pos _), Real.log_exp]
  rw [e]
  have := cont_mul_log_fst
  exact (by fun_prop : Continuous _).continuousOn

theorem gamma_cont : ContinuousOn (fun q : ℝ × ℝ => 2 * (Real.log (Real.exp q.2 / q.1) + q.1 / Real.exp q.2 - 1)) {q | 0 < q.1} := by
  refine ContinuousOn.mul continuousOn_const ((ContinuousOn.add ?_ ?_).sub continuousOn_const)
  · refine ContinuousOn.log (ContinuousOn.div (by fun_prop) (by fun_prop) fun q hq => ne_of_gt hq) fun q hq => (div_pos (Real.exp_pos _) hq).ne'
  · exact ContinuousOn.div (by fun_prop) (by fun_prop) fun q _ => (Real.exp_pos _).ne'

theorem ig_cont : ContinuousOn (fun q : ℝ × ℝ => (q.1 / Real.exp q.2 - 1) ^ 2 / q.1) {q | 0 < q.1} := by
  refine ContinuousOn.div (ContinuousOn.pow ((ContinuousOn.div (by fun_prop) (by fun_prop) fun q _ => (Real.exp_pos _).ne').sub continuousOn_const) 2)
    (by fun_prop) fun q hq => ne_of_gt hq

theorem negbin_cont (t : ℝ) (ht : 0 < t) : ContinuousOn (fun q : ℝ × ℝ =>
    2 * (xlogy q.1 (q.1 / Real.exp q.2) - (q.1 + 1 / t) * Real.log ((q.1 + 1 / t) / (Real.exp q.2 + 1 / t)))) {q | 0 ≤ q.1} := by
  have e : (fun q : ℝ × ℝ => 2 * (xlogy q.1 (q.1 / Real.exp q.2) - (q.1 + 1 / t) * Real.log ((q.1 + 1 / t) / (Real.exp q.2 + 1 / t))))
      = fun q : ℝ × ℝ => 2 * (q.1 * Real.log q.1 - q.1 * q.2 - (q.1 + 1 / t) * Real.log ((q.1 + 1 / t) / (Real.exp q.2 + 1 / t))) := by
    funext q; rw [xlogy_ratio _ _ (Real.exp_pos _), Real.log_exp]
  rw [e]
  have hi : 0 < 1 / t := by positivity
  have hc := cont_mul_log_fst
  have h1 : ContinuousOn (fun q : ℝ × ℝ => q.1 * Real.log q.1 - q.1 * q.2) {q | 0 ≤ q.1} := (by fun_prop : Continuous _).continuousOn
  have h2 : ContinuousOn (fun q : ℝ × ℝ => (q.1 + 1 / t) / (Real.exp q.2 + 1 / t)) {q | 0 ≤ q.1} :=
    ContinuousOn.div (by fun_prop) (by fun_prop) fun q _ => (add_pos (Real.exp_pos _) hi).ne'
  have h3 : ContinuousOn (fun q : ℝ × ℝ => Real.log ((q.1 + 1 / t) / (Real.exp q.2 + 1 / t))) {q | 0 ≤ q.1} :=
    ContinuousOn.log h2 fun q hq => (div_pos (add_pos_of_nonneg_of_pos hq hi) (add_pos (Real.exp_pos _) hi)).ne'
  exact continuousOn_const.mul (h1.sub (ContinuousOn.mul (by fun_prop) h3))

theorem tweedie_cont (r : ℝ) (h1 : 1 < r) (h2 : r < 2) : ContinuousOn (fun q : ℝ × ℝ => tweedieUnitDeviance r q.1 (Real.exp q.2)) Set.univ := by
  unfold tweedieUnitDeviance
  have hp : Continuous fun q : ℝ × ℝ => max q.1 0 ^ (2 - r) :=
    (Real.continuous_rpow_const (by linarith)).comp (continuous_fst.max continuous_const)
  have hm : Continuous fun q : ℝ × ℝ => Real.exp q.2 ^ (1 - r) := by
    have e : (fun q : ℝ × ℝ => Real.exp q.2 ^ (1 - r)) = fun q : ℝ × ℝ => Real.exp (q.2 * (1 - r)) := by
      funext q; rw [Real.exp_mul]
    rw [e]; fun_prop
  exact (by fun_prop : Continuous _).continuousOn

theorem expit_pos' (eta : ℝ) : 0 < expit eta ∧ expit eta < 1 := by
  have h := fast_mu_spec (f := .binomial) (l := .logit) (k := .binomialLogit) rfl eta
  rw [fast_mu_logit] at h
  exact h.1

theorem expit_cont : Continuous expit := by
  unfold expit
  exact continuous_const.div (by fun_prop) fun e => (by positivity : (0:ℝ) < _).ne'

theorem binomial_cont : ContinuousOn (fun q : ℝ × ℝ => -2 * (xlogy q.1 (expit q.2) + xlogy (1 - q.1) (1 - expit q.2))) Set.univ := by
  simp only [xlogy_mul]
  have hc : Continuous fun q : ℝ × ℝ => expit q.2 := expit_cont.comp continuous_snd
  have h1 : Continuous fun q : ℝ × ℝ => Real.log (expit q.2) := hc.log fun q => (expit_pos' _).1.ne'
  have h2 : Continuous fun q : ℝ × ℝ => Real.log (1 - expit q.2) := (continuous_const.sub hc).log fun q => (sub_pos.2 (expit_pos' _).2).ne'
  exact (by fun_prop : Continuous _).continuousOn

/-- For every compiled family/link pair the deviance of a row is continuous in response (within the support) and linear predictor. -/
theorem lossAt_cont (e50 : ℝ) {f : Family} (hf : Valid f) {l : Link} {k : Fast} (h : f.fast l = some k) :
    ContinuousOn (lossAt e50 f l) {q | q.1 ∈ ySupport f} := by
  rcases fast_cases h with ⟨rfl, rfl, rfl | rfl⟩ | ⟨rfl, rfl, rfl | rfl⟩ | ⟨rfl, rfl, rfl | rfl⟩ | ⟨rfl, rfl, rfl | rfl⟩ |
    ⟨r, rfl, rfl, rfl, h1, h2⟩ | ⟨rfl, rfl, rfl⟩ | ⟨t, rfl, rfl, rfl⟩
  · have e : lossAt e50 .normal .identity = fun q : ℝ × ℝ => (q.1 - q.2) ^ 2 := rfl
    rw [e]; fun_prop
  · have e : lossAt e50 (.tweedie 0) .identity = fun q : ℝ × ℝ => (q.1 - q.2) ^ 2 := by
      funext q; unfold lossAt Family.unitDeviance; simp only []; rw [if_pos trivial]; rfl
    rw [e]; fun_prop
  · exact poisson_cont.mono (Set.subset_univ _)
  · have e : lossAt e50 (.tweedie 1) .log = fun q : ℝ × ℝ => 2 * (xlogy q.1 (q.1 / Real.exp q.2) - q.1 + Real.exp q.2) := by
      funext q; unfold lossAt Family.unitDeviance; simp only []; rw [if_neg (by norm_num), if_pos trivial]; rfl
    rw [e]; exact poisson_cont.mono (Set.subset_univ _)
  · exact gamma_cont
  · have e : lossAt e50 (.tweedie 2) .log = fun q : ℝ × ℝ => 2 * (Real.log (Real.exp q.2 / q.1) + q.1 / Real.exp q.2 - 1) := by
      funext q; unfold lossAt Family.unitDeviance; simp only []; rw [if_neg (by norm_num), if_neg (by norm_num), if_pos trivial]; rfl
    rw [e]; refine gamma_cont.mono fun q hq => ?_
    rcases hq with hq | hq | hq
    · norm_num at hq
    · exact absurd hq.1 (lt_irrefl _)
    · exact hq
  · exact ig_cont
  · have e : lossAt e50 (.tweedie 3) .log = fun q : ℝ × ℝ => (q.1 / Real.exp q.2 - 1) ^ 2 / q.1 := by
      funext q; unfold lossAt Family.unitDeviance; simp only []
      rw [if_neg (by norm_num), if_neg (by norm_num), if_neg (by norm_num), if_pos trivial]; rfl
    rw [e]; refine ig_cont.mono fun q hq => ?_
    rcases hq with hq | hq | hq
    · norm_num at hq
    · norm_num at hq
    · exact hq
  · have e : lossAt e50 (.tweedie r) .log = fun q : ℝ × ℝ => tweedieUnitDeviance r q.1 (Real.exp q.2) := by
      funext q; unfold lossAt Family.unitDeviance; simp only []
      rw [if_neg (by linarith), if_neg (by linarith), if_neg (by linarith), if_neg (by linarith)]; rfl
    rw [e]; exact (tweedie_cont r h1 h2).mono (Set.subset_univ _)
  · exact binomial_cont.mono (Set.subset_univ _)
  · exact negbin_cont t hf


/-! ### The objective is continuous in data, penalties and coefficients together -/

section Fit

variable {n p : ℕ} {ic : Bool}

/-- Everything in a problem that is a number: design, response, weights, offset, L1 weights, ridge matrix, penalty scales, `alpha`, `l1_ratio`. -/
abbrev Dat (n p : ℕ) := (Fin n → Fin p → ℝ) × (Fin n → ℝ) × (Fin n → ℝ) × (Fin n → ℝ) × (Fin p → ℝ) × (Fin p → Fin p → ℝ) × (Fin p → ℝ) × ℝ × ℝ

def datOf (C : FitCfg p ic) (R : Rows n) (s : ℕ → ℝ) (a l1r : ℝ) : Dat n p :=
  (fun i j => R.X i j, R.y, R.sw, (R.off.getD fun _ => 0), fun j => userP1 C.P1a j, fun j k => userP2 C.P2a j k, fun j => s j, a, l1r)

/-- The objective as a function of all its numbers. -/
noncomputable def fitPhi (e50 : ℝ) (f : Family) (l : Link) (d : Dat n p) (z : ℝ × (Fin p → ℝ)) : ℝ :=
  1 / 2 * ∑ i, d.2.2.1 i * lossAt e50 f l (d.2.1 i, ∑ j : Fin p, d.1 i j * z.2 j + z.1 + d.2.2.2.1 i)
    + d.2.2.2.2.2.2.2.1 * d.2.2.2.2.2.2.2.2 * ∑ j : Fin p, d.2.2.2.2.1 j * |z.2 j * d.2.2.2.2.2.2.1 j|
    + d.2.2.2.2.2.2.2.1 * (1 - d.2.2.2.2.2.2.2.2) *
      (1 / 2 * ∑ j : Fin p, ∑ k : Fin p, d.2.2.2.2.2.1 j k * (z.2 j * d.2.2.2.2.2.2.1 j) * (z.2 k * d.2.2.2.2.2.2.1 k))

theorem fitPhi_eq (C : FitCfg p ic) (R : Rows n) (s : ℕ → ℝ) (a l1r : ℝ) (z : ℝ × (Fin p → ℝ)) :
    objAt C R s a l1r z = fitPhi C.e50 C.family C.link (datOf C R s a l1r) z := by
  rw [objAt_eq]
  rfl

theorem fitPhi_cont (e50 : ℝ) {f : Family} (hf : Valid f) {l : Link} {k : Fast} (h : f.fast l = some k) :
    ContinuousOn (fun q : Dat n p × (ℝ × (Fin p → ℝ)) => fitPhi e50 f l q.1 q.2) {q | ∀ i, q.1.2.1 i ∈ ySupport f} := by
  unfold fitPhi
  refine (ContinuousOn.add (ContinuousOn.mul continuousOn_const (continuousOn_finset_sum _ fun i _ => ?_)) ?_).add ?_
  · refine ContinuousOn.mul (by fun_prop) ?_
    exact (lossAt_cont e50 hf h).comp (t := {q | q.1 ∈ ySupport f})
      (f := fun q : Dat n p × (ℝ × (Fin p → ℝ)) => (q.1.2.1 i, ∑ j : Fin p, q.1.1 i j * q.2.2 j + q.2.1 + q.1.2.2.2.1 i))
      (by fun_prop) fun q hq => hq i
  · fun_prop
  · fun_prop

/-- Two problems of the same kind (family, link, bounds) whose numbers differ by at most `η`. -/
structure Spec.NearProblem (η : ℝ) (C C' : FitCfg p ic) (R R' : Rows n) (s s' : ℕ → ℝ) (a a' l1r l1r' : ℝ) : Prop where
  family : C'.family = C.family
  link : C'.link = C.link
  e50 : C'.e50 = C.e50
  lb : C'.lb = C.lb
  ub : C'.ub = C.ub
  X : ∀ i, ∀ j < p, |R'.X i j - R.X i j| ≤ η
  y : ∀ i, |R'.y i - R.y i| ≤ η
  sw : ∀ i, |R'.sw i - R.sw i| ≤ η
  off : ∀ i, |(R'.off.getD fun _ => 0) i - (R.off.getD fun _ => 0) i| ≤ η
  P1 : ∀ j < p, |userP1 C'.P1a j - userP1 C.P1a j| ≤ η
  P2 : ∀ j < p, ∀ k < p, |userP2 C'.P2a j k - userP2 C.P2a j k| ≤ η
  scale : ∀ j < p, |s' j - s j| ≤ η
  alpha : |a' - a| ≤ η
  mix : |l1r' - l1r| ≤ η

theorem near_dist {η : ℝ} (hη : 0 ≤ η) {C C' : FitCfg p ic} {R R' : Rows n} {s s' : ℕ → ℝ} {a a' l1r l1r' : ℝ}
    (h : NearProblem η C C' R R' s s' a a' l1r l1r') : dist (datOf C' R' s' a' l1r') (datOf C R s a l1r) ≤ η := by
  unfold datOf
  simp only [Prod.dist_eq, max_le_iff, dist_pi_le_iff hη, Real.dist_eq]
  exact ⟨fun i j => h.X i j j.2, h.y, h.sw, h.off, fun j => h.P1 j j.2, fun j k => h.P2 j j.2 k k.2, fun j => h.scale j j.2, h.alpha, h.mix⟩

/-- Problems close enough to a given one have objectives uniformly close on a ball. -/
theorem fitPhi_near (C : FitCfg p ic) (R : Rows n) (l1r : ℝ) (h : ConvexFit C R l1r) (s : ℕ → ℝ) (a : ℝ) (z : ℝ × (Fin p → ℝ)) (ε κ : ℝ) (hκ : 0 < κ) :
    ∃ η : ℝ, 0 < η ∧ ∀ (C' : FitCfg p ic) (R' : Rows n) (s' : ℕ → ℝ) (a' l1r' : ℝ), NearProblem η C C' R R' s s' a a' l1r l1r' →
      (∀ i, R'.y i ∈ ySupport C.family) → ∀ x ∈ Metric.closedBall z ε, |objAt C' R' s' a' l1r' x - objAt C R s a l1r x| < κ := by
  obtain ⟨k, hk, -⟩ := h.pair
  have hcont := fitPhi_cont (n := n) (p := p) C.e50 h.valid hk
  have hev : ∀ᶠ d in 𝓝 (datOf C R s a l1r), ∀ x ∈ Metric.closedBall z ε, (∀ i, d.2.1 i ∈ ySupport C.family) →
      |fitPhi C.e50 C.family C.link d x - fitPhi C.e50 C.family C.link (datOf C R s a l1r) x| < κ := by
    refine (isCompact_closedBall z ε).eventually_forall_of_forall_eventually fun x _ => ?_
    have h0 : ((datOf C R s a l1r, x) : Dat n p × (ℝ × (Fin p → ℝ))) ∈ {q : Dat n p × (ℝ × (Fin p → ℝ)) | ∀ i, q.1.2.1 i ∈ ySupport C.family} := h.y
    have h1 := hcont _ h0
    have h2 : ContinuousWithinAt (fun q : Dat n p × (ℝ × (Fin p → ℝ)) => fitPhi C.e50 C.family C.link (datOf C R s a l1r) q.2)
        {q | ∀ i, q.1.2.1 i ∈ ySupport C.family} (datOf C R s a l1r, x) := by
      refine ContinuousWithinAt.comp (f := fun q : Dat n p × (ℝ × (Fin p → ℝ)) => ((datOf C R s a l1r, q.2) : Dat n p × (ℝ × (Fin p → ℝ))))
        (g := fun q : Dat n p × (ℝ × (Fin p → ℝ)) => fitPhi C.e50 C.family C.link q.1 q.2) (t := {q | ∀ i, q.1.2.1 i ∈ ySupport C.family}) h1
        (by fun_prop) fun q _ => h.y
    have h3 : Filter.Tendsto (fun q : Dat n p × (ℝ × (Fin p → ℝ)) =>
        |fitPhi C.e50 C.family C.link q.1 q.2 - fitPhi C.e50 C.family C.link (datOf C R s a l1r) q.2|)
        (𝓝[{q | ∀ i, q.1.2.1 i ∈ ySupport C.family}] (datOf C R s a l1r, x)) (𝓝 0) := by
      have := (h1.sub h2).abs
      unfold ContinuousWithinAt at this
      simpa using this
    have h4 := h3.eventually (gt_mem_nhds hκ)
    rw [eventually_nhdsWithin_iff] at h4
    exact h4
  obtain ⟨η, hη, hball⟩ := Metric.eventually_nhds_iff.1 hev
  refine ⟨η / 2, by positivity, fun C' R' s' a' l1r' hn hy x hx => ?_⟩
  have := hball (lt_of_le_of_lt (near_dist (by positivity) hn) (by linarith)) x hx hy
  rw [fitPhi_eq, fitPhi_eq, hn.e50, hn.family, hn.link]
  exact this

/-- **C94, solutions.** Let `b0`, `b` solve a regular convex problem.  For every `ε` there is an `η` such that every solution of every convex problem
of the same kind whose features, responses, weights, offsets, penalties, `alpha` and `l1_ratio` differ by at most `η` is within `ε`. -/
theorem c94_solution_continuous (C : FitCfg p ic) (R : Rows n) (l1r a : ℝ) (h : ConvexFit C R l1r) (hr : RegularFit C R l1r a) (s : ℕ → ℝ)
    (hs : ∀ j < p, s j ≠ 0) (b0 : ℝ) (b : ℕ → ℝ)
    (hsol : Solves p ic C.lb C.ub (fitObjective p C.e50 C.family C.link R s C.P1a C.P2a a l1r) b0 b) (ε : ℝ) (hε : 0 < ε) :
    ∃ η : ℝ, 0 < η ∧ ∀ (C' : FitCfg p ic) (R' : Rows n) (s' : ℕ → ℝ) (a' l1r' : ℝ), NearProblem η C C' R R' s s' a a' l1r l1r' →
      ConvexFit C' R' l1r' → 0 ≤ a' → ∀ (c0 : ℝ) (c : ℕ → ℝ),
        Solves p ic C'.lb C'.ub (fitObjective p C'.e50 C'.family C'.link R' s' C'.P1a C'.P2a a' l1r') c0 c →
        |c0 - b0| ≤ ε ∧ ∀ j < p, |c j - b j| ≤ ε := by
  obtain ⟨z, hz, hmin⟩ := regular_min C R l1r a h hr s hs
  have hzb : restrict b0 b = z := by
    by_contra hne
    have h1 := hmin _ (restrict_feasible C b0 b hsol.1 hsol.2.1) hne
    have h2 := hsol.2.2 z.1 (extend z.2) hz.1 (feasible_bounds C z hz)
    rw [objAt_restrict] at h1
    exact absurd h1 (not_lt.2 h2)
  subst hzb
  obtain ⟨κ, hκ, hclose⟩ := near_min_close _ (objAt_convex C R l1r h s a hr.alpha.le) (feasible C) (feasible_closed C) (feasible_convex C) _ hz hmin ε hε
  obtain ⟨η, hη, hnear⟩ := fitPhi_near C R l1r h s a (restrict b0 b) ε κ hκ
  refine ⟨η, hη, fun C' R' s' a' l1r' hn h' ha' c0 c hc => ?_⟩
  have hy : ∀ i, R'.y i ∈ ySupport C.family := fun i => by have := h'.y i; rw [hn.family] at this; exact this
  have hcb : WithinBounds p C.lb C.ub c := by have := hc.2.1; rw [hn.lb, hn.ub] at this; exact this
  have hN := hclose _ (objAt_convex C' R' l1r' h' s' a' ha') (hnear C' R' s' a' l1r' hn hy) _ (restrict_feasible C c0 c hc.1 hcb) 0 le_rfl (by simpa using hκ)
    (by rw [objAt_restrict, objAt_restrict, zero_mul, add_zero]; exact hc.2.2 b0 b hsol.1 (by rw [hn.lb, hn.ub]; exact hsol.2.1))
  refine ⟨(norm_fst_le (restrict (p := p) c0 c - restrict b0 b)).trans hN, fun j hj => ?_⟩
  have h1 := norm_snd_le (restrict (p := p) c0 c - restrict b0 b)
  exact ((norm_le_pi_norm (restrict (p := p) c0 c - restrict b0 b).2 ⟨j, hj⟩).trans h1).trans hN

/-- **C94, fits.** Let `b0`, `b` solve a regular convex problem.  For every `ε` there are `η` and `δ` such that every fit of a convex problem of the same
kind whose numbers differ by at most `η` — with a `gradient_tol` that is small compared with the size of the features, without `ConvergenceWarning`,
and with whatever inner solver, start, path, random numbers and limits — reports coefficients within `ε` of the solution of the *unperturbed* problem. -/
theorem c94_fits_stable (C : FitCfg p ic) (stats : Stats) (R : Rows n) (l1r a : ℝ) (h : ConvexFit C R l1r) (hr : RegularFit C R l1r a)
    (b0 : ℝ) (b : ℕ → ℝ)
    (hsol : Solves p ic C.lb C.ub
      (fitObjective p C.e50 C.family C.link R (penScale C.thr C.asIfScaled (stats n R.X R.sw).2) C.P1a C.P2a a l1r) b0 b) (ε : ℝ) (hε : 0 < ε) :
    ∃ η δ : ℝ, 0 < η ∧ 0 < δ ∧ ∀ (C' : FitCfg p ic) (R' : Rows n) (l1r' : ℝ), ConvexFit C' R' l1r' → (∀ j, 0 ≤ (stats n R'.X R'.sw).2 j) →
      C'.stepTol = none → 0 ≤ C'.gradTol →
      C'.gradTol * (1 + ∑ j : Fin p, |(stats n R'.X R'.sw).1 j| + ∑ j : Fin p, colScale C'.thr (stats n R'.X R'.sw).2 j) < δ →
      ∀ (next : (ℕ → BitVec 32) → ℕ → (ℕ → BitVec 32)) (inner : (ℕ → BitVec 32) → (m : ℕ) → Inner m p ic)
        (sp : AlphaSpec) (s t : SolverLog) (r : PathResult), glmFit C' stats (irlsSolver next inner) R' l1r' sp s = some (t, r) →
        (∀ x ∈ r.alphas, 0 ≤ x) → t.convWarn = s.convWarn →
        ∀ (i : ℕ) (hi : i < r.alphas.length) (hc : i < r.coefPath.length) (hb : i < r.interceptPath.length),
          NearProblem η C C' R R' (penScale C.thr C.asIfScaled (stats n R.X R.sw).2) (penScale C'.thr C'.asIfScaled (stats n R'.X R'.sw).2)
            a r.alphas[i] l1r l1r' →
          WithinBounds p C.lb C.ub r.coefPath[i] → |r.interceptPath[i] - b0| ≤ ε ∧ ∀ j < p, |r.coefPath[i] j - b j| ≤ ε := by
  set S := penScale C.thr C.asIfScaled (stats n R.X R.sw).2 with hS
  obtain ⟨z, hz, hmin⟩ := regular_min C R l1r a h hr S fun j _ => penScale_ne C.thr h.thr C.asIfScaled _ j
  have hzb : restrict b0 b = z := by
    by_contra hne
    have h1 := hmin _ (restrict_feasible C b0 b hsol.1 hsol.2.1) hne
    have h2 := hsol.2.2 z.1 (extend z.2) hz.1 (feasible_bounds C z hz)
    rw [objAt_restrict] at h1
    exact absurd h1 (not_lt.2 h2)
  subst hzb
  obtain ⟨κ, hκ, hclose⟩ := near_min_close _ (objAt_convex C R l1r h S a hr.alpha.le) (feasible C) (feasible_closed C) (feasible_convex C) _ hz hmin ε hε
  obtain ⟨η, hη, hnear⟩ := fitPhi_near C R l1r h S a (restrict b0 b) ε κ hκ
  refine ⟨η, κ / ε, hη, div_pos hκ hε, fun C' R' l1r' h' hs hstep hg0 hg next inner sp s t r hfit ha hw i hi hc hb hn hin => ?_⟩
  have hy : ∀ i, R'.y i ∈ ySupport C.family := fun i => by have := h'.y i; rw [hn.family] at this; exact this
  set M := 1 + ∑ j : Fin p, |(stats n R'.X R'.sw).1 j| + ∑ j : Fin p, colScale C'.thr (stats n R'.X R'.sw).2 j with hMdef
  have hM : 0 < M := by
    have hm : 0 ≤ ∑ j : Fin p, |(stats n R'.X R'.sw).1 j| := Finset.sum_nonneg fun j _ => abs_nonneg _
    have hc : 0 ≤ ∑ j : Fin p, colScale C'.thr (stats n R'.X R'.sw).2 j := Finset.sum_nonneg fun j _ => colScale_nonneg C'.thr _ hs j
    rw [hMdef]; linarith
  obtain ⟨-, -, -, -, hopt⟩ := c75_no_warning_near_optimal next inner C' stats R' l1r' h' hs hstep sp s t r hfit ha hw
  have hic0 := rows_intercept_zero next inner C' stats R' l1r' h' hs hstep sp s t r hfit ha hw i hi hc hb
  have hcl := stdClose_of_norm (p := p) (ic := ic) C'.thr h'.thr (stats n R'.X R'.sw).1 (stats n R'.X R'.sw).2 hs b0 b r.interceptPath[i] r.coefPath[i]
  rw [← hMdef, norm_sub_rev] at hcl
  have h2 := hopt i hi hc hb b0 b hsol.1 (by rw [hn.lb, hn.ub]; exact hsol.2.1) _ (mul_nonneg hM.le (norm_nonneg _)) hcl
  have hN := hclose _ (objAt_convex C' R' l1r' h' _ _ (ha _ (List.getElem_mem hi))) (hnear C' R' _ _ l1r' hn hy) _
    (restrict_feasible C r.interceptPath[i] r.coefPath[i] hic0 hin) (C'.gradTol * M) (mul_nonneg hg0 hM.le) (by rw [lt_div_iff₀ hε] at hg; exact hg)
    (by rw [objAt_restrict, objAt_restrict]; linarith)
  refine ⟨(norm_fst_le (restrict (p := p) r.interceptPath[i] r.coefPath[i] - restrict b0 b)).trans hN, fun j hj => ?_⟩
  have h1 := norm_snd_le (restrict (p := p) r.interceptPath[i] r.coefPath[i] - restrict b0 b)
  exact ((norm_le_pi_norm (restrict (p := p) r.interceptPath[i] r.coefPath[i] - restrict b0 b).2 ⟨j, hj⟩).trans h1).trans hN

/-- **C94, the path.** The solution is a continuous function of `alpha`: solutions for nearby strengths are close. -/
theorem c94_alpha_continuous (C : FitCfg p ic) (R : Rows n) (l1r a : ℝ) (h : ConvexFit C R l1r) (hr : RegularFit C R l1r a) (s : ℕ → ℝ)
    (hs : ∀ j < p, s j ≠ 0) (b0 : ℝ) (b : ℕ → ℝ)
    (hsol : Solves p ic C.lb C.ub (fitObjective p C.e50 C.family C.link R s C.P1a C.P2a a l1r) b0 b) (ε : ℝ) (hε : 0 < ε) :
    ∃ η : ℝ, 0 < η ∧ ∀ a' : ℝ, 0 ≤ a' → |a' - a| ≤ η → ∀ (c0 : ℝ) (c : ℕ → ℝ),
      Solves p ic C.lb C.ub (fitObjective p C.e50 C.family C.link R s C.P1a C.P2a a' l1r) c0 c → |c0 - b0| ≤ ε ∧ ∀ j < p, |c j - b j| ≤ ε := by
  obtain ⟨η, hη, hh⟩ := c94_solution_continuous C R l1r a h hr s hs b0 b hsol ε hε
  refine ⟨η, hη, fun a' ha' hd c0 c hc => hh C R s a' l1r ⟨rfl, rfl, rfl, rfl, rfl, ?_, ?_, ?_, ?_, ?_, ?_, ?_, hd, ?_⟩ h ha' c0 c hc⟩
  all_goals intros; simp [hη.le]

end Fit

/-! ### The hypotheses are met -/

theorem tiny_regular (a : ℝ) (ha : 0 < a) : RegularFit (tinyCfg 5 5) tinyRows 0 a := by
  have hg2 : guessIntercept .normal .identity tinyRows.y tinyRows.sw .none = some 2 := by
    unfold guessIntercept
    rw [if_neg (by simp)]
    simp [average, tinyRows]
    norm_num
  exact ⟨by simp [tinyRows], ha, one_pos, one_posdef, fun _ => ⟨2, hg2⟩,
    ⟨fun _ => 0, fun j _ => ⟨fun l hl => (by cases hl), fun u hu => (by cases hu)⟩⟩⟩

/-- Perturbed features, responses and strengths of ridge regression on the two rows are problems near it, and have solutions. -/
example (η : ℝ) (hη : 0 < η) : ∃ (R' : Rows 2) (c0 : ℝ) (c : ℕ → ℝ), R' ≠ tinyRows ∧
    NearProblem η (tinyCfg 5 5) (tinyCfg 5 5) tinyRows R' (fun _ => 1) (fun _ => 1) 1 (1 + η) 0 0 ∧ ConvexFit (tinyCfg 5 5) R' 0 ∧
    Solves 1 true none none (fitObjective 1 0 .normal .identity R' (fun _ => 1) .none .none (1 + η) 0) c0 c := by
  have hcv := tiny_convex 5 5
  set R' : Rows 2 := { X := fun i j => tinyRows.X i j + η, y := fun i => tinyRows.y i - η, sw := tinyRows.sw, off := some fun _ => η } with hR'
  have hcv' : ConvexFit (tinyCfg 5 5) R' 0 := ⟨hcv.thr, hcv.valid, hcv.pair, fun _ => trivial, hcv.sw, hcv.p1, hcv.p2, hcv.l1⟩
  have hg : guessIntercept .normal .identity R'.y R'.sw .none = some (average R'.y R'.sw) := by
    unfold guessIntercept
    rw [if_neg (by simp)]
  have hreg : RegularFit (tinyCfg 5 5) R' 0 (1 + η) := ⟨by simp [hR', tinyRows], by linarith, one_pos, one_posdef, fun _ => ⟨_, hg⟩,
    ⟨fun _ => 0, fun j _ => ⟨fun l hl => (by cases hl), fun u hu => (by cases hu)⟩⟩⟩
  obtain ⟨c0, c, hsol, -⟩ := c90_unique_solution (tinyCfg 5 5) R' 0 (1 + η) hcv' hreg (fun _ => 1)
  refine ⟨R', c0, c, ?_, ⟨rfl, rfl, rfl, rfl, rfl, ?_, ?_, ?_, ?_, ?_, ?_, ?_, ?_, ?_⟩, hcv', hsol⟩
  · intro he
    have := congrArg Rows.off he
    simp [hR', tinyRows] at this
  all_goals intros; simp [hR', tinyRows, abs_of_pos hη, hη.le]

/-- Fits of ridge regression on the two rows with a slightly larger strength and a small enough tolerance raise no warning and report coefficients near
the solution for strength 1. -/
example (next : (ℕ → BitVec 32) → ℕ → (ℕ → BitVec 32)) (s : SolverLog) (ε : ℝ) (hε : 0 < ε) : ∃ b0 b a g t r, 1 < a ∧
    Solves 1 true none none (fitObjective 1 0 .normal .identity tinyRows (fun _ => 1) .none .none 1 0) b0 b ∧
    glmFit (({ tinyCfg 5 5 with gradTol := g } : FitCfg 1 true).forSolver .irlsLs) tinyStats (irlsSolver next fun _ _ => lsInner invSolve) tinyRows 0 (.single a) s
      = some (t, r) ∧ ∀ (hc : 0 < r.coefPath.length) (hb : 0 < r.interceptPath.length), |r.interceptPath[0] - b0| ≤ ε ∧ |r.coefPath[0] 0 - b 0| ≤ ε := by
  have hcv := tiny_convex 5 5
  have hreg := tiny_regular 1 one_pos
  obtain ⟨b0, b, hsol, -⟩ := c90_unique_solution (tinyCfg 5 5) tinyRows 0 1 hcv hreg (fun _ => 1)
  obtain ⟨η, δ, hη, hδ, hfits⟩ := c94_fits_stable (tinyCfg 5 5) tinyStats tinyRows 0 1 hcv hreg b0 b hsol ε hε
  set M := 1 + ∑ j : Fin 1, |(tinyStats 2 tinyRows.X tinyRows.sw).1 j| + ∑ j : Fin 1, colScale (tinyCfg 5 5).thr (tinyStats 2 tinyRows.X tinyRows.sw).2 j with hM
  have hM0 : 0 < M := by
    have hm : 0 ≤ ∑ j : Fin 1, |(tinyStats 2 tinyRows.X tinyRows.sw).1 j| := Finset.sum_nonneg fun j _ => abs_nonneg _
    have hc : 0 ≤ ∑ j : Fin 1, colScale (tinyCfg 5 5).thr (tinyStats 2 tinyRows.X tinyRows.sw).2 j :=
      Finset.sum_nonneg fun j _ => colScale_nonneg _ _ (fun _ => zero_le_one) j
    rw [hM]; linarith
  have hg : 0 < δ / (2 * M) := by positivity
  obtain ⟨t, r, hr, hw, hal, -⟩ := tiny_ls_gen next s (δ / (2 * M)) hg (1 + η) (by linarith)
  refine ⟨b0, b, 1 + η, δ / (2 * M), t, r, by linarith, hsol, hr, fun hc hb => ?_⟩
  have := hfits (({ tinyCfg 5 5 with gradTol := δ / (2 * M) } : FitCfg 1 true).forSolver .irlsLs) tinyRows 0
    ⟨hcv.thr, hcv.valid, hcv.pair, hcv.y, hcv.sw, hcv.p1, hcv.p2, hcv.l1⟩ (fun _ => zero_le_one) rfl hg.le
    (by show δ / (2 * M) * M < δ; field_simp; linarith)
    next (fun _ _ => lsInner invSolve) (.single (1 + η)) s t r hr (by rw [hal]; simpa using by linarith) hw 0 (by rw [hal]; simp) hc hb
    (by
      refine ⟨rfl, rfl, rfl, rfl, rfl, ?_, ?_, ?_, ?_, ?_, ?_, ?_, ?_, ?_⟩
      · intros; simp [hη.le]
      · intros; simp [hη.le]
      · intros; simp [hη.le]
      · intros; simp [hη.le]
      · intro j _; show |userP1 (tinyCfg 5 5).P1a j - userP1 (tinyCfg 5 5).P1a j| ≤ η; simp [hη.le]
      · intro j _ k _; show |userP2 (tinyCfg 5 5).P2a j k - userP2 (tinyCfg 5 5).P2a j k| ≤ η; simp [hη.le]
      · intro j _; show |penScale (tinyCfg 5 5).thr (tinyCfg 5 5).asIfScaled _ j - penScale (tinyCfg 5 5).thr (tinyCfg 5 5).asIfScaled _ j| ≤ η; simp [hη.le]
      · simp [hal, abs_of_pos hη]
      · simp [hη.le])
    (fun j _ => ⟨fun l hl => (by cases hl), fun u hu => (by cases hu)⟩)
  exact ⟨this.1, this.2 0 (by norm_num)⟩

end Glum
