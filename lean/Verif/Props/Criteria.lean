import Mathlib.Analysis.SpecialFunctions.Gamma.Deriv
import Verif.Props.Report
import Verif.Props.Estimator
/-
C135: the information criteria of a fit, against those of the exact solution.
-/
set_option linter.unusedSectionVars false
set_option linter.unusedVariables false
set_option linter.unusedSimpArgs false

namespace Glum
open Spec Topology

variable {n m p : ℕ} {ic : Bool}

/-! ### Specification -/

/-- The log-likelihood that the criteria use: predictions on the rows `T`, weights `T.sw`, and the Pearson dispersion of the predictions (with one degree of freedom taken off). -/
noncomputable def Spec.fitLogLik (C : FitCfg p ic) (norm : ℝ → ℝ → ℝ → ℝ) (T : Rows m) (b0 : ℝ) (b : ℕ → ℝ) : Option ℝ :=
  C.family.logLik norm T.y (modelData C T b0 b).mu T.sw (C.family.pearsonDispersion T.y (modelData C T b0 b).mu T.sw 1)

/-- The number of parameters of a fit: coefficients above the threshold in size, and the intercept if there is one. -/
noncomputable def Spec.fitParams (p : ℕ) (ic : Bool) (eps : ℝ) (b : ℕ → ℝ) : ℕ := Spec.effectiveParams eps ic (List.ofFn fun j : Fin p => b j)

/-- The criteria of a fit as `aic`, `bic` and `aicc` report them, given the log-likelihood `ll`. -/
structure Spec.CriteriaNear (p m : ℕ) (ic : Bool) (eps ε ll : ℝ) (b : ℕ → ℝ) (ll' : ℝ) (b' : ℕ → ℝ) : Prop where
  aic : |Spec.aic ll' (fitParams p ic eps b') - Spec.aic ll (fitParams p ic eps b)| ≤ ε
  bic : |Spec.bic ll' (fitParams p ic eps b') m - Spec.bic ll (fitParams p ic eps b) m| ≤ ε
  aicc : |Spec.aicc ll' (fitParams p ic eps b') m - Spec.aicc ll (fitParams p ic eps b) m| ≤ ε

/-! ### The log-likelihood is continuous -/

section
variable {Z : Type} [TopologicalSpace Z] {z : Z}

theorem lgamma_cont {x : ℝ} (h : 0 < x) : ContinuousAt lgamma x := by
  unfold lgamma
  refine ContinuousAt.log ?_ (Real.Gamma_pos_of_pos h).ne'
  exact (Real.differentiableAt_Gamma fun k => by
    have : (0 : ℝ) ≤ k := Nat.cast_nonneg k
    linarith).continuousAt

theorem xlogy_cont (x : ℝ) {y : ℝ} (h : y ≠ 0) : ContinuousAt (xlogy x) y := by
  by_cases hx : x = 0
  · have : xlogy x = fun _ => 0 := by funext t; simp [xlogy, hx]
    rw [this]; exact continuousAt_const
  · have : xlogy x = fun t => x * Real.log t := by funext t; simp [xlogy, hx]
    rw [this]; exact continuousAt_const.mul (Real.continuousAt_log h)

variable (y w : Fin m → ℝ) {mu : Z → Fin m → ℝ} {d : Z → ℝ} (hmu : ∀ i, ContinuousAt (fun x => mu x i) z) (hd : ContinuousAt d z)
include hmu

theorem normalLL_cont (hd : ContinuousAt d z) (h0 : 0 < d z) : ContinuousAt (fun x => normalLogLik y w (mu x) (d x)) z := by
  unfold normalLogLik
  refine ((tendsto_finsetSum _ fun i _ => (continuousAt_const.mul ((continuousAt_const.sub (hmu i)).pow 2)).neg : ContinuousAt _ z).div (continuousAt_const.mul hd) (mul_pos two_pos h0).ne').add
    ((continuousAt_const.mul (ContinuousAt.log (continuousAt_const.mul hd) (mul_pos (mul_pos two_pos Real.pi_pos) h0).ne')).div_const _)

theorem poissonLL_cont (hp : ∀ i, 0 < mu z i) : ContinuousAt (fun x => poissonLogLik y w (mu x)) z := by
  unfold poissonLogLik
  refine tendsto_finsetSum _ fun i _ => ?_
  have h1 : ContinuousAt (fun x => -(w i * mu x i)) z := (continuousAt_const.mul (hmu i)).neg
  by_cases hy : 0 < y i
  · simp only [hy, if_true]
    exact h1.add (continuousAt_const.mul (continuousAt_const.sub (continuousAt_const.mul ((hmu i).log (hp i).ne')))).neg
  · simp only [hy, if_false]
    exact h1.add continuousAt_const

theorem gammaLL_cont (hd : ContinuousAt d z) (h0 : 0 < d z) (hp : ∀ i, 0 < mu z i) : ContinuousAt (fun x => gammaLogLik y w (mu x) (d x)) z := by
  unfold gammaLogLik
  simp only []
  have hi : ContinuousAt (fun x => 1 / d x) z := continuousAt_const.div hd h0.ne'
  have hl : ContinuousAt (fun x => lgamma (1 / d x)) z := ContinuousAt.comp (g := lgamma) (lgamma_cont (by positivity)) hi
  refine (tendsto_finsetSum _ fun i _ => ?_ : ContinuousAt _ z).sub ((((hd.log h0.ne').mul hi).add hl).mul continuousAt_const)
  exact continuousAt_const.mul ((hi.mul ((continuousAt_const.sub ((hmu i).log (hp i).ne')).sub (continuousAt_const.div (hmu i) (hp i).ne'))).sub continuousAt_const)

theorem invGaussianLL_cont (hd : ContinuousAt d z) (h0 : 0 < d z) (hp : ∀ i, 0 < mu z i) : ContinuousAt (fun x => invGaussianLogLik y w (mu x) (d x)) z := by
  unfold invGaussianLogLik
  simp only []
  have hi : ContinuousAt (fun x => 1 / (2 * d x)) z := continuousAt_const.div (continuousAt_const.mul hd) (by positivity)
  refine (tendsto_finsetSum _ fun i _ => ?_ : ContinuousAt _ z).add ((continuousAt_const.mul ((hi.div_const _).log ?_)).div_const _)
  · exact (continuousAt_const.mul (((hi.mul (((continuousAt_const.div (hmu i) (hp i).ne').sub continuousAt_const).pow 2)).div_const _).add continuousAt_const)).neg
  · have := Real.pi_pos
    positivity

theorem binomialLL_cont (hp : ∀ i, mu z i ∈ Set.Ioo (0 : ℝ) 1) : ContinuousAt (fun x => binomialLogLik y w (mu x)) z := by
  unfold binomialLogLik
  refine tendsto_finsetSum _ fun i _ => ContinuousAt.mul (ContinuousAt.add ?_ ?_) continuousAt_const
  · exact ContinuousAt.comp (g := xlogy (y i)) (xlogy_cont _ (hp i).1.ne') (hmu i)
  · exact ContinuousAt.comp (g := xlogy (1 - y i)) (xlogy_cont _ (sub_pos.2 (hp i).2).ne') (continuousAt_const.sub (hmu i))

theorem tweedieLL_cont (norm : ℝ → ℝ → ℝ → ℝ) (q : ℝ) (hd : ContinuousAt d z) (h0 : 0 < d z) (hq : q ≠ 2) (hp : ∀ i, 0 < mu z i)
    (hn : ∀ i, y i ≠ 0 → ContinuousAt (norm (y i) q) (d z)) : ContinuousAt (fun x => tweedieLogLik norm q y w (mu x) (d x)) z := by
  unfold tweedieLogLik
  refine tendsto_finsetSum _ fun i _ => continuousAt_const.mul ?_
  unfold tweedieUnitLogLik
  have hpow : ∀ e : ℝ, ContinuousAt (fun x => mu x i ^ e) z := fun e => (hmu i).rpow_const (Or.inl (hp i).ne')
  by_cases hy : y i = 0
  · simp only [hy, if_true]
    exact (hpow _).neg.div (hd.mul continuousAt_const) (mul_ne_zero h0.ne' (sub_ne_zero.2 (Ne.symm hq)))
  · simp only [hy, if_false]
    exact ((((((hpow _).div_const _).mul continuousAt_const).sub (((hmu i).mul (hpow _)).div_const _)).div hd h0.ne')).add
      (ContinuousAt.comp (g := norm (y i) q) (hn i hy) hd)

/-- Wherever the log-likelihood is defined it is defined nearby, and continuous. -/
theorem logLik_cont (f : Family) (hf : Spec.Valid f) (norm : ℝ → ℝ → ℝ → ℝ) (hd : ContinuousAt d z) (h0 : 0 < f.effectiveDispersion (d z)) (hm : ∀ i, mu z i ∈ muRange f)
    (hn : ∀ q, f = .tweedie q → q ≠ 0 → q ≠ 1 → q < 2 → ∀ i, y i ≠ 0 → ContinuousAt (norm (y i) q) (d z)) (ll : ℝ) (hll : f.logLik norm y (mu z) w (d z) = some ll) :
    OptCont (fun x => f.logLik norm y (mu x) w (d x)) z ll := by
  have fin : ∀ F : Z → ℝ, ContinuousAt F z → some (F z) = some ll → OptCont (fun x => some (F x)) z ll := by
    intro F hF hs
    rw [← Option.some.inj hs]
    exact OptCont.some hF
  cases f with
  | normal => exact fin _ (normalLL_cont y w hmu hd h0) hll
  | poisson => exact fin _ (poissonLL_cont y w hmu hm) hll
  | gamma => exact fin _ (gammaLL_cont y w hmu hd h0 hm) hll
  | invGaussian => exact fin _ (invGaussianLL_cont y w hmu hd h0 hm) hll
  | ghs => cases hll
  | binomial => exact fin _ (binomialLL_cont y w hmu hm) hll
  | negBinomial t =>
    simp only [Family.logLik, negBinomialLogLik] at hll ⊢
    have hno : ¬ ∃ i, y i = 0 ∧ mu z i = 0 := by
      rintro ⟨i, _, h⟩
      exact (ne_of_gt (hm i : 0 < mu z i)) h
    rw [if_neg hno] at hll
    have ht : 0 < t := hf
    refine ⟨fun x => ∑ i, w i * (y i * Real.log (t * mu x i) - (y i + 1 / t) * Real.log (1 + t * mu x i) + lgamma (y i + 1 / t) - lgamma (1 / t) - lgamma (y i + 1)), ?_,
      Option.some.inj hll, ?_⟩
    · refine tendsto_finsetSum _ fun i _ => continuousAt_const.mul ?_
      have hi : 0 < mu z i := hm i
      exact ((((continuousAt_const.mul ((continuousAt_const.mul (hmu i)).log (mul_pos ht hi).ne')).sub
        (continuousAt_const.mul ((continuousAt_const.add (continuousAt_const.mul (hmu i))).log (add_pos one_pos (mul_pos ht hi)).ne'))).add continuousAt_const).sub continuousAt_const).sub continuousAt_const
    · filter_upwards [Filter.eventually_all.2 fun i => (hmu i).eventually_ne (ne_of_gt (hm i : 0 < mu z i))] with x hx
      rw [if_neg]
      rintro ⟨i, _, h⟩
      exact hx i h
  | tweedie q =>
    have hpos : q ≠ 0 → ∀ i, 0 < mu z i := fun h0 i => (hm i : q = 0 ∨ 0 < mu z i).resolve_left h0
    simp only [Family.logLik] at hll ⊢
    by_cases q0 : q = 0
    · have h0 : 0 < d z := by simpa [Family.effectiveDispersion, q0] using h0
      simp only [q0, if_true] at hll ⊢
      exact fin _ (normalLL_cont y w hmu hd h0) hll
    by_cases q1 : q = 1
    · simp only [q1, if_true, one_ne_zero, if_false] at hll ⊢
      exact fin _ (poissonLL_cont y w hmu (hpos q0)) hll
    have h0 : 0 < d z := by simpa [Family.effectiveDispersion, q1] using h0
    by_cases q2 : q = 2
    · simp only [q2, if_true, OfNat.ofNat_ne_zero, OfNat.ofNat_ne_one, if_false] at hll ⊢
      exact fin _ (gammaLL_cont y w hmu hd h0 (hpos q0)) hll
    by_cases q3 : q < 2
    · simp only [q0, q1, q2, q3, if_true, if_false] at hll ⊢
      exact fin _ (tweedieLL_cont y w hmu norm q hd h0 q2 (hpos q0) (hn q rfl q0 q1 q3)) hll
    by_cases q4 : q = 3
    · simp only [q0, q1, q2, q3, if_false] at hll ⊢
      simp only [q4, if_true] at hll ⊢
      exact fin _ (invGaussianLL_cont y w hmu hd h0 (hpos q0)) hll
    · simp only [q0, q1, q2, q3, q4, if_false] at hll
      cases hll
end

/-! ### The number of parameters -/

theorem fitParams_eq (eps : ℝ) (b : ℕ → ℝ) :
    fitParams p ic eps b = (open Classical in (Finset.univ.filter fun j : Fin p => ¬ |b j| ≤ eps).card) + if ic then 1 else 0 := by
  classical
  unfold fitParams Spec.effectiveParams
  congr 1
  refine Finset.card_bij (fun j _ => Fin.cast (List.length_ofFn ..) j) ?_ ?_ ?_
  · intro j hj
    simpa using hj
  · intro j _ k _ h
    simpa [Fin.ext_iff] using h
  · intro j hj
    exact ⟨Fin.cast (List.length_ofFn ..).symm j, by simpa using hj, by simp⟩

/-- Coefficients close to those of the solution count at least as many parameters. -/
theorem fitParams_lower (ic : Bool) (eps b0 : ℝ) (b : ℕ → ℝ) : ∃ η : ℝ, 0 < η ∧ ∀ c0 c, CoefWithin p η b0 b c0 c → fitParams p ic eps b ≤ fitParams p ic eps c := by
  classical
  obtain ⟨η, hη, hlt⟩ : ∃ η : ℝ, 0 < η ∧ ∀ j : Fin p, eps < |b j| → η < |b j| - eps := by
    have : ∀ᶠ η : ℝ in 𝓝[>] 0, ∀ j : Fin p, eps < |b j| → η < |b j| - eps := Filter.eventually_all.2 fun j => by
      by_cases h : eps < |b j|
      · filter_upwards [nhdsWithin_le_nhds (Iio_mem_nhds (sub_pos.2 h))] with η hη _ using hη
      · exact Filter.Eventually.of_forall fun _ h' => absurd h' h
    obtain ⟨η, h1, h2⟩ := (this.and self_mem_nhdsWithin).exists
    exact ⟨η, h2, h1⟩
  refine ⟨η, hη, fun c0 c hc => ?_⟩
  rw [fitParams_eq, fitParams_eq]
  refine Nat.add_le_add_right (Finset.card_le_card fun j hj => ?_) _
  simp only [Finset.mem_filter, Finset.mem_univ, true_and, not_le] at hj ⊢
  have h1 := hlt j hj
  have h2 := hc.2 j j.2
  have h3 := abs_sub_abs_le_abs_sub (b j) (c j)
  rw [abs_sub_comm] at h3
  linarith

/-- If no coefficient of the solution is exactly at the threshold the count is the same nearby. -/
theorem fitParams_same (ic : Bool) (eps b0 : ℝ) (b : ℕ → ℝ) (hb : ∀ j < p, |b j| ≠ eps) :
    ∃ η : ℝ, 0 < η ∧ ∀ c0 c, CoefWithin p η b0 b c0 c → fitParams p ic eps c = fitParams p ic eps b := by
  classical
  obtain ⟨η, hη, hlt⟩ : ∃ η : ℝ, 0 < η ∧ ∀ j : Fin p, η < |(|b j| - eps)| := by
    have : ∀ᶠ η : ℝ in 𝓝[>] 0, ∀ j : Fin p, η < |(|b j| - eps)| := Filter.eventually_all.2 fun j =>
      nhdsWithin_le_nhds (Iio_mem_nhds (abs_pos.2 (sub_ne_zero.2 (hb j j.2))))
    obtain ⟨η, h1, h2⟩ := (this.and self_mem_nhdsWithin).exists
    exact ⟨η, h2, h1⟩
  refine ⟨η, hη, fun c0 c hc => ?_⟩
  rw [fitParams_eq, fitParams_eq]
  congr 2
  ext j
  simp only [Finset.mem_filter, Finset.mem_univ, true_and, not_le]
  have h1 := hlt j
  have h2 := (abs_abs_sub_abs_le_abs_sub (c j) (b j)).trans (hc.2 j j.2)
  rw [abs_le] at h2
  constructor
  · intro h
    by_contra hn
    rw [abs_of_nonpos (by linarith [not_lt.1 hn])] at h1
    linarith
  · intro h
    rw [abs_of_pos (by linarith)] at h1
    linarith

/-! ### The criteria -/

section
variable (C : FitCfg p ic) (T : Rows m)

/-- What the criteria need of the solution: predictions inside the range of means, a positive dispersion where the likelihood uses it, and - for Tweedie powers between 1 and 2 and below 0,
whose normalising constant is a truncated series - a constant that is continuous in the dispersion. -/
structure Spec.CriteriaRegular (norm : ℝ → ℝ → ℝ → ℝ) (b0 : ℝ) (b : ℕ → ℝ) : Prop where
  regular : RegularOn C T b0 b
  dispersion : 0 < C.family.effectiveDispersion (C.family.pearsonDispersion T.y (modelData C T b0 b).mu T.sw 1)
  constant : ∀ q, C.family = .tweedie q → q ≠ 0 → q ≠ 1 → q < 2 → ∀ i, T.y i ≠ 0 →
    ContinuousAt (norm (T.y i) q) (C.family.pearsonDispersion T.y (modelData C T b0 b).mu T.sw 1)

variable {C T}

theorem loglik_near (hf : Spec.Valid C.family) (norm : ℝ → ℝ → ℝ → ℝ) (b0 : ℝ) (b : ℕ → ℝ) (hr : CriteriaRegular C T norm b0 b) (ll : ℝ) (hll : fitLogLik C norm T b0 b = some ll)
    (ε : ℝ) (hε : 0 < ε) : ∃ η : ℝ, 0 < η ∧ ∀ c0 c, CoefWithin p η b0 b c0 c → ∃ ll', fitLogLik C norm T c0 c = some ll' ∧ |ll' - ll| ≤ ε := by
  set z := restrict (p := p) b0 b with hzdef
  have hz : ∀ i, RegularAt C.e50 C.family C.link (etaOf p T.X T.off (extend z.2) z.1 i) := fun i => by
    rw [hzdef, etaOf_restrict]; exact hr.regular i
  have hmu : ∀ i, ContinuousAt (fun x => (dataAt C T x).mu i) z := fun i => mean_cont _ (eta_cont T i z) (hz i)
  have hdisp : ContinuousAt (fun x => C.family.pearsonDispersion T.y (dataAt C T x).mu T.sw 1) z := by
    unfold Family.pearsonDispersion
    refine ContinuousAt.div_const (tendsto_finsetSum _ fun i _ => ?_) _
    exact (((continuousAt_const.sub (hmu i)).pow 2).div (variance_cont _ (eta_cont T i z) (hz i)) (unitVariance_pos C.family hf (hz i).mu).ne').mul continuousAt_const
  have hdz : dataAt C T z = modelData C T b0 b := by rw [hzdef, dataAt_restrict]
  obtain ⟨W, hW, hWz, hev⟩ := logLik_cont T.y T.sw hmu C.family hf norm hdisp (by rw [hdz]; exact hr.dispersion) (fun i => (hz i).mu)
    (fun q hq h0 h1 h2 i hi => by rw [hdz]; exact hr.constant q hq h0 h1 h2 i hi) ll (by rw [hdz]; exact hll)
  obtain ⟨η, hη, hnear⟩ := close_of_eventually _ b0 b (hev.and (within_eventually hW hε))
  refine ⟨η, hη, fun c0 c hc => ?_⟩
  obtain ⟨h1, h2⟩ := hnear c0 c hc
  simp only [dataAt_restrict] at h1
  exact ⟨_, h1, by rw [hWz] at h2; exact h2⟩

theorem aicc_penalty_mono {j k m : ℕ} (hjk : j ≤ k) (hk : k + 1 < m) : (2 * j * (j + 1) / (m - j - 1) : ℝ) ≤ 2 * k * (k + 1) / (m - k - 1) := by
  have h1 : (j : ℝ) ≤ k := Nat.cast_le.2 hjk
  have h2 : (k : ℝ) + 1 < m := by exact_mod_cast hk
  have h3 : (0 : ℝ) ≤ j := Nat.cast_nonneg j
  exact div_le_div₀ (by positivity) (by nlinarith) (by linarith) (by linarith)

variable (C : FitCfg p ic) (stats : Stats) (R : Rows n) (l1r a : ℝ) (h : ConvexFit C R l1r) (hs : ∀ j, 0 ≤ (stats n R.X R.sw).2 j) (b0 : ℝ) (b : ℕ → ℝ)
  (hdet : Determined C R (penScale C.thr C.asIfScaled (stats n R.X R.sw).2) l1r a b0 b) (T : Rows m) (norm : ℝ → ℝ → ℝ → ℝ) (hr : CriteriaRegular C T norm b0 b)
  (ll : ℝ) (hll : fitLogLik C norm T b0 b = some ll) (eps ε : ℝ) (hε : 0 < ε)
include h hs hdet hr hll hε

/-- **C135, log-likelihood.** The log-likelihood of the fits converges to that of the solution, dispersion estimate included. -/
theorem c135_loglik : ∃ δ : ℝ, 0 < δ ∧ EveryFit C stats R l1r a δ fun c0 c => ∃ ll', fitLogLik C norm T c0 c = some ll' ∧ |ll' - ll| ≤ ε :=
  c132_transfer C stats R l1r a h hs b0 b hdet _ (loglik_near h.valid norm b0 b hr ll hll ε hε)

/-- **C135, no undershooting.** For every `ε` there is a tolerance below which no fit without ConvergenceWarning has an `aic`, `bic` or (where it is defined) `aicc` more than `ε` below that of
the solution, whatever the threshold that decides which coefficients count. -/
theorem c135_never_undershoots : ∃ δ : ℝ, 0 < δ ∧ EveryFit C stats R l1r a δ fun c0 c => ∃ ll', fitLogLik C norm T c0 c = some ll' ∧
    Spec.aic ll (fitParams p ic eps b) - ε ≤ Spec.aic ll' (fitParams p ic eps c) ∧
    Spec.bic ll (fitParams p ic eps b) m - ε ≤ Spec.bic ll' (fitParams p ic eps c) m ∧
    (fitParams p ic eps c + 1 < m → Spec.aicc ll (fitParams p ic eps b) m - ε ≤ Spec.aicc ll' (fitParams p ic eps c) m) := by
  refine c132_transfer C stats R l1r a h hs b0 b hdet _ ?_
  obtain ⟨η, hη, h1⟩ := loglik_near h.valid norm b0 b hr ll hll (ε / 2) (half_pos hε)
  obtain ⟨η', hη', h2⟩ := fitParams_lower ic eps b0 b
  refine ⟨min η η', lt_min hη hη', fun c0 c hc => ?_⟩
  obtain ⟨ll', e, hl⟩ := h1 c0 c ⟨hc.1.trans (min_le_left _ _), fun j hj => (hc.2 j hj).trans (min_le_left _ _)⟩
  have hk := h2 c0 c ⟨hc.1.trans (min_le_right _ _), fun j hj => (hc.2 j hj).trans (min_le_right _ _)⟩
  have hk' : (fitParams p ic eps b : ℝ) ≤ fitParams p ic eps c := Nat.cast_le.2 hk
  have hl := (abs_le.1 hl).2
  have ha : Spec.aic ll (fitParams p ic eps b) - ε ≤ Spec.aic ll' (fitParams p ic eps c) := by unfold Spec.aic; linarith
  refine ⟨ll', e, ha, ?_, fun hm => ?_⟩
  · have := mul_le_mul_of_nonneg_left hk' (Real.log_natCast_nonneg m)
    unfold Spec.bic; linarith
  · have := aicc_penalty_mono hk hm
    unfold Spec.aicc; linarith

/-- **C135, convergence.** If no coefficient of the solution is exactly at the threshold in size, all three criteria of the fits converge to those of the solution. -/
theorem c135_criteria (hb : ∀ j < p, |b j| ≠ eps) : ∃ δ : ℝ, 0 < δ ∧ EveryFit C stats R l1r a δ fun c0 c => ∃ ll', fitLogLik C norm T c0 c = some ll' ∧
    fitParams p ic eps c = fitParams p ic eps b ∧ CriteriaNear p m ic eps ε ll b ll' c := by
  refine c132_transfer C stats R l1r a h hs b0 b hdet _ ?_
  obtain ⟨η, hη, h1⟩ := loglik_near h.valid norm b0 b hr ll hll (ε / 2) (half_pos hε)
  obtain ⟨η', hη', h2⟩ := fitParams_same ic eps b0 b hb
  refine ⟨min η η', lt_min hη hη', fun c0 c hc => ?_⟩
  obtain ⟨ll', e, hl⟩ := h1 c0 c ⟨hc.1.trans (min_le_left _ _), fun j hj => (hc.2 j hj).trans (min_le_left _ _)⟩
  have hk := h2 c0 c ⟨hc.1.trans (min_le_right _ _), fun j hj => (hc.2 j hj).trans (min_le_right _ _)⟩
  obtain ⟨l1, l2⟩ := abs_le.1 hl
  refine ⟨ll', e, hk, ⟨?_, ?_, ?_⟩⟩ <;> rw [hk, abs_le]
  · unfold Spec.aic; constructor <;> linarith
  · unfold Spec.bic; constructor <;> linarith
  · unfold Spec.aicc Spec.aic; constructor <;> linarith

end

/-- **C135, comparing models.** If one model has the smaller AIC at its solution - two models that may differ in columns, penalty, family, link, weights and data - and none of its coefficients is
exactly at the threshold, then for small enough tolerances every fit of the one has a smaller AIC than every fit of the other. -/
theorem c135_ranking {n₁ n₂ m₁ m₂ p₁ p₂ : ℕ} {ic₁ ic₂ : Bool} (C₁ : FitCfg p₁ ic₁) (C₂ : FitCfg p₂ ic₂) (stats : Stats) (R₁ : Rows n₁) (R₂ : Rows n₂) (l₁ l₂ a₁ a₂ : ℝ)
    (h₁ : ConvexFit C₁ R₁ l₁) (h₂ : ConvexFit C₂ R₂ l₂) (hs₁ : ∀ j, 0 ≤ (stats n₁ R₁.X R₁.sw).2 j) (hs₂ : ∀ j, 0 ≤ (stats n₂ R₂.X R₂.sw).2 j) (u0 v0 : ℝ) (u v : ℕ → ℝ)
    (d₁ : Determined C₁ R₁ (penScale C₁.thr C₁.asIfScaled (stats n₁ R₁.X R₁.sw).2) l₁ a₁ u0 u) (d₂ : Determined C₂ R₂ (penScale C₂.thr C₂.asIfScaled (stats n₂ R₂.X R₂.sw).2) l₂ a₂ v0 v)
    (T₁ : Rows m₁) (T₂ : Rows m₂) (norm : ℝ → ℝ → ℝ → ℝ) (r₁ : CriteriaRegular C₁ T₁ norm u0 u) (r₂ : CriteriaRegular C₂ T₂ norm v0 v) (ll₁ ll₂ : ℝ)
    (e₁ : fitLogLik C₁ norm T₁ u0 u = some ll₁) (e₂ : fitLogLik C₂ norm T₂ v0 v = some ll₂) (eps : ℝ) (hu : ∀ j < p₁, |u j| ≠ eps)
    (hlt : Spec.aic ll₁ (fitParams p₁ ic₁ eps u) < Spec.aic ll₂ (fitParams p₂ ic₂ eps v)) :
    ∃ t δ : ℝ, 0 < δ ∧ (EveryFit C₁ stats R₁ l₁ a₁ δ fun c0 c => ∃ ll, fitLogLik C₁ norm T₁ c0 c = some ll ∧ Spec.aic ll (fitParams p₁ ic₁ eps c) < t) ∧
      EveryFit C₂ stats R₂ l₂ a₂ δ fun c0 c => ∃ ll, fitLogLik C₂ norm T₂ c0 c = some ll ∧ t < Spec.aic ll (fitParams p₂ ic₂ eps c) := by
  set A := Spec.aic ll₁ (fitParams p₁ ic₁ eps u) with hA
  set B := Spec.aic ll₂ (fitParams p₂ ic₂ eps v) with hB
  obtain ⟨δ₁, hδ₁, f₁⟩ := c135_criteria C₁ stats R₁ l₁ a₁ h₁ hs₁ u0 u d₁ T₁ norm r₁ ll₁ e₁ eps ((B - A) / 3) (by linarith) hu
  obtain ⟨δ₂, hδ₂, f₂⟩ := c135_never_undershoots C₂ stats R₂ l₂ a₂ h₂ hs₂ v0 v d₂ T₂ norm r₂ ll₂ e₂ eps ((B - A) / 3) (by linarith)
  refine ⟨(A + B) / 2, min δ₁ δ₂, lt_min hδ₁ hδ₂, ?_, ?_⟩
  · intro next inner C' hC hst hg sp s t r hf ha hw i hi hc hb hal hwb
    obtain ⟨ll, e, _, hn⟩ := f₁ next inner C' hC hst (hg.trans_le (min_le_left _ _)) sp s t r hf ha hw i hi hc hb hal hwb
    have := (abs_le.1 hn.aic).2
    exact ⟨ll, e, by rw [← hA] at this; linarith⟩
  · intro next inner C' hC hst hg sp s t r hf ha hw i hi hc hb hal hwb
    obtain ⟨ll, e, hn, _⟩ := f₂ next inner C' hC hst (hg.trans_le (min_le_right _ _)) sp s t r hf ha hw i hi hc hb hal hwb
    exact ⟨ll, e, by rw [← hB] at hn; linarith⟩

/-! ### The hypotheses are met -/

/-- Ridge regression on two rows: the solution meets the requirements of the criteria, counts two parameters at glum's threshold, and no coefficient is at the threshold. -/
theorem tiny_criteria (norm : ℝ → ℝ → ℝ → ℝ) : CriteriaRegular (tinyCfg 5 5) tinyEval norm 2 (fun _ => 1 / 2) ∧ (∃ ll, fitLogLik (tinyCfg 5 5) norm tinyEval 2 (fun _ => 1 / 2) = some ll) ∧
    fitParams 1 true (2 ^ (-52 : ℤ)) (fun _ => 1 / 2) = 2 ∧ ∀ j < 1, |(fun _ => 1 / 2 : ℕ → ℝ) j| ≠ 2 ^ (-52 : ℤ) := by
  have hmu : (modelData (tinyCfg 5 5) tinyEval 2 fun _ => 1 / 2).mu = fun i => if i = 0 then 5 / 2 else 3 / 2 := by
    funext i
    simp only [modelData, tinyCfg, Link.inverse, etaOf, tinyEval, tinyRows]
    fin_cases i <;> simp <;> norm_num
  refine ⟨⟨fun i => ⟨trivial, trivial, trivial⟩, ?_, ?_⟩, ⟨_, rfl⟩, ?_, ?_⟩
  · rw [hmu]
    simp [Family.effectiveDispersion, Family.pearsonDispersion, tinyCfg, tinyEval, tinyRows, Family.unitVariance, Fin.sum_univ_two]
    norm_num
  · intro q hq
    cases hq
  · rw [fitParams_eq]
    have : ¬ |(1 / 2 : ℝ)| ≤ 2 ^ (-52 : ℤ) := by rw [abs_of_pos (by norm_num)]; norm_num
    rw [Finset.filter_true_of_mem fun j _ => this]
    simp
  · intro j _
    simp only []
    rw [abs_of_pos (by norm_num)]
    norm_num

/-- A fit with a coefficient off by less than any tolerance can count more parameters than the solution if the threshold is 0; with a positive threshold it cannot. -/
theorem c135_threshold_matters : (∀ η : ℝ, 0 < η → ∃ c : ℕ → ℝ, CoefWithin 1 η 0 (fun _ => 0) 0 c ∧ fitParams 1 true 0 (fun _ => 0) < fitParams 1 true 0 c) ∧
    ∀ eps : ℝ, 0 < eps → ∃ η : ℝ, 0 < η ∧ ∀ c0 c, CoefWithin 1 η 0 (fun _ => 0) c0 c → fitParams 1 true eps c = fitParams 1 true eps fun _ => 0 := by
  refine ⟨fun η hη => ⟨fun _ => η, ⟨by simpa using hη.le, fun j _ => by simp [abs_of_pos hη]⟩, ?_⟩, fun eps h => fitParams_same true eps 0 _ fun j _ => by simpa using h.ne⟩
  rw [fitParams_eq, fitParams_eq]
  have h1 : ¬ |η| ≤ 0 := by rw [abs_of_pos hη]; exact not_le.2 hη
  rw [Finset.filter_true_of_mem fun j _ => h1, Finset.filter_false_of_mem fun j _ => by simp]
  simp

end Glum
