import Mathlib.Topology.Instances.Matrix
import Verif.Props.Ridgeless
import Verif.Props.Inference
import Verif.Props.Wald
import Verif.Props.Predict
/-
C132: whatever is computed from the fitted coefficients - predictions, dispersion, D2, covariance matrices, standard errors, tests, intervals - converges with the fit.
-/
set_option linter.unusedSectionVars false
set_option linter.unusedVariables false
set_option linter.unusedSimpArgs false

namespace Glum
open Spec Topology

variable {n m p : ℕ} {ic : Bool}

/-! ### Specification -/

/-- What the inference functions work on when a model with intercept `b0` and coefficients `b` is evaluated on the rows `T` (`T.sw` are the weights as given to `covariance_matrix`). -/
noncomputable def Spec.modelData (C : FitCfg p ic) (T : Rows m) (b0 : ℝ) (b : ℕ → ℝ) : CovData m p ic where
  f := C.family
  l := C.link
  X := T.X
  y := T.y
  mu := fun i => C.link.inverse C.e50 (etaOf p T.X T.off b b0 i)
  w := T.sw

/-- The coefficient vector of the inference functions: the intercept, if there is one, in front. -/
def Spec.coefVector (p : ℕ) (ic : Bool) (b0 : ℝ) (b : ℕ → ℝ) (k : Fin (p + ic.toNat)) : ℝ := if k.val < ic.toNat then b0 else b (k.val - ic.toNat)

/-- The model is regular on the rows: no prediction is clipped or leaves the range of means. -/
def Spec.RegularOn (C : FitCfg p ic) (T : Rows m) (b0 : ℝ) (b : ℕ → ℝ) : Prop := ∀ i, RegularAt C.e50 C.family C.link (etaOf p T.X T.off b b0 i)

/-- Two rows of a coefficient table agree up to `ε`. -/
structure Spec.RowWithin (ε : ℝ) (u v : CoefRow) : Prop where
  coef : |u.coef - v.coef| ≤ ε
  se : |u.se - v.se| ≤ ε
  t : |u.t - v.t| ≤ ε
  pValue : |u.pValue - v.pValue| ≤ ε
  ciLower : |u.ciLower - v.ciLower| ≤ ε
  ciUpper : |u.ciUpper - v.ciUpper| ≤ ε

/-! ### Continuity of the row weights -/

section
variable {Z : Type} [TopologicalSpace Z] {z : Z}

theorem inverseDerivative2_cont (l : Link) (eta : ℝ) (h : eta ∈ linkRange l) : ContinuousAt l.inverseDerivative2 eta := by
  have hex : Continuous expit := by
    unfold expit
    exact continuous_const.div (by fun_prop) fun x => by positivity
  cases l with
  | identity => exact continuousAt_const
  | log => exact Real.continuous_exp.continuousAt
  | logit =>
    have : Continuous fun x => expit x * (1 - expit x) * (1 - 2 * expit x) := by fun_prop
    exact this.continuousAt
  | cloglog =>
    have : Continuous fun x : ℝ => -Real.exp (x - Real.exp x) * (Real.exp x - 1) := by fun_prop
    exact this.continuousAt
  | tweedie q =>
    by_cases h0 : q = 0
    · have : Link.inverseDerivative2 (.tweedie q) = fun _ => 0 := by funext x; simp [Link.inverseDerivative2, h0]
      rw [this]; exact continuousAt_const
    · by_cases h1 : q = 1
      · have : Link.inverseDerivative2 (.tweedie q) = Real.exp := by funext x; simp [Link.inverseDerivative2, h1]
        rw [this]; exact Real.continuous_exp.continuousAt
      · have : Link.inverseDerivative2 (.tweedie q) = fun x => x ^ ((2 * q - 1) / (1 - q)) * (q / (1 - q) ^ 2) := by
          funext x; simp [Link.inverseDerivative2, h0, h1]
        rw [this]
        have hp : 0 < eta := by
          rcases h with h | h | h
          · exact absurd h h0
          · exact absurd h h1
          · exact h
        exact (Real.continuousAt_rpow_const _ _ (Or.inl hp.ne')).mul continuousAt_const

theorem unitVarianceDerivative_cont (f : Family) (mu : ℝ) (h : mu ∈ muRange f) : ContinuousAt f.unitVarianceDerivative mu := by
  cases f with
  | normal => exact continuousAt_const
  | poisson => exact continuousAt_const
  | gamma => exact (by unfold Family.unitVarianceDerivative; fun_prop : Continuous (Family.unitVarianceDerivative .gamma)).continuousAt
  | invGaussian => exact (by unfold Family.unitVarianceDerivative; fun_prop : Continuous (Family.unitVarianceDerivative .invGaussian)).continuousAt
  | ghs => exact (by unfold Family.unitVarianceDerivative; fun_prop : Continuous (Family.unitVarianceDerivative .ghs)).continuousAt
  | binomial => exact (by unfold Family.unitVarianceDerivative; fun_prop : Continuous (Family.unitVarianceDerivative .binomial)).continuousAt
  | negBinomial t => exact (by unfold Family.unitVarianceDerivative; fun_prop : Continuous (Family.unitVarianceDerivative (.negBinomial t))).continuousAt
  | tweedie q =>
    rcases h with h | h
    · subst h
      have : Family.unitVarianceDerivative (.tweedie 0) = fun _ => 0 := by funext x; simp [Family.unitVarianceDerivative]
      rw [this]; exact continuousAt_const
    · exact continuousAt_const.mul (Real.continuousAt_rpow_const _ _ (Or.inl h.ne'))

/-- The mean, along any continuous change of the predictor. -/
theorem mean_cont {e50 : ℝ} {f : Family} {l : Link} (e : Z → ℝ) (he : ContinuousAt e z) (h : RegularAt e50 f l (e z)) :
    ContinuousAt (fun x => l.inverse e50 (e x)) z :=
  ContinuousAt.comp (g := l.inverse e50) (c02_inverse_derivative e50 l (e z) h.range h.clip).continuousAt he

theorem variance_cont {e50 : ℝ} {f : Family} {l : Link} (e : Z → ℝ) (he : ContinuousAt e z) (h : RegularAt e50 f l (e z)) :
    ContinuousAt (fun x => f.unitVariance (l.inverse e50 (e x))) z :=
  ContinuousAt.comp (g := f.unitVariance) (c05_variance_derivative f _ h.mu).continuousAt (mean_cont e he h)

theorem regular_near {e50 : ℝ} {f : Family} {l : Link} (e : Z → ℝ) (he : ContinuousAt e z) (h : RegularAt e50 f l (e z)) :
    ∀ᶠ x in 𝓝 z, RegularAt e50 f l (e x) := he.eventually (regularAt_eventually h)

theorem invDer_cont {e50 : ℝ} {f : Family} {l : Link} (e : Z → ℝ) (he : ContinuousAt e z) (h : RegularAt e50 f l (e z)) :
    ContinuousAt (fun x => l.inverseDerivative (e x)) z :=
  ContinuousAt.comp (g := l.inverseDerivative) (c02_inverse_derivative2 l (e z) h.range).continuousAt he

theorem fisherW_cont {e50 : ℝ} {f : Family} (hf : Valid f) {l : Link} (w : ℝ) (e d : Z → ℝ) (he : ContinuousAt e z) (hd : ContinuousAt d z) (hd0 : d z ≠ 0)
    (h : RegularAt e50 f l (e z)) : ContinuousAt (fun x => fisherW f l (d x) (l.inverse e50 (e x)) w) z := by
  have hv := (unitVariance_pos f hf h.mu).ne'
  have key : ContinuousAt (fun x => l.inverseDerivative (e x) ^ 2 * (w / d x / f.unitVariance (l.inverse e50 (e x)))) z :=
    ((invDer_cont e he h).pow 2).mul ((continuousAt_const.div hd hd0).div (variance_cont e he h) hv)
  refine key.congr ?_
  filter_upwards [regular_near e he h] with x hx
  unfold fisherW
  rw [oneOverVariance_regular hf hx, c01_link_inverse e50 l _ hx.range hx.clip]

theorem observedW_cont {e50 : ℝ} {f : Family} (hf : Valid f) {l : Link} (y w : ℝ) (e d : Z → ℝ) (he : ContinuousAt e z) (hd : ContinuousAt d z) (hd0 : d z ≠ 0)
    (h : RegularAt e50 f l (e z)) : ContinuousAt (fun x => observedW f l (d x) y (l.inverse e50 (e x)) w) z := by
  have hv := (unitVariance_pos f hf h.mu).ne'
  have h2 : ContinuousAt (fun x => l.inverseDerivative2 (e x)) z := ContinuousAt.comp (g := l.inverseDerivative2) (inverseDerivative2_cont l _ h.range) he
  have h3 : ContinuousAt (fun x => f.unitVarianceDerivative (l.inverse e50 (e x))) z :=
    ContinuousAt.comp (g := f.unitVarianceDerivative) (unitVarianceDerivative_cont f _ h.mu) (mean_cont e he h)
  have hr : ContinuousAt (fun x => y - l.inverse e50 (e x)) z := continuousAt_const.sub (mean_cont e he h)
  have hvc := variance_cont e he h
  have key : ContinuousAt (fun x => (-l.inverseDerivative2 (e x) * (y - l.inverse e50 (e x))
      + l.inverseDerivative (e x) ^ 2 * (1 + (y - l.inverse e50 (e x)) * f.unitVarianceDerivative (l.inverse e50 (e x)) / f.unitVariance (l.inverse e50 (e x))))
      * (w / d x / f.unitVariance (l.inverse e50 (e x)))) z :=
    ((h2.neg.mul hr).add (((invDer_cont e he h).pow 2).mul (continuousAt_const.add ((hr.mul h3).div hvc hv)))).mul ((continuousAt_const.div hd hd0).div hvc hv)
  refine key.congr ?_
  filter_upwards [regular_near e he h] with x hx
  unfold observedW
  simp only []
  rw [oneOverVariance_regular hf hx, c01_link_inverse e50 l _ hx.range hx.clip]

theorem scoreW_cont {e50 : ℝ} {f : Family} (hf : Valid f) {l : Link} (y w : ℝ) (e d : Z → ℝ) (he : ContinuousAt e z) (hd : ContinuousAt d z) (hd0 : d z ≠ 0)
    (h : RegularAt e50 f l (e z)) : ContinuousAt (fun x => scoreW f l (d x) y (l.inverse e50 (e x)) w) z := by
  have hv := (unitVariance_pos f hf h.mu).ne'
  have key : ContinuousAt (fun x => w / d x / f.unitVariance (l.inverse e50 (e x)) * l.inverseDerivative (e x) * (y - l.inverse e50 (e x))) z :=
    (((continuousAt_const.div hd hd0).div (variance_cont e he h) hv).mul (invDer_cont e he h)).mul (continuousAt_const.sub (mean_cont e he h))
  refine key.congr ?_
  filter_upwards [regular_near e he h] with x hx
  unfold scoreW
  simp only []
  rw [oneOverVariance_regular hf hx, c01_link_inverse e50 l _ hx.range hx.clip]

theorem matrix_cont {α β : Type} (A : Z → Matrix α β ℝ) (h : ∀ i j, ContinuousAt (fun x => A x i j) z) : ContinuousAt A z :=
  continuousAt_pi.2 fun i => continuousAt_pi.2 fun j => h i j

theorem gram_cont (X : Fin m → ℕ → ℝ) (W : Z → Fin m → ℝ) (h : ∀ i, ContinuousAt (fun x => W x i) z) : ContinuousAt (fun x => sandwichMatrix p ic X (W x)) z := by
  refine matrix_cont _ fun s t => ?_
  have e : (fun x => sandwichMatrix p ic X (W x) s t) = fun x => Spec.weightedGram p ic X (W x) s t := by
    funext x; rw [sandwichMatrix_eq]
  rw [e]
  simp only [Spec.weightedGram, Matrix.of_apply]
  exact tendsto_finsetSum _ fun i _ => ((h i).mul continuousAt_const).mul continuousAt_const

/-! ### Continuity of computations that can fail -/

/-- Near `z` the computation succeeds, with a result that is continuous at `z`, where it is `V`. -/
def OptCont {M : Type} [TopologicalSpace M] (F : Z → Option M) (z : Z) (V : M) : Prop :=
  ∃ W : Z → M, ContinuousAt W z ∧ W z = V ∧ ∀ᶠ x in 𝓝 z, F x = some (W x)

theorem OptCont.bind {M N : Type} [TopologicalSpace M] [TopologicalSpace N] {F : Z → Option M} {V : M} {G : Z → M → Option N} {U : N} (hF : OptCont F z V)
    (hG : ∀ W : Z → M, ContinuousAt W z → W z = V → OptCont (fun x => G x (W x)) z U) : OptCont (fun x => (F x).bind (G x)) z U := by
  obtain ⟨W, hW, hz, hev⟩ := hF
  obtain ⟨Y, hY, hyz, hev2⟩ := hG W hW hz
  refine ⟨Y, hY, hyz, ?_⟩
  filter_upwards [hev, hev2] with x h1 h2
  rw [h1]; exact h2

theorem OptCont.some {M : Type} [TopologicalSpace M] {W : Z → M} (h : ContinuousAt W z) : OptCont (fun x => some (W x)) z (W z) :=
  ⟨W, h, rfl, Filter.Eventually.of_forall fun _ => rfl⟩

theorem OptCont.linSolve {k l : ℕ} {A : Z → Matrix (Fin k) (Fin k) ℝ} {B : Z → Matrix (Fin k) (Fin l) ℝ} (hA : ContinuousAt A z) (hB : ContinuousAt B z)
    {V : Matrix (Fin k) (Fin l) ℝ} (h : linSolve (A z) (B z) = Option.some V) : OptCont (fun x => linSolve (A x) (B x)) z V := by
  have hu : IsUnit (A z).det := by
    unfold Glum.linSolve at h
    by_contra hn
    rw [if_neg hn] at h
    cases h
  have hV : (A z)⁻¹ * B z = V := by
    unfold Glum.linSolve at h
    rw [if_pos hu] at h
    exact Option.some.inj h
  have hdet : ContinuousAt (fun x => (A x).det) z := ContinuousAt.comp (g := Matrix.det) (Continuous.matrix_det continuous_id).continuousAt hA
  have hne : (A z).det ≠ 0 := hu.ne_zero
  have hinv : ContinuousAt (fun x => (A x)⁻¹) z := by
    refine ContinuousAt.comp (g := Inv.inv) (continuousAt_matrix_inv (A z) ?_) hA
    rw [Ring.inverse_eq_inv']
    exact continuousAt_inv₀ hne
  refine ⟨fun x => (A x)⁻¹ * B x, ?_, hV, ?_⟩
  · refine matrix_cont _ fun i j => ?_
    simp only [Matrix.mul_apply]
    refine tendsto_finsetSum _ fun q _ => ?_
    exact ((continuousAt_pi.1 (continuousAt_pi.1 hinv i) q)).mul (continuousAt_pi.1 (continuousAt_pi.1 hB q) j)
  · filter_upwards [hdet.eventually_ne hne] with x hx
    unfold Glum.linSolve
    rw [if_pos (isUnit_iff_ne_zero.2 hx)]

theorem entry_cont {α β : Type} {A : Z → Matrix α β ℝ} (h : ContinuousAt A z) (i : α) (j : β) : ContinuousAt (fun x => A x i j) z :=
  continuousAt_pi.1 (continuousAt_pi.1 h i) j

theorem transpose_cont {α β : Type} {A : Z → Matrix α β ℝ} (h : ContinuousAt A z) : ContinuousAt (fun x => (A x).transpose) z :=
  matrix_cont _ fun i j => entry_cont h j i

theorem mul_cont {α γ : Type} {k : ℕ} {A : Z → Matrix α (Fin k) ℝ} {B : Z → Matrix (Fin k) γ ℝ} (hA : ContinuousAt A z) (hB : ContinuousAt B z) :
    ContinuousAt (fun x => A x * B x) z := by
  refine matrix_cont _ fun i j => ?_
  simp only [Matrix.mul_apply]
  exact tendsto_finsetSum _ fun q _ => (entry_cont hA i q).mul (entry_cont hB q j)

theorem smul_cont {α β : Type} (c : ℝ) {A : Z → Matrix α β ℝ} (h : ContinuousAt A z) : ContinuousAt (fun x => c • A x) z :=
  matrix_cont _ fun i j => continuousAt_const.mul (entry_cont h i j)

end

/-! ### The inference functions -/

section
variable (C : FitCfg p ic) (T : Rows m)

/-- The inference data as a function of a point. -/
noncomputable def dataAt (x : ℝ × (Fin p → ℝ)) : CovData m p ic := modelData C T x.1 (extend x.2)

theorem eta_cont (i : Fin m) (z : ℝ × (Fin p → ℝ)) : ContinuousAt (fun x : ℝ × (Fin p → ℝ) => etaOf p T.X T.off (extend x.2) x.1 i) z := by
  have : Continuous fun x : ℝ × (Fin p → ℝ) => etaOf p T.X T.off (extend x.2) x.1 i := by
    unfold etaOf
    simp only [extend_fin]
    fun_prop
  exact this.continuousAt

theorem etaOf_restrict (b0 : ℝ) (b : ℕ → ℝ) (i : Fin m) : etaOf p T.X T.off (extend (restrict (p := p) b0 b).2) (restrict (p := p) b0 b).1 i = etaOf p T.X T.off b b0 i := by
  unfold etaOf restrict
  simp only [extend_fin]

theorem dataAt_restrict (b0 : ℝ) (b : ℕ → ℝ) : dataAt C T (restrict b0 b) = modelData C T b0 b := by
  unfold dataAt modelData
  congr 1
  funext i
  rw [etaOf_restrict]

variable {C T} {z : ℝ × (Fin p → ℝ)}

theorem disp_cont (hf : Valid C.family) (hz : ∀ i, RegularAt C.e50 C.family C.link (etaOf p T.X T.off (extend z.2) z.1 i)) (o : CovOptions m) :
    ContinuousAt (fun x => (dataAt C T x).disp o) z := by
  unfold CovData.disp
  cases o.dispersion with
  | some d => exact continuousAt_const
  | none =>
    have key : ContinuousAt (fun x : ℝ × (Fin p → ℝ) => ∑ i, (T.y i - C.link.inverse C.e50 (etaOf p T.X T.off (extend x.2) x.1 i)) ^ 2
        / C.family.unitVariance (C.link.inverse C.e50 (etaOf p T.X T.off (extend x.2) x.1 i)) * T.sw i) z :=
      tendsto_finsetSum _ fun i _ => (((continuousAt_const.sub (mean_cont _ (eta_cont T i z) (hz i))).pow 2).div (variance_cont _ (eta_cont T i z) (hz i))
        (unitVariance_pos C.family hf (hz i).mu).ne').mul continuousAt_const
    exact key.div_const _

theorem oim_cont (hf : Valid C.family) (hz : ∀ i, RegularAt C.e50 C.family C.link (etaOf p T.X T.off (extend z.2) z.1 i)) (o : CovOptions m)
    (hd : (dataAt C T z).disp o ≠ 0) : ContinuousAt (fun x => (dataAt C T x).oim o) z := by
  unfold CovData.oim
  by_cases he : o.expected = true
  · simp only [he, if_true]
    exact gram_cont T.X _ fun i => fisherW_cont hf (T.sw i) _ _ (eta_cont T i z) (disp_cont hf hz o) hd (hz i)
  · simp only [Bool.not_eq_true] at he
    simp only [he, Bool.false_eq_true, if_false]
    exact gram_cont T.X _ fun i => observedW_cont hf (T.y i) (T.sw i) _ _ (eta_cont T i z) (disp_cont hf hz o) hd (hz i)

theorem fisher_cont (hf : Valid C.family) (hz : ∀ i, RegularAt C.e50 C.family C.link (etaOf p T.X T.off (extend z.2) z.1 i)) (o : CovOptions m)
    (hd : (dataAt C T z).disp o ≠ 0) : ContinuousAt (fun x => sandwichMatrix p ic (dataAt C T x).X fun i =>
      fisherW (dataAt C T x).f (dataAt C T x).l ((dataAt C T x).disp o) ((dataAt C T x).mu i) ((dataAt C T x).w i)) z :=
  gram_cont T.X _ fun i => fisherW_cont hf (T.sw i) _ _ (eta_cont T i z) (disp_cont hf hz o) hd (hz i)

theorem gradient_cont (hf : Valid C.family) (hz : ∀ i, RegularAt C.e50 C.family C.link (etaOf p T.X T.off (extend z.2) z.1 i)) (o : CovOptions m)
    (hd : (dataAt C T z).disp o ≠ 0) : ContinuousAt (fun x => (dataAt C T x).gradient o) z := by
  refine matrix_cont _ fun i k => ?_
  have hs : ContinuousAt (fun x => scoreW C.family C.link ((dataAt C T x).disp o) (T.y i) (C.link.inverse C.e50 (etaOf p T.X T.off (extend x.2) x.1 i)) (T.sw i)) z :=
    scoreW_cont hf (T.y i) (T.sw i) _ _ (eta_cont T i z) (disp_cont hf hz o) hd (hz i)
  have e : (fun x => (dataAt C T x).gradient o i k) = fun x => Spec.scoreRow p ic T.X (fun i => scoreW C.family C.link ((dataAt C T x).disp o) (T.y i)
      (C.link.inverse C.e50 (etaOf p T.X T.off (extend x.2) x.1 i)) (T.sw i)) i k := by
    funext x
    unfold CovData.gradient
    rw [scoreMatrix_eq]
    rfl
  rw [e]
  unfold Spec.scoreRow
  first | exact hs.mul continuousAt_const | exact continuousAt_const.mul hs

theorem covariance_cont (hf : Valid C.family) (hz : ∀ i, RegularAt C.e50 C.family C.link (etaOf p T.X T.off (extend z.2) z.1 i)) (o : CovOptions m)
    (hd : (dataAt C T z).disp o ≠ 0) (ok : Bool) (V : Matrix (Fin (p + ic.toNat)) (Fin (p + ic.toNat)) ℝ) (h : covariance (dataAt C T z) o ok = some V) :
    OptCont (fun x => covariance (dataAt C T x) o ok) z V := by
  have hoim := oim_cont hf hz o hd
  have hg := gradient_cont hf hz o hd
  have two : ∀ (c : ℝ) (B : ℝ × (Fin p → ℝ) → Matrix (Fin (p + ic.toNat)) (Fin (p + ic.toNat)) ℝ), ContinuousAt B z →
      ((linSolve ((dataAt C T z).oim o) (B z)).bind fun s1 => (linSolve ((dataAt C T z).oim o) s1.transpose).bind fun s2 => some (c • s2)) = some V →
      OptCont (fun x => (linSolve ((dataAt C T x).oim o) (B x)).bind fun s1 => (linSolve ((dataAt C T x).oim o) s1.transpose).bind fun s2 => some (c • s2)) z V := by
    intro c B hB hV
    obtain ⟨s1, h1, hV⟩ := Option.bind_eq_some_iff.1 hV
    obtain ⟨s2, h2, hV⟩ := Option.bind_eq_some_iff.1 hV
    refine (OptCont.linSolve hoim hB h1).bind fun W hW hWz => ?_
    have h2' : linSolve ((dataAt C T z).oim o) (W z).transpose = some s2 := by rw [hWz]; exact h2
    refine (OptCont.linSolve hoim (transpose_cont hW) h2').bind fun W2 hW2 hW2z => ?_
    have := OptCont.some (smul_cont c hW2)
    rw [hW2z, Option.some.inj hV] at this
    exact this
  unfold covariance at h ⊢
  simp only [] at h ⊢
  by_cases hok : ok = false
  · rw [if_pos hok] at h; cases h
  · rw [if_neg hok] at h
    simp only [if_neg hok]
    by_cases hr : o.robust = true ∨ o.clusters.isSome = true
    · rw [if_pos hr] at h
      simp only [if_pos hr]
      cases hc : o.clusters with
      | none =>
        simp only [hc] at h ⊢
        refine two ((∑ i, T.sw i) / ((∑ i, T.sw i) - p - ic.toNat))
          (fun x => Matrix.of fun j k => ∑ i, (dataAt C T x).gradient o i j * 1 * (dataAt C T x).gradient o i k) (matrix_cont _ fun j k => ?_) h
        simp only [Matrix.of_apply]
        exact tendsto_finsetSum _ fun i _ => ((entry_cont hg i j).mul continuousAt_const).mul (entry_cont hg i k)
      | some c =>
        simp only [hc] at h ⊢
        by_cases hn : numGroups c = 1
        · simp only [hn, if_true] at h
          obtain ⟨s1, h1, hV⟩ := Option.bind_eq_some_iff.1 h
          cases hV
        · simp only [if_neg hn] at h ⊢
          unfold groupSum at h ⊢
          simp only [] at h ⊢
          by_cases hl : ∀ i, -(numGroups c : ℤ) ≤ c i ∧ c i < (numGroups c : ℤ)
          · rw [if_pos hl] at h
            simp only [if_pos hl]
            set G : ℝ × (Fin p → ℝ) → Matrix (Fin (numGroups c)) (Fin (p + ic.toNat)) ℝ := fun x => Matrix.of fun g j =>
              ∑ i with (if c i < 0 then c i + (numGroups c : ℤ) else c i) = (g.val : ℤ), (dataAt C T x).gradient o i j with hG
            have hGc : ContinuousAt G z := by
              refine matrix_cont _ fun g j => ?_
              simp only [hG, Matrix.of_apply]
              exact tendsto_finsetSum _ fun i _ => entry_cont hg i j
            exact two ((numGroups c : ℝ) / ((numGroups c : ℝ) - 1) * (((∑ i, T.sw i) - 1) / ((∑ i, T.sw i) - p - ic.toNat))) (fun x => (G x).transpose * G x)
              (mul_cont (transpose_cont hGc) hGc) h
          · rw [if_neg hl] at h; cases h
    · rw [if_neg hr] at h
      simp only [if_neg hr]
      obtain ⟨s1, h1, hV⟩ := Option.bind_eq_some_iff.1 h
      refine (OptCont.linSolve (fisher_cont hf hz o hd) continuousAt_const h1).bind fun W hW hWz => ?_
      have := OptCont.some (smul_cont ((∑ i, (dataAt C T z).w i) / ((∑ i, (dataAt C T z).w i) - p - ic.toNat)) hW)
      rw [hWz, Option.some.inj hV] at this
      exact this

end

/-- What holds near a point holds for all coefficients close to it. -/
theorem close_of_eventually (P : ℝ × (Fin p → ℝ) → Prop) (b0 : ℝ) (b : ℕ → ℝ) (h : ∀ᶠ x in 𝓝 (restrict (p := p) b0 b), P x) :
    ∃ η : ℝ, 0 < η ∧ ∀ c0 c, CoefWithin p η b0 b c0 c → P (restrict c0 c) := by
  obtain ⟨r, hr, hP⟩ := Metric.eventually_nhds_iff.1 h
  refine ⟨r / 2, half_pos hr, fun c0 c hc => hP ?_⟩
  rw [dist_eq_norm]
  refine lt_of_le_of_lt (norm_prod_le_iff.2 ⟨hc.1, (pi_norm_le_iff_of_nonneg (half_pos hr).le).2 fun j => hc.2 j j.2⟩) (half_lt_self hr)

theorem within_eventually {Z : Type} [TopologicalSpace Z] {z : Z} {F : Z → ℝ} (hF : ContinuousAt F z) {ε : ℝ} (hε : 0 < ε) : ∀ᶠ x in 𝓝 z, |F x - F z| ≤ ε := by
  filter_upwards [Metric.continuousAt_iff'.1 hF ε hε] with x hx
  rw [Real.dist_eq] at hx
  exact hx.le

/-- Everything reported about the fit `(c0, c)` on the rows `T` - coefficients, predictors, predictions, dispersion, covariance matrix, and the rows of the coefficient table with a positive
standard error - is within `ε` of what is reported about `(b0, b)`, whose covariance matrix is `V`. -/
structure Spec.ReportsWithin (C : FitCfg p ic) (T : Rows m) (o : CovOptions m) (cdf ppf : ℝ → ℝ) (conf : ℝ) (V : Matrix (Fin (p + ic.toNat)) (Fin (p + ic.toNat)) ℝ)
    (ε b0 : ℝ) (b : ℕ → ℝ) (c0 : ℝ) (c : ℕ → ℝ) : Prop where
  coef : CoefWithin p ε b0 b c0 c
  eta : ∀ i, |etaOf p T.X T.off c c0 i - etaOf p T.X T.off b b0 i| ≤ ε
  mu : ∀ i, |(modelData C T c0 c).mu i - (modelData C T b0 b).mu i| ≤ ε
  disp : |(modelData C T c0 c).disp o - (modelData C T b0 b).disp o| ≤ ε
  cov : ∃ V', covariance (modelData C T c0 c) o true = some V' ∧ (∀ j k, |V' j k - V j k| ≤ ε) ∧
    ∀ k, 0 < V k k → RowWithin ε (coefTable cdf ppf conf (coefVector p ic c0 c) V' k) (coefTable cdf ppf conf (coefVector p ic b0 b) V k)

theorem coefVector_cont (z : ℝ × (Fin p → ℝ)) (k : Fin (p + ic.toNat)) : ContinuousAt (fun x : ℝ × (Fin p → ℝ) => coefVector p ic x.1 (extend x.2) k) z := by
  unfold coefVector
  by_cases h : k.val < ic.toNat
  · simp only [if_pos h]; exact continuousAt_fst
  · simp only [if_neg h]
    have hk : k.val - ic.toNat < p := by omega
    have e : (fun x : ℝ × (Fin p → ℝ) => extend x.2 (k.val - ic.toNat)) = fun x => x.2 ⟨k.val - ic.toNat, hk⟩ := by
      funext x; exact extend_fin x.2 ⟨_, hk⟩
    rw [e]
    have : Continuous fun x : ℝ × (Fin p → ℝ) => x.2 ⟨k.val - ic.toNat, hk⟩ := by fun_prop
    exact this.continuousAt

theorem coefVector_restrict (b0 : ℝ) (b : ℕ → ℝ) (k : Fin (p + ic.toNat)) :
    coefVector p ic (restrict (p := p) b0 b).1 (extend (restrict (p := p) b0 b).2) k = coefVector p ic b0 b k := by
  unfold coefVector
  by_cases h : k.val < ic.toNat
  · simp only [if_pos h]; rfl
  · simp only [if_neg h]
    have hk : k.val - ic.toNat < p := by omega
    exact extend_fin (restrict (p := p) b0 b).2 ⟨_, hk⟩

/-- **C132, closeness.** If the covariance matrix of a regular model can be computed, then models with close enough coefficients have all reports close. -/
theorem c132_close (C : FitCfg p ic) (hf : Valid C.family) (T : Rows m) (o : CovOptions m) (cdf ppf : ℝ → ℝ) (hcdf : Continuous cdf) (conf b0 : ℝ) (b : ℕ → ℝ)
    (hreg : RegularOn C T b0 b) (hd : (modelData C T b0 b).disp o ≠ 0) (V : Matrix (Fin (p + ic.toNat)) (Fin (p + ic.toNat)) ℝ)
    (hV : covariance (modelData C T b0 b) o true = some V) (ε : ℝ) (hε : 0 < ε) :
    ∃ η : ℝ, 0 < η ∧ ∀ c0 c, CoefWithin p η b0 b c0 c → ReportsWithin C T o cdf ppf conf V ε b0 b c0 c := by
  set z := restrict (p := p) b0 b with hzdef
  have hz : ∀ i, RegularAt C.e50 C.family C.link (etaOf p T.X T.off (extend z.2) z.1 i) := fun i => by
    rw [hzdef, etaOf_restrict]; exact hreg i
  have hd' : (dataAt C T z).disp o ≠ 0 := by rw [hzdef, dataAt_restrict]; exact hd
  have hV' : covariance (dataAt C T z) o true = some V := by rw [hzdef, dataAt_restrict]; exact hV
  obtain ⟨W, hW, hWz, hev⟩ := covariance_cont hf hz o hd' true V hV'
  have e1 : ∀ᶠ x in 𝓝 z, ∀ i, |etaOf p T.X T.off (extend x.2) x.1 i - etaOf p T.X T.off (extend z.2) z.1 i| ≤ ε :=
    Filter.eventually_all.2 fun i => within_eventually (eta_cont T i z) hε
  have e2 : ∀ᶠ x in 𝓝 z, ∀ i, |(dataAt C T x).mu i - (dataAt C T z).mu i| ≤ ε :=
    Filter.eventually_all.2 fun i => within_eventually (F := fun x => (dataAt C T x).mu i) (mean_cont _ (eta_cont T i z) (hz i)) hε
  have e3 := within_eventually (disp_cont hf hz o) hε
  have e4 : ∀ᶠ x in 𝓝 z, ∀ j k, |W x j k - W z j k| ≤ ε :=
    Filter.eventually_all.2 fun j => Filter.eventually_all.2 fun k => within_eventually (F := fun x => W x j k) (entry_cont hW j k) hε
  have e5 : ∀ᶠ x in 𝓝 z, ∀ k, 0 < V k k →
      RowWithin ε (coefTable cdf ppf conf (coefVector p ic x.1 (extend x.2)) (W x) k) (coefTable cdf ppf conf (coefVector p ic z.1 (extend z.2)) (W z) k) := by
    refine Filter.eventually_all.2 fun k => ?_
    by_cases hk : 0 < V k k
    · have hb := coefVector_cont (ic := ic) z k
      have hs : ContinuousAt (fun x => Real.sqrt (W x k k)) z := (entry_cont hW k k).sqrt
      have hs0 : Real.sqrt (W z k k) ≠ 0 := by rw [hWz]; exact (Real.sqrt_pos.2 hk).ne'
      have ht : ContinuousAt (fun x => coefVector p ic x.1 (extend x.2) k / Real.sqrt (W x k k)) z := hb.div hs hs0
      have hp : ContinuousAt (fun x => 2 * (1 - cdf |coefVector p ic x.1 (extend x.2) k / Real.sqrt (W x k k)|)) z :=
        continuousAt_const.mul (continuousAt_const.sub (ContinuousAt.comp (g := cdf) hcdf.continuousAt ht.abs))
      have hl : ContinuousAt (fun x => coefVector p ic x.1 (extend x.2) k + ppf ((1 - conf) / 2) * Real.sqrt (W x k k)) z := hb.add (continuousAt_const.mul hs)
      have hu : ContinuousAt (fun x => coefVector p ic x.1 (extend x.2) k + ppf (1 - (1 - conf) / 2) * Real.sqrt (W x k k)) z := hb.add (continuousAt_const.mul hs)
      filter_upwards [within_eventually hb hε, within_eventually hs hε, within_eventually ht hε, within_eventually hp hε, within_eventually hl hε,
        within_eventually hu hε] with x h1 h2 h3 h4 h5 h6
      exact fun _ => ⟨h1, h2, h3, h4, h5, h6⟩
    · exact Filter.Eventually.of_forall fun x h => absurd h hk
  obtain ⟨η, hη, hall⟩ := close_of_eventually _ b0 b (e1.and (e2.and (e3.and (e4.and (e5.and hev)))))
  refine ⟨min η ε, lt_min hη hε, fun c0 c hc => ?_⟩
  obtain ⟨h1, h2, h3, h4, h5, h6⟩ := hall c0 c ⟨hc.1.trans (min_le_left _ _), fun j hj => (hc.2 j hj).trans (min_le_left _ _)⟩
  have hcv : ∀ (d0 : ℝ) (d : ℕ → ℝ), coefVector p ic (restrict (p := p) d0 d).1 (extend (restrict (p := p) d0 d).2) = coefVector p ic d0 d :=
    fun d0 d => funext fun k => coefVector_restrict d0 d k
  simp only [hzdef, etaOf_restrict] at h1
  simp only [hzdef, dataAt_restrict] at h2 h3 h6
  rw [hWz] at h4 h5
  simp only [hzdef, hcv] at h5
  exact ⟨⟨hc.1.trans (min_le_right _ _), fun j hj => (hc.2 j hj).trans (min_le_right _ _)⟩, h1, h2, h3, _, h6, h4, h5⟩

/-- **C132, tests.** The same for a Wald test of any linear hypothesis `R β = r`. -/
theorem c132_wald (C : FitCfg p ic) (hf : Valid C.family) (T : Rows m) (o : CovOptions m) (chi2 : ℝ → ℕ → ℝ) (hchi : ∀ d, Continuous fun x => chi2 x d) (b0 : ℝ) (b : ℕ → ℝ)
    (hreg : RegularOn C T b0 b) (hd : (modelData C T b0 b).disp o ≠ 0) (V : Matrix (Fin (p + ic.toNat)) (Fin (p + ic.toNat)) ℝ)
    (hV : covariance (modelData C T b0 b) o true = some V) {Q : ℕ} (L : Matrix (Fin Q) (Fin (p + ic.toNat)) ℝ) (v : Fin Q → ℝ) (res : WaldResult)
    (hres : waldMatrix chi2 V (coefVector p ic b0 b) L (.vec Q v) = some res) (ε : ℝ) (hε : 0 < ε) :
    ∃ η : ℝ, 0 < η ∧ ∀ c0 c, CoefWithin p η b0 b c0 c → ∃ V' res', covariance (modelData C T c0 c) o true = some V' ∧
      waldMatrix chi2 V' (coefVector p ic c0 c) L (.vec Q v) = some res' ∧ |res'.stat - res.stat| ≤ ε ∧ |res'.pValue - res.pValue| ≤ ε ∧ res'.df = res.df := by
  set z := restrict (p := p) b0 b with hzdef
  have hz : ∀ i, RegularAt C.e50 C.family C.link (etaOf p T.X T.off (extend z.2) z.1 i) := fun i => by
    rw [hzdef, etaOf_restrict]; exact hreg i
  obtain ⟨W, hW, hWz, hev⟩ := covariance_cont hf hz o (by rw [hzdef, dataAt_restrict]; exact hd) true V (by rw [hzdef, dataAt_restrict]; exact hV)
  have hcv : ∀ (d0 : ℝ) (d : ℕ → ℝ), coefVector p ic (restrict (p := p) d0 d).1 (extend (restrict (p := p) d0 d).2) = coefVector p ic d0 d :=
    fun d0 d => funext fun k => coefVector_restrict d0 d k
  set β : ℝ × (Fin p → ℝ) → Fin (p + ic.toNat) → ℝ := fun x => coefVector p ic x.1 (extend x.2) with hβ
  have hβz : β z = coefVector p ic b0 b := hcv b0 b
  set rhs : ℝ × (Fin p → ℝ) → Matrix (Fin Q) (Fin 1) ℝ := fun x => Matrix.of fun q _ => L.mulVec (β x) q - v q with hrhs
  have hrc : ContinuousAt rhs z := by
    refine matrix_cont _ fun q _ => ?_
    simp only [hrhs, Matrix.of_apply, Matrix.mulVec, dotProduct]
    exact ContinuousAt.sub (tendsto_finsetSum _ fun k _ => continuousAt_const.mul (coefVector_cont z k)) continuousAt_const
  have hmid : ContinuousAt (fun x => L * W x * L.transpose) z := mul_cont (mul_cont continuousAt_const hW) continuousAt_const
  rw [waldMatrix_vec, ← hβz, ← hWz] at hres
  obtain ⟨u, hu, hr⟩ := Option.bind_eq_some_iff.1 hres
  obtain ⟨Y, hY, hYz, hev2⟩ := OptCont.linSolve hmid hrc hu
  have hstat : ContinuousAt (fun x => ((rhs x).transpose * Y x) 0 0) z := entry_cont (mul_cont (transpose_cont hrc) hY) 0 0
  have hp : ContinuousAt (fun x => 1 - chi2 (((rhs x).transpose * Y x) 0 0) Q) z :=
    continuousAt_const.sub (ContinuousAt.comp (g := fun x => chi2 x Q) (hchi Q).continuousAt hstat)
  obtain ⟨η, hη, hall⟩ := close_of_eventually _ b0 b (hev.and (hev2.and ((within_eventually hstat hε).and (within_eventually hp hε))))
  refine ⟨η, hη, fun c0 c hc => ?_⟩
  obtain ⟨h1, h2, h3, h4⟩ := hall c0 c hc
  have hr' := Option.some.inj hr
  refine ⟨W (restrict c0 c), ⟨((rhs (restrict c0 c)).transpose * Y (restrict c0 c)) 0 0,
    1 - chi2 (((rhs (restrict c0 c)).transpose * Y (restrict c0 c)) 0 0) Q, Q⟩, by rw [← dataAt_restrict]; exact h1, ?_, ?_, ?_, ?_⟩
  · rw [waldMatrix_vec, ← hcv c0 c]
    exact Option.bind_eq_some_iff.2 ⟨_, h2, rfl⟩
  · rw [hYz] at h3
    rw [← hr']; exact h3
  · rw [hYz] at h4
    rw [← hr']; exact h4
  · rw [← hr']

/-- **C132, score.** The same for the deviance explained (`score`), for any weights it accepts. -/
theorem c132_score (C : FitCfg p ic) (hf : Valid C.family) (T : Rows m) (hy : ∀ i, T.y i ∈ ySupport C.family) (hneg : ∀ q, C.family = .tweedie q → q < 0 → ∀ i, 0 ≤ T.y i)
    (sw : WeightArg) (b0 : ℝ) (b : ℕ → ℝ) (hreg : RegularOn C T b0 b) (s : ℝ) (hs : scoreD2 C.family T.y (modelData C T b0 b).mu sw = some s) (ε : ℝ) (hε : 0 < ε) :
    ∃ η : ℝ, 0 < η ∧ ∀ c0 c, CoefWithin p η b0 b c0 c → ∃ s', scoreD2 C.family T.y (modelData C T c0 c).mu sw = some s' ∧ |s' - s| ≤ ε := by
  set z := restrict (p := p) b0 b with hzdef
  have hz : ∀ i, RegularAt C.e50 C.family C.link (etaOf p T.X T.off (extend z.2) z.1 i) := fun i => by
    rw [hzdef, etaOf_restrict]; exact hreg i
  obtain ⟨w, hw, hs⟩ := Option.bind_eq_some_iff.1 hs
  have hs := Option.some.inj hs
  set N := C.family.deviance T.y (fun _ => average T.y w) w with hN
  have hdev : ContinuousAt (fun x => 1 - (∑ i, w i * C.family.unitDeviance (T.y i) ((dataAt C T x).mu i)) / N) z := by
    refine continuousAt_const.sub (ContinuousAt.div_const (tendsto_finsetSum _ fun i _ => continuousAt_const.mul ?_) N)
    exact ContinuousAt.comp (g := fun q => C.family.unitDeviance (T.y i) q) (c05_deviance_derivative C.family hf _ _ (hy i) (hz i).mu).continuousAt
      (mean_cont _ (eta_cont T i z) (hz i))
  have hnear : ∀ᶠ x in 𝓝 z, ∀ i, (dataAt C T x).mu i ∈ muRange C.family := Filter.eventually_all.2 fun i => by
    filter_upwards [regular_near _ (eta_cont T i z) (hz i)] with x hx using hx.mu
  obtain ⟨η, hη, hall⟩ := close_of_eventually _ b0 b (hnear.and (within_eventually hdev hε))
  refine ⟨η, hη, fun c0 c hc => ?_⟩
  obtain ⟨h1, h2⟩ := hall c0 c hc
  simp only [hzdef, dataAt_restrict] at h1 h2
  refine ⟨1 - C.family.deviance T.y (modelData C T c0 c).mu w / N, ?_, ?_⟩
  · unfold scoreD2
    rw [hw]; rfl
  · rw [c07_deviance_sum_partial C.family hf T.y _ w hy h1 hneg, ← hs,
      c07_deviance_sum_partial C.family hf T.y (modelData C T b0 b).mu w hy (fun i => (hreg i).mu) hneg]
    exact h2

/-! ### Fits -/

/-- `Q` holds of intercept and coefficients of every fit of the problem `C` at `alpha = a` - by any inner solver, from any start, at any place of any path - that stays within the bounds, has
a `gradient_tol` below `δ`, and raises no ConvergenceWarning. -/
def Spec.EveryFit (C : FitCfg p ic) (stats : Stats) (R : Rows n) (l1r a δ : ℝ) (Q : ℝ → (ℕ → ℝ) → Prop) : Prop :=
  ∀ (next : (ℕ → BitVec 32) → ℕ → (ℕ → BitVec 32)) (inner : (ℕ → BitVec 32) → (m : ℕ) → Inner m p ic) (C' : FitCfg p ic),
    SameProblem C C' → C'.stepTol = none → C'.gradTol < δ →
    ∀ (sp : AlphaSpec) (s t : SolverLog) (r : PathResult), glmFit C' stats (irlsSolver next inner) R l1r sp s = some (t, r) →
      (∀ x ∈ r.alphas, 0 ≤ x) → t.convWarn = s.convWarn →
      ∀ (i : ℕ) (hi : i < r.alphas.length) (hc : i < r.coefPath.length) (hb : i < r.interceptPath.length), r.alphas[i] = a →
        WithinBounds p C.lb C.ub r.coefPath[i] → Q r.interceptPath[i] r.coefPath[i]

/-- The problem determines its coefficients: `(b0, b)` is a solution, the only one, and either the problem is penalised as in C90, or there is neither penalty nor bound. -/
def Spec.Determined (C : FitCfg p ic) (R : Rows n) (s : ℕ → ℝ) (l1r a b0 : ℝ) (b : ℕ → ℝ) : Prop :=
  Solves p ic C.lb C.ub (fitObjective p C.e50 C.family C.link R s C.P1a C.P2a a l1r) b0 b ∧
  (RegularFit C R l1r a ∨ (0 ≤ a ∧ TameSolutions C R s a l1r ∧
    ∀ c0 c, Solves p ic C.lb C.ub (fitObjective p C.e50 C.family C.link R s C.P1a C.P2a a l1r) c0 c → c0 = b0 ∧ ∀ j < p, c j = b j))

/-- What holds of all coefficients close to the solution holds of all fits with a small enough tolerance. -/
theorem c132_transfer (C : FitCfg p ic) (stats : Stats) (R : Rows n) (l1r a : ℝ) (h : ConvexFit C R l1r) (hs : ∀ j, 0 ≤ (stats n R.X R.sw).2 j) (b0 : ℝ) (b : ℕ → ℝ)
    (hdet : Determined C R (penScale C.thr C.asIfScaled (stats n R.X R.sw).2) l1r a b0 b) (Q : ℝ → (ℕ → ℝ) → Prop)
    (hQ : ∃ η : ℝ, 0 < η ∧ ∀ c0 c, CoefWithin p η b0 b c0 c → Q c0 c) : ∃ δ : ℝ, 0 < δ ∧ EveryFit C stats R l1r a δ Q := by
  obtain ⟨η, hη, hQ⟩ := hQ
  obtain ⟨hsol, hr | ⟨ha, ht, hu⟩⟩ := hdet
  · obtain ⟨δ, hδ, hfit⟩ := c90_fits_converge C stats R l1r a h hr hs b0 b hsol η hη
    exact ⟨δ, hδ, fun next inner C' hC hst hg sp s t r hf ha hw i hi hc hb hal hwb => hQ _ _ (hfit next inner C' hC hst hg sp s t r hf ha hw i hi hc hb hal hwb)⟩
  · obtain ⟨δ, hδ, hfit⟩ := c124_fits C stats R l1r a h ha hs ht b0 b hsol η hη
    refine ⟨δ, hδ, fun next inner C' hC hst hg sp s t r hf ha hw i hi hc hb hal hwb => ?_⟩
    obtain ⟨c0, c, hcs, h0, h1⟩ := hfit next inner C' hC hst hg sp s t r hf ha hw i hi hc hb hal hwb
    obtain ⟨e0, e1⟩ := hu c0 c hcs
    exact hQ _ _ ⟨by rw [← e0]; exact h0, fun j hj => by rw [← e1 j hj]; exact h1 j hj⟩

/-- **C132.** If a convex problem determines its coefficients and the covariance matrix at the solution can be computed, then for every `ε` there is a tolerance below which every fit
without ConvergenceWarning reports predictions, dispersion, covariance matrix and coefficient table within `ε` of those of the solution - for every choice of the covariance options. -/
theorem c132_reports (C : FitCfg p ic) (stats : Stats) (R : Rows n) (l1r a : ℝ) (h : ConvexFit C R l1r) (hs : ∀ j, 0 ≤ (stats n R.X R.sw).2 j) (b0 : ℝ) (b : ℕ → ℝ)
    (hdet : Determined C R (penScale C.thr C.asIfScaled (stats n R.X R.sw).2) l1r a b0 b) (T : Rows m) (o : CovOptions m) (cdf ppf : ℝ → ℝ) (hcdf : Continuous cdf) (conf : ℝ)
    (hreg : RegularOn C T b0 b) (hd : (modelData C T b0 b).disp o ≠ 0) (V : Matrix (Fin (p + ic.toNat)) (Fin (p + ic.toNat)) ℝ)
    (hV : covariance (modelData C T b0 b) o true = some V) (ε : ℝ) (hε : 0 < ε) :
    ∃ δ : ℝ, 0 < δ ∧ EveryFit C stats R l1r a δ (ReportsWithin C T o cdf ppf conf V ε b0 b) :=
  c132_transfer C stats R l1r a h hs b0 b hdet _ (c132_close C h.valid T o cdf ppf hcdf conf b0 b hreg hd V hV ε hε)

/-- **C132, tests of fits.** The Wald tests of the fits converge to those of the solution. -/
theorem c132_fit_wald (C : FitCfg p ic) (stats : Stats) (R : Rows n) (l1r a : ℝ) (h : ConvexFit C R l1r) (hs : ∀ j, 0 ≤ (stats n R.X R.sw).2 j) (b0 : ℝ) (b : ℕ → ℝ)
    (hdet : Determined C R (penScale C.thr C.asIfScaled (stats n R.X R.sw).2) l1r a b0 b) (T : Rows m) (o : CovOptions m) (chi2 : ℝ → ℕ → ℝ)
    (hchi : ∀ d, Continuous fun x => chi2 x d) (hreg : RegularOn C T b0 b) (hd : (modelData C T b0 b).disp o ≠ 0) (V : Matrix (Fin (p + ic.toNat)) (Fin (p + ic.toNat)) ℝ)
    (hV : covariance (modelData C T b0 b) o true = some V) {Q : ℕ} (L : Matrix (Fin Q) (Fin (p + ic.toNat)) ℝ) (v : Fin Q → ℝ) (res : WaldResult)
    (hres : waldMatrix chi2 V (coefVector p ic b0 b) L (.vec Q v) = some res) (ε : ℝ) (hε : 0 < ε) :
    ∃ δ : ℝ, 0 < δ ∧ EveryFit C stats R l1r a δ fun c0 c => ∃ V' res', covariance (modelData C T c0 c) o true = some V' ∧
      waldMatrix chi2 V' (coefVector p ic c0 c) L (.vec Q v) = some res' ∧ |res'.stat - res.stat| ≤ ε ∧ |res'.pValue - res.pValue| ≤ ε ∧ res'.df = res.df :=
  c132_transfer C stats R l1r a h hs b0 b hdet _ (c132_wald C h.valid T o chi2 hchi b0 b hreg hd V hV L v res hres ε hε)

/-- **C132, score of fits.** The deviance explained by the fits converges to that explained by the solution. -/
theorem c132_fit_score (C : FitCfg p ic) (stats : Stats) (R : Rows n) (l1r a : ℝ) (h : ConvexFit C R l1r) (hs : ∀ j, 0 ≤ (stats n R.X R.sw).2 j) (b0 : ℝ) (b : ℕ → ℝ)
    (hdet : Determined C R (penScale C.thr C.asIfScaled (stats n R.X R.sw).2) l1r a b0 b) (T : Rows m) (hy : ∀ i, T.y i ∈ ySupport C.family)
    (hneg : ∀ q, C.family = .tweedie q → q < 0 → ∀ i, 0 ≤ T.y i) (sw : WeightArg) (hreg : RegularOn C T b0 b) (s : ℝ)
    (hsc : scoreD2 C.family T.y (modelData C T b0 b).mu sw = some s) (ε : ℝ) (hε : 0 < ε) :
    ∃ δ : ℝ, 0 < δ ∧ EveryFit C stats R l1r a δ fun c0 c => ∃ s', scoreD2 C.family T.y (modelData C T c0 c).mu sw = some s' ∧ |s' - s| ≤ ε :=
  c132_transfer C stats R l1r a h hs b0 b hdet _ (c132_score C h.valid T hy hneg sw b0 b hreg s hsc ε hε)

/-! ### The hypotheses are met -/

/-- `tinyRows` with weight 3 each, to which the inference functions are applied. -/
noncomputable def tinyEval : Rows 2 := { tinyRows with sw := fun _ => 3 }

/-- Ridge regression on two rows: the solution is determined. -/
theorem tiny_determined : Determined (tinyCfg 5 5) tinyRows (fun _ => 1) 0 1 2 fun _ => 1 / 2 :=
  ⟨c124_ridge_sees_coding.1, Or.inl (tiny_regular 1 one_pos)⟩

def plainOptions : CovOptions 2 := ⟨false, true, none, none⟩

/-- Its predictions on the rows are 5/2 and 3/2, the dispersion is 3/8 and the covariance matrix exists, with positive variances. -/
theorem tiny_reports : RegularOn (tinyCfg 5 5) tinyEval 2 (fun _ => 1 / 2) ∧ (modelData (tinyCfg 5 5) tinyEval 2 fun _ => 1 / 2).disp plainOptions = 3 / 8 ∧
    ∃ V, covariance (modelData (tinyCfg 5 5) tinyEval 2 fun _ => 1 / 2) plainOptions true = some V ∧ ∀ k, 0 < V k k := by
  have hmu : (modelData (tinyCfg 5 5) tinyEval 2 fun _ => 1 / 2).mu = fun i => if i = 0 then 5 / 2 else 3 / 2 := by
    funext i
    simp only [modelData, tinyCfg, Link.inverse, etaOf, tinyEval, tinyRows]
    fin_cases i <;> simp <;> norm_num
  have hdisp : (modelData (tinyCfg 5 5) tinyEval 2 fun _ => 1 / 2).disp plainOptions = 3 / 8 := by
    unfold CovData.disp dispersionPearson
    rw [hmu]
    simp [plainOptions, modelData, tinyCfg, tinyEval, tinyRows, Family.unitVariance, Fin.sum_univ_two]
    norm_num
  refine ⟨fun i => ⟨trivial, trivial, trivial⟩, hdisp, ?_⟩
  have hA : (sandwichMatrix 1 true tinyEval.X fun i => fisherW .normal .identity ((modelData (tinyCfg 5 5) tinyEval 2 fun _ => 1 / 2).disp plainOptions)
      ((modelData (tinyCfg 5 5) tinyEval 2 fun _ => 1 / 2).mu i) (tinyEval.sw i)) = (16 : ℝ) • (1 : Matrix (Fin (1 + true.toNat)) (Fin (1 + true.toNat)) ℝ) := by
    rw [hdisp, sandwichMatrix_eq]
    ext s t
    have hs : s = 0 ∨ s = 1 := by have := s.2; change s.val < 2 at this; rcases Nat.lt_succ_iff_lt_or_eq.1 this with h | h; exacts [Or.inl (Fin.ext (by simpa using h)), Or.inr (Fin.ext h)]
    have ht : t = 0 ∨ t = 1 := by have := t.2; change t.val < 2 at this; rcases Nat.lt_succ_iff_lt_or_eq.1 this with h | h; exacts [Or.inl (Fin.ext (by simpa using h)), Or.inr (Fin.ext h)]
    rcases hs with rfl | rfl <;> rcases ht with rfl | rfl <;>
      simp [Spec.weightedGram, fisherW, oneOverVariance, Link.inverseDerivative, Family.unitVariance, tinyEval, tinyRows, Fin.sum_univ_two, design] <;> norm_num
  have hs : linSolve ((16 : ℝ) • (1 : Matrix (Fin (1 + true.toNat)) (Fin (1 + true.toNat)) ℝ)) (1 : Matrix (Fin (1 + true.toNat)) (Fin (1 + true.toNat)) ℝ) = some ((1 / 16 : ℝ) • 1) := by
    rw [linSolve_of _ (by rw [Matrix.det_smul, Matrix.det_one]; simp)]
    congr 1
    rw [mul_one]
    refine Matrix.inv_eq_left_inv ?_
    rw [Matrix.smul_mul, Matrix.mul_smul, smul_smul, one_mul]
    norm_num
  refine ⟨((6 : ℝ) / (6 - 1 - 1)) • ((1 / 16 : ℝ) • 1), ?_, ?_⟩
  · unfold covariance
    simp only []
    rw [if_neg (by simp), if_neg (by simp [plainOptions])]
    show ((linSolve (sandwichMatrix 1 true tinyEval.X fun i => fisherW .normal .identity ((modelData (tinyCfg 5 5) tinyEval 2 fun _ => 1 / 2).disp plainOptions)
      ((modelData (tinyCfg 5 5) tinyEval 2 fun _ => 1 / 2).mu i) (tinyEval.sw i)) 1).bind fun v => some (_ • v)) = _
    rw [hA, hs]
    simp only [Option.bind_some]
    congr 2
    simp [modelData, tinyEval]
    norm_num
  · intro k
    simp only [Matrix.smul_apply, Matrix.one_apply_eq, smul_eq_mul]
    norm_num

/-- Without penalty the coefficients are determined too: they fit both rows exactly. -/
example : Determined (tinyCfg 5 5) tinyRows (fun _ => 1) 0 0 2 fun _ => 1 := by
  have hb : ∀ b, WithinBounds 1 (tinyCfg 5 5).lb (tinyCfg 5 5).ub b := fun b j _ => ⟨(fun l hl => by cases hl), (fun u hu => by cases hu)⟩
  have hnf : NoiseFree 1 0 .normal .identity tinyRows 2 (fun _ => 1) := by
    intro i _
    show _ = trueMean 0 .normal .identity _
    rw [trueMean_identity]
    fin_cases i <;> simp [tinyRows] <;> norm_num
  have key := fun c0 c => c123_solutions (tinyCfg 5 5) (by trivial) .normalIdentity rfl tinyRows (fun i => by trivial) (fun i => by norm_num [tinyRows]) (fun _ => 1) 0 2
    (fun _ => 1) (fun h => by cases h) (hb _) hnf c0 c
  refine ⟨(key 2 fun _ => 1).2 ⟨(fun h => by cases h), hb _, hnf⟩, Or.inr ⟨le_rfl, Or.inl ⟨rfl, rfl, rfl⟩, fun c0 c hc => ?_⟩⟩
  obtain ⟨-, -, h⟩ := (key c0 c).1 hc
  have h0 : tinyRows.y 0 = trueMean 0 .normal .identity _ := h 0 (by norm_num [tinyRows])
  have h1 : tinyRows.y 1 = trueMean 0 .normal .identity _ := h 1 (by norm_num [tinyRows])
  rw [trueMean_identity] at h0 h1
  simp [tinyRows] at h0 h1
  refine ⟨by linarith, fun j hj => ?_⟩
  have : j = 0 := by omega
  subst this
  linarith

end Glum
