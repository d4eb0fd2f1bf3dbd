import Verif.Model.Fit
import Verif.Props.AlphaPath
import Verif.Props.FastPath
import Verif.Props.Penalty
/-
C70: the whole of `fit`, from the user's arguments to `coef_` and `intercept_`: what is reported solves the documented problem exactly
as well as the solver solved the problem it was given.
-/
set_option linter.unusedSectionVars false
set_option linter.unusedVariables false
set_option linter.unusedSimpArgs false

namespace Glum
open Spec

variable {n p : ℕ} {ic : Bool}

/-- The mean as a function of the linear predictor: the inverse link (for the binomial family with logit link without the clipping
that `link.inverse` applies). -/
noncomputable def Spec.trueMean (e50 : ℝ) (f : Family) (l : Link) (eta : ℝ) : ℝ :=
  match f, l with
  | .binomial, .logit => 1 / (1 + Real.exp (-eta))
  | _, l => l.inverse e50 eta

/-- The documented objective of a fit with penalty strength `alpha` and elastic-net mixing `l1Ratio`, at intercept `b0` and
coefficients `b`, on the user's data and penalties:
`½ Σ wᵢ d(yᵢ, h(xᵢ·b + b0 + offsetᵢ)) + alpha·l1Ratio·Σ P1ⱼ |sⱼ bⱼ| + ½ alpha (1 - l1Ratio) Σ P2ⱼₖ (sⱼ bⱼ)(sₖ bₖ)`,
where `s` is one, or the scale of the columns with `scale_predictors`. -/
noncomputable def Spec.fitObjective (p : ℕ) (e50 : ℝ) (f : Family) (l : Link) (R : Rows n) (s : ℕ → ℝ) (P1a : P1Arg) (P2a : P2Arg)
    (alpha l1Ratio : ℝ) (b0 : ℝ) (b : ℕ → ℝ) : ℝ :=
  1 / 2 * ∑ i, R.sw i * f.unitDeviance (R.y i)
      (trueMean e50 f l (∑ j : Fin p, R.X i j * b j + b0 + (R.off.getD fun _ => 0) i))
    + alpha * l1Ratio * ∑ j : Fin p, userP1 P1a j * |b j * s j|
    + alpha * (1 - l1Ratio) * (1 / 2 * ∑ j : Fin p, ∑ k : Fin p, userP2 P2a j k * (b j * s j) * (b k * s k))

/-- The user's bounds. -/
def Spec.WithinBounds (p : ℕ) (lb ub : Option (ℕ → ℝ)) (b : ℕ → ℝ) : Prop :=
  ∀ j < p, (∀ l, lb = some l → l j ≤ b j) ∧ (∀ u, ub = some u → b j ≤ u j)

/-- `c` is feasible for a solver's problem and its objective is within `ε` of every feasible point's. -/
def Spec.SolvesWithin (ε : ℝ) (D : IRLSData n p ic) (c : Fin (p + ic.toNat) → ℝ) : Prop :=
  InBounds ic D.lb D.ub c ∧ ∀ v, InBounds ic D.lb D.ub v → objective D c ≤ objective D v + ε

theorem rowFam_dev (e50 : ℝ) (f : Family) (hf : Valid f) (l : Link) (y : ℝ) (hy : y ∈ ySupport f) :
    ∃ c : ℝ, ∀ eta, (rowFam e50 f l).dev y eta = f.unitDeviance y (trueMean e50 f l eta) - c := by
  unfold rowFam
  cases h : f.fast l with
  | none =>
    refine ⟨0, fun eta => ?_⟩
    simp only [genericRow, sub_zero]
    unfold trueMean
    split
    · simp [Family.fast] at h
    · rfl
  | some k =>
    refine ⟨droppedTerm k y, fun eta => ?_⟩
    simp only [fastRow]
    have hm : trueMean e50 f l eta = k.mu eta := by
      rcases fast_cases h with ⟨rfl, rfl, rfl | rfl⟩ | ⟨rfl, rfl, rfl | rfl⟩ | ⟨rfl, rfl, rfl | rfl⟩ | ⟨rfl, rfl, rfl | rfl⟩ |
        ⟨p, rfl, rfl, rfl, h1, h2⟩ | ⟨rfl, rfl, rfl⟩ | ⟨t, rfl, rfl, rfl⟩ <;> try rfl
      rw [fast_mu_logit]; rfl
    rw [hm, fast_dev_eq hf h y eta hy]; ring

theorem smul_scaleP2 (inv : ℕ → ℝ) (a : ℝ) (P2 : Pen2 ℝ) : (scaleP2 inv P2).smul a = scaleP2 inv (P2.smul a) := by
  cases P2 with
  | vec v => simp only [scaleP2, Pen2.smul]; congr 1; funext j; ring
  | dense m => simp only [scaleP2, Pen2.smul]; congr 1; funext j k; ring
  | sparse m =>
    simp only [scaleP2, Pen2.smul, List.map_map]
    congr 1
    apply List.map_congr_left
    intro e _
    simp only [Function.comp, Prod.mk.injEq, true_and]
    ring

theorem withPen_std (thr : ℝ) (asIf : Bool) (means stds : ℕ → ℝ) (C : FitCfg p ic) (R : Rows n) (P1 : ℕ → ℝ) (P2 : Pen2 ℝ) (a : ℝ) :
    (stdData thr asIf means stds (C.problem R P1 P2)).withPen (fun j => (stdData thr asIf means stds (C.problem R P1 P2)).P1 j * a)
      ((stdData thr asIf means stds (C.problem R P1 P2)).P2.smul a)
      = stdData thr asIf means stds (C.problem R (fun j => P1 j * a) (P2.smul a)) := by
  unfold stdData standardize IRLSData.withPen FitCfg.problem
  cases asIf with
  | true => simp
  | false =>
    simp only [Bool.false_eq_true, if_false, smul_scaleP2]
    congr 1
    funext j; ring

/-- Column scale used by the penalty. -/
noncomputable def Spec.penScale (thr : ℝ) (asIf : Bool) (stds : ℕ → ℝ) (j : ℕ) : ℝ :=
  if asIf then (if stds j < thr then 1 else stds j) else 1

theorem std_penalty (thr : ℝ) (ht : 0 < thr) (asIf : Bool) (means stds : ℕ → ℝ) (hs : ∀ j, 0 ≤ stds j) (D : IRLSData n p ic)
    (c : Fin (p + ic.toNat) → ℝ) :
    l1 ic (stdData thr asIf means stds D).P1 c
      = ∑ j : Fin p, D.P1 j * |(report ic thr means stds c).2 j * penScale thr asIf stds j| ∧
    ridge (stdData thr asIf means stds D) c
      = 1 / 2 * ∑ j : Fin p, ∑ k : Fin p, p2Matrix D.P2 j k *
          ((report ic thr means stds c).2 j * penScale thr asIf stds j) *
          ((report ic thr means stds c).2 k * penScale thr asIf stds k) := by
  cases asIf with
  | true =>
    obtain ⟨h1, h2⟩ := c16_scaled_penalty thr ht means stds hs D c
    simp only [penScale, if_true]
    exact ⟨h1, h2⟩
  | false =>
    obtain ⟨h1, h2⟩ := c16_same_penalty thr ht means stds hs D c
    rw [h1, h2]
    simp only [penScale, Bool.false_eq_true, if_false, mul_one]
    constructor
    · rw [l1_split]; simp only [coefVec_feat]
    · unfold ridge
      rw [p2_split]; simp only [coefVec_feat]

/-- The problem handed to the solver has, up to a constant, the documented objective at the reported coefficients. -/
theorem std_objective (C : FitCfg p ic) (ht : 0 < C.thr) (hf : Valid C.family) (R : Rows n) (hy : ∀ i, R.y i ∈ ySupport C.family)
    (means stds : ℕ → ℝ) (hs : ∀ j, 0 ≤ stds j) (l1r : ℝ) (P1 : ℕ → ℝ) (P2 : Pen2 ℝ)
    (h1 : setupP1 p 1 l1r C.P1a = some P1) (h2 : setupP2 p C.xsp 1 l1r C.P2a = some P2) (a : ℝ) :
    ∃ K : ℝ, ∀ c : Fin (p + ic.toNat) → ℝ,
      objective (stdData C.thr C.asIfScaled means stds (C.problem R (fun j => P1 j * a) (P2.smul a))) c
        = fitObjective p C.e50 C.family C.link R (penScale C.thr C.asIfScaled stds) C.P1a C.P2a a l1r
            (report ic C.thr means stds c).1 (report ic C.thr means stds c).2 - K := by
  have hd := fun i => rowFam_dev C.e50 C.family hf C.link (R.y i) (hy i)
  choose k hk using hd
  refine ⟨1 / 2 * ∑ i, R.sw i * k i, fun c => ?_⟩
  obtain ⟨e1, e2⟩ := std_penalty C.thr ht C.asIfScaled means stds hs (C.problem R (fun j => P1 j * a) (P2.smul a)) c
  unfold objective smoothObj
  rw [e1, e2]
  have hl : ∀ r, linPred ic (stdData C.thr C.asIfScaled means stds (C.problem R (fun j => P1 j * a) (P2.smul a))).X
      (off (stdData C.thr C.asIfScaled means stds (C.problem R (fun j => P1 j * a) (P2.smul a)))) c r
      = ∑ j : Fin p, R.X r j * (report ic C.thr means stds c).2 j + (report ic C.thr means stds c).1 + (R.off.getD fun _ => 0) r := by
    intro r
    rw [c15_same_predictions]
    rfl
  have hdev : ∑ r, (stdData C.thr C.asIfScaled means stds (C.problem R (fun j => P1 j * a) (P2.smul a))).sw r *
      (stdData C.thr C.asIfScaled means stds (C.problem R (fun j => P1 j * a) (P2.smul a))).fam.dev
        ((stdData C.thr C.asIfScaled means stds (C.problem R (fun j => P1 j * a) (P2.smul a))).y r)
        (linPred ic (stdData C.thr C.asIfScaled means stds (C.problem R (fun j => P1 j * a) (P2.smul a))).X
          (off (stdData C.thr C.asIfScaled means stds (C.problem R (fun j => P1 j * a) (P2.smul a)))) c r)
      = ∑ i, R.sw i * C.family.unitDeviance (R.y i)
          (trueMean C.e50 C.family C.link (∑ j : Fin p, R.X i j * (report ic C.thr means stds c).2 j
            + (report ic C.thr means stds c).1 + (R.off.getD fun _ => 0) i))
        - ∑ i, R.sw i * k i := by
    rw [← Finset.sum_sub_distrib]
    apply Finset.sum_congr rfl
    intro r _
    rw [hl]
    show R.sw r * (rowFam C.e50 C.family C.link).dev (R.y r) _ = _
    rw [hk]; ring
  rw [hdev]
  have hp1 : ∀ j : Fin p, P1 j = l1r * userP1 C.P1a j := by
    intro j
    cases hP : C.P1a with
    | str s =>
      rw [hP] at h1
      simp only [setupP1] at h1
      split at h1
      · simp only [Option.some.injEq] at h1; rw [← h1]; simp [userP1]
      · simp at h1
    | none =>
      rw [hP] at h1
      simp only [setupP1, Option.some.injEq] at h1; rw [← h1]; simp [userP1]
    | vec len v =>
      rw [hP] at h1
      simp only [setupP1] at h1
      split at h1
      · simp only [Option.some.injEq] at h1; rw [← h1]; simp [userP1]
      · simp at h1
  have hp2 := (c36_symmetrisation p C.xsp 1 l1r C.P2a P2 h2
    (fun j => (report ic C.thr means stds c).2 j * penScale C.thr C.asIfScaled stds j) (fun _ => 0)).2.1
  have hsm : ∀ j k, p2Matrix (P2.smul a) j k = a * p2Matrix P2 j k := fun j k => smul_entry a P2 j k
  unfold fitObjective
  have e3 : ∑ j : Fin p, (C.problem R (fun j => P1 j * a) (P2.smul a)).P1 j *
      |(report ic C.thr means stds c).2 j * penScale C.thr C.asIfScaled stds j|
      = a * l1r * ∑ j : Fin p, userP1 C.P1a j * |(report ic C.thr means stds c).2 j * penScale C.thr C.asIfScaled stds j| := by
    rw [Finset.mul_sum]
    apply Finset.sum_congr rfl; intro j _
    show P1 j * a * _ = _
    rw [hp1]; ring
  have e4 : (1 : ℝ) / 2 * ∑ j : Fin p, ∑ k : Fin p, p2Matrix (C.problem R (fun j => P1 j * a) (P2.smul a)).P2 j k *
      ((report ic C.thr means stds c).2 j * penScale C.thr C.asIfScaled stds j) *
      ((report ic C.thr means stds c).2 k * penScale C.thr C.asIfScaled stds k)
      = a * (1 - l1r) * (1 / 2 * ∑ j : Fin p, ∑ k : Fin p, userP2 C.P2a j k *
      ((report ic C.thr means stds c).2 j * penScale C.thr C.asIfScaled stds j) *
      ((report ic C.thr means stds c).2 k * penScale C.thr C.asIfScaled stds k)) := by
    have : a * (1 - l1r) * (1 / 2 * ∑ j : Fin p, ∑ k : Fin p, userP2 C.P2a j k *
      ((report ic C.thr means stds c).2 j * penScale C.thr C.asIfScaled stds j) *
      ((report ic C.thr means stds c).2 k * penScale C.thr C.asIfScaled stds k))
      = a * (1 * (1 - l1r) * (1 / 2 * ∑ j : Fin p, ∑ k : Fin p, userP2 C.P2a j k *
      ((report ic C.thr means stds c).2 j * penScale C.thr C.asIfScaled stds j) *
      ((report ic C.thr means stds c).2 k * penScale C.thr C.asIfScaled stds k))) := by ring
    rw [this, ← hp2]
    show (1 : ℝ) / 2 * ∑ j : Fin p, ∑ k : Fin p, p2Matrix (P2.smul a) j k * _ * _ = _
    simp only [hsm, Finset.mul_sum]
    apply Finset.sum_congr rfl; intro j _; apply Finset.sum_congr rfl; intro k _; ring
  rw [e3, e4]
  ring

theorem inBounds_coefVec (lb ub : Option (ℕ → ℝ)) (r : ℝ × (ℕ → ℝ)) :
    InBounds ic lb ub (coefVec (p := p) ic r) ↔ WithinBounds p lb ub r.2 := by
  unfold InBounds WithinBounds coefVec
  constructor
  · intro h j hj
    have := h ⟨j + ic.toNat, by omega⟩ j rfl
    simpa using this
  · intro h i k hik
    have hk : k < p := by have := i.2; omega
    have := h k hk
    rw [hik]
    simpa using this

/-- What is prepared for the solver, unfolded. -/
theorem prepare_spec (C : FitCfg p ic) (stats : Stats) (R : Rows n) (l1r : ℝ) (Q : Prepared n p ic)
    (h : prepare C stats R l1r = some Q) :
    ∃ P1 P2, setupP1 p 1 l1r C.P1a = some P1 ∧ setupP2 p C.xsp 1 l1r C.P2a = some P2 ∧
      Q.means = (stats n R.X R.sw).1 ∧ Q.stds = (stats n R.X R.sw).2 ∧
      Q.D = stdData C.thr C.asIfScaled Q.means Q.stds (C.problem R P1 P2) ∧
      Q.A = C.A.map fun a r j => a r j * oneOverStd C.thr 1 (Q.stds j) := by
  unfold prepare at h
  simp only [Option.bind_eq_bind] at h
  cases h1 : setupP1 p 1 l1r C.P1a with
  | none => rw [h1] at h; simp at h
  | some P1 =>
    cases h2 : setupP2 p C.xsp 1 l1r C.P2a with
    | none => rw [h1, h2] at h; simp at h
    | some P2 =>
      rw [h1, h2] at h
      simp only [Option.bind_some] at h
      cases hg : startGuess C R with
      | none => rw [hg] at h; simp at h
      | some g =>
        rw [hg] at h
        simp only [Option.bind_some, Option.some.injEq] at h
        subst h
        exact ⟨P1, P2, rfl, rfl, rfl, rfl, rfl, rfl⟩

/-- The documented problem: `(b0, b)` satisfies the user's bounds and its documented objective is within `ε` of that of every other
intercept and coefficients satisfying them. -/
def Spec.DocumentedWithin (C : FitCfg p ic) (R : Rows n) (s : ℕ → ℝ) (alpha l1r ε b0 : ℝ) (b : ℕ → ℝ) : Prop :=
  WithinBounds p C.lb C.ub b ∧ ∀ (b0' : ℝ) (b' : ℕ → ℝ), (ic = false → b0' = 0) → WithinBounds p C.lb C.ub b' →
    fitObjective p C.e50 C.family C.link R s C.P1a C.P2a alpha l1r b0 b
      ≤ fitObjective p C.e50 C.family C.link R s C.P1a C.P2a alpha l1r b0' b' + ε

theorem report_bijective (thr : ℝ) (ht : 0 < thr) (means stds : ℕ → ℝ) (hs : ∀ j, 0 ≤ stds j) (b0 : ℝ) (b : ℕ → ℝ)
    (h0 : ic = false → b0 = 0) :
    ∃ c : Fin (p + ic.toNat) → ℝ, (report ic thr means stds c).1 = b0 ∧ ∀ j : Fin p, (report ic thr means stds c).2 j = b j := by
  obtain ⟨c', hc'⟩ := report_surjective (ic := ic) (p := p) thr ht means stds hs (coefVec ic (b0, b))
  refine ⟨c', ?_, ?_⟩
  · have e1 := coefVec_icpt (p := p) (ic := ic) (report ic thr means stds c')
    rw [hc', coefVec_icpt] at e1
    cases ic with
    | true => simpa using e1.symm
    | false =>
      rw [h0 rfl]
      simp [report, unstandardize, outMeans]
  · intro j
    rw [← coefVec_feat (ic := ic) (report ic thr means stds c') j, hc', coefVec_feat]

theorem fitObjective_congr (C : FitCfg p ic) (R : Rows n) (s : ℕ → ℝ) (a l1r b0 b0' : ℝ) (b b' : ℕ → ℝ) (h0 : b0 = b0')
    (h : ∀ j : Fin p, b j = b' j) :
    fitObjective p C.e50 C.family C.link R s C.P1a C.P2a a l1r b0 b = fitObjective p C.e50 C.family C.link R s C.P1a C.P2a a l1r b0' b' := by
  unfold fitObjective
  simp only [h, h0]

/-- Transfer for one solve: a solver vector is within `ε` of optimal for the handed problem exactly if it is reported as coefficients
that are within `ε` of optimal for the documented problem. -/
theorem report_solves (C : FitCfg p ic) (ht : 0 < C.thr) (hf : Valid C.family) (stats : Stats) (R : Rows n)
    (hs : ∀ j, 0 ≤ (stats n R.X R.sw).2 j) (hy : ∀ i, R.y i ∈ ySupport C.family) (l1r : ℝ) (Q : Prepared n p ic)
    (h : prepare C stats R l1r = some Q) (a ε : ℝ) (c : Fin (p + ic.toNat) → ℝ) :
    SolvesWithin ε (Q.D.withPen (fun j => Q.D.P1 j * a) (Q.D.P2.smul a)) c ↔
    DocumentedWithin C R (penScale C.thr C.asIfScaled Q.stds) a l1r ε
      (report ic C.thr Q.means Q.stds c).1 (report ic C.thr Q.means Q.stds c).2 := by
  obtain ⟨P1, P2, h1, h2, hm, hst, hD, -⟩ := prepare_spec C stats R l1r Q h
  rw [← hst] at hs
  rw [hD, withPen_std]
  obtain ⟨K, hK⟩ := std_objective C ht hf R hy Q.means Q.stds hs l1r P1 P2 h1 h2 a
  have hb := fun c => c18_bounds C.thr ht Q.means Q.stds hs C.asIfScaled (C.problem R (fun j => P1 j * a) (P2.smul a)) c
  have hb' : ∀ c : Fin (p + ic.toNat) → ℝ, InBounds ic
      (stdData C.thr C.asIfScaled Q.means Q.stds (C.problem R (fun j => P1 j * a) (P2.smul a))).lb
      (stdData C.thr C.asIfScaled Q.means Q.stds (C.problem R (fun j => P1 j * a) (P2.smul a))).ub c ↔
      WithinBounds p C.lb C.ub (report ic C.thr Q.means Q.stds c).2 := fun c =>
    (hb c).trans (inBounds_coefVec _ _ _)
  unfold SolvesWithin DocumentedWithin
  rw [hb']
  refine and_congr_right fun _ => ⟨fun hopt b0 b hb0 hbb => ?_, fun hopt v hv => ?_⟩
  · obtain ⟨c', e0, e⟩ := report_bijective (ic := ic) (p := p) C.thr ht Q.means Q.stds hs b0 b hb0
    have hin' : WithinBounds p C.lb C.ub (report ic C.thr Q.means Q.stds c').2 := fun j hj => by
      have := e ⟨j, hj⟩
      simp only at this
      rw [this]; exact hbb j hj
    have := hopt c' ((hb' c').2 hin')
    rw [hK, hK, fitObjective_congr C R _ a l1r _ b0 _ b e0 e] at this
    linarith
  · rw [hb'] at hv
    have hz : ic = false → (report ic C.thr Q.means Q.stds v).1 = 0 := by
      rintro rfl
      simp [report, unstandardize, outMeans]
    have := hopt _ _ hz hv
    rw [hK, hK]
    linarith

theorem glmFit_spec {σ : Type} (C : FitCfg p ic) (stats : Stats) (solver : SolverFn σ p ic) (R : Rows n) (l1r : ℝ) (a : AlphaSpec)
    (s s' : σ) (r : PathResult) (h : glmFit C stats solver R l1r a s = some (s', r)) :
    ∃ Q, prepare C stats R l1r = some Q ∧ a.eval C Q = some r.alphas ∧ s' = (Q.path solver r.alphas s).1 ∧
      storePath C.thr Q.means Q.stds r.alphas (Q.path solver r.alphas s).2 = some r ∧ ¬ C.boundsBad := by
  unfold glmFit at h
  split at h
  · cases h
  · next hb =>
    simp only [Option.bind_eq_bind] at h
    cases h2 : setupP2 p C.xsp 1 l1r C.P2a with
    | none => rw [h2] at h; simp at h
    | some P2 =>
      rw [h2] at h
      simp only [Option.bind_some] at h
      split at h
      · cases h
      · cases hq : prepare C stats R l1r with
        | none => rw [hq] at h; simp at h
        | some Q =>
          rw [hq] at h
          simp only [Option.bind_some] at h
          cases ha : a.eval C Q with
          | none => rw [ha] at h; simp at h
          | some al =>
            rw [ha] at h
            simp only [Option.bind_some] at h
            cases hst : storePath C.thr Q.means Q.stds al (Q.path solver al s).2 with
            | none => rw [hst] at h; simp at h
            | some r' =>
              rw [hst] at h
              simp only [Option.bind_some, Option.some.injEq, Prod.mk.injEq] at h
              obtain ⟨rfl, rfl⟩ := h
              have hal := (c41_stored C.thr Q.means Q.stds al _ r' hst).1
              refine ⟨Q, rfl, ?_, ?_, ?_, hb⟩
              · rw [hal]; exact ha
              · rw [hal]
              · rw [hal]; exact hst

theorem storePath_rows (thr : ℝ) (means stds : ℕ → ℝ) (alphas : List ℝ) (rows : List (Fin (p + ic.toNat) → ℝ)) (r : PathResult)
    (h : storePath thr means stds alphas rows = some r) (i : ℕ) (hi : i < rows.length) :
    r.coefPath[i]? = some (report ic thr means stds rows[i]).2 ∧ r.interceptPath[i]? = some (report ic thr means stds rows[i]).1 := by
  unfold storePath at h
  simp only [Option.bind_eq_bind] at h
  cases hl : (rows.map (report ic thr means stds)).getLast? with
  | none => rw [hl] at h; cases h
  | some last =>
    rw [hl] at h
    simp only [Option.bind_some, Option.some.injEq] at h
    subst h
    simp [List.getElem?_eq_getElem hi]

/-- **C70.** `fit`, for every data set, family and link, penalties (vector or matrix, dense or sparse), l1 ratio, bounds, weights,
offset, with or without intercept and scaling, single alpha, given alphas or computed path, and every solver: `coef_` and `intercept_`
are the last row of the path, which has one row per alpha; row `i` comes from one call of the solver, and that call solved the problem
it was handed to within `ε` exactly if row `i` satisfies the user's bounds and is within `ε` of minimising the documented objective at
`alphas[i]` on the user's own data, penalties and bounds. -/
theorem c70_fit {σ : Type} (C : FitCfg p ic) (ht : 0 < C.thr) (hf : Valid C.family) (stats : Stats) (solver : SolverFn σ p ic)
    (R : Rows n) (hs : ∀ j, 0 ≤ (stats n R.X R.sw).2 j) (hy : ∀ i, R.y i ∈ ySupport C.family) (l1r : ℝ) (a : AlphaSpec) (s s' : σ)
    (r : PathResult) (h : glmFit C stats solver R l1r a s = some (s', r)) :
    r.coefPath.length = r.alphas.length ∧ r.interceptPath.length = r.alphas.length ∧
    r.coefPath.getLast? = some r.coef ∧ r.interceptPath.getLast? = some r.intercept ∧
    ∀ i (hi : i < r.alphas.length) (hc : i < r.coefPath.length) (hb : i < r.interceptPath.length),
      ∃ (D : IRLSData n p ic) (A : Option (ℕ → ℕ → ℝ)) (s₁ : σ) (start : Fin (p + ic.toNat) → ℝ), ∀ ε : ℝ,
        SolvesWithin ε D (solver n D A s₁ start).2 ↔
          DocumentedWithin C R (penScale C.thr C.asIfScaled (stats n R.X R.sw).2) r.alphas[i] l1r ε r.interceptPath[i] r.coefPath[i] := by
  obtain ⟨Q, hQ, ha, -, hst, -⟩ := glmFit_spec C stats solver R l1r a s s' r h
  obtain ⟨hlen, states, -, -, hstep⟩ := c41_path (Q.solveFn solver) Q.D.P1 Q.D.P2 r.alphas s Q.start
  obtain ⟨-, l1', l2', g1, g2, -, -⟩ := c41_stored C.thr Q.means Q.stds r.alphas _ r hst
  have hst2 : Q.stds = (stats n R.X R.sw).2 := by
    obtain ⟨_, _, _, _, _, hh, _⟩ := prepare_spec C stats R l1r Q hQ
    exact hh
  unfold Prepared.path at *
  refine ⟨l1'.trans hlen, l2'.trans hlen, g1, g2, fun i hi hc hb => ?_⟩
  have hi' : i < (solvePath (Q.solveFn solver) Q.D.P1 Q.D.P2 r.alphas s Q.start).2.length := by rw [hlen]; exact hi
  obtain ⟨e1, e2⟩ := storePath_rows C.thr Q.means Q.stds r.alphas _ r hst i hi'
  rw [List.getElem?_eq_getElem hc, Option.some.injEq] at e1
  rw [List.getElem?_eq_getElem hb, Option.some.injEq] at e2
  have hrow := congrArg Prod.snd (hstep i hi hi')
  simp only at hrow
  refine ⟨Q.D.withPen (fun j => Q.D.P1 j * r.alphas[i]) (Q.D.P2.smul r.alphas[i]), Q.A, states i,
    if h : i = 0 then Q.start else (solvePath (Q.solveFn solver) Q.D.P1 Q.D.P2 r.alphas s Q.start).2[i - 1], fun ε => ?_⟩
  rw [e1, e2, ← hst2, ← hrow]
  exact report_solves C ht hf stats R hs hy l1r Q hQ r.alphas[i] ε _

/-- **C70.** With a solver that returns a minimiser of the problem it is given whenever there is one: whenever the documented problem at
the (last) alpha has a solution, `coef_` and `intercept_` are a solution. -/
theorem c70_exact {σ : Type} (C : FitCfg p ic) (ht : 0 < C.thr) (hf : Valid C.family) (stats : Stats) (solver : SolverFn σ p ic)
    (hsolver : ∀ (D : IRLSData n p ic) A s start, (∃ v, SolvesWithin 0 D v) → SolvesWithin 0 D (solver n D A s start).2)
    (R : Rows n) (hs : ∀ j, 0 ≤ (stats n R.X R.sw).2 j) (hy : ∀ i, R.y i ∈ ySupport C.family) (l1r alpha : ℝ) (s s' : σ)
    (r : PathResult) (h : glmFit C stats solver R l1r (.single alpha) s = some (s', r))
    (hex : ∃ b0 b, (ic = false → b0 = 0) ∧
      DocumentedWithin C R (penScale C.thr C.asIfScaled (stats n R.X R.sw).2) alpha l1r 0 b0 b) :
    DocumentedWithin C R (penScale C.thr C.asIfScaled (stats n R.X R.sw).2) alpha l1r 0 r.intercept r.coef := by
  obtain ⟨Q, hQ, ha, -, hst, -⟩ := glmFit_spec C stats solver R l1r (.single alpha) s s' r h
  simp only [AlphaSpec.eval, Option.some.injEq] at ha
  rw [← ha] at hst
  have hst2 : Q.stds = (stats n R.X R.sw).2 := by
    obtain ⟨_, _, _, _, _, hh, _⟩ := prepare_spec C stats R l1r Q hQ
    exact hh
  simp only [Prepared.path, solvePath, storePath, List.map_cons, List.map_nil, List.getLast?_singleton, Option.bind_eq_bind,
    Option.bind_some, Option.some.injEq] at hst
  obtain ⟨b0, b, hb0, hw, hopt⟩ := hex
  obtain ⟨c', e0, e⟩ := report_bijective (ic := ic) (p := p) C.thr ht Q.means Q.stds (by rw [hst2]; exact hs) b0 b hb0
  have key := hsolver (Q.D.withPen (fun j => Q.D.P1 j * alpha) (Q.D.P2.smul alpha)) Q.A s Q.start
    ⟨c', (report_solves C ht hf stats R hs hy l1r Q hQ alpha 0 c').2 (by
      refine ⟨fun j hj => ?_, fun b0' b' h0' hb' => ?_⟩
      · have := e ⟨j, hj⟩
        simp only at this
        rw [this]; exact hw j hj
      · rw [fitObjective_congr C R _ alpha l1r _ b0 _ b e0 e, hst2]
        exact hopt b0' b' h0' hb')⟩
  rw [report_solves C ht hf stats R hs hy l1r Q hQ alpha 0 _, hst2] at key
  rw [← hst]
  simp only [Prepared.solveFn]
  convert key using 1
  · split
    · rw [hst2]
    · next hic =>
      have : ic = false := by simpa using hic
      subst this
      simp [report, unstandardize, outMeans]
  · rw [hst2]

/-! A concrete fit meeting the hypotheses: two observations `1`, `3` with weight ½ each, one feature equal to one, no intercept, normal
family, ridge penalty with `alpha = 1`; the solution is `coef_ = [1]`. -/

noncomputable def fitEx : FitCfg 1 false where
  family := .normal
  link := .identity
  e50 := 0
  thr := 1 / 10
  asIfScaled := false
  xsp := false
  P1a := .none
  P2a := .none
  lb := none
  ub := some fun _ => 5
  A := none
  start := .cold
  p2ok := fun _ => true
  maxIter := 1
  maxInnerIter := 1
  gradTol := 1
  stepTol := none
  hessApprox := 0
  fixedInnerTol := none
  random := false
  eps := 0
  large := 0

noncomputable def fitExRows : Rows 2 where
  X := fun _ _ => 1
  y := fun i => if i = 0 then 1 else 3
  sw := fun _ => 1 / 2
  off := none

/-- A solver that returns a minimiser whenever there is one. -/
noncomputable def idealSolver : SolverFn Unit p ic := fun m D A s start =>
  open Classical in (s, if h : ∃ v, SolvesWithin 0 D v then h.choose else start)

theorem idealSolver_exact (D : IRLSData n p ic) (A : Option (ℕ → ℕ → ℝ)) (s : Unit) (start : Fin (p + ic.toNat) → ℝ)
    (h : ∃ v, SolvesWithin 0 D v) : SolvesWithin 0 D (idealSolver n D A s start).2 := by
  unfold idealSolver
  simp only [dif_pos h]
  exact h.choose_spec

theorem fitEx_objective (b0 : ℝ) (b : ℕ → ℝ) :
    fitObjective 1 0 .normal .identity fitExRows (penScale (1 / 10) false fun _ => 1) .none .none 1 0 b0 b
      = 1 / 4 * ((1 - (b 0 + b0)) ^ 2 + (3 - (b 0 + b0)) ^ 2) + 1 / 2 * b 0 ^ 2 := by
  simp [fitObjective, fitExRows, penScale, userP1, userP2, trueMean, Link.inverse, Family.unitDeviance, Fin.sum_univ_two]
  ring

example : ∃ r, glmFit fitEx (fun _ _ _ => (fun _ => 0, fun _ => 1)) idealSolver fitExRows 0 (.single 1) () = some ((), r) ∧
    r.coef 0 = 1 := by
  have hfit : ∃ r, glmFit fitEx (fun _ _ _ => (fun _ => 0, fun _ => 1)) idealSolver fitExRows 0 (.single 1) () = some ((), r) := by
    unfold glmFit
    rw [if_neg]
    · simp [fitEx, setupP2, setupP2Base, setupP1, prepare, startGuess, AlphaSpec.eval, Prepared.path, solvePath, storePath]
    · rintro ⟨l, u, h, -⟩
      simp [fitEx] at h
  obtain ⟨r, hr⟩ := hfit
  refine ⟨r, hr, ?_⟩
  have hdoc : ∀ b0 b, (b0 = 0) → WithinBounds 1 none (some fun _ => (5 : ℝ)) b →
      fitObjective 1 0 .normal .identity fitExRows (penScale (1 / 10) false fun _ => 1) .none .none 1 0 0 (fun _ => 1)
        ≤ fitObjective 1 0 .normal .identity fitExRows (penScale (1 / 10) false fun _ => 1) .none .none 1 0 b0 b + 0 := by
    rintro b0 b rfl -
    rw [fitEx_objective, fitEx_objective]
    nlinarith [sq_nonneg (b 0 - 1)]
  have hin : WithinBounds 1 none (some fun _ => (5 : ℝ)) (fun _ => 1) := by
    intro j _
    constructor
    · intro l h; cases h
    · intro u h
      rw [Option.some.injEq] at h
      rw [← h]; norm_num
  have := c70_exact fitEx (by norm_num [fitEx]) trivial (fun _ _ _ => (fun _ => 0, fun _ => 1)) idealSolver
    (fun D A s st h => idealSolver_exact D A s st h) fitExRows (fun _ => zero_le_one) (fun _ => trivial) 0 1 () () r hr
    ⟨0, fun _ => 1, fun _ => rfl, hin, fun b0' b' h0 h1 => hdoc b0' b' (h0 rfl) h1⟩
  have h2 := this.2 0 (fun _ => 1) (fun _ => rfl) hin
  have hz : r.intercept = 0 := by
    obtain ⟨Q, hQ, ha, -, hst, -⟩ := glmFit_spec fitEx _ idealSolver fitExRows 0 (.single 1) () () r hr
    obtain ⟨-, -, -, -, hl, hzero, -⟩ := c41_stored fitEx.thr Q.means Q.stds r.alphas _ r hst
    exact hzero rfl _ (List.mem_of_getLast? hl)
  change fitObjective 1 0 .normal .identity fitExRows (penScale (1 / 10) false fun _ => 1) .none .none 1 0 r.intercept r.coef
    ≤ fitObjective 1 0 .normal .identity fitExRows (penScale (1 / 10) false fun _ => 1) .none .none 1 0 0 (fun _ => 1) + 0 at h2
  rw [fitEx_objective, fitEx_objective, hz] at h2
  nlinarith [sq_nonneg (r.coef 0 - 1)]

end Glum
