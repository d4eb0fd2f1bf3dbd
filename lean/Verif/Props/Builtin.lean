import Mathlib.Analysis.Convex.Deriv
import Verif.Model.SmoothObjective
import Verif.Props.FastPath
import Verif.Props.IRLS
/-
The family hypotheses of the IRLS theorems (C31, C34, C35) for the built-in families, and the objective/gradient pair handed to
L-BFGS and trust-constr (C34).
-/
set_option linter.unusedSectionVars false
set_option linter.unusedVariables false

namespace Glum
open Spec

variable {n p : ℕ} {ic : Bool}

/-- A fit on one of the compiled family/link pairs: valid parameters, observations in the support, non-negative weights. -/
structure FastFit (D : IRLSData n p ic) (f : Family) (l : Link) (k : Fast) : Prop where
  valid : Valid f
  fast : f.fast l = some k
  fam : D.fam = fastRow f l k
  y : ∀ r, D.y r ∈ ySupport f
  sw : ∀ r, 0 ≤ D.sw r

theorem FastFit.gradOK {D : IRLSData n p ic} {f : Family} {l : Link} {k : Fast} (h : FastFit D f l k) (r : Fin n) (eta : ℝ) :
    GradOK D r eta := by
  unfold GradOK
  rw [h.fam]
  refine ((fast_dev_hasDeriv h.valid h.fast (D.y r) (D.sw r) eta (h.y r)).const_mul (1 / 2)).congr_deriv ?_
  simp only [fastRow]; ring

theorem FastFit.rows {D : IRLSData n p ic} {f : Family} {l : Link} {k : Fast} (h : FastFit D f l k) (r : Fin n) (eta : ℝ) :
    0 ≤ D.fam.hess (D.y r) (D.sw r) eta (D.fam.inv eta) := by
  have := c10_hessian_nonneg f h.valid l k h.fast (D.y r) (D.sw r) eta (h.sw r) (h.y r)
  simp only [Family.rowGradHess, h.fast] at this
  rw [h.fam]; exact this

/-- The true curvature is non-negative on every compiled path except inverse Gaussian. -/
theorem trueCurvature_nonneg {f : Family} (hf : Valid f) {l : Link} {k : Fast} (h : f.fast l = some k) (hk : k ≠ .invGaussianLog)
    (y w eta : ℝ) (hw : 0 ≤ w) (hy : y ∈ ySupport f) : 0 ≤ trueCurvature k y w (k.mu eta) := by
  have hh := c10_hessian_nonneg f hf l k h y w eta hw hy
  simp only [Family.rowGradHess, h] at hh
  rcases fast_cases h with ⟨rfl, rfl, _⟩ | ⟨rfl, rfl, _⟩ | ⟨rfl, rfl, _⟩ | ⟨rfl, rfl, _⟩ |
    ⟨p, rfl, rfl, rfl, h1, h2⟩ | ⟨rfl, rfl, rfl⟩ | ⟨t, rfl, rfl, rfl⟩
  · exact hh
  · exact hh
  · exact hh
  · exact absurd rfl hk
  · exact hh
  · exact hh
  · have ht : 0 < t := hf
    have hy0 : 0 ≤ y := hy
    have hpos := Real.exp_pos eta
    simp only [trueCurvature, Fast.mu]
    have hd : 0 < 1 + t * Real.exp eta := by positivity
    have e : Real.exp eta / (1 + t * Real.exp eta) + (y - Real.exp eta) * (t * Real.exp eta) / (1 + t * Real.exp eta) ^ 2
        = Real.exp eta * (1 + t * y) / (1 + t * Real.exp eta) ^ 2 := by
      field_simp; ring
    rw [e]; positivity

/-- Row losses are convex on every compiled path except inverse Gaussian. -/
theorem FastFit.convex {D : IRLSData n p ic} {f : Family} {l : Link} {k : Fast} (h : FastFit D f l k) (hk : k ≠ .invGaussianLog)
    (r : Fin n) : ConvexOn ℝ Set.univ fun e => 1 / 2 * (D.sw r * D.fam.dev (D.y r) e) := by
  have hd := fun e => h.gradOK r e
  unfold GradOK at hd
  have hder : deriv (fun e => 1 / 2 * (D.sw r * D.fam.dev (D.y r) e))
      = fun eta => -(D.fam.grad (D.y r) (D.sw r) eta (D.fam.inv eta)) := funext fun e => (hd e).deriv
  apply Monotone.convexOn_univ_of_deriv (fun e => (hd e).differentiableAt)
  rw [hder]
  have h2 : ∀ eta, HasDerivAt (fun eta => -(D.fam.grad (D.y r) (D.sw r) eta (D.fam.inv eta)))
      (trueCurvature k (D.y r) (D.sw r) (k.mu eta)) eta := by
    intro eta
    rw [h.fam]
    refine (fast_grad_hasDeriv h.valid h.fast (D.y r) (D.sw r) eta).neg.congr_deriv ?_
    ring
  apply monotone_of_deriv_nonneg (fun e => (h2 e).differentiableAt)
  intro e
  rw [(h2 e).deriv]
  exact trueCurvature_nonneg h.valid h.fast hk _ _ _ (h.sw r) (h.y r)

/-- **C34, built-in families.** In every state of every IRLS run on a compiled family/link pair the stored score is minus the
gradient of the smooth objective. -/
theorem c34_score_builtin (inner : Inner n p ic) (D : IRLSData n p ic) (f : Family) (l : Link) (k : Fast) (hF : FastFit D f l k)
    (hP : ∀ k, 0 ≤ D.P1 k) (hsym : ∀ i j, p2Full (p := p) ic D.P2 i j = p2Full ic D.P2 j i)
    (coef0 : Fin (p + ic.toNat) → ℝ) (st : IRLSState n p ic) (h : Visited inner D coef0 st) (d : Fin (p + ic.toNat) → ℝ) :
    HasDerivAt (fun t : ℝ => smoothObj D fun k => st.coef k + t * d k) (-∑ k, st.score k * d k) 0 :=
  c34_score_is_gradient inner D hP hsym coef0 st h (fun r => hF.gradOK r _) d

/-- **C31, built-in families.** -/
theorem c31_cd_monotone_builtin (seeds : ℕ → BitVec 32) (D : IRLSData n p ic) (f : Family) (l : Link) (k : Fast)
    (hF : FastFit D f l k) (hP : ∀ k, 0 ≤ D.P1 k) (hsym : ∀ i j, p2Full (p := p) ic D.P2 i j = p2Full ic D.P2 j i)
    (hpsd : PosSemidef (p2Full (p := p) ic D.P2)) (he : 0 ≤ D.eps) (hb : BoundsOrdered D.lb D.ub)
    (coef0 : Fin (p + ic.toNat) → ℝ) (h0 : InBounds ic D.lb D.ub coef0) :
    (irlsRun (cdInner seeds) D coef0).diagnostics.IsChain (NotWorse D.eps) :=
  c31_cd_monotone seeds D ⟨hP, hsym, hpsd, fun r eta => hF.rows r eta, he, hb⟩ coef0 h0

/-- **C35, built-in families.** Normal/identity, Poisson, gamma, Tweedie `1 < p < 2` and negative binomial with log link, binomial with logit
link: any state of any run satisfies `objective coef ≤ objective v + norm·B` for every feasible `v` within `B` of `coef`. -/
theorem c35_near_optimal_builtin (inner : Inner n p ic) (D : IRLSData n p ic) (f : Family) (l : Link) (k : Fast)
    (hF : FastFit D f l k) (hk : k ≠ .invGaussianLog) (hP : ∀ k, 0 ≤ D.P1 k)
    (hsym : ∀ i j, p2Full (p := p) ic D.P2 i j = p2Full ic D.P2 j i) (hpsd : PosSemidef (p2Full (p := p) ic D.P2))
    (coef0 : Fin (p + ic.toNat) → ℝ) (st : IRLSState n p ic) (h : Visited inner D coef0 st)
    (v : Fin (p + ic.toNat) → ℝ) (hv : InBounds ic D.lb D.ub v) (B : ℝ) (hB : ∀ i, |v i - st.coef i| ≤ B) (hB0 : 0 ≤ B) :
    objective D st.coef ≤ objective D v + st.norm * B ∧
    (st.norm < D.gradTol → objective D st.coef ≤ objective D v + D.gradTol * B) :=
  c35_near_optimal inner D hP hsym hpsd (fun r => hF.convex hk r) coef0 st h (fun r => hF.gradOK r _) v hv B hB hB0

/-! ### The objective handed to L-BFGS and trust-constr -/

/-- The documented smooth objective `½ Σ w·d(y, h(X̃w + offset)) + ½ wᵀP2w`, written from the definitions. -/
noncomputable def documentedObjective (D : SmoothData n p ic) (w : Fin (p + ic.toNat) → ℝ) : ℝ :=
  1 / 2 * ∑ r, D.sw r * D.family.unitDeviance (D.y r)
      (D.link.inverse D.e50 (linPred ic D.X (D.offset.getD fun _ => 0) w r))
    + 1 / 2 * ∑ i, ∑ j, p2Full ic D.P2 i j * w i * w j

/-- What is required of a point: every row's linear predictor is in the range of the link and not clipped, and its mean is in the
family's mean range. -/
structure Regular (D : SmoothData n p ic) (w : Fin (p + ic.toNat) → ℝ) : Prop where
  range : ∀ r, linPred ic D.X (D.offset.getD fun _ => 0) w r ∈ linkRange D.link
  clip : ∀ r, linPred ic D.X (D.offset.getD fun _ => 0) w r ∈ unclipped D.e50 D.link
  mu : ∀ r, D.link.inverse D.e50 (linPred ic D.X (D.offset.getD fun _ => 0) w r) ∈ muRange D.family

theorem p2Coef_eq (P2 : Pen2 ℝ) (hsym : ∀ i j, p2Full (p := p) ic P2 i j = p2Full ic P2 j i) (coef : Fin (p + ic.toNat) → ℝ)
    (k : Fin (p + ic.toNat)) :
    (if k.val < ic.toNat then 0 else p2Coef P2 coef (k.val - ic.toNat)) = ∑ i, p2Full ic P2 i k * coef i := by
  rw [← makeCoefP2_eq]
  unfold makeCoefP2
  split
  · rfl
  · next h =>
    have hk : k.val - ic.toNat < p := by have := k.isLt; omega
    obtain ⟨j, hkj⟩ : ∃ j : Fin p, k = ⟨j.val + ic.toNat, by omega⟩ :=
      ⟨⟨k.val - ic.toNat, hk⟩, by ext; simp; omega⟩
    have hkv : k.val - ic.toNat = j.val := by rw [hkj]; simp
    rw [hkv]
    have hs : ∀ i : Fin p, p2Matrix P2 i.val j.val = p2Matrix P2 j.val i.val := by
      intro i
      have := hsym ⟨i.val + ic.toNat, by omega⟩ ⟨j.val + ic.toNat, by omega⟩
      rw [p2Full_shift P2 i j, p2Full_shift P2 j i] at this
      exact this
    cases P2 with
    | vec v => simp only [p2Coef]; ring
    | dense m =>
      simp only [p2Coef, p2Matrix] at hs ⊢
      rw [Finset.sum_range, Finset.sum_range]
      refine Finset.sum_congr rfl fun i _ => ?_
      rw [hs i]; ring
    | sparse m =>
      simp only [p2Coef, p2Matrix] at hs ⊢
      rw [Finset.sum_range, Finset.sum_range]
      refine Finset.sum_congr rfl fun i _ => ?_
      rw [hs i]; ring

theorem objAndDerivative_value (D : SmoothData n p ic) (hf : Valid D.family)
    (hF2 : ∀ q, D.family = .tweedie q → q < 0 → ∀ i, 0 ≤ D.y i) (hy : ∀ r, D.y r ∈ ySupport D.family)
    (hsym : ∀ i j, p2Full (p := p) ic D.P2 i j = p2Full ic D.P2 j i) (w : Fin (p + ic.toNat) → ℝ)
    (hmu : ∀ r, D.link.inverse D.e50 (linPred ic D.X (D.offset.getD fun _ => 0) w r) ∈ muRange D.family) :
    (objAndDerivative D w).1 = documentedObjective D w := by
  have hl : ∀ r, safeLinPred ic D.X w D.offset r = linPred ic D.X (D.offset.getD fun _ => 0) w r := by
    intro r; rw [c12_lin_pred]
  simp only [objAndDerivative, muDevianceDerivative, documentedObjective]
  rw [c07_deviance_sum_partial D.family hf D.y _ D.sw hy (fun r => by rw [hl]; exact hmu r) hF2]
  simp only [hl]
  congr 2
  rw [Finset.sum_comm]
  have e1 : ∀ k, ∑ i, p2Full ic D.P2 i k * w i * w k = (if k.val < ic.toNat then 0 else p2Coef D.P2 w (k.val - ic.toNat)) * w k := by
    intro k
    rw [p2Coef_eq D.P2 hsym, Finset.sum_mul]
  simp only [e1]
  rw [sum_split]
  have h0 : (if h : 0 < ic.toNat then (if (⟨0, by omega⟩ : Fin (p + ic.toNat)).val < ic.toNat then (0 : ℝ)
      else p2Coef D.P2 w ((⟨0, by omega⟩ : Fin (p + ic.toNat)).val - ic.toNat)) * w ⟨0, by omega⟩ else 0) = 0 := by
    split
    · next h => simp [h]
    · rfl
  rw [h0, zero_add, Finset.sum_range]
  refine Finset.sum_congr rfl fun j _ => ?_
  rw [feat_eq, if_neg (by simp)]
  simp [mul_comm]

theorem muRange_open (f : Family) : IsOpen (muRange f) := by
  cases f with
  | normal => exact isOpen_univ
  | poisson => exact isOpen_Ioi
  | gamma => exact isOpen_Ioi
  | invGaussian => exact isOpen_Ioi
  | ghs => exact isOpen_univ
  | binomial => exact isOpen_Ioo
  | negBinomial theta => exact isOpen_Ioi
  | tweedie p =>
    by_cases h : p = 0
    · have : muRange (.tweedie p) = Set.univ := by ext; simp [muRange, h]
      rw [this]; exact isOpen_univ
    · have : muRange (.tweedie p) = Set.Ioi 0 := by ext; simp [muRange, h]
      rw [this]; exact isOpen_Ioi

/-- The derivative of the documented smooth objective along every direction, at every regular point. -/
theorem documentedObjective_hasDeriv (D : SmoothData n p ic) (hf : Valid D.family) (hy : ∀ r, D.y r ∈ ySupport D.family)
    (hsym : ∀ i j, p2Full (p := p) ic D.P2 i j = p2Full ic D.P2 j i) (w : Fin (p + ic.toNat) → ℝ) (hw : Regular D w)
    (d : Fin (p + ic.toNat) → ℝ) :
    HasDerivAt (fun t : ℝ => documentedObjective D fun k => w k + t * d k) (∑ k, (objAndDerivative D w).2 k * d k) 0 := by
  set o : Fin n → ℝ := D.offset.getD fun _ => 0 with ho
  have hl : ∀ (w : Fin (p + ic.toNat) → ℝ) r, safeLinPred ic D.X w D.offset r = linPred ic D.X o w r := by
    intro w r; rw [c12_lin_pred]
  have e0 : ∀ r, linPred ic D.X o (fun k => w k + 0 * d k) r = linPred ic D.X o w r := by intro r; simp
  have hinv : ∀ r, HasDerivAt (fun t : ℝ => D.link.inverse D.e50 (linPred ic D.X o (fun k => w k + t * d k) r))
      (D.link.inverseDerivative (linPred ic D.X o w r) * ∑ k, design ic D.X r k * d k) 0 := fun r =>
    HasDerivAt.comp (h₂ := D.link.inverse D.e50) (0 : ℝ)
      (by rw [e0]; exact c02_inverse_derivative D.e50 D.link _ (hw.range r) (hw.clip r)) (linPred_line_deriv D.X o w d r)
  have hrow : ∀ r, HasDerivAt (fun t : ℝ => D.sw r * D.family.unitDeviance (D.y r)
      (D.link.inverse D.e50 (linPred ic D.X o (fun k => w k + t * d k) r)))
      (D.sw r * (D.family.unitDevianceDerivative (D.y r) (D.link.inverse D.e50 (linPred ic D.X o w r))
        * (D.link.inverseDerivative (linPred ic D.X o w r) * ∑ k, design ic D.X r k * d k))) 0 := fun r =>
    (HasDerivAt.comp (h₂ := fun m => D.family.unitDeviance (D.y r) m) (0 : ℝ)
      (by rw [e0]; exact c05_deviance_derivative D.family hf _ _ (hy r) (hw.mu r)) (hinv r)).const_mul _
  -- a fictitious IRLS problem with the same X and P2, to reuse the derivative of the ridge term
  let D' : IRLSData n p ic :=
    { X := D.X, y := D.y, sw := D.sw, P1 := fun _ => 0, P2 := D.P2, fam := ⟨id, fun _ _ => 0, fun _ _ _ _ => 0, fun _ _ _ _ => 0,
        fun _ _ _ _ => 0⟩, maxIter := 0, maxInnerIter := 0, gradTol := 0, stepTol := none, hessApprox := 0, fixedInnerTol := none,
      random := false, offset := none, lb := none, ub := none, eps := 0, large := 0 }
  have hr := ridge_deriv D' hsym w d
  have hdoc : HasDerivAt (fun t : ℝ => documentedObjective D fun k => w k + t * d k)
      (1 / 2 * ∑ r, D.sw r * (D.family.unitDevianceDerivative (D.y r) (D.link.inverse D.e50 (linPred ic D.X o w r))
        * (D.link.inverseDerivative (linPred ic D.X o w r) * ∑ k, design ic D.X r k * d k))
        + ∑ k, (∑ i, p2Full ic D.P2 i k * w i) * d k) 0 :=
    ((HasDerivAt.fun_sum fun r (_ : r ∈ (Finset.univ : Finset (Fin n))) => hrow r).const_mul (1 / 2)).add hr
  refine hdoc.congr_deriv ?_
  simp only [objAndDerivative, muDevianceDerivative]
  have e1 : ∀ k : Fin (p + ic.toNat), (if k.val < ic.toNat then (0 : ℝ) else p2Coef D.P2 w (k.val - ic.toNat))
      = ∑ i, p2Full ic D.P2 i k * w i := p2Coef_eq D.P2 hsym w
  simp only [e1, add_mul, Finset.sum_add_distrib, hl]
  congr 1
  have e2 : ∀ (g : Fin n → ℝ) (k : Fin (p + ic.toNat)),
      (if k.val < ic.toNat then ∑ i, g i else ∑ i, g i * D.X i (k.val - ic.toNat)) = ∑ i, design ic D.X i k * g i := by
    intro g k
    have := scoreOf_eq D' g (fun _ => 0) k
    simpa [scoreOf, D'] using this
  simp only [e2]
  simp only [Finset.mul_sum, Finset.sum_mul]
  rw [Finset.sum_comm]
  refine Finset.sum_congr rfl fun k _ => Finset.sum_congr rfl fun r _ => ?_
  ring

/-- **C34, L-BFGS and trust-constr.** At every regular point, for every family and link: the first component of what the optimiser is
given is the documented smooth objective, and the second is its gradient (derivative along every direction `d` is `g·d`). -/
theorem c34_lbfgs_gradient (D : SmoothData n p ic) (he : ClipOK D.e50) (hf : Valid D.family)
    (hF2 : ∀ q, D.family = .tweedie q → q < 0 → ∀ i, 0 ≤ D.y i) (hy : ∀ r, D.y r ∈ ySupport D.family)
    (hsym : ∀ i j, p2Full (p := p) ic D.P2 i j = p2Full ic D.P2 j i) (w : Fin (p + ic.toNat) → ℝ) (hw : Regular D w)
    (d : Fin (p + ic.toNat) → ℝ) :
    (objAndDerivative D w).1 = documentedObjective D w ∧
    HasDerivAt (fun t : ℝ => (objAndDerivative D fun k => w k + t * d k).1) (∑ k, (objAndDerivative D w).2 k * d k) 0 := by
  refine ⟨objAndDerivative_value D hf hF2 hy hsym w hw.mu, ?_⟩
  refine (documentedObjective_hasDeriv D hf hy hsym w hw d).congr_of_eventuallyEq ?_
  set o : Fin n → ℝ := D.offset.getD fun _ => 0 with ho
  have e0 : ∀ r, linPred ic D.X o (fun k => w k + 0 * d k) r = linPred ic D.X o w r := by intro r; simp
  have hinv : ∀ r, HasDerivAt (fun t : ℝ => D.link.inverse D.e50 (linPred ic D.X o (fun k => w k + t * d k) r))
      (D.link.inverseDerivative (linPred ic D.X o w r) * ∑ k, design ic D.X r k * d k) 0 := fun r =>
    HasDerivAt.comp (h₂ := D.link.inverse D.e50) (0 : ℝ)
      (by rw [e0]; exact c02_inverse_derivative D.e50 D.link _ (hw.range r) (hw.clip r)) (linPred_line_deriv D.X o w d r)
  have hev : ∀ r, ∀ᶠ t : ℝ in nhds 0, D.link.inverse D.e50 (linPred ic D.X o (fun k => w k + t * d k) r) ∈ muRange D.family := by
    intro r
    refine (hinv r).continuousAt.eventually_mem ((muRange_open D.family).mem_nhds ?_)
    rw [e0]; exact hw.mu r
  filter_upwards [Filter.eventually_all.2 hev] with t ht
  exact objAndDerivative_value D hf hF2 hy hsym _ ht

/-! ### Non-vacuity -/

/-- A Poisson fit with log link, two rows, an intercept and one feature, bounds, L1 and L2 penalties (as `irlsEx`). -/
noncomputable def poisEx : IRLSData 2 1 true :=
  { irlsEx with fam := fastRow .poisson .log .poissonLog, y := fun r => if r = 0 then 0 else 3, sw := fun _ => 1 / 2 }

theorem poisEx_fastFit : FastFit poisEx .poisson .log .poissonLog where
  valid := trivial
  fast := rfl
  fam := rfl
  y := fun r => by
    show (0 : ℝ) ≤ if r = 0 then 0 else 3
    split <;> norm_num
  sw := fun r => by show (0 : ℝ) ≤ 1 / 2; norm_num

example (inner : Inner 2 1 true) (st : IRLSState 2 1 true) (coef0 : Fin (1 + true.toNat) → ℝ) (h : Visited inner poisEx coef0 st)
    (d : Fin (1 + true.toNat) → ℝ) :
    HasDerivAt (fun t : ℝ => smoothObj poisEx fun k => st.coef k + t * d k) (-∑ k, st.score k * d k) 0 :=
  c34_score_builtin inner poisEx _ _ _ poisEx_fastFit irlsEx_convexish.P1 irlsEx_convexish.symm coef0 st h d

/-- A gamma regression with identity link (no compiled path), one row, regular at `w = 2`. -/
noncomputable def smoothEx : SmoothData 1 1 false where
  X := fun _ _ => 1
  y := fun _ => 3
  sw := fun _ => 1
  P2 := .vec fun _ => 1
  family := .gamma
  link := .identity
  offset := none
  e50 := 1 / 100

example : Regular smoothEx (fun _ => 2) where
  range := fun _ => trivial
  clip := fun _ => trivial
  mu := fun r => by
    show (0 : ℝ) < linPred (p := 1) false smoothEx.X _ (fun _ => 2) r
    unfold linPred
    have : (1 + false.toNat) = 1 := rfl
    simp only [design, smoothEx]
    simp

end Glum
