import Verif.Model.Families
import Verif.Model.Solve
import Verif.Model.Inference
import Verif.Model.Predict
import Verif.Spec.Distribution
/-
C97: a family and its Tweedie representation behave alike.  C98: which responses a fit accepts, and when two family or link objects are equal.
-/
set_option linter.unusedSectionVars false
set_option linter.unusedVariables false
set_option linter.unusedSimpArgs false
namespace Glum

open Spec

variable {n p : ℕ} {ic : Bool}

/-! ### What is meant -/

namespace Spec

/-- The power of the Tweedie distribution that a family is (documentation of `TweedieDistribution`): variance `mu ^ power`. -/
def PowerOf (f : Family) (q : ℝ) : Prop :=
  f = .tweedie q ∨ (f = .normal ∧ q = 0) ∨ (f = .poisson ∧ q = 1) ∨ (f = .gamma ∧ q = 2) ∨ (f = .invGaussian ∧ q = 3)

/-- The two families are the same function of the data, wherever the package evaluates one. -/
structure SameFamily (f g : Family) : Prop where
  variance : ∀ mu, f.unitVariance mu = g.unitVariance mu
  varianceDerivative : ∀ mu, mu ≠ 0 → f.unitVarianceDerivative mu = g.unitVarianceDerivative mu
  unitDeviance : ∀ y mu, f.unitDeviance y mu = g.unitDeviance y mu
  deviance : ∀ (n : ℕ) (y mu w : Fin n → ℝ), f.deviance y mu w = g.deviance y mu w
  logLik : ∀ (norm : ℝ → ℝ → ℝ → ℝ) (n : ℕ) (y mu w : Fin n → ℝ) (disp : ℝ), f.logLik norm y mu w disp = g.logLik norm y mu w disp
  dispersion : ∀ (n : ℕ) (y mu : Fin n → ℝ) w ddof m, f.dispersion y mu w ddof m = g.dispersion y mu w ddof m
  support : ∀ x, f.inYRange x ↔ g.inYRange x
  rows : ∀ e l, rowFam e f l = rowFam e g l
  start : ∀ (l : Link) (n : ℕ) (y w : Fin n → ℝ) eta, guessIntercept f l y w eta = guessIntercept g l y w eta

/-- A number that compares equal to itself. -/
def NotNan : PyNum → Prop
  | .nan => False
  | _ => True

def familyParam : FamilyObj → Option PyNum
  | .negBinomial t => some t
  | .tweedie q => some q
  | _ => none

def linkParam : LinkObj → Option PyNum
  | .tweedie q => some q
  | _ => none

end Spec

/-! ### C97 -/

theorem toTweedie_iff (f g : Family) : f.toTweedie = some g ↔ ∃ q, PowerOf f q ∧ g = .tweedie q := by
  cases f <;> simp [Family.toTweedie, PowerOf] <;> exact eq_comm

theorem variance_tweedie (f : Family) (q : ℝ) (h : PowerOf f q) (mu : ℝ) : f.unitVariance mu = Family.unitVariance (.tweedie q) mu := by
  rcases h with rfl | ⟨rfl, rfl⟩ | ⟨rfl, rfl⟩ | ⟨rfl, rfl⟩ | ⟨rfl, rfl⟩
  · rfl
  · simp [Family.unitVariance]
  · simp [Family.unitVariance]
  · show mu ^ 2 = mu ^ (2 : ℝ)
    norm_cast
  · show mu ^ 3 = mu ^ (3 : ℝ)
    norm_cast

theorem varianceDerivative_tweedie (f : Family) (q : ℝ) (h : PowerOf f q) (mu : ℝ) :
    f.unitVarianceDerivative mu = Family.unitVarianceDerivative (.tweedie q) mu := by
  rcases h with rfl | ⟨rfl, rfl⟩ | ⟨rfl, rfl⟩ | ⟨rfl, rfl⟩ | ⟨rfl, rfl⟩
  · rfl
  · simp [Family.unitVarianceDerivative]
  · simp [Family.unitVarianceDerivative]
  · show 2 * mu = 2 * mu ^ ((2 : ℝ) - 1)
    norm_num
  · show 3 * mu ^ 2 = 3 * mu ^ ((3 : ℝ) - 1)
    norm_num

theorem unitDeviance_tweedie (f : Family) (q : ℝ) (h : PowerOf f q) (y mu : ℝ) :
    f.unitDeviance y mu = Family.unitDeviance (.tweedie q) y mu := by
  rcases h with rfl | ⟨rfl, rfl⟩ | ⟨rfl, rfl⟩ | ⟨rfl, rfl⟩ | ⟨rfl, rfl⟩
  · rfl
  all_goals norm_num [Family.unitDeviance]

theorem deviance_tweedie (f : Family) (q : ℝ) (h : PowerOf f q) (y mu w : Fin n → ℝ) :
    f.deviance y mu w = Family.deviance (.tweedie q) y mu w := by
  rcases h with rfl | ⟨rfl, rfl⟩ | ⟨rfl, rfl⟩ | ⟨rfl, rfl⟩ | ⟨rfl, rfl⟩
  · rfl
  all_goals norm_num [Family.deviance]

theorem logLik_tweedie (norm : ℝ → ℝ → ℝ → ℝ) (f : Family) (q : ℝ) (h : PowerOf f q) (y mu w : Fin n → ℝ) (d : ℝ) :
    f.logLik norm y mu w d = Family.logLik norm (.tweedie q) y mu w d := by
  rcases h with rfl | ⟨rfl, rfl⟩ | ⟨rfl, rfl⟩ | ⟨rfl, rfl⟩ | ⟨rfl, rfl⟩
  · rfl
  all_goals norm_num [Family.logLik]

theorem fast_tweedie (f : Family) (q : ℝ) (h : PowerOf f q) (l : Link) : f.fast l = Family.fast (.tweedie q) l := by
  rcases h with rfl | ⟨rfl, rfl⟩ | ⟨rfl, rfl⟩ | ⟨rfl, rfl⟩ | ⟨rfl, rfl⟩
  · rfl
  all_goals cases l <;> norm_num [Family.fast]

theorem oneOverVariance_tweedie (f : Family) (q : ℝ) (h : PowerOf f q) (l : Link) (mu eta d w : ℝ) :
    oneOverVariance f l mu eta d w = oneOverVariance (.tweedie q) l mu eta d w := by
  have h1 : oneOverVariance f l mu eta d w = 1 / (f.unitVariance mu * d / w) := by
    rcases h with rfl | ⟨rfl, rfl⟩ | ⟨rfl, rfl⟩ | ⟨rfl, rfl⟩ | ⟨rfl, rfl⟩ <;> cases l <;> rfl
  have h2 : oneOverVariance (.tweedie q) l mu eta d w = 1 / (Family.unitVariance (.tweedie q) mu * d / w) := by cases l <;> rfl
  rw [h1, h2, variance_tweedie f q h]

theorem rowFam_tweedie (e : ℝ) (f : Family) (q : ℝ) (h : PowerOf f q) (l : Link) : rowFam e f l = rowFam e (.tweedie q) l := by
  have hg : genericGrad f l = genericGrad (.tweedie q) l := by
    funext y w eta mu
    unfold genericGrad
    rw [oneOverVariance_tweedie f q h]
  have hh : genericHess f l = genericHess (.tweedie q) l := by
    funext w eta mu
    unfold genericHess
    rw [oneOverVariance_tweedie f q h]
  have hd : (fun y eta => f.unitDeviance y (l.inverse e eta)) = fun y eta => Family.unitDeviance (.tweedie q) y (l.inverse e eta) := by
    funext y eta
    exact unitDeviance_tweedie f q h _ _
  unfold rowFam
  rw [fast_tweedie f q h]
  cases Family.fast (.tweedie q) l with
  | none => simp only [genericRow, hg, hh, hd]
  | some k => simp only [fastRow, hg]

theorem guess_tweedie (f : Family) (q : ℝ) (h : PowerOf f q) (l : Link) (y w : Fin n → ℝ) (eta : EtaArg n) :
    guessIntercept f l y w eta = guessIntercept (.tweedie q) l y w eta := by
  have hp : guessPower f = guessPower (.tweedie q) := by
    rcases h with rfl | ⟨rfl, rfl⟩ | ⟨rfl, rfl⟩ | ⟨rfl, rfl⟩ | ⟨rfl, rfl⟩ <;> rfl
  unfold guessIntercept
  rw [hp]

theorem range_tweedie (f : Family) (q : ℝ) (h : PowerOf f q) (x : ℝ) : f.inYRange x ↔ Family.inYRange (.tweedie q) x := by
  rcases h with rfl | ⟨rfl, rfl⟩ | ⟨rfl, rfl⟩ | ⟨rfl, rfl⟩ | ⟨rfl, rfl⟩
  · rfl
  all_goals norm_num [Family.inYRange, Family.lowerBound, Family.upperBound, Family.includeLowerBound, Family.includeUpperBound]

theorem dispersion_tweedie (f : Family) (q : ℝ) (h : PowerOf f q) (y mu : Fin n → ℝ) (w : Option (Fin n → ℝ)) (ddof : ℝ)
    (m : DispersionMethod) : f.dispersion y mu w ddof m = Family.dispersion (.tweedie q) y mu w ddof m := by
  cases m <;> simp only [Family.dispersion, Family.pearsonDispersion, variance_tweedie f q h, deviance_tweedie f q h]

/-- C97: `to_tweedie` returns exactly the Tweedie distribution the documentation names, and that is the same family: the same variance
function, deviance, likelihood, dispersion, accepted responses, start value, and the same rows (gradient, Hessian, line-search objective,
compiled routine or not) for every link. -/
theorem c97_family (f g : Family) (h : f.toTweedie = some g) : (∃ q, PowerOf f q ∧ g = .tweedie q) ∧ SameFamily f g := by
  obtain ⟨q, hq, rfl⟩ := (toTweedie_iff f g).mp h
  exact ⟨⟨q, hq, rfl⟩, ⟨variance_tweedie f q hq, fun mu _ => varianceDerivative_tweedie f q hq mu, unitDeviance_tweedie f q hq,
    fun n y mu w => deviance_tweedie f q hq y mu w, fun norm n y mu w d => logLik_tweedie norm f q hq y mu w d,
    fun n y mu w dd m => dispersion_tweedie f q hq y mu w dd m, range_tweedie f q hq, fun e l => rowFam_tweedie e f q hq l,
    fun l n y w eta => guess_tweedie f q hq l y w eta⟩⟩

/-- Families without a Tweedie representation: exactly binomial, negative binomial and generalised hyperbolic secant. -/
theorem c97_none (f : Family) : f.toTweedie = none ↔ f = .ghs ∨ f = .binomial ∨ ∃ t, f = .negBinomial t := by
  cases f <;> simp [Family.toTweedie]

theorem smooth_tweedie (f g : Family) (h : SameFamily f g) (D : SmoothData n p ic) (coef : Fin (p + ic.toNat) → ℝ) :
    objAndDerivative ({ D with family := f } : SmoothData n p ic) coef = objAndDerivative ({ D with family := g } : SmoothData n p ic) coef := by
  have hd : ∀ y mu, f.unitDevianceDerivative y mu = g.unitDevianceDerivative y mu := fun y mu => by
    unfold Family.unitDevianceDerivative
    rw [h.variance]
  unfold objAndDerivative muDevianceDerivative
  simp only [hd, h.deviance]

/-- What `solver='lbfgs'` and `solver='trust-constr'` hand to scipy is the same function. -/
theorem c97_objective (f g : Family) (h : f.toTweedie = some g) (D : SmoothData n p ic) :
    objAndDerivative ({ D with family := f } : SmoothData n p ic) = objAndDerivative ({ D with family := g } : SmoothData n p ic) :=
  funext fun coef => smooth_tweedie f g (c97_family f g h).2 D coef

theorem alphaPath_tweedie (f g : Family) (h : SameFamily f g) (D : SmoothData n p ic) (P1 : ℕ → ℝ) (k : ℕ) (m r : Option ℝ) :
    alphaPath ({ D with family := f } : SmoothData n p ic) P1 k m r = alphaPath ({ D with family := g } : SmoothData n p ic) P1 k m r := by
  have hd : ∀ y mu, f.unitDevianceDerivative y mu = g.unitDevianceDerivative y mu := fun y mu => by
    unfold Family.unitDevianceDerivative
    rw [h.variance]
  have hc : pathCoef ({ D with family := f } : SmoothData n p ic) = pathCoef ({ D with family := g } : SmoothData n p ic) := by
    unfold pathCoef
    simp only [h.start]
  have hg : featureGradient ({ D with family := f } : SmoothData n p ic) = featureGradient ({ D with family := g } : SmoothData n p ic) := by
    funext coef j
    unfold featureGradient muDevianceDerivative
    simp only [hd]
  unfold alphaPath alphaMax rawAlphaMax
  simp only [hc, hg]

/-- The same fit, for every solver, start, alpha path, constraint and penalty. -/
theorem c97_fit {σ : Type} (f g : Family) (h : f.toTweedie = some g) (C : FitCfg p ic) (stats : Stats) (solver : SolverFn σ p ic)
    (R : Rows n) (l1 : ℝ) (a : AlphaSpec) (s : σ) :
    glmFit { C with family := f } stats solver R l1 a s = glmFit { C with family := g } stats solver R l1 a s := by
  have hs := (c97_family f g h).2
  have hp : prepare { C with family := f } stats R l1 = prepare { C with family := g } stats R l1 := by
    have hg : startGuess { C with family := f } R = startGuess { C with family := g } R := by
      cases ic
      · rfl
      · unfold startGuess
        cases C.start with
        | cold => exact hs.start _ _ _ _ _
        | _ => rfl
    unfold prepare FitCfg.problem
    simp only [hs.rows, hg]
  have he : ∀ Q : Prepared n p ic, a.eval { C with family := f } Q = a.eval { C with family := g } Q := by
    intro Q
    cases a with
    | single a => rfl
    | given l => rfl
    | search k m r => exact alphaPath_tweedie f g hs { X := Q.D.X, y := Q.D.y, sw := Q.D.sw, P2 := Q.D.P2, family := f, link := C.link, offset := Q.D.offset, e50 := C.e50 } Q.D.P1 k m r
  unfold glmFit
  simp only [hp, he]
  rfl

/-- The same fit by the IRLS solvers as `fit` calls them — unless the family is `NormalDistribution` itself with the identity link, which is
given one iteration at a fixed tolerance. -/
theorem c97_irls {σ : Type} (f g : Family) (h : f.toTweedie = some g) (C : FitCfg p ic) (hn : f = .normal → C.link ≠ .identity) (sv : Solver)
    (stats : Stats) (solver : SolverFn σ p ic) (R : Rows n) (l1 : ℝ) (a : AlphaSpec) (s : σ) :
    glmFit (FitCfg.forSolver { C with family := f } sv) stats solver R l1 a s =
      glmFit (FitCfg.forSolver { C with family := g } sv) stats solver R l1 a s := by
  have h1 : oneIteration f C.link sv = false := by
    cases f <;> cases hl : C.link <;> cases sv <;> first | rfl | exact absurd hl (hn rfl)
  have h2 : oneIteration g C.link sv = false := by
    obtain ⟨q, _, rfl⟩ := (toTweedie_iff f g).mp h
    cases C.link <;> cases sv <;> rfl
  have e1 : FitCfg.forSolver { C with family := f } sv = { { C with fixedInnerTol := none } with family := f } := by
    unfold FitCfg.forSolver
    simp only [h1]
    rfl
  have e2 : FitCfg.forSolver { C with family := g } sv = { { C with fixedInnerTol := none } with family := g } := by
    unfold FitCfg.forSolver
    simp only [h2]
    rfl
  rw [e1, e2]
  exact c97_fit f g h _ stats solver R l1 a s

/-- The same inference: covariance matrices of every kind (with the observed information where no fitted mean is 0: there the code divides by
it) … -/
theorem c97_covariance (f g : Family) (h : f.toTweedie = some g) (D : CovData n p ic) (o : CovOptions n) (condOK : Bool)
    (hmu : o.expected = false → ∀ i, D.mu i ≠ 0) :
    covariance ({ D with f := f } : CovData n p ic) o condOK = covariance ({ D with f := g } : CovData n p ic) o condOK := by
  obtain ⟨q, hq, rfl⟩ := (toTweedie_iff f g).mp h
  have hs := (c97_family f _ h).2
  have hd : CovData.disp ({ D with f := f } : CovData n p ic) o = CovData.disp ({ D with f := .tweedie q } : CovData n p ic) o := by
    unfold CovData.disp dispersionPearson
    simp only [hs.variance]
  have hF : ∀ d, (fun i => fisherW f D.l d (D.mu i) (D.w i)) = fun i => fisherW (.tweedie q) D.l d (D.mu i) (D.w i) := fun d => by
    funext i
    unfold fisherW
    rw [oneOverVariance_tweedie f q hq]
  have hG : CovData.gradient ({ D with f := f } : CovData n p ic) o = CovData.gradient ({ D with f := .tweedie q } : CovData n p ic) o := by
    unfold CovData.gradient scoreW
    simp only [hd, oneOverVariance_tweedie f q hq]
  have hO : CovData.oim ({ D with f := f } : CovData n p ic) o = CovData.oim ({ D with f := .tweedie q } : CovData n p ic) o := by
    unfold CovData.oim
    cases he : o.expected with
    | true =>
      simp only [hd, hF]
      rfl
    | false =>
      have hob : ∀ d, (fun i => observedW f D.l d (D.y i) (D.mu i) (D.w i)) = fun i => observedW (.tweedie q) D.l d (D.y i) (D.mu i) (D.w i) := by
        intro d
        funext i
        unfold observedW
        simp only [oneOverVariance_tweedie f q hq, hs.variance, hs.varianceDerivative _ (hmu he i)]
      simp only [hd, hob]
      rfl
  unfold covariance
  simp only [hO, hG, hd, hF]

/-- … and the same score. -/
theorem c97_score (f g : Family) (h : f.toTweedie = some g) (y mu : Fin n → ℝ) (sw : WeightArg) :
    scoreD2 f y mu sw = scoreD2 g y mu sw := by
  have hs := (c97_family f g h).2
  unfold scoreD2
  simp only [hs.deviance]

open Classical in
/-- The exception: with `solver='closed-form'` the normal family with identity link is fitted and `TweedieDistribution(0)` is refused, and
with the automatic choice they are fitted by different solvers. -/
theorem c97_normal_counterexample : ∃ c : Config,
    (∀ f, (Config.forFamily c f .identity).run [] = if f = .normal then some .closedForm else none) ∧
    (∀ f, (Config.forFamily { c with solver := .auto } f .identity).run [] = if f = .normal then some .closedForm else some .irlsLs) := by
  refine ⟨{ cv := false, solver := .closedForm, normalIdentity := true, alphaSearch := false, alpha := .scalar 1, l1Ratios := [0], p1Nonzero := true, lb := false, ub := false, A := false, b := false, mono := false, formula := false, fitIntercept := true, scalePredictors := false }, ?_, ?_⟩ <;>
    intro f <;> cases f <;>
    simp [Config.forFamily, isNormalIdentity, Config.run, Config.valid, Config.choose, Config.noL1Ratio, Config.hasL1, Config.alphasUsed]

/-- The exception is confined to that pair: for every other family or link the configuration, and so which solver runs and what is refused, is
the same for the family and its Tweedie representation; and the closed form runs for no other pair. -/
theorem c97_solver (f g : Family) (h : f.toTweedie = some g) (c : Config) (l : Link) (path : List ℝ) :
    ((f = .normal → l ≠ .identity) → (Config.forFamily c f l).run path = (Config.forFamily c g l).run path) ∧
    ((Config.forFamily c f l).run path = some .closedForm → f = .normal ∧ l = .identity) := by
  have hg : isNormalIdentity g l = false := by
    obtain ⟨q, -, rfl⟩ := (toTweedie_iff f g).mp h
    rfl
  constructor
  · intro hn
    have hf : isNormalIdentity f l = false := by
      cases f <;> cases l <;> first | rfl | exact absurd rfl (hn rfl)
    unfold Config.forFamily
    rw [hf, hg]
  · intro hr
    have hni : isNormalIdentity f l = true := by
      by_contra hn
      unfold Config.run at hr
      split at hr
      · cases hr
      · split at hr
        · cases hr
        · next s hs =>
          split at hr
          · cases hr
          · split at hr
            · cases hr
            · next hc =>
              split at hr
              · cases hr
              · have e : s = .closedForm := by simpa using hr
                exact hc ⟨e, Or.inl (by simpa [Config.forFamily] using hn)⟩
    cases f <;> cases l <;> first | exact ⟨rfl, rfl⟩ | exact absurd hni (by simp [isNormalIdentity])

/-- Links: `to_tweedie` of a link is the same function with the same derivatives and inverse. -/
theorem c97_link (l m : Link) (h : l.toTweedie = some m) :
    (∀ mu, l.link mu = m.link mu) ∧ (∀ mu, l.derivative mu = m.derivative mu) ∧ (∀ e eta, l.inverse e eta = m.inverse e eta) ∧
    (∀ eta, l.inverseDerivative eta = m.inverseDerivative eta) ∧ (∀ eta, l.inverseDerivative2 eta = m.inverseDerivative2 eta) := by
  cases l <;> simp only [Link.toTweedie, Option.some.injEq, reduceCtorEq] at h <;> subst h <;>
    simp [Link.link, Link.derivative, Link.inverse, Link.inverseDerivative, Link.inverseDerivative2]

/-- But a fit with `TweedieLink(0)` or `TweedieLink(1)` is not the fit with the identity or log link: a response without variation is
refused with the former, and with an offset the intercept starts elsewhere. -/
theorem c97_link_counterexample :
    (∀ f, guessIntercept f .identity (fun _ : Fin 2 => 1) (fun _ => 1 / 2) .none = some 1 ∧
      guessIntercept f (.tweedie 0) (fun _ : Fin 2 => 1) (fun _ => 1 / 2) .none = none) ∧
    (∃ y : Fin 2 → ℝ, guessIntercept .poisson .log y (fun _ => 1 / 2) (.scalar 1) = some (Real.log 2 - 1) ∧
      guessIntercept .poisson (.tweedie 1) y (fun _ => 1 / 2) (.scalar 1) = some (Real.log 2)) := by
  constructor
  · intro f
    constructor
    · unfold guessIntercept
      rw [if_neg (by simp)]
      norm_num [average]
    · unfold guessIntercept
      rw [if_pos ⟨by simp, 1, fun _ => rfl⟩]
  · refine ⟨![1, 3], ?_, ?_⟩
    · have hv : ¬ ((Link.log ≠ .identity) ∧ ∃ c, ∀ i, (![1, 3] : Fin 2 → ℝ) i = c) := by
        rintro ⟨_, c, hc⟩
        have h0 := hc 0
        have h1 := hc 1
        simp at h0 h1
        linarith
      unfold guessIntercept
      rw [if_neg hv]
      have ha : average (![1, 3] : Fin 2 → ℝ) (fun _ => 1 / 2) = 2 := by norm_num [average, Fin.sum_univ_two]
      have hs : ∑ i, (![1, 3] : Fin 2 → ℝ) i * (1 / 2) = 2 := by norm_num [Fin.sum_univ_two]
      have hw : ∑ _i : Fin 2, (1 / 2 : ℝ) = 1 := by norm_num [Fin.sum_univ_two]
      have he : (0 : ℝ) < Real.exp 1 := Real.exp_pos 1
      simp only [ha, hs, hw, guessPower, safeLog]
      norm_num [he]
    · have hv : ¬ ((Link.tweedie 1 ≠ .identity) ∧ ∃ c, ∀ i, (![1, 3] : Fin 2 → ℝ) i = c) := by
        rintro ⟨_, c, hc⟩
        have h0 := hc 0
        have h1 := hc 1
        simp at h0 h1
        linarith
      unfold guessIntercept
      rw [if_neg hv]
      norm_num [Link.link, Fin.sum_univ_two]

/-- The hypotheses are met: the four named families. -/
example : Family.toTweedie .poisson = some (.tweedie 1) ∧ SameFamily .gamma (.tweedie 2) :=
  ⟨rfl, (c97_family .gamma _ rfl).2⟩

/-! ### C98 -/

/-- C98: `in_y_range` accepts exactly the documented support. -/
theorem c98_range (f : Family) (hf : Valid f) (x : ℝ) : f.inYRange x ↔ x ∈ ySupport f := by
  cases f with
  | tweedie q =>
    simp only [Family.inYRange, Family.lowerBound, Family.upperBound, Family.includeLowerBound, Family.includeUpperBound, ySupport,
      Set.mem_setOf_eq]
    by_cases h0 : q ≤ 0
    · simp [h0, EReal.bot_lt_coe, EReal.coe_lt_top]
    · have h1 : 1 ≤ q := hf.resolve_left h0
      by_cases h2 : q < 2
      · simp only [h0, h1, h2, and_self, if_true, if_false, EReal.coe_lt_top, and_true, false_or, true_and, Bool.false_eq_true]
        constructor
        · intro h
          exact Or.inl (by exact_mod_cast h)
        · rintro (h | h)
          · exact_mod_cast h
          · exact_mod_cast h.le
      · simp only [h0, h2, and_false, if_false, EReal.coe_lt_top, and_true, false_or, false_and, Bool.false_eq_true]
        exact_mod_cast Iff.rfl
  | binomial =>
    simp only [Family.inYRange, Family.lowerBound, Family.upperBound, Family.includeLowerBound, Family.includeUpperBound, ySupport, if_true,
      Set.mem_Icc]
    exact_mod_cast Iff.rfl
  | _ =>
    simp only [Family.inYRange, Family.lowerBound, Family.upperBound, Family.includeLowerBound, Family.includeUpperBound, ySupport, if_true,
      if_false, Set.mem_Ici, Set.mem_Ioi, Set.mem_univ, EReal.coe_lt_top, EReal.bot_lt_coe, and_true, Bool.false_eq_true]
    try exact_mod_cast Iff.rfl

/-- A fit with `check_input` gets past the check exactly if every response is in the support; without it, always. -/
theorem c98_accept (f : Family) (hf : Valid f) (y : Fin n → ℝ) :
    (yAccepted true f y ↔ ∀ i, y i ∈ ySupport f) ∧ yAccepted false f y := by
  constructor
  · simp [yAccepted, c98_range f hf]
  · intro h
    exact absurd h (by simp)

theorem pyeq_iff (a b : PyNum) : a.eq b ↔ a = b ∧ NotNan a := by
  cases a <;> cases b <;> simp [PyNum.eq, NotNan]

/-- Two family objects are equal exactly if they are of the same class with the same parameter (which is not NaN). -/
theorem c98_family_eq (f g : FamilyObj) : f.eq g ↔ f = g ∧ ∀ q, familyParam f = some q → NotNan q := by
  cases f <;> cases g <;> simp [FamilyObj.eq, pyeq_iff, familyParam]

theorem c98_link_eq (l m : LinkObj) : l.eq m ↔ l = m ∧ ∀ q, linkParam l = some q → NotNan q := by
  cases l <;> cases m <;> simp [LinkObj.eq, pyeq_iff, linkParam]

/-- `==` of families is symmetric and transitive, and equal objects are the same family in every model of this project. -/
theorem c98_equivalence (f g k : FamilyObj) :
    (f.eq g → g.eq f) ∧ (f.eq g → g.eq k → f.eq k) ∧ (f.eq g → f.toFamily = g.toFamily) ∧
    (∀ F, f.toFamily = some F → f.eq f) := by
  simp only [c98_family_eq]
  refine ⟨?_, ?_, ?_, ?_⟩
  · rintro ⟨rfl, h⟩
    exact ⟨rfl, h⟩
  · rintro ⟨rfl, h⟩ ⟨rfl, _⟩
    exact ⟨rfl, h⟩
  · rintro ⟨rfl, _⟩
    rfl
  · intro F hF
    refine ⟨trivial, fun q hq => ?_⟩
    cases f with
    | negBinomial t =>
      simp only [familyParam, Option.some.injEq] at hq
      subst hq
      cases t <;> simp_all [FamilyObj.toFamily, NotNan]
    | tweedie t =>
      simp only [familyParam, Option.some.injEq] at hq
      subst hq
      cases t <;> simp_all [FamilyObj.toFamily, NotNan]
    | _ => simp [familyParam] at hq

/-- Not reflexive: the constructor takes a NaN power.  And not what `to_tweedie` calls the same: the normal family and
`TweedieDistribution(0)` are not equal, although they are the same family (C97). -/
theorem c98_eq_counterexample :
    (∃ f, mkTweedieObj .nan = some f ∧ ¬ f.eq f) ∧
    (¬ FamilyObj.eq .normal (.tweedie (.fin 0)) ∧ SameFamily .normal (.tweedie 0)) := by
  refine ⟨⟨.tweedie .nan, by simp [mkTweedieObj, powerOk], by simp [FamilyObj.eq, PyNum.eq]⟩, by simp [FamilyObj.eq], (c97_family .normal _ rfl).2⟩

/-- The hypotheses are met: the compound Poisson family takes a zero, the gamma family does not. -/
example : Family.inYRange (.tweedie (3 / 2)) 0 ∧ ¬ Family.inYRange .gamma 0 := by
  rw [c98_range _ (by right; norm_num), c98_range _ (by trivial)]
  constructor
  · right
    left
    norm_num
  · simp [ySupport]

end Glum
