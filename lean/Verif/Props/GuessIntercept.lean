import Verif.Model.GuessIntercept
import Verif.Props.FastPath
/-
C63: the initial intercept.
-/
set_option linter.unusedSectionVars false
set_option linter.unusedVariables false

namespace Glum
open Spec

variable {n : ℕ}

/-- The offset denoted by the `eta` argument. -/
def EtaArg.vec : EtaArg n → Fin n → ℝ
  | .none => fun _ => 0
  | .scalar c => fun _ => c
  | .array e => e

/-- The deviance of the intercept-only model with offset `eta`: `Σ w · d(y, h(eta + b))`. -/
noncomputable def interceptDeviance (f : Family) (h : ℝ → ℝ) (y w eta : Fin n → ℝ) (b : ℝ) : ℝ :=
  ∑ i, w i * f.unitDeviance (y i) (h (eta i + b))

/-- The Tweedie-type families and their variance power. -/
def variancePower : Family → Option ℝ
  | .normal => some 0
  | .poisson => some 1
  | .gamma => some 2
  | .invGaussian => some 3
  | .tweedie p => some p
  | _ => none

/-- A global strict minimum from the sign of the derivative. -/
theorem strict_min_of_deriv (g g' : ℝ → ℝ) (b0 : ℝ) (hd : ∀ b, HasDerivAt g (g' b) b) (hpos : ∀ b, b0 < b → 0 < g' b)
    (hneg : ∀ b, b < b0 → g' b < 0) (b : ℝ) (hb : b ≠ b0) : g b0 < g b :=
  lt_of_deriv_sign Set.ordConnected_univ g g' trivial trivial (fun m _ => hd m) (fun m _ h => hpos m h) (fun m _ h => hneg m h) hb.symm

theorem interceptDeviance_hasDeriv (f : Family) (hf : Valid f) (h h' : ℝ → ℝ) (hh : ∀ x, HasDerivAt h (h' x) x)
    (y w eta : Fin n → ℝ) (hy : ∀ i, y i ∈ ySupport f) (b : ℝ) (hmu : ∀ i, h (eta i + b) ∈ muRange f) :
    HasDerivAt (interceptDeviance f h y w eta)
      (∑ i, w i * (f.unitDevianceDerivative (y i) (h (eta i + b)) * h' (eta i + b))) b := by
  refine HasDerivAt.fun_sum fun i _ => ?_
  have h1 : HasDerivAt (fun b => h (eta i + b)) (h' (eta i + b)) b := by
    have := (hh (eta i + b)).comp b ((hasDerivAt_id b).const_add (eta i))
    simpa [Function.comp_def] using this
  exact (HasDerivAt.comp (h₂ := fun m => f.unitDeviance (y i) m) b (c05_deviance_derivative f hf _ _ (hy i) (hmu i)) h1).const_mul _

theorem safeLog_some {x v : ℝ} (h : safeLog x = some v) : 0 < x ∧ v = Real.log x := by
  unfold safeLog at h
  split at h
  · next hx => exact ⟨hx, (Option.some.inj h).symm⟩
  · cases h

/-- The exact minimiser for variance power `q` and log link. -/
theorem log_minimiser (f : Family) (hf : Valid f) (q : ℝ) (hq : variancePower f = some q) (y w e : Fin n → ℝ)
    (hy : ∀ i, y i ∈ ySupport f) (A B : ℝ) (hA : A = ∑ i, y i * Real.exp (e i) ^ (1 - q) * w i)
    (hB : B = ∑ i, Real.exp (e i) ^ (2 - q) * w i) (hA0 : 0 < A) (hB0 : 0 < B) (b : ℝ) (hb : b ≠ Real.log A - Real.log B) :
    interceptDeviance f Real.exp y w e (Real.log A - Real.log B) < interceptDeviance f Real.exp y w e b := by
  have hmu : ∀ x : ℝ, Real.exp x ∈ muRange f := by
    intro x
    cases f with
    | normal => trivial
    | poisson => exact Real.exp_pos x
    | gamma => exact Real.exp_pos x
    | invGaussian => exact Real.exp_pos x
    | tweedie p => exact Or.inr (Real.exp_pos x)
    | ghs => cases hq
    | binomial => cases hq
    | negBinomial t => cases hq
  have hv : ∀ x : ℝ, f.unitVariance (Real.exp x) = Real.exp x ^ q := by
    intro x
    cases f with
    | normal => obtain rfl := Option.some.inj hq; simp [Family.unitVariance]
    | poisson => obtain rfl := Option.some.inj hq; simp [Family.unitVariance]
    | gamma => obtain rfl := Option.some.inj hq; simp [Family.unitVariance]
    | invGaussian => obtain rfl := Option.some.inj hq; simp only [Family.unitVariance]; norm_cast
    | tweedie p => obtain rfl := Option.some.inj hq; simp [Family.unitVariance]
    | ghs => cases hq
    | binomial => cases hq
    | negBinomial t => cases hq
  have hder : ∀ b, HasDerivAt (interceptDeviance f Real.exp y w e) (2 * Real.exp b ^ (1 - q) * (Real.exp b * B - A)) b := by
    intro b
    refine (interceptDeviance_hasDeriv f hf Real.exp Real.exp Real.hasDerivAt_exp y w e hy b (fun i => hmu _)).congr_deriv ?_
    rw [hA, hB, Finset.mul_sum, ← Finset.sum_sub_distrib, Finset.mul_sum]
    refine Finset.sum_congr rfl fun i _ => ?_
    rw [Family.unitDevianceDerivative, hv]
    have hE := Real.exp_pos (e i)
    have hb := Real.exp_pos b
    have e1 : Real.exp (e i + b) ^ q = Real.exp (e i) ^ q * Real.exp b ^ q := by
      rw [Real.exp_add, Real.mul_rpow hE.le hb.le]
    have e2 : ∀ x : ℝ, 0 < x → x ^ (1 - q) = x / x ^ q := fun x hx => by rw [Real.rpow_sub hx, Real.rpow_one]
    have e3 : ∀ x : ℝ, 0 < x → x ^ (2 - q) = x ^ 2 / x ^ q := fun x hx => by
      rw [Real.rpow_sub hx, Real.rpow_two]
    rw [e1, e2 _ hE, e3 _ hE, e2 _ hb, Real.exp_add]
    have p1 : Real.exp (e i) ^ q ≠ 0 := (Real.rpow_pos_of_pos hE q).ne'
    have p2 : Real.exp b ^ q ≠ 0 := (Real.rpow_pos_of_pos hb q).ne'
    field_simp
    ring
  have hb0 : Real.exp (Real.log A - Real.log B) * B = A := by
    rw [Real.exp_sub, Real.exp_log hA0, Real.exp_log hB0]; field_simp
  refine strict_min_of_deriv _ _ _ hder (fun b hb => ?_) (fun b hb => ?_) b hb
  · have : A < Real.exp b * B := by rw [← hb0]; exact mul_lt_mul_of_pos_right (Real.exp_lt_exp.2 hb) hB0
    have h1 := Real.rpow_pos_of_pos (Real.exp_pos b) (1 - q)
    exact mul_pos (by positivity) (by linarith)
  · have : Real.exp b * B < A := by rw [← hb0]; exact mul_lt_mul_of_pos_right (Real.exp_lt_exp.2 hb) hB0
    have h1 := Real.rpow_pos_of_pos (Real.exp_pos b) (1 - q)
    exact mul_neg_of_pos_of_neg (by positivity) (by linarith)

/-- **C63, log link.** For the Tweedie-type families with log link the guess is the unique minimiser of the intercept-only deviance
given the offset (`None`, scalar or array): every sample, all weights of positive total. -/
theorem c63_log_tweedie (f : Family) (hf : Valid f) (q : ℝ) (hq : variancePower f = some q) (y w : Fin n → ℝ) (eta : EtaArg n)
    (hw : 0 < ∑ i, w i) (hy : ∀ i, y i ∈ ySupport f) (b : ℝ) (hb : guessIntercept f .log y w eta = some b) (b' : ℝ) (hne : b' ≠ b) :
    interceptDeviance f Real.exp y w eta.vec b < interceptDeviance f Real.exp y w eta.vec b' := by
  have hp : guessPower f = q := by
    cases f <;> simp [variancePower, guessPower] at hq ⊢ <;> exact hq
  unfold guessIntercept at hb
  split at hb
  · cases hb
  · simp only [Option.bind_eq_bind] at hb
    cases hla : safeLog (average y w) with
    | none => rw [hla] at hb; cases hb
    | some la =>
      rw [hla] at hb
      obtain ⟨ha, rfl⟩ := safeLog_some hla
      have hsum : 0 < ∑ i, y i * w i := by
        unfold average at ha
        by_contra h
        exact absurd ha (not_lt.2 (div_nonpos_of_nonpos_of_nonneg (not_lt.1 h) hw.le))
      simp only [Option.bind_some] at hb
      cases eta with
      | none =>
        obtain rfl := Option.some.inj hb
        unfold average
        rw [Real.log_div hsum.ne' hw.ne']
        refine log_minimiser f hf q hq y w _ hy _ _ ?_ ?_ hsum hw b' ?_
        · simp [EtaArg.vec]
        · simp [EtaArg.vec]
        · rw [← Real.log_div hsum.ne' hw.ne']; exact hne
      | scalar c =>
        simp only at hb
        rw [hp] at hb
        cases h1 : safeLog ((∑ i, y i * w i) * Real.exp c ^ (1 - q)) with
        | none => rw [h1] at hb; cases hb
        | some v1 =>
          cases h2 : safeLog ((∑ i, w i) * Real.exp c ^ (2 - q)) with
          | none => rw [h1, h2] at hb; cases hb
          | some v2 =>
            rw [h1, h2] at hb
            obtain ⟨a1, rfl⟩ := safeLog_some h1
            obtain ⟨a2, rfl⟩ := safeLog_some h2
            obtain rfl := Option.some.inj hb
            refine log_minimiser f hf q hq y w _ hy _ _ ?_ ?_ a1 a2 b' hne
            · simp only [EtaArg.vec, Finset.sum_mul]
              exact Finset.sum_congr rfl fun i _ => by ring
            · simp only [EtaArg.vec, Finset.sum_mul]
              exact Finset.sum_congr rfl fun i _ => by ring
      | array e =>
        simp only at hb
        rw [hp] at hb
        cases h1 : safeLog (∑ i, y i * Real.exp (e i) ^ (1 - q) * w i) with
        | none => rw [h1] at hb; cases hb
        | some v1 =>
          cases h2 : safeLog (∑ i, Real.exp (e i) ^ (2 - q) * w i) with
          | none => rw [h1, h2] at hb; cases hb
          | some v2 =>
            rw [h1, h2] at hb
            obtain ⟨a1, rfl⟩ := safeLog_some h1
            obtain ⟨a2, rfl⟩ := safeLog_some h2
            obtain rfl := Option.some.inj hb
            exact log_minimiser f hf q hq y w _ hy _ _ rfl rfl a1 a2 b' hne

/-- **C63, identity link.** For the normal family with identity link the guess is the unique minimiser, with any offset. -/
theorem c63_identity_normal (f : Family) (hf : f = .normal ∨ f = .tweedie 0) (y w : Fin n → ℝ) (eta : EtaArg n) (hw : 0 < ∑ i, w i)
    (b : ℝ) (hb : guessIntercept f .identity y w eta = some b) (b' : ℝ) (hne : b' ≠ b) :
    interceptDeviance f id y w eta.vec b < interceptDeviance f id y w eta.vec b' := by
  have hdev : ∀ y mu, f.unitDeviance y mu = (y - mu) ^ 2 := by
    rcases hf with rfl | rfl <;> intro y mu <;> simp [Family.unitDeviance]
  have hbv : b * ∑ i, w i = ∑ i, (y i - eta.vec i) * w i := by
    have hvec : b = average y w - average eta.vec w := by
      unfold guessIntercept at hb
      simp only [ne_eq, not_true, false_and, if_false] at hb
      cases eta with
      | none => obtain rfl := Option.some.inj hb; simp [EtaArg.vec, average]
      | scalar c =>
        obtain rfl := Option.some.inj hb
        simp only [EtaArg.vec, average]
        rw [← Finset.mul_sum, mul_div_assoc, div_self hw.ne', mul_one]
      | array e => obtain rfl := Option.some.inj hb; rfl
    rw [hvec]
    unfold average
    simp only [sub_mul, Finset.sum_sub_distrib]
    field_simp
  have expand : ∀ c, interceptDeviance f id y w eta.vec c
      = ∑ i, w i * (y i - eta.vec i) ^ 2 - 2 * c * (∑ i, (y i - eta.vec i) * w i) + c ^ 2 * ∑ i, w i := by
    intro c
    unfold interceptDeviance
    rw [Finset.mul_sum, Finset.mul_sum, ← Finset.sum_sub_distrib, ← Finset.sum_add_distrib]
    refine Finset.sum_congr rfl fun i _ => ?_
    rw [hdev]; simp only [id]; ring
  rw [expand, expand, ← hbv]
  have : 0 < (b' - b) ^ 2 := by
    have : b' - b ≠ 0 := sub_ne_zero.2 hne
    positivity
  nlinarith [mul_pos this hw]

/-- **C63, logit link.** For the binomial family with logit link and no offset the guess is the unique minimiser. -/
theorem c63_logit_binomial (y w : Fin n → ℝ) (hw : 0 < ∑ i, w i) (hy : ∀ i, y i ∈ ySupport .binomial) (b : ℝ)
    (hb : guessIntercept .binomial .logit y w .none = some b) (b' : ℝ) (hne : b' ≠ b) :
    interceptDeviance .binomial (fun x => 1 / (1 + Real.exp (-x))) y w (fun _ => 0) b
      < interceptDeviance .binomial (fun x => 1 / (1 + Real.exp (-x))) y w (fun _ => 0) b' := by
  change interceptDeviance .binomial expit y w (fun _ => 0) b < interceptDeviance .binomial expit y w (fun _ => 0) b'
  unfold guessIntercept at hb
  split at hb
  · cases hb
  · simp only [Option.bind_eq_bind] at hb
    cases h1 : safeLog (average y w) with
    | none => rw [h1] at hb; cases hb
    | some v1 =>
      cases h2 : safeLog (1 - average y w) with
      | none => rw [h1, h2] at hb; cases hb
      | some v2 =>
        rw [h1, h2] at hb
        obtain ⟨a1, rfl⟩ := safeLog_some h1
        obtain ⟨a2, rfl⟩ := safeLog_some h2
        simp only [Option.bind_some] at hb
        obtain rfl := Option.some.inj hb
        set a := average y w with ha
        have hb0 : expit (Real.log a - Real.log (1 - a)) = a := by
          rw [← Real.log_div a1.ne' a2.ne']; exact expit_logit a1 (by linarith)
        have hsum : ∑ i, y i * w i = a * ∑ i, w i := by rw [ha]; unfold average; field_simp
        have hder : ∀ b, HasDerivAt (interceptDeviance .binomial expit y w fun _ => 0) (2 * (expit b - a) * ∑ i, w i) b := by
          intro b
          refine (interceptDeviance_hasDeriv .binomial trivial expit (fun x => expit x * (1 - expit x)) expit_hasDeriv y w
            (fun _ => 0) hy b (fun i => ⟨expit_pos _, expit_lt_one _⟩)).congr_deriv ?_
          have : ∀ i, w i * (Family.unitDevianceDerivative .binomial (y i) (expit (0 + b)) * (expit (0 + b) * (1 - expit (0 + b))))
              = 2 * expit b * w i - 2 * (y i * w i) := by
            intro i
            rw [zero_add, Family.unitDevianceDerivative]
            simp only [Family.unitVariance]
            have a := (expit_pos b).ne'
            have b' : 1 - expit b ≠ 0 := by linarith [expit_lt_one b]
            field_simp
            ring
          simp only [this, Finset.sum_sub_distrib, ← Finset.mul_sum]
          rw [hsum]; ring
        have hmono : StrictMono expit := by
          apply strictMono_of_deriv_pos
          intro x
          rw [(expit_hasDeriv x).deriv]
          exact mul_pos (expit_pos x) (by linarith [expit_lt_one x])
        refine strict_min_of_deriv _ _ _ hder (fun c hc => ?_) (fun c hc => ?_) b' hne
        · have := hmono hc
          rw [hb0] at this
          exact mul_pos (by linarith) hw
        · have := hmono hc
          rw [hb0] at this
          exact mul_neg_of_neg_of_pos (by linarith) hw

/-- Non-vacuity: two observations 1 and 3 with equal weights: a guess exists for Poisson with log link. -/
example : ∃ b, guessIntercept (n := 2) .poisson .log (fun i => if i = 0 then 1 else 3) (fun _ => 1 / 2) .none = some b := by
  refine ⟨Real.log (average (n := 2) (fun i => if i = 0 then 1 else 3) fun _ => 1 / 2), ?_⟩
  have hne : ¬ ∃ c : ℝ, ∀ i : Fin 2, (if i = 0 then (1 : ℝ) else 3) = c := by
    rintro ⟨c, hc⟩
    have h0 := hc 0
    have h1 := hc 1
    simp at h0 h1
    linarith
  have hpos : 0 < average (n := 2) (fun i => if i = 0 then 1 else 3) fun _ => 1 / 2 := by
    simp [average, Fin.sum_univ_two]; norm_num
  unfold guessIntercept
  rw [if_neg (fun h => hne h.2)]
  simp only [safeLog, if_pos hpos]
  rfl

/-- The weighted mean is the unique minimiser of the deviance of a constant mean, for every family. -/
theorem mean_minimiser (f : Family) (hf : Valid f) (y w : Fin n → ℝ) (hw : 0 < ∑ i, w i) (hy : ∀ i, y i ∈ ySupport f) (m : ℝ)
    (hm : m * ∑ i, w i = ∑ i, y i * w i) (hmr : m ∈ muRange f) (mu : ℝ) (hmu : mu ∈ muRange f) (hne : mu ≠ m) :
    ∑ i, w i * f.unitDeviance (y i) m < ∑ i, w i * f.unitDeviance (y i) mu := by
  have hder : ∀ c ∈ muRange f, HasDerivAt (fun c => ∑ i, w i * f.unitDeviance (y i) c)
      (2 * ((c - m) * ∑ i, w i) / f.unitVariance c) c := by
    intro c hc
    refine (HasDerivAt.fun_sum fun i _ => (c05_deviance_derivative f hf _ _ (hy i) hc).const_mul (w i)).congr_deriv ?_
    rw [sub_mul, hm, Finset.mul_sum, ← Finset.sum_sub_distrib, Finset.mul_sum, Finset.sum_div]
    refine Finset.sum_congr rfl fun i _ => ?_
    unfold Family.unitDevianceDerivative
    ring
  refine lt_of_deriv_sign (muRange_ordConnected f) _ _ hmr hmu hder (fun c hc h => ?_) (fun c hc h => ?_) (Ne.symm hne)
  · exact div_pos (mul_pos two_pos (mul_pos (by linarith) hw)) (unitVariance_pos f hf hc)
  · exact div_neg_of_neg_of_pos (mul_neg_of_pos_of_neg two_pos (mul_neg_of_neg_of_pos (by linarith) hw)) (unitVariance_pos f hf hc)

/-- **C63, no offset.** For every family and every link, without offset and with weights that sum to one (as `fit` passes them), the mean
at the guess is the weighted mean of `y`, and every other intercept with a mean in the family's range has a larger deviance or the same
mean. -/
theorem c63_no_offset (e50 : ℝ) (he : ClipOK e50) (f : Family) (hf : Valid f) (l : Link) (y w : Fin n → ℝ) (hw : ∑ i, w i = 1)
    (hy : ∀ i, y i ∈ ySupport f) (m : ℝ) (hm : m = ∑ i, w i * y i) (hmr : m ∈ muRange f) (hml : m ∈ linkDomain l)
    (hclip : l = .logit ∨ l = .cloglog → e50 ≤ m ∧ m ≤ 1 - e50) (b : ℝ) (hb : guessIntercept f l y w .none = some b) :
    l.inverse e50 b = m ∧
    ∀ b', l.inverse e50 b' ∈ muRange f → l.inverse e50 b' ≠ m →
      interceptDeviance f (l.inverse e50) y w (fun _ => 0) b < interceptDeviance f (l.inverse e50) y w (fun _ => 0) b' := by
  have hsum : ∑ i, y i * w i = m := by rw [hm]; exact Finset.sum_congr rfl fun i _ => mul_comm _ _
  have hav : average y w = m := by unfold average; rw [hw, div_one, hsum]
  have hbl : b = l.link m := by
    unfold guessIntercept at hb
    split at hb
    · cases hb
    · cases l with
      | identity => simp only [hav, Option.some.injEq] at hb; exact hb.symm
      | log =>
        simp only [hav, Option.bind_eq_bind] at hb
        cases h1 : safeLog m with
        | none => rw [h1] at hb; cases hb
        | some v => rw [h1] at hb; obtain ⟨_, rfl⟩ := safeLog_some h1; exact (Option.some.inj hb).symm
      | logit =>
        simp only [hav, Option.bind_eq_bind] at hb
        cases h1 : safeLog m with
        | none => rw [h1] at hb; cases hb
        | some v =>
          cases h2 : safeLog (1 - m) with
          | none => rw [h1, h2] at hb; cases hb
          | some v2 =>
            rw [h1, h2] at hb
            obtain ⟨a1, rfl⟩ := safeLog_some h1
            obtain ⟨a2, rfl⟩ := safeLog_some h2
            rw [← Option.some.inj hb]
            exact (Real.log_div a1.ne' a2.ne').symm
      | cloglog => simp only [hsum, Option.some.injEq] at hb; exact hb.symm
      | tweedie q => simp only [hsum, Option.some.injEq] at hb; exact hb.symm
  have hinv : l.inverse e50 b = m := by rw [hbl]; exact c01_inverse_link e50 he l m hml hclip
  refine ⟨hinv, fun b' hb' hne => ?_⟩
  unfold interceptDeviance
  simp only [zero_add, hinv]
  exact mean_minimiser f hf y w (by rw [hw]; exact one_pos) hy m (by rw [hw, mul_one, hsum]) hmr _ hb' hne

/-- Non-vacuity: a binomial sample 0, 1 with complementary log-log link. -/
example (e50 : ℝ) (he : ClipOK e50) : ∃ b, guessIntercept (n := 2) .binomial .cloglog (fun i => if i = 0 then 0 else 1) (fun _ => 1 / 2) .none = some b ∧
    Link.inverse e50 .cloglog b = 1 / 2 := by
  have hne : ¬ ∃ c : ℝ, ∀ i : Fin 2, (if i = 0 then (0 : ℝ) else 1) = c := by
    rintro ⟨c, hc⟩
    have h0 := hc 0
    have h1 := hc 1
    simp at h0 h1
    linarith
  have hg : ∃ b, guessIntercept (n := 2) .binomial .cloglog (fun i => if i = 0 then 0 else 1) (fun _ => 1 / 2) .none = some b := by
    unfold guessIntercept
    rw [if_neg (fun h => hne h.2)]
    exact ⟨_, rfl⟩
  obtain ⟨b, hb⟩ := hg
  refine ⟨b, hb, ?_⟩
  refine (c63_no_offset e50 he .binomial trivial .cloglog _ _ (by simp) (fun i => ?_) (1 / 2) (by simp [Fin.sum_univ_two]) ?_ ?_ ?_ b hb).1
  · show (0 : ℝ) ≤ (if i = 0 then 0 else 1) ∧ (if i = 0 then (0 : ℝ) else 1) ≤ 1
    split <;> norm_num
  · exact ⟨by norm_num, by norm_num⟩
  · exact ⟨by norm_num, by norm_num⟩
  · intro _; exact ⟨he.2, by linarith [he.2]⟩

end Glum
