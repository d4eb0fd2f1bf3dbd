import Mathlib.Analysis.SpecialFunctions.Pow.Deriv
import Mathlib.Analysis.SpecialFunctions.Log.Deriv
import Mathlib.Analysis.SpecialFunctions.ExpDeriv
import Verif.Spec.Link
/-
C01–C03: link functions.
-/
set_option linter.unusedSectionVars false
set_option linter.unusedVariables false

namespace Glum
open Spec

theorem clip50_of_mem {e x : ℝ} (h1 : e ≤ x) (h2 : x ≤ 1 - e) : clip50 e x = x := by
  unfold clip50 clip
  rw [max_eq_left h1, min_eq_left h2]

theorem expit_pos (x : ℝ) : 0 < expit x := by unfold expit; positivity

theorem expit_lt_one (x : ℝ) : expit x < 1 := by
  unfold expit
  rw [div_lt_one (by positivity)]
  linarith [Real.exp_pos (-x)]

theorem one_sub_expit (x : ℝ) : 1 - expit x = Real.exp (-x) * expit x := by
  unfold expit
  have : 1 + Real.exp (-x) ≠ 0 := by positivity
  field_simp
  ring

theorem logit_expit (x : ℝ) : Real.log (expit x / (1 - expit x)) = x := by
  rw [one_sub_expit]
  have h := (expit_pos x).ne'
  have h2 := (Real.exp_pos (-x)).ne'
  have : expit x / (Real.exp (-x) * expit x) = Real.exp x := by
    rw [Real.exp_neg] at *
    field_simp
  rw [this, Real.log_exp]

theorem expit_logit {mu : ℝ} (h0 : 0 < mu) (h1 : mu < 1) : expit (Real.log (mu / (1 - mu))) = mu := by
  unfold expit
  have h2 : 0 < 1 - mu := by linarith
  rw [Real.exp_neg, Real.exp_log (div_pos h0 h2)]
  field_simp
  ring

/-- **C01, forward.** `inverse(link(mu)) = mu` for every mean in the domain (for logit and cloglog: for means inside the clip
window `[eps50, 1-eps50]`). -/
theorem c01_inverse_link (e : ℝ) (he : ClipOK e) (l : Link) (mu : ℝ) (h : mu ∈ linkDomain l)
    (hclip : l = .logit ∨ l = .cloglog → e ≤ mu ∧ mu ≤ 1 - e) : l.inverse e (l.link mu) = mu := by
  cases l with
  | identity => rfl
  | log => exact Real.exp_log h
  | logit =>
    obtain ⟨a, b⟩ := hclip (Or.inl rfl)
    simp only [Link.inverse, Link.link]
    rw [expit_logit h.1 h.2, clip50_of_mem a b]
  | cloglog =>
    obtain ⟨a, b⟩ := hclip (Or.inr rfl)
    simp only [Link.inverse, Link.link]
    have h1 : Real.log (1 - mu) < 0 := Real.log_neg (by linarith [h.2]) (by linarith [h.1])
    rw [Real.exp_log (by linarith), neg_neg, Real.exp_log (by linarith [h.2])]
    rw [show -(1 - mu - 1) = mu by ring, clip50_of_mem a b]
  | tweedie p =>
    simp only [Link.inverse, Link.link]
    by_cases h0 : p = 0
    · simp [h0]
    · have hmu : 0 < mu := h.resolve_left h0
      by_cases h1 : p = 1
      · subst h1; simp [Real.exp_log hmu]
      · rw [if_neg h0, if_neg h0, if_neg h1, if_neg h1, ← Real.rpow_mul hmu.le, mul_one_div, div_self (by
          intro h; apply h1; linarith), Real.rpow_one]

/-- **C01, backward.** `link(inverse(eta)) = eta` for every linear predictor in the range of the link, whenever the inverse
is not clipped. -/
theorem c01_link_inverse (e : ℝ) (l : Link) (eta : ℝ) (h : eta ∈ linkRange l) (hc : eta ∈ unclipped e l) :
    l.link (l.inverse e eta) = eta := by
  cases l with
  | identity => rfl
  | log => exact Real.log_exp eta
  | logit =>
    simp only [Link.inverse, Link.link]
    rw [show clip50 e (expit eta) = expit eta from clip50_of_mem hc.1.le hc.2.le, logit_expit]
  | cloglog =>
    simp only [Link.inverse, Link.link]
    obtain ⟨a, b⟩ := hc
    rw [clip50_of_mem (by linarith) (by linarith)]
    rw [show 1 - -(Real.exp (-Real.exp eta) - 1) = Real.exp (-Real.exp eta) by ring, Real.log_exp, neg_neg, Real.log_exp]
  | tweedie p =>
    simp only [Link.inverse, Link.link]
    by_cases h0 : p = 0
    · simp [h0]
    · by_cases h1 : p = 1
      · subst h1; simp
      · have heta : 0 < eta := by
          rcases h with h | h | h
          · exact absurd h h0
          · exact absurd h h1
          · exact h
        rw [if_neg h0, if_neg h0, if_neg h1, if_neg h1, ← Real.rpow_mul heta.le, one_div_mul_cancel (by
          intro h; apply h1; linarith), Real.rpow_one]

/-! ### C02 -/

theorem expit_hasDeriv (x : ℝ) : HasDerivAt expit (expit x * (1 - expit x)) x := by
  have hne : 1 + Real.exp (-x) ≠ 0 := by positivity
  have h := ((((hasDerivAt_id x).neg.exp).const_add 1).inv hne)
  have e : expit = fun x => (1 + Real.exp (-x))⁻¹ := by funext y; simp [expit]
  rw [e]
  refine h.congr_deriv ?_
  rw [show 1 - (fun x => (1 + Real.exp (-x))⁻¹) x = Real.exp (-x) * (1 + Real.exp (-x))⁻¹ by
    simp only []; field_simp; ring]
  simp only [id, Pi.neg_apply]
  field_simp

theorem cloglog_hasDeriv (x : ℝ) :
    HasDerivAt (fun t => -(Real.exp (-Real.exp t) - 1)) (Real.exp (x - Real.exp x)) x := by
  have h := (((Real.hasDerivAt_exp x).neg.exp).sub_const 1).neg
  refine h.congr_deriv ?_
  rw [sub_eq_add_neg, Real.exp_add]; simp only [Pi.neg_apply]; ring

/-- **C02, link.** `link.derivative(mu)` is the derivative of the link at every mean in the domain. -/
theorem c02_link_derivative (l : Link) (mu : ℝ) (h : mu ∈ linkDomain l) :
    HasDerivAt l.link (l.derivative mu) mu := by
  cases l with
  | identity => exact hasDerivAt_id mu
  | log =>
    have := Real.hasDerivAt_log (ne_of_gt h : mu ≠ 0)
    simp only [Link.derivative, one_div]; exact this
  | logit =>
    have hp : 0 < mu := h.1
    have hq : 0 < 1 - mu := by linarith [h.2]
    have h1 := ((hasDerivAt_id mu).div ((hasDerivAt_id mu).const_sub 1) hq.ne').log (div_pos hp hq).ne'
    refine h1.congr_deriv ?_
    simp only [Link.derivative, id, Pi.div_apply]
    field_simp
    ring
  | cloglog =>
    have hq : 0 < 1 - mu := by linarith [h.2]
    have hl : Real.log (1 - mu) < 0 := Real.log_neg hq (by linarith [h.1])
    have h1 := ((((hasDerivAt_id mu).const_sub 1).log hq.ne').neg).log (by simp only [id, Pi.neg_apply]; linarith)
    refine h1.congr_deriv ?_
    simp only [Link.derivative, id, Pi.neg_apply]
    have : mu - 1 ≠ 0 := by linarith
    field_simp
    ring
  | tweedie p =>
    unfold Link.link Link.derivative
    by_cases h0 : p = 0
    · simp only [h0, if_true]; exact hasDerivAt_id mu
    · have hm : 0 < mu := h.resolve_left h0
      by_cases h1 : p = 1
      · simp only [h1, one_ne_zero, if_false, if_true, one_div]; exact Real.hasDerivAt_log hm.ne'
      · simp only [h0, h1, if_false]
        have := Real.hasDerivAt_rpow_const (x := mu) (p := 1 - p) (Or.inl hm.ne')
        rw [show 1 - p - 1 = -p by ring] at this
        exact this

/-- **C02, inverse.** `link.inverse_derivative(eta)` is the derivative of `link.inverse` at every linear predictor in the range
where the clip is inactive. -/
theorem c02_inverse_derivative (e : ℝ) (l : Link) (eta : ℝ) (h : eta ∈ linkRange l) (hc : eta ∈ unclipped e l) :
    HasDerivAt (l.inverse e) (l.inverseDerivative eta) eta := by
  cases l with
  | identity => exact hasDerivAt_id eta
  | log => exact Real.hasDerivAt_exp eta
  | logit =>
    have hd := expit_hasDeriv eta
    refine hd.congr_of_eventuallyEq ?_
    have hcont := hd.continuousAt
    have h1 : ∀ᶠ t in nhds eta, e < expit t := hcont.eventually (lt_mem_nhds hc.1)
    have h2 : ∀ᶠ t in nhds eta, expit t < 1 - e := hcont.eventually (gt_mem_nhds hc.2)
    filter_upwards [h1, h2] with t a b
    exact clip50_of_mem a.le b.le
  | cloglog =>
    have hd := cloglog_hasDeriv eta
    refine hd.congr_of_eventuallyEq ?_
    have hcont := hd.continuousAt
    obtain ⟨c1, c2⟩ := hc
    have h1 : ∀ᶠ t in nhds eta, e < -(Real.exp (-Real.exp t) - 1) := hcont.eventually (lt_mem_nhds (by linarith))
    have h2 : ∀ᶠ t in nhds eta, -(Real.exp (-Real.exp t) - 1) < 1 - e := hcont.eventually (gt_mem_nhds (by linarith))
    filter_upwards [h1, h2] with t a b
    exact clip50_of_mem a.le b.le
  | tweedie p =>
    unfold Link.inverse Link.inverseDerivative
    by_cases h0 : p = 0
    · simp only [h0, if_true]; exact hasDerivAt_id eta
    · by_cases h1 : p = 1
      · simp only [h1, one_ne_zero, if_false, if_true]; exact Real.hasDerivAt_exp eta
      · simp only [h0, h1, if_false]
        have heta : 0 < eta := by
          rcases h with h | h | h
          · exact absurd h h0
          · exact absurd h h1
          · exact h
        have := Real.hasDerivAt_rpow_const (x := eta) (p := 1 / (1 - p)) (Or.inl heta.ne')
        have hne : 1 - p ≠ 0 := fun h => h1 (by linarith)
        rw [show 1 / (1 - p) - 1 = p / (1 - p) by field_simp; ring] at this
        exact this

/-- **C02, second derivative.** `inverse_derivative2` is the derivative of `inverse_derivative`. -/
theorem c02_inverse_derivative2 (l : Link) (eta : ℝ) (h : eta ∈ linkRange l) :
    HasDerivAt l.inverseDerivative (l.inverseDerivative2 eta) eta := by
  cases l with
  | identity => exact hasDerivAt_const eta 1
  | log => exact Real.hasDerivAt_exp eta
  | logit =>
    have := (expit_hasDeriv eta).mul ((expit_hasDeriv eta).const_sub 1)
    refine this.congr_deriv ?_
    simp only [Link.inverseDerivative2]; ring
  | cloglog =>
    have := ((hasDerivAt_id eta).sub (Real.hasDerivAt_exp eta)).exp
    refine this.congr_deriv ?_
    simp only [Link.inverseDerivative2, id, Pi.sub_apply]; ring
  | tweedie p =>
    unfold Link.inverseDerivative Link.inverseDerivative2
    by_cases h0 : p = 0
    · simp only [h0, if_true]; exact hasDerivAt_const eta 1
    · by_cases h1 : p = 1
      · simp only [h1, one_ne_zero, if_false, if_true]; exact Real.hasDerivAt_exp eta
      · simp only [h0, h1, if_false]
        have heta : 0 < eta := by
          rcases h with h | h | h
          · exact absurd h h0
          · exact absurd h h1
          · exact h
        have := (Real.hasDerivAt_rpow_const (x := eta) (p := p / (1 - p)) (Or.inl heta.ne')).const_mul (1 / (1 - p))
        have hne : 1 - p ≠ 0 := fun h => h1 (by linarith)
        rw [show p / (1 - p) - 1 = (2 * p - 1) / (1 - p) by field_simp; ring] at this
        refine this.congr_deriv ?_
        field_simp

/-! ### C03 -/

/-- **C03.** The inverse logit and cloglog links return a value in `[eps50, 1-eps50]`, strictly inside `(0,1)`, for every real linear
predictor, and are monotone. -/
theorem c03_probabilities (e : ℝ) (he : ClipOK e) (l : Link) (hl : l = .logit ∨ l = .cloglog) :
    (∀ eta, e ≤ l.inverse e eta ∧ l.inverse e eta ≤ 1 - e ∧ 0 < l.inverse e eta ∧ l.inverse e eta < 1) ∧
    Monotone (l.inverse e) := by
  have hrange : ∀ x, e ≤ clip50 e x ∧ clip50 e x ≤ 1 - e := by
    intro x
    unfold clip50 clip
    exact ⟨le_min (le_max_right _ _) (by linarith [he.2]), min_le_right _ _⟩
  have hmono : ∀ x y, x ≤ y → clip50 e x ≤ clip50 e y := by
    intro x y hxy
    unfold clip50 clip
    exact min_le_min_right _ (max_le_max_right _ hxy)
  constructor
  · intro eta
    have : ∃ x, l.inverse e eta = clip50 e x := by
      rcases hl with rfl | rfl
      · exact ⟨_, rfl⟩
      · exact ⟨_, rfl⟩
    obtain ⟨x, hx⟩ := this
    rw [hx]
    obtain ⟨a, b⟩ := hrange x
    exact ⟨a, b, by linarith [he.1], by linarith [he.1]⟩
  · intro a b hab
    rcases hl with rfl | rfl
    · apply hmono
      unfold expit
      apply one_div_le_one_div_of_le (by positivity)
      have := Real.exp_le_exp.mpr (neg_le_neg hab)
      linarith
    · apply hmono
      have := Real.exp_le_exp.mpr (neg_le_neg (Real.exp_le_exp.mpr hab))
      linarith

-- Non-vacuity
example : ClipOK (50 * (1 / 2 ^ 52)) := ⟨by norm_num, by norm_num⟩
example : (2 : ℝ) ∈ linkDomain (.tweedie 3) ∧ (2 : ℝ) ∈ linkRange (.tweedie 3) := ⟨Or.inr (by norm_num), Or.inr (Or.inr (by norm_num))⟩
example : (0 : ℝ) ∈ unclipped (1 / 100) .logit := by
  constructor <;> norm_num
-- the clip is really needed in C01: outside the window the round trip fails
example : Link.inverse (1 / 4) .logit (Link.link .logit (1 / 8)) ≠ 1 / 8 := by
  simp only [Link.inverse, Link.link]
  rw [expit_logit (by norm_num) (by norm_num)]
  unfold clip50 clip
  norm_num

/-- **C01 (accepted powers).** A power link exists exactly for the powers for which the power function is a bijection of the positive half-line that
some Tweedie family uses: every power outside the open interval `(0, 1)`, including 0 and 1 themselves. -/
theorem c01_powers (p : ℝ) : (mkTweedieLink p).isSome ↔ p ≤ 0 ∨ 1 ≤ p := by
  unfold mkTweedieLink
  split
  · next h => simp only [Option.isSome_none, Bool.false_eq_true, false_iff]; push Not; exact ⟨h.1, h.2⟩
  · next h =>
    simp only [Option.isSome_some, true_iff]
    by_contra hc
    push Not at hc
    exact h hc

end Glum
