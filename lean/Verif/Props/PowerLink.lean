import Verif.Model.PowerLink
import Verif.Model.Distribution
import Verif.Props.Link
import Verif.Props.IRLS
import Mathlib.Tactic.Linarith
import Mathlib.Tactic.FieldSimp
/-
C111: power links and linear predictors that are not positive.
-/
set_option linter.unusedSectionVars false
set_option linter.unusedVariables false
set_option linter.unusedSimpArgs false

namespace Glum

open Spec

/-- `power` as the setter accepts it. -/
def Spec.AllowedPower (p : ℝ) : Prop := p ≤ 0 ∨ 1 ≤ p

/-- The powers `2, 3/2, 4/3, 5/4, …`. -/
def Spec.ReciprocalPower (p : ℝ) : Prop := ∃ m : ℕ, 1 ≤ m ∧ p = 1 + 1 / m

theorem npPow_none_iff (x y : ℝ) : npPow x y = none ↔ x < 0 ∧ ¬ ∃ k : ℤ, y = k := by
  unfold npPow
  by_cases h1 : 0 < x
  · rw [if_pos h1]; simp [not_lt.2 h1.le]
  · rw [if_neg h1]
    by_cases h2 : x = 0
    · rw [if_pos h2]
      have : ¬ x < 0 := by rw [h2]; simp
      constructor
      · intro h; split_ifs at h
      · intro h; exact absurd h.1 this
    · rw [if_neg h2]
      have h3 : x < 0 := lt_of_le_of_ne (not_lt.1 h1) h2
      by_cases h4 : ∃ k : ℤ, y = k
      · rw [dif_pos h4]; simp [h4]
      · rw [dif_neg h4]; simp [h3, h4]

theorem exponent_int {p : ℝ} (h1 : p ≠ 1) : (∃ k : ℤ, p / (1 - p) = k) ↔ ∃ k : ℤ, 1 / (1 - p) = k := by
  have hp : (1 : ℝ) - p ≠ 0 := sub_ne_zero.2 (Ne.symm h1)
  have e : p / (1 - p) = 1 / (1 - p) - 1 := by field_simp; ring
  rw [e]
  constructor
  · rintro ⟨k, hk⟩; exact ⟨k + 1, by push_cast; linarith⟩
  · rintro ⟨k, hk⟩; exact ⟨k - 1, by push_cast; linarith⟩

theorem exponent2_int {p : ℝ} (h1 : p ≠ 1) : (∃ k : ℤ, (2 * p - 1) / (1 - p) = k) ↔ ∃ k : ℤ, 1 / (1 - p) = k := by
  have hp : (1 : ℝ) - p ≠ 0 := sub_ne_zero.2 (Ne.symm h1)
  have e : (2 * p - 1) / (1 - p) = 1 / (1 - p) - 2 := by field_simp; ring
  rw [e]
  constructor
  · rintro ⟨k, hk⟩; exact ⟨k + 2, by push_cast; linarith⟩
  · rintro ⟨k, hk⟩; exact ⟨k - 2, by push_cast; linarith⟩

/-- Which allowed powers have an integer exponent. -/
theorem exponent_reciprocal {p : ℝ} (ha : AllowedPower p) (h0 : p ≠ 0) (h1 : p ≠ 1) : (∃ k : ℤ, 1 / (1 - p) = k) ↔ ReciprocalPower p := by
  have hp : (1 : ℝ) - p ≠ 0 := sub_ne_zero.2 (Ne.symm h1)
  constructor
  · rintro ⟨k, hk⟩
    have hk' : (k : ℝ) * (1 - p) = 1 := by rw [← hk]; field_simp
    have hneg : 1 < p := by
      rcases ha with h | h
      · exfalso
        have hlt : p < 0 := lt_of_le_of_ne h h0
        have k0 : (0 : ℝ) < k := by
          rw [← hk]; apply div_pos one_pos; linarith
        have k1 : (k : ℝ) < 1 := by
          rw [← hk, div_lt_one (by linarith)]; linarith
        have a1 : (0 : ℤ) < k := by exact_mod_cast k0
        have a2 : k < (1 : ℤ) := by exact_mod_cast k1
        omega
      · exact lt_of_le_of_ne h (Ne.symm h1)
    have k0 : (k : ℝ) < 0 := by
      rw [← hk]; exact div_neg_of_pos_of_neg one_pos (by linarith)
    have k0' : k < 0 := by exact_mod_cast k0
    refine ⟨k.natAbs, by omega, ?_⟩
    have hc : ((k.natAbs : ℕ) : ℝ) = -(k : ℝ) := by
      have : ((k.natAbs : ℕ) : ℤ) = -k := by omega
      have h2 : (((k.natAbs : ℕ) : ℤ) : ℝ) = ((-k : ℤ) : ℝ) := by rw [this]
      rw [Int.cast_natCast, Int.cast_neg] at h2
      exact h2
    rw [hc]
    have hk0 : (k : ℝ) ≠ 0 := k0.ne
    field_simp
    linarith
  · rintro ⟨m, hm, rfl⟩
    have hm0 : (m : ℝ) ≠ 0 := by positivity
    refine ⟨-(m : ℤ), ?_⟩
    push_cast
    field_simp
    ring

theorem tweedieInverse_none_iff {p : ℝ} (ha : AllowedPower p) (eta : ℝ) : tweedieInverse p eta = none ↔ eta < 0 ∧ p ≠ 0 ∧ p ≠ 1 ∧ ¬ ReciprocalPower p := by
  unfold tweedieInverse
  by_cases h0 : p = 0
  · rw [if_pos h0]; simp [h0]
  · rw [if_neg h0]
    by_cases h1 : p = 1
    · rw [if_pos h1]; simp [h1]
    · rw [if_neg h1, npPow_none_iff, exponent_reciprocal ha h0 h1]
      simp [h0, h1]

theorem mapM_none_iff (f : ℝ → Option FV) (l : List ℝ) : onArray f l = none ↔ ∃ x ∈ l, f x = none := by
  unfold onArray
  induction l with
  | nil => simp
  | cons x l ih =>
    rw [List.mapM_cons]
    cases hx : f x with
    | none => simp [hx]
    | some v =>
      cases hl : List.mapM f l with
      | none =>
        rw [hl] at ih
        obtain ⟨y, hy, e⟩ := ih.1 rfl
        simp only [bind, Option.bind]
        exact ⟨fun _ => ⟨y, by simp [hy], e⟩, fun _ => trivial⟩
      | some vs =>
        rw [hl] at ih
        simp only [bind, Option.bind, pure]
        refine ⟨fun h => by simp at h, fun ⟨y, hy, e⟩ => ?_⟩
        rcases List.mem_cons.1 hy with rfl | hy
        · rw [hx] at e; simp at e
        · exact absurd (ih.2 ⟨y, hy, e⟩) (by simp)

/-- **C111, when a power link raises.** For every allowed power and every array of linear predictors: `inverse`, `inverse_derivative` and `inverse_derivative2` raise on exactly the same arrays, those with a
negative element, for every power other than 0, 1 and 2, 3/2, 4/3, 5/4, … -/
theorem c111_raises_iff {p : ℝ} (ha : AllowedPower p) (etas : List ℝ) :
    (onArray (tweedieInverse p) etas = none ↔ (∃ eta ∈ etas, eta < 0) ∧ p ≠ 0 ∧ p ≠ 1 ∧ ¬ ReciprocalPower p) ∧
    (onArray (tweedieInverseDerivative p) etas = none ↔ onArray (tweedieInverse p) etas = none) ∧
    (onArray (tweedieInverseDerivative2 p) etas = none ↔ onArray (tweedieInverse p) etas = none) := by
  have hd : ∀ eta, tweedieInverseDerivative p eta = none ↔ tweedieInverse p eta = none := by
    intro eta
    unfold tweedieInverseDerivative tweedieInverse
    by_cases h0 : p = 0
    · rw [if_pos h0, if_pos h0]; simp
    · rw [if_neg h0, if_neg h0]
      by_cases h1 : p = 1
      · rw [if_pos h1, if_pos h1]
      · rw [if_neg h1, if_neg h1, Option.map_eq_none_iff, npPow_none_iff, npPow_none_iff, exponent_int h1]
  have hd2 : ∀ eta, tweedieInverseDerivative2 p eta = none ↔ tweedieInverse p eta = none := by
    intro eta
    unfold tweedieInverseDerivative2 tweedieInverse
    by_cases h0 : p = 0
    · rw [if_pos h0, if_pos h0]; simp
    · rw [if_neg h0, if_neg h0]
      by_cases h1 : p = 1
      · rw [if_pos h1, if_pos h1]
      · rw [if_neg h1, if_neg h1, Option.map_eq_none_iff, npPow_none_iff, npPow_none_iff, exponent2_int h1]
  refine ⟨?_, ?_, ?_⟩
  · rw [mapM_none_iff]
    simp only [tweedieInverse_none_iff ha]
    constructor
    · rintro ⟨x, hx, h, r⟩; exact ⟨⟨x, hx, h⟩, r⟩
    · rintro ⟨⟨x, hx, h⟩, r⟩; exact ⟨x, hx, h, r⟩
  · rw [mapM_none_iff, mapM_none_iff]; simp only [hd]
  · rw [mapM_none_iff, mapM_none_iff]; simp only [hd2]

/-- **C111, part.** On positive linear predictors a power link never raises, its values are those of the model all other theorems use, the mean is positive and the link takes it back to the linear predictor.
What is missing: for the powers 2, 3/2, 4/3, … negative linear predictors are accepted although no mean belongs to them (`c111_mean_or_error_counterexample`). -/
theorem c111_mean_or_error_partial {p : ℝ} (ha : AllowedPower p) (h0 : p ≠ 0) (h1 : p ≠ 1) (e eta : ℝ) (h : 0 < eta) :
    tweedieInverse p eta = some (.num (Link.inverse e (.tweedie p) eta)) ∧ tweedieInverseDerivative p eta = some (.num (Link.inverseDerivative (.tweedie p) eta)) ∧
    tweedieInverseDerivative2 p eta = some (.num (Link.inverseDerivative2 (.tweedie p) eta)) ∧ 0 < Link.inverse e (.tweedie p) eta ∧
    Link.link (.tweedie p) (Link.inverse e (.tweedie p) eta) = eta := by
  have hp : (1 : ℝ) - p ≠ 0 := sub_ne_zero.2 (Ne.symm h1)
  have hi : Link.inverse e (.tweedie p) eta = eta ^ (1 / (1 - p)) := by simp only [Link.inverse]; rw [if_neg h0, if_neg h1]
  refine ⟨?_, ?_, ?_, ?_, ?_⟩
  · unfold tweedieInverse npPow
    rw [if_neg h0, if_neg h1, if_pos h, hi]
  · unfold tweedieInverseDerivative npPow
    rw [if_neg h0, if_neg h1, if_pos h]
    simp only [Option.map_some, FV.scale, Link.inverseDerivative]
    rw [if_neg h0, if_neg h1]
  · unfold tweedieInverseDerivative2 npPow
    rw [if_neg h0, if_neg h1, if_pos h]
    simp only [Option.map_some, FV.scale, Link.inverseDerivative2]
    rw [if_neg h0, if_neg h1, mul_comm]
  · rw [hi]; exact Real.rpow_pos_of_pos h _
  · rw [hi]
    simp only [Link.link]
    rw [if_neg h0, if_neg h1, ← Real.rpow_mul h.le, one_div_mul_cancel hp, Real.rpow_one]

theorem npPow_int {x : ℝ} (h : x < 0) (y : ℝ) (k : ℤ) (hk : y = k) : npPow x y = some (.num (x ^ k)) := by
  unfold npPow
  rw [if_neg (not_lt.2 h.le), if_neg h.ne]
  have hex : ∃ k : ℤ, y = k := ⟨k, hk⟩
  rw [dif_pos hex]
  have : hex.choose = k := by
    have h2 : (k : ℝ) = (hex.choose : ℝ) := hk.symm.trans hex.choose_spec
    exact_mod_cast h2.symm
  rw [this]

/-- **C111, negative linear predictors with the powers `1 + 1/m`.** They are accepted: for odd `m` the mean is negative; for even `m` it is positive, but it is the mean of the linear predictor with the opposite sign. -/
theorem c111_negative (m : ℕ) (hm : 1 ≤ m) (eta : ℝ) (h : eta < 0) :
    ∃ mu, tweedieInverse (1 + 1 / m) eta = some (.num mu) ∧ (Odd m → mu < 0) ∧ (Even m → 0 < mu ∧ Link.link (.tweedie (1 + 1 / m)) mu = -eta) := by
  have hm0 : (m : ℝ) ≠ 0 := by positivity
  have hmp : (0 : ℝ) < m := by positivity
  have h0 : (1 : ℝ) + 1 / m ≠ 0 := by positivity
  have h1 : (1 : ℝ) + 1 / m ≠ 1 := by
    intro e
    have : (1 : ℝ) / m = 0 := by linarith
    exact absurd this (by positivity)
  have ek : 1 / (1 - (1 + 1 / (m : ℝ))) = ((-(m : ℤ) : ℤ) : ℝ) := by push_cast; field_simp; ring
  refine ⟨eta ^ (-(m : ℤ)), ?_, ?_, ?_⟩
  · unfold tweedieInverse
    rw [if_neg h0, if_neg h1, npPow_int h _ _ ek]
  · intro ho
    rw [zpow_neg, zpow_natCast]
    exact inv_lt_zero.2 (ho.pow_neg h)
  · intro he
    rw [zpow_neg, zpow_natCast]
    refine ⟨inv_pos.2 (he.pow_pos h.ne), ?_⟩
    simp only [Link.link]
    rw [if_neg h0, if_neg h1, show (1 : ℝ) - (1 + 1 / m) = -(1 / m) by ring, ← he.neg_pow, Real.inv_rpow (pow_nonneg (by linarith) _), Real.rpow_neg (pow_nonneg (by linarith) _), inv_inv, one_div,
      Real.pow_rpow_inv_natCast (by linarith) (by omega)]

/-- The full statement (an array of linear predictors is either refused or turned into means the link takes back to it) is false: the inverse link (power 2) turns -1 into the mean -1, and power 3/2 turns it into 1. -/
theorem c111_mean_or_error_counterexample :
    (tweedieInverse 2 (-1) = some (.num (-1))) ∧ tweedieInverse (3 / 2) (-1) = some (.num 1) ∧ Link.link (.tweedie (3 / 2)) 1 ≠ -1 ∧
    ¬ ∀ p eta mu : ℝ, AllowedPower p → p ≠ 0 → p ≠ 1 → tweedieInverse p eta = some (.num mu) → 0 ≤ mu := by
  have e2 : tweedieInverse 2 (-1) = some (.num (-1)) := by
    unfold tweedieInverse
    rw [if_neg (by norm_num), if_neg (by norm_num), npPow_int (by norm_num) _ (-1) (by norm_num)]
    norm_num
  refine ⟨e2, ?_, ?_, ?_⟩
  · unfold tweedieInverse
    rw [if_neg (by norm_num), if_neg (by norm_num), npPow_int (by norm_num) _ (-2) (by norm_num)]
    norm_num
  · simp only [Link.link]
    rw [if_neg (by norm_num), if_neg (by norm_num), Real.one_rpow]
    norm_num
  · intro h
    have := h 2 (-1) (-1) (Or.inr (by norm_num)) (by norm_num) (by norm_num) e2
    norm_num at this

/-! ### In a fit -/

section fit

variable {n p : ℕ} {ic : Bool}

theorem lineLoopE_some (ok : ℝ → Prop) (D : IRLSData n p ic) (st : IRLSState n p ic) (d : Fin (p + ic.toNat) → ℝ) (bound : ℝ) (Xd : Fin n → ℝ) (rem k : ℕ) (factor : ℝ) (r : LSResult n p ic)
    (h : lineLoopE ok D st d bound Xd rem k factor = some r) : r = lineLoop D st d bound Xd rem k factor ∧ ∀ i, ok (r.eta i) := by
  induction rem generalizing k factor with
  | zero =>
    rw [lineLoopE] at h
    rw [lineLoop]
    simp only at h ⊢
    split at h
    · rename_i hok
      split at h
      · rename_i ha
        rw [if_pos ha]
        cases h
        exact ⟨rfl, hok⟩
      · rename_i ha
        rw [if_neg ha]
        cases h
        exact ⟨rfl, hok⟩
    · cases h
  | succ rem ih =>
    rw [lineLoopE] at h
    rw [lineLoop]
    simp only at h ⊢
    split at h
    · rename_i hok
      split at h
      · rename_i ha
        rw [if_pos ha]
        cases h
        exact ⟨rfl, hok⟩
      · rename_i ha
        rw [if_neg ha]
        exact ih _ _ h
    · cases h

theorem lineLoopE_total (ok : ℝ → Prop) (hok : ∀ e, ok e) (D : IRLSData n p ic) (st : IRLSState n p ic) (d : Fin (p + ic.toNat) → ℝ) (bound : ℝ) (Xd : Fin n → ℝ) (rem k : ℕ) (factor : ℝ) :
    lineLoopE ok D st d bound Xd rem k factor = some (lineLoop D st d bound Xd rem k factor) := by
  induction rem generalizing k factor with
  | zero =>
    rw [lineLoopE, lineLoop]
    simp only
    rw [if_pos fun i => hok _]
    split <;> rfl
  | succ rem ih =>
    rw [lineLoopE, lineLoop]
    simp only
    rw [if_pos fun i => hok _]
    split
    · rfl
    · exact ih _ _

theorem irlsStepE_some (ok : ℝ → Prop) (inner : Inner n p ic) (D : IRLSData n p ic) (st st' : IRLSState n p ic) (h : irlsStepE ok inner D st = some st') :
    st' = irlsStep inner D st ∧ ∀ i, ok (st'.eta i) := by
  unfold irlsStepE at h
  simp only at h
  rw [Option.map_eq_some_iff] at h
  obtain ⟨ls, hls, e⟩ := h
  obtain ⟨h1, h2⟩ := lineLoopE_some ok _ _ _ _ _ _ _ _ _ hls
  subst e
  refine ⟨?_, h2⟩
  rw [h1]
  rfl

theorem irlsLoopE_some (ok : ℝ → Prop) (inner : Inner n p ic) (D : IRLSData n p ic) (fuel : ℕ) (st st' : IRLSState n p ic) (hst : ∀ i, ok (st.eta i)) (h : irlsLoopE ok inner D fuel st = some st') :
    st' = irlsLoop inner D fuel st ∧ ∀ i, ok (st'.eta i) := by
  induction fuel generalizing st with
  | zero =>
    simp only [irlsLoopE, Option.some.injEq] at h
    subst h
    exact ⟨rfl, hst⟩
  | succ fuel ih =>
    simp only [irlsLoopE] at h
    simp only [irlsLoop]
    split at h
    · rename_i hc
      rw [if_pos hc]
      obtain ⟨s1, h1, h2⟩ := Option.bind_eq_some_iff.1 h
      obtain ⟨e1, o1⟩ := irlsStepE_some ok inner D st s1 h1
      rw [← e1]
      exact ih s1 o1 h2
    · rename_i hc
      rw [if_neg hc]
      cases h
      exact ⟨rfl, hst⟩

/-- **C111, a fit.** With a link that raises on some linear predictors, the IRLS solver either lets the exception through or returns exactly what the solver of the other theorems returns, with a linear predictor the
link accepts; if the link accepts everything, it never raises. -/
theorem c111_fit (ok : ℝ → Prop) (inner : Inner n p ic) (D : IRLSData n p ic) (coef : Fin (p + ic.toNat) → ℝ) :
    (∀ st, irlsRunE ok inner D coef = some st → st = irlsRun inner D coef ∧ ∀ i, ok (linPred ic D.X (off D) coef i) ∧ ok (st.eta i)) ∧
    ((∀ e, ok e) → irlsRunE ok inner D coef = some (irlsRun inner D coef)) := by
  constructor
  · intro st h
    unfold irlsRunE at h
    split at h
    · rename_i h0
      obtain ⟨e, o⟩ := irlsLoopE_some ok inner D _ _ _ h0 h
      refine ⟨e, fun i => ⟨?_, o i⟩⟩
      have : (irlsInit D coef).eta i = linPred ic D.X (off D) coef i := by
        show (0 : ℝ) + 1 * safeLinPred ic D.X coef D.offset i = _
        rw [c12_lin_pred]; simp [off]
      rw [← this]; exact h0 i
    · cases h
  · intro hok
    unfold irlsRunE
    rw [if_pos fun i => hok _]
    unfold irlsRun
    generalize D.maxIter = fuel
    generalize irlsInit D coef = st
    induction fuel generalizing st with
    | zero => rfl
    | succ fuel ih =>
      simp only [irlsLoopE, irlsLoop]
      split
      · have : irlsStepE ok inner D st = some (irlsStep inner D st) := by
          unfold irlsStepE
          simp only
          rw [lineLoopE_total ok hok]
          rfl
        rw [this]
        exact ih _
      · rfl

/-- One row, `x = 1`, `y = 5/2`, normal family, `TweedieLink(3)`: the mean is `1/sqrt(eta)`. -/
noncomputable def powEx : IRLSData 1 1 false where
  X := fun _ _ => 1
  y := fun _ => 5 / 2
  sw := fun _ => 1
  P1 := fun _ => 0
  P2 := .vec fun _ => 0
  fam := genericRow 0 .normal (.tweedie 3)
  maxIter := 100
  maxInnerIter := 10
  gradTol := 1 / 1000
  stepTol := none
  hessApprox := 0
  fixedInnerTol := none
  random := false
  offset := none
  lb := none
  ub := none
  eps := 1 / 10 ^ 15
  large := 10 ^ 30

theorem powEx_linPred (c : Fin (1 + false.toNat) → ℝ) (i : Fin 1) : linPred false powEx.X (off powEx) c i = c 0 := by
  show ∑ j : Fin 1, design (p := 1) false powEx.X i j * c j + 0 = c 0
  simp [design, powEx]

theorem powEx_inv (e : ℝ) : powEx.fam.inv e = e ^ (-(1 / 2) : ℝ) := by
  show Link.inverse 0 (.tweedie 3) e = _
  simp only [Link.inverse]
  rw [if_neg (by norm_num), if_neg (by norm_num)]
  norm_num

theorem powEx_obj (c : Fin (1 + false.toNat) → ℝ) : objective powEx c = 1 / 2 * (5 / 2 - (c 0) ^ (-(1 / 2) : ℝ)) ^ 2 := by
  have hl : l1 false powEx.P1 c = 0 := by simp [l1, l1Weight, powEx]
  have hr : ridge powEx c = 0 := by simp [ridge, p2Full, p2Matrix, powEx]
  rw [objective, smoothObj, hl, hr]
  have hd : ∀ (y e : ℝ), powEx.fam.dev y e = (y - e ^ (-(1 / 2) : ℝ)) ^ 2 := by
    intro y e
    show (y - Link.inverse 0 (.tweedie 3) e) ^ 2 = _
    have := powEx_inv e
    rw [← this]; rfl
  simp only [powEx_linPred, hd]
  simp [powEx]

theorem powEx_score (k : Fin (1 + false.toNat)) : scoreAt powEx (fun _ => 1) k = -3 / 4 := by
  have hg : powEx.fam.grad (5 / 2) 1 1 (powEx.fam.inv 1) = -3 / 4 := by
    rw [powEx_inv, Real.one_rpow]
    show genericGrad .normal (.tweedie 3) (5 / 2) 1 1 1 = _
    simp only [genericGrad, Link.inverseDerivative, oneOverVariance, Family.unitVariance]
    rw [if_neg (by norm_num), if_neg (by norm_num), Real.one_rpow]
    norm_num
  unfold scoreAt
  simp only [powEx_linPred]
  have e1 : ∀ i j : Fin (1 + false.toNat), p2Full (p := 1) false powEx.P2 i j = 0 := fun i j => by simp [p2Full, p2Matrix, powEx]
  simp only [e1]
  have e2 : ∀ r : Fin 1, design (p := 1) false powEx.X r k = 1 := fun r => by simp [design, powEx]
  simp only [e2]
  have e3 : ∀ r, powEx.y r = 5 / 2 := fun _ => rfl
  have e4 : ∀ r, powEx.sw r = 1 := fun _ => rfl
  simp only [e3, e4, hg]
  simp

/-- **C111, a fit that gives up.** The exception of a trial step ends the fit although the step would have been acceptable after two halvings: here the Newton direction of the first iteration (score divided by
Hessian) leads to a negative linear predictor, `fit` raises, and the trial with a quarter of the step reduces the objective from 1.125 to 0.125. -/
theorem c111_fit_raises_counterexample : ∃ (D : IRLSData 1 1 false) (inner : Inner 1 1 false) (coef : Fin (1 + false.toNat) → ℝ) (d : Fin (1 + false.toNat) → ℝ),
    (∀ st, (inner D st).1 = d) ∧ (∀ k, d k = scoreAt D coef k / D.fam.hess (D.y 0) (D.sw 0) (linPred false D.X (off D) coef 0) (D.fam.inv (linPred false D.X (off D) coef 0))) ∧
    (∀ i, tweedieInverse 3 (linPred false D.X (off D) coef i) ≠ none) ∧ irlsRunE (fun e => tweedieInverse 3 e ≠ none) inner D coef = none ∧
    Acceptable D coef d 2 ∧ (∀ i, 0 < linPred false D.X (off D) (candidate coef d 2) i) ∧ objective D (candidate coef d 2) + 1 ≤ objective D coef := by
  have hc2 : candidate (fun _ : Fin (1 + false.toNat) => (1 : ℝ)) (fun _ => -3) 2 = fun _ => 1 / 4 := by funext k; simp only [candidate]; norm_num
  have hpow : ((1 : ℝ) / 4) ^ (-(1 / 2) : ℝ) = 2 := by
    rw [show (1 : ℝ) / 4 = (2 : ℝ) ^ (-2 : ℝ) by rw [Real.rpow_neg (by norm_num)]; norm_num, ← Real.rpow_mul (by norm_num)]
    norm_num
  have o1 : objective powEx (fun _ => 1) = 9 / 8 := by rw [powEx_obj, Real.one_rpow]; norm_num
  have o2 : objective powEx (fun _ => 1 / 4) = 1 / 8 := by rw [powEx_obj, hpow]; norm_num
  have ha : AllowedPower 3 := Or.inr (by norm_num)
  have hr : ¬ ReciprocalPower 3 := by
    rintro ⟨m, hm, e⟩
    have : (1 : ℝ) / m ≤ 1 := by rw [div_le_one (by positivity)]; exact_mod_cast hm
    linarith
  refine ⟨powEx, fun _ _ => (fun _ => -3, 1), fun _ => 1, fun _ => -3, fun _ => rfl, fun k => ?_, fun i => ?_, ?_, ?_, fun i => ?_, ?_⟩
  · rw [powEx_score, powEx_linPred, powEx_inv, Real.one_rpow]
    have : powEx.fam.hess (powEx.y 0) (powEx.sw 0) 1 1 = 1 / 4 := by
      show genericHess .normal (.tweedie 3) 1 1 1 = _
      simp only [genericHess, Link.inverseDerivative, oneOverVariance, Family.unitVariance]
      rw [if_neg (by norm_num), if_neg (by norm_num), Real.one_rpow]
      norm_num
    rw [this]; norm_num
  · rw [Ne, tweedieInverse_none_iff ha, powEx_linPred]
    norm_num
  · unfold irlsRunE
    rw [if_pos]
    · have hm : powEx.maxIter = 99 + 1 := rfl
      rw [hm, irlsLoopE]
      have hsc : ∀ k, (irlsInit powEx fun _ => 1).score k = -3 / 4 := by
        intro k
        have := (visited_sync (fun _ _ => (fun _ => 0, 0)) powEx (fun _ => le_rfl) _ (irlsInit powEx fun _ => 1) Visited.init).score k
        rw [this]
        exact powEx_score k
      have hconv : (irlsInit powEx fun _ => 1).converged = false := by
        rw [Bool.eq_false_iff]
        intro h
        rw [c33_step_rule_initially_false powEx (fun _ => le_rfl) _ (by simp)] at h
        have h2 := norm_eq_finset_sum (id : Fin (1 + false.toNat) → _) strictMono_id (fun _ => 1) (fun i => -scoreAt powEx (fun _ => 1) i) powEx.P1 false powEx.lb powEx.ub
        rw [List.map_id] at h2
        rw [h2] at h
        have h3 : ∑ s : Fin 1, absTerm (p := 1) (fun _ => (1 : ℝ)) (fun i => -scoreAt powEx (fun _ => 1) i) powEx.P1 false powEx.lb powEx.ub (id s) < 1 / 1000 := h
        rw [Fin.sum_univ_one] at h3
        have h4 : absTerm (p := 1) (fun _ => (1 : ℝ)) (fun i => -scoreAt powEx (fun _ => 1) i) powEx.P1 false powEx.lb powEx.ub (id 0) = 3 / 4 := by
          have hfn : (fun i => -scoreAt powEx (fun _ => 1) i) = fun _ : Fin (1 + false.toNat) => (3 / 4 : ℝ) := by
            funext i; rw [powEx_score]; norm_num
          refine Eq.trans (congrArg (fun g : Fin 1 → ℝ => absTerm (p := 1) (fun _ => (1 : ℝ)) g powEx.P1 false powEx.lb powEx.ub (id 0)) hfn) ?_
          simp [absTerm, subgradTerm, powEx, fsign]
          norm_num
        rw [h4] at h3
        norm_num at h3
      rw [if_pos ⟨by show (0 : ℕ) < 100; norm_num, hconv⟩]
      have : irlsStepE (fun e => tweedieInverse 3 e ≠ none) (fun _ _ => (fun _ => -3, 1)) powEx (irlsInit powEx fun _ => 1) = none := by
        unfold irlsStepE
        simp only
        rw [Option.map_eq_none_iff, lineLoopE]
        simp only
        rw [if_neg]
        intro h
        have := h 0
        rw [Ne, tweedieInverse_none_iff ha] at this
        refine this ⟨?_, by norm_num, by norm_num, hr⟩
        show ((0 : ℝ) + 1 * safeLinPred false powEx.X (fun _ => 1) powEx.offset 0) + 1 * safeLinPred false powEx.X (fun _ => -3) none 0 < 0
        rw [c12_lin_pred, c12_lin_pred]
        have a1 : linPred (p := 1) false powEx.X (powEx.offset.getD fun _ => 0) (fun _ => 1) 0 = 1 := powEx_linPred _ 0
        have a2 : linPred (p := 1) false powEx.X ((none : Option (Fin 1 → ℝ)).getD fun _ => 0) (fun _ => -3) 0 = -3 := powEx_linPred _ 0
        rw [a1, a2]
        norm_num
      rw [this]
      rfl
    · intro i
      rw [Ne, tweedieInverse_none_iff ha]
      have : (irlsInit powEx fun _ => 1).eta i = 1 := by
        show (0 : ℝ) + 1 * safeLinPred false powEx.X (fun _ => 1) powEx.offset i = 1
        rw [c12_lin_pred]
        have a1 : linPred (p := 1) false powEx.X (powEx.offset.getD fun _ => 0) (fun _ => 1) i = 1 := powEx_linPred _ i
        rw [a1]; norm_num
      rw [this]
      norm_num
  · left
    rw [hc2]
    refine ⟨fun r => ?_, ?_⟩
    · rw [powEx_linPred, powEx_inv, hpow]
      show (2 : ℝ) < 10 ^ 30
      norm_num
    · rw [o1, o2]
      have hl : ∀ c : Fin (1 + false.toNat) → ℝ, l1 false powEx.P1 c = 0 := fun c => by simp [l1, l1Weight, powEx]
      unfold predictedChange
      rw [hl, hl]
      simp only [powEx_score]
      norm_num
  · rw [hc2, powEx_linPred]; norm_num
  · rw [hc2, o1, o2]; norm_num

end fit

end Glum
