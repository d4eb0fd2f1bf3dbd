import Verif.Model.Finite
import Verif.Props.Ieee
import Mathlib.Tactic.Linarith
import Mathlib.Tactic.NormNum
/-
C108: NaN and infinite arguments — which are rejected, and what the accepted ones do.
-/
set_option linter.unusedSectionVars false
set_option linter.unusedVariables false
set_option linter.unusedSimpArgs false
namespace Glum

/-! ### What is rejected -/

namespace Spec

/-- A finite number. -/
def Num (x : FV) : Prop := ∃ r : ℝ, x = .num r

/-- An array of the right length (1-d, with elements). -/
def ArrayOk (n ndim len : ℕ) : Prop := ndim ≤ 1 ∧ len = n ∧ 0 < n

/-- The offset is fine: none, any scalar, or an array of the right length with finite numbers. -/
def OffsetOk (n : ℕ) : NumArg → Prop
  | .none => True
  | .scalar _ => True
  | .array ndim len v => ArrayOk n ndim len ∧ ∀ i < n, Num (v i)

/-- Bounds are fine: none, any scalar, or an array of the right length with any entries. -/
def BoundsOk (p : ℕ) : NumArg → Prop
  | .none => True
  | .scalar _ => True
  | .array ndim len _ => ArrayOk p ndim len

/-- The entries a bounds argument stands for. -/
def boundAt : NumArg → ℕ → Option FV
  | .none, _ => none
  | .scalar c, _ => some c
  | .array _ _ v, j => some (v j)

/-- `P1` is fine: `'identity'`; `None` only without input check; or an array of the right length, of non-negative numbers (or +infinity) with the input
check, of anything without it. -/
def P1Ok (p : ℕ) (checkInput : Bool) : P1ArgF → Prop
  | .identity => True
  | .none => checkInput = false
  | .array len v => len = p ∧ (checkInput = true → ∀ j < p, v j = .pinf ∨ ∃ r : ℝ, 0 ≤ r ∧ v j = .num r)

/-- Negative. -/
def Negative (x : FV) : Prop := x = .ninf ∨ ∃ r : ℝ, r < 0 ∧ x = .num r

/-- Greater (NaN is not). -/
def Above (x y : FV) : Prop := FV.lt y x

end Spec

open Spec

theorem num_iff (x : FV) : x.isFinite ↔ Num x := by
  cases x with
  | num r => exact ⟨fun _ => ⟨r, rfl⟩, fun _ => trivial⟩
  | nan => exact ⟨fun h => h.elim, fun ⟨r, hr⟩ => by cases hr⟩
  | pinf => exact ⟨fun h => h.elim, fun ⟨r, hr⟩ => by cases hr⟩
  | ninf => exact ⟨fun h => h.elim, fun ⟨r, hr⟩ => by cases hr⟩

theorem ge0_iff (x : FV) : x.ge0 ↔ x = .pinf ∨ ∃ r : ℝ, 0 ≤ r ∧ x = .num r := by
  cases x with
  | num r => exact ⟨fun h => Or.inr ⟨r, h, rfl⟩, fun h => by rcases h with h | ⟨s, hs, e⟩ <;> [cases h; (cases e; exact hs)]⟩
  | nan => exact ⟨fun h => h.elim, fun h => by rcases h with h | ⟨s, hs, e⟩ <;> [cases h; cases e]⟩
  | pinf => exact ⟨fun _ => Or.inl rfl, fun _ => trivial⟩
  | ninf => exact ⟨fun h => h.elim, fun h => by rcases h with h | ⟨s, hs, e⟩ <;> [cases h; cases e]⟩

theorem lt0_iff (x : FV) : x.lt0 ↔ Negative x := by
  unfold Negative
  cases x with
  | num r => exact ⟨fun h => Or.inr ⟨r, h, rfl⟩, fun h => by rcases h with h | ⟨s, hs, e⟩ <;> [cases h; (cases e; exact hs)]⟩
  | nan => exact ⟨fun h => h.elim, fun h => by rcases h with h | ⟨s, hs, e⟩ <;> [cases h; cases e]⟩
  | pinf => exact ⟨fun h => h.elim, fun h => by rcases h with h | ⟨s, hs, e⟩ <;> [cases h; cases e]⟩
  | ninf => exact ⟨fun _ => Or.inl rfl, fun _ => trivial⟩

theorem offset_some (n : ℕ) (a : NumArg) : (∃ o, checkOffsetF n a = some o) ↔ OffsetOk n a := by
  cases a with
  | none => exact ⟨fun _ => trivial, fun _ => ⟨_, rfl⟩⟩
  | scalar c => exact ⟨fun _ => trivial, fun _ => ⟨_, rfl⟩⟩
  | array nd len v =>
    simp only [checkOffsetF, OffsetOk, ArrayOk]
    constructor
    · rintro ⟨o, h⟩
      split_ifs at h with h1 h2 h3 h4
      push Not at h2 h4
      subst h4
      exact ⟨⟨by omega, rfl, Nat.pos_of_ne_zero h1⟩, fun i hi => (num_iff _).1 (h2 i hi)⟩
    · rintro ⟨⟨h1, rfl, h3⟩, h4⟩
      rw [if_neg h3.ne', if_neg (by push Not; exact fun i hi => (num_iff _).2 (h4 i hi)), if_neg (by omega), if_neg (by simp)]
      exact ⟨_, rfl⟩

theorem bounds_some (p : ℕ) (a : NumArg) : (∃ o, checkBoundsF p a = some o) ↔ BoundsOk p a := by
  cases a with
  | none => exact ⟨fun _ => trivial, fun _ => ⟨_, rfl⟩⟩
  | scalar c => exact ⟨fun _ => trivial, fun _ => ⟨_, rfl⟩⟩
  | array nd len v =>
    simp only [checkBoundsF, BoundsOk, ArrayOk]
    constructor
    · rintro ⟨o, h⟩
      split_ifs at h with h1 h3 h4
      push Not at h4
      subst h4
      exact ⟨by omega, rfl, Nat.pos_of_ne_zero h1⟩
    · rintro ⟨h1, rfl, h3⟩
      rw [if_neg h3.ne', if_neg (by omega), if_neg (by simp)]
      exact ⟨_, rfl⟩

theorem bounds_at (p : ℕ) (a : NumArg) (o : Option (Fin p → FV)) (h : checkBoundsF p a = some o) (j : Fin p) : o.map (· j) = boundAt a j := by
  cases a with
  | none => cases h; rfl
  | scalar c => cases h; rfl
  | array nd len v =>
    simp only [checkBoundsF] at h
    split_ifs at h
    cases h; rfl

theorem p1_some (p : ℕ) (ci : Bool) (l1 : FV) (a : P1ArgF) : (∃ o, checkP1F p ci l1 a = some o) ↔ P1Ok p ci a := by
  cases a with
  | identity => exact ⟨fun _ => trivial, fun _ => ⟨_, rfl⟩⟩
  | none =>
    unfold checkP1F P1Ok
    cases ci
    · exact ⟨fun _ => rfl, fun _ => ⟨_, rfl⟩⟩
    · exact ⟨fun ⟨o, h⟩ => (by cases h), fun h => (by cases h)⟩
  | array len v =>
    simp only [checkP1F, P1Ok]
    constructor
    · rintro ⟨o, h⟩
      split_ifs at h with h1 h2
      push Not at h2
      subst h2
      refine ⟨rfl, fun hc j hj => ?_⟩
      by_contra hcon
      exact h1 ⟨hc, j, hj, fun h => hcon ((ge0_iff _).1 h)⟩
    · rintro ⟨rfl, h⟩
      rw [if_neg, if_neg (by simp)]
      · exact ⟨_, rfl⟩
      · rintro ⟨hc, j, hj, hcon⟩
        exact hcon ((ge0_iff _).2 (h hc j hj))

/-- Everything the checks establish, and the arguments they pass on. -/
theorem check_inv {n p : ℕ} (I : InputF n p) (C : CheckedF n p) (h : I.check = some C) :
    ¬ Negative I.alpha ∧ ¬ Negative I.l1 ∧ ¬ Above I.l1 (.num 1) ∧ ¬ I.tol.le0 ∧ checkP1F p I.checkInput I.l1 I.P1 = some C.P1 ∧
      (I.forceAllFinite = true → ∀ i j, Num (I.X i j)) ∧ (∀ i, Num (I.y i)) ∧ checkWeightsF n I.forceAllFinite I.sw = some C.sw ∧
      checkOffsetF n I.offset = some C.offset ∧ checkBoundsF p I.lb = some C.lb ∧ checkBoundsF p I.ub = some C.ub ∧
      (¬ ∃ l u, C.lb = some l ∧ C.ub = some u ∧ ∃ j, FV.lt (u j) (l j)) ∧ (∀ x ∈ I.P2, Num x) ∧ ∀ x ∈ I.start, Num x := by
  unfold InputF.check at h
  rw [Option.ite_none_left_eq_some, Option.ite_none_left_eq_some, Option.ite_none_left_eq_some] at h
  obtain ⟨h1, h2, h3, h⟩ := h
  simp only [bind, Option.bind_eq_some_iff] at h
  obtain ⟨P1, e1, h⟩ := h
  by_cases h4 : I.forceAllFinite = true ∧ ∃ i j, ¬ (I.X i j).isFinite
  · rw [if_pos h4] at h; cases h
  rw [if_neg h4] at h
  by_cases h5 : ∃ i, ¬ (I.y i).isFinite
  · rw [if_pos h5] at h; cases h
  rw [if_neg h5] at h
  simp only [Option.bind_eq_some_iff] at h
  obtain ⟨sw, e2, off, e3, lb, e4, ub, e5, h⟩ := h
  split_ifs at h with h6 h7 h8
  obtain rfl := Option.some.inj h
  push Not at h2 h4 h5 h7 h8
  refine ⟨fun h => h1 ((lt0_iff _).2 h), fun h => h2.1 ((lt0_iff _).2 h), h2.2, h3, e1, fun hf i j => (num_iff _).1 (h4 hf i j), fun i => (num_iff _).1 (h5 i),
    e2, e3, e4, e5, h6, fun x hx => (num_iff _).1 (h7 x hx), fun x hx => (num_iff _).1 (h8 x hx)⟩

theorem check_intro {n p : ℕ} (I : InputF n p) (C : CheckedF n p) (h1 : ¬ Negative I.alpha) (h2 : ¬ Negative I.l1) (h2' : ¬ Above I.l1 (.num 1))
    (h3 : ¬ I.tol.le0) (e1 : checkP1F p I.checkInput I.l1 I.P1 = some C.P1) (h4 : I.forceAllFinite = true → ∀ i j, Num (I.X i j)) (h5 : ∀ i, Num (I.y i))
    (e2 : checkWeightsF n I.forceAllFinite I.sw = some C.sw) (e3 : checkOffsetF n I.offset = some C.offset) (e4 : checkBoundsF p I.lb = some C.lb)
    (e5 : checkBoundsF p I.ub = some C.ub) (h6 : ¬ ∃ l u, C.lb = some l ∧ C.ub = some u ∧ ∃ j, FV.lt (u j) (l j)) (h7 : ∀ x ∈ I.P2, Num x)
    (h8 : ∀ x ∈ I.start, Num x) : I.check = some C := by
  unfold InputF.check
  rw [if_neg (fun h => h1 ((lt0_iff _).1 h)), if_neg (by rintro (h | h) <;> [exact h2 ((lt0_iff _).1 h); exact h2' h]), if_neg h3, e1]
  simp only [bind, Option.bind_some]
  rw [if_neg (by rintro ⟨a, i, j, h⟩; exact h ((num_iff _).2 (h4 a i j))), if_neg (by push Not; exact fun i => (num_iff _).2 (h5 i)), e2, e3, e4, e5]
  simp only [Option.bind_some]
  rw [if_neg h6, if_neg (by push Not; exact fun x hx => (num_iff _).2 (h7 x hx)), if_neg (by push Not; exact fun x hx => (num_iff _).2 (h8 x hx))]

/-- **C108, what is accepted.**  A fit gets past the checks exactly if: `alpha` and `l1_ratio` are not negative, `l1_ratio` not above 1 and `gradient_tol` not
`<= 0` (comparisons: NaN passes all of them, +infinity all but the one for `l1_ratio`); `P1` is as in `P1Ok`; the design is finite, if `force_all_finite`;
the response, an offset array, a given `P2` and given start values are finite, always; bounds have the right length and no lower bound is above its upper
bound (NaN passes). -/
theorem c108_accepted_iff {n p : ℕ} (I : InputF n p) :
    (∃ C, I.check = some C) ↔
      ¬ Negative I.alpha ∧ ¬ Negative I.l1 ∧ ¬ Above I.l1 (.num 1) ∧ ¬ I.tol.le0 ∧ P1Ok p I.checkInput I.P1 ∧
      (I.forceAllFinite = true → ∀ i j, Num (I.X i j)) ∧ (∀ i, Num (I.y i)) ∧ (∃ w, checkWeightsF n I.forceAllFinite I.sw = some w) ∧
      OffsetOk n I.offset ∧ BoundsOk p I.lb ∧ BoundsOk p I.ub ∧
      (∀ j : Fin p, ∀ l u, boundAt I.lb j = some l → boundAt I.ub j = some u → ¬ Above l u) ∧ (∀ x ∈ I.P2, Num x) ∧ ∀ x ∈ I.start, Num x := by
  constructor
  · rintro ⟨C, h⟩
    obtain ⟨h1, h2, h2', h3, e1, h4, h5, e2, e3, e4, e5, h6, h7, h8⟩ := check_inv I C h
    refine ⟨h1, h2, h2', h3, (p1_some _ _ _ _).1 ⟨_, e1⟩, h4, h5, ⟨_, e2⟩, (offset_some _ _).1 ⟨_, e3⟩, (bounds_some _ _).1 ⟨_, e4⟩,
      (bounds_some _ _).1 ⟨_, e5⟩, ?_, h7, h8⟩
    intro j l u hl hu hlt
    rw [← bounds_at p _ _ e4 j, Option.map_eq_some_iff] at hl
    rw [← bounds_at p _ _ e5 j, Option.map_eq_some_iff] at hu
    obtain ⟨l', el, rfl⟩ := hl
    obtain ⟨u', eu, rfl⟩ := hu
    exact h6 ⟨l', u', el, eu, j, hlt⟩
  · rintro ⟨h1, h2, h2', h3, h9, h4, h5, ⟨w, e2⟩, h10, h11, h12, h6, h7, h8⟩
    obtain ⟨P1, e1⟩ := (p1_some p I.checkInput I.l1 _).2 h9
    obtain ⟨o, e3⟩ := (offset_some n _).2 h10
    obtain ⟨lb, e4⟩ := (bounds_some p _).2 h11
    obtain ⟨ub, e5⟩ := (bounds_some p _).2 h12
    refine ⟨⟨w, o, lb, ub, P1⟩, check_intro I _ h1 h2 h2' h3 e1 h4 h5 e2 e3 e4 e5 ?_ h7 h8⟩
    rintro ⟨l, u, rfl, rfl, j, hlt⟩
    exact h6 j (l j) (u j) (bounds_at p _ _ e4 j).symm (bounds_at p _ _ e5 j).symm hlt

theorem weights_finite (n : ℕ) (a : WeightArgF) (hs : ∀ c, a = .scalar c → Num c) (w : Fin n → FV) (h : checkWeightsF n true a = some w) (i : Fin n) :
    Num (w i) := by
  cases a with
  | none => cases h; exact ⟨1, rfl⟩
  | scalar c =>
    simp only [checkWeightsF] at h
    split_ifs at h
    cases h
    exact hs c rfl
  | array nd len v =>
    simp only [checkWeightsF] at h
    split_ifs at h with h1 h2 h3 h4 h5 h6
    cases h
    push Not at h2 h4
    exact (num_iff _).1 (h2 rfl i (by rw [h4]; exact i.isLt))

theorem fv_mul_num (x y : FV) (hx : Num x) (hy : Num y) : Num (FV.mul x y) := by
  obtain ⟨r, rfl⟩ := hx
  obtain ⟨s, rfl⟩ := hy
  exact ⟨_, rfl⟩

/-- **C108.** With `force_all_finite` (the default), if the scalar arguments are finite numbers and `P1` has no infinite entry, everything that goes on to the
solver is finite: design, response, weights, offset, penalties, start values.  (Partial: bounds may be anything, and scalars are not checked; see the
counterexamples.) -/
theorem c108_accepted_finite_partial {n p : ℕ} (I : InputF n p) (C : CheckedF n p) (h : I.check = some C) (hf : I.forceAllFinite = true)
    (hci : I.checkInput = true) (hsw : ∀ c, I.sw = .scalar c → Num c) (hoff : ∀ c, I.offset = .scalar c → Num c) (hl1 : Num I.l1)
    (hP1 : ∀ len v, I.P1 = .array len v → ∀ j, v j ≠ .pinf) :
    (∀ i j, Num (I.X i j)) ∧ (∀ i, Num (I.y i)) ∧ (∀ i, Num (C.sw i)) ∧ (∀ o, C.offset = some o → ∀ i, Num (o i)) ∧ (∀ j, Num (C.P1 j)) ∧
      (∀ x ∈ I.P2, Num x) ∧ ∀ x ∈ I.start, Num x := by
  obtain ⟨-, -, -, -, e1, h4, h5, e2, e3, -, -, -, h7, h8⟩ := check_inv I C h
  refine ⟨h4 hf, h5, ?_, ?_, ?_, h7, h8⟩
  · rw [hf] at e2
    exact weights_finite n _ hsw _ e2
  · intro o ho i
    rw [ho] at e3
    cases ea : I.offset with
    | none => rw [ea] at e3; cases e3
    | scalar c => rw [ea] at e3; cases e3; exact hoff c ea
    | array nd len v =>
      have hok := (offset_some n I.offset).1 ⟨_, e3⟩
      rw [ea] at e3 hok
      simp only [checkOffsetF] at e3
      split_ifs at e3
      cases e3
      exact hok.2 i i.isLt
  · intro j
    cases ea : I.P1 with
    | identity =>
      rw [ea] at e1
      obtain e1 := (congrFun (Option.some.inj e1) j).symm
      rw [e1]; exact fv_mul_num _ _ hl1 ⟨1, rfl⟩
    | none =>
      rw [ea, hci] at e1
      cases e1
    | array len v =>
      have hok := (p1_some p I.checkInput I.l1 I.P1).1 ⟨_, e1⟩
      rw [ea] at e1 hok
      simp only [checkP1F] at e1
      split_ifs at e1
      obtain e1 := (congrFun (Option.some.inj e1) j).symm
      rw [e1]
      refine fv_mul_num _ _ hl1 ?_
      rcases hok.2 hci j j.isLt with hp | ⟨r, -, hr⟩
      · exact absurd hp (hP1 len v ea j)
      · exact ⟨r, hr⟩

/-- **C108.** Even without `force_all_finite`, the response, an array offset, a given `P2` and given start values are finite if the fit gets past the
checks; and with the input check no entry of a given `P1` is negative or NaN. -/
theorem c108_always_finite {n p : ℕ} (I : InputF n p) (C : CheckedF n p) (h : I.check = some C) :
    (∀ i, Num (I.y i)) ∧ (∀ nd len v, I.offset = .array nd len v → ∀ o, C.offset = some o → ∀ i, Num (o i)) ∧ (∀ x ∈ I.P2, Num x) ∧
      (∀ x ∈ I.start, Num x) ∧ (I.checkInput = true → ∀ len v, I.P1 = .array len v → ∀ j < p, v j = .pinf ∨ ∃ r : ℝ, 0 ≤ r ∧ v j = .num r) := by
  obtain ⟨-, -, -, -, e1, h4, h5, e2, e3, -, -, -, h7, h8⟩ := check_inv I C h
  refine ⟨h5, ?_, h7, h8, ?_⟩
  · intro nd len v ea o ho i
    rw [ho] at e3
    have hok := (offset_some n I.offset).1 ⟨_, e3⟩
    rw [ea] at e3 hok
    simp only [checkOffsetF] at e3
    split_ifs at e3
    cases e3
    exact hok.2 i i.isLt
  · intro hc len v ea
    have hok := (p1_some p I.checkInput I.l1 I.P1).1 ⟨_, e1⟩
    rw [ea] at hok
    exact hok.2 hc

/-! ### What is accepted although it is not a finite number -/

/-- A well-formed input: two rows, one feature. -/
noncomputable def finEx : InputF 2 1 where
  X := fun i _ => if i = 0 then .num 1 else .num 2
  y := fun _ => .num 3
  sw := .array 1 2 fun i => if i = 0 then .num 1 else .num 3
  offset := .array 1 2 fun _ => .num (-1)
  lb := .scalar (.num (-5))
  ub := .none
  alpha := .num 1
  l1 := .num (1 / 2)
  tol := .num (1 / 10000)
  P1 := .array 1 fun _ => .num 2
  P2 := [.num 1]
  start := [.num 0, .num 1]
  forceAllFinite := true
  checkInput := true

theorem finEx_weights : ∃ w, checkWeightsF 2 true finEx.sw = some w := by
  show ∃ w, checkWeightsF 2 true (.array 1 2 fun i => if i = 0 then .num 1 else .num 3) = some w
  simp only [checkWeightsF]
  rw [if_neg (by norm_num), if_neg, if_neg (by norm_num), if_neg (by norm_num), if_neg, if_neg]
  · exact ⟨_, rfl⟩
  · intro h
    simp [FV.sum, FV.add, List.range_succ] at h
    norm_num at h
  · rintro ⟨i, hi, h⟩
    by_cases h0 : i = 0
    · rw [if_pos h0] at h; norm_num [FV.lt0] at h
    · rw [if_neg h0] at h; norm_num [FV.lt0] at h
  · rintro ⟨-, i, hi, h⟩
    by_cases h0 : i = 0
    · rw [if_pos h0] at h; exact h trivial
    · rw [if_neg h0] at h; exact h trivial

/-- A helper: `finEx` with some scalars replaced. -/
theorem finEx_variant (alpha l1 tol : FV) (off : NumArg) (lb ub : NumArg) (P1 : P1ArgF) (ha : ¬ Negative alpha) (hl : ¬ Negative l1)
    (hl' : ¬ Above l1 (.num 1)) (ht : ¬ tol.le0) (hoff : OffsetOk 2 off) (hlb : BoundsOk 1 lb) (hub : BoundsOk 1 ub)
    (hb : ∀ j : Fin 1, ∀ l u, boundAt lb j = some l → boundAt ub j = some u → ¬ Above l u) (hP : P1Ok 1 true P1) :
    ∃ C, ({ finEx with alpha := alpha, l1 := l1, tol := tol, offset := off, lb := lb, ub := ub, P1 := P1 } : InputF 2 1).check = some C := by
  rw [c108_accepted_iff]
  refine ⟨ha, hl, hl', ht, hP, fun _ i j => ?_, fun i => ⟨3, rfl⟩, finEx_weights, hoff, hlb, hub, hb, ?_, ?_⟩
  · show Num (if i = 0 then .num 1 else .num 2)
    by_cases h : i = 0
    · rw [if_pos h]; exact ⟨1, rfl⟩
    · rw [if_neg h]; exact ⟨2, rfl⟩
  · intro x hx
    obtain rfl : x = .num 1 := by simpa [finEx] using hx
    exact ⟨1, rfl⟩
  · intro x hx
    have : x = .num 0 ∨ x = .num 1 := by simpa [finEx] using hx
    rcases this with rfl | rfl
    · exact ⟨0, rfl⟩
    · exact ⟨1, rfl⟩

theorem not_neg_num (r : ℝ) (h : 0 ≤ r) : ¬ Negative (.num r) := by
  rintro (h' | ⟨s, hs, e⟩)
  · cases h'
  · cases e; exact absurd h (not_le.2 hs)

theorem not_neg_nan : ¬ Negative .nan := by
  rintro (h' | ⟨s, hs, e⟩) <;> [cases h'; cases e]

theorem not_neg_pinf : ¬ Negative .pinf := by
  rintro (h' | ⟨s, hs, e⟩) <;> [cases h'; cases e]

/-- **C108, the full statement fails** (every argument that gets past the checks is meaningful): with all input checks on, these are accepted:
`alpha` NaN or infinite, `l1_ratio` NaN, `gradient_tol` NaN, a scalar offset NaN or infinite, lower bound +infinity or NaN. -/
theorem c108_counterexample :
    (∀ alpha : FV, (alpha = .nan ∨ alpha = .pinf) → ∃ C, ({ finEx with alpha := alpha } : InputF 2 1).check = some C) ∧
    (∃ C, ({ finEx with l1 := .nan } : InputF 2 1).check = some C) ∧
    (∃ C, ({ finEx with tol := .nan } : InputF 2 1).check = some C) ∧
    (∀ c : FV, ∃ C, ({ finEx with offset := .scalar c } : InputF 2 1).check = some C) ∧
    (∀ c : FV, ∃ C, ({ finEx with lb := .scalar c } : InputF 2 1).check = some C) := by
  have h1 : ¬ Negative (.num (1 / 2)) := not_neg_num _ (by norm_num)
  have h1' : ¬ Above (.num (1 / 2)) (.num 1) := by show ¬ ((1 : ℝ) < 1 / 2); norm_num
  have h2 : ¬ (FV.num (1 / 10000)).le0 := by unfold FV.le0; norm_num
  have h3 : ¬ Negative (.num 1) := not_neg_num _ (by norm_num)
  have h4 : OffsetOk 2 (.array 1 2 fun _ => .num (-1)) := ⟨⟨le_rfl, rfl, by norm_num⟩, fun i _ => ⟨-1, rfl⟩⟩
  have h5 : P1Ok 1 true (.array 1 fun _ => .num 2) := ⟨rfl, fun _ j _ => Or.inr ⟨2, by norm_num, rfl⟩⟩
  have hb : ∀ c : FV, ∀ j : Fin 1, ∀ l u, boundAt (.scalar c) j = some l → boundAt .none j = some u → ¬ Above l u := fun c j l u _ h => by cases h
  refine ⟨?_, ?_, ?_, ?_, ?_⟩
  · intro a ha
    refine finEx_variant a _ _ _ _ _ _ ?_ h1 h1' h2 h4 trivial trivial (hb _) h5
    rcases ha with rfl | rfl <;> [exact not_neg_nan; exact not_neg_pinf]
  · exact finEx_variant _ .nan _ _ _ _ _ h3 not_neg_nan (fun h => h) h2 h4 trivial trivial (hb _) h5
  · exact finEx_variant _ _ .nan _ _ _ _ h3 h1 h1' (fun h => h) h4 trivial trivial (hb _) h5
  · intro c
    exact finEx_variant _ _ _ (.scalar c) _ _ _ h3 h1 h1' h2 trivial trivial trivial (hb _) h5
  · intro c
    exact finEx_variant _ _ _ _ (.scalar c) _ _ h3 h1 h1' h2 h4 trivial trivial (hb _) h5

/-- The unchanged example is accepted (a case that meets the hypotheses of `c108_accepted_finite_partial`). -/
theorem c108_example : ∃ C, finEx.check = some C :=
  c108_counterexample.2.2.2.2 (.num (-5))

/-- **Finding F40.** `P1=None`, which the documentation allows, is rejected with an exception when `check_input` is on (the default), whatever the other
arguments; without `check_input` it is the same as `'identity'`. -/
theorem c108_p1_none_counterexample {n p : ℕ} (I : InputF n p) (h : I.P1 = .none) :
    (I.checkInput = true → I.check = none) ∧ (I.checkInput = false → I.check = ({ I with P1 := .identity } : InputF n p).check) := by
  constructor
  · intro hc
    cases e : I.check with
    | none => rfl
    | some C =>
      have := (p1_some p I.checkInput I.l1 I.P1).1 ⟨_, (check_inv I C e).2.2.2.2.1⟩
      rw [h] at this
      have h' : I.checkInput = false := this
      rw [hc] at h'
      cases h'
  · intro hc
    unfold InputF.check
    simp only
    rw [h, hc]
    rfl

/-! ### What the accepted values do -/

section Solver

variable {F : Type} (A : Ieee F) {n m : ℕ}

/-- **C108.** A NaN L1 penalty of any feature makes the IRLS solver raise (whatever the inner solver and the line search, for any start).  This is what NaN
for `alpha` or `l1_ratio`, or a NaN in `P1` without `check_input`, comes to (`c108_nan_alpha`, `c108_nan_l1_ratio`). -/
theorem c108_nan_penalty_raises (D : IrlsI F n m) (k : Fin m) (hk : D.ic.toNat ≤ k.val) (hP : A.isNaN (D.P1 (k.val - D.ic.toNat)))
    (dir : StateI F n m → Option (Fin m → F)) (trial : StateI F n m → ℕ) (coef : Fin m → F) : irlsRunI A D dir trial coef = none := by
  unfold irlsRunI irlsInitI
  simp only
  rw [if_neg]
  · rfl
  · rintro ⟨h, -⟩
    exact A.finite_not_nan _ (h k hk) (A.mul_left _ _ hP)

/-- **C108.** A NaN `gradient_tol` (without a step-size tolerance): the IRLS solver never reports convergence; if it returns, it has made `max_iter`
iterations and the warning is raised. -/
theorem c108_nan_tolerance (D : IrlsI F n m) (ht : D.stepTol = none) (hg : A.isNaN D.gradTol) (dir : StateI F n m → Option (Fin m → F))
    (trial : StateI F n m → ℕ) (coef : Fin m → F) (fin : StateI F n m) (h : irlsRunI A D dir trial coef = some fin) :
    fin.converged = false ∧ fin.nIter = D.maxIter := by
  have hconv : ∀ c s sc, D.conv A c s sc = false := by
    intro c s sc
    unfold IrlsI.conv
    rw [ht]
    simp only [Bool.or_false]
    cases e : A.lt (normMinSubgradI A c (fun k => A.neg (sc k)) D.P1 D.ic D.lb D.ub) D.gradTol with
    | false => rfl
    | true => exact absurd hg (A.lt_num _ _ e).2
  have hstep : ∀ st st', irlsStepI A D dir trial st = some st' → st'.converged = false ∧ st'.nIter = st.nIter + 1 := by
    intro st st' hs
    unfold irlsStepI at hs
    rw [Option.bind_eq_some_iff] at hs
    obtain ⟨d, -, hs⟩ := hs
    simp only at hs
    split at hs
    · obtain rfl := Option.some.inj hs
      exact ⟨hconv _ _ _, rfl⟩
    · cases hs
  unfold irlsRunI at h
  rw [Option.bind_eq_some_iff] at h
  obtain ⟨st, e, h⟩ := h
  obtain ⟨-, -, hn, -, -, hc⟩ := init_spec A D coef st e
  rw [hconv] at hc
  have key : ∀ fuel (s s' : StateI F n m), s.converged = false → s.nIter + fuel = D.maxIter → irlsLoopI A D dir trial fuel s = some s' →
      s'.converged = false ∧ s'.nIter = D.maxIter := by
    intro fuel
    induction fuel with
    | zero =>
      intro s s' hs hi hl
      simp only [irlsLoopI] at hl
      obtain rfl := Option.some.inj hl
      exact ⟨hs, hi⟩
    | succ fuel ih =>
      intro s s' hs hi hl
      simp only [irlsLoopI] at hl
      rw [if_pos ⟨by omega, hs⟩, Option.bind_eq_some_iff] at hl
      obtain ⟨s1, e1, hl⟩ := hl
      obtain ⟨a, b⟩ := hstep s s1 e1
      exact ih s1 s' a (by omega) hl
  exact key _ st fin hc (by omega) h

/-- **C108.** A NaN lower (or upper) bound is no bound for the stopping rule: the term of its coefficient is that of a coefficient without the bound. -/
theorem c108_nan_bound_subgradient (c g P1 : F) (lb ub : Option F) :
    (∀ l, A.isNaN l → subgradTermI A c g P1 (some l) ub = subgradTermI A c g P1 none ub) ∧
    (∀ u, A.isNaN u → subgradTermI A c g P1 lb (some u) = subgradTermI A c g P1 lb none) := by
  constructor
  · intro l hl
    unfold subgradTermI
    simp only [eq_nan_right A hl, Bool.false_and, Bool.false_eq_true, if_false]
  · intro u hu
    unfold subgradTermI
    simp only [eq_nan_right A hu, Bool.false_and, Bool.false_eq_true, if_false]

theorem lt_nan_r {x y : F} (h : A.isNaN y) : A.lt x y = false := by
  cases e : A.lt x y with
  | false => rfl
  | true => exact absurd h (A.lt_num _ _ e).2

theorem lt_nan_l {x y : F} (h : A.isNaN x) : A.lt x y = false := by
  cases e : A.lt x y with
  | false => rfl
  | true => exact absurd h (A.lt_num _ _ e).1

/-- **C108.** ... and for coordinate descent: with all lower (or all upper) bounds NaN, it visits the same points as without them. -/
theorem c108_nan_bound_descent {a : ℕ} (D : CDDataI F m a) (visits : List (Fin a)) (w q : Fin m → F) :
    (∀ l, (∀ j, A.isNaN (l j)) → ({ D with lb := some l } : CDDataI F m a).run A visits w q = ({ D with lb := none } : CDDataI F m a).run A visits w q) ∧
    (∀ u, (∀ j, A.isNaN (u j)) → ({ D with ub := some u } : CDDataI F m a).run A visits w q = ({ D with ub := none } : CDDataI F m a).run A visits w q) := by
  constructor
  · intro l hl
    have hc : ∀ i v, CDDataI.clamp A { D with lb := some l } i v = CDDataI.clamp A { D with lb := none } i v := by
      intro i v
      unfold CDDataI.clamp
      simp only [lt_nan_r A (hl _), Bool.false_eq_true, if_false]
    have hv : ∀ s st, CDDataI.visit A { D with lb := some l } s st = CDDataI.visit A { D with lb := none } s st := by
      intro s st
      unfold CDDataI.visit
      simp only [hc]
    unfold CDDataI.run
    simp only [hv]
  · intro u hu
    have hc : ∀ i v, CDDataI.clamp A { D with ub := some u } i v = CDDataI.clamp A { D with ub := none } i v := by
      intro i v
      unfold CDDataI.clamp
      simp only [lt_nan_l A (hu _), Bool.false_eq_true, if_false]
    have hv : ∀ s st, CDDataI.visit A { D with ub := some u } s st = CDDataI.visit A { D with ub := none } s st := by
      intro s st
      unfold CDDataI.visit
      simp only [hc]
    unfold CDDataI.run
    simp only [hv]

end Solver

theorem fv_ninf_lt (x : FV) : ¬ FV.lt x .ninf := by cases x <;> exact fun h => h

theorem fv_pinf_lt (x : FV) : ¬ FV.lt .pinf x := by cases x <;> exact fun h => h

/-- **C108.** Infinite bounds are no bounds: with lower bound -infinity and upper bound +infinity coordinate descent visits the same points as without
bounds, and so do the terms of the stopping rule at a finite coefficient. -/
theorem c108_infinite_bounds {m a : ℕ} (D : CDDataI FV m a) (visits : List (Fin a)) (w q : Fin m → FV) (c g P1 : FV) (hcf : Num c) :
    ({ D with lb := some fun _ => .ninf, ub := some fun _ => .pinf } : CDDataI FV m a).run fvIeee visits w q =
      ({ D with lb := none, ub := none } : CDDataI FV m a).run fvIeee visits w q ∧
    subgradTermI fvIeee c g P1 (some .ninf) (some .pinf) = subgradTermI fvIeee c g P1 none none := by
  have h1 : ∀ x, fvIeee.lt x .ninf = false := fun x => by classical exact decide_eq_false (fv_ninf_lt x)
  have h2 : ∀ x, fvIeee.lt .pinf x = false := fun x => by classical exact decide_eq_false (fv_pinf_lt x)
  constructor
  · have hc : ∀ i v, CDDataI.clamp fvIeee { D with lb := some fun _ => .ninf, ub := some fun _ => .pinf } i v =
        CDDataI.clamp fvIeee { D with lb := none, ub := none } i v := by
      intro i v
      unfold CDDataI.clamp
      simp only [h1, h2, Bool.false_eq_true, if_false]
    have hv : ∀ s st, CDDataI.visit fvIeee { D with lb := some fun _ => .ninf, ub := some fun _ => .pinf } s st =
        CDDataI.visit fvIeee { D with lb := none, ub := none } s st := by
      intro s st
      unfold CDDataI.visit
      simp only [hc]
    unfold CDDataI.run
    simp only [hv]
  · obtain ⟨r, rfl⟩ := hcf
    have e1 : fvIeee.eq (.num r) .ninf = false := by classical exact decide_eq_false (fun h => by cases h.1)
    have e2 : fvIeee.eq (.num r) .pinf = false := by classical exact decide_eq_false (fun h => by cases h.1)
    unfold subgradTermI
    simp only [e1, e2, Bool.false_and, Bool.false_eq_true, if_false]

/-! ### From the arguments to the solver -/

theorem fv_mul_nan_left (x : FV) : FV.isNaN (FV.mul .nan x) := by cases x <;> trivial

theorem fv_mul_nan_right (x : FV) : FV.isNaN (FV.mul x .nan) := by cases x <;> trivial

theorem isNaN_eq (x : FV) (h : x.isNaN) : x = .nan := by cases x <;> simp_all [FV.isNaN]

/-- **C108.** `alpha` NaN, or `l1_ratio` NaN, or both: whatever else is passed, if the solver is `irls-cd` or `irls-ls`, there is a feature and the
predictors are not scaled (so that the penalty of feature `j` is `P1[j] * alpha`), the fit raises. -/
theorem c108_nan_alpha_raises {n p : ℕ} (I : InputF n p) (C : CheckedF n p) (h : I.check = some C) (hnan : I.alpha = .nan ∨ I.l1 = .nan) (hp : 0 < p)
    {m : ℕ} (D : IrlsI FV n m) (hm : m = p + D.ic.toNat) (hP : ∀ j : Fin p, D.P1 j = FV.mul (C.P1 j) I.alpha)
    (dir : StateI FV n m → Option (Fin m → FV)) (trial : StateI FV n m → ℕ) (coef : Fin m → FV) : irlsRunI fvIeee D dir trial coef = none := by
  refine c108_nan_penalty_raises fvIeee D ⟨D.ic.toNat, by omega⟩ le_rfl ?_ dir trial coef
  have h0 : D.P1 (D.ic.toNat - D.ic.toNat) = FV.mul (C.P1 ⟨0, hp⟩) I.alpha := by
    rw [Nat.sub_self]; exact hP ⟨0, hp⟩
  show FV.isNaN (D.P1 (D.ic.toNat - D.ic.toNat))
  rw [h0]
  rcases hnan with ha | hl
  · rw [ha]; exact fv_mul_nan_right _
  · have e1 := (check_inv I C h).2.2.2.2.1
    have hq : C.P1 ⟨0, hp⟩ = .nan := by
      rw [hl] at e1
      cases ea : I.P1 with
      | identity => rw [ea] at e1; obtain e1 := (congrFun (Option.some.inj e1) ⟨0, hp⟩).symm; rw [e1]; exact isNaN_eq _ (fv_mul_nan_left _)
      | none =>
        rw [ea] at e1
        simp only [checkP1F] at e1
        split_ifs at e1
        obtain e1 := (congrFun (Option.some.inj e1) ⟨0, hp⟩).symm
        rw [e1]; exact isNaN_eq _ (fv_mul_nan_left _)
      | array len v =>
        rw [ea] at e1
        simp only [checkP1F] at e1
        split_ifs at e1
        obtain e1 := (congrFun (Option.some.inj e1) ⟨0, hp⟩).symm
        rw [e1]; exact isNaN_eq _ (fv_mul_nan_left _)
    rw [hq]
    exact fv_mul_nan_left _

theorem fv_not_finite_inf (x y : FV) (hx : x = .pinf) : ¬ (FV.mul x y).isFinite := by
  subst hx
  cases y with
  | num y =>
    unfold FV.mul
    simp only
    by_cases h1 : y = 0
    · rw [if_pos h1]; exact fun h => h
    · rw [if_neg h1]
      by_cases h2 : 0 < y
      · rw [if_pos h2]; exact fun h => h
      · rw [if_neg h2]; exact fun h => h
  | nan => exact fun h => h
  | pinf => exact fun h => h
  | ninf => exact fun h => h

/-- **C108.** `alpha` infinite: the same (for `l1_ratio` 0 the product `0 * inf` is NaN, otherwise the L1 part of the objective is not finite). -/
theorem c108_infinite_alpha_raises {n p : ℕ} (I : InputF n p) (C : CheckedF n p) (h : I.check = some C) (hci : I.checkInput = true) (ha : I.alpha = .pinf)
    (hp : 0 < p) {m : ℕ} (D : IrlsI FV n m) (hm : m = p + D.ic.toNat) (hP : ∀ j : Fin p, D.P1 j = FV.mul (C.P1 j) I.alpha)
    (dir : StateI FV n m → Option (Fin m → FV)) (trial : StateI FV n m → ℕ) (coef : Fin m → FV) : irlsRunI fvIeee D dir trial coef = none := by
  have h0 : D.P1 (D.ic.toNat - D.ic.toNat) = FV.mul (C.P1 ⟨0, hp⟩) .pinf := by
    rw [Nat.sub_self, ← ha]; exact hP ⟨0, hp⟩
  unfold irlsRunI irlsInitI
  simp only
  rw [if_neg]
  · rfl
  · rintro ⟨hok, -⟩
    have := hok ⟨D.ic.toNat, by omega⟩ le_rfl
    revert this
    show ¬ (FV.mul (D.P1 (D.ic.toNat - D.ic.toNat)) _).isFinite
    rw [h0]
    generalize coef _ = c
    generalize C.P1 ⟨0, hp⟩ = x
    cases x with
    | num x =>
      unfold FV.mul
      by_cases h1 : x = 0
      · simp only [h1, if_true]; cases c <;> exact fun h => h
      · by_cases h2 : 0 < x
        · simp only [h1, if_false, h2, if_true]
          exact fv_not_finite_inf _ c rfl
        · simp only [h1, if_false, h2]
          cases c with
          | num y =>
            simp only
            by_cases h1 : y = 0
            · rw [if_pos h1]; exact fun h => h
            · rw [if_neg h1]
              by_cases h2 : 0 < y
              · rw [if_pos h2]; exact fun h => h
              · rw [if_neg h2]; exact fun h => h
          | nan => exact fun h => h
          | pinf => exact fun h => h
          | ninf => exact fun h => h
    | nan => cases c <;> exact fun h => h
    | pinf => exact fv_not_finite_inf _ c rfl
    | ninf =>
      show ¬ (FV.mul .ninf c).isFinite
      cases c with
      | num y =>
        unfold FV.mul
        simp only
        by_cases h1 : y = 0
        · rw [if_pos h1]; exact fun h => h
        · rw [if_neg h1]
          by_cases h2 : 0 < y
          · rw [if_pos h2]; exact fun h => h
          · rw [if_neg h2]; exact fun h => h
      | nan => exact fun h => h
      | pinf => exact fun h => h
      | ninf => exact fun h => h

/-! ### Start values and NaN bounds -/

/-- **C108.** With a NaN in the lower bounds: if no start value is below its (other) bound, the start values are kept.  If one is, `np.maximum` carries the
NaN into the start values, and the IRLS solver raises. -/
theorem c108_nan_bound_start {n p : ℕ} (l coef : Fin p → FV) (j : Fin p) (hj : l j = .nan) :
    ((∀ k, ¬ FV.lt (coef k) (l k)) → clipLowF (some l) coef = coef) ∧
    ((∃ k, FV.lt (coef k) (l k)) → ¬ (coef j).isNaN → clipLowF (some l) coef j = .nan ∧
      ∀ (D : IrlsI FV n p) (dir : StateI FV n p → Option (Fin p → FV)) (trial : StateI FV n p → ℕ), D.ic = false →
        irlsRunI fvIeee D dir trial (clipLowF (some l) coef) = none) := by
  constructor
  · intro h
    unfold clipLowF
    simp only
    rw [if_neg (by push Not; exact h)]
  · intro h hc
    have e : clipLowF (some l) coef j = .nan := by
      unfold clipLowF FV.npMax
      simp only
      rw [if_pos h, if_neg hc, hj, if_pos (show FV.isNaN .nan from trivial)]
    refine ⟨e, fun D dir trial hic => ?_⟩
    cases er : irlsRunI fvIeee D dir trial (clipLowF (some l) coef) with
    | none => rfl
    | some fin =>
      exfalso
      unfold irlsRunI at er
      rw [Option.bind_eq_some_iff] at er
      obtain ⟨st, ei, -⟩ := er
      have := (init_spec fvIeee D _ st ei).2.1 j (by rw [hic]; exact Nat.zero_le _)
      have h2 := fvIeee.mul_finite_right _ _ this
      rw [e] at h2
      exact h2

/-- A case: bounds NaN and 1, start 0. -/
theorem c108_nan_bound_example : clipLowF (some fun k : Fin 2 => if k = 0 then FV.nan else .num 1) (fun _ => .num 0) 0 = .nan :=
  ((c108_nan_bound_start (n := 0) (fun k : Fin 2 => if k = 0 then FV.nan else .num 1) (fun _ => .num 0) 0 (if_pos rfl)).2
    ⟨1, by show FV.lt (.num 0) (if (1 : Fin 2) = 0 then FV.nan else .num 1); rw [if_neg (by decide)]; norm_num [FV.lt]⟩ (fun h => h)).1

end Glum
