import Verif.Model.Overflow
import Mathlib.Analysis.Complex.ExponentialBounds
/-
C115: the compiled loss routines in floating point.
-/
set_option linter.unusedSectionVars false
set_option linter.unusedVariables false
set_option linter.unusedSimpArgs false

namespace Glum

/-! ### Specification -/

/-- A number that is not negative, or plus infinity; not a NaN. -/
def Spec.NonNegF : FV → Prop
  | .num x => 0 ≤ x
  | .pinf => True
  | _ => False

/-- A number that is not positive, or minus infinity; not a NaN. -/
def Spec.NonPosF : FV → Prop
  | .num x => x ≤ 0
  | .ninf => True
  | _ => False

/-- A finite number. -/
def Spec.FiniteF (v : FV) : Prop := ∃ x, v = .num x

open Spec

variable (F : FloatSys)

/-! ### Operations -/

theorem fl_ne_nan (x : ℝ) : F.fl x ≠ .nan := by
  unfold FloatSys.fl
  split
  · simp
  · split <;> simp

theorem fl_eq_num (x v : ℝ) (h : F.fl x = .num v) : v = F.rd x ∧ F.Rep v := by
  unfold FloatSys.fl at h
  split at h
  · rename_i hb
    cases h
    exact ⟨rfl, F.idem x, hb⟩
  · split at h <;> cases h

theorem rep_zero : F.Rep 0 := ⟨F.zero, by rw [abs_zero]; linarith [F.two_le]⟩
theorem rep_one : F.Rep 1 := ⟨F.one, by rw [abs_one]; linarith [F.two_le]⟩
theorem rep_two : F.Rep 2 := ⟨F.two, by rw [abs_of_pos two_pos]; exact F.two_le⟩
theorem rep_big : F.Rep F.big := ⟨F.big_rd, le_of_eq (abs_of_nonneg (by linarith [F.two_le]))⟩
theorem rep_neg {x : ℝ} (h : F.Rep x) : F.Rep (-x) := ⟨by have := F.neg x; rwa [h.1] at this, by rw [abs_neg]; exact h.2⟩

theorem fl_between {a b x : ℝ} (ha : F.Rep a) (hb : F.Rep b) (h1 : a ≤ x) (h2 : x ≤ b) :
    ∃ v, F.fl x = .num v ∧ a ≤ v ∧ v ≤ b ∧ F.Rep v := by
  have h3 : a ≤ F.rd x := by have := F.mono _ _ h1; rwa [ha.1] at this
  have h4 : F.rd x ≤ b := by have := F.mono _ _ h2; rwa [hb.1] at this
  have h5 : |F.rd x| ≤ F.big := abs_le.2 ⟨by linarith [(abs_le.1 ha.2).1], by linarith [(abs_le.1 hb.2).2]⟩
  exact ⟨F.rd x, if_pos h5, h3, h4, F.idem x, h5⟩

theorem fl_nonneg {x : ℝ} (h : 0 ≤ x) : NonNegF (F.fl x) := by
  have h0 : 0 ≤ F.rd x := by have := F.mono _ _ h; rwa [F.zero] at this
  unfold FloatSys.fl
  split
  · exact h0
  · rename_i hb
    rw [if_pos]
    · trivial
    · rcases h.lt_or_eq with h | h
      · exact h
      · exfalso
        rw [← h, F.zero, abs_zero] at hb
        exact hb (by linarith [F.two_le])

theorem fl_nonpos {x : ℝ} (h : x ≤ 0) : NonPosF (F.fl x) := by
  have h0 : F.rd x ≤ 0 := by have := F.mono _ _ h; rwa [F.zero] at this
  unfold FloatSys.fl
  split
  · exact h0
  · rw [if_neg (not_lt.2 h)]
    trivial

theorem infSign_ne_num (s x : ℝ) : FV.infSign s ≠ .num x := by
  unfold FV.infSign
  split
  · simp
  · split <;> simp

theorem mul_num_finite (w : ℝ) (v : FV) (h : FiniteF (F.mul (.num w) v)) : FiniteF v := by
  obtain ⟨t, h⟩ := h
  cases v with
  | num x => exact ⟨x, rfl⟩
  | nan => cases h
  | pinf => exact absurd h (infSign_ne_num _ _)
  | ninf => exact absurd h (infSign_ne_num _ _)

theorem add_finite (a b : FV) (h : FiniteF (F.add a b)) : FiniteF a ∧ FiniteF b := by
  obtain ⟨t, h⟩ := h
  cases a <;> cases b <;> first | exact ⟨⟨_, rfl⟩, ⟨_, rfl⟩⟩ | cases h

theorem neg_finite (a : FV) (h : FiniteF a.opp) : FiniteF a := by
  obtain ⟨t, h⟩ := h
  cases a <;> first | exact ⟨_, rfl⟩ | cases h

theorem sub_finite (a b : FV) (h : FiniteF (F.sub a b)) : FiniteF a ∧ FiniteF b :=
  ⟨(add_finite F a _ h).1, neg_finite b (add_finite F a _ h).2⟩

theorem add_nan (a b : FV) (h : a = .nan ∨ b = .nan) : F.add a b = .nan := by
  rcases h with rfl | rfl
  · cases b <;> rfl
  · cases a <;> rfl

theorem mul_pos_ne_nan {w : ℝ} (hw : 0 < w) (v : FV) (hv : v ≠ .nan) : F.mul (.num w) v ≠ .nan := by
  cases v with
  | num x => exact fl_ne_nan F _
  | nan => exact absurd rfl hv
  | pinf => show FV.infSign w ≠ .nan; unfold FV.infSign; rw [if_pos hw]; simp
  | ninf => show FV.infSign (-w) ≠ .nan; unfold FV.infSign; rw [if_neg (by linarith), if_pos (by linarith)]; simp

theorem mul_pos_pinf {w : ℝ} (hw : 0 < w) : F.mul (.num w) .pinf = .pinf := by
  show FV.infSign w = .pinf; unfold FV.infSign; rw [if_pos hw]

theorem mul_pos_nonneg {w : ℝ} (hw : 0 < w) (v : FV) (hv : NonNegF v) : NonNegF (F.mul (.num w) v) := by
  cases v with
  | num x => exact fl_nonneg F (mul_nonneg hw.le hv)
  | nan => exact hv.elim
  | pinf => rw [mul_pos_pinf F hw]; trivial
  | ninf => exact hv.elim

theorem mul_nonneg_nonpos {w x : ℝ} (hw : 0 ≤ w) (hx : x ≤ 0) : NonPosF (F.mul (.num w) (.num x)) :=
  fl_nonpos F (mul_nonpos_of_nonneg_of_nonpos hw hx)

theorem sq_nonneg_fl (v : FV) (hv : v ≠ .nan) : NonNegF (F.mul v v) := by
  cases v with
  | num x => exact fl_nonneg F (mul_self_nonneg x)
  | nan => exact absurd rfl hv
  | pinf => trivial
  | ninf => trivial

theorem div_pos_nonneg {y : ℝ} (hy : 0 < y) (v : FV) (hv : NonNegF v) : NonNegF (F.div v (.num y)) := by
  cases v with
  | num x => show NonNegF (if y = 0 then FV.infSign x else F.fl (x / y)); rw [if_neg hy.ne']; exact fl_nonneg F (div_nonneg hv hy.le)
  | nan => exact hv.elim
  | pinf => show NonNegF (if y < 0 then FV.ninf else FV.pinf); rw [if_neg (by linarith)]; trivial
  | ninf => exact hv.elim

/-- A positive number divided by a mean. -/
theorem div_mean_nonneg {y : ℝ} (hy : 0 < y) (mu : FV) (hmu : NonNegF mu) : NonNegF (F.div (.num y) mu) := by
  cases mu with
  | num m =>
    show NonNegF (if m = 0 then FV.infSign y else F.fl (y / m))
    split
    · unfold FV.infSign; rw [if_pos hy]; trivial
    · exact fl_nonneg F (div_nonneg hy.le hmu)
  | nan => exact hmu.elim
  | pinf => exact le_rfl
  | ninf => exact hmu.elim

theorem nonneg_ne_nan {v : FV} (h : NonNegF v) : v ≠ .nan := by rintro rfl; exact h
theorem nonpos_ne_nan {v : FV} (h : NonPosF v) : v ≠ .nan := by rintro rfl; exact h

theorem add_num_ne_nan (v : FV) (x : ℝ) (hv : v ≠ .nan) : F.add v (.num x) ≠ .nan := by
  cases v with
  | num y => exact fl_ne_nan F _
  | nan => exact absurd rfl hv
  | pinf => simp [FloatSys.add]
  | ninf => simp [FloatSys.add]

theorem num_add_ne_nan (v : FV) (x : ℝ) (hv : v ≠ .nan) : F.add (.num x) v ≠ .nan := by
  cases v with
  | num y => exact fl_ne_nan F _
  | nan => exact absurd rfl hv
  | pinf => simp [FloatSys.add]
  | ninf => simp [FloatSys.add]

theorem neg_ne_nan (v : FV) (hv : v ≠ .nan) : v.opp ≠ .nan := by
  cases v <;> simp [FV.opp] at hv ⊢

theorem add_nonneg (a b : FV) (ha : NonNegF a) (hb : NonNegF b) : NonNegF (F.add a b) := by
  cases a with
  | num x => cases b with
    | num y => exact fl_nonneg F (by have : 0 ≤ x := ha; have : 0 ≤ y := hb; linarith)
    | nan => exact hb.elim
    | pinf => trivial
    | ninf => exact hb.elim
  | nan => exact ha.elim
  | pinf => cases b <;> first | trivial | exact hb.elim
  | ninf => exact ha.elim

theorem add_nonpos (a b : FV) (ha : NonPosF a) (hb : NonPosF b) : NonPosF (F.add a b) := by
  cases a with
  | num x => cases b with
    | num y => exact fl_nonpos F (by have : x ≤ 0 := ha; have : y ≤ 0 := hb; linarith)
    | nan => exact hb.elim
    | pinf => exact hb.elim
    | ninf => trivial
  | nan => exact ha.elim
  | ninf => cases b <;> first | trivial | exact hb.elim
  | pinf => exact ha.elim

/-! ### Sums -/

theorem fvSum_nonneg {ι : Type} (t : ι → FV) (T : SumTree ι) (h : ∀ i ∈ T.leaves, NonNegF (t i)) : NonNegF (T.fvSum F t) := by
  induction T with
  | empty => exact le_rfl
  | leaf i => exact h i (List.mem_singleton.2 rfl)
  | node l r hl hr =>
    exact add_nonneg F _ _ (hl fun i hi => h i (List.mem_append_left _ hi)) (hr fun i hi => h i (List.mem_append_right _ hi))

theorem fvSum_nonpos {ι : Type} (t : ι → FV) (T : SumTree ι) (h : ∀ i ∈ T.leaves, NonPosF (t i)) : NonPosF (T.fvSum F t) := by
  induction T with
  | empty => exact le_rfl
  | leaf i => exact h i (List.mem_singleton.2 rfl)
  | node l r hl hr =>
    exact add_nonpos F _ _ (hl fun i hi => h i (List.mem_append_left _ hi)) (hr fun i hi => h i (List.mem_append_right _ hi))

theorem fvSum_finite {ι : Type} (t : ι → FV) (T : SumTree ι) (h : FiniteF (T.fvSum F t)) : ∀ i ∈ T.leaves, FiniteF (t i) := by
  induction T with
  | empty => intro i hi; cases hi
  | leaf j => intro i hi; rw [List.mem_singleton.1 hi]; exact h
  | node l r hl hr =>
    have := add_finite F _ _ h
    intro i hi
    rcases List.mem_append.1 hi with hi | hi
    · exact hl this.1 i hi
    · exact hr this.2 i hi

theorem fvSum_nan {ι : Type} (t : ι → FV) (T : SumTree ι) (i : ι) (hi : i ∈ T.leaves) (h : t i = .nan) : T.fvSum F t = .nan := by
  induction T with
  | empty => cases hi
  | leaf j => rw [List.mem_singleton.1 hi] at h; exact h
  | node l r hl hr =>
    rcases List.mem_append.1 hi with hi | hi
    · exact add_nan F _ _ (Or.inl (hl hi))
    · exact add_nan F _ _ (Or.inr (hr hi))

theorem return_finite (k : Fast) (d : FV) (h : FiniteF (k.returnFl F d)) : FiniteF d := by
  cases k <;> first | exact h | exact mul_num_finite F _ _ h

theorem return_nan (k : Fast) : k.returnFl F .nan = .nan := by cases k <;> rfl

/-! ### Logistic regression -/

theorem exp_rep {x v : ℝ} (h : F.exp x = .num v) : 0 ≤ v ∧ F.Rep v := by
  rcases F.exp_range x with ⟨u, hu, h0, h1, h2⟩ | hp
  · rw [h] at hu; cases hu
    exact ⟨h0, h2, by rw [abs_of_nonneg h0]; exact h1⟩
  · rw [h] at hp; cases hp

theorem exp_neg_arg {x : ℝ} (hx : x ≤ 0) : ∃ v, F.exp x = .num v ∧ 0 ≤ v ∧ v ≤ 1 ∧ F.Rep v := by
  obtain ⟨v, hv, h1⟩ := F.exp_nonpos x hx
  exact ⟨v, hv, (exp_rep F hv).1, h1, (exp_rep F hv).2⟩

/-- `1 + e` with `0 ≤ e ≤ 1`. -/
theorem one_add {e : ℝ} (h0 : 0 ≤ e) (h1 : e ≤ 1) : ∃ s, F.fl (1 + e) = .num s ∧ 1 ≤ s ∧ s ≤ 2 ∧ F.Rep s :=
  fl_between F (rep_one F) (rep_two F) (by linarith) (by linarith)

theorem log_rep (x : ℝ) : F.Rep (F.log x) := ⟨(F.log_range x).2, (F.log_range x).1⟩

theorem fl_rep {x : ℝ} (h : F.Rep x) : F.fl x = .num x := by
  unfold FloatSys.fl; rw [h.1, if_pos h.2]

theorem logF_pos {s : ℝ} (h : 0 < s) : F.logF (.num s) = .num (F.log s) := by
  show (if s = 0 then FV.ninf else if s < 0 then FV.nan else FV.num (F.log s)) = _
  rw [if_neg h.ne', if_neg (by linarith)]

/-- `c - l` with `-|eta| ≤ c ≤ 0` and `0 ≤ l ≤ 1`. -/
theorem sub_log {c l eta : ℝ} (hc : -|eta| ≤ c) (hc0 : c ≤ 0) (hl : 0 ≤ l) (hl1 : l ≤ 1) (hroom : |eta| + 1 ≤ F.big) :
    ∃ u, F.fl (c + -l) = .num u ∧ u ≤ 0 ∧ F.Rep u := by
  obtain ⟨u, hu, -, h2, h3⟩ := fl_between F (rep_neg F (rep_big F)) (rep_zero F) (x := c + -l) (by linarith) (by linarith)
  exact ⟨u, hu, h2, h3⟩

theorem mul_unit {w x : ℝ} (hw : 0 ≤ w) (hw1 : w ≤ 1) (hx : x ≤ 0) (hr : F.Rep x) : ∃ u, F.fl (w * x) = .num u ∧ u ≤ 0 ∧ x ≤ u := by
  obtain ⟨u, hu, h1, h2, -⟩ := fl_between F hr (rep_zero F) (x := w * x) (by nlinarith) (by nlinarith)
  exact ⟨u, hu, h2, h1⟩

/-- **Logistic regression: all numbers are finite and have the right sign**: for any response between 0 and 1, any normalised weight and any linear
predictor, however large, the mean is a number between 0 and 1, the loss is a finite number, the gradient is at most the weight and points towards the
response, and the curvature is between zero and the weight. -/
theorem c115_logit_rows (y w eta : ℝ) (hy : 0 ≤ y) (hy1 : y ≤ 1) (hyr : F.Rep y) (hw : 0 ≤ w) (hw1 : w ≤ 1) (hwr : F.Rep w) (her : F.Rep eta)
    (hroom : |eta| + 1 ≤ F.big) :
    ∃ m l g h, Fast.binomialLogit.muFl F eta = .num m ∧ 0 ≤ m ∧ m ≤ 1 ∧
      Fast.binomialLogit.rowFl F y w eta = .num l ∧ l ≤ 0 ∧
      Fast.binomialLogit.gradFl F y w (.num m) = .num g ∧ |g| ≤ w ∧ (y ≤ m → g ≤ 0) ∧ (m ≤ y → 0 ≤ g) ∧
      Fast.binomialLogit.hessFl F y w (.num m) = .num h ∧ 0 ≤ h ∧ h ≤ w := by
  have hmr : ∃ m, Fast.binomialLogit.muFl F eta = .num m ∧ 0 ≤ m ∧ m ≤ 1 ∧ F.Rep m := by
    unfold Fast.muFl
    simp only
    split
    · rename_i h0
      obtain ⟨e, he, e0, e1, -⟩ := exp_neg_arg F (x := -eta) (by linarith)
      obtain ⟨s, hs, s1, s2, -⟩ := one_add F e0 e1
      rw [he]
      show ∃ m, F.div (.num 1) (F.fl (1 + e)) = .num m ∧ _
      rw [hs]
      show ∃ m, (if s = 0 then FV.infSign 1 else F.fl (1 / s)) = .num m ∧ _
      rw [if_neg (by linarith)]
      exact fl_between F (rep_zero F) (rep_one F) (by positivity) (by rw [div_le_one (by linarith)]; exact s1)
    · rename_i h0
      obtain ⟨e, he, e0, e1, er⟩ := exp_neg_arg F (x := eta) (by linarith)
      have hs : ∃ s, F.fl (e + 1) = .num s ∧ 1 ≤ s ∧ e ≤ s := by
        obtain ⟨s, hs, s1, -, -⟩ := fl_between F (rep_one F) (rep_two F) (x := e + 1) (by linarith) (by linarith)
        exact ⟨s, hs, s1, by linarith⟩
      obtain ⟨s, hs, s1, s2⟩ := hs
      rw [he]
      show ∃ m, F.div (.num e) (F.fl (e + 1)) = .num m ∧ _
      rw [hs]
      show ∃ m, (if s = 0 then FV.infSign e else F.fl (e / s)) = .num m ∧ _
      rw [if_neg (by linarith)]
      exact fl_between F (rep_zero F) (rep_one F) (div_nonneg e0 (by linarith)) (by rw [div_le_one (by linarith)]; exact s2)
  obtain ⟨m, hm, m0, m1, hmrep⟩ := hmr
  have hl : ∃ l, Fast.binomialLogit.rowFl F y w eta = .num l ∧ l ≤ 0 := by
    unfold Fast.rowFl
    simp only
    split
    · rename_i h0
      obtain ⟨e, he, e0, e1, -⟩ := exp_neg_arg F (x := -eta) (by linarith)
      obtain ⟨s, hs, s1, s2, -⟩ := one_add F e0 e1
      obtain ⟨a, ha, a0, a1, -⟩ := fl_between F (rep_zero F) her (x := y * eta) (by positivity) (by nlinarith)
      obtain ⟨c, hc, c0, c1, -⟩ := fl_between F (rep_neg F her) (rep_zero F) (x := a + -eta) (by linarith) (by linarith)
      obtain ⟨u, hu, u0, ur⟩ := sub_log F (c := c) (l := F.log s) (eta := eta) (by rw [abs_of_pos h0]; exact c0) c1 (F.log_mid s s1 s2).1
        (F.log_mid s s1 s2).2 hroom
      obtain ⟨l, hl, l0, -⟩ := mul_unit F hw hw1 u0 ur
      refine ⟨l, ?_, l0⟩
      rw [he]
      show F.mul (.num w) (F.sub (F.sub (F.fl (y * eta)) (.num eta)) (F.logF (F.fl (1 + e)))) = _
      rw [ha, hs, logF_pos F (by linarith)]
      show F.mul (.num w) (F.add (F.fl (a + -eta)) (.num (-F.log s))) = _
      rw [hc]
      show F.mul (.num w) (F.fl (c + -F.log s)) = _
      rw [hu]
      exact hl
    · rename_i h0
      push Not at h0
      obtain ⟨e, he, e0, e1, -⟩ := exp_neg_arg F (x := eta) h0
      obtain ⟨s, hs, s1, s2, -⟩ := one_add F e0 e1
      obtain ⟨a, ha, a0, a1, -⟩ := fl_between F her (rep_zero F) (x := y * eta) (by nlinarith) (by nlinarith)
      obtain ⟨u, hu, u0, ur⟩ := sub_log F (c := a) (l := F.log s) (eta := eta) (by rw [abs_of_nonpos h0]; linarith) a1 (F.log_mid s s1 s2).1
        (F.log_mid s s1 s2).2 hroom
      obtain ⟨l, hl, l0, -⟩ := mul_unit F hw hw1 u0 ur
      refine ⟨l, ?_, l0⟩
      rw [he]
      show F.mul (.num w) (F.sub (F.fl (y * eta)) (F.logF (F.fl (1 + e)))) = _
      rw [ha, hs, logF_pos F (by linarith)]
      show F.mul (.num w) (F.fl (a + -F.log s)) = _
      rw [hu]
      exact hl
  obtain ⟨l, hl, l0⟩ := hl
  obtain ⟨d, hd, d0, d1, dr⟩ := fl_between F (rep_neg F (rep_one F)) (rep_one F) (x := y + -m) (by linarith) (by linarith)
  have hd2 : (y ≤ m → d ≤ 0) ∧ (m ≤ y → 0 ≤ d) := by
    have := fl_eq_num F _ _ hd
    constructor
    · intro h
      rw [this.1, ← F.zero]; exact F.mono _ _ (by linarith)
    · intro h
      rw [this.1, ← F.zero]; exact F.mono _ _ (by linarith)
  obtain ⟨g, hg, g0, g1, -⟩ := fl_between F (rep_neg F hwr) hwr (x := w * d) (by nlinarith) (by nlinarith)
  have hg2 : (y ≤ m → g ≤ 0) ∧ (m ≤ y → 0 ≤ g) := by
    have := fl_eq_num F _ _ hg
    constructor
    · intro h
      rw [this.1, ← F.zero]; exact F.mono _ _ (by nlinarith [hd2.1 h])
    · intro h
      rw [this.1, ← F.zero]; exact F.mono _ _ (by nlinarith [hd2.2 h])
  obtain ⟨q, hq, q0, q1, qr⟩ := fl_between F (rep_zero F) hwr (x := w * m) (by positivity) (by nlinarith)
  obtain ⟨r, hr, r0, r1, -⟩ := fl_between F (rep_zero F) (rep_one F) (x := 1 + -m) (by linarith) (by linarith)
  obtain ⟨h, hh, h0, h1, -⟩ := fl_between F (rep_zero F) hwr (x := q * r) (by positivity) (by nlinarith)
  refine ⟨m, l, g, h, hm, m0, m1, hl, l0, ?_, abs_le.2 ⟨g0, g1⟩, hg2.1, hg2.2, ?_, h0, h1⟩
  · show F.mul (.num w) (F.fl (y + -m)) = _
    rw [hd]; exact hg
  · show F.mul (F.fl (w * m)) (F.fl (1 + -m)) = _
    rw [hq, hr]; exact hh

/-- **The logistic deviance is never negative and never NaN**, for any data, linear predictors and order of summation. -/
theorem c115_logit_deviance {ι : Type} (y w eta : ι → ℝ) (T : SumTree ι)
    (h : ∀ i ∈ T.leaves, 0 ≤ y i ∧ y i ≤ 1 ∧ F.Rep (y i) ∧ 0 ≤ w i ∧ w i ≤ 1 ∧ F.Rep (w i) ∧ F.Rep (eta i) ∧ |eta i| + 1 ≤ F.big) :
    NonNegF (Fast.binomialLogit.devianceFl F y w eta T) := by
  have hs : NonPosF (T.fvSum F fun i => Fast.binomialLogit.rowFl F (y i) (w i) (eta i)) := by
    refine fvSum_nonpos F _ T fun i hi => ?_
    obtain ⟨h1, h2, h3, h4, h5, h6, h7, h8⟩ := h i hi
    obtain ⟨m, l, g, h, -, -, -, hl, l0, -⟩ := c115_logit_rows F (y i) (w i) (eta i) h1 h2 h3 h4 h5 h6 h7 h8
    rw [hl]; exact l0
  show NonNegF (F.mul (.num (-2)) _)
  cases hv : (T.fvSum F fun i => Fast.binomialLogit.rowFl F (y i) (w i) (eta i)) with
  | num x => rw [hv] at hs; exact fl_nonneg F (by have : x ≤ 0 := hs; linarith)
  | nan => rw [hv] at hs; exact hs.elim
  | pinf => rw [hv] at hs; exact hs.elim
  | ninf => show NonNegF (FV.infSign (-(-2))); unfold FV.infSign; rw [if_pos (by norm_num)]; trivial


/-! ### The other routines -/

theorem mu_nonneg (k : Fast) (hn : k ≠ .normalIdentity) (hb : k ≠ .binomialLogit) (eta : ℝ) : k.muFl F eta = F.exp eta ∧ NonNegF (k.muFl F eta) := by
  have h : k.muFl F eta = F.exp eta := by
    unfold Fast.muFl
    cases k <;> first | exact absurd rfl hn | exact absurd rfl hb | rfl
  refine ⟨h, ?_⟩
  rw [h]
  rcases F.exp_range eta with ⟨v, hv, h0, -⟩ | hp
  · rw [hv]; exact h0
  · rw [hp]; trivial

/-- **The deviances of the normal and the inverse Gaussian family are never negative and never NaN** (they may overflow to infinity), for any responses,
linear predictors, positive weights and order of summation. -/
theorem c115_square_deviance {ι : Type} (k : Fast) (hk : k = .normalIdentity ∨ k = .invGaussianLog) (y w eta : ι → ℝ) (T : SumTree ι)
    (hw : ∀ i ∈ T.leaves, 0 < w i) (hy : k = .invGaussianLog → ∀ i ∈ T.leaves, 0 < y i) : NonNegF (k.devianceFl F y w eta T) := by
  rcases hk with rfl | rfl
  · refine fvSum_nonneg F _ T fun i hi => ?_
    exact mul_pos_nonneg F (hw i hi) _ (sq_nonneg_fl F _ (fl_ne_nan F _))
  · refine fvSum_nonneg F _ T fun i hi => ?_
    have hyi := hy rfl i hi
    refine div_pos_nonneg F hyi _ (mul_pos_nonneg F (hw i hi) _ (sq_nonneg_fl F _ ?_))
    exact add_num_ne_nan F _ _ (nonneg_ne_nan (div_mean_nonneg F hyi _ (mu_nonneg F _ (by simp) (by simp) _).2))

/-- **No row of the Poisson, gamma and negative binomial deviance is NaN**, whatever the linear predictor (the mean may overflow or underflow), if the weight
is positive and the product of response and linear predictor does not overflow. -/
theorem c115_row_not_nan_partial (y w eta : ℝ) (hw : 0 < w) :
    (FiniteF (F.mul (.num y) (.num eta)) → Fast.poissonLog.rowFl F y w eta ≠ .nan) ∧
    (0 < y → Fast.gammaLog.rowFl F y w eta ≠ .nan) ∧
    (∀ theta r, F.div (.num 1) (.num theta) = .num r → 0 < r → 0 ≤ y → FiniteF (F.add (.num y) (.num r)) → FiniteF (F.mul (.num (-y)) (.num eta)) →
      (Fast.negBinomialLog theta).rowFl F y w eta ≠ .nan) := by
  refine ⟨fun hfin => ?_, fun hy => ?_, fun theta r hr hr0 hy hyr hfin => ?_⟩
  · obtain ⟨x, hx⟩ := hfin
    refine mul_pos_ne_nan F hw _ ?_
    show F.add (F.mul (.num y) (.num eta)) _ ≠ .nan
    rw [hx]
    exact num_add_ne_nan F _ _ (neg_ne_nan _ (nonneg_ne_nan (mu_nonneg F _ (by simp) (by simp) _).2))
  · refine mul_pos_ne_nan F hw _ (add_num_ne_nan F _ _ ?_)
    exact nonneg_ne_nan (div_mean_nonneg F hy _ (mu_nonneg F _ (by simp) (by simp) _).2)
  · obtain ⟨x, hx⟩ := hfin
    obtain ⟨q, hq⟩ := hyr
    have hrr : F.Rep r := by
      change (if theta = 0 then FV.infSign 1 else F.fl (1 / theta)) = .num r at hr
      split at hr
      · exact absurd hr (infSign_ne_num _ _)
      · exact (fl_eq_num F _ _ hr).2
    have hq0 : 0 < q := by
      have h1 := (fl_eq_num F _ _ hq).1
      have h2 := F.mono r (y + r) (by linarith)
      rw [hrr.1, ← h1] at h2
      linarith
    refine mul_pos_ne_nan F hw _ ?_
    show F.add (F.mul (.num (-y)) (.num eta)) (F.mul (F.add (.num y) (F.div (.num 1) (.num theta))) (F.logF (F.add _ (F.div (.num 1) (.num theta))))) ≠ .nan
    rw [hx, hr, hq]
    refine num_add_ne_nan F _ _ (mul_pos_ne_nan F hq0 _ ?_)
    have hmu := (mu_nonneg F (.negBinomialLog theta) (by simp) (by simp) eta).2
    cases hm : (Fast.negBinomialLog theta).muFl F eta with
    | num m =>
      rw [hm] at hmu
      show F.logF (F.fl (m + r)) ≠ .nan
      cases hv : F.fl (m + r) with
      | num v =>
        have h1 := (fl_eq_num F _ _ hv).1
        have h2 := F.mono r (m + r) (by have : 0 ≤ m := hmu; linarith)
        rw [hrr.1, ← h1] at h2
        rw [logF_pos F (by linarith)]
        simp
      | nan => exact absurd hv (fl_ne_nan F _)
      | pinf => simp [FloatSys.logF]
      | ninf =>
        have := fl_nonneg F (x := m + r) (by have : 0 ≤ m := hmu; linarith)
        rw [hv] at this
        exact this.elim
    | nan => rw [hm] at hmu; exact hmu.elim
    | pinf => simp [FloatSys.add, FloatSys.logF]
    | ninf => rw [hm] at hmu; exact hmu.elim

theorem mul_finite (a b : FV) (h : FiniteF (F.mul a b)) : FiniteF a ∧ FiniteF b := by
  obtain ⟨t, h⟩ := h
  cases a <;> cases b <;> first | exact ⟨⟨_, rfl⟩, ⟨_, rfl⟩⟩ | cases h | exact absurd h (infSign_ne_num _ _)

theorem logF_finite (a : FV) (h : FiniteF (F.logF a)) : FiniteF a := by
  obtain ⟨t, h⟩ := h
  cases a <;> first | exact ⟨_, rfl⟩ | cases h

/-- `w * x` with a normalised weight. -/
theorem weight_mul {w x : ℝ} (hw : 0 ≤ w) (hw1 : w ≤ 1) (hx : F.Rep x) : ∃ u, F.mul (.num w) (.num x) = .num u ∧ (0 ≤ x → 0 ≤ u) ∧ |u| ≤ |x| ∧ F.Rep u := by
  rcases le_total 0 x with h | h
  · obtain ⟨u, hu, h1, h2, h3⟩ := fl_between F (rep_zero F) hx (x := w * x) (by positivity) (by nlinarith)
    exact ⟨u, hu, fun _ => h1, by rw [abs_of_nonneg h, abs_of_nonneg h1]; exact h2, h3⟩
  · obtain ⟨u, hu, h1, h2, h3⟩ := fl_between F hx (rep_zero F) (x := w * x) (by nlinarith) (by nlinarith)
    exact ⟨u, hu, fun h0 => by linarith, by rw [abs_of_nonpos h, abs_of_nonpos h2]; linarith, h3⟩

/-- The difference of two numbers that are not negative. -/
theorem sub_nonneg_nums {y m : ℝ} (hy : 0 ≤ y) (hm : 0 ≤ m) (hyr : F.Rep y) (hmr : F.Rep m) : ∃ u, F.sub (.num y) (.num m) = .num u ∧ F.Rep u := by
  obtain ⟨u, hu, -, -, h3⟩ := fl_between F (rep_neg F hmr) hyr (x := y + -m) (by linarith) (by linarith)
  exact ⟨u, hu, h3⟩

/-- `x / (1 + theta * m)`. -/
theorem div_denominator {x theta m : ℝ} (hx : F.Rep x) (ht : 0 ≤ theta) (hm : 0 ≤ m) :
    ∃ u, F.div (.num x) (F.add (.num 1) (F.mul (.num theta) (.num m))) = .num u ∧ (0 ≤ x → 0 ≤ u) := by
  have h1 := fl_nonneg F (mul_nonneg ht hm)
  show ∃ u, F.div (.num x) (F.add (.num 1) (F.fl (theta * m))) = .num u ∧ _
  cases hv : F.fl (theta * m) with
  | nan => exact absurd hv (fl_ne_nan F _)
  | ninf => rw [hv] at h1; exact h1.elim
  | pinf => exact ⟨0, rfl, fun _ => le_rfl⟩
  | num v =>
    rw [hv] at h1
    have hv0 : 0 ≤ v := h1
    show ∃ u, F.div (.num x) (F.fl (1 + v)) = .num u ∧ _
    have h2 := fl_nonneg F (x := 1 + v) (by linarith)
    cases hs : F.fl (1 + v) with
    | nan => exact absurd hs (fl_ne_nan F _)
    | ninf => rw [hs] at h2; exact h2.elim
    | pinf => exact ⟨0, rfl, fun _ => le_rfl⟩
    | num s =>
      have hs1 : 1 ≤ s := by
        have h3 := F.mono 1 (1 + v) (by linarith)
        rw [F.one, ← (fl_eq_num F _ _ hs).1] at h3
        exact h3
      show ∃ u, (if s = 0 then FV.infSign x else F.fl (x / s)) = .num u ∧ _
      rw [if_neg (by linarith)]
      rcases le_total 0 x with h | h
      · obtain ⟨u, hu, h3, -, -⟩ := fl_between F (rep_zero F) hx (x := x / s) (div_nonneg h (by linarith)) (div_le_self h hs1)
        exact ⟨u, hu, fun _ => h3⟩
      · obtain ⟨u, hu, h3, h4, -⟩ := fl_between F hx (rep_zero F) (x := x / s)
          (by have := div_le_self (neg_nonneg.2 h) hs1; rw [neg_div] at this; linarith) (div_nonpos_of_nonpos_of_nonneg h (by linarith))
        refine ⟨u, hu, fun h0 => ?_⟩
        have : x = 0 := le_antisymm h h0
        rw [this] at h3
        exact h3

/-- Which responses a family has, for the routines below. -/
def Spec.ResponseOK : Fast → ℝ → Prop
  | .normalIdentity, _ => True
  | .poissonLog, y => 0 ≤ y
  | .gammaLog, y => 0 < y
  | .invGaussianLog, y => 0 < y
  | .tweedieLog _, y => 0 ≤ y
  | .binomialLogit, y => 0 ≤ y ∧ y ≤ 1
  | .negBinomialLog theta, y => 0 ≤ y ∧ 0 < theta

/-- **A finite loss means a finite gradient and a finite, nonnegative curvature**, for all families but inverse Gaussian and Tweedie. -/
theorem c115_finite_rows_partial (k : Fast) (hk1 : k ≠ .invGaussianLog) (hk2 : ∀ p, k ≠ .tweedieLog p) (y w eta : ℝ) (hyr : F.Rep y) (hwr : F.Rep w)
    (her : F.Rep eta) (hroom : |eta| + 1 ≤ F.big) (hw : 0 < w) (hw1 : w ≤ 1) (hy : ResponseOK k y) (hfin : FiniteF (k.rowFl F y w eta)) :
    FiniteF (k.gradFl F y w (k.muFl F eta)) ∧ ∃ h, k.hessFl F y w (k.muFl F eta) = .num h ∧ 0 ≤ h := by
  cases k with
  | invGaussianLog => exact absurd rfl hk1
  | tweedieLog p => exact absurd rfl (hk2 p)
  | normalIdentity =>
    refine ⟨?_, w, rfl, hw.le⟩
    have h1 := (mul_finite F _ _ (mul_finite F _ _ hfin).2).1
    obtain ⟨r, hr⟩ := h1
    have hrr : F.Rep r := (fl_eq_num F (y + -eta) r hr).2
    obtain ⟨u, hu, -⟩ := weight_mul F hw.le hw1 hrr
    refine ⟨u, ?_⟩
    show F.mul (.num w) (F.sub (.num y) (.num eta)) = _
    have hr' : F.sub (.num y) (.num eta) = .num r := hr
    rw [hr']; exact hu
  | poissonLog =>
    obtain ⟨m, hm⟩ := (sub_finite F _ _ (mul_finite F _ _ hfin).2).2
    have hm' := hm
    rw [(mu_nonneg F .poissonLog (by simp) (by simp) eta).1] at hm'
    obtain ⟨m0, mr⟩ := exp_rep F hm'
    obtain ⟨d, hd, dr⟩ := sub_nonneg_nums F hy m0 hyr mr
    obtain ⟨u, hu, -⟩ := weight_mul F hw.le hw1 dr
    obtain ⟨h, hh, hh0, -⟩ := weight_mul F hw.le hw1 mr
    rw [hm]
    refine ⟨⟨u, ?_⟩, h, hh, hh0 m0⟩
    show F.mul (.num w) (F.sub (.num y) (.num m)) = _
    rw [hd]; exact hu
  | gammaLog =>
    obtain ⟨x, hx⟩ := (add_finite F _ _ (mul_finite F _ _ hfin).2).1
    have hx0 := div_mean_nonneg F hy _ (mu_nonneg F .gammaLog (by simp) (by simp) eta).2
    rw [hx] at hx0
    have hxr : F.Rep x := by
      cases hm : Fast.gammaLog.muFl F eta with
      | num m =>
        rw [hm] at hx
        change (if m = 0 then FV.infSign y else F.fl (y / m)) = .num x at hx
        split at hx
        · exact absurd hx (infSign_ne_num _ _)
        · exact (fl_eq_num F _ _ hx).2
      | nan => rw [hm] at hx; cases hx
      | pinf => rw [hm] at hx; cases hx; exact rep_zero F
      | ninf => rw [hm] at hx; cases hx; exact rep_zero F
    obtain ⟨d, hd, dr⟩ := sub_nonneg_nums F hx0 zero_le_one hxr (rep_one F)
    obtain ⟨u, hu, -⟩ := weight_mul F hw.le hw1 dr
    obtain ⟨h, hh, hh0, -⟩ := weight_mul F hw.le hw1 hxr
    refine ⟨⟨u, ?_⟩, h, ?_, hh0 hx0⟩
    · show F.mul (.num w) (F.sub (F.div (.num y) _) (.num 1)) = _
      rw [hx, hd]; exact hu
    · show F.mul (.num w) (F.div (.num y) _) = _
      rw [hx]; exact hh
  | binomialLogit =>
    obtain ⟨m, l, g, h, hm, -, -, -, -, hg, -, -, -, hh, h0, -⟩ := c115_logit_rows F y w eta hy.1 hy.2 hyr hw.le hw1 hwr her hroom
    rw [hm]
    exact ⟨⟨g, hg⟩, h, hh, h0⟩
  | negBinomialLog theta =>
    have h1 := (mul_finite F _ _ (add_finite F _ _ (mul_finite F _ _ hfin).2).2).2
    obtain ⟨m, hm⟩ := (add_finite F _ _ (logF_finite F _ h1)).1
    have hm' := hm
    rw [(mu_nonneg F (.negBinomialLog theta) (by simp) (by simp) eta).1] at hm'
    obtain ⟨m0, mr⟩ := exp_rep F hm'
    obtain ⟨d, hd, dr⟩ := sub_nonneg_nums F hy.1 m0 hyr mr
    obtain ⟨u, hu, -, -, ur⟩ := weight_mul F hw.le hw1 dr
    obtain ⟨v, hv, hv0, -, vr⟩ := weight_mul F hw.le hw1 mr
    obtain ⟨g, hg, -⟩ := div_denominator F ur hy.2.le m0
    obtain ⟨h, hh, hh0⟩ := div_denominator F vr hy.2.le m0
    rw [hm]
    refine ⟨⟨g, ?_⟩, h, ?_, hh0 (hv0 m0)⟩
    · show F.div (F.mul (.num w) (F.sub (.num y) (.num m))) _ = _
      rw [hd, hu]; exact hg
    · show F.div (F.mul (.num w) (.num m)) _ = _
      rw [hv]; exact hh

/-- **A trial step with a finite deviance can be continued**: all rows of gradient and Hessian are finite. -/
theorem c115_finite_deviance_partial {ι : Type} (k : Fast) (hk1 : k ≠ .invGaussianLog) (hk2 : ∀ p, k ≠ .tweedieLog p) (y w eta : ι → ℝ) (T : SumTree ι)
    (h : ∀ i ∈ T.leaves, F.Rep (y i) ∧ F.Rep (w i) ∧ F.Rep (eta i) ∧ |eta i| + 1 ≤ F.big ∧ 0 < w i ∧ w i ≤ 1 ∧ ResponseOK k (y i))
    (hfin : FiniteF (k.devianceFl F y w eta T)) : ∀ i ∈ T.leaves,
      FiniteF (k.gradFl F (y i) (w i) (k.muFl F (eta i))) ∧ FiniteF (k.hessFl F (y i) (w i) (k.muFl F (eta i))) := by
  intro i hi
  obtain ⟨h1, h2, h3, h4, h5, h6, h7⟩ := h i hi
  have := fvSum_finite F _ T (return_finite F k _ hfin) i hi
  obtain ⟨hg, u, hu, -⟩ := c115_finite_rows_partial F k hk1 hk2 (y i) (w i) (eta i) h1 h2 h3 h4 h5 h6 h7 this
  exact ⟨hg, u, hu⟩

/-! ### Where NaN appears -/

/-- **A row of weight zero is not ignored when its mean overflows**: the Poisson deviance of all rows is NaN, whatever the other rows (finding F51). -/
theorem c115_zero_weight_counterexample {ι : Type} (y w eta : ι → ℝ) (T : SumTree ι) (i : ι) (hi : i ∈ T.leaves) (hw : w i = 0)
    (hover : F.exp (eta i) = .pinf) : Fast.poissonLog.devianceFl F y w eta T = .nan := by
  unfold Fast.devianceFl
  rw [fvSum_nan F _ T i hi]
  · exact return_nan F _
  · show F.mul (.num (w i)) (F.sub (F.fl (y i * eta i)) (F.exp (eta i))) = .nan
    rw [hover, hw]
    cases hv : F.fl (y i * eta i) with
    | num x =>
      show FV.infSign (-0) = .nan
      unfold FV.infSign
      simp
    | nan => rfl
    | pinf => rfl
    | ninf =>
      show FV.infSign (-0) = .nan
      unfold FV.infSign
      simp

/-- **A Tweedie row with response zero is NaN once its mean underflows**, although the loss goes to zero; and any row is NaN once the mean overflows
(finding F52). -/
theorem c115_tweedie_counterexample (p y w eta : ℝ) (hp : F.rd (1 - p) < 0) (hp2 : 0 < F.rd (2 - p)) (hw : 0 < w) :
    (F.exp eta = .num 0 → Fast.rowFl F (.tweedieLog p) 0 w eta = .nan) ∧ (F.exp eta = .pinf → Fast.rowFl F (.tweedieLog p) y w eta = .nan) := by
  constructor
  · intro h
    show F.mul (F.mul (.num w) (F.powNeg (F.rd (1 - p)) (F.exp eta))) (F.sub (F.div (F.exp eta) (.num (F.rd (2 - p)))) (F.div (.num 0) (.num (F.rd (1 - p))))) = .nan
    rw [h]
    have h1 : F.powNeg (F.rd (1 - p)) (.num 0) = .pinf := if_pos rfl
    have h2 : F.div (.num 0) (.num (F.rd (2 - p))) = .num 0 := by
      show (if F.rd (2 - p) = 0 then FV.infSign 0 else F.fl (0 / F.rd (2 - p))) = _
      rw [if_neg hp2.ne', zero_div]; exact fl_rep F (rep_zero F)
    have h3 : F.div (.num 0) (.num (F.rd (1 - p))) = .num 0 := by
      show (if F.rd (1 - p) = 0 then FV.infSign 0 else F.fl (0 / F.rd (1 - p))) = _
      rw [if_neg hp.ne, zero_div]; exact fl_rep F (rep_zero F)
    rw [h1, h2, h3, mul_pos_pinf F hw]
    show F.mul .pinf (F.fl (0 + -0)) = .nan
    have h4 : F.fl (0 + -0) = .num 0 := by rw [neg_zero, add_zero]; exact fl_rep F (rep_zero F)
    rw [h4]
    show FV.infSign 0 = .nan
    unfold FV.infSign
    simp
  · intro h
    show F.mul (F.mul (.num w) (F.powNeg (F.rd (1 - p)) (F.exp eta))) (F.sub (F.div (F.exp eta) (.num (F.rd (2 - p)))) (F.div (.num y) (.num (F.rd (1 - p))))) = .nan
    rw [h]
    have h2 : F.div .pinf (.num (F.rd (2 - p))) = .pinf := by
      show (if F.rd (2 - p) < 0 then FV.ninf else FV.pinf) = _
      rw [if_neg (by linarith)]
    have h3 : F.mul (.num w) (F.powNeg (F.rd (1 - p)) .pinf) = .num 0 := by
      show F.fl (w * 0) = _
      rw [mul_zero]; exact fl_rep F (rep_zero F)
    rw [h2, h3]
    show F.mul (.num 0) (F.add .pinf (FV.opp (if F.rd (1 - p) = 0 then FV.infSign y else F.fl (y / F.rd (1 - p))))) = .nan
    rw [if_neg hp.ne]
    cases hv : F.fl (y / F.rd (1 - p)) with
    | num x => show FV.infSign 0 = .nan; unfold FV.infSign; simp
    | nan => rfl
    | pinf => rfl
    | ninf => show FV.infSign 0 = .nan; unfold FV.infSign; simp

/-- **Inverse Gaussian: a finite loss, zero in fact, with a gradient that is NaN**: response and mean are equal and so small that the reciprocal
overflows (finding F52). -/
theorem c115_inverse_gaussian_counterexample (w m eta : ℝ) (hw : 0 < w) (hm0 : 0 < m) (hm : F.exp eta = .num m) (hover : F.fl (1 / m) = .pinf) :
    Fast.invGaussianLog.rowFl F m w eta = .num 0 ∧ Fast.invGaussianLog.gradFl F m w (Fast.invGaussianLog.muFl F eta) = .nan := by
  have h1 : F.div (.num m) (.num m) = .num 1 := by
    show (if m = 0 then FV.infSign m else F.fl (m / m)) = _
    rw [if_neg hm0.ne', div_self hm0.ne']; exact fl_rep F (rep_one F)
  constructor
  · show F.div (F.mul (.num w) (F.mul (F.sub (F.div (.num m) (F.exp eta)) (.num 1)) (F.sub (F.div (.num m) (F.exp eta)) (.num 1)))) (.num m) = _
    rw [hm, h1]
    have h2 : F.sub (.num 1) (.num 1) = .num 0 := by
      show F.fl (1 + -1) = _
      rw [add_neg_cancel]; exact fl_rep F (rep_zero F)
    have h3 : F.mul (.num 0) (.num 0) = .num 0 := by
      show F.fl (0 * 0) = _
      rw [mul_zero]; exact fl_rep F (rep_zero F)
    have h4 : F.mul (.num w) (.num 0) = .num 0 := by
      show F.fl (w * 0) = _
      rw [mul_zero]; exact fl_rep F (rep_zero F)
    rw [h2, h3, h4]
    show (if m = 0 then FV.infSign 0 else F.fl (0 / m)) = _
    rw [if_neg hm0.ne', zero_div]; exact fl_rep F (rep_zero F)
  · show F.mul (.num w) (F.sub (F.mul (.num m) (F.mul (F.div (.num 1) (F.exp eta)) (F.div (.num 1) (F.exp eta)))) (F.div (.num 1) (F.exp eta))) = .nan
    rw [hm]
    have h2 : F.div (.num 1) (.num m) = .pinf := by
      show (if m = 0 then FV.infSign 1 else F.fl (1 / m)) = _
      rw [if_neg hm0.ne']; exact hover
    rw [h2]
    show F.mul (.num w) (F.sub (F.mul (.num m) .pinf) .pinf) = .nan
    rw [mul_pos_pinf F hm0]
    rfl

/-! ### Examples -/

/-- A small system: exact numbers up to 100, `exp` underflows below -6 and overflows above 4.6. -/
noncomputable def smallFloat : FloatSys where
  rd := id
  mono := fun _ _ h => h
  idem := fun _ => rfl
  neg := fun _ => rfl
  zero := rfl
  one := rfl
  big := 100
  two := rfl
  two_le := by norm_num
  big_rd := rfl
  exp := fun x => open Classical in if x < -6 then .num 0 else if Real.exp x ≤ 100 then .num (Real.exp x) else .pinf
  exp_range := fun x => by
    by_cases h : x < -6
    · exact Or.inl ⟨0, if_pos h, le_rfl, by norm_num, rfl⟩
    · by_cases h2 : Real.exp x ≤ 100
      · exact Or.inl ⟨Real.exp x, (if_neg h).trans (if_pos h2), (Real.exp_pos x).le, h2, rfl⟩
      · exact Or.inr ((if_neg h).trans (if_neg h2))
  exp_nonpos := fun x hx => by
    have h1 : Real.exp x ≤ 1 := Real.exp_le_one_iff.2 hx
    by_cases h : x < -6
    · exact ⟨0, if_pos h, zero_le_one⟩
    · exact ⟨Real.exp x, (if_neg h).trans (if_pos (by linarith)), h1⟩
  log := fun x => open Classical in if |Real.log x| ≤ 100 then Real.log x else 0
  log_range := fun x => by
    refine ⟨?_, rfl⟩
    split
    · assumption
    · norm_num
  log_mid := fun x h1 h2 => by
    have h3 : 0 ≤ Real.log x := Real.log_nonneg h1
    have h4 : Real.log x ≤ 1 := by have := Real.log_le_sub_one_of_pos (show 0 < x by linarith); linarith
    rw [if_pos (by rw [abs_of_nonneg h3]; linarith)]
    exact ⟨h3, h4⟩
  pow := fun x e => open Classical in if 0 ≤ x ^ e ∧ x ^ e ≤ 100 then .num (x ^ e) else .pinf
  pow_range := fun x e => by
    by_cases h : 0 ≤ x ^ e ∧ x ^ e ≤ 100
    · exact Or.inl ⟨_, if_pos h, h.1, h.2, rfl⟩
    · exact Or.inr (if_neg h)

theorem small_rep (x : ℝ) (h : |x| ≤ 100) : smallFloat.Rep x := ⟨rfl, h⟩

theorem small_exp_ten : smallFloat.exp 10 = .pinf := by
  have h : (1100 : ℝ) < Real.exp 10 := by
    have h1 : Real.exp 10 = Real.exp 1 ^ 10 := by rw [← Real.exp_nat_mul]; norm_num
    rw [h1]
    calc (1100 : ℝ) < 2.1 ^ 10 := by norm_num
      _ ≤ Real.exp 1 ^ 10 := pow_le_pow_left₀ (by norm_num) (by linarith [Real.exp_one_gt_d9]) 10
  exact (if_neg (by norm_num)).trans (if_neg (by linarith))

theorem small_exp_underflow : smallFloat.exp (-10) = .num 0 := if_pos (by norm_num)

theorem small_exp_five : smallFloat.exp (-5) = .num (Real.exp (-5)) ∧ smallFloat.fl (1 / Real.exp (-5)) = .pinf := by
  have h : (100 : ℝ) < Real.exp 5 := by
    have h1 : Real.exp 5 = Real.exp 1 ^ 5 := by rw [← Real.exp_nat_mul]; norm_num
    rw [h1]
    calc (100 : ℝ) < 2.7 ^ 5 := by norm_num
      _ ≤ Real.exp 1 ^ 5 := pow_le_pow_left₀ (by norm_num) (by linarith [Real.exp_one_gt_d9]) 5
  have h2 : 1 / Real.exp (-5) = Real.exp 5 := by rw [Real.exp_neg, one_div, inv_inv]
  have h3 : Real.exp (-5) ≤ 1 := Real.exp_le_one_iff.2 (by norm_num)
  refine ⟨(if_neg (by norm_num)).trans (if_pos (by linarith)), ?_⟩
  rw [h2]
  unfold FloatSys.fl
  rw [if_neg, if_pos (Real.exp_pos 5)]
  show ¬ |Real.exp 5| ≤ 100
  rw [abs_of_pos (Real.exp_pos 5)]
  linarith

/-- `c115_logit_rows` applies, with a linear predictor at which `exp` overflows. -/
example : ∃ m l g h, Fast.binomialLogit.muFl smallFloat 10 = .num m ∧ 0 ≤ m ∧ m ≤ 1 ∧ Fast.binomialLogit.rowFl smallFloat 1 (1 / 2) 10 = .num l ∧ l ≤ 0 ∧
      Fast.binomialLogit.gradFl smallFloat 1 (1 / 2) (.num m) = .num g ∧ |g| ≤ 1 / 2 ∧ (1 ≤ m → g ≤ 0) ∧ (m ≤ 1 → 0 ≤ g) ∧
      Fast.binomialLogit.hessFl smallFloat 1 (1 / 2) (.num m) = .num h ∧ 0 ≤ h ∧ h ≤ 1 / 2 :=
  c115_logit_rows smallFloat 1 (1 / 2) 10 (by norm_num) le_rfl (small_rep _ (by norm_num)) (by norm_num) (by norm_num) (small_rep _ (by norm_num [abs_of_pos]))
    (small_rep _ (by norm_num [abs_of_pos])) (by show |(10 : ℝ)| + 1 ≤ 100; norm_num [abs_of_pos])

/-- `c115_zero_weight_counterexample` applies: two rows, the second of weight zero. -/
example : Fast.poissonLog.devianceFl smallFloat (fun _ : Fin 2 => 1) ![1, 0] ![0, 10] (.node (.leaf 0) (.leaf 1)) = .nan :=
  c115_zero_weight_counterexample smallFloat _ _ _ _ 1 (by simp [SumTree.leaves]) rfl small_exp_ten

/-- `c115_tweedie_counterexample` applies. -/
example : Fast.rowFl smallFloat (.tweedieLog (3 / 2)) 0 1 (-10) = .nan :=
  (c115_tweedie_counterexample smallFloat (3 / 2) 0 1 (-10) (by show (1 : ℝ) - 3 / 2 < 0; norm_num) (by show (0 : ℝ) < 2 - 3 / 2; norm_num) one_pos).1 small_exp_underflow

/-- `c115_inverse_gaussian_counterexample` applies. -/
example : Fast.invGaussianLog.gradFl smallFloat (Real.exp (-5)) 1 (Fast.invGaussianLog.muFl smallFloat (-5)) = .nan :=
  (c115_inverse_gaussian_counterexample smallFloat 1 (Real.exp (-5)) (-5) one_pos (Real.exp_pos _) small_exp_five.1 small_exp_five.2).2

/-- `c115_finite_rows_partial` applies: gamma, with a finite loss. -/
example : FiniteF (Fast.gammaLog.gradFl smallFloat 2 1 (Fast.gammaLog.muFl smallFloat 0)) := by
  have he : smallFloat.exp 0 = .num 1 := by
    refine (if_neg (by norm_num)).trans ((if_pos ?_).trans ?_) <;> rw [Real.exp_zero]
    norm_num
  refine (c115_finite_rows_partial smallFloat .gammaLog (by simp) (by simp) 2 1 0 (small_rep _ (by norm_num [abs_of_pos])) (small_rep _ (by norm_num))
    (small_rep _ (by norm_num)) (by show |(0 : ℝ)| + 1 ≤ 100; norm_num) one_pos le_rfl (show (0 : ℝ) < 2 by norm_num) ?_).1
  refine ⟨2, ?_⟩
  show smallFloat.mul (.num 1) (smallFloat.add (smallFloat.div (.num 2) (smallFloat.exp 0)) (.num 0)) = .num 2
  rw [he]
  have h1 : smallFloat.div (.num 2) (.num 1) = .num 2 := by
    show (if (1 : ℝ) = 0 then FV.infSign 2 else smallFloat.fl (2 / 1)) = _
    rw [if_neg one_ne_zero, div_one]; exact fl_rep _ (rep_two _)
  rw [h1]
  have h2 : smallFloat.add (.num 2) (.num 0) = .num 2 := by
    show smallFloat.fl (2 + 0) = _
    rw [add_zero]; exact fl_rep _ (rep_two _)
  rw [h2]
  show smallFloat.fl (1 * 2) = _
  rw [one_mul]; exact fl_rep _ (rep_two _)

end Glum
