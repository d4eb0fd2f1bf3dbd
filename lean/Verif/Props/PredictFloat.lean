import Verif.Model.PredictFloat
import Verif.Props.Float
import Verif.Props.Overflow
/-
C118: sign constraints give predictions that are monotone in the feature, in floating point.
-/
set_option linter.unusedSectionVars false
set_option linter.unusedVariables false
set_option linter.unusedSimpArgs false

namespace Glum

variable (F : FloatLib)

theorem FV.le_refl' (a : FV) (h : a ≠ .nan) : FV.le a a := by
  cases a <;> simp_all [FV.le]

theorem fl_not_nan (S : FloatSys) (x : ℝ) : S.fl x ≠ .nan := by
  unfold FloatSys.fl
  split
  · simp
  · split <;> simp

theorem fl_mono (S : FloatSys) (x y : ℝ) (h : x ≤ y) : FV.le (S.fl x) (S.fl y) := by
  have hr := S.mono x y h
  have hb : 0 ≤ S.big := by linarith [S.two_le]
  have hx0 : 0 < x → 0 ≤ S.rd x := fun h => by have := S.mono 0 x h.le; rwa [S.zero] at this
  have hx1 : ¬ 0 < x → S.rd x ≤ 0 := fun h => by have := S.mono x 0 (not_lt.1 h); rwa [S.zero] at this
  have hy0 : 0 < y → 0 ≤ S.rd y := fun h => by have := S.mono 0 y h.le; rwa [S.zero] at this
  have hy1 : ¬ 0 < y → S.rd y ≤ 0 := fun h => by have := S.mono y 0 (not_lt.1 h); rwa [S.zero] at this
  unfold FloatSys.fl
  by_cases h1 : |S.rd x| ≤ S.big
  · rw [if_pos h1]
    rw [abs_le] at h1
    by_cases h2 : |S.rd y| ≤ S.big
    · rw [if_pos h2]; exact hr
    · rw [if_neg h2]
      have : 0 < y := by
        by_contra h'
        exact h2 (abs_le.2 ⟨by linarith, by linarith [hy1 h']⟩)
      rw [if_pos this]; trivial
  · rw [if_neg h1]
    by_cases h0 : 0 < x
    · rw [if_pos h0]
      have hxb : S.big < S.rd x := by
        by_contra h'
        exact h1 (abs_le.2 ⟨by linarith [hx0 h0], not_lt.1 h'⟩)
      have h2 : ¬ |S.rd y| ≤ S.big := by
        intro h'
        linarith [(abs_le.1 h').2]
      rw [if_neg h2, if_pos (by linarith)]
      trivial
    · rw [if_neg h0]
      split
      · trivial
      · split <;> trivial

theorem add_mono (S : FloatSys) (a a' b b' : FV) (ha : FV.le a a') (hb : FV.le b b') (h : S.add a b ≠ .nan) (h' : S.add a' b' ≠ .nan) :
    FV.le (S.add a b) (S.add a' b') := by
  have hf := fl_not_nan S
  cases a <;> cases a' <;> simp only [FV.le] at ha <;> cases b <;> cases b' <;> simp only [FV.le] at hb <;>
    simp only [FloatSys.add, FV.le, ne_eq, not_true_eq_false] at h h' ⊢ <;>
    first
      | exact fl_mono S _ _ (add_le_add ha hb)
      | (rename_i x y; cases hc : S.fl (x + y) <;> first | trivial | exact absurd hc (hf _))
      | (rename_i x y z; cases hc : S.fl (x + y) <;> first | trivial | exact absurd hc (hf _))
      | (rename_i x y z; cases hc : S.fl (x + z) <;> first | trivial | exact absurd hc (hf _))
      | (rename_i x y z; cases hc : S.fl (y + z) <;> first | trivial | exact absurd hc (hf _))
      | trivial

theorem le_ne_nan {a b : FV} (h : FV.le a b) : a ≠ .nan ∧ b ≠ .nan := by
  cases a <;> cases b <;> simp_all [FV.le]

theorem add_ne_nan (S : FloatSys) {a b : FV} (h : S.add a b ≠ .nan) : a ≠ .nan ∧ b ≠ .nan := by
  cases a <;> cases b <;> simp_all [FloatSys.add]

theorem fma_mono (x x' c : ℝ) (s s' : FV) (h : x * c ≤ x' * c) (hs : FV.le s s') : FV.le (F.fma x c s) (F.fma x' c s') := by
  have hf := fl_not_nan F.toFloatSys
  cases s <;> cases s' <;> simp only [FV.le] at hs <;> simp only [FloatLib.fma]
  · exact fl_mono _ _ _ (add_le_add h hs)
  · rename_i t; cases hc : F.fl (x * c + t) <;> first | trivial | exact absurd hc (hf _)
  · trivial
  · rename_i t; cases hc : F.fl (x' * c + t) <;> first | trivial | exact absurd hc (hf _)
  · trivial
  · trivial

/-! ### Specification -/

/-- Going from row `x` to row `x'` moves no term of the linear predictor down: a feature rises only with a coefficient `≥ 0` and falls only with one `≤ 0`. -/
def Spec.Favours {ι : Type} (c x x' : ι → ℝ) : Prop := ∀ j, x j = x' j ∨ (0 ≤ c j ∧ x j ≤ x' j) ∨ (c j ≤ 0 ∧ x' j ≤ x j)

/-- The second number is not smaller, unless one of them is NaN. -/
def Spec.Rises (a b : FV) : Prop := a ≠ .nan → b ≠ .nan → FV.le a b

/-- The links whose inverse increases. -/
def Spec.UpLink (l : Link) : Prop := l = .identity ∨ l = .log ∨ l = .logit ∨ l = .cloglog ∨ ∃ p, p ≤ 1 ∧ l = .tweedie p

/-- The links whose inverse decreases: Tweedie links of power above one. -/
def Spec.DownLink (l : Link) : Prop := ∃ p, 1 < p ∧ l = .tweedie p

open Spec

/-! ### The linear predictor -/

theorem favours_term {ι : Type} (c x x' : ι → ℝ) (h : Favours c x x') (j : ι) : x j * c j ≤ x' j * c j := by
  rcases h j with h | ⟨h1, h2⟩ | ⟨h1, h2⟩
  · rw [h]
  · exact mul_le_mul_of_nonneg_right h2 h1
  · exact mul_le_mul_of_nonpos_right h2 h1

theorem dot_mono {ι : Type} (T : DotTree ι) (c x x' : ι → ℝ) (h : Favours c x x') : Rises (T.dotFl F x c) (T.dotFl F x' c) := by
  induction T with
  | empty => intro _ _; exact le_refl (0 : ℝ)
  | prod j => intro _ _; exact fl_mono _ _ _ (favours_term c x x' h j)
  | add l r hl hr =>
    intro h1 h2
    obtain ⟨a1, a2⟩ := add_ne_nan _ h1
    obtain ⟨b1, b2⟩ := add_ne_nan _ h2
    exact add_mono _ _ _ _ _ (hl a1 b1) (hr a2 b2) h1 h2
  | fma j r hr =>
    intro h1 h2
    have key : ∀ (y : ℝ) (s : FV), F.fma y (c j) s ≠ .nan → s ≠ .nan := by
      rintro y s hs rfl
      exact hs rfl
    exact fma_mono F _ _ _ _ _ (favours_term c x x' h j) (hr (key _ _ h1) (key _ _ h2))

/-- **The linear predictor does not fall**, whatever the order of summation, the roundings and overflows. -/
theorem c118_linear_predictor {ι : Type} (T : DotTree ι) (c x x' : ι → ℝ) (b : ℝ) (off : Option ℝ) (h : Favours c x x') :
    Rises (linPredFl F T c b x off) (linPredFl F T c b x' off) := by
  have h1 : Rises (F.add (T.dotFl F x c) (.num b)) (F.add (T.dotFl F x' c) (.num b)) := by
    intro h1 h2
    exact add_mono _ _ _ _ _ (dot_mono F T c x x' h (add_ne_nan _ h1).1 (add_ne_nan _ h2).1) (le_refl b) h1 h2
  cases off with
  | none => exact h1
  | some o =>
    intro h2 h3
    exact add_mono _ _ _ _ _ (h1 (add_ne_nan _ h2).1 (add_ne_nan _ h3).1) (le_refl o) h2 h3

/-! ### The inverse links -/

theorem opp_anti {a b : FV} (h : FV.le a b) : FV.le b.opp a.opp := by
  cases a <;> cases b <;> simp_all [FV.le, FV.opp]

theorem exp_pos_range (S : FloatSys) (x : ℝ) : FV.le (.num 0) (S.exp x) := by
  rcases S.exp_range x with ⟨v, h, h0, -⟩ | h <;> rw [h]
  · exact h0
  · trivial

theorem expF_mono {a b : FV} (h : FV.le a b) : FV.le (F.expF a) (F.expF b) := by
  have hn : ∀ x, F.exp x ≠ .nan := fun x => (le_ne_nan (exp_pos_range F.toFloatSys x)).2
  cases a <;> cases b <;> simp only [FV.le] at h <;> simp only [FloatSys.expF]
  · exact F.exp_mono _ _ h
  · rename_i x; cases hc : F.exp x <;> first | trivial | exact absurd hc (hn _)
  · trivial
  · exact exp_pos_range F.toFloatSys _
  · trivial
  · exact le_refl (0 : ℝ)

theorem expF_nonneg {a : FV} (h : a ≠ .nan) : FV.le (.num 0) (F.expF a) := by
  cases a with
  | num x => exact exp_pos_range F.toFloatSys x
  | nan => exact absurd rfl h
  | pinf => trivial
  | ninf => exact le_refl (0 : ℝ)

theorem expit_mono {a b : FV} (h : FV.le a b) : FV.le (F.expitF a) (F.expitF b) := by
  have h1 := opp_anti h
  have h2 := expF_mono F h1
  have den : ∀ e, FV.le (.num 0) e → F.add (.num 1) e = .pinf ∨ ∃ v, F.add (.num 1) e = .num v ∧ 1 ≤ v := by
    intro e he
    cases e with
    | num x =>
      have hx : (0 : ℝ) ≤ x := he
      have := fl_mono F.toFloatSys 1 (1 + x) (by linarith)
      have h1' : F.fl 1 = .num 1 := by
        unfold FloatSys.fl
        rw [if_pos (by rw [F.one, abs_one]; linarith [F.two_le]), F.one]
      rw [h1'] at this
      show F.fl (1 + x) = _ ∨ ∃ v, F.fl (1 + x) = _ ∧ _
      cases hc : F.fl (1 + x) with
      | num v => rw [hc] at this; exact Or.inr ⟨v, rfl, this⟩
      | nan => rw [hc] at this; cases this
      | pinf => exact Or.inl rfl
      | ninf => rw [hc] at this; cases this
    | nan => cases he
    | pinf => exact Or.inl rfl
    | ninf => cases he
  have ha := den _ (expF_nonneg F (le_ne_nan h1).2)
  have hb := den _ (expF_nonneg F (le_ne_nan h1).1)
  have hab : FV.le (F.add (.num 1) (F.expF b.opp)) (F.add (.num 1) (F.expF a.opp)) := by
    refine add_mono _ _ _ _ _ (le_refl (1 : ℝ)) h2 ?_ ?_
    · rcases hb with hb | ⟨v, hb, -⟩ <;> rw [hb] <;> simp
    · rcases ha with hb | ⟨v, hb, -⟩ <;> rw [hb] <;> simp
  unfold FloatLib.expitF
  have hd : ∀ v : ℝ, 1 ≤ v → F.div (.num 1) (.num v) = F.fl (1 / v) := fun v hv => if_neg (by linarith)
  have h0 : F.fl 0 = .num 0 := by
    unfold FloatSys.fl
    rw [if_pos (by rw [F.zero, abs_zero]; linarith [F.two_le]), F.zero]
  rcases ha with ha | ⟨u, ha, hu⟩ <;> rcases hb with hb | ⟨v, hb, hv⟩ <;> rw [ha, hb] at hab ⊢
  · exact le_refl (0 : ℝ)
  · rw [hd v hv]
    have := fl_mono F.toFloatSys 0 (1 / v) (by positivity)
    rw [h0] at this
    exact this
  · cases hab
  · rw [hd u hu, hd v hv]
    exact fl_mono _ _ _ (one_div_le_one_div_of_le (by linarith) hab)

theorem clip_mono (lo hi : ℝ) (hlo : lo ≤ hi) {a b : FV} (h : FV.le a b) : FV.le (a.clip lo hi) (b.clip lo hi) := by
  cases a <;> cases b <;> simp only [FV.le] at h <;> simp only [FV.clip, FV.le]
  · exact min_le_min (max_le_max h le_rfl) le_rfl
  · exact min_le_right _ _
  · exact le_rfl
  · exact le_min (le_max_right _ _) hlo
  · exact hlo
  · exact le_rfl

theorem expm1_mono' {a b : FV} (h : FV.le a b) : FV.le (F.expm1F a) (F.expm1F b) := by
  cases a <;> cases b <;> simp only [FV.le] at h <;> simp only [FloatLib.expm1F, FV.le]
  · exact F.expm1_mono _ _ h
  · exact F.expm1_range _
  · exact le_rfl

theorem pow_nonneg_range (S : FloatSys) (x e : ℝ) : FV.le (.num 0) (S.pow x e) := by
  rcases S.pow_range x e with ⟨v, h, h0, -⟩ | h <;> rw [h]
  · exact h0
  · trivial

theorem le_pinf {a : FV} (h : a ≠ .nan) : FV.le a .pinf := by
  cases a <;> first | trivial | exact absurd rfl h

theorem powF_mono (e : ℝ) (he : 0 ≤ e) {a b : FV} (h : FV.le a b) : Rises (F.powF e a) (F.powF e b) := by
  intro h1 h2
  have hp := pow_nonneg_range F.toFloatSys
  have hne : ¬ e < 0 := not_lt.2 he
  cases a with
  | nan => exact absurd rfl h1
  | ninf => exact absurd rfl h1
  | pinf =>
    cases b with
    | pinf => exact FV.le_refl' _ h1
    | _ => cases h
  | num x =>
    have hx : ¬ x < 0 := fun hx => h1 (if_pos hx)
    have e1 : F.powF e (.num x) = if x = 0 then (if e < 0 then .pinf else if e = 0 then .num 1 else .num 0) else F.pow x e := by
      unfold FloatLib.powF; exact if_neg hx
    cases b with
    | nan => exact absurd rfl h2
    | ninf => exact absurd rfl h2
    | pinf =>
      by_cases h0 : e = 0
      · have e2 : F.powF e .pinf = .num 1 := by unfold FloatLib.powF; simp [h0]
        rw [e2]
        have e3 : F.powF e (.num x) = .num 1 := by
          rw [e1, h0]; split
          · simp
          · exact F.pow_zero x
        rw [e3]; exact le_refl (1 : ℝ)
      · have e2 : F.powF e .pinf = .pinf := by unfold FloatLib.powF; simp [h0, hne]
        rw [e2]
        exact le_pinf h1
    | num y =>
      have hxy : x ≤ y := h
      have hy : ¬ y < 0 := fun hy => h2 (if_pos hy)
      have e2 : F.powF e (.num y) = if y = 0 then (if e < 0 then .pinf else if e = 0 then .num 1 else .num 0) else F.pow y e := by
        unfold FloatLib.powF; exact if_neg hy
      rw [e1, e2]
      have hx' := not_lt.1 hx
      have hy' := not_lt.1 hy
      by_cases hx0 : x = 0
      · rw [if_pos hx0, if_neg hne]
        by_cases hy0 : y = 0
        · rw [if_pos hy0]
          exact FV.le_refl' _ (by split <;> simp)
        · rw [if_neg hy0]
          by_cases h0 : e = 0
          · rw [if_pos h0, h0, F.pow_zero]; exact le_refl (1 : ℝ)
          · rw [if_neg h0]; exact hp _ _
      · have hxp : 0 < x := lt_of_le_of_ne hx' (Ne.symm hx0)
        rw [if_neg hx0, if_neg (by intro h; linarith)]
        exact F.pow_mono _ _ _ hxp hxy he

theorem powF_anti (e : ℝ) (he : e ≤ 0) {a b : FV} (h : FV.le a b) : Rises (F.powF e b) (F.powF e a) := by
  intro h2 h1
  have hp := pow_nonneg_range F.toFloatSys
  by_cases h0 : e = 0
  · have key : ∀ a, F.powF e a ≠ .nan → F.powF e a = .num 1 := by
      intro a ha
      rw [h0] at ha ⊢
      cases a with
      | nan => exact absurd rfl ha
      | ninf => exact absurd rfl ha
      | pinf => simp [FloatLib.powF]
      | num x =>
        have hx : ¬ x < 0 := fun hx => ha (if_pos hx)
        unfold FloatLib.powF
        refine (if_neg hx).trans ?_
        split
        · simp
        · exact F.pow_zero x
    rw [key _ h1, key _ h2]
    exact le_refl (1 : ℝ)
  have hneg : e < 0 := lt_of_le_of_ne he h0
  have npos : ∀ a, F.powF e a ≠ .nan → FV.le (.num 0) (F.powF e a) := by
    intro a ha
    cases a with
    | nan => exact absurd rfl ha
    | ninf => exact absurd rfl ha
    | pinf => unfold FloatLib.powF; simp only [hneg, if_true]; exact le_refl (0 : ℝ)
    | num x =>
      have hx : ¬ x < 0 := fun hx => ha (if_pos hx)
      have e1 : F.powF e (.num x) = if x = 0 then (if e < 0 then .pinf else if e = 0 then .num 1 else .num 0) else F.pow x e := by
        unfold FloatLib.powF; exact if_neg hx
      rw [e1]
      split
      · trivial
      · exact hp _ _
  cases a with
  | nan => exact absurd rfl h1
  | ninf => exact absurd rfl h1
  | pinf =>
    cases b with
    | pinf => exact FV.le_refl' _ h1
    | _ => cases h
  | num x =>
    have hx : ¬ x < 0 := fun hx => h1 (if_pos hx)
    have e1 : F.powF e (.num x) = if x = 0 then (if e < 0 then .pinf else if e = 0 then .num 1 else .num 0) else F.pow x e := by
      unfold FloatLib.powF; exact if_neg hx
    cases b with
    | nan => exact absurd rfl h2
    | ninf => exact absurd rfl h2
    | pinf =>
      have e2 : F.powF e .pinf = .num 0 := by unfold FloatLib.powF; simp [hneg]
      rw [e2]
      exact npos _ h1
    | num y =>
      have hxy : x ≤ y := h
      by_cases hx0 : x = 0
      · rw [e1, if_pos hx0, if_pos hneg]
        exact le_pinf h2
      · have hxp : 0 < x := lt_of_le_of_ne (not_lt.1 hx) (Ne.symm hx0)
        have e2 : F.powF e (.num y) = F.pow y e := by
          unfold FloatLib.powF
          exact (if_neg (by linarith)).trans (if_neg (by intro h; linarith))
        rw [e1, e2, if_neg hx0]
        exact F.pow_anti _ _ _ hxp hxy he

theorem opp_ne {a : FV} (h : a ≠ .nan) : a.opp ≠ .nan := by cases a <;> simp_all [FV.opp]

theorem expo_nonneg (p : ℝ) (hp : p ≤ 1) : 0 ≤ F.rd (1 / F.rd (1 - p)) := by
  have h1 : 0 ≤ F.rd (1 - p) := by have := F.mono 0 (1 - p) (by linarith); rwa [F.zero] at this
  have := F.mono 0 (1 / F.rd (1 - p)) (by positivity)
  rwa [F.zero] at this

theorem expo_nonpos (p : ℝ) (hp : 1 ≤ p) : F.rd (1 / F.rd (1 - p)) ≤ 0 := by
  have h1 : F.rd (1 - p) ≤ 0 := by have := F.mono (1 - p) 0 (by linarith); rwa [F.zero] at this
  have := F.mono (1 / F.rd (1 - p)) 0 (one_div_nonpos.2 h1)
  rwa [F.zero] at this

theorem inverse_up (e50 : ℝ) (he : e50 ≤ F.rd (1 - e50)) (l : Link) (hl : UpLink l) {a b : FV} (h : FV.le a b) :
    Rises (l.inverseFl F e50 a) (l.inverseFl F e50 b) := by
  rcases hl with rfl | rfl | rfl | rfl | ⟨p, hp, rfl⟩
  · exact fun _ _ => h
  · exact fun _ _ => expF_mono F h
  · exact fun _ _ => clip_mono _ _ he (expit_mono F h)
  · exact fun _ _ => clip_mono _ _ he (opp_anti (expm1_mono' F (opp_anti (expF_mono F h))))
  · unfold Link.inverseFl
    by_cases h0 : p = 0
    · simp only [h0, if_true]; exact fun _ _ => h
    · by_cases h1 : p = 1
      · simp only [h1, if_true, one_ne_zero, if_false]; exact fun _ _ => expF_mono F h
      · simp only [h0, h1, if_false]
        exact powF_mono F _ (expo_nonneg F p hp) h

theorem inverse_down (e50 : ℝ) (l : Link) (hl : DownLink l) {a b : FV} (h : FV.le a b) : Rises (l.inverseFl F e50 b) (l.inverseFl F e50 a) := by
  obtain ⟨p, hp, rfl⟩ := hl
  unfold Link.inverseFl
  have h0 : p ≠ 0 := by intro h; linarith
  have h1 : p ≠ 1 := by intro h; linarith
  simp only [h0, h1, if_false]
  exact powF_anti F _ (expo_nonpos F p hp.le) h

theorem inverse_nan (e50 : ℝ) (l : Link) : l.inverseFl F e50 .nan = .nan := by
  cases l with
  | tweedie p =>
    unfold Link.inverseFl
    by_cases h0 : p = 0
    · simp [h0]
    · by_cases h1 : p = 1 <;> simp [h0, h1, FloatSys.expF, FloatLib.powF]
  | _ => simp [Link.inverseFl, FloatSys.expF, FloatLib.expitF, FV.opp, FloatSys.add, FloatSys.div, FV.clip, FloatLib.expm1F]

/-! ### Weights -/

theorem mul_mono (S : FloatSys) {a b : FV} (w : ℝ) (hw : 0 ≤ w) (h : FV.le a b) : Rises (S.mul a (.num w)) (S.mul b (.num w)) := by
  intro h1 h2
  have hf := fl_not_nan S
  have hpos : FV.infSign w ≠ .nan → FV.infSign w = .pinf := by
    unfold FV.infSign
    intro h
    split at h
    · next h0 => exact if_pos h0
    · rw [if_neg (not_lt.2 hw)] at h; exact absurd rfl h
  have hneg : FV.infSign (-w) ≠ .nan → FV.infSign (-w) = .ninf := by
    unfold FV.infSign
    intro h
    split at h
    · next h0 => linarith
    · next h0 =>
      split at h
      · next h3 => exact (if_neg h0).trans (if_pos h3)
      · exact absurd rfl h
  cases a <;> cases b <;> simp only [FV.le] at h <;> simp only [FloatSys.mul] at h1 h2 ⊢
  · exact fl_mono S _ _ (mul_le_mul_of_nonneg_right h hw)
  · rw [hpos h2]; exact le_pinf h1
  · exact FV.le_refl' _ h1
  · rw [hneg h1]
    rename_i x
    cases hc : S.fl (x * w) <;> first | trivial | exact absurd hc (hf _)
  · rw [hneg h1, hpos h2]; trivial
  · exact FV.le_refl' _ h1

theorem mul_ne_nan (S : FloatSys) {a b : FV} (h : S.mul a b ≠ .nan) : a ≠ .nan := by
  rintro rfl
  cases b <;> exact h rfl

/-! ### Predictions -/

/-- **Predictions do not fall** when a feature with coefficient `≥ 0` rises (or one with coefficient `≤ 0` falls), with an increasing link: exactly, in floating
point, for every order of summation, offset and weight `≥ 0`, unless one of the two predictions is NaN. -/
theorem c118_predictions {ι : Type} (e50 : ℝ) (he : e50 ≤ F.rd (1 - e50)) (l : Link) (hl : UpLink l) (T : DotTree ι) (c x x' : ι → ℝ) (b : ℝ) (off sw : Option ℝ)
    (hsw : ∀ w, sw = some w → 0 ≤ w) (h : Favours c x x') : Rises (predictRowFl F e50 l T c b x off sw) (predictRowFl F e50 l T c b x' off sw) := by
  have h1 := c118_linear_predictor F T c x x' b off h
  have h2 : Rises (l.inverseFl F e50 (linPredFl F T c b x off)) (l.inverseFl F e50 (linPredFl F T c b x' off)) := by
    intro k1 k2
    refine inverse_up F e50 he l hl (h1 ?_ ?_) k1 k2
    · intro hn; rw [hn, inverse_nan] at k1; exact k1 rfl
    · intro hn; rw [hn, inverse_nan] at k2; exact k2 rfl
  cases sw with
  | none => exact h2
  | some w =>
    intro k1 k2
    exact mul_mono _ w (hsw w rfl) (h2 (mul_ne_nan _ k1) (mul_ne_nan _ k2)) k1 k2

/-- **With a decreasing link they do not rise.** -/
theorem c118_decreasing {ι : Type} (e50 : ℝ) (l : Link) (hl : DownLink l) (T : DotTree ι) (c x x' : ι → ℝ) (b : ℝ) (off sw : Option ℝ)
    (hsw : ∀ w, sw = some w → 0 ≤ w) (h : Favours c x x') : Rises (predictRowFl F e50 l T c b x' off sw) (predictRowFl F e50 l T c b x off sw) := by
  have h1 := c118_linear_predictor F T c x x' b off h
  have h2 : Rises (l.inverseFl F e50 (linPredFl F T c b x' off)) (l.inverseFl F e50 (linPredFl F T c b x off)) := by
    intro k2 k1
    refine inverse_down F e50 l hl (h1 ?_ ?_) k2 k1
    · intro hn; rw [hn, inverse_nan] at k1; exact k1 rfl
    · intro hn; rw [hn, inverse_nan] at k2; exact k2 rfl
  cases sw with
  | none => exact h2
  | some w =>
    intro k1 k2
    exact mul_mono _ w (hsw w rfl) (h2 (mul_ne_nan _ k1) (mul_ne_nan _ k2)) k1 k2

/-- **From the bounds to the predictions**: fitted with coordinate descent in rounded arithmetic (any data, start, number of iterations, path, standardisation) with
lower bound zero for feature `j`, the model predicts, in floating point, no less for a row which differs only by a larger value of `j`. -/
theorem c118_fit {p : ℕ} {ic : Bool} (thr : ℝ) (stds : ℕ → ℝ) (hs : ∀ j, 0 ≤ stds j) (lb ub : Option (ℕ → ℝ)) (center : Bool) (v : Fin (p + ic.toNat) → ℝ)
    (hv : ∀ k, F.rd (v k) = v k) (hlb : ∀ l, lb = some l → ∀ j, F.rd (l j) = l j) (hub : ∀ u, ub = some u → ∀ j, F.rd (u j) = u j)
    (path : List (List (FlIter (p + ic.toNat))))
    (hpath : ∀ its ∈ path, ∀ it ∈ its, it.cd.intercept = ic ∧ it.cd.lb = boundFl F.toRounding thr stds lb ∧ it.cd.ub = boundFl F.toRounding thr stds ub)
    (j : Fin p) (r : Fin (p + ic.toNat) → ℝ) (hr : r ∈ pathFl F.toRounding path (startFl F.toRounding p ic center stds lb ub v))
    (hj : ∃ l, lb = some l ∧ l j = 0) (hu : ∀ u, ub = some u → 0 ≤ u j)
    (e50 : ℝ) (he : e50 ≤ F.rd (1 - e50)) (l : Link) (hl : UpLink l) (T : DotTree (Fin p)) (b : ℝ) (off sw : Option ℝ) (hsw : ∀ w, sw = some w → 0 ≤ w)
    (x x' : Fin p → ℝ) (hx : ∀ k, k ≠ j → x k = x' k) (hxj : x j ≤ x' j) :
    Rises (predictRowFl F e50 l T (reportFl F.toRounding p ic thr stds r) b x off sw) (predictRowFl F e50 l T (reportFl F.toRounding p ic thr stds r) b x' off sw) := by
  have h0 := (c103_signs F.toRounding thr stds hs lb ub center v hv hlb hub path hpath j r hr).1 hj hu
  refine c118_predictions F e50 he l hl T _ x x' b off sw hsw fun k => ?_
  by_cases hk : k = j
  · subst hk; exact Or.inr (Or.inl ⟨h0, hxj⟩)
  · exact Or.inl (hx k hk)

/-- **With upper bound zero** it predicts no more. -/
theorem c118_fit_negative {p : ℕ} {ic : Bool} (thr : ℝ) (stds : ℕ → ℝ) (hs : ∀ j, 0 ≤ stds j) (lb ub : Option (ℕ → ℝ)) (center : Bool) (v : Fin (p + ic.toNat) → ℝ)
    (hv : ∀ k, F.rd (v k) = v k) (hlb : ∀ l, lb = some l → ∀ j, F.rd (l j) = l j) (hub : ∀ u, ub = some u → ∀ j, F.rd (u j) = u j)
    (path : List (List (FlIter (p + ic.toNat))))
    (hpath : ∀ its ∈ path, ∀ it ∈ its, it.cd.intercept = ic ∧ it.cd.lb = boundFl F.toRounding thr stds lb ∧ it.cd.ub = boundFl F.toRounding thr stds ub)
    (j : Fin p) (r : Fin (p + ic.toNat) → ℝ) (hr : r ∈ pathFl F.toRounding path (startFl F.toRounding p ic center stds lb ub v))
    (hj : ∃ u, ub = some u ∧ u j = 0) (hl0 : ∀ l, lb = some l → l j ≤ 0)
    (e50 : ℝ) (he : e50 ≤ F.rd (1 - e50)) (l : Link) (hl : UpLink l) (T : DotTree (Fin p)) (b : ℝ) (off sw : Option ℝ) (hsw : ∀ w, sw = some w → 0 ≤ w)
    (x x' : Fin p → ℝ) (hx : ∀ k, k ≠ j → x k = x' k) (hxj : x j ≤ x' j) :
    Rises (predictRowFl F e50 l T (reportFl F.toRounding p ic thr stds r) b x' off sw) (predictRowFl F e50 l T (reportFl F.toRounding p ic thr stds r) b x off sw) := by
  have h0 := (c103_signs F.toRounding thr stds hs lb ub center v hv hlb hub path hpath j r hr).2 hj hl0
  refine c118_predictions F e50 he l hl T _ x' x b off sw hsw fun k => ?_
  by_cases hk : k = j
  · subst hk; exact Or.inr (Or.inr ⟨h0, hxj⟩)
  · exact Or.inl (hx k hk).symm

/-! ### Sparse rows -/

/-- NaN, an infinity, or a number of the format. -/
def FloatSys.InFormat (S : FloatSys) : FV → Prop
  | .num x => S.rd x = x ∧ |x| ≤ S.big
  | _ => True

theorem fl_format (S : FloatSys) (x : ℝ) : S.InFormat (S.fl x) := by
  unfold FloatSys.fl
  split
  · next h => exact ⟨S.idem x, h⟩
  · split <;> trivial

theorem fl_of_format (S : FloatSys) (x : ℝ) (h : S.InFormat (.num x)) : S.fl x = .num x := by
  unfold FloatSys.fl
  rw [if_pos (by rw [h.1]; exact h.2), h.1]

theorem add_format (S : FloatSys) (a b : FV) : S.InFormat (S.add a b) := by
  cases a <;> cases b <;> first | exact fl_format S _ | trivial

theorem zero_format (S : FloatSys) : S.InFormat (.num 0) := ⟨S.zero, by rw [abs_zero]; linarith [S.two_le]⟩

theorem dot_format {ι : Type} (T : DotTree ι) (c x : ι → ℝ) : F.InFormat (T.dotFl F x c) := by
  induction T with
  | empty => exact zero_format _
  | prod j => exact fl_format _ _
  | add l r _ _ => exact add_format _ _ _
  | fma j r hr =>
    simp only [DotTree.dotFl]
    cases hc : r.dotFl F x c with
    | num s => exact fl_format _ _
    | _ => trivial

theorem add_zero_left (S : FloatSys) (a : FV) (h : S.InFormat a) : S.add (.num 0) a = a := by
  cases a with
  | num x => show S.fl (0 + x) = _; rw [zero_add]; exact fl_of_format S x h
  | _ => rfl

theorem add_zero_right (S : FloatSys) (a : FV) (h : S.InFormat a) : S.add a (.num 0) = a := by
  cases a with
  | num x => show S.fl (x + 0) = _; rw [add_zero]; exact fl_of_format S x h
  | _ => rfl

theorem join_dot {ι : Type} (l r : DotTree ι) (c x : ι → ℝ) : (l.join r).dotFl F x c = F.add (l.dotFl F x c) (r.dotFl F x c) := by
  have hl := dot_format F l c x
  have hr := dot_format F r c x
  cases l with
  | empty => exact (add_zero_left _ _ hr).symm
  | _ => cases r with
    | empty => exact (add_zero_right _ _ hl).symm
    | _ => rfl

/-- **Zeros that are not stored make no difference**: a sparse row gives exactly what the dense row gives with the same order of summation. -/
theorem c118_sparse {ι : Type} (T : DotTree ι) (c x : ι → ℝ) : (T.prune x).dotFl F x c = T.dotFl F x c := by
  have h0 : F.fl 0 = .num 0 := fl_of_format _ 0 (zero_format _)
  induction T with
  | empty => rfl
  | prod j =>
    unfold DotTree.prune
    split
    · next h => simp only [DotTree.dotFl, h, zero_mul, h0]
    · rfl
  | add l r hl hr =>
    show ((l.prune x).join (r.prune x)).dotFl F x c = _
    rw [join_dot, hl, hr]
    rfl
  | fma j r hr =>
    unfold DotTree.prune
    split
    · next h =>
      rw [hr]
      simp only [DotTree.dotFl, h]
      have hf := dot_format F r c x
      cases hc : r.dotFl F x c with
      | num s =>
        rw [hc] at hf
        simp only [FloatLib.fma, zero_mul, zero_add]
        exact (fl_of_format _ s hf).symm
      | _ => rfl
    · simp only [DotTree.dotFl, hr]

/-- **Sparse rows with different patterns of zeros** compare as dense rows do. -/
theorem c118_sparse_predictions {ι : Type} (e50 : ℝ) (he : e50 ≤ F.rd (1 - e50)) (l : Link) (hl : UpLink l) (T : DotTree ι) (c x x' : ι → ℝ) (b : ℝ) (off sw : Option ℝ)
    (hsw : ∀ w, sw = some w → 0 ≤ w) (h : Favours c x x') : Rises (predictRowFl F e50 l (T.prune x) c b x off sw) (predictRowFl F e50 l (T.prune x') c b x' off sw) := by
  have e : ∀ y, predictRowFl F e50 l (T.prune y) c b y off sw = predictRowFl F e50 l T c b y off sw := by
    intro y
    unfold predictRowFl linPredFl
    rw [c118_sparse]
  rw [e, e]
  exact c118_predictions F e50 he l hl T c x x' b off sw hsw h

/-! ### Example -/

/-- The small floating-point system of C115 (exact numbers up to 100, `exp` underflows and overflows), with its monotone library functions. -/
noncomputable def smallLib : FloatLib where
  toFloatSys := smallFloat
  exp_mono := fun x y h => by
    show FV.le (if x < -6 then .num 0 else if Real.exp x ≤ 100 then .num (Real.exp x) else .pinf)
      (if y < -6 then .num 0 else if Real.exp y ≤ 100 then .num (Real.exp y) else .pinf)
    have he := Real.exp_le_exp.2 h
    have hx := Real.exp_pos x
    have hy := Real.exp_pos y
    split_ifs <;> simp only [FV.le] <;> linarith
  expm1 := fun x => Real.exp x - 1
  expm1_mono := fun x y h => by have := Real.exp_le_exp.2 h; linarith
  expm1_range := fun x => by have := Real.exp_pos x; linarith
  pow_zero := fun x => by
    show (if 0 ≤ x ^ (0 : ℝ) ∧ x ^ (0 : ℝ) ≤ 100 then FV.num (x ^ (0 : ℝ)) else .pinf) = _
    rw [Real.rpow_zero, if_pos (by norm_num)]
  pow_mono := fun x y e hx h he => by
    show FV.le (if 0 ≤ x ^ e ∧ x ^ e ≤ 100 then FV.num (x ^ e) else .pinf) (if 0 ≤ y ^ e ∧ y ^ e ≤ 100 then FV.num (y ^ e) else .pinf)
    have h1 := Real.rpow_le_rpow hx.le h he
    have h2 := Real.rpow_nonneg hx.le e
    by_cases hy : 0 ≤ y ^ e ∧ y ^ e ≤ 100
    · rw [if_pos hy, if_pos ⟨h2, h1.trans hy.2⟩]; exact h1
    · rw [if_neg hy]; split <;> trivial
  pow_anti := fun x y e hx h he => by
    show FV.le (if 0 ≤ y ^ e ∧ y ^ e ≤ 100 then FV.num (y ^ e) else .pinf) (if 0 ≤ x ^ e ∧ x ^ e ≤ 100 then FV.num (x ^ e) else .pinf)
    have h1 := Real.rpow_le_rpow_of_nonpos hx h he
    have h2 := Real.rpow_nonneg (hx.le.trans h) e
    by_cases hy : 0 ≤ x ^ e ∧ x ^ e ≤ 100
    · rw [if_pos hy, if_pos ⟨h2, h1.trans hy.2⟩]; exact h1
    · rw [if_neg hy]; split <;> trivial

/-- Two features with coefficients 2 and -1: raising the first from 1 to 6 (where `exp` overflows) does not lower the prediction, which is not NaN. -/
example : FV.le (predictRowFl smallLib 0 .log (.add (.prod 0) (.fma 1 .empty)) ![2, -1] (1 : ℝ) (![1, 1] : Fin 2 → ℝ) none none)
    (predictRowFl smallLib 0 .log (.add (.prod 0) (.fma 1 .empty)) ![2, -1] (1 : ℝ) (![6, 1] : Fin 2 → ℝ) none none) := by
  refine c118_predictions smallLib 0 (by show (0 : ℝ) ≤ 1 - 0; norm_num) .log (Or.inr (Or.inl rfl)) _ ![2, -1] ![1, 1] ![6, 1] 1 none none (fun w h => by cases h) ?_ ?_ ?_
  · intro j
    fin_cases j
    · right; left; norm_num
    · left; rfl
  · have : ∀ a, a ≠ FV.nan → smallLib.expF a ≠ .nan := fun a ha => (le_ne_nan (expF_nonneg smallLib ha)).2
    refine this _ ?_
    show smallLib.add (smallLib.add (smallLib.fl _) (smallLib.fl _)) (.num 1) ≠ .nan
    have h1 : smallLib.fl ((![1, 1] : Fin 2 → ℝ) 0 * (![2, -1] : Fin 2 → ℝ) 0) = .num 2 := by
      rw [fl_of_format _ _ ⟨rfl, by show |(1 : ℝ) * 2| ≤ 100; norm_num⟩]; norm_num
    have h2 : smallLib.fl ((![1, 1] : Fin 2 → ℝ) 1 * (![2, -1] : Fin 2 → ℝ) 1 + 0) = .num (-1) := by
      rw [fl_of_format _ _ ⟨rfl, by show |(1 : ℝ) * (-1) + 0| ≤ 100; norm_num⟩]; norm_num
    rw [h1, h2]
    have h3 : smallLib.add (.num 2) (.num (-1)) = .num (2 + -1) := fl_of_format _ _ ⟨rfl, by show |(2 : ℝ) + -1| ≤ 100; norm_num⟩
    rw [h3]
    exact fl_not_nan _ _
  · have : ∀ a, a ≠ FV.nan → smallLib.expF a ≠ .nan := fun a ha => (le_ne_nan (expF_nonneg smallLib ha)).2
    refine this _ ?_
    show smallLib.add (smallLib.add (smallLib.fl _) (smallLib.fl _)) (.num 1) ≠ .nan
    have h1 : smallLib.fl ((![6, 1] : Fin 2 → ℝ) 0 * (![2, -1] : Fin 2 → ℝ) 0) = .num 12 := by
      rw [fl_of_format _ _ ⟨rfl, by show |(6 : ℝ) * 2| ≤ 100; norm_num⟩]; norm_num
    have h2 : smallLib.fl ((![6, 1] : Fin 2 → ℝ) 1 * (![2, -1] : Fin 2 → ℝ) 1 + 0) = .num (-1) := by
      rw [fl_of_format _ _ ⟨rfl, by show |(1 : ℝ) * (-1) + 0| ≤ 100; norm_num⟩]; norm_num
    rw [h1, h2]
    have h3 : smallLib.add (.num 12) (.num (-1)) = .num (12 + -1) := fl_of_format _ _ ⟨rfl, by show |(12 : ℝ) + -1| ≤ 100; norm_num⟩
    rw [h3]
    exact fl_not_nan _ _

end Glum
