import Mathlib.Tactic.Ring
import Mathlib.Tactic.Linarith
import Mathlib.Tactic.FieldSimp
import Mathlib.Tactic.LinearCombination
import Mathlib.Tactic.NormNum
import Verif.Model.CD
import Verif.Spec.Quad

set_option linter.unusedSectionVars false
set_option linter.unusedVariables false

namespace Glum
open Spec

variable {K : Type*} [Field K] [LinearOrder K] [IsStrictOrderedRing K]

theorem fmax_eq (x y : K) : fmax x y = max x y := by
  unfold fmax
  split
  · rw [max_eq_left (by linarith)]
  · rw [max_eq_right (by linarith)]

theorem pen_eq {p a : ℕ} (D : CDData K p a) (i : Fin p) :
    D.pen i = l1Weight D.intercept D.P1 i := by
  unfold CDData.pen l1Weight
  cases D.intercept <;> cases h : i.val <;> simp

theorem l1Weight_nonneg {p : ℕ} (ic : Bool) (P1 : ℕ → K) (h : ∀ k, 0 ≤ P1 k) (i : Fin p) :
    0 ≤ l1Weight ic P1 i := by
  unfold l1Weight
  cases ic <;> cases i.val <;> simp [h]

/-- subgradient certificate for the soft-threshold value -/
theorem softStep_subgrad (t P qd : K) (hP : 0 ≤ P) (hq : 0 < qd) :
    ∃ s : K, -1 ≤ s ∧ s ≤ 1 ∧ qd * softStep t P qd + t + P * s = 0 ∧
      (0 < softStep t P qd → s = 1) ∧ (softStep t P qd < 0 → s = -1) := by
  unfold softStep
  rw [fmax_eq]
  by_cases hle : |t| ≤ P
  · rw [max_eq_right (by linarith)]
    rcases eq_or_lt_of_le hP with h0 | h0
    · have : t = 0 := by
        rw [← h0] at hle; exact abs_eq_zero.mp (le_antisymm hle (abs_nonneg t))
      refine ⟨0, by simp, by simp, ?_, ?_, ?_⟩ <;> simp [this]
    · refine ⟨-t / P, ?_, ?_, ?_, ?_, ?_⟩
      · rw [le_div_iff₀ h0]; have := le_abs_self t; linarith
      · rw [div_le_iff₀ h0]; have := neg_abs_le t; linarith
      · field_simp; ring
      · simp
      · simp
  · push Not at hle
    rw [max_eq_left (by linarith)]
    rcases lt_trichotomy t 0 with ht | ht | ht
    · have e : fsign (-t) = 1 := by
        unfold fsign; rw [if_neg (by linarith), if_pos (by linarith)]
      rw [e, abs_of_neg ht] 
      rw [abs_of_neg ht] at hle
      refine ⟨1, by linarith, le_refl _, ?_, by simp, ?_⟩
      · field_simp; ring
      · intro h
        have : 0 < 1 * (-t - P) / qd := by apply div_pos _ hq; linarith
        linarith
    · subst ht; simp at hle; linarith
    · have e : fsign (-t) = -1 := by
        unfold fsign; rw [if_neg (by linarith), if_neg (by linarith)]
      rw [e, abs_of_pos ht]
      rw [abs_of_pos ht] at hle
      refine ⟨-1, le_refl _, by linarith, ?_, ?_, by simp⟩
      · field_simp; ring
      · intro h
        have : -1 * (t - P) / qd < 0 := by apply div_neg_of_neg_of_pos _ hq; linarith
        linarith

theorem abs_slope_right (s v c z : K) (h1 : -1 ≤ s) (h2 : s ≤ 1) (hs : v < 0 → s = -1)
    (hvc : v ≤ c) (hcz : c ≤ z) : s * (z - c) ≤ |z| - |c| := by
  by_cases hv : v < 0
  · rw [hs hv]
    have := abs_le.mp (abs_abs_sub_abs_le z c)
    have h3 : |z - c| = z - c := abs_of_nonneg (by linarith)
    linarith [this.1]
  · push Not at hv
    rw [abs_of_nonneg (by linarith), abs_of_nonneg (by linarith)]
    nlinarith

theorem abs_slope_left (s v c z : K) (h1 : -1 ≤ s) (h2 : s ≤ 1) (hs : 0 < v → s = 1)
    (hvc : c ≤ v) (hcz : z ≤ c) : s * (z - c) ≤ |z| - |c| := by
  have := abs_slope_right (-s) (-v) (-c) (-z) (by linarith) (by linarith)
    (fun h => by rw [hs (by linarith)]) (by linarith) (by linarith)
  rw [abs_neg, abs_neg] at this
  linarith

theorem abs_slope_at (s v z : K) (h1 : -1 ≤ s) (h2 : s ≤ 1) (hp : 0 < v → s = 1)
    (hn : v < 0 → s = -1) : s * (z - v) ≤ |z| - |v| := by
  rcases le_total v z with h | h
  · exact abs_slope_right s v v z h1 h2 hn le_rfl h
  · exact abs_slope_left s v v z h1 h2 hp le_rfl h

/-- The clamped soft-threshold value minimises the 1-d problem over the interval, with strong convexity. -/
theorem clamp1d (t P qd : K) (hP : 0 ≤ P) (hq : 0 < qd) (c z : K)
    (hc : c = softStep t P qd ∨ (softStep t P qd ≤ c ∧ c ≤ z) ∨ (c ≤ softStep t P qd ∧ z ≤ c)) :
    1 / 2 * qd * (z - c) ^ 2 ≤
      (1 / 2 * qd * z ^ 2 + t * z + P * |z|) - (1 / 2 * qd * c ^ 2 + t * c + P * |c|) := by
  obtain ⟨s, h1, h2, he, hp, hn⟩ := softStep_subgrad t P qd hP hq
  set v := softStep t P qd
  have key : s * (z - c) ≤ |z| - |c| ∧ 0 ≤ (c - v) * (z - c) := by
    rcases hc with h | ⟨h, h'⟩ | ⟨h, h'⟩
    · subst h; exact ⟨abs_slope_at s v z h1 h2 hp hn, by simp⟩
    · exact ⟨abs_slope_right s v c z h1 h2 hn h h', mul_nonneg (by linarith) (by linarith)⟩
    · exact ⟨abs_slope_left s v c z h1 h2 hp h h', mul_nonneg_of_nonpos_of_nonpos (by linarith) (by linarith)⟩
  have k1 := mul_le_mul_of_nonneg_left key.1 hP
  have k2 := mul_nonneg hq.le key.2
  have ht : t = -(qd * v) - P * s := by linarith
  rw [ht]
  nlinarith

theorem clamp_cases {p a : ℕ} (D : CDData K p a) (hb : BoundsOrdered D.lb D.ub) (i : Fin p) (v z : K)
    (hz : ∀ k, i.val = k + D.intercept.toNat →
      (∀ l, D.lb = some l → l k ≤ z) ∧ (∀ u, D.ub = some u → z ≤ u k)) :
    D.clamp i v = v ∨ (v ≤ D.clamp i v ∧ D.clamp i v ≤ z) ∨ (D.clamp i v ≤ v ∧ z ≤ D.clamp i v) := by
  unfold CDData.clamp
  split
  · exact Or.inl rfl
  · rename_i hi
    have hk : i.val = (i.val - D.intercept.toNat) + D.intercept.toNat := by omega
    obtain ⟨hl, hu⟩ := hz _ hk
    set k := i.val - D.intercept.toNat
    cases hlb : D.lb with
    | none =>
      cases hub : D.ub with
      | none => exact Or.inl rfl
      | some u =>
        have := hu u hub
        simp only []
        split
        · exact Or.inr (Or.inr ⟨by linarith, this⟩)
        · exact Or.inl rfl
    | some l =>
      have h1 := hl l hlb
      cases hub : D.ub with
      | none =>
        simp only []
        split
        · exact Or.inr (Or.inl ⟨by linarith, h1⟩)
        · exact Or.inl rfl
      | some u =>
        have h2 := hu u hub
        have h3 := hb l u hlb hub k
        simp only []
        split
        · rw [if_neg (by linarith)]
          exact Or.inr (Or.inl ⟨by linarith, h1⟩)
        · split
          · exact Or.inr (Or.inr ⟨by linarith, h2⟩)
          · exact Or.inl rfl

theorem clamp_inBounds {p a : ℕ} (D : CDData K p a) (hb : BoundsOrdered D.lb D.ub) (i : Fin p) (v : K)
    (k : ℕ) (hk : i.val = k + D.intercept.toNat) :
    (∀ l, D.lb = some l → l k ≤ D.clamp i v) ∧ (∀ u, D.ub = some u → D.clamp i v ≤ u k) := by
  unfold CDData.clamp
  rw [if_neg (by omega)]
  have : i.val - D.intercept.toNat = k := by omega
  rw [this]
  cases hlb : D.lb with
  | none =>
    cases hub : D.ub with
    | none => simp
    | some u =>
      simp only [reduceCtorEq, false_implies, implies_true, Option.some.injEq, forall_eq', true_and]
      split <;> linarith
  | some l =>
    cases hub : D.ub with
    | none =>
      simp only [reduceCtorEq, false_implies, implies_true, Option.some.injEq, forall_eq', and_true]
      split <;> linarith
    | some u =>
      have h3 := hb l u hlb hub k
      simp only [Option.some.injEq, forall_eq']
      constructor <;> split_ifs <;> linarith

/-! ### updateQ -/

theorem foldl_update_notMem {ι κ : Type*} [DecidableEq ι] (f : κ → ι) (g : κ → K) (l : List κ)
    (q : ι → K) (i : ι) (h : ∀ j ∈ l, f j ≠ i) :
    (l.foldl (fun q j => Function.update q (f j) (q (f j) + g j)) q) i = q i := by
  induction l generalizing q with
  | nil => rfl
  | cons x xs ih =>
    rw [List.foldl_cons, ih]
    · rw [Function.update_of_ne (fun e => h x (by simp) e.symm)]
    · exact fun j hj => h j (by simp [hj])

theorem foldl_update_mem {ι κ : Type*} [DecidableEq ι] (f : κ → ι) (hf : Function.Injective f) (g : κ → K)
    (l : List κ) (hl : l.Nodup) (q : ι → K) (j : κ) (h : j ∈ l) :
    (l.foldl (fun q j => Function.update q (f j) (q (f j) + g j)) q) (f j) = q (f j) + g j := by
  induction l generalizing q with
  | nil => simp at h
  | cons x xs ih =>
    rw [List.foldl_cons]
    rcases List.mem_cons.mp h with e | e
    · subst e
      rw [foldl_update_notMem]
      · simp
      · intro j' hj' e
        have := hf e
        subst this
        exact (List.nodup_cons.mp hl).1 hj'
    · rw [ih (List.nodup_cons.mp hl).2 _ e]
      have hne : f j ≠ f x := by
        intro e'
        have := hf e'
        subst this
        exact (List.nodup_cons.mp hl).1 e
      rw [Function.update_of_ne hne]

theorem updateQ_active {p a : ℕ} (D : CDData K p a) (hinj : Function.Injective D.active) (s : Fin a) (dw : K)
    (q : Fin p → K) (j : Fin a) :
    D.updateQ s dw q (D.active j) = q (D.active j) + dw * D.Q s j := by
  unfold CDData.updateQ
  exact foldl_update_mem D.active hinj (fun j => dw * D.Q s j) _ (List.nodup_finRange a) q j (List.mem_finRange j)

/-! ### the invariant -/

/-- bookkeeping invariant -/
def CDInv {p a : ℕ} (D : CDData K p a) (w0 q0 : Fin p → K) (w q : Fin p → K) : Prop :=
  (∀ s, q (D.active s) = quadGrad D.active D.Q q0 w0 w s) ∧
  (∀ i, (∀ s, D.active s ≠ i) → w i = w0 i)

theorem CDInv.init {p a : ℕ} (D : CDData K p a) (w0 q0 : Fin p → K) : CDInv D w0 q0 w0 q0 := by
  refine ⟨fun s => ?_, fun i _ => rfl⟩
  simp [quadGrad]

theorem quadGrad_update {p a : ℕ} (active : Fin a → Fin p) (hinj : Function.Injective active)
    (Q : Fin a → Fin a → K) (g0 w0 w : Fin p → K) (s j : Fin a) (z : K) :
    quadGrad active Q g0 w0 (Function.update w (active s) z) j
      = quadGrad active Q g0 w0 w j + Q j s * (z - w (active s)) := by
  unfold quadGrad
  have : ∀ t, Function.update w (active s) z (active t) = w (active t) + if t = s then z - w (active s) else 0 := by
    intro t
    by_cases h : t = s
    · subst h; simp
    · rw [Function.update_of_ne (fun e => h (hinj e))]; simp [h]
  simp only [this]
  rw [add_assoc]
  congr 1
  rw [show (∑ t, Q j t * (w (active t) + (if t = s then z - w (active s) else 0) - w0 (active t)))
     = ∑ t, (Q j t * (w (active t) - w0 (active t)) + if t = s then Q j t * (z - w (active s)) else 0) from ?_]
  · rw [Finset.sum_add_distrib]; simp
  · apply Finset.sum_congr rfl
    intro t _
    split <;> ring

theorem visit_inv {p a : ℕ} (D : CDData K p a) (hinj : Function.Injective D.active)
    (hsym : ∀ s t, D.Q s t = D.Q t s) (w0 q0 : Fin p → K) (s : Fin a) (st : CDState K p)
    (h : CDInv D w0 q0 st.w st.q) : CDInv D w0 q0 (D.visit s st).w (D.visit s st).q := by
  unfold CDData.visit
  simp only []
  split
  · exact h
  · refine ⟨fun j => ?_, fun i hi => ?_⟩
    · rw [quadGrad_update D.active hinj]
      simp only []
      rw [← h.1 j]
      split
      · rw [updateQ_active D hinj, hsym j s]; ring
      · rename_i hz
        push Not at hz
        rw [hz.1, hz.2]; ring
    · simp only []
      rw [Function.update_of_ne (fun e => hi s e.symm)]
      exact h.2 i hi

/-! ### objective along one coordinate -/

theorem quad_update {p a : ℕ} (active : Fin a → Fin p) (hinj : Function.Injective active)
    (Q : Fin a → Fin a → K) (hsym : ∀ s t, Q s t = Q t s) (g0 w0 w : Fin p → K) (s : Fin a) (z : K) :
    quad active Q g0 w0 (Function.update w (active s) z) = quad active Q g0 w0 w
      + quadGrad active Q g0 w0 w s * (z - w (active s)) + 1 / 2 * Q s s * (z - w (active s)) ^ 2 := by
  unfold quad quadGrad
  have : ∀ t, Function.update w (active s) z (active t) - w0 (active t)
      = (w (active t) - w0 (active t)) + if t = s then z - w (active s) else 0 := by
    intro t
    by_cases h : t = s
    · subst h; simp
    · rw [Function.update_of_ne (fun e => h (hinj e))]; simp [h]
  simp only [this]
  set d : Fin a → K := fun t => w (active t) - w0 (active t) with hd
  set e := z - w (active s)
  have e1 : ∑ t, g0 (active t) * (d t + if t = s then e else 0)
      = ∑ t, g0 (active t) * d t + g0 (active s) * e := by
    simp only [mul_add, Finset.sum_add_distrib, mul_ite, mul_zero, Finset.sum_ite_eq', Finset.mem_univ, if_true]
  have e2 : ∑ i, ∑ t, Q i t * (d i + if i = s then e else 0) * (d t + if t = s then e else 0)
      = ∑ i, ∑ t, Q i t * d i * d t + 2 * e * ∑ t, Q s t * d t + Q s s * e ^ 2 := by
    have h1 : ∀ i t, Q i t * (d i + if i = s then e else 0) * (d t + if t = s then e else 0)
       = Q i t * d i * d t + (if t = s then Q i t * d i * e else 0) + (if i = s then Q i t * d t * e else 0)
          + (if i = s then (if t = s then Q i t * e ^ 2 else 0) else 0) := by
      intro i t
      split <;> split <;> ring
    simp only [h1, Finset.sum_add_distrib, Finset.sum_ite_eq', Finset.mem_univ, if_true]
    have h2 : ∑ i, ∑ t, (if i = s then Q i t * d t * e else 0) = e * ∑ t, Q s t * d t := by
      rw [Finset.sum_eq_single s]
      · simp only [if_true, Finset.mul_sum]; exact Finset.sum_congr rfl fun t _ => by ring
      · intro b _ hb; simp [hb]
      · simp
    have h3 : ∑ i, ∑ t, (if i = s then (if t = s then Q i t * e ^ 2 else 0) else 0) = Q s s * e ^ 2 := by
      rw [Finset.sum_eq_single s]
      · simp
      · intro b _ hb; simp [hb]
      · simp
    have h4 : ∑ i, Q i s * d i * e = e * ∑ t, Q s t * d t := by
      rw [Finset.mul_sum]; exact Finset.sum_congr rfl fun t _ => by rw [hsym t s]; ring
    rw [h2, h3, h4]; ring
  change ∑ t, g0 (active t) * (d t + if t = s then e else 0)
     + 1 / 2 * ∑ i, ∑ t, Q i t * (d i + if i = s then e else 0) * (d t + if t = s then e else 0)
     = ∑ t, g0 (active t) * d t + 1 / 2 * ∑ i, ∑ t, Q i t * d i * d t + (g0 (active s) + ∑ t, Q s t * d t) * e
       + 1 / 2 * Q s s * e ^ 2
  rw [e1, e2]; ring

theorem l1_update {p : ℕ} (ic : Bool) (P1 : ℕ → K) (w : Fin p → K) (i : Fin p) (z : K) :
    l1 ic P1 (Function.update w i z) = l1 ic P1 w + l1Weight ic P1 i * (|z| - |w i|) := by
  unfold l1
  have : ∀ j, l1Weight ic P1 j * |Function.update w i z j|
     = l1Weight ic P1 j * |w j| + if j = i then l1Weight ic P1 j * (|z| - |w i|) else 0 := by
    intro j
    by_cases h : j = i
    · subst h; simp; ring
    · rw [Function.update_of_ne h]; simp [h]
  simp only [this, Finset.sum_add_distrib, Finset.sum_ite_eq', Finset.mem_univ, if_true]

theorem modelObj_update {p a : ℕ} (D : CDData K p a) (hinj : Function.Injective D.active)
    (hsym : ∀ s t, D.Q s t = D.Q t s) (w0 q0 : Fin p → K) (w q : Fin p → K) (s : Fin a) (z : K)
    (h : CDInv D w0 q0 w q) :
    modelObj D.active D.Q D.intercept D.P1 q0 w0 (Function.update w (D.active s) z)
      = modelObj D.active D.Q D.intercept D.P1 q0 w0 w
        + q (D.active s) * (z - w (D.active s)) + 1 / 2 * D.Q s s * (z - w (D.active s)) ^ 2
        + l1Weight D.intercept D.P1 (D.active s) * (|z| - |w (D.active s)|) := by
  unfold modelObj
  rw [quad_update D.active hinj D.Q hsym, l1_update, h.1 s]; ring

/-- the value written by one visit -/
theorem visit_w {p a : ℕ} (D : CDData K p a) (s : Fin a) (st : CDState K p) (hq : D.eps < D.Q s s) :
    (D.visit s st).w = Function.update st.w (D.active s)
      (D.clamp (D.active s) (softStep (st.q (D.active s) - st.w (D.active s) * D.Q s s)
        (l1Weight D.intercept D.P1 (D.active s)) (D.Q s s))) := by
  unfold CDData.visit
  simp only [pen_eq]
  rw [if_neg (by simpa using hq)]

theorem visit_skip {p a : ℕ} (D : CDData K p a) (s : Fin a) (st : CDState K p) (hq : D.Q s s ≤ D.eps) :
    D.visit s st = st := by
  unfold CDData.visit
  simp only []
  rw [if_pos hq]

/-- exact minimisation with strong convexity -/
theorem visit_opt {p a : ℕ} (D : CDData K p a) (hinj : Function.Injective D.active)
    (hsym : ∀ s t, D.Q s t = D.Q t s) (hP : ∀ k, 0 ≤ D.P1 k) (heps : 0 ≤ D.eps)
    (hb : BoundsOrdered D.lb D.ub) (w0 q0 : Fin p → K) (s : Fin a) (st : CDState K p)
    (h : CDInv D w0 q0 st.w st.q) (hq : D.eps < D.Q s s) (z : K)
    (hz : InBounds D.intercept D.lb D.ub (Function.update st.w (D.active s) z)) :
    modelObj D.active D.Q D.intercept D.P1 q0 w0 (D.visit s st).w
      + 1 / 2 * D.Q s s * (z - (D.visit s st).w (D.active s)) ^ 2
      ≤ modelObj D.active D.Q D.intercept D.P1 q0 w0 (Function.update st.w (D.active s) z) := by
  rw [visit_w D s st hq]
  set t := st.q (D.active s) - st.w (D.active s) * D.Q s s with ht
  set c := D.clamp (D.active s) (softStep t (l1Weight D.intercept D.P1 (D.active s)) (D.Q s s)) with hc
  rw [Function.update_self]
  have hqd : 0 < D.Q s s := lt_of_le_of_lt heps hq
  have hcases := clamp_cases D hb (D.active s)
    (softStep t (l1Weight D.intercept D.P1 (D.active s)) (D.Q s s)) z (by
      intro k hk
      have := hz (D.active s) k hk
      simpa using this)
  have key := clamp1d t (l1Weight D.intercept D.P1 (D.active s)) (D.Q s s)
    (l1Weight_nonneg _ _ hP _) hqd c z hcases
  rw [modelObj_update D hinj hsym w0 q0 st.w st.q s c h, modelObj_update D hinj hsym w0 q0 st.w st.q s z h]
  nlinarith [key, ht]

theorem visit_inBounds {p a : ℕ} (D : CDData K p a) (hb : BoundsOrdered D.lb D.ub) (s : Fin a) (st : CDState K p)
    (h : InBounds D.intercept D.lb D.ub st.w) : InBounds D.intercept D.lb D.ub (D.visit s st).w := by
  by_cases hq : D.Q s s ≤ D.eps
  · rw [visit_skip D s st hq]; exact h
  · rw [visit_w D s st (by simpa using hq)]
    intro i k hk
    by_cases hi : i = D.active s
    · subst hi
      rw [Function.update_self]
      exact clamp_inBounds D hb _ _ k hk
    · rw [Function.update_of_ne hi]
      exact h i k hk

theorem visit_mono {p a : ℕ} (D : CDData K p a) (hinj : Function.Injective D.active)
    (hsym : ∀ s t, D.Q s t = D.Q t s) (hP : ∀ k, 0 ≤ D.P1 k) (heps : 0 ≤ D.eps)
    (hb : BoundsOrdered D.lb D.ub) (w0 q0 : Fin p → K) (s : Fin a) (st : CDState K p)
    (h : CDInv D w0 q0 st.w st.q) (hf : InBounds D.intercept D.lb D.ub st.w) :
    modelObj D.active D.Q D.intercept D.P1 q0 w0 (D.visit s st).w
      ≤ modelObj D.active D.Q D.intercept D.P1 q0 w0 st.w := by
  by_cases hq : D.Q s s ≤ D.eps
  · rw [visit_skip D s st hq]
  · have hq' : D.eps < D.Q s s := by simpa using hq
    have := visit_opt D hinj hsym hP heps hb w0 q0 s st h hq' (st.w (D.active s)) (by
      rw [Function.update_eq_self]; exact hf)
    rw [Function.update_eq_self] at this
    have h2 : 0 ≤ 1 / 2 * D.Q s s * (st.w (D.active s) - (D.visit s st).w (D.active s)) ^ 2 := by
      have : 0 < D.Q s s := lt_of_le_of_lt heps hq'
      positivity
    linarith

/-! ### lifting a property of `visit` through the loops -/

/-- A state predicate on (w,q) preserved by every visit is preserved by the whole cycle. -/
theorem cycle_preserves {p a : ℕ} (D : CDData K p a) (I : (Fin p → K) → (Fin p → K) → Prop)
    (hv : ∀ s st, I st.w st.q → I (D.visit s st).w (D.visit s st).q) (st : CDState K p)
    (h : I st.w st.q) : I (D.cycle st).w (D.cycle st).q := by
  cases a with
  | zero => exact h
  | succ a' =>
    unfold CDData.cycle
    simp only []
    have : ∀ (l : List (Fin (a' + 1))) (st : CDState K p), I st.w st.q →
        I (l.foldl (CDData.pass (a := a' + 1) D) st).w (l.foldl (CDData.pass (a := a' + 1) D) st).q := by
      intro l
      induction l with
      | nil => intro st h; exact h
      | cons x xs ih =>
        intro st h
        rw [List.foldl_cons]
        apply ih
        unfold CDData.pass
        exact hv _ _ h
    exact this _ _ h

theorem loop_preserves {p a : ℕ} (D : CDData K p a) (I : (Fin p → K) → (Fin p → K) → Prop)
    (hv : ∀ s st, I st.w st.q → I (D.visit s st).w (D.visit s st).q)
    (fuel k : ℕ) (norm : K) (st : CDState K p) (h : I st.w st.q) :
    ∃ q, I (D.loop fuel k norm st).w q := by
  induction fuel generalizing k norm st with
  | zero => exact ⟨st.q, h⟩
  | succ n ih =>
    have hc := cycle_preserves D I hv st h
    unfold CDData.loop
    simp only []
    split
    · split
      · exact ⟨_, hc⟩
      · exact ih _ _ _ hc
    · exact ih _ _ _ hc

end Glum
