import Verif.Model.Float
import Mathlib.Tactic.Linarith
import Mathlib.Algebra.Order.Round
import Mathlib.Tactic.NormNum
/-
C103: sign constraints and exact zeros survive rounding.
-/
set_option linter.unusedSectionVars false
set_option linter.unusedVariables false
set_option linter.unusedSimpArgs false

namespace Glum

variable {m p : ℕ} {ic : Bool} (F : Rounding)

theorem Rounding.nonneg {F : Rounding} {x : ℝ} (h : 0 ≤ x) : 0 ≤ F.rd x := F.zero.symm.le.trans (F.mono _ _ h)

theorem Rounding.nonpos {F : Rounding} {x : ℝ} (h : x ≤ 0) : F.rd x ≤ 0 := (F.mono _ _ h).trans F.zero.le

/-! ### Coordinate descent -/

/-- An induction principle: what holds at the start and for every value the bounds let through holds for a coefficient after coordinate descent. -/
theorem loopFl_coord {a : ℕ} (D : CDData ℝ m a) (stop : ℕ → CDState ℝ m → Bool) (k : Fin m) (P : ℝ → Prop) (hclamp : ∀ v, P (D.clamp k v)) (fuel i : ℕ)
    (st : CDState ℝ m) (h0 : P (st.w k)) : P (D.loopFl F stop fuel i st k) := by
  have hvisit : ∀ (s : Fin a) (st : CDState ℝ m), P (st.w k) → P ((D.visitFl F s st).w k) := by
    intro s st h
    unfold CDData.visitFl
    simp only
    split
    · exact h
    · simp only
      by_cases hk : k = D.active s
      · rw [← hk, Function.update_self]; exact hclamp _
      · rw [Function.update_of_ne hk]; exact h
  have hcycle : ∀ st : CDState ℝ m, P (st.w k) → P ((D.cycleFl F st).w k) := by
    intro st h
    cases a with
    | zero => exact h
    | succ a' =>
      unfold CDData.cycleFl
      simp only
      have key : ∀ (l : List (Fin (a' + 1))) (st : CDState ℝ m), P (st.w k) → P ((l.foldl (fun st f =>
          CDData.visitFl (a := a' + 1) F D (CDData.pick (a := a' + 1) D f st.rng).1 { st with rng := (CDData.pick (a := a' + 1) D f st.rng).2 }) st).w k) := by
        intro l
        induction l with
        | nil => exact fun _ h => h
        | cons x xs ih => exact fun st h => ih _ (hvisit _ _ h)
      exact key _ _ h
  induction fuel generalizing i st with
  | zero => exact h0
  | succ f ih =>
    rw [CDData.loopFl]
    split
    · exact hcycle _ h0
    · exact ih _ _ (hcycle _ h0)

/-- A coefficient outside the active set is not touched. -/
theorem loopFl_inactive {a : ℕ} (D : CDData ℝ m a) (stop : ℕ → CDState ℝ m → Bool) (k : Fin m) (hk : ∀ s, D.active s ≠ k) (fuel i : ℕ) (st : CDState ℝ m) :
    D.loopFl F stop fuel i st k = st.w k := by
  have hvisit : ∀ (s : Fin a) (st : CDState ℝ m), (D.visitFl F s st).w k = st.w k := by
    intro s st
    unfold CDData.visitFl
    simp only
    split
    · rfl
    · simp only
      rw [Function.update_of_ne (hk s).symm]
  have hcycle : ∀ st : CDState ℝ m, (D.cycleFl F st).w k = st.w k := by
    intro st
    cases a with
    | zero => rfl
    | succ a' =>
      unfold CDData.cycleFl
      simp only
      have key : ∀ (l : List (Fin (a' + 1))) (st : CDState ℝ m), ((l.foldl (fun st f =>
          CDData.visitFl (a := a' + 1) F D (CDData.pick (a := a' + 1) D f st.rng).1 { st with rng := (CDData.pick (a := a' + 1) D f st.rng).2 }) st).w k) = st.w k := by
        intro l
        induction l with
        | nil => exact fun _ => rfl
        | cons x xs ih => exact fun st => (ih _).trans (hvisit _ _)
      exact key _ _
  induction fuel generalizing i st with
  | zero => rfl
  | succ f ih =>
    rw [CDData.loopFl]
    split
    · exact hcycle _
    · rw [ih]; exact hcycle _

theorem factorFl_range (k : ℕ) : 0 ≤ factorFl F k ∧ factorFl F k ≤ 1 := by
  induction k with
  | zero => exact ⟨zero_le_one, le_rfl⟩
  | succ k ih =>
    constructor
    · exact F.nonneg (by linarith [ih.1])
    · rw [factorFl]
      calc F.rd (factorFl F k * (1 / 2)) ≤ F.rd 1 := F.mono _ _ (by linarith [ih.2])
        _ = 1 := F.one

/-- The constraint on coefficient `k` of a coordinate-descent problem is `≥ 0`. -/
def NonnegAt (ic : Bool) (lb ub : Option (ℕ → ℝ)) (k : ℕ) : Prop :=
  ic.toNat ≤ k ∧ (∃ l, lb = some l ∧ l (k - ic.toNat) = 0) ∧ ∀ u, ub = some u → 0 ≤ u (k - ic.toNat)

/-- The constraint on coefficient `k` is `≤ 0`. -/
def NonposAt (ic : Bool) (lb ub : Option (ℕ → ℝ)) (k : ℕ) : Prop :=
  ic.toNat ≤ k ∧ (∃ u, ub = some u ∧ u (k - ic.toNat) = 0) ∧ ∀ l, lb = some l → l (k - ic.toNat) ≤ 0

theorem clamp_nonneg {a : ℕ} (D : CDData ℝ m a) (k : Fin m) (h : NonnegAt D.intercept D.lb D.ub k) (v : ℝ) : 0 ≤ D.clamp k v := by
  obtain ⟨h1, ⟨l, hl, hl0⟩, hu⟩ := h
  have h0 : 0 ≤ if v < l (k - D.intercept.toNat) then l (k - D.intercept.toNat) else v := by
    by_cases hv : v < l (k - D.intercept.toNat)
    · rw [if_pos hv, hl0]
    · rw [if_neg hv]; rw [hl0] at hv; exact not_lt.1 hv
  unfold CDData.clamp
  rw [if_neg (not_lt.2 h1), hl]
  obtain ⟨v1, hv1⟩ : ∃ v1, v1 = if v < l (k - D.intercept.toNat) then l (k - D.intercept.toNat) else v := ⟨_, rfl⟩
  simp only [← hv1]
  rw [← hv1] at h0
  cases hub : D.ub with
  | none => exact h0
  | some u =>
    show 0 ≤ if u (k - D.intercept.toNat) < v1 then u (k - D.intercept.toNat) else v1
    by_cases hc : u (k - D.intercept.toNat) < v1
    · rw [if_pos hc]; exact hu u hub
    · rw [if_neg hc]; exact h0

theorem clamp_nonpos {a : ℕ} (D : CDData ℝ m a) (k : Fin m) (h : NonposAt D.intercept D.lb D.ub k) (v : ℝ) : D.clamp k v ≤ 0 := by
  obtain ⟨h1, ⟨u, hu, hu0⟩, hl⟩ := h
  unfold CDData.clamp
  rw [if_neg (not_lt.2 h1), hu]
  have key : ∀ v1 : ℝ, (if u (k - D.intercept.toNat) < v1 then u (k - D.intercept.toNat) else v1) ≤ 0 := by
    intro v1
    by_cases hc : u (k - D.intercept.toNat) < v1
    · rw [if_pos hc, hu0]
    · rw [if_neg hc]; rw [hu0] at hc; exact not_lt.1 hc
  exact key _

/-- One step keeps `≥ 0`, exactly. -/
theorem stepFl_nonneg (it : FlIter m) (k : Fin m) (h : NonnegAt it.cd.intercept it.cd.lb it.cd.ub k) (c : Fin m → ℝ) (hc : 0 ≤ c k) (hr : F.rd (c k) = c k) :
    0 ≤ stepFl F it c k := by
  unfold stepFl
  obtain ⟨w, hw⟩ : ∃ w, w = it.cd.loopFl F it.stop it.cd.maxIter 0 { w := c, q := it.q, dwMax := 0, wMax := 0, rng := it.seed } := ⟨_, rfl⟩
  rw [← hw]
  have h0 : 0 ≤ w k := by rw [hw]; exact loopFl_coord F it.cd it.stop k (fun x => 0 ≤ x) (clamp_nonneg it.cd k h) _ _ _ hc
  have hn : F.rd (-c k) = -c k := by have := F.neg (c k); rwa [hr] at this
  have hd : -c k ≤ F.rd (w k - c k) := by rw [← hn]; exact F.mono _ _ (by linarith)
  obtain ⟨f0, f1⟩ := factorFl_range F it.trial
  have hs : -c k ≤ F.rd (factorFl F it.trial * F.rd (w k - c k)) := by
    rw [← hn]
    refine F.mono _ _ ?_
    by_cases hp : 0 ≤ F.rd (w k - c k)
    · linarith [mul_nonneg f0 hp]
    · nlinarith [not_le.1 hp]
  exact Rounding.nonneg (by linarith)

/-- One step keeps `≤ 0`, exactly. -/
theorem stepFl_nonpos (it : FlIter m) (k : Fin m) (h : NonposAt it.cd.intercept it.cd.lb it.cd.ub k) (c : Fin m → ℝ) (hc : c k ≤ 0) (hr : F.rd (c k) = c k) :
    stepFl F it c k ≤ 0 := by
  unfold stepFl
  obtain ⟨w, hw⟩ : ∃ w, w = it.cd.loopFl F it.stop it.cd.maxIter 0 { w := c, q := it.q, dwMax := 0, wMax := 0, rng := it.seed } := ⟨_, rfl⟩
  rw [← hw]
  have h0 : w k ≤ 0 := by rw [hw]; exact loopFl_coord F it.cd it.stop k (fun x => x ≤ 0) (clamp_nonpos it.cd k h) _ _ _ hc
  have hn : F.rd (-c k) = -c k := by have := F.neg (c k); rwa [hr] at this
  have hd : F.rd (w k - c k) ≤ -c k := by rw [← hn]; exact F.mono _ _ (by linarith)
  obtain ⟨f0, f1⟩ := factorFl_range F it.trial
  have hs : F.rd (factorFl F it.trial * F.rd (w k - c k)) ≤ -c k := by
    rw [← hn]
    refine F.mono _ _ ?_
    by_cases hp : 0 ≤ F.rd (w k - c k)
    · nlinarith
    · nlinarith [not_le.1 hp, mul_nonneg f0 (neg_nonneg.2 (not_le.1 hp).le)]
  exact Rounding.nonpos (by linarith)

theorem stepFl_rounded (it : FlIter m) (c : Fin m → ℝ) (k : Fin m) : F.rd (stepFl F it c k) = stepFl F it c k := F.idem _

/-- The whole solver. -/
theorem irlsFl_signs (its : List (FlIter m)) (ic : Bool) (lb ub : Option (ℕ → ℝ)) (hits : ∀ it ∈ its, it.cd.intercept = ic ∧ it.cd.lb = lb ∧ it.cd.ub = ub)
    (c : Fin m → ℝ) (k : Fin m) (hr : F.rd (c k) = c k) :
    F.rd (irlsFl F its c k) = irlsFl F its c k ∧ (NonnegAt ic lb ub k → 0 ≤ c k → 0 ≤ irlsFl F its c k) ∧
    (NonposAt ic lb ub k → c k ≤ 0 → irlsFl F its c k ≤ 0) := by
  induction its generalizing c with
  | nil => exact ⟨hr, fun _ h => h, fun _ h => h⟩
  | cons it its ih =>
    obtain ⟨e1, e2, e3⟩ := hits it (by simp)
    obtain ⟨i0, i1, i2⟩ := ih (fun x hx => hits x (by simp [hx])) (stepFl F it c) (stepFl_rounded F it c k)
    refine ⟨i0, fun h hc => i1 h ?_, fun h hc => i2 h ?_⟩
    · exact stepFl_nonneg F it k (by rw [e1, e2, e3]; exact h) c hc hr
    · exact stepFl_nonpos F it k (by rw [e1, e2, e3]; exact h) c hc hr

theorem pathFl_signs (path : List (List (FlIter m))) (ic : Bool) (lb ub : Option (ℕ → ℝ))
    (hits : ∀ its ∈ path, ∀ it ∈ its, it.cd.intercept = ic ∧ it.cd.lb = lb ∧ it.cd.ub = ub) (c : Fin m → ℝ) (k : Fin m) (hr : F.rd (c k) = c k) :
    ∀ r ∈ pathFl F path c, (NonnegAt ic lb ub k → 0 ≤ c k → 0 ≤ r k) ∧ (NonposAt ic lb ub k → c k ≤ 0 → r k ≤ 0) := by
  induction path generalizing c with
  | nil => intro r hr; cases hr
  | cons its rest ih =>
    obtain ⟨i0, i1, i2⟩ := irlsFl_signs F its ic lb ub (fun it h => hits its (by simp) it h) c k hr
    intro r h
    rw [pathFl, List.mem_cons] at h
    rcases h with rfl | h
    · exact ⟨i1, i2⟩
    · obtain ⟨j1, j2⟩ := ih (fun x hx => hits x (by simp [hx])) _ i0 r h
      exact ⟨fun a b => j1 a (i1 a b), fun a b => j2 a (i2 a b)⟩

/-! ### The whole fit -/

/-- The start, coordinate by coordinate. -/
theorem startFl_coord (stds : ℕ → ℝ) (lb ub : Option (ℕ → ℝ)) (center : Bool) (v : Fin (p + ic.toNat) → ℝ) (k : Fin (p + ic.toNat)) (hki : ¬ k.val < ic.toNat)
    (hv : F.rd (v k) = v k) (hlb : ∀ l, lb = some l → F.rd (l (k.val - ic.toNat)) = l (k.val - ic.toNat)) (hub : ∀ u, ub = some u → F.rd (u (k.val - ic.toNat)) = u (k.val - ic.toNat)) :
    F.rd (startFl F p ic center stds lb ub v k) = startFl F p ic center stds lb ub v k ∧
    ((∃ l, lb = some l ∧ l (k.val - ic.toNat) = 0) → (∀ u, ub = some u → 0 ≤ u (k.val - ic.toNat)) → 0 ≤ startFl F p ic center stds lb ub v k) ∧
    ((∃ u, ub = some u ∧ u (k.val - ic.toNat) = 0) → startFl F p ic center stds lb ub v k ≤ 0) := by
  have hmax : ∀ x y, F.rd x = x → F.rd y = y → F.rd (max x y) = max x y := by
    intro x y hx hy
    rcases max_choice x y with h | h <;> rw [h] <;> assumption
  have hmin : ∀ x y, F.rd x = x → F.rd y = y → F.rd (min x y) = min x y := by
    intro x y hx hy
    rcases min_choice x y with h | h <;> rw [h] <;> assumption
  unfold startFl
  rw [if_neg hki]
  obtain ⟨x, hx⟩ : ∃ x : ℝ, x = if center then F.rd (v k * stds (k.val - ic.toNat)) else v k := ⟨_, rfl⟩
  have hxr : F.rd x = x := by rw [hx]; split; exacts [F.idem _, hv]
  simp only [← hx]
  rcases lb with _ | l <;> rcases ub with _ | u
  · refine ⟨hxr, fun ⟨l, hl, _⟩ => (by cases hl), fun ⟨u, hu, _⟩ => (by cases hu)⟩
  · refine ⟨hmin _ _ hxr (hub u rfl), fun ⟨l, hl, _⟩ => (by cases hl), fun ⟨u', hu, h0⟩ => ?_⟩
    cases hu
    exact (min_le_right _ _).trans h0.le
  · refine ⟨hmax _ _ hxr (hlb l rfl), fun ⟨l', hl, h0⟩ _ => ?_, fun ⟨u, hu, _⟩ => (by cases hu)⟩
    cases hl
    exact h0.symm.le.trans (le_max_right _ _)
  · refine ⟨hmin _ _ (hmax _ _ hxr (hlb l rfl)) (hub u rfl), fun ⟨l', hl, h0⟩ hu => ?_, fun ⟨u', hu, h0⟩ => ?_⟩
    · cases hl
      exact le_min (h0.symm.le.trans (le_max_right _ _)) (hu u rfl)
    · cases hu
      exact (min_le_right _ _).trans h0.le

/-- **C103.** A fit with the coordinate-descent solver in rounded arithmetic: whatever is computed from the data and however it is rounded, whatever the start, the number of
iterations, the path, the standardisation: a coefficient with lower bound zero (and an upper bound that is not negative) is never negative, one with upper bound zero never
positive, one with both bounds zero is zero.  The bounds on the solver's scale are those of the code; the other coefficients' bounds are arbitrary. -/
theorem c103_signs (thr : ℝ) (stds : ℕ → ℝ) (hs : ∀ j, 0 ≤ stds j) (lb ub : Option (ℕ → ℝ)) (center : Bool) (v : Fin (p + ic.toNat) → ℝ)
    (hv : ∀ k, F.rd (v k) = v k) (hlb : ∀ l, lb = some l → ∀ j, F.rd (l j) = l j) (hub : ∀ u, ub = some u → ∀ j, F.rd (u j) = u j)
    (path : List (List (FlIter (p + ic.toNat))))
    (hpath : ∀ its ∈ path, ∀ it ∈ its, it.cd.intercept = ic ∧ it.cd.lb = boundFl F thr stds lb ∧ it.cd.ub = boundFl F thr stds ub)
    (j : Fin p) (r : Fin (p + ic.toNat) → ℝ) (hr : r ∈ pathFl F path (startFl F p ic center stds lb ub v)) :
    ((∃ l, lb = some l ∧ l j = 0) → (∀ u, ub = some u → 0 ≤ u j) → 0 ≤ reportFl F p ic thr stds r j) ∧
    ((∃ u, ub = some u ∧ u j = 0) → (∀ l, lb = some l → l j ≤ 0) → reportFl F p ic thr stds r j ≤ 0) := by
  obtain ⟨k, hk⟩ : ∃ k : Fin (p + ic.toNat), k = ⟨j.val + ic.toNat, by omega⟩ := ⟨_, rfl⟩
  have hkj : k.val - ic.toNat = j := by simp [hk]
  have hki : ¬ k.val < ic.toNat := by simp [hk]
  have hinv : 0 ≤ invStdFl F thr stds j := by
    unfold invStdFl
    split
    · exact zero_le_one
    · exact Rounding.nonneg (by simpa using hs j)
  obtain ⟨c0, c1, c2⟩ := startFl_coord F stds lb ub center v k hki (hv k) (fun l hl => hlb l hl _) (fun u hu => hub u hu _)
  obtain ⟨i1, i2⟩ := pathFl_signs F path ic _ _ hpath _ k c0 r hr
  rw [hkj] at c1 c2
  constructor
  · rintro ⟨l, hl, hl0⟩ hu
    have h0 : 0 ≤ r k := by
      refine i1 ⟨not_lt.1 hki, ⟨fun j => F.rd (l j / invStdFl F thr stds j), by rw [hl]; rfl, by rw [hkj]; simp [hl0, F.zero]⟩, ?_⟩ (c1 ⟨l, hl, hl0⟩ hu)
      intro u' hu'
      unfold boundFl at hu'
      obtain ⟨u, hu1, rfl⟩ := Option.map_eq_some_iff.1 hu'
      rw [hkj]
      exact Rounding.nonneg (div_nonneg (hu u hu1) hinv)
    unfold reportFl
    rw [← hk]
    exact Rounding.nonneg (mul_nonneg h0 hinv)
  · rintro ⟨u, hu, hu0⟩ hl
    have h0 : r k ≤ 0 := by
      refine i2 ⟨not_lt.1 hki, ⟨fun j => F.rd (u j / invStdFl F thr stds j), by rw [hu]; rfl, by rw [hkj]; simp [hu0, F.zero]⟩, ?_⟩ (c2 ⟨u, hu, hu0⟩)
      intro l' hl'
      unfold boundFl at hl'
      obtain ⟨l, hl1, rfl⟩ := Option.map_eq_some_iff.1 hl'
      rw [hkj]
      exact Rounding.nonpos (div_nonpos_of_nonpos_of_nonneg (hl l hl1) hinv)
    unfold reportFl
    rw [← hk]
    exact Rounding.nonpos (mul_nonpos_of_nonpos_of_nonneg h0 hinv)

/-- **C103, zeros.** If the last pass takes the full step, a coefficient that coordinate descent has set to zero is exactly zero, and is reported as zero.  A coefficient
outside the active set keeps its value to the last bit. -/
theorem c103_zeros (its : List (FlIter (p + ic.toNat))) (it : FlIter (p + ic.toNat)) (c : Fin (p + ic.toNat) → ℝ) (hr : ∀ k, F.rd (c k) = c k) (thr : ℝ) (stds : ℕ → ℝ) :
    (it.trial = 0 → ∀ j : Fin p, it.cd.loopFl F it.stop it.cd.maxIter 0 { w := irlsFl F its c, q := it.q, dwMax := 0, wMax := 0, rng := it.seed } ⟨j.val + ic.toNat, by omega⟩ = 0 →
      reportFl F p ic thr stds (irlsFl F (its ++ [it]) c) j = 0) ∧
    ∀ k, (∀ s, it.cd.active s ≠ k) → irlsFl F (its ++ [it]) c k = irlsFl F its c k := by
  have hrr : ∀ k, F.rd (irlsFl F its c k) = irlsFl F its c k := by
    intro k
    induction its using List.reverseRecOn with
    | nil => exact hr k
    | append_singleton its x _ =>
      unfold irlsFl
      rw [List.foldl_append]
      exact F.idem _
  have e : irlsFl F (its ++ [it]) c = stepFl F it (irlsFl F its c) := by unfold irlsFl; rw [List.foldl_append]; rfl
  rw [e]
  constructor
  · intro ht j h0
    unfold reportFl stepFl
    simp only [h0, ht, factorFl, one_mul, zero_sub, F.neg, F.idem]
    have : F.rd (-irlsFl F its c ⟨j.val + ic.toNat, by omega⟩) = -irlsFl F its c ⟨j.val + ic.toNat, by omega⟩ := by
      conv_lhs => rw [← hrr]
      rw [F.neg, hrr]
    rw [this]; simp only [this, add_neg_cancel, F.zero, zero_mul]
  · intro k hk
    unfold stepFl
    rw [loopFl_inactive F it.cd it.stop k hk]
    simp only [sub_self, F.zero, mul_zero, add_zero]
    exact hrr k

/-! ### The model without rounding is the exact model -/

theorem visitFl_exact {a : ℕ} (D : CDData ℝ m a) (s : Fin a) (st : CDState ℝ m) : D.visitFl Rounding.exact s st = D.visit s st := rfl

theorem cycleFl_exact {a : ℕ} (D : CDData ℝ m a) (st : CDState ℝ m) : D.cycleFl Rounding.exact st = D.cycle st := by
  cases a with
  | zero => rfl
  | succ a' => rfl

open Classical in
/-- When the exact routine ends. -/
noncomputable def exactStop {a : ℕ} (D : CDData ℝ m a) (k : ℕ) (st : CDState ℝ m) : Bool :=
  decide ((st.wMax = 0 ∨ st.dwMax / st.wMax < D.tol ∨ k = D.maxIter - 1) ∧
    (normMinSubgrad ((List.finRange a).map D.active) st.w st.q D.P1 D.intercept D.lb D.ub).1 ≤ D.tol)

theorem loopFl_exact {a : ℕ} (D : CDData ℝ m a) (fuel k : ℕ) (norm : ℝ) (st : CDState ℝ m) :
    (D.loop fuel k norm st).w = D.loopFl Rounding.exact (exactStop D) fuel k st := by
  induction fuel generalizing k norm st with
  | zero => rfl
  | succ f ih =>
    rw [CDData.loop, CDData.loopFl, cycleFl_exact]
    by_cases h1 : (D.cycle st).wMax = 0 ∨ (D.cycle st).dwMax / (D.cycle st).wMax < D.tol ∨ k = D.maxIter - 1
    · by_cases h2 : (normMinSubgrad ((List.finRange a).map D.active) (D.cycle st).w (D.cycle st).q D.P1 D.intercept D.lb D.ub).1 ≤ D.tol
      · have hs : exactStop D k (D.cycle st) = true := decide_eq_true ⟨h1, h2⟩
        simp only
        rw [if_pos h1, if_pos h2, if_pos hs]
      · have hs : ¬ exactStop D k (D.cycle st) = true := fun h => h2 (of_decide_eq_true h).2
        simp only
        rw [if_pos h1, if_neg h2, if_neg hs]
        exact ih _ _ _
    · have hs : ¬ exactStop D k (D.cycle st) = true := fun h => h1 (of_decide_eq_true h).1
      simp only
      rw [if_neg h1, if_neg hs]
      exact ih _ _ _

theorem lineLoop_exact {n : ℕ} (D : IRLSData n p ic) (st : IRLSState n p ic) (d : Fin (p + ic.toNat) → ℝ) (b : ℝ) (Xd : Fin n → ℝ) (rem k k' : ℕ) :
    ∃ t, (lineLoop D st d b Xd rem k (factorFl Rounding.exact k')).coef = fun j => st.coef j + factorFl Rounding.exact t * d j := by
  induction rem generalizing k k' with
  | zero =>
    rw [lineLoop]
    refine ⟨k', ?_⟩
    simp only
    split <;> rfl
  | succ r ih =>
    rw [lineLoop]
    simp only
    split
    · exact ⟨k', rfl⟩
    · exact ih (k + 1) (k' + 1)

theorem irlsStep_exact {n : ℕ} (seeds : ℕ → BitVec 32) (D : IRLSData n p ic) (st : IRLSState n p ic) :
    ∃ it : FlIter (p + ic.toNat), (it.cd.intercept = ic ∧ it.cd.lb = D.lb ∧ it.cd.ub = D.ub) ∧ (irlsStep (cdInner seeds) D st).coef = stepFl Rounding.exact it st.coef := by
  obtain ⟨st1, h1⟩ : ∃ st1, st1 = { st with hs := updateHessian ic D.X D.P2 D.hessApprox st.hs (identifyActiveSet D st) } := ⟨_, rfl⟩
  have hc : st1.coef = st.coef := by rw [h1]
  obtain ⟨t, ht⟩ := lineLoop_exact D st1 (cdInner seeds D st1).1 (armijoBound D st1 (cdInner seeds D st1).1) (safeLinPred ic D.X (cdInner seeds D st1).1 none) 19 0 0
  refine ⟨{ a := _, cd := cdArgs D st1, q := fun k => -st1.score k, seed := seeds st1.nIter, stop := exactStop (cdArgs D st1), trial := t }, ⟨rfl, rfl, rfl⟩, ?_⟩
  have e : (irlsStep (cdInner seeds) D st).coef = (lineSearch D st1 (cdInner seeds D st1).1).coef := by rw [h1]; rfl
  rw [e]
  unfold lineSearch
  refine Eq.trans ht ?_
  funext j
  show st1.coef j + factorFl Rounding.exact t * (((cdArgs D st1).run st1.coef (fun k => -st1.score k) (seeds st1.nIter)).w j - st1.coef j) = _
  unfold CDData.run
  rw [loopFl_exact, hc]
  rfl

/-- **C103, the model.** Without rounding, the rounded solver is the solver of the other theorems: every run of it is a run of `irlsFl`, with the bounds of the problem. -/
theorem c103_refines {n : ℕ} (seeds : ℕ → BitVec 32) (D : IRLSData n p ic) (coef : Fin (p + ic.toNat) → ℝ) :
    ∃ its : List (FlIter (p + ic.toNat)), (∀ it ∈ its, it.cd.intercept = ic ∧ it.cd.lb = D.lb ∧ it.cd.ub = D.ub) ∧
      (irlsRun (cdInner seeds) D coef).coef = irlsFl Rounding.exact its coef := by
  have key : ∀ (fuel : ℕ) (st : IRLSState n p ic), ∃ its : List (FlIter (p + ic.toNat)), (∀ it ∈ its, it.cd.intercept = ic ∧ it.cd.lb = D.lb ∧ it.cd.ub = D.ub) ∧
      (irlsLoop (cdInner seeds) D fuel st).coef = irlsFl Rounding.exact its st.coef := by
    intro fuel
    induction fuel with
    | zero => exact fun st => ⟨[], by simp, rfl⟩
    | succ f ih =>
      intro st
      rw [irlsLoop]
      split
      · obtain ⟨it, hit, e⟩ := irlsStep_exact seeds D st
        obtain ⟨its, hits, e2⟩ := ih (irlsStep (cdInner seeds) D st)
        refine ⟨it :: its, fun x hx => ?_, ?_⟩
        · rcases List.mem_cons.1 hx with rfl | hx
          exacts [hit, hits x hx]
        · rw [e2, e]; rfl
      · exact ⟨[], by simp, rfl⟩
  exact key _ _

/-! ### Other bounds -/

/-- Two decimals below one, one decimal from one on. -/
noncomputable def coarseRd (x : ℝ) : ℝ := open Classical in if |x| < 1 then (round (100 * x) : ℝ) / 100 else (round (10 * x) : ℝ) / 10

theorem coarseRd_small {x : ℝ} (h : |x| < 1) : coarseRd x = (round (100 * x) : ℝ) / 100 := by unfold coarseRd; exact if_pos h

theorem coarseRd_large {x : ℝ} (h : 1 ≤ |x|) : coarseRd x = (round (10 * x) : ℝ) / 10 := by unfold coarseRd; exact if_neg (not_lt.2 h)

theorem round_mono' {x y : ℝ} (h : x ≤ y) : (round x : ℝ) ≤ round y := by
  rw [round_eq, round_eq]
  exact_mod_cast Int.floor_mono (by linarith)

/-- Numbers with two decimals up to one are kept. -/
theorem coarseRd_fix1 (n : ℤ) (h : |(n : ℝ)| ≤ 100) : coarseRd (n / 100) = n / 100 := by
  by_cases h1 : |(n : ℝ) / 100| < 1
  · rw [coarseRd_small h1, show (100 : ℝ) * (n / 100) = n by ring, round_intCast]
  · have h2 : |(n : ℝ)| = 100 := by
      rw [abs_div, abs_of_pos (by norm_num : (0 : ℝ) < 100), not_lt] at h1
      linarith
    rw [coarseRd_large (not_lt.1 h1)]
    rcases abs_eq (by norm_num : (0 : ℝ) ≤ 100) |>.1 h2 with h | h
    · rw [h, show (10 : ℝ) * (100 / 100) = ((10 : ℤ) : ℝ) by norm_num, round_intCast]; norm_num
    · rw [h, show (10 : ℝ) * (-100 / 100) = ((-10 : ℤ) : ℝ) by norm_num, round_intCast]; norm_num

/-- Numbers with one decimal from one on are kept. -/
theorem coarseRd_fix2 (n : ℤ) (h : 10 ≤ |(n : ℝ)|) : coarseRd (n / 10) = n / 10 := by
  rw [coarseRd_large (by rw [abs_div, abs_of_pos (by norm_num : (0 : ℝ) < 10)]; linarith), show (10 : ℝ) * (n / 10) = n by ring, round_intCast]

theorem coarseRd_range (x : ℝ) : (∃ n : ℤ, |(n : ℝ)| ≤ 100 ∧ coarseRd x = n / 100) ∨ ∃ n : ℤ, 10 ≤ |(n : ℝ)| ∧ coarseRd x = n / 10 := by
  by_cases h : |x| < 1
  · refine Or.inl ⟨round (100 * x), ?_, coarseRd_small h⟩
    have h1 := abs_lt.1 h
    have a1 := round_mono' (x := 100 * x) (y := ((100 : ℤ) : ℝ)) (by push_cast; linarith)
    have a2 := round_mono' (x := ((-100 : ℤ) : ℝ)) (y := 100 * x) (by push_cast; linarith)
    rw [round_intCast] at a1 a2
    push_cast at a1 a2
    exact abs_le.2 ⟨a2, a1⟩
  · refine Or.inr ⟨round (10 * x), ?_, coarseRd_large (not_lt.1 h)⟩
    rcases le_abs.1 (not_lt.1 h) with h1 | h1
    · have a1 := round_mono' (x := ((10 : ℤ) : ℝ)) (y := 10 * x) (by push_cast; linarith)
      rw [round_intCast] at a1
      push_cast at a1
      exact a1.trans (le_abs_self _)
    · have a1 := round_mono' (x := 10 * x) (y := ((-10 : ℤ) : ℝ)) (by push_cast; linarith)
      rw [round_intCast] at a1
      push_cast at a1
      exact (by linarith : (10 : ℝ) ≤ -(round (10 * x) : ℝ)).trans (neg_le_abs _)

theorem coarseRd_mono (x y : ℝ) (h : x ≤ y) : coarseRd x ≤ coarseRd y := by
  by_cases hx : |x| < 1 <;> by_cases hy : |y| < 1
  · rw [coarseRd_small hx, coarseRd_small hy]
    have := round_mono' (x := 100 * x) (y := 100 * y) (by linarith)
    linarith
  · rw [coarseRd_small hx, coarseRd_large (not_lt.1 hy)]
    have hx' := abs_lt.1 hx
    have hy' : 1 ≤ y := by rcases le_abs.1 (not_lt.1 hy) with h1 | h1 <;> linarith
    have a1 := round_mono' (x := 100 * x) (y := ((100 : ℤ) : ℝ)) (by push_cast; linarith)
    have a2 := round_mono' (x := ((10 : ℤ) : ℝ)) (y := 10 * y) (by push_cast; linarith)
    rw [round_intCast] at a1 a2
    push_cast at a1 a2
    linarith
  · rw [coarseRd_large (not_lt.1 hx), coarseRd_small hy]
    have hy' := abs_lt.1 hy
    have hx' : x ≤ -1 := by rcases le_abs.1 (not_lt.1 hx) with h1 | h1 <;> linarith
    have a1 := round_mono' (x := 10 * x) (y := ((-10 : ℤ) : ℝ)) (by push_cast; linarith)
    have a2 := round_mono' (x := ((-100 : ℤ) : ℝ)) (y := 100 * y) (by push_cast; linarith)
    rw [round_intCast] at a1 a2
    push_cast at a1 a2
    linarith
  · rw [coarseRd_large (not_lt.1 hx), coarseRd_large (not_lt.1 hy)]
    have := round_mono' (x := 10 * x) (y := 10 * y) (by linarith)
    linarith

/-- A floating-point format with two digits below one and one decimal above. -/
noncomputable def coarse : Rounding where
  rd := coarseRd
  mono := coarseRd_mono
  idem x := by
    rcases coarseRd_range x with ⟨n, h, e⟩ | ⟨n, h, e⟩ <;> rw [e]
    exacts [coarseRd_fix1 n h, coarseRd_fix2 n h]
  neg x := by
    rcases coarseRd_range x with ⟨n, h, e⟩ | ⟨n, h, e⟩ <;> rw [e]
    · have := coarseRd_fix1 (-n) (by push_cast; rwa [abs_neg])
      push_cast at this
      rw [show -((n : ℝ) / 100) = -(n : ℝ) / 100 by ring, this]
    · have := coarseRd_fix2 (-n) (by push_cast; rwa [abs_neg])
      push_cast at this
      rw [show -((n : ℝ) / 10) = -(n : ℝ) / 10 by ring, this]
  zero := by have := coarseRd_fix1 0 (by norm_num); simpa using this
  one := by have := coarseRd_fix2 10 (by norm_num); norm_num at this; exact this

/-- One feature, no intercept, Hessian 1, score 20, lower bound 0.34 (or another). -/
noncomputable def coarseIter (lb : ℝ) : FlIter 1 where
  a := 1
  cd := { active := fun _ => 0, P1 := fun _ => 0, Q := fun _ _ => 1, maxIter := 1, tol := 0, intercept := false, random := false, lb := some fun _ => lb, ub := none, eps := 0 }
  q := fun _ => 20
  seed := 1
  stop := fun _ _ => true
  trial := 0

theorem coarse_two (n : ℤ) (h : 10 ≤ |(n : ℝ)|) {x : ℝ} (e : x = n / 10) : coarse.rd x = x := by rw [e]; exact coarseRd_fix2 n h

theorem coarse_loop (lb : ℝ) (hlb : -10 < lb) : (coarseIter lb).cd.loopFl coarse (coarseIter lb).stop 1 0
    { w := fun _ => 10, q := (coarseIter lb).q, dwMax := 0, wMax := 0, rng := (coarseIter lb).seed } 0 = lb := by
  have h10 : coarse.rd 10 = 10 := coarse_two 100 (by norm_num) (by norm_num)
  have hn10 : coarse.rd (-10) = -10 := coarse_two (-100) (by norm_num) (by norm_num)
  have hs : softStepFl coarse 10 0 1 = -10 := by
    unfold softStepFl fsign fmax
    norm_num [h10, hn10]
  have hnum : coarse.rd (20 - coarse.rd (10 * 1)) = 10 := by norm_num [h10]
  show ((coarseIter lb).cd.visitFl coarse (0 : Fin 1) { w := fun _ => 10, q := fun _ => 20, dwMax := 0, wMax := 0, rng := 1 }).w 0 = lb
  unfold CDData.visitFl
  have hq : ¬ (coarseIter lb).cd.Q (0 : Fin 1) (0 : Fin 1) ≤ (coarseIter lb).cd.eps := by show ¬ (1 : ℝ) ≤ 0; norm_num
  rw [if_neg hq]
  show Function.update (fun _ : Fin 1 => (10 : ℝ)) 0 (if softStepFl coarse (coarse.rd (20 - coarse.rd (10 * 1))) 0 1 < lb then lb else softStepFl coarse (coarse.rd (20 - coarse.rd (10 * 1))) 0 1) 0 = lb
  rw [Function.update_self, hnum, hs, if_pos hlb]

/-- **C103, counterexample for other bounds.** A bound that is not zero can be violated by the rounding of `coef + (new_coef - coef)`: bound and coefficients are floating-point
numbers, the coefficient starts inside the bound, coordinate descent puts it exactly on the bound, and after the step it is outside (0.3 < 0.34). -/
theorem c103_bounds_counterexample : ∃ (F : Rounding) (it : FlIter 1) (c : Fin 1 → ℝ) (l : ℕ → ℝ), it.cd.lb = some l ∧ it.cd.ub = none ∧ F.rd (l 0) = l 0 ∧ F.rd (c 0) = c 0 ∧
    l 0 ≤ c 0 ∧ it.cd.loopFl F it.stop it.cd.maxIter 0 { w := c, q := it.q, dwMax := 0, wMax := 0, rng := it.seed } 0 = l 0 ∧ stepFl F it c 0 < l 0 := by
  have h34 : coarse.rd (34 / 100) = 34 / 100 := by have := coarseRd_fix1 34 (by norm_num); norm_num at this ⊢; exact this
  have h10 : coarse.rd 10 = 10 := coarse_two 100 (by norm_num) (by norm_num)
  have hw := coarse_loop (34 / 100) (by norm_num)
  refine ⟨coarse, coarseIter (34 / 100), fun _ => 10, fun _ => 34 / 100, rfl, rfl, h34, h10, by norm_num, hw, ?_⟩
  have hd : coarse.rd (34 / 100 - 10) = -(97 / 10) := by
    show coarseRd (34 / 100 - 10) = _
    have hr : round (10 * ((34 : ℝ) / 100 - 10)) = -97 := by rw [round_eq, Int.floor_eq_iff]; norm_num
    rw [coarseRd_large (by rw [abs_of_neg] <;> norm_num), hr]
    norm_num
  have hd2 : coarse.rd (-(97 / 10)) = -(97 / 10) := coarse_two (-97) (by norm_num) (by norm_num)
  have h3 : coarse.rd (10 + -(97 / 10)) = 3 / 10 := by
    have := coarseRd_fix1 30 (by norm_num)
    norm_num at this ⊢
    exact this
  have e : stepFl coarse (coarseIter (34 / 100)) (fun _ => 10) 0 = coarse.rd (10 + coarse.rd (factorFl coarse 0 * coarse.rd (34 / 100 - 10))) := by
    unfold stepFl
    show coarse.rd (10 + coarse.rd (factorFl coarse 0 * coarse.rd (CDData.loopFl coarse (coarseIter (34 / 100)).cd (coarseIter (34 / 100)).stop 1 0
      { w := fun _ => 10, q := (coarseIter (34 / 100)).q, dwMax := 0, wMax := 0, rng := (coarseIter (34 / 100)).seed } 0 - 10))) = _
    rw [hw]
  rw [e, hd, factorFl, one_mul, hd2, h3]
  norm_num

/-- The hypotheses of `c103_signs` and `c103_zeros` are met in the same format: the bound zero, started at 10 with a score that pulls down; the coefficient ends at zero exactly. -/
example : (∀ its ∈ [[coarseIter 0]], ∀ it ∈ its, it.cd.intercept = false ∧ it.cd.lb = boundFl coarse 0 (fun _ => 1) (some fun _ => 0) ∧ it.cd.ub = boundFl coarse 0 (fun _ => 1) none) ∧
    coarse.rd 10 = 10 ∧ pathFl coarse [[coarseIter 0]] (startFl coarse 1 false false (fun _ => 1) (some fun _ => 0) none (fun _ => 10)) ≠ [] ∧
    (coarseIter 0).trial = 0 ∧ (coarseIter 0).cd.loopFl coarse (coarseIter 0).stop 1 0 { w := fun _ => 10, q := (coarseIter 0).q, dwMax := 0, wMax := 0, rng := (coarseIter 0).seed } 0 = 0 := by
  refine ⟨?_, coarse_two 100 (by norm_num) (by norm_num), by simp [pathFl], rfl, coarse_loop 0 (by norm_num)⟩
  intro its hits it hit
  simp only [List.mem_singleton] at hits
  subst hits
  simp only [List.mem_singleton] at hit
  subst hit
  refine ⟨rfl, ?_, rfl⟩
  show some (fun _ : ℕ => (0 : ℝ)) = some fun j => coarse.rd (0 / _)
  simp only [zero_div, coarse.zero]

end Glum
