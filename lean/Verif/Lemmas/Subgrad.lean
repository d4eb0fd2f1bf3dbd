import Mathlib.Algebra.BigOperators.Fin
import Verif.Lemmas.CD
set_option linter.unusedSectionVars false
set_option linter.unusedVariables false

namespace Glum
open Spec

variable {K : Type*} [Field K] [LinearOrder K] [IsStrictOrderedRing K]

theorem fsign_pos {x : K} (h : 0 < x) : fsign x = 1 := by
  unfold fsign; rw [if_neg (by linarith), if_pos h]
theorem fsign_neg {x : K} (h : x < 0) : fsign x = -1 := by
  unfold fsign; rw [if_neg (by linarith), if_neg (by linarith)]
theorem fsign_zero : fsign (0 : K) = 0 := by unfold fsign; simp

/-- unbounded version of the term -/
def term0 (c g P1 : K) : K := if c = 0 then fsign g * fmax (|g| - P1) 0 else g + fsign c * P1

theorem term0_right (c g P z : K) (hP : 0 ≤ P) (hz : c ≤ z) : 
    min (term0 c g P) 0 * (z - c) ≤ g * (z - c) + P * (|z| - |c|) ∧
    (0 ≤ term0 c g P → 0 ≤ g * (z - c) + P * (|z| - |c|)) := by
  have key : term0 c g P * (z - c) ≤ g * (z - c) + P * (|z| - |c|) ∨
      (0 ≤ term0 c g P ∧ 0 ≤ g * (z - c) + P * (|z| - |c|)) := by
    unfold term0
    rcases lt_trichotomy c 0 with hc | hc | hc
    · left
      rw [if_neg (by linarith), fsign_neg hc]
      have : -(z - c) ≤ |z| - |c| := by rw [abs_of_neg hc]; have := neg_abs_le z; linarith
      nlinarith [mul_le_mul_of_nonneg_left this hP]
    · subst hc
      rw [if_pos rfl, fmax_eq, abs_of_nonneg hz, abs_zero]
      rcases lt_trichotomy g 0 with hg | hg | hg
      · left
        rw [fsign_neg hg, abs_of_neg hg]
        have := le_max_left (-g - P) 0
        nlinarith
      · right; subst hg; rw [fsign_zero]; simp; positivity
      · right; rw [fsign_pos hg]
        have := le_max_right (|g| - P) 0
        constructor
        · linarith
        · nlinarith
    · left
      rw [if_neg (by linarith), fsign_pos hc, abs_of_pos hc, abs_of_pos (by linarith)]
      nlinarith
  rcases key with k | ⟨k1, k2⟩
  · constructor
    · have := min_le_left (term0 c g P) 0
      nlinarith
    · intro h; have : 0 ≤ term0 c g P * (z - c) := mul_nonneg h (by linarith)
      linarith
  · constructor
    · rw [min_eq_right k1]; simpa using k2
    · intro _; exact k2

theorem term0_neg (c g P : K) : term0 (-c) (-g) P = -term0 c g P := by
  unfold term0
  have hs : ∀ x : K, fsign (-x) = -fsign x := by
    intro x
    rcases lt_trichotomy x 0 with h | h | h
    · rw [fsign_neg h, fsign_pos (by linarith)]; ring
    · subst h; simp [fsign_zero]
    · rw [fsign_pos h, fsign_neg (by linarith)]
  by_cases hc : c = 0
  · subst hc; simp [hs]
  · rw [if_neg hc, if_neg (by simpa using hc), hs]; ring

theorem term0_left (c g P z : K) (hP : 0 ≤ P) (hz : z ≤ c) :
    max (term0 c g P) 0 * (z - c) ≤ g * (z - c) + P * (|z| - |c|) ∧
    (term0 c g P ≤ 0 → 0 ≤ g * (z - c) + P * (|z| - |c|)) := by
  have := term0_right (-c) (-g) P (-z) hP (by linarith)
  rw [term0_neg, abs_neg, abs_neg] at this
  constructor
  · have h1 := this.1
    have : min (-term0 c g P) 0 = -max (term0 c g P) 0 := by
      rcases le_total (term0 c g P) 0 with h | h
      · rw [max_eq_right h, min_eq_right (by linarith)]; simp
      · rw [max_eq_left h, min_eq_left (by linarith)]
    rw [this] at h1
    linarith
  · intro h; have := this.2 (by linarith); linarith

theorem subgradTerm_eq (c g P : K) (lb ub : Option K) :
    subgradTerm c g P lb ub =
      if (lb = some c ∧ 0 < term0 c g P) ∨ (ub = some c ∧ term0 c g P < 0) then 0 else term0 c g P := by
  unfold subgradTerm
  have e : (if c = 0 then fsign g * fmax (|g| - P) 0 else g + fsign c * P) = term0 c g P := rfl
  simp only [e]
  generalize term0 c g P = t
  cases lb with
  | none =>
    cases ub with
    | none => simp
    | some u =>
      simp only [reduceCtorEq, false_and, false_or, Option.some.injEq]
      by_cases h : c = u
      · subst h; simp
      · simp [h, Ne.symm h]
  | some l =>
    cases ub with
    | none =>
      simp only [reduceCtorEq, false_and, or_false, Option.some.injEq]
      by_cases h : c = l
      · subst h; simp
      · simp [h, Ne.symm h]
    | some u =>
      simp only [Option.some.injEq]
      by_cases h : c = l
      · by_cases h' : c = u
        · rw [← h, ← h']
          rcases lt_trichotomy t 0 with ht | ht | ht
          · simp [ht, not_lt.mpr ht.le]
          · subst ht; simp
          · simp [ht]
        · rw [← h]
          by_cases ht : 0 < t
          · simp [h', ht, Ne.symm h']
          · simp [h', ht, Ne.symm h']
      · by_cases h' : c = u
        · rw [← h']; simp [h, Ne.symm h]
        · simp [h, h', Ne.symm h, Ne.symm h']

/-- Certificate for one coordinate. -/
theorem subgradTerm_cert (c g P : K) (lb ub : Option K) (hP : 0 ≤ P) (z : K)
    (hl : ∀ l, lb = some l → l ≤ z) (hu : ∀ u, ub = some u → z ≤ u) :
    -(|subgradTerm c g P lb ub| * |z - c|) ≤ g * (z - c) + P * (|z| - |c|) := by
  rw [subgradTerm_eq]
  split
  · rename_i h
    rw [abs_zero, zero_mul, neg_zero]
    rcases h with ⟨h, ht⟩ | ⟨h, ht⟩
    · exact (term0_right c g P z hP (hl c h)).2 ht.le
    · exact (term0_left c g P z hP (hu c h)).2 ht.le
  · rcases le_total c z with hz | hz
    · have h1 := (term0_right c g P z hP hz).1
      rw [abs_of_nonneg (by linarith : 0 ≤ z - c)]
      have : -|term0 c g P| ≤ min (term0 c g P) 0 := by
        rw [le_min_iff]; exact ⟨neg_abs_le _, by simp⟩
      nlinarith
    · have h1 := (term0_left c g P z hP hz).1
      rw [abs_of_nonpos (by linarith : z - c ≤ 0)]
      have : max (term0 c g P) 0 ≤ |term0 c g P| := by
        rw [max_le_iff]; exact ⟨le_abs_self _, by simp⟩
      nlinarith

/-- a small move against a positive `term0` strictly decreases the linearised objective -/
theorem term0_descend (c g P d : K) (ht : 0 < term0 c g P) (hd : 0 < d) :
    ∃ z, c - d ≤ z ∧ z < c ∧ g * (z - c) + P * (|z| - |c|) < 0 := by
  unfold term0 at ht
  rcases lt_trichotomy c 0 with hc | hc | hc
  · rw [if_neg (by linarith), fsign_neg hc] at ht
    refine ⟨c - d, le_rfl, by linarith, ?_⟩
    rw [abs_of_neg hc, abs_of_neg (by linarith)]
    nlinarith
  · subst hc
    rw [if_pos rfl, fmax_eq] at ht
    have hg : 0 < g := by
      rcases lt_trichotomy g 0 with hg | hg | hg
      · rw [fsign_neg hg] at ht; have := le_max_right (|g| - P) 0; linarith
      · subst hg; rw [fsign_zero] at ht; simp at ht
      · exact hg
    rw [fsign_pos hg, abs_of_pos hg] at ht
    have : 0 < g - P := by
      by_contra hn
      rw [max_eq_right (by linarith)] at ht; linarith
    refine ⟨-d, by linarith, by linarith, ?_⟩
    rw [abs_neg, abs_of_pos hd, abs_zero]
    nlinarith
  · rw [if_neg (by linarith), fsign_pos hc] at ht
    refine ⟨c - min d c, by linarith [min_le_left d c], by linarith [lt_min hd hc], ?_⟩
    have h1 := min_le_right d c
    have h2 := lt_min hd hc
    rw [abs_of_pos hc, abs_of_nonneg (by linarith)]
    nlinarith

theorem term0_ascend (c g P d : K) (ht : term0 c g P < 0) (hd : 0 < d) :
    ∃ z, c < z ∧ z ≤ c + d ∧ g * (z - c) + P * (|z| - |c|) < 0 := by
  have := term0_descend (-c) (-g) P d (by rw [term0_neg]; linarith) hd
  obtain ⟨z, h1, h2, h3⟩ := this
  refine ⟨-z, by linarith, by linarith, ?_⟩
  rw [abs_neg] at h3 ⊢
  linarith

/-- The coordinate term is zero iff no feasible coordinate move helps. -/
theorem subgradTerm_eq_zero_iff (c g P : K) (lb ub : Option K) (hP : 0 ≤ P)
    (hcl : ∀ l, lb = some l → l ≤ c) (hcu : ∀ u, ub = some u → c ≤ u) :
    subgradTerm c g P lb ub = 0 ↔
      ∀ z, (∀ l, lb = some l → l ≤ z) → (∀ u, ub = some u → z ≤ u) →
        0 ≤ g * (z - c) + P * (|z| - |c|) := by
  constructor
  · intro h z hl hu
    have := subgradTerm_cert c g P lb ub hP z hl hu
    rw [h, abs_zero, zero_mul, neg_zero] at this
    exact this
  · intro h
    rw [subgradTerm_eq]
    split
    · rfl
    · rename_i hn
      push Not at hn
      rcases lt_trichotomy (term0 c g P) 0 with ht | ht | ht
      · exfalso
        have hne : ub ≠ some c := fun e => by have := hn.2 e; linarith
        have : ∃ d, 0 < d ∧ ∀ u, ub = some u → c + d ≤ u := by
          cases hub : ub with
          | none => exact ⟨1, one_pos, by simp⟩
          | some u =>
            have h1 := hcu u hub
            have h2 : c ≠ u := fun e => hne (by rw [hub, e])
            refine ⟨u - c, by have := lt_of_le_of_ne h1 h2; linarith, ?_⟩
            intro u' hu'
            simp at hu'; subst hu'; linarith
        obtain ⟨d, hd, hdu⟩ := this
        obtain ⟨z, h1, h2, h3⟩ := term0_ascend c g P d ht hd
        have := h z (fun l hl => by have := hcl l hl; linarith) (fun u hu => by have := hdu u hu; linarith)
        linarith
      · exact ht
      · exfalso
        have hne : lb ≠ some c := fun e => by have := hn.1 e; linarith
        have : ∃ d, 0 < d ∧ ∀ l, lb = some l → l ≤ c - d := by
          cases hlb : lb with
          | none => exact ⟨1, one_pos, by simp⟩
          | some l =>
            have h1 := hcl l hlb
            have h2 : c ≠ l := fun e => hne (by rw [hlb, e])
            refine ⟨c - l, by have := lt_of_le_of_ne h1 (Ne.symm h2); linarith, ?_⟩
            intro u' hu'
            simp at hu'; subst hu'; linarith
        obtain ⟨d, hd, hdl⟩ := this
        obtain ⟨z, h1, h2, h3⟩ := term0_descend c g P d ht hd
        have := h z (fun l hl => by have := hdl l hl; linarith) (fun u hu => by have := hcu u hu; linarith)
        linarith

/-! ### the norm as a sum -/

/-- absolute contribution of coefficient `i` -/
def absTerm {p : ℕ} (coef grad : Fin p → K) (P1 : ℕ → K) (ic : Bool) (lb ub : Option (ℕ → K)) (i : Fin p) : K :=
  if i.val < ic.toNat then |grad i|
  else |subgradTerm (coef i) (grad i) (P1 (i.val - ic.toNat)) (lb.map (· (i.val - ic.toNat)))
    (ub.map (· (i.val - ic.toNat)))|

theorem absTerm_nonneg {p : ℕ} (coef grad : Fin p → K) (P1 : ℕ → K) (ic : Bool) (lb ub : Option (ℕ → K)) (i : Fin p) :
    0 ≤ absTerm coef grad P1 ic lb ub i := by
  unfold absTerm; split <;> exact abs_nonneg _

theorem norm_foldl_tail {p : ℕ} (l : List (Fin p)) (coef grad : Fin p → K) (P1 : ℕ → K) (ic : Bool)
    (lb ub : Option (ℕ → K)) (acc : K × WithTop K) (h : ∀ i ∈ l, ic.toNat ≤ i.val) :
    (l.foldl (fun acc i =>
      if i.val < ic.toNat then (|grad i|, ((|grad i| : K) : WithTop K))
      else
        let k := i.val - ic.toNat
        let absterm := |subgradTerm (coef i) (grad i) (P1 k) (lb.map (· k)) (ub.map (· k))|
        (acc.1 + absterm, if acc.2 < (absterm : WithTop K) then (absterm : WithTop K) else acc.2)) acc).1
      = acc.1 + (l.map (absTerm coef grad P1 ic lb ub)).sum := by
  induction l generalizing acc with
  | nil => simp
  | cons x xs ih =>
    have hx : ¬ x.val < ic.toNat := not_lt.mpr (h x (by simp))
    rw [List.foldl_cons, ih _ (fun i hi => h i (by simp [hi]))]
    simp only [if_neg hx, List.map_cons, List.sum_cons]
    rw [show absTerm coef grad P1 ic lb ub x = _ from if_neg hx]
    ring

theorem norm_eq_sum {p : ℕ} (l : List (Fin p)) (coef grad : Fin p → K) (P1 : ℕ → K) (ic : Bool)
    (lb ub : Option (ℕ → K)) (h : ∀ i ∈ l.tail, ic.toNat ≤ i.val) :
    (normMinSubgrad l coef grad P1 ic lb ub).1 = (l.map (absTerm coef grad P1 ic lb ub)).sum := by
  unfold normMinSubgrad
  cases l with
  | nil => simp
  | cons x xs =>
    rw [List.foldl_cons, norm_foldl_tail _ _ _ _ _ _ _ _ (by simpa using h)]
    simp only [List.map_cons, List.sum_cons]
    congr 1
    unfold absTerm
    split <;> simp

theorem norm_eq_finset_sum {p a : ℕ} (active : Fin a → Fin p) (hm : StrictMono active) (coef grad : Fin p → K)
    (P1 : ℕ → K) (ic : Bool) (lb ub : Option (ℕ → K)) :
    (normMinSubgrad ((List.finRange a).map active) coef grad P1 ic lb ub).1
      = ∑ s, absTerm coef grad P1 ic lb ub (active s) := by
  rw [norm_eq_sum]
  · rw [List.map_map, ← List.ofFn_eq_map, List.sum_ofFn]; rfl
  · intro i hi
    cases a with
    | zero => simp at hi
    | succ a' =>
      rw [List.finRange_succ] at hi
      simp only [List.map_cons, List.tail_cons, List.map_map, List.mem_map, Function.comp] at hi
      obtain ⟨s, _, rfl⟩ := hi
      have : active 0 < active s.succ := hm (Fin.succ_pos s)
      have h2 : ic.toNat ≤ 1 := by cases ic <;> simp
      have : (active 0).val < (active s.succ).val := this
      omega

theorem l1Weight_of_lt {p : ℕ} (ic : Bool) (P1 : ℕ → K) (i : Fin p) (h : i.val < ic.toNat) :
    l1Weight ic P1 i = 0 := by
  obtain ⟨i, hi⟩ := i
  cases ic <;> cases i <;> simp_all [l1Weight]

theorem l1Weight_of_ge {p : ℕ} (ic : Bool) (P1 : ℕ → K) (i : Fin p) (h : ¬ i.val < ic.toNat) :
    l1Weight ic P1 i = P1 (i.val - ic.toNat) := by
  obtain ⟨i, hi⟩ := i
  cases ic <;> cases i <;> simp_all [l1Weight]

theorem absTerm_cert {p : ℕ} (coef grad : Fin p → K) (P1 : ℕ → K) (hP : ∀ k, 0 ≤ P1 k) (ic : Bool)
    (lb ub : Option (ℕ → K)) (i : Fin p) (z : K)
    (hz : ∀ k, i.val = k + ic.toNat → (∀ l, lb = some l → l k ≤ z) ∧ (∀ u, ub = some u → z ≤ u k)) :
    -(absTerm coef grad P1 ic lb ub i * |z - coef i|)
      ≤ grad i * (z - coef i) + l1Weight ic P1 i * (|z| - |coef i|) := by
  unfold absTerm
  split
  · rename_i h
    have : l1Weight ic P1 i = 0 := l1Weight_of_lt ic P1 i h
    rw [this, zero_mul, add_zero, ← abs_mul]
    exact neg_abs_le _
  · rename_i h
    have hk : i.val = (i.val - ic.toNat) + ic.toNat := by omega
    have hw : l1Weight ic P1 i = P1 (i.val - ic.toNat) := l1Weight_of_ge ic P1 i h
    rw [hw]
    apply subgradTerm_cert _ _ _ _ _ (hP _)
    · intro l hl
      cases lb with
      | none => simp at hl
      | some lb' => simp at hl; subst hl; exact (hz _ hk).1 lb' rfl
    · intro u hu
      cases ub with
      | none => simp at hu
      | some ub' => simp at hu; subst hu; exact (hz _ hk).2 ub' rfl

theorem absTerm_eq_zero_iff {p : ℕ} (coef grad : Fin p → K) (P1 : ℕ → K) (hP : ∀ k, 0 ≤ P1 k) (ic : Bool)
    (lb ub : Option (ℕ → K)) (i : Fin p) (hw : InBounds ic lb ub coef) :
    absTerm coef grad P1 ic lb ub i = 0 ↔
      ∀ z, InBounds ic lb ub (fun j => if j = i then z else coef j) →
        0 ≤ grad i * (z - coef i) + l1Weight ic P1 i * (|z| - |coef i|) := by
  have hfe : ∀ z, InBounds ic lb ub (fun j => if j = i then z else coef j) ↔
      ∀ k, i.val = k + ic.toNat → (∀ l, lb = some l → l k ≤ z) ∧ (∀ u, ub = some u → z ≤ u k) := by
    intro z
    constructor
    · intro h k hk
      have := h i k hk
      simpa using this
    · intro h j k hk
      by_cases hj : j = i
      · subst hj; simpa using h k hk
      · simpa [hj] using hw j k hk
  simp only [hfe]
  unfold absTerm
  split
  · rename_i h
    have h0 : l1Weight ic P1 i = 0 := l1Weight_of_lt ic P1 i h
    rw [h0]
    simp only [zero_mul, add_zero]
    constructor
    · intro hg z _
      rw [abs_eq_zero.mp hg, zero_mul]
    · intro hall
      have := hall (coef i - grad i) (fun k hk => by omega)
      rw [abs_eq_zero]
      by_contra hne
      have : 0 < grad i * grad i := mul_self_pos.mpr hne
      nlinarith
  · rename_i h
    have hk : i.val = (i.val - ic.toNat) + ic.toNat := by omega
    have hwt : l1Weight ic P1 i = P1 (i.val - ic.toNat) := l1Weight_of_ge ic P1 i h
    rw [hwt, abs_eq_zero, subgradTerm_eq_zero_iff _ _ _ _ _ (hP _)]
    · constructor
      · intro hall z hz
        apply hall z
        · intro l hl
          cases lb with
          | none => simp at hl
          | some lb' => simp at hl; subst hl; exact (hz _ hk).1 lb' rfl
        · intro u hu
          cases ub with
          | none => simp at hu
          | some ub' => simp at hu; subst hu; exact (hz _ hk).2 ub' rfl
      · intro hall z hl hu
        apply hall z
        intro k hk'
        have : k = i.val - ic.toNat := by omega
        subst this
        constructor
        · intro l hl'; subst hl'; exact hl _ rfl
        · intro u hu'; subst hu'; exact hu _ rfl
    · intro l hl
      cases lb with
      | none => simp at hl
      | some lb' => simp at hl; subst hl; exact (hw i _ hk).1 lb' rfl
    · intro u hu
      cases ub with
      | none => simp at hu
      | some ub' => simp at hu; subst hu; exact (hw i _ hk).2 ub' rfl

end Glum
