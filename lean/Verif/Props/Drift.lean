import Verif.Model.Drift
import Verif.Props.IRLS
import Verif.Props.Float
/-
C110: rounding errors in the IRLS loop, and what "converged" means with them.
-/
set_option linter.unusedSectionVars false
set_option linter.unusedVariables false
set_option linter.unusedSimpArgs false

namespace Glum

open Spec Finset

namespace Spec

/-- The rounding error of an operation whose *computed* result has modulus at most `y`. -/
noncomputable def ulp (F : FlArith) (y : ℝ) : ℝ := (F.u * y + F.tiny) / (1 - F.u)

/-- The rounding errors of `a + f*d` (a product and a sum) when the old and the new value have modulus at most `y`. -/
noncomputable def twoOps (F : FlArith) (y : ℝ) : ℝ := ulp F y + ulp F (2 * y + ulp F y)

/-- How far the linear predictor of a row can drift away in one pass: coefficients at most `C`, linear predictor at most `H`, absolute row sum `R`, and a
matrix product of relative accuracy `γ` (absolute `ν`). -/
noncomputable def passDrift (F : FlArith) (C H γ ν R : ℝ) : ℝ := twoOps F H + γ * R * (2 * C + twoOps F C) + ν + R * twoOps F C

/-- A computed product `v ≈ Σ x_j d_j` is accurate to `γ` relative to `Σ ρ_j |d_j|`, plus `ν`. -/
def Accurate {m : ℕ} (γ ν : ℝ) (ρ x d : Fin m → ℝ) (v : ℝ) : Prop := |v - ∑ j, x j * d j| ≤ γ * ∑ j, ρ j * |d j| + ν

/-- What the exact norm of the computed score can be at most when the computed norm is `N`. -/
noncomputable def normUp (F : FlArith) (m : ℕ) (N : ℝ) : ℝ := ((N + m * F.tiny) / (1 - F.u) ^ m + m * F.tiny) / (1 - F.u)

end Spec

section basic

variable (F : FlArith)

theorem ulp_nonneg {y : ℝ} (h : 0 ≤ y) : 0 ≤ ulp F y :=
  div_nonneg (add_nonneg (mul_nonneg F.u_nonneg h) F.tiny_nonneg) (sub_nonneg.2 F.u_lt.le)

theorem ulp_mono {x y : ℝ} (h : x ≤ y) : ulp F x ≤ ulp F y :=
  div_le_div_of_nonneg_right (by nlinarith [F.u_nonneg, mul_le_mul_of_nonneg_left h F.u_nonneg]) (sub_nonneg.2 F.u_lt.le)

theorem twoOps_nonneg {y : ℝ} (h : 0 ≤ y) : 0 ≤ twoOps F y :=
  add_nonneg (ulp_nonneg F h) (ulp_nonneg F (by linarith [ulp_nonneg F h]))

theorem err_ulp (x : ℝ) : |F.rd x - x| ≤ ulp F |F.rd x| := by
  have h := F.err x
  have h1 : 0 < 1 - F.u := sub_pos.2 F.u_lt
  unfold ulp
  rw [le_div_iff₀ h1]
  have h2 : |x| ≤ |F.rd x| + |F.rd x - x| := by
    have := abs_sub_abs_le_abs_sub x (F.rd x)
    rw [abs_sub_comm] at this
    linarith
  have := mul_le_mul_of_nonneg_left h2 F.u_nonneg
  nlinarith

/-- A sum `a' = rd(a + rd q)` with `|a|, |a'| ≤ y`: the error, and the size of `q`. -/
theorem twoOps_err {a q y : ℝ} (ha : |a| ≤ y) (ha' : |F.rd (a + F.rd q)| ≤ y) :
    |F.rd (a + F.rd q) - (a + q)| ≤ twoOps F y ∧ |q| ≤ 2 * y + twoOps F y := by
  have h1 := (err_ulp F (a + F.rd q)).trans (ulp_mono F ha')
  have hq : |F.rd q| ≤ 2 * y + ulp F y := by
    have e : F.rd q = F.rd (a + F.rd q) - a - (F.rd (a + F.rd q) - (a + F.rd q)) := by ring
    rw [e]
    have := abs_sub (F.rd (a + F.rd q) - a) (F.rd (a + F.rd q) - (a + F.rd q))
    have := abs_sub (F.rd (a + F.rd q)) a
    linarith
  have h2 := (err_ulp F q).trans (ulp_mono F hq)
  have hs : |F.rd (a + F.rd q) - (a + q)| ≤ twoOps F y := by
    have e : F.rd (a + F.rd q) - (a + q) = (F.rd (a + F.rd q) - (a + F.rd q)) + (F.rd q - q) := by ring
    rw [e]
    exact (abs_add_le _ _).trans (add_le_add h1 h2)
  refine ⟨hs, ?_⟩
  have e : q = F.rd (a + F.rd q) - a - (F.rd (a + F.rd q) - (a + q)) := by ring
  rw [e]
  have h3 := abs_sub (F.rd (a + F.rd q) - a) (F.rd (a + F.rd q) - (a + q))
  have h4 := abs_sub (F.rd (a + F.rd q)) a
  linarith

end basic

/-! ### Sums in any order -/

section sums

variable (F : FlArith)

theorem flSum_err {ι : Type} (t : ι → ℝ) (T : SumTree ι) :
    |T.flSum F t - (T.leaves.map t).sum| ≤ ((1 + F.u) ^ (T.depth + 1) - 1) * (T.leaves.map fun i => |t i|).sum + T.ops * (1 + F.u) ^ T.depth * F.tiny := by
  have hu := F.u_nonneg
  have h1 : (1 : ℝ) ≤ 1 + F.u := by linarith
  induction T with
  | empty => simp [SumTree.flSum, SumTree.leaves, SumTree.ops]
  | leaf i =>
    have := F.err (t i)
    simpa [SumTree.flSum, SumTree.leaves, SumTree.ops, SumTree.depth] using this
  | node l r ihl ihr =>
    simp only [SumTree.flSum, SumTree.leaves, SumTree.ops, SumTree.depth, List.map_append, List.sum_append]
    obtain ⟨a, ha⟩ : ∃ a, a = l.flSum F t := ⟨_, rfl⟩
    obtain ⟨b, hb⟩ : ∃ b, b = r.flSum F t := ⟨_, rfl⟩
    obtain ⟨sl, hsl⟩ : ∃ a, a = (l.leaves.map t).sum := ⟨_, rfl⟩
    obtain ⟨sr, hsr⟩ : ∃ a, a = (r.leaves.map t).sum := ⟨_, rfl⟩
    obtain ⟨Sl, hSl⟩ : ∃ a, a = (l.leaves.map fun i => |t i|).sum := ⟨_, rfl⟩
    obtain ⟨Sr, hSr⟩ : ∃ a, a = (r.leaves.map fun i => |t i|).sum := ⟨_, rfl⟩
    rw [← ha, ← hsl, ← hSl] at ihl
    rw [← hb, ← hsr, ← hSr] at ihr
    rw [← ha, ← hb, ← hsl, ← hsr, ← hSl, ← hSr]
    have habs : ∀ (L : List ι), |(L.map t).sum| ≤ (L.map fun i => |t i|).sum ∧ 0 ≤ (L.map fun i => |t i|).sum := by
      intro L
      induction L with
      | nil => simp
      | cons x L ih =>
        simp only [List.map_cons, List.sum_cons]
        exact ⟨(abs_add_le _ _).trans (add_le_add le_rfl ih.1), add_nonneg (abs_nonneg _) ih.2⟩
    have hl := habs l.leaves
    have hr := habs r.leaves
    rw [← hsl, ← hSl] at hl
    rw [← hsr, ← hSr] at hr
    obtain ⟨P, hP⟩ : ∃ P : ℝ, P = (1 + F.u) ^ max l.depth r.depth := ⟨_, rfl⟩
    have hPl : (1 + F.u) ^ l.depth ≤ P := hP ▸ pow_le_pow_right₀ h1 (le_max_left _ _)
    have hPr : (1 + F.u) ^ r.depth ≤ P := hP ▸ pow_le_pow_right₀ h1 (le_max_right _ _)
    have hP1 : 1 ≤ P := hP ▸ one_le_pow₀ h1
    rw [pow_succ] at ihl ihr
    have hc : ∀ (q o S : ℝ), q ≤ P → 0 ≤ S → 0 ≤ o → (q * (1 + F.u) - 1) * S + o * q * F.tiny ≤ (P * (1 + F.u) - 1) * S + o * P * F.tiny := by
      intro q o S hq hS ho
      have a1 : (q * (1 + F.u) - 1) * S ≤ (P * (1 + F.u) - 1) * S := mul_le_mul_of_nonneg_right (by nlinarith) hS
      have a2 : o * q * F.tiny ≤ o * P * F.tiny := mul_le_mul_of_nonneg_right (mul_le_mul_of_nonneg_left hq ho) F.tiny_nonneg
      linarith
    have el := ihl.trans (hc _ _ _ hPl hl.2 (Nat.cast_nonneg _))
    have er := ihr.trans (hc _ _ _ hPr hr.2 (Nat.cast_nonneg _))
    obtain ⟨ol, hol⟩ : ∃ a : ℝ, a = (l.ops : ℝ) := ⟨_, rfl⟩
    obtain ⟨or', hor⟩ : ∃ a : ℝ, a = (r.ops : ℝ) := ⟨_, rfl⟩
    have hol0 : 0 ≤ ol := hol ▸ Nat.cast_nonneg _
    have hor0 : 0 ≤ or' := hor ▸ Nat.cast_nonneg _
    rw [← hol] at el
    rw [← hor] at er
    push_cast
    rw [← hol, ← hor]
    have hab : |(a + b) - (sl + sr)| ≤ (P * (1 + F.u) - 1) * (Sl + Sr) + (ol + or') * P * F.tiny := by
      have e : (a + b) - (sl + sr) = (a - sl) + (b - sr) := by ring
      rw [e]
      refine (abs_add_le _ _).trans ((add_le_add el er).trans (le_of_eq ?_))
      ring
    have hsz : |a + b| ≤ (Sl + Sr) + ((P * (1 + F.u) - 1) * (Sl + Sr) + (ol + or') * P * F.tiny) := by
      have e : a + b = (sl + sr) + ((a + b) - (sl + sr)) := by ring
      rw [e]
      refine (abs_add_le _ _).trans (add_le_add ?_ hab)
      exact (abs_add_le _ _).trans (add_le_add hl.1 hr.1)
    have e : F.rd (a + b) - (sl + sr) = (F.rd (a + b) - (a + b)) + ((a + b) - (sl + sr)) := by ring
    rw [e, pow_succ, pow_succ, ← hP]
    refine (abs_add_le _ _).trans ?_
    have h3 := F.err (a + b)
    have h4 := mul_le_mul_of_nonneg_left hsz hu
    have h5 : F.tiny ≤ P * (1 + F.u) * F.tiny := by
      have : 1 ≤ P * (1 + F.u) := by nlinarith
      nlinarith [F.tiny_nonneg]
    nlinarith

/-- Every non-zero term is added exactly once (zero terms may be skipped, as sparse and categorical matrices do). -/
def SumTree.Adds {m : ℕ} (T : SumTree (Fin m)) (t : Fin m → ℝ) : Prop := T.leaves.Nodup ∧ ∀ j, j ∉ T.leaves → t j = 0

theorem adds_sum {m : ℕ} (T : SumTree (Fin m)) (t s : Fin m → ℝ) (h : T.Adds t) (hs : ∀ j, t j = 0 → s j = 0) : (T.leaves.map s).sum = ∑ j, s j := by
  rw [← List.sum_toFinset s h.1]
  exact Finset.sum_subset (Finset.subset_univ _) fun j _ hj => hs j (h.2 j (by simpa using hj))

/-- **C110, matrix products.** A dot product is computed with relative accuracy `(1+u)^(h+1) - 1` in whatever order its terms are added, `h` being the longest chain of additions. -/
theorem c110_dot {m : ℕ} (T : SumTree (Fin m)) (x d : Fin m → ℝ) (hT : T.Adds fun j => x j * d j) :
    Accurate ((1 + F.u) ^ (T.depth + 1) - 1) (T.ops * (1 + F.u) ^ T.depth * F.tiny) (fun j => |x j|) x d (T.flSum F fun j => x j * d j) := by
  have h := flSum_err F (fun j => x j * d j) T
  rw [adds_sum T _ _ hT fun _ h => h, adds_sum T (fun j => x j * d j) (fun j => |x j * d j|) hT fun j h => abs_eq_zero.2 h] at h
  simpa only [Accurate, abs_mul] using h

end sums

/-! ### The drift of the linear predictor -/

section drift

variable (F : FlArith) {n m : ℕ}

theorem driftStep_err (x ρ : Fin n → Fin m → ℝ) (off : Fin n → ℝ) (hρ : ∀ i j, |x i j| ≤ ρ i j) (γ ν C H : ℝ) (hγ : 0 ≤ γ) (hν : 0 ≤ ν) (s : DriftState n m)
    (it : DriftIter n m) (i : Fin n) (hX : Accurate γ ν (ρ i) (x i) it.d (it.Xd i)) (hC : ∀ j, |s.coef j| ≤ C) (hC' : ∀ j, |(driftStep F s it).coef j| ≤ C)
    (hH : |s.eta i| ≤ H) (hH' : |(driftStep F s it).eta i| ≤ H) :
    |(driftStep F s it).eta i - (∑ j, x i j * (driftStep F s it).coef j + off i)| ≤ |s.eta i - (∑ j, x i j * s.coef j + off i)| + passDrift F C H γ ν (∑ j, ρ i j) := by
  obtain ⟨f, hf⟩ : ∃ f, f = factorFl F.toRounding it.trial := ⟨_, rfl⟩
  have hf01 := factorFl_range F.toRounding it.trial
  rw [← hf] at hf01
  simp only [driftStep, ← hf] at hC' hH' ⊢
  have he := twoOps_err F hH hH'
  have hc := fun j => twoOps_err F (hC j) (hC' j)
  have hρ0 : ∀ j, 0 ≤ ρ i j := fun j => (abs_nonneg _).trans (hρ i j)
  have e : F.rd (s.eta i + F.rd (f * it.Xd i)) - (∑ j, x i j * F.rd (s.coef j + F.rd (f * it.d j)) + off i)
      = (s.eta i - (∑ j, x i j * s.coef j + off i)) + ((F.rd (s.eta i + F.rd (f * it.Xd i)) - (s.eta i + f * it.Xd i)) + f * (it.Xd i - ∑ j, x i j * it.d j)
        - ∑ j, x i j * (F.rd (s.coef j + F.rd (f * it.d j)) - (s.coef j + f * it.d j))) := by
    simp only [mul_sub, mul_add, Finset.sum_sub_distrib, Finset.sum_add_distrib, Finset.mul_sum]
    have : ∀ j, f * (x i j * it.d j) = x i j * (f * it.d j) := fun j => by ring
    simp only [this]
    ring
  rw [e]
  refine (abs_add_le _ _).trans (add_le_add le_rfl ?_)
  refine (abs_sub _ _).trans ?_
  have h1 := abs_add_le (F.rd (s.eta i + F.rd (f * it.Xd i)) - (s.eta i + f * it.Xd i)) (f * (it.Xd i - ∑ j, x i j * it.d j))
  have h2 : |f * (it.Xd i - ∑ j, x i j * it.d j)| ≤ γ * (∑ j, ρ i j) * (2 * C + twoOps F C) + ν := by
    rw [abs_mul, abs_of_nonneg hf01.1]
    have a1 : f * |it.Xd i - ∑ j, x i j * it.d j| ≤ f * (γ * ∑ j, ρ i j * |it.d j| + ν) := mul_le_mul_of_nonneg_left hX hf01.1
    have a2 : f * ∑ j, ρ i j * |it.d j| ≤ ∑ j, ρ i j * (2 * C + twoOps F C) := by
      rw [Finset.mul_sum]
      refine Finset.sum_le_sum fun j _ => ?_
      have := (hc j).2
      rw [abs_mul, abs_of_nonneg hf01.1] at this
      calc f * (ρ i j * |it.d j|) = ρ i j * (f * |it.d j|) := by ring
        _ ≤ _ := mul_le_mul_of_nonneg_left this (hρ0 j)
    rw [← Finset.sum_mul] at a2
    have a3 := mul_le_mul_of_nonneg_left a2 hγ
    have a4 : f * ν ≤ ν := by nlinarith
    calc _ ≤ _ := a1
      _ = γ * (f * ∑ j, ρ i j * |it.d j|) + f * ν := by ring
      _ ≤ γ * ((∑ j, ρ i j) * (2 * C + twoOps F C)) + ν := add_le_add a3 a4
      _ = _ := by ring
  have h3 : |∑ j, x i j * (F.rd (s.coef j + F.rd (f * it.d j)) - (s.coef j + f * it.d j))| ≤ (∑ j, ρ i j) * twoOps F C := by
    refine (Finset.abs_sum_le_sum_abs _ _).trans ?_
    rw [Finset.sum_mul]
    refine Finset.sum_le_sum fun j _ => ?_
    rw [abs_mul]
    exact mul_le_mul (hρ i j) (hc j).1 (abs_nonneg _) (hρ0 j)
  unfold passDrift
  linarith [he.1]

/-- **C110, drift.** After any number of passes, with any directions and step lengths, in any rounded arithmetic: the linear predictor the solver carries differs from the one its
coefficients have by at most the difference at the start plus the number of passes times a per-pass error, proportional to the unit roundoff. -/
theorem c110_drift (x ρ : Fin n → Fin m → ℝ) (off : Fin n → ℝ) (hρ : ∀ i j, |x i j| ≤ ρ i j) (γ ν C H : ℝ) (hγ : 0 ≤ γ) (hν : 0 ≤ ν) (s : DriftState n m)
    (its : List (DriftIter n m)) (i : Fin n) (hX : ∀ it ∈ its, Accurate γ ν (ρ i) (x i) it.d (it.Xd i))
    (hC : ∀ k ≤ its.length, ∀ j, |(driftRun F (its.take k) s).coef j| ≤ C) (hH : ∀ k ≤ its.length, |(driftRun F (its.take k) s).eta i| ≤ H) :
    |(driftRun F its s).eta i - (∑ j, x i j * (driftRun F its s).coef j + off i)|
      ≤ |s.eta i - (∑ j, x i j * s.coef j + off i)| + its.length * passDrift F C H γ ν (∑ j, ρ i j) := by
  induction its generalizing s with
  | nil => simp [driftRun]
  | cons it its ih =>
    have hC0 := hC 0 (Nat.zero_le _)
    have hC1 := hC 1 (by simp)
    have hH0 := hH 0 (Nat.zero_le _)
    have hH1 := hH 1 (by simp)
    have h1 := driftStep_err F x ρ off hρ γ ν C H hγ hν s it i (hX it (by simp)) hC0 (by simpa [driftRun] using hC1) hH0 (by simpa [driftRun] using hH1)
    have h2 := ih (driftStep F s it) (fun t ht => hX t (by simp [ht])) (fun k hk => hC (k + 1) (by simpa using hk)) (fun k hk => hH (k + 1) (by simpa using hk))
    have e : driftRun F (it :: its) s = driftRun F its (driftStep F s it) := rfl
    rw [e]
    refine h2.trans ?_
    simp only [List.length_cons]
    push_cast
    linarith

/-- **C110, start.** The linear predictor at the start. -/
theorem c110_start (x ρ : Fin n → Fin m → ℝ) (hρ : ∀ i j, |x i j| ≤ ρ i j) (γ ν C : ℝ) (hγ : 0 ≤ γ) (coef : Fin m → ℝ) (lin off : Fin n → ℝ) (i : Fin n)
    (hX : Accurate γ ν (ρ i) (x i) coef (lin i)) (hC : ∀ j, |coef j| ≤ C) :
    |(driftInit F coef lin off).eta i - (∑ j, x i j * coef j + off i)| ≤ ulp F |(driftInit F coef lin off).eta i| + γ * (∑ j, ρ i j) * C + ν := by
  have e : (driftInit F coef lin off).eta i = F.rd (lin i + off i) := by simp only [driftInit, zero_add, one_mul, F.idem]
  rw [e]
  have h1 := err_ulp F (lin i + off i)
  have e2 : F.rd (lin i + off i) - (∑ j, x i j * coef j + off i) = (F.rd (lin i + off i) - (lin i + off i)) + (lin i - ∑ j, x i j * coef j) := by ring
  rw [e2]
  refine (abs_add_le _ _).trans ?_
  unfold Accurate at hX
  have h3 : ∑ j, ρ i j * |coef j| ≤ (∑ j, ρ i j) * C := by
    rw [Finset.sum_mul]
    exact Finset.sum_le_sum fun j _ => mul_le_mul_of_nonneg_left (hC j) ((abs_nonneg _).trans (hρ i j))
  have h4 := mul_le_mul_of_nonneg_left h3 hγ
  linarith

end drift


/-! ### The norm -/

section norm

variable (F : FlArith)

/-- The effect of the bounds on a term (`_cd_fast.pyx` 280-283). -/
noncomputable def clipTerm (c : ℝ) (lb ub : Option ℝ) (t0 : ℝ) : ℝ :=
  let t1 := match lb with
    | some l => if c = l ∧ 0 < t0 then 0 else t0
    | none => t0
  match ub with
    | some u => if c = u ∧ t1 < 0 then 0 else t1
    | none => t1

noncomputable def rawTerm (c g P1 : ℝ) : ℝ := if c = 0 then fsign g * fmax (|g| - P1) 0 else g + fsign c * P1

noncomputable def rawTermFl (c g P1 : ℝ) : ℝ := if c = 0 then fsign g * fmax (F.rd (|g| - P1)) 0 else F.rd (g + fsign c * P1)

theorem subgradTerm_clip (c g P1 : ℝ) (lb ub : Option ℝ) : subgradTerm c g P1 lb ub = clipTerm c lb ub (rawTerm c g P1) := by
  cases lb <;> cases ub <;> rfl

theorem subgradTermFl_clip (c g P1 : ℝ) (lb ub : Option ℝ) : subgradTermFl F c g P1 lb ub = clipTerm c lb ub (rawTermFl F c g P1) := by
  cases lb <;> cases ub <;> rfl

theorem clip_lip (c : ℝ) (lb ub : Option ℝ) (t t' : ℝ) : |clipTerm c lb ub t'| ≤ |clipTerm c lb ub t| + |t' - t| := by
  have base : |t'| ≤ |t| + |t' - t| := by
    have := abs_sub_abs_le_abs_sub t' t
    linarith
  have hp : 0 ≤ |t' - t| := abs_nonneg _
  have e1 : t' - t ≤ |t' - t| := le_abs_self _
  have e2 : -(t' - t) ≤ |t' - t| := neg_le_abs _
  unfold clipTerm
  cases lb with
  | none =>
    cases ub with
    | none => simpa using base
    | some b =>
      simp only
      split
      · simp only [abs_zero]; positivity
      · split
        · rename_i h1 h2
          have ht : 0 ≤ t' := not_lt.1 fun h => h1 ⟨h2.1, h⟩
          simp only [abs_zero, abs_of_nonneg ht]
          linarith [h2.2]
        · exact base
  | some a =>
    simp only
    by_cases hc : c = a
    · by_cases h1 : 0 < t'
      · rw [if_pos ⟨hc, h1⟩]
        cases ub with
        | none => simp only [abs_zero]; positivity
        | some b => simp only [lt_irrefl, and_false, if_false, abs_zero]; positivity
      · rw [if_neg fun h => h1 h.2]
        by_cases h2 : 0 < t
        · rw [if_pos ⟨hc, h2⟩]
          cases ub with
          | none =>
            simp only [abs_zero, abs_of_nonpos (not_lt.1 h1)]
            linarith
          | some b =>
            simp only [lt_irrefl, and_false, if_false, abs_zero]
            split
            · simp
            · rw [abs_of_nonpos (not_lt.1 h1)]
              linarith
        · rw [if_neg fun h => h2 h.2]
          cases ub with
          | none => simpa using base
          | some b =>
            simp only
            split
            · simp only [abs_zero]; positivity
            · split
              · rename_i h3 h4
                have ht : 0 ≤ t' := not_lt.1 fun h => h3 ⟨h4.1, h⟩
                rw [abs_of_nonneg ht, abs_zero]
                linarith [h4.2]
              · exact base
    · rw [if_neg fun h => hc h.1, if_neg fun h => hc h.1]
      cases ub with
      | none => simpa using base
      | some b =>
        simp only
        split
        · simp only [abs_zero]; positivity
        · split
          · rename_i h3 h4
            have ht : 0 ≤ t' := not_lt.1 fun h => h3 ⟨h4.1, h⟩
            rw [abs_of_nonneg ht, abs_zero]
            linarith [h4.2]
          · exact base

theorem rawTerm_lip (c g g' P1 : ℝ) (hP : 0 ≤ P1) : |rawTerm c g' P1 - rawTerm c g P1| ≤ |g' - g| := by
  unfold rawTerm
  split
  · have key : ∀ x : ℝ, fsign x * fmax (|x| - P1) 0 = max (x - P1) 0 - max (-x - P1) 0 := by
      intro x
      rw [fmax_eq]
      rcases lt_trichotomy x 0 with h | h | h
      · rw [fsign_neg h, abs_of_neg h, max_eq_right (by linarith : x - P1 ≤ 0)]; ring
      · subst h; rw [fsign_zero]; simp [hP]
      · rw [fsign_pos h, abs_of_pos h, max_eq_right (by linarith : -x - P1 ≤ 0)]; ring
    rw [key, key]
    have e1 : g' - g ≤ |g' - g| := le_abs_self _
    have e2 : -(g' - g) ≤ |g' - g| := neg_le_abs _
    rw [abs_le]
    constructor
    · rcases max_cases (g' - P1) 0 with h1 | h1 <;> rcases max_cases (-g' - P1) 0 with h2 | h2 <;> rcases max_cases (g - P1) 0 with h3 | h3 <;>
        rcases max_cases (-g - P1) 0 with h4 | h4 <;> rw [h1.1, h2.1, h3.1, h4.1] <;> linarith [h1.2, h2.2, h3.2, h4.2]
    · rcases max_cases (g' - P1) 0 with h1 | h1 <;> rcases max_cases (-g' - P1) 0 with h2 | h2 <;> rcases max_cases (g - P1) 0 with h3 | h3 <;>
        rcases max_cases (-g - P1) 0 with h4 | h4 <;> rw [h1.1, h2.1, h3.1, h4.1] <;> linarith [h1.2, h2.2, h3.2, h4.2]
  · have : g' + fsign c * P1 - (g + fsign c * P1) = g' - g := by ring
    rw [this]

theorem absTerm_lip {m : ℕ} (coef g g' : Fin m → ℝ) (P1 : ℕ → ℝ) (hP : ∀ k, 0 ≤ P1 k) (ic : Bool) (lb ub : Option (ℕ → ℝ)) (i : Fin m) :
    absTerm coef g' P1 ic lb ub i ≤ absTerm coef g P1 ic lb ub i + |g' i - g i| := by
  unfold absTerm
  split
  · have := abs_sub_abs_le_abs_sub (g' i) (g i)
    linarith
  · rw [subgradTerm_clip, subgradTerm_clip]
    exact (clip_lip _ _ _ _ _).trans (add_le_add le_rfl (rawTerm_lip _ _ _ _ (hP _)))

theorem clip_sign (c : ℝ) (lb ub : Option ℝ) (t t' a b : ℝ) (ha : 0 ≤ a) (hb : 0 ≤ b) (h1 : 0 ≤ t → 0 ≤ t') (h2 : t ≤ 0 → t' ≤ 0) (h3 : a * |t| ≤ |t'| + b) :
    a * |clipTerm c lb ub t| ≤ |clipTerm c lb ub t'| + b := by
  unfold clipTerm
  have z : ∀ s : ℝ, a * |(0 : ℝ)| ≤ |s| + b := fun s => by simp only [abs_zero, mul_zero]; positivity
  cases lb with
  | none =>
    cases ub with
    | none => simpa using h3
    | some u =>
      simp only
      by_cases h : c = u ∧ t < 0
      · rw [if_pos h]; exact z _
      · rw [if_neg h]
        have : ¬ (c = u ∧ t' < 0) := fun h' => not_le.2 h'.2 (h1 (not_lt.1 fun ht => h ⟨h'.1, ht⟩))
        rw [if_neg this]; exact h3
  | some l =>
    simp only
    by_cases h : c = l ∧ 0 < t
    · rw [if_pos h]
      cases ub with
      | none => exact z _
      | some u => simp only [lt_irrefl, and_false, if_false]; exact z _
    · rw [if_neg h]
      have : ¬ (c = l ∧ 0 < t') := fun h' => not_le.2 h'.2 (h2 (not_lt.1 fun ht => h ⟨h'.1, ht⟩))
      rw [if_neg this]
      cases ub with
      | none => exact h3
      | some u =>
        simp only
        by_cases h : c = u ∧ t < 0
        · rw [if_pos h]; exact z _
        · rw [if_neg h]
          have : ¬ (c = u ∧ t' < 0) := fun h' => not_le.2 h'.2 (h1 (not_lt.1 fun ht => h ⟨h'.1, ht⟩))
          rw [if_neg this]; exact h3

theorem rd_lower (x : ℝ) : (1 - F.u) * |x| ≤ |F.rd x| + F.tiny := by
  have h := F.err x
  have := abs_sub_abs_le_abs_sub x (F.rd x)
  rw [abs_sub_comm] at this
  linarith

theorem subgradTermFl_lower (c g P1 : ℝ) (lb ub : Option ℝ) :
    (1 - F.u) * |subgradTerm c g P1 lb ub| ≤ |subgradTermFl F c g P1 lb ub| + F.tiny := by
  rw [subgradTerm_clip, subgradTermFl_clip]
  have hu : 0 ≤ 1 - F.u := sub_nonneg.2 F.u_lt.le
  have hn : ∀ x : ℝ, 0 ≤ x → 0 ≤ F.rd x := fun x h => Rounding.nonneg h
  have hnp : ∀ x : ℝ, x ≤ 0 → F.rd x ≤ 0 := fun x h => Rounding.nonpos h
  unfold rawTerm rawTermFl
  by_cases hc : c = 0
  · rw [if_pos hc, if_pos hc]
    have hm : (1 - F.u) * |max (|g| - P1) 0| ≤ |max (F.rd (|g| - P1)) 0| + F.tiny := by
      rcases le_or_gt (|g| - P1) 0 with h | h
      · rw [max_eq_right h, abs_zero, mul_zero]
        exact add_nonneg (abs_nonneg _) F.tiny_nonneg
      · rw [max_eq_left h.le, max_eq_left (hn _ h.le)]
        exact rd_lower F _
    rw [fmax_eq, fmax_eq]
    have q1 : 0 ≤ max (|g| - P1) 0 := le_max_right _ _
    have q2 : 0 ≤ max (F.rd (|g| - P1)) 0 := le_max_right _ _
    rcases lt_trichotomy g 0 with h | h | h
    · rw [fsign_neg h]
      refine clip_sign _ _ _ _ _ _ _ hu F.tiny_nonneg (fun ht => ?_) (fun _ => by linarith) (by simpa using hm)
      have : max (|g| - P1) 0 = 0 := by linarith
      have h0 : |g| - P1 ≤ 0 := by rw [← this]; exact le_max_left _ _
      rw [max_eq_right (hnp _ h0)]; simp
    · rw [h, fsign_zero]
      refine clip_sign _ _ _ _ _ _ _ hu F.tiny_nonneg (fun ht => by simp) (fun _ => by simp) (by simp [F.tiny_nonneg])
    · rw [fsign_pos h]
      refine clip_sign _ _ _ _ _ _ _ hu F.tiny_nonneg (fun _ => by linarith) (fun ht => ?_) (by simpa using hm)
      have : max (|g| - P1) 0 = 0 := by linarith
      have h0 : |g| - P1 ≤ 0 := by rw [← this]; exact le_max_left _ _
      rw [max_eq_right (hnp _ h0)]; simp
  · rw [if_neg hc, if_neg hc]
    exact clip_sign _ _ _ _ _ _ _ hu F.tiny_nonneg (hn _) (hnp _) (rd_lower F _)

/-- The accumulator after a list of further terms. -/
theorem normFl_foldl {m : ℕ} (l : List (Fin m)) (coef grad : Fin m → ℝ) (P1 : ℕ → ℝ) (ic : Bool) (lb ub : Option (ℕ → ℝ)) (acc S : ℝ) (N : ℕ)
    (hacc : 0 ≤ acc) (hS : 0 ≤ S) (h0 : (1 - F.u) ^ N * S - N * F.tiny ≤ acc) (h : ∀ i ∈ l, ic.toNat ≤ i.val) :
    (1 - F.u) ^ (N + l.length) * (S + (l.map fun i => |subgradTermFl F (coef i) (grad i) (P1 (i.val - ic.toNat)) (lb.map (· (i.val - ic.toNat))) (ub.map (· (i.val - ic.toNat)))|).sum) - ((N + l.length : ℕ) : ℝ) * F.tiny
      ≤ l.foldl (fun acc i => if i.val < ic.toNat then |grad i| else
          let k := i.val - ic.toNat
          F.rd (acc + |subgradTermFl F (coef i) (grad i) (P1 k) (lb.map (· k)) (ub.map (· k))|)) acc := by
  have hu : 0 ≤ 1 - F.u := sub_nonneg.2 F.u_lt.le
  have hu1 : 1 - F.u ≤ 1 := by linarith [F.u_nonneg]
  induction l generalizing acc S N with
  | nil => simpa using h0
  | cons x xs ih =>
    have hx : ¬ x.val < ic.toNat := not_lt.mpr (h x (by simp))
    rw [List.foldl_cons]
    obtain ⟨a, ha⟩ : ∃ a, a = |subgradTermFl F (coef x) (grad x) (P1 (x.val - ic.toNat)) (lb.map (· (x.val - ic.toNat))) (ub.map (· (x.val - ic.toNat)))| := ⟨_, rfl⟩
    have ha0 : 0 ≤ a := ha ▸ abs_nonneg _
    rw [if_neg hx]
    simp only [List.map_cons, List.sum_cons, List.length_cons, ← ha]
    have h1 : (1 - F.u) ^ (N + 1) * (S + a) - ((N + 1 : ℕ) : ℝ) * F.tiny ≤ F.rd (acc + a) := by
      have hr : (1 - F.u) * (acc + a) - F.tiny ≤ F.rd (acc + a) := by
        have he := abs_le.1 (F.err (acc + a))
        rw [abs_of_nonneg (add_nonneg hacc ha0)] at he
        nlinarith [he.1]
      have h2 := mul_le_mul_of_nonneg_left h0 hu
      have h3 : (1 - F.u) ^ (N + 1) * a ≤ (1 - F.u) * a := by
        rw [pow_succ']
        have : (1 - F.u) ^ N ≤ 1 := pow_le_one₀ hu hu1
        nlinarith [mul_nonneg hu ha0]
      push_cast
      rw [pow_succ'] at h3 ⊢
      have h4 : (1 - F.u) * (N * F.tiny) ≤ N * F.tiny := by
        have : 0 ≤ (N : ℝ) * F.tiny := mul_nonneg (Nat.cast_nonneg _) F.tiny_nonneg
        nlinarith
      nlinarith
    have := ih _ _ _ (Rounding.nonneg (add_nonneg hacc ha0)) (add_nonneg hS ha0) h1 (fun i hi => h i (by simp [hi]))
    rw [show N + (xs.length + 1) = N + 1 + xs.length by ring, ← add_assoc]
    exact this

theorem exact_norm_le {m : ℕ} (coef grad : Fin m → ℝ) (P1 : ℕ → ℝ) (ic : Bool) (lb ub : Option (ℕ → ℝ)) :
    ∑ i, absTerm coef grad P1 ic lb ub i ≤ normUp F m (normFl F coef grad P1 ic lb ub) := by
  have hu : 0 < 1 - F.u := sub_pos.2 F.u_lt
  have hu1 : 1 - F.u ≤ 1 := by linarith [F.u_nonneg]
  obtain ⟨A, hA⟩ : ∃ A : Fin m → ℝ, A = fun i => if i.val < ic.toNat then |grad i| else
    |subgradTermFl F (coef i) (grad i) (P1 (i.val - ic.toNat)) (lb.map (· (i.val - ic.toNat))) (ub.map (· (i.val - ic.toNat)))| := ⟨_, rfl⟩
  have hterm : ∀ i, (1 - F.u) * absTerm coef grad P1 ic lb ub i ≤ A i + F.tiny := by
    intro i
    rw [hA]
    unfold absTerm
    simp only
    split
    · nlinarith [F.u_nonneg, abs_nonneg (grad i), F.tiny_nonneg]
    · exact subgradTermFl_lower F _ _ _ _ _
  have hnorm : (1 - F.u) ^ m * ∑ i, A i - m * F.tiny ≤ normFl F coef grad P1 ic lb ub := by
    unfold normFl
    cases m with
    | zero => simp
    | succ k =>
      rw [List.finRange_succ, List.foldl_cons]
      have htail : ∀ i ∈ (List.finRange k).map Fin.succ, ic.toNat ≤ i.val := by
        intro i hi
        obtain ⟨s, _, rfl⟩ := List.mem_map.1 hi
        have h2 : ic.toNat ≤ 1 := by cases ic <;> simp
        have : (Fin.succ s).val = s.val + 1 := Fin.val_succ s
        omega
      have hsum : ((List.finRange k).map Fin.succ |>.map fun i => |subgradTermFl F (coef i) (grad i) (P1 (i.val - ic.toNat)) (lb.map (· (i.val - ic.toNat))) (ub.map (· (i.val - ic.toNat)))|).sum = ∑ i : Fin k, A i.succ := by
        rw [List.map_map, ← List.ofFn_eq_map, List.sum_ofFn]
        refine Finset.sum_congr rfl fun i _ => ?_
        rw [hA]
        simp only [Function.comp]
        rw [if_neg (not_lt.2 (htail i.succ (List.mem_map.2 ⟨i, List.mem_finRange i, rfl⟩)))]
      have start : ∀ acc : ℝ, 0 ≤ acc → (1 - F.u) ^ 1 * A 0 - (1 : ℕ) * F.tiny ≤ acc →
          (1 - F.u) ^ (k + 1) * ∑ i, A i - ((k + 1 : ℕ) : ℝ) * F.tiny ≤ ((List.finRange k).map Fin.succ).foldl (fun acc i => if i.val < ic.toNat then |grad i| else
            let k := i.val - ic.toNat
            F.rd (acc + |subgradTermFl F (coef i) (grad i) (P1 k) (lb.map (· k)) (ub.map (· k))|)) acc := by
        intro acc hacc h0
        have hA0 : 0 ≤ A 0 := by rw [hA]; simp only; split <;> exact abs_nonneg _
        have := normFl_foldl F ((List.finRange k).map Fin.succ) coef grad P1 ic lb ub acc (A 0) 1 hacc hA0 h0 htail
        rw [hsum, List.length_map, List.length_finRange, ← Fin.sum_univ_succ, add_comm 1 k] at this
        exact this
      by_cases hi : (0 : Fin (k + 1)).val < ic.toNat
      · rw [if_pos hi]
        refine start _ (abs_nonneg _) ?_
        have : A 0 = |grad 0| := by rw [hA]; exact if_pos hi
        rw [this]
        push_cast
        nlinarith [F.u_nonneg, abs_nonneg (grad 0), F.tiny_nonneg]
      · rw [if_neg hi]
        refine start _ (Rounding.nonneg (by positivity)) ?_
        have : A 0 = |subgradTermFl F (coef 0) (grad 0) (P1 ((0 : Fin (k + 1)).val - ic.toNat)) (lb.map (· ((0 : Fin (k + 1)).val - ic.toNat))) (ub.map (· ((0 : Fin (k + 1)).val - ic.toNat)))| := by
          rw [hA]; exact if_neg hi
        simp only [← this, zero_add]
        have hA0 : 0 ≤ A 0 := this ▸ abs_nonneg _
        have he := abs_le.1 (F.err (A 0))
        rw [abs_of_nonneg hA0] at he
        push_cast
        nlinarith [he.1]
  have h1 : (1 - F.u) * ∑ i, absTerm coef grad P1 ic lb ub i ≤ ∑ i, A i + m * F.tiny := by
    rw [Finset.mul_sum]
    refine (Finset.sum_le_sum fun i _ => hterm i).trans (le_of_eq ?_)
    rw [Finset.sum_add_distrib]
    simp
  unfold normUp
  rw [le_div_iff₀ hu, mul_comm]
  refine h1.trans (add_le_add ?_ le_rfl)
  rw [le_div_iff₀ (pow_pos hu m)]
  linarith

/-- **C110, the norm.** If the computed norm of the computed score is below the tolerance, the exact norm of the exact score is at most the tolerance, inflated by the rounding of the norm,
plus the sum of the errors of the score.  `grad` is minus the computed score, `grad'` the exact gradient. -/
theorem c110_norm {m : ℕ} (coef grad grad' : Fin m → ℝ) (P1 : ℕ → ℝ) (hP : ∀ k, 0 ≤ P1 k) (ic : Bool) (lb ub : Option (ℕ → ℝ)) (tol : ℝ)
    (h : normFl F coef grad P1 ic lb ub < tol) (δ : Fin m → ℝ) (hδ : ∀ i, |grad' i - grad i| ≤ δ i) :
    (normMinSubgrad (List.finRange m) coef grad' P1 ic lb ub).1 ≤ normUp F m tol + ∑ i, δ i := by
  have e := norm_eq_finset_sum (id : Fin m → Fin m) strictMono_id coef grad' P1 ic lb ub
  rw [List.map_id] at e
  rw [e]
  have h1 := exact_norm_le F coef grad P1 ic lb ub
  have h2 : normUp F m (normFl F coef grad P1 ic lb ub) ≤ normUp F m tol := by
    have hu : 0 < 1 - F.u := sub_pos.2 F.u_lt
    unfold normUp
    refine div_le_div_of_nonneg_right (add_le_add (div_le_div_of_nonneg_right (by linarith) (pow_pos hu m).le) le_rfl) hu.le
  have h3 : ∑ i, absTerm coef grad' P1 ic lb ub i ≤ ∑ i, absTerm coef grad P1 ic lb ub i + ∑ i, δ i := by
    rw [← Finset.sum_add_distrib]
    exact Finset.sum_le_sum fun i _ => (absTerm_lip coef grad grad' P1 hP ic lb ub i).trans (add_le_add le_rfl (hδ i))
  simp only [id]
  linarith

end norm

/-! ### The score and the certificate -/

section certificate

variable (F : FlArith) {n p : ℕ} {ic : Bool}

/-- The exact row gradient at a linear predictor `e`. -/
noncomputable def gradRow (D : IRLSData n p ic) (i : Fin n) (e : ℝ) : ℝ := D.fam.grad (D.y i) (D.sw i) e (D.fam.inv e)

/-- How the solver gets the score from its linear predictor `eta`: row gradients `g` accurate to `a i`, which change by at most `L i` times the drift; the product with the design
matrix, accurate to `γ`, `ν` relative to `ρ`; the penalty term `cP2`, accurate to `b k`. -/
structure ScoreOK (D : IRLSData n p ic) (ρ : Fin n → Fin (p + ic.toNat) → ℝ) (γ ν : ℝ) (a L : Fin n → ℝ) (b : Fin (p + ic.toNat) → ℝ) (coef : Fin (p + ic.toNat) → ℝ) (eta g : Fin n → ℝ)
    (dot cP2 : Fin (p + ic.toNat) → ℝ) : Prop where
  rows : ∀ i, |g i - gradRow D i (eta i)| ≤ a i
  lip : ∀ i, |gradRow D i (eta i) - gradRow D i (linPred ic D.X (off D) coef i)| ≤ L i * |eta i - linPred ic D.X (off D) coef i|
  dot : ∀ k, Accurate γ ν (fun i => ρ i k) (fun i => design ic D.X i k) g (dot k)
  pen : ∀ k, |cP2 k - ∑ i, p2Full ic D.P2 i k * coef i| ≤ b k

/-- The error of the computed score in coordinate `k`, `E i` being the drift of row `i`. -/
noncomputable def Spec.scoreError (F : FlArith) (ρ : Fin n → Fin (p + ic.toNat) → ℝ) (γ ν : ℝ) (a L : Fin n → ℝ) (b : Fin (p + ic.toNat) → ℝ) (g E : Fin n → ℝ) (s : Fin (p + ic.toNat) → ℝ)
    (k : Fin (p + ic.toNat)) : ℝ :=
  ulp F |s k| + (γ * ∑ i, ρ i k * |g i| + ν) + ∑ i, ρ i k * (a i + L i * E i) + b k

/-- **C110, the score.** -/
theorem c110_score (D : IRLSData n p ic) (ρ : Fin n → Fin (p + ic.toNat) → ℝ) (hρ : ∀ i k, |design ic D.X i k| ≤ ρ i k) (γ ν : ℝ) (a L : Fin n → ℝ) (b : Fin (p + ic.toNat) → ℝ)
    (coef : Fin (p + ic.toNat) → ℝ) (eta g : Fin n → ℝ) (dot cP2 : Fin (p + ic.toNat) → ℝ) (hL : ∀ i, 0 ≤ L i) (h : ScoreOK D ρ γ ν a L b coef eta g dot cP2) (E : Fin n → ℝ)
    (hE : ∀ i, |eta i - linPred ic D.X (off D) coef i| ≤ E i) (k : Fin (p + ic.toNat)) :
    |scoreFl F dot cP2 k - scoreAt D coef k| ≤ scoreError F ρ γ ν a L b g E (scoreFl F dot cP2) k := by
  have h1 := err_ulp F (dot k - cP2 k)
  have h2 := h.dot k
  have h3 := h.pen k
  have h4 : |∑ i, design ic D.X i k * (g i - gradRow D i (linPred ic D.X (off D) coef i))| ≤ ∑ i, ρ i k * (a i + L i * E i) := by
    refine (Finset.abs_sum_le_sum_abs _ _).trans (Finset.sum_le_sum fun i _ => ?_)
    rw [abs_mul]
    refine mul_le_mul (hρ i k) ?_ (abs_nonneg _) ((abs_nonneg _).trans (hρ i k))
    have e : g i - gradRow D i (linPred ic D.X (off D) coef i) = (g i - gradRow D i (eta i)) + (gradRow D i (eta i) - gradRow D i (linPred ic D.X (off D) coef i)) := by ring
    rw [e]
    exact (abs_add_le _ _).trans (add_le_add (h.rows i) ((h.lip i).trans (mul_le_mul_of_nonneg_left (hE i) (hL i))))
  have e : scoreFl F dot cP2 k - scoreAt D coef k = (F.rd (dot k - cP2 k) - (dot k - cP2 k)) + (dot k - ∑ i, design ic D.X i k * g i)
      + ∑ i, design ic D.X i k * (g i - gradRow D i (linPred ic D.X (off D) coef i)) - (cP2 k - ∑ i, p2Full ic D.P2 i k * coef i) := by
    simp only [scoreFl, scoreAt, mul_sub, Finset.sum_sub_distrib, gradRow]
    ring
  rw [e]
  unfold scoreError
  refine (abs_sub _ _).trans (add_le_add ((abs_add_le _ _).trans (add_le_add ((abs_add_le _ _).trans (add_le_add h1 h2)) h4)) h3)

/-- **C110.** "Converged" in rounded arithmetic.  After any number of passes in any rounded arithmetic, with any directions, step lengths and order of additions, if the *computed* norm of the
*computed* score is below `gradient_tol`, then the objective at the coefficients the solver holds (computed without rounding) exceeds its value at any feasible point at distance at most `B` by at
most `B` times: the tolerance, inflated by the rounding of the norm, plus the errors of the score, into which the accumulated drift of the linear predictor enters through the
row gradients. -/
theorem c110_converged (D : IRLSData n p ic) (hP : ∀ k, 0 ≤ D.P1 k) (hsym : ∀ i j, p2Full (p := p) ic D.P2 i j = p2Full ic D.P2 j i) (hpsd : PosSemidef (p2Full (p := p) ic D.P2))
    (hconv : ∀ r, ConvexOn ℝ Set.univ fun e => 1 / 2 * (D.sw r * D.fam.dev (D.y r) e))
    (ρ : Fin n → Fin (p + ic.toNat) → ℝ) (hρ : ∀ i k, |design ic D.X i k| ≤ ρ i k) (γ ν γ' ν' C : ℝ) (H : Fin n → ℝ) (hγ : 0 ≤ γ) (hν : 0 ≤ ν)
    (coef0 : Fin (p + ic.toNat) → ℝ) (lin : Fin n → ℝ) (hlin : ∀ i, Accurate γ ν (ρ i) (design ic D.X i) coef0 (lin i))
    (its : List (DriftIter n (p + ic.toNat))) (hX : ∀ it ∈ its, ∀ i, Accurate γ ν (ρ i) (design ic D.X i) it.d (it.Xd i))
    (hC : ∀ k ≤ its.length, ∀ j, |(driftRun F (its.take k) (driftInit F coef0 lin (off D))).coef j| ≤ C)
    (hH : ∀ k ≤ its.length, ∀ i, |(driftRun F (its.take k) (driftInit F coef0 lin (off D))).eta i| ≤ H i)
    (st : DriftState n (p + ic.toNat)) (hst : st = driftRun F its (driftInit F coef0 lin (off D)))
    (a L g : Fin n → ℝ) (b dot cP2 : Fin (p + ic.toNat) → ℝ) (hL : ∀ i, 0 ≤ L i) (hs : ScoreOK D ρ γ' ν' a L b st.coef st.eta g dot cP2)
    (hnorm : normFl F st.coef (fun k => -scoreFl F dot cP2 k) D.P1 ic D.lb D.ub < D.gradTol)
    (hfam : ∀ r, GradOK D r (linPred ic D.X (off D) st.coef r))
    (v : Fin (p + ic.toNat) → ℝ) (hv : InBounds ic D.lb D.ub v) (B : ℝ) (hB : ∀ i, |v i - st.coef i| ≤ B) (hB0 : 0 ≤ B) :
    let drift := fun i => ulp F (H i) + γ * (∑ k, ρ i k) * C + ν + its.length * passDrift F C (H i) γ ν (∑ k, ρ i k)
    (∀ i, |st.eta i - linPred ic D.X (off D) st.coef i| ≤ drift i) ∧
    objective D st.coef ≤ objective D v + (normUp F (p + ic.toNat) D.gradTol + ∑ k, scoreError F ρ γ' ν' a L b g drift (scoreFl F dot cP2) k) * B := by
  intro drift
  have hd : ∀ i, |st.eta i - linPred ic D.X (off D) st.coef i| ≤ drift i := by
    intro i
    have h0 := c110_start F (fun i => design ic D.X i) ρ hρ γ ν C hγ coef0 lin (off D) i (hlin i) (by simpa [driftRun, driftInit] using hC 0 (Nat.zero_le _))
    have h1 := c110_drift F (fun i => design ic D.X i) ρ (off D) hρ γ ν C (H i) hγ hν (driftInit F coef0 lin (off D)) its i (fun it hit => hX it hit i) hC (fun k hk => hH k hk i)
    rw [← hst] at h1
    have h2 := ulp_mono F (hH 0 (Nat.zero_le _) i)
    have e : (driftInit F coef0 lin (off D)).coef = coef0 := rfl
    rw [e] at h1
    have e2 : driftRun F (its.take 0) (driftInit F coef0 lin (off D)) = driftInit F coef0 lin (off D) := rfl
    rw [e2] at h2
    unfold linPred
    simp only [drift]
    linarith
  refine ⟨hd, ?_⟩
  have hscore := c110_score F D ρ hρ γ' ν' a L b st.coef st.eta g dot cP2 hL hs drift hd
  have hn := c110_norm F st.coef (fun k => -scoreFl F dot cP2 k) (fun k => -scoreAt D st.coef k) D.P1 hP ic D.lb D.ub D.gradTol hnorm
    (fun k => scoreError F ρ γ' ν' a L b g drift (scoreFl F dot cP2) k) (fun k => by
      have := hscore k
      rw [show -scoreAt D st.coef k - -scoreFl F dot cP2 k = scoreFl F dot cP2 k - scoreAt D st.coef k by ring]
      exact this)
  have h35 := (c35_near_optimal (fun _ _ => (fun _ => 0, 0)) D hP hsym hpsd hconv st.coef (irlsInit D st.coef) Visited.init hfam v hv B hB hB0).1
  have hs2 := (visited_sync (fun _ _ => (fun _ => 0, 0)) D hP st.coef (irlsInit D st.coef) Visited.init).score
  have hN : (irlsInit D st.coef).norm = (normMinSubgrad (List.finRange (p + ic.toNat)) st.coef (fun i => -scoreAt D st.coef i) D.P1 ic D.lb D.ub).1 := by
    have e : (irlsInit D st.coef).norm = (normMinSubgrad (List.finRange (p + ic.toNat)) st.coef (fun i => -(irlsInit D st.coef).score i) D.P1 ic D.lb D.ub).1 := rfl
    rw [e]
    simp only [hs2]
    rfl
  rw [hN] at h35
  have e : (irlsInit D st.coef).coef = st.coef := rfl
  rw [e] at h35
  exact h35.trans (add_le_add le_rfl (mul_le_mul_of_nonneg_right hn hB0))

end certificate

/-! ### Without rounding, this is the solver of the other theorems -/

section refine

variable {n p : ℕ} {ic : Bool}

theorem driftRun_snoc (F : FlArith) {m : ℕ} (its : List (DriftIter n m)) (it : DriftIter n m) (s : DriftState n m) : driftRun F (its ++ [it]) s = driftStep F (driftRun F its s) it := by
  simp [driftRun, List.foldl_append]

theorem factorFl_exact (k : ℕ) : factorFl FlArith.exact.toRounding k = (1 / 2) ^ k := by
  induction k with
  | zero => simp [factorFl]
  | succ k ih => rw [factorFl, ih, pow_succ]; rfl

/-- **C110, the model.** Without rounding, the coefficients and the linear predictor of every state of every run of the solver, with any inner solver, are those of a run of the rounded model with exact
matrix products. -/
theorem c110_refines (inner : Inner n p ic) (D : IRLSData n p ic) (coef0 : Fin (p + ic.toNat) → ℝ) (st : IRLSState n p ic) (h : Visited inner D coef0 st) :
    ∃ (lin : Fin n → ℝ) (its : List (DriftIter n (p + ic.toNat))), its.length = st.nIter ∧ (∀ i, Accurate 0 0 (fun k => |design ic D.X i k|) (design ic D.X i) coef0 (lin i)) ∧
      (∀ it ∈ its, ∀ i, Accurate 0 0 (fun k => |design ic D.X i k|) (design ic D.X i) it.d (it.Xd i)) ∧
      st.coef = (driftRun FlArith.exact its (driftInit FlArith.exact coef0 lin (off D))).coef ∧ st.eta = (driftRun FlArith.exact its (driftInit FlArith.exact coef0 lin (off D))).eta := by
  refine ⟨fun i => ∑ k, design ic D.X i k * coef0 k, ?_⟩
  induction h with
  | init =>
    refine ⟨[], rfl, fun i => by simp [Accurate], by simp, rfl, ?_⟩
    funext i
    show (0 : ℝ) + 1 * safeLinPred ic D.X coef0 D.offset i = 0 + 1 * (∑ k, design ic D.X i k * coef0 k + off D i)
    rw [c12_lin_pred]
    rfl
  | step st hv hn hc ih =>
    obtain ⟨its, hlen, hl, hits, ec, ee⟩ := ih
    obtain ⟨st1, h1⟩ : ∃ st1, st1 = { st with hs := updateHessian ic D.X D.P2 D.hessApprox st.hs (identifyActiveSet D st) } := ⟨_, rfl⟩
    obtain ⟨d, hd⟩ : ∃ d, d = (inner D st1).1 := ⟨_, rfl⟩
    have hsp := lineSearch_spec D st1 d
    obtain ⟨r, hr⟩ : ∃ r, r = lineSearch D st1 d := ⟨_, rfl⟩
    rw [← hr] at hsp
    have hc1 : st1.coef = st.coef := by rw [h1]
    have he1 : st1.eta = st.eta := by rw [h1]
    have e1 : (irlsStep inner D st).coef = r.coef := by rw [hr, hd, h1]; rfl
    have e2 : (irlsStep inner D st).eta = r.eta := by rw [hr, hd, h1]; rfl
    refine ⟨its ++ [⟨d, fun i => ∑ k, design ic D.X i k * d k, r.k⟩], ?_, hl, ?_, ?_, ?_⟩
    · rw [List.length_append, hlen]; rfl
    · intro it hit i
      rcases List.mem_append.1 hit with h | h
      · exact hits it h i
      · rw [List.mem_singleton.1 h]; simp [Accurate]
    · rw [driftRun_snoc, e1, hsp.coef, hc1, ec]
      funext j
      simp only [driftStep, factorFl_exact]
      rfl
    · have e3 : r.eta = fun i => st1.eta i + (1 / 2) ^ r.k * safeLinPred ic D.X d none i := congrArg Prod.fst hsp.emo
      rw [driftRun_snoc, e2, e3, he1, ee]
      funext i
      simp only [driftStep, factorFl_exact]
      rw [c12_lin_pred]
      show _ + (1 / 2) ^ r.k * (∑ k, design ic D.X i k * d k + 0) = _ + (1 / 2) ^ r.k * ∑ k, design ic D.X i k * d k
      rw [add_zero]

theorem passDrift_exact (C H R : ℝ) : passDrift FlArith.exact C H 0 0 R = 0 := by
  simp [passDrift, twoOps, ulp, FlArith.exact]

end refine

/-! ### The drift is real -/

theorem coarse_err (x : ℝ) : |coarse.rd x - x| ≤ 1 / 20 * |x| + 1 / 200 := by
  show |coarseRd x - x| ≤ _
  by_cases h : |x| < 1
  · rw [coarseRd_small h]
    have := abs_sub_round (100 * x)
    rw [show (round (100 * x) : ℝ) / 100 - x = -(1 / 100 * (100 * x - round (100 * x))) by ring, abs_neg, abs_mul, abs_of_pos (by norm_num : (0 : ℝ) < 1 / 100)]
    have := abs_nonneg x
    linarith
  · rw [coarseRd_large (not_lt.1 h)]
    have := abs_sub_round (10 * x)
    rw [show (round (10 * x) : ℝ) / 10 - x = -(1 / 10 * (10 * x - round (10 * x))) by ring, abs_neg, abs_mul, abs_of_pos (by norm_num : (0 : ℝ) < 1 / 10)]
    have := not_lt.1 h
    linarith

/-- The two-decimals format, with its error bound. -/
noncomputable def coarseFl : FlArith := { coarse with u := 1 / 20, tiny := 1 / 200, u_nonneg := by norm_num, u_lt := by norm_num, tiny_nonneg := by norm_num, err := coarse_err }

/-- One row, `x = 1`, `y = 10`, offset 10, normal family: the best coefficient is 0. -/
noncomputable def driftEx : IRLSData 1 1 false where
  X := fun _ _ => 1
  y := fun _ => 10
  sw := fun _ => 1
  P1 := fun _ => 0
  P2 := .vec fun _ => 0
  fam := normalRow
  maxIter := 100
  maxInnerIter := 10
  gradTol := 1 / 1000
  stepTol := none
  hessApprox := 0
  fixedInnerTol := none
  random := false
  offset := some fun _ => 10
  lb := none
  ub := none
  eps := 1 / 10 ^ 15
  large := 10 ^ 30

/-- A pass that moves the coefficient by 0.04. -/
noncomputable def driftPass : DriftIter 1 (1 + false.toNat) := ⟨fun _ => 4 / 100, fun _ => 4 / 100, 0⟩

noncomputable def driftStart : DriftState 1 (1 + false.toNat) := driftInit coarseFl (fun _ => 0) (fun _ => 0) (off driftEx)

theorem driftStart_eq : driftStart = ⟨fun _ => 0, fun _ => 10⟩ := by
  have h10 : coarseFl.rd 10 = 10 := by
    have := coarseRd_fix2 100 (by norm_num)
    norm_num at this
    exact this
  unfold driftStart driftInit
  congr 1
  funext i
  simp only [off, driftEx, Option.getD_some, zero_add, one_mul, h10]

theorem driftEx_run (k : ℕ) (hk : k ≤ 25) : driftRun coarseFl (List.replicate k driftPass) driftStart = ⟨fun _ => k * (4 / 100), fun _ => 10⟩ := by
  induction k with
  | zero => simp [driftRun, driftStart_eq]
  | succ k ih =>
    have h4 : coarseFl.rd (1 * (4 / 100)) = 4 / 100 := by
      have := coarseRd_fix1 4 (by norm_num)
      push_cast at this
      rw [one_mul]
      exact this
    have hc : coarseFl.rd ((k : ℝ) * (4 / 100) + 4 / 100) = ((k + 1 : ℕ) : ℝ) * (4 / 100) := by
      have hk' : ((4 * (k + 1) : ℕ) : ℝ) ≤ 100 := by exact_mod_cast (by omega : 4 * (k + 1) ≤ 100)
      have := coarseRd_fix1 ((4 * (k + 1) : ℕ) : ℤ) (by push_cast at hk' ⊢; rw [abs_of_nonneg (by positivity)]; exact hk')
      push_cast at this ⊢
      rw [show (k : ℝ) * (4 / 100) + 4 / 100 = 4 * ((k : ℝ) + 1) / 100 by ring, show ((k : ℝ) + 1) * (4 / 100) = 4 * ((k : ℝ) + 1) / 100 by ring]
      exact this
    have he : coarseFl.rd (10 + 4 / 100) = 10 := by
      show coarseRd _ = _
      rw [coarseRd_large (by rw [abs_of_pos] <;> norm_num)]
      have : round ((10 : ℝ) * (10 + 4 / 100)) = 100 := by
        rw [round_eq, Int.floor_eq_iff]
        norm_num
      rw [this]
      norm_num
    rw [List.replicate_succ', driftRun_snoc, ih (by omega)]
    simp only [driftStep, driftPass, factorFl, h4]
    rw [hc, he]

theorem driftEx_linPred (k : ℕ) (hk : k ≤ 25) (i : Fin 1) : linPred false driftEx.X (off driftEx) (driftRun coarseFl (List.replicate k driftPass) driftStart).coef i = k * (4 / 100) + 10 := by
  rw [driftEx_run k hk]
  show ∑ j : Fin 1, design (p := 1) false driftEx.X i j * ((k : ℝ) * (4 / 100)) + 10 = _
  simp [design, driftEx]

/-- The drift grows with the number of passes: in an arithmetic with two decimals the linear predictor of this run stays where it is while the coefficient moves. -/
theorem c110_drift_grows (k : ℕ) (hk : k ≤ 25) (i : Fin 1) :
    |(driftRun coarseFl (List.replicate k driftPass) driftStart).eta i - linPred false driftEx.X (off driftEx) (driftRun coarseFl (List.replicate k driftPass) driftStart).coef i| = k * (4 / 100) := by
  rw [driftEx_linPred k hk, driftEx_run k hk]
  rw [show (10 : ℝ) - (k * (4 / 100) + 10) = -(k * (4 / 100)) by ring, abs_neg, abs_of_nonneg (by positivity)]

theorem driftEx_objective (c : ℝ) : objective driftEx (fun _ => c) = 1 / 2 * c ^ 2 := by
  have h : ∀ r : Fin 1, linPred (p := 1) false driftEx.X (off driftEx) (fun _ => c) r = c + 10 := by
    intro r
    show ∑ j : Fin 1, design (p := 1) false driftEx.X r j * c + 10 = _
    simp [design, driftEx]
  have hl : l1 false driftEx.P1 (fun _ : Fin (1 + false.toNat) => c) = 0 := by
    simp [l1, l1Weight, driftEx]
  have hr : ridge driftEx (fun _ => c) = 0 := by
    simp [ridge, p2Full, p2Matrix, driftEx]
  rw [objective, smoothObj, hl, hr]
  simp only [h]
  simp [driftEx, normalRow]

/-- The hypotheses of `c110_converged` hold for the drifting run, whatever its length (up to 25 passes). -/
theorem driftEx_scoreOK (k : ℕ) (hk : k ≤ 25) : ScoreOK driftEx (fun _ _ => 1) 0 0 (fun _ => 0) (fun _ => 1) (fun _ => 0) (driftRun coarseFl (List.replicate k driftPass) driftStart).coef
    (driftRun coarseFl (List.replicate k driftPass) driftStart).eta (fun _ => 0) (fun _ => 0) (fun _ => 0) where
  rows i := by
    rw [driftEx_run k hk]
    simp [gradRow, driftEx, normalRow]
  lip i := by
    simp only [gradRow]
    rw [show driftEx.fam = normalRow from rfl]
    simp only [normalRow, driftEx]
    rw [← abs_neg]
    refine le_of_eq ?_
    rw [one_mul]
    congr 1
    ring
  dot j := by simp [Accurate]
  pen j := by simp [p2Full, p2Matrix, driftEx]

theorem driftEx_norm (k : ℕ) : normFl coarseFl (driftRun coarseFl (List.replicate k driftPass) driftStart).coef (fun j => -scoreFl coarseFl (fun _ => 0) (fun _ => 0) j) driftEx.P1 false driftEx.lb driftEx.ub = 0 := by
  have hz : coarseFl.rd 0 = 0 := coarse.zero
  have h0 : ∀ j : Fin (1 + false.toNat), -scoreFl coarseFl (fun _ => 0) (fun _ => 0) j = 0 := by
    intro j
    simp [scoreFl, hz]
  simp only [h0]
  show (List.finRange 1).foldl _ 0 = 0
  simp [List.finRange_succ, subgradTermFl, driftEx, fsign, fmax, hz]

/-- What `converged` means without rounding (C35: within `gradient_tol * B` of the optimum) is false with rounding: this run ends with a computed norm of zero, far from the best coefficient. -/
theorem c110_exact_claim_counterexample : ∃ (F : FlArith) (D : IRLSData 1 1 false) (its : List (DriftIter 1 (1 + false.toNat))) (st : DriftState 1 (1 + false.toNat)),
    st = driftRun F its (driftInit F (fun _ => 0) (fun _ => 0) (off D)) ∧ (∀ it ∈ its, ∀ i, Accurate 0 0 (fun _ => 1) (design false D.X i) it.d (it.Xd i)) ∧
    ScoreOK D (fun _ _ => 1) 0 0 (fun _ => 0) (fun _ => 1) (fun _ => 0) st.coef st.eta (fun _ => 0) (fun _ => 0) (fun _ => 0) ∧
    normFl F st.coef (fun k => -scoreFl F (fun _ => 0) (fun _ => 0) k) D.P1 false D.lb D.ub < D.gradTol ∧
    ∃ (v : Fin (1 + false.toNat) → ℝ) (B : ℝ), InBounds false D.lb D.ub v ∧ (∀ i, |v i - st.coef i| ≤ B) ∧ objective D v + D.gradTol * B < objective D st.coef := by
  refine ⟨coarseFl, driftEx, List.replicate 25 driftPass, _, rfl, ?_, driftEx_scoreOK 25 le_rfl, ?_, fun _ => 0, 1, ?_, ?_, ?_⟩
  · intro it hit i
    rw [List.eq_of_mem_replicate hit]
    show |(4 / 100 : ℝ) - ∑ j : Fin 1, design (p := 1) false driftEx.X i j * (4 / 100)| ≤ _
    simp [design, driftEx]
  · have := driftEx_norm 25
    unfold driftStart at this
    rw [this]
    simp [driftEx]
  · intro i k _
    simp [driftEx]
  · intro i
    have := driftEx_run 25 le_rfl
    unfold driftStart at this
    rw [this]
    norm_num
  · have := driftEx_run 25 le_rfl
    unfold driftStart at this
    rw [this]
    simp only
    rw [driftEx_objective, driftEx_objective]
    norm_num [driftEx]

/-- The same run meets every hypothesis of `c110_converged`. -/
theorem c110_example (v : Fin (1 + false.toNat) → ℝ) (B : ℝ) (hB : ∀ i, |v i - 25 * (4 / 100)| ≤ B) (hB0 : 0 ≤ B) :
    objective driftEx (fun _ => 25 * (4 / 100)) ≤ objective driftEx v + (normUp coarseFl 1 (1 / 1000) + (ulp coarseFl 0 + (ulp coarseFl 10 + 25 * passDrift coarseFl 1 10 0 0 1))) * B := by
  have hrun := driftEx_run 25 le_rfl
  have hpass : ∀ k ≤ 25, driftRun coarseFl ((List.replicate 25 driftPass).take k) driftStart = ⟨fun _ => k * (4 / 100), fun _ => 10⟩ := by
    intro k hk
    rw [List.take_replicate, min_eq_left hk]
    exact driftEx_run k hk
  have hst : (driftRun coarseFl (List.replicate 25 driftPass) driftStart).coef = fun _ => 25 * (4 / 100) := by rw [hrun]; norm_num
  have := c110_converged coarseFl driftEx (fun _ => le_rfl) (fun i j => by simp [p2Full, p2Matrix, driftEx]) (fun v => by simp [p2Full, p2Matrix, driftEx]) (fun r => ?_) (fun _ _ => 1) (fun i k => ?_) 0 0 0 0 1 (fun _ => 10) le_rfl le_rfl
    (fun _ => 0) (fun _ => 0) (fun i => by simp [Accurate]) (List.replicate 25 driftPass) (fun it hit i => ?_) (fun k hk j => ?_) (fun k hk i => ?_)
    (driftRun coarseFl (List.replicate 25 driftPass) driftStart) rfl (fun _ => 0) (fun _ => 1) (fun _ => 0) (fun _ => 0) (fun _ => 0) (fun _ => 0) (fun _ => zero_le_one) (driftEx_scoreOK 25 le_rfl) ?_ (fun r => ?_) v
    (fun i k _ => by simp [driftEx]) B (by rw [hst]; exact hB) hB0
  · rw [hst] at this
    refine this.2.trans (le_of_eq ?_)
    have hz : coarseFl.rd 0 = 0 := coarse.zero
    have e : ∑ k : Fin (1 + false.toNat), scoreError (n := 1) (p := 1) (ic := false) coarseFl (fun _ _ => 1) 0 0 (fun _ => 0) (fun _ => 1) (fun _ => 0) (fun _ => 0)
        (fun i => ulp coarseFl 10 + 0 * (∑ k : Fin (1 + false.toNat), (1 : ℝ)) * 1 + 0 + ((List.replicate 25 driftPass).length : ℝ) * passDrift coarseFl 1 10 0 0 (∑ k : Fin (1 + false.toNat), (1 : ℝ))) (scoreFl coarseFl (fun _ => 0) (fun _ => 0)) k
        = ulp coarseFl 0 + (ulp coarseFl 10 + 25 * passDrift coarseFl 1 10 0 0 1) := by
      show ∑ k : Fin 1, _ = _
      simp [scoreError, scoreFl, hz]
    rw [e]
    rfl
  · refine ⟨convex_univ, ?_⟩
    intro x _ y _ a b ha hb hab
    have hb' : b = 1 - a := by linarith
    subst hb'
    simp only [smul_eq_mul]
    change 1 / 2 * (1 * (10 - (a * x + (1 - a) * y)) ^ 2) ≤ a * (1 / 2 * (1 * (10 - x) ^ 2)) + (1 - a) * (1 / 2 * (1 * (10 - y) ^ 2))
    nlinarith [mul_nonneg (mul_nonneg ha hb) (sq_nonneg (x - y))]
  · have : design (p := 1) false driftEx.X i k = 1 := by simp [design, driftEx]
    rw [this]; simp
  · rw [List.eq_of_mem_replicate hit]
    show |(4 / 100 : ℝ) - ∑ j : Fin 1, design (p := 1) false driftEx.X i j * (4 / 100)| ≤ _
    simp [design, driftEx]
  · have h25 : k ≤ 25 := by simpa using hk
    have := hpass k h25
    unfold driftStart at this
    rw [this]
    have : (k : ℝ) ≤ 25 := by exact_mod_cast h25
    rw [abs_of_nonneg (by positivity)]
    linarith
  · have := hpass k (by simpa using hk)
    unfold driftStart at this
    rw [this]
    norm_num
  · rw [driftEx_norm 25]
    simp [driftEx]
  · unfold GradOK
    have h := ((((hasDerivAt_id (linPred false driftEx.X (off driftEx) (driftRun coarseFl (List.replicate 25 driftPass) driftStart).coef r)).const_sub (driftEx.y r)).pow 2).const_mul (driftEx.sw r)).const_mul (1 / 2 : ℝ)
    refine h.congr_deriv ?_
    simp [driftEx, normalRow]

end Glum
