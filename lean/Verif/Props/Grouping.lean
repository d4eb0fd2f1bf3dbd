import Verif.Props.Collinear
import Verif.Props.Null
import Verif.Props.Balance
import Verif.Props.Units
import Verif.Props.Agree
import Verif.Props.Stability
import Mathlib.Algebra.Order.Chebyshev
/-
C126: with a ridge penalty, equal columns get equal coefficients and similar columns similar ones (the grouping effect of the elastic net).
-/
set_option linter.unusedSectionVars false
set_option linter.unusedVariables false
set_option linter.unusedSimpArgs false

namespace Glum
open Spec

variable {n p : ℕ} {ic : Bool}

/-! ### Specification -/

/-- Exchanging features `i` and `j` leaves penalties, penalty scales and bounds as they are. -/
structure Spec.Exchangeable (p : ℕ) (P1a : P1Arg) (P2a : P2Arg) (s : ℕ → ℝ) (lb ub : Option (ℕ → ℝ)) (i j : Fin p) : Prop where
  p1 : userP1 P1a i = userP1 P1a j
  p2 : ∀ k l : Fin p, userP2 P2a (Equiv.swap i j k) (Equiv.swap i j l) = userP2 P2a k l
  scale : s i = s j
  lb : ∀ l, lb = some l → l i = l j
  ub : ∀ u, ub = some u → u i = u j

/-- The ridge penalty separates the two features: the value of the quadratic form at `e_i - e_j`. -/
noncomputable def Spec.ridgeGap (P2a : P2Arg) (i j : ℕ) : ℝ := userP2 P2a i i + userP2 P2a j j - userP2 P2a i j - userP2 P2a j i

/-- The coefficients of the two features are moved towards each other: by `t = 1/2` they meet in the middle, by `t = 1` they are exchanged. -/
def Spec.mix (i j : ℕ) (t : ℝ) (b : ℕ → ℝ) : ℕ → ℝ := fun k => if k = i then b i + t * (b j - b i) else if k = j then b j + t * (b i - b j) else b k

/-! ### The penalty under mixing -/

theorem mix_swap {i j : Fin p} (t : ℝ) (b : ℕ → ℝ) (k : Fin p) : mix i j t b k = b k + t * (b (Equiv.swap i j k : Fin p) - b k) := by
  unfold mix
  by_cases h1 : k = i
  · subst h1
    rw [if_pos rfl, Equiv.swap_apply_left]
  · by_cases h2 : k = j
    · subst h2
      rw [if_neg (fun h => h1 (Fin.ext h)), if_pos rfl, Equiv.swap_apply_right]
    · rw [if_neg (fun h => h1 (Fin.ext h)), if_neg (fun h => h2 (Fin.ext h)), Equiv.swap_apply_of_ne_of_ne h1 h2]
      ring

theorem exch_fun {α : Type*} {i j : Fin p} (g : ℕ → α) (h : g i = g j) (k : Fin p) : g (Equiv.swap i j k : Fin p) = g k := by
  by_cases h1 : k = i
  · subst h1; rw [Equiv.swap_apply_left, h]
  · by_cases h2 : k = j
    · subst h2; rw [Equiv.swap_apply_right, h]
    · rw [Equiv.swap_apply_of_ne_of_ne h1 h2]

theorem mix_bounds (P1a : P1Arg) (P2a : P2Arg) (s : ℕ → ℝ) (lb ub : Option (ℕ → ℝ)) (i j : Fin p) (h : Exchangeable p P1a P2a s lb ub i j) (t : ℝ) (h0 : 0 ≤ t) (h1 : t ≤ 1)
    (b : ℕ → ℝ) (hb : WithinBounds p lb ub b) : WithinBounds p lb ub (mix i j t b) := by
  intro k hk
  have e := mix_swap (i := i) (j := j) t b ⟨k, hk⟩
  change mix i j t b k = b k + t * (b (Equiv.swap i j ⟨k, hk⟩ : Fin p) - b k) at e
  rw [e]
  set m : Fin p := Equiv.swap i j ⟨k, hk⟩ with hm
  refine ⟨fun l hl => ?_, fun u hu => ?_⟩
  · have a1 := (hb k hk).1 l hl
    have a2 := (hb m m.2).1 l hl
    rw [exch_fun l (h.lb l hl) ⟨k, hk⟩] at a2
    nlinarith [mul_le_mul_of_nonneg_left a2 h0, mul_le_mul_of_nonneg_left a1 (show 0 ≤ 1 - t by linarith)]
  · have a1 := (hb k hk).2 u hu
    have a2 := (hb m m.2).2 u hu
    rw [exch_fun u (h.ub u hu) ⟨k, hk⟩] at a2
    nlinarith [mul_le_mul_of_nonneg_left a2 h0, mul_le_mul_of_nonneg_left a1 (show 0 ≤ 1 - t by linarith)]

theorem mix_l1 (P1a : P1Arg) (P2a : P2Arg) (s : ℕ → ℝ) (lb ub : Option (ℕ → ℝ)) (i j : Fin p) (h : Exchangeable p P1a P2a s lb ub i j) (hp : ∀ k, 0 ≤ userP1 P1a k)
    (t : ℝ) (h0 : 0 ≤ t) (h1 : t ≤ 1) (b : ℕ → ℝ) :
    ∑ k : Fin p, userP1 P1a k * |mix i j t b k * s k| ≤ ∑ k : Fin p, userP1 P1a k * |b k * s k| := by
  have hs : ∑ k : Fin p, userP1 P1a k * |b (Equiv.swap i j k : Fin p) * s k| = ∑ k : Fin p, userP1 P1a k * |b k * s k| := by
    rw [← Equiv.sum_comp (Equiv.swap i j) fun k : Fin p => userP1 P1a k * |b k * s k|]
    exact Finset.sum_congr rfl fun k _ => by rw [exch_fun (userP1 P1a) h.p1 k, exch_fun s h.scale k]
  calc _ ≤ ∑ k : Fin p, ((1 - t) * (userP1 P1a k * |b k * s k|) + t * (userP1 P1a k * |b (Equiv.swap i j k : Fin p) * s k|)) := by
        refine Finset.sum_le_sum fun k _ => ?_
        rw [mix_swap]
        have : |(b k + t * (b (Equiv.swap i j k : Fin p) - b k)) * s k| ≤ (1 - t) * |b k * s k| + t * |b (Equiv.swap i j k : Fin p) * s k| := by
          have e : (b k + t * (b (Equiv.swap i j k : Fin p) - b k)) * s k = (1 - t) * (b k * s k) + t * (b (Equiv.swap i j k : Fin p) * s k) := by ring
          rw [e]
          refine (abs_add_le _ _).trans ?_
          rw [abs_mul (1 - t), abs_mul t, abs_of_nonneg h0, abs_of_nonneg (show 0 ≤ 1 - t by linarith)]
        have := mul_le_mul_of_nonneg_left this (hp k)
        linarith
    _ = _ := by rw [Finset.sum_add_distrib, ← Finset.mul_sum, ← Finset.mul_sum, hs]; ring

theorem mix_ridge (P1a : P1Arg) (P2a : P2Arg) (s : ℕ → ℝ) (lb ub : Option (ℕ → ℝ)) (i j : Fin p) (hij : i ≠ j) (h : Exchangeable p P1a P2a s lb ub i j) (t : ℝ) (b : ℕ → ℝ) :
    ∑ k : Fin p, ∑ l : Fin p, userP2 P2a k l * (mix i j t b k * s k) * (mix i j t b l * s l)
      = ∑ k : Fin p, ∑ l : Fin p, userP2 P2a k l * (b k * s k) * (b l * s l) - t * (1 - t) * ((b i - b j) ^ 2 * s i ^ 2 * ridgeGap P2a i j) := by
  set u : Fin p → ℝ := fun k => b k * s k with hu
  set v : Fin p → ℝ := fun k => b (Equiv.swap i j k : Fin p) * s k with hv
  have hvv : ∑ k, ∑ l, userP2 P2a (k : Fin p) (l : Fin p) * v k * v l = ∑ k, ∑ l, userP2 P2a (k : Fin p) (l : Fin p) * u k * u l := by
    rw [← Equiv.sum_comp (Equiv.swap i j) fun k : Fin p => ∑ l : Fin p, userP2 P2a k l * u k * u l]
    refine Finset.sum_congr rfl fun k _ => ?_
    rw [← Equiv.sum_comp (Equiv.swap i j) fun l : Fin p => userP2 P2a (Equiv.swap i j k : Fin p) l * u (Equiv.swap i j k) * u l]
    refine Finset.sum_congr rfl fun l _ => ?_
    simp only [hu, hv]
    rw [h.p2, exch_fun s h.scale k, exch_fun s h.scale l]
  have hd : ∑ k, ∑ l, userP2 P2a (k : Fin p) (l : Fin p) * (v k - u k) * (v l - u l) = (b i - b j) ^ 2 * s i ^ 2 * ridgeGap P2a i j := by
    have z : ∀ k, k ≠ i ∧ k ≠ j → v k - u k = 0 := fun k hk => by
      simp only [hu, hv]; rw [Equiv.swap_apply_of_ne_of_ne hk.1 hk.2, sub_self]
    have ei : v i - u i = (b j - b i) * s i := by simp only [hu, hv]; rw [Equiv.swap_apply_left]; ring
    have ej : v j - u j = (b i - b j) * s i := by simp only [hu, hv]; rw [Equiv.swap_apply_right, h.scale]; ring
    rw [Fintype.sum_eq_add i j hij fun k hk => Finset.sum_eq_zero fun l _ => by rw [z k hk]; ring,
      Fintype.sum_eq_add i j hij fun k hk => by rw [z k hk]; ring, Fintype.sum_eq_add i j hij fun k hk => by rw [z k hk]; ring, ei, ej]
    unfold ridgeGap
    ring
  have key : ∀ k l : Fin p, userP2 P2a k l * (mix i j t b k * s k) * (mix i j t b l * s l)
      = (1 - t) * (userP2 P2a k l * u k * u l) + t * (userP2 P2a k l * v k * v l) - t * (1 - t) * (userP2 P2a k l * (v k - u k) * (v l - u l)) := by
    intro k l
    rw [mix_swap, mix_swap]
    simp only [hu, hv]
    ring
  simp only [key, Finset.sum_add_distrib, Finset.sum_sub_distrib, ← Finset.mul_sum]
  rw [hvv, hd]
  ring

/-- The linear predictor under mixing. -/
theorem mix_eta (R : Rows n) (i j : Fin p) (hij : i ≠ j) (t b0 : ℝ) (b : ℕ → ℝ) (r : Fin n) :
    rowEta p R b0 (mix i j t b) r = rowEta p R b0 b r + t * ((b i - b j) * (R.X r j - R.X r i)) := by
  unfold rowEta
  have : ∑ k : Fin p, R.X r k * mix i j t b k = ∑ k : Fin p, R.X r k * b k + t * ∑ k : Fin p, R.X r k * (b (Equiv.swap i j k : Fin p) - b k) := by
    rw [Finset.mul_sum, ← Finset.sum_add_distrib]
    exact Finset.sum_congr rfl fun k _ => by rw [mix_swap]; ring
  have e2 : ∑ k : Fin p, R.X r k * (b (Equiv.swap i j k : Fin p) - b k) = (b i - b j) * (R.X r j - R.X r i) := by
    rw [Fintype.sum_eq_add i j hij fun k hk => by rw [Equiv.swap_apply_of_ne_of_ne hk.1 hk.2]; ring, Equiv.swap_apply_left, Equiv.swap_apply_right]
    ring
  rw [this, e2]
  ring

/-- The objective under mixing: the penalty decreases by a multiple of the squared difference. -/
theorem mix_objective (C : FitCfg p ic) (R : Rows n) (s : ℕ → ℝ) (a l1r : ℝ) (ha : 0 ≤ a) (hl : 0 ≤ l1r) (hp : ∀ k, 0 ≤ userP1 C.P1a k)
    (i j : Fin p) (hij : i ≠ j) (h : Exchangeable p C.P1a C.P2a s C.lb C.ub i j) (t : ℝ) (h0 : 0 ≤ t) (h1 : t ≤ 1) (b0 : ℝ) (b : ℕ → ℝ) :
    fitObjective p C.e50 C.family C.link R s C.P1a C.P2a a l1r b0 (mix i j t b)
      ≤ fitObjective p C.e50 C.family C.link R s C.P1a C.P2a a l1r b0 b
        + (1 / 2 * ∑ r, rowLoss C R r (rowEta p R b0 b r + t * ((b i - b j) * (R.X r j - R.X r i))) - 1 / 2 * ∑ r, rowLoss C R r (rowEta p R b0 b r))
        - a * (1 - l1r) / 2 * (t * (1 - t) * ((b i - b j) ^ 2 * s i ^ 2 * ridgeGap C.P2a i j)) := by
  rw [objective_loss_penalty, objective_loss_penalty]
  unfold penaltyOf
  rw [mix_ridge C.P1a C.P2a s C.lb C.ub i j hij h]
  simp only [mix_eta R i j hij]
  have := mul_le_mul_of_nonneg_left (mix_l1 C.P1a C.P2a s C.lb C.ub i j h hp t h0 h1 b) (mul_nonneg ha hl)
  linarith

/-! ### Equal columns -/

/-- The two columns agree on every row that counts. -/
def Spec.EqualColumns (R : Rows n) (i j : ℕ) : Prop := ∀ r, R.sw r ≠ 0 → R.X r i = R.X r j

theorem equal_loss (C : FitCfg p ic) (R : Rows n) (i j : ℕ) (h : EqualColumns R i j) (e : Fin n → ℝ) (x : ℝ) :
    ∑ r, rowLoss C R r (e r + x * (R.X r j - R.X r i)) = ∑ r, rowLoss C R r (e r) := by
  refine Finset.sum_congr rfl fun r _ => ?_
  by_cases hr : R.sw r = 0
  · unfold rowLoss; rw [hr]; ring
  · rw [h r hr, sub_self, mul_zero, add_zero]

/-- **C126, equal columns.** For every family and link (convex or not): if two columns agree on all rows with non-zero weight, are treated alike by penalties and
bounds, and the ridge penalty separates them (`a (1 - l1_ratio) > 0`, a positive `P2` entry), then every solution gives them the same coefficient. -/
theorem c126_equal (C : FitCfg p ic) (R : Rows n) (s : ℕ → ℝ) (a l1r : ℝ) (ha : 0 < a) (hl : 0 ≤ l1r ∧ l1r < 1) (hp : ∀ k, 0 ≤ userP1 C.P1a k)
    (i j : Fin p) (hij : i ≠ j) (h : Exchangeable p C.P1a C.P2a s C.lb C.ub i j) (hX : EqualColumns R i j) (hs : s i ≠ 0) (hg : 0 < ridgeGap C.P2a i j)
    (b0 : ℝ) (b : ℕ → ℝ) (hb : Solves p ic C.lb C.ub (fitObjective p C.e50 C.family C.link R s C.P1a C.P2a a l1r) b0 b) : b i = b j := by
  have h1 := mix_objective C R s a l1r ha.le hl.1 hp i j hij h (1 / 2) (by norm_num) (by norm_num) b0 b
  have h2 := hb.2.2 b0 (mix i j (1 / 2) b) hb.1 (mix_bounds _ _ _ _ _ i j h (1 / 2) (by norm_num) (by norm_num) b hb.2.1)
  have e : ∀ r, (1 / 2 : ℝ) * ((b i - b j) * (R.X r j - R.X r i)) = (1 / 2 * (b i - b j)) * (R.X r j - R.X r i) := fun r => by ring
  simp only [e] at h1
  rw [equal_loss C R i j hX, sub_self, add_zero] at h1
  by_contra hne
  have hd : 0 < (b i - b j) ^ 2 := by
    have : b i - b j ≠ 0 := sub_ne_zero.2 hne
    positivity
  have : 0 < a * (1 - l1r) / 2 * (1 / 2 * (1 - 1 / 2) * ((b i - b j) ^ 2 * s i ^ 2 * ridgeGap C.P2a i j)) := by
    have h3 : 0 < 1 - l1r := by linarith [hl.2]
    have h4 : 0 < s i ^ 2 := by positivity
    have : 0 < (b i - b j) ^ 2 * s i ^ 2 * ridgeGap C.P2a i j := by positivity
    nlinarith [mul_pos ha h3, mul_pos (mul_pos ha h3) this]
  linarith

/-- **C126, without ridge penalty.** Whatever the penalty, exchanging the two coefficients gives another solution; so with a pure L1 penalty or none a solution with
different coefficients is never the only one. -/
theorem c126_exchange (C : FitCfg p ic) (R : Rows n) (s : ℕ → ℝ) (a l1r : ℝ) (ha : 0 ≤ a) (hl : 0 ≤ l1r) (hp : ∀ k, 0 ≤ userP1 C.P1a k)
    (i j : Fin p) (hij : i ≠ j) (h : Exchangeable p C.P1a C.P2a s C.lb C.ub i j) (hX : EqualColumns R i j)
    (b0 : ℝ) (b : ℕ → ℝ) (hb : Solves p ic C.lb C.ub (fitObjective p C.e50 C.family C.link R s C.P1a C.P2a a l1r) b0 b) :
    Solves p ic C.lb C.ub (fitObjective p C.e50 C.family C.link R s C.P1a C.P2a a l1r) b0 (fun k => if k = i then b j else if k = j then b i else b k) := by
  have e1 : (fun k : ℕ => if k = i then b j else if k = j then b i else b k) = mix i j 1 b := by
    funext k; unfold mix; split
    · ring
    · split
      · ring
      · rfl
  rw [e1]
  refine ⟨hb.1, mix_bounds _ _ _ _ _ i j h 1 (by norm_num) le_rfl b hb.2.1, fun c0 c h0 hc => ?_⟩
  refine le_trans ?_ (hb.2.2 c0 c h0 hc)
  have h1 := mix_objective C R s a l1r ha hl hp i j hij h 1 (by norm_num) le_rfl b0 b
  have e : ∀ r, (1 : ℝ) * ((b i - b j) * (R.X r j - R.X r i)) = (b i - b j) * (R.X r j - R.X r i) := fun r => by ring
  simp only [e] at h1
  rw [equal_loss C R i j hX, sub_self, add_zero] at h1
  linarith

/-- **C126, fits.** In a fit without ConvergenceWarning the coefficients of equal columns differ by no more than a multiple of `gradient_tol`, with any inner solver. -/
theorem c126_fit (next : (ℕ → BitVec 32) → ℕ → (ℕ → BitVec 32)) (inner : (ℕ → BitVec 32) → (m : ℕ) → Inner m p ic) (C : FitCfg p ic) (stats : Stats) (hst : TrueStats stats)
    (R : Rows n) (l1r : ℝ) (h : ConvexFit C R l1r) (hl : l1r < 1) (hstep : C.stepTol = none) (A : AlphaSpec) (s s' : SolverLog) (r : PathResult)
    (hfit : glmFit C stats (irlsSolver next inner) R l1r A s = some (s', r)) (ha : ∀ x ∈ r.alphas, 0 ≤ x) (hw : s'.convWarn = s.convWarn)
    (i j : Fin p) (hij : i ≠ j) (hX : EqualColumns R i j)
    (he : Exchangeable p C.P1a C.P2a (penScale C.thr C.asIfScaled (stats n R.X R.sw).2) C.lb C.ub i j) (hg : 0 < ridgeGap C.P2a i j)
    (q : ℕ) (hq : q < r.alphas.length) (hc : q < r.coefPath.length) (hb : q < r.interceptPath.length) (hpos : 0 < r.alphas[q])
    (hin : WithinBounds p C.lb C.ub r.coefPath[q]) :
    |r.coefPath[q] i - r.coefPath[q] j|
      ≤ 4 * C.gradTol * colScale C.thr (stats n R.X R.sw).2 i
        / (r.alphas[q] * (1 - l1r) * penScale C.thr C.asIfScaled (stats n R.X R.sw).2 i ^ 2 * ridgeGap C.P2a i j) := by
  have hmean : (stats n R.X R.sw).1 i = (stats n R.X R.sw).1 j := by
    rw [(hst _ _ _ i).1, (hst _ _ _ j).1]
    refine Finset.sum_congr rfl fun r _ => ?_
    by_cases hr : R.sw r = 0
    · rw [hr]; ring
    · rw [hX r hr]
  have hstd : (stats n R.X R.sw).2 i = (stats n R.X R.sw).2 j := by
    rw [(hst _ _ _ i).2, (hst _ _ _ j).2]
    have e2 : ∑ r, R.sw r * R.X r i = ∑ r, R.sw r * R.X r j := Finset.sum_congr rfl fun r _ => by
      by_cases hr : R.sw r = 0
      · rw [hr]; ring
      · rw [hX r hr]
    rw [e2]
    congr 1
    refine Finset.sum_congr rfl fun r _ => ?_
    by_cases hr : R.sw r = 0
    · rw [hr]; ring
    · rw [hX r hr]
  have hs0 : ∀ j, 0 ≤ (stats n R.X R.sw).2 j := fun j => by rw [(hst _ _ _ j).2]; exact Real.sqrt_nonneg _
  set b := r.coefPath[q] with hbdef
  set d := b i - b j with hd
  set S := colScale C.thr (stats n R.X R.sw).2 i with hS
  have hSj : colScale C.thr (stats n R.X R.sw).2 j = S := by rw [hS]; unfold colScale; rw [hstd]
  have hS0 : 0 ≤ S := colScale_nonneg _ _ hs0 _
  have hclose : StdClose p ic C.thr (stats n R.X R.sw).1 (stats n R.X R.sw).2 (|d| / 2 * S) r.interceptPath[q] (mix i j (1 / 2) b) r.interceptPath[q] b := by
    refine ⟨fun k hk => ?_, fun _ => ?_⟩
    · by_cases h1 : k = i
      · subst h1
        have e : mix i j (1 / 2) b i - b i = -(1 / 2) * d := by unfold mix; rw [if_pos rfl, hd]; ring
        rw [e, abs_mul, ← hS, show |(-(1 / 2) : ℝ)| = 1 / 2 by norm_num]
        apply le_of_eq
        ring
      · by_cases h2 : k = j
        · subst h2
          have e : mix i j (1 / 2) b j - b j = (1 / 2) * d := by unfold mix; rw [if_neg h1, if_pos rfl, hd]; ring
          rw [e, abs_mul, hSj, show |(1 / 2 : ℝ)| = 1 / 2 by norm_num]
          apply le_of_eq
          ring
        · have e : mix i j (1 / 2) b k - b k = 0 := by unfold mix; rw [if_neg h1, if_neg h2, sub_self]
          rw [e, abs_zero, zero_mul]
          positivity
    · have e : ∑ k : Fin p, (stats n R.X R.sw).1 k * mix i j (1 / 2) b k = ∑ k : Fin p, (stats n R.X R.sw).1 k * b k := by
        have : ∀ k : Fin p, (stats n R.X R.sw).1 k * mix i j (1 / 2) b k
            = 1 / 2 * ((stats n R.X R.sw).1 k * b k) + 1 / 2 * ((stats n R.X R.sw).1 k * b (Equiv.swap i j k : Fin p)) := fun k => by rw [mix_swap]; ring
        simp only [this, Finset.sum_add_distrib, ← Finset.mul_sum]
        have e2 : ∑ k : Fin p, (stats n R.X R.sw).1 k * b (Equiv.swap i j k : Fin p) = ∑ k : Fin p, (stats n R.X R.sw).1 k * b k := by
          rw [← Equiv.sum_comp (Equiv.swap i j) fun k : Fin p => (stats n R.X R.sw).1 k * b k]
          exact Finset.sum_congr rfl fun k _ => by rw [exch_fun (stats n R.X R.sw).1 hmean k]
        rw [e2]; ring
      rw [e, sub_self, abs_zero]
      positivity
  obtain ⟨-, -, -, -, hmain⟩ := c75_no_warning_near_optimal next inner C stats R l1r h hs0 hstep A s s' r hfit ha hw
  have hint : ic = false → r.interceptPath[q] = 0 := fun hf => rows_intercept_zero next inner C stats R l1r h hs0 hstep A s s' r hfit ha hw q hq hc hb hf
  have h2 := hmain q hq hc hb r.interceptPath[q] (mix i j (1 / 2) b) hint
    (mix_bounds _ _ _ _ _ i j he (1 / 2) (by norm_num) (by norm_num) b hin) (|d| / 2 * S) (by positivity) hclose
  have h1 := mix_objective C R (penScale C.thr C.asIfScaled (stats n R.X R.sw).2) r.alphas[q] l1r hpos.le h.l1.1 h.p1 i j hij he (1 / 2) (by norm_num) (by norm_num)
    r.interceptPath[q] b
  have e : ∀ r, (1 / 2 : ℝ) * ((b i - b j) * (R.X r j - R.X r i)) = (1 / 2 * (b i - b j)) * (R.X r j - R.X r i) := fun r => by ring
  simp only [e] at h1
  rw [equal_loss C R i j hX, sub_self, add_zero] at h1
  set ps := penScale C.thr C.asIfScaled (stats n R.X R.sw).2 i with hps
  have hpsne : ps ≠ 0 := penScale_ne C.thr h.thr C.asIfScaled _ _
  have hps2 : 0 < ps ^ 2 := by positivity
  have hl1 : 0 < 1 - l1r := by linarith
  have hden : 0 < r.alphas[q] * (1 - l1r) * ps ^ 2 * ridgeGap C.P2a i j := by positivity
  rw [le_div_iff₀ hden]
  have h3 : r.alphas[q] * (1 - l1r) * ps ^ 2 * ridgeGap C.P2a i j * |d| ^ 2 ≤ 4 * C.gradTol * S * |d| := by
    rw [sq_abs]
    have e1 : r.alphas[q] * (1 - l1r) / 2 * (1 / 2 * (1 - 1 / 2) * ((b i - b j) ^ 2 * ps ^ 2 * ridgeGap C.P2a i j))
        = (r.alphas[q] * (1 - l1r) * ps ^ 2 * ridgeGap C.P2a i j * d ^ 2) / 8 := by rw [hd]; ring
    rw [e1] at h1
    linarith
  rcases (abs_nonneg d).eq_or_lt with h0 | h0
  · rw [← h0, zero_mul]
    have hself := hmain q hq hc hb r.interceptPath[q] b hint hin 1 zero_le_one
      ⟨fun k _ => by rw [sub_self, abs_zero, zero_mul]; exact zero_le_one, fun _ => by rw [sub_self, abs_zero]; exact zero_le_one⟩
    have hgt : 0 ≤ C.gradTol := by linarith
    positivity
  · refine le_of_mul_le_mul_right ?_ h0
    calc _ = r.alphas[q] * (1 - l1r) * ps ^ 2 * ridgeGap C.P2a i j * |d| ^ 2 := by ring
      _ ≤ _ := h3

/-! ### Similar columns -/

theorem rowSlope_residual (C : FitCfg p ic) (R : Rows n) (b0 : ℝ) (b : ℕ → ℝ) (r : Fin n) : rowSlope C R r (rowEta p R b0 b r) = -2 * scoreResidual C R b0 b r := by
  unfold rowSlope scoreResidual Family.unitDevianceDerivative
  have : etaAt p R b0 b r = rowEta p R b0 b r := rfl
  rw [this]
  ring

/-- **C126, similar columns.** For the convex pairs: the coefficients of two features that are treated alike differ by no more than twice the correlation of the weighted residuals
with the difference of the two columns, divided by the ridge penalty. -/
theorem c126_similar (C : FitCfg p ic) (R : Rows n) (s : ℕ → ℝ) (a l1r : ℝ) (hC : ConvexFit C R l1r) (ha : 0 < a) (hl : l1r < 1)
    (i j : Fin p) (hij : i ≠ j) (h : Exchangeable p C.P1a C.P2a s C.lb C.ub i j) (hs : s i ≠ 0) (hg : 0 < ridgeGap C.P2a i j)
    (b0 : ℝ) (b : ℕ → ℝ) (hb : Solves p ic C.lb C.ub (fitObjective p C.e50 C.family C.link R s C.P1a C.P2a a l1r) b0 b) :
    |b i - b j| ≤ 2 * |∑ r, scoreResidual C R b0 b r * (R.X r i - R.X r j)| / (a * (1 - l1r) * s i ^ 2 * ridgeGap C.P2a i j) := by
  have hl1 : 0 < 1 - l1r := by linarith
  have hs2 : 0 < s i ^ 2 := by positivity
  have hden : 0 < a * (1 - l1r) * s i ^ 2 * ridgeGap C.P2a i j := by positivity
  set d := b i - b j with hd
  set T := ∑ r, scoreResidual C R b0 b r * (R.X r i - R.X r j) with hT
  set c := a * (1 - l1r) / 2 * (d ^ 2 * s i ^ 2 * ridgeGap C.P2a i j) with hc
  have hder : HasDerivAt (fun t : ℝ => 1 / 2 * ∑ r, rowLoss C R r (rowEta p R b0 b r + t * (d * (R.X r j - R.X r i))) - c * (t * (1 - t))) (d * T - c) 0 := by
    have h1 : ∀ r, HasDerivAt (fun t : ℝ => rowLoss C R r (rowEta p R b0 b r + t * (d * (R.X r j - R.X r i))))
        (-2 * scoreResidual C R b0 b r * (d * (R.X r j - R.X r i))) 0 := by
      intro r
      have hl := rowLoss_hasDeriv C R l1r hC r (rowEta p R b0 b r + 0 * (d * (R.X r j - R.X r i)))
      have hi : HasDerivAt (fun t : ℝ => rowEta p R b0 b r + t * (d * (R.X r j - R.X r i))) (1 * (d * (R.X r j - R.X r i))) 0 :=
        ((hasDerivAt_id (0 : ℝ)).mul_const _).const_add _
      have := HasDerivAt.comp (0 : ℝ) hl hi
      rw [zero_mul, add_zero, rowSlope_residual, one_mul] at this
      exact this
    have h2 := (HasDerivAt.fun_sum fun r (_ : r ∈ Finset.univ) => h1 r).const_mul (1 / 2 : ℝ)
    have h3 : HasDerivAt (fun t : ℝ => c * (t * (1 - t))) (c * (1 * (1 - 0) + 0 * (-1))) 0 :=
      ((hasDerivAt_id (0 : ℝ)).mul ((hasDerivAt_id (0 : ℝ)).const_sub 1)).const_mul c
    refine (h2.sub h3).congr_deriv ?_
    have : ∑ r, -2 * scoreResidual C R b0 b r * (d * (R.X r j - R.X r i)) = 2 * d * T := by
      rw [hT, Finset.mul_sum]
      exact Finset.sum_congr rfl fun r _ => by ring
    rw [this]
    ring
  have key := deriv_ge_of_right _ _ 0 hder fun t h0 h1 => by
    have m1 := mix_objective C R s a l1r ha.le hC.l1.1 hC.p1 i j hij h t h0.le h1 b0 b
    have m2 := hb.2.2 b0 (mix i j t b) hb.1 (mix_bounds _ _ _ _ _ i j h t h0.le h1 b hb.2.1)
    simp only [zero_mul, add_zero, mul_zero, sub_zero]
    rw [← hd] at m1
    have e : c * (t * (1 - t)) = a * (1 - l1r) / 2 * (t * (1 - t) * (d ^ 2 * s i ^ 2 * ridgeGap C.P2a i j)) := by rw [hc]; ring
    rw [e]
    linarith
  rw [le_div_iff₀ hden]
  have k1 : a * (1 - l1r) * s i ^ 2 * ridgeGap C.P2a i j * |d| ^ 2 ≤ 2 * |T| * |d| := by
    rw [sq_abs]
    have : d * T ≤ |T| * |d| := by rw [mul_comm, ← abs_mul]; exact le_abs_self _
    have e : c = (a * (1 - l1r) * s i ^ 2 * ridgeGap C.P2a i j * d ^ 2) / 2 := by rw [hc]; ring
    linarith
  rcases (abs_nonneg d).eq_or_lt with h0 | h0
  · rw [← h0, zero_mul]; positivity
  · refine le_of_mul_le_mul_right ?_ h0
    calc _ = a * (1 - l1r) * s i ^ 2 * ridgeGap C.P2a i j * |d| ^ 2 := by ring
      _ ≤ _ := k1

/-- **C126, logistic regression.** The bound in terms of the data: twice the weighted L1 distance of the columns over the ridge penalty. -/
theorem c126_logistic (C : FitCfg p ic) (R : Rows n) (s : ℕ → ℝ) (a l1r : ℝ) (hC : ConvexFit C R l1r) (hfam : C.family = .binomial) (hlink : C.link = .logit)
    (ha : 0 < a) (hl : l1r < 1) (i j : Fin p) (hij : i ≠ j) (h : Exchangeable p C.P1a C.P2a s C.lb C.ub i j) (hs : s i ≠ 0) (hg : 0 < ridgeGap C.P2a i j)
    (b0 : ℝ) (b : ℕ → ℝ) (hb : Solves p ic C.lb C.ub (fitObjective p C.e50 C.family C.link R s C.P1a C.P2a a l1r) b0 b) :
    |b i - b j| ≤ 2 * (∑ r, R.sw r * |R.X r i - R.X r j|) / (a * (1 - l1r) * s i ^ 2 * ridgeGap C.P2a i j) := by
  have hl1 : 0 < 1 - l1r := by linarith
  have hs2 : 0 < s i ^ 2 := by positivity
  have hden : 0 < a * (1 - l1r) * s i ^ 2 * ridgeGap C.P2a i j := by positivity
  refine (c126_similar C R s a l1r hC ha hl i j hij h hs hg b0 b hb).trans ?_
  refine div_le_div_of_nonneg_right ?_ hden.le
  refine mul_le_mul_of_nonneg_left ((Finset.abs_sum_le_sum_abs _ _).trans (Finset.sum_le_sum fun r _ => ?_)) (by norm_num)
  rw [abs_mul]
  refine mul_le_mul_of_nonneg_right ?_ (abs_nonneg _)
  have hcan : Canonical C.family C.link := by rw [hfam, hlink]; exact Canonical.binomial
  unfold scoreResidual
  rw [canonical_factor C.e50 hcan, mul_one, abs_mul, abs_of_nonneg (hC.sw r)]
  refine mul_le_of_le_one_right (hC.sw r) ?_
  have hm : ∀ e, 0 < trueMean C.e50 C.family C.link e ∧ trueMean C.e50 C.family C.link e < 1 := by
    intro e
    have : trueMean C.e50 C.family C.link e = expit e := by rw [hfam, hlink]; rfl
    rw [this]
    unfold expit
    have := Real.exp_pos (-e)
    exact ⟨by positivity, by rw [div_lt_one (by positivity)]; linarith⟩
  have hy := hC.y r
  rw [hfam] at hy
  change 0 ≤ R.y r ∧ R.y r ≤ 1 at hy
  have := hm (etaAt p R b0 b r)
  rw [abs_le]
  exact ⟨by linarith [hy.1], by linarith [hy.2]⟩

/-- **C126, least squares.** The bound of Zou and Hastie: the weighted distance of the columns times the weighted norm of the response, over the ridge penalty. -/
theorem c126_least_squares (C : FitCfg p ic) (R : Rows n) (s : ℕ → ℝ) (a l1r : ℝ) (hC : ConvexFit C R l1r) (hfam : C.family = .normal) (hlink : C.link = .identity)
    (hzero : WithinBounds p C.lb C.ub fun _ => 0)
    (ha : 0 < a) (hl : l1r < 1) (i j : Fin p) (hij : i ≠ j) (h : Exchangeable p C.P1a C.P2a s C.lb C.ub i j) (hs : s i ≠ 0) (hg : 0 < ridgeGap C.P2a i j)
    (b0 : ℝ) (b : ℕ → ℝ) (hb : Solves p ic C.lb C.ub (fitObjective p C.e50 C.family C.link R s C.P1a C.P2a a l1r) b0 b) :
    |b i - b j| ≤ 2 * (Real.sqrt (∑ r, R.sw r * (R.y r - (R.off.getD fun _ => 0) r) ^ 2) * Real.sqrt (∑ r, R.sw r * (R.X r i - R.X r j) ^ 2))
      / (a * (1 - l1r) * s i ^ 2 * ridgeGap C.P2a i j) := by
  have hl1 : 0 < 1 - l1r := by linarith
  have hs2 : 0 < s i ^ 2 := by positivity
  have hden : 0 < a * (1 - l1r) * s i ^ 2 * ridgeGap C.P2a i j := by positivity
  refine (c126_similar C R s a l1r hC ha hl i j hij h hs hg b0 b hb).trans ?_
  refine div_le_div_of_nonneg_right (mul_le_mul_of_nonneg_left ?_ (by norm_num)) hden.le
  have hcan : Canonical C.family C.link := by rw [hfam, hlink]; exact Canonical.normal
  have hm : ∀ e, trueMean C.e50 C.family C.link e = e := fun e => by rw [hlink]; exact trueMean_identity _ _ _
  have hres : ∀ r, scoreResidual C R b0 b r = R.sw r * (R.y r - rowEta p R b0 b r) := fun r => by
    unfold scoreResidual
    rw [canonical_factor C.e50 hcan, mul_one, hm]; rfl
  have hloss : ∀ r e, rowLoss C R r e = R.sw r * (R.y r - e) ^ 2 := fun r e => by
    unfold rowLoss; rw [hm, hfam]; rfl
  have hopt : ∑ r, R.sw r * (R.y r - rowEta p R b0 b r) ^ 2 ≤ ∑ r, R.sw r * (R.y r - (R.off.getD fun _ => 0) r) ^ 2 := by
    have h1 := hb.2.2 0 (fun _ => 0) (fun _ => rfl) hzero
    rw [objective_loss_penalty, objective_loss_penalty] at h1
    have h2 : 0 ≤ penaltyOf p s C.P1a C.P2a a l1r b := by
      unfold penaltyOf
      have q1 : 0 ≤ ∑ j : Fin p, userP1 C.P1a j * |b j * s j| := Finset.sum_nonneg fun k _ => mul_nonneg (hC.p1 k) (abs_nonneg _)
      have q2 := hC.p2 fun k => b k * s k
      have q3 := mul_nonneg (mul_nonneg ha.le hC.l1.1) q1
      have q4 : 0 ≤ a * (1 - l1r) * (1 / 2 * ∑ j : Fin p, ∑ k : Fin p, userP2 C.P2a j k * (b j * s j) * (b k * s k)) :=
        mul_nonneg (mul_nonneg ha.le hl1.le) (mul_nonneg (by norm_num) (by simpa using q2))
      linarith
    have h3 : penaltyOf p s C.P1a C.P2a a l1r (fun _ => 0) = 0 := by unfold penaltyOf; simp
    have h4 : ∀ r, rowEta p R 0 (fun _ => 0) r = (R.off.getD fun _ => 0) r := fun r => by unfold rowEta; simp
    simp only [hloss, h4] at h1
    rw [h3] at h1
    linarith
  rw [← Real.sqrt_mul (Finset.sum_nonneg fun r _ => mul_nonneg (hC.sw r) (sq_nonneg _))]
  refine Real.abs_le_sqrt ?_
  simp only [hres]
  have cs := Finset.sum_mul_sq_le_sq_mul_sq Finset.univ (fun r => Real.sqrt (R.sw r) * (R.y r - rowEta p R b0 b r)) (fun r => Real.sqrt (R.sw r) * (R.X r i - R.X r j))
  have e0 : ∀ r, Real.sqrt (R.sw r) * (R.y r - rowEta p R b0 b r) * (Real.sqrt (R.sw r) * (R.X r i - R.X r j)) = R.sw r * (R.y r - rowEta p R b0 b r) * (R.X r i - R.X r j) := fun r => by
    have := Real.mul_self_sqrt (hC.sw r)
    calc _ = (Real.sqrt (R.sw r) * Real.sqrt (R.sw r)) * ((R.y r - rowEta p R b0 b r) * (R.X r i - R.X r j)) := by ring
      _ = _ := by rw [this]; ring
  simp only [e0, mul_pow, Real.sq_sqrt (hC.sw _)] at cs
  refine cs.trans (mul_le_mul_of_nonneg_right hopt (Finset.sum_nonneg fun r _ => mul_nonneg (hC.sw r) (sq_nonneg _)))

/-! ### The hypotheses are met -/

/-- The two equal columns of `twiceCfg` are exchangeable and separated by the default ridge penalty. -/
theorem twice_exchangeable (s : ℕ → ℝ) (h : s 0 = s 1) : Exchangeable 2 twiceCfg.P1a twiceCfg.P2a s twiceCfg.lb twiceCfg.ub (0 : Fin 2) (1 : Fin 2) ∧
    0 < ridgeGap twiceCfg.P2a (0 : Fin 2) (1 : Fin 2) ∧ EqualColumns tinyRows 0 1 := by
  refine ⟨⟨rfl, fun k l => ?_, h, (fun l hl => by cases hl), (fun l hl => by cases hl)⟩, ?_, fun r _ => rfl⟩
  · fin_cases k <;> fin_cases l <;> simp [twiceCfg, userP2]
  · norm_num [twiceCfg, userP2, ridgeGap]

theorem twice_regular (a : ℝ) (ha : 0 < a) : RegularFit twiceCfg tinyRows 0 a where
  weights := (tiny_regular a ha).weights
  alpha := ha
  mix := zero_lt_one
  posdef := fun v hv => by
    have : v 0 ≠ 0 ∨ v 1 ≠ 0 := by
      by_contra hc
      push Not at hc
      exact hv (funext fun k => by fin_cases k <;> simp [hc.1, hc.2])
    simp [twiceCfg, userP2, Fin.sum_univ_two]
    rcases this with h | h
    · nlinarith [mul_self_pos.2 h, mul_self_nonneg (v 1)]
    · nlinarith [mul_self_pos.2 h, mul_self_nonneg (v 0)]
  start := (tiny_regular a ha).start
  room := ⟨fun _ => 0, fun j _ => ⟨(fun l hl => by cases hl), (fun u hu => by cases hu)⟩⟩

/-- There are solutions to speak of. -/
example (a : ℝ) (ha : 0 < a) : ∃ (b0 : ℝ) (b : ℕ → ℝ), b 0 = b 1 ∧
    Solves 2 true twiceCfg.lb twiceCfg.ub (fitObjective 2 twiceCfg.e50 twiceCfg.family twiceCfg.link tinyRows (penScale twiceCfg.thr twiceCfg.asIfScaled fun _ => 1)
      twiceCfg.P1a twiceCfg.P2a a 0) b0 b := by
  obtain ⟨b0, b, hb, -⟩ := c90_unique_solution twiceCfg tinyRows 0 a twice_convex (twice_regular a ha) fun _ => 1
  obtain ⟨h1, h2, h3⟩ := twice_exchangeable (penScale twiceCfg.thr twiceCfg.asIfScaled fun _ => 1) rfl
  exact ⟨b0, b, c126_equal twiceCfg tinyRows _ a 0 ha ⟨le_rfl, zero_lt_one⟩ (fun k => by simp [twiceCfg, userP1]) 0 1 (by decide) h1 h3
    (penScale_ne _ twice_convex.thr _ _ _) h2 b0 b hb, hb⟩

/-- With a ridge penalty, however small, the slope is split evenly ... -/
example (a : ℝ) (ha : 0 < a) (b0 : ℝ) (b : ℕ → ℝ)
    (hb : Solves 2 true twiceCfg.lb twiceCfg.ub (fitObjective 2 twiceCfg.e50 twiceCfg.family twiceCfg.link tinyRows (fun _ => 1) twiceCfg.P1a twiceCfg.P2a a 0) b0 b) :
    b 0 = b 1 := by
  obtain ⟨h1, h2, h3⟩ := twice_exchangeable (fun _ => 1) rfl
  exact c126_equal twiceCfg tinyRows (fun _ => 1) a 0 ha ⟨le_rfl, zero_lt_one⟩ (fun k => by simp [twiceCfg, userP1]) 0 1 (by decide) h1 h3 one_ne_zero h2 b0 b hb

/-- ... and without one it need not be. -/
example (s : ℕ → ℝ) : ∃ b : ℕ → ℝ, b 0 ≠ b 1 ∧
    Solves 2 true twiceCfg.lb twiceCfg.ub (fitObjective 2 twiceCfg.e50 twiceCfg.family twiceCfg.link tinyRows s twiceCfg.P1a twiceCfg.P2a 0 0) 2 b :=
  ⟨_, by norm_num, twice_solves 1 s⟩

end Glum
