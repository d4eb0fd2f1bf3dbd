import Verif.Props.Offset
/-
C89: the order of the feature columns does not matter.
-/
set_option linter.unusedSectionVars false
set_option linter.unusedVariables false
set_option linter.unusedSimpArgs false

namespace Glum
open Spec

noncomputable section

variable {n p : ℕ} {ic : Bool}

/-- The columns in another order: column `j` of the new matrix is column `perm j` of the old one. -/
def Spec.reorder (perm : ℕ ≃ ℕ) (R : Rows n) : Rows n := { X := fun i j => R.X i (perm j), y := R.y, sw := R.sw, off := R.off }

/-- The estimators pose the same problem for the columns in the two orders: same family, link and scaling; penalty weights and bounds go with their
columns. They may differ in solver, start, tolerances and so on. -/
structure Spec.ReorderedProblem (perm : ℕ ≃ ℕ) (C C' : FitCfg p ic) : Prop where
  family : C'.family = C.family
  link : C'.link = C.link
  e50 : C'.e50 = C.e50
  thr : C'.thr = C.thr
  scaled : C'.asIfScaled = C.asIfScaled
  P1 : ∀ j, userP1 C'.P1a j = userP1 C.P1a (perm j)
  P2 : ∀ j k, userP2 C'.P2a j k = userP2 C.P2a (perm j) (perm k)
  lb : C'.lb = C.lb.map fun l j => l (perm j)
  ub : C'.ub = C.ub.map fun u j => u (perm j)

/-- Only the columns are moved: `perm` permutes `0, …, p-1`. -/
def Spec.PermutesColumns (p : ℕ) (perm : ℕ ≃ ℕ) : Prop := ∀ j, perm j < p ↔ j < p

def permFin (perm : ℕ ≃ ℕ) (hp : PermutesColumns p perm) : Fin p ≃ Fin p where
  toFun j := ⟨perm j, (hp j).2 j.isLt⟩
  invFun j := ⟨perm.symm j, (hp _).1 (by rw [perm.apply_symm_apply]; exact j.isLt)⟩
  left_inv j := by ext; simp
  right_inv j := by ext; simp

theorem sum_reorder (perm : ℕ ≃ ℕ) (hp : PermutesColumns p perm) (f : ℕ → ℝ) : ∑ j : Fin p, f (perm j) = ∑ j : Fin p, f j :=
  (permFin perm hp).sum_comp fun j : Fin p => f j

theorem sum_reorder_symm (perm : ℕ ≃ ℕ) (hp : PermutesColumns p perm) (f : ℕ → ℕ → ℝ) : ∑ j : Fin p, f (perm j) j = ∑ j : Fin p, f j (perm.symm j) := by
  have := sum_reorder perm hp fun j => f j (perm.symm j)
  simpa using this

/-- **C89, the objective**: the documented objective of the reordered columns at the reordered coefficients. -/
theorem c89_objective (perm : ℕ ≃ ℕ) (hp : PermutesColumns p perm) (e50 : ℝ) (f : Family) (l : Link) (R : Rows n) (s : ℕ → ℝ) (P1a P1a' : P1Arg) (P2a P2a' : P2Arg)
    (h1 : ∀ j, userP1 P1a' j = userP1 P1a (perm j)) (h2 : ∀ j k, userP2 P2a' j k = userP2 P2a (perm j) (perm k)) (alpha l1r b0 : ℝ) (b : ℕ → ℝ) :
    fitObjective p e50 f l (reorder perm R) (fun j => s (perm j)) P1a' P2a' alpha l1r b0 (fun j => b (perm j))
      = fitObjective p e50 f l R s P1a P2a alpha l1r b0 b := by
  unfold fitObjective
  have e1 : ∀ i, ∑ j : Fin p, (reorder perm R).X i j * b (perm j) = ∑ j : Fin p, R.X i j * b j := fun i => sum_reorder perm hp fun j => R.X i j * b j
  have e2 : ∑ j : Fin p, userP1 P1a' j * |b (perm j) * s (perm j)| = ∑ j : Fin p, userP1 P1a j * |b j * s j| := by
    simp only [h1]
    exact sum_reorder perm hp fun j => userP1 P1a j * |b j * s j|
  have e3 : ∑ j : Fin p, ∑ k : Fin p, userP2 P2a' j k * (b (perm j) * s (perm j)) * (b (perm k) * s (perm k))
      = ∑ j : Fin p, ∑ k : Fin p, userP2 P2a j k * (b j * s j) * (b k * s k) := by
    simp only [h2]
    rw [← sum_reorder perm hp fun j => ∑ k : Fin p, userP2 P2a j k * (b j * s j) * (b k * s k)]
    exact Finset.sum_congr rfl fun j _ => sum_reorder perm hp fun k => userP2 P2a (perm j) k * (b (perm j) * s (perm j)) * (b k * s k)
  simp only [e1, e2, e3]
  rfl

theorem stats_reorder (stats : Stats) (hst : TrueStats stats) (perm : ℕ ≃ ℕ) (R : Rows n) :
    (stats n (reorder perm R).X (reorder perm R).sw).1 = (fun j => (stats n R.X R.sw).1 (perm j)) ∧
    (stats n (reorder perm R).X (reorder perm R).sw).2 = fun j => (stats n R.X R.sw).2 (perm j) := by
  constructor
  · funext j; rw [(hst _ _ _ j).1, (hst _ _ _ (perm j)).1]; rfl
  · funext j; rw [(hst _ _ _ j).2, (hst _ _ _ (perm j)).2]; rfl

/-- **C89.** Fit the columns in two orders (penalty weights and bounds going with the columns), with IRLS solvers that may differ in everything else; if
neither fit raised a `ConvergenceWarning`, then at equal alpha the same column has the same coefficient up to the tolerances, whatever its position. -/
theorem c89_reordered_fits_agree (perm : ℕ ≃ ℕ) (hp : PermutesColumns p perm) (next next' : (ℕ → BitVec 32) → ℕ → (ℕ → BitVec 32))
    (inner inner' : (ℕ → BitVec 32) → (m : ℕ) → Inner m p ic) (C C' : FitCfg p ic) (hC : ReorderedProblem perm C C') (stats : Stats) (hst : TrueStats stats) (R : Rows n)
    (l1r : ℝ) (h : ConvexFit C R l1r) (hstep : C.stepTol = none) (hstep' : C'.stepTol = none) (hg : 0 ≤ C.gradTol) (hg' : 0 ≤ C'.gradTol)
    (sp sp' : AlphaSpec) (s t s' t' : SolverLog) (r r' : PathResult)
    (hfit : glmFit C stats (irlsSolver next inner) R l1r sp s = some (t, r)) (ha : ∀ x ∈ r.alphas, 0 ≤ x) (hw : t.convWarn = s.convWarn)
    (hfit' : glmFit C' stats (irlsSolver next' inner') (reorder perm R) l1r sp' s' = some (t', r')) (ha' : ∀ x ∈ r'.alphas, 0 ≤ x)
    (hw' : t'.convWarn = s'.convWarn)
    (i i' : ℕ) (hi : i < r.alphas.length) (hc : i < r.coefPath.length) (hb : i < r.interceptPath.length)
    (hi' : i' < r'.alphas.length) (hc' : i' < r'.coefPath.length) (hb' : i' < r'.interceptPath.length)
    (hsame : r'.alphas[i'] = r.alphas[i])
    (hin : WithinBounds p C.lb C.ub r.coefPath[i]) (hin' : WithinBounds p C'.lb C'.ub r'.coefPath[i']) (mu : ℝ) (hmu : 0 < mu)
    (hcurv : Curvature p ic C.thr (stats n R.X R.sw).1 (stats n R.X R.sw).2 mu
      (fitObjective p C.e50 C.family C.link R (penScale C.thr C.asIfScaled (stats n R.X R.sw).2) C.P1a C.P2a r.alphas[i] l1r)) :
    StdClose p ic C.thr (stats n R.X R.sw).1 (stats n R.X R.sw).2 (2 * (C.gradTol + C'.gradTol) / mu)
      r.interceptPath[i] r.coefPath[i] r'.interceptPath[i'] (fun j => r'.coefPath[i'] (perm.symm j)) := by
  obtain ⟨hme, hsd⟩ := stats_reorder stats hst perm R
  have hs : ∀ j, 0 ≤ (stats n R.X R.sw).2 j := fun j => by rw [(hst n R.X R.sw j).2]; exact Real.sqrt_nonneg _
  have hs' : ∀ j, 0 ≤ (stats n (reorder perm R).X (reorder perm R).sw).2 j := fun j => by rw [hsd]; exact hs _
  have hlt : ∀ j, perm.symm j < p ↔ j < p := fun j => by have := hp (perm.symm j); rw [perm.apply_symm_apply] at this; exact this.symm
  have h' : ConvexFit C' (reorder perm R) l1r := by
    refine ⟨hC.thr ▸ h.thr, hC.family ▸ h.valid, ?_, ?_, h.sw, ?_, ?_, h.l1⟩
    · rw [hC.family, hC.link]; exact h.pair
    · rw [hC.family]; exact h.y
    · intro j; rw [hC.P1]; exact h.p1 _
    · intro v
      have := h.p2 fun j => v ((permFin perm hp).symm j)
      rw [← (permFin perm hp).sum_comp] at this
      refine this.trans_eq (Finset.sum_congr rfl fun j _ => ?_)
      rw [← (permFin perm hp).sum_comp]
      refine Finset.sum_congr rfl fun k _ => ?_
      rw [Equiv.symm_apply_apply, Equiv.symm_apply_apply, hC.P2]
      rfl
  obtain ⟨-, -, -, -, hopt⟩ := c75_no_warning_near_optimal next inner C stats R l1r h hs hstep sp s t r hfit ha hw
  obtain ⟨-, -, -, -, hopt'⟩ := c75_no_warning_near_optimal next' inner' C' stats (reorder perm R) l1r h' hs' hstep' sp' s' t' r' hfit' ha' hw'
  have hbd : WithinBounds p C.lb C.ub fun j => r'.coefPath[i'] (perm.symm j) := by
    intro j hj
    have := hin' (perm.symm j) ((hlt j).2 hj)
    rw [hC.lb, hC.ub] at this
    refine ⟨fun l hl => ?_, fun u hu => ?_⟩
    · have := this.1 _ (by rw [hl]; rfl)
      simpa using this
    · have := this.2 _ (by rw [hu]; rfl)
      simpa using this
  refine near_agree C.thr _ _ C.lb C.ub _ _ _ mu hg hg' hmu _ _ _ _ (fun hf => ⟨rows_intercept_zero next inner C stats R l1r h hs hstep sp s t r hfit ha hw i hi hc hb hf,
    rows_intercept_zero next' inner' C' stats (reorder perm R) l1r h' hs' hstep' sp' s' t' r' hfit' ha' hw' i' hi' hc' hb' hf⟩) hin hbd (hopt i hi hc hb) ?_ hcurv
  intro x0 x hx0 hx B hB hcl
  have hx' : WithinBounds p C'.lb C'.ub fun j => x (perm j) := by
    intro j hj
    have := hx (perm j) ((hp j).2 hj)
    rw [hC.lb, hC.ub]
    refine ⟨fun l hl => ?_, fun u hu => ?_⟩
    · obtain ⟨l0, h0, rfl⟩ := Option.map_eq_some_iff.1 hl
      exact this.1 l0 h0
    · obtain ⟨u0, h0, rfl⟩ := Option.map_eq_some_iff.1 hu
      exact this.2 u0 h0
  have hcl' : StdClose p ic C'.thr (stats n (reorder perm R).X (reorder perm R).sw).1 (stats n (reorder perm R).X (reorder perm R).sw).2 B x0 (fun j => x (perm j))
      r'.interceptPath[i'] r'.coefPath[i'] := by
    rw [hC.thr, hme, hsd]
    refine ⟨fun j hj => ?_, fun ht => ?_⟩
    · have := hcl.1 (perm j) ((hp j).2 hj)
      simpa [colScale] using this
    · have := hcl.2 ht
      have e1 : ∑ j : Fin p, (stats n R.X R.sw).1 (perm j) * x (perm j) = ∑ j : Fin p, (stats n R.X R.sw).1 j * x j :=
        sum_reorder perm hp fun j => (stats n R.X R.sw).1 j * x j
      have e2 : ∑ j : Fin p, (stats n R.X R.sw).1 (perm j) * r'.coefPath[i'] j = ∑ j : Fin p, (stats n R.X R.sw).1 j * r'.coefPath[i'] (perm.symm j) :=
        sum_reorder_symm perm hp fun j k => (stats n R.X R.sw).1 j * r'.coefPath[i'] k
      rw [e1, e2]
      exact this
  have := hopt' i' hi' hc' hb' x0 (fun j => x (perm j)) hx0 hx' B hB hcl'
  rw [hC.e50, hC.family, hC.link, hC.thr, hC.scaled, hsd, hsame] at this
  have hps : (penScale C.thr C.asIfScaled fun j => (stats n R.X R.sw).2 (perm j)) = fun j => penScale C.thr C.asIfScaled (stats n R.X R.sw).2 (perm j) := rfl
  have hcoef : r'.coefPath[i'] = fun j => (fun j => r'.coefPath[i'] (perm.symm j)) (perm j) := by funext j; simp
  rw [hps, c89_objective perm hp _ _ _ R _ C.P1a C'.P1a C.P2a C'.P2a hC.P1 hC.P2] at this
  have e := c89_objective (n := n) perm hp C.e50 C.family C.link R (penScale C.thr C.asIfScaled (stats n R.X R.sw).2) C.P1a C'.P1a C.P2a C'.P2a hC.P1 hC.P2 r.alphas[i] l1r
    r'.interceptPath[i'] fun j => r'.coefPath[i'] (perm.symm j)
  beta_reduce at e
  rw [← hcoef] at e
  rw [← e]
  exact this

/-! ### A concrete case: two columns exchanged, with different ridge weights -/

/-- Two rows, two indicator columns. -/
def duoRows : Rows 2 := { X := fun i j => if i.val = j then 1 else 0, y := fun i => if i = 0 then 3 else 1, sw := fun _ => 1 / 2, off := none }

/-- Ridge regression without intercept; the column that is `0` in the original order has weight 1, the other one weight 2. -/
def duoCfg (perm : ℕ ≃ ℕ) : FitCfg 2 false where
  family := .normal
  link := .identity
  e50 := 0
  thr := 1 / 10 ^ 6
  asIfScaled := false
  xsp := false
  P1a := .none
  P2a := .vec 2 fun j => if perm j = 0 then 1 else 2
  lb := none
  ub := none
  A := none
  start := .cold
  p2ok := fun _ => true
  maxIter := 5
  maxInnerIter := 5
  gradTol := 1 / 10000
  stepTol := none
  hessApprox := 0
  fixedInnerTol := none
  random := false
  eps := 1 / 10 ^ 16
  large := 10 ^ 43

theorem duo_convex (perm : ℕ ≃ ℕ) : ConvexFit (duoCfg perm) (reorder perm duoRows) 0 where
  thr := by norm_num [duoCfg]
  valid := by trivial
  pair := ⟨.normalIdentity, rfl, by simp⟩
  y := fun i => by trivial
  sw := fun i => by norm_num [duoRows, reorder]
  p1 := fun j => by simp [duoCfg, userP1]
  p2 := fun v => by
    refine Finset.sum_nonneg fun j _ => Finset.sum_nonneg fun k _ => ?_
    simp only [duoCfg, userP2]
    by_cases h : j = k
    · subst h
      rw [if_pos rfl, mul_assoc]
      exact mul_nonneg (by split <;> norm_num) (mul_self_nonneg _)
    · rw [if_neg (fun e => h (Fin.ext e))]; simp
  l1 := ⟨le_rfl, zero_le_one⟩

theorem duo_ls (perm : ℕ ≃ ℕ) (hp : PermutesColumns 2 perm) (next : (ℕ → BitVec 32) → ℕ → (ℕ → BitVec 32)) (s : SolverLog) :
    ∃ t r, glmFit ((duoCfg perm).forSolver .irlsLs) trueStats (irlsSolver next fun _ _ => lsInner invSolve) (reorder perm duoRows) 0 (.single 1) s = some (t, r) ∧
      t.convWarn = s.convWarn := by
  have hP : ∃ Q, prepare ((duoCfg perm).forSolver .irlsLs) trueStats (reorder perm duoRows) 0 = some Q := ⟨_, rfl⟩
  obtain ⟨Q, hQ⟩ := hP
  obtain ⟨r, hr, -⟩ := glmFit_single ((duoCfg perm).forSolver .irlsLs) trueStats (irlsSolver next fun _ _ => lsInner invSolve) (reorder perm duoRows) 0 1 s Q hQ
    (by rintro ⟨l, u, h, -⟩; cases h) (fun _ => rfl)
  refine ⟨_, r, hr, ?_⟩
  have hrow : ∀ (b : ℕ → ℝ) (i : Fin 2), ∑ j : Fin 2, (reorder perm duoRows).X i j * b j = b (perm.symm i) := by
    intro b i
    have h1 : ∑ j : Fin 2, (reorder perm duoRows).X i j * b j = ∑ j : Fin 2, (if i.val = j.val then 1 else 0) * b (perm.symm j) :=
      sum_reorder_symm perm hp fun j k => (if i.val = j then 1 else 0) * b k
    rw [h1]
    fin_cases i <;> simp
  have hlt : ∀ j, perm.symm j < 2 ↔ j < 2 := fun j => by have := hp (perm.symm j); rw [perm.apply_symm_apply] at this; exact this.symm
  refine (c76_fit_ls next invSolve invSolve_spec (duoCfg perm) trueStats (reorder perm duoRows) 0 (duo_convex perm) rfl rfl (fun _ => Real.sqrt_nonneg _)
    (by simp [duoRows, reorder]) rfl rfl rfl (by norm_num [duoCfg]) (by norm_num [duoCfg]) (fun j => zero_mul _) 1 zero_le_one ?_ ?_ s _ r hr).1
  · intro b0 b h0 h _
    rw [h0 rfl] at h ⊢
    refine ⟨rfl, fun j hj => ?_⟩
    have := h ⟨perm j, (hp j).2 hj⟩
    rw [hrow] at this
    simpa [reorder, duoRows] using this
  · intro b0 b h i
    have ht : ∀ e, trueMean 0 .normal .identity e = e := fun _ => rfl
    have hd : ∀ y m, Family.unitDeviance .normal y m = (y - m) ^ 2 := fun _ _ => rfl
    have hpen : ∀ v : ℕ → ℝ, 0 ≤ ∑ j : Fin 2, ∑ k : Fin 2, userP2 (duoCfg perm).P2a j k * v j * v k := fun v => (duo_convex perm).p2 fun j => v j
    have hps : ∀ j, penScale (duoCfg perm).thr (duoCfg perm).asIfScaled (trueStats 2 (reorder perm duoRows).X (reorder perm duoRows).sw).2 j = 1 := fun j => rfl
    have h' : fitObjective 2 0 .normal .identity (reorder perm duoRows) (fun _ => 1) .none (duoCfg perm).P2a 1 0 b0 b
        ≤ fitObjective 2 0 .normal .identity (reorder perm duoRows) (fun _ => 1) .none (duoCfg perm).P2a 1 0 0 (fun _ => 0) := h
    unfold fitObjective at h'
    have hb := hpen fun j => b j * 1
    simp only [hrow, ht, hd, one_mul, zero_mul, add_zero, sub_zero, mul_zero, Finset.sum_const_zero, Fin.sum_univ_two (M := ℝ)] at h'
    simp only [hrow]
    simp only [Fin.sum_univ_two] at hb
    have h2 : 1 / 2 * (1 / 2 * (3 - (b (perm.symm (0 : Fin 2).val) + b0 + 0)) ^ 2 + 1 / 2 * (1 - (b (perm.symm (1 : Fin 2).val) + b0 + 0)) ^ 2) ≤ 1 / 2 * (1 / 2 * (3 - (0 + 0)) ^ 2 + 1 / 2 * (1 - (0 + 0)) ^ 2 : ℝ) :=
      le_trans (le_add_of_nonneg_right (mul_nonneg (by norm_num) hb)) h'
    show b (perm.symm i.val) + b0 + 0 < (10 : ℝ) ^ 43
    refine lt_of_le_of_lt (b := 10) ?_ (by norm_num)
    fin_cases i
    · show b (perm.symm (0 : Fin 2).val) + b0 + 0 ≤ 10
      nlinarith [sq_nonneg (1 - (b (perm.symm (1 : Fin 2).val) + b0 + 0))]
    · show b (perm.symm (1 : Fin 2).val) + b0 + 0 ≤ 10
      nlinarith [sq_nonneg (3 - (b (perm.symm (0 : Fin 2).val) + b0 + 0))]

theorem duo_swap : PermutesColumns 2 (Equiv.swap 0 1) := by
  intro j
  rcases Nat.lt_or_ge j 2 with h | h
  · interval_cases j <;> simp
  · rw [Equiv.swap_apply_of_ne_of_ne (by omega) (by omega)]

theorem duo_p2 (perm : ℕ ≃ ℕ) (j k : ℕ) : userP2 (duoCfg perm).P2a j k = userP2 (duoCfg (Equiv.refl ℕ)).P2a (perm j) (perm k) := by
  simp only [duoCfg, userP2]
  by_cases h : j = k
  · subst h
    rw [if_pos rfl, if_pos rfl]
    rfl
  · rw [if_neg h, if_neg fun e => h (perm.injective e)]

/-- The two columns exchanged: both fits converge and the coefficient of the first column is the second coefficient of the other fit, up to 0.0008. -/
example (next next' : (ℕ → BitVec 32) → ℕ → (ℕ → BitVec 32)) (s s' : SolverLog) :
    ∃ t r t' r', glmFit ((duoCfg (Equiv.refl ℕ)).forSolver .irlsLs) trueStats (irlsSolver next fun _ _ => lsInner invSolve) duoRows 0 (.single 1) s = some (t, r) ∧
      glmFit ((duoCfg (Equiv.swap 0 1)).forSolver .irlsLs) trueStats (irlsSolver next' fun _ _ => lsInner invSolve) (reorder (Equiv.swap 0 1) duoRows) 0 (.single 1) s' = some (t', r') ∧
      ∀ (hc : 0 < r.coefPath.length) (hb : 0 < r.interceptPath.length) (hc' : 0 < r'.coefPath.length) (hb' : 0 < r'.interceptPath.length),
        |r.coefPath[0] 0 - r'.coefPath[0] 1| ≤ 8 / 10000 := by
  obtain ⟨t, r, h, hw⟩ := duo_ls (Equiv.refl ℕ) (fun _ => Iff.rfl) next s
  obtain ⟨t', r', h', hw'⟩ := duo_ls (Equiv.swap 0 1) duo_swap next' s'
  have hal : r.alphas = [1] := by
    obtain ⟨Q, -, hal, -⟩ := glmFit_spec _ _ _ _ _ _ _ _ _ h
    simpa [AlphaSpec.eval] using hal.symm
  have hal' : r'.alphas = [1] := by
    obtain ⟨Q, -, hal, -⟩ := glmFit_spec _ _ _ _ _ _ _ _ _ h'
    simpa [AlphaSpec.eval] using hal.symm
  refine ⟨t, r, t', r', h, h', fun hc hb hc' hb' => ?_⟩
  have hcv : ConvexFit ((duoCfg (Equiv.refl ℕ)).forSolver .irlsLs) duoRows 0 := by
    have := duo_convex (Equiv.refl ℕ)
    exact ⟨this.thr, this.valid, this.pair, this.y, this.sw, this.p1, this.p2, this.l1⟩
  have he : r.alphas[0]'(by rw [hal]; simp) = 1 := by simp [hal]
  have hstd : ∀ j < 2, (trueStats 2 duoRows.X duoRows.sw).2 j = 1 / 2 := by
    intro j hj
    have h4 : Real.sqrt 4 = 2 := by rw [show (4 : ℝ) = 2 ^ 2 by norm_num, Real.sqrt_sq (by norm_num)]
    simp only [trueStats, duoRows, Fin.sum_univ_two]
    interval_cases j
    · norm_num
      rw [h4]; norm_num
    · norm_num
      rw [h4]; norm_num
  have hcs : ∀ j < 2, colScale ((duoCfg (Equiv.refl ℕ)).forSolver .irlsLs).thr (trueStats 2 duoRows.X duoRows.sw).2 j = 1 / 2 := by
    intro j hj
    unfold colScale
    rw [hstd j hj, if_neg (by norm_num [duoCfg, FitCfg.forSolver])]
  have hcurv := c78_curvature_ridge ((duoCfg (Equiv.refl ℕ)).forSolver .irlsLs) duoRows 0 hcv (trueStats 2 duoRows.X duoRows.sw).1 (trueStats 2 duoRows.X duoRows.sw).2 1 zero_le_one 1 1
    zero_le_one one_pos (by
      intro v
      simp [Fin.sum_univ_two, duoCfg, FitCfg.forSolver, userP2]
      nlinarith [sq_nonneg (v 1)]) (by
      intro j hj
      rw [hcs j hj]
      have : penScale ((duoCfg (Equiv.refl ℕ)).forSolver .irlsLs).thr ((duoCfg (Equiv.refl ℕ)).forSolver .irlsLs).asIfScaled (trueStats 2 duoRows.X duoRows.sw).2 j = 1 := rfl
      rw [this]; norm_num)
  have key := (c89_reordered_fits_agree (Equiv.swap 0 1) duo_swap next next' (fun _ _ => lsInner invSolve) (fun _ _ => lsInner invSolve) ((duoCfg (Equiv.refl ℕ)).forSolver .irlsLs)
    ((duoCfg (Equiv.swap 0 1)).forSolver .irlsLs)
    ⟨rfl, rfl, rfl, rfl, rfl, fun _ => rfl, duo_p2 _, rfl, rfl⟩
    trueStats (fun _ _ _ _ => ⟨rfl, rfl⟩) duoRows 0 hcv rfl rfl (by norm_num [duoCfg, FitCfg.forSolver]) (by norm_num [duoCfg, FitCfg.forSolver]) (.single 1) (.single 1) s t s' t' r r' h
    (by rw [hal]; simp) hw h' (by rw [hal']; simp) hw' 0 0 (by rw [hal]; simp) hc hb (by rw [hal']; simp) hc' hb' (by simp [hal, hal'])
    (by intro j _; exact ⟨(by intro l h; cases h), (by intro l h; cases h)⟩) (by intro j _; exact ⟨(by intro l h; cases h), (by intro l h; cases h)⟩)
    (1 * (1 - 0) * 1 / 1 ^ 2) (by norm_num) (by rw [he]; exact hcurv)).1 0 (by norm_num)
  rw [hcs 0 (by norm_num)] at key
  simp only [Equiv.symm_swap, Equiv.swap_apply_left] at key
  have hb2 : 2 * (((duoCfg (Equiv.refl ℕ)).forSolver .irlsLs).gradTol + ((duoCfg (Equiv.swap 0 1)).forSolver .irlsLs).gradTol) / (1 * (1 - 0) * 1 / 1 ^ 2) = 4 / 10000 := by
    norm_num [duoCfg, FitCfg.forSolver]
  rw [hb2] at key
  linarith

end

end Glum
