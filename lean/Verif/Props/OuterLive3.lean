import Verif.Props.OuterLive2
import Verif.Props.OneStepFit
/-
C85, third part: bounded level sets, built-in families, examples.
-/
set_option linter.unusedSectionVars false
set_option linter.unusedVariables false
set_option linter.unusedSimpArgs false

namespace Glum
open Spec

variable {n p : ℕ} {ic : Bool}

theorem visited_rows_pos (inner : Inner n p ic) (D : IRLSData n p ic) (hP : ∀ k, 0 ≤ D.P1 k) (hpos : ∀ r eta, 0 < D.fam.hess (D.y r) (D.sw r) eta (D.fam.inv eta))
    (coef0 : Fin (p + ic.toNat) → ℝ) (st : IRLSState n p ic) (h : Visited inner D coef0 st) (r : Fin n) : 0 < (innerState D st).hs.rows r := by
  have key : ∀ st, Visited inner D coef0 st → 0 < st.hs.rows r := fun st h => by
    rw [(c29_state_in_sync inner D hP coef0 st h).2.2.2.2 r]
    exact hpos r _
  have upd : ∀ hs : HessState ℝ n (p + ic.toNat), ∀ A, 0 < hs.rows r → (hs.init = true → 0 < hs.oldRows r) →
      0 < (updateHessian ic D.X D.P2 D.hessApprox hs A).rows r := by
    intro hs A h1 h2
    by_cases hi : hs.init = true
    · rcases updateHessian_rows ic D.X D.P2 D.hessApprox hs A r with e | e <;> rw [e]
      · exact h1
      · exact h2 hi
    · unfold updateHessian
      rw [if_pos (Or.inl hi)]
      exact h1
  have main : 0 < st.hs.rows r ∧ (st.hs.init = true → 0 < st.hs.oldRows r) := by
    induction h with
    | init =>
      refine ⟨key _ Visited.init, fun h => ?_⟩
      exact absurd h (by show ¬ (false = true); simp)
    | step st hv hn hc ih =>
      exact ⟨key _ (Visited.step st hv hn hc), fun _ => upd st.hs (identifyActiveSet D st) ih.1 ih.2⟩
  exact upd st.hs (identifyActiveSet D st) main.1 main.2

/-- No two coefficient vectors give the same linear predictor and the same L2 penalty gradient. -/
def Spec.Identified (D : IRLSData n p ic) : Prop :=
  ∀ v : Fin (p + ic.toNat) → ℝ, (∀ r, ∑ k, design ic D.X r k * v k = 0) → ∑ i, ∑ j, p2Full ic D.P2 i j * v i * v j = 0 → ∀ j, v j = 0

/-- With positive rows and an identified model the linear system of every iteration is regular, so that an exact solver solves it. -/
theorem ls_solved (solve : (Fin (p + ic.toNat) → Fin (p + ic.toNat) → ℝ) → (Fin (p + ic.toNat) → ℝ) → (Fin (p + ic.toNat) → ℝ))
    (hsolve : ∀ (H : Fin (p + ic.toNat) → Fin (p + ic.toNat) → ℝ) s, (∀ v : Fin (p + ic.toNat) → ℝ, (∀ i, ∑ j, H i j * v j = 0) → ∀ j, v j = 0) →
      ∀ k, ∑ j, H k j * solve H s j = s k)
    (D : IRLSData n p ic) (hD : Convexish D) (hP : ∀ k, D.P1 k = 0)
    (hpos : ∀ r eta, 0 < D.fam.hess (D.y r) (D.sw r) eta (D.fam.inv eta)) (hid : Identified D)
    (coef0 : Fin (p + ic.toNat) → ℝ) (st : IRLSState n p ic) (h : Visited (lsInner solve) D coef0 st) (k : Fin (p + ic.toNat)) :
    ∑ j, (innerState D st).hs.H k j * solve (innerState D st).hs.H st.score j = st.score k := by
  refine hsolve _ _ (fun v hv => ?_) k
  have hrow := visited_rows_pos (lsInner solve) D hD.P1 hpos coef0 st h
  have hz : ∑ i, ∑ j, fullHessian ic D.X (innerState D st).hs.rows D.P2 i j * v i * v j = 0 := by
    have : ∀ i, ∑ j, fullHessian ic D.X (innerState D st).hs.rows D.P2 i j * v i * v j = v i * ∑ j, (innerState D st).hs.H i j * v j := by
      intro i
      rw [Finset.mul_sum]
      refine Finset.sum_congr rfl fun j _ => ?_
      rw [smooth_hessian _ D hD hP coef0 st h]; ring
    simp only [this, hv, mul_zero, Finset.sum_const_zero]
  rw [fullHessian_form] at hz
  have h1 : 0 ≤ ∑ r, (innerState D st).hs.rows r * (∑ i, design ic D.X r i * v i) ^ 2 :=
    Finset.sum_nonneg fun r _ => mul_nonneg (hrow r).le (sq_nonneg _)
  have h2 := hD.psd v
  refine hid v (fun r => ?_) (by linarith)
  have h0 : ∑ r, (innerState D st).hs.rows r * (∑ i, design ic D.X r i * v i) ^ 2 = 0 := by linarith
  have := (Finset.sum_eq_zero_iff_of_nonneg (fun r _ => mul_nonneg (hrow r).le (sq_nonneg _))).1 h0 r (Finset.mem_univ r)
  have := (mul_eq_zero.1 this).resolve_left (hrow r).ne'
  exact pow_eq_zero_iff (two_ne_zero) |>.1 this

theorem curvature_exists {m : ℕ} (Q : Fin m → Fin m → ℝ) : ∃ Lam, 0 < Lam ∧ CurvatureAtMost Lam Q := by
  have hQ : 0 ≤ ∑ s, ∑ t, |Q s t| := Finset.sum_nonneg fun s _ => Finset.sum_nonneg fun t _ => abs_nonneg _
  refine ⟨∑ s, ∑ t, |Q s t| + 1, by linarith, fun d => ?_⟩
  have hn : ∀ s, d s ^ 2 ≤ ∑ s, d s ^ 2 := fun s => Finset.single_le_sum (f := fun s => d s ^ 2) (fun s _ => sq_nonneg _) (Finset.mem_univ s)
  have h0 : 0 ≤ ∑ s, d s ^ 2 := Finset.sum_nonneg fun s _ => sq_nonneg _
  have : ∑ s, ∑ t, Q s t * d s * d t ≤ ∑ s, ∑ t, |Q s t| * ∑ s, d s ^ 2 := by
    refine Finset.sum_le_sum fun s _ => Finset.sum_le_sum fun t _ => ?_
    have h1 : |d s * d t| ≤ ∑ s, d s ^ 2 := by
      rw [abs_mul]
      nlinarith [hn s, hn t, sq_abs (d s), sq_abs (d t), sq_nonneg (|d s| - |d t|)]
    calc Q s t * d s * d t = Q s t * (d s * d t) := by ring
      _ ≤ |Q s t * (d s * d t)| := le_abs_self _
      _ = |Q s t| * |d s * d t| := abs_mul _ _
      _ ≤ _ := mul_le_mul_of_nonneg_left h1 (abs_nonneg _)
  refine this.trans ?_
  simp only [← Finset.sum_mul]
  linarith

/-- **C85, bounded level sets.** Any family whose deviance and Hessian rows are continuous in the linear predictor, an identified model, and a start whose level set has
bounded linear predictors: for all sufficiently large `max_iter` the `irls-ls` fit converges, or some iteration warned in its line search or changed the
objective by no more than round-off. -/
theorem c85_bounded_level (solve : (Fin (p + ic.toNat) → Fin (p + ic.toNat) → ℝ) → (Fin (p + ic.toNat) → ℝ) → (Fin (p + ic.toNat) → ℝ))
    (hsolve : ∀ (H : Fin (p + ic.toNat) → Fin (p + ic.toNat) → ℝ) s, (∀ v : Fin (p + ic.toNat) → ℝ, (∀ i, ∑ j, H i j * v j = 0) → ∀ j, v j = 0) →
      ∀ k, ∑ j, H k j * solve H s j = s k)
    (D : IRLSData n p ic) (hD : Convexish D) (hP : ∀ k, D.P1 k = 0) (hlb : D.lb = none) (hub : D.ub = none) (hg : 0 < D.gradTol)
    (hsw : ∀ r, 0 ≤ D.sw r) (hpos : ∀ r eta, 0 < D.fam.hess (D.y r) (D.sw r) eta (D.fam.inv eta)) (hid : Identified D)
    (hc1 : ∀ r, Continuous fun eta => D.fam.hess (D.y r) (D.sw r) eta (D.fam.inv eta)) (hc2 : ∀ r, Continuous fun eta => D.fam.dev (D.y r) eta)
    (coef0 : Fin (p + ic.toNat) → ℝ) (R : ℝ) (hR : ∀ w, objective D w ≤ objective D coef0 → ∀ r, |linPred ic D.X (off D) w r| ≤ R) :
    ∃ N, ∀ M ≥ N, (irlsRun (lsInner solve) ({ D with maxIter := M } : IRLSData n p ic) coef0).diagnostics.IsChain (Progress D.eps) →
      (irlsRun (lsInner solve) ({ D with maxIter := M } : IRLSData n p ic) coef0).converged = true := by
  wlog hR0 : 0 ≤ R generalizing R
  · exact this |R| (fun w h r => (hR w h r).trans (le_abs_self R)) (abs_nonneg R)
  have hup : ∀ r, ∃ B, ∀ eta, |eta| ≤ R → D.fam.hess (D.y r) (D.sw r) eta (D.fam.inv eta) ≤ B := fun r => by
    obtain ⟨x, hx, hmax⟩ := isCompact_Icc.exists_isMaxOn (Set.nonempty_Icc.2 (show -R ≤ R by linarith)) (hc1 r).continuousOn
    exact ⟨_, fun eta h => hmax (abs_le.1 h)⟩
  have hlo : ∀ r, ∃ b, ∀ eta, |eta| ≤ R → b ≤ D.fam.dev (D.y r) eta := fun r => by
    obtain ⟨x, hx, hmin⟩ := isCompact_Icc.exists_isMinOn (Set.nonempty_Icc.2 (show -R ≤ R by linarith)) (hc2 r).continuousOn
    exact ⟨_, fun eta h => hmin (abs_le.1 h)⟩
  choose B hB using hup
  choose b hb using hlo
  obtain ⟨Lam, hL0, hL⟩ := curvature_exists (fullHessian (p := p) ic D.X B D.P2)
  set low := min (objective D coef0) (1 / 2 * ∑ r, D.sw r * b r) with hlow
  have hlow' : ∀ w, low ≤ objective D w := by
    intro w
    rcases le_or_gt (objective D w) (objective D coef0) with h | h
    · refine (min_le_right _ _).trans ?_
      rw [objective_smooth D hP]
      unfold smoothObj ridge
      have h1 : ∑ r, D.sw r * b r ≤ ∑ r, D.sw r * D.fam.dev (D.y r) (linPred ic D.X (off D) w r) :=
        Finset.sum_le_sum fun r _ => mul_le_mul_of_nonneg_left (hb r _ (hR w h r)) (hsw r)
      have h2 := hD.psd w
      linarith
    · exact (min_le_left _ _).trans h.le
  set unit := (1 / 2 : ℝ) ^ 19 * (1 / 10000 * (1 / ((p + 1) * Lam) * D.gradTol ^ 2)) with hunit
  have hu : 0 < unit := by positivity
  obtain ⟨N, hN⟩ := exists_nat_gt ((objective D coef0 - low) / unit)
  refine ⟨N, fun M hM hp => ?_⟩
  set D' : IRLSData n p ic := { D with maxIter := M } with hD'
  have hconv : Convexish D' := ⟨hD.P1, hD.symm, hD.psd, hD.rows, hD.eps, hD.bounds⟩
  refine c85_ls_converges solve D' hconv hP hlb hub hg.le coef0 (fun st h => ls_solved solve hsolve D' hconv hP hpos hid coef0 st h) B
    (fun w hw r => hB r _ (hR w hw r)) Lam hL0 hL low hlow' ?_ hp
  rw [div_lt_iff₀ hu] at hN
  have : (N : ℝ) ≤ M := by exact_mod_cast hM
  have := mul_le_mul_of_nonneg_right this hu.le
  show objective D coef0 - low < (M : ℝ) * unit
  linarith

/-! ### Built-in families -/

theorem fast_hess_continuous {f : Family} {l : Link} {k : Fast} (h : f.fast l = some k) (hf : Valid f) (y w : ℝ) : Continuous fun eta => k.hess y w (k.mu eta) := by
  rcases fast_cases h with ⟨rfl, rfl, _⟩ | ⟨rfl, rfl, _⟩ | ⟨rfl, rfl, _⟩ | ⟨rfl, rfl, _⟩ |
    ⟨p, rfl, rfl, rfl, h1, h2⟩ | ⟨rfl, rfl, rfl⟩ | ⟨t, rfl, rfl, rfl⟩
  · exact continuous_const
  · exact continuous_const.mul Real.continuous_exp
  · exact continuous_const.mul (continuous_const.div Real.continuous_exp fun e => (Real.exp_pos e).ne')
  · exact continuous_const.mul (continuous_const.div Real.continuous_exp fun e => (Real.exp_pos e).ne')
  · have : Continuous fun eta => Real.exp eta ^ (1 - p) := Real.continuous_exp.rpow_const fun e => Or.inl (Real.exp_pos e).ne'
    exact (continuous_const.mul this).mul (Real.continuous_exp.sub (continuous_const.mul (continuous_const.sub Real.continuous_exp)))
  · have e : Fast.mu .binomialLogit = expit := funext fast_mu_logit
    have hc : Continuous expit := continuous_iff_continuousAt.2 fun x => (expit_hasDeriv x).continuousAt
    rw [e]
    exact (continuous_const.mul hc).mul (continuous_const.sub hc)
  · have ht : 0 < t := hf
    exact (continuous_const.mul Real.continuous_exp).div (continuous_const.add (continuous_const.mul Real.continuous_exp)) fun e => by
      have := Real.exp_pos e; positivity

theorem fast_hess_pos {f : Family} {l : Link} {k : Fast} (h : f.fast l = some k) (hf : Valid f) (y w eta : ℝ) (hw : 0 < w) (hy : y ∈ ySupport f) :
    0 < k.hess y w (k.mu eta) := by
  have hpos := Real.exp_pos eta
  rcases fast_cases h with ⟨rfl, rfl, rfl | rfl⟩ | ⟨rfl, rfl, rfl | rfl⟩ | ⟨rfl, rfl, rfl | rfl⟩ | ⟨rfl, rfl, rfl | rfl⟩ |
    ⟨p, rfl, rfl, rfl, h1, h2⟩ | ⟨rfl, rfl, rfl⟩ | ⟨t, rfl, rfl, rfl⟩
  · exact hw
  · exact hw
  · exact mul_pos hw hpos
  · exact mul_pos hw hpos
  · have hy : 0 < y := hy
    simp only [Fast.hess, Fast.mu]; positivity
  · have hy' : 0 < y := by
      rcases hy with h | h | h
      · norm_num at h
      · exact absurd h.1 (lt_irrefl _)
      · exact h
    simp only [Fast.hess, Fast.mu]; positivity
  · simp only [Fast.hess, Fast.mu]; positivity
  · simp only [Fast.hess, Fast.mu]; positivity
  · have hy' : 0 ≤ y := by
      rcases hy with h | h | h
      · linarith
      · exact h.2
      · exact h.le
    simp only [Fast.hess, Fast.mu]
    refine mul_pos (mul_pos hw (Real.rpow_pos_of_pos hpos _)) ?_
    nlinarith [mul_pos (show 0 < 2 - p by linarith) hpos, mul_nonneg (show 0 ≤ p - 1 by linarith) hy']
  · rw [fast_mu_logit]
    simp only [Fast.hess]
    exact mul_pos (mul_pos hw (expit_pos eta)) (by linarith [expit_lt_one eta])
  · have ht : 0 < t := hf
    simp only [Fast.hess, Fast.mu]; positivity

/-- **C85, built-in families.** For every compiled family/link pair, positive weights, an L2 penalty (possibly zero) that is symmetric and positive semidefinite, an
identified model and a start whose level set has bounded linear predictors: for all sufficiently large `max_iter` the `irls-ls` fit converges, or some
iteration warned in its line search or changed the objective by no more than round-off. -/
theorem c85_builtin (solve : (Fin (p + ic.toNat) → Fin (p + ic.toNat) → ℝ) → (Fin (p + ic.toNat) → ℝ) → (Fin (p + ic.toNat) → ℝ))
    (hsolve : ∀ (H : Fin (p + ic.toNat) → Fin (p + ic.toNat) → ℝ) s, (∀ v : Fin (p + ic.toNat) → ℝ, (∀ i, ∑ j, H i j * v j = 0) → ∀ j, v j = 0) →
      ∀ k, ∑ j, H k j * solve H s j = s k)
    (D : IRLSData n p ic) (f : Family) (l : Link) (k : Fast) (hF : FastFit D f l k) (hP : ∀ k, D.P1 k = 0) (hlb : D.lb = none) (hub : D.ub = none)
    (hsym : ∀ i j, p2Full (p := p) ic D.P2 i j = p2Full ic D.P2 j i) (hpsd : PosSemidef (p2Full (p := p) ic D.P2)) (he : 0 ≤ D.eps)
    (hg : 0 < D.gradTol) (hsw : ∀ r, 0 < D.sw r) (hid : Identified D)
    (coef0 : Fin (p + ic.toNat) → ℝ) (R : ℝ) (hR : ∀ w, objective D w ≤ objective D coef0 → ∀ r, |linPred ic D.X (off D) w r| ≤ R) :
    ∃ N, ∀ M ≥ N, (irlsRun (lsInner solve) ({ D with maxIter := M } : IRLSData n p ic) coef0).diagnostics.IsChain (Progress D.eps) →
      (irlsRun (lsInner solve) ({ D with maxIter := M } : IRLSData n p ic) coef0).converged = true := by
  refine c85_bounded_level solve hsolve D ⟨fun k => (hP k).ge, hsym, hpsd, hF.rows, he, ?_⟩ hP hlb hub hg (fun r => (hsw r).le) ?_ hid ?_ ?_ coef0 R hR
  · intro l u hl
    rw [hlb] at hl
    exact absurd hl (by simp)
  · intro r eta
    rw [hF.fam]
    exact fast_hess_pos hF.fast hF.valid _ _ _ (hsw r) (hF.y r)
  · intro r
    rw [hF.fam]
    exact fast_hess_continuous hF.fast hF.valid _ _
  · intro r
    rw [hF.fam]
    refine continuous_iff_continuousAt.2 fun e => ?_
    have := (fast_dev_hasDeriv hF.valid hF.fast (D.y r) 1 e (hF.y r)).continuousAt
    simpa [fastRow] using this

/-- The pairs with the true Hessian: the row curvature is the Hessian row. -/
theorem fast_rowCurvature (D : IRLSData n p ic) (f : Family) (l : Link) (k : Fast) (hF : FastFit D f l k) :
    RowCurvature D fun r eta => trueCurvature k (D.y r) (D.sw r) (k.mu eta) := by
  intro r eta
  refine ⟨hF.gradOK r eta, ?_⟩
  rw [hF.fam]
  exact fast_grad_hasDeriv hF.valid hF.fast (D.y r) (D.sw r) eta

/-- **C85, normal with identity link.** With positive weights: no line search warns, the full step is always taken, and the fit converges once `max_iter` exceeds
the bound (with `J = 0`), provided the predictions on the level set stay below the overflow threshold. -/
theorem c85_normal (solve : (Fin (p + ic.toNat) → Fin (p + ic.toNat) → ℝ) → (Fin (p + ic.toNat) → ℝ) → (Fin (p + ic.toNat) → ℝ))
    (hsolve : ∀ (H : Fin (p + ic.toNat) → Fin (p + ic.toNat) → ℝ) s, (∀ v : Fin (p + ic.toNat) → ℝ, (∀ i, ∑ j, H i j * v j = 0) → ∀ j, v j = 0) →
      ∀ k, ∑ j, H k j * solve H s j = s k)
    (D : IRLSData n p ic) (hF : FastFit D .normal .identity .normalIdentity) (hP : ∀ k, D.P1 k = 0) (hlb : D.lb = none) (hub : D.ub = none)
    (hsym : ∀ i j, p2Full (p := p) ic D.P2 i j = p2Full ic D.P2 j i) (hpsd : PosSemidef (p2Full (p := p) ic D.P2)) (he : 0 ≤ D.eps)
    (hg : 0 < D.gradTol) (hsw : ∀ r, 0 < D.sw r) (hid : Identified D)
    (coef0 : Fin (p + ic.toNat) → ℝ) (hlarge : ∀ w, objective D w ≤ objective D coef0 → ∀ r, linPred ic D.X (off D) w r < D.large)
    (Lam : ℝ) (hL0 : 0 < Lam) (hL : CurvatureAtMost Lam (fullHessian (p := p) ic D.X D.sw D.P2))
    (hp : (irlsRun (lsInner solve) D coef0).diagnostics.IsChain (Moved D.eps)) :
    (∀ rec ∈ (irlsRun (lsInner solve) D coef0).diagnostics, rec.warned = false) ∧
    (objective D coef0 < D.maxIter * (1 / 10000 * (1 / ((p + 1) * Lam) * D.gradTol ^ 2)) → (irlsRun (lsInner solve) D coef0).converged = true) := by
  have hD : Convexish D := ⟨fun k => (hP k).ge, hsym, hpsd, hF.rows, he, fun l u hl => by rw [hlb] at hl; exact absurd hl (by simp)⟩
  have hh : ∀ r eta, D.fam.hess (D.y r) (D.sw r) eta (D.fam.inv eta) = D.sw r := fun r eta => by rw [hF.fam]; rfl
  have hinv : ∀ eta, D.fam.inv eta = eta := fun eta => by rw [hF.fam]; rfl
  obtain ⟨h1, h2⟩ := c85_ls_ends solve D hD hP hlb hub hg coef0
    (fun st h => ls_solved solve hsolve D hD hP (fun r eta => by rw [hh]; exact hsw r) hid coef0 st h) _ (fast_rowCurvature D _ _ _ hF) D.sw D.sw
    ⟨fun w _ r => le_rfl, fun w _ r => (hh r _).le, fun w _ r => (hh r _).ge, fun w h r => by rw [hinv]; exact hlarge w h r⟩
    1 le_rfl (fun r => by rw [one_mul]) 0 (by norm_num) (by norm_num) Lam hL0 hL hp
  refine ⟨h1, fun hmax => h2 0 (fun w => ?_) (by simpa using hmax)⟩
  rw [objective_smooth D hP]
  unfold smoothObj ridge
  have a1 : 0 ≤ ∑ r, D.sw r * D.fam.dev (D.y r) (linPred ic D.X (off D) w r) := Finset.sum_nonneg fun r _ => by
    rw [hF.fam]
    exact mul_nonneg (hsw r).le (sq_nonneg _)
  have a2 := hpsd w
  linarith

/-! ### Non-vacuity -/

theorem irlsLoop_nIter_ge (inner : Inner n p ic) (D : IRLSData n p ic) (m : ℕ) (st : IRLSState n p ic) : st.nIter ≤ (irlsLoop inner D m st).nIter := by
  induction m generalizing st with
  | zero => exact le_rfl
  | succ m ih =>
    unfold irlsLoop
    split
    · exact le_trans (Nat.le_succ _) (ih (irlsStep inner D st))
    · exact le_rfl


/-- The example of C31 with a tolerance, without L1 penalty and bounds. -/
noncomputable def outEx : IRLSData 2 1 true :=
  { irlsEx with fam := fastRow .normal .identity .normalIdentity, P1 := fun _ => 0, lb := none, ub := none, gradTol := 1 / 1000, maxIter := 10 ^ 20 }

theorem outEx_fast : FastFit outEx .normal .identity .normalIdentity :=
  ⟨trivial, rfl, rfl, fun _ => trivial, fun r => by simp only [outEx, irlsEx]; split <;> norm_num⟩

theorem outEx_sw (r : Fin 2) : 0 < outEx.sw r := by
  simp only [outEx, irlsEx]; split <;> norm_num

theorem outEx_identified : Identified outEx := by
  intro v h _
  have h0 := h 0
  have h1 := h 1
  change ∑ k : Fin 2, _ = _ at h0
  change ∑ k : Fin 2, _ = _ at h1
  simp only [Fin.sum_univ_two] at h0 h1
  simp [design, outEx, irlsEx] at h0 h1
  have e1 : v 1 = 0 := by linarith
  have e0 : v 0 = 0 := by linarith
  intro j
  change Fin 2 at j
  fin_cases j
  · exact e0
  · exact e1

theorem outEx_lin (w : Fin (1 + true.toNat) → ℝ) :
    linPred true outEx.X (off outEx) w 0 = w 0 + w 1 ∧ linPred true outEx.X (off outEx) w 1 = w 0 + 3 * w 1 := by
  constructor
  · unfold linPred off
    change (∑ k : Fin 2, design true outEx.X 0 k * w k) + _ = _
    simp only [Fin.sum_univ_two]
    simp [design, outEx, irlsEx]
  · unfold linPred off
    change (∑ k : Fin 2, design true outEx.X 1 k * w k) + _ = _
    simp only [Fin.sum_univ_two]
    simp [design, outEx, irlsEx]

theorem outEx_ridge (w : Fin (1 + true.toNat) → ℝ) : ∑ i, ∑ j, p2Full (p := 1) true outEx.P2 i j * w i * w j = 1 / 5 * w 1 ^ 2 := by
  change ∑ i : Fin 2, ∑ j : Fin 2, _ = _
  simp only [Fin.sum_univ_two]
  simp [p2Full, p2Matrix, outEx, irlsEx]
  ring

theorem outEx_objective (w : Fin (1 + true.toNat) → ℝ) :
    objective outEx w = 1 / 2 * (1 / 4 * (2 - (w 0 + w 1)) ^ 2 + 3 / 4 * (5 - (w 0 + 3 * w 1)) ^ 2) + 1 / 2 * (1 / 5 * w 1 ^ 2) := by
  rw [objective_smooth outEx fun _ => rfl]
  unfold smoothObj ridge
  rw [outEx_ridge]
  simp only [Fin.sum_univ_two]
  rw [(outEx_lin w).1, (outEx_lin w).2]
  simp [outEx, irlsEx, fastRow, Fast.dev]

theorem outEx_level (w : Fin (1 + true.toNat) → ℝ) (h : objective outEx w ≤ objective outEx fun _ => 0) (r : Fin 2) :
    |linPred true outEx.X (off outEx) w r| ≤ 20 := by
  rw [outEx_objective, outEx_objective] at h
  have e1 := outEx_lin w
  fin_cases r
  · show |linPred true outEx.X (off outEx) w 0| ≤ 20
    rw [e1.1, abs_le]
    constructor <;> nlinarith [sq_nonneg (5 - (w 0 + 3 * w 1)), sq_nonneg (w 1)]
  · show |linPred true outEx.X (off outEx) w 1| ≤ 20
    rw [e1.2, abs_le]
    constructor <;> nlinarith [sq_nonneg (2 - (w 0 + w 1)), sq_nonneg (w 1)]

theorem outEx_psd : PosSemidef (p2Full (p := 1) true outEx.P2) := by
  intro v
  rw [outEx_ridge]; positivity

-- C85, built-in families, applies
example : ∃ N, ∀ M ≥ N, (irlsRun (lsInner invSolve) ({ outEx with maxIter := M } : IRLSData 2 1 true) fun _ => 0).diagnostics.IsChain (Progress outEx.eps) →
    (irlsRun (lsInner invSolve) ({ outEx with maxIter := M } : IRLSData 2 1 true) fun _ => 0).converged = true :=
  c85_builtin invSolve (fun H s h k => invSolve_spec H s h k) outEx .normal .identity .normalIdentity outEx_fast (fun _ => rfl) rfl rfl
    irlsEx_convexish.symm outEx_psd irlsEx_convexish.eps (by simp [outEx]) outEx_sw outEx_identified _ 20 outEx_level

theorem outEx_curvature : CurvatureAtMost 20 (fullHessian (p := 1) true outEx.X outEx.sw outEx.P2) := by
  intro d
  rw [fullHessian_form, outEx_ridge]
  have e2 : ∑ s, d s ^ 2 = d 0 ^ 2 + d 1 ^ 2 := by
    show ∑ s : Fin 2, _ = _
    simp only [Fin.sum_univ_two]
  rw [e2]
  have e3 : ∑ r, outEx.sw r * (∑ i, design (p := 1) true outEx.X r i * d i) ^ 2 = 1 / 4 * (d 0 + d 1) ^ 2 + 3 / 4 * (d 0 + 3 * d 1) ^ 2 := by
    simp only [Fin.sum_univ_two]
    congr 1
    · have : ∑ i, design (p := 1) true outEx.X 0 i * d i = d 0 + d 1 := by
        change ∑ i : Fin 2, design true outEx.X 0 i * d i = _
        simp only [Fin.sum_univ_two]
        simp [design, outEx, irlsEx]
      rw [this]; simp [outEx, irlsEx]
    · have : ∑ i, design (p := 1) true outEx.X 1 i * d i = d 0 + 3 * d 1 := by
        change ∑ i : Fin 2, design true outEx.X 1 i * d i = _
        simp only [Fin.sum_univ_two]
        simp [design, outEx, irlsEx]
      rw [this]; simp [outEx, irlsEx]
  rw [e3]
  nlinarith [sq_nonneg (d 0), sq_nonneg (d 1), sq_nonneg (d 0 - d 1), sq_nonneg (3 * d 0 - d 1)]

theorem outEx_score (w : Fin (1 + true.toNat) → ℝ) :
    scoreAt outEx w 0 = 1 / 4 * (2 - (w 0 + w 1)) + 3 / 4 * (5 - (w 0 + 3 * w 1)) ∧
    scoreAt outEx w 1 = 1 / 4 * (2 - (w 0 + w 1)) + 3 * (3 / 4 * (5 - (w 0 + 3 * w 1))) - 1 / 5 * w 1 := by
  unfold scoreAt
  constructor
  · have e : ∑ i, p2Full (p := 1) true outEx.P2 i 0 * w i = 0 := by
      change ∑ i : Fin 2, p2Full (p := 1) true outEx.P2 i 0 * w i = _
      simp only [Fin.sum_univ_two]
      simp [p2Full, p2Matrix, outEx, irlsEx]
    rw [e, Fin.sum_univ_two, (outEx_lin w).1, (outEx_lin w).2]
    simp [design, outEx, irlsEx, fastRow, Fast.grad, Fast.mu]
  · have e : ∑ i, p2Full (p := 1) true outEx.P2 i 1 * w i = 1 / 5 * w 1 := by
      change ∑ i : Fin 2, p2Full (p := 1) true outEx.P2 i 1 * w i = _
      simp only [Fin.sum_univ_two]
      simp [p2Full, p2Matrix, outEx, irlsEx]
    rw [e, Fin.sum_univ_two, (outEx_lin w).1, (outEx_lin w).2]
    simp [design, outEx, irlsEx, fastRow, Fast.grad, Fast.mu]

theorem outEx_gauss (v : Fin (1 + true.toNat) → ℝ) (hv : ∀ i, ∑ j, gaussH outEx i j * v j = 0) : ∀ j, v j = 0 := by
  have hz : ∑ i, ∑ j, gaussH outEx i j * v i * v j = 0 := by
    have : ∀ i, ∑ j, gaussH outEx i j * v i * v j = v i * ∑ j, gaussH outEx i j * v j := by
      intro i
      rw [Finset.mul_sum]
      exact Finset.sum_congr rfl fun j _ => by ring
    simp only [this, hv, mul_zero, Finset.sum_const_zero]
  unfold gaussH at hz
  rw [fullHessian_form] at hz
  have h1 : 0 ≤ ∑ r, outEx.sw r * (∑ i, design (p := 1) true outEx.X r i * v i) ^ 2 :=
    Finset.sum_nonneg fun r _ => mul_nonneg (outEx_sw r).le (sq_nonneg _)
  have h2 := outEx_psd v
  refine outEx_identified v (fun r => ?_) (by linarith)
  have h0 : ∑ r, outEx.sw r * (∑ i, design (p := 1) true outEx.X r i * v i) ^ 2 = 0 := by linarith
  have := (Finset.sum_eq_zero_iff_of_nonneg (fun r _ => mul_nonneg (outEx_sw r).le (sq_nonneg _))).1 h0 r (Finset.mem_univ r)
  have := (mul_eq_zero.1 this).resolve_left (outEx_sw r).ne'
  exact pow_eq_zero_iff (two_ne_zero) |>.1 this

/-- Every iteration of this fit changes the objective by more than round-off. -/
theorem outEx_moved : (irlsRun (lsInner invSolve) outEx fun _ => 0).diagnostics.IsChain (Moved outEx.eps) := by
  have hD : Convexish outEx := ⟨fun k => le_rfl, irlsEx_convexish.symm, outEx_psd, outEx_fast.rows, irlsEx_convexish.eps, fun l u hl => by simp [outEx] at hl⟩
  have hSE : SquaredError outEx.fam := ⟨fun _ => rfl, fun _ _ => rfl, fun _ _ _ _ => rfl, fun _ _ _ _ => rfl⟩
  obtain ⟨h1, h2, h3, h4⟩ := c76_ls_one_iteration invSolve outEx hD hSE (fun _ => rfl) (by simp only [outEx]; norm_num) (by simp [outEx]) (fun _ => 0)
    (fun k => invSolve_spec _ _ outEx_gauss k)
    (fun w h r => (le_abs_self _).trans_lt ((outEx_level w h r).trans_lt (by simp only [outEx, irlsEx]; norm_num)))
  by_cases h0 : (irlsInit outEx fun _ => 0).converged = true
  · rw [run_of_init _ outEx _ h0]
    exact List.isChain_singleton _
  · have h0' : (irlsInit outEx fun _ => 0).converged = false := by simpa using h0
    have hv1 : Visited (lsInner invSolve) outEx (fun _ => 0) (irlsStep (lsInner invSolve) outEx (irlsInit outEx fun _ => 0)) :=
      Visited.step _ Visited.init (by show 0 < outEx.maxIter; simp only [outEx]; norm_num) h0'
    have hs1 : (irlsRun (lsInner invSolve) outEx fun _ => 0) = irlsStep (lsInner invSolve) outEx (irlsInit outEx fun _ => 0) := by
      refine run_of_step _ outEx _ (by simp only [outEx]; norm_num) h0' (Or.inr ?_)
      by_contra hc
      have hc : (irlsStep (lsInner invSolve) outEx (irlsInit outEx fun _ => 0)).converged = false := by simpa using hc
      have e : irlsRun (lsInner invSolve) outEx (fun _ => 0)
          = irlsLoop (lsInner invSolve) outEx (10 ^ 20 - 2) (irlsStep (lsInner invSolve) outEx (irlsStep (lsInner invSolve) outEx (irlsInit outEx fun _ => 0))) := by
        have hm : outEx.maxIter = (10 ^ 20 - 2) + 1 + 1 := by simp [outEx]
        unfold irlsRun
        rw [hm]
        conv_lhs => unfold irlsLoop
        rw [if_pos ⟨by show 0 < outEx.maxIter; rw [hm]; omega, h0'⟩]
        conv_lhs => unfold irlsLoop
        rw [if_pos ⟨by show 1 < outEx.maxIter; rw [hm]; omega, hc⟩]
      have := irlsLoop_nIter_ge (lsInner invSolve) outEx (10 ^ 20 - 2) (irlsStep (lsInner invSolve) outEx (irlsStep (lsInner invSolve) outEx (irlsInit outEx fun _ => 0)))
      rw [← e] at this
      have h22 : (irlsStep (lsInner invSolve) outEx (irlsStep (lsInner invSolve) outEx (irlsInit outEx fun _ => 0))).nIter = 2 := rfl
      omega
    have hn1 : (irlsRun (lsInner invSolve) outEx fun _ => 0).nIter = 1 := by rw [hs1]; rfl
    have hz := h4 hn1
    rw [hs1] at hz ⊢
    set w := (irlsStep (lsInner invSolve) outEx (irlsInit outEx fun _ => 0)).coef with hw
    have z0 := hz 0
    have z1 := hz 1
    rw [(outEx_score w).1] at z0
    rw [(outEx_score w).2] at z1
    have w1 : w 1 = 45 / 38 := by linarith
    have w0 : w 0 = 17 / 4 - 5 / 2 * (45 / 38) := by linarith
    have hobj : (irlsStep (lsInner invSolve) outEx (irlsInit outEx fun _ => 0)).obj = objective outEx w := (visited_sync _ outEx hD.P1 _ _ hv1).obj
    have hobj0 : (irlsInit outEx fun _ => 0).obj = objective outEx fun _ => 0 := (visited_sync (lsInner invSolve) outEx hD.P1 _ _ Visited.init).obj
    have hdiag : (irlsStep (lsInner invSolve) outEx (irlsInit outEx fun _ => 0)).diagnostics
        = [⟨1, (irlsStep (lsInner invSolve) outEx (irlsInit outEx fun _ => 0)).norm, (irlsStep (lsInner invSolve) outEx (irlsInit outEx fun _ => 0)).obj,
            (lineSearch outEx (innerState outEx (irlsInit outEx fun _ => 0)) (lsInner invSolve outEx (innerState outEx (irlsInit outEx fun _ => 0))).1).warned⟩,
          ⟨0, (irlsInit outEx fun _ => 0).norm, (irlsInit outEx fun _ => 0).obj, false⟩] := rfl
    rw [hdiag]
    refine List.isChain_cons_cons.2 ⟨?_, List.isChain_singleton _⟩
    unfold Moved
    simp only
    rw [hobj, hobj0, outEx_objective, outEx_objective, w0, w1]
    simp only [outEx, irlsEx]
    rw [abs_of_nonneg (by norm_num), abs_of_nonpos (by norm_num)]
    norm_num

-- C85, normal: the fit converges and its line search never warns
example : (∀ rec ∈ (irlsRun (lsInner invSolve) outEx fun _ => 0).diagnostics, rec.warned = false) ∧ (irlsRun (lsInner invSolve) outEx fun _ => 0).converged = true := by
  obtain ⟨h1, h2⟩ := c85_normal invSolve (fun H s h k => invSolve_spec H s h k) outEx outEx_fast (fun _ => rfl) rfl rfl
    irlsEx_convexish.symm outEx_psd irlsEx_convexish.eps (by simp [outEx]) outEx_sw outEx_identified (fun _ => 0)
    (fun w h r => (le_abs_self _).trans_lt ((outEx_level w h r).trans_lt (by simp only [outEx, irlsEx]; norm_num))) 20 (by norm_num) outEx_curvature outEx_moved
  refine ⟨h1, h2 ?_⟩
  rw [outEx_objective]
  simp only [outEx]
  norm_num

end Glum
