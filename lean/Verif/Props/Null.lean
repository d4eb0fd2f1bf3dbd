import Verif.Props.Target
import Verif.Props.StepLive2
/-
C93: a start that solves the problem is returned at once; with a strong L1 penalty the fit is the constant model, exactly.
-/
set_option linter.unusedSectionVars false
set_option linter.unusedVariables false
set_option linter.unusedSimpArgs false

namespace Glum
open Spec

variable {n p : ℕ} {ic : Bool}

/-- A one-sided first-order condition. -/
theorem deriv_ge_of_right (f : ℝ → ℝ) (f' c : ℝ) (h : HasDerivAt f f' 0) (hf : ∀ t, 0 < t → t ≤ 1 → f 0 + t * c ≤ f t) : c ≤ f' := by
  have h1 := (hasDerivWithinAt_iff_tendsto_slope' (s := Set.Ioi (0 : ℝ)) (by simp)).1 (h.hasDerivWithinAt (s := Set.Ioi 0))
  refine ge_of_tendsto h1 ?_
  filter_upwards [Ioc_mem_nhdsGT (show (0 : ℝ) < 1 by norm_num)] with t ht
  rw [slope_def_field, sub_zero, le_div_iff₀ ht.1]
  have := hf t ht.1 ht.2
  linarith

/-- At a minimiser the distance to optimality that the solver computes is zero. -/
theorem norm_zero_of_min (D : IRLSData n p ic) (hP : ∀ k, 0 ≤ D.P1 k) (hsym : ∀ i j, p2Full (p := p) ic D.P2 i j = p2Full ic D.P2 j i)
    (w : Fin (p + ic.toNat) → ℝ) (hfam : ∀ r, GradOK D r (linPred ic D.X (off D) w r)) (hin : InBounds ic D.lb D.ub w)
    (hmin : ∀ v, InBounds ic D.lb D.ub v → objective D w ≤ objective D v) :
    (normMinSubgrad (List.finRange (p + ic.toNat)) w (fun i => -scoreAt D w i) D.P1 ic D.lb D.ub).1 = 0 := by
  rw [norm_eq_sum]
  · refine List.sum_eq_zero fun x hx => ?_
    obtain ⟨i, -, rfl⟩ := List.mem_map.1 hx
    rw [absTerm_eq_zero_iff _ _ _ hP _ _ _ _ hin]
    intro z hz
    set d : Fin (p + ic.toNat) → ℝ := fun k => if k = i then z - w i else 0 with hd
    have hwd : (fun k => w k + d k) = fun k => if k = i then z else w k := by
      funext k
      simp only [hd]
      split
      · next h => rw [h]; ring
      · ring
    have hder := c34_score_is_gradient (fun D st => (fun _ => 0, 0)) D hP hsym w (irlsInit D w) Visited.init hfam d
    have hsc : (irlsInit D w).score = scoreAt D w := funext fun k => (visited_sync (fun D st => (fun _ => 0, 0)) D hP w (irlsInit D w) Visited.init).score k
    rw [hsc] at hder
    have hco : (irlsInit D w).coef = w := rfl
    rw [hco] at hder
    have hl1 : l1 ic D.P1 (fun k => w k + d k) - l1 ic D.P1 w = l1Weight ic D.P1 i * (|z| - |w i|) := by
      rw [hwd]
      unfold l1
      rw [← Finset.sum_sub_distrib, Finset.sum_eq_single i]
      · simp; ring
      · intro k _ hk; simp [hk]
      · simp
    have key := deriv_ge_of_right _ _ (-(l1Weight ic D.P1 i * (|z| - |w i|))) hder (fun t h0 h1 => by
      have hb : InBounds ic D.lb D.ub fun k => w k + t * d k := by
        intro m k hk
        have hz' : InBounds ic D.lb D.ub fun k => w k + d k := by rw [hwd]; exact hz
        obtain ⟨a1, a2⟩ := hin m k hk
        obtain ⟨b1, b2⟩ := hz' m k hk
        constructor
        · intro l hl; have := a1 l hl; have := b1 l hl; nlinarith
        · intro u hu; have := a2 u hu; have := b2 u hu; nlinarith
      have e0 : (fun k => w k + 0 * d k) = w := by funext k; ring
      have h3 := hmin _ hb
      have h4 := l1_chord D.P1 hP w d t h0.le h1
      unfold objective at h3
      simp only [e0]
      rw [hl1] at h4
      linarith)
    have e : -∑ k, scoreAt D w k * d k = -scoreAt D w i * (z - w i) := by
      rw [Finset.sum_eq_single i]
      · simp [hd]
      · intro k _ hk; simp [hd, hk]
      · simp
    rw [e] at key
    linarith
  · intro i hi
    have hne : (List.finRange (p + ic.toNat)).Pairwise (· < ·) := List.pairwise_lt_finRange _
    have h1 : 1 ≤ i.val := by
      cases hl : List.finRange (p + ic.toNat) with
      | nil => rw [hl] at hi; cases hi
      | cons x xs =>
        rw [hl] at hi hne
        have := (List.pairwise_cons.1 hne).1 i hi
        have : x.val < i.val := this
        omega
    cases ic <;> simp <;> omega

/-- What a run from a converged start does. -/
theorem solved_start (next : (ℕ → BitVec 32) → ℕ → (ℕ → BitVec 32)) (inner : (ℕ → BitVec 32) → (m : ℕ) → Inner m p ic) (D : IRLSData n p ic)
    (hP : ∀ k, 0 ≤ D.P1 k) (A : Option (ℕ → ℕ → ℝ)) (s : SolverLog) (w : Fin (p + ic.toNat) → ℝ)
    (h : (normMinSubgrad (List.finRange (p + ic.toNat)) w (fun i => -scoreAt D w i) D.P1 ic D.lb D.ub).1 < D.gradTol) :
    (irlsSolver next inner n D A s w).2 = w ∧ (irlsSolver next inner n D A s w).1.convWarn = s.convWarn ∧
    (irlsSolver next inner n D A s w).1.lsWarn = s.lsWarn ∧ (irlsSolver next inner n D A s w).1.nIter = 0 := by
  have hc0 : (irlsInit D w).converged = true := (converged_iff (inner s.seeds n) D hP w _ Visited.init).mpr (Or.inl h)
  have hrun : irlsRun (inner s.seeds n) D w = irlsInit D w := by
    unfold irlsRun
    cases D.maxIter with
    | zero => rfl
    | succ k => unfold irlsLoop; rw [if_neg (by simp [hc0])]
  unfold irlsSolver
  simp only [hrun, hc0, if_true]
  simp [irlsInit]

/-- The start of a cold fit: the guess and zeros. -/
theorem cold_start (C : FitCfg p ic) (stats : Stats) (R : Rows n) (l1r : ℝ) (hcold : C.start = .cold) (hzero : WithinBounds p C.lb C.ub fun _ => 0)
    (Q : Prepared n p ic) (hQ : prepare C stats R l1r = some Q) (g : ℝ) (hg : startGuess C R = some g) :
    (report ic C.thr Q.means Q.stds Q.start).1 = (if ic then g else 0) ∧ ∀ j : ℕ, (report ic C.thr Q.means Q.stds Q.start).2 j = 0 := by
  obtain ⟨P1, P2, h1, h2, -⟩ := prepare_spec C stats R l1r Q hQ
  unfold prepare at hQ
  rw [h1, h2, hg] at hQ
  simp only [Option.bind_eq_bind, Option.bind_some, Option.some.injEq] at hQ
  have hstart : Q.start = getStartCoef ic C.thr Q.means Q.stds g C.lb C.ub C.start := by rw [← hQ]
  rw [hcold] at hstart
  have hst0 : ∀ k : Fin (p + ic.toNat), Q.start k = if k.val < ic.toNat then g else 0 := by
    intro k
    rw [hstart]
    unfold getStartCoef clipStart rawStart
    by_cases hk : k.val < ic.toNat
    · simp only [hk, if_true]
    · have hj : k.val - ic.toNat < p := by have := k.isLt; omega
      have hz := hzero _ hj
      simp only [hk, if_false]
      cases hl : C.lb with
      | none =>
        cases hu : C.ub with
        | none => rfl
        | some u => exact min_eq_left (hz.2 u hu)
      | some l =>
        have e1 : max 0 (l (k.val - ic.toNat)) = 0 := max_eq_left (hz.1 l hl)
        cases hu : C.ub with
        | none => exact e1
        | some u => simp only []; rw [e1]; exact min_eq_left (hz.2 u hu)
  have hf : ∀ j : ℕ, feat ic Q.start j = 0 := by
    intro j
    unfold feat
    split
    · rw [hst0]; simp
    · rfl
  have hi : icpt ic Q.start = if ic then g else 0 := by
    unfold icpt
    cases ic <;> simp [hst0]
  refine ⟨?_, fun j => ?_⟩
  · cases ic <;> simp [report, unstandardize, hf, hi, outMeans]
  · simp [report, unstandardize, hf]

/-- One solve from a start that solves the problem. -/
theorem stay_one (next : (ℕ → BitVec 32) → ℕ → (ℕ → BitVec 32)) (inner : (ℕ → BitVec 32) → (m : ℕ) → Inner m p ic) (C : FitCfg p ic) (stats : Stats)
    (R : Rows n) (l1r : ℝ) (h : ConvexFit C R l1r) (hs : ∀ j, 0 ≤ (stats n R.X R.sw).2 j) (hg : 0 < C.gradTol) (Q : Prepared n p ic)
    (hQ : prepare C stats R l1r = some Q) (a : ℝ) (ha : 0 ≤ a) (s : SolverLog) (w : Fin (p + ic.toNat) → ℝ)
    (hd : DocumentedWithin C R (penScale C.thr C.asIfScaled Q.stds) a l1r 0 (report ic C.thr Q.means Q.stds w).1 (report ic C.thr Q.means Q.stds w).2) :
    (Q.solveFn (irlsSolver next inner) s (fun j => Q.D.P1 j * a) (Q.D.P2.smul a) w).2 = w ∧
    (Q.solveFn (irlsSolver next inner) s (fun j => Q.D.P1 j * a) (Q.D.P2.smul a) w).1.convWarn = s.convWarn ∧
    (Q.solveFn (irlsSolver next inner) s (fun j => Q.D.P1 j * a) (Q.D.P2.smul a) w).1.lsWarn = s.lsWarn ∧
    (Q.solveFn (irlsSolver next inner) s (fun j => Q.D.P1 j * a) (Q.D.P2.smul a) w).1.nIter = 0 := by
  have hsol := (report_solves C h.thr h.valid stats R hs h.y l1r Q hQ a 0 w).2 hd
  obtain ⟨P1, P2, h1, h2, hm, hsd, hD, -⟩ := prepare_spec C stats R l1r Q hQ
  have hstd : ∀ j, 0 ≤ Q.stds j := by rw [hsd]; exact hs
  obtain ⟨⟨k, hk, hF⟩, hP, hsym, hpsd⟩ := convexFit_data C R l1r h Q.means Q.stds hstd P1 P2 h1 h2 a ha
  have hDe : Q.D.withPen (fun j => Q.D.P1 j * a) (Q.D.P2.smul a)
      = stdData C.thr C.asIfScaled Q.means Q.stds (C.problem R (fun j => P1 j * a) (P2.smul a)) := by
    rw [hD, withPen_std]
  rw [← hDe] at hF hP hsym
  refine solved_start next inner _ hP Q.A s w ?_
  rw [norm_zero_of_min _ hP hsym w (fun r => hF.gradOK r _) hsol.1 fun v hv => by have := hsol.2 v hv; linarith]
  rw [hDe]
  exact hg

/-- A path from a start that solves its problems. -/
theorem stay_path (next : (ℕ → BitVec 32) → ℕ → (ℕ → BitVec 32)) (inner : (ℕ → BitVec 32) → (m : ℕ) → Inner m p ic) (C : FitCfg p ic) (stats : Stats)
    (R : Rows n) (l1r : ℝ) (h : ConvexFit C R l1r) (hs : ∀ j, 0 ≤ (stats n R.X R.sw).2 j) (hg : 0 < C.gradTol) (Q : Prepared n p ic)
    (hQ : prepare C stats R l1r = some Q) (alphas : List ℝ) (ha : ∀ x ∈ alphas, 0 ≤ x) (s : SolverLog) (w : Fin (p + ic.toNat) → ℝ) :
    (∀ i < alphas.length, (∀ k (hk : k < alphas.length), k ≤ i → DocumentedWithin C R (penScale C.thr C.asIfScaled Q.stds) alphas[k] l1r 0
        (report ic C.thr Q.means Q.stds w).1 (report ic C.thr Q.means Q.stds w).2) →
      (solvePath (Q.solveFn (irlsSolver next inner)) Q.D.P1 Q.D.P2 alphas s w).2[i]? = some w) ∧
    ((∀ x ∈ alphas, DocumentedWithin C R (penScale C.thr C.asIfScaled Q.stds) x l1r 0
        (report ic C.thr Q.means Q.stds w).1 (report ic C.thr Q.means Q.stds w).2) →
      (solvePath (Q.solveFn (irlsSolver next inner)) Q.D.P1 Q.D.P2 alphas s w).1.convWarn = s.convWarn ∧
      (solvePath (Q.solveFn (irlsSolver next inner)) Q.D.P1 Q.D.P2 alphas s w).1.lsWarn = s.lsWarn ∧
      (alphas ≠ [] → (solvePath (Q.solveFn (irlsSolver next inner)) Q.D.P1 Q.D.P2 alphas s w).1.nIter = 0)) := by
  induction alphas generalizing s with
  | nil => exact ⟨fun i hi => absurd hi (by simp), fun _ => ⟨rfl, rfl, fun h => absurd rfl h⟩⟩
  | cons a rest ih =>
    have ih := fun s' => ih (fun x hx => ha x (List.mem_cons_of_mem _ hx)) s'
    have one := stay_one next inner C stats R l1r h hs hg Q hQ a (ha a (by simp)) s w
    refine ⟨fun i hi hd => ?_, fun hd => ?_⟩
    · obtain ⟨e, -⟩ := one (hd 0 (by simp) (Nat.zero_le _))
      simp only [solvePath]
      rw [e]
      cases i with
      | zero => simp
      | succ i =>
        rw [List.getElem?_cons_succ]
        refine (ih _).1 i (by simpa using hi) fun k hk hki => ?_
        have := hd (k + 1) (by simpa using hk) (by omega)
        simpa using this
    · obtain ⟨e, e1, e2, e3⟩ := one (hd a (by simp))
      simp only [solvePath]
      rw [e]
      obtain ⟨i1, i2, i3⟩ := (ih (Q.solveFn (irlsSolver next inner) s (fun j => Q.D.P1 j * a) (Q.D.P2.smul a) w).1).2
        fun x hx => hd x (List.mem_cons_of_mem _ hx)
      refine ⟨i1.trans e1, i2.trans e2, fun _ => ?_⟩
      cases rest with
      | nil => exact e3
      | cons b rest => exact i3 (by simp)

/-- A constant model that solves the problem is the one with the guessed intercept. -/
theorem constant_is_guess (C : FitCfg p ic) (R : Rows n) (l1r : ℝ) (h : ConvexFit C R l1r) (hsw : ∑ i, R.sw i = 1) (hcold : C.start = .cold)
    (hoff : ic = true → R.off = none ∨ (C.family ≠ .binomial ∧ ∀ t, C.family ≠ .negBinomial t)) (g : ℝ) (hg : startGuess C R = some g)
    (s : ℕ → ℝ) (a b0 : ℝ) (hsol : Solves p ic C.lb C.ub (fitObjective p C.e50 C.family C.link R s C.P1a C.P2a a l1r) b0 fun _ => 0) :
    b0 = if ic then g else 0 := by
  rcases Bool.eq_false_or_eq_true ic with hi | hi
  · subst hi
    rw [if_pos rfl]
    have hg' : guessIntercept C.family C.link R.y R.sw (R.off.elim .none .array) = some g := by
      unfold startGuess at hg
      rw [hcold] at hg
      exact hg
    by_contra hne
    obtain ⟨k, hk, -⟩ := h.pair
    have h1 := guess_strict C R h.valid k hk h.y hsw (hoff rfl) g hg' b0 hne
    have h2 := hsol.2.2 g (fun _ => 0) (fun hh => by cases hh) hsol.2.1
    rw [fitObjective_null, fitObjective_null] at h2
    linarith
  · subst hi
    exact hsol.1 rfl

/-- **C93, the constant model.** A fit (solver `irls-ls` or `irls-cd`, any inner solver) without start values, positive tolerance, zero coefficients
allowed by the bounds: if at the first `i+1` alphas some constant model (all coefficients zero) solves the documented problem, then row `i` of the
path has all coefficients *exactly* zero and the intercept of that constant model.  If that holds at all alphas, `coef_` is zero, no
`ConvergenceWarning` and no line-search warning is issued, and `n_iter_` is zero. -/
theorem c93_constant_model (next : (ℕ → BitVec 32) → ℕ → (ℕ → BitVec 32)) (inner : (ℕ → BitVec 32) → (m : ℕ) → Inner m p ic) (C : FitCfg p ic)
    (stats : Stats) (R : Rows n) (l1r : ℝ) (h : ConvexFit C R l1r) (hs : ∀ j, 0 ≤ (stats n R.X R.sw).2 j) (hg : 0 < C.gradTol)
    (hsw : ∑ i, R.sw i = 1) (hcold : C.start = .cold) (hzero : WithinBounds p C.lb C.ub fun _ => 0)
    (hoff : ic = true → R.off = none ∨ (C.family ≠ .binomial ∧ ∀ t, C.family ≠ .negBinomial t)) (sp : AlphaSpec) (s s' : SolverLog) (r : PathResult)
    (hfit : glmFit C stats (irlsSolver next inner) R l1r sp s = some (s', r)) (ha : ∀ x ∈ r.alphas, 0 ≤ x) :
    (∀ i (hi : i < r.alphas.length) (hc : i < r.coefPath.length) (hb : i < r.interceptPath.length) (b0 : ℝ),
      (∀ k (hk : k < r.alphas.length), k ≤ i → ∃ b1, Solves p ic C.lb C.ub
        (fitObjective p C.e50 C.family C.link R (penScale C.thr C.asIfScaled (stats n R.X R.sw).2) C.P1a C.P2a r.alphas[k] l1r) b1 fun _ => 0) →
      Solves p ic C.lb C.ub
        (fitObjective p C.e50 C.family C.link R (penScale C.thr C.asIfScaled (stats n R.X R.sw).2) C.P1a C.P2a r.alphas[i] l1r) b0 (fun _ => 0) →
      r.interceptPath[i] = b0 ∧ ∀ j, r.coefPath[i] j = 0) ∧
    ((∀ x ∈ r.alphas, ∃ b0, Solves p ic C.lb C.ub
        (fitObjective p C.e50 C.family C.link R (penScale C.thr C.asIfScaled (stats n R.X R.sw).2) C.P1a C.P2a x l1r) b0 fun _ => 0) →
      (∀ j, r.coef j = 0) ∧ s'.convWarn = s.convWarn ∧ s'.lsWarn = s.lsWarn ∧ s'.nIter = 0) := by
  obtain ⟨Q, hQ, -, hs', hst, -⟩ := glmFit_spec C stats (irlsSolver next inner) R l1r sp s s' r hfit
  obtain ⟨hlen, -⟩ := c41_path (Q.solveFn (irlsSolver next inner)) Q.D.P1 Q.D.P2 r.alphas s Q.start
  obtain ⟨-, l1', l2', g1, g2, -, -⟩ := c41_stored C.thr Q.means Q.stds r.alphas _ r hst
  obtain ⟨P1, P2, h1, h2, hm, hsd, hD, -⟩ := prepare_spec C stats R l1r Q hQ
  obtain ⟨g, hgs⟩ : ∃ g, startGuess C R = some g := by
    unfold prepare at hQ
    rw [h1, h2] at hQ
    cases hgg : startGuess C R with
    | none => rw [hgg] at hQ; simp at hQ
    | some g => exact ⟨g, rfl⟩
  obtain ⟨r1, r2⟩ := cold_start C stats R l1r hcold hzero Q hQ g hgs
  unfold Prepared.path at *
  obtain ⟨p1, p2⟩ := stay_path next inner C stats R l1r h hs hg Q hQ r.alphas ha s Q.start
  have hdoc : ∀ a b0, Solves p ic C.lb C.ub
        (fitObjective p C.e50 C.family C.link R (penScale C.thr C.asIfScaled (stats n R.X R.sw).2) C.P1a C.P2a a l1r) b0 (fun _ => 0) →
      b0 = (report ic C.thr Q.means Q.stds Q.start).1 ∧ DocumentedWithin C R (penScale C.thr C.asIfScaled Q.stds) a l1r 0
        (report ic C.thr Q.means Q.stds Q.start).1 (report ic C.thr Q.means Q.stds Q.start).2 := by
    intro a b0 hb
    have e := constant_is_guess C R l1r h hsw hcold hoff g hgs _ a b0 hb
    rw [← r1] at e
    refine ⟨e, ?_, fun c0 c hc0 hc => ?_⟩
    · intro j hj
      rw [r2]
      exact hzero j hj
    · have := hb.2.2 c0 c hc0 hc
      rw [← hsd] at this
      rw [fitObjective_congr C R _ a l1r _ b0 _ (fun _ => 0) e.symm fun j => r2 j]
      linarith
  have hrow : ∀ i, i < r.alphas.length → (∀ k (hk : k < r.alphas.length), k ≤ i → ∃ b1, Solves p ic C.lb C.ub
        (fitObjective p C.e50 C.family C.link R (penScale C.thr C.asIfScaled (stats n R.X R.sw).2) C.P1a C.P2a r.alphas[k] l1r) b1 fun _ => 0) →
      r.coefPath[i]? = some (report ic C.thr Q.means Q.stds Q.start).2 ∧ r.interceptPath[i]? = some (report ic C.thr Q.means Q.stds Q.start).1 := by
    intro i hi hk
    have e := p1 i hi fun k hk1 hk2 => by
      obtain ⟨b1, hb1⟩ := hk k hk1 hk2
      exact (hdoc _ b1 hb1).2
    have hi' : i < (solvePath (Q.solveFn (irlsSolver next inner)) Q.D.P1 Q.D.P2 r.alphas s Q.start).2.length := by rw [hlen]; exact hi
    obtain ⟨e1, e2⟩ := storePath_rows C.thr Q.means Q.stds r.alphas _ r hst i hi'
    rw [List.getElem?_eq_getElem hi', Option.some.injEq] at e
    rw [e] at e1 e2
    exact ⟨e1, e2⟩
  refine ⟨fun i hi hc hb b0 hk hsol => ?_, fun hall => ?_⟩
  · obtain ⟨e1, e2⟩ := hrow i hi hk
    rw [List.getElem?_eq_getElem hc, Option.some.injEq] at e1
    rw [List.getElem?_eq_getElem hb, Option.some.injEq] at e2
    rw [e1, e2]
    exact ⟨((hdoc _ b0 hsol).1).symm, r2⟩
  · have hne : r.alphas ≠ [] := by
      intro h0
      have : r.coefPath = [] := List.eq_nil_of_length_eq_zero (by rw [l1', hlen, h0]; rfl)
      rw [this] at g1
      cases g1
    obtain ⟨w1, w2, w3⟩ := p2 fun x hx => by
      obtain ⟨b1, hb1⟩ := hall x hx
      exact (hdoc _ b1 hb1).2
    rw [hs']
    refine ⟨fun j => ?_, w1, w2, w3 hne⟩
    have hpos : 0 < r.alphas.length := List.length_pos_of_ne_nil hne
    obtain ⟨e1, -⟩ := hrow (r.alphas.length - 1) (by omega) fun k hk _ => hall _ (List.getElem_mem hk)
    rw [List.getLast?_eq_getElem?, l1', hlen] at g1
    rw [g1, Option.some.injEq] at e1
    rw [e1]
    exact r2 j

/-! ### How strong an L1 penalty has to be -/

/-- The derivative of the true mean, for the pairs with compiled routines. -/
theorem trueMean_hasDeriv (e50 : ℝ) (f : Family) (l : Link) (k : Fast) (hk : f.fast l = some k) (e : ℝ) :
    HasDerivAt (trueMean e50 f l) (l.inverseDerivative e) e ∧ trueMean e50 f l e ∈ muRange f := by
  have hex : ∀ e : ℝ, HasDerivAt (fun x : ℝ => Real.exp x) (Real.exp e) e := Real.hasDerivAt_exp
  cases f with
  | normal => cases l <;> simp only [Family.fast, reduceCtorEq] at hk; exact ⟨hasDerivAt_id e, trivial⟩
  | poisson => cases l <;> simp only [Family.fast, reduceCtorEq] at hk; exact ⟨hex e, Real.exp_pos e⟩
  | gamma => cases l <;> simp only [Family.fast, reduceCtorEq] at hk; exact ⟨hex e, Real.exp_pos e⟩
  | invGaussian => cases l <;> simp only [Family.fast, reduceCtorEq] at hk; exact ⟨hex e, Real.exp_pos e⟩
  | ghs => cases l <;> simp [Family.fast] at hk
  | binomial =>
    cases l <;> simp only [Family.fast, reduceCtorEq] at hk
    exact ⟨expit_hasDeriv e, expit_pos e, expit_lt_one e⟩
  | negBinomial theta => cases l <;> simp only [Family.fast, reduceCtorEq] at hk; exact ⟨hex e, Real.exp_pos e⟩
  | tweedie q =>
    cases l with
    | identity =>
      simp only [Family.fast] at hk
      split at hk
      · next h0 =>
        refine ⟨hasDerivAt_id e, ?_⟩
        simp [muRange, h0]
      · cases hk
    | log =>
      refine ⟨hex e, ?_⟩
      show _ ∨ _
      exact Or.inr (Real.exp_pos e)
    | logit => simp [Family.fast] at hk
    | cloglog => simp [Family.fast] at hk
    | tweedie r => simp [Family.fast] at hk

/-- The derivative of a row's loss. -/
noncomputable def rowSlope (C : FitCfg p ic) (R : Rows n) (i : Fin n) (e : ℝ) : ℝ :=
  R.sw i * (C.family.unitDevianceDerivative (R.y i) (trueMean C.e50 C.family C.link e) * C.link.inverseDerivative e)

theorem rowLoss_hasDeriv (C : FitCfg p ic) (R : Rows n) (l1r : ℝ) (h : ConvexFit C R l1r) (i : Fin n) (e : ℝ) :
    HasDerivAt (rowLoss C R i) (rowSlope C R i e) e := by
  obtain ⟨k, hk, -⟩ := h.pair
  obtain ⟨h1, h2⟩ := trueMean_hasDeriv C.e50 C.family C.link k hk e
  exact (HasDerivAt.comp e (c05_deviance_derivative C.family h.valid _ _ (h.y i) h2) h1).const_mul _

/-- Sufficient: the gradient of the loss at the constant model is dominated by the L1 penalty. -/
theorem constant_solves (C : FitCfg p ic) (R : Rows n) (l1r : ℝ) (h : ConvexFit C R l1r) (hzero : WithinBounds p C.lb C.ub fun _ => 0) (s : ℕ → ℝ) (a : ℝ)
    (ha : 0 ≤ a) (b0 : ℝ) (hb0 : ic = false → b0 = 0)
    (hstat : ic = true → ∑ i, rowSlope C R i (b0 + (R.off.getD fun _ => 0) i) = 0)
    (hdom : ∀ j : Fin p, |1 / 2 * ∑ i, rowSlope C R i (b0 + (R.off.getD fun _ => 0) i) * R.X i j| ≤ a * l1r * (userP1 C.P1a j * |s j|)) :
    Solves p ic C.lb C.ub (fitObjective p C.e50 C.family C.link R s C.P1a C.P2a a l1r) b0 fun _ => 0 := by
  refine ⟨hb0, hzero, fun c0 c hc0 hc => ?_⟩
  set ψ : Fin n → ℝ := fun i => rowSlope C R i (b0 + (R.off.getD fun _ => 0) i) with hψ
  have hrow : ∀ i, rowLoss C R i (b0 + (R.off.getD fun _ => 0) i) + ψ i * (∑ j : Fin p, R.X i j * c j + (c0 - b0))
      ≤ rowLoss C R i (∑ j : Fin p, R.X i j * c j + c0 + (R.off.getD fun _ => 0) i) := by
    intro i
    have := convex_tangent (rowLoss_convex C R l1r h i) (rowLoss_hasDeriv C R l1r h i (b0 + (R.off.getD fun _ => 0) i))
      (∑ j : Fin p, R.X i j * c j + c0 + (R.off.getD fun _ => 0) i)
    have e : ∑ j : Fin p, R.X i j * c j + c0 + (R.off.getD fun _ => 0) i - (b0 + (R.off.getD fun _ => 0) i) = ∑ j : Fin p, R.X i j * c j + (c0 - b0) := by ring
    rw [e] at this
    exact this
  have hsum := Finset.sum_le_sum fun i (_ : i ∈ Finset.univ) => hrow i
  rw [Finset.sum_add_distrib] at hsum
  have hz : ∑ i, ψ i * (c0 - b0) = 0 := by
    rw [← Finset.sum_mul]
    rcases Bool.eq_false_or_eq_true ic with hi | hi
    · rw [hstat hi, zero_mul]
    · rw [hb0 hi, hc0 hi, sub_zero, mul_zero]
  have e2 : ∑ i, ψ i * (∑ j : Fin p, R.X i j * c j + (c0 - b0)) = ∑ j : Fin p, c j * ∑ i, ψ i * R.X i j := by
    simp only [mul_add, Finset.sum_add_distrib, hz, add_zero, Finset.mul_sum]
    rw [Finset.sum_comm]
    exact Finset.sum_congr rfl fun j _ => Finset.sum_congr rfl fun i _ => by ring
  have e3 : -(∑ j : Fin p, a * l1r * (userP1 C.P1a j * |c j * s j|)) ≤ 1 / 2 * ∑ j : Fin p, c j * ∑ i, ψ i * R.X i j := by
    rw [Finset.mul_sum, ← Finset.sum_neg_distrib]
    refine Finset.sum_le_sum fun j _ => ?_
    have h1 := hdom j
    have h2 : |c j * (1 / 2 * ∑ i, ψ i * R.X i j)| ≤ |c j| * (a * l1r * (userP1 C.P1a j * |s j|)) := by
      rw [abs_mul]; exact mul_le_mul_of_nonneg_left h1 (abs_nonneg _)
    have h3 := neg_abs_le (c j * (1 / 2 * ∑ i, ψ i * R.X i j))
    rw [abs_mul (c j) (s j)]
    linarith
  have hr := h.p2 fun j => c j * s j
  have hr' : 0 ≤ a * (1 - l1r) * (1 / 2 * ∑ j : Fin p, ∑ k : Fin p, userP2 C.P2a j k * (c j * s j) * (c k * s k)) :=
    mul_nonneg (mul_nonneg ha (by linarith [h.l1.2])) (by linarith)
  rw [fitObjective_null]
  have hnull : interceptDeviance C.family (trueMean C.e50 C.family C.link) R.y R.sw (R.off.getD fun _ => 0) b0
      = ∑ i, rowLoss C R i (b0 + (R.off.getD fun _ => 0) i) := by
    unfold interceptDeviance rowLoss
    exact Finset.sum_congr rfl fun i _ => by rw [add_comm]
  rw [hnull]
  unfold fitObjective
  have hobj : ∑ i, R.sw i * C.family.unitDeviance (R.y i) (trueMean C.e50 C.family C.link (∑ j : Fin p, R.X i j * c j + c0 + (R.off.getD fun _ => 0) i))
      = ∑ i, rowLoss C R i (∑ j : Fin p, R.X i j * c j + c0 + (R.off.getD fun _ => 0) i) := rfl
  rw [hobj, Finset.mul_sum (a := a * l1r)]
  rw [e2] at hsum
  linarith

/-- Necessary, without bounds. -/
theorem constant_solves_conv (C : FitCfg p ic) (R : Rows n) (l1r : ℝ) (h : ConvexFit C R l1r) (hlb : C.lb = none) (hub : C.ub = none) (s : ℕ → ℝ) (a : ℝ)
    (b0 : ℝ) (hsol : Solves p ic C.lb C.ub (fitObjective p C.e50 C.family C.link R s C.P1a C.P2a a l1r) b0 fun _ => 0) (j : Fin p) :
    |1 / 2 * ∑ i, rowSlope C R i (b0 + (R.off.getD fun _ => 0) i) * R.X i j| ≤ a * l1r * (userP1 C.P1a j * |s j|) := by
  set S := 1 / 2 * ∑ i, rowSlope C R i (b0 + (R.off.getD fun _ => 0) i) * R.X i j with hS
  have key : ∀ σ : ℝ, |σ| = 1 → -(a * l1r * (userP1 C.P1a j * |s j|)) ≤ S * σ := by
    intro σ hσ
    set q := a * (1 - l1r) * (1 / 2 * (userP2 C.P2a j j * (σ * s j) * (σ * s j))) with hq
    have hd : HasDerivAt (fun t : ℝ => 1 / 2 * ∑ i, rowLoss C R i (R.X i j * (t * σ) + b0 + (R.off.getD fun _ => 0) i) + q * t ^ 2) (S * σ) 0 := by
      have h1 : ∀ i, HasDerivAt (fun t : ℝ => rowLoss C R i (R.X i j * (t * σ) + b0 + (R.off.getD fun _ => 0) i))
          (rowSlope C R i (b0 + (R.off.getD fun _ => 0) i) * (R.X i j * σ)) 0 := by
        intro i
        have hl : HasDerivAt (fun t : ℝ => R.X i j * (t * σ) + b0 + (R.off.getD fun _ => 0) i) (R.X i j * σ) 0 := by
          have := ((((hasDerivAt_id (0 : ℝ)).mul_const σ).const_mul (R.X i j)).add_const b0).add_const ((R.off.getD fun _ => 0) i)
          simpa using this
        refine HasDerivAt.comp (h₂ := rowLoss C R i) (0 : ℝ) ?_ hl
        have e : R.X i j * (0 * σ) + b0 + (R.off.getD fun _ => 0) i = b0 + (R.off.getD fun _ => 0) i := by ring
        rw [e]
        exact rowLoss_hasDeriv C R l1r h i _
      have h2 : HasDerivAt (fun t : ℝ => q * t ^ 2) 0 0 := by
        have := ((hasDerivAt_id (0 : ℝ)).pow 2).const_mul q
        simpa using this
      have h3 := (((HasDerivAt.fun_sum fun i (_ : i ∈ (Finset.univ : Finset (Fin n))) => h1 i).const_mul (1 / 2)).fun_add h2)
      refine h3.congr_deriv ?_
      rw [hS, add_zero, mul_assoc, Finset.sum_mul]
      congr 1
      exact Finset.sum_congr rfl fun i _ => by ring
    refine deriv_ge_of_right _ _ _ hd fun t h0 h1 => ?_
    have hm := hsol.2.2 b0 (fun k => if k = j.val then t * σ else 0) hsol.1
      (fun k hk => ⟨fun l hl => (by rw [hlb] at hl; cases hl), fun u hu => (by rw [hub] at hu; cases hu)⟩)
    rw [fitObjective_null] at hm
    unfold fitObjective at hm
    have e1 : ∀ i : Fin n, ∑ k : Fin p, R.X i k * (if k.val = j.val then t * σ else 0) = R.X i j * (t * σ) := by
      intro i
      rw [Finset.sum_eq_single j]
      · rw [if_pos rfl]
      · intro k _ hk; rw [if_neg (fun hh => hk (Fin.ext hh)), mul_zero]
      · intro hh; exact absurd (Finset.mem_univ j) hh
    have e2 : ∑ k : Fin p, userP1 C.P1a k * |(if k.val = j.val then t * σ else 0) * s k| = t * (userP1 C.P1a j * |s j|) := by
      rw [Finset.sum_eq_single j]
      · rw [if_pos rfl, abs_mul, abs_mul, hσ, abs_of_pos h0]; ring
      · intro k _ hk; rw [if_neg (fun hh => hk (Fin.ext hh)), zero_mul, abs_zero, mul_zero]
      · intro hh; exact absurd (Finset.mem_univ j) hh
    have e3 : ∑ k : Fin p, ∑ m : Fin p, userP2 C.P2a k m * ((if k.val = j.val then t * σ else 0) * s k) * ((if m.val = j.val then t * σ else 0) * s m)
        = userP2 C.P2a j j * (σ * s j) * (σ * s j) * t ^ 2 := by
      rw [Finset.sum_eq_single j]
      · rw [Finset.sum_eq_single j]
        · rw [if_pos rfl]; ring
        · intro k _ hk; rw [if_neg (c := k.val = j.val) (fun hh => hk (Fin.ext hh)), zero_mul, mul_zero]
        · intro hh; exact absurd (Finset.mem_univ j) hh
      · intro k _ hk
        refine Finset.sum_eq_zero fun m _ => ?_
        rw [if_neg (c := k.val = j.val) (fun hh => hk (Fin.ext hh)), zero_mul, mul_zero, zero_mul]
      · intro hh; exact absurd (Finset.mem_univ j) hh
    simp only [e1, e2, e3] at hm
    have hnull : interceptDeviance C.family (trueMean C.e50 C.family C.link) R.y R.sw (R.off.getD fun _ => 0) b0
        = ∑ i, rowLoss C R i (b0 + (R.off.getD fun _ => 0) i) := by
      unfold interceptDeviance rowLoss
      exact Finset.sum_congr rfl fun i _ => by rw [add_comm]
    rw [hnull] at hm
    have e4 : ∑ i, rowLoss C R i (R.X i j * (0 * σ) + b0 + (R.off.getD fun _ => 0) i) = ∑ i, rowLoss C R i (b0 + (R.off.getD fun _ => 0) i) :=
      Finset.sum_congr rfl fun i _ => by rw [zero_mul, mul_zero, zero_add]
    rw [e4]
    have hobj : ∑ i, R.sw i * C.family.unitDeviance (R.y i) (trueMean C.e50 C.family C.link (R.X i j * (t * σ) + b0 + (R.off.getD fun _ => 0) i))
        = ∑ i, rowLoss C R i (R.X i j * (t * σ) + b0 + (R.off.getD fun _ => 0) i) := rfl
    rw [hobj] at hm
    rw [hq]
    nlinarith
  have k1 := key 1 (by norm_num)
  have k2 := key (-1) (by norm_num)
  rw [abs_le]
  constructor <;> linarith

/-- At the best constant model the slopes of the rows add up to zero. -/
theorem slopes_sum_zero (C : FitCfg p ic) (R : Rows n) (l1r : ℝ) (h : ConvexFit C R l1r) (b0 : ℝ)
    (hmin : ∀ b, interceptDeviance C.family (trueMean C.e50 C.family C.link) R.y R.sw (R.off.getD fun _ => 0) b0
      ≤ interceptDeviance C.family (trueMean C.e50 C.family C.link) R.y R.sw (R.off.getD fun _ => 0) b) :
    ∑ i, rowSlope C R i (b0 + (R.off.getD fun _ => 0) i) = 0 := by
  have hd : HasDerivAt (interceptDeviance C.family (trueMean C.e50 C.family C.link) R.y R.sw (R.off.getD fun _ => 0))
      (∑ i, rowSlope C R i (b0 + (R.off.getD fun _ => 0) i)) b0 := by
    refine HasDerivAt.fun_sum fun i _ => ?_
    have hl : HasDerivAt (fun b : ℝ => (R.off.getD fun _ => 0) i + b) 1 b0 := (hasDerivAt_id b0).const_add _
    have := HasDerivAt.comp (h₂ := rowLoss C R i) b0 (by
      have := rowLoss_hasDeriv C R l1r h i (b0 + (R.off.getD fun _ => 0) i)
      rw [add_comm b0] at this
      exact this) hl
    rw [mul_one, add_comm _ b0] at this
    exact this
  exact IsLocalMin.hasDerivAt_eq_zero (Filter.Eventually.of_forall hmin) hd

/-- **C93, the threshold.** Without bounds, let `b0` be the best constant model (0 without intercept) and `ψ i` the slope of the weighted deviance of
row `i` there.  The constant model solves the documented problem exactly if, for every feature, half the absolute sum of `ψ i * x i j` is at most
`alpha * l1_ratio * P1 j` times the scale of the feature in the penalty. -/
theorem c93_threshold (C : FitCfg p ic) (R : Rows n) (l1r : ℝ) (h : ConvexFit C R l1r) (hlb : C.lb = none) (hub : C.ub = none) (s : ℕ → ℝ) (a : ℝ)
    (ha : 0 ≤ a) (b0 : ℝ) (hb0 : ic = false → b0 = 0)
    (hmin : ic = true → ∀ b, interceptDeviance C.family (trueMean C.e50 C.family C.link) R.y R.sw (R.off.getD fun _ => 0) b0
      ≤ interceptDeviance C.family (trueMean C.e50 C.family C.link) R.y R.sw (R.off.getD fun _ => 0) b)
    (ψ : Fin n → ℝ) (hψ : ∀ i, HasDerivAt (fun e => R.sw i * C.family.unitDeviance (R.y i) (trueMean C.e50 C.family C.link e)) (ψ i)
      (b0 + (R.off.getD fun _ => 0) i)) :
    Solves p ic C.lb C.ub (fitObjective p C.e50 C.family C.link R s C.P1a C.P2a a l1r) b0 (fun _ => 0) ↔
    ∀ j : Fin p, |1 / 2 * ∑ i, ψ i * R.X i j| ≤ a * l1r * (userP1 C.P1a j * |s j|) := by
  have hψe : ∀ i, ψ i = rowSlope C R i (b0 + (R.off.getD fun _ => 0) i) := fun i => (hψ i).unique (rowLoss_hasDeriv C R l1r h i _)
  simp only [hψe]
  constructor
  · exact fun hsol j => constant_solves_conv C R l1r h hlb hub s a b0 hsol j
  · intro hdom
    refine constant_solves C R l1r h (fun j hj => ⟨fun l hl => ?_, fun u hu => ?_⟩) s a ha b0 hb0 (fun hi => slopes_sum_zero C R l1r h b0 (hmin hi)) hdom
    · rw [hlb] at hl; cases hl
    · rw [hub] at hu; cases hu

/-- **C93, strong penalties.** If every feature has a positive L1 weight (`l1_ratio > 0`, `P1 > 0`), there is a threshold `A`, depending on data and
penalties only, such that every fit with a larger `alpha` and without start values — with any inner solver, iteration limit and tolerance — reports
coefficients that are *exactly* zero, after zero iterations and without warnings. -/
theorem c93_strong_penalty (C : FitCfg p ic) (stats : Stats) (R : Rows n) (l1r : ℝ) (h : ConvexFit C R l1r) (hs : ∀ j, 0 ≤ (stats n R.X R.sw).2 j)
    (hg : 0 < C.gradTol) (hsw : ∑ i, R.sw i = 1) (hcold : C.start = .cold) (hzero : WithinBounds p C.lb C.ub fun _ => 0)
    (hoff : ic = true → R.off = none ∨ (C.family ≠ .binomial ∧ ∀ t, C.family ≠ .negBinomial t)) (hl1 : 0 < l1r)
    (hP1 : ∀ j < p, 0 < userP1 C.P1a j) :
    ∃ A : ℝ, ∀ a, A ≤ a → ∀ (next : (ℕ → BitVec 32) → ℕ → (ℕ → BitVec 32)) (inner : (ℕ → BitVec 32) → (m : ℕ) → Inner m p ic)
      (s s' : SolverLog) (r : PathResult), glmFit C stats (irlsSolver next inner) R l1r (.single a) s = some (s', r) →
      (∀ j, r.coef j = 0) ∧ s'.convWarn = s.convWarn ∧ s'.lsWarn = s.lsWarn ∧ s'.nIter = 0 := by
  cases hgs : startGuess C R with
  | none =>
    refine ⟨0, fun a _ next inner s s' r hfit => ?_⟩
    obtain ⟨Q, hQ, -⟩ := glmFit_spec C stats (irlsSolver next inner) R l1r _ s s' r hfit
    obtain ⟨P1, P2, h1, h2, -⟩ := prepare_spec C stats R l1r Q hQ
    unfold prepare at hQ
    rw [h1, h2, hgs] at hQ
    simp at hQ
  | some g =>
    set b0 : ℝ := if ic then g else 0 with hb0
    set sc := penScale C.thr C.asIfScaled (stats n R.X R.sw).2 with hsc
    set S : Fin p → ℝ := fun j => |1 / 2 * ∑ i, rowSlope C R i (b0 + (R.off.getD fun _ => 0) i) * R.X i j| with hS
    have hstat : ic = true → ∑ i, rowSlope C R i (b0 + (R.off.getD fun _ => 0) i) = 0 := by
      intro hi
      subst hi
      refine slopes_sum_zero C R l1r h b0 fun b => ?_
      obtain ⟨k, hk, -⟩ := h.pair
      rw [hb0, if_pos rfl]
      refine guess_optimal C R h.valid k hk h.y hsw (hoff rfl) g ?_ b
      unfold startGuess at hgs
      rw [hcold] at hgs
      exact hgs
    have hden : ∀ j : Fin p, 0 < l1r * (userP1 C.P1a j * |sc j|) := fun j =>
      mul_pos hl1 (mul_pos (hP1 j j.2) (abs_pos.2 (penScale_ne C.thr h.thr C.asIfScaled _ j)))
    refine ⟨∑ j : Fin p, S j / (l1r * (userP1 C.P1a j * |sc j|)), fun a hA next inner s s' r hfit => ?_⟩
    have hterm : ∀ j : Fin p, 0 ≤ S j / (l1r * (userP1 C.P1a j * |sc j|)) := fun j => div_nonneg (abs_nonneg _) (hden j).le
    have ha : 0 ≤ a := (Finset.sum_nonneg fun j _ => hterm j).trans hA
    have hsol := constant_solves C R l1r h hzero sc a ha b0 (fun hi => by rw [hb0, hi]; rfl) hstat (fun j => by
      have h1 : S j / (l1r * (userP1 C.P1a j * |sc j|)) ≤ a := (Finset.single_le_sum (fun j _ => hterm j) (Finset.mem_univ j)).trans hA
      rw [div_le_iff₀ (hden j)] at h1
      rw [mul_assoc]
      exact h1)
    obtain ⟨Q, hQ, hal, -⟩ := glmFit_spec C stats (irlsSolver next inner) R l1r _ s s' r hfit
    simp only [AlphaSpec.eval, Option.some.injEq] at hal
    have hall : ∀ x ∈ r.alphas, x = a := fun x hx => by rw [← hal] at hx; simpa using hx
    exact (c93_constant_model next inner C stats R l1r h hs hg hsw hcold hzero hoff (.single a) s s' r hfit
      (fun x hx => by rw [hall x hx]; exact ha)).2 fun x hx => ⟨b0, by rw [hall x hx]; exact hsol⟩

theorem setupP1_user (C : FitCfg p ic) (l1r : ℝ) (P1 : ℕ → ℝ) (h1 : setupP1 p 1 l1r C.P1a = some P1) (j : ℕ) : P1 j = l1r * userP1 C.P1a j := by
  cases hP : C.P1a with
  | str s =>
    rw [hP] at h1
    simp only [setupP1] at h1
    split at h1
    · simp only [Option.some.injEq] at h1; rw [← h1]; simp [userP1]
    · simp at h1
  | none =>
    rw [hP] at h1
    simp only [setupP1, Option.some.injEq] at h1; rw [← h1]; simp [userP1]
  | vec len v =>
    rw [hP] at h1
    simp only [setupP1] at h1
    split at h1
    · simp only [Option.some.injEq] at h1; rw [← h1]; simp [userP1]
    · simp at h1

/-- The L1 weight of the standardised problem, measured by the column scale. -/
theorem std_P1_scale (C : FitCfg p ic) (ht : 0 < C.thr) (R : Rows n) (l1r : ℝ) (means stds : ℕ → ℝ) (hs : ∀ j, 0 ≤ stds j) (P1 : ℕ → ℝ) (P2 : Pen2 ℝ)
    (h1 : setupP1 p 1 l1r C.P1a = some P1) (j : ℕ) :
    (stdData C.thr C.asIfScaled means stds (C.problem R P1 P2)).P1 j
      = oneOverStd C.thr 1 (stds j) * (l1r * (userP1 C.P1a j * |penScale C.thr C.asIfScaled stds j|)) := by
  have he : (stdData C.thr C.asIfScaled means stds (C.problem R P1 P2)).P1 j
      = if C.asIfScaled then P1 j else P1 j * oneOverStd C.thr 1 (stds j) := by
    show (standardize C.thr ic C.asIfScaled means stds R.X C.lb C.ub none P1 P2).P1 j = _
    unfold standardize
    simp only
    split <;> rfl
  rw [he, setupP1_user C l1r P1 h1]
  unfold penScale oneOverStd
  rw [abs_of_nonneg (hs j)]
  by_cases hA : C.asIfScaled = true
  · simp only [hA, if_true]
    by_cases hlt : stds j < C.thr
    · simp only [hlt, if_true]; simp
    · have : stds j ≠ 0 := (lt_of_lt_of_le ht (not_lt.1 hlt)).ne'
      simp only [hlt, if_false]
      rw [abs_of_nonneg (hs j)]
      field_simp
  · simp only [hA, Bool.false_eq_true, if_false, abs_one, mul_one]
    ring

/-- The gradient from which the path is computed. -/
theorem featureGradient_cold (C : FitCfg p ic) (R : Rows n) (l1r : ℝ) (h : ConvexFit C R l1r) (means stds : ℕ → ℝ) (hs : ∀ j, 0 ≤ stds j) (P1 : ℕ → ℝ)
    (P2 : Pen2 ℝ) (b0 : ℝ) (w0 : Fin (p + ic.toNat) → ℝ) (h0 : ∀ k, ¬ k.val < ic.toNat → w0 k = 0) (hb : ∀ k, k.val < ic.toNat → w0 k = b0)
    (hb0 : ic = false → b0 = 0) (hclip : ∀ i, b0 + (R.off.getD fun _ => 0) i ∈ unclipped C.e50 C.link)
    (hstat : ic = true → ∑ i, rowSlope C R i (b0 + (R.off.getD fun _ => 0) i) = 0) (D : IRLSData n p ic)
    (hD : D = stdData C.thr C.asIfScaled means stds (C.problem R P1 P2)) (j : ℕ) (hj : j < p) :
    featureGradient (p := p) (ic := ic)
        { X := D.X, y := D.y, sw := D.sw, P2 := D.P2, family := C.family, link := C.link, offset := D.offset, e50 := C.e50 } w0 j
      = oneOverStd C.thr 1 (stds j) * |1 / 2 * ∑ i, rowSlope C R i (b0 + (R.off.getD fun _ => 0) i) * R.X i j| := by
  have hX : D.X = stdX C.thr ic means stds R.X := by rw [hD]; rfl
  have hy : D.y = R.y := by rw [hD]; rfl
  have hw : D.sw = R.sw := by rw [hD]; rfl
  have ho : D.offset = R.off := by rw [hD]; rfl
  rw [hX, hy, hw, ho]
  have heta : ∀ i, safeLinPred ic (stdX C.thr ic means stds R.X) w0 R.off i = b0 + (R.off.getD fun _ => 0) i := by
    intro i
    rw [c12_lin_pred, linPred_zero_features _ _ w0 b0 h0 hb i]
    congr 1
    rcases Bool.eq_false_or_eq_true ic with hi | hi
    · rw [if_pos hi]
    · rw [hi, hb0 hi]; rfl
  have hmean : ∀ i, C.link.inverse C.e50 (b0 + (R.off.getD fun _ => 0) i) = trueMean C.e50 C.family C.link (b0 + (R.off.getD fun _ => 0) i) := by
    intro i
    have hc := hclip i
    unfold trueMean
    split
    · next hf hl =>
      rw [hl] at hc ⊢
      obtain ⟨c1, c2⟩ := hc
      unfold Link.inverse clip50 clip expit
      simp only
      rw [max_eq_left c1.le, min_eq_left c2.le]
    · rfl
  have htemp : ∀ i, C.link.inverseDerivative (b0 + (R.off.getD fun _ => 0) i)
      * (R.sw i * C.family.unitDevianceDerivative (R.y i) (trueMean C.e50 C.family C.link (b0 + (R.off.getD fun _ => 0) i)))
      = rowSlope C R i (b0 + (R.off.getD fun _ => 0) i) := by
    intro i; unfold rowSlope; ring
  unfold featureGradient feat muDevianceDerivative
  rw [dif_pos (by omega)]
  simp only [heta, hmean, htemp]
  rw [if_neg (by omega), Nat.add_sub_cancel]
  have hinv := oneOverStd_pos C.thr (stds j) h.thr (hs j)
  have hsum : ∑ i, rowSlope C R i (b0 + (R.off.getD fun _ => 0) i) * stdX C.thr ic means stds R.X i j
      = oneOverStd C.thr 1 (stds j) * ∑ i, rowSlope C R i (b0 + (R.off.getD fun _ => 0) i) * R.X i j := by
    rcases Bool.eq_false_or_eq_true ic with hi | hi
    · have hz := hstat hi
      have e : ∀ i, rowSlope C R i (b0 + (R.off.getD fun _ => 0) i) * stdX C.thr ic means stds R.X i j
          = oneOverStd C.thr 1 (stds j) * (rowSlope C R i (b0 + (R.off.getD fun _ => 0) i) * R.X i j)
            + rowSlope C R i (b0 + (R.off.getD fun _ => 0) i) * (-(means j * oneOverStd C.thr 1 (stds j))) := by
        intro i
        unfold stdX
        rw [if_pos hi]
        ring
      rw [Finset.sum_congr rfl fun i _ => e i, Finset.sum_add_distrib, ← Finset.mul_sum, ← Finset.sum_mul, hz, zero_mul, add_zero]
    · rw [Finset.mul_sum]
      refine Finset.sum_congr rfl fun i _ => ?_
      unfold stdX
      rw [if_neg (fun hh => by rw [hi] at hh; cases hh)]
      ring
  rw [hsum, ← abs_of_pos hinv, ← abs_mul]
  rw [abs_of_pos hinv, ← abs_neg]
  congr 1
  ring

/-- **C93, the computed path.** With `alpha_search`, every feature L1-penalised, no offset with an intercept, no start values and (logit link) a mean
that is not clipped: the first row of the path — at the largest alpha — has coefficients that are *exactly* zero.  And the path does not start too
high: without bounds, at every later alpha no constant model solves the problem (unless the constant model is optimal without any penalty). -/
theorem c93_path_first (next : (ℕ → BitVec 32) → ℕ → (ℕ → BitVec 32)) (inner : (ℕ → BitVec 32) → (m : ℕ) → Inner m p ic) (C : FitCfg p ic)
    (stats : Stats) (R : Rows n) (l1r : ℝ) (h : ConvexFit C R l1r) (hs : ∀ j, 0 ≤ (stats n R.X R.sw).2 j) (hg : 0 < C.gradTol)
    (hsw : ∑ i, R.sw i = 1) (hcold : C.start = .cold) (hzero : WithinBounds p C.lb C.ub fun _ => 0) (hoff : ic = true → R.off = none) (hl1 : 0 < l1r)
    (hP1 : ∀ j < p, 0 < userP1 C.P1a j)
    (hclip : ∀ g, startGuess C R = some g → ∀ i, (if ic then g else 0) + (R.off.getD fun _ => 0) i ∈ unclipped C.e50 C.link)
    (k : ℕ) (minAlpha minRatio : Option ℝ) (hr : minAlpha = none → ∀ r, minRatio = some r → r < 1) (s s' : SolverLog) (r : PathResult)
    (hfit : glmFit C stats (irlsSolver next inner) R l1r (.search k minAlpha minRatio) s = some (s', r)) :
    (∀ (hc : 0 < r.coefPath.length) (j : ℕ), r.coefPath[0] j = 0) ∧
    (C.lb = none → C.ub = none →
      (∀ b0, ¬ Solves p ic C.lb C.ub
        (fitObjective p C.e50 C.family C.link R (penScale C.thr C.asIfScaled (stats n R.X R.sw).2) C.P1a C.P2a 0 l1r) b0 fun _ => 0) →
      ∀ i (hi : i < r.alphas.length), 0 < i → ∀ b0, ¬ Solves p ic C.lb C.ub
        (fitObjective p C.e50 C.family C.link R (penScale C.thr C.asIfScaled (stats n R.X R.sw).2) C.P1a C.P2a r.alphas[i] l1r) b0 fun _ => 0) := by
  obtain ⟨Q, hQ, hal, hs', hst, -⟩ := glmFit_spec C stats (irlsSolver next inner) R l1r _ s s' r hfit
  obtain ⟨P1, P2, h1, h2, hm, hsd, hD, -⟩ := prepare_spec C stats R l1r Q hQ
  have hstd : ∀ j, 0 ≤ Q.stds j := by rw [hsd]; exact hs
  obtain ⟨g, hgs⟩ : ∃ g, startGuess C R = some g := by
    unfold prepare at hQ
    rw [h1, h2] at hQ
    cases hgg : startGuess C R with
    | none => rw [hgg] at hQ; simp at hQ
    | some g => exact ⟨g, rfl⟩
  set b0 : ℝ := if ic then g else 0 with hb0
  set sc := penScale C.thr C.asIfScaled (stats n R.X R.sw).2 with hsc
  have hoff' : ic = true → R.off = none ∨ (C.family ≠ .binomial ∧ ∀ t, C.family ≠ .negBinomial t) := fun hi => Or.inl (hoff hi)
  have hgi : ic = true → guessIntercept C.family C.link R.y R.sw .none = some g := by
    intro hi
    subst hi
    unfold startGuess at hgs
    rw [hcold, hoff rfl] at hgs
    exact hgs
  have hb0f : ic = false → b0 = 0 := fun hi => by rw [hb0, hi]; rfl
  have hstat : ic = true → ∑ i, rowSlope C R i (b0 + (R.off.getD fun _ => 0) i) = 0 := by
    intro hi
    refine slopes_sum_zero C R l1r h b0 fun b => ?_
    obtain ⟨kk, hk, -⟩ := h.pair
    rw [hb0, if_pos hi]
    exact guess_optimal C R h.valid kk hk h.y hsw (Or.inl (hoff hi)) g (by rw [hoff hi]; exact hgi hi) b
  simp only [AlphaSpec.eval, Prepared.alphas] at hal
  unfold alphaPath at hal
  simp only [Option.bind_eq_bind] at hal
  cases hc : pathCoef (p := p) (ic := ic)
      { X := Q.D.X, y := Q.D.y, sw := Q.D.sw, P2 := Q.D.P2, family := C.family, link := C.link, offset := Q.D.offset, e50 := C.e50 } with
  | none => rw [hc] at hal; cases hal
  | some w0 =>
  rw [hc] at hal
  simp only [Option.bind_some] at hal
  generalize hSD : (SmoothData.mk Q.D.X Q.D.y Q.D.sw Q.D.P2 C.family C.link Q.D.offset C.e50 : SmoothData n p ic) = SD at *
  cases hmx : alphaMax SD Q.D.P1 w0 with
  | none => rw [hmx] at hal; cases hal
  | some M =>
  rw [hmx] at hal
  simp only [Option.bind_some] at hal
  have hM := alphaMax_pos SD Q.D.P1 w0 M hmx
  obtain ⟨-, gfirst, -, gdec, gpos, -⟩ := c39_grid n p k minAlpha minRatio M hM hr _ hal
  have hwb : ∀ q, q.val < ic.toNat → w0 q = b0 := by
    intro q hq
    have hi : ic = true := by rcases Bool.eq_false_or_eq_true ic with hi | hi; exact hi; subst hi; exact absurd hq (by simp)
    obtain ⟨b, e1, e2⟩ := (pathCoef_spec SD w0 hc).2 hi
    rw [e2 q hq, hb0, if_pos hi]
    have hy : SD.y = R.y := by rw [← hSD, hD]; rfl
    have hw : SD.sw = R.sw := by rw [← hSD, hD]; rfl
    have hf : SD.family = C.family := by rw [← hSD]
    have hl : SD.link = C.link := by rw [← hSD]
    rw [hy, hw, hf, hl, hgi hi] at e1
    exact (Option.some.inj e1).symm
  have hfg : ∀ j < p, featureGradient SD w0 j
      = oneOverStd C.thr 1 (Q.stds j) * |1 / 2 * ∑ i, rowSlope C R i (b0 + (R.off.getD fun _ => 0) i) * R.X i j| := by
    intro j hj
    rw [← hSD]
    exact featureGradient_cold C R l1r h Q.means Q.stds hstd P1 P2 b0 w0 (by rw [hSD] at *; exact (pathCoef_spec SD w0 hc).1) hwb hb0f
      (hclip g hgs) hstat Q.D hD j hj
  have hP1e : ∀ j, Q.D.P1 j = oneOverStd C.thr 1 (Q.stds j) * (l1r * (userP1 C.P1a j * |sc j|)) := by
    intro j
    rw [hsc, ← hsd, hD]
    exact std_P1_scale C h.thr R l1r Q.means Q.stds hstd P1 P2 h1 j
  have hinv : ∀ j, 0 < oneOverStd C.thr 1 (Q.stds j) := fun j => oneOverStd_pos C.thr _ h.thr (hstd j)
  have hden : ∀ j < p, 0 < l1r * (userP1 C.P1a j * |sc j|) := fun j hj =>
    mul_pos hl1 (mul_pos (hP1 j hj) (abs_pos.2 (penScale_ne C.thr h.thr C.asIfScaled _ j)))
  have hPpos : ∀ j < p, 0 < Q.D.P1 j := fun j hj => by rw [hP1e]; exact mul_pos (hinv j) (hden j hj)
  have hratio : ∀ j < p, featureGradient SD w0 j / Q.D.P1 j
      = |1 / 2 * ∑ i, rowSlope C R i (b0 + (R.off.getD fun _ => 0) i) * R.X i j| / (l1r * (userP1 C.P1a j * |sc j|)) := by
    intro j hj
    rw [hfg j hj, hP1e j, mul_div_mul_left _ _ (hinv j).ne']
  obtain ⟨m, hraw, hmM⟩ := Option.map_eq_some_iff.1 hmx
  have hp0 : 0 < p := by
    rcases Nat.eq_zero_or_pos p with h0 | h0
    · subst h0
      unfold rawAlphaMax at hraw
      rw [if_pos (fun j hj => absurd hj (by omega))] at hraw
      simp at hraw
    · exact h0
  unfold rawAlphaMax at hraw
  rw [if_neg (fun hh => absurd (hh 0 hp0) (hPpos 0 hp0).ne')] at hraw
  obtain ⟨hmem, hmax⟩ := max?_spec hraw
  have hmle : m ≤ M := by
    rw [← hmM]; split
    · next hz => rw [hz]; norm_num
    · exact le_rfl
  refine ⟨fun hcl j => ?_, fun hlb hub hbetter i hi hi0 b1 hsol => ?_⟩
  · have hlen := (c41_stored C.thr Q.means Q.stds r.alphas _ r hst)
    obtain ⟨-, l1', l2', -, -, -, -⟩ := hlen
    obtain ⟨hlp, -⟩ := c41_path (Q.solveFn (irlsSolver next inner)) Q.D.P1 Q.D.P2 r.alphas s Q.start
    have hal0 : 0 < r.alphas.length := by
      unfold Prepared.path at l1'
      rw [← hlp, ← l1']; exact hcl
    have hin : 0 < r.interceptPath.length := by
      unfold Prepared.path at l1' l2'
      rw [l2', ← l1']; exact hcl
    have ha0 := gfirst hal0
    have hsol := constant_solves C R l1r h hzero sc M hM.le b0 hb0f hstat (fun j => by
      have h3 := hmax (featureGradient SD w0 j / Q.D.P1 j)
        (List.mem_map.2 ⟨j, List.mem_filter.2 ⟨List.mem_range.2 j.2, by simpa using hPpos j j.2⟩, rfl⟩)
      rw [hratio j j.2, div_le_iff₀ (hden j j.2)] at h3
      rw [mul_assoc]
      exact h3.trans (mul_le_mul_of_nonneg_right hmle (hden j j.2).le))
    exact ((c93_constant_model next inner C stats R l1r h hs hg hsw hcold hzero hoff' _ s s' r hfit (fun x hx => (gpos x hx).le)).1 0 hal0 hcl hin b0
      (fun q hq hq0 => ⟨b0, by
        have : q = 0 := by omega
        subst this
        rw [ha0]
        exact hsol⟩) (by rw [ha0]; exact hsol)).2 j
  · -- `b1` is the guess
    have e1 : b1 = b0 := constant_is_guess C R l1r h hsw hcold hoff' g hgs sc r.alphas[i] b1 hsol
    subst e1
    obtain ⟨j0, hj0, hjm⟩ := List.mem_map.1 hmem
    have hj0p : j0 < p := List.mem_range.1 (List.mem_filter.1 hj0).1
    have h3 := constant_solves_conv C R l1r h hlb hub sc r.alphas[i] _ hsol ⟨j0, hj0p⟩
    have h4 : m ≤ r.alphas[i] := by
      rw [← hjm, hratio j0 hj0p, div_le_iff₀ (hden j0 hj0p), ← mul_assoc]
      exact h3
    have h5 : r.alphas[i] < M := by
      have := gdec 0 i (by omega) hi hi0
      rw [gfirst (by omega)] at this
      exact this
    have h6 : m = 0 := by
      by_contra hne
      rw [if_neg hne] at hmM
      linarith
    -- all slopes vanish, so the constant model is optimal without penalty
    have hS0 : ∀ j : Fin p, |1 / 2 * ∑ i, rowSlope C R i (b0 + (R.off.getD fun _ => 0) i) * R.X i j| ≤ 0 := by
      intro j
      have h3 := hmax (featureGradient SD w0 j / Q.D.P1 j)
        (List.mem_map.2 ⟨j, List.mem_filter.2 ⟨List.mem_range.2 j.2, by simpa using hPpos j j.2⟩, rfl⟩)
      rw [hratio j j.2, div_le_iff₀ (hden j j.2), h6, zero_mul] at h3
      exact h3
    exact hbetter b0 (constant_solves C R l1r h hzero sc 0 le_rfl b0 hb0f hstat (fun j => by rw [zero_mul, zero_mul]; exact hS0 j))

/-! ### Non-vacuity -/

noncomputable section

/-- Four rows whose response does not depend on the feature; `c` is the unit of the response. -/
def flatRows (c : ℝ) : Rows 4 where
  X := fun i _ => if i.val < 2 then 1 else -1
  y := fun i => if i.val % 2 = 0 then c else 3 * c
  sw := fun _ => 1 / 4
  off := none

/-- Poisson regression with log link and a ridge penalty, tolerance `tol`. -/
def flatCfg (tol : ℝ) : FitCfg 1 true := { tinyCfg 5 5 with family := .poisson, link := .log, gradTol := tol }

theorem flat_convex (tol c l1r : ℝ) (hc : 0 < c) (hl : 0 ≤ l1r ∧ l1r ≤ 1) : ConvexFit (flatCfg tol) (flatRows c) l1r where
  thr := by norm_num [flatCfg, tinyCfg]
  valid := by trivial
  pair := ⟨.poissonLog, rfl, by simp⟩
  y := fun i => by
    show (0 : ℝ) ≤ _
    simp only [flatRows]
    split <;> linarith
  sw := fun i => by norm_num [flatRows]
  p1 := fun j => by simp [flatCfg, tinyCfg, userP1]
  p2 := fun v => by
    simp [flatCfg, tinyCfg, userP2]
    exact mul_self_nonneg _
  l1 := hl

theorem flat_guess (tol c : ℝ) (hc : 0 < c) (e : EtaArg 4) (he : e = .none) :
    guessIntercept (flatCfg tol).family (flatCfg tol).link (flatRows c).y (flatRows c).sw e = some (Real.log (2 * c)) := by
  subst he
  show guessIntercept .poisson .log (flatRows c).y (flatRows c).sw .none = some (Real.log (2 * c))
  unfold guessIntercept
  rw [if_neg (by
    rintro ⟨-, d, hd⟩
    have h0 := hd 0
    have h1 := hd 1
    simp [flatRows] at h0 h1
    linarith)]
  have ha : average (flatRows c).y (flatRows c).sw = 2 * c := by
    simp [average, flatRows, Fin.sum_univ_four]
    ring
  simp only [ha]
  unfold safeLog
  rw [if_pos (by linarith)]
  rfl

theorem flat_fit (next : (ℕ → BitVec 32) → ℕ → (ℕ → BitVec 32)) (inner : (ℕ → BitVec 32) → (m : ℕ) → Inner m 1 true) (tol c l1r a : ℝ) (ht : 0 < tol)
    (hc : 0 < c) (hl : 0 ≤ l1r ∧ l1r ≤ 1) (ha : 0 ≤ a) (s : SolverLog) :
    ∃ t r, glmFit (flatCfg tol) trueStats (irlsSolver next inner) (flatRows c) l1r (.single a) s = some (t, r) ∧ (∀ j, r.coef j = 0) ∧
      t.convWarn = s.convWarn ∧ t.lsWarn = s.lsWarn ∧ t.nIter = 0 := by
  have hg : startGuess (flatCfg tol) (flatRows c) = some (Real.log (2 * c)) := flat_guess tol c hc _ rfl
  obtain ⟨Q, hQ⟩ : ∃ Q, prepare (flatCfg tol) trueStats (flatRows c) l1r = some Q := by
    unfold prepare
    rw [hg]
    exact ⟨_, rfl⟩
  obtain ⟨r, hr, -⟩ := glmFit_single (flatCfg tol) trueStats (irlsSolver next inner) (flatRows c) l1r a s Q hQ (by rintro ⟨l, u, h, -⟩; cases h) (fun _ => rfl)
  refine ⟨_, r, hr, ?_⟩
  obtain ⟨Q', -, hal, -⟩ := glmFit_spec _ _ _ _ _ _ _ _ _ hr
  simp only [AlphaSpec.eval, Option.some.injEq] at hal
  have hall : ∀ x ∈ r.alphas, x = a := fun x hx => by rw [← hal] at hx; simpa using hx
  have hsol := constant_solves (flatCfg tol) (flatRows c) l1r (flat_convex tol c l1r hc hl) (fun j _ => ⟨fun l hl => (by cases hl), fun u hu => (by cases hu)⟩)
    (penScale (flatCfg tol).thr (flatCfg tol).asIfScaled (trueStats 4 (flatRows c).X (flatRows c).sw).2) a ha (Real.log (2 * c)) (fun h => by cases h)
    (fun _ => slopes_sum_zero (flatCfg tol) (flatRows c) l1r (flat_convex tol c l1r hc hl) _ fun b =>
      guess_optimal (flatCfg tol) (flatRows c) trivial .poissonLog rfl (flat_convex tol c l1r hc hl).y (by simp [flatRows]) (Or.inl rfl) _
        (flat_guess tol c hc _ rfl) b) (fun j => by
      have h0 : 1 / 2 * ∑ i, rowSlope (flatCfg tol) (flatRows c) i (Real.log (2 * c) + ((flatRows c).off.getD fun _ => 0) i) * (flatRows c).X i j = 0 := by
        have e : ∀ i : Fin 4, (fun _ : Fin 4 => (0 : ℝ)) i = 0 := fun _ => rfl
        have hex : Real.exp (Real.log (2 * c)) = 2 * c := Real.exp_log (by linarith)
        simp only [rowSlope, flatCfg, flatRows, tinyCfg, Option.getD_none, add_zero, Fin.sum_univ_four, trueMean, Link.inverse, Link.inverseDerivative,
          Family.unitDevianceDerivative, Family.unitVariance, hex]
        simp
      rw [h0, abs_zero]
      exact mul_nonneg (mul_nonneg ha hl.1) (mul_nonneg (by simp [flatCfg, tinyCfg, userP1]) (abs_nonneg _)))
  exact (c93_constant_model next inner (flatCfg tol) trueStats (flatRows c) l1r (flat_convex tol c l1r hc hl) (fun j => Real.sqrt_nonneg _) ht
    (by simp [flatRows]) rfl (fun j _ => ⟨fun l hl => (by cases hl), fun u hu => (by cases hu)⟩) (fun _ => Or.inl rfl) _ s _ r hr
    (fun x hx => by rw [hall x hx]; exact ha)).2 fun x hx => ⟨Real.log (2 * c), by rw [hall x hx]; exact hsol⟩

/-- The lasso on the two rows (`l1_ratio = 1`) with a computed path of three alphas: the fit succeeds, and the first row is zero. -/
example (next : (ℕ → BitVec 32) → ℕ → (ℕ → BitVec 32)) (inner : (ℕ → BitVec 32) → (m : ℕ) → Inner m 1 true) (s : SolverLog) :
    ∃ t r, glmFit (tinyCfg 5 5) trueStats (irlsSolver next inner) tinyRows 1 (.search 3 none none) s = some (t, r) ∧
      ∃ hc : 0 < r.coefPath.length, r.coefPath[0] 0 = 0 := by
  have hcv : ConvexFit (tinyCfg 5 5) tinyRows 1 := ⟨(tiny_convex 5 5).thr, (tiny_convex 5 5).valid, (tiny_convex 5 5).pair, (tiny_convex 5 5).y,
    (tiny_convex 5 5).sw, (tiny_convex 5 5).p1, (tiny_convex 5 5).p2, zero_le_one, le_rfl⟩
  obtain ⟨g, hg⟩ : ∃ g, guessIntercept .normal .identity tinyRows.y tinyRows.sw .none = some g := by
    unfold guessIntercept
    rw [if_neg (by simp)]
    exact ⟨_, rfl⟩
  have hg' : startGuess (tinyCfg 5 5) tinyRows = some g := hg
  obtain ⟨Q, hQ⟩ : ∃ Q, prepare (tinyCfg 5 5) trueStats tinyRows 1 = some Q := by
    unfold prepare
    rw [hg']
    exact ⟨_, rfl⟩
  obtain ⟨P1, P2, h1, h2, hm, hsd, hD, -⟩ := prepare_spec _ _ _ _ _ hQ
  have hstd : ∀ j, 0 ≤ Q.stds j := by rw [hsd]; exact fun j => Real.sqrt_nonneg _
  have hp : 0 < Q.D.P1 0 := by
    rw [hD, std_P1_scale (tinyCfg 5 5) hcv.thr tinyRows 1 Q.means Q.stds hstd P1 P2 h1 0]
    refine mul_pos (oneOverStd_pos _ _ hcv.thr (hstd 0)) ?_
    simp [tinyCfg, userP1, penScale]
  obtain ⟨l, hl⟩ : ∃ l, Q.alphas (tinyCfg 5 5) 3 none none = some l := by
    unfold Prepared.alphas alphaPath
    have hpc : ∃ w, pathCoef (p := 1) (ic := true) { X := Q.D.X, y := Q.D.y, sw := Q.D.sw, P2 := Q.D.P2, family := (tinyCfg 5 5).family, link := (tinyCfg 5 5).link, offset := Q.D.offset, e50 := (tinyCfg 5 5).e50 } = some w := by
      unfold pathCoef
      rw [if_pos rfl]
      have hy : Q.D.y = tinyRows.y := by rw [hD]; rfl
      have hw : Q.D.sw = tinyRows.sw := by rw [hD]; rfl
      show ∃ w, (guessIntercept .normal .identity Q.D.y Q.D.sw .none).map _ = some w
      rw [hy, hw, hg]
      exact ⟨_, rfl⟩
    obtain ⟨w, hw⟩ := hpc
    rw [hw]
    generalize (SmoothData.mk Q.D.X Q.D.y Q.D.sw Q.D.P2 (tinyCfg 5 5).family (tinyCfg 5 5).link Q.D.offset (tinyCfg 5 5).e50 : SmoothData 2 1 true) = SD
    have hmx : ∃ M, alphaMax SD Q.D.P1 w = some M := by
      unfold alphaMax rawAlphaMax
      rw [if_neg (fun hh => absurd (hh 0 zero_lt_one) hp.ne')]
      have hf : (List.range 1).filter (fun j => decide (0 < Q.D.P1 j)) = [0] := by
        simp [List.range_succ, hp]
      have : ∃ m, (((List.range 1).filter fun j => decide (0 < Q.D.P1 j)).map fun j => featureGradient SD w j / Q.D.P1 j).max? = some m := by
        rw [hf]; exact ⟨_, rfl⟩
      obtain ⟨m, hm⟩ := this
      refine ⟨if m = 0 then 10 else m, ?_⟩
      have := congrArg (Option.map fun m : ℝ => if m = 0 then 10 else m) hm
      simp only [Option.map_some] at this
      convert this using 1
    obtain ⟨M, hM⟩ := hmx
    simp only [Option.bind_eq_bind, Option.bind_some, hM]
    have hpos := alphaMax_pos SD Q.D.P1 w M hM
    unfold makeGrid gridMin
    simp only [Option.bind_eq_bind, Option.bind_some]
    rw [if_neg (not_le.2 (mul_pos hpos (by norm_num)))]
    exact ⟨_, rfl⟩
  have hll : l.length = 3 := by
    unfold Prepared.alphas alphaPath at hl
    simp only [Option.bind_eq_bind] at hl
    obtain ⟨w, -, hl⟩ := Option.bind_eq_some_iff.1 hl
    obtain ⟨M, hM, hl⟩ := Option.bind_eq_some_iff.1 hl
    exact (c39_grid 2 1 3 none none M (alphaMax_pos _ _ _ _ hM) (by simp) l hl).1
  obtain ⟨t, r, hr⟩ : ∃ t r, glmFit (tinyCfg 5 5) trueStats (irlsSolver next inner) tinyRows 1 (.search 3 none none) s = some (t, r) := by
    unfold glmFit
    rw [if_neg (by rintro ⟨l, u, h, -⟩; cases h), h2, hQ]
    simp only [Option.bind_eq_bind, Option.bind_some, AlphaSpec.eval, hl]
    rw [if_neg (by simp [tinyCfg])]
    obtain ⟨hlen, -⟩ := c41_path (Q.solveFn (irlsSolver next inner)) Q.D.P1 Q.D.P2 l s Q.start
    unfold storePath Prepared.path
    generalize hrows : (solvePath (Q.solveFn (irlsSolver next inner)) Q.D.P1 Q.D.P2 l s Q.start).2 = rows at *
    cases hrl : (rows.map (report true (tinyCfg 5 5).thr Q.means Q.stds)).getLast? with
    | none =>
      have h0 : rows = [] := by simpa using hrl
      rw [h0, hll] at hlen
      simp at hlen
    | some last =>
      simp only [Option.bind_eq_bind, Option.bind_some, hrl]
      exact ⟨_, _, rfl⟩
  refine ⟨t, r, hr, ?_⟩
  have hfirst := (c93_path_first next inner (tinyCfg 5 5) trueStats tinyRows 1 hcv (fun j => Real.sqrt_nonneg _) (by norm_num [tinyCfg])
    (by simp [tinyRows]) rfl (fun j _ => ⟨fun l hl => (by cases hl), fun u hu => (by cases hu)⟩) (fun _ => rfl) one_pos
    (fun j _ => by simp [tinyCfg, userP1]) (fun _ _ _ => trivial) 3 none none (fun _ r h => by cases h) s t r hr).1
  have hlen : 0 < r.coefPath.length := by
    obtain ⟨Q', hQ', hal, hs', hst, -⟩ := glmFit_spec _ _ _ _ _ _ _ _ _ hr
    rw [hQ] at hQ'
    obtain rfl := Option.some.inj hQ'
    obtain ⟨-, l1', -⟩ := c41_stored _ Q.means Q.stds r.alphas _ r hst
    obtain ⟨hlp, -⟩ := c41_path (Q.solveFn (irlsSolver next inner)) Q.D.P1 Q.D.P2 r.alphas s Q.start
    simp only [AlphaSpec.eval] at hal
    rw [hl] at hal
    have e := Option.some.inj hal
    unfold Prepared.path at l1'
    rw [l1', hlp, ← e, hll]
    norm_num
  exact ⟨hlen, hfirst hlen 0⟩

end

end Glum
