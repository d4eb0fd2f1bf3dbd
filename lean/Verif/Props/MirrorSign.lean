import Verif.Props.MirrorFit
/-
C88 for whole fits.
-/
set_option linter.unusedSectionVars false
set_option linter.unusedVariables false
set_option linter.unusedSimpArgs false

namespace Glum
open Spec

noncomputable section

variable {n p : ℕ} {ic : Bool}

/-- An inner solver that has no preferred sign. -/
def Spec.SignBlind (inner : (m : ℕ) → Inner m p ic) : Prop :=
  ∀ (n : ℕ) (τ : ℝ) (s : Fin (p + ic.toNat) → ℝ) (D' D : IRLSData n p ic), Mirror τ s (fun _ => 0) D' D → FeatureBoundsOrdered p D.lb D.ub →
    MirrorInner τ s (fun _ => 0) D' D (inner n) (inner n)

/-- **C88, the coordinate-descent solver** has no preferred sign. -/
theorem c88_signBlind_cd (seeds : ℕ → BitVec 32) : SignBlind (p := p) (ic := ic) fun _ => cdInner seeds :=
  fun _ _ _ _ _ M ho => mirrorInner_cd M ho seeds

/-- A linear solver that commutes with changes of sign.  Where the system has one solution, solving it is enough (`solve_mirror`). -/
def Spec.SignEquivariant {m : ℕ} (solve : (Fin m → Fin m → ℝ) → (Fin m → ℝ) → (Fin m → ℝ)) : Prop :=
  ∀ s : Fin m → ℝ, (∀ j, s j = 1 ∨ s j = -1) → ∀ H b, solve (fun i j => s i * s j * H i j) (fun i => s i * b i) = fun j => s j * solve H b j

/-- **C88, the least-squares solver**, with a linear solver that commutes with changes of sign. -/
theorem c88_signBlind_ls (solve : (Fin (p + ic.toNat) → Fin (p + ic.toNat) → ℝ) → (Fin (p + ic.toNat) → ℝ) → (Fin (p + ic.toNat) → ℝ))
    (hsol : SignEquivariant solve) : SignBlind (p := p) (ic := ic) fun _ => lsInner solve := by
  intro n τ s D' D M ho st' st h
  refine ⟨?_, rfl⟩
  unfold lsInner
  simp only
  have hH : st'.hs.H = fun i j => s i * s j * st.hs.H i j := funext fun i => funext fun j => h.hs.H i j
  have hb : st'.score = fun i => s i * st.score i := funext h.score
  rw [hH, hb]
  exact hsol s M.sign _ _

theorem signEquivariant_invSolve {m : ℕ} : SignEquivariant (invSolve (m := m)) := by
  intro s hs H b
  have hS : Matrix.diagonal s * Matrix.diagonal s = 1 := by
    rw [Matrix.diagonal_mul_diagonal]
    have : (fun i => s i * s i) = fun _ => (1 : ℝ) := funext fun i => sign_sq (hs i)
    rw [this, Matrix.diagonal_one]
  have hinv : (Matrix.diagonal s)⁻¹ = Matrix.diagonal s := Matrix.inv_eq_right_inv hS
  have hM : Matrix.of (fun i j => s i * s j * H i j) = Matrix.diagonal s * Matrix.of H * Matrix.diagonal s := by
    ext i j
    rw [Matrix.mul_diagonal, Matrix.diagonal_mul]
    simp only [Matrix.of_apply]
    ring
  have hb : (fun i => s i * b i) = (Matrix.diagonal s).mulVec b := by
    funext i; rw [Matrix.mulVec_diagonal]
  unfold invSolve
  rw [hM, hb, Matrix.mul_inv_rev, Matrix.mul_inv_rev, hinv, Matrix.mulVec_mulVec, Matrix.mul_assoc, Matrix.mul_assoc, hS, Matrix.mul_one,
    ← Matrix.mulVec_mulVec]
  funext i
  rw [Matrix.mulVec_diagonal]

theorem bounds_mirror_bad {c : ℕ → ℝ} (swap : Bool) (C : FitCfg p ic) (lb' ub' : Option (ℕ → ℝ))
    (hb : ∀ j < p, MirrorBounds (labelSign swap * c j) (lb'.map (· j)) (ub'.map (· j)) (C.lb.map (· j)) (C.ub.map (· j))) :
    (mirrorCfg c swap lb' ub' C).boundsBad ↔ C.boundsBad := by
  have e : ∀ lb ub : Option (ℕ → ℝ), (∃ l u, lb = some l ∧ ub = some u ∧ ∃ j < p, u j < l j)
      ↔ ∃ j < p, ∃ x y, lb.map (· j) = some x ∧ ub.map (· j) = some y ∧ y < x := by
    intro lb ub
    constructor
    · rintro ⟨l, u, rfl, rfl, j, hj, h⟩
      exact ⟨j, hj, l j, u j, rfl, rfl, h⟩
    · rintro ⟨j, hj, x, y, hx, hy, h⟩
      cases lb with
      | none => cases hx
      | some l =>
        cases ub with
        | none => cases hy
        | some u =>
          simp only [Option.map_some, Option.some.injEq] at hx hy
          exact ⟨l, u, rfl, rfl, j, hj, by rw [hx, hy]; exact h⟩
  unfold FitCfg.boundsBad
  rw [e, e]
  show (∃ j < p, ∃ x y, lb'.map (· j) = some x ∧ ub'.map (· j) = some y ∧ y < x) ↔ _
  refine exists_congr fun j => and_congr_right fun hj => ?_
  rcases hb j hj with ⟨-, h1, h2⟩ | ⟨-, h1, h2⟩
  · rw [h1, h2]
  · rw [h1, h2]
    constructor
    · rintro ⟨x, y, hx, hy, h⟩
      rcases hl : C.lb.map (· j) with _ | l
      · rw [hl] at hy; cases hy
      · rcases hu : C.ub.map (· j) with _ | u
        · rw [hu] at hx; cases hx
        · rw [hl] at hy; rw [hu] at hx
          simp only [Option.map_some, Option.some.injEq] at hx hy
          exact ⟨l, u, hl, hu, by linarith⟩
    · rintro ⟨x, y, hx, hy, h⟩
      rw [hx, hy]
      exact ⟨-y, -x, rfl, rfl, by linarith⟩

/-- **C88.** Any family, link, penalties, bounds, start, alphas and offset, solved with an IRLS solver.  Multiply some features by −1 (`c j = ±1`), with
the bounds of these coefficients negated and exchanged (`lb'`, `ub'`) and the penalty matrix and start changed accordingly; and, for a logistic regression,
optionally exchange the two labels and negate the offset.  The fit does exactly the same (iterations, warnings, alphas, recorded objective values) and
reports the same model: the coefficients with the changed signs. -/
theorem c88_fit (next : (ℕ → BitVec 32) → ℕ → (ℕ → BitVec 32)) (inner : (ℕ → BitVec 32) → (m : ℕ) → Inner m p ic) (hin : ∀ s, SignBlind (inner s))
    (C : FitCfg p ic) (ht : 0 < C.thr) (stats : Stats) (hst : TrueStats stats) (R : Rows n) (hw : ∑ i, R.sw i = 1)
    (c : ℕ → ℝ) (hc : ∀ j, c j = 1 ∨ c j = -1) (swap : Bool) (hs : SwapOK C swap) (lb' ub' : Option (ℕ → ℝ))
    (hb : ∀ j < p, MirrorBounds (labelSign swap * c j) (lb'.map (· j)) (ub'.map (· j)) (C.lb.map (· j)) (C.ub.map (· j))) (l1 : ℝ)
    (hok : ∀ P P', setupP2 p C.xsp 1 l1 C.P2a = some P → setupP2 p C.xsp 1 l1 (mirrorP2 c C.P2a) = some P' → C.p2ok P' = C.p2ok P)
    (a : AlphaSpec) (s : SolverLog) :
    glmFit (mirrorCfg c swap lb' ub' C) stats (irlsSolver next inner) (mirrorRows c swap R) l1 a s
      = (glmFit C stats (irlsSolver next inner) R l1 a s).map fun tr => (tr.1, mirrorResult c swap tr.2) := by
  obtain ⟨hm, hsd⟩ := stats_mirror stats hst R hc swap
  have hstd : ∀ j, 0 ≤ (stats n R.X R.sw).2 j := fun j => by rw [(hst n R.X R.sw j).2]; exact Real.sqrt_nonneg _
  generalize hms' : stats n (mirrorRows c swap R).X (mirrorRows c swap R).sw = ms' at hm hsd
  generalize hms : stats n R.X R.sw = ms at hm hsd hstd
  obtain ⟨m', sd'⟩ := ms'
  obtain ⟨me, sd⟩ := ms
  simp only at hm hsd hstd
  subst hsd
  have hg : startGuess (mirrorCfg c swap lb' ub' C) (mirrorRows c swap R) = (startGuess C R).map fun g => if ic = true ∧ C.start matches .cold then labelSign swap * g else g := by
    unfold startGuess
    cases ic with
    | false => rfl
    | true =>
      have hstart : (mirrorCfg c swap lb' ub' C).start = mirrorStart c swap C.start := rfl
      rw [hstart]
      cases C.start with
      | previous v => rfl
      | given v => rfl
      | cold =>
        simp only [mirrorStart]
        show guessIntercept C.family C.link (fun i => if swap then 1 - R.y i else R.y i) R.sw ((if swap then R.off.map fun o i => -o i else R.off).elim .none .array) = _
        cases swap with
        | false => simp [labelSign]
        | true =>
          have := guess_swap R.y R.sw hw C.family R.off
          simp only [if_true, labelSign, neg_one_mul, (hs rfl).2.1, and_self]
          exact this
  unfold glmFit
  have hbb := bounds_mirror_bad swap C lb' ub' hb
  by_cases hbad : C.boundsBad
  · rw [if_pos hbad, if_pos (hbb.2 hbad)]; rfl
  rw [if_neg hbad, if_neg fun h => hbad (hbb.1 h)]
  have hord : FeatureBoundsOrdered p C.lb C.ub := by
    intro l u hl hu k hk
    by_contra h
    exact hbad ⟨l, u, hl, hu, k, hk, not_le.1 h⟩
  have hP2a : (mirrorCfg c swap lb' ub' C).P2a = mirrorP2 c C.P2a := rfl
  have hxsp : (mirrorCfg c swap lb' ub' C).xsp = C.xsp := rfl
  have hpok : (mirrorCfg c swap lb' ub' C).p2ok = C.p2ok := rfl
  rw [hP2a, hxsp, hpok]
  rcases mirrorP2_setup p C.xsp hc l1 C.P2a with ⟨h1, h2⟩ | ⟨P, P', h1, h2, hP⟩
  · rw [h1, h2]; rfl
  rw [h1, h2]
  simp only [Option.bind_eq_bind, Option.bind_some]
  rw [hok P P' h1 h2]
  split
  · rfl
  cases hP1 : setupP1 p 1 l1 C.P1a with
  | none =>
    have e1 : prepare (mirrorCfg c swap lb' ub' C) stats (mirrorRows c swap R) l1 = none := by
      unfold prepare
      have : (mirrorCfg c swap lb' ub' C).P1a = C.P1a := rfl
      rw [this, hP1]; rfl
    have e2 : prepare C stats R l1 = none := by unfold prepare; rw [hP1]; rfl
    rw [e1, e2]; rfl
  | some P1 =>
    cases hG : startGuess C R with
    | none =>
      have e1 : prepare (mirrorCfg c swap lb' ub' C) stats (mirrorRows c swap R) l1 = none := by
        unfold prepare
        have : (mirrorCfg c swap lb' ub' C).P1a = C.P1a := rfl
        rw [this, hP1, hP2a, hxsp, h2, hg, hG]; rfl
      have e2 : prepare C stats R l1 = none := by unfold prepare; rw [hP1, h1, hG]; rfl
      rw [e1, e2]; rfl
    | some g =>
      set g' : ℝ := if ic = true ∧ C.start matches .cold then labelSign swap * g else g with hg'
      have e1 : prepare (mirrorCfg c swap lb' ub' C) stats (mirrorRows c swap R) l1
          = some { means := m', stds := sd', D := stdData C.thr C.asIfScaled m' sd' ((mirrorCfg c swap lb' ub' C).problem (mirrorRows c swap R) P1 P'), A := C.A.map fun a r j => a r j * oneOverStd C.thr 1 (sd' j), start := getStartCoef ic C.thr m' sd' g' lb' ub' (mirrorStart c swap C.start) } := by
        unfold prepare
        have : (mirrorCfg c swap lb' ub' C).P1a = C.P1a := rfl
        rw [this, hP1, hP2a, hxsp, h2, hg, hG, hms']; rfl
      have e2 : prepare C stats R l1
          = some { means := me, stds := sd', D := stdData C.thr C.asIfScaled me sd' (C.problem R P1 P), A := C.A.map fun a r j => a r j * oneOverStd C.thr 1 (sd' j), start := getStartCoef ic C.thr me sd' g C.lb C.ub C.start } := by
        unfold prepare
        rw [hP1, h1, hG, hms]; rfl
      rw [e1, e2]
      simp only [Option.bind_some]
      have hstart : getStartCoef ic C.thr m' sd' g' lb' ub' (mirrorStart c swap C.start)
          = mirrored (signs p ic c swap) (fun _ => 0) (getStartCoef ic C.thr me sd' g C.lb C.ub C.start) := by
        funext k
        unfold mirrored getStartCoef
        rw [add_zero]
        refine clipStart_mirror swap hord hb ?_ k
        intro k
        cases hsrc : C.start with
        | cold =>
          refine rawStart_mirror hc swap C.thr hm sd' (g := g) (fun hic => ?_) .cold k
          rw [hg', if_pos ⟨hic, by rw [hsrc]⟩]
        | previous v => exact rawStart_mirror (g' := labelSign swap * g) hc swap C.thr hm sd' (g := g) (fun hic => rfl) (.previous v) k
        | given v => exact rawStart_mirror (g' := labelSign swap * g) hc swap C.thr hm sd' (g := g) (fun hic => rfl) (.given v) k
      rw [hstart]
      set D' := stdData C.thr C.asIfScaled m' sd' ((mirrorCfg c swap lb' ub' C).problem (mirrorRows c swap R) P1 P') with hD'
      set D := stdData C.thr C.asIfScaled me sd' (C.problem R P1 P) with hD
      have hev : a.eval (mirrorCfg c swap lb' ub' C) { means := m', stds := sd', D := D', A := C.A.map fun a r j => a r j * oneOverStd C.thr 1 (sd' j), start := mirrored (signs p ic c swap) (fun _ => 0) (getStartCoef ic C.thr me sd' g C.lb C.ub C.start) }
          = a.eval C { means := me, stds := sd', D := D, A := C.A.map fun a r j => a r j * oneOverStd C.thr 1 (sd' j), start := getStartCoef ic C.thr me sd' g C.lb C.ub C.start } := by
        cases a with
        | single x => rfl
        | given l => rfl
        | search k lo ratio =>
          exact alphas_mirror (p := p) (ic := ic) { X := D.X, y := D.y, sw := D.sw, P2 := D.P2, family := C.family, link := C.link, offset := D.offset, e50 := C.e50 } hc swap
            (fun h => ⟨(hs h).1, (hs h).2.1, (hs h).2.2.1⟩) (fun _ => hw) D'.X (fun i j => stdX_mirror C.thr ic sd' hm R.X i j) D'.P2 D.P1 k lo ratio
      rw [hev]
      cases a.eval C { means := me, stds := sd', D := D, A := C.A.map fun a r j => a r j * oneOverStd C.thr 1 (sd' j), start := getStartCoef ic C.thr me sd' g C.lb C.ub C.start } with
      | none => rfl
      | some al =>
        simp only [Option.bind_some]
        have hM : ∀ P1x x, Mirror (labelSign swap) (signs p ic c swap) (fun _ => 0) (D'.withPen P1x (D'.P2.smul x)) (D.withPen P1x (D.P2.smul x)) :=
          fun P1x x => std_mirror C hc swap hs lb' ub' hb R hm sd' P1 hP P1x x
        have hbd : ∀ P1x x, FeatureBoundsOrdered p (D.withPen P1x (D.P2.smul x)).lb (D.withPen P1x (D.P2.smul x)).ub := by
          intro P1x x l u hl hu k hk
          have hl' : (C.lb.map fun l j => l j / oneOverStd C.thr 1 (sd' j)) = some l := hl
          have hu' : (C.ub.map fun u j => u j / oneOverStd C.thr 1 (sd' j)) = some u := hu
          cases hcl : C.lb with
          | none => rw [hcl] at hl'; cases hl'
          | some l0 =>
            cases hcu : C.ub with
            | none => rw [hcu] at hu'; cases hu'
            | some u0 =>
              rw [hcl] at hl'; rw [hcu] at hu'
              simp only [Option.map_some, Option.some.injEq] at hl' hu'
              subst hl' hu'
              exact div_le_div_of_nonneg_right (hord l0 u0 hcl hcu k hk) (oneOverStd_pos C.thr _ ht (hstd k)).le
        have hpath := path_mirror next inner (D' := D') (D := D) (by rfl) hM
          (fun seeds P1x x => hin seeds n _ _ _ _ (hM P1x x) (hbd P1x x)) m' me sd' (C.A.map fun a r j => a r j * oneOverStd C.thr 1 (sd' j))
          (C.A.map fun a r j => a r j * oneOverStd C.thr 1 (sd' j)) (getStartCoef ic C.thr me sd' g C.lb C.ub C.start) al s
        rw [hpath]
        generalize Prepared.path { means := me, stds := sd', D := D, A := C.A.map fun a r j => a r j * oneOverStd C.thr 1 (sd' j), start := getStartCoef ic C.thr me sd' g C.lb C.ub C.start } (irlsSolver next inner) al s = out
        have hthr : (mirrorCfg c swap lb' ub' C).thr = C.thr := rfl
        rw [hthr]
        have hrow : ∀ v : Fin (p + ic.toNat) → ℝ, report ic C.thr m' sd' (mirrored (signs p ic c swap) (fun _ => 0) v)
            = (labelSign swap * (report ic C.thr me sd' v).1, fun j => labelSign swap * c j * (report ic C.thr me sd' v).2 j) := by
          intro v
          have : mirrored (signs p ic c swap) (fun _ => 0) v = fun k => signs p ic c swap k * v k := by funext k; unfold mirrored; rw [add_zero]
          rw [this]
          exact report_mirror hc swap C.thr hm sd' v
        unfold storePath
        simp only [List.getLast?_map, Option.bind_eq_bind, List.map_map]
        cases out.2.getLast? with
        | none => rfl
        | some v =>
          simp only [Option.map_some, Option.bind_some, Function.comp_def, hrow, mirrorResult, Option.some.injEq, Prod.mk.injEq, true_and, List.map_map]
          congr 1
          cases ic <;> simp

/-- **C88, one feature negated**, solver `irls-cd`: its coefficient changes sign, nothing else. -/
theorem c88_negated_feature (next : (ℕ → BitVec 32) → ℕ → (ℕ → BitVec 32)) (C : FitCfg p ic) (ht : 0 < C.thr) (stats : Stats) (hst : TrueStats stats)
    (R : Rows n) (hw : ∑ i, R.sw i = 1) (q : ℕ) (hlb : C.lb = none) (hub : C.ub = none) (hP2 : (∃ t, C.P2a = .str t) ∨ C.P2a = .none ∨ ∃ len v, C.P2a = .vec len v)
    (hcold : C.start = .cold) (l1 : ℝ) (a : AlphaSpec) (s : SolverLog) :
    glmFit C stats (irlsCd next) { X := fun i j => if j = q then -R.X i j else R.X i j, y := R.y, sw := R.sw, off := R.off } l1 a s
      = (glmFit C stats (irlsCd next) R l1 a s).map fun tr => (tr.1, { coef := fun j => if j = q then -tr.2.coef j else tr.2.coef j, intercept := tr.2.intercept, coefPath := tr.2.coefPath.map fun b j => if j = q then -b j else b j, interceptPath := tr.2.interceptPath, alphas := tr.2.alphas }) := by
  have hmir : mirrorP2 (fun j => if j = q then -1 else 1) C.P2a = C.P2a := by
    rcases hP2 with ⟨t, h⟩ | h | ⟨len, v, h⟩ <;> rw [h] <;> rfl
  have hcfg : mirrorCfg (fun j => if j = q then -1 else 1) false none none C = C := by
    have e1 : C = { C with lb := none, ub := none, P2a := C.P2a, start := .cold } := by
      cases C
      simp only at hlb hub hcold
      subst hlb hub hcold
      rfl
    unfold mirrorCfg
    rw [hmir, hcold]
    exact e1.symm
  have h := c88_fit next (fun seeds _ => cdInner seeds) c88_signBlind_cd C ht stats hst R hw (fun j => if j = q then -1 else 1)
    (fun j => by by_cases h : j = q <;> simp [h]) false (fun h => by cases h) none none
    (fun j _ => by
      rw [hlb, hub]
      by_cases h : j = q
      · exact Or.inr ⟨by simp [h, labelSign], rfl, rfl⟩
      · exact Or.inl ⟨by simp [h, labelSign], rfl, rfl⟩) l1
    (fun P P' h1 h2 => by rw [hmir, h1] at h2; cases h2; rfl) a s
  rw [hcfg] at h
  have hX : mirrorRows (fun j => if j = q then -1 else 1) false R = { X := fun i j => if j = q then -R.X i j else R.X i j, y := R.y, sw := R.sw, off := R.off } := by
    unfold mirrorRows
    simp only [Bool.false_eq_true, if_false, ite_mul, neg_one_mul, one_mul]
  rw [hX] at h
  have hres : ∀ r, mirrorResult (fun j => if j = q then -1 else 1) false r = { coef := fun j => if j = q then -r.coef j else r.coef j, intercept := r.intercept, coefPath := r.coefPath.map fun b j => if j = q then -b j else b j, interceptPath := r.interceptPath, alphas := r.alphas } := by
    intro r
    unfold mirrorResult
    simp only [labelSign, Bool.false_eq_true, if_false, one_mul, ite_mul, neg_one_mul, List.map_id']
  simp only [hres] at h
  exact h

/-- **C88, labels exchanged**, solver `irls-cd`: a logistic regression for the label `1 - y` has the opposite coefficients. -/
theorem c88_exchanged_labels (next : (ℕ → BitVec 32) → ℕ → (ℕ → BitVec 32)) (C : FitCfg p ic) (ht : 0 < C.thr) (hfam : C.family = .binomial) (hlink : C.link = .logit)
    (he : C.e50 ≤ 1 / 2) (hlarge : 1 < C.large) (stats : Stats) (hst : TrueStats stats) (R : Rows n) (hw : ∑ i, R.sw i = 1)
    (hcold : C.start = .cold) (l1 : ℝ) (a : AlphaSpec) (s : SolverLog) :
    glmFit { C with lb := C.ub.map fun u j => -u j, ub := C.lb.map fun l j => -l j } stats (irlsCd next)
        { X := R.X, y := fun i => 1 - R.y i, sw := R.sw, off := R.off.map fun o i => -o i } l1 a s
      = (glmFit C stats (irlsCd next) R l1 a s).map fun tr => (tr.1, { coef := fun j => -tr.2.coef j, intercept := -tr.2.intercept, coefPath := tr.2.coefPath.map fun b j => -b j, interceptPath := tr.2.interceptPath.map fun b => -b, alphas := tr.2.alphas }) := by
  have hone : mirrorP2 (fun _ => 1) C.P2a = C.P2a := by
    cases C.P2a with
    | str t => rfl
    | none => rfl
    | vec len v => rfl
    | dense r k m => simp [mirrorP2]
    | sparse r k m => simp [mirrorP2]
  have hcfg : mirrorCfg (fun _ => 1) true (C.ub.map fun u j => -u j) (C.lb.map fun l j => -l j) C
      = { C with lb := C.ub.map fun u j => -u j, ub := C.lb.map fun l j => -l j } := by
    unfold mirrorCfg
    rw [hone, hcold]
    cases C
    simp only at hcold
    subst hcold
    rfl
  have h := c88_fit next (fun seeds _ => cdInner seeds) c88_signBlind_cd C ht stats hst R hw (fun _ => 1) (fun _ => Or.inl rfl) true
    (fun _ => ⟨hfam, hlink, he, hlarge⟩) (C.ub.map fun u j => -u j) (C.lb.map fun l j => -l j)
    (fun j _ => Or.inr ⟨by simp [labelSign], by cases C.ub <;> rfl, by cases C.lb <;> rfl⟩) l1
    (fun P P' h1 h2 => by rw [hone, h1] at h2; cases h2; rfl) a s
  rw [hcfg] at h
  have hX : mirrorRows (fun _ => 1) true R = { X := R.X, y := fun i => 1 - R.y i, sw := R.sw, off := R.off.map fun o i => -o i } := by
    unfold mirrorRows
    simp only [if_true, one_mul]
  rw [hX] at h
  have hres : ∀ r, mirrorResult (fun _ => 1) true r = { coef := fun j => -r.coef j, intercept := -r.intercept, coefPath := r.coefPath.map fun b j => -b j, interceptPath := r.interceptPath.map fun b => -b, alphas := r.alphas } := by
    intro r
    unfold mirrorResult
    simp only [labelSign, if_true, mul_one, neg_one_mul]
  simp only [hres] at h
  exact h

/-- **C88, predictions.** The mirrored model gives every observation the linear predictor of the original one, with the sign changed if the labels were
exchanged; a logistic regression then gives the complementary probability. -/
theorem c88_same_predictions (c : ℕ → ℝ) (hc : ∀ j, c j = 1 ∨ c j = -1) (swap : Bool) (r : PathResult) (x : ℕ → ℝ) (e : ℝ) (he : e ≤ 1 / 2) :
    let eta := ∑ j ∈ Finset.range p, x j * r.coef j + r.intercept
    ∑ j ∈ Finset.range p, (c j * x j) * (mirrorResult c swap r).coef j + (mirrorResult c swap r).intercept = (if swap then -eta else eta) ∧
    Link.inverse e .logit (-eta) = 1 - Link.inverse e .logit eta := by
  intro eta
  refine ⟨?_, ?_⟩
  swap
  · simp only [Link.inverse, clip50, clip, expit_neg]
    rcases le_total (expit eta) e with h1 | h1
    · rw [max_eq_right h1, max_eq_left (by linarith), min_eq_right (by linarith), min_eq_left (by linarith)]
    · rw [max_eq_left h1]
      rcases le_total (expit eta) (1 - e) with h2 | h2
      · rw [min_eq_left h2, max_eq_left (by linarith), min_eq_left (by linarith)]
      · rw [min_eq_right h2, max_eq_right (by linarith), min_eq_left (by linarith)]
        ring
  have h : ∑ j ∈ Finset.range p, (c j * x j) * (mirrorResult c swap r).coef j = labelSign swap * ∑ j ∈ Finset.range p, x j * r.coef j := by
    rw [Finset.mul_sum]
    refine Finset.sum_congr rfl fun j _ => ?_
    simp only [mirrorResult]
    linear_combination (labelSign swap * x j * r.coef j) * sign_sq (hc j)
  rw [h]
  simp only [mirrorResult, eta]
  cases swap <;> simp [labelSign]
  ring

/-! ### Concrete fits -/

/-- What tabmat computes. -/
def trueStats : Stats := fun m X w => (fun j => ∑ i, w i * X i j, fun j => Real.sqrt (∑ i, w i * (X i j - ∑ k, w k * X k j) ^ 2))

theorem tiny_prepares {C : FitCfg 1 true} {R : Rows 2} (h1 : C.P1a = .none) (h2 : C.P2a = .none) {g : ℝ} (hg : startGuess C R = some g) :
    ∃ Q, prepare C trueStats R 0 = some Q := by
  unfold prepare
  rw [h1, h2, hg]
  exact ⟨_, rfl⟩

/-- Ridge regression on the two rows, with the feature negated: both fits succeed and have opposite coefficients. -/
example (next : (ℕ → BitVec 32) → ℕ → (ℕ → BitVec 32)) (s : SolverLog) :
    ∃ t r r', glmFit (tinyCfg 5 5) trueStats (irlsCd next) tinyRows 0 (.single 1) s = some (t, r) ∧
      glmFit (tinyCfg 5 5) trueStats (irlsCd next) { X := fun i j => if j = 0 then -tinyRows.X i j else tinyRows.X i j, y := tinyRows.y, sw := tinyRows.sw, off := tinyRows.off } 0 (.single 1) s = some (t, r') ∧
      r'.coef 0 = -r.coef 0 ∧ r'.intercept = r.intercept := by
  have hg : startGuess (tinyCfg 5 5) tinyRows = some 2 := by
    show guessIntercept .normal .identity tinyRows.y tinyRows.sw .none = some 2
    unfold guessIntercept
    rw [if_neg (by simp)]
    simp [average, tinyRows]
    norm_num
  obtain ⟨Q, hQ⟩ := tiny_prepares (C := tinyCfg 5 5) rfl rfl hg
  obtain ⟨r, hr, -⟩ := glmFit_single (tinyCfg 5 5) trueStats (irlsCd next) tinyRows 0 1 s Q hQ (by rintro ⟨l, u, h, -⟩; cases h) (fun _ => rfl)
  have h := c88_negated_feature next (tinyCfg 5 5) (by norm_num [tinyCfg]) trueStats (fun _ _ _ _ => ⟨rfl, rfl⟩) tinyRows (by simp [tinyRows]) 0 rfl rfl
    (Or.inr (Or.inl rfl)) rfl 0 (.single 1) s
  rw [hr] at h
  exact ⟨_, r, _, hr, h, rfl, rfl⟩

/-- Logistic regression on two rows with bounds. -/
def tinyLogit : FitCfg 1 true := { tinyCfg 5 5 with family := .binomial, link := .logit, lb := some fun _ => -1, ub := some fun _ => 2 }

def tinyLabels : Rows 2 := { X := tinyRows.X, y := fun i => if i = 0 then 1 else 0, sw := tinyRows.sw, off := some fun i => if i = 0 then 1 else 3 }

/-- `c88_exchanged_labels` applies to a fit with bounds and an offset that succeeds. -/
example (next : (ℕ → BitVec 32) → ℕ → (ℕ → BitVec 32)) (s : SolverLog) :
    ∃ t r r', glmFit tinyLogit trueStats (irlsCd next) tinyLabels 0 (.single 1) s = some (t, r) ∧
      glmFit { tinyLogit with lb := some fun _ => -2, ub := some fun _ => 1 } trueStats (irlsCd next)
        { X := tinyRows.X, y := fun i => if i = 0 then 0 else 1, sw := tinyRows.sw, off := some fun i => if i = 0 then -1 else -3 } 0 (.single 1) s = some (t, r') ∧
      r'.coef 0 = -r.coef 0 ∧ r'.intercept = -r.intercept := by
  have hg : ∃ g, startGuess tinyLogit tinyLabels = some g := by
    show ∃ g, guessIntercept .binomial .logit tinyLabels.y tinyLabels.sw (.array _) = some g
    unfold guessIntercept
    rw [if_neg (by
      rintro ⟨-, c, hc⟩
      have h0 := hc 0
      have h1 := hc 1
      simp [tinyLabels] at h0 h1
      linarith)]
    have ha : average tinyLabels.y tinyLabels.sw = 1 / 2 := by
      simp [average, tinyLabels, tinyRows]
    simp only [ha]
    unfold safeLog
    norm_num
  obtain ⟨g, hg⟩ := hg
  obtain ⟨Q, hQ⟩ := tiny_prepares (C := tinyLogit) rfl rfl hg
  obtain ⟨r, hr, -⟩ := glmFit_single tinyLogit trueStats (irlsCd next) tinyLabels 0 1 s Q hQ
    (by
      rintro ⟨l, u, h, h', j, -, hj⟩
      cases h
      cases h'
      norm_num at hj) (fun _ => rfl)
  have h := c88_exchanged_labels next tinyLogit (by norm_num [tinyCfg, tinyLogit]) rfl rfl (by norm_num [tinyCfg, tinyLogit]) (by norm_num [tinyCfg, tinyLogit])
    trueStats (fun _ _ _ _ => ⟨rfl, rfl⟩) tinyLabels (by simp [tinyLabels, tinyRows]) rfl 0 (.single 1) s
  rw [hr] at h
  have hX : ({ X := tinyLabels.X, y := fun i => 1 - tinyLabels.y i, sw := tinyLabels.sw, off := tinyLabels.off.map fun o i => -o i } : Rows 2)
      = { X := tinyRows.X, y := fun i => if i = 0 then 0 else 1, sw := tinyRows.sw, off := some fun i => if i = 0 then -1 else -3 } := by
    unfold tinyLabels
    simp only [Option.map_some]
    congr 1
    · funext i; fin_cases i <;> simp
    · congr 1; funext i; fin_cases i <;> simp
  have hC : ({ tinyLogit with lb := tinyLogit.ub.map fun u j => -u j, ub := tinyLogit.lb.map fun l j => -l j } : FitCfg 1 true)
      = { tinyLogit with lb := some fun _ => -2, ub := some fun _ => 1 } := by
    unfold tinyLogit
    simp only [Option.map_some, neg_neg]
  rw [hX, hC] at h
  exact ⟨_, r, _, hr, h, rfl, rfl⟩

/-- `c88_signBlind_ls` applies to exact inversion. -/
example : SignBlind (p := 1) (ic := true) fun _ => lsInner invSolve := c88_signBlind_ls invSolve signEquivariant_invSolve

end

end Glum
