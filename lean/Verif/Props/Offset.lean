import Verif.Props.MirrorSign
import Verif.Props.Agree
/-
C87: a constant in the offset is absorbed by the intercept.
-/
set_option linter.unusedSectionVars false
set_option linter.unusedVariables false
set_option linter.unusedSimpArgs false

namespace Glum
open Spec

noncomputable section

variable {n p : ℕ}

/-- The same rows with `k` added to the offset of every row (no offset counts as 0). -/
def Spec.addOffsetConst (k : ℝ) (R : Rows n) : Rows n :=
  { X := R.X, y := R.y, sw := R.sw, off := some fun i => (R.off.getD fun _ => 0) i + k }

/-- A coefficient vector (intercept first) with `k` taken from the intercept. -/
def Spec.lessIntercept (k : ℝ) (v : Fin (p + 1) → ℝ) : Fin (p + 1) → ℝ := fun j => if j.val = 0 then v j - k else v j

/-- Start values, if there are any, moved accordingly. -/
def Spec.shiftStart (k : ℝ) : StartFrom p true → StartFrom p true
  | .previous v => .previous (lessIntercept k v)
  | .given v => .given (lessIntercept k v)
  | .cold => .cold

def Spec.shiftResult (k : ℝ) (r : PathResult) : PathResult :=
  { coef := r.coef, intercept := r.intercept - k, coefPath := r.coefPath, interceptPath := r.interceptPath.map fun b => b - k, alphas := r.alphas }

/-- The starting intercept looks at the offset: given start values, or one of the links for which `guess_intercept` does. -/
def Spec.StartSeesOffset (C : FitCfg p true) : Prop :=
  C.start ≠ .cold ∨ C.link = .identity ∨ C.link = .log ∨ C.link = .logit

def shiftA (p : ℕ) (k : ℝ) (j : Fin (p + 1)) : ℝ := if j.val = 0 then -k else 0

theorem mirrored_shift (k : ℝ) (v : Fin (p + 1) → ℝ) : mirrored (fun _ => 1) (shiftA p k) v = lessIntercept k v := by
  funext j
  unfold mirrored shiftA lessIntercept
  split <;> ring

/-- An inner solver that does not look at the value of the intercept. -/
def Spec.ShiftBlind (inner : (m : ℕ) → Inner m p true) : Prop :=
  ∀ (n : ℕ) (k : ℝ) (D' D : IRLSData n p true), Mirror 1 (fun _ => 1) (shiftA p k) D' D → MirrorInner 1 (fun _ => 1) (shiftA p k) D' D (inner n) (inner n)

/-- **C87, the least-squares solver**, with any linear solver. -/
theorem c87_shiftBlind_ls (solve : (Fin (p + 1) → Fin (p + 1) → ℝ) → (Fin (p + 1) → ℝ) → (Fin (p + 1) → ℝ)) :
    ShiftBlind (p := p) fun _ => lsInner (ic := true) solve := by
  intro n k D' D M st' st h
  refine ⟨?_, rfl⟩
  unfold lsInner
  simp only
  have hH : st'.hs.H = st.hs.H := funext fun i => funext fun j => by rw [h.hs.H i j]; ring
  have hb : st'.score = st.score := funext fun i => by rw [h.score]; ring
  rw [hH, hb]
  simp

theorem average_const (e w : Fin n → ℝ) (hw : ∑ i, w i = 1) (k : ℝ) : average (fun i => e i + k) w = average e w + k := by
  unfold average
  rw [hw, div_one, div_one]
  simp only [add_mul, Finset.sum_add_distrib, ← Finset.mul_sum, hw, mul_one]

theorem average_zero_off (w : Fin n → ℝ) : average (fun _ => 0) w = 0 := by simp [average]

theorem safeLog_mul {x c : ℝ} (hc : 0 < c) : safeLog (x * c) = (safeLog x).map fun l => l + Real.log c := by
  unfold safeLog
  by_cases h : 0 < x
  · rw [if_pos h, if_pos (by positivity)]
    simp only [Option.map_some]
    rw [Real.log_mul h.ne' hc.ne']
  · rw [if_neg h, if_neg (by
      have := mul_nonpos_of_nonpos_of_nonneg (not_lt.1 h) hc.le
      exact not_lt.2 this)]
    rfl

theorem guess_shift (F : Family) (l : Link) (hl : l = .identity ∨ l = .log ∨ l = .logit) (y w : Fin n → ℝ) (hw : ∑ i, w i = 1) (e : Option (Fin n → ℝ)) (k : ℝ) :
    guessIntercept F l y w (.array fun i => (e.getD fun _ => 0) i + k) = (guessIntercept F l y w (e.elim .none .array)).map fun g => g - k := by
  unfold guessIntercept
  by_cases hc : l ≠ .identity ∧ ∃ c, ∀ i, y i = c
  · rw [if_pos hc, if_pos hc]; rfl
  rw [if_neg hc, if_neg hc]
  rcases hl with rfl | rfl | rfl
  · cases e with
    | none =>
      simp only [Option.getD_none, Option.elim_none, average_const _ _ hw, average_zero_off, Option.map_some, Option.some.injEq]
      ring
    | some e =>
      simp only [Option.getD_some, Option.elim_some, average_const _ _ hw, Option.map_some, Option.some.injEq]
      ring
  · simp only
    set q := guessPower F with hq
    have hx : ∀ (x r : ℝ), Real.exp (x + k) ^ r = Real.exp x ^ r * Real.exp k ^ r := fun x r => by
      rw [Real.exp_add, Real.mul_rpow (Real.exp_pos _).le (Real.exp_pos _).le]
    have h1 : ∀ f : Fin n → ℝ, ∑ i, y i * Real.exp (f i + k) ^ (1 - q) * w i = (∑ i, y i * Real.exp (f i) ^ (1 - q) * w i) * Real.exp k ^ (1 - q) := fun f => by
      rw [Finset.sum_mul]; exact Finset.sum_congr rfl fun i _ => by rw [hx]; ring
    have h2 : ∀ f : Fin n → ℝ, ∑ i, Real.exp (f i + k) ^ (2 - q) * w i = (∑ i, Real.exp (f i) ^ (2 - q) * w i) * Real.exp k ^ (2 - q) := fun f => by
      rw [Finset.sum_mul]; exact Finset.sum_congr rfl fun i _ => by rw [hx]; ring
    have hp : ∀ r : ℝ, 0 < Real.exp k ^ r := fun r => Real.rpow_pos_of_pos (Real.exp_pos _) _
    have hl : ∀ r : ℝ, Real.log (Real.exp k ^ r) = r * k := fun r => by rw [Real.log_rpow (Real.exp_pos _), Real.log_exp]
    simp only [h1, h2, safeLog_mul (hp _), hl]
    cases e with
    | none =>
      have e1 : ∑ i, y i * Real.exp ((fun _ => (0 : ℝ)) i) ^ (1 - q) * w i = average y w := by
        unfold average; rw [hw, div_one]; exact Finset.sum_congr rfl fun i _ => by simp
      have e2 : ∑ i, Real.exp ((fun _ => (0 : ℝ)) i) ^ (2 - q) * w i = 1 := by
        rw [← hw]; exact Finset.sum_congr rfl fun i _ => by simp
      have e3 : safeLog 1 = some 0 := by simp [safeLog]
      simp only [Option.getD_none, Option.elim_none, e1, e2, e3]
      cases safeLog (average y w) with
      | none => rfl
      | some a =>
        simp
        ring
    | some e =>
      simp only [Option.getD_some, Option.elim_some]
      cases safeLog (average y w) with
      | none => rfl
      | some a =>
        cases safeLog (∑ i, y i * Real.exp (e i) ^ (1 - q) * w i) with
        | none => rfl
        | some b =>
          cases safeLog (∑ i, Real.exp (e i) ^ (2 - q) * w i) with
          | none => rfl
          | some c =>
            simp
            ring
  · simp only
    cases safeLog (average y w) with
    | none => rfl
    | some a =>
      cases safeLog (1 - average y w) with
      | none => rfl
      | some b =>
        cases e with
        | none =>
          have : average (fun _ => k) w = k := by simpa [average_zero_off] using average_const (fun _ => 0) w hw k
          simp [this]
        | some e =>
          simp [average_const _ _ hw]
          ring

theorem std_shift (C : FitCfg p true) (cfgStart : StartFrom p true) (R : Rows n) (k : ℝ) (means stds : ℕ → ℝ) (P1 : ℕ → ℝ) (P : Pen2 ℝ) (P1x : ℕ → ℝ) (x : ℝ) :
    Mirror 1 (fun _ => 1) (shiftA p k)
      ((stdData C.thr C.asIfScaled means stds (FitCfg.problem { C with start := cfgStart } (addOffsetConst k R) P1 P)).withPen P1x
        ((stdData C.thr C.asIfScaled means stds (FitCfg.problem { C with start := cfgStart } (addOffsetConst k R) P1 P)).P2.smul x))
      ((stdData C.thr C.asIfScaled means stds (C.problem R P1 P)).withPen P1x ((stdData C.thr C.asIfScaled means stds (C.problem R P1 P)).P2.smul x)) := by
  refine ⟨Or.inl rfl, fun _ => Or.inl rfl, ?_, ?_, ?_, ?_, ?_, rfl, rfl, rfl, rfl, rfl, rfl, rfl, rfl, rfl, rfl, ?_, ?_, ?_, ?_, ?_⟩
  · intro j hj
    unfold shiftA
    rw [if_neg (by simpa using hj)]
  · intro r j
    rw [mul_one, one_mul]
    rfl
  · intro r
    rw [one_mul]
    have h : ∀ j : Fin (p + 1), Spec.design true (stdData C.thr C.asIfScaled means stds (FitCfg.problem { C with start := cfgStart } (addOffsetConst k R) P1 P)).X r j * shiftA p k j
        = if j = 0 then -k else 0 := by
      intro j
      by_cases hj : j = 0
      · subst hj
        rw [if_pos rfl]
        unfold shiftA
        rw [if_pos (by simp)]
        have : Spec.design true (stdData C.thr C.asIfScaled means stds (FitCfg.problem { C with start := cfgStart } (addOffsetConst k R) P1 P)).X r (0 : Fin (p + 1)) = 1 :=
          design_lt (ic := true) _ _ _ (by simp)
        rw [this, one_mul]
      · rw [if_neg hj]
        unfold shiftA
        rw [if_neg (fun h : j.val = 0 => hj (Fin.ext h)), mul_zero]
    have hs : ∑ j : Fin (p + 1), Spec.design true (stdData C.thr C.asIfScaled means stds (FitCfg.problem { C with start := cfgStart } (addOffsetConst k R) P1 P)).X r j * shiftA p k j = -k := by
      simp only [h, Finset.sum_ite_eq', Finset.sum_ite_eq, Finset.mem_univ, if_true]
    refine Eq.trans (congrArg (· + _) hs) ?_
    show -k + ((R.off.getD fun _ => 0) r + k) = R.off.getD (fun _ => 0) r
    ring
  · intro i j
    rw [one_mul, one_mul]
    rfl
  · intro j hj
    exact Or.inl ⟨rfl, rfl, rfl⟩
  all_goals intros
  all_goals simp only [one_mul]
  all_goals rfl

theorem start_shift (C : FitCfg p true) (k : ℝ) (means stds : ℕ → ℝ) (g' g : ℝ) (hg : C.start = .cold → g' = g - k) :
    getStartCoef true C.thr means stds g' C.lb C.ub (shiftStart k C.start) = lessIntercept k (getStartCoef true C.thr means stds g C.lb C.ub C.start) := by
  have hraw : rawStart true C.thr means stds g' (shiftStart k C.start) = lessIntercept k (rawStart true C.thr means stds g C.start) := by
    have key : ∀ v : Fin (p + 1) → ℝ, standardizeWarmStart (p := p) C.thr means (some stds) (lessIntercept k v)
        = lessIntercept k (standardizeWarmStart (p := p) C.thr means (some stds) v) := by
      intro v
      funext j
      unfold lessIntercept
      simp only [standardizeWarmStart]
      by_cases hj : j.val = 0
      · simp only [hj, if_true]
        rw [sub_add_eq_add_sub]
        congr 2
      · simp only [hj, if_false]
    cases hs : C.start with
    | previous v => exact key v
    | given v => exact key v
    | cold =>
      funext j
      simp only [rawStart, shiftStart, lessIntercept]
      by_cases hj : j.val = 0
      · rw [if_pos (by simpa using hj), if_pos hj, if_pos (by simpa using hj), hg hs]
      · rw [if_neg (by simpa using hj), if_neg hj, if_neg (by simpa using hj)]
  unfold getStartCoef
  rw [hraw]
  funext j
  unfold clipStart lessIntercept
  by_cases hj : j.val = 0
  · have : j.val < true.toNat := by simpa using hj
    rw [if_pos this, if_pos hj, if_pos hj]
    beta_reduce
    rw [if_pos this]
  · have : ¬ j.val < true.toNat := by simpa using hj
    rw [if_neg this, if_neg hj, if_neg hj]
    beta_reduce
    rw [if_neg this]

theorem report_shift (thr : ℝ) (means stds : ℕ → ℝ) (k : ℝ) (v : Fin (p + 1) → ℝ) :
    report (p := p) true thr means stds (lessIntercept k v) = ((report (p := p) true thr means stds v).1 - k, (report (p := p) true thr means stds v).2) := by
  have hf : ∀ j, feat (p := p) true (lessIntercept k v) j = feat (p := p) true v j := by
    intro j
    unfold feat
    split
    · unfold lessIntercept; simp
    · rfl
  have hi : icpt (p := p) true (lessIntercept k v) = icpt (p := p) true v - k := by
    simp [icpt, lessIntercept]
  unfold report unstandardize
  simp only [hf, hi, if_true]
  refine Prod.ext ?_ rfl
  simp only
  ring

/-- **C87.** Adding a constant to the offset of every row moves the intercept by minus this constant and changes nothing else: same iterations, same
warnings, same coefficients, for one alpha or a given list of alphas, any family, link, penalties and bounds.  Start values are moved along with the
intercept; without them the link must be one for which `guess_intercept` takes account of the offset. -/
theorem c87_fit (next : (ℕ → BitVec 32) → ℕ → (ℕ → BitVec 32)) (inner : (ℕ → BitVec 32) → (m : ℕ) → Inner m p true) (hin : ∀ s, ShiftBlind (inner s))
    (C : FitCfg p true) (hC : StartSeesOffset C) (stats : Stats) (R : Rows n) (hw : ∑ i, R.sw i = 1) (k l1 : ℝ) (a : AlphaSpec)
    (ha : ∀ m lo ratio, a ≠ .search m lo ratio) (s : SolverLog) :
    glmFit { C with start := shiftStart k C.start } stats (irlsSolver next inner) (addOffsetConst k R) l1 a s
      = (glmFit C stats (irlsSolver next inner) R l1 a s).map fun tr => (tr.1, shiftResult k tr.2) := by
  set C' : FitCfg p true := { C with start := shiftStart k C.start } with hC'
  unfold glmFit
  by_cases hbad : C.boundsBad
  · have hbad' : C'.boundsBad := hbad
    rw [if_pos hbad, if_pos hbad']; rfl
  have hbad' : ¬ C'.boundsBad := hbad
  rw [if_neg hbad, if_neg hbad']
  show Option.bind (setupP2 p C.xsp 1 l1 C.P2a) _ = Option.map _ (Option.bind (setupP2 p C.xsp 1 l1 C.P2a) _)
  cases h2 : setupP2 p C.xsp 1 l1 C.P2a with
  | none => rfl
  | some P =>
    simp only [Option.bind_some]
    have hpok : C'.p2ok = C.p2ok := rfl
    rw [hpok]
    split
    · rfl
    cases hP1 : setupP1 p 1 l1 C.P1a with
    | none =>
      have e1 : prepare C' stats (addOffsetConst k R) l1 = none := by
        unfold prepare
        have : C'.P1a = C.P1a := rfl
        rw [this, hP1]; rfl
      have e2 : prepare C stats R l1 = none := by unfold prepare; rw [hP1]; rfl
      rw [e1, e2]; rfl
    | some P1 =>
      have hgs : (startGuess C R = none ∧ startGuess C' (addOffsetConst k R) = none) ∨
          ∃ g g', startGuess C R = some g ∧ startGuess C' (addOffsetConst k R) = some g' ∧ (C.start = .cold → g' = g - k) := by
        have hst : C'.start = shiftStart k C.start := rfl
        unfold startGuess
        rw [hst]
        cases hsrc : C.start with
        | previous v => exact Or.inr ⟨0, 0, rfl, rfl, fun h => by cases h⟩
        | given v => exact Or.inr ⟨0, 0, rfl, rfl, fun h => by cases h⟩
        | cold =>
          have hl : C.link = .identity ∨ C.link = .log ∨ C.link = .logit := by
            rcases hC with h | h
            · exact absurd hsrc h
            · exact h
          have := guess_shift C.family C.link hl R.y R.sw hw R.off k
          have hsame : guessIntercept C'.family C'.link (addOffsetConst k R).y (addOffsetConst k R).sw ((addOffsetConst k R).off.elim .none .array)
              = guessIntercept C.family C.link R.y R.sw (.array fun i => (R.off.getD fun _ => 0) i + k) := rfl
          simp only [shiftStart]
          rw [hsame, this]
          cases guessIntercept C.family C.link R.y R.sw (R.off.elim .none .array) with
          | none => exact Or.inl ⟨rfl, rfl⟩
          | some g => exact Or.inr ⟨g, g - k, rfl, rfl, fun _ => rfl⟩
      rcases hgs with ⟨hg, hg'⟩ | ⟨g, g', hg, hg', hgg⟩
      · have e1 : prepare C' stats (addOffsetConst k R) l1 = none := by
          unfold prepare
          have a1 : C'.P1a = C.P1a := rfl
          have a2 : C'.P2a = C.P2a := rfl
          have a3 : C'.xsp = C.xsp := rfl
          rw [a1, hP1, a2, a3, h2, hg']; rfl
        have e2 : prepare C stats R l1 = none := by unfold prepare; rw [hP1, h2, hg]; rfl
        rw [e1, e2]; rfl
      · generalize hms : stats n R.X R.sw = ms
        obtain ⟨me, sd⟩ := ms
        have e1 : prepare C' stats (addOffsetConst k R) l1
            = some { means := me, stds := sd, D := stdData C.thr C.asIfScaled me sd (C'.problem (addOffsetConst k R) P1 P), A := C.A.map fun a r j => a r j * oneOverStd C.thr 1 (sd j), start := getStartCoef true C.thr me sd g' C.lb C.ub (shiftStart k C.start) } := by
          unfold prepare
          have a1 : C'.P1a = C.P1a := rfl
          have a2 : C'.P2a = C.P2a := rfl
          have a3 : C'.xsp = C.xsp := rfl
          have a4 : stats n (addOffsetConst k R).X (addOffsetConst k R).sw = (me, sd) := hms
          rw [a1, hP1, a2, a3, h2, hg', a4]; rfl
        have e2 : prepare C stats R l1
            = some { means := me, stds := sd, D := stdData C.thr C.asIfScaled me sd (C.problem R P1 P), A := C.A.map fun a r j => a r j * oneOverStd C.thr 1 (sd j), start := getStartCoef true C.thr me sd g C.lb C.ub C.start } := by
          unfold prepare
          rw [hP1, h2, hg, hms]; rfl
        rw [e1, e2]
        simp only [Option.bind_some, Option.bind_eq_bind]
        have hst : getStartCoef true C.thr me sd g' C.lb C.ub (shiftStart k C.start)
            = mirrored (m := p + true.toNat) (fun _ => 1) (shiftA p k) (getStartCoef true C.thr me sd g C.lb C.ub C.start) :=
          (start_shift C k me sd g' g hgg).trans (mirrored_shift k _).symm
        rw [hst]
        set D' := stdData C.thr C.asIfScaled me sd (C'.problem (addOffsetConst k R) P1 P) with hD'
        set D := stdData C.thr C.asIfScaled me sd (C.problem R P1 P) with hD
        have hev : ∀ Q' Q : Prepared n p true, a.eval C' Q' = a.eval C Q := by
          intro Q' Q
          cases a with
          | single x => rfl
          | given l => rfl
          | search m lo ratio => exact absurd rfl (ha m lo ratio)
        rw [hev _ { means := me, stds := sd, D := D, A := C.A.map fun a r j => a r j * oneOverStd C.thr 1 (sd j), start := getStartCoef true C.thr me sd g C.lb C.ub C.start }]
        cases a.eval C { means := me, stds := sd, D := D, A := C.A.map fun a r j => a r j * oneOverStd C.thr 1 (sd j), start := getStartCoef true C.thr me sd g C.lb C.ub C.start } with
        | none => rfl
        | some al =>
          simp only [Option.bind_some]
          have hM : ∀ P1x x, Mirror 1 (fun _ => 1) (shiftA p k) (D'.withPen P1x (D'.P2.smul x)) (D.withPen P1x (D.P2.smul x)) :=
            fun P1x x => std_shift C (shiftStart k C.start) R k me sd P1 P P1x x
          have hpath := path_mirror (ic := true) next inner (D' := D') (D := D) (by rfl) hM (fun seeds P1x x => hin seeds n k _ _ (hM P1x x)) me me sd
            (C.A.map fun a r j => a r j * oneOverStd C.thr 1 (sd j)) (C.A.map fun a r j => a r j * oneOverStd C.thr 1 (sd j))
            (getStartCoef true C.thr me sd g C.lb C.ub C.start) al s
          rw [hpath]
          generalize Prepared.path { means := me, stds := sd, D := D, A := C.A.map fun a r j => a r j * oneOverStd C.thr 1 (sd j), start := getStartCoef true C.thr me sd g C.lb C.ub C.start } (irlsSolver next inner) al s = out
          have hthr : C'.thr = C.thr := rfl
          rw [hthr]
          have hrow : ∀ v : Fin (p + 1) → ℝ, report (p := p) true C.thr me sd (mirrored (fun _ => 1) (shiftA p k) v)
              = ((report (p := p) true C.thr me sd v).1 - k, (report (p := p) true C.thr me sd v).2) := by
            intro v
            exact (congrArg (report (p := p) true C.thr me sd) (mirrored_shift k v)).trans (report_shift C.thr me sd k v)
          unfold storePath
          simp only [List.getLast?_map, Option.bind_eq_bind, List.map_map]
          cases out.2.getLast? with
          | none => rfl
          | some v =>
            have hcomp : ∀ w : Fin (p + true.toNat) → ℝ, report (p := p) true C.thr me sd (mirrored (m := p + true.toNat) (fun _ => 1) (shiftA p k) w)
                = ((report (p := p) true C.thr me sd w).1 - k, (report (p := p) true C.thr me sd w).2) := hrow
            simp only [Option.map_some, Option.bind_some, Function.comp_def, shiftResult, List.map_map, if_true, hcomp]

/-- **C87, the default solver without L1 penalty** (`irls-ls`): whatever the linear solver does. -/
theorem c87_irls_ls (next : (ℕ → BitVec 32) → ℕ → (ℕ → BitVec 32)) (solve : (Fin (p + 1) → Fin (p + 1) → ℝ) → (Fin (p + 1) → ℝ) → (Fin (p + 1) → ℝ))
    (C : FitCfg p true) (hcold : C.start = .cold) (hl : C.link = .identity ∨ C.link = .log ∨ C.link = .logit) (stats : Stats) (R : Rows n)
    (hw : ∑ i, R.sw i = 1) (k l1 alpha : ℝ) (s : SolverLog) :
    glmFit C stats (irlsSolver next fun _ _ => lsInner (ic := true) solve) (addOffsetConst k R) l1 (.single alpha) s
      = (glmFit C stats (irlsSolver next fun _ _ => lsInner (ic := true) solve) R l1 (.single alpha) s).map fun tr => (tr.1, shiftResult k tr.2) := by
  have h := c87_fit next (fun _ _ => lsInner (ic := true) solve) (fun _ => c87_shiftBlind_ls solve) C (Or.inr hl) stats R hw k l1 (.single alpha) (by simp) s
  have hc : { C with start := shiftStart k C.start } = C := by
    rw [hcold]
    cases C
    simp only at hcold
    subst hcold
    rfl
  rw [hc] at h
  exact h

/-- **C87, the objective**: at the shifted intercept the documented objective of the shifted data is the old one.  For every solver the two fits have
the same minimisers. -/
theorem c87_objective (e50 : ℝ) (f : Family) (l : Link) (R : Rows n) (s : ℕ → ℝ) (P1a : P1Arg) (P2a : P2Arg) (alpha l1r k b0 : ℝ) (b : ℕ → ℝ) :
    fitObjective p e50 f l (addOffsetConst k R) s P1a P2a alpha l1r (b0 - k) b = fitObjective p e50 f l R s P1a P2a alpha l1r b0 b := by
  unfold fitObjective
  have : ∀ i, ∑ j : Fin p, (addOffsetConst k R).X i j * b j + (b0 - k) + ((addOffsetConst k R).off.getD fun _ => 0) i
      = ∑ j : Fin p, R.X i j * b j + b0 + (R.off.getD fun _ => 0) i := fun i => by
    show ∑ j : Fin p, R.X i j * b j + (b0 - k) + ((R.off.getD fun _ => 0) i + k) = _
    ring
  simp only [this]
  rfl

/-- **C87, any IRLS solver** (in particular `irls-cd`, which looks at the size of the intercept when it decides how long to iterate): a fit of the
shifted data that raised no `ConvergenceWarning` agrees, up to the tolerances, with the shifted fit of the original data. -/
theorem c87_converged_fits_agree (next next' : (ℕ → BitVec 32) → ℕ → (ℕ → BitVec 32))
    (inner inner' : (ℕ → BitVec 32) → (m : ℕ) → Inner m p true) (C C' : FitCfg p true) (hC : SameProblem C C') (stats : Stats) (R : Rows n) (k : ℝ)
    (l1r : ℝ) (h : ConvexFit C R l1r)
    (hs : ∀ j, 0 ≤ (stats n R.X R.sw).2 j) (hstep : C.stepTol = none) (hstep' : C'.stepTol = none) (hg : 0 ≤ C.gradTol) (hg' : 0 ≤ C'.gradTol)
    (sp sp' : AlphaSpec) (s t s' t' : SolverLog) (r r' : PathResult)
    (hfit : glmFit C stats (irlsSolver next inner) R l1r sp s = some (t, r)) (ha : ∀ x ∈ r.alphas, 0 ≤ x) (hw : t.convWarn = s.convWarn)
    (hfit' : glmFit C' stats (irlsSolver next' inner') (addOffsetConst k R) l1r sp' s' = some (t', r')) (ha' : ∀ x ∈ r'.alphas, 0 ≤ x)
    (hw' : t'.convWarn = s'.convWarn)
    (i i' : ℕ) (hi : i < r.alphas.length) (hc : i < r.coefPath.length) (hb : i < r.interceptPath.length)
    (hi' : i' < r'.alphas.length) (hc' : i' < r'.coefPath.length) (hb' : i' < r'.interceptPath.length)
    (hsame : r'.alphas[i'] = r.alphas[i])
    (hin : WithinBounds p C.lb C.ub r.coefPath[i]) (hin' : WithinBounds p C.lb C.ub r'.coefPath[i']) (mu : ℝ) (hmu : 0 < mu)
    (hcurv : Curvature p true C.thr (stats n R.X R.sw).1 (stats n R.X R.sw).2 mu
      (fitObjective p C.e50 C.family C.link R (penScale C.thr C.asIfScaled (stats n R.X R.sw).2) C.P1a C.P2a r.alphas[i] l1r)) :
    StdClose p true C.thr (stats n R.X R.sw).1 (stats n R.X R.sw).2 (2 * (C.gradTol + C'.gradTol) / mu)
      r.interceptPath[i] r.coefPath[i] (r'.interceptPath[i'] + k) r'.coefPath[i'] := by
  have h' : ConvexFit C' (addOffsetConst k R) l1r := by
    refine ⟨hC.thr ▸ h.thr, hC.family ▸ h.valid, ?_, ?_, h.sw, ?_, ?_, h.l1⟩
    · rw [hC.family, hC.link]; exact h.pair
    · rw [hC.family]; exact h.y
    · rw [hC.P1]; exact h.p1
    · rw [hC.P2]; exact h.p2
  obtain ⟨-, -, -, -, hopt⟩ := c75_no_warning_near_optimal next inner C stats R l1r h hs hstep sp s t r hfit ha hw
  obtain ⟨-, -, -, -, hopt'⟩ := c75_no_warning_near_optimal next' inner' C' stats (addOffsetConst k R) l1r h' hs hstep' sp' s' t' r' hfit' ha' hw'
  refine near_agree C.thr _ _ C.lb C.ub _ _ _ mu hg hg' hmu _ _ _ _ (fun hf => by cases hf) hin hin' (hopt i hi hc hb) ?_ hcurv
  intro x0 x hx0 hx B hB hcl
  have hcl' : StdClose p true C'.thr (stats n (addOffsetConst k R).X (addOffsetConst k R).sw).1 (stats n (addOffsetConst k R).X (addOffsetConst k R).sw).2 B (x0 - k) x
      r'.interceptPath[i'] r'.coefPath[i'] := by
    rw [hC.thr]
    refine ⟨hcl.1, fun ht => ?_⟩
    have := hcl.2 ht
    have e : (x0 - k + ∑ j : Fin p, (stats n R.X R.sw).1 j * x j) - (r'.interceptPath[i'] + ∑ j : Fin p, (stats n R.X R.sw).1 j * r'.coefPath[i'] j)
        = (x0 + ∑ j : Fin p, (stats n R.X R.sw).1 j * x j) - (r'.interceptPath[i'] + k + ∑ j : Fin p, (stats n R.X R.sw).1 j * r'.coefPath[i'] j) := by ring
    show |(x0 - k + ∑ j : Fin p, (stats n R.X R.sw).1 j * x j) - (r'.interceptPath[i'] + ∑ j : Fin p, (stats n R.X R.sw).1 j * r'.coefPath[i'] j)| ≤ B
    rw [e]
    exact this
  have := hopt' i' hi' hc' hb' (x0 - k) x (fun hf => by cases hf) (by rw [hC.lb, hC.ub]; exact hx) B hB hcl'
  rw [hC.e50, hC.family, hC.link, hC.thr, hC.scaled, hC.P1, hC.P2, hsame, c87_objective] at this
  have e := c87_objective (p := p) C.e50 C.family C.link R (penScale C.thr C.asIfScaled (stats n R.X R.sw).2) C.P1a C.P2a r.alphas[i] l1r k (r'.interceptPath[i'] + k) r'.coefPath[i']
  rw [add_sub_cancel_right] at e
  rw [← e]
  exact this

/-- A coordinate-descent call with an intercept and one feature, tolerance 1/2. -/
def cdShiftEx : CDData ℚ 2 2 where
  active := fun i => i
  P1 := fun _ => 0
  Q := fun i j => if i = j then 1 else 1 / 2
  maxIter := 10
  tol := 1 / 2
  intercept := true
  random := false
  lb := none
  ub := none
  eps := 0

/-- Why `irls-cd` is not in `c87_fit`: coordinate descent decides when to look at the gradient by comparing the last changes with the largest
coefficient, *including the intercept*.  Started at intercept 0 or at intercept 10, on the same quadratic model (same gradient, same matrix), it stops at
different places and returns different feature coefficients. -/
theorem c87_cd_looks_at_intercept :
    (cdShiftEx.run (fun _ => 0) (fun _ => -1) 0).w 1 = 5 / 8 ∧ (cdShiftEx.run (fun j => if j = 0 then 10 else 0) (fun _ => -1) 0).w 1 = 1 / 2 := by
  decide +kernel

/-- A gamma regression with log link on two rows. -/
def gammaPath (off : Option (Fin 2 → ℝ)) : SmoothData 2 1 true :=
  { X := fun i _ => if i = 0 then 1 else -1, y := fun i => if i = 0 then 3 else 1, sw := fun _ => 1 / 2, P2 := .vec fun _ => 1, family := .gamma, link := .log, offset := off, e50 := 0 }

theorem gammaPath_alphas (off : Option (Fin 2 → ℝ)) (c : ℝ) (hoff : ∀ i, (off.getD fun _ => 0) i = Real.log c) (hc : 0 < c) :
    alphaPath (gammaPath off) (fun _ => 0) 1 none none = some [500 / c] := by
  have hg : guessIntercept .gamma .log (gammaPath off).y (gammaPath off).sw .none = some (Real.log 2) := by
    unfold guessIntercept
    rw [if_neg (by
      rintro ⟨-, c, hc⟩
      have h0 := hc 0
      have h1 := hc 1
      simp [gammaPath] at h0 h1
      linarith)]
    have ha : average (gammaPath off).y (gammaPath off).sw = 2 := by
      simp [average, gammaPath]
      norm_num
    simp only [ha]
    simp [safeLog]
  have hpc : pathCoef (gammaPath off) = some fun k => if k.val < 1 then Real.log 2 else 0 := by
    unfold pathCoef
    rw [if_pos rfl]
    show Option.map _ (guessIntercept .gamma .log (gammaPath off).y (gammaPath off).sw .none) = _
    rw [hg]
    rfl
  have hlin : ∀ i, safeLinPred (p := 1) true (gammaPath off).X (fun k => if k.val < 1 then Real.log 2 else 0) off i = Real.log (2 * c) := by
    intro i
    rw [c12_lin_pred]
    unfold linPred
    rw [hoff, Real.log_mul (by norm_num) hc.ne']
    congr 1
    change ∑ j : Fin 2, Spec.design (p := 1) true (gammaPath off).X i j * (if j.val < 1 then Real.log 2 else 0) = _
    rw [Fin.sum_univ_two]
    have : Spec.design (p := 1) true (gammaPath off).X i (0 : Fin 2) = 1 := design_lt (ic := true) _ _ _ (by simp)
    rw [this]
    simp
  have hfg : featureGradient (gammaPath off) (fun k => if k.val < 1 then Real.log 2 else 0) 0 = 1 / (2 * c) := by
    unfold featureGradient
    have f1 := feat_eq (ic := true) (muDevianceDerivative (gammaPath off) (fun k => if k.val < 1 then Real.log 2 else 0)).2 (⟨0, by norm_num⟩ : Fin 1)
    simp only at f1
    rw [f1]
    unfold muDevianceDerivative
    simp only [Nat.add_sub_cancel]
    rw [if_neg (by simp)]
    have hlin' : ∀ i, safeLinPred (p := 1) true (gammaPath off).X (fun k => if k.val < 1 then Real.log 2 else 0) (gammaPath off).offset i = Real.log (2 * c) := hlin
    simp only [hlin', Fin.sum_univ_two]
    have he : Real.exp (Real.log (2 * c)) = 2 * c := Real.exp_log (by positivity)
    simp [gammaPath, Link.inverseDerivative, Link.inverse, Family.unitDevianceDerivative, Family.unitVariance, he]
    have hcc : (2 * c : ℝ) ≠ 0 := by positivity
    field_simp
    have e : (-(3 - 2 * c) + (1 - 2 * c)) / (2 * c) = -(1 / c) := by field_simp; ring
    rw [e, abs_neg, abs_of_pos (by positivity)]
    field_simp
  have ham : alphaMax (gammaPath off) (fun _ => 0) (fun k => if k.val < 1 then Real.log 2 else 0) = some (500 / c) := by
    unfold alphaMax rawAlphaMax
    rw [if_pos (fun _ _ => rfl)]
    have : (List.range 1).map (featureGradient (gammaPath off) (fun k => if k.val < 1 then Real.log 2 else 0)) = [1 / (2 * c)] := by
      rw [List.range_one, List.map_singleton, hfg]
    rw [this]
    have e : (1 / (2 * c)) / (1 / 1000) = 500 / c := by field_simp; norm_num
    have hne : (500 / c : ℝ) ≠ 0 := by positivity
    simp only [List.max?_singleton, Option.map_some, e, if_neg hne]
  unfold alphaPath
  rw [hpc]
  simp only [Option.bind_eq_bind, Option.bind_some]
  rw [ham]
  simp only [Option.bind_some]
  have hpos : 0 < 500 / c := by positivity
  unfold makeGrid gridMin
  simp only [Option.bind_eq_bind, Option.bind_some]
  rw [if_neg (by
    have : 0 < 500 / c * (if 2 ≥ 1 then (1 / 1000000 : ℝ) else 1 / 100) := by norm_num; positivity
    linarith)]
  simp [logspace, linspace, Real.exp_log hpos]

/-- Why the computed path is not in `c87_fit`: `_get_alpha_path` guesses the intercept without the offset.  For a gamma regression with log link a
constant offset `log 2` (which the intercept should absorb) halves the largest alpha of the path, so all the models on it are penalised differently. -/
theorem c87_search_counterexample :
    alphaPath (gammaPath none) (fun _ => 0) 1 none none = some [500] ∧ alphaPath (gammaPath (some fun _ => Real.log 2)) (fun _ => 0) 1 none none = some [250] := by
  have h1 := gammaPath_alphas none 1 (fun i => by simp) one_pos
  have h2 := gammaPath_alphas (some fun _ => Real.log 2) 2 (fun i => rfl) two_pos
  norm_num at h1 h2
  exact ⟨h1, h2⟩

/-- Ridge regression on the two rows with and without a constant offset of 7. -/
example (next : (ℕ → BitVec 32) → ℕ → (ℕ → BitVec 32)) (s : SolverLog) :
    ∃ t r r', glmFit (tinyCfg 5 5) trueStats (irlsSolver next fun _ _ => lsInner invSolve) tinyRows 0 (.single 1) s = some (t, r) ∧
      glmFit (tinyCfg 5 5) trueStats (irlsSolver next fun _ _ => lsInner invSolve) { X := tinyRows.X, y := tinyRows.y, sw := tinyRows.sw, off := some fun _ => 7 } 0 (.single 1) s = some (t, r') ∧
      r'.coef = r.coef ∧ r'.intercept = r.intercept - 7 := by
  have hg : startGuess (tinyCfg 5 5) tinyRows = some 2 := by
    show guessIntercept .normal .identity tinyRows.y tinyRows.sw .none = some 2
    unfold guessIntercept
    rw [if_neg (by simp)]
    simp [average, tinyRows]
    norm_num
  obtain ⟨Q, hQ⟩ := tiny_prepares (C := tinyCfg 5 5) rfl rfl hg
  obtain ⟨r, hr, -⟩ := glmFit_single (tinyCfg 5 5) trueStats (irlsSolver next fun _ _ => lsInner invSolve) tinyRows 0 1 s Q hQ (by rintro ⟨l, u, h, -⟩; cases h) (fun _ => rfl)
  have h := c87_irls_ls next invSolve (tinyCfg 5 5) rfl (Or.inl rfl) trueStats tinyRows (by simp [tinyRows]) 7 0 1 s
  have hX : addOffsetConst 7 tinyRows = { X := tinyRows.X, y := tinyRows.y, sw := tinyRows.sw, off := some fun _ => 7 } := by
    unfold addOffsetConst
    simp [tinyRows]
  rw [hX] at h
  refine ⟨_, r, shiftResult 7 r, hr, ?_, rfl, rfl⟩
  refine h.trans ?_
  have hr' : glmFit (tinyCfg 5 5) trueStats (irlsSolver next fun _ _ => lsInner (ic := true) invSolve) tinyRows 0 (.single 1) s = _ := hr
  rw [hr']
  rfl

end

end Glum
