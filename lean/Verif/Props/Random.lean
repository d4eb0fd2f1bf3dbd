import Verif.Model.Random
import Verif.Props.CV
import Verif.Props.EndToEnd
import Verif.Props.Agree
import Verif.Props.OneStepFit
/-
C106: what `random_state` can and cannot change.
-/
set_option linter.unusedSectionVars false
set_option linter.unusedVariables false
set_option linter.unusedSimpArgs false

namespace Glum

open Spec

section CDPart

variable {K : Type*} [Field K] [LinearOrder K] {p a : ℕ}

/-- Everything but the generator state. -/
def SameButRng (s t : CDState K p) : Prop := s.w = t.w ∧ s.q = t.q ∧ s.dwMax = t.dwMax ∧ s.wMax = t.wMax

theorem visit_same (D : CDData K p a) (s : Fin a) (st t : CDState K p) (h : SameButRng st t) :
    SameButRng (D.visit s st) (D.visit s t) := by
  obtain ⟨w, q, d, m, r⟩ := st
  obtain ⟨w', q', d', m', r'⟩ := t
  obtain ⟨h1, h2, h3, h4⟩ := h
  simp only at h1 h2 h3 h4
  subst h1 h2 h3 h4
  unfold CDData.visit
  by_cases hq : D.Q s s ≤ D.eps
  · simp only [if_pos hq]; exact ⟨rfl, rfl, rfl, rfl⟩
  · simp only [if_neg hq]; exact ⟨rfl, rfl, rfl, rfl⟩

theorem pass_same [NeZero a] (D : CDData K p a) (hr : D.random = false) (st t : CDState K p) (h : SameButRng st t) (f : Fin a) :
    SameButRng (D.pass st f) (D.pass t f) := by
  unfold CDData.pass CDData.pick
  simp only [hr, Bool.false_eq_true, if_false]
  exact visit_same D f _ _ ⟨h.1, h.2.1, h.2.2.1, h.2.2.2⟩

theorem cycle_same (D : CDData K p a) (hr : D.random = false) (st t : CDState K p) (h : SameButRng st t) :
    SameButRng (D.cycle st) (D.cycle t) := by
  cases a with
  | zero => exact ⟨h.1, h.2.1, rfl, rfl⟩
  | succ a' =>
    show SameButRng ((List.finRange (a' + 1)).foldl (CDData.pass (a := a' + 1) D) { st with dwMax := 0, wMax := 0 })
      ((List.finRange (a' + 1)).foldl (CDData.pass (a := a' + 1) D) { t with dwMax := 0, wMax := 0 })
    have h0 : SameButRng { st with dwMax := 0, wMax := 0 } { t with dwMax := 0, wMax := 0 } := ⟨h.1, h.2.1, rfl, rfl⟩
    revert h0
    generalize ({ st with dwMax := 0, wMax := 0 } : CDState K p) = s0
    generalize ({ t with dwMax := 0, wMax := 0 } : CDState K p) = t0
    generalize List.finRange (a' + 1) = l
    intro h0
    induction l generalizing s0 t0 with
    | nil => exact h0
    | cons x r ih => exact ih _ _ (pass_same D hr _ _ h0 x)

theorem loop_same (D : CDData K p a) (hr : D.random = false) (fuel k : ℕ) (norm : K) (st t : CDState K p) (h : SameButRng st t) :
    D.loop fuel k norm st = D.loop fuel k norm t := by
  induction fuel generalizing k norm st t with
  | zero => simp only [CDData.loop, h.1]
  | succ fuel ih =>
    have hc := cycle_same D hr st t h
    simp only [CDData.loop]
    rw [hc.1, hc.2.1, hc.2.2.1, hc.2.2.2, ih _ _ _ _ hc, ih _ _ _ _ hc]

/-- **C106.** With cyclic selection the coordinate-descent routine returns the same coefficients, norm, cycle count and warning for every
seed. -/
theorem c106_cd_cyclic (D : CDData K p a) (hr : D.random = false) (w q : Fin p → K) (seed seed' : BitVec 32) :
    D.run w q seed = D.run w q seed' := loop_same D hr _ _ _ _ _ ⟨rfl, rfl, rfl, rfl⟩

end CDPart

/-! With `selection='random'` the seed does matter when the routine stops early. -/

/-- Two correlated coordinates, one cycle. -/
def cdSeedEx (random : Bool) : CDData ℚ 2 2 where
  active := fun s => s
  P1 := fun _ => 0
  Q := fun s t => if s = t then 2 else 1
  maxIter := 1
  tol := 0
  intercept := false
  random := random
  lb := none
  ub := none
  eps := 0

/-- **C106** (why the hypothesis is needed).  The same problem and two seeds: random selection gives two results, cyclic selection one. -/
theorem c106_cd_random_example :
    ((cdSeedEx true).run (fun _ => 0) (fun _ => -1) 1#32).w ≠ ((cdSeedEx true).run (fun _ => 0) (fun _ => -1) 2#32).w ∧
    ((cdSeedEx false).run (fun _ => 0) (fun _ => -1) 1#32).w = ((cdSeedEx false).run (fun _ => 0) (fun _ => -1) 2#32).w := by
  constructor <;> decide +kernel

variable {n N p : ℕ} {ic : Bool}

theorem cdInner_cyclic (D : IRLSData n p ic) (hr : D.random = false) (s s' : ℕ → BitVec 32) (st : IRLSState n p ic) :
    cdInner s D st = cdInner s' D st := by
  unfold cdInner
  rw [c106_cd_cyclic (cdArgs D st) hr st.coef (fun k => -st.score k) (s st.nIter) (s' st.nIter)]

theorem irlsRun_congr (i1 i2 : Inner n p ic) (D : IRLSData n p ic) (h : ∀ st, i1 D st = i2 D st) (coef : Fin (p + ic.toNat) → ℝ) :
    irlsRun i1 D coef = irlsRun i2 D coef := by
  unfold irlsRun
  generalize irlsInit D coef = st
  generalize D.maxIter = fuel
  have hs : ∀ st, irlsStep i1 D st = irlsStep i2 D st := by
    intro st
    unfold irlsStep
    simp only [h]
  induction fuel generalizing st with
  | zero => rfl
  | succ f ih =>
    simp only [irlsLoop, hs]
    split
    · exact ih _
    · rfl

/-! ### Two solvers that agree -/

/-- The two solvers give the same coefficients on every problem whose `selection` is `rnd`, from states related by `Rel`, and leave
related states. -/
def Agree {σ τ : Type} (rnd : Bool) (Rel : σ → τ → Prop) (f : SolverFn σ p ic) (g : SolverFn τ p ic) : Prop :=
  ∀ (m : ℕ) (D : IRLSData m p ic) A s t start, D.random = rnd → Rel s t →
    Rel (f m D A s start).1 (g m D A t start).1 ∧ (f m D A s start).2 = (g m D A t start).2

theorem path_agree {σ τ : Type} {rnd : Bool} {Rel : σ → τ → Prop} {f : SolverFn σ p ic} {g : SolverFn τ p ic} (h : Agree rnd Rel f g)
    (Q : Prepared n p ic) (hQ : Q.D.random = rnd) (alphas : List ℝ) (s : σ) (t : τ) (hst : Rel s t) :
    Rel (Q.path f alphas s).1 (Q.path g alphas t).1 ∧ (Q.path f alphas s).2 = (Q.path g alphas t).2 := by
  unfold Prepared.path
  generalize Q.start = c
  induction alphas generalizing c s t with
  | nil => exact ⟨hst, rfl⟩
  | cons b rest ih =>
    simp only [solvePath, Prepared.solveFn]
    obtain ⟨h1, h2⟩ := h n (Q.D.withPen (fun j => Q.D.P1 j * b) (Q.D.P2.smul b)) Q.A s t c hQ hst
    have := ih _ _ h1 (g n (Q.D.withPen (fun j => Q.D.P1 j * b) (Q.D.P2.smul b)) Q.A t c).2
    rw [h2]
    refine ⟨this.1, ?_⟩
    congr 1
    exact this.2

theorem prepare_random (C : FitCfg p ic) (stats : Stats) (R : Rows n) (l1 : ℝ) (Q : Prepared n p ic)
    (hQ : prepare C stats R l1 = some Q) : Q.D.random = C.random := by
  unfold prepare at hQ
  simp only [bind, Option.bind_eq_some_iff, Option.some.injEq] at hQ
  obtain ⟨_, -, _, -, _, -, rfl⟩ := hQ
  rfl

theorem glmFit_agree {σ τ : Type} {Rel : σ → τ → Prop} {f : SolverFn σ p ic} {g : SolverFn τ p ic} (C : FitCfg p ic)
    (h : Agree C.random Rel f g) (stats : Stats) (R : Rows n) (l1 : ℝ) (a : AlphaSpec) (s : σ) (t : τ) (hst : Rel s t) :
    (glmFit C stats f R l1 a s = none ∧ glmFit C stats g R l1 a t = none) ∨
    ∃ s' t' r, glmFit C stats f R l1 a s = some (s', r) ∧ glmFit C stats g R l1 a t = some (t', r) ∧ Rel s' t' := by
  unfold glmFit
  by_cases hb : C.boundsBad
  · left; simp only [if_pos hb]; exact ⟨trivial, trivial⟩
  simp only [if_neg hb, bind]
  cases setupP2 p C.xsp 1 l1 C.P2a with
  | none => left; exact ⟨rfl, rfl⟩
  | some P2 =>
    simp only [Option.bind_some]
    by_cases hp : C.p2ok P2 = false
    · left; simp only [if_pos hp]; exact ⟨trivial, trivial⟩
    simp only [if_neg hp]
    cases hQ : prepare C stats R l1 with
    | none => left; exact ⟨rfl, rfl⟩
    | some Q =>
      simp only [Option.bind_some]
      cases a.eval C Q with
      | none => left; exact ⟨rfl, rfl⟩
      | some alphas =>
        simp only [Option.bind_some]
        obtain ⟨h1, h2⟩ := path_agree h Q (prepare_random C stats R l1 Q hQ) alphas s t hst
        rw [h2]
        cases storePath C.thr Q.means Q.stds alphas (Q.path g alphas t).2 with
        | none => left; exact ⟨rfl, rfl⟩
        | some r => right; exact ⟨_, _, r, rfl, rfl, h1⟩

theorem fitPath_agree {σ τ : Type} {Rel : σ → τ → Prop} {f : SolverFn σ p ic} {g : SolverFn τ p ic} (C : FitCfg p ic)
    (h : Agree C.random Rel f g) (stats : Stats) (R : Rows N) (j : CVJob N) (s : σ) (t : τ) (hst : Rel s t) :
    Rel (fitPath C stats f R j s).1 (fitPath C stats g R j t).1 ∧ (fitPath C stats f R j s).2 = (fitPath C stats g R j t).2 := by
  unfold fitPath
  cases hQ : prepare C stats (R.fold j.train) j.l1 with
  | none => exact ⟨hst, rfl⟩
  | some Q =>
    simp only
    split
    · exact ⟨hst, rfl⟩
    · obtain ⟨h1, h2⟩ := path_agree h Q (prepare_random C stats _ _ Q hQ) j.alphas s t hst
      rw [h2]
      exact ⟨h1, rfl⟩

theorem cvFit_agree {σ τ : Type} {f : SolverFn σ p ic} {g : SolverFn τ p ic} (C : FitCfg p ic)
    (h : Agree C.random (fun _ _ => True) f g) (stats : Stats) (R : Rows N) (S : ℕ) (splits : List (List (Fin N) × List (Fin N)))
    (l1s : List ℝ) (alphass : List (List ℝ)) (st : ℕ → σ) (st' : ℕ → τ) (a a' : List (ℕ × Option FoldOut))
    (ha : Arrival (fitPath C stats f R) (cvJobs splits l1s alphass) st a)
    (ha' : Arrival (fitPath C stats g R) (cvJobs splits l1s alphass) st' a') (s : σ) (t : τ) :
    (cvFit C stats f R S splits l1s alphass a s).map (·.2) = (cvFit C stats g R S splits l1s alphass a' t).map (·.2) := by
  have hcol : joblibCollect (cvJobs splits l1s alphass).length a = joblibCollect (cvJobs splits l1s alphass).length a' := by
    apply Option.ext
    intro outs
    show joblibCollect _ a = some outs ↔ joblibCollect _ a' = some outs
    rw [c61_collect _ _ st a ha, c61_collect _ _ st' a' ha']
    constructor
    · rintro ⟨hl, hr⟩
      exact ⟨hl, fun k hk hk' => by rw [← (fitPath_agree C h stats R _ (st k) (st' k) trivial).2]; exact hr k hk hk'⟩
    · rintro ⟨hl, hr⟩
      exact ⟨hl, fun k hk hk' => by rw [(fitPath_agree C h stats R _ (st k) (st' k) trivial).2]; exact hr k hk hk'⟩
  have hfin : ∀ outs, (cvFinish C stats f R S l1s alphass outs s).map (·.2) = (cvFinish C stats g R S l1s alphass outs t).map (·.2) := by
    intro outs
    apply Option.ext
    intro r
    simp only [Option.map_eq_some_iff, Prod.exists, exists_and_right, exists_eq_right]
    constructor
    · rintro ⟨s₁, hr⟩
      rw [cvFinish_spec] at hr
      obtain ⟨al0, best, Q, bestRow, F⟩ := hr
      have hp := (path_agree h Q (prepare_random C stats R _ Q F.prep) r.refit.alphas s t trivial).2
      refine ⟨(Q.path g r.refit.alphas t).1, ?_⟩
      rw [cvFinish_spec]
      exact ⟨al0, best, Q, bestRow, { F with state := rfl, row := (by rw [← hp]; exact F.row), refit := (by rw [← hp]; exact F.refit) }⟩
    · rintro ⟨s₁, hr⟩
      rw [cvFinish_spec] at hr
      obtain ⟨al0, best, Q, bestRow, F⟩ := hr
      have hp := (path_agree h Q (prepare_random C stats R _ Q F.prep) r.refit.alphas s t trivial).2
      refine ⟨(Q.path f r.refit.alphas s).1, ?_⟩
      rw [cvFinish_spec]
      exact ⟨al0, best, Q, bestRow, { F with state := rfl, row := (by rw [hp]; exact F.row), refit := (by rw [hp]; exact F.refit) }⟩
  unfold cvFit
  simp only [Option.bind_eq_bind]
  rw [hcol]
  cases joblibCollect (cvJobs splits l1s alphass).length a' with
  | none => rfl
  | some outs => simpa only [Option.bind_some] using hfin outs

/-! ### The theorems -/

/-- Two logs that agree in all the user can see of the fit: warnings, iterations, recorded objective values. -/
def Spec.SameVisible {γ δ : Type} (s : RandomLog γ) (t : RandomLog δ) : Prop :=
  s.convWarn = t.convWarn ∧ s.lsWarn = t.lsWarn ∧ s.nIter = t.nIter ∧ s.objs = t.objs

theorem agree_cyclic {γ δ : Type} (G : NumpyRng γ) (G' : NumpyRng δ) (rs rs' : RandomArg) :
    Agree (p := p) (ic := ic) false SameVisible (irlsCdRandom G rs) (irlsCdRandom G' rs') := by
  intro m D A s t start hr hst
  have e := irlsRun_congr (cdInner (G.nth (checkRandomState G s.gen rs))) (cdInner (G'.nth (checkRandomState G' t.gen rs'))) D
    (fun st => cdInner_cyclic D hr _ _ st) start
  unfold irlsCdRandom
  simp only [e]
  refine ⟨⟨?_, ?_, by trivial, by trivial⟩, by trivial⟩
  · exact congrArg (· + _) hst.1
  · exact congrArg (· + _) hst.2.1

theorem agree_int {γ : Type} (G : NumpyRng γ) (i : ℕ) (rnd : Bool) :
    Agree (p := p) (ic := ic) rnd SameVisible (irlsCdRandom G (.int i)) (irlsCdRandom G (.int i)) := by
  intro m D A s t start hr hst
  unfold irlsCdRandom
  simp only [checkRandomState]
  refine ⟨⟨?_, ?_, by trivial, by trivial⟩, by trivial⟩
  · exact congrArg (· + _) hst.1
  · exact congrArg (· + _) hst.2.1

theorem Agree.weaken {σ τ : Type} {rnd : Bool} {f : SolverFn (RandomLog σ) p ic} {g : SolverFn (RandomLog τ) p ic}
    (h : ∀ (m : ℕ) (D : IRLSData m p ic) A s t start, D.random = rnd → (f m D A s start).2 = (g m D A t start).2) :
    Agree rnd (fun _ _ => True) f g := fun m D A s t start hr _ => ⟨trivial, h m D A s t start hr⟩

/-- **C106.** With `selection='cyclic'` the fit by `irls-cd` (single alpha, given alphas or computed path) does not depend on
`random_state` or on the state of any generator: either both fits raise, or both give the same coefficients, intercepts and path, the same
warnings and iterations. -/
theorem c106_fit_cyclic {γ δ : Type} (G : NumpyRng γ) (G' : NumpyRng δ) (rs rs' : RandomArg) (C : FitCfg p ic) (hC : C.random = false)
    (stats : Stats) (R : Rows n) (l1 : ℝ) (a : AlphaSpec) (s : RandomLog γ) (t : RandomLog δ) (hst : SameVisible s t) :
    (glmFit C stats (irlsCdRandom G rs) R l1 a s = none ∧ glmFit C stats (irlsCdRandom G' rs') R l1 a t = none) ∨
    ∃ s' t' r, glmFit C stats (irlsCdRandom G rs) R l1 a s = some (s', r) ∧
      glmFit C stats (irlsCdRandom G' rs') R l1 a t = some (t', r) ∧ SameVisible s' t' :=
  glmFit_agree C (hC ▸ agree_cyclic G G' rs rs') stats R l1 a s t hst

/-- **C106.** With an integer `random_state` the fit by `irls-cd`, also with `selection='random'`, does not depend on what has been drawn
before from any generator; in particular the second of two fits on the same arguments gives what the first gave. -/
theorem c106_fit_integer {γ : Type} (G : NumpyRng γ) (i : ℕ) (C : FitCfg p ic) (stats : Stats) (R : Rows n) (l1 : ℝ) (a : AlphaSpec)
    (s t : RandomLog γ) (hst : SameVisible s t) :
    (glmFit C stats (irlsCdRandom G (.int i)) R l1 a s = none ∧ glmFit C stats (irlsCdRandom G (.int i)) R l1 a t = none) ∨
    ∃ s' t' r, glmFit C stats (irlsCdRandom G (.int i)) R l1 a s = some (s', r) ∧
      glmFit C stats (irlsCdRandom G (.int i)) R l1 a t = some (t', r) ∧ SameVisible s' t' :=
  glmFit_agree C (agree_int G i C.random) stats R l1 a s t hst

theorem irlsRun_nIter_le (inner : Inner n p ic) (D : IRLSData n p ic) (coef : Fin (p + ic.toNat) → ℝ) :
    (irlsRun inner D coef).nIter ≤ D.maxIter := by
  unfold irlsRun
  have h0 : (irlsInit D coef).nIter ≤ D.maxIter := Nat.zero_le _
  revert h0
  generalize irlsInit D coef = st
  suffices H : ∀ fuel (st : IRLSState n p ic), st.nIter ≤ D.maxIter → (irlsLoop inner D fuel st).nIter ≤ D.maxIter from H _ st
  intro fuel
  induction fuel with
  | zero => intro st h; exact h
  | succ f ih =>
    intro st h
    simp only [irlsLoop]
    split
    · next hc => exact ih _ hc.1
    · exact h

theorem path_gen_int {γ : Type} (G : NumpyRng γ) (i : ℕ) (Q : Prepared n p ic) (alphas : List ℝ) (s : RandomLog γ) :
    (Q.path (irlsCdRandom G (.int i)) alphas s).1.gen = s.gen := by
  unfold Prepared.path
  generalize Q.start = c
  induction alphas generalizing c s with
  | nil => rfl
  | cons b rest ih =>
    simp only [solvePath]
    rw [ih]
    rfl

/-- **C106.** With an integer `random_state` a fit takes no number from numpy's global generator (nor from any other outside). -/
theorem c106_integer_leaves_generator {γ : Type} (G : NumpyRng γ) (i : ℕ) (C : FitCfg p ic) (stats : Stats) (R : Rows n) (l1 : ℝ)
    (a : AlphaSpec) (s s' : RandomLog γ) (r : PathResult) (h : glmFit C stats (irlsCdRandom G (.int i)) R l1 a s = some (s', r)) :
    s'.gen = s.gen := by
  obtain ⟨Q, -, -, hs', -⟩ := glmFit_spec C stats _ R l1 a s s' r h
  rw [hs']
  exact path_gen_int G i Q _ s

/-- **C106.** With a `RandomState` instance (or `None`) one solve takes exactly as many numbers as the outer loop made passes, whatever
`selection` is: no draw is skipped and none is made twice. -/
theorem c106_shared_draws {γ : Type} (G : NumpyRng γ) (m : ℕ) (D : IRLSData m p ic) (A : Option (ℕ → ℕ → ℝ)) (s : RandomLog γ)
    (start : Fin (p + ic.toNat) → ℝ) :
    (irlsCdRandom G .shared m D A s start).1.gen = G.after s.gen (irlsCdRandom G .shared m D A s start).1.nIter ∧
    (irlsCdRandom G .shared m D A s start).1.nIter ≤ D.maxIter := by
  refine ⟨rfl, ?_⟩
  exact (irlsRun_nIter_le (cdInner (G.nth (checkRandomState G s.gen .shared))) D start)

theorem after_add {γ : Type} (G : NumpyRng γ) (g : γ) (j k : ℕ) : G.after (G.after g j) k = G.after g (j + k) := by
  induction k with
  | zero => rfl
  | succ k ih =>
    show (G.randint (G.after (G.after g j) k)).2 = (G.randint (G.after g (j + k))).2
    rw [ih]

/-- **C106.** With a `RandomState` instance (or `None`) a whole fit advances the generator by some number of draws, at most `max_iter` for
each alpha: so a second fit with the same instance goes on where the first one stopped. -/
theorem c106_shared_fit_draws {γ : Type} (G : NumpyRng γ) (C : FitCfg p ic) (stats : Stats) (R : Rows n) (l1 : ℝ)
    (a : AlphaSpec) (s s' : RandomLog γ) (r : PathResult) (h : glmFit C stats (irlsCdRandom G .shared) R l1 a s = some (s', r)) :
    ∃ k ≤ r.alphas.length * C.maxIter, s'.gen = G.after s.gen k := by
  obtain ⟨Q, hQ, -, hs', -⟩ := glmFit_spec C stats _ R l1 a s s' r h
  have hm : Q.D.maxIter = C.maxIter := by
    unfold prepare at hQ
    simp only [bind, Option.bind_eq_some_iff, Option.some.injEq] at hQ
    obtain ⟨_, -, _, -, _, -, rfl⟩ := hQ
    rfl
  rw [hs', ← hm]
  unfold Prepared.path
  generalize r.alphas = alphas
  generalize Q.start = c
  clear hs' h
  induction alphas generalizing c s with
  | nil => exact ⟨0, by simp, rfl⟩
  | cons b rest ih =>
    simp only [solvePath]
    obtain ⟨k, hk, e⟩ := ih (Q.solveFn (irlsCdRandom G .shared) s (fun j => Q.D.P1 j * b) (Q.D.P2.smul b) c).1
      (Q.solveFn (irlsCdRandom G .shared) s (fun j => Q.D.P1 j * b) (Q.D.P2.smul b) c).2
    rw [e]
    obtain ⟨e1, h1⟩ := c106_shared_draws G n (Q.D.withPen (fun j => Q.D.P1 j * b) (Q.D.P2.smul b)) Q.A s c
    refine ⟨(irlsCdRandom G .shared n (Q.D.withPen (fun j => Q.D.P1 j * b) (Q.D.P2.smul b)) Q.A s c).1.nIter + k, ?_, ?_⟩
    · rw [List.length_cons, Nat.succ_mul, Nat.add_comm]
      exact Nat.add_le_add hk h1
    · rw [← after_add, ← e1]
      rfl

/-- **C106.** With `selection='cyclic'`, the cross-validated fit is the same for every `random_state`, number of processes, order of
completion and state of the generators in the workers. -/
theorem c106_cv_cyclic {γ δ : Type} (G : NumpyRng γ) (G' : NumpyRng δ) (rs rs' : RandomArg) (C : FitCfg p ic) (hC : C.random = false)
    (stats : Stats) (R : Rows N) (S : ℕ) (splits : List (List (Fin N) × List (Fin N))) (l1s : List ℝ) (alphass : List (List ℝ))
    (st : ℕ → RandomLog γ) (st' : ℕ → RandomLog δ) (a a' : List (ℕ × Option FoldOut))
    (ha : Arrival (fitPath C stats (irlsCdRandom G rs) R) (cvJobs splits l1s alphass) st a)
    (ha' : Arrival (fitPath C stats (irlsCdRandom G' rs') R) (cvJobs splits l1s alphass) st' a') (s : RandomLog γ) (t : RandomLog δ) :
    (cvFit C stats (irlsCdRandom G rs) R S splits l1s alphass a s).map (·.2) =
      (cvFit C stats (irlsCdRandom G' rs') R S splits l1s alphass a' t).map (·.2) := by
  refine cvFit_agree C (Agree.weaken fun m D A s t start hr => ?_) stats R S splits l1s alphass st st' a a' ha ha' s t
  rw [hC] at hr
  unfold irlsCdRandom
  simp only
  rw [irlsRun_congr _ (cdInner (G'.nth (checkRandomState G' t.gen rs'))) D (fun st => cdInner_cyclic D hr _ _ st) start]

/-- **C106.** With an integer `random_state`, also with `selection='random'`, the cross-validated fit is the same for every number of
processes, order of completion and state of the generators in the workers. -/
theorem c106_cv_integer {γ : Type} (G : NumpyRng γ) (i : ℕ) (C : FitCfg p ic) (stats : Stats) (R : Rows N) (S : ℕ)
    (splits : List (List (Fin N) × List (Fin N))) (l1s : List ℝ) (alphass : List (List ℝ))
    (st st' : ℕ → RandomLog γ) (a a' : List (ℕ × Option FoldOut))
    (ha : Arrival (fitPath C stats (irlsCdRandom G (.int i)) R) (cvJobs splits l1s alphass) st a)
    (ha' : Arrival (fitPath C stats (irlsCdRandom G (.int i)) R) (cvJobs splits l1s alphass) st' a') (s t : RandomLog γ) :
    (cvFit C stats (irlsCdRandom G (.int i)) R S splits l1s alphass a s).map (·.2) =
      (cvFit C stats (irlsCdRandom G (.int i)) R S splits l1s alphass a' t).map (·.2) :=
  cvFit_agree C (Agree.weaken fun m D A s t start hr => by unfold irlsCdRandom; simp only [checkRandomState]) stats R S splits l1s alphass st st' a a' ha ha' s t

/-! ### How far apart can two seeds be? -/

/-- How the numbers go on after `k` draws: from the start again for an integer, where they were for an instance. -/
def seedsNext (rs : RandomArg) (seeds : ℕ → BitVec 32) (k : ℕ) : ℕ → BitVec 32 :=
  match rs with
  | .int _ => seeds
  | .shared => fun j => seeds (k + j)

/-- The solver with an explicit generator is the `irls-cd` solver of the other theorems. -/
theorem agree_irlsCd {γ : Type} (G : NumpyRng γ) (rs : RandomArg) (rnd : Bool) :
    Agree (p := p) (ic := ic) rnd
      (fun (s : RandomLog γ) (t : SolverLog) => t.seeds = G.nth (checkRandomState G s.gen rs) ∧ s.convWarn = t.convWarn)
      (irlsCdRandom G rs) (irlsCd (seedsNext rs)) := by
  intro m D A s t start hr hst
  unfold irlsCdRandom irlsCd irlsSolver
  simp only [hst.1]
  refine ⟨⟨?_, ?_⟩, by trivial⟩
  · cases rs with
    | int i => rfl
    | shared =>
      funext j
      simp only [seedsNext, checkRandomState, NumpyRng.nth]
      rw [after_add]
  · exact congrArg (· + _) hst.2

/-- **C106.** With `selection='random'` and different `random_state`s (or a generator in a different state) two fits by `irls-cd` of the same
problem, neither of which raised a `ConvergenceWarning`, agree up to the tolerance: if the documented objective has curvature `mu`, then
rows of the path within the bounds differ by at most `4 gradient_tol / mu` on the standardised scale. -/
theorem c106_seeds_within_tolerance {γ δ : Type} (G : NumpyRng γ) (G' : NumpyRng δ) (rs rs' : RandomArg) (C : FitCfg p ic) (stats : Stats)
    (R : Rows n) (l1r : ℝ) (h : ConvexFit C R l1r) (hs : ∀ j, 0 ≤ (stats n R.X R.sw).2 j) (hstep : C.stepTol = none) (hg : 0 ≤ C.gradTol)
    (sp : AlphaSpec) (s t : RandomLog γ) (s' t' : RandomLog δ) (r r' : PathResult)
    (hfit : glmFit C stats (irlsCdRandom G rs) R l1r sp s = some (t, r)) (hw : t.convWarn = s.convWarn)
    (hfit' : glmFit C stats (irlsCdRandom G' rs') R l1r sp s' = some (t', r')) (hw' : t'.convWarn = s'.convWarn)
    (ha : ∀ x ∈ r.alphas, 0 ≤ x)
    (i : ℕ) (hi : i < r.alphas.length) (hc : i < r.coefPath.length) (hb : i < r.interceptPath.length)
    (hc' : i < r'.coefPath.length) (hb' : i < r'.interceptPath.length)
    (hin : WithinBounds p C.lb C.ub r.coefPath[i]) (hin' : WithinBounds p C.lb C.ub r'.coefPath[i]) (mu : ℝ) (hmu : 0 < mu)
    (hcurv : Curvature p ic C.thr (stats n R.X R.sw).1 (stats n R.X R.sw).2 mu
      (fitObjective p C.e50 C.family C.link R (penScale C.thr C.asIfScaled (stats n R.X R.sw).2) C.P1a C.P2a r.alphas[i] l1r)) :
    r'.alphas = r.alphas ∧
    StdClose p ic C.thr (stats n R.X R.sw).1 (stats n R.X R.sw).2 (4 * C.gradTol / mu)
      r.interceptPath[i] r.coefPath[i] r'.interceptPath[i] r'.coefPath[i] := by
  have hal : r'.alphas = r.alphas := by
    obtain ⟨Q, hQ, e, -⟩ := glmFit_spec C stats _ R l1r sp s t r hfit
    obtain ⟨Q', hQ', e', -⟩ := glmFit_spec C stats _ R l1r sp s' t' r' hfit'
    rw [hQ, Option.some.injEq] at hQ'
    subst hQ'
    rw [e, Option.some.injEq] at e'
    exact e'.symm
  refine ⟨hal, ?_⟩
  have key : ∀ {ε : Type} (G : NumpyRng ε) (rs : RandomArg) (s t : RandomLog ε) (r : PathResult)
      (hfit : glmFit C stats (irlsCdRandom G rs) R l1r sp s = some (t, r)) (hw : t.convWarn = s.convWarn),
      ∃ u v : SolverLog, glmFit C stats (irlsCd (seedsNext rs)) R l1r sp u = some (v, r) ∧ v.convWarn = u.convWarn := by
    intro ε G rs s t r hfit hw
    rcases glmFit_agree C (agree_irlsCd G rs C.random) stats R l1r sp s
      ⟨G.nth (checkRandomState G s.gen rs), s.convWarn, 0, 0, []⟩ ⟨rfl, rfl⟩ with h0 | ⟨s1, t1, r1, e1, e2, h3⟩
    · rw [hfit] at h0; exact absurd h0.1 (by simp)
    · rw [hfit, Option.some.injEq, Prod.mk.injEq] at e1
      obtain ⟨rfl, rfl⟩ := e1
      exact ⟨_, _, e2, h3.2.symm.trans hw⟩
  obtain ⟨u, v, f1, w1⟩ := key G rs s t r hfit hw
  obtain ⟨u', v', f2, w2⟩ := key G' rs' s' t' r' hfit' hw'
  have := c78_fits_agree (seedsNext rs) (seedsNext rs') (fun seeds _ => cdInner seeds) (fun seeds _ => cdInner seeds) C C
    ⟨rfl, rfl, rfl, rfl, rfl, rfl, rfl, rfl, rfl⟩ stats R l1r h hs hstep hstep hg hg sp sp u v u' v' r r' f1 ha w1 f2 (hal ▸ ha) w2 i i hi hc hb
    (hal ▸ hi) hc' hb' (by simp only [hal]) hin hin' mu hmu hcurv
  have e : 2 * (C.gradTol + C.gradTol) / mu = 4 * C.gradTol / mu := by ring
  rw [e] at this
  exact this

/-! ### A case that meets the hypotheses -/

/-- A generator that counts. -/
def countRng : NumpyRng ℕ where
  seed := fun i => i
  randint := fun g => (BitVec.ofNat 32 g, g + 1)

/-- A fit with data, whichever `random_state`: it succeeds, and the theorems apply to it. -/
theorem c106_example (rs rs' : RandomArg) (s t : RandomLog ℕ) (hst : SameVisible s t) :
    ∃ s' t' r, glmFit (tinyCfg 1 1) tinyStats (irlsCdRandom countRng rs) tinyRows 0 (.single 1) s = some (s', r) ∧
      glmFit (tinyCfg 1 1) tinyStats (irlsCdRandom countRng rs') tinyRows 0 (.single 1) t = some (t', r) ∧ SameVisible s' t' := by
  rcases c106_fit_cyclic countRng countRng rs rs' (tinyCfg 1 1) rfl tinyStats tinyRows 0 (.single 1) s t hst with h | h
  · exfalso
    obtain ⟨g, hg⟩ : ∃ g, startGuess (tinyCfg 1 1) tinyRows = some g := by
      show ∃ g, guessIntercept .normal .identity tinyRows.y tinyRows.sw .none = some g
      unfold guessIntercept
      rw [if_neg (by simp)]
      exact ⟨_, rfl⟩
    obtain ⟨Q, hQ⟩ : ∃ Q, prepare (tinyCfg 1 1) tinyStats tinyRows 0 = some Q := by
      unfold prepare
      rw [hg]
      exact ⟨_, rfl⟩
    obtain ⟨r, hr, -⟩ := glmFit_single (tinyCfg 1 1) tinyStats (irlsCdRandom countRng rs) tinyRows 0 1 s Q hQ
      (by rintro ⟨l, u, h, -⟩; cases h) (fun _ => rfl)
    rw [hr] at h
    exact absurd h.1 (by simp)
  · exact h

end Glum
