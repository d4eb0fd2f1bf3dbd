import Verif.Props.Report
import Verif.Props.CV
/-
C133: cross-validation with a small enough tolerance selects what exact solutions of the folds would select, and reports what the exact solution would report.
-/
set_option linter.unusedSectionVars false
set_option linter.unusedVariables false
set_option linter.unusedSimpArgs false

namespace Glum
open Spec Topology

variable {N n m p : ℕ} {ic : Bool}

/-! ### Specification -/

/-- For every split `i`, l1 ratio `l` and alpha `k`: the problem on the training rows is convex and determines its coefficients, `B0 i l k` and `B i l k`, and they predict the test rows
without clipping. -/
structure Spec.ExactFolds (C : FitCfg p ic) (stats : Stats) (R : Rows N) (splits : List (List (Fin N) × List (Fin N))) (l1s : List ℝ) (alphass : List (List ℝ))
    (B0 : ℕ → ℕ → ℕ → ℝ) (B : ℕ → ℕ → ℕ → ℕ → ℝ) : Prop where
  convex : ∀ l (hl : l < l1s.length), ConvexFit C R l1s[l]
  stds : ∀ i (hi : i < splits.length) j, 0 ≤ (stats _ (R.fold splits[i].1).X (R.fold splits[i].1).sw).2 j
  solution : ∀ i l k (hi : i < splits.length) (hl : l < l1s.length) (hl' : l < alphass.length) (hk : k < alphass[l].length),
    Determined C (R.fold splits[i].1) (penScale C.thr C.asIfScaled (stats _ (R.fold splits[i].1).X (R.fold splits[i].1).sw).2) l1s[l] alphass[l][k] (B0 i l k) (B i l k)
  regular : ∀ i l k (hi : i < splits.length) (hl : l < l1s.length) (hl' : l < alphass.length) (hk : k < alphass[l].length),
    RegularOn C (R.fold splits[i].2) (B0 i l k) (B i l k)

/-- The deviance of the model `(b0, b)` on rows `T`. -/
noncomputable def Spec.devianceOn (C : FitCfg p ic) (T : Rows m) (b0 : ℝ) (b : ℕ → ℝ) : ℝ := C.family.deviance T.y (modelData C T b0 b).mu T.sw

/-- The mean over the splits of the deviances of the exact solutions on the test rows. -/
noncomputable def Spec.exactLoss (C : FitCfg p ic) (R : Rows N) (splits : List (List (Fin N) × List (Fin N))) (B0 : ℕ → ℕ → ℕ → ℝ) (B : ℕ → ℕ → ℕ → ℕ → ℝ) (l k : ℕ) : ℝ :=
  (∑ i : Fin splits.length, devianceOn C (R.fold splits[i].2) (B0 i l k) (B i l k)) / splits.length

/-- A cross-validation of the problem `C` that succeeds with result `r`: with a configuration `C'` of the same problem with `gradient_tol` below `δ`, any inner solver, the jobs run from
any states `st` and arriving in any order, no job and not the refit raising a ConvergenceWarning, non-negative alphas and coefficients within the bounds. -/
structure Spec.QuietCV (C : FitCfg p ic) (stats : Stats) (R : Rows N) (splits : List (List (Fin N) × List (Fin N))) (l1s : List ℝ) (alphass : List (List ℝ)) (δ : ℝ)
    (next : (ℕ → BitVec 32) → ℕ → (ℕ → BitVec 32)) (inner : (ℕ → BitVec 32) → (m : ℕ) → Inner m p ic) (C' : FitCfg p ic) (S : ℕ) (st : ℕ → SolverLog)
    (arrived : List (ℕ × Option FoldOut)) (s s' : SolverLog) (r : CVResult) : Prop where
  same : SameProblem C C'
  step : C'.stepTol = none
  tol : C'.gradTol < δ
  arrival : Arrival (fitPath C' stats (irlsSolver next inner) R) (cvJobs splits l1s alphass) st arrived
  fit : cvFit C' stats (irlsSolver next inner) R S splits l1s alphass arrived s = some (s', r)
  quiet : ∀ i l (hi : i < splits.length) (hl : l < l1s.length) (hl' : l < alphass.length),
    (fitPath C' stats (irlsSolver next inner) R ⟨splits[i].1, splits[i].2, l1s[l], alphass[l]⟩ (st (i * l1s.length + l))).1.convWarn = (st (i * l1s.length + l)).convWarn
  quietRefit : s'.convWarn = s.convWarn
  alphas : ∀ al ∈ alphass, ∀ a ∈ al, 0 ≤ a
  inside : ∀ c ∈ r.coefPath, WithinBounds p C.lb C.ub c
  insideRefit : ∀ c ∈ r.refit.coefPath, WithinBounds p C.lb C.ub c

/-- `Q` holds of the result of every quiet cross-validation with `gradient_tol` below `δ`. -/
def Spec.EveryCV (C : FitCfg p ic) (stats : Stats) (R : Rows N) (splits : List (List (Fin N) × List (Fin N))) (l1s : List ℝ) (alphass : List (List ℝ)) (δ : ℝ) (Q : CVResult → Prop) : Prop :=
  ∀ (next : (ℕ → BitVec 32) → ℕ → (ℕ → BitVec 32)) (inner : (ℕ → BitVec 32) → (m : ℕ) → Inner m p ic) (C' : FitCfg p ic) (S : ℕ) (st : ℕ → SolverLog)
    (arrived : List (ℕ × Option FoldOut)) (s s' : SolverLog) (r : CVResult), QuietCV C stats R splits l1s alphass δ next inner C' S st arrived s s' r → Q r

/-- Grid point `(l, k)` has the least exact loss. -/
def Spec.ExactBest (C : FitCfg p ic) (R : Rows N) (splits : List (List (Fin N) × List (Fin N))) (B0 : ℕ → ℕ → ℕ → ℝ) (B : ℕ → ℕ → ℕ → ℕ → ℝ) (L K l k : ℕ) : Prop :=
  ∀ l' k', l' < L → k' < K → exactLoss C R splits B0 B l k ≤ exactLoss C R splits B0 B l' k'

/-! ### A fold is a fit -/

theorem convex_fold (C : FitCfg p ic) (R : Rows N) (l1r : ℝ) (h : ConvexFit C R l1r) (idx : List (Fin N)) : ConvexFit C (R.fold idx) l1r :=
  ⟨h.thr, h.valid, h.pair, fun i => h.y _, fun i => div_nonneg (h.sw _) (Finset.sum_nonneg fun k _ => h.sw _), h.p1, h.p2, h.l1⟩

theorem convex_not_negative (C : FitCfg p ic) (R : Rows N) (l1r : ℝ) (h : ConvexFit C R l1r) (q : ℝ) (hq : C.family = .tweedie q) : ¬ q < 0 := by
  intro h0
  obtain ⟨k, hk, -⟩ := h.pair
  rw [hq] at hk
  cases hl : C.link with
  | identity =>
    rw [hl] at hk
    simp only [Family.fast] at hk
    rw [if_neg h0.ne] at hk; cases hk
  | log =>
    rw [hl] at hk
    simp only [Family.fast] at hk
    rw [if_neg (by linarith), if_neg (by linarith), if_neg (fun h => by linarith [h.1]), if_neg (by linarith)] at hk; cases hk
  | logit => rw [hl] at hk; cases hk
  | cloglog => rw [hl] at hk; cases hk
  | tweedie _ => rw [hl] at hk; cases hk

theorem startGuess_p2ok (C : FitCfg p ic) (R : Rows n) (g : Pen2 ℝ → Bool) : startGuess { C with p2ok := g } R = startGuess C R := by
  obtain ⟨a1, a2, a3, a4, a5, a6, a7, a8, a9, a10, a11, a12, a13, a14, a15, a16, a17, a18, a19, a20, a21, a22⟩ := C
  cases ic with
  | false => rfl
  | true => cases a12 <;> rfl

/-- A path that is solved is what `fit` with this list of alphas stores. -/
theorem path_fit {σ : Type} (C : FitCfg p ic) (stats : Stats) (solver : SolverFn σ p ic) (R : Rows n) (l1 : ℝ) (alphas : List ℝ) (ha : alphas ≠ []) (s : σ) (Q : Prepared n p ic)
    (hQ : prepare C stats R l1 = some Q) (hb : ¬ C.boundsBad) :
    ∃ r, glmFit { C with p2ok := fun _ => true } stats solver R l1 (.given alphas) s = some ((Q.path solver alphas s).1, r) ∧ r.alphas = alphas ∧
      r.coefPath = ((Q.path solver alphas s).2.map (report ic C.thr Q.means Q.stds)).map (·.2) ∧
      r.interceptPath = ((Q.path solver alphas s).2.map (report ic C.thr Q.means Q.stds)).map (·.1) := by
  have hQ' : prepare { C with p2ok := fun _ => true } stats R l1 = some Q := by
    rw [← hQ]
    unfold prepare
    rw [startGuess_p2ok]
    rfl
  have h2 : ∃ P2, setupP2 p C.xsp 1 l1 C.P2a = some P2 := by
    unfold prepare at hQ
    simp only [Option.bind_eq_bind, Option.bind_eq_some_iff] at hQ
    obtain ⟨P1, -, P2, h2, -⟩ := hQ
    exact ⟨P2, h2⟩
  obtain ⟨P2, h2⟩ := h2
  have hne : (Q.path solver alphas s).2.map (report ic C.thr Q.means Q.stds) ≠ [] := by
    intro h
    have hl := path_length Q solver alphas s
    rw [List.map_eq_nil_iff] at h
    rw [h] at hl
    exact ha (List.length_eq_zero_iff.1 hl.symm)
  obtain ⟨last, hlast⟩ : ∃ last, ((Q.path solver alphas s).2.map (report ic C.thr Q.means Q.stds)).getLast? = some last :=
    ⟨_, List.getLast?_eq_some_getLast hne⟩
  refine ⟨{ coef := last.2, intercept := if ic then last.1 else 0, coefPath := ((Q.path solver alphas s).2.map (report ic C.thr Q.means Q.stds)).map (·.2)
            interceptPath := ((Q.path solver alphas s).2.map (report ic C.thr Q.means Q.stds)).map (·.1), alphas := alphas }, ?_, rfl, rfl, rfl⟩
  unfold glmFit
  rw [if_neg (show ¬ FitCfg.boundsBad { C with p2ok := fun _ => true } from hb)]
  simp only [Option.bind_eq_bind]
  rw [h2]
  simp only [Option.bind_some]
  rw [if_neg (by simp), hQ']
  simp only [Option.bind_some, AlphaSpec.eval, storePath, Option.bind_eq_bind]
  rw [hlast]
  rfl

/-- What every fit has, every path of a quiet run has. -/
theorem everyFit_path (C C' : FitCfg p ic) (stats : Stats) (R : Rows n) (l1r a δ : ℝ) (Q : ℝ → (ℕ → ℝ) → Prop) (h : EveryFit C stats R l1r a δ Q)
    (next : (ℕ → BitVec 32) → ℕ → (ℕ → BitVec 32)) (inner : (ℕ → BitVec 32) → (m : ℕ) → Inner m p ic) (hC : SameProblem C C') (hst : C'.stepTol = none) (hg : C'.gradTol < δ)
    (hb : ¬ C.boundsBad) (alphas : List ℝ) (ha : ∀ x ∈ alphas, 0 ≤ x) (s : SolverLog) (P : Prepared n p ic) (hP : prepare C' stats R l1r = some P)
    (hw : (P.path (irlsSolver next inner) alphas s).1.convWarn = s.convWarn) (k : ℕ) (hk : k < alphas.length) (hak : alphas[k] = a)
    (hk' : k < (P.path (irlsSolver next inner) alphas s).2.length)
    (hin : WithinBounds p C.lb C.ub (report ic C'.thr P.means P.stds (P.path (irlsSolver next inner) alphas s).2[k]).2) :
    Q (report ic C'.thr P.means P.stds (P.path (irlsSolver next inner) alphas s).2[k]).1 (report ic C'.thr P.means P.stds (P.path (irlsSolver next inner) alphas s).2[k]).2 := by
  have hb' : ¬ C'.boundsBad := by
    rintro ⟨l, u, hl, hu, hj⟩
    exact hb ⟨l, u, by rw [← hC.lb]; exact hl, by rw [← hC.ub]; exact hu, hj⟩
  obtain ⟨r, hr, hal, hcp, hip⟩ := path_fit C' stats (irlsSolver next inner) R l1r alphas (by rintro rfl; simp at hk) s P hP hb'
  have e1 : k < r.alphas.length := by rw [hal]; exact hk
  have e2 : k < r.coefPath.length := by rw [hcp]; simpa using hk'
  have e3 : k < r.interceptPath.length := by rw [hip]; simpa using hk'
  have g2 : r.coefPath[k] = (report ic C'.thr P.means P.stds (P.path (irlsSolver next inner) alphas s).2[k]).2 := by simp only [hcp, List.getElem_map]
  have g3 : r.interceptPath[k] = (report ic C'.thr P.means P.stds (P.path (irlsSolver next inner) alphas s).2[k]).1 := by simp only [hip, List.getElem_map]
  have := h next inner { C' with p2ok := fun _ => true } ⟨hC.family, hC.link, hC.e50, hC.thr, hC.scaled, hC.P1, hC.P2, hC.lb, hC.ub⟩ hst hg (.given alphas) s _ r hr
    (by rw [hal]; exact ha) hw k e1 e2 e3 (by simp only [hal]; exact hak) (by rw [g2]; exact hin)
  rw [g2, g3] at this
  exact this

theorem solves_bounds (C : FitCfg p ic) (F : ℝ → (ℕ → ℝ) → ℝ) (b0 : ℝ) (b : ℕ → ℝ) (h : Solves p ic C.lb C.ub F b0 b) : ¬ C.boundsBad := by
  rintro ⟨l, u, hl, hu, j, hj, hlt⟩
  have h1 := (h.2.1 j hj).1 l hl
  have h2 := (h.2.1 j hj).2 u hu
  linarith

/-- The deviance on given rows depends continuously on the model. -/
theorem deviance_close (C : FitCfg p ic) (hf : Valid C.family) (T : Rows m) (hy : ∀ i, T.y i ∈ ySupport C.family) (hneg : ∀ q, C.family = .tweedie q → ¬ q < 0) (b0 : ℝ) (b : ℕ → ℝ)
    (hreg : RegularOn C T b0 b) (ε : ℝ) (hε : 0 < ε) : ∃ η : ℝ, 0 < η ∧ ∀ c0 c, CoefWithin p η b0 b c0 c → |devianceOn C T c0 c - devianceOn C T b0 b| ≤ ε := by
  set z := restrict (p := p) b0 b with hzdef
  have hz : ∀ i, RegularAt C.e50 C.family C.link (etaOf p T.X T.off (extend z.2) z.1 i) := fun i => by
    rw [hzdef, etaOf_restrict]; exact hreg i
  have hdev : ContinuousAt (fun x => ∑ i, T.sw i * C.family.unitDeviance (T.y i) ((dataAt C T x).mu i)) z := by
    refine tendsto_finsetSum _ fun i _ => continuousAt_const.mul ?_
    exact ContinuousAt.comp (g := fun q => C.family.unitDeviance (T.y i) q) (c05_deviance_derivative C.family hf _ _ (hy i) (hz i).mu).continuousAt
      (mean_cont _ (eta_cont T i z) (hz i))
  have hnear : ∀ᶠ x in 𝓝 z, ∀ i, (dataAt C T x).mu i ∈ muRange C.family := Filter.eventually_all.2 fun i => by
    filter_upwards [regular_near _ (eta_cont T i z) (hz i)] with x hx using hx.mu
  obtain ⟨η, hη, hall⟩ := close_of_eventually _ b0 b (hnear.and (within_eventually hdev hε))
  refine ⟨η, hη, fun c0 c hc => ?_⟩
  obtain ⟨h1, h2⟩ := hall c0 c hc
  simp only [hzdef, dataAt_restrict] at h1 h2
  unfold devianceOn
  rw [c07_deviance_sum_partial C.family hf T.y _ T.sw hy h1 (fun q hq h0 => absurd h0 (hneg q hq)),
    c07_deviance_sum_partial C.family hf T.y (modelData C T b0 b).mu T.sw hy (fun i => (hreg i).mu) (fun q hq h0 => absurd h0 (hneg q hq))]
  exact h2

/-- Finitely many tolerances have a common one. -/
theorem common_delta {ι : Type} [Finite ι] (P : ι → ℝ → Prop) (hm : ∀ x δ δ', δ' ≤ δ → P x δ → P x δ') (h : ∀ x, ∃ δ : ℝ, 0 < δ ∧ P x δ) : ∃ δ : ℝ, 0 < δ ∧ ∀ x, P x δ := by
  cases nonempty_fintype ι
  choose d hd hP using h
  by_cases hne : (Finset.univ : Finset ι).Nonempty
  · refine ⟨Finset.univ.inf' hne d, (Finset.lt_inf'_iff hne).2 fun x _ => hd x, fun x => hm x _ _ (Finset.inf'_le d (Finset.mem_univ x)) (hP x)⟩
  · exact ⟨1, one_pos, fun x => absurd ⟨x, Finset.mem_univ x⟩ hne⟩

theorem everyFit_mono (C : FitCfg p ic) (stats : Stats) (R : Rows n) (l1r a δ δ' : ℝ) (hd : δ' ≤ δ) (Q : ℝ → (ℕ → ℝ) → Prop) (h : EveryFit C stats R l1r a δ Q) :
    EveryFit C stats R l1r a δ' Q := fun next inner C' hC hst hg => h next inner C' hC hst (lt_of_lt_of_le hg hd)


/-! ### The selection -/

theorem devianceOn_fold (C : FitCfg p ic) (R : Rows N) (idx : List (Fin N)) (b : ℝ) (c : ℕ → ℝ) : devianceOn C (R.fold idx) b c =
    C.family.deviance (fun t => R.y (idx.get t)) (fun t => C.link.inverse C.e50 (∑ j : Fin p, R.X (idx.get t) j * c j + b + (R.off.getD fun _ => 0) (idx.get t)))
      (fun t => R.sw (idx.get t) / ∑ u, R.sw (idx.get u)) := by
  unfold devianceOn
  congr 1
  funext t
  simp only [modelData]
  congr 1
  have ho : ((R.fold idx).off.getD fun _ => 0) t = (R.off.getD fun _ => 0) (idx.get t) := by
    unfold Rows.fold
    cases R.off <;> rfl
  unfold etaOf
  rw [← ho]
  simp only [Rows.fold]
  cases R.off <;> simp

/-- **C133, losses.** The mean out-of-fold deviances of every quiet cross-validation with a small enough tolerance are those of the exact solutions up to `ε`. -/
theorem c133_losses (C : FitCfg p ic) (stats : Stats) (R : Rows N) (splits : List (List (Fin N) × List (Fin N))) (l1s : List ℝ) (alphass : List (List ℝ))
    (hal : alphass.length = l1s.length) (B0 : ℕ → ℕ → ℕ → ℝ) (B : ℕ → ℕ → ℕ → ℕ → ℝ) (h : ExactFolds C stats R splits l1s alphass B0 B) (ε : ℝ) (hε : 0 < ε)
    (K : ℕ) (hK : ∀ al ∈ alphass, al.length = K) :
    ∃ δ : ℝ, 0 < δ ∧ EveryCV C stats R splits l1s alphass δ fun r => ∀ l k, l < l1s.length → k < K →
      |meanOutOfFold splits.length l1s.length K r.dev l k - exactLoss C R splits B0 B l k| ≤ ε := by
  have each : ∀ x : (i : Fin splits.length) × (l : Fin l1s.length) × Fin (alphass[l.val]'(by omega)).length, ∃ δ : ℝ, 0 < δ ∧
      EveryFit C stats (R.fold splits[x.1].1) l1s[x.2.1] (alphass[x.2.1.val]'(by omega))[x.2.2] δ fun c0 c =>
        |devianceOn C (R.fold splits[x.1].2) c0 c - devianceOn C (R.fold splits[x.1].2) (B0 x.1 x.2.1 x.2.2) (B x.1 x.2.1 x.2.2)| ≤ ε := by
    rintro ⟨i, l, k⟩
    have hc := h.convex l l.2
    exact c132_transfer C stats (R.fold splits[i].1) _ _ (convex_fold C R _ hc _) (h.stds i i.2) _ _ (h.solution i l k i.2 l.2 (by omega) k.2) _
      (deviance_close C hc.valid (R.fold splits[i].2) (fun t => hc.y _) (convex_not_negative C R _ hc) _ _ (h.regular i l k i.2 l.2 (by omega) k.2) ε hε)
  obtain ⟨δ, hδ, hall⟩ := common_delta (fun (x : (i : Fin splits.length) × (l : Fin l1s.length) × Fin (alphass[l.val]'(by omega)).length) δ =>
      EveryFit C stats (R.fold splits[x.1].1) l1s[x.2.1] (alphass[x.2.1.val]'(by omega))[x.2.2] δ fun c0 c =>
        |devianceOn C (R.fold splits[x.1].2) c0 c - devianceOn C (R.fold splits[x.1].2) (B0 x.1 x.2.1 x.2.2) (B x.1 x.2.1 x.2.2)| ≤ ε)
    (fun x δ δ' hd hx => everyFit_mono C stats _ _ _ δ δ' hd _ hx) each
  refine ⟨δ, hδ, fun next inner C' S st arrived s s' r q l k hl hk => ?_⟩
  obtain ⟨K', hK', -, hrect, hS, hd1, -, -, -, hpos⟩ := c61_layout C' stats _ R S splits l1s alphass hal st arrived q.arrival s s' r q.fit
  have hKK : K' = K := by
    have hm : alphass[l]'(by omega) ∈ alphass := List.getElem_mem _
    rw [← hrect _ hm, hK _ hm]
  subst hKK
  have hlen : (alphass[l]'(by omega)).length = K' := hK _ (List.getElem_mem _)
  have one : ∀ i (hi : i < splits.length), |r.dev.getD ((i * l1s.length + l) * K' + k) 0 - devianceOn C (R.fold splits[i].2) (B0 i l k) (B i l k)| ≤ ε := by
    intro i hi
    obtain ⟨o, ho, g1, g2, g3, g4, e1, e2, e3, e4⟩ := hpos i l k hi hl (by omega) hk
    obtain ⟨b, c, d, f1, f2, f3, f4⟩ := c60_deviance C' stats _ R S splits l1s alphass hal st arrived q.arrival s s' r q.fit K' hK i l k hi hl hk
    obtain ⟨Q, hQ, hoe⟩ := fitPath_spec C' stats _ R _ _ o ho
    have hw := q.quiet i l hi hl (by omega)
    have hpath : (fitPath C' stats (irlsSolver next inner) R ⟨splits[i].1, splits[i].2, l1s[l], alphass[l]'(by omega)⟩ (st (i * l1s.length + l))).1
        = (Q.path (irlsSolver next inner) (alphass[l]'(by omega)) (st (i * l1s.length + l))).1 := by
      unfold fitPath at ho ⊢
      rw [hQ] at ho ⊢
      simp only at ho ⊢
      split at ho
      · cases ho
      · next hp => rw [if_neg hp]
    rw [hpath] at hw
    have hk2 : k < (Q.path (irlsSolver next inner) (alphass[l]'(by omega)) (st (i * l1s.length + l))).2.length := by rw [path_length]; omega
    have hb : b = (report ic C'.thr Q.means Q.stds ((Q.path (irlsSolver next inner) (alphass[l]'(by omega)) (st (i * l1s.length + l))).2[k])).1 := by
      have := f1.symm.trans e4
      simp only [Option.some.injEq] at this
      rw [this]; subst hoe; simp
    have hcc : c = (report ic C'.thr Q.means Q.stds ((Q.path (irlsSolver next inner) (alphass[l]'(by omega)) (st (i * l1s.length + l))).2[k])).2 := by
      have := f2.symm.trans e3
      simp only [Option.some.injEq] at this
      rw [this]; subst hoe; simp
    have hwb : WithinBounds p C.lb C.ub c := q.inside c (List.mem_of_getElem? f2)
    have hmain := everyFit_path C C' stats (R.fold splits[i].1) l1s[l] (alphass[l]'(by omega))[k] δ _ (hall ⟨⟨i, hi⟩, ⟨l, hl⟩, ⟨k, by simpa [hlen] using hk⟩⟩) next inner q.same q.step q.tol
      (solves_bounds C _ _ _ (h.solution i l k hi hl (by omega) (by omega)).1) (alphass[l]'(by omega)) (q.alphas _ (List.getElem_mem _)) _ Q hQ hw k (by omega) rfl hk2
      (by rw [← hcc]; exact hwb)
    rw [← hb, ← hcc] at hmain
    have hd : r.dev.getD ((i * l1s.length + l) * K' + k) 0 = d := by simp [List.getD_eq_getElem?_getD, f3]
    have hmu := (f4 _ fun t => rfl).1
    rw [hd, hmu, q.same.family, q.same.link, q.same.e50]
    have hmain' : |devianceOn C (R.fold splits[i].2) b c - devianceOn C (R.fold splits[i].2) (B0 i l k) (B i l k)| ≤ ε := hmain
    rw [devianceOn_fold C R splits[i].2 b c] at hmain'
    exact hmain'
  unfold meanOutOfFold exactLoss
  subst hS
  rw [Finset.sum_range fun i => r.dev.getD ((i * l1s.length + l) * K' + k) 0, ← sub_div, ← Finset.sum_sub_distrib, abs_div, Nat.abs_cast]
  rcases Nat.eq_zero_or_pos splits.length with h0 | h0
  · have : IsEmpty (Fin splits.length) := by rw [h0]; infer_instance
    simp; exact hε.le
  · rw [div_le_iff₀ (by exact_mod_cast h0)]
    calc _ ≤ ∑ i : Fin splits.length, ε := (Finset.abs_sum_le_sum_abs _ _).trans (Finset.sum_le_sum fun i _ => one i i.2)
      _ = ε * splits.length := by simp [mul_comm]

/-- **C133, selection.** Every quiet cross-validation with a small enough tolerance selects an l1 ratio and an alpha of its path with the least exact loss. -/
theorem c133_selects (C : FitCfg p ic) (stats : Stats) (R : Rows N) (splits : List (List (Fin N) × List (Fin N))) (l1s : List ℝ) (alphass : List (List ℝ))
    (hal : alphass.length = l1s.length) (B0 : ℕ → ℕ → ℕ → ℝ) (B : ℕ → ℕ → ℕ → ℕ → ℝ) (h : ExactFolds C stats R splits l1s alphass B0 B) (K : ℕ) (hK : ∀ al ∈ alphass, al.length = K) :
    ∃ δ : ℝ, 0 < δ ∧ EveryCV C stats R splits l1s alphass δ fun r => ∃ l k, l < l1s.length ∧ k < K ∧ l1s[l]? = some r.l1 ∧ (alphass[l]?.bind fun al => al[k]?) = some r.alpha ∧
      ExactBest C R splits B0 B l1s.length K l k := by
  have each : ∀ x : (Fin l1s.length × Fin K) × (Fin l1s.length × Fin K), ∃ δ : ℝ, 0 < δ ∧ EveryCV C stats R splits l1s alphass δ fun r =>
      exactLoss C R splits B0 B x.2.1 x.2.2 < exactLoss C R splits B0 B x.1.1 x.1.2 →
        meanOutOfFold splits.length l1s.length K r.dev x.2.1 x.2.2 < meanOutOfFold splits.length l1s.length K r.dev x.1.1 x.1.2 := by
    rintro ⟨⟨l, k⟩, ⟨l', k'⟩⟩
    by_cases hlt : exactLoss C R splits B0 B l' k' < exactLoss C R splits B0 B l k
    · obtain ⟨δ, hδ, hall⟩ := c133_losses C stats R splits l1s alphass hal B0 B h ((exactLoss C R splits B0 B l k - exactLoss C R splits B0 B l' k') / 3) (by linarith) K hK
      refine ⟨δ, hδ, fun next inner C' S st arrived s s' r q _ => ?_⟩
      have h1 := abs_le.1 (hall next inner C' S st arrived s s' r q l k l.2 k.2)
      have h2 := abs_le.1 (hall next inner C' S st arrived s s' r q l' k' l'.2 k'.2)
      show meanOutOfFold _ _ _ _ _ _ < meanOutOfFold _ _ _ _ _ _
      linarith [h1.1, h2.2]
    · exact ⟨1, one_pos, fun next inner C' S st arrived s s' r q hx => absurd hx hlt⟩
  obtain ⟨δ, hδ, hall⟩ := common_delta (fun (x : (Fin l1s.length × Fin K) × (Fin l1s.length × Fin K)) δ => EveryCV C stats R splits l1s alphass δ fun r =>
      exactLoss C R splits B0 B x.2.1 x.2.2 < exactLoss C R splits B0 B x.1.1 x.1.2 →
        meanOutOfFold splits.length l1s.length K r.dev x.2.1 x.2.2 < meanOutOfFold splits.length l1s.length K r.dev x.1.1 x.1.2)
    (fun x δ δ' hd hx next inner C' S st arrived s s' r q => hx next inner C' S st arrived s s' r
      ⟨q.same, q.step, lt_of_lt_of_le q.tol hd, q.arrival, q.fit, q.quiet, q.quietRefit, q.alphas, q.inside, q.insideRefit⟩) each
  refine ⟨δ, hδ, fun next inner C' S st arrived s s' r q => ?_⟩
  obtain ⟨K', bl, ba, hrect, hbl, hba, e1, e2, e3, hmin⟩ := c60_select C' stats _ R S splits l1s alphass hal st arrived q.arrival s s' r q.fit
  obtain ⟨-, -, -, -, hS, -⟩ := c61_layout C' stats _ R S splits l1s alphass hal st arrived q.arrival s s' r q.fit
  have hKK : K' = K := by
    have hm : alphass[bl]'(by omega) ∈ alphass := List.getElem_mem _
    rw [← hrect _ hm, hK _ hm]
  subst hKK
  refine ⟨bl, ba, hbl, hba, e1, by rw [e2]; exact e3, fun l' k' hl' hk' => ?_⟩
  by_contra hn
  have := hall ⟨(⟨bl, hbl⟩, ⟨ba, hba⟩), (⟨l', hl'⟩, ⟨k', hk'⟩)⟩ next inner C' S st arrived s s' r q (not_le.1 hn)
  have h2 := (hmin l' k' hl' hk').1
  rw [← hS] at h2
  exact absurd h2 (not_le.2 this)

/-- **C133, one best.** If one grid point has the least exact loss, its l1 ratio and alpha are selected. -/
theorem c133_selects_the_best (C : FitCfg p ic) (stats : Stats) (R : Rows N) (splits : List (List (Fin N) × List (Fin N))) (l1s : List ℝ) (alphass : List (List ℝ))
    (hal : alphass.length = l1s.length) (B0 : ℕ → ℕ → ℕ → ℝ) (B : ℕ → ℕ → ℕ → ℕ → ℝ) (h : ExactFolds C stats R splits l1s alphass B0 B) (K : ℕ) (hK : ∀ al ∈ alphass, al.length = K)
    (l k : ℕ) (hl : l < l1s.length) (hk : k < K)
    (hbest : ∀ l' k', l' < l1s.length → k' < K → (l', k') ≠ (l, k) → exactLoss C R splits B0 B l k < exactLoss C R splits B0 B l' k') :
    ∃ δ : ℝ, 0 < δ ∧ EveryCV C stats R splits l1s alphass δ fun r => l1s[l]? = some r.l1 ∧ (alphass[l]?.bind fun al => al[k]?) = some r.alpha := by
  obtain ⟨δ, hδ, hall⟩ := c133_selects C stats R splits l1s alphass hal B0 B h K hK
  refine ⟨δ, hδ, fun next inner C' S st arrived s s' r q => ?_⟩
  obtain ⟨l', k', hl', hk', h1, h2, hb⟩ := hall next inner C' S st arrived s s' r q
  by_cases he : (l', k') = (l, k)
  · obtain ⟨rfl, rfl⟩ := Prod.mk.inj he
    exact ⟨h1, h2⟩
  · exact absurd (hb l k hl hk) (not_le.2 (hbest l' k' hl' hk' he))

/-- What every fit to all rows has at an l1 ratio and alpha, the refit has when these are selected. -/
theorem everyFit_refit (C : FitCfg p ic) (stats : Stats) (R : Rows N) (splits : List (List (Fin N) × List (Fin N))) (l1s : List ℝ) (alphass : List (List ℝ))
    (hal : alphass.length = l1s.length) (hb : ¬ C.boundsBad) (l1 a δ : ℝ) (Q : ℝ → (ℕ → ℝ) → Prop) (h : EveryFit C stats R l1 a δ Q) :
    EveryCV C stats R splits l1s alphass δ fun r => r.l1 = l1 → r.alpha = a → Q r.refit.intercept r.refit.coef := by
  rintro next inner C' S st arrived s s' r q rfl rfl
  obtain ⟨outs, al0, best, P, bestRow, F, -⟩ := cvFit_shape C' stats _ R S splits l1s alphass hal st arrived q.arrival s s' r q.fit
  obtain ⟨ha, hal'⟩ := List.getElem?_eq_some_iff.1 F.al
  have hrow := F.row
  obtain ⟨hp, hrow'⟩ := List.getElem?_eq_some_iff.1 hrow
  simp only [List.getElem_map] at hrow'
  have e1 : r.refit.coef = bestRow.2 := by rw [F.refit]
  have e2 : r.refit.intercept = bestRow.1 := by rw [F.refit]
  have hin : WithinBounds p C.lb C.ub bestRow.2 := by
    refine q.insideRefit _ ?_
    rw [F.refit]
    exact List.mem_map_of_mem (List.mem_of_getElem? hrow)
  have := everyFit_path C C' stats R r.l1 r.alpha δ Q h next inner q.same q.step q.tol hb r.refit.alphas (q.alphas _ (List.mem_of_getElem? F.als)) s P F.prep
    (by rw [← F.state]; exact q.quietRefit) (best % al0.length) ha hal' (by simpa using hp) (by rw [hrow']; exact hin)
  rw [hrow'] at this
  rw [e1, e2]
  exact this

/-- **C133, refit.** What holds of coefficients close to the exact solution on all rows at each of the best grid points holds of `intercept_` and `coef_` of every quiet cross-validation with
a small enough tolerance. -/
theorem c133_refit (C : FitCfg p ic) (stats : Stats) (R : Rows N) (splits : List (List (Fin N) × List (Fin N))) (l1s : List ℝ) (alphass : List (List ℝ))
    (hal : alphass.length = l1s.length) (B0 : ℕ → ℕ → ℕ → ℝ) (B : ℕ → ℕ → ℕ → ℕ → ℝ) (h : ExactFolds C stats R splits l1s alphass B0 B) (K : ℕ) (hK : ∀ al ∈ alphass, al.length = K)
    (hs : ∀ j, 0 ≤ (stats N R.X R.sw).2 j) (A0 : ℕ → ℕ → ℝ) (A : ℕ → ℕ → ℕ → ℝ)
    (hsol : ∀ l k (hl : l < l1s.length) (hl' : l < alphass.length) (hk : k < alphass[l].length), ExactBest C R splits B0 B l1s.length K l k →
      Determined C R (penScale C.thr C.asIfScaled (stats N R.X R.sw).2) l1s[l] alphass[l][k] (A0 l k) (A l k))
    (Q : ℕ → ℕ → ℝ → (ℕ → ℝ) → Prop) (hQ : ∀ l k, ExactBest C R splits B0 B l1s.length K l k → ∃ η : ℝ, 0 < η ∧ ∀ c0 c, CoefWithin p η (A0 l k) (A l k) c0 c → Q l k c0 c) :
    ∃ δ : ℝ, 0 < δ ∧ EveryCV C stats R splits l1s alphass δ fun r => ∃ l k, l < l1s.length ∧ k < K ∧ l1s[l]? = some r.l1 ∧ (alphass[l]?.bind fun al => al[k]?) = some r.alpha ∧
      ExactBest C R splits B0 B l1s.length K l k ∧ Q l k r.refit.intercept r.refit.coef := by
  obtain ⟨δ₁, hδ₁, hsel⟩ := c133_selects C stats R splits l1s alphass hal B0 B h K hK
  have mono : ∀ (δ δ' : ℝ) (P : CVResult → Prop), δ' ≤ δ → EveryCV C stats R splits l1s alphass δ P → EveryCV C stats R splits l1s alphass δ' P :=
    fun δ δ' P hd hx next inner C' S st arrived s s' r q => hx next inner C' S st arrived s s' r
      ⟨q.same, q.step, lt_of_lt_of_le q.tol hd, q.arrival, q.fit, q.quiet, q.quietRefit, q.alphas, q.inside, q.insideRefit⟩
  obtain ⟨δ₂, hδ₂, hfit⟩ := common_delta (fun (x : Fin l1s.length × Fin K) δ => EveryCV C stats R splits l1s alphass δ fun r =>
      ExactBest C R splits B0 B l1s.length K x.1 x.2 → l1s[x.1.val]? = some r.l1 → (alphass[x.1.val]?.bind fun al => al[x.2.val]?) = some r.alpha →
        Q x.1 x.2 r.refit.intercept r.refit.coef) (fun x δ δ' hd hx => mono δ δ' _ hd hx) (by
    rintro ⟨l, k⟩
    by_cases hbst : ExactBest C R splits B0 B l1s.length K l k
    · have hl' : l.val < alphass.length := by omega
      have hk' : k.val < alphass[l.val].length := by rw [hK _ (List.getElem_mem _)]; exact k.2
      have hd := hsol l k l.2 hl' hk' hbst
      obtain ⟨δ, hδ, he⟩ := c132_transfer C stats R _ _ (h.convex l l.2) hs _ _ hd _ (hQ l k hbst)
      refine ⟨δ, hδ, fun next inner C' S st arrived s s' r q _ h1 h2 => ?_⟩
      have g1 : r.l1 = l1s[l.val] := by
        rw [List.getElem?_eq_getElem l.2] at h1; exact (Option.some.inj h1).symm
      have g2 : r.alpha = alphass[l.val][k.val] := by
        rw [List.getElem?_eq_getElem hl', Option.bind_some, List.getElem?_eq_getElem hk'] at h2; exact (Option.some.inj h2).symm
      exact everyFit_refit C stats R splits l1s alphass hal (solves_bounds C _ _ _ hd.1) _ _ δ _ he next inner C' S st arrived s s' r q g1 g2
    · exact ⟨1, one_pos, fun next inner C' S st arrived s s' r q hx => absurd hx hbst⟩)
  refine ⟨min δ₁ δ₂, lt_min hδ₁ hδ₂, fun next inner C' S st arrived s s' r q => ?_⟩
  obtain ⟨l, k, hl, hk, h1, h2, hbst⟩ := mono _ _ _ (min_le_left _ _) hsel next inner C' S st arrived s s' r q
  exact ⟨l, k, hl, hk, h1, h2, hbst, mono _ _ _ (min_le_right _ _) (hfit (⟨l, hl⟩, ⟨k, hk⟩)) next inner C' S st arrived s s' r q hbst h1 h2⟩

/-- **C133, coefficients.** `intercept_` and `coef_` are within `ε` of the exact solution on all rows at a grid point with the least exact loss. -/
theorem c133_coef (C : FitCfg p ic) (stats : Stats) (R : Rows N) (splits : List (List (Fin N) × List (Fin N))) (l1s : List ℝ) (alphass : List (List ℝ))
    (hal : alphass.length = l1s.length) (B0 : ℕ → ℕ → ℕ → ℝ) (B : ℕ → ℕ → ℕ → ℕ → ℝ) (h : ExactFolds C stats R splits l1s alphass B0 B) (K : ℕ) (hK : ∀ al ∈ alphass, al.length = K)
    (hs : ∀ j, 0 ≤ (stats N R.X R.sw).2 j) (A0 : ℕ → ℕ → ℝ) (A : ℕ → ℕ → ℕ → ℝ)
    (hsol : ∀ l k (hl : l < l1s.length) (hl' : l < alphass.length) (hk : k < alphass[l].length), ExactBest C R splits B0 B l1s.length K l k →
      Determined C R (penScale C.thr C.asIfScaled (stats N R.X R.sw).2) l1s[l] alphass[l][k] (A0 l k) (A l k)) (ε : ℝ) (hε : 0 < ε) :
    ∃ δ : ℝ, 0 < δ ∧ EveryCV C stats R splits l1s alphass δ fun r => ∃ l k, l < l1s.length ∧ k < K ∧ l1s[l]? = some r.l1 ∧ (alphass[l]?.bind fun al => al[k]?) = some r.alpha ∧
      ExactBest C R splits B0 B l1s.length K l k ∧ CoefWithin p ε (A0 l k) (A l k) r.refit.intercept r.refit.coef :=
  c133_refit C stats R splits l1s alphass hal B0 B h K hK hs A0 A hsol (fun l k => CoefWithin p ε (A0 l k) (A l k)) fun l k _ => ⟨ε, hε, fun _ _ h => h⟩

/-! ### The hypotheses are met -/

/-- Two splits of the two rows, both training on both rows, testing on one of them; two grid points, alpha 2 and alpha 1. -/
def pairSplits : List (List (Fin 2) × List (Fin 2)) := [([0, 1], [0]), ([0, 1], [1])]

/-- The slopes for alpha 2 and alpha 1. -/
noncomputable def pairSlope (l : ℕ) : ℝ := if l = 0 then 1 / 3 else 1 / 2

theorem pair_fold : tinyRows.fold [0, 1] = tinyRows := by
  unfold Rows.fold tinyRows
  congr 1
  · funext i j; fin_cases i <;> rfl
  · funext i; fin_cases i <;> rfl
  · funext i; simp [Fin.sum_univ_two]

theorem pair_solution (l : ℕ) (hl : l < 2) (a : ℝ) (ha : [[(2 : ℝ)], [1]][l]? = some [a]) : Determined (tinyCfg 5 5) tinyRows (fun _ => 1) 0 a 2 fun _ => pairSlope l := by
  have hz : ∀ (b0 : ℝ) (b : ℕ → ℝ), fitObjective 1 0 .normal .identity tinyRows (fun _ => 1) .none .none a 0 b0 b
      = 1 / 4 * ((3 - (b 0 + b0)) ^ 2 + (1 - (-(b 0) + b0)) ^ 2) + a / 2 * b 0 ^ 2 := by
    intro b0 b
    have ht : ∀ e, trueMean 0 .normal .identity e = e := fun _ => rfl
    have hd : ∀ y m, Family.unitDeviance .normal y m = (y - m) ^ 2 := fun _ _ => rfl
    unfold fitObjective
    simp [ht, hd, userP2, tinyRows, Fin.sum_univ_two]
    ring
  have hsolve : ∀ (b0 : ℝ) (b : ℕ → ℝ), 1 / 4 * ((3 - (pairSlope l + 2)) ^ 2 + (1 - (-pairSlope l + 2)) ^ 2) + a / 2 * pairSlope l ^ 2
      ≤ 1 / 4 * ((3 - (b 0 + b0)) ^ 2 + (1 - (-(b 0) + b0)) ^ 2) + a / 2 * b 0 ^ 2 := by
    intro b0 b
    interval_cases l
    · simp at ha; subst ha
      simp only [pairSlope, if_pos]
      nlinarith [sq_nonneg (b 0 - 1 / 3), sq_nonneg (b0 - 2)]
    · simp at ha; subst ha
      rw [show pairSlope 1 = 1 / 2 by simp [pairSlope]]
      nlinarith [sq_nonneg (b 0 - 1 / 2), sq_nonneg (b0 - 2)]
  have hpos : 0 < a := by interval_cases l <;> simp at ha <;> subst ha <;> norm_num
  refine ⟨⟨(fun h => by cases h), fun j _ => ⟨(fun l hl => by cases hl), (fun u hu => by cases hu)⟩, fun c0 c _ _ => ?_⟩, Or.inl (tiny_regular a hpos)⟩
  exact ((hz 2 fun _ => pairSlope l).le.trans (hsolve c0 c)).trans (hz c0 c).ge

theorem pair_exact : ExactFolds (tinyCfg 5 5) tinyStats tinyRows pairSplits [0, 0] [[2], [1]] (fun _ _ _ => 2) fun _ l _ _ => pairSlope l := by
  refine ⟨fun l hl => ?_, fun i hi j => zero_le_one, fun i l k hi hl hl' hk => ?_, fun i l k hi hl hl' hk t => ⟨trivial, trivial, trivial⟩⟩
  · have : ([0, 0] : List ℝ)[l] = 0 := by simp at hl; interval_cases l <;> rfl
    rw [this]; exact tiny_convex 5 5
  · have e1 : ([0, 0] : List ℝ)[l] = 0 := by simp at hl; interval_cases l <;> rfl
    have e2 : pairSplits[i].1 = [0, 1] := by simp [pairSplits] at hi; interval_cases i <;> rfl
    have e3 : [[(2 : ℝ)], [1]][l]? = some [[[(2 : ℝ)], [1]][l][k]] := by
      simp at hl'; interval_cases l <;> (simp at hk; subst hk; rfl)
    have key := pair_solution l (by simpa using hl) _ e3
    rw [e1, e2, pair_fold]
    exact key

theorem pair_losses : exactLoss (tinyCfg 5 5) tinyRows pairSplits (fun _ _ _ => 2) (fun _ l _ _ => pairSlope l) 0 0 = 4 / 9 ∧
    exactLoss (tinyCfg 5 5) tinyRows pairSplits (fun _ _ _ => 2) (fun _ l _ _ => pairSlope l) 1 0 = 1 / 4 := by
  have h0 : ∀ x : ℝ, devianceOn (tinyCfg 5 5) (tinyRows.fold [0]) 2 (fun _ => x) = (1 - x) ^ 2 := by
    intro x
    rw [devianceOn_fold]
    norm_num [tinyCfg, tinyRows, Family.deviance, normalDeviance, Link.inverse]
    ring
  have h1 : ∀ x : ℝ, devianceOn (tinyCfg 5 5) (tinyRows.fold [1]) 2 (fun _ => x) = (1 - x) ^ 2 := by
    intro x
    rw [devianceOn_fold]
    norm_num [tinyCfg, tinyRows, Family.deviance, normalDeviance, Link.inverse]
    ring
  have key : ∀ l, exactLoss (tinyCfg 5 5) tinyRows pairSplits (fun _ _ _ => 2) (fun _ l _ _ => pairSlope l) l 0 = (1 - pairSlope l) ^ 2 := by
    intro l
    unfold exactLoss
    show (∑ i : Fin 2, _) / ((2 : ℕ) : ℝ) = _
    rw [Fin.sum_univ_two]
    show (devianceOn (tinyCfg 5 5) (tinyRows.fold [0]) 2 (fun _ => pairSlope l) + devianceOn (tinyCfg 5 5) (tinyRows.fold [1]) 2 (fun _ => pairSlope l)) / ((2 : ℕ) : ℝ) = _
    rw [h0, h1]
    push_cast
    ring
  rw [key, key]
  norm_num [pairSlope]

/-- Alpha 1 is selected by every cross-validation with a small enough tolerance. -/
theorem pair_selects : ∃ δ : ℝ, 0 < δ ∧ EveryCV (tinyCfg 5 5) tinyStats tinyRows pairSplits [0, 0] [[2], [1]] δ fun r => r.alpha = 1 := by
  obtain ⟨δ, hδ, h⟩ := c133_selects_the_best (tinyCfg 5 5) tinyStats tinyRows pairSplits [0, 0] [[2], [1]] rfl _ _ pair_exact 1 (by simp) 1 0 (by simp) one_pos (by
    intro l k hl hk hne
    simp at hl hk
    subst hk
    have : l = 0 := by
      by_contra h0
      exact hne (by rw [show l = 1 by omega])
    subst this
    rw [pair_losses.1, pair_losses.2]; norm_num)
  exact ⟨δ, hδ, fun next inner C' S st arrived s s' r q => by simpa using (h next inner C' S st arrived s s' r q).2.symm⟩

theorem pair_path (s0 : SolverLog) (next : (ℕ → BitVec 32) → ℕ → (ℕ → BitVec 32)) (g : ℝ) (hg : 0 < g) :
    ∃ Q, prepare (({ tinyCfg 5 5 with gradTol := g } : FitCfg 1 true).forSolver .irlsLs) tinyStats tinyRows 0 = some Q ∧
      ∀ s a, 1 ≤ a → (Q.path (irlsSolver next fun _ _ => lsInner invSolve) [a] s).1.convWarn = s.convWarn := by
  obtain ⟨t, r, h, -⟩ := tiny_ls_gen next s0 g hg 1 le_rfl
  obtain ⟨Q, hQ, -⟩ := glmFit_spec _ _ _ _ _ _ _ _ _ h
  refine ⟨Q, hQ, fun s a ha => ?_⟩
  obtain ⟨t, r, h, hw, hal, -⟩ := tiny_ls_gen next s g hg a ha
  obtain ⟨Q', hQ', -, ht, -⟩ := glmFit_spec _ _ _ _ _ _ _ _ _ h
  rw [hQ] at hQ'
  rw [Option.some.inj hQ', ← hal, ← ht, hw]

/-- There are such cross-validations for every tolerance, with the jobs run in any states. -/
theorem pair_quiet (next : (ℕ → BitVec 32) → ℕ → (ℕ → BitVec 32)) (δ : ℝ) (hδ : 0 < δ) (st : ℕ → SolverLog) (s : SolverLog) :
    ∃ C' arrived s' r, QuietCV (tinyCfg 5 5) tinyStats tinyRows pairSplits [0, 0] [[2], [1]] δ next (fun _ _ => lsInner invSolve) C' 2 st arrived s s' r := by
  obtain ⟨Q, hQ, hw⟩ := pair_path s next (δ / 2) (half_pos hδ)
  set C' := ({ tinyCfg 5 5 with gradTol := δ / 2 } : FitCfg 1 true).forSolver .irlsLs with hC'
  set sol := irlsSolver (p := 1) (ic := true) next fun _ _ => lsInner invSolve with hsol
  have hone : ∀ a s, ∃ x, (Q.path sol [a] s).2 = [x] := fun a s => List.length_eq_one_iff.1 (path_length Q sol [a] s)
  have hjob : ∀ (te : List (Fin 2)) (a : ℝ) (s : SolverLog), ∃ i c d e, fitPath C' tinyStats sol tinyRows ⟨[0, 1], te, 0, [a]⟩ s
      = ((Q.path sol [a] s).1, some ⟨[i], [c], [d], [e]⟩) := by
    intro te a s
    obtain ⟨x, hx⟩ := hone a s
    refine ⟨(report true C'.thr Q.means Q.stds x).1, (report true C'.thr Q.means Q.stds x).2,
      foldDeviance C' (tinyRows.fold te) (report true C'.thr Q.means Q.stds x).1 (report true C'.thr Q.means Q.stds x).2, foldTrainDeviance C' Q x, ?_⟩
    unfold fitPath
    have hp : prepare C' tinyStats (tinyRows.fold [0, 1]) 0 = some Q := by rw [pair_fold]; exact hQ
    simp only [hp]
    rw [if_neg (by simp [hC', FitCfg.forSolver, tinyCfg]), hx]
    rfl
  obtain ⟨i0, c0, d0, e0, h0⟩ := hjob [0] 2 (st 0)
  obtain ⟨i1, c1, d1, e1, h1⟩ := hjob [0] 1 (st 1)
  obtain ⟨i2, c2, d2, e2, h2⟩ := hjob [1] 2 (st 2)
  obtain ⟨i3, c3, d3, e3, h3⟩ := hjob [1] 1 (st 3)
  set arrived := (cvJobs pairSplits [0, 0] [[2], [1]]).zipIdx.map fun jk => (jk.2, (fitPath C' tinyStats sol tinyRows jk.1 (st jk.2)).2) with harr
  have hA : Arrival (fitPath C' tinyStats sol tinyRows) (cvJobs pairSplits [0, 0] [[2], [1]]) st arrived := List.Perm.refl _
  have hcol : joblibCollect (cvJobs pairSplits [0, 0] [[2], [1]]).length arrived =
      some [⟨[i0], [c0], [d0], [e0]⟩, ⟨[i1], [c1], [d1], [e1]⟩, ⟨[i2], [c2], [d2], [e2]⟩, ⟨[i3], [c3], [d3], [e3]⟩] := by
    rw [c61_collect _ _ st arrived hA]
    refine ⟨rfl, fun k hk hk' => ?_⟩
    have hk4 : k < 4 := hk'
    interval_cases k
    · exact congrArg Prod.snd h0
    · exact congrArg Prod.snd h1
    · exact congrArg Prod.snd h2
    · exact congrArg Prod.snd h3
  have hr : ∀ {α : Type} (a b c d : α), reshape3 2 2 1 [[a], [b], [c], [d]] = some [a, b, c, d] := by
    intro α a b c d
    unfold reshape3
    rw [if_pos]
    · rfl
    · simp
  obtain ⟨best, hbest⟩ : ∃ best, argmin (meanAxis0 2 2 1 [d0, d1, d2, d3]) = some best := by
    obtain ⟨q, hq⟩ := argminVal_some (meanAxis0 2 2 1 [d0, d1, d2, d3]) (by simp [meanAxis0, List.range, List.range.loop])
    exact ⟨q.1, by unfold argmin; rw [hq]; rfl⟩
  have hb2 : best < 2 := by simpa [meanAxis0] using argmin_pos hbest
  obtain ⟨a, ha1, ha2⟩ : ∃ a : ℝ, 1 ≤ a ∧ [[(2 : ℝ)], [1]][best]? = some [a] := by
    interval_cases best
    · exact ⟨2, by norm_num, rfl⟩
    · exact ⟨1, le_rfl, rfl⟩
  obtain ⟨x, hx⟩ := hone a s
  have hfin := cvFinish_some C' tinyStats sol tinyRows 2 [0, 0] [[2], [1]] [⟨[i0], [c0], [d0], [e0]⟩, ⟨[i1], [c1], [d1], [e1]⟩, ⟨[i2], [c2], [d2], [e2]⟩, ⟨[i3], [c3], [d3], [e3]⟩] s
    [2] _ _ _ _ best 0 [a] a Q rfl (hr i0 i1 i2 i3) (hr c0 c1 c2 c3) (hr d0 d1 d2 d3) (hr e0 e1 e2 e3) (by norm_num) hbest
    (by simp only [List.length_singleton, Nat.div_one]; interval_cases best <;> rfl)
    (by simpa using ha2) (by simp [Nat.mod_one]) hQ
  rw [hx] at hfin
  simp only [List.length_singleton, Nat.mod_one, List.map_cons, List.map_nil, List.getElem?_cons_zero, Option.map_some] at hfin
  have hcf : cvFit C' tinyStats sol tinyRows 2 pairSplits [0, 0] [[2], [1]] arrived s = cvFinish C' tinyStats sol tinyRows 2 [0, 0] [[2], [1]]
      [⟨[i0], [c0], [d0], [e0]⟩, ⟨[i1], [c1], [d1], [e1]⟩, ⟨[i2], [c2], [d2], [e2]⟩, ⟨[i3], [c3], [d3], [e3]⟩] s := by
    unfold cvFit
    rw [hcol]
    rfl
  have hfit := hcf.trans hfin
  refine ⟨C', arrived, _, _, ⟨⟨rfl, rfl, rfl, rfl, rfl, rfl, rfl, rfl, rfl⟩, rfl, ?_, hA, hfit, ?_, hw s a ha1, ?_, ?_, ?_⟩⟩
  · show δ / 2 < δ
    linarith
  · intro i l hi hl hl'
    have e1 : ∀ (te : List (Fin 2)) (b : ℝ), 1 ≤ b → ∀ u, (fitPath C' tinyStats sol tinyRows ⟨[0, 1], te, 0, [b]⟩ u).1.convWarn = u.convWarn := by
      intro te b hb u
      obtain ⟨_, _, _, _, h⟩ := hjob te b u
      rw [h]; exact hw u b hb
    simp at hl
    simp [pairSplits] at hi
    interval_cases i <;> interval_cases l
    · exact e1 [0] 2 (by norm_num) _
    · exact e1 [0] 1 le_rfl _
    · exact e1 [1] 2 (by norm_num) _
    · exact e1 [1] 1 le_rfl _
  · intro al hal b hb
    simp at hal
    rcases hal with rfl | rfl <;> (simp at hb; subst hb; norm_num)
  · exact fun c _ j _ => ⟨(fun l hl => by cases hl), (fun u hu => by cases hu)⟩
  · exact fun c _ j _ => ⟨(fun l hl => by cases hl), (fun u hu => by cases hu)⟩

end Glum
