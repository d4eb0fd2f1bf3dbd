import Verif.Props.Segments
/-
C128: a column that carries no information (an unused category level, a constant column beside an intercept) keeps the coefficient zero exactly, and what happens
to a coefficient such a column brings along from a warm start.
-/
set_option linter.unusedSectionVars false
set_option linter.unusedVariables false
set_option linter.unusedSimpArgs false

namespace Glum
open Spec

variable {n p : ℕ} {ic : Bool}

/-! ### Specification -/

/-- The column carries no information: it is zero in every row or, beside an intercept, the same in every row. -/
def Spec.NoInformation (ic : Bool) (R : Rows n) (g : ℕ) : Prop := ∃ c : ℝ, (∀ i, R.X i g = c) ∧ (ic = false → c = 0)

/-- The bounds of feature `g` allow zero. -/
def Spec.ZeroAllowed (lb ub : Option (ℕ → ℝ)) (g : ℕ) : Prop := (∀ l, lb = some l → l g ≤ 0) ∧ ∀ u, ub = some u → 0 ≤ u g

/-- The start value the user supplies for feature `g` (`start_params`, or the previous fit with `warm_start`); zero if none is supplied. -/
noncomputable def Spec.startValue (ic : Bool) (st : StartFrom p ic) (g : ℕ) : ℝ :=
  match st with
  | .previous v => feat ic v g
  | .given v => feat ic v g
  | .cold => 0

/-- What is asked of the solver of the normal equations (`scipy.linalg.solve`): an equation `h·d_k = 0` with `h ≠ 0` that shares no unknown with the others
is solved by `d_k = 0`. -/
def Spec.SolvesDecoupled {m : ℕ} (solve : (Fin m → Fin m → ℝ) → (Fin m → ℝ) → (Fin m → ℝ)) : Prop :=
  ∀ H s k, (∀ l, l ≠ k → H k l = 0 ∧ H l k = 0) → H k k ≠ 0 → s k = 0 → solve H s k = 0

/-! ### The solver -/

/-- Position `k` of a solver's problem carries no information. -/
structure InertAt (D : IRLSData n p ic) (k : Fin (p + ic.toNat)) : Prop where
  feature : ¬ k.val < ic.toNat
  col : ∀ i, D.X i (k.val - ic.toNat) = 0
  own : ∀ l, l ≠ k → p2Full (p := p) ic D.P2 k l = 0 ∧ p2Full (p := p) ic D.P2 l k = 0
  lb : ∀ l, D.lb = some l → l (k.val - ic.toNat) ≤ 0
  ub : ∀ u, D.ub = some u → 0 ≤ u (k.val - ic.toNat)

/-- The state of the inner solver at an uninformative position. -/
structure QuietAt (D : IRLSData n p ic) (k : Fin (p + ic.toNat)) (st : IRLSState n p ic) : Prop where
  score : st.score k = 0
  nodup : st.hs.active.Nodup
  block : ∀ i ∈ st.hs.active, ∀ j ∈ st.hs.active, (i = k ∨ j = k) → st.hs.H i j = p2Full (p := p) ic D.P2 i j

/-- The inner solver leaves an uninformative position alone. -/
def QuietInner (inner : Inner n p ic) (D : IRLSData n p ic) (k : Fin (p + ic.toNat)) : Prop :=
  ∀ st, st.coef k = 0 → QuietAt D k st → ((∀ k, D.P1 k = 0) → st.hs.active = List.finRange _) → (inner D st).1 k = 0

theorem inert_design (D : IRLSData n p ic) (k : Fin (p + ic.toNat)) (hk : ¬ k.val < ic.toNat) (hc : ∀ i, D.X i (k.val - ic.toNat) = 0) (r : Fin n) : design ic D.X r k = 0 := by
  rw [design_ge _ _ _ hk, hc]

theorem inert_hessian (D : IRLSData n p ic) (k : Fin (p + ic.toNat)) (hk : ¬ k.val < ic.toNat) (hc : ∀ i, D.X i (k.val - ic.toNat) = 0) (h : Fin n → ℝ) (i j : Fin (p + ic.toNat)) (hij : i = k ∨ j = k) :
    fullHessian ic D.X h D.P2 i j = p2Full (p := p) ic D.P2 i j := by
  unfold fullHessian
  rw [Finset.sum_eq_zero, zero_add]
  intro r _
  rcases hij with e | e <;> subst e
  · rw [inert_design D _ hk hc]; ring
  · rw [inert_design D _ hk hc]; ring

theorem inert_score (D : IRLSData n p ic) (k : Fin (p + ic.toNat)) (h : InertAt D k) (g : Fin n → ℝ) (c : Fin (p + ic.toNat) → ℝ) (hc : c k = 0) :
    scoreOf D g (makeCoefP2 ic D.P2 c) k = 0 := by
  rw [scoreOf_eq, makeCoefP2_eq, Finset.sum_eq_zero, Finset.sum_eq_zero, sub_zero]
  · intro i _
    by_cases e : i = k
    · rw [e, hc, mul_zero]
    · rw [(h.own i e).2, zero_mul]
  · intro r _
    rw [inert_design D k h.feature h.col, zero_mul]

theorem lineSearch_cP2 (D : IRLSData n p ic) (st : IRLSState n p ic) (d : Fin (p + ic.toNat) → ℝ) :
    (lineSearch D st d).cP2 = makeCoefP2 ic D.P2 (lineSearch D st d).coef := by
  have e := (lineSearch_spec D st d).emo
  rw [Prod.ext_iff, Prod.ext_iff, Prod.ext_iff] at e
  exact e.2.2.2

theorem visited_hinv (inner : Inner n p ic) (D : IRLSData n p ic) (coef0 : Fin (p + ic.toNat) → ℝ) (st : IRLSState n p ic) (h : Visited inner D coef0 st) :
    HInv ic D.X D.P2 st.hs := by
  induction h with
  | init => intro e; simp [irlsInit, hessInit] at e
  | step st hv _ _ ih => exact hessIter_inv ic D.X D.P2 D.hessApprox st.hs ih (identifyActiveSet D st) (activeSet_ok D st) _

/-- Every state of a run that starts with coefficient zero at an uninformative position. -/
theorem inert_visited (inner : Inner n p ic) (D : IRLSData n p ic) (k : Fin (p + ic.toNat)) (hk : InertAt D k) (hq : QuietInner inner D k) (coef0 : Fin (p + ic.toNat) → ℝ)
    (h0 : coef0 k = 0) (st : IRLSState n p ic) (h : Visited inner D coef0 st) : st.coef k = 0 ∧ st.score k = 0 := by
  induction h with
  | init => exact ⟨h0, inert_score D k hk _ _ h0⟩
  | step st hv _ _ ih =>
    obtain ⟨ih1, ih2⟩ := ih
    have hA := activeSet_ok D st
    have hact := (updateHessian_init ic D.X D.P2 D.hessApprox st.hs (identifyActiveSet D st)).2
    have hblk := updateHessian_block ic D.X D.P2 D.hessApprox st.hs (visited_hinv inner D coef0 st hv) _ hA
    have hd := hq { st with hs := updateHessian ic D.X D.P2 D.hessApprox st.hs (identifyActiveSet D st) } ih1
      ⟨ih2, (by rw [hact]; exact hA.1), (fun i hi j hj hij => by
        simp only [hact] at hi hj
        rw [hblk i hi j hj, inert_hessian D k hk.feature hk.col _ i j hij])⟩
      (fun hP => by rw [hact]; exact c66_no_l1_all_active inner D hP coef0 st hv)
    have hc : (irlsStep inner D st).coef k = 0 := by
      show (lineSearch D _ _).coef k = 0
      rw [(lineSearch_spec D _ _).coef]
      simp only [hd, ih1]
      ring
    refine ⟨hc, ?_⟩
    show scoreOf D _ (lineSearch D _ _).cP2 k = 0
    rw [lineSearch_cP2]
    exact inert_score D k hk _ _ hc

theorem clamp_zero {m a : ℕ} (D : CDData ℝ m a) (i : Fin m) (hl : ∀ l, D.lb = some l → l (i.val - D.intercept.toNat) ≤ 0)
    (hu : ∀ u, D.ub = some u → 0 ≤ u (i.val - D.intercept.toNat)) : D.clamp i 0 = 0 := by
  unfold CDData.clamp
  split
  · rfl
  · cases h1 : D.lb with
    | none =>
      cases h2 : D.ub with
      | none => rfl
      | some u => simp only []; rw [if_neg (not_lt.2 (hu u h2))]
    | some l =>
      simp only []
      rw [if_neg (not_lt.2 (hl l h1))]
      cases h2 : D.ub with
      | none => rfl
      | some u => simp only []; rw [if_neg (not_lt.2 (hu u h2))]

/-- Coordinate descent leaves an uninformative position alone. -/
theorem quiet_cd (seeds : ℕ → BitVec 32) (D : IRLSData n p ic) (k : Fin (p + ic.toNat)) (hk : InertAt D k) : QuietInner (cdInner seeds) D k := by
  intro st h0 hq _
  have hinj : Function.Injective (cdArgs D st).active := fun s t e => by
    have := (List.nodup_iff_injective_get.1 hq.nodup) e
    exact this
  have hI : ∀ s (c : CDState ℝ (p + ic.toNat)), (c.w k = 0 ∧ c.q k = 0) → (((cdArgs D st).visit s c).w k = 0 ∧ ((cdArgs D st).visit s c).q k = 0) := by
    rintro s c ⟨hw, hqk⟩
    by_cases he : (cdArgs D st).Q s s ≤ (cdArgs D st).eps
    · rw [visit_skip _ _ _ he]; exact ⟨hw, hqk⟩
    · unfold CDData.visit
      simp only []
      rw [if_neg he]
      by_cases hs : (cdArgs D st).active s = k
      · rw [hs, hw, hqk]
        have hv : (cdArgs D st).clamp k (softStep (0 - 0 * (cdArgs D st).Q s s) ((cdArgs D st).pen k) ((cdArgs D st).Q s s)) = 0 := by
          have : softStep (0 - 0 * (cdArgs D st).Q s s) ((cdArgs D st).pen k) ((cdArgs D st).Q s s) = 0 := by
            unfold softStep fsign; simp
          rw [this]
          exact clamp_zero _ _ hk.lb hk.ub
        simp only [hv, Function.update_self]
        rw [if_neg (by simp)]
        simpa using hqk
      · simp only []
        refine ⟨by rw [Function.update_of_ne (Ne.symm hs)]; exact hw, ?_⟩
        have hup : ∀ dw : ℝ, (cdArgs D st).updateQ s dw c.q k = 0 := by
          intro dw
          by_cases hj : ∃ j, (cdArgs D st).active j = k
          · obtain ⟨j, hj⟩ := hj
            have e := updateQ_active (cdArgs D st) hinj s dw c.q j
            rw [hj, hqk] at e
            have hz : (cdArgs D st).Q s j = 0 := by
              show st.hs.H ((cdArgs D st).active s) ((cdArgs D st).active j) = 0
              have hb := hq.block ((cdArgs D st).active s) (List.get_mem _ _) ((cdArgs D st).active j) (List.get_mem _ _) (Or.inr hj)
              rw [hb, hj]
              exact (hk.own _ hs).2
            rw [e, hz]; ring
          · unfold CDData.updateQ
            rw [foldl_update_notMem _ _ _ _ _ (fun j _ e => hj ⟨j, e⟩)]
            exact hqk
        split
        · exact hup _
        · exact hqk
  obtain ⟨q, hw, -⟩ := loop_preserves (cdArgs D st) (fun w q => w k = 0 ∧ q k = 0) hI D.maxInnerIter 0 0
    { w := st.coef, q := fun k => -st.score k, dwMax := 0, wMax := 0, rng := seeds st.nIter } ⟨h0, (by show -st.score k = 0; rw [hq.score, neg_zero])⟩
  show ((cdArgs D st).run st.coef (fun k => -st.score k) (seeds st.nIter)).w k - st.coef k = 0
  rw [h0, sub_zero]
  exact hw

/-- So does the least-squares solver, if there is a ridge penalty on it. -/
theorem quiet_ls (solve : (Fin (p + ic.toNat) → Fin (p + ic.toNat) → ℝ) → (Fin (p + ic.toNat) → ℝ) → (Fin (p + ic.toNat) → ℝ)) (hs : SolvesDecoupled solve)
    (D : IRLSData n p ic) (k : Fin (p + ic.toNat)) (hk : InertAt D k) (hP : ∀ k, D.P1 k = 0) (hr : p2Full (p := p) ic D.P2 k k ≠ 0) : QuietInner (lsInner solve) D k := by
  intro st h0 hq ha
  have hm : ∀ i, i ∈ st.hs.active := fun i => by rw [ha hP]; exact List.mem_finRange i
  refine hs st.hs.H st.score k (fun l hl => ⟨?_, ?_⟩) ?_ hq.score
  · rw [hq.block k (hm k) l (hm l) (Or.inl rfl)]; exact (hk.own l hl).1
  · rw [hq.block l (hm l) k (hm k) (Or.inr rfl)]; exact (hk.own l hl).2
  · rw [hq.block k (hm k) k (hm k) (Or.inl rfl)]; exact hr

/-- A coefficient without curvature stays where it starts, whatever its L1 penalty. -/
theorem frozen_visited (seeds : ℕ → BitVec 32) (D : IRLSData n p ic) (k : Fin (p + ic.toNat)) (hf : ¬ k.val < ic.toNat) (hcol : ∀ i, D.X i (k.val - ic.toNat) = 0)
    (hr : p2Full (p := p) ic D.P2 k k = 0) (he : 0 ≤ D.eps) (coef0 : Fin (p + ic.toNat) → ℝ) (st : IRLSState n p ic) (h : Visited (cdInner seeds) D coef0 st) : st.coef k = coef0 k := by
  induction h with
  | init => rfl
  | step st hv _ _ ih =>
    have hA := activeSet_ok D st
    have hact := (updateHessian_init ic D.X D.P2 D.hessApprox st.hs (identifyActiveSet D st)).2
    have hblk := updateHessian_block ic D.X D.P2 D.hessApprox st.hs (visited_hinv _ D coef0 st hv) _ hA
    set st1 : IRLSState n p ic := { st with hs := updateHessian ic D.X D.P2 D.hessApprox st.hs (identifyActiveSet D st) } with hst1
    have hI : ∀ s (c : CDState ℝ (p + ic.toNat)), c.w k = st.coef k → ((cdArgs D st1).visit s c).w k = st.coef k := by
      intro s c hw
      by_cases hq : (cdArgs D st1).Q s s ≤ (cdArgs D st1).eps
      · rw [visit_skip _ _ _ hq]; exact hw
      · rw [visit_w _ _ _ (not_le.1 hq)]
        have hs : (cdArgs D st1).active s ≠ k := by
          intro e
          apply hq
          have hmem : k ∈ identifyActiveSet D st := by
            rw [← hact, ← e]; exact List.get_mem _ _
          have : (cdArgs D st1).Q s s = 0 := by
            show st1.hs.H ((cdArgs D st1).active s) ((cdArgs D st1).active s) = 0
            rw [e]
            show (updateHessian ic D.X D.P2 D.hessApprox st.hs (identifyActiveSet D st)).H k k = 0
            rw [hblk k hmem k hmem, inert_hessian D k hf hcol _ k k (Or.inl rfl), hr]
          rw [this]
          show 0 ≤ D.eps * 16
          linarith
        rw [Function.update_of_ne (Ne.symm hs)]; exact hw
    obtain ⟨q, hw⟩ := loop_preserves (cdArgs D st1) (fun w q => w k = st.coef k) hI D.maxInnerIter 0 0
      { w := st1.coef, q := fun k => -st1.score k, dwMax := 0, wMax := 0, rng := seeds st1.nIter } rfl
    have hd : (cdInner seeds D st1).1 k = 0 := by
      show ((cdArgs D st1).run st1.coef (fun k => -st1.score k) (seeds st1.nIter)).w k - st1.coef k = 0
      have : ((cdArgs D st1).run st1.coef (fun k => -st1.score k) (seeds st1.nIter)).w k = st.coef k := hw
      rw [this]
      exact sub_self _
    show (lineSearch D st1 _).coef k = coef0 k
    rw [(lineSearch_spec D st1 _).coef]
    show st.coef k + _ * (cdInner seeds D st1).1 k = coef0 k
    rw [hd, ih]; ring

/-! ### The fit -/

theorem setupP2_entry (C : FitCfg p ic) (l1r : ℝ) (P2 : Pen2 ℝ) (h : setupP2 p C.xsp 1 l1r C.P2a = some P2) (j k : ℕ) (hj : j < p) (hk : k < p) :
    p2Matrix P2 j k = (1 - l1r) * (1 / 2 * (userP2 C.P2a j k + userP2 C.P2a k j)) := by
  unfold setupP2 at h
  cases hb : setupP2Base p C.xsp C.P2a with
  | none => rw [hb] at h; simp at h
  | some B =>
    rw [hb] at h
    simp only [Option.map_some, Option.some.injEq] at h
    rw [← h, symmetrise_entry, smul_entry, smul_entry, setupP2Base_entry p C.xsp C.P2a B hb j k hj hk, setupP2Base_entry p C.xsp C.P2a B hb k j hk hj]
    ring

/-- The ridge penalty of the problem the solver gets. -/
theorem std_p2_entry (C : FitCfg p ic) (R : Rows n) (l1r : ℝ) (means stds : ℕ → ℝ) (P1 : ℕ → ℝ) (P2 : Pen2 ℝ) (h2 : setupP2 p C.xsp 1 l1r C.P2a = some P2) (a : ℝ) (j k : ℕ) (hj : j < p) (hk : k < p) :
    ∃ c : ℕ → ℝ, (∀ j, c j = 1 ∨ c j = oneOverStd C.thr 1 (stds j)) ∧ p2Matrix (stdData C.thr C.asIfScaled means stds (C.problem R P1 (P2.smul a))).P2 j k
      = a * (1 - l1r) * (1 / 2 * (userP2 C.P2a j k + userP2 C.P2a k j)) * c j * c k := by
  cases hs : C.asIfScaled with
  | true =>
    refine ⟨fun _ => 1, fun _ => Or.inl rfl, ?_⟩
    show p2Matrix (P2.smul a) j k = _
    rw [smul_entry, setupP2_entry C l1r P2 h2 j k hj hk]; ring
  | false =>
    refine ⟨fun j => oneOverStd C.thr 1 (stds j), fun _ => Or.inr rfl, ?_⟩
    have e : (stdData C.thr false means stds (C.problem R P1 (P2.smul a))).P2 = scaleP2 (fun j => oneOverStd C.thr 1 (stds j)) (P2.smul a) := by
      simp [stdData, standardize, FitCfg.problem]
    rw [e, scaleP2_entry, smul_entry, setupP2_entry C l1r P2 h2 j k hj hk]; ring

/-- The position of feature `g` in the solver's vector. -/
def atFeature (ic : Bool) (g : Fin p) : Fin (p + ic.toNat) := ⟨g.val + ic.toNat, by have := g.2; omega⟩

theorem atFeature_sub (g : Fin p) : (atFeature ic g).val - ic.toNat = g := by simp [atFeature]

theorem feat_atFeature (c : Fin (p + ic.toNat) → ℝ) (g : Fin p) : feat ic c g = c (atFeature ic g) := by
  unfold feat atFeature
  rw [dif_pos (by have := g.2; omega)]

theorem std_inert (C : FitCfg p ic) (R : Rows n) (l1r : ℝ) (means stds : ℕ → ℝ) (P1 : ℕ → ℝ) (P2 : Pen2 ℝ) (h2 : setupP2 p C.xsp 1 l1r C.P2a = some P2) (a : ℝ) (g : Fin p)
    (c : ℝ) (hc : ∀ i, R.X i g = c) (h0 : ic = false → c = 0) (hm : ic = true → means g = c) (hown : OwnRidge p C.P2a g) (hz : ZeroAllowed C.lb C.ub g)
    (hs : stds g = 0) (ht : 0 < C.thr) :
    InertAt (stdData C.thr C.asIfScaled means stds (C.problem R P1 (P2.smul a))) (atFeature ic g) := by
  have hone : oneOverStd C.thr 1 (stds g) = 1 := by rw [hs]; unfold oneOverStd; rw [abs_zero, if_pos ht]
  have hzero : ∀ l : Fin (p + ic.toNat), l ≠ atFeature ic g → p2Full (p := p) ic (stdData C.thr C.asIfScaled means stds (C.problem R P1 (P2.smul a))).P2 (atFeature ic g) l = 0 ∧
      p2Full (p := p) ic (stdData C.thr C.asIfScaled means stds (C.problem R P1 (P2.smul a))).P2 l (atFeature ic g) = 0 := by
    intro l hl
    by_cases hli : l.val < ic.toNat
    · exact ⟨p2Full_right_zero _ _ _ hli, p2Full_left_zero _ _ _ hli⟩
    · obtain ⟨j, rfl⟩ : ∃ j : Fin p, l = atFeature ic j := ⟨⟨l.val - ic.toNat, by have := l.2; omega⟩, Fin.ext (by simp [atFeature]; omega)⟩
      have hj : (j : ℕ) ≠ g := fun e => hl (by rw [Fin.ext e])
      obtain ⟨u1, u2⟩ := hown j j.2 hj
      constructor
      · show p2Full (p := p) ic _ ⟨g.val + ic.toNat, _⟩ ⟨j.val + ic.toNat, _⟩ = 0
        rw [p2Full_shift]
        obtain ⟨c, -, e⟩ := std_p2_entry C R l1r means stds P1 P2 h2 a g j g.2 j.2
        rw [e, u1, u2]; ring
      · show p2Full (p := p) ic _ ⟨j.val + ic.toNat, _⟩ ⟨g.val + ic.toNat, _⟩ = 0
        rw [p2Full_shift]
        obtain ⟨c, -, e⟩ := std_p2_entry C R l1r means stds P1 P2 h2 a j g j.2 g.2
        rw [e, u1, u2]; ring
  refine ⟨by simp [atFeature], fun i => ?_, hzero, ?_, ?_⟩
  · rw [atFeature_sub]
    show stdX C.thr ic means stds R.X i g = 0
    unfold stdX
    rw [hc, hone]
    rcases Bool.eq_false_or_eq_true ic with e | e
    · rw [hm e, if_pos e]; ring
    · rw [h0 e, if_neg (by rw [e]; simp)]; ring
  · intro l hl
    rw [atFeature_sub]
    obtain ⟨l', hl', rfl⟩ := Option.map_eq_some_iff.1 (show C.lb.map (fun (l : ℕ → ℝ) j => l j / oneOverStd C.thr 1 (stds j)) = some l from hl)
    simp only [hone, div_one]
    exact hz.1 l' hl'
  · intro u hu
    rw [atFeature_sub]
    obtain ⟨u', hu', rfl⟩ := Option.map_eq_some_iff.1 (show C.ub.map (fun (l : ℕ → ℝ) j => l j / oneOverStd C.thr 1 (stds j)) = some u from hu)
    simp only [hone, div_one]
    exact hz.2 u' hu'

/-- A constant column has no deviation. -/
theorem constant_stats (stats : Stats) (hst : TrueStats stats) (R : Rows n) (hw : ∑ i, R.sw i = 1) (g : ℕ) (c : ℝ) (hc : ∀ i, R.X i g = c) :
    (stats n R.X R.sw).1 g = c ∧ (stats n R.X R.sw).2 g = 0 := by
  obtain ⟨e1, e2⟩ := hst n R.X R.sw g
  have hm : ∑ i, R.sw i * R.X i g = c := by simp only [hc]; rw [← Finset.sum_mul, hw, one_mul]
  refine ⟨e1.trans hm, ?_⟩
  rw [e2, hm]
  simp [hc]

theorem raw_start_zero (ic : Bool) (thr : ℝ) (means stds : ℕ → ℝ) (guess : ℝ) (src : StartFrom p ic) (g : Fin p) (hstd : stds g = 0) (hs : ic = false → startValue ic src g = 0) :
    rawStart ic thr means stds guess src (atFeature ic g) = 0 := by
  cases ic with
  | false =>
    have := hs rfl
    cases src with
    | previous v => exact (feat_atFeature (ic := false) v g).symm.trans this
    | given v => exact (feat_atFeature (ic := false) v g).symm.trans this
    | cold => rfl
  | true =>
    have h0 : ¬ (atFeature (p := p) true g).val = 0 := by simp [atFeature]
    have hz : ∀ v : Fin (p + 1) → ℝ, standardizeWarmStart (p := p) thr means (some stds) v (atFeature (p := p) true g) = 0 := by
      intro v
      simp only [standardizeWarmStart]
      rw [if_neg h0, if_neg h0]
      have : (atFeature (p := p) true g).val - 1 = g := by simp [atFeature]
      rw [this, hstd, mul_zero]
    cases src with
    | previous v => exact hz v
    | given v => exact hz v
    | cold => simp [rawStart, atFeature]

/-- The start of a column without information. -/
theorem inert_start (C : FitCfg p ic) (R : Rows n) (stats : Stats) (hst : TrueStats stats) (hw : ∑ i, R.sw i = 1) (l1r : ℝ) (Q : Prepared n p ic) (hQ : prepare C stats R l1r = some Q)
    (g : Fin p) (c : ℝ) (hc : ∀ i, R.X i g = c) (hz : ZeroAllowed C.lb C.ub g) (hs : ic = false → startValue ic C.start g = 0) : Q.start (atFeature ic g) = 0 := by
  obtain ⟨P1, P2, h1, h2, -⟩ := prepare_spec C stats R l1r Q hQ
  unfold prepare at hQ
  rw [h1, h2] at hQ
  simp only [Option.bind_eq_bind, Option.bind_some] at hQ
  obtain ⟨guess, -, hQ⟩ := Option.bind_eq_some_iff.1 hQ
  have e := Option.some.inj hQ
  rw [← e]
  have hstd := (constant_stats stats hst R hw g c hc).2
  have hlt : ¬ (atFeature ic g).val < ic.toNat := by simp [atFeature]
  have hraw := raw_start_zero ic C.thr (stats n R.X R.sw).1 (stats n R.X R.sw).2 guess C.start g hstd hs
  show getStartCoef ic C.thr (stats n R.X R.sw).1 (stats n R.X R.sw).2 guess C.lb C.ub C.start (atFeature ic g) = 0
  unfold getStartCoef clipStart
  rw [if_neg hlt, hraw, atFeature_sub]
  cases hl : C.lb with
  | none =>
    cases hu : C.ub with
    | none => rfl
    | some u => exact min_eq_left (hz.2 u hu)
  | some l =>
    have e1 : max 0 (l g) = 0 := max_eq_left (hz.1 l hl)
    cases hu : C.ub with
    | none => exact e1
    | some u => simp only []; rw [e1]; exact min_eq_left (hz.2 u hu)

/-- A property of the coefficient vector that every solve keeps holds in every row of the path. -/
theorem solvePath_keeps {σ : Type} (solve : SolveFn σ p ic) (P1 : ℕ → ℝ) (P2 : Pen2 ℝ) (I : (Fin (p + ic.toNat) → ℝ) → Prop) (alphas : List ℝ) (s : σ) (c : Fin (p + ic.toNat) → ℝ) (h0 : I c)
    (hk : ∀ a ∈ alphas, ∀ s c, I c → I (solve s (fun j => P1 j * a) (P2.smul a) c).2) : ∀ row ∈ (solvePath solve P1 P2 alphas s c).2, I row := by
  induction alphas generalizing s c with
  | nil => intro row h; simp [solvePath] at h
  | cons a rest ih =>
    intro row h
    simp only [solvePath, List.mem_cons] at h
    have h1 := hk a (by simp) s c h0
    rcases h with e | h
    · rw [e]; exact h1
    · exact ih _ _ h1 (fun a ha => hk a (by simp [ha])) row h

/-- From the rows of the path to what the fit stores. -/
theorem stored_rows (thr : ℝ) (means stds : ℕ → ℝ) (alphas : List ℝ) (rows : List (Fin (p + ic.toNat) → ℝ)) (r : PathResult) (h : storePath thr means stds alphas rows = some r) :
    (∀ b ∈ r.coefPath, ∃ row ∈ rows, b = (report ic thr means stds row).2) ∧ ∃ row ∈ rows, r.coef = (report ic thr means stds row).2 := by
  have h5 := c41_stored thr means stds alphas rows r h
  have hall : ∀ b ∈ r.coefPath, ∃ row ∈ rows, b = (report ic thr means stds row).2 := by
    intro b hb
    obtain ⟨i, hi, e⟩ := List.getElem_of_mem hb
    have hi' : i < rows.length := by rw [← h5.2.1]; exact hi
    have := (storePath_rows thr means stds alphas rows r h i hi').1
    rw [List.getElem?_eq_getElem hi, e] at this
    exact ⟨rows[i], List.getElem_mem _, Option.some.inj this⟩
  exact ⟨hall, hall _ (List.mem_of_getLast? h5.2.2.2.1)⟩

/-- The general form: an inner solver that leaves uninformative positions alone. -/
theorem inert_fit (next : (ℕ → BitVec 32) → ℕ → (ℕ → BitVec 32)) (inner : (ℕ → BitVec 32) → (m : ℕ) → Inner m p ic) (C : FitCfg p ic) (ht : 0 < C.thr) (stats : Stats) (hst : TrueStats stats)
    (R : Rows n) (hw : ∑ i, R.sw i = 1) (l1r : ℝ) (g : Fin p) (hg : NoInformation ic R g) (hown : OwnRidge p C.P2a g) (hz : ZeroAllowed C.lb C.ub g) (hs : ic = false → startValue ic C.start g = 0)
    (al : AlphaSpec) (s s' : SolverLog) (r : PathResult) (hfit : glmFit C stats (irlsSolver next inner) R l1r al s = some (s', r))
    (hin : ∀ (sd : ℕ → BitVec 32) (Q : Prepared n p ic), prepare C stats R l1r = some Q → ∀ a ∈ r.alphas,
      InertAt (Q.D.withPen (fun j => Q.D.P1 j * a) (Q.D.P2.smul a)) (atFeature ic g) → QuietInner (inner sd n) (Q.D.withPen (fun j => Q.D.P1 j * a) (Q.D.P2.smul a)) (atFeature ic g)) :
    r.coef g = 0 ∧ ∀ b ∈ r.coefPath, b g = 0 := by
  obtain ⟨c, hc, h0⟩ := hg
  obtain ⟨Q, hQ, -, -, hsto, -⟩ := glmFit_spec C stats _ R l1r al s s' r hfit
  obtain ⟨P1, P2, h1, h2, hm, hsd, hD, -⟩ := prepare_spec C stats R l1r Q hQ
  obtain ⟨cm, cs⟩ := constant_stats stats hst R hw g c hc
  have hkeep : ∀ row ∈ (Q.path (irlsSolver next inner) r.alphas s).2, row (atFeature ic g) = 0 := by
    refine solvePath_keeps _ _ _ (fun w => w (atFeature ic g) = 0) r.alphas s Q.start (inert_start C R stats hst hw l1r Q hQ g c hc hz hs) fun a ha sd w hw0 => ?_
    have hi : InertAt (Q.D.withPen (fun j => Q.D.P1 j * a) (Q.D.P2.smul a)) (atFeature ic g) := by
      rw [hD, withPen_std]
      exact std_inert C R l1r Q.means Q.stds _ P2 h2 a g c hc h0 (fun _ => by rw [hm]; exact cm) hown hz (by rw [hsd]; exact cs) ht
    exact (inert_visited (inner sd.seeds n) _ (atFeature ic g) hi (hin sd.seeds Q hQ a ha hi) w hw0 _ (irlsRun_visited _ _ _)).1
  have hrep : ∀ row ∈ (Q.path (irlsSolver next inner) r.alphas s).2, (report ic C.thr Q.means Q.stds row).2 g = 0 := by
    intro row hrow
    show feat ic row g * _ = 0
    rw [feat_atFeature, hkeep row hrow, zero_mul]
  obtain ⟨hall, row, hrow, e⟩ := stored_rows _ _ _ _ _ r hsto
  refine ⟨by rw [e]; exact hrep row hrow, fun b hb => ?_⟩
  obtain ⟨row, hrow, e⟩ := hall b hb
  rw [e]; exact hrep row hrow

/-- **C128.** `irls-cd`, any family and link, any alphas (zero included), L1 and L2 penalties, bounds that allow zero, cyclic or random selection, any number of iterations, converged or not:
a column without information that P2 does not tie to other columns has coefficient exactly zero in `coef_` and in every row of the path — with an intercept whatever the
start, without one if it starts at zero. -/
theorem c128_zero (next : (ℕ → BitVec 32) → ℕ → (ℕ → BitVec 32)) (C : FitCfg p ic) (ht : 0 < C.thr) (stats : Stats) (hst : TrueStats stats)
    (R : Rows n) (hw : ∑ i, R.sw i = 1) (l1r : ℝ) (g : Fin p) (hg : NoInformation ic R g) (hown : OwnRidge p C.P2a g) (hz : ZeroAllowed C.lb C.ub g) (hs : ic = false → startValue ic C.start g = 0)
    (al : AlphaSpec) (s s' : SolverLog) (r : PathResult) (hfit : glmFit C stats (irlsCd next) R l1r al s = some (s', r)) :
    r.coef g = 0 ∧ ∀ b ∈ r.coefPath, b g = 0 :=
  inert_fit next (fun seeds _ => cdInner seeds) C ht stats hst R hw l1r g hg hown hz hs al s s' r hfit fun sd Q hQ a ha hi => quiet_cd sd _ _ hi

/-- **C128, least squares.** The same for `irls-ls` (no L1 penalty) if every alpha of the path puts a ridge penalty on the column; otherwise the normal equations are singular. -/
theorem c128_zero_ls (next : (ℕ → BitVec 32) → ℕ → (ℕ → BitVec 32))
    (solve : (Fin (p + ic.toNat) → Fin (p + ic.toNat) → ℝ) → (Fin (p + ic.toNat) → ℝ) → (Fin (p + ic.toNat) → ℝ)) (hsolve : SolvesDecoupled solve)
    (C : FitCfg p ic) (ht : 0 < C.thr) (stats : Stats) (hst : TrueStats stats)
    (R : Rows n) (hw : ∑ i, R.sw i = 1) (l1r : ℝ) (hl1 : ∀ j, l1r * userP1 C.P1a j = 0) (g : Fin p) (hg : NoInformation ic R g) (hown : OwnRidge p C.P2a g) (hz : ZeroAllowed C.lb C.ub g)
    (hs : ic = false → startValue ic C.start g = 0)
    (al : AlphaSpec) (s s' : SolverLog) (r : PathResult) (hr : ∀ a ∈ r.alphas, a * (1 - l1r) * userP2 C.P2a g g ≠ 0)
    (hfit : glmFit C stats (irlsSolver next fun _ _ => lsInner solve) R l1r al s = some (s', r)) :
    r.coef g = 0 ∧ ∀ b ∈ r.coefPath, b g = 0 := by
  refine inert_fit next (fun _ _ => lsInner solve) C ht stats hst R hw l1r g hg hown hz hs al s s' r hfit fun sd Q hQ a ha hi => ?_
  obtain ⟨P1, P2, h1, h2, hm, hsd, hD, -⟩ := prepare_spec C stats R l1r Q hQ
  have hp1 : ∀ j, P1 j = 0 := fun j => by rw [setupP1_user C l1r P1 h1 j, hl1]
  obtain ⟨c, hc, -⟩ := hg
  have cs := (constant_stats stats hst R hw g c hc).2
  refine quiet_ls solve hsolve _ _ hi (fun k => ?_) ?_
  · show Q.D.P1 k * a = 0
    rw [hD]
    show (if C.asIfScaled then P1 else fun j => P1 j * oneOverStd C.thr 1 (Q.stds j)) k * a = 0
    split <;> simp [hp1]
  · rw [hD, withPen_std]
    show p2Full (p := p) ic _ ⟨g.val + ic.toNat, _⟩ ⟨g.val + ic.toNat, _⟩ ≠ 0
    rw [p2Full_shift]
    obtain ⟨c, hc1, e⟩ := std_p2_entry C R l1r Q.means Q.stds (fun j => P1 j * a) P2 h2 a g g g.2 g.2
    have hone : c g = 1 := by
      rcases hc1 g with e | e
      · exact e
      · rw [e, hsd, cs]; unfold oneOverStd; rw [abs_zero, if_pos ht]
    rw [e, hone]
    have := hr a ha
    intro h0
    apply this
    linear_combination h0

/-- **C128, a stale coefficient.** Without intercept a column that is zero in every row and has no ridge penalty (as with `l1_ratio = 1`, or `alpha = 0`) keeps the coefficient it starts with,
in every row of the path, whatever its L1 penalty: coordinate descent skips columns without curvature. -/
theorem c128_stale (next : (ℕ → BitVec 32) → ℕ → (ℕ → BitVec 32)) (C : FitCfg p false) (ht : 0 < C.thr) (he : 0 ≤ C.eps) (stats : Stats) (hst : TrueStats stats)
    (R : Rows n) (hw : ∑ i, R.sw i = 1) (l1r : ℝ) (g : Fin p) (hg : ∀ i, R.X i g = 0) (hlb : C.lb = none) (hub : C.ub = none)
    (al : AlphaSpec) (s s' : SolverLog) (r : PathResult) (hr : ∀ a ∈ r.alphas, a * (1 - l1r) * userP2 C.P2a g g = 0) (hfit : glmFit C stats (irlsCd next) R l1r al s = some (s', r)) :
    r.coef g = startValue false C.start g ∧ ∀ b ∈ r.coefPath, b g = startValue false C.start g := by
  obtain ⟨Q, hQ, -, -, hsto, -⟩ := glmFit_spec C stats _ R l1r al s s' r hfit
  obtain ⟨P1, P2, h1, h2, hm, hsd, hD, -⟩ := prepare_spec C stats R l1r Q hQ
  obtain ⟨cm, cs⟩ := constant_stats stats hst R hw g 0 hg
  have hone : oneOverStd C.thr 1 (Q.stds g) = 1 := by rw [hsd, cs]; unfold oneOverStd; rw [abs_zero, if_pos ht]
  have hstart : Q.start (atFeature false g) = startValue false C.start g := by
    unfold prepare at hQ
    rw [h1, h2] at hQ
    simp only [Option.bind_eq_bind, Option.bind_some] at hQ
    obtain ⟨guess, -, hQ⟩ := Option.bind_eq_some_iff.1 hQ
    rw [← Option.some.inj hQ]
    show getStartCoef false C.thr (stats n R.X R.sw).1 (stats n R.X R.sw).2 guess C.lb C.ub C.start (atFeature false g) = _
    unfold getStartCoef clipStart
    rw [if_neg (by simp), hlb, hub]
    cases C.start with
    | previous v => exact (feat_atFeature (ic := false) v g).symm
    | given v => exact (feat_atFeature (ic := false) v g).symm
    | cold => rfl
  have hkeep : ∀ row ∈ (Q.path (irlsCd next) r.alphas s).2, row (atFeature false g) = startValue false C.start g := by
    refine solvePath_keeps _ _ _ (fun w => w (atFeature false g) = startValue false C.start g) r.alphas s Q.start hstart fun a ha sd w hw0 => ?_
    rw [← hw0]
    have hDe : Q.D.withPen (fun j => Q.D.P1 j * a) (Q.D.P2.smul a) = stdData C.thr C.asIfScaled Q.means Q.stds (C.problem R (fun j => P1 j * a) (P2.smul a)) := by rw [hD, withPen_std]
    have hcol : ∀ i, (Q.D.withPen (fun j => Q.D.P1 j * a) (Q.D.P2.smul a)).X i ((atFeature false g).val - false.toNat) = 0 := by
      intro i
      rw [atFeature_sub, hDe]
      show stdX C.thr false Q.means Q.stds R.X i g = 0
      unfold stdX
      rw [hg]; simp
    have hp2 : p2Full (p := p) false (Q.D.withPen (fun j => Q.D.P1 j * a) (Q.D.P2.smul a)).P2 (atFeature false g) (atFeature false g) = 0 := by
      rw [hDe]
      show p2Full (p := p) false _ ⟨g.val + false.toNat, _⟩ ⟨g.val + false.toNat, _⟩ = 0
      rw [p2Full_shift]
      obtain ⟨c, -, e⟩ := std_p2_entry C R l1r Q.means Q.stds (fun j => P1 j * a) P2 h2 a g g g.2 g.2
      rw [e]
      linear_combination c g * c g * hr a ha
    exact frozen_visited sd.seeds _ (atFeature false g) (by simp [atFeature]) hcol hp2 (by rw [hDe]; exact he) w _ (irlsRun_visited _ _ _)
  have hrep : ∀ row ∈ (Q.path (irlsCd next) r.alphas s).2, (report false C.thr Q.means Q.stds row).2 g = startValue false C.start g := by
    intro row hrow
    show feat false row g * oneOverStd C.thr 1 (Q.stds g) = _
    rw [hone, mul_one, feat_atFeature, hkeep row hrow]
  obtain ⟨hall, row, hrow, e⟩ := stored_rows _ _ _ _ _ r hsto
  refine ⟨by rw [e]; exact hrep row hrow, fun b hb => ?_⟩
  obtain ⟨row, hrow, e⟩ := hall b hb
  rw [e]; exact hrep row hrow

/-- What setting the coefficient of a column without information to zero gains. -/
theorem drop_gain (C : FitCfg p ic) (R : Rows n) (s : ℕ → ℝ) (a l1r : ℝ) (g : Fin p) (c : ℝ) (hc : ∀ i, R.X i g = c) (hown : OwnRidge p C.P2a g) (b0 : ℝ) (b : ℕ → ℝ) :
    fitObjective p C.e50 C.family C.link R s C.P1a C.P2a a l1r b0 b = fitObjective p C.e50 C.family C.link R s C.P1a C.P2a a l1r (b0 + c * b g) (nudge g (-b g) b)
      + a * (l1r * userP1 C.P1a g * |b g * s g| + (1 - l1r) * userP2 C.P2a g g * (1 / 2 * (b g * s g) ^ 2)) := by
  have hn : ∀ k : Fin p, nudge g (-b g) b k = if k = g then 0 else b k := by
    intro k
    unfold nudge
    by_cases e : k = g
    · rw [if_pos (by rw [e]), if_pos e, e]; ring
    · rw [if_neg (fun h => e (Fin.ext h)), if_neg e]
  have hdot : ∀ i, ∑ j : Fin p, R.X i j * nudge g (-b g) b j + (b0 + c * b g) = ∑ j : Fin p, R.X i j * b j + b0 := by
    intro i
    have : ∑ j : Fin p, R.X i j * b j = ∑ j : Fin p, R.X i j * nudge g (-b g) b j + R.X i g * b g := by
      rw [← Finset.add_sum_erase _ _ (Finset.mem_univ g), ← Finset.add_sum_erase Finset.univ (fun j : Fin p => R.X i j * nudge g (-b g) b j) (Finset.mem_univ g)]
      rw [hn g, if_pos rfl, mul_zero, zero_add, add_comm]
      congr 1
      refine Finset.sum_congr rfl fun j hj => ?_
      rw [hn j, if_neg (Finset.ne_of_mem_erase hj)]
    rw [this, hc]; ring
  have hl1 : ∑ j : Fin p, userP1 C.P1a j * |b j * s j| = ∑ j : Fin p, userP1 C.P1a j * |nudge g (-b g) b j * s j| + userP1 C.P1a g * |b g * s g| := by
    rw [← Finset.add_sum_erase _ _ (Finset.mem_univ g), ← Finset.add_sum_erase Finset.univ (fun j : Fin p => userP1 C.P1a j * |nudge g (-b g) b j * s j|) (Finset.mem_univ g)]
    rw [hn g, if_pos rfl, zero_mul, abs_zero, mul_zero, zero_add, add_comm]
    congr 1
    refine Finset.sum_congr rfl fun j hj => ?_
    rw [hn j, if_neg (Finset.ne_of_mem_erase hj)]
  have hcol : ∀ j : Fin p, ∑ k : Fin p, userP2 C.P2a j k * (b j * s j) * (b k * s k)
      = ∑ k : Fin p, userP2 C.P2a j k * (nudge g (-b g) b j * s j) * (nudge g (-b g) b k * s k) + if j = g then userP2 C.P2a g g * (b g * s g) ^ 2 else 0 := by
    intro j
    by_cases e : j = g
    · rw [if_pos e, e, hn g, if_pos rfl, Fintype.sum_eq_single g fun k hk => by rw [(hown k k.2 (fun e => hk (Fin.ext e))).1]; ring]
      simp; ring
    · rw [if_neg e, add_zero]
      refine Finset.sum_congr rfl fun k _ => ?_
      by_cases ek : k = g
      · rw [ek, (hown j j.2 (fun h => e (Fin.ext h))).2]; ring
      · rw [hn j, hn k, if_neg e, if_neg ek]
  have hl2 : ∑ j : Fin p, ∑ k : Fin p, userP2 C.P2a j k * (b j * s j) * (b k * s k)
      = ∑ j : Fin p, ∑ k : Fin p, userP2 C.P2a j k * (nudge g (-b g) b j * s j) * (nudge g (-b g) b k * s k) + userP2 C.P2a g g * (b g * s g) ^ 2 := by
    rw [Finset.sum_congr rfl fun j _ => hcol j, Finset.sum_add_distrib]
    simp
  unfold fitObjective
  rw [hl1, hl2]
  simp only [hdot]
  ring

/-- **C128, zero is the solution.** On the level of the documented objective: setting the coefficient of a column without information to zero (and moving the constant it stood for to the intercept)
never makes the objective larger, and makes it smaller if the coefficient is not zero and is penalised. -/
theorem c128_zero_better (C : FitCfg p ic) (R : Rows n) (s : ℕ → ℝ) (a l1r : ℝ) (hC : ConvexFit C R l1r) (ha : 0 ≤ a) (g : Fin p) (c : ℝ) (hc : ∀ i, R.X i g = c) (hown : OwnRidge p C.P2a g) (hs : s g ≠ 0)
    (b0 : ℝ) (b : ℕ → ℝ) :
    fitObjective p C.e50 C.family C.link R s C.P1a C.P2a a l1r (b0 + c * b g) (nudge g (-b g) b) ≤ fitObjective p C.e50 C.family C.link R s C.P1a C.P2a a l1r b0 b ∧
    (b g ≠ 0 → 0 < a * (l1r * userP1 C.P1a g + (1 - l1r) * userP2 C.P2a g g) →
      fitObjective p C.e50 C.family C.link R s C.P1a C.P2a a l1r (b0 + c * b g) (nudge g (-b g) b) < fitObjective p C.e50 C.family C.link R s C.P1a C.P2a a l1r b0 b) := by
  have hmain := drop_gain C R s a l1r g c hc hown b0 b
  have hp1 := hC.p1 g
  have hp2 := own_diag_nonneg C R l1r hC g
  have q1 : 0 ≤ l1r * userP1 C.P1a g := mul_nonneg hC.l1.1 hp1
  have q2 : 0 ≤ (1 - l1r) * userP2 C.P2a g g := mul_nonneg (by linarith [hC.l1.2]) hp2
  rw [hmain]
  refine ⟨le_add_of_nonneg_right (mul_nonneg ha (add_nonneg (mul_nonneg q1 (abs_nonneg _)) (mul_nonneg q2 (by positivity)))), fun hb hpos => ?_⟩
  have hne : b g * s g ≠ 0 := mul_ne_zero hb hs
  have ha' : 0 < a := lt_of_le_of_ne ha fun e => by rw [← e] at hpos; simp at hpos
  have hpos' : 0 < l1r * userP1 C.P1a g + (1 - l1r) * userP2 C.P2a g g := by
    by_contra hn
    have := mul_nonpos_of_nonneg_of_nonpos ha (not_lt.1 hn)
    linarith
  refine lt_add_of_pos_right _ (mul_pos ha' ?_)
  have e1 : 0 < |b g * s g| := abs_pos.2 hne
  have e2 : 0 < 1 / 2 * (b g * s g) ^ 2 := by positivity
  rcases q1.lt_or_eq with h | h
  · exact add_pos_of_pos_of_nonneg (mul_pos h e1) (mul_nonneg q2 e2.le)
  · rw [← h, zero_mul, zero_add]
    rw [← h, zero_add] at hpos'
    exact mul_pos hpos' e2

/-- **C128, a stale coefficient is noticed.** Such a fit raises a convergence warning whenever the L1 penalty on the column exceeds `gradient_tol`, although no number of iterations helps: the
coefficient reported is not optimal, setting it to zero gains `alpha · l1_ratio · P1 · |coefficient|`. -/
theorem c128_stale_warns (next : (ℕ → BitVec 32) → ℕ → (ℕ → BitVec 32)) (C : FitCfg p false) (he : 0 ≤ C.eps) (stats : Stats) (hst : TrueStats stats)
    (R : Rows n) (hw : ∑ i, R.sw i = 1) (l1r : ℝ) (hC : ConvexFit C R l1r) (hstep : C.stepTol = none) (g : Fin p) (hg : ∀ i, R.X i g = 0) (hown : OwnRidge p C.P2a g) (hlb : C.lb = none) (hub : C.ub = none)
    (al : AlphaSpec) (s s' : SolverLog) (r : PathResult) (ha : ∀ x ∈ r.alphas, 0 ≤ x) (hr : ∀ a ∈ r.alphas, a * (1 - l1r) * userP2 C.P2a g g = 0) (hfit : glmFit C stats (irlsCd next) R l1r al s = some (s', r))
    (h0 : startValue false C.start g ≠ 0) (a : ℝ) (haa : a ∈ r.alphas) (hbig : C.gradTol < a * (l1r * userP1 C.P1a g)) :
    s'.convWarn ≠ s.convWarn ∧
    ∀ b ∈ r.coefPath, ∀ b0, fitObjective p C.e50 C.family C.link R (penScale C.thr C.asIfScaled (stats n R.X R.sw).2) C.P1a C.P2a a l1r b0 b
      = fitObjective p C.e50 C.family C.link R (penScale C.thr C.asIfScaled (stats n R.X R.sw).2) C.P1a C.P2a a l1r b0 (nudge g (-b g) b)
        + a * (l1r * userP1 C.P1a g) * |startValue false C.start g| := by
  have hs0 : ∀ j, 0 ≤ (stats n R.X R.sw).2 j := fun j => by rw [(hst n R.X R.sw j).2]; exact Real.sqrt_nonneg _
  obtain ⟨cm, cs⟩ := constant_stats stats hst R hw g 0 hg
  have hall := (c128_stale next C hC.thr he stats hst R hw l1r g hg hlb hub al s s' r hr hfit).2
  have hpen : penScale C.thr C.asIfScaled (stats n R.X R.sw).2 g = 1 := by
    unfold penScale; rw [cs, if_pos hC.thr]; simp
  have hgain : ∀ b ∈ r.coefPath, ∀ b0, fitObjective p C.e50 C.family C.link R (penScale C.thr C.asIfScaled (stats n R.X R.sw).2) C.P1a C.P2a a l1r b0 b
      = fitObjective p C.e50 C.family C.link R (penScale C.thr C.asIfScaled (stats n R.X R.sw).2) C.P1a C.P2a a l1r b0 (nudge g (-b g) b)
        + a * (l1r * userP1 C.P1a g) * |startValue false C.start g| := by
    intro b hb b0
    rw [drop_gain C R _ a l1r g 0 hg hown b0 b, hpen, hall b hb]
    have := hr a haa
    simp only [zero_mul, add_zero, mul_one]
    linear_combination (1 / 2 * startValue false C.start g ^ 2) * this
  refine ⟨fun hno => ?_, hgain⟩
  obtain ⟨q, hq, e⟩ := List.getElem_of_mem haa
  obtain ⟨l1, l2, -⟩ := c75_no_warning_near_optimal next (fun seeds _ => cdInner seeds) C stats R l1r hC hs0 hstep al s s' r hfit ha hno
  have hc : q < r.coefPath.length := by rw [l1]; exact hq
  have hb : q < r.interceptPath.length := by rw [l2]; exact hq
  have hopt := c127_fit_optimal next (fun seeds _ => cdInner seeds) C stats R l1r hC hs0 hstep al s s' r hfit ha hno q hq hc hb g (-r.coefPath[q] g)
    (fun j _ => ⟨(fun l hl => by rw [hlb] at hl; cases hl), (fun u hu => by rw [hub] at hu; cases hu)⟩)
  have hcs : colScale C.thr (stats n R.X R.sw).2 g = 1 := by unfold colScale; rw [cs, abs_zero, if_pos hC.thr]
  rw [e, hgain _ (List.getElem_mem hc), hcs, cm, abs_zero, max_eq_left zero_le_one, mul_one, abs_neg, hall _ (List.getElem_mem hc)] at hopt
  have := mul_lt_mul_of_pos_right hbig (abs_pos.2 h0)
  linarith

/-! ### The hypotheses are met -/

/-- The solver of the normal equations used in the examples decouples. -/
example {m : ℕ} : SolvesDecoupled (invSolve (m := m)) := by
  intro H s k hk hd hs
  by_cases hdet : IsUnit (Matrix.of H).det
  · have e : (Matrix.of H).mulVec (invSolve H s) = s := by
      unfold invSolve
      rw [Matrix.mulVec_mulVec, Matrix.mul_nonsing_inv _ hdet, Matrix.one_mulVec]
    have e := congrFun e k
    rw [hs] at e
    simp only [Matrix.mulVec, dotProduct, Matrix.of_apply] at e
    rw [Fintype.sum_eq_single k fun l hl => by rw [(hk l hl).1, zero_mul]] at e
    exact (mul_eq_zero.1 e).resolve_left hd
  · unfold invSolve
    rw [Matrix.nonsing_inv_apply_not_isUnit _ hdet]
    simp

/-- A second column that is 7 in both rows. -/
noncomputable def padRows : Rows 2 := { tinyRows with X := fun i j => if j = 1 then 7 else tinyRows.X i j }

/-- Elastic net with intercept from a start that gives both columns a coefficient. -/
noncomputable def padCfg (N M : ℕ) : FitCfg 2 true where
  family := .poisson
  link := .log
  e50 := 0
  thr := 1 / 10 ^ 6
  asIfScaled := false
  xsp := false
  P1a := .none
  P2a := .none
  lb := some fun _ => 0
  ub := none
  A := none
  start := .given fun k => k.val
  p2ok := fun _ => true
  maxIter := N
  maxInnerIter := M
  gradTol := 1 / 10000
  stepTol := none
  hessApprox := 0
  fixedInnerTol := none
  random := true
  eps := 1 / 10 ^ 16
  large := 10 ^ 43

/-- The constant column ends with coefficient zero, for every penalty and however many iterations. -/
example (next : (ℕ → BitVec 32) → ℕ → (ℕ → BitVec 32)) (s : SolverLog) (N M : ℕ) (a l1r : ℝ) :
    ∃ s' r, glmFit (padCfg N M) levelStats (irlsCd next) padRows l1r (.single a) s = some (s', r) ∧ r.coef 1 = 0 := by
  obtain ⟨Q, hQ⟩ : ∃ Q, prepare (padCfg N M) levelStats padRows l1r = some Q := ⟨_, rfl⟩
  obtain ⟨r, hr, -⟩ := glmFit_single (padCfg N M) levelStats (irlsCd next) padRows l1r a s Q hQ (by rintro ⟨l, u, -, h, -⟩; cases h) (fun _ => rfl)
  refine ⟨_, r, hr, ?_⟩
  exact (c128_zero next (padCfg N M) (by norm_num [padCfg]) levelStats (fun _ _ _ _ => ⟨rfl, rfl⟩) padRows (by simp [padRows, tinyRows]) l1r (1 : Fin 2)
    ⟨7, fun i => rfl, fun h => by cases h⟩
    (fun k hk hne => by
      have : k = 0 := by
        have : k ≠ 1 := hne
        omega
      subst this
      simp [padCfg, userP2])
    ⟨fun l hl => by cases hl; exact le_rfl, fun u hu => by cases hu⟩ (fun h => by cases h) (.single a) s _ r hr).1

/-- A lasso without intercept on a column of zeros, started at 5. -/
noncomputable def staleCfg (N M : ℕ) : FitCfg 1 false where
  family := .normal
  link := .identity
  e50 := 0
  thr := 1 / 10 ^ 6
  asIfScaled := false
  xsp := false
  P1a := .none
  P2a := .none
  lb := none
  ub := none
  A := none
  start := .previous fun _ => 5
  p2ok := fun _ => true
  maxIter := N
  maxInnerIter := M
  gradTol := 1 / 10000
  stepTol := none
  hessApprox := 0
  fixedInnerTol := none
  random := false
  eps := 1 / 10 ^ 16
  large := 10 ^ 43

/-- The coefficient stays 5, with a warning, however many iterations are allowed. -/
example (next : (ℕ → BitVec 32) → ℕ → (ℕ → BitVec 32)) (s : SolverLog) (N M : ℕ) :
    ∃ s' r, glmFit (staleCfg N M) levelStats (irlsCd next) { tinyRows with X := fun _ _ => 0 } 1 (.single 1) s = some (s', r) ∧ r.coef 0 = 5 ∧ s'.convWarn ≠ s.convWarn := by
  obtain ⟨Q, hQ⟩ : ∃ Q, prepare (staleCfg N M) levelStats { tinyRows with X := fun _ _ => 0 } 1 = some Q := ⟨_, rfl⟩
  obtain ⟨r, hr, -⟩ := glmFit_single (staleCfg N M) levelStats (irlsCd next) { tinyRows with X := fun _ _ => 0 } 1 1 s Q hQ (by rintro ⟨l, u, h, -⟩; cases h) (fun _ => rfl)
  have hal : r.alphas = [1] := by
    obtain ⟨Q, -, hal, -⟩ := glmFit_spec _ _ _ _ _ _ _ _ _ hr
    simpa [AlphaSpec.eval] using hal.symm
  have hst : TrueStats levelStats := fun _ _ _ _ => ⟨rfl, rfl⟩
  have hw : ∑ i, ({ tinyRows with X := fun _ _ => 0 } : Rows 2).sw i = 1 := by simp [tinyRows]
  have h5 : startValue false (staleCfg N M).start ((0 : Fin 1) : ℕ) = 5 := by simp [startValue, staleCfg, feat]
  refine ⟨_, r, hr, ?_, ?_⟩
  · have := (c128_stale next (staleCfg N M) (by norm_num [staleCfg]) (by norm_num [staleCfg]) levelStats hst { tinyRows with X := fun _ _ => 0 } hw 1 (0 : Fin 1) (fun _ => rfl) rfl rfl
      (.single 1) s _ r (fun a _ => by simp) hr).1
    rw [h5] at this
    exact this
  · have hcv : ConvexFit (staleCfg N M) { tinyRows with X := fun _ _ => 0 } 1 := ⟨by norm_num [staleCfg], trivial, (tiny_convex 5 5).pair, (tiny_convex 5 5).y, (tiny_convex 5 5).sw,
      (tiny_convex 5 5).p1, (tiny_convex 5 5).p2, ⟨zero_le_one, le_rfl⟩⟩
    exact (c128_stale_warns next (staleCfg N M) (by norm_num [staleCfg]) levelStats hst { tinyRows with X := fun _ _ => 0 } hw 1 hcv rfl (0 : Fin 1) (fun _ => rfl)
      (fun k hk hne => absurd (Nat.lt_one_iff.1 hk) hne) rfl rfl (.single 1) s _ r (by rw [hal]; simp) (fun a _ => by simp) hr (by rw [h5]; norm_num) 1 (by rw [hal]; simp)
      (by norm_num [staleCfg, userP1])).1

end Glum
