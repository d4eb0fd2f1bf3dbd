import Verif.Props.Report
import Verif.Props.Recode
/-
C136: fits of two codings of the same unpenalised model converge to the same predictions, covariance matrices (recoded) and tests.
-/
set_option linter.unusedSectionVars false
set_option linter.unusedVariables false
set_option linter.unusedSimpArgs false

namespace Glum
open Spec Topology

variable {n m p p' : ℕ} {ic ic' : Bool}

/-! ### Specification -/

/-- The rows `R'` are the rows `R` with their columns (the intercept among them) recoded by the matrix `A`. -/
structure Spec.RecodedRows (p : ℕ) (ic : Bool) (p' : ℕ) (ic' : Bool) (A : Matrix (Fin (p + ic.toNat)) (Fin (p' + ic'.toNat)) ℝ) (R R' : Rows n) : Prop where
  y : R'.y = R.y
  sw : R'.sw = R.sw
  off : R'.off = R.off
  rows : ∀ i k, design ic' R'.X i k = ∑ j, design ic R.X i j * A j k

/-- Two models of the same family and link, without penalty and bounds, whose columns are codings of each other: `A` recodes columns, `B` recodes coefficients. -/
structure Spec.SameUpToCoding (C : FitCfg p ic) (C' : FitCfg p' ic') (A : Matrix (Fin (p + ic.toNat)) (Fin (p' + ic'.toNat)) ℝ)
    (B : Matrix (Fin (p' + ic'.toNat)) (Fin (p + ic.toNat)) ℝ) : Prop where
  family : C'.family = C.family
  link : C'.link = C.link
  e50 : C'.e50 = C.e50
  free : C.lb = none ∧ C.ub = none
  free' : C'.lb = none ∧ C'.ub = none
  AB : A * B = 1
  BA : B * A = 1

/-! ### Coefficient vectors -/

theorem design_coefVector (X : Fin n → ℕ → ℝ) (b0 : ℝ) (b : ℕ → ℝ) (h0 : ic = false → b0 = 0) (i : Fin n) :
    ∑ k, design (p := p) ic X i k * coefVector p ic b0 b k = ∑ j : Fin p, X i j * b j + b0 := by
  cases ic with
  | false =>
    rw [h0 rfl, add_zero]
    rfl
  | true =>
    have := Fin.sum_univ_succ fun k : Fin (p + 1) => design (p := p) true X i k * coefVector p true b0 b k
    refine this.trans ?_
    rw [add_comm]
    congr 1
    exact one_mul b0

theorem coefVector_surj (v : Fin (p + ic.toNat) → ℝ) : ∃ (d0 : ℝ) (d : ℕ → ℝ), (ic = false → d0 = 0) ∧ coefVector p ic d0 d = v := by
  cases ic with
  | false =>
    refine ⟨0, fun j => if h : j < p then v ⟨j, h⟩ else 0, fun _ => rfl, ?_⟩
    funext k
    exact dif_pos k.2
  | true =>
    refine ⟨v ⟨0, Nat.succ_pos p⟩, fun j => if h : j < p then v ⟨j + 1, Nat.succ_lt_succ h⟩ else 0, fun h => (Bool.noConfusion h : _), ?_⟩
    funext k
    obtain ⟨k, hk⟩ := k
    cases k with
    | zero => rfl
    | succ k => exact dif_pos (Nat.lt_of_succ_lt_succ hk)

theorem coefVector_inj {b0 c0 : ℝ} {b c : ℕ → ℝ} (hb : ic = false → b0 = 0) (hc : ic = false → c0 = 0) (h : coefVector p ic b0 b = coefVector p ic c0 c) :
    b0 = c0 ∧ ∀ j < p, b j = c j := by
  cases ic with
  | false =>
    exact ⟨(hb rfl).trans (hc rfl).symm, fun j hj => congrFun h ⟨j, hj⟩⟩
  | true =>
    exact ⟨congrFun h ⟨0, Nat.succ_pos p⟩, fun j hj => congrFun h ⟨j + 1, Nat.succ_lt_succ hj⟩⟩

section
variable {A : Matrix (Fin (p + ic.toNat)) (Fin (p' + ic'.toNat)) ℝ} {B : Matrix (Fin (p' + ic'.toNat)) (Fin (p + ic.toNat)) ℝ} {R R' : Rows n}

/-- Coefficients that are recodings of each other predict the same. -/
theorem recoded_eta (h : RecodedRows p ic p' ic' A R R') {b0 c0 : ℝ} {b c : ℕ → ℝ} (hb : ic = false → b0 = 0) (hc : ic' = false → c0 = 0)
    (e : A.mulVec (coefVector p' ic' c0 c) = coefVector p ic b0 b) (i : Fin n) : ∑ j : Fin p', R'.X i j * c j + c0 = ∑ j : Fin p, R.X i j * b j + b0 := by
  rw [← design_coefVector R'.X c0 c hc i, ← design_coefVector R.X b0 b hb i, ← e]
  simp only [h.rows, Matrix.mulVec, dotProduct, Finset.sum_mul, Finset.mul_sum]
  rw [Finset.sum_comm]
  exact Finset.sum_congr rfl fun j _ => Finset.sum_congr rfl fun k _ => by ring

variable {C : FitCfg p ic} {C' : FitCfg p' ic'}

theorem recoded_deviance (hC : SameUpToCoding C C' A B) (h : RecodedRows p ic p' ic' A R R') {b0 c0 : ℝ} {b c : ℕ → ℝ} (hb : ic = false → b0 = 0) (hc : ic' = false → c0 = 0)
    (e : A.mulVec (coefVector p' ic' c0 c) = coefVector p ic b0 b) (s s' : ℕ → ℝ) (l l' : ℝ) :
    fitObjective p' C'.e50 C'.family C'.link R' s' C'.P1a C'.P2a 0 l' c0 c = fitObjective p C.e50 C.family C.link R s C.P1a C.P2a 0 l b0 b := by
  rw [fitObjective_split, fitObjective_split, zero_mul, zero_mul, add_zero, add_zero]
  unfold halfDeviance
  simp only [hC.family, hC.link, hC.e50, h.y, h.sw, h.off, recoded_eta h hb hc e]

theorem recode_back (hC : SameUpToCoding C C' A B) {u : Fin (p + ic.toNat) → ℝ} {v : Fin (p' + ic'.toNat) → ℝ} : A.mulVec v = u ↔ v = B.mulVec u := by
  constructor
  · rintro rfl
    rw [Matrix.mulVec_mulVec, hC.BA, Matrix.one_mulVec]
  · rintro rfl
    rw [Matrix.mulVec_mulVec, hC.AB, Matrix.one_mulVec]

/-- **C136, solutions.** If the one problem determines its coefficients, so does the other, and its solution is the recoded one. -/
theorem c136_solution (hC : SameUpToCoding C C' A B) (h : RecodedRows p ic p' ic' A R R') (s s' : ℕ → ℝ) (l l' b0 c0 : ℝ) (b c : ℕ → ℝ)
    (hdet : Determined C R s l 0 b0 b) (hc : ic' = false → c0 = 0) (e : coefVector p' ic' c0 c = B.mulVec (coefVector p ic b0 b)) :
    Determined C' R' s' l' 0 c0 c := by
  obtain ⟨hsol, hr | ⟨-, -, hu⟩⟩ := hdet
  · exact absurd hr.alpha (lt_irrefl _)
  have free : ∀ d, WithinBounds p C.lb C.ub d := fun d j _ => ⟨(fun l hl => by rw [hC.free.1] at hl; cases hl), (fun u hu => by rw [hC.free.2] at hu; cases hu)⟩
  have free' : ∀ d, WithinBounds p' C'.lb C'.ub d := fun d j _ => ⟨(fun l hl => by rw [hC.free'.1] at hl; cases hl), (fun u hu => by rw [hC.free'.2] at hu; cases hu)⟩
  have key := recoded_deviance hC h hsol.1 hc ((recode_back hC).2 e) s s' l l'
  refine ⟨⟨hc, free' c, fun d0 d hd _ => ?_⟩, Or.inr ⟨le_rfl, Or.inl ⟨rfl, hC.free'.1, hC.free'.2⟩, fun d0 d hd => ?_⟩⟩
  · obtain ⟨f0, f, hf, ef⟩ := coefVector_surj (p := p) (ic := ic) (A.mulVec (coefVector p' ic' d0 d))
    rw [key, recoded_deviance hC h hf hd ef.symm s s' l l']
    exact hsol.2.2 f0 f hf (free f)
  · obtain ⟨f0, f, hf, ef⟩ := coefVector_surj (p := p) (ic := ic) (A.mulVec (coefVector p' ic' d0 d))
    have hF : Solves p ic C.lb C.ub (fitObjective p C.e50 C.family C.link R s C.P1a C.P2a 0 l) f0 f := by
      refine ⟨hf, free f, fun g0 g hg hgb => ?_⟩
      rw [← recoded_deviance hC h hf hd.1 ef.symm s s' l l']
      have := hd.2.2 c0 c hc (free' c)
      rw [key] at this
      exact this.trans (hsol.2.2 g0 g hg hgb)
    obtain ⟨e0, e1⟩ := hu f0 f hF
    have hv : coefVector p ic f0 f = coefVector p ic b0 b := by
      funext k
      unfold coefVector
      split
      · exact e0
      · exact e1 _ (by omega)
    refine coefVector_inj hd.1 hc ?_
    rw [e, ← hv]
    exact (recode_back hC).1 ef.symm

variable {T T' : Rows m}

theorem recoded_pred (h : RecodedRows p ic p' ic' A T T') {b0 c0 : ℝ} {b c : ℕ → ℝ} (hb : ic = false → b0 = 0) (hc : ic' = false → c0 = 0)
    (e : A.mulVec (coefVector p' ic' c0 c) = coefVector p ic b0 b) (i : Fin m) : etaOf p' T'.X T'.off c c0 i = etaOf p T.X T.off b b0 i := by
  unfold etaOf
  rw [recoded_eta h hb hc e, h.off]

theorem recoded_data (hC : SameUpToCoding C C' A B) (h : RecodedRows p ic p' ic' A T T') {b0 c0 : ℝ} {b c : ℕ → ℝ} (hb : ic = false → b0 = 0) (hc : ic' = false → c0 = 0)
    (e : A.mulVec (coefVector p' ic' c0 c) = coefVector p ic b0 b) : Recoded (modelData C T b0 b) (modelData C' T' c0 c) A B where
  family := hC.family
  link := hC.link
  y := h.y
  mu := by
    funext i
    show C'.link.inverse C'.e50 _ = C.link.inverse C.e50 _
    rw [recoded_pred h hb hc e, hC.link, hC.e50]
  w := h.sw
  rows := h.rows
  AB := hC.AB
  BA := hC.BA

theorem recoded_regular (hC : SameUpToCoding C C' A B) (h : RecodedRows p ic p' ic' A T T') {b0 c0 : ℝ} {b c : ℕ → ℝ} (hb : ic = false → b0 = 0) (hc : ic' = false → c0 = 0)
    (e : A.mulVec (coefVector p' ic' c0 c) = coefVector p ic b0 b) (hreg : RegularOn C T b0 b) : RegularOn C' T' c0 c := fun i => by
  rw [recoded_pred h hb hc e, hC.family, hC.link, hC.e50]
  exact hreg i

end

/-! ### The fits -/

section
variable {A : Matrix (Fin (p + ic.toNat)) (Fin (p' + ic'.toNat)) ℝ} {B : Matrix (Fin (p' + ic'.toNat)) (Fin (p + ic.toNat)) ℝ} (C : FitCfg p ic) (C' : FitCfg p' ic')
  (hC : SameUpToCoding C C' A B) (stats stats' : Stats) {n : ℕ} (R R' : Rows n) (hR : RecodedRows p ic p' ic' A R R') (l l' : ℝ) (h : ConvexFit C R l) (h' : ConvexFit C' R' l')
  (hs : ∀ j, 0 ≤ (stats n R.X R.sw).2 j) (hs' : ∀ j, 0 ≤ (stats' n R'.X R'.sw).2 j) (b0 c0 : ℝ) (b c : ℕ → ℝ)
  (hdet : Determined C R (penScale C.thr C.asIfScaled (stats n R.X R.sw).2) l 0 b0 b) (hc : ic' = false → c0 = 0)
  (e : coefVector p' ic' c0 c = B.mulVec (coefVector p ic b0 b)) (T T' : Rows m) (hT : RecodedRows p ic p' ic' A T T') (o : CovOptions m)
  (hreg : RegularOn C T b0 b) (hd : (modelData C T b0 b).disp o ≠ 0) (V : Matrix (Fin (p + ic.toNat)) (Fin (p + ic.toNat)) ℝ)
  (hV : covariance (modelData C T b0 b) o true = some V)
include hC hR h h' hs hs' hdet hc e hT hreg hd hV

/-- **C136, reports.** For every `ε` there is a tolerance below which all fits of the one coding report predictions, dispersion, covariance matrix and coefficient table within `ε` of those of
its solution, and all fits of the other coding the same predictions and dispersion, and the recoded coefficients and covariance matrix, within `ε`. -/
theorem c136_reports (cdf ppf : ℝ → ℝ) (hcdf : Continuous cdf) (conf ε : ℝ) (hε : 0 < ε) :
    (∀ i, etaOf p' T'.X T'.off c c0 i = etaOf p T.X T.off b b0 i) ∧ (modelData C' T' c0 c).mu = (modelData C T b0 b).mu ∧
    (modelData C' T' c0 c).disp o = (modelData C T b0 b).disp o ∧
    ∃ δ : ℝ, 0 < δ ∧ EveryFit C stats R l 0 δ (ReportsWithin C T o cdf ppf conf V ε b0 b) ∧
      EveryFit C' stats' R' l' 0 δ (ReportsWithin C' T' o cdf ppf conf (B * V * B.transpose) ε c0 c) := by
  have hb := hdet.1.1
  have eA := (recode_back hC).2 e
  have hD := recoded_data hC hT hb hc eA
  have hdisp := recoded_disp hD o
  refine ⟨recoded_pred hT hb hc eA, hD.mu, hdisp, ?_⟩
  obtain ⟨δ, hδ, f⟩ := c132_reports C stats R l 0 h hs b0 b hdet T o cdf ppf hcdf conf hreg hd V hV ε hε
  obtain ⟨δ', hδ', f'⟩ := c132_reports C' stats' R' l' 0 h' hs' c0 c (c136_solution hC hR _ _ l l' b0 c0 b c hdet hc e) T' o cdf ppf hcdf conf
    (recoded_regular hC hT hb hc eA hreg) (by rw [hdisp]; exact hd) (B * V * B.transpose) (by rw [c105_covariance hD, hV]; rfl) ε hε
  exact ⟨min δ δ', lt_min hδ hδ', fun next inner C₁ hC₁ hst hg => f next inner C₁ hC₁ hst (hg.trans_le (min_le_left _ _)),
    fun next inner C₁ hC₁ hst hg => f' next inner C₁ hC₁ hst (hg.trans_le (min_le_right _ _))⟩

/-- **C136, tests.** The Wald test of a hypothesis about the one coding, on any of its fits, and the test of the translated hypothesis, on any fit of the other, give statistics and p-values
within `ε` of the same numbers, with the same degrees of freedom. -/
theorem c136_wald (chi2 : ℝ → ℕ → ℝ) (hchi : ∀ d, Continuous fun x => chi2 x d) {Q : ℕ} (L : Matrix (Fin Q) (Fin (p + ic.toNat)) ℝ) (v : Fin Q → ℝ) (res : WaldResult)
    (hres : waldMatrix chi2 V (coefVector p ic b0 b) L (.vec Q v) = some res) (ε : ℝ) (hε : 0 < ε) :
    ∃ δ : ℝ, 0 < δ ∧
      (EveryFit C stats R l 0 δ fun d0 d => ∃ V₁ r₁, covariance (modelData C T d0 d) o true = some V₁ ∧ waldMatrix chi2 V₁ (coefVector p ic d0 d) L (.vec Q v) = some r₁ ∧
        |r₁.stat - res.stat| ≤ ε ∧ |r₁.pValue - res.pValue| ≤ ε ∧ r₁.df = res.df) ∧
      EveryFit C' stats' R' l' 0 δ fun d0 d => ∃ V₁ r₁, covariance (modelData C' T' d0 d) o true = some V₁ ∧ waldMatrix chi2 V₁ (coefVector p' ic' d0 d) (L * A) (.vec Q v) = some r₁ ∧
        |r₁.stat - res.stat| ≤ ε ∧ |r₁.pValue - res.pValue| ≤ ε ∧ r₁.df = res.df := by
  have hb := hdet.1.1
  have eA := (recode_back hC).2 e
  have hD := recoded_data hC hT hb hc eA
  have hdisp := recoded_disp hD o
  obtain ⟨δ, hδ, f⟩ := c132_fit_wald C stats R l 0 h hs b0 b hdet T o chi2 hchi hreg hd V hV L v res hres ε hε
  obtain ⟨δ', hδ', f'⟩ := c132_fit_wald C' stats' R' l' 0 h' hs' c0 c (c136_solution hC hR _ _ l l' b0 c0 b c hdet hc e) T' o chi2 hchi
    (recoded_regular hC hT hb hc eA hreg) (by rw [hdisp]; exact hd) (B * V * B.transpose) (by rw [c105_covariance hD, hV]; rfl) (L * A) v res
    (by rw [e, c105_wald chi2 A B hC.AB]; exact hres) ε hε
  exact ⟨min δ δ', lt_min hδ hδ', fun next inner C₁ hC₁ hst hg => f next inner C₁ hC₁ hst (hg.trans_le (min_le_left _ _)),
    fun next inner C₁ hC₁ hst hg => f' next inner C₁ hC₁ hst (hg.trans_le (min_le_right _ _))⟩

end

/-! ### The hypotheses are met -/

/-- The two observations of `tinyRows` as two groups: one column per group, no intercept. -/
noncomputable def codedRows : Rows 2 := { tinyRows with X := fun i j => if i.val = j then 1 else 0 }

/-- The model of the two groups, without intercept. -/
noncomputable def codedCfg : FitCfg 2 false where
  family := .normal
  link := .identity
  e50 := 0
  thr := 1 / 10 ^ 6
  asIfScaled := false
  xsp := false
  P1a := .none
  P2a := .none
  lb := none
  ub := none
  A := none
  start := .cold
  p2ok := fun _ => true
  maxIter := 5
  maxInnerIter := 5
  gradTol := 1 / 10000
  stepTol := none
  hessApprox := 0
  fixedInnerTol := none
  random := false
  eps := 1 / 10 ^ 16
  large := 10 ^ 43

theorem coded_convex : ConvexFit codedCfg codedRows 0 where
  thr := by norm_num [codedCfg]
  valid := by trivial
  pair := ⟨.normalIdentity, rfl, by simp⟩
  y := fun i => by trivial
  sw := fun i => by norm_num [codedRows, tinyRows]
  p1 := fun j => by simp [codedCfg, userP1]
  p2 := fun v => by
    simp [codedCfg, userP2, Fin.sum_univ_two]
    nlinarith [mul_self_nonneg (v 0), mul_self_nonneg (v 1)]
  l1 := ⟨le_rfl, zero_le_one⟩

/-- Intercept and contrast to group means. -/
noncomputable def toGroups : Matrix (Fin (1 + true.toNat)) (Fin (2 + false.toNat)) ℝ := Matrix.of fun j k => if j.val = 1 ∧ k.val = 1 then -1 / 2 else 1 / 2
def fromGroups : Matrix (Fin (2 + false.toNat)) (Fin (1 + true.toNat)) ℝ := Matrix.of fun j k => if j.val = 1 ∧ k.val = 1 then -1 else 1

/-- Two observations: intercept and contrast against two group means.  The solution of the one is 2 and 1, of the other 3 and 1. -/
theorem tiny_codings : SameUpToCoding (tinyCfg 5 5) codedCfg toGroups fromGroups ∧ RecodedRows 1 true 2 false toGroups tinyRows codedRows ∧
    (∀ s : ℕ → ℝ, Determined (tinyCfg 5 5) tinyRows s 0 0 2 fun _ => 1) ∧
    coefVector 2 false 0 (fun j => if j = 0 then 3 else 1) = fromGroups.mulVec (coefVector 1 true 2 fun _ => 1) := by
  refine ⟨⟨rfl, rfl, rfl, ⟨rfl, rfl⟩, ⟨rfl, rfl⟩, ?_, ?_⟩, ⟨rfl, rfl, rfl, ?_⟩, fun s => ?_, ?_⟩
  · ext i j
    change Fin 2 at i j
    simp only [Matrix.mul_apply]
    change ∑ k : Fin 2, _ = _
    fin_cases i <;> fin_cases j <;> simp [toGroups, fromGroups, Fin.sum_univ_two, Matrix.one_apply] <;> norm_num
  · ext i j
    change Fin 2 at i j
    simp only [Matrix.mul_apply]
    change ∑ k : Fin 2, _ = _
    fin_cases i <;> fin_cases j <;> simp [toGroups, fromGroups, Fin.sum_univ_two, Matrix.one_apply] <;> norm_num
  · intro i k
    change Fin 2 at k
    change _ = ∑ j : Fin 2, _
    fin_cases i <;> fin_cases k <;> simp [toGroups, codedRows, tinyRows, design, Fin.sum_univ_two] <;> norm_num
  · have hobj : ∀ (d0 : ℝ) (d : ℕ → ℝ), fitObjective 1 0 .normal .identity tinyRows s .none .none 0 0 d0 d = 1 / 4 * ((3 - (d 0 + d0)) ^ 2 + (1 - (-d 0 + d0)) ^ 2) := by
      intro d0 d
      have ht : ∀ e, trueMean 0 .normal .identity e = e := fun _ => rfl
      have hd : ∀ y m, Family.unitDeviance .normal y m = (y - m) ^ 2 := fun _ _ => rfl
      unfold fitObjective
      simp only [ht, hd]
      simp [tinyRows, Fin.sum_univ_two]
      ring
    refine ⟨⟨(fun h => by cases h), fun j _ => ⟨(fun l hl => by cases hl), (fun u hu => by cases hu)⟩, fun d0 d _ _ => ?_⟩,
      Or.inr ⟨le_rfl, Or.inl ⟨rfl, rfl, rfl⟩, fun d0 d hd => ?_⟩⟩
    · refine (hobj 2 fun _ => 1).trans_le (le_of_le_of_eq ?_ (hobj d0 d).symm)
      nlinarith [sq_nonneg (3 - (d 0 + d0)), sq_nonneg (1 - (-d 0 + d0))]
    · have h1 := hd.2.2 2 (fun _ => 1) (fun h => by cases h) fun j _ => ⟨(fun l hl => by cases hl), (fun u hu => by cases hu)⟩
      have h2 : 1 / 4 * ((3 - (d 0 + d0)) ^ 2 + (1 - (-d 0 + d0)) ^ 2) ≤ 0 := by
        refine (hobj d0 d).symm.trans_le (h1.trans_eq ((hobj 2 fun _ => 1).trans ?_))
        norm_num
      have e1 : 3 - (d 0 + d0) = 0 := by nlinarith [sq_nonneg (3 - (d 0 + d0)), sq_nonneg (1 - (-d 0 + d0))]
      have e2 : 1 - (-d 0 + d0) = 0 := by nlinarith [sq_nonneg (3 - (d 0 + d0)), sq_nonneg (1 - (-d 0 + d0))]
      refine ⟨by linarith, fun j hj => ?_⟩
      have : j = 0 := by omega
      rw [this]; show d 0 = 1; linarith
  · funext k
    change Fin 2 at k
    simp only [Matrix.mulVec, dotProduct]
    change _ = ∑ j : Fin 2, _
    fin_cases k <;> simp [fromGroups, coefVector, Fin.sum_univ_two] <;> norm_num

/-- The two codings evaluated with weight 3 on each row, and dispersion 1. -/
def unitOptions : CovOptions 2 := ⟨false, true, none, some 1⟩

/-- There the covariance matrix exists, with positive variances. -/
theorem tiny_codings_reports : RecodedRows 1 true 2 false toGroups tinyEval { tinyEval with X := codedRows.X } ∧ RegularOn (tinyCfg 5 5) tinyEval 2 (fun _ => 1) ∧
    (modelData (tinyCfg 5 5) tinyEval 2 fun _ => 1).disp unitOptions ≠ 0 ∧
    ∃ V, covariance (modelData (tinyCfg 5 5) tinyEval 2 fun _ => 1) unitOptions true = some V ∧ ∀ k, 0 < V k k := by
  refine ⟨⟨rfl, rfl, rfl, tiny_codings.2.1.rows⟩, fun i => ⟨trivial, trivial, trivial⟩, one_ne_zero, ?_⟩
  have hA : (sandwichMatrix 1 true tinyEval.X fun i => fisherW .normal .identity ((modelData (tinyCfg 5 5) tinyEval 2 fun _ => 1).disp unitOptions)
      ((modelData (tinyCfg 5 5) tinyEval 2 fun _ => 1).mu i) (tinyEval.sw i)) = (6 : ℝ) • (1 : Matrix (Fin (1 + true.toNat)) (Fin (1 + true.toNat)) ℝ) := by
    have hdisp : (modelData (tinyCfg 5 5) tinyEval 2 fun _ => 1).disp unitOptions = 1 := rfl
    rw [hdisp, sandwichMatrix_eq]
    ext s t
    change Fin 2 at s t
    fin_cases s <;> fin_cases t <;>
      simp [Spec.weightedGram, fisherW, oneOverVariance, Link.inverseDerivative, Family.unitVariance, tinyEval, tinyRows, Fin.sum_univ_two, design, Matrix.one_apply] <;> norm_num
  have hs : linSolve ((6 : ℝ) • (1 : Matrix (Fin (1 + true.toNat)) (Fin (1 + true.toNat)) ℝ)) (1 : Matrix (Fin (1 + true.toNat)) (Fin (1 + true.toNat)) ℝ) = some ((1 / 6 : ℝ) • 1) := by
    rw [linSolve_of _ (by rw [Matrix.det_smul, Matrix.det_one]; simp)]
    congr 1
    rw [mul_one]
    refine Matrix.inv_eq_left_inv ?_
    rw [Matrix.smul_mul, Matrix.mul_smul, smul_smul, one_mul]
    norm_num
  refine ⟨((6 : ℝ) / (6 - 1 - 1)) • ((1 / 6 : ℝ) • 1), ?_, fun k => ?_⟩
  · unfold covariance
    simp only []
    rw [if_neg (by simp), if_neg (by simp [unitOptions])]
    show ((linSolve (sandwichMatrix 1 true tinyEval.X fun i => fisherW .normal .identity ((modelData (tinyCfg 5 5) tinyEval 2 fun _ => 1).disp unitOptions)
      ((modelData (tinyCfg 5 5) tinyEval 2 fun _ => 1).mu i) (tinyEval.sw i)) 1).bind fun v => some (_ • v)) = _
    rw [hA, hs]
    simp only [Option.bind_some]
    congr 2
    simp [modelData, tinyEval]
    norm_num
  · simp only [Matrix.smul_apply, Matrix.one_apply_eq, smul_eq_mul]
    norm_num

end Glum
