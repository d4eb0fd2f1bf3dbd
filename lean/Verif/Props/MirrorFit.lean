import Verif.Props.MirrorCD
/-
C88: negating features, or exchanging the two labels of a logistic regression, only changes the signs of the coefficients.
-/
set_option linter.unusedSectionVars false
set_option linter.unusedVariables false
set_option linter.unusedSimpArgs false

namespace Glum
open Spec

noncomputable section

variable {n p : ℕ} {ic : Bool}

/-- The sign of the linear predictor: turned around when the labels are exchanged. -/
def Spec.labelSign (swap : Bool) : ℝ := if swap then -1 else 1

/-- Feature `j` multiplied by `c j`; with `swap` the labels 0 and 1 exchanged and the offset negated. -/
def Spec.mirrorRows (c : ℕ → ℝ) (swap : Bool) (R : Rows n) : Rows n :=
  { X := fun i j => c j * R.X i j
    y := fun i => if swap then 1 - R.y i else R.y i
    sw := R.sw
    off := if swap then R.off.map fun o i => -o i else R.off }

/-- A coefficient vector (intercept first) with the signs of the mirrored problem. -/
def Spec.signs (p : ℕ) (ic : Bool) (c : ℕ → ℝ) (swap : Bool) (k : Fin (p + ic.toNat)) : ℝ :=
  if k.val < ic.toNat then labelSign swap else labelSign swap * c (k.val - ic.toNat)

/-- The penalty matrix for the mirrored features: entry `j, k` times `c j * c k` (nothing changes for diagonal penalties). -/
def Spec.mirrorP2 (c : ℕ → ℝ) : P2Arg → P2Arg
  | .dense r k m => .dense r k fun i j => c i * m i j * c j
  | .sparse r k m => .sparse r k (m.map fun e => (e.1, e.2.1, c e.1 * e.2.2 * c e.2.1))
  | x => x

def Spec.mirrorStart (c : ℕ → ℝ) (swap : Bool) : StartFrom p ic → StartFrom p ic
  | .previous v => .previous fun k => signs p ic c swap k * v k
  | .given v => .given fun k => signs p ic c swap k * v k
  | .cold => .cold

/-- The same model, written for the mirrored data. -/
def Spec.mirrorResult (c : ℕ → ℝ) (swap : Bool) (r : PathResult) : PathResult :=
  { coef := fun j => labelSign swap * c j * r.coef j
    intercept := labelSign swap * r.intercept
    coefPath := r.coefPath.map fun b j => labelSign swap * c j * b j
    interceptPath := r.interceptPath.map fun b => labelSign swap * b
    alphas := r.alphas }

theorem labelSign_cases (swap : Bool) : labelSign swap = 1 ∨ labelSign swap = -1 := by cases swap <;> simp [labelSign]

theorem signs_cases {c : ℕ → ℝ} (hc : ∀ j, c j = 1 ∨ c j = -1) (swap : Bool) (k : Fin (p + ic.toNat)) : signs p ic c swap k = 1 ∨ signs p ic c swap k = -1 := by
  unfold signs
  split
  · exact labelSign_cases swap
  · rcases labelSign_cases swap with h | h <;> rcases hc (k.val - ic.toNat) with h' | h' <;> rw [h, h'] <;> simp

/-! ### The logistic family -/

theorem expit_neg (x : ℝ) : expit (-x) = 1 - expit x := by
  unfold expit
  have h1 := Real.exp_pos x
  have h2 := Real.exp_pos (-x)
  have h3 : Real.exp x * Real.exp (-x) = 1 := by rw [← Real.exp_add]; simp
  rw [neg_neg]
  field_simp
  linarith

theorem logitMu_eq (x : ℝ) : Fast.mu .binomialLogit x = expit x := by
  unfold Fast.mu expit
  simp only
  split
  · rfl
  · have h1 := Real.exp_pos x
    have h2 := Real.exp_pos (-x)
    have h3 : Real.exp x * Real.exp (-x) = 1 := by rw [← Real.exp_add]; simp
    field_simp
    linarith

theorem logitDev_swap (y x : ℝ) : Fast.dev .binomialLogit (1 - y) (-x) = Fast.dev .binomialLogit y x := by
  unfold Fast.dev
  simp only [neg_neg]
  rcases lt_trichotomy x 0 with h | h | h
  · rw [if_pos (by linarith), if_neg (by linarith)]; ring
  · subst h; simp
  · rw [if_neg (by linarith), if_pos h]; ring

theorem logitGrad_swap (y w x m : ℝ) : genericGrad .binomial .logit (1 - y) w (-x) (1 - m) = -genericGrad .binomial .logit y w x m := by
  unfold genericGrad
  have h1 : Link.inverseDerivative .logit (-x) = Link.inverseDerivative .logit x := by
    simp only [Link.inverseDerivative, expit_neg]; ring
  have h2 : oneOverVariance .binomial .logit (1 - m) (-x) 1 w = oneOverVariance .binomial .logit m x 1 w := by
    simp only [oneOverVariance, neg_neg]; ring
  rw [h1, h2]; ring

theorem expit_mem (x : ℝ) : 0 < expit x ∧ expit x < 1 := by
  unfold expit
  have := Real.exp_pos (-x)
  exact ⟨by positivity, by rw [div_lt_one (by positivity)]; linarith⟩

/-! ### Standardised data -/

theorem stats_mirror (stats : Stats) (hst : TrueStats stats) (R : Rows n) {c : ℕ → ℝ} (hc : ∀ j, c j = 1 ∨ c j = -1) (swap : Bool) :
    (∀ j, (stats n (mirrorRows c swap R).X (mirrorRows c swap R).sw).1 j = c j * (stats n R.X R.sw).1 j) ∧
    (stats n (mirrorRows c swap R).X (mirrorRows c swap R).sw).2 = (stats n R.X R.sw).2 := by
  have hm : ∀ j, ∑ i, R.sw i * (c j * R.X i j) = c j * ∑ i, R.sw i * R.X i j := fun j => by
    rw [Finset.mul_sum]; exact Finset.sum_congr rfl fun i _ => by ring
  constructor
  · intro j
    rw [(hst _ _ _ j).1, (hst _ _ _ j).1]
    exact hm j
  · funext j
    rw [(hst _ _ _ j).2, (hst _ _ _ j).2]
    congr 1
    show ∑ i, R.sw i * (c j * R.X i j - ∑ k, R.sw k * (c j * R.X k j)) ^ 2 = _
    rw [hm]
    refine Finset.sum_congr rfl fun i _ => ?_
    linear_combination (R.sw i * (R.X i j - ∑ k, R.sw k * R.X k j) ^ 2) * sign_sq (hc j)

theorem stdX_mirror (thr : ℝ) (center : Bool) {means' means : ℕ → ℝ} (stds : ℕ → ℝ) {c : ℕ → ℝ} (hm : ∀ j, means' j = c j * means j) (X : Fin n → ℕ → ℝ)
    (i : Fin n) (j : ℕ) : stdX thr center means' stds (fun i j => c j * X i j) i j = c j * stdX thr center means stds X i j := by
  unfold stdX
  rw [hm]
  cases center <;> simp <;> ring

theorem mirrorP2_base (p : ℕ) (xsp : Bool) {c : ℕ → ℝ} (hc : ∀ j, c j = 1 ∨ c j = -1) (x : P2Arg) :
    (setupP2Base p xsp x = none ∧ setupP2Base p xsp (mirrorP2 c x) = none) ∨
    ∃ P P', setupP2Base p xsp x = some P ∧ setupP2Base p xsp (mirrorP2 c x) = some P' ∧ ∀ j < p, ∀ k < p, p2Matrix P' j k = c j * c k * p2Matrix P j k := by
  have huser : ∀ j k, userP2 (mirrorP2 c x) j k = c j * c k * userP2 x j k := by
    intro j k
    have hdiag : ∀ v : ℕ → ℝ, (if j = k then v j else 0) = c j * c k * if j = k then v j else 0 := by
      intro v
      by_cases h : j = k
      · subst h; rw [if_pos rfl, sign_sq (hc j), one_mul]
      · rw [if_neg h, mul_zero]
    cases x with
    | str s => exact hdiag fun _ => 1
    | none => exact hdiag fun _ => 1
    | vec len v => exact hdiag v
    | dense r k m => simp only [mirrorP2, userP2]; ring
    | sparse r q m =>
      have h1 := toArray_eq (m.map fun e => (e.1, e.2.1, c e.1 * e.2.2 * c e.2.1)) j k
      have h2 := toArray_eq m j k
      unfold SparseMat.toArray at h1 h2
      simp only [mirrorP2, userP2]
      rw [h1, h2, List.map_map, ← List.sum_map_mul_left]
      congr 1
      refine List.map_congr_left fun e _ => ?_
      simp only [Function.comp]
      split
      · rename_i h; rw [h.1, h.2]; ring
      · ring
  have hnone : setupP2Base p xsp (mirrorP2 c x) = none ↔ setupP2Base p xsp x = none := by
    cases x with
    | str s => rfl
    | none => rfl
    | vec len v => rfl
    | dense r k m => simp only [mirrorP2, setupP2Base]; split <;> simp
    | sparse r k m => simp only [mirrorP2, setupP2Base]; split <;> simp
  cases h : setupP2Base p xsp x with
  | none => exact Or.inl ⟨rfl, hnone.2 h⟩
  | some P =>
    cases h' : setupP2Base p xsp (mirrorP2 c x) with
    | none => rw [hnone.1 h'] at h; cases h
    | some P' =>
      refine Or.inr ⟨P, P', rfl, rfl, fun j hj k hk => ?_⟩
      rw [setupP2Base_entry p xsp _ _ h' j k hj hk, setupP2Base_entry p xsp _ _ h j k hj hk, huser]

theorem mirrorP2_setup (p : ℕ) (xsp : Bool) {c : ℕ → ℝ} (hc : ∀ j, c j = 1 ∨ c j = -1) (l1 : ℝ) (x : P2Arg) :
    (setupP2 p xsp 1 l1 x = none ∧ setupP2 p xsp 1 l1 (mirrorP2 c x) = none) ∨
    ∃ P P', setupP2 p xsp 1 l1 x = some P ∧ setupP2 p xsp 1 l1 (mirrorP2 c x) = some P' ∧ ∀ j < p, ∀ k < p, p2Matrix P' j k = c j * c k * p2Matrix P j k := by
  unfold setupP2
  rcases mirrorP2_base p xsp hc x with ⟨h1, h2⟩ | ⟨P, P', h1, h2, h3⟩
  · exact Or.inl ⟨by rw [h1]; rfl, by rw [h2]; rfl⟩
  · refine Or.inr ⟨_, _, by rw [h1]; rfl, by rw [h2]; rfl, fun j hj k hk => ?_⟩
    rw [symmetrise_entry, symmetrise_entry, smul_entry, smul_entry, smul_entry, smul_entry, h3 j hj k hk, h3 k hk j hj]
    ring

theorem p2Full_mirror {P' P : Pen2 ℝ} {c : ℕ → ℝ} {swap : Bool} (h : ∀ j < p, ∀ k < p, p2Matrix P' j k = c j * c k * p2Matrix P j k)
    (i k : Fin (p + ic.toNat)) : p2Full ic P' i k = signs p ic c swap i * signs p ic c swap k * p2Full ic P i k := by
  by_cases hi : i.val < ic.toNat
  · rw [p2Full_left_zero _ _ _ hi, p2Full_left_zero _ _ _ hi]; ring
  by_cases hk : k.val < ic.toNat
  · rw [p2Full_right_zero _ _ _ hk, p2Full_right_zero _ _ _ hk]; ring
  have hip : i.val - ic.toNat < p := by omega
  have hkp : k.val - ic.toNat < p := by omega
  have ei : i = ⟨i.val - ic.toNat + ic.toNat, by omega⟩ := Fin.ext (by simp; omega)
  have ek : k = ⟨k.val - ic.toNat + ic.toNat, by omega⟩ := Fin.ext (by simp; omega)
  have f1 := p2Full_shift (ic := ic) P' ⟨_, hip⟩ ⟨_, hkp⟩
  have f2 := p2Full_shift (ic := ic) P ⟨_, hip⟩ ⟨_, hkp⟩
  simp only at f1 f2
  rw [← ei, ← ek] at f1 f2
  rw [f1, f2, h _ hip _ hkp]
  unfold signs
  rw [if_neg hi, if_neg hk]
  linear_combination (-(c (i.val - ic.toNat) * c (k.val - ic.toNat) * p2Matrix P (i.val - ic.toNat) (k.val - ic.toNat))) * sign_sq (labelSign_cases swap)

/-- What the exchange of the labels needs of the family and the link. -/
def Spec.SwapOK (C : FitCfg p ic) (swap : Bool) : Prop :=
  swap = true → C.family = .binomial ∧ C.link = .logit ∧ C.e50 ≤ 1 / 2 ∧ 1 < C.large

theorem mirrorBounds_div {σ : ℝ} {l' u' l u : Option ℝ} (h : MirrorBounds σ l' u' l u) (v : ℝ) :
    MirrorBounds σ (l'.map (· / v)) (u'.map (· / v)) (l.map (· / v)) (u.map (· / v)) := by
  rcases h with ⟨h0, rfl, rfl⟩ | ⟨h0, rfl, rfl⟩
  · exact Or.inl ⟨h0, rfl, rfl⟩
  · refine Or.inr ⟨h0, ?_, ?_⟩
    · cases u <;> simp [neg_div]
    · cases l <;> simp [neg_div]

/-- The mirrored configuration with the bounds `lb'`, `ub'`. -/
def Spec.mirrorCfg (c : ℕ → ℝ) (swap : Bool) (lb' ub' : Option (ℕ → ℝ)) (C : FitCfg p ic) : FitCfg p ic :=
  { C with lb := lb', ub := ub', P2a := mirrorP2 c C.P2a, start := mirrorStart c swap C.start }

theorem std_mirror (C : FitCfg p ic) {c : ℕ → ℝ} (hc : ∀ j, c j = 1 ∨ c j = -1) (swap : Bool) (hs : SwapOK C swap) (lb' ub' : Option (ℕ → ℝ))
    (hb : ∀ j < p, MirrorBounds (labelSign swap * c j) (lb'.map (· j)) (ub'.map (· j)) (C.lb.map (· j)) (C.ub.map (· j)))
    (R : Rows n) {means' means : ℕ → ℝ} (hm : ∀ j, means' j = c j * means j) (stds : ℕ → ℝ) (P1 : ℕ → ℝ) {P' P : Pen2 ℝ}
    (hP : ∀ j < p, ∀ k < p, p2Matrix P' j k = c j * c k * p2Matrix P j k) (P1x : ℕ → ℝ) (x : ℝ) :
    Mirror (labelSign swap) (signs p ic c swap) (fun _ => 0)
      ((stdData C.thr C.asIfScaled means' stds ((mirrorCfg c swap lb' ub' C).problem (mirrorRows c swap R) P1 P')).withPen P1x
        ((stdData C.thr C.asIfScaled means' stds ((mirrorCfg c swap lb' ub' C).problem (mirrorRows c swap R) P1 P')).P2.smul x))
      ((stdData C.thr C.asIfScaled means stds (C.problem R P1 P)).withPen P1x ((stdData C.thr C.asIfScaled means stds (C.problem R P1 P)).P2.smul x)) := by
  have hfam : swap = true → rowFam C.e50 C.family C.link = fastRow .binomial .logit .binomialLogit ∧ 1 < C.large := by
    intro h
    obtain ⟨h1, h2, -, h4⟩ := hs h
    refine ⟨?_, h4⟩
    rw [h1, h2]; rfl
  refine ⟨labelSign_cases swap, signs_cases hc swap, fun _ _ => rfl, ?_, ?_, ?_, ?_, rfl, rfl, rfl, rfl, rfl, rfl, rfl, rfl, rfl, rfl, ?_, ?_, ?_, ?_, ?_⟩
  · intro r k
    by_cases hk : k.val < ic.toNat
    · rw [design_lt _ _ _ hk, design_lt _ _ _ hk]
      unfold signs; rw [if_pos hk]; ring
    · rw [design_ge _ _ _ hk, design_ge _ _ _ hk]
      unfold signs; rw [if_neg hk]
      have := stdX_mirror C.thr ic stds hm R.X r (k.val - ic.toNat)
      show stdX C.thr ic means' stds (fun i j => c j * R.X i j) r (k.val - ic.toNat) * _ = _ * stdX C.thr ic means stds R.X r (k.val - ic.toNat)
      rw [this]
      linear_combination (labelSign swap * stdX C.thr ic means stds R.X r (k.val - ic.toNat)) * sign_sq (hc (k.val - ic.toNat))
  · intro r
    simp only [mul_zero, Finset.sum_const_zero, zero_add]
    show (if swap then R.off.map fun o i => -o i else R.off).getD (fun _ => 0) r = labelSign swap * R.off.getD (fun _ => 0) r
    cases swap with
    | false => simp [labelSign]
    | true => cases R.off <;> simp [labelSign]
  · intro i k
    show p2Full ic (Pen2.smul x _) i k = _ * p2Full ic (Pen2.smul x _) i k
    rw [p2Full_smul, p2Full_smul]
    have key : ∀ i k : Fin (p + ic.toNat), p2Full ic (stdData C.thr C.asIfScaled means' stds ((mirrorCfg c swap lb' ub' C).problem (mirrorRows c swap R) P1 P')).P2 i k
        = signs p ic c swap i * signs p ic c swap k * p2Full ic (stdData C.thr C.asIfScaled means stds (C.problem R P1 P)).P2 i k := by
      refine p2Full_mirror ?_
      intro j hj k hk
      simp only [stdData, standardize]
      cases C.asIfScaled with
      | true => exact hP j hj k hk
      | false =>
        simp only [Bool.false_eq_true, if_false, FitCfg.problem]
        rw [scaleP2_entry, scaleP2_entry, hP j hj k hk]
        ring
    rw [key]; ring
  · intro k hk
    have hkp : k.val - ic.toNat < p := by omega
    unfold signs
    rw [if_neg hk]
    have := mirrorBounds_div (hb _ hkp) (oneOverStd C.thr 1 (stds (k.val - ic.toNat)))
    simp only [Option.map_map] at this
    show MirrorBounds _ ((lb'.map _).map _) ((ub'.map _).map _) ((C.lb.map _).map _) ((C.ub.map _).map _)
    simp only [Option.map_map]
    exact this
  · intro r e
    show (rowFam C.e50 C.family C.link).dev (if swap then 1 - R.y r else R.y r) (labelSign swap * e) = (rowFam C.e50 C.family C.link).dev (R.y r) e
    cases swap with
    | false => simp [labelSign]
    | true =>
      rw [(hfam rfl).1]
      simp only [labelSign, if_true, neg_one_mul]
      exact logitDev_swap _ _
  · intro r e
    show (rowFam C.e50 C.family C.link).grad (if swap then 1 - R.y r else R.y r) (R.sw r) (labelSign swap * e) ((rowFam C.e50 C.family C.link).inv (labelSign swap * e))
      = labelSign swap * (rowFam C.e50 C.family C.link).grad (R.y r) (R.sw r) e ((rowFam C.e50 C.family C.link).inv e)
    cases swap with
    | false => simp [labelSign]
    | true =>
      rw [(hfam rfl).1]
      simp only [labelSign, if_true, neg_one_mul, fastRow, logitMu_eq, expit_neg, Fast.grad]
      ring
  · intro r e
    show (rowFam C.e50 C.family C.link).gradVar (if swap then 1 - R.y r else R.y r) (R.sw r) (labelSign swap * e) ((rowFam C.e50 C.family C.link).inv (labelSign swap * e))
      = labelSign swap * (rowFam C.e50 C.family C.link).gradVar (R.y r) (R.sw r) e ((rowFam C.e50 C.family C.link).inv e)
    cases swap with
    | false => simp [labelSign]
    | true =>
      rw [(hfam rfl).1]
      simp only [labelSign, if_true, neg_one_mul, fastRow, logitMu_eq, expit_neg]
      exact logitGrad_swap _ _ _ _
  · intro r e
    show (rowFam C.e50 C.family C.link).hess (if swap then 1 - R.y r else R.y r) (R.sw r) (labelSign swap * e) ((rowFam C.e50 C.family C.link).inv (labelSign swap * e))
      = (rowFam C.e50 C.family C.link).hess (R.y r) (R.sw r) e ((rowFam C.e50 C.family C.link).inv e)
    cases swap with
    | false => simp [labelSign]
    | true =>
      rw [(hfam rfl).1]
      simp only [labelSign, if_true, neg_one_mul, fastRow, logitMu_eq, expit_neg, Fast.hess]
      ring
  · intro e
    show (rowFam C.e50 C.family C.link).inv (labelSign swap * e) < C.large ↔ (rowFam C.e50 C.family C.link).inv e < C.large
    cases swap with
    | false => simp [labelSign]
    | true =>
      rw [(hfam rfl).1]
      simp only [fastRow, logitMu_eq]
      have h1 := (expit_mem (labelSign true * e)).2
      have h2 := (expit_mem e).2
      have h3 := (hfam rfl).2
      exact ⟨fun _ => by linarith, fun _ => by linarith⟩

/-! ### Start, alphas, path -/

theorem guess_swap (y w : Fin n → ℝ) (hw : ∑ i, w i = 1) (F : Family) (e : Option (Fin n → ℝ)) :
    guessIntercept F .logit (fun i => 1 - y i) w ((e.map fun o i => -o i).elim .none .array)
      = (guessIntercept F .logit y w (e.elim .none .array)).map fun g => -g := by
  have hcond : (∃ c, ∀ i, 1 - y i = c) ↔ ∃ c, ∀ i, y i = c :=
    ⟨fun ⟨c, h⟩ => ⟨1 - c, fun i => by have := h i; linarith⟩, fun ⟨c, h⟩ => ⟨1 - c, fun i => by rw [h]⟩⟩
  have havg : average (fun i => 1 - y i) w = 1 - average y w := by
    unfold average
    rw [hw, div_one, div_one]
    simp only [sub_mul, one_mul, Finset.sum_sub_distrib, hw]
  have hneg : ∀ o : Fin n → ℝ, average (fun i => -o i) w = -average o w := fun o => by
    unfold average
    simp only [neg_mul, Finset.sum_neg_distrib, neg_div]
  unfold guessIntercept
  rw [hcond, havg]
  split
  · rfl
  · simp only [Option.bind_eq_bind, sub_sub_cancel]
    cases safeLog (average y w) with
    | none => cases safeLog (1 - average y w) <;> rfl
    | some u =>
      cases safeLog (1 - average y w) with
      | none => rfl
      | some v =>
        cases e with
        | none => simp
        | some o => simp [hneg]; ring

theorem clip_swap (x y : ℝ) (l u : Option ℝ) {l' u' : Option ℝ} {σ : ℝ} (h : MirrorBounds σ l' u' l u) (ho : ∀ x y, l = some x → u = some y → x ≤ y) (v : ℝ) :
    (u'.elim (l'.elim (σ * v) fun l => max (σ * v) l) fun u => min (l'.elim (σ * v) fun l => max (σ * v) l) u)
      = σ * (u.elim (l.elim v fun l => max v l) fun u => min (l.elim v fun l => max v l) u) := by
  rcases h with ⟨rfl, rfl, rfl⟩ | ⟨rfl, rfl, rfl⟩
  · simp only [one_mul]
  · simp only [neg_one_mul]
    cases l with
    | none =>
      cases u with
      | none => rfl
      | some u => simp [max_neg_neg]
    | some l =>
      cases u with
      | none => simp [min_neg_neg]
      | some u =>
        have hlu := ho l u rfl rfl
        simp only [Option.map_some, Option.elim_some, max_neg_neg, min_neg_neg]
        rw [max_min_distrib_right, max_eq_left hlu]

theorem clipStart_mirror {c : ℕ → ℝ} (swap : Bool) {lb' ub' lb ub : Option (ℕ → ℝ)} (ho : FeatureBoundsOrdered p lb ub)
    (hb : ∀ j < p, MirrorBounds (labelSign swap * c j) (lb'.map (· j)) (ub'.map (· j)) (lb.map (· j)) (ub.map (· j)))
    {v' v : Fin (p + ic.toNat) → ℝ} (hv : ∀ k, v' k = signs p ic c swap k * v k) (k : Fin (p + ic.toNat)) :
    clipStart ic lb' ub' v' k = signs p ic c swap k * clipStart ic lb ub v k := by
  have e : ∀ (l u : Option (ℕ → ℝ)) (x : Fin (p + ic.toNat) → ℝ), ¬ k.val < ic.toNat → clipStart ic l u x k
      = ((u.map (· (k.val - ic.toNat))).elim ((l.map (· (k.val - ic.toNat))).elim (x k) fun l => max (x k) l)
        fun u => min ((l.map (· (k.val - ic.toNat))).elim (x k) fun l => max (x k) l) u) := by
    intro l u x hk
    unfold clipStart
    rw [if_neg hk]
    cases l <;> cases u <;> rfl
  by_cases hk : k.val < ic.toNat
  · unfold clipStart
    rw [if_pos hk, if_pos hk, hv]
  · have hkp : k.val - ic.toNat < p := by omega
    rw [e _ _ _ hk, e _ _ _ hk, hv]
    have hs : signs p ic c swap k = labelSign swap * c (k.val - ic.toNat) := by unfold signs; rw [if_neg hk]
    rw [hs]
    refine clip_swap 0 0 _ _ (hb _ hkp) ?_ _
    intro x y hx hy
    cases hl : lb with
    | none => rw [hl] at hx; cases hx
    | some l =>
      cases hu : ub with
      | none => rw [hu] at hy; cases hy
      | some u =>
        rw [hl] at hx; rw [hu] at hy
        simp only [Option.map_some, Option.some.injEq] at hx hy
        subst hx hy
        exact ho l u hl hu _ hkp

theorem rawStart_mirror {c : ℕ → ℝ} (hc : ∀ j, c j = 1 ∨ c j = -1) (swap : Bool) (thr : ℝ) {means' means : ℕ → ℝ} (hm : ∀ j, means' j = c j * means j) (stds : ℕ → ℝ) {g' g : ℝ}
    (hg : ic = true → g' = labelSign swap * g) (src : StartFrom p ic) (k : Fin (p + ic.toNat)) :
    rawStart ic thr means' stds g' (mirrorStart c swap src) k = signs p ic c swap k * rawStart ic thr means stds g src k := by
  have key : ∀ v : Fin (p + 1) → ℝ, ∀ k : Fin (p + 1), standardizeWarmStart (p := p) thr means' (some stds) (fun k => signs p true c swap k * v k) k
      = signs p true c swap k * standardizeWarmStart (p := p) thr means (some stds) v k := by
    intro v k
    simp only [standardizeWarmStart]
    by_cases hk : k.val = 0
    · have h0 : signs p true c swap k = labelSign swap := by unfold signs; rw [if_pos (by simpa using hk)]
      rw [if_pos hk, if_pos hk, if_pos hk, if_pos hk, h0, mul_add, Finset.mul_sum]
      congr 1
      refine Finset.sum_congr rfl fun j _ => ?_
      have h1 : signs p true c swap j.succ = labelSign swap * c j := by unfold signs; rw [if_neg (by simp)]; simp
      rw [if_neg (by simp), if_neg (by simp), h1, hm]
      simp only [Fin.val_succ, Nat.add_sub_cancel]
      linear_combination (labelSign swap * means j * oneOverStd thr 1 (stds j) * v j.succ * stds j) * sign_sq (hc j)
    · rw [if_neg hk, if_neg hk, if_neg hk, if_neg hk]
      ring
  cases src with
  | previous v =>
    cases ic with
    | true => exact key v k
    | false => rfl
  | given v =>
    cases ic with
    | true => exact key v k
    | false => rfl
  | cold =>
    simp only [rawStart, mirrorStart]
    by_cases hk : k.val < ic.toNat
    · rw [if_pos hk, if_pos hk]
      have : ic = true := by
        cases ic with
        | true => rfl
        | false => simp at hk
      rw [hg this]
      unfold signs; rw [if_pos hk]
    · rw [if_neg hk, if_neg hk, mul_zero]

theorem report_mirror {c : ℕ → ℝ} (hc : ∀ j, c j = 1 ∨ c j = -1) (swap : Bool) (thr : ℝ) {means' means : ℕ → ℝ} (hm : ∀ j, means' j = c j * means j) (stds : ℕ → ℝ)
    (v : Fin (p + ic.toNat) → ℝ) : report ic thr means' stds (fun k => signs p ic c swap k * v k)
      = (labelSign swap * (report ic thr means stds v).1, fun j => labelSign swap * c j * (report ic thr means stds v).2 j) := by
  have hf : ∀ j, feat ic (fun k => signs p ic c swap k * v k) j = labelSign swap * c j * feat ic v j := by
    intro j
    unfold feat
    split
    · beta_reduce
      unfold signs; rw [if_neg (by simp)]; simp
    · ring
  unfold report unstandardize
  refine Prod.ext ?_ ?_
  · simp only [hf]
    rw [mul_sub, Finset.mul_sum]
    congr 1
    · cases ic with
      | false => simp
      | true => simp [icpt, signs]
    · refine Finset.sum_congr rfl fun j _ => ?_
      unfold outMeans
      cases ic with
      | false => simp
      | true =>
        simp only [if_true, hm]
        linear_combination (labelSign swap * means j * oneOverStd thr 1 (stds j) * feat true v j) * sign_sq (hc j)
  · funext j
    simp only [hf]
    ring

theorem alphas_mirror (S : SmoothData n p ic) {c : ℕ → ℝ} (hc : ∀ j, c j = 1 ∨ c j = -1) (swap : Bool)
    (hs : swap = true → S.family = .binomial ∧ S.link = .logit ∧ S.e50 ≤ 1 / 2) (hw : swap = true → ∑ i, S.sw i = 1)
    (X' : Fin n → ℕ → ℝ) (hX : ∀ i j, X' i j = c j * S.X i j) (P2' : Pen2 ℝ) (P1 : ℕ → ℝ) (k : ℕ) (lo ratio : Option ℝ) :
    alphaPath (p := p) (ic := ic) { X := X', y := fun i => if swap then 1 - S.y i else S.y i, sw := S.sw, P2 := P2', family := S.family, link := S.link, offset := if swap then S.offset.map fun o i => -o i else S.offset, e50 := S.e50 } P1 k lo ratio
      = alphaPath S P1 k lo ratio := by
  set S' : SmoothData n p ic := { X := X', y := fun i => if swap then 1 - S.y i else S.y i, sw := S.sw, P2 := P2', family := S.family, link := S.link, offset := if swap then S.offset.map fun o i => -o i else S.offset, e50 := S.e50 } with hS'
  have hpc : pathCoef S' = (pathCoef S).map fun v k => signs p ic c swap k * v k := by
    unfold pathCoef
    cases ic with
    | false => simp
    | true =>
      simp only [if_true]
      have hg : guessIntercept S'.family S'.link S'.y S'.sw .none = (guessIntercept S.family S.link S.y S.sw .none).map fun g => labelSign swap * g := by
        cases swap with
        | false => simp [hS', labelSign]
        | true =>
          have := guess_swap S.y S.sw (hw rfl) S.family none
          simp only [Option.map_none, Option.elim_none] at this
          simp only [hS', if_true, labelSign, neg_one_mul, (hs rfl).2.1]
          exact this
      rw [hg, Option.map_map, Option.map_map]
      congr 1
      funext g k
      simp only [Function.comp]
      unfold signs
      split <;> simp
  have hlin : ∀ coef : Fin (p + ic.toNat) → ℝ, ∀ i, safeLinPred ic S'.X (fun k => signs p ic c swap k * coef k) S'.offset i = labelSign swap * safeLinPred ic S.X coef S.offset i := by
    intro coef i
    rw [c12_lin_pred, c12_lin_pred]
    unfold linPred
    rw [mul_add, Finset.mul_sum]
    congr 1
    · refine Finset.sum_congr rfl fun k _ => ?_
      by_cases hk : k.val < ic.toNat
      · rw [design_lt _ _ _ hk, design_lt _ _ _ hk]
        beta_reduce
        unfold signs; rw [if_pos hk]; ring
      · rw [design_ge _ _ _ hk, design_ge _ _ _ hk]
        beta_reduce
        unfold signs; rw [if_neg hk]
        show X' i _ * _ = _
        rw [hX]
        linear_combination (labelSign swap * S.X i (k.val - ic.toNat) * coef k) * sign_sq (hc (k.val - ic.toNat))
    · show (if swap then S.offset.map fun o i => -o i else S.offset).getD (fun _ => 0) i = _
      cases swap with
      | false => simp [labelSign]
      | true => cases S.offset <;> simp [labelSign]
  have htemp : ∀ (i : Fin n) (e : ℝ), S'.link.inverseDerivative (labelSign swap * e) * (S'.sw i * S'.family.unitDevianceDerivative (S'.y i) (S'.link.inverse S'.e50 (labelSign swap * e)))
      = labelSign swap * (S.link.inverseDerivative e * (S.sw i * S.family.unitDevianceDerivative (S.y i) (S.link.inverse S.e50 e))) := by
    intro i e
    cases swap with
    | false => simp [hS', labelSign]
    | true =>
      obtain ⟨h1, h2, h3⟩ := hs rfl
      have hi : Link.inverse S.e50 .logit (-e) = 1 - Link.inverse S.e50 .logit e := by
        simp only [Link.inverse, clip50, clip, expit_neg]
        rcases le_total (expit e) S.e50 with a1 | a1
        · rw [max_eq_left (by linarith), min_eq_right (by linarith), max_eq_right a1, min_eq_left (by linarith)]
        · rcases le_total (expit e) (1 - S.e50) with a2 | a2
          · rw [max_eq_left (by linarith), min_eq_left (by linarith), max_eq_left a1, min_eq_left a2]
          · rw [max_eq_right (by linarith), min_eq_left (by linarith), max_eq_left a1, min_eq_right a2]
            ring
      simp only [hS', labelSign, if_true, neg_one_mul, h1, h2, hi, Link.inverseDerivative, expit_neg, Family.unitDevianceDerivative, Family.unitVariance]
      have : (1 - Link.inverse S.e50 .logit e) * (1 - (1 - Link.inverse S.e50 .logit e)) = Link.inverse S.e50 .logit e * (1 - Link.inverse S.e50 .logit e) := by ring
      rw [this]
      ring
  have hfg : ∀ coef : Fin (p + ic.toNat) → ℝ, ∀ j, featureGradient S' (fun k => signs p ic c swap k * coef k) j = featureGradient S coef j := by
    intro coef j
    unfold featureGradient
    rw [abs_mul, abs_mul]
    congr 1
    by_cases hj : j < p
    · have f1 := feat_eq (ic := ic) (muDevianceDerivative S' (fun k => signs p ic c swap k * coef k)).2 ⟨j, hj⟩
      have f2 := feat_eq (ic := ic) (muDevianceDerivative S coef).2 ⟨j, hj⟩
      simp only at f1 f2
      rw [f1, f2]
      unfold muDevianceDerivative
      simp only [Nat.add_sub_cancel]
      rw [if_neg (by simp), if_neg (by simp)]
      simp only [hlin, htemp]
      have : ∀ i, X' i j = c j * S.X i j := fun i => hX i j
      have e : ∑ i, labelSign swap * (S.link.inverseDerivative (safeLinPred ic S.X coef S.offset i) * (S.sw i * S.family.unitDevianceDerivative (S.y i)
            (S.link.inverse S.e50 (safeLinPred ic S.X coef S.offset i)))) * S'.X i j
          = (labelSign swap * c j) * ∑ i, S.link.inverseDerivative (safeLinPred ic S.X coef S.offset i) * (S.sw i * S.family.unitDevianceDerivative (S.y i)
            (S.link.inverse S.e50 (safeLinPred ic S.X coef S.offset i))) * S.X i j := by
        rw [Finset.mul_sum]
        refine Finset.sum_congr rfl fun i _ => ?_
        show _ * X' i j = _
        rw [hX]; ring
      rw [e, mul_assoc, sign_abs (labelSign_cases swap), sign_abs (hc j)]
    · unfold feat
      rw [dif_neg (by omega), dif_neg (by omega)]
  have ham : ∀ coef : Fin (p + ic.toNat) → ℝ, alphaMax S' P1 (fun k => signs p ic c swap k * coef k) = alphaMax S P1 coef := by
    intro coef
    have : featureGradient S' (fun k => signs p ic c swap k * coef k) = featureGradient S coef := funext (hfg coef)
    unfold alphaMax rawAlphaMax
    rw [this]
  unfold alphaPath
  rw [hpc]
  cases pathCoef S with
  | none => rfl
  | some v =>
    simp only [Option.map_some, Option.bind_eq_bind, Option.bind_some, ham]

/-- The paths of two mirrored problems. -/
theorem path_mirror {τ : ℝ} {s a : Fin (p + ic.toNat) → ℝ} (next : (ℕ → BitVec 32) → ℕ → (ℕ → BitVec 32)) (inner : (ℕ → BitVec 32) → (m : ℕ) → Inner m p ic)
    {D' D : IRLSData n p ic} (hP1 : D'.P1 = D.P1)
    (hM : ∀ P1x x, Mirror τ s a (D'.withPen P1x (D'.P2.smul x)) (D.withPen P1x (D.P2.smul x)))
    (hin : ∀ seeds P1x x, MirrorInner τ s a (D'.withPen P1x (D'.P2.smul x)) (D.withPen P1x (D.P2.smul x)) (inner seeds n) (inner seeds n))
    (means' means stds : ℕ → ℝ) (A' A : Option (ℕ → ℕ → ℝ)) (start : Fin (p + ic.toNat) → ℝ) (al : List ℝ) (sg : SolverLog) :
    Prepared.path { means := means', stds := stds, D := D', A := A', start := mirrored s a start } (irlsSolver next inner) al sg
      = ((Prepared.path { means := means, stds := stds, D := D, A := A, start := start } (irlsSolver next inner) al sg).1,
         (Prepared.path { means := means, stds := stds, D := D, A := A, start := start } (irlsSolver next inner) al sg).2.map (mirrored s a)) := by
  unfold Prepared.path
  simp only
  rw [hP1]
  generalize D.P1 = P1
  induction al generalizing sg start with
  | nil => rfl
  | cons x al ih =>
    have hrun := mir_run (hM (fun j => P1 j * x) x) (hin sg.seeds (fun j => P1 j * x) x) start
    have hone : ∀ st : Fin (p + ic.toNat) → ℝ, Prepared.solveFn { means := means', stds := stds, D := D', A := A', start := mirrored s a st } (irlsSolver next inner)
        = fun sg P1 P2 coef => irlsSolver next inner n (D'.withPen P1 P2) A' sg coef := fun st => rfl
    have htwo : ∀ st : Fin (p + ic.toNat) → ℝ, Prepared.solveFn { means := means, stds := stds, D := D, A := A, start := st } (irlsSolver next inner)
        = fun sg P1 P2 coef => irlsSolver next inner n (D.withPen P1 P2) A sg coef := fun st => rfl
    simp only [hone, htwo] at ih ⊢
    unfold solvePath
    simp only
    have e1 : irlsSolver next inner n (D'.withPen (fun j => P1 j * x) (D'.P2.smul x)) A' sg (mirrored s a start)
        = ((irlsSolver next inner n (D.withPen (fun j => P1 j * x) (D.P2.smul x)) A sg start).1,
          mirrored s a (irlsSolver next inner n (D.withPen (fun j => P1 j * x) (D.P2.smul x)) A sg start).2) := by
      unfold irlsSolver
      simp only [hrun.nIter, hrun.converged, hrun.diagnostics, hrun.coef]
    rw [e1]
    simp only
    rw [ih]
    rfl

end

end Glum
