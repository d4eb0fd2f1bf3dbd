import Verif.Props.CVExact
import Verif.Props.Stability
import Verif.Props.AlphaPath
/-
C134: a cross-validation over a fine enough alpha path does as well as any alpha between the ends of the path.
-/
set_option linter.unusedSectionVars false
set_option linter.unusedVariables false
set_option linter.unusedSimpArgs false

namespace Glum
open Spec Topology

variable {N n m p : ℕ} {ic : Bool}

/-! ### Specification -/

/-- For every split `i`, l1 ratio `l` and every alpha between `lo l` and `M l`: the problem on the training rows is convex and penalised as in C90, `B0 i l a` and `B i l a` solve it and
predict the test rows without clipping. -/
structure Spec.ExactCurves (C : FitCfg p ic) (stats : Stats) (R : Rows N) (splits : List (List (Fin N) × List (Fin N))) (l1s : List ℝ) (lo M : ℕ → ℝ)
    (B0 : ℕ → ℕ → ℝ → ℝ) (B : ℕ → ℕ → ℝ → ℕ → ℝ) : Prop where
  convex : ∀ l (hl : l < l1s.length), ConvexFit C R l1s[l]
  stds : ∀ i (hi : i < splits.length) j, 0 ≤ (stats _ (R.fold splits[i].1).X (R.fold splits[i].1).sw).2 j
  range : ∀ l < l1s.length, 0 < lo l ∧ lo l < M l
  penalised : ∀ i l a (hi : i < splits.length) (hl : l < l1s.length), a ∈ Set.Icc (lo l) (M l) → RegularFit C (R.fold splits[i].1) l1s[l] a
  solution : ∀ i l a (hi : i < splits.length) (hl : l < l1s.length), a ∈ Set.Icc (lo l) (M l) →
    Solves p ic C.lb C.ub (fitObjective p C.e50 C.family C.link (R.fold splits[i].1)
      (penScale C.thr C.asIfScaled (stats _ (R.fold splits[i].1).X (R.fold splits[i].1).sw).2) C.P1a C.P2a a l1s[l]) (B0 i l a) (B i l a)
  regular : ∀ i l a (hi : i < splits.length) (hl : l < l1s.length), a ∈ Set.Icc (lo l) (M l) → RegularOn C (R.fold splits[i].2) (B0 i l a) (B i l a)

/-- The mean over the splits of the deviances of the exact solutions at l1 ratio `l` and alpha `a` on the test rows. -/
noncomputable def Spec.curveLoss (C : FitCfg p ic) (R : Rows N) (splits : List (List (Fin N) × List (Fin N))) (B0 : ℕ → ℕ → ℝ → ℝ) (B : ℕ → ℕ → ℝ → ℕ → ℝ) (l : ℕ) (a : ℝ) : ℝ :=
  (∑ i : Fin splits.length, devianceOn C (R.fold splits[i].2) (B0 i l a) (B i l a)) / splits.length

/-- Per l1 ratio `K` alphas from `M l` down to `lo l`, evenly spaced on the log scale. -/
structure Spec.GeometricGrids (L : ℕ) (lo M : ℕ → ℝ) (K : ℕ) (alphass : List (List ℝ)) : Prop where
  length : alphass.length = L
  rect : ∀ al ∈ alphass, al.length = K
  value : ∀ l k (hl : l < alphass.length) (hk : k < alphass[l].length), alphass[l][k] = M l * (lo l / M l) ^ ((k : ℝ) / ((K : ℝ) - 1))

/-! ### Grids -/

/-- A continuous function on `[lo, M]` is approximated on a fine enough geometric grid. -/
theorem grid_dense (f : ℝ → ℝ) (lo M : ℝ) (h0 : 0 < lo) (hM : lo < M) (hf : ContinuousOn f (Set.Icc lo M)) (ε : ℝ) (hε : 0 < ε) :
    ∃ K0 : ℕ, 2 ≤ K0 ∧ ∀ K ≥ K0, ∀ a ∈ Set.Icc lo M, ∃ k < K, |f (M * (lo / M) ^ ((k : ℝ) / ((K : ℝ) - 1))) - f a| < ε := by
  have hM0 : 0 < M := h0.trans hM
  have hq : 0 < lo / M := div_pos h0 hM0
  have hq1 : lo / M < 1 := (div_lt_one hM0).2 hM
  have hmem : ∀ t ∈ Set.Icc (0 : ℝ) 1, M * (lo / M) ^ t ∈ Set.Icc lo M := by
    intro t ht
    constructor
    · have : (lo / M) ^ (1 : ℝ) ≤ (lo / M) ^ t := Real.rpow_le_rpow_of_exponent_ge hq hq1.le ht.2
      rw [Real.rpow_one] at this
      calc lo = M * (lo / M) := by field_simp
        _ ≤ _ := mul_le_mul_of_nonneg_left this hM0.le
    · exact mul_le_of_le_one_right hM0.le (Real.rpow_le_one hq.le hq1.le ht.1)
  have hg : ContinuousOn (fun t : ℝ => f (M * (lo / M) ^ t)) (Set.Icc 0 1) :=
    hf.comp (continuous_const.mul (Real.continuous_const_rpow hq.ne')).continuousOn hmem
  have hu := isCompact_Icc.uniformContinuousOn_of_continuous hg
  rw [Metric.uniformContinuousOn_iff] at hu
  obtain ⟨ω, hω, hu⟩ := hu ε hε
  obtain ⟨K1, hK1⟩ := exists_nat_gt (1 / ω)
  refine ⟨K1 + 2, by omega, fun K hK a ha => ?_⟩
  have hKr : (K1 : ℝ) + 1 ≤ (K : ℝ) - 1 := by
    have : ((K1 + 2 : ℕ) : ℝ) ≤ K := by exact_mod_cast hK
    push_cast at this; linarith
  have hK1' : (0 : ℝ) ≤ K1 := Nat.cast_nonneg _
  have hd : 0 < (K : ℝ) - 1 := by linarith
  set t := Real.log (a / M) / Real.log (lo / M) with ht
  have hlog : Real.log (lo / M) < 0 := Real.log_neg hq hq1
  have ha0 : 0 < a := h0.trans_le ha.1
  have ht0 : 0 ≤ t := div_nonneg_of_nonpos (Real.log_nonpos (div_pos ha0 hM0).le ((div_le_one hM0).2 ha.2)) hlog.le
  have ht1 : t ≤ 1 := by
    rw [ht, div_le_one_of_neg hlog]
    exact Real.log_le_log hq (div_le_div_of_nonneg_right ha.1 hM0.le)
  have hat : M * (lo / M) ^ t = a := by
    rw [Real.rpow_def_of_pos hq, ht, mul_div_cancel₀ _ hlog.ne, Real.exp_log (div_pos ha0 hM0), mul_div_cancel₀ _ hM0.ne']
  set k := ⌊t * ((K : ℝ) - 1)⌋₊ with hk
  have hkle : (k : ℝ) ≤ t * ((K : ℝ) - 1) := Nat.floor_le (mul_nonneg ht0 hd.le)
  have hklt : t * ((K : ℝ) - 1) < k + 1 := Nat.lt_floor_add_one _
  have hk1 : (k : ℝ) ≤ (K : ℝ) - 1 := hkle.trans (mul_le_of_le_one_left hd.le ht1)
  refine ⟨k, ?_, ?_⟩
  · have : (k : ℝ) < K := by linarith
    exact_mod_cast this
  · have h1 : (k : ℝ) / ((K : ℝ) - 1) ∈ Set.Icc (0 : ℝ) 1 := ⟨div_nonneg (Nat.cast_nonneg _) hd.le, (div_le_one hd).2 hk1⟩
    have h2 : dist ((k : ℝ) / ((K : ℝ) - 1)) t < ω := by
      rw [Real.dist_eq, abs_lt]
      have e1 : (k : ℝ) / ((K : ℝ) - 1) ≤ t := (div_le_iff₀ hd).2 hkle
      have e2 : t < ((k : ℝ) + 1) / ((K : ℝ) - 1) := (lt_div_iff₀ hd).2 hklt
      have e3 : 1 / ((K : ℝ) - 1) < ω := by
        rw [div_lt_iff₀ hd]
        rw [div_lt_iff₀ hω] at hK1
        nlinarith
      rw [add_div] at e2
      exact ⟨by linarith, by linarith⟩
    have := hu _ h1 t ⟨ht0, ht1⟩ h2
    rw [Real.dist_eq, hat] at this
    exact this

/-- The loss is a continuous function of alpha. -/
theorem c134_continuous (C : FitCfg p ic) (stats : Stats) (R : Rows N) (splits : List (List (Fin N) × List (Fin N))) (l1s : List ℝ) (lo M : ℕ → ℝ)
    (B0 : ℕ → ℕ → ℝ → ℝ) (B : ℕ → ℕ → ℝ → ℕ → ℝ) (h : ExactCurves C stats R splits l1s lo M B0 B) (l : ℕ) (hl : l < l1s.length) :
    ContinuousOn (curveLoss C R splits B0 B l) (Set.Icc (lo l) (M l)) := by
  unfold curveLoss
  refine ContinuousOn.div_const (continuousOn_finset_sum _ fun i _ => ?_) _
  rw [Metric.continuousOn_iff]
  intro a ha ε hε
  have hc := h.convex l hl
  obtain ⟨η, hη, hdev⟩ := deviance_close C hc.valid (R.fold splits[i].2) (fun t => hc.y _) (convex_not_negative C R _ hc) _ _ (h.regular i l a i.2 hl ha) (ε / 2) (half_pos hε)
  obtain ⟨ρ, hρ, hnear⟩ := c94_alpha_continuous C (R.fold splits[i].1) _ a (convex_fold C R _ hc _) (h.penalised i l a i.2 hl ha)
    (penScale C.thr C.asIfScaled (stats _ (R.fold splits[i].1).X (R.fold splits[i].1).sw).2) (fun j _ => penScale_ne C.thr hc.thr C.asIfScaled _ j) _ _ (h.solution i l a i.2 hl ha) η hη
  refine ⟨ρ, hρ, fun a' ha' hd => ?_⟩
  rw [Real.dist_eq] at hd ⊢
  obtain ⟨g0, g1⟩ := hnear a' ((h.range l hl).1.le.trans ha'.1) hd.le _ _ (h.solution i l a' i.2 hl ha')
  have := hdev (B0 i l a') (B i l a') ⟨g0, g1⟩
  linarith

/-! ### Cross-validation -/

theorem Spec.GeometricGrids.mem {L : ℕ} {lo M : ℕ → ℝ} {K : ℕ} {alphass : List (List ℝ)} (g : GeometricGrids L lo M K alphass) (hK : 2 ≤ K) (l k : ℕ) (hl : l < alphass.length)
    (hr : 0 < lo l ∧ lo l < M l) (hk : k < alphass[l].length) : alphass[l][k] ∈ Set.Icc (lo l) (M l) := by
  have hM0 : 0 < M l := hr.1.trans hr.2
  have hq : 0 < lo l / M l := div_pos hr.1 hM0
  have hq1 : lo l / M l < 1 := (div_lt_one hM0).2 hr.2
  have hkK : k < K := by rw [← g.rect _ (List.getElem_mem hl)]; exact hk
  have hKr : (2 : ℝ) ≤ K := by exact_mod_cast hK
  have hk1 : (k : ℝ) ≤ (K : ℝ) - 1 := by
    have : ((k + 1 : ℕ) : ℝ) ≤ K := by exact_mod_cast hkK
    push_cast at this; linarith
  have hd : 0 < (K : ℝ) - 1 := by linarith
  have ht0 : 0 ≤ (k : ℝ) / ((K : ℝ) - 1) := div_nonneg (Nat.cast_nonneg _) hd.le
  have ht1 : (k : ℝ) / ((K : ℝ) - 1) ≤ 1 := (div_le_one hd).2 hk1
  rw [g.value l k hl hk]
  constructor
  · have : (lo l / M l) ^ (1 : ℝ) ≤ (lo l / M l) ^ ((k : ℝ) / ((K : ℝ) - 1)) := Real.rpow_le_rpow_of_exponent_ge hq hq1.le ht1
    rw [Real.rpow_one] at this
    calc lo l = M l * (lo l / M l) := by field_simp
      _ ≤ _ := mul_le_mul_of_nonneg_left this hM0.le
  · exact mul_le_of_le_one_right hM0.le (Real.rpow_le_one hq.le hq1.le ht0)

/-- On a grid the exact curves are exact folds. -/
theorem curves_folds (C : FitCfg p ic) (stats : Stats) (R : Rows N) (splits : List (List (Fin N) × List (Fin N))) (l1s : List ℝ) (lo M : ℕ → ℝ)
    (B0 : ℕ → ℕ → ℝ → ℝ) (B : ℕ → ℕ → ℝ → ℕ → ℝ) (h : ExactCurves C stats R splits l1s lo M B0 B) (K : ℕ) (hK : 2 ≤ K) (alphass : List (List ℝ))
    (g : GeometricGrids l1s.length lo M K alphass) :
    ExactFolds C stats R splits l1s alphass (fun i l k => B0 i l (M l * (lo l / M l) ^ ((k : ℝ) / ((K : ℝ) - 1)))) fun i l k => B i l (M l * (lo l / M l) ^ ((k : ℝ) / ((K : ℝ) - 1))) := by
  refine ⟨h.convex, h.stds, fun i l k hi hl hl' hk => ?_, fun i l k hi hl hl' hk => ?_⟩
  · have hm := g.mem hK l k hl' (h.range l hl) hk
    simp only [← g.value l k hl' hk]
    exact ⟨h.solution i l _ hi hl hm, Or.inl (h.penalised i l _ hi hl hm)⟩
  · have hm := g.mem hK l k hl' (h.range l hl) hk
    simp only [← g.value l k hl' hk]
    exact h.regular i l _ hi hl hm

/-- **C134.** For every `ε` there is a number of alphas from which on every quiet cross-validation with a small enough tolerance, on grids evenly spaced on the log scale, selects an l1
ratio and an alpha whose exact out-of-fold deviance is within `ε` of the least over all l1 ratios and all alphas between the ends. -/
theorem c134_fine_grids (C : FitCfg p ic) (stats : Stats) (R : Rows N) (splits : List (List (Fin N) × List (Fin N))) (l1s : List ℝ) (lo M : ℕ → ℝ)
    (B0 : ℕ → ℕ → ℝ → ℝ) (B : ℕ → ℕ → ℝ → ℕ → ℝ) (h : ExactCurves C stats R splits l1s lo M B0 B) (ε : ℝ) (hε : 0 < ε) :
    ∃ K0 : ℕ, ∀ K ≥ K0, ∀ alphass, GeometricGrids l1s.length lo M K alphass → ∃ δ : ℝ, 0 < δ ∧ EveryCV C stats R splits l1s alphass δ fun r =>
      ∃ l, l < l1s.length ∧ l1s[l]? = some r.l1 ∧ r.alpha ∈ Set.Icc (lo l) (M l) ∧
        ∀ l' < l1s.length, ∀ a ∈ Set.Icc (lo l') (M l'), curveLoss C R splits B0 B l r.alpha ≤ curveLoss C R splits B0 B l' a + ε := by
  have each : ∀ l : Fin l1s.length, ∃ K0 : ℕ, 2 ≤ K0 ∧ ∀ K ≥ K0, ∀ a ∈ Set.Icc (lo l) (M l), ∃ k < K,
      |curveLoss C R splits B0 B l (M l * (lo l / M l) ^ ((k : ℝ) / ((K : ℝ) - 1))) - curveLoss C R splits B0 B l a| < ε := fun l =>
    grid_dense _ _ _ (h.range l l.2).1 (h.range l l.2).2 (c134_continuous C stats R splits l1s lo M B0 B h l l.2) ε hε
  choose k0 hk2 hk using each
  refine ⟨(Finset.univ.sup k0) + 2, fun K hK alphass g => ?_⟩
  have hKl : ∀ l, k0 l ≤ K := fun l => (Finset.le_sup (f := k0) (Finset.mem_univ l)).trans (by omega)
  have hK2 : 2 ≤ K := by omega
  obtain ⟨δ, hδ, hsel⟩ := c133_selects C stats R splits l1s alphass g.length _ _ (curves_folds C stats R splits l1s lo M B0 B h K hK2 alphass g) K g.rect
  refine ⟨δ, hδ, fun next inner C' S st arrived s s' r q => ?_⟩
  obtain ⟨l, k, hl, hkK, h1, h2, hb⟩ := hsel next inner C' S st arrived s s' r q
  have hl' : l < alphass.length := by rw [g.length]; exact hl
  have hk' : k < alphass[l].length := by rw [g.rect _ (List.getElem_mem hl')]; exact hkK
  have ha : r.alpha = alphass[l][k] := by
    rw [List.getElem?_eq_getElem hl', Option.bind_some, List.getElem?_eq_getElem hk'] at h2
    exact (Option.some.inj h2).symm
  refine ⟨l, hl, h1, by rw [ha]; exact g.mem hK2 l k hl' (h.range l hl) hk', fun l' hl2 a ha' => ?_⟩
  obtain ⟨k', hk3, hclose⟩ := hk ⟨l', hl2⟩ K (hKl _) a ha'
  have hbest : curveLoss C R splits B0 B l (M l * (lo l / M l) ^ ((k : ℝ) / ((K : ℝ) - 1)))
      ≤ curveLoss C R splits B0 B l' (M l' * (lo l' / M l') ^ ((k' : ℝ) / ((K : ℝ) - 1))) := hb l' k' hl2 hk3
  have h3 := (abs_lt.1 hclose).2
  rw [ha, g.value l k hl' hk']
  show _ ≤ _
  linarith

/-! ### The computed paths -/

/-- What `alphaPath` starts from. -/
theorem path_top (D : SmoothData n p ic) (P1 : ℕ → ℝ) (minAlpha minRatio : Option ℝ) (hr : minAlpha = none → ∀ r, minRatio = some r → r < 1) :
    ∃ M : ℝ, ∀ (K : ℕ) (l : List ℝ), alphaPath D P1 K minAlpha minRatio = some l →
      0 < smallestAlpha n p minAlpha minRatio M ∧ smallestAlpha n p minAlpha minRatio M < M ∧ l.length = K ∧
        ∀ k (hk : k < l.length), l[k] = M * (smallestAlpha n p minAlpha minRatio M / M) ^ ((k : ℝ) / ((K : ℝ) - 1)) := by
  by_cases hex : ∃ M, (pathCoef D).bind (alphaMax D P1) = some M
  · obtain ⟨M, hM⟩ := hex
    refine ⟨M, fun K l h => ?_⟩
    obtain ⟨coef, hc, hm⟩ := Option.bind_eq_some_iff.1 hM
    unfold alphaPath at h
    rw [hc] at h
    simp only [Option.bind_eq_bind, Option.bind_some] at h
    rw [hm] at h
    simp only [Option.bind_some] at h
    have hM0 := alphaMax_pos D P1 coef M hm
    unfold makeGrid at h
    cases hg : gridMin n p minAlpha minRatio M with
    | none => rw [hg] at h; simp at h
    | some lo =>
      rw [hg] at h
      simp only [Option.bind_eq_bind, Option.bind_some] at h
      split at h
      · simp at h
      rename_i hlo
      rw [not_le] at hlo
      obtain rfl := Option.some.inj h
      have hsm : lo = smallestAlpha n p minAlpha minRatio M ∧ lo < M := by
        unfold gridMin at hg
        unfold smallestAlpha
        cases minAlpha with
        | none =>
          cases minRatio with
          | none =>
            obtain rfl := Option.some.inj hg
            simp only [Option.getD_none, ge_iff_le]
            constructor
            · congr 1
              split <;> norm_num
            · split <;> linarith
          | some r =>
            obtain rfl := Option.some.inj hg
            exact ⟨rfl, by nlinarith [hr rfl r rfl]⟩
        | some m =>
          simp only at hg
          split at hg
          · cases hg
          · next hlt =>
            obtain rfl := Option.some.inj hg
            exact ⟨rfl, not_le.1 hlt⟩
      rw [← hsm.1]
      exact ⟨hlo, hsm.2, by simp [logspace, linspace], fun k hk => logspace_get M lo hM0 hlo K k hk⟩
  · refine ⟨0, fun K l h => ?_⟩
    exfalso
    unfold alphaPath at h
    simp only [Option.bind_eq_bind, Option.bind_eq_some_iff] at h
    obtain ⟨coef, hc, M, hm, -⟩ := h
    exact hex ⟨M, by rw [hc]; exact hm⟩

/-- **C134, computed paths.** The paths cross-validation computes are evenly spaced on the log scale between ends that do not depend on `n_alphas`. -/
theorem c134_computed_paths (C : FitCfg p ic) (stats : Stats) (R : Rows N) (l1s : List ℝ) (minAlpha minRatio : Option ℝ)
    (hr : minAlpha = none → ∀ r, minRatio = some r → r < 1) :
    ∃ M : ℕ → ℝ, ∀ (K : ℕ) (alphass : List (List ℝ)), cvAlphas C stats R l1s none K minAlpha minRatio = some alphass →
      GeometricGrids l1s.length (fun l => smallestAlpha N p minAlpha minRatio (M l)) M K alphass ∧
        ∀ l < l1s.length, 0 < smallestAlpha N p minAlpha minRatio (M l) ∧ smallestAlpha N p minAlpha minRatio (M l) < M l := by
  have one : ∀ l1 : ℝ, ∃ M : ℝ, ∀ (K : ℕ) (l : List ℝ), (do
      let P1 ← setupP1 p 1 l1 C.P1a
      let P2 ← setupP2 p C.xsp 1 l1 C.P2a
      let ms := stats N R.X R.sw
      let D := stdData C.thr C.asIfScaled ms.1 ms.2 (C.problem R P1 P2)
      alphaPath (p := p) (ic := ic)
        { X := D.X, y := D.y, sw := D.sw, P2 := D.P2, family := C.family, link := C.link, offset := D.offset, e50 := C.e50 }
        D.P1 K minAlpha minRatio) = some l →
      0 < smallestAlpha N p minAlpha minRatio M ∧ smallestAlpha N p minAlpha minRatio M < M ∧ l.length = K ∧
        ∀ k (hk : k < l.length), l[k] = M * (smallestAlpha N p minAlpha minRatio M / M) ^ ((k : ℝ) / ((K : ℝ) - 1)) := by
    intro l1
    cases h1 : setupP1 p 1 l1 C.P1a with
    | none => exact ⟨0, fun K l h => by simp at h⟩
    | some P1 =>
      cases h2 : setupP2 p C.xsp 1 l1 C.P2a with
      | none => exact ⟨0, fun K l h => by simp at h⟩
      | some P2 =>
        obtain ⟨M, hM⟩ := path_top (ic := ic)
          { X := (stdData C.thr C.asIfScaled (stats N R.X R.sw).1 (stats N R.X R.sw).2 (C.problem R P1 P2)).X
            y := (stdData C.thr C.asIfScaled (stats N R.X R.sw).1 (stats N R.X R.sw).2 (C.problem R P1 P2)).y
            sw := (stdData C.thr C.asIfScaled (stats N R.X R.sw).1 (stats N R.X R.sw).2 (C.problem R P1 P2)).sw
            P2 := (stdData C.thr C.asIfScaled (stats N R.X R.sw).1 (stats N R.X R.sw).2 (C.problem R P1 P2)).P2
            family := C.family, link := C.link
            offset := (stdData C.thr C.asIfScaled (stats N R.X R.sw).1 (stats N R.X R.sw).2 (C.problem R P1 P2)).offset, e50 := C.e50 }
          (stdData C.thr C.asIfScaled (stats N R.X R.sw).1 (stats N R.X R.sw).2 (C.problem R P1 P2)).P1 minAlpha minRatio hr
        exact ⟨M, fun K l h => hM K l h⟩
  choose T hT using one
  refine ⟨fun l => T (l1s.getD l 0), fun K alphass h => ?_⟩
  unfold cvAlphas at h
  rw [mapM_forall2, List.forall₂_iff_get] at h
  obtain ⟨hlen, hget⟩ := h
  have key : ∀ l (hl : l < l1s.length) (hl' : l < alphass.length), _ := fun l hl hl' => hT l1s[l] K alphass[l] (hget l hl hl')
  have hD : ∀ l (hl : l < l1s.length), l1s.getD l 0 = l1s[l] := fun l hl => by simp [List.getD_eq_getElem?_getD, hl]
  refine ⟨⟨hlen.symm, fun al hal => ?_, fun l k hl hk => ?_⟩, fun l hl => ?_⟩
  · obtain ⟨l, hl, rfl⟩ := List.getElem_of_mem hal
    exact (key l (by omega) hl).2.2.1
  · simp only [hD l (by omega)]
    exact (key l (by omega) hl).2.2.2 k hk
  · simp only [hD l hl]
    exact ⟨(key l hl (by omega)).1, (key l hl (by omega)).2.1⟩

/-- **C134, more alphas.** With `alphas=None`: from some `n_alphas` on, the selection is within `ε` of the least exact out-of-fold deviance over all alphas between `alpha_max` and the smallest
alpha, none of which depends on `n_alphas`. -/
theorem c134_more_alphas (C : FitCfg p ic) (stats : Stats) (R : Rows N) (splits : List (List (Fin N) × List (Fin N))) (l1s : List ℝ) (minAlpha minRatio : Option ℝ)
    (hr : minAlpha = none → ∀ r, minRatio = some r → r < 1) :
    ∃ M : ℕ → ℝ, ∀ (B0 : ℕ → ℕ → ℝ → ℝ) (B : ℕ → ℕ → ℝ → ℕ → ℝ), ExactCurves C stats R splits l1s (fun l => smallestAlpha N p minAlpha minRatio (M l)) M B0 B → ∀ ε : ℝ, 0 < ε →
      ∃ K0 : ℕ, ∀ K ≥ K0, ∀ alphass, cvAlphas C stats R l1s none K minAlpha minRatio = some alphass →
        (∀ l < l1s.length, alphass[l]?.bind (·[0]?) = some (M l)) ∧ ∃ δ : ℝ, 0 < δ ∧ EveryCV C stats R splits l1s alphass δ fun r =>
          ∃ l, l < l1s.length ∧ l1s[l]? = some r.l1 ∧ r.alpha ∈ Set.Icc (smallestAlpha N p minAlpha minRatio (M l)) (M l) ∧
            ∀ l' < l1s.length, ∀ a ∈ Set.Icc (smallestAlpha N p minAlpha minRatio (M l')) (M l'), curveLoss C R splits B0 B l r.alpha ≤ curveLoss C R splits B0 B l' a + ε := by
  obtain ⟨M, hM⟩ := c134_computed_paths C stats R l1s minAlpha minRatio hr
  refine ⟨M, fun B0 B h ε hε => ?_⟩
  obtain ⟨K0, hK0⟩ := c134_fine_grids C stats R splits l1s _ M B0 B h ε hε
  refine ⟨K0 + 1, fun K hK alphass ha => ?_⟩
  obtain ⟨g, hrange⟩ := hM K alphass ha
  refine ⟨fun l hl => ?_, hK0 K (by omega) alphass g⟩
  have hl' : l < alphass.length := by rw [g.length]; exact hl
  have hk : 0 < alphass[l].length := by rw [g.rect _ (List.getElem_mem hl')]; omega
  rw [List.getElem?_eq_getElem hl', Option.bind_some, List.getElem?_eq_getElem hk, g.value l 0 hl' hk]
  simp

/-! ### The hypotheses are met -/

/-- Ridge regression on the two rows: the slope for alpha `a` is `1 / (1 + a)`. -/
theorem curve_solution (a : ℝ) (ha : 0 < a) : Solves 1 true none none (fitObjective 1 0 .normal .identity tinyRows (fun _ => 1) .none .none a 0) 2 fun _ => 1 / (1 + a) := by
  have hz : ∀ (b0 : ℝ) (b : ℕ → ℝ), fitObjective 1 0 .normal .identity tinyRows (fun _ => 1) .none .none a 0 b0 b
      = 1 / 2 * (b0 - 2) ^ 2 + (1 + a) / 2 * (b 0 - 1 / (1 + a)) ^ 2 + a / (2 * (1 + a)) := by
    intro b0 b
    have ht : ∀ e, trueMean 0 .normal .identity e = e := fun _ => rfl
    have hd : ∀ y m, Family.unitDeviance .normal y m = (y - m) ^ 2 := fun _ _ => rfl
    unfold fitObjective
    simp [ht, hd, userP2, tinyRows, Fin.sum_univ_two]
    have : 1 + a ≠ 0 := by linarith
    field_simp
    ring
  refine ⟨(fun h => by cases h), fun j _ => ⟨(fun l hl => by cases hl), (fun u hu => by cases hu)⟩, fun c0 c _ _ => ?_⟩
  rw [hz, hz]
  have : 0 ≤ (1 + a) / 2 * (c 0 - 1 / (1 + a)) ^ 2 := mul_nonneg (by linarith) (sq_nonneg _)
  nlinarith [sq_nonneg (c0 - 2)]

theorem curve_exact : ExactCurves (tinyCfg 5 5) tinyStats tinyRows pairSplits [0] (fun _ => 1) (fun _ => 2) (fun _ _ _ => 2) fun _ _ a _ => 1 / (1 + a) := by
  have e1 : ∀ l (hl : l < ([0] : List ℝ).length), ([0] : List ℝ)[l] = 0 := fun l hl => by simp at hl; subst hl; rfl
  have e2 : ∀ i (hi : i < pairSplits.length), pairSplits[i].1 = [0, 1] := fun i hi => by simp [pairSplits] at hi; interval_cases i <;> rfl
  refine ⟨fun l hl => ?_, fun i hi j => zero_le_one, fun l hl => by norm_num, fun i l a hi hl ha => ?_, fun i l a hi hl ha => ?_, fun i l a hi hl ha t => ⟨trivial, trivial, trivial⟩⟩
  · rw [e1 l hl]; exact tiny_convex 5 5
  · rw [e1 l hl, e2 i hi, pair_fold]
    exact tiny_regular a (by linarith [ha.1])
  · have key := curve_solution a (by linarith [ha.1])
    rw [e1 l hl, e2 i hi, pair_fold]
    exact key

/-- Three alphas between 2 and 1. -/
example : ∃ al : List ℝ, GeometricGrids 1 (fun _ => 1) (fun _ => 2) 3 [al] ∧ al[0]? = some 2 ∧ al[2]? = some 1 :=
  ⟨logspace (Real.log 2) (Real.log 1) 3, ⟨rfl, fun al h => by rw [List.mem_singleton.1 h]; simp [logspace, linspace], fun l k hl hk => by
      have : l = 0 := by simpa using hl
      subst this
      exact logspace_get 2 1 two_pos one_pos 3 k hk⟩, by simp [logspace, linspace, List.range_succ, Real.exp_log], by
      simp [logspace, linspace, List.range_succ]
      norm_num
      ring⟩

end Glum
