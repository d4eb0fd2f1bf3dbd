import Verif.Props.Target
/-
C113: when a best fit exists, and what happens on data where it does not (separation).
-/
set_option linter.unusedSectionVars false
set_option linter.unusedVariables false
set_option linter.unusedSimpArgs false

namespace Glum
open Spec Topology Filter

section Abstract

variable {E : Type*} [NormedAddCommGroup E] [NormedSpace ℝ E] [FiniteDimensional ℝ E]

/-- A convex function has a minimum on a closed convex set if one can step back from far away along every direction in which it does not grow. -/
theorem exists_min_of_retreat (F : E → ℝ) (hF : ConvexOn ℝ Set.univ F) (K : Set E) (hK : IsClosed K) (hKc : Convex ℝ K) (x0 : E) (hx0 : x0 ∈ K)
    (hret : ∀ v : E, ‖v‖ = 1 → (∀ t : ℝ, 0 ≤ t → x0 + t • v ∈ K ∧ F (x0 + t • v) ≤ F x0) →
      ∃ ε : ℝ, 0 < ε ∧ ∃ k0 : ℝ, ∀ k : ℝ, k0 ≤ k → ∀ b ∈ K, ‖b - k • v‖ ≤ k * ε → b - (k / 2) • v ∈ K ∧ F (b - (k / 2) • v) ≤ F b) :
    ∃ z ∈ K, ∀ x ∈ K, F z ≤ F x := by
  have hcont : Continuous F := continuousOn_univ.1 (hF.continuousOn isOpen_univ)
  by_contra hno
  push Not at hno
  have hstep : ∀ k : ℝ, ‖x0‖ ≤ k → ∃ b ∈ K, ‖b‖ = k ∧ F b ≤ F x0 ∧ ∀ x ∈ K, F x ≤ F b → k ≤ ‖x‖ := by
    intro k hk
    have hcomp : IsCompact (K ∩ Metric.closedBall 0 k) := (isCompact_closedBall 0 k).inter_left hK
    obtain ⟨m, hm, hmin⟩ := hcomp.exists_isMinOn ⟨x0, hx0, by simpa using hk⟩ hcont.continuousOn
    have hcomp2 : IsCompact (K ∩ Metric.closedBall 0 k ∩ {x | F x ≤ F m}) := hcomp.inter_right (isClosed_le hcont continuous_const)
    obtain ⟨b, ⟨hb, hbm⟩, hbmin⟩ := hcomp2.exists_isMinOn ⟨m, hm, le_refl (F m)⟩ continuous_norm.continuousOn
    have hbk : ‖b‖ ≤ k := by simpa using hb.2
    have hball : ∀ x ∈ K, ‖x‖ ≤ k → F b ≤ F x := fun x hx hxk => le_trans hbm (hmin ⟨hx, by simpa using hxk⟩)
    have hbeq : ‖b‖ = k := by
      by_contra hne
      have hlt : ‖b‖ < k := lt_of_le_of_ne hbk hne
      obtain ⟨y, hy, hyb⟩ := hno b hb.1
      -- a short step towards `y`
      obtain ⟨t, ht0, ht1, htk⟩ : ∃ t : ℝ, 0 < t ∧ t ≤ 1 ∧ t * ‖y - b‖ ≤ k - ‖b‖ := by
        refine ⟨min 1 ((k - ‖b‖) / (‖y - b‖ + 1)), lt_min one_pos (div_pos (by linarith) (by positivity)), min_le_left _ _, ?_⟩
        have h1 : min 1 ((k - ‖b‖) / (‖y - b‖ + 1)) ≤ (k - ‖b‖) / (‖y - b‖ + 1) := min_le_right _ _
        have h2 : (k - ‖b‖) / (‖y - b‖ + 1) * (‖y - b‖ + 1) = k - ‖b‖ := div_mul_cancel₀ _ (by positivity)
        have h3 : 0 ≤ (k - ‖b‖) / (‖y - b‖ + 1) := div_nonneg (by linarith) (by positivity)
        nlinarith [norm_nonneg (y - b), mul_le_mul_of_nonneg_right h1 (norm_nonneg (y - b))]
      have hp : (1 - t) • b + t • y ∈ K := hKc hb.1 hy (by linarith) ht0.le (by ring)
      have hpn : ‖(1 - t) • b + t • y‖ ≤ k := by
        have e : (1 - t) • b + t • y = b + t • (y - b) := by rw [sub_smul, one_smul, smul_sub]; abel
        rw [e]
        refine (norm_add_le _ _).trans ?_
        rw [norm_smul, Real.norm_of_nonneg ht0.le]; linarith
      have h1 := hball _ hp hpn
      have h2 := hF.2 (Set.mem_univ b) (Set.mem_univ y) (show 0 ≤ 1 - t by linarith) ht0.le (by ring)
      simp only [smul_eq_mul] at h2
      nlinarith
    refine ⟨b, hb.1, hbeq, hball x0 hx0 hk, fun x hx hxb => ?_⟩
    by_contra hlt
    push Not at hlt
    have : ‖b‖ ≤ ‖x‖ := hbmin ⟨⟨hx, by simpa using hlt.le⟩, hxb.trans hbm⟩
    linarith
  choose! b hbK hbn hbF hbmin using hstep
  -- the directions
  obtain ⟨N, hN⟩ : ∃ N : ℕ, ‖x0‖ ≤ N := exists_nat_ge _
  have hkk : ∀ i : ℕ, ‖x0‖ ≤ ((N + 1 + i : ℕ) : ℝ) := fun i => hN.trans (by push_cast; linarith [Nat.cast_nonneg (α := ℝ) i])
  have hkp : ∀ i : ℕ, 0 < ((N + 1 + i : ℕ) : ℝ) := fun i => by positivity
  set κ : ℕ → ℝ := fun i => ((N + 1 + i : ℕ) : ℝ) with hκ
  have hsph : ∀ i, (κ i)⁻¹ • b (κ i) ∈ Metric.sphere (0 : E) 1 := by
    intro i
    rw [mem_sphere_zero_iff_norm, norm_smul, hbn _ (hkk i), norm_inv, Real.norm_of_nonneg (hkp i).le]
    exact inv_mul_cancel₀ (hkp i).ne'
  obtain ⟨v, hv, φ, hφ, hlim⟩ := (isCompact_sphere (0 : E) 1).tendsto_subseq hsph
  have hvn : ‖v‖ = 1 := mem_sphere_zero_iff_norm.1 hv
  have hκt : Tendsto (fun i => κ (φ i)) atTop atTop := by
    have h1 : Tendsto (fun i : ℕ => ((i : ℕ) : ℝ)) atTop atTop := tendsto_natCast_atTop_atTop
    refine tendsto_atTop_mono (fun i => ?_) (h1.comp hφ.tendsto_atTop)
    simp only [hκ, Function.comp]
    exact_mod_cast by omega
  have hrec : ∀ t : ℝ, 0 ≤ t → x0 + t • v ∈ K ∧ F (x0 + t • v) ≤ F x0 := by
    intro t ht
    have hlt : Tendsto (fun i => (1 - t * (κ (φ i))⁻¹) • x0 + (t * (κ (φ i))⁻¹) • b (κ (φ i))) atTop (𝓝 (x0 + t • v)) := by
      have h0 : Tendsto (fun i => t * (κ (φ i))⁻¹) atTop (𝓝 0) := by
        have := (tendsto_inv_atTop_zero.comp hκt).const_mul t
        simpa using this
      have h1 : Tendsto (fun i => (1 - t * (κ (φ i))⁻¹) • x0) atTop (𝓝 ((1 - 0 : ℝ) • x0)) := (tendsto_const_nhds.sub h0).smul_const x0
      have h2 := hlim.const_smul t
      have h3 := h1.add h2
      simp only [sub_zero, one_smul] at h3
      refine h3.congr fun i => ?_
      simp only [Function.comp, smul_smul]
    have hev : ∀ᶠ i in atTop, t ≤ κ (φ i) := hκt.eventually_ge_atTop t
    have hmem : ∀ᶠ i in atTop, (1 - t * (κ (φ i))⁻¹) • x0 + (t * (κ (φ i))⁻¹) • b (κ (φ i)) ∈ K ∧
        F ((1 - t * (κ (φ i))⁻¹) • x0 + (t * (κ (φ i))⁻¹) • b (κ (φ i))) ≤ F x0 := by
      filter_upwards [hev] with i hi
      have hp := hkp (φ i)
      have h1 : 0 ≤ t * (κ (φ i))⁻¹ := mul_nonneg ht (inv_nonneg.2 hp.le)
      have h2 : t * (κ (φ i))⁻¹ ≤ 1 := by rw [← div_eq_mul_inv]; exact (div_le_one hp).2 hi
      refine ⟨hKc hx0 (hbK _ (hkk _)) (by linarith) h1 (by ring), ?_⟩
      have h3 := hF.2 (Set.mem_univ x0) (Set.mem_univ (b (κ (φ i)))) (show 0 ≤ 1 - t * (κ (φ i))⁻¹ by linarith) h1 (by ring)
      simp only [smul_eq_mul] at h3
      have := mul_le_mul_of_nonneg_left (hbF _ (hkk (φ i))) h1
      simp only [hκ] at *
      nlinarith
    refine ⟨hK.mem_of_tendsto hlt (hmem.mono fun i h => h.1), ?_⟩
    exact le_of_tendsto ((hcont.tendsto _).comp hlt) (hmem.mono fun i h => h.2)
  obtain ⟨ε, hε, k0, hk0⟩ := hret v hvn hrec
  have hclose : ∀ᶠ i in atTop, ‖(κ (φ i))⁻¹ • b (κ (φ i)) - v‖ < min ε (1 / 2) := by
    have := (Metric.tendsto_nhds.1 hlim) (min ε (1 / 2)) (lt_min hε (by norm_num))
    simpa [dist_eq_norm, Function.comp] using this
  obtain ⟨i, hi1, hi2⟩ := (hclose.and (hκt.eventually_ge_atTop k0)).exists
  have hp := hkp (φ i)
  have hnorm : ‖b (κ (φ i)) - κ (φ i) • v‖ ≤ κ (φ i) * min ε (1 / 2) := by
    have e : b (κ (φ i)) - κ (φ i) • v = κ (φ i) • ((κ (φ i))⁻¹ • b (κ (φ i)) - v) := by
      rw [smul_sub, smul_smul, mul_inv_cancel₀ hp.ne', one_smul]
    rw [e, norm_smul, Real.norm_of_nonneg hp.le]
    exact mul_le_mul_of_nonneg_left hi1.le hp.le
  obtain ⟨h1, h2⟩ := hk0 _ hi2 _ (hbK _ (hkk (φ i))) (hnorm.trans (mul_le_mul_of_nonneg_left (min_le_left _ _) hp.le))
  have h3 := hbmin _ (hkk (φ i)) _ h1 h2
  have h4 : ‖b (κ (φ i)) - (κ (φ i) / 2) • v‖ ≤ κ (φ i) / 2 + κ (φ i) / 4 := by
    have e : b (κ (φ i)) - (κ (φ i) / 2) • v = (1 / 2 : ℝ) • b (κ (φ i)) + (1 / 2 : ℝ) • (b (κ (φ i)) - κ (φ i) • v) := by
      rw [smul_sub, smul_smul]
      have : b (κ (φ i)) = (1 / 2 : ℝ) • b (κ (φ i)) + (1 / 2 : ℝ) • b (κ (φ i)) := by rw [← add_smul]; norm_num
      nth_rewrite 1 [this]
      rw [show (1 / 2 : ℝ) * κ (φ i) = κ (φ i) / 2 by ring]; abel
    rw [e]
    refine (norm_add_le _ _).trans ?_
    rw [norm_smul, norm_smul, hbn _ (hkk (φ i))]
    have h5 : ‖b (κ (φ i)) - κ (φ i) • v‖ ≤ κ (φ i) * (1 / 2) := hnorm.trans (mul_le_mul_of_nonneg_left (min_le_right _ _) hp.le)
    rw [Real.norm_of_nonneg (by norm_num)]
    simp only [hκ] at *
    linarith
  simp only [hκ] at *
  linarith

end Abstract

/-! ### The loss of one row -/

variable {n p : ℕ} {ic : Bool}

theorem rowLoss_deriv (C : FitCfg p ic) (R : Rows n) (l1r : ℝ) (h : ConvexFit C R l1r) (k : Fast) (hk : C.family.fast C.link = some k) (i : Fin n) (e : ℝ) :
    HasDerivAt (rowLoss C R i) (-2 * k.grad (R.y i) (R.sw i) (k.mu e)) e := by
  have := fast_dev_hasDeriv h.valid hk (R.y i) (R.sw i) e (h.y i)
  obtain ⟨c, hc⟩ := rowFam_dev C.e50 C.family h.valid C.link (R.y i) (h.y i)
  have e1 : rowLoss C R i = fun e => R.sw i * k.dev (R.y i) e + R.sw i * c := by
    funext x
    have := hc x
    unfold rowFam at this
    rw [hk] at this
    simp only [fastRow] at this
    unfold rowLoss
    rw [this]; ring
  rw [e1]
  exact this.add_const _

/-- The gradient row has the sign of `y - mu`. -/
theorem fast_grad_neg {f : Family} (hf : Valid f) {l : Link} {k : Fast} (h : f.fast l = some k) (y w e : ℝ) (hw : 0 < w) (hy : y < k.mu e)
    (hne : k ≠ .invGaussianLog) : k.grad y w (k.mu e) < 0 := by
  have hpos := Real.exp_pos e
  rcases fast_cases h with ⟨rfl, rfl, _⟩ | ⟨rfl, rfl, _⟩ | ⟨rfl, rfl, _⟩ | ⟨rfl, rfl, _⟩ | ⟨q, rfl, rfl, rfl, h1, h2⟩ | ⟨rfl, rfl, rfl⟩ | ⟨t, rfl, rfl, rfl⟩
  · simp only [Fast.grad] at *; nlinarith
  · simp only [Fast.grad] at *; nlinarith
  · simp only [Fast.grad, Fast.mu] at *
    have : y / Real.exp e < 1 := (div_lt_one hpos).2 hy
    nlinarith
  · exact absurd rfl hne
  · simp only [Fast.grad, Fast.mu] at *
    have := Real.rpow_pos_of_pos hpos (1 - q)
    have := mul_pos hw this
    nlinarith
  · simp only [Fast.grad] at *; nlinarith
  · have ht : 0 < t := hf
    simp only [Fast.grad, Fast.mu] at *
    exact div_neg_of_neg_of_pos (by nlinarith) (by positivity)

theorem fast_grad_zero {f : Family} {l : Link} {k : Fast} (h : f.fast l = some k) (y w : ℝ) (hy : y ≠ 0 ∨ l ≠ .log) (hne : k ≠ .invGaussianLog) :
    k.grad y w y = 0 := by
  rcases fast_cases h with ⟨rfl, rfl, _⟩ | ⟨rfl, rfl, _⟩ | ⟨rfl, rfl, _⟩ | ⟨rfl, rfl, _⟩ | ⟨q, rfl, rfl, rfl, h1, h2⟩ | ⟨rfl, rfl, rfl⟩ | ⟨t, rfl, rfl, rfl⟩
  · simp [Fast.grad]
  · simp [Fast.grad]
  · rcases hy with hy | hy
    · simp [Fast.grad, hy]
    · exact absurd rfl hy
  · exact absurd rfl hne
  · simp [Fast.grad]
  · simp [Fast.grad]
  · simp [Fast.grad]

/-- The response is at the lower end of the range of means: a larger linear predictor always fits worse. -/
def Spec.AtBottom (l : Link) (y : ℝ) : Prop := l ≠ .identity ∧ y = 0

/-- The response is at the upper end of the range of means: a smaller linear predictor always fits worse. -/
def Spec.AtTop (f : Family) (y : ℝ) : Prop := f = .binomial ∧ y = 1

/-- The loss of a row with positive weight has a strict minimum, or is strictly monotone because the response is an end of the range of means. -/
theorem rowLoss_shape (C : FitCfg p ic) (R : Rows n) (l1r : ℝ) (h : ConvexFit C R l1r) (i : Fin n) (hw : 0 < R.sw i) :
    (¬ AtBottom C.link (R.y i) ∧ ¬ AtTop C.family (R.y i) ∧ ∃ g, ∀ t, t ≠ g → rowLoss C R i g < rowLoss C R i t) ∨
    (AtBottom C.link (R.y i) ∧ ¬ AtTop C.family (R.y i) ∧ StrictMono (rowLoss C R i)) ∨
    (¬ AtBottom C.link (R.y i) ∧ AtTop C.family (R.y i) ∧ StrictAnti (rowLoss C R i)) := by
  obtain ⟨k, hk, hne⟩ := h.pair
  have hd := rowLoss_deriv C R l1r h k hk i
  have hcont := rowLoss_continuous C R l1r h i
  have hder : deriv (rowLoss C R i) = fun e => -2 * k.grad (R.y i) (R.sw i) (k.mu e) := funext fun e => (hd e).deriv
  have hmono : StrictMono (deriv (rowLoss C R i)) := by
    rw [hder]
    refine strictMono_of_deriv_pos fun e => ?_
    rw [((fast_grad_hasDeriv h.valid hk (R.y i) (R.sw i) e).const_mul (-2)).deriv]
    have := trueCurvature_pos h.valid hk hne (R.y i) (R.sw i) e hw (h.y i)
    linarith
  -- an attainable response gives a strict minimum
  have hint : (R.y i ≠ 0 ∨ C.link ≠ .log) → (∃ g, k.mu g = R.y i) → ∃ g, ∀ t, t ≠ g → rowLoss C R i g < rowLoss C R i t := by
    rintro hy ⟨g, hg⟩
    have h0 : deriv (rowLoss C R i) g = 0 := by
      rw [hder]; simp only []; rw [hg, fast_grad_zero hk _ _ hy hne, mul_zero]
    refine ⟨g, fun t ht => ?_⟩
    rcases lt_or_gt_of_ne ht with hlt | hgt
    · refine strictAntiOn_of_deriv_neg (convex_Iic g) hcont.continuousOn (fun x hx => ?_) hlt.le (Set.mem_Iic.2 le_rfl) hlt
      rw [interior_Iic] at hx
      rw [← h0]; exact hmono hx
    · refine strictMonoOn_of_deriv_pos (convex_Ici g) hcont.continuousOn (fun x hx => ?_) (Set.mem_Ici.2 le_rfl) hgt.le hgt
      rw [interior_Ici] at hx
      rw [← h0]; exact hmono hx
  have hbot : (∀ e, R.y i < k.mu e) → StrictMono (rowLoss C R i) := by
    intro hlt
    refine strictMono_of_deriv_pos fun e => ?_
    rw [hder]
    have := fast_grad_neg h.valid hk (R.y i) (R.sw i) e hw (hlt e) hne
    simp only []
    linarith
  have hy := h.y i
  have hlog : C.link = .log → C.family ≠ .binomial → (∀ e, k.mu e = Real.exp e) → 0 ≤ R.y i →
      (¬ AtBottom C.link (R.y i) ∧ ¬ AtTop C.family (R.y i) ∧ ∃ g, ∀ t, t ≠ g → rowLoss C R i g < rowLoss C R i t) ∨
      (AtBottom C.link (R.y i) ∧ ¬ AtTop C.family (R.y i) ∧ StrictMono (rowLoss C R i)) ∨
      (¬ AtBottom C.link (R.y i) ∧ AtTop C.family (R.y i) ∧ StrictAnti (rowLoss C R i)) := by
    intro hl hb hmu hy0
    rcases hy0.eq_or_lt with h0 | h0
    · refine Or.inr (Or.inl ⟨⟨by rw [hl]; simp, h0.symm⟩, fun ht => hb ht.1, hbot fun e => ?_⟩)
      rw [hmu, ← h0]; exact Real.exp_pos e
    · refine Or.inl ⟨fun hb => h0.ne' hb.2, fun ht => hb ht.1, hint (Or.inl h0.ne') ⟨Real.log (R.y i), ?_⟩⟩
      rw [hmu, Real.exp_log h0]
  rcases fast_cases hk with ⟨rfl, hl, hf⟩ | ⟨rfl, hl, hf⟩ | ⟨rfl, hl, hf⟩ | ⟨rfl, hl, hf⟩ | ⟨q, rfl, hl, hf, h1, h2⟩ | ⟨rfl, hl, hf⟩ | ⟨t, rfl, hl, hf⟩
  · refine Or.inl ⟨fun hb => hb.1 hl, fun ht => ?_, hint (Or.inr (by rw [hl]; simp)) ⟨R.y i, rfl⟩⟩
    rcases hf with hf | hf <;> (rw [hf] at ht; cases ht.1)
  · refine hlog hl (by rcases hf with hf | hf <;> (rw [hf]; simp)) (fun e => rfl) ?_
    rcases hf with hf | hf <;> rw [hf] at hy
    · exact hy
    · rcases hy with hy | hy | hy
      · norm_num at hy
      · exact hy.2
      · exact hy.le
  · refine hlog hl (by rcases hf with hf | hf <;> (rw [hf]; simp)) (fun e => rfl) ?_
    rcases hf with hf | hf <;> rw [hf] at hy
    · exact le_of_lt hy
    · rcases hy with hy | hy | hy
      · norm_num at hy
      · norm_num at hy
      · exact hy.le
  · exact absurd rfl hne
  · refine hlog hl (by rw [hf]; simp) (fun e => rfl) ?_
    rw [hf] at hy
    rcases hy with hy | hy | hy
    · linarith
    · exact hy.2
    · exact hy.le
  · rw [hf] at hy
    have hy' : 0 ≤ R.y i ∧ R.y i ≤ 1 := hy
    rcases hy'.1.eq_or_lt with h0 | h0
    · refine Or.inr (Or.inl ⟨⟨by rw [hl]; simp, h0.symm⟩, fun ht => ?_, hbot fun e => ?_⟩)
      · rw [ht.2] at h0; norm_num at h0
      · rw [fast_mu_logit, ← h0]; exact expit_pos e
    · rcases hy'.2.eq_or_lt with h1 | h1
      · refine Or.inr (Or.inr ⟨fun hb => h0.ne' hb.2, ⟨hf, h1⟩, strictAnti_of_deriv_neg fun e => ?_⟩)
        rw [hder]
        simp only [Fast.grad, fast_mu_logit, h1]
        have := expit_lt_one e
        have := mul_pos hw (sub_pos.2 this)
        linarith
      · refine Or.inl ⟨fun hb => h0.ne' hb.2, fun ht => h1.ne ht.2, hint (Or.inl h0.ne') ⟨Real.log (R.y i / (1 - R.y i)), ?_⟩⟩
        rw [fast_mu_logit, expit_logit h0 h1]
  · refine hlog hl (by rw [hf]; simp) (fun e => rfl) ?_
    rw [hf] at hy
    exact hy

/-- A strictly increasing convex function is unbounded. -/
theorem convex_mono_unbounded (f : ℝ → ℝ) (hf : ConvexOn ℝ Set.univ f) (hm : StrictMono f) (B e c : ℝ) (hc : 0 < c) : ∃ t : ℝ, 0 ≤ t ∧ B < f (e + t * c) := by
  have hd : 0 < f (e + c) - f e := by have := hm (show e < e + c by linarith); linarith
  -- the chord from `e` over `e + c`
  have hch : ∀ t : ℝ, 1 ≤ t → f e + t * (f (e + c) - f e) ≤ f (e + t * c) := by
    intro t ht
    have ht0 : 0 < t := by linarith
    have h1 := hf.2 (Set.mem_univ e) (Set.mem_univ (e + t * c)) (show 0 ≤ 1 - 1 / t by rw [sub_nonneg]; exact (div_le_one ht0).2 ht)
      (show 0 ≤ 1 / t by positivity) (by ring)
    have e1 : (1 - 1 / t) • e + (1 / t) • (e + t * c) = e + c := by simp only [smul_eq_mul]; field_simp; ring
    rw [e1] at h1
    simp only [smul_eq_mul] at h1
    have h2 := mul_le_mul_of_nonneg_left h1 ht0.le
    have e2 : t * ((1 - 1 / t) * f e + 1 / t * f (e + t * c)) = (t - 1) * f e + f (e + t * c) := by field_simp
    rw [e2] at h2
    linarith
  obtain ⟨N, hN⟩ := exists_nat_gt ((B - f e) / (f (e + c) - f e))
  refine ⟨max 1 (N : ℝ), le_trans zero_le_one (le_max_left _ _), lt_of_lt_of_le ?_ (hch _ (le_max_left _ _))⟩
  have h1 : (B - f e) / (f (e + c) - f e) < max 1 (N : ℝ) := lt_of_lt_of_le hN (le_max_right _ _)
  rw [div_lt_iff₀ hd] at h1
  linarith

/-- Along a ray on which the loss of a row stays bounded the linear predictor stands still or runs away on the side the response allows. -/
theorem rowLoss_bounded_ray (C : FitCfg p ic) (R : Rows n) (l1r : ℝ) (h : ConvexFit C R l1r) (i : Fin n) (hw : 0 < R.sw i) (e c B : ℝ)
    (hB : ∀ t : ℝ, 0 ≤ t → rowLoss C R i (e + t * c) ≤ B) :
    c = 0 ∨ (0 < c ∧ AtTop C.family (R.y i)) ∨ (c < 0 ∧ AtBottom C.link (R.y i)) := by
  have hcx := rowLoss_convex C R l1r h i
  rcases rowLoss_shape C R l1r h i hw with ⟨-, -, g, hg⟩ | ⟨hb, -, hm⟩ | ⟨-, ht, hm⟩
  · left
    by_contra hc
    obtain ⟨r, hr⟩ := line_coercive _ hcx g hg B
    have hcp : 0 < |c| := abs_pos.2 hc
    have hr0 : 0 ≤ r := (abs_nonneg _).trans (hr _ (hB 0 le_rfl))
    have h1 := hr _ (hB ((r + |e| + 1) / |c|) (by positivity))
    have h2 : |(r + |e| + 1) / |c| * c| = r + |e| + 1 := by
      rw [abs_mul, abs_div, abs_abs, div_mul_cancel₀ _ hcp.ne', abs_of_nonneg (by positivity)]
    have h3 := abs_sub_abs_le_abs_sub ((r + |e| + 1) / |c| * c) (-e)
    rw [abs_neg, sub_neg_eq_add, h2, add_comm _ e] at h3
    linarith
  · rcases lt_trichotomy c 0 with hc | hc | hc
    · exact Or.inr (Or.inr ⟨hc, hb⟩)
    · exact Or.inl hc
    · obtain ⟨t, ht0, ht⟩ := convex_mono_unbounded _ hcx hm B e c hc
      exact absurd (hB t ht0) (not_le.2 ht)
  · rcases lt_trichotomy c 0 with hc | hc | hc
    · have hcx' : ConvexOn ℝ Set.univ fun x => rowLoss C R i (-x) := by
        have := hcx.comp_linearMap (-LinearMap.id : ℝ →ₗ[ℝ] ℝ)
        simpa [Function.comp_def] using this
      have hm' : StrictMono fun x => rowLoss C R i (-x) := fun a b hab => hm (by linarith)
      obtain ⟨t, ht0, ht'⟩ := convex_mono_unbounded _ hcx' hm' B (-e) (-c) (by linarith)
      have := hB t ht0
      rw [show -(-e + t * -c) = e + t * c by ring] at ht'
      exact absurd this (not_le.2 ht')
    · exact Or.inl hc
    · exact Or.inr (Or.inl ⟨hc, ht⟩)

/-! ### C113: the criterion -/

/-- The change of the linear predictor of row `i` when the intercept moves by `d0` and the coefficients by `d`. -/
noncomputable def Spec.rowShift (p : ℕ) (R : Rows n) (i : Fin n) (d0 : ℝ) (d : ℕ → ℝ) : ℝ := ∑ j : Fin p, R.X i j * d j + d0

/-- A direction `(d0, d)` in which the fit improves forever: the bounds allow it, the penalty does not notice it, it moves the linear predictor of no
row away from its response — upwards only for successes of the binomial family, downwards only for responses 0 with a log or logit link — and it moves
some row.  For binomial data without penalty this is complete or quasi-complete separation. -/
structure Spec.Separates (C : FitCfg p ic) (R : Rows n) (s : ℕ → ℝ) (a l1r : ℝ) (d0 : ℝ) (d : ℕ → ℝ) : Prop where
  intercept : ic = false → d0 = 0
  lower : C.lb ≠ none → ∀ j < p, 0 ≤ d j
  upper : C.ub ≠ none → ∀ j < p, d j ≤ 0
  l1 : a * l1r ≠ 0 → ∀ j < p, userP1 C.P1a j = 0 ∨ d j = 0
  ridge : a * (1 - l1r) ≠ 0 → ∑ j : Fin p, ∑ k : Fin p, userP2 C.P2a j k * (d j * s j) * (d k * s k) = 0
  rows : ∀ i, 0 < R.sw i → rowShift p R i d0 d = 0 ∨ (0 < rowShift p R i d0 d ∧ AtTop C.family (R.y i)) ∨
    (rowShift p R i d0 d < 0 ∧ AtBottom C.link (R.y i))
  moves : ∃ i, 0 < R.sw i ∧ rowShift p R i d0 d ≠ 0

theorem predAt_line (R : Rows n) (i : Fin n) (x v : ℝ × (Fin p → ℝ)) (t : ℝ) :
    predAt R i (x + t • v) = predAt R i x + t * rowShift p R i v.1 (extend v.2) := by
  unfold predAt rowShift
  simp only [Prod.fst_add, Prod.snd_add, Prod.smul_fst, Prod.smul_snd, Pi.add_apply, Pi.smul_apply, smul_eq_mul, mul_add, Finset.sum_add_distrib,
    Finset.mul_sum, extend_fin]
  have e : ∑ j : Fin p, R.X i j * (t * v.2 j) = ∑ j : Fin p, t * (R.X i j * v.2 j) := Finset.sum_congr rfl fun j _ => by ring
  rw [e]; ring

theorem ridgeForm_line (C : FitCfg p ic) (s : ℕ → ℝ) (x v : Fin p → ℝ) (t : ℝ) :
    ridgeForm C s (x + t • v) = ridgeForm C s x + t * (ridgeForm C s (x + v) - ridgeForm C s x - ridgeForm C s v) + t ^ 2 * ridgeForm C s v := by
  unfold ridgeForm
  simp only [Finset.mul_sum, ← Finset.sum_add_distrib, ← Finset.sum_sub_distrib, Pi.add_apply, Pi.smul_apply, smul_eq_mul]
  refine Finset.sum_congr rfl fun j _ => Finset.sum_congr rfl fun k _ => ?_
  ring

theorem ridgeForm_flat (C : FitCfg p ic) (s : ℕ → ℝ) (hp : ∀ v : Fin p → ℝ, 0 ≤ ∑ j : Fin p, ∑ k : Fin p, userP2 C.P2a j k * v j * v k) (x v : Fin p → ℝ)
    (hv : ridgeForm C s v = 0) (t : ℝ) : ridgeForm C s (x + t • v) = ridgeForm C s x := by
  have h0 : ∀ t : ℝ, 0 ≤ ridgeForm C s (x + t • v) := fun t => hp fun j => (x + t • v) j * s j
  have hl := ridgeForm_line C s x v
  rw [hv] at hl
  obtain ⟨L, hL⟩ : ∃ L, L = ridgeForm C s (x + v) - ridgeForm C s x - 0 := ⟨_, rfl⟩
  rw [← hL] at hl
  have hL0 : L = 0 := by
    by_contra hne
    have := h0 (-(ridgeForm C s x + 1) / L)
    rw [hl, div_mul_cancel₀ _ hne] at this
    linarith
  rw [hl, hL0]; ring

/-- A bounded quadratic does not grow. -/
theorem quad_bounded (A L q B : ℝ) (hq : 0 ≤ q) (h : ∀ t : ℝ, 0 ≤ t → A + t * L + t ^ 2 * q ≤ B) : q = 0 := by
  by_contra hne
  have hq' : 0 < q := lt_of_le_of_ne hq (Ne.symm hne)
  have h1 := h ((|A| + |L| + |B| + 1) / q + 1) (by positivity)
  obtain ⟨t, ht⟩ : ∃ t, t = (|A| + |L| + |B| + 1) / q + 1 := ⟨_, rfl⟩
  rw [← ht] at h1
  have h2 : t * q = |A| + |L| + |B| + 1 + q := by rw [ht]; field_simp
  have ht1 : 1 ≤ t := by
    rw [ht]
    have : 0 ≤ (|A| + |L| + |B| + 1) / q := by positivity
    linarith
  have e : A + t * L + t ^ 2 * q = A + t * (L + t * q) := by ring
  rw [e, h2] at h1
  have h3 : |B| + |A| + 1 ≤ L + (|A| + |L| + |B| + 1 + q) := by linarith [neg_abs_le L]
  have h4 : |B| + |A| + 1 ≤ t * (L + (|A| + |L| + |B| + 1 + q)) := by
    have h5 : 0 ≤ L + (|A| + |L| + |B| + 1 + q) := by linarith [abs_nonneg A, abs_nonneg B]
    nlinarith
  linarith [neg_abs_le A, le_abs_self B]

theorem abs_ray_bounded (x v c B : ℝ) (hc : 0 < c) (h : ∀ t : ℝ, 0 ≤ t → c * |x + t * v| ≤ B) : v = 0 := by
  by_contra hne
  have hv := abs_pos.2 hne
  have hB : 0 ≤ B := (mul_nonneg hc.le (abs_nonneg _)).trans (h 0 le_rfl)
  have h1 := h ((B / c + |x| + 1) / |v|) (by positivity)
  have h2 : |(B / c + |x| + 1) / |v| * v| = B / c + |x| + 1 := by
    rw [abs_mul, abs_div, abs_abs, div_mul_cancel₀ _ hv.ne', abs_of_nonneg (by positivity)]
  have h3 := abs_sub_abs_le_abs_sub ((B / c + |x| + 1) / |v| * v) (-x)
  rw [abs_neg, sub_neg_eq_add, h2, add_comm _ x] at h3
  have h4 : B / c + 1 ≤ |x + (B / c + |x| + 1) / |v| * v| := by linarith
  have h5 := mul_le_mul_of_nonneg_left h4 hc.le
  have h6 : c * (B / c + 1) = B + c := by field_simp
  linarith

/-- What the recession direction found by the compactness argument does. -/
theorem ray_facts (C : FitCfg p ic) (R : Rows n) (l1r a : ℝ) (h : ConvexFit C R l1r) (ha : 0 ≤ a) (s : ℕ → ℝ) (hs : ∀ j < p, s j ≠ 0)
    (x0 v : ℝ × (Fin p → ℝ)) (hx0 : x0 ∈ feasible C)
    (hray : ∀ t : ℝ, 0 ≤ t → x0 + t • v ∈ feasible C ∧ objAt C R s a l1r (x0 + t • v) ≤ objAt C R s a l1r x0) :
    (ic = false → v.1 = 0) ∧ (C.lb ≠ none → ∀ j, 0 ≤ v.2 j) ∧ (C.ub ≠ none → ∀ j, v.2 j ≤ 0) ∧
    (a * l1r ≠ 0 → ∀ j : Fin p, userP1 C.P1a j = 0 ∨ v.2 j = 0) ∧ (a * (1 - l1r) ≠ 0 → ridgeForm C s v.2 = 0) ∧
    ∀ i, 0 < R.sw i → rowShift p R i v.1 (extend v.2) = 0 ∨ (0 < rowShift p R i v.1 (extend v.2) ∧ AtTop C.family (R.y i)) ∨
      (rowShift p R i v.1 (extend v.2) < 0 ∧ AtBottom C.link (R.y i)) := by
  have hl1 : 0 ≤ a * l1r := mul_nonneg ha h.l1.1
  have hl2 : 0 ≤ a * (1 - l1r) := mul_nonneg ha (by linarith [h.l1.2])
  -- each part of the objective is bounded
  have hparts : ∀ t : ℝ, 0 ≤ t → ∀ F, F = objAt C R s a l1r x0 →
      (∀ i, rowLoss C R i (predAt R i x0 + t * rowShift p R i v.1 (extend v.2)) ≤ 2 * F) ∧
      (∀ j : Fin p, a * l1r * (userP1 C.P1a j * |(x0.2 j + t * v.2 j) * s j|) ≤ F) ∧
      a * (1 - l1r) * (1 / 2 * ridgeForm C s (x0.2 + t • v.2)) ≤ F := by
    intro t ht F hF
    have h1 := (hray t ht).2
    rw [← hF, objAt_eq] at h1
    have e1 : ∀ i, predAt R i (x0 + t • v) = predAt R i x0 + t * rowShift p R i v.1 (extend v.2) := fun i => predAt_line R i x0 v t
    have e2 : (x0 + t • v).2 = x0.2 + t • v.2 := rfl
    have e3 : ∀ j, (x0 + t • v).2 j = x0.2 j + t * v.2 j := fun j => rfl
    simp only [e1, e3] at h1
    rw [e2] at h1
    have n1 : ∀ i, 0 ≤ rowLoss C R i (predAt R i x0 + t * rowShift p R i v.1 (extend v.2)) := fun i => rowLoss_nonneg C R l1r h i _
    have n2 : ∀ j : Fin p, 0 ≤ userP1 C.P1a j * |(x0.2 j + t * v.2 j) * s j| := fun j => mul_nonneg (h.p1 j) (abs_nonneg _)
    have n3 : 0 ≤ a * (1 - l1r) * (1 / 2 * ridgeForm C s (x0.2 + t • v.2)) :=
      mul_nonneg hl2 (mul_nonneg (by norm_num) (h.p2 fun j => (x0.2 + t • v.2) j * s j))
    have s1 : 0 ≤ ∑ i, rowLoss C R i (predAt R i x0 + t * rowShift p R i v.1 (extend v.2)) := Finset.sum_nonneg fun i _ => n1 i
    have s2 : 0 ≤ a * l1r * ∑ j : Fin p, userP1 C.P1a j * |(x0.2 j + t * v.2 j) * s j| := mul_nonneg hl1 (Finset.sum_nonneg fun j _ => n2 j)
    refine ⟨fun i => ?_, fun j => ?_, by linarith⟩
    · have := Finset.single_le_sum (f := fun i => rowLoss C R i (predAt R i x0 + t * rowShift p R i v.1 (extend v.2))) (fun i _ => n1 i) (Finset.mem_univ i)
      linarith
    · have := Finset.single_le_sum (f := fun j : Fin p => userP1 C.P1a j * |(x0.2 j + t * v.2 j) * s j|) (fun j _ => n2 j) (Finset.mem_univ j)
      have := mul_le_mul_of_nonneg_left this hl1
      linarith
  have hline : ∀ (l x w : ℝ), (∀ t : ℝ, 0 ≤ t → l ≤ x + t * w) → 0 ≤ w := by
    intro l x w hw
    by_contra hn
    push Not at hn
    have h1 := hw ((|x| + |l| + 1) / (-w)) (div_nonneg (by positivity) (by linarith))
    have h2 : (|x| + |l| + 1) / (-w) * w = -(|x| + |l| + 1) := by
      have hw0 : w ≠ 0 := hn.ne
      rw [div_neg, neg_mul, div_mul_cancel₀ _ hw0]
    rw [h2] at h1
    linarith [le_abs_self x, neg_abs_le l]
  refine ⟨fun hi => ?_, fun hlb j => ?_, fun hub j => ?_, fun hne j => ?_, fun hne => ?_, fun i hw => ?_⟩
  · have h1 := (hray 1 zero_le_one).1.1 hi
    have h2 := hx0.1 hi
    simpa [h2] using h1
  · obtain ⟨l, hl⟩ := Option.ne_none_iff_exists'.1 hlb
    refine hline (l j) (x0.2 j) _ fun t ht => ?_
    exact ((hray t ht).1.2 j).1 l hl
  · obtain ⟨l, hl⟩ := Option.ne_none_iff_exists'.1 hub
    have := hline (-l j) (-x0.2 j) (-v.2 j) fun t ht => ?_
    · linarith
    · have h1 : x0.2 j + t * v.2 j ≤ l j := ((hray t ht).1.2 j).2 l hl
      linarith
  · rcases (h.p1 j).eq_or_lt with h0 | h0
    · exact Or.inl h0.symm
    · right
      refine abs_ray_bounded (x0.2 j) (v.2 j) (a * l1r * (userP1 C.P1a j * |s j|)) (objAt C R s a l1r x0) ?_ fun t ht => ?_
      · exact mul_pos (lt_of_le_of_ne hl1 (Ne.symm hne)) (mul_pos h0 (abs_pos.2 (hs j j.2)))
      · have := (hparts t ht _ rfl).2.1 j
        rw [abs_mul] at this
        linarith
  · have hpos : 0 < a * (1 - l1r) := lt_of_le_of_ne hl2 (Ne.symm hne)
    refine quad_bounded (ridgeForm C s x0.2) (ridgeForm C s (x0.2 + v.2) - ridgeForm C s x0.2 - ridgeForm C s v.2) _
      (2 * objAt C R s a l1r x0 / (a * (1 - l1r))) (h.p2 fun j => v.2 j * s j) fun t ht => ?_
    rw [← ridgeForm_line, le_div_iff₀ hpos]
    have := (hparts t ht _ rfl).2.2
    linarith
  · exact rowLoss_bounded_ray C R l1r h i hw _ _ _ fun t ht => (hparts t ht _ rfl).1 i

/-- The objective does not change along a direction that moves no row and that the penalty does not notice. -/
theorem objAt_flat (C : FitCfg p ic) (R : Rows n) (l1r a : ℝ) (h : ConvexFit C R l1r) (s : ℕ → ℝ) (x v : ℝ × (Fin p → ℝ))
    (hl1 : a * l1r ≠ 0 → ∀ j : Fin p, userP1 C.P1a j = 0 ∨ v.2 j = 0) (hl2 : a * (1 - l1r) ≠ 0 → ridgeForm C s v.2 = 0)
    (t : ℝ) : objAt C R s a l1r (x + t • v) = objAt C R s a l1r x
      + 1 / 2 * ∑ i, (rowLoss C R i (predAt R i x + t * rowShift p R i v.1 (extend v.2)) - rowLoss C R i (predAt R i x)) := by
  rw [objAt_eq, objAt_eq]
  have e2 : (x + t • v).2 = x.2 + t • v.2 := rfl
  have e3 : ∀ j, (x + t • v).2 j = x.2 j + t * v.2 j := fun j => rfl
  have k1 : a * l1r * ∑ j : Fin p, userP1 C.P1a j * |(x + t • v).2 j * s j| = a * l1r * ∑ j : Fin p, userP1 C.P1a j * |x.2 j * s j| := by
    by_cases h0 : a * l1r = 0
    · rw [h0, zero_mul, zero_mul]
    · congr 1
      refine Finset.sum_congr rfl fun j _ => ?_
      rcases hl1 h0 j with h1 | h1
      · rw [h1, zero_mul, zero_mul]
      · rw [e3, h1, mul_zero, add_zero]
  have k2 : a * (1 - l1r) * (1 / 2 * ridgeForm C s (x + t • v).2) = a * (1 - l1r) * (1 / 2 * ridgeForm C s x.2) := by
    by_cases h0 : a * (1 - l1r) = 0
    · rw [h0, zero_mul, zero_mul]
    · rw [e2, ridgeForm_flat C s h.p2 _ _ (hl2 h0)]
  rw [k1, k2, Finset.sum_sub_distrib]
  simp only [predAt_line]
  ring

theorem min_nonzero (v : Fin p → ℝ) : ∃ δ : ℝ, 0 < δ ∧ ∀ j, v j ≠ 0 → δ ≤ |v j| := by
  by_cases hn : ∃ j, v j ≠ 0
  · obtain ⟨j0, hj0⟩ := hn
    obtain ⟨j, hj, hmin⟩ := Finset.exists_min_image (Finset.univ.filter fun j => v j ≠ 0) (fun j => |v j|) ⟨j0, by simp [hj0]⟩
    refine ⟨|v j|, abs_pos.2 (by simpa using hj), fun k hk => hmin k (by simp [hk])⟩
  · push Not at hn
    exact ⟨1, one_pos, fun j hj => absurd (hn j) hj⟩

/-- From far away in direction `v` one can step back half way. -/
theorem feasible_retreat (C : FitCfg p ic) (v : ℝ × (Fin p → ℝ)) (h0 : ic = false → v.1 = 0) (hlb : C.lb ≠ none → ∀ j, 0 ≤ v.2 j)
    (hub : C.ub ≠ none → ∀ j, v.2 j ≤ 0) :
    ∃ ε : ℝ, 0 < ε ∧ ∃ k0 : ℝ, ∀ k : ℝ, k0 ≤ k → ∀ b ∈ feasible C, ‖b - k • v‖ ≤ k * ε → b - (k / 2) • v ∈ feasible C := by
  obtain ⟨δ, hδ, hmin⟩ := min_nonzero v.2
  obtain ⟨M, hM0, hM⟩ : ∃ M : ℝ, 0 ≤ M ∧ ∀ j : Fin p, (∀ l, C.lb = some l → |l j| ≤ M) ∧ ∀ u, C.ub = some u → |u j| ≤ M := by
    refine ⟨∑ j : Fin p, (|(C.lb.getD fun _ => 0) j| + |(C.ub.getD fun _ => 0) j|), Finset.sum_nonneg fun j _ => by positivity, fun j => ?_⟩
    have := Finset.single_le_sum (f := fun j : Fin p => |(C.lb.getD fun _ => 0) j| + |(C.ub.getD fun _ => 0) j|) (fun j _ => by positivity) (Finset.mem_univ j)
    simp only at this
    refine ⟨fun l hl => ?_, fun u hu => ?_⟩
    · simp only [hl, Option.getD_some] at this ⊢; linarith [abs_nonneg ((C.ub.getD fun _ => 0) j)]
    · simp only [hu, Option.getD_some] at this ⊢; linarith [abs_nonneg ((C.lb.getD fun _ => 0) j)]
  refine ⟨δ / 4, by positivity, 4 * M / δ, fun k hk b hb hbk => ?_⟩
  have hk0 : 0 ≤ k := (by positivity : (0:ℝ) ≤ 4 * M / δ).trans hk
  have hkδ : M ≤ k * (δ / 4) := by rw [div_le_iff₀ hδ] at hk; linarith
  have hco : ∀ j, |b.2 j - k * v.2 j| ≤ k * (δ / 4) := fun j =>
    ((norm_le_pi_norm (b - k • v).2 j).trans (norm_snd_le _)).trans hbk
  have e : ∀ j, (b - (k / 2) • v).2 j = b.2 j - k / 2 * v.2 j := fun j => rfl
  refine ⟨fun hi => ?_, fun j => ⟨fun l hl => ?_, fun u hu => ?_⟩⟩
  · have h1 := hb.1 hi
    simp [h1, h0 hi]
  · rw [e]
    by_cases hz : v.2 j = 0
    · rw [hz, mul_zero, sub_zero]; exact (hb.2 j).1 l hl
    · have hp := hlb (by rw [hl]; simp) j
      have h1 := hmin j hz
      rw [abs_of_nonneg hp] at h1
      have h2 := (abs_le.1 (hco j)).1
      have h3 := mul_le_mul_of_nonneg_left h1 hk0
      linarith [le_abs_self (l j), (hM j).1 l hl]
  · rw [e]
    by_cases hz : v.2 j = 0
    · rw [hz, mul_zero, sub_zero]; exact (hb.2 j).2 u hu
    · have hp := hub (by rw [hu]; simp) j
      have h1 := hmin j hz
      rw [abs_of_nonpos hp] at h1
      have h2 := (abs_le.1 (hco j)).2
      have h3 := mul_le_mul_of_nonneg_left h1 hk0
      linarith [neg_abs_le (u j), (hM j).2 u hu]

theorem solves_iff_min (C : FitCfg p ic) (R : Rows n) (l1r a : ℝ) (s : ℕ → ℝ) :
    (∃ (b0 : ℝ) (b : ℕ → ℝ), Solves p ic C.lb C.ub (fitObjective p C.e50 C.family C.link R s C.P1a C.P2a a l1r) b0 b) ↔
      ∃ z ∈ feasible C, ∀ x ∈ feasible C, objAt C R s a l1r z ≤ objAt C R s a l1r x := by
  constructor
  · rintro ⟨b0, b, h0, hb, hmin⟩
    refine ⟨restrict b0 b, restrict_feasible C b0 b h0 hb, fun x hx => ?_⟩
    rw [objAt_restrict]
    exact hmin x.1 (extend x.2) hx.1 (feasible_bounds C x hx)
  · rintro ⟨z, hz, hmin⟩
    refine ⟨z.1, extend z.2, hz.1, feasible_bounds C z hz, fun c0 c h0 hc => ?_⟩
    have := hmin _ (restrict_feasible C c0 c h0 hc)
    rwa [objAt_restrict] at this

theorem rowShift_restrict (R : Rows n) (i : Fin n) (d0 : ℝ) (d : ℕ → ℝ) :
    rowShift p R i (restrict (p := p) d0 d).1 (extend (restrict (p := p) d0 d).2) = rowShift p R i d0 d := by
  unfold rowShift restrict
  simp only [extend_fin]

/-- **C113, the criterion.** A convex problem with a feasible point has a solution exactly when no direction separates the data: the bounds allow it, the
penalty does not notice it, and it moves only rows whose response is an end of the range of means, towards that end. -/
theorem c113_solution_iff (C : FitCfg p ic) (R : Rows n) (l1r a : ℝ) (h : ConvexFit C R l1r) (ha : 0 ≤ a) (hroom : ∃ b, WithinBounds p C.lb C.ub b)
    (stds : ℕ → ℝ) :
    (∃ (b0 : ℝ) (b : ℕ → ℝ),
      Solves p ic C.lb C.ub (fitObjective p C.e50 C.family C.link R (penScale C.thr C.asIfScaled stds) C.P1a C.P2a a l1r) b0 b) ↔
    ¬ ∃ (d0 : ℝ) (d : ℕ → ℝ), Separates C R (penScale C.thr C.asIfScaled stds) a l1r d0 d := by
  have hs : ∀ j < p, penScale C.thr C.asIfScaled stds j ≠ 0 := fun j _ => penScale_ne C.thr h.thr C.asIfScaled stds j
  obtain ⟨s, hsdef⟩ : ∃ s, s = penScale C.thr C.asIfScaled stds := ⟨_, rfl⟩
  rw [← hsdef] at hs ⊢
  rw [solves_iff_min]
  constructor
  · rintro ⟨z, hz, hmin⟩ ⟨d0, d, hd⟩
    obtain ⟨v, hv⟩ : ∃ v : ℝ × (Fin p → ℝ), v = restrict d0 d := ⟨_, rfl⟩
    have hrs : ∀ i, rowShift p R i v.1 (extend v.2) = rowShift p R i d0 d := fun i => by rw [hv]; exact rowShift_restrict R i d0 d
    have hfl := objAt_flat C R l1r a h s z v (fun h1 j => by rw [hv]; exact hd.l1 h1 j j.2) (fun h1 => by rw [hv]; exact hd.ridge h1) 1
    have hfeas : z + (1 : ℝ) • v ∈ feasible C := by
      refine ⟨fun hi => ?_, fun j => ⟨fun l hl => ?_, fun u hu => ?_⟩⟩
      · have h1 := hz.1 hi
        simp [h1, hv, restrict, hd.intercept hi]
      · have h1 := (hz.2 j).1 l hl
        have h2 := hd.lower (by rw [hl]; simp) j j.2
        show l j ≤ z.2 j + 1 * v.2 j
        rw [hv]; simp only [restrict]; linarith
      · have h1 := (hz.2 j).2 u hu
        have h2 := hd.upper (by rw [hu]; simp) j j.2
        show z.2 j + 1 * v.2 j ≤ u j
        rw [hv]; simp only [restrict]; linarith
    have hle := hmin _ hfeas
    rw [hfl] at hle
    have hneg : ∑ i, (rowLoss C R i (predAt R i z + 1 * rowShift p R i v.1 (extend v.2)) - rowLoss C R i (predAt R i z)) < 0 := by
      have hrow : ∀ i, (rowLoss C R i (predAt R i z + 1 * rowShift p R i v.1 (extend v.2)) - rowLoss C R i (predAt R i z) ≤ 0) ∧
          (0 < R.sw i → rowShift p R i d0 d ≠ 0 →
            rowLoss C R i (predAt R i z + 1 * rowShift p R i v.1 (extend v.2)) - rowLoss C R i (predAt R i z) < 0) := by
        intro i
        rw [hrs, one_mul]
        rcases (h.sw i).eq_or_lt with hw | hw
        · refine ⟨?_, fun hw' => absurd hw hw'.ne⟩
          unfold rowLoss; rw [← hw]; simp
        · rcases hd.rows i hw with h0 | ⟨hp, ht⟩ | ⟨hn, hb⟩
          · rw [h0, add_zero, sub_self]; exact ⟨le_rfl, fun _ hc => absurd rfl hc⟩
          · rcases rowLoss_shape C R l1r h i hw with ⟨-, h2, -⟩ | ⟨-, h2, -⟩ | ⟨-, -, hm⟩
            · exact absurd ht h2
            · exact absurd ht h2
            · have := hm (show predAt R i z < predAt R i z + rowShift p R i d0 d by linarith)
              exact ⟨by linarith, fun _ _ => by linarith⟩
          · rcases rowLoss_shape C R l1r h i hw with ⟨h2, -, -⟩ | ⟨-, -, hm⟩ | ⟨h2, -, -⟩
            · exact absurd hb h2
            · have := hm (show predAt R i z + rowShift p R i d0 d < predAt R i z by linarith)
              exact ⟨by linarith, fun _ _ => by linarith⟩
            · exact absurd hb h2
      obtain ⟨i, hi, him⟩ := hd.moves
      exact Finset.sum_neg' (fun i _ => (hrow i).1) ⟨i, Finset.mem_univ i, (hrow i).2 hi him⟩
    linarith
  · intro hno
    obtain ⟨b, hb⟩ := hroom
    have hx0 := restrict_feasible C 0 b (fun _ => rfl) hb
    refine exists_min_of_retreat _ (objAt_convex C R l1r h s a ha) (feasible C) (feasible_closed C) (feasible_convex C) _ hx0 fun v _ hray => ?_
    obtain ⟨f1, f2, f3, f4, f5, f6⟩ := ray_facts C R l1r a h ha s hs _ v hx0 hray
    have hstill : ∀ i, 0 < R.sw i → rowShift p R i v.1 (extend v.2) = 0 := by
      by_contra hne
      push Not at hne
      refine hno ⟨v.1, extend v.2, f1, fun hl j hj => ?_, fun hu j hj => ?_, fun h1 j hj => ?_, fun h1 => ?_, f6, hne⟩
      · rw [show extend v.2 j = v.2 ⟨j, hj⟩ from extend_fin v.2 ⟨j, hj⟩]; exact f2 hl _
      · rw [show extend v.2 j = v.2 ⟨j, hj⟩ from extend_fin v.2 ⟨j, hj⟩]; exact f3 hu _
      · rw [show extend v.2 j = v.2 ⟨j, hj⟩ from extend_fin v.2 ⟨j, hj⟩]; exact f4 h1 ⟨j, hj⟩
      · simp only [extend_fin]; exact f5 h1
    obtain ⟨ε, hε, k0, hk0⟩ := feasible_retreat C v f1 f2 f3
    refine ⟨ε, hε, k0, fun k hk b hb hbk => ⟨hk0 k hk b hb hbk, ?_⟩⟩
    have e : b - (k / 2) • v = b + (-(k / 2)) • v := by rw [neg_smul]; abel
    rw [e, objAt_flat C R l1r a h s b v f4 f5]
    have : ∑ i, (rowLoss C R i (predAt R i b + -(k / 2) * rowShift p R i v.1 (extend v.2)) - rowLoss C R i (predAt R i b)) = 0 := by
      refine Finset.sum_eq_zero fun i _ => ?_
      rcases (h.sw i).eq_or_lt with hw | hw
      · unfold rowLoss; rw [← hw]; simp
      · rw [hstill i hw]; simp
    rw [this]; linarith


/-- **C113, interior responses.** If no row of positive weight has a response at an end of the range of means — always for squared error, for Poisson or
Tweedie data without zeros, for proportions strictly between 0 and 1 — then a solution exists, whatever the design, the penalty and the bounds. -/
theorem c113_interior (C : FitCfg p ic) (R : Rows n) (l1r a : ℝ) (h : ConvexFit C R l1r) (ha : 0 ≤ a) (hroom : ∃ b, WithinBounds p C.lb C.ub b)
    (stds : ℕ → ℝ) (hy : ∀ i, 0 < R.sw i → ¬ AtTop C.family (R.y i) ∧ ¬ AtBottom C.link (R.y i)) :
    ∃ (b0 : ℝ) (b : ℕ → ℝ),
      Solves p ic C.lb C.ub (fitObjective p C.e50 C.family C.link R (penScale C.thr C.asIfScaled stds) C.P1a C.P2a a l1r) b0 b := by
  refine (c113_solution_iff C R l1r a h ha hroom stds).2 ?_
  rintro ⟨d0, d, hd⟩
  obtain ⟨i, hw, hi⟩ := hd.moves
  rcases hd.rows i hw with h1 | ⟨-, h1⟩ | ⟨-, h1⟩
  · exact hi h1
  · exact (hy i hw).1 h1
  · exact (hy i hw).2 h1

/-! ### C113: fits of separated data -/

/-- **C113, separated data.** If no solution exists, then for every bound `B` there is a tolerance below which every fit that raises no
`ConvergenceWarning` reports an intercept or a coefficient larger than `B`. -/
theorem c113_coefficients_diverge (C : FitCfg p ic) (stats : Stats) (R : Rows n) (l1r a : ℝ) (h : ConvexFit C R l1r) (ha0 : 0 ≤ a)
    (hs : ∀ j, 0 ≤ (stats n R.X R.sw).2 j)
    (hno : ¬ ∃ (b0 : ℝ) (b : ℕ → ℝ), Solves p ic C.lb C.ub
      (fitObjective p C.e50 C.family C.link R (penScale C.thr C.asIfScaled (stats n R.X R.sw).2) C.P1a C.P2a a l1r) b0 b) (B : ℝ) :
    ∃ δ : ℝ, 0 < δ ∧ ∀ (next : (ℕ → BitVec 32) → ℕ → (ℕ → BitVec 32)) (inner : (ℕ → BitVec 32) → (m : ℕ) → Inner m p ic) (C' : FitCfg p ic),
      SameProblem C C' → C'.stepTol = none → C'.gradTol < δ →
      ∀ (sp : AlphaSpec) (s t : SolverLog) (r : PathResult), glmFit C' stats (irlsSolver next inner) R l1r sp s = some (t, r) →
        (∀ x ∈ r.alphas, 0 ≤ x) → t.convWarn = s.convWarn →
        ∀ (i : ℕ) (hi : i < r.alphas.length) (hc : i < r.coefPath.length) (hb : i < r.interceptPath.length), r.alphas[i] = a →
          WithinBounds p C.lb C.ub r.coefPath[i] → B < |r.interceptPath[i]| ∨ ∃ j < p, B < |r.coefPath[i] j| := by
  obtain ⟨sc, hsc⟩ : ∃ sc, sc = penScale C.thr C.asIfScaled (stats n R.X R.sw).2 := ⟨_, rfl⟩
  rw [← hsc, solves_iff_min] at hno
  push Not at hno
  have hcont := objAt_continuous C R l1r h sc a ha0
  by_cases hne : (feasible C ∩ Metric.closedBall 0 B).Nonempty
  · obtain ⟨z, hz, hzmin⟩ := ((isCompact_closedBall (0 : ℝ × (Fin p → ℝ)) B).inter_left (feasible_closed C)).exists_isMinOn hne hcont.continuousOn
    obtain ⟨x, hx, hlt⟩ := hno z hz.1
    set M := 1 + ∑ j : Fin p, |(stats n R.X R.sw).1 j| + ∑ j : Fin p, colScale C.thr (stats n R.X R.sw).2 j with hMdef
    have hM : 0 < M := by
      have hm : 0 ≤ ∑ j : Fin p, |(stats n R.X R.sw).1 j| := Finset.sum_nonneg fun j _ => abs_nonneg _
      have hc : 0 ≤ ∑ j : Fin p, colScale C.thr (stats n R.X R.sw).2 j := Finset.sum_nonneg fun j _ => colScale_nonneg C.thr _ hs j
      rw [hMdef]; linarith
    have hB0 : 0 ≤ B := by
      have := hz.2
      rw [mem_closedBall_zero_iff] at this
      exact (norm_nonneg _).trans this
    have hden : 0 < M * (‖x‖ + B + 1) := mul_pos hM (by linarith [norm_nonneg x])
    refine ⟨(objAt C R sc a l1r z - objAt C R sc a l1r x) / (M * (‖x‖ + B + 1)), div_pos (by linarith) hden,
      fun next inner C' hC hstep hg sp s t r hfit ha hw i hi hc hb hai hin => ?_⟩
    by_contra hcon
    push Not at hcon
    have h' : ConvexFit C' R l1r := by
      refine ⟨hC.thr ▸ h.thr, hC.family ▸ h.valid, ?_, ?_, h.sw, ?_, ?_, h.l1⟩
      · rw [hC.family, hC.link]; exact h.pair
      · rw [hC.family]; exact h.y
      · rw [hC.P1]; exact h.p1
      · rw [hC.P2]; exact h.p2
    obtain ⟨-, -, -, -, hopt⟩ := c75_no_warning_near_optimal next inner C' stats R l1r h' hs hstep sp s t r hfit ha hw
    have hic0 := rows_intercept_zero next inner C' stats R l1r h' hs hstep sp s t r hfit ha hw i hi hc hb
    have hfeas := restrict_feasible C r.interceptPath[i] r.coefPath[i] hic0 hin
    have hnorm : ‖restrict (p := p) r.interceptPath[i] r.coefPath[i]‖ ≤ B := by
      rw [Prod.norm_def]
      refine max_le hcon.1 ((pi_norm_le_iff_of_nonneg hB0).2 fun j => hcon.2 j j.2)
    have h1 : objAt C R sc a l1r z ≤ objAt C R sc a l1r (restrict r.interceptPath[i] r.coefPath[i]) :=
      hzmin ⟨hfeas, by rw [mem_closedBall_zero_iff]; exact hnorm⟩
    have hcl := stdClose_of_norm (p := p) (ic := ic) C.thr h.thr (stats n R.X R.sw).1 (stats n R.X R.sw).2 hs x.1 (extend x.2) r.interceptPath[i] r.coefPath[i]
    rw [← hMdef] at hcl
    set N := ‖restrict (p := p) x.1 (extend x.2) - restrict r.interceptPath[i] r.coefPath[i]‖ with hN
    have hN0 : 0 ≤ N := norm_nonneg _
    have hxr : restrict (p := p) x.1 (extend x.2) = x := by
      refine Prod.ext rfl ?_
      funext j
      exact extend_fin x.2 j
    have hNle : N ≤ ‖x‖ + B := by
      rw [hN, hxr]
      exact (norm_sub_le _ _).trans (by linarith)
    have h2 := hopt i hi hc hb x.1 (extend x.2) hx.1 (by rw [hC.lb, hC.ub]; exact feasible_bounds C x hx) (M * N) (mul_nonneg hM.le hN0)
      (by rw [hC.thr]; exact hcl)
    rw [hC.e50, hC.family, hC.link, hC.thr, hC.scaled, hC.P1, hC.P2, hai, ← hsc] at h2
    rw [objAt_restrict] at h1
    have h3 : fitObjective p C.e50 C.family C.link R sc C.P1a C.P2a a l1r x.1 (extend x.2) = objAt C R sc a l1r x := rfl
    rw [h3] at h2
    have h4 : C'.gradTol * (M * N) ≤ (objAt C R sc a l1r z - objAt C R sc a l1r x) / (M * (‖x‖ + B + 1)) * (M * N) :=
      mul_le_mul_of_nonneg_right hg.le (mul_nonneg hM.le hN0)
    have h5 : (objAt C R sc a l1r z - objAt C R sc a l1r x) / (M * (‖x‖ + B + 1)) * (M * N) < objAt C R sc a l1r z - objAt C R sc a l1r x := by
      rw [div_mul_eq_mul_div, div_lt_iff₀ hden]
      exact mul_lt_mul_of_pos_left (mul_lt_mul_of_pos_left (by linarith) hM) (by linarith)
    linarith
  · refine ⟨1, one_pos, fun next inner C' hC hstep hg sp s t r hfit ha hw i hi hc hb hai hin => ?_⟩
    by_contra hcon
    push Not at hcon
    have h' : ConvexFit C' R l1r := by
      refine ⟨hC.thr ▸ h.thr, hC.family ▸ h.valid, ?_, ?_, h.sw, ?_, ?_, h.l1⟩
      · rw [hC.family, hC.link]; exact h.pair
      · rw [hC.family]; exact h.y
      · rw [hC.P1]; exact h.p1
      · rw [hC.P2]; exact h.p2
    have hic0 := rows_intercept_zero next inner C' stats R l1r h' hs hstep sp s t r hfit ha hw i hi hc hb
    have hB0 : 0 ≤ B := (abs_nonneg _).trans hcon.1
    refine hne ⟨restrict r.interceptPath[i] r.coefPath[i], restrict_feasible C _ _ hic0 hin, ?_⟩
    rw [mem_closedBall_zero_iff, Prod.norm_def]
    exact max_le hcon.1 ((pi_norm_le_iff_of_nonneg hB0).2 fun j => hcon.2 j j.2)

end Glum
