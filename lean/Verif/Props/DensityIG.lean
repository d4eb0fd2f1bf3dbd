import Mathlib.Analysis.SpecialFunctions.Gaussian.GaussianIntegral
import Mathlib.MeasureTheory.Integral.IntegralEqImproper
import Mathlib.MeasureTheory.Integral.IntervalIntegral.FundThmCalculus
import Mathlib.Analysis.SpecialFunctions.Sqrt
import Verif.Props.Density
/-
C72 for the inverse Gaussian family: total mass, mean and variance by explicit primitives.
-/
set_option linter.unusedSectionVars false
set_option linter.unusedVariables false
set_option linter.unusedSimpArgs false

namespace Glum
open Spec MeasureTheory Filter Topology

theorem half_line_primitive {g g' : ℝ → ℝ} {l0 l1 : ℝ} (hd : ∀ x, 0 < x → HasDerivAt g (g' x) x) (hn : ∀ x, 0 < x → 0 ≤ g' x)
    (h0 : Tendsto g (𝓝[>] 0) (𝓝 l0)) (h1 : Tendsto g atTop (𝓝 l1)) : Integrable g' halfLine ∧ ∫ y, g' y ∂halfLine = l1 - l0 := by
  set f := Function.update g 0 l0 with hf
  have hc : ContinuousWithinAt f (Set.Ici 0) 0 := by
    rw [hf, continuousWithinAt_update_same, Set.Ici_sdiff_left]
    exact h0
  have hfg : ∀ x, 0 < x → f =ᶠ[𝓝 x] g := fun x hx => by
    filter_upwards [lt_mem_nhds hx] with z hz
    rw [hf, Function.update_of_ne hz.ne']
  have hd' : ∀ x ∈ Set.Ioi (0 : ℝ), HasDerivAt f (g' x) x := fun x hx => (hd x hx).congr_of_eventuallyEq (hfg x hx)
  have h1' : Tendsto f atTop (𝓝 l1) := by
    refine h1.congr' ?_
    filter_upwards [eventually_gt_atTop (0 : ℝ)] with z hz
    rw [hf, Function.update_of_ne hz.ne']
  refine ⟨integrableOn_Ioi_deriv_of_nonneg hc hd' (fun x hx => hn x hx) h1', ?_⟩
  have := integral_Ioi_of_hasDerivAt_of_nonneg hc hd' (fun x hx => hn x hx) h1'
  unfold halfLine
  rw [this, hf, Function.update_self]

/-- Standard normal density. -/
noncomputable def phi (x : ℝ) : ℝ := Real.exp (-(1 / 2) * x ^ 2) / √(2 * Real.pi)

theorem phi_pos (x : ℝ) : 0 < phi x := by unfold phi; positivity

theorem phi_cont : Continuous phi := by unfold phi; fun_prop

noncomputable def bigPhi (x : ℝ) : ℝ := ∫ t in (0 : ℝ)..x, phi t

theorem bigPhi_deriv (x : ℝ) : HasDerivAt bigPhi (phi x) x :=
  intervalIntegral.integral_hasDerivAt_right (phi_cont.intervalIntegrable _ _) (phi_cont.stronglyMeasurableAtFilter _ _) phi_cont.continuousAt

theorem bigPhi_neg (x : ℝ) : bigPhi (-x) = -bigPhi x := by
  unfold bigPhi
  have h := intervalIntegral.integral_comp_neg (a := 0) (b := x) (f := phi)
  have e : ∀ t, phi (-t) = phi t := fun t => by unfold phi; rw [neg_sq]
  simp only [e, neg_zero] at h
  rw [h, intervalIntegral.integral_symm]

theorem bigPhi_top : Tendsto bigPhi atTop (𝓝 (1 / 2)) := by
  have hi : Integrable phi := by
    unfold phi
    exact (integrable_exp_neg_mul_sq (b := 1 / 2) (by norm_num)).div_const _
  have h := intervalIntegral_tendsto_integral_Ioi 0 hi.integrableOn (tendsto_id (α := ℝ) (x := atTop))
  have e : ∫ x in Set.Ioi (0 : ℝ), phi x = 1 / 2 := by
    unfold phi
    rw [integral_div, integral_gaussian_Ioi]
    have : Real.pi / (1 / 2) = 2 * Real.pi := by ring
    rw [this]
    have : √(2 * Real.pi) ≠ 0 := by positivity
    field_simp
  rw [e] at h
  exact h

theorem bigPhi_bot : Tendsto bigPhi atBot (𝓝 (-(1 / 2))) := by
  have h := (bigPhi_top.comp tendsto_neg_atBot_atTop).neg
  refine h.congr fun x => ?_
  simp [bigPhi_neg]

theorem phi_top : Tendsto phi atTop (𝓝 0) ∧ Tendsto (fun x => x * phi x) atTop (𝓝 0) := by
  have h1 : Tendsto (fun x : ℝ => x ^ 1 * Real.exp (-x)) atTop (𝓝 0) := Real.tendsto_pow_mul_exp_neg_atTop_nhds_zero 1
  have hs : (1 : ℝ) ≤ √(2 * Real.pi) := by
    rw [Real.one_le_sqrt]; nlinarith [Real.two_le_pi]
  have hb : ∀ x : ℝ, 2 ≤ x → phi x ≤ Real.exp (-x) := by
    intro x hx
    unfold phi
    rw [div_le_iff₀ (by positivity)]
    calc Real.exp (-(1 / 2) * x ^ 2) ≤ Real.exp (-x) := Real.exp_le_exp.2 (by nlinarith)
      _ ≤ _ := le_mul_of_one_le_right (Real.exp_pos _).le hs
  have h2 : Tendsto (fun x => x * phi x) atTop (𝓝 0) := by
    refine squeeze_zero' (g := fun x => x ^ 1 * Real.exp (-x)) ?_ ?_ h1
    · filter_upwards [eventually_ge_atTop (0 : ℝ)] with x hx
      exact mul_nonneg hx (phi_pos x).le
    · filter_upwards [eventually_ge_atTop (2 : ℝ)] with x hx
      rw [pow_one]
      exact mul_le_mul_of_nonneg_left (hb x hx) (by linarith)
  refine ⟨?_, h2⟩
  refine squeeze_zero' (g := fun x => x * phi x) (Eventually.of_forall fun x => (phi_pos x).le) ?_ h2
  filter_upwards [eventually_ge_atTop (1 : ℝ)] with x hx
  exact le_mul_of_one_le_left (phi_pos x).le hx

theorem phi_bot : Tendsto phi atBot (𝓝 0) := by
  refine (phi_top.1.comp tendsto_neg_atBot_atTop).congr fun x => ?_
  simp [phi]

theorem phi_deriv (x : ℝ) : HasDerivAt phi (-x * phi x) x := by
  unfold phi
  have h : HasDerivAt (fun x : ℝ => -(1 / 2) * x ^ 2) (-x) x := by
    have := ((hasDerivAt_id x).pow 2).const_mul (-(1 / 2 : ℝ))
    refine this.congr_deriv ?_
    simp
  refine (h.exp.div_const _).congr_deriv ?_
  ring

section
variable (mu s : ℝ)

noncomputable def igA (y : ℝ) : ℝ := s * (√y / mu - 1 / √y)
noncomputable def igB (y : ℝ) : ℝ := s * (√y / mu + 1 / √y)

theorem inv_sqrt_deriv {y : ℝ} (hy : 0 < y) : HasDerivAt (fun y => 1 / √y) (-(1 / (2 * y * √y))) y := by
  have hs : √y ≠ 0 := (Real.sqrt_pos.2 hy).ne'
  have h := (Real.hasDerivAt_sqrt hy.ne').inv hs
  simp only [one_div]
  refine h.congr_deriv ?_
  rw [Real.sq_sqrt hy.le]
  field_simp

theorem igA_deriv {y : ℝ} (hy : 0 < y) : HasDerivAt (igA mu s) (s * (1 / (2 * √y * mu) + 1 / (2 * y * √y))) y := by
  have h1 := (Real.hasDerivAt_sqrt hy.ne').div_const mu
  refine ((h1.sub (inv_sqrt_deriv hy)).const_mul s).congr_deriv ?_
  rw [div_div]; ring

theorem igB_deriv {y : ℝ} (hy : 0 < y) : HasDerivAt (igB mu s) (s * (1 / (2 * √y * mu) - 1 / (2 * y * √y))) y := by
  have h1 := (Real.hasDerivAt_sqrt hy.ne').div_const mu
  refine ((h1.add (inv_sqrt_deriv hy)).const_mul s).congr_deriv ?_
  rw [div_div]; ring

theorem sqrt_zero_lim : Tendsto (fun y : ℝ => √y) (𝓝[>] 0) (𝓝[>] 0) := by
  refine tendsto_nhdsWithin_iff.2 ⟨?_, ?_⟩
  · have := (Real.continuous_sqrt.tendsto (0 : ℝ)).mono_left (nhdsWithin_le_nhds (s := Set.Ioi 0))
    rwa [Real.sqrt_zero] at this
  · filter_upwards [self_mem_nhdsWithin] with y hy
    exact Real.sqrt_pos.2 hy

theorem ig_limits (hmu : 0 < mu) (hs : 0 < s) :
    Tendsto (igA mu s) (𝓝[>] 0) atBot ∧ Tendsto (igB mu s) (𝓝[>] 0) atTop ∧
    Tendsto (igA mu s) atTop atTop ∧ Tendsto (igB mu s) atTop atTop := by
  have z1 : Tendsto (fun y : ℝ => √y / mu) (𝓝[>] 0) (𝓝 0) := by
    have := (sqrt_zero_lim.mono_right nhdsWithin_le_nhds).div_const mu
    simpa using this
  have z2 : Tendsto (fun y : ℝ => 1 / √y) (𝓝[>] 0) atTop := by
    simp only [one_div]
    exact tendsto_inv_nhdsGT_zero.comp sqrt_zero_lim
  have t1 : Tendsto (fun y : ℝ => √y / mu) atTop atTop := Real.tendsto_sqrt_atTop.atTop_div_const hmu
  have t2 : Tendsto (fun y : ℝ => 1 / √y) atTop (𝓝 0) := by
    simp only [one_div]
    exact tendsto_inv_atTop_zero.comp Real.tendsto_sqrt_atTop
  refine ⟨?_, ?_, ?_, ?_⟩
  · have := z1.add_atBot (tendsto_neg_atTop_atBot.comp z2)
    have := this.const_mul_atBot hs
    refine this.congr fun y => ?_
    simp only [igA, Function.comp]; ring
  · exact (z1.add_atTop z2).const_mul_atTop hs
  · have h0 : Tendsto (fun y : ℝ => -(1 / √y)) atTop (𝓝 0) := by simpa using t2.neg
    have := (t1.atTop_add h0).const_mul_atTop hs
    refine this.congr fun y => ?_
    simp only [igA, Function.comp]; ring
  · exact (t1.atTop_add t2).const_mul_atTop hs

/-- The inverse Gaussian density in terms of the standard normal one. -/
noncomputable def igDens (y : ℝ) : ℝ := s / (y * √y) * phi (igA mu s y)

theorem igDens_nonneg (hs : 0 < s) {y : ℝ} (hy : 0 < y) : 0 ≤ igDens mu s y := by
  unfold igDens
  have := phi_pos (igA mu s y)
  positivity

theorem ig_phi (hmu : 0 < mu) {y : ℝ} (hy : 0 < y) : Real.exp (2 * s ^ 2 / mu) * phi (igB mu s y) = phi (igA mu s y) := by
  unfold phi igA igB
  rw [← mul_div_assoc, ← Real.exp_add]
  congr 2
  have hs := (Real.sqrt_pos.2 hy).ne'
  have := hmu.ne'
  field_simp
  ring

theorem ig_moments (hmu : 0 < mu) (hs : 0 < s) :
    (Integrable (igDens mu s) halfLine ∧ ∫ y, igDens mu s y ∂halfLine = 1) ∧
    (Integrable (fun y => y * igDens mu s y) halfLine ∧ ∫ y, y * igDens mu s y ∂halfLine = mu) ∧
    (Integrable (fun y => y ^ 2 * igDens mu s y) halfLine ∧ ∫ y, y ^ 2 * igDens mu s y ∂halfLine = mu ^ 3 / s ^ 2 + mu ^ 2) := by
  obtain ⟨zA, zB, tA, tB⟩ := ig_limits mu s hmu hs
  set c := Real.exp (2 * s ^ 2 / mu) with hc
  set P0 : ℝ → ℝ := fun y => bigPhi (igA mu s y) - c * bigPhi (igB mu s y) with hP0
  set P1 : ℝ → ℝ := fun y => mu * (bigPhi (igA mu s y) + c * bigPhi (igB mu s y)) with hP1
  set P2 : ℝ → ℝ := fun y => mu ^ 2 / s ^ 2 * (P1 y + s ^ 2 * P0 y - 2 * s * (√y * phi (igA mu s y))) with hP2
  have dA : ∀ y, 0 < y → HasDerivAt (fun y => bigPhi (igA mu s y)) (phi (igA mu s y) * (s * (1 / (2 * √y * mu) + 1 / (2 * y * √y)))) y :=
    fun y hy => (bigPhi_deriv _).comp y (igA_deriv mu s hy)
  have dB : ∀ y, 0 < y → HasDerivAt (fun y => c * bigPhi (igB mu s y)) (phi (igA mu s y) * (s * (1 / (2 * √y * mu) - 1 / (2 * y * √y)))) y := by
    intro y hy
    refine (((bigPhi_deriv _).comp y (igB_deriv mu s hy)).const_mul c).congr_deriv ?_
    rw [← mul_assoc, hc, ig_phi mu s hmu hy]
  have dP0 : ∀ y, 0 < y → HasDerivAt P0 (igDens mu s y) y := by
    intro y hy
    refine ((dA y hy).sub (dB y hy)).congr_deriv ?_
    unfold igDens
    have := (Real.sqrt_pos.2 hy).ne'
    field_simp
    ring
  have dP1 : ∀ y, 0 < y → HasDerivAt P1 (y * igDens mu s y) y := by
    intro y hy
    refine (((dA y hy).add (dB y hy)).const_mul mu).congr_deriv ?_
    unfold igDens
    have := (Real.sqrt_pos.2 hy).ne'
    field_simp
    ring
  have dP2 : ∀ y, 0 < y → HasDerivAt P2 (y ^ 2 * igDens mu s y) y := by
    intro y hy
    have hphi : HasDerivAt (fun y => phi (igA mu s y)) _ y := (phi_deriv _).comp y (igA_deriv mu s hy)
    have hq := (Real.hasDerivAt_sqrt hy.ne').mul hphi
    refine ((((dP1 y hy).add ((dP0 y hy).const_mul (s ^ 2))).sub (hq.const_mul (2 * s))).const_mul (mu ^ 2 / s ^ 2)).congr_deriv ?_
    have hr := Real.sqrt_pos.2 hy
    have hyy : y = √y * √y := (Real.mul_self_sqrt hy.le).symm
    have hgen : ∀ r p : ℝ, 0 < r → mu ^ 2 / s ^ 2 * ((r * r) * (s / (r * r * r) * p) + s ^ 2 * (s / (r * r * r) * p)
        - 2 * s * (1 / (2 * r) * p + r * (-(s * (r / mu - 1 / r)) * p * (s * (1 / (2 * r * mu) + 1 / (2 * (r * r) * r))))))
        = (r * r) ^ 2 * (s / (r * r * r) * p) := by
      intro r p hr
      field_simp
      ring
    have := hgen (√y) (phi (igA mu s y)) hr
    unfold igDens
    rw [← hyy] at this
    exact this
  have z0 : Tendsto P0 (𝓝[>] 0) (𝓝 (-(1 / 2) - c * (1 / 2))) := (bigPhi_bot.comp zA).sub ((bigPhi_top.comp zB).const_mul c)
  have t0 : Tendsto P0 atTop (𝓝 (1 / 2 - c * (1 / 2))) := (bigPhi_top.comp tA).sub ((bigPhi_top.comp tB).const_mul c)
  have z1 : Tendsto P1 (𝓝[>] 0) (𝓝 (mu * (-(1 / 2) + c * (1 / 2)))) := ((bigPhi_bot.comp zA).add ((bigPhi_top.comp zB).const_mul c)).const_mul mu
  have t1 : Tendsto P1 atTop (𝓝 (mu * (1 / 2 + c * (1 / 2)))) := ((bigPhi_top.comp tA).add ((bigPhi_top.comp tB).const_mul c)).const_mul mu
  have zq : Tendsto (fun y => √y * phi (igA mu s y)) (𝓝[>] 0) (𝓝 0) := by
    have := (sqrt_zero_lim.mono_right nhdsWithin_le_nhds).mul (phi_bot.comp zA)
    simpa using this
  have tq : Tendsto (fun y => √y * phi (igA mu s y)) atTop (𝓝 0) := by
    have h1 := (phi_top.2.comp tA).const_mul (mu / s)
    have h2 : Tendsto (fun y : ℝ => mu * (1 / √y * phi (igA mu s y))) atTop (𝓝 (mu * (0 * 0))) := by
      refine Tendsto.const_mul mu (Tendsto.mul ?_ (phi_top.1.comp tA))
      simp only [one_div]
      exact tendsto_inv_atTop_zero.comp Real.tendsto_sqrt_atTop
    have h := h1.add h2
    simp only [mul_zero, add_zero] at h
    refine h.congr' ?_
    filter_upwards [eventually_gt_atTop (0 : ℝ)] with y hy
    have hr := Real.sqrt_pos.2 hy
    simp only [Function.comp]
    generalize hp : phi (igA mu s y) = p
    unfold igA
    field_simp
    ring
  have z2 : Tendsto P2 (𝓝[>] 0) (𝓝 (mu ^ 2 / s ^ 2 * (mu * (-(1 / 2) + c * (1 / 2)) + s ^ 2 * (-(1 / 2) - c * (1 / 2)) - 2 * s * 0))) :=
    ((z1.add (z0.const_mul _)).sub (zq.const_mul _)).const_mul _
  have t2 : Tendsto P2 atTop (𝓝 (mu ^ 2 / s ^ 2 * (mu * (1 / 2 + c * (1 / 2)) + s ^ 2 * (1 / 2 - c * (1 / 2)) - 2 * s * 0))) :=
    ((t1.add (t0.const_mul _)).sub (tq.const_mul _)).const_mul _
  obtain ⟨i0, e0⟩ := half_line_primitive dP0 (fun y hy => igDens_nonneg mu s hs hy) z0 t0
  obtain ⟨i1, e1⟩ := half_line_primitive dP1 (fun y hy => mul_nonneg hy.le (igDens_nonneg mu s hs hy)) z1 t1
  obtain ⟨i2, e2⟩ := half_line_primitive dP2 (fun y hy => mul_nonneg (by positivity) (igDens_nonneg mu s hs hy)) z2 t2
  refine ⟨⟨i0, by rw [e0]; ring⟩, ⟨i1, by rw [e1]; ring⟩, i2, ?_⟩
  rw [e2]
  field_simp
  ring

end

theorem invGaussian_density (mu disp : ℝ) (hmu : 0 < mu) (hd : 0 < disp) :
    IsDensity halfLine (fun y => Real.exp (invGaussianLogLik (fun _ : Fin 1 => y) (fun _ => 1) (fun _ => mu) disp)) mu (disp * mu ^ 3) := by
  set s := √(1 / disp) with hs
  have hs0 : 0 < s := Real.sqrt_pos.2 (by positivity)
  have hs2 : s ^ 2 = 1 / disp := Real.sq_sqrt (by positivity)
  have key : ∀ y, 0 < y → Real.exp (invGaussianLogLik (fun _ : Fin 1 => y) (fun _ => 1) (fun _ => mu) disp) = igDens mu s y := by
    intro y hy
    unfold invGaussianLogLik igDens phi
    simp only [Finset.univ_unique, Finset.sum_const, Finset.card_singleton, one_smul, one_mul]
    have hr := Real.sqrt_pos.2 hy
    have e1 : Real.exp (Real.log (1 / (2 * disp) / Real.pi) / 2) = s / √(2 * Real.pi) := by
      rw [hs, ← Real.sqrt_div (by positivity), Real.sqrt_eq_rpow, Real.rpow_def_of_pos (by positivity)]
      congr 1
      rw [show 1 / (2 * disp) / Real.pi = 1 / disp / (2 * Real.pi) by field_simp]
      ring
    have e2 : Real.exp (-(Real.log y * 3 / 2)) = 1 / (y * √y) := by
      have h3 : y * √y = Real.exp (Real.log y * 3 / 2) := by
        rw [Real.sqrt_eq_rpow]
        nth_rewrite 1 [← Real.rpow_one y]
        rw [← Real.rpow_add hy, Real.rpow_def_of_pos hy]
        congr 1; ring
      rw [h3, Real.exp_neg, one_div]
    have e3 : -(1 / (2 * disp) * (y / mu - 1) ^ 2 / y) = -(1 / 2) * igA mu s y ^ 2 := by
      unfold igA
      rw [mul_pow, hs2]
      have hy2 : √y ^ 2 = y := Real.sq_sqrt hy.le
      have : (√y / mu - 1 / √y) ^ 2 = (y / mu - 1) ^ 2 / y := by
        nth_rewrite 3 [← hy2]
        rw [← hy2]
        have : √(√y ^ 2) = √y := by rw [hy2]
        rw [this]
        field_simp
      rw [this]
      field_simp
    rw [neg_add, e3, Real.exp_add, Real.exp_add, e1, e2]
    field_simp
  have hc : igDens mu s =ᵐ[halfLine] fun y => Real.exp (invGaussianLogLik (fun _ : Fin 1 => y) (fun _ => 1) (fun _ => mu) disp) :=
    halfLine_ae fun y hy => (key y hy).symm
  obtain ⟨⟨i0, e0⟩, ⟨i1, e1⟩, i2, e2⟩ := ig_moments mu s hmu hs0
  have c1 : (fun y => y * igDens mu s y) =ᵐ[halfLine] fun y => y * Real.exp (invGaussianLogLik (fun _ : Fin 1 => y) (fun _ => 1) (fun _ => mu) disp) :=
    hc.mono fun y hy => by simp only [← hy]
  have c2 : (fun y => y ^ 2 * igDens mu s y) =ᵐ[halfLine] fun y => y ^ 2 * Real.exp (invGaussianLogLik (fun _ : Fin 1 => y) (fun _ => 1) (fun _ => mu) disp) :=
    hc.mono fun y hy => by simp only [← hy]
  refine isDensity_of_moments (fun y => (Real.exp_pos _).le) (i0.congr hc) ((integral_congr_ae hc).symm.trans e0) (i1.congr c1)
    ((integral_congr_ae c1).symm.trans e1) (i2.congr c2) ((integral_congr_ae c2).symm.trans ?_)
  rw [e2, hs2]
  field_simp

end Glum
