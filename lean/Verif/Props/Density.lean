import Mathlib.Probability.Distributions.Gaussian.Real
import Mathlib.Analysis.Analytic.Binomial
import Mathlib.Analysis.SpecialFunctions.Gamma.Basic
import Verif.Spec.Density
import Verif.Spec.Distribution
import Verif.Model.Likelihood
/-
C72: the log-likelihoods are logarithms of probability densities with mean `mu` and variance `dispersion * unit_variance(mu)`.
-/
set_option linter.unusedSectionVars false
set_option linter.unusedVariables false
set_option linter.unusedSimpArgs false

namespace Glum
open Spec MeasureTheory

/-- Density from raw moments. -/
theorem isDensity_of_moments {nu : Measure ℝ} {d : ℝ → ℝ} {m v : ℝ} (h0 : ∀ y, 0 ≤ d y)
    (i0 : Integrable d nu) (e0 : ∫ y, d y ∂nu = 1) (i1 : Integrable (fun y => y * d y) nu) (e1 : ∫ y, y * d y ∂nu = m)
    (i2 : Integrable (fun y => y ^ 2 * d y) nu) (e2 : ∫ y, y ^ 2 * d y ∂nu = v + m ^ 2) : IsDensity nu d m v := by
  have e : (fun y => (y - m) ^ 2 * d y) = fun y => (y ^ 2 * d y - 2 * m * (y * d y)) + m ^ 2 * d y := by
    funext y; ring
  refine ⟨h0, i0, e0, i1, e1, ?_, ?_⟩
  · rw [e]; exact (i2.sub (i1.const_mul _)).add (i0.const_mul _)
  · have h1 : ∫ y, (y ^ 2 * d y - 2 * m * (y * d y)) + m ^ 2 * d y ∂nu
        = ∫ y, (y ^ 2 * d y - 2 * m * (y * d y)) ∂nu + ∫ y, m ^ 2 * d y ∂nu :=
      integral_add (i2.sub (i1.const_mul (2 * m))) (i0.const_mul (m ^ 2))
    have h2 : ∫ y, (y ^ 2 * d y - 2 * m * (y * d y)) ∂nu = ∫ y, y ^ 2 * d y ∂nu - ∫ y, 2 * m * (y * d y) ∂nu :=
      integral_sub i2 (i1.const_mul (2 * m))
    rw [e, h1, h2, integral_const_mul, integral_const_mul, e0, e1, e2]
    ring

theorem hasSum_conv {f g : ℕ → ℝ} {s t : ℝ} (h : HasSum f s) (e : ∀ k, g k = f k) (est : s = t) : HasSum g t := by
  have : g = f := funext e
  rw [this, ← est]; exact h

theorem isDensity_congr {nu : Measure ℝ} {d d' : ℝ → ℝ} {m v : ℝ} (h : IsDensity nu d m v) (h0 : ∀ y, 0 ≤ d' y)
    (e : d =ᵐ[nu] d') : IsDensity nu d' m v := by
  have e1 : (fun y => y * d y) =ᵐ[nu] fun y => y * d' y := e.mono fun y hy => by simp only [hy]
  have e2 : (fun y => (y - m) ^ 2 * d y) =ᵐ[nu] fun y => (y - m) ^ 2 * d' y := e.mono fun y hy => by simp only [hy]
  exact ⟨h0, h.integrable.congr e, (integral_congr_ae e).symm.trans h.total, h.integrable_mean.congr e1,
    (integral_congr_ae e1).symm.trans h.mean, h.integrable_var.congr e2, (integral_congr_ae e2).symm.trans h.variance⟩

theorem countNat_integral {f : ℝ → ℝ} {s : ℝ} (hf : ∀ k : ℕ, 0 ≤ f k) (h : HasSum (fun k : ℕ => f k) s) :
    Integrable f countNat ∧ ∫ y, f y ∂countNat = s := by
  have hi : Integrable f countNat := by
    refine integrable_sum_measure (fun i => integrable_dirac (by simp)) ?_
    simp only [integral_dirac, Real.norm_of_nonneg (hf _)]
    exact h.summable
  refine ⟨hi, ?_⟩
  have := hasSum_integral_measure hi
  simp only [integral_dirac] at this
  exact this.unique h

theorem countNat_ae {p : ℝ → Prop} (h : ∀ k : ℕ, p k) : ∀ᵐ y ∂countNat, p y := by
  unfold countNat
  rw [Measure.ae_sum_iff]
  intro k
  rw [ae_dirac_eq]
  exact h k

theorem isDensity_count {d : ℝ → ℝ} {m v : ℝ} (h0 : ∀ y, 0 ≤ d y) (e0 : HasSum (fun k : ℕ => d k) 1)
    (e1 : HasSum (fun k : ℕ => (k : ℝ) * d k) m) (e2 : HasSum (fun k : ℕ => (k : ℝ) ^ 2 * d k) (v + m ^ 2)) :
    IsDensity countNat d m v := by
  obtain ⟨a, b⟩ := countNat_integral (f := d) (fun k => h0 _) e0
  obtain ⟨a1, b1⟩ := countNat_integral (f := fun y => y * d y) (fun k => mul_nonneg (by positivity) (h0 _)) e1
  obtain ⟨a2, b2⟩ := countNat_integral (f := fun y => y ^ 2 * d y) (fun k => mul_nonneg (by positivity) (h0 _)) e2
  exact isDensity_of_moments h0 a b a1 b1 a2 b2

/-- `log_likelihood` of a single observation with weight one. -/
noncomputable def Family.rowLogLik (norm : ℝ → ℝ → ℝ → ℝ) (f : Family) (y mu disp : ℝ) : Option ℝ :=
  f.logLik norm (fun _ : Fin 1 => y) (fun _ => mu) (fun _ => 1) disp

/-! ### normal -/

theorem normal_density (mu disp : ℝ) (hd : 0 < disp) :
    IsDensity volume (fun y => Real.exp (normalLogLik (fun _ : Fin 1 => y) (fun _ => 1) (fun _ => mu) disp)) mu disp := by
  have hv : (⟨disp, hd.le⟩ : NNReal) ≠ 0 := fun h => hd.ne' (congrArg NNReal.toReal h)
  set v : NNReal := ⟨disp, hd.le⟩ with hvd
  have hvc : (v : ℝ) = disp := rfl
  have key : ∀ y, Real.exp (normalLogLik (fun _ : Fin 1 => y) (fun _ => 1) (fun _ => mu) disp) = ProbabilityTheory.gaussianPDFReal mu v y := by
    intro y
    unfold normalLogLik
    rw [ProbabilityTheory.gaussianPDFReal_def]
    simp only [Finset.univ_unique, Finset.sum_const, Finset.card_singleton, one_smul, one_mul, hvc]
    rw [Real.exp_add, mul_comm, Real.sqrt_eq_rpow, ← Real.rpow_neg (by positivity), Real.rpow_def_of_pos (by positivity)]
    congr 2
    ring
  simp only [key]
  have hg : ∀ f : ℝ → ℝ, Integrable f (ProbabilityTheory.gaussianReal mu v) →
      Integrable (fun y => f y * ProbabilityTheory.gaussianPDFReal mu v y) volume ∧
      ∫ y, f y * ProbabilityTheory.gaussianPDFReal mu v y = ∫ y, f y ∂ProbabilityTheory.gaussianReal mu v := by
    intro f hf
    constructor
    · rw [ProbabilityTheory.gaussianReal_of_var_ne_zero _ hv] at hf
      rw [integrable_withDensity_iff_integrable_smul' (ProbabilityTheory.measurable_gaussianPDF _ _)
        (Filter.Eventually.of_forall fun y => ProbabilityTheory.gaussianPDF_lt_top)] at hf
      refine hf.congr (Filter.Eventually.of_forall fun y => ?_)
      simp only [ProbabilityTheory.toReal_gaussianPDF, smul_eq_mul]
      ring
    · rw [ProbabilityTheory.integral_gaussianReal_eq_integral_smul hv]
      refine integral_congr_ae (Filter.Eventually.of_forall fun y => ?_)
      simp only [smul_eq_mul]; ring
  have hL : MemLp (id : ℝ → ℝ) 2 (ProbabilityTheory.gaussianReal mu v) := ProbabilityTheory.memLp_id_gaussianReal 2
  have hi1 : Integrable (fun y : ℝ => y) (ProbabilityTheory.gaussianReal mu v) :=
    (hL.integrable (by norm_num))
  have hi2 : Integrable (fun y : ℝ => (y - mu) ^ 2) (ProbabilityTheory.gaussianReal mu v) :=
    (hL.sub (memLp_const mu)).integrable_sq
  refine ⟨fun y => ProbabilityTheory.gaussianPDFReal_nonneg _ _ _, ProbabilityTheory.integrable_gaussianPDFReal _ _,
    ProbabilityTheory.integral_gaussianPDFReal_eq_one _ hv, (hg _ hi1).1, ?_, (hg _ hi2).1, ?_⟩
  · rw [(hg _ hi1).2, ProbabilityTheory.integral_id_gaussianReal]
  · rw [(hg _ hi2).2]
    have := ProbabilityTheory.variance_fun_id_gaussianReal (μ := mu) (v := v)
    rw [ProbabilityTheory.variance_eq_integral (by fun_prop), ProbabilityTheory.integral_id_gaussianReal] at this
    exact this

/-! ### Poisson -/

theorem poisson_sums (lam : ℝ) :
    HasSum (fun k : ℕ => lam ^ k / k.factorial) (Real.exp lam) ∧
    HasSum (fun k : ℕ => (k : ℝ) * (lam ^ k / k.factorial)) (lam * Real.exp lam) ∧
    HasSum (fun k : ℕ => (k : ℝ) ^ 2 * (lam ^ k / k.factorial)) ((lam + lam ^ 2) * Real.exp lam) := by
  have h0 : HasSum (fun k : ℕ => lam ^ k / k.factorial) (Real.exp lam) := by
    rw [Real.exp_eq_exp_ℝ]; exact NormedSpace.expSeries_div_hasSum_exp lam
  have s1 : ∀ k : ℕ, ((k + 1 : ℕ) : ℝ) * (lam ^ (k + 1) / (k + 1).factorial) = lam * (lam ^ k / k.factorial) := by
    intro k
    rw [Nat.factorial_succ]
    have : ((k.factorial : ℕ) : ℝ) ≠ 0 := by exact_mod_cast k.factorial_ne_zero
    have : ((k + 1 : ℕ) : ℝ) ≠ 0 := by exact_mod_cast k.succ_ne_zero
    push_cast at this ⊢
    field_simp
    ring
  have h1 : HasSum (fun k : ℕ => (k : ℝ) * (lam ^ k / k.factorial)) (lam * Real.exp lam) := by
    rw [hasSum_nat_add_iff' 1 |>.symm]
    simp only [s1, Finset.range_one, Finset.sum_singleton, Nat.cast_zero, zero_mul, sub_zero]
    exact h0.mul_left lam
  refine ⟨h0, h1, ?_⟩
  rw [hasSum_nat_add_iff' 1 |>.symm]
  simp only [Finset.range_one, Finset.sum_singleton, Nat.cast_zero, ne_eq, OfNat.ofNat_ne_zero, not_false_eq_true, zero_pow, zero_mul, sub_zero]
  have e : ∀ k : ℕ, ((k + 1 : ℕ) : ℝ) ^ 2 * (lam ^ (k + 1) / (k + 1).factorial)
      = lam * ((k : ℝ) * (lam ^ k / k.factorial)) + lam * (lam ^ k / k.factorial) := by
    intro k
    rw [sq, mul_assoc, s1]; push_cast; ring
  simp only [e]
  exact hasSum_conv ((h1.mul_left lam).add (h0.mul_left lam)) (fun k => rfl) (by ring)

theorem poisson_density (mu : ℝ) (hmu : 0 < mu) :
    IsDensity countNat (fun y => Real.exp (poissonLogLik (fun _ : Fin 1 => y) (fun _ => 1) (fun _ => mu))) mu mu := by
  have key : ∀ k : ℕ, Real.exp (poissonLogLik (fun _ : Fin 1 => (k : ℝ)) (fun _ => 1) (fun _ => mu))
      = Real.exp (-mu) * (mu ^ k / k.factorial) := by
    intro k
    unfold poissonLogLik
    simp only [Finset.univ_unique, Finset.sum_const, Finset.card_singleton, one_smul, one_mul]
    rw [Real.exp_add]
    congr 1
    split
    · unfold lgamma
      rw [add_comm, Real.Gamma_nat_eq_factorial, neg_sub, Real.exp_sub, Real.exp_log (by exact_mod_cast k.factorial_pos), mul_comm,
        Real.exp_mul, Real.exp_log hmu, Real.rpow_natCast]
    · next h =>
      have : k = 0 := by
        by_contra hk
        exact h (by exact_mod_cast Nat.pos_of_ne_zero hk)
      subst this; simp
  obtain ⟨a, b, c⟩ := poisson_sums mu
  have ee : Real.exp (-mu) * Real.exp mu = 1 := by rw [← Real.exp_add]; simp
  refine isDensity_count (fun y => (Real.exp_pos _).le) ?_ ?_ ?_
  · simp only [key]
    exact hasSum_conv (a.mul_left (Real.exp (-mu))) (fun k => rfl) ee
  · simp only [key]
    exact hasSum_conv (b.mul_left (Real.exp (-mu))) (fun k => by ring) (by linear_combination mu * ee)
  · simp only [key]
    exact hasSum_conv (c.mul_left (Real.exp (-mu))) (fun k => by ring) (by linear_combination (mu + mu ^ 2) * ee)

/-! ### gamma -/

theorem gamma_integrals {a r : ℝ} (ha : 0 < a) (hr : 0 < r) :
    Integrable (fun t => t ^ (a - 1) * Real.exp (-(r * t))) halfLine ∧
    ∫ t, t ^ (a - 1) * Real.exp (-(r * t)) ∂halfLine = Real.Gamma a / r ^ a := by
  have h := Real.integral_rpow_mul_exp_neg_mul_Ioi ha hr
  constructor
  · by_contra hc
    have : ∫ t, t ^ (a - 1) * Real.exp (-(r * t)) ∂halfLine = 0 := integral_undef hc
    unfold halfLine at this
    rw [h] at this
    have := Real.Gamma_pos_of_pos ha
    have : 0 < (1 / r) ^ a * Real.Gamma a := by positivity
    linarith
  · unfold halfLine
    rw [h, Real.div_rpow (by norm_num) hr.le, Real.one_rpow]
    ring

theorem halfLine_ae {p : ℝ → Prop} (h : ∀ y, 0 < y → p y) : ∀ᵐ y ∂halfLine, p y := by
  unfold halfLine
  rw [ae_restrict_iff' measurableSet_Ioi]
  exact Filter.Eventually.of_forall fun y hy => h y hy

/-- Moments of a gamma density with shape `a`, rate `r`. -/
theorem gamma_moments {a r : ℝ} (ha : 0 < a) (hr : 0 < r) :
    (Integrable (fun t => t ^ (a - 1) * Real.exp (-(r * t))) halfLine ∧
      ∫ t, t ^ (a - 1) * Real.exp (-(r * t)) ∂halfLine = Real.Gamma a / r ^ a) ∧
    (Integrable (fun t => t * (t ^ (a - 1) * Real.exp (-(r * t)))) halfLine ∧
      ∫ t, t * (t ^ (a - 1) * Real.exp (-(r * t))) ∂halfLine = a / r * (Real.Gamma a / r ^ a)) ∧
    (Integrable (fun t => t ^ 2 * (t ^ (a - 1) * Real.exp (-(r * t)))) halfLine ∧
      ∫ t, t ^ 2 * (t ^ (a - 1) * Real.exp (-(r * t))) ∂halfLine = a * (a + 1) / r ^ 2 * (Real.Gamma a / r ^ a)) := by
  obtain ⟨i1, e1⟩ := gamma_integrals (a := a + 1) (r := r) (by positivity) hr
  obtain ⟨i2, e2⟩ := gamma_integrals (a := a + 1 + 1) (r := r) (by positivity) hr
  have c1 : (fun t : ℝ => t ^ (a + 1 - 1) * Real.exp (-(r * t))) =ᵐ[halfLine] fun t => t * (t ^ (a - 1) * Real.exp (-(r * t))) := by
    refine halfLine_ae fun t ht => ?_
    show t ^ (a + 1 - 1) * Real.exp (-(r * t)) = t * (t ^ (a - 1) * Real.exp (-(r * t)))
    rw [show a + 1 - 1 = 1 + (a - 1) by ring, Real.rpow_add ht, Real.rpow_one, mul_assoc]
  have c2 : (fun t : ℝ => t ^ (a + 1 + 1 - 1) * Real.exp (-(r * t))) =ᵐ[halfLine] fun t => t ^ 2 * (t ^ (a - 1) * Real.exp (-(r * t))) := by
    refine halfLine_ae fun t ht => ?_
    show t ^ (a + 1 + 1 - 1) * Real.exp (-(r * t)) = t ^ 2 * (t ^ (a - 1) * Real.exp (-(r * t)))
    rw [show a + 1 + 1 - 1 = 1 + (1 + (a - 1)) by ring, Real.rpow_add ht, Real.rpow_add ht, Real.rpow_one]
    ring
  have hra : 0 < r ^ a := Real.rpow_pos_of_pos hr a
  refine ⟨gamma_integrals ha hr, ⟨i1.congr c1, ?_⟩, i2.congr c2, ?_⟩
  · rw [← integral_congr_ae c1, e1, Real.Gamma_add_one ha.ne', Real.rpow_add_one hr.ne']
    field_simp
  · rw [← integral_congr_ae c2, e2, Real.Gamma_add_one (by positivity), Real.Gamma_add_one ha.ne', Real.rpow_add_one hr.ne',
      Real.rpow_add_one hr.ne']
    field_simp

theorem gamma_density (mu disp : ℝ) (hmu : 0 < mu) (hd : 0 < disp) :
    IsDensity halfLine (fun y => Real.exp (gammaLogLik (fun _ : Fin 1 => y) (fun _ => 1) (fun _ => mu) disp)) mu (disp * mu ^ 2) := by
  set a := 1 / disp with ha
  set r := 1 / (disp * mu) with hr
  have ha0 : 0 < a := by positivity
  have hr0 : 0 < r := by positivity
  have hG := Real.Gamma_pos_of_pos ha0
  set C := r ^ a / Real.Gamma a with hC
  have key : ∀ y, 0 < y → Real.exp (gammaLogLik (fun _ : Fin 1 => y) (fun _ => 1) (fun _ => mu) disp)
      = C * (y ^ (a - 1) * Real.exp (-(r * y))) := by
    intro y hy
    unfold gammaLogLik lgamma
    simp only [Finset.univ_unique, Finset.sum_const, Finset.card_singleton, one_smul, one_mul, mul_one, ← ha]
    rw [hC, Real.rpow_def_of_pos hr0, Real.rpow_def_of_pos hy, div_mul_eq_mul_div (Real.exp (Real.log r * a)), eq_div_iff hG.ne']
    rw [← Real.exp_log hG, ← Real.exp_add, ← Real.exp_add, ← Real.exp_add, Real.exp_log hG]
    congr 1
    have : Real.log r = -(Real.log disp + Real.log mu) := by
      rw [hr, one_div, Real.log_inv, Real.log_mul hd.ne' hmu.ne']
    rw [this]
    have e : r * y = a * (y / mu) := by rw [hr, ha]; field_simp
    rw [e]; ring
  have hcong : (fun y => C * (y ^ (a - 1) * Real.exp (-(r * y)))) =ᵐ[halfLine]
      fun y => Real.exp (gammaLogLik (fun _ : Fin 1 => y) (fun _ => 1) (fun _ => mu) disp) :=
    halfLine_ae fun y hy => (key y hy).symm
  obtain ⟨⟨i0, e0⟩, ⟨i1, e1⟩, i2, e2⟩ := gamma_moments ha0 hr0
  have hra : 0 < r ^ a := Real.rpow_pos_of_pos hr0 a
  have hCG : C * (Real.Gamma a / r ^ a) = 1 := by rw [hC]; field_simp
  have c1 : (fun y => C * (y * (y ^ (a - 1) * Real.exp (-(r * y))))) =ᵐ[halfLine]
      fun y => y * Real.exp (gammaLogLik (fun _ : Fin 1 => y) (fun _ => 1) (fun _ => mu) disp) :=
    hcong.mono fun y hy => by simp only [← hy]; ring
  have c2 : (fun y => C * (y ^ 2 * (y ^ (a - 1) * Real.exp (-(r * y))))) =ᵐ[halfLine]
      fun y => y ^ 2 * Real.exp (gammaLogLik (fun _ : Fin 1 => y) (fun _ => 1) (fun _ => mu) disp) :=
    hcong.mono fun y hy => by simp only [← hy]; ring
  refine isDensity_of_moments (fun y => (Real.exp_pos _).le) ((i0.const_mul C).congr hcong) ?_ ((i1.const_mul C).congr c1) ?_
    ((i2.const_mul C).congr c2) ?_
  · rw [← integral_congr_ae hcong, integral_const_mul, e0, hCG]
  · rw [← integral_congr_ae c1, integral_const_mul, e1]
    have : a / r = mu := by rw [ha, hr]; field_simp
    rw [this]; linear_combination mu * hCG
  · rw [← integral_congr_ae c2, integral_const_mul, e2]
    have : a * (a + 1) / r ^ 2 = disp * mu ^ 2 + mu ^ 2 := by rw [ha, hr]; field_simp; ring
    rw [this]; linear_combination (disp * mu ^ 2 + mu ^ 2) * hCG

/-! ### Bernoulli -/

theorem binomial_density (mu : ℝ) (h0 : 0 < mu) (h1 : mu < 1) :
    IsDensity (Measure.dirac 0 + Measure.dirac 1) (fun y => Real.exp (binomialLogLik (fun _ : Fin 1 => y) (fun _ => 1) (fun _ => mu))) mu (mu * (1 - mu)) := by
  have k0 : Real.exp (binomialLogLik (fun _ : Fin 1 => 0) (fun _ => 1) (fun _ => mu)) = 1 - mu := by
    unfold binomialLogLik xlogy
    simp
    rw [Real.exp_log (by linarith)]
  have k1 : Real.exp (binomialLogLik (fun _ : Fin 1 => 1) (fun _ => 1) (fun _ => mu)) = mu := by
    unfold binomialLogLik xlogy
    simp
    rw [Real.exp_log h0]
  have hint : ∀ f : ℝ → ℝ, Integrable f (Measure.dirac 0 + Measure.dirac 1) ∧ ∫ y, f y ∂(Measure.dirac (0 : ℝ) + Measure.dirac 1) = f 0 + f 1 := by
    intro f
    have i0 : Integrable f (Measure.dirac (0 : ℝ)) := integrable_dirac (by simp)
    have i1 : Integrable f (Measure.dirac (1 : ℝ)) := integrable_dirac (by simp)
    exact ⟨i0.add_measure i1, by rw [integral_add_measure i0 i1, integral_dirac, integral_dirac]⟩
  refine ⟨fun y => (Real.exp_pos _).le, (hint _).1, ?_, (hint _).1, ?_, (hint _).1, ?_⟩
  · rw [(hint _).2, k0, k1]; ring
  · rw [(hint _).2, k0, k1]; ring
  · rw [(hint _).2, k0, k1]; ring

/-! ### negative binomial -/

/-- `Γ(k + r) / (Γ(r) k!)`. -/
noncomputable def nbCoef (r : ℝ) (k : ℕ) : ℝ := Real.Gamma (k + r) / (Real.Gamma r * k.factorial)

theorem nbCoef_eq {r : ℝ} (hr : 0 < r) (k : ℕ) : Ring.choose (r + k - 1) k = nbCoef r k := by
  have hG := (Real.Gamma_pos_of_pos hr).ne'
  have asc : ∀ k : ℕ, Real.Gamma (k + r) = (ascPochhammer ℝ k).eval r * Real.Gamma r := by
    intro k
    induction k with
    | zero => simp
    | succ k ih =>
      rw [ascPochhammer_succ_eval]
      have : ((k + 1 : ℕ) : ℝ) + r = (k + r) + 1 := by push_cast; ring
      rw [this, Real.Gamma_add_one (by positivity), ih]
      ring
  have h := Ring.factorial_nsmul_multichoose_eq_ascPochhammer r k
  rw [Ring.multichoose_eq, Polynomial.ascPochhammer_smeval_eq_eval] at h
  have hk : ((k.factorial : ℕ) : ℝ) ≠ 0 := by exact_mod_cast k.factorial_ne_zero
  unfold nbCoef
  rw [asc, ← h, nsmul_eq_mul]
  field_simp

theorem nb_series {r q : ℝ} (hr : 0 < r) (hq0 : 0 ≤ q) (hq1 : q < 1) : HasSum (fun k : ℕ => nbCoef r k * q ^ k) (1 / (1 - q) ^ r) := by
  have h := Real.one_div_one_sub_rpow_hasFPowerSeriesOnBall_zero r
  have hq : q ∈ Metric.eball (0 : ℝ) 1 := by
    simp [enorm_eq_nnnorm]
    rw [← NNReal.coe_lt_coe]
    simpa [abs_of_nonneg hq0] using hq1
  have := h.hasSum hq
  simp only [zero_add, FormalMultilinearSeries.ofScalars_apply_eq, smul_eq_mul] at this
  exact hasSum_conv this (fun k => by rw [nbCoef_eq hr]) rfl

theorem nb_shift {r : ℝ} (hr : 0 < r) (k : ℕ) : ((k + 1 : ℕ) : ℝ) * nbCoef r (k + 1) = r * nbCoef (r + 1) k := by
  unfold nbCoef
  have hG := (Real.Gamma_pos_of_pos hr).ne'
  have hk : ((k.factorial : ℕ) : ℝ) ≠ 0 := by exact_mod_cast k.factorial_ne_zero
  have hk1 : (k : ℝ) + 1 ≠ 0 := by positivity
  rw [Nat.factorial_succ, Real.Gamma_add_one hr.ne', show ((k + 1 : ℕ) : ℝ) + r = k + (r + 1) by push_cast; ring]
  push_cast
  field_simp

theorem nb_moments {r q : ℝ} (hr : 0 < r) (hq0 : 0 ≤ q) (hq1 : q < 1) :
    HasSum (fun k : ℕ => (k : ℝ) * (nbCoef r k * q ^ k)) (r * q / (1 - q) ^ (r + 1)) ∧
    HasSum (fun k : ℕ => (k : ℝ) ^ 2 * (nbCoef r k * q ^ k)) (r * q / (1 - q) ^ (r + 1) + r * (r + 1) * q ^ 2 / (1 - q) ^ (r + 1 + 1)) := by
  have step : ∀ r : ℝ, 0 < r → HasSum (fun k : ℕ => (k : ℝ) * (nbCoef r k * q ^ k)) (r * q / (1 - q) ^ (r + 1)) := by
    intro r hr
    rw [hasSum_nat_add_iff' 1 |>.symm]
    simp only [Finset.range_one, Finset.sum_singleton, Nat.cast_zero, zero_mul, sub_zero]
    refine hasSum_conv ((nb_series (r := r + 1) (by positivity) hq0 hq1).mul_left (r * q)) (fun k => ?_) (by ring)
    rw [← mul_assoc, nb_shift hr]; ring
  refine ⟨step r hr, ?_⟩
  rw [hasSum_nat_add_iff' 1 |>.symm]
  simp only [Finset.range_one, Finset.sum_singleton, Nat.cast_zero, ne_eq, OfNat.ofNat_ne_zero, not_false_eq_true, zero_pow, zero_mul, sub_zero]
  refine hasSum_conv (((step (r + 1) (by positivity)).mul_left (r * q)).add ((nb_series (r := r + 1) (by positivity) hq0 hq1).mul_left (r * q)))
    (fun k => ?_) (by ring)
  have := nb_shift hr k
  rw [sq, mul_assoc, ← mul_assoc ((k + 1 : ℕ) : ℝ) (nbCoef r (k + 1)), this]
  push_cast; ring

theorem negBinomial_density (theta mu : ℝ) (ht : 0 < theta) (hmu : 0 < mu) :
    IsDensity countNat (fun y => Real.exp ((negBinomialLogLik theta (fun _ : Fin 1 => y) (fun _ => 1) (fun _ => mu)).getD 0)) mu (mu + theta * mu ^ 2) := by
  set r := 1 / theta with hr
  have hr0 : 0 < r := by positivity
  set q := theta * mu / (1 + theta * mu) with hq
  have hp : 0 < 1 + theta * mu := by positivity
  have hq0 : 0 < q := by positivity
  have hq1 : q < 1 := by rw [hq, div_lt_one hp]; linarith
  have hq1' : 1 - q = (1 + theta * mu)⁻¹ := by rw [hq]; field_simp; ring
  have key : ∀ k : ℕ, Real.exp ((negBinomialLogLik theta (fun _ : Fin 1 => (k : ℝ)) (fun _ => 1) (fun _ => mu)).getD 0)
      = (1 - q) ^ r * (nbCoef r k * q ^ k) := by
    intro k
    unfold negBinomialLogLik
    have hno : ¬∃ i : Fin 1, (fun _ : Fin 1 => (k : ℝ)) i = 0 ∧ (fun _ : Fin 1 => mu) i = 0 := by
      rintro ⟨i, _, h⟩; exact hmu.ne' h
    simp only []
    rw [if_neg hno]
    simp only [Finset.univ_unique, Finset.sum_const, Finset.card_singleton, one_smul, one_mul, Option.getD_some, ← hr]
    have hG := Real.Gamma_pos_of_pos hr0
    have hGk : 0 < Real.Gamma (k + r) := Real.Gamma_pos_of_pos (by positivity)
    have hf : (0 : ℝ) < k.factorial := by exact_mod_cast k.factorial_pos
    unfold lgamma nbCoef
    rw [Real.Gamma_nat_eq_factorial, hq1', Real.inv_rpow hp.le, hq, div_pow]
    rw [Real.exp_sub, Real.exp_sub, Real.exp_add, Real.exp_sub, Real.exp_log hG, Real.exp_log hGk, Real.exp_log hf, mul_comm (k : ℝ),
      Real.exp_mul, Real.exp_log (by positivity), mul_comm ((k : ℝ) + r), Real.exp_mul, Real.exp_log hp, Real.rpow_natCast,
      Real.rpow_add hp, Real.rpow_natCast]
    have : 0 < (1 + theta * mu) ^ r := Real.rpow_pos_of_pos hp r
    field_simp
  have hqp : 0 < 1 - q := by linarith
  have hpr : 0 < (1 - q) ^ r := Real.rpow_pos_of_pos hqp r
  obtain ⟨m1, m2⟩ := nb_moments hr0 hq0.le hq1
  have hrq : r * q = mu * (1 - q) := by rw [hq1', hr, hq]; field_simp
  refine isDensity_count (fun y => (Real.exp_pos _).le) ?_ ?_ ?_
  · simp only [key]
    exact hasSum_conv ((nb_series hr0 hq0.le hq1).mul_left ((1 - q) ^ r)) (fun k => rfl) (by field_simp)
  · simp only [key]
    refine hasSum_conv (m1.mul_left ((1 - q) ^ r)) (fun k => by ring) ?_
    rw [hrq, Real.rpow_add_one hqp.ne']
    field_simp
  · simp only [key]
    refine hasSum_conv (m2.mul_left ((1 - q) ^ r)) (fun k => by ring) ?_
    have h2 : r * (r + 1) * q ^ 2 = (1 + theta) * mu ^ 2 * (1 - q) ^ 2 := by
      have : r + 1 = (1 + theta) * r := by rw [hr]; field_simp
      rw [this]
      linear_combination (1 + theta) * (r * q + mu * (1 - q)) * hrq
    rw [hrq, h2, Real.rpow_add_one hqp.ne', Real.rpow_add_one hqp.ne', Real.rpow_add_one hqp.ne']
    have hgen : ∀ P c : ℝ, 0 < P → 0 < c → P * (mu * c / (P * c) + (1 + theta) * mu ^ 2 * c ^ 2 / (P * c * c)) = mu + theta * mu ^ 2 + mu ^ 2 := by
      intro P c hP hc
      field_simp
      ring
    exact hgen _ _ hpr hqp

end Glum
