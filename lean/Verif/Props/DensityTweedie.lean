import Mathlib.Analysis.Convex.Deriv
import Mathlib.MeasureTheory.Integral.DominatedConvergence
import Verif.Props.TweedieSeries
import Verif.Props.Density
/-
C72 (Tweedie with power in (1, 2)) and the truncation error of the series (C62).
-/
set_option linter.unusedSectionVars false
set_option linter.unusedVariables false
set_option linter.unusedSimpArgs false

namespace Glum
open Spec MeasureTheory

/-! ### the truncation error -/

theorem concave_slopes {W : ℝ → ℝ} (hW : ConcaveOn ℝ (Set.Ioi 0) W) {x1 x2 y1 y2 : ℝ} (h0 : 0 < x1) (hx : x1 < x2) (hy : y1 < y2)
    (h1 : x1 ≤ y1) (h2 : x2 ≤ y2) : (W y2 - W y1) / (y2 - y1) ≤ (W x2 - W x1) / (x2 - x1) := by
  have a := hW.slope_anti (x := x1) h0 (show x2 ∈ Set.Ioi (0 : ℝ) \ {x1} from ⟨show 0 < x2 by linarith, hx.ne'⟩)
    (show y2 ∈ Set.Ioi (0 : ℝ) \ {x1} from ⟨show 0 < y2 by linarith, by simp; linarith⟩) h2
  have b := hW.slope_anti (x := y2) (show 0 < y2 by linarith) (show x1 ∈ Set.Ioi (0 : ℝ) \ {y2} from ⟨h0, by simp; linarith⟩)
    (show y1 ∈ Set.Ioi (0 : ℝ) \ {y2} from ⟨show 0 < y1 by linarith, hy.ne⟩) h1
  rw [slope_comm W y2 x1, slope_comm W y2 y1] at b
  have c := le_trans b a
  rwa [slope_def_field, slope_def_field] at c

theorem tail_upper {W : ℝ → ℝ} (hW : ConcaveOn ℝ (Set.Ioi 0) W) {jm : ℝ} (hjm : 0 < jm) {c u : ℕ} (hc : jm ≤ c) (hc1 : (c : ℝ) < jm + 1)
    (hcu : c ≤ u) (hu : W u < W jm - 37) (hs : Summable fun k : ℕ => Real.exp (W (k + 1 : ℕ))) :
    ∑' k : ℕ, Real.exp (W (u + 1 + k : ℕ)) ≤ Real.exp (-37) / (1 - Real.exp (-37)) * ∑ j ∈ Finset.Icc c u, Real.exp (W (j : ℕ)) := by
  have hcpos : 1 ≤ c := by
    have : (0 : ℝ) < c := lt_of_lt_of_le hjm hc
    exact_mod_cast this
  have hju : jm < u := by
    rcases eq_or_lt_of_le (le_trans hc (by exact_mod_cast hcu : (c : ℝ) ≤ u)) with h | h
    · rw [← h] at hu; linarith
    · exact h
  have hsum : ∀ b : ℕ, 1 ≤ b → Summable fun k : ℕ => Real.exp (W (b + k : ℕ)) := by
    intro b hb
    have := (summable_nat_add_iff (b - 1)).2 hs
    refine this.congr fun k => ?_
    rw [show k + (b - 1) + 1 = b + k by omega]
  set m := u - c + 1 with hm
  have step : ∀ k : ℕ, Real.exp (W (u + 1 + k : ℕ)) ≤ Real.exp (-37) * Real.exp (W (c + k : ℕ)) := by
    intro k
    rw [← Real.exp_add]
    apply Real.exp_le_exp.2
    have e : ((u + 1 + k : ℕ) : ℝ) = ((c + k : ℕ) : ℝ) + m := by
      rw [hm]; norm_cast; omega
    have hk0 : (0 : ℝ) ≤ k := by positivity
    have hm0 : (0 : ℝ) < m := by rw [hm]; positivity
    have := concave_slopes hW (x1 := jm) (x2 := u) (y1 := (c + k : ℕ)) (y2 := (u + 1 + k : ℕ)) hjm hju (by exact_mod_cast (by omega : c + k < u + 1 + k))
      (by push_cast; linarith) (by push_cast; linarith)
    rw [div_le_div_iff₀ (by rw [e]; linarith) (by linarith)] at this
    have e2 : ((u + 1 + k : ℕ) : ℝ) - ((c + k : ℕ) : ℝ) = m := by rw [e]; ring
    rw [e2] at this
    have hmu : (u : ℝ) - jm < m := by
      have : (m : ℝ) = u - c + 1 := by rw [hm]; push_cast [Nat.cast_sub hcu]; ring
      rw [this]; linarith
    have hpos : 0 < (u : ℝ) - jm := by linarith
    by_contra hcon
    push Not at hcon
    have h3 : -37 < W (u + 1 + k : ℕ) - W (c + k : ℕ) := by linarith
    nlinarith
  have hle : ∑' k : ℕ, Real.exp (W (u + 1 + k : ℕ)) ≤ Real.exp (-37) * ∑' k : ℕ, Real.exp (W (c + k : ℕ)) := by
    rw [← tsum_mul_left]
    exact (hsum (u + 1) (by omega)).tsum_le_tsum step ((hsum c hcpos).mul_left _)
  have hsplit : ∑' k : ℕ, Real.exp (W (c + k : ℕ)) = ∑ j ∈ Finset.Icc c u, Real.exp (W (j : ℕ)) + ∑' k : ℕ, Real.exp (W (u + 1 + k : ℕ)) := by
    rw [← (hsum c hcpos).sum_add_tsum_nat_add m]
    congr 1
    · rw [← Finset.Ico_add_one_right_eq_Icc, Finset.sum_Ico_eq_sum_range]
      rw [show u + 1 - c = m by omega]
    · refine tsum_congr fun k => ?_
      rw [show c + (k + m) = u + 1 + k by omega]
  have hlt : Real.exp (-37) < 1 := by rw [Real.exp_lt_one_iff]; norm_num
  rw [hsplit] at hle
  rw [div_mul_eq_mul_div, le_div_iff₀ (by linarith)]
  nlinarith

theorem tail_lower {W : ℝ → ℝ} (hW : ConcaveOn ℝ (Set.Ioi 0) W) {jm : ℝ} {f l : ℕ} (hf : (f : ℝ) ≤ jm) (hf1 : jm < f + 1)
    (hl1 : 1 ≤ l) (hlf : l ≤ f) (hl : W l < W jm - 37) :
    ∑ j ∈ Finset.Ico 1 l, Real.exp (W (j : ℕ)) ≤ Real.exp (-37) / (1 - Real.exp (-37)) * ∑ j ∈ Finset.Icc l f, Real.exp (W (j : ℕ)) := by
  have hl0 : (0 : ℝ) < l := by exact_mod_cast hl1
  have hlj : (l : ℝ) < jm := by
    rcases eq_or_lt_of_le (le_trans (by exact_mod_cast hlf : (l : ℝ) ≤ f) hf) with h | h
    · rw [h] at hl; linarith
    · exact h
  set m := f - l + 1 with hm
  have hmr : (m : ℝ) = f - l + 1 := by rw [hm]; push_cast [Nat.cast_sub hlf]; ring
  have step : ∀ j ∈ Finset.Ico 1 l, Real.exp (W (j : ℕ)) ≤ Real.exp (-37) * Real.exp (W (j + m : ℕ)) := by
    intro j hj
    rw [Finset.mem_Ico] at hj
    rw [← Real.exp_add]
    apply Real.exp_le_exp.2
    have hj0 : (0 : ℝ) < j := by exact_mod_cast hj.1
    have hm0 : (0 : ℝ) < m := by rw [hm]; positivity
    have hjm : ((j + m : ℕ) : ℝ) ≤ f := by exact_mod_cast (by omega : j + m ≤ f)
    have := concave_slopes hW (x1 := j) (x2 := (j + m : ℕ)) (y1 := l) (y2 := jm) hj0 (by push_cast; linarith) hlj
      (by exact_mod_cast hj.2.le) (by linarith)
    rw [div_le_div_iff₀ (by linarith) (by push_cast; linarith)] at this
    have e2 : ((j + m : ℕ) : ℝ) - j = m := by push_cast; ring
    rw [e2] at this
    have hmu : jm - l < m := by rw [hmr]; linarith
    have hpos : 0 < jm - (l : ℝ) := by linarith
    by_contra hcon
    push Not at hcon
    have h3 : W (j + m : ℕ) - W j < 37 := by linarith
    nlinarith
  have hle : ∑ j ∈ Finset.Ico 1 l, Real.exp (W (j : ℕ)) ≤ Real.exp (-37) * ∑ j ∈ Finset.Icc 1 f, Real.exp (W (j : ℕ)) := by
    refine le_trans (Finset.sum_le_sum step) ?_
    rw [← Finset.mul_sum]
    refine mul_le_mul_of_nonneg_left ?_ (Real.exp_pos _).le
    rw [Finset.sum_Ico_add' (fun j : ℕ => Real.exp (W (j : ℕ))) 1 l m]
    refine Finset.sum_le_sum_of_subset_of_nonneg ?_ fun _ _ _ => (Real.exp_pos _).le
    intro j hj
    simp only [Finset.mem_Ico, Finset.mem_Icc] at hj ⊢
    omega
  have hsplit : ∑ j ∈ Finset.Icc 1 f, Real.exp (W (j : ℕ)) = ∑ j ∈ Finset.Ico 1 l, Real.exp (W (j : ℕ)) + ∑ j ∈ Finset.Icc l f, Real.exp (W (j : ℕ)) := by
    rw [← Finset.Ico_add_one_right_eq_Icc, ← Finset.Ico_add_one_right_eq_Icc]
    exact (Finset.sum_Ico_consecutive _ hl1 (by omega)).symm
  have hlt : Real.exp (-37) < 1 := by rw [Real.exp_lt_one_iff]; norm_num
  rw [hsplit] at hle
  rw [div_mul_eq_mul_div, le_div_iff₀ (by linarith)]
  nlinarith

theorem logWj_summable (y disp : ℝ) {p : ℝ} (h1 : 1 < p) (h2 : p < 2) : Summable fun k : ℕ => Real.exp (logWj y p disp (k + 1 : ℕ)) := by
  have hal : 0 < -((2 - p) / (1 - p)) := by
    rw [← div_neg]; exact div_pos (by linarith) (by linarith)
  set L := logZ y p disp with hL
  have hb : Summable fun k : ℕ => 2 * (Real.exp L ^ (k + 1) / (k + 1).factorial) :=
    (((summable_nat_add_iff 1).2 (Real.summable_pow_div_factorial (Real.exp L))).mul_left 2)
  refine Summable.of_nonneg_of_le (fun k => (Real.exp_pos _).le) (fun k => ?_) hb
  have hg : lgamma (1 + ((k + 1 : ℕ) : ℝ)) = Real.log ((k + 1).factorial : ℝ) := by
    unfold lgamma
    rw [add_comm, Real.Gamma_nat_eq_factorial]
  have hge := lgamma_ge (x := -((2 - p) / (1 - p)) * (k + 1 : ℕ)) (by positivity)
  have hfac : (0 : ℝ) < ((k + 1).factorial : ℝ) := by exact_mod_cast (k + 1).factorial_pos
  simp only [logWj]
  rw [← hL, hg, Real.exp_sub, Real.exp_sub, Real.exp_log hfac, mul_comm ((k + 1 : ℕ) : ℝ), Real.exp_mul, Real.rpow_natCast, div_eq_mul_inv _ (Real.exp (lgamma _)), mul_comm]
  refine mul_le_mul_of_nonneg_right ?_ (by positivity)
  rw [← Real.exp_neg]
  calc Real.exp (-lgamma (-((2 - p) / (1 - p)) * (k + 1 : ℕ))) ≤ Real.exp (Real.log 2) := Real.exp_le_exp.2 (by linarith)
    _ = 2 := Real.exp_log (by norm_num)

theorem logWj_term {y p disp : ℝ} (hy : 0 < y) (h1 : 1 < p) (h2 : p < 2) (hd : 0 < disp) (k : ℕ) :
    Real.exp (logWj y p disp (k + 1 : ℕ)) = tweedieTerm y p disp (k + 1) := by
  have hp1 : 0 < p - 1 := by linarith
  have hp2 : 0 < 2 - p := by linarith
  have ha : (2 - p) / (1 - p) = -((2 - p) / (p - 1)) := by rw [← neg_sub p 1, div_neg]
  have ha0 : 0 < (2 - p) / (p - 1) := by positivity
  unfold tweedieTerm logWj logZ
  simp only [ha, neg_neg]
  have hg : lgamma (1 + ((k + 1 : ℕ) : ℝ)) = Real.log ((k + 1).factorial : ℝ) := by
    unfold lgamma
    rw [add_comm, Real.Gamma_nat_eq_factorial]
  have hfac : (0 : ℝ) < ((k + 1).factorial : ℝ) := by exact_mod_cast (k + 1).factorial_pos
  have hG : 0 < Real.Gamma (((k + 1 : ℕ) : ℝ) * ((2 - p) / (p - 1))) := Real.Gamma_pos_of_pos (by positivity)
  rw [hg]
  unfold lgamma
  rw [mul_comm ((2 - p) / (p - 1)) ((k + 1 : ℕ) : ℝ)]
  generalize hn : ((k + 1 : ℕ) : ℝ) = n at *
  rw [Real.exp_sub, Real.exp_sub, Real.exp_log hfac, Real.exp_log hG, ← Real.rpow_natCast (2 - p) (k + 1), hn,
    Real.rpow_def_of_pos hy, Real.rpow_def_of_pos hp1, Real.rpow_def_of_pos hd, Real.rpow_def_of_pos hp2]
  have e : n * (-((2 - p) / (p - 1)) * Real.log (p - 1) - -((2 - p) / (p - 1)) * Real.log y - (1 - -((2 - p) / (p - 1))) * Real.log disp - Real.log (2 - p))
      = Real.log y * (n * ((2 - p) / (p - 1))) - (Real.log (p - 1) * (n * ((2 - p) / (p - 1))) + Real.log disp * (n * (1 / (p - 1))) + Real.log (2 - p) * n) := by
    field_simp
    ring
  rw [e, Real.exp_sub, Real.exp_add, Real.exp_add]
  simp only [div_div]

/-- Sums over integer windows. -/
theorem int_window (g : ℝ → ℝ) (l u : ℤ) :
    ∑ j ∈ (Finset.Icc l u).filter (0 < ·), g (j : ℝ) = ∑ j ∈ Finset.Icc (max l 1).toNat u.toNat, g (j : ℕ) := by
  refine Finset.sum_bij' (fun j _ => j.toNat) (fun j _ => (j : ℤ)) ?_ ?_ ?_ ?_ ?_
  · intro j hj; simp only [Finset.mem_filter, Finset.mem_Icc] at hj ⊢; omega
  · intro j hj; simp only [Finset.mem_filter, Finset.mem_Icc] at hj ⊢; omega
  · intro j hj; simp only [Finset.mem_filter, Finset.mem_Icc] at hj; omega
  · intro j hj; simp
  · intro j hj
    simp only [Finset.mem_filter, Finset.mem_Icc] at hj
    congr 1
    have : ((j.toNat : ℤ)) = j := Int.toNat_of_nonneg (by omega)
    exact_mod_cast congrArg (fun z : ℤ => (z : ℝ)) this.symm

/-- **C62.** The truncated series equals the full one up to a relative error of `2 e^-37 / (1 - e^-37)`, uniformly in the observation,
the power and the dispersion: once the loops have had enough passes to terminate, the code's log-normalisation is below the exact one by at
most that much. -/
theorem c62_truncation_error (y p disp : ℝ) (hy : 0 < y) (h1 : 1 < p) (h2 : p < 2) (hd : 0 < disp) :
    ∃ fuel0, ∀ fuel ≥ fuel0,
      Real.log (∑' k : ℕ, tweedieTerm y p disp (k + 1)) - Real.log y - 2 * Real.exp (-37) / (1 - Real.exp (-37))
        ≤ tweedieNormalization fuel y p disp ∧
      tweedieNormalization fuel y p disp ≤ Real.log (∑' k : ℕ, tweedieTerm y p disp (k + 1)) - Real.log y := by
  have hW := logWj_concave (y := y) (disp := disp) h1 h2
  set jmax := tweedieJMax y p disp with hjm
  have hj0 : 0 < jmax := Real.exp_pos _
  set wmax := logWj y p disp jmax with hwmax
  set crt := wmax - 37 with hcrt
  obtain ⟨N, hN⟩ := logWj_lt y disp crt h1 h2
  refine ⟨max N ⌊jmax⌋.toNat, fun fuel hfuel => ?_⟩
  have hfl : 0 ≤ ⌊jmax⌋ := Int.floor_nonneg.2 hj0.le
  have hce : 0 < ⌈jmax⌉ := Int.ceil_pos.2 hj0
  have hfN : N ≤ fuel := le_trans (le_max_left _ _) hfuel
  have hfF : ⌊jmax⌋.toNat ≤ fuel := le_trans (le_max_right _ _) hfuel
  set W : ℤ → ℝ := fun j => logWj y p disp j with hWdef
  have castN : ∀ m : ℤ, 0 ≤ m → ((m.toNat : ℕ) : ℝ) = (m : ℝ) := by
    intro m hm
    have : ((m.toNat : ℤ)) = m := Int.toNat_of_nonneg hm
    exact_mod_cast congrArg (fun z : ℤ => (z : ℝ)) this
  have hNZ : ∀ m : ℤ, (N : ℤ) ≤ m → W m < crt := by
    intro m hm
    have hm0 : 0 ≤ m := by omega
    have := hN m.toNat (by omega)
    rw [castN m hm0] at this
    exact this
  obtain ⟨hu1, hu2⟩ := upperLoop_spec W crt fuel ⌈jmax⌉ N hNZ (by omega)
  obtain ⟨hl1, hl2, hl3⟩ := lowerLoop_spec W crt fuel ⌊jmax⌋ hfl (by omega)
  set u := upperLoop W crt fuel ⌈jmax⌉ with hu
  set l : ℤ := (open Classical in if W 1 ≤ crt then lowerLoop W crt fuel ⌊jmax⌋ else 1) with hl
  have hnorm : tweedieNormalization fuel y p disp
      = wmax + Real.log (∑ j ∈ (Finset.Icc l u).filter (0 < ·), Real.exp (logWj y p disp j - wmax)) - Real.log y := rfl
  rw [int_window (fun x => Real.exp (logWj y p disp x - wmax)) l u] at hnorm
  set Ln := (max l 1).toNat with hLn
  set Un := u.toNat with hUn
  have hlc : l ≤ ⌈jmax⌉ := by
    rw [hl]
    split
    · exact le_trans hl1 (Int.floor_le_ceil jmax)
    · omega
  have hLU : Ln ≤ Un := by omega
  have hs := logWj_summable y disp h1 h2
  have hterm : ∀ k : ℕ, tweedieTerm y p disp (k + 1) = Real.exp (logWj y p disp (k + 1 : ℕ)) := fun k => (logWj_term hy h1 h2 hd k).symm
  simp only [hterm]
  -- the three parts of the series
  set e : ℕ → ℝ := fun j => Real.exp (logWj y p disp (j : ℕ)) with he
  have hparts : ∑' k : ℕ, e (k + 1) = ∑ j ∈ Finset.Ico 1 Ln, e j + ∑ j ∈ Finset.Icc Ln Un, e j + ∑' k : ℕ, e (Un + 1 + k) := by
    rw [← hs.sum_add_tsum_nat_add Un]
    congr 1
    · rw [← Finset.Ico_add_one_right_eq_Icc, Finset.sum_Ico_consecutive _ (by omega) (by omega), Finset.sum_Ico_eq_sum_range]
      refine Finset.sum_congr (by congr 1) fun k _ => ?_
      rw [add_comm]
    · refine tsum_congr fun k => ?_
      rw [he]; simp only []
      rw [show k + Un + 1 = Un + 1 + k by omega]
  have hSw : 0 < ∑ j ∈ Finset.Icc Ln Un, e j :=
    Finset.sum_pos (fun _ _ => Real.exp_pos _) ⟨Ln, by simp [hLU]⟩
  have hlow0 : 0 ≤ ∑ j ∈ Finset.Ico 1 Ln, e j := Finset.sum_nonneg fun _ _ => (Real.exp_pos _).le
  have hup0 : 0 ≤ ∑' k : ℕ, e (Un + 1 + k) := tsum_nonneg fun _ => (Real.exp_pos _).le
  set q := Real.exp (-37) / (1 - Real.exp (-37)) with hq
  have hlt : Real.exp (-37) < 1 := by rw [Real.exp_lt_one_iff]; norm_num
  have hq0 : 0 ≤ q := div_nonneg (Real.exp_pos _).le (by linarith)
  have hup : ∑' k : ℕ, e (Un + 1 + k) ≤ q * ∑ j ∈ Finset.Icc Ln Un, e j := by
    have hcc : ((⌈jmax⌉.toNat : ℕ) : ℝ) = (⌈jmax⌉ : ℝ) := castN _ hce.le
    have huu : ((Un : ℕ) : ℝ) = (u : ℝ) := castN _ (by omega)
    refine le_trans (tail_upper hW hj0 (c := ⌈jmax⌉.toNat) (u := Un) ?_ ?_ (by omega) ?_ hs) ?_
    · rw [hcc]; exact Int.le_ceil _
    · rw [hcc]; exact Int.ceil_lt_add_one _
    · rw [huu]; exact hu2
    · refine mul_le_mul_of_nonneg_left (Finset.sum_le_sum_of_subset_of_nonneg ?_ fun _ _ _ => (Real.exp_pos _).le) hq0
      intro j hj
      simp only [Finset.mem_Icc] at hj ⊢
      omega
  have hlow : ∑ j ∈ Finset.Ico 1 Ln, e j ≤ q * ∑ j ∈ Finset.Icc Ln Un, e j := by
    by_cases hL1 : l ≤ 1
    · have : Ln = 1 := by omega
      rw [this, Finset.Ico_self, Finset.sum_empty]
      rw [this] at hSw
      exact mul_nonneg hq0 hSw.le
    · have hlow' : l = lowerLoop W crt fuel ⌊jmax⌋ ∧ W l < crt := by
        rw [hl] at hL1 ⊢
        split at hL1
        · next h =>
          rw [if_pos h]
          refine ⟨rfl, ?_⟩
          rcases hl3 with h' | h'
          · omega
          · exact h'
        · omega
      have hlf : l ≤ ⌊jmax⌋ := by rw [hlow'.1]; exact hl1
      have hff : ((⌊jmax⌋.toNat : ℕ) : ℝ) = (⌊jmax⌋ : ℝ) := castN _ hfl
      have hll : ((Ln : ℕ) : ℝ) = (l : ℝ) := by
        rw [hLn, max_eq_left (by omega)]; exact castN _ (by omega)
      refine le_trans (tail_lower hW (f := ⌊jmax⌋.toNat) (l := Ln) (jm := jmax) ?_ ?_ (by omega) (by omega) ?_) ?_
      · rw [hff]; exact Int.floor_le _
      · rw [hff]; exact Int.lt_floor_add_one _
      · rw [hll]; exact hlow'.2
      · refine mul_le_mul_of_nonneg_left (Finset.sum_le_sum_of_subset_of_nonneg ?_ fun _ _ _ => (Real.exp_pos _).le) hq0
        intro j hj
        simp only [Finset.mem_Icc] at hj ⊢
        have := Int.floor_le_ceil jmax
        omega
  have hnorm2 : tweedieNormalization fuel y p disp = Real.log (∑ j ∈ Finset.Icc Ln Un, e j) - Real.log y := by
    rw [hnorm]
    have : ∑ j ∈ Finset.Icc Ln Un, Real.exp (logWj y p disp (j : ℕ) - wmax) = (∑ j ∈ Finset.Icc Ln Un, e j) / Real.exp wmax := by
      rw [Finset.sum_div]
      exact Finset.sum_congr rfl fun j _ => by rw [Real.exp_sub]
    rw [this, Real.log_div hSw.ne' (Real.exp_pos _).ne', Real.log_exp]
    ring
  rw [hnorm2, hparts]
  set S := ∑ j ∈ Finset.Icc Ln Un, e j with hS
  constructor
  · have hle : ∑ j ∈ Finset.Ico 1 Ln, e j + S + ∑' k : ℕ, e (Un + 1 + k) ≤ S * (1 + 2 * q) := by linarith
    have := Real.log_le_log (by linarith) hle
    rw [Real.log_mul hSw.ne' (by positivity)] at this
    have h3 := Real.log_le_sub_one_of_pos (show 0 < 1 + 2 * q by positivity)
    have h4 : 2 * Real.exp (-37) / (1 - Real.exp (-37)) = 2 * q := by rw [hq]; ring
    rw [h4]
    linarith
  · have := Real.log_le_log hSw (show S ≤ ∑ j ∈ Finset.Ico 1 Ln, e j + S + ∑' k : ℕ, e (Un + 1 + k) by linarith)
    linarith

/-! ### the full series is a compound Poisson-gamma density -/

/-- Gamma density with shape `a` and rate `c`. -/
noncomputable def gamDens (a c y : ℝ) : ℝ := c ^ a / Real.Gamma a * (y ^ (a - 1) * Real.exp (-(c * y)))

theorem gamDens_nonneg {a c y : ℝ} (ha : 0 < a) (hc : 0 < c) (hy : 0 < y) : 0 ≤ gamDens a c y := by
  unfold gamDens
  have := Real.Gamma_pos_of_pos ha
  positivity

theorem gamDens_moments {a c : ℝ} (ha : 0 < a) (hc : 0 < c) :
    (Integrable (gamDens a c) halfLine ∧ ∫ y, gamDens a c y ∂halfLine = 1) ∧
    (Integrable (fun y => y * gamDens a c y) halfLine ∧ ∫ y, y * gamDens a c y ∂halfLine = a / c) ∧
    (Integrable (fun y => y ^ 2 * gamDens a c y) halfLine ∧ ∫ y, y ^ 2 * gamDens a c y ∂halfLine = a * (a + 1) / c ^ 2) := by
  obtain ⟨⟨i0, e0⟩, ⟨i1, e1⟩, i2, e2⟩ := gamma_moments ha hc
  have hG := Real.Gamma_pos_of_pos ha
  have hca : 0 < c ^ a := Real.rpow_pos_of_pos hc a
  have hC : c ^ a / Real.Gamma a * (Real.Gamma a / c ^ a) = 1 := by field_simp
  have f1 : (fun y => y * gamDens a c y) = fun y => c ^ a / Real.Gamma a * (y * (y ^ (a - 1) * Real.exp (-(c * y)))) := by
    funext y; unfold gamDens; ring
  have f2 : (fun y => y ^ 2 * gamDens a c y) = fun y => c ^ a / Real.Gamma a * (y ^ 2 * (y ^ (a - 1) * Real.exp (-(c * y)))) := by
    funext y; unfold gamDens; ring
  refine ⟨⟨i0.const_mul _, ?_⟩, ⟨?_, ?_⟩, ?_, ?_⟩
  · unfold gamDens; rw [integral_const_mul, e0, hC]
  · rw [f1]; exact i1.const_mul _
  · rw [f1, integral_const_mul, e1]; linear_combination (a / c) * hC
  · rw [f2]; exact i2.const_mul _
  · rw [f2, integral_const_mul, e2]; linear_combination (a * (a + 1) / c ^ 2) * hC

section
variable {p phi mu : ℝ} (h1 : 1 < p) (h2 : p < 2) (hphi : 0 < phi) (hmu : 0 < mu)

/-- Poisson rate, gamma rate, and gamma shape per event of the compound distribution. -/
noncomputable def twLam (p phi mu : ℝ) : ℝ := mu ^ (2 - p) / ((2 - p) * phi)
noncomputable def twRate (p phi mu : ℝ) : ℝ := mu ^ (1 - p) / ((p - 1) * phi)

include h1 h2 hphi hmu in
theorem tweedie_term_eq {y : ℝ} (hy : 0 < y) (k : ℕ) :
    Real.exp ((y * mu ^ (1 - p) / (1 - p) - mu ^ (2 - p) / (2 - p)) / phi) * tweedieTerm y p phi (k + 1) / y
      = Real.exp (-twLam p phi mu) * (twLam p phi mu ^ (k + 1) / (k + 1).factorial) *
        gamDens ((k + 1 : ℕ) * ((2 - p) / (p - 1))) (twRate p phi mu) y := by
  have hp1 : 0 < p - 1 := by linarith
  have hp2 : 0 < 2 - p := by linarith
  have hm1 : 0 < mu ^ (1 - p) := Real.rpow_pos_of_pos hmu _
  have hm2 : 0 < mu ^ (2 - p) := Real.rpow_pos_of_pos hmu _
  have hlam : 0 < twLam p phi mu := by unfold twLam; positivity
  have hrate : 0 < twRate p phi mu := by unfold twRate; positivity
  have hfac : (0 : ℝ) < ((k + 1).factorial : ℝ) := by exact_mod_cast (k + 1).factorial_pos
  have hG : 0 < Real.Gamma (((k + 1 : ℕ) : ℝ) * ((2 - p) / (p - 1))) := Real.Gamma_pos_of_pos (by positivity)
  have hexp : Real.exp ((y * mu ^ (1 - p) / (1 - p) - mu ^ (2 - p) / (2 - p)) / phi)
      = Real.exp (-twLam p phi mu) * Real.exp (-(twRate p phi mu * y)) := by
    rw [← Real.exp_add]
    congr 1
    unfold twLam twRate
    generalize mu ^ (1 - p) = A
    rw [show (1 - p) = -(p - 1) by ring]
    field_simp
    ring
  have hprod : 1 / ((p - 1) ^ (((k + 1 : ℕ) : ℝ) * ((2 - p) / (p - 1))) * phi ^ (((k + 1 : ℕ) : ℝ) * (1 / (p - 1))) * (2 - p) ^ (k + 1))
      = twLam p phi mu ^ (k + 1) * twRate p phi mu ^ (((k + 1 : ℕ) : ℝ) * ((2 - p) / (p - 1))) := by
    rw [← Real.rpow_natCast (2 - p) (k + 1), ← Real.rpow_natCast (twLam p phi mu) (k + 1)]
    generalize ((k + 1 : ℕ) : ℝ) = n
    rw [Real.rpow_def_of_pos hp1, Real.rpow_def_of_pos hphi, Real.rpow_def_of_pos hp2, Real.rpow_def_of_pos hlam, Real.rpow_def_of_pos hrate,
      ← Real.exp_add, ← Real.exp_add, ← Real.exp_add, one_div, ← Real.exp_neg]
    congr 1
    unfold twLam twRate
    rw [Real.log_div hm2.ne' (by positivity), Real.log_div hm1.ne' (by positivity), Real.log_mul hp2.ne' hphi.ne', Real.log_mul hp1.ne' hphi.ne',
      Real.log_rpow hmu, Real.log_rpow hmu]
    field_simp
    ring
  rw [hexp]
  unfold tweedieTerm gamDens
  set a := ((k + 1 : ℕ) : ℝ) * ((2 - p) / (p - 1)) with ha
  rw [Real.rpow_sub_one hy.ne']
  have : y ^ a / ((p - 1) ^ a * phi ^ (((k + 1 : ℕ) : ℝ) * (1 / (p - 1))) * (2 - p) ^ (k + 1) * ((k + 1).factorial : ℝ) * Real.Gamma a)
      = y ^ a * (1 / ((p - 1) ^ a * phi ^ (((k + 1 : ℕ) : ℝ) * (1 / (p - 1))) * (2 - p) ^ (k + 1))) / ((k + 1).factorial * Real.Gamma a) := by
    generalize (p - 1) ^ a * phi ^ (((k + 1 : ℕ) : ℝ) * (1 / (p - 1))) * (2 - p) ^ (k + 1) = B
    rw [mul_one_div, div_div, mul_assoc B]
  rw [this, hprod]
  field_simp

include h1 h2 hphi hmu in
theorem tweedie_density : IsDensity (Measure.dirac 0 + halfLine) (tweedieDensity p phi mu) mu (phi * mu ^ p) ∧
    ∀ y, 0 ≤ y → 0 < tweedieDensity p phi mu y := by
  have hp1 : 0 < p - 1 := by linarith
  have hp2 : 0 < 2 - p := by linarith
  have hm1 : 0 < mu ^ (1 - p) := Real.rpow_pos_of_pos hmu _
  have hm2 : 0 < mu ^ (2 - p) := Real.rpow_pos_of_pos hmu _
  set lam := twLam p phi mu with hlamd
  set c := twRate p phi mu with hcd
  have hlam : 0 < lam := by rw [hlamd]; unfold twLam; positivity
  have hc : 0 < c := by rw [hcd]; unfold twRate; positivity
  set kap := (2 - p) / (p - 1) with hkap
  have hkap0 : 0 < kap := by positivity
  set w : ℕ → ℝ := fun k => Real.exp (-lam) * (lam ^ (k + 1) / (k + 1).factorial) with hw
  have hw0 : ∀ k, 0 < w k := fun k => by rw [hw]; positivity
  set F : ℕ → ℝ → ℝ := fun k y => w k * gamDens ((k + 1 : ℕ) * kap) c y with hF
  have ha : ∀ k : ℕ, 0 < ((k + 1 : ℕ) : ℝ) * kap := fun k => by positivity
  have key : ∀ y, 0 < y → tweedieDensity p phi mu y = ∑' k, F k y := by
    intro y hy
    unfold tweedieDensity
    rw [if_neg (not_lt.2 hy.le), if_neg hy.ne', ← tsum_mul_left, ← tsum_div_const]
    exact tsum_congr fun k => tweedie_term_eq h1 h2 hphi hmu hy k
  have key0 : tweedieDensity p phi mu 0 = Real.exp (-lam) := by
    unfold tweedieDensity; rw [if_neg (lt_irrefl _), if_pos rfl, hlamd]; rfl
  -- sums of the weights
  obtain ⟨q0, q1, q2⟩ := poisson_sums lam
  have ee : Real.exp (-lam) * Real.exp lam = 1 := by rw [← Real.exp_add]; simp
  have shift : ∀ (g : ℕ → ℝ) (s : ℝ), HasSum g s → HasSum (fun k => g (k + 1)) (s - g 0) := by
    intro g s h
    have := (hasSum_nat_add_iff' 1).2 h
    simpa using this
  have w0 : HasSum w (1 - Real.exp (-lam)) := by
    have := (shift _ _ q0).mul_left (Real.exp (-lam))
    refine hasSum_conv this (fun k => rfl) ?_
    simp only [pow_zero, Nat.factorial_zero, Nat.cast_one, div_one]
    linear_combination ee
  have w1 : HasSum (fun k : ℕ => w k * (((k + 1 : ℕ) : ℝ) * kap / c)) (kap * lam / c) := by
    have := (shift _ _ q1).mul_left (Real.exp (-lam) * kap / c)
    refine hasSum_conv this (fun k => ?_) ?_
    · rw [hw]; simp only []; ring
    · simp only [Nat.cast_zero, zero_mul, sub_zero]
      linear_combination (kap * lam / c) * ee
  have w2 : HasSum (fun k : ℕ => w k * (((k + 1 : ℕ) : ℝ) * kap * (((k + 1 : ℕ) : ℝ) * kap + 1) / c ^ 2)) ((kap ^ 2 * (lam + lam ^ 2) + kap * lam) / c ^ 2) := by
    have := ((shift _ _ q2).mul_left (Real.exp (-lam) * kap ^ 2 / c ^ 2)).add ((shift _ _ q1).mul_left (Real.exp (-lam) * kap / c ^ 2))
    refine hasSum_conv this (fun k => ?_) ?_
    · rw [hw]; simp only []; ring
    · simp only [Nat.cast_zero, ne_eq, OfNat.ofNat_ne_zero, not_false_eq_true, zero_pow, zero_mul, sub_zero]
      linear_combination ((kap ^ 2 * (lam + lam ^ 2) + kap * lam) / c ^ 2) * ee
  -- term-by-term integration
  have moment : ∀ (r : ℕ) (val : ℕ → ℝ) (s : ℝ), 0 < s →
      (∀ k : ℕ, Integrable (fun y => y ^ r * gamDens ((k + 1 : ℕ) * kap) c y) halfLine ∧
        ∫ y, y ^ r * gamDens ((k + 1 : ℕ) * kap) c y ∂halfLine = val k) →
      HasSum (fun k => w k * val k) s →
      Integrable (fun y => y ^ r * tweedieDensity p phi mu y) halfLine ∧ ∫ y, y ^ r * tweedieDensity p phi mu y ∂halfLine = s := by
    intro r val s hs hval hsum
    set H : ℕ → ℝ → ℝ := fun k y => w k * (y ^ r * gamDens ((k + 1 : ℕ) * kap) c y) with hH
    have hint : ∀ k, Integrable (H k) halfLine := fun k => (hval k).1.const_mul _
    have hval' : ∀ k, ∫ y, H k y ∂halfLine = w k * val k := fun k => by
      rw [hH]; simp only []; rw [integral_const_mul, (hval k).2]
    have hnorm : ∀ k, ∫ y, ‖H k y‖ ∂halfLine = w k * val k := by
      intro k
      rw [← hval' k]
      refine integral_congr_ae (halfLine_ae fun y hy => ?_)
      exact Real.norm_of_nonneg (mul_nonneg (hw0 k).le (mul_nonneg (by positivity) (gamDens_nonneg (ha k) hc hy)))
    have h := hasSum_integral_of_summable_integral_norm hint (by simp only [hnorm]; exact hsum.summable)
    simp only [hval'] at h
    have heq : ∫ y, (∑' k, H k y) ∂halfLine = s := h.unique hsum
    have hae : (fun y => ∑' k, H k y) =ᵐ[halfLine] fun y => y ^ r * tweedieDensity p phi mu y := by
      refine halfLine_ae fun y hy => ?_
      show ∑' k, H k y = y ^ r * tweedieDensity p phi mu y
      rw [key y hy, ← tsum_mul_left]
      exact tsum_congr fun k => by rw [hH, hF]; simp only []; ring
    have hInt : Integrable (fun y => ∑' k, H k y) halfLine := by
      by_contra hcon
      rw [integral_undef hcon] at heq
      linarith
    exact ⟨hInt.congr hae, (integral_congr_ae hae).symm.trans heq⟩
  have hlt : Real.exp (-lam) < 1 := by rw [Real.exp_lt_one_iff]; linarith
  have hm := fun k : ℕ => gamDens_moments (ha k) hc
  obtain ⟨i0, e0⟩ := moment 0 (fun _ => 1) (1 - Real.exp (-lam)) (by linarith) (fun k => by simpa only [pow_zero, one_mul] using (hm k).1)
    (by simpa only [mul_one] using w0)
  obtain ⟨i1, e1⟩ := moment 1 (fun k => ((k + 1 : ℕ) : ℝ) * kap / c) (kap * lam / c) (by positivity)
    (fun k => by simpa only [pow_one] using (hm k).2.1) w1
  obtain ⟨i2, e2⟩ := moment 2 (fun k => ((k + 1 : ℕ) : ℝ) * kap * (((k + 1 : ℕ) : ℝ) * kap + 1) / c ^ 2) _ (by positivity) (fun k => (hm k).2.2) w2
  simp only [pow_zero, one_mul] at i0 e0
  simp only [pow_one] at i1 e1
  have hmean : kap * lam / c = mu := by
    rw [hkap, hlamd, hcd]; unfold twLam twRate
    rw [show mu ^ (2 - p) = mu ^ (1 - p) * mu by rw [show (2 - p) = (1 - p) + 1 by ring, Real.rpow_add_one hmu.ne']]
    generalize mu ^ (1 - p) = A at hm1
    field_simp
  have hvar : (kap ^ 2 * (lam + lam ^ 2) + kap * lam) / c ^ 2 = phi * mu ^ p + mu ^ 2 := by
    have h3 : (kap + 1) / c = phi * mu ^ (p - 1) := by
      rw [hkap, hcd]; unfold twRate
      rw [show mu ^ (p - 1) = (mu ^ (1 - p))⁻¹ by rw [← Real.rpow_neg hmu.le]; congr 1; ring]
      generalize mu ^ (1 - p) = A at hm1
      field_simp
      ring
    have h4 : mu ^ p = mu ^ (p - 1) * mu := by
      rw [← Real.rpow_add_one hmu.ne']; congr 1; ring
    have h5 : (kap ^ 2 * (lam + lam ^ 2) + kap * lam) / c ^ 2 = (kap * lam / c) * ((kap + 1) / c) + (kap * lam / c) ^ 2 := by ring
    rw [h5, hmean, h3, h4]; ring
  have hsplit : ∀ f : ℝ → ℝ, Integrable f halfLine → Integrable f (Measure.dirac 0 + halfLine) ∧
      ∫ y, f y ∂(Measure.dirac 0 + halfLine) = f 0 + ∫ y, f y ∂halfLine := by
    intro f hf
    have hd0 : Integrable f (Measure.dirac (0 : ℝ)) := integrable_dirac (by simp)
    exact ⟨hd0.add_measure hf, by rw [integral_add_measure hd0 hf, integral_dirac]⟩
  have hpos : ∀ y, 0 ≤ y → 0 < tweedieDensity p phi mu y := by
    intro y hy
    rcases eq_or_lt_of_le hy with h | h
    · rw [← h, key0]; exact Real.exp_pos _
    · unfold tweedieDensity
      rw [if_neg (not_lt.2 h.le), if_neg h.ne']
      refine div_pos (mul_pos (Real.exp_pos _) ?_) h
      have hs := logWj_summable y phi h1 h2
      have : (fun k : ℕ => tweedieTerm y p phi (k + 1)) = fun k : ℕ => Real.exp (logWj y p phi (k + 1 : ℕ)) :=
        funext fun k => (logWj_term h h1 h2 hphi k).symm
      rw [this]
      exact hs.tsum_pos (fun k => (Real.exp_pos _).le) 0 (Real.exp_pos _)
  have hnn : ∀ y, 0 ≤ tweedieDensity p phi mu y := by
    intro y
    by_cases h : y < 0
    · unfold tweedieDensity; rw [if_pos h]
    · exact (hpos y (not_lt.1 h)).le
  refine ⟨isDensity_of_moments hnn (hsplit _ i0).1 ?_ (hsplit _ i1).1 ?_ (hsplit _ i2).1 ?_, hpos⟩
  · rw [(hsplit _ i0).2, key0, e0]; ring
  · rw [(hsplit _ i1).2, e1, hmean]; ring
  · rw [(hsplit _ i2).2, e2, hvar]; ring

end

end Glum
