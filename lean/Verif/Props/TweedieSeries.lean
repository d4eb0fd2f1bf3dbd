import Mathlib.Topology.Algebra.Order.Floor
import Mathlib.Analysis.SpecialFunctions.Gamma.BohrMollerup
import Mathlib.Analysis.SpecificLimits.Normed
import Verif.Model.Likelihood
/-
C62: the truncated series of the Tweedie normalisation.
-/
set_option linter.unusedSectionVars false
set_option linter.unusedVariables false

namespace Glum

theorem lgamma_convex : ConvexOn ℝ (Set.Ioi 0) lgamma := Real.convexOn_log_Gamma

/-- `lgamma` is bounded below on the positive reals. -/
theorem lgamma_ge {x : ℝ} (hx : 0 < x) : -Real.log 2 ≤ lgamma x := by
  have l1 : lgamma 1 = 0 := by simp [lgamma]
  have l2 : lgamma 2 = 0 := by simp [lgamma]
  have l3 : lgamma 3 = Real.log 2 := by
    have : Real.Gamma 3 = 2 := by
      have := Real.Gamma_nat_eq_factorial 2
      norm_num at this
      simpa using this
    simp [lgamma, this]
  have hlog : 0 ≤ Real.log 2 := Real.log_nonneg (by norm_num)
  rcases lt_or_ge x 1 with h | h
  · have := lgamma_convex.slope_mono_adjacent (x := x) (y := 1) (z := 2) hx (by norm_num : (0 : ℝ) < 2) h (by norm_num)
    rw [l1, l2, zero_sub, sub_self, zero_div, div_nonpos_iff] at this
    rcases this with h' | h'
    · linarith [h'.2]
    · linarith [h'.1]
  · rcases lt_or_ge x 2 with h2 | h2
    · have := lgamma_convex.slope_mono_adjacent (x := x) (y := 2) (z := 3) hx (by norm_num : (0 : ℝ) < 3) h2 (by norm_num)
      rw [l2, l3] at this
      have h3 : 0 < 2 - x := by linarith
      rw [div_le_iff₀ h3] at this
      norm_num at this
      nlinarith
    · rcases eq_or_lt_of_le h2 with rfl | h2
      · linarith
      · have := lgamma_convex.slope_mono_adjacent (x := 1) (y := 2) (z := x) (by norm_num : (0 : ℝ) < 1) hx (by norm_num) h2
        rw [l1, l2] at this
        have h3 : 0 < x - 2 := by linarith
        rw [le_div_iff₀ h3] at this
        norm_num at this
        linarith

section concave
variable {W : ℝ → ℝ} (hW : ConcaveOn ℝ (Set.Ioi 0) W)
include hW

theorem concave_right {a b c : ℝ} (ha : 0 < a) (hab : a < b) (hbc : b < c) (h : W b < W a) : W c < W b := by
  have := hW.slope_anti_adjacent (x := a) (y := b) (z := c) ha (show 0 < c by linarith) hab hbc
  have h1 : (W b - W a) / (b - a) < 0 := div_neg_of_neg_of_pos (by linarith) (by linarith)
  have h2 : (W c - W b) / (c - b) < 0 := lt_of_le_of_lt this h1
  rw [div_neg_iff] at h2
  rcases h2 with h2 | h2
  · linarith [h2.2]
  · linarith [h2.1]

theorem concave_left {a b c : ℝ} (ha : 0 < a) (hab : a < b) (hbc : b < c) (h : W b < W c) : W a < W b := by
  have := hW.slope_anti_adjacent (x := a) (y := b) (z := c) ha (show 0 < c by linarith) hab hbc
  have h1 : 0 < (W c - W b) / (c - b) := div_pos (by linarith) (by linarith)
  have h2 : 0 < (W b - W a) / (b - a) := lt_of_lt_of_le h1 this
  rw [div_pos_iff] at h2
  rcases h2 with h2 | h2
  · linarith [h2.1]
  · linarith [h2.2]
end concave

/-- The logarithms of the terms are a concave function of the index. -/
theorem logWj_concave {y p disp : ℝ} (h1 : 1 < p) (h2 : p < 2) : ConcaveOn ℝ (Set.Ioi 0) (logWj y p disp) := by
  have hal : 0 < -((2 - p) / (1 - p)) := by
    rw [← div_neg]; exact div_pos (by linarith) (by linarith)
  refine ⟨convex_Ioi 0, ?_⟩
  intro x hx z hz a b ha hb hab
  have hx : 0 < x := hx
  have hz : 0 < z := hz
  simp only [smul_eq_mul, logWj]
  set al := -((2 - p) / (1 - p)) with hal'
  have e1 := lgamma_convex.2 (x := 1 + x) (y := 1 + z) (show 0 < 1 + x by linarith) (show 0 < 1 + z by linarith) ha hb hab
  have e2 := lgamma_convex.2 (x := al * x) (y := al * z) (show 0 < al * x by positivity) (show 0 < al * z by positivity) ha hb hab
  simp only [smul_eq_mul] at e1 e2
  have f1 : a * (1 + x) + b * (1 + z) = 1 + (a * x + b * z) := by linear_combination hab
  have f2 : a * (al * x) + b * (al * z) = al * (a * x + b * z) := by ring
  rw [f1] at e1
  rw [f2] at e2
  linarith

/-- The terms eventually fall below any level. -/
theorem logWj_lt (y disp c : ℝ) {p : ℝ} (h1 : 1 < p) (h2 : p < 2) : ∃ N : ℕ, ∀ m : ℕ, N ≤ m → logWj y p disp (m : ℝ) < c := by
  have hal : 0 < -((2 - p) / (1 - p)) := by
    rw [← div_neg]; exact div_pos (by linarith) (by linarith)
  set L := logZ y p disp with hL
  have ht := FloorSemiring.tendsto_pow_div_factorial_atTop (Real.exp L)
  have hev := ht.eventually (gt_mem_nhds (show (0 : ℝ) < Real.exp (c - Real.log 2) from Real.exp_pos _))
  obtain ⟨N, hN⟩ := Filter.eventually_atTop.1 hev
  refine ⟨max N 1, fun m hm => ?_⟩
  have hm1 : 1 ≤ m := le_trans (le_max_right _ _) hm
  have hlt := hN m (le_trans (le_max_left _ _) hm)
  have hmpos : (0 : ℝ) < m := by exact_mod_cast hm1
  have hfac : (0 : ℝ) < (m.factorial : ℝ) := by exact_mod_cast m.factorial_pos
  have hlog := Real.log_lt_log (div_pos (pow_pos (Real.exp_pos L) m) hfac) hlt
  rw [Real.log_exp, Real.log_div (pow_pos (Real.exp_pos L) m).ne' hfac.ne', Real.log_pow, Real.log_exp] at hlog
  have hg : lgamma (1 + (m : ℝ)) = Real.log (m.factorial : ℝ) := by
    unfold lgamma
    rw [add_comm, Real.Gamma_nat_eq_factorial]
  have hge := lgamma_ge (x := -((2 - p) / (1 - p)) * m) (by positivity)
  simp only [logWj]
  rw [← hL, hg]
  linarith

theorem lowerLoop_spec (W : ℤ → ℝ) (crt : ℝ) (fuel : ℕ) (j : ℤ) (hj : 0 ≤ j) (hf : j ≤ fuel) :
    lowerLoop W crt fuel j ≤ j ∧ 0 ≤ lowerLoop W crt fuel j ∧
    (lowerLoop W crt fuel j = 0 ∨ W (lowerLoop W crt fuel j) < crt) := by
  induction fuel generalizing j with
  | zero =>
    have : j = 0 := le_antisymm (by exact_mod_cast hf) hj
    simp [lowerLoop, this]
  | succ fuel ih =>
    unfold lowerLoop
    split
    · next h =>
      obtain ⟨a, b, c⟩ := ih (j - 1) (by omega) (by push_cast at hf; omega)
      exact ⟨by omega, b, c⟩
    · next h =>
      refine ⟨le_refl _, hj, ?_⟩
      by_cases h0 : 0 < j
      · right; by_contra hc; exact h ⟨h0, not_lt.1 hc⟩
      · left; omega

theorem upperLoop_spec (W : ℤ → ℝ) (crt : ℝ) (fuel : ℕ) (j N : ℤ) (hN : ∀ m, N ≤ m → W m < crt) (hf : N ≤ j + fuel) :
    j ≤ upperLoop W crt fuel j ∧ W (upperLoop W crt fuel j) < crt := by
  induction fuel generalizing j with
  | zero => exact ⟨le_refl _, hN _ (by simpa [upperLoop] using hf)⟩
  | succ fuel ih =>
    unfold upperLoop
    split
    · next h =>
      obtain ⟨a, b⟩ := ih (j + 1) (by push_cast at hf; omega)
      exact ⟨by omega, b⟩
    · next h => exact ⟨le_refl _, not_le.1 h⟩

/-- **C62.** For every observation `y > 0`, power in `(1,2)` and dispersion, the two loops terminate (all sufficiently large numbers of
passes give the same statement) and the window `[j_lower, j_upper]` they select is non-empty; every term of the series outside it is smaller than
`exp(-37)` times the term at `j_max`; and the largest term of the series is inside it. -/
theorem c62_series_window (y p disp : ℝ) (hy : 0 < y) (h1 : 1 < p) (h2 : p < 2) (hd : 0 < disp) :
    ∃ fuel0, ∀ fuel ≥ fuel0,
      let jmax := tweedieJMax y p disp
      let lim := sumLimits (fun j => logWj y p disp j) jmax (logWj y p disp jmax) fuel
      lim.1 ≤ lim.2 ∧
      (∀ j : ℕ, 0 < j → ¬(lim.1 ≤ (j : ℤ) ∧ (j : ℤ) ≤ lim.2) →
        Real.exp (logWj y p disp j) < Real.exp (-37) * Real.exp (logWj y p disp jmax)) ∧
      ∃ J : ℕ, 0 < J ∧ lim.1 ≤ (J : ℤ) ∧ (J : ℤ) ≤ lim.2 ∧ ∀ j : ℕ, 0 < j → logWj y p disp j ≤ logWj y p disp J := by
  have hW := logWj_concave (y := y) (disp := disp) h1 h2
  set jmax := tweedieJMax y p disp with hjm
  have hj0 : 0 < jmax := Real.exp_pos _
  set crt := logWj y p disp jmax - 37 with hcrt
  obtain ⟨N, hN⟩ := logWj_lt y disp crt h1 h2
  refine ⟨max N ⌊jmax⌋.toNat, fun fuel hfuel => ?_⟩
  have hfl : 0 ≤ ⌊jmax⌋ := Int.floor_nonneg.2 hj0.le
  have hce : 0 < ⌈jmax⌉ := Int.ceil_pos.2 hj0
  have hfN : N ≤ fuel := le_trans (le_max_left _ _) hfuel
  have hfF : ⌊jmax⌋.toNat ≤ fuel := le_trans (le_max_right _ _) hfuel
  set W : ℤ → ℝ := fun j => logWj y p disp j with hWdef
  have hNZ : ∀ m : ℤ, (N : ℤ) ≤ m → W m < crt := by
    intro m hm
    have hm0 : 0 ≤ m := by omega
    have := hN m.toNat (by omega)
    have e : ((m.toNat : ℕ) : ℝ) = (m : ℝ) := by
      have : ((m.toNat : ℤ)) = m := Int.toNat_of_nonneg hm0
      exact_mod_cast congrArg (fun z : ℤ => (z : ℝ)) this
    rw [e] at this
    exact this
  obtain ⟨hu1, hu2⟩ := upperLoop_spec W crt fuel ⌈jmax⌉ N hNZ (by omega)
  obtain ⟨hl1, hl2, hl3⟩ := lowerLoop_spec W crt fuel ⌊jmax⌋ hfl (by omega)
  have hlim : sumLimits W jmax (logWj y p disp jmax) fuel
      = (open Classical in if W 1 ≤ crt then lowerLoop W crt fuel ⌊jmax⌋ else 1, upperLoop W crt fuel ⌈jmax⌉) := rfl
  set u := upperLoop W crt fuel ⌈jmax⌉ with hu
  have hju : jmax < u := by
    have a1 : jmax ≤ u := le_trans (Int.le_ceil jmax) (by exact_mod_cast hu1)
    rcases eq_or_lt_of_le a1 with h | h
    · exfalso
      have : W u = logWj y p disp jmax := by rw [hWdef]; simp only []; rw [← h]
      rw [this] at hu2; linarith
    · exact h
  have hright : ∀ j : ℕ, u < (j : ℤ) → logWj y p disp j < W u := by
    intro j hj
    have hj' : (u : ℝ) < (j : ℝ) := by exact_mod_cast hj
    exact concave_right hW hj0 hju hj' (by linarith [show W u < crt from hu2])
  intro jm lim
  have hL : lim.1 = (open Classical in if W 1 ≤ crt then lowerLoop W crt fuel ⌊jmax⌋ else 1) := rfl
  have hU : lim.2 = u := rfl
  -- the left end
  have hleft : 0 ≤ lim.1 ∧ lim.1 ≤ ⌈jmax⌉ ∧ (∀ j : ℕ, 0 < j → (j : ℤ) < lim.1 → logWj y p disp j < W lim.1 ∧ W lim.1 < crt) := by
    rw [hL]
    split
    · refine ⟨hl2, le_trans hl1 (Int.floor_le_ceil jmax), ?_⟩
      intro j hj hjl
      have hlpos : 0 < lowerLoop W crt fuel ⌊jmax⌋ := by omega
      have hlt : W (lowerLoop W crt fuel ⌊jmax⌋) < crt := by
        rcases hl3 with h | h
        · omega
        · exact h
      refine ⟨?_, hlt⟩
      have hle : ((lowerLoop W crt fuel ⌊jmax⌋ : ℤ) : ℝ) ≤ jmax :=
        le_trans (by exact_mod_cast hl1) (Int.floor_le jmax)
      have hlt2 : ((lowerLoop W crt fuel ⌊jmax⌋ : ℤ) : ℝ) < jmax := by
        rcases eq_or_lt_of_le hle with h | h
        · exfalso
          have : W (lowerLoop W crt fuel ⌊jmax⌋) = logWj y p disp jmax := by rw [hWdef]; simp only []; rw [h]
          rw [this] at hlt; linarith
        · exact h
      refine concave_left hW (by exact_mod_cast hj) (by exact_mod_cast hjl) hlt2 (by
        have : logWj y p disp ((lowerLoop W crt fuel ⌊jmax⌋ : ℤ) : ℝ) < crt := hlt
        linarith)
    · exact ⟨by norm_num, hce, fun j hj hjl => by omega⟩
  obtain ⟨hL0, hLc, hLo⟩ := hleft
  have hLU : lim.1 ≤ lim.2 := le_trans hLc hu1
  refine ⟨hLU, ?_, ?_⟩
  · intro j hj hout
    rw [← Real.exp_add]
    apply Real.exp_lt_exp.2
    have : logWj y p disp j < crt := by
      by_cases h : lim.1 ≤ (j : ℤ)
      · have hju' : u < (j : ℤ) := by
          by_contra hc
          exact hout ⟨h, by rw [hU]; omega⟩
        exact lt_trans (hright j hju') hu2
      · obtain ⟨a, b⟩ := hLo j hj (by omega)
        exact lt_trans a b
    linarith
  · -- the largest term inside the window is the largest overall
    have hupos : 0 < u := by omega
    obtain ⟨J, hJ, hJmax⟩ := Finset.exists_max_image ((Finset.Icc 1 u.toNat).filter (fun j : ℕ => lim.1 ≤ (j : ℤ))) (fun j : ℕ => logWj y p disp (j : ℝ))
      ⟨u.toNat, by simp only [Finset.mem_filter, Finset.mem_Icc]; omega⟩
    simp only [Finset.mem_filter, Finset.mem_Icc] at hJ hJmax
    refine ⟨J, by omega, hJ.2, by omega, fun j hj => ?_⟩
    by_cases h : lim.1 ≤ (j : ℤ)
    · by_cases h' : (j : ℤ) ≤ u
      · exact hJmax j ⟨⟨by omega, by omega⟩, h⟩
      · have h3 := hright j (by omega)
        have h4 := hJmax u.toNat ⟨⟨by omega, le_refl _⟩, by omega⟩
        have e : ((u.toNat : ℕ) : ℝ) = (u : ℝ) := by
          have : ((u.toNat : ℤ)) = u := Int.toNat_of_nonneg hupos.le
          exact_mod_cast congrArg (fun z : ℤ => (z : ℝ)) this
        rw [e] at h4
        exact le_trans h3.le h4
    · obtain ⟨a, _⟩ := hLo j hj (by omega)
      have hl1' : 1 ≤ lim.1 := by omega
      have h4 := hJmax lim.1.toNat ⟨⟨by omega, by omega⟩, by omega⟩
      have e : ((lim.1.toNat : ℕ) : ℝ) = (lim.1 : ℝ) := by
        have : ((lim.1.toNat : ℤ)) = lim.1 := Int.toNat_of_nonneg hL0
        exact_mod_cast congrArg (fun z : ℤ => (z : ℝ)) this
      rw [e] at h4
      exact le_trans a.le h4

/-- Non-vacuity: the hypotheses hold for `y = 2`, `p = 1.5`, dispersion 1. -/
example : ∃ y p disp : ℝ, 0 < y ∧ 1 < p ∧ p < 2 ∧ 0 < disp := ⟨2, 3 / 2, 1, by norm_num, by norm_num, by norm_num, by norm_num⟩

end Glum
