import Verif.Props.Inference
import Verif.Model.Likelihood
/-
C109: what the weights mean for inference.
-/
set_option linter.unusedSectionVars false
set_option linter.unusedVariables false
set_option linter.unusedSimpArgs false

namespace Glum
open Spec Matrix

variable {n N p : ℕ} {ic : Bool}

/-- `D'` is `D` with rows written out: row `k` of `D'` is a copy of row `g k` of `D`, and the weights of the copies of a row add up to its weight in `D` (rows
without a copy have weight zero). -/
structure Spec.WrittenOut (D' : CovData N p ic) (D : CovData n p ic) (g : Fin N → Fin n) : Prop where
  family : D'.f = D.f
  link : D'.l = D.l
  X : ∀ k j, D'.X k j = D.X (g k) j
  y : ∀ k, D'.y k = D.y (g k)
  mu : ∀ k, D'.mu k = D.mu (g k)
  w : ∀ i, ∑ k with g k = i, D'.w k = D.w i

theorem sum_copies (g : Fin N → Fin n) (w' : Fin N → ℝ) (w : Fin n → ℝ) (hw : ∀ i, ∑ k with g k = i, w' k = w i) (h : Fin n → ℝ) :
    ∑ k, w' k * h (g k) = ∑ i, w i * h i := by
  rw [← Finset.sum_fiberwise Finset.univ g fun k => w' k * h (g k)]
  refine Finset.sum_congr rfl fun i _ => ?_
  rw [← hw i, Finset.sum_mul]
  exact Finset.sum_congr rfl fun k hk => by rw [(Finset.mem_filter.1 hk).2]

theorem oov_weight (f : Family) (l : Link) (mu eta disp w : ℝ) : oneOverVariance f l mu eta disp w = w * oneOverVariance f l mu eta disp 1 := by
  unfold oneOverVariance
  split
  · ring
  · rw [one_div_div, div_one]; ring

theorem fisherW_weight (f : Family) (l : Link) (disp mu w : ℝ) : fisherW f l disp mu w = w * fisherW f l disp mu 1 := by
  unfold fisherW
  rw [oov_weight]; ring

theorem observedW_weight (f : Family) (l : Link) (disp y mu w : ℝ) : observedW f l disp y mu w = w * observedW f l disp y mu 1 := by
  unfold observedW
  simp only
  rw [oov_weight]; ring

theorem scoreW_weight (f : Family) (l : Link) (disp y mu w : ℝ) : scoreW f l disp y mu w = w * scoreW f l disp y mu 1 := by
  unfold scoreW
  simp only
  rw [oov_weight]; ring

section Out
variable {D' : CovData N p ic} {D : CovData n p ic} {g : Fin N → Fin n}

theorem out_design (h : WrittenOut D' D g) (k : Fin N) (j : Fin (p + ic.toNat)) : design ic D'.X k j = design ic D.X (g k) j := by
  obtain ⟨j, hj⟩ := j
  unfold design
  cases ic with
  | false => exact h.X k j
  | true => cases j with
    | zero => rfl
    | succ j => exact h.X k j

theorem out_sum (h : WrittenOut D' D g) : ∑ k, D'.w k = ∑ i, D.w i := by
  have := sum_copies g D'.w D.w h.w fun _ => 1
  simpa using this

/-- **C109, dispersion.** -/
theorem c109_dispersion (h : WrittenOut D' D g) (o' : CovOptions N) (o : CovOptions n) (ho : o'.dispersion = o.dispersion) : D'.disp o' = D.disp o := by
  unfold CovData.disp
  rw [ho]
  congr 1
  unfold dispersionPearson
  rw [out_sum h]
  congr 1
  have := sum_copies g D'.w D.w h.w fun i => (D.y i - D.mu i) ^ 2 / D.f.unitVariance (D.mu i)
  calc _ = _ := Finset.sum_congr rfl fun k _ => by rw [h.family, h.y, h.mu, mul_comm]
    _ = _ := this
    _ = _ := Finset.sum_congr rfl fun i _ => mul_comm _ _

theorem out_gram (h : WrittenOut D' D g) (u : Fin n → ℝ) :
    Spec.weightedGram p ic D'.X (fun k => D'.w k * u (g k)) = Spec.weightedGram p ic D.X (fun i => D.w i * u i) := by
  ext s t
  simp only [Spec.weightedGram, Matrix.of_apply]
  have := sum_copies g D'.w D.w h.w fun i => u i * design ic D.X i s * design ic D.X i t
  calc _ = ∑ k, D'.w k * (u (g k) * design ic D.X (g k) s * design ic D.X (g k) t) :=
        Finset.sum_congr rfl fun k _ => by rw [out_design h, out_design h]; ring
    _ = _ := this
    _ = _ := Finset.sum_congr rfl fun i _ => by ring

theorem out_fisher (h : WrittenOut D' D g) (d : ℝ) :
    sandwichMatrix p ic D'.X (fun k => fisherW D'.f D'.l d (D'.mu k) (D'.w k)) = sandwichMatrix p ic D.X (fun i => fisherW D.f D.l d (D.mu i) (D.w i)) := by
  rw [sandwichMatrix_eq, sandwichMatrix_eq]
  have := out_gram h fun i => fisherW D.f D.l d (D.mu i) 1
  simp only [← fisherW_weight] at this
  rw [← this]
  congr 1
  funext k
  rw [h.family, h.link, h.mu, fisherW_weight]

theorem out_oim (h : WrittenOut D' D g) (o' : CovOptions N) (o : CovOptions n) (ho : o'.dispersion = o.dispersion) (he : o'.expected = o.expected) :
    D'.oim o' = D.oim o := by
  unfold CovData.oim
  rw [c109_dispersion h o' o ho, he]
  split
  · exact out_fisher h _
  · rw [sandwichMatrix_eq, sandwichMatrix_eq]
    have := out_gram h fun i => observedW D.f D.l (D.disp o) (D.y i) (D.mu i) 1
    simp only [← observedW_weight] at this
    rw [← this]
    congr 1
    funext k
    rw [h.family, h.link, h.mu, h.y, observedW_weight]

theorem out_gradient (h : WrittenOut D' D g) (o' : CovOptions N) (o : CovOptions n) (ho : o'.dispersion = o.dispersion) (k : Fin N) (j : Fin (p + ic.toNat)) :
    D'.gradient o' k j = D'.w k * (scoreW D.f D.l (D.disp o) (D.y (g k)) (D.mu (g k)) 1 * design ic D.X (g k) j) := by
  unfold CovData.gradient
  rw [scoreMatrix_eq, c109_dispersion h o' o ho]
  unfold Spec.scoreRow
  simp only
  rw [out_design h, scoreW_weight D'.f, h.family, h.link, h.y, h.mu, mul_assoc]

theorem own_gradient (D : CovData n p ic) (o : CovOptions n) (i : Fin n) (j : Fin (p + ic.toNat)) :
    D.gradient o i j = D.w i * (scoreW D.f D.l (D.disp o) (D.y i) (D.mu i) 1 * design ic D.X i j) := by
  unfold CovData.gradient
  rw [scoreMatrix_eq]
  unfold Spec.scoreRow
  simp only
  rw [scoreW_weight D.f D.l _ _ _ (D.w i), mul_assoc]

end Out

/-- **C109, non-robust.** Weights are frequencies: writing rows out (row `i` with weight 3 as three rows of weight 1, or any other split, dropping rows of
weight zero, reordering rows) does not change the non-robust covariance matrix, with a given or an estimated dispersion. -/
theorem c109_nonrobust {D' : CovData N p ic} {D : CovData n p ic} {g : Fin N → Fin n} (h : WrittenOut D' D g) (expected : Bool) (d : Option ℝ) (ok : Bool) :
    covariance D' ⟨false, expected, none, d⟩ ok = covariance D ⟨false, expected, none, d⟩ ok := by
  unfold covariance
  simp only [out_sum h]
  split
  · rfl
  · rw [if_neg (by simp), if_neg (by simp), c109_dispersion h ⟨false, expected, none, d⟩ ⟨false, expected, none, d⟩ rfl, out_fisher h]

/-- The sum of the outer products of the cluster totals, for a given number of clusters. -/
noncomputable def clusterInner {m : ℕ} (k : ℕ) (c : Fin n → ℤ) (data : Matrix (Fin n) (Fin m) ℝ) : Matrix (Fin m) (Fin m) ℝ :=
  Matrix.of fun s t => ∑ q : Fin k, (∑ i with (if c i < 0 then c i + k else c i) = (q.val : ℤ), data i s) *
    (∑ i with (if c i < 0 then c i + k else c i) = (q.val : ℤ), data i t)

open Classical in
/-- The clustered branch without the dependent type of `_group_sum`. -/
theorem covariance_clustered (D : CovData n p ic) (r e : Bool) (c : Fin n → ℤ) (d : Option ℝ) (ok : Bool) :
    covariance D ⟨r, e, some c, d⟩ ok =
      if ok = false then none
      else if ∀ i, -(numGroups c : ℤ) ≤ c i ∧ c i < numGroups c then
        if numGroups c = 1 then none
        else do
          let s1 ← linSolve (D.oim ⟨r, e, some c, d⟩) (clusterInner (numGroups c) c (D.gradient ⟨r, e, some c, d⟩))
          let s2 ← linSolve (D.oim ⟨r, e, some c, d⟩) s1.transpose
          some (((numGroups c : ℝ) / ((numGroups c : ℝ) - 1) * ((∑ i, D.w i - 1) / (∑ i, D.w i - p - ic.toNat))) • s2)
      else none := by
  unfold covariance
  simp only
  split
  · rfl
  · rw [if_pos (show r = true ∨ (some c).isSome = true from Or.inr rfl)]
    unfold groupSum
    simp only
    by_cases hl : ∀ i, -(numGroups c : ℤ) ≤ c i ∧ c i < numGroups c
    · rw [if_pos hl, if_pos hl]
      simp only [bind, Option.bind_some]
      congr 1
    · rw [if_neg hl, if_neg hl]
      rfl

/-- **C109, clustered.** The same for clustered standard errors, if the copies of a row are in the cluster of the row and no cluster is lost. -/
theorem c109_clustered {D' : CovData N p ic} {D : CovData n p ic} {g : Fin N → Fin n} (h : WrittenOut D' D g) (c : Fin n → ℤ)
    (hc : Finset.univ.image (fun k => c (g k)) = Finset.univ.image c) (robust expected : Bool) (d : Option ℝ) (ok : Bool) :
    covariance D' ⟨robust, expected, some fun k => c (g k), d⟩ ok = covariance D ⟨robust, expected, some c, d⟩ ok := by
  have hk : numGroups (fun k => c (g k)) = numGroups c := by unfold numGroups; rw [hc]
  have hl : (∀ k, -(numGroups c : ℤ) ≤ c (g k) ∧ c (g k) < numGroups c) ↔ ∀ i, -(numGroups c : ℤ) ≤ c i ∧ c i < numGroups c := by
    constructor
    · intro hh i
      have : c i ∈ Finset.univ.image (fun k => c (g k)) := by rw [hc]; exact Finset.mem_image_of_mem _ (Finset.mem_univ i)
      obtain ⟨k, -, hk⟩ := Finset.mem_image.1 this
      rw [← hk]; exact hh k
    · exact fun hh k => hh _
  have ho := out_oim h ⟨robust, expected, some fun k => c (g k), d⟩ ⟨robust, expected, some c, d⟩ rfl rfl
  have hi : clusterInner (numGroups c) (fun k => c (g k)) (D'.gradient ⟨robust, expected, some fun k => c (g k), d⟩) =
      clusterInner (numGroups c) c (D.gradient ⟨robust, expected, some c, d⟩) := by
    ext s t
    simp only [clusterInner, Matrix.of_apply]
    have key : ∀ (q : Fin (numGroups c)) (j : Fin (p + ic.toNat)),
        (∑ k with (if c (g k) < 0 then c (g k) + (numGroups c : ℤ) else c (g k)) = (q.val : ℤ), D'.gradient ⟨robust, expected, some fun k => c (g k), d⟩ k j) =
        ∑ i with (if c i < 0 then c i + (numGroups c : ℤ) else c i) = (q.val : ℤ), D.gradient ⟨robust, expected, some c, d⟩ i j := by
      intro q j
      rw [Finset.sum_filter, Finset.sum_filter]
      have := sum_copies g D'.w D.w h.w fun i => if (if c i < 0 then c i + (numGroups c : ℤ) else c i) = (q.val : ℤ) then
        scoreW D.f D.l (D.disp ⟨robust, expected, some c, d⟩) (D.y i) (D.mu i) 1 * design ic D.X i j else 0
      calc _ = _ := Finset.sum_congr rfl fun k _ => ?_
        _ = _ := this
        _ = _ := Finset.sum_congr rfl fun i _ => ?_
      · rw [out_gradient h _ ⟨robust, expected, some c, d⟩ rfl]
        rw [mul_ite, mul_zero]
      · rw [own_gradient]
        rw [mul_ite, mul_zero]
    exact Finset.sum_congr rfl fun q _ => by rw [key, key]
  rw [covariance_clustered, covariance_clustered, hk, ho, hi, out_sum h]
  split
  · rfl
  · by_cases hh : ∀ i, -(numGroups c : ℤ) ≤ c i ∧ c i < numGroups c
    · rw [if_pos hh, if_pos (hl.2 hh)]
    · rw [if_neg hh, if_neg fun h' => hh (hl.1 h')]

theorem covariance_robust (D : CovData n p ic) (e : Bool) (d : Option ℝ) (ok : Bool) :
    covariance D ⟨true, e, none, d⟩ ok =
      (if ok = false then none
      else do
        let s1 ← linSolve (D.oim ⟨true, e, none, d⟩) (Matrix.of fun s t => ∑ i, D.gradient ⟨true, e, none, d⟩ i s * D.gradient ⟨true, e, none, d⟩ i t)
        let s2 ← linSolve (D.oim ⟨true, e, none, d⟩) s1.transpose
        some (((∑ i, D.w i) / (∑ i, D.w i - p - ic.toNat)) • s2)) := by
  unfold covariance
  simp only [mul_one]
  split
  · rfl
  · rw [if_pos (Or.inl trivial)]

theorem linSolve_smul {m k : ℕ} (A : Matrix (Fin m) (Fin m) ℝ) (B : Matrix (Fin m) (Fin k) ℝ) (c : ℝ) :
    linSolve A (c • B) = (linSolve A B).map (c • ·) := by
  unfold linSolve
  split
  · rw [Option.map_some, Matrix.mul_smul]
  · rfl

theorem two_smul_solves {m : ℕ} (A B : Matrix (Fin m) (Fin m) ℝ) (c a : ℝ) :
    (do let s1 ← linSolve A (c • B)
        let s2 ← linSolve A s1.transpose
        some (a • s2)) =
    (do let s1 ← linSolve A B
        let s2 ← linSolve A s1.transpose
        some (a • s2)).map (c • ·) := by
  rw [linSolve_smul]
  cases linSolve A B with
  | none => rfl
  | some s1 =>
    simp only [Option.map_some, bind, Option.bind_some, Matrix.transpose_smul]
    rw [linSolve_smul]
    cases linSolve A s1.transpose with
    | none => rfl
    | some s2 =>
      simp only [Option.map_some, Option.bind_some]
      rw [smul_comm]

/-- **C109, robust: reordering rows and dropping rows of weight zero** changes nothing either. -/
theorem c109_robust_rows {D' : CovData N p ic} {D : CovData n p ic} {g : Fin N → Fin n} (h : WrittenOut D' D g) (hg : Function.Injective g)
    (expected : Bool) (d : Option ℝ) (ok : Bool) : covariance D' ⟨true, expected, none, d⟩ ok = covariance D ⟨true, expected, none, d⟩ ok := by
  have hi : (Matrix.of fun s t => ∑ k, D'.gradient ⟨true, expected, none, d⟩ k s * D'.gradient ⟨true, expected, none, d⟩ k t :
      Matrix (Fin (p + ic.toNat)) (Fin (p + ic.toNat)) ℝ) =
      Matrix.of fun s t => ∑ i, D.gradient ⟨true, expected, none, d⟩ i s * D.gradient ⟨true, expected, none, d⟩ i t := by
    ext s t
    simp only [Matrix.of_apply]
    have hw : ∀ k, D'.w k = D.w (g k) := by
      intro k
      rw [← h.w (g k), Finset.sum_eq_single k]
      · intro b hb hne
        exact absurd (hg (Finset.mem_filter.1 hb).2) hne
      · intro hk
        exact absurd (Finset.mem_filter.2 ⟨Finset.mem_univ k, (rfl : g k = g k)⟩) hk
    have h0 : ∀ i, i ∉ Finset.univ.map ⟨g, hg⟩ → D.w i = 0 := by
      intro i hi
      rw [← h.w i]
      refine Finset.sum_eq_zero fun k hk => ?_
      exact absurd (Finset.mem_map.2 ⟨k, Finset.mem_univ k, (Finset.mem_filter.1 hk).2⟩) hi
    rw [← Finset.sum_subset (Finset.subset_univ (Finset.univ.map ⟨g, hg⟩)) (fun i _ hi => by rw [own_gradient, h0 i hi, zero_mul, zero_mul]),
      Finset.sum_map]
    refine Finset.sum_congr rfl fun k _ => ?_
    show _ = D.gradient _ (g k) s * D.gradient _ (g k) t
    rw [out_gradient h _ ⟨true, expected, none, d⟩ rfl, out_gradient h _ ⟨true, expected, none, d⟩ rfl, own_gradient, own_gradient, hw]
  rw [covariance_robust, covariance_robust, out_oim h ⟨true, expected, none, d⟩ ⟨true, expected, none, d⟩ rfl rfl, hi, out_sum h]

/-- **C109, robust: a weight is not a frequency.**  If every row is written out as `m` equal parts, the robust covariance matrix is divided by `m`: a row of weight
`m` counts as one observation, `m` rows of weight one as `m` observations. -/
theorem c109_robust_copies {D' : CovData N p ic} {D : CovData n p ic} {g : Fin N → Fin n} (h : WrittenOut D' D g) (m : ℕ) (hm : 0 < m)
    (hcard : ∀ i, (Finset.univ.filter fun k => g k = i).card = m) (hw : ∀ k, D'.w k = D.w (g k) / m) (expected : Bool) (d : Option ℝ) (ok : Bool) :
    covariance D' ⟨true, expected, none, d⟩ ok = (covariance D ⟨true, expected, none, d⟩ ok).map ((1 / (m : ℝ)) • ·) := by
  have hm0 : (m : ℝ) ≠ 0 := by exact_mod_cast hm.ne'
  have hi : (Matrix.of fun s t => ∑ k, D'.gradient ⟨true, expected, none, d⟩ k s * D'.gradient ⟨true, expected, none, d⟩ k t :
      Matrix (Fin (p + ic.toNat)) (Fin (p + ic.toNat)) ℝ) =
      (1 / (m : ℝ)) • Matrix.of fun s t => ∑ i, D.gradient ⟨true, expected, none, d⟩ i s * D.gradient ⟨true, expected, none, d⟩ i t := by
    ext s t
    simp only [Matrix.of_apply, Matrix.smul_apply, smul_eq_mul]
    have := sum_copies g (fun _ => 1) (fun _ => (m : ℝ)) (fun i => by rw [Finset.sum_const, hcard i, nsmul_eq_mul, mul_one])
      fun i => D.gradient ⟨true, expected, none, d⟩ i s * D.gradient ⟨true, expected, none, d⟩ i t / (m : ℝ) ^ 2
    rw [Finset.mul_sum]
    calc _ = _ := Finset.sum_congr rfl fun k _ => ?_
      _ = _ := this
      _ = _ := Finset.sum_congr rfl fun i _ => ?_
    · rw [out_gradient h _ ⟨true, expected, none, d⟩ rfl, out_gradient h _ ⟨true, expected, none, d⟩ rfl, own_gradient, own_gradient, hw]
      field_simp
    · field_simp
  rw [covariance_robust, covariance_robust, out_oim h ⟨true, expected, none, d⟩ ⟨true, expected, none, d⟩ rfl rfl, hi, out_sum h]
  split
  · rfl
  · exact two_smul_solves _ _ _ _

/-- **C109, log-likelihood.** The log-likelihood (hence AIC; AICc and BIC use the number of rows besides) is the same if rows are written out, for every family,
with the dispersion given. -/
theorem c109_log_likelihood (norm : ℝ → ℝ → ℝ → ℝ) (f : Family) (y mu w : Fin n → ℝ) (w' : Fin N → ℝ) (g : Fin N → Fin n) (hg : Function.Surjective g)
    (hw : ∀ i, ∑ k with g k = i, w' k = w i) (disp : ℝ) :
    f.logLik norm (fun k => y (g k)) (fun k => mu (g k)) w' disp = f.logLik norm y mu w disp := by
  have S : ∀ h : Fin n → ℝ, ∑ k, w' k * h (g k) = ∑ i, w i * h i := sum_copies g w' w hw
  have S1 : ∑ k, w' k = ∑ i, w i := by simpa using S fun _ => 1
  have hN : normalLogLik (fun k => y (g k)) w' (fun k => mu (g k)) disp = normalLogLik y w mu disp := by
    unfold normalLogLik
    have h1 := S fun i => (y i - mu i) ^ 2
    simp only [Finset.sum_neg_distrib]
    rw [h1, S1]
  have hP : poissonLogLik (fun k => y (g k)) w' (fun k => mu (g k)) = poissonLogLik y w mu := by
    unfold poissonLogLik
    have h1 := S fun i => -mu i + if 0 < y i then -(lgamma (1 + y i) - y i * Real.log (mu i)) else 0
    calc _ = _ := Finset.sum_congr rfl fun k _ => ?_
      _ = _ := h1
      _ = _ := Finset.sum_congr rfl fun i _ => ?_
    · split <;> ring
    · split <;> ring
  have hG : gammaLogLik (fun k => y (g k)) w' (fun k => mu (g k)) disp = gammaLogLik y w mu disp := by
    unfold gammaLogLik
    simp only
    have h1 := S fun i => (1 / disp) * (Real.log (y i) - Real.log (mu i) - y i / mu i) - Real.log (y i)
    rw [h1, S1]
  have hI : invGaussianLogLik (fun k => y (g k)) w' (fun k => mu (g k)) disp = invGaussianLogLik y w mu disp := by
    unfold invGaussianLogLik
    simp only [Finset.sum_neg_distrib]
    have h1 := S fun i => 1 / (2 * disp) * (y i / mu i - 1) ^ 2 / y i + Real.log (y i) * 3 / 2
    rw [h1, S1]
  have hT : ∀ p, tweedieLogLik norm p (fun k => y (g k)) w' (fun k => mu (g k)) disp = tweedieLogLik norm p y w mu disp := by
    intro p
    exact S fun i => tweedieUnitLogLik norm (y i) (mu i) p disp
  cases f with
  | normal => exact congrArg some hN
  | poisson => exact congrArg some hP
  | gamma => exact congrArg some hG
  | invGaussian => exact congrArg some hI
  | ghs => rfl
  | binomial =>
    refine congrArg some ?_
    unfold binomialLogLik
    have h1 := S fun i => xlogy (y i) (mu i) + xlogy (1 - y i) (1 - mu i)
    calc _ = _ := Finset.sum_congr rfl fun k _ => mul_comm _ _
      _ = _ := h1
      _ = _ := Finset.sum_congr rfl fun i _ => mul_comm _ _
  | negBinomial theta =>
    show negBinomialLogLik theta (fun k => y (g k)) w' (fun k => mu (g k)) = negBinomialLogLik theta y w mu
    unfold negBinomialLogLik
    simp only
    have he : (∃ k, y (g k) = 0 ∧ mu (g k) = 0) ↔ ∃ i, y i = 0 ∧ mu i = 0 :=
      ⟨fun ⟨k, hk⟩ => ⟨g k, hk⟩, fun ⟨i, hi⟩ => by obtain ⟨k, rfl⟩ := hg i; exact ⟨k, hi⟩⟩
    by_cases hh : ∃ i, y i = 0 ∧ mu i = 0
    · rw [if_pos hh, if_pos (he.2 hh)]
    · rw [if_neg hh, if_neg fun h' => hh (he.1 h')]
      exact congrArg some (S fun i => y i * Real.log (theta * mu i) - (y i + 1 / theta) * Real.log (1 + theta * mu i) + lgamma (y i + 1 / theta) -
        lgamma (1 / theta) - lgamma (y i + 1))
  | tweedie p =>
    unfold Family.logLik
    simp only [hN, hP, hG, hI, hT]



/-! ### The scale of the weights -/

theorem linSolve_smul_left {m k : ℕ} (A : Matrix (Fin m) (Fin m) ℝ) (B : Matrix (Fin m) (Fin k) ℝ) (a : ℝ) (ha : a ≠ 0) :
    linSolve (a • A) B = (linSolve A B).map (a⁻¹ • ·) := by
  have hu : IsUnit (a • A).det ↔ IsUnit A.det := by
    rw [Matrix.det_smul, isUnit_iff_ne_zero, isUnit_iff_ne_zero]
    constructor
    · exact fun h => right_ne_zero_of_mul h
    · exact fun h => mul_ne_zero (pow_ne_zero _ ha) h
  unfold linSolve
  by_cases h : IsUnit A.det
  · rw [if_pos h, if_pos (hu.2 h), Option.map_some]
    have hinv : (a • A)⁻¹ = a⁻¹ • A⁻¹ := by
      apply Matrix.inv_eq_right_inv
      rw [Matrix.smul_mul, Matrix.mul_smul, Matrix.mul_nonsing_inv _ h, smul_smul, mul_inv_cancel₀ ha, one_smul]
    rw [hinv, Matrix.smul_mul]
  · rw [if_neg h, if_neg fun h' => h (hu.1 h')]; rfl

/-- The data with all weights multiplied by `c`. -/
def CovData.rescale (D : CovData n p ic) (c : ℝ) : CovData n p ic := { D with w := fun i => c * D.w i }

theorem oov_scale (f : Family) (l : Link) (mu eta disp w : ℝ) : oneOverVariance f l mu eta disp w = w / disp * oneOverVariance f l mu eta 1 1 := by
  unfold oneOverVariance
  split
  · ring
  · rw [one_div_div, one_div_div]
    simp only [mul_one, one_div, div_one]
    rw [div_eq_mul_inv, mul_inv]
    ring

section Scale
variable (D : CovData n p ic) (o : CovOptions n) (c : ℝ)

theorem rescale_fisher (h : D.disp o ≠ 0) (h' : (D.rescale c).disp o ≠ 0) :
    sandwichMatrix p ic (D.rescale c).X (fun i => fisherW (D.rescale c).f (D.rescale c).l ((D.rescale c).disp o) ((D.rescale c).mu i) ((D.rescale c).w i)) =
      (c * D.disp o / (D.rescale c).disp o) • sandwichMatrix p ic D.X (fun i => fisherW D.f D.l (D.disp o) (D.mu i) (D.w i)) := by
  rw [sandwichMatrix_eq, sandwichMatrix_eq]
  ext s t
  simp only [Spec.weightedGram, Matrix.of_apply, Matrix.smul_apply, smul_eq_mul]
  rw [Finset.mul_sum]
  refine Finset.sum_congr rfl fun i _ => ?_
  show fisherW D.f D.l _ (D.mu i) (c * D.w i) * design ic D.X i s * design ic D.X i t = _
  unfold fisherW
  rw [oov_scale, oov_scale D.f D.l (D.mu i) _ (D.disp o) (D.w i)]
  field_simp

theorem rescale_oim (h : D.disp o ≠ 0) (h' : (D.rescale c).disp o ≠ 0) : (D.rescale c).oim o = (c * D.disp o / (D.rescale c).disp o) • D.oim o := by
  unfold CovData.oim
  split
  · exact rescale_fisher D o c h h'
  · rw [sandwichMatrix_eq, sandwichMatrix_eq]
    ext s t
    simp only [Spec.weightedGram, Matrix.of_apply, Matrix.smul_apply, smul_eq_mul]
    rw [Finset.mul_sum]
    refine Finset.sum_congr rfl fun i _ => ?_
    show observedW D.f D.l _ (D.y i) (D.mu i) (c * D.w i) * design ic D.X i s * design ic D.X i t = _
    unfold observedW
    simp only
    rw [oov_scale, oov_scale D.f D.l (D.mu i) _ (D.disp o) (D.w i)]
    field_simp

theorem rescale_gradient (h : D.disp o ≠ 0) (h' : (D.rescale c).disp o ≠ 0) (i : Fin n) (j : Fin (p + ic.toNat)) :
    (D.rescale c).gradient o i j = (c * D.disp o / (D.rescale c).disp o) * D.gradient o i j := by
  unfold CovData.gradient
  rw [scoreMatrix_eq, scoreMatrix_eq]
  unfold Spec.scoreRow
  show scoreW D.f D.l _ (D.y i) (D.mu i) (c * D.w i) * design ic D.X i j = _
  unfold scoreW
  simp only
  rw [oov_scale, oov_scale D.f D.l (D.mu i) _ (D.disp o) (D.w i)]
  field_simp

theorem rescale_sum : ∑ i, (D.rescale c).w i = c * ∑ i, D.w i := by
  rw [Finset.mul_sum]; rfl

end Scale

/-- **C109, robust: the scale of the weights** enters only through the small-sample factor: multiplying all weights by `c` multiplies the robust covariance matrix
by `[cN / (cN - p)] / [N / (N - p)]`, `N` the sum of the weights and `p` the number of parameters. -/
theorem c109_robust_scale (D : CovData n p ic) (expected : Bool) (d : Option ℝ) (c : ℝ) (hc : 0 < c) (hS : ∑ i, D.w i ≠ 0)
    (hm : (∑ i, D.w i) - p - ic.toNat ≠ 0) (hd : D.disp ⟨true, expected, none, d⟩ ≠ 0) (hd' : (D.rescale c).disp ⟨true, expected, none, d⟩ ≠ 0) (ok : Bool) :
    covariance (D.rescale c) ⟨true, expected, none, d⟩ ok = (covariance D ⟨true, expected, none, d⟩ ok).map
      (((c * ∑ i, D.w i) / (c * (∑ i, D.w i) - p - ic.toNat) / ((∑ i, D.w i) / (∑ i, D.w i - p - ic.toNat))) • ·) := by
  set o : CovOptions n := ⟨true, expected, none, d⟩ with ho
  obtain ⟨a, ha⟩ : ∃ a, a = c * D.disp o / (D.rescale c).disp o := ⟨_, rfl⟩
  have ha0 : a ≠ 0 := by rw [ha]; exact div_ne_zero (mul_ne_zero hc.ne' hd) hd'
  rw [covariance_robust, covariance_robust, ← ho, rescale_oim D o c hd hd', ← ha, rescale_sum]
  have hi : (Matrix.of fun s t => ∑ i, (D.rescale c).gradient o i s * (D.rescale c).gradient o i t : Matrix (Fin (p + ic.toNat)) (Fin (p + ic.toNat)) ℝ) =
      (a * a) • Matrix.of fun s t => ∑ i, D.gradient o i s * D.gradient o i t := by
    ext s t
    simp only [Matrix.of_apply, Matrix.smul_apply, smul_eq_mul, rescale_gradient D o c hd hd', ← ha, Finset.mul_sum]
    exact Finset.sum_congr rfl fun i _ => by ring
  rw [hi]
  split
  · rfl
  · rw [linSolve_smul_left _ _ a ha0, linSolve_smul]
    cases linSolve (D.oim o) (Matrix.of fun s t => ∑ i, D.gradient o i s * D.gradient o i t) with
    | none => rfl
    | some s1 =>
      simp only [Option.map_some, bind, Option.bind_some, Matrix.transpose_smul, smul_smul]
      rw [linSolve_smul_left _ _ a ha0, linSolve_smul]
      cases linSolve (D.oim o) s1.transpose with
      | none => rfl
      | some s2 =>
        simp only [Option.map_some, Option.bind_some, smul_smul]
        congr 2
        rw [show a⁻¹ * (a⁻¹ * (a * a)) = 1 by field_simp, mul_one]
        field_simp

/-- **C109, non-robust: the scale of the weights** matters, as for frequencies: multiplying all weights by `c` multiplies the non-robust covariance matrix by the
ratio of the small-sample factors, divided by `c` for a given dispersion, and by `(cN - p) / (N - p)` for an estimated one. -/
theorem c109_nonrobust_scale (D : CovData n p ic) (expected : Bool) (d : Option ℝ) (c : ℝ) (hc : 0 < c) (hS : ∑ i, D.w i ≠ 0)
    (hm : (∑ i, D.w i) - p - ic.toNat ≠ 0) (hm' : c * (∑ i, D.w i) - p - ic.toNat ≠ 0) (hd : D.disp ⟨false, expected, none, d⟩ ≠ 0) (ok : Bool) :
    covariance (D.rescale c) ⟨false, expected, none, d⟩ ok = (covariance D ⟨false, expected, none, d⟩ ok).map
      (((c * ∑ i, D.w i) / (c * (∑ i, D.w i) - p - ic.toNat) / ((∑ i, D.w i) / (∑ i, D.w i - p - ic.toNat)) /
        (if d.isSome then c else (c * (∑ i, D.w i) - p - ic.toNat) / (∑ i, D.w i - p - ic.toNat))) • ·) := by
  set o : CovOptions n := ⟨false, expected, none, d⟩ with ho
  have hdisp : (D.rescale c).disp o = (if d.isSome then 1 else c * (∑ i, D.w i - p - ic.toNat) / (c * (∑ i, D.w i) - p - ic.toNat)) * D.disp o := by
    cases d with
    | some d => simp [CovData.disp, ho]
    | none =>
      simp only [CovData.disp, ho, Option.getD_none, Option.isSome_none, Bool.false_eq_true, if_false]
      unfold dispersionPearson
      rw [rescale_sum]
      have : ∑ i, ((D.rescale c).y i - (D.rescale c).mu i) ^ 2 / (D.rescale c).f.unitVariance ((D.rescale c).mu i) * (D.rescale c).w i =
          c * ∑ i, (D.y i - D.mu i) ^ 2 / D.f.unitVariance (D.mu i) * D.w i := by
        rw [Finset.mul_sum]
        refine Finset.sum_congr rfl fun i _ => ?_
        show (D.y i - D.mu i) ^ 2 / D.f.unitVariance (D.mu i) * (c * D.w i) = _
        ring
      rw [this, ← sub_sub, ← sub_sub]
      field_simp
  have hd' : (D.rescale c).disp o ≠ 0 := by
    rw [hdisp]
    refine mul_ne_zero ?_ hd
    split
    · exact one_ne_zero
    · exact div_ne_zero (mul_ne_zero hc.ne' hm) hm'
  obtain ⟨a, ha⟩ : ∃ a, a = c * D.disp o / (D.rescale c).disp o := ⟨_, rfl⟩
  have hav : a = if d.isSome then c else (c * (∑ i, D.w i) - p - ic.toNat) / (∑ i, D.w i - p - ic.toNat) := by
    rw [ha, hdisp]
    cases d with
    | some d => simp only [Option.isSome_some, if_true, one_mul]; field_simp
    | none => simp only [Option.isSome_none, Bool.false_eq_true, if_false]; field_simp
  have ha0 : a ≠ 0 := by rw [ha]; exact div_ne_zero (mul_ne_zero hc.ne' hd) hd'
  rw [← hav]
  unfold covariance
  simp only
  split
  · rfl
  · rw [if_neg (by simp [ho]), if_neg (by simp [ho]), rescale_fisher D o c hd hd', ← ha, linSolve_smul_left _ _ a ha0, rescale_sum]
    cases linSolve (sandwichMatrix p ic D.X fun i => fisherW D.f D.l (D.disp o) (D.mu i) (D.w i)) (1 : Matrix (Fin (p + ic.toNat)) (Fin (p + ic.toNat)) ℝ) with
    | none => rfl
    | some s =>
      simp only [Option.map_some, bind, Option.bind_some, smul_smul]
      congr 2
      field_simp

/-! ### Cases that meet the hypotheses -/

/-- Three observations of a Poisson model with one column and no intercept: weights 2, 4, 2. -/
noncomputable def freqEx : CovData 3 1 false where
  f := .poisson
  l := .log
  X := fun i _ => (i.val : ℝ) + 1
  y := fun i => (i.val : ℝ)
  mu := fun i => (i.val : ℝ) + 1
  w := fun i => if i.val = 1 then 4 else 2

/-- Every row written out twice, with half the weight. -/
noncomputable def freqEx2 : CovData 6 1 false where
  f := .poisson
  l := .log
  X := fun k _ => ((k.val / 2 : ℕ) : ℝ) + 1
  y := fun k => ((k.val / 2 : ℕ) : ℝ)
  mu := fun k => ((k.val / 2 : ℕ) : ℝ) + 1
  w := fun k => if k.val / 2 = 1 then 2 else 1

theorem c109_example : WrittenOut freqEx2 freqEx (fun k : Fin 6 => (⟨k.val / 2, by omega⟩ : Fin 3)) ∧
    (∀ i : Fin 3, (Finset.univ.filter fun k : Fin 6 => (⟨k.val / 2, by omega⟩ : Fin 3) = i).card = 2) := by
  refine ⟨⟨rfl, rfl, fun k j => rfl, fun k => rfl, fun k => rfl, fun i => ?_⟩, by decide⟩
  fin_cases i
  · have : (Finset.univ.filter fun k : Fin 6 => (⟨k.val / 2, by omega⟩ : Fin 3) = 0) = {0, 1} := by decide
    show ∑ k ∈ Finset.univ.filter fun k : Fin 6 => (⟨k.val / 2, by omega⟩ : Fin 3) = 0, freqEx2.w k = freqEx.w 0
    rw [this, Finset.sum_pair (by decide)]; norm_num [freqEx2, freqEx]
  · have : (Finset.univ.filter fun k : Fin 6 => (⟨k.val / 2, by omega⟩ : Fin 3) = 1) = {2, 3} := by decide
    show ∑ k ∈ Finset.univ.filter fun k : Fin 6 => (⟨k.val / 2, by omega⟩ : Fin 3) = 1, freqEx2.w k = freqEx.w 1
    rw [this, Finset.sum_pair (by decide)]; norm_num [freqEx2, freqEx]
  · have : (Finset.univ.filter fun k : Fin 6 => (⟨k.val / 2, by omega⟩ : Fin 3) = 2) = {4, 5} := by decide
    show ∑ k ∈ Finset.univ.filter fun k : Fin 6 => (⟨k.val / 2, by omega⟩ : Fin 3) = 2, freqEx2.w k = freqEx.w 2
    rw [this, Finset.sum_pair (by decide)]; norm_num [freqEx2, freqEx]

end Glum
