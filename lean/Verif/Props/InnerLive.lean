import Mathlib.Topology.Order.MonotoneConvergence
import Mathlib.Topology.Algebra.Order.Field
import Verif.Props.IRLS
/-
C84: the inner solver terminates without warning if it is given enough cycles.
-/
set_option linter.unusedSectionVars false
set_option linter.unusedVariables false
set_option linter.unusedSimpArgs false

namespace Glum
open Spec

/-- With the coefficient fixed, the minimum-norm subgradient is 1-Lipschitz in the gradient. -/
theorem term0_lipschitz (c g g' P : ℝ) (hP : 0 ≤ P) : |term0 c g P - term0 c g' P| ≤ |g - g'| := by
  unfold term0
  split
  · have key : ∀ x : ℝ, fsign x * fmax (|x| - P) 0 = max (x - P) 0 - max (-x - P) 0 := by
      intro x
      rw [fmax_eq]
      rcases lt_trichotomy x 0 with h | h | h
      · rw [fsign_neg h, abs_of_neg h, max_eq_right (show x - P ≤ 0 by linarith)]; ring
      · subst h; rw [fsign_zero]; simp
      · rw [fsign_pos h, abs_of_pos h, max_eq_right (show -x - P ≤ 0 by linarith)]; ring
    rw [key, key]
    rw [abs_le]
    have h1 := le_abs_self (g - g')
    have h2 := neg_abs_le (g - g')
    constructor <;>
    · rcases max_cases (g - P) 0 with ⟨e1, _⟩ | ⟨e1, _⟩ <;> rcases max_cases (-g - P) 0 with ⟨e2, _⟩ | ⟨e2, _⟩ <;>
        rcases max_cases (g' - P) 0 with ⟨e3, _⟩ | ⟨e3, _⟩ <;> rcases max_cases (-g' - P) 0 with ⟨e4, _⟩ | ⟨e4, _⟩ <;>
        rw [e1, e2, e3, e4] <;> linarith
  · rw [show g + fsign c * P - (g' + fsign c * P) = g - g' by ring]

theorem subgradTerm_lipschitz (c g g' P : ℝ) (hP : 0 ≤ P) (lb ub : Option ℝ) :
    |subgradTerm c g P lb ub| ≤ |subgradTerm c g' P lb ub| + |g - g'| := by
  have h := term0_lipschitz c g g' P hP
  rw [subgradTerm_eq, subgradTerm_eq]
  generalize term0 c g P = t at *
  generalize term0 c g' P = t' at *
  rw [abs_le] at h
  have hn := abs_nonneg (g - g')
  by_cases h1 : (lb = some c ∧ 0 < t) ∨ (ub = some c ∧ t < 0)
  · rw [if_pos h1, abs_zero]; positivity
  · rw [if_neg h1]
    by_cases h2 : (lb = some c ∧ 0 < t') ∨ (ub = some c ∧ t' < 0)
    · rw [if_pos h2, abs_zero, zero_add]
      push Not at h1
      rcases h2 with ⟨hl, ht⟩ | ⟨hu, ht⟩
      · have := h1.1 hl
        rw [abs_of_nonpos this]; linarith
      · have := h1.2 hu
        rw [abs_of_nonneg this]; linarith
    · rw [if_neg h2]
      have := le_abs_self t'
      have := neg_abs_le t'
      rw [abs_le]; constructor <;> linarith

theorem absTerm_lipschitz {p : ℕ} (coef coef' grad grad' : Fin p → ℝ) (P1 : ℕ → ℝ) (hP : ∀ k, 0 ≤ P1 k) (ic : Bool) (lb ub : Option (ℕ → ℝ)) (i : Fin p)
    (hc : coef i = coef' i) : absTerm coef grad P1 ic lb ub i ≤ absTerm coef' grad' P1 ic lb ub i + |grad i - grad' i| := by
  unfold absTerm
  split
  · have := abs_sub_abs_le_abs_sub (grad i) (grad' i); linarith
  · rw [hc]; exact subgradTerm_lipschitz _ _ _ _ (hP _) _ _

variable {p a : ℕ}

/-- The state after `m` passes of cyclic selection. -/
noncomputable def cyc (D : CDData ℝ p a) (ha : 0 < a) (w0 q0 : Fin p → ℝ) (seed : BitVec 32) (m : ℕ) : CDState ℝ p :=
  D.afterSchedule w0 q0 seed ((List.range m).map (position false seed ha))

theorem cyc_succ (D : CDData ℝ p a) (ha : 0 < a) (w0 q0 : Fin p → ℝ) (seed : BitVec 32) (m : ℕ) :
    cyc D ha w0 q0 seed (m + 1) = D.visit ⟨m % a, Nat.mod_lt _ ha⟩ (cyc D ha w0 q0 seed m) := by
  unfold cyc
  rw [List.range_succ, List.map_append, List.map_singleton, afterSchedule_snoc]
  rfl

theorem cyc_inv (D : CDData ℝ p a) (hD : D.WF) (ha : 0 < a) (w0 q0 : Fin p → ℝ) (seed : BitVec 32) (m : ℕ) :
    CDInv D w0 q0 (cyc D ha w0 q0 seed m).w (cyc D ha w0 q0 seed m).q := afterSchedule_inv D hD w0 q0 seed _

theorem cyc_inBounds (D : CDData ℝ p a) (hD : D.WF) (ha : 0 < a) (w0 q0 : Fin p → ℝ) (seed : BitVec 32)
    (hf : InBounds D.intercept D.lb D.ub w0) (m : ℕ) : InBounds D.intercept D.lb D.ub (cyc D ha w0 q0 seed m).w :=
  afterSchedule_inBounds D hD.bounds w0 q0 seed hf _

/-- The model objective after `m` passes. -/
noncomputable def cycObj (D : CDData ℝ p a) (ha : 0 < a) (w0 q0 : Fin p → ℝ) (seed : BitVec 32) (m : ℕ) : ℝ :=
  modelObj D.active D.Q D.intercept D.P1 q0 w0 (cyc D ha w0 q0 seed m).w

theorem cyc_decrease (D : CDData ℝ p a) (hD : D.WF) (ha : 0 < a) (w0 q0 : Fin p → ℝ) (seed : BitVec 32)
    (hf : InBounds D.intercept D.lb D.ub w0) (c : ℝ) (hc : ∀ s, c ≤ D.Q s s) (hq : ∀ s, D.eps < D.Q s s) (m : ℕ) (i : Fin p) :
    cycObj D ha w0 q0 seed (m + 1) + 1 / 2 * c * ((cyc D ha w0 q0 seed m).w i - (cyc D ha w0 q0 seed (m + 1)).w i) ^ 2
      ≤ cycObj D ha w0 q0 seed m := by
  set s : Fin a := ⟨m % a, Nat.mod_lt _ ha⟩ with hs
  have hv := visit_opt D hD.mono.injective hD.symm hD.pos hD.eps hD.bounds w0 q0 s _ (cyc_inv D hD ha w0 q0 seed m) (hq s)
    ((cyc D ha w0 q0 seed m).w (D.active s)) (by rw [Function.update_eq_self]; exact cyc_inBounds D hD ha w0 q0 seed hf m)
  rw [Function.update_eq_self] at hv
  unfold cycObj
  rw [cyc_succ]
  by_cases hi : i = D.active s
  · subst hi
    have := mul_le_mul_of_nonneg_right (hc s) (sq_nonneg ((cyc D ha w0 q0 seed m).w (D.active s) - (D.visit s (cyc D ha w0 q0 seed m)).w (D.active s)))
    rw [← hs]
    linarith
  · rw [(c20_visit_touches_one_coordinate D s _).1 i hi, sub_self]
    have h0 : 0 < D.Q s s := lt_of_le_of_lt hD.eps (hq s)
    have := mul_nonneg h0.le (sq_nonneg ((cyc D ha w0 q0 seed m).w (D.active s) - (D.visit s (cyc D ha w0 q0 seed m)).w (D.active s)))
    rw [← hs]
    linarith

/-- The moves of the coefficients become arbitrarily small. -/
theorem cyc_moves_small (D : CDData ℝ p a) (hD : D.WF) (ha : 0 < a) (w0 q0 : Fin p → ℝ) (seed : BitVec 32)
    (hf : InBounds D.intercept D.lb D.ub w0) (hq : ∀ s, D.eps < D.Q s s)
    (B : ℝ) (hB : ∀ v, InBounds D.intercept D.lb D.ub v → (∀ i, i ∉ Set.range D.active → v i = w0 i) →
      B ≤ modelObj D.active D.Q D.intercept D.P1 q0 w0 v) (δ : ℝ) (hδ : 0 < δ) :
    ∃ N, ∀ m ≥ N, ∀ i, |(cyc D ha w0 q0 seed (m + 1)).w i - (cyc D ha w0 q0 seed m).w i| ≤ δ := by
  obtain ⟨c, hc0, hc⟩ : ∃ c, 0 < c ∧ ∀ s, c ≤ D.Q s s := by
    haveI : Nonempty (Fin a) := ⟨⟨0, ha⟩⟩
    obtain ⟨s, hs⟩ := Finite.exists_min fun s => D.Q s s
    exact ⟨D.Q s s, lt_of_le_of_lt hD.eps (hq s), hs⟩
  have hdec := cyc_decrease D hD ha w0 q0 seed hf c hc hq
  have hanti : Antitone (cycObj D ha w0 q0 seed) := by
    apply antitone_nat_of_succ_le
    intro m
    have h0 : 0 < a := ha
    by_cases hp : Nonempty (Fin p)
    · obtain ⟨i⟩ := hp
      have := hdec m i
      have h2 := mul_nonneg (show 0 ≤ 1 / 2 * c by linarith) (sq_nonneg ((cyc D ha w0 q0 seed m).w i - (cyc D ha w0 q0 seed (m + 1)).w i))
      linarith
    · exact absurd ⟨D.active ⟨0, ha⟩⟩ hp
  have hbdd : ∀ m, B ≤ cycObj D ha w0 q0 seed m := fun m => hB _ (cyc_inBounds D hD ha w0 q0 seed hf m) fun i hi =>
    (c21_gradient_bookkeeping D hD w0 q0 seed _).2 i hi
  have hlim := tendsto_atTop_ciInf hanti ⟨B, by rintro _ ⟨m, rfl⟩; exact hbdd m⟩
  set L := ⨅ m, cycObj D ha w0 q0 seed m
  have hev := hlim.eventually (gt_mem_nhds (show L < L + 1 / 2 * c * δ ^ 2 by have : 0 < 1 / 2 * c * δ ^ 2 := by positivity
                                                                              linarith))
  obtain ⟨N, hN⟩ := Filter.eventually_atTop.1 hev
  refine ⟨N, fun m hm i => ?_⟩
  have h1 := hN m hm
  have h2 : L ≤ cycObj D ha w0 q0 seed (m + 1) := ciInf_le ⟨B, by rintro _ ⟨k, rfl⟩; exact hbdd k⟩ (m + 1)
  have h3 := hdec m i
  set x := (cyc D ha w0 q0 seed m).w i - (cyc D ha w0 q0 seed (m + 1)).w i
  rw [abs_sub_comm]
  by_contra hn
  have h4 : δ < |x| := not_le.1 hn
  have h5 : δ ^ 2 < x ^ 2 := by rw [← sq_abs x]; exact pow_lt_pow_left₀ h4 hδ.le (by norm_num)
  have h6 := mul_lt_mul_of_pos_left h5 (show 0 < 1 / 2 * c by linarith)
  linarith

/-- Right after its visit, the subgradient of a coordinate is zero. -/
theorem visit_term_zero (D : CDData ℝ p a) (hD : D.WF) (w0 q0 : Fin p → ℝ) (st : CDState ℝ p) (h : CDInv D w0 q0 st.w st.q)
    (hf : InBounds D.intercept D.lb D.ub st.w) (s : Fin a) (hq : D.eps < D.Q s s) :
    absTerm (D.visit s st).w (D.visit s st).q D.P1 D.intercept D.lb D.ub (D.active s) = 0 := by
  have hi' := visit_inv D hD.mono.injective hD.symm w0 q0 s st h
  rw [absTerm_eq_zero_iff _ _ _ hD.pos _ _ _ _ (visit_inBounds D hD.bounds s st hf)]
  intro z hz
  have hup : (fun j => if j = D.active s then z else (D.visit s st).w j) = Function.update st.w (D.active s) z := by
    funext j
    by_cases hj : j = D.active s
    · subst hj; simp
    · rw [if_neg hj, Function.update_of_ne hj]
      exact (c20_visit_touches_one_coordinate D s st).1 j hj
  have hup' : Function.update st.w (D.active s) z = Function.update (D.visit s st).w (D.active s) z := by
    rw [← hup]
    funext j
    by_cases hj : j = D.active s
    · subst hj; simp
    · rw [if_neg hj, Function.update_of_ne hj]
  rw [hup] at hz
  have hv := visit_opt D hD.mono.injective hD.symm hD.pos hD.eps hD.bounds w0 q0 s st h hq z hz
  rw [hup', modelObj_update D hD.mono.injective hD.symm w0 q0 _ _ s z hi'] at hv
  nlinarith [hv]

theorem cyc_telescope (D : CDData ℝ p a) (ha : 0 < a) (w0 q0 : Fin p → ℝ) (seed : BitVec 32) (δ : ℝ) (N : ℕ)
    (hN : ∀ m ≥ N, ∀ i, |(cyc D ha w0 q0 seed (m + 1)).w i - (cyc D ha w0 q0 seed m).w i| ≤ δ) (j : ℕ) (hj : N ≤ j) (k : ℕ) (i : Fin p) :
    |(cyc D ha w0 q0 seed (j + k)).w i - (cyc D ha w0 q0 seed j).w i| ≤ k * δ := by
  induction k with
  | zero => simp
  | succ k ih =>
    have h1 := hN (j + k) (by omega) i
    rw [show j + (k + 1) = j + k + 1 from rfl]
    have h2 := abs_add_le ((cyc D ha w0 q0 seed (j + k + 1)).w i - (cyc D ha w0 q0 seed (j + k)).w i)
      ((cyc D ha w0 q0 seed (j + k)).w i - (cyc D ha w0 q0 seed j).w i)
    rw [sub_add_sub_cancel] at h2
    push_cast
    linarith

/-- Between two visits a coordinate does not change. -/
theorem cyc_fixed (D : CDData ℝ p a) (hD : D.WF) (ha : 0 < a) (w0 q0 : Fin p → ℝ) (seed : BitVec 32) (k : ℕ) (s : Fin a) (t : ℕ)
    (ht : s.val + 1 + t ≤ a) :
    (cyc D ha w0 q0 seed (k * a + s.val + 1 + t)).w (D.active s) = (cyc D ha w0 q0 seed (k * a + s.val + 1)).w (D.active s) := by
  induction t with
  | zero => rfl
  | succ t ih =>
    rw [show k * a + s.val + 1 + (t + 1) = (k * a + s.val + 1 + t) + 1 from rfl, cyc_succ, ← ih (by omega)]
    refine (c20_visit_touches_one_coordinate D _ _).1 _ fun e => ?_
    have := congrArg Fin.val (hD.mono.injective e)
    simp only at this
    rw [show k * a + s.val + 1 + t = (s.val + 1 + t) + k * a by ring, Nat.add_mul_mod_self_right, Nat.mod_eq_of_lt (by omega)] at this
    omega

/-- After enough cycles the norm of the minimum-norm subgradient is as small as one likes. -/
theorem cyc_norm_small (D : CDData ℝ p a) (hD : D.WF) (ha : 0 < a) (w0 q0 : Fin p → ℝ) (seed : BitVec 32)
    (hf : InBounds D.intercept D.lb D.ub w0) (hq : ∀ s, D.eps < D.Q s s)
    (B : ℝ) (hB : ∀ v, InBounds D.intercept D.lb D.ub v → (∀ i, i ∉ Set.range D.active → v i = w0 i) →
      B ≤ modelObj D.active D.Q D.intercept D.P1 q0 w0 v) (tol : ℝ) (htol : 0 < tol) :
    ∃ N, ∀ k ≥ N, (normMinSubgrad ((List.finRange a).map D.active) (cyc D ha w0 q0 seed (k * a)).w (cyc D ha w0 q0 seed (k * a)).q
      D.P1 D.intercept D.lb D.ub).1 ≤ tol := by
  set S : ℝ := ∑ s, ∑ t, |D.Q s t| with hS
  have hS0 : 0 ≤ S := Finset.sum_nonneg fun s _ => Finset.sum_nonneg fun t _ => abs_nonneg _
  have hden : 0 < a * S + 1 := by positivity
  obtain ⟨N, hN⟩ := cyc_moves_small D hD ha w0 q0 seed hf hq B hB (tol / (a * S + 1)) (by positivity)
  set δ := tol / (a * S + 1) with hδ
  have hδ0 : 0 < δ := by positivity
  refine ⟨N + 1, fun k hk => ?_⟩
  obtain ⟨k, rfl⟩ : ∃ k', k = k' + 1 := ⟨k - 1, by omega⟩
  have hkN : N ≤ k * a := by
    have : k * 1 ≤ k * a := Nat.mul_le_mul_left _ ha
    omega
  rw [norm_eq_finset_sum D.active hD.mono]
  have hterm : ∀ s, absTerm (cyc D ha w0 q0 seed ((k + 1) * a)).w (cyc D ha w0 q0 seed ((k + 1) * a)).q D.P1 D.intercept D.lb D.ub (D.active s)
      ≤ ∑ t, |D.Q s t| * (a * δ) := by
    intro s
    obtain ⟨t, ht⟩ : ∃ t, s.val + 1 + t = a := ⟨a - (s.val + 1), by have := s.isLt; omega⟩
    have hidx : (k + 1) * a = k * a + s.val + 1 + t := by
      have : (k + 1) * a = k * a + a := by ring
      omega
    have hfix := cyc_fixed D hD ha w0 q0 seed k s t (by omega)
    have hz : absTerm (cyc D ha w0 q0 seed (k * a + s.val + 1)).w (cyc D ha w0 q0 seed (k * a + s.val + 1)).q D.P1 D.intercept D.lb D.ub (D.active s) = 0 := by
      have hmod : (⟨(k * a + s.val) % a, Nat.mod_lt _ ha⟩ : Fin a) = s := by
        apply Fin.ext
        simp only
        rw [Nat.mul_add_mod', Nat.mod_eq_of_lt s.isLt]
      have := visit_term_zero D hD w0 q0 _ (cyc_inv D hD ha w0 q0 seed (k * a + s.val)) (cyc_inBounds D hD ha w0 q0 seed hf _) s (hq s)
      rw [cyc_succ, hmod]
      exact this
    rw [hidx]
    refine (absTerm_lipschitz _ _ _ (cyc D ha w0 q0 seed (k * a + s.val + 1)).q D.P1 hD.pos D.intercept D.lb D.ub (D.active s) hfix).trans ?_
    rw [hz, zero_add, (cyc_inv D hD ha w0 q0 seed _).1 s, (cyc_inv D hD ha w0 q0 seed _).1 s, quadGrad, quadGrad, add_sub_add_left_eq_sub, ← Finset.sum_sub_distrib]
    refine (Finset.abs_sum_le_sum_abs _ _).trans (Finset.sum_le_sum fun u _ => ?_)
    rw [← mul_sub, sub_sub_sub_cancel_right, abs_mul]
    refine mul_le_mul_of_nonneg_left ?_ (abs_nonneg _)
    refine (cyc_telescope D ha w0 q0 seed δ N hN _ (by omega) t _).trans ?_
    have : (t : ℝ) ≤ a := by exact_mod_cast (show t ≤ a by omega)
    exact mul_le_mul_of_nonneg_right this hδ0.le
  refine (Finset.sum_le_sum fun s _ => hterm s).trans ?_
  simp only [← Finset.sum_mul]
  rw [← hS, hδ, show S * (a * (tol / (a * S + 1))) = tol * ((a * S) / (a * S + 1)) by ring]
  have : (a * S) / (a * S + 1) ≤ 1 := by rw [div_le_one hden]; linarith
  nlinarith

/-- **C84.** With cyclic selection, a positive tolerance, curvature above `eps` in every active coordinate and a penalised quadratic model that is bounded
below, the inner solver ends without its convergence warning whenever it is allowed enough cycles. -/
theorem c84_inner_terminates (D : CDData ℝ p a) (hD : D.WF) (ha32 : a < 2 ^ 32) (hcyc : D.random = false) (hq : ∀ s, D.eps < D.Q s s) (htol : 0 < D.tol)
    (w0 q0 : Fin p → ℝ) (seed : BitVec 32) (hf : InBounds D.intercept D.lb D.ub w0)
    (B : ℝ) (hB : ∀ v, InBounds D.intercept D.lb D.ub v → (∀ i, i ∉ Set.range D.active → v i = w0 i) →
      B ≤ modelObj D.active D.Q D.intercept D.P1 q0 w0 v) :
    ∃ N, ∀ M ≥ N, (({ D with maxIter := M } : CDData ℝ p a).run w0 q0 seed).warned = false := by
  rcases Nat.eq_zero_or_pos a with ha | ha
  · refine ⟨1, fun M hM => ?_⟩
    set D' : CDData ℝ p a := { D with maxIter := M } with hD'
    have hwf : D'.WF := ⟨hD.mono, hD.symm, hD.pos, hD.eps, hD.bounds⟩
    obtain ⟨h1, h2, h3⟩ := c24_warns_iff D' hwf w0 q0 seed hM
    have hz : (D'.run w0 q0 seed).norm = 0 := by
      rw [h1 (fun _ => 0) (fun s => by subst ha; exact s.elim0), norm_eq_finset_sum _ hwf.mono]
      subst ha
      simp
    rw [← Bool.not_eq_true, h2, hz, not_lt]
    exact htol.le
  · obtain ⟨N, hN⟩ := cyc_norm_small D hD ha w0 q0 seed hf hq B hB D.tol htol
    refine ⟨N + 1, fun M hM => ?_⟩
    set D' : CDData ℝ p a := { D with maxIter := M } with hD'
    have hwf : D'.WF := ⟨hD.mono, hD.symm, hD.pos, hD.eps, hD.bounds⟩
    have hM1 : 1 ≤ D'.maxIter := by show 1 ≤ M; omega
    obtain ⟨h1, h2, h3⟩ := c24_warns_iff D' hwf w0 q0 seed hM1
    by_contra hn
    have hw : (D'.run w0 q0 seed).warned = true := by simpa using hn
    have hni : (D'.run w0 q0 seed).nIter = M := h3 hw
    have hc := c24_cycle_count ha ha32 D' w0 q0 seed hM1
    have hsame : ∀ m, D'.afterSchedule w0 q0 seed ((List.range m).map (position D'.random seed ha)) = cyc D ha w0 q0 seed m := by
      intro m
      unfold cyc
      rw [show D'.random = false from hcyc]
      rfl
    rw [hni, hsame] at hc
    have h4 := h2.1 hw
    have hg : (D'.run w0 q0 seed).norm = (normMinSubgrad ((List.finRange a).map D.active) (cyc D ha w0 q0 seed (M * a)).w
        (cyc D ha w0 q0 seed (M * a)).q D.P1 D.intercept D.lb D.ub).1 := by
      rw [h1 (cyc D ha w0 q0 seed (M * a)).q (fun s => ?_), hc]
      rw [hc]
      exact (cyc_inv D hD ha w0 q0 seed (M * a)).1 s
    rw [hg] at h4
    exact absurd (hN M (by omega)) (not_le.2 h4)

/-- Curvature at least `lam` in every direction. -/
def Spec.StronglyConvex {m : ℕ} (lam : ℝ) (Q : Fin m → Fin m → ℝ) : Prop := ∀ d : Fin m → ℝ, lam * ∑ s, d s ^ 2 ≤ ∑ s, ∑ t, Q s t * d s * d t

theorem strong_diag {m : ℕ} (lam : ℝ) (Q : Fin m → Fin m → ℝ) (h : StronglyConvex lam Q) (s : Fin m) : lam ≤ Q s s := by
  have := h fun t => if t = s then 1 else 0
  simpa using this

theorem strong_below (D : CDData ℝ p a) (hD : D.WF) (lam : ℝ) (hl : 0 < lam) (h : StronglyConvex lam D.Q) (w0 q0 v : Fin p → ℝ) :
    -(∑ s, q0 (D.active s) ^ 2 / (2 * lam)) ≤ modelObj D.active D.Q D.intercept D.P1 q0 w0 v := by
  unfold modelObj
  have h1 : 0 ≤ l1 D.intercept D.P1 v := Finset.sum_nonneg fun i _ => mul_nonneg (l1Weight_nonneg _ _ hD.pos i) (abs_nonneg _)
  unfold quad
  have h2 := h fun s => v (D.active s) - w0 (D.active s)
  have h3 : -(∑ s, q0 (D.active s) ^ 2 / (2 * lam)) ≤ ∑ s, q0 (D.active s) * (v (D.active s) - w0 (D.active s))
      + 1 / 2 * (lam * ∑ s, (v (D.active s) - w0 (D.active s)) ^ 2) := by
    rw [Finset.mul_sum, Finset.mul_sum, ← Finset.sum_add_distrib, ← Finset.sum_neg_distrib]
    refine Finset.sum_le_sum fun s _ => ?_
    set g := q0 (D.active s)
    set x := v (D.active s) - w0 (D.active s)
    have : 0 ≤ (lam * x + g) ^ 2 / (2 * lam) := by positivity
    have e : (lam * x + g) ^ 2 / (2 * lam) = g * x + 1 / 2 * (lam * x ^ 2) + g ^ 2 / (2 * lam) := by field_simp; ring
    linarith
  linarith

/-- **C84, strongly convex problems.** The model need only have curvature at least `lam > eps` in every direction. -/
theorem c84_strongly_convex (D : CDData ℝ p a) (hD : D.WF) (ha32 : a < 2 ^ 32) (hcyc : D.random = false) (htol : 0 < D.tol)
    (lam : ℝ) (hlam : D.eps < lam) (h : StronglyConvex lam D.Q)
    (w0 q0 : Fin p → ℝ) (seed : BitVec 32) (hf : InBounds D.intercept D.lb D.ub w0) :
    ∃ N, ∀ M ≥ N, (({ D with maxIter := M } : CDData ℝ p a).run w0 q0 seed).warned = false :=
  c84_inner_terminates D hD ha32 hcyc (fun s => hlam.trans_le (strong_diag lam D.Q h s)) htol w0 q0 seed hf _
    fun v _ _ => strong_below D hD lam (hD.eps.trans_lt hlam) h w0 q0 v

/-- **C84, what was found.** A call that ends without the warning has found the minimiser up to `2 tol / lam` per coefficient, where `lam` is the curvature: any
feasible vector that agrees outside the active set and is no worse is that close. -/
theorem c84_distance (D : CDData ℝ p a) (hD : D.WF) (lam : ℝ) (hlam : 0 < lam) (h : StronglyConvex lam D.Q)
    (w0 q0 : Fin p → ℝ) (seed : BitVec 32) (hw : (D.run w0 q0 seed).warned = false) (v : Fin p → ℝ)
    (hv : InBounds D.intercept D.lb D.ub v) (hoff : ∀ i, i ∉ Set.range D.active → v i = w0 i)
    (hbest : modelObj D.active D.Q D.intercept D.P1 q0 w0 v ≤ modelObj D.active D.Q D.intercept D.P1 q0 w0 (D.run w0 q0 seed).w) (i : Fin p) :
    |v i - (D.run w0 q0 seed).w i| ≤ 2 * D.tol / lam := by
  obtain ⟨q, h1, h2, h3⟩ := loop_exit D hD w0 q0 D.maxIter 0 0
    { w := w0, q := q0, dwMax := 0, wMax := 0, rng := seed } (CDInv.init D w0 q0) hw
  change CDInv D w0 q0 (D.run w0 q0 seed).w q at h1
  change (D.run w0 q0 seed).norm = _ at h2
  change (D.run w0 q0 seed).norm ≤ D.tol at h3
  set w := (D.run w0 q0 seed).w
  have hoff' : ∀ i, i ∉ Set.range D.active → v i = w i := fun i hi => by rw [hoff i hi]; exact (h1.2 i fun s e => hi ⟨s, e⟩).symm
  haveI : Nonempty (Fin p) := ⟨i⟩
  obtain ⟨j, hj⟩ := Finite.exists_max fun i => |v i - w i|
  have htol : 0 ≤ D.tol := by
    refine le_trans ?_ h3
    rw [h2, norm_eq_finset_sum D.active hD.mono]
    exact Finset.sum_nonneg fun s _ => absTerm_nonneg _ _ _ _ _ _ _
  refine (hj i).trans ?_
  by_cases hr : j ∈ Set.range D.active
  · obtain ⟨s, rfl⟩ := hr
    set B := |v (D.active s) - w (D.active s)| with hBdef
    have hB0 : 0 ≤ B := abs_nonneg _
    have hc := c23_certificate D.active hD.mono w q D.P1 hD.pos D.intercept D.lb D.ub v hv hoff' B hj
    change (D.run w0 q0 seed).norm = (normMinSubgrad ((List.finRange a).map D.active) w q D.P1 D.intercept D.lb D.ub).1 at h2
    rw [← h2] at hc
    have hx := quad_expand D.active D.Q hD.symm q0 w0 w v
    have hp := h (fun s => v (D.active s) - w (D.active s))
    have hBsq : B ^ 2 ≤ ∑ s, (v (D.active s) - w (D.active s)) ^ 2 := by
      rw [hBdef, sq_abs]
      exact Finset.single_le_sum (f := fun s => (v (D.active s) - w (D.active s)) ^ 2) (fun s _ => sq_nonneg _) (Finset.mem_univ s)
    unfold modelObj at hbest
    rw [hx] at hbest
    simp only [← h1.1] at hbest
    have h4 := mul_le_mul_of_nonneg_right h3 hB0
    have h5 := mul_le_mul_of_nonneg_left hBsq hlam.le
    have h6 : lam * B ^ 2 ≤ 2 * (D.tol * B) := by linarith
    rw [le_div_iff₀ hlam]
    rcases hB0.eq_or_lt with h0 | h0
    · rw [← h0]; linarith
    · by_contra hn
      have := mul_lt_mul_of_pos_right (not_le.1 hn) h0
      nlinarith
  · rw [hoff' j hr, sub_self, abs_zero]; positivity

variable {n : ℕ} {ic : Bool}

theorem strong_restrict {m k : ℕ} (lam : ℝ) (M : Fin m → Fin m → ℝ) (hM : StronglyConvex lam M) (f : Fin k → Fin m) (hf : Function.Injective f) :
    StronglyConvex lam fun s t => M (f s) (f t) := by
  intro d
  classical
  let v : Fin m → ℝ := fun i => ∑ s, if f s = i then d s else 0
  have hv : ∀ g : Fin m → ℝ, ∑ i, g i * v i = ∑ s, g (f s) * d s := by
    intro g
    simp only [v, Finset.mul_sum]
    rw [Finset.sum_comm]
    apply Finset.sum_congr rfl; intro s _
    simp
  have hvf : ∀ s, v (f s) = d s := by
    intro s
    simp only [v]
    rw [Finset.sum_eq_single s]
    · simp
    · intro t _ ht; rw [if_neg fun e => ht (hf e)]
    · simp
  have e : ∑ i, ∑ j, M i j * v i * v j = ∑ s, ∑ t, M (f s) (f t) * d s * d t := by
    have h1 : ∀ i, ∑ j, M i j * v i * v j = (∑ t, M i (f t) * d t) * v i := by
      intro i
      rw [← hv (fun j => M i j), Finset.sum_mul]
      apply Finset.sum_congr rfl; intro j _; ring
    simp only [h1]
    rw [hv (fun i => ∑ t, M i (f t) * d t)]
    apply Finset.sum_congr rfl; intro s _
    rw [Finset.sum_mul]
    apply Finset.sum_congr rfl; intro t _; ring
  have e2 : ∑ i, v i ^ 2 = ∑ s, d s ^ 2 := by
    simp only [pow_two]
    rw [hv v]
    exact Finset.sum_congr rfl fun s _ => by rw [hvf]
  rw [← e, ← e2]
  exact hM v

/-- The Hessian of the objective at `w`, with the family's row curvatures. -/
noncomputable def Spec.hessianAt (D : IRLSData n p ic) (w : Fin (p + ic.toNat) → ℝ) : Fin (p + ic.toNat) → Fin (p + ic.toNat) → ℝ :=
  fullHessian ic D.X (fun r => D.fam.hess (D.y r) (D.sw r) (linPred ic D.X (off D) w r) (D.fam.inv (linPred ic D.X (off D) w r))) D.P2

/-- The state in which the inner solver is called. -/
noncomputable def innerState (D : IRLSData n p ic) (st : IRLSState n p ic) : IRLSState n p ic :=
  { st with hs := updateHessian ic D.X D.P2 D.hessApprox st.hs (identifyActiveSet D st) }

theorem visited_innerTol (inner : Inner n p ic) (D : IRLSData n p ic) (hg : 0 < D.gradTol) (hfix : ∀ t, D.fixedInnerTol = some t → 0 < t)
    (coef0 : Fin (p + ic.toNat) → ℝ) (st : IRLSState n p ic) (h : Visited inner D coef0 st) : 0 < st.innerTol := by
  have key : ∀ c s g, 0 < (checkConvergence D c s g).2.2.2 := by
    intro c s g
    unfold checkConvergence
    simp only
    split
    · rename_i t ht; exact hfix t ht
    · exact lt_max_of_lt_right hg
  cases h with
  | init => exact key coef0 (fun _ => D.stepTol.getD 0) _
  | step st _ _ _ => exact key _ (fun _ => 0) _

/-- **C84, in a fit.** In every iteration of every `irls-cd` fit with cyclic selection and the exact Hessian (`hessian_approx=0`), started within the bounds, in
which the Hessian at the current coefficients has curvature above `16 eps`: with `max_inner_iter` large enough the inner solver does not warn. -/
theorem c84_irls (inner : Inner n p ic) (D : IRLSData n p ic) (hD : Convexish D) (hcyc : D.random = false) (hH : D.hessApprox = 0) (hsize : p + 1 < 2 ^ 32)
    (hg : 0 < D.gradTol) (hfix : ∀ t, D.fixedInnerTol = some t → 0 < t) (coef0 : Fin (p + ic.toNat) → ℝ) (st : IRLSState n p ic)
    (h : Visited inner D coef0 st) (hb : InBounds ic D.lb D.ub st.coef) (lam : ℝ) (hlam : 16 * D.eps < lam) (hs : StronglyConvex lam (hessianAt D st.coef))
    (seed : BitVec 32) :
    ∃ N, ∀ M ≥ N, ((cdArgs ({ D with maxInnerIter := M } : IRLSData n p ic) (innerState D st)).run st.coef (fun k => -st.score k) seed).warned = false := by
  have hok := visited_hessOK inner D hD coef0 st h
  obtain ⟨hwf, hpsd⟩ := cdArgs_ok D hD st hok (innerState D st) rfl
  have hact : (innerState D st).hs.active = identifyActiveSet D st := (updateHessian_init ic D.X D.P2 D.hessApprox st.hs _).2
  have hrows : (innerState D st).hs.rows = fun r => D.fam.hess (D.y r) (D.sw r) (linPred ic D.X (off D) st.coef r) (D.fam.inv (linPred ic D.X (off D) st.coef r)) := by
    funext r
    rw [← (c29_state_in_sync inner D hD.P1 coef0 st h).2.2.2.2 r]
    show (updateHessian ic D.X D.P2 D.hessApprox st.hs (identifyActiveSet D st)).rows r = _
    rw [hH]
    unfold updateHessian
    split
    · rfl
    · simp only [activeRows_zero]
  have hQ : ∀ s t, (cdArgs D (innerState D st)).Q s t = hessianAt D st.coef ((innerState D st).hs.active.get s) ((innerState D st).hs.active.get t) := by
    intro s t
    have hmem : ∀ s, (innerState D st).hs.active.get s ∈ identifyActiveSet D st := fun s => by
      rw [← hact]; exact List.get_mem _ _
    unfold hessianAt
    rw [← hrows]
    exact updateHessian_block ic D.X D.P2 D.hessApprox st.hs hok.inv _ (activeSet_ok D st) _ (hmem s) _ (hmem t)
  have hstrong : StronglyConvex lam (cdArgs D (innerState D st)).Q := by
    have := strong_restrict lam _ hs (fun s => (innerState D st).hs.active.get s) hwf.mono.injective
    rw [show (cdArgs D (innerState D st)).Q = fun s t => hessianAt D st.coef ((innerState D st).hs.active.get s) ((innerState D st).hs.active.get t) from
      funext fun s => funext fun t => hQ s t]
    exact this
  have hlen : (innerState D st).hs.active.length < 2 ^ 32 := by
    have h1 : (innerState D st).hs.active.length ≤ p + ic.toNat := by
      have := Fintype.card_le_of_injective _ hwf.mono.injective
      simpa using this
    have h2 : ic.toNat ≤ 1 := by cases ic <;> simp
    omega
  exact c84_strongly_convex (cdArgs D (innerState D st)) hwf hlen hcyc (visited_innerTol inner D hg hfix coef0 st h) lam (by
    show D.eps * 16 < lam
    linarith) hstrong st.coef (fun k => -st.score k) seed hb

/-! ### Non-vacuity -/

/-- The example of C31 with cyclic selection, a tolerance and the exact Hessian. -/
noncomputable def liveEx : IRLSData 2 1 true :=
  { irlsEx with gradTol := 1 / 1000, hessApprox := 0, random := false }

theorem liveEx_convexish : Convexish liveEx :=
  ⟨irlsEx_convexish.P1, irlsEx_convexish.symm, irlsEx_convexish.psd, irlsEx_convexish.rows, irlsEx_convexish.eps, irlsEx_convexish.bounds⟩

theorem liveEx_strong (w : Fin (1 + true.toNat) → ℝ) : StronglyConvex (1 / 10) (hessianAt liveEx w) := by
  intro d
  have e : ∑ s, ∑ t, hessianAt liveEx w s t * d s * d t = d 0 ^ 2 + 5 * d 0 * d 1 + 36 / 5 * d 1 ^ 2 := by
    show ∑ s : Fin 2, ∑ t : Fin 2, _ = _
    simp only [Fin.sum_univ_two]
    simp [hessianAt, fullHessian, design, p2Full, p2Matrix, liveEx, irlsEx, normalRow]
    ring
  rw [e]
  have e2 : ∑ s, d s ^ 2 = d 0 ^ 2 + d 1 ^ 2 := by
    show ∑ s : Fin 2, _ = _
    simp only [Fin.sum_univ_two]
  rw [e2]
  nlinarith [sq_nonneg (d 0 + 25 / 9 * d 1), sq_nonneg (d 1)]

-- C84 applies to the first iteration of this fit
example (inner : Inner 2 1 true) (seed : BitVec 32) : ∃ N, ∀ M ≥ N,
    ((cdArgs ({ liveEx with maxInnerIter := M } : IRLSData 2 1 true) (innerState liveEx (irlsInit liveEx fun _ => 0))).run (fun _ => 0)
      (fun k => -(irlsInit liveEx fun _ => 0).score k) seed).warned = false :=
  c84_irls inner liveEx liveEx_convexish rfl rfl (by norm_num) (by simp [liveEx]) (by simp [liveEx, irlsEx]) _ _ Visited.init irlsEx_feasible
    (1 / 10) (by simp only [liveEx, irlsEx]; norm_num) (liveEx_strong _) seed

end Glum
