import Verif.Lemmas.Subgrad
import Verif.Props.Rng
/-
C20–C24 (and the inner-solver half of C19): the coordinate-descent inner solver.
-/
set_option linter.unusedSectionVars false
set_option linter.unusedVariables false

namespace Glum
open Spec

variable {K : Type*} [Field K] [LinearOrder K] [IsStrictOrderedRing K]

/-- What a caller of the inner solver provides: distinct, sorted active indices, a symmetric `Q`,
non-negative L1 weights, non-negative `eps`, and non-empty bound intervals. -/
structure CDData.WF {p a : ℕ} (D : CDData K p a) : Prop where
  mono : StrictMono D.active
  symm : ∀ s t, D.Q s t = D.Q t s
  pos : ∀ k, 0 ≤ D.P1 k
  eps : 0 ≤ D.eps
  bounds : BoundsOrdered D.lb D.ub

/-- The state after visiting the active positions of an arbitrary schedule, in order. -/
def CDData.afterSchedule {p a : ℕ} (D : CDData K p a) (w0 q0 : Fin p → K) (seed : BitVec 32)
    (sched : List (Fin a)) : CDState K p :=
  sched.foldl (fun st s => D.visit s st) { w := w0, q := q0, dwMax := 0, wMax := 0, rng := seed }

theorem afterSchedule_snoc {p a : ℕ} (D : CDData K p a) (w0 q0 : Fin p → K) (seed : BitVec 32)
    (sched : List (Fin a)) (s : Fin a) :
    D.afterSchedule w0 q0 seed (sched ++ [s]) = D.visit s (D.afterSchedule w0 q0 seed sched) := by
  unfold CDData.afterSchedule
  rw [List.foldl_append]; rfl

theorem afterSchedule_inv {p a : ℕ} (D : CDData K p a) (hD : D.WF) (w0 q0 : Fin p → K) (seed : BitVec 32)
    (sched : List (Fin a)) :
    CDInv D w0 q0 (D.afterSchedule w0 q0 seed sched).w (D.afterSchedule w0 q0 seed sched).q := by
  induction sched using List.reverseRecOn with
  | nil => exact CDInv.init D w0 q0
  | append_singleton l s ih =>
    rw [afterSchedule_snoc]
    exact visit_inv D hD.mono.injective hD.symm w0 q0 s _ ih

/-- The coefficients and gradient produced by a visit depend on the coefficients and gradient only. -/
theorem visit_congr {p a : ℕ} (D : CDData K p a) (s : Fin a) (st st' : CDState K p) (hw : st.w = st'.w)
    (hq : st.q = st'.q) : (D.visit s st).w = (D.visit s st').w ∧ (D.visit s st).q = (D.visit s st').q := by
  unfold CDData.visit
  rw [hw, hq]
  simp only []
  split
  · exact ⟨hw, hq⟩
  · exact ⟨rfl, rfl⟩

/-- Every call of the inner solver (cyclic or random, any seed, any iteration limit) is the run of some
schedule, so what is proved for every schedule holds for the solver's output. -/
theorem cd_run_is_schedule {p a : ℕ} (D : CDData K p a) (w0 q0 : Fin p → K) (seed : BitVec 32) :
    ∃ sched, (D.run w0 q0 seed).w = (D.afterSchedule w0 q0 seed sched).w := by
  have := loop_preserves D
    (fun w q => ∃ sched, w = (D.afterSchedule w0 q0 seed sched).w ∧ q = (D.afterSchedule w0 q0 seed sched).q)
    (by
      rintro s st ⟨sched, h1, h2⟩
      refine ⟨sched ++ [s], ?_⟩
      rw [afterSchedule_snoc]
      exact visit_congr D s _ _ h1 h2)
    D.maxIter 0 0 { w := w0, q := q0, dwMax := 0, wMax := 0, rng := seed } ⟨[], rfl, rfl⟩
  obtain ⟨q, sched, h1, _⟩ := this
  exact ⟨sched, h1⟩

/-- **C20.** At every point of every schedule, visiting a coordinate whose curvature exceeds `eps` sets it to a
minimiser of the penalised quadratic model over all feasible values of that coordinate, the others fixed; and it
is the only one: any feasible value is worse by at least half the curvature times the squared distance. -/
theorem c20_coordinate_step_exact {p a : ℕ} (D : CDData K p a) (hD : D.WF) (w0 q0 : Fin p → K)
    (seed : BitVec 32) (sched : List (Fin a)) (s : Fin a) (hq : D.eps < D.Q s s) (z : K)
    (hz : InBounds D.intercept D.lb D.ub
      (Function.update (D.afterSchedule w0 q0 seed sched).w (D.active s) z)) :
    modelObj D.active D.Q D.intercept D.P1 q0 w0 (D.afterSchedule w0 q0 seed (sched ++ [s])).w
        + 1 / 2 * D.Q s s * (z - (D.afterSchedule w0 q0 seed (sched ++ [s])).w (D.active s)) ^ 2
      ≤ modelObj D.active D.Q D.intercept D.P1 q0 w0
          (Function.update (D.afterSchedule w0 q0 seed sched).w (D.active s) z) := by
  rw [afterSchedule_snoc]
  exact visit_opt D hD.mono.injective hD.symm hD.pos hD.eps hD.bounds w0 q0 s _
    (afterSchedule_inv D hD w0 q0 seed sched) hq z hz

/-- **C20, second half**: a visit changes no other coordinate, and a coordinate with curvature at most
`eps` is left alone. -/
theorem c20_visit_touches_one_coordinate {p a : ℕ} (D : CDData K p a) (s : Fin a) (st : CDState K p) :
    (∀ i, i ≠ D.active s → (D.visit s st).w i = st.w i) ∧ (D.Q s s ≤ D.eps → (D.visit s st).w = st.w) := by
  constructor
  · intro i hi
    by_cases hq : D.Q s s ≤ D.eps
    · rw [visit_skip D s st hq]
    · rw [visit_w D s st (by simpa using hq), Function.update_of_ne hi]
  · intro hq; rw [visit_skip D s st hq]

/-- **C21.** After any schedule of visits, the maintained vector `q` is the gradient of the quadratic model at the
current coefficients on every active coordinate, and coefficients outside the active set are untouched. -/
theorem c21_gradient_bookkeeping {p a : ℕ} (D : CDData K p a) (hD : D.WF) (w0 q0 : Fin p → K)
    (seed : BitVec 32) (sched : List (Fin a)) :
    (∀ s, (D.afterSchedule w0 q0 seed sched).q (D.active s)
        = q0 (D.active s) + ∑ t, D.Q s t *
            ((D.afterSchedule w0 q0 seed sched).w (D.active t) - w0 (D.active t)))
    ∧ ∀ i, i ∉ Set.range D.active → (D.afterSchedule w0 q0 seed sched).w i = w0 i := by
  have h := afterSchedule_inv D hD w0 q0 seed sched
  refine ⟨h.1, fun i hi => h.2 i fun s e => hi ⟨s, e⟩⟩

theorem afterSchedule_inBounds {p a : ℕ} (D : CDData K p a) (hb : BoundsOrdered D.lb D.ub) (w0 q0 : Fin p → K)
    (seed : BitVec 32) (hf : InBounds D.intercept D.lb D.ub w0) (sched : List (Fin a)) :
    InBounds D.intercept D.lb D.ub (D.afterSchedule w0 q0 seed sched).w := by
  induction sched using List.reverseRecOn with
  | nil => exact hf
  | append_singleton l s ih =>
    rw [afterSchedule_snoc]
    exact visit_inBounds D hb s _ ih

/-- **C22.** From a feasible start, extending any schedule by any coordinate never increases the
penalised quadratic model. -/
theorem c22_monotone_every_visit {p a : ℕ} (D : CDData K p a) (hD : D.WF) (w0 q0 : Fin p → K)
    (seed : BitVec 32) (hf : InBounds D.intercept D.lb D.ub w0) (sched : List (Fin a)) (s : Fin a) :
    modelObj D.active D.Q D.intercept D.P1 q0 w0 (D.afterSchedule w0 q0 seed (sched ++ [s])).w
      ≤ modelObj D.active D.Q D.intercept D.P1 q0 w0 (D.afterSchedule w0 q0 seed sched).w := by
  rw [afterSchedule_snoc]
  exact visit_mono D hD.mono.injective hD.symm hD.pos hD.eps hD.bounds w0 q0 s _
    (afterSchedule_inv D hD w0 q0 seed sched) (afterSchedule_inBounds D hD.bounds w0 q0 seed hf sched)

/-- **C22 for the solver call.** The coefficients returned by the inner solver never have a larger model objective
than the start, whatever the seed, the selection mode and the iteration limit. -/
theorem c22_run_not_worse {p a : ℕ} (D : CDData K p a) (hD : D.WF) (w0 q0 : Fin p → K)
    (seed : BitVec 32) (hf : InBounds D.intercept D.lb D.ub w0) :
    modelObj D.active D.Q D.intercept D.P1 q0 w0 (D.run w0 q0 seed).w
      ≤ modelObj D.active D.Q D.intercept D.P1 q0 w0 w0 := by
  obtain ⟨sched, h⟩ := cd_run_is_schedule D w0 q0 seed
  rw [h]
  clear h
  induction sched using List.reverseRecOn with
  | nil => exact le_rfl
  | append_singleton l s ih => exact le_trans (c22_monotone_every_visit D hD w0 q0 seed hf l s) ih

/-- **C19, inner solver.** From a feasible start the coefficients returned by the inner solver respect the bounds,
whatever the seed, the selection mode and the iteration limit. -/
theorem c19_cd_in_bounds {p a : ℕ} (D : CDData K p a) (hb : BoundsOrdered D.lb D.ub) (w0 q0 : Fin p → K)
    (seed : BitVec 32) (hf : InBounds D.intercept D.lb D.ub w0) :
    InBounds D.intercept D.lb D.ub (D.run w0 q0 seed).w := by
  obtain ⟨sched, h⟩ := cd_run_is_schedule D w0 q0 seed
  rw [h]; exact afterSchedule_inBounds D hb w0 q0 seed hf sched

/-- **C23.** For a feasible coefficient vector and sorted active set, the reported minimum-norm subgradient is zero iff
the KKT conditions hold on the active set. -/
theorem c23_norm_zero_iff_kkt {p a : ℕ} (active : Fin a → Fin p) (hm : StrictMono active)
    (coef grad : Fin p → K) (P1 : ℕ → K) (hP : ∀ k, 0 ≤ P1 k) (ic : Bool) (lb ub : Option (ℕ → K))
    (hw : InBounds ic lb ub coef) :
    (normMinSubgrad ((List.finRange a).map active) coef grad P1 ic lb ub).1 = 0
      ↔ KKT (fun i => i ∈ Set.range active) ic P1 lb ub grad coef := by
  rw [norm_eq_finset_sum active hm, Finset.sum_eq_zero_iff_of_nonneg (fun s _ => absTerm_nonneg _ _ _ _ _ _ _)]
  unfold KKT
  constructor
  · rintro h i ⟨s, rfl⟩
    exact (absTerm_eq_zero_iff coef grad P1 hP ic lb ub (active s) hw).mp (h s (Finset.mem_univ s))
  · intro h s _
    exact (absTerm_eq_zero_iff coef grad P1 hP ic lb ub (active s) hw).mpr (h (active s) ⟨s, rfl⟩)

/-- **C23, quantitative.** For every feasible competitor `v` that moves only active coordinates by at most `B`, the
linearised objective decreases by at most the reported norm times `B`. -/
theorem c23_certificate {p a : ℕ} (active : Fin a → Fin p) (hm : StrictMono active)
    (coef grad : Fin p → K) (P1 : ℕ → K) (hP : ∀ k, 0 ≤ P1 k) (ic : Bool) (lb ub : Option (ℕ → K))
    (v : Fin p → K) (hv : InBounds ic lb ub v) (hoff : ∀ i, i ∉ Set.range active → v i = coef i)
    (B : K) (hB : ∀ i, |v i - coef i| ≤ B) :
    -((normMinSubgrad ((List.finRange a).map active) coef grad P1 ic lb ub).1 * B)
      ≤ ∑ s, grad (active s) * (v (active s) - coef (active s)) + (l1 ic P1 v - l1 ic P1 coef) := by
  rw [norm_eq_finset_sum active hm]
  have e : l1 ic P1 v - l1 ic P1 coef
      = ∑ s, l1Weight ic P1 (active s) * (|v (active s)| - |coef (active s)|) := by
    unfold l1
    rw [← Finset.sum_sub_distrib]
    rw [show (∑ s, l1Weight ic P1 (active s) * (|v (active s)| - |coef (active s)|))
      = ∑ i ∈ Finset.univ.map ⟨active, hm.injective⟩, l1Weight ic P1 i * (|v i| - |coef i|) by
        rw [Finset.sum_map]; rfl]
    symm
    rw [show (∑ x, (l1Weight ic P1 x * |v x| - l1Weight ic P1 x * |coef x|))
      = ∑ x, l1Weight ic P1 x * (|v x| - |coef x|) from Finset.sum_congr rfl fun _ _ => by ring]
    apply Finset.sum_subset (Finset.subset_univ _)
    intro i _ hi
    have : i ∉ Set.range active := by
      rintro ⟨s, rfl⟩
      exact hi (by simp)
    rw [hoff i this]; ring
  rw [e, ← Finset.sum_add_distrib, Finset.sum_mul, ← Finset.sum_neg_distrib]
  apply Finset.sum_le_sum
  intro s _
  have h1 := absTerm_cert coef grad P1 hP ic lb ub (active s) (v (active s)) (fun k hk => hv (active s) k hk)
  have h2 := mul_le_mul_of_nonneg_left (hB (active s)) (absTerm_nonneg coef grad P1 ic lb ub (active s))
  linarith

theorem quad_expand {p a : ℕ} (active : Fin a → Fin p) (Q : Fin a → Fin a → K) (hsym : ∀ s t, Q s t = Q t s)
    (g0 w0 w v : Fin p → K) :
    quad active Q g0 w0 v = quad active Q g0 w0 w
      + ∑ s, quadGrad active Q g0 w0 w s * (v (active s) - w (active s))
      + 1 / 2 * ∑ s, ∑ t, Q s t * (v (active s) - w (active s)) * (v (active t) - w (active t)) := by
  unfold quad quadGrad
  set d : Fin a → K := fun s => w (active s) - w0 (active s) with hd
  set e : Fin a → K := fun s => v (active s) - w (active s) with he
  have hde : ∀ s, v (active s) - w0 (active s) = d s + e s := fun s => by simp [hd, he]
  simp only [hde]
  have s1 : ∑ s, ∑ t, Q s t * (d s + e s) * (d t + e t)
      = ∑ s, ∑ t, Q s t * d s * d t + 2 * ∑ s, (∑ t, Q s t * d t) * e s + ∑ s, ∑ t, Q s t * e s * e t := by
    have hsw : ∑ s, ∑ t, Q s t * d s * e t = ∑ s, (∑ t, Q s t * d t) * e s := by
      rw [Finset.sum_comm]
      apply Finset.sum_congr rfl; intro t _
      rw [Finset.sum_mul]
      apply Finset.sum_congr rfl; intro s _
      rw [hsym s t]
    have hsw2 : ∑ s, ∑ t, Q s t * e s * d t = ∑ s, (∑ t, Q s t * d t) * e s := by
      apply Finset.sum_congr rfl; intro s _
      rw [Finset.sum_mul]
      apply Finset.sum_congr rfl; intro t _
      ring
    have : ∀ s t, Q s t * (d s + e s) * (d t + e t)
        = Q s t * d s * d t + Q s t * d s * e t + Q s t * e s * d t + Q s t * e s * e t := by
      intro s t; ring
    simp only [this, Finset.sum_add_distrib, hsw, hsw2]; ring
  rw [s1]
  have s2 : ∑ s, g0 (active s) * (d s + e s) = ∑ s, g0 (active s) * d s + ∑ s, g0 (active s) * e s := by
    simp only [mul_add, Finset.sum_add_distrib]
  have s3 : ∑ s, (g0 (active s) + ∑ t, Q s t * d t) * e s
      = ∑ s, g0 (active s) * e s + ∑ s, (∑ t, Q s t * d t) * e s := by
    simp only [add_mul, Finset.sum_add_distrib]
  rw [s2, s3]
  change _ = ∑ s, g0 (active s) * d s + 1 / 2 * ∑ s, ∑ t, Q s t * d s * d t
    + (∑ s, g0 (active s) * e s + ∑ s, (∑ t, Q s t * d t) * e s) + 1 / 2 * ∑ s, ∑ t, Q s t * e s * e t
  ring

/-- `Q` is positive semidefinite. -/
def PSD {a : ℕ} (Q : Fin a → Fin a → K) : Prop := ∀ d : Fin a → K, 0 ≤ ∑ s, ∑ t, Q s t * d s * d t

/-- Loop analysis: what a non-warning exit means. -/
theorem loop_exit {p a : ℕ} (D : CDData K p a) (hD : D.WF) (w0 q0 : Fin p → K) (fuel k : ℕ) (norm : K)
    (st : CDState K p) (h : CDInv D w0 q0 st.w st.q) (hw : (D.loop fuel k norm st).warned = false) :
    ∃ q, CDInv D w0 q0 (D.loop fuel k norm st).w q ∧ (D.loop fuel k norm st).norm
        = (normMinSubgrad ((List.finRange a).map D.active) (D.loop fuel k norm st).w q D.P1 D.intercept D.lb D.ub).1
      ∧ (D.loop fuel k norm st).norm ≤ D.tol := by
  induction fuel generalizing k norm st with
  | zero => simp [CDData.loop] at hw
  | succ n ih =>
    have hc := cycle_preserves D (fun w q => CDInv D w0 q0 w q)
      (fun s st h => visit_inv D hD.mono.injective hD.symm w0 q0 s st h) st h
    unfold CDData.loop at hw ⊢
    simp only [] at hw ⊢
    split at hw
    · rename_i h1
      rw [if_pos h1]
      split at hw
      · rename_i h2
        rw [if_pos h2]
        exact ⟨_, hc, rfl, h2⟩
      · rename_i h2
        rw [if_neg h2]
        exact ih _ _ _ hc hw
    · rename_i h1
      rw [if_neg h1]
      exact ih _ _ _ hc hw

theorem loop_nIter {p a : ℕ} (D : CDData K p a) (fuel k : ℕ) (norm : K) (st : CDState K p) :
    (D.loop fuel k norm st).nIter ≤ max (k + fuel) 1 := by
  induction fuel generalizing k norm st with
  | zero => simp only [CDData.loop]; omega
  | succ n ih =>
    unfold CDData.loop
    simp only []
    split
    · split
      · simp only []; omega
      · have := ih (k + 1) (normMinSubgrad ((List.finRange a).map D.active) (D.cycle st).w (D.cycle st).q D.P1 D.intercept D.lb D.ub).1 (D.cycle st); omega
    · have := ih (k + 1) norm (D.cycle st); omega

theorem loop_nIter_pos {p a : ℕ} (D : CDData K p a) (fuel k : ℕ) (norm : K) (st : CDState K p) : 1 ≤ (D.loop fuel k norm st).nIter := by
  induction fuel generalizing k norm st with
  | zero => simp only [CDData.loop]; omega
  | succ n ih =>
    unfold CDData.loop
    simp only []
    split
    · split
      · simp only []; omega
      · exact ih _ _ _
    · exact ih _ _ _

/-- **C24.** A call with `max_iter ≥ 1` reports at most `max_iter` cycles; coefficients outside the active set are
returned unchanged; and if no convergence warning is raised then the reported subgradient norm is within the
tolerance, and is the minimum-norm subgradient of the quadratic model at the returned coefficients. -/
theorem c24_exit_status {p a : ℕ} (D : CDData K p a) (hD : D.WF) (w0 q0 : Fin p → K) (seed : BitVec 32)
    (hmax : 1 ≤ D.maxIter) :
    (D.run w0 q0 seed).nIter ≤ D.maxIter ∧
    (∀ i, i ∉ Set.range D.active → (D.run w0 q0 seed).w i = w0 i) ∧
    ((D.run w0 q0 seed).warned = false → (D.run w0 q0 seed).norm ≤ D.tol ∧
      ∀ g : Fin p → K, (∀ s, g (D.active s) = quadGrad D.active D.Q q0 w0 (D.run w0 q0 seed).w s) →
        (D.run w0 q0 seed).norm
          = (normMinSubgrad ((List.finRange a).map D.active) (D.run w0 q0 seed).w g D.P1 D.intercept D.lb D.ub).1) := by
  refine ⟨?_, ?_, ?_⟩
  · have := loop_nIter D D.maxIter 0 0 { w := w0, q := q0, dwMax := 0, wMax := 0, rng := seed }
    unfold CDData.run
    omega
  · intro i hi
    obtain ⟨sched, h⟩ := cd_run_is_schedule D w0 q0 seed
    rw [h]
    exact (c21_gradient_bookkeeping D hD w0 q0 seed sched).2 i hi
  · intro hw
    obtain ⟨q, h1, h2, h3⟩ := loop_exit D hD w0 q0 D.maxIter 0 0 _ (CDInv.init D w0 q0) hw
    refine ⟨h3, fun g hg => ?_⟩
    refine Eq.trans h2 ?_
    rw [norm_eq_finset_sum D.active hD.mono, norm_eq_finset_sum D.active hD.mono]
    apply Finset.sum_congr rfl
    intro s _
    have : q (D.active s) = g (D.active s) := by rw [hg s]; exact h1.1 s
    unfold absTerm
    rw [this]; rfl

/-- The position in the active set that the `m`-th pass of a call (counted from 0 over all cycles) is meant to visit: one after the other,
or, with random selection, the number drawn from the generator's state after `m` draws. -/
def Spec.position {a : ℕ} (random : Bool) (seed : BitVec 32) (ha : 0 < a) (m : ℕ) : Fin a :=
  if random then ⟨((randState (m + 1) seed).toNat % 2 ^ 31) % a, Nat.mod_lt _ ha⟩ else ⟨m % a, Nat.mod_lt _ ha⟩

theorem pass_position {p a : ℕ} [NeZero a] (ha : 0 < a) (ha32 : a < 2 ^ 32) (D : CDData K p a) (w0 q0 : Fin p → K) (seed : BitVec 32) (m : ℕ)
    (st : CDState K p) (f : Fin a) (hf : f.val = m % a)
    (h : st.w = (D.afterSchedule w0 q0 seed ((List.range m).map (position D.random seed ha))).w ∧
      st.q = (D.afterSchedule w0 q0 seed ((List.range m).map (position D.random seed ha))).q ∧
      (D.random = true → st.rng = randState m seed)) :
    (D.pass st f).w = (D.afterSchedule w0 q0 seed ((List.range (m + 1)).map (position D.random seed ha))).w ∧
      (D.pass st f).q = (D.afterSchedule w0 q0 seed ((List.range (m + 1)).map (position D.random seed ha))).q ∧
      (D.random = true → (D.pass st f).rng = randState (m + 1) seed) := by
  obtain ⟨h1, h2, h3⟩ := h
  rw [List.range_succ, List.map_append, List.map_singleton, afterSchedule_snoc]
  have hpos : (D.pick f st.rng).1 = position D.random seed ha m ∧ (D.random = true → (D.pick f st.rng).2 = randState (m + 1) seed) := by
    unfold CDData.pick position
    cases hr : D.random with
    | false =>
      refine ⟨?_, by simp⟩
      simp only [Bool.false_eq_true, if_false]
      exact Fin.ext hf
    | true =>
      simp only [if_true]
      obtain ⟨g1, g2⟩ := c25_rand_int_in_range seed m a ha ha32
      rw [h3 hr]
      refine ⟨Fin.ext ?_, fun _ => c25_rand_int_advances seed m _⟩
      simp only [Fin.ofNat]
      rw [Nat.mod_eq_of_lt g1, g2]
  unfold CDData.pass
  simp only
  rw [hpos.1]
  obtain ⟨e1, e2⟩ := visit_congr D (position D.random seed ha m) { st with rng := (D.pick f st.rng).2 }
    (D.afterSchedule w0 q0 seed ((List.range m).map (position D.random seed ha))) h1 h2
  refine ⟨e1, e2, fun hr => ?_⟩
  rw [← hpos.2 hr]
  unfold CDData.visit
  simp only
  split <;> rfl

theorem cycle_position {p a : ℕ} (ha : 0 < a) (ha32 : a < 2 ^ 32) (D : CDData K p a) (w0 q0 : Fin p → K) (seed : BitVec 32) (k : ℕ)
    (st : CDState K p)
    (h : st.w = (D.afterSchedule w0 q0 seed ((List.range (k * a)).map (position D.random seed ha))).w ∧
      st.q = (D.afterSchedule w0 q0 seed ((List.range (k * a)).map (position D.random seed ha))).q ∧
      (D.random = true → st.rng = randState (k * a) seed)) :
    (D.cycle st).w = (D.afterSchedule w0 q0 seed ((List.range ((k + 1) * a)).map (position D.random seed ha))).w ∧
      (D.cycle st).q = (D.afterSchedule w0 q0 seed ((List.range ((k + 1) * a)).map (position D.random seed ha))).q ∧
      (D.random = true → (D.cycle st).rng = randState ((k + 1) * a) seed) := by
  cases a with
  | zero => omega
  | succ a' =>
    unfold CDData.cycle
    simp only
    have main : ∀ t, t ≤ (a' + 1) → ∀ st0 : CDState K p, st0 = { st with dwMax := 0, wMax := 0 } →
        (((List.finRange (a' + 1)).take t).foldl (CDData.pass (a := (a' + 1)) D) st0).w
            = (D.afterSchedule w0 q0 seed ((List.range (k * (a' + 1) + t)).map (position D.random seed ha))).w ∧
        (((List.finRange (a' + 1)).take t).foldl (CDData.pass (a := (a' + 1)) D) st0).q
            = (D.afterSchedule w0 q0 seed ((List.range (k * (a' + 1) + t)).map (position D.random seed ha))).q ∧
        (D.random = true → (((List.finRange (a' + 1)).take t).foldl (CDData.pass (a := (a' + 1)) D) st0).rng = randState (k * (a' + 1) + t) seed) := by
      intro t ht st0 hst0
      subst hst0
      induction t with
      | zero => simpa using h
      | succ t ih =>
        have hlt : t < (List.finRange (a' + 1)).length := by rw [List.length_finRange]; omega
        rw [List.take_succ_eq_append_getElem hlt, List.foldl_append, List.foldl_cons, List.foldl_nil]
        refine pass_position ha ha32 D w0 q0 seed (k * (a' + 1) + t) _ _ ?_ (ih (by omega))
        rw [List.getElem_finRange]
        simp only [Fin.val_cast]
        rw [Nat.mul_add_mod', Nat.mod_eq_of_lt (by omega)]
    have := main (a' + 1) le_rfl _ rfl
    rw [List.take_of_length_le (by rw [List.length_finRange])] at this
    rw [show (k + 1) * (a' + 1) = k * (a' + 1) + (a' + 1) by ring]
    exact this

theorem loop_position {p a : ℕ} (ha : 0 < a) (ha32 : a < 2 ^ 32) (D : CDData K p a) (w0 q0 : Fin p → K) (seed : BitVec 32)
    (fuel k : ℕ) (hk : 1 ≤ k + fuel) (norm : K) (st : CDState K p)
    (h : st.w = (D.afterSchedule w0 q0 seed ((List.range (k * a)).map (position D.random seed ha))).w ∧
      st.q = (D.afterSchedule w0 q0 seed ((List.range (k * a)).map (position D.random seed ha))).q ∧
      (D.random = true → st.rng = randState (k * a) seed)) :
    (D.loop fuel k norm st).w = (D.afterSchedule w0 q0 seed
      ((List.range ((D.loop fuel k norm st).nIter * a)).map (position D.random seed ha))).w := by
  induction fuel generalizing k norm st with
  | zero =>
    unfold CDData.loop
    simp only
    rw [show k - 1 + 1 = k by omega]
    exact h.1
  | succ n ih =>
    have hc := cycle_position ha ha32 D w0 q0 seed k st h
    unfold CDData.loop
    simp only
    split
    · split
      · exact hc.1
      · exact ih (k + 1) (by omega) _ _ hc
    · exact ih (k + 1) (by omega) _ _ hc

/-- **C24, the count of cycles.** A call with a non-empty active set and `max_iter ≥ 1` that reports `n` cycles returns the coefficients after
exactly `n` times the size of the active set coordinate passes, in cyclic order or at the positions drawn from the generator. -/
theorem c24_cycle_count {p a : ℕ} (ha : 0 < a) (ha32 : a < 2 ^ 32) (D : CDData K p a) (w0 q0 : Fin p → K) (seed : BitVec 32)
    (hmax : 1 ≤ D.maxIter) :
    (D.run w0 q0 seed).w = (D.afterSchedule w0 q0 seed
      ((List.range ((D.run w0 q0 seed).nIter * a)).map (position D.random seed ha))).w :=
  loop_position ha ha32 D w0 q0 seed D.maxIter 0 (by omega) 0 _ (by simp [CDData.afterSchedule, randState])

/-- Loop analysis: the reported norm is that of the returned coefficients also when the iterations are exhausted. -/
theorem loop_norm {p a : ℕ} (D : CDData K p a) (hD : D.WF) (w0 q0 : Fin p → K) (fuel k : ℕ) (hf : 1 ≤ fuel) (hk : k + fuel = D.maxIter) (norm : K)
    (st : CDState K p) (h : CDInv D w0 q0 st.w st.q) :
    ∃ q, CDInv D w0 q0 (D.loop fuel k norm st).w q ∧ (D.loop fuel k norm st).norm
        = (normMinSubgrad ((List.finRange a).map D.active) (D.loop fuel k norm st).w q D.P1 D.intercept D.lb D.ub).1
      ∧ ((D.loop fuel k norm st).warned = true ↔ D.tol < (D.loop fuel k norm st).norm)
      ∧ ((D.loop fuel k norm st).warned = true → (D.loop fuel k norm st).nIter = D.maxIter) := by
  induction fuel generalizing k norm st with
  | zero => omega
  | succ n ih =>
    have hc := cycle_preserves D (fun w q => CDInv D w0 q0 w q)
      (fun s st h => visit_inv D hD.mono.injective hD.symm w0 q0 s st h) st h
    unfold CDData.loop
    simp only []
    split
    · rename_i h1
      split
      · rename_i h2
        refine ⟨_, hc, rfl, ?_, by simp⟩
        simp only [Bool.false_eq_true, false_iff, not_lt]
        exact h2
      · rename_i h2
        by_cases hn : n = 0
        · subst hn
          unfold CDData.loop
          refine ⟨_, hc, rfl, ?_, fun _ => by simp only; omega⟩
          simp only [true_iff]
          exact lt_of_not_ge h2
        · exact ih (k + 1) (by omega) (by omega) _ _ hc
    · rename_i h1
      push Not at h1
      exact ih (k + 1) (by have := h1.2.2; omega) (by omega) _ _ hc

/-- **C24, the warning.** With `max_iter ≥ 1`, the reported norm is always the norm of the minimum-norm subgradient of the quadratic model at the
returned coefficients; the call warns exactly if it exceeds the tolerance, and then all `max_iter` cycles were made. -/
theorem c24_warns_iff {p a : ℕ} (D : CDData K p a) (hD : D.WF) (w0 q0 : Fin p → K) (seed : BitVec 32) (hmax : 1 ≤ D.maxIter) :
    (∀ g : Fin p → K, (∀ s, g (D.active s) = quadGrad D.active D.Q q0 w0 (D.run w0 q0 seed).w s) →
        (D.run w0 q0 seed).norm
          = (normMinSubgrad ((List.finRange a).map D.active) (D.run w0 q0 seed).w g D.P1 D.intercept D.lb D.ub).1) ∧
      ((D.run w0 q0 seed).warned = true ↔ D.tol < (D.run w0 q0 seed).norm) ∧
      ((D.run w0 q0 seed).warned = true → (D.run w0 q0 seed).nIter = D.maxIter) := by
  obtain ⟨q, h1, h2, h3, h4⟩ := loop_norm D hD w0 q0 D.maxIter 0 hmax (by omega) 0
    { w := w0, q := q0, dwMax := 0, wMax := 0, rng := seed } (CDInv.init D w0 q0)
  refine ⟨fun g hg => ?_, h3, h4⟩
  refine Eq.trans h2 ?_
  rw [norm_eq_finset_sum D.active hD.mono, norm_eq_finset_sum D.active hD.mono]
  apply Finset.sum_congr rfl
  intro s _
  have : q (D.active s) = g (D.active s) := by rw [hg s]; exact h1.1 s
  unfold absTerm
  rw [this]; rfl

/-- **C24, what the exit status is worth.** If the call ends without a warning and `Q` is positive semidefinite, the
returned coefficients are within `tol · B` of the best model objective attainable by any feasible vector that differs from
them on the active set only, by at most `B` per coordinate. -/
theorem c24_near_optimal {p a : ℕ} (D : CDData K p a) (hD : D.WF) (w0 q0 : Fin p → K) (seed : BitVec 32)
    (hpsd : PSD D.Q) (hw : (D.run w0 q0 seed).warned = false) (v : Fin p → K)
    (hv : InBounds D.intercept D.lb D.ub v) (hoff : ∀ i, i ∉ Set.range D.active → v i = w0 i)
    (B : K) (hB : ∀ i, |v i - (D.run w0 q0 seed).w i| ≤ B) (hB0 : 0 ≤ B) :
    modelObj D.active D.Q D.intercept D.P1 q0 w0 (D.run w0 q0 seed).w
      ≤ modelObj D.active D.Q D.intercept D.P1 q0 w0 v + D.tol * B := by
  obtain ⟨q, h1, h2, h3⟩ := loop_exit D hD w0 q0 D.maxIter 0 0
    { w := w0, q := q0, dwMax := 0, wMax := 0, rng := seed } (CDInv.init D w0 q0) hw
  change CDInv D w0 q0 (D.run w0 q0 seed).w q at h1
  change (D.run w0 q0 seed).norm = _ at h2
  change (D.run w0 q0 seed).norm ≤ D.tol at h3
  set w := (D.run w0 q0 seed).w
  have hc := c23_certificate D.active hD.mono w q D.P1 hD.pos D.intercept D.lb D.ub v hv
    (fun i hi => by rw [hoff i hi]; exact (h1.2 i fun s e => hi ⟨s, e⟩).symm) B hB
  change (D.run w0 q0 seed).norm = (normMinSubgrad ((List.finRange a).map D.active) w q D.P1 D.intercept D.lb D.ub).1 at h2
  rw [← h2] at hc
  have hx := quad_expand D.active D.Q hD.symm q0 w0 w v
  have hp := hpsd (fun s => v (D.active s) - w (D.active s))
  unfold modelObj
  rw [hx]
  simp only [← h1.1]
  have := mul_le_mul_of_nonneg_right h3 hB0
  linarith

/-! ### Non-vacuity: a concrete two-coefficient problem with intercept, an L1 weight and both bounds. -/

/-- Test data: `Q = [[2,1],[1,2]]`, `P1 = 1/2`, bounds `[-1, 1]`, intercept. -/
def cdEx : CDData ℚ 2 2 where
  active := id
  P1 := fun _ => 1 / 2
  Q := fun s t => if s = t then 2 else 1
  maxIter := 1000
  tol := 1 / 10000
  intercept := true
  random := false
  lb := some fun _ => -1
  ub := some fun _ => 1
  eps := 1 / 1000000

theorem cdEx_wf : cdEx.WF where
  mono := strictMono_id
  symm := by intro s t; unfold cdEx; simp [eq_comm]
  pos := by intro k; unfold cdEx; norm_num
  eps := by unfold cdEx; norm_num
  bounds := by
    intro l u hl hu k
    simp [cdEx] at hl hu
    subst hl; subst hu; norm_num

example : InBounds cdEx.intercept cdEx.lb cdEx.ub (fun _ : Fin 2 => (0 : ℚ)) := by
  intro i k _
  simp [cdEx]

example : cdEx.eps < cdEx.Q 1 1 := by unfold cdEx; norm_num

example : PSD cdEx.Q := by
  intro d
  simp only [cdEx, Fin.sum_univ_two]
  norm_num
  nlinarith [sq_nonneg (d 0 + d 1), sq_nonneg (d 0), sq_nonneg (d 1)]

-- a visit that really moves a coordinate and hits a bound
example : (cdEx.visit 1 { w := fun _ => 0, q := fun _ => -9, dwMax := 0, wMax := 0, rng := 0 }).w 1 = 1 := by
  decide +kernel
-- the loop terminates without a warning on this problem
example : ({ cdEx with maxIter := 100, tol := 1 / 100 }.run (fun _ => 0) (fun i => if i = 0 then -1 else -2) 7#32).warned = false := by
  decide +kernel

end Glum
