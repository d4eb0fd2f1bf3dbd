import Verif.Props.Parallel
import Verif.Props.Families
/-
C100: the compiled routines, executed by any number of threads under any schedule, compute the functions the other properties are about.
-/
set_option linter.unusedSectionVars false
set_option linter.unusedVariables false
set_option linter.unusedSimpArgs false

namespace Glum

variable {T n : ℕ}

/-- **C100, there is a result.** With at least one thread the loop has an outcome (so the statements about every outcome are not empty). -/
theorem c100_outcome {V : Type*} [Add V] [Zero V] {body : ℕ → Prog V} (hb : RowLocal body) (m0 : Mem V) (d0 : ℕ → V) (hT : 0 < T) :
    ∃ m r, ParResult T n body m0 d0 m r := by
  obtain ⟨N, hN⟩ := c100_ends (T := T) (n := n) hb m0 hT
  have key : ∀ k ≤ N, ∃ s : PState V T, PRun body k (pStart T n m0) s := by
    intro k hk
    induction k with
    | zero => exact ⟨_, .refl _⟩
    | succ k ih =>
      obtain ⟨s, hs⟩ := ih (by omega)
      obtain ⟨-, h2, h3⟩ := hN k s hs
      obtain ⟨s', h'⟩ := h3 fun e => by have := h2.1 e; omega
      exact ⟨s', .step hs h'⟩
  obtain ⟨s, hs⟩ := key N le_rfl
  exact ⟨s.mem, fun d => combine (d0 d) (List.finRange T) s.acc d, N, s, hs, ((hN N s hs).2.1).2 rfl, rfl, fun d => ⟨_, List.Perm.refl _, rfl⟩⟩

/-- The outcome in terms of single iterations. -/
theorem outcome_spec {body : ℕ → Prog ℝ} (hb : RowLocal body) (m0 : Mem ℝ) (d0 : ℕ → ℝ) (m : Mem ℝ) (r : ℕ → ℝ) (h : ParResult T n body m0 d0 m r) :
    (∀ a (i : Fin n), m a i = (body i).memRun m0 a i) ∧ (∀ a i, n ≤ i → m a i = m0 a i) ∧ ∀ d, r d = d0 d + ∑ i : Fin n, (body i).contrib m0 d := by
  refine ⟨fun a i => ?_, fun a i hi => ?_, fun d => ?_⟩
  · rw [c100_arrays hb m0 d0 m r h, seq_spec hb _ List.nodup_range, if_pos (List.mem_range.2 i.isLt)]
  · rw [c100_arrays hb m0 d0 m r h, seq_spec hb _ List.nodup_range, if_neg fun e => absurd (List.mem_range.1 e) (by omega)]
  · rw [c100_sums hb m0 d0 m r h, seq_acc hb _ List.nodup_range, Fin.sum_univ_def, ← List.map_coe_finRange_eq_range, List.map_map]
    rfl

/-- The outputs are arrays of their own (the callers allocate them, `_distribution.py` 344-345, 394-395). -/
structure EtaArgs.Fresh (g : EtaArgs) : Prop where
  eta : g.eta ≠ g.cur ∧ g.eta ≠ g.xd ∧ g.eta ≠ g.y ∧ g.eta ≠ g.w ∧ g.eta ≠ g.mu
  mu : g.mu ≠ g.cur ∧ g.mu ≠ g.xd ∧ g.mu ≠ g.y ∧ g.mu ≠ g.w

theorem etaBody_local (k : Fast) (g : EtaArgs) (factor : ℝ) : RowLocal (k.etaBody g factor) := by
  intro i
  cases k <;> simp only [Fast.etaBody, Prog.OnlyRow, true_and, implies_true, and_self]
  intro _ _ v
  split <;> simp [Prog.OnlyRow]

theorem gradBody_local (k : Fast) (g : GradArgs) : RowLocal (k.gradBody g) := by
  intro i
  cases k <;> simp [Fast.gradBody, Prog.OnlyRow]

theorem sumBody_local (norm : ℝ → ℝ → ℝ → ℝ) (k : SumKind) (g : SumArgs) : RowLocal (k.body norm g) := by
  intro i
  cases k <;> simp only [SumKind.body, Prog.OnlyRow, true_and, implies_true, and_self]
  all_goals
    intros
    split <;> simp [Prog.OnlyRow]

theorem rowsBody_local (g : RowsArgs) (C md : ℝ) : RowLocal (rowsBody g C md) := by
  intro i
  simp only [rowsBody, Prog.OnlyRow, true_and]
  intro v
  split <;> simp [Prog.OnlyRow]

/-- The compiled loops. -/
inductive IsKernel (norm : ℝ → ℝ → ℝ → ℝ) : (ℕ → Prog ℝ) → Prop
  | eta (k : Fast) (g : EtaArgs) (factor : ℝ) : IsKernel norm (k.etaBody g factor)
  | grad (k : Fast) (g : GradArgs) : IsKernel norm (k.gradBody g)
  | sum (k : SumKind) (g : SumArgs) : IsKernel norm (k.body norm g)
  | rows (g : RowsArgs) (C md : ℝ) : IsKernel norm (rowsBody g C md)

/-- **C100, every compiled loop.** Whichever arrays are passed (also the same one twice): no two threads ever touch the same element with one of them writing, every
execution ends after the same number of steps, and all executions, on any numbers of threads, leave the same arrays and sums. -/
theorem c100_kernels (norm : ℝ → ℝ → ℝ → ℝ) (body : ℕ → Prog ℝ) (hk : IsKernel norm body) (m0 : Mem ℝ) (d0 : ℕ → ℝ) :
    (∀ T c (s : PState ℝ T), PRun body c (pStart T n m0) s → ¬ s.Race) ∧
    (∀ T, 0 < T → ∃ N, ∀ c (s : PState ℝ T), PRun body c (pStart T n m0) s → c ≤ N ∧ (s.ended ↔ c = N) ∧ (¬ s.ended → ∃ s', PStep body s s')) ∧
    ∀ T T' m r m' r', ParResult T n body m0 d0 m r → ParResult T' n body m0 d0 m' r' → m = m' ∧ r = r' := by
  have hb : RowLocal body := by
    cases hk with
    | eta k g f => exact etaBody_local k g f
    | grad k g => exact gradBody_local k g
    | sum k g => exact sumBody_local norm k g
    | rows g C md => exact rowsBody_local g C md
  refine ⟨fun T c s h => c100_race_free hb m0 c s h, fun T hT => c100_ends hb m0 hT, fun T T' m r m' r' h h' => ⟨?_, ?_⟩⟩
  · rw [c100_arrays hb m0 d0 m r h, c100_arrays hb m0 d0 m' r' h']
  · rw [c100_sums hb m0 d0 m r h, c100_sums hb m0 d0 m' r' h']

/-- One iteration. -/
theorem etaBody_spec (k : Fast) (g : EtaArgs) (hg : g.Fresh) (factor : ℝ) (i : ℕ) (m : Mem ℝ) :
    (k.etaBody g factor i).memRun m g.eta i = m g.cur i + factor * m g.xd i ∧
    (k.etaBody g factor i).memRun m g.mu i = k.mu (m g.cur i + factor * m g.xd i) ∧
    (∀ a, a ≠ g.eta → a ≠ g.mu → (k.etaBody g factor i).memRun m a i = m a i) ∧
    k.etaReturn ((k.etaBody g factor i).contrib m 0) = m g.w i * k.dev (m g.y i) (m g.cur i + factor * m g.xd i) := by
  obtain ⟨⟨e1, e2, e3, e4, e5⟩, m1, m2, m3, m4⟩ := hg
  have s0 : ∀ v, (m.set g.eta i v) g.eta i = v := fun v => if_pos ⟨rfl, rfl⟩
  have sy : ∀ v, (m.set g.eta i v) g.y i = m g.y i := fun v => if_neg fun h => e3 h.1.symm
  have sw : ∀ v, (m.set g.eta i v) g.w i = m g.w i := fun v => if_neg fun h => e4 h.1.symm
  have t0 : ∀ u v, ((m.set g.eta i u).set g.mu i v) g.eta i = u := fun u v => (if_neg fun h => e5 h.1).trans (s0 u)
  have t1 : ∀ u v, ((m.set g.eta i u).set g.mu i v) g.mu i = v := fun u v => if_pos ⟨rfl, rfl⟩
  have ty : ∀ u v, ((m.set g.eta i u).set g.mu i v) g.y i = m g.y i := fun u v => (if_neg fun h => m3 h.1.symm).trans (sy u)
  have tw : ∀ u v, ((m.set g.eta i u).set g.mu i v) g.w i = m g.w i := fun u v => (if_neg fun h => m4 h.1.symm).trans (sw u)
  have ta : ∀ u v a, a ≠ g.eta → a ≠ g.mu → ((m.set g.eta i u).set g.mu i v) a i = m a i := fun u v a h1 h2 =>
    (if_neg fun h => h2 h.1).trans (if_neg fun h => h1 h.1)
  by_cases hk : k = .binomialLogit
  · subst hk
    by_cases hp : 0 < m g.cur i + factor * m g.xd i
    · simp only [Fast.etaBody, Prog.memRun, Prog.contrib, s0, if_pos hp, t0, t1, sy, sw, Fast.mu, Fast.dev, Fast.etaReturn, if_true, add_zero]
      exact ⟨trivial, trivial, fun a h1 h2 => ta _ _ a h1 h2, by ring⟩
    · simp only [Fast.etaBody, Prog.memRun, Prog.contrib, s0, if_neg hp, t0, t1, sy, sw, Fast.mu, Fast.dev, Fast.etaReturn, if_true, add_zero]
      exact ⟨trivial, trivial, fun a h1 h2 => ta _ _ a h1 h2, by ring⟩
  · cases k with
    | binomialLogit => exact absurd rfl hk
    | _ =>
      simp only [Fast.etaBody, Prog.memRun, Prog.contrib, s0, t0, t1, ty, tw, Fast.mu, Fast.dev, Fast.etaReturn, if_true, add_zero]
      refine ⟨trivial, trivial, fun a h1 h2 => ta _ _ a h1 h2, ?_⟩
      first | rfl | trivial | ring

theorem etaReturn_sum (k : Fast) (f : Fin n → ℝ) : k.etaReturn (∑ i, f i) = ∑ i, k.etaReturn (f i) := by
  cases k <;> simp [Fast.etaReturn, Finset.mul_sum]

open Classical in
/-- **C100, `eta_mu_deviance`.** For every family and link with a compiled routine: whatever the number of threads and the schedule, the routine stores the linear
predictor and the mean and returns the deviance term exactly as the function of the other properties, and changes no other array. -/
theorem c100_eta_mu_deviance (e50 : ℝ) (f : Family) (l : Link) (k : Fast) (hk : f.fast l = some k) (g : EtaArgs) (hg : g.Fresh) (factor : ℝ) (m0 m : Mem ℝ)
    (r : ℕ → ℝ) (h : ParResult T n (k.etaBody g factor) m0 (fun _ => 0) m r) :
    let out := f.etaMuDeviance (n := n) e50 l factor (fun i => m0 g.cur i) (fun i => m0 g.xd i) (fun i => m0 g.y i) (fun i => m0 g.w i)
    (∀ i : Fin n, m g.eta i = out.1 i) ∧ (∀ i : Fin n, m g.mu i = out.2.1 i) ∧ k.etaReturn (r 0) = out.2.2 ∧
    ∀ a j, (a ≠ g.eta ∧ a ≠ g.mu) ∨ n ≤ j → m a j = m0 a j := by
  obtain ⟨h1, h2, h3⟩ := outcome_spec (etaBody_local k g factor) m0 _ m r h
  simp only [Family.etaMuDeviance, hk]
  refine ⟨fun i => ?_, fun i => ?_, ?_, ?_⟩
  · rw [h1]; exact (etaBody_spec k g hg factor i m0).1
  · rw [h1]; exact (etaBody_spec k g hg factor i m0).2.1
  · rw [h3, zero_add, etaReturn_sum]
    exact Finset.sum_congr rfl fun i _ => (etaBody_spec k g hg factor i m0).2.2.2
  · intro a j hj
    by_cases hn : n ≤ j
    · exact h2 a j hn
    · obtain ⟨ha, hb⟩ := hj.resolve_right hn
      have := h1 a ⟨j, not_le.1 hn⟩
      simp only at this
      rw [this]
      exact (etaBody_spec k g hg factor j m0).2.2.1 a ha hb

/-- The outputs are arrays of their own. -/
structure GradArgs.Fresh (g : GradArgs) : Prop where
  grad : g.grad ≠ g.y ∧ g.grad ≠ g.w ∧ g.grad ≠ g.mu ∧ g.grad ≠ g.hess
  hess : g.hess ≠ g.y ∧ g.hess ≠ g.w ∧ g.hess ≠ g.mu

theorem gradBody_spec (k : Fast) (g : GradArgs) (hg : g.Fresh) (i : ℕ) (m : Mem ℝ) :
    (k.gradBody g i).memRun m g.grad i = k.grad (m g.y i) (m g.w i) (m g.mu i) ∧
    (k.gradBody g i).memRun m g.hess i = k.hess (m g.y i) (m g.w i) (m g.mu i) ∧
    (∀ a, a ≠ g.grad → a ≠ g.hess → (k.gradBody g i).memRun m a i = m a i) := by
  obtain ⟨⟨e1, e2, e3, e4⟩, m1, m2, m3⟩ := hg
  have sy : ∀ v, (m.set g.grad i v) g.y i = m g.y i := fun v => if_neg fun h => e1 h.1.symm
  have sw : ∀ v, (m.set g.grad i v) g.w i = m g.w i := fun v => if_neg fun h => e2 h.1.symm
  have sm : ∀ v, (m.set g.grad i v) g.mu i = m g.mu i := fun v => if_neg fun h => e3 h.1.symm
  have t0 : ∀ u v, ((m.set g.grad i u).set g.hess i v) g.grad i = u := fun u v => (if_neg fun h => e4 h.1).trans (if_pos ⟨rfl, rfl⟩)
  have t1 : ∀ u v, ((m.set g.grad i u).set g.hess i v) g.hess i = v := fun u v => if_pos ⟨rfl, rfl⟩
  have ta : ∀ u v a, a ≠ g.grad → a ≠ g.hess → ((m.set g.grad i u).set g.hess i v) a i = m a i := fun u v a h1 h2 =>
    (if_neg fun h => h2 h.1).trans (if_neg fun h => h1 h.1)
  cases k <;> simp only [Fast.gradBody, Prog.memRun, sy, sw, sm, t0, t1, Fast.grad, Fast.hess, true_and] <;> exact fun a h1 h2 => ta _ _ a h1 h2

/-- **C100, `rowwise_gradient_hessian`.** -/
theorem c100_gradient_hessian (f : Family) (l : Link) (k : Fast) (hk : f.fast l = some k) (g : GradArgs) (hg : g.Fresh) (m0 m : Mem ℝ)
    (r : ℕ → ℝ) (h : ParResult T n (k.gradBody g) m0 (fun _ => 0) m r) :
    (∀ i : Fin n, (m g.grad i, m g.hess i) = f.rowGradHess l (m0 g.y i) (m0 g.w i) (m0 g.eta i) (m0 g.mu i)) ∧
    ∀ a j, (a ≠ g.grad ∧ a ≠ g.hess) ∨ n ≤ j → m a j = m0 a j := by
  obtain ⟨h1, h2, h3⟩ := outcome_spec (gradBody_local k g) m0 _ m r h
  refine ⟨fun i => ?_, ?_⟩
  · simp only [Family.rowGradHess, hk]
    rw [h1, h1, (gradBody_spec k g hg i m0).1, (gradBody_spec k g hg i m0).2.1]
  · intro a j hj
    by_cases hn : n ≤ j
    · exact h2 a j hn
    · obtain ⟨ha, hb⟩ := hj.resolve_right hn
      have := h1 a ⟨j, not_le.1 hn⟩
      simp only at this
      rw [this]
      exact (gradBody_spec k g hg j m0).2.2 a ha hb

/-- The function a summing routine computes. -/
noncomputable def SumKind.value (norm : ℝ → ℝ → ℝ → ℝ) (k : SumKind) (y w mu : Fin n → ℝ) : ℝ :=
  match k with
  | .normalDev => normalDeviance y w mu
  | .poissonDev => poissonDeviance y w mu
  | .gammaDev => gammaDeviance y w mu
  | .invGaussianDev => invGaussianDeviance y w mu
  | .tweedieDev p => tweedieDeviance p y w mu
  | .negBinomialDev theta => negBinomialDeviance theta y w mu
  | .normalLik disp => normalLogLik y w mu disp
  | .poissonLik => poissonLogLik y w mu
  | .gammaLik disp => gammaLogLik y w mu disp
  | .invGaussianLik disp => invGaussianLogLik y w mu disp
  | .tweedieLik p disp => tweedieLogLik norm p y w mu disp
  | .negBinomialLik theta => (negBinomialLogLik theta y w mu).getD 0

open Classical in
theorem contrib_ite (c : Prop) (P Q : Prog ℝ) (m : Mem ℝ) (d : ℕ) : (if c then P else Q).contrib m d = if c then P.contrib m d else Q.contrib m d := by
  split <;> rfl

/-- **C100, deviances and log-likelihoods.** The inputs may be the same array; nothing is written.  (Negative binomial likelihood: where it is a number.) -/
theorem c100_sum_routines (norm : ℝ → ℝ → ℝ → ℝ) (k : SumKind) (g : SumArgs) (m0 m : Mem ℝ) (r : ℕ → ℝ)
    (h : ParResult T n (k.body norm g) m0 (fun _ => 0) m r)
    (hnb : ∀ theta, k = .negBinomialLik theta → ¬ ∃ i : Fin n, m0 g.y i = 0 ∧ m0 g.mu i = 0) :
    k.ret r = k.value (n := n) norm (fun i => m0 g.y i) (fun i => m0 g.w i) (fun i => m0 g.mu i) ∧ m = m0 := by
  have hloc := sumBody_local norm k g
  obtain ⟨h1, h2, h3⟩ := outcome_spec hloc m0 _ m r h
  constructor
  · cases k <;> simp only [SumKind.ret, SumKind.value, h3, SumKind.body, Prog.contrib, contrib_ite, zero_add, add_zero, if_true, normalDeviance, poissonDeviance,
      gammaDeviance, invGaussianDeviance, tweedieDeviance, negBinomialDeviance, normalLogLik, poissonLogLik, gammaLogLik, invGaussianLogLik, tweedieLogLik,
      one_ne_zero, zero_ne_one, if_false]
    rw [negBinomialLogLik]
    rw [if_neg (hnb _ rfl)]
    rfl
  · funext a j
    by_cases hn : n ≤ j
    · exact h2 a j hn
    · have := h1 a ⟨j, not_le.1 hn⟩
      simp only at this
      rw [this]
      cases k <;> simp only [SumKind.body, Prog.memRun] <;> first | rfl | (split <;> rfl)

/-- **C100, `deviance`.** -/
theorem c100_deviance (norm : ℝ → ℝ → ℝ → ℝ) (f : Family) (k : SumKind) (hk : f.devRoutine = some k) (g : SumArgs) (m0 m : Mem ℝ) (r : ℕ → ℝ)
    (h : ParResult T n (k.body norm g) m0 (fun _ => 0) m r) :
    k.ret r = f.deviance (n := n) (fun i => m0 g.y i) (fun i => m0 g.mu i) (fun i => m0 g.w i) ∧ m = m0 := by
  have key : (∀ theta, k ≠ .negBinomialLik theta) ∧
      k.value (n := n) norm (fun i => m0 g.y i) (fun i => m0 g.w i) (fun i => m0 g.mu i) =
        f.deviance (n := n) (fun i => m0 g.y i) (fun i => m0 g.mu i) (fun i => m0 g.w i) := by
    cases f <;> simp only [Family.devRoutine, Option.some.injEq, reduceCtorEq] at hk
    case tweedie q =>
      split at hk
      · next hq => subst hq; obtain rfl := Option.some.inj hk; exact ⟨fun _ e => (by cases e), by simp [SumKind.value, Family.deviance]⟩
      · next q0 =>
        split at hk
        · next hq => subst hq; obtain rfl := Option.some.inj hk; exact ⟨fun _ e => (by cases e), by simp [SumKind.value, Family.deviance]⟩
        · next q1 =>
          split at hk
          · next hq => subst hq; obtain rfl := Option.some.inj hk; exact ⟨fun _ e => (by cases e), by simp [SumKind.value, Family.deviance]⟩
          · next q2 =>
            split at hk
            · next hq =>
              subst hq; obtain rfl := Option.some.inj hk
              exact ⟨fun _ e => (by cases e), by simp only [SumKind.value, Family.deviance, if_neg q0, if_neg q1, if_neg q2, if_true]⟩
            · next q3 =>
              obtain rfl := Option.some.inj hk
              exact ⟨fun _ e => (by cases e), by simp only [SumKind.value, Family.deviance, if_neg q0, if_neg q1, if_neg q2, if_neg q3]⟩
    all_goals subst hk; exact ⟨fun _ e => (by cases e), rfl⟩
  obtain ⟨h1, h2⟩ := c100_sum_routines norm k g m0 m r h fun theta e => absurd e (key.1 theta)
  exact ⟨h1.trans key.2, h2⟩

/-- **C100, `log_likelihood`.** -/
theorem c100_log_likelihood (norm : ℝ → ℝ → ℝ → ℝ) (f : Family) (disp : ℝ) (k : SumKind) (hk : f.likRoutine disp = some k) (g : SumArgs) (m0 m : Mem ℝ)
    (r : ℕ → ℝ) (h : ParResult T n (k.body norm g) m0 (fun _ => 0) m r) (v : ℝ)
    (hv : f.logLik (n := n) norm (fun i => m0 g.y i) (fun i => m0 g.mu i) (fun i => m0 g.w i) disp = some v) :
    k.ret r = v ∧ m = m0 := by
  have key : (∀ theta, k = .negBinomialLik theta → ¬ ∃ i : Fin n, m0 g.y i = 0 ∧ m0 g.mu i = 0) ∧
      k.value (n := n) norm (fun i => m0 g.y i) (fun i => m0 g.w i) (fun i => m0 g.mu i) = v := by
    cases f <;> simp only [Family.likRoutine, Option.some.injEq, reduceCtorEq] at hk
    case tweedie q =>
      simp only [Family.logLik] at hv
      split at hk
      · next hq =>
        obtain rfl := Option.some.inj hk
        rw [if_pos hq] at hv
        exact ⟨fun _ e => (by cases e), Option.some.inj hv⟩
      · next q0 =>
        rw [if_neg q0] at hv
        split at hk
        · next hq =>
          obtain rfl := Option.some.inj hk
          rw [if_pos hq] at hv
          exact ⟨fun _ e => (by cases e), Option.some.inj hv⟩
        · next q1 =>
          rw [if_neg q1] at hv
          split at hk
          · next hq =>
            obtain rfl := Option.some.inj hk
            rw [if_pos hq] at hv
            exact ⟨fun _ e => (by cases e), Option.some.inj hv⟩
          · next q2 =>
            rw [if_neg q2] at hv
            split at hk
            · next hq =>
              obtain rfl := Option.some.inj hk
              rw [if_pos hq] at hv
              exact ⟨fun _ e => (by cases e), Option.some.inj hv⟩
            · next q3 =>
              rw [if_neg q3] at hv
              split at hk
              · next hq =>
                obtain rfl := Option.some.inj hk
                rw [if_pos hq] at hv
                exact ⟨fun _ e => (by cases e), Option.some.inj hv⟩
              · cases hk
    case negBinomial theta =>
      subst hk
      simp only [Family.logLik, negBinomialLogLik] at hv
      split at hv
      · cases hv
      · next hne =>
        refine ⟨fun _ _ => hne, ?_⟩
        simp only [SumKind.value, negBinomialLogLik]
        rw [if_neg hne]
        exact Option.some.inj hv
    all_goals subst hk; exact ⟨fun _ e => (by cases e), Option.some.inj hv⟩
  obtain ⟨h1, h2⟩ := c100_sum_routines norm k g m0 m r h key.1
  exact ⟨h1.trans key.2, h2⟩

/-! ### `identify_active_rows` -/

theorem diffLoop_spec (g : RowsArgs) (h1 : g.diff ≠ g.rows) (h2 : g.diff ≠ g.old) (is : List ℕ) (m : Mem ℝ) (md : ℝ) :
    (diffLoop g is m md).1 = (fun a j => if a = g.diff ∧ j ∈ is then m g.rows j - m g.old j else m a j) ∧
    (diffLoop g is m md).2 = is.foldl (fun x i => open Classical in if x < |m g.rows i - m g.old i| then |m g.rows i - m g.old i| else x) md := by
  induction is generalizing m md with
  | nil => simp [diffLoop]
  | cons x xs ih =>
    have er : ∀ v, (m.set g.diff x v) g.rows = m g.rows := fun v => funext fun j => if_neg fun e => h1 e.1.symm
    have eo : ∀ v, (m.set g.diff x v) g.old = m g.old := fun v => funext fun j => if_neg fun e => h2 e.1.symm
    have ed : ∀ v, (m.set g.diff x v) g.diff x = v := fun v => if_pos ⟨rfl, rfl⟩
    rw [diffLoop]
    obtain ⟨i1, i2⟩ := ih (m.set g.diff x (m g.rows x - m g.old x))
      (open Classical in if md < |(m.set g.diff x (m g.rows x - m g.old x)) g.diff x| then |(m.set g.diff x (m g.rows x - m g.old x)) g.diff x| else md)
    rw [i1, i2]
    simp only [er, eo, ed]
    refine ⟨?_, rfl⟩
    funext a j
    by_cases ha : a = g.diff
    · subst ha
      by_cases hj : j ∈ xs
      · simp [hj]
      · by_cases hx : j = x
        · subst hx; simp [hj, ed]
        · simp [hj, hx, Mem.set]
    · simp [ha, Mem.set]

/-- **C100, `identify_active_rows`.** The sequential loop, then the parallel one: for every number of threads and schedule the two arrays, and with them the active
rows, are those of the function the other properties use; nothing else is written. -/
theorem c100_active_rows (g : RowsArgs) (hg : g.diff ≠ g.rows ∧ g.diff ≠ g.old ∧ g.rows ≠ g.old) (C : ℝ) (m0 m : Mem ℝ) (r : ℕ → ℝ)
    (h : ParResult T n (rowsBody g C (diffLoop g (List.range n) m0 0).2) (diffLoop g (List.range n) m0 0).1 (fun _ => 0) m r) :
    let out := identifyActiveRows (n := n) (fun i => m0 g.rows i) (fun i => m0 g.old i) C
    (∀ i : Fin n, m g.diff i = out.1 i ∧ m g.rows i = out.2.1 i ∧ (i ∈ out.2.2 ↔ m g.diff i ≠ 0)) ∧
    ∀ a j, (a ≠ g.diff ∧ a ≠ g.rows) ∨ n ≤ j → m a j = m0 a j := by
  obtain ⟨g1, g2, g3⟩ := hg
  obtain ⟨d1, d2⟩ := diffLoop_spec g g1 g2 (List.range n) m0 0
  obtain ⟨h1, h2, -⟩ := outcome_spec (rowsBody_local g C _) _ _ m r h
  have hmd : (diffLoop g (List.range n) m0 0).2 = maxDiff (n := n) (fun i => m0 g.rows i) (fun i => m0 g.old i) := by
    rw [d2, maxDiff, ← List.map_coe_finRange_eq_range, List.foldl_map]
  rw [hmd] at h1
  set md := maxDiff (n := n) (fun i => m0 g.rows i) (fun i => m0 g.old i) with hmdd
  have hm1 : ∀ a (i : Fin n), (diffLoop g (List.range n) m0 0).1 a i = if a = g.diff then m0 g.rows i - m0 g.old i else m0 a i := by
    intro a i
    rw [d1]
    by_cases ha : a = g.diff <;> simp [ha]
  have hrow : ∀ a (i : Fin n), m a i = if |m0 g.rows i - m0 g.old i| < C * md then
      (if a = g.rows then m0 g.old i else if a = g.diff then 0 else m0 a i) else (if a = g.diff then m0 g.rows i - m0 g.old i else m0 a i) := by
    intro a i
    rw [h1, rowsBody, Prog.memRun, hm1, if_pos rfl]
    by_cases hc : |m0 g.rows i - m0 g.old i| < C * md
    · rw [if_pos hc, if_pos hc]
      simp only [Prog.memRun]
      unfold Mem.set
      simp only [hm1, true_and, and_true]
      by_cases ha : a = g.rows
      · simp [ha, g2.symm]
      · by_cases hb : a = g.diff
        · simp [hb, g1]
        · simp [ha, hb]
    · rw [if_neg hc, if_neg hc]
      simp only [Prog.memRun, hm1]
  simp only [identifyActiveRows]
  rw [← hmdd]
  refine ⟨fun i => ?_, ?_⟩
  · have e1 : m g.diff i = if |m0 g.rows i - m0 g.old i| < C * md then 0 else m0 g.rows i - m0 g.old i := by
      rw [hrow]; simp [g1]
    refine ⟨e1, ?_, ?_⟩
    · rw [hrow]; simp [g1.symm]
    · rw [e1]
      simp only [Finset.mem_filter, Finset.mem_univ, true_and]
  · intro a j hj
    by_cases hn : n ≤ j
    · rw [h2 a j hn, d1]
      simp [hn]
    · obtain ⟨ha, hb⟩ := hj.resolve_right hn
      have := hrow a ⟨j, not_le.1 hn⟩
      simp only at this
      rw [this]
      simp [ha, hb]

theorem prun_trans {V : Type*} [Add V] {body : ℕ → Prog V} {c : ℕ} {s s' s'' : PState V T} (h1 : PStep body s s') (h : PRun body c s' s'') :
    PRun body (c + 1) s s'' := by
  induction h with
  | refl => exact .step (.refl _) h1
  | step _ h2 ih => exact .step (ih h1) h2

theorem prun_append {V : Type*} [Add V] {body : ℕ → Prog V} {c c' : ℕ} {s s' s'' : PState V T} (h1 : PRun body c s s') (h : PRun body c' s' s'') :
    PRun body (c + c') s s'' := by
  induction h with
  | refl => exact h1
  | step _ h2 ih => exact .step (ih h1) h2

/-- The hypotheses are met: four threads, Poisson with log link, distinct arrays; there is an outcome, and it is the function's. -/
example (m0 : Mem ℝ) : ∃ m r, ParResult 4 3 (Fast.poissonLog.etaBody ⟨0, 1, 2, 3, 4, 5⟩ 1) m0 (fun _ => 0) m r ∧
    (∀ i : Fin 3, m 5 i = Real.exp (m0 0 i + 1 * m0 1 i)) ∧ ∀ i : Fin 3, m 2 i = m0 2 i := by
  obtain ⟨m, r, h⟩ := c100_outcome (T := 4) (n := 3) (etaBody_local .poissonLog ⟨0, 1, 2, 3, 4, 5⟩ 1) m0 (fun _ => 0) (by norm_num)
  obtain ⟨-, h2, -, h4⟩ := c100_eta_mu_deviance 0 .poisson .log .poissonLog (by simp [Family.fast]) ⟨0, 1, 2, 3, 4, 5⟩
    ⟨by simp, by simp⟩ 1 m0 m r h
  refine ⟨m, r, h, fun i => ?_, fun i => h4 _ _ (Or.inl (by simp))⟩
  rw [h2]
  simp [Family.etaMuDeviance, Family.fast, Fast.mu]

/-- The bodies matter: a loop whose iterations write the same element is not row-local, and its outcome depends on the schedule. -/
theorem c100_needs_row_local : ∃ body : ℕ → Prog ℕ, (∃ r, ParResult 1 2 body (fun _ _ => 0) (fun _ => 0) (fun a j => if a = 0 ∧ j = 0 then 1 else 0) r) ∧
    ∃ r, ParResult 1 2 body (fun _ _ => 0) (fun _ => 0) (fun _ _ => 0) r := by
  refine ⟨fun i => .store 0 0 i .done, ?_⟩
  have it : ∀ (s : PState ℕ 1) (i : ℕ), s.cur 0 = none → i ∈ s.todo →
      PRun (fun i => .store 0 0 i .done) 3 s { s with todo := s.todo.erase i, mem := s.mem.set 0 0 i } := by
    intro s i ht hi
    refine prun_trans (.take s 0 i ht hi) ?_
    refine prun_trans (.store _ 0 i 0 0 i .done (by simp)) ?_
    have := PRun.step (PRun.refl _) (PStep.fin (body := fun i => Prog.store 0 0 i .done)
      { s with
        todo := s.todo.erase i
        mem := s.mem.set 0 0 i
        cur := Function.update (Function.update s.cur 0 (some (i, .store 0 0 i .done))) 0 (some (i, .done)) } 0 i (by simp))
    convert this using 2
    simp only [Function.update_idem]
    funext t'
    rw [Subsingleton.elim t' 0]; simp [ht]
  constructor
  · have h0 := it (pStart 1 2 fun _ _ => 0) 0 rfl (show 0 ∈ Finset.range 2 by decide)
    have h1 := it _ 1 (show (_ : PState ℕ 1).cur 0 = none from rfl) (show 1 ∈ (Finset.range 2).erase 0 by decide) |> prun_append h0
    refine ⟨fun d => combine 0 (List.finRange 1) _ d, _, _, h1, ⟨show ((Finset.range 2).erase 0).erase 1 = ∅ by decide, fun t => rfl⟩, ?_,
      fun d => ⟨_, List.Perm.refl _, rfl⟩⟩
    funext a j
    simp only [Mem.set, pStart]
    split <;> rfl
  · have h0 := it (pStart 1 2 fun _ _ => 0) 1 rfl (show 1 ∈ Finset.range 2 by decide)
    have h1 := it _ 0 (show (_ : PState ℕ 1).cur 0 = none from rfl) (show 0 ∈ (Finset.range 2).erase 1 by decide) |> prun_append h0
    refine ⟨fun d => combine 0 (List.finRange 1) _ d, _, _, h1, ⟨show ((Finset.range 2).erase 1).erase 0 = ∅ by decide, fun t => rfl⟩, ?_,
      fun d => ⟨_, List.Perm.refl _, rfl⟩⟩
    funext a j
    simp only [Mem.set, pStart]
    split <;> simp_all

/-! ### Floats -/

/-- Numbers with a three-bit mantissa (up to 8), added exactly and then rounded towards zero. -/
structure Tiny where
  val : ℕ
deriving DecidableEq

instance : Add Tiny := ⟨fun a b => ⟨if a.val + b.val ≤ 4 then a.val + b.val else 2 * ((a.val + b.val) / 2)⟩⟩
instance : Zero Tiny := ⟨⟨0⟩⟩

/-- Summing an array. -/
def tinyBody (i : ℕ) : Prog Tiny := .load 0 i fun v => .reduce 0 v .done

/-- The array 4, 1, 1. -/
def tinyMem : Mem Tiny := fun _ i => if i = 0 then ⟨4⟩ else ⟨1⟩

/-- One iteration of the sum, done without interruption. -/
theorem tiny_iter (s : PState Tiny T) (t : Fin T) (i : ℕ) (ht : s.cur t = none) (hi : i ∈ s.todo) :
    PRun tinyBody 4 s { s with
      todo := s.todo.erase i
      acc := Function.update s.acc t (Function.update (s.acc t) 0 (s.acc t 0 + s.mem 0 i)) } := by
  refine prun_trans (.take s t i ht hi) ?_
  refine prun_trans (.load _ t i 0 i _ (Function.update_self ..)) ?_
  refine prun_trans (.reduce _ t i 0 _ _ (Function.update_self ..)) ?_
  have := PRun.step (PRun.refl _) (PStep.fin (body := tinyBody)
    { s with
      todo := s.todo.erase i
      acc := Function.update s.acc t (Function.update (s.acc t) 0 (s.acc t 0 + s.mem 0 i))
      cur := Function.update (Function.update (Function.update s.cur t (some (i, tinyBody i))) t (some (i, .reduce 0 (s.mem 0 i) .done))) t (some (i, .done)) } t i
    (Function.update_self ..))
  convert this using 2
  simp only [Function.update_idem]
  funext t'
  by_cases h : t' = t
  · subst h; simp [ht]
  · simp [h]

/-- The sum with the three iterations done in order by the threads `t0`, `t1`, `t2`. -/
theorem tiny_runs (t0 t1 t2 : Fin 2) : ∃ m r, ParResult 2 3 tinyBody tinyMem (fun _ => 0) m r ∧ r 0 =
    let a0 : Fin 2 → Tiny := Function.update (fun _ => 0) t0 (0 + ⟨4⟩)
    let a1 := Function.update a0 t1 (a0 t1 + ⟨1⟩)
    let a2 := Function.update a1 t2 (a1 t2 + ⟨1⟩)
    0 + a2 0 + a2 1 := by
  have h0 := tiny_iter (pStart 2 3 tinyMem) t0 0 rfl (by decide)
  have h1 := tiny_iter _ t1 1 (show (_ : PState Tiny 2).cur t1 = none from rfl) (show 1 ∈ (Finset.range 3).erase 0 by decide) |> prun_append h0
  have h2 := tiny_iter _ t2 2 (show (_ : PState Tiny 2).cur t2 = none from rfl) (show 2 ∈ ((Finset.range 3).erase 0).erase 1 by decide) |> prun_append h1
  refine ⟨_, fun d => combine 0 (List.finRange 2) _ d, ⟨_, _, h2, ⟨show (((Finset.range 3).erase 0).erase 1).erase 2 = ∅ by decide, fun t => rfl⟩, rfl, fun d => ⟨_, List.Perm.refl _, rfl⟩⟩, ?_⟩
  clear h0 h1 h2
  fin_cases t0 <;> fin_cases t1 <;> fin_cases t2 <;> rfl

/-- **C100, what floats do not guarantee.** If addition rounds, the sums (unlike the arrays) depend on the schedule: two threads can return 4 or 6 for the same
array. -/
theorem c100_float_counterexample :
    (∃ m r, ParResult 2 3 tinyBody tinyMem (fun _ => 0) m r ∧ r 0 = ⟨4⟩) ∧ (∃ m r, ParResult 2 3 tinyBody tinyMem (fun _ => 0) m r ∧ r 0 = ⟨6⟩) := by
  constructor
  · obtain ⟨m, r, h, e⟩ := tiny_runs 0 0 0
    exact ⟨m, r, h, e.trans rfl⟩
  · obtain ⟨m, r, h, e⟩ := tiny_runs 0 1 1
    exact ⟨m, r, h, e.trans rfl⟩

end Glum
