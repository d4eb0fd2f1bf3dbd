import Mathlib.Algebra.BigOperators.Fin
import Mathlib.Tactic.Abel
import Mathlib.Tactic.Linarith
import Verif.Model.Parallel
/-
C100: the parallel loops of the compiled routines give the same result for every number of threads and every schedule.
-/
set_option linter.unusedSectionVars false
set_option linter.unusedVariables false
set_option linter.unusedSimpArgs false

namespace Glum

variable {V : Type*} {T n : ℕ}

/-! ### The specification -/

/-- All accesses of shared memory are at index `i`, whatever is read. -/
def Prog.OnlyRow (i : ℕ) : Prog V → Prop
  | .done => True
  | .load _ j k => j = i ∧ ∀ v, (k v).OnlyRow i
  | .store _ j _ k => j = i ∧ k.OnlyRow i
  | .reduce _ _ k => k.OnlyRow i

/-- Iteration `i` touches only elements `i`. -/
def RowLocal (body : ℕ → Prog V) : Prop := ∀ i, (body i).OnlyRow i

/-- The element of shared memory the next step of a thread touches, and whether it writes. -/
def Prog.next : Prog V → Option ((ℕ × ℕ) × Bool)
  | .load a j _ => some ((a, j), false)
  | .store a j _ _ => some ((a, j), true)
  | _ => none

/-- Two threads are about to touch the same element and at least one of them writes. -/
def PState.Race (s : PState V T) : Prop :=
  ∃ t t' i P i' P' l b b', t ≠ t' ∧ s.cur t = some (i, P) ∧ s.cur t' = some (i', P') ∧ P.next = some (l, b) ∧ P'.next = some (l, b') ∧ (b = true ∨ b' = true)

/-! ### One iteration -/

/-- The memory after the body. -/
def Prog.memRun : Prog V → Mem V → Mem V
  | .done, m => m
  | .load a j k, m => (k (m a j)).memRun m
  | .store a j v k, m => k.memRun (m.set a j v)
  | .reduce _ _ k, m => k.memRun m

/-- What the body adds to each reduction variable. -/
def Prog.contrib [AddCommMonoid V] : Prog V → Mem V → ℕ → V
  | .done, _, _ => 0
  | .load a j k, m, e => (k (m a j)).contrib m e
  | .store a j v k, m, e => k.contrib (m.set a j v) e
  | .reduce d v k, m, e => (if e = d then v else 0) + k.contrib m e

/-- How many steps it takes. -/
def Prog.steps : Prog V → Mem V → ℕ
  | .done, _ => 0
  | .load a j k, m => (k (m a j)).steps m + 1
  | .store a j v k, m => k.steps (m.set a j v) + 1
  | .reduce _ _ k, m => k.steps m + 1

theorem run_mem [Add V] (P : Prog V) (m : Mem V) (acc : ℕ → V) : (P.run m acc).1 = P.memRun m := by
  induction P generalizing m acc with
  | done => rfl
  | load a j k ih => exact ih _ _ _
  | store a j v k ih => exact ih _ _
  | reduce d v k ih => exact ih _ _

theorem run_acc [AddCommMonoid V] (P : Prog V) (m : Mem V) (acc : ℕ → V) (e : ℕ) : (P.run m acc).2 e = acc e + P.contrib m e := by
  induction P generalizing m acc with
  | done => simp [Prog.run, Prog.contrib]
  | load a j k ih => exact ih _ _ _
  | store a j v k ih => exact ih _ _
  | reduce d v k ih =>
    have := ih m (Function.update acc d (acc d + v))
    rw [Prog.run, this, Prog.contrib]
    by_cases h : e = d
    · subst h; simp [add_assoc]
    · simp [h]

theorem set_col (m : Mem V) (a i : ℕ) (v : V) (b l : ℕ) (h : l ≠ i) : m.set a i v b l = m b l := by
  unfold Mem.set; rw [if_neg fun e => h e.2]

theorem set_congr (m m' : Mem V) (a i : ℕ) (v : V) (h : ∀ b, m b i = m' b i) (b : ℕ) : m.set a i v b i = m'.set a i v b i := by
  unfold Mem.set; split
  · rfl
  · exact h b

theorem memRun_other (P : Prog V) (i : ℕ) (hP : P.OnlyRow i) (m : Mem V) (a l : ℕ) (h : l ≠ i) : P.memRun m a l = m a l := by
  induction P generalizing m with
  | done => rfl
  | load b j k ih => exact ih _ (hP.2 _) _
  | store b j v k ih =>
    obtain ⟨rfl, hk⟩ := hP
    rw [Prog.memRun, ih hk, set_col _ _ _ _ _ _ h]
  | reduce d v k ih => exact ih hP _

theorem memRun_congr (P : Prog V) (i : ℕ) (hP : P.OnlyRow i) (m m' : Mem V) (h : ∀ a, m a i = m' a i) (a : ℕ) : P.memRun m a i = P.memRun m' a i := by
  induction P generalizing m m' with
  | done => exact h a
  | load b j k ih =>
    obtain ⟨rfl, hk⟩ := hP
    rw [Prog.memRun, Prog.memRun, h b]
    exact ih _ (hk _) _ _ h
  | store b j v k ih =>
    obtain ⟨rfl, hk⟩ := hP
    exact ih hk _ _ (set_congr _ _ _ _ _ h)
  | reduce d v k ih => exact ih hP _ _ h

theorem contrib_congr [AddCommMonoid V] (P : Prog V) (i : ℕ) (hP : P.OnlyRow i) (m m' : Mem V) (h : ∀ a, m a i = m' a i) (e : ℕ) :
    P.contrib m e = P.contrib m' e := by
  induction P generalizing m m' with
  | done => rfl
  | load b j k ih =>
    obtain ⟨rfl, hk⟩ := hP
    rw [Prog.contrib, Prog.contrib, h b]
    exact ih _ (hk _) _ _ h
  | store b j v k ih =>
    obtain ⟨rfl, hk⟩ := hP
    exact ih hk _ _ (set_congr _ _ _ _ _ h)
  | reduce d v k ih => rw [Prog.contrib, Prog.contrib, ih hP _ _ h]

theorem steps_congr (P : Prog V) (i : ℕ) (hP : P.OnlyRow i) (m m' : Mem V) (h : ∀ a, m a i = m' a i) : P.steps m = P.steps m' := by
  induction P generalizing m m' with
  | done => rfl
  | load b j k ih =>
    obtain ⟨rfl, hk⟩ := hP
    rw [Prog.steps, Prog.steps, h b, ih _ (hk _) _ _ h]
  | store b j v k ih =>
    obtain ⟨rfl, hk⟩ := hP
    rw [Prog.steps, Prog.steps, ih hk _ _ (set_congr _ _ _ _ _ h)]
  | reduce d v k ih => rw [Prog.steps, Prog.steps, ih hP _ _ h]

/-! ### The sequential loop -/

theorem seq_spec [Add V] {body : ℕ → Prog V} (hb : RowLocal body) (is : List ℕ) (hn : is.Nodup) (m : Mem V) (acc : ℕ → V) (a i : ℕ) :
    (seqLoop body is m acc).1 a i = if i ∈ is then (body i).memRun m a i else m a i := by
  induction is generalizing m acc with
  | nil => simp [seqLoop]
  | cons x xs ih =>
    rw [seqLoop, ih hn.of_cons, run_mem]
    have hx := (List.nodup_cons.1 hn).1
    by_cases hi : i ∈ xs
    · have hne : i ≠ x := fun e => hx (e ▸ hi)
      rw [if_pos hi, if_pos (List.mem_cons_of_mem _ hi)]
      exact memRun_congr _ i (hb i) _ _ (fun b => memRun_other _ x (hb x) _ _ _ hne) a
    · rw [if_neg hi]
      by_cases hix : i = x
      · subst hix; simp
      · rw [if_neg (by simp [hi, hix]), memRun_other _ x (hb x) _ _ _ hix]

theorem seq_acc [AddCommMonoid V] {body : ℕ → Prog V} (hb : RowLocal body) (is : List ℕ) (hn : is.Nodup) (m : Mem V) (acc : ℕ → V) (e : ℕ) :
    (seqLoop body is m acc).2 e = acc e + (is.map fun i => (body i).contrib m e).sum := by
  induction is generalizing m acc with
  | nil => simp [seqLoop]
  | cons x xs ih =>
    have hx := (List.nodup_cons.1 hn).1
    rw [seqLoop, ih hn.of_cons, run_acc, run_mem, List.map_cons, List.sum_cons, ← add_assoc]
    congr 2
    refine List.map_congr_left fun i hi => ?_
    exact contrib_congr _ i (hb i) _ _ (fun b => memRun_other _ x (hb x) _ _ _ fun h => hx (h ▸ hi)) e

/-! ### The parallel loop -/

/-- The invariant: which rows are as at the start, which are finished, and that a running iteration will finish its row as if alone. -/
structure ParInv (body : ℕ → Prog V) (n : ℕ) (m0 : Mem V) (s : PState V T) : Prop where
  todo : ∀ i ∈ s.todo, i < n ∧ ∀ a, s.mem a i = m0 a i
  cur : ∀ t i P, s.cur t = some (i, P) → i < n ∧ i ∉ s.todo ∧ P.OnlyRow i ∧ ∀ a, P.memRun s.mem a i = (body i).memRun m0 a i
  own : ∀ t t' i P P', s.cur t = some (i, P) → s.cur t' = some (i, P') → t = t'
  fin : ∀ i < n, i ∉ s.todo → (∀ t P, s.cur t ≠ some (i, P)) → ∀ a, s.mem a i = (body i).memRun m0 a i
  out : ∀ i, n ≤ i → ∀ a, s.mem a i = m0 a i

theorem parInv_start [Zero V] (body : ℕ → Prog V) (m0 : Mem V) : ParInv body n m0 (pStart T n m0) := by
  refine ⟨fun i hi => ⟨Finset.mem_range.1 hi, fun _ => rfl⟩, ?_, ?_, ?_, fun _ _ _ => rfl⟩
  · intro t i P h; cases h
  · intro t t' i P P' h; cases h
  · intro i hi hn; exact absurd (Finset.mem_range.2 hi) hn

/-- A step of thread `t` inside iteration `i` that changes at most row `i` keeps the invariant. -/
theorem parInv_inside {body : ℕ → Prog V} {m0 : Mem V} {s : PState V T} (h : ParInv body n m0 s) (t : Fin T) (i : ℕ) (P P' : Prog V)
    (hc : s.cur t = some (i, P)) (m' : Mem V) (hm : ∀ a l, l ≠ i → m' a l = s.mem a l) (hP' : P'.OnlyRow i)
    (hr : ∀ a, P'.memRun m' a i = P.memRun s.mem a i) (acc : Fin T → ℕ → V) :
    ParInv body n m0 { s with mem := m', cur := Function.update s.cur t (some (i, P')), acc := acc } := by
  obtain ⟨c1, c2, c3, c4⟩ := h.cur t i P hc
  have hcur : ∀ t' j Q, Function.update s.cur t (some (i, P')) t' = some (j, Q) →
      (t' = t ∧ j = i ∧ Q = P') ∨ (t' ≠ t ∧ s.cur t' = some (j, Q)) := by
    intro t' j Q e
    by_cases ht : t' = t
    · subst ht
      rw [Function.update_self] at e
      simp only [Option.some.injEq, Prod.mk.injEq] at e
      exact Or.inl ⟨rfl, e.1.symm, e.2.symm⟩
    · rw [Function.update_of_ne ht] at e
      exact Or.inr ⟨ht, e⟩
  refine ⟨?_, ?_, ?_, ?_, ?_⟩
  · intro j hj
    refine ⟨(h.todo j hj).1, fun a => ?_⟩
    show m' a j = _
    rw [hm a j fun e => c2 (e ▸ hj)]
    exact (h.todo j hj).2 a
  · intro t' j Q e
    rcases hcur t' j Q e with ⟨-, rfl, rfl⟩ | ⟨ht, e'⟩
    · exact ⟨c1, c2, hP', fun a => (hr a).trans (c4 a)⟩
    · obtain ⟨d1, d2, d3, d4⟩ := h.cur t' j Q e'
      refine ⟨d1, d2, d3, fun a => ?_⟩
      rw [← d4 a]
      refine memRun_congr Q j d3 _ _ (fun b => hm b j fun e => ht ?_) a
      subst e
      exact h.own t' t _ _ _ e' hc
  · intro t1 t2 j Q Q' e1 e2
    rcases hcur t1 j Q e1 with ⟨rfl, rfl, rfl⟩ | ⟨h1, e1'⟩ <;> rcases hcur t2 _ Q' e2 with ⟨rfl, h2, rfl⟩ | ⟨h2, e2'⟩
    · rfl
    · exact h.own _ _ _ _ _ hc e2'
    · subst h2; exact h.own _ _ _ _ _ e1' hc
    · exact h.own _ _ _ _ _ e1' e2'
  · intro j hj hjt hno a
    have hne : j ≠ i := by
      rintro rfl
      exact hno t P' (Function.update_self ..)
    show m' a j = _
    rw [hm a j hne]
    refine h.fin j hj hjt (fun t' Q e => ?_) a
    by_cases ht : t' = t
    · subst ht
      rw [hc] at e
      simp only [Option.some.injEq, Prod.mk.injEq] at e
      exact hne e.1.symm
    · exact hno t' Q (by show Function.update s.cur t _ t' = _; rw [Function.update_of_ne ht]; exact e)
  · intro j hj a
    show m' a j = _
    rw [hm a j (by omega)]
    exact h.out j hj a

theorem parInv_step [Add V] {body : ℕ → Prog V} (hb : RowLocal body) {m0 : Mem V} {s s' : PState V T} (h : ParInv body n m0 s)
    (hs : PStep body s s') : ParInv body n m0 s' := by
  cases hs with
  | take t i hc hi =>
    have hcur : ∀ t' j Q, Function.update s.cur t (some (i, body i)) t' = some (j, Q) →
        (t' = t ∧ j = i ∧ Q = body i) ∨ (t' ≠ t ∧ s.cur t' = some (j, Q)) := by
      intro t' j Q e
      by_cases ht : t' = t
      · subst ht
        rw [Function.update_self] at e
        simp only [Option.some.injEq, Prod.mk.injEq] at e
        exact Or.inl ⟨rfl, e.1.symm, e.2.symm⟩
      · rw [Function.update_of_ne ht] at e
        exact Or.inr ⟨ht, e⟩
    refine ⟨fun j hj => h.todo j (Finset.mem_of_mem_erase hj), ?_, ?_, ?_, h.out⟩
    · intro t' j Q e
      rcases hcur t' j Q e with ⟨rfl, rfl, rfl⟩ | ⟨ht, e'⟩
      · exact ⟨(h.todo _ hi).1, by simp, hb _, fun a => memRun_congr _ _ (hb _) _ _ (h.todo _ hi).2 a⟩
      · obtain ⟨d1, d2, d3, d4⟩ := h.cur t' j Q e'
        exact ⟨d1, fun hj => d2 (Finset.mem_of_mem_erase hj), d3, d4⟩
    · intro t1 t2 j Q Q' e1 e2
      rcases hcur t1 j Q e1 with ⟨rfl, rfl, rfl⟩ | ⟨h1, e1'⟩ <;> rcases hcur t2 _ Q' e2 with ⟨rfl, h2, rfl⟩ | ⟨h2, e2'⟩
      · rfl
      · exact absurd hi (h.cur _ _ _ e2').2.1
      · subst h2; exact absurd hi (h.cur _ _ _ e1').2.1
      · exact h.own _ _ _ _ _ e1' e2'
    · intro j hj hjt hno a
      have hne : j ≠ i := by
        rintro rfl
        exact hno t (body j) (Function.update_self ..)
      refine h.fin j hj (fun e => hjt (Finset.mem_erase.2 ⟨hne, e⟩)) (fun t' Q e => ?_) a
      by_cases ht : t' = t
      · subst ht; rw [hc] at e; cases e
      · exact hno t' Q (by show Function.update s.cur t _ t' = _; rw [Function.update_of_ne ht]; exact e)
  | load t i a j k hc =>
    have h3 := (h.cur t i _ hc).2.2.1
    exact parInv_inside h t i _ _ hc s.mem (fun _ _ _ => rfl) (h3.2 _) (fun _ => rfl) s.acc
  | store t i a j v k hc =>
    have h3 := (h.cur t i _ hc).2.2.1
    obtain ⟨rfl, h3⟩ := h3
    exact parInv_inside h t j _ _ hc (s.mem.set a j v) (fun b l hl => set_col _ _ _ _ _ _ hl) h3 (fun _ => rfl) s.acc
  | reduce t i d v k hc =>
    have h3 := (h.cur t i _ hc).2.2.1
    exact parInv_inside h t i _ k hc s.mem (fun _ _ _ => rfl) h3 (fun _ => rfl) _
  | fin t i hc =>
    have hcur : ∀ t' j Q, Function.update s.cur t none t' = some (j, Q) → t' ≠ t ∧ s.cur t' = some (j, Q) := by
      intro t' j Q e
      by_cases ht : t' = t
      · subst ht; rw [Function.update_self] at e; cases e
      · rw [Function.update_of_ne ht] at e; exact ⟨ht, e⟩
    refine ⟨h.todo, fun t' j Q e => h.cur t' j Q (hcur t' j Q e).2, ?_, ?_, h.out⟩
    · intro t1 t2 j Q Q' e1 e2
      exact h.own _ _ _ _ _ (hcur t1 j Q e1).2 (hcur t2 j Q' e2).2
    · intro j hj hjt hno a
      by_cases hji : j = i
      · subst hji; exact (h.cur t j _ hc).2.2.2 a
      · refine h.fin j hj hjt (fun t' Q e => ?_) a
        by_cases ht : t' = t
        · subst ht
          rw [hc] at e
          simp only [Option.some.injEq, Prod.mk.injEq] at e
          exact hji e.1.symm
        · exact hno t' Q (by show Function.update s.cur t _ t' = _; rw [Function.update_of_ne ht]; exact e)

theorem parInv_run [Add V] {body : ℕ → Prog V} (hb : RowLocal body) {m0 : Mem V} {c : ℕ} {s s' : PState V T} (h : ParInv body n m0 s)
    (hs : PRun body c s s') : ParInv body n m0 s' := by
  induction hs with
  | refl => exact h
  | step _ h1 ih => exact parInv_step hb (ih h) h1

/-! ### Sums over the threads -/

theorem sum_at {M : Type*} [AddCommMonoid M] (f g : Fin T → M) (t : Fin T) (h : ∀ t', t' ≠ t → f t' = g t') :
    ∃ r, ∑ t, f t = f t + r ∧ ∑ t, g t = g t + r := by
  refine ⟨∑ x ∈ Finset.univ.erase t, f x, (Finset.add_sum_erase _ _ (Finset.mem_univ t)).symm, ?_⟩
  rw [← Finset.add_sum_erase Finset.univ g (Finset.mem_univ t)]
  congr 1
  exact Finset.sum_congr rfl fun x hx => (h x (Finset.ne_of_mem_erase hx)).symm

/-- What the running iterations will still add to variable `e`. -/
def PState.pending [AddCommMonoid V] (s : PState V T) (e : ℕ) (t : Fin T) : V := (s.cur t).elim 0 fun q => q.2.contrib s.mem e

/-- How many steps the running iterations will still take. -/
def PState.left (s : PState V T) (t : Fin T) : ℕ := (s.cur t).elim 0 fun q => q.2.steps s.mem + 1

theorem pending_other [AddCommMonoid V] {body : ℕ → Prog V} {m0 : Mem V} {s : PState V T} (h : ParInv body n m0 s) (t : Fin T) (i : ℕ) (P : Prog V)
    (hc : s.cur t = some (i, P)) (m' : Mem V) (hm : ∀ a l, l ≠ i → m' a l = s.mem a l) (x : Option (ℕ × Prog V)) (acc : Fin T → ℕ → V) (td : Finset ℕ) (e : ℕ)
    (t' : Fin T) (ht : t' ≠ t) :
    PState.pending { s with mem := m', cur := Function.update s.cur t x, acc := acc, todo := td } e t' = s.pending e t' := by
  unfold PState.pending
  simp only []
  rw [Function.update_of_ne ht]
  cases hq : s.cur t' with
  | none => rfl
  | some q =>
    obtain ⟨j, Q⟩ := q
    simp only [Option.elim_some]
    refine contrib_congr Q j (h.cur t' j Q hq).2.2.1 _ _ (fun a => hm a j fun ej => ht ?_) e
    subst ej
    exact h.own _ _ _ _ _ hq hc

theorem left_other {body : ℕ → Prog V} {m0 : Mem V} {s : PState V T} (h : ParInv body n m0 s) (t : Fin T) (i : ℕ) (P : Prog V)
    (hc : s.cur t = some (i, P)) (m' : Mem V) (hm : ∀ a l, l ≠ i → m' a l = s.mem a l) (x : Option (ℕ × Prog V)) (acc : Fin T → ℕ → V) (td : Finset ℕ)
    (t' : Fin T) (ht : t' ≠ t) :
    PState.left { s with mem := m', cur := Function.update s.cur t x, acc := acc, todo := td } t' = s.left t' := by
  unfold PState.left
  simp only []
  rw [Function.update_of_ne ht]
  cases hq : s.cur t' with
  | none => rfl
  | some q =>
    obtain ⟨j, Q⟩ := q
    simp only [Option.elim_some]
    rw [steps_congr Q j (h.cur t' j Q hq).2.2.1 _ s.mem (fun a => hm a j fun ej => ht ?_)]
    subst ej
    exact h.own _ _ _ _ _ hq hc

theorem sums_step [AddCommMonoid V] {body : ℕ → Prog V} (hb : RowLocal body) {m0 : Mem V} {s s' : PState V T} (h : ParInv body n m0 s)
    (hs : PStep body s s') (e : ℕ) :
    ∑ t, s'.acc t e + ∑ t, s'.pending e t + ∑ i ∈ s'.todo, (body i).contrib m0 e =
      ∑ t, s.acc t e + ∑ t, s.pending e t + ∑ i ∈ s.todo, (body i).contrib m0 e := by
  cases hs with
  | take t i hc hi =>
    obtain ⟨r, h1, h2⟩ := sum_at (PState.pending { s with todo := s.todo.erase i, cur := Function.update s.cur t (some (i, body i)) } e) (s.pending e) t
      (fun t' ht => by unfold PState.pending; simp only []; rw [Function.update_of_ne ht])
    rw [h1, h2, ← Finset.add_sum_erase s.todo _ hi]
    have e1 : PState.pending { s with todo := s.todo.erase i, cur := Function.update s.cur t (some (i, body i)) } e t = (body i).contrib m0 e := by
      unfold PState.pending
      simp only [Function.update_self, Option.elim_some]
      exact contrib_congr _ i (hb i) _ _ (h.todo i hi).2 e
    have e2 : s.pending e t = 0 := by unfold PState.pending; rw [hc]; rfl
    rw [e1, e2]
    simp only []
    abel
  | load t i a j k hc =>
    obtain ⟨r, h1, h2⟩ := sum_at (PState.pending { s with cur := Function.update s.cur t (some (i, k (s.mem a j))) } e) (s.pending e) t
      (fun t' ht => pending_other h t i _ hc s.mem (fun _ _ _ => rfl) _ s.acc s.todo e t' ht)
    rw [h1, h2]
    have e1 : PState.pending { s with cur := Function.update s.cur t (some (i, k (s.mem a j))) } e t = s.pending e t := by
      unfold PState.pending
      simp only [Function.update_self, Option.elim_some, hc]
      rfl
    rw [e1]
  | store t i a j v k hc =>
    obtain ⟨rfl, h3⟩ := (h.cur t i _ hc).2.2.1
    obtain ⟨r, h1, h2⟩ := sum_at (PState.pending { s with mem := s.mem.set a j v, cur := Function.update s.cur t (some (j, k)) } e) (s.pending e) t
      (fun t' ht => pending_other h t j _ hc _ (fun b l hl => set_col _ _ _ _ _ _ hl) _ s.acc s.todo e t' ht)
    rw [h1, h2]
    have e1 : PState.pending { s with mem := s.mem.set a j v, cur := Function.update s.cur t (some (j, k)) } e t = s.pending e t := by
      unfold PState.pending
      simp only [Function.update_self, Option.elim_some, hc]
      rfl
    rw [e1]
  | reduce t i d v k hc =>
    obtain ⟨r, h1, h2⟩ := sum_at (PState.pending { s with
        acc := Function.update s.acc t (Function.update (s.acc t) d (s.acc t d + v)), cur := Function.update s.cur t (some (i, k)) } e) (s.pending e) t
      (fun t' ht => pending_other h t i _ hc s.mem (fun _ _ _ => rfl) _ _ s.todo e t' ht)
    obtain ⟨r', h1', h2'⟩ := sum_at (fun t' => Function.update s.acc t (Function.update (s.acc t) d (s.acc t d + v)) t' e) (fun t' => s.acc t' e) t
      (fun t' ht => by rw [Function.update_of_ne ht])
    rw [h1, h2, h2']
    rw [h1']
    have e1 : PState.pending { s with
        acc := Function.update s.acc t (Function.update (s.acc t) d (s.acc t d + v)), cur := Function.update s.cur t (some (i, k)) } e t = k.contrib s.mem e := by
      unfold PState.pending
      simp only [Function.update_self, Option.elim_some]
    have e2 : s.pending e t = (if e = d then v else 0) + k.contrib s.mem e := by
      unfold PState.pending
      rw [hc]; rfl
    rw [e1, e2, Function.update_self]
    by_cases hd : e = d
    · subst hd
      simp only [Function.update_self, if_true]
      abel
    · rw [Function.update_of_ne hd, if_neg hd]
      abel
  | fin t i hc =>
    obtain ⟨r, h1, h2⟩ := sum_at (PState.pending { s with cur := Function.update s.cur t none } e) (s.pending e) t
      (fun t' ht => pending_other h t i _ hc s.mem (fun _ _ _ => rfl) _ s.acc s.todo e t' ht)
    rw [h1, h2]
    have e1 : PState.pending { s with cur := Function.update s.cur t none } e t = 0 := by
      unfold PState.pending; simp
    have e2 : s.pending e t = 0 := by unfold PState.pending; rw [hc]; rfl
    rw [e1, e2]

theorem steps_step [Add V] {body : ℕ → Prog V} (hb : RowLocal body) {m0 : Mem V} {s s' : PState V T} (h : ParInv body n m0 s)
    (hs : PStep body s s') :
    1 + ∑ t, s'.left t + ∑ i ∈ s'.todo, ((body i).steps m0 + 2) = ∑ t, s.left t + ∑ i ∈ s.todo, ((body i).steps m0 + 2) := by
  cases hs with
  | take t i hc hi =>
    obtain ⟨r, h1, h2⟩ := sum_at (PState.left { s with todo := s.todo.erase i, cur := Function.update s.cur t (some (i, body i)) }) s.left t
      (fun t' ht => by unfold PState.left; simp only []; rw [Function.update_of_ne ht])
    rw [h1, h2, ← Finset.add_sum_erase s.todo _ hi]
    have e1 : PState.left { s with todo := s.todo.erase i, cur := Function.update s.cur t (some (i, body i)) } t = (body i).steps m0 + 1 := by
      unfold PState.left
      simp only [Function.update_self, Option.elim_some]
      rw [steps_congr _ i (hb i) _ _ (h.todo i hi).2]
    have e2 : s.left t = 0 := by unfold PState.left; rw [hc]; rfl
    rw [e1, e2]
    simp only []
    omega
  | load t i a j k hc =>
    obtain ⟨r, h1, h2⟩ := sum_at (PState.left { s with cur := Function.update s.cur t (some (i, k (s.mem a j))) }) s.left t
      (fun t' ht => left_other h t i _ hc s.mem (fun _ _ _ => rfl) _ s.acc s.todo t' ht)
    rw [h1, h2]
    have e1 : s.left t = 1 + PState.left { s with cur := Function.update s.cur t (some (i, k (s.mem a j))) } t := by
      unfold PState.left
      simp only [Function.update_self, Option.elim_some, hc, Prog.steps]
      omega
    rw [e1]
    simp only []
    omega
  | store t i a j v k hc =>
    obtain ⟨rfl, h3⟩ := (h.cur t i _ hc).2.2.1
    obtain ⟨r, h1, h2⟩ := sum_at (PState.left { s with mem := s.mem.set a j v, cur := Function.update s.cur t (some (j, k)) }) s.left t
      (fun t' ht => left_other h t j _ hc _ (fun b l hl => set_col _ _ _ _ _ _ hl) _ s.acc s.todo t' ht)
    rw [h1, h2]
    have e1 : s.left t = 1 + PState.left { s with mem := s.mem.set a j v, cur := Function.update s.cur t (some (j, k)) } t := by
      unfold PState.left
      simp only [Function.update_self, Option.elim_some, hc, Prog.steps]
      omega
    rw [e1]
    simp only []
    omega
  | reduce t i d v k hc =>
    obtain ⟨r, h1, h2⟩ := sum_at (PState.left { s with
        acc := Function.update s.acc t (Function.update (s.acc t) d (s.acc t d + v)), cur := Function.update s.cur t (some (i, k)) }) s.left t
      (fun t' ht => left_other h t i _ hc s.mem (fun _ _ _ => rfl) _ _ s.todo t' ht)
    rw [h1, h2]
    have e1 : s.left t = 1 + PState.left { s with
        acc := Function.update s.acc t (Function.update (s.acc t) d (s.acc t d + v)), cur := Function.update s.cur t (some (i, k)) } t := by
      unfold PState.left
      simp only [Function.update_self, Option.elim_some, hc, Prog.steps]
      omega
    rw [e1]
    simp only []
    omega
  | fin t i hc =>
    obtain ⟨r, h1, h2⟩ := sum_at (PState.left { s with cur := Function.update s.cur t none }) s.left t
      (fun t' ht => left_other h t i _ hc s.mem (fun _ _ _ => rfl) _ s.acc s.todo t' ht)
    rw [h1, h2]
    have e1 : PState.left { s with cur := Function.update s.cur t none } t = 0 := by
      unfold PState.left; simp
    have e2 : s.left t = 1 := by unfold PState.left; rw [hc]; rfl
    rw [e1, e2]
    simp only []
    omega

theorem sums_run [AddCommMonoid V] {body : ℕ → Prog V} (hb : RowLocal body) {m0 : Mem V} {c : ℕ} {s : PState V T}
    (hs : PRun body c (pStart T n m0) s) (e : ℕ) :
    ∑ t, s.acc t e + ∑ t, s.pending e t + ∑ i ∈ s.todo, (body i).contrib m0 e = ∑ i ∈ Finset.range n, (body i).contrib m0 e := by
  generalize hs0 : pStart T n m0 = s0 at hs
  induction hs with
  | refl => subst hs0; simp [pStart, PState.pending]
  | step hr h1 ih =>
    have hi := parInv_run hb (parInv_start body m0) (hs0 ▸ hr)
    rw [sums_step hb hi h1 e]
    exact ih hs0

theorem steps_run [Add V] [Zero V] {body : ℕ → Prog V} (hb : RowLocal body) {m0 : Mem V} {c : ℕ} {s : PState V T}
    (hs : PRun body c (pStart T n m0) s) :
    c + ∑ t, s.left t + ∑ i ∈ s.todo, ((body i).steps m0 + 2) = ∑ i ∈ Finset.range n, ((body i).steps m0 + 2) := by
  generalize hs0 : pStart T n m0 = s0 at hs
  induction hs with
  | refl => subst hs0; simp [pStart, PState.left]
  | step hr h1 ih =>
    have hi := parInv_run hb (parInv_start body m0) (hs0 ▸ hr)
    have := steps_step hb hi h1
    rw [← ih hs0]
    omega

/-! ### The theorems -/

/-- **C100, arrays.** Whatever the values are and however they are added (floats included), and even if array arguments are the same array: on any number of
threads and under any schedule, the arrays after the loop are those after the plain loop. -/
theorem c100_arrays [Add V] [Zero V] {body : ℕ → Prog V} (hb : RowLocal body) (m0 : Mem V) (d0 : ℕ → V) (m : Mem V) (r : ℕ → V)
    (h : ParResult T n body m0 d0 m r) : m = (seqLoop body (List.range n) m0 d0).1 := by
  obtain ⟨c, s, hs, he, rfl, -⟩ := h
  have hi := parInv_run hb (parInv_start body m0) hs
  funext a i
  rw [seq_spec hb _ List.nodup_range]
  by_cases hn : i < n
  · rw [if_pos (List.mem_range.2 hn)]
    exact hi.fin i hn (by rw [he.1]; simp) (fun t P e => by rw [he.2 t] at e; cases e) a
  · rw [if_neg fun e => hn (List.mem_range.1 e)]
    exact hi.out i (not_lt.1 hn) a

theorem combine_eq [AddCommMonoid V] (d0 : V) (order : List (Fin T)) (acc : Fin T → ℕ → V) (d : ℕ) :
    combine d0 order acc d = d0 + (order.map fun t => acc t d).sum := by
  unfold combine
  induction order generalizing d0 with
  | nil => simp
  | cons x xs ih => rw [List.foldl_cons, ih, List.map_cons, List.sum_cons, add_assoc]

/-- **C100, sums.** With exact addition the reduction variables too are those of the plain loop. -/
theorem c100_sums [AddCommMonoid V] {body : ℕ → Prog V} (hb : RowLocal body) (m0 : Mem V) (d0 : ℕ → V) (m : Mem V) (r : ℕ → V)
    (h : ParResult T n body m0 d0 m r) : r = (seqLoop body (List.range n) m0 d0).2 := by
  obtain ⟨c, s, hs, he, rfl, hr⟩ := h
  funext d
  obtain ⟨order, ho, e⟩ := hr d
  rw [e, combine_eq, seq_acc hb _ List.nodup_range]
  congr 1
  have h1 := sums_run hb hs d
  have h2 : ∑ t, s.pending d t = 0 := Finset.sum_eq_zero fun t _ => by unfold PState.pending; rw [he.2 t]; rfl
  rw [he.1, Finset.sum_empty, add_zero, h2, add_zero] at h1
  rw [(ho.map fun t => s.acc t d).sum_eq, ← Fin.sum_univ_def, h1, Finset.sum_range, Fin.sum_univ_def, ← List.map_coe_finRange_eq_range, List.map_map]
  rfl

/-- **C100, no data race.** -/
theorem c100_race_free [Add V] [Zero V] {body : ℕ → Prog V} (hb : RowLocal body) (m0 : Mem V) (c : ℕ) (s : PState V T)
    (h : PRun body c (pStart T n m0) s) : ¬ s.Race := by
  rintro ⟨t, t', i, P, i', P', ⟨a, j⟩, b, b', ht, h1, h2, n1, n2, -⟩
  have hi := parInv_run hb (parInv_start body m0) h
  have key : ∀ {i : ℕ} {P : Prog V} {b : Bool}, Prog.OnlyRow i P → P.next = some ((a, j), b) → j = i := by
    intro i P b hP hn
    cases P with
    | done => cases hn
    | load a' j' k =>
      simp only [Prog.next, Option.some.injEq, Prod.mk.injEq] at hn
      rw [← hn.1.2]; exact hP.1
    | store a' j' v k =>
      simp only [Prog.next, Option.some.injEq, Prod.mk.injEq] at hn
      rw [← hn.1.2]; exact hP.1
    | reduce d v k => cases hn
  have e1 := key (hi.cur _ _ _ h1).2.2.1 n1
  have e2 := key (hi.cur _ _ _ h2).2.2.1 n2
  subst e1
  subst e2
  exact ht (hi.own _ _ _ _ _ h1 h2)

/-- **C100, the loop ends.** Every execution takes at most the same number of steps, has ended exactly if it took that many, and can go on if it has not
ended: no schedule deadlocks or runs forever. -/
theorem c100_ends [Add V] [Zero V] {body : ℕ → Prog V} (hb : RowLocal body) (m0 : Mem V) (hT : 0 < T) :
    ∃ N, ∀ c (s : PState V T), PRun body c (pStart T n m0) s → c ≤ N ∧ (s.ended ↔ c = N) ∧ (¬ s.ended → ∃ s', PStep body s s') := by
  refine ⟨∑ i ∈ Finset.range n, ((body i).steps m0 + 2), fun c s h => ?_⟩
  have hst := steps_run hb h
  refine ⟨by omega, ?_, ?_⟩
  · constructor
    · rintro ⟨h1, h2⟩
      have : ∑ t, s.left t = 0 := Finset.sum_eq_zero fun t _ => by unfold PState.left; rw [h2 t]; rfl
      rw [h1, Finset.sum_empty] at hst
      omega
    · intro hc
      have h1 : ∑ t, s.left t = 0 := by omega
      have h2 : ∑ i ∈ s.todo, ((body i).steps m0 + 2) = 0 := by omega
      constructor
      · by_contra hne
        obtain ⟨i, hi⟩ := Finset.nonempty_iff_ne_empty.2 hne
        have := Finset.sum_eq_zero_iff.1 h2 i hi
        omega
      · intro t
        have := Finset.sum_eq_zero_iff.1 h1 t (Finset.mem_univ t)
        unfold PState.left at this
        cases hq : s.cur t with
        | none => rfl
        | some q => rw [hq] at this; simp at this
  · intro hne
    by_cases hcur : ∃ t q, s.cur t = some q
    · obtain ⟨t, ⟨i, P⟩, hq⟩ := hcur
      cases P with
      | done => exact ⟨_, .fin s t i hq⟩
      | load a j k => exact ⟨_, .load s t i a j k hq⟩
      | store a j v k => exact ⟨_, .store s t i a j v k hq⟩
      | reduce d v k => exact ⟨_, .reduce s t i d v k hq⟩
    · push Not at hcur
      have hnone : ∀ t, s.cur t = none := fun t => by
        cases hq : s.cur t with
        | none => rfl
        | some q => exact absurd hq (hcur t q)
      have : s.todo ≠ ∅ := fun e => hne ⟨e, hnone⟩
      obtain ⟨i, hi⟩ := Finset.nonempty_iff_ne_empty.2 this
      exact ⟨_, .take s ⟨0, hT⟩ i (hnone _) hi⟩

end Glum
