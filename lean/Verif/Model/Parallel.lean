import Verif.Model.Likelihood
import Verif.Model.Hessian
/-
Model of the parallel loops `for i in prange(n, nogil=True)` of the compiled routines (`_functions.pyx` 29-599, `_cd_fast.pyx` 74-106) at the level of
single reads and writes of shared memory.  The other models treat each routine as a function; this one says what they leave out: threads, their
schedule and the array arguments.
-/
namespace Glum

/-- Shared memory: arrays by address, then index. -/
abbrev Mem (V : Type*) := ℕ → ℕ → V

/-- The body of a loop for one value of the loop variable: reads and writes of array elements and `variable += value` on reduction variables.  What
is computed in between, and variables assigned in the body (Cython makes them private to the iteration), are Lean functions. -/
inductive Prog (V : Type*) where
  | done
  | load (a j : ℕ) (k : V → Prog V)
  | store (a j : ℕ) (v : V) (k : Prog V)
  | reduce (d : ℕ) (v : V) (k : Prog V)

variable {V : Type*}

/-- Assignment to one array element. -/
def Mem.set (m : Mem V) (a j : ℕ) (v : V) : Mem V := fun b l => if b = a ∧ l = j then v else m b l

/-- The body executed without interruption; `acc` are the reduction variables. -/
def Prog.run [Add V] : Prog V → Mem V → (ℕ → V) → Mem V × (ℕ → V)
  | .done, m, acc => (m, acc)
  | .load a j k, m, acc => (k (m a j)).run m acc
  | .store a j v k, m, acc => k.run (m.set a j v) acc
  | .reduce d v k, m, acc => k.run m (Function.update acc d (acc d + v))

/-- The loop `for i in range(n)`: one iteration after the other. -/
def seqLoop [Add V] (body : ℕ → Prog V) : List ℕ → Mem V → (ℕ → V) → Mem V × (ℕ → V)
  | [], m, acc => (m, acc)
  | i :: is, m, acc => seqLoop body is ((body i).run m acc).1 ((body i).run m acc).2

/-- A state of the parallel loop with `T` threads: the memory, the iterations not yet given to a thread, what each thread is executing, and each
thread's copies of the reduction variables. -/
structure PState (V : Type*) (T : ℕ) where
  mem : Mem V
  todo : Finset ℕ
  cur : Fin T → Option (ℕ × Prog V)
  acc : Fin T → ℕ → V

/-- One step of one thread: take an iteration, one access of shared memory, one addition to the own copy of a reduction variable, or the end of an
iteration.  Any thread may take any iteration at any time, so every OpenMP schedule (static, dynamic, guided; any chunk size) is included. -/
inductive PStep [Add V] {T : ℕ} (body : ℕ → Prog V) : PState V T → PState V T → Prop
  | take (s : PState V T) (t : Fin T) (i : ℕ) (h : s.cur t = none) (hi : i ∈ s.todo) :
      PStep body s { s with todo := s.todo.erase i, cur := Function.update s.cur t (some (i, body i)) }
  | load (s : PState V T) (t : Fin T) (i a j : ℕ) (k : V → Prog V) (h : s.cur t = some (i, .load a j k)) :
      PStep body s { s with cur := Function.update s.cur t (some (i, k (s.mem a j))) }
  | store (s : PState V T) (t : Fin T) (i a j : ℕ) (v : V) (k : Prog V) (h : s.cur t = some (i, .store a j v k)) :
      PStep body s { s with mem := s.mem.set a j v, cur := Function.update s.cur t (some (i, k)) }
  | reduce (s : PState V T) (t : Fin T) (i d : ℕ) (v : V) (k : Prog V) (h : s.cur t = some (i, .reduce d v k)) :
      PStep body s { s with acc := Function.update s.acc t (Function.update (s.acc t) d (s.acc t d + v)), cur := Function.update s.cur t (some (i, k)) }
  | fin (s : PState V T) (t : Fin T) (i : ℕ) (h : s.cur t = some (i, .done)) :
      PStep body s { s with cur := Function.update s.cur t none }

/-- `c` steps, of any threads in any order. -/
inductive PRun [Add V] {T : ℕ} (body : ℕ → Prog V) : ℕ → PState V T → PState V T → Prop
  | refl (s : PState V T) : PRun body 0 s s
  | step {c : ℕ} {s s' s'' : PState V T} (h : PRun body c s s') (h1 : PStep body s' s'') : PRun body (c + 1) s s''

/-- The start of `for i in prange(n)`: every thread's copy of a reduction variable is zero. -/
def pStart [Zero V] (T n : ℕ) (m : Mem V) : PState V T := ⟨m, Finset.range n, fun _ => none, fun _ _ => 0⟩

/-- The end of the loop (the implicit barrier): nothing left to do. -/
def PState.ended {T : ℕ} (s : PState V T) : Prop := s.todo = ∅ ∧ ∀ t, s.cur t = none

/-- The threads' copies are added to the variable in some order. -/
def combine [Add V] {T : ℕ} (d0 : V) (order : List (Fin T)) (acc : Fin T → ℕ → V) (d : ℕ) : V := order.foldl (fun x t => x + acc t d) d0

/-- `(m, r)` is a possible outcome of the loop, entered with memory `m0` and reduction variables `d0`, on `T` threads. -/
def ParResult [Add V] [Zero V] (T n : ℕ) (body : ℕ → Prog V) (m0 : Mem V) (d0 : ℕ → V) (m : Mem V) (r : ℕ → V) : Prop :=
  ∃ c s, PRun body c (pStart T n m0) s ∧ s.ended ∧ s.mem = m ∧ ∀ d, ∃ order : List (Fin T), order.Perm (List.finRange T) ∧ r d = combine (d0 d) order s.acc d

noncomputable section

/-! ### The loop bodies -/

/-- The array arguments of the `*_eta_mu_deviance` routines. -/
structure EtaArgs where
  cur : ℕ
  xd : ℕ
  y : ℕ
  w : ℕ
  eta : ℕ
  mu : ℕ

open Prog

/-- The bodies of the `*_eta_mu_deviance` routines (`_functions.pyx` 41-44, 111-114, 179-182, 252-259, 341-345, 487-505, 537-540); an element that is
used twice in one expression is read once.  Reduction variable 0 is `deviance`. -/
def Fast.etaBody (k : Fast) (g : EtaArgs) (factor : ℝ) (i : ℕ) : Prog ℝ :=
  load g.cur i fun c => load g.xd i fun x => store g.eta i (c + factor * x) <|
    open Classical in
    match k with
    | .normalIdentity =>
      load g.eta i fun e => store g.mu i e <| load g.w i fun w => load g.y i fun y => load g.mu i fun m => reduce 0 (w * (y - m) ^ 2) done
    | .poissonLog =>
      load g.eta i fun e => store g.mu i (Real.exp e) <| load g.w i fun w => load g.y i fun y => load g.eta i fun e' => load g.mu i fun m =>
        reduce 0 (w * (y * e' - m)) done
    | .gammaLog =>
      load g.eta i fun e => store g.mu i (Real.exp e) <| load g.w i fun w => load g.y i fun y => load g.mu i fun m => load g.eta i fun e' =>
        reduce 0 (w * (y / m + e')) done
    | .invGaussianLog =>
      load g.eta i fun e => store g.mu i (Real.exp e) <| load g.y i fun y => load g.mu i fun m => load g.w i fun w => load g.y i fun y' =>
        reduce 0 (w * (y / m - 1) ^ 2 / y') done
    | .tweedieLog p =>
      load g.eta i fun e => store g.mu i (Real.exp e) <| load g.mu i fun m => load g.w i fun w => load g.mu i fun m' => load g.y i fun y =>
        reduce 0 (w * m ^ (1 - p) * (m' / (2 - p) - y / (1 - p))) done
    | .binomialLogit =>
      load g.eta i fun e =>
        if 0 < e then
          load g.eta i fun e' => load g.w i fun w => load g.y i fun y => store g.mu i (1 / (1 + Real.exp (-e'))) <|
            reduce 0 (w * (y * e' - e' - Real.log (1 + Real.exp (-e')))) done
        else
          load g.eta i fun e' => load g.w i fun w => load g.y i fun y => store g.mu i (Real.exp e' / (Real.exp e' + 1)) <|
            reduce 0 (w * (y * e' - Real.log (1 + Real.exp e'))) done
    | .negBinomialLog theta =>
      load g.eta i fun e => store g.mu i (Real.exp e) <| load g.w i fun w => load g.y i fun y => load g.eta i fun e' => load g.mu i fun m =>
        reduce 0 (w * (-y * e' + (y + 1 / theta) * Real.log (m + 1 / theta))) done

/-- What the routine returns (`_functions.pyx` 45, 115, 183, 261, 346, 506, 541). -/
def Fast.etaReturn (k : Fast) (deviance : ℝ) : ℝ :=
  match k with
  | .normalIdentity => deviance
  | .poissonLog => -2 * deviance
  | .gammaLog => 2 * deviance
  | .invGaussianLog => deviance
  | .tweedieLog _ => 2 * deviance
  | .binomialLogit => -2 * deviance
  | .negBinomialLog _ => 2 * deviance

/-- The array arguments of the `*_rowwise_gradient_hessian` routines. -/
structure GradArgs where
  y : ℕ
  w : ℕ
  eta : ℕ
  mu : ℕ
  grad : ℕ
  hess : ℕ

/-- The bodies of the `*_rowwise_gradient_hessian` routines (`_functions.pyx` 58-62, 127-129, 195-197, 276-284, 360-366, 518-520, 554-556). -/
def Fast.gradBody (k : Fast) (g : GradArgs) (i : ℕ) : Prog ℝ :=
  match k with
  | .normalIdentity =>
    load g.w i fun w => load g.y i fun y => load g.mu i fun m => store g.grad i (w * (y - m)) <| load g.w i fun w' => store g.hess i w' done
  | .poissonLog =>
    load g.w i fun w => load g.y i fun y => load g.mu i fun m => store g.grad i (w * (y - m)) <|
      load g.w i fun w' => load g.mu i fun m' => store g.hess i (w' * m') done
  | .gammaLog =>
    load g.w i fun w => load g.y i fun y => load g.mu i fun m => store g.grad i (w * (y / m - 1)) <|
      load g.w i fun w' => load g.y i fun y' => load g.mu i fun m' => store g.hess i (w' * (y' / m')) done
  | .invGaussianLog =>
    load g.mu i fun m => load g.w i fun w => load g.y i fun y => store g.grad i (w * (y * (1 / m) ^ 2 - 1 / m)) <|
      load g.w i fun w' => store g.hess i (w' * (1 / m)) done
  | .tweedieLog p =>
    load g.mu i fun m => load g.y i fun y => load g.mu i fun m' => load g.w i fun w => store g.grad i (w * m ^ (1 - p) * (y - m')) <|
      load g.w i fun w' => load g.mu i fun m'' => store g.hess i (w' * m ^ (1 - p) * (m'' - (1 - p) * (y - m'))) done
  | .binomialLogit =>
    load g.w i fun w => load g.y i fun y => load g.mu i fun m => store g.grad i (w * (y - m)) <|
      load g.w i fun w' => load g.mu i fun m' => store g.hess i (w' * m' * (1 - m')) done
  | .negBinomialLog theta =>
    load g.w i fun w => load g.y i fun y => load g.mu i fun m => store g.grad i (w * (y - m) / (1 + theta * m)) <|
      load g.w i fun w' => load g.mu i fun m' => store g.hess i (w' * m' / (1 + theta * m')) done

/-- The compiled routines that only sum: deviances and log-likelihoods. -/
inductive SumKind where
  | normalDev
  | poissonDev
  | gammaDev
  | invGaussianDev
  | tweedieDev (p : ℝ)
  | negBinomialDev (theta : ℝ)
  | normalLik (disp : ℝ)
  | poissonLik
  | gammaLik (disp : ℝ)
  | invGaussianLik (disp : ℝ)
  | tweedieLik (p disp : ℝ)
  | negBinomialLik (theta : ℝ)

/-- Their array arguments. -/
structure SumArgs where
  y : ℕ
  w : ℕ
  mu : ℕ

/-- Their bodies (`_functions.pyx` 94-95, 160-163, 233-234, 321-323, 380-387, 594-597; 77-79, 142-145, 215-218, 301-306, 403-404, 571-578); each
`-=` is `+=` of the negative.  `norm`: `_tweedie_normalization`. -/
def SumKind.body (norm : ℝ → ℝ → ℝ → ℝ) (k : SumKind) (g : SumArgs) (i : ℕ) : Prog ℝ :=
  open Classical in
  match k with
  | .normalDev => load g.w i fun w => load g.y i fun y => load g.mu i fun m => reduce 0 (w * (y - m) ^ 2) done
  | .poissonDev =>
    load g.w i fun w => load g.mu i fun m => reduce 0 (w * m) <| load g.y i fun y =>
      if 0 < y then load g.w i fun w' => load g.y i fun y' => load g.mu i fun m' => reduce 0 (w' * y' * (Real.log y' - Real.log m' - 1)) done else done
  | .gammaDev => load g.w i fun w => load g.mu i fun m => load g.y i fun y => reduce 0 (w * (Real.log m - Real.log y + y / m - 1)) done
  | .invGaussianDev => load g.y i fun y => load g.mu i fun m => load g.w i fun w => load g.y i fun y' => reduce 0 (w * (y / m - 1) ^ 2 / y') done
  | .tweedieDev p =>
    load g.mu i fun m => load g.w i fun w => load g.mu i fun m' => reduce 0 (w * (m ^ (1 - p) * m') / (2 - p)) <| load g.y i fun y =>
      if 0 < y then load g.y i fun y' => load g.w i fun w' => load g.y i fun y'' =>
        reduce 0 (w' * (y'' ^ (1 - p) * (y' / (1 - p)) / (2 - p) - y' / (1 - p) * m ^ (1 - p))) done else done
  | .negBinomialDev theta =>
    load g.w i fun w => load g.y i fun y => load g.mu i fun m =>
      reduce 0 (-w * (y + 1 / theta) * Real.log ((y + 1 / theta) / (m + 1 / theta))) <| load g.y i fun y' =>
        if 0 < y' then load g.w i fun w' => load g.y i fun y'' => load g.mu i fun m' => reduce 0 (w' * y'' * Real.log (y'' / m')) done else done
  | .normalLik _ =>
    load g.w i fun w => load g.y i fun y => load g.mu i fun m => reduce 0 (-(w * (y - m) ^ 2)) <| load g.w i fun w' => reduce 1 (-w') done
  | .poissonLik =>
    load g.w i fun w => load g.mu i fun m => reduce 0 (-(w * m)) <| load g.y i fun y =>
      if 0 < y then load g.w i fun w' => load g.y i fun y' => load g.mu i fun m' =>
        reduce 0 (-(w' * (lgamma (1 + y') - y' * Real.log m'))) done else done
  | .gammaLik disp =>
    load g.y i fun y => load g.w i fun w => load g.mu i fun m => load g.y i fun y' =>
      reduce 0 (w * (1 / disp * (Real.log y - Real.log m - y' / m) - Real.log y)) <| load g.w i fun w' => reduce 1 w' done
  | .invGaussianLik disp =>
    load g.y i fun y => load g.mu i fun m => load g.w i fun w => load g.y i fun y' =>
      reduce 0 (-(w * (1 / (2 * disp) * (y / m - 1) ^ 2 / y' + Real.log y' * 3 / 2))) <| load g.w i fun w' => reduce 1 w' done
  | .tweedieLik p disp =>
    load g.w i fun w => load g.y i fun y => load g.mu i fun m => reduce 0 (w * tweedieUnitLogLik norm y m p disp) done
  | .negBinomialLik theta =>
    load g.w i fun w => load g.y i fun y => load g.mu i fun m =>
      reduce 0 (w * (y * Real.log (theta * m) - (y + 1 / theta) * Real.log (1 + theta * m) + lgamma (y + 1 / theta) - lgamma (1 / theta)
        - lgamma (y + 1))) done

/-- What they return from the two sums (`_functions.pyx` 97, 165, 236, 325, 389, 599; 81, 147, 220, 308, 406, 580). -/
def SumKind.ret (k : SumKind) (s : ℕ → ℝ) : ℝ :=
  match k with
  | .normalDev => s 0
  | .poissonDev => 2 * s 0
  | .gammaDev => 2 * s 0
  | .invGaussianDev => s 0
  | .tweedieDev _ => 2 * s 0
  | .negBinomialDev _ => 2 * s 0
  | .normalLik disp => s 0 / (2 * disp) + s 1 * Real.log (2 * Real.pi * disp) / 2
  | .poissonLik => s 0
  | .gammaLik disp => s 0 - (Real.log disp * (1 / disp) + lgamma (1 / disp)) * s 1
  | .invGaussianLik disp => s 0 + s 1 * Real.log (1 / (2 * disp) / Real.pi) / 2
  | .tweedieLik _ _ => s 0
  | .negBinomialLik _ => s 0

/-- Which routine `deviance` calls (`_distribution.py` 625-641, 804-814, 917-928, 1031-1041, 1144-1151, 1407-1419); `none`: numpy expressions. -/
def Family.devRoutine : Family → Option SumKind :=
  open Classical in fun
  | .normal => some .normalDev
  | .poisson => some .poissonDev
  | .gamma => some .gammaDev
  | .invGaussian => some .invGaussianDev
  | .negBinomial theta => some (.negBinomialDev theta)
  | .tweedie p =>
      if p = 0 then some .normalDev
      else if p = 1 then some .poissonDev
      else if p = 2 then some .gammaDev
      else if p = 3 then some .invGaussianDev
      else some (.tweedieDev p)
  | _ => none

/-- Which routine `log_likelihood` calls (`_distribution.py` 715-758, 848, 962, 1075, 1185, 1458). -/
def Family.likRoutine (disp : ℝ) : Family → Option SumKind :=
  open Classical in fun
  | .normal => some (.normalLik disp)
  | .poisson => some .poissonLik
  | .gamma => some (.gammaLik disp)
  | .invGaussian => some (.invGaussianLik disp)
  | .negBinomial theta => some (.negBinomialLik theta)
  | .tweedie p =>
      if p = 0 then some (.normalLik disp)
      else if p = 1 then some .poissonLik
      else if p = 2 then some (.gammaLik disp)
      else if p < 2 then some (.tweedieLik p disp)
      else if p = 3 then some (.invGaussianLik disp)
      else none
  | _ => none

/-- The array arguments of `identify_active_rows`; `diff` is the new array `hessian_rows_diff`. -/
structure RowsArgs where
  rows : ℕ
  old : ℕ
  diff : ℕ

/-- The body of the parallel loop of `identify_active_rows` (`_cd_fast.pyx` 96-101); `md` is the maximum found before. -/
def rowsBody (g : RowsArgs) (C md : ℝ) (i : ℕ) : Prog ℝ :=
  load g.diff i fun d => open Classical in if |d| < C * md then store g.diff i 0 <| load g.old i fun o => store g.rows i o done else done

/-- The sequential loop before it (`_cd_fast.pyx` 89-93): the differences are stored and the maximum taken. -/
def diffLoop (g : RowsArgs) : List ℕ → Mem ℝ → ℝ → Mem ℝ × ℝ
  | [], m, md => (m, md)
  | i :: is, m, md =>
    let m1 := m.set g.diff i (m g.rows i - m g.old i)
    diffLoop g is m1 (open Classical in if md < |m1 g.diff i| then |m1 g.diff i| else md)

end

end Glum
