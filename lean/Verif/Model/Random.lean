import Verif.Model.Solve
/-
Model of `random_state` (`_solvers.py` 486, `_glm.py` 605, `_cd_fast.pyx` 146): which generator a solve draws from and how many numbers it
takes.
-/
namespace Glum

noncomputable section

variable {p : ℕ} {ic : Bool}

/-- numpy's `RandomState` (contract): `seed i` is a generator freshly seeded with `i`, `randint g` the number
`rng.randint(0, RAND_R_MAX)` and the generator afterwards.  Nothing is assumed about either function. -/
structure NumpyRng (γ : Type) where
  seed : ℕ → γ
  randint : γ → BitVec 32 × γ

/-- The generator after `k` numbers have been taken. -/
def NumpyRng.after {γ : Type} (G : NumpyRng γ) (g : γ) : ℕ → γ
  | 0 => g
  | k + 1 => (G.randint (G.after g k)).2

/-- The `k`-th number. -/
def NumpyRng.nth {γ : Type} (G : NumpyRng γ) (g : γ) (k : ℕ) : BitVec 32 := (G.randint (G.after g k)).1

/-- The estimator's `random_state`: an integer, or a generator that lives outside of the fit (a `RandomState` instance; for `None`
numpy's global one). -/
inductive RandomArg where
  | int (i : ℕ)
  | shared

/-- `check_random_state` (scikit-learn, `_solvers.py` 486): an integer gives a new generator, an instance and `None` give the one outside
(`g`).  scikit-learn raises for other values; not modelled. -/
def checkRandomState {γ : Type} (G : NumpyRng γ) (g : γ) : RandomArg → γ
  | .int i => G.seed i
  | .shared => g

/-- What a solve leaves behind: the generator outside, and the rest as in `SolverLog`. -/
structure RandomLog (γ : Type) where
  gen : γ
  convWarn : ℕ
  lsWarn : ℕ
  nIter : ℕ
  objs : List ℝ

/-- The `irls-cd` branch of `_solve` (`_glm.py` 585-632): `IRLSData.__post_init__` looks up the generator at every solve
(`_solvers.py` 486); each call of the coordinate-descent routine takes one number from it, for both values of `selection`
(`_cd_fast.pyx` 146), and there is one call per pass of the outer loop. -/
def irlsCdRandom {γ : Type} (G : NumpyRng γ) (rs : RandomArg) : SolverFn (RandomLog γ) p ic :=
  fun _ D _ s start =>
    let g := checkRandomState G s.gen rs
    let fin := irlsRun (cdInner (G.nth g)) D start
    ({ gen := match rs with
         | .int _ => s.gen
         | .shared => G.after g fin.nIter
       convWarn := s.convWarn + if fin.converged then 0 else 1
       lsWarn := s.lsWarn + (fin.diagnostics.filter (·.warned)).length
       nIter := fin.nIter
       objs := fin.diagnostics.map Diag.obj }, fin.coef)

end

end Glum
