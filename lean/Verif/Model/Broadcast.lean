import Verif.Model.Likelihood
/-
Model of how the methods of the families (`deviance`, `log_likelihood`, `dispersion`) treat scalars, arrays, lists and `None`
(`_as_float_arrays` and numpy's broadcasting, `_distribution.py`).
-/
namespace Glum

noncomputable section

/-- An argument of a family's method, as Python sees it (dimension at most one). -/
inductive Arg
  /-- `None` -/
  | none
  /-- a Python `int` or `float` (`numpy.float64` is one) -/
  | scalar (a : ℝ)
  /-- a numpy scalar of another type (`numpy.int64`, `numpy.float32`), or an array of dimension zero -/
  | zeroD (a : ℝ)
  /-- a numpy array of dimension one -/
  | array (l : List ℝ)
  /-- a Python list -/
  | list (l : List ℝ)

/-- A numpy array of dimension zero or one. -/
inductive Nd
  | zero (a : ℝ)
  | one (l : List ℝ)

/-- numpy's rule for one dimension: equal lengths, or one of them 1 (numpy, not part of glum). -/
def broadcastLen (ls : List ℕ) : Option ℕ :=
  ls.foldl (fun acc k => acc.bind fun m => if m = k then some m else if m = 1 then some k else if k = 1 then some m else Option.none) (some 1)

/-- The lengths of the arrays of dimension one. -/
def Nd.lens (xs : List Nd) : List ℕ := xs.filterMap fun x => match x with | .zero _ => Option.none | .one l => some l.length

/-- The common shape `numpy.broadcast_arrays` computes: `none` is `ValueError`, `some none` dimension zero (numpy). -/
def broadcastShape (xs : List Nd) : Option (Option ℕ) :=
  if Nd.lens xs = [] then some Option.none else (broadcastLen (Nd.lens xs)).map some

/-- The elements of an array stretched to length `n` (numpy). -/
def Nd.fill (n : ℕ) : Nd → List ℝ
  | .zero a => List.replicate n a
  | .one l => if l.length = n then l else List.replicate n (l.headD 0)

/-- An array stretched to a shape (numpy). -/
def Nd.broadcastTo (s : Option ℕ) (x : Nd) : Nd := s.elim x fun n => .one (x.fill n)

/-- An elementwise operation on two arrays (numpy). -/
def Nd.map2 (g : ℝ → ℝ → ℝ) (a b : Nd) : Option Nd :=
  match a, b with
  | .zero x, .zero y => some (.zero (g x y))
  | a, b => (broadcastShape [a, b]).bind fun s => s.map fun n => .one (List.zipWith g (a.fill n) (b.fill n))

/-- `numpy.sum`. -/
def Nd.sum : Nd → ℝ
  | .zero a => a
  | .one l => l.sum

/-- `numpy.dot` of arrays of dimension at most one: an elementwise product when one has dimension zero, else the lengths must be equal
(numpy). -/
def Nd.dot (a b : Nd) : Option Nd :=
  match a, b with
  | .one l, .one m => if l.length = m.length then some (.zero (List.zipWith (· * ·) l m).sum) else Option.none
  | a, b => a.map2 (· * ·) b

/-- `numpy.asanyarray(arg, dtype="float")`, and `numpy.array([arg])` for Python numbers (`_distribution.py` 1533-1539). -/
def Arg.toFloat : Arg → Option Nd
  | .none => Option.none
  | .scalar a => some (.one [a])
  | .zeroD a => some (.zero a)
  | .array l => some (.one l)
  | .list l => some (.one l)

/-- `isinstance(arg, (int, float))` (`_distribution.py` 1534). -/
def Arg.maybe : Arg → Bool
  | .scalar _ => true
  | _ => false

/-- Neither a Python number nor `None` (`_distribution.py` 1538). -/
def Arg.always : Arg → Bool
  | .none => false
  | .scalar _ => false
  | _ => true

/-- `_as_float_arrays` (`_distribution.py` 1527-1553); `none` is `ValueError` of `numpy.broadcast_arrays`. -/
def asFloatArrays (args : List Arg) : Option (List (Option Nd)) :=
  let conv := args.map Arg.toFloat
  if args.any Arg.always && args.any Arg.maybe then
    (broadcastShape (conv.filterMap id)).map fun s => conv.map (Option.map (Nd.broadcastTo s))
  else if args.any Arg.always then
    (broadcastShape ((args.filter Arg.always).filterMap Arg.toFloat)).map fun s =>
      args.map fun a => a.toFloat.map fun x => if a.always then x.broadcastTo s else x
  else some conv

/-- A compiled routine called with three arrays: it wants dimension one and loops over `y.shape[0]`, reading the others at the same index
(`_functions.pyx` 83-97 and the others); `none` is `ValueError` for the dimension. -/
def callKernel {α : Type} (g : (n : ℕ) → (Fin n → ℝ) → (Fin n → ℝ) → (Fin n → ℝ) → α) : Nd → Nd → Nd → Option α
  | .one y, .one mu, .one w => some (g y.length (fun i => y.getD i 0) (fun i => mu.getD i 0) (fun i => w.getD i 0))
  | _, _, _ => Option.none

/-- `numpy.ones_like`. -/
def Nd.ones : Nd → Nd
  | .zero _ => .zero 1
  | .one l => .one (List.replicate l.length 1)

/-- `_as_float_arrays(y, mu, sample_weight)` followed by the default weights and a compiled routine (`_distribution.py` 626-627, 736-737,
805-806 and the same lines of the other families). -/
def viaArrays {α : Type} (g : (n : ℕ) → (Fin n → ℝ) → (Fin n → ℝ) → (Fin n → ℝ) → α) (y mu w : Arg) : Option α :=
  match asFloatArrays [y, mu, w] with
  | some [some y', some mu', w'] => callKernel g y' mu' (w'.getD y'.ones)
  | _ => Option.none

/-- The argument in plain numpy arithmetic; a list does not support `1 - y`, `y ** 2` (`TypeError`), `None` nothing at all. -/
def Arg.raw : Arg → Option Nd
  | .scalar a => some (.zero a)
  | .zeroD a => some (.zero a)
  | .array l => some (.one l)
  | _ => Option.none

/-- A factor on the right of a numpy array: a list is converted. -/
def Arg.factor : Arg → Option Nd
  | .list l => some (.one l)
  | a => a.raw

/-- `deviance` of the base class (`_distribution.py` 231-254), used by GHS and the binomial: `unit_deviance` (1251-1252, 1278-1280) on the arguments as they
are.  The several elementwise operations of `unit_deviance` are one here. -/
def plainDeviance (f : Family) (y mu w : Arg) : Option ℝ :=
  y.raw.bind fun y' => mu.raw.bind fun mu' => (y'.map2 f.unitDeviance mu').bind fun d =>
    match w with
    | .none => some d.sum
    | w => w.factor.bind fun w' => (d.map2 (· * ·) w').map Nd.sum

/-- `family.deviance(y, mu, sample_weight)` (`_distribution.py` 231-254, 625-641, 804-811, 917-924, 1031-1038, 1144-1148, 1407-1412). -/
def Family.devianceCall (f : Family) (y mu w : Arg) : Option ℝ :=
  match f with
  | .ghs => plainDeviance .ghs y mu w
  | .binomial => plainDeviance .binomial y mu w
  | f => viaArrays (fun _ y mu w => f.deviance y mu w) y mu w

/-- `BinomialDistribution.log_likelihood` (`_distribution.py` 1330-1331): what it returns, a number or an array. -/
def binomialLogLikCall (y mu w : Arg) : Option Nd :=
  y.raw.bind fun y' => mu.raw.bind fun mu' => (y'.map2 (fun a b => xlogy a b + xlogy (1 - a) (1 - b)) mu').bind fun ll =>
    match w with
    | .none => some (.zero ll.sum)
    | w => w.factor.bind fun w' => ll.dot w'

/-- `family.log_likelihood(y, mu, sample_weight, dispersion)` with a given dispersion (`_distribution.py` 715-757, 848-871, 962-985, 1075-1098, 1185-1208,
1313-1331, 1458-1479).  GHS has none (`AttributeError`). -/
def Family.logLikCall (norm : ℝ → ℝ → ℝ → ℝ) (f : Family) (disp : ℝ) (y mu w : Arg) : Option Nd :=
  match f with
  | .binomial => binomialLogLikCall y mu w
  | f => ((viaArrays (fun _ y mu w => f.logLik norm y mu w disp) y mu w).join).map .zero

/-- `family.dispersion(y, mu, sample_weight, ddof, method)` (`_distribution.py` 502-538, 759-775, 873-888, 987-1002, 1100-1115, 1210-1225, 1333-1348,
1481-1497) on arguments of which at least one is a Python number, a list or an array of dimension one (otherwise `none`; with dimension zero the code has
further cases, not modelled). -/
def Family.dispersionCall (f : Family) (ddof : ℝ) (method : DispersionMethod) (y mu w : Arg) : Option ℝ :=
  match asFloatArrays [y, mu, w] with
  | some [some (.one y'), some (.one mu'), Option.none] =>
      f.dispersion (n := y'.length) (fun i => y'.getD i 0) (fun i => mu'.getD i 0) Option.none ddof method
  | some [some (.one y'), some (.one mu'), some (.one w')] =>
      f.dispersion (n := y'.length) (fun i => y'.getD i 0) (fun i => mu'.getD i 0) (some fun i => w'.getD i 0) ddof method
  | _ => Option.none

end

end Glum
