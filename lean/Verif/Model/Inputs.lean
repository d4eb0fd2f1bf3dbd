import Verif.Model.Weights
/-
Model of `check_array_tabmat_compliant` and `check_X_y_tabmat_compliant` (`_validation.py` 20-91), of the conversion of `X` and `y` in
`_set_up_and_check_fit_args` (`_glm.py` 1979-1983, 2040-2045, 2093-2138), of `is_contiguous` (`_utils.py` 177-184), and of the calls in
`_compute_linear_predictor` (`_glm.py` 891-908) and `covariance_matrix` (`_glm.py` 1627-1639).  External: `sklearn.utils.check_array`, the tabmat classes and
`tm.from_df`; their contracts are in the comments.
-/
namespace Glum

/-- The element types that matter (integers stand for all signed and unsigned sizes). -/
inductive Dtype where
  | f64 | f32 | f16 | int | bool | obj
  deriving DecidableEq

/-- Formats of `scipy.sparse` matrices. -/
inductive SFmt where
  | csc | csr | coo | lil
  deriving DecidableEq

/-- A numpy array (`fmt = none`) or a scipy sparse matrix: number of dimensions, element type, shape, entries (explicit and implicit zeros are not told
apart), and the memory it lives in: the caller's buffer or, for `none`, memory allocated by glum. -/
structure Arr where
  fmt : Option SFmt
  nd : ℕ
  dt : Dtype
  n : ℕ
  p : ℕ
  v : ℕ → ℕ → FV
  buf : Option ℕ

/-- A `tm.DenseMatrix`, `tm.SparseMatrix` or `tm.CategoricalMatrix`; the latter holds one code per row, `none` for a dropped or missing category. -/
inductive Leaf where
  | dense (a : Arr) (names : List (Option String))
  | sparse (a : Arr) (names : List (Option String))
  | cat (dt : Dtype) (n p : ℕ) (code : ℕ → Option ℕ) (buf : Option ℕ) (names : List (Option String))

/-- A tabmat matrix: one of the above or a `tm.SplitMatrix` (parts with the column numbers they occupy; tabmat flattens nested ones). -/
inductive TM where
  | leaf (l : Leaf)
  | split (parts : List (Leaf × List ℕ))

/-- What may be passed as `X`: an array or sparse matrix, nested lists (`a` is the array numpy makes of them), a tabmat matrix, a `tm.StandardizedMatrix`
(`mat * mult + shift`), or a data frame (`m` is what `tm.from_df` makes of it: new memory, floats). -/
inductive XIn where
  | raw (a : Arr)
  | listed (a : Arr)
  | tabmat (m : TM)
  | std (m : TM) (shift : List ℝ) (mult : Option (List ℝ))
  | frame (contiguous : Bool) (m : TM)

/-- Conversion of a number to float64 and float32 (rounding, possibly overflow). -/
structure Casting where
  f64 : ℝ → FV
  f32 : ℝ → FV

/-- Conversion of an entry to another element type; only conversions to float64 and float32 occur. -/
def Casting.to (c : Casting) (d : Dtype) : FV → FV
  | .num x => match d with
    | .f64 => c.f64 x
    | .f32 => c.f32 x
    | _ => .num x
  | x => x

/-- The `dtype` argument of `check_array`: `[np.float64, np.float32]` or `"numeric"`. -/
inductive DtypeReq where
  | floats | numeric
  deriving DecidableEq

/-- `sklearn`: the element type of the result; of a list the first unless the type is in the list; `"numeric"` changes only objects. -/
def DtypeReq.target (r : DtypeReq) (d : Dtype) : Dtype :=
  match r with
  | .floats => if d = .f64 ∨ d = .f32 then d else .f64
  | .numeric => if d = .obj then .f64 else d

/-- The keyword arguments of `check_array` that glum uses. -/
structure CheckCfg where
  accept : List SFmt
  dtype : DtypeReq
  copy : Bool
  finite : Bool
  minFeatures : ℕ

/-- The entries after conversion to another element type. -/
def Arr.conv (c : Casting) (d : Dtype) (a : Arr) (i j : ℕ) : FV := if d = a.dt then a.v i j else c.to d (a.v i j)

/-- `X.astype(d)`: new memory. -/
def Arr.astype (c : Casting) (d : Dtype) (a : Arr) : Arr := { a with dt := d, v := a.conv c d, buf := none }

open Classical in
/-- `sklearn.utils.check_array` (external; its documented behaviour for the arguments glum passes): two dimensions, the element type, the sparse format
(the first accepted one unless already accepted), finiteness, at least one row and `minFeatures` columns; a new array if anything had to change or with
`copy=True`.  `none`: `ValueError`. -/
noncomputable def checkArray (c : Casting) (k : CheckCfg) (a : Arr) : Option Arr :=
  let d := k.dtype.target a.dt
  let fmt := a.fmt.map fun f => if f ∈ k.accept then f else k.accept.headD .csc
  if a.nd ≠ 2 then none
  else if k.finite = true ∧ ∃ i < a.n, ∃ j < a.p, ¬ (a.conv c d i j).isFinite then none
  else if a.n < 1 then none
  else if a.p < k.minFeatures then none
  else some { fmt := fmt, nd := 2, dt := d, n := a.n, p := a.p, v := a.conv c d
              buf := if k.copy = true ∨ d ≠ a.dt ∨ fmt ≠ a.fmt then none else a.buf }

/-- `check_array_tabmat_compliant` on one matrix (`_validation.py` 35-38, 46-57): a categorical matrix is returned as it is — `copy.copy` makes a new
object around the same codes; the others are unpacked, checked and wrapped again with their names. -/
noncomputable def checkLeaf (c : Casting) (k : CheckCfg) : Leaf → Option Leaf
  | .cat dt n p code buf names => some (.cat dt n p code buf names)
  | .dense a names => (checkArray c k a).map fun r => .dense r names
  | .sparse a names => (checkArray c k a).map fun r => .sparse r names

/-- The list comprehension over `mat.matrices` (`_validation.py` 28-31). -/
noncomputable def checkParts (c : Casting) (k : CheckCfg) : List (Leaf × List ℕ) → Option (List (Leaf × List ℕ))
  | [] => some []
  | (l, idx) :: rest => (checkLeaf c k l).bind fun l' => (checkParts c k rest).map fun r => (l', idx) :: r

/-- `check_array_tabmat_compliant` on tabmat matrices (`_validation.py` 26-38, 46-57); the parts of a split matrix may have no columns (27). -/
noncomputable def checkTM (c : Casting) (k : CheckCfg) : TM → Option TM
  | .leaf l => (checkLeaf c k l).map .leaf
  | .split ps => (checkParts c { k with minFeatures := 0 } ps).map .split

/-- `skl.utils.check_array(mat.shift, **kwargs)` (`_validation.py` 43): the shift as a one-dimensional array, which is how tabmat stores it. -/
def shiftArr (shift : List ℝ) : Arr where
  fmt := none
  nd := 1
  dt := .f64
  n := shift.length
  p := 0
  v := fun i _ => .num (shift.getD i 0)
  buf := none

/-- `check_array_tabmat_compliant(mat, **kwargs)` (`_validation.py` 20-59).  A standardised matrix is rebuilt from the checked matrix and the checked
shift, without its `mult` (40-44).  A data frame is a `RuntimeError`. -/
noncomputable def checkX (c : Casting) (k : CheckCfg) : XIn → Option XIn
  | .raw a => (checkArray c k a).map .raw
  | .listed a => (checkArray c k a).map .raw
  | .tabmat m => (checkTM c k m).map .tabmat
  | .std m shift _ => (checkTM c k m).bind fun m' => (checkArray c k (shiftArr shift)).map fun s => .std m' ((List.range s.n).map fun i =>
      match s.v i 0 with
      | .num x => x
      | _ => 0) none
  | .frame _ _ => none

/-- The element type of one matrix. -/
def Leaf.dt : Leaf → Dtype
  | .dense a _ => a.dt
  | .sparse a _ => a.dt
  | .cat d _ _ _ _ _ => d

/-- `np.issubdtype(X.dtype, np.integer)` for the element type of `X` (`_glm.py` 2095-2096); that of a split matrix is the common type of its parts, an
integer type if there are only integers and booleans, and some integer.  Categorical matrices and lists are exempt. -/
def XIn.isInteger : XIn → Bool
  | .raw a => a.dt == .int
  | .listed _ => false
  | .tabmat (.leaf (.cat ..)) => false
  | .tabmat (.leaf l) => l.dt == .int
  | .tabmat (.split ps) => ps.all (fun q => q.1.dt == .int || q.1.dt == .bool) && ps.any fun q => q.1.dt == .int
  | .std (.leaf l) _ _ => l.dt == .int
  | .std (.split ps) _ _ => ps.all (fun q => q.1.dt == .int || q.1.dt == .bool) && ps.any fun q => q.1.dt == .int
  | .frame _ _ => false

/-- `astype(np.float64)` on one matrix. -/
def Leaf.astype (c : Casting) : Leaf → Leaf
  | .dense a names => .dense (a.astype c .f64) names
  | .sparse a names => .sparse (a.astype c .f64) names
  | .cat _ n p code buf names => .cat .f64 n p code buf names

/-- `astype(np.float64)` on a tabmat matrix. -/
def TM.astype (c : Casting) : TM → TM
  | .leaf l => .leaf (l.astype c)
  | .split ps => .split (ps.map fun q => (q.1.astype c, q.2))

/-- `X.astype(np.float64)` (`_glm.py` 2108). -/
def XIn.astype (c : Casting) : XIn → XIn
  | .raw a => .raw (a.astype c .f64)
  | .listed a => .listed a
  | .tabmat m => .tabmat (m.astype c)
  | .std m shift mult => .std (m.astype c) shift mult
  | .frame b m => .frame b m

/-- The arguments `fit` passes (`_glm.py` 1979-1982, 2110-2131): floats, `csc` only for `solver="irls-cd"`, `copy=copy_X or False`. -/
def fitCheck (copyX : Option Bool) (irlsCd finite : Bool) : CheckCfg where
  accept := if irlsCd then [.csc] else [.csc, .csr]
  dtype := .floats
  copy := copyX.getD false
  finite := finite
  minFeatures := 1

/-- The conversion of `X` in `fit`: a frame becomes a matrix unless it is not contiguous and `copy_X=False` (`_glm.py` 2040-2045, 2077-2085); integers are
converted unless `copy_X=False` (2093-2108); then the check (2110-2131).  `none`: an exception. -/
noncomputable def fitX (c : Casting) (copyX : Option Bool) (irlsCd finite : Bool) (X : XIn) : Option XIn :=
  let conv : Option XIn := match X with
    | .frame contiguous m => if contiguous = false ∧ copyX = some false then none else some (.tabmat m)
    | X => some X
  conv.bind fun X =>
    if X.isInteger = true ∧ copyX = some false then none
    else checkX c (fitCheck copyX irlsCd finite) (if X.isInteger = true then X.astype c else X)

/-- The check in `_compute_linear_predictor` (`_glm.py` 891-903): `copy=True`, any numeric type, NaN refused whatever `force_all_finite`; `m` of a frame is
what `_convert_from_df` makes of it. -/
noncomputable def predictX (c : Casting) (X : XIn) : Option XIn :=
  checkX c { accept := [.csr, .csc, .coo], dtype := .numeric, copy := true, finite := true, minFeatures := 1 }
    (match X with
    | .frame _ m => .tabmat m
    | X => X)

/-- The element type of the checked `X`, to which `y` is converted (`_glm.py` 2138); that of a split matrix is float64 unless all parts are float32. -/
def XIn.outType : XIn → Dtype
  | .raw a => a.dt
  | .listed a => a.dt
  | .tabmat (.leaf l) => l.dt
  | .tabmat (.split ps) => if ps.all fun q => q.1.dt == .f32 then .f32 else .f64
  | .std (.leaf l) _ _ => l.dt
  | .std (.split ps) _ _ => if ps.all fun q => q.1.dt == .f32 then .f32 else .f64
  | .frame _ _ => .f64

/-- `check_X_y_tabmat_compliant` and `np.asarray(y, dtype=X.dtype)` on `y` (`_validation.py` 79-89; `_glm.py` 2132-2138): finite, as long as `X` has rows,
converted to the type of `X`. -/
noncomputable def fitY (c : Casting) (X : XIn) (rows : ℕ) (y : List FV) : Option (List FV) :=
  open Classical in
  if ∃ a ∈ y, ¬ a.isFinite then none
  else if y.length ≠ rows then none
  else some (y.map (c.to X.outType))

end Glum
