import Mathlib.Data.Real.Basic
import Mathlib.Data.List.Basic
/-
Model of the treatment of categorical columns of data frames: `align_df_categories`, `add_missing_categories`,
`expand_categorical_penalties` (`_utils.py` 14-174), `_convert_from_df` (`_glm.py` 319-362) and the data frame branch of
`_set_up_and_check_fit_args` (`_glm.py` 2045-2085).  External: `tm.from_df` (contract below), narwhals' casts.
-/
namespace Glum

/-- A column: numbers; a categorical (`enum`: narwhals' `Enum`, i.e. ordered categories; otherwise `Categorical`) with its category list
and one code per row (`none`: null); strings (dtype object or str). -/
inductive Col where
  | num (v : List ℝ)
  | cat (enum : Bool) (cats : List String) (codes : List (Option ℕ))
  | str (v : List (Option String))

/-- `cat_missing_method`. -/
inductive MissingMethod where
  | fail | zero | convert
  deriving DecidableEq

/-- The value in each row of a non-numeric column, `none` for null. -/
def Col.values : Col → List (Option String)
  | .num _ => []
  | .cat _ cats codes => codes.map fun c => c.bind fun k => cats[k]?
  | .str v => v

/-- What `fit` records for a categorical column (`_glm.py` 2059-2069): `_categorical_levels_[col]` and `has_missing_category_[col]`. -/
structure LevelInfo where
  levels : List String
  hasMissing : Bool

/-- The recorded information for a column; `none` if it is not categorical. -/
def recordLevels (m : MissingMethod) : Col → Option LevelInfo
  | .cat _ cats codes => some ⟨cats, decide (m = .convert) && codes.contains none⟩
  | _ => none

/-- `Series.cast(Enum(levels))`: every value gets its position in `levels`; values that are not there become null (pandas; with polars
the cast raises, and so does `align_df_categories` in both cases). -/
def castEnum (levels : List String) (vals : List (Option String)) : Col :=
  .cat true levels (vals.map fun v => v.bind fun s => if s ∈ levels then some (levels.idxOf s) else none)

/-- One column of `align_df_categories` (`_utils.py` 31-64); `none`: an exception.  An `Enum` with exactly the training levels is left
alone.  Casting numbers to the training levels raises. -/
def alignCol (m : MissingMethod) (L : LevelInfo) (c : Col) : Option Col :=
  match c with
  | .num _ => none
  | .cat true cats codes =>
    if cats = L.levels then some (.cat true cats codes) else check (.cat true cats codes)
  | c => check c
where
  /-- The cast and the test for unseen categories (`_utils.py` 50-64). -/
  check (c : Col) : Option Col :=
    let unseen := if m = .convert ∧ L.hasMissing = false then c.values.filter fun v => ! (v.any fun s => L.levels.contains s)
      else c.values.filter fun v => v.any fun s => ! L.levels.contains s
    if unseen = [] then some (castEnum L.levels c.values) else none

/-- One column of `add_missing_categories` (`_utils.py` 94-124); `inNames`: the formatted name of the missing category is among the
feature names. -/
def addMissingCol (missing : String) (inNames : Bool) : Col → Option Col
  | .cat e cats codes =>
    if inNames then
      if missing ∈ cats then none
      else some (.cat true (cats ++ [missing]) (codes.map fun c => some (c.getD cats.length)))
    else some (.cat e cats codes)
  | c => if inNames then none else some c

/-- The indicator columns of a categorical with the given categories and codes, without the first one if `drop_first`
(contract of `tm.from_df` / `CategoricalMatrix`). -/
def indicatorCols (dropFirst : Bool) (cats : List String) (codes : List (Option ℕ)) : List (List ℝ) :=
  ((List.range cats.length).drop dropFirst.toNat).map fun k => codes.map fun c => if c = some k then 1 else 0

/-- `tm.from_df` for one column (contract of tabmat): numbers are one column; a categorical becomes indicators in the order of its categories;
nulls raise, give a row of zeros, or get an additional last category, which must not exist already; other columns are ignored with a
warning. -/
def fromDfCol (dropFirst : Bool) (m : MissingMethod) (missing : String) : Col → Option (List (List ℝ))
  | .num v => some [v]
  | .str _ => some []
  | .cat _ cats codes =>
    if none ∈ codes then
      match m with
      | .fail => none
      | .zero => some (indicatorCols dropFirst cats codes)
      | .convert =>
        if missing ∈ cats then none
        else some (indicatorCols dropFirst (cats ++ [missing]) (codes.map fun c => some (c.getD cats.length)))
    else some (indicatorCols dropFirst cats codes)

/-- A data frame: named columns in order. -/
abbrev DFrame := List (String × Col)

/-- The options. -/
structure CatConfig where
  dropFirst : Bool
  method : MissingMethod
  missing : String
  fmt : String → String → String

/-- What a fit on a data frame records. -/
structure FrameFit where
  levels : List (String × LevelInfo)
  featureNames : List String
  design : List (List ℝ)

/-- The names of the columns of the design matrix (`X.get_names`, tabmat). -/
def colNames (C : CatConfig) (name : String) : Col → List String
  | .num _ => [name]
  | .str _ => []
  | .cat _ cats codes =>
    ((if C.method = .convert ∧ none ∈ codes then cats ++ [C.missing] else cats).drop C.dropFirst.toNat).map (C.fmt name)

/-- The data frame branch of `_set_up_and_check_fit_args` (`_glm.py` 2059-2085, 2161). -/
def fitFrame (C : CatConfig) (df : DFrame) : Option FrameFit := do
  let cols ← df.mapM fun nc => fromDfCol C.dropFirst C.method C.missing nc.2
  some ⟨df.filterMap fun nc => (recordLevels C.method nc.2).map fun L => (nc.1, L), df.flatMap fun nc => colNames C nc.1 nc.2, cols.flatten⟩

/-- `_convert_from_df` for one column (`_glm.py` 328-360).  The code runs the three steps one after the other over all columns; each step
treats each column on its own. -/
def convertCol (C : CatConfig) (F : FrameFit) (nc : String × Col) : Option (List (List ℝ)) :=
  match F.levels.lookup nc.1 with
  | none => fromDfCol C.dropFirst (if C.method = .convert then .fail else C.method) C.missing nc.2
  | some L => do
    let c ← alignCol C.method L nc.2
    if C.method = .convert then do
      let c ← addMissingCol C.missing (F.featureNames.contains (C.fmt nc.1 C.missing)) c
      fromDfCol C.dropFirst .fail C.missing c
    else fromDfCol C.dropFirst C.method C.missing c

/-- `_convert_from_df` (`_glm.py` 319-362).  A recorded column that is absent in `df` is skipped by the alignment, but
`add_missing_categories` raises if it has a missing category. -/
def convertFrame (C : CatConfig) (F : FrameFit) (df : DFrame) : Option (List (List ℝ)) :=
  if C.method = .convert ∧ ∃ l ∈ F.levels, C.fmt l.1 C.missing ∈ F.featureNames ∧ ∀ nc ∈ df, nc.1 ≠ l.1 then none
  else (df.mapM (convertCol C F)).map List.flatten

/-- A penalty argument: a string, a vector, or a matrix (`P2`) with its number of rows. -/
inductive PenArg where
  | str
  | vec (v : List ℝ)
  | mat (rows : ℕ)

/-- `expand_categorical_penalties` (`_utils.py` 132-174); `none`: `ValueError`.  `num_categories + has_missing - drop_first` may be -1 in
the code (an empty repetition). Polars' unordered `Categorical`, whose categories are counted from the data, is not modelled. -/
def expandPenalty (C : CatConfig) (df : DFrame) (levels : List (String × LevelInfo)) : PenArg → Option PenArg
  | .str => some .str
  | .mat r => if r = df.length then none else some (.mat r)
  | .vec v =>
    if v.length = df.length then
      some (.vec ((v.zip df).flatMap fun e => match e.2.2 with
        | .cat _ cats _ =>
          List.replicate (cats.length + (if ((levels.lookup e.2.1).any fun L => L.hasMissing) then 1 else 0) - C.dropFirst.toNat) e.1
        | _ => [e.1]))
    else some (.vec v)

end Glum
