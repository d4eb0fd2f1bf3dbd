import Verif.Model.Categorical
/-
Model of unpickling (`_glm.py` 179-208) and of the property `categorical_levels_` (`_glm.py` 226-242).

An instance is its `__dict__`; pickling stores that dictionary (the default `__getstate__`; scikit-learn adds a version number only for its own
classes).  Values other than the three the method looks at are opaque.
-/
namespace Glum

/-- A value in the dictionary of an estimator: the dtypes of a frame by column (categories for a `pd.CategoricalDtype`, `none` for every other
dtype), levels by column, an integer, `None`, or anything else. -/
inductive AttrVal (V : Type) where
  | dtypes (l : List (String × Option (List String)))
  | levels (l : List (String × List String))
  | int (k : ℕ)
  | pyNone
  | other (v : V)

/-- `__dict__`. -/
abbrev AttrDict (V : Type) := String → Option (AttrVal V)

variable {V : Type}

/-- `setattr(self, name, value)` for a plain attribute. -/
def AttrDict.set (d : AttrDict V) (name : String) (v : AttrVal V) : AttrDict V := fun k => if k = name then some v else d k

/-- `{col: dtype.categories.tolist() for col, dtype in …items() if isinstance(dtype, pd.CategoricalDtype)}` (`_glm.py` 191-195 and 232-236). -/
def categoriesOf (l : List (String × Option (List String))) : List (String × List String) := l.filterMap fun c => c.2.map fun cats => (c.1, cats)

/-- The migration (`_glm.py` 189-197): only if the pickle has the old attribute and not the new one; a value that is not a dictionary of dtypes
raises (`none`). -/
def migrateLevels (state d : AttrDict V) : Option (AttrDict V) :=
  match state "feature_dtypes_", state "_categorical_levels_" with
  | some (.dtypes l), none => some ((d.set "_categorical_levels_" (.levels (categoriesOf l))).set "_feature_dtypes_" (.dtypes l))
  | some _, none => none
  | _, _ => some d

/-- `if not hasattr(self, attr): setattr(self, attr, default_value)` (`_glm.py` 206-208); neither name is an attribute of the class. -/
def setDefault (d : AttrDict V) (name : String) (v : AttrVal V) : AttrDict V := if (d name).isSome then d else d.set name v

/-- The defaults for attributes missing in old models (`_glm.py` 199-208). -/
def setDefaults (d : AttrDict V) : AttrDict V := setDefault (setDefault d "max_inner_iter" (.int 100000)) "monotonic_constraints" .pyNone

/-- `__setstate__(state)` on an instance with dictionary `self` (`_glm.py` 179-208); unpickling creates the instance with an empty one. -/
def setState (self state : AttrDict V) : Option (AttrDict V) :=
  (migrateLevels state fun k => (state k).orElse fun _ => self k).map setDefaults

/-- `pickle.loads(pickle.dumps(·))` for the stored dictionary. -/
def unpickle (state : AttrDict V) : Option (AttrDict V) := setState (fun _ => none) state

/-- The property `categorical_levels_` (`_glm.py` 226-237); `none`: `AttributeError` (and an error for values of another type). -/
def categoricalLevels (d : AttrDict V) : Option (List (String × List String)) :=
  match d "_categorical_levels_" with
  | some (.levels l) => some l
  | some _ => none
  | none => match d "_feature_dtypes_" with
    | some (.dtypes l) => some (categoriesOf l)
    | _ => none

/-- What versions 3.0 and later store as `feature_dtypes_` when fitted on a frame: `X.dtypes.to_dict()` (`_glm.py` 2049-2050).  An `Enum` column
does not occur in pandas. -/
def dtypesOf (df : DFrame) : List (String × Option (List String)) :=
  df.map fun nc => (nc.1, match nc.2 with
    | .cat _ cats _ => some cats
    | _ => none)

end Glum
