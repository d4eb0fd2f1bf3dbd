import Mathlib.Data.EReal.Basic
import Mathlib.Data.List.Lex
import Mathlib.Data.Prod.Lex
import Mathlib.Data.Char
import Mathlib.Data.List.FinRange
import Mathlib.Algebra.BigOperators.Fin
import Mathlib.Order.Fin.Basic
/-
Model of `_formula.py`: the names of design columns are parsed back into factors, grouped and turned into the rows of `A_ineq`.
A string is a list of characters.  Parameters: `isSpace` (the characters `str.strip` removes) and `toFloat` (Python's `float`, `none` for
`ValueError`; a result `nan`, for which sorting is undefined, is not modelled).  External: formulaic (`model_spec.structure`,
`DefaultFormulaParser`).
-/
namespace Glum

/-- A string. -/
abbrev Str := List Char

/-- A factor of a column: its name and the optional bracketed index. -/
abbrev Factor := Str × Option Str

/-- `str.split(separator)` for a non-empty separator (Python): `acc` collects the current part in reverse; `skip` counts the characters of
the separator that are still to be passed over. -/
def splitAux (sep : Str) : Str → ℕ → Str → List Str
  | [], _, acc => [acc.reverse]
  | c :: cs, 0, acc =>
    if sep.isPrefixOf (c :: cs) then acc.reverse :: splitAux sep cs (sep.length - 1) []
    else splitAux sep cs 0 (c :: acc)
  | _ :: cs, skip + 1, acc => splitAux sep cs skip acc

/-- `str.split(separator)`. -/
def splitStr (sep : Str) (s : Str) : List Str := splitAux sep s 0 []

/-- `str.strip()`. -/
def strip (isSpace : Char → Bool) (s : Str) : Str := ((s.dropWhile isSpace).reverse.dropWhile isSpace).reverse

/-- The characters that may occur in a factor name (`[^:\[\]]`). -/
def nameChar (c : Char) : Bool := c != ':' && c != '[' && c != ']'

/-- `_FACTOR_RE.fullmatch` (`_formula.py` 63-69): a non-empty name, which is as long as possible because `[` cannot belong to it; then nothing or
`[`, an index without `]`, and `]`. -/
def matchFactor (s : Str) : Option Factor :=
  let name := s.takeWhile nameChar
  if name = [] then none
  else match s.dropWhile nameChar with
    | [] => some (name, none)
    | c :: rest =>
      if c = '[' ∧ rest.getLast? = some ']' ∧ ']' ∉ rest.dropLast then some (name, some rest.dropLast) else none

/-- `_parse_column_name` (`_formula.py` 72-80); `none`: `ValueError`. -/
def parseColumn (isSpace : Char → Bool) (sep : Str) (col : Str) : Option (List Factor) :=
  (splitStr sep col).mapM fun part => matchFactor (strip isSpace part)

/-- The body of the loop in `_group_columns_by_factor` (`_formula.py` 93-108) for one parsed column: `none`: `ValueError` for a
repeated factor; `some none`: the factor does not occur; otherwise the other factors and the index of the factor. -/
def classify (f : Str) (fs : List Factor) : Option (Option (List Factor × Option Str)) :=
  match fs.filter fun x => x.1 == f with
  | [] => some none
  | [x] => some (some (fs.filter (fun x => ! (x.1 == f)), x.2))
  | _ => none

/-- A dict of groups in insertion order: the key is the tuple of other factors, the value the list of members. -/
abbrev Groups (n : ℕ) := List (List Factor × List (Fin n × Option Str))

/-- `groups[others].append(member)` on a `defaultdict(list)` (`_formula.py` 109). -/
def Groups.add {n : ℕ} (k : List Factor) (m : Fin n × Option Str) : Groups n → Groups n
  | [] => [(k, [m])]
  | (k', ms) :: gs => if k' = k then (k', ms ++ [m]) :: gs else (k', ms) :: Groups.add k m gs

/-- `_group_columns_by_factor` (`_formula.py` 83-111). -/
def groupColumns {n : ℕ} (isSpace : Char → Bool) (sep : Str) (names : Fin n → Str) (f : Str) : Option (Groups n) :=
  (List.finRange n).foldlM (fun gs i => do
    let fs ← parseColumn isSpace sep (names i)
    let o ← classify f fs
    some (o.elim gs fun x => Groups.add x.1 (i, x.2) gs)) []

/-- `_sort_key` (`_formula.py` 114-122). -/
noncomputable def sortKey (toFloat : Str → Option EReal) (idx : Option Str) : EReal ×ₗ Str :=
  match idx with
  | none => toLex (0, [])
  | some s => match toFloat s with
    | some r => toLex (r, [])
    | none => toLex (⊤, s)

/-- The rows for one group (`_formula.py` 158-172). `list.sort(key=…)` is stable. -/
noncomputable def groupRows {n : ℕ} (toFloat : Str → Option EReal) (sign : ℝ) (ms : List (Fin n × Option Str)) : List (Fin n → ℝ) :=
  let ms := ms.mergeSort fun a b => decide (sortKey toFloat a.2 ≤ sortKey toFloat b.2)
  match ms with
  | [m] => [fun k => if k = m.1 then -sign else 0]
  | ms => (ms.zip ms.tail).map fun p k => if k = p.2.1 then -sign else if k = p.1.1 then sign else 0

/-- The direction as a sign (`_formula.py` 144-156). -/
def dirSign (d : String) : Option ℝ := if d = "increasing" then some 1 else if d = "decreasing" then some (-1) else none

/-- `_build_monotonic_constraints` (`_formula.py` 125-177): the rows of `A_ineq`; `b_ineq` is zero. `none`: an exception. -/
noncomputable def buildMonotonic {n : ℕ} (isSpace : Char → Bool) (toFloat : Str → Option EReal) (sep : Str) (names : Fin n → Str)
    (monotonic : List (Str × String)) : Option (List (Fin n → ℝ)) := do
  let rows ← monotonic.mapM fun fd => do
    let sign ← dirSign fd.2
    let groups ← groupColumns isSpace sep names fd.1
    if groups = [] then none else some (groups.flatMap fun g => groupRows toFloat sign g.2)
  if rows.flatten = [] then none else some rows.flatten

/-- `str.rstrip("-+")`. -/
def rstripSign (s : Str) : Str := (s.reverse.dropWhile fun c => c == '-' || c == '+').reverse

/-- `result[factor_name] = direction`: a key that is present keeps its place. -/
def dictSet (k : Str) (d : String) : List (Str × String) → List (Str × String)
  | [] => [(k, d)]
  | (k', d') :: r => if k' = k then (k', d) :: r else (k', d') :: dictSet k d r

/-- The transforms for which monotonicity of the coefficients means nothing (`_formula.py` 185). -/
def incompatible (f : Str) : Bool := "poly(".toList.isPrefixOf f || "cc(".toList.isPrefixOf f

/-- `_resolve_monotonic_constraints_from_model_spec` (`_formula.py` 180-218).  `struc` lists, for every factor of every scoped term in the order
of `model_spec.structure`, its string and the set of data variables in it. -/
def resolveMonotonic (struc : List (Str × List Str)) (cons : List (Str × String)) : Option (List (Str × String)) :=
  cons.foldlM (fun res vd =>
    let facs := struc.filter fun x => x.2.contains vd.1
    if facs = [] then none
    else if facs.any fun x => incompatible (rstripSign x.1) then none
    else some (facs.foldl (fun r x => dictSet (rstripSign x.1) vd.2 r) res)) []

end Glum
