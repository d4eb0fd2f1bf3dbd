import Mathlib.Data.List.Dedup
import Mathlib.Data.List.Nodup
/-
Model of `parse_formula` (`_formula.py` 18-60) and of the formula branch of `fit` (`_glm.py` 1985-2033, 2087-2091).
-/
namespace Glum

/-- A term as formulaic names it; the intercept is the term `1`. -/
inductive FTerm where
  | one
  | named (name : String)
  deriving DecidableEq, Repr

/-- A summand of a side of a formula: `+ operand` or `- operand`.  An operand is a set of terms: `1` is the intercept, `x` one term,
`a * b` the three terms `a`, `b`, `a:b`.  (formulaic rewrites `+ 0` to `- 1` and `- 0` to `+ 1`, so `0` is not an operand here.) -/
structure FItem where
  plus : Bool
  terms : List FTerm
  deriving Repr

/-- formulaic's evaluation of a chain of summands (contract): from left to right, `+` appends the terms that are not there yet, `-`
removes terms. -/
def evalItems : List FTerm → List FItem → List FTerm
  | acc, [] => acc
  | acc, it :: rest =>
    evalItems (if it.plus then it.terms.foldl (fun l t => if t ∈ l then l else l ++ [t]) acc else acc.filter (· ∉ it.terms)) rest

/-- A formula as written. -/
structure FSource where
  lhs : Option (List FItem)
  rhs : List FItem
  deriving Repr

/-- A parsed formula: `terms.lhs` if there is a `~` with something to its left, `terms.rhs`. -/
structure FParsed where
  lhs : Option (List FTerm)
  rhs : List FTerm
  deriving Repr

/-- What a user may pass as `formula`: a string, a `formulaic.Formula`, or something else. -/
inductive FArg where
  | str (s : FSource)
  | obj (f : FParsed)
  | other
  deriving Repr

/-- `DefaultFormulaParser(include_intercept).get_terms(s)` (formulaic, contract): `include_intercept` puts `1 +` in front of the right-hand
side. -/
def getTerms (includeIntercept : Bool) (s : FSource) : FParsed :=
  { lhs := s.lhs.map (evalItems []), rhs := evalItems [] (if includeIntercept then { plus := true, terms := [.one] } :: s.rhs else s.rhs) }

inductive FError where
  | type
  | lhsCount
  | yGiven
  | interceptMismatch
  | yMissing
  deriving DecidableEq, Repr

/-- `parse_formula` (`_formula.py` 42-60). -/
def parseFormula (f : FArg) (includeIntercept : Bool) : Except FError (Option (List FTerm) × List FTerm) := do
  let terms ← match f with
    | .str s => pure (getTerms includeIntercept s)
    | .obj o => pure o
    | .other => throw .type
  match terms.lhs with
  | some l => if l.length ≠ 1 then throw .lhsCount else pure (some l, terms.rhs)
  | none => pure (none, terms.rhs)

/-- Where the response of the fit comes from: the argument `y`, or a term evaluated on the data frame. -/
inductive FResponse where
  | argument
  | term (t : List FTerm)
  deriving DecidableEq, Repr

/-- The formula branch of `_set_up_and_check_fit_args` (`_glm.py` 1986-2023) and the check for `y` (2087-2091): the response and the terms
that get columns in the design matrix.  `tm.from_formula(..., include_intercept=False, add_column_for_intercept=False)` evaluates the
terms it is given and leaves out the column of `1` (contract). -/
def formulaFit (f : FArg) (fitIntercept : Bool) (yGiven : Bool) : Except FError (FResponse × List FTerm) := do
  let (lhs, rhs) ← parseFormula f fitIntercept
  match lhs with
  | some l =>
    if yGiven then throw .yGiven
    else if (FTerm.one ∈ rhs : Bool) ≠ fitIntercept then throw .interceptMismatch
    else pure (.term l, rhs.filter (· ≠ .one))
  | none =>
    if (FTerm.one ∈ rhs : Bool) ≠ fitIntercept then throw .interceptMismatch
    else if !yGiven then throw .yMissing
    else pure (.argument, rhs.filter (· ≠ .one))

end Glum
