import Verif.Model.Distribution
/-
Model of `get_family` and `get_link` (`_glm.py` 3143-3224) and of the constructors they call.
-/
namespace Glum

noncomputable section

/-- A Python float. Rounding (also that of parameters to float32) is not modelled. -/
inductive PyNum where
  | nan
  | inf (positive : Bool)
  | fin (x : ℝ)

/-- A family object with the parameter as given. -/
inductive FamilyObj where
  | normal | poisson | gamma | invGaussian | ghs | binomial
  | negBinomial (theta : PyNum)
  | tweedie (p : PyNum)

/-- A link object. -/
inductive LinkObj where
  | identity | log | logit | cloglog
  | tweedie (p : PyNum)

/-- `TweedieDistribution.power` and `TweedieLink.power` setters (`_distribution.py` 604-613, `_link.py` 121-130): `p > 0 and p < 1` raises;
comparisons with NaN are false. -/
def powerOk : PyNum → Prop
  | .nan => True
  | .inf _ => True
  | .fin x => ¬ (0 < x ∧ x < 1)

/-- `NegativeBinomialDistribution.theta` setter (`_distribution.py` 1389-1398): `not theta > 0` raises. -/
def thetaOk : PyNum → Prop
  | .nan => False
  | .inf b => b = true
  | .fin x => 0 < x

open Classical in
def mkTweedieObj (p : PyNum) : Option FamilyObj := if powerOk p then some (.tweedie p) else none

open Classical in
def mkNegBinomialObj (t : PyNum) : Option FamilyObj := if thetaOk t then some (.negBinomial t) else none

open Classical in
def mkTweedieLinkObj (p : PyNum) : Option LinkObj := if powerOk p then some (.tweedie p) else none

/-- `(.+)\)` without the condition that the group is not empty: the longest prefix followed by a closing bracket. -/
def greedyParen : List Char → Option (List Char)
  | [] => none
  | c :: cs => match greedyParen cs with
    | some g => some (c :: g)
    | none => if c = ')' then some [] else none

/-- The literal part of a pattern at the beginning of the text; `none` in the pattern is `.`, which does not match a line break.  Returns the
rest. -/
def stripPattern : List (Option Char) → List Char → Option (List Char)
  | [], s => some s
  | _ :: _, [] => none
  | some a :: ps, c :: cs => if c = a then stripPattern ps cs else none
  | none :: ps, c :: cs => if c = '\n' then none else stripPattern ps cs

/-- `name\s?\((.+)\)` at the beginning of the text: the group (white space: ASCII blank, tab, line ends; Python knows more). `\s?` is greedy, but a bracket is no white space, so there is nothing to
backtrack. -/
def matchCall (name : List (Option Char)) (s : List Char) : Option (List Char) :=
  (stripPattern name s).bind fun r =>
    let r' := match r with
      | c :: cs => if c.isWhitespace then cs else r
      | [] => []
    match r' with
    | '(' :: body => match body.takeWhile (· ≠ '\n') with
      | c :: cs => (greedyParen cs).map (c :: ·)
      | [] => none
    | _ => none

/-- `re.search`: the leftmost match. -/
def reSearch (m : List Char → Option (List Char)) : List Char → Option (List Char)
  | [] => m []
  | c :: cs => (m (c :: cs)).orElse fun _ => reSearch m cs

/-- `r"tweedie\s?\((.+)\)"` (`_glm.py` 3164, 3216). -/
def tweediePattern : List (Option Char) := "tweedie".toList.map some

/-- `r"negative.binomial\s?\((.+)\)"` (`_glm.py` 3169): the dot matches any character. -/
def negBinPattern : List (Option Char) := "negative".toList.map some ++ [none] ++ "binomial".toList.map some

/-- `name_to_dist` (`_glm.py` 3149-3158). -/
def familyNames : List (String × FamilyObj) :=
  [("binomial", .binomial), ("gamma", .gamma), ("gaussian", .normal), ("inverse.gaussian", .invGaussian), ("normal", .normal),
   ("poisson", .poisson), ("tweedie", .tweedie (.fin (3 / 2))), ("negative.binomial", .negBinomial (.fin 1))]

/-- `get_family(family)` for a string (`_glm.py` 3143-3176); `float` is Python's `float(str)` (`none`: `ValueError`); `none`: an exception. -/
def getFamily (float : List Char → Option PyNum) (s : List Char) : Option FamilyObj :=
  match familyNames.find? fun e => e.1.toList = s with
  | some e => some e.2
  | none => match reSearch (matchCall tweediePattern) s with
    | some g => (float g).bind mkTweedieObj
    | none => match reSearch (matchCall negBinPattern) s with
      | some g => (float g).bind mkNegBinomialObj
      | none => none

/-- `family.to_tweedie(safe=False)` (`_distribution.py` 102-108, `__tweedie_repr__` of the classes): the power, if any. -/
def FamilyObj.tweediePower : FamilyObj → Option PyNum
  | .normal => some (.fin 0)
  | .poisson => some (.fin 1)
  | .gamma => some (.fin 2)
  | .invGaussian => some (.fin 3)
  | .tweedie p => some p
  | _ => none

/-- `power <= 0`. -/
def PyNum.nonpos : PyNum → Prop
  | .nan => False
  | .inf b => b = false
  | .fin x => x ≤ 0

open Classical in
/-- The automatic link (`_glm.py` 3190-3206). -/
def autoLink (f : FamilyObj) : Option LinkObj :=
  match f.tweediePower with
  | some p => some (if p.nonpos then .identity else .log)
  | none => match f with
    | .ghs => some .identity
    | .binomial => some .logit
    | .negBinomial _ => some .log
    | _ => none

/-- `mapping` (`_glm.py` 3208-3214). -/
def linkNames : List (String × LinkObj) :=
  [("cloglog", .cloglog), ("identity", .identity), ("log", .log), ("logit", .logit), ("tweedie", .tweedie (.fin (3 / 2)))]

/-- `get_link(link, family)` (`_glm.py` 3179-3224) for `None` (`none`) or a string. -/
def getLink (float : List Char → Option PyNum) (link : Option (List Char)) (f : FamilyObj) : Option LinkObj :=
  match link with
  | none => autoLink f
  | some s =>
    if s = "auto".toList then autoLink f
    else match linkNames.find? fun e => e.1.toList = s with
      | some e => some e.2
      | none => match reSearch (matchCall tweediePattern) s with
        | some g => (float g).bind mkTweedieLinkObj
        | none => none

/-- The family object with finite parameters as the family of the other models. -/
def FamilyObj.toFamily : FamilyObj → Option Family
  | .normal => some .normal
  | .poisson => some .poisson
  | .gamma => some .gamma
  | .invGaussian => some .invGaussian
  | .ghs => some .ghs
  | .binomial => some .binomial
  | .negBinomial (.fin t) => some (.negBinomial t)
  | .tweedie (.fin p) => some (.tweedie p)
  | _ => none

def LinkObj.toLink : LinkObj → Option Link
  | .identity => some .identity
  | .log => some .log
  | .logit => some .logit
  | .cloglog => some .cloglog
  | .tweedie (.fin p) => some (.tweedie p)
  | _ => none

end

end Glum
