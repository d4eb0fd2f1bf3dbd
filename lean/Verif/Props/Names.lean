import Verif.Model.Names
import Verif.Spec.Distribution
import Verif.Props.Link
/-
C83: family and link names.
-/
set_option linter.unusedSectionVars false
set_option linter.unusedVariables false
set_option linter.unusedSimpArgs false

namespace Glum
open Spec

theorem greedyParen_append (t : List Char) : greedyParen (t ++ [')']) = some t := by
  induction t with
  | nil => rfl
  | cons c t ih => simp only [List.cons_append, greedyParen, ih]

theorem stripPattern_literal (a t : List Char) : stripPattern (a.map some) (a ++ t) = some t := by
  induction a with
  | nil => rfl
  | cons c a ih => simp only [List.map_cons, List.cons_append, stripPattern, if_true, ih]

theorem takeWhile_line (t : List Char) (ht : '\n' ∉ t) : (t ++ [')']).takeWhile (· ≠ '\n') = t ++ [')'] := by
  induction t with
  | nil => rfl
  | cons c t ih =>
    have hc : c ≠ '\n' := fun e => ht (e ▸ List.mem_cons_self)
    have ih' := ih fun h => ht (List.mem_cons_of_mem _ h)
    simp only [List.cons_append]
    rw [List.takeWhile_cons_of_pos (by simpa using hc), ih']

/-- What the call syntax matches, when it stands at the beginning. -/
theorem matchCall_call (name : List (Option Char)) (s t : List Char) (blank : Bool) (ht : t ≠ []) (hn : '\n' ∉ t)
    (hs : stripPattern name s = some ((if blank then [' '] else []) ++ '(' :: t ++ [')'])) : matchCall name s = some t := by
  unfold matchCall
  rw [hs]
  cases t with
  | nil => exact absurd rfl ht
  | cons c t =>
    have hl := takeWhile_line (c :: t) hn
    cases blank with
    | true =>
      simp only [if_true, List.cons_append, List.nil_append, Option.bind_some]
      rw [if_pos (by decide)]
      simp only [List.cons_append] at hl
      simp only [hl, greedyParen_append, Option.map_some]
    | false =>
      simp only [Bool.false_eq_true, if_false, List.nil_append, List.cons_append, Option.bind_some]
      rw [if_neg (by decide)]
      simp only [List.cons_append] at hl
      simp only [hl, greedyParen_append, Option.map_some]

theorem reSearch_first (m : List Char → Option (List Char)) (s t : List Char) (h : m s = some t) : reSearch m s = some t := by
  cases s with
  | nil => exact h
  | cons c cs => simp only [reSearch, h, Option.orElse_some]

theorem stripPattern_mem (name : List (Option Char)) (x : Char) (hx : some x ∈ name) : ∀ s r, stripPattern name s = some r → x ∈ s := by
  induction name with
  | nil => cases hx
  | cons q ps ih =>
    intro s r h
    cases s with
    | nil => cases q <;> simp [stripPattern] at h
    | cons c cs =>
      cases q with
      | none =>
        simp only [stripPattern] at h
        split at h
        · cases h
        · have : some x ∈ ps := by simpa using hx
          exact List.mem_cons_of_mem _ (ih this cs r h)
      | some a =>
        simp only [stripPattern] at h
        split at h
        · rename_i hca
          rcases List.mem_cons.1 hx with e | e
          · simp only [Option.some.injEq] at e
            rw [e, ← hca]; exact List.mem_cons_self
          · exact List.mem_cons_of_mem _ (ih e cs r h)
        · cases h

theorem reSearch_none (name : List (Option Char)) (x : Char) (hx : some x ∈ name) (s : List Char) (hs : x ∉ s) :
    reSearch (matchCall name) s = none := by
  have hm : ∀ s, x ∉ s → matchCall name s = none := by
    intro s hs
    unfold matchCall
    cases h : stripPattern name s with
    | none => rfl
    | some r => exact absurd (stripPattern_mem name x hx s r h) hs
  induction s with
  | nil => exact hm [] hs
  | cons c cs ih =>
    simp only [reSearch, hm _ hs, Option.orElse_none]
    exact ih fun h => hs (List.mem_cons_of_mem _ h)

theorem stripPattern_paren (s : List Char) (hs : '(' ∉ s) (name : List (Option Char)) : matchCall name s = none := by
  unfold matchCall
  have hsub : ∀ (name : List (Option Char)) (s r : List Char), stripPattern name s = some r → ∀ c ∈ r, c ∈ s := by
    intro name
    induction name with
    | nil => intro s r h; simp only [stripPattern, Option.some.injEq] at h; subst h; exact fun c hc => hc
    | cons q ps ih =>
      intro s r h c hc
      cases s with
      | nil => cases q <;> simp [stripPattern] at h
      | cons d ds =>
        cases q with
        | none =>
          simp only [stripPattern] at h
          split at h
          · cases h
          · exact List.mem_cons_of_mem _ (ih ds r h c hc)
        | some a =>
          simp only [stripPattern] at h
          split at h
          · exact List.mem_cons_of_mem _ (ih ds r h c hc)
          · cases h
  cases h : stripPattern name s with
  | none => rfl
  | some r =>
    simp only [Option.bind_some]
    have hr : '(' ∉ r := fun hc => hs (hsub name s r h _ hc)
    cases r with
    | nil => rfl
    | cons d ds =>
      simp only
      split
      · rename_i body heq
        exfalso
        split at heq
        · exact hr (List.mem_cons_of_mem _ (heq ▸ List.mem_cons_self))
        · exact hr (heq ▸ List.mem_cons_self)
      · rfl

theorem reSearch_paren (s : List Char) (hs : '(' ∉ s) (name : List (Option Char)) : reSearch (matchCall name) s = none := by
  induction s with
  | nil => exact stripPattern_paren [] hs name
  | cons c cs ih =>
    simp only [reSearch, stripPattern_paren _ hs, Option.orElse_none]
    exact ih fun h => hs (List.mem_cons_of_mem _ h)

theorem names_paren {α : Type} (l : List (String × α)) (hl : ∀ e ∈ l, '(' ∉ e.1.toList) (s : List Char) (hs : '(' ∈ s) :
    l.find? (fun e => e.1.toList = s) = none := by
  rw [List.find?_eq_none]
  intro e he
  simp only [decide_eq_true_eq]
  intro h
  exact hl e he (h ▸ hs)

theorem familyNames_paren : ∀ e ∈ familyNames, '(' ∉ e.1.toList := by
  intro e he
  simp only [familyNames, List.mem_cons, List.mem_nil_iff, or_false] at he
  rcases he with rfl | rfl | rfl | rfl | rfl | rfl | rfl | rfl <;> decide

theorem linkNames_paren : ∀ e ∈ linkNames, '(' ∉ e.1.toList := by
  intro e he
  simp only [linkNames, List.mem_cons, List.mem_nil_iff, or_false] at he
  rcases he with rfl | rfl | rfl | rfl | rfl <;> decide

/-- The documented names. -/
noncomputable def Spec.documentedFamily : String → Option FamilyObj
  | "binomial" => some .binomial
  | "gamma" => some .gamma
  | "gaussian" => some .normal
  | "inverse.gaussian" => some .invGaussian
  | "normal" => some .normal
  | "poisson" => some .poisson
  | "tweedie" => some (.tweedie (.fin (3 / 2)))
  | "negative.binomial" => some (.negBinomial (.fin 1))
  | _ => none

open Classical in
/-- The Tweedie family with the given power: there is none with a power between zero and one. -/
noncomputable def Spec.tweedieOf (q : PyNum) : Option FamilyObj := if ∃ x, q = .fin x ∧ 0 < x ∧ x < 1 then none else some (.tweedie q)

open Classical in
/-- The Tweedie link with the given power. -/
noncomputable def Spec.tweedieLinkOf (q : PyNum) : Option LinkObj := if ∃ x, q = .fin x ∧ 0 < x ∧ x < 1 then none else some (.tweedie q)

open Classical in
/-- The negative binomial with the given parameter, which must be positive (infinity is accepted). -/
noncomputable def Spec.negBinomialOf (q : PyNum) : Option FamilyObj :=
  if q = .inf true ∨ ∃ x, q = .fin x ∧ 0 < x then some (.negBinomial q) else none

theorem powerOk_iff (q : PyNum) : powerOk q ↔ ¬ ∃ x, q = .fin x ∧ 0 < x ∧ x < 1 := by
  cases q <;> simp [powerOk]

theorem thetaOk_iff (q : PyNum) : thetaOk q ↔ (q = .inf true ∨ ∃ x, q = .fin x ∧ 0 < x) := by
  cases q <;> simp [thetaOk]

theorem mkTweedieObj_eq (q : PyNum) : mkTweedieObj q = tweedieOf q := by
  unfold mkTweedieObj tweedieOf
  by_cases h : powerOk q
  · rw [if_pos h, if_neg ((powerOk_iff q).1 h)]
  · rw [if_neg h, if_pos (not_not.1 fun hn => h ((powerOk_iff q).2 hn))]

theorem mkTweedieLinkObj_eq (q : PyNum) : mkTweedieLinkObj q = tweedieLinkOf q := by
  unfold mkTweedieLinkObj tweedieLinkOf
  by_cases h : powerOk q
  · rw [if_pos h, if_neg ((powerOk_iff q).1 h)]
  · rw [if_neg h, if_pos (not_not.1 fun hn => h ((powerOk_iff q).2 hn))]

theorem mkNegBinomialObj_eq (q : PyNum) : mkNegBinomialObj q = negBinomialOf q := by
  unfold mkNegBinomialObj negBinomialOf
  by_cases h : thetaOk q
  · rw [if_pos h, if_pos ((thetaOk_iff q).1 h)]
  · rw [if_neg h, if_neg fun hn => h ((thetaOk_iff q).2 hn)]

/-- **C83, families.** Every string without bracket denotes the documented family or raises; `tweedie(t)`, `tweedie (t)` denote the Tweedie family
with power `float(t)` (or raise, if `t` is no number or a power without distribution), `negative.binomial(t)` the negative binomial with
`theta = float(t)`: for every text `t` in one line (and, for the latter, without the letter `w`). -/
theorem c83_family_partial (float : List Char → Option PyNum) :
    (∀ s : String, '(' ∉ s.toList → getFamily float s.toList = documentedFamily s) ∧
    (∀ (t : List Char) (blank : Bool), t ≠ [] → '\n' ∉ t →
      getFamily float ("tweedie".toList ++ (if blank then [' '] else []) ++ '(' :: t ++ [')']) = (float t).bind tweedieOf) ∧
    (∀ (t : List Char) (blank : Bool), t ≠ [] → '\n' ∉ t → 'w' ∉ t →
      getFamily float ("negative.binomial".toList ++ (if blank then [' '] else []) ++ '(' :: t ++ [')']) = (float t).bind negBinomialOf) := by
  refine ⟨?_, ?_, ?_⟩
  · intro s hs
    have hf : getFamily float s.toList = (familyNames.find? fun e => e.1.toList = s.toList).map Prod.snd := by
      unfold getFamily
      rw [reSearch_paren _ hs, reSearch_paren _ hs]
      cases familyNames.find? fun e => e.1.toList = s.toList <;> rfl
    rw [hf]
    have hinj : ∀ a : String, (a.toList = s.toList) ↔ a = s := fun a => ⟨fun h => String.toList_inj.1 h, fun h => by rw [h]⟩
    simp only [hinj]
    unfold documentedFamily familyNames
    split
    all_goals first | rfl | skip
    rename_i h1 h2 h3 h4 h5 h6 h7 h8
    simp only [List.find?_cons, decide_eq_false (Ne.symm h1), decide_eq_false (Ne.symm h2), decide_eq_false (Ne.symm h3), decide_eq_false (Ne.symm h4),
      decide_eq_false (Ne.symm h5), decide_eq_false (Ne.symm h6), decide_eq_false (Ne.symm h7), decide_eq_false (Ne.symm h8), List.find?_nil, Option.map_none]
  · intro t blank ht hn
    have hmem : '(' ∈ "tweedie".toList ++ (if blank then [' '] else []) ++ '(' :: t ++ [')'] := by simp
    unfold getFamily
    rw [names_paren familyNames familyNames_paren _ hmem]
    have hm : reSearch (matchCall tweediePattern) ("tweedie".toList ++ (if blank then [' '] else []) ++ '(' :: t ++ [')']) = some t := by
      refine reSearch_first _ _ _ (matchCall_call tweediePattern _ t blank ht hn ?_)
      simp only [List.append_assoc]
      exact stripPattern_literal _ _
    rw [hm]
    simp only [funext mkTweedieObj_eq]
  · intro t blank ht hn hw
    have hmem : '(' ∈ "negative.binomial".toList ++ (if blank then [' '] else []) ++ '(' :: t ++ [')'] := by simp
    have hww : 'w' ∉ "negative.binomial".toList ++ (if blank then [' '] else []) ++ '(' :: t ++ [')'] := by
      cases blank <;> simp [hw]
    unfold getFamily
    rw [names_paren familyNames familyNames_paren _ hmem, reSearch_none tweediePattern 'w' (by decide) _ hww]
    have hm : reSearch (matchCall negBinPattern) ("negative.binomial".toList ++ (if blank then [' '] else []) ++ '(' :: t ++ [')']) = some t := by
      refine reSearch_first _ _ _ (matchCall_call negBinPattern _ t blank ht hn ?_)
      simp only [List.append_assoc]
      rfl
    rw [hm]
    simp only [funext mkNegBinomialObj_eq]

/-- **C83, parameters.** Whatever the string, a family that is returned with a finite parameter is one for which a distribution exists. -/
theorem c83_parameters (float : List Char → Option PyNum) (s : List Char) (f : FamilyObj) (h : getFamily float s = some f) (F : Family)
    (hF : f.toFamily = some F) : Valid F := by
  unfold getFamily at h
  split at h
  · rename_i e he
    simp only [Option.some.injEq] at h
    have := List.mem_of_find?_eq_some he
    subst h
    simp only [familyNames, List.mem_cons, List.mem_nil_iff, or_false] at this
    rcases this with rfl | rfl | rfl | rfl | rfl | rfl | rfl | rfl <;> simp only [FamilyObj.toFamily, Option.some.injEq] at hF <;> subst hF <;>
      simp only [Valid] <;> norm_num
  · split at h
    · obtain ⟨q, hq, h⟩ := Option.bind_eq_some_iff.1 h
      unfold mkTweedieObj at h
      split at h
      · rename_i hok
        simp only [Option.some.injEq] at h
        subst h
        cases q with
        | nan => simp [FamilyObj.toFamily] at hF
        | inf b => simp [FamilyObj.toFamily] at hF
        | fin x =>
          simp only [FamilyObj.toFamily, Option.some.injEq] at hF
          subst hF
          simp only [powerOk] at hok
          show x ≤ 0 ∨ 1 ≤ x
          by_contra hc
          push Not at hc
          exact hok hc
      · cases h
    · split at h
      · obtain ⟨q, hq, h⟩ := Option.bind_eq_some_iff.1 h
        unfold mkNegBinomialObj at h
        split at h
        · rename_i hok
          simp only [Option.some.injEq] at h
          subst h
          cases q with
          | nan => simp [FamilyObj.toFamily] at hF
          | inf b => simp [FamilyObj.toFamily] at hF
          | fin x =>
            simp only [FamilyObj.toFamily, Option.some.injEq] at hF
            subst hF
            exact hok
        · cases h
      · cases h

/-- The documented link names. -/
noncomputable def Spec.documentedLink : String → Option LinkObj
  | "cloglog" => some .cloglog
  | "identity" => some .identity
  | "log" => some .log
  | "logit" => some .logit
  | "tweedie" => some (.tweedie (.fin (3 / 2)))
  | _ => none

/-- **C83, links.** -/
theorem c83_link_partial (float : List Char → Option PyNum) (f : FamilyObj) :
    getLink float none f = autoLink f ∧ getLink float (some "auto".toList) f = autoLink f ∧
    (∀ s : String, '(' ∉ s.toList → s ≠ "auto" → getLink float (some s.toList) f = documentedLink s) ∧
    (∀ (t : List Char) (blank : Bool), t ≠ [] → '\n' ∉ t →
      getLink float (some ("tweedie".toList ++ (if blank then [' '] else []) ++ '(' :: t ++ [')'])) f = (float t).bind tweedieLinkOf) := by
  refine ⟨rfl, by simp [getLink], ?_, ?_⟩
  · intro s hs ha
    have hinj : ∀ a : String, (a.toList = s.toList) ↔ a = s := fun a => ⟨fun h => String.toList_inj.1 h, fun h => by rw [h]⟩
    have hna : ¬ s.toList = "auto".toList := fun h => ha (String.toList_inj.1 h)
    have hf : getLink float (some s.toList) f = (linkNames.find? fun e => e.1.toList = s.toList).map Prod.snd := by
      unfold getLink
      simp only
      rw [if_neg hna, reSearch_paren _ hs]
      cases linkNames.find? fun e => e.1.toList = s.toList <;> rfl
    rw [hf]
    simp only [hinj]
    unfold documentedLink linkNames
    split
    all_goals first | rfl | skip
    rename_i h1 h2 h3 h4 h5
    simp only [List.find?_cons, decide_eq_false (Ne.symm h1), decide_eq_false (Ne.symm h2), decide_eq_false (Ne.symm h3), decide_eq_false (Ne.symm h4),
      decide_eq_false (Ne.symm h5), List.find?_nil, Option.map_none]
  · intro t blank ht hn
    have hmem : '(' ∈ "tweedie".toList ++ (if blank then [' '] else []) ++ '(' :: t ++ [')'] := by simp
    have hna : ¬ ("tweedie".toList ++ (if blank then [' '] else []) ++ '(' :: t ++ [')']) = "auto".toList := by
      intro h
      rw [h] at hmem
      revert hmem; decide
    unfold getLink
    simp only
    rw [if_neg hna, names_paren linkNames linkNames_paren _ hmem]
    have hm : reSearch (matchCall tweediePattern) ("tweedie".toList ++ (if blank then [' '] else []) ++ '(' :: t ++ [')']) = some t := by
      refine reSearch_first _ _ _ (matchCall_call tweediePattern _ t blank ht hn ?_)
      simp only [List.append_assoc]
      exact stripPattern_literal _ _
    rw [hm]
    simp only [funext mkTweedieLinkObj_eq]

/-- **C83, automatic link.** For every family with an existing distribution, except Tweedie powers below zero, there is an automatic link, and it
maps every linear predictor to a possible mean of the family. -/
theorem c83_auto_link_partial (e : ℝ) (he : ClipOK e) (f : FamilyObj) (F : Family) (hF : f.toFamily = some F) (hv : Valid F)
    (hp : ∀ p, F = .tweedie p → 0 ≤ p) : ∃ l L, autoLink f = some l ∧ l.toLink = some L ∧ ∀ eta, L.inverse e eta ∈ muRange F := by
  have hlog : ∀ eta, (0 : ℝ) < Link.inverse e .log eta := fun eta => Real.exp_pos eta
  cases f with
  | normal =>
    simp only [FamilyObj.toFamily, Option.some.injEq] at hF; subst hF
    exact ⟨.identity, .identity, by simp [autoLink, FamilyObj.tweediePower, PyNum.nonpos], rfl, fun eta => Set.mem_univ _⟩
  | poisson =>
    simp only [FamilyObj.toFamily, Option.some.injEq] at hF; subst hF
    exact ⟨.log, .log, congrArg some (if_neg (by simp only [PyNum.nonpos]; norm_num)), rfl, hlog⟩
  | gamma =>
    simp only [FamilyObj.toFamily, Option.some.injEq] at hF; subst hF
    exact ⟨.log, .log, congrArg some (if_neg (by simp only [PyNum.nonpos]; norm_num)), rfl, hlog⟩
  | invGaussian =>
    simp only [FamilyObj.toFamily, Option.some.injEq] at hF; subst hF
    exact ⟨.log, .log, congrArg some (if_neg (by simp only [PyNum.nonpos]; norm_num)), rfl, hlog⟩
  | ghs =>
    simp only [FamilyObj.toFamily, Option.some.injEq] at hF; subst hF
    exact ⟨.identity, .identity, rfl, rfl, fun eta => Set.mem_univ _⟩
  | binomial =>
    simp only [FamilyObj.toFamily, Option.some.injEq] at hF; subst hF
    refine ⟨.logit, .logit, rfl, rfl, fun eta => ?_⟩
    obtain ⟨-, -, h1, h2⟩ := (c03_probabilities e he .logit (Or.inl rfl)).1 eta
    exact ⟨h1, h2⟩
  | negBinomial t =>
    cases t with
    | nan => simp [FamilyObj.toFamily] at hF
    | inf b => simp [FamilyObj.toFamily] at hF
    | fin x =>
      simp only [FamilyObj.toFamily, Option.some.injEq] at hF; subst hF
      exact ⟨.log, .log, rfl, rfl, hlog⟩
  | tweedie q =>
    cases q with
    | nan => simp [FamilyObj.toFamily] at hF
    | inf b => simp [FamilyObj.toFamily] at hF
    | fin x =>
      simp only [FamilyObj.toFamily, Option.some.injEq] at hF; subst hF
      have h0 := hp x rfl
      rcases h0.eq_or_lt with h | h
      · exact ⟨.identity, .identity, by simp [autoLink, FamilyObj.tweediePower, PyNum.nonpos, ← h], rfl, fun eta => Or.inl h.symm⟩
      · exact ⟨.log, .log, congrArg some (if_neg (not_le.2 h)), rfl, fun eta => Or.inr (hlog eta)⟩

/-- **C83, counterexamples.** Text around the pattern is ignored, the dot of `negative.binomial` stands for any character, and `nan` is accepted as a
Tweedie power (F37); for a negative Tweedie power the automatic link is the identity, which gives negative means (F38). -/
theorem c83_garbage_counterexample (float : List Char → Option PyNum) (h2 : float ['2'] = some (.fin 2)) (hn : float ['n', 'a', 'n'] = some .nan) :
    getFamily float "my_tweedie(2)x".toList = some (.tweedie (.fin 2)) ∧
    getFamily float "negative_binomial(2)".toList = some (.negBinomial (.fin 2)) ∧
    getFamily float "tweedie(nan)".toList = some (.tweedie .nan) := by
  have names : ∀ s : List Char, '(' ∈ s → familyNames.find? (fun e => e.1.toList = s) = none := names_paren familyNames familyNames_paren
  refine ⟨?_, ?_, ?_⟩
  · unfold getFamily
    rw [names _ (by decide), show reSearch (matchCall tweediePattern) "my_tweedie(2)x".toList = some ['2'] by decide +kernel]
    simp only [h2, Option.bind_some, mkTweedieObj]
    rw [if_pos (by simp [powerOk])]
  · unfold getFamily
    rw [names _ (by decide), show reSearch (matchCall tweediePattern) "negative_binomial(2)".toList = none by decide +kernel,
      show reSearch (matchCall negBinPattern) "negative_binomial(2)".toList = some ['2'] by decide +kernel]
    simp only [h2, Option.bind_some, mkNegBinomialObj]
    rw [if_pos (by simp [thetaOk])]
  · unfold getFamily
    rw [names _ (by decide), show reSearch (matchCall tweediePattern) "tweedie(nan)".toList = some ['n', 'a', 'n'] by decide +kernel]
    simp only [hn, Option.bind_some, mkTweedieObj]
    rw [if_pos (by simp [powerOk])]

theorem c83_auto_link_counterexample (e : ℝ) : ∃ F, Valid F ∧ FamilyObj.toFamily (.tweedie (.fin (-1))) = some F ∧
    autoLink (.tweedie (.fin (-1))) = some .identity ∧ Link.inverse e .identity (-1) ∉ muRange F := by
  refine ⟨.tweedie (-1), Or.inl (by norm_num), rfl, by simp [autoLink, FamilyObj.tweediePower, PyNum.nonpos], ?_⟩
  show ¬ ((-1 : ℝ) = 0 ∨ (0 : ℝ) < -1)
  norm_num

/-- The hypotheses are met by the documented forms. -/
example (float : List Char → Option PyNum) (h : float ['1', '.', '9'] = some (.fin (19 / 10))) :
    getFamily float "tweedie (1.9)".toList = some (.tweedie (.fin (19 / 10))) := by
  have := (c83_family_partial float).2.1 ['1', '.', '9'] true (by decide) (by decide)
  rw [h] at this
  refine this.trans ?_
  simp only [Option.bind_some, tweedieOf]
  rw [if_neg]
  rintro ⟨x, hx, h1, h2⟩
  simp only [PyNum.fin.injEq] at hx
  subst hx
  norm_num at h2

end Glum
