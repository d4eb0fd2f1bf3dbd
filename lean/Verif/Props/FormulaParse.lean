import Verif.Model.FormulaParse
/-
C65: formulas. The specification reads a formula from the right: what the *last* mention of a term says decides.
-/
set_option linter.unusedVariables false
namespace Glum

namespace Spec
end Spec

open Spec

/-- What a formula says about a term: the sign of the last summand that mentions it; `none`: not mentioned. -/
def Spec.lastMention (t : FTerm) (items : List FItem) : Option Bool :=
  (items.reverse.find? fun it => decide (t ∈ it.terms)).map (·.plus)

theorem mem_addAll (ts acc : List FTerm) (t : FTerm) :
    t ∈ ts.foldl (fun l t => if t ∈ l then l else l ++ [t]) acc ↔ t ∈ acc ∨ t ∈ ts := by
  induction ts generalizing acc with
  | nil => simp
  | cons x ts ih =>
    rw [List.foldl_cons, ih]
    by_cases hx : x ∈ acc
    · rw [if_pos hx, List.mem_cons]
      constructor
      · rintro (h | h)
        · exact .inl h
        · exact .inr (.inr h)
      · rintro (h | rfl | h)
        · exact .inl h
        · exact .inl hx
        · exact .inr h
    · rw [if_neg hx, List.mem_append, List.mem_singleton, List.mem_cons, or_assoc]

theorem nodup_addAll (ts acc : List FTerm) (h : acc.Nodup) :
    (ts.foldl (fun l t => if t ∈ l then l else l ++ [t]) acc).Nodup := by
  induction ts generalizing acc with
  | nil => simpa
  | cons x ts ih =>
    rw [List.foldl_cons]
    apply ih
    by_cases hx : x ∈ acc
    · rw [if_pos hx]; exact h
    · rw [if_neg hx]
      refine List.Nodup.append h (List.nodup_singleton x) ?_
      intro a ha hb
      rw [List.mem_singleton] at hb
      exact hx (hb ▸ ha)

theorem mem_evalItems (items : List FItem) (acc : List FTerm) (t : FTerm) :
    t ∈ evalItems acc items ↔ (lastMention t items).getD (decide (t ∈ acc)) = true := by
  induction items generalizing acc with
  | nil => simp [evalItems, lastMention]
  | cons it rest ih =>
    rw [evalItems, ih]
    have hl : lastMention t (it :: rest) = (lastMention t rest).or (if t ∈ it.terms then some it.plus else none) := by
      unfold lastMention
      rw [List.reverse_cons, List.find?_append]
      cases h : List.find? (fun it => decide (t ∈ it.terms)) rest.reverse with
      | some b => simp
      | none =>
        by_cases ht : t ∈ it.terms <;> simp [List.find?_cons, ht]
    rw [hl]
    cases lastMention t rest with
    | some b => simp
    | none =>
      rw [Option.none_or, Option.getD_none, decide_eq_true_eq]
      by_cases hp : it.plus = true
      · rw [if_pos hp, mem_addAll]
        by_cases ht : t ∈ it.terms <;> simp [ht, hp]
      · rw [if_neg hp, List.mem_filter]
        have hp' : it.plus = false := by simpa using hp
        by_cases ht : t ∈ it.terms <;> simp [ht, hp']

theorem nodup_evalItems (items : List FItem) (acc : List FTerm) (h : acc.Nodup) : (evalItems acc items).Nodup := by
  induction items generalizing acc with
  | nil => exact h
  | cons it rest ih =>
    rw [evalItems]
    apply ih
    split
    · exact nodup_addAll _ _ h
    · exact h.filter _

theorem formulaFit_ok (f : FParsed) (fi yg : Bool) (r : FResponse) (cols : List FTerm) :
    formulaFit (.obj f) fi yg = .ok (r, cols) ↔ decide (FTerm.one ∈ f.rhs) = fi ∧ cols = f.rhs.filter (· ≠ .one) ∧
      ((f.lhs = none ∧ yg = true ∧ r = .argument) ∨ ∃ t, f.lhs = some [t] ∧ yg = false ∧ r = .term [t]) := by
  unfold formulaFit parseFormula
  simp only [bind, Except.bind, pure, Except.pure, throw, throwThe, MonadExceptOf.throw]
  rcases f with ⟨lhs, rhs⟩
  cases lhs with
  | none =>
    simp only
    by_cases h1 : decide (FTerm.one ∈ rhs) = fi
    · rw [if_neg (not_not.2 h1)]
      cases yg
      · simp
      · simp [h1, and_comm, eq_comm]
    · rw [if_pos h1]
      simp [h1]
  | some l =>
    simp only
    by_cases hl : l.length = 1
    · rw [if_neg (not_not.2 hl)]
      obtain ⟨t, rfl⟩ := List.length_eq_one_iff.1 hl
      simp only
      cases yg
      · rw [if_neg (by simp)]
        by_cases h1 : decide (FTerm.one ∈ rhs) = fi
        · rw [if_neg (not_not.2 h1)]
          simp [h1, and_comm, eq_comm]
        · rw [if_pos h1]
          simp [h1]
      · simp
    · rw [if_pos hl]
      simp only [reduceCtorEq, false_and, Option.some.injEq, false_or, false_iff]
      rintro ⟨-, -, t, rfl, -⟩
      simp at hl

theorem formulaFit_str (s : FSource) (fi yg : Bool) : formulaFit (.str s) fi yg = formulaFit (.obj (getTerms fi s)) fi yg := rfl

/-- **C65.** A string formula that fit accepts: there is no column for the intercept, no term occurs twice, and a term has columns exactly
if the last summand of the right-hand side that mentions it has a plus. -/
theorem c65_terms (s : FSource) (fi yg : Bool) (r : FResponse) (cols : List FTerm) (h : formulaFit (.str s) fi yg = .ok (r, cols)) :
    cols.Nodup ∧ FTerm.one ∉ cols ∧ ∀ name, .named name ∈ cols ↔ lastMention (.named name) s.rhs = some true := by
  rw [formulaFit_str, formulaFit_ok] at h
  obtain ⟨-, rfl, -⟩ := h
  refine ⟨(nodup_evalItems _ _ List.nodup_nil).filter _, by simp, fun name => ?_⟩
  rw [List.mem_filter]
  unfold getTerms
  simp only [ne_eq, reduceCtorEq, not_false_eq_true, decide_true, and_true]
  rw [mem_evalItems]
  cases fi with
  | false =>
    rw [if_neg (by simp)]
    cases lastMention (.named name) s.rhs <;> simp
  | true =>
    have : lastMention (.named name) (⟨true, [.one]⟩ :: s.rhs) = lastMention (.named name) s.rhs := by
      unfold lastMention
      rw [List.reverse_cons, List.find?_append]
      cases List.find? (fun it => decide (FTerm.named name ∈ it.terms)) s.rhs.reverse <;> simp
    rw [if_pos rfl, this]
    cases lastMention (.named name) s.rhs <;> simp

theorem one_mem_getTerms (s : FSource) (fi : Bool) :
    decide (FTerm.one ∈ (getTerms fi s).rhs) = (lastMention .one s.rhs).getD fi := by
  rw [Bool.eq_iff_iff, decide_eq_true_eq]
  unfold getTerms
  simp only
  rw [mem_evalItems]
  cases fi with
  | false => simp
  | true =>
    have : lastMention .one (⟨true, [.one]⟩ :: s.rhs) = (lastMention .one s.rhs).or (some true) := by
      unfold lastMention
      rw [List.reverse_cons, List.find?_append]
      cases List.find? (fun it => decide (FTerm.one ∈ it.terms)) s.rhs.reverse <;> simp
    rw [if_pos rfl, this]
    cases lastMention .one s.rhs <;> simp

theorem singleton_of_unique (l : List FTerm) (hd : l.Nodup) (t : FTerm) (h : ∀ u, u ∈ l ↔ u = t) : l = [t] :=
  match l, hd with
  | [], _ => by have := (h t).2 rfl; simp at this
  | [a], _ => by have := (h a).1 (by simp); rw [this]
  | a :: b :: l, hd => by
    have h1 := (h a).1 (by simp)
    have h2 := (h b).1 (by simp)
    rw [h1, h2] at hd
    simp at hd

theorem lhs_single (items : List FItem) (t : FTerm) :
    evalItems [] items = [t] ↔ ∀ u, lastMention u items = some true ↔ u = t := by
  have hm : ∀ u, u ∈ evalItems [] items ↔ lastMention u items = some true := by
    intro u
    rw [mem_evalItems]
    cases lastMention u items <;> simp
  constructor
  · intro h u
    rw [← hm u, h, List.mem_singleton]
  · intro h
    exact singleton_of_unique _ (nodup_evalItems _ _ List.nodup_nil) t fun u => by rw [hm u, h u]

/-- A string formula fit should accept: it has no left-hand side and `y` is given, or its left-hand side has exactly one term and `y` is not
given; and its right-hand side does not mention the intercept, or its last mention agrees with `fit_intercept`. -/
def Spec.FormulaAcceptable (s : FSource) (fi yg : Bool) : Prop :=
  ((s.lhs = none ∧ yg = true) ∨ (yg = false ∧ ∃ items, s.lhs = some items ∧ ∃ t, ∀ u, lastMention u items = some true ↔ u = t)) ∧
    (lastMention .one s.rhs = none ∨ lastMention .one s.rhs = some fi)

/-- **C65.** A string formula is accepted exactly if it does not contradict `fit_intercept`, it has no or exactly one term on the left, and
`y` is given exactly if there is none.  With `c65_terms`, the intercept is in the model once, exactly if `fit_intercept`. -/
theorem c65_accepts (s : FSource) (fi yg : Bool) : (∃ out, formulaFit (.str s) fi yg = .ok out) ↔ FormulaAcceptable s fi yg := by
  have hone : decide (FTerm.one ∈ (getTerms fi s).rhs) = fi ↔ lastMention .one s.rhs = none ∨ lastMention .one s.rhs = some fi := by
    rw [one_mem_getTerms]
    cases lastMention .one s.rhs <;> simp
  have hlhs : (getTerms fi s).lhs = s.lhs.map (evalItems []) := rfl
  unfold FormulaAcceptable
  constructor
  · rintro ⟨⟨r, cols⟩, h⟩
    rw [formulaFit_str, formulaFit_ok] at h
    obtain ⟨h1, -, h3⟩ := h
    refine ⟨?_, hone.1 h1⟩
    rw [hlhs] at h3
    rcases h3 with ⟨h3, h4, -⟩ | ⟨t, h3, h4, -⟩
    · exact .inl ⟨by simpa using h3, h4⟩
    · obtain ⟨items, e1, e2⟩ := Option.map_eq_some_iff.1 h3
      exact .inr ⟨h4, items, e1, t, (lhs_single items t).1 e2⟩
  · rintro ⟨h1, h2⟩
    rcases h1 with ⟨h1, hy⟩ | ⟨hy, items, h1, t, ht⟩
    · exact ⟨(.argument, _), by
        rw [formulaFit_str, formulaFit_ok]
        exact ⟨hone.2 h2, rfl, .inl ⟨by rw [hlhs, h1]; rfl, hy, rfl⟩⟩⟩
    · exact ⟨(.term [t], _), by
        rw [formulaFit_str, formulaFit_ok]
        exact ⟨hone.2 h2, rfl, .inr ⟨t, by rw [hlhs, h1, Option.map_some, (lhs_single items t).2 ht], hy, rfl⟩⟩⟩

/-- **C65.** The response of an accepted formula is its left-hand term, or the argument `y` if it has none. -/
theorem c65_response (s : FSource) (fi yg : Bool) (r : FResponse) (cols : List FTerm) (h : formulaFit (.str s) fi yg = .ok (r, cols)) :
    (s.lhs = none ∧ r = .argument) ∨ ∃ items t, s.lhs = some items ∧ r = .term [t] ∧ ∀ u, lastMention u items = some true ↔ u = t := by
  have hlhs : (getTerms fi s).lhs = s.lhs.map (evalItems []) := rfl
  rw [formulaFit_str, formulaFit_ok, hlhs] at h
  rcases h.2.2 with ⟨h3, -, h4⟩ | ⟨t, h3, -, h4⟩
  · exact .inl ⟨by simpa using h3, h4⟩
  · obtain ⟨items, e1, e2⟩ := Option.map_eq_some_iff.1 h3
    exact .inr ⟨items, t, e1, h4, (lhs_single items t).1 e2⟩

/-- **C65.** A `Formula` object is used as it is: it is accepted exactly if it contains the intercept iff `fit_intercept`, has no or one
left-hand term, and `y` is given iff there is none; its other terms get the columns.  Anything that is neither a string nor a `Formula`
raises a type error. -/
theorem c65_object (f : FParsed) (fi yg : Bool) :
    ((∃ out, formulaFit (.obj f) fi yg = .ok out) ↔
      ((.one ∈ f.rhs ↔ fi = true) ∧ ((f.lhs = none ∧ yg = true) ∨ (yg = false ∧ ∃ t, f.lhs = some [t])))) ∧
      (∀ r cols, formulaFit (.obj f) fi yg = .ok (r, cols) → ∀ t, t ∈ cols ↔ t ∈ f.rhs ∧ t ≠ .one) ∧
      formulaFit .other fi yg = .error .type := by
  have hone : decide (FTerm.one ∈ f.rhs) = fi ↔ (FTerm.one ∈ f.rhs ↔ fi = true) := by
    rw [Bool.eq_iff_iff, decide_eq_true_eq]
  refine ⟨?_, ?_, rfl⟩
  · constructor
    · rintro ⟨⟨r, cols⟩, h⟩
      rw [formulaFit_ok] at h
      obtain ⟨h1, -, h3⟩ := h
      refine ⟨hone.1 h1, ?_⟩
      rcases h3 with ⟨h3, h4, -⟩ | ⟨t, h3, h4, -⟩
      · exact .inl ⟨h3, h4⟩
      · exact .inr ⟨h4, t, h3⟩
    · rintro ⟨h1, ⟨h3, h4⟩ | ⟨h4, t, h3⟩⟩
      · exact ⟨(.argument, _), (formulaFit_ok _ _ _ _ _).2 ⟨hone.2 h1, rfl, .inl ⟨h3, h4, rfl⟩⟩⟩
      · exact ⟨(.term [t], _), (formulaFit_ok _ _ _ _ _).2 ⟨hone.2 h1, rfl, .inr ⟨t, h3, h4, rfl⟩⟩⟩
  · intro r cols h t
    rw [formulaFit_ok] at h
    rw [h.2.1, List.mem_filter]
    simp

/-- `y ~ a * b - a - 1` with `fit_intercept=False`. -/
example : formulaFit (.str { lhs := some [⟨true, [.named "y"]⟩]
                             rhs := [⟨true, [.named "a", .named "b", .named "a:b"]⟩, ⟨false, [.named "a"]⟩, ⟨false, [.one]⟩] }) false false
    = .ok (.term [.named "y"], [.named "b", .named "a:b"]) := by rfl

/-- The same with `fit_intercept=True` raises. -/
example : formulaFit (.str { lhs := some [⟨true, [.named "y"]⟩]
                             rhs := [⟨true, [.named "a", .named "b", .named "a:b"]⟩, ⟨false, [.named "a"]⟩, ⟨false, [.one]⟩] }) true false
    = .error .interceptMismatch := by rfl

end Glum
