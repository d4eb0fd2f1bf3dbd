import Verif.Props.Formula
import Mathlib.Data.List.TakeWhile
/-
Theorems added after mutation testing of `_formula.py`: the order of the levels and the factor names (C58).
-/
set_option linter.unusedSectionVars false
set_option linter.unusedVariables false
set_option linter.unusedSimpArgs false

namespace Glum

/-- **C58, the order of numeric levels.** Coefficients that satisfy the constraints of an increasing (decreasing) variable increase
(decrease) with the numeric value of the level, whatever the levels look like as strings ("10" comes after "9"). -/
theorem c58_numeric_levels {n : ℕ} {isSpace : Char → Bool} (hbr : isSpace ']' = false) {toFloat : Str → Option EReal} {s0 : Char}
    {sep' : Str} {fss : Fin n → List Factor} (hne : ∀ i, fss i ≠ []) (hok : ∀ i, ∀ f ∈ fss i, Spec.FactorOk isSpace s0 f)
    {monotonic : List (Str × String)} {rows : List (Fin n → ℝ)}
    (h : buildMonotonic isSpace toFloat (s0 :: sep') (fun i => Spec.renderColumn (s0 :: sep') (fss i)) monotonic = some rows) (w : Fin n → ℝ)
    (hw : ∀ r ∈ rows, ∑ k, r k * w k ≤ 0) (f : Str) (others : List Factor) (i j : Fin n) (a b : Str) (x y : EReal)
    (hi : Spec.Member f (fss i) others (some a)) (hj : Spec.Member f (fss j) others (some b)) (ha : toFloat a = some x)
    (hb : toFloat b = some y) (hxy : x < y) :
    ((f, "increasing") ∈ monotonic → w i ≤ w j) ∧ ((f, "decreasing") ∈ monotonic → w j ≤ w i) := by
  have hlt : sortKey toFloat (some a) < sortKey toFloat (some b) := by
    simp only [sortKey, ha, hb]
    exact Prod.Lex.lt_iff.2 (Or.inl hxy)
  have key := (c58_rows hbr hne hok h w).1 hw
  constructor
  · intro hm
    have := (key _ hm others).1 i j _ _ hi hj (Or.inl hlt)
    simpa [Spec.along] using this
  · intro hm
    have := (key _ hm others).1 i j _ _ hi hj (Or.inl hlt)
    simpa [Spec.along] using this

/-- **C58, the order of the other levels.** Levels that are not numbers come after finite numbers, and among each other in the order of
their strings. -/
theorem c58_text_levels {n : ℕ} {isSpace : Char → Bool} (hbr : isSpace ']' = false) {toFloat : Str → Option EReal} {s0 : Char}
    {sep' : Str} {fss : Fin n → List Factor} (hne : ∀ i, fss i ≠ []) (hok : ∀ i, ∀ f ∈ fss i, Spec.FactorOk isSpace s0 f)
    {monotonic : List (Str × String)} {rows : List (Fin n → ℝ)}
    (h : buildMonotonic isSpace toFloat (s0 :: sep') (fun i => Spec.renderColumn (s0 :: sep') (fss i)) monotonic = some rows) (w : Fin n → ℝ)
    (hw : ∀ r ∈ rows, ∑ k, r k * w k ≤ 0) (f : Str) (others : List Factor) (i j : Fin n) (a b : Str)
    (hi : Spec.Member f (fss i) others (some a)) (hj : Spec.Member f (fss j) others (some b))
    (hb : toFloat b = none) (hab : (∃ x, toFloat a = some x ∧ x < ⊤) ∨ (toFloat a = none ∧ a < b)) :
    ((f, "increasing") ∈ monotonic → w i ≤ w j) ∧ ((f, "decreasing") ∈ monotonic → w j ≤ w i) := by
  have hlt : sortKey toFloat (some a) < sortKey toFloat (some b) := by
    rcases hab with ⟨x, ha, hx⟩ | ⟨ha, hlt⟩
    · simp only [sortKey, ha, hb]
      exact Prod.Lex.lt_iff.2 (Or.inl hx)
    · simp only [sortKey, ha, hb]
      exact Prod.Lex.lt_iff.2 (Or.inr ⟨rfl, hlt⟩)
  have key := (c58_rows hbr hne hok h w).1 hw
  constructor
  · intro hm
    have := (key _ hm others).1 i j _ _ hi hj (Or.inl hlt)
    simpa [Spec.along] using this
  · intro hm
    have := (key _ hm others).1 i j _ _ hi hj (Or.inl hlt)
    simpa [Spec.along] using this

/-- Levels "9" and "10" of a factor `c`: a concrete case of the hypotheses. -/
example (toFloat : Str → Option EReal) (h9 : toFloat ['9'] = some 9) (h10 : toFloat ['1', '0'] = some 10) :
    ∃ rows, buildMonotonic (· == ' ') toFloat [':']
        (fun i => Spec.renderColumn [':'] ((![[(['c'], some ['1', '0'])], [(['c'], some ['9'])]] : Fin 2 → List Factor) i))
        [(['c'], "increasing")] = some rows ∧
      ∀ w : Fin 2 → ℝ, (∀ r ∈ rows, ∑ k, r k * w k ≤ 0) → w 1 ≤ w 0 := by
  set fss : Fin 2 → List Factor := ![[(['c'], some ['1', '0'])], [(['c'], some ['9'])]] with hfss
  have hne : ∀ i, fss i ≠ [] := by intro i; fin_cases i <;> simp [fss]
  have hok : ∀ i, ∀ f ∈ fss i, Spec.FactorOk (· == ' ') ':' f := by
    intro i f hf
    apply factorCheck_ok
    fin_cases i <;> simp only [fss, Fin.mk_zero, Fin.mk_one, Fin.reduceFinMk, Matrix.cons_val, List.mem_singleton] at hf <;>
      · subst hf; decide +kernel
  have hb := (c58_raises (toFloat := toFloat) (sep' := []) (by decide) hne hok [(['c'], "increasing")]).2
    ⟨by simp, by
      intro fd hfd
      simp only [List.mem_singleton] at hfd
      subst hfd
      refine ⟨Or.inl rfl, ⟨0, _, List.mem_singleton.2 rfl, rfl⟩, ?_⟩
      intro i; fin_cases i <;> simp [fss]⟩
  obtain ⟨rows, hr⟩ := Option.ne_none_iff_exists'.1 hb
  refine ⟨rows, hr, fun w hw => ?_⟩
  refine (c58_numeric_levels (sep' := []) (by decide) hne hok hr w hw ['c'] [] 1 0 ['9'] ['1', '0'] 9 10 ?_ ?_ h9 h10 ?_).1 (by simp)
  · simp [Spec.Member, fss]
  · simp [Spec.Member, fss]
  · exact_mod_cast (by norm_num : (9 : ℝ) < 10)

/-- **C58, the base name of a factor.** formulaic appends `-` or `+` for reduced and full rank; the base name is what is left without
all such characters at the end. -/
theorem c58_base_name (s : Str) :
    (∃ t : Str, s = rstripSign s ++ t ∧ ∀ c ∈ t, c = '-' ∨ c = '+') ∧ ∀ c, (rstripSign s).getLast? = some c → c ≠ '-' ∧ c ≠ '+' := by
  unfold rstripSign
  set q : Char → Bool := fun c => c == '-' || c == '+' with hq
  constructor
  · refine ⟨(s.reverse.takeWhile q).reverse, ?_, ?_⟩
    · rw [← List.reverse_append, List.takeWhile_append_dropWhile, List.reverse_reverse]
    · intro c hc
      have := List.mem_takeWhile_imp (List.mem_reverse.1 hc)
      simpa [hq] using this
  · intro c hc
    rw [List.getLast?_reverse] at hc
    have := List.head?_dropWhile_not q s.reverse
    rw [hc] at this
    simpa [hq] using this

/-- **C58, transforms that are rejected.** A constraint on a variable that occurs in a factor written `poly(…` or `cc(…` raises. -/
theorem c58_transform_rejected (struc : List (Str × List Str)) (cons : List (Str × String)) (v : Str) (d : String) (t : Str) (x : Str × List Str)
    (hx : x ∈ struc) (hv : v ∈ x.2) (hd : (v, d) ∈ cons) (hname : x.1 = "poly(".toList ++ t ∨ x.1 = "cc(".toList ++ t) :
    resolveMonotonic struc cons = none := by
  by_contra hne
  have := ((c58_resolve struc cons).1.1 hne (v, d) hd).2 x hx hv
  have key : ∀ (pre : Str) (c : Char), c ≠ '-' → c ≠ '+' → x.1 = (pre ++ [c]) ++ t → ∃ t', rstripSign x.1 = (pre ++ [c]) ++ t' := by
    intro pre c h1 h2 he
    unfold rstripSign
    rw [he]
    simp only [List.reverse_append, List.reverse_cons, List.reverse_nil, List.nil_append, List.singleton_append]
    rw [List.dropWhile_append]
    split
    · refine ⟨[], ?_⟩
      rw [List.dropWhile_cons_of_neg (by simp [h1, h2])]
      simp
    · refine ⟨((t.reverse.dropWhile fun c => c == '-' || c == '+')).reverse, ?_⟩
      simp
  rcases hname with h | h
  · obtain ⟨t', ht⟩ := key "poly".toList '(' (by decide) (by decide) h
    rw [ht] at this
    simp [incompatible] at this
  · obtain ⟨t', ht⟩ := key "cc".toList '(' (by decide) (by decide) h
    rw [ht] at this
    simp [incompatible] at this

/-- A case: `x` in `poly(x, 2)-`. -/
example : resolveMonotonic [("poly(x, 2)-".toList, ["x".toList])] [("x".toList, "increasing")] = none :=
  c58_transform_rejected _ _ "x".toList "increasing" "x, 2)-".toList _ (List.mem_singleton.2 rfl) (by simp) (by simp) (Or.inl rfl)

/-- **C58, nothing else is rejected.** A constraint on a variable that occurs only in factors whose base name does not start that way is
accepted. -/
theorem c58_transform_accepted (struc : List (Str × List Str)) (cons : List (Str × String))
    (h : ∀ vd ∈ cons, (∃ x ∈ struc, vd.1 ∈ x.2) ∧ ∀ x ∈ struc, vd.1 ∈ x.2 → ¬ ("poly(".toList <+: x.1) ∧ ¬ ("cc(".toList <+: x.1)) :
    resolveMonotonic struc cons ≠ none := by
  refine (c58_resolve struc cons).1.2 fun vd hvd => ⟨(h vd hvd).1, fun x hx hv => ?_⟩
  obtain ⟨t, ht, -⟩ := (c58_base_name x.1).1
  obtain ⟨h1, h2⟩ := (h vd hvd).2 x hx hv
  unfold incompatible
  have aux : ∀ pre : Str, ¬ pre <+: x.1 → pre.isPrefixOf (rstripSign x.1) = false := by
    intro pre hp
    rw [Bool.eq_false_iff]
    intro hc
    exact hp (by rw [ht]; exact (List.isPrefixOf_iff_prefix.1 hc).trans (List.prefix_append _ _))
  rw [aux _ h1, aux _ h2]; rfl

end Glum
