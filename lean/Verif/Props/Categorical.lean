import Verif.Model.Categorical
import Mathlib.Tactic.NormNum
import Mathlib.Data.List.Nodup
/-
C56 (penalties of categorical columns), C57 (alignment of categories at prediction time).
-/
set_option linter.unusedSectionVars false
set_option linter.unusedVariables false
set_option linter.unusedSimpArgs false
namespace Glum

/-! ### Specification: columns by value, not by code -/

/-- The 0/1 column of a level. -/
def Spec.levelColumn (vals : List (Option String)) (l : String) : List ℝ := vals.map fun v => if v = some l then 1 else 0

/-- The 0/1 column of missing values. -/
def Spec.nullColumn (vals : List (Option String)) : List ℝ := vals.map fun v => if v = none then 1 else 0

/-- The columns of a categorical feature: one per training level in the training order, then the one of missing values if the training
data had one, without the first if `drop_first`. -/
def Spec.featureColumns (dropFirst : Bool) (levels : List String) (hasMissing : Bool) (vals : List (Option String)) : List (List ℝ) :=
  (levels.map (Spec.levelColumn vals) ++ if hasMissing then [Spec.nullColumn vals] else []).drop dropFirst.toNat

/-- The codes of a categorical are positions of categories. -/
def Col.ok : Col → Prop
  | .cat _ cats codes => cats.Nodup ∧ ∀ k, some k ∈ codes → k < cats.length
  | _ => True

/-! ### Lemmas -/

/-- The code of a value in a list of levels. -/
def codeIn (levels : List String) (v : Option String) : Option ℕ := v.bind fun s => if s ∈ levels then some (levels.idxOf s) else none

theorem codeIn_eq_some {levels : List String} (hn : levels.Nodup) {v : Option String} {k : ℕ} (hk : k < levels.length) :
    codeIn levels v = some k ↔ v = some levels[k] := by
  unfold codeIn
  cases v with
  | none => simp
  | some s =>
    simp only [Option.bind_some, Option.some.injEq]
    constructor
    · intro h
      split at h
      · rename_i hs
        simp only [Option.some.injEq] at h
        subst h
        exact (List.getElem_idxOf (List.idxOf_lt_length_of_mem hs)).symm
      · exact absurd h (by simp)
    · rintro rfl
      rw [if_pos (List.getElem_mem hk)]
      simp [hn.idxOf_getElem]

theorem codeIn_eq_none {levels : List String} {v : Option String} : codeIn levels v = none ↔ ∀ s, v = some s → s ∉ levels := by
  unfold codeIn
  cases v with
  | none => simp
  | some s => simp

theorem codeIn_lt {levels : List String} {v : Option String} {k : ℕ} (h : codeIn levels v = some k) : k < levels.length := by
  unfold codeIn at h
  cases v with
  | none => exact absurd h (by simp)
  | some s =>
    simp only [Option.bind_some] at h
    split at h
    · rename_i hs
      simp only [Option.some.injEq] at h
      subst h
      exact List.idxOf_lt_length_of_mem hs
    · exact absurd h (by simp)

/-- Columns by code are columns by value. -/
theorem indicatorCols_codeIn (d : Bool) {levels : List String} (hn : levels.Nodup) (vals : List (Option String)) :
    indicatorCols d levels (vals.map (codeIn levels)) = (levels.map (Spec.levelColumn vals)).drop d.toNat := by
  unfold indicatorCols
  have e : (List.range levels.length).map (fun k => (vals.map (codeIn levels)).map fun c => if c = some k then (1 : ℝ) else 0)
      = levels.map (Spec.levelColumn vals) := by
    apply List.ext_getElem
    · simp
    · intro k h1 h2
      have hk : k < levels.length := by simpa using h1
      simp only [List.getElem_map, List.getElem_range, List.map_map, Spec.levelColumn]
      apply List.map_congr_left
      intro v _
      simp only [Function.comp_apply, codeIn_eq_some hn hk]
  rw [← e, List.map_drop]

/-- The same with the category of missing values appended. -/
theorem indicatorCols_missing (d : Bool) {levels : List String} (hn : levels.Nodup) (missing : String) (vals : List (Option String))
    (hv : ∀ s, some s ∈ vals → s ∈ levels) :
    indicatorCols d (levels ++ [missing]) ((vals.map (codeIn levels)).map fun c => some (c.getD levels.length))
      = (levels.map (Spec.levelColumn vals) ++ [Spec.nullColumn vals]).drop d.toNat := by
  unfold indicatorCols
  have e : (List.range (levels ++ [missing]).length).map (fun k => ((vals.map (codeIn levels)).map fun c => some (c.getD levels.length)).map
      fun c => if c = some k then (1 : ℝ) else 0) = levels.map (Spec.levelColumn vals) ++ [Spec.nullColumn vals] := by
    rw [List.length_append, List.length_singleton, List.range_succ, List.map_append]
    congr 1
    · apply List.ext_getElem
      · simp
      · intro k h1 h2
        have hk : k < levels.length := by simpa using h1
        simp only [List.getElem_map, List.getElem_range, List.map_map, Spec.levelColumn]
        apply List.map_congr_left
        intro v _
        simp only [Function.comp_apply, Option.some.injEq]
        have : (codeIn levels v).getD levels.length = k ↔ v = some levels[k] := by
          rw [← codeIn_eq_some hn hk]
          cases h : codeIn levels v with
          | none => simp; omega
          | some j => simp
        simp only [this]
    · simp only [List.map_cons, List.map_nil, List.map_map, Spec.nullColumn, List.cons.injEq, and_true]
      apply List.map_congr_left
      intro v hvm
      simp only [Function.comp_apply, Option.some.injEq]
      have : (codeIn levels v).getD levels.length = levels.length ↔ v = none := by
        cases h : codeIn levels v with
        | none =>
          simp only [Option.getD_none, true_iff]
          cases v with
          | none => rfl
          | some s => exact absurd (hv s hvm) (codeIn_eq_none.1 h s rfl)
        | some j =>
          have := codeIn_lt h
          simp only [Option.getD_some]
          constructor
          · intro hj; omega
          · rintro rfl; simp [codeIn] at h
      simp only [this]
  rw [← e, List.map_drop]

theorem codes_eq_codeIn {cats : List String} {codes : List (Option ℕ)} (hn : cats.Nodup) (hc : ∀ k, some k ∈ codes → k < cats.length) :
    codes = (codes.map fun c => c.bind fun k => cats[k]?).map (codeIn cats) := by
  rw [List.map_map]
  conv_lhs => rw [← List.map_id codes]
  apply List.map_congr_left
  intro c hcm
  cases c with
  | none => rfl
  | some k =>
    have hk := hc k hcm
    simp only [id, Function.comp_apply, Option.bind_some, List.getElem?_eq_getElem hk]
    exact ((codeIn_eq_some hn hk).2 rfl).symm

theorem none_mem_codeIn {levels : List String} {vals : List (Option String)} (hv : ∀ s, some s ∈ vals → s ∈ levels) :
    none ∈ vals.map (codeIn levels) ↔ none ∈ vals := by
  rw [List.mem_map]
  constructor
  · rintro ⟨v, hm, h⟩
    cases v with
    | none => exact hm
    | some s => exact absurd (hv s hm) (codeIn_eq_none.1 h s rfl)
  · intro h; exact ⟨none, h, rfl⟩

/-- The result of the alignment. -/
theorem alignCol_eq (m : MissingMethod) (L : LevelInfo) (c : Col) (hc : c.ok) (hL : L.levels.Nodup) (hnum : ∀ v, c ≠ .num v) :
    alignCol m L c = none ∨ alignCol m L c = some (.cat true L.levels (c.values.map (codeIn L.levels))) ∧
      (∀ s, some s ∈ c.values → s ∈ L.levels) := by
  have hcheck : ∀ c : Col, alignCol.check m L c = none ∨ alignCol.check m L c = some (.cat true L.levels (c.values.map (codeIn L.levels))) ∧
      (∀ s, some s ∈ c.values → s ∈ L.levels) := by
    intro c
    unfold alignCol.check
    simp only []
    by_cases hm : m = .convert ∧ L.hasMissing = false
    · rw [if_pos hm]
      split
      · rename_i h
        right
        refine ⟨rfl, fun s hs => ?_⟩
        by_contra hne
        rw [List.filter_eq_nil_iff] at h
        exact h _ hs (by simpa using hne)
      · exact Or.inl rfl
    · rw [if_neg hm]
      split
      · rename_i h
        right
        refine ⟨rfl, fun s hs => ?_⟩
        by_contra hne
        rw [List.filter_eq_nil_iff] at h
        exact h _ hs (by simpa using hne)
      · exact Or.inl rfl
  cases c with
  | num v => exact absurd rfl (hnum v)
  | str v => exact hcheck _
  | cat e cats codes =>
    cases e with
    | false => exact hcheck _
    | true =>
      unfold alignCol
      simp only []
      split
      · rename_i h
        subst h
        right
        refine ⟨?_, ?_⟩
        · show some (Col.cat true L.levels codes)
            = some (.cat true L.levels ((codes.map fun c => c.bind fun k => L.levels[k]?).map (codeIn L.levels)))
          rw [← codes_eq_codeIn hc.1 hc.2]
        · intro s hs
          simp only [Col.values, List.mem_map] at hs
          obtain ⟨c, hcm, h⟩ := hs
          cases c with
          | none => exact absurd h (by simp)
          | some k =>
            simp only [Option.bind_some] at h
            exact List.mem_of_getElem? h
      · exact hcheck _

/-- When the alignment raises. -/
theorem alignCol_none (m : MissingMethod) (L : LevelInfo) (c : Col) (hc : c.ok) (hnum : ∀ v, c ≠ .num v) (h : alignCol m L c = none) :
    (∃ s, some s ∈ c.values ∧ s ∉ L.levels) ∨ (m = .convert ∧ L.hasMissing = false ∧ none ∈ c.values) := by
  have hcheck : ∀ c : Col, alignCol.check m L c = none →
      (∃ s, some s ∈ c.values ∧ s ∉ L.levels) ∨ (m = .convert ∧ L.hasMissing = false ∧ none ∈ c.values) := by
    intro c h
    unfold alignCol.check at h
    simp only [] at h
    by_cases hm : m = .convert ∧ L.hasMissing = false
    · rw [if_pos hm] at h
      rw [ite_eq_right_iff] at h
      by_cases hne : (c.values.filter fun v => ! (v.any fun s => L.levels.contains s)) = []
      · exact absurd (h hne) (by simp)
      · obtain ⟨v, hv⟩ := List.exists_mem_of_ne_nil _ hne
        rw [List.mem_filter] at hv
        cases v with
        | none => exact Or.inr ⟨hm.1, hm.2, hv.1⟩
        | some s => exact Or.inl ⟨s, hv.1, by simpa using hv.2⟩
    · rw [if_neg hm] at h
      rw [ite_eq_right_iff] at h
      by_cases hne : (c.values.filter fun v => v.any fun s => ! L.levels.contains s) = []
      · exact absurd (h hne) (by simp)
      · obtain ⟨v, hv⟩ := List.exists_mem_of_ne_nil _ hne
        rw [List.mem_filter] at hv
        cases v with
        | none => exact absurd hv.2 (by simp)
        | some s => exact Or.inl ⟨s, hv.1, by simpa using hv.2⟩
  cases c with
  | num v => exact absurd rfl (hnum v)
  | str v => exact hcheck _ h
  | cat e cats codes =>
    cases e with
    | false => exact hcheck _ h
    | true =>
      unfold alignCol at h
      simp only [] at h
      split at h
      · exact absurd h (by simp)
      · exact hcheck _ h

/-! ### C57 -/

/-- **C57, one column (partial: no clash of names).** For a column that was categorical in the training data, whatever its type, category list
and category order in the prediction data: if every value is a training level, and nulls are allowed (`cat_missing_method` is `zero`, or
`convert` with nulls in the training data), the design columns are the indicators of the training levels in the training order; otherwise
an exception is raised.  Missing: the test whether the training data had nulls is made with the formatted name (see the counterexample). -/
theorem c57_column_partial (C : CatConfig) (F : FrameFit) (name : String) (c : Col) (hc : c.ok) (hnum : ∀ v, c ≠ .num v) (L : LevelInfo)
    (hL : F.levels.lookup name = some L) (hn : L.levels.Nodup) (hmiss : L.hasMissing = true → C.method = .convert ∧ C.missing ∉ L.levels)
    (hname : C.method = .convert → (C.fmt name C.missing ∈ F.featureNames ↔ L.hasMissing = true)) :
    convertCol C F (name, c) = open Classical in
      if (∀ s, some s ∈ c.values → s ∈ L.levels) ∧ (none ∈ c.values → C.method = .zero ∨ L.hasMissing = true) then
        some (Spec.featureColumns C.dropFirst L.levels L.hasMissing c.values)
      else none := by
  unfold convertCol
  simp only [hL]
  rcases alignCol_eq C.method L c hc hn hnum with hal | ⟨hal, hv⟩
  · rw [hal]
    have hr : ¬ ((∀ s, some s ∈ c.values → s ∈ L.levels) ∧ (none ∈ c.values → C.method = .zero ∨ L.hasMissing = true)) := by
      rintro ⟨h1, h2⟩
      rcases alignCol_none C.method L c hc hnum hal with ⟨s, hs, hs'⟩ | ⟨h3, h4, h5⟩
      · exact hs' (h1 s hs)
      · rcases h2 h5 with h | h
        · rw [h3] at h; exact absurd h (by simp)
        · rw [h4] at h; exact absurd h (by simp)
    rw [if_neg hr]; rfl
  · rw [hal]
    simp only [Option.bind_eq_bind, Option.bind_some]
    have hnone := none_mem_codeIn hv
    by_cases hm : C.method = .convert
    · rw [if_pos hm]
      by_cases hh : L.hasMissing = true
      · have hin : F.featureNames.contains (C.fmt name C.missing) = true := by
          rw [List.contains_iff_mem]; exact (hname hm).2 hh
        simp only [addMissingCol, hin, if_true, if_neg (hmiss hh).2, Option.bind_some]
        rw [if_pos ⟨hv, fun _ => Or.inr hh⟩]
        unfold fromDfCol
        simp only []
        rw [if_neg (by simp)]
        rw [indicatorCols_missing _ hn _ _ hv]
        simp [Spec.featureColumns, hh]
      · have hin : F.featureNames.contains (C.fmt name C.missing) = false := by
          rw [Bool.eq_false_iff]
          intro h
          rw [List.contains_iff_mem] at h
          exact hh ((hname hm).1 h)
        simp only [addMissingCol, hin, Bool.false_eq_true, if_false, Option.bind_some]
        unfold fromDfCol
        simp only []
        by_cases hnn : none ∈ c.values
        · rw [if_pos (hnone.2 hnn), if_neg]
          rintro ⟨_, h2⟩
          rcases h2 hnn with h | h
          · rw [hm] at h; exact absurd h (by simp)
          · exact hh h
        · rw [if_neg (fun h => hnn (hnone.1 h)), if_pos ⟨hv, fun h => absurd h hnn⟩, indicatorCols_codeIn _ hn]
          simp [Spec.featureColumns, hh]
    · rw [if_neg hm]
      have hh : ¬ L.hasMissing = true := fun h => hm (hmiss h).1
      unfold fromDfCol
      simp only []
      by_cases hnn : none ∈ c.values
      · rw [if_pos (hnone.2 hnn)]
        cases hme : C.method with
        | fail =>
          simp only []
          rw [if_neg]
          rintro ⟨_, h2⟩
          rcases h2 hnn with h | h
          · exact absurd h (by simp)
          · exact hh h
        | zero =>
          simp only []
          rw [if_pos ⟨hv, fun _ => Or.inl rfl⟩, indicatorCols_codeIn _ hn]
          simp [Spec.featureColumns, hh]
        | convert => exact absurd hme hm
      · rw [if_neg (fun h => hnn (hnone.1 h)), if_pos ⟨hv, fun h => absurd h hnn⟩, indicatorCols_codeIn _ hn]
        simp [Spec.featureColumns, hh]


/-! ### Frames -/

/-- The design columns for a column of new data, given the training column with the same name; `none`: an exception. -/
noncomputable def Spec.columnsFor (dropFirst : Bool) (m : MissingMethod) (train new : Col) : Option (List (List ℝ)) :=
  open Classical in
  match train, new with
  | .cat _ cats codes, new =>
    if (∀ s, some s ∈ new.values → s ∈ cats) ∧ (none ∈ new.values → m = .zero ∨ m = .convert ∧ none ∈ codes) then
      some (Spec.featureColumns dropFirst cats (decide (m = .convert ∧ none ∈ codes)) new.values)
    else none
  | _, .num v => some [v]
  | _, _ => some []

/-- The column is a categorical. -/
def Col.isCat : Col → Prop
  | .cat _ _ _ => True
  | _ => False

/-- Training and new column are compatible: a categorical is matched by a categorical or by strings, numbers by numbers, strings by strings. -/
def Col.sameKind : Col → Col → Prop
  | .cat _ _ _, .num _ => False
  | .cat _ _ _, _ => True
  | .num _, .num _ => True
  | .str _, .str _ => True
  | _, _ => False

/-- The conditions on names under which a formatted name identifies the category of missing values. -/
structure NamesOk (C : CatConfig) (df : DFrame) : Prop where
  nodup : (df.map Prod.fst).Nodup
  inj : ∀ n a b, C.fmt n a = C.fmt n b → a = b
  other : ∀ nc ∈ df, ∀ nc' ∈ df, nc.1 ≠ nc'.1 → C.fmt nc.1 C.missing ∉ colNames C nc'.1 nc'.2
  reserved : ∀ n e cats codes, (n, Col.cat e cats codes) ∈ df → C.missing ∉ cats ∧ cats ≠ []

theorem lookup_levels (m : MissingMethod) : ∀ (df : DFrame), (df.map Prod.fst).Nodup → ∀ nc ∈ df,
    (df.filterMap fun nc => (recordLevels m nc.2).map fun L => (nc.1, L)).lookup nc.1 = recordLevels m nc.2
  | [], _, nc, h => absurd h (by simp)
  | x :: xs, hn, nc, h => by
    rw [List.map_cons, List.nodup_cons] at hn
    have hskip : ∀ ys : DFrame, (∀ y ∈ ys, y.1 ≠ nc.1) →
        (ys.filterMap fun nc => (recordLevels m nc.2).map fun L => (nc.1, L)).lookup nc.1 = none := by
      intro ys hys
      rw [List.lookup_eq_none_iff]
      intro p hp
      rw [List.mem_filterMap] at hp
      obtain ⟨y, hy, hy'⟩ := hp
      rw [Option.map_eq_some_iff] at hy'
      obtain ⟨L, _, rfl⟩ := hy'
      simpa using (hys y hy).symm
    rcases List.mem_cons.1 h with rfl | h'
    · rw [List.filterMap_cons]
      cases hr : recordLevels m nc.2 with
      | none =>
        simp only [Option.map_none]
        exact hskip _ fun y hy he => hn.1 (he ▸ List.mem_map_of_mem hy)
      | some L => simp
    · have hne : x.1 ≠ nc.1 := fun he => hn.1 (he ▸ List.mem_map_of_mem h')
      rw [List.filterMap_cons]
      cases hr : recordLevels m x.2 with
      | none =>
        simp only [Option.map_none]
        exact lookup_levels m xs hn.2 nc h'
      | some L =>
        simp only [Option.map_some]
        rw [List.lookup_cons, show (nc.1 == x.1) = false by simpa using hne.symm]
        exact lookup_levels m xs hn.2 nc h'

/-- The parts of a successful fit. -/
theorem fitFrame_some {C : CatConfig} {df : DFrame} {F : FrameFit} (h : fitFrame C df = some F) :
    (df.mapM fun nc => fromDfCol C.dropFirst C.method C.missing nc.2).map List.flatten = some F.design ∧
      F.levels = (df.filterMap fun nc => (recordLevels C.method nc.2).map fun L => (nc.1, L)) ∧
      F.featureNames = df.flatMap fun nc => colNames C nc.1 nc.2 := by
  unfold fitFrame at h
  rw [Option.bind_eq_bind, Option.bind_eq_some_iff] at h
  obtain ⟨cols, hc, h⟩ := h
  rw [Option.some.injEq] at h
  subst h
  exact ⟨by rw [hc]; rfl, rfl, rfl⟩

/-- The test by name is right under the conditions on names. -/
theorem name_test {C : CatConfig} {df : DFrame} {F : FrameFit} (h : fitFrame C df = some F) (hN : NamesOk C df) {n : String} {e : Bool}
    {cats : List String} {codes : List (Option ℕ)} (hm : (n, Col.cat e cats codes) ∈ df) (hc : C.method = .convert) :
    C.fmt n C.missing ∈ F.featureNames ↔ none ∈ codes := by
  obtain ⟨-, -, hf⟩ := fitFrame_some h
  rw [hf, List.mem_flatMap]
  obtain ⟨hr, hne⟩ := hN.reserved n e cats codes hm
  constructor
  · rintro ⟨nc, hnc, hin⟩
    have he : n = nc.1 := by
      by_contra hne
      exact hN.other _ hm _ hnc hne hin
    have : nc = (n, Col.cat e cats codes) := by
      have := List.inj_on_of_nodup_map hN.nodup hnc hm (by exact he.symm)
      exact this
    subst this
    simp only [colNames, hc, true_and, List.mem_map] at hin
    obtain ⟨a, ha, hfa⟩ := hin
    have := hN.inj _ _ _ hfa
    subst this
    by_contra hnn
    rw [if_neg hnn] at ha
    exact hr (List.mem_of_mem_drop ha)
  · intro hnn
    refine ⟨_, hm, ?_⟩
    simp only [colNames, hc, true_and, if_pos hnn, List.mem_map]
    refine ⟨C.missing, ?_, rfl⟩
    obtain ⟨c, cs, rfl⟩ := List.exists_cons_of_ne_nil hne
    cases C.dropFirst <;> simp

/-- One column of a new frame, given the fit. -/
theorem convertCol_spec {C : CatConfig} {df : DFrame} {F : FrameFit} (h : fitFrame C df = some F) (hN : NamesOk C df)
    (hok : ∀ nc ∈ df, nc.2.ok) {n : String} {train new : Col} (hm : (n, train) ∈ df) (hnew : new.ok) (hk : train.sameKind new) :
    convertCol C F (n, new) = Spec.columnsFor C.dropFirst C.method train new := by
  obtain ⟨-, hl, hf⟩ := fitFrame_some h
  have hlook := lookup_levels C.method df hN.nodup _ hm
  rw [← hl] at hlook
  cases train with
  | num v =>
    cases new with
    | num w => simp only [convertCol, hlook, recordLevels, fromDfCol, Spec.columnsFor]
    | cat e a b => exact hk.elim
    | str w => exact hk.elim
  | str v =>
    cases new with
    | num w => exact hk.elim
    | cat e a b => exact hk.elim
    | str w => simp only [convertCol, hlook, recordLevels, fromDfCol, Spec.columnsFor]
  | cat e cats codes =>
    have hnum : ∀ v, new ≠ .num v := by
      rintro v rfl; exact hk.elim
    have hc := hok _ hm
    have hr := hN.reserved n e cats codes hm
    have hdec : (decide (C.method = .convert) && codes.contains none) = decide (C.method = .convert ∧ none ∈ codes) := by
      rw [Bool.decide_and]; simp [List.contains_iff_mem]
    rw [c57_column_partial C F n new hnew hnum ⟨cats, decide (C.method = .convert) && codes.contains none⟩ hlook hc.1]
    · rw [hdec]
      unfold Spec.columnsFor
      simp only [decide_eq_true_eq]
      congr
      exact propext decide_eq_true_iff
    · intro hh
      rw [hdec, decide_eq_true_eq] at hh
      exact ⟨hh.1, hr.1⟩
    · intro hcv
      rw [hdec, decide_eq_true_eq, name_test h hN hm hcv]
      simp [hcv]

theorem fromDfCol_spec (C : CatConfig) (c : Col) (hc : c.ok) (h : fromDfCol C.dropFirst C.method C.missing c ≠ none) :
    fromDfCol C.dropFirst C.method C.missing c = Spec.columnsFor C.dropFirst C.method c c := by
  cases c with
  | num v => rfl
  | str v => rfl
  | cat e cats codes =>
    have hcodes := codes_eq_codeIn hc.1 hc.2
    have hv : ∀ s, some s ∈ (Col.cat e cats codes).values → s ∈ cats := by
      intro s hs
      simp only [Col.values, List.mem_map] at hs
      obtain ⟨c, hcm, h⟩ := hs
      cases c with
      | none => exact absurd h (by simp)
      | some k =>
        simp only [Option.bind_some] at h
        exact List.mem_of_getElem? h
    have hcodes' : codes = (Col.cat e cats codes).values.map (codeIn cats) := hcodes
    have hnn : none ∈ (Col.cat e cats codes).values ↔ none ∈ codes := by
      conv_rhs => rw [hcodes']
      exact (none_mem_codeIn hv).symm
    unfold Spec.columnsFor
    simp only []
    generalize hvals : (Col.cat e cats codes).values = vals at *
    unfold fromDfCol at h ⊢
    simp only [] at h ⊢
    by_cases hn : none ∈ codes
    · rw [if_pos hn] at h ⊢
      cases hm : C.method with
      | fail => rw [hm] at h; exact absurd rfl h
      | zero =>
        simp only []
        rw [if_pos ⟨hv, fun _ => Or.inl rfl⟩]
        conv_lhs => rw [hcodes']
        rw [indicatorCols_codeIn _ hc.1]
        simp [Spec.featureColumns]
      | convert =>
        rw [hm] at h
        simp only [] at h ⊢
        by_cases hmem : C.missing ∈ cats
        · rw [if_pos hmem] at h; exact absurd rfl h
        · rw [if_neg hmem, if_pos ⟨hv, fun _ => Or.inr ⟨rfl, hn⟩⟩]
          conv_lhs => rw [hcodes']
          rw [indicatorCols_missing _ hc.1 _ _ hv]
          simp [Spec.featureColumns, hn]
    · rw [if_neg hn, if_pos ⟨hv, fun hx => absurd (hnn.1 hx) hn⟩]
      conv_lhs => rw [hcodes']
      rw [indicatorCols_codeIn _ hc.1]
      simp [Spec.featureColumns, hn]


theorem mapM_congr {α β γ : Type} {R : α → β → Prop} {f : β → Option γ} {g : α × β → Option γ} :
    ∀ {l : List α} {l' : List β}, List.Forall₂ R l l' → (∀ a b, a ∈ l → R a b → f b = g (a, b)) →
      l'.mapM f = (l.zip l').mapM g
  | _, _, .nil, _ => by simp
  | a :: l, b :: l', .cons hab hl, h => by
    rw [List.zip_cons_cons, List.mapM_cons, List.mapM_cons, h a b (by simp) hab,
      mapM_congr hl fun a' b' ha' hr => h a' b' (List.mem_cons_of_mem _ ha') hr]

/-- **C57, whole frames (partial: names as in `NamesOk`).** For new data with the training columns in the training order, whatever types,
category lists and category orders its categorical columns have, the design matrix consists, feature by feature, of the columns given by
the training levels in the training order; an exception is raised exactly if some value is not a training level or a null is not allowed. -/
theorem c57_frame_partial {C : CatConfig} {df df' : DFrame} {F : FrameFit} (h : fitFrame C df = some F) (hN : NamesOk C df)
    (hok : ∀ nc ∈ df, nc.2.ok)
    (hdf : List.Forall₂ (fun a b => a.1 = b.1 ∧ b.2.ok ∧ a.2.sameKind b.2) df df') :
    convertFrame C F df'
      = ((df.zip df').mapM fun p => Spec.columnsFor C.dropFirst C.method p.1.2 p.2.2).map List.flatten := by
  unfold convertFrame
  rw [if_neg]
  · congr 1
    apply mapM_congr hdf
    rintro ⟨n, a⟩ ⟨n', b⟩ hm ⟨hn, hb, hk⟩
    simp only at hn hb hk
    subst hn
    exact convertCol_spec h hN hok hm hb hk
  · rintro ⟨-, l, hl, -, hall⟩
    obtain ⟨-, hlv, -⟩ := fitFrame_some h
    rw [hlv, List.mem_filterMap] at hl
    obtain ⟨nc, hnc, hr⟩ := hl
    rw [Option.map_eq_some_iff] at hr
    obtain ⟨L, -, rfl⟩ := hr
    obtain ⟨b, hb, hbn⟩ : ∃ b ∈ df', nc.1 = b.1 := by
      clear hall hlv h hN hok
      induction hdf with
      | nil => exact absurd hnc (by simp)
      | cons hab _ ih =>
        rcases List.mem_cons.1 hnc with rfl | hnc
        · exact ⟨_, by simp, hab.1⟩
        · obtain ⟨b, hb, h⟩ := ih hnc
          exact ⟨b, List.mem_cons_of_mem _ hb, h⟩
    exact hall b hb hbn.symm

theorem mapM_some_mem {α β : Type} {f : α → Option β} : ∀ {l : List α} {r : List β}, l.mapM f = some r → ∀ a ∈ l, f a ≠ none
  | [], _, _, a, h => absurd h (by simp)
  | x :: xs, r, h, a, ha => by
    rw [List.mapM_cons, Option.bind_eq_bind, Option.bind_eq_some_iff] at h
    obtain ⟨y, hy, h⟩ := h
    rw [Option.bind_eq_bind, Option.bind_eq_some_iff] at h
    obtain ⟨ys, hys, -⟩ := h
    rcases List.mem_cons.1 ha with rfl | ha
    · rw [hy]; simp
    · exact mapM_some_mem hys a ha

/-- **C57, the training design.** The design matrix of the fit consists of the same columns: one per level in the order of the categories,
then the one of missing values. -/
theorem c57_fit_design {C : CatConfig} {df : DFrame} {F : FrameFit} (h : fitFrame C df = some F) (hok : ∀ nc ∈ df, nc.2.ok) :
    some F.design = (df.mapM fun nc => Spec.columnsFor C.dropFirst C.method nc.2 nc.2).map List.flatten := by
  obtain ⟨hd, -, -⟩ := fitFrame_some h
  rw [← hd]
  congr 1
  have hne : ∀ a ∈ df, fromDfCol C.dropFirst C.method C.missing a.2 ≠ none := by
    rw [Option.map_eq_some_iff] at hd
    obtain ⟨r, hr, -⟩ := hd
    exact mapM_some_mem hr
  clear hd h
  induction df with
  | nil => rfl
  | cons x xs ih =>
    rw [List.mapM_cons, List.mapM_cons, fromDfCol_spec C x.2 (hok x (by simp)) (hne x (by simp)),
      ih (fun nc h => hok nc (List.mem_cons_of_mem _ h)) (fun a h => hne a (List.mem_cons_of_mem _ h))]

theorem Col.sameKind_self (c : Col) : c.sameKind c := by cases c <;> trivial

/-- **C57, training data (partial: names as in `NamesOk`).** Predicting on the training frame uses exactly the design matrix of the fit. -/
theorem c57_training_frame_partial {C : CatConfig} {df : DFrame} {F : FrameFit} (h : fitFrame C df = some F) (hN : NamesOk C df)
    (hok : ∀ nc ∈ df, nc.2.ok) : convertFrame C F df = some F.design := by
  have hrefl : List.Forall₂ (fun a b => a.1 = b.1 ∧ b.2.ok ∧ a.2.sameKind b.2) df df := by
    rw [List.forall₂_same]
    exact fun nc hnc => ⟨rfl, hok nc hnc, nc.2.sameKind_self⟩
  rw [c57_frame_partial h hN hok hrefl, c57_fit_design h hok]
  congr 1
  exact (mapM_congr (R := Eq) (List.forall₂_eq_eq_eq ▸ rfl) fun a b _ hab => by rw [hab]).symm

/-- **C57, unseen categories raise.** -/
theorem c57_unseen_raises {C : CatConfig} {df df' : DFrame} {F : FrameFit} (h : fitFrame C df = some F) (hN : NamesOk C df)
    (hok : ∀ nc ∈ df, nc.2.ok)
    (hdf : List.Forall₂ (fun a b => a.1 = b.1 ∧ b.2.ok ∧ a.2.sameKind b.2) df df') (n : String) (e : Bool) (cats : List String)
    (codes : List (Option ℕ)) (new : Col) (hm : ((n, Col.cat e cats codes), (n, new)) ∈ df.zip df') (s : String)
    (hs : some s ∈ new.values) (hun : s ∉ cats) : convertFrame C F df' = none := by
  rw [c57_frame_partial h hN hok hdf]
  rw [Option.map_eq_none_iff]
  by_contra hne
  obtain ⟨r, hr⟩ := Option.ne_none_iff_exists'.1 hne
  refine mapM_some_mem hr _ hm ?_
  unfold Spec.columnsFor
  exact if_neg fun hx => hun (hx.1 s hs)

/-! ### Counterexamples for C57 -/

/-- Options: `cat_missing_method="convert"`, `cat_missing_name="(MISSING)"`, the default format. -/
def demoCat : CatConfig := ⟨false, .convert, "(MISSING)", fun n c => n ++ "[" ++ c ++ "]"⟩

/-- A frame with a numeric column and a categorical with a null. -/
def demoFrame : DFrame := [("x", .num [1, 2, 3]), ("c", .cat false ["b", "a"] [some 0, some 1, none])]

/-- Non-vacuity: the frame satisfies the hypotheses of the theorems above. -/
example : (fitFrame demoCat demoFrame).isSome ∧ NamesOk demoCat demoFrame ∧ ∀ nc ∈ demoFrame, nc.2.ok := by
  refine ⟨by simp [fitFrame, demoFrame, fromDfCol, demoCat], ⟨by decide +kernel, ?_, ?_, ?_⟩, ?_⟩
  · intro n a b h
    simpa [demoCat] using h
  · intro nc h nc' h' hne
    simp only [demoFrame, List.mem_cons, List.not_mem_nil, or_false] at h h'
    rcases h with rfl | rfl <;> rcases h' with rfl | rfl
    · exact absurd rfl hne
    · decide +kernel
    · decide +kernel
    · exact absurd rfl hne
  · intro n e cats codes h
    simp only [demoFrame, List.mem_cons, List.not_mem_nil, or_false, Prod.mk.injEq, Col.cat.injEq, reduceCtorEq, and_false, false_or] at h
    obtain ⟨-, -, rfl, -⟩ := h
    decide +kernel
  · intro nc h
    simp only [demoFrame, List.mem_cons, List.not_mem_nil, or_false] at h
    rcases h with rfl | rfl
    · trivial
    · refine ⟨by decide +kernel, ?_⟩
      intro k hk
      simp at hk
      rcases hk with rfl | rfl <;> simp

/-- New data with strings in another order: the columns are those of the training levels. -/
example : Spec.columnsFor false .convert (.cat false ["b", "a"] [some 0, some 1, none]) (.str [some "a", none, some "b"])
    = some [[0, 0, 1], [1, 0, 0], [0, 1, 0]] := by
  unfold Spec.columnsFor
  simp [Col.values, Spec.featureColumns, Spec.levelColumn, Spec.nullColumn]

/-- **C57 fails for a literal level with the name of the missing category (finding F25).** With `cat_missing_method="convert"`, a
categorical without nulls whose levels include the literal `"(MISSING)"` can be fitted, and prediction on the very same frame raises. -/
theorem c57_literal_missing_counterexample :
    let df : DFrame := [("c", .cat false ["a", "(MISSING)"] [some 0, some 1])]
    ∃ F, fitFrame demoCat df = some F ∧ convertFrame demoCat F df = none := by
  refine ⟨⟨[("c", ⟨["a", "(MISSING)"], false⟩)], ["c[a]", "c[(MISSING)]"], [[1, 0], [0, 1]]⟩, ?_, ?_⟩
  · simp [fitFrame, fromDfCol, demoCat, indicatorCols, recordLevels, colNames]
    simp [List.range_succ]
  · have e : ("c" ++ "[" ++ "(MISSING)" ++ "]" : String) = "c[(MISSING)]" := by decide +kernel
    simp [convertFrame, convertCol, demoCat, alignCol, alignCol.check, Col.values, castEnum, addMissingCol, e]

/-- **The names of columns are not compared (finding F26).** A frame with the two numeric columns of the training data in the other order is
accepted, and the columns are taken by position. -/
theorem c57_order_counterexample (C : CatConfig) (a b a' b' : List ℝ) :
    ∃ F, fitFrame C [("x", .num a), ("z", .num b)] = some F ∧
      convertFrame C F [("z", .num b'), ("x", .num a')] = some [b', a'] := by
  refine ⟨⟨[], ["x", "z"], [a, b]⟩, ?_, ?_⟩
  · simp [fitFrame, fromDfCol, recordLevels, colNames]
  · simp [convertFrame, convertCol, fromDfCol]

/-! ### C56 -/

/-- The number of design columns of a column of the frame. -/
def Spec.width (dropFirst : Bool) (m : MissingMethod) : Col → ℕ
  | .num _ => 1
  | .str _ => 0
  | .cat _ cats codes => cats.length + (if m = .convert ∧ none ∈ codes then 1 else 0) - dropFirst.toNat

theorem fromDfCol_width {C : CatConfig} {c : Col} {r : List (List ℝ)} (h : fromDfCol C.dropFirst C.method C.missing c = some r) :
    r.length = Spec.width C.dropFirst C.method c := by
  have hi : ∀ cats codes, (indicatorCols C.dropFirst cats codes).length = cats.length - C.dropFirst.toNat := by
    intro cats codes; simp [indicatorCols]
  cases c with
  | num v => simp only [fromDfCol, Option.some.injEq] at h; subst h; rfl
  | str v => simp only [fromDfCol, Option.some.injEq] at h; subst h; rfl
  | cat e cats codes =>
    unfold fromDfCol at h
    simp only [] at h
    unfold Spec.width
    by_cases hn : none ∈ codes
    · rw [if_pos hn] at h
      cases hm : C.method with
      | fail => rw [hm] at h; exact absurd h (by simp)
      | zero =>
        rw [hm] at h
        simp only [Option.some.injEq] at h
        subst h
        rw [hi]; simp
      | convert =>
        rw [hm] at h
        simp only [] at h
        split at h
        · exact absurd h (by simp)
        · simp only [Option.some.injEq] at h
          subst h
          rw [hi]; simp [hn]
    · rw [if_neg hn] at h
      simp only [Option.some.injEq] at h
      subst h
      rw [hi]; simp [hn]

/-- **C56, expansion.** For a frame without string columns, a penalty vector with one entry per column of the frame is expanded to one
entry per column of the design matrix: the design columns that come from column `i` of the frame all get entry `i`. -/
theorem c56_expansion {C : CatConfig} {df : DFrame} {F : FrameFit} (h : fitFrame C df = some F) (hn : (df.map Prod.fst).Nodup)
    (hstr : ∀ nc ∈ df, ∀ v, nc.2 ≠ .str v) (v : List ℝ) (hv : v.length = df.length) :
    ∃ blocks : List (List (List ℝ)), blocks.length = df.length ∧ F.design = blocks.flatten ∧
      (∀ i (hi : i < blocks.length) (hi' : i < df.length), fromDfCol C.dropFirst C.method C.missing (df[i]).2 = some blocks[i]) ∧
      expandPenalty C df F.levels (.vec v)
        = some (.vec ((v.zip blocks).flatMap fun e => List.replicate e.2.length e.1)) := by
  obtain ⟨hd, hl, -⟩ := fitFrame_some h
  rw [Option.map_eq_some_iff] at hd
  obtain ⟨blocks, hb, hflat⟩ := hd
  have key : ∀ (df : DFrame) (blocks : List (List (List ℝ))), (df.mapM fun nc => fromDfCol C.dropFirst C.method C.missing nc.2) = some blocks →
      List.Forall₂ (fun nc b => fromDfCol C.dropFirst C.method C.missing nc.2 = some b) df blocks := by
    intro df
    induction df with
    | nil => intro blocks hb; simp at hb; subst hb; exact .nil
    | cons x xs ih =>
      intro blocks hb
      rw [List.mapM_cons, Option.bind_eq_bind, Option.bind_eq_some_iff] at hb
      obtain ⟨y, hy, hb⟩ := hb
      rw [Option.bind_eq_bind, Option.bind_eq_some_iff] at hb
      obtain ⟨ys, hys, hb⟩ := hb
      simp only [Option.pure_def, Option.some.injEq] at hb
      subst hb
      exact .cons hy (ih ys hys)
  have hF := key df blocks hb
  have hwidth : ∀ nc ∈ df, ∀ b, fromDfCol C.dropFirst C.method C.missing nc.2 = some b → ∀ x : ℝ,
      (match nc.2 with
        | .cat _ cats _ =>
          List.replicate (cats.length + (if ((F.levels.lookup nc.1).any fun L => L.hasMissing) then 1 else 0) - C.dropFirst.toNat) x
        | _ => [x]) = List.replicate b.length x := by
    intro nc hnc b hb x
    have hlook := lookup_levels C.method df hn nc hnc
    rw [← hl] at hlook
    rw [fromDfCol_width hb, hlook]
    obtain ⟨n, c⟩ := nc
    cases c with
    | num v => rfl
    | str v => exact absurd rfl (hstr _ hnc v)
    | cat e cats codes =>
      simp only [recordLevels, Option.any_some, Spec.width, Bool.and_eq_true, decide_eq_true_eq, List.contains_iff_mem]
  refine ⟨blocks, hF.length_eq.symm, hflat.symm, ?_, ?_⟩
  · intro i hi hi'
    exact (List.forall₂_iff_get.1 hF).2 i hi' hi
  · unfold expandPenalty
    simp only []
    rw [if_pos hv]
    congr 2
    clear hv hb hflat hl h hn hstr key
    generalize F.levels = lv at *
    induction hF generalizing v with
    | nil => simp
    | @cons nc b df' bs hab hrest ih =>
      cases v with
      | nil => rfl
      | cons x xs =>
        rw [List.zip_cons_cons, List.zip_cons_cons, List.flatMap_cons, List.flatMap_cons,
          ih xs (fun nc hnc => hwidth nc (List.mem_cons_of_mem _ hnc))]
        congr 1
        exact hwidth nc (by simp) b hab x

/-- **C56, length.** The expanded vector has one entry per design column. -/
theorem c56_length {C : CatConfig} {df : DFrame} {F : FrameFit} (h : fitFrame C df = some F) (hn : (df.map Prod.fst).Nodup)
    (hstr : ∀ nc ∈ df, ∀ v, nc.2 ≠ .str v) (v : List ℝ) (hv : v.length = df.length) :
    ∃ w, expandPenalty C df F.levels (.vec v) = some (.vec w) ∧ w.length = F.design.length := by
  obtain ⟨blocks, hlen, hd, -, he⟩ := c56_expansion h hn hstr v hv
  refine ⟨_, he, ?_⟩
  rw [hd, List.length_flatMap, List.length_flatten]
  congr 1
  have : ∀ (v : List ℝ) (bs : List (List (List ℝ))), v.length = bs.length →
      ((v.zip bs).map fun e => (List.replicate e.2.length e.1).length) = bs.map List.length := by
    intro v
    induction v with
    | nil => intro bs hb; cases bs <;> simp_all
    | cons x xs ih =>
      intro bs hb
      cases bs with
      | nil => simp at hb
      | cons b bs =>
        simp only [List.zip_cons_cons, List.map_cons, List.length_replicate]
        rw [← ih bs (by simpa using hb)]
        simp
  exact this v blocks (hv.trans hlen.symm)

/-- **C56, the rest.** Strings and arrays whose length is not the number of columns of the frame are left alone; a matrix with one row per
column of the frame raises. -/
theorem c56_other (C : CatConfig) (df : DFrame) (lv : List (String × LevelInfo)) (P : PenArg) :
    (P = .str → expandPenalty C df lv P = some P) ∧
    (∀ v, P = .vec v → v.length ≠ df.length → expandPenalty C df lv P = some P) ∧
    (∀ r, P = .mat r → expandPenalty C df lv P = if r = df.length then none else some P) := by
  refine ⟨?_, ?_, ?_⟩
  · rintro rfl; rfl
  · rintro v rfl h; unfold expandPenalty; simp only []; rw [if_neg h]
  · rintro r rfl; rfl

/-- Non-vacuity, and an instance: penalties 7 for `x` and 5 for `c` become 7, 5, 5, 5. -/
example : expandPenalty demoCat demoFrame [("c", ⟨["b", "a"], true⟩)] (.vec [7, 5]) = some (.vec [7, 5, 5, 5]) := by
  simp [expandPenalty, demoFrame, demoCat, List.replicate]

/-- **C56 needs a frame without string columns.** A string column is dropped from the design with a warning, but keeps an entry of the penalty,
so the expanded vector is one too long. -/
theorem c56_string_counterexample :
    let df : DFrame := [("s", .str [some "u"]), ("c", .cat false ["b"] [some 0])]
    ∃ F, fitFrame demoCat df = some F ∧ F.design.length = 1 ∧ expandPenalty demoCat df F.levels (.vec [7, 5]) = some (.vec [7, 5]) := by
  refine ⟨⟨[("c", ⟨["b"], false⟩)], ["c[b]"], [[1]]⟩, ?_, rfl, ?_⟩
  · simp [fitFrame, fromDfCol, demoCat, indicatorCols, recordLevels, colNames]
  · simp [expandPenalty, demoCat]

end Glum
