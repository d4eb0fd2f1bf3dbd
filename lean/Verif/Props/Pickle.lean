import Verif.Model.Pickle
/-
C95: models pickled by any version since 3.0 load, keep what was stored, and see the same categories as a model fitted now.
-/
set_option linter.unusedVariables false
set_option linter.unusedSimpArgs false

namespace Glum

variable {V : Type}

/-- The pickle was written by this version: it has the newer attributes, and an old-style `feature_dtypes_` only beside the new levels. -/
structure Spec.Current (state : AttrDict V) : Prop where
  inner : (state "max_inner_iter").isSome
  mono : (state "monotonic_constraints").isSome
  migrated : (state "feature_dtypes_").isSome → (state "_categorical_levels_").isSome

/-- The pickle can be loaded: an old-style `feature_dtypes_` is a dictionary of dtypes. -/
def Spec.Loadable (state : AttrDict V) : Prop := ∀ v, state "feature_dtypes_" = some v → (state "_categorical_levels_").isSome ∨ ∃ l, v = .dtypes l

open Spec

theorem setDefault_other (d : AttrDict V) (name k : String) (v : AttrVal V) (h : k ≠ name) : setDefault d name v k = d k := by
  unfold setDefault AttrDict.set
  split
  · rfl
  · simp [h]

theorem setDefault_self (d : AttrDict V) (name : String) (v : AttrVal V) : setDefault d name v name = some ((d name).getD v) := by
  unfold setDefault AttrDict.set
  split
  · next h => obtain ⟨x, hx⟩ := Option.isSome_iff_exists.1 h; rw [hx]; rfl
  · next h => simp only [if_true]; rw [Option.not_isSome_iff_eq_none.1 h]; rfl

theorem orElse_none (state : AttrDict V) : (fun k => (state k).orElse fun _ => none) = state := by
  funext k; cases state k <;> rfl

theorem unpickle_eq (state : AttrDict V) :
    unpickle state = (migrateLevels state state).map setDefaults := by
  unfold unpickle setState
  rw [orElse_none]

theorem migrate_cases (state : AttrDict V) : (∃ l, state "feature_dtypes_" = some (.dtypes l) ∧ state "_categorical_levels_" = none ∧
      migrateLevels state state = some ((state.set "_categorical_levels_" (.levels (categoriesOf l))).set "_feature_dtypes_" (.dtypes l))) ∨
    (¬ Loadable state ∧ migrateLevels state state = none) ∨
    (((state "feature_dtypes_").isSome → (state "_categorical_levels_").isSome) ∧ migrateLevels state state = some state) := by
  unfold migrateLevels Loadable
  cases hf : state "feature_dtypes_" with
  | none => right; right; exact ⟨by simp, rfl⟩
  | some v =>
    cases hc : state "_categorical_levels_" with
    | some w => right; right; exact ⟨by simp, by cases v <;> rfl⟩
    | none =>
      have hno : ∀ w : AttrVal V, (∀ l, w ≠ .dtypes l) → ¬ ∀ v, some w = some v → (none : Option (AttrVal V)).isSome = true ∨ ∃ l, v = .dtypes l := by
        intro w hw h
        obtain h | ⟨l, h⟩ := h w rfl
        · cases h
        · exact hw l h
      cases v with
      | dtypes l => left; exact ⟨l, rfl, rfl, rfl⟩
      | levels l => exact Or.inr (Or.inl ⟨hno _ (by simp), rfl⟩)
      | int k => exact Or.inr (Or.inl ⟨hno _ (by simp), rfl⟩)
      | pyNone => exact Or.inr (Or.inl ⟨hno _ (by simp), rfl⟩)
      | other x => exact Or.inr (Or.inl ⟨hno _ (by simp), rfl⟩)

/-- **C95, loading.** A pickle loads exactly when an old-style `feature_dtypes_` (without new levels) is a dictionary of dtypes. -/
theorem c95_loads (state : AttrDict V) : (∃ d, unpickle state = some d) ↔ Loadable state := by
  rw [unpickle_eq]
  rcases migrate_cases state with ⟨l, h1, h2, h3⟩ | ⟨h1, h2⟩ | ⟨h1, h2⟩
  · rw [h3]
    refine ⟨fun _ v hv => Or.inr ⟨l, ?_⟩, fun _ => ⟨_, rfl⟩⟩
    rw [h1] at hv; exact (Option.some.inj hv).symm
  · rw [h2]; simp [h1]
  · rw [h2]
    exact ⟨fun _ v hv => Or.inl (h1 (by rw [hv]; rfl)), fun _ => ⟨_, rfl⟩⟩

/-- **C95, nothing is lost.** Every attribute of the pickle is there afterwards with its value; the only exception is a `_feature_dtypes_` that is
replaced by an old-style `feature_dtypes_`.  Nothing else appears except the migrated levels and the two defaults. -/
theorem c95_keeps (state d : AttrDict V) (h : unpickle state = some d) (k : String) :
    (∀ v, state k = some v → k ≠ "_feature_dtypes_" → d k = some v) ∧
    (state k = none → k ≠ "_feature_dtypes_" → k ≠ "_categorical_levels_" → k ≠ "max_inner_iter" → k ≠ "monotonic_constraints" → d k = none) ∧
    d "max_inner_iter" = some ((state "max_inner_iter").getD (.int 100000)) ∧
    d "monotonic_constraints" = some ((state "monotonic_constraints").getD .pyNone) ∧
    ((state "feature_dtypes_" = none ∨ (state "_categorical_levels_").isSome) → d "_feature_dtypes_" = state "_feature_dtypes_" ∧
      d "_categorical_levels_" = state "_categorical_levels_") := by
  rw [unpickle_eq] at h
  have hb : ∀ (m : AttrDict V) (q : String), q ≠ "max_inner_iter" → q ≠ "monotonic_constraints" →
      setDefaults m q = m q := fun m q h1 h2 => by
    unfold setDefaults
    rw [setDefault_other _ _ _ _ h2, setDefault_other _ _ _ _ h1]
  have hi : ∀ m : AttrDict V, setDefaults m "max_inner_iter"
      = some ((m "max_inner_iter").getD (.int 100000)) := fun m => by
    unfold setDefaults
    rw [setDefault_other _ _ _ _ (by decide), setDefault_self]
  have hm : ∀ m : AttrDict V, setDefaults m "monotonic_constraints"
      = some ((m "monotonic_constraints").getD .pyNone) := fun m => by
    unfold setDefaults
    rw [setDefault_self, setDefault_other _ _ _ _ (by decide)]
  have hall : ∀ m : AttrDict V, ∀ q v, m q = some v →
      setDefaults m q = some v := fun m q v hq => by
    by_cases h1 : q = "max_inner_iter"
    · subst h1; rw [hi, hq]; rfl
    by_cases h2 : q = "monotonic_constraints"
    · subst h2; rw [hm, hq]; rfl
    rw [hb m q h1 h2, hq]
  rcases migrate_cases state with ⟨l, h1, h2, h3⟩ | ⟨h1, h2⟩ | ⟨h1, h2⟩
  · rw [h3] at h
    obtain rfl := Option.some.inj h
    have hs : ∀ q, q ≠ "_feature_dtypes_" → q ≠ "_categorical_levels_" →
        ((state.set "_categorical_levels_" (.levels (categoriesOf l))).set "_feature_dtypes_" (.dtypes l)) q = state q := fun q a b => by
      unfold AttrDict.set; simp [a, b]
    refine ⟨fun v hv hk => hall _ _ _ ?_, fun hv k1 k2 k3 k4 => ?_, ?_, ?_, fun hc => ?_⟩
    · rw [hs k hk (by rintro rfl; rw [h2] at hv; cases hv)]; exact hv
    · rw [hb _ _ k3 k4, hs k k1 k2]; exact hv
    · rw [hi, hs _ (by decide) (by decide)]
    · rw [hm, hs _ (by decide) (by decide)]
    · rcases hc with hc | hc
      · rw [h1] at hc; cases hc
      · rw [h2] at hc; cases hc
  · rw [h2] at h; cases h
  · rw [h2] at h
    obtain rfl := Option.some.inj h
    exact ⟨fun v hv _ => hall _ _ _ hv, fun hv _ _ k3 k4 => by rw [hb _ _ k3 k4]; exact hv, hi _, hm _,
      fun _ => ⟨hb _ _ (by decide) (by decide), hb _ _ (by decide) (by decide)⟩⟩

/-- **C95, round trip.** A model of this version is unchanged by pickling and unpickling. -/
theorem c95_roundtrip (state : AttrDict V) (h : Current state) : unpickle state = some state := by
  rw [unpickle_eq]
  rcases migrate_cases state with ⟨l, h1, h2, h3⟩ | ⟨h1, h2⟩ | ⟨h1, h2⟩
  · have := h.migrated (by rw [h1]; rfl)
    rw [h2] at this; cases this
  · exact absurd (fun v hv => Or.inl (h.migrated (by rw [hv]; rfl))) h1
  · rw [h2]
    simp only [Option.map_some, Option.some.injEq]
    unfold setDefaults
    have e1 : setDefault state "max_inner_iter" (.int 100000) = state := by unfold setDefault; rw [if_pos h.inner]
    rw [e1]
    unfold setDefault
    rw [if_pos h.mono]

/-- **C95, loaded models are current.** A loaded model can be pickled and loaded again without change. -/
theorem c95_idempotent (state d : AttrDict V) (h : unpickle state = some d) : Current d ∧ unpickle d = some d := by
  have hc : Current d := by
    obtain ⟨h1, h2, h3, h4, h5⟩ := c95_keeps state d h "feature_dtypes_"
    refine ⟨by rw [h3]; rfl, by rw [h4]; rfl, fun hf => ?_⟩
    rw [unpickle_eq] at h
    rcases migrate_cases state with ⟨l, m1, m2, m3⟩ | ⟨m1, m2⟩ | ⟨m1, m2⟩
    · rw [m3] at h
      obtain rfl := Option.some.inj h
      unfold setDefaults
      rw [setDefault_other _ _ _ _ (by decide), setDefault_other _ _ _ _ (by decide)]
      rfl
    · rw [m2] at h; cases h
    · by_cases hs : (state "feature_dtypes_").isSome
      · obtain ⟨v, hv⟩ := Option.isSome_iff_exists.1 (m1 hs)
        rw [(h5 (Or.inr (m1 hs))).2, hv]; rfl
      · rw [h2 (Option.not_isSome_iff_eq_none.1 hs) (by decide) (by decide) (by decide) (by decide)] at hf
        cases hf
  exact ⟨hc, c95_roundtrip d hc⟩

/-- **C95, categories.** A model fitted on a frame by a version that stored only the dtypes sees, after loading, the same categorical columns with the
same levels in the same order as a model fitted on that frame now (`fitFrame`, C57). -/
theorem c95_levels (C : CatConfig) (df : DFrame) (F : FrameFit) (hF : fitFrame C df = some F) (state d : AttrDict V)
    (hs : state "feature_dtypes_" = some (.dtypes (dtypesOf df))) (hn : state "_categorical_levels_" = none) (h : unpickle state = some d) :
    categoricalLevels d = some (F.levels.map fun l => (l.1, l.2.levels)) ∧ d "_feature_dtypes_" = some (.dtypes (dtypesOf df)) := by
  rw [unpickle_eq] at h
  have e : migrateLevels state state
      = some ((state.set "_categorical_levels_" (.levels (categoriesOf (dtypesOf df)))).set "_feature_dtypes_" (.dtypes (dtypesOf df))) := by
    unfold migrateLevels; rw [hs, hn]
  rw [e] at h
  obtain rfl := Option.some.inj h
  have hl : categoriesOf (dtypesOf df) = F.levels.map fun l => (l.1, l.2.levels) := by
    unfold fitFrame at hF
    obtain ⟨cols, -, h2⟩ := Option.bind_eq_some_iff.1 hF
    obtain rfl := Option.some.inj h2
    unfold categoriesOf dtypesOf
    simp only [List.filterMap_map, List.map_filterMap]
    refine List.filterMap_congr fun nc _ => ?_
    simp only [Function.comp]
    cases nc.2 <;> rfl
  constructor
  · unfold categoricalLevels setDefaults
    rw [setDefault_other _ _ _ _ (by decide), setDefault_other _ _ _ _ (by decide)]
    show some (categoriesOf (dtypesOf df)) = _
    rw [hl]
  · unfold setDefaults
    rw [setDefault_other _ _ _ _ (by decide), setDefault_other _ _ _ _ (by decide)]
    rfl

/-- **C95, categories of a model without stored levels.** A model whose dictionary has the dtypes under the new name but no levels shows the levels
of the categorical columns of the frame it was fitted on; with neither attribute asking for them raises; stored levels are shown as they are. -/
theorem c95_levels_fallback (C : CatConfig) (df : DFrame) (F : FrameFit) (hF : fitFrame C df = some F) (d : AttrDict V) :
    (d "_feature_dtypes_" = some (.dtypes (dtypesOf df)) → d "_categorical_levels_" = none →
      categoricalLevels d = some (F.levels.map fun l => (l.1, l.2.levels))) ∧
    (d "_feature_dtypes_" = none → d "_categorical_levels_" = none → categoricalLevels d = none) ∧
    (∀ l, d "_categorical_levels_" = some (.levels l) → categoricalLevels d = some l) := by
  have hl : categoriesOf (dtypesOf df) = F.levels.map fun l => (l.1, l.2.levels) := by
    unfold fitFrame at hF
    obtain ⟨cols, -, h2⟩ := Option.bind_eq_some_iff.1 hF
    obtain rfl := Option.some.inj h2
    unfold categoriesOf dtypesOf
    simp only [List.filterMap_map, List.map_filterMap]
    refine List.filterMap_congr fun nc _ => ?_
    simp only [Function.comp]
    cases nc.2 <;> rfl
  refine ⟨fun h1 h2 => ?_, fun h1 h2 => ?_, fun l h => ?_⟩
  · unfold categoricalLevels; rw [h2, h1]; simp only [hl]
  · unfold categoricalLevels; rw [h2, h1]
  · unfold categoricalLevels; rw [h]

/-! ### The hypotheses are met -/

/-- A frame with one number column and one categorical column. -/
def pickleFrame : DFrame := [("x", .num [1, 2]), ("c", .cat false ["a", "b"] [some 1, some 0])]

/-- A pickle of version 3.0 of a model fitted on it. -/
def oldPickle : AttrDict Unit := fun k =>
  if k = "feature_dtypes_" then some (.dtypes (dtypesOf pickleFrame)) else if k = "coef_" then some (.other ()) else none

example : ∃ d, unpickle oldPickle = some d ∧ categoricalLevels d = some [("c", ["a", "b"])] ∧ d "coef_" = some (.other ()) ∧
    d "max_inner_iter" = some (.int 100000) ∧ d "alpha" = none := by
  obtain ⟨d, hd⟩ := (c95_loads oldPickle).2 fun v hv => Or.inr ⟨dtypesOf pickleFrame, (Option.some.inj hv).symm⟩
  obtain ⟨k1, -, k3, -⟩ := c95_keeps oldPickle d hd "coef_"
  obtain ⟨-, k2, -⟩ := c95_keeps oldPickle d hd "alpha"
  have C : CatConfig := ⟨false, .fail, "(MISSING)", fun a b => a ++ b⟩
  refine ⟨d, hd, ?_, k1 _ rfl (by decide), k3, k2 rfl (by decide) (by decide) (by decide) (by decide)⟩
  have hF : ∃ F, fitFrame ⟨false, .fail, "(MISSING)", fun a b => a ++ b⟩ pickleFrame = some F ∧ F.levels.map (fun l => (l.1, l.2.levels)) = [("c", ["a", "b"])] :=
    ⟨_, rfl, rfl⟩
  obtain ⟨F, hF, hl⟩ := hF
  rw [(c95_levels _ pickleFrame F hF oldPickle d rfl rfl hd).1, hl]

example : Current (AttrDict.set (AttrDict.set (fun _ => none) "max_inner_iter" (.int 7)) "monotonic_constraints" (.pyNone : AttrVal Unit)) :=
  ⟨rfl, rfl, fun h => by simp [AttrDict.set] at h⟩

end Glum
