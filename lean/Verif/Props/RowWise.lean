import Verif.Model.PredictFrame
import Verif.Props.Predict
import Verif.Props.Categorical
/-
C104: predictions are row-wise.
-/
set_option linter.unusedSectionVars false
set_option linter.unusedVariables false
set_option linter.unusedSimpArgs false

namespace Glum

/-! ### Rows of a frame -/

/-- `df.iloc[rows]` for one column of values. -/
def Spec.pickRows {α : Type} (rows : List ℕ) (v : List α) : List α := rows.filterMap fun i => v[i]?

/-- `df.iloc[rows]`: the categories of a categorical column are kept, also those that no longer occur. -/
def Spec.pickCol (rows : List ℕ) : Col → Col
  | .num v => .num (Spec.pickRows rows v)
  | .cat e cats codes => .cat e cats (Spec.pickRows rows codes)
  | .str v => .str (Spec.pickRows rows v)

/-- `df.iloc[rows]`. -/
def Spec.pickFrame (rows : List ℕ) (df : DFrame) : DFrame := df.map fun nc => (nc.1, Spec.pickCol rows nc.2)

/-- The number of rows of a column. -/
def Spec.colRows : Col → ℕ
  | .num v => v.length
  | .cat _ _ codes => codes.length
  | .str v => v.length

/-- A data frame with `n` rows. -/
def Spec.HasRows (n : ℕ) (df : DFrame) : Prop := ∀ nc ∈ df, Spec.colRows nc.2 = n

open Spec (pickRows pickCol pickFrame colRows HasRows)

theorem pickRows_map {α β : Type} (f : α → β) (rows : List ℕ) (v : List α) : pickRows rows (v.map f) = (pickRows rows v).map f := by
  unfold Spec.pickRows
  rw [List.map_filterMap]
  congr 1
  funext i
  simp

theorem mem_pickRows {α : Type} {rows : List ℕ} {v : List α} {x : α} (h : x ∈ pickRows rows v) : x ∈ v := by
  obtain ⟨i, _, hi⟩ := List.mem_filterMap.1 h
  exact List.mem_of_getElem? hi

theorem pickRows_get {α : Type} (rows : List ℕ) (v : List α) (h : ∀ i ∈ rows, i < v.length) (k : ℕ) : (pickRows rows v)[k]? = rows[k]?.bind fun i => v[i]? := by
  induction rows generalizing k with
  | nil => simp [Spec.pickRows]
  | cons i rows ih =>
    have hi : i < v.length := h i (by simp)
    have e : pickRows (i :: rows) v = v[i] :: pickRows rows v := by unfold Spec.pickRows; rw [List.filterMap_cons_some (by exact List.getElem?_eq_getElem hi)]
    rw [e]
    cases k with
    | zero => simp [hi]
    | succ k => simpa using ih (fun j hj => h j (by simp [hj])) k

theorem pickRows_length {α : Type} (rows : List ℕ) (v : List α) (h : ∀ i ∈ rows, i < v.length) : (pickRows rows v).length = rows.length := by
  induction rows with
  | nil => rfl
  | cons i rows ih =>
    have hi : i < v.length := h i (by simp)
    have e : pickRows (i :: rows) v = v[i] :: pickRows rows v := by unfold Spec.pickRows; rw [List.filterMap_cons_some (by exact List.getElem?_eq_getElem hi)]
    rw [e, List.length_cons, List.length_cons, ih fun j hj => h j (by simp [hj])]

theorem pickCol_values (rows : List ℕ) (c : Col) : (pickCol rows c).values = pickRows rows c.values := by
  cases c with
  | num v => simp [Spec.pickCol, Col.values, Spec.pickRows]
  | cat e cats codes => simp only [Spec.pickCol, Col.values, pickRows_map]
  | str v => rfl

theorem indicatorCols_pick (d : Bool) (cats : List String) (codes : List (Option ℕ)) (rows : List ℕ) :
    indicatorCols d cats (pickRows rows codes) = (indicatorCols d cats codes).map (pickRows rows) := by
  unfold indicatorCols
  rw [List.map_map]
  congr 1
  funext k
  exact (pickRows_map _ rows codes).symm

theorem fromDfCol_pick (d : Bool) (m : MissingMethod) (hm : m ≠ .convert) (missing : String) (c : Col) (rows : List ℕ) {r : List (List ℝ)}
    (h : fromDfCol d m missing c = some r) : fromDfCol d m missing (pickCol rows c) = some (r.map (pickRows rows)) := by
  cases c with
  | num v => simp only [fromDfCol, Option.some.injEq] at h; subst h; rfl
  | str v => simp only [fromDfCol, Option.some.injEq] at h; subst h; rfl
  | cat e cats codes =>
    have hz : ∀ r, some (indicatorCols d cats codes) = some r → some (indicatorCols d cats (pickRows rows codes)) = some (r.map (pickRows rows)) := by
      intro r hr
      rw [← Option.some.inj hr, indicatorCols_pick]
    simp only [fromDfCol, Spec.pickCol] at h ⊢
    by_cases hn : none ∈ codes
    · rw [if_pos hn] at h
      cases m with
      | fail => cases h
      | convert => exact absurd rfl hm
      | zero =>
        have := hz r h
        split
        · exact this
        · exact this
    · rw [if_neg hn] at h
      rw [if_neg fun h' => hn (mem_pickRows h')]
      exact hz r h

theorem castEnum_pick (levels : List String) (vals : List (Option String)) (rows : List ℕ) :
    castEnum levels (pickRows rows vals) = pickCol rows (castEnum levels vals) := by
  unfold castEnum
  simp only [Spec.pickCol, pickRows_map]

theorem check_pick (m : MissingMethod) (L : LevelInfo) (c c' : Col) (rows : List ℕ) (h : alignCol.check m L c = some c') :
    alignCol.check m L (pickCol rows c) = some (pickCol rows c') := by
  unfold alignCol.check at h ⊢
  simp only at h ⊢
  rw [pickCol_values]
  have key : ∀ P : Option String → Bool, c.values.filter P = [] → (pickRows rows c.values).filter P = [] := by
    intro P hP
    rw [List.filter_eq_nil_iff] at hP ⊢
    exact fun a ha => hP a (mem_pickRows ha)
  by_cases hm : m = .convert ∧ L.hasMissing = false
  · rw [if_pos hm] at h ⊢
    split at h
    · next hu => rw [if_pos (key _ hu), castEnum_pick, Option.some.inj h]
    · cases h
  · rw [if_neg hm] at h ⊢
    split at h
    · next hu => rw [if_pos (key _ hu), castEnum_pick, Option.some.inj h]
    · cases h

theorem alignCol_pick (m : MissingMethod) (L : LevelInfo) (c c' : Col) (rows : List ℕ) (h : alignCol m L c = some c') :
    alignCol m L (pickCol rows c) = some (pickCol rows c') := by
  cases c with
  | num v => simp [alignCol] at h
  | str v => exact check_pick m L (.str v) c' rows h
  | cat e cats codes =>
    cases e with
    | false => exact check_pick m L (.cat false cats codes) c' rows h
    | true =>
      simp only [alignCol, Spec.pickCol] at h ⊢
      by_cases hc : cats = L.levels
      · rw [if_pos hc] at h ⊢
        rw [← Option.some.inj h]
      · rw [if_neg hc] at h ⊢
        exact check_pick m L (.cat true cats codes) c' rows h

theorem addMissingCol_pick (missing : String) (b : Bool) (c c' : Col) (rows : List ℕ) (h : addMissingCol missing b c = some c') :
    addMissingCol missing b (pickCol rows c) = some (pickCol rows c') := by
  cases c with
  | num v => cases b <;> simp [addMissingCol, Spec.pickCol] at h ⊢; rw [← h]
  | str v => cases b <;> simp [addMissingCol, Spec.pickCol] at h ⊢; rw [← h]
  | cat e cats codes =>
    cases b with
    | false => simp [addMissingCol, Spec.pickCol] at h ⊢; rw [← h]
    | true =>
      simp only [addMissingCol, Spec.pickCol, if_true] at h ⊢
      by_cases hc : missing ∈ cats
      · rw [if_pos hc] at h; cases h
      · rw [if_neg hc] at h ⊢
        rw [← Option.some.inj h]
        simp only [Spec.pickCol, pickRows_map]

theorem convertCol_pick (C : CatConfig) (F : FrameFit) (nc : String × Col) (rows : List ℕ) {r : List (List ℝ)} (h : convertCol C F nc = some r) :
    convertCol C F (nc.1, pickCol rows nc.2) = some (r.map (pickRows rows)) := by
  unfold convertCol at h ⊢
  simp only at h ⊢
  cases hL : F.levels.lookup nc.1 with
  | none =>
    rw [hL] at h
    exact fromDfCol_pick _ _ (by split <;> simp_all) _ _ rows h
  | some L =>
    rw [hL] at h
    simp only at h ⊢
    obtain ⟨c1, h1, h2⟩ := Option.bind_eq_some_iff.1 h
    simp only [bind, alignCol_pick _ _ _ _ rows h1, Option.bind_some]
    by_cases hm : C.method = .convert
    · rw [if_pos hm] at h2 ⊢
      obtain ⟨c2, h3, h4⟩ := Option.bind_eq_some_iff.1 h2
      rw [addMissingCol_pick _ _ _ _ rows h3]
      exact fromDfCol_pick _ _ (by simp) _ _ rows h4
    · rw [if_neg hm] at h2 ⊢
      exact fromDfCol_pick _ _ hm _ _ rows h2

theorem mapM_pick {α β : Type} (f : α → Option β) (g : α → α) (k : β → β) (hf : ∀ a b, f a = some b → f (g a) = some (k b)) :
    ∀ (l : List α) (r : List β), l.mapM f = some r → (l.map g).mapM f = some (r.map k)
  | [], r, h => by
    simp only [List.mapM_nil, Option.pure_def, Option.some.injEq] at h
    subst h; rfl
  | a :: l, r, h => by
    rw [List.mapM_cons] at h
    obtain ⟨b, hb, h⟩ := Option.bind_eq_some_iff.1 h
    obtain ⟨bs, hbs, h⟩ := Option.bind_eq_some_iff.1 h
    cases h
    rw [List.map_cons, List.mapM_cons]
    simp only [bind, hf a b hb, mapM_pick f g k hf l bs hbs, Option.bind_some]
    rfl

/-- The converted columns of some rows are those rows of the converted columns. -/
theorem convertFrame_pick (C : CatConfig) (F : FrameFit) (df : DFrame) (rows : List ℕ) {cols : List (List ℝ)} (h : convertFrame C F df = some cols) :
    convertFrame C F (pickFrame rows df) = some (cols.map (pickRows rows)) := by
  unfold convertFrame at h ⊢
  have hk : (∃ l ∈ F.levels, C.fmt l.1 C.missing ∈ F.featureNames ∧ ∀ nc ∈ pickFrame rows df, nc.1 ≠ l.1) ↔
      ∃ l ∈ F.levels, C.fmt l.1 C.missing ∈ F.featureNames ∧ ∀ nc ∈ df, nc.1 ≠ l.1 := by
    unfold Spec.pickFrame
    simp only [List.forall_mem_map]
  by_cases hc : C.method = .convert ∧ ∃ l ∈ F.levels, C.fmt l.1 C.missing ∈ F.featureNames ∧ ∀ nc ∈ df, nc.1 ≠ l.1
  · rw [if_pos hc] at h; cases h
  · rw [if_neg hc] at h
    rw [if_neg (by rwa [hk])]
    obtain ⟨r, hr, rfl⟩ := Option.map_eq_some_iff.1 h
    have := mapM_pick (convertCol C F) (fun nc => (nc.1, pickCol rows nc.2)) (List.map (pickRows rows)) (fun a b hb => convertCol_pick C F a rows hb) df r hr
    unfold Spec.pickFrame
    rw [this, Option.map_some, List.map_flatten]

/-! ### Lengths -/

theorem indicatorCols_length {d : Bool} {cats : List String} {codes : List (Option ℕ)} {c : List ℝ} (h : c ∈ indicatorCols d cats codes) : c.length = codes.length := by
  unfold indicatorCols at h
  obtain ⟨k, _, rfl⟩ := List.mem_map.1 h
  simp

theorem fromDfCol_length {d : Bool} {m : MissingMethod} {missing : String} {c : Col} {r : List (List ℝ)} (h : fromDfCol d m missing c = some r) :
    ∀ x ∈ r, x.length = colRows c := by
  intro x hx
  cases c with
  | num v => simp only [fromDfCol, Option.some.injEq] at h; subst h; rw [List.mem_singleton.1 hx]; rfl
  | str v => simp only [fromDfCol, Option.some.injEq] at h; subst h; cases hx
  | cat e cats codes =>
    simp only [fromDfCol] at h
    split at h
    · cases m with
      | fail => cases h
      | zero => cases h; exact indicatorCols_length hx
      | convert =>
        simp only at h
        split at h
        · cases h
        · cases h; rw [indicatorCols_length hx, List.length_map]; rfl
    · cases h; exact indicatorCols_length hx

theorem values_length (c : Col) (h : ∀ v, c ≠ .num v) : c.values.length = colRows c := by
  cases c with
  | num v => exact absurd rfl (h v)
  | cat e cats codes => simp [Col.values, Spec.colRows]
  | str v => rfl

theorem alignCol_length {m : MissingMethod} {L : LevelInfo} {c c' : Col} (h : alignCol m L c = some c') : colRows c' = colRows c := by
  have hck : ∀ c : Col, (∀ v, c ≠ .num v) → alignCol.check m L c = some c' → colRows c' = colRows c := by
    intro c hc h
    unfold alignCol.check at h
    simp only at h
    have e : c' = castEnum L.levels c.values := by
      split at h <;> split at h <;> first | exact (Option.some.inj h).symm | cases h
    rw [e, ← values_length c hc]
    simp [castEnum, Spec.colRows]
  cases c with
  | num v => simp [alignCol] at h
  | str v => exact hck _ (by simp) h
  | cat e cats codes =>
    cases e with
    | false => exact hck _ (by simp) h
    | true =>
      simp only [alignCol] at h
      split at h
      · cases h; rfl
      · exact hck _ (by simp) h

theorem addMissingCol_length {missing : String} {b : Bool} {c c' : Col} (h : addMissingCol missing b c = some c') : colRows c' = colRows c := by
  cases c with
  | num v => cases b <;> simp [addMissingCol] at h; rw [← h]
  | str v => cases b <;> simp [addMissingCol] at h; rw [← h]
  | cat e cats codes =>
    cases b with
    | false => simp [addMissingCol] at h; rw [← h]
    | true =>
      simp only [addMissingCol, if_true] at h
      split at h
      · cases h
      · cases h; simp [Spec.colRows]

theorem convertCol_length {C : CatConfig} {F : FrameFit} {nc : String × Col} {r : List (List ℝ)} (h : convertCol C F nc = some r) :
    ∀ x ∈ r, x.length = colRows nc.2 := by
  unfold convertCol at h
  cases hL : F.levels.lookup nc.1 with
  | none => rw [hL] at h; exact fromDfCol_length h
  | some L =>
    rw [hL] at h
    obtain ⟨c1, h1, h2⟩ := Option.bind_eq_some_iff.1 h
    rw [← alignCol_length h1]
    by_cases hm : C.method = .convert
    · rw [if_pos hm] at h2
      obtain ⟨c2, h3, h4⟩ := Option.bind_eq_some_iff.1 h2
      rw [← addMissingCol_length h3]
      exact fromDfCol_length h4
    · rw [if_neg hm] at h2
      exact fromDfCol_length h2

theorem mapM_all {α β : Type} {f : α → Option β} {P : α → Prop} {R : β → Prop} (hf : ∀ a b, P a → f a = some b → R b) :
    ∀ (l : List α) (r : List β), (∀ a ∈ l, P a) → l.mapM f = some r → ∀ b ∈ r, R b
  | [], r, _, h => by
    simp only [List.mapM_nil, Option.pure_def, Option.some.injEq] at h
    subst h; simp
  | a :: l, r, hP, h => by
    rw [List.mapM_cons] at h
    obtain ⟨b, hb, h⟩ := Option.bind_eq_some_iff.1 h
    obtain ⟨bs, hbs, h⟩ := Option.bind_eq_some_iff.1 h
    cases h
    intro x hx
    rcases List.mem_cons.1 hx with rfl | hx
    · exact hf a x (hP a (by simp)) hb
    · exact mapM_all hf l bs (fun a ha => hP a (by simp [ha])) hbs x hx

theorem convertFrame_length {C : CatConfig} {F : FrameFit} {df : DFrame} {n : ℕ} (hn : HasRows n df) {cols : List (List ℝ)} (h : convertFrame C F df = some cols) :
    ∀ c ∈ cols, c.length = n := by
  unfold convertFrame at h
  split at h
  · cases h
  · obtain ⟨r, hr, rfl⟩ := Option.map_eq_some_iff.1 h
    intro c hc
    obtain ⟨l, hl, hcl⟩ := List.mem_flatten.1 hc
    exact mapM_all (P := fun nc : String × Col => colRows nc.2 = n) (R := fun l : List (List ℝ) => ∀ c ∈ l, c.length = n)
      (fun nc l hP hl x hx => (convertCol_length hl x hx).trans hP) df r hn hr l hl c hcl

theorem colMatrix_pick {n m : ℕ} (σ : Fin m → Fin n) (cols : List (List ℝ)) (h : ∀ c ∈ cols, c.length = n) :
    (colMatrix (cols.map (pickRows (List.ofFn fun i => (σ i).val))) : Fin m → ℕ → ℝ) = fun i => colMatrix cols (σ i) := by
  funext i j
  unfold colMatrix
  rw [List.getElem?_map]
  cases hc : cols[j]? with
  | none => rfl
  | some c =>
    simp only [Option.map_some, Option.bind_some]
    have hl := h c (List.mem_of_getElem? hc)
    rw [pickRows_get _ _ (by intro k hk; obtain ⟨i, rfl⟩ := (List.mem_ofFn' _ _).1 hk; rw [hl]; exact (σ i).isLt)]
    simp

/-! ### Predictions -/

/-- The predictions of the rows `σ 0, σ 1, …`. -/
def Spec.pickPred {n m : ℕ} (σ : Fin m → Fin n) : Pred n → Pred m
  | .vec v => .vec (v ∘ σ)
  | .mat cols => .mat (cols.map (· ∘ σ))

open Spec (pickPred)

variable {n m : ℕ}

theorem xbeta_pick (p : ℕ) (X : Fin n → ℕ → ℝ) (σ : Fin m → Fin n) (off : Option (Fin n → ℝ)) (c : ℕ → ℝ) (b : ℝ) :
    addOffset (off.map (· ∘ σ)) (xbeta p (fun i => X (σ i)) c b) = addOffset off (xbeta p X c b) ∘ σ := by
  cases off <;> rfl

theorem option_map_pick {α β γ : Type} (o : Option α) (f : α → Option β) (g : α → Option γ) (k : β → γ) (h : ∀ a, g a = (f a).map k) :
    (o.bind g) = (o.bind f).map k := by
  cases o with
  | none => rfl
  | some a => exact h a

theorem mapM_map_pick {α β γ : Type} (f : α → Option β) (g : α → Option γ) (k : β → γ) (h : ∀ a, g a = (f a).map k) :
    ∀ l : List α, l.mapM g = (l.mapM f).map (List.map k)
  | [] => rfl
  | a :: l => by
    rw [List.mapM_cons, List.mapM_cons, h a]
    cases f a with
    | none => rfl
    | some b =>
      simp only [Option.map_some, bind, Option.bind_some, mapM_map_pick f g k h l]
      cases l.mapM f <;> rfl

theorem compute_pick (p : ℕ) (r : PathResult) (X : Fin n → ℕ → ℝ) (σ : Fin m → Fin n) (off : Option (Fin n → ℝ)) (idx : ScalarOrList ℤ) :
    computeLinearPredictor p (fun i => X (σ i)) (off.map (· ∘ σ)) r idx = (computeLinearPredictor p X off r idx).map (pickPred σ) := by
  cases idx with
  | none =>
    simp only [computeLinearPredictor, Option.map_some, Spec.pickPred]
    rw [xbeta_pick]
  | one i =>
    simp only [computeLinearPredictor]
    refine option_map_pick _ _ _ _ fun c => ?_
    refine option_map_pick _ _ _ _ fun b => ?_
    rw [xbeta_pick]; rfl
  | many l =>
    simp only [computeLinearPredictor]
    rw [mapM_map_pick (fun i => do
        let c ← pyGet r.coefPath i
        let b ← pyGet r.interceptPath i
        some (addOffset off (xbeta p X c b))) _ (· ∘ σ) (fun i => by
      refine option_map_pick _ _ _ _ fun c => ?_
      refine option_map_pick _ _ _ _ fun b => ?_
      rw [xbeta_pick]; rfl) l]
    cases List.mapM (fun i => do
        let c ← pyGet r.coefPath i
        let b ← pyGet r.interceptPath i
        some (addOffset off (xbeta p X c b))) l with
    | none => rfl
    | some cols =>
      simp only [Option.map_some, bind, Option.bind_some]
      split <;> rfl

theorem linearPredictor_pick (p : ℕ) (search : Bool) (r : PathResult) (X : Fin n → ℕ → ℝ) (σ : Fin m → Fin n) (off : Option (Fin n → ℝ)) (idx : ScalarOrList ℤ)
    (alpha : ScalarOrList ℝ) :
    linearPredictor p search r (fun i => X (σ i)) (off.map (· ∘ σ)) idx alpha = (linearPredictor p search r X off idx alpha).map (pickPred σ) := by
  cases search with
  | false =>
    cases idx <;> cases alpha <;> first | exact compute_pick p r X σ off .none | rfl
  | true =>
    simp only [linearPredictor]
    exact option_map_pick _ _ _ _ fun i => compute_pick p r X σ off i

theorem map_pick (f : ℝ → ℝ) (σ : Fin m → Fin n) (P : Pred n) : (pickPred σ P).map f = pickPred σ (P.map f) := by
  cases P with
  | vec v => rfl
  | mat cols => simp [Spec.pickPred, Pred.map, Function.comp_def]

/-- **C104, matrices.** `predict` on a selection of rows (in any order, with repetitions) is the selection of the predictions; it raises exactly if `predict` on all rows does. -/
theorem c104_matrix (e50 : ℝ) (l : Link) (p : ℕ) (search : Bool) (r : PathResult) (X : Fin n → ℕ → ℝ) (σ : Fin m → Fin n) (off : Option (Fin n → ℝ)) (idx : ScalarOrList ℤ)
    (alpha : ScalarOrList ℝ) :
    predictWith e50 l (linearPredictor p search r (fun i => X (σ i)) (off.map (· ∘ σ)) idx alpha) none =
      (predictWith e50 l (linearPredictor p search r X off idx alpha) none).map (pickPred σ) ∧
    predictWith e50 l (linearPredictorCV p r (fun i => X (σ i)) (off.map (· ∘ σ)) idx alpha) none =
      (predictWith e50 l (linearPredictorCV p r X off idx alpha) none).map (pickPred σ) := by
  have hl : ∀ o : Option (Pred n), predictWith e50 l (o.map (pickPred σ)) none = (predictWith e50 l o none).map (pickPred σ) := by
    intro o
    cases o with
    | none => rfl
    | some P => exact congrArg some (map_pick _ σ P)
  rw [linearPredictor_pick]
  refine ⟨hl _, ?_⟩
  have e : linearPredictorCV p r (fun i => X (σ i)) (off.map (· ∘ σ)) idx alpha = (linearPredictorCV p r X off idx alpha).map (pickPred σ) := by
    unfold linearPredictorCV
    exact option_map_pick _ _ _ _ fun i => compute_pick p r X σ off i
  rw [e]
  exact hl _

/-- **C104, weights.** With `sample_weight` and one prediction per row: the selection of the weighted predictions. -/
theorem c104_weights (e50 : ℝ) (l : Link) (p : ℕ) (search : Bool) (r : PathResult) (X : Fin n → ℕ → ℝ) (σ : Fin m → Fin n) (off : Option (Fin n → ℝ)) (idx : ScalarOrList ℤ)
    (alpha : ScalarOrList ℝ) (a a' : WeightArg) (w : Fin n → ℝ) (ha : checkWeights n a = some w) (ha' : checkWeights m a' = some (w ∘ σ)) (v : Fin n → ℝ)
    (h : predictWith e50 l (linearPredictor p search r X off idx alpha) (some a) = some (.vec v)) :
    predictWith e50 l (linearPredictor p search r (fun i => X (σ i)) (off.map (· ∘ σ)) idx alpha) (some a') = some (.vec (v ∘ σ)) := by
  rw [linearPredictor_pick]
  unfold predictWith at h ⊢
  obtain ⟨eta, he, h⟩ := Option.bind_eq_some_iff.1 h
  rw [he]
  simp only [ha, ha', bind, Option.bind_some, Option.map_some] at h ⊢
  cases eta with
  | vec u =>
    simp only [Pred.map, Pred.mulWeights, Spec.pickPred, Option.some.injEq, Pred.vec.injEq] at h ⊢
    rw [← h]; rfl
  | mat cols =>
    exfalso
    simp only [Pred.map, Pred.mulWeights] at h
    split at h
    · simp at h
    · split at h
      · simp at h
      · split at h <;> simp at h

/-- **C104, data frames.** `predict` on the rows `σ 0, σ 1, …` of a data frame, categorical columns included, is the selection of the predictions, whichever categories occur in
the selection. -/
theorem c104_frame (C : CatConfig) (F : FrameFit) (e50 : ℝ) (l : Link) (search : Bool) (r : PathResult) (df : DFrame) (hn : HasRows n df) (hm : 0 < m) (σ : Fin m → Fin n)
    (off : Option (Fin n → ℝ)) (idx : ScalarOrList ℤ) (alpha : ScalarOrList ℝ) (P : Pred n) (h : predictFrame n C F e50 l search r df none off idx alpha = some P) :
    predictFrame m C F e50 l search r (pickFrame (List.ofFn fun i => (σ i).val) df) none (off.map (· ∘ σ)) idx alpha = some (pickPred σ P) := by
  unfold predictFrame at h ⊢
  obtain ⟨cols, hc, h⟩ := Option.bind_eq_some_iff.1 h
  rw [convertFrame_pick C F df _ hc]
  simp only [bind, Option.bind_some, List.length_map]
  split at h
  · cases h
  · next h0 =>
    push Not at h0
    rw [if_neg (by push Not; exact ⟨by omega, h0.2⟩), colMatrix_pick σ cols (convertFrame_length hn hc), (c104_matrix e50 l _ search r _ σ off idx alpha).1, h]
    rfl

/-! ### Errors come from rows -/

theorem pickRows_one {α : Type} (v : List α) (i : ℕ) (hi : i < v.length) : pickRows [i] v = [v[i]] := by
  unfold Spec.pickRows
  rw [List.filterMap_cons_some (List.getElem?_eq_getElem hi)]; rfl

theorem fromDfCol_rows (d : Bool) (m : MissingMethod) (hm : m ≠ .convert) (missing : String) (c : Col)
    (h : ∀ i < colRows c, fromDfCol d m missing (pickCol [i] c) ≠ none) : fromDfCol d m missing c ≠ none := by
  cases c with
  | num v => simp [fromDfCol]
  | str v => simp [fromDfCol]
  | cat e cats codes =>
    simp only [fromDfCol, Spec.pickCol, Spec.colRows] at h ⊢
    split
    · next hn =>
      cases m with
      | convert => exact absurd rfl hm
      | zero => simp
      | fail =>
        obtain ⟨i, hi, e⟩ := List.getElem_of_mem hn
        have := h i hi
        rw [pickRows_one _ _ hi, e] at this
        simp at this
    · simp

theorem check_rows (m : MissingMethod) (L : LevelInfo) (c : Col) (hc : ∀ v, c ≠ .num v) (h : ∀ i < colRows c, alignCol.check m L (pickCol [i] c) ≠ none) :
    alignCol.check m L c ≠ none := by
  rw [← values_length c hc] at h
  unfold alignCol.check at h ⊢
  simp only [pickCol_values] at h ⊢
  have key : ∀ P : Option String → Bool, (∀ i < c.values.length, (pickRows [i] c.values).filter P = []) → c.values.filter P = [] := by
    intro P hP
    rw [List.filter_eq_nil_iff]
    intro a ha
    obtain ⟨i, hi, rfl⟩ := List.getElem_of_mem ha
    have := hP i hi
    rw [pickRows_one _ _ hi, List.filter_eq_nil_iff] at this
    exact this _ (by simp)
  by_cases hm : m = .convert ∧ L.hasMissing = false
  · simp only [if_pos hm] at h ⊢
    rw [if_pos (key _ fun i hi => by by_contra hne; exact h i hi (if_neg hne))]
    simp
  · simp only [if_neg hm] at h ⊢
    rw [if_pos (key _ fun i hi => by by_contra hne; exact h i hi (if_neg hne))]
    simp

theorem alignCol_rows (m : MissingMethod) (L : LevelInfo) (c : Col) (h0 : 0 < colRows c) (h : ∀ i < colRows c, alignCol m L (pickCol [i] c) ≠ none) :
    alignCol m L c ≠ none := by
  cases c with
  | num v => exact absurd rfl (h 0 h0)
  | str v => exact check_rows m L (.str v) (by simp) h
  | cat e cats codes =>
    cases e with
    | false => exact check_rows m L (.cat false cats codes) (by simp) h
    | true =>
      simp only [alignCol, Spec.pickCol] at h ⊢
      by_cases hc : cats = L.levels
      · rw [if_pos hc]; simp
      · rw [if_neg hc]
        refine check_rows m L (.cat true cats codes) (by simp) fun i hi => ?_
        have := h i hi
        rwa [if_neg hc] at this

theorem addMissingCol_rows (missing : String) (b : Bool) (c : Col) (i : ℕ) (h : addMissingCol missing b (pickCol [i] c) ≠ none) : addMissingCol missing b c ≠ none := by
  cases c with
  | num v => cases b <;> simp [addMissingCol, Spec.pickCol] at h ⊢
  | str v => cases b <;> simp [addMissingCol, Spec.pickCol] at h ⊢
  | cat e cats codes =>
    cases b with
    | false => simp [addMissingCol]
    | true =>
      simp only [addMissingCol, Spec.pickCol, if_true] at h ⊢
      by_cases hc : missing ∈ cats
      · rw [if_pos hc] at h; exact absurd rfl h
      · rw [if_neg hc]; simp

theorem convertCol_rows (C : CatConfig) (F : FrameFit) (nc : String × Col) (h0 : 0 < colRows nc.2)
    (h : ∀ i < colRows nc.2, convertCol C F (nc.1, pickCol [i] nc.2) ≠ none) : convertCol C F nc ≠ none := by
  unfold convertCol at h ⊢
  simp only at h ⊢
  cases hL : F.levels.lookup nc.1 with
  | none =>
    simp only [hL] at h ⊢
    exact fromDfCol_rows _ _ (by split <;> simp_all) _ _ h
  | some L =>
    simp only [hL] at h ⊢
    have hal : alignCol C.method L nc.2 ≠ none := by
      refine alignCol_rows _ _ _ h0 fun i hi e => h i hi ?_
      simp only [e, bind, Option.bind_none]
    obtain ⟨c1, h1⟩ := Option.ne_none_iff_exists'.1 hal
    have hlen := alignCol_length h1
    have h' : ∀ i < colRows c1, (if C.method = .convert then (addMissingCol C.missing (F.featureNames.contains (C.fmt nc.1 C.missing)) (pickCol [i] c1)).bind fun c =>
        fromDfCol C.dropFirst .fail C.missing c else fromDfCol C.dropFirst C.method C.missing (pickCol [i] c1)) ≠ none := by
      intro i hi
      have := h i (by rwa [← hlen])
      simp only [alignCol_pick _ _ _ _ [i] h1, bind, Option.bind_some] at this
      exact this
    simp only [h1, bind, Option.bind_some]
    by_cases hm : C.method = .convert
    · simp only [if_pos hm] at h' ⊢
      have hadd : addMissingCol C.missing (F.featureNames.contains (C.fmt nc.1 C.missing)) c1 ≠ none := by
        refine addMissingCol_rows _ _ _ 0 fun e => h' 0 (by rw [hlen]; exact h0) ?_
        simp only [e, Option.bind_none]
      obtain ⟨c2, h2⟩ := Option.ne_none_iff_exists'.1 hadd
      rw [h2, Option.bind_some]
      refine fromDfCol_rows _ .fail (by simp) _ _ fun i hi => ?_
      have := h' i (by rw [← addMissingCol_length h2]; exact hi)
      rwa [addMissingCol_pick _ _ _ _ [i] h2] at this
    · simp only [if_neg hm] at h' ⊢
      exact fromDfCol_rows _ _ hm _ _ h'

theorem mapM_ne_none {α β : Type} (f : α → Option β) : ∀ l : List α, l.mapM f ≠ none ↔ ∀ a ∈ l, f a ≠ none
  | [] => by simp
  | a :: l => by
    rw [List.mapM_cons, List.forall_mem_cons, ← mapM_ne_none f l]
    cases f a with
    | none => simp
    | some b => cases l.mapM f <;> simp

theorem convertFrame_rows (C : CatConfig) (F : FrameFit) (df : DFrame) (n : ℕ) (hn : HasRows n df) (h0 : 0 < n)
    (h : ∀ i < n, convertFrame C F (pickFrame [i] df) ≠ none) : convertFrame C F df ≠ none := by
  unfold convertFrame at h ⊢
  have hk : ∀ rows, (∃ l ∈ F.levels, C.fmt l.1 C.missing ∈ F.featureNames ∧ ∀ nc ∈ pickFrame rows df, nc.1 ≠ l.1) ↔
      ∃ l ∈ F.levels, C.fmt l.1 C.missing ∈ F.featureNames ∧ ∀ nc ∈ df, nc.1 ≠ l.1 := by
    intro rows
    unfold Spec.pickFrame
    simp only [List.forall_mem_map]
  by_cases hc : C.method = .convert ∧ ∃ l ∈ F.levels, C.fmt l.1 C.missing ∈ F.featureNames ∧ ∀ nc ∈ df, nc.1 ≠ l.1
  · exact absurd (if_pos (by rwa [hk])) (h 0 h0)
  · rw [if_neg hc]
    have h' : ∀ i < n, ∀ nc ∈ df, convertCol C F (nc.1, pickCol [i] nc.2) ≠ none := by
      intro i hi nc hnc
      have := h i hi
      rw [if_neg (by rwa [hk])] at this
      have h2 := (mapM_ne_none (convertCol C F) (pickFrame [i] df)).1 (fun e => this (by rw [e]; rfl))
      exact h2 _ (List.mem_map.2 ⟨nc, hnc, rfl⟩)
    obtain ⟨r, hr⟩ := Option.ne_none_iff_exists'.1 ((mapM_ne_none (convertCol C F) df).2 fun nc hnc =>
      convertCol_rows C F nc (by rw [hn nc hnc]; exact h0) fun i hi => h' i (by rwa [← hn nc hnc]) nc hnc)
    rw [hr]; simp

/-- **C104, errors.** `predict` on a data frame raises exactly if it raises for one of the rows taken alone. -/
theorem c104_errors (C : CatConfig) (F : FrameFit) (e50 : ℝ) (l : Link) (search : Bool) (r : PathResult) (df : DFrame) (hn : HasRows n df) (h0 : 0 < n)
    (off : Option (Fin n → ℝ)) (idx : ScalarOrList ℤ) (alpha : ScalarOrList ℝ) :
    predictFrame n C F e50 l search r df none off idx alpha = none ↔
      ∃ i : Fin n, predictFrame 1 C F e50 l search r (pickFrame [i.val] df) none (off.map fun o _ => o i) idx alpha = none := by
  have hone : ∀ i : Fin n, List.ofFn (fun _ : Fin 1 => i.val) = [i.val] := fun i => by simp
  constructor
  · intro h
    by_contra hne
    push Not at hne
    have hconv : convertFrame C F df ≠ none := by
      refine convertFrame_rows C F df n hn h0 fun i hi e => hne ⟨i, hi⟩ ?_
      unfold predictFrame
      rw [e]; rfl
    obtain ⟨cols, hc⟩ := Option.ne_none_iff_exists'.1 hconv
    have h1 := hne ⟨0, h0⟩
    unfold predictFrame at h h1
    rw [← hone ⟨0, h0⟩, convertFrame_pick C F df _ hc] at h1
    rw [hc] at h
    simp only [bind, Option.bind_some, List.length_map] at h h1
    by_cases hl : cols.length = F.design.length
    · rw [if_neg (by push Not; exact ⟨by omega, hl⟩)] at h h1
      rw [colMatrix_pick (fun _ => ⟨0, h0⟩) cols (convertFrame_length hn hc)] at h1
      have e := (c104_matrix e50 l cols.length search r (colMatrix cols) (fun _ : Fin 1 => (⟨0, h0⟩ : Fin n)) off idx alpha).1
      rw [h] at e
      exact h1 e
    · exact h1 (if_pos (Or.inr hl))
  · rintro ⟨i, hi⟩
    by_contra hne
    obtain ⟨P, hP⟩ := Option.ne_none_iff_exists'.1 hne
    have := c104_frame C F e50 l search r df hn Nat.one_pos (fun _ => i) off idx alpha P hP
    rw [hone] at this
    have e : (off.map (· ∘ fun _ : Fin 1 => i)) = off.map fun o _ => o i := rfl
    rw [e, hi] at this
    cases this

/-- A frame with a number and a categorical column. -/
def rowsDf : DFrame := [("x", .num [1, 2, 3]), ("c", .cat true ["u", "v"] [some 0, some 1, none])]

/-- The hypotheses are met: three rows, one of them with a missing category, predicted from a fit on the same frame. -/
example : HasRows 3 rowsDf ∧ ∃ F, fitFrame ⟨false, .zero, "(MISSING)", fun a b => a ++ b⟩ rowsDf = some F ∧ F.design.length = 3 ∧
    predictFrame 3 ⟨false, .zero, "(MISSING)", fun a b => a ++ b⟩ F 50 .identity false { coef := fun _ => 1, intercept := 2, coefPath := [fun _ => 1], interceptPath := [2], alphas := [1] } rowsDf none none .none .none ≠ none := by
  refine ⟨by simp [Spec.HasRows, rowsDf, Spec.colRows], ⟨_, rfl, rfl, ?_⟩⟩
  exact Option.some_ne_none _

end Glum
