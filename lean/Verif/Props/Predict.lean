import Verif.Model.Predict
import Verif.Props.Distribution
import Mathlib.Data.List.GetD
import Mathlib.Data.List.Forall2
/-
C42, C43, C44, C45: prediction.
-/
set_option linter.unusedSectionVars false
set_option linter.unusedVariables false

namespace Glum
open Spec

variable {n : ℕ}

/-! ### C42 -/

theorem argminVal_spec (l : List ℝ) (i : ℕ) (m : ℝ) (h : argminVal l = some (i, m)) :
    l[i]? = some m ∧ (∀ x ∈ l, m ≤ x) ∧ ∀ j x, j < i → l[j]? = some x → m < x := by
  induction l generalizing i m with
  | nil => simp [argminVal] at h
  | cons x r ih =>
    unfold argminVal at h
    cases hr : argminVal r with
    | none =>
      rw [hr] at h
      simp only [Option.some.injEq, Prod.mk.injEq] at h
      obtain ⟨rfl, rfl⟩ := h
      have : r = [] := by
        cases r with
        | nil => rfl
        | cons y r' =>
          unfold argminVal at hr
          cases h' : argminVal r' with
          | none => rw [h'] at hr; simp at hr
          | some q => rw [h'] at hr; simp only at hr; split at hr <;> simp at hr
      subst this
      exact ⟨rfl, by simp, fun j _ hj => by omega⟩
    | some q =>
      obtain ⟨i', m'⟩ := q
      rw [hr] at h
      obtain ⟨a, b, c⟩ := ih i' m' hr
      simp only at h
      split at h
      · next hx =>
        simp only [Option.some.injEq, Prod.mk.injEq] at h
        obtain ⟨rfl, rfl⟩ := h
        refine ⟨rfl, ?_, fun j _ hj => by omega⟩
        intro z hz
        rcases List.mem_cons.1 hz with rfl | hz
        · exact le_rfl
        · exact hx.trans (b z hz)
      · next hx =>
        simp only [Option.some.injEq, Prod.mk.injEq] at h
        obtain ⟨rfl, rfl⟩ := h
        rw [not_le] at hx
        refine ⟨by simpa using a, ?_, ?_⟩
        · intro z hz
          rcases List.mem_cons.1 hz with rfl | hz
          · exact hx.le
          · exact b z hz
        · intro j z hj hz
          cases j with
          | zero => simp at hz; rw [← hz]; exact hx
          | succ j => exact c j z (by omega) (by simpa using hz)

theorem argminVal_some (l : List ℝ) (h : l ≠ []) : ∃ q, argminVal l = some q := by
  cases l with
  | nil => exact absurd rfl h
  | cons x r =>
    unfold argminVal
    cases argminVal r with
    | none => exact ⟨_, rfl⟩
    | some q => simp only; split <;> exact ⟨_, rfl⟩

/-- **C42, the lookup.** `alpha=a` resolves to index `i` exactly if `i` is the first position of the path whose alpha is nearest to `a`
and that alpha is within relative tolerance `1e-5` of `a`. -/
theorem c42_lookup (alphas : List ℝ) (a : ℝ) (i : ℕ) :
    findAlphaIndex alphas a = some i ↔
      ∃ x, alphas[i]? = some x ∧ (∀ y ∈ alphas, |x - a| ≤ |y - a|) ∧
        (∀ j y, j < i → alphas[j]? = some y → |x - a| < |y - a|) ∧ |x - a| ≤ 10 ^ (-5 : ℤ) * |a| := by
  have htol : (10 : ℝ) ^ (-5 : ℤ) = 1 / 100000 := by norm_num
  constructor
  · intro h
    unfold findAlphaIndex argmin at h
    simp only [Option.bind_eq_bind] at h
    cases hq : argminVal (alphas.map fun x => |x - a|) with
    | none => rw [hq] at h; simp at h
    | some q =>
      obtain ⟨i', m⟩ := q
      obtain ⟨h1, h2, h3⟩ := argminVal_spec _ _ _ hq
      rw [hq] at h
      simp only [Option.map_some, Option.bind_some] at h
      rw [List.getElem?_map] at h1
      obtain ⟨x, hx, rfl⟩ := Option.map_eq_some_iff.1 h1
      rw [hx] at h
      simp only [Option.bind_some] at h
      split at h
      · next hc =>
        obtain rfl := Option.some.inj h
        refine ⟨x, hx, fun y hy => h2 _ (List.mem_map.2 ⟨y, hy, rfl⟩), ?_, by rw [htol]; exact hc⟩
        intro j y hj hy
        exact h3 j _ hj (by rw [List.getElem?_map, hy]; rfl)
      · simp at h
  · rintro ⟨x, hx, hmin, hfirst, htl⟩
    have hne : (alphas.map fun x => |x - a|) ≠ [] := by
      intro hh
      have : alphas = [] := List.map_eq_nil_iff.1 hh
      rw [this] at hx; simp at hx
    obtain ⟨⟨i', m⟩, hq⟩ := argminVal_some _ hne
    obtain ⟨h1, h2, h3⟩ := argminVal_spec _ _ _ hq
    rw [List.getElem?_map] at h1
    obtain ⟨x', hx', rfl⟩ := Option.map_eq_some_iff.1 h1
    have hii : i' = i := by
      rcases lt_trichotomy i' i with h | h | h
      · have a1 := hfirst i' x' h hx'
        have a2 := h2 |x - a| (List.mem_map.2 ⟨x, List.mem_of_getElem? hx, rfl⟩)
        linarith
      · exact h
      · have a1 := h3 i |x - a| h (by rw [List.getElem?_map, hx]; rfl)
        have a2 := hmin x' (List.mem_of_getElem? hx')
        linarith
    subst hii
    unfold findAlphaIndex argmin
    simp only [Option.bind_eq_bind, hq, Option.map_some, Option.bind_some, hx]
    rw [if_pos]
    unfold isclose
    rw [← htol]; exact htl

/-- **C42, when it is found.** The lookup succeeds exactly if some alpha of the path is within the tolerance. -/
theorem c42_found (alphas : List ℝ) (a : ℝ) :
    (∃ i, findAlphaIndex alphas a = some i) ↔ ∃ x ∈ alphas, |x - a| ≤ 10 ^ (-5 : ℤ) * |a| := by
  constructor
  · rintro ⟨i, hi⟩
    obtain ⟨x, hx, -, -, ht⟩ := (c42_lookup alphas a i).1 hi
    exact ⟨x, List.mem_of_getElem? hx, ht⟩
  · rintro ⟨x, hx, ht⟩
    have hne : (alphas.map fun x => |x - a|) ≠ [] := by
      intro hh
      have : alphas = [] := List.map_eq_nil_iff.1 hh
      rw [this] at hx; simp at hx
    obtain ⟨⟨i', m⟩, hq⟩ := argminVal_some _ hne
    obtain ⟨h1, h2, h3⟩ := argminVal_spec _ _ _ hq
    rw [List.getElem?_map] at h1
    obtain ⟨x', hx', rfl⟩ := Option.map_eq_some_iff.1 h1
    refine ⟨i', (c42_lookup alphas a i').2 ⟨x', hx', fun y hy => h2 _ (List.mem_map.2 ⟨y, hy, rfl⟩), ?_, ?_⟩⟩
    · intro j y hj hy
      exact h3 j _ hj (by rw [List.getElem?_map, hy]; rfl)
    · exact (h2 _ (List.mem_map.2 ⟨x, hx, rfl⟩)).trans ht

/-- What the linear predictor of a coefficient vector is: `X b + b0 + offset`. -/
def Spec.etaOf (p : ℕ) (X : Fin n → ℕ → ℝ) (off : Option (Fin n → ℝ)) (b : ℕ → ℝ) (b0 : ℝ) (i : Fin n) : ℝ :=
  ∑ j : Fin p, X i j * b j + b0 + off.elim 0 fun o => o i

theorem addOffset_xbeta (p : ℕ) (X : Fin n → ℕ → ℝ) (off : Option (Fin n → ℝ)) (b : ℕ → ℝ) (b0 : ℝ) :
    addOffset off (xbeta p X b b0) = etaOf p X off b b0 := by
  funext i
  unfold etaOf
  cases off with
  | none => simp only [addOffset, xbeta, Finset.sum_range, Option.elim_none, add_zero]
  | some o => simp only [addOffset, xbeta, Finset.sum_range, Option.elim_some]

theorem pyGet_nat {α : Type} (l : List α) (i : ℕ) : pyGet l (i : ℤ) = l[i]? := by
  unfold pyGet; rw [if_pos (by omega)]; simp

/-- **C42, prediction at an alpha.** After a fit with `alpha_search`: predicting at `a` uses the coefficients fitted for the nearest alpha of
the path (the first nearest one), and raises if none is within the tolerance. -/
theorem c42_predict_at (p : ℕ) (r : PathResult) (hc : r.coefPath.length = r.alphas.length)
    (hi : r.interceptPath.length = r.alphas.length) (X : Fin n → ℕ → ℝ) (off : Option (Fin n → ℝ)) (a : ℝ) :
    ((∀ x ∈ r.alphas, 10 ^ (-5 : ℤ) * |a| < |x - a|) → linearPredictor p true r X off .none (.one a) = none) ∧
    ((∃ x ∈ r.alphas, |x - a| ≤ 10 ^ (-5 : ℤ) * |a|) →
      ∃ (i : ℕ) (h : i < r.alphas.length), (∀ y ∈ r.alphas, |r.alphas[i] - a| ≤ |y - a|) ∧
        (∀ j (hj : j < i), |r.alphas[i] - a| < |r.alphas[j] - a|) ∧
        linearPredictor p true r X off .none (.one a) = some (.vec (etaOf p X off r.coefPath[i] r.interceptPath[i]))) := by
  have step : ∀ i, findAlphaIndex r.alphas a = some i → ∀ h : i < r.alphas.length,
      linearPredictor p true r X off .none (.one a) = some (.vec (etaOf p X off r.coefPath[i] r.interceptPath[i])) := by
    intro i hfi h
    unfold linearPredictor resolveAlphaIndex
    simp only [hfi, Option.map_some, Option.bind_eq_bind, Option.bind_some, computeLinearPredictor, pyGet_nat]
    rw [List.getElem?_eq_getElem (by omega), List.getElem?_eq_getElem (by omega)]
    simp only [Option.bind_some]
    rw [addOffset_xbeta]
  constructor
  · intro hno
    have : findAlphaIndex r.alphas a = none := by
      cases hfi : findAlphaIndex r.alphas a with
      | none => rfl
      | some i =>
        obtain ⟨x, hx, ht⟩ := (c42_found r.alphas a).1 ⟨i, hfi⟩
        exact absurd ht (not_le.2 (hno x hx))
    unfold linearPredictor resolveAlphaIndex
    simp [this]
  · intro hex
    obtain ⟨i, hfi⟩ := (c42_found r.alphas a).2 hex
    obtain ⟨x, hx, h1, h2, -⟩ := (c42_lookup r.alphas a i).1 hfi
    obtain ⟨hlt, hxe⟩ := List.getElem?_eq_some_iff.1 hx
    subst hxe
    refine ⟨i, hlt, h1, fun j hj => h2 j _ hj (List.getElem?_eq_getElem (by omega)), step i hfi hlt⟩

/-- **C42, a member of the path.** If the alphas are distinct, predicting at the `k`-th one uses exactly the `k`-th coefficients. -/
theorem c42_member (p : ℕ) (r : PathResult) (hd : r.alphas.Nodup) (hc : r.coefPath.length = r.alphas.length)
    (hi : r.interceptPath.length = r.alphas.length) (X : Fin n → ℕ → ℝ) (off : Option (Fin n → ℝ)) (k : ℕ) (hk : k < r.alphas.length) :
    linearPredictor p true r X off .none (.one r.alphas[k]) = some (.vec (etaOf p X off r.coefPath[k] r.interceptPath[k])) := by
  obtain ⟨i, h, hmin, -, hres⟩ := (c42_predict_at p r hc hi X off r.alphas[k]).2
    ⟨r.alphas[k], List.getElem_mem hk, by simp⟩
  have h0 := hmin _ (List.getElem_mem hk)
  rw [sub_self, abs_zero] at h0
  have : r.alphas[i] = r.alphas[k] := by
    have := abs_nonpos_iff.1 h0
    linarith
  have hik : i = k := (List.Nodup.getElem_inj_iff hd).1 this
  subst hik
  exact hres

/-! ### C43 -/

theorem mapM_forall2 {α β : Type} (f : α → Option β) (l : List α) (r : List β) :
    l.mapM f = some r ↔ List.Forall₂ (fun a b => f a = some b) l r := by
  induction l generalizing r with
  | nil => simp [eq_comm]
  | cons a l ih =>
    simp only [List.mapM_cons, Option.bind_eq_bind]
    constructor
    · intro h
      cases ha : f a with
      | none => rw [ha] at h; simp at h
      | some b =>
        rw [ha] at h
        simp only [Option.bind_some] at h
        cases hl : l.mapM f with
        | none => rw [hl] at h; simp at h
        | some rl =>
          rw [hl] at h
          simp only [Option.bind_some, Option.pure_def, Option.some.injEq] at h
          subst h
          exact List.Forall₂.cons ha ((ih rl).1 hl)
    · intro h
      cases h with
      | cons hab hrest =>
        rw [hab, (ih _).2 hrest]
        rfl

theorem many_index (p : ℕ) (r : PathResult) (X : Fin n → ℕ → ℝ) (off : Option (Fin n → ℝ)) (l : List ℤ) (hl : l ≠ []) (cols : List (Fin n → ℝ)) :
    computeLinearPredictor p X off r (.many l) = some (.mat cols) ↔
      List.Forall₂ (fun i c => computeLinearPredictor p X off r (.one i) = some (.vec c)) l cols := by
  unfold computeLinearPredictor
  simp only [Option.bind_eq_bind]
  have hcore : ∀ i c, (((pyGet r.coefPath i).bind fun c => (pyGet r.interceptPath i).bind fun b =>
        some (Pred.vec (addOffset off (xbeta p X c b)))) = some (.vec c)) ↔
      (((pyGet r.coefPath i).bind fun c => (pyGet r.interceptPath i).bind fun b => some (addOffset off (xbeta p X c b))) = some c) := by
    intro i c
    cases pyGet r.coefPath i <;> cases pyGet r.interceptPath i <;> simp
  simp only [hcore, ← mapM_forall2]
  cases hm : l.mapM (m := Option) (fun i => (pyGet r.coefPath i).bind fun c => (pyGet r.interceptPath i).bind fun b =>
      some (addOffset off (xbeta p X c b))) with
  | none => simp
  | some cols' => simp [hl]

/-- **C43, by index.** For every non-empty list of indices: the result is the matrix with columns `cols` exactly if predicting for the
single indices gives the vectors `cols`, in order (so it raises exactly if one of them does). -/
theorem c43_alpha_index (p : ℕ) (search : Bool) (r : PathResult) (X : Fin n → ℕ → ℝ) (off : Option (Fin n → ℝ)) (l : List ℤ) (hl : l ≠ [])
    (cols : List (Fin n → ℝ)) :
    linearPredictor p search r X off (.many l) .none = some (.mat cols) ↔
      List.Forall₂ (fun i c => linearPredictor p search r X off (.one i) .none = some (.vec c)) l cols := by
  cases search with
  | true =>
    simp only [linearPredictor, resolveAlphaIndex, Option.bind_eq_bind, Option.bind_some]
    exact many_index p r X off l hl cols
  | false =>
    simp only [linearPredictor]
    constructor
    · intro h; cases h
    · intro h
      cases l with
      | nil => exact absurd rfl hl
      | cons i l => cases h with | cons h1 _ => cases h1

/-- **C43, by alpha.** The same for a non-empty list of alphas, for both estimators. -/
theorem c43_alpha (p : ℕ) (search : Bool) (r : PathResult) (X : Fin n → ℕ → ℝ) (off : Option (Fin n → ℝ)) (l : List ℝ) (hl : l ≠ [])
    (cols : List (Fin n → ℝ)) :
    (linearPredictor p search r X off .none (.many l) = some (.mat cols) ↔
      List.Forall₂ (fun a c => linearPredictor p search r X off .none (.one a) = some (.vec c)) l cols) ∧
    (linearPredictorCV p r X off .none (.many l) = some (.mat cols) ↔
      List.Forall₂ (fun a c => linearPredictorCV p r X off .none (.one a) = some (.vec c)) l cols) := by
  have main : linearPredictorCV p r X off .none (.many l) = some (.mat cols) ↔
      List.Forall₂ (fun a c => linearPredictorCV p r X off .none (.one a) = some (.vec c)) l cols := by
    unfold linearPredictorCV resolveAlphaIndex
    simp only [Option.bind_eq_bind]
    cases hm : l.mapM (findAlphaIndex r.alphas) with
    | none =>
      simp only [Option.map_none, Option.bind_none]
      constructor
      · intro h; cases h
      · intro h
        exfalso
        -- every single lookup succeeds, so the list lookup does
        have : ∀ (l : List ℝ) (cols : List (Fin n → ℝ)),
            List.Forall₂ (fun a c => (((findAlphaIndex r.alphas a).map fun i : ℕ => ScalarOrList.one (i : ℤ)).bind
              fun i => computeLinearPredictor p X off r i) = some (.vec c)) l cols → ∃ q, l.mapM (findAlphaIndex r.alphas) = some q := by
          intro l cols h
          induction h with
          | nil => exact ⟨[], rfl⟩
          | @cons a c l cols h1 h2 ih =>
            obtain ⟨q, hq⟩ := ih
            cases hfa : findAlphaIndex r.alphas a with
            | none => rw [hfa] at h1; cases h1
            | some i => exact ⟨i :: q, by simp [List.mapM_cons, hfa, hq]⟩
        obtain ⟨q, hq⟩ := this l cols h
        rw [hm] at hq; cases hq
    | some is =>
      simp only [Option.map_some, Option.bind_some]
      have hf := (mapM_forall2 _ _ _).1 hm
      have hne : is.map (fun i : ℕ => (i : ℤ)) ≠ [] := by
        intro hh
        have : is = [] := List.map_eq_nil_iff.1 hh
        subst this
        cases hf; exact hl rfl
      rw [many_index p r X off _ hne cols]
      have : ∀ (l : List ℝ) (is : List ℕ), List.Forall₂ (fun a b => findAlphaIndex r.alphas a = some b) l is → ∀ cols,
          (List.Forall₂ (fun i c => computeLinearPredictor p X off r (.one i) = some (.vec c)) (is.map fun i : ℕ => (i : ℤ)) cols ↔
           List.Forall₂ (fun a c => (((findAlphaIndex r.alphas a).map fun i : ℕ => ScalarOrList.one (i : ℤ)).bind
              fun i => computeLinearPredictor p X off r i) = some (.vec c)) l cols) := by
        intro l is h
        induction h with
        | nil => intro cols; cases cols <;> simp
        | @cons a i l is h1 h2 ih =>
          intro cols
          cases cols with
          | nil => simp
          | cons c cols =>
            simp only [List.map_cons, List.forall₂_cons, h1, Option.map_some, Option.bind_some, ih cols]
      exact this l is hf cols
  refine ⟨?_, main⟩
  cases search with
  | true => simp only [linearPredictor]; exact main
  | false =>
    simp only [linearPredictor]
    constructor
    · intro h; cases h
    · intro h
      cases l with
      | nil => exact absurd rfl hl
      | cons i l => cases h with | cons h1 _ => cases h1

/-- **C43, means (partial: without `sample_weight`).** `predict` for several alphas is, column by column, `predict` for each of them. -/
theorem c43_predict_partial (e50 : ℝ) (lk : Link) (p : ℕ) (r : PathResult) (X : Fin n → ℕ → ℝ) (off : Option (Fin n → ℝ)) (l : List ℝ) (hl : l ≠ [])
    (cols : List (Fin n → ℝ)) (h : predictWith e50 lk (linearPredictor p true r X off .none (.many l)) none = some (.mat cols)) :
    List.Forall₂ (fun a c => predictWith e50 lk (linearPredictor p true r X off .none (.one a)) none = some (.vec c)) l cols := by
  unfold predictWith at h ⊢
  simp only [Option.bind_eq_bind] at h ⊢
  cases hp : linearPredictor p true r X off .none (.many l) with
  | none => rw [hp] at h; cases h
  | some P =>
    rw [hp] at h
    simp only [Option.bind_some, Option.some.injEq] at h
    cases P with
    | vec v => cases h
    | mat cs =>
      simp only [Pred.map, Pred.mat.injEq] at h
      subst h
      have := ((c43_alpha p true r X off l hl cs).1).1 hp
      rw [List.forall₂_map_right_iff]
      exact this.imp fun a c hac => by rw [hac]; rfl

/-- A fitted path with two alphas on one feature. -/
noncomputable def twoAlphas : PathResult where
  coef := fun _ => 1
  intercept := 0
  coefPath := [fun _ => 0, fun _ => 1]
  interceptPath := [3, 0]
  alphas := [1, 1 / 2]

/-- **C43, counterexample with `sample_weight` (F20).** With two rows and two alphas `predict(X, sample_weight=[1, 2], alpha_index=[0, 1])`
multiplies the first *column* by 1 and the second by 2: the column for the first alpha is not what `predict(..., alpha_index=0)`
returns.  With three alphas (and two rows) the call raises although each single prediction succeeds. -/
theorem c43_weights_counterexample :
    let X : Fin 2 → ℕ → ℝ := fun _ _ => 1
    let w : Option WeightArg := some (.array 1 2 fun i => if i = 0 then 1 else 2)
    (∃ c0 c1 v, predictWith 0 .identity (linearPredictor 1 true twoAlphas X none (.many [0, 1]) .none) w = some (.mat [c0, c1]) ∧
      predictWith 0 .identity (linearPredictor 1 true twoAlphas X none (.one 0) .none) w = some (.vec v) ∧ c0 ≠ v) ∧
    predictWith 0 .identity (linearPredictor 1 true twoAlphas X none (.many [0, 1, 0]) .none) w = none ∧
    (∀ i : ℤ, i = 0 ∨ i = 1 → ∃ v, predictWith 0 .identity (linearPredictor 1 true twoAlphas X none (.one i) .none) w = some (.vec v)) := by
  have hw : checkWeights 2 (.array 1 2 fun i => if i = 0 then 1 else 2) = some fun i => if i = 0 then 1 else 2 := by
    unfold checkWeights
    simp only []
    rw [if_neg (by norm_num), if_neg (by norm_num), if_neg, if_neg]
    · congr 1
      funext i
      fin_cases i <;> simp
    · simp [Finset.sum_range_succ]; norm_num
    · rintro ⟨i, -, hi⟩
      split at hi <;> norm_num at hi
  intro X w
  have h0 : linearPredictor 1 true twoAlphas X none (.one 0) .none = some (.vec fun _ => 3) := by
    simp [linearPredictor, resolveAlphaIndex, computeLinearPredictor, pyGet, twoAlphas, addOffset]
    funext i; simp [xbeta]
  have h1 : linearPredictor 1 true twoAlphas X none (.one 1) .none = some (.vec fun _ => 1) := by
    simp [linearPredictor, resolveAlphaIndex, computeLinearPredictor, pyGet, twoAlphas, addOffset]
    funext i; simp [xbeta, X]
  have hm : linearPredictor 1 true twoAlphas X none (.many [0, 1]) .none = some (.mat [fun _ => 3, fun _ => 1]) :=
    (c43_alpha_index 1 true twoAlphas X none [0, 1] (by simp) _).2 (.cons h0 (.cons h1 .nil))
  have hm3 : linearPredictor 1 true twoAlphas X none (.many [0, 1, 0]) .none = some (.mat [fun _ => 3, fun _ => 1, fun _ => 3]) :=
    (c43_alpha_index 1 true twoAlphas X none [0, 1, 0] (by simp) _).2 (.cons h0 (.cons h1 (.cons h0 .nil)))
  refine ⟨⟨fun _ => 3, fun _ => 2, fun i => 3 * if i = 0 then 1 else 2, ?_, ?_, ?_⟩, ?_, ?_⟩
  · simp only [predictWith, Option.bind_eq_bind, hm, Option.bind_some, w, hw, Pred.map, Pred.mulWeights, Link.inverse]
    simp [List.ofFn_succ]
  · simp only [predictWith, Option.bind_eq_bind, h0, Option.bind_some, w, hw, Pred.map, Pred.mulWeights, Link.inverse]
  · intro h
    have := congrFun h 1
    norm_num at this
  · simp only [predictWith, Option.bind_eq_bind, hm3, Option.bind_some, w, hw, Pred.map, Pred.mulWeights, Link.inverse]
    simp
  · rintro i (rfl | rfl)
    · simp only [predictWith, Option.bind_eq_bind, h0, Option.bind_some, w, hw, Pred.map, Pred.mulWeights, Link.inverse]
      exact ⟨_, rfl⟩
    · simp only [predictWith, Option.bind_eq_bind, h1, Option.bind_some, w, hw, Pred.map, Pred.mulWeights, Link.inverse]
      exact ⟨_, rfl⟩

/-! ### C44 -/

/-- Add a constant to every entry of a result. -/
def Spec.shift (c : ℝ) : Pred n → Pred n
  | .vec v => .vec fun i => v i + c
  | .mat cols => .mat (cols.map fun v i => v i + c)

/-- Multiply every entry of a result. -/
def Spec.scale (c : ℝ) : Pred n → Pred n
  | .vec v => .vec fun i => v i * c
  | .mat cols => .mat (cols.map fun v i => v i * c)

theorem compute_shift (p : ℕ) (r : PathResult) (X : Fin n → ℕ → ℝ) (o : Fin n → ℝ) (c : ℝ) (idx : ScalarOrList ℤ) :
    computeLinearPredictor p X (some fun i => o i + c) r idx = (computeLinearPredictor p X (some o) r idx).map (shift c) := by
  have hv : ∀ v : Fin n → ℝ, addOffset (some fun i => o i + c) v = fun i => addOffset (some o) v i + c := by
    intro v; funext i; simp only [addOffset]; ring
  cases idx with
  | none => simp only [computeLinearPredictor, hv, Option.map_some, shift]
  | one i =>
    simp only [computeLinearPredictor, Option.bind_eq_bind, hv]
    cases pyGet r.coefPath i <;> cases pyGet r.interceptPath i <;> simp [shift]
  | many l =>
    simp only [computeLinearPredictor, Option.bind_eq_bind, hv]
    have : ∀ l : List ℤ, (l.mapM (m := Option) fun i => (pyGet r.coefPath i).bind fun c' => (pyGet r.interceptPath i).bind fun b =>
        some fun i => addOffset (some o) (xbeta p X c' b) i + c)
        = (l.mapM (m := Option) fun i => (pyGet r.coefPath i).bind fun c' => (pyGet r.interceptPath i).bind fun b =>
            some (addOffset (some o) (xbeta p X c' b))).map (List.map fun v i => v i + c) := by
      intro l
      induction l with
      | nil => rfl
      | cons i l ih =>
        simp only [List.mapM_cons, Option.bind_eq_bind, ih]
        cases pyGet r.coefPath i <;> cases pyGet r.interceptPath i <;> simp
        cases List.mapM (m := Option) (fun i => (pyGet r.coefPath i).bind fun c' => (pyGet r.interceptPath i).bind fun b =>
            some (addOffset (some o) (xbeta p X c' b))) l <;> simp
    rw [this l]
    cases hm : l.mapM (m := Option) fun i => (pyGet r.coefPath i).bind fun c' => (pyGet r.interceptPath i).bind fun b =>
            some (addOffset (some o) (xbeta p X c' b)) with
    | none => rfl
    | some cols =>
      simp only [Option.map_some, Option.bind_some]
      split <;> simp [shift]

/-- **C44.** For every fitted path, design matrix, offset, constant and choice of alphas: adding the constant to the offset adds it to
every entry of the linear predictor (and no offset is the offset 0); with the log link it multiplies every predicted mean by its
exponential. -/
theorem c44_offset (p : ℕ) (search : Bool) (r : PathResult) (X : Fin n → ℕ → ℝ) (o : Fin n → ℝ) (c : ℝ) (idx : ScalarOrList ℤ)
    (alpha : ScalarOrList ℝ) (e50 : ℝ) :
    linearPredictor p search r X (some fun i => o i + c) idx alpha = (linearPredictor p search r X (some o) idx alpha).map (shift c) ∧
    linearPredictor p search r X (some fun _ => 0) idx alpha = linearPredictor p search r X none idx alpha ∧
    predictWith e50 .log (linearPredictor p search r X (some fun i => o i + c) idx alpha) none
      = (predictWith e50 .log (linearPredictor p search r X (some o) idx alpha) none).map (scale (Real.exp c)) := by
  have h1 : linearPredictor p search r X (some fun i => o i + c) idx alpha
      = (linearPredictor p search r X (some o) idx alpha).map (shift c) := by
    unfold linearPredictor
    cases search with
    | false => cases idx <;> cases alpha <;> simp [compute_shift]
    | true =>
      simp only [Option.bind_eq_bind]
      cases resolveAlphaIndex r.alphas idx alpha <;> simp [compute_shift]
  have h2 : linearPredictor p search r X (some fun _ => 0) idx alpha = linearPredictor p search r X none idx alpha := by
    have hc : ∀ idx, computeLinearPredictor p X (some fun _ => 0) r idx = computeLinearPredictor p X none r idx := by
      intro idx
      have hv : ∀ v : Fin n → ℝ, addOffset (some fun _ => 0) v = addOffset none v := by
        intro v; funext i; simp [addOffset]
      unfold computeLinearPredictor
      simp only [hv]
    unfold linearPredictor
    simp only [hc]
  refine ⟨h1, h2, ?_⟩
  rw [h1]
  unfold predictWith
  simp only [Option.bind_eq_bind]
  cases linearPredictor p search r X (some o) idx alpha with
  | none => rfl
  | some P =>
    cases P with
    | vec v => simp [shift, scale, Pred.map, Link.inverse, Real.exp_add]
    | mat cols => simp [shift, scale, Pred.map, Link.inverse, Real.exp_add, Function.comp_def]

-- Non-vacuity of C42: a path with distinct alphas and matching lengths.
example : twoAlphas.alphas.Nodup ∧ twoAlphas.coefPath.length = twoAlphas.alphas.length ∧
    twoAlphas.interceptPath.length = twoAlphas.alphas.length := by
  refine ⟨?_, rfl, rfl⟩
  simp [twoAlphas]

end Glum
