import Verif.Model.Inputs
import Verif.Model.Fit
import Verif.Spec.Design
/-
C114: the container of `X` does not matter, and what `copy_X` does.
-/
set_option linter.unusedSectionVars false
set_option linter.unusedVariables false
set_option linter.unusedSimpArgs false

namespace Glum
open Spec

/-! ### Specification -/

/-- The number a matrix has in row `i` and column `j`: a categorical matrix has a one where the code of the row is `j`. -/
def Spec.leafEntry : Leaf → ℕ → ℕ → FV
  | .dense a _, i, j => a.v i j
  | .sparse a _, i, j => a.v i j
  | .cat _ _ _ code _ _, i, j => if code i = some j then .num 1 else .num 0

/-- Of a split matrix: the entry of the part that occupies the column; `f` says what the entries of the parts are. -/
def Spec.splitWith (f : Leaf → ℕ → ℕ → FV) : List (Leaf × List ℕ) → ℕ → ℕ → FV
  | [], _, _ => .num 0
  | (l, idx) :: rest, i, j => if j ∈ idx then f l i (idx.idxOf j) else splitWith f rest i j

def Spec.tmWith (f : Leaf → ℕ → ℕ → FV) : TM → ℕ → ℕ → FV
  | .leaf l, i, j => f l i j
  | .split ps, i, j => splitWith f ps i j

/-- The number that `X` has in row `i` and column `j`. -/
noncomputable def Spec.entryWith (f : Leaf → ℕ → ℕ → FV) : XIn → ℕ → ℕ → FV
  | .raw a, i, j => f (.dense a []) i j
  | .listed a, i, j => f (.dense a []) i j
  | .tabmat m, i, j => tmWith f m i j
  | .std m shift mult, i, j => match tmWith f m i j with
    | .num x => .num (x * (mult.elim 1 fun l => l.getD j 1) + shift.getD j 0)
    | x => x
  | .frame _ m, i, j => tmWith f m i j

/-- The number that `X` has in row `i` and column `j`. -/
noncomputable def Spec.entry (X : XIn) (i j : ℕ) : FV := entryWith leafEntry X i j

def Spec.leafRows : Leaf → ℕ
  | .dense a _ => a.n
  | .sparse a _ => a.n
  | .cat _ n _ _ _ _ => n

def Spec.leafCols : Leaf → ℕ
  | .dense a _ => a.p
  | .sparse a _ => a.p
  | .cat _ _ p _ _ _ => p

/-- The matrices `X` consists of. -/
def Spec.parts : XIn → List Leaf
  | .raw a => [.dense a []]
  | .listed a => [.dense a []]
  | .tabmat (.leaf l) => [l]
  | .tabmat (.split ps) => ps.map Prod.fst
  | .std (.leaf l) _ _ => [l]
  | .std (.split ps) _ _ => ps.map Prod.fst
  | .frame _ (.leaf l) => [l]
  | .frame _ (.split ps) => ps.map Prod.fst

/-- `X` is a split matrix (whose parts may have no columns). -/
def Spec.IsSplit : XIn → Prop
  | .tabmat (.split _) => True
  | .frame _ (.split _) => True
  | _ => False

/-- The array or sparse matrix inside, if it is not categorical. -/
def Spec.leafArr : Leaf → Option Arr
  | .dense a _ => some a
  | .sparse a _ => some a
  | .cat .. => none

/-- The memory a matrix lives in. -/
def Spec.leafBuf : Leaf → Option ℕ
  | .dense a _ => a.buf
  | .sparse a _ => a.buf
  | .cat _ _ _ _ b _ => b

/-- The names of the columns. -/
def Spec.leafNames : Leaf → List (Option String)
  | .dense _ s => s
  | .sparse _ s => s
  | .cat _ _ _ _ _ s => s

def Spec.IsFloat (d : Dtype) : Prop := d = .f64 ∨ d = .f32

/-- An entry after conversion to floating point. -/
noncomputable def Spec.toFloat (c : Casting) (a : Arr) (i j : ℕ) : FV :=
  match a.v i j with
  | .num x => open Classical in if IsFloat a.dt then .num x else c.f64 x
  | x => x

/-- The entries of a matrix after conversion to floating point. -/
noncomputable def Spec.leafFloat (c : Casting) : Leaf → ℕ → ℕ → FV
  | .dense a _, i, j => toFloat c a i j
  | .sparse a _, i, j => toFloat c a i j
  | .cat _ _ _ code _ _, i, j => if code i = some j then .num 1 else .num 0

/-- Converting the entries to floating point changes none of them. -/
def Spec.Exact (c : Casting) (X : XIn) : Prop := ∀ l ∈ parts X, ∀ a, leafArr l = some a → ∀ i j, toFloat c a i j = a.v i j

/-- `X` has integers only: its element type is an integer type.  Lists and frames are exempt, as is a single categorical matrix. -/
def Spec.Integral : XIn → Prop
  | .raw a => a.dt = .int
  | .tabmat (.leaf (.dense a _)) => a.dt = .int
  | .tabmat (.leaf (.sparse a _)) => a.dt = .int
  | .tabmat (.split ps) => (∀ q ∈ ps, q.1.dt = .int ∨ q.1.dt = .bool) ∧ ∃ q ∈ ps, q.1.dt = .int
  | _ => False

/-- What `fit` accepts as `X`: not a standardised matrix; no frame that is not contiguous and no integers with `copy_X=False`; every array two-dimensional,
with a row, with a column unless it is part of a split matrix, and — with `force_all_finite` — finite. -/
structure Spec.FitAccepts (c : Casting) (copyX : Option Bool) (finite : Bool) (X : XIn) : Prop where
  notStd : ∀ m shift mult, X ≠ .std m shift mult
  frame : copyX = some false → ∀ m, X ≠ .frame false m
  integer : copyX = some false → ¬ Integral X
  arrays : ∀ l ∈ parts X, ∀ a, leafArr l = some a → a.nd = 2 ∧ 1 ≤ a.n ∧ (¬ IsSplit X → 1 ≤ a.p) ∧
    (finite = true → ∀ i < a.n, ∀ j < a.p, (toFloat c a i j).isFinite)

/-! ### One array -/

theorem checkArray_some (c : Casting) (k : CheckCfg) (a r : Arr) (h : checkArray c k a = some r) :
    a.nd = 2 ∧ 1 ≤ a.n ∧ k.minFeatures ≤ a.p ∧ r.n = a.n ∧ r.p = a.p ∧ r.nd = 2 ∧ r.dt = k.dtype.target a.dt ∧
    r.v = a.conv c (k.dtype.target a.dt) ∧
    (k.finite = true → ∀ i < a.n, ∀ j < a.p, (r.v i j).isFinite) ∧
    r.buf = (if k.copy = true ∨ k.dtype.target a.dt ≠ a.dt ∨ r.fmt ≠ a.fmt then none else a.buf) ∧ (a.fmt = none → r.fmt = none) := by
  unfold checkArray at h
  simp only at h
  split at h
  · cases h
  split at h
  · cases h
  split at h
  · cases h
  split at h
  · cases h
  rename_i h1 h2 h3 h4
  simp only [Option.some.injEq] at h
  subst h
  refine ⟨not_not.1 h1, by omega, by omega, rfl, rfl, rfl, rfl, rfl, fun hk i hi j hj => ?_, rfl, fun hf => by simp [hf]⟩
  by_contra hn
  exact h2 ⟨hk, i, hi, j, hj, hn⟩

theorem checkArray_isSome (c : Casting) (k : CheckCfg) (a : Arr) : (checkArray c k a).isSome = true ↔
    a.nd = 2 ∧ 1 ≤ a.n ∧ k.minFeatures ≤ a.p ∧
    (k.finite = true → ∀ i < a.n, ∀ j < a.p, (a.conv c (k.dtype.target a.dt) i j).isFinite) := by
  unfold checkArray
  simp only
  constructor
  · intro h
    split at h
    · cases h
    split at h
    · cases h
    split at h
    · cases h
    split at h
    · cases h
    rename_i h1 h2 h3 h4
    refine ⟨not_not.1 h1, by omega, by omega, fun hk i hi j hj => ?_⟩
    by_contra hn
    exact h2 ⟨hk, i, hi, j, hj, hn⟩
  · rintro ⟨h1, h2, h3, h4⟩
    rw [if_neg (not_not.2 h1), if_neg, if_neg (by omega), if_neg (by omega)]
    · rfl
    · rintro ⟨hk, i, hi, j, hj, hn⟩
      exact hn (h4 hk i hi j hj)

theorem to_same (c : Casting) (a : Arr) (i j : ℕ) :
    a.conv c (DtypeReq.floats.target a.dt) i j = toFloat c a i j := by
  unfold Arr.conv toFloat DtypeReq.target IsFloat
  simp only
  by_cases h : a.dt = .f64 ∨ a.dt = .f32
  · rw [if_pos h, if_pos rfl]
    cases a.v i j <;> simp [h]
  · rw [if_neg h]
    have hne : Dtype.f64 ≠ a.dt := fun e => h (Or.inl e.symm)
    rw [if_neg hne]
    cases a.v i j <;> simp [Casting.to, h]

/-- An array as `fit` sees it after the conversion of integers. -/
theorem astype_toFloat (c : Casting) (a : Arr) (h : a.dt = .int ∨ a.dt = .bool) (i j : ℕ) : toFloat c (a.astype c .f64) i j = toFloat c a i j := by
  unfold toFloat Arr.astype Arr.conv IsFloat
  have hne : Dtype.f64 ≠ a.dt := by rcases h with h | h <;> rw [h] <;> decide
  simp only [if_neg hne]
  have hnf : ¬ (a.dt = .f64 ∨ a.dt = .f32) := by rcases h with h | h <;> rw [h] <;> decide
  cases hv : a.v i j with
  | num x =>
    simp only [Casting.to, if_neg hnf]
    cases c.f64 x <;> simp
  | nan => simp [Casting.to]
  | pinf => simp [Casting.to]
  | ninf => simp [Casting.to]


/-! ### One matrix, many matrices -/

/-- `l'` is `l` with its entries converted to floating point. -/
structure FloatOf (c : Casting) (l l' : Leaf) : Prop where
  entry : ∀ i j, leafEntry l' i j = leafFloat c l i j
  rows : leafRows l' = leafRows l
  cols : leafCols l' = leafCols l
  names : leafNames l' = leafNames l
  float : ∀ a, leafArr l' = some a → IsFloat a.dt ∧ ∃ b, leafArr l = some b
  fin : ∀ a, leafArr l = some a → ∃ b, leafArr l' = some b

theorem target_float (d : Dtype) : IsFloat (DtypeReq.floats.target d) := by
  unfold DtypeReq.target IsFloat
  by_cases h : d = .f64 ∨ d = .f32
  · simp only [h, if_true]
  · simp only [h, if_false]; left; trivial

theorem checkLeaf_some (c : Casting) (k : CheckCfg) (hk : k.dtype = .floats) (l l' : Leaf) (h : checkLeaf c k l = some l') : FloatOf c l l' := by
  cases l with
  | cat dt n p code buf names =>
    simp only [checkLeaf, Option.some.injEq] at h
    subst h
    exact ⟨fun i j => rfl, rfl, rfl, rfl, fun a ha => (by cases ha), fun a ha => (by cases ha)⟩
  | dense a names =>
    simp only [checkLeaf, Option.map_eq_some_iff] at h
    obtain ⟨r, hr, rfl⟩ := h
    obtain ⟨-, -, -, h1, h2, -, h3, h4, -⟩ := checkArray_some c k a r hr
    rw [hk] at h3 h4
    refine ⟨fun i j => ?_, h1, h2, rfl, fun b hb => ?_, fun b hb => ⟨r, rfl⟩⟩
    · show r.v i j = toFloat c a i j
      rw [h4, to_same]
    · cases hb
      exact ⟨h3 ▸ target_float _, a, rfl⟩
  | sparse a names =>
    simp only [checkLeaf, Option.map_eq_some_iff] at h
    obtain ⟨r, hr, rfl⟩ := h
    obtain ⟨-, -, -, h1, h2, -, h3, h4, -⟩ := checkArray_some c k a r hr
    rw [hk] at h3 h4
    refine ⟨fun i j => ?_, h1, h2, rfl, fun b hb => ?_, fun b hb => ⟨r, rfl⟩⟩
    · show r.v i j = toFloat c a i j
      rw [h4, to_same]
    · cases hb
      exact ⟨h3 ▸ target_float _, a, rfl⟩

theorem checkParts_some (c : Casting) (k : CheckCfg) (ps qs : List (Leaf × List ℕ)) (h : checkParts c k ps = some qs) :
    List.Forall₂ (fun x y => checkLeaf c k x.1 = some y.1 ∧ y.2 = x.2) ps qs := by
  induction ps generalizing qs with
  | nil =>
    simp only [checkParts, Option.some.injEq] at h
    subst h; exact .nil
  | cons q ps ih =>
    obtain ⟨l, idx⟩ := q
    simp only [checkParts, Option.bind_eq_some_iff, Option.map_eq_some_iff] at h
    obtain ⟨l', hl, r, hr, rfl⟩ := h
    exact .cons ⟨hl, rfl⟩ (ih _ hr)

theorem checkParts_isSome (c : Casting) (k : CheckCfg) (ps : List (Leaf × List ℕ)) :
    (checkParts c k ps).isSome = true ↔ ∀ q ∈ ps, (checkLeaf c k q.1).isSome = true := by
  induction ps with
  | nil => simp [checkParts]
  | cons q ps ih =>
    obtain ⟨l, idx⟩ := q
    simp only [checkParts, List.forall_mem_cons]
    rw [← ih]
    cases checkLeaf c k l <;> cases checkParts c k ps <;> simp

theorem checkLeaf_isSome (c : Casting) (k : CheckCfg) (l : Leaf) : (checkLeaf c k l).isSome = true ↔ ∀ a, leafArr l = some a → (checkArray c k a).isSome = true := by
  cases l <;> simp [checkLeaf, leafArr]

/-- The matrix after the conversion of integers. -/
theorem astype_leaf (c : Casting) (l : Leaf) (h : l.dt = .int ∨ l.dt = .bool) :
    (∀ i j, leafFloat c (l.astype c) i j = leafFloat c l i j) ∧ leafRows (l.astype c) = leafRows l ∧ leafCols (l.astype c) = leafCols l ∧
    leafNames (l.astype c) = leafNames l := by
  cases l with
  | cat dt n p code buf names => exact ⟨fun i j => rfl, rfl, rfl, rfl⟩
  | dense a names => exact ⟨fun i j => astype_toFloat c a h i j, rfl, rfl, rfl⟩
  | sparse a names => exact ⟨fun i j => astype_toFloat c a h i j, rfl, rfl, rfl⟩

theorem splitWith_congr (f g : Leaf → ℕ → ℕ → FV) (ps qs : List (Leaf × List ℕ))
    (h : List.Forall₂ (fun x y => (∀ i j, g y.1 i j = f x.1 i j) ∧ y.2 = x.2) ps qs) (i j : ℕ) : splitWith g qs i j = splitWith f ps i j := by
  induction h with
  | nil => rfl
  | @cons x y ps qs hxy _ ih =>
    obtain ⟨l, idx⟩ := x
    obtain ⟨l', idx'⟩ := y
    obtain ⟨h1, h2⟩ := hxy
    simp only at h1 h2
    subst h2
    simp only [splitWith, h1, ih]

/-- What the check makes of the parts of `X`. -/
theorem checkX_some (c : Casting) (k : CheckCfg) (hk : k.dtype = .floats) (X Z : XIn) (h : checkX c k X = some Z) :
    (∀ m s t, X ≠ .std m s t) ∧ (∀ i j, entry Z i j = entryWith (leafFloat c) X i j) ∧ List.Forall₂ (FloatOf c) (parts X) (parts Z) := by
  have hbad : ∀ shift, checkArray c k (shiftArr shift) = none := by
    intro s
    unfold checkArray
    simp only
    rw [if_pos (by simp [shiftArr])]
  cases X with
  | raw a =>
    simp only [checkX, Option.map_eq_some_iff] at h
    obtain ⟨r, hr, rfl⟩ := h
    have hl := checkLeaf_some c k hk (.dense a []) (.dense r []) (by simp [checkLeaf, hr])
    exact ⟨fun m s t h => (by cases h), hl.entry, .cons hl .nil⟩
  | listed a =>
    simp only [checkX, Option.map_eq_some_iff] at h
    obtain ⟨r, hr, rfl⟩ := h
    have hl := checkLeaf_some c k hk (.dense a []) (.dense r []) (by simp [checkLeaf, hr])
    exact ⟨fun m s t h => (by cases h), hl.entry, .cons hl .nil⟩
  | std m s t =>
    simp only [checkX, hbad, Option.map_none, Option.bind_eq_some_iff] at h
    obtain ⟨m', -, h2⟩ := h
    cases h2
  | frame b m => cases h
  | tabmat m =>
    refine ⟨fun m s t h => (by cases h), ?_⟩
    cases m with
    | leaf l =>
      simp only [checkX, checkTM, Option.map_eq_some_iff] at h
      obtain ⟨_, ⟨l', hl, rfl⟩, rfl⟩ := h
      have hf := checkLeaf_some c k hk l l' hl
      exact ⟨hf.entry, .cons hf .nil⟩
    | split ps =>
      simp only [checkX, checkTM, Option.map_eq_some_iff] at h
      obtain ⟨_, ⟨qs, hq, rfl⟩, rfl⟩ := h
      have hp := checkParts_some c _ ps qs hq
      refine ⟨fun i j => ?_, ?_⟩
      · show splitWith leafEntry qs i j = splitWith (leafFloat c) ps i j
        refine splitWith_congr _ _ ps qs (hp.imp fun x y hxy => ?_) i j
        have := checkLeaf_some c { k with minFeatures := 0 } hk x.1 y.1 hxy.1
        exact ⟨this.entry, hxy.2⟩
      · show List.Forall₂ _ (ps.map Prod.fst) (qs.map Prod.fst)
        rw [List.forall₂_map_left_iff, List.forall₂_map_right_iff]
        exact hp.imp fun x y hxy => checkLeaf_some c { k with minFeatures := 0 } hk x.1 y.1 hxy.1


/-! ### `X` in `fit` -/

theorem integral_iff (X : XIn) (h : ∀ m s t, X ≠ .std m s t) : X.isInteger = true ↔ Integral X := by
  cases X with
  | raw a => simp [XIn.isInteger, Integral]
  | listed a => simp [XIn.isInteger, Integral]
  | std m s t => exact absurd rfl (h m s t)
  | frame b m => simp [XIn.isInteger, Integral]
  | tabmat m =>
    cases m with
    | leaf l => cases l <;> simp [XIn.isInteger, Integral, Leaf.dt]
    | split ps => simp [XIn.isInteger, Integral]

/-- The conversion of integers keeps the entries as floating point numbers. -/
theorem astype_X (c : Casting) (X : XIn) (h : X.isInteger = true) :
    (∀ i j, entryWith (leafFloat c) (X.astype c) i j = entryWith (leafFloat c) X i j) ∧
    List.Forall₂ (fun l l' => (∀ i j, leafFloat c l' i j = leafFloat c l i j) ∧ leafRows l' = leafRows l ∧ leafCols l' = leafCols l ∧
      leafNames l' = leafNames l ∧ l' = l.astype c ∧ (l.dt = .int ∨ l.dt = .bool)) (parts X) (parts (X.astype c)) := by
  have hleaf : ∀ l : Leaf, (l.dt = .int ∨ l.dt = .bool) → (∀ i j, leafFloat c (l.astype c) i j = leafFloat c l i j) ∧ leafRows (l.astype c) = leafRows l ∧
      leafCols (l.astype c) = leafCols l ∧ leafNames (l.astype c) = leafNames l ∧ l.astype c = l.astype c ∧ (l.dt = .int ∨ l.dt = .bool) := fun l hl => by
    obtain ⟨h1, h2, h3, h4⟩ := astype_leaf c l hl
    exact ⟨h1, h2, h3, h4, rfl, hl⟩
  have hsplit : ∀ ps : List (Leaf × List ℕ), (∀ q ∈ ps, q.1.dt = .int ∨ q.1.dt = .bool) →
      (∀ i j, splitWith (leafFloat c) (ps.map fun q => (q.1.astype c, q.2)) i j = splitWith (leafFloat c) ps i j) ∧
      List.Forall₂ (fun l l' => (∀ i j, leafFloat c l' i j = leafFloat c l i j) ∧ leafRows l' = leafRows l ∧ leafCols l' = leafCols l ∧
      leafNames l' = leafNames l ∧ l' = l.astype c ∧ (l.dt = .int ∨ l.dt = .bool)) (ps.map Prod.fst) ((ps.map fun q => (q.1.astype c, q.2)).map Prod.fst) := by
    intro ps hps
    constructor
    · intro i j
      apply splitWith_congr
      rw [List.forall₂_map_right_iff, List.forall₂_same]
      exact fun q hq => ⟨(astype_leaf c q.1 (hps q hq)).1, rfl⟩
    · rw [List.forall₂_map_left_iff, List.forall₂_map_right_iff, List.forall₂_map_right_iff, List.forall₂_same]
      exact fun q hq => hleaf q.1 (hps q hq)
  cases X with
  | raw a =>
    have : a.dt = .int := by simpa [XIn.isInteger] using h
    exact ⟨fun i j => astype_toFloat c a (Or.inl this) i j, .cons (hleaf (.dense a []) (Or.inl this)) .nil⟩
  | listed a => cases h
  | frame b m => cases h
  | tabmat m =>
    cases m with
    | leaf l =>
      have hl : l.dt = .int := by
        cases l with
        | cat dt n p code buf names => cases h
        | dense a names => simpa [XIn.isInteger, Leaf.dt] using h
        | sparse a names => simpa [XIn.isInteger, Leaf.dt] using h
      exact ⟨(astype_leaf c l (Or.inl hl)).1, .cons (hleaf l (Or.inl hl)) .nil⟩
    | split ps =>
      have hp : ∀ q ∈ ps, q.1.dt = .int ∨ q.1.dt = .bool := by
        have h' := (Bool.and_eq_true_iff.1 h).1
        intro q hq
        have := List.all_eq_true.1 h' q hq
        simpa using this
      exact hsplit ps hp
  | std m s t =>
    cases m with
    | leaf l =>
      have hl : l.dt = .int := by simpa [XIn.isInteger] using h
      refine ⟨fun i j => ?_, .cons (hleaf l (Or.inl hl)) .nil⟩
      simp only [XIn.astype, TM.astype, entryWith, tmWith, (astype_leaf c l (Or.inl hl)).1]
    | split ps =>
      have hp : ∀ q ∈ ps, q.1.dt = .int ∨ q.1.dt = .bool := by
        have h' := (Bool.and_eq_true_iff.1 h).1
        intro q hq
        have := List.all_eq_true.1 h' q hq
        simpa using this
      refine ⟨fun i j => ?_, (hsplit ps hp).2⟩
      simp only [XIn.astype, TM.astype, entryWith, tmWith, (hsplit ps hp).1]

/-- The three steps of the conversion. -/
theorem fitX_steps (c : Casting) (copyX : Option Bool) (cd fin : Bool) (X Z : XIn) (h : fitX c copyX cd fin X = some Z) :
    ∃ X1, (X1 = X ∧ (∀ b m, X ≠ .frame b m) ∨ ∃ b m, X = .frame b m ∧ X1 = .tabmat m ∧ ¬ (b = false ∧ copyX = some false)) ∧
      ¬ (X1.isInteger = true ∧ copyX = some false) ∧ checkX c (fitCheck copyX cd fin) (if X1.isInteger = true then X1.astype c else X1) = some Z := by
  cases X with
  | frame b m =>
    simp only [fitX] at h
    split at h
    · cases h
    · rename_i hb
      simp only [Option.bind_some] at h
      by_cases hi : (XIn.tabmat m).isInteger = true ∧ copyX = some false
      · rw [if_pos hi] at h; cases h
      · rw [if_neg hi] at h
        exact ⟨_, Or.inr ⟨b, m, rfl, rfl, hb⟩, hi, h⟩
  | raw a =>
    simp only [fitX, Option.bind_some] at h
    by_cases hi : (XIn.raw a).isInteger = true ∧ copyX = some false
    · rw [if_pos hi] at h; cases h
    · rw [if_neg hi] at h
      exact ⟨_, Or.inl ⟨rfl, fun b m h => by cases h⟩, hi, h⟩
  | listed a =>
    simp only [fitX, Option.bind_some] at h
    by_cases hi : (XIn.listed a).isInteger = true ∧ copyX = some false
    · rw [if_pos hi] at h; cases h
    · rw [if_neg hi] at h
      exact ⟨_, Or.inl ⟨rfl, fun b m h => by cases h⟩, hi, h⟩
  | tabmat m =>
    simp only [fitX, Option.bind_some] at h
    by_cases hi : (XIn.tabmat m).isInteger = true ∧ copyX = some false
    · rw [if_pos hi] at h; cases h
    · rw [if_neg hi] at h
      exact ⟨_, Or.inl ⟨rfl, fun b m h => by cases h⟩, hi, h⟩
  | std m s t =>
    simp only [fitX, Option.bind_some] at h
    by_cases hi : (XIn.std m s t).isInteger = true ∧ copyX = some false
    · rw [if_pos hi] at h; cases h
    · rw [if_neg hi] at h
      exact ⟨_, Or.inl ⟨rfl, fun b m h => by cases h⟩, hi, h⟩

theorem forall2_mem_right {α β : Type} {R : α → β → Prop} {l : List α} {l' : List β} (h : List.Forall₂ R l l') : ∀ y ∈ l', ∃ x ∈ l, R x y := by
  induction h with
  | nil => intro y hy; cases hy
  | cons hab _ ih =>
    intro y hy
    rcases List.mem_cons.1 hy with rfl | hy
    · exact ⟨_, List.mem_cons_self, hab⟩
    · obtain ⟨x, hx, hr⟩ := ih y hy
      exact ⟨x, List.mem_cons_of_mem _ hx, hr⟩

theorem forall2_map_eq {α β : Type} {R : α → α → Prop} (f : α → β) (l l' : List α) (h : List.Forall₂ R l l') (hR : ∀ a b, R a b → f b = f a) :
    l'.map f = l.map f := by
  induction h with
  | nil => rfl
  | cons hab _ ih => simp only [List.map_cons, hR _ _ hab, ih]

/-- **C114, values.** When `fit` accepts `X` — array, sparse matrix, lists, any tabmat matrix, data frame — it works with a matrix of floating point numbers of
the same shape and with the same names, whose entries are those of `X` converted to floating point. -/
theorem c114_values (c : Casting) (copyX : Option Bool) (cd fin : Bool) (X Z : XIn) (h : fitX c copyX cd fin X = some Z) :
    (∀ i j, entry Z i j = entryWith (leafFloat c) X i j) ∧ (parts Z).map leafRows = (parts X).map leafRows ∧
    (parts Z).map leafCols = (parts X).map leafCols ∧ (parts Z).map leafNames = (parts X).map leafNames ∧
    ∀ l ∈ parts Z, ∀ a, leafArr l = some a → IsFloat a.dt := by
  obtain ⟨X1, hX1, -, hck⟩ := fitX_steps c copyX cd fin X Z h
  obtain ⟨-, hent, hall⟩ := checkX_some c _ rfl _ Z hck
  have hpe : parts X1 = parts X ∧ ∀ i j, entryWith (leafFloat c) X1 i j = entryWith (leafFloat c) X i j := by
    rcases hX1 with ⟨rfl, -⟩ | ⟨b, m, rfl, rfl, -⟩
    · exact ⟨rfl, fun i j => rfl⟩
    · exact ⟨by cases m <;> rfl, fun i j => rfl⟩
  have hfl : ∀ l ∈ parts Z, ∀ a, leafArr l = some a → IsFloat a.dt := by
    intro l hl a ha
    obtain ⟨l0, -, hf⟩ := forall2_mem_right hall l hl
    exact (hf.float a ha).1
  rw [← hpe.1]
  by_cases hi : X1.isInteger = true
  · rw [if_pos hi] at hent hall
    obtain ⟨h1, h2⟩ := astype_X c X1 hi
    refine ⟨fun i j => by rw [hent, h1, hpe.2], ?_, ?_, ?_, hfl⟩
    · rw [forall2_map_eq leafRows _ _ hall fun a b h => h.rows, forall2_map_eq leafRows _ _ h2 fun a b h => h.2.1]
    · rw [forall2_map_eq leafCols _ _ hall fun a b h => h.cols, forall2_map_eq leafCols _ _ h2 fun a b h => h.2.2.1]
    · rw [forall2_map_eq leafNames _ _ hall fun a b h => h.names, forall2_map_eq leafNames _ _ h2 fun a b h => h.2.2.2.1]
  · rw [if_neg hi] at hent hall
    refine ⟨fun i j => by rw [hent, hpe.2], ?_, ?_, ?_, hfl⟩
    · rw [forall2_map_eq leafRows _ _ hall fun a b h => h.rows]
    · rw [forall2_map_eq leafCols _ _ hall fun a b h => h.cols]
    · rw [forall2_map_eq leafNames _ _ hall fun a b h => h.names]

theorem leafFloat_exact (c : Casting) (l : Leaf) (h : ∀ a, leafArr l = some a → ∀ i j, toFloat c a i j = a.v i j) (i j : ℕ) :
    leafFloat c l i j = leafEntry l i j := by
  cases l with
  | cat => rfl
  | dense a names => exact h a rfl i j
  | sparse a names => exact h a rfl i j

theorem entry_exact (c : Casting) (X : XIn) (h : Exact c X) (i j : ℕ) : entryWith (leafFloat c) X i j = entry X i j := by
  have hs : ∀ ps : List (Leaf × List ℕ), (∀ l ∈ ps.map Prod.fst, ∀ a, leafArr l = some a → ∀ i j, toFloat c a i j = a.v i j) →
      splitWith (leafFloat c) ps i j = splitWith leafEntry ps i j := by
    intro ps hp
    apply splitWith_congr
    rw [List.forall₂_same]
    exact fun q hq => ⟨fun i j => leafFloat_exact c q.1 (hp q.1 (List.mem_map_of_mem hq)) i j, rfl⟩
  unfold entry
  cases X with
  | raw a => exact leafFloat_exact c (.dense a []) (h (.dense a []) (by simp [parts])) i j
  | listed a => exact leafFloat_exact c (.dense a []) (h (.dense a []) (by simp [parts])) i j
  | tabmat m =>
    cases m with
    | leaf l => exact leafFloat_exact c l (h l (by simp [parts])) i j
    | split ps => exact hs ps h
  | frame b m =>
    cases m with
    | leaf l => exact leafFloat_exact c l (h l (by simp [parts])) i j
    | split ps => exact hs ps h
  | std m s t =>
    cases m with
    | leaf l => simp only [entryWith, tmWith, leafFloat_exact c l (h l (by simp [parts]))]
    | split ps => simp only [entryWith, tmWith, hs ps h]


/-- **C114, exact entries.** If the conversion to floating point changes no entry, `fit` works with the entries of `X`. -/
theorem c114_exact (c : Casting) (copyX : Option Bool) (cd fin : Bool) (X Z : XIn) (h : fitX c copyX cd fin X = some Z) (he : Exact c X) (i j : ℕ) :
    entry Z i j = entry X i j := by
  rw [(c114_values c copyX cd fin X Z h).1, entry_exact c X he]

/-! ### Acceptance -/

theorem checkArray_floats (c : Casting) (k : CheckCfg) (hk : k.dtype = .floats) (a : Arr) : (checkArray c k a).isSome = true ↔
    a.nd = 2 ∧ 1 ≤ a.n ∧ k.minFeatures ≤ a.p ∧ (k.finite = true → ∀ i < a.n, ∀ j < a.p, (toFloat c a i j).isFinite) := by
  rw [checkArray_isSome, hk]
  simp only [to_same]

theorem shift_refused (c : Casting) (k : CheckCfg) (shift : List ℝ) : checkArray c k (shiftArr shift) = none := by
  unfold checkArray
  simp only
  rw [if_pos (by simp [shiftArr])]

theorem checkX_accepts (c : Casting) (k : CheckCfg) (hk : k.dtype = .floats) (hm : k.minFeatures = 1) (X : XIn) (hfr : ∀ b m, X ≠ .frame b m) :
    (checkX c k X).isSome = true ↔ (∀ m s t, X ≠ .std m s t) ∧ ∀ l ∈ parts X, ∀ a, leafArr l = some a → a.nd = 2 ∧ 1 ≤ a.n ∧ (¬ IsSplit X → 1 ≤ a.p) ∧
      (k.finite = true → ∀ i < a.n, ∀ j < a.p, (toFloat c a i j).isFinite) := by
  cases X with
  | raw a =>
    have : (checkX c k (.raw a)).isSome = (checkArray c k a).isSome := by simp [checkX]
    rw [this, checkArray_floats c k hk, hm]
    simp [parts, leafArr, IsSplit]
  | listed a =>
    have : (checkX c k (.listed a)).isSome = (checkArray c k a).isSome := by simp [checkX]
    rw [this, checkArray_floats c k hk, hm]
    simp [parts, leafArr, IsSplit]
  | frame b m => exact absurd rfl (hfr b m)
  | std m s t =>
    simp only [checkX, shift_refused, Option.map_none, Option.bind_fun_none, Option.isSome_none, Bool.false_eq_true, false_iff]
    rintro ⟨h, -⟩
    exact h m s t rfl
  | tabmat m =>
    cases m with
    | leaf l =>
      have : (checkX c k (.tabmat (.leaf l))).isSome = (checkLeaf c k l).isSome := by simp [checkX, checkTM]
      rw [this, checkLeaf_isSome]
      simp only [checkArray_floats c k hk, hm]
      simp [parts, IsSplit]
    | split ps =>
      have : (checkX c k (.tabmat (.split ps))).isSome = (checkParts c { k with minFeatures := 0 } ps).isSome := by simp [checkX, checkTM]
      rw [this, checkParts_isSome]
      simp only [checkLeaf_isSome, checkArray_floats c { k with minFeatures := 0 } hk]
      simp only [parts, IsSplit, not_true, false_implies, Nat.zero_le, true_and, List.mem_map, forall_exists_index, and_imp]
      constructor
      · intro h
        refine ⟨fun m s t h => (by cases h), fun l q hq hql a ha => ?_⟩
        subst hql
        exact h q hq a ha
      · rintro ⟨-, h⟩ q hq a ha
        exact h q.1 q hq rfl a ha

theorem arr_astype_iff (c : Casting) (a : Arr) (h : a.dt = .int ∨ a.dt = .bool) (P : Prop) (fin : Bool) :
    ((a.astype c .f64).nd = 2 ∧ 1 ≤ (a.astype c .f64).n ∧ (P → 1 ≤ (a.astype c .f64).p) ∧
      (fin = true → ∀ i < (a.astype c .f64).n, ∀ j < (a.astype c .f64).p, (toFloat c (a.astype c .f64) i j).isFinite)) ↔
    (a.nd = 2 ∧ 1 ≤ a.n ∧ (P → 1 ≤ a.p) ∧ (fin = true → ∀ i < a.n, ∀ j < a.p, (toFloat c a i j).isFinite)) := by
  simp only [astype_toFloat c a h]
  rfl

theorem astype_arrays (c : Casting) (X : XIn) (h : X.isInteger = true) (P : Prop) (fin : Bool) :
    (∀ l ∈ parts (X.astype c), ∀ a, leafArr l = some a → a.nd = 2 ∧ 1 ≤ a.n ∧ (P → 1 ≤ a.p) ∧
      (fin = true → ∀ i < a.n, ∀ j < a.p, (toFloat c a i j).isFinite)) ↔
    (∀ l ∈ parts X, ∀ a, leafArr l = some a → a.nd = 2 ∧ 1 ≤ a.n ∧ (P → 1 ≤ a.p) ∧
      (fin = true → ∀ i < a.n, ∀ j < a.p, (toFloat c a i j).isFinite)) := by
  have hF := (astype_X c X h).2
  have hone : ∀ l : Leaf, (l.dt = .int ∨ l.dt = .bool) → ((∀ a, leafArr (l.astype c) = some a → a.nd = 2 ∧ 1 ≤ a.n ∧ (P → 1 ≤ a.p) ∧
      (fin = true → ∀ i < a.n, ∀ j < a.p, (toFloat c a i j).isFinite)) ↔ ∀ a, leafArr l = some a → a.nd = 2 ∧ 1 ≤ a.n ∧ (P → 1 ≤ a.p) ∧
      (fin = true → ∀ i < a.n, ∀ j < a.p, (toFloat c a i j).isFinite)) := by
    intro l hl
    cases l with
    | cat dt n p code buf names => simp [Leaf.astype, leafArr]
    | dense a names =>
      simp only [Leaf.astype, leafArr, Option.some.injEq, forall_eq']
      exact arr_astype_iff c a hl P fin
    | sparse a names =>
      simp only [Leaf.astype, leafArr, Option.some.injEq, forall_eq']
      exact arr_astype_iff c a hl P fin
  generalize parts X = l1 at hF ⊢
  generalize parts (X.astype c) = l2 at hF ⊢
  induction hF with
  | nil => simp
  | @cons x y l1 l2 hxy _ ih =>
    obtain ⟨-, -, -, -, rfl, hd⟩ := hxy
    simp only [List.forall_mem_cons, hone x hd, ih]

theorem isSplit_astype (c : Casting) (X : XIn) : IsSplit (X.astype c) ↔ IsSplit X := by
  cases X with
  | tabmat m => cases m <;> rfl
  | raw a => rfl
  | listed a => rfl
  | std m s t => rfl
  | frame b m => rfl

theorem astype_not_std (c : Casting) (X : XIn) : (∀ m s t, X.astype c ≠ .std m s t) ↔ ∀ m s t, X ≠ .std m s t := by
  cases X with
  | std m s t =>
    constructor
    · intro h; exact absurd rfl (h _ _ _)
    · intro h; exact absurd rfl (h m s t)
  | tabmat m => simp [XIn.astype]
  | raw a => simp [XIn.astype]
  | listed a => simp [XIn.astype]
  | frame b m => simp [XIn.astype]

theorem core_accepts (c : Casting) (copyX : Option Bool) (cd fin : Bool) (X : XIn) (hfr : ∀ b m, X ≠ .frame b m) :
    (if X.isInteger = true ∧ copyX = some false then none
      else checkX c (fitCheck copyX cd fin) (if X.isInteger = true then X.astype c else X)).isSome = true ↔
    (∀ m s t, X ≠ .std m s t) ∧ (copyX = some false → ¬ Integral X) ∧
    ∀ l ∈ parts X, ∀ a, leafArr l = some a → a.nd = 2 ∧ 1 ≤ a.n ∧ (¬ IsSplit X → 1 ≤ a.p) ∧
      (fin = true → ∀ i < a.n, ∀ j < a.p, (toFloat c a i j).isFinite) := by
  by_cases hst : ∀ m s t, X ≠ .std m s t
  · rw [← integral_iff X hst]
    by_cases hi : X.isInteger = true
    · by_cases hc : copyX = some false
      · rw [if_pos ⟨hi, hc⟩]
        simp [hi, hc]
      · rw [if_neg (fun h => hc h.2), if_pos hi, checkX_accepts c _ rfl rfl _ (by
          intro b m h
          cases X <;> simp [XIn.astype] at h
          exact absurd rfl (hfr _ _)), astype_not_std, isSplit_astype, astype_arrays c X hi]
        simp only [hst, hc, false_implies, true_and, implies_true]
        rfl
    · rw [if_neg (fun h => hi h.1), if_neg hi, checkX_accepts c _ rfl rfl X hfr]
      exact ⟨fun h => ⟨h.1, fun _ => hi, h.2⟩, fun h => ⟨h.1, h.2.2⟩⟩
  · push Not at hst
    obtain ⟨m, s, t, rfl⟩ := hst
    constructor
    · intro h
      split at h
      · cases h
      · have : ∀ Y, (Y = XIn.std m s t ∨ Y = (XIn.std m s t).astype c) → checkX c (fitCheck copyX cd fin) Y = none := by
          rintro Y (rfl | rfl) <;> simp [checkX, XIn.astype, shift_refused]
        rw [this _ (by split <;> simp)] at h
        cases h
    · rintro ⟨h, -⟩
      exact absurd rfl (h m s t)

/-- **C114, acceptance.** `fit` accepts `X` exactly if `FitAccepts` says so (`hdf`: `tm.from_df` makes floats). -/
theorem c114_accepts (c : Casting) (copyX : Option Bool) (cd fin : Bool) (X : XIn) (hdf : ∀ b m, X = .frame b m → ¬ Integral (.tabmat m)) :
    (fitX c copyX cd fin X).isSome = true ↔ FitAccepts c copyX fin X := by
  by_cases hfr : ∀ b m, X ≠ .frame b m
  · have e : fitX c copyX cd fin X = (if X.isInteger = true ∧ copyX = some false then none
        else checkX c (fitCheck copyX cd fin) (if X.isInteger = true then X.astype c else X)) := by
      cases X with
      | frame b m => exact absurd rfl (hfr b m)
      | raw a => rfl
      | listed a => rfl
      | tabmat m => rfl
      | std m s t => rfl
    rw [e, core_accepts c copyX cd fin X hfr]
    constructor
    · rintro ⟨h1, h2, h3⟩
      exact ⟨h1, fun _ m => hfr false m, h2, h3⟩
    · rintro ⟨h1, -, h2, h3⟩
      exact ⟨h1, h2, h3⟩
  · push Not at hfr
    obtain ⟨b, m, rfl⟩ := hfr
    have hp : parts (.frame b m) = parts (.tabmat m) := by cases m <;> rfl
    have hsp : IsSplit (.frame b m) ↔ IsSplit (.tabmat m) := by cases m <;> rfl
    have hdf' := hdf b m rfl
    by_cases hb : b = false ∧ copyX = some false
    · obtain ⟨rfl, rfl⟩ := hb
      have e : fitX c (some false) cd fin (.frame false m) = none := by simp [fitX]
      rw [e]
      constructor
      · intro h; cases h
      · intro h; exact absurd rfl (h.frame rfl m)
    · have e : fitX c copyX cd fin (.frame b m) = (if (XIn.tabmat m).isInteger = true ∧ copyX = some false then none
          else checkX c (fitCheck copyX cd fin) (if (XIn.tabmat m).isInteger = true then (XIn.tabmat m).astype c else .tabmat m)) := by
        simp only [fitX]
        rw [if_neg hb]
        rfl
      rw [e, core_accepts c copyX cd fin (.tabmat m) (fun b m h => by cases h)]
      constructor
      · rintro ⟨h1, h2, h3⟩
        refine ⟨fun m s t h => (by cases h), fun hc m' h => ?_, fun _ => id, ?_⟩
        · cases h
          exact hb ⟨rfl, hc⟩
        · rw [hp, hsp]; exact h3
      · rintro ⟨-, -, -, h3⟩
        rw [hp, hsp] at h3
        exact ⟨fun m s t h => (by cases h), fun _ => hdf', h3⟩

/-! ### The fit -/

def FV.toReal : FV → ℝ
  | .num x => x
  | _ => 0

/-- The rows a fit works with, from the checked matrix with `p` columns. -/
noncomputable def rowsOf {n : ℕ} (p : ℕ) (Z : XIn) (y sw : Fin n → ℝ) (off : Option (Fin n → ℝ)) : Rows n where
  X := fun i j => if j < p then (entry Z i j).toReal else 0
  y := y
  sw := sw
  off := off

/-- **C114, same fit.** Two containers with the same numbers give the same fit: whatever the family, link, penalties, bounds, solver and alphas. -/
theorem c114_same_fit {n p : ℕ} {ic : Bool} {σ : Type} (c : Casting) (copyX copyX' : Option Bool) (cd cd' fin fin' : Bool) (X X' Z Z' : XIn)
    (h : fitX c copyX cd fin X = some Z) (h' : fitX c copyX' cd' fin' X' = some Z') (he : Exact c X) (he' : Exact c X')
    (heq : ∀ i < n, ∀ j < p, entry X i j = entry X' i j) (C : FitCfg p ic) (stats : Stats) (solver : SolverFn σ p ic) (y sw : Fin n → ℝ)
    (off : Option (Fin n → ℝ)) (l1r : ℝ) (a : AlphaSpec) (s : σ) :
    glmFit C stats solver (rowsOf p Z y sw off) l1r a s = glmFit C stats solver (rowsOf p Z' y sw off) l1r a s := by
  have : rowsOf p Z y sw off = rowsOf p Z' y sw off := by
    unfold rowsOf
    congr 1
    funext i j
    by_cases hj : j < p
    · rw [if_pos hj, if_pos hj, c114_exact c copyX cd fin X Z h he, c114_exact c copyX' cd' fin' X' Z' h' he', heq i i.2 j hj]
    · rw [if_neg hj, if_neg hj]
  rw [this]

/-! ### Standardised matrices -/

/-- **C114 fails for standardised matrices** (finding F47): there is a branch for them, but `check_array` refuses their one-dimensional shift, in `fit` and in
`predict`, whatever they contain. -/
theorem c114_standardized_counterexample (c : Casting) (copyX : Option Bool) (cd fin : Bool) (m : TM) (shift : List ℝ) (mult : Option (List ℝ)) :
    fitX c copyX cd fin (.std m shift mult) = none ∧ predictX c (.std m shift mult) = none := by
  constructor
  · have := c114_accepts c copyX cd fin (.std m shift mult) (fun b m h => by cases h)
    cases hf : fitX c copyX cd fin (.std m shift mult) with
    | none => rfl
    | some Z =>
      rw [hf] at this
      exact absurd rfl ((this.1 rfl).notStd m shift mult)
  · simp [predictX, checkX, shift_refused]

/-! ### Memory -/

theorem checkArray_buf (c : Casting) (k : CheckCfg) (a r : Arr) (h : checkArray c k a = some r) :
    (k.copy = true → r.buf = none) ∧ (k.copy = false → k.dtype.target a.dt = a.dt → r.fmt = a.fmt → r.buf = a.buf) ∧ (a.buf = none → r.buf = none) := by
  obtain ⟨-, -, -, -, -, -, -, -, -, hb, -⟩ := checkArray_some c k a r h
  refine ⟨fun hk => ?_, fun hk hd hf => ?_, fun ha => ?_⟩
  · rw [hb, if_pos (Or.inl hk)]
  · rw [hb, if_neg (by simp [hk, hd, hf])]
  · rw [hb]; split
    · rfl
    · exact ha

/-- **C114, `copy_X=None`.** A numpy array of float64 or float32 is used where it is; of any other type a converted copy is used. -/
theorem c114_copy_none (c : Casting) (cd fin : Bool) (a : Arr) (hf : a.fmt = none) (Z : XIn) (h : fitX c none cd fin (.raw a) = some Z) :
    ∃ r, Z = .raw r ∧ r.buf = open Classical in if IsFloat a.dt then a.buf else none := by
  obtain ⟨X1, hX1, -, hck⟩ := fitX_steps c none cd fin (.raw a) Z h
  rcases hX1 with ⟨rfl, -⟩ | ⟨b, m, hx, -⟩
  swap
  · cases hx
  by_cases hi : (XIn.raw a).isInteger = true
  · rw [if_pos hi] at hck
    simp only [XIn.astype, checkX, Option.map_eq_some_iff] at hck
    obtain ⟨r, hr, rfl⟩ := hck
    refine ⟨r, rfl, ?_⟩
    have hd : a.dt = .int := by simpa [XIn.isInteger] using hi
    rw [if_neg (by rw [hd]; rintro (h | h) <;> cases h)]
    exact (checkArray_buf c _ _ r hr).2.2 rfl
  · rw [if_neg hi] at hck
    simp only [checkX, Option.map_eq_some_iff] at hck
    obtain ⟨r, hr, rfl⟩ := hck
    refine ⟨r, rfl, ?_⟩
    obtain ⟨-, -, -, -, -, -, -, -, -, hb, hfm⟩ := checkArray_some c _ a r hr
    have hfm := hfm hf
    rw [hb]
    by_cases hd : IsFloat a.dt
    · rw [if_pos hd, if_neg]
      rintro (h | h | h)
      · cases h
      · exact h (if_pos hd)
      · exact h (by rw [hfm, hf])
    · rw [if_neg hd, if_pos]
      right; left
      show (if a.dt = .f64 ∨ a.dt = .f32 then a.dt else .f64) ≠ a.dt
      rw [if_neg (show ¬ (a.dt = .f64 ∨ a.dt = .f32) from hd)]
      exact fun e => hd (Or.inl e.symm)

/-- **C114, `copy_X=False`**, for numpy arrays of floats and integers (missing: the other element types, see the counterexample): the array is used where it is, or there
is an exception. -/
theorem c114_copy_false_partial (c : Casting) (cd fin : Bool) (a : Arr) (hf : a.fmt = none) (hd : IsFloat a.dt ∨ a.dt = .int) (Z : XIn)
    (h : fitX c (some false) cd fin (.raw a) = some Z) : ∃ r, Z = .raw r ∧ r.buf = a.buf := by
  obtain ⟨X1, hX1, hint, hck⟩ := fitX_steps c (some false) cd fin (.raw a) Z h
  rcases hX1 with ⟨rfl, -⟩ | ⟨b, m, hx, -⟩
  swap
  · cases hx
  have hi : ¬ (XIn.raw a).isInteger = true := fun hi => hint ⟨hi, rfl⟩
  have hd : IsFloat a.dt := by
    rcases hd with hd | hd
    · exact hd
    · exact absurd (by simp [XIn.isInteger, hd]) hi
  rw [if_neg hi] at hck
  simp only [checkX, Option.map_eq_some_iff] at hck
  obtain ⟨r, hr, rfl⟩ := hck
  refine ⟨r, rfl, ?_⟩
  obtain ⟨-, -, -, -, -, -, -, -, -, -, hfm⟩ := checkArray_some c _ a r hr
  exact (checkArray_buf c _ a r hr).2.1 rfl (if_pos hd) (by rw [hfm hf, hf])

/-- One row, one column, the number one. -/
def oneArr (d : Dtype) : Arr where
  fmt := none
  nd := 2
  dt := d
  n := 1
  p := 1
  v := fun _ _ => .num 1
  buf := some 0

/-- **`copy_X=False` copies arrays of booleans, half-precision numbers and objects without a word** (finding F48). -/
theorem c114_copy_false_counterexample (c : Casting) (h1 : c.f64 1 = .num 1) (cd : Bool) (d : Dtype) (hd : d = .bool ∨ d = .f16 ∨ d = .obj) :
    ∃ r, fitX c (some false) cd true (.raw (oneArr d)) = some (.raw r) ∧ r.buf ≠ (oneArr d).buf ∧ (oneArr d).buf = some 0 := by
  have hacc : (fitX c (some false) cd true (.raw (oneArr d))).isSome = true := by
    rw [c114_accepts c _ _ _ _ (fun b m h => by cases h)]
    refine ⟨fun m s t h => (by cases h), fun _ m h => (by cases h), fun _ h => ?_, fun l hl a ha => ?_⟩
    · change d = .int at h
      rcases hd with rfl | rfl | rfl <;> cases h
    · simp only [parts, List.mem_singleton] at hl
      subst hl
      cases ha
      refine ⟨rfl, le_rfl, fun _ => le_rfl, fun _ i _ j _ => ?_⟩
      have e : toFloat c (oneArr d) i j = .num 1 := by
        unfold toFloat
        by_cases hf : IsFloat (oneArr d).dt
        · exact if_pos hf
        · exact (if_neg hf).trans h1
      rw [e]; trivial
  obtain ⟨Z, hZ⟩ := Option.isSome_iff_exists.1 hacc
  obtain ⟨X1, hX1, hint, hck⟩ := fitX_steps c (some false) cd true _ Z hZ
  rcases hX1 with ⟨rfl, -⟩ | ⟨b, m, hx, -⟩
  swap
  · cases hx
  rw [if_neg (fun hi => hint ⟨hi, rfl⟩)] at hck
  simp only [checkX, Option.map_eq_some_iff] at hck
  obtain ⟨r, hr, rfl⟩ := hck
  refine ⟨r, hZ, ?_, rfl⟩
  obtain ⟨-, -, -, -, -, -, -, -, -, hb, -⟩ := checkArray_some c _ _ r hr
  rw [hb, if_pos]
  · simp [oneArr]
  · right; left
    show DtypeReq.floats.target d ≠ d
    rcases hd with rfl | rfl | rfl <;> decide

theorem checkLeaf_copy (c : Casting) (k : CheckCfg) (hk : k.copy = true) (l l' : Leaf) (h : checkLeaf c k l = some l') :
    (leafArr l ≠ none → leafBuf l' = none) ∧ (leafArr l = none → leafBuf l' = leafBuf l) := by
  cases l with
  | cat dt n p code buf names =>
    simp only [checkLeaf, Option.some.injEq] at h
    subst h
    exact ⟨fun h => absurd rfl h, fun _ => rfl⟩
  | dense a names =>
    simp only [checkLeaf, Option.map_eq_some_iff] at h
    obtain ⟨r, hr, rfl⟩ := h
    exact ⟨fun _ => (checkArray_buf c k a r hr).1 hk, fun h => (by cases h)⟩
  | sparse a names =>
    simp only [checkLeaf, Option.map_eq_some_iff] at h
    obtain ⟨r, hr, rfl⟩ := h
    exact ⟨fun _ => (checkArray_buf c k a r hr).1 hk, fun h => (by cases h)⟩

theorem checkX_copy (c : Casting) (k : CheckCfg) (hk : k.copy = true) (X Z : XIn) (h : checkX c k X = some Z) (hs : ∀ m s t, X ≠ .std m s t) :
    List.Forall₂ (fun l l' => (leafArr l ≠ none → leafBuf l' = none) ∧ (leafArr l = none → leafBuf l' = leafBuf l)) (parts X) (parts Z) := by
  cases X with
  | raw a =>
    simp only [checkX, Option.map_eq_some_iff] at h
    obtain ⟨r, hr, rfl⟩ := h
    exact .cons ⟨fun _ => (checkArray_buf c k a r hr).1 hk, fun h => (by cases h)⟩ .nil
  | listed a =>
    simp only [checkX, Option.map_eq_some_iff] at h
    obtain ⟨r, hr, rfl⟩ := h
    exact .cons ⟨fun _ => (checkArray_buf c k a r hr).1 hk, fun h => (by cases h)⟩ .nil
  | std m s t => exact absurd rfl (hs m s t)
  | frame b m => cases h
  | tabmat m =>
    cases m with
    | leaf l =>
      simp only [checkX, checkTM, Option.map_eq_some_iff] at h
      obtain ⟨_, ⟨l', hl, rfl⟩, rfl⟩ := h
      exact .cons (checkLeaf_copy c k hk l l' hl) .nil
    | split ps =>
      simp only [checkX, checkTM, Option.map_eq_some_iff] at h
      obtain ⟨_, ⟨qs, hq, rfl⟩, rfl⟩ := h
      show List.Forall₂ _ (ps.map Prod.fst) (qs.map Prod.fst)
      rw [List.forall₂_map_left_iff, List.forall₂_map_right_iff]
      exact (checkParts_some c _ ps qs hq).imp fun x y hxy => checkLeaf_copy c { k with minFeatures := 0 } hk x.1 y.1 hxy.1

/-- **C114, `copy_X=True`**, for matrices without categorical parts (missing: those, see the counterexample): nothing of `X` is shared with the fitted problem. -/
theorem c114_copy_true_partial (c : Casting) (cd fin : Bool) (X Z : XIn) (h : fitX c (some true) cd fin X = some Z) (hfr : ∀ b m, X ≠ .frame b m)
    (hcat : ∀ l ∈ parts X, leafArr l ≠ none) : ∀ l ∈ parts Z, leafBuf l = none := by
  obtain ⟨X1, hX1, hint, hck⟩ := fitX_steps c (some true) cd fin X Z h
  rcases hX1 with ⟨rfl, -⟩ | ⟨b, m, hx, -⟩
  swap
  · exact absurd hx (hfr b m)
  have hns := (checkX_some c _ rfl _ Z hck).1
  have hF := checkX_copy c _ rfl _ Z hck hns
  intro l hl
  obtain ⟨l0, hl0, hb, -⟩ := forall2_mem_right hF l hl
  apply hb
  by_cases hi : X1.isInteger = true
  · rw [if_pos hi] at hl0
    obtain ⟨l1, hl1, -, -, -, -, rfl, -⟩ := forall2_mem_right (astype_X c X1 hi).2 l0 hl0
    have := hcat l1 hl1
    cases l1 with
    | cat => exact absurd rfl this
    | dense a s => simp [Leaf.astype, leafArr]
    | sparse a s => simp [Leaf.astype, leafArr]
  · rw [if_neg hi] at hl0
    exact hcat l0 hl0

/-- **`copy_X=True` does not copy categorical matrices** (finding F48): `copy.copy` shares the codes. -/
theorem c114_copy_true_counterexample (c : Casting) (cd fin : Bool) :
    ∃ Z, fitX c (some true) cd fin (.tabmat (.leaf (.cat .f64 1 1 (fun _ => some 0) (some 0) []))) = some Z ∧ ∃ l ∈ parts Z, leafBuf l = some 0 :=
  ⟨_, rfl, _, List.mem_singleton.2 rfl, rfl⟩

/-! ### Prediction -/

/-- An array with a NaN. -/
def nanArr : Arr := { oneArr .f64 with v := fun _ _ => .nan }

/-- **With `force_all_finite=False`, `predict` refuses what `fit` accepted** (finding F49). -/
theorem c114_predict_counterexample (c : Casting) (copyX : Option Bool) (cd : Bool) :
    (fitX c copyX cd false (.raw nanArr)).isSome = true ∧ predictX c (.raw nanArr) = none := by
  constructor
  · rw [c114_accepts c _ _ _ _ (fun b m h => by cases h)]
    refine ⟨fun m s t h => (by cases h), fun _ m h => (by cases h), fun _ h => (by cases h), fun l hl a ha => ?_⟩
    simp only [parts, List.mem_singleton] at hl
    subst hl
    cases ha
    exact ⟨rfl, le_rfl, fun _ => le_rfl, fun h => (by cases h)⟩
  · have : checkArray c { accept := [.csr, .csc, .coo], dtype := .numeric, copy := true, finite := true, minFeatures := 1 } nanArr = none := by
      unfold checkArray
      simp only
      rw [if_neg (by simp [nanArr, oneArr]), if_pos]
      refine ⟨rfl, 0, by simp [nanArr, oneArr], 0, by simp [nanArr, oneArr], ?_⟩
      rintro ⟨⟩
    simp [predictX, checkX, this]

/-! ### The response -/

/-- **C114, response.** For a float64 `X` a response of float64 numbers is used unchanged (missing: float32). -/
theorem c114_response_partial (c : Casting) (Z : XIn) (hZ : Z.outType = .f64) (rows : ℕ) (y y' : List FV) (h : fitY c Z rows y = some y')
    (hy : ∀ x, FV.num x ∈ y → c.f64 x = .num x) : y' = y ∧ (∀ a ∈ y', a.isFinite) ∧ y'.length = rows := by
  unfold fitY at h
  split at h
  · cases h
  · rename_i hf
    split at h
    · cases h
    · rename_i hl
      push Not at hf
      simp only [Option.some.injEq, hZ] at h
      have e : y' = y := by
        rw [← h]
        conv_rhs => rw [← List.map_id y]
        refine List.map_congr_left fun a ha => ?_
        cases a with
        | num x => exact hy x ha
        | nan => rfl
        | pinf => rfl
        | ninf => rfl
      exact ⟨e, e ▸ hf, by rw [e]; exact not_not.1 hl⟩

/-- **A finite response can become infinite** (finding F50): it is checked before it is converted to the element type of `X`. -/
theorem c114_response_counterexample (c : Casting) (hover : c.f32 (10 ^ 39) = .pinf) (copyX : Option Bool) (cd : Bool) :
    ∃ Z, fitX c copyX cd true (.raw (oneArr .f32)) = some Z ∧ fitY c Z 1 [.num (10 ^ 39)] = some [.pinf] := by
  have hacc : (fitX c copyX cd true (.raw (oneArr .f32))).isSome = true := by
    rw [c114_accepts c _ _ _ _ (fun b m h => by cases h)]
    refine ⟨fun m s t h => (by cases h), fun _ m h => (by cases h), fun _ h => (by cases h), fun l hl a ha => ?_⟩
    simp only [parts, List.mem_singleton] at hl
    subst hl
    cases ha
    refine ⟨rfl, le_rfl, fun _ => le_rfl, fun _ i _ j _ => ?_⟩
    simp [toFloat, oneArr, IsFloat, FV.isFinite]
  obtain ⟨Z, hZ⟩ := Option.isSome_iff_exists.1 hacc
  refine ⟨Z, hZ, ?_⟩
  obtain ⟨X1, hX1, hint, hck⟩ := fitX_steps c copyX cd true _ Z hZ
  rcases hX1 with ⟨rfl, -⟩ | ⟨b, m, hx, -⟩
  swap
  · cases hx
  rw [if_neg (by simp [XIn.isInteger, oneArr])] at hck
  simp only [checkX, Option.map_eq_some_iff] at hck
  obtain ⟨r, hr, rfl⟩ := hck
  obtain ⟨-, -, -, -, -, -, hd, -⟩ := checkArray_some c _ _ r hr
  have hd : r.dt = .f32 := hd
  unfold fitY
  rw [if_neg (by simp [FV.isFinite]), if_neg (by simp)]
  simp [XIn.outType, hd, Casting.to, hover]


/-! ### Non-vacuity -/

/-- Conversions that round nothing and overflow beyond `2^128` in float32. -/
noncomputable def plainCast : Casting where
  f64 := .num
  f32 := fun x => open Classical in if x < 2 ^ 128 then .num x else .pinf

theorem plain_overflow : plainCast.f32 (10 ^ 39) = .pinf := by
  unfold plainCast
  simp only
  rw [if_neg (by norm_num)]

/-- A split matrix with a categorical and a dense part of integers. -/
def splitEx : XIn := .tabmat (.split [(.cat .f64 2 2 (fun i => if i = 0 then some 0 else some 1) (some 1) [some "c[a]", some "c[b]"], [0, 2]),
  (.dense { oneArr .int with n := 2, v := fun i _ => if i = 0 then .num 5 else .num 7 } [some "x"], [1])])

/-- The same numbers in a numpy array of floats. -/
def splitDense : XIn := .raw { oneArr .f64 with n := 2, p := 3, v := fun i j => if j = 1 then (if i = 0 then .num 5 else .num 7) else
  if (i = 0 ∧ j = 0) ∨ (i = 1 ∧ j = 2) then .num 1 else .num 0 }

theorem splitEx_accepted (copyX : Option Bool) (cd : Bool) : (fitX plainCast copyX cd true splitEx).isSome = true := by
  rw [c114_accepts _ _ _ _ _ (fun b m h => by cases h)]
  refine ⟨fun m s t h => (by cases h), fun _ m h => (by cases h), fun _ h => ?_, fun l hl a ha => ?_⟩
  · have := h.1 _ List.mem_cons_self
    rcases this with h | h <;> cases h
  · simp only [splitEx, parts, List.map_cons, List.map_nil, List.mem_cons, List.not_mem_nil, or_false] at hl
    rcases hl with rfl | rfl
    · cases ha
    · cases ha
      refine ⟨rfl, by show 1 ≤ 2; omega, fun h => absurd trivial h, fun _ i _ j _ => ?_⟩
      unfold toFloat
      simp only
      split
      · rename_i x hx
        by_cases hf : IsFloat (oneArr .int).dt
        · rw [if_pos hf]; trivial
        · rw [if_neg hf]; trivial
      · rename_i hx
        exfalso
        by_cases hi : i = 0
        · exact hx 5 (by simp [hi])
        · exact hx 7 (by simp [hi])

theorem splitDense_accepted (copyX : Option Bool) (cd : Bool) : (fitX plainCast copyX cd true splitDense).isSome = true := by
  rw [c114_accepts _ _ _ _ _ (fun b m h => by cases h)]
  refine ⟨fun m s t h => (by cases h), fun _ m h => (by cases h), fun _ h => (by cases h), fun l hl a ha => ?_⟩
  simp only [splitDense, parts, List.mem_singleton] at hl
  subst hl
  cases ha
  refine ⟨rfl, by show 1 ≤ 2; omega, fun _ => by show 1 ≤ 3; omega, fun _ i _ j _ => ?_⟩
  unfold toFloat
  simp only
  split
  · rename_i x hx
    by_cases hf : IsFloat (oneArr .f64).dt
    · rw [if_pos hf]; trivial
    · rw [if_neg hf]; trivial
  · rename_i hx
    exfalso
    by_cases hj : j = 1
    · by_cases hi : i = 0
      · exact hx 5 (by simp [hj, hi])
      · exact hx 7 (by simp [hj, hi])
    · by_cases h : (i = 0 ∧ j = 0) ∨ (i = 1 ∧ j = 2)
      · exact hx 1 (by rw [if_neg hj, if_pos h])
      · exact hx 0 (by rw [if_neg hj, if_neg h])

theorem plain_exact (X : XIn) : Exact plainCast X := by
  intro l _ a _ i j
  unfold toFloat
  cases h : a.v i j with
  | num x =>
    simp only
    by_cases hf : IsFloat a.dt
    · rw [if_pos hf]
    · rw [if_neg hf]; rfl
  | nan => rfl
  | pinf => rfl
  | ninf => rfl

/-- `c114_same_fit` applies to the split matrix and the array. -/
example {ic : Bool} {σ : Type} (C : FitCfg 3 ic) (stats : Stats) (solver : SolverFn σ 3 ic) (y sw : Fin 2 → ℝ) (l1r : ℝ) (a : AlphaSpec) (s : σ) :
    ∃ Z Z', fitX plainCast none true true splitEx = some Z ∧ fitX plainCast (some false) false true splitDense = some Z' ∧
      glmFit C stats solver (rowsOf 3 Z y sw none) l1r a s = glmFit C stats solver (rowsOf 3 Z' y sw none) l1r a s := by
  obtain ⟨Z, hZ⟩ := Option.isSome_iff_exists.1 (splitEx_accepted none true)
  obtain ⟨Z', hZ'⟩ := Option.isSome_iff_exists.1 (splitDense_accepted (some false) false)
  refine ⟨Z, Z', hZ, hZ', c114_same_fit plainCast _ _ _ _ _ _ _ _ Z Z' hZ hZ' (plain_exact _) (plain_exact _) (fun i hi j hj => ?_) C stats solver y sw none l1r a s⟩
  have hi' : i = 0 ∨ i = 1 := by omega
  have hj' : j = 0 ∨ j = 1 ∨ j = 2 := by omega
  rcases hi' with rfl | rfl <;> rcases hj' with rfl | rfl | rfl <;>
    simp [entry, splitEx, splitDense, entryWith, tmWith, splitWith, leafEntry, List.idxOf, List.findIdx, List.findIdx.go]

/-- The other theorems apply too. -/
example : ∃ r, fitX plainCast (some false) true true (.raw (oneArr .bool)) = some (.raw r) ∧ r.buf ≠ (oneArr .bool).buf ∧ (oneArr .bool).buf = some 0 :=
  c114_copy_false_counterexample plainCast rfl true .bool (Or.inl rfl)

example (copyX : Option Bool) : ∃ Z, fitX plainCast copyX true true (.raw (oneArr .f32)) = some Z ∧ fitY plainCast Z 1 [.num (10 ^ 39)] = some [.pinf] :=
  c114_response_counterexample plainCast plain_overflow copyX true

example : ∃ Z, fitX plainCast (some false) true true splitDense = some Z ∧ ∃ r, Z = .raw r ∧ r.buf = some 0 := by
  obtain ⟨Z, hZ⟩ := Option.isSome_iff_exists.1 (splitDense_accepted (some false) true)
  exact ⟨Z, hZ, c114_copy_false_partial plainCast true true _ rfl (Or.inl (Or.inl rfl)) Z hZ⟩

end Glum
