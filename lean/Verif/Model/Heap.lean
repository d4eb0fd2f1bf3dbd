import Verif.Model.Solve
import Verif.Model.CV
/-
Model of `fit` with numpy's memory: which arrays are copied, which are shared and which are written in place (`_glm.py` 248-317, 669-715,
1959-2164, 2733-2918, 3227-3332; `_glm_cv.py` 634-805; `_utils.py` 246-313; `_validation.py` 94-217; `_solvers.py` 240-354).  The other models are
functional; this one says what they leave out.

Arrays the code allocates and never writes to again (intermediate results, the Hessian, `eta`, `mu`, …) are not given an address.
-/
namespace Glum

noncomputable section

/-- The memory: float arrays (two indices; a vector is row 0) and scipy sparse matrices, by address.  Everything below `nArr`, `nSp` is in use. -/
structure Heap where
  arr : ℕ → ℕ → ℕ → ℝ
  nArr : ℕ
  sp : ℕ → SparseMat ℝ
  nSp : ℕ

/-- A new array with this content. -/
def Heap.alloc (h : Heap) (c : ℕ → ℕ → ℝ) : Heap × ℕ :=
  ({ h with arr := fun a => if a = h.nArr then c else h.arr a, nArr := h.nArr + 1 }, h.nArr)

/-- A new sparse matrix. -/
def Heap.allocSp (h : Heap) (m : SparseMat ℝ) : Heap × ℕ :=
  ({ h with sp := fun a => if a = h.nSp then m else h.sp a, nSp := h.nSp + 1 }, h.nSp)

/-- `array[...] = c`, `array *= …`: the content of the array changes for everyone who holds it. -/
def Heap.write (h : Heap) (a : ℕ) (c : ℕ → ℕ → ℝ) : Heap := { h with arr := fun b => if b = a then c else h.arr b }

/-- The content of a vector. -/
def Heap.vec (h : Heap) (a : ℕ) : ℕ → ℝ := h.arr a 0

/-- A view `base[row, off:]` (numpy: basic indexing does not copy). -/
structure View where
  addr : ℕ
  row : ℕ
  off : ℕ

def View.tail (v : View) (k : ℕ) : View := { v with off := v.off + k }

def Heap.read (h : Heap) (v : View) (j : ℕ) : ℝ := h.arr v.addr v.row (v.off + j)

/-- Assignment to all elements of a view. -/
def Heap.writeView (h : Heap) (v : View) (f : ℕ → ℝ) : Heap :=
  h.write v.addr fun r j => if r = v.row ∧ v.off ≤ j then f (j - v.off) else h.arr v.addr r j

/-- A penalty matrix in memory. -/
inductive PenRef where
  | vec (a : ℕ)
  | dense (a : ℕ)
  | sparse (a : ℕ)

def Heap.pen (h : Heap) : PenRef → Pen2 ℝ
  | .vec a => .vec (h.vec a)
  | .dense a => .dense (h.arr a)
  | .sparse a => .sparse (h.sp a)

def Heap.allocPen (h : Heap) : Pen2 ℝ → Heap × PenRef
  | .vec v => ((h.alloc fun _ => v).1, .vec (h.alloc fun _ => v).2)
  | .dense m => ((h.alloc m).1, .dense (h.alloc m).2)
  | .sparse m => ((h.allocSp m).1, .sparse (h.allocSp m).2)

/-- The penalties as passed by the user. -/
inductive P1Ref where
  | str (s : String)
  | none
  | vec (len a : ℕ)

inductive P2Ref where
  | str (s : String)
  | none
  | vec (len a : ℕ)
  | dense (rows cols a : ℕ)
  | sparse (rows cols a : ℕ)

def Heap.p1 (h : Heap) : P1Ref → P1Arg
  | .str s => .str s
  | .none => .none
  | .vec len a => .vec len (h.vec a)

def Heap.p2 (h : Heap) : P2Ref → P2Arg
  | .str s => .str s
  | .none => .none
  | .vec len a => .vec len (h.vec a)
  | .dense r c a => .dense r c (h.arr a)
  | .sparse r c a => .sparse r c (h.sp a)

/-- Where the start comes from: nothing, the array `start_params`, or `intercept_` (a number) and `coef_` of the previous fit. -/
inductive StartRef where
  | cold
  | given (a : ℕ)
  | previous (b : ℝ) (v : View)

/-- The arrays a fit is given; any two may be the same array.  Scalars (weights, bounds, offset) become new arrays (`np.full`), as if the caller had
passed one. -/
structure FitRefs where
  X : ℕ
  y : ℕ
  w : Option ℕ
  off : Option ℕ
  P1 : P1Ref
  P2 : P2Ref
  lb : Option ℕ
  ub : Option ℕ
  A : Option ℕ
  start : StartRef

/-- Which of the arrays are copied by `check_array` because of `copy_X` or because their dtype or layout has to be changed. -/
structure Copies where
  X : Bool
  y : Bool
  w : Bool
  off : Bool
  lb : Bool
  ub : Bool

/-- `check_array(…)` (scikit-learn): a copy or the array itself. -/
def checkArr (copy : Bool) (h : Heap) (a : ℕ) : Heap × ℕ := if copy then h.alloc (h.arr a) else (h, a)

def checkOpt (copy : Bool) (h : Heap) : Option ℕ → Heap × Option ℕ
  | none => (h, none)
  | some a => ((checkArr copy h a).1, some (checkArr copy h a).2)

/-- The arrays the numerical part works on. -/
structure DataRefs where
  X : ℕ
  y : ℕ
  w : ℕ
  off : Option ℕ

/-- `_set_up_and_check_fit_args` (`_glm.py` 2108-2155): `X` and `y` are checked, the weights checked (or ones) and divided by their sum — a new
array —, the offset checked. -/
def checkData (n : ℕ) (k : Copies) (h : Heap) (r : FitRefs) : Heap × DataRefs :=
  let x := checkArr k.X h r.X
  let y := checkArr k.y x.1 r.y
  let w := match r.w with
    | none => y.1.alloc fun _ _ => 1
    | some a => checkArr k.w y.1 a
  let o := checkOpt k.off w.1 r.off
  let s := o.1.alloc fun _ j => o.1.vec w.2 j / ∑ i : Fin n, o.1.vec w.2 i
  (s.1, { X := x.2, y := y.2, w := s.2, off := o.2 })

variable {n p : ℕ} {ic : Bool}

/-- The rows in memory. -/
def Heap.rows (h : Heap) (n : ℕ) (d : DataRefs) : Rows n :=
  { X := fun i j => h.arr d.X i j, y := fun i => h.vec d.y i, sw := fun i => h.vec d.w i, off := d.off.map fun a i => h.vec a i }

/-- What `standardize` leaves for the solver: `X` is the same matrix behind a wrapper with shift and multiplier. -/
structure StdRefs where
  d : DataRefs
  P1 : ℕ
  P2 : PenRef
  lb : Option ℕ
  ub : Option ℕ
  A : Option ℕ

/-- `P2` in `standardize` (`_utils.py` 263-269): a vector is written in place, a matrix is replaced. -/
def scalePen (inv : ℕ → ℝ) (h : Heap) : PenRef → Heap × PenRef
  | .vec a => (h.write a fun _ j => h.vec a j * inv j ^ 2, .vec a)
  | .dense a => ((h.alloc fun j k => inv j * h.arr a j k * inv k).1, .dense (h.alloc fun j k => inv j * h.arr a j k * inv k).2)
  | .sparse a => ((h.allocSp ((h.sp a).map fun e => (e.1, e.2.1, inv e.1 * e.2.2 * inv e.2.1))).1,
      .sparse (h.allocSp ((h.sp a).map fun e => (e.1, e.2.1, inv e.1 * e.2.2 * inv e.2.1))).2)

/-- Allocation of a new array computed from an optional one. -/
def mapOpt (h : Heap) (f : (ℕ → ℕ → ℝ) → ℕ → ℕ → ℝ) : Option ℕ → Heap × Option ℕ
  | none => (h, none)
  | some a => ((h.alloc (f (h.arr a))).1, some (h.alloc (f (h.arr a))).2)

/-- `standardize` (`_utils.py` 246-271): new arrays for the bounds and the inequalities, `P1 *= inv_col_stds` in place, `P2` as above. -/
def standardizeH (thr : ℝ) (asIfScaled : Bool) (stds : ℕ → ℝ) (h : Heap) (s : StdRefs) : Heap × StdRefs :=
  let inv := fun j => oneOverStd thr 1 (stds j)
  let l := mapOpt h (fun c r j => c r j / inv j) s.lb
  let u := mapOpt l.1 (fun c r j => c r j / inv j) s.ub
  let a := mapOpt u.1 (fun c r j => c r j * inv j) s.A
  if asIfScaled then (a.1, { s with lb := l.2, ub := u.2, A := a.2 })
  else
    let h1 := a.1.write s.P1 fun _ j => a.1.vec s.P1 j * inv j
    let q := scalePen inv h1 s.P2
    (q.1, { s with lb := l.2, ub := u.2, A := a.2, P2 := q.2 })

/-- `standardize_warm_start(coef, col_means, col_stds)` (`_utils.py` 274-283), in place: first the coefficients, then the intercept. -/
def warmStartH (p : ℕ) (thr : ℝ) (means stds : ℕ → ℝ) (h : Heap) (v : View) : Heap :=
  let h1 := h.writeView (v.tail 1) fun j => h.read v (j + 1) * stds j
  h1.writeView v fun j => if j = 0 then h1.read v 0 + ∑ i : Fin p, means i * oneOverStd thr 1 (stds i) * h1.read v (i + 1) else h1.read v j

open Classical in
/-- `if np.any(coef[idx:] < lower_bounds): coef[idx:] = np.maximum(coef[idx:], lower_bounds)` (`_glm.py` 301-308). -/
def clipLowerH (p : ℕ) (h : Heap) (v : View) : Option ℕ → Heap
  | none => h
  | some l => if ∃ j < p, h.read v j < h.vec l j then h.writeView v fun j => max (h.read v j) (h.vec l j) else h

open Classical in
/-- The same for the upper bounds (`_glm.py` 309-315). -/
def clipUpperH (p : ℕ) (h : Heap) (v : View) : Option ℕ → Heap
  | none => h
  | some u => if ∃ j < p, h.vec u j < h.read v j then h.writeView v fun j => min (h.read v j) (h.vec u j) else h

/-- `_get_start_coef` (`_glm.py` 248-317).  The bounds are the user's arrays.  With `warm_start` and without intercept the start *is* the array
`coef_`. -/
def startH (p : ℕ) (ic : Bool) (thr : ℝ) (means stds : ℕ → ℝ) (guess : ℝ) (h : Heap) (lb ub : Option ℕ) (start : StartRef) : Heap × View :=
  let raw : Heap × View := match start with
    | .cold => ((h.alloc fun _ j => if j < ic.toNat then guess else 0).1, ⟨(h.alloc fun _ j => if j < ic.toNat then guess else 0).2, 0, 0⟩)
    | .given a =>
      let b := h.alloc (h.arr a)
      (if ic then warmStartH p thr means stds b.1 ⟨b.2, 0, 0⟩ else b.1, ⟨b.2, 0, 0⟩)
    | .previous c v =>
      if ic then
        let b := h.alloc fun _ j => if j = 0 then c else h.read v (j - 1)
        (warmStartH p thr means stds b.1 ⟨b.2, 0, 0⟩, ⟨b.2, 0, 0⟩)
      else (h, v)
  let h1 := clipLowerH p raw.1 (raw.2.tail ic.toNat) lb
  (clipUpperH p h1 (raw.2.tail ic.toNat) ub, raw.2)

/-- A coefficient vector in memory. -/
def Heap.coef (h : Heap) (p : ℕ) (ic : Bool) (v : View) : Fin (p + ic.toNat) → ℝ := fun k => h.read v k

def coefArr (c : Fin (p + ic.toNat) → ℝ) (j : ℕ) : ℝ := if h : j < p + ic.toNat then c ⟨j, h⟩ else 0

/-- A solver: what it computes, and whether it returns the very array it was given as start (the IRLS solvers do if they make no iteration:
`state.coef` is replaced by a new array in every one, `_solvers.py` 322-329, 843). -/
structure HSolver (σ : Type) (p : ℕ) (ic : Bool) where
  fn : SolverFn σ p ic
  same : (m : ℕ) → IRLSData m p ic → Option (ℕ → ℕ → ℝ) → σ → (Fin (p + ic.toNat) → ℝ) → Bool

/-- The problem in memory, as the solver reads it. -/
def Heap.problem (h : Heap) (n : ℕ) (C : FitCfg p ic) (means stds : ℕ → ℝ) (s : StdRefs) (P1 : ℕ) (P2 : PenRef) : IRLSData n p ic :=
  { C.problem (h.rows n s.d) (h.vec P1) (h.pen P2) with
    X := stdX C.thr ic means stds (h.rows n s.d).X, lb := s.lb.map h.vec, ub := s.ub.map h.vec }

/-- `_solve` (`_glm.py` 519-667): the penalties times alpha are new arrays (`_glm.py` 691-692, 2901-2902); the arrays are read, none is written. -/
def solveH {σ : Type} (n : ℕ) (S : HSolver σ p ic) (C : FitCfg p ic) (means stds : ℕ → ℝ) (s : StdRefs) (alpha : ℝ) (h : Heap) (st : σ) (v : View) :
    Heap × σ × View :=
  let q := h.alloc fun _ j => h.vec s.P1 j * alpha
  let Q := q.1.allocPen ((q.1.pen s.P2).smul alpha)
  let D := Q.1.problem n C means stds s q.2 Q.2
  let A := s.A.map Q.1.arr
  let c := Q.1.coef p ic v
  let r := S.fn n D A st c
  if S.same n D A st c then (Q.1, r.1, v)
  else ((Q.1.alloc fun _ => coefArr r.2).1, r.1, ⟨(Q.1.alloc fun _ => coefArr r.2).2, 0, 0⟩)

/-- The loop of `_solve_regularization_path` (`_glm.py` 685-713): `coef_path_[k, :] = coef`. -/
def pathH {σ : Type} (n : ℕ) (S : HSolver σ p ic) (C : FitCfg p ic) (means stds : ℕ → ℝ) (s : StdRefs) (path : ℕ) :
    List ℝ → ℕ → Heap → σ → View → Heap × σ
  | [], _, h, st, _ => (h, st)
  | a :: rest, k, h, st, v =>
    let o := solveH n S C means stds s a h st v
    let h1 := o.1.writeView ⟨path, k, 0⟩ fun j => o.1.read o.2.2 j
    pathH n S C means stds s path rest (k + 1) h1 o.2.1 o.2.2

/-- `unstandardize` on one coefficient vector in place (`_utils.py` 286-300 with `_glm.py` 2909-2918): the intercept is a number. -/
def unstdH (p : ℕ) (ic : Bool) (thr : ℝ) (means stds : ℕ → ℝ) (h : Heap) (v : View) : Heap × ℝ × View :=
  let b := (if ic then h.read v 0 else 0)
    - ∑ j ∈ Finset.range p, outMeans ic means j * oneOverStd thr 1 (stds j) * h.read (v.tail ic.toNat) j
  (h.writeView (v.tail ic.toNat) fun j => h.read (v.tail ic.toNat) j * oneOverStd thr 1 (stds j), b, v.tail ic.toNat)

/-- `unstandardize` on the path (`_utils.py` 286-300 with `_glm.py` 2867-2882), in place: with intercept first column 0 (`intercept -= …`), then the
other columns; without, the intercepts are a new array. -/
def unstdPathH (p : ℕ) (ic : Bool) (thr : ℝ) (means stds : ℕ → ℝ) (h : Heap) (path : ℕ) : Heap × (ℕ → ℝ) :=
  let shift := fun (g : Heap) r => ∑ j ∈ Finset.range p, outMeans ic means j * oneOverStd thr 1 (stds j) * g.arr path r (j + ic.toNat)
  let h1 := if ic then h.write path fun r j => if j = 0 then h.arr path r 0 - shift h r else h.arr path r j else h
  let h2 := h1.write path fun r j => if j < ic.toNat then h1.arr path r j else h1.arr path r j * oneOverStd thr 1 (stds (j - ic.toNat))
  (h2, fun r => if ic then h2.arr path r 0 else 0 - shift h r)

/-- What the estimator holds afterwards: `intercept_`, the view `coef_`, and the path array with the intercepts if there is one. -/
structure HOut where
  intercept : ℝ
  coef : View
  path : Option (ℕ × (ℕ → ℝ))
  alphas : List ℝ

/-- The configuration with the arguments as they are in memory. -/
def FitCfg.inHeap (C : FitCfg p ic) (h : Heap) (r : FitRefs) : FitCfg p ic :=
  { C with
    P1a := h.p1 r.P1
    P2a := h.p2 r.P2
    lb := r.lb.map h.vec
    ub := r.ub.map h.vec
    A := r.A.map h.arr
    start := match r.start with
      | .cold => .cold
      | .given a => .given fun k => h.vec a k
      | .previous b v => .previous fun k => if k.val < ic.toNat then b else h.read v (k.val - ic.toNat) }

/-- From the checked data to the start (`_glm.py` 2737-2812; the same sequence in `_glm_cv.py` 686-729): penalties set up (new arrays),
standardisation, start.  `lc`, `uc`: the checked bounds.  (In `fit` the bounds are checked after the penalties are set up, in the CV estimator before;
here always before.) -/
def prepareH (n : ℕ) (C : FitCfg p ic) (stats : Stats) (h : Heap) (d : DataRefs) (r : FitRefs) (lc uc : Option ℕ) (l1 : ℝ) :
    Option (Heap × (ℕ → ℝ) × (ℕ → ℝ) × StdRefs × View) := do
  let P1 ← setupP1 p 1 l1 (h.p1 r.P1)
  let q := h.alloc fun _ => P1
  let P2 ← setupP2 p C.xsp 1 l1 (q.1.p2 r.P2)
  let Q := q.1.allocPen P2
  let ms := stats n (Q.1.rows n d).X (Q.1.rows n d).sw
  let s := standardizeH C.thr C.asIfScaled ms.2 Q.1 { d := d, P1 := q.2, P2 := Q.2, lb := lc, ub := uc, A := r.A }
  let guess ← startGuess (C.inHeap s.1 r) (s.1.rows n d)
  let v := startH p ic C.thr ms.1 ms.2 guess s.1 r.lb r.ub r.start
  some (v.1, ms.1, ms.2, s.2, v.2)

open Classical in
/-- `fit` (`_glm.py` 2733-2918) in memory.  `none`: an exception. -/
def fitH {σ : Type} (n : ℕ) (C : FitCfg p ic) (k : Copies) (stats : Stats) (S : HSolver σ p ic) (r : FitRefs) (l1 : ℝ) (a : AlphaSpec) (st : σ)
    (h : Heap) : Option (Heap × σ × HOut) :=
  let c := checkData n k h r
  let l := checkOpt k.lb c.1 r.lb
  let u := checkOpt k.ub l.1 r.ub
  if (C.inHeap u.1 r).boundsBad then none
  else do
    let P2 ← setupP2 p C.xsp 1 l1 (u.1.p2 r.P2)
    if C.p2ok P2 = false then none
    else do
      let (h1, means, stds, s, v) ← prepareH n C stats u.1 c.2 r l.2 u.2 l1
      match a with
      | .single alpha =>
        let o := solveH n S C means stds s alpha h1 st v
        let w := unstdH p ic C.thr means stds o.1 o.2.2
        some (w.1, o.2.1, { intercept := w.2.1, coef := w.2.2, path := none, alphas := [alpha] })
      | a => do
        let alphas ← a.eval C
          { means := means, stds := stds, D := h1.problem n C means stds s s.P1 s.P2, A := s.A.map h1.arr, start := h1.coef p ic v }
        let e := h1.alloc fun _ _ => 0
        let o := pathH n S C means stds s e.2 alphas 0 e.1 st v
        let w := unstdPathH p ic C.thr means stds o.1 e.2
        if alphas = [] then none
        else some (w.1, o.2,
          { intercept := if ic then w.2 (alphas.length - 1) else 0, coef := ⟨e.2, alphas.length - 1, ic.toNat⟩, path := some (e.2, w.2),
            alphas := alphas })

/-! ### Cross-validation -/

/-- The rows of a fold (`_glm_cv.py` 650-672): index arrays copy; the new weights are divided by their sum in place. -/
def foldH {N : ℕ} (h : Heap) (d : DataRefs) (idx : List (Fin N)) : Heap × DataRefs :=
  let x := h.alloc fun i j => if hi : i < idx.length then h.arr d.X idx[i] j else 0
  let y := x.1.alloc fun _ i => if hi : i < idx.length then x.1.vec d.y idx[i] else 0
  let w := y.1.alloc fun _ i => if hi : i < idx.length then y.1.vec d.w idx[i] else 0
  let w' := w.1.write w.2 fun _ i => w.1.vec w.2 i / ∑ i : Fin idx.length, w.1.vec w.2 i
  let o := mapOpt w' (fun c _ i => if hi : i < idx.length then c 0 idx[i] else 0) d.off
  (o.1, { X := x.2, y := y.2, w := w.2, off := o.2 })

/-- What a job returns: the intercepts and the path array, both as they are in memory, and the deviances. -/
structure FoldRefs where
  ints : ℕ → ℝ
  path : ℕ
  dev : List ℝ
  trainDev : List ℝ

/-- `_fit_path` (`_glm_cv.py` 636-784) in memory: the deviances on the training rows are computed from the path before it is unstandardised in place,
those on the test rows after.  `none`: an exception. -/
def fitPathH {σ : Type} {N : ℕ} (C : FitCfg p ic) (stats : Stats) (S : HSolver σ p ic) (d : DataRefs) (r : FitRefs) (lc uc : Option ℕ) (j : CVJob N)
    (h : Heap) (st : σ) : Option (Heap × σ × FoldRefs) := do
  let tr := foldH h d j.train
  let te := foldH tr.1 d j.test
  let (h1, means, stds, s, v) ← prepareH j.train.length C stats te.1 tr.2 r lc uc j.l1
  if C.p2ok (h1.pen s.P2) = false then none
  else
    let e := h1.alloc fun _ _ => 0
    let o := pathH j.train.length S C means stds s e.2 j.alphas 0 e.1 st v
    let train := (List.range j.alphas.length).map fun k =>
      foldTrainDeviance C
        { means := means, stds := stds, D := o.1.problem j.train.length C means stds s s.P1 s.P2, A := s.A.map o.1.arr, start := o.1.coef p ic v }
        (o.1.coef p ic ⟨e.2, k, 0⟩)
    let w := unstdPathH p ic C.thr means stds o.1 e.2
    let test := (List.range j.alphas.length).map fun k =>
      foldDeviance C (w.1.rows j.test.length te.2) (w.2 k) fun i => w.1.arr e.2 k (i + ic.toNat)
    some (w.1, o.2, { ints := w.2, path := e.2, dev := test, trainDev := train })

/-- The jobs one after the other in the same process, sharing the data, the bounds and the penalties (`_glm_cv.py` 786-805 with joblib's `n_jobs=1`). -/
def jobsH {σ : Type} {N : ℕ} (C : FitCfg p ic) (stats : Stats) (S : HSolver σ p ic) (d : DataRefs) (r : FitRefs) (lc uc : Option ℕ) :
    List (CVJob N) → Heap → σ → Option (Heap × σ × List FoldRefs)
  | [], h, st => some (h, st, [])
  | j :: rest, h, st => do
    let (h1, st1, o) ← fitPathH C stats S d r lc uc j h st
    let (h2, st2, os) ← jobsH C stats S d r lc uc rest h1 st1
    some (h2, st2, o :: os)

/-- The CV estimator up to the jobs' results (`_glm_cv.py` 586-805): data and bounds are checked once. -/
def cvJobsH {σ : Type} (N : ℕ) (C : FitCfg p ic) (k : Copies) (stats : Stats) (S : HSolver σ p ic) (r : FitRefs) (jobs : List (CVJob N)) (st : σ) (h : Heap) :
    Option (Heap × σ × List FoldRefs) :=
  let c := checkData N k h r
  let l := checkOpt k.lb c.1 r.lb
  let u := checkOpt k.ub l.1 r.ub
  jobsH C stats S c.2 r l.2 u.2 jobs u.1 st

end

end Glum
