import Verif.Props.HeapStages
/-
C99: what `fit` does to the memory of its caller, and that sharing and in-place writing do not change what it computes.
-/
set_option linter.unusedSectionVars false
set_option linter.unusedVariables false
set_option linter.unusedSimpArgs false

namespace Glum

variable {n p : ℕ} {ic : Bool}

/-- A solver that says it returns the array it was given returns the start. -/
def HSolver.Faithful {σ : Type} (S : HSolver σ p ic) : Prop := ∀ m D A st c, S.same m D A st c = true → (S.fn m D A st c).2 = c

theorem problem_withPen (h : Heap) (n : ℕ) (C : FitCfg p ic) (means stds : ℕ → ℝ) (s : StdRefs) {g : Heap} (P1 : ℕ) (P2 : PenRef)
    (er : g.rows n s.d = h.rows n s.d) (el : s.lb.map g.vec = s.lb.map h.vec) (eu : s.ub.map g.vec = s.ub.map h.vec) :
    g.problem n C means stds s P1 P2 = (h.problem n C means stds s s.P1 s.P2).withPen (g.vec P1) (g.pen P2) := by
  unfold Heap.problem IRLSData.withPen FitCfg.problem
  simp only []
  rw [er, el, eu]

theorem coef_coefArr (h : Heap) (c : Fin (p + ic.toNat) → ℝ) :
    (h.alloc fun _ => coefArr c).1.coef p ic ⟨(h.alloc fun _ => coefArr c).2, 0, 0⟩ = c := by
  funext k
  show (h.alloc fun _ => coefArr c).1.arr (h.alloc fun _ => coefArr c).2 0 (0 + k.val) = _
  rw [alloc_arr, Nat.zero_add]
  unfold coefArr
  rw [dif_pos k.isLt]

/-- One solve: new memory only, and the values are the solver's. -/
theorem solveH_spec {σ : Type} (n : ℕ) {S : HSolver σ p ic} (hS : S.Faithful) (C : FitCfg p ic) (means stds : ℕ → ℝ) {s : StdRefs} (alpha : ℝ) {h : Heap}
    (st : σ) {v : View} (hs : s.Valid h) (hv : v.addr < h.nArr) :
    let o := solveH n S C means stds s alpha h st v
    let f := S.fn n ((h.problem n C means stds s s.P1 s.P2).withPen (fun j => h.vec s.P1 j * alpha) ((h.pen s.P2).smul alpha)) (s.A.map h.arr) st (h.coef p ic v)
    Keeps NoCell h o.1 ∧ o.2.1 = f.1 ∧ o.1.coef p ic o.2.2 = f.2 ∧ o.2.2.addr < o.1.nArr ∧ (o.2.2 = v ∨ h.nArr ≤ o.2.2.addr) := by
  have no : ∀ a r j, ¬ NoCell a r j := fun _ _ _ x => x
  obtain ⟨q, hq⟩ : ∃ q, q = h.alloc fun _ j => h.vec s.P1 j * alpha := ⟨_, rfl⟩
  obtain ⟨Q, hQ⟩ : ∃ Q, Q = q.1.allocPen ((q.1.pen s.P2).smul alpha) := ⟨_, rfl⟩
  have kq : Keeps NoCell h q.1 := hq ▸ (Keeps.refl h).alloc _
  have kQ : Keeps NoCell q.1 Q.1 := hQ ▸ (Keeps.refl q.1).allocPen _
  have kk : Keeps NoCell h Q.1 := kq.trans kQ
  have lq : q.2 < q.1.nArr := by rw [hq]; exact Nat.lt_succ_self _
  have e1 : Q.1.vec q.2 = fun j => h.vec s.P1 j * alpha := by
    rw [kQ.vec_eq lq (no _), hq, alloc_vec]
  have e2 : Q.1.pen Q.2 = (h.pen s.P2).smul alpha := by
    rw [hQ, allocPen_pen, penRef_eq kq hs.P2 fun a _ => no a]
  have eD : Q.1.problem n C means stds s q.2 Q.2
      = (h.problem n C means stds s s.P1 s.P2).withPen (fun j => h.vec s.P1 j * alpha) ((h.pen s.P2).smul alpha) := by
    rw [problem_withPen h n C means stds s q.2 Q.2 (heapRows_eq kk hs.d.X hs.d.y hs.d.w hs.d.off (no _) (no _) (no _) fun a _ => no a)
      (map_vec_eq kk hs.lb fun a _ => no a) (map_vec_eq kk hs.ub fun a _ => no a), e1, e2]
  have eA : s.A.map Q.1.arr = s.A.map h.arr := map_arr_eq kk hs.A fun a _ => no a
  have ec : Q.1.coef p ic v = h.coef p ic v := by
    funext k
    exact congrFun (heapRead_eq kk hv (no _)) k.val
  intro o f
  have eo : o = if S.same n (Q.1.problem n C means stds s q.2 Q.2) (s.A.map Q.1.arr) st (Q.1.coef p ic v) then
        (Q.1, (S.fn n (Q.1.problem n C means stds s q.2 Q.2) (s.A.map Q.1.arr) st (Q.1.coef p ic v)).1, v)
      else ((Q.1.alloc fun _ => coefArr (S.fn n (Q.1.problem n C means stds s q.2 Q.2) (s.A.map Q.1.arr) st (Q.1.coef p ic v)).2).1,
        (S.fn n (Q.1.problem n C means stds s q.2 Q.2) (s.A.map Q.1.arr) st (Q.1.coef p ic v)).1,
        ⟨(Q.1.alloc fun _ => coefArr (S.fn n (Q.1.problem n C means stds s q.2 Q.2) (s.A.map Q.1.arr) st (Q.1.coef p ic v)).2).2, 0, 0⟩) := by
    subst hQ hq
    rfl
  rw [eD, eA, ec] at eo
  by_cases hsame : S.same n ((h.problem n C means stds s s.P1 s.P2).withPen (fun j => h.vec s.P1 j * alpha) ((h.pen s.P2).smul alpha)) (s.A.map h.arr) st
      (h.coef p ic v) = true
  · rw [if_pos hsame] at eo
    rw [eo]
    refine ⟨kk, rfl, ?_, lt_of_lt_of_le hv kk.nArr, Or.inl rfl⟩
    exact ec.trans (hS _ _ _ _ _ hsame).symm
  · rw [if_neg hsame] at eo
    rw [eo]
    exact ⟨kk.alloc _, rfl, coef_coefArr _ _, Nat.lt_succ_self _, Or.inr kk.nArr⟩

/-- The path array is not one of the arrays of the problem. -/
structure StdRefs.Avoids (s : StdRefs) (a : ℕ) : Prop where
  X : s.d.X ≠ a
  y : s.d.y ≠ a
  w : s.d.w ≠ a
  off : s.d.off ≠ some a
  P1 : s.P1 ≠ a
  P2v : s.P2 ≠ .vec a
  P2d : s.P2 ≠ .dense a
  lb : s.lb ≠ some a
  ub : s.ub ≠ some a
  A : s.A ≠ some a

theorem StdRefs.Valid.avoids {s : StdRefs} {h : Heap} (hs : s.Valid h) {a : ℕ} (ha : h.nArr ≤ a) : s.Avoids a := by
  refine ⟨?_, ?_, ?_, ?_, ?_, ?_, ?_, ?_, ?_, ?_⟩
  · have := hs.d.X; omega
  · have := hs.d.y; omega
  · have := hs.d.w; omega
  · intro e; have := hs.d.off _ e; omega
  · have := hs.P1; omega
  · intro e; have := hs.P2; rw [e] at this; exact absurd this (not_lt.mpr ha)
  · intro e; have := hs.P2; rw [e] at this; exact absurd this (not_lt.mpr ha)
  · intro e; have := hs.lb _ e; omega
  · intro e; have := hs.ub _ e; omega
  · intro e; have := hs.A _ e; omega

theorem problem_keeps {E : ℕ → ℕ → ℕ → Prop} {h h' : Heap} {s : StdRefs} (C : FitCfg p ic) (means stds : ℕ → ℝ) (k : Keeps E h h') (hs : s.Valid h)
    {a : ℕ} (hE : ∀ b i j, E b i j → b = a) (ha : s.Avoids a) :
    h'.problem n C means stds s s.P1 s.P2 = h.problem n C means stds s s.P1 s.P2 ∧ h'.vec s.P1 = h.vec s.P1 ∧ h'.pen s.P2 = h.pen s.P2
      ∧ s.A.map h'.arr = s.A.map h.arr := by
  have av : ∀ b, b ≠ a → ∀ i j, ¬ E b i j := fun b hb i j e => hb (hE b i j e)
  have ao : ∀ o : Option ℕ, o ≠ some a → ∀ b, o = some b → ∀ i j, ¬ E b i j := fun o ho b hb => av b fun e => ho (by rw [hb, e])
  have e1 := k.vec_eq hs.P1 (av _ ha.P1)
  have e2 : h'.pen s.P2 = h.pen s.P2 := by
    refine penRef_eq k hs.P2 fun b hb => av b fun e => ?_
    rcases hb with hb | hb
    · exact ha.P2v (by rw [hb, e])
    · exact ha.P2d (by rw [hb, e])
  have e3 := heapRows_eq (n := n) k hs.d.X hs.d.y hs.d.w hs.d.off (av _ ha.X) (av _ ha.y) (av _ ha.w) (ao _ ha.off)
  have e4 := map_vec_eq k hs.lb (ao _ ha.lb)
  have e5 := map_vec_eq k hs.ub (ao _ ha.ub)
  refine ⟨?_, e1, e2, map_arr_eq k hs.A (ao _ ha.A)⟩
  unfold Heap.problem
  rw [e1, e2, e3, e4, e5]

/-- The regularisation path: the rows of the path array are the solutions. -/
theorem pathH_spec {σ : Type} (n : ℕ) {S : HSolver σ p ic} (hS : S.Faithful) (C : FitCfg p ic) (means stds : ℕ → ℝ) {s : StdRefs} {path : ℕ}
    (ha : s.Avoids path) (alphas : List ℝ) : ∀ (k : ℕ) {h : Heap} (st : σ) {v : View}, s.Valid h → v.addr < h.nArr → v.addr ≠ path → path < h.nArr →
    let o := pathH n S C means stds s path alphas k h st v
    let f := solvePath (fun st P1 P2 c => S.fn n ((h.problem n C means stds s s.P1 s.P2).withPen P1 P2) (s.A.map h.arr) st c) (h.vec s.P1) (h.pen s.P2)
      alphas st (h.coef p ic v)
    Keeps (fun a _ _ => a = path) h o.1 ∧ o.2 = f.1 ∧ f.2.length = alphas.length ∧ (∀ i < k, o.1.arr path i = h.arr path i)
      ∧ ∀ i, ∀ hi : i < f.2.length, ∀ c : Fin (p + ic.toNat), o.1.arr path (k + i) c = f.2[i] c := by
  induction alphas with
  | nil =>
    intro k h st v hs hv hne hp
    exact ⟨Keeps.refl h, rfl, rfl, fun _ _ => rfl, fun i hi => absurd hi (Nat.not_lt_zero _)⟩
  | cons a rest ih =>
    intro k h st v hs hv hne hp
    have sp := solveH_spec n hS C means stds a st hs hv
    simp only [] at sp
    obtain ⟨o, ho⟩ : ∃ o, o = solveH n S C means stds s a h st v := ⟨_, rfl⟩
    rw [← ho] at sp
    obtain ⟨k1, e1, e2, l2, c2⟩ := sp
    obtain ⟨h1, hh1⟩ : ∃ h1, h1 = o.1.writeView ⟨path, k, 0⟩ fun j => o.1.read o.2.2 j := ⟨_, rfl⟩
    have kw : Keeps (fun a _ _ => a = path) o.1 h1 := hh1 ▸ (Keeps.refl o.1).writeView _ (Or.inr fun j _ => rfl)
    have k1h : Keeps (fun a _ _ => a = path) h h1 := (k1.mono fun _ _ _ x => x.elim).trans kw
    have hne' : o.2.2.addr ≠ path := by
      rcases c2 with e | e
      · rw [e]; exact hne
      · omega
    have en : h1.nArr = o.1.nArr := by rw [hh1]; rfl
    have st1 := ih (k + 1) (h := h1) o.2.1 (v := o.2.2) (hs.keeps k1h) (lt_of_lt_of_le l2 kw.nArr) hne' (lt_of_lt_of_le hp k1h.nArr)
    obtain ⟨pr, ep1, ep2, epA⟩ := problem_keeps (n := n) C means stds k1h hs (fun _ _ _ x => x) ha
    have ec : h1.coef p ic o.2.2 = o.1.coef p ic o.2.2 := by
      funext c
      exact congrFun (heapRead_eq kw l2 fun _ _ e => hne' e) c.val
    rw [pr, ep1, ep2, epA, ec, e2, e1] at st1
    have eo : pathH n S C means stds s path (a :: rest) k h st v = pathH n S C means stds s path rest (k + 1) h1 o.2.1 o.2.2 := by
      subst hh1 ho
      rfl
    simp only [] at st1 ⊢
    rw [eo, e1]
    obtain ⟨t1, t2, t3, t4, t5⟩ := st1
    refine ⟨k1h.trans t1, t2, congrArg Nat.succ t3, ?_, ?_⟩
    · intro i hi
      rw [t4 i (by omega), hh1]
      funext j
      show (o.1.write path _).arr path i j = _
      rw [write_same, if_neg (fun e => by have : i = k := e.1; omega)]
      exact k1.arr path hp i j fun x => x
    · intro i hi c
      cases i with
      | zero =>
        refine (congrFun (t4 k (Nat.lt_succ_self _)) c.val).trans ?_
        rw [hh1]
        have := read_writeView o.1 ⟨path, k, 0⟩ (fun j => o.1.read o.2.2 j) c.val
        have e : ∀ g : Heap, g.arr path k c.val = g.read ⟨path, k, 0⟩ c.val := by
          intro g
          show _ = g.arr path k (0 + c.val)
          rw [Nat.zero_add]
        rw [e, this]
        exact congrFun e2 c
      | succ i =>
        have := t5 i (Nat.lt_of_succ_lt_succ hi) c
        rw [show k + (i + 1) = k + 1 + i by omega]
        exact this

/-! ### Translation of the result -/

theorem feat_coef (h : Heap) (v : View) {j : ℕ} (hj : j < p) : feat ic (h.coef p ic v) j = h.read (v.tail ic.toNat) j := by
  unfold feat
  rw [dif_pos (by omega)]
  show h.arr _ _ (v.off + (j + ic.toNat)) = h.arr _ _ (v.off + ic.toNat + j)
  congr 1
  omega

theorem unstdH_spec (thr : ℝ) (means stds : ℕ → ℝ) (h : Heap) (v : View) :
    (unstdH p ic thr means stds h v).2.1 = (report ic thr means stds (h.coef p ic v)).1
      ∧ ∀ j < p, (unstdH p ic thr means stds h v).1.read (unstdH p ic thr means stds h v).2.2 j = (report ic thr means stds (h.coef p ic v)).2 j := by
  constructor
  · show (if ic then h.read v 0 else 0) - _ = (if ic then icpt ic (h.coef p ic v) else 0) - _
    congr 1
    · rcases Bool.eq_false_or_eq_true ic with hi | hi
      · subst hi
        rfl
      · rw [if_neg (by rw [hi]; decide), if_neg (by rw [hi]; decide)]
    · refine Finset.sum_congr rfl fun j hj => ?_
      rw [feat_coef h v (Finset.mem_range.mp hj)]
  · intro j hj
    unfold unstdH report unstandardize
    simp only []
    rw [read_writeView, feat_coef h v hj]

theorem unstdPathH_spec (thr : ℝ) (means stds : ℕ → ℝ) (h : Heap) (path row : ℕ) (c : Fin (p + ic.toNat) → ℝ)
    (hc : ∀ k : Fin (p + ic.toNat), h.arr path row k = c k) :
    (unstdPathH p ic thr means stds h path).2 row = (report ic thr means stds c).1
      ∧ ∀ j < p, (unstdPathH p ic thr means stds h path).1.arr path row (j + ic.toNat) = (report ic thr means stds c).2 j := by
  have hf : ∀ j < p, feat ic c j = h.arr path row (j + ic.toNat) := by
    intro j hj
    unfold feat
    rw [dif_pos (by omega)]
    exact (hc ⟨j + ic.toNat, by omega⟩).symm
  have hsum : ∑ j ∈ Finset.range p, outMeans ic means j * oneOverStd thr 1 (stds j) * h.arr path row (j + ic.toNat)
      = ∑ j ∈ Finset.range p, outMeans ic means j * oneOverStd thr 1 (stds j) * feat ic c j :=
    Finset.sum_congr rfl fun j hj => by rw [hf j (Finset.mem_range.mp hj)]
  rcases Bool.eq_false_or_eq_true ic with hi | hi
  · subst hi
    unfold unstdPathH
    simp only [if_true]
    constructor
    · rw [write_same, if_pos (show 0 < true.toNat from Nat.one_pos), write_same, if_pos rfl]
      show h.arr path row 0 - _ = icpt true c - _
      rw [hsum]
      congr 1
      exact hc ⟨0, Nat.lt_of_lt_of_le Nat.one_pos (Nat.le_add_left _ _)⟩
    · intro j hj
      have hj1 : ¬ (j + true.toNat < true.toNat) := by omega
      have hj2 : ¬ (j + true.toNat = 0) := by show ¬ (j + 1 = 0); omega
      rw [write_same, if_neg hj1, write_same, if_neg hj2, Nat.add_sub_cancel]
      show _ = feat true c j * _
      rw [hf j hj]
  · subst hi
    unfold unstdPathH
    simp only [Bool.false_eq_true, if_false]
    constructor
    · rw [hsum]
      rfl
    · intro j hj
      have hj1 : ¬ (j + false.toNat < false.toNat) := by show ¬ (j + 0 < 0); omega
      rw [write_same, if_neg hj1, Nat.add_sub_cancel]
      show _ = feat false c j * _
      rw [hf j hj]


/-! ### The whole fit -/

theorem checkBounds_spec (k : Copies) {h : Heap} {r : FitRefs} (hr : r.Valid h) :
    Keeps NoCell h (checkOpt k.ub (checkOpt k.lb h r.lb).1 r.ub).1
      ∧ BoundsChecked (checkOpt k.ub (checkOpt k.lb h r.lb).1 r.ub).1 r (checkOpt k.lb h r.lb).2 (checkOpt k.ub (checkOpt k.lb h r.lb).1 r.ub).2 := by
  have no : ∀ a r j, ¬ NoCell a r j := fun _ _ _ x => x
  obtain ⟨l, hl⟩ : ∃ l, l = checkOpt k.lb h r.lb := ⟨_, rfl⟩
  obtain ⟨u, hu⟩ : ∃ u, u = checkOpt k.ub l.1 r.ub := ⟨_, rfl⟩
  have kl : Keeps NoCell h l.1 := hl ▸ (Keeps.refl h).checkOpt _ _
  have ku : Keeps NoCell l.1 u.1 := hu ▸ (Keeps.refl l.1).checkOpt _ _
  have ll : OptLt l.2 l.1.nArr := hl ▸ checkOpt_lt _ hr.lb
  have lu : OptLt u.2 u.1.nArr := hu ▸ checkOpt_lt _ (hr.ub.mono kl.nArr)
  have tov : ∀ (g g' : Heap) (o o' : Option ℕ), o.map g.arr = o'.map g'.arr → o.map g.vec = o'.map g'.vec := by
    intro g g' o o' e
    have := congrArg (Option.map fun (c : ℕ → ℕ → ℝ) => c 0) e
    rw [Option.map_map, Option.map_map] at this
    exact this
  have el : l.2.map u.1.arr = r.lb.map h.arr := by
    rw [map_arr_eq ku ll fun a _ => no a, hl, checkOpt_arr]
  have eu : u.2.map u.1.arr = r.ub.map h.arr := by
    rw [hu, checkOpt_arr]
    exact map_arr_eq kl hr.ub fun a _ => no a
  rw [← hl, ← hu]
  refine ⟨kl.trans ku, ll.mono ku.nArr, lu, ?_, ?_⟩
  · exact (tov _ _ _ _ el).trans (map_vec_eq (kl.trans ku) hr.lb fun a _ => no a).symm
  · exact (tov _ _ _ _ eu).trans (map_vec_eq (kl.trans ku) hr.ub fun a _ => no a).symm

/-- The memory after the checks of data and bounds, with the checked arrays. -/
noncomputable def checkAll (n : ℕ) (k : Copies) (h : Heap) (r : FitRefs) : Heap × DataRefs × Option ℕ × Option ℕ :=
  let c := checkData n k h r
  let l := checkOpt k.lb c.1 r.lb
  let u := checkOpt k.ub l.1 r.ub
  (u.1, c.2, l.2, u.2)

theorem checkAll_spec (n : ℕ) (k : Copies) {h : Heap} {r : FitRefs} (hr : r.Valid h) :
    Keeps NoCell h (checkAll n k h r).1 ∧ (checkAll n k h r).2.1.Valid (checkAll n k h r).1
      ∧ BoundsChecked (checkAll n k h r).1 r (checkAll n k h r).2.2.1 (checkAll n k h r).2.2.2
      ∧ (checkAll n k h r).1.rows n (checkAll n k h r).2.1 = h.userRows n r
      ∧ ((checkAll n k h r).2.1.X = r.X ∨ h.nArr ≤ (checkAll n k h r).2.1.X)
      ∧ ((checkAll n k h r).2.1.y = r.y ∨ h.nArr ≤ (checkAll n k h r).2.1.y)
      ∧ h.nArr ≤ (checkAll n k h r).2.1.w
      ∧ (∀ a, (checkAll n k h r).2.1.off = some a → r.off = some a ∨ h.nArr ≤ a) := by
  have no : ∀ a r j, ¬ NoCell a r j := fun _ _ _ x => x
  obtain ⟨k0, dv, rows, cX, cy, cw, co⟩ := checkData_spec n k hr
  obtain ⟨k1, bc⟩ := checkBounds_spec k (hr.keeps k0)
  refine ⟨k0.trans k1, dv.keeps k1, bc, ?_, cX, cy, cw, co⟩
  exact (heapRows_eq k1 dv.X dv.y dv.w dv.off (no _) (no _) (no _) fun a _ => no a).trans rows

open Classical in
/-- The end of `fitH`, after the preparation. -/
noncomputable def finishH {σ : Type} (n : ℕ) (C : FitCfg p ic) (S : HSolver σ p ic) (a : AlphaSpec) (st : σ) (h1 : Heap) (means stds : ℕ → ℝ) (s : StdRefs)
    (v : View) : Option (Heap × σ × HOut) :=
  match a with
  | .single alpha =>
    let o := solveH n S C means stds s alpha h1 st v
    let w := unstdH p ic C.thr means stds o.1 o.2.2
    some (w.1, o.2.1, { intercept := w.2.1, coef := w.2.2, path := none, alphas := [alpha] })
  | a =>
    (a.eval C { means := means, stds := stds, D := h1.problem n C means stds s s.P1 s.P2, A := s.A.map h1.arr, start := h1.coef p ic v }).bind fun alphas =>
      let e := h1.alloc fun _ _ => 0
      let o := pathH n S C means stds s e.2 alphas 0 e.1 st v
      let w := unstdPathH p ic C.thr means stds o.1 e.2
      if alphas = [] then none
      else some (w.1, o.2,
        { intercept := if ic then w.2 (alphas.length - 1) else 0, coef := ⟨e.2, alphas.length - 1, ic.toNat⟩, path := some (e.2, w.2), alphas := alphas })

open Classical in
theorem fitH_eq {σ : Type} (n : ℕ) (C : FitCfg p ic) (k : Copies) (stats : Stats) (S : HSolver σ p ic) (r : FitRefs) (l1 : ℝ) (a : AlphaSpec) (st : σ)
    (h : Heap) :
    fitH n C k stats S r l1 a st h = if (C.inHeap (checkAll n k h r).1 r).boundsBad then none else
      (setupP2 p C.xsp 1 l1 (C.inHeap (checkAll n k h r).1 r).P2a).bind fun P2 => if C.p2ok P2 = false then none else
        (prepareH n C stats (checkAll n k h r).1 (checkAll n k h r).2.1 r (checkAll n k h r).2.2.1 (checkAll n k h r).2.2.2 l1).bind fun o => finishH n C S a st o.1 o.2.1 o.2.2.1 o.2.2.2.1 o.2.2.2.2 := by
  show (if (C.inHeap (checkAll n k h r).1 r).boundsBad then none else _) = _
  split
  · rfl
  · show (setupP2 p C.xsp 1 l1 ((checkAll n k h r).1.p2 r.P2)).bind _ = (setupP2 p C.xsp 1 l1 ((checkAll n k h r).1.p2 r.P2)).bind _
    refine Option.bind_congr fun P2 _ => ?_
    split
    · rfl
    · refine Option.bind_congr fun o _ => ?_
      cases a <;> rfl

theorem solveH_keeps {σ : Type} {E : ℕ → ℕ → ℕ → Prop} {h0 : Heap} (n : ℕ) (S : HSolver σ p ic) (C : FitCfg p ic) (means stds : ℕ → ℝ) (s : StdRefs) (alpha : ℝ)
    {h : Heap} (st : σ) (v : View) (k : Keeps E h0 h) :
    Keeps E h0 (solveH n S C means stds s alpha h st v).1
      ∧ ((solveH n S C means stds s alpha h st v).2.2 = v ∨ h0.nArr ≤ (solveH n S C means stds s alpha h st v).2.2.addr) := by
  have kk := (k.alloc fun _ j => h.vec s.P1 j * alpha).allocPen (((h.alloc fun _ j => h.vec s.P1 j * alpha).1.pen s.P2).smul alpha)
  unfold solveH
  simp only []
  split
  · exact ⟨kk, Or.inl rfl⟩
  · exact ⟨kk.alloc _, Or.inr kk.nArr⟩

theorem pathH_keeps {σ : Type} {E : ℕ → ℕ → ℕ → Prop} {h0 : Heap} (n : ℕ) (S : HSolver σ p ic) (C : FitCfg p ic) (means stds : ℕ → ℝ) (s : StdRefs) (path : ℕ)
    (hp : h0.nArr ≤ path) (alphas : List ℝ) : ∀ (i : ℕ) {h : Heap} (st : σ) (v : View), Keeps E h0 h →
    Keeps E h0 (pathH n S C means stds s path alphas i h st v).1 := by
  induction alphas with
  | nil => intro i h st v k; exact k
  | cons a rest ih =>
    intro i h st v k
    exact ih _ _ _ ((solveH_keeps n S C means stds s a st v k).1.writeView _ (Or.inl hp))

theorem unstdPathH_keeps {E : ℕ → ℕ → ℕ → Prop} {h0 h : Heap} (thr : ℝ) (means stds : ℕ → ℝ) (path : ℕ) (hp : h0.nArr ≤ path) (k : Keeps E h0 h) :
    Keeps E h0 (unstdPathH p ic thr means stds h path).1 := by
  unfold unstdPathH
  simp only []
  split
  · exact (k.write _ (Or.inl hp)).write _ (Or.inl hp)
  · exact k.write _ (Or.inl hp)

/-- **C99 (frame).**  After a fit every array and every sparse matrix that existed before has the content it had — the design matrix, the response, the
weights, the offset, the penalties, the bounds, the inequality matrix, the start values, results of earlier fits —, whichever of them are the same
array, whether or not they were copied on entry, and whatever the solver computes.  The only exception is the `coef_` a fit with `warm_start` and
without intercept starts from.  The new `coef_` is in new memory, or (only in that case) in the old `coef_`. -/
theorem c99_frame_partial {σ : Type} {C : FitCfg p ic} {k : Copies} {stats : Stats} {S : HSolver σ p ic} {r : FitRefs} {l1 : ℝ} {a : AlphaSpec} {st st' : σ}
    {h h' : Heap} {o : HOut} (hr : r.Valid h) (hf : fitH n C k stats S r l1 a st h = some (h', st', o)) :
    (∀ b < h.nArr, ∀ i j, ¬ (ic = false ∧ ∃ c v, r.start = .previous c v ∧ b = v.addr ∧ i = v.row ∧ v.off ≤ j) → h'.arr b i j = h.arr b i j)
      ∧ (∀ b < h.nSp, h'.sp b = h.sp b) ∧ h.nArr ≤ h'.nArr ∧ h.nSp ≤ h'.nSp
      ∧ (h.nArr ≤ o.coef.addr ∨ ic = false ∧ ∃ c, r.start = .previous c o.coef) ∧ (∀ q, o.path = some q → h.nArr ≤ q.1) := by
  suffices hk : Keeps (StartCell ic r.start) h h' ∧ (h.nArr ≤ o.coef.addr ∨ ic = false ∧ ∃ c, r.start = .previous c o.coef)
      ∧ (∀ q, o.path = some q → h.nArr ≤ q.1) from
    ⟨hk.1.arr, hk.1.sp, hk.1.nArr, hk.1.nSp, hk.2.1, hk.2.2⟩
  rw [fitH_eq] at hf
  obtain ⟨k0, dv, bc, -⟩ := checkAll_spec n k hr
  obtain ⟨c, hc⟩ : ∃ c, c = checkAll n k h r := ⟨_, rfl⟩
  rw [← hc] at hf k0 dv bc
  split at hf
  · cases hf
  · cases hP : setupP2 p C.xsp 1 l1 (C.inHeap c.1 r).P2a with
    | none => rw [hP] at hf; cases hf
    | some P2 =>
      rw [hP] at hf
      simp only [Option.bind_some] at hf
      split at hf
      · cases hf
      · cases hQ : prepareH n C stats c.1 c.2.1 r c.2.2.1 c.2.2.2 l1 with
        | none => rw [hQ] at hf; cases hf
        | some q =>
          rw [hQ] at hf
          simp only [Option.bind_some] at hf
          obtain ⟨h1, means, stds, s, v⟩ := q
          obtain ⟨k1, sv, lv, cv⟩ := prepareH_keeps (hr.keeps k0) dv bc hQ
          have kh : Keeps (StartCell ic r.start) h h1 := (k0.mono fun _ _ _ x => x.elim).trans k1
          have cv' : h.nArr ≤ v.addr ∨ ic = false ∧ ∃ b, r.start = .previous b v := cv.imp (fun x => k0.nArr.trans x) id
          have path : ∀ (alphas : List ℝ) (h'' : Heap) (st'' : σ) (o' : HOut),
              (let e := h1.alloc fun _ _ => 0
                let o := pathH n S C means stds s e.2 alphas 0 e.1 st v
                let w := unstdPathH p ic C.thr means stds o.1 e.2
                if alphas = [] then none
                else some (w.1, o.2, ({ intercept := if ic then w.2 (alphas.length - 1) else 0, coef := ⟨e.2, alphas.length - 1, ic.toNat⟩, path := some (e.2, w.2), alphas := alphas } : HOut))) = some (h'', st'', o') →
              Keeps (StartCell ic r.start) h h'' ∧ (h.nArr ≤ o'.coef.addr ∨ ic = false ∧ ∃ c, r.start = .previous c o'.coef)
                ∧ (∀ q, o'.path = some q → h.nArr ≤ q.1) := by
            intro alphas h'' st'' o' e
            simp only [] at e
            split at e
            · cases e
            · simp only [Option.some.injEq, Prod.mk.injEq] at e
              obtain ⟨e1, e2, e3⟩ := e
              subst e1 e3
              refine ⟨?_, Or.inl kh.nArr, ?_⟩
              · exact unstdPathH_keeps _ _ _ _ kh.nArr (pathH_keeps n S C means stds s _ kh.nArr alphas 0 st v (kh.alloc _))
              · intro q hq
                cases hq
                exact kh.nArr
          cases a with
          | single alpha =>
            simp only [finishH, Option.some.injEq, Prod.mk.injEq] at hf
            obtain ⟨e1, e2, e3⟩ := hf
            obtain ⟨ks, cs⟩ := solveH_keeps (h0 := h) n S C means stds s alpha st v kh
            subst e1 e3
            have cs' : h.nArr ≤ (solveH n S C means stds s alpha h1 st v).2.2.addr
                ∨ ic = false ∧ ∃ b, r.start = .previous b (solveH n S C means stds s alpha h1 st v).2.2 := by
              rcases cs with e | e
              · rw [e]; exact cv'
              · exact Or.inl e
            refine ⟨?_, ?_, ?_⟩
            · unfold unstdH
              simp only []
              refine ks.writeView _ ?_
              rcases cs' with e | ⟨hi, b, hb⟩
              · exact Or.inl e
              · refine Or.inr fun j hj => ⟨hi, b, _, hb, rfl, rfl, ?_⟩
                exact le_trans (Nat.le_add_right _ _) hj
            · rcases cs' with e | ⟨hi, b, hb⟩
              · exact Or.inl e
              · refine Or.inr ⟨hi, b, ?_⟩
                subst hi
                exact hb
            · intro q hq
              cases hq
          | given l =>
            simp only [finishH] at hf
            cases hl : AlphaSpec.eval C { means := means, stds := stds, D := h1.problem n C means stds s s.P1 s.P2, A := s.A.map h1.arr, start := h1.coef p ic v } (.given l) with
            | none => rw [hl] at hf; cases hf
            | some alphas => rw [hl] at hf; exact path alphas _ _ _ hf
          | search m x y =>
            simp only [finishH] at hf
            cases hl : AlphaSpec.eval C { means := means, stds := stds, D := h1.problem n C means stds s s.P1 s.P2, A := s.A.map h1.arr, start := h1.coef p ic v } (.search m x y) with
            | none => rw [hl] at hf; cases hf
            | some alphas => rw [hl] at hf; exact path alphas _ _ _ hf

/-- Any sequence of fits (with intercept, or without `warm_start`), in which every fit may use any array that exists by then — the caller's or the
result of an earlier fit — and new arrays made by the caller in between. -/
inductive Fits : Heap → Heap → Prop where
  | nil (h : Heap) : Fits h h
  | alloc {h h1 : Heap} (c : ℕ → ℕ → ℝ) : Fits h h1 → Fits h (h1.alloc c).1
  | fit {σ : Type} {n p : ℕ} {ic : Bool} {C : FitCfg p ic} {k : Copies} {stats : Stats} {S : HSolver σ p ic} {r : FitRefs} {l1 : ℝ} {a : AlphaSpec}
      {st st' : σ} {h h1 h2 : Heap} {o : HOut} : Fits h h1 → r.Valid h1 → (ic = true ∨ ∀ b v, r.start ≠ .previous b v) →
      fitH n C k stats S r l1 a st h1 = some (h2, st', o) → Fits h h2

/-- **C99 (histories).**  No sequence of fits changes an array that existed at its start: results handed out earlier stay as they are. -/
theorem c99_history_partial {h h' : Heap} (H : Fits h h') : (∀ b < h.nArr, h'.arr b = h.arr b) ∧ (∀ b < h.nSp, h'.sp b = h.sp b) := by
  suffices hk : Keeps NoCell h h' from ⟨fun b hb => hk.arr_eq hb fun _ _ x => x, hk.sp⟩
  induction H with
  | nil => exact Keeps.refl _
  | alloc c _ ih => exact ih.alloc c
  | @fit σ n p ic C k stats S r l1 a st st' h h1 h2 o _ hr hw hf ih =>
    obtain ⟨f1, f2, f3, f4, -⟩ := c99_frame_partial hr hf
    refine ih.trans ⟨f3, f4, fun b hb i j _ => f1 b hb i j ?_, f2⟩
    rintro ⟨hi, c, v, hv, -⟩
    rcases hw with hw | hw
    · rw [hi] at hw; cases hw
    · exact hw c v hv

/-- What the two models agree on. -/
structure SameResult (p : ℕ) (ic : Bool) (h : Heap) (o : HOut) (res : PathResult) : Prop where
  intercept : o.intercept = res.intercept
  coef : ∀ j < p, h.read o.coef j = res.coef j
  alphas : o.alphas = res.alphas
  path : ∀ a ints, o.path = some (a, ints) → ∀ i (hi : i < res.coefPath.length) (hj : i < res.interceptPath.length),
    ints i = res.interceptPath[i] ∧ ∀ j < p, h.arr a i (j + ic.toNat) = res.coefPath[i] j

open Classical in
/-- **C99 (refinement).**  Sharing and in-place writing do not change what a fit computes: whichever of the caller's arrays are the same array or share
memory with results of earlier fits, and whichever are copied on entry, the fit in memory gives what the functional model gives for the values of the
arguments at the time of the call.  For a start from the previous `coef_` without intercept this needs that `coef_` is not also `X`, `y`, the offset or the upper bounds. -/
theorem c99_refines_partial {σ : Type} (C : FitCfg p ic) (k : Copies) (stats : Stats) {S : HSolver σ p ic} (hS : S.Faithful) {r : FitRefs} (l1 : ℝ)
    (a : AlphaSpec) (st : σ) {h : Heap} (hr : r.Valid h)
    (hsep : ic = false → ∀ b v, r.start = .previous b v → r.X ≠ v.addr ∧ r.y ≠ v.addr ∧ r.off ≠ some v.addr ∧ r.ub ≠ some v.addr) :
    match fitH n C k stats S r l1 a st h, glmFit (C.inHeap h r) stats S.fn (h.userRows n r) l1 a st with
    | none, none => True
    | some (h', st', o), some (st'', res) => st' = st'' ∧ SameResult p ic h' o res
    | _, _ => False := by
  obtain ⟨k0, dv, bc, rows, cX, cy, cw, co⟩ := checkAll_spec n k hr
  obtain ⟨c, hc⟩ : ∃ c, c = checkAll n k h r := ⟨_, rfl⟩
  rw [← hc] at k0 dv bc rows cX cy cw co
  have ein : C.inHeap c.1 r = C.inHeap h r := inHeap_keeps k0 hr
  have sep : StartApart ic r c.2.1 := by
    intro hi b v hb
    obtain ⟨s1, s2, s3, s4⟩ := hsep hi b v hb
    have hv := hr.previous b v hb
    refine ⟨s4, ?_, ?_, ?_, ?_⟩
    · rcases cX with e | e
      · rw [e]; exact s1
      · omega
    · rcases cy with e | e
      · rw [e]; exact s2
      · omega
    · omega
    · intro e
      rcases co _ e with e' | e'
      · exact s3 e'
      · omega
  have prep := prepareH_spec (n := n) C stats (hr.keeps k0) dv bc sep l1
  rw [ein, rows] at prep
  rw [fitH_eq, ← hc, ein]
  unfold glmFit
  by_cases hb : (C.inHeap h r).boundsBad
  · rw [if_pos hb, if_pos hb]
    trivial
  · rw [if_neg hb, if_neg hb]
    have ex : (C.inHeap h r).xsp = C.xsp := rfl
    have ep : (C.inHeap h r).p2ok = C.p2ok := rfl
    rw [ex, ep]
    cases hP : setupP2 p C.xsp 1 l1 (C.inHeap h r).P2a with
    | none => trivial
    | some P2 =>
      simp only [Option.bind_eq_bind, Option.bind_some]
      by_cases hok : C.p2ok P2 = false
      · rw [if_pos hok, if_pos hok]
        trivial
      · rw [if_neg hok, if_neg hok, prep]
        cases hQ : prepareH n C stats c.1 c.2.1 r c.2.2.1 c.2.2.2 l1 with
        | none => trivial
        | some q =>
          obtain ⟨h1, means, stds, s, v⟩ := q
          obtain ⟨k1, sv, lv, cv⟩ := prepareH_keeps (hr.keeps k0) dv bc hQ
          simp only [Option.map_some, Option.bind_some]
          have eev : ∀ Q : Prepared n p ic, a.eval (C.inHeap h r) Q = a.eval C Q := by
            intro Q
            cases a <;> rfl
          rw [eev]
          have eth : (C.inHeap h r).thr = C.thr := rfl
          rw [eth]
          -- the path
          have path : ∀ alphas : List ℝ,
              match (let e := h1.alloc fun _ _ => 0
                  let o := pathH n S C means stds s e.2 alphas 0 e.1 st v
                  let w := unstdPathH p ic C.thr means stds o.1 e.2
                  if alphas = [] then none
                  else some (w.1, o.2, ({ intercept := if ic then w.2 (alphas.length - 1) else 0, coef := ⟨e.2, alphas.length - 1, ic.toNat⟩, path := some (e.2, w.2), alphas := alphas } : HOut)) : Option (Heap × σ × HOut)),
                ((storePath C.thr means stds alphas (Prepared.path (⟨means, stds, h1.problem n C means stds s s.P1 s.P2, s.A.map h1.arr, h1.coef p ic v⟩ : Prepared n p ic) S.fn alphas st).2).bind fun x =>
                  some ((Prepared.path (⟨means, stds, h1.problem n C means stds s s.P1 s.P2, s.A.map h1.arr, h1.coef p ic v⟩ : Prepared n p ic) S.fn alphas st).1, x) : Option (σ × PathResult)) with
              | none, none => True
              | some (h', st', o), some (st'', res) => st' = st'' ∧ SameResult p ic h' o res
              | _, _ => False := by
            intro alphas
            obtain ⟨e, he⟩ : ∃ e, e = h1.alloc fun _ _ => 0 := ⟨_, rfl⟩
            have e2 : e.2 = h1.nArr := by rw [he]; rfl
            have ke : Keeps NoCell h1 e.1 := he ▸ (Keeps.refl h1).alloc _
            have no : ∀ a r j, ¬ NoCell a r j := fun _ _ _ x => x
            have av : s.Avoids e.2 := sv.avoids (le_of_eq e2.symm)
            obtain ⟨pr, p1, p2, pA⟩ := problem_keeps (n := n) C means stds ke sv (a := e.2) (fun _ _ _ x => x.elim) av
            have ec : e.1.coef p ic v = h1.coef p ic v := by
              funext j
              exact congrFun (heapRead_eq ke lv (no _)) j.val
            have sp := pathH_spec n hS C means stds av alphas 0 (h := e.1) st (v := v) (sv.keeps ke) (lt_of_lt_of_le lv ke.nArr) (by omega)
              (by rw [he]; exact Nat.lt_succ_self _)
            rw [pr, p1, p2, pA, ec] at sp
            simp only [] at sp
            obtain ⟨o, ho⟩ : ∃ o, o = pathH n S C means stds s e.2 alphas 0 e.1 st v := ⟨_, rfl⟩
            obtain ⟨f, hff⟩ : ∃ f, f = Prepared.path (⟨means, stds, h1.problem n C means stds s s.P1 s.P2, s.A.map h1.arr, h1.coef p ic v⟩ : Prepared n p ic) S.fn alphas st := ⟨_, rfl⟩
            have hff' : f = solvePath (fun st P1 P2 c => S.fn n ((h1.problem n C means stds s s.P1 s.P2).withPen P1 P2) (s.A.map h1.arr) st c) (h1.vec s.P1) (h1.pen s.P2) alphas st (h1.coef p ic v) := hff
            rw [← hff', ← ho] at sp
            rw [← hff]
            simp only [← he, ← ho]
            obtain ⟨t1, t2, t3, t4, t5⟩ := sp
            have urow : ∀ i, ∀ hi : i < f.2.length, (unstdPathH p ic C.thr means stds o.1 e.2).2 i = (report ic C.thr means stds f.2[i]).1
                ∧ ∀ j < p, (unstdPathH p ic C.thr means stds o.1 e.2).1.arr e.2 i (j + ic.toNat) = (report ic C.thr means stds f.2[i]).2 j := by
              intro i hi
              refine unstdPathH_spec _ _ _ _ _ _ _ fun x => ?_
              have := t5 i hi x
              rw [Nat.zero_add] at this
              exact this
            by_cases hnil : alphas = []
            · rw [if_pos hnil]
              have : f.2 = [] := List.length_eq_zero_iff.mp (by rw [t3, hnil]; rfl)
              rw [this]
              trivial
            · rw [if_neg hnil]
              have hpos : 0 < alphas.length := List.length_pos_iff.mpr hnil
              have hne : f.2 ≠ [] := fun e => by rw [e] at t3; exact absurd t3.symm (ne_of_gt hpos)
              have hlast : (f.2.map (report ic C.thr means stds)).getLast? = some (report ic C.thr means stds (f.2[alphas.length - 1]'(by omega))) := by
                have hl : f.2.length - 1 < f.2.length := by omega
                rw [List.getLast?_eq_getElem?, List.length_map, List.getElem?_map, List.getElem?_eq_getElem hl]
                simp only [Option.map_some, t3]
              unfold storePath
              simp only []
              rw [hlast]
              simp only [Option.bind_eq_bind, Option.bind_some]
              refine ⟨t2, ?_, ?_, rfl, ?_⟩
              · show (if ic = true then _ else _) = (if ic = true then _ else _)
                split
                · exact (urow _ (by omega)).1
                · rfl
              · intro j hj
                have := (urow (alphas.length - 1) (by omega)).2 j hj
                rw [Nat.add_comm] at this
                exact this
              · intro a' ints hh i hi hj
                cases hh
                simp only [List.length_map] at hi
                have := urow i hi
                simp only [List.getElem_map]
                exact this
          cases a with
          | given l => exact path l
          | search m x y =>
            simp only [finishH]
            cases AlphaSpec.eval C { means := means, stds := stds, D := h1.problem n C means stds s s.P1 s.P2, A := s.A.map h1.arr, start := h1.coef p ic v } (.search m x y) with
            | none => trivial
            | some alphas => exact path alphas
          | single alpha =>
            have sp := solveH_spec n hS C means stds alpha st sv lv
            simp only [] at sp
            obtain ⟨o, ho⟩ : ∃ o, o = solveH n S C means stds s alpha h1 st v := ⟨_, rfl⟩
            simp only [finishH, AlphaSpec.eval, Option.bind_some, ← ho]
            rw [← ho] at sp
            obtain ⟨t1, t2, t3, t4, t5⟩ := sp
            obtain ⟨u1, u2⟩ := unstdH_spec (p := p) (ic := ic) C.thr means stds o.1 o.2.2
            rw [t3] at u1 u2
            refine ⟨t2, ?_, ?_, rfl, ?_⟩
            · rw [u1]
              show _ = if ic = true then _ else _
              rcases Bool.eq_false_or_eq_true ic with hi | hi
              · rw [if_pos hi]
                rfl
              · rw [if_neg (by rw [hi]; decide)]
                subst hi
                show (0 : ℝ) - _ = 0
                simp [outMeans]
            · exact u2
            · intro a' ints hh
              cases hh

end Glum
