import Verif.Props.Heap
import Verif.Props.CV
/-
C99 for the cross-validation estimator, the IRLS solvers in memory, and the counterexample for `warm_start` without intercept.
-/
set_option linter.unusedSectionVars false
set_option linter.unusedVariables false
set_option linter.unusedSimpArgs false

namespace Glum

variable {N n p : ℕ} {ic : Bool}

theorem mapOpt_fresh (h : Heap) (f : (ℕ → ℕ → ℝ) → ℕ → ℕ → ℝ) (o : Option ℕ) (x : ℕ) (hx : (mapOpt h f o).2 = some x) : h.nArr ≤ x := by
  cases o with
  | none => cases hx
  | some b => cases hx; exact le_refl _

/-- A fold in memory: new arrays with the rows of the fold. -/
theorem foldH_spec {h : Heap} {d : DataRefs} (hd : d.Valid h) (idx : List (Fin N)) :
    Keeps NoCell h (foldH h d idx).1 ∧ (foldH h d idx).2.Valid (foldH h d idx).1 ∧ (foldH h d idx).1.rows idx.length (foldH h d idx).2 = (h.rows N d).fold idx := by
  have no : ∀ a r j, ¬ NoCell a r j := fun _ _ _ x => x
  obtain ⟨x, hx⟩ : ∃ x, x = h.alloc fun i j => if hi : i < idx.length then h.arr d.X idx[i] j else 0 := ⟨_, rfl⟩
  obtain ⟨y, hy⟩ : ∃ y, y = x.1.alloc fun _ i => if hi : i < idx.length then x.1.vec d.y idx[i] else 0 := ⟨_, rfl⟩
  obtain ⟨w, hw⟩ : ∃ w, w = y.1.alloc fun _ i => if hi : i < idx.length then y.1.vec d.w idx[i] else 0 := ⟨_, rfl⟩
  obtain ⟨w', hw'⟩ : ∃ w', w' = w.1.write w.2 fun _ i => w.1.vec w.2 i / ∑ i : Fin idx.length, w.1.vec w.2 i := ⟨_, rfl⟩
  obtain ⟨o, ho⟩ : ∃ o, o = mapOpt w' (fun c _ i => if hi : i < idx.length then c 0 idx[i] else 0) d.off := ⟨_, rfl⟩
  have e : foldH h d idx = (o.1, { X := x.2, y := y.2, w := w.2, off := o.2 }) := by
    subst ho hw' hw hy hx
    rfl
  have kx : Keeps NoCell h x.1 := hx ▸ (Keeps.refl h).alloc _
  have ky : Keeps NoCell x.1 y.1 := hy ▸ (Keeps.refl x.1).alloc _
  have w2 : w.2 = y.1.nArr := by rw [hw]; rfl
  have kw : Keeps NoCell y.1 w.1 := hw ▸ (Keeps.refl y.1).alloc _
  have kw' : Keeps NoCell y.1 w' := hw' ▸ kw.write _ (Or.inl (le_of_eq w2.symm))
  have ko : Keeps NoCell w' o.1 := ho ▸ (Keeps.refl w').mapOpt _ _
  have lx : x.2 < x.1.nArr := hx ▸ Nat.lt_succ_self _
  have ly : y.2 < y.1.nArr := hy ▸ Nat.lt_succ_self _
  have lw : w.2 < w'.nArr := by
    have : w.2 < w.1.nArr := hw ▸ Nat.lt_succ_self _
    rw [hw']
    exact this
  have lo : OptLt o.2 o.1.nArr := ho ▸ mapOpt_lt _ _ _
  rw [e]
  refine ⟨((kx.trans ky).trans kw').trans ko, ⟨?_, ?_, ?_, lo⟩, ?_⟩
  · exact lt_of_lt_of_le lx ((ky.trans kw').trans ko).nArr
  · exact lt_of_lt_of_le ly (kw'.trans ko).nArr
  · exact lt_of_lt_of_le lw ko.nArr
  · have aX : o.1.arr x.2 = fun i j => if hi : i < idx.length then h.arr d.X idx[i] j else 0 := by
      rw [((ky.trans kw').trans ko).arr_eq lx (no _), hx, alloc_arr]
    have aY : o.1.vec y.2 = fun i => if hi : i < idx.length then h.vec d.y idx[i] else 0 := by
      rw [(kw'.trans ko).vec_eq ly (no _), hy, alloc_vec, kx.vec_eq hd.y (no _)]
    have aw : w.1.vec w.2 = fun i => if hi : i < idx.length then h.vec d.w idx[i] else 0 := by
      rw [hw, alloc_vec, (kx.trans ky).vec_eq hd.w (no _)]
    have aW : o.1.vec w.2 = fun i => (if hi : i < idx.length then h.vec d.w idx[i] else 0)
        / ∑ i : Fin idx.length, (if hi : i.val < idx.length then h.vec d.w idx[i.val] else 0) := by
      rw [ko.vec_eq lw (no _)]
      show w'.arr w.2 0 = _
      rw [hw', write_same, aw]
    have aO : o.2.map o.1.arr = (d.off.map h.arr).map fun c _ i => if hi : i < idx.length then c 0 idx[i] else 0 := by
      rw [ho, mapOpt_arr, map_arr_eq ((kx.trans ky).trans kw') hd.off fun a _ => no a]
    unfold Heap.rows Rows.fold
    simp only []
    rw [aX, aY, aW]
    congr 1
    · funext i j
      beta_reduce
      rw [dif_pos i.isLt]
      rfl
    · funext i
      beta_reduce
      rw [dif_pos i.isLt]
      rfl
    · funext i
      beta_reduce
      rw [dif_pos i.isLt]
      congr 1
      refine Finset.sum_congr rfl fun i _ => ?_
      rw [dif_pos i.isLt]
      rfl
    · have := congrArg (Option.map fun (c : ℕ → ℕ → ℝ) (i : Fin idx.length) => c 0 i) aO
      rw [Option.map_map, Option.map_map, Option.map_map] at this
      rw [Option.map_map]
      refine Eq.trans this ?_
      congr 1
      funext c i
      show (if hi : i.val < idx.length then _ else _) = _
      rw [dif_pos i.isLt]
      rfl

/-- What a job returns in memory and in the functional model. -/
structure FoldSame (p : ℕ) (ic : Bool) (h : Heap) (o : FoldRefs) (out : FoldOut) : Prop where
  len : out.intercepts.length = out.coefs.length
  ints : ∀ k (hk : k < out.intercepts.length), o.ints k = out.intercepts[k]
  coefs : ∀ k (hk : k < out.coefs.length), ∀ j < p, h.arr o.path k (j + ic.toNat) = out.coefs[k] j
  dev : o.dev = out.dev
  trainDev : o.trainDev = out.trainDev

theorem foldDeviance_congr (C : FitCfg p ic) (T : Rows n) (b : ℝ) {c c' : ℕ → ℝ} (hc : ∀ j < p, c j = c' j) :
    foldDeviance C T b c = foldDeviance C T b c' := by
  unfold foldDeviance
  have : (fun k : Fin (p + ic.toNat) => if k.val < ic.toNat then b else c (k.val - ic.toNat))
      = fun k : Fin (p + ic.toNat) => if k.val < ic.toNat then b else c' (k.val - ic.toNat) := by
    funext k
    split
    · rfl
    · exact hc _ (by have := k.isLt; omega)
  simp only [this]

theorem fitPathH_spec {σ : Type} (C : FitCfg p ic) (stats : Stats) {S : HSolver σ p ic} (hS : S.Faithful) {d : DataRefs} {r : FitRefs}
    {lc uc : Option ℕ} (j : CVJob N) {h : Heap} (st : σ) (hr : r.Valid h) (hd : d.Valid h) (hb : BoundsChecked h r lc uc)
    (hw : ic = true ∨ ∀ b v, r.start ≠ .previous b v) :
    match fitPathH C stats S d r lc uc j h st, fitPath (C.inHeap h r) stats S.fn (h.rows N d) j st with
    | none, (_, none) => True
    | some (h', st', o), (st'', some out) => Keeps NoCell h h' ∧ st' = st'' ∧ FoldSame p ic h' o out ∧ o.path < h'.nArr
    | _, _ => False := by
  have no : ∀ a r j, ¬ NoCell a r j := fun _ _ _ x => x
  have nst : ∀ a i j, ¬ StartCell ic r.start a i j := by
    rintro a i j ⟨hi, b, v, hv, -⟩
    rcases hw with e | e
    · rw [hi] at e; cases e
    · exact e b v hv
  obtain ⟨ktr, vtr, rtr⟩ := foldH_spec hd j.train
  obtain ⟨tr, htr⟩ : ∃ tr, tr = foldH h d j.train := ⟨_, rfl⟩
  rw [← htr] at ktr vtr rtr
  obtain ⟨kte, vte, rte⟩ := foldH_spec (hd.keeps ktr) j.test
  obtain ⟨te, hte⟩ : ∃ te, te = foldH tr.1 d j.test := ⟨_, rfl⟩
  rw [← hte] at kte vte rte
  have k0 : Keeps NoCell h te.1 := ktr.trans kte
  have vtr' := vtr.keeps kte
  have rtr' : te.1.rows j.train.length tr.2 = (h.rows N d).fold j.train :=
    (heapRows_eq kte vtr.X vtr.y vtr.w vtr.off (no _) (no _) (no _) fun a _ => no a).trans rtr
  have rte' : te.1.rows j.test.length te.2 = (h.rows N d).fold j.test := by
    rw [rte, heapRows_eq ktr hd.X hd.y hd.w hd.off (no _) (no _) (no _) fun a _ => no a]
  have bc : BoundsChecked te.1 r lc uc :=
    ⟨hb.lv.mono k0.nArr, hb.uv.mono k0.nArr,
      (map_vec_eq k0 hb.lv fun a _ => no a).trans (hb.l.trans (map_vec_eq k0 hr.lb fun a _ => no a).symm),
      (map_vec_eq k0 hb.uv fun a _ => no a).trans (hb.u.trans (map_vec_eq k0 hr.ub fun a _ => no a).symm)⟩
  have sep : StartApart ic r tr.2 := by
    intro hi b v hv
    rcases hw with e | e
    · rw [hi] at e; cases e
    · exact absurd hv (e b v)
  have prep := prepareH_spec (n := j.train.length) C stats (hr.keeps k0) vtr' bc sep j.l1
  rw [inHeap_keeps k0 hr, rtr'] at prep
  have efp : fitPathH C stats S d r lc uc j h st = (prepareH j.train.length C stats te.1 tr.2 r lc uc j.l1).bind fun q =>
      if C.p2ok (q.1.pen q.2.2.2.1.P2) = false then none
      else
        let e := q.1.alloc fun _ _ => 0
        let o := pathH j.train.length S C q.2.1 q.2.2.1 q.2.2.2.1 e.2 j.alphas 0 e.1 st q.2.2.2.2
        let train := (List.range j.alphas.length).map fun k =>
          foldTrainDeviance C
            { means := q.2.1, stds := q.2.2.1, D := o.1.problem j.train.length C q.2.1 q.2.2.1 q.2.2.2.1 q.2.2.2.1.P1 q.2.2.2.1.P2, A := q.2.2.2.1.A.map o.1.arr, start := o.1.coef p ic q.2.2.2.2 }
            (o.1.coef p ic ⟨e.2, k, 0⟩)
        let w := unstdPathH p ic C.thr q.2.1 q.2.2.1 o.1 e.2
        let test := (List.range j.alphas.length).map fun k =>
          foldDeviance C (w.1.rows j.test.length te.2) (w.2 k) fun i => w.1.arr e.2 k (i + ic.toNat)
        some (w.1, o.2, { ints := w.2, path := e.2, dev := test, trainDev := train }) := by
    subst hte htr
    rfl
  rw [efp]
  unfold fitPath
  rw [prep]
  cases hQ : prepareH j.train.length C stats te.1 tr.2 r lc uc j.l1 with
  | none => trivial
  | some q =>
    obtain ⟨h1, means, stds, s, v⟩ := q
    obtain ⟨k1, sv, lv, cv⟩ := prepareH_keeps (hr.keeps k0) vtr' bc hQ
    have k1' : Keeps NoCell te.1 h1 := k1.mono fun a i j e => absurd e (nst a i j)
    simp only [Option.map_some, Option.bind_some]
    have ep : (C.inHeap h r).p2ok (h1.problem j.train.length C means stds s s.P1 s.P2).P2 = C.p2ok (h1.pen s.P2) := rfl
    rw [ep]
    by_cases hok : C.p2ok (h1.pen s.P2) = false
    · rw [if_pos hok, if_pos hok]
      trivial
    · rw [if_neg hok, if_neg hok]
      obtain ⟨e, he⟩ : ∃ e, e = h1.alloc fun _ _ => 0 := ⟨_, rfl⟩
      have e2 : e.2 = h1.nArr := by rw [he]; rfl
      have ke : Keeps NoCell h1 e.1 := he ▸ (Keeps.refl h1).alloc _
      have av : s.Avoids e.2 := sv.avoids (le_of_eq e2.symm)
      obtain ⟨pr, p1, p2, pA⟩ := problem_keeps (n := j.train.length) C means stds ke sv (a := e.2) (fun _ _ _ x => x.elim) av
      have ec : e.1.coef p ic v = h1.coef p ic v := by
        funext j
        exact congrFun (heapRead_eq ke lv (no _)) j.val
      have sp := pathH_spec j.train.length hS C means stds av j.alphas 0 (h := e.1) st (v := v) (sv.keeps ke) (lt_of_lt_of_le lv ke.nArr) (by omega)
        (by rw [he]; exact Nat.lt_succ_self _)
      rw [pr, p1, p2, pA, ec] at sp
      simp only [] at sp
      obtain ⟨o, ho⟩ : ∃ o, o = pathH j.train.length S C means stds s e.2 j.alphas 0 e.1 st v := ⟨_, rfl⟩
      obtain ⟨f, hff⟩ : ∃ f, f = Prepared.path (⟨means, stds, h1.problem j.train.length C means stds s s.P1 s.P2, s.A.map h1.arr, h1.coef p ic v⟩ : Prepared j.train.length p ic) S.fn j.alphas st := ⟨_, rfl⟩
      have hff' : f = solvePath (fun st P1 P2 c => S.fn j.train.length ((h1.problem j.train.length C means stds s s.P1 s.P2).withPen P1 P2) (s.A.map h1.arr) st c) (h1.vec s.P1) (h1.pen s.P2) j.alphas st (h1.coef p ic v) := hff
      rw [← hff', ← ho] at sp
      simp only [← he, ← ho, ← hff]
      obtain ⟨t1, t2, t3, t4, t5⟩ := sp
      have kho : Keeps NoCell h1 o.1 := by
        rw [ho]
        exact pathH_keeps j.train.length S C means stds s e.2 (le_of_eq e2.symm) j.alphas 0 st v ke
      have khw : Keeps NoCell h1 (unstdPathH p ic C.thr means stds o.1 e.2).1 := unstdPathH_keeps _ _ _ _ (le_of_eq e2.symm) kho
      have row : ∀ i, ∀ hi : i < f.2.length, ∀ x : Fin (p + ic.toNat), o.1.arr e.2 i x = f.2[i] x := by
        intro i hi x
        have := t5 i hi x
        rw [Nat.zero_add] at this
        exact this
      have urow : ∀ i, ∀ hi : i < f.2.length, (unstdPathH p ic C.thr means stds o.1 e.2).2 i = (report ic C.thr means stds f.2[i]).1
          ∧ ∀ j < p, (unstdPathH p ic C.thr means stds o.1 e.2).1.arr e.2 i (j + ic.toNat) = (report ic C.thr means stds f.2[i]).2 j :=
        fun i hi => unstdPathH_spec _ _ _ _ _ _ _ (row i hi)
      have prD := (problem_keeps (n := j.train.length) C means stds kho sv (a := e.2) (fun _ _ _ x => x.elim) av).1
      have test' : (unstdPathH p ic C.thr means stds o.1 e.2).1.rows j.test.length te.2 = (h.rows N d).fold j.test := by
        have kk := k1'.trans khw
        exact (heapRows_eq kk vte.X vte.y vte.w vte.off (no _) (no _) (no _) fun a _ => no a).trans rte'
      refine ⟨(k0.trans k1').trans khw, t2, ⟨?_, ?_, ?_, ?_, ?_⟩, ?_⟩
      · simp
      · intro i hi
        simp only [List.length_map] at hi
        simp only [List.getElem_map]
        exact (urow i hi).1
      · intro i hi
        simp only [List.length_map] at hi
        simp only [List.getElem_map]
        exact (urow i hi).2
      · refine List.ext_getElem (by simp [t3]) fun i h1 h2 => ?_
        simp only [List.length_map] at h2
        simp only [List.getElem_map, List.getElem_range]
        rw [test', (urow i h2).1]
        refine (foldDeviance_congr C _ _ (urow i h2).2).trans ?_
        rfl
      · refine List.ext_getElem (by simp [t3]) fun i h1 h2 => ?_
        simp only [List.length_map] at h2
        simp only [List.getElem_map, List.getElem_range]
        have : o.1.coef p ic ⟨e.2, i, 0⟩ = f.2[i] := by
          funext x
          show o.1.arr e.2 i (0 + x.val) = _
          rw [Nat.zero_add]
          exact row i h2 x
        rw [this]
        unfold foldTrainDeviance
        simp only []
        rw [prD]
        rfl
      · show e.2 < _
        have : e.2 < e.1.nArr := he ▸ Nat.lt_succ_self _
        have ko : Keeps NoCell e.1 (unstdPathH p ic C.thr means stds o.1 e.2).1 ∨ True := Or.inr trivial
        have n1 : e.1.nArr ≤ o.1.nArr := t1.nArr
        have n2 : (unstdPathH p ic C.thr means stds o.1 e.2).1.nArr = o.1.nArr := by
          unfold unstdPathH
          simp only []
          split <;> rfl
        omega

theorem FoldSame.keeps {h h' : Heap} {o : FoldRefs} {out : FoldOut} (s : FoldSame p ic h o out) (k : Keeps NoCell h h') (hp : o.path < h.nArr) :
    FoldSame p ic h' o out :=
  ⟨s.len, s.ints, fun i hi j hj => (k.arr _ hp _ _ fun x => x).trans (s.coefs i hi j hj), s.dev, s.trainDev⟩

theorem jobsH_spec {σ : Type} (C : FitCfg p ic) (stats : Stats) {S : HSolver σ p ic} (hS : S.Faithful) {d : DataRefs} {r : FitRefs}
    {lc uc : Option ℕ} (hw : ic = true ∨ ∀ b v, r.start ≠ .previous b v) (jobs : List (CVJob N)) : ∀ {h : Heap} (st : σ), r.Valid h → d.Valid h →
    BoundsChecked h r lc uc →
    match jobsH C stats S d r lc uc jobs h st with
    | none => none ∈ runSequential (fitPath (C.inHeap h r) stats S.fn (h.rows N d)) jobs st
    | some (h', st', os) => Keeps NoCell h h' ∧ ∃ outs : List FoldOut, runSequential (fitPath (C.inHeap h r) stats S.fn (h.rows N d)) jobs st = outs.map some
        ∧ List.Forall₂ (FoldSame p ic h') os outs := by
  have no : ∀ a r j, ¬ NoCell a r j := fun _ _ _ x => x
  induction jobs with
  | nil =>
    intro h st hr hd hb
    exact ⟨Keeps.refl h, [], rfl, List.Forall₂.nil⟩
  | cons j rest ih =>
    intro h st hr hd hb
    have sp := fitPathH_spec C stats hS j st hr hd hb hw
    unfold jobsH runSequential
    cases hf : fitPathH C stats S d r lc uc j h st with
    | none =>
      rw [hf] at sp
      obtain ⟨q, hq⟩ : ∃ q, q = fitPath (C.inHeap h r) stats S.fn (h.rows N d) j st := ⟨_, rfl⟩
      rw [← hq] at sp ⊢
      obtain ⟨q1, q2⟩ := q
      cases q2 with
      | none => exact List.mem_cons_self
      | some _ => exact sp.elim
    | some x =>
      obtain ⟨h1, st1, o⟩ := x
      rw [hf] at sp
      obtain ⟨q, hq⟩ : ∃ q, q = fitPath (C.inHeap h r) stats S.fn (h.rows N d) j st := ⟨_, rfl⟩
      rw [← hq] at sp ⊢
      obtain ⟨q1, q2⟩ := q
      cases q2 with
      | none => exact sp.elim
      | some out =>
        obtain ⟨k1, e1, fs, lp⟩ := sp
        subst e1
        have b1 : BoundsChecked h1 r lc uc :=
          ⟨hb.lv.mono k1.nArr, hb.uv.mono k1.nArr,
            (map_vec_eq k1 hb.lv fun a _ => no a).trans (hb.l.trans (map_vec_eq k1 hr.lb fun a _ => no a).symm),
            (map_vec_eq k1 hb.uv fun a _ => no a).trans (hb.u.trans (map_vec_eq k1 hr.ub fun a _ => no a).symm)⟩
        have sp2 := ih st1 (hr.keeps k1) (hd.keeps k1) b1
        rw [inHeap_keeps k1 hr, heapRows_eq k1 hd.X hd.y hd.w hd.off (no _) (no _) (no _) fun a _ => no a] at sp2
        simp only [Option.bind_eq_bind, Option.bind_some]
        cases hj : jobsH C stats S d r lc uc rest h1 st1 with
        | none =>
          rw [hj] at sp2
          exact List.mem_cons_of_mem _ sp2
        | some y =>
          obtain ⟨h2, st2, os⟩ := y
          rw [hj] at sp2
          obtain ⟨k2, outs, e2, f2⟩ := sp2
          refine ⟨k1.trans k2, out :: outs, ?_, ?_⟩
          · show some out :: _ = _
            rw [e2]
            rfl
          · exact List.Forall₂.cons (fs.keeps k2 lp) f2

/-- **C99 (cross-validation).**  The jobs of the CV estimator, run one after the other in one process on shared data, bounds and penalties, leave the
caller's arrays as they were, and each returns what it would return if it were alone with private copies of everything: no job sees what another one has
written. -/
theorem c99_cv_partial {σ : Type} (C : FitCfg p ic) (k : Copies) (stats : Stats) {S : HSolver σ p ic} (hS : S.Faithful) {r : FitRefs}
    (hw : ic = true ∨ ∀ b v, r.start ≠ .previous b v) (jobs : List (CVJob N)) (st : σ) {h : Heap} (hr : r.Valid h) :
    match cvJobsH N C k stats S r jobs st h with
    | none => none ∈ runSequential (fitPath (C.inHeap h r) stats S.fn (h.userRows N r)) jobs st
    | some (h', st', os) => (∀ b < h.nArr, h'.arr b = h.arr b) ∧ (∀ b < h.nSp, h'.sp b = h.sp b)
        ∧ ∃ outs : List FoldOut, runSequential (fitPath (C.inHeap h r) stats S.fn (h.userRows N r)) jobs st = outs.map some
          ∧ List.Forall₂ (FoldSame p ic h') os outs := by
  obtain ⟨k0, dv, bc, rows, -⟩ := checkAll_spec N k hr
  have sp := jobsH_spec C stats hS hw jobs st (hr.keeps k0) dv bc
  rw [inHeap_keeps k0 hr, rows] at sp
  have e : cvJobsH N C k stats S r jobs st h
      = jobsH C stats S (checkAll N k h r).2.1 r (checkAll N k h r).2.2.1 (checkAll N k h r).2.2.2 jobs (checkAll N k h r).1 st := rfl
  rw [e]
  cases hj : jobsH C stats S (checkAll N k h r).2.1 r (checkAll N k h r).2.2.1 (checkAll N k h r).2.2.2 jobs (checkAll N k h r).1 st with
  | none =>
    rw [hj] at sp
    exact sp
  | some y =>
    obtain ⟨h2, st2, os⟩ := y
    rw [hj] at sp
    obtain ⟨k2, outs, e2, f2⟩ := sp
    have kk := k0.trans k2
    exact ⟨fun b hb => kk.arr_eq hb fun _ _ x => x, kk.sp, outs, e2, f2⟩

/-! ### The IRLS solvers -/

/-- The IRLS solvers in memory: without an iteration they return the array they were given (`_solvers.py` 293, 322-329, 354, 843). -/
noncomputable def irlsH (next : (ℕ → BitVec 32) → ℕ → (ℕ → BitVec 32)) (inner : (ℕ → BitVec 32) → (m : ℕ) → Inner m p ic) : HSolver SolverLog p ic where
  fn := irlsSolver next inner
  same := fun m D _ s start => decide ((irlsRun (inner s.seeds m) D start).nIter = 0)

theorem irlsLoop_zero (inner : Inner n p ic) (D : IRLSData n p ic) (m : ℕ) (st : IRLSState n p ic) (h : (irlsLoop inner D m st).nIter = 0) :
    (irlsLoop inner D m st).coef = st.coef := by
  cases m with
  | zero => rfl
  | succ m =>
    unfold irlsLoop at h ⊢
    split
    · rename_i hc
      rw [if_pos hc] at h
      exfalso
      have key : ∀ (m : ℕ) (s : IRLSState n p ic), s.nIter ≤ (irlsLoop inner D m s).nIter := by
        intro m
        induction m with
        | zero => intro s; exact le_refl _
        | succ m ih =>
          intro s
          unfold irlsLoop
          split
          · exact le_trans (show s.nIter ≤ (irlsStep inner D s).nIter from Nat.le_succ _) (ih _)
          · exact le_refl _
      have h1 : (irlsStep inner D st).nIter = st.nIter + 1 := rfl
      have := key m (irlsStep inner D st)
      omega
    · rfl

theorem irlsH_faithful (next : (ℕ → BitVec 32) → ℕ → (ℕ → BitVec 32)) (inner : (ℕ → BitVec 32) → (m : ℕ) → Inner m p ic) :
    (irlsH next inner).Faithful := by
  intro m D A st c hs
  exact irlsLoop_zero _ _ _ _ (of_decide_eq_true hs)

/-! ### The exception is real -/

/-- A fit of one coefficient without intercept that starts from the previous `coef_` with a new lower bound. -/
noncomputable def heapWarmCfg : FitCfg 1 false where
  family := .normal
  link := .identity
  e50 := 0
  thr := 1 / 10 ^ 6
  asIfScaled := false
  xsp := false
  P1a := .none
  P2a := .none
  lb := none
  ub := none
  A := none
  start := .cold
  p2ok := fun _ => true
  maxIter := 10
  maxInnerIter := 10
  gradTol := 1 / 100
  stepTol := none
  hessApprox := 0
  fixedInnerTol := none
  random := false
  eps := 1 / 10 ^ 16
  large := 10 ^ 10

/-- Array 0: the previous `coef_` (0); 1: the design matrix (1); 2: the response (1); 3: the lower bound (1). -/
noncomputable def warmHeap : Heap where
  arr := fun a _ _ => if a = 0 then 0 else 1
  nArr := 4
  sp := fun _ => []
  nSp := 0

def warmRefs : FitRefs where
  X := 1
  y := 2
  w := none
  off := none
  P1 := .none
  P2 := .none
  lb := some 3
  ub := none
  A := none
  start := .previous 0 ⟨0, 0, 0⟩

theorem warmRefs_valid : warmRefs.Valid warmHeap := by
  refine ⟨by decide, by decide, ?_, ?_, ?_, ?_, ?_, ?_, ?_, ?_, ?_, ?_, ?_⟩
  · intro a h; cases h
  · intro a h; cases h
  · intro l a h; cases h
  · intro l a h; cases h
  · intro m k a h; cases h
  · intro m k a h; cases h
  · intro a h; cases h; decide
  · intro a h; cases h
  · intro a h; cases h
  · intro a h; cases h
  · intro b v h; cases h; decide

noncomputable def unitStats : Stats := fun _ _ _ => (fun _ => 0, fun _ => 1)

/-- **C99 (counterexample).**  With `warm_start` and without intercept, whatever the solver, `fit` changes the array behind the earlier `coef_`: here the
caller's array held 0 and holds 1 afterwards, because the start was clipped to the new bound in place. -/
theorem c99_warm_counterexample {σ : Type} (S : HSolver σ 1 false) (st : σ) (k : Copies) (alpha : ℝ) :
    ∃ h' st' o, fitH 1 heapWarmCfg k unitStats S warmRefs 0 (.single alpha) st warmHeap = some (h', st', o)
      ∧ warmHeap.arr 0 0 0 = 0 ∧ h'.arr 0 0 0 = 1 := by
  have no : ∀ a r j, ¬ NoCell a r j := fun _ _ _ x => x
  obtain ⟨k0, dv, bc, rows, -⟩ := checkAll_spec 1 k warmRefs_valid
  obtain ⟨c, hc⟩ : ∃ c, c = checkAll 1 k warmHeap warmRefs := ⟨_, rfl⟩
  rw [← hc] at k0 dv bc
  have hb : ¬ (heapWarmCfg.inHeap c.1 warmRefs).boundsBad := by
    rintro ⟨l, u, -, hu, -⟩
    cases hu
  rw [fitH_eq, ← hc, if_neg hb]
  obtain ⟨P2, hP2⟩ : ∃ P2, setupP2 1 heapWarmCfg.xsp 1 0 (heapWarmCfg.inHeap c.1 warmRefs).P2a = some P2 := ⟨_, rfl⟩
  rw [hP2]
  simp only [Option.bind_some]
  rw [if_neg (show ¬ (heapWarmCfg.p2ok P2 = false) from fun e => Bool.noConfusion e)]
  rw [prepareH_eq 1 heapWarmCfg unitStats (warmRefs_valid.keeps k0) dv bc 0]
  obtain ⟨P1, hP1⟩ : ∃ P1, setupP1 1 1 0 (heapWarmCfg.inHeap c.1 warmRefs).P1a = some P1 := ⟨_, rfl⟩
  have hg : startGuess (heapWarmCfg.inHeap c.1 warmRefs) (c.1.rows 1 c.2.1) = some 0 := rfl
  rw [hP1, hP2, hg]
  simp only [Option.bind_some]
  have spec := stdStage_spec 1 heapWarmCfg unitStats (warmRefs_valid.keeps k0) dv bc P1 P2
  simp only [] at spec
  obtain ⟨s1, -⟩ := spec
  obtain ⟨q, hq⟩ : ∃ q, q = stdStage 1 heapWarmCfg unitStats c.1 c.2.1 warmRefs c.2.2.1 c.2.2.2 P1 P2 := ⟨_, rfl⟩
  rw [← hq] at s1 ⊢
  have kq := k0.trans s1
  have q22 : q.2.2 = fun _ => 1 := by rw [hq]; rfl
  obtain ⟨g, hgg⟩ : ∃ g, g = startH 1 false heapWarmCfg.thr q.2.1 q.2.2 0 q.1.1 warmRefs.lb warmRefs.ub warmRefs.start := ⟨_, rfl⟩
  rw [← hgg]
  have gv : g.2 = ⟨0, 0, 0⟩ := by rw [hgg]; rfl
  have hvr := warmRefs_valid.keeps kq
  have gc := startH_coef (p := 1) (ic := false) heapWarmCfg.thr q.2.1 q.2.2 0 (h := q.1.1) hvr.lb hvr.ub (start := warmRefs.start)
    (by intro _ b v _ hu; cases hu)
  rw [← hgg] at gc
  have g0 : g.1.arr 0 0 0 = 1 := by
    have h1 : g.1.coef 1 false g.2 ⟨0, by decide⟩ = g.1.arr 0 0 0 := by rw [gv]; rfl
    rw [← h1, gc]
    have el : warmRefs.lb.map q.1.1.vec = some fun _ => 1 := by
      have := map_vec_eq kq warmRefs_valid.lb fun a _ => no a
      rw [this]
      rfl
    have es : q.1.1.read ⟨0, 0, 0⟩ 0 = 0 := kq.arr 0 (by decide) 0 0 fun x => x
    rw [el]
    show max (q.1.1.read ⟨0, 0, 0⟩ 0) 1 = 1
    rw [es]
    norm_num
  have gl : 0 < g.1.nArr := by
    have : Keeps (StartCell false warmRefs.start) q.1.1 g.1 := by
      rw [hgg]
      exact startH_keeps _ _ _ _ _ _ (Keeps.refl _) fun _ _ _ x => x
    exact lt_of_lt_of_le (by decide : 0 < warmHeap.nArr) (kq.nArr.trans this.nArr)
  obtain ⟨ks, cs⟩ := solveH_keeps (E := NoCell) (h0 := g.1) 1 S heapWarmCfg q.2.1 q.2.2 q.1.2 alpha st g.2 (Keeps.refl g.1)
  refine ⟨_, _, _, rfl, rfl, ?_⟩
  obtain ⟨o, ho⟩ : ∃ o, o = solveH 1 S heapWarmCfg q.2.1 q.2.2 q.1.2 alpha g.1 st g.2 := ⟨_, rfl⟩
  rw [← ho] at ks cs ⊢
  have o0 : o.1.arr 0 0 0 = 1 := (ks.arr 0 gl 0 0 fun x => x).trans g0
  unfold unstdH
  simp only []
  rcases cs with e | e
  · have ev : o.2.2.tail false.toNat = ⟨0, 0, 0⟩ := by rw [e, gv]; rfl
    rw [ev]
    have := read_writeView o.1 ⟨0, 0, 0⟩ (fun j => o.1.read ⟨0, 0, 0⟩ j * oneOverStd heapWarmCfg.thr 1 (q.2.2 j)) 0
    refine Eq.trans this ?_
    rw [q22]
    show o.1.arr 0 0 0 * oneOverStd (1 / 10 ^ 6) 1 1 = 1
    rw [o0]
    unfold oneOverStd
    rw [if_neg (by norm_num)]
    norm_num
  · have hne : (0 : ℕ) ≠ (o.2.2.tail false.toNat).addr := by
      show 0 ≠ o.2.2.addr
      omega
    have := write_other o.1 (a := (o.2.2.tail false.toNat).addr) (b := 0)
      (fun r j => if r = (o.2.2.tail false.toNat).row ∧ (o.2.2.tail false.toNat).off ≤ j then
        (fun j => o.1.read (o.2.2.tail false.toNat) j * oneOverStd heapWarmCfg.thr 1 (q.2.2 j)) (j - (o.2.2.tail false.toNat).off)
        else o.1.arr (o.2.2.tail false.toNat).addr r j) hne
    exact (congrFun (congrFun this 0) 0).trans o0

/-- The hypotheses of the theorems can be met: a fit that succeeds in which the response, the weights and the offset are one array, with the IRLS
solver. -/
example (next : (ℕ → BitVec 32) → ℕ → (ℕ → BitVec 32)) (st : SolverLog) (k : Copies) (alpha : ℝ) :
    let r : FitRefs := { warmRefs with w := some 2, off := some 2, lb := none, start := .cold }
    r.Valid warmHeap ∧ (irlsH (p := 1) (ic := false) next fun seeds _ => cdInner seeds).Faithful
      ∧ (∀ b v, r.start ≠ .previous b v)
      ∧ (fitH 1 heapWarmCfg k unitStats (irlsH next fun seeds _ => cdInner seeds) r 0 (.single alpha) st warmHeap).isSome = true := by
  intro r
  have hv : r.Valid warmHeap := by
    refine ⟨by decide, by decide, ?_, ?_, ?_, ?_, ?_, ?_, ?_, ?_, ?_, ?_, ?_⟩
    · intro a h; cases h; decide
    · intro a h; cases h; decide
    · intro l a h; cases h
    · intro l a h; cases h
    · intro m k a h; cases h
    · intro m k a h; cases h
    · intro a h; cases h
    · intro a h; cases h
    · intro a h; cases h
    · intro a h; cases h
    · intro b v h; cases h
  refine ⟨hv, irlsH_faithful _ _, ?_, ?_⟩
  · intro b v h; cases h
  · obtain ⟨k0, dv, bc, rows, -⟩ := checkAll_spec 1 k hv
    rw [fitH_eq, if_neg (by rintro ⟨l, u, hl, -⟩; cases hl)]
    obtain ⟨P2, hP2⟩ : ∃ P2, setupP2 1 heapWarmCfg.xsp 1 0 (heapWarmCfg.inHeap (checkAll 1 k warmHeap r).1 r).P2a = some P2 := ⟨_, rfl⟩
    rw [hP2]
    simp only [Option.bind_some]
    rw [if_neg (show ¬ (heapWarmCfg.p2ok P2 = false) from fun e => Bool.noConfusion e)]
    rw [prepareH_eq 1 heapWarmCfg unitStats (hv.keeps k0) dv bc 0]
    obtain ⟨P1, hP1⟩ : ∃ P1, setupP1 1 1 0 (heapWarmCfg.inHeap (checkAll 1 k warmHeap r).1 r).P1a = some P1 := ⟨_, rfl⟩
    have hg : startGuess (heapWarmCfg.inHeap (checkAll 1 k warmHeap r).1 r) ((checkAll 1 k warmHeap r).1.rows 1 (checkAll 1 k warmHeap r).2.1) = some 0 := rfl
    rw [hP1, hP2, hg]
    rfl

end Glum
