import Verif.Model.Heap
/-
Lemmas about the memory model: what each stage of `fit` leaves unchanged.
-/
set_option linter.unusedSectionVars false
set_option linter.unusedVariables false
set_option linter.unusedSimpArgs false

namespace Glum

/-- Everything that existed in `h` is as it was in `h'`, except for the cells in `E`. -/
structure Keeps (E : ℕ → ℕ → ℕ → Prop) (h h' : Heap) : Prop where
  nArr : h.nArr ≤ h'.nArr
  nSp : h.nSp ≤ h'.nSp
  arr : ∀ a < h.nArr, ∀ r j, ¬ E a r j → h'.arr a r j = h.arr a r j
  sp : ∀ a < h.nSp, h'.sp a = h.sp a

abbrev NoCell : ℕ → ℕ → ℕ → Prop := fun _ _ _ => False

namespace Keeps

variable {E : ℕ → ℕ → ℕ → Prop} {h0 h h' h'' : Heap}

theorem refl (h : Heap) : Keeps E h h := ⟨le_refl _, le_refl _, fun _ _ _ _ _ => rfl, fun _ _ => rfl⟩

theorem trans (p : Keeps E h h') (q : Keeps E h' h'') : Keeps E h h'' :=
  ⟨p.nArr.trans q.nArr, p.nSp.trans q.nSp,
    fun a ha r j he => (q.arr a (lt_of_lt_of_le ha p.nArr) r j he).trans (p.arr a ha r j he),
    fun a ha => (q.sp a (lt_of_lt_of_le ha p.nSp)).trans (p.sp a ha)⟩

theorem mono {F : ℕ → ℕ → ℕ → Prop} (hE : ∀ a r j, E a r j → F a r j) (p : Keeps E h h') : Keeps F h h' :=
  ⟨p.nArr, p.nSp, fun a ha r j he => p.arr a ha r j fun x => he (hE _ _ _ x), p.sp⟩

theorem alloc (p : Keeps E h0 h) (c : ℕ → ℕ → ℝ) : Keeps E h0 (h.alloc c).1 := by
  refine ⟨p.nArr.trans (Nat.le_succ _), p.nSp, fun a ha r j he => ?_, p.sp⟩
  show (if a = h.nArr then c else h.arr a) r j = _
  rw [if_neg (by have := p.nArr; omega)]
  exact p.arr a ha r j he

theorem allocSp (p : Keeps E h0 h) (m : SparseMat ℝ) : Keeps E h0 (h.allocSp m).1 := by
  refine ⟨p.nArr, p.nSp.trans (Nat.le_succ _), p.arr, fun a ha => ?_⟩
  show (if a = h.nSp then m else h.sp a) = _
  rw [if_neg (by have := p.nSp; omega)]
  exact p.sp a ha

theorem write (p : Keeps E h0 h) {a : ℕ} (c : ℕ → ℕ → ℝ) (ha : h0.nArr ≤ a ∨ ∀ r j, ¬ E a r j → c r j = h.arr a r j) :
    Keeps E h0 (h.write a c) := by
  refine ⟨p.nArr, p.nSp, fun b hb r j he => ?_, p.sp⟩
  show (if b = a then c else h.arr b) r j = _
  split
  · rename_i hba
    subst hba
    rcases ha with ha | ha
    · omega
    · exact (ha r j he).trans (p.arr b hb r j he)
  · exact p.arr b hb r j he

theorem writeView (p : Keeps E h0 h) {v : View} (f : ℕ → ℝ)
    (hv : h0.nArr ≤ v.addr ∨ ∀ j, v.off ≤ j → E v.addr v.row j) : Keeps E h0 (h.writeView v f) := by
  refine p.write _ ?_
  rcases hv with hv | hv
  · exact Or.inl hv
  · refine Or.inr fun r j he => ?_
    split
    · rename_i hc
      obtain ⟨hr, hj⟩ := hc
      subst hr
      exact absurd (hv j hj) he
    · rfl

theorem allocPen (p : Keeps E h0 h) (P : Pen2 ℝ) : Keeps E h0 (h.allocPen P).1 := by
  cases P with
  | vec v => exact p.alloc _
  | dense m => exact p.alloc _
  | sparse m => exact p.allocSp _

theorem checkArr (p : Keeps E h0 h) (b : Bool) (a : ℕ) : Keeps E h0 (checkArr b h a).1 := by
  cases b
  · exact p
  · exact p.alloc _

theorem checkOpt (p : Keeps E h0 h) (b : Bool) (a : Option ℕ) : Keeps E h0 (checkOpt b h a).1 := by
  cases a
  · exact p
  · exact p.checkArr _ _

theorem mapOpt (p : Keeps E h0 h) (f : (ℕ → ℕ → ℝ) → ℕ → ℕ → ℝ) (a : Option ℕ) : Keeps E h0 (mapOpt h f a).1 := by
  cases a
  · exact p
  · exact p.alloc _

/-- An array untouched by the exception is the same array. -/
theorem arr_eq (p : Keeps E h h') {a : ℕ} (ha : a < h.nArr) (he : ∀ r j, ¬ E a r j) : h'.arr a = h.arr a := by
  funext r j
  exact p.arr a ha r j (he r j)

theorem vec_eq (p : Keeps E h h') {a : ℕ} (ha : a < h.nArr) (he : ∀ r j, ¬ E a r j) : h'.vec a = h.vec a :=
  congrFun (p.arr_eq ha he) 0

end Keeps

/-- Allocated. -/
def OptLt (o : Option ℕ) (n : ℕ) : Prop := ∀ a, o = some a → a < n

def PenRef.Valid (P : PenRef) (h : Heap) : Prop :=
  match P with
  | .vec a => a < h.nArr
  | .dense a => a < h.nArr
  | .sparse a => a < h.nSp

/-- The arrays of a fit exist. -/
structure FitRefs.Valid (r : FitRefs) (h : Heap) : Prop where
  X : r.X < h.nArr
  y : r.y < h.nArr
  w : OptLt r.w h.nArr
  off : OptLt r.off h.nArr
  P1 : ∀ len a, r.P1 = .vec len a → a < h.nArr
  P2v : ∀ len a, r.P2 = .vec len a → a < h.nArr
  P2d : ∀ m k a, r.P2 = .dense m k a → a < h.nArr
  P2s : ∀ m k a, r.P2 = .sparse m k a → a < h.nSp
  lb : OptLt r.lb h.nArr
  ub : OptLt r.ub h.nArr
  A : OptLt r.A h.nArr
  given : ∀ a, r.start = .given a → a < h.nArr
  previous : ∀ b v, r.start = .previous b v → v.addr < h.nArr

theorem OptLt.mono {o : Option ℕ} {m n : ℕ} (h : OptLt o m) (hmn : m ≤ n) : OptLt o n := fun a ha => lt_of_lt_of_le (h a ha) hmn

theorem FitRefs.Valid.keeps {r : FitRefs} {E : ℕ → ℕ → ℕ → Prop} {h h' : Heap} (hv : r.Valid h) (k : Keeps E h h') : r.Valid h' :=
  ⟨lt_of_lt_of_le hv.X k.nArr, lt_of_lt_of_le hv.y k.nArr, hv.w.mono k.nArr, hv.off.mono k.nArr,
    fun l a e => lt_of_lt_of_le (hv.P1 l a e) k.nArr, fun l a e => lt_of_lt_of_le (hv.P2v l a e) k.nArr,
    fun m c a e => lt_of_lt_of_le (hv.P2d m c a e) k.nArr, fun m c a e => lt_of_lt_of_le (hv.P2s m c a e) k.nSp,
    hv.lb.mono k.nArr, hv.ub.mono k.nArr, hv.A.mono k.nArr, fun a e => lt_of_lt_of_le (hv.given a e) k.nArr,
    fun b v e => lt_of_lt_of_le (hv.previous b v e) k.nArr⟩

theorem map_vec_eq {o : Option ℕ} {E : ℕ → ℕ → ℕ → Prop} {h h' : Heap} (k : Keeps E h h') (ho : OptLt o h.nArr)
    (he : ∀ a, o = some a → ∀ r j, ¬ E a r j) : o.map h'.vec = o.map h.vec := by
  cases o with
  | none => rfl
  | some a => exact congrArg some (k.vec_eq (ho a rfl) (he a rfl))

theorem map_arr_eq {o : Option ℕ} {E : ℕ → ℕ → ℕ → Prop} {h h' : Heap} (k : Keeps E h h') (ho : OptLt o h.nArr)
    (he : ∀ a, o = some a → ∀ r j, ¬ E a r j) : o.map h'.arr = o.map h.arr := by
  cases o with
  | none => rfl
  | some a => exact congrArg some (k.arr_eq (ho a rfl) (he a rfl))

theorem heapRead_eq {v : View} {E : ℕ → ℕ → ℕ → Prop} {h h' : Heap} (k : Keeps E h h') (hv : v.addr < h.nArr) (he : ∀ r j, ¬ E v.addr r j) :
    h'.read v = h.read v := by
  funext j
  exact k.arr _ hv _ _ (he _ _)

variable {n p : ℕ} {ic : Bool}

theorem inHeap_keeps {C : FitCfg p ic} {h h' : Heap} {r : FitRefs} (k : Keeps NoCell h h') (hv : r.Valid h) : C.inHeap h' r = C.inHeap h r := by
  have no : ∀ a r j, ¬ NoCell a r j := fun _ _ _ x => x
  have e1 : h'.p1 r.P1 = h.p1 r.P1 := by
    have := hv.P1
    revert this
    cases r.P1 with
    | str s => intro; rfl
    | none => intro; rfl
    | vec l a => intro hp; exact congrArg (P1Arg.vec l) (k.vec_eq (hp l a rfl) (no a))
  have e2 : h'.p2 r.P2 = h.p2 r.P2 := by
    have a1 := hv.P2v
    have a2 := hv.P2d
    have a3 := hv.P2s
    revert a1 a2 a3
    cases r.P2 with
    | str s => intros; rfl
    | none => intros; rfl
    | vec l a => intro hp _ _; exact congrArg (P2Arg.vec l) (k.vec_eq (hp l a rfl) (no a))
    | dense m c a => intro _ hp _; exact congrArg (P2Arg.dense m c) (k.arr_eq (hp m c a rfl) (no a))
    | sparse m c a => intro _ _ hp; exact congrArg (P2Arg.sparse m c) (k.sp a (hp m c a rfl))
  have e3 := map_vec_eq k hv.lb fun a _ => no a
  have e4 := map_vec_eq k hv.ub fun a _ => no a
  have e5 := map_arr_eq k hv.A fun a _ => no a
  unfold FitCfg.inHeap
  rw [e1, e2, e3, e4, e5]
  have g := hv.given
  have q := hv.previous
  revert g q
  cases r.start with
  | cold => intros; rfl
  | given a =>
    intro g _
    have := k.vec_eq (g a rfl) (no a)
    simp only [this]
  | previous b v =>
    intro _ q
    have := heapRead_eq k (q b v rfl) (no _)
    simp only [this]

theorem heapRows_eq {E : ℕ → ℕ → ℕ → Prop} {h h' : Heap} {d : DataRefs} (k : Keeps E h h') (hX : d.X < h.nArr) (hy : d.y < h.nArr) (hw : d.w < h.nArr)
    (ho : OptLt d.off h.nArr) (eX : ∀ r j, ¬ E d.X r j) (ey : ∀ r j, ¬ E d.y r j) (ew : ∀ r j, ¬ E d.w r j)
    (eo : ∀ a, d.off = some a → ∀ r j, ¬ E a r j) : h'.rows n d = h.rows n d := by
  have h1 := k.arr_eq hX eX
  have h2 := k.vec_eq hy ey
  have h3 := k.vec_eq hw ew
  have h4 : (d.off.map fun a (i : Fin n) => h'.vec a i) = d.off.map fun a (i : Fin n) => h.vec a i := by
    revert ho eo
    cases d.off with
    | none => intros; rfl
    | some a => intro ho eo; simp only [Option.map, k.vec_eq (ho a rfl) (eo a rfl)]
  unfold Heap.rows
  rw [h1, h2, h3, h4]

/-! ### Reading back -/

theorem alloc_arr (h : Heap) (c : ℕ → ℕ → ℝ) : (h.alloc c).1.arr (h.alloc c).2 = c := by
  show (if h.nArr = h.nArr then c else _) = c
  rw [if_pos rfl]

theorem alloc_vec (h : Heap) (c : ℕ → ℕ → ℝ) : (h.alloc c).1.vec (h.alloc c).2 = c 0 := congrFun (alloc_arr h c) 0

theorem write_same (h : Heap) (a : ℕ) (c : ℕ → ℕ → ℝ) : (h.write a c).arr a = c := by
  show (if a = a then c else _) = c
  rw [if_pos rfl]

theorem write_other (h : Heap) {a b : ℕ} (c : ℕ → ℕ → ℝ) (hab : b ≠ a) : (h.write a c).arr b = h.arr b := by
  show (if b = a then c else h.arr b) = _
  rw [if_neg hab]

theorem read_writeView (h : Heap) (v : View) (f : ℕ → ℝ) (j : ℕ) : (h.writeView v f).read v j = f j := by
  unfold Heap.read Heap.writeView
  rw [write_same]
  simp

theorem writeView_before (h : Heap) (v : View) (f : ℕ → ℝ) (j : ℕ) (hj : j < v.off) : (h.writeView v f).arr v.addr v.row j = h.arr v.addr v.row j := by
  unfold Heap.writeView
  rw [write_same, if_neg (by omega)]

theorem allocPen_pen (h : Heap) (P : Pen2 ℝ) : (h.allocPen P).1.pen (h.allocPen P).2 = P := by
  cases P with
  | vec v => exact congrArg Pen2.vec (alloc_vec h _)
  | dense m => exact congrArg Pen2.dense (alloc_arr h _)
  | sparse m =>
    show Pen2.sparse (if h.nSp = h.nSp then m else _) = _
    rw [if_pos rfl]

theorem allocPen_valid (h : Heap) (P : Pen2 ℝ) : (h.allocPen P).2.Valid (h.allocPen P).1 := by
  cases P with
  | vec v => exact Nat.lt_succ_self _
  | dense m => exact Nat.lt_succ_self _
  | sparse m => exact Nat.lt_succ_self _

theorem checkArr_arr (b : Bool) (h : Heap) (a : ℕ) : (checkArr b h a).1.arr (checkArr b h a).2 = h.arr a := by
  cases b
  · rfl
  · exact alloc_arr h _

theorem checkArr_lt (b : Bool) {h : Heap} {a : ℕ} (ha : a < h.nArr) : (checkArr b h a).2 < (checkArr b h a).1.nArr := by
  cases b
  · exact ha
  · exact Nat.lt_succ_self _

theorem checkOpt_lt (b : Bool) {h : Heap} {a : Option ℕ} (ha : OptLt a h.nArr) : OptLt (checkOpt b h a).2 (checkOpt b h a).1.nArr := by
  cases a with
  | none => intro x hx; cases hx
  | some a =>
    intro x hx
    cases hx
    exact checkArr_lt b (ha a rfl)

theorem checkOpt_arr (b : Bool) (h : Heap) (a : Option ℕ) : (checkOpt b h a).2.map (checkOpt b h a).1.arr = a.map h.arr := by
  cases a with
  | none => rfl
  | some a => exact congrArg some (checkArr_arr b h a)

theorem mapOpt_arr (h : Heap) (f : (ℕ → ℕ → ℝ) → ℕ → ℕ → ℝ) (a : Option ℕ) : (mapOpt h f a).2.map (mapOpt h f a).1.arr = (a.map h.arr).map f := by
  cases a with
  | none => rfl
  | some a => exact congrArg some (alloc_arr h _)

theorem mapOpt_lt (h : Heap) (f : (ℕ → ℕ → ℝ) → ℕ → ℕ → ℝ) (a : Option ℕ) : OptLt (mapOpt h f a).2 (mapOpt h f a).1.nArr := by
  cases a with
  | none => intro x hx; cases hx
  | some a =>
    intro x hx
    cases hx
    exact Nat.lt_succ_self _


/-! ### The stages -/

/-- The arguments as the caller sees them: weights divided by their sum, ones if there are none. -/
noncomputable def Heap.userRows (h : Heap) (n : ℕ) (r : FitRefs) : Rows n :=
  { X := fun i j => h.arr r.X i j, y := fun i => h.vec r.y i, off := r.off.map fun a i => h.vec a i,
    sw := fun i => (r.w.map h.vec).getD (fun _ => 1) i / ∑ i : Fin n, (r.w.map h.vec).getD (fun _ => 1) i }

structure DataRefs.Valid (d : DataRefs) (h : Heap) : Prop where
  X : d.X < h.nArr
  y : d.y < h.nArr
  w : d.w < h.nArr
  off : OptLt d.off h.nArr

theorem DataRefs.Valid.keeps {d : DataRefs} {E : ℕ → ℕ → ℕ → Prop} {h h' : Heap} (hv : d.Valid h) (k : Keeps E h h') : d.Valid h' :=
  ⟨lt_of_lt_of_le hv.X k.nArr, lt_of_lt_of_le hv.y k.nArr, lt_of_lt_of_le hv.w k.nArr, hv.off.mono k.nArr⟩

theorem checkArr_cases (b : Bool) (h : Heap) (a : ℕ) : (checkArr b h a).2 = a ∨ h.nArr ≤ (checkArr b h a).2 := by
  cases b
  · exact Or.inl rfl
  · exact Or.inr (le_refl _)

/-- The checks copy or share; the values are those of the caller. -/
theorem checkData_spec (n : ℕ) (k : Copies) {h : Heap} {r : FitRefs} (hv : r.Valid h) :
    Keeps NoCell h (checkData n k h r).1 ∧ (checkData n k h r).2.Valid (checkData n k h r).1
      ∧ (checkData n k h r).1.rows n (checkData n k h r).2 = h.userRows n r
      ∧ ((checkData n k h r).2.X = r.X ∨ h.nArr ≤ (checkData n k h r).2.X)
      ∧ ((checkData n k h r).2.y = r.y ∨ h.nArr ≤ (checkData n k h r).2.y)
      ∧ h.nArr ≤ (checkData n k h r).2.w
      ∧ (∀ a, (checkData n k h r).2.off = some a → r.off = some a ∨ h.nArr ≤ a) := by
  have no : ∀ a r j, ¬ NoCell a r j := fun _ _ _ x => x
  obtain ⟨x, hx⟩ : ∃ x, x = checkArr k.X h r.X := ⟨_, rfl⟩
  obtain ⟨y, hy⟩ : ∃ y, y = checkArr k.y x.1 r.y := ⟨_, rfl⟩
  obtain ⟨w, hw⟩ : ∃ w : Heap × ℕ, w = match r.w with | none => y.1.alloc fun _ _ => 1 | some a => checkArr k.w y.1 a := ⟨_, rfl⟩
  obtain ⟨o, ho⟩ : ∃ o, o = checkOpt k.off w.1 r.off := ⟨_, rfl⟩
  obtain ⟨s, hs⟩ : ∃ s, s = o.1.alloc fun _ j => o.1.vec w.2 j / ∑ i : Fin n, o.1.vec w.2 i := ⟨_, rfl⟩
  have e : checkData n k h r = (s.1, { X := x.2, y := y.2, w := s.2, off := o.2 }) := by
    subst hs ho hw hy hx
    rfl
  have kx : Keeps NoCell h x.1 := hx ▸ (Keeps.refl h).checkArr _ _
  have ky : Keeps NoCell x.1 y.1 := hy ▸ (Keeps.refl x.1).checkArr _ _
  have kw : Keeps NoCell y.1 w.1 := by
    rw [hw]
    cases r.w with
    | none => exact (Keeps.refl y.1).alloc _
    | some a => exact (Keeps.refl y.1).checkArr _ _
  have ko : Keeps NoCell w.1 o.1 := ho ▸ (Keeps.refl w.1).checkOpt _ _
  have ks : Keeps NoCell o.1 s.1 := hs ▸ (Keeps.refl o.1).alloc _
  have lx : x.2 < x.1.nArr := hx ▸ checkArr_lt _ hv.X
  have ly : y.2 < y.1.nArr := hy ▸ checkArr_lt _ (lt_of_lt_of_le hv.y kx.nArr)
  have lw : w.2 < w.1.nArr := by
    have g := hv.w
    rw [hw]
    revert g
    cases r.w with
    | none => intro; exact Nat.lt_succ_self _
    | some a => intro g; exact checkArr_lt _ (lt_of_lt_of_le (g a rfl) (kx.trans ky).nArr)
  have lo : OptLt o.2 o.1.nArr := ho ▸ checkOpt_lt _ (hv.off.mono ((kx.trans ky).trans kw).nArr)
  have ls : s.2 < s.1.nArr := hs ▸ Nat.lt_succ_self _
  have ax : x.1.arr x.2 = h.arr r.X := hx ▸ checkArr_arr _ _ _
  have ay : y.1.arr y.2 = h.arr r.y := by
    rw [hy, checkArr_arr]
    exact kx.arr_eq hv.y (no _)
  have aw : w.1.vec w.2 = (r.w.map h.vec).getD fun _ => 1 := by
    have g := hv.w
    rw [hw]
    revert g
    cases r.w with
    | none => intro; exact alloc_vec _ _
    | some a =>
      intro g
      show (checkArr k.w y.1 a).1.arr _ 0 = h.vec a
      rw [checkArr_arr]
      exact (kx.trans ky).vec_eq (g a rfl) (no _)
  have aw' : o.1.vec w.2 = (r.w.map h.vec).getD fun _ => 1 := (ko.vec_eq lw (no _)).trans aw
  have asw : s.1.vec s.2 = fun j => (r.w.map h.vec).getD (fun _ => 1) j / ∑ i : Fin n, (r.w.map h.vec).getD (fun _ => 1) i := by
    rw [hs, alloc_vec, aw']
  have ao : o.2.map o.1.arr = r.off.map h.arr := by
    rw [ho, checkOpt_arr]
    exact map_arr_eq ((kx.trans ky).trans kw) hv.off fun a _ => no a
  have kxs : Keeps NoCell x.1 s.1 := ((ky.trans kw).trans ko).trans ks
  have kys : Keeps NoCell y.1 s.1 := (kw.trans ko).trans ks
  have no' : ∀ a, h.nArr ≤ a → h.nArr ≤ a := fun _ h => h
  refine ⟨?_, ?_, ?_, ?_, ?_, ?_, ?_⟩
  · rw [e]; exact kx.trans kxs
  · rw [e]
    exact ⟨lt_of_lt_of_le lx kxs.nArr, lt_of_lt_of_le ly kys.nArr, ls, lo.mono ks.nArr⟩
  · rw [e]
    have bX : s.1.arr x.2 = h.arr r.X := (kxs.arr_eq lx (no _)).trans ax
    have by' : s.1.vec y.2 = h.vec r.y := congrFun ((kys.arr_eq ly (no _)).trans ay) 0
    have bo : o.2.map s.1.arr = r.off.map h.arr := (map_arr_eq ks lo fun a _ => no a).trans ao
    have bo' : (o.2.map fun a (i : Fin n) => s.1.vec a i) = r.off.map fun a (i : Fin n) => h.vec a i := by
      have := congrArg (Option.map fun (c : ℕ → ℕ → ℝ) (i : Fin n) => c 0 i) bo
      rw [Option.map_map, Option.map_map] at this
      exact this
    unfold Heap.rows Heap.userRows
    simp only []
    rw [bX, by', bo', asw]
  · rw [e, hx]; exact checkArr_cases _ _ _
  · rw [e, hy]
    refine (checkArr_cases k.y x.1 r.y).imp id fun q => kx.nArr.trans q
  · rw [e]
    have : s.2 = o.1.nArr := by rw [hs]; rfl
    rw [this]
    exact (((kx.trans ky).trans kw).trans ko).nArr
  · rw [e, ho]
    intro a ha
    revert ha
    cases r.off with
    | none => intro ha; cases ha
    | some b =>
      intro ha
      simp only [checkOpt, Option.some.injEq] at ha
      subst ha
      rcases checkArr_cases k.off w.1 b with q | q
      · exact Or.inl (by rw [q])
      · exact Or.inr (((kx.trans ky).trans kw).nArr.trans q)

theorem penRef_eq {E : ℕ → ℕ → ℕ → Prop} {h h' : Heap} {P : PenRef} (k : Keeps E h h') (hP : P.Valid h)
    (he : ∀ a, P = .vec a ∨ P = .dense a → ∀ r j, ¬ E a r j) : h'.pen P = h.pen P := by
  cases P with
  | vec a => exact congrArg Pen2.vec (k.vec_eq hP (he a (Or.inl rfl)))
  | dense a => exact congrArg Pen2.dense (k.arr_eq hP (he a (Or.inr rfl)))
  | sparse a => exact congrArg Pen2.sparse (k.sp a hP)

theorem PenRef.Valid.keeps {E : ℕ → ℕ → ℕ → Prop} {h h' : Heap} {P : PenRef} (hP : P.Valid h) (k : Keeps E h h') : P.Valid h' := by
  cases P with
  | vec a => exact lt_of_lt_of_le hP k.nArr
  | dense a => exact lt_of_lt_of_le hP k.nArr
  | sparse a => exact lt_of_lt_of_le hP k.nSp

structure StdRefs.Valid (s : StdRefs) (h : Heap) : Prop where
  d : s.d.Valid h
  P1 : s.P1 < h.nArr
  P2 : s.P2.Valid h
  lb : OptLt s.lb h.nArr
  ub : OptLt s.ub h.nArr
  A : OptLt s.A h.nArr

theorem StdRefs.Valid.keeps {s : StdRefs} {E : ℕ → ℕ → ℕ → Prop} {h h' : Heap} (hv : s.Valid h) (k : Keeps E h h') : s.Valid h' :=
  ⟨hv.d.keeps k, lt_of_lt_of_le hv.P1 k.nArr, hv.P2.keeps k, hv.lb.mono k.nArr, hv.ub.mono k.nArr, hv.A.mono k.nArr⟩

theorem scalePen_keeps {E : ℕ → ℕ → ℕ → Prop} {h0 h : Heap} (inv : ℕ → ℝ) (P : PenRef) (k : Keeps E h0 h) (hP : ∀ a, P = .vec a → h0.nArr ≤ a) :
    Keeps E h0 (scalePen inv h P).1 := by
  cases P with
  | vec a => exact k.write _ (Or.inl (hP a rfl))
  | dense a => exact k.alloc _
  | sparse a => exact k.allocSp _

theorem scalePen_pen (inv : ℕ → ℝ) (h : Heap) (P : PenRef) : (scalePen inv h P).1.pen (scalePen inv h P).2 = scaleP2 inv (h.pen P) := by
  cases P with
  | vec a =>
    show Pen2.vec ((h.write a _).arr a 0) = _
    rw [write_same]
    rfl
  | dense a => exact congrArg Pen2.dense (alloc_arr h _)
  | sparse a =>
    show Pen2.sparse (if h.nSp = h.nSp then _ else _) = _
    rw [if_pos rfl]
    rfl

theorem scalePen_valid (inv : ℕ → ℝ) {h : Heap} {P : PenRef} (hP : P.Valid h) : (scalePen inv h P).2.Valid (scalePen inv h P).1 := by
  cases P with
  | vec a => exact hP
  | dense a => exact Nat.lt_succ_self _
  | sparse a => exact Nat.lt_succ_self _

/-- `standardize` writes only to the penalties, which the fit owns. -/
theorem standardizeH_keeps {E : ℕ → ℕ → ℕ → Prop} {h0 h : Heap} (thr : ℝ) (b : Bool) (stds : ℕ → ℝ) (s : StdRefs) (k : Keeps E h0 h)
    (h1 : h0.nArr ≤ s.P1) (h2 : ∀ a, s.P2 = .vec a → h0.nArr ≤ a) : Keeps E h0 (standardizeH thr b stds h s).1 := by
  have k3 := ((k.mapOpt (fun c r j => c r j / oneOverStd thr 1 (stds j)) s.lb).mapOpt (fun c r j => c r j / oneOverStd thr 1 (stds j)) s.ub).mapOpt
    (fun c r j => c r j * oneOverStd thr 1 (stds j)) s.A
  cases b
  · exact scalePen_keeps _ _ (k3.write _ (Or.inl h1)) h2
  · exact k3

/-- The cells a fit with `warm_start` and without intercept starts from: those of the previous `coef_`. -/
def StartCell (ic : Bool) (start : StartRef) (a i j : ℕ) : Prop :=
  ic = false ∧ ∃ b v, start = .previous b v ∧ a = v.addr ∧ i = v.row ∧ v.off ≤ j

theorem clipLowerH_keeps {E : ℕ → ℕ → ℕ → Prop} {h0 h : Heap} {v : View} (k : Keeps E h0 h)
    (hv : h0.nArr ≤ v.addr ∨ ∀ j, v.off ≤ j → E v.addr v.row j) (lb : Option ℕ) : Keeps E h0 (clipLowerH p h v lb) := by
  cases lb with
  | none => exact k
  | some l =>
    simp only [clipLowerH]
    split
    · exact k.writeView _ hv
    · exact k

theorem clipUpperH_keeps {E : ℕ → ℕ → ℕ → Prop} {h0 h : Heap} {v : View} (k : Keeps E h0 h)
    (hv : h0.nArr ≤ v.addr ∨ ∀ j, v.off ≤ j → E v.addr v.row j) (ub : Option ℕ) : Keeps E h0 (clipUpperH p h v ub) := by
  cases ub with
  | none => exact k
  | some l =>
    simp only [clipUpperH]
    split
    · exact k.writeView _ hv
    · exact k

theorem warmStartH_keeps {E : ℕ → ℕ → ℕ → Prop} {h0 h : Heap} {v : View} (thr : ℝ) (means stds : ℕ → ℝ) (k : Keeps E h0 h) (hv : h0.nArr ≤ v.addr) :
    Keeps E h0 (warmStartH p thr means stds h v) := by
  unfold warmStartH
  exact (k.writeView (v := v.tail 1) _ (Or.inl hv)).writeView _ (Or.inl hv)

/-- The start before clipping. -/
theorem startH_eq (p : ℕ) (ic : Bool) (thr : ℝ) (means stds : ℕ → ℝ) (guess : ℝ) (h : Heap) (lb ub : Option ℕ) (start : StartRef) :
    ∃ raw : Heap × View, startH p ic thr means stds guess h lb ub start
        = (clipUpperH p (clipLowerH p raw.1 (raw.2.tail ic.toNat) lb) (raw.2.tail ic.toNat) ub, raw.2)
      ∧ (∀ (E : ℕ → ℕ → ℕ → Prop) h0, Keeps E h0 h → Keeps E h0 raw.1)
      ∧ ((raw.2.addr = h.nArr ∧ raw.2.row = 0 ∧ raw.2.off = 0 ∧ raw.1.nArr = h.nArr + 1) ∨ (ic = false ∧ raw.1 = h ∧ ∃ b, start = .previous b raw.2))
      ∧ (∀ k : Fin (p + ic.toNat), raw.1.read raw.2 k = rawStart ic thr means stds guess
          (match start with
            | .cold => .cold
            | .given a => .given fun k => h.vec a k
            | .previous b v => .previous fun k => if k.val < ic.toNat then b else h.read v (k.val - ic.toNat)) k) := by
  have warm : ∀ (c : ℕ → ℕ → ℝ) (k : ℕ), (warmStartH p thr means stds (h.alloc c).1 ⟨(h.alloc c).2, 0, 0⟩).read ⟨(h.alloc c).2, 0, 0⟩ k
      = if k = 0 then c 0 0 + ∑ i : Fin p, means i * oneOverStd thr 1 (stds i) * (c 0 (i + 1) * stds i) else c 0 k * stds (k - 1) := by
    intro c k
    obtain ⟨v, hv⟩ : ∃ v : View, v = ⟨(h.alloc c).2, 0, 0⟩ := ⟨_, rfl⟩
    rw [← hv]
    unfold warmStartH
    simp only []
    rw [read_writeView]
    have r0 : ((h.alloc c).1.writeView (v.tail 1) fun j => (h.alloc c).1.read v (j + 1) * stds j).read v 0 = c 0 0 := by
      have := writeView_before (h.alloc c).1 (v.tail 1) (fun j => (h.alloc c).1.read v (j + 1) * stds j) 0 (by rw [hv]; exact Nat.one_pos)
      rw [hv] at this ⊢
      refine this.trans ?_
      exact congrFun (congrFun (alloc_arr h c) 0) 0
    have rs : ∀ j, ((h.alloc c).1.writeView (v.tail 1) fun j => (h.alloc c).1.read v (j + 1) * stds j).read v (j + 1) = c 0 (j + 1) * stds j := by
      intro j
      have := read_writeView (h.alloc c).1 (v.tail 1) (fun j => (h.alloc c).1.read v (j + 1) * stds j) j
      have e2 : ∀ g : Heap, g.read v (j + 1) = g.read (v.tail 1) j := by
        intro g
        show g.arr v.addr v.row (v.off + (j + 1)) = g.arr v.addr v.row (v.off + 1 + j)
        congr 1
        omega
      rw [e2, this]
      have e3 : (h.alloc c).1.read v (j + 1) = c 0 (j + 1) := by
        rw [hv]
        show (h.alloc c).1.arr (h.alloc c).2 0 (0 + (j + 1)) = _
        rw [alloc_arr, Nat.zero_add]
      rw [e3]
    cases k with
    | zero => simp only [if_true, r0, rs]
    | succ k => simp [rs]
  cases start with
  | cold =>
    refine ⟨_, rfl, fun E h0 k => k.alloc _, Or.inl ⟨rfl, rfl, rfl, rfl⟩, fun k => ?_⟩
    show (h.alloc fun _ j => if j < ic.toNat then guess else 0).1.arr (h.alloc fun _ j => if j < ic.toNat then guess else 0).2 0 (0 + k.val) = _
    rw [alloc_arr, Nat.zero_add]
    cases ic <;> rfl
  | given a =>
    cases ic with
    | false =>
      refine ⟨_, rfl, fun E h0 k => k.alloc _, Or.inl ⟨rfl, rfl, rfl, rfl⟩, fun k => ?_⟩
      show (h.alloc (h.arr a)).1.arr (h.alloc (h.arr a)).2 0 (0 + k.val) = _
      rw [alloc_arr, Nat.zero_add]
      rfl
    | true =>
      refine ⟨_, rfl, fun E h0 k => warmStartH_keeps _ _ _ (k.alloc _) k.nArr, Or.inl ⟨rfl, rfl, rfl, rfl⟩, fun k => ?_⟩
      refine (warm (h.arr a) k).trans ?_
      unfold rawStart standardizeWarmStart
      simp only []
      by_cases hk : k.val = 0
      · rw [if_pos hk, if_pos hk, if_pos hk]
        have : h.vec a k = h.arr a 0 0 := by rw [hk]; rfl
        rw [this]
        rfl
      · rw [if_neg hk, if_neg hk, if_neg hk]
        rfl
  | previous b v =>
    cases ic with
    | false =>
      exact ⟨_, rfl, fun E h0 k => k, Or.inr ⟨rfl, rfl, b, rfl⟩, fun k => rfl⟩
    | true =>
      refine ⟨_, rfl, fun E h0 k => warmStartH_keeps _ _ _ (k.alloc _) k.nArr, Or.inl ⟨rfl, rfl, rfl, rfl⟩, fun k => ?_⟩
      refine (warm _ k).trans ?_
      unfold rawStart standardizeWarmStart
      simp only []
      by_cases hk : k.val = 0
      · rw [if_pos hk, if_pos hk, if_pos hk]
        rw [if_pos trivial, if_pos (show k.val < true.toNat by rw [hk]; exact Nat.one_pos)]
        congr 1
      · rw [if_neg hk, if_neg hk, if_neg hk, if_neg hk, if_neg (show ¬ k.val < true.toNat by show ¬ k.val < 1; omega)]
        rfl

end Glum
