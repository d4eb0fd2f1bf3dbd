import Verif.Lemmas.Heap
/-
C99: what `fit` does to the memory of its caller, and that sharing and in-place writing do not change what it computes.
-/
set_option linter.unusedSectionVars false
set_option linter.unusedVariables false
set_option linter.unusedSimpArgs false

namespace Glum

variable {n p : ℕ} {ic : Bool}

theorem clipLowerH_read (h : Heap) (v : View) (lb : Option ℕ) {j : ℕ} (hj : j < p) :
    (clipLowerH p h v lb).read v j = (lb.map h.vec).elim (h.read v j) fun l => max (h.read v j) (l j) := by
  cases lb with
  | none => rfl
  | some l =>
    simp only [clipLowerH, Option.map, Option.elim]
    split
    · exact read_writeView _ _ _ _
    · rename_i hn
      push Not at hn
      exact (max_eq_left (hn j hj)).symm

theorem clipUpperH_read (h : Heap) (v : View) (ub : Option ℕ) {j : ℕ} (hj : j < p) :
    (clipUpperH p h v ub).read v j = (ub.map h.vec).elim (h.read v j) fun l => min (h.read v j) (l j) := by
  cases ub with
  | none => rfl
  | some l =>
    simp only [clipUpperH, Option.map, Option.elim]
    split
    · exact read_writeView _ _ _ _
    · rename_i hn
      push Not at hn
      exact (min_eq_left (hn j hj)).symm

theorem clipLowerH_before (h : Heap) (v : View) (lb : Option ℕ) {j : ℕ} (hj : j < v.off) :
    (clipLowerH p h v lb).arr v.addr v.row j = h.arr v.addr v.row j := by
  cases lb with
  | none => rfl
  | some l =>
    simp only [clipLowerH]
    split
    · exact writeView_before _ _ _ _ hj
    · rfl

theorem clipUpperH_before (h : Heap) (v : View) (ub : Option ℕ) {j : ℕ} (hj : j < v.off) :
    (clipUpperH p h v ub).arr v.addr v.row j = h.arr v.addr v.row j := by
  cases ub with
  | none => rfl
  | some l =>
    simp only [clipUpperH]
    split
    · exact writeView_before _ _ _ _ hj
    · rfl

theorem clipLowerH_other (h : Heap) (v : View) (lb : Option ℕ) {a : ℕ} (ha : a ≠ v.addr) : (clipLowerH p h v lb).arr a = h.arr a := by
  cases lb with
  | none => rfl
  | some l =>
    simp only [clipLowerH]
    split
    · exact write_other _ _ ha
    · rfl

/-- Where the start is taken from, as values. -/
def StartRef.inHeap (p : ℕ) (ic : Bool) (h : Heap) : StartRef → StartFrom p ic
  | .cold => .cold
  | .given a => .given fun k => h.vec a k
  | .previous b v => .previous fun k => if k.val < ic.toNat then b else h.read v (k.val - ic.toNat)

theorem startH_coef (thr : ℝ) (means stds : ℕ → ℝ) (guess : ℝ) {h : Heap} {lb ub : Option ℕ} {start : StartRef} (hlb : OptLt lb h.nArr)
    (hub : OptLt ub h.nArr) (sep : ic = false → ∀ b v, start = .previous b v → ub ≠ some v.addr) :
    (startH p ic thr means stds guess h lb ub start).1.coef p ic (startH p ic thr means stds guess h lb ub start).2
      = getStartCoef ic thr means stds guess (lb.map h.vec) (ub.map h.vec) (start.inHeap p ic h) := by
  obtain ⟨raw, e, hk, hc, hr⟩ := startH_eq p ic thr means stds guess h lb ub start
  have kk : Keeps NoCell h raw.1 := hk _ _ (Keeps.refl h)
  have no : ∀ a r j, ¬ NoCell a r j := fun _ _ _ x => x
  have el : lb.map raw.1.vec = lb.map h.vec := map_vec_eq kk hlb fun a _ => no a
  have eu : ub.map (clipLowerH p raw.1 (raw.2.tail ic.toNat) lb).vec = ub.map h.vec := by
    rw [← map_vec_eq kk hub fun a _ => no a]
    have hne : ub ≠ some raw.2.addr := by
      rcases hc with ⟨ha, -⟩ | ⟨hi, -, b, hb⟩
      · intro hu
        have := hub _ hu
        omega
      · exact sep hi b _ hb
    revert hne
    cases ub with
    | none => intro; rfl
    | some u =>
      intro hne
      have : u ≠ (raw.2.tail ic.toNat).addr := fun q => hne (congrArg some q)
      exact congrArg some (congrFun (clipLowerH_other (p := p) raw.1 (raw.2.tail ic.toNat) lb this) 0)
  have hs : ∀ k, raw.1.read raw.2 k.val = rawStart ic thr means stds guess (start.inHeap p ic h) k := by
    intro k
    rw [hr k]
    cases start <;> rfl
  funext k
  unfold getStartCoef
  unfold clipStart
  rw [e, ← hs k]
  by_cases hlt : k.val < ic.toNat
  · rw [if_pos hlt]
    have hlt' : raw.2.off + k.val < (raw.2.tail ic.toNat).off := Nat.add_lt_add_left hlt _
    exact (clipUpperH_before _ (raw.2.tail ic.toNat) ub hlt').trans (clipLowerH_before _ (raw.2.tail ic.toNat) lb hlt')
  · rw [if_neg hlt]
    obtain ⟨j, hj⟩ : ∃ j, k.val = ic.toNat + j := ⟨k.val - ic.toNat, by omega⟩
    have hjp : j < p := by have := k.isLt; omega
    have hre : ∀ g : Heap, g.read raw.2 k.val = g.read (raw.2.tail ic.toNat) j := by
      intro g
      show g.arr _ _ (raw.2.off + k.val) = g.arr _ _ (raw.2.off + ic.toNat + j)
      congr 1
      omega
    have hsub : k.val - ic.toNat = j := by omega
    show Heap.read _ raw.2 k.val = _
    rw [hre, clipUpperH_read _ _ _ hjp, clipLowerH_read _ _ _ hjp, eu, el, hsub, hre]
    cases lb <;> cases ub <;> rfl

theorem startH_keeps {E : ℕ → ℕ → ℕ → Prop} {h0 h : Heap} (thr : ℝ) (means stds : ℕ → ℝ) (guess : ℝ) (lb ub : Option ℕ) {start : StartRef}
    (k : Keeps E h0 h) (hE : ∀ a i j, StartCell ic start a i j → E a i j) : Keeps E h0 (startH p ic thr means stds guess h lb ub start).1 := by
  obtain ⟨raw, e, hk, hc, hr⟩ := startH_eq p ic thr means stds guess h lb ub start
  rw [e]
  have hv : h0.nArr ≤ (raw.2.tail ic.toNat).addr ∨ ∀ j, (raw.2.tail ic.toNat).off ≤ j → E (raw.2.tail ic.toNat).addr (raw.2.tail ic.toNat).row j := by
    rcases hc with ⟨ha, -⟩ | ⟨hi, -, b, hb⟩
    · left
      show h0.nArr ≤ raw.2.addr
      rw [ha]
      exact k.nArr
    · right
      intro j hj
      refine hE _ _ _ ⟨hi, b, raw.2, hb, rfl, rfl, ?_⟩
      exact le_trans (Nat.le_add_right _ _) hj
  exact clipUpperH_keeps (clipLowerH_keeps (hk _ _ k) hv _) hv _

/-- The start is a new array or the previous `coef_`. -/
theorem startH_view (thr : ℝ) (means stds : ℕ → ℝ) (guess : ℝ) (h : Heap) (lb ub : Option ℕ) (start : StartRef) :
    ((startH p ic thr means stds guess h lb ub start).2.addr = h.nArr ∧ (startH p ic thr means stds guess h lb ub start).2.row = 0
        ∧ (startH p ic thr means stds guess h lb ub start).2.off = 0 ∧ (startH p ic thr means stds guess h lb ub start).1.nArr = h.nArr + 1)
      ∨ (ic = false ∧ ∃ b, start = .previous b (startH p ic thr means stds guess h lb ub start).2) := by
  obtain ⟨raw, e, hk, hc, hr⟩ := startH_eq p ic thr means stds guess h lb ub start
  have nl : ∀ (g : Heap) (v : View) (o : Option ℕ), (clipLowerH p g v o).nArr = g.nArr := by
    intro g v o
    cases o with
    | none => rfl
    | some l =>
      simp only [clipLowerH]
      split <;> rfl
  have nu : ∀ (g : Heap) (v : View) (o : Option ℕ), (clipUpperH p g v o).nArr = g.nArr := by
    intro g v o
    cases o with
    | none => rfl
    | some l =>
      simp only [clipUpperH]
      split <;> rfl
  rw [e]
  rcases hc with ⟨ha, hb, hd, hn⟩ | ⟨hi, -, b, hb⟩
  · refine Or.inl ⟨ha, hb, hd, ?_⟩
    rw [nu, nl, hn]
  · exact Or.inr ⟨hi, b, hb⟩

/-- `standardize`: the values. -/
theorem standardizeH_spec (C : FitCfg p ic) {means : ℕ → ℝ} (stds : ℕ → ℝ) {h : Heap} {s : StdRefs} (hs : s.Valid h)
    (hX : s.d.X ≠ s.P1) (hy : s.d.y ≠ s.P1) (hw : s.d.w ≠ s.P1) (ho : s.d.off ≠ some s.P1)
    (pX : s.P2 ≠ .vec s.d.X) (py : s.P2 ≠ .vec s.d.y) (pw : s.P2 ≠ .vec s.d.w) (po : ∀ a, s.d.off = some a → s.P2 ≠ .vec a)
    (p12 : s.P2 ≠ .vec s.P1) (d12 : s.P2 ≠ .dense s.P1) :
    let o := standardizeH C.thr C.asIfScaled stds h s
    o.2.Valid o.1 ∧ o.2.d = s.d ∧ o.1.rows n o.2.d = h.rows n s.d
      ∧ o.1.problem n C means stds o.2 o.2.P1 o.2.P2
          = stdData C.thr C.asIfScaled means stds (({ C with lb := s.lb.map h.vec, ub := s.ub.map h.vec } : FitCfg p ic).problem (h.rows n s.d) (h.vec s.P1) (h.pen s.P2))
      ∧ o.2.A.map o.1.arr = (s.A.map h.arr).map fun a r j => a r j * oneOverStd C.thr 1 (stds j) := by
  have no : ∀ a r j, ¬ NoCell a r j := fun _ _ _ x => x
  obtain ⟨inv, hinv⟩ : ∃ inv : ℕ → ℝ, inv = fun j => oneOverStd C.thr 1 (stds j) := ⟨_, rfl⟩
  obtain ⟨l, hl⟩ : ∃ l, l = mapOpt h (fun c r j => c r j / inv j) s.lb := ⟨_, rfl⟩
  obtain ⟨u, hu⟩ : ∃ u, u = mapOpt l.1 (fun c r j => c r j / inv j) s.ub := ⟨_, rfl⟩
  obtain ⟨a, ha⟩ : ∃ a, a = mapOpt u.1 (fun c r j => c r j * inv j) s.A := ⟨_, rfl⟩
  have kl : Keeps NoCell h l.1 := hl ▸ (Keeps.refl h).mapOpt _ _
  have ku : Keeps NoCell l.1 u.1 := hu ▸ (Keeps.refl l.1).mapOpt _ _
  have ka : Keeps NoCell u.1 a.1 := ha ▸ (Keeps.refl u.1).mapOpt _ _
  have kha : Keeps NoCell h a.1 := (kl.trans ku).trans ka
  have ll : OptLt l.2 l.1.nArr := hl ▸ mapOpt_lt _ _ _
  have lu : OptLt u.2 u.1.nArr := hu ▸ mapOpt_lt _ _ _
  have la : OptLt a.2 a.1.nArr := ha ▸ mapOpt_lt _ _ _
  have fl : OptLt l.2 a.1.nArr ∧ ∀ x, l.2 = some x → h.nArr ≤ x := by
    refine ⟨ll.mono (ku.trans ka).nArr, ?_⟩
    rw [hl]
    intro x hx
    revert hx
    cases s.lb with
    | none => intro hx; cases hx
    | some b => intro hx; cases hx; exact le_refl _
  have fu : OptLt u.2 a.1.nArr ∧ ∀ x, u.2 = some x → h.nArr ≤ x := by
    refine ⟨lu.mono ka.nArr, ?_⟩
    rw [hu]
    intro x hx
    revert hx
    cases s.ub with
    | none => intro hx; cases hx
    | some b => intro hx; cases hx; exact kl.nArr
  have fa : ∀ x, a.2 = some x → h.nArr ≤ x := by
    rw [ha]
    intro x hx
    revert hx
    cases s.A with
    | none => intro hx; cases hx
    | some b => intro hx; cases hx; exact (kl.trans ku).nArr
  have vl : l.2.map a.1.arr = (s.lb.map h.arr).map fun c r j => c r j / inv j := by
    rw [map_arr_eq (ku.trans ka) ll fun a _ => no a, hl, mapOpt_arr]
  have vu : u.2.map a.1.arr = (s.ub.map h.arr).map fun c r j => c r j / inv j := by
    rw [map_arr_eq ka lu fun a _ => no a, hu, mapOpt_arr, map_arr_eq kl hs.ub fun a _ => no a]
  have va : a.2.map a.1.arr = (s.A.map h.arr).map fun c r j => c r j * inv j := by
    rw [ha, mapOpt_arr, map_arr_eq (kl.trans ku) hs.A fun a _ => no a]
  -- from cells to vectors
  have tov : ∀ (g : Heap) (o o' : Option ℕ) (f : ℕ → ℝ → ℝ), o.map g.arr = (o'.map h.arr).map (fun c r j => f j (c r j)) →
      o.map g.vec = (o'.map h.vec).map fun v j => f j (v j) := by
    intro g o o' f e
    have := congrArg (Option.map fun (c : ℕ → ℕ → ℝ) => c 0) e
    rw [Option.map_map, Option.map_map, Option.map_map] at this
    rw [Option.map_map]
    exact this
  have rowsA : a.1.rows n s.d = h.rows n s.d := heapRows_eq kha hs.d.X hs.d.y hs.d.w hs.d.off (no _) (no _) (no _) fun a _ => no a
  have key : ∀ (g : Heap) (P2 : PenRef) (Q1 : ℕ → ℝ) (Q2 : Pen2 ℝ),
      g.rows n s.d = h.rows n s.d → l.2.map g.arr = l.2.map a.1.arr → u.2.map g.arr = u.2.map a.1.arr → g.vec s.P1 = Q1 → g.pen P2 = Q2 →
      g.problem n C means stds { s with lb := l.2, ub := u.2, A := a.2, P2 := P2 } s.P1 P2
        = { C.problem (h.rows n s.d) Q1 Q2 with
            X := stdX C.thr ic means stds (h.rows n s.d).X, lb := (s.lb.map h.vec).map fun v j => v j / inv j,
            ub := (s.ub.map h.vec).map fun v j => v j / inv j } := by
    intro g P2 Q1 Q2 er el eu e1 e2
    unfold Heap.problem
    simp only []
    rw [er, e1, e2, tov g l.2 s.lb (fun j x => x / inv j) (el.trans vl), tov g u.2 s.ub (fun j x => x / inv j) (eu.trans vu)]
  intro o
  rcases Bool.eq_false_or_eq_true C.asIfScaled with hb | hb
  · have eo : o = (a.1, { s with lb := l.2, ub := u.2, A := a.2 }) := by
      show standardizeH C.thr C.asIfScaled stds h s = _
      unfold standardizeH
      simp only []
      rw [if_pos hb]
      subst ha hu hl hinv
      rfl
    rw [eo]
    refine ⟨⟨hs.d.keeps kha, lt_of_lt_of_le hs.P1 kha.nArr, hs.P2.keeps kha, fl.1, fu.1, la⟩, rfl, rowsA, ?_, ?_⟩
    · refine (key a.1 s.P2 (h.vec s.P1) (h.pen s.P2) rowsA rfl rfl (kha.vec_eq hs.P1 (no _)) (penRef_eq kha hs.P2 fun a _ => no a)).trans ?_
      unfold stdData standardize
      simp only [hb, if_true]
      subst hinv
      rfl
    · exact va.trans (by rw [hinv])
  · obtain ⟨h1, hh1⟩ : ∃ h1, h1 = a.1.write s.P1 fun _ j => a.1.vec s.P1 j * inv j := ⟨_, rfl⟩
    obtain ⟨q, hq⟩ : ∃ q, q = scalePen inv h1 s.P2 := ⟨_, rfl⟩
    have eo : o = (q.1, { s with lb := l.2, ub := u.2, A := a.2, P2 := q.2 }) := by
      show standardizeH C.thr C.asIfScaled stds h s = _
      unfold standardizeH
      simp only []
      rw [if_neg (by rw [hb]; decide)]
      subst hq hh1 ha hu hl hinv
      rfl
    -- what the writes may touch
    have kq : Keeps (fun x _ _ => x = s.P1 ∨ s.P2 = .vec x) a.1 q.1 := by
      rw [hq]
      have k1 : Keeps (fun x _ _ => x = s.P1 ∨ s.P2 = .vec x) a.1 h1 := by
        rw [hh1]
        exact (Keeps.refl a.1).write _ (Or.inr fun r j he => absurd (Or.inl rfl) he)
      cases hP : s.P2 with
      | vec b => exact (hP ▸ k1).write _ (Or.inr fun r j he => absurd (Or.inr rfl) he)
      | dense b => exact (hP ▸ k1).alloc _
      | sparse b => exact (hP ▸ k1).allocSp _
    have old : ∀ x, x < h.nArr ∨ h.nArr ≤ x → True := fun _ _ => trivial
    have fresh : ∀ x, h.nArr ≤ x → ∀ r j : ℕ, ¬ (x = s.P1 ∨ s.P2 = PenRef.vec x) := by
      rintro x hx - - (e | e)
      · have := hs.P1
        omega
      · have hv := hs.P2
        rw [e] at hv
        exact absurd hv (not_lt.mpr hx)
    have rowsQ : q.1.rows n s.d = h.rows n s.d := by
      have dv := hs.d.keeps kha
      rw [← rowsA]
      exact heapRows_eq kq dv.X dv.y dv.w dv.off
        (fun _ _ e => e.elim hX pX) (fun _ _ e => e.elim hy py) (fun _ _ e => e.elim hw pw)
        (fun a ea _ _ e => e.elim (fun x => ho (x ▸ ea)) (po a ea))
    have e1 : h1.vec s.P1 = fun j => h.vec s.P1 j * inv j := by
      show h1.arr s.P1 0 = _
      rw [hh1, write_same, kha.vec_eq hs.P1 (no _)]
    have e1q : q.1.vec s.P1 = fun j => h.vec s.P1 j * inv j := by
      rw [← e1, hq]
      have hv := lt_of_lt_of_le hs.P1 kha.nArr
      have : ∀ P : PenRef, P ≠ .vec s.P1 → (scalePen inv h1 P).1.vec s.P1 = h1.vec s.P1 := by
        intro P hP
        cases P with
        | vec b => exact congrFun (write_other h1 _ fun e => hP (by rw [e])) 0
        | dense b =>
          refine ((Keeps.refl (E := NoCell) h1).alloc _).vec_eq ?_ (no _)
          rw [hh1]; exact hv
        | sparse b => rfl
      exact this s.P2 p12
    have e2 : h1.pen s.P2 = h.pen s.P2 := by
      have k1 : Keeps (fun x _ _ => x = s.P1) a.1 h1 := by
        rw [hh1]
        exact (Keeps.refl a.1).write _ (Or.inr fun r j he => absurd rfl he)
      rw [← penRef_eq kha hs.P2 fun a _ => no a]
      refine penRef_eq k1 (hs.P2.keeps kha) ?_
      rintro x hx - - rfl
      rcases hx with hx | hx
      · exact p12 hx
      · exact d12 hx
    have e2q : q.1.pen q.2 = scaleP2 inv (h.pen s.P2) := by rw [hq, scalePen_pen, e2]
    have mapq : ∀ o : Option ℕ, OptLt o a.1.nArr → (∀ x, o = some x → h.nArr ≤ x) → o.map q.1.arr = o.map a.1.arr := by
      intro o h1 h2
      exact map_arr_eq kq h1 fun x hx => fresh x (h2 x hx)
    have Pv : q.2.Valid q.1 := by
      rw [hq]
      refine scalePen_valid inv ?_
      have : Keeps (fun x _ _ => x = s.P1) a.1 h1 := by
        rw [hh1]
        exact (Keeps.refl a.1).write _ (Or.inr fun r j he => absurd rfl he)
      exact (hs.P2.keeps kha).keeps this
    rw [eo]
    refine ⟨⟨(hs.d.keeps kha).keeps kq, lt_of_lt_of_le (lt_of_lt_of_le hs.P1 kha.nArr) kq.nArr, Pv, fl.1.mono kq.nArr, fu.1.mono kq.nArr,
      la.mono kq.nArr⟩, rfl, rowsQ, ?_, ?_⟩
    · refine (key q.1 q.2 _ _ rowsQ (mapq _ fl.1 fl.2) (mapq _ fu.1 fu.2) e1q e2q).trans ?_
      unfold stdData standardize
      simp only [hb, Bool.false_eq_true, if_false]
      subst hinv
      rfl
    · refine (mapq _ la fa).trans (va.trans ?_)
      rw [hinv]


/-- The memory after `standardize` in `prepareH`, for the penalties `P1`, `P2`. -/
noncomputable def stdStage (n : ℕ) (C : FitCfg p ic) (stats : Stats) (h : Heap) (d : DataRefs) (r : FitRefs) (lc uc : Option ℕ) (P1 : ℕ → ℝ)
    (P2 : Pen2 ℝ) : (Heap × StdRefs) × (ℕ → ℝ) × (ℕ → ℝ) :=
  let q := h.alloc fun _ => P1
  let Q := q.1.allocPen P2
  let ms := stats n (Q.1.rows n d).X (Q.1.rows n d).sw
  (standardizeH C.thr C.asIfScaled ms.2 Q.1 { d := d, P1 := q.2, P2 := Q.2, lb := lc, ub := uc, A := r.A }, ms)

/-- The checked bounds have the values of the given ones. -/
structure BoundsChecked (h : Heap) (r : FitRefs) (lc uc : Option ℕ) : Prop where
  lv : OptLt lc h.nArr
  uv : OptLt uc h.nArr
  l : lc.map h.vec = r.lb.map h.vec
  u : uc.map h.vec = r.ub.map h.vec

theorem stdStage_spec (n : ℕ) (C : FitCfg p ic) (stats : Stats) {h : Heap} {d : DataRefs} {r : FitRefs} {lc uc : Option ℕ} (hr : r.Valid h)
    (hd : d.Valid h) (hb : BoundsChecked h r lc uc) (P1 : ℕ → ℝ) (P2 : Pen2 ℝ) :
    let o := stdStage n C stats h d r lc uc P1 P2
    Keeps NoCell h o.1.1 ∧ o.1.2.Valid o.1.1 ∧ o.1.2.d = d ∧ o.2 = stats n (h.rows n d).X (h.rows n d).sw
      ∧ h.nArr ≤ o.1.2.P1 ∧ (∀ a, o.1.2.P2 = .vec a ∨ o.1.2.P2 = .dense a → h.nArr ≤ a) ∧ (∀ a, o.1.2.lb = some a → h.nArr ≤ a)
      ∧ (∀ a, o.1.2.ub = some a → h.nArr ≤ a) ∧ (∀ a, o.1.2.A = some a → h.nArr ≤ a)
      ∧ o.1.1.problem n C o.2.1 o.2.2 o.1.2 o.1.2.P1 o.1.2.P2
          = stdData C.thr C.asIfScaled o.2.1 o.2.2 ((C.inHeap h r).problem (h.rows n d) P1 P2)
      ∧ o.1.2.A.map o.1.1.arr = (C.inHeap h r).A.map fun a r j => a r j * oneOverStd C.thr 1 (o.2.2 j) := by
  have no : ∀ a r j, ¬ NoCell a r j := fun _ _ _ x => x
  obtain ⟨q, hq⟩ : ∃ q, q = h.alloc fun _ => P1 := ⟨_, rfl⟩
  obtain ⟨u, hQ⟩ : ∃ Q, Q = q.1.allocPen P2 := ⟨_, rfl⟩
  obtain ⟨ms, hms⟩ : ∃ ms, ms = stats n (u.1.rows n d).X (u.1.rows n d).sw := ⟨_, rfl⟩
  obtain ⟨s, hs⟩ : ∃ s : StdRefs, s = { d := d, P1 := q.2, P2 := u.2, lb := lc, ub := uc, A := r.A } := ⟨_, rfl⟩
  intro o
  have eo : o = (standardizeH C.thr C.asIfScaled ms.2 u.1 s, ms) := by
    subst hs hms hQ hq
    rfl
  have kq : Keeps NoCell h q.1 := hq ▸ (Keeps.refl h).alloc _
  have kqu : Keeps NoCell q.1 u.1 := hQ ▸ (Keeps.refl q.1).allocPen _
  have khu : Keeps NoCell h u.1 := kq.trans kqu
  have q2 : q.2 = h.nArr := by rw [hq]; rfl
  have lq : q.2 < q.1.nArr := by rw [hq]; exact Nat.lt_succ_self _
  have rows : u.1.rows n d = h.rows n d := heapRows_eq khu hd.X hd.y hd.w hd.off (no _) (no _) (no _) fun a _ => no a
  have hQf : ∀ a, u.2 = .vec a ∨ u.2 = .dense a → q.1.nArr ≤ a := by
    rw [hQ]
    intro a ha
    cases P2 with
    | vec v => rcases ha with ha | ha <;> cases ha; exact le_refl _
    | dense v => rcases ha with ha | ha <;> cases ha; exact le_refl _
    | sparse v => rcases ha with ha | ha <;> cases ha
  have qh : h.nArr < q.1.nArr := by rw [hq]; exact Nat.lt_succ_self _
  have hv : s.Valid u.1 := by
    rw [hs]
    refine ⟨hd.keeps khu, lt_of_lt_of_le lq kqu.nArr, ?_, ?_, ?_, hr.A.mono khu.nArr⟩
    · exact (hQ ▸ allocPen_valid q.1 P2 : u.2.Valid u.1)
    · exact hb.lv.mono khu.nArr
    · exact hb.uv.mono khu.nArr
  have lbv : lc.map u.1.vec = r.lb.map h.vec := (map_vec_eq khu hb.lv fun a _ => no a).trans hb.l
  have ubv : uc.map u.1.vec = r.ub.map h.vec := (map_vec_eq khu hb.uv fun a _ => no a).trans hb.u
  have v1 : u.1.vec s.P1 = P1 := by
    have : u.1.vec q.2 = q.1.vec q.2 := kqu.vec_eq lq (no _)
    rw [hs, this, hq, alloc_vec]
  have v2 : u.1.pen s.P2 = P2 := by
    rw [hs, hQ]
    exact allocPen_pen _ _
  have small : ∀ a, a < h.nArr → s.P2 ≠ .vec a := by
    intro a ha e
    rw [hs] at e
    have := hQf a (Or.inl e)
    omega
  have sP1 : s.P1 = h.nArr := by rw [hs]; exact q2
  have sd : s.d = d := by rw [hs]
  have spec := standardizeH_spec (n := n) C (means := ms.1) ms.2 hv
    (by rw [sP1, sd]; exact ne_of_lt hd.X) (by rw [sP1, sd]; exact ne_of_lt hd.y) (by rw [sP1, sd]; exact ne_of_lt hd.w)
    (by rw [sP1, sd]; exact fun e => absurd (hd.off _ e) (lt_irrefl _))
    (by rw [sd]; exact small _ hd.X) (by rw [sd]; exact small _ hd.y) (by rw [sd]; exact small _ hd.w)
    (by rw [sd]; exact fun a ha => small _ (hd.off a ha))
    (by
      intro e
      rw [hs] at e
      have := hQf _ (Or.inl e)
      have e2 : q.2 < q.1.nArr := lq
      exact absurd this (not_le.mpr lq))
    (by
      intro e
      rw [hs] at e
      have := hQf _ (Or.inr e)
      exact absurd this (not_le.mpr lq))
  obtain ⟨sv, s2, s3, s4, s5⟩ := spec
  have fin : Keeps NoCell h (standardizeH C.thr C.asIfScaled ms.2 u.1 s).1 := by
    refine standardizeH_keeps _ _ _ _ khu (le_of_eq sP1.symm) fun a ha => ?_
    rw [hs] at ha
    exact le_trans (le_of_lt qh) (hQf a (Or.inl ha))
  have mf : ∀ (g : Heap) (f : (ℕ → ℕ → ℝ) → ℕ → ℕ → ℝ) (o : Option ℕ) (x : ℕ), (mapOpt g f o).2 = some x → g.nArr ≤ x := by
    intro g f o x hx
    cases o with
    | none => cases hx
    | some b => cases hx; exact le_refl _
  have mk : ∀ (g : Heap) (f : (ℕ → ℕ → ℝ) → ℕ → ℕ → ℝ) (o : Option ℕ), g.nArr ≤ (mapOpt g f o).1.nArr := fun g f o =>
    ((Keeps.refl (E := NoCell) g).mapOpt f o).nArr
  have P1e : (standardizeH C.thr C.asIfScaled ms.2 u.1 s).2.P1 = s.P1 := by
    unfold standardizeH
    simp only []
    split <;> rfl
  have lbe : (standardizeH C.thr C.asIfScaled ms.2 u.1 s).2.lb = (mapOpt u.1 (fun c r j => c r j / oneOverStd C.thr 1 (ms.2 j)) s.lb).2 := by
    unfold standardizeH
    simp only []
    split <;> rfl
  have ube : ∃ g, u.1.nArr ≤ g.nArr ∧ (standardizeH C.thr C.asIfScaled ms.2 u.1 s).2.ub = (mapOpt g (fun c r j => c r j / oneOverStd C.thr 1 (ms.2 j)) s.ub).2 := by
    refine ⟨(mapOpt u.1 (fun c r j => c r j / oneOverStd C.thr 1 (ms.2 j)) s.lb).1, mk _ _ _, ?_⟩
    unfold standardizeH
    simp only []
    split <;> rfl
  have Ae : ∃ g, u.1.nArr ≤ g.nArr ∧ (standardizeH C.thr C.asIfScaled ms.2 u.1 s).2.A = (mapOpt g (fun c r j => c r j * oneOverStd C.thr 1 (ms.2 j)) s.A).2 := by
    refine ⟨(mapOpt (mapOpt u.1 (fun c r j => c r j / oneOverStd C.thr 1 (ms.2 j)) s.lb).1 (fun c r j => c r j / oneOverStd C.thr 1 (ms.2 j)) s.ub).1,
      le_trans (mk _ _ _) (mk _ _ _), ?_⟩
    unfold standardizeH
    simp only []
    split <;> rfl
  have P2e : ∀ a, (standardizeH C.thr C.asIfScaled ms.2 u.1 s).2.P2 = .vec a ∨ (standardizeH C.thr C.asIfScaled ms.2 u.1 s).2.P2 = .dense a → h.nArr ≤ a := by
    have base : ∀ a, s.P2 = .vec a ∨ s.P2 = .dense a → h.nArr ≤ a := by
      intro a ha
      rw [hs] at ha
      exact le_trans (le_of_lt qh) (hQf a ha)
    have sc : ∀ (inv : ℕ → ℝ) (g : Heap), h.nArr ≤ g.nArr → ∀ a, (scalePen inv g s.P2).2 = .vec a ∨ (scalePen inv g s.P2).2 = .dense a → h.nArr ≤ a := by
      intro inv g hg a ha
      cases hP : s.P2 with
      | vec b =>
        rw [hP] at ha
        exact base a (by rw [hP]; exact ha)
      | dense b =>
        rw [hP] at ha
        rcases ha with ha | ha <;> cases ha
        exact hg
      | sparse b =>
        rw [hP] at ha
        rcases ha with ha | ha <;> cases ha
    unfold standardizeH
    simp only []
    split
    · exact base
    · refine sc _ _ ?_
      exact le_trans khu.nArr (le_trans (mk _ _ _) (le_trans (mk _ _ _) (mk _ _ _)))
  rw [eo]
  refine ⟨fin, sv, s2.trans sd, by rw [hms, rows], ?_, P2e, ?_, ?_, ?_, ?_, ?_⟩
  · show h.nArr ≤ (standardizeH C.thr C.asIfScaled ms.2 u.1 s).2.P1
    rw [P1e, sP1]
  · intro a ha
    have ha' : (standardizeH C.thr C.asIfScaled ms.2 u.1 s).2.lb = some a := ha
    rw [lbe] at ha'
    exact khu.nArr.trans (mf _ _ _ _ ha')
  · intro a ha
    obtain ⟨g, hg, e⟩ := ube
    exact (khu.nArr.trans hg).trans (mf _ _ _ _ (e.symm.trans ha))
  · intro a ha
    obtain ⟨g, hg, e⟩ := Ae
    exact (khu.nArr.trans hg).trans (mf _ _ _ _ (e.symm.trans ha))
  · refine s4.trans ?_
    have e1 : s.lb.map u.1.vec = r.lb.map h.vec := by rw [hs]; exact lbv
    have e2 : s.ub.map u.1.vec = r.ub.map h.vec := by rw [hs]; exact ubv
    rw [v1, v2, sd, rows, e1, e2]
    rfl
  · refine s5.trans ?_
    have : s.A.map u.1.arr = r.A.map h.arr := by
      rw [hs]
      exact map_arr_eq khu hr.A fun a _ => no a
    rw [this]
    rfl

theorem prepareH_eq (n : ℕ) (C : FitCfg p ic) (stats : Stats) {h : Heap} {d : DataRefs} {r : FitRefs} {lc uc : Option ℕ} (hr : r.Valid h)
    (hd : d.Valid h) (hb : BoundsChecked h r lc uc) (l1 : ℝ) :
    prepareH n C stats h d r lc uc l1 = (setupP1 p 1 l1 (C.inHeap h r).P1a).bind fun P1 => (setupP2 p C.xsp 1 l1 (C.inHeap h r).P2a).bind fun P2 =>
      (startGuess (C.inHeap h r) (h.rows n d)).bind fun guess =>
        let o := stdStage n C stats h d r lc uc P1 P2
        let v := startH p ic C.thr o.2.1 o.2.2 guess o.1.1 r.lb r.ub r.start
        some (v.1, o.2.1, o.2.2, o.1.2, v.2) := by
  have no : ∀ a r j, ¬ NoCell a r j := fun _ _ _ x => x
  have e1 : setupP1 p 1 l1 (h.p1 r.P1) = setupP1 p 1 l1 (C.inHeap h r).P1a := rfl
  unfold prepareH
  rw [e1]
  cases setupP1 p 1 l1 (C.inHeap h r).P1a with
  | none => rfl
  | some P1 =>
    have kq : Keeps NoCell h (h.alloc fun _ => P1).1 := (Keeps.refl h).alloc _
    have e2 : setupP2 p C.xsp 1 l1 ((h.alloc fun _ => P1).1.p2 r.P2) = setupP2 p C.xsp 1 l1 (C.inHeap h r).P2a := by
      have := congrArg FitCfg.P2a (inHeap_keeps (C := C) kq hr)
      exact congrArg (setupP2 p C.xsp 1 l1) this
    simp only [Option.bind_eq_bind, Option.bind_some]
    rw [e2]
    cases setupP2 p C.xsp 1 l1 (C.inHeap h r).P2a with
    | none => rfl
    | some P2 =>
      have spec := stdStage_spec n C stats hr hd hb P1 P2
      simp only [] at spec
      obtain ⟨s1, s2, s3, -⟩ := spec
      have e3 : startGuess (C.inHeap (stdStage n C stats h d r lc uc P1 P2).1.1 r) ((stdStage n C stats h d r lc uc P1 P2).1.1.rows n d)
          = startGuess (C.inHeap h r) (h.rows n d) := by
        rw [inHeap_keeps s1 hr, heapRows_eq s1 hd.X hd.y hd.w hd.off (no _) (no _) (no _) fun a _ => no a]
      simp only [Option.bind_some]
      refine Eq.trans ?_ (congrArg (fun x : Option ℝ => x.bind _) e3)
      rfl

theorem prepare_eq (C : FitCfg p ic) (stats : Stats) (R : Rows n) (l1 : ℝ) :
    prepare C stats R l1 = (setupP1 p 1 l1 C.P1a).bind fun P1 => (setupP2 p C.xsp 1 l1 C.P2a).bind fun P2 => (startGuess C R).bind fun guess =>
      some { means := (stats n R.X R.sw).1, stds := (stats n R.X R.sw).2, D := stdData C.thr C.asIfScaled (stats n R.X R.sw).1 (stats n R.X R.sw).2 (C.problem R P1 P2),
             A := C.A.map fun a r j => a r j * oneOverStd C.thr 1 ((stats n R.X R.sw).2 j),
             start := getStartCoef ic C.thr (stats n R.X R.sw).1 (stats n R.X R.sw).2 guess C.lb C.ub C.start } := rfl

/-- What must not share memory with the previous `coef_` when the next fit starts from it without a copy. -/
def StartApart (ic : Bool) (r : FitRefs) (d : DataRefs) : Prop :=
  ic = false → ∀ b v, r.start = .previous b v → r.ub ≠ some v.addr ∧ d.X ≠ v.addr ∧ d.y ≠ v.addr ∧ d.w ≠ v.addr ∧ d.off ≠ some v.addr

/-- `prepareH` leaves the memory as it was, but for the previous `coef_`. -/
theorem prepareH_keeps {C : FitCfg p ic} {stats : Stats} {h : Heap} {d : DataRefs} {r : FitRefs} {lc uc : Option ℕ} (hr : r.Valid h) (hd : d.Valid h)
    (hb : BoundsChecked h r lc uc) {l1 : ℝ} {h1 : Heap} {means stds : ℕ → ℝ} {s : StdRefs} {v : View} (e : prepareH n C stats h d r lc uc l1 = some (h1, means, stds, s, v)) :
    Keeps (StartCell ic r.start) h h1 ∧ s.Valid h1 ∧ v.addr < h1.nArr
      ∧ ((h.nArr ≤ v.addr) ∨ (ic = false ∧ ∃ b, r.start = .previous b v)) := by
  rw [prepareH_eq n C stats hr hd hb l1] at e
  cases h1p : setupP1 p 1 l1 (C.inHeap h r).P1a with
  | none => rw [h1p] at e; cases e
  | some P1 =>
    cases h2p : setupP2 p C.xsp 1 l1 (C.inHeap h r).P2a with
    | none => rw [h1p, h2p] at e; cases e
    | some P2 =>
      cases hg : startGuess (C.inHeap h r) (h.rows n d) with
      | none => rw [h1p, h2p, hg] at e; cases e
      | some guess =>
        rw [h1p, h2p, hg] at e
        simp only [Option.bind_some, Option.some.injEq, Prod.mk.injEq] at e
        obtain ⟨e1, e2, e3, e4, e5⟩ := e
        have spec := stdStage_spec n C stats hr hd hb P1 P2
        simp only [] at spec
        obtain ⟨s1, s2, -⟩ := spec
        obtain ⟨o, ho⟩ : ∃ o, o = stdStage n C stats h d r lc uc P1 P2 := ⟨_, rfl⟩
        rw [← ho] at s1 s2 e1 e2 e3 e4 e5
        have kst : Keeps (StartCell ic r.start) o.1.1 h1 := by
          rw [← e1]
          exact startH_keeps _ _ _ _ _ _ (Keeps.refl _) fun _ _ _ x => x
        refine ⟨(s1.mono fun _ _ _ x => x.elim).trans kst, ?_, ?_, ?_⟩
        · rw [← e4]
          exact s2.keeps kst
        · rcases startH_view (p := p) (ic := ic) C.thr o.2.1 o.2.2 guess o.1.1 r.lb r.ub r.start with ⟨a1, -, -, a4⟩ | ⟨hi, b, hb⟩
          · rw [← e5, ← e1, a1, a4]
            exact Nat.lt_succ_self _
          · rw [← e5]
            exact lt_of_lt_of_le (hr.previous _ _ hb) (s1.nArr.trans kst.nArr)
        · rcases startH_view (p := p) (ic := ic) C.thr o.2.1 o.2.2 guess o.1.1 r.lb r.ub r.start with ⟨a1, -⟩ | ⟨hi, b, hb⟩
          · left
            rw [← e5, a1]
            exact s1.nArr
          · right
            exact ⟨hi, b, by rw [← e5]; exact hb⟩

/-- `prepareH` computes what `prepare` computes. -/
theorem prepareH_spec (C : FitCfg p ic) (stats : Stats) {h : Heap} {d : DataRefs} {r : FitRefs} {lc uc : Option ℕ} (hr : r.Valid h) (hd : d.Valid h)
    (hb : BoundsChecked h r lc uc) (sep : StartApart ic r d) (l1 : ℝ) :
    prepare (C.inHeap h r) stats (h.rows n d) l1 = (prepareH n C stats h d r lc uc l1).map fun o =>
      { means := o.2.1, stds := o.2.2.1, D := o.1.problem n C o.2.1 o.2.2.1 o.2.2.2.1 o.2.2.2.1.P1 o.2.2.2.1.P2, A := o.2.2.2.1.A.map o.1.arr,
        start := o.1.coef p ic o.2.2.2.2 } := by
  rw [prepareH_eq n C stats hr hd hb l1, prepare_eq]
  have ex : (C.inHeap h r).xsp = C.xsp := rfl
  rw [ex]
  cases setupP1 p 1 l1 (C.inHeap h r).P1a with
  | none => rfl
  | some P1 =>
    cases setupP2 p C.xsp 1 l1 (C.inHeap h r).P2a with
    | none => rfl
    | some P2 =>
      cases hg : startGuess (C.inHeap h r) (h.rows n d) with
      | none => rfl
      | some guess =>
        simp only [Option.bind_some, Option.map_some]
        have spec := stdStage_spec n C stats hr hd hb P1 P2
        simp only [] at spec
        obtain ⟨o, ho⟩ : ∃ o, o = stdStage n C stats h d r lc uc P1 P2 := ⟨_, rfl⟩
        rw [← ho] at spec ⊢
        obtain ⟨s1, s2, s3, s4, f1, f2, fl, fu, fA, s5, s6⟩ := spec
        rw [← s4]
        have kst : Keeps (StartCell ic r.start) o.1.1 (startH p ic C.thr o.2.1 o.2.2 guess o.1.1 r.lb r.ub r.start).1 :=
          startH_keeps _ _ _ _ _ _ (Keeps.refl _) fun _ _ _ x => x
        obtain ⟨g, hgg⟩ : ∃ g, g = startH p ic C.thr o.2.1 o.2.2 guess o.1.1 r.lb r.ub r.start := ⟨_, rfl⟩
        -- arrays the fit has made are not the previous coef_
        have fresh : ∀ a, h.nArr ≤ a → ∀ i j, ¬ StartCell ic r.start a i j := by
          rintro a ha i j ⟨hi, b, v, hb, rfl, -⟩
          exact absurd (hr.previous _ _ hb) (not_lt.mpr ha)
        have dX : ∀ i j, ¬ StartCell ic r.start d.X i j := by
          rintro i j ⟨hi, b, v, hb, ha, -⟩
          exact (sep hi b v hb).2.1 ha
        have dy : ∀ i j, ¬ StartCell ic r.start d.y i j := by
          rintro i j ⟨hi, b, v, hb, ha, -⟩
          exact (sep hi b v hb).2.2.1 ha
        have dw : ∀ i j, ¬ StartCell ic r.start d.w i j := by
          rintro i j ⟨hi, b, v, hb, ha, -⟩
          exact (sep hi b v hb).2.2.2.1 ha
        have dof : ∀ a, d.off = some a → ∀ i j, ¬ StartCell ic r.start a i j := by
          rintro a hoff i j ⟨hi, b, v, hb, ha, -⟩
          exact (sep hi b v hb).2.2.2.2 (ha ▸ hoff)
        have prob : g.1.problem n C o.2.1 o.2.2 o.1.2 o.1.2.P1 o.1.2.P2 = o.1.1.problem n C o.2.1 o.2.2 o.1.2 o.1.2.P1 o.1.2.P2 := by
          rw [← hgg] at kst
          unfold Heap.problem
          rw [heapRows_eq kst s2.d.X s2.d.y s2.d.w s2.d.off (s3 ▸ dX) (s3 ▸ dy) (s3 ▸ dw) (s3 ▸ dof), kst.vec_eq s2.P1 (fresh _ f1),
            penRef_eq kst s2.P2 fun a ha => fresh a (f2 a ha), map_vec_eq kst s2.lb fun a ha => fresh a (fl a ha),
            map_vec_eq kst s2.ub fun a ha => fresh a (fu a ha)]
        have eA : o.1.2.A.map g.1.arr = o.1.2.A.map o.1.1.arr := by
          rw [← hgg] at kst
          exact map_arr_eq kst s2.A fun a ha => fresh a (fA a ha)
        have est : g.1.coef p ic g.2 = getStartCoef ic C.thr o.2.1 o.2.2 guess (C.inHeap h r).lb (C.inHeap h r).ub (C.inHeap h r).start := by
          have no : ∀ a r j, ¬ NoCell a r j := fun _ _ _ x => x
          have := startH_coef (p := p) (ic := ic) C.thr o.2.1 o.2.2 guess (h := o.1.1) (hr.lb.mono s1.nArr) (hr.ub.mono s1.nArr)
            (start := r.start) fun hi b v hb => (sep hi b v hb).1
          rw [hgg, this, map_vec_eq s1 hr.lb fun a _ => no a, map_vec_eq s1 hr.ub fun a _ => no a]
          have e := congrArg FitCfg.start (inHeap_keeps (C := C) s1 hr)
          exact congrArg _ e
        rw [← hgg]
        rw [prob, eA, est, s5, s6]
        rfl

end Glum
