import Verif.Props.Formula
import Verif.Props.Monotone
import Verif.Props.Fit
import Verif.Props.Predict
import Verif.Props.OneStepFit
import Verif.Model.MonoFit
/-
C112: what `monotonic_constraints` says about predictions.
-/
set_option linter.unusedSectionVars false
set_option linter.unusedVariables false
set_option linter.unusedSimpArgs false

namespace Glum
open Spec

/-! ### Specification -/

/-- The column is built with the factor `f`. -/
def Spec.mentions (f : Str) (fs : List Factor) : Prop := ∃ x ∈ fs, x.1 = f

/-- The other factors of a column. -/
def Spec.others (f : Str) (fs : List Factor) : List Factor := fs.filter fun x => !(x.1 == f)

/-- The level (or number of the basis function) of `f` in a column: `c[a]` has the level `a`, `x` has none. -/
def Spec.level (f : Str) (fs : List Factor) : Option Str := (fs.find? fun x => x.1 == f).elim none Prod.snd

/-- The value of a column for a data row in which the factors have the values `val`: their product. -/
def Spec.column (val : Factor → ℝ) (fs : List Factor) : ℝ := (fs.map val).prod

open Classical in
/-- The columns of `f` with the same other factors as column `i`. -/
noncomputable def Spec.peers {n : ℕ} (f : Str) (fss : Fin n → List Factor) (i : Fin n) : Finset (Fin n) :=
  Finset.univ.filter fun j => Spec.mentions f (fss j) ∧ Spec.others f (fss j) = Spec.others f (fss i)

open Classical in
/-- The sum of the values of `f` over the columns from `i` on, among the peers of `i` in the order of their levels. -/
noncomputable def Spec.upper {n : ℕ} (key : Option Str → EReal ×ₗ Str) (f : Str) (fss : Fin n → List Factor) (val : Factor → ℝ) (i : Fin n) : ℝ :=
  ∑ j ∈ (Spec.peers f fss i).filter (fun j => ¬ Spec.Before key (j, Spec.level f (fss j)) (i, Spec.level f (fss i))), val (f, Spec.level f (fss j))

/-- `y` follows `x` in the direction up to `t`. -/
def Spec.alongUpTo (t : ℝ) (d : String) (x y : ℝ) : Prop := if d = "decreasing" then y ≤ x + t else x - t ≤ y

/-- A change of the data that moves the factor `f` up: the other factors keep their values; in every combination of other factors the
weight of `f` moves from lower to higher levels (for every level, the sum over the levels from it on does not fall), and with several
levels the total stays what it is (one-hot columns; spline bases that sum to one). -/
structure Spec.MovesUp {n : ℕ} (key : Option Str → EReal ×ₗ Str) (f : Str) (fss : Fin n → List Factor) (u v : Factor → ℝ) : Prop where
  same : ∀ x, x.1 ≠ f → u x = v x
  up : ∀ i, Spec.mentions f (fss i) → Spec.upper key f fss u i ≤ Spec.upper key f fss v i
  total : ∀ i, Spec.mentions f (fss i) → (∃ j ∈ Spec.peers f fss i, j ≠ i) →
    ∑ j ∈ Spec.peers f fss i, u (f, Spec.level f (fss j)) = ∑ j ∈ Spec.peers f fss i, v (f, Spec.level f (fss j))

/-! ### Rows of a group -/

section Abel
variable {α : Type}

/-- Tail sums along a list: `∑ w δ ≥ w_first D_first - t ∑_{later} D`. -/
theorem abel_list (key : α → α → Prop) [DecidableRel key] (w δ : α → ℝ) (t : ℝ) (ht : 0 ≤ t) :
    ∀ (a : α) (l : List α), (a :: l).Pairwise key → (∀ x y, key x y → ¬ key y x) →
      (∀ q ∈ (a :: l).zip l, w q.1 - w q.2 ≤ t) →
      (∀ m ∈ l, 0 ≤ (((a :: l).filter fun x => !decide (key x m)).map δ).sum) →
      w a * ((a :: l).map δ).sum - t * (l.map fun m => (((a :: l).filter fun x => !decide (key x m)).map δ).sum).sum
        ≤ ((a :: l).map fun m => w m * δ m).sum
  | a, [], _, _, _, _ => by simp
  | a, b :: l, hp, has, hz, hD => by
    have hpa := List.pairwise_cons.1 hp
    have hpb := List.pairwise_cons.1 hpa.2
    have hdrop : ∀ m ∈ b :: l, (a :: b :: l).filter (fun x => !decide (key x m)) = (b :: l).filter (fun x => !decide (key x m)) := by
      intro m hm
      rw [List.filter_cons_of_neg (by simpa using hpa.1 m hm)]
    have hb : (b :: l).filter (fun x => !decide (key x b)) = b :: l := by
      rw [List.filter_eq_self]
      intro x hx
      rcases List.mem_cons.1 hx with rfl | hx
      · have : ¬ key x x := fun h => has _ _ h h
        simpa using this
      · have := has _ _ (hpb.1 x hx)
        simpa using this
    have ih := abel_list key w δ t ht b l hpa.2 has (fun q hq => hz q (by rw [List.zip_cons_cons]; exact List.mem_cons_of_mem _ hq))
      (fun m hm => by rw [← hdrop m (List.mem_cons_of_mem _ hm)]; exact hD m (List.mem_cons_of_mem _ hm))
    have h0 := hD b (by simp)
    rw [hdrop b (by simp), hb] at h0
    have hwb := hz (a, b) (by rw [List.zip_cons_cons]; simp)
    simp only at hwb
    have e1 : ((b :: l).map fun m => (((a :: b :: l).filter fun x => !decide (key x m)).map δ).sum)
        = ((b :: l).map fun m => (((b :: l).filter fun x => !decide (key x m)).map δ).sum) :=
      List.map_congr_left fun m hm => by rw [hdrop m hm]
    rw [e1, List.map_cons (l := l), hb, List.sum_cons (a := ((b :: l).map δ).sum)]
    rw [List.map_cons (f := fun m => w m * δ m) (l := b :: l), List.sum_cons (a := w a * δ a), List.map_cons (f := δ) (a := a), List.sum_cons (a := δ a)]
    obtain ⟨D, hDe⟩ : ∃ D, D = ((b :: l).map δ).sum := ⟨_, rfl⟩
    rw [← hDe] at h0 ih ⊢
    obtain ⟨S, hS⟩ : ∃ S, S = (l.map fun m => (((b :: l).filter fun x => !decide (key x m)).map δ).sum).sum := ⟨_, rfl⟩
    rw [← hS] at ih ⊢
    have : (w a - w b) * D ≤ t * D := mul_le_mul_of_nonneg_right hwb h0
    linarith

end Abel

theorem zip_tail_cons {α : Type} (a : α) (l : List α) : (a :: l).zip (a :: l).tail = (a :: l).zip l := rfl

open Classical in
/-- The rows of one group, satisfied up to `t`. -/
theorem groupRows_upTo {n : ℕ} (toFloat : Str → Option EReal) (sign : ℝ) (w : Fin n → ℝ) (t : ℝ) (ht : 0 ≤ t)
    (ms : List (Fin n × Option Str)) (hms : ms.Pairwise fun a b => a.1 < b.1)
    (hr : ∀ r ∈ groupRows toFloat sign ms, ∑ k, r k * w k ≤ t) (δ : Fin n × Option Str → ℝ)
    (hD : ∀ m ∈ ms, 0 ≤ ((ms.filter fun x => !decide (Spec.Before (sortKey toFloat) x m)).map δ).sum)
    (htot : ms.length ≠ 1 → (ms.map δ).sum = 0) :
    -(t * (ms.map fun m => ((ms.filter fun x => !decide (Spec.Before (sortKey toFloat) x m)).map δ).sum).sum)
      ≤ (ms.map fun m => sign * w m.1 * δ m).sum := by
  have hsort := sorted_before (sortKey toFloat) ms hms
  have hperm : (ms.mergeSort fun a b => decide (sortKey toFloat a.2 ≤ sortKey toFloat b.2)).Perm ms := List.mergeSort_perm _ _
  unfold groupRows at hr
  simp only [] at hr
  generalize ms.mergeSort (fun a b => decide (sortKey toFloat a.2 ≤ sortKey toFloat b.2)) = s at hsort hperm hr
  have hfil : ∀ m, ((ms.filter fun x => !decide (Spec.Before (sortKey toFloat) x m)).map δ).sum
      = ((s.filter fun x => !decide (Spec.Before (sortKey toFloat) x m)).map δ).sum :=
    fun m => (((hperm.filter _).map δ).sum_eq).symm
  simp only [hfil] at hD ⊢
  rw [← (hperm.map fun m => sign * w m.1 * δ m).sum_eq,
    ← (hperm.map fun m => ((s.filter fun x => !decide (Spec.Before (sortKey toFloat) x m)).map δ).sum).sum_eq]
  rw [← (hperm.map δ).sum_eq, ← hperm.length_eq] at htot
  have hD' : ∀ m ∈ s, 0 ≤ ((s.filter fun x => !decide (Spec.Before (sortKey toFloat) x m)).map δ).sum :=
    fun m hm => hD m (hperm.mem_iff.1 hm)
  have hne : s.Pairwise fun a b => a.1 ≠ b.1 := by
    have : ms.Pairwise fun a b => a.1 ≠ b.1 := hms.imp fun {a b} h => h.ne
    exact (hperm.pairwise_iff (fun {a b} h => h.symm)).2 this
  clear hfil hD hperm hms
  rcases s with _ | ⟨a, l⟩
  · simp
  have hself : (a :: l).filter (fun x => !decide (Spec.Before (sortKey toFloat) x a)) = a :: l := by
    rw [List.filter_eq_self]
    intro x hx
    rcases List.mem_cons.1 hx with rfl | hx
    · have : ¬ Spec.Before (sortKey toFloat) x x := fun h => h.asymm h
      simpa using this
    · have := ((List.pairwise_cons.1 hsort).1 x hx).asymm
      simpa using this
  rcases l with _ | ⟨b, l⟩
  · have h1 := hr _ (List.mem_singleton.2 rfl)
    have h2 := hD' a (by simp)
    rw [hself] at h2
    simp only [List.map_cons, List.map_nil, List.sum_cons, List.sum_nil, add_zero, hself] at h2 ⊢
    have h3 : -sign * w a.1 ≤ t := by simpa using h1
    nlinarith
  · have hz : ∀ q ∈ (a :: b :: l).zip (b :: l), (fun m : Fin n × Option Str => sign * w m.1) q.1 - (fun m : Fin n × Option Str => sign * w m.1) q.2 ≤ t := by
      intro q hq
      have hq1 : q.1.1 ≠ q.2.1 := by
        have hsub : ∀ (l : List (Fin n × Option Str)), l.Pairwise (fun a b => a.1 ≠ b.1) → ∀ q ∈ l.zip l.tail, q.1.1 ≠ q.2.1 := by
          intro l
          induction l with
          | nil => simp
          | cons x l ih =>
            intro hl q hq
            rcases l with _ | ⟨y, l⟩
            · simp at hq
            · rw [List.tail_cons, List.zip_cons_cons] at hq
              rcases List.mem_cons.1 hq with rfl | hq
              · exact (List.pairwise_cons.1 hl).1 y (by simp)
              · exact ih (List.pairwise_cons.1 hl).2 q hq
        exact hsub (a :: b :: l) hne q hq
      have := hr _ (List.mem_map.2 ⟨q, hq, rfl⟩)
      rw [row_pair hq1] at this
      exact this
    have := abel_list (Spec.Before (sortKey toFloat)) (fun m : Fin n × Option Str => sign * w m.1) δ t ht a (b :: l) hsort
      (fun x y h => h.asymm) hz (fun m hm => hD' m (List.mem_cons_of_mem _ hm))
    have h0 := htot (by simp)
    rw [h0, mul_zero, zero_sub] at this
    rw [List.map_cons (f := fun m => (((a :: b :: l).filter fun x => !decide (Spec.Before (sortKey toFloat) x m)).map δ).sum) (a := a), hself,
      List.sum_cons (a := ((a :: b :: l).map δ).sum), h0, zero_add]
    exact this

/-! ### From the columns to the groups -/

theorem member_iff {f : Str} {fs o : List Factor} {a : Option Str} (h1 : (fs.map Prod.fst).count f ≤ 1) :
    Spec.Member f fs o a ↔ Spec.mentions f fs ∧ Spec.others f fs = o ∧ Spec.level f fs = a := by
  constructor
  · rintro ⟨pre, post, rfl, hne, rfl⟩
    have hpre : ∀ x ∈ pre, x.1 ≠ f := fun y hy => hne y (List.mem_append_left _ hy)
    have hpost : ∀ x ∈ post, x.1 ≠ f := fun y hy => hne y (List.mem_append_right _ hy)
    refine ⟨⟨(f, a), by simp, rfl⟩, ?_, ?_⟩
    · unfold Spec.others
      rw [List.filter_append, List.filter_cons_of_neg (by simp), filter_ne_self hpre, filter_ne_self hpost]
    · unfold Spec.level
      have : pre.find? (fun x => x.1 == f) = none := by
        rw [List.find?_eq_none]; intro x hx; simpa using hpre x hx
      rw [List.find?_append, this]
      simp
  · rintro ⟨⟨x, hx, hxf⟩, rfl, rfl⟩
    obtain ⟨pre, post, rfl⟩ := List.append_of_mem hx
    have hcount : (pre.map Prod.fst).count f + (post.map Prod.fst).count f = 0 := by
      rw [List.map_append, List.map_cons, List.count_append, hxf, List.count_cons_self] at h1
      omega
    have hpre : ∀ x ∈ pre, x.1 ≠ f := by
      intro y hy e
      have : 0 < (pre.map Prod.fst).count f := List.count_pos_iff.2 (List.mem_map.2 ⟨y, hy, e⟩)
      omega
    have hpost : ∀ x ∈ post, x.1 ≠ f := by
      intro y hy e
      have : 0 < (post.map Prod.fst).count f := List.count_pos_iff.2 (List.mem_map.2 ⟨y, hy, e⟩)
      omega
    refine ⟨pre, post, ?_, fun y hy => ?_, ?_⟩
    · have : pre.find? (fun x => x.1 == f) = none := by
        rw [List.find?_eq_none]; intro x hx; simpa using hpre x hx
      unfold Spec.level
      rw [List.find?_append, this]
      obtain ⟨x1, x2⟩ := x
      simp only at hxf
      subst hxf
      simp
    · rcases List.mem_append.1 hy with hy | hy
      · exact hpre y hy
      · exact hpost y hy
    · unfold Spec.others
      rw [List.filter_append, List.filter_cons_of_neg (by simpa using hxf), filter_ne_self hpre, filter_ne_self hpost]

/-- The value of a column of `f`: the other factors times `f`. -/
theorem column_member {f : Str} {fs o : List Factor} {a : Option Str} (h : Spec.Member f fs o a) (val : Factor → ℝ) :
    Spec.column val fs = Spec.column val o * val (f, a) := by
  obtain ⟨pre, post, rfl, -, rfl⟩ := h
  unfold Spec.column
  simp only [List.map_append, List.map_cons, List.prod_append, List.prod_cons]
  ring

theorem column_others (f : Str) (fs : List Factor) (u v : Factor → ℝ) (h : ∀ x, x.1 ≠ f → u x = v x) :
    Spec.column u (Spec.others f fs) = Spec.column v (Spec.others f fs) := by
  unfold Spec.column
  congr 1
  apply List.map_congr_left
  intro x hx
  apply h
  unfold Spec.others at hx
  simpa using (List.mem_filter.1 hx).2

theorem sum_filterMap {α β : Type} (g : α → Option β) (F : β → ℝ) : ∀ l : List α,
    ((l.filterMap g).map F).sum = (l.map fun x => (g x).elim 0 F).sum
  | [] => rfl
  | a :: l => by
    rw [List.map_cons, List.sum_cons, ← sum_filterMap g F l]
    cases h : g a with
    | none => rw [List.filterMap_cons_none h]; simp
    | some b => rw [List.filterMap_cons_some h]; simp

open Classical in
/-- A sum over the members of a group. -/
theorem sum_membersOf {n : ℕ} {fss : Fin n → List Factor} {f : Str} (h1 : ∀ i, ((fss i).map Prod.fst).count f ≤ 1) (o : List Factor)
    (F : Fin n × Option Str → ℝ) :
    ((membersOf (fun i => classify f (fss i)) o (List.finRange n)).map F).sum
      = ∑ i ∈ Finset.univ.filter (fun i => Spec.mentions f (fss i) ∧ Spec.others f (fss i) = o), F (i, Spec.level f (fss i)) := by
  unfold membersOf
  rw [sum_filterMap, ← Fin.sum_univ_def, Finset.sum_filter]
  apply Finset.sum_congr rfl
  intro i _
  by_cases hm : Spec.mentions f (fss i) ∧ Spec.others f (fss i) = o
  · rw [if_pos hm]
    have := classify_member.2 ((member_iff (h1 i)).2 ⟨hm.1, hm.2, rfl⟩)
    simp only [this]
    simp
  · rw [if_neg hm]
    simp only []
    cases hc : classify f (fss i) with
    | none => rfl
    | some q =>
      cases q with
      | none => rfl
      | some q =>
        obtain ⟨o', a⟩ := q
        have := (member_iff (h1 i)).1 (classify_member.1 hc)
        have hne : o' ≠ o := by
          rintro rfl
          exact hm ⟨this.1, this.2.1⟩
        simp only [Option.bind_some, if_neg hne]
        rfl

theorem rows_of_build {n : ℕ} {isSpace : Char → Bool} (hbr : isSpace ']' = false) {toFloat : Str → Option EReal} {s0 : Char} {sep' : Str}
    {fss : Fin n → List Factor} (hne : ∀ i, fss i ≠ []) (hok : ∀ i, ∀ f ∈ fss i, Spec.FactorOk isSpace s0 f)
    {monotonic : List (Str × String)} {rows : List (Fin n → ℝ)}
    (h : buildMonotonic isSpace toFloat (s0 :: sep') (fun i => Spec.renderColumn (s0 :: sep') (fss i)) monotonic = some rows)
    (fd : Str × String) (hfd : fd ∈ monotonic) :
    ∃ sign, dirSign fd.2 = some sign ∧
      ∀ o, ∀ r ∈ groupRows toFloat sign (membersOf (fun i => classify fd.1 (fss i)) o (List.finRange n)), r ∈ rows := by
  have hp : ∀ i, parseColumn isSpace (s0 :: sep') (Spec.renderColumn (s0 :: sep') (fss i)) = some (fss i) :=
    fun i => c58_parse_render (hne i) (hok i) hbr
  unfold buildMonotonic at h
  rw [Option.bind_eq_bind, Option.bind_eq_some_iff] at h
  obtain ⟨blocks, hb, h⟩ := h
  split at h
  · exact absurd h (by simp)
  simp only [Option.some.injEq] at h
  subst h
  clear * - hb hp hfd
  induction monotonic generalizing blocks with
  | nil => simp at hfd
  | cons fd' ms ih =>
    rw [List.mapM_cons, Option.bind_eq_bind, Option.bind_eq_some_iff] at hb
    obtain ⟨block, hblock, hb⟩ := hb
    rw [Option.bind_eq_bind, Option.bind_eq_some_iff] at hb
    obtain ⟨bs, hbs, hb⟩ := hb
    simp only [Option.pure_def, Option.some.injEq] at hb
    subst hb
    rcases List.mem_cons.1 hfd with rfl | hfd
    · rw [Option.bind_eq_bind, Option.bind_eq_some_iff] at hblock
      obtain ⟨sign, hsign, hblock⟩ := hblock
      rw [Option.bind_eq_bind, Option.bind_eq_some_iff] at hblock
      obtain ⟨groups, hg, hblock⟩ := hblock
      split at hblock
      · exact absurd hblock (by simp)
      simp only [Option.some.injEq] at hblock
      subst hblock
      rw [groupColumns_eq hp] at hg
      split at hg
      · exact absurd hg (by simp)
      simp only [Option.some.injEq] at hg
      subst hg
      refine ⟨sign, hsign, fun others r hr => ?_⟩
      rw [List.flatten_cons]
      apply List.mem_append_left
      by_cases hemp : membersOf (fun i => classify fd.1 (fss i)) others (List.finRange n) = []
      · rw [hemp] at hr
        simp [groupRows] at hr
      · exact List.mem_flatMap.2 ⟨(others, _), (mem_groupsOf _ _ _ _).2 ⟨rfl, hemp⟩, hr⟩
    · obtain ⟨sign, hs, hr⟩ := ih hfd bs hbs
      exact ⟨sign, hs, fun o r hro => by rw [List.flatten_cons]; exact List.mem_append_right _ (hr o r hro)⟩

theorem alongUpTo_iff {d : String} {sign : ℝ} (h : dirSign d = some sign) (t x y : ℝ) :
    Spec.alongUpTo t d x y ↔ -t ≤ sign * (y - x) := by
  unfold dirSign at h
  unfold Spec.alongUpTo
  split at h
  · rename_i hd
    simp only [Option.some.injEq] at h
    subst h hd
    rw [if_neg (by decide)]
    constructor <;> intro h <;> linarith
  · split at h
    · rename_i hd
      simp only [Option.some.injEq] at h
      subst h hd
      rw [if_pos rfl]
      constructor <;> intro h <;> linarith
    · exact absurd h (by simp)

theorem sum_filter_list {α : Type} (q : α → Bool) (F : α → ℝ) : ∀ l : List α,
    ((l.filter q).map F).sum = (l.map fun x => if q x = true then F x else 0).sum
  | [] => rfl
  | a :: l => by
    rw [List.map_cons, List.sum_cons, ← sum_filter_list q F l]
    by_cases h : q a = true
    · rw [List.filter_cons_of_pos h, if_pos h]; simp
    · rw [List.filter_cons_of_neg h, if_neg h]; simp

open Classical in
/-- **C112, the constraints and the effect of a variable.** Let column `i` of the design matrix be the product of the factors `fss i`, with
the name made from them, let coefficients `w` satisfy the rows built from `monotonic_constraints` up to `t`, and let `u`, `v` be two data
rows that differ only by moving the constrained factor up.  If the factors it interacts with are not negative, the linear predictor of
`v` follows that of `u` in the requested direction, up to `t` times the distance moved. -/
theorem c112_effect_partial {n : ℕ} {isSpace : Char → Bool} (hbr : isSpace ']' = false) {toFloat : Str → Option EReal} {s0 : Char} {sep' : Str}
    {fss : Fin n → List Factor} (hne : ∀ i, fss i ≠ []) (hok : ∀ i, ∀ f ∈ fss i, Spec.FactorOk isSpace s0 f)
    {monotonic : List (Str × String)} {rows : List (Fin n → ℝ)}
    (h : buildMonotonic isSpace toFloat (s0 :: sep') (fun i => Spec.renderColumn (s0 :: sep') (fss i)) monotonic = some rows)
    (w : Fin n → ℝ) (t : ℝ) (ht : 0 ≤ t) (hw : ∀ r ∈ rows, ∑ k, r k * w k ≤ t) (fd : Str × String) (hfd : fd ∈ monotonic)
    (u v : Factor → ℝ) (hm : Spec.MovesUp (sortKey toFloat) fd.1 fss u v)
    (hpos : ∀ i, Spec.mentions fd.1 (fss i) → 0 ≤ Spec.column u (Spec.others fd.1 (fss i))) :
    Spec.alongUpTo (t * ∑ i ∈ Finset.univ.filter (fun i => Spec.mentions fd.1 (fss i)), Spec.column u (Spec.others fd.1 (fss i)) *
        (Spec.upper (sortKey toFloat) fd.1 fss v i - Spec.upper (sortKey toFloat) fd.1 fss u i)) fd.2
      (∑ k, Spec.column u (fss k) * w k) (∑ k, Spec.column v (fss k) * w k) := by
  obtain ⟨sign, hsign, hrows⟩ := rows_of_build hbr hne hok h fd hfd
  have hcnt : ∀ i, ((fss i).map Prod.fst).count fd.1 ≤ 1 :=
    (((c58_raises hbr hne hok monotonic).1 (by rw [h]; simp)).2 fd hfd).2.2
  rw [alongUpTo_iff hsign]
  set f := fd.1 with hf
  set key := sortKey toFloat with hkey
  let oth : Fin n → List Factor := fun i => Spec.others f (fss i)
  let lev : Fin n → Option Str := fun i => Spec.level f (fss i)
  let P : List Factor → ℝ := fun o => Spec.column u o
  let δ : Fin n × Option Str → ℝ := fun m => v (f, m.2) - u (f, m.2)
  have hcol : ∀ k, Spec.column v (fss k) * w k - Spec.column u (fss k) * w k
      = if Spec.mentions f (fss k) then P (oth k) * (w k * δ (k, lev k)) else 0 := by
    intro k
    by_cases hk : Spec.mentions f (fss k)
    · rw [if_pos hk]
      have hmem := (member_iff (hcnt k)).2 ⟨hk, rfl, rfl⟩
      rw [column_member hmem, column_member hmem, ← column_others f (fss k) u v hm.same]
      simp only [P, oth, δ, lev]
      ring
    · rw [if_neg hk]
      have : Spec.column v (fss k) = Spec.column u (fss k) := by
        unfold Spec.column
        congr 1
        apply List.map_congr_left
        intro x hx
        exact (hm.same x fun e => hk ⟨x, hx, e⟩).symm
      rw [this, sub_self]
  rw [← Finset.sum_sub_distrib, Finset.sum_congr rfl fun k _ => hcol k, ← Finset.sum_filter]
  set S : Finset (Fin n) := Finset.univ.filter (fun i => Spec.mentions f (fss i)) with hS
  -- group by group
  have hgroup : ∀ i, Spec.mentions f (fss i) → Spec.upper key f fss v i - Spec.upper key f fss u i
      = (((membersOf (fun i => classify f (fss i)) (oth i) (List.finRange n)).filter fun x => !decide (Spec.Before key x (i, lev i))).map δ).sum := by
    intro i hi
    unfold Spec.upper Spec.peers
    rw [← Finset.sum_sub_distrib, sum_filter_list, sum_membersOf hcnt, Finset.sum_filter]
    apply Finset.sum_congr rfl
    intro j _
    by_cases hb : Spec.Before key (j, Spec.level f (fss j)) (i, Spec.level f (fss i))
    · rw [if_neg (not_not.2 hb), if_neg]
      simpa [lev] using hb
    · rw [if_pos hb, if_pos]
      simpa [lev] using hb
  have hfib : ∀ F : Fin n → ℝ, ∑ i ∈ S, F i = ∑ o ∈ S.image oth, ∑ i ∈ Finset.univ.filter (fun i => Spec.mentions f (fss i) ∧ Spec.others f (fss i) = o), F i := by
    intro F
    rw [← Finset.sum_fiberwise_of_maps_to (g := oth) (t := S.image oth) (fun i hi => Finset.mem_image_of_mem _ hi)]
    apply Finset.sum_congr rfl
    intro o _
    rw [hS, Finset.filter_filter]
  rw [Finset.mul_sum, hfib, hfib, ← Finset.sum_neg_distrib, Finset.mul_sum]
  apply Finset.sum_le_sum
  intro o ho
  obtain ⟨i0, hi0, rfl⟩ := Finset.mem_image.1 ho
  have hi0' : Spec.mentions f (fss i0) := (Finset.mem_filter.1 hi0).2
  have hP : 0 ≤ P (oth i0) := hpos i0 hi0'
  set ms := membersOf (fun i => classify f (fss i)) (oth i0) (List.finRange n) with hms
  have hmem : ∀ m : Fin n × Option Str, m ∈ ms → Spec.mentions f (fss m.1) ∧ oth m.1 = oth i0 ∧ lev m.1 = m.2 :=
    fun m hm' => (member_iff (hcnt m.1)).1 (mem_membersOf.1 hm')
  have key1 := groupRows_upTo toFloat sign w t ht ms (membersOf_pairwise _ _) (fun r hr => hw r (hrows _ r hr)) δ (by
      intro m hm'
      obtain ⟨h1, h2, h3⟩ := hmem m hm'
      have := hgroup m.1 h1
      rw [h2, h3] at this
      rw [← hms] at this
      change 0 ≤ ((ms.filter fun x => !decide (Spec.Before key x m)).map δ).sum
      rw [← this]
      exact sub_nonneg.2 (hm.up m.1 h1)) (by
      intro hlen
      rw [hms, sum_membersOf hcnt]
      simp only [δ]
      rw [Finset.sum_sub_distrib, sub_eq_zero]
      refine (hm.total i0 hi0' ?_).symm
      by_contra hno
      push Not at hno
      apply hlen
      have hpw := membersOf_pairwise (fun i => classify f (fss i)) (oth i0)
      rw [← hms] at hpw
      have hin : (i0, lev i0) ∈ ms := mem_membersOf.2 ((member_iff (hcnt i0)).2 ⟨hi0', rfl, rfl⟩)
      have hall : ∀ m ∈ ms, m.1 = i0 := by
        intro m hm'
        obtain ⟨h1, h2, -⟩ := hmem m hm'
        exact hno m.1 (Finset.mem_filter.2 ⟨Finset.mem_univ _, h1, h2⟩)
      clear_value ms
      rcases ms with _ | ⟨x, _ | ⟨y, l⟩⟩
      · simp at hin
      · rfl
      · exfalso
        have h1 := (List.pairwise_cons.1 hpw).1 y (by simp)
        rw [hall x (by simp), hall y (by simp)] at h1
        exact lt_irrefl _ h1)
  have e1 : (ms.map fun m => sign * w m.1 * δ m).sum
      = ∑ i ∈ Finset.univ.filter (fun i => Spec.mentions f (fss i) ∧ Spec.others f (fss i) = oth i0), sign * w i * δ (i, lev i) := by
    rw [hms, sum_membersOf hcnt]
  have e2 : (ms.map fun m => ((ms.filter fun x => !decide (Spec.Before (sortKey toFloat) x m)).map δ).sum).sum
      = ∑ i ∈ Finset.univ.filter (fun i => Spec.mentions f (fss i) ∧ Spec.others f (fss i) = oth i0),
          (Spec.upper key f fss v i - Spec.upper key f fss u i) := by
    rw [hms, sum_membersOf hcnt]
    apply Finset.sum_congr rfl
    intro i hi
    obtain ⟨h1, h2⟩ := (Finset.mem_filter.1 hi).2
    rw [hgroup i h1]
    change _ = (((membersOf (fun i => classify f (fss i)) (Spec.others f (fss i)) (List.finRange n)).filter _).map δ).sum
    rw [h2]
  rw [e1, e2] at key1
  have key2 := mul_le_mul_of_nonneg_left key1 hP
  have e3 : ∀ i ∈ Finset.univ.filter (fun i => Spec.mentions f (fss i) ∧ Spec.others f (fss i) = oth i0),
      t * (P (oth i) * (Spec.upper key f fss v i - Spec.upper key f fss u i))
        = P (oth i0) * t * (Spec.upper key f fss v i - Spec.upper key f fss u i) := by
    intro i hi
    obtain ⟨h1, h2⟩ := (Finset.mem_filter.1 hi).2
    change t * (P (Spec.others f (fss i)) * _) = _
    rw [h2]; ring
  have e4 : ∀ i ∈ Finset.univ.filter (fun i => Spec.mentions f (fss i) ∧ Spec.others f (fss i) = oth i0),
      sign * (P (oth i) * (w i * δ (i, lev i))) = P (oth i0) * (sign * w i * δ (i, lev i)) := by
    intro i hi
    obtain ⟨h1, h2⟩ := (Finset.mem_filter.1 hi).2
    change sign * (P (Spec.others f (fss i)) * _) = _
    rw [h2]; ring
  rw [Finset.mul_sum, Finset.sum_congr rfl e4, Finset.sum_congr rfl e3, ← Finset.mul_sum (a := P (oth i0) * t)]
  rw [Finset.mul_sum (a := P (oth i0)) (f := fun i => sign * w i * δ (i, lev i))] at key2
  refine le_trans (le_of_eq ?_) key2
  ring

/-! ### Numbers and levels -/

open Classical in
/-- A single numeric column per combination of other factors: raising the number moves the factor up. -/
theorem movesUp_numeric {n : ℕ} (key : Option Str → EReal ×ₗ Str) (f : Str) (fss : Fin n → List Factor) (u v : Factor → ℝ)
    (hone : ∀ i, Spec.mentions f (fss i) → Spec.level f (fss i) = none ∧ Spec.peers f fss i = {i})
    (same : ∀ x, x.1 ≠ f → u x = v x) (hle : u (f, none) ≤ v (f, none)) :
    Spec.MovesUp key f fss u v ∧ ∀ i, Spec.mentions f (fss i) → ∀ val : Factor → ℝ, Spec.upper key f fss val i = val (f, none) := by
  have hup : ∀ i, Spec.mentions f (fss i) → ∀ val : Factor → ℝ, Spec.upper key f fss val i = val (f, none) := by
    intro i hi val
    obtain ⟨h1, h2⟩ := hone i hi
    unfold Spec.upper
    rw [h2, Finset.filter_singleton, if_pos (fun h => h.asymm h), Finset.sum_singleton, h1]
  refine ⟨⟨same, ?_, ?_⟩, hup⟩
  · intro i hi
    rw [hup i hi, hup i hi]
    exact hle
  · rintro i hi ⟨j, hj, hne⟩
    rw [(hone i hi).2, Finset.mem_singleton] at hj
    exact absurd hj hne

open Classical in
/-- One-hot columns with a column for both levels in every combination of other factors: replacing a level by a later one moves the
factor up. -/
theorem movesUp_levels {n : ℕ} (key : Option Str → EReal ×ₗ Str) (f : Str) (fss : Fin n → List Factor) (u v : Factor → ℝ) (a b : Str)
    (hab : key (some a) < key (some b)) (same : ∀ x, x.1 ≠ f → u x = v x)
    (hu : ∀ i, Spec.mentions f (fss i) → u (f, Spec.level f (fss i)) = if Spec.level f (fss i) = some a then 1 else 0)
    (hv : ∀ i, Spec.mentions f (fss i) → v (f, Spec.level f (fss i)) = if Spec.level f (fss i) = some b then 1 else 0)
    (ha : ∀ i, Spec.mentions f (fss i) → ∃! j, j ∈ Spec.peers f fss i ∧ Spec.level f (fss j) = some a)
    (hb : ∀ i, Spec.mentions f (fss i) → ∃! j, j ∈ Spec.peers f fss i ∧ Spec.level f (fss j) = some b) :
    Spec.MovesUp key f fss u v ∧
      ∀ i, Spec.mentions f (fss i) → Spec.upper key f fss v i - Spec.upper key f fss u i ≤ 1 := by
  have hpe : ∀ i j, j ∈ Spec.peers f fss i → Spec.mentions f (fss j) := fun i j hj => (Finset.mem_filter.1 hj).2.1
  -- a sum of indicators with one hit
  have hsum : ∀ (i : Fin n) (T : Finset (Fin n)) (val : Factor → ℝ) (c : Str) (hT : T ⊆ Spec.peers f fss i)
      (hval : ∀ i, Spec.mentions f (fss i) → val (f, Spec.level f (fss i)) = if Spec.level f (fss i) = some c then 1 else 0) (j : Fin n)
      (hj : j ∈ Spec.peers f fss i ∧ Spec.level f (fss j) = some c)
      (huniq : ∀ y, y ∈ Spec.peers f fss i ∧ Spec.level f (fss y) = some c → y = j),
      ∑ k ∈ T, val (f, Spec.level f (fss k)) = if j ∈ T then 1 else 0 := by
    intro i T val c hT hval j hj huniq
    have : ∀ k ∈ T, val (f, Spec.level f (fss k)) = if k = j then 1 else 0 := by
      intro k hk
      rw [hval k (hpe i k (hT hk))]
      by_cases h : k = j
      · rw [if_pos h, if_pos (by rw [h]; exact hj.2)]
      · rw [if_neg h, if_neg fun e => h (huniq k ⟨hT hk, e⟩)]
    rw [Finset.sum_congr rfl this, Finset.sum_ite_eq']
  have hdiff : ∀ i, Spec.mentions f (fss i) → Spec.upper key f fss u i ≤ Spec.upper key f fss v i ∧
      Spec.upper key f fss v i - Spec.upper key f fss u i ≤ 1 := by
    intro i hi
    obtain ⟨ja, hja, hau⟩ := ha i hi
    obtain ⟨jb, hjb, hbu⟩ := hb i hi
    unfold Spec.upper
    rw [hsum i _ u a (Finset.filter_subset _ _) hu ja hja hau, hsum i _ v b (Finset.filter_subset _ _) hv jb hjb hbu]
    by_cases h1 : ja ∈ (Spec.peers f fss i).filter (fun j => ¬ Spec.Before key (j, Spec.level f (fss j)) (i, Spec.level f (fss i)))
    · have h2 : jb ∈ (Spec.peers f fss i).filter (fun j => ¬ Spec.Before key (j, Spec.level f (fss j)) (i, Spec.level f (fss i))) := by
        rw [Finset.mem_filter] at h1 ⊢
        refine ⟨hjb.1, fun hbef => h1.2 (Or.inl ?_)⟩
        rw [hja.2]
        have : key (some b) ≤ key (Spec.level f (fss i)) := by
          rcases hbef with h | ⟨h, -⟩
          · rw [hjb.2] at h; exact h.le
          · rw [hjb.2] at h; exact h.le
        exact lt_of_lt_of_le hab this
      rw [if_pos h1, if_pos h2]
      norm_num
    · rw [if_neg h1]
      split <;> norm_num
  refine ⟨⟨same, fun i hi => (hdiff i hi).1, ?_⟩, fun i hi => (hdiff i hi).2⟩
  rintro i hi -
  obtain ⟨ja, hja, hau⟩ := ha i hi
  obtain ⟨jb, hjb, hbu⟩ := hb i hi
  rw [hsum i _ u a subset_rfl hu ja hja hau, hsum i _ v b subset_rfl hv jb hjb hbu, if_pos hja.1, if_pos hjb.1]

theorem alongUpTo_mono {t t' : ℝ} (h : t ≤ t') {d : String} {x y : ℝ} (ha : Spec.alongUpTo t d x y) : Spec.alongUpTo t' d x y := by
  unfold Spec.alongUpTo at ha ⊢
  split
  · rename_i hd; rw [if_pos hd] at ha; linarith
  · rename_i hd; rw [if_neg hd] at ha; linarith

open Classical in
/-- **C112, categories.** If all levels have their column (in every combination of other factors, which are not negative), replacing a level of a
constrained category by a later one moves the linear predictor in the requested direction, up to `t` times the sum of the other factors
over the columns of the category. -/
theorem c112_levels_partial {n : ℕ} {isSpace : Char → Bool} (hbr : isSpace ']' = false) {toFloat : Str → Option EReal} {s0 : Char} {sep' : Str}
    {fss : Fin n → List Factor} (hne : ∀ i, fss i ≠ []) (hok : ∀ i, ∀ f ∈ fss i, Spec.FactorOk isSpace s0 f)
    {monotonic : List (Str × String)} {rows : List (Fin n → ℝ)}
    (h : buildMonotonic isSpace toFloat (s0 :: sep') (fun i => Spec.renderColumn (s0 :: sep') (fss i)) monotonic = some rows)
    (w : Fin n → ℝ) (t : ℝ) (ht : 0 ≤ t) (hw : ∀ r ∈ rows, ∑ k, r k * w k ≤ t) (fd : Str × String) (hfd : fd ∈ monotonic)
    (u v : Factor → ℝ) (a b : Str) (hab : sortKey toFloat (some a) < sortKey toFloat (some b)) (same : ∀ x, x.1 ≠ fd.1 → u x = v x)
    (hu : ∀ s, u (fd.1, s) = if s = some a then 1 else 0) (hv : ∀ s, v (fd.1, s) = if s = some b then 1 else 0)
    (ha : ∀ i, Spec.mentions fd.1 (fss i) → ∃! j, j ∈ Spec.peers fd.1 fss i ∧ Spec.level fd.1 (fss j) = some a)
    (hb : ∀ i, Spec.mentions fd.1 (fss i) → ∃! j, j ∈ Spec.peers fd.1 fss i ∧ Spec.level fd.1 (fss j) = some b)
    (hpos : ∀ i, Spec.mentions fd.1 (fss i) → 0 ≤ Spec.column u (Spec.others fd.1 (fss i))) :
    Spec.alongUpTo (t * ∑ i ∈ Finset.univ.filter (fun i => Spec.mentions fd.1 (fss i)), Spec.column u (Spec.others fd.1 (fss i))) fd.2
      (∑ k, Spec.column u (fss k) * w k) (∑ k, Spec.column v (fss k) * w k) := by
  obtain ⟨hm, hone⟩ := movesUp_levels (sortKey toFloat) fd.1 fss u v a b hab same (fun i _ => hu _) (fun i _ => hv _) ha hb
  refine alongUpTo_mono ?_ (c112_effect_partial hbr hne hok h w t ht hw fd hfd u v hm hpos)
  apply mul_le_mul_of_nonneg_left _ ht
  apply Finset.sum_le_sum
  intro i hi
  have hi' := (Finset.mem_filter.1 hi).2
  exact mul_le_of_le_one_right (hpos i hi') (hone i hi')

/-! ### Fits -/

variable {n p : ℕ} {ic : Bool}

/-- A call that leaves no mark in the log returned a point that satisfies the rows up to `1e-6`. -/
theorem monoSolver_clean {m : ℕ} (inner : (k : ℕ) → Inner k p ic) (b : Fin m → ℝ) (D : IRLSData n p ic) (A : ℕ → ℕ → ℝ) (s s' : MonoLog)
    (c0 c : Fin (p + ic.toNat) → ℝ) (h : monoSolver inner b n D (some A) s c0 = (s', c)) (hw : s'.warned = false) (hr : s'.raised = false) :
    s.warned = false ∧ s.raised = false ∧ ∀ r : Fin m, ∑ j : Fin p, A r j * feat ic c j ≤ 1 / 10 ^ 6 := by
  unfold monoSolver at h
  split at h
  · rename_i res hres
    rw [Prod.mk.injEq] at h
    obtain ⟨rfl, rfl⟩ := h
    simp only [Bool.or_eq_false_iff] at hw
    refine ⟨hw.1.1, hr, fun r => ?_⟩
    have := (c59_no_warning_feasible _ _ _ _ _ res hres).2.1 hw.1.2 r
    unfold lhs at this
    refine le_trans (le_of_eq (Finset.sum_congr rfl fun j _ => ?_)) this
    rw [feat_eq]
    rfl
  · rw [Prod.mk.injEq] at h
    obtain ⟨rfl, rfl⟩ := h
    simp at hr

theorem monoSolver_ok {m : ℕ} (inner : (k : ℕ) → Inner k p ic) (b : Fin m → ℝ) (D : IRLSData n p ic) (A : ℕ → ℕ → ℝ) (s : MonoLog)
    (c0 : Fin (p + ic.toNat) → ℝ) (res : MonoResult n p ic) (h : monoSolve (inner n) D (fun r : Fin m => A r) b c0 = .ok res) :
    monoSolver inner b n D (some A) s c0 = (⟨s.warned || res.warnNotConverged || res.warnViolation, s.raised⟩, res.fin.st.coef) := by
  unfold monoSolver
  simp only [Option.getD_some]
  rw [h]

/-- **C112, every point of the path satisfies the constraints.** If `fit` with the monotone solver ends without a warning or an exception, the
reported coefficients for every `alpha` (on the user's scale, with or without standardisation) satisfy every row up to `1e-6`. -/
theorem c112_feasible (inner : (k : ℕ) → Inner k p ic) (rows : List (Fin p → ℝ)) (C : FitCfg p ic) (A : ℕ → ℕ → ℝ)
    (hA : C.A = some A) (hAr : ∀ q (hq : q < rows.length) (k : Fin p), A q k = rows[q] k)
    (stats : Stats) (R : Rows n) (l1r : ℝ) (a : AlphaSpec) (s s' : MonoLog) (r : PathResult)
    (h : glmFit C stats (monoSolver inner (fun _ : Fin rows.length => 0)) R l1r a s = some (s', r)) (hw : s'.warned = false) (hr : s'.raised = false) :
    (∀ w ∈ r.coefPath, ∀ row ∈ rows, ∑ k, row k * w k ≤ 1 / 10 ^ 6) ∧ ∀ row ∈ rows, ∑ k, row k * r.coef k ≤ 1 / 10 ^ 6 := by
  obtain ⟨Q, hQ, hal, hs', hst, -⟩ := glmFit_spec C stats _ R l1r a s s' r h
  obtain ⟨P1, P2, h1, h2, hm, hsd, hDq, hQA⟩ := prepare_spec C stats R l1r Q hQ
  rw [hA] at hQA
  simp only [Option.map_some] at hQA
  obtain ⟨hlen, states, h0, hN, hstep⟩ := c41_path (Q.solveFn (monoSolver inner (fun _ : Fin rows.length => 0))) Q.D.P1 Q.D.P2 r.alphas s Q.start
  change (Q.path (monoSolver inner (fun _ : Fin rows.length => 0)) r.alphas s).2.length = _ at hlen
  change states r.alphas.length = (Q.path (monoSolver inner (fun _ : Fin rows.length => 0)) r.alphas s).1 at hN
  change ∀ i (hi : i < r.alphas.length) (hi' : i < (Q.path (monoSolver inner (fun _ : Fin rows.length => 0)) r.alphas s).2.length),
    monoSolver inner (fun _ : Fin rows.length => 0) n _ Q.A _ _ = (states (i + 1), (Q.path (monoSolver inner (fun _ : Fin rows.length => 0)) r.alphas s).2[i]) at hstep
  rw [← hs'] at hN
  rw [hQA] at hstep
  have hclean : ∀ k, k ≤ r.alphas.length → (states (r.alphas.length - k)).warned = false ∧ (states (r.alphas.length - k)).raised = false := by
    intro k
    induction k with
    | zero => intro _; rw [Nat.sub_zero, hN]; exact ⟨hw, hr⟩
    | succ k ih =>
      intro hk
      obtain ⟨i1, i2⟩ := ih (by omega)
      have hi : r.alphas.length - (k + 1) < r.alphas.length := by omega
      have hc := hstep _ hi (by rw [hlen]; exact hi)
      have he : r.alphas.length - (k + 1) + 1 = r.alphas.length - k := by omega
      rw [he] at hc
      have := monoSolver_clean inner _ _ _ _ _ _ _ hc i1 i2
      exact ⟨this.1, this.2.1⟩
  have hpath : ∀ w ∈ r.coefPath, ∀ row ∈ rows, ∑ k, row k * w k ≤ 1 / 10 ^ 6 := by
    intro w hwm row hrow
    obtain ⟨i, hi, rfl⟩ := List.getElem_of_mem hwm
    obtain ⟨q, hq, rfl⟩ := List.getElem_of_mem hrow
    have hst' := c41_stored C.thr Q.means Q.stds r.alphas _ r hst
    have hi2 : i < (Q.path (monoSolver inner (fun _ : Fin rows.length => 0)) r.alphas s).2.length := by rw [← hst'.2.1]; exact hi
    have hi1 : i < r.alphas.length := by rw [← hlen]; exact hi2
    have hc := hstep i hi1 hi2
    have hcl := hclean (r.alphas.length - (i + 1)) (by omega)
    have he : r.alphas.length - (r.alphas.length - (i + 1)) = i + 1 := by omega
    rw [he] at hcl
    have := (monoSolver_clean inner _ _ _ _ _ _ _ hc hcl.1 hcl.2).2.2 ⟨q, hq⟩
    have hrow := (storePath_rows C.thr Q.means Q.stds r.alphas _ r hst i hi2).1
    rw [List.getElem?_eq_getElem hi, Option.some.injEq] at hrow
    rw [hrow]
    refine le_trans (le_of_eq (Finset.sum_congr rfl fun j _ => ?_)) this
    rw [report_feat, hAr q hq]
    ring
  refine ⟨hpath, ?_⟩
  have hlast := (c41_stored C.thr Q.means Q.stds r.alphas _ r hst).2.2.2.1
  exact hpath _ (List.mem_of_getLast? hlast)

/-- The links that increase. -/
def Spec.IncreasingLink (l : Link) : Prop := l = .identity ∨ l = .log ∨ l = .logit ∨ l = .cloglog ∨ l = .tweedie 0 ∨ l = .tweedie 1

theorem increasing_inverse (e : ℝ) (he : ClipOK e) (l : Link) (h : Spec.IncreasingLink l) : Monotone (l.inverse e) := by
  rcases h with rfl | rfl | rfl | rfl | rfl | rfl
  · intro x y hxy; exact hxy
  · intro x y hxy; exact Real.exp_le_exp.2 hxy
  · exact (c03_probabilities e he _ (Or.inl rfl)).2
  · exact (c03_probabilities e he _ (Or.inr rfl)).2
  · intro x y hxy; simpa [Link.inverse] using hxy
  · intro x y hxy; simpa [Link.inverse] using Real.exp_le_exp.2 hxy

open Classical in
/-- **C112, from the fit to the predictions.** A model with `monotonic_constraints` is fitted with the monotone solver, without a warning or an
exception.  Then for every prediction of it (the last model, or any `alpha` of the path), two rows of the new data which differ only by
moving a constrained factor up, with non-negative interacting factors, the same offset and an increasing link, have predicted means in
the requested order, up to `1e-6` times the distance moved on the scale of the link.  Missing for the full property: see the
counterexamples. -/
theorem c112_predictions_partial (inner : (k : ℕ) → Inner k p ic)
    {isSpace : Char → Bool} (hbr : isSpace ']' = false) {toFloat : Str → Option EReal} {s0 : Char} {sep' : Str}
    {fss : Fin p → List Factor} (hne : ∀ i, fss i ≠ []) (hok : ∀ i, ∀ f ∈ fss i, Spec.FactorOk isSpace s0 f)
    {monotonic : List (Str × String)} {rows : List (Fin p → ℝ)}
    (hrows : buildMonotonic isSpace toFloat (s0 :: sep') (fun i => Spec.renderColumn (s0 :: sep') (fss i)) monotonic = some rows)
    (C : FitCfg p ic) (A : ℕ → ℕ → ℝ)
    (hA : C.A = some A) (hAr : ∀ q (hq : q < rows.length) (k : Fin p), A q k = rows[q] k) (he : ClipOK C.e50) (hl : Spec.IncreasingLink C.link)
    (stats : Stats) (R : Rows n) (l1r : ℝ) (a : AlphaSpec) (s s' : MonoLog) (r : PathResult)
    (h : glmFit C stats (monoSolver inner (fun _ : Fin rows.length => 0)) R l1r a s = some (s', r)) (hw : s'.warned = false) (hr : s'.raised = false)
    (fd : Str × String) (hfd : fd ∈ monotonic) (u v : Factor → ℝ) (hm : Spec.MovesUp (sortKey toFloat) fd.1 fss u v)
    (hpos : ∀ i, Spec.mentions fd.1 (fss i) → 0 ≤ Spec.column u (Spec.others fd.1 (fss i)))
    {N : ℕ} (X : Fin N → ℕ → ℝ) (off : Option (Fin N → ℝ)) (i1 i2 : Fin N)
    (hX1 : ∀ k : Fin p, X i1 k = Spec.column u (fss k)) (hX2 : ∀ k : Fin p, X i2 k = Spec.column v (fss k))
    (hoff : (off.getD fun _ => 0) i1 = (off.getD fun _ => 0) i2)
    (search : Bool) (idx : ScalarOrList ℤ) (hidx : ∀ l, idx ≠ .many l) (mu : Fin N → ℝ)
    (hpred : predictWith C.e50 C.link (linearPredictor p search r X off idx .none) none = some (.vec mu)) :
    ∃ eta, mu i1 = C.link.inverse C.e50 eta ∧
      let tol := 1 / 10 ^ 6 * ∑ i ∈ Finset.univ.filter (fun i => Spec.mentions fd.1 (fss i)), Spec.column u (Spec.others fd.1 (fss i)) *
        (Spec.upper (sortKey toFloat) fd.1 fss v i - Spec.upper (sortKey toFloat) fd.1 fss u i)
      if fd.2 = "decreasing" then mu i2 ≤ C.link.inverse C.e50 (eta + tol) else C.link.inverse C.e50 (eta - tol) ≤ mu i2 := by
  obtain ⟨hf1, hf2⟩ := c112_feasible inner rows C A hA hAr stats R l1r a s s' r h hw hr
  have hmono := increasing_inverse C.e50 he C.link hl
  -- what is predicted
  have hpredX : ∃ (w : ℕ → ℝ) (b : ℝ), (∀ row ∈ rows, ∑ k, row k * w k ≤ 1 / 10 ^ 6) ∧
      ∀ i, mu i = C.link.inverse C.e50 (addOffset off (xbeta p X w b) i) := by
    unfold predictWith at hpred
    rw [Option.bind_eq_bind, Option.bind_eq_some_iff] at hpred
    obtain ⟨eta, heta, hp⟩ := hpred
    simp only [Option.some.injEq] at hp
    have hone : ∀ w b, eta = .vec (addOffset off (xbeta p X w b)) → ∀ i, mu i = C.link.inverse C.e50 (addOffset off (xbeta p X w b) i) := by
      rintro w b rfl i
      simp only [Pred.map, Pred.vec.injEq] at hp
      rw [← hp]
    have hcomp : computeLinearPredictor p X off r idx = some eta := by
      unfold linearPredictor at heta
      cases search with
      | false =>
        cases idx with
        | none => exact heta
        | one i => cases heta
        | many l => cases heta
      | true =>
        simp only [resolveAlphaIndex] at heta
        simpa using heta
    cases hidx' : idx with
    | none =>
      rw [hidx'] at hcomp
      simp only [computeLinearPredictor, Option.some.injEq] at hcomp
      exact ⟨r.coef, r.intercept, hf2, hone _ _ hcomp.symm⟩
    | one i =>
      rw [hidx'] at hcomp
      simp only [computeLinearPredictor, Option.bind_eq_bind, Option.bind_eq_some_iff, Option.some.injEq] at hcomp
      obtain ⟨c, hc, b, hb, he'⟩ := hcomp
      refine ⟨c, b, hf1 c ?_, hone _ _ he'.symm⟩
      unfold pyGet at hc
      split at hc
      · exact List.mem_of_getElem? hc
      · split at hc
        · exact List.mem_of_getElem? hc
        · cases hc
    | many l => exact absurd hidx' (hidx l)
  obtain ⟨w, b, hwf, hmu⟩ := hpredX
  have heff := c112_effect_partial hbr hne hok hrows (fun k => w k) (1 / 10 ^ 6) (by norm_num) hwf fd hfd u v hm hpos
  refine ⟨_, hmu i1, ?_⟩
  intro tol
  have hxb : ∀ i, addOffset off (xbeta p X w b) i = ∑ k : Fin p, X i k * w k + b + (off.getD fun _ => 0) i := by
    intro i
    cases off <;> simp [addOffset, xbeta, Finset.sum_range]
  have e1 : addOffset off (xbeta p X w b) i1 = ∑ k : Fin p, Spec.column u (fss k) * w k + b + (off.getD fun _ => 0) i1 := by
    rw [hxb]; simp only [hX1]
  have e2 : addOffset off (xbeta p X w b) i2 = ∑ k : Fin p, Spec.column v (fss k) * w k + b + (off.getD fun _ => 0) i1 := by
    rw [hxb, hoff]; simp only [hX2]
  unfold Spec.alongUpTo at heff
  rw [hmu i2, e1, e2]
  split
  · rename_i hd
    rw [if_pos hd] at heff
    change _ ≤ _ + tol at heff
    apply hmono
    linarith
  · rename_i hd
    rw [if_neg hd] at heff
    change _ - tol ≤ _ at heff
    apply hmono
    linarith

/-! ### A concrete fit -/

/-- One numeric column `x`. -/
def demoNumber : Fin 1 → List Factor := ![[(['x'], none)]]

theorem demoNumber_ok : (∀ i, demoNumber i ≠ []) ∧ ∀ i, ∀ f ∈ demoNumber i, Spec.FactorOk (· == ' ') ':' f := by
  refine ⟨by intro i; fin_cases i; simp [demoNumber], ?_⟩
  intro i f hf
  apply factorCheck_ok
  fin_cases i
  simp only [demoNumber, Fin.mk_zero, Fin.zero_eta, Matrix.cons_val_zero, List.mem_singleton] at hf
  subst hf
  decide +kernel

theorem demoNumber_rows (toFloat : Str → Option EReal) :
    buildMonotonic (· == ' ') toFloat [':'] (fun i => Spec.renderColumn [':'] (demoNumber i)) [(['x'], "decreasing")] = some [fun _ => 1] := by
  have hg : groupColumns (n := 1) (· == ' ') [':'] (fun i => Spec.renderColumn [':'] (demoNumber i)) ['x'] = some [([], [(0, none)])] := by
    rfl
  unfold buildMonotonic
  rw [List.mapM_cons, List.mapM_nil]
  simp only [hg]
  have hd : dirSign "decreasing" = some (-1) := by unfold dirSign; rw [if_neg (by decide), if_pos rfl]
  rw [hd]
  have hr : groupRows (n := 1) toFloat (-1) [(0, none)] = [fun _ => 1] := by
    unfold groupRows
    rw [List.mergeSort_singleton]
    simp only [neg_neg]
    congr 1
    funext k
    rw [if_pos (Subsingleton.elim _ _)]
  simp [hr]

/-- Least squares without intercept and penalty, `x` constrained to be decreasing, started from `1e-12`, default tolerance. -/
noncomputable def monoCfg : FitCfg 1 false where
  family := .normal
  link := .identity
  e50 := 1 / 10 ^ 15
  thr := 1 / 10 ^ 6
  asIfScaled := false
  xsp := false
  P1a := .none
  P2a := .none
  lb := none
  ub := none
  A := some fun _ _ => 1
  start := .given monoExStart
  p2ok := fun _ => true
  maxIter := 100
  maxInnerIter := 10
  gradTol := 1 / 10 ^ 4
  stepTol := none
  hessApprox := 0
  fixedInnerTol := none
  random := false
  eps := 1 / 10 ^ 15
  large := 10 ^ 30

/-- One observation `x = 1, y = 1`. -/
def monoRows : Rows 1 where
  X := fun _ _ => 1
  y := fun _ => 1
  sw := fun _ => 1
  off := none

def monoStats : Stats := fun _ _ _ => (fun _ => 0, fun _ => 1)

theorem monoCfg_prepared : ∃ Q, prepare monoCfg monoStats monoRows 0 = some Q ∧
    Q.D.withPen (fun j => Q.D.P1 j * 0) (Q.D.P2.smul 0) = monoEx 1 ∧ Q.A = some (fun _ _ => 1) ∧ Q.start = monoExStart ∧
    Q.means = (fun _ => 0) ∧ Q.stds = fun _ => 1 := by
  have h1 : oneOverStd monoCfg.thr 1 1 = 1 := by
    unfold oneOverStd
    rw [if_neg (by norm_num [monoCfg])]
    norm_num
  unfold prepare
  refine ⟨_, rfl, ?_, ?_, ?_, rfl, rfl⟩
  · have hX : stdX monoCfg.thr false (fun _ => 0) (fun _ => 1) monoRows.X = fun _ _ => 1 := by
      funext i j
      unfold stdX
      rw [h1]
      simp [monoRows]
    have hF : rowFam monoCfg.e50 monoCfg.family monoCfg.link = normalRow := by
      change RowFamily.mk _ _ _ _ _ = RowFamily.mk _ _ _ _ _
      congr 1
      funext y w e mu
      simp [genericGrad, monoCfg, oneOverVariance, Family.unitVariance, Link.inverseDerivative]
    simp only [monoStats, stdData, standardize, FitCfg.problem, IRLSData.withPen, monoEx]
    rw [hX, hF]
    simp [monoRows, monoCfg, Pen2.smul, Pen2.symmetrise, scaleP2]
  · simp [monoCfg, monoStats] at h1 ⊢
    funext r j
    exact h1
  · rfl

/-- The fit: no warning, no exception, and a coefficient that is positive (about `1e-7`). -/
theorem monoCfg_fit : ∃ r, glmFit monoCfg monoStats (monoSolver (fun _ => lsInner monoExSolve) (fun _ : Fin 1 => 0)) monoRows 0 (.single 0) ⟨false, false⟩
      = some (⟨false, false⟩, r) ∧ r.coef 0 = 1 / 10 ^ 12 + (1 - 1 / 10 ^ 12 - 1 / 10 ^ 7) / (1 + 10 ^ 7) ∧ r.intercept = 0 := by
  obtain ⟨h1, h2, h3, h4⟩ := monoEx_first_pass 1 (Or.inl rfl)
  obtain ⟨res, hres⟩ := (c59_rejects (lsInner monoExSolve) (monoEx 1) monoExA monoExB monoExStart).2.mpr ⟨fun _ => rfl, by omega⟩
  have hok := monoSolve_ok _ _ _ _ _ res hres
  have hfin : res.fin = monoStep (lsInner monoExSolve) (monoEx 1) monoExA monoExB (monoInit (monoEx 1) monoExA monoExB monoExStart) := by
    rw [hok.2.1]
    change monoLoop _ _ _ _ (98 + 1 + 1) _ = _
    conv_lhs => unfold monoLoop
    rw [if_pos ⟨by change 0 < 100; omega, rfl⟩]
    conv_lhs => unfold monoLoop
    rw [if_neg (by rw [h2]; simp)]
  have hw : res.warnNotConverged = false := by rw [hok.2.2.1, hfin, h2]; rfl
  have hv : res.warnViolation = false := (hok.2.2.2).mpr ((c59_no_warning_feasible _ _ _ _ _ res hres).2.1 hw)
  obtain ⟨Q, hQ, hD, hA, hst, hme, hsd⟩ := monoCfg_prepared
  obtain ⟨r, hr, hi, hc⟩ := glmFit_single monoCfg monoStats (monoSolver (fun _ => lsInner monoExSolve) (fun _ : Fin 1 => 0)) monoRows 0 0 ⟨false, false⟩ Q hQ
    (by rintro ⟨l, u, h, -⟩; cases h) (fun _ => rfl)
  have hcall : monoSolver (fun _ => lsInner monoExSolve) (fun _ : Fin 1 => 0) 1 (Q.D.withPen (fun j => Q.D.P1 j * 0) (Q.D.P2.smul 0)) Q.A ⟨false, false⟩ Q.start
      = (⟨false, false⟩, res.fin.st.coef) := by
    rw [hD, hA, hst, monoSolver_ok (fun _ => lsInner monoExSolve) (fun _ : Fin 1 => 0) (monoEx 1) (fun _ _ => 1) ⟨false, false⟩ monoExStart res hres, hw, hv]
    rfl
  refine ⟨r, ?_, ?_, ?_⟩
  · rw [hr, hcall]
  · rw [hc, hcall, report_feat, hsd]
    have h1' : oneOverStd monoCfg.thr 1 1 = 1 := by
      unfold oneOverStd
      rw [if_neg (by norm_num [monoCfg])]
      norm_num
    rw [h1', mul_one, ← h1, ← hfin]
    rfl
  · rw [hi]; rfl

/-- **Exact monotonicity fails (finding F44).** The fit above, for the formula `x - 1` with `monotonic_constraints={"x": "decreasing"}`, ends without
a warning, and the prediction rises with `x`: the solver's test lets every row of the constraints be violated by `1e-6`. -/
theorem c112_tolerance_counterexample (toFloat : Str → Option EReal) :
    ∃ rows, buildMonotonic (· == ' ') toFloat [':'] (fun i => Spec.renderColumn [':'] (demoNumber i)) [(['x'], "decreasing")] = some rows ∧
    (∃ A, monoCfg.A = some A ∧ ∀ q (hq : q < rows.length) (k : Fin 1), A q k = rows[q] k) ∧
    ∃ r, glmFit monoCfg monoStats (monoSolver (fun _ => lsInner monoExSolve) (fun _ : Fin rows.length => 0)) monoRows 0 (.single 0) ⟨false, false⟩
      = some (⟨false, false⟩, r) ∧
    ∃ mu : Fin 2 → ℝ, predictWith monoCfg.e50 monoCfg.link (linearPredictor 1 false r (fun i _ => if i = 0 then 0 else 1) none .none .none) none = some (.vec mu) ∧
      mu 0 < mu 1 := by
  refine ⟨[fun _ => 1], demoNumber_rows toFloat, ⟨_, rfl, ?_⟩, ?_⟩
  · intro q hq k
    have : q = 0 := by simpa using hq
    subst this
    rfl
  · obtain ⟨r, hr, hc, hi⟩ := monoCfg_fit
    refine ⟨r, hr, _, rfl, ?_⟩
    simp only [monoCfg, Link.inverse, addOffset, xbeta, Finset.sum_range_one, hc, hi]
    norm_num

/-- The hypotheses of `c112_predictions_partial` are met by this fit: raising `x` by one raises the prediction by at most `1e-6`. -/
theorem c112_example (toFloat : Str → Option EReal) (x : ℝ) :
    ∃ r, glmFit monoCfg monoStats (monoSolver (fun _ => lsInner monoExSolve) (fun _ : Fin ([fun _ => 1] : List (Fin 1 → ℝ)).length => 0)) monoRows 0
        (.single 0) ⟨false, false⟩ = some (⟨false, false⟩, r) ∧
    ∃ mu : Fin 2 → ℝ, predictWith monoCfg.e50 monoCfg.link (linearPredictor 1 false r (fun i _ => if i = 0 then x else x + 1) none .none .none) none = some (.vec mu) ∧
      mu 1 ≤ mu 0 + 1 / 10 ^ 6 := by
  classical
  obtain ⟨r, hr, hc, hi⟩ := monoCfg_fit
  refine ⟨r, hr, _, rfl, ?_⟩
  have hmen : ∀ i, Spec.mentions ['x'] (demoNumber i) := by
    intro i; fin_cases i; exact ⟨(['x'], none), by simp [demoNumber], rfl⟩
  have hmu := movesUp_numeric (sortKey toFloat) ['x'] demoNumber (fun _ => x) (fun y => if y.1 = ['x'] then x + 1 else x)
    (by
      intro i _
      fin_cases i
      refine ⟨rfl, ?_⟩
      ext j
      fin_cases j
      simp [Spec.peers, hmen])
    (by intro y hy; rw [if_neg hy]) (by simp)
  have hcol : ∀ (val : Factor → ℝ) (k : Fin 1), Spec.column val (demoNumber k) = val (['x'], none) := by
    intro val k; fin_cases k; simp [Spec.column, demoNumber]
  have hoth : ∀ (val : Factor → ℝ) (k : Fin 1), Spec.column val (Spec.others ['x'] (demoNumber k)) = 1 := by
    intro val k; fin_cases k; simp [Spec.column, Spec.others, demoNumber]
  obtain ⟨eta, h1, h2⟩ := c112_predictions_partial (n := 1) (ic := false) (fun _ => lsInner monoExSolve) (isSpace := (· == ' ')) (by decide) (toFloat := toFloat) (s0 := ':') (sep' := [])
    demoNumber_ok.1 demoNumber_ok.2 (demoNumber_rows toFloat) monoCfg (fun _ _ => 1) rfl (by
      intro q hq k
      have : q = 0 := by simpa using hq
      subst this
      rfl) ⟨by norm_num [monoCfg], by norm_num [monoCfg]⟩ (Or.inl rfl) monoStats monoRows 0 (.single 0) ⟨false, false⟩ ⟨false, false⟩ r hr rfl rfl
    (['x'], "decreasing") (List.mem_singleton.2 rfl) _ _ hmu.1 (by intro i _; rw [hoth]; norm_num)
    (N := 2) (fun i _ => if i = 0 then x else x + 1) none 0 1 (by intro k; rw [hcol]; simp) (by intro k; rw [hcol]; simp) rfl false .none (by intro l; simp) _ rfl
  simp only [if_true] at h2
  have e : ∀ i, Spec.mentions ['x'] (demoNumber i) → ∀ val : Factor → ℝ, Spec.upper (sortKey toFloat) ['x'] demoNumber val i = val (['x'], none) := hmu.2
  rw [Finset.sum_congr rfl fun i hi => by rw [hoth, e i (hmen i), e i (hmen i)]] at h2
  simp only [hmen, Finset.filter_true, Finset.sum_const, Finset.card_univ, Fintype.card_fin, if_true, one_mul] at h2
  change _ ≤ eta + _ at h2
  change _ = eta at h1
  rw [h1]
  refine le_trans h2 ?_
  simp

/-! ### Counterexamples to the full property -/

/-- The columns of `bs(x, 3)`: a spline basis without its first function. -/
def demoSpline : Fin 3 → List Factor := ![[("bs(x, 3)".toList, some ['1'])], [("bs(x, 3)".toList, some ['2'])], [("bs(x, 3)".toList, some ['3'])]]

/-- The cubic Bernstein polynomials on `[0, 1]`: what `bs(x, 3)` evaluates there. -/
def Spec.bernstein3 (x : ℝ) : Fin 4 → ℝ := ![(1 - x) ^ 3, 3 * x * (1 - x) ^ 2, 3 * x ^ 2 * (1 - x), x ^ 3]

/-- **Splines without their first basis function (finding F44).** For the formula `bs(x, 3)` of the tutorial, formulaic leaves out the first basis
function, so with the direction `increasing` the coefficients `(-1, -1, -1)` satisfy the constraints *exactly*, while the effect of `x` is
strictly decreasing on the whole range. -/
theorem c112_spline_counterexample (toFloat : Str → Option EReal) :
    ∃ rows, buildMonotonic (· == ' ') toFloat [':'] (fun i => Spec.renderColumn [':'] (demoSpline i)) [("bs(x, 3)".toList, "increasing")] = some rows ∧
      (∀ r ∈ rows, ∑ k, r k * (![-1, -1, -1] : Fin 3 → ℝ) k ≤ 0) ∧
      ∀ x x' : ℝ, 0 ≤ x → x < x' → x' ≤ 1 →
        ∑ k : Fin 3, Spec.bernstein3 x' k.succ * (![-1, -1, -1] : Fin 3 → ℝ) k < ∑ k : Fin 3, Spec.bernstein3 x k.succ * (![-1, -1, -1] : Fin 3 → ℝ) k := by
  have hne : ∀ i, demoSpline i ≠ [] := by intro i; fin_cases i <;> simp [demoSpline]
  have hok : ∀ i, ∀ f ∈ demoSpline i, Spec.FactorOk (· == ' ') ':' f := by
    intro i f hf
    apply factorCheck_ok
    fin_cases i <;> simp only [demoSpline, Fin.mk_zero, Fin.mk_one, Fin.reduceFinMk, Matrix.cons_val, List.mem_singleton] at hf <;>
      · subst hf; decide +kernel
  have hb := (c58_raises (toFloat := toFloat) (sep' := []) (by decide) hne hok [("bs(x, 3)".toList, "increasing")]).2
    ⟨by simp, by
      intro fd hfd
      simp only [List.mem_singleton] at hfd
      subst hfd
      refine ⟨Or.inl rfl, ⟨0, _, List.mem_singleton.2 rfl, rfl⟩, ?_⟩
      intro i
      fin_cases i <;> simp [demoSpline]⟩
  obtain ⟨rows, hrows⟩ := Option.ne_none_iff_exists'.1 hb
  refine ⟨rows, hrows, ?_, ?_⟩
  · rw [c58_rows (sep' := []) (by decide) hne hok hrows]
    intro fd hfd others
    simp only [List.mem_singleton] at hfd
    subst hfd
    refine ⟨?_, ?_⟩
    · intro i j a b hi hj hab
      fin_cases i <;> fin_cases j <;> simp [Spec.along]
    · intro i a hi huniq
      exfalso
      have hoth : others = [] := by
        fin_cases i
        · exact (member_single.1 hi).2.2
        · exact (member_single.1 hi).2.2
        · exact (member_single.1 hi).2.2
      subst hoth
      have h0 := huniq 0 (some ['1']) (member_single.2 ⟨rfl, rfl, rfl⟩)
      have h1 := huniq 1 (some ['2']) (member_single.2 ⟨rfl, rfl, rfl⟩)
      rw [← h1] at h0
      exact absurd h0 (by decide)
  · intro x x' h0 h h1
    simp only [Fin.sum_univ_three, Spec.bernstein3]
    have : (1 - x') ^ 3 < (1 - x) ^ 3 := pow_lt_pow_left₀ (by linarith) (by linarith) (by norm_num)
    simp [Fin.succ]
    nlinarith

/-- **Links that decrease (finding F44).** With `TweedieLink(2)` (the inverse link), the linear predictor follows the requested direction and the
predicted mean the opposite one. -/
theorem c112_link_counterexample (e x x' : ℝ) (h0 : 0 < x) (h : x < x') :
    (Link.tweedie 2).inverse e x' < (Link.tweedie 2).inverse e x := by
  have : ∀ y : ℝ, (Link.tweedie 2).inverse e y = y⁻¹ := by
    intro y
    simp only [Link.inverse]
    rw [if_neg (by norm_num), if_neg (by norm_num), show (1 : ℝ) / (1 - 2) = -1 by norm_num, Real.rpow_neg_one]
  rw [this, this]
  exact inv_strictAnti₀ h0 h

/-- The hypotheses of `c112_levels_partial` are met: the columns `c[2]`, `c[3]`, direction `increasing`, the coefficients `(1, 4)`. -/
example (toFloat : Str → Option EReal) (h2 : toFloat ['2'] = some 2) (h3 : toFloat ['3'] = some 3) :
    ∃ rows, buildMonotonic (· == ' ') toFloat [':'] (fun i => Spec.renderColumn [':'] (demoReduced i)) [(['c'], "increasing")] = some rows ∧
      (∀ r ∈ rows, ∑ k, r k * (![1, 4] : Fin 2 → ℝ) k ≤ 0) ∧
      ∃ u v : Factor → ℝ, Spec.column u (demoReduced 0) = 1 ∧ Spec.column v (demoReduced 1) = 1 ∧
        Spec.alongUpTo 0 "increasing" (∑ k, Spec.column u (demoReduced k) * (![1, 4] : Fin 2 → ℝ) k)
          (∑ k, Spec.column v (demoReduced k) * (![1, 4] : Fin 2 → ℝ) k) := by
  classical
  have hne : ∀ i, demoReduced i ≠ [] := by intro i; fin_cases i <;> simp [demoReduced]
  have hok : ∀ i, ∀ f ∈ demoReduced i, Spec.FactorOk (· == ' ') ':' f := by
    intro i f hf
    apply factorCheck_ok
    fin_cases i <;> simp only [demoReduced, Fin.mk_zero, Fin.mk_one, Fin.reduceFinMk, Matrix.cons_val, List.mem_singleton] at hf <;>
      · subst hf; decide +kernel
  have hb := (c58_raises (toFloat := toFloat) (sep' := []) (by decide) hne hok [(['c'], "increasing")]).2
    ⟨by simp, by
      intro fd hfd
      simp only [List.mem_singleton] at hfd
      subst hfd
      refine ⟨Or.inl rfl, ⟨0, _, List.mem_singleton.2 rfl, rfl⟩, ?_⟩
      intro i
      fin_cases i <;> simp [demoReduced]⟩
  obtain ⟨rows, hrows⟩ := Option.ne_none_iff_exists'.1 hb
  have hlt : sortKey toFloat (some ['2']) < sortKey toFloat (some ['3']) := by
    simp only [sortKey, h2, h3]
    rw [Prod.Lex.toLex_lt_toLex]
    exact Or.inl (show (2 : EReal) < 3 by norm_cast)
  have hw : ∀ r ∈ rows, ∑ k, r k * (![1, 4] : Fin 2 → ℝ) k ≤ 0 := by
    rw [c58_rows (sep' := []) (by decide) hne hok hrows]
    intro fd hfd others
    simp only [List.mem_singleton] at hfd
    subst hfd
    refine ⟨?_, ?_⟩
    · intro i j a b hi hj hab
      fin_cases i <;> fin_cases j <;> simp [Spec.along]
      obtain ⟨-, rfl, -⟩ := member_single.1 hi
      obtain ⟨-, rfl, -⟩ := member_single.1 hj
      rcases hab with h | ⟨h, -⟩
      · exact absurd h (lt_asymm hlt)
      · exact absurd h hlt.ne'
    · intro i a hi huniq
      fin_cases i <;> simp [Spec.along]
  refine ⟨rows, hrows, hw, fun x => if x.2 = some ['2'] then 1 else 0, fun x => if x.1 = ['c'] then (if x.2 = some ['3'] then 1 else 0) else if x.2 = some ['2'] then 1 else 0,
    by simp [Spec.column, demoReduced], by simp [Spec.column, demoReduced], ?_⟩
  have hmen : ∀ i, Spec.mentions ['c'] (demoReduced i) := by
    intro i; fin_cases i
    · exact ⟨_, List.mem_singleton.2 rfl, rfl⟩
    · exact ⟨_, List.mem_singleton.2 rfl, rfl⟩
  have hpe : ∀ i, Spec.peers ['c'] demoReduced i = Finset.univ := by
    intro i
    apply Finset.filter_true_of_mem
    intro j _
    refine ⟨hmen j, ?_⟩
    fin_cases i <;> fin_cases j <;> rfl
  have := c112_levels_partial (sep' := []) (by decide) hne hok hrows ![1, 4] 0 le_rfl hw (['c'], "increasing") (List.mem_singleton.2 rfl)
    (fun x => if x.2 = some ['2'] then 1 else 0) (fun x => if x.1 = ['c'] then (if x.2 = some ['3'] then 1 else 0) else if x.2 = some ['2'] then 1 else 0)
    ['2'] ['3'] hlt (by intro x hx; exact (if_neg hx).symm) (fun _ => rfl) (fun s => by simp)
    (by
      intro i _
      refine ⟨0, ⟨by rw [hpe]; simp, rfl⟩, ?_⟩
      rintro y ⟨-, hy⟩
      fin_cases y
      · rfl
      · exact absurd hy (by decide))
    (by
      intro i _
      refine ⟨1, ⟨by rw [hpe]; simp, rfl⟩, ?_⟩
      rintro y ⟨-, hy⟩
      fin_cases y
      · exact absurd hy (by decide)
      · rfl)
    (by
      intro i _
      fin_cases i <;> simp [Spec.column, Spec.others, demoReduced])
  rw [zero_mul] at this
  exact this

end Glum
