import Verif.Model.CV
import Verif.Props.Fit
import Verif.Props.Predict
/-
C60, C61, C71: cross-validation.
-/
set_option linter.unusedSectionVars false
set_option linter.unusedVariables false
set_option linter.unusedSimpArgs false

namespace Glum
open Spec

variable {N n p : ℕ} {ic : Bool}

/-! ### Lists -/

theorem flatten_get {α : Type} (K : ℕ) (rows : List (List α)) (h : ∀ r ∈ rows, r.length = K) (i k : ℕ) (hk : k < K) :
    rows.flatten[i * K + k]? = rows[i]?.bind (·[k]?) := by
  induction rows generalizing i with
  | nil => simp
  | cons r rest ih =>
    have hr : r.length = K := h r (by simp)
    rw [List.flatten_cons]
    cases i with
    | zero =>
      rw [List.getElem?_append_left (by omega)]
      simp
    | succ i =>
      rw [List.getElem?_append_right (by rw [hr]; nlinarith)]
      rw [show (i + 1) * K + k - r.length = i * K + k by rw [hr, Nat.succ_mul]; omega]
      rw [ih (fun r hr => h r (List.mem_cons_of_mem _ hr))]
      simp

theorem flatten_length {α : Type} (K : ℕ) (rows : List (List α)) (h : ∀ r ∈ rows, r.length = K) :
    rows.flatten.length = rows.length * K := by
  induction rows with
  | nil => simp
  | cons r rest ih =>
    rw [List.flatten_cons, List.length_append, h r (by simp), ih fun r hr => h r (List.mem_cons_of_mem _ hr), List.length_cons]
    ring

theorem cvJobs_length (splits : List (List (Fin N) × List (Fin N))) (l1s : List ℝ) (alphass : List (List ℝ))
    (hal : alphass.length = l1s.length) : (cvJobs splits l1s alphass).length = splits.length * l1s.length := by
  unfold cvJobs
  rw [List.flatMap_def, flatten_length l1s.length]
  · simp
  · intro r hr
    simp only [List.mem_map] at hr
    obtain ⟨sp, -, rfl⟩ := hr
    simp [hal]

theorem cvJobs_get (splits : List (List (Fin N) × List (Fin N))) (l1s : List ℝ) (alphass : List (List ℝ))
    (hal : alphass.length = l1s.length) (s l : ℕ) (hs : s < splits.length) (hl : l < l1s.length) :
    (cvJobs splits l1s alphass)[s * l1s.length + l]?
      = some { train := splits[s].1, test := splits[s].2, l1 := l1s[l], alphas := alphass[l] } := by
  unfold cvJobs
  rw [List.flatMap_def, flatten_get l1s.length _ _ s l hl]
  · rw [List.getElem?_map, List.getElem?_eq_getElem hs]
    simp only [Option.map_some, Option.bind_some, List.getElem?_map]
    rw [List.getElem?_eq_getElem (by simp [hal, hl])]
    simp
  · intro r hr
    simp only [List.mem_map] at hr
    obtain ⟨sp, -, rfl⟩ := hr
    simp [hal]

/-- What is known when the last part of `fit` succeeds. -/
structure Finished {σ : Type} (C : FitCfg p ic) (stats : Stats) (solver : SolverFn σ p ic) (R : Rows N) (S : ℕ) (l1s : List ℝ)
    (alphass : List (List ℝ)) (outs : List FoldOut) (s s' : σ) (r : CVResult) (al0 : List ℝ) (best : ℕ) (Q : Prepared N p ic)
    (bestRow : ℝ × (ℕ → ℝ)) : Prop where
  head : alphass.head? = some al0
  ints : reshape3 S l1s.length al0.length (outs.map (·.intercepts)) = some r.interceptPath
  coefs : reshape3 S l1s.length al0.length (outs.map (·.coefs)) = some r.coefPath
  dev : reshape3 S l1s.length al0.length (outs.map (·.dev)) = some r.dev
  tdev : reshape3 S l1s.length al0.length (outs.map (·.trainDev)) = some r.trainDev
  pos : S ≠ 0
  hbest : argmin (meanAxis0 S l1s.length al0.length r.dev) = some best
  l1 : l1s[best / al0.length]? = some r.l1
  als : alphass[best / al0.length]? = some r.refit.alphas
  al : r.refit.alphas[best % al0.length]? = some r.alpha
  prep : prepare C stats R r.l1 = some Q
  state : s' = (Q.path solver r.refit.alphas s).1
  row : ((Q.path solver r.refit.alphas s).2.map (report ic C.thr Q.means Q.stds))[best % al0.length]? = some bestRow
  alphas : r.alphas = alphass
  refit : r.refit = { coef := bestRow.2, intercept := bestRow.1
                      coefPath := ((Q.path solver r.refit.alphas s).2.map (report ic C.thr Q.means Q.stds)).map (·.2)
                      interceptPath := ((Q.path solver r.refit.alphas s).2.map (report ic C.thr Q.means Q.stds)).map (·.1)
                      alphas := r.refit.alphas }

theorem cvFinish_spec {σ : Type} (C : FitCfg p ic) (stats : Stats) (solver : SolverFn σ p ic) (R : Rows N) (S : ℕ) (l1s : List ℝ)
    (alphass : List (List ℝ)) (outs : List FoldOut) (s s' : σ) (r : CVResult) :
    cvFinish C stats solver R S l1s alphass outs s = some (s', r) ↔
      ∃ al0 best Q bestRow, Finished C stats solver R S l1s alphass outs s s' r al0 best Q bestRow := by
  unfold cvFinish
  simp only [Option.bind_eq_bind, Option.bind_eq_some_iff]
  constructor
  · rintro ⟨al0, h0, ints, h1, coefs, h2, dev, h3, tdev, h4, h5⟩
    split at h5
    · cases h5
    · next hS =>
      simp only [Option.bind_eq_some_iff, Option.some.injEq, Prod.mk.injEq] at h5
      obtain ⟨best, hb, l1, hl1, als, hals, al, hal, Q, hQ, br, hbr, rfl, rfl⟩ := h5
      exact ⟨al0, best, Q, br, ⟨h0, h1, h2, h3, h4, hS, hb, hl1, hals, hal, hQ, rfl, hbr, rfl, rfl⟩⟩
  · rintro ⟨al0, best, Q, br, F⟩
    refine ⟨al0, F.head, _, F.ints, _, F.coefs, _, F.dev, _, F.tdev, ?_⟩
    rw [if_neg F.pos]
    simp only [Option.bind_eq_some_iff, Option.some.injEq, Prod.mk.injEq]
    refine ⟨best, F.hbest, _, F.l1, _, F.als, _, F.al, Q, F.prep, br, F.row, F.state.symm, ?_⟩
    have e1 := F.refit
    have e2 := F.alphas
    rcases r with ⟨a1, a2, a3, a4, a5, a6, a7, a8⟩
    simp only at e1 e2 ⊢
    rw [← e1, e2]

/-! ### Executing the jobs -/

/-- The results of the jobs have arrived, in any order, each with the position of its job; the `k`-th job ran on some state `st k` (the
one left by the previous job, a copy of the original, ...). -/
def Spec.Arrival {σ : Type} (job : CVJob N → σ → σ × Option FoldOut) (jobs : List (CVJob N)) (st : ℕ → σ)
    (arrived : List (ℕ × Option FoldOut)) : Prop :=
  arrived.Perm (jobs.zipIdx.map fun jk => (jk.2, (job jk.1 (st jk.2)).2))

theorem lookup_of_mem {β : Type} {l : List (ℕ × β)} (hn : (l.map (·.1)).Nodup) {k : ℕ} {b : β} (h : (k, b) ∈ l) :
    l.lookup k = some b := by
  induction l with
  | nil => simp at h
  | cons x r ih =>
    obtain ⟨k', b'⟩ := x
    rw [List.map_cons, List.nodup_cons] at hn
    rcases List.mem_cons.1 h with h' | hm
    · simp only [Prod.mk.injEq] at h'
      obtain ⟨rfl, rfl⟩ := h'
      simp [List.lookup_cons]
    · rw [List.lookup_cons, beq_eq_false_iff_ne.2]
      · exact ih hn.2 hm
      · rintro rfl
        exact hn.1 (List.mem_map.2 ⟨(k, b), hm, rfl⟩)

theorem arrival_lookup {σ : Type} (job : CVJob N → σ → σ × Option FoldOut) (jobs : List (CVJob N)) (st : ℕ → σ)
    (arrived : List (ℕ × Option FoldOut)) (h : Arrival job jobs st arrived) (k : ℕ) (hk : k < jobs.length) :
    arrived.lookup k = some (job jobs[k] (st k)).2 := by
  apply lookup_of_mem
  · rw [(h.map _).nodup_iff]
    rw [List.map_map]
    have : ((fun x : ℕ × Option FoldOut => x.1) ∘ fun jk : CVJob N × ℕ => (jk.2, (job jk.1 (st jk.2)).2)) = Prod.snd := rfl
    rw [this, List.zipIdx_map_snd]
    exact List.nodup_range'
  · rw [h.mem_iff, List.mem_map]
    exact ⟨(jobs[k], k), by rw [List.mk_mem_zipIdx_iff_getElem?]; simp [hk], rfl⟩

/-- **C61.** Whatever the order in which the jobs finish, the results handed to the estimator are those of the jobs in the order they
were listed, one per job; if a job raises, so does the fit. -/
theorem c61_collect {σ : Type} (job : CVJob N → σ → σ × Option FoldOut) (jobs : List (CVJob N)) (st : ℕ → σ)
    (arrived : List (ℕ × Option FoldOut)) (h : Arrival job jobs st arrived) (outs : List FoldOut) :
    joblibCollect jobs.length arrived = some outs ↔
      outs.length = jobs.length ∧ ∀ k (hk : k < jobs.length) (hk' : k < outs.length), (job jobs[k] (st k)).2 = some outs[k] := by
  unfold joblibCollect
  rw [mapM_forall2, List.forall₂_iff_get]
  simp only [List.length_range]
  constructor
  · rintro ⟨hl, hr⟩
    refine ⟨hl.symm, fun k hk hk' => ?_⟩
    have := hr k hk hk'
    simp only [List.get_eq_getElem, List.getElem_range] at this
    rw [arrival_lookup job jobs st arrived h k hk] at this
    simpa using this
  · rintro ⟨hl, hr⟩
    refine ⟨hl.symm, fun k hk hk' => ?_⟩
    simp only [List.get_eq_getElem, List.getElem_range]
    rw [arrival_lookup job jobs st arrived h k hk]
    simpa using hr k hk hk'

theorem zipIdx_perm_ext {σ : Type} (job : CVJob N → σ → σ × Option FoldOut) (hdet : ∀ j s s', (job j s).2 = (job j s').2)
    (jobs : List (CVJob N)) (st st' : ℕ → σ) (a a' : List (ℕ × Option FoldOut)) (h : Arrival job jobs st a)
    (h' : Arrival job jobs st' a') : joblibCollect jobs.length a = joblibCollect jobs.length a' := by
  apply Option.ext
  intro outs
  show joblibCollect jobs.length a = some outs ↔ joblibCollect jobs.length a' = some outs
  rw [c61_collect job jobs st a h, c61_collect job jobs st' a' h']
  constructor
  · rintro ⟨hl, hr⟩
    exact ⟨hl, fun k hk hk' => by rw [hdet _ (st' k) (st k)]; exact hr k hk hk'⟩
  · rintro ⟨hl, hr⟩
    exact ⟨hl, fun k hk hk' => by rw [hdet _ (st k) (st' k)]; exact hr k hk hk'⟩

/-- The positions at which a sequential run starts its jobs. -/
def seqStates {σ : Type} (job : CVJob N → σ → σ × Option FoldOut) : List (CVJob N) → σ → ℕ → σ
  | [], s, _ => s
  | _ :: _, s, 0 => s
  | j :: rest, s, k + 1 => seqStates job rest (job j s).1 k

theorem sequential_eq {σ : Type} (job : CVJob N → σ → σ × Option FoldOut) (jobs : List (CVJob N)) (s : σ) :
    runSequential job jobs s = jobs.zipIdx.map fun jk => (job jk.1 (seqStates job jobs s jk.2)).2 := by
  induction jobs generalizing s with
  | nil => rfl
  | cons j rest ih =>
    rw [runSequential, List.zipIdx_cons, List.map_cons, ih, List.zipIdx_succ, List.map_map]
    rfl

/-- **C61.** A run in one process is one of the possible arrivals, with the state passed from job to job. -/
theorem c61_sequential {σ : Type} (job : CVJob N → σ → σ × Option FoldOut) (jobs : List (CVJob N)) (s : σ) :
    Arrival job jobs (seqStates job jobs s) ((runSequential job jobs s).zipIdx.map fun rk => (rk.2, rk.1)) := by
  rw [sequential_eq]
  unfold Arrival
  apply List.Perm.of_eq
  apply List.ext_getElem
  · simp
  · intro i h1 h2
    simp

/-- **C61.** If the solver's answer does not depend on the mutable state (cyclic selection, or an integer `random_state`), the fitted
estimator is the same for every number of processes and every order of completion. -/
theorem c61_schedule {σ : Type} (C : FitCfg p ic) (stats : Stats) (solver : SolverFn σ p ic)
    (hdet : ∀ m D A s s' start, (solver m D A s start).2 = (solver m D A s' start).2)
    (R : Rows N) (S : ℕ) (splits : List (List (Fin N) × List (Fin N))) (l1s : List ℝ) (alphass : List (List ℝ))
    (st st' : ℕ → σ) (a a' : List (ℕ × Option FoldOut)) (h : Arrival (fitPath C stats solver R) (cvJobs splits l1s alphass) st a)
    (h' : Arrival (fitPath C stats solver R) (cvJobs splits l1s alphass) st' a') (s s' : σ) :
    (cvFit C stats solver R S splits l1s alphass a s).map (·.2) = (cvFit C stats solver R S splits l1s alphass a' s').map (·.2) := by
  have hpath : ∀ {m : ℕ} (Q : Prepared m p ic) (alphas : List ℝ) (s s' : σ), (Q.path solver alphas s).2 = (Q.path solver alphas s').2 := by
    intro m Q alphas
    unfold Prepared.path
    generalize Q.start = c
    induction alphas generalizing c with
    | nil => intro s s'; rfl
    | cons b rest ih =>
      intro s s'
      simp only [solvePath, Prepared.solveFn]
      rw [hdet m _ _ s s' c]
      congr 1
      exact ih _ _ _
  have hjob : ∀ j s s', (fitPath C stats solver R j s).2 = (fitPath C stats solver R j s').2 := by
    intro j s s'
    unfold fitPath
    cases prepare C stats (R.fold j.train) j.l1 with
    | none => rfl
    | some Q =>
      simp only
      split
      · rfl
      · simp only [hpath Q j.alphas s s']
  unfold cvFit
  simp only [Option.bind_eq_bind]
  rw [zipIdx_perm_ext _ hjob _ st st' a a' h h']
  generalize joblibCollect (cvJobs splits l1s alphass).length a' = o
  cases o with
  | none => simp only [Option.bind_none, Option.map_none]
  | some outs =>
    simp only [Option.bind_some]
    apply Option.ext
    intro r
    simp only [Option.map_eq_some_iff, Prod.exists, exists_and_right, exists_eq_right]
    constructor
    · rintro ⟨s₁, hr⟩
      rw [cvFinish_spec] at hr
      obtain ⟨al0, best, Q, bestRow, F⟩ := hr
      refine ⟨(Q.path solver r.refit.alphas s').1, ?_⟩
      rw [cvFinish_spec]
      refine ⟨al0, best, Q, bestRow, { F with state := rfl, row := ?_, refit := ?_ }⟩
      · rw [hpath Q _ s' s]; exact F.row
      · rw [hpath Q _ s' s]; exact F.refit
    · rintro ⟨s₁, hr⟩
      rw [cvFinish_spec] at hr
      obtain ⟨al0, best, Q, bestRow, F⟩ := hr
      refine ⟨(Q.path solver r.refit.alphas s).1, ?_⟩
      rw [cvFinish_spec]
      refine ⟨al0, best, Q, bestRow, { F with state := rfl, row := ?_, refit := ?_ }⟩
      · rw [hpath Q _ s s']; exact F.row
      · rw [hpath Q _ s s']; exact F.refit

/-! ### Where the results are stored -/

theorem fitPath_spec {σ : Type} (C : FitCfg p ic) (stats : Stats) (solver : SolverFn σ p ic) (R : Rows N) (j : CVJob N) (s : σ)
    (o : FoldOut) (h : (fitPath C stats solver R j s).2 = some o) :
    ∃ Q, prepare C stats (R.fold j.train) j.l1 = some Q ∧ o =
      { intercepts := ((Q.path solver j.alphas s).2.map (report ic C.thr Q.means Q.stds)).map (·.1)
        coefs := ((Q.path solver j.alphas s).2.map (report ic C.thr Q.means Q.stds)).map (·.2)
        dev := ((Q.path solver j.alphas s).2.map (report ic C.thr Q.means Q.stds)).map fun r => foldDeviance C (R.fold j.test) r.1 r.2
        trainDev := (Q.path solver j.alphas s).2.map (foldTrainDeviance C Q) } := by
  unfold fitPath at h
  cases hq : prepare C stats (R.fold j.train) j.l1 with
  | none => rw [hq] at h; cases h
  | some Q =>
    rw [hq] at h
    simp only at h
    split at h
    · cases h
    · simp only [Option.some.injEq] at h
      exact ⟨Q, rfl, h.symm⟩

theorem path_length {σ : Type} {m : ℕ} (Q : Prepared m p ic) (solver : SolverFn σ p ic) (alphas : List ℝ) (s : σ) :
    (Q.path solver alphas s).2.length = alphas.length := (c41_path (Q.solveFn solver) Q.D.P1 Q.D.P2 alphas s Q.start).1

theorem reshape3_some {α : Type} {S L K : ℕ} {rows : List (List α)} {flat : List α} (h : reshape3 S L K rows = some flat) :
    (∀ r ∈ rows, ∀ r' ∈ rows, r.length = r'.length) ∧ flat = rows.flatten ∧ flat.length = S * L * K := by
  unfold reshape3 at h
  split at h
  · next hc =>
    simp only [Option.some.injEq] at h
    exact ⟨hc.1, h.symm, by rw [← h]; exact hc.2⟩
  · cases h

/-- The shape of everything when `fit` succeeds. -/
structure Shape {σ : Type} (C : FitCfg p ic) (stats : Stats) (solver : SolverFn σ p ic) (R : Rows N) (S : ℕ)
    (splits : List (List (Fin N) × List (Fin N))) (l1s : List ℝ) (alphass : List (List ℝ)) (st : ℕ → σ) (outs : List FoldOut)
    (K : ℕ) : Prop where
  Kpos : 0 < K
  Lpos : 0 < l1s.length
  splits_len : splits.length = S
  rect : ∀ al ∈ alphass, al.length = K
  outs_len : outs.length = S * l1s.length
  job : ∀ s l (hs : s < splits.length) (hl : l < l1s.length) (hal : l < alphass.length), ∃ o, outs[s * l1s.length + l]? = some o ∧
    (fitPath C stats solver R ⟨splits[s].1, splits[s].2, l1s[l], alphass[l]⟩ (st (s * l1s.length + l))).2 = some o
  rows : ∀ o ∈ outs, o.intercepts.length = K ∧ o.coefs.length = K ∧ o.dev.length = K ∧ o.trainDev.length = K

theorem argmin_pos {l : List ℝ} {i : ℕ} (h : argmin l = some i) : i < l.length := by
  unfold argmin at h
  rw [Option.map_eq_some_iff] at h
  obtain ⟨⟨j, m⟩, h1, h2⟩ := h
  simp only at h2
  subst h2
  obtain ⟨hl, -, -⟩ := argminVal_spec l j m h1
  exact (List.getElem?_eq_some_iff.1 hl).1

theorem cvFit_shape {σ : Type} (C : FitCfg p ic) (stats : Stats) (solver : SolverFn σ p ic) (R : Rows N) (S : ℕ)
    (splits : List (List (Fin N) × List (Fin N))) (l1s : List ℝ) (alphass : List (List ℝ)) (hal : alphass.length = l1s.length)
    (st : ℕ → σ) (arrived : List (ℕ × Option FoldOut)) (harr : Arrival (fitPath C stats solver R) (cvJobs splits l1s alphass) st arrived)
    (s s' : σ) (r : CVResult) (h : cvFit C stats solver R S splits l1s alphass arrived s = some (s', r)) :
    ∃ outs al0 best Q bestRow, Finished C stats solver R S l1s alphass outs s s' r al0 best Q bestRow ∧
      Shape C stats solver R S splits l1s alphass st outs al0.length := by
  unfold cvFit at h
  rw [Option.bind_eq_bind, Option.bind_eq_some_iff] at h
  obtain ⟨outs, hout, hfin⟩ := h
  rw [c61_collect _ _ st arrived harr] at hout
  obtain ⟨hlen, hjobs⟩ := hout
  rw [cvJobs_length splits l1s alphass hal] at hlen
  rw [cvFinish_spec] at hfin
  obtain ⟨al0, best, Q, bestRow, F⟩ := hfin
  refine ⟨outs, al0, best, Q, bestRow, F, ?_⟩
  have hb := argmin_pos F.hbest
  simp only [meanAxis0, List.length_map, List.length_range] at hb
  have hK : 0 < al0.length := by
    rcases Nat.eq_zero_or_pos al0.length with h0 | h0
    · rw [h0] at hb; simp at hb
    · exact h0
  have hL : 0 < l1s.length := by
    rcases Nat.eq_zero_or_pos l1s.length with h0 | h0
    · rw [h0] at hb; simp at hb
    · exact h0
  have hjob : ∀ s l (hs : s < splits.length) (hl : l < l1s.length) (hal' : l < alphass.length), ∃ o, outs[s * l1s.length + l]? = some o ∧
      (fitPath C stats solver R ⟨splits[s].1, splits[s].2, l1s[l], alphass[l]⟩ (st (s * l1s.length + l))).2 = some o := by
    intro s l hs hl hal'
    have hg := cvJobs_get splits l1s alphass hal s l hs hl
    obtain ⟨hlt, hge⟩ := List.getElem?_eq_some_iff.1 hg
    have hlt' : s * l1s.length + l < outs.length := by
      rw [hlen, ← cvJobs_length splits l1s alphass hal]; exact hlt
    have := hjobs _ hlt hlt'
    rw [hge] at this
    exact ⟨_, List.getElem?_eq_getElem hlt', this⟩
  obtain ⟨hsame, hflat, htot⟩ := reshape3_some F.dev
  have hne : outs ≠ [] := by
    rintro rfl
    rw [hflat] at htot
    simp only [List.map_nil, List.flatten_nil, List.length_nil] at htot
    have : 0 < S * l1s.length * al0.length := by
      have := F.pos
      positivity
    omega
  have hspos : 0 < splits.length := by
    rcases Nat.eq_zero_or_pos splits.length with h0 | h0
    · rw [h0, zero_mul] at hlen
      exact absurd (List.length_eq_zero_iff.1 hlen) hne
    · exact h0
  have hal0 : alphass[0]? = some al0 := by rw [← List.head?_eq_getElem?]; exact F.head
  -- lengths of a job's lists
  have hjl : ∀ (j : CVJob N) (s : σ) (o : FoldOut), (fitPath C stats solver R j s).2 = some o →
      o.intercepts.length = j.alphas.length ∧ o.coefs.length = j.alphas.length ∧ o.dev.length = j.alphas.length ∧
      o.trainDev.length = j.alphas.length := by
    intro j s o ho
    obtain ⟨Q, -, rfl⟩ := fitPath_spec C stats solver R j s o ho
    simp [path_length]
  obtain ⟨o0, ho0, hf0⟩ := hjob 0 0 hspos hL (by omega)
  have ho0m : o0 ∈ outs := List.mem_of_getElem? ho0
  have hal0' : alphass[0] = al0 := by
    have h' := hal0
    rw [List.getElem?_eq_getElem (by omega), Option.some.injEq] at h'
    exact h'
  have h0len := (hjl _ _ _ hf0).2.2.1
  simp only [hal0'] at h0len
  have hall : ∀ o ∈ outs, o.dev.length = al0.length := by
    intro o ho
    rw [hsame o.dev (List.mem_map.2 ⟨o, ho, rfl⟩) o0.dev (List.mem_map.2 ⟨o0, ho0m, rfl⟩), h0len]
  have hrows : ∀ o ∈ outs, o.intercepts.length = al0.length ∧ o.coefs.length = al0.length ∧ o.dev.length = al0.length ∧
      o.trainDev.length = al0.length := by
    intro o ho
    obtain ⟨k, hk, rfl⟩ := List.getElem_of_mem ho
    have hk' : k < (cvJobs splits l1s alphass).length := by rw [cvJobs_length splits l1s alphass hal, ← hlen]; exact hk
    obtain ⟨a1, a2, a3, a4⟩ := hjl _ _ _ (hjobs k hk' hk)
    have := hall _ ho
    exact ⟨by omega, by omega, by omega, by omega⟩
  have hsl : splits.length = S := by
    rw [hflat, flatten_length al0.length] at htot
    · rw [List.length_map, hlen] at htot
      have h1 := Nat.eq_of_mul_eq_mul_right hK htot
      exact Nat.eq_of_mul_eq_mul_right hL h1
    · intro x hx
      obtain ⟨o, ho, rfl⟩ := List.mem_map.1 hx
      exact hall o ho
  refine ⟨hK, hL, hsl, ?_, by rw [hlen, hsl], hjob, hrows⟩
  intro al hmem
  obtain ⟨l, hl, rfl⟩ := List.getElem_of_mem hmem
  obtain ⟨o, ho, hf⟩ := hjob 0 l hspos (by omega) hl
  have := (hjl _ _ _ hf).2.2.1
  rw [← this]
  exact hall o (List.mem_of_getElem? ho)

theorem at3_rows {α : Type} {S L K : ℕ} {rows : List (List α)} {flat : List α} (h : reshape3 S L K rows = some flat)
    (hr : ∀ r ∈ rows, r.length = K) (s l k : ℕ) (hk : k < K) : at3 L K flat s l k = rows[s * L + l]?.bind (·[k]?) := by
  obtain ⟨-, rfl, -⟩ := reshape3_some h
  exact flatten_get K rows hr _ k hk

/-- **C61.** When `fit` succeeds: there are as many splits as `get_n_splits()` says, the arrays have the shape (splits, l1 ratios,
alphas), and for every split, l1 ratio and alpha, the entries `[split, l1, alpha]` of `deviance_path_`, `train_deviance_path_`,
`coef_path_` and `intercept_path_` are the values the job for this split and l1 ratio computed for this alpha, whatever the order in
which the jobs finished. -/
theorem c61_layout {σ : Type} (C : FitCfg p ic) (stats : Stats) (solver : SolverFn σ p ic) (R : Rows N) (S : ℕ)
    (splits : List (List (Fin N) × List (Fin N))) (l1s : List ℝ) (alphass : List (List ℝ)) (hal : alphass.length = l1s.length)
    (st : ℕ → σ) (arrived : List (ℕ × Option FoldOut)) (harr : Arrival (fitPath C stats solver R) (cvJobs splits l1s alphass) st arrived)
    (s s' : σ) (r : CVResult) (h : cvFit C stats solver R S splits l1s alphass arrived s = some (s', r)) :
    ∃ K, 0 < K ∧ 0 < l1s.length ∧ (∀ al ∈ alphass, al.length = K) ∧ splits.length = S ∧
      r.dev.length = S * l1s.length * K ∧ r.trainDev.length = S * l1s.length * K ∧
      r.coefPath.length = S * l1s.length * K ∧ r.interceptPath.length = S * l1s.length * K ∧
      ∀ i l k (hi : i < splits.length) (hl : l < l1s.length) (hl' : l < alphass.length) (hk : k < K),
        ∃ o : FoldOut, (fitPath C stats solver R ⟨splits[i].1, splits[i].2, l1s[l], alphass[l]⟩ (st (i * l1s.length + l))).2 = some o ∧
          ∃ (h1 : k < o.dev.length) (h2 : k < o.trainDev.length) (h3 : k < o.coefs.length) (h4 : k < o.intercepts.length),
            r.dev[(i * l1s.length + l) * K + k]? = some o.dev[k] ∧ r.trainDev[(i * l1s.length + l) * K + k]? = some o.trainDev[k] ∧
            r.coefPath[(i * l1s.length + l) * K + k]? = some o.coefs[k] ∧
            r.interceptPath[(i * l1s.length + l) * K + k]? = some o.intercepts[k] := by
  obtain ⟨outs, al0, best, Q, bestRow, F, H⟩ := cvFit_shape C stats solver R S splits l1s alphass hal st arrived harr s s' r h
  refine ⟨al0.length, H.Kpos, H.Lpos, H.rect, H.splits_len, (reshape3_some F.dev).2.2, (reshape3_some F.tdev).2.2,
    (reshape3_some F.coefs).2.2, (reshape3_some F.ints).2.2, fun i l k hi hl hl' hk => ?_⟩
  obtain ⟨o, ho, hf⟩ := H.job i l hi hl hl'
  obtain ⟨a1, a2, a3, a4⟩ := H.rows o (List.mem_of_getElem? ho)
  refine ⟨o, hf, by omega, by omega, by omega, by omega, ?_, ?_, ?_, ?_⟩
  · have := at3_rows F.dev (fun x hx => by obtain ⟨o, ho, rfl⟩ := List.mem_map.1 hx; exact (H.rows o ho).2.2.1) i l k hk
    unfold at3 at this
    rw [this, List.getElem?_map, ho]
    simp [a3, hk]
  · have := at3_rows F.tdev (fun x hx => by obtain ⟨o, ho, rfl⟩ := List.mem_map.1 hx; exact (H.rows o ho).2.2.2) i l k hk
    unfold at3 at this
    rw [this, List.getElem?_map, ho]
    simp [a4, hk]
  · have := at3_rows F.coefs (fun x hx => by obtain ⟨o, ho, rfl⟩ := List.mem_map.1 hx; exact (H.rows o ho).2.1) i l k hk
    unfold at3 at this
    rw [this, List.getElem?_map, ho]
    simp [a2, hk]
  · have := at3_rows F.ints (fun x hx => by obtain ⟨o, ho, rfl⟩ := List.mem_map.1 hx; exact (H.rows o ho).1) i l k hk
    unfold at3 at this
    rw [this, List.getElem?_map, ho]
    simp [a1, hk]

/-- **C61.** A splitter whose `get_n_splits()` disagrees with the number of splits it produces makes `fit` raise; nothing is stored at a
wrong position. -/
theorem c61_raises {σ : Type} (C : FitCfg p ic) (stats : Stats) (solver : SolverFn σ p ic) (R : Rows N) (S : ℕ)
    (splits : List (List (Fin N) × List (Fin N))) (l1s : List ℝ) (alphass : List (List ℝ)) (hal : alphass.length = l1s.length)
    (st : ℕ → σ) (arrived : List (ℕ × Option FoldOut)) (harr : Arrival (fitPath C stats solver R) (cvJobs splits l1s alphass) st arrived)
    (s : σ) (hS : splits.length ≠ S) : cvFit C stats solver R S splits l1s alphass arrived s = none := by
  cases h : cvFit C stats solver R S splits l1s alphass arrived s with
  | none => rfl
  | some q =>
    obtain ⟨s', r⟩ := q
    obtain ⟨outs, al0, best, Q, bestRow, F, H⟩ := cvFit_shape C stats solver R S splits l1s alphass hal st arrived harr s s' r h
    exact absurd H.splits_len hS

/-! ### C60: the selection -/

/-- The mean over the splits of the deviances stored for l1 ratio `l` and alpha `k`. -/
noncomputable def Spec.meanOutOfFold (S L K : ℕ) (dev : List ℝ) (l k : ℕ) : ℝ :=
  (∑ i ∈ Finset.range S, dev.getD ((i * L + l) * K + k) 0) / S

/-- **C60.** When `fit` succeeds, `l1_ratio_` and `alpha_` are the l1 ratio and alpha (of this l1 ratio's path) whose mean out-of-fold
deviance is the smallest; among several, the first in the order of the l1 ratios, then of the alphas. -/
theorem c60_select {σ : Type} (C : FitCfg p ic) (stats : Stats) (solver : SolverFn σ p ic) (R : Rows N) (S : ℕ)
    (splits : List (List (Fin N) × List (Fin N))) (l1s : List ℝ) (alphass : List (List ℝ)) (hal : alphass.length = l1s.length)
    (st : ℕ → σ) (arrived : List (ℕ × Option FoldOut)) (harr : Arrival (fitPath C stats solver R) (cvJobs splits l1s alphass) st arrived)
    (s s' : σ) (r : CVResult) (h : cvFit C stats solver R S splits l1s alphass arrived s = some (s', r)) :
    ∃ K bl ba, (∀ al ∈ alphass, al.length = K) ∧ bl < l1s.length ∧ ba < K ∧
      l1s[bl]? = some r.l1 ∧ alphass[bl]? = some r.refit.alphas ∧ r.refit.alphas[ba]? = some r.alpha ∧
      ∀ l k, l < l1s.length → k < K →
        meanOutOfFold S l1s.length K r.dev bl ba ≤ meanOutOfFold S l1s.length K r.dev l k ∧
        (l < bl ∨ (l = bl ∧ k < ba) → meanOutOfFold S l1s.length K r.dev bl ba < meanOutOfFold S l1s.length K r.dev l k) := by
  obtain ⟨outs, al0, best, Q, bestRow, F, H⟩ := cvFit_shape C stats solver R S splits l1s alphass hal st arrived harr s s' r h
  have hlt := argmin_pos F.hbest
  simp only [meanAxis0, List.length_map, List.length_range] at hlt
  have hK := H.Kpos
  have hbl : best / al0.length < l1s.length := by
    rw [Nat.div_lt_iff_lt_mul hK]; exact hlt
  refine ⟨al0.length, best / al0.length, best % al0.length, H.rect, hbl, Nat.mod_lt _ hK, F.l1, F.als, F.al, fun l k hl hk => ?_⟩
  have hidx : ∀ l k, l < l1s.length → k < al0.length → l * al0.length + k < l1s.length * al0.length := by
    intro l k hl hk
    calc l * al0.length + k < l * al0.length + al0.length := by omega
      _ = (l + 1) * al0.length := by ring
      _ ≤ l1s.length * al0.length := Nat.mul_le_mul_right _ hl
  have hval : ∀ l k, l < l1s.length → k < al0.length →
      (meanAxis0 S l1s.length al0.length r.dev)[l * al0.length + k]? = some (meanOutOfFold S l1s.length al0.length r.dev l k) := by
    intro l k hl hk
    unfold meanAxis0 meanOutOfFold
    rw [List.getElem?_map, List.getElem?_range (hidx l k hl hk), Option.map_some]
    congr 3
    funext i
    congr 1
    ring
  have hbest : best = best / al0.length * al0.length + best % al0.length := by
    rw [mul_comm]; exact (Nat.div_add_mod _ _).symm
  have hm := F.hbest
  unfold argmin at hm
  rw [Option.map_eq_some_iff] at hm
  obtain ⟨⟨j, m⟩, h1, h2⟩ := hm
  simp only at h2
  subst h2
  obtain ⟨g1, g2, g3⟩ := argminVal_spec _ _ _ h1
  have hv := hval _ _ hbl (Nat.mod_lt j hK)
  rw [← hbest, g1, Option.some.injEq] at hv
  rw [← hv]
  refine ⟨g2 _ (List.mem_of_getElem? (hval l k hl hk)), fun hlex => g3 _ _ ?_ (hval l k hl hk)⟩
  rw [hbest]
  rcases hlex with h | ⟨h, h'⟩
  · calc l * al0.length + k < l * al0.length + al0.length := by omega
      _ = (l + 1) * al0.length := by ring
      _ ≤ j / al0.length * al0.length := Nat.mul_le_mul_right _ h
      _ ≤ _ := Nat.le_add_right _ _
  · rw [h]; omega

/-- **C60.** The stored out-of-fold deviance is the deviance, on the test rows of its split (weights normalised to sum one), of the
predictions made with the coefficients and intercept stored at the same position; with observations in the support and means in
range it is the weighted mean of the unit deviances of the test rows. -/
theorem c60_deviance {σ : Type} (C : FitCfg p ic) (stats : Stats) (solver : SolverFn σ p ic) (R : Rows N) (S : ℕ)
    (splits : List (List (Fin N) × List (Fin N))) (l1s : List ℝ) (alphass : List (List ℝ)) (hal : alphass.length = l1s.length)
    (st : ℕ → σ) (arrived : List (ℕ × Option FoldOut)) (harr : Arrival (fitPath C stats solver R) (cvJobs splits l1s alphass) st arrived)
    (s s' : σ) (r : CVResult) (h : cvFit C stats solver R S splits l1s alphass arrived s = some (s', r)) (K : ℕ)
    (hK : ∀ al ∈ alphass, al.length = K) (i l k : ℕ) (hi : i < splits.length) (hl : l < l1s.length) (hk : k < K) :
    ∃ (b : ℝ) (c : ℕ → ℝ) (d : ℝ), r.interceptPath[(i * l1s.length + l) * K + k]? = some b ∧
      r.coefPath[(i * l1s.length + l) * K + k]? = some c ∧ r.dev[(i * l1s.length + l) * K + k]? = some d ∧
      ∀ mu : Fin N → ℝ, (∀ t, mu t = C.link.inverse C.e50 (∑ j : Fin p, R.X t j * c j + b + (R.off.getD fun _ => 0) t)) →
        d = C.family.deviance (fun t => R.y (splits[i].2.get t)) (fun t => mu (splits[i].2.get t))
              (fun t => R.sw (splits[i].2.get t) / ∑ u, R.sw (splits[i].2.get u)) ∧
        (Valid C.family → (∀ p, C.family = .tweedie p → p < 0 → ∀ t, 0 ≤ R.y t) →
          (∀ t ∈ splits[i].2, R.y t ∈ ySupport C.family) → (∀ t ∈ splits[i].2, mu t ∈ muRange C.family) →
          d = (splits[i].2.map fun t => R.sw t * C.family.unitDeviance (R.y t) (mu t)).sum / (splits[i].2.map R.sw).sum) := by
  obtain ⟨K', hK', hL, hrect, -, -, -, -, -, hpos⟩ := c61_layout C stats solver R S splits l1s alphass hal st arrived harr s s' r h
  have hKK : K' = K := by
    have hm : alphass[l]'(by omega) ∈ alphass := List.getElem_mem _
    rw [← hrect _ hm, hK _ hm]
  subst hKK
  obtain ⟨o, ho, h1, h2, h3, h4, e1, e2, e3, e4⟩ := hpos i l k hi hl (by omega) hk
  refine ⟨_, _, _, e4, e3, e1, fun mu hmu => ?_⟩
  obtain ⟨Q, -, rfl⟩ := fitPath_spec C stats solver R _ _ o ho
  simp only [List.getElem_map] at hmu ⊢
  set row := (Q.path solver alphass[l] (st (i * l1s.length + l))).2[k]'(by simpa using h2) with hrow
  set b := (report ic C.thr Q.means Q.stds row) with hb
  have hdev : foldDeviance C (R.fold splits[i].2) b.1 b.2
      = C.family.deviance (fun t => R.y (splits[i].2.get t)) (fun t => mu (splits[i].2.get t))
              (fun t => R.sw (splits[i].2.get t) / ∑ u, R.sw (splits[i].2.get u)) := by
    unfold foldDeviance
    simp only
    congr 1
    funext t
    rw [hmu, c12_lin_pred]
    congr 1
    have hcv : (fun k : Fin (p + ic.toNat) => if k.val < ic.toNat then b.1 else b.2 (k.val - ic.toNat)) = coefVec ic b := rfl
    rw [hcv, linPred_split, coefVec_icpt]
    simp only [coefVec_feat]
    have hz : (if ic then b.1 else 0) = b.1 := by
      cases ic with
      | true => rfl
      | false => rw [hb]; simp [report, unstandardize, outMeans]
    rw [hz]
    have ho : ((R.fold splits[i].2).off.getD fun _ => 0) t = (R.off.getD fun _ => 0) (splits[i].2.get t) := by
      unfold Rows.fold
      cases R.off <;> rfl
    rw [ho]
    simp only [Rows.fold]
    ring
  refine ⟨hdev, fun hf hF2 hy hmur => ?_⟩
  rw [hdev, c07_deviance_sum_partial C.family hf _ _ _ (fun t => hy _ (List.get_mem _ t)) (fun t => hmur _ (List.get_mem _ t))
    (fun p hp hp0 t => hF2 p hp hp0 _)]
  have hs1 : ∀ g : Fin N → ℝ, (splits[i].2.map g).sum = ∑ t, g (splits[i].2.get t) := by
    intro g
    rw [← List.sum_ofFn]
    congr 1
    apply List.ext_getElem
    · simp
    · intro a b c; simp
  rw [hs1, hs1, Finset.sum_div]
  apply Finset.sum_congr rfl
  intro t _
  ring

/-- **C60.** The coefficients stored for split `i`, l1 ratio `l` and alpha `k` come from a call of the solver that solved its problem to
within `ε` exactly if they are within `ε` of solving the documented problem on the training rows of the split, at this l1 ratio and
this alpha. -/
theorem c60_folds {σ : Type} (C : FitCfg p ic) (ht : 0 < C.thr) (hf : Valid C.family) (stats : Stats) (solver : SolverFn σ p ic)
    (R : Rows N) (S : ℕ)
    (splits : List (List (Fin N) × List (Fin N))) (l1s : List ℝ) (alphass : List (List ℝ)) (hal : alphass.length = l1s.length)
    (st : ℕ → σ) (arrived : List (ℕ × Option FoldOut)) (harr : Arrival (fitPath C stats solver R) (cvJobs splits l1s alphass) st arrived)
    (s s' : σ) (r : CVResult) (h : cvFit C stats solver R S splits l1s alphass arrived s = some (s', r)) (K : ℕ)
    (hK : ∀ al ∈ alphass, al.length = K) (i l k : ℕ) (hi : i < splits.length) (hl : l < l1s.length) (hl' : l < alphass.length)
    (hk : k < K) (hk' : k < alphass[l].length)
    (hs : ∀ j, 0 ≤ (stats _ (R.fold splits[i].1).X (R.fold splits[i].1).sw).2 j) (hy : ∀ t ∈ splits[i].1, R.y t ∈ ySupport C.family) :
    ∃ (b : ℝ) (c : ℕ → ℝ), r.interceptPath[(i * l1s.length + l) * K + k]? = some b ∧
      r.coefPath[(i * l1s.length + l) * K + k]? = some c ∧
      ∃ (D : IRLSData splits[i].1.length p ic) (A : Option (ℕ → ℕ → ℝ)) (s₁ : σ) (start : Fin (p + ic.toNat) → ℝ), ∀ ε : ℝ,
        SolvesWithin ε D (solver _ D A s₁ start).2 ↔
          DocumentedWithin C (R.fold splits[i].1)
            (penScale C.thr C.asIfScaled (stats _ (R.fold splits[i].1).X (R.fold splits[i].1).sw).2) alphass[l][k] l1s[l] ε b c := by
  obtain ⟨K', hK', hL, hrect, -, -, -, -, -, hpos⟩ := c61_layout C stats solver R S splits l1s alphass hal st arrived harr s s' r h
  have hKK : K' = K := by
    have hm : alphass[l]'(by omega) ∈ alphass := List.getElem_mem _
    rw [← hrect _ hm, hK _ hm]
  subst hKK
  obtain ⟨o, ho, h1, h2, h3, h4, e1, e2, e3, e4⟩ := hpos i l k hi hl (by omega) hk
  refine ⟨_, _, e4, e3, ?_⟩
  obtain ⟨Q, hQ, rfl⟩ := fitPath_spec C stats solver R _ _ o ho
  simp only at hQ
  have hst2 : Q.stds = (stats _ (R.fold splits[i].1).X (R.fold splits[i].1).sw).2 := by
    obtain ⟨_, _, _, _, _, hh, _⟩ := prepare_spec C stats (R.fold splits[i].1) l1s[l] Q hQ
    exact hh
  obtain ⟨hlen, states, -, -, hstep⟩ := c41_path (Q.solveFn solver) Q.D.P1 Q.D.P2 alphass[l] (st (i * l1s.length + l)) Q.start
  have hki : k < (solvePath (Q.solveFn solver) Q.D.P1 Q.D.P2 alphass[l] (st (i * l1s.length + l)) Q.start).2.length := by
    rw [hlen]; exact hk'
  have hrow := congrArg Prod.snd (hstep k hk' hki)
  simp only at hrow
  refine ⟨Q.D.withPen (fun j => Q.D.P1 j * alphass[l][k]) (Q.D.P2.smul alphass[l][k]), Q.A, states k,
    if h : k = 0 then Q.start else
      (solvePath (Q.solveFn solver) Q.D.P1 Q.D.P2 alphass[l] (st (i * l1s.length + l)) Q.start).2[k - 1], fun ε => ?_⟩
  simp only [List.getElem_map, Prepared.path]
  rw [← hrow, ← hst2]
  exact report_solves C ht hf stats (R.fold splits[i].1) hs (fun t => hy _ (List.get_mem _ t)) l1s[l] Q hQ alphass[l][k] ε _

/-- **C60.** `coef_` and `intercept_` are the entries for `alpha_` of the path refitted on all rows at `l1_ratio_` along this ratio's
alphas; the call of the solver for this entry solved its problem to within `ε` exactly if `coef_`, `intercept_` are within `ε` of
solving the documented problem on all the data at `alpha_` and `l1_ratio_`. -/
theorem c60_coef {σ : Type} (C : FitCfg p ic) (ht : 0 < C.thr) (hf : Valid C.family) (stats : Stats) (solver : SolverFn σ p ic)
    (R : Rows N) (hs : ∀ j, 0 ≤ (stats N R.X R.sw).2 j) (hy : ∀ i, R.y i ∈ ySupport C.family) (S : ℕ)
    (splits : List (List (Fin N) × List (Fin N))) (l1s : List ℝ) (alphass : List (List ℝ)) (hal : alphass.length = l1s.length)
    (st : ℕ → σ) (arrived : List (ℕ × Option FoldOut)) (harr : Arrival (fitPath C stats solver R) (cvJobs splits l1s alphass) st arrived)
    (s s' : σ) (r : CVResult) (h : cvFit C stats solver R S splits l1s alphass arrived s = some (s', r)) :
    r.refit.coefPath.length = r.refit.alphas.length ∧ r.refit.interceptPath.length = r.refit.alphas.length ∧
    ∃ ba : ℕ, r.refit.alphas[ba]? = some r.alpha ∧ r.refit.coefPath[ba]? = some r.refit.coef ∧
      r.refit.interceptPath[ba]? = some r.refit.intercept ∧
      ∃ (D : IRLSData N p ic) (A : Option (ℕ → ℕ → ℝ)) (s₁ : σ) (start : Fin (p + ic.toNat) → ℝ), ∀ ε : ℝ,
        SolvesWithin ε D (solver N D A s₁ start).2 ↔
          DocumentedWithin C R (penScale C.thr C.asIfScaled (stats N R.X R.sw).2) r.alpha r.l1 ε r.refit.intercept r.refit.coef := by
  obtain ⟨outs, al0, best, Q, bestRow, F, H⟩ := cvFit_shape C stats solver R S splits l1s alphass hal st arrived harr s s' r h
  have hst2 : Q.stds = (stats N R.X R.sw).2 := by
    obtain ⟨_, _, _, _, _, hh, _⟩ := prepare_spec C stats R r.l1 Q F.prep
    exact hh
  obtain ⟨hlen, states, -, -, hstep⟩ := c41_path (Q.solveFn solver) Q.D.P1 Q.D.P2 r.refit.alphas s Q.start
  have hcp := congrArg PathResult.coefPath F.refit
  have hip := congrArg PathResult.interceptPath F.refit
  have hc := congrArg PathResult.coef F.refit
  have hi := congrArg PathResult.intercept F.refit
  simp only at hcp hip hc hi
  obtain ⟨hba, hval⟩ := List.getElem?_eq_some_iff.1 F.al
  refine ⟨by rw [hcp]; simp [path_length], by rw [hip]; simp [path_length], best % al0.length, F.al, ?_, ?_, ?_⟩
  · rw [hcp, hc, List.getElem?_map, F.row]; rfl
  · rw [hip, hi, List.getElem?_map, F.row]; rfl
  · have hki : best % al0.length < (solvePath (Q.solveFn solver) Q.D.P1 Q.D.P2 r.refit.alphas s Q.start).2.length := by
      rw [hlen]; exact hba
    have hrow := congrArg Prod.snd (hstep _ hba hki)
    simp only at hrow
    refine ⟨Q.D.withPen (fun j => Q.D.P1 j * r.alpha) (Q.D.P2.smul r.alpha), Q.A, states (best % al0.length),
      if h : best % al0.length = 0 then Q.start else
        (solvePath (Q.solveFn solver) Q.D.P1 Q.D.P2 r.refit.alphas s Q.start).2[best % al0.length - 1], fun ε => ?_⟩
    rw [hval] at hrow
    have hbr : bestRow = report ic C.thr Q.means Q.stds
        (solvePath (Q.solveFn solver) Q.D.P1 Q.D.P2 r.refit.alphas s Q.start).2[best % al0.length] := by
      have := F.row
      rw [List.getElem?_map, Prepared.path, List.getElem?_eq_getElem hki, Option.map_some, Option.some.injEq] at this
      exact this.symm
    rw [hi, hc, hbr, ← hrow, ← hst2]
    exact report_solves C ht hf stats R hs hy r.l1 Q F.prep r.alpha ε _

/-- **C60.** Predictions of the fitted estimator without further arguments are those for `alpha_`: the same as with `alpha_index` at its
position in the path and, if the alphas are distinct, with `alpha=alpha_`. -/
theorem c60_predict {σ : Type} (C : FitCfg p ic) (stats : Stats) (solver : SolverFn σ p ic) (R : Rows N) (S : ℕ)
    (splits : List (List (Fin N) × List (Fin N))) (l1s : List ℝ) (alphass : List (List ℝ)) (hal : alphass.length = l1s.length)
    (st : ℕ → σ) (arrived : List (ℕ × Option FoldOut)) (harr : Arrival (fitPath C stats solver R) (cvJobs splits l1s alphass) st arrived)
    (s s' : σ) (r : CVResult) (h : cvFit C stats solver R S splits l1s alphass arrived s = some (s', r))
    (X : Fin n → ℕ → ℝ) (off : Option (Fin n → ℝ)) :
    (∃ ba : ℕ, r.refit.alphas[ba]? = some r.alpha ∧
      linearPredictorCV p r.refit X off .none .none = linearPredictorCV p r.refit X off (.one ba) .none) ∧
    (r.refit.alphas.Nodup →
      linearPredictorCV p r.refit X off .none .none = linearPredictorCV p r.refit X off .none (.one r.alpha)) := by
  obtain ⟨outs, al0, best, Q, bestRow, F, H⟩ := cvFit_shape C stats solver R S splits l1s alphass hal st arrived harr s s' r h
  have hcp := congrArg PathResult.coefPath F.refit
  have hip := congrArg PathResult.interceptPath F.refit
  have hc := congrArg PathResult.coef F.refit
  have hi := congrArg PathResult.intercept F.refit
  simp only at hcp hip hc hi
  obtain ⟨hba, hval⟩ := List.getElem?_eq_some_iff.1 F.al
  have g1 : r.refit.coefPath[best % al0.length]? = some r.refit.coef := by rw [hcp, hc, List.getElem?_map, F.row]; rfl
  have g2 : r.refit.interceptPath[best % al0.length]? = some r.refit.intercept := by rw [hip, hi, List.getElem?_map, F.row]; rfl
  have hidx : linearPredictorCV p r.refit X off .none .none
      = linearPredictorCV p r.refit X off (.one (best % al0.length : ℕ)) .none := by
    simp only [linearPredictorCV, resolveAlphaIndex, Option.bind_eq_bind, Option.bind_some, computeLinearPredictor]
    rw [pyGet_nat, pyGet_nat, g1, g2]
    rfl
  refine ⟨⟨best % al0.length, F.al, hidx⟩, fun hd => ?_⟩
  have hm := c42_member p r.refit hd (by rw [hcp]; simp [path_length]) (by rw [hip]; simp [path_length]) X off _ hba
  rw [hval] at hm
  have e : linearPredictor p true r.refit X off .none (.one r.alpha) = linearPredictorCV p r.refit X off .none (.one r.alpha) := rfl
  rw [← e, hm]
  rw [List.getElem?_eq_some_iff] at g1 g2
  obtain ⟨l1, e1⟩ := g1
  obtain ⟨l2, e2⟩ := g2
  rw [e1, e2]
  simp only [linearPredictorCV, resolveAlphaIndex, Option.bind_eq_bind, Option.bind_some, computeLinearPredictor, addOffset_xbeta]

/-- **C60.** Given alphas are used for every l1 ratio, each as often as given, from the largest to the smallest. -/
theorem c60_alphas (C : FitCfg p ic) (stats : Stats) (R : Rows N) (l1s : List ℝ) (l : List ℝ) (k : ℕ) (m q : Option ℝ) :
    ∃ alphass, cvAlphas C stats R l1s (some l) k m q = some alphass ∧ alphass.length = l1s.length ∧
      ∀ al ∈ alphass, al.Perm l ∧ al.Pairwise (· ≥ ·) := by
  classical
  refine ⟨_, rfl, by simp, ?_⟩
  intro al hal
  obtain ⟨-, rfl⟩ := List.mem_replicate.1 hal
  constructor
  · exact (List.reverse_perm _).trans (List.mergeSort_perm _ _)
  · rw [List.pairwise_reverse]
    have := List.pairwise_mergeSort (le := fun a b : ℝ => decide (a ≤ b)) (fun a b c => by
      simp only [decide_eq_true_eq]; exact le_trans) (fun a b => by simp only [Bool.or_eq_true, decide_eq_true_eq]; exact le_total a b) l
    refine this.imp fun hab => ?_
    simpa using hab

/-- **C60.** Without given alphas there is one path per l1 ratio. -/
theorem c60_paths (C : FitCfg p ic) (stats : Stats) (R : Rows N) (l1s : List ℝ) (k : ℕ) (m q : Option ℝ) (alphass : List (List ℝ))
    (h : cvAlphas C stats R l1s none k m q = some alphass) : alphass.length = l1s.length := by
  unfold cvAlphas at h
  rw [mapM_forall2] at h
  exact h.length_eq.symm

/-! ### C71 -/

/-- **C71.** No leakage: given the alphas, the coefficients, intercepts and training deviances of a split depend only on its training
rows. Two data sets that agree on the training rows (and possibly nowhere else) give the same. -/
theorem c71_no_leakage {σ : Type} (C : FitCfg p ic) (stats : Stats) (solver : SolverFn σ p ic) (R R' : Rows N) (j : CVJob N) (s : σ)
    (hX : ∀ t ∈ j.train, R.X t = R'.X t) (hy : ∀ t ∈ j.train, R.y t = R'.y t) (hw : ∀ t ∈ j.train, R.sw t = R'.sw t)
    (ho : (R.off = none ∧ R'.off = none) ∨ ∃ o o', R.off = some o ∧ R'.off = some o' ∧ ∀ t ∈ j.train, o t = o' t) :
    ((fitPath C stats solver R j s).2.map fun o => (o.intercepts, o.coefs, o.trainDev))
      = (fitPath C stats solver R' j s).2.map fun o => (o.intercepts, o.coefs, o.trainDev) := by
  have hfold : R.fold j.train = R'.fold j.train := by
    unfold Rows.fold
    have e1 : (fun i => R.X (j.train.get i)) = fun i => R'.X (j.train.get i) := funext fun i => hX _ (List.get_mem _ i)
    have e2 : (fun i => R.y (j.train.get i)) = fun i => R'.y (j.train.get i) := funext fun i => hy _ (List.get_mem _ i)
    have e3 : ∀ i, R.sw (j.train.get i) = R'.sw (j.train.get i) := fun i => hw _ (List.get_mem _ i)
    have e4 : (R.off.map fun o i => o (j.train.get i)) = R'.off.map fun o i => o (j.train.get i) := by
      rcases ho with ⟨h1, h2⟩ | ⟨o, o', h1, h2, h3⟩
      · rw [h1, h2]
      · rw [h1, h2]
        simp only [Option.map_some, Option.some.injEq]
        exact funext fun i => h3 _ (List.get_mem _ i)
    rw [e1, e2, e4]
    simp only [e3]
  unfold fitPath
  rw [hfold]
  cases prepare C stats (R'.fold j.train) j.l1 with
  | none => rfl
  | some Q =>
    simp only
    split
    · rfl
    · rfl

/-! A concrete cross-validation meeting the hypotheses: the two observations of `fitEx`, each left out once, alphas 2 and 1.  The solver
counts its calls and moves halfway from the start to the mean response, so that a second alpha gets closer to the training data.  The
results arrive in the reverse order.  Out of fold, the first alpha is better (13/4 against 53/16), and the refit on all rows gives
`coef_ = [1]`. -/

noncomputable def halfwaySolver : SolverFn ℕ 1 false := fun _ D _ s start =>
  (s + 1, fun k => (start k + ∑ i, D.sw i * D.y i) / 2)

noncomputable def cvExStats : Stats := fun _ _ _ => (fun _ => 0, fun _ => 1)

def cvExSplits : List (List (Fin 2) × List (Fin 2)) := [([0], [1]), ([1], [0])]

noncomputable def cvExOut (a b c d e f : ℝ) : FoldOut where
  intercepts := [0, 0]
  coefs := [fun j => if j = 0 then a else 0, fun j => if j = 0 then b else 0]
  dev := [c, d]
  trainDev := [e, f]

theorem cvEx_job0 (s : ℕ) : (fitPath fitEx cvExStats halfwaySolver fitExRows
    { train := [0], test := [1], l1 := 0, alphas := [2, 1] } s).2 = some (cvExOut (1 / 2) (3 / 4) (25 / 4) (81 / 16) (1 / 4) (1 / 16)) := by
  norm_num [fitPath, prepare, fitEx, setupP1, setupP2, setupP2Base, startGuess, Prepared.path, solvePath, cvExOut, report, unstandardize,
    foldDeviance, foldTrainDeviance, Prepared.solveFn, halfwaySolver, IRLSData.withPen, stdData, FitCfg.problem, Rows.fold, fitExRows,
    getStartCoef, clipStart, rawStart, oneOverStd, cvExStats, safeLinPred, feat, Link.inverse, Family.deviance, normalDeviance, outMeans,
    standardize, stdX]

theorem cvEx_job1 (s : ℕ) : (fitPath fitEx cvExStats halfwaySolver fitExRows
    { train := [1], test := [0], l1 := 0, alphas := [2, 1] } s).2 = some (cvExOut (3 / 2) (9 / 4) (1 / 4) (25 / 16) (9 / 4) (9 / 16)) := by
  norm_num [fitPath, prepare, fitEx, setupP1, setupP2, setupP2Base, startGuess, Prepared.path, solvePath, cvExOut, report, unstandardize,
    foldDeviance, foldTrainDeviance, Prepared.solveFn, halfwaySolver, IRLSData.withPen, stdData, FitCfg.problem, Rows.fold, fitExRows,
    getStartCoef, clipStart, rawStart, oneOverStd, cvExStats, safeLinPred, feat, Link.inverse, Family.deviance, normalDeviance, outMeans,
    standardize, stdX]

noncomputable def cvExArrived : List (ℕ × Option FoldOut) :=
  [(1, some (cvExOut (3 / 2) (9 / 4) (1 / 4) (25 / 16) (9 / 4) (9 / 16))),
   (0, some (cvExOut (1 / 2) (3 / 4) (25 / 4) (81 / 16) (1 / 4) (1 / 16)))]

theorem cvEx_arrival (st : ℕ → ℕ) : Arrival (fitPath fitEx cvExStats halfwaySolver fitExRows) (cvJobs cvExSplits [0] [[2, 1]]) st
    cvExArrived := by
  unfold Arrival cvJobs cvExSplits cvExArrived
  simp only [List.flatMap_cons, List.flatMap_nil, List.zip_cons_cons, List.zip_nil_right, List.map_cons, List.map_nil, List.append_nil,
    List.cons_append, List.nil_append, List.zipIdx_cons, List.zipIdx_nil, cvEx_job0, cvEx_job1]
  exact List.Perm.swap _ _ _

theorem cvFinish_some {σ : Type} (C : FitCfg p ic) (stats : Stats) (solver : SolverFn σ p ic) (R : Rows N) (S : ℕ) (l1s : List ℝ)
    (alphass : List (List ℝ)) (outs : List FoldOut) (s : σ) (al0 : List ℝ) (ints : List ℝ) (coefs : List (ℕ → ℝ)) (dev tdev : List ℝ)
    (best : ℕ) (l1 : ℝ) (alphas : List ℝ) (alpha : ℝ) (Q : Prepared N p ic) (h0 : alphass.head? = some al0)
    (h1 : reshape3 S l1s.length al0.length (outs.map (·.intercepts)) = some ints)
    (h2 : reshape3 S l1s.length al0.length (outs.map (·.coefs)) = some coefs)
    (h3 : reshape3 S l1s.length al0.length (outs.map (·.dev)) = some dev)
    (h4 : reshape3 S l1s.length al0.length (outs.map (·.trainDev)) = some tdev) (h5 : S ≠ 0)
    (h6 : argmin (meanAxis0 S l1s.length al0.length dev) = some best) (h7 : l1s[best / al0.length]? = some l1)
    (h8 : alphass[best / al0.length]? = some alphas) (h9 : alphas[best % al0.length]? = some alpha)
    (h10 : prepare C stats R l1 = some Q) :
    cvFinish C stats solver R S l1s alphass outs s =
      (((Q.path solver alphas s).2.map (report ic C.thr Q.means Q.stds))[best % al0.length]?).map fun bestRow =>
        ((Q.path solver alphas s).1,
          { alphas := alphass, interceptPath := ints, coefPath := coefs, dev := dev, trainDev := tdev, l1 := l1, alpha := alpha
            refit := { coef := bestRow.2, intercept := bestRow.1,
                       coefPath := ((Q.path solver alphas s).2.map (report ic C.thr Q.means Q.stds)).map (·.2),
                       interceptPath := ((Q.path solver alphas s).2.map (report ic C.thr Q.means Q.stds)).map (·.1),
                       alphas := alphas } }) := by
  unfold cvFinish
  simp only [h0, Option.bind_eq_bind, Option.bind_some, h1, h2, h3, h4, if_neg h5, h6, h7, h8, h9, h10]
  generalize (List.map (report ic C.thr Q.means Q.stds) (Q.path solver alphas s).2)[best % al0.length]? = o
  cases o <;> rfl

theorem cvEx_fit : ∃ r, cvFit fitEx cvExStats halfwaySolver fitExRows 2 cvExSplits [0] [[2, 1]] cvExArrived 0 = some (2, r) ∧
    r.alpha = 2 ∧ r.l1 = 0 ∧ r.dev = [25 / 4, 81 / 16, 1 / 4, 25 / 16] ∧ r.refit.coef 0 = 1 := by
  have hc : joblibCollect (cvJobs cvExSplits [0] [[2, 1]]).length cvExArrived
      = some [cvExOut (1 / 2) (3 / 4) (25 / 4) (81 / 16) (1 / 4) (1 / 16), cvExOut (3 / 2) (9 / 4) (1 / 4) (25 / 16) (9 / 4) (9 / 16)] := by
    rfl
  unfold cvFit
  rw [hc]
  have hm : argmin (meanAxis0 2 1 2 [25 / 4, 81 / 16, 1 / 4, 25 / 16]) = some 0 := by
    norm_num [meanAxis0, argmin, argminVal, List.range, List.range.loop, Finset.sum_range_succ]
  have hr : ∀ {α : Type} (a b c d : α), reshape3 2 1 2 [[a, b], [c, d]] = some [a, b, c, d] := by
    intro α a b c d
    unfold reshape3
    rw [if_pos]
    · rfl
    · simp
  have hQ : prepare fitEx cvExStats fitExRows 0 = some
      { means := fun _ => 0, stds := fun _ => 1
        D := stdData (1 / 10) false (fun _ => 0) (fun _ => 1) (fitEx.problem fitExRows (fun _ => 0)
          (Pen2.smul 1 (Pen2.vec fun _ => 1)).symmetrise)
        A := none, start := fun _ => 0 } := by
    simp [prepare, fitEx, setupP1, setupP2, setupP2Base, startGuess, cvExStats, getStartCoef, rawStart]
    funext k
    simp [clipStart]
  have := cvFinish_some fitEx cvExStats halfwaySolver fitExRows 2 [0] [[2, 1]]
    [cvExOut (1 / 2) (3 / 4) (25 / 4) (81 / 16) (1 / 4) (1 / 16), cvExOut (3 / 2) (9 / 4) (1 / 4) (25 / 16) (9 / 4) (9 / 16)]
    0 [2, 1] _ _ _ _ 0 0 [2, 1] 2 _ rfl (hr 0 0 0 0) (hr _ _ _ _)
      (hr _ _ _ _) (hr _ _ _ _) (by norm_num) hm rfl rfl rfl hQ
  rw [Option.bind_eq_bind, Option.bind_some, this]
  norm_num [Prepared.path, solvePath, report, unstandardize,
    Prepared.solveFn, halfwaySolver, IRLSData.withPen, stdData, FitCfg.problem, fitEx, fitExRows, oneOverStd, feat]

end Glum
