import Mathlib.Algebra.Order.Field.Basic
import Mathlib.Data.List.FinRange
import Mathlib.Order.WithBot
import Mathlib.Logic.Function.Basic
import Verif.Model.Rng
/-
Model of the coordinate-descent inner solver, `src/glum/_cd_fast.pyx`.

Arithmetic is exact, over an arbitrary linearly ordered field `K` (the code: float32/float64).
A memory view indexed by coefficient is `Fin p → K`; the penalty and bound views, which are indexed
without the intercept (`ii - intercept`), are `ℕ → K`.
-/
namespace Glum

variable {K : Type*} [Field K] [LinearOrder K]

/-- `fmax` (`_cd_fast.pyx` 59-62). -/
def fmax (x y : K) : K := if y < x then x else y

/-- `fsign` (`_cd_fast.pyx` 65-71). -/
def fsign (f : K) : K := if f = 0 then 0 else if 0 < f then 1 else -1

/-- The arguments of `enet_coordinate_descent_gram` that stay fixed during the call
(`_cd_fast.pyx` 109-120).  `has_lower_bounds`/`lower_bounds` become one `Option`, and likewise the upper bounds. -/
structure CDData (K : Type*) (p a : ℕ) where
  /-- `active_set`: `a` indices into the coefficient vector. -/
  active : Fin a → Fin p
  /-- `P1`, indexed without intercept. -/
  P1 : ℕ → K
  /-- `Q`, already restricted to the active set. -/
  Q : Fin a → Fin a → K
  /-- `max_iter` -/
  maxIter : ℕ
  /-- `tol` -/
  tol : K
  /-- `intercept` -/
  intercept : Bool
  /-- `random` -/
  random : Bool
  /-- `has_lower_bounds`, `lower_bounds` -/
  lb : Option (ℕ → K)
  /-- `has_upper_bounds`, `upper_bounds` -/
  ub : Option (ℕ → K)
  /-- `eps` -/
  eps : K

/-- `P1_ii` (`_cd_fast.pyx` 160-163): the L1 weight of coefficient `ii`, zero for the intercept. -/
def CDData.pen {p a : ℕ} (D : CDData K p a) (i : Fin p) : K :=
  if i.val < D.intercept.toNat then 0 else D.P1 (i.val - D.intercept.toNat)

/-- The soft-thresholding line (`_cd_fast.pyx` 170-171), with `qd = Q[ii,ii]`. -/
def softStep (t P1 qd : K) : K := fsign (-t) * fmax (|t| - P1) 0 / qd

/-- The two bound clamps (`_cd_fast.pyx` 173-179), applied to non-intercept coefficients only. -/
def CDData.clamp {p a : ℕ} (D : CDData K p a) (i : Fin p) (v : K) : K :=
  if i.val < D.intercept.toNat then v
  else
    let v1 := match D.lb with
      | some l => if v < l (i.val - D.intercept.toNat) then l (i.val - D.intercept.toNat) else v
      | none => v
    match D.ub with
      | some u => if u (i.val - D.intercept.toNat) < v1 then u (i.val - D.intercept.toNat) else v1
      | none => v1

/-- The mutable locals of the cycle: `w`, `q`, `d_w_max`, `w_max`, and the generator state
(`_cd_fast.pyx` 132-147). -/
structure CDState (K : Type*) (p : ℕ) where
  w : Fin p → K
  q : Fin p → K
  dwMax : K
  wMax : K
  rng : BitVec 32

/-- The gradient update loop `for active_set_jj: q[jj] += (w[ii] - w_ii) * Q[ii, jj]`
(`_cd_fast.pyx` 183-185). -/
def CDData.updateQ {p a : ℕ} (D : CDData K p a) (s : Fin a) (dw : K) (q : Fin p → K) : Fin p → K :=
  (List.finRange a).foldl
    (fun q j => Function.update q (D.active j) (q (D.active j) + dw * D.Q s j)) q

/-- One pass of the loop body for the active-set position `s` (`_cd_fast.pyx` 158-193). -/
def CDData.visit {p a : ℕ} (D : CDData K p a) (s : Fin a) (st : CDState K p) : CDState K p :=
  let ii := D.active s
  if D.Q s s ≤ D.eps then st
  else
    let wOld := st.w ii
    let t := st.q ii - st.w ii * D.Q s s
    let v := D.clamp ii (softStep t (D.pen ii) (D.Q s s))
    let q' := if v ≠ 0 ∨ wOld ≠ 0 then D.updateQ s (v - wOld) st.q else st.q
    let d := |v - wOld|
    { w := Function.update st.w ii v
      q := q'
      dwMax := if d > st.dwMax then d else st.dwMax
      wMax := if |v| > st.wMax then |v| else st.wMax
      rng := st.rng }

/-- The position chosen in pass `f` of the cycle (`_cd_fast.pyx` 153-157), and the advanced generator.
The code indexes `active_set` with the drawn number; `% a` in the `Fin` coercion is the identity because
`randInt` is already below `a` (theorem `c25_rand_int_in_range`). -/
def CDData.pick {p a : ℕ} [NeZero a] (D : CDData K p a) (f : Fin a) (rng : BitVec 32) : Fin a × BitVec 32 :=
  if D.random then
    let r := randInt (BitVec.ofNat 32 a) rng
    (Fin.ofNat a r.1.toNat, r.2)
  else (f, rng)

/-- One coordinate pass: pick, then visit (`_cd_fast.pyx` 152-193). -/
def CDData.pass {p a : ℕ} [NeZero a] (D : CDData K p a) (st : CDState K p) (f : Fin a) : CDState K p :=
  let c := D.pick f st.rng
  D.visit c.1 { st with rng := c.2 }

/-- One cycle over the active set, `w_max`/`d_w_max` reset first (`_cd_fast.pyx` 149-193).
With an empty active set the loop body never runs. -/
def CDData.cycle {p a : ℕ} (D : CDData K p a) (st : CDState K p) : CDState K p :=
  match a with
  | 0 => { st with dwMax := 0, wMax := 0 }
  | a' + 1 => (List.finRange (a' + 1)).foldl (CDData.pass (a := a' + 1) D) { st with dwMax := 0, wMax := 0 }

/-- The contribution of one non-intercept coefficient to the minimum-norm subgradient
(`cython_norm_min_subgrad`, `_cd_fast.pyx` 276-284). -/
def subgradTerm (c g P1 : K) (lb ub : Option K) : K :=
  let t0 := if c = 0 then fsign g * fmax (|g| - P1) 0 else g + fsign c * P1
  let t1 := match lb with
    | some l => if c = l ∧ 0 < t0 then 0 else t0
    | none => t0
  match ub with
    | some u => if c = u ∧ t1 < 0 then 0 else t1
    | none => t1

/-- `cython_norm_min_subgrad` (`_cd_fast.pyx` 218-287): the loop over the active set with the two
accumulators `norm_out` and `max_out`; `INFINITY` is `⊤`.  Note that the intercept *assigns* both. -/
def normMinSubgrad {p : ℕ} (active : List (Fin p)) (coef grad : Fin p → K) (P1 : ℕ → K)
    (intercept : Bool) (lb ub : Option (ℕ → K)) : K × WithTop K :=
  active.foldl (fun acc i =>
    if i.val < intercept.toNat then (|grad i|, ((|grad i| : K) : WithTop K))
    else
      let k := i.val - intercept.toNat
      let absterm := |subgradTerm (coef i) (grad i) (P1 k) (lb.map (· k)) (ub.map (· k))|
      (acc.1 + absterm, if acc.2 < (absterm : WithTop K) then (absterm : WithTop K) else acc.2))
    (0, ⊤)

/-- The result of `enet_coordinate_descent_gram`: `w`, the last computed `norm_min_subgrad`, `n_iter + 1`,
and whether the convergence warning was raised (`_cd_fast.pyx` 207-215). -/
structure CDResult (K : Type*) (p : ℕ) where
  w : Fin p → K
  norm : K
  nIter : ℕ
  warned : Bool

/-- The `for n_iter in range(max_iter)` loop with its `break`/`else` (`_cd_fast.pyx` 148-213).
`k` is the current `n_iter`, `norm` the last value of `norm_min_subgrad`.  The loop counter after exhaustion
is `max_iter - 1`; for `max_iter = 0` it keeps its initial value 0. -/
def CDData.loop {p a : ℕ} (D : CDData K p a) : (fuel k : ℕ) → K → CDState K p → CDResult K p
  | 0, k, norm, st => { w := st.w, norm := norm, nIter := k - 1 + 1, warned := true }
  | fuel + 1, k, norm, st =>
    let st' := D.cycle st
    if st'.wMax = 0 ∨ st'.dwMax / st'.wMax < D.tol ∨ k = D.maxIter - 1 then
      let norm' := (normMinSubgrad ((List.finRange a).map D.active) st'.w st'.q D.P1 D.intercept D.lb D.ub).1
      if norm' ≤ D.tol then { w := st'.w, norm := norm', nIter := k + 1, warned := false }
      else D.loop fuel (k + 1) norm' st'
    else D.loop fuel (k + 1) norm st'

/-- `enet_coordinate_descent_gram` (`_cd_fast.pyx` 109-215), `seed` being `rng.randint(0, RAND_R_MAX)`. -/
def CDData.run {p a : ℕ} (D : CDData K p a) (w q : Fin p → K) (seed : BitVec 32) : CDResult K p :=
  D.loop D.maxIter 0 0 { w := w, q := q, dwMax := 0, wMax := 0, rng := seed }

end Glum
