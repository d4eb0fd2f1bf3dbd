import Verif.Props.Mirror
/-
C87, C88: coordinate descent and the least-squares solver on a mirrored quadratic model.
-/
set_option linter.unusedSectionVars false
set_option linter.unusedVariables false
set_option linter.unusedSimpArgs false

namespace Glum
open Spec

noncomputable section

variable {n p : ℕ} {ic : Bool}

theorem softStep_mirror {σ : ℝ} (h : σ = 1 ∨ σ = -1) (t P q : ℝ) : softStep (σ * t) P q = σ * softStep t P q := by
  rcases h with rfl | rfl
  · simp
  · unfold softStep
    rw [neg_one_mul, neg_one_mul, fsign_negg (-t), abs_neg]
    ring

/-- Mirrored arguments of one call of the coordinate-descent routine. -/
structure MirA {m A : ℕ} (σ : Fin m → ℝ) (E' E : CDData ℝ m A) : Prop where
  sign : ∀ j, σ j = 1 ∨ σ j = -1
  active : E'.active = E.active
  P1 : E'.P1 = E.P1
  Q : ∀ i j, E'.Q i j = σ (E.active i) * σ (E.active j) * E.Q i j
  maxIter : E'.maxIter = E.maxIter
  tol : E'.tol = E.tol
  intercept : E'.intercept = E.intercept
  random : E'.random = E.random
  eps : E'.eps = E.eps
  bounds : ∀ j : Fin m, ¬ j.val < E.intercept.toNat → MirrorBounds (σ j) (E'.lb.map (· (j.val - E.intercept.toNat)))
    (E'.ub.map (· (j.val - E.intercept.toNat))) (E.lb.map (· (j.val - E.intercept.toNat))) (E.ub.map (· (j.val - E.intercept.toNat)))
  ordered : ∀ j : Fin m, ¬ j.val < E.intercept.toNat → ∀ l u, E.lb = some l → E.ub = some u → l (j.val - E.intercept.toNat) ≤ u (j.val - E.intercept.toNat)

variable {m A : ℕ} {σ : Fin m → ℝ} {E' E : CDData ℝ m A}

def clampLo (v : ℝ) (l : Option ℝ) : ℝ := l.elim v fun l => if v < l then l else v

def clampHi (v : ℝ) (u : Option ℝ) : ℝ := u.elim v fun u => if u < v then u else v

theorem clamp_eq (E : CDData ℝ m A) (i : Fin m) (hi : ¬ i.val < E.intercept.toNat) (v : ℝ) :
    E.clamp i v = clampHi (clampLo v (E.lb.map (· (i.val - E.intercept.toNat)))) (E.ub.map (· (i.val - E.intercept.toNat))) := by
  unfold CDData.clamp clampHi clampLo
  rw [if_neg hi]
  cases E.lb <;> cases E.ub <;> rfl

theorem clampLo_neg (v : ℝ) (u : Option ℝ) : clampLo (-v) (u.map fun x => -x) = -clampHi v u := by
  cases u with
  | none => rfl
  | some u =>
    show (if -v < -u then -u else -v) = -(if u < v then u else v)
    by_cases h : u < v
    · rw [if_pos h, if_pos (by linarith)]
    · rw [if_neg h, if_neg (by linarith)]

theorem clampHi_neg (v : ℝ) (l : Option ℝ) : clampHi (-v) (l.map fun x => -x) = -clampLo v l := by
  cases l with
  | none => rfl
  | some l =>
    show (if -l < -v then -l else -v) = -(if v < l then l else v)
    by_cases h : v < l
    · rw [if_pos h, if_pos (by linarith)]
    · rw [if_neg h, if_neg (by linarith)]

theorem clamp_swap (v : ℝ) (l u : Option ℝ) (ho : ∀ x y, l = some x → u = some y → x ≤ y) : clampLo (clampHi v u) l = clampHi (clampLo v l) u := by
  cases l with
  | none => rfl
  | some l =>
    cases u with
    | none => rfl
    | some u =>
      have hlu := ho l u rfl rfl
      show (if (if u < v then u else v) < l then l else (if u < v then u else v)) = if u < (if v < l then l else v) then u else (if v < l then l else v)
      by_cases h1 : v < l
      · rw [if_neg (by linarith : ¬ u < v), if_pos h1, if_neg (by linarith : ¬ u < l)]
      · rw [if_neg h1]
        by_cases h2 : u < v
        · rw [if_pos h2, if_neg (by linarith : ¬ u < l)]
        · rw [if_neg h2, if_neg h1]

theorem clampO_mirror {τ : ℝ} {l' u' l u : Option ℝ} (h : MirrorBounds τ l' u' l u) (ho : ∀ x y, l = some x → u = some y → x ≤ y) (v : ℝ) :
    clampHi (clampLo (τ * v) l') u' = τ * clampHi (clampLo v l) u := by
  rcases h with ⟨rfl, rfl, rfl⟩ | ⟨rfl, rfl, rfl⟩
  · rw [one_mul, one_mul]
  · rw [neg_one_mul, neg_one_mul, clampLo_neg, clampHi_neg, clamp_swap v l u ho]

theorem clamp_mirror (h : MirA σ E' E) (i : Fin m) (v : ℝ) : E'.clamp i (σ i * v) = σ i * E.clamp i v := by
  by_cases hi : i.val < E.intercept.toNat
  · unfold CDData.clamp
    rw [h.intercept, if_pos hi, if_pos hi]
  · rw [clamp_eq E' i (by rw [h.intercept]; exact hi), clamp_eq E i hi, h.intercept]
    refine clampO_mirror (h.bounds i hi) ?_ v
    intro x y hx hy
    cases hl : E.lb with
    | none => rw [hl] at hx; cases hx
    | some l =>
      cases hu : E.ub with
      | none => rw [hu] at hy; cases hy
      | some u =>
        rw [hl] at hx; rw [hu] at hy
        simp only [Option.map_some, Option.some.injEq] at hx hy
        subst hx hy
        exact h.ordered i hi l u hl hu

theorem updateQ_mirror (h : MirA σ E' E) (t : Fin A) (dw : ℝ) {q' q : Fin m → ℝ} (hq : ∀ j, q' j = σ j * q j) :
    ∀ j, E'.updateQ t (σ (E.active t) * dw) q' j = σ j * E.updateQ t dw q j := by
  unfold CDData.updateQ
  generalize List.finRange A = L
  induction L generalizing q' q with
  | nil => exact hq
  | cons x L ih =>
    simp only [List.foldl_cons]
    refine ih fun j => ?_
    rw [h.active]
    by_cases hj : j = E.active x
    · subst hj
      rw [Function.update_self, Function.update_self, hq, h.Q]
      linear_combination (σ (E.active x) * dw * E.Q t x) * sign_sq (h.sign (E.active t))
    · rw [Function.update_of_ne hj, Function.update_of_ne hj, hq]

/-- The locals of the two cycles. -/
structure MirS (σ : Fin m → ℝ) (t' t : CDState ℝ m) : Prop where
  w : ∀ j, t'.w j = σ j * t.w j
  q : ∀ j, t'.q j = σ j * t.q j
  dwMax : t'.dwMax = t.dwMax
  wMax : t'.wMax = t.wMax
  rng : t'.rng = t.rng

theorem visit_mirror (h : MirA σ E' E) (x : Fin A) {t' t : CDState ℝ m} (ht : MirS σ t' t) : MirS σ (E'.visit x t') (E.visit x t) := by
  have hx := h.sign (E.active x)
  have hQ : E'.Q x x = E.Q x x := by rw [h.Q, sign_sq hx, one_mul]
  have hpen : E'.pen (E.active x) = E.pen (E.active x) := by unfold CDData.pen; rw [h.intercept, h.P1]
  have hv : E'.clamp (E.active x) (softStep (t'.q (E.active x) - t'.w (E.active x) * E'.Q x x) (E'.pen (E.active x)) (E'.Q x x))
      = σ (E.active x) * E.clamp (E.active x) (softStep (t.q (E.active x) - t.w (E.active x) * E.Q x x) (E.pen (E.active x)) (E.Q x x)) := by
    rw [hQ, hpen, ht.q, ht.w,
      show σ (E.active x) * t.q (E.active x) - σ (E.active x) * t.w (E.active x) * E.Q x x = σ (E.active x) * (t.q (E.active x) - t.w (E.active x) * E.Q x x) by ring,
      softStep_mirror hx, clamp_mirror h]
  unfold CDData.visit
  simp only
  rw [h.active, h.eps, hv, hQ]
  split
  · exact ht
  generalize E.clamp (E.active x) (softStep (t.q (E.active x) - t.w (E.active x) * E.Q x x) (E.pen (E.active x)) (E.Q x x)) = v
  have hd : σ (E.active x) * v - t'.w (E.active x) = σ (E.active x) * (v - t.w (E.active x)) := by rw [ht.w]; ring
  rw [hd, sign_abs hx, sign_abs hx, ht.dwMax, ht.wMax]
  refine ⟨fun j => ?_, fun j => ?_, rfl, rfl, ht.rng⟩
  · by_cases hj : j = E.active x
    · subst hj; simp only [Function.update_self]
    · simp only [Function.update_of_ne hj, ht.w]
  · have hne : (σ (E.active x) * v ≠ 0 ∨ t'.w (E.active x) ≠ 0) ↔ (v ≠ 0 ∨ t.w (E.active x) ≠ 0) := by
      rw [ht.w]
      rcases hx with e | e <;> rw [e] <;> simp
    by_cases hc : v ≠ 0 ∨ t.w (E.active x) ≠ 0
    · simp only [if_pos hc, if_pos (hne.2 hc)]
      exact updateQ_mirror h x _ ht.q j
    · simp only [if_neg hc, if_neg fun h' => hc (hne.1 h')]
      exact ht.q j

theorem pass_mirror {A : ℕ} [NeZero A] {E' E : CDData ℝ m A} (h : MirA σ E' E) (f : Fin A) {t' t : CDState ℝ m} (ht : MirS σ t' t) :
    MirS σ (E'.pass t' f) (E.pass t f) := by
  have hp : E'.pick f t'.rng = E.pick f t.rng := by unfold CDData.pick; rw [h.random, ht.rng]
  unfold CDData.pass
  simp only
  rw [hp]
  exact visit_mirror h _ ⟨ht.w, ht.q, ht.dwMax, ht.wMax, rfl⟩

theorem cycle_mirror (h : MirA σ E' E) {t' t : CDState ℝ m} (ht : MirS σ t' t) : MirS σ (E'.cycle t') (E.cycle t) := by
  have h0 : MirS σ { t' with dwMax := 0, wMax := 0 } { t with dwMax := 0, wMax := 0 } := ⟨ht.w, ht.q, rfl, rfl, ht.rng⟩
  unfold CDData.cycle
  cases A with
  | zero => exact h0
  | succ b =>
    simp only
    generalize List.finRange (b + 1) = L
    generalize ({ t' with dwMax := 0, wMax := 0 } : CDState ℝ m) = u' at h0 ⊢
    generalize ({ t with dwMax := 0, wMax := 0 } : CDState ℝ m) = u at h0 ⊢
    induction L generalizing u' u with
    | nil => exact h0
    | cons x L ih =>
      simp only [List.foldl_cons]
      exact ih _ _ (pass_mirror h x h0)

theorem cdLoop_mirror (h : MirA σ E' E) : ∀ (fuel k : ℕ) (nm : ℝ) (t' t : CDState ℝ m), MirS σ t' t →
    (∀ j, (E'.loop fuel k nm t').w j = σ j * (E.loop fuel k nm t).w j) ∧ (E'.loop fuel k nm t').nIter = (E.loop fuel k nm t).nIter ∧
    (E'.loop fuel k nm t').warned = (E.loop fuel k nm t).warned ∧ (E'.loop fuel k nm t').norm = (E.loop fuel k nm t).norm := by
  intro fuel
  induction fuel with
  | zero => intro k nm t' t ht; exact ⟨ht.w, rfl, rfl, rfl⟩
  | succ fuel ih =>
    intro k nm t' t ht
    have hc := cycle_mirror h ht
    have hn : normMinSubgrad ((List.finRange A).map E'.active) (E'.cycle t').w (E'.cycle t').q E'.P1 E'.intercept E'.lb E'.ub
        = normMinSubgrad ((List.finRange A).map E.active) (E.cycle t).w (E.cycle t).q E.P1 E.intercept E.lb E.ub := by
      rw [h.active, h.intercept]
      exact normMinSubgrad_mirror (ic := E.intercept) _ σ h.sign h.bounds h.P1 (fun j _ => hc.w j) hc.q
    unfold CDData.loop
    simp only
    rw [hn, hc.wMax, hc.dwMax, h.tol, h.maxIter]
    split
    · split
      · exact ⟨hc.w, rfl, rfl, rfl⟩
      · exact ih _ _ _ _ hc
    · exact ih _ _ _ _ hc

/-- **C88, coordinate descent.** On a mirrored quadratic model the coordinate-descent routine takes the mirrored steps: same number of cycles, same
warnings, coefficients with the signs `σ`. -/
theorem c88_cd (h : MirA σ E' E) (seed : BitVec 32) (w q : Fin m → ℝ) :
    (∀ j, (E'.run (fun j => σ j * w j) (fun j => σ j * q j) seed).w j = σ j * (E.run w q seed).w j) ∧
    (E'.run (fun j => σ j * w j) (fun j => σ j * q j) seed).nIter = (E.run w q seed).nIter ∧
    (E'.run (fun j => σ j * w j) (fun j => σ j * q j) seed).warned = (E.run w q seed).warned := by
  unfold CDData.run
  rw [h.maxIter]
  obtain ⟨a, b, c, -⟩ := cdLoop_mirror h E.maxIter 0 0 { w := fun j => σ j * w j, q := fun j => σ j * q j, dwMax := 0, wMax := 0, rng := seed }
    { w := w, q := q, dwMax := 0, wMax := 0, rng := seed } ⟨fun _ => rfl, fun _ => rfl, rfl, rfl, rfl⟩
  exact ⟨a, b, c⟩

/-- No crossed bounds among the features. -/
def Spec.FeatureBoundsOrdered (p : ℕ) (lb ub : Option (ℕ → ℝ)) : Prop := ∀ l u, lb = some l → ub = some u → ∀ k < p, l k ≤ u k

theorem mirrorInner_cd {τ : ℝ} {s : Fin (p + ic.toNat) → ℝ} {D' D : IRLSData n p ic} (M : Mirror τ s (fun _ => 0) D' D)
    (ho : FeatureBoundsOrdered p D.lb D.ub) (seeds : ℕ → BitVec 32) : MirrorInner τ s (fun _ => 0) D' D (cdInner seeds) (cdInner seeds) := by
  intro st' st h
  obtain ⟨coef', step', eta', mu', obj', score', ⟨rows', old', H', init', act'⟩, norm', ms', it', cv', ni', nc', dg'⟩ := st'
  obtain ⟨coef, step, eta, mu, obj, score, ⟨rows, old, H, init, act⟩, norm, ms, it, cv, ni, nc, dg⟩ := st
  obtain ⟨h1, -, -, -, -, h6, ⟨-, -, h9, -, h11⟩, -, -, h14, -, h16, -, -⟩ := h
  simp only at h1 h6 h9 h11 h14 h16
  have hc : coef' = fun j => s j * coef j := by rw [h1]; unfold mirrored; funext j; rw [add_zero]
  have hg : (fun k => -score' k) = fun j => s j * -score j := by funext k; rw [h6]; ring
  subst h11 h14 h16 hc
  have hA : MirA s (cdArgs D' ⟨fun j => s j * coef j, step', eta', mu', obj', score', ⟨rows', old', H', init', act'⟩, norm', ms', it', cv', ni', nc', dg'⟩)
      (cdArgs D ⟨coef, step, eta, mu, obj, score, ⟨rows, old, H, init, act'⟩, norm, ms, it', cv, ni', nc, dg⟩) := by
    refine ⟨M.sign, rfl, M.P1, fun i j => h9 _ _, M.maxInnerIter, rfl, rfl, M.random, ?_, M.bounds, ?_⟩
    · show D'.eps * 16 = D.eps * 16
      rw [M.eps]
    · intro j hj l u hl hu
      exact ho l u hl hu _ (by
        have : ¬ j.val < ic.toNat := hj
        have := j.isLt
        show j.val - ic.toNat < p
        omega)
  obtain ⟨c1, c2, -⟩ := c88_cd hA (seeds ni') coef fun k => -score k
  unfold cdInner
  simp only
  rw [hg]
  refine ⟨funext fun k => ?_, c2⟩
  rw [c1]; ring

/-- The contract of `linalg.solve` that the equivariance needs: it solves the system, and the system has one solution. -/
def Spec.SolvesUniquely {m : ℕ} (solve : (Fin m → Fin m → ℝ) → (Fin m → ℝ) → (Fin m → ℝ)) (H : Fin m → Fin m → ℝ) (b : Fin m → ℝ) : Prop :=
  (∀ i, ∑ j, H i j * solve H b j = b i) ∧ ∀ d, (∀ i, ∑ j, H i j * d j = b i) → d = solve H b

theorem solve_mirror {m : ℕ} {s : Fin m → ℝ} (hs : ∀ j, s j = 1 ∨ s j = -1)
    (solve : (Fin m → Fin m → ℝ) → (Fin m → ℝ) → (Fin m → ℝ)) {H' H : Fin m → Fin m → ℝ} {b' b : Fin m → ℝ} (hH : ∀ i j, H' i j = s i * s j * H i j)
    (hb : ∀ i, b' i = s i * b i) (h1 : SolvesUniquely solve H b) (h2 : ∀ i, ∑ j, H' i j * solve H' b' j = b' i) :
    solve H' b' = fun j => s j * solve H b j := by
  have : (fun j => s j * solve H' b' j) = solve H b := by
    refine h1.2 _ fun i => ?_
    have e := h2 i
    simp only [hH, hb] at e
    have h3 : ∑ j, s i * s j * H i j * solve H' b' j = s i * ∑ j, H i j * (s j * solve H' b' j) := by
      rw [Finset.mul_sum]; exact Finset.sum_congr rfl fun j _ => by ring
    rw [h3] at e
    have h4 := sign_sq (hs i)
    linear_combination s i * e - (∑ j, H i j * (s j * solve H' b' j) - b i) * h4
  funext j
  rw [← this]
  linear_combination (-(solve H' b' j)) * sign_sq (hs j)

end

end Glum
