import Verif.Model.Rng
/-
C25: the coordinate generator never leaves its range and never gets stuck at zero.
-/
namespace Glum

theorem shl_fix_zero (x : BitVec 32) (k : Nat) (hk : 0 < k) (h : x = x <<< k) : x = 0#32 := by
  have h1 : ∀ n : Nat, x = x <<< (n * k) := by
    intro n
    induction n with
    | zero => simp
    | succ m ih =>
      have e : (m + 1) * k = m * k + k := by rw [Nat.succ_mul]
      rw [e, BitVec.shiftLeft_add, ← ih]; exact h
  rw [h1 32]
  apply BitVec.shiftLeft_eq_zero
  exact Nat.le_mul_of_pos_right 32 hk

theorem shr_fix_zero (x : BitVec 32) (k : Nat) (hk : 0 < k) (h : x = x >>> k) : x = 0#32 := by
  have h1 : ∀ n : Nat, x = x >>> (n * k) := by
    intro n
    induction n with
    | zero => simp
    | succ m ih =>
      have e : (m + 1) * k = m * k + k := by rw [Nat.succ_mul]
      rw [e, BitVec.shiftRight_add, ← ih]; exact h
  rw [h1 32]
  apply BitVec.ushiftRight_eq_zero
  exact Nat.le_mul_of_pos_right 32 hk

theorem xor_eq_zero' {x y : BitVec 32} (h : x ^^^ y = 0#32) : x = y := by
  exact BitVec.xor_eq_zero_iff.mp h

/-- One xor-shift step is injective on all 32-bit states. -/
theorem c25_xorshift_injective (x y : BitVec 32) (h : xorshift x = xorshift y) : x = y := by
  have stageL : ∀ (a b : BitVec 32) (k : Nat), 0 < k → a ^^^ (a <<< k) = b ^^^ (b <<< k) → a = b := by
    intro a b k hk h
    apply xor_eq_zero'
    apply shl_fix_zero _ k hk
    rw [BitVec.shiftLeft_xor_distrib]
    have h2 : (a ^^^ (a <<< k)) ^^^ (b ^^^ (b <<< k)) = 0#32 := by rw [h]; simp
    have h3 : (a ^^^ b) ^^^ (a <<< k ^^^ b <<< k) = 0#32 := by
      rw [← h2]; ac_rfl
    exact xor_eq_zero' h3
  have stageR : ∀ (a b : BitVec 32) (k : Nat), 0 < k → a ^^^ (a >>> k) = b ^^^ (b >>> k) → a = b := by
    intro a b k hk h
    apply xor_eq_zero'
    apply shr_fix_zero _ k hk
    rw [BitVec.ushiftRight_xor_distrib]
    have h2 : (a ^^^ (a >>> k)) ^^^ (b ^^^ (b >>> k)) = 0#32 := by rw [h]; simp
    have h3 : (a ^^^ b) ^^^ (a >>> k ^^^ b >>> k) = 0#32 := by
      rw [← h2]; ac_rfl
    exact xor_eq_zero' h3
  unfold xorshift at h
  simp only [] at h
  exact stageL _ _ 13 (by decide) (stageR _ _ 17 (by decide) (stageL _ _ 5 (by decide) h))

/-- **C25 (never zero).** For every seed, including 0, the state after every positive number of draws is
non-zero, so the generator is never stuck at the absorbing state of xor-shift. -/
theorem c25_state_never_zero (seed : BitVec 32) (k : Nat) : randState (k + 1) seed ≠ 0#32 := by
  have step : ∀ s : BitVec 32, (ourRandR s).2 ≠ 0#32 := by
    intro s h
    unfold ourRandR at h
    simp only [] at h
    have h0 : xorshift 0#32 = 0#32 := by decide
    have := c25_xorshift_injective _ _ (h.trans h0.symm)
    split at this
    · exact absurd this (by decide)
    · rename_i hs; exact hs this
  have gen : ∀ (k : Nat) (s : BitVec 32), s ≠ 0#32 → randState k s ≠ 0#32 := by
    intro k
    induction k with
    | zero => intro s h; exact h
    | succ k ih => intro s _; exact ih _ (step s)
  exact gen k _ (step seed)

theorem randState_succ (k : Nat) (s : BitVec 32) : randState (k + 1) s = (ourRandR (randState k s)).2 := by
  induction k generalizing s with
  | zero => rfl
  | succ k ih => rw [show randState (k + 1 + 1) s = randState (k + 1) (ourRandR s).2 from rfl, ih]; rfl

/-- **C25.** Drawing an index advances the state of the generator. -/
theorem c25_rand_int_advances (seed : BitVec 32) (k : Nat) (stop : BitVec 32) :
    (randInt stop (randState k seed)).2 = randState (k + 1) seed := by
  rw [randState_succ]; rfl

/-- **C25 (index in range).** After any number `k` of draws from any seed, the next coordinate position drawn
for `n` active features, `1 ≤ n < 2^32`, is smaller than `n` (so the unchecked memory access is in bounds),
and equals the advanced state modulo `2^31` modulo `n`. -/
theorem c25_rand_int_in_range (seed : BitVec 32) (k n : Nat) (h1 : 1 ≤ n) (h2 : n < 2 ^ 32) :
    (randInt (BitVec.ofNat 32 n) (randState k seed)).1.toNat < n ∧
    (randInt (BitVec.ofNat 32 n) (randState k seed)).1.toNat
      = ((randState (k + 1) seed).toNat % 2 ^ 31) % n := by
  have e : (BitVec.ofNat 32 n).toNat = n := by simp; omega
  constructor
  · unfold randInt
    simp only []
    rw [BitVec.toNat_umod, e]
    exact Nat.mod_lt _ h1
  · have hs : ∀ (k : Nat) (s : BitVec 32), randState (k + 1) s = (ourRandR (randState k s)).2 := by
      intro k
      induction k with
      | zero => intro s; rfl
      | succ k ih => intro s; rw [show randState (k + 1 + 1) s = randState (k + 1) (ourRandR s).2 from rfl, ih]; rfl
    rw [hs]
    unfold randInt
    simp only []
    rw [BitVec.toNat_umod, e]
    congr 1

-- Non-vacuity: seed 0 with three features; a concrete draw.
example : (randInt 3#32 0#32).1.toNat < 3 ∧ (ourRandR 0#32).2 ≠ 0#32 := by decide
example : randState 1 0#32 = 270369#32 := by decide

end Glum
