/-
Model of the coordinate-selection generator of `src/glum/_cd_fast.pyx`.
Bit-exact: `np.uint32` is `BitVec 32`.
-/
namespace Glum

/-- `RAND_R_MAX = 0x7FFFFFFF` (`_cd_fast.pyx` 28-32). -/
def randRMax : BitVec 32 := 0x7FFFFFFF#32

/-- The three xor-shift lines of `our_rand_r`, after the zero guard (`_cd_fast.pyx` 43-45). -/
def xorshift (s0 : BitVec 32) : BitVec 32 :=
  let s1 := s0 ^^^ (s0 <<< 13)
  let s2 := s1 ^^^ (s1 >>> 17)
  s2 ^^^ (s2 <<< 5)

/-- `our_rand_r(seed*)` (`_cd_fast.pyx` 37-51): replaces a zero seed by one, advances the state in
place and returns the state modulo `RAND_R_MAX + 1`.  The pointer write becomes the second component. -/
def ourRandR (seed : BitVec 32) : BitVec 32 × BitVec 32 :=
  let s0 := if seed = 0#32 then 1#32 else seed
  let s := xorshift s0
  (s % (randRMax + 1#32), s)

/-- `rand_int(end, random_state*)` (`_cd_fast.pyx` 54-56): `our_rand_r(..) % end`, and the new state. -/
def randInt (stop : BitVec 32) (seed : BitVec 32) : BitVec 32 × BitVec 32 :=
  let r := ourRandR seed
  (r.1 % stop, r.2)

/-- The generator state after `k` draws (state threading of the loop, `_cd_fast.pyx` 152-154). -/
def randState : Nat → BitVec 32 → BitVec 32
  | 0, s => s
  | k + 1, s => randState k (ourRandR s).2

end Glum
