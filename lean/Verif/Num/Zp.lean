import Verif.Num.ZZ

/-!
# Model of `Zp` (/repo/clpoly/number.hh 71–351)

A `uint64_t` is a `Nat` below `W = 2^64`; every wrapping operation is written with its `% W`.
A 128-bit product of two words never wraps and is a plain `Nat` product.
`assert` conditions (equal primes, nonzero modulus) are hypotheses of the theorems, except that a zero
argument of `inv_prime` – assertion failure, or a division by zero when assertions are off – is the
outcome `ub`.
Not modelled: stream output, the concrete hash mixing function, the class-level current prime
`_s_prime` (only the default constructor reads it).
-/

namespace CLPoly

/-- 2^64 -/
def W : Nat := 18446744073709551616

/-- `uint64_t` addition, subtraction, multiplication, left shift, bit complement -/
def addW (a b : Nat) : Nat := (a + b) % W
def subW (a b : Nat) : Nat := (a + (W - b % W)) % W
def mulW (a b : Nat) : Nat := (a * b) % W
def shlW (a n : Nat) : Nat := (a * 2 ^ n) % W
def notW (a : Nat) : Nat := W - 1 - a

/-- number.hh 76–84: the loop of `inv_prime`; state `(a, b, s1, s2)`. -/
def invLoop (p : Nat) (a b s1 s2 : Nat) : Nat :=
  if hb : b = 0 then s2    -- not reached: `b` is never 0 in the loop (see `invPrime`)
  else if a % b = 0 then s2
  else
    let q := a / b
    let sq := (s2 * q) % p % W
    let s3 := if s1 ≥ sq then subW s1 sq else addW (subW p sq) s1
    invLoop p b (a % b) s2 s3
termination_by b
decreasing_by exact Nat.mod_lt _ (Nat.pos_of_ne_zero hb)

/-- number.hh 72–86 `inv_prime`. -/
def invPrime (i p : Nat) : Out Nat :=
  if i = 0 ∨ p = 0 then .ub else .ok (invLoop p p i 0 1)

/-- number.hh 98–103 `__preinvert_limb`. -/
def preinvertLimb (pn : Nat) : Nat := ((notW pn * W + (W - 1)) / pn) % W

/-- `__builtin_clzll` for a nonzero word -/
def clz (p : Nat) : Nat := 63 - Nat.log2 p

/-- number.hh 115–132 `__nmod_mul` (identical text: dense_upoly_zp.hh `_nmod_mul`),
with the cached fields passed as arguments. -/
def nmodMul (p ninv norm a b : Nat) : Nat :=
  let pn := shlW p norm
  let aS := shlW a norm
  let prod := aS * b
  let hi := prod / W
  let lo := prod % W
  let qm := hi * ninv
  let q1 := qm / W
  let q0 := qm % W
  let q0' := addW q0 lo
  let q1' := addW q1 (addW hi (if q0' < lo then 1 else 0))
  let r := subW lo (mulW (addW q1' 1) pn)
  let r' := if r > q0' then addW r pn else r
  let r'' := if r' ≥ pn then subW r' pn else r'
  r'' / 2 ^ norm

/-- number.hh 87–95: value, prime, reciprocal, shift. -/
structure Zp where
  i : Nat
  p : Nat
  ninv : Nat
  norm : Nat
  deriving DecidableEq, Repr

namespace Zp

/-- number.hh 106–112 `__precompute`. -/
def precompute (p : Nat) : Nat × Nat :=
  if p = 0 then (0, 0) else (preinvertLimb (shlW p (clz p)), clz p)

/-- number.hh 140: the zero of a modulus. -/
def zero (p : Nat) : Zp := ⟨0, p, (precompute p).1, (precompute p).2⟩

/-- number.hh 141: from an unsigned word. -/
def ofU64 (i p : Nat) : Zp := { zero p with i := i % p }

/-- number.hh 145–147 and 165–167: residue of a signed word. -/
def residueI64 (i : Int) (p : Nat) : Nat :=
  let absI := if i ≥ 0 then (i % W).toNat else subW 0 (i % W).toNat
  let r := absI % p
  if r = 0 ∨ i > 0 then r else subW p r

/-- number.hh 142–149: from a signed word. -/
def ofI64 (i : Int) (p : Nat) : Zp := { zero p with i := residueI64 i p }

/-- number.hh 150–154: from a `ZZ`. -/
def ofZZ (i : ZZ) (p : Nat) : Out Zp := do
  let r ← ZZ.fdivUi i p
  pure { zero p with i := r }

/-- number.hh 162–169 `operator=(int64_t)`. -/
def assignI64 (z : Zp) (i : Int) : Zp := if z.p = 0 then { z with i := 0 } else { z with i := residueI64 i z.p }

/-- number.hh 156–161 `inv`. -/
def inv (z : Zp) : Out Zp := do
  let r ← invPrime z.i z.p
  pure { zero z.p with i := r }

/-- number.hh 185–190 unary minus. -/
def neg (z : Zp) : Zp := { z with i := if z.i = 0 then 0 else subW z.p z.i }

/-- number.hh 192–211 `operator+`, `+=`. -/
def add (a b : Zp) : Zp :=
  let neg := subW a.p a.i
  { a with i := if neg > b.i then addW a.i b.i else subW b.i neg }

/-- number.hh 212–223 `operator-`, `-=`. -/
def sub (a b : Zp) : Zp :=
  { a with i := if a.i ≥ b.i then subW a.i b.i else addW (subW a.p b.i) a.i }

/-- number.hh 224–229, 236–241 `operator*`, `*=`. -/
def mul (a b : Zp) : Zp := { a with i := nmodMul a.p a.ninv a.norm a.i b.i }

/-- number.hh 230–235 product with a machine integer. -/
def mulI64 (a : Zp) (k : Int) : Zp := { a with i := nmodMul a.p a.ninv a.norm a.i (ofI64 k a.p).i }

/-- number.hh 242–253, 338–349 `operator/`, `/=`, `__div`. -/
def div (a b : Zp) : Out Zp := do
  let r ← invPrime b.i a.p
  pure { a with i := nmodMul a.p a.ninv a.norm a.i r }

/-- number.hh 254–263 `operator==`. -/
def beq (a b : Zp) : Bool := a.i == b.i

/-- number.hh 264–272 comparison with a machine integer. -/
def beqI64 (a : Zp) (k : Int) : Bool := a.i == (ofI64 k a.p).i

/-- number.hh 308–315 `addmul`. -/
def addmul (o a b : Zp) : Zp :=
  let o' := if o.p = 0 then { o with p := a.p, ninv := (precompute a.p).1, norm := (precompute a.p).2 } else o
  add o' (mul a b)

/-- number.hh 316–323 `submul`. -/
def submul (o a b : Zp) : Zp :=
  let o' := if o.p = 0 then { o with p := a.p, ninv := (precompute a.p).1, norm := (precompute a.p).2 } else o
  sub o' (mul a b)

/-- number.hh 328–335: the loop of `pow`. -/
def powLoop (o z : Zp) (i : Nat) : Zp :=
  if _h : i = 0 then o
  else
    let o' := if i % 2 ≠ 0 then mul o z else o
    let z' := if i / 2 ≠ 0 then mul z z else z
    powLoop o' z' (i / 2)
termination_by i

/-- number.hh 324–337 `pow`; the loop does not run for a non-positive exponent. -/
def pow (z : Zp) (i : Int) : Zp := powLoop (ofI64 1 z.p) z i.toNat

end Zp
end CLPoly
