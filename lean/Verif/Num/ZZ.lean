import Verif.Num.Outcome
import Mathlib.Algebra.Order.Ring.Int
import Mathlib.Data.Int.GCD

/-!
# Model of `clpoly::ZZ`  (/repo/clpoly/number/ZZ.hh)

A `ZZ` object is `int64_t _val` together with `mpz_ptr _mpz` (ZZ.hh:77-78).  `_mpz == nullptr` means
that the value is `_val`, otherwise the value is the GMP integer (ZZ.hh:3-8, 81).  The model keeps
exactly this distinction.  GMP's `mpz_*` functions are taken to be exact integer arithmetic (trusted
base); the stale `_val` of an object with a non-null `_mpz` is not modelled.  `sizeof(long) == 8`
(LP64) and a compiler with `__int128` are assumed.
-/

namespace CLPoly

/-- `INT64_MIN`. -/
def i64min : Int := -9223372036854775808
/-- `INT64_MAX`. -/
def i64max : Int := 9223372036854775807

/-- The integer fits `int64_t`. -/
def InI64 (v : Int) : Prop := i64min ≤ v ∧ v ≤ i64max
instance (v : Int) : Decidable (InI64 v) := by unfold InI64; infer_instance

/-- ZZ.hh:77-81: inline value, or heap-allocated GMP integer. -/
inductive ZZ where
  | small (v : Int)
  | big (v : Int)
  deriving DecidableEq, Repr

namespace ZZ

/-- The integer an object denotes. -/
def val : ZZ → Int
  | small v => v
  | big v => v

@[simp] theorem val_small (v : Int) : (small v).val = v := rfl
@[simp] theorem val_big (v : Int) : (big v).val = v := rfl

/-- Canonical representation: inline exactly when the value fits `int64_t`. -/
def Canon : ZZ → Prop
  | small v => InI64 v
  | big v => ¬ InI64 v

instance (a : ZZ) : Decidable a.Canon := by cases a <;> (unfold Canon; infer_instance)

/-- ZZ.hh:133-139 `_demote_if_small` applied to an object holding the GMP integer `v`. -/
def demote (v : Int) : ZZ := if InI64 v then small v else big v

/-- C++ `-x` on `int64_t`: undefined for `INT64_MIN`. -/
def neg64 (x : Int) : Out Int := if x = i64min then .ub else .ok (-x)

/-- ZZ.hh:357-374 unary minus. -/
def neg : ZZ → ZZ
  | small x => if x = i64min then big (-x) else small (-x)
  | big x => demote (-x)

/-- ZZ.hh:377-408 `operator+`. -/
def add : ZZ → ZZ → Out ZZ
  | small x, small y =>
    if InI64 (x + y) then .ok (small (x + y))
    else if y ≥ 0 then .ok (demote (x + y))
    else do let n ← neg64 y; .ok (demote (x - n))
  | small x, big y =>
    if x ≥ 0 then .ok (demote (y + x))
    else do let n ← neg64 x; .ok (demote (y - n))
  | big x, small y =>
    if y ≥ 0 then .ok (demote (x + y))
    else do let n ← neg64 y; .ok (demote (x - n))
  | big x, big y => .ok (demote (x + y))

/-- ZZ.hh:411-438 `operator-`. -/
def sub : ZZ → ZZ → Out ZZ
  | small x, small y =>
    if InI64 (x - y) then .ok (small (x - y))
    else if y ≥ 0 then .ok (demote (x - y))
    else do let n ← neg64 y; .ok (demote (x + n))
  | small x, big y => .ok (demote (x - y))
  | big x, small y =>
    if y ≥ 0 then .ok (demote (x - y))
    else do let n ← neg64 y; .ok (demote (x + n))
  | big x, big y => .ok (demote (x - y))

/-- ZZ.hh:441-467 `operator*` (the product of two inline values is formed in `__int128`, which
holds every product of two `int64_t`). -/
def mul : ZZ → ZZ → ZZ
  | small x, small y => if InI64 (x * y) then small (x * y) else demote (x * y)
  | small x, big y => demote (y * x)
  | big x, small y => demote (x * y)
  | big x, big y => demote (x * y)

/-- ZZ.hh:470-500 `operator/`; `Int.tdiv` is C++/GMP truncating division.  A GMP division by zero
traps. -/
def div : ZZ → ZZ → Out ZZ
  | small x, small y =>
    if y = 0 then .throws
    else if x = i64min ∧ y = -1 then .ok (big (-x))
    else .ok (small (x.tdiv y))
  | small x, big y => if y = 0 then .trap else .ok (demote (x.tdiv y))
  | big x, small y => if y = 0 then .trap else .ok (demote (x.tdiv y))
  | big x, big y => if y = 0 then .trap else .ok (demote (x.tdiv y))

/-- ZZ.hh:503-526 `operator%`. -/
def mod : ZZ → ZZ → Out ZZ
  | small x, small y =>
    if y = 0 then .throws
    else if x = i64min ∧ y = -1 then .ok (small 0)
    else .ok (small (x.tmod y))
  | small x, big y => if y = 0 then .trap else .ok (demote (x.tmod y))
  | big x, small y => if y = 0 then .trap else .ok (demote (x.tmod y))
  | big x, big y => if y = 0 then .trap else .ok (demote (x.tmod y))

/-- ZZ.hh:529-548 `operator+=` (`_ensure_mpz` turns `*this` into a GMP integer first). -/
def addAssign : ZZ → ZZ → Out ZZ
  | a, small y =>
    match a with
    | small x =>
      if InI64 (x + y) then .ok (small (x + y))
      else if y ≥ 0 then .ok (demote (x + y))
      else do let n ← neg64 y; .ok (demote (x - n))
    | big x =>
      if y ≥ 0 then .ok (demote (x + y))
      else do let n ← neg64 y; .ok (demote (x - n))
  | a, big y => .ok (demote (a.val + y))

/-- ZZ.hh:550-569 `operator-=`. -/
def subAssign : ZZ → ZZ → Out ZZ
  | a, small y =>
    match a with
    | small x =>
      if InI64 (x - y) then .ok (small (x - y))
      else if y ≥ 0 then .ok (demote (x - y))
      else do let n ← neg64 y; .ok (demote (x + n))
    | big x =>
      if y ≥ 0 then .ok (demote (x - y))
      else do let n ← neg64 y; .ok (demote (x + n))
  | a, big y => .ok (demote (a.val - y))

/-- ZZ.hh:571-595 `operator*=`. -/
def mulAssign : ZZ → ZZ → ZZ
  | small x, small y => if InI64 (x * y) then small (x * y) else demote (x * y)
  | a, b => demote (a.val * b.val)

/-- ZZ.hh:599-608 `operator>>=`; `_val >>= n` is the arithmetic shift. -/
def shr : ZZ → Nat → ZZ
  | small x, n => if n ≥ 63 then small (if x < 0 then -1 else 0) else small (x / 2 ^ n)
  | big x, n => demote (x / 2 ^ n)

/-- ZZ.hh:609-614 `operator<<=`. -/
def shl (a : ZZ) (n : Nat) : ZZ := demote (a.val * 2 ^ n)

/-- ZZ.hh:621-655 `addmul`: the fast path computes in `__int128`; `|sum| < 2^127` always. -/
def addmul : ZZ → ZZ → ZZ → ZZ
  | small s, small a, small b =>
    if InI64 (s + a * b) then small (s + a * b) else demote (s + a * b)
  | s, a, b => demote (s.val + a.val * b.val)

/-- ZZ.hh:657-690 `submul`. -/
def submul : ZZ → ZZ → ZZ → ZZ
  | small s, small a, small b =>
    if InI64 (s - a * b) then small (s - a * b) else demote (s - a * b)
  | s, a, b => demote (s.val - a.val * b.val)

/-- ZZ.hh:693-701 `fdiv_ui` (`d` is a `uint64_t`; `d = 0` is an integer division by zero). -/
def fdivUi : ZZ → Nat → Out Nat
  | small x, d =>
    if x ≥ 0 then (if d = 0 then .ub else .ok (x.toNat % d))
    else do
      let n ← neg64 x
      if d = 0 then .ub else
      let r := n.toNat % d
      .ok (if r = 0 then 0 else d - r)
  | big x, d => if d = 0 then .trap else .ok (x.fmod d).toNat

/-- ZZ.hh:731-765 `fdiv_q`.  The test `(rem ^ b) < 0` says that the signs differ. -/
def fdivQ : ZZ → ZZ → Out ZZ
  | small x, small y =>
    if y = 0 then .throws
    else if x = i64min ∧ y = -1 then .ok (big (-x))
    else
      let quot := x.tdiv y
      let rem := x.tmod y
      .ok (small (if rem ≠ 0 ∧ ((rem < 0 ∧ 0 ≤ y) ∨ (0 ≤ rem ∧ y < 0)) then quot - 1 else quot))
  | small x, big y => if y = 0 then .trap else .ok (demote (x.fdiv y))
  | big x, small y => if y = 0 then .trap else .ok (demote (x.fdiv y))
  | big x, big y => if y = 0 then .trap else .ok (demote (x.fdiv y))

/-- ZZ.hh:767-807 `fdiv_qr`. -/
def fdivQR : ZZ → ZZ → Out (ZZ × ZZ)
  | small x, small y =>
    if y = 0 then .throws
    else if x = i64min ∧ y = -1 then .ok (big (-x), small 0)
    else
      let quot := x.tdiv y
      let rem := x.tmod y
      if rem ≠ 0 ∧ ((rem < 0 ∧ 0 ≤ y) ∨ (0 ≤ rem ∧ y < 0)) then .ok (small (quot - 1), small (rem + y))
      else .ok (small quot, small rem)
  | small x, big y => if y = 0 then .trap else .ok (demote (x.fdiv y), demote (x.fmod y))
  | big x, small y => if y = 0 then .trap else .ok (demote (x.fdiv y), demote (x.fmod y))
  | big x, big y => if y = 0 then .trap else .ok (demote (x.fdiv y), demote (x.fmod y))

/-- ZZ.hh:810-835 `fdiv_r`: unlike `fdiv_q` and `operator%`, the inline branch evaluates
`a._val % b._val` without excluding `INT64_MIN % -1`, which C++ leaves undefined. -/
def fdivR : ZZ → ZZ → Out ZZ
  | small x, small y =>
    if y = 0 then .throws
    else if x = i64min ∧ y = -1 then .ub
    else
      let rem := x.tmod y
      .ok (small (if rem ≠ 0 ∧ ((rem < 0 ∧ 0 ≤ y) ∨ (0 ≤ rem ∧ y < 0)) then rem + y else rem))
  | small x, big y => if y = 0 then .trap else .ok (demote (x.fmod y))
  | big x, small y => if y = 0 then .trap else .ok (demote (x.fmod y))
  | big x, big y => if y = 0 then .trap else .ok (demote (x.fmod y))

/-- ZZ.hh:299-311 `operator==`. -/
def beq : ZZ → ZZ → Bool
  | small x, small y => x == y
  | small x, big y => y == x
  | big x, small y => x == y
  | big x, big y => x == y

/-- ZZ.hh:314-324 `operator<`. -/
def blt : ZZ → ZZ → Bool
  | small x, small y => x < y
  | small x, big y => y > x
  | big x, small y => x < y
  | big x, big y => x < y

/-- ZZ.hh:878-888 `hash`: inline values through `std::hash<int64_t>`, GMP values through a hash of
the limbs and the signed size.  Both hash functions are parameters. -/
def hash (hs hb : Int → Nat) : ZZ → Nat
  | small x => hs x
  | big x => hb x

/-- ZZ.hh:351-354 `sgn`. -/
def sgn : ZZ → Int
  | small x => if x > 0 then 1 else if x < 0 then -1 else 0
  | big x => x.sign

/-- ZZ.hh:154-162 `ZZ(unsigned long)`. -/
def ofU64 (v : Nat) : ZZ := if (v : Int) ≤ i64max then small v else big v

/-- ZZ.hh:148-152 constructors from signed machine integers. -/
def ofI64 (v : Int) : ZZ := small v

/-- ZZ.hh:181-204 constructors from a GMP integer / a parsed string. -/
def ofMpz (v : Int) : ZZ := demote v

/-- ZZ.hh:900-918 `pow`. -/
def pow (base : ZZ) (exp : Nat) : ZZ :=
  if exp = 0 then small 1
  else if exp = 1 then base
  else if base.val = 0 then small 0
  else if base.val = 1 then small 1
  else demote (base.val ^ exp)

/-- ZZ.hh:929 the loop `while (y) { t = y; y = x % y; x = t; }` on non-negative values. -/
def gcdLoop (x y : Nat) : Nat :=
  if _h : y = 0 then x else gcdLoop y (x % y)
termination_by y
decreasing_by exact Nat.mod_lt _ (Nat.pos_of_ne_zero _h)

/-- `v < 0 ? -v : v` on `int64_t`. -/
def abs64 (v : Int) : Out Int := if v < 0 then neg64 v else .ok v

/-- ZZ.hh:920-956 `gcd`.  The two conditional negations at 923-924 are evaluated before `INT64_MIN`
is excluded at 926. -/
def gcd : ZZ → ZZ → Out ZZ
  | small a, small b => do
    let x ← abs64 a
    let y ← abs64 b
    if a = i64min ∨ b = i64min then .ok (demote (Int.gcd a b))
    else .ok (small (gcdLoop x.toNat y.toNat))
  | a, b => .ok (demote (Int.gcd a.val b.val))

/-- ZZ.hh:958-996 `lcm`. -/
def lcm (a b : ZZ) : Out ZZ :=
  if a.val = 0 ∨ b.val = 0 then .ok (small 0)
  else match a, b with
  | small x, small y =>
    if x ≠ i64min ∧ y ≠ i64min then do
      let g ← gcd (small x) (small y)
      let av ← abs64 x
      let bv ← abs64 y
      let r := av.tdiv g.val * bv
      if 0 ≤ r ∧ r ≤ i64max then .ok (small r) else .ok (demote (Int.lcm x y))
    else .ok (demote (Int.lcm x y))
  | a, b => .ok (demote (Int.lcm a.val b.val))

/-- ZZ.hh:998-1014 `abs`. -/
def abs : ZZ → ZZ
  | small x => if x = i64min then big (-x) else small (if x < 0 then -x else x)
  | big x => demote |x|

/-- ZZ.hh:839-853 `invert`: `mpz_invert` writes the inverse in `[0,|m|)` and reports whether it
exists; the model returns the object only when it does. -/
def invert (a m : ZZ) : Option ZZ :=
  if Int.gcd a.val m.val = 1 ∧ m.val ≠ 0 then
    some (demote ((Int.gcdA a.val m.val).emod m.val))
  else none

end ZZ
end CLPoly
