import Verif.Num.ZZ

/-!
# Model of `QQ` (/repo/clpoly/number/QQ.hh)

A `QQ` is a pair of `ZZ`.  Every operation is built from the modelled `ZZ` operations, so undefined
behaviour, exceptions and GMP traps of the integer layer propagate.
Stream input/output: Num/IO.lean.  Not modelled: move semantics,
`swap`, the concrete hash mixing function (a parameter below).
-/

namespace CLPoly

/-- QQ.hh 15–18: numerator and denominator. -/
structure QQ where
  num : ZZ
  den : ZZ
  deriving DecidableEq, Repr

namespace QQ
open ZZ

/-- QQ.hh 20–34 `_canonicalize`. -/
def canonicalize (q : QQ) : Out QQ :=
  if q.num.val = 0 then .ok ⟨q.num, small 1⟩
  else
    let n := if ZZ.sgn q.den < 0 then ZZ.neg q.num else q.num
    let d := if ZZ.sgn q.den < 0 then ZZ.neg q.den else q.den
    do
      let g ← ZZ.gcd (ZZ.abs n) d
      if g.val = 1 then pure ⟨n, d⟩
      else do
        let n' ← ZZ.div n g
        let d' ← ZZ.div d g
        pure ⟨n', d'⟩

/-- QQ.hh 38–42: constructors from one integer. -/
def ofZZ (v : ZZ) : QQ := ⟨v, small 1⟩

/-- QQ.hh 44–52: constructors from numerator and denominator. -/
def mk' (num den : ZZ) : Out QQ :=
  if den.val = 0 then .throws else canonicalize ⟨num, den⟩

/-- QQ.hh 87–90 `operator==`. -/
def beq (a b : QQ) : Bool := ZZ.beq a.num b.num && ZZ.beq a.den b.den

/-- QQ.hh 93–96 `operator<`. -/
def blt (a b : QQ) : Bool := ZZ.blt (ZZ.mul a.num b.den) (ZZ.mul b.num a.den)

/-- QQ.hh 106–111 unary minus. -/
def neg (a : QQ) : QQ := ⟨ZZ.neg a.num, a.den⟩

/-- QQ.hh 114–121 `operator+` (and `+=`, 149). -/
def add (a b : QQ) : Out QQ := do
  let n ← ZZ.add (ZZ.mul a.num b.den) (ZZ.mul b.num a.den)
  canonicalize ⟨n, ZZ.mul a.den b.den⟩

/-- QQ.hh 123–129 `operator-` (and `-=`, 150). -/
def sub (a b : QQ) : Out QQ := do
  let n ← ZZ.sub (ZZ.mul a.num b.den) (ZZ.mul b.num a.den)
  canonicalize ⟨n, ZZ.mul a.den b.den⟩

/-- QQ.hh 131–137 `operator*` (and `*=`, 151). -/
def mul (a b : QQ) : Out QQ := canonicalize ⟨ZZ.mul a.num b.num, ZZ.mul a.den b.den⟩

/-- QQ.hh 139–146 `operator/` (and `/=`, 152). -/
def div (a b : QQ) : Out QQ :=
  if b.num.val = 0 then .throws
  else canonicalize ⟨ZZ.mul a.num b.den, ZZ.mul a.den b.num⟩

/-- QQ.hh 192–198 `pow` (no canonicalisation). -/
def pow (a : QQ) (n : Nat) : QQ := ⟨ZZ.pow a.num n, ZZ.pow a.den n⟩

/-- QQ.hh 200–202 `sgn`. -/
def sgn (a : QQ) : Int := ZZ.sgn a.num

/-- QQ.hh 204–209 `abs`. -/
def abs (a : QQ) : QQ := ⟨ZZ.abs a.num, a.den⟩

/-- QQ.hh 177–182 `hash`, for any mixing function. -/
def hash (hs hb : Int → Nat) (mix : Nat → Nat → Nat) (a : QQ) : Nat :=
  mix (mix 0 (ZZ.hash hs hb a.num)) (ZZ.hash hs hb a.den)

end QQ
end CLPoly
