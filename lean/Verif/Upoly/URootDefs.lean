import Verif.Upoly.RealRootDefs
import Mathlib.Data.Sign.Basic
import Mathlib.Algebra.Order.Ring.Rat

/-!
# Model of `uroot` (realroot.hh 110–277, realroot.cc 222–246, 576–724)

A `uroot` is a real algebraic number: an integer polynomial with an isolating interval, or one of the two infinities.  The comparison functions take
pointers and refine the intervals of their arguments; the model returns the changed objects.
-/

namespace CLPoly
namespace Upoly

/-- realroot.hh 114–118 the members of `uroot` -/
structure URoot where
  inf : ℤ
  poly : UPoly ℤ
  left : ℚ
  right : ℚ
deriving DecidableEq

/-- realroot.hh 124–126 the constructor -/
def URoot.mk' (p : UPoly ℤ) (l r : ℚ) : URoot := ⟨0, p, l, r⟩

/-- realroot.hh 127–132 `uroot::inf` -/
def URoot.posInf : URoot := ⟨1, [], 0, 0⟩

/-- realroot.hh 133–138 `uroot::neginf` -/
def URoot.negInf : URoot := ⟨-1, [], 0, 0⟩

/-- realroot.cc 222–246 `_upolynomial_Rtoab` -/
def rtoab (G : UPoly ℤ) (a b : ℚ) : UPoly ℤ :=
  if G = [] ∨ deg G = 0 then G else
    let den : ℤ := Nat.lcm a.den b.den
    let g : ℤ := Nat.gcd a.den b.den
    let a1 := a.num * b.den / g
    let b1 := b.num * a.den / g
    G.foldl (fun s t => add s ((mul (upow [(1, den), (0, den)] (deg G - t.1)) (upow [(1, a1), (0, b1)] t.1)).map fun j => (j.1, j.2 * t.2))) []

/-- realroot.cc 576–614 `_uroot_check(r, mid)`: bisect at `mid` -/
def urCheck (r : URoot) (mid : ℚ) : URoot :=
  if mid < r.left ∨ mid > r.right ∨ r.left = r.right then r else
  if assignQ r.poly mid = 0 then { r with left := mid, right := mid } else
  if assignQ r.poly r.right = 0 then
    if assignQ r.poly r.left = 0 then
      if coeffSignChanges (rtoab r.poly r.left mid) = 0 then { r with left := mid } else { r with right := mid }
    else if SignType.sign (assignQ r.poly mid) = SignType.sign (assignQ r.poly r.left) then { r with left := mid } else { r with right := mid }
  else if SignType.sign (assignQ r.poly mid) = SignType.sign (assignQ r.poly r.right) then { r with right := mid } else { r with left := mid }

/-- realroot.cc 615–632 `_uroot_check(G, a, b)`: does `G` have a root in the interval? -/
def polyCheck (G : UPoly ℤ) (a b : ℚ) : Bool :=
  if a = b ∧ assignQ G b = 0 then true else
  if SignType.sign (assignQ G b) * SignType.sign (assignQ G a) < 0 then true else
  if SignType.sign (assignQ G b) * SignType.sign (assignQ G a) > 0 then false else
  decide (coeffSignChanges (rtoab G a b) ≠ 0)

/-- realroot.cc 700–724 `uroot::comp(r, q)`: 1 for `r < q`, 0 for `r = q`, -1 for `r > q`; and the new `r` -/
def urCmpQ (r : URoot) (q : ℚ) : ℤ × URoot :=
  if r.inf = -1 then (1, r) else
  if r.inf = 1 then (-1, r) else
  if q = r.left ∧ r.left = r.right then (0, r) else
  if q ≤ r.left then (-1, r) else
  if q ≥ r.right then (1, r) else
  if assignQ r.poly q = 0 then (0, { r with left := q, right := q }) else
  if q ≤ (urCheck r q).left then (-1, urCheck r q) else (1, urCheck r q)

/-- realroot.cc 689–694 the bisection loop; `none`: still equal intervals after `fuel` rounds -/
def urBisect : Nat → URoot → URoot → Option (URoot × URoot)
  | 0, _, _ => none
  | fuel + 1, r1, r2 =>
    if r1.left = r2.left ∧ r1.right = r2.right then urBisect fuel (urCheck r1 ((r1.left + r1.right) / 2)) (urCheck r2 ((r2.left + r2.right) / 2))
    else some (r1, r2)

/-- exchange the roles of the two objects: `std::swap(r1, r2); status *= -1` (realroot.cc 655–658, 669–672) -/
def urSwap : ℤ × URoot × URoot → ℤ × URoot × URoot
  | (c, a, b) => (-c, b, a)

/-- realroot.cc 673–698, with `status = 1`; `prev` and `rounds` belong to `polynomial_GCD` -/
def urCmpB (prev : Nat → Option Nat) (rounds fuel : Nat) (r1 r2 : URoot) : Option (ℤ × URoot × URoot) :=
  if r1.left ≠ r2.left ∨ r1.right ≠ r2.right then some (1, r1, r2) else
  if r1.poly = r2.poly then some (0, r1, r2) else
  match gcdZ prev rounds r1.poly r2.poly with
  | none => none
  | some p =>
    if polyCheck p r1.left r1.right then some (0, { r1 with poly := p }, { r2 with poly := p }) else
    match divQ divZ r1.poly p, divQ divZ r2.poly p with
    | some q1, some q2 =>
      match urBisect fuel { r1 with poly := q1 } { r2 with poly := q2 } with
      | none => none
      | some (a, b) => some (if a.left ≤ b.left then 1 else -1, a, b)
    | _, _ => none

/-- realroot.cc 662–667: refine at each other's end points -/
def urRefine (r1 r2 : URoot) : URoot × URoot :=
  if r1.left ≠ r2.left ∨ r1.right ≠ r2.right then
    (urCheck (urCheck r1 r2.left) r2.right, urCheck r2 (urCheck (urCheck r1 r2.left) r2.right).right)
  else (r1, r2)

/-- realroot.cc 659–698, with `status = 1` -/
def urCmpA (prev : Nat → Option Nat) (rounds fuel : Nat) (r1 r2 : URoot) : Option (ℤ × URoot × URoot) :=
  if r1.right < r2.left then some (1, r1, r2) else
  if (urRefine r1 r2).1.left > (urRefine r1 r2).2.left then (urCmpB prev rounds fuel (urRefine r1 r2).2 (urRefine r1 r2).1).map urSwap
  else urCmpB prev rounds fuel (urRefine r1 r2).1 (urRefine r1 r2).2

/-- realroot.cc 633–698 `uroot::comp(r1, r2)`: 1 for `r1 < r2`, 0 for `r1 = r2`, -1 for `r1 > r2`; and the new `r1` and `r2` -/
def urCmp (prev : Nat → Option Nat) (rounds fuel : Nat) (r1 r2 : URoot) : Option (ℤ × URoot × URoot) :=
  if r1.inf = -1 then some (if r2.inf = -1 then 0 else 1, r1, r2) else
  if r1.inf = 1 then some (-(if r2.inf = 1 then 0 else 1), r1, r2) else
  if r2.inf = 1 then some (1, r1, r2) else
  if r2.inf = -1 then some (-1, r1, r2) else
  if r1.left = r1.right then some (-(urCmpQ r2 r1.left).1, r1, (urCmpQ r2 r1.left).2) else
  if r2.left = r2.right then some ((urCmpQ r1 r2.left).1, (urCmpQ r1 r2.left).2, r2) else
  if r1.left > r2.left then (urCmpA prev rounds fuel r2 r1).map urSwap
  else urCmpA prev rounds fuel r1 r2

/-- realroot.hh 199–203 `shrinkinterval` -/
def urShrink (r : URoot) : URoot := if r.left ≠ r.right then urCheck r ((r.left + r.right) / 2) else r

/-- realroot.hh 170–198 the comparison operators between two `uroot`s, from the result of `comp`: `==`, `<`, `>`, `<=`, `>=`, `!=` -/
def urOps (c : ℤ) : Bool × Bool × Bool × Bool × Bool × Bool :=
  (decide (c = 0), decide (c = 1), decide (c = -1), decide (c ≥ 0), decide (c ≤ 0), decide (c ≠ 0))

/-- realroot.hh 230–277 the comparison operators between a `uroot` (left) and a `QQ` (right), same order -/
def urOpsQ (c : ℤ) : Bool × Bool × Bool × Bool × Bool × Bool :=
  (decide (c = 0), decide (c = 1), decide (c = -1), decide (c ≠ -1), decide (c ≠ 1), decide (c ≠ 0))

end Upoly
end CLPoly
