import Verif.Poly.OpsDefs
import Mathlib.Data.Rat.Defs

/-!
# Model of polynomial_convert.hh

Integers and rationals are the mathematical ones (ZZ and QQ are shown to implement them, C01–C06).
`basic_monomial::operator=(vector)` and the degree recomputation are part of `polyNormalize`.
-/

namespace CLPoly
open Mono
section
variable {R₁ R₂ : Type _} [DecidableEq R₂]

/-- polynomial_convert.hh 63–126 `poly_convert` between orders (`vc`, `mc` are those of the target) and coefficient types; `f` is the
conversion of the coefficients: the identity, ZZ→QQ, or `uint64_t(Zp)`.  If source and target are the same object the generic
overloads work on a copy: the same result. -/
def polyConvert [Zero R₂] [Add R₂] (vc : Var → Var → Bool) (mc : Mono → Mono → Bool) (f : R₁ → R₂) (p : PV Mono R₁) : PV Mono R₂ :=
  polyNormalize vc mc (p.map fun t => (t.1, f t.2))

end

/-- polynomial_convert.hh 132–136: `den`, the lcm of the denominators. -/
def denLcm (p : PV Mono ℚ) : ℤ := p.foldl (fun d t => (Int.lcm d t.2.den : ℤ)) 1

/-- polynomial_convert.hh 127–166 `poly_convert` QQ→ZZ. -/
def convQZ (vc : Var → Var → Bool) (mc : Mono → Mono → Bool) (p : PV Mono ℚ) : PV Mono ℤ :=
  polyConvert vc mc (fun q => q.num * Int.tdiv (denLcm p) q.den) p

/-- `poly_convert` ZZ→QQ (63–80). -/
def convZQ (vc : Var → Var → Bool) (mc : Mono → Mono → Bool) (p : PV Mono ℤ) : PV Mono ℚ :=
  polyConvert vc mc (fun c : ℤ => (c : ℚ)) p

/-- polynomial.hh 903–906 `is_number`: zero, or one term without variables (`front().first.empty()`). -/
def isNumber {R : Type _} (p : PV Mono R) : Bool :=
  match p with
  | [] => true
  | [t] => t.1.data.isEmpty
  | _ => false

/-- polynomial_convert.hh 14–22 `tonum`; `none`: the exception. -/
def tonum {R : Type _} [Zero R] (p : PV Mono R) : Option R :=
  if isNumber p then some (match p with | [] => 0 | t :: _ => t.2) else none

section
variable {R : Type _} [DecidableEq R] [Zero R] [Add R]
/-- polynomial_convert.hh 26–32, 45–62: a number as a polynomial; the assignment of a list (basic_polynomial.hh 105–111) normalises. -/
def ofNum (vc : Var → Var → Bool) (mc : Mono → Mono → Bool) (c : R) : PV Mono R := polyNormalize vc mc [(Mono.one, c)]
/-- polynomial_convert.hh 33–39: a variable as a polynomial. -/
def ofVar [One R] (vc : Var → Var → Bool) (mc : Mono → Mono → Bool) (v : Var) : PV Mono R := polyNormalize vc mc [(⟨[(v, 1)], 1⟩, 1)]
/-- polynomial_convert.hh 40–44: a monomial as a polynomial. -/
def ofMono [One R] (vc : Var → Var → Bool) (mc : Mono → Mono → Bool) (m : Mono) : PV Mono R := polyNormalize vc mc [(m, 1)]
end

end CLPoly
