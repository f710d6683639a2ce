import Verif.Gcd.SqfDefs
import Verif.Upoly.VHDefs
import Verif.Poly.Support

/-!
# Model: `factorize` for univariate polynomials (all representations), and the wrappers for other orders and for `QQ`

upolynomial.hh 124–160 (conversions), polynomial_factorize_univar.hh 1364–1374, 1564–1657, polynomial_factorize.hh 22–235.
The checks under `#ifndef NDEBUG` are not modelled.
-/

namespace CLPoly
namespace Factor
open Mono Mgcd Run Upoly

section
variable {R : Type _}

/-- upolynomial.hh 153–155: the monomial `v^k` -/
def powMono (v : Var) (k : ℕ) : Mono := if 0 < k then ⟨[(v, (k : ℤ))], k⟩ else Mono.one

/-- upolynomial.hh 146–159 `poly_convert(upolynomial, polynomial, var)`, polynomial_factorize_univar.hh 1364–1374 `__upoly_to_poly` -/
def upolyToPoly (v : Var) (f : UPoly R) : PV Mono R := f.map fun t => (powMono v t.1, t.2)

/-- upolynomial.hh 124–145 `poly_convert(polynomial, upolynomial)`: the total degree of every monomial, then `normalization` -/
def polyToUpoly [DecidableEq R] [Zero R] [Add R] (p : PV Mono R) : UPoly R := Upoly.norm (p.map fun t => (t.1.deg.toNat, t.2))

end

section
variable (vc : Var → Var → Bool) (v : Var) (prev : ℕ → Option ℕ) (fuel : ℕ) (draws : List ℕ)

/-- polynomial_factorize_univar.hh 1592–1597, 1606–1607: squarefree decomposition through the polynomials in one variable `v` -/
def sqfU (f : UPoly ℤ) : Option (List (UPoly ℤ × ℕ)) :=
  (squarefreeFactorize vc (gcdZ vc false prev fuel fuel) fuel fuel (upolyToPoly v f) draws).map fun r => r.1.map fun x => (polyToUpoly x.1, x.2)

variable (fact : UPoly ℤ → Option (List (UPoly ℤ))) (sort : List (UPoly ℤ × ℕ) → List (UPoly ℤ × ℕ))

/-- polynomial_factorize_univar.hh 1564–1657 `factorize(upolynomial_<ZZ>)`; `fact` is `__factor_squarefree_primitive_ZZ`, `sort` the final `std::sort` -/
def factorizeU (f : UPoly ℤ) : Option (ℤ × List (UPoly ℤ × ℕ)) := Upoly.factorize (sqfU vc v prev fuel draws) fact sort f

variable (multi : PV Mono ℤ → Option (ℤ × List (PV Mono ℤ × ℕ)))

/-- polynomial_factorize.hh 22–126 `factorize(polynomial_<ZZ,lex_<var_order>>)`; `multi` is `__factor_multivar`.  `get_variables(F)` has one entry here, the variable of the first
term; the list of factors is sorted by the degree, which is the degree of the univariate polynomial -/
def factorizeLex (F : PV Mono ℤ) : Option (ℤ × List (PV Mono ℤ × ℕ)) :=
  match F with
  | [] => some (0, [])
  | t :: _ =>
    if isNumber F = true then some (t.2, [])
    else if 1 < (polyVars F).card then multi F
    else (factorizeU vc (pFirstVar F) prev fuel draws fact sort (polyToUpoly F)).map fun r => (r.1, r.2.map fun x => (upolyToPoly (pFirstVar F) x.1, x.2))

/-- polynomial_factorize.hh 132–154 `factorize(polynomial_<ZZ,comp>)`; `vc`: the default variable order -/
def factorizeAny (vc' : Var → Var → Bool) (mc' : Mono → Mono → Bool) (F : PV Mono ℤ) : Option (ℤ × List (PV Mono ℤ × ℕ)) :=
  (factorizeLex vc prev fuel draws fact sort multi (toLex vc F)).map fun r => (r.1, r.2.map fun x => (polyConvert vc' mc' id x.1, x.2))

/-- polynomial_factorize.hh 160–232 `factorize(polynomial_<QQ,comp>)`; `facZ` is the factorization over `ZZ` for the same order -/
def factorizeQ (facZ : PV Mono ℤ → Option (ℤ × List (PV Mono ℤ × ℕ))) (vc' : Var → Var → Bool) (mc' : Mono → Mono → Bool) (F : PV Mono ℚ) :
    Option (ℚ × List (PV Mono ℚ × ℕ)) :=
  match F with
  | [] => some (0, [])
  | t :: _ =>
    if isNumber F = true then some (t.2, [])
    else (facZ (convQZ vc' mc' F)).map fun r =>
      r.2.foldl (fun (s : ℚ × List (PV Mono ℚ × ℕ)) x =>
        match x.1 with
        | [] => s
        | u :: _ => (s.1 * (u.2 : ℚ) ^ x.2, s.2 ++ [(x.1.map fun w => (w.1, (w.2 : ℚ) / (u.2 : ℚ)), x.2)])) ((r.1 : ℚ) / (denLcm F : ℚ), [])

end

end Factor
end CLPoly
