import Verif.PairVec.Defs
import Verif.Mono.Defs
import Mathlib.Data.Nat.Digits.Defs
import Mathlib.Data.ZMod.Basic

/-!
# Model of the output operators

`operator<<` and `str()` for monomials (basic_monomial.hh 330–367), polynomials (basic_polynomial.hh 399–406, 439–468), monomials and polynomials in one variable (upolynomial.hh 29–46) and
numbers (ZZ.hh 855–867, QQ.hh 155–159, number.hh 286–290).  A text is a list of characters.  The decimal representation of a machine integer (`std::ostream`) and of an `mpz_t` (`mpz_get_str`)
is that of the standard: trusted.
-/

namespace CLPoly
namespace Print
open Mono

/-- the decimal representation of a natural number (`os << _val`, `mpz_get_str(nullptr, 10, ·)`) -/
def decimal (n : ℕ) : List Char := if n = 0 then ['0'] else ((Nat.digits 10 n).map Nat.digitChar).reverse

/-- the same for an integer -/
def decimalZ (a : ℤ) : List Char := if a < 0 then '-' :: decimal a.natAbs else decimal a.natAbs

/-- what the output of a polynomial uses of its coefficients: the comparisons `>= 0`, `== -1`, `!= 1` and `operator<<` -/
structure CoefIO (R : Type) where
  ge0 : R → Bool
  isNegOne : R → Bool
  notOne : R → Bool
  out : R → List Char

/-- ZZ.hh 855–867 -/
def ioZZ : CoefIO ℤ := ⟨fun a => decide (0 ≤ a), fun a => decide (a = -1), fun a => decide (a ≠ 1), decimalZ⟩

/-- QQ.hh 87–99, 155–159; numerator and denominator are those of the canonical fraction (C06) -/
def ioQQ : CoefIO ℚ :=
  ⟨fun a => decide (0 ≤ a), fun a => decide (a = -1), fun a => decide (a ≠ 1), fun a => decimalZ a.num ++ if a.den ≠ 1 then '/' :: decimal a.den else []⟩

/-- number.hh 264–290: `>= 0` is always true, `== -1` compares with the class of -1, the class is written as its representative in `[0, p)` -/
def ioZp (p : ℕ) : CoefIO (ZMod p) := ⟨fun _ => true, fun a => decide (a = -1), fun a => decide (a ≠ 1), fun a => decimal a.val⟩

/-- basic_polynomial.hh 445–466: the loop; the first argument is `is_print`.  `outM` is `operator<<` of the monomials, `isUnit` is `zore_check<Tm>` -/
def termsOut {K R : Type} (io : CoefIO R) (outM : K → List Char) (isUnit : K → Bool) : Bool → PV K R → List Char
  | _, [] => []
  | b, t :: l =>
    (if b && io.ge0 t.2 then ['+'] else []) ++
      (if isUnit t.1 then io.out t.2
       else (if io.isNegOne t.2 then ['-'] else if io.notOne t.2 then io.out t.2 ++ ['*'] else []) ++ outM t.1) ++
      termsOut io outM isUnit true l

/-- basic_polynomial.hh 439–468 `operator<<` and 399–406 `str()` -/
def polyOut {K R : Type} (io : CoefIO R) (outM : K → List Char) (isUnit : K → Bool) (p : PV K R) : List Char :=
  match p with
  | [] => ['0']
  | p => termsOut io outM isUnit false p

/-- basic_monomial.hh 334–344: one variable with its exponent; `name` is `variable::name` (variable.hh 69) -/
def factorOut (name : Var → List Char) (x : Var × ℤ) : List Char := name x.1 ++ if x.2 ≠ 1 then '^' :: decimalZ x.2 else []

/-- basic_monomial.hh 330–346 `operator<<` and 348–367 `str()` -/
def monoOut (name : Var → List Char) (m : Mono) : List Char :=
  match m.data with
  | [] => ['1']
  | x :: l => factorOut name x ++ l.flatMap fun y => '*' :: factorOut name y

/-- upolynomial.hh 35–46 -/
def umonoOut (d : ℕ) : List Char := if d = 0 then ['1'] else '#' :: if d ≠ 1 then '^' :: decimal d else []

/-- the output of a polynomial; monomial.hh 23–29: the unit monomial is the empty one -/
def outPoly {R : Type} (io : CoefIO R) (name : Var → List Char) (p : PV Mono R) : List Char := polyOut io (monoOut name) (fun m => m.data.isEmpty) p

/-- the output of a polynomial in one variable -/
def outUPoly {R : Type} (io : CoefIO R) (p : PV ℕ R) : List Char := polyOut io umonoOut (fun d => decide (d = 0)) p

end Print
end CLPoly
