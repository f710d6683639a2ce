import Verif.Print.Defs
import Mathlib.Algebra.MvPolynomial.Basic
import Mathlib.Algebra.BigOperators.Group.List.Basic
import Mathlib.Algebra.Polynomial.Basic
import Mathlib.Data.Rat.Defs

/-!
# Specification: how a formula is read

A formula is a sum of terms; every term but the first has a sign in front, the first one may have one; a sign directly before another one adds nothing.  A term is a product of factors separated by `*`.
A factor that begins with a digit is a number, any other one is a name, or a name, `^` and an exponent.  This is not code of the library.
-/

namespace CLPoly
namespace Print

/-- the parts of a text between the occurrences of a character -/
def split (x : Char) : List Char → List (List Char)
  | [] => [[]]
  | c :: s => if c = x then [] :: split x s else
    match split x s with
    | [] => [[c]]
    | h :: t => (c :: h) :: t

/-- the text before the first sign, and the texts after each sign, with the sign (`true`: minus) -/
def chunks : List Char → List Char × List (Bool × List Char)
  | [] => ([], [])
  | c :: s =>
    let r := chunks s
    if c = '+' then ([], (false, r.1) :: r.2)
    else if c = '-' then ([], (true, r.1) :: r.2)
    else (c :: r.1, r.2)

/-- a decimal number -/
def readNat (s : List Char) : ℕ := s.foldl (fun a c => 10 * a + (c.toNat - 48)) 0

section
variable {A : Type*} [CommRing A] (fac : List Char → A)

/-- a term: the product of its factors, nothing for the empty text -/
def readTerm (s : List Char) : A := if s = [] then 0 else ((split '*' s).map fac).prod

/-- a formula -/
def readSum (s : List Char) : A :=
  readTerm fac (chunks s).1 + ((chunks s).2.map fun x => if x.1 then -readTerm fac x.2 else readTerm fac x.2).sum
end

/-- an integer, or its class -/
def readInt {R : Type*} [CommRing R] (s : List Char) : R := (readNat s : R)

/-- a fraction -/
def readRat (s : List Char) : ℚ := match split '/' s with
  | [a] => readNat a
  | [a, b] => readNat a / readNat b
  | _ => 0

/-- a factor: a number, a name, or a name with an exponent; `X n` is what the name `n` stands for, `num` reads a number -/
def readFactor {A : Type*} [CommRing A] (num : List Char → A) (X : List Char → A) (s : List Char) : A :=
  match s with
  | [] => 0
  | c :: _ => if c.isDigit then num s else
    match split '^' s with
    | [n] => X n
    | [n, e] => X n ^ readNat e
    | _ => 0

/-- a formula in several variables; `var` gives the variable of a name -/
noncomputable def readPoly {R : Type*} [CommRing R] (num : List Char → R) (var : List Char → Var) (s : List Char) : MvPolynomial Var R :=
  readSum (readFactor (fun t => MvPolynomial.C (num t)) fun n => MvPolynomial.X (var n)) s

/-- a formula in one variable, which is written `#` -/
noncomputable def readUPoly {R : Type*} [CommRing R] (num : List Char → R) (s : List Char) : Polynomial R :=
  readSum (readFactor (fun t => Polynomial.C (num t)) fun n => if n = ['#'] then Polynomial.X else 0) s

/-- names that can be told from numbers and operators -/
def GoodName (n : List Char) : Prop := (∃ c s, n = c :: s ∧ c.isDigit = false) ∧ ∀ c ∈ n, c ≠ '+' ∧ c ≠ '-' ∧ c ≠ '*' ∧ c ≠ '^'

end Print
end CLPoly
