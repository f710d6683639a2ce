import Verif.Num.QQ
import Verif.Print.Defs
import Verif.Print.Read

/-!
# Model of stream output and input of numbers (ZZ.hh 182–195, 855–874, QQ.hh 155–174)

A stream is the list of the characters that are still to be read; it is good when the reading starts.  `is >> s` (a `std::string`, width 0, the classic locale) skips white space and takes the characters up
to the next white space; that it sets the fail bit when there are none is not modelled.  `mpz_set_str` of GMP is modelled as its source does it, for base 10: the text ends at the first null character, white
space in front is skipped, then an optional minus sign, then a digit; the other characters must be digits or white space.
-/

namespace CLPoly
open Print

/-- `std::isspace` in the classic locale -/
def isSpace (c : Char) : Bool := c = ' ' || (9 ≤ c.toNat && c.toNat ≤ 13)

/-- what `is >> s` puts into `s` -/
def word (s : List Char) : List Char := (s.dropWhile isSpace).takeWhile fun c => !isSpace c
/-- what remains after `is >> s` -/
def after (s : List Char) : List Char := (s.dropWhile isSpace).dropWhile fun c => !isSpace c

/-- `mpz_set_str(·, t, 10)` after the white space and the sign; `none` stands for −1 -/
def gmpDigits (t : List Char) : Option ℕ :=
  match t with
  | [] => none
  | c :: _ => if c.isDigit = false then none
    else if (t.filter fun c => !isSpace c).all Char.isDigit then some (readNat (t.filter fun c => !isSpace c)) else none

/-- `mpz_set_str(·, s, 10)`; `none` stands for −1 -/
def gmpSetStr (s : List Char) : Option ℤ :=
  match (s.takeWhile (· ≠ Char.ofNat 0)).dropWhile isSpace with
  | [] => none
  | c :: t => if c = '-' then (gmpDigits t).map fun n : ℕ => -(n : ℤ) else (gmpDigits (c :: t)).map fun n : ℕ => (n : ℤ)

namespace ZZ

/-- ZZ.hh 182–195: the constructors from a text, base 10 -/
def ofStr (s : List Char) : Out ZZ := match gmpSetStr s with
  | none => .throws
  | some v => .ok (demote v)

/-- ZZ.hh 855–866 `operator<<` -/
def out : ZZ → List Char
  | small v => decimalZ v
  | big v => decimalZ v

/-- ZZ.hh 868–874 `operator>>`: the new value and the rest of the stream -/
def read (s : List Char) (z : ZZ) : Out (ZZ × List Char) :=
  if word s = [] then .ok (z, after s) else ofStr (word s) >>= fun z => pure (z, after s)

end ZZ

namespace QQ

/-- QQ.hh 155–159 `operator<<` -/
def out (q : QQ) : List Char := q.num.out ++ if q.den.val ≠ 1 then '/' :: q.den.out else []

/-- QQ.hh 161–174 `operator>>`: the value of `q` afterwards, also after an exception, and the rest of the stream -/
def read (s : List Char) (q : QQ) : QQ × Out (List Char) :=
  if '/' ∉ word s then
    match ZZ.ofStr (word s) with
    | .ok n => (⟨n, ZZ.small 1⟩, .ok (after s))
    | .throws => (q, .throws)
    | .trap => (q, .trap)
    | .ub => (q, .ub)
  else
    match ZZ.ofStr ((word s).takeWhile (· ≠ '/')) with
    | .throws => (q, .throws)
    | .trap => (q, .trap)
    | .ub => (q, .ub)
    | .ok n =>
      match ZZ.ofStr ((word s).dropWhile (· ≠ '/')).tail with
      | .throws => (⟨n, q.den⟩, .throws)
      | .trap => (⟨n, q.den⟩, .trap)
      | .ub => (⟨n, q.den⟩, .ub)
      | .ok d =>
        match canonicalize ⟨n, d⟩ with
        | .ok r => (r, .ok (after s))
        | .throws => (⟨n, d⟩, .throws)
        | .trap => (⟨n, d⟩, .trap)
        | .ub => (⟨n, d⟩, .ub)

end QQ
end CLPoly
