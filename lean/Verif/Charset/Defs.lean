import Verif.Gcd.SqfDefs
import Verif.Res.Defs

/-!
# Model of charset.hh: rank, basic sets, characteristic sets

Polynomials are sorted for the lex order of the variable order `vc` (`lex_<custom_var_order>`), all with the same order object, so the assertion
`comp_consistent` holds.  `chk = true` is a variant of the model that gives up where an operand of `prem` does not fit the packed representation;
`chk = false` is the code.
-/

namespace CLPoly
namespace Charset
open Mono

section
variable {R : Type _} [DecidableEq R] [Zero R] [One R] [Add R] [Sub R] [Neg R] [Mul R]

/-- not code: `prem(G, F, v)` and `pquo(G, F, v)` stay within the packed representation (the condition of `C24`) -/
def premFits (vc : Var → Var → Bool) (v : Var) (G F : PV Mono R) : Bool :=
  let vars := pvVars vc F (pvVars vc G [])
  let cap : Int := if vars.length ≤ 1 then 2 ^ 63 else 2 ^ (64 / vars.length)
  decide (degreeLex vc G v < cap) &&
    vars.all fun w => decide (w = v) || decide (degreeLex vc G w + ((degreeLex vc G v + 1 - degreeLex vc F v).toNat : Int) * degreeLex vc F w < cap)

/-- `prem(G, F, v, is_L)` (polynomial.hh 322–348); an exception gives `none` -/
def premC (vc : Var → Var → Bool) (chk isL : Bool) (v : Var) (G F : PV Mono R) : Option (PV Mono R) :=
  if chk && !premFits vc v G F then none else (premLexEntry vc v isL G F).bind fun | .ok S => some S | _ => none

/-- charset.hh 14–34 `rankcompare(F, G)` -/
def rankLess (vc : Var → Var → Bool) (F G : PV Mono R) : Bool :=
  if isNumber G = true then false
  else if isNumber F = true then true
  else if vc (pFirstVar G) (pFirstVar F) = true then true
  else if pFirstVar F ≠ pFirstVar G then false
  else decide (pFirstDeg F < pFirstDeg G)

/-- charset.hh 37–50 `is_reduced(F, G)` -/
def isReduced (vc : Var → Var → Bool) (F G : PV Mono R) : Bool :=
  if F = [] then true
  else if isNumber G = true then false
  else if isNumber F = true then false
  else decide (degreeLex vc F (pFirstVar G) < pFirstDeg G)

/-- charset.hh 85–87: the first element of minimal rank; `b` is `F[min]` -/
def minRank (vc : Var → Var → Bool) : PV Mono R → List (PV Mono R) → PV Mono R
  | b, [] => b
  | b, f :: fs => minRank vc (if rankLess vc f b = true then f else b) fs

/-- charset.hh 82–95: the loop of `basset`; the first argument bounds the number of iterations, `none` means that it was not enough -/
def bassetLoop (vc : Var → Var → Bool) : ℕ → List (PV Mono R) → Option (List (PV Mono R))
  | _, [] => some []
  | 0, _ :: _ => none
  | n + 1, f :: fs =>
    let b := minRank vc f fs
    (bassetLoop vc n ((f :: fs).filter fun i => isReduced vc i b)).map (b :: ·)

/-- charset.hh 75–97 `basset(first, second)`.  As many iterations as elements are enough unless no number is enough (`C68`). -/
def basset (vc : Var → Var → Bool) (F : List (PV Mono R)) : Option (List (PV Mono R)) := bassetLoop vc F.length F

/-- basic_polynomial.hh 365–375 `operator<`: `pair_vec_comp` with exchanged arguments -/
def polyLess (vc : Var → Var → Bool) (gt : R → R → Bool) (p q : PV Mono R) : Bool := pvComp (lexGt vc) gt q p

/-- `std::set::insert`: the set is the list of its elements in increasing order; an element equivalent to an old one is not inserted -/
def setInsert (vc : Var → Var → Bool) (gt : R → R → Bool) (x : PV Mono R) : List (PV Mono R) → List (PV Mono R)
  | [] => [x]
  | y :: l =>
    if polyLess vc gt x y = true then x :: y :: l
    else if polyLess vc gt y x = true then y :: setInsert vc gt x l
    else y :: l

/-- charset.hh 116–119: the remainder of `f` by the chain, from the last element to the first -/
def chainRem (vc : Var → Var → Bool) (chk : Bool) (C : List (PV Mono R)) (f : PV Mono R) : Option (PV Mono R) :=
  C.foldr (fun c o => o.bind fun g => premC vc chk false (pFirstVar c) g c) (some f)

/-- charset.hh 106–137: the loop of `charset`; `none`: the bound for the number of iterations was not enough or `basset` does not return;
`some none`: a computation gave up or threw. -/
def charsetLoop (vc : Var → Var → Bool) (chk : Bool) (gt : R → R → Bool) : ℕ → List (PV Mono R) → Option (Option (List (PV Mono R)))
  | 0, _ => none
  | n + 1, F =>
    (basset vc F).bind fun C =>
      if isNumber (C.headD []) = true then some (some C)
      else match F.mapM (chainRem vc chk C) with
        | none => some none
        | some rs =>
          let rest := rs.filter fun f => f ≠ []
          if rest = [] then some (some C) else charsetLoop vc chk gt n (rest.foldl (fun s x => setInsert vc gt x s) F)

/-- charset.hh 99–139 `charset(P)` -/
def charset (vc : Var → Var → Bool) (chk : Bool) (gt : R → R → Bool) (fuel : ℕ) (P : List (PV Mono R)) : Option (Option (List (PV Mono R))) :=
  if P = [] then some (some []) else charsetLoop vc chk gt fuel (P.foldl (fun s x => setInsert vc gt x s) [])

end

section
open Run

/-- not code: the operands of the greatest common divisors taken for `F` stay within the packed representation, and the null variable does not occur -/
def gcdFits (vc : Var → Var → Bool) (F : PV Mono ℤ) : Bool :=
  let vars := pvVars vc F []
  let cap : Int := if vars.length ≤ 1 then 2 ^ 63 else 2 ^ (64 / vars.length)
  vars.all fun w => decide (w ≠ 0) && decide (degreeLex vc F w < cap) && decide (degreeLex vc F w < 2 ^ 63 - 1)

/-- charset.hh 57–63: the product of the factors -/
def prodFactors (vc : Var → Var → Bool) : List (PV Mono ℤ × ℕ) → PV Mono ℤ → Run (PV Mono ℤ)
  | [], G => ret G
  | x :: l, G => bind (lift (polyMul vc (codeLex ℤ vc) G x.1)) fun G' => prodFactors vc l G'

/-- charset.hh 52–64 `sqrfree(F)`; `squarefreefactorize` is that of polynomial_gcd.hh 101–143 for lex orders.  `chk = true` is the variant that gives up on operands that do not fit and
on an event in the modular gcd (`strict` of Gcd/Defs). -/
def sqrfree (vc : Var → Var → Bool) (chk : Bool) (prev : ℕ → Option ℕ) (fuel : ℕ) (F : PV Mono ℤ) : Run (PV Mono ℤ) :=
  if chk && !gcdFits vc F then fail
  else if F = [] then ret F
  else bind (Mgcd.squarefreeFactorize vc (Mgcd.gcdZ vc chk prev fuel fuel) fuel fuel F) fun lst => prodFactors vc lst.tail [(⟨[], 0⟩, 1)]

/-- a loop that applies `f` to every element -/
def runMap {α β : Type} (f : α → Run β) : List α → Run (List β)
  | [] => ret []
  | a :: l => bind (f a) fun b => bind (runMap f l) fun bs => ret (b :: bs)

/-- a loop that appends the vectors `f` returns; an inner `none` (out of fuel) ends it -/
def runCollect {α β : Type} (f : α → Run (Option (List β))) : List α → Run (Option (List β))
  | [] => ret (some [])
  | a :: l => bind (f a) fun r => match r with
    | none => ret none
    | some x => bind (runCollect f l) fun s => ret (s.map (x ++ ·))

/-- `operator>` of `ZZ` -/
def gtZ (a b : ℤ) : Bool := decide (b < a)

/-- charset.hh 460–487 `Wucharset(P)`; `sq` is `sqrfree`.  The fuel bounds the depth of the recursion and the loops of `charset`: `none` as a result means that it was not enough; a failing
run is one in which `sq` fails, `charset` throws or (`chk`) gives up. -/
def wuCharset (vc : Var → Var → Bool) (chk : Bool) (sq : PV Mono ℤ → Run (PV Mono ℤ)) : ℕ → List (PV Mono ℤ) → Run (Option (List (List (PV Mono ℤ))))
  | 0, _ => ret none
  | n + 1, P =>
    match charset vc chk gtZ n P with
    | none => ret none
    | some none => fail
    | some (some C) =>
      bind (runMap sq C) fun C =>
        if isNumber (C.headD []) = true then ret (some [])
        else bind (runCollect (fun f => if isNumber (leadLex f) = true then ret (some []) else wuCharset vc chk sq n (P ++ [leadLex f])) C) fun r =>
          ret (r.map (C :: ·))

end

end Charset
end CLPoly
