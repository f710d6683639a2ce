import Verif.Gcd.Defs
import Verif.Poly.FnDefs

/-!
# Model: `is_squarefree`, `squarefreefactorize`, `squarefreebasis`, and the versions for other monomial orders

polynomial_gcd.hh 60–237.  `gcd` is `polynomial_GCD` (or a function with the same contract); `/` is the quotient of `pair_vec_div`.
-/

namespace CLPoly
namespace Mgcd
open Mono Run

section
variable (vc : Var → Var → Bool) (gcd : PV Mono ℤ → PV Mono ℤ → Run (PV Mono ℤ)) (dfuel : ℕ)

/-- polynomial_gcd.hh 76–93 `is_squarefree(F)` -/
def isSquarefree : ℕ → PV Mono ℤ → Run Bool
  | 0, _ => fail
  | fuel + 1, F =>
    if F = [] then ret false
    else if isNumber F = true then ret true
    else bind (contWith gcd F) fun c =>
      bind (isSquarefree fuel c) fun b =>
      if b = true then bind (lift (quoZ vc dfuel F c)) fun F' => bind (gcd F' (derivLex F')) fun F1 => ret (isNumber F1)
      else ret false

/-- polynomial_gcd.hh 112–141: the loop of `squarefreefactorize`; `i` counts from 1, `f` is `F_`, `f3` is `F_3` -/
def sqfLoop : ℕ → ℕ → PV Mono ℤ → PV Mono ℤ → List (PV Mono ℤ × ℕ) → Run (List (PV Mono ℤ × ℕ))
  | 0, _, _, _, _ => fail
  | fuel + 1, i, f, f3, lst =>
    bind (gcd f (derivLex f)) fun f1 =>
    if isNumber f1 = true then
      if 1 < i ∧ f ≠ f3 then bind (lift (quoZ vc dfuel f3 f)) fun q => ret (lst ++ [(q, i - 1)] ++ [(f, i)])
      else ret (lst ++ [(f, i)])
    else bind (lift (quoZ vc dfuel f f1)) fun f2 =>
      if f2 ≠ f3 then
        if 1 < i then bind (lift (quoZ vc dfuel f3 f2)) fun q => sqfLoop fuel (i + 1) f1 f2 (lst ++ [(q, i - 1)])
        else sqfLoop fuel (i + 1) f1 f2 lst
      else sqfLoop fuel (i + 1) f1 f3 lst

/-- polynomial_gcd.hh 101–143 `squarefreefactorize(F)` -/
def squarefreeFactorize : ℕ → PV Mono ℤ → Run (List (PV Mono ℤ × ℕ))
  | 0, _ => fail
  | fuel + 1, F =>
    if F = [] then ret []
    else if isNumber F = true then ret [(F, 1)]
    else bind (contWith gcd F) fun c =>
      bind (lift (quoZ vc dfuel F c)) fun F' =>
      bind (squarefreeFactorize fuel c) fun lst => sqfLoop vc gcd dfuel dfuel 1 F' [] lst

/-- an element of the basis with the list of its occurrences `(index of the input, multiplicity)`; the code keeps two parallel vectors `lst` and `I` -/
abbrev BElem := PV Mono ℤ × List (ℕ × ℕ)

/-- polynomial_gcd.hh 175–195: one squarefree part `tmp` of the input `i` against the basis; results: the new `lst`, what is added to `lst_`, and what remains of `tmp` -/
def splitPart (i m : ℕ) : List BElem → PV Mono ℤ → Run (List BElem × List BElem × PV Mono ℤ)
  | [], tmp => ret ([], [], tmp)
  | b :: l, tmp =>
    bind (gcd b.1 tmp) fun F1 =>
    if isNumber F1 = true then bind (splitPart i m l tmp) fun r => ret (b :: r.1, r.2.1, r.2.2)
    else bind (lift (quoZ vc dfuel tmp F1)) fun tmp' =>
      bind (if F1 ≠ b.1 then bind (lift (quoZ vc dfuel b.1 F1)) fun b1 => ret ((b1, b.2), [(F1, b.2 ++ [(i, m)])])
        else ret ((b.1, b.2 ++ [(i, m)]), [])) fun x =>
      if isNumber tmp' = true then ret (x.1 :: l, x.2, tmp')
      else bind (splitPart i m l tmp') fun r => ret (x.1 :: r.1, x.2 ++ r.2.1, r.2.2)

/-- polynomial_gcd.hh 171–201: all squarefree parts of the input `i` -/
def splitParts (i : ℕ) : List (PV Mono ℤ × ℕ) → List BElem → List BElem → Run (List BElem × List BElem)
  | [], lst, lst' => ret (lst, lst')
  | h :: hs, lst, lst' =>
    bind (splitPart vc gcd dfuel i h.2 lst h.1) fun r =>
    splitParts i hs r.1 (lst' ++ r.2.1 ++ if isNumber r.2.2 = true then [] else [(r.2.2, [(i, h.2)])])

/-- polynomial_gcd.hh 164–210: the loop of `squarefreebasis`; the first entry of `squarefreefactorize` is skipped -/
def basisLoop : ℕ → List (PV Mono ℤ) → List BElem → Run (List BElem)
  | _, [], lst => ret lst
  | i, F :: Fs, lst =>
    bind (squarefreeFactorize vc gcd dfuel dfuel F) fun l =>
    if l = [] then basisLoop (i + 1) Fs lst
    else bind (splitParts vc gcd dfuel i l.tail lst []) fun r => basisLoop (i + 1) Fs (r.1 ++ r.2)

/-- polynomial_gcd.hh 158–212 `squarefreebasis(F)` -/
def squarefreeBasis (F : List (PV Mono ℤ)) : Run (List BElem) := basisLoop vc gcd dfuel 0 F []

end

/-! ## other monomial orders: by conversion to the lexicographic order (`vc`) and back -/

section
variable (vc : Var → Var → Bool) (strict : Bool) (prev : ℕ → Option ℕ) (fuel : ℕ) (vc' : Var → Var → Bool) (mc' : Mono → Mono → Bool)

/-- the lexicographic version of a polynomial -/
def toLex (F : PV Mono ℤ) : PV Mono ℤ := polyConvert vc (lexGt vc) id F

/-- polynomial_gcd.hh 62–76 `polynomial_GCD(F, G)` and `gcd(F, G)` for any order -/
def gcdAny (F G : PV Mono ℤ) : Run (PV Mono ℤ) := bind (gcdZ vc strict prev fuel fuel (toLex vc F) (toLex vc G)) fun r => ret (polyConvert vc' mc' id r)

/-- polynomial_gcd.hh 94–100 `is_squarefree` for any order -/
def isSquarefreeAny (F : PV Mono ℤ) : Run Bool := isSquarefree vc (gcdZ vc strict prev fuel fuel) fuel fuel (toLex vc F)

/-- polynomial_gcd.hh 144–157 `squarefreefactorize` for any order -/
def squarefreeFactorizeAny (F : PV Mono ℤ) : Run (List (PV Mono ℤ × ℕ)) :=
  bind (squarefreeFactorize vc (gcdZ vc strict prev fuel fuel) fuel fuel (toLex vc F)) fun l => ret (l.map fun x => (polyConvert vc' mc' id x.1, x.2))

/-- polynomial_gcd.hh 214–237 `squarefreebasis` for any order -/
def squarefreeBasisAny (F : List (PV Mono ℤ)) : Run (List BElem) :=
  bind (squarefreeBasis vc (gcdZ vc strict prev fuel fuel) fuel (F.map (toLex vc))) fun l => ret (l.map fun x => (polyConvert vc' mc' id x.1, x.2))

end

end Mgcd
end CLPoly
