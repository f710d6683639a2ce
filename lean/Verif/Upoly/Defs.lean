import Verif.PairVec.MulDefs
import Verif.PairVec.DivDefs
import Verif.Dense.Defs
import Mathlib.Algebra.Field.ZMod

/-!
# Model of `upolynomial_` (/repo/clpoly/upolynomial.hh): sparse univariate polynomials

`upolynomial_<T> = basic_polynomial<umonomial, T, uless>`: the generic pair-vector code of basic.hh with degrees as keys.
Simplifications: degrees are natural numbers (`int64_t` overflow of a degree is not modelled); coefficients are the elements of a ring
(`ZZ` = ℤ, `Zp` = `ZMod p`; justified by C01–C10).  Exceptions and failed assertions are the outcome `none`.
-/

namespace CLPoly
namespace Upoly

abbrev UPoly (R : Type _) := PV Nat R

section
variable {R : Type _} [DecidableEq R]

/-- upolynomial.hh 57–60 `uless` on monomials -/
def comp (a b : Nat) : Bool := decide (a > b)

/-- upolynomial.hh 68–72 `is_divexact` -/
def divx (m l : Nat) : Option Nat := if l ≤ m then some (m - l) else none

/-- upolynomial.hh 93–97 `get_deg` -/
def deg (f : UPoly R) : Nat :=
  match f with
  | [] => 0
  | t :: _ => t.1

/-- `f.front().second`; callers check that `f` is not empty -/
def lc [Zero R] (f : UPoly R) : R :=
  match f with
  | [] => 0
  | t :: _ => t.2

/-- basic_polynomial.hh 217–227 `normalization` for these keys -/
def norm [Zero R] [Add R] (f : UPoly R) : UPoly R := pvMerge (vecSort (fun a b => !comp b.1 a.1) f)

/-- basic_polynomial.hh `operator+`, `operator-`, unary minus -/
def add [Zero R] [Add R] (f g : UPoly R) : UPoly R := pvAdd comp f g
def sub [Zero R] [Sub R] [Neg R] (f g : UPoly R) : UPoly R := pvSub comp f g
def neg [Neg R] (f : UPoly R) : UPoly R := pvNeg f

/-- basic_polynomial.hh `operator*`: `pair_vec_multiplies` (`none` there only means that the fuel of the heap loop is used up, which does
not happen: `Upoly.mul_is`) -/
def mul [Zero R] [Add R] [Mul R] (f g : UPoly R) : UPoly R :=
  haveI : Inhabited R := ⟨0⟩
  (pvMul (· + ·) comp f g).getD []

/-- basic.hh 567–696 `pair_vec_div`, quotient only; `none`: empty divisor -/
def divQ [Zero R] [Add R] [Sub R] [Mul R] [Neg R] (divc : R → R → R × R) (f g : UPoly R) : Option (UPoly R) :=
  haveI : Inhabited R := ⟨0⟩
  (pvDiv (· + ·) divx divc comp (deg f + 2) f g).join

/-- basic.hh 697–853 `pair_vec_div` with remainder; `none`: empty divisor -/
def divRem [Zero R] [Add R] [Sub R] [Mul R] [Neg R] (divc : R → R → R × R) (f g : UPoly R) : Option (UPoly R × UPoly R) :=
  haveI : Inhabited R := ⟨0⟩
  (pvDivRem (· + ·) divx divc comp (deg f + 2) f g).join

/-- upolynomial.hh 176–190 `derivative` -/
def derivative [Zero R] [Mul R] [NatCast R] (f : UPoly R) : UPoly R :=
  f.filterMap fun t => if t.1 ≠ 0 then (if t.2 * (t.1 : R) ≠ 0 then some (t.1 - 1, t.2 * (t.1 : R)) else none) else none

/-- upolynomial.hh 73–82 `assign(P, a)` -/
def assign [Semiring R] (f : UPoly R) (a : R) : R := f.foldl (fun o t => o + t.2 * a ^ t.1) 0

/-- upolynomial.hh 197–205 scalar multiplication -/
def scale [Zero R] [Add R] [Mul R] (f : UPoly R) (c : R) : UPoly R :=
  if c = 0 then [] else norm (f.map fun t => (t.1, t.2 * c))

end

section field
variable {R : Type _} [DecidableEq R] [Field R]

/-- number.hh 339–349 `__div` for `Zp` -/
def divF (a b : R) : R × R := (a / b, 0)

/-- polynomial_factorize_zp.hh 27–36 `__upoly_make_monic`: the monic polynomial (and `lc f` is the returned value) -/
def makeMonic (f : UPoly R) : UPoly R := if lc f = 1 then f else f.map fun t => (t.1, t.2 * (lc f)⁻¹)

/-- polynomial_factorize_zp.hh 39–46 `__upoly_mod` -/
def mod (f g : UPoly R) : Option (UPoly R) := (divRem divF f g).map Prod.snd

/-- the exact divisions `pair_vec_div(q, f, g); q.normalization()` -/
def quo (f g : UPoly R) : Option (UPoly R) := (divQ divF f g).map norm

/-- polynomial_factorize_zp.hh 69–83: the loop of `__upoly_powmod`; the first argument bounds the number of iterations (`e` is halved) -/
def powmodLoop (m : UPoly R) : Nat → Nat → UPoly R → UPoly R → Option (UPoly R)
  | 0, _, result, _ => some result
  | fuel + 1, e, result, b =>
    if e > 0 then
      (if e % 2 ≠ 0 then mod (mul result b) m else some result).bind fun result =>
      (if e / 2 > 0 then mod (mul b b) m else some b).bind fun b =>
      powmodLoop m fuel (e / 2) result b
    else some result

/-- polynomial_factorize_zp.hh 58–85 `__upoly_powmod` -/
def powmod (base : UPoly R) (e : Nat) (m : UPoly R) : Option (UPoly R) :=
  if m = [] then none else (mod base m).bind fun b => powmodLoop m (e + 1) e [(0, 1)] b

/-- polynomial_factorize_zp.hh 190–221 `__upoly_subtract_x`: the loop; the flag is `inserted` -/
def subXLoop : Bool → UPoly R → UPoly R
  | ins, [] => if ins then [] else [(1, -1)]
  | ins, t :: l =>
    let pre : UPoly R := if ins = false ∧ t.1 < 1 then [(1, -1)] else []
    let ins' := if ins = false ∧ t.1 < 1 then true else ins
    if t.1 = 1 then pre ++ (if t.2 - 1 ≠ 0 then [(1, t.2 - 1)] else []) ++ subXLoop true l
    else pre ++ t :: subXLoop ins' l

/-- polynomial_factorize_zp.hh 190–222 -/
def subX (h : UPoly R) : UPoly R := norm (subXLoop false h)

/-- polynomial_factorize_zp.hh 225–251 `__upoly_subtract_one` -/
def subOne (h : UPoly R) : UPoly R :=
  let r := h.flatMap fun t => if t.1 = 0 then (if t.2 - 1 ≠ 0 then [(0, t.2 - 1)] else []) else [t]
  if h.any fun t => t.1 = 0 then r else norm (r ++ [(0, -1)])

/-- polynomial_gcd.hh 700–742: the loop of the extended Euclidean algorithm; state `(r0, r1, s0, s1, t0, t1)` -/
def extLoop : Nat → UPoly R → UPoly R → UPoly R → UPoly R → UPoly R → UPoly R → Option (UPoly R × UPoly R × UPoly R)
  | 0, _, _, _, _, _, _ => none
  | fuel + 1, r0, r1, s0, s1, t0, t1 =>
    if r1 = [] then some (r0, s0, t0)
    else
      (divRem divF r0 r1).bind fun qr =>
        extLoop fuel r1 qr.2 s1 (norm (sub s0 (mul qr.1 s1))) t1 (norm (sub t0 (mul qr.1 t1)))

/-- polynomial_gcd.hh 698–742 the extended `polynomial_GCD(F, G, s, t)` over `Zp`: `(gcd, s, t)` -/
def extGcd (F G : UPoly R) : Option (UPoly R × UPoly R × UPoly R) :=
  if F = [] ∨ G = [] then none
  else
    (extLoop (max (deg F) (deg G) + 3) F G [(0, 1)] [] [] [(0, 1)]).bind fun x =>
      if x.1 = [] then none
      else
        let c := (lc x.1)⁻¹
        some (norm (x.1.map fun t => (t.1, t.2 * c)), norm (x.2.1.map fun t => (t.1, t.2 * c)), norm (x.2.2.map fun t => (t.1, t.2 * c)))

end field

section zp
variable (p : Nat) [Fact p.Prime]

/-- the terms handed to `dense_upoly_zp(sparse, p)`: `(degree, number())` -/
def toTerms (f : UPoly (ZMod p)) : List (Nat × Nat) := f.map fun t => (t.1, t.2.val)
/-- the sparse polynomial built by `to_upoly` -/
def ofTerms (l : List (Nat × Nat)) : UPoly (ZMod p) := l.map fun t => (t.1, (t.2 : ZMod p))

/-- polynomial_gcd.hh 1077–1103 `__polynomial_GCD(Pout, G, F, Lc_gcd, deg)` over `Zp` with degree bound `d`: `none` for the return value −1 -/
def gcdScaled (G F : UPoly (ZMod p)) (lcg : ZMod p) (d : Int) : Option (UPoly (ZMod p)) :=
  let r := Dense.gcd (Dense.ofSparse (toTerms p F) p) (Dense.ofSparse (toTerms p G) p)
  let s := Dense.scalarMul r (Dense.nmodMul r.c (Dense.nmodInv r.c (Dense.lead r)) lcg.val)
  if Dense.deg s > d then none else some (ofTerms p (Dense.toSparse s))

/-- polynomial_gcd.hh 1108–1135 `polynomial_GCD` over `Zp`.  The degree test of `__polynomial_GCD` cannot fail here
(`gcd_is`); if it did, `g` would stay empty and `g.front()` would be undefined behaviour. -/
def gcd (F G : UPoly (ZMod p)) : Option (UPoly (ZMod p)) :=
  if F = [] then some (G.map fun t => (t.1, t.2 * (lc G)⁻¹))
  else if G = [] then some (F.map fun t => (t.1, t.2 * (lc F)⁻¹))
  else (gcdScaled p F G 1 (min (deg F) (deg G))).map fun g => g.map fun t => (t.1, t.2 * (lc g)⁻¹)

/-- polynomial_factorize_zp.hh 110–122 `__extract_pth_root`; `none`: assertion failure -/
def pthRoot (f : UPoly (ZMod p)) : Option (UPoly (ZMod p)) :=
  if f.all fun t => t.1 % p = 0 then some (f.map fun t => (t.1 / p, t.2)) else none

/-- polynomial_factorize_zp.hh 152–176: the loop of `__squarefree_Zp`; returns the remaining `c` and the collected factors -/
def sqfLoop : Nat → UPoly (ZMod p) → UPoly (ZMod p) → Nat → List (UPoly (ZMod p) × Nat) → Option (UPoly (ZMod p) × List (UPoly (ZMod p) × Nat))
  | 0, _, _, _, _ => none
  | fuel + 1, w, c, i, result =>
    if w ≠ [] ∧ deg w > 0 then
      (gcd p w c).bind fun y =>
      (quo w y).bind fun z =>
      (quo c y).bind fun c' =>
      sqfLoop fuel y c' (i + 1) (if z ≠ [] ∧ deg z > 0 then result ++ [(makeMonic z, i)] else result)
    else some (c, result)

/-- polynomial_factorize_zp.hh 125–187 `__squarefree_Zp`; the first argument bounds the recursion (the degree is divided by `p` each time) -/
def squarefree : Nat → UPoly (ZMod p) → Option (List (UPoly (ZMod p) × Nat))
  | 0, _ => none
  | fuel + 1, f =>
    if f = [] then none
    else if derivative f = [] then
      (pthRoot p f).bind fun g =>
      (squarefree fuel (makeMonic g)).map fun sub => sub.map fun x => (x.1, x.2 * p)
    else
      (gcd p f (derivative f)).bind fun c =>
      (quo f c).bind fun w =>
      (sqfLoop p (deg f + 2) w c 1 []).bind fun r =>
      if r.1 ≠ [] ∧ deg r.1 > 0 then
        (pthRoot p r.1).bind fun g =>
        (squarefree fuel (makeMonic g)).map fun sub => r.2 ++ sub.map fun x => (x.1, x.2 * p)
      else some r.2

/-- polynomial_factorize_zp.hh 265–293: the loop of `__ddf_Zp`: returns the rest `f*` and the collected factors -/
def ddfLoop : Nat → Nat → UPoly (ZMod p) → UPoly (ZMod p) → List (UPoly (ZMod p) × Nat) → Option (UPoly (ZMod p) × List (UPoly (ZMod p) × Nat))
  | 0, _, _, _, _ => none
  | fuel + 1, d, h, fs, result =>
    if deg fs < 2 * d then some (fs, result)
    else
      (powmod h p fs).bind fun h =>
      (gcd p (subX h) fs).bind fun gd =>
      if gd ≠ [] ∧ deg gd > 0 then
        (quo fs (makeMonic gd)).bind fun fs' =>
        (mod h fs').bind fun h' =>
        ddfLoop fuel (d + 1) h' fs' (result ++ [(makeMonic gd, d)])
      else ddfLoop fuel (d + 1) h fs result

/-- polynomial_factorize_zp.hh 254–303 `__ddf_Zp`.  Line 299 writes `push_back({std::move(f_star), get_deg(f_star)})`: the braced list is
evaluated from left to right, but binding `std::move(f_star)` to the pair constructor's parameter moves nothing before `get_deg(f_star)` has
been evaluated. -/
def ddf (f : UPoly (ZMod p)) : Option (List (UPoly (ZMod p) × Nat)) :=
  if f = [] then none
  else
    (ddfLoop p (deg f + 2) 1 [(1, 1)] f []).map fun r =>
      if r.1 ≠ [] ∧ deg r.1 > 0 then r.2 ++ [(makeMonic r.1, deg r.1)] else r.2

/-- polynomial_factorize_zp.hh 88–103 `__upoly_random`: `draws` are the successive results of the distribution, for degrees `n-1, …, 0` -/
def ofDraws (draws : List Nat) : UPoly (ZMod p) :=
  match draws with
  | [] => []
  | c :: l => if c ≠ 0 then (l.length, (c : ZMod p)) :: ofDraws l else ofDraws l

/-- polynomial_factorize_zp.hh 335–341: the trace map in characteristic 2 -/
def traceLoop (r f : UPoly (ZMod p)) : Nat → UPoly (ZMod p) → Option (UPoly (ZMod p))
  | 0, g => some g
  | n + 1, g => (mod (add (mul g g) r) f).bind fun g => traceLoop r f n g

/-- polynomial_factorize_zp.hh 330–353: one attempt to split `f` with the random polynomial `r` -/
def edfTry (f : UPoly (ZMod p)) (d : Nat) (r : UPoly (ZMod p)) : Option (UPoly (ZMod p)) :=
  if p = 2 then (mod r f).bind fun g => (traceLoop p r f (d - 1) g).bind fun g => gcd p g f
  else (powmod r ((p ^ d - 1) / 2) f).bind fun g => gcd p (subOne g) f

/-- polynomial_factorize_zp.hh 306–370 `__edf_Zp`.  `rng` is the sequence of numbers the generator will deliver (each below `p`); the result
comes with the part of the sequence not used.  `none`: the fuel (number of attempts plus recursion depth) is used up, or an exception. -/
def edf : Nat → UPoly (ZMod p) → Nat → List Nat → Option (List (UPoly (ZMod p)) × List Nat)
  | 0, _, _, _ => none
  | fuel + 1, f, d, rng =>
    if deg f = d then some ([makeMonic f], rng)
    else if deg f ≤ 0 then some ([], rng)
    else if rng.length < deg f then none
    else
      let r := ofDraws p (rng.take (deg f))
      let rng := rng.drop (deg f)
      if r = [] then edf fuel f d rng
      else
        (edfTry p f d r).bind fun g =>
        if deg g > 0 ∧ deg g < deg f then
          (quo f g).bind fun h =>
          (edf fuel (makeMonic g) d rng).bind fun a =>
          (edf fuel (makeMonic h) d a.2).map fun b => (a.1 ++ b.1, b.2)
        else edf fuel f d rng

/-- polynomial_factorize_zp.hh 387–398: the factors of one group -/
def edfAll (fuel : Nat) : List (UPoly (ZMod p) × Nat) → List Nat → Option (List (UPoly (ZMod p)) × List Nat)
  | [], rng => some ([], rng)
  | g :: l, rng =>
    (edf p fuel g.1 g.2 rng).bind fun a =>
    (edfAll fuel l a.2).map fun b => (a.1 ++ b.1, b.2)

def factorParts (fuel : Nat) : List (UPoly (ZMod p) × Nat) → List Nat → Option (List (UPoly (ZMod p) × Nat))
  | [], _ => some []
  | s :: l, rng =>
    (ddf p s.1).bind fun groups =>
    (edfAll p fuel groups rng).bind fun a =>
    (factorParts fuel l a.2).map fun b => (a.1.map fun h => (h, s.2)) ++ b

/-- polynomial_factorize_zp.hh 373–407 `__factor_Zp`; `sort` is what `std::sort` by degree does (some permutation sorted by degree).
`fuel` bounds the random search only. -/
def factor (sort : List (UPoly (ZMod p) × Nat) → List (UPoly (ZMod p) × Nat)) (fuel : Nat) (rng : List Nat) (f : UPoly (ZMod p)) :
    Option (ZMod p × List (UPoly (ZMod p) × Nat)) :=
  if f = [] then none
  else if deg f ≤ 0 then some (lc f, [])
  else
    (squarefree p (deg f + 1) (makeMonic f)).bind fun sqf =>
    (factorParts p fuel sqf rng).map fun r => (lc f, sort r)

end zp
end Upoly
end CLPoly
