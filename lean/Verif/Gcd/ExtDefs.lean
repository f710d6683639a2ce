import Verif.Charset.RegDefs
import Verif.Wang.LiftDefs

/-!
# Model of polynomial_gcd.hh 450–558: the extended greatest common divisor

`polynomial_GCD(F, G, s, t)` for integer polynomials sorted for a lex order, both with the same order object (assertion 460).  `s` and `t` are objects distinct from `F` and `G`.
Outcomes: `none`: a bound of the model was exceeded (never: `C96`), `some none`: given up because an operand does not fit the packed representation – only in the checked variant
`chk = true`, which is not code – or because `pquo` throws (never: `C96`).
-/

namespace CLPoly
namespace GcdExt
open Mono Charset Mtshl

variable (chk : Bool) (vc : Var → Var → Bool)

/-- lines 463–468 `make_const` -/
def mkC (a : ℤ) : PV Mono ℤ := if a ≠ 0 then [(Mono.one, a)] else []

/-- `p * q` -/
def mulE (p q : PV Mono ℤ) : O2 (PV Mono ℤ) :=
  if chk = true ∧ fitsMul p q = false then some none else (polyMul vc (codeLex ℤ vc) p q).map some

/-- `pquo(rem, G, F, v)`: quotient and remainder -/
def divE (v : Var) (G F : PV Mono ℤ) : O2 (PV Mono ℤ × PV Mono ℤ) :=
  if chk && !premFits vc v G F then some none else some ((pquoLexEntry vc v true G F).bind fun | .ok r => some r | _ => none)

/-- lines 491–496: the extended Euclidean algorithm for integers.  The first argument bounds the number of iterations; `|G|` is enough. -/
def intLoop : ℕ → ℤ → ℤ → ℤ → ℤ → ℤ → ℤ → Option (ℤ × ℤ × ℤ)
  | 0, r0, r1, s0, _, t0, _ => if r1 ≠ 0 then none else some (r0, s0, t0)
  | n + 1, r0, r1, s0, s1, t0, t1 =>
    if r1 ≠ 0 then
      let q := r0.tdiv r1
      intLoop n r1 (r0 - q * r1) s1 (s0 - q * s1) t1 (t0 - q * t1)
    else some (r0, s0, t0)

/-- lines 473–504: both operands are numbers -/
def intCase (f g : ℤ) : Option (ℤ × ℤ × ℤ) :=
  let d : ℤ := Int.gcd f g
  if d = |f| then some (d, if f > 0 then 1 else -1, 0)
  else if d = |g| then some (d, 0, if g > 0 then 1 else -1)
  else (intLoop g.natAbs f g 1 0 0 1).map fun r => if r.1 < 0 then (-r.1, -r.2.1, -r.2.2) else r

/-- lines 507–509: the main variable -/
def mainVar (F G : PV Mono ℤ) : Var :=
  let v := pFirstVar F
  if v = 0 ∨ (pFirstVar G ≠ 0 ∧ vc v (pFirstVar G) = true) then pFirstVar G else v

/-- lines 532–537: `lc_pow` -/
def lcPow (lc : PV Mono ℤ) : ℕ → PV Mono ℤ → O2 (PV Mono ℤ)
  | 0, p => ok2 p
  | k + 1, p => bind2 (mulE chk vc p lc) fun q => lcPow lc k (nrm vc q)

/-- lines 540–543: `lp * a - q * b`, normalized -/
def comb (lp a q b : PV Mono ℤ) : O2 (PV Mono ℤ) :=
  bind2 (mulE chk vc lp a) fun x => bind2 (mulE chk vc q b) fun y => ok2 (nrm vc (pvSub (lexGt vc) x y))

/-- lines 523–548: the loop.  The first argument bounds the number of iterations; `degree(G, v) + 1` is enough. -/
def loop (v : Var) : ℕ → PV Mono ℤ → PV Mono ℤ → PV Mono ℤ → PV Mono ℤ → PV Mono ℤ → PV Mono ℤ → O2 (PV Mono ℤ × PV Mono ℤ × PV Mono ℤ)
  | 0, r0, r1, s0, _, t0, _ => if r1 ≠ [] then none else ok2 (r0, s0, t0)
  | n + 1, r0, r1, s0, s1, t0, t1 =>
    if r1 ≠ [] then
      bind2 (divE chk vc v r0 r1) fun d =>
      let k := degreeLex vc r0 v - degreeLex vc r1 v + 1
      bind2 (lcPow chk vc (leadIn vc (lexGt vc) r1 v).1 k.toNat (mkC 1)) fun lp =>
      bind2 (comb chk vc lp s0 d.1 s1) fun s2 =>
      bind2 (comb chk vc lp t0 d.1 t1) fun t2 => loop v n r1 d.2 s1 s2 t1 t2
    else ok2 (r0, s0, t0)

/-- lines 551–556: all three times -1 -/
def flip (r : PV Mono ℤ × PV Mono ℤ × PV Mono ℤ) : O2 (PV Mono ℤ × PV Mono ℤ × PV Mono ℤ) :=
  bind2 (mulE chk vc r.1 (mkC (-1))) fun a => bind2 (mulE chk vc r.2.1 (mkC (-1))) fun b => bind2 (mulE chk vc r.2.2 (mkC (-1))) fun c =>
    ok2 (nrm vc a, nrm vc b, nrm vc c)

/-- lines 550–562: the sign -/
def fixSign (r : PV Mono ℤ × PV Mono ℤ × PV Mono ℤ) : O2 (PV Mono ℤ × PV Mono ℤ × PV Mono ℤ) :=
  match r.1 with
  | [] => ok2 r
  | x :: _ => if x.2 < 0 then flip chk vc r else ok2 r

/-- lines 450–563 `polynomial_GCD(F, G, s, t)`: the returned polynomial, `s` and `t` -/
def gcdExt (F G : PV Mono ℤ) : O2 (PV Mono ℤ × PV Mono ℤ × PV Mono ℤ) :=
  match F, G with
  | [], G => ok2 (G, mkC 0, mkC 1)
  | F, [] => ok2 (F, mkC 1, mkC 0)
  | f :: F', g :: G' =>
    let F := f :: F'
    let G := g :: G'
    if isNumber F = true ∧ isNumber G = true then (intCase f.2 g.2).map fun r => some (mkC r.1, mkC r.2.1, mkC r.2.2)
    else
      let v := mainVar vc F G
      if v = 0 then ok2 (F, mkC 1, mkC 0)
      else bind2 (loop chk vc v ((degreeLex vc G v).toNat + 1) F G (mkC 1) (mkC 0) (mkC 0) (mkC 1)) (fixSign chk vc)

end GcdExt
end CLPoly
