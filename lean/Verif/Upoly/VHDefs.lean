import Verif.Upoly.FactorZDefs

/-!
# Model of the van Hoeij recombination and of the driver of the factorization over ℤ (/repo/clpoly/polynomial_factorize_univar.hh 1131–1657)

Simplification: the lattice part (`__cld_polys`, `__build_cld_matrix`, `__lll_reduce`, lines 892–1129) is a parameter `rows`: the short rows of `U`, as an arbitrary function of the number of
the round, the number of columns asked for, the current polynomial and the current factors (`none`: `__lll_reduce` does not return).  Every theorem holds for all such functions.
-/

namespace CLPoly
namespace Upoly

/-- 1156–1172: the state is `(part, num_classes)`; column `j` opens a class and takes all later free columns equal to it -/
def partStep (same : Nat → Nat → Bool) (s : List (Option Nat) × Nat) (j : Nat) : List (Option Nat) × Nat :=
  if s.1.getD j none ≠ none then s
  else ((s.1.set j (some s.2)).mapIdx fun j2 c => if j < j2 ∧ c = none ∧ same j j2 = true then some s.2 else c, s.2 + 1)

/-- 1138–1180 `__extract_candidates`; `rows` are the rows `U[short_rows[k]]` -/
def candidates (rows : List (List ℤ)) (r : Nat) : List (List Nat) :=
  if rows = [] then []
  else
    let same : Nat → Nat → Bool := fun j j2 => rows.all fun u => u.getD j 0 = u.getD j2 0
    let s := (List.range r).foldl (partStep same) (List.replicate r none, 0)
    (List.range s.2).map fun c => (List.range r).filter fun j => s.1.getD j none = some c

/-- 1258–1298: one candidate; the state is `(f_star, consumed, result)`, `remaining_active` is the number of factors not consumed -/
def vhTry (m : ℤ) (T : List (UPoly ℤ)) (x : UPoly ℤ × List Nat × List (UPoly ℤ)) (cand : List Nat) : Option (UPoly ℤ × List Nat × List (UPoly ℤ)) :=
  if cand = [] ∨ T.length - x.2.1.length ≤ cand.length ∨ cand.any (fun k => x.2.1.contains k) = true then some x
  else
    let pg := (primitive (subsetProd m (lc x.1) (cand.map fun k => T.getD k []))).2
    (divRem divZ x.1 pg).map fun qr => if qr.2 = [] then ((primitive qr.1).2, x.2.1 ++ cand, x.2.2 ++ [pg]) else x

/-- 1258–1298: all candidates of one round -/
def vhRound (m : ℤ) (T : List (UPoly ℤ)) : List (List Nat) → UPoly ℤ × List Nat × List (UPoly ℤ) → Option (UPoly ℤ × List Nat × List (UPoly ℤ))
  | [], x => some x
  | c :: l, x => (vhTry m T x c).bind fun y => vhRound m T l y

/-- 1302–1304: the factors that remain -/
def vhRemain (T : List (UPoly ℤ)) (used : List Nat) : List (UPoly ℤ) := ((List.range T.length).filter fun j => !used.contains j).map fun j => T.getD j []

abbrev Rows := Nat → Nat → UPoly ℤ → List (UPoly ℤ) → Option (List (List ℤ))

/-- 1227–1340: the main loop; `n` counts the rounds, `jt` is `J_target` -/
def vhLoop (rows : Rows) (sort : List (UPoly ℤ) → List (UPoly ℤ)) (m : ℤ) (J0 Jmax : Nat) : Nat → Nat → Nat → UPoly ℤ → List (UPoly ℤ) → List (UPoly ℤ) → Option (List (UPoly ℤ))
  | 0, _, _, _, _, _ => none
  | fuel + 1, n, jt, fstar, T, res =>
    if T.length > 1 then
      (rows n jt fstar T).bind fun rw =>
      (vhRound m T (candidates rw T.length) (fstar, [], res)).bind fun s =>
      if s.2.1 ≠ [] then vhLoop rows sort m J0 Jmax fuel (n + 1) 0 s.1 (vhRemain T s.2.1) s.2.2
      else
        let jt' := if jt = 0 then J0 else jt * 2
        if jt' > Jmax then (zassenhaus sort m fstar T).map fun z => res ++ z
        else vhLoop rows sort m J0 Jmax fuel (n + 1) jt' fstar T res
    else some (sort (if fstar ≠ [] ∧ deg fstar > 0 then res ++ [fstar] else res))

/-- 1188–1341 `__vanhoeij_recombine` -/
def vanHoeij (rows : Rows) (sort : List (UPoly ℤ) → List (UPoly ℤ)) (m : ℤ) (f : UPoly ℤ) (lifted : List (UPoly ℤ)) : Option (List (UPoly ℤ)) :=
  let jmax := (deg f + 1) / 2
  let j0 := min (if 3 * lifted.length > deg f + 1 then 30 else 10) jmax
  vhLoop rows sort m j0 jmax ((lifted.length + 1) * (jmax + 3)) 0 0 f lifted []

/-- 1349–1359 `__factor_recombine` -/
def recombine (rows : Rows) (sort : List (UPoly ℤ) → List (UPoly ℤ)) (m : ℤ) (f : UPoly ℤ) (lifted : List (UPoly ℤ)) : Option (List (UPoly ℤ)) :=
  if lifted.length ≤ 10 then zassenhaus sort m f lifted else vanHoeij rows sort m f lifted

/-- 626–628: `while (pa <= target) { pa *= p; ++a_mig; }` -/
def amigLoop (p target : ℤ) : Nat → ℤ → Nat → Option Nat
  | 0, _, _ => none
  | fuel + 1, pa, a => if pa ≤ target then amigLoop p target fuel (pa * p) (a + 1) else some a

/-- 607–631 `__heuristic_starting_precision`.  Simplification: the value computed with `double`s (lines 613–619, at least 1) is the parameter `ah`. -/
def startPrecision (ah : Nat) (f : UPoly ℤ) (p : Nat) : Option (Nat × Nat) :=
  (mignotte f).bind fun B =>
  let target := 2 * (if lc f < 0 then -lc f else lc f) * B
  (amigLoop p target (target.toNat + 2) 1 0).map fun am => (min am (max 1 ah), am)

/-- 1484–1528 `__lll_factorize`; `rows1`, `rows2`: the lattice part in the two calls of `__vanhoeij_recombine` -/
def lllFactorize (ah : Nat) (rows1 rows2 : Rows) (sort : List (UPoly ℤ) → List (UPoly ℤ)) (p : Nat) [Fact p.Prime] (f : UPoly ℤ) (factors : List (UPoly (ZMod p))) : Option (List (UPoly ℤ)) :=
  (startPrecision ah f p).bind fun a =>
  (henselLift p f factors a.1).bind fun x =>
  (vanHoeij rows1 sort x.2 f x.1).bind fun result =>
  if result.length < factors.length ∧ a.1 < a.2 then
    (henselLift p f factors 0).bind fun y => vanHoeij rows2 sort y.2 f y.1
  else some result

/-- 1380–1384 `__prime_selection_result` with the prime found so far (`none`: `best.prime = 0`) -/
structure Sel where
  p : Nat
  prime : Fact p.Prime
  factors : List (UPoly (ZMod p))
  irreducible : Bool

/-- 1415–1444: the tests on one prime and the factors of `f` modulo `p`; `some none`: prime skipped.  Simplification: the random numbers drawn for this prime are the parameter `rng`. -/
def tryPrime (fuel : Nat) (rng : List Nat) (f : UPoly ℤ) (p : Nat) [Fact p.Prime] : Option (Option (List (UPoly (ZMod p)))) :=
  if Int.fmod (lc f) p = 0 then some none
  else
    let fp := polyMod p f
    if fp = [] ∨ deg fp ≠ deg f then some none
    else if derivative fp = [] then some none
    else
      (gcd p fp (derivative fp)).bind fun g =>
      if deg g > 0 then some none
      else
        (ddf p (makeMonic fp)).bind fun groups =>
        (edfAll p fuel groups rng).map fun a => some a.1

/-- 1412–1466: the loop over the primes; `ps`: successive values of `p` with the random numbers drawn for them; `tried` counts the primes used; returns the best selection -/
def selectLoop (fuel : Nat) (f : UPoly ℤ) : List ({p : Nat // p.Prime} × List Nat) → Nat → Option Sel → Option Sel
  | [], tried, best => if tried < 3 then none else best
  | p :: ps, tried, best =>
    if tried < 3 then
      haveI : Fact p.1.1.Prime := ⟨p.1.2⟩
      (tryPrime fuel p.2 f p.1.1).bind fun o =>
      match o with
      | none => selectLoop fuel f ps tried best
      | some l =>
        if l.length ≤ 1 then some ⟨p.1.1, ⟨p.1.2⟩, if l = [] then [makeMonic (polyMod p.1.1 f)] else l, true⟩
        else selectLoop fuel f ps (tried + 1) (if best.all (fun b => decide (l.length < b.factors.length)) = true then some ⟨p.1.1, ⟨p.1.2⟩, l, false⟩ else best)
    else best

/-- 1538–1558 `__factor_squarefree_primitive_ZZ` -/
def factorSqfPrim (fuel : Nat) (ps : List ({p : Nat // p.Prime} × List Nat)) (ah : Nat) (rows1 rows2 : Rows) (sort : List (UPoly ℤ) → List (UPoly ℤ)) (f : UPoly ℤ) : Option (List (UPoly ℤ)) :=
  if f = [] ∨ deg f < 2 then none
  else
    (selectLoop fuel f ps 0 none).bind fun sel =>
    if sel.irreducible = true ∨ sel.factors.length ≤ 1 then some [f]
    else
      haveI := sel.prime
      lllFactorize ah rows1 rows2 sort sel.p f sel.factors

/-- 1643–1651: `irr` with positive leading coefficient -/
def flipSign (f : UPoly ℤ) : UPoly ℤ := if lc f < 0 then f.map fun t => (t.1, -t.2) else f

/-- 1628–1655: the loop over the squarefree factors, from `(content, factors)`; `fact`: `__factor_squarefree_primitive_ZZ` -/
def factorizeParts (fact : UPoly ℤ → Option (List (UPoly ℤ))) : List (UPoly ℤ × Nat) → ℤ × List (UPoly ℤ × Nat) → Option (ℤ × List (UPoly ℤ × Nat))
  | [], s => some s
  | x :: l, s =>
    if x.1 = [] ∨ deg x.1 = 0 then factorizeParts fact l (s.1 * lc x.1, s.2)
    else if deg x.1 ≤ 1 then factorizeParts fact l (s.1, s.2 ++ [x])
    else (fact x.1).bind fun irr => factorizeParts fact l (s.1, s.2 ++ irr.map fun g => (flipSign g, x.2))

/-- 1591–1660 `factorize(upolynomial_<ZZ>)`.  Simplification: `squarefreefactorize` on the polynomial in one variable (with the two conversions) is the parameter `sqf`, the final `std::sort` the parameter `sort` -/
def factorize (sqf : UPoly ℤ → Option (List (UPoly ℤ × Nat))) (fact : UPoly ℤ → Option (List (UPoly ℤ))) (sort : List (UPoly ℤ × Nat) → List (UPoly ℤ × Nat)) (f : UPoly ℤ) :
    Option (ℤ × List (UPoly ℤ × Nat)) :=
  if f = [] then some (0, [])
  else if deg f = 0 then some (lc f, [])
  else
    let pr := primitive f
    if deg pr.2 ≤ 1 then some (pr.1, [(pr.2, 1)])
    else
      (sqf pr.2).bind fun l =>
      (factorizeParts fact l (pr.1, [])).map fun r => (r.1, sort r.2)

end Upoly
end CLPoly
