import Verif.Upoly.Defs

/-!
# Model of the gcd of univariate integer polynomials (/repo/clpoly/polynomial_gcd.cc and polynomial_gcd.hh)

`polynomial_GCD(upolynomial_<ZZ>, upolynomial_<ZZ>)`: single-term shortcut, heuristic evaluation at a power of two (`__gcdheu`), modular
algorithm with Chinese remaindering.  `ZZ` is `ℤ`; GMP functions compute their documented results.  `prev_prime_64` (GMP `mpz_prevprime`) is the
parameter `prev` of the model; `none` is its exception.
-/

namespace CLPoly
namespace Upoly

/-- number.hh 34–37 `__div` for `ZZ`: floor division -/
def divZ (a b : ℤ) : ℤ × ℤ := (Int.fdiv a b, Int.fmod a b)

/-- polynomial_gcd.hh 1058–1070 `cont` -/
def cont (f : UPoly ℤ) : ℤ :=
  match f with
  | [] => 1
  | t :: l => l.foldl (fun c u => (Int.gcd c u.2 : ℤ)) t.2

/-- number/ZZ.hh 704–722 `sizeinbase(2)` -/
def bitLen (c : ℤ) : Nat := if c = 0 then 1 else c.natAbs.size

/-- polynomial_gcd.cc 20–28: the largest bit length of a coefficient -/
def maxBits (f : UPoly ℤ) : Nat := f.foldl (fun b t => if bitLen t.2 > b then bitLen t.2 else b) 0

/-- polynomial_gcd.cc 42–44: entry `i` of the dense coefficient array (degrees are pairwise distinct, so the order of the writes is immaterial) -/
def coefAt (f : UPoly ℤ) (i : Nat) : ℤ :=
  match f.find? fun t => t.1 = i with
  | none => 0
  | some t => t.2

/-- polynomial_gcd.cc 51–78: Horner evaluation at `2^pb`, from the highest degree down -/
def packVal (pb : Nat) (f : UPoly ℤ) : ℤ := (List.range (deg f + 1)).foldr (fun i v => v * 2 ^ pb + coefAt f i) 0

/-- polynomial_gcd.cc 95–110: symmetric digits of `g ≥ 0` to the base `2^pb`; `k` iterations left, `i` the current degree -/
def unpackLoop (pb : Nat) : Nat → Nat → ℤ → UPoly ℤ
  | 0, _, _ => []
  | k + 1, i, g =>
    if g = 0 then []
    else
      let r := g % 2 ^ pb
      let g' := g / 2 ^ pb
      let r' := if r > 2 ^ pb / 2 then r - 2 ^ pb else r
      let g'' := if r > 2 ^ pb / 2 then g' + 1 else g'
      (if r' ≠ 0 then [(i, r')] else []) ++ unpackLoop pb k (i + 1) g''

/-- polynomial_gcd.cc 121–126: primitive part with positive leading coefficient -/
def ppPos (h : UPoly ℤ) : UPoly ℤ :=
  let h1 := if cont h ≠ 1 ∧ cont h ≠ -1 then h.map fun t => (t.1, Int.tdiv t.2 (cont h)) else h
  if h1 ≠ [] ∧ lc h1 < 0 then h1.map fun t => (t.1, -t.2) else h1

/-- the test `pair_vec_div(Q, R, F, H); R.empty()` -/
def divides (h f : UPoly ℤ) : Bool :=
  match divRem divZ f h with
  | none => false
  | some qr => qr.2.isEmpty

/-- polynomial_gcd.cc 31–36 `pack_bits` -/
def packBits (f g : UPoly ℤ) : Nat := max (min (maxBits f) (maxBits g) + 6) (max (maxBits f) (maxBits g) + 1)

/-- polynomial_gcd.cc 81–117: the candidate -/
def heuCand (f g : UPoly ℤ) : UPoly ℤ :=
  norm (unpackLoop (packBits f g) (min (deg f) (deg g) + 1) 0 (Int.gcd (packVal (packBits f g) f) (packVal (packBits f g) g))).reverse

/-- polynomial_gcd.cc 11–138 `__gcdheu`; `none` is the return value `false` -/
def gcdheu (f g : UPoly ℤ) : Option (UPoly ℤ) :=
  if maxBits f + maxBits g ≥ 128 then none
  else if heuCand f g = [] then none
  else if divides (ppPos (heuCand f g)) f = true ∧ divides (ppPos (heuCand f g)) g = true then some (ppPos (heuCand f g))
  else none

/-- upolynomial.hh 104–115 `polynomial_mod` -/
def polyMod (p : Nat) (f : UPoly ℤ) : UPoly (ZMod p) := f.filterMap fun t => if (t.2 : ZMod p) ≠ 0 then some (t.1, (t.2 : ZMod p)) else none

/-- polynomial_gcd.cc 224–236: first image, residues in the symmetric range -/
def liftFirst (p : Nat) (f : UPoly (ZMod p)) : UPoly ℤ :=
  f.map fun t =>
    let c := Int.tmod (t.2.val : ℤ) p
    (t.1, if c > Int.tdiv (p : ℤ) 2 then c - p else c)

/-- polynomial_gcd.cc 250–289: merge of the accumulated image (modulo `PP`) and the new one; `inv` is the inverse of `PP` modulo `p` -/
def crtMerge (p : Nat) (inv PP : ℤ) : UPoly ℤ → UPoly (ZMod p) → UPoly ℤ
  | [], [] => []
  | a :: l, [] => (a.1, a.2 - a.2 * inv * PP) :: crtMerge p inv PP l []
  | [], b :: m => (b.1, (b.2.val : ℤ) * inv * PP) :: crtMerge p inv PP [] m
  | a :: l, b :: m =>
    if comp a.1 b.1 then (a.1, a.2 - a.2 * inv * PP) :: crtMerge p inv PP l (b :: m)
    else if a.1 = b.1 then (b.1, a.2 + ((b.2.val : ℤ) - a.2) * inv * PP) :: crtMerge p inv PP l m
    else (b.1, (b.2.val : ℤ) * inv * PP) :: crtMerge p inv PP (a :: l) m
termination_by l m => l.length + m.length

/-- polynomial_gcd.cc 291–302 -/
def symRed (PP c : ℤ) : ℤ :=
  let c := Int.tmod c PP
  if c > Int.tdiv PP 2 then c - PP else if c < Int.tdiv (-PP) 2 then c + PP else c

/-- polynomial_gcd.cc 246–303: the new accumulated image -/
def crtStep (p : Nat) (PP : ℤ) (pout : UPoly ℤ) (pm : UPoly (ZMod p)) : UPoly ℤ :=
  (crtMerge p (((PP : ZMod p)⁻¹).val : ℤ) PP pout pm).map fun t => (t.1, symRed (PP * p) t.2)

/-- one of the values the modular loop passes from round to round -/
structure GcdSt where
  prime : Nat
  pout : UPoly ℤ
  d : ℤ
  PP : ℤ

/-- what a round does: return, go on, or fail (exception of `prev_prime_64`) -/
inductive GcdOut
  | ret (r : UPoly ℤ)
  | next (s : GcdSt)
  | fail

/-- `prime = prev_prime_64(prime)` at the end of a round -/
def stepPrime (prev : Nat → Option Nat) (s : GcdSt) : GcdOut :=
  match prev s.prime with
  | none => .fail
  | some q => .next { s with prime := q }

/-- polynomial_gcd.cc 192–330: one round of the loop.  The inner `while` that skips primes dividing a leading coefficient is merged with the outer
loop.  `prime` is assumed prime (as GMP promises); otherwise `fail`.  When the trial divisions at line 316/319 fail, `tmp_Pout_` has already been replaced by its
primitive part (line 314), and that is what is kept (line 332). -/
def gcdRound (prev : Nat → Option Nat) (F G : UPoly ℤ) (contGcd : ℤ) (s : GcdSt) : GcdOut :=
  if Int.tmod (lc F) s.prime = 0 ∨ Int.tmod (lc G) s.prime = 0 then stepPrime prev s
  else if hp : s.prime.Prime then
    haveI := Fact.mk hp
    match gcdScaled s.prime (polyMod s.prime F) (polyMod s.prime G) ((Int.gcd (lc F) (lc G) : ℤ) : ZMod s.prime) s.d with
    | none => stepPrime prev s
    | some pm =>
      if (deg pm : ℤ) < s.d then stepPrime prev { s with pout := liftFirst s.prime pm, d := deg pm, PP := s.prime }
      else
        let tmp := crtStep s.prime s.PP s.pout pm
        if tmp = s.pout then
          if s.d > 0 then
            match divQ divZ tmp [(0, cont s.pout)] with
            | none => .fail
            | some tmp =>
              if divides tmp F = true ∧ divides tmp G = true then .ret (mul tmp [(0, contGcd)])
              else stepPrime prev { s with pout := tmp, PP := s.PP * s.prime }
          else .ret [(0, contGcd)]
        else stepPrime prev { s with pout := tmp, PP := s.PP * s.prime }
  else .fail

/-- polynomial_gcd.cc 192–331: the loop; `none` if the fuel is used up or an exception is thrown -/
def gcdLoop (prev : Nat → Option Nat) (F G : UPoly ℤ) (contGcd : ℤ) : Nat → GcdSt → Option (UPoly ℤ)
  | 0, _ => none
  | fuel + 1, s =>
    match gcdRound prev F G contGcd s with
    | .ret r => some r
    | .next s => gcdLoop prev F G contGcd fuel s
    | .fail => none

/-- polynomial_gcd.cc 146–165: one of the operands is a single term -/
def gcdMono (G F : UPoly ℤ) : UPoly ℤ :=
  match F with
  | [] => []
  | t :: l => [(l ++ G).foldl (fun (a : Nat × ℤ) u => (min a.1 u.1, (Int.gcd a.2 u.2 : ℤ))) t]

/-- division of all coefficients by the content (polynomial_gcd.cc 170–173) -/
def divCont (f : UPoly ℤ) : UPoly ℤ := f.map fun t => (t.1, Int.tdiv t.2 (cont f))

/-- polynomial_gcd.cc 183: the first prime, 2^64 − 59 -/
def firstPrime : Nat := 18446744073709551557

/-- polynomial_gcd.cc 140–332 `polynomial_GCD(G, F)` -/
def gcdZ (prev : Nat → Option Nat) (fuel : Nat) (G F : UPoly ℤ) : Option (UPoly ℤ) :=
  if F = [] then some G
  else if G = [] then some F
  else if F.length = 1 ∨ G.length = 1 then some (gcdMono G F)
  else
    let contGcd : ℤ := Int.gcd (cont F) (cont G)
    match gcdheu (divCont F) (divCont G) with
    | some h => some (if contGcd ≠ 1 then h.map fun t => (t.1, t.2 * contGcd) else h)
    | none => gcdLoop prev (divCont F) (divCont G) contGcd fuel ⟨firstPrime, [], 2 ^ 63 - 1, 0⟩

/-- polynomial_gcd.hh 759–797: the loop of the extended Euclidean algorithm over `ZZ` -/
def extLoopZ : Nat → UPoly ℤ → UPoly ℤ → UPoly ℤ → UPoly ℤ → UPoly ℤ → UPoly ℤ → Option (UPoly ℤ × UPoly ℤ × UPoly ℤ)
  | 0, _, _, _, _, _, _ => none
  | fuel + 1, r0, r1, s0, s1, t0, t1 =>
    if r1 = [] then some (r0, s0, t0)
    else
      let lp := lc r1 ^ (deg r0 + 1 - deg r1)
      (divRem divZ (norm (r0.map fun t => (t.1, t.2 * lp))) r1).bind fun qr =>
        extLoopZ fuel r1 qr.2 s1 (norm (sub (norm (s0.map fun t => (t.1, t.2 * lp))) (mul qr.1 s1)))
          t1 (norm (sub (norm (t0.map fun t => (t.1, t.2 * lp))) (mul qr.1 t1)))

/-- polynomial_gcd.hh 744–815 the extended `polynomial_GCD(F, G, s, t)` over `ZZ` -/
def extGcdZ (F G : UPoly ℤ) : Option (UPoly ℤ × UPoly ℤ × UPoly ℤ) :=
  if F = [] ∨ G = [] then none
  else
    (extLoopZ (max (deg F) (deg G) + 3) F G [(0, 1)] [] [] [(0, 1)]).bind fun x =>
      if x.1 = [] then none
      else if lc x.1 < 0 then
        some (norm (x.1.map fun t => (t.1, -t.2)), norm (x.2.1.map fun t => (t.1, -t.2)), norm (x.2.2.map fun t => (t.1, -t.2)))
      else some x

end Upoly
end CLPoly
