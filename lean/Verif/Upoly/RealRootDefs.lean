import Verif.Upoly.GcdZDefs

/-!
# Model of realroot.cc: real root isolation

`ZZ` is ℤ and `QQ` is ℚ (C01–C10).  Recursive functions that the C++ code does not bound carry a fuel argument; `none` means that the fuel is
used up (the C++ code would go on).
-/

namespace CLPoly
namespace Upoly

/-- realroot.cc 7 `__upolynomial_x_plus_1` -/
def xPlus1 : UPoly ℤ := [(1, 1), (0, 1)]

/-- basic.hh 877–896 the square-and-multiply loop of `pair_vec_power`; the first argument bounds the number of iterations (`i` is halved) -/
def upowLoop : Nat → Nat → UPoly ℤ → UPoly ℤ → Bool → UPoly ℤ
  | 0, _, init, _, _ => init
  | fuel + 1, i, init, p, b =>
    if i = 0 then init else
      let init' := if i % 2 ≠ 0 then (if b then p else mul init p) else init
      if i / 2 ≠ 0 then upowLoop fuel (i / 2) init' (mul p p) (if i % 2 ≠ 0 then false else b) else init'

/-- polynomial_.hh 37–67 `pow(p, i)`, `i ≥ 0` (asserted), for a non-empty polynomial `p` -/
def upow (p : UPoly ℤ) (i : Nat) : UPoly ℤ :=
  match i with
  | 0 => [(0, 1)]
  | 1 => p
  | 2 => mul p p
  | 3 => mul (mul p p) p
  | i => upowLoop i i [(0, 1)] p true

/-- realroot.cc 17–25 the two iterators of `coeffsignchanges` -/
def signLoop : UPoly ℤ → Nat → Nat
  | a :: b :: l, v => signLoop (b :: l) (if Int.sign a.2 * Int.sign b.2 < 0 then v + 1 else v)
  | _, v => v

/-- realroot.cc 10–26 `coeffsignchanges` -/
def coeffSignChanges (G : UPoly ℤ) : Nat := if G.length ≤ 1 then 0 else signLoop G 0

/-- realroot.cc 27–43 `_upolynomial_1toinf` -/
def oneToInf (G : UPoly ℤ) : UPoly ℤ :=
  if G = [] then G else G.foldl (fun g t => add g ((upow xPlus1 (deg G - t.1)).map fun j => (j.1, j.2 * t.2))) []

/-- realroot.cc 44–55 `_upolynomial_Bto1` -/
def bTo1 (G : UPoly ℤ) (B : ℤ) : UPoly ℤ := if G = [] then G else G.map fun t => (t.1, t.2 * B ^ t.1)

/-- realroot.cc 56–69 `_upolynomial_01to012` -/
def leftHalf (G : UPoly ℤ) : UPoly ℤ := if G = [] then G else G.map fun t => (t.1, t.2 * 2 ^ (deg G - t.1))

/-- realroot.cc 71–89 `_upolynomial_01to121` -/
def rightHalf (G : UPoly ℤ) : UPoly ℤ :=
  if G = [] then G else G.foldl (fun g t => add g ((upow xPlus1 t.1).map fun j => (j.1, j.2 * (t.2 * 2 ^ (deg G - t.1))))) []

/-- upolynomial.hh 84–92 `assign<QQ, ZZ, QQ>(P, a)` -/
def assignQ (f : UPoly ℤ) (a : ℚ) : ℚ := f.foldl (fun o t => o + t.2 * a ^ t.1) 0

/-- realroot.cc 198–221 `uspensky_shrink`: the result and the new values of `B`, `E` -/
def shrink : Nat → UPoly ℤ → ℚ → ℚ → Bool → Bool → Option (Bool × ℚ × ℚ)
  | 0, _, _, _, _, _ => none
  | fuel + 1, G, B, E, lb, rb =>
    if coeffSignChanges (oneToInf G) = 0 then some (false, B, E) else
    if E - B < 1 ∧ (lb = true ∧ rb = true) then some (true, B, E) else
    if assignQ G (1 / 2) = 0 then some (true, (E + B) / 2, (E + B) / 2) else
    match shrink fuel (leftHalf G) B ((E + B) / 2) lb true with
    | none => none
    | some (true, B', m') => some (true, B', m')
    | some (false, B', m') =>
      match shrink fuel (rightHalf G) m' E true rb with
      | none => none
      | some (_, m'', E') => let _ := B'; some (true, m'', E')

/-- realroot.cc 92–114 `subuspensky`: the intervals it appends to `l` -/
def subUsp : Nat → UPoly ℤ → ℚ → ℚ → Option (List (ℚ × ℚ))
  | 0, _, _, _ => none
  | fuel + 1, G, B, E =>
    let v := coeffSignChanges (oneToInf G)
    if v = 0 then some [] else
    if v = 1 then (shrink (fuel + 1) G B E false false).map fun r => [r.2] else
    match subUsp fuel (leftHalf G) B ((B + E) / 2), subUsp fuel (rightHalf G) ((B + E) / 2) E with
    | some l1, some l2 => some (l1 ++ (if assignQ G (1 / 2) = 0 then [((B + E) / 2, (B + E) / 2)] else []) ++ l2)
    | _, _ => none

/-- realroot.cc 116–138 `RealRootBound` -/
def rootBound (G : UPoly ℤ) : ℤ :=
  match G with
  | [] => 0
  | t :: l =>
    let M := l.foldl (fun B u => if |u.2| > B then |u.2| else B) |t.2|
    let B := M / |t.2| + 3
    let C := (2 : ℤ) ^ (bitLen B - 1)
    if B = C then B else 2 * C

/-- realroot.cc 149–153: the negative side, in reverse order and negated, then the positive side -/
def negRev (l : List (ℚ × ℚ)) : List (ℚ × ℚ) := l.reverse.map fun i => (-i.2, -i.1)

/-- realroot.cc 139–156 `uspensky(G)` for one polynomial -/
def uspensky (fuel : Nat) (G : UPoly ℤ) : Option (List (ℚ × ℚ)) :=
  if G = [] ∨ deg G = 0 then some [] else
    match subUsp fuel (bTo1 G (-rootBound G)) 0 (rootBound G), subUsp fuel (bTo1 G (rootBound G)) 0 (rootBound G) with
    | some l1, some l2 => some (negRev l1 ++ l2)
    | _, _ => none

/-- realroot.cc 416–435: the state of one polynomial of the list: `I[i]`, `G[i]`, `v[i]` -/
def variationsOf (G : List (Nat × UPoly ℤ)) : List ((Nat × UPoly ℤ) × Nat) := G.map fun p => (p, coeffSignChanges (oneToInf p.2))

/-- realroot.cc 458–470: the first polynomial that vanishes at the midpoint; its `v` becomes 0 if it was 1 -/
def midHit : List ((Nat × UPoly ℤ) × Nat) → Option Nat × List ((Nat × UPoly ℤ) × Nat)
  | [] => (none, [])
  | p :: l =>
    if assignQ p.1.2 (1 / 2) = 0 then (some p.1.1, (p.1, if p.2 = 1 then 0 else p.2) :: l)
    else ((midHit l).1, p :: (midHit l).2)

/-- realroot.cc 413–493 `subuspensky` for a list of polynomials.  The vectors `G` and `I` are one list of pairs (index, polynomial) and the
vectors `l` and `index` are one list of pairs (index, interval): the C++ code appends to both at the same places. -/
def subUspM : Nat → List (Nat × UPoly ℤ) → ℚ → ℚ → Option (List (Nat × (ℚ × ℚ)))
  | 0, _, _, _ => none
  | fuel + 1, G, B, E =>
    let vs := variationsOf G
    if (vs.filter fun p => decide (p.2 = 0)).length = G.length then some [] else
    if (vs.filter fun p => decide (p.2 = 1)).length = 1 ∧ (vs.filter fun p => decide (p.2 = 0)).length = G.length - 1 then
      match vs.find? fun p => decide (p.2 = 1) with
      | none => none
      | some p => (shrink (fuel + 1) p.1.2 B E false false).map fun r => [(p.1.1, r.2)]
    else
      let mh := midHit vs
      let rest := (mh.2.filter fun p => decide (p.2 > 0)).map Prod.fst
      match subUspM fuel (rest.map fun p => (p.1, leftHalf p.2)) B ((B + E) / 2), subUspM fuel (rest.map fun p => (p.1, rightHalf p.2)) ((B + E) / 2) E with
      | some l1, some l2 => some (l1 ++ (mh.1.toList.map fun i => (i, ((B + E) / 2, (B + E) / 2))) ++ l2)
      | _, _ => none

/-- upolynomial.hh / basic_polynomial.hh `is_number`: no term, or one term of degree 0 -/
def isNumber (G : UPoly ℤ) : Bool := decide (G = [] ∨ deg G = 0)

/-- realroot.cc 539–545: the largest of the bounds -/
def maxBound (G : List (Nat × UPoly ℤ)) : ℤ := G.foldl (fun B p => if rootBound p.2 > B then rootBound p.2 else B) 0

/-- realroot.cc 559–567: the first polynomial with a zero constant term reports the root 0 -/
def zeroHit (G : List (Nat × UPoly ℤ)) : List (Nat × (ℚ × ℚ)) :=
  match G.find? fun p => decide (assignQ p.2 0 = 0) with
  | none => []
  | some p => [(p.1, (0, 0))]

/-- realroot.cc 495–572 `uspensky(G)` for a list of polynomials -/
def uspenskyM (fuel : Nat) (G : List (UPoly ℤ)) : Option (List (Nat × (ℚ × ℚ))) :=
  let Gs := ((List.range G.length).zip G).filter fun p => !isNumber p.2
  if Gs = [] then some [] else
    match subUspM fuel (Gs.map fun p => (p.1, bTo1 p.2 (-maxBound Gs))) 0 (maxBound Gs),
      subUspM fuel (Gs.map fun p => (p.1, bTo1 p.2 (maxBound Gs))) 0 (maxBound Gs) with
    | some l1, some l2 => some ((l1.reverse.map fun i => (i.1, (-i.2.2, -i.2.1))) ++ zeroHit Gs ++ l2)
    | _, _ => none

end Upoly
end CLPoly
