import Verif.Poly.ConvertDefs
import Verif.Num.Outcome
import Mathlib.Data.ZMod.Basic

/-!
# Model of the polynomial functions of polynomial.hh

Degrees, coefficients, leading coefficients, pseudo-division, reduction modulo a prime, substitution, derivatives.
Exponents are unbounded integers (see Mono/Defs); products go through the same packed/unpacked multiplication `polyMul` as `operator*`.
`variable()`, returned by `get_first_var` of a constant, is the variable with serial 0 (variable.hh).
-/

namespace CLPoly
open Mono

/-! ## degrees -/

section
variable {R : Type _}

/-- polynomial.hh 45–61 `degree(p, v)` -/
def degreeV (p : PV Mono R) (v : Var) : Int :=
  match p with
  | [] => 0
  | t :: p => p.foldl (fun d t => if degIn t.1 v > d then degIn t.1 v else d) (degIn t.1 v)

/-- polynomial.hh 73–77 `get_first_var` of a monomial -/
def firstVar (m : Mono) : Var := match m.data with | [] => 0 | x :: _ => x.1
/-- polynomial.hh 68–72 `get_first_deg` of a monomial -/
def firstDeg (m : Mono) : Int := match m.data with | [] => 0 | x :: _ => x.2
/-- polynomial.hh 83–87 `get_first_var` of a polynomial -/
def pFirstVar (p : PV Mono R) : Var := match p with | [] => 0 | t :: _ => firstVar t.1
/-- polynomial.hh 78–82 `get_first_deg` of a polynomial -/
def pFirstDeg (p : PV Mono R) : Int := match p with | [] => 0 | t :: _ => firstDeg t.1

/-- polynomial.hh 111–126: `degree(p, v)` for lex orders -/
def degreeLex (vc : Var → Var → Bool) (p : PV Mono R) (v : Var) : Int :=
  if p = [] then 0
  else if pFirstVar p = v then pFirstDeg p
  else if vc v (pFirstVar p) then 0
  else degreeV p v

/-- monomial_order.hh 172–173: `get_up_deg` of a monomial for the priority variable `v` -/
def upDeg (v : Var) (m : Mono) : Int := match m.data with | [] => 0 | x :: _ => if x.1 ≠ v then 0 else x.2
/-- polynomial.hh 63–67 `get_up_deg` of a polynomial -/
def pUpDeg (v : Var) (p : PV Mono R) : Int := match p with | [] => 0 | t :: _ => upDeg v t.1

/-- a monomial built by `push_back`: the cached degree is the sum (basic_monomial.hh) -/
def mkMono (d : List (Var × Int)) : Mono := ⟨d, sumDeg d⟩

/-- polynomial.hh 128–158: the loops of `__change_monomial_var_deg` -/
def changeData (vc : Var → Var → Bool) (v : Var) (d : Int) : List (Var × Int) → List (Var × Int)
  | [] => if d ≠ 0 then [(v, d)] else []
  | x :: t =>
    if v = x.1 then (if d ≠ 0 then (v, d) :: t else t)
    else if vc v x.1 then (if d ≠ 0 then (v, d) :: x :: t else x :: t)
    else x :: changeData vc v d t

/-- polynomial.hh 128–158 `__change_monomial_var_deg`: the exponent of `v` in `m` becomes `d` -/
def changeVarDeg (vc : Var → Var → Bool) (m : Mono) (v : Var) (d : Int) : Mono := mkMono (changeData vc v d m.data)

/-- polynomial.hh 160–180 `__change_up_monomial_var_deg` -/
def changeUp (v : Var) (m : Mono) (d : Int) : Mono :=
  if d = 0 then (if upDeg v m = 0 then m else mkMono m.data.tail)
  else mkMono ((v, d) :: (if upDeg v m ≠ 0 then m.data.tail else m.data))

/-! ## coefficients -/

/-- polynomial.hh 188–197: the loop of `coeff`; `m` the current degree, `tmp` the coefficient being collected, `co` the result vector.
`co[m]` out of range would be undefined behaviour; `m` never exceeds the degree of the first term on a sorted polynomial. -/
def coeffLoop (v : Var) : PV Mono R → Int → PV Mono R → List (PV Mono R) → List (PV Mono R)
  | [], m, tmp, co => co.set m.toNat tmp
  | t :: F, m, tmp, co =>
    if upDeg v t.1 ≠ m then coeffLoop v F (upDeg v t.1) [(changeUp v t.1 0, t.2)] (co.set m.toNat tmp)
    else coeffLoop v F m (tmp ++ [(changeUp v t.1 0, t.2)]) co

/-- polynomial.hh 182–199 `coeff(F)` for the order with priority variable `v` -/
def coeffUp (v : Var) (F : PV Mono R) : List (PV Mono R) :=
  coeffLoop v F (pUpDeg v F) [] (List.replicate (pUpDeg v F + 1).toNat [])

/-- polynomial.hh 216–237 `leadcoeff(O, F)` for the order with priority variable `v`: the coefficient and the degree -/
def leadUp (v : Var) (F : PV Mono R) : PV Mono R × Int :=
  let d := pUpDeg v F
  if d ≠ 0 ∧ F ≠ [] then ((F.takeWhile fun t => upDeg v t.1 = d).map fun t => (changeUp v t.1 0, t.2), d) else (F, d)

/-- polynomial.hh 239–265 `leadcoeff(F)` for lex orders -/
def leadLex (F : PV Mono R) : PV Mono R :=
  (F.takeWhile fun t => !t.1.data.isEmpty && decide (firstVar t.1 = pFirstVar F) && decide (firstDeg t.1 = pFirstDeg F)).map
    fun t => (mkMono t.1.data.tail, t.2)

end

section
variable {R : Type _} [DecidableEq R] [Zero R] [Add R]

/-- polynomial.hh 201–214 `coeff(F, v)` for an arbitrary order: convert, split, convert back -/
def coeffIn (vc : Var → Var → Bool) (mc : Mono → Mono → Bool) (F : PV Mono R) (v : Var) : List (PV Mono R) :=
  (coeffUp v (polyConvert (varUni v) (lexGt (varUni v)) id F)).map (polyConvert vc mc id)

/-- polynomial.hh 266–296 `leadcoeff(F, v)`: the coefficient and the degree -/
def leadIn (vc : Var → Var → Bool) (mc : Mono → Mono → Bool) (F : PV Mono R) (v : Var) : PV Mono R × Int :=
  let deg := F.foldl (fun d t => if degIn t.1 v > d then degIn t.1 v else d) 0
  if deg ≠ 0 then
    (polyNormalize vc mc ((F.filter fun t => t.1.data.any (fun x => x.1 = v) && decide (degIn t.1 v = deg)).map
      fun t => (changeVarDeg vc t.1 v 0, t.2)), deg)
  else (F, deg)

end

/-! ## pseudo-division -/

section
variable {R : Type _} [DecidableEq R] [Zero R] [Add R] [Sub R] [Neg R] [Mul R]

/-- polynomial.hh 368–375: `G1`, the terms of highest degree in `v` with that degree lowered by `fdeg` -/
def premTop (vc : Var → Var → Bool) (v : Var) (fdeg : Int) (G : PV Mono R) : PV Mono R :=
  (G.takeWhile fun t => firstDeg t.1 = pFirstDeg G && firstVar t.1 = v).map fun t => (changeVarDeg vc t.1 v (pFirstDeg G - fdeg), t.2)

/-- polynomial.hh 352–392 `__onestep__prem_v1`: `O` and `G1` (which `pquo` reads) -/
def premStep (vc : Var → Var → Bool) (v : Var) (fdeg : Int) (F0 F' G : PV Mono R) : Option (PV Mono R × PV Mono R) :=
  let G1 := premTop vc v fdeg G
  (polyMul vc (codeLex R vc) G1 F').bind fun F1 =>
    match G.dropWhile fun t => firstDeg t.1 = pFirstDeg G && firstVar t.1 = v with
    | [] => some (pvNeg F1, G1)
    | G2 => (polyMul vc (codeLex R vc) G2 F0).bind fun O => some (pvSub (lexGt vc) O F1, G1)

/-- polynomial.hh 452–458: the loop of `prem`; `d` is the counter.  The first argument bounds the number of iterations; `premLex` passes
the degree of `G`, which is enough. -/
def premLoop (vc : Var → Var → Bool) (v : Var) (fdeg : Int) (F0 F' : PV Mono R) : Nat → PV Mono R → Int → Option (PV Mono R × Int)
  | 0, O, d => if pFirstVar O = v ∧ pFirstDeg O ≥ fdeg then none else some (O, d)
  | n + 1, O, d =>
    if pFirstVar O = v ∧ pFirstDeg O ≥ fdeg then
      (premStep vc v fdeg F0 F' O).bind fun r => premLoop vc v fdeg F0 F' n r.1 (d - 1)
    else some (O, d)

/-- polynomial.hh 438–445: `tmp_F0`, the leading coefficient of `F` in `v` -/
def premLead (vc : Var → Var → Bool) (v : Var) (F : PV Mono R) : PV Mono R :=
  (F.takeWhile fun t => firstVar t.1 = v && firstDeg t.1 = pFirstDeg F).map fun t => (changeVarDeg vc t.1 v 0, t.2)
/-- polynomial.hh 446–447: `tmp_F_`, the rest of `F` -/
def premRest (v : Var) (F : PV Mono R) : PV Mono R :=
  F.dropWhile fun t => firstVar t.1 = v && firstDeg t.1 = pFirstDeg F

/-- polynomial.hh 459–473, 571–588: the factor `F0^d` at the end (`d = 1` or `pair_vec_power`) -/
def premFix (vc : Var → Var → Bool) (F0 : PV Mono R) (d : Int) (O : PV Mono R) : Option (PV Mono R) :=
  if d = 1 then polyMul vc (codeLex R vc) O F0
  else (pvPower vc (codeLex R vc) [] F0 d.toNat).bind fun P => polyMul vc (codeLex R vc) O P

/-- polynomial.hh 394–477 `prem(O, G, F, v, is_L)` for a lex order; the assertion 420 (`v` is the first variable of `F` and `G`, or comes
before them) is a precondition.  `none`: a bound of the model was exceeded (never: `C24`). -/
def premLex (vc : Var → Var → Bool) (v : Var) (isL : Bool) (G F : PV Mono R) : Option (Out (PV Mono R)) :=
  if F = [] then some .throws
  else if isNumber F then some (.ok [])
  else if pFirstVar F ≠ v then some (.ok [])
  else if pFirstVar G ≠ v ∨ pFirstDeg G < pFirstDeg F then some (.ok G)
  else
    let fdeg := pFirstDeg F
    let F0 := premLead vc v F
    let F' := premRest v F
    (premStep vc v fdeg F0 F' G).bind fun r =>
      (premLoop vc v fdeg F0 F' (pFirstDeg G).toNat r.1 (pFirstDeg G - fdeg)).bind fun s =>
        if isL ∧ s.2 > 0 then (premFix vc F0 s.2 s.1).map Out.ok else some (.ok s.1)

/-- polynomial.hh 559–570: the loop of `pquo`: `Q`, `R` and the counter -/
def pquoLoop (vc : Var → Var → Bool) (v : Var) (fdeg : Int) (F0 F' : PV Mono R) :
    Nat → PV Mono R → PV Mono R → Int → Option (PV Mono R × PV Mono R × Int)
  | 0, Q, O, d => if pFirstVar O = v ∧ pFirstDeg O ≥ fdeg then none else some (Q, O, d)
  | n + 1, Q, O, d =>
    if pFirstVar O = v ∧ pFirstDeg O ≥ fdeg then
      (premStep vc v fdeg F0 F' O).bind fun r =>
        (polyMul vc (codeLex R vc) F0 Q).bind fun Q' => pquoLoop vc v fdeg F0 F' n (Q' ++ r.2) r.1 (d - 1)
    else some (Q, O, d)

/-- polynomial.hh 480–593 `pquo(Q, R, G, F, v, is_L)` for a lex order, with the assertion 530 as a precondition: quotient and remainder -/
def pquoLex (vc : Var → Var → Bool) (v : Var) (isL : Bool) (G F : PV Mono R) : Option (Out (PV Mono R × PV Mono R)) :=
  if F = [] then some .throws
  else if isNumber F ∨ pFirstVar F ≠ v then
    let d := if v = pFirstVar G then pFirstDeg G else 0
    if d ≠ 0 then (premFix vc F d G).map fun Q => Out.ok (Q, []) else some (.ok (G, []))
  else if pFirstVar G ≠ v ∨ pFirstDeg G < pFirstDeg F then some (.ok ([], G))
  else
    let fdeg := pFirstDeg F
    let F0 := premLead vc v F
    let F' := premRest v F
    (premStep vc v fdeg F0 F' G).bind fun r =>
      (pquoLoop vc v fdeg F0 F' (pFirstDeg G).toNat r.2 r.1 (pFirstDeg G - fdeg)).bind fun s =>
        if isL ∧ s.2.2 > 0 then
          (premFix vc F0 s.2.2 s.2.1).bind fun O => (premFix vc F0 s.2.2 s.1).map fun Q => Out.ok (Q, O)
        else some (.ok (s.1, s.2.1))

/-- polynomial.hh 300–321, 340–347: `prem(G, F, v, is_L)` through the order with priority variable `v` -/
def premConv (vc : Var → Var → Bool) (mc : Mono → Mono → Bool) (v : Var) (isL : Bool) (G F : PV Mono R) : Option (Out (PV Mono R)) :=
  if F = [] then some .throws
  else if isNumber F then some (.ok [])
  else (premLex (varUni v) v isL (polyConvert (varUni v) (lexGt (varUni v)) id G) (polyConvert (varUni v) (lexGt (varUni v)) id F)).map
    fun o => o.bind fun O => .ok (polyConvert vc mc id O)

/-- polynomial.hh 335, 655: the test for the direct path of the lex overloads -/
def directLex (vc : Var → Var → Bool) (v : Var) (G F : PV Mono R) : Bool :=
  (decide (v = pFirstVar F) || vc v (pFirstVar F)) && (isNumber G || decide (v = pFirstVar G) || vc v (pFirstVar G))

/-- polynomial.hh 322–348 `prem(G, F, v, is_L)` for lex orders (both operands with the same order object) -/
def premLexEntry (vc : Var → Var → Bool) (v : Var) (isL : Bool) (G F : PV Mono R) : Option (Out (PV Mono R)) :=
  if F = [] then some .throws
  else if isNumber F then some (.ok [])
  else if directLex vc v G F then premLex vc v isL G F
  else premConv vc (lexGt vc) v isL G F

/-- polynomial.hh 596–629, 660–667: `pquo(R, G, F, v, is_L)` through the order with priority variable `v`; `C` is the order of the operands -/
def pquoConv [One R] (vc : Var → Var → Bool) (C : OrderCode R) (v : Var) (isL : Bool) (G F : PV Mono R) : Option (Out (PV Mono R × PV Mono R)) :=
  if F = [] then some .throws
  else if isNumber F then
    let d := degreeV G v
    if d ≠ 0 then (polyPow vc C F d.toNat).bind fun P => (polyMul vc C G P).map fun Q => .ok (Q, []) else some (.ok (G, []))
  else (pquoLex (varUni v) v isL (polyConvert (varUni v) (lexGt (varUni v)) id G) (polyConvert (varUni v) (lexGt (varUni v)) id F)).map
    fun o => o.bind fun r => .ok (polyConvert vc C.mc id r.1, polyConvert vc C.mc id r.2)

/-- polynomial.hh 630–668 `pquo(R, G, F, v, is_L)` for lex orders; here `degree(G, v)` is the lex overload -/
def pquoLexEntry [One R] (vc : Var → Var → Bool) (v : Var) (isL : Bool) (G F : PV Mono R) : Option (Out (PV Mono R × PV Mono R)) :=
  if F = [] then some .throws
  else if isNumber F then
    let d := degreeLex vc G v
    if d ≠ 0 then (polyPow vc (codeLex R vc) F d.toNat).bind fun P => (polyMul vc (codeLex R vc) G P).map fun Q => .ok (Q, []) else some (.ok (G, []))
  else if directLex vc v G F then pquoLex vc v isL G F
  else pquoConv vc (codeLex R vc) v isL G F

end

/-! ## reduction modulo a prime, substitution, derivatives -/

/-- polynomial.hh 676–704 `polynomial_mod`; the coefficient conversion is the assignment `Zp = ZZ` (C10). -/
def polyMod (n : ℕ) (p : PV Mono ℤ) : PV Mono (ZMod n) :=
  p.filterMap fun t => if (t.2 : ZMod n) ≠ 0 then some (t.1, (t.2 : ZMod n)) else none

section
variable {R₂ R : Type _} [DecidableEq R] [Zero R] [Add R] [Mul R] [Pow R ℕ]

/-- polynomial.hh 716–726: the remaining monomial and the coefficient of one term; `s` is the assignment, `f` the coefficient conversion -/
def assignTerm (f : R₂ → R) (s : Var → Option R) (t : Mono × R₂) : Mono × R :=
  (mkMono (t.1.data.filter fun j => (s j.1).isNone),
   t.1.data.foldl (fun z j => match s j.1 with | some a => z * a ^ j.2.toNat | none => z) (f t.2))

/-- polynomial.hh 716–749: the loop of `assign`: `cur` is the pending term `(m1, z1)` -/
def assignLoop (f : R₂ → R) (s : Var → Option R) : PV Mono R₂ → Mono × R → PV Mono R → PV Mono R
  | [], cur, out => if cur.2 ≠ 0 then out ++ [cur] else out
  | t :: p, cur, out =>
    let mz := assignTerm f s t
    if !Mono.beq mz.1 cur.1 then assignLoop f s p mz (if cur.2 ≠ 0 then out ++ [cur] else out)
    else assignLoop f s p (cur.1, cur.2 + mz.2) out

/-- polynomial.hh 706–847: the three overloads of `assign` (one variable, a map, a map with conversion of the coefficient type) -/
def assign (vc : Var → Var → Bool) (mc : Mono → Mono → Bool) (f : R₂ → R) (s : Var → Option R) (p : PV Mono R₂) : PV Mono R :=
  match p with
  | [] => []
  | t :: p => polyNormalize vc mc (assignLoop f s p (assignTerm f s t) [])

end

section
variable {R : Type _} [Mul R] [IntCast R]

/-- polynomial.hh 854–869: the monomial of one term of the derivative -/
def derivMono (x : Var) (m : Mono) : Mono :=
  mkMono (m.data.filterMap fun j => if j.1 = x then (if j.2 - 1 ≠ 0 then some (x, j.2 - 1) else none) else some j)

/-- polynomial.hh 853–862: `b`, the exponent of `x` (the last matching entry) -/
def derivExp (x : Var) (m : Mono) : Int := m.data.foldl (fun b j => if j.1 = x then j.2 else b) 0

/-- polynomial.hh 848–878 `derivative(p, x)` -/
def derivative (x : Var) (p : PV Mono R) : PV Mono R :=
  p.filterMap fun t => if derivExp x t.1 ≠ 0 then some (derivMono x t.1, (derivExp x t.1 : R) * t.2) else none

/-- polynomial.hh 887–895: one term of `derivative(p)` for lex orders -/
def derivLexTerm (x : Var) (t : Mono × R) : Option (Mono × R) :=
  match t.1.data with
  | [] => none
  | j :: rest => if x = j.1 then some (mkMono (if j.2 - 1 ≠ 0 then (x, j.2 - 1) :: rest else rest), (j.2 : R) * t.2) else none

/-- polynomial.hh 879–900 `derivative(p)` for lex orders: with respect to the first variable -/
def derivLex (p : PV Mono R) : PV Mono R := p.filterMap (derivLexTerm (pFirstVar p))

end
end CLPoly
