import Verif.Poly.PackedDefs

/-!
# Model of the remaining polynomial operations of polynomial_.hh and basic_polynomial.hh

Normalisation, scalar and monomial operands, powers.
-/

namespace CLPoly
open Mono
section
variable {R : Type _} [DecidableEq R]

/-- basic.hh 99–100 for polynomials: `v` is one of the orders of the terms that `std::sort` with the comparator `mc` may
leave behind: a permutation of `u` without an inversion.  (`std::sort` is not stable, so the result is not unique.) -/
def SortResult (mc : Mono → Mono → Bool) (u v : PV Mono R) : Prop :=
  v.Perm u ∧ v.Pairwise fun a b => mc b.1 a.1 = false

/-- monomial.hh 31–42 `pair_vec_first_normalization` -/
def firstNormalize (vc : Var → Var → Bool) (p : PV Mono R) : PV Mono R := p.map fun t => (normalize vc t.1.data, t.2)

/-- basic_polynomial.hh 217–227 `normalization`, with `vecSort` in place of `std::sort` (see `SortResult`). -/
def polyNormalize [Zero R] [Add R] (vc : Var → Var → Bool) (mc : Mono → Mono → Bool) (p : PV Mono R) : PV Mono R :=
  pvMerge (vecSort (fun a b => !mc b.1 a.1) (firstNormalize vc p))

/-- polynomial_.hh 177–185 `operator+(polynomial_<Tc> O, Tc m)`.  `none`: `O.back()` on the empty vector, undefined behaviour.
`first.empty()` is "no variables" (basic_monomial.hh). -/
def polyAddConst [Add R] (O : PV Mono R) (m : R) : Option (PV Mono R) :=
  match O.getLast? with
  | none => none
  | some b => if b.1.data = [] then some (O.dropLast ++ [(b.1, b.2 + m)]) else some (O ++ [(Mono.one, m)])

/-- polynomial_.hh 145–150, 157–161 `operator-(polynomial_<Tc>, Tc)` and `operator-(polynomial_<Tc>, int64_t)` -/
def polySubConst [Add R] [Neg R] (O : PV Mono R) (m : R) : Option (PV Mono R) := polyAddConst O (-m)

/-- polynomial_.hh 151–156, 162–166 `operator-(Tc, polynomial_<Tc>)` -/
def constSubPoly [Add R] [Neg R] (m : R) (O : PV Mono R) : Option (PV Mono R) := polyAddConst (pvNeg O) m

/-- polynomial_.hh 191–199, 210–218: `O + m` and `O - m` for a monomial `m` (`c` is `1` or `-1`) -/
def polyAddMono [Zero R] [Add R] (mc : Mono → Mono → Bool) (O : PV Mono R) (m : Mono) (c : R) : PV Mono R :=
  match O.getLast? with
  | none => O ++ [(m, c)]
  | some b => if !mc b.1 m then pvAdd mc O [(m, c)] else O ++ [(m, c)]

/-- polynomial_.hh 83–94: `m1 + m2` and `m1 - m2` (`c2` is `1` or `-1`); the initializer-list constructor normalises -/
def monoAddMono [Zero R] [Add R] (vc : Var → Var → Bool) (mc : Mono → Mono → Bool) (m1 m2 : Mono) (c1 c2 : R) : PV Mono R :=
  if mc m1 m2 then polyNormalize vc mc [(m1, c1), (m2, c2)] else polyNormalize vc mc [(m2, c2), (m1, c1)]

/-- polynomial_.hh 98–116: `m + i`, `m - i`, `i + m`, `i - m` -/
def monoAddConst [Zero R] [Add R] (vc : Var → Var → Bool) (mc : Mono → Mono → Bool) (m : Mono) (c i : R) : PV Mono R :=
  polyNormalize vc mc [(m, c), (Mono.one, i)]

/-- polynomial_.hh 219–228 `operator*(polynomial_, Tc)` -/
def polyScale [Zero R] [Add R] [Mul R] (vc : Var → Var → Bool) (mc : Mono → Mono → Bool) (O : PV Mono R) (c : R) : PV Mono R :=
  if c = 0 then [] else polyNormalize vc mc (O.map fun t => (t.1, t.2 * c))

/-- basic.hh 877–896: the square-and-multiply loop of `pair_vec_power`; `b` is the flag, `init` is `init_v`.  The first argument
bounds the number of iterations (`i` is halved each time); `pvPower` passes `i`, which is enough. -/
def polyPowLoop [Zero R] [Add R] [Mul R] (vc : Var → Var → Bool) (C : OrderCode R) :
    (fuel i : Nat) → (init p : PV Mono R) → (b : Bool) → Option (PV Mono R)
  | 0, i, init, _, _ => if i = 0 then some init else none
  | fuel + 1, i, init, p, b =>
    if i = 0 then some init else
      (if i % 2 ≠ 0 then (if b then some p else polyMul vc C init p) else some init).bind fun init' =>
        if i / 2 ≠ 0 then (polyMul vc C p p).bind fun p' => polyPowLoop vc C fuel (i / 2) init' p' (if i % 2 ≠ 0 then false else b)
        else some init'

/-- basic.hh 856–897 `pair_vec_power` -/
def pvPower [Zero R] [Add R] [Mul R] (vc : Var → Var → Bool) (C : OrderCode R) (init v : PV Mono R) (i : Nat) :
    Option (PV Mono R) :=
  if i = 0 then some init else if i = 1 then some v else polyPowLoop vc C i i init v true

/-- polynomial_.hh 37–67 `pow(p, i)`, `i ≥ 0` (asserted) -/
def polyPow [Zero R] [Add R] [Mul R] [One R] (vc : Var → Var → Bool) (C : OrderCode R) (p : PV Mono R) (i : Nat) :
    Option (PV Mono R) :=
  if p = [] then (if i = 0 then some [(Mono.one, 1)] else some []) else
    match i with
    | 0 => some [(Mono.one, 1)]
    | 1 => some p
    | 2 => polyMul vc C p p
    | 3 => (polyMul vc C p p).bind fun q => polyMul vc C q p
    | i => pvPower vc C [(Mono.one, 1)] p i

end
end CLPoly
